import Verif.Validate
/-!
# C42 — operator class validation
-/
namespace Rum.Props.Validate
open Rum.Validate

/-- How the access method calls a support function: number of arguments passed, and the type as
which the result is read.  From the call sites:
1 compare `FunctionCall2Coll` (rumutil.c:651), 2 extract value `FunctionCall5Coll` (rumutil.c:767),
3 extract query `FunctionCall7Coll` (rumscan.c:396), 4 consistent `FunctionCall10Coll` (rumget.c:170),
5 compare partial `FunctionCall4Coll` (rumget.c:371), 6 config `FunctionCall1` (rumutil.c:246),
7 pre-consistent `FunctionCall8Coll` (rumget.c:2061), 8 ordering `FunctionCall10Coll` or, for
functions declared with three arguments, `FunctionCall3` (rumget.c:2435, 2409),
9 outer ordering `FunctionCall3` (rumget.c:2394), 10 join `FunctionCall2` (rumget.c:1281). -/
def callArgs : Nat → Nat
  | 1 => 2 | 2 => 5 | 3 => 7 | 4 => 10 | 5 => 4 | 6 => 1 | 7 => 8 | 8 => 10 | 9 => 3 | 10 => 2
  | _ => 0

def callResult : Nat → Nat
  | 1 => INT4 | 2 => INTERNAL | 3 => INTERNAL | 4 => BOOL | 5 => INT4 | 6 => VOID | 7 => BOOL
  | 8 => FLOAT8 | 9 => FLOAT8 | 10 => BYTEA | _ => 0

/-- The argument of support function `num` that is not fixed by the access method: every other
argument has the same type in all operator classes. -/
def fixedArg : Nat → Nat → Option Nat
  | 2, i => if 1 ≤ i then some INTERNAL else none
  | 3, i => if i = 0 then none else if i = 2 then some INT2 else some INTERNAL
  | 4, i => if i = 2 then none else if i = 1 then some INT2 else if i = 3 then some INT4 else some INTERNAL
  | 5, i => if i = 2 then some INT2 else if i = 3 then some INTERNAL else none
  | 6, _ => some INTERNAL
  | 7, i => if i = 2 then none else if i = 1 then some INT2 else if i = 3 then some INT4 else some INTERNAL
  | 10, _ => some INTERNAL
  | _, _ => none

theorem foldl_false {α : Type} {f : Bool → α → Bool} (hf : ∀ a, f false a = false) (l : List α) :
    l.foldl f false = false := by
  induction l with
  | nil => rfl
  | cons x xs ih => rw [List.foldl_cons, hf, ih]

theorem foldl_true {α : Type} {f : Bool → α → Bool} (hf : ∀ a, f false a = false) (l : List α) (b : Bool) :
    l.foldl f b = true ↔ (b = true ∧ ∀ x ∈ l, f true x = true) := by
  induction l generalizing b with
  | nil => simp
  | cons x xs ih =>
    rw [List.foldl_cons, ih]
    cases b
    · simp [hf]
    · simp

theorem procStep_false (cat : Catalog) (c : OpClass) (p : ProcRow) : procStep cat c false p = false := by
  unfold procStep
  simp only [ite_self]
  split
  · rfl
  · split
    · rfl
    · rfl

theorem oprStep_false (cat : Catalog) (o : OprRow) : oprStep cat false o = false := by
  unfold oprStep
  simp only [ite_self]

theorem completeStep_false (g) (i : Nat) : completeStep g false i = false := by
  unfold completeStep
  simp only [ite_self]

theorem validate_true {cat : Catalog} {c : OpClass} (h : rumvalidate cat c = true) :
    (∀ p ∈ cat.procs, procStep cat c true p = true) ∧ (∀ o ∈ cat.oprs, oprStep cat true o = true) ∧
    (∀ i, 1 ≤ i → i ≤ 10 → completeStep (opclassGroup cat c) true i = true) ∧
    hasFn (opclassGroup cat c) 4 = true := by
  unfold rumvalidate at h
  simp only at h
  cases h4 : hasFn (opclassGroup cat c) 4
  · rw [h4] at h; simp at h
  · rw [h4] at h
    simp only [Bool.not_true, Bool.false_eq_true, if_false] at h
    rw [foldl_true (completeStep_false _), foldl_true (oprStep_false cat),
      foldl_true (procStep_false cat c)] at h
    refine ⟨h.1.1.2, h.1.2, ?_, rfl⟩
    intro i h1 h2
    exact h.2 i (by rw [List.mem_range'_1]; omega)

/-- **C42, required functions.** If validation succeeds, extract-value, extract-query and
consistent (2, 3, 4) are registered for the class' own input type. -/
theorem C42_required_present (cat : Catalog) (c : OpClass) (h : rumvalidate cat c = true) (i : Nat)
    (hi : i = 2 ∨ i = 3 ∨ i = 4) :
    ∃ p ∈ cat.procs, p.left = c.intype ∧ p.right = c.intype ∧ p.num = i := by
  have hg : hasFn (opclassGroup cat c) i = true := by
    obtain ⟨_, _, h3, _⟩ := validate_true h
    have := h3 i (by omega) (by omega)
    unfold completeStep at this
    by_cases hh : hasFn (opclassGroup cat c) i = true
    · exact hh
    · rw [if_neg hh, if_neg (by omega), if_neg (by omega)] at this; cases this
  unfold hasFn at hg
  split at hg
  · cases hg
  · next f hf =>
    unfold opclassGroup at hf
    split at hf
    · cases hf
    · split at hf
      · cases hf
        rw [List.any_eq_true] at hg
        obtain ⟨p, hp, hx⟩ := hg
        simp only [Bool.and_eq_true, beq_iff_eq, decide_eq_true_eq] at hx
        exact ⟨p, hp, hx.1.1.1.1, hx.1.1.1.2, hx.2⟩
      · cases hf

theorem checkAmproc_true {cat : Catalog} {fn ret min max : Nat} {args : List Nat}
    (h : checkAmproc cat fn ret min max args = true) :
    (cat.fn fn).ret = ret ∧ (cat.fn fn).retset = false ∧ min ≤ (cat.fn fn).args.length ∧
      (cat.fn fn).args.length ≤ max ∧
      ∀ i (hi : i < (cat.fn fn).args.length) (t : Nat), (args.take max)[i]? = some t →
        cat.coercible t (cat.fn fn).args[i] = true := by
  unfold checkAmproc at h
  simp only [Bool.and_eq_true, beq_iff_eq, Bool.not_eq_true', decide_eq_true_eq] at h
  obtain ⟨⟨⟨⟨h1, h2⟩, h3⟩, h4⟩, h5⟩ := h
  refine ⟨h1, h2, h3, h4, ?_⟩
  intro i hi t ht
  rw [List.all_eq_true] at h5
  have hm : (t, (cat.fn fn).args[i]) ∈ (List.zip (args.take max) (cat.fn fn).args) := by
    apply List.mem_of_getElem? (i := i)
    rw [List.getElem?_zip_eq_some]
    exact ⟨ht, List.getElem?_eq_getElem hi⟩
  exact h5 _ hm

/-- **C42, support functions.** If validation succeeds, every support function registered for the
class' input type has equal left and right types, a known number, returns (not as a set) the type
the access method reads, declares no more arguments than the access method passes, and the
arguments the access method fixes have coercible types. -/
theorem C42_signatures (cat : Catalog) (c : OpClass) (h : rumvalidate cat c = true)
    (p : ProcRow) (hp : p ∈ cat.procs) (hl : p.left = c.intype) :
    p.right = c.intype ∧ ∃ num : Nat, p.num = num ∧ 1 ≤ num ∧ num ≤ 10 ∧
      (cat.fn p.fn).ret = callResult num ∧ (cat.fn p.fn).retset = false ∧
      (cat.fn p.fn).args.length ≤ callArgs num ∧
      ∀ i (hi : i < (cat.fn p.fn).args.length) (t : Nat), fixedArg num i = some t →
        cat.coercible t (cat.fn p.fn).args[i] = true := by
  have hs := (validate_true h).1 p hp
  unfold procStep at hs
  simp only at hs
  rw [if_neg (by simp [hl])] at hs
  have hr : p.right = c.intype := by
    by_cases hx : p.left ≠ p.right
    · rw [if_pos hx] at hs
      split at hs
      · cases hs
      · split at hs <;> cases hs
    · rw [← hl]; exact (Decidable.not_not.mp hx).symm
  refine ⟨hr, ?_⟩
  cases hc : checkSupport cat c p.num p.fn with
  | none => rw [hc] at hs; cases hs
  | some ok =>
    rw [hc] at hs
    simp only at hs
    cases ok with
    | false => simp at hs
    | true =>
      clear hs
      unfold checkSupport at hc
      have key : ∀ (num ret min max : Nat) (args : List Nat),
          some (checkAmproc cat p.fn ret min max args) = some true → p.num = num → 1 ≤ num → num ≤ 10 →
          ret = callResult num → max ≤ callArgs num →
          (∀ i t, i < max → fixedArg num i = some t → (args.take max)[i]? = some t) →
          ∃ num : Nat, p.num = num ∧ 1 ≤ num ∧ num ≤ 10 ∧
            (cat.fn p.fn).ret = callResult num ∧ (cat.fn p.fn).retset = false ∧
            (cat.fn p.fn).args.length ≤ callArgs num ∧
            ∀ i (hi : i < (cat.fn p.fn).args.length) (t : Nat), fixedArg num i = some t →
              cat.coercible t (cat.fn p.fn).args[i] = true := by
        intro num ret min max args hk hn h1 h2 h3 h4 h5
        simp only [Option.some.injEq] at hk
        obtain ⟨e1, e2, e3, e4, e5⟩ := checkAmproc_true hk
        refine ⟨num, hn, h1, h2, by rw [e1, h3], e2, by omega, ?_⟩
        intro i hi t ht
        exact e5 i hi t (h5 i t (by omega) ht)
      repeat' split at hc
      all_goals first
        | cases hc
        | skip
      · exact key 1 _ _ _ _ hc (by assumption) (by decide) (by decide) rfl (by decide)
          (by intro i t _ hf; simp [fixedArg] at hf)
      · refine key 2 _ _ _ _ hc (by assumption) (by decide) (by decide) rfl (by decide) ?_
        intro i t hi hf
        rcases i with _ | _ | _ | _ | _ | i <;> simp [fixedArg] at hf ⊢ <;> first | exact hf | omega
      all_goals first
        | (refine key 3 _ _ _ _ hc (by assumption) (by decide) (by decide) rfl (by decide) ?_
           intro i t hi hf
           rcases i with _ | _ | _ | _ | _ | _ | _ | i <;> simp [fixedArg] at hf ⊢ <;> first | exact hf | omega)
        | (refine key 4 _ _ _ _ hc (by assumption) (by decide) (by decide) rfl (by decide) ?_
           intro i t hi hf
           rcases i with _ | _ | _ | _ | _ | _ | _ | _ | i <;> simp [fixedArg] at hf ⊢ <;> first | exact hf | omega)
        | (refine key 5 _ _ _ _ hc (by assumption) (by decide) (by decide) rfl (by decide) ?_
           intro i t hi hf
           rcases i with _ | _ | _ | _ | i <;> simp [fixedArg] at hf ⊢ <;> first | exact hf | omega)
        | (refine key 6 _ _ _ _ hc (by assumption) (by decide) (by decide) rfl (by decide) ?_
           intro i t hi hf
           rcases i with _ | i <;> simp [fixedArg] at hf ⊢ <;> first | exact hf | omega)
        | (refine key 7 _ _ _ _ hc (by assumption) (by decide) (by decide) rfl (by decide) ?_
           intro i t hi hf
           rcases i with _ | _ | _ | _ | _ | _ | _ | _ | i <;> simp [fixedArg] at hf ⊢ <;> first | exact hf | omega)
        | (refine key 8 _ _ _ _ hc (by assumption) (by decide) (by decide) rfl (by decide) ?_
           intro i t hi hf
           simp [fixedArg] at hf)
        | (refine key 9 _ _ _ _ hc (by assumption) (by decide) (by decide) rfl (by decide) ?_
           intro i t hi hf
           simp [fixedArg] at hf)
        | (refine key 10 _ _ _ _ hc (by assumption) (by decide) (by decide) rfl (by decide) ?_
           intro i t hi hf
           rcases i with _ | _ | i <;> simp [fixedArg] at hf ⊢ <;> first | exact hf | omega)

/-- **C42, operators.** If validation succeeds, every operator of the family has a strategy number
in 1..63 and is a binary operator on its registered types returning boolean, or, for ORDER BY,
`float4` on tsvector and `float8` on everything else. -/
theorem C42_operators (cat : Catalog) (c : OpClass) (h : rumvalidate cat c = true)
    (o : OprRow) (ho : o ∈ cat.oprs) :
    1 ≤ o.strategy ∧ o.strategy ≤ 63 ∧ (cat.op o.op).isBinary = true ∧
    (cat.op o.op).left = o.left ∧ (cat.op o.op).right = o.right ∧
    (cat.op o.op).result = (if o.orderBy then (if o.left = TSVECTOR then FLOAT4 else FLOAT8) else BOOL) := by
  have hs := (validate_true h).2.1 o ho
  have hA : ∀ r, checkAmop cat o.op r o.left o.right = true →
      (cat.op o.op).result = r ∧ (cat.op o.op).isBinary = true ∧
      (cat.op o.op).left = o.left ∧ (cat.op o.op).right = o.right := by
    intro r hr
    unfold checkAmop at hr
    simp only [Bool.and_eq_true, beq_iff_eq] at hr
    exact ⟨hr.1.1.1, hr.1.1.2, hr.1.2, hr.2⟩
  unfold oprStep at hs
  simp only at hs
  have hst : ¬ (o.strategy < 1 ∨ o.strategy > 63) := by
    intro hx
    rw [if_pos hx] at hs
    simp only [ite_self] at hs
    cases hs
  rw [if_neg hst] at hs
  have h1 : 1 ≤ o.strategy := by omega
  have h2 : o.strategy ≤ 63 := by omega
  cases hob : o.orderBy
  · rw [hob] at hs
    simp only [Bool.false_eq_true, if_false] at hs ⊢
    cases hk : checkAmop cat o.op BOOL o.left o.right
    · rw [hk] at hs; simp at hs
    · obtain ⟨e1, e2, e3, e4⟩ := hA _ hk
      exact ⟨h1, h2, e2, e3, e4, e1⟩
  · rw [hob] at hs
    simp only [if_true] at hs ⊢
    by_cases hT : o.left = TSVECTOR
    · rw [if_pos hT]
      cases hk : checkAmop cat o.op FLOAT4 o.left o.right
      · rw [if_pos ⟨hT, by rw [hk]; rfl⟩] at hs; cases hs
      · obtain ⟨e1, e2, e3, e4⟩ := hA _ hk
        exact ⟨h1, h2, e2, e3, e4, e1⟩
    · rw [if_neg hT]
      cases hk : checkAmop cat o.op FLOAT8 o.left o.right
      · rw [if_neg (fun hx => hT hx.1), if_pos ⟨hT, by rw [hk]; rfl⟩] at hs; cases hs
      · obtain ⟨e1, e2, e3, e4⟩ := hA _ hk
        exact ⟨h1, h2, e2, e3, e4, e1⟩

/-! ## A complete class is accepted -/

/-- A class like `rum_int4_ops`: int4 keys; functions 100.. with the declared signatures. -/
def exCat : Catalog where
  procs := [⟨INT4, INT4, 1, 101⟩, ⟨INT4, INT4, 2, 102⟩, ⟨INT4, INT4, 3, 103⟩, ⟨INT4, INT4, 4, 104⟩,
    ⟨INT4, INT4, 5, 105⟩, ⟨INT4, INT4, 6, 106⟩, ⟨INT4, INT4, 8, 108⟩, ⟨INT4, INT4, 9, 109⟩]
  oprs := [⟨INT4, INT4, 1, false, 201⟩, ⟨INT4, INT4, 20, true, 202⟩]
  fn := fun n =>
    if n = 101 then ⟨INT4, false, [INT4, INT4]⟩
    else if n = 102 then ⟨INTERNAL, false, [INT4, INTERNAL, INTERNAL, INTERNAL, INTERNAL]⟩
    else if n = 103 then ⟨INTERNAL, false, [INT4, INTERNAL, INT2, INTERNAL, INTERNAL]⟩
    else if n = 104 then ⟨BOOL, false, [INTERNAL, INT2, INTERNAL, INT4, INTERNAL, INTERNAL, INTERNAL, INTERNAL]⟩
    else if n = 105 then ⟨INT4, false, [INT4, INT4, INT2, INTERNAL]⟩
    else if n = 106 then ⟨VOID, false, [INTERNAL]⟩
    else ⟨FLOAT8, false, [INT4, INT4, INT2]⟩
  op := fun n => if n = 201 then ⟨true, BOOL, INT4, INT4⟩ else ⟨true, FLOAT8, INT4, INT4⟩
  coercible := fun a b => a == b
  ordered := true

/-- The hypothesis of the theorems is met; dropping the consistent function makes it fail. -/
theorem C42_witness :
    rumvalidate exCat ⟨INT4, 0⟩ = true ∧
    rumvalidate { exCat with procs := exCat.procs.filter (fun p => p.num ≠ 4) } ⟨INT4, 0⟩ = false ∧
    rumvalidate { exCat with procs := ⟨INT4, INT4, 11, 101⟩ :: exCat.procs } ⟨INT4, 0⟩ = false := by
  decide +kernel

end Rum.Props.Validate

import Verif.Scalar
import Verif.Props.Collect
/-!
# C54: searches by comparison on scalar columns return exactly the matching rows
-/
namespace Rum.Props.Scalar
open Rum Rum.Codec Rum.Leaf Rum.Entry Rum.Tree Rum.Index Rum.Extract Rum.Props Rum.Props.PostingTree Rum.Props.Index Rum.Props.IndexVacuum Rum.Props.Bulk
  Rum.Props.Query Rum.Props.Collect Rum.Bt Std

variable {V : Type}

/-! ### Specification -/

/-- `value OP datum` is true in SQL: the value is not NULL, and it compares as the operator says. -/
def True3 (cmp : V → V → Ordering) (op : Strategy) (datum : V) : Option V → Prop
  | none => False
  | some v => match op with
    | .lt => cmp v datum = .lt
    | .le => cmp v datum = .lt ∨ cmp v datum = .eq
    | .eq => cmp v datum = .eq
    | .ge => cmp v datum = .gt ∨ cmp v datum = .eq
    | .gt => cmp v datum = .gt

/-- The columns in the comparisons hold scalars: `col r a` is the value of column `a` in row `r`. -/
def ScalarColumns (rs : List (Row V)) (col : Row V → Nat → Option V) (cmps : List (Comparison V)) : Prop :=
  ∀ r ∈ rs, ∀ c ∈ cmps, r.value c.attnum = scalarValue (col r c.attnum)

/-- The value a search from the left starts with is the least. -/
def LeastOK (cmpK : Nat → V → V → Ordering) (leftmost : Nat → V) (cmps : List (Comparison V)) : Prop :=
  ∀ c ∈ cmps, c.op = .lt ∨ c.op = .le → ∀ x, cmpK c.attnum (leftmost c.attnum) x ≠ .gt

/-- What the theorems cover: columns of the index, ordered alike; `=` on a key whose posting tree has something on its leftmost page, unless there was no
VACUUM; where items are ordered by the attached column, no NULLs in it for other operators. -/
structure Covered (ix : Ix V) [Inhabited V] (rc : RowCfg V) (alternative vacuumed : Bool) (st : State V) (rs : List (Row V)) (cmps : List (Comparison V)) : Prop where
  low : ∀ c ∈ cmps, 1 ≤ c.attnum
  high : ∀ c ∈ cmps, c.attnum ≤ rc.natts
  kind : alternative = false ∨ (∀ c ∈ cmps, rc.addTo = some c.attnum) ∨ ∀ c ∈ cmps, rc.addTo ≠ some c.attnum
  first : ∀ c ∈ cmps, c.op = .eq → ∀ t, ix.treeOf st ⟨c.attnum, .norm, c.datum⟩ = some t → firstLeaf (st.trees t) ≠ [] ∨ vacuumed = false
  outer : ∀ c ∈ cmps, c.op ≠ .eq → alternative = true → rc.addTo = some c.attnum → ∀ r ∈ rs, r.outer.isSome = true

/-- The right answer: the scan ends; rows in order, each once; exactly those for which all comparisons are true; no recheck. -/
structure RightRows (cmp : Item Datum → Item Datum → Ordering) (rs : List (Row V)) (good : Row V → Prop) (out : List (Item Datum × Bool) × Bool) : Prop where
  ends : out.2 = true
  sorted : (out.1.map Prod.fst).Pairwise (fun a b => cmp a b = .lt)
  once : (out.1.map (fun p => p.1.iptr)).Nodup
  rows : ∀ tid, (∃ p ∈ out.1, p.1.iptr = tid) ↔ ∃ r ∈ rs, r.tid = tid ∧ good r
  recheck : ∀ p ∈ out.1, p.2 = false

/-- Searches by comparison give the right answers. -/
def Compares (ix : Ix V) [Inhabited V] (rc : RowCfg V) (alternative vacuumed : Bool)
    (tuplesort : (Item Datum → Item Datum → Ordering) → List (Item Datum) → List (Item Datum)) (join : Nat → Option (Datum → Datum → Datum)) (st : State V)
    (rs : List (Row V)) : Prop :=
  ∀ (leftmost : Nat → V) (col : Row V → Nat → Option V) (c : Comparison V) (cs : List (Comparison V)), ScalarColumns rs col (c :: cs) →
    LeastOK ix.cmpK leftmost (c :: cs) → Covered ix rc alternative vacuumed st rs (c :: cs) →
    ∃ N, ∀ n, N ≤ n → ∀ junk, ∃ out,
      ix.find rc alternative tuplesort join st junk n (c.clause ix.cmpK leftmost) (cs.map (fun d => d.clause ix.cmpK leftmost)) = some out ∧
      RightRows (ix.ctx c.attnum).cmp rs (fun r => ∀ d ∈ c :: cs, True3 (ix.cmpK d.attnum) d.op d.datum (col r d.attnum)) out

/-! ### Proof -/

section
variable {ix : Ix V} {leftmost : Nat → V} {c : Comparison V}

theorem look_ok {M : Lim} (hc : ColsOK ix M) (hl : c.op = .lt ∨ c.op = .le → ∀ x, ix.cmpK c.attnum (leftmost c.attnum) x ≠ .gt) :
    LookOK (ix.cmpK c.attnum) (c.look ix.cmpK leftmost) := by
  have := hc.keys
  obtain ⟨L, _, kk, k1, k2, k3⟩ := exists_key (ix.cmpK c.attnum)
  unfold Comparison.look
  cases ho : c.op with
  | eq => simp [extractQuery, LookOK]
  | lt =>
    simp only [extractQuery, if_true, LookOK]
    refine fun _ => ⟨fun x _ => hl (Or.inl ho) x, fun x y hx _ hxy => ?_, fun x y hxy => ?_⟩
    all_goals simp only [comparePrefix, true_or, if_true, k3, k2, ne_eq, _root_.not_lt] at *
    · split at hx
      · omega
      · next h =>
        have h := _root_.not_lt.1 h
        rw [if_neg (_root_.not_lt.2 (_root_.le_trans h hxy))]; omega
    · rw [hxy]; exact id
  | le =>
    simp only [extractQuery, if_true, LookOK]
    refine fun _ => ⟨fun x _ => hl (Or.inr ho) x, fun x y hx _ hxy => ?_, fun x y hxy => ?_⟩
    all_goals simp only [comparePrefix, or_true, if_true, k3, k2, k1, ne_eq, _root_.not_lt] at *
    · split at hx
      · omega
      · next h =>
        have h := _root_.not_le.1 h
        rw [if_neg (_root_.not_le.2 (_root_.lt_of_lt_of_le h hxy))]; omega
    · rw [hxy]; exact id
  | ge =>
    simp only [extractQuery, if_true, LookOK]
    refine fun _ => ⟨fun x hx => ?_, fun x y hx hd hxy => ?_, fun x y hxy => ?_⟩
    all_goals simp only [comparePrefix, reduceCtorEq, false_or, if_false, k3, k2, k1, ne_eq, _root_.not_lt] at *
    · split at hx
      · assumption
      · omega
    · rw [if_pos hd] at hx; omega
    · rw [hxy]; exact id
  | gt =>
    simp only [extractQuery, if_true, LookOK]
    refine fun _ => ⟨fun x hx => ?_, fun x y hx hd hxy => ?_, fun x y hxy => ?_⟩
    all_goals simp only [comparePrefix, reduceCtorEq, false_or, if_false, k3, k2, k1, ne_eq, _root_.not_lt] at *
    · split at hx
      · exact _root_.le_of_lt (by assumption)
      · split at hx <;> omega
    · split at hx
      · omega
      · next h =>
        rw [if_pos (_root_.le_antisymm hd (_root_.not_lt.1 h))] at hx; omega
    · rw [hxy]; exact id

/-- The entry looks for exactly the values for which the comparison is true. -/
theorem wants_iff {M : Lim} (hc : ColsOK ix M) (k : AttKey V) :
    Wants ix c.attnum (c.look ix.cmpK leftmost) k ↔ k.attnum = c.attnum ∧ k.cat = .norm ∧ True3 (ix.cmpK c.attnum) c.op c.datum (some k.key) := by
  have := hc.keys
  obtain ⟨L, _, kk, k1, k2, k3⟩ := exists_key (ix.cmpK c.attnum)
  unfold Wants Comparison.look
  refine and_congr_right (fun ha => ?_)
  cases ho : c.op with
  | eq =>
    simp only [extractQuery, Bool.false_eq_true, if_false, True3]
    unfold cmpAttEntries cmpEntries
    rw [if_neg (by simp [ha])]
    by_cases hn : k.cat = .norm
    · rw [if_neg (by simp [hn]), if_neg (by simp)]
      simp only [k2, hn, true_and]
      exact eq_comm
    · rw [if_pos (fun h => hn h.symm)]
      simp only [hn, false_and, iff_false]
      split <;> simp
  | lt =>
    simp only [extractQuery, if_true, True3, comparePrefix, true_or, k3, k1, true_and]
    refine and_congr_right (fun _ => ?_)
    split <;> simp_all
  | le =>
    simp only [extractQuery, if_true, True3, comparePrefix, or_true, k3, k2, k1, true_and, ne_eq, _root_.not_lt, ← _root_.le_iff_lt_or_eq]
    refine and_congr_right (fun _ => ?_)
    split <;> simp_all
  | ge =>
    simp only [extractQuery, if_true, True3, comparePrefix, reduceCtorEq, or_self, if_false, k3, k2, k1, true_and, ne_eq, _root_.not_lt]
    refine and_congr_right (fun _ => ?_)
    rw [eq_comm (a := kk k.key), ← _root_.le_iff_lt_or_eq]
    split <;> simp_all
  | gt =>
    simp only [extractQuery, if_true, True3, comparePrefix, reduceCtorEq, or_self, if_false, k3, k2, k1, true_and]
    refine and_congr_right (fun _ => ?_)
    split
    · simp_all
    · split <;> simp_all

theorem sees_iff {M : Lim} (hc : ColsOK ix M) {rc : RowCfg V} {join : Option (Datum → Datum → Datum)} {r : Row V} {v : Option V}
    (hv : r.value c.attnum = scalarValue v) {o : Option (Option Datum)} (h : Sees ix rc join r c.attnum (c.look ix.cmpK leftmost) o) :
    o.isSome = true ↔ True3 (ix.cmpK c.attnum) c.op c.datum v := by
  have := hc.keys
  have hkey : (∃ k, Wants ix c.attnum (c.look ix.cmpK leftmost) k ∧ Contains (ix.cmpK c.attnum) (r.value c.attnum) k) ↔
      True3 (ix.cmpK c.attnum) c.op c.datum v := by
    constructor
    · rintro ⟨k, hk, hcon⟩
      obtain ⟨h1, h2, h3⟩ := (wants_iff hc k).1 hk
      rw [hv] at hcon
      unfold Contains at hcon
      rw [h2] at hcon
      obtain ⟨raws, h4, q, hq, x, h5, h6⟩ := hcon
      cases v with
      | none => cases h4
      | some w =>
        simp only [scalarValue, Option.some.injEq] at h4
        subst h4
        simp only [List.mem_singleton] at hq
        subst hq
        simp only [Option.some.injEq] at h5
        subst h5
        obtain ⟨L, _, kk, k1, k2, k3⟩ := exists_key (ix.cmpK c.attnum)
        unfold True3 at h3 ⊢
        simp only [k1, k2, k3] at h3 h6 ⊢
        rw [h6]; exact h3
    · intro h
      cases v with
      | none => exact h.elim
      | some w =>
        refine ⟨⟨c.attnum, .norm, w⟩, (wants_iff hc _).2 ⟨rfl, rfl, h⟩, ?_⟩
        rw [hv]
        exact ⟨_, rfl, ⟨some w, none⟩, by simp, w, rfl, ReflCmp.compare_self (cmp := ix.cmpK c.attnum)⟩
  rw [← hkey]
  cases o with
  | none =>
    simp only [Option.isSome_none, Bool.false_eq_true, false_iff]
    rintro ⟨k, h1, h2⟩
    exact h k h1 h2
  | some i =>
    simp only [Option.isSome_some, true_iff]
    obtain ⟨ks, l, h1, h2, -⟩ := h
    obtain ⟨k, hk⟩ := List.exists_mem_of_ne_nil ks h1
    exact ⟨k, h2 k hk⟩

end

theorem compares_of_finds {ix : Ix V} [Inhabited V] {rc : RowCfg V} {alternative vacuumed : Bool} {M : Lim} (hc : ColsOK ix M)
    {tuplesort : (Item Datum → Item Datum → Ordering) → List (Item Datum) → List (Item Datum)} {join : Nat → Option (Datum → Datum → Datum)} {st : State V}
    {rs : List (Row V)} (H : Finds ix rc alternative vacuumed tuplesort join st rs) :
    Compares ix rc alternative vacuumed tuplesort join st rs := by
  obtain ⟨view, hv, hf⟩ := H
  intro leftmost col c cs hsc hl hcov
  have hcl : ∀ d ∈ c :: cs, ClauseOK ix rc alternative vacuumed st rs (d.clause ix.cmpK leftmost) := by
    intro d hd
    refine ⟨hcov.low d hd, hcov.high d hd, fun lk hlk => ?_⟩
    simp only [Comparison.clause, List.mem_singleton] at hlk
    subst hlk
    refine ⟨look_ok hc (hl d hd), ?_⟩
    cases ho : d.op with
    | eq =>
      have h1 : d.look ix.cmpK leftmost = ⟨.norm, d.datum, .exact⟩ := by simp [Comparison.look, extractQuery, ho]
      rw [h1]
      exact fun t ht => hcov.first d hd ho t ht
    | _ =>
      simp only [Comparison.look, extractQuery, ho, if_true]
      exact hcov.outer d hd (by simp [ho])
  have hcl' : ∀ d ∈ c.clause ix.cmpK leftmost :: cs.map (fun d => d.clause ix.cmpK leftmost), ClauseOK ix rc alternative vacuumed st rs d := by
    intro d hd
    rw [← List.map_cons (f := fun d : Comparison V => d.clause ix.cmpK leftmost)] at hd
    obtain ⟨e, he, rfl⟩ := List.mem_map.1 hd
    exact hcl e he
  have hkind : OneKind rc alternative (c.clause ix.cmpK leftmost :: cs.map (fun d => d.clause ix.cmpK leftmost)) := by
    rw [← List.map_cons (f := fun d : Comparison V => d.clause ix.cmpK leftmost)]
    rcases hcov.kind with h | h | h
    · exact Or.inl h
    · exact Or.inr (Or.inl (fun d hd => by obtain ⟨e, he, rfl⟩ := List.mem_map.1 hd; exact h e he))
    · exact Or.inr (Or.inr (fun d hd => by obtain ⟨e, he, rfl⟩ := List.mem_map.1 hd; exact h e he))
  obtain ⟨N, hN⟩ := hf _ _ hcl' hkind
  have hacc : ∀ r ∈ rs, ∀ d ∈ c :: cs, Accepted (d.clause ix.cmpK leftmost) (view r (d.clause ix.cmpK leftmost)) ↔
      True3 (ix.cmpK d.attnum) d.op d.datum (col r d.attnum) := by
    intro r hr' d hd
    have h1 := hv r hr' _ (hcl d hd)
    generalize view r (d.clause ix.cmpK leftmost) = w at h1
    have h2 : ∃ o, w = [o] ∧ Sees ix rc (join d.attnum) r d.attnum (d.look ix.cmpK leftmost) o := by
      obtain ⟨o, l, g1, g2, rfl⟩ := List.forall₂_cons_left_iff.1 h1
      rw [List.forall₂_nil_left_iff.1 g2]
      exact ⟨o, rfl, g1⟩
    obtain ⟨o, rfl, ho⟩ := h2
    rw [← sees_iff hc (hsc r hr' d hd) ho]
    simp [Collect.Accepted, Comparison.clause]
  refine ⟨N, fun n hn junk => ?_⟩
  obtain ⟨out, h1, h2⟩ := hN n hn junk
  refine ⟨out, h1, h2.ends, h2.sorted, h2.once, fun tid => ?_, fun p hp => ?_⟩
  · rw [h2.rows]
    constructor
    · rintro ⟨r, hr', he, h⟩
      refine ⟨r, hr', he, fun d hd => (hacc r hr' d hd).1 (h _ ?_)⟩
      rw [← List.map_cons (f := fun d : Comparison V => d.clause ix.cmpK leftmost)]
      exact List.mem_map_of_mem hd
    · rintro ⟨r, hr', he, h⟩
      refine ⟨r, hr', he, fun d hd => ?_⟩
      rw [← List.map_cons (f := fun d : Comparison V => d.clause ix.cmpK leftmost)] at hd
      obtain ⟨e, he', rfl⟩ := List.mem_map.1 hd
      exact (hacc r hr' e he').2 (h e he')
  · obtain ⟨r, hr', he, -⟩ := (h2.rows p.1.iptr).1 ⟨p, hp, rfl⟩
    cases hb : p.2 with
    | false => rfl
    | true =>
      obtain ⟨d, hd, h3⟩ := (h2.recheck p hp r hr' he).1 hb
      rw [← List.map_cons (f := fun d : Comparison V => d.clause ix.cmpK leftmost)] at hd
      obtain ⟨e, he', rfl⟩ := List.mem_map.1 hd
      cases h3

/-! ### Properties -/

/-- **C54.** After CREATE INDEX on a table with any rows and any sequence of insertions and VACUUMs, a search by any number of comparisons
`column OP value` with `<`, `<=`, `=`, `>=`, `>` on scalar columns returns exactly the rows for which all of them are true, each once, in order, without recheck.
Missing: what `Covered` excludes (see C53), and types whose leftmost value is not the least (`C34_char_violated`, `C34_interval_violated`). -/
theorem C54_comparisons_partial (ix : Ix V) [Inhabited V] (rc : RowCfg V) (alternative : Bool) (n : Nat) (hc : ColsOK ix ⟨n, true⟩) (hal : ∀ k, 8 ∣ ix.keySize k)
    (hs : ∀ a, SortOK (ix.cmpK a) (rc.sort a)) (hd : ∀ a, DupsSeen (ix.cmpK a) (rc.haveDups a)) (ho : OptionsOK ix rc alternative)
    (qsort tuplesort : (Item Datum → Item Datum → Ordering) → List (Item Datum) → List (Item Datum)) (hq : Sorts qsort) (htp : Sorts tuplesort)
    (join : Nat → Option (Datum → Datum → Datum)) (hj : alternative = true → ∀ a, rc.addTo = some a → join a = none) (full : Nat → Bool)
    (rs : List (Row V)) (hok : ∀ r ∈ rs, RowOK ix rc ⟨n, false⟩ r) (hlen : ∀ r ∈ rs, ∀ a, (ix.colEntries rc a r).length < 2 ^ 31)
    (htid : (rs.map Row.tid).Nodup) (hord : alternative = true → rs.Pairwise (fun r q => cmpIptr r.tid q.tid = .lt))
    (evs : List (Event V)) (hev : Possible ix rc ⟨n, true⟩ rs evs) :
    ∃ st, runs ix rc (ix.buildIndex rc qsort full rs) evs = (st, true) ∧
      Compares ix rc alternative true tuplesort join st (evs.foldl Event.rows rs) := by
  obtain ⟨st, h1, L⟩ := Life.build hc hs hd qsort hq full rs hok hlen htid (fun a ha => hord (by rw [← (ho a).1]; exact ha))
  obtain ⟨t, h2, L'⟩ := L.runs hc hal rfl hs hd evs _ _ hev
  exact ⟨t, by rw [h1]; exact h2, compares_of_finds hc (Life.finds hc hs hd L' ho tuplesort htp join hj)⟩

/-- **C54, empty table.** The same for an index created on an empty table. -/
theorem C54_comparisons_from_empty_partial (ix : Ix V) [Inhabited V] (rc : RowCfg V) (alternative : Bool) (n : Nat) (hc : ColsOK ix ⟨n, true⟩)
    (hal : ∀ k, 8 ∣ ix.keySize k) (hs : ∀ a, SortOK (ix.cmpK a) (rc.sort a)) (hd : ∀ a, DupsSeen (ix.cmpK a) (rc.haveDups a))
    (ho : OptionsOK ix rc alternative) (tuplesort : (Item Datum → Item Datum → Ordering) → List (Item Datum) → List (Item Datum)) (htp : Sorts tuplesort)
    (join : Nat → Option (Datum → Datum → Datum)) (hj : alternative = true → ∀ a, rc.addTo = some a → join a = none)
    (evs : List (Event V)) (hev : Possible ix rc ⟨n, true⟩ [] evs) :
    ∃ st, runs ix rc (emptyIndex, true) evs = (st, true) ∧ Compares ix rc alternative true tuplesort join st (evs.foldl Event.rows []) := by
  have L : Life ix rc ⟨n, true⟩ emptyIndex [] := ⟨inv_empty ix hc, by simp, fun k y => by rw [rowsOf_empty ix hc]; simp [EntryOf]⟩
  obtain ⟨t, h2, L'⟩ := L.runs hc hal rfl hs hd evs _ _ hev
  exact ⟨t, h2, compares_of_finds hc (Life.finds hc hs hd L' ho tuplesort htp join hj)⟩

/-! ### Concrete case -/

def exLess : Comparison Nat := ⟨1, .lt, 9⟩
def exAtLeast : Comparison Nat := ⟨1, .ge, 7⟩
/-- The value of the first column. -/
def exCol (r : Row Nat) (a : Nat) : Option Nat := if a = 1 then (r.value 1).bind (fun l => l.head?.bind (·.key)) else none

/-- The hypotheses are met after the insertion of 7, NULL and 9. -/
def exScalars : List (Event Nat) :=
  [.insert ⟨⟨1, 1⟩, fun a => if a = 1 then some [⟨some 7, none⟩] else none, none⟩, .insert (exRow 2 none),
   .insert ⟨⟨3, 1⟩, fun a => if a = 1 then some [⟨some 9, none⟩] else none, none⟩]

example : ScalarColumns (exScalars.foldl Event.rows []) exCol [exLess, exAtLeast] ∧ LeastOK exIx.cmpK (fun _ => 0) [exLess, exAtLeast] ∧
    Covered exIx exRc false true (runs exIx exRc (emptyIndex, true) exScalars).1 (exScalars.foldl Event.rows []) [exLess, exAtLeast] := by
  have hat : ∀ c ∈ [exLess, exAtLeast], c.attnum = 1 ∧ c.op ≠ .eq := by decide
  refine ⟨?_, ?_, ⟨?_, ?_, Or.inl rfl, ?_, ?_⟩⟩
  · intro r hr c hc
    simp only [exScalars, List.foldl_cons, List.foldl_nil, Event.rows, List.nil_append, List.cons_append, List.mem_cons, List.not_mem_nil, or_false] at hr
    rw [(hat c hc).1]
    rcases hr with rfl | rfl | rfl <;> rfl
  · intro c hc _ x
    show compare 0 x ≠ .gt
    rw [ne_eq, Nat.compare_eq_gt]; omega
  · intro c hc; rw [(hat c hc).1]
  · intro c hc; rw [(hat c hc).1]; decide
  · intro c hc h; exact absurd h (hat c hc).2
  · intro c hc _ h; cases h

example : (exIx.find exRc false altSort (fun _ => none) (runs exIx exRc (emptyIndex, true) exScalars).1 ⟨⟨0, 0⟩, none⟩ 20
      (exLess.clause exIx.cmpK (fun _ => 0)) [exAtLeast.clause exIx.cmpK (fun _ => 0)]).map (fun o => (o.1.map (fun p => (p.1.iptr, p.2)), o.2)) =
    some ([(⟨1, 1⟩, false)], true) := by decide +kernel

end Rum.Props.Scalar

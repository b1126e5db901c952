import Verif.Extract
/-
Property theorem C18: entries extracted from a column value.
-/
set_option linter.unusedSectionVars false
namespace Rum.Props
open Rum Rum.Extract Std

variable {K V : Type}

/-! ### Specification vocabulary -/

/-- The sort is right: it returns a permutation, sorted by the comparator, whatever its algorithm. -/
structure SortOK (cmpK : K → K → Ordering) (sort : List (Raw K V) → List (Raw K V)) : Prop where
  perm : ∀ l, (sort l).Perm l
  sorted : ∀ l, (sort l).Pairwise (fun a b => cmpExtract cmpK a.key b.key ≠ .gt)

/-- The comparator cannot miss duplicates: a sort has compared every two neighbours of its result. -/
def DupsSeen (cmpK : K → K → Ordering) (haveDups : List (Raw K V) → Bool) : Prop :=
  ∀ l, haveDups l = false → l.Pairwise (fun a b => cmpExtract cmpK a.key b.key ≠ .eq)

/-- Order of the entries within the index: by category, then by key (C04). -/
def outBefore (cmpK : K → K → Ordering) (a b : Out K V) : Prop :=
  a.cat.code < b.cat.code ∨ (a.cat = .norm ∧ b.cat = .norm ∧ ∃ x y, a.key = some x ∧ b.key = some y ∧ cmpK x y = .lt)

/-! ### Helpers -/

theorem dedup_sub (cmpK : K → K → Ordering) (l : List (Raw K V)) : ∀ p r, r ∈ dedup cmpK p l → r ∈ l := by
  induction l with
  | nil => intro p r h; simp [dedup] at h
  | cons a l ih =>
    intro p r h
    rw [dedup] at h
    split at h
    · rcases List.mem_cons.1 h with h | h
      · simp [h]
      · simp [ih a r h]
    · simp [ih a r h]

theorem dedup_ok (cmpK : K → K → Ordering) [TransCmp cmpK] (l : List (Raw K V)) : ∀ p,
    (p :: l).Pairwise (fun a b => cmpExtract cmpK a.key b.key ≠ .gt) →
    (p :: dedup cmpK p l).Pairwise (fun a b => cmpExtract cmpK a.key b.key = .lt) ∧
    ∀ r ∈ p :: l, ∃ q ∈ p :: dedup cmpK p l, cmpExtract cmpK q.key r.key = .eq := by
  induction l with
  | nil =>
    intro p _
    refine ⟨by simp [dedup], fun r hr => ⟨p, by simp, ?_⟩⟩
    simp at hr; subst hr; exact ReflCmp.compare_self
  | cons a l ih =>
    intro p h
    obtain ⟨h1, h2⟩ := List.pairwise_cons.1 h
    obtain ⟨i1, i2⟩ := ih a h2
    rw [dedup]
    by_cases hc : cmpRaw cmpK p a ≠ .eq
    · rw [if_pos hc]
      have hlt : cmpExtract cmpK p.key a.key = .lt := by
        cases hx : cmpExtract cmpK p.key a.key with
        | lt => rfl
        | eq => exact absurd hx hc
        | gt => exact absurd hx (h1 a (by simp))
      refine ⟨List.pairwise_cons.2 ⟨fun b hb => ?_, i1⟩, fun r hr => ?_⟩
      · rcases List.mem_cons.1 hb with rfl | hb'
        · exact hlt
        · exact TransCmp.lt_trans hlt ((List.pairwise_cons.1 i1).1 b hb')
      · rcases List.mem_cons.1 hr with rfl | hr'
        · exact ⟨r, by simp, ReflCmp.compare_self⟩
        · obtain ⟨q, hq, e⟩ := i2 r hr'
          exact ⟨q, List.mem_cons_of_mem _ hq, e⟩
    · rw [if_neg hc]
      have heq : cmpExtract cmpK p.key a.key = .eq := by
        simp only [ne_eq, Classical.not_not] at hc; exact hc
      obtain ⟨j1, j2⟩ := List.pairwise_cons.1 i1
      refine ⟨List.pairwise_cons.2 ⟨fun b hb => TransCmp.lt_of_eq_of_lt heq (j1 b hb), j2⟩, fun r hr => ?_⟩
      rcases List.mem_cons.1 hr with rfl | hr'
      · exact ⟨r, by simp, ReflCmp.compare_self⟩
      · obtain ⟨q, hq, e⟩ := i2 r hr'
        rcases List.mem_cons.1 hq with rfl | hq'
        · exact ⟨p, by simp, TransCmp.eq_trans heq e⟩
        · exact ⟨q, List.mem_cons_of_mem _ hq', e⟩

theorem toOut_before (cmpK : K → K → Ordering) (a b : Raw K V) (h : cmpExtract cmpK a.key b.key = .lt) :
    outBefore cmpK (toOut a) (toOut b) := by
  unfold outBefore toOut
  cases ha : a.key <;> cases hb : b.key <;> rw [ha, hb] at h <;> simp [cmpExtract] at h
  · simp [Cat.code]
  · right; simp [h]

/-! ### C18 -/

/-- **C18.** Whatever the key type's order, the sorting algorithm and the keys the operator class delivers: a NULL column
gives one NULL-item placeholder, a value without keys one empty-item placeholder, and otherwise the entries are strictly
sorted in index order (so distinct, NULL key last), each is one of the delivered keys with its own additional info and the
category that says whether the key is NULL, and every delivered key is among them. -/
theorem C18_extract (cmpK : K → K → Ordering) [TransCmp cmpK] (sort : List (Raw K V) → List (Raw K V))
    (haveDups : List (Raw K V) → Bool) (hs : SortOK cmpK sort) (hd : DupsSeen cmpK haveDups) :
    extractEntries cmpK sort haveDups none = [⟨.nullItem, none, none⟩] ∧
    extractEntries cmpK sort haveDups (some []) = [⟨.emptyItem, none, none⟩] ∧
    ∀ raws, raws ≠ [] →
      let out := extractEntries cmpK sort haveDups (some raws)
      out ≠ [] ∧ out.Pairwise (outBefore cmpK) ∧
      (∀ e ∈ out, ∃ r ∈ raws, e.key = r.key ∧ e.info = r.info ∧ (e.cat = .nullKey ↔ r.key = none) ∧ (e.cat = .norm ↔ r.key ≠ none)) ∧
      (∀ r ∈ raws, ∃ e ∈ out, cmpExtract cmpK e.key r.key = .eq) := by
  refine ⟨rfl, rfl, fun raws hne => ?_⟩
  have hcat : ∀ r : Raw K V, ((toOut r).cat = .nullKey ↔ r.key = none) ∧ ((toOut r).cat = .norm ↔ r.key ≠ none) := by
    intro r; unfold toOut; cases r.key <;> simp
  -- all cases deliver `l.map toOut` for a good list `l`
  suffices h : ∃ l, extractEntries cmpK sort haveDups (some raws) = l.map toOut ∧ l ≠ [] ∧
      l.Pairwise (fun a b => cmpExtract cmpK a.key b.key = .lt) ∧ (∀ r ∈ l, r ∈ raws) ∧
      ∀ r ∈ raws, ∃ q ∈ l, cmpExtract cmpK q.key r.key = .eq by
    obtain ⟨l, h1, h2, h3, h4, h5⟩ := h
    simp only [h1]
    refine ⟨by simpa using h2, ?_, fun e he => ?_, fun r hr => ?_⟩
    · rw [List.pairwise_map]
      exact h3.imp (fun h => toOut_before cmpK _ _ h)
    · obtain ⟨r, hr, rfl⟩ := List.mem_map.1 he
      exact ⟨r, h4 r hr, rfl, rfl, hcat r⟩
    · obtain ⟨q, hq, e⟩ := h5 r hr
      exact ⟨toOut q, List.mem_map_of_mem hq, e⟩
  match raws, hne with
  | [r], _ =>
    exact ⟨[r], rfl, by simp, by simp, by simp, fun q hq => ⟨r, by simp, by simp at hq; subst hq; exact ReflCmp.compare_self⟩⟩
  | r1 :: r2 :: rest, _ =>
    have hp := hs.perm (r1 :: r2 :: rest)
    have hso := hs.sorted (r1 :: r2 :: rest)
    simp only [extractEntries]
    cases hsort : sort (r1 :: r2 :: rest) with
    | nil => rw [hsort] at hp; exact absurd hp.length_eq (by simp)
    | cons r rs =>
      rw [hsort] at hp hso
      obtain ⟨d1, d2⟩ := dedup_ok cmpK rs r hso
      cases hdup : haveDups (r1 :: r2 :: rest) with
      | true =>
        refine ⟨r :: dedup cmpK r rs, by simp, by simp, d1, fun q hq => ?_, fun q hq => ?_⟩
        · apply hp.mem_iff.1
          rcases List.mem_cons.1 hq with rfl | h
          · simp
          · exact List.mem_cons_of_mem _ (dedup_sub cmpK rs r q h)
        · exact d2 q (hp.mem_iff.2 hq)
      | false =>
        have hno := hd _ hdup
        refine ⟨r :: rs, by simp, by simp, ?_, fun q hq => hp.mem_iff.1 hq, fun q hq => ⟨q, hp.mem_iff.2 hq, ReflCmp.compare_self⟩⟩
        have hno' : (r :: rs).Pairwise (fun a b => cmpExtract cmpK a.key b.key ≠ .eq) := by
          refine (hp.pairwise_iff ?_).2 hno
          intro a b h he
          exact h (OrientedCmp.eq_symm he)
        refine (hso.and hno').imp ?_
        rintro a b ⟨h1, h2⟩
        cases hc : cmpExtract cmpK a.key b.key with
        | lt => rfl
        | eq => exact absurd hc h2
        | gt => exact absurd hc h1

/-- The hypotheses are met, for instance by merge sort with duplicates always assumed; a value with a NULL key, a
duplicate and additional info. -/
example : SortOK (V := Nat) (compare : Nat → Nat → Ordering) (fun l => l.mergeSort (fun a b => (cmpExtract compare a.key b.key).isLE)) ∧
    DupsSeen (V := Nat) (compare : Nat → Nat → Ordering) (fun _ => true) := by
  refine ⟨⟨fun l => List.mergeSort_perm _ _, fun l => ?_⟩, fun l h => by cases h⟩
  have := List.pairwise_mergeSort (l := l) (le := fun a b : Raw Nat Nat => (cmpExtract compare a.key b.key).isLE)
    (fun a b c h1 h2 => TransCmp.isLE_trans h1 h2) (fun a b => by
      rw [OrientedCmp.eq_swap (cmp := cmpExtract compare) (a := b.key) (b := a.key)]
      cases cmpExtract compare a.key b.key <;> simp)
  exact this.imp (fun h hc => by rw [hc] at h; cases h)

example : (extractEntries (compare : Nat → Nat → Ordering) (fun l => l.reverse) (fun _ => true)
    (some [⟨none, some 7⟩, ⟨some 5, none⟩, ⟨some 5, some 9⟩])).map (fun e => (e.key, e.info)) =
    [(some 5, some 9), (none, some 7)] := by decide

end Rum.Props

import Verif.Props.Collect
/-!
# From the entries of a condition to the rows a user sees
-/
namespace Rum.Props.Search
open Rum Rum.Codec Rum.Leaf Rum.Entry Rum.Tree Rum.Index Rum.Extract Rum.Props Rum.Props.PostingTree Rum.Props.Index Rum.Props.IndexVacuum Rum.Props.Bulk
  Rum.Props.Query Rum.Props.Collect Std

variable {V : Type}

/-- The right answer to a search over a table with rows `rs`, of which those with `good` are asked for: the scan ends; no row twice; every good row is returned;
every row returned is one of the table, and good unless the executor is told to check it; if `exact_`, there is nothing to check. -/
structure RightAnswer (rs : List (Row V)) (good : Row V → Prop) (exact_ : Prop) (out : List (Item Datum × Bool) × Bool) : Prop where
  ends : out.2 = true
  once : (out.1.map (fun p => p.1.iptr)).Nodup
  complete : ∀ r ∈ rs, good r → ∃ p ∈ out.1, p.1.iptr = r.tid
  sound : ∀ p ∈ out.1, ∃ r ∈ rs, r.tid = p.1.iptr ∧ (p.2 = false → good r)
  unchecked : exact_ → ∀ p ∈ out.1, p.2 = false

/-- A scan key decides rightly about a row, whatever truthful view of the row it is given. -/
def Judges (ix : Ix V) (rc : RowCfg V) (join : Nat → Option (Datum → Datum → Datum)) (r : Row V) (c : Clause V) (good exact_ : Prop) : Prop :=
  ∀ w, List.Forall₂ (Sees ix rc (join c.attnum) r c.attnum) c.looks w →
    (good → Collect.Accepted c w) ∧ (Collect.Accepted c w → (c.cons w).2 = false → good) ∧ (Collect.Accepted c w → exact_ → (c.cons w).2 = false)

/-- Scan keys that decide rightly give the right answer. -/
theorem answer_of_judges {ix : Ix V} [Inhabited V] {rc : RowCfg V} {alternative vacuumed : Bool}
    {tuplesort : (Item Datum → Item Datum → Ordering) → List (Item Datum) → List (Item Datum)} {join : Nat → Option (Datum → Datum → Datum)} {st : State V}
    {rs : List (Row V)} (H : Finds ix rc alternative vacuumed tuplesort join st rs) {C : Type} (f : C → Clause V) (c : C) (cs : List C)
    (hcl : ∀ d ∈ c :: cs, ClauseOK ix rc alternative vacuumed st rs (f d)) (hk : OneKind rc alternative (f c :: cs.map f))
    {good : Row V → C → Prop} {exact_ : C → Prop} (hj : ∀ r ∈ rs, ∀ d ∈ c :: cs, Judges ix rc join r (f d) (good r d) (exact_ d)) :
    ∃ N, ∀ n, N ≤ n → ∀ junk, ∃ out, ix.find rc alternative tuplesort join st junk n (f c) (cs.map f) = some out ∧
      RightAnswer rs (fun r => ∀ d ∈ c :: cs, good r d) (∀ d ∈ c :: cs, exact_ d) out := by
  obtain ⟨view, hv, hf⟩ := H
  have hcl' : ∀ d ∈ f c :: cs.map f, ∃ e ∈ c :: cs, d = f e := by
    intro d hd
    rw [← List.map_cons (f := f)] at hd
    obtain ⟨e, he, rfl⟩ := List.mem_map.1 hd
    exact ⟨e, he, rfl⟩
  have hcl'' : ∀ e ∈ c :: cs, f e ∈ f c :: cs.map f := by
    intro e he
    rw [← List.map_cons (f := f)]
    exact List.mem_map_of_mem he
  obtain ⟨N, hN⟩ := hf (f c) (cs.map f) (fun d hd => by obtain ⟨e, he, rfl⟩ := hcl' d hd; exact hcl e he) hk
  have hrow : ∀ r ∈ rs, ∀ d ∈ c :: cs, _ := fun r hr d hd => hj r hr d hd _ (hv r hr _ (hcl d hd))
  refine ⟨N, fun n hn junk => ?_⟩
  obtain ⟨out, h1, h2⟩ := hN n hn junk
  refine ⟨out, h1, h2.ends, h2.once, fun r hr hg => ?_, fun p hp => ?_, fun hex p hp => ?_⟩
  · refine (h2.rows r.tid).2 ⟨r, hr, rfl, fun d hd => ?_⟩
    obtain ⟨e, he, rfl⟩ := hcl' d hd
    exact (hrow r hr e he).1 (hg e he)
  · obtain ⟨r, hr, he, hacc⟩ := (h2.rows p.1.iptr).1 ⟨p, hp, rfl⟩
    refine ⟨r, hr, he, fun hp2 d hd => ?_⟩
    refine (hrow r hr d hd).2.1 (hacc _ (hcl'' d hd)) ?_
    cases hb : ((f d).cons (view r (f d))).2 with
    | false => rfl
    | true =>
      have := (h2.recheck p hp r hr he).2 ⟨_, hcl'' d hd, hb⟩
      rw [hp2] at this; cases this
  · obtain ⟨r, hr, he, hacc⟩ := (h2.rows p.1.iptr).1 ⟨p, hp, rfl⟩
    cases hb : p.2 with
    | false => rfl
    | true =>
      obtain ⟨d, hd, h3⟩ := (h2.recheck p hp r hr he).1 hb
      obtain ⟨e, he', rfl⟩ := hcl' d hd
      rw [(hrow r hr e he').2.2 (hacc _ hd) (hex e he')] at h3
      cases h3

end Rum.Props.Search

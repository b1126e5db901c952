import Verif.Props.RankNorm
/-!
# C83: the distance from the index is finite exactly for documents that match
-/
namespace Rum.Props.RankIndexSign
open Rum Rum.Codec Rum.Ts Rum.Rank Rum.Pos Rum.FullText Rum.Props.FullText Rum.Props.Rank Rum.Props.RankNorm Std
open Rum.Props.RankCovers (Positive Sat For)

variable {F L : Type}

/-! ### Proof -/

theorem positive_keyed (cmpL : L → L → Ordering) (ops : List (Opnd L)) (q : Query (Opnd L)) : Positive q → Positive (keyed cmpL ops q) := by
  induction q with
  | val o w => exact fun _ => trivial
  | not q _ => exact fun h => h.elim
  | and l r hl hr => exact fun hp => ⟨hl hp.1, hr hp.2⟩
  | or l r hl hr => exact fun hp => ⟨hl hp.1, hr hp.2⟩
  | phrase _ l r _ _ => exact fun h => h.elim

theorem holds_keyed (cmpL : L → L → Ordering) (ops : List (Opnd L)) (T : Nat → Prop) (q : Query (Opnd L)) :
    RankCovers.Holds T (keyed cmpL ops q) ↔ RankCovers.Holds (fun o => T ((mapItem cmpL ops o).getD 0)) q := by
  induction q with
  | val o w => exact Iff.rfl
  | not q ih => simp only [keyed, RankCovers.Holds]; rw [ih]
  | and l r il ir => simp only [keyed, RankCovers.Holds]; rw [il, ir]
  | or l r il ir => simp only [keyed, RankCovers.Holds]; rw [il, ir]
  | phrase d l r => exact Iff.rfl

/-- What is in the array comes from an entry that is present. -/
theorem addinfo_sound (cmpL : L → L → Ordering) (ops : List (Opnd L)) (base : Nat) (vw : List (Option (Option Datum))) :
    ∀ (its : List (Option (Opnd L))) (i : Nat) (seen : List Nat), ∀ d ∈ addinfoLoop cmpL ops base vw i seen its,
      ∃ k x, d.slots = [k] ∧ vw[k]? = some (some (some x)) ∧ ∃ y ∈ storedPos (dataBytes x), d.pos = wepPos y := by
  intro its
  induction its with
  | nil => intro i seen d hd; simp [addinfoLoop] at hd
  | cons it its ih =>
    intro i seen d hd
    cases it with
    | none => exact ih _ _ d hd
    | some o =>
      simp only [addinfoLoop] at hd
      split at hd
      · exact ih _ _ d hd
      · split at hd
        · exact ih _ _ d hd
        · exact ih _ _ d hd
        · rename_i x hx
          rcases List.mem_append.1 hd with hd | hd
          · obtain ⟨y, hy, rfl⟩ := List.mem_map.1 hd
            exact ⟨_, x, rfl, Option.join_eq_some_iff.1 hx, y, hy, rfl⟩
          · exact ih _ _ d hd

/-- An entry that is present with positions is in the array. -/
theorem addinfo_complete (cmpL : L → L → Ordering) (ops : List (Opnd L)) (base : Nat) (vw : List (Option (Option Datum))) {o : Opnd L} {x : Datum}
    (hx : vw[(mapItem cmpL ops o).getD 0]? = some (some (some x))) (hne : storedPos (dataBytes x) ≠ []) :
    ∀ (its : List (Option (Opnd L))) (i : Nat) (seen : List Nat), some o ∈ its → (mapItem cmpL ops o).getD 0 ∉ seen →
      ∃ d ∈ addinfoLoop cmpL ops base vw i seen its, (mapItem cmpL ops o).getD 0 ∈ d.slots := by
  intro its
  induction its with
  | nil => intro i seen h; simp at h
  | cons it its ih =>
    intro i seen ho hs
    cases it with
    | none => exact ih _ _ (by simpa using ho) hs
    | some p =>
      simp only [addinfoLoop]
      by_cases hp : (mapItem cmpL ops p).getD 0 = (mapItem cmpL ops o).getD 0
      · rw [hp, if_neg hs, hx]
        obtain ⟨y, hy⟩ := List.exists_mem_of_ne_nil _ hne
        exact ⟨_, List.mem_append_left _ (List.mem_map.2 ⟨y, hy, rfl⟩), by simp⟩
      · have ho' : some o ∈ its := by
          rcases List.mem_cons.1 ho with h | h
          · cases h; exact absurd rfl hp
          · exact h
        have hs' : (mapItem cmpL ops o).getD 0 ∉ (mapItem cmpL ops p).getD 0 :: seen := by
          simp only [List.mem_cons, not_or]
          exact ⟨fun h => hp h.symm, hs⟩
        split
        · exact ih _ _ ho' hs
        · split
          · exact ih _ _ ho' hs
          · exact ih _ _ ho' hs'
          · obtain ⟨d, h1, h2⟩ := ih (i + 1) _ ho' hs'
            exact ⟨d, List.mem_append_right _ h1, h2⟩

theorem scoreDocr_norm (o : Norms F) (idx : Bool) (q : Query Nat) (len : Nat) (doc : List DocR) : scoreDocr o.toFloats idx q len doc = scoreDocrN o idx q len doc 0 := by
  simp [scoreDocr, scoreDocrN, normExt, coverGroups]

theorem items_mem_of {O : Type} {q : Query O} {o : O} (h : o ∈ operands q) : some o ∈ items q := by
  have := (items_operands q).mem_iff.2 h
  simpa [List.mem_filterMap] using this

/-- **C83.** For a query of AND, OR and words, and a document all of whose words have positions, the score rum_tsquery_distance computes from what the
index tells it is positive if the document satisfies the query and zero if not: the index never orders a matching document at infinity. -/
theorem C83_index_distance {o : Norms F} {Pos : F → Prop} (hs : Signs o Pos) {cmpL : L → L → Ordering} [TransCmp cmpL] [LawfulEqCmp cmpL] (begins : L → L → Bool)
    {osort : List (Opnd L) → List (Opnd L)} (hos : SortsOpnds cmpL osort) (base : Nat) {sort : List DocR → List DocR} (hsort : SortsByPos sort) {attr : Attr}
    {P : Nat} {v : TsVector L} (hv : VecOK P v) (hpl : Placed v) {q : Query (Opnd L)} (hq : Positive q) (hpre : ∀ p ∈ operands q, p.pre = false)
    {vw : List (Option (Option Datum))} (ht : Told attr v (sortAndUniq cmpL osort q) vw) :
    (Satisfies begins v q → Pos (scoreIndex o.toFloats cmpL osort base sort vw q)) ∧
    (¬ Satisfies begins v q → scoreIndex o.toFloats cmpL osort base sort vw q = o.num 0) := by
  have hmem : ∀ p, p ∈ sort (addinfoLoop cmpL (sortAndUniq cmpL osort q) base vw 0 [] (items q)) ↔
      p ∈ addinfoLoop cmpL (sortAndUniq cmpL osort q) base vw 0 [] (items q) := fun p => (RankCovers.sort_perm hsort _).mem_iff
  -- what is told about an entry
  have htold : ∀ (k : Nat) (x : Datum), vw[k]? = some (some (some x)) → ∃ p, (sortAndUniq cmpL osort q)[k]? = some p ∧
      ∃ w ∈ v, w.1 = p.lex ∧ ∃ ps, w.2 = some ps ∧ storedPos (dataBytes x) = ps := by
    intro k x hk
    have hlt := (List.getElem?_eq_some_iff.1 hk).1
    have hlt' : k < (sortAndUniq cmpL osort q).length := by rw [ht.length_eq]; exact hlt
    have h := ht.get hlt' hlt
    have hkx : vw[k] = some (some x) := by rw [List.getElem?_eq_getElem hlt] at hk; exact Option.some.inj hk
    simp only [List.get_eq_getElem, hkx] at h
    obtain ⟨w, hw, h1, h2⟩ := h
    refine ⟨_, List.getElem?_eq_getElem hlt', w, hw, h1, ?_⟩
    cases hps : w.2 with
    | none => rw [hps] at h2; cases h2
    | some ps =>
      rw [hps] at h2
      cases h2
      exact ⟨ps, rfl, storedPos_ok hv attr hw hps⟩
  have hord : (sort (addinfoLoop cmpL (sortAndUniq cmpL osort q) base vw 0 [] (items q))).Pairwise (fun a b => a.pos ≤ b.pos) := by
    obtain ⟨perm, h⟩ := hsort
    exact (h _).2.2
  have hpos : ∀ d ∈ sort (addinfoLoop cmpL (sortAndUniq cmpL osort q) base vw 0 [] (items q)), 0 < d.pos := by
    intro d hdm
    obtain ⟨k, x, -, h2, y, hy, h3⟩ := addinfo_sound cmpL _ base vw _ 0 [] d ((hmem d).1 hdm)
    obtain ⟨p, -, w, hw, -, ps, h4, h5⟩ := htold k x h2
    rw [h5] at hy
    rw [h3]
    exact ((hv.positions w hw ps h4).2 y hy).1
  have hsat : Sat (keyed cmpL (sortAndUniq cmpL osort q) q) (sort (addinfoLoop cmpL (sortAndUniq cmpL osort q) base vw 0 [] (items q))) 0
      (sort (addinfoLoop cmpL (sortAndUniq cmpL osort q) base vw 0 [] (items q))).length ↔ Satisfies begins v q := by
    unfold Sat
    rw [holds_keyed]
    refine holds_congr q (fun p hp => ?_)
    obtain ⟨j, r, m1, m2, m3, -⟩ := mapItem_ok (cmpL := cmpL) hos hp
    have hk : (mapItem cmpL (sortAndUniq cmpL osort q) p).getD 0 = j := by rw [m1]; rfl
    constructor
    · rintro ⟨i, d, -, -, hdi, hks⟩
      obtain ⟨k, x, h1, h2, -⟩ := addinfo_sound cmpL _ base vw _ 0 [] d ((hmem d).1 (List.mem_of_getElem? hdi))
      obtain ⟨p', h3, w, hw, h4, -⟩ := htold k x h2
      rw [h1, List.mem_singleton, hk] at hks
      subst hks
      rw [m2] at h3
      cases h3
      refine ⟨w, hw, ?_⟩
      unfold For
      rw [hpre p hp, if_neg (by simp), h4, m3]
    · rintro ⟨w, hw, hf⟩
      unfold For at hf
      rw [hpre p hp, if_neg (by simp)] at hf
      have hlt : j < vw.length := by rw [← ht.length_eq]; exact (List.getElem?_eq_some_iff.1 m2).1
      have h := ht.get (List.getElem?_eq_some_iff.1 m2).1 hlt
      have hjr : (sortAndUniq cmpL osort q)[j]'(List.getElem?_eq_some_iff.1 m2).1 = r := (List.getElem?_eq_some_iff.1 m2).2
      simp only [List.get_eq_getElem, hjr] at h
      cases hx : vw[j] with
      | none =>
        rw [hx] at h
        exact absurd (hf.trans m3.symm) (h w hw)
      | some i =>
        rw [hx] at h
        obtain ⟨w', hw', h1, h2⟩ := h
        obtain ⟨ps, h3, h4, -⟩ := hpl w' hw'
        rw [h3] at h2
        subst h2
        have hx' : vw[(mapItem cmpL (sortAndUniq cmpL osort q) p).getD 0]? =
            some (some (some (Datum.stored attr (.varlena .full (compressPos 0 ps))))) := by
          rw [hk, List.getElem?_eq_getElem hlt, hx]; rfl
        obtain ⟨d, hd, hd'⟩ := addinfo_complete cmpL (sortAndUniq cmpL osort q) base vw hx' (by rw [storedPos_ok hv attr hw' h3]; exact h4) (items q) 0 []
          (items_mem_of hp) (by simp)
        obtain ⟨i, hi, hi'⟩ := List.getElem_of_mem ((hmem d).2 hd)
        exact ⟨i, d, Nat.zero_le i, hi, by rw [List.getElem?_eq_getElem hi, hi'], hd'⟩
  have hsign := scoreDocrN_sign hs true (positive_keyed cmpL (sortAndUniq cmpL osort q) q hq) (sortAndUniq cmpL osort q).length hpos hord 0
  constructor
  · intro h
    unfold scoreIndex
    simp only
    split
    · rename_i he
      rw [← hsat, he] at h
      exact absurd h (RankCovers.sat_empty (positive_keyed cmpL _ q hq) (Nat.le_refl 0))
    · rw [scoreDocr_norm]
      exact hsign.1 (hsat.2 h)
  · intro h
    unfold scoreIndex
    simp only
    split
    · rfl
    · rw [scoreDocr_norm]
      exact hsign.2 (fun h' => h (hsat.1 h'))

/-- The document `5:1` and the query `5 | 7` meet the hypotheses; the document satisfies the query. -/
example : ∃ vw, VecOK 4 [(5, some [1])] ∧ Placed ([(5, some [1])] : TsVector Nat) ∧ Positive (.or (word 5) (word 7)) ∧ (∀ p ∈ operands (.or (word 5) (word 7)), p.pre = false) ∧
    Told ftAttr [(5, some [1])] (sortAndUniq compare exSort (.or (word 5) (word 7))) vw ∧ Satisfies (· == ·) [(5, some [1])] (.or (word 5) (word 7)) := by
  have hops : sortAndUniq compare exSort (.or (word 5) (word 7)) = [⟨5, false⟩, ⟨7, false⟩] := by
    have : exSort (operands (.or (word 5) (word 7))) = [⟨5, false⟩, ⟨7, false⟩] := List.mergeSort_of_pairwise (by simp [word, operands]; decide)
    unfold sortAndUniq
    rw [this]
    rfl
  refine ⟨[some (some (.varlena .short [1])), none], ?_, ?_, ⟨trivial, trivial⟩, by simp [word, operands], ?_, Or.inl ⟨_, List.mem_singleton.2 rfl, rfl⟩⟩
  · refine ⟨by simp, fun w hw ps hps => ?_⟩
    simp only [List.mem_cons, List.not_mem_nil, or_false] at hw
    subst hw
    cases hps
    exact ⟨⟨by decide, by decide⟩, by decide⟩
  · intro w hw
    simp only [List.mem_singleton] at hw
    subst hw
    exact ⟨_, rfl, by simp, by decide⟩
  · rw [hops]
    refine .cons ⟨_, List.mem_cons_self, rfl, ?_⟩ (.cons ?_ .nil)
    · simp only [Option.map_some, pos_one]; rfl
    · intro w hw
      simp only [List.mem_singleton] at hw
      subst hw
      decide

end Rum.Props.RankIndexSign

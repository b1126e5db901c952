import Verif.ArraySearch
import Verif.Props.Collect
import Verif.Props.ArrayOps
import Verif.Props.Plain
/-!
# C56: searches by array operators return the matching rows
-/
namespace Rum.Props.ArraySearch
open Rum Rum.Codec Rum.Leaf Rum.Entry Rum.Tree Rum.Index Rum.Extract Rum.Props Rum.Props.PostingTree Rum.Props.Index Rum.Props.IndexVacuum Rum.Props.Bulk
  Rum.Props.Query Rum.Props.Collect Rum.Arr Std

variable {V F : Type}

/-! ### Specification -/

/-- `row OP query` is true in SQL: the row's array is not NULL, and the operator holds; elements are equal when the type's comparison says so. For `%`
what the operator's function computes (rum_anyarray_similar). -/
def ArrTrue (fl : Float8 F) (fn : SimFn) (thr : F) (cmp : V → V → Ordering) (op : Strategy) (query : List V) : Option (List V) → Prop
  | none => False
  | some row => match op with
    | .overlap => ∃ x ∈ row, ∃ y ∈ query, cmp x y = .eq
    | .contains => ∀ y ∈ query, ∃ x ∈ row, cmp x y = .eq
    | .contained => ∀ x ∈ row, ∃ y ∈ query, cmp x y = .eq
    | .equal => List.Forall₂ (fun x y => cmp x y = .eq) row query
    | .similar => similarOp fl cmp fn thr row query = true

/-- The columns in the conditions hold arrays: `col r a` is the array in column `a` of row `r`. -/
def ArrayColumns (cmpK : Nat → V → V → Ordering) (rs : List (Row V)) (col : Row V → Nat → Option (List V)) (conds : List (ArrayCond V)) : Prop :=
  ∀ r ∈ rs, ∀ c ∈ conds, r.value c.attnum = arrayValue (cmpK c.attnum) (col r c.attnum)

/-- What the theorems cover: columns of the index without an attached column; keys searched for whose posting tree has something on its leftmost page, unless there
was no VACUUM; for `%` a threshold that disjoint arrays do not reach. -/
structure Covered (fl : Float8 F) (fn : SimFn) (thr : F) (ix : Ix V) [Inhabited V] (rc : RowCfg V) (vacuumed : Bool) (st : State V) (conds : List (ArrayCond V)) : Prop where
  low : ∀ c ∈ conds, 1 ≤ c.attnum
  high : ∀ c ∈ conds, c.attnum ≤ rc.natts
  plain : ∀ c ∈ conds, rc.addTo ≠ some c.attnum
  first : ∀ c ∈ conds, ∀ k : AttKey V, k.attnum = c.attnum → (k.cat = .emptyItem ∧ k.key = default) ∨ (k.cat = .norm ∧ k.key ∈ c.query) →
    ∀ t, ix.treeOf st k = some t → firstLeaf (st.trees t) ≠ [] ∨ vacuumed = false
  threshold : ∀ c ∈ conds, c.op = .similar → ∀ na nb, 0 < na → 0 < nb → fl.ge (getSimilarity fl fn na nb 0) thr = false

/-- The right answer: the scan ends; no row twice; every row for which all conditions are true is returned; every row returned is one of the table, and all conditions
are true for it unless the executor is told to check them; with `&&`, `@>` and `%` there is nothing to check. -/
structure ArrayAnswer (rs : List (Row V)) (good : Row V → Prop) (exact_ : Prop) (out : List (Item Datum × Bool) × Bool) : Prop where
  ends : out.2 = true
  once : (out.1.map (fun p => p.1.iptr)).Nodup
  complete : ∀ r ∈ rs, good r → ∃ p ∈ out.1, p.1.iptr = r.tid
  sound : ∀ p ∈ out.1, ∃ r ∈ rs, r.tid = p.1.iptr ∧ (p.2 = false → good r)
  unchecked : exact_ → ∀ p ∈ out.1, p.2 = false

/-- Searches by array operators give the right answers. -/
def ArraySearches (ix : Ix V) [Inhabited V] (rc : RowCfg V) (alternative vacuumed : Bool)
    (tuplesort : (Item Datum → Item Datum → Ordering) → List (Item Datum) → List (Item Datum)) (join : Nat → Option (Datum → Datum → Datum)) (st : State V)
    (rs : List (Row V)) : Prop :=
  ∀ (F : Type) (fl : Float8 F) (fn : SimFn) (thr : F) (col : Row V → Nat → Option (List V)) (c : ArrayCond V) (cs : List (ArrayCond V)),
    ArrayColumns ix.cmpK rs col (c :: cs) → Covered fl fn thr ix rc vacuumed st (c :: cs) →
    ∃ N, ∀ n, N ≤ n → ∀ junk, ∃ out, ix.findArrays rc alternative fl fn thr tuplesort join st junk n c cs = some out ∧
      ArrayAnswer rs (fun r => ∀ d ∈ c :: cs, ArrTrue fl fn thr (ix.cmpK d.attnum) d.op d.query (col r d.attnum))
        (∀ d ∈ c :: cs, d.op = .overlap ∨ d.op = .contains ∨ d.op = .similar) out

/-! ### Elements up to equality -/

section
variable {K : Type} [LinearOrder K] {cmp : V → V → Ordering} {key : V → K}
  (k1 : ∀ a b, cmp a b = .lt ↔ key a < key b) (k2 : ∀ a b, cmp a b = .eq ↔ key a = key b)
include k1 k2

theorem cmp_key (a b : V) : cmp a b = compare (key a) (key b) := by
  cases h : compare (key a) (key b) with
  | lt => exact (k1 a b).2 (compare_lt_iff_lt.1 h)
  | eq => exact (k2 a b).2 (_root_.compare_eq_iff_eq.1 h)
  | gt =>
    have h := compare_gt_iff_gt.1 h
    cases hc : cmp a b with
    | lt => exact absurd ((k1 a b).1 hc) (_root_.not_lt.2 (_root_.le_of_lt h))
    | eq => exact absurd ((k2 a b).1 hc) (_root_.ne_of_gt h)
    | gt => rfl

theorem uniqLoop_map (l : List V) : ∀ a, (uniqLoop cmp a l).map key = uniqLoop compare (key a) (l.map key) := by
  induction l with
  | nil => intro a; rfl
  | cons b l ih =>
    intro a
    simp only [uniqLoop, List.map_cons, cmp_key k1 k2]
    split
    · rw [List.map_cons, ih]
    · rw [ih]

theorem simple_map (a : List V) : (simple cmp a).map key = simple compare (a.map key) := by
  unfold simple qsort
  rw [← List.map_mergeSort (r := fun a b => (cmp a b).isLE) (fun a _ b _ => by rw [cmp_key k1 k2])]
  cases a.mergeSort (fun a b => (cmp a b).isLE) with
  | nil => rfl
  | cons b l => exact uniqLoop_map k1 k2 l b

theorem interLoop_map (as bs : List V) : interLoop cmp as bs = interLoop compare (as.map key) (bs.map key) := by
  fun_induction interLoop cmp as bs with
  | case1 => simp [interLoop]
  | case2 => simp [interLoop]
  | case3 a as b bs hc ih =>
    rw [cmp_key k1 k2] at hc
    rw [List.map_cons, List.map_cons, interLoop, hc, ih, List.map_cons]
  | case4 a as b bs hc ih =>
    rw [cmp_key k1 k2] at hc
    rw [List.map_cons, List.map_cons, interLoop, hc, ih, List.map_cons]
  | case5 a as b bs hc ih =>
    rw [cmp_key k1 k2] at hc
    rw [List.map_cons, List.map_cons, interLoop, hc, ih]

theorem length_simple (a : List V) : (simple compare (a.map key)).length = (simple cmp a).length := by
  rw [← simple_map k1 k2, List.length_map]

theorem similarOp_map (fl : Float8 F) (fn : SimFn) (thr : F) (a b : List V) :
    similarOp fl cmp fn thr a b = similarOp fl compare fn thr (a.map key) (b.map key) := by
  unfold similarOp
  simp only [List.isEmpty_map, ← simple_map k1 k2, ← interLoop_map k1 k2, List.length_map]

end

/-! ### What the entries of a condition see of a row -/

theorem cmpAtt_self {ix : Ix V} {M : Lim} (hc : ColsOK ix M) (k : AttKey V) : cmpAttEntries ix.cmpK k k = .eq := by
  have := hc.keys
  have htr := cmp_trans ix
  exact ReflCmp.compare_self (cmp := cmpAttEntries ix.cmpK)

section
variable {ix : Ix V} {rc : RowCfg V} {M : Lim} {join : Option (Datum → Datum → Datum)} {r : Row V} {a : Nat}

/-- An entry that searches for one key sees the row exactly if its column contains the key, with the key's additional info. -/
theorem sees_exact (hc : ColsOK ix M) {cat : Cat} {x : V} {o : Option (Option Datum)} (h : Sees ix rc join r a ⟨cat, x, .exact⟩ o) :
    (o = none ∧ ¬ Contains (ix.cmpK a) (r.value a) ⟨a, cat, x⟩) ∨
    ∃ k i, o = some i ∧ cmpAttEntries ix.cmpK ⟨a, cat, x⟩ k = .eq ∧ k.attnum = a ∧ Contains (ix.cmpK a) (r.value a) k ∧ InfoOf rc (ix.cmpK a) r k i := by
  have := hc.keys
  have htr := cmp_trans ix
  cases o with
  | none => exact Or.inl ⟨rfl, h ⟨a, cat, x⟩ ⟨rfl, cmpAtt_self hc _⟩⟩
  | some i =>
    right
    obtain ⟨ks, l, h1, h2, h3, -, h5, h6⟩ := h
    cases ks with
    | nil => exact absurd rfl h1
    | cons k ks =>
      cases ks with
      | cons k' ks =>
        have e1 := (h2 k (by simp)).1.2
        have e2 := (h2 k' (by simp)).1.2
        have e3 := (List.pairwise_cons.1 h3).1 k' (by simp)
        exact absurd (TransCmp.eq_trans (cmp := cmpAttEntries ix.cmpK) (OrientedCmp.eq_symm (cmp := cmpAttEntries ix.cmpK) e1) e2) e3
      | nil =>
        obtain ⟨o, l', g1, g2, rfl⟩ := List.forall₂_cons_left_iff.1 h5
        rw [List.forall₂_nil_left_iff.1 g2] at h6
        have h6 : i = o := by cases o <;> simpa [joinInfo] using h6
        subst h6
        exact ⟨k, i, rfl, (h2 k (by simp)).1.2, (h2 k (by simp)).1.1, (h2 k (by simp)).2, g1⟩

theorem att_eq {cmpK : Nat → V → V → Ordering} {cat : Cat} {x : V} {k : AttKey V} (h : cmpAttEntries cmpK ⟨a, cat, x⟩ k = .eq) (ha : k.attnum = a) :
    k.cat = cat ∧ (cat = .norm → cmpK a x k.key = .eq) := by
  unfold cmpAttEntries cmpEntries at h
  rw [if_neg (by simp [ha])] at h
  by_cases hn : k.cat = cat
  · rw [if_neg (by simp [hn])] at h
    refine ⟨hn, fun h' => ?_⟩
    subst h'
    rw [if_neg (by simp)] at h
    exact h
  · rw [if_pos (fun h => hn h.symm)] at h
    split at h <;> simp at h

end

section
variable {ix : Ix V} [Inhabited V] {rc : RowCfg V} {M : Lim} {join : Option (Datum → Datum → Datum)} {r : Row V} {a : Nat} {row : List V}
  {K : Type} [LinearOrder K] {key : V → K}

omit [Inhabited V] in
/-- What the consistency function is told about one element of the query. -/
theorem elem_view (hc : ColsOK ix M) (k1 : ∀ x y, ix.cmpK a x y = .lt ↔ key x < key y) (k2 : ∀ x y, ix.cmpK a x y = .eq ↔ key x = key y)
    (hv : r.value a = arrayValue (ix.cmpK a) (some row)) (hp : rc.addTo ≠ some a) {x : V} {o : Option (Option Datum)}
    (h : Sees ix rc join r a ⟨.norm, x, .exact⟩ o) :
    chkOf o = if (simple compare (row.map key)).contains (key x) then ⟨true, some (simple compare (row.map key)).length⟩ else ⟨false, none⟩ := by
  have hmem : key x ∈ simple compare (row.map key) ↔ ∃ y ∈ simple (ix.cmpK a) row, key y = key x := by
    rw [← simple_map k1 k2, List.mem_map]
  rcases sees_exact hc h with ⟨rfl, h1⟩ | ⟨k, i, rfl, h1, h2, h3, h4⟩
  · rw [if_neg]
    · rfl
    · rw [List.contains_iff_mem, hmem]
      rintro ⟨y, hy, he⟩
      apply h1
      rw [hv]
      exact ⟨_, rfl, _, List.mem_map.2 ⟨y, hy, rfl⟩, y, rfl, (k2 _ _).2 he⟩
  · obtain ⟨g1, g2⟩ := att_eq h1 h2
    have g2 := g2 rfl
    unfold Contains at h3
    rw [g1, hv] at h3
    obtain ⟨raws, e1, q, hq, y, e2, e3⟩ := h3
    simp only [arrayValue, Option.some.injEq] at e1
    subst e1
    obtain ⟨y', hy', rfl⟩ := List.mem_map.1 hq
    simp only [Option.some.injEq] at e2
    subst e2
    rw [if_pos]
    · unfold InfoOf at h4
      rw [if_neg (by rw [h2]; exact hp), h2, hv] at h4
      have : i = some (.byval (simple (ix.cmpK a) row).length) := by
        cases hs : (simple (ix.cmpK a) row).map (fun v => (⟨some v, some (.byval (simple (ix.cmpK a) row).length)⟩ : Raw V Datum)) with
        | nil => rw [hs] at hq; cases hq
        | cons raw raws =>
          simp only [arrayValue] at h4
          rw [hs] at h4
          obtain ⟨q', hq', rfl, -⟩ := h4
          rw [← hs] at hq'
          obtain ⟨z, -, rfl⟩ := List.mem_map.1 hq'
          rfl
      subst this
      rw [length_simple k1 k2]
      rfl
    · rw [List.contains_iff_mem, hmem]
      exact ⟨y', hy', by rw [(k2 _ _).1 e3, (k2 _ _).1 g2]⟩

theorem chkOf_check (o : Option (Option Datum)) : (chkOf o).check = o.isSome := by cases o <;> rfl

/-- Does the hidden entry of a search mode see a row with an empty array or another? -/
def hiddenSees : Arr.Mode → Bool → Bool
  | .dflt, _ => false
  | .includeEmpty, b => b
  | .all, _ => true

/-- The hidden entry of a search mode sees the rows it is for. -/
theorem hidden_view (hc : ColsOK ix M) (k1 : ∀ x y, ix.cmpK a x y = .lt ↔ key x < key y) (k2 : ∀ x y, ix.cmpK a x y = .eq ↔ key x = key y)
    (hv : r.value a = arrayValue (ix.cmpK a) (some row)) {m : Arr.Mode} {w : List (Option (Option Datum))}
    (h : List.Forall₂ (Sees ix rc join r a) (hiddenLooks m) w) :
    (∃ o ∈ w, o.isSome = true) ↔ hiddenSees m (simple compare (row.map key)).isEmpty = true := by
  have := hc.keys a
  have hnil : (simple compare (row.map key)).isEmpty = true ↔ simple (ix.cmpK a) row = [] := by
    rw [← simple_map k1 k2, List.isEmpty_map, List.isEmpty_iff]
  cases m with
  | dflt => rw [List.forall₂_nil_left_iff.1 h]; simp [hiddenSees]
  | includeEmpty =>
    obtain ⟨o, l', g1, g2, rfl⟩ := List.forall₂_cons_left_iff.1 h
    rw [List.forall₂_nil_left_iff.1 g2]
    simp only [List.mem_cons, List.not_mem_nil, or_false, exists_eq_left, hiddenSees, hnil]
    rcases sees_exact hc g1 with ⟨rfl, h1⟩ | ⟨k, i, rfl, h1, h2, h3, -⟩
    · simp only [Option.isSome_none, Bool.false_eq_true, false_iff]
      intro he
      apply h1
      show r.value a = some []
      rw [hv, arrayValue, he]; rfl
    · obtain ⟨e1, -⟩ := att_eq h1 h2
      unfold Contains at h3
      rw [e1, hv] at h3
      simp only [arrayValue, Option.some.injEq, List.map_eq_nil_iff] at h3
      simp [h3]
  | all =>
    obtain ⟨o, l', g1, g2, rfl⟩ := List.forall₂_cons_left_iff.1 h
    rw [List.forall₂_nil_left_iff.1 g2]
    simp only [List.mem_cons, List.not_mem_nil, or_false, exists_eq_left, hiddenSees, iff_true]
    cases o with
    | some i => rfl
    | none =>
      exfalso
      cases hs : simple (ix.cmpK a) row with
      | nil =>
        refine g1 ⟨a, .emptyItem, default⟩ ⟨rfl, by simp⟩ ?_
        show r.value a = some []
        rw [hv, arrayValue, hs]; rfl
      | cons x xs =>
        refine g1 ⟨a, .norm, x⟩ ⟨rfl, by simp⟩ ?_
        rw [hv]
        exact ⟨_, rfl, ⟨some x, some (.byval (simple (ix.cmpK a) row).length)⟩, List.mem_map.2 ⟨x, by rw [hs]; simp, rfl⟩, x, rfl,
          ReflCmp.compare_self (cmp := ix.cmpK a)⟩

omit [Inhabited V] in
theorem forall₂_split {α β : Type} {R : α → β → Prop} (l1 l2 : List α) : ∀ w, List.Forall₂ R (l1 ++ l2) w →
    ∃ w1 w2, w = w1 ++ w2 ∧ List.Forall₂ R l1 w1 ∧ List.Forall₂ R l2 w2 := by
  induction l1 with
  | nil => intro w h; exact ⟨[], w, rfl, .nil, h⟩
  | cons x l1 ih =>
    intro w h
    obtain ⟨o, l', g1, g2, rfl⟩ := List.forall₂_cons_left_iff.1 h
    obtain ⟨w1, w2, rfl, h1, h2⟩ := ih l' g2
    exact ⟨o :: w1, w2, rfl, .cons g1 h1, h2⟩

omit [Inhabited V] in
theorem elems_view (hc : ColsOK ix M) (k1 : ∀ x y, ix.cmpK a x y = .lt ↔ key x < key y) (k2 : ∀ x y, ix.cmpK a x y = .eq ↔ key x = key y)
    (hv : r.value a = arrayValue (ix.cmpK a) (some row)) (hp : rc.addTo ≠ some a) (ks : List V) : ∀ w : List (Option (Option Datum)),
    List.Forall₂ (Sees ix rc join r a) (ks.map (fun k => (⟨.norm, k, .exact⟩ : Look V))) w →
    w.map chkOf = (ks.map key).map (fun k => if (simple compare (row.map key)).contains k then ⟨true, some (simple compare (row.map key)).length⟩ else ⟨false, none⟩) := by
  induction ks with
  | nil => intro w h; rw [List.forall₂_nil_left_iff.1 h]; rfl
  | cons x ks ih =>
    intro w h
    obtain ⟨o, l', g1, g2, rfl⟩ := List.forall₂_cons_left_iff.1 h
    simp only [List.map_cons]
    rw [elem_view hc k1 k2 hv hp g1, ih l' g2]

variable {fl : Float8 F} {fn : SimFn} {thr : F} {c : ArrayCond V}

/-- The scan's decision about a row is the decision of C31 on the classes of equal elements. -/
theorem decision (hc : ColsOK ix M) (k1 : ∀ x y, ix.cmpK c.attnum x y = .lt ↔ key x < key y) (k2 : ∀ x y, ix.cmpK c.attnum x y = .eq ↔ key x = key y)
    (hv : r.value c.attnum = arrayValue (ix.cmpK c.attnum) (some row)) (hp : rc.addTo ≠ some c.attnum) {w : List (Option (Option Datum))}
    (h : List.Forall₂ (Sees ix rc join r c.attnum) (c.clause fl fn thr ix.cmpK).looks w) :
    (Collect.Accepted (c.clause fl fn thr ix.cmpK) w ↔ (indexDecision fl compare fn thr c.op (row.map key) (c.query.map key)).1 = true) ∧
    (Collect.Accepted (c.clause fl fn thr ix.cmpK) w →
      ((c.clause fl fn thr ix.cmpK).cons w).2 = (indexDecision fl compare fn thr c.op (row.map key) (c.query.map key)).2) := by
  obtain ⟨w1, w2, rfl, h1, h2⟩ := forall₂_split _ _ w h
  have e1 := elems_view hc k1 k2 hv hp _ w1 h1
  have e2 := hidden_view hc k1 k2 hv h2
  have hlen : w1.length = (simple (ix.cmpK c.attnum) c.query).length := by rw [← h1.length_eq, List.length_map]
  have hch : w1.map chkOf = checks compare (row.map key) (c.query.map key) := by
    rw [e1, simple_map k1 k2]; rfl
  have hcons : (c.clause fl fn thr ix.cmpK).cons (w1 ++ w2) = consistent fl fn thr c.op (checks compare (row.map key) (c.query.map key)) := by
    show consistent fl fn thr c.op (((w1 ++ w2).take (simple (ix.cmpK c.attnum) c.query).length).map chkOf) = _
    rw [← hlen, List.take_left, hch]
  have hany : (∃ o ∈ w1, o.isSome = true) ↔ (checks compare (row.map key) (c.query.map key)).any (fun c => c.check) = true := by
    rw [← hch, List.any_map, List.any_eq_true]
    simp only [Function.comp_apply, chkOf_check]
  have hvis : (∃ o ∈ w1 ++ w2, o.isSome = true) ↔
      visited compare (searchMode c.op (simple compare (c.query.map key)).length) (row.map key) (c.query.map key) = true := by
    have : (∃ o ∈ w1 ++ w2, o.isSome = true) ↔ (∃ o ∈ w1, o.isSome = true) ∨ ∃ o ∈ w2, o.isSome = true := by
      simp only [List.mem_append, or_and_right, exists_or]
    rw [this, hany, e2, length_simple k1 k2]
    unfold visited
    cases searchMode c.op (simple (ix.cmpK c.attnum) c.query).length <;> simp [hiddenSees]
  unfold Collect.Accepted
  rw [hcons, hvis]
  unfold indexDecision
  split <;> simp_all

end

/-- The operators on arrays are those of C31 on the classes of equal elements. -/
theorem arrTrue_iff {fl : Float8 F} {fn : SimFn} {thr : F} {cmp : V → V → Ordering} {K : Type} [LinearOrder K] {key : V → K}
    (k1 : ∀ a b, cmp a b = .lt ↔ key a < key b) (k2 : ∀ a b, cmp a b = .eq ↔ key a = key b) (op : Strategy) (query row : List V) :
    ArrTrue fl fn thr cmp op query (some row) ↔ Arr.Holds op (row.map key) (query.map key) (similarOp fl compare fn thr (row.map key) (query.map key)) := by
  unfold ArrTrue Arr.Holds
  cases op with
  | overlap =>
    simp only [k2, List.mem_map]
    constructor
    · rintro ⟨x, hx, y, hy, he⟩
      exact ⟨key x, ⟨x, hx, rfl⟩, y, hy, he.symm⟩
    · rintro ⟨_, ⟨x, hx, rfl⟩, y, hy, he⟩
      exact ⟨x, hx, y, hy, he.symm⟩
  | contains =>
    simp only [k2, List.mem_map]
    constructor
    · rintro h _ ⟨y, hy, rfl⟩
      exact h y hy
    · exact fun h y hy => h _ ⟨y, hy, rfl⟩
  | contained =>
    simp only [k2, List.mem_map]
    constructor
    · rintro h _ ⟨x, hx, rfl⟩
      obtain ⟨y, hy, he⟩ := h x hx
      exact ⟨y, hy, he.symm⟩
    · intro h x hx
      obtain ⟨y, hy, he⟩ := h _ ⟨x, hx, rfl⟩
      exact ⟨y, hy, he.symm⟩
  | equal =>
    simp only [k2]
    rw [← List.forall₂_eq_eq_eq, List.forall₂_map_left_iff, List.forall₂_map_right_iff]
  | similar =>
    simp only
    rw [similarOp_map k1 k2]

section
variable {ix : Ix V} [Inhabited V] {rc : RowCfg V} {M : Lim} {join : Option (Datum → Datum → Datum)} {r : Row V} {fl : Float8 F} {fn : SimFn} {thr : F} {c : ArrayCond V}

/-- One condition on one row. -/
theorem cond_row (hc : ColsOK ix M) {col : Option (List V)} (hv : r.value c.attnum = arrayValue (ix.cmpK c.attnum) col) (hp : rc.addTo ≠ some c.attnum)
    (hthr : c.op = .similar → ∀ na nb, 0 < na → 0 < nb → fl.ge (getSimilarity fl fn na nb 0) thr = false) {w : List (Option (Option Datum))}
    (h : List.Forall₂ (Sees ix rc join r c.attnum) (c.clause fl fn thr ix.cmpK).looks w) :
    (ArrTrue fl fn thr (ix.cmpK c.attnum) c.op c.query col → Collect.Accepted (c.clause fl fn thr ix.cmpK) w) ∧
    (Collect.Accepted (c.clause fl fn thr ix.cmpK) w → ((c.clause fl fn thr ix.cmpK).cons w).2 = false →
      ArrTrue fl fn thr (ix.cmpK c.attnum) c.op c.query col) ∧
    (Collect.Accepted (c.clause fl fn thr ix.cmpK) w → c.op = .overlap ∨ c.op = .contains ∨ c.op = .similar →
      ((c.clause fl fn thr ix.cmpK).cons w).2 = false) := by
  have := hc.keys
  cases col with
  | none =>
    have hno : ∀ o ∈ w, o = none := by
      intro o ho
      obtain ⟨i, hi, rfl⟩ := List.getElem_of_mem ho
      have hl := h.length_eq
      have hs := List.Forall₂.get h (i := i) (by omega) hi
      simp only [List.get_eq_getElem] at hs
      have hlk : (c.clause fl fn thr ix.cmpK).looks[i] ∈ (c.clause fl fn thr ix.cmpK).looks := List.getElem_mem _
      generalize (c.clause fl fn thr ix.cmpK).looks[i] = lk at hs hlk
      generalize w[i] = o at hs
      cases o with
      | none => rfl
      | some j =>
        obtain ⟨ks, -, g1, g2, -⟩ := hs
        obtain ⟨k, hk⟩ := List.exists_mem_of_ne_nil ks g1
        obtain ⟨⟨a1, a2⟩, a3⟩ := g2 k hk
        have hcat : k.cat ≠ .nullItem := by
          rcases List.mem_append.1 hlk with hlk | hlk
          · obtain ⟨x, -, rfl⟩ := List.mem_map.1 hlk
            rw [(att_eq a2 a1).1]; simp
          · cases hm : searchMode c.op (simple (ix.cmpK c.attnum) c.query).length with
            | dflt => rw [hm] at hlk; cases hlk
            | includeEmpty =>
              rw [hm] at hlk
              simp only [hiddenLooks, List.mem_singleton] at hlk
              subst hlk
              rw [(att_eq a2 a1).1]; simp
            | all =>
              rw [hm] at hlk
              simp only [hiddenLooks, List.mem_singleton] at hlk
              subst hlk
              exact a2
        exfalso
        unfold Contains at a3
        rw [hv] at a3
        cases hk : k.cat <;> rw [hk] at a3 <;> simp_all [arrayValue]
    have hna : ¬ Collect.Accepted (c.clause fl fn thr ix.cmpK) w := by
      rintro ⟨⟨o, ho, hs⟩, -⟩
      rw [hno o ho] at hs; cases hs
    exact ⟨fun h => h.elim, fun h => absurd h hna, fun h => absurd h hna⟩
  | some row =>
    obtain ⟨K, _, key, k1, k2, -⟩ := exists_key (ix.cmpK c.attnum)
    obtain ⟨d1, d2⟩ := decision hc k1 k2 hv hp h
    rw [arrTrue_iff k1 k2, d1]
    by_cases hs : c.op = .similar
    · have hex := C31_similarity_exact_partial fl (compare : K → K → Ordering) fn thr (row.map key) (c.query.map key) (hthr hs)
      rw [hs] at d1 d2 ⊢
      rw [hex] at d2 ⊢
      refine ⟨fun h => h, fun h _ => h, fun h _ => d2 (d1.2 (by rw [hex]; exact h))⟩
    · obtain ⟨g1, g2, g3⟩ := C31_array_search_agrees fl (compare : K → K → Ordering) fn thr c.op hs (row.map key) (c.query.map key)
        (similarOp fl compare fn thr (row.map key) (c.query.map key))
      refine ⟨g1, fun ha hr => g2 (Prod.ext ha ?_), fun ha ho => ?_⟩
      · rw [← d2 (d1.2 ha)]; exact hr
      · rw [d2 (d1.2 ha)]
        exact g3 (by rcases ho with h | h | h <;> simp_all)

omit [Inhabited V] in
/-- A void condition is true for no row. -/
theorem void_false (hc : ColsOK ix M) (h : c.void ix.cmpK = true) (v : Option (List V)) : ¬ ArrTrue fl fn thr (ix.cmpK c.attnum) c.op c.query v := by
  have := hc.keys
  obtain ⟨K, _, key, k1, k2, -⟩ := exists_key (ix.cmpK c.attnum)
  unfold ArrayCond.void at h
  simp only [Bool.and_eq_true, List.isEmpty_iff, decide_eq_true_eq] at h
  obtain ⟨h1, h2⟩ := h
  have hq : c.query = [] := by
    have : simple compare (c.query.map key) = [] := by rw [← simple_map k1 k2, h1]; rfl
    simpa using (simple_nil compare _).1 this
  rw [h1] at h2
  cases v with
  | none => exact fun h => h
  | some row =>
    unfold ArrTrue
    cases ho : c.op with
    | overlap => simp [hq]
    | similar => simp [hq, similarOp]
    | contains => rw [ho] at h2; simp [searchMode] at h2
    | contained => rw [ho] at h2; simp [searchMode] at h2
    | equal => rw [ho] at h2; simp [searchMode] at h2

end

theorem mem_uniqLoop {cmp : V → V → Ordering} (l : List V) : ∀ a x, x ∈ uniqLoop cmp a l → x ∈ a :: l := by
  induction l with
  | nil => intro a x h; exact h
  | cons b l ih =>
    intro a x h
    rw [uniqLoop] at h
    split at h
    · rcases List.mem_cons.1 h with rfl | h
      · simp
      · exact List.mem_cons_of_mem _ (ih b x h)
    · rcases List.mem_cons.1 (ih a x h) with rfl | h
      · simp
      · simp [h]

theorem mem_of_simple {cmp : V → V → Ordering} {l : List V} {x : V} (h : x ∈ simple cmp l) : x ∈ l := by
  unfold simple qsort at h
  have hp := List.mergeSort_perm l (fun a b => (cmp a b).isLE)
  generalize l.mergeSort (fun a b => (cmp a b).isLE) = m at h hp
  refine hp.mem_iff.1 ?_
  cases m with
  | nil => exact h
  | cons a m => exact mem_uniqLoop m a x h

theorem arrays_of_finds {ix : Ix V} [Inhabited V] {rc : RowCfg V} {alternative vacuumed : Bool} {M : Lim} (hc : ColsOK ix M)
    {tuplesort : (Item Datum → Item Datum → Ordering) → List (Item Datum) → List (Item Datum)} {join : Nat → Option (Datum → Datum → Datum)} {st : State V}
    {rs : List (Row V)} (H : Finds ix rc alternative vacuumed tuplesort join st rs) :
    ArraySearches ix rc alternative vacuumed tuplesort join st rs := by
  obtain ⟨view, hv, hf⟩ := H
  intro F fl fn thr col c cs hcol hcov
  by_cases hvoid : (c :: cs).any (fun d => d.void ix.cmpK) = true
  · refine ⟨0, fun n _ junk => ⟨([], true), by unfold Ix.findArrays; rw [if_pos hvoid], rfl, List.nodup_nil, fun r _ hg => ?_, by simp, by simp⟩⟩
    obtain ⟨d, hd, hdv⟩ := List.any_eq_true.1 hvoid
    exact absurd (hg d hd) (void_false hc hdv _)
  have hcl : ∀ d ∈ c :: cs, ClauseOK ix rc alternative vacuumed st rs (d.clause fl fn thr ix.cmpK) := by
    intro d hd
    refine ⟨hcov.low d hd, hcov.high d hd, fun lk hlk => ?_⟩
    rcases List.mem_append.1 hlk with hlk | hlk
    · obtain ⟨x, hx, rfl⟩ := List.mem_map.1 hlk
      exact ⟨trivial, fun t ht => hcov.first d hd ⟨d.attnum, .norm, x⟩ rfl (Or.inr ⟨rfl, mem_of_simple hx⟩) t ht⟩
    · cases hm : searchMode d.op (simple (ix.cmpK d.attnum) d.query).length with
      | dflt => rw [hm] at hlk; cases hlk
      | includeEmpty =>
        rw [hm] at hlk
        simp only [hiddenLooks, List.mem_singleton] at hlk
        subst hlk
        exact ⟨trivial, fun t ht => hcov.first d hd ⟨d.attnum, .emptyItem, default⟩ rfl (Or.inl ⟨rfl, rfl⟩) t ht⟩
      | all =>
        rw [hm] at hlk
        simp only [hiddenLooks, List.mem_singleton] at hlk
        subst hlk
        exact ⟨rfl, fun _ ha => absurd ha (hcov.plain d hd)⟩
  have hcl' : ∀ d ∈ c.clause fl fn thr ix.cmpK :: cs.map (fun d => d.clause fl fn thr ix.cmpK), ∃ e ∈ c :: cs, d = e.clause fl fn thr ix.cmpK := by
    intro d hd
    rw [← List.map_cons (f := fun d : ArrayCond V => d.clause fl fn thr ix.cmpK)] at hd
    obtain ⟨e, he, rfl⟩ := List.mem_map.1 hd
    exact ⟨e, he, rfl⟩
  have hcl'' : ∀ e ∈ c :: cs, e.clause fl fn thr ix.cmpK ∈ c.clause fl fn thr ix.cmpK :: cs.map (fun d => d.clause fl fn thr ix.cmpK) := by
    intro e he
    rw [← List.map_cons (f := fun d : ArrayCond V => d.clause fl fn thr ix.cmpK)]
    exact List.mem_map_of_mem he
  obtain ⟨N, hN⟩ := hf (c.clause fl fn thr ix.cmpK) (cs.map (fun d => d.clause fl fn thr ix.cmpK))
    (fun d hd => by obtain ⟨e, he, rfl⟩ := hcl' d hd; exact hcl e he)
    (Or.inr (Or.inr (fun d hd => by obtain ⟨e, he, rfl⟩ := hcl' d hd; exact hcov.plain e he)))
  have hrow : ∀ r ∈ rs, ∀ d ∈ c :: cs, _ := fun r hr d hd => cond_row (c := d) hc (hcol r hr d hd) (hcov.plain d hd) (hcov.threshold d hd)
    (hv r hr _ (hcl d hd))
  refine ⟨N, fun n hn junk => ?_⟩
  obtain ⟨out, h1, h2⟩ := hN n hn junk
  refine ⟨out, by unfold Ix.findArrays; rw [if_neg hvoid]; exact h1, h2.ends, h2.once, fun r hr hg => ?_, fun p hp => ?_, fun hex p hp => ?_⟩
  · refine (h2.rows r.tid).2 ⟨r, hr, rfl, fun d hd => ?_⟩
    obtain ⟨e, he, rfl⟩ := hcl' d hd
    exact (hrow r hr e he).1 (hg e he)
  · obtain ⟨r, hr, he, hacc⟩ := (h2.rows p.1.iptr).1 ⟨p, hp, rfl⟩
    refine ⟨r, hr, he, fun hp2 d hd => ?_⟩
    refine (hrow r hr d hd).2.1 (hacc _ (hcl'' d hd)) ?_
    cases hb : ((d.clause fl fn thr ix.cmpK).cons (view r (d.clause fl fn thr ix.cmpK))).2 with
    | false => rfl
    | true =>
      have := (h2.recheck p hp r hr he).2 ⟨_, hcl'' d hd, hb⟩
      rw [hp2] at this; cases this
  · obtain ⟨r, hr, he, hacc⟩ := (h2.rows p.1.iptr).1 ⟨p, hp, rfl⟩
    cases hb : p.2 with
    | false => rfl
    | true =>
      obtain ⟨d, hd, h3⟩ := (h2.recheck p hp r hr he).1 hb
      obtain ⟨e, he', rfl⟩ := hcl' d hd
      rw [(hrow r hr e he').2.2 (hacc _ hd) (hex e he')] at h3
      cases h3

/-! ### Properties -/

/-- **C56, with VACUUM.** After CREATE INDEX on a table with any rows and any sequence of insertions and VACUUMs, a search by any number of conditions with `&&`, `@>`,
`<@`, `=`, `%` on array columns gives the right answer. Missing: what `Covered` excludes, that is posting trees whose leftmost page was emptied by VACUUM
(`C23_forward_empty_first_violated`), and `%` with a threshold disjoint arrays reach (`C31_similarity_violated`). -/
theorem C56_arrays_partial (ix : Ix V) [Inhabited V] (rc : RowCfg V) (alternative : Bool) (n : Nat) (hc : ColsOK ix ⟨n, true⟩) (hal : ∀ k, 8 ∣ ix.keySize k)
    (hs : ∀ a, SortOK (ix.cmpK a) (rc.sort a)) (hd : ∀ a, DupsSeen (ix.cmpK a) (rc.haveDups a)) (ho : OptionsOK ix rc alternative)
    (qsort tuplesort : (Item Datum → Item Datum → Ordering) → List (Item Datum) → List (Item Datum)) (hq : Sorts qsort) (htp : Sorts tuplesort)
    (join : Nat → Option (Datum → Datum → Datum)) (hj : alternative = true → ∀ a, rc.addTo = some a → join a = none) (full : Nat → Bool)
    (rs : List (Row V)) (hok : ∀ r ∈ rs, RowOK ix rc ⟨n, false⟩ r) (hlen : ∀ r ∈ rs, ∀ a, (ix.colEntries rc a r).length < 2 ^ 31)
    (htid : (rs.map Row.tid).Nodup) (hord : alternative = true → rs.Pairwise (fun r q => cmpIptr r.tid q.tid = .lt))
    (evs : List (Event V)) (hev : Possible ix rc ⟨n, true⟩ rs evs) :
    ∃ st, runs ix rc (ix.buildIndex rc qsort full rs) evs = (st, true) ∧
      ArraySearches ix rc alternative true tuplesort join st (evs.foldl Event.rows rs) := by
  obtain ⟨st, h1, h2⟩ := C53_query_partial ix rc alternative n hc hal hs hd ho qsort tuplesort hq htp join hj full rs hok hlen htid hord evs hev
  exact ⟨st, h1, arrays_of_finds hc h2⟩

/-! ### Tables with array columns

The scope without exceptions: an index on array columns, and a table that grows. -/

/-- A row of the table: its TID and the arrays in its columns (`none`: NULL). -/
structure ARow (V : Type) where
  tid : Iptr
  col : Nat → Option (List V)

/-- An index with rum_anyarray_ops on `natts` columns: the orders of their element types, the sizes of the keys in index tuples. -/
structure ASchema (V : Type) where
  natts : Nat
  cmpK : Nat → V → V → Ordering
  keySize : AttKey V → Nat

/-- A possible row: the TID is one of PostgreSQL's, arrays have less than 2^31 elements, each key fits in an index tuple. -/
structure ASchema.Fits (s : ASchema V) [Inhabited V] (r : ARow V) : Prop where
  blk : r.tid.blk < 2 ^ 32
  off : r.tid.off < 2 ^ 16
  valid : 1 ≤ r.tid.off
  size : ∀ a v, r.col a = some v → v.length < 2 ^ 31
  elems : ∀ a, 1 ≤ a → a ≤ s.natts → ∀ v, r.col a = some v → ∀ x ∈ v, alignUp 8 (s.keySize ⟨a, .norm, x⟩) ≤ maxTuple
  null : ∀ a, 1 ≤ a → a ≤ s.natts → r.col a = none → alignUp 8 (s.keySize ⟨a, .nullItem, default⟩ + 1) ≤ maxTuple
  empty : ∀ a, 1 ≤ a → a ≤ s.natts → r.col a = some [] → alignUp 8 (s.keySize ⟨a, .emptyItem, default⟩ + 1) ≤ maxTuple

/-- The index: additional info of type int4 (rum_anyarray_config, `/repo/src/rum_arr_utils.c:155-164`), no attached column. -/
def ASchema.ix (s : ASchema V) : Ix V := ⟨s.cmpK, s.keySize, fun _ => ⟨⟨false, some ⟨true, 4, 4, true⟩⟩, false, fun _ _ => .eq⟩, false⟩

/-- The row as the index sees it, with rum_extract_anyarray. -/
def ASchema.row (s : ASchema V) (r : ARow V) : Row V := ⟨r.tid, fun a => arrayValue (s.cmpK a) (r.col a), none⟩

def ASchema.rc (s : ASchema V) (sort : Nat → List (Raw V Datum) → List (Raw V Datum)) (haveDups : Nat → List (Raw V Datum) → Bool) : RowCfg V :=
  ⟨s.natts, sort, haveDups, none, fun _ => true⟩

section
variable {s : ASchema V} [Inhabited V] {sort : Nat → List (Raw V Datum) → List (Raw V Datum)} {haveDups : Nat → List (Raw V Datum) → Bool}

omit [Inhabited V] in
theorem cols_ok (hk : ∀ n, TransCmp (s.cmpK n)) (b : Bool) : ColsOK s.ix ⟨20, b⟩ where
  keys := hk
  infos := fun _ => { eq_swap := rfl, isLE_trans := fun _ _ => rfl }
  sizes := fun _ => ⟨(by decide : 3 * 20 + 40 ≤ dataCap), by decide, (by decide : (1 : Nat) ∣ 8), fun _ => (by decide : (1 : Nat) ∣ 4)⟩

theorem storable {r : ARow V} (h : s.Fits r) (a : Nat) (b : Bool) (i : Option Nat) (hi : ∀ n, i = some n → n < 2 ^ 31) :
    Storable (s.ix.ctx a) ⟨20, b⟩ ⟨r.tid, i.map Datum.byval⟩ := by
  have hsz := Plain.size_le r.tid ⟨0, 0⟩ h.off
  refine ⟨⟨⟨h.blk, h.off⟩, fun h => (by cases h), fun d hd => ?_⟩, ?_, h.valid, ?_, fun _ => ?_⟩
  · cases i with
    | none => cases hd
    | some n =>
      simp only [Option.map_some, Option.some.injEq] at hd
      subst hd
      have := hi n rfl
      refine ⟨_, rfl, rfl, Or.inr (Or.inr (Or.inl rfl)), ?_⟩
      exact Nat.lt_trans this (by decide)
  · cases i <;> rfl
  · cases i with
    | none =>
      show 0 + sizeIptr false r.tid ⟨0, 0⟩ ≤ 20
      omega
    | some n =>
      show 0 + sizeIptr false r.tid ⟨0, 0⟩ + 4 ≤ 20
      omega
  · cases i <;> rfl

omit [Inhabited V] in
theorem length_uniqLoop {cmp : V → V → Ordering} (l : List V) : ∀ a, (uniqLoop cmp a l).length ≤ l.length + 1 := by
  induction l with
  | nil => intro a; simp [uniqLoop]
  | cons b l ih =>
    intro a
    rw [uniqLoop]
    split
    · have := ih b; simp; omega
    · have := ih a; simp; omega

omit [Inhabited V] in
theorem simple_len {cmp : V → V → Ordering} (l : List V) : (simple cmp l).length ≤ l.length := by
  unfold simple qsort
  have := (List.mergeSort_perm l (fun a b => (cmp a b).isLE)).length_eq
  rw [← this]
  cases l.mergeSort (fun a b => (cmp a b).isLE) with
  | nil => simp [uniq]
  | cons a m => exact length_uniqLoop m a

theorem row_ok (hk : ∀ n, TransCmp (s.cmpK n)) (hs : ∀ a, SortOK (s.cmpK a) (sort a)) (hd : ∀ a, DupsSeen (s.cmpK a) (haveDups a)) {r : ARow V} (h : s.Fits r) (b : Bool) :
    RowOK s.ix (s.rc sort haveDups) ⟨20, b⟩ (s.row r) := by
  intro a h1 h2 o ho
  have ho : o ∈ extractEntries (s.cmpK a) (sort a) (haveDups a) (arrayValue (s.cmpK a) (r.col a)) := ho
  have := hk a
  obtain ⟨e1, e2, e3⟩ := C18_extract (s.cmpK a) (sort a) (haveDups a) (hs a) (hd a)
  cases hc : r.col a with
  | none =>
    rw [hc] at ho
    simp only [arrayValue, e1, List.mem_singleton] at ho
    subst ho
    exact ⟨fun h => (by cases h), h.null a h1 h2 hc, storable h a b none (fun n h => by cases h)⟩
  | some v =>
    rw [hc] at ho
    simp only [arrayValue] at ho
    cases hsv : simple (s.cmpK a) v with
    | nil =>
      rw [hsv] at ho
      simp only [List.map_nil, e2, List.mem_singleton] at ho
      subst ho
      have hv : v = [] := by
        obtain ⟨K, _, key, k1, k2, -⟩ := exists_key (s.cmpK a)
        have : simple compare (v.map key) = [] := by rw [← simple_map k1 k2, hsv]; rfl
        simpa using (simple_nil compare _).1 this
      exact ⟨fun h => (by cases h), h.empty a h1 h2 (by rw [hc, hv]), storable h a b none (fun n h => by cases h)⟩
    | cons x xs =>
      obtain ⟨-, -, e4, -⟩ := e3 ((simple (s.cmpK a) v).map (fun x => ⟨some x, some (.byval (simple (s.cmpK a) v).length)⟩)) (by rw [hsv]; simp)
      obtain ⟨raw, hraw, g1, g2, g3, g4⟩ := e4 o ho
      obtain ⟨y, hy, rfl⟩ := List.mem_map.1 hraw
      obtain ⟨cat, k, info⟩ := o
      simp only at g1 g2 g3 g4
      subst g1 g2
      have g4 := g4.2 (by simp)
      subst g4
      refine ⟨fun _ => rfl, ?_, storable h a b (some _) (fun n hn => ?_)⟩
      · exact h.elems a h1 h2 v hc y (mem_of_simple hy)
      · simp only [Option.some.injEq] at hn
        subst hn
        exact Nat.lt_of_le_of_lt (simple_len v) (h.size a v hc)

omit [Inhabited V] in
theorem length_dedup {cmpK : V → V → Ordering} (l : List (Raw V Datum)) : ∀ p, (dedup cmpK p l).length ≤ l.length := by
  induction l with
  | nil => intro p; simp [dedup]
  | cons a l ih =>
    intro p
    rw [dedup]
    split
    · have := ih a; simp; omega
    · have := ih a; simp; omega

theorem entries_length (hs : ∀ a, SortOK (s.cmpK a) (sort a)) {r : ARow V} (h : s.Fits r) (a : Nat) : (s.ix.colEntries (s.rc sort haveDups) a (s.row r)).length < 2 ^ 31 := by
  show (extractEntries (s.cmpK a) (sort a) (haveDups a) (arrayValue (s.cmpK a) (r.col a))).length < 2 ^ 31
  cases hc : r.col a with
  | none => simp [arrayValue, extractEntries]
  | some v =>
    have h1 := h.size a v hc
    have h2 := simple_len (cmp := s.cmpK a) v
    have h3 : ((simple (s.cmpK a) v).map (fun x => (⟨some x, some (.byval (simple (s.cmpK a) v).length)⟩ : Raw V Datum))).length < 2 ^ 31 := by
      rw [List.length_map]; omega
    simp only [arrayValue]
    generalize (simple (s.cmpK a) v).map (fun x => (⟨some x, some (.byval (simple (s.cmpK a) v).length)⟩ : Raw V Datum)) = raws at h3
    match raws, h3 with
    | [], _ => simp [extractEntries]
    | [r], _ => simp [extractEntries]
    | r1 :: r2 :: rest, h3 =>
      have hp := ((hs a).perm (r1 :: r2 :: rest)).length_eq
      simp only [extractEntries]
      cases hso : sort a (r1 :: r2 :: rest) with
      | nil => simp
      | cons x xs =>
        rw [hso] at hp
        simp only
        have := length_dedup (cmpK := s.cmpK a) xs x
        simp only [List.length_cons] at hp h3
        split <;> simp <;> omega

end

/-- **C56.** An index on array columns, created on a table with any rows; then any number of insertions. A search by any number of conditions with `&&`, `@>`, `<@`, `=`,
`%` (the latter with a threshold that disjoint arrays do not reach) ends, returns no row twice, returns every row for which all of them are true, and no other unless
the executor is told to check it; with `&&`, `@>` and `%` nothing is left to check. -/
theorem C56_array_search (s : ASchema V) [Inhabited V] (hk : ∀ n, TransCmp (s.cmpK n))
    (sort : Nat → List (Raw V Datum) → List (Raw V Datum)) (haveDups : Nat → List (Raw V Datum) → Bool) (hs : ∀ a, SortOK (s.cmpK a) (sort a))
    (hd : ∀ a, DupsSeen (s.cmpK a) (haveDups a))
    (qsort tuplesort : (Item Datum → Item Datum → Ordering) → List (Item Datum) → List (Item Datum)) (hq : Sorts qsort) (htp : Sorts tuplesort) (full : Nat → Bool)
    (rs new : List (ARow V)) (hok : ∀ r ∈ rs ++ new, s.Fits r) (htid : ((rs ++ new).map ARow.tid).Nodup) :
    ∃ st t, s.ix.buildIndex (s.rc sort haveDups) qsort full (rs.map s.row) = (st, true) ∧
      s.ix.insertRows (s.rc sort haveDups) st (new.map s.row) = (t, true) ∧
      ∀ (F : Type) (fl : Float8 F) (fn : SimFn) (thr : F) (c : ArrayCond V) (cs : List (ArrayCond V)), (∀ d ∈ c :: cs, 1 ≤ d.attnum ∧ d.attnum ≤ s.natts) →
        (∀ d ∈ c :: cs, d.op = .similar → ∀ na nb, 0 < na → 0 < nb → fl.ge (getSimilarity fl fn na nb 0) thr = false) →
        ∃ N, ∀ n, N ≤ n → ∀ junk, ∃ out, s.ix.findArrays (s.rc sort haveDups) false fl fn thr tuplesort (fun _ => none) t junk n c cs = some out ∧ out.2 = true ∧
          (out.1.map (fun p => p.1.iptr)).Nodup ∧
          (∀ r ∈ rs ++ new, (∀ d ∈ c :: cs, ArrTrue fl fn thr (s.cmpK d.attnum) d.op d.query (r.col d.attnum)) → ∃ p ∈ out.1, p.1.iptr = r.tid) ∧
          (∀ p ∈ out.1, ∃ r ∈ rs ++ new, r.tid = p.1.iptr ∧
            (p.2 = false → ∀ d ∈ c :: cs, ArrTrue fl fn thr (s.cmpK d.attnum) d.op d.query (r.col d.attnum))) ∧
          ((∀ d ∈ c :: cs, d.op = .overlap ∨ d.op = .contains ∨ d.op = .similar) → ∀ p ∈ out.1, p.2 = false) := by
  obtain ⟨st, t, h1, h2, h3⟩ := C53_query_inserted_partial s.ix (s.rc sort haveDups) false ⟨20, false⟩ rfl (cols_ok hk false) hs hd (fun a => ⟨rfl, rfl⟩) qsort tuplesort hq htp
    (fun _ => none) (fun h => by cases h) full (rs.map s.row)
    (fun r hr => by obtain ⟨p, hp, rfl⟩ := List.mem_map.1 hr; exact row_ok hk hs hd (hok p (List.mem_append_left _ hp)) false)
    (fun r hr a => by obtain ⟨p, hp, rfl⟩ := List.mem_map.1 hr; exact entries_length hs (hok p (List.mem_append_left _ hp)) a) (fun h => by cases h) (new.map s.row)
    (fun r hr => by obtain ⟨p, hp, rfl⟩ := List.mem_map.1 hr; exact row_ok hk hs hd (hok p (List.mem_append_right _ hp)) false)
    (by rw [← List.map_append, List.map_map]; exact htid)
  rw [← List.map_append] at h3
  refine ⟨st, t, h1, h2, fun F fl fn thr c cs hat hthr => ?_⟩
  classical
  have hinj : ∀ p ∈ rs ++ new, ∀ q ∈ rs ++ new, p.tid = q.tid → p = q := fun p hp q hq h => List.inj_on_of_nodup_map htid hp hq h
  -- the arrays of a row, by its TID
  let col : Row V → Nat → Option (List V) := fun r a => if h : ∃ p ∈ rs ++ new, p.tid = r.tid then (Classical.choose h).col a else none
  have hcol : ∀ p ∈ rs ++ new, ∀ a, col (s.row p) a = p.col a := by
    intro p hp a
    have hex : ∃ q ∈ rs ++ new, q.tid = (s.row p).tid := ⟨p, hp, rfl⟩
    show (if h : ∃ q ∈ rs ++ new, q.tid = (s.row p).tid then (Classical.choose h).col a else none) = _
    rw [dif_pos hex]
    have hspec := Classical.choose_spec hex
    rw [hinj _ hspec.1 p hp hspec.2]
  obtain ⟨N, hN⟩ := arrays_of_finds (cols_ok hk false) h3 F fl fn thr col c cs
    (fun r hr d _ => by obtain ⟨p, hp, rfl⟩ := List.mem_map.1 hr; rw [hcol p hp]; rfl)
    ⟨fun d hd => (hat d hd).1, fun d hd => (hat d hd).2, fun d _ h => (by cases h), fun _ _ _ _ _ _ _ => Or.inr rfl, hthr⟩
  refine ⟨N, fun n hn junk => ?_⟩
  obtain ⟨out, g1, g2⟩ := hN n hn junk
  refine ⟨out, g1, g2.ends, g2.once, fun r hr hg => ?_, fun p hp => ?_, g2.unchecked⟩
  · exact g2.complete (s.row r) (List.mem_map_of_mem hr) (fun d hd => by rw [hcol r hr]; exact hg d hd)
  · obtain ⟨r, hr, he, hg⟩ := g2.sound p hp
    obtain ⟨q, hq', rfl⟩ := List.mem_map.1 hr
    exact ⟨q, hq', he, fun h d hd => by have := hg h d hd; rwa [hcol q hq'] at this⟩

/-! ### Concrete case -/

def exASchema : ASchema Nat := ⟨1, fun _ => compare, fun _ => 16⟩
def exA (n : Nat) (v : Option (List Nat)) : ARow Nat := ⟨⟨n, 1⟩, fun a => if a = 1 then v else none⟩

theorem exAFits (n : Nat) (hn : n < 400) (v : Option (List Nat)) (hv : ∀ l, v = some l → l.length < 100) : exASchema.Fits (exA n v) where
  blk := by show n < 2 ^ 32; omega
  off := by show 1 < 2 ^ 16; omega
  valid := Nat.le_refl 1
  size := fun a l h => by
    have : (if a = 1 then v else none) = some l := h
    split at this
    · have := hv l this; omega
    · cases this
  elems := fun _ _ _ _ _ _ _ => (by decide : alignUp 8 16 ≤ maxTuple)
  null := fun _ _ _ _ => (by decide : alignUp 8 (16 + 1) ≤ maxTuple)
  empty := fun _ _ _ _ => (by decide : alignUp 8 (16 + 1) ≤ maxTuple)

/-- The rows `{7}`, NULL, `{}`, `{9}`. -/
def exARows : List (ARow Nat) := [exA 1 (some [7]), exA 2 none, exA 3 (some []), exA 4 (some [9])]

/-- The hypotheses are met. -/
example : (∀ r ∈ exARows, exASchema.Fits r) ∧ (exARows.map ARow.tid).Nodup ∧
    (∀ na nb, 0 < na → 0 < nb → natFloat.ge (getSimilarity natFloat .overlap na nb 0) 1 = false) := by
  refine ⟨fun r hr => ?_, by decide, by simp [natFloat, getSimilarity]⟩
  simp only [exARows, List.mem_cons, List.not_mem_nil, or_false] at hr
  rcases hr with rfl | rfl | rfl | rfl <;> exact exAFits _ (by omega) _ (by simp)

/-- The hypotheses of `C56_arrays_partial` about the conditions are met after the four rows were inserted. -/
example : Covered natFloat .overlap 1 exASchema.ix (exASchema.rc (fun _ l => l) (fun _ _ => true)) true
    (exASchema.ix.insertRows (exASchema.rc (fun _ l => l) (fun _ _ => true)) emptyIndex (exARows.map exASchema.row)).1 [⟨1, .similar, [7]⟩, ⟨1, .contained, [9]⟩] := by
  have hall : ∀ k ∈ ([⟨1, .emptyItem, 0⟩, ⟨1, .norm, 7⟩, ⟨1, .norm, 9⟩] : List (AttKey Nat)), exASchema.ix.treeOf
      (exASchema.ix.insertRows (exASchema.rc (fun _ l => l) (fun _ _ => true)) emptyIndex (exARows.map exASchema.row)).1 k = none := by decide +kernel
  refine ⟨by simp, by simp [ASchema.rc, exASchema], by simp [ASchema.rc], fun c hc k hk hq t ht => ?_, fun _ _ _ => by simp [natFloat, getSimilarity]⟩
  have : exASchema.ix.treeOf (exASchema.ix.insertRows (exASchema.rc (fun _ l => l) (fun _ _ => true)) emptyIndex (exARows.map exASchema.row)).1 k = none := by
    apply hall
    obtain ⟨a, ct, x⟩ := k
    simp only [List.mem_cons, List.not_mem_nil, or_false] at hc
    rcases hc with rfl | rfl <;> simp_all
    · rcases hq with ⟨rfl, rfl⟩ | ⟨rfl, rfl⟩ <;> simp
    · rcases hq with ⟨rfl, rfl⟩ | ⟨rfl, rfl⟩ <;> simp
  rw [this] at ht; cases ht

/-- What the index answers to `&& {7}`, `@> {}`, `<@ {9}`, `= {}` and `% {9}`, after the four rows were inserted. -/
def exAnswer (op : Strategy) (q : List Nat) : Option (List (Iptr × Bool)) :=
  (exASchema.ix.findArrays (exASchema.rc (fun _ l => l) (fun _ _ => true)) false natFloat .overlap 1 altSort (fun _ => none)
    (exASchema.ix.insertRows (exASchema.rc (fun _ l => l) (fun _ _ => true)) emptyIndex (exARows.map exASchema.row)).1 ⟨⟨0, 0⟩, none⟩ 20 ⟨1, op, q⟩ []).map
    (fun o => o.1.map (fun p => (p.1.iptr, p.2)))

example : exAnswer .overlap [7] = some [(⟨1, 1⟩, false)] ∧ exAnswer .contains [] = some [(⟨1, 1⟩, false), (⟨3, 1⟩, false), (⟨4, 1⟩, false)] ∧
    exAnswer .contained [9] = some [(⟨3, 1⟩, true), (⟨4, 1⟩, true)] ∧ exAnswer .equal [] = some [(⟨3, 1⟩, true)] ∧
    exAnswer .similar [9] = some [(⟨4, 1⟩, false)] ∧ exAnswer .overlap [] = some [] := by decide +kernel

end Rum.Props.ArraySearch

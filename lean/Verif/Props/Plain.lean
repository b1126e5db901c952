import Verif.Props.Scalar
/-!
# C55: indexes on plain scalar columns

The scope in which comparisons through the index have no exception: scalar columns, no attached column.
-/
namespace Rum.Props.Plain
open Rum Rum.Codec Rum.Leaf Rum.Entry Rum.Tree Rum.Index Rum.Extract Rum.Props Rum.Props.PostingTree Rum.Props.Index Rum.Props.IndexVacuum Rum.Props.Bulk
  Rum.Props.Query Rum.Props.Collect Rum.Props.Scalar Rum.Bt Std

variable {V : Type}

/-! ### Specification -/

/-- A row of the table: its TID and the values of its columns (`none`: NULL). -/
structure PRow (V : Type) where
  tid : Iptr
  col : Nat → Option V

/-- What happens to the table. -/
inductive PEvent (V : Type)
  | insert (r : PRow V)
  | vacuum (dead : Iptr → Bool)

/-- The rows of the table after an event. -/
def PEvent.rows (rs : List (PRow V)) : PEvent V → List (PRow V)
  | .insert r => rs ++ [r]
  | .vacuum dead => rs.filter (fun r => !dead r.tid)

/-- A table with an index on `natts` scalar columns: the orders of their types, the sizes of the keys in index tuples. -/
structure Schema (V : Type) where
  natts : Nat
  cmpK : Nat → V → V → Ordering
  keySize : AttKey V → Nat

/-- A possible row: the TID is one of PostgreSQL's, each key fits in an index tuple. -/
structure Schema.Fits (s : Schema V) [Inhabited V] (r : PRow V) : Prop where
  blk : r.tid.blk < 2 ^ 32
  off : r.tid.off < 2 ^ 16
  valid : 1 ≤ r.tid.off
  keys : ∀ a, 1 ≤ a → a ≤ s.natts → alignUp 8 (s.keySize ⟨a, (match r.col a with | none => .nullItem | some _ => .norm), (r.col a).getD default⟩ +
    (match r.col a with | none => 1 | some _ => 0)) ≤ maxTuple

/-- A possible history: TIDs of rows in the table are not given to new rows. -/
def Schema.Possible (s : Schema V) [Inhabited V] : List (PRow V) → List (PEvent V) → Prop
  | _, [] => True
  | rs, e :: es => (match e with
    | .insert r => s.Fits r ∧ ∀ q ∈ rs, q.tid ≠ r.tid
    | .vacuum _ => True) ∧ s.Possible (e.rows rs) es

/-- The index of such a table. -/
def Schema.ix (s : Schema V) : Ix V := ⟨s.cmpK, s.keySize, fun _ => ⟨⟨false, none⟩, false, fun _ _ => .eq⟩, false⟩

/-- The row as the index sees it, with rum_btree_extract_value. -/
def PRow.row (r : PRow V) : Row V := ⟨r.tid, fun a => scalarValue (r.col a), none⟩

def PEvent.event : PEvent V → Event V
  | .insert r => .insert r.row
  | .vacuum dead => .vacuum dead

/-- The configuration: no attached column. -/
def Schema.rc (s : Schema V) (sort : Nat → List (Raw V Datum) → List (Raw V Datum)) (haveDups : Nat → List (Raw V Datum) → Bool) : RowCfg V :=
  ⟨s.natts, sort, haveDups, none, fun _ => false⟩

/-! ### Proof -/

section
variable {s : Schema V} [Inhabited V] {sort : Nat → List (Raw V Datum) → List (Raw V Datum)} {haveDups : Nat → List (Raw V Datum) → Bool}

omit [Inhabited V] in
theorem cols_ok (hk : ∀ n, TransCmp (s.cmpK n)) (b : Bool) : ColsOK s.ix ⟨20, b⟩ where
  keys := hk
  infos := fun _ => { eq_swap := rfl, isLE_trans := fun _ _ => rfl }
  sizes := fun _ => ⟨(by decide : 3 * 20 + 40 ≤ dataCap), by decide, (by decide : (1 : Nat) ∣ 8), fun _ => (by decide : (1 : Nat) ∣ 4)⟩

theorem size_le (p q : Iptr) (h : p.off < 2 ^ 16) : sizeIptr false p q ≤ 9 := by
  unfold sizeIptr
  simp only [Bool.false_eq_true, if_false]
  have h1 : sizeBlk ((p.blk + 2 ^ 32 - q.blk) % 2 ^ 32) ≤ 4 + 1 := by
    rw [sizeBlk_le_iff]
    have : (p.blk + 2 ^ 32 - q.blk) % 2 ^ 32 < 2 ^ 32 := Nat.mod_lt _ (by decide)
    have h2 : (2 : Nat) ^ 32 < 128 ^ (4 + 1) := by decide
    omega
  have h2 : sizeOff p.off ≤ 4 := by
    have e1 : p.off >>> 7 = p.off / 2 ^ 7 := Nat.shiftRight_eq_div_pow _ _
    rw [sizeOff]
    split
    · omega
    · rw [sizeOff]
      split
      · omega
      · rw [sizeOff]
        split
        · omega
        · rw [sizeOff]
          split
          · omega
          · next h =>
            simp only [Nat.shiftRight_eq_div_pow] at h
            omega
  omega

theorem storable {r : PRow V} (h : s.Fits r) (a : Nat) (b : Bool) : Storable (s.ix.ctx a) ⟨20, b⟩ ⟨r.tid, none⟩ := by
  refine ⟨⟨⟨h.blk, h.off⟩, fun h => (by cases h), fun d hd => (by cases hd)⟩, rfl, h.valid, ?_, fun _ => rfl⟩
  show 0 + sizeIptr false r.tid ⟨0, 0⟩ ≤ 20
  have := size_le r.tid ⟨0, 0⟩ h.off
  omega

theorem row_ok {r : PRow V} (h : s.Fits r) (b : Bool) : RowOK s.ix (s.rc sort haveDups) ⟨20, b⟩ r.row := by
  intro a h1 h2 o ho
  have hk := h.keys a h1 h2
  have ho : o ∈ extractEntries (s.cmpK a) (sort a) (haveDups a) (scalarValue (r.col a)) := ho
  cases hc : r.col a with
  | none =>
    rw [hc] at ho hk
    simp only [scalarValue, extractEntries, List.mem_singleton] at ho
    subst ho
    exact ⟨fun h => (by cases h), hk, storable h a b⟩
  | some v =>
    rw [hc] at ho hk
    simp only [scalarValue, extractEntries, toOut, List.mem_singleton] at ho
    subst ho
    exact ⟨fun h => (by cases h), hk, storable h a b⟩

theorem possible_ok : ∀ (evs : List (PEvent V)) (rs : List (PRow V)), s.Possible rs evs → ∀ b,
    IndexVacuum.Possible s.ix (s.rc sort haveDups) ⟨20, b⟩ (rs.map PRow.row) (evs.map PEvent.event) ∧
    (evs.map PEvent.event).foldl Event.rows (rs.map PRow.row) = (evs.foldl PEvent.rows rs).map PRow.row := by
  intro evs
  induction evs with
  | nil => intro rs _ b; exact ⟨trivial, rfl⟩
  | cons e evs ih =>
    intro rs h b
    obtain ⟨h1, h2⟩ := h
    have hrows : e.event.rows (rs.map PRow.row) = (e.rows rs).map PRow.row := by
      cases e with
      | insert r => simp [PEvent.event, Event.rows, PEvent.rows]
      | vacuum dead => simp only [PEvent.event, Event.rows, PEvent.rows, List.filter_map]; rfl
    obtain ⟨i1, i2⟩ := ih (e.rows rs) h2 b
    refine ⟨⟨?_, ?_⟩, ?_⟩
    · cases e with
      | insert r =>
        refine ⟨row_ok h1.1 b, fun q hq => ?_⟩
        obtain ⟨p, hp, rfl⟩ := List.mem_map.1 hq
        exact h1.2 p hp
      | vacuum dead => trivial
    · rw [hrows]; exact i1
    · rw [List.map_cons, List.foldl_cons, List.foldl_cons, hrows]; exact i2

omit [Inhabited V] in
theorem entries_length (r : PRow V) (a : Nat) : (s.ix.colEntries (s.rc sort haveDups) a r.row).length < 2 ^ 31 := by
  show (extractEntries (s.cmpK a) (sort a) (haveDups a) (scalarValue (r.col a))).length < 2 ^ 31
  cases r.col a <;> simp [scalarValue, extractEntries]

/-- The value of a column, from the entries. -/
def colOf (r : Row V) (a : Nat) : Option V := (r.value a).bind (fun l => l.head?.bind (·.key))

omit [Inhabited V] in
theorem colOf_row (r : PRow V) (a : Nat) : colOf r.row a = r.col a := by
  unfold colOf PRow.row
  cases h : r.col a <;> simp [scalarValue, h]

theorem right_of {vacuumed : Bool} {tuplesort : (Item Datum → Item Datum → Ordering) → List (Item Datum) → List (Item Datum)} {st : State V} {rs : List (PRow V)}
    (H : Compares s.ix (s.rc sort haveDups) false vacuumed tuplesort (fun _ => none) st (rs.map PRow.row)) (leftmost : Nat → V) (c : Comparison V) (cs : List (Comparison V))
    (hat : ∀ d ∈ c :: cs, 1 ≤ d.attnum ∧ d.attnum ≤ s.natts) (hl : LeastOK s.cmpK leftmost (c :: cs)) (he : vacuumed = true → ∀ d ∈ c :: cs, d.op ≠ .eq) :
    ∃ N, ∀ n, N ≤ n → ∀ junk, ∃ out, s.ix.find (s.rc sort haveDups) false tuplesort (fun _ => none) st junk n (c.clause s.cmpK leftmost)
        (cs.map (fun d => d.clause s.cmpK leftmost)) = some out ∧ out.2 = true ∧
      (out.1.map (fun p => p.1.iptr)).Pairwise (fun a b => cmpIptr a b = .lt) ∧ (∀ p ∈ out.1, p.2 = false) ∧
      ∀ tid, tid ∈ out.1.map (fun p => p.1.iptr) ↔ ∃ r ∈ rs, r.tid = tid ∧ ∀ d ∈ c :: cs, True3 (s.cmpK d.attnum) d.op d.datum (r.col d.attnum) := by
  obtain ⟨N, hN⟩ := H leftmost colOf c cs (by
    intro r hr d _
    obtain ⟨p, -, rfl⟩ := List.mem_map.1 hr
    rw [colOf_row]; rfl) hl ⟨fun d hd => (hat d hd).1, fun d hd => (hat d hd).2, Or.inl rfl, fun d hd hde t _ => by
      cases hv : vacuumed with
      | false => exact Or.inr rfl
      | true => exact absurd hde (he hv d hd), fun d _ _ h => by cases h⟩
  refine ⟨N, fun n hn junk => ?_⟩
  obtain ⟨out, h1, h2⟩ := hN n hn junk
  refine ⟨out, h1, h2.ends, ?_, h2.recheck, fun tid => ?_⟩
  · have h3 := h2.sorted
    rw [List.pairwise_map] at h3 ⊢
    refine h3.imp (fun {a b} hab => ?_)
    simpa [Schema.ix, Ctx.cmp, cmpItem] using hab
  · have h3 := h2.rows tid
    have h4 : tid ∈ out.1.map (fun p => p.1.iptr) ↔ ∃ p ∈ out.1, p.1.iptr = tid := by simp
    rw [h4, h3]
    constructor
    · rintro ⟨r, hr, he, hg⟩
      obtain ⟨p, hp, rfl⟩ := List.mem_map.1 hr
      exact ⟨p, hp, he, fun d hd => by have := hg d hd; rwa [colOf_row] at this⟩
    · rintro ⟨p, hp, he, hg⟩
      exact ⟨p.row, List.mem_map_of_mem hp, he, fun d hd => by rw [colOf_row]; exact hg d hd⟩

end

/-! ### Properties -/

/-- **C55, ranges.** An index on scalar columns, created on a table with any rows; then any sequence of insertions and VACUUMs. A search by any number of
comparisons with `<`, `<=`, `>=`, `>` returns exactly the rows of the table for which all of them are true, in the order of their TIDs, each once, without
recheck. -/
theorem C55_ranges (s : Schema V) [Inhabited V] (hk : ∀ n, TransCmp (s.cmpK n)) (hal : ∀ k, 8 ∣ s.keySize k)
    (sort : Nat → List (Raw V Datum) → List (Raw V Datum)) (haveDups : Nat → List (Raw V Datum) → Bool) (hs : ∀ a, SortOK (s.cmpK a) (sort a))
    (hd : ∀ a, DupsSeen (s.cmpK a) (haveDups a))
    (qsort tuplesort : (Item Datum → Item Datum → Ordering) → List (Item Datum) → List (Item Datum)) (hq : Sorts qsort) (htp : Sorts tuplesort) (full : Nat → Bool)
    (rs : List (PRow V)) (hok : ∀ r ∈ rs, s.Fits r) (htid : (rs.map PRow.tid).Nodup) (evs : List (PEvent V)) (hev : s.Possible rs evs) :
    ∃ st, runs s.ix (s.rc sort haveDups) (s.ix.buildIndex (s.rc sort haveDups) qsort full (rs.map PRow.row)) (evs.map PEvent.event) = (st, true) ∧
      ∀ (leftmost : Nat → V) (c : Comparison V) (cs : List (Comparison V)), (∀ d ∈ c :: cs, 1 ≤ d.attnum ∧ d.attnum ≤ s.natts) →
        (∀ d ∈ c :: cs, d.op ≠ .eq) →
        (∀ d ∈ c :: cs, d.op = .lt ∨ d.op = .le → ∀ x, s.cmpK d.attnum (leftmost d.attnum) x ≠ .gt) →
        ∃ N, ∀ n, N ≤ n → ∀ junk, ∃ out, s.ix.find (s.rc sort haveDups) false tuplesort (fun _ => none) st junk n (c.clause s.cmpK leftmost)
            (cs.map (fun d => d.clause s.cmpK leftmost)) = some out ∧ out.2 = true ∧
          (out.1.map (fun p => p.1.iptr)).Pairwise (fun a b => cmpIptr a b = .lt) ∧ (∀ p ∈ out.1, p.2 = false) ∧
          ∀ tid, tid ∈ out.1.map (fun p => p.1.iptr) ↔
            ∃ r ∈ evs.foldl PEvent.rows rs, r.tid = tid ∧ ∀ d ∈ c :: cs, True3 (s.cmpK d.attnum) d.op d.datum (r.col d.attnum) := by
  obtain ⟨p1, p2⟩ := possible_ok (sort := sort) (haveDups := haveDups) evs rs hev true
  obtain ⟨st, h1, h2⟩ := C54_comparisons_partial s.ix (s.rc sort haveDups) false 20 (cols_ok hk true) hal hs hd (fun a => ⟨rfl, rfl⟩) qsort tuplesort hq htp (fun _ => none)
    (fun h => by cases h) full (rs.map PRow.row) (fun r hr => by obtain ⟨p, hp, rfl⟩ := List.mem_map.1 hr; exact row_ok (hok p hp) false)
    (fun r hr a => by obtain ⟨p, hp, rfl⟩ := List.mem_map.1 hr; exact entries_length p a) (by rw [List.map_map]; exact htid) (fun h => by cases h)
    (evs.map PEvent.event) p1
  rw [p2] at h2
  exact ⟨st, h1, fun leftmost c cs hat he hl => right_of h2 leftmost c cs hat hl (fun _ => he)⟩

/-- **C55, all comparisons.** The same for `=` as well, when there was no VACUUM. -/
theorem C55_comparisons_inserted (s : Schema V) [Inhabited V] (hk : ∀ n, TransCmp (s.cmpK n))
    (sort : Nat → List (Raw V Datum) → List (Raw V Datum)) (haveDups : Nat → List (Raw V Datum) → Bool) (hs : ∀ a, SortOK (s.cmpK a) (sort a))
    (hd : ∀ a, DupsSeen (s.cmpK a) (haveDups a))
    (qsort tuplesort : (Item Datum → Item Datum → Ordering) → List (Item Datum) → List (Item Datum)) (hq : Sorts qsort) (htp : Sorts tuplesort) (full : Nat → Bool)
    (rs new : List (PRow V)) (hok : ∀ r ∈ rs ++ new, s.Fits r) (htid : ((rs ++ new).map PRow.tid).Nodup) :
    ∃ st t, s.ix.buildIndex (s.rc sort haveDups) qsort full (rs.map PRow.row) = (st, true) ∧
      s.ix.insertRows (s.rc sort haveDups) st (new.map PRow.row) = (t, true) ∧
      ∀ (leftmost : Nat → V) (c : Comparison V) (cs : List (Comparison V)), (∀ d ∈ c :: cs, 1 ≤ d.attnum ∧ d.attnum ≤ s.natts) →
        (∀ d ∈ c :: cs, d.op = .lt ∨ d.op = .le → ∀ x, s.cmpK d.attnum (leftmost d.attnum) x ≠ .gt) →
        ∃ N, ∀ n, N ≤ n → ∀ junk, ∃ out, s.ix.find (s.rc sort haveDups) false tuplesort (fun _ => none) t junk n (c.clause s.cmpK leftmost)
            (cs.map (fun d => d.clause s.cmpK leftmost)) = some out ∧ out.2 = true ∧
          (out.1.map (fun p => p.1.iptr)).Pairwise (fun a b => cmpIptr a b = .lt) ∧ (∀ p ∈ out.1, p.2 = false) ∧
          ∀ tid, tid ∈ out.1.map (fun p => p.1.iptr) ↔
            ∃ r ∈ rs ++ new, r.tid = tid ∧ ∀ d ∈ c :: cs, True3 (s.cmpK d.attnum) d.op d.datum (r.col d.attnum) := by
  obtain ⟨st, t, h1, h2, h3⟩ := C53_query_inserted_partial s.ix (s.rc sort haveDups) false ⟨20, false⟩ rfl (cols_ok hk false) hs hd (fun a => ⟨rfl, rfl⟩) qsort tuplesort hq htp
    (fun _ => none) (fun h => by cases h) full (rs.map PRow.row)
    (fun r hr => by obtain ⟨p, hp, rfl⟩ := List.mem_map.1 hr; exact row_ok (hok p (List.mem_append_left _ hp)) false)
    (fun r hr a => by obtain ⟨p, hp, rfl⟩ := List.mem_map.1 hr; exact entries_length p a) (fun h => by cases h) (new.map PRow.row)
    (fun r hr => by obtain ⟨p, hp, rfl⟩ := List.mem_map.1 hr; exact row_ok (hok p (List.mem_append_right _ hp)) false)
    (by rw [← List.map_append, List.map_map]; exact htid)
  rw [← List.map_append] at h3
  exact ⟨st, t, h1, h2, fun leftmost c cs hat hl =>
    right_of (compares_of_finds (cols_ok hk false) h3) leftmost c cs hat hl (fun h => by cases h)⟩

/-! ### Concrete case -/

def exSchema : Schema Nat := ⟨2, fun _ => compare, fun _ => 16⟩
def exP (n : Nat) (v w : Option Nat) : PRow Nat := ⟨⟨n, 1⟩, fun a => if a = 1 then v else w⟩
def exHist : List (PEvent Nat) := [.insert (exP 2 (some 7) none), .vacuum (fun t => t.blk < 2), .insert (exP 1 none (some 3))]

theorem exFits (n : Nat) (hn : n < 400) (v w : Option Nat) : exSchema.Fits (exP n v w) where
  blk := by show n < 2 ^ 32; omega
  off := by show 1 < 2 ^ 16; omega
  valid := Nat.le_refl 1
  keys := fun a _ _ => by
    show alignUp 8 (16 + _) ≤ maxTuple
    cases (exP n v w).col a
    · decide
    · exact (by decide : alignUp 8 (16 + 0) ≤ maxTuple)

/-- The hypotheses are met; sorting functions as in the other examples. -/
example : (∀ k, 8 ∣ exSchema.keySize k) ∧ (∀ r ∈ [exP 0 (some 5) (some 4), exP 1 (some 6) none], exSchema.Fits r) ∧
    exSchema.Possible [exP 0 (some 5) (some 4), exP 1 (some 6) none] exHist ∧
    (exHist.foldl PEvent.rows [exP 0 (some 5) (some 4), exP 1 (some 6) none]).map PRow.tid = [⟨2, 1⟩, ⟨1, 1⟩] := by
  refine ⟨fun _ => ⟨2, rfl⟩, ?_, ⟨⟨exFits 2 (by omega) _ _, by simp [exP]⟩, trivial, ⟨exFits 1 (by omega) _ _, by simp [exP, PEvent.rows]⟩, trivial⟩, by decide⟩
  intro r hr
  simp only [List.mem_cons, List.not_mem_nil, or_false] at hr
  rcases hr with rfl | rfl
  · exact exFits 0 (by omega) _ _
  · exact exFits 1 (by omega) _ _

end Rum.Props.Plain

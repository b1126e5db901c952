import Verif.MixedSearch
import Verif.Props.TextTable
/-!
# C58: searches with conditions of different kinds on the columns of one index

An index with scalar, array and tsvector columns, and a table that grows.
-/
namespace Rum.Props.MixedSearch
open Rum.Ts hiding Stands
open Rum Rum.Codec Rum.Leaf Rum.Entry Rum.Tree Rum.Index Rum.Extract Rum.Props Rum.Props.PostingTree Rum.Props.Index Rum.Props.IndexVacuum Rum.Props.Bulk
  Rum.Props.Query Rum.Props.Collect Rum.Props.Search Rum.Props.FullText Rum.Props.TextSearch Rum.Pos Rum.FullText Std

variable {V F : Type}

/-! ### Specification -/

/-- What the type of a column is. -/
inductive Kind
  | scalar
  | array
  | text
deriving DecidableEq

/-- What a row has in a column. Words are strings of bytes. -/
inductive Cell (V : Type)
  | null
  | scalar (v : V)
  | array (l : List V)
  | text (v : TsVector (List Nat))

/-- A row of the table. -/
structure MRow (V : Type) where
  tid : Iptr
  cell : Nat → Cell V

/-- An index with a btree class, rum_anyarray_ops or rum_tsvector_ops on each of its `natts` columns: the orders of the scalar and element types, the sizes of keys in
index tuples; `V` are keys of all these types, `build` makes one of a word. -/
structure MSchema (V : Type) where
  natts : Nat
  kind : Nat → Kind
  cmp : Nat → V → V → Ordering
  keySize : AttKey V → Nat
  build : List Nat → V
  word : V → List Nat
  word_build : ∀ w, word (build w) = w

/-- The cell is of the column's type. -/
def Cell.Typed : Kind → Cell V → Prop
  | _, .null => True
  | k, .scalar _ => k = .scalar
  | k, .array _ => k = .array
  | k, .text _ => k = .text

/-- The condition is one for the column's type. -/
def Asks : Kind → AnyCond (List Nat) V → Prop
  | k, .compare _ => k = .scalar
  | k, .array _ => k = .array
  | k, .text _ => k = .text

/-- The keys of a cell, with the byte for a null category. -/
def Cell.keys [Inhabited V] (s : MSchema V) (a : Nat) : Cell V → List (AttKey V × Nat)
  | .null => [(⟨a, .nullItem, default⟩, 1)]
  | .scalar v => [(⟨a, .norm, v⟩, 0)]
  | .array [] => [(⟨a, .emptyItem, default⟩, 1)]
  | .array l => l.map (fun x => (⟨a, .norm, x⟩, 0))
  | .text [] => [(⟨a, .emptyItem, default⟩, 1)]
  | .text v => v.map (fun w => (⟨a, .norm, s.build w.1⟩, 0))

/-- A possible value: arrays and documents have less than 2^31 elements; positions are from 1 to `P`, at most 42 for each word. -/
def Cell.Fits (P : Nat) : Cell V → Prop
  | .array l => l.length < 2 ^ 31
  | .text v => VecOK P v ∧ v.length < 2 ^ 31 ∧ ∀ w ∈ v, ∀ ps, w.2 = some ps → ps.length ≤ 42
  | _ => True

/-- A possible row: the TID is one of PostgreSQL's, values are of their types, each key fits in an index tuple. -/
structure MSchema.Fits (s : MSchema V) [Inhabited V] (P : Nat) (r : MRow V) : Prop where
  blk : r.tid.blk < 2 ^ 32
  off : r.tid.off < 2 ^ 16
  valid : 1 ≤ r.tid.off
  typed : ∀ a, (r.cell a).Typed (s.kind a)
  cells : ∀ a, (r.cell a).Fits P
  keys : ∀ a, 1 ≤ a → a ≤ s.natts → ∀ k ∈ (r.cell a).keys s a, alignUp 8 (s.keySize k.1 + k.2) ≤ maxTuple

/-- The order of the keys of a column; words as gin_cmp_tslexeme orders them. -/
def MSchema.cmpK (s : MSchema V) (a : Nat) (x y : V) : Ordering := if s.kind a = .text then tsCompare (s.word x) (s.word y) else s.cmp a x y

/-- The type of a column's additional info. -/
def infoAttr : Kind → Option Attr
  | .scalar => none
  | .array => some ⟨true, 4, 4, true⟩
  | .text => some ftAttr

/-- The index; no attached column. -/
def MSchema.ix (s : MSchema V) : Ix V := ⟨s.cmpK, s.keySize, fun a => ⟨⟨false, infoAttr (s.kind a)⟩, false, fun _ _ => .eq⟩, false⟩

/-- rum_tsvector_ops. -/
def MSchema.textClass (s : MSchema V) : TsClass (List Nat) V := ⟨s.build, ftAttr, false, fun p k => ginCmpPrefix p (s.word k)⟩

/-- A value as the index sees it, with the extractValue function of the column's class. -/
def Cell.value (s : MSchema V) (a : Nat) : Cell V → Option (List (Raw V Datum))
  | .null => none
  | .scalar v => scalarValue (some v)
  | .array l => arrayValue (s.cmpK a) (some l)
  | .text v => some (extractTsvector s.build ftAttr v)

def MSchema.row (s : MSchema V) (r : MRow V) : Row V := ⟨r.tid, fun a => (r.cell a).value s a, none⟩

def MSchema.rc (s : MSchema V) (sort : Nat → List (Raw V Datum) → List (Raw V Datum)) (haveDups : Nat → List (Raw V Datum) → Bool) : RowCfg V :=
  ⟨s.natts, sort, haveDups, none, fun a => decide (s.kind a ≠ .scalar)⟩

/-- Only tsvector columns have a function to join additional infos. -/
def MSchema.join (s : MSchema V) (a : Nat) : Option (Datum → Datum → Datum) := if s.kind a = .text then some joinTs else none

/-- What makes a scan key of a condition. -/
structure Ops (V F : Type) where
  leftmost : Nat → V
  fl : Arr.Float8 F
  fn : Arr.SimFn
  thr : F

def Ops.classes (o : Ops V F) (s : MSchema V) (opSort : List (Opnd (List Nat)) → List (Opnd (List Nat))) : Classes (List Nat) V F :=
  ⟨o.leftmost, o.fl, o.fn, o.thr, fun _ => s.textClass, tsCompare, opSort⟩

/-- The condition is true in SQL of a row with this value. -/
def CondTrue (unk : Opnd (List Nat) → Nat → Prop) (o : Ops V F) (cmp : Nat → V → V → Ordering) : AnyCond (List Nat) V → Cell V → Prop
  | .compare c, .scalar v => Scalar.True3 (cmp c.attnum) c.op c.datum (some v)
  | .array c, .array l => ArraySearch.ArrTrue o.fl o.fn o.thr (cmp c.attnum) c.op c.query (some l)
  | .text c, .text v => DocMatches unk (fun p w => p <+: w) (some v) c.query
  | _, _ => False

/-- The conditions the theorem covers, over a table with rows `rs`. `<`, `<=`: the leftmost value is the least. `%`: disjoint arrays do not reach the threshold. Full text: no
lexeme is both a word and a prefix; positions and distances are in range; the words of a document that a prefix stands for are alike. -/
def Scope (o : Ops V F) (cmp : Nat → V → V → Ordering) (P : Nat) (rs : List (MRow V)) : AnyCond (List Nat) V → Prop
  | .compare c => c.op = .lt ∨ c.op = .le → ∀ x, cmp c.attnum (o.leftmost c.attnum) x ≠ .gt
  | .array c => c.op = .similar → ∀ na nb, 0 < na → 0 < nb → o.fl.ge (Arr.getSimilarity o.fl o.fn na nb 0) o.thr = false
  | .text c => (∀ x ∈ operands c.query, ∀ y ∈ operands c.query, x.lex = y.lex → x.pre = y.pre) ∧ P + c.query.dist < 2 ^ 14 ∧
    ∀ x ∈ operands c.query, x.pre = true → ∀ r ∈ rs, ∀ v, r.cell c.attnum = .text v → PrefixWords (fun p w => p <+: w) x v

/-- Nothing is left to check after this condition. -/
def Exact (rs : List (MRow V)) : AnyCond (List Nat) V → Prop
  | .compare _ => True
  | .array c => c.op = .overlap ∨ c.op = .contains ∨ c.op = .similar
  | .text c => NoWeightUnderNot false c.query ∧ ∀ r ∈ rs, ∀ v, r.cell c.attnum = .text v → ∀ w ∈ v, w.2 ≠ none

/-! ### Proof -/

theorem scalar_judges {ix : Ix V} {rc : RowCfg V} {M : Lim} {join : Nat → Option (Datum → Datum → Datum)} (hc : ColsOK ix M) {leftmost : Nat → V} {c : Comparison V}
    {r : Row V} {v : Option V} (hv : r.value c.attnum = scalarValue v) :
    Judges ix rc join r (c.clause ix.cmpK leftmost) (Scalar.True3 (ix.cmpK c.attnum) c.op c.datum v) True := by
  intro w h
  obtain ⟨x, l, g1, g2, rfl⟩ := List.forall₂_cons_left_iff.1 h
  rw [List.forall₂_nil_left_iff.1 g2]
  rw [← Scalar.sees_iff hc hv g1]
  simp [Collect.Accepted, Comparison.clause]

theorem extract_length {cmpK : V → V → Ordering} {sort : List (Raw V Datum) → List (Raw V Datum)} {haveDups : List (Raw V Datum) → Bool} (hs : SortOK cmpK sort)
    (o : Option (List (Raw V Datum))) (h : ∀ l, o = some l → l.length < 2 ^ 31) [Inhabited V] : (extractEntries cmpK sort haveDups o).length < 2 ^ 31 := by
  cases o with
  | none => simp [extractEntries]
  | some raws =>
    have h3 := h raws rfl
    match raws, h3 with
    | [], _ => simp [extractEntries]
    | [r], _ => simp [extractEntries]
    | r1 :: r2 :: rest, h3 =>
      have hp := (hs.perm (r1 :: r2 :: rest)).length_eq
      simp only [extractEntries]
      cases hso : sort (r1 :: r2 :: rest) with
      | nil => simp
      | cons x xs =>
        rw [hso] at hp
        simp only
        have := ArraySearch.length_dedup (cmpK := cmpK) xs x
        simp only [List.length_cons] at hp h3
        split <;> simp <;> omega

section
variable {s : MSchema V} [Inhabited V] {sort : Nat → List (Raw V Datum) → List (Raw V Datum)} {haveDups : Nat → List (Raw V Datum) → Bool} {P : Nat}

omit [Inhabited V] in
theorem keys_trans (hk : ∀ n, s.kind n ≠ .text → TransCmp (s.cmp n)) (n : Nat) : TransCmp (s.cmpK n) := by
  by_cases h : s.kind n = .text
  · have : s.cmpK n = fun x y => tsCompare (s.word x) (s.word y) := by funext x y; simp [MSchema.cmpK, h]
    rw [this]
    exact { eq_swap := OrientedCmp.eq_swap (cmp := tsCompare), isLE_trans := TransCmp.isLE_trans (cmp := tsCompare) }
  · have : s.cmpK n = s.cmp n := by funext x y; simp [MSchema.cmpK, h]
    rw [this]
    exact hk n h

omit [Inhabited V] in
theorem cols_ok (hk : ∀ n, s.kind n ≠ .text → TransCmp (s.cmp n)) (b : Bool) : ColsOK s.ix ⟨160, b⟩ where
  keys := keys_trans hk
  infos := fun _ => { eq_swap := rfl, isLE_trans := fun _ _ => rfl }
  sizes := fun a => by
    have h : ∀ k, padOf (⟨false, infoAttr k⟩ : Cfg) ∣ 8 ∧ padOf (⟨false, infoAttr k⟩ : Cfg) ∣ 4 := by intro k; cases k <;> decide
    exact ⟨(by decide : 3 * 160 + 40 ≤ dataCap), by decide, (h (s.kind a)).1, fun _ => (h (s.kind a)).2⟩

/-- Additional info of a column as it is stored. -/
def InfoFits : Kind → Option Datum → Prop
  | _, none => True
  | .array, some (.byval n) => n < 2 ^ 31
  | .text, some (.varlena .short p) => p.length + 1 ≤ 0x7f
  | _, _ => False

theorem storable {r : MRow V} (h : s.Fits P r) (a : Nat) (b : Bool) (i : Option Datum) (hi : InfoFits (s.kind a) i) :
    Storable (s.ix.ctx a) ⟨160, b⟩ ⟨r.tid, i⟩ := by
  have hsz := Plain.size_le r.tid ⟨0, 0⟩ h.off
  cases i with
  | none =>
    refine ⟨⟨⟨h.blk, h.off⟩, fun h => (by cases h), fun d hd => (by cases hd)⟩, rfl, h.valid, ?_, fun _ => rfl⟩
    show 0 + sizeIptr false r.tid ⟨0, 0⟩ ≤ 160
    omega
  | some d =>
    have hattr : (s.ix.ctx a).cfg.attr = infoAttr (s.kind a) := rfl
    have hctx : (s.ix.ctx a) = ⟨⟨false, infoAttr (s.kind a)⟩, false, fun _ _ => .eq⟩ := rfl
    rw [hctx]
    cases hk : s.kind a with
    | scalar => rw [hk] at hi; simp [InfoFits] at hi
    | array =>
      rw [hk] at hi
      cases d with
      | byval n =>
        have hi : n < 2 ^ 31 := hi
        refine ⟨⟨⟨h.blk, h.off⟩, fun h => (by cases h), fun d hd => ?_⟩, rfl, h.valid, ?_, fun _ => rfl⟩
        · cases hd
          exact ⟨_, rfl, rfl, Or.inr (Or.inr (Or.inl rfl)), Nat.lt_trans hi (by decide)⟩
        · show 0 + sizeIptr false r.tid ⟨0, 0⟩ + 4 ≤ 160
          omega
      | varlena _ _ => simp [InfoFits] at hi
      | cstring _ => simp [InfoFits] at hi
      | fixedRef _ => simp [InfoFits] at hi
    | text =>
      rw [hk] at hi
      cases d with
      | varlena hd p =>
        cases hd with
        | short =>
          have hi : p.length + 1 ≤ 0x7f := hi
          refine ⟨⟨⟨h.blk, h.off⟩, fun h => (by cases h), fun d hd => ?_⟩, ?_, h.valid, ?_, fun _ => rfl⟩
          · cases hd
            exact ⟨ftAttr, rfl, rfl, rfl, (by decide : 0 < 4), hi⟩
          · show (⟨r.tid, some (Datum.stored ftAttr (.varlena .short p))⟩ : Item Datum) = _
            simp [Datum.stored, canMakeShort]
          · show computeSize ftAttr (0 + sizeIptr false r.tid ⟨0, 0⟩) (.varlena .short p) ≤ 160
            have hc : canMakeShort .short p = false := rfl
            simp only [computeSize, hc, Bool.and_false, Bool.false_eq_true, if_false]
            omega
        | _ => simp [InfoFits] at hi
      | byval _ => simp [InfoFits] at hi
      | cstring _ => simp [InfoFits] at hi
      | fixedRef _ => simp [InfoFits] at hi

theorem row_ok (hk : ∀ n, s.kind n ≠ .text → TransCmp (s.cmp n)) (hs : ∀ a, SortOK (s.cmpK a) (sort a)) (hd : ∀ a, DupsSeen (s.cmpK a) (haveDups a)) {r : MRow V}
    (h : s.Fits P r) (b : Bool) : RowOK s.ix (s.rc sort haveDups) ⟨160, b⟩ (s.row r) := by
  intro a h1 h2 o ho
  have ho : o ∈ extractEntries (s.cmpK a) (sort a) (haveDups a) ((r.cell a).value s a) := ho
  have := keys_trans hk a
  have hkeys := h.keys a h1 h2
  have htyped := h.typed a
  have hcell := h.cells a
  obtain ⟨e1, e2, e3⟩ := C18_extract (s.cmpK a) (sort a) (haveDups a) (hs a) (hd a)
  have hmany : ∀ raws : List (Raw V Datum), raws ≠ [] → o ∈ extractEntries (s.cmpK a) (sort a) (haveDups a) (some raws) →
      (∀ q ∈ raws, ∃ x, q.key = some x ∧ alignUp 8 (s.keySize ⟨a, .norm, x⟩) ≤ maxTuple ∧ InfoFits (s.kind a) q.info) →
      (o.info.isSome → (s.rc sort haveDups).addAttrs a = true) ∧ s.ix.tupleSize (outKey a o) [] ≤ maxTuple ∧ Storable (s.ix.ctx a) ⟨160, b⟩ ⟨(s.row r).tid, o.info⟩ := by
    intro raws hne ho hall
    obtain ⟨-, -, e4, -⟩ := e3 raws hne
    obtain ⟨raw, hraw, g1, g2, g3, g4⟩ := e4 o ho
    obtain ⟨x, f1, f2, f3⟩ := hall raw hraw
    obtain ⟨cat, k, info⟩ := o
    simp only at g1 g2 g3 g4
    subst g1 g2
    have g4 := g4.2 (by simp [f1])
    subst g4
    refine ⟨fun hi => ?_, ?_, storable h a b _ f3⟩
    · show decide (s.kind a ≠ .scalar) = true
      simp only at hi
      cases hin : raw.info with
      | none => rw [hin] at hi; cases hi
      | some d =>
        rw [hin] at f3
        cases hka : s.kind a with
        | scalar => rw [hka] at f3; simp [InfoFits] at f3
        | _ => rfl
    · rw [f1]; exact f2
  cases hc : r.cell a with
  | null =>
    rw [hc] at ho hkeys
    simp only [Cell.value, e1, List.mem_singleton] at ho
    subst ho
    exact ⟨fun h => (by cases h), hkeys (⟨a, .nullItem, default⟩, 1) (List.mem_singleton.2 rfl), storable h a b none trivial⟩
  | scalar v =>
    rw [hc] at ho hkeys
    refine hmany _ (by simp) ho (fun q hq => ?_)
    rw [List.mem_singleton.1 hq]
    exact ⟨v, rfl, hkeys (⟨a, .norm, v⟩, 0) (List.mem_singleton.2 rfl), trivial⟩
  | array l =>
    rw [hc] at ho hkeys htyped hcell
    have htyped : s.kind a = .array := htyped
    simp only [Cell.Fits] at hcell
    cases l with
    | nil =>
      have : arrayValue (s.cmpK a) (some []) = some [] := by simp [arrayValue, Arr.simple, qsort, uniq]
      simp only [Cell.value, this, e2, List.mem_singleton] at ho
      subst ho
      exact ⟨fun h => (by cases h), hkeys (⟨a, .emptyItem, default⟩, 1) (List.mem_singleton.2 rfl), storable h a b none trivial⟩
    | cons x xs =>
      refine hmany _ ?_ ho (fun q hq => ?_)
      · intro hnil
        obtain ⟨K, _, key, k1, k2, -⟩ := exists_key (s.cmpK a)
        have h3 : Arr.simple (s.cmpK a) (x :: xs) = [] := by simpa using hnil
        have : Arr.simple compare ((x :: xs).map key) = [] := by rw [← ArraySearch.simple_map k1 k2, h3]; rfl
        simpa using (simple_nil compare _).1 this
      · obtain ⟨y, hy, rfl⟩ := List.mem_map.1 hq
        refine ⟨y, rfl, hkeys (⟨a, .norm, y⟩, 0) (List.mem_map_of_mem (ArraySearch.mem_of_simple hy)), ?_⟩
        rw [htyped]
        exact Nat.lt_of_le_of_lt (ArraySearch.simple_len _) hcell
  | text v =>
    rw [hc] at ho hkeys htyped hcell
    have htyped : s.kind a = .text := htyped
    simp only [Cell.Fits] at hcell
    obtain ⟨hv, hl, hsh⟩ := hcell
    cases v with
    | nil =>
      simp only [Cell.value, extractTsvector, List.map_nil, e2, List.mem_singleton] at ho
      subst ho
      exact ⟨fun h => (by cases h), hkeys (⟨a, .emptyItem, default⟩, 1) (List.mem_singleton.2 rfl), storable h a b none trivial⟩
    | cons x xs =>
      refine hmany _ (by simp [extractTsvector]) ho (fun q hq => ?_)
      obtain ⟨y, hy, rfl⟩ := List.mem_map.1 hq
      refine ⟨s.build y.1, rfl, hkeys (⟨a, .norm, s.build y.1⟩, 0) (List.mem_map_of_mem (f := fun w : List Nat × Option (List Nat) => ((⟨a, .norm, s.build w.1⟩ : AttKey V), 0)) hy), ?_⟩
      rw [htyped]
      cases hy2 : y.2 with
      | none => trivial
      | some ps =>
        simp only [Option.map_some, TextTable.stored_short (hv.positions y hy ps hy2).1 (hsh y hy ps hy2)]
        exact TextTable.short_len (hv.positions y hy ps hy2).1 (hsh y hy ps hy2)

theorem entries_length (hs : ∀ a, SortOK (s.cmpK a) (sort a)) {r : MRow V} (h : s.Fits P r) (a : Nat) :
    (s.ix.colEntries (s.rc sort haveDups) a (s.row r)).length < 2 ^ 31 := by
  refine extract_length (hs a) _ (fun l hl => ?_)
  have hcell := h.cells a
  have hl : (r.cell a).value s a = some l := hl
  cases hc : r.cell a with
  | null => rw [hc] at hl; cases hl
  | scalar v =>
    rw [hc] at hl
    cases hl
    simp
  | array m =>
    rw [hc] at hl hcell
    cases hl
    rw [List.length_map]
    exact Nat.lt_of_le_of_lt (ArraySearch.simple_len _) hcell
  | text v =>
    rw [hc] at hl hcell
    cases hl
    rw [extractTsvector, List.length_map]
    exact hcell.2.1

omit [Inhabited V] in
theorem range_ok (a : Nat) (h : s.kind a = .text) (p : List Nat) : RangeOK (s.cmpK a) (s.build p) (s.textClass.prefixCmp p) := by
  have hc : ∀ x y, s.cmpK a x y = tsCompare (s.word x) (s.word y) := fun x y => by simp [MSchema.cmpK, h]
  have hr := TextTable.range_ok p
  refine ⟨fun x hx => ?_, fun x y => ?_, fun x y => ?_⟩
  · rw [hc, s.word_build]; exact hr.above _ hx
  · rw [hc, hc, s.word_build]; exact hr.stop _ _
  · rw [hc]; exact hr.same _ _

/-- Scan keys are such as the scan expects. -/
theorem clause_ok (hk : ∀ n, s.kind n ≠ .text → TransCmp (s.cmp n)) {o : Ops V F} {opSort : List (Opnd (List Nat)) → List (Opnd (List Nat))}
    {rs : List (MRow V)} {st : State V} {d : AnyCond (List Nat) V} (hat : 1 ≤ d.attnum ∧ d.attnum ≤ s.natts)
    (hask : Asks (s.kind d.attnum) d) (hsc : Scope o s.cmp P rs d) :
    ClauseOK s.ix (s.rc sort haveDups) false false st (rs.map s.row) (d.clause (o.classes s opSort) s.ix.cmpK) := by
  cases d with
  | compare c =>
    have hask : s.kind c.attnum = .scalar := hask
    refine ⟨hat.1, hat.2, fun lk hlk => ?_⟩
    simp only [AnyCond.clause, Comparison.clause, List.mem_singleton] at hlk
    subst hlk
    refine ⟨Scalar.look_ok (cols_ok hk false) (fun h x => ?_), ?_⟩
    · show s.cmpK c.attnum _ x ≠ .gt
      rw [MSchema.cmpK, if_neg (by rw [hask]; simp)]
      exact hsc h x
    · unfold Readable
      split
      · exact fun _ _ => Or.inr rfl
      · exact fun h => by cases h
  | array c =>
    refine ⟨hat.1, hat.2, fun lk hlk => ?_⟩
    rcases List.mem_append.1 hlk with hlk | hlk
    · obtain ⟨x, hx, rfl⟩ := List.mem_map.1 hlk
      exact ⟨trivial, fun _ _ => Or.inr rfl⟩
    · generalize Arr.searchMode c.op _ = m at hlk
      cases m with
      | dflt => cases hlk
      | includeEmpty =>
        simp only [hiddenLooks, List.mem_singleton] at hlk
        subst hlk
        exact ⟨trivial, fun _ _ => Or.inr rfl⟩
      | all =>
        simp only [hiddenLooks, List.mem_singleton] at hlk
        subst hlk
        exact ⟨rfl, fun h => by cases h⟩
  | text c =>
    have hask : s.kind c.attnum = .text := hask
    refine ⟨hat.1, hat.2, fun lk hlk => ?_⟩
    rcases List.mem_append.1 hlk with hlk | hlk
    · obtain ⟨x, hx, rfl⟩ := List.mem_map.1 hlk
      cases hp : x.pre with
      | false =>
        simp only [TsClass.look, hp, Bool.false_eq_true, if_false]
        exact ⟨trivial, fun _ _ => Or.inr rfl⟩
      | true =>
        simp only [TsClass.look, hp, if_true]
        exact ⟨fun _ => range_ok _ hask x.lex, fun h => by cases h⟩
    · cases hm : requiresMatch c.query with
      | true => simp [tsMode, hm, hiddenLooks] at hlk
      | false =>
        simp only [tsMode, hm, Bool.false_eq_true, if_false, hiddenLooks, List.mem_singleton] at hlk
        subst hlk
        exact ⟨rfl, fun h => by cases h⟩

/-- Scan keys judge rightly. -/
theorem cond_judges (unk : Opnd (List Nat) → Nat → Prop) (hk : ∀ n, s.kind n ≠ .text → TransCmp (s.cmp n)) {o : Ops V F}
    {opSort : List (Opnd (List Nat)) → List (Opnd (List Nat))}
    (hop : SortsOpnds tsCompare opSort) {rs : List (MRow V)} {r : MRow V} (hr : r ∈ rs) (hfit : s.Fits P r) {d : AnyCond (List Nat) V}
    (hask : Asks (s.kind d.attnum) d) (hsc : Scope o s.cmp P rs d) :
    Judges s.ix (s.rc sort haveDups) s.join (s.row r) (d.clause (o.classes s opSort) s.ix.cmpK) (CondTrue unk o s.cmp d (r.cell d.attnum)) (Exact rs d) := by
  have htyped := hfit.typed d.attnum
  cases d with
  | compare c =>
    have hask : s.kind c.attnum = .scalar := hask
    have hcmp : s.ix.cmpK c.attnum = s.cmp c.attnum := by funext x y; simp [MSchema.ix, MSchema.cmpK, hask]
    have htyped : (r.cell c.attnum).Typed (s.kind c.attnum) := htyped
    rw [hask] at htyped
    show Judges _ _ _ _ (c.clause s.ix.cmpK o.leftmost) (CondTrue unk o s.cmp (.compare c) (r.cell c.attnum)) True
    cases hc : r.cell c.attnum with
    | null =>
      have := scalar_judges (rc := s.rc sort haveDups) (join := s.join) (cols_ok hk false) (leftmost := o.leftmost) (c := c) (r := s.row r) (v := none) (by
        show (r.cell c.attnum).value s c.attnum = _
        rw [hc]; rfl)
      exact this
    | scalar v =>
      have := scalar_judges (rc := s.rc sort haveDups) (join := s.join) (cols_ok hk false) (leftmost := o.leftmost) (c := c) (r := s.row r) (v := some v) (by
        show (r.cell c.attnum).value s c.attnum = _
        rw [hc]; rfl)
      rw [hcmp] at this
      exact this
    | array l => rw [hc] at htyped; cases htyped
    | text v => rw [hc] at htyped; cases htyped
  | array c =>
    have hask : s.kind c.attnum = .array := hask
    have hcmp : s.ix.cmpK c.attnum = s.cmp c.attnum := by funext x y; simp [MSchema.ix, MSchema.cmpK, hask]
    have htyped : (r.cell c.attnum).Typed (s.kind c.attnum) := htyped
    rw [hask] at htyped
    intro w hw
    have hrow : ∀ col, (s.row r).value c.attnum = arrayValue (s.ix.cmpK c.attnum) col → _ := fun col hv =>
      ArraySearch.cond_row (c := c) (fl := o.fl) (fn := o.fn) (thr := o.thr) (rc := s.rc sort haveDups) (cols_ok hk false) hv (fun h => by cases h) hsc hw
    rw [hcmp] at hrow
    show (CondTrue unk o s.cmp (.array c) (r.cell c.attnum) → Collect.Accepted (c.clause o.fl o.fn o.thr s.ix.cmpK) w) ∧ (_ → _ → CondTrue unk o s.cmp (.array c) (r.cell c.attnum)) ∧ _
    cases hc : r.cell c.attnum with
    | null =>
      exact hrow none (by
        show (r.cell c.attnum).value s c.attnum = _
        rw [hc]; rfl)
    | array l =>
      exact hrow (some l) (by
        show (r.cell c.attnum).value s c.attnum = _
        rw [hc, ← hcmp]; rfl)
    | scalar v => rw [hc] at htyped; cases htyped
    | text v => rw [hc] at htyped; cases htyped
  | text c =>
    have hask : s.kind c.attnum = .text := hask
    have htyped : (r.cell c.attnum).Typed (s.kind c.attnum) := htyped
    rw [hask] at htyped
    have hcmp : ∀ x y, s.ix.cmpK c.attnum x y = tsCompare (s.word x) (s.word y) := fun x y => by simp [MSchema.ix, MSchema.cmpK, hask]
    obtain ⟨hkinds, hdist, hpre⟩ := hsc
    have hinj : ∀ x y, s.ix.cmpK c.attnum (s.build x) (s.build y) = .eq → x = y := fun x y h => by
      rw [hcmp, s.word_build, s.word_build] at h
      exact LawfulEqCmp.eq_of_compare (cmp := tsCompare) h
    have key : ∀ doc : Option (TsVector (List Nat)), (s.row r).value c.attnum = doc.map (extractTsvector s.build ftAttr) →
        (∀ v, doc = some v → r.cell c.attnum = .text v) →
        Judges s.ix (s.rc sort haveDups) s.join (s.row r) (c.clause (fun _ => s.textClass) tsCompare opSort) (DocMatches unk (fun p w => p <+: w) doc c.query)
          (Exact rs (.text c)) := by
      intro doc hval hdoc w hw
      have hfits : ∀ v, doc = some v → DocFits s.textClass (s.ix.cmpK c.attnum) (fun p w => p <+: w) P c.query v := by
        intro v hv
        refine ⟨?_, fun x hx => ⟨fun _ w hw he => hinj _ _ he, fun hp => ⟨range_ok _ hask x.lex, fun w _ => ?_, fun w _ u _ he => hinj _ _ he⟩⟩,
          fun _ x hx hp => hpre x hx hp r hr v (hdoc v hv)⟩
        · have := hfit.cells c.attnum
          rw [hdoc v hv] at this
          exact this.1
        · show ginCmpPrefix x.lex (s.word (s.build w.1)) = 0 ↔ _
          rw [s.word_build]
          exact TextTable.cmpPrefix_iff _ _
      obtain ⟨j1, j2, j3⟩ := text_judges (begins := fun p w => p <+: w) (cls := fun _ => s.textClass) (cmpL := tsCompare) (sort := opSort) (rc := s.rc sort haveDups)
        (join := s.join) (P := P) unk hop (cols_ok hk false) hval ⟨hkinds, fun _ => hdist⟩ hfits (fun _ h => by cases h) (fun _ _ => by
            simp [MSchema.join, hask]) w hw
      exact ⟨j1, j2, fun ha ⟨e1, e2⟩ => j3 ha ⟨rfl, e1, fun v hv => e2 r hr v (hdoc v hv)⟩⟩
    show Judges _ _ _ _ (c.clause (fun _ => s.textClass) tsCompare opSort) (CondTrue unk o s.cmp (.text c) (r.cell c.attnum)) _
    cases hc : r.cell c.attnum with
    | null =>
      have := key none (by
        show (r.cell c.attnum).value s c.attnum = _
        rw [hc]; rfl) (fun v h => by cases h)
      intro w hw
      obtain ⟨j1, j2, j3⟩ := this w hw
      have hno : ¬ DocMatches unk (fun p w => p <+: w) none c.query := fun ⟨v, hv, _⟩ => by cases hv
      exact ⟨fun h => h.elim, fun h1 h2 => hno (j2 h1 h2), j3⟩
    | text v =>
      exact key (some v) (by
        show (r.cell c.attnum).value s c.attnum = _
        rw [hc]; rfl) (fun u h => by rw [hc]; cases h; rfl)
    | scalar v => rw [hc] at htyped; cases htyped
    | array v => rw [hc] at htyped; cases htyped

end

/-! ### Property -/

/-- **C58.** An index on scalar, array and tsvector columns, created on a table with any rows; then any number of insertions. A search by any number of conditions of all
kinds (`<`, `<=`, `=`, `>=`, `>` on scalars; `&&`, `@>`, `<@`, `=`, `%` on arrays; `@@` on documents) ends, returns no row twice, returns every row for which all of them
are true, and no other unless the executor is told to check it; if no condition leaves anything to check, nothing is left to check. The scope (`Scope`) is that of C55,
C56 and C57. -/
theorem C58_mixed_search (s : MSchema V) [Inhabited V] (P : Nat) (hk : ∀ n, s.kind n ≠ .text → TransCmp (s.cmp n))
    (sort : Nat → List (Raw V Datum) → List (Raw V Datum)) (haveDups : Nat → List (Raw V Datum) → Bool) (hs : ∀ a, SortOK (s.cmpK a) (sort a))
    (hd : ∀ a, DupsSeen (s.cmpK a) (haveDups a))
    (qsort tuplesort : (Item Datum → Item Datum → Ordering) → List (Item Datum) → List (Item Datum)) (hq : Sorts qsort) (htp : Sorts tuplesort) (full : Nat → Bool)
    (opSort : List (Opnd (List Nat)) → List (Opnd (List Nat))) (hop : SortsOpnds tsCompare opSort)
    (rs new : List (MRow V)) (hok : ∀ r ∈ rs ++ new, s.Fits P r) (htid : ((rs ++ new).map MRow.tid).Nodup) :
    ∃ st t, s.ix.buildIndex (s.rc sort haveDups) qsort full (rs.map s.row) = (st, true) ∧
      s.ix.insertRows (s.rc sort haveDups) st (new.map s.row) = (t, true) ∧
      ∀ (F : Type) (o : Ops V F) (unk : Opnd (List Nat) → Nat → Prop) (c : AnyCond (List Nat) V) (cs : List (AnyCond (List Nat) V)),
        (∀ d ∈ c :: cs, 1 ≤ d.attnum ∧ d.attnum ≤ s.natts ∧ Asks (s.kind d.attnum) d ∧ Scope o s.cmp P (rs ++ new) d) →
        ∃ N, ∀ n, N ≤ n → ∀ junk, ∃ out, s.ix.findAny (s.rc sort haveDups) false (o.classes s opSort) tuplesort s.join t junk n c cs = some out ∧ out.2 = true ∧
          (out.1.map (fun p => p.1.iptr)).Nodup ∧
          (∀ r ∈ rs ++ new, (∀ d ∈ c :: cs, CondTrue unk o s.cmp d (r.cell d.attnum)) → ∃ p ∈ out.1, p.1.iptr = r.tid) ∧
          (∀ p ∈ out.1, ∃ r ∈ rs ++ new, r.tid = p.1.iptr ∧ (p.2 = false → ∀ d ∈ c :: cs, CondTrue unk o s.cmp d (r.cell d.attnum))) ∧
          ((∀ d ∈ c :: cs, Exact (rs ++ new) d) → ∀ p ∈ out.1, p.2 = false) := by
  obtain ⟨st, t, h1, h2, h3⟩ := C53_query_inserted_partial s.ix (s.rc sort haveDups) false ⟨160, false⟩ rfl (cols_ok hk false) hs hd (fun a => ⟨rfl, rfl⟩) qsort tuplesort hq htp
    s.join (fun h => by cases h) full (rs.map s.row)
    (fun r hr => by obtain ⟨p, hp, rfl⟩ := List.mem_map.1 hr; exact row_ok hk hs hd (hok p (List.mem_append_left _ hp)) false)
    (fun r hr a => by obtain ⟨p, hp, rfl⟩ := List.mem_map.1 hr; exact entries_length hs (hok p (List.mem_append_left _ hp)) a) (fun h => by cases h) (new.map s.row)
    (fun r hr => by obtain ⟨p, hp, rfl⟩ := List.mem_map.1 hr; exact row_ok hk hs hd (hok p (List.mem_append_right _ hp)) false)
    (by rw [← List.map_append, List.map_map]; exact htid)
  rw [← List.map_append] at h3
  refine ⟨st, t, h1, h2, fun F o unk c cs hall => ?_⟩
  by_cases hvoid : (c :: cs).any (fun d => d.void s.ix.cmpK) = true
  · refine ⟨0, fun n _ junk => ⟨([], true), by unfold Ix.findAny; rw [if_pos hvoid], rfl, List.nodup_nil, fun r _ hg => ?_, by simp, by simp⟩⟩
    obtain ⟨d, hd, hdv⟩ := List.any_eq_true.1 hvoid
    exfalso
    have ht := hg d hd
    have hask := (hall d hd).2.2.1
    cases d with
    | compare c => cases hdv
    | text c => cases hdv
    | array c =>
      have hask : s.kind c.attnum = .array := hask
      have hcmp : s.ix.cmpK c.attnum = s.cmp c.attnum := by funext x y; simp [MSchema.ix, MSchema.cmpK, hask]
      change CondTrue unk o s.cmp (.array c) (r.cell c.attnum) at ht
      cases hc : r.cell c.attnum with
      | array l =>
        rw [hc] at ht
        have hv := ArraySearch.void_false (fl := o.fl) (fn := o.fn) (thr := o.thr) (cols_ok hk false) hdv (some l)
        rw [hcmp] at hv
        exact hv ht
      | null => rw [hc] at ht; exact ht
      | scalar v => rw [hc] at ht; exact ht
      | text v => rw [hc] at ht; exact ht
  have hinj : ∀ p ∈ rs ++ new, ∀ q ∈ rs ++ new, p.tid = q.tid → p = q := fun p hp q hq h => List.inj_on_of_nodup_map htid hp hq h
  obtain ⟨N, hN⟩ := answer_of_judges h3 (fun d : AnyCond (List Nat) V => d.clause (o.classes s opSort) s.ix.cmpK) c cs
    (fun d hd => clause_ok hk ⟨(hall d hd).1, (hall d hd).2.1⟩ (hall d hd).2.2.1 (hall d hd).2.2.2) (Or.inl rfl)
    (good := fun r d => ∀ p ∈ rs ++ new, p.tid = r.tid → CondTrue unk o s.cmp d (p.cell d.attnum)) (exact_ := Exact (rs ++ new))
    (fun r hr d hd => by
      obtain ⟨p, hp, rfl⟩ := List.mem_map.1 hr
      have hj := cond_judges (sort := sort) (haveDups := haveDups) unk hk hop hp (hok p hp) (hall d hd).2.2.1 (hall d hd).2.2.2
      intro w hw
      obtain ⟨j1, j2, j3⟩ := hj w hw
      exact ⟨fun h => j1 (h p hp rfl), fun h1 h2 q hq he => by rw [hinj q hq p hp he]; exact j2 h1 h2, j3⟩)
  refine ⟨N, fun n hn junk => ?_⟩
  obtain ⟨out, g1, g2⟩ := hN n hn junk
  refine ⟨out, by unfold Ix.findAny; rw [if_neg hvoid]; exact g1, g2.ends, g2.once, fun r hr hg => ?_, fun p hp => ?_, g2.unchecked⟩
  · exact g2.complete (s.row r) (List.mem_map_of_mem hr) (fun d hd q hq he => by rw [hinj q hq r hr he]; exact hg d hd)
  · obtain ⟨r, hr, he, hg⟩ := g2.sound p hp
    obtain ⟨q, hq', rfl⟩ := List.mem_map.1 hr
    exact ⟨q, hq', he, fun h d hd => hg h d hd q hq' rfl⟩

/-! ### Concrete case -/

/-- Keys: integers or words. -/
inductive Key
  | num (n : Nat)
  | str (w : List Nat)

instance : Inhabited Key := ⟨.num 0⟩

def Key.rank : Key → Nat
  | .num n => n
  | .str _ => 0

def Key.word : Key → List Nat
  | .num _ => []
  | .str w => w

/-- Columns: 1 an integer, 2 an array of integers, 3 a document. -/
def exM : MSchema Key := ⟨3, fun a => if a = 1 then .scalar else if a = 2 then .array else .text, fun _ x y => compare x.rank y.rank, fun _ => 16, .str, Key.word, fun _ => rfl⟩

/-- `(5, {7}, 'ab:1 ac:2 b:3')` and `(NULL, {}, NULL)`. -/
def exFull : MRow Key := ⟨⟨1, 1⟩, fun a => if a = 1 then .scalar (.num 5) else if a = 2 then .array [.num 7] else if a = 3 then .text TextTable.txDoc else .null⟩
def exBare : MRow Key := ⟨⟨2, 1⟩, fun a => if a = 2 then .array [] else .null⟩

theorem exM_sum (n : Nat) : exM.kind n ≠ .text → TransCmp (exM.cmp n) := fun _ =>
  { eq_swap := fun {a b} => OrientedCmp.eq_swap (cmp := (compare : Nat → Nat → Ordering)) (a := a.rank) (b := b.rank),
    isLE_trans := fun {a b c} => TransCmp.isLE_trans (cmp := (compare : Nat → Nat → Ordering)) (a := a.rank) (b := b.rank) (c := c.rank) }

theorem exFits : ∀ r ∈ [exFull, exBare], exM.Fits 3 r := by
  have hsize : ∀ n ≤ 1, alignUp 8 (16 + n) ≤ maxTuple := by decide
  have htx : ∀ w ∈ TextTable.txDoc, ∀ ps, w.2 = some ps → ps.length ≤ 42 := fun w hw ps hps => by
    simp only [TextTable.txDoc, List.mem_cons, List.not_mem_nil, or_false] at hw
    rcases hw with rfl | rfl | rfl <;> cases hps <;> decide
  intro r hr
  simp only [List.mem_cons, List.not_mem_nil, or_false] at hr
  rcases hr with rfl | rfl
  · refine ⟨by decide, by decide, by decide, fun a => ?_, fun a => ?_, fun a _ _ k hk => hsize _ ?_⟩
    · show Cell.Typed _ (if a = 1 then _ else if a = 2 then _ else if a = 3 then _ else _)
      split
      · next h => subst h; rfl
      · split
        · next h => subst h; rfl
        · split
          · next h => subst h; rfl
          · trivial
    · show Cell.Fits 3 (if a = 1 then _ else if a = 2 then _ else if a = 3 then _ else _)
      split
      · trivial
      · split
        · simp [Cell.Fits]
        · split
          · exact ⟨TextTable.tx_vec, by decide, htx⟩
          · trivial
    · change k ∈ Cell.keys exM a (if a = 1 then _ else if a = 2 then _ else if a = 3 then _ else _) at hk
      split at hk
      · simp [Cell.keys] at hk; simp [hk]
      · split at hk
        · simp [Cell.keys] at hk; simp [hk]
        · split at hk
          · simp only [Cell.keys, TextTable.txDoc, List.mem_map] at hk
            obtain ⟨_, _, rfl⟩ := hk
            simp
          · simp [Cell.keys] at hk; simp [hk]
  · refine ⟨by decide, by decide, by decide, fun a => ?_, fun a => ?_, fun a _ _ k hk => hsize _ ?_⟩
    · show Cell.Typed _ (if a = 2 then _ else _)
      split
      · next h => subst h; rfl
      · trivial
    · show Cell.Fits 3 (if a = 2 then _ else _)
      split
      · simp [Cell.Fits]
      · trivial
    · change k ∈ Cell.keys exM a (if a = 2 then _ else _) at hk
      split at hk
      · simp [Cell.keys] at hk; simp [hk]
      · simp [Cell.keys] at hk; simp [hk]

/-- `column1 < 9 AND column2 @> '{7}' AND column3 @@ 'a:* <-> b'`. -/
def exConds : List (AnyCond (List Nat) Key) := [.compare ⟨1, .lt, .num 9⟩, .array ⟨2, .contains, [.num 7]⟩, .text ⟨3, TextTable.mixedQuery⟩]

def exOps : Ops Key Nat := ⟨fun _ => .num 0, ⟨fun n => n, (· + ·), (· - ·), (· * ·), (· / ·), Nat.sqrt, 0, fun a b => decide (b ≤ a), (· == 0)⟩, .jaccard, 1⟩

/-- The hypotheses are met. -/
example : (∀ n, exM.kind n ≠ .text → TransCmp (exM.cmp n)) ∧ (∀ r ∈ [exFull, exBare], exM.Fits 3 r) ∧ (([exFull, exBare]).map MRow.tid).Nodup ∧
    ∀ d ∈ exConds, 1 ≤ d.attnum ∧ d.attnum ≤ exM.natts ∧ Asks (exM.kind d.attnum) d ∧ Scope exOps exM.cmp 3 [exFull, exBare] d := by
  refine ⟨exM_sum, exFits, by decide, fun d hd => ?_⟩
  simp only [exConds, List.mem_cons, List.not_mem_nil, or_false] at hd
  rcases hd with rfl | rfl | rfl
  · exact ⟨Nat.le_refl 1, (by decide : 1 ≤ 3), rfl, fun _ x => by
      show compare 0 x.rank ≠ .gt
      rw [ne_eq, Nat.compare_eq_gt]; omega⟩
  · exact ⟨(by decide : 1 ≤ 2), (by decide : 2 ≤ 3), rfl, fun h => by cases h⟩
  · refine ⟨(by decide : 1 ≤ 3), Nat.le_refl 3, rfl, by simp [TextTable.mixedQuery, operands], by simp [TextTable.mixedQuery, Query.dist], fun x _ _ r hr v hv => ?_⟩
    have hv' : v = TextTable.txDoc := by
      simp only [List.mem_cons, List.not_mem_nil, or_false] at hr
      rcases hr with rfl | rfl
      · simpa [exFull, eq_comm] using hv
      · simp [exBare] at hv
    subst hv'
    refine ⟨Or.inr (fun w hw _ => ?_), fun w hw _ u hu _ x hx y hy he => ?_⟩
    · simp only [TextTable.txDoc, List.mem_cons, List.not_mem_nil, or_false] at hw
      rcases hw with rfl | rfl | rfl <;> exact ⟨_, rfl, by simp⟩
    · have hx : x = 1 ∨ x = 2 ∨ x = 3 := by
        simp only [TextTable.txDoc, List.mem_cons, List.not_mem_nil, or_false] at hw
        rcases hw with rfl | rfl | rfl <;> simp_all
      have hy : y = 1 ∨ y = 2 ∨ y = 3 := by
        simp only [TextTable.txDoc, List.mem_cons, List.not_mem_nil, or_false] at hu
        rcases hu with rfl | rfl | rfl <;> simp_all
      have e1 : wepPos 1 = 1 := by decide
      have e2 : wepPos 2 = 2 := by decide
      have e3 : wepPos 3 = 3 := by decide
      rcases hx with rfl | rfl | rfl <;> rcases hy with rfl | rfl | rfl <;> simp_all

/-- All conditions are true of the first row. -/
example (unk : Opnd (List Nat) → Nat → Prop) : ∀ d ∈ exConds, CondTrue unk exOps exM.cmp d (exFull.cell d.attnum) := by
  intro d hd
  simp only [exConds, List.mem_cons, List.not_mem_nil, or_false] at hd
  rcases hd with rfl | rfl | rfl
  · exact (by decide : compare 5 9 = .lt)
  · intro y hy
    rw [List.mem_singleton.1 hy]
    exact ⟨.num 7, List.mem_singleton.2 rfl, (by decide : compare 7 7 = .eq)⟩
  · exact TextTable.tx_both unk TextTable.txPhrase (by simp)

end Rum.Props.MixedSearch

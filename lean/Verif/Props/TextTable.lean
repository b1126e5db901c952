import Verif.Props.TextSearch
import Verif.Props.Plain
/-!
# C57: tables with tsvector columns

The scope in which full-text search through the index has no exception but those named: an index with rum_tsvector_ops, and a table that grows.
-/
namespace Rum.Props.TextTable
open Rum.Ts hiding Stands
open Rum Rum.Codec Rum.Leaf Rum.Entry Rum.Tree Rum.Index Rum.Extract Rum.Props Rum.Props.PostingTree Rum.Props.Index Rum.Props.IndexVacuum Rum.Props.Bulk
  Rum.Props.Query Rum.Props.Collect Rum.Props.Search Rum.Props.FullText Rum.Props.TextSearch Rum.Pos Rum.FullText Std

/-! ### Words -/

theorem tsCompare_eq (a : List Nat) : ∀ b, tsCompare a b = List.compareLex compare a b := by
  induction a with
  | nil => intro b; cases b <;> rfl
  | cons x a ih =>
    intro b
    cases b with
    | nil => rfl
    | cons y b =>
      rw [List.compareLex_cons_cons, tsCompare, ih]

theorem tsCompare_fun : tsCompare = List.compareLex compare := by
  funext a b; exact tsCompare_eq a b

instance : TransCmp tsCompare := by rw [tsCompare_fun]; infer_instance
instance : LawfulEqCmp tsCompare := by rw [tsCompare_fun]; infer_instance

theorem prefix_iff (p : List Nat) : ∀ w, tsComparePrefix p w = .eq ↔ p <+: w := by
  induction p with
  | nil => intro w; simp [tsComparePrefix]
  | cons x p ih =>
    intro w
    cases w with
    | nil => simp [tsComparePrefix]
    | cons y w =>
      rw [tsComparePrefix, List.cons_prefix_cons, ← ih w, Ordering.then_eq_eq, Nat.compare_eq_eq]

theorem cmpPrefix_iff (p w : List Nat) : ginCmpPrefix p w = 0 ↔ p <+: w := by
  rw [← prefix_iff]
  unfold ginCmpPrefix
  split <;> simp_all

theorem le_of_prefix (p : List Nat) : ∀ w, p <+: w → tsCompare p w ≠ .gt := by
  induction p with
  | nil => intro w _; cases w <;> simp [tsCompare]
  | cons x p ih =>
    intro w h
    cases w with
    | nil => simp at h
    | cons y w =>
      obtain ⟨rfl, hp⟩ := List.cons_prefix_cons.1 h
      rw [tsCompare, Nat.compare_eq_eq.2 rfl]
      exact ih w hp

/-- What lies between a prefix and a word with that prefix has the prefix. -/
theorem between (p : List Nat) : ∀ x y, tsCompare p x ≠ .gt → tsCompare x y ≠ .gt → p <+: y → p <+: x := by
  induction p with
  | nil => intro x y _ _ _; simp
  | cons a p ih =>
    intro x y h1 h2 h3
    cases x with
    | nil => exact absurd rfl h1
    | cons b x =>
      cases y with
      | nil => simp at h3
      | cons c y =>
        obtain ⟨rfl, hp⟩ := List.cons_prefix_cons.1 h3
        rw [tsCompare] at h1 h2
        have e1 : ¬ b < a := fun h => by
          rw [Nat.compare_eq_gt.2 h] at h1; exact h1 rfl
        have e2 : ¬ a < b := fun h => by
          rw [Nat.compare_eq_gt.2 h] at h2; exact h2 rfl
        have : a = b := by omega
        subst this
        rw [Nat.compare_eq_eq.2 rfl] at h1 h2
        exact List.cons_prefix_cons.2 ⟨rfl, ih x y h1 h2 hp⟩

/-- gin_cmp_prefix is a partial match function. -/
theorem range_ok (p : List Nat) : RangeOK tsCompare p (ginCmpPrefix p) where
  above := fun x hx => le_of_prefix p x ((cmpPrefix_iff p x).1 hx)
  stop := fun x y hx h1 h2 hy => by
    have := between p x y h1 h2 ((cmpPrefix_iff p y).1 hy)
    rw [(cmpPrefix_iff p x).2 this] at hx
    exact absurd hx (by decide)
  same := fun x y h hx => by
    rw [← LawfulEqCmp.eq_of_compare (cmp := tsCompare) h]; exact hx

/-! ### Specification -/

/-- A row of the table: its TID and the documents in its columns (`none`: NULL). Words are strings of bytes. -/
structure TRow where
  tid : Iptr
  col : Nat → Option (TsVector (List Nat))

/-- An index with rum_tsvector_ops on `natts` columns: the sizes of the keys in index tuples. -/
structure TSchema where
  natts : Nat
  keySize : AttKey (List Nat) → Nat

/-- A possible row: the TID is one of PostgreSQL's; positions are from 1 to `P`, at most 42 for each word; each word fits in an index tuple. -/
structure TSchema.Fits (s : TSchema) (P : Nat) (r : TRow) : Prop where
  blk : r.tid.blk < 2 ^ 32
  off : r.tid.off < 2 ^ 16
  valid : 1 ≤ r.tid.off
  vec : ∀ a v, r.col a = some v → VecOK P v
  many : ∀ a v, r.col a = some v → v.length < 2 ^ 31
  short : ∀ a v, r.col a = some v → ∀ w ∈ v, ∀ ps, w.2 = some ps → ps.length ≤ 42
  words : ∀ a, 1 ≤ a → a ≤ s.natts → ∀ v, r.col a = some v → ∀ w ∈ v, alignUp 8 (s.keySize ⟨a, .norm, w.1⟩) ≤ maxTuple
  null : ∀ a, 1 ≤ a → a ≤ s.natts → r.col a = none → alignUp 8 (s.keySize ⟨a, .nullItem, []⟩ + 1) ≤ maxTuple
  empty : ∀ a, 1 ≤ a → a ≤ s.natts → r.col a = some [] → alignUp 8 (s.keySize ⟨a, .emptyItem, []⟩ + 1) ≤ maxTuple

/-- rum_tsvector_ops, `/repo/rum_init.sql:130-147`: keys are the words, additional info is bytea (rum_tsvector_config, `/repo/src/rum_ts_utils.c:2197-2208`). -/
def tsOps : TsClass (List Nat) (List Nat) := ⟨id, ftAttr, false, ginCmpPrefix⟩

/-- The index. -/
def TSchema.ix (s : TSchema) : Ix (List Nat) := ⟨fun _ => tsCompare, s.keySize, fun _ => ⟨⟨false, some ftAttr⟩, false, fun _ _ => .eq⟩, false⟩

/-- The row as the index sees it, with rum_extract_tsvector. -/
def TSchema.row (_s : TSchema) (r : TRow) : Row (List Nat) := ⟨r.tid, fun a => (r.col a).map (extractTsvector id ftAttr), none⟩

def TSchema.rc (s : TSchema) (sort : Nat → List (Raw (List Nat) Datum) → List (Raw (List Nat) Datum)) (haveDups : Nat → List (Raw (List Nat) Datum) → Bool) :
    RowCfg (List Nat) := ⟨s.natts, sort, haveDups, none, fun _ => true⟩

/-! ### Proof -/

section
variable {s : TSchema} {sort : Nat → List (Raw (List Nat) Datum) → List (Raw (List Nat) Datum)} {haveDups : Nat → List (Raw (List Nat) Datum) → Bool} {P : Nat}

theorem cols_ok (b : Bool) : ColsOK s.ix ⟨160, b⟩ where
  keys := fun _ => (inferInstance : TransCmp tsCompare)
  infos := fun _ => { eq_swap := rfl, isLE_trans := fun _ _ => rfl }
  sizes := fun _ => ⟨(by decide : 3 * 160 + 40 ≤ dataCap), by decide, (by decide : padOf (⟨false, some ftAttr⟩ : Cfg) ∣ 8), fun _ => (by decide : padOf (⟨false, some ftAttr⟩ : Cfg) ∣ 4)⟩

theorem short_len {ps : List Nat} (h : PosList ps) (hl : ps.length ≤ 42) : (compressPos 0 ps).length + 1 ≤ 0x7f := by
  have := compress_length ps 0 (fun p _ => by
    have : wepPos 0 = 0 := by decide
    omega) (h.2.imp (fun h => Nat.le_of_lt h))
  omega

theorem stored_short {ps : List Nat} (h : PosList ps) (hl : ps.length ≤ 42) : Datum.stored ftAttr (.varlena .full (compressPos 0 ps)) = .varlena .short (compressPos 0 ps) := by
  have := short_len h hl
  have hp : packable ftAttr = true := by decide
  simp only [Datum.stored, hp, canMakeShort, this, decide_true, Bool.and_self, if_true]

theorem storable {r : TRow} (h : s.Fits P r) (a : Nat) (b : Bool) (i : Option (List Nat)) (hi : ∀ p, i = some p → p.length + 1 ≤ 0x7f) :
    Storable (s.ix.ctx a) ⟨160, b⟩ ⟨r.tid, i.map (fun p => .varlena .short p)⟩ := by
  have hsz := Plain.size_le r.tid ⟨0, 0⟩ h.off
  refine ⟨⟨⟨h.blk, h.off⟩, fun h => (by cases h), fun d hd => ?_⟩, ?_, h.valid, ?_, fun _ => ?_⟩
  · cases i with
    | none => cases hd
    | some p =>
      simp only [Option.map_some, Option.some.injEq] at hd
      subst hd
      have := hi p rfl
      exact ⟨ftAttr, rfl, rfl, rfl, (by decide : 0 < 4), this⟩
  · cases i with
    | none => rfl
    | some p =>
      show (⟨r.tid, some (Datum.stored ftAttr (.varlena .short p))⟩ : Item Datum) = _
      simp [Datum.stored, canMakeShort]
  · cases i with
    | none =>
      show 0 + sizeIptr false r.tid ⟨0, 0⟩ ≤ 160
      omega
    | some p =>
      have := hi p rfl
      show computeSize ftAttr (0 + sizeIptr false r.tid ⟨0, 0⟩) (.varlena .short p) ≤ 160
      have hc : canMakeShort .short p = false := rfl
      simp only [computeSize, hc, Bool.and_false, Bool.false_eq_true, if_false]
      omega
  · cases i <;> rfl

theorem row_ok (hs : ∀ a, SortOK tsCompare (sort a)) (hd : ∀ a, DupsSeen tsCompare (haveDups a)) {r : TRow} (h : s.Fits P r) (b : Bool) :
    RowOK s.ix (s.rc sort haveDups) ⟨160, b⟩ (s.row r) := by
  intro a h1 h2 o ho
  have ho : o ∈ extractEntries tsCompare (sort a) (haveDups a) ((r.col a).map (extractTsvector id ftAttr)) := ho
  obtain ⟨e1, e2, e3⟩ := C18_extract tsCompare (sort a) (haveDups a) (hs a) (hd a)
  cases hc : r.col a with
  | none =>
    rw [hc] at ho
    simp only [Option.map_none, e1, List.mem_singleton] at ho
    subst ho
    exact ⟨fun h => (by cases h), h.null a h1 h2 hc, storable h a b none (fun n h => by cases h)⟩
  | some v =>
    rw [hc] at ho
    simp only [Option.map_some] at ho
    cases hsv : v with
    | nil =>
      rw [hsv] at ho
      simp only [extractTsvector, List.map_nil, e2, List.mem_singleton] at ho
      subst ho
      exact ⟨fun h => (by cases h), h.empty a h1 h2 (by rw [hc, hsv]), storable h a b none (fun n h => by cases h)⟩
    | cons x xs =>
      obtain ⟨-, -, e4, -⟩ := e3 (extractTsvector id ftAttr v) (by rw [hsv]; simp [extractTsvector])
      obtain ⟨raw, hraw, g1, g2, g3, g4⟩ := e4 o ho
      obtain ⟨y, hy, rfl⟩ := List.mem_map.1 hraw
      obtain ⟨cat, k, info⟩ := o
      simp only at g1 g2 g3 g4
      subst g1 g2
      have g4 := g4.2 (by simp)
      subst g4
      refine ⟨fun _ => rfl, h.words a h1 h2 v hc y hy, ?_⟩
      have hst : y.2.map (fun ps => Datum.stored ftAttr (.varlena .full (compressPos 0 ps))) = (y.2.map (compressPos 0)).map (fun p => .varlena .short p) := by
        cases hy2 : y.2 with
        | none => rfl
        | some ps => simp only [Option.map_some, stored_short ((h.vec a v hc).positions y hy ps hy2).1 (h.short a v hc y hy ps hy2)]
      show Storable (s.ix.ctx a) ⟨160, b⟩ ⟨r.tid, y.2.map (fun ps => Datum.stored ftAttr (.varlena .full (compressPos 0 ps)))⟩
      rw [hst]
      refine storable h a b _ (fun p hp => ?_)
      cases hy2 : y.2 with
      | none => rw [hy2] at hp; cases hp
      | some ps =>
        rw [hy2] at hp
        simp only [Option.map_some, Option.some.injEq] at hp
        subst hp
        exact short_len ((h.vec a v hc).positions y hy ps hy2).1 (h.short a v hc y hy ps hy2)

theorem entries_length (hs : ∀ a, SortOK tsCompare (sort a)) {r : TRow} (h : s.Fits P r) (a : Nat) :
    (s.ix.colEntries (s.rc sort haveDups) a (s.row r)).length < 2 ^ 31 := by
  show (extractEntries tsCompare (sort a) (haveDups a) ((r.col a).map (extractTsvector id ftAttr))).length < 2 ^ 31
  cases hc : r.col a with
  | none => simp [extractEntries]
  | some v =>
    have h3 : (extractTsvector id ftAttr v).length < 2 ^ 31 := by
      rw [extractTsvector, List.length_map]; exact h.many a v hc
    simp only [Option.map_some]
    generalize extractTsvector id ftAttr v = raws at h3
    match raws, h3 with
    | [], _ => simp [extractEntries]
    | [r], _ => simp [extractEntries]
    | r1 :: r2 :: rest, h3 =>
      have hp := ((hs a).perm (r1 :: r2 :: rest)).length_eq
      simp only [extractEntries]
      cases hso : sort a (r1 :: r2 :: rest) with
      | nil => simp
      | cons x xs =>
        rw [hso] at hp
        simp only
        have := ArraySearch.length_dedup (cmpK := tsCompare) xs x
        simp only [List.length_cons] at hp h3
        split <;> simp <;> omega
end

/-! ### Properties -/

/-- **C57.** An index with rum_tsvector_ops, created on a table with any rows; then any number of insertions. A search by any number of conditions `column @@ query`,
with AND, OR, NOT, phrases, weights and prefixes, ends, returns no row twice, returns every row whose documents match, and no other unless the executor is told to check
it. If all words have positions and no weight is under NOT, there is nothing to check. The scope: no lexeme is both a word and a prefix in a query; the words of a document
that a prefix stands for all have positions, or none has, and no two of them have one position with different weights; a word has at most 42 positions in a document;
positions and phrase distances do not exceed 2^14 together. -/
theorem C57_text_search (s : TSchema) (P : Nat)
    (sort : Nat → List (Raw (List Nat) Datum) → List (Raw (List Nat) Datum)) (haveDups : Nat → List (Raw (List Nat) Datum) → Bool) (hs : ∀ a, SortOK tsCompare (sort a))
    (hd : ∀ a, DupsSeen tsCompare (haveDups a))
    (qsort tuplesort : (Item Datum → Item Datum → Ordering) → List (Item Datum) → List (Item Datum)) (hq : Sorts qsort) (htp : Sorts tuplesort) (full : Nat → Bool)
    (opSort : List (Opnd (List Nat)) → List (Opnd (List Nat))) (hop : SortsOpnds tsCompare opSort)
    (rs new : List TRow) (hok : ∀ r ∈ rs ++ new, s.Fits P r) (htid : ((rs ++ new).map TRow.tid).Nodup) :
    ∃ st t, s.ix.buildIndex (s.rc sort haveDups) qsort full (rs.map s.row) = (st, true) ∧
      s.ix.insertRows (s.rc sort haveDups) st (new.map s.row) = (t, true) ∧
      ∀ (unk : Opnd (List Nat) → Nat → Prop) (c : TsSearch (List Nat)) (cs : List (TsSearch (List Nat))),
        (∀ d ∈ c :: cs, 1 ≤ d.attnum ∧ d.attnum ≤ s.natts) →
        (∀ d ∈ c :: cs, ∀ o ∈ operands d.query, ∀ p ∈ operands d.query, o.lex = p.lex → o.pre = p.pre) →
        (∀ d ∈ c :: cs, P + d.query.dist < 2 ^ 14) →
        (∀ d ∈ c :: cs, ∀ o ∈ operands d.query, o.pre = true → ∀ r ∈ rs ++ new, ∀ v, r.col d.attnum = some v → PrefixWords (fun p w => p <+: w) o v) →
        ∃ N, ∀ n, N ≤ n → ∀ junk, ∃ out, s.ix.find (s.rc sort haveDups) false tuplesort (fun _ => some joinTs) t junk n
            (c.clause (fun _ => tsOps) tsCompare opSort) (cs.map (fun d => d.clause (fun _ => tsOps) tsCompare opSort)) = some out ∧ out.2 = true ∧
          (out.1.map (fun p => p.1.iptr)).Nodup ∧
          (∀ r ∈ rs ++ new, (∀ d ∈ c :: cs, DocMatches unk (fun p w => p <+: w) (r.col d.attnum) d.query) → ∃ p ∈ out.1, p.1.iptr = r.tid) ∧
          (∀ p ∈ out.1, ∃ r ∈ rs ++ new, r.tid = p.1.iptr ∧ (p.2 = false → ∀ d ∈ c :: cs, DocMatches unk (fun p w => p <+: w) (r.col d.attnum) d.query)) ∧
          ((∀ d ∈ c :: cs, NoWeightUnderNot false d.query ∧ ∀ r ∈ rs ++ new, ∀ v, r.col d.attnum = some v → ∀ w ∈ v, w.2 ≠ none) → ∀ p ∈ out.1, p.2 = false) := by
  obtain ⟨st, t, h1, h2, h3⟩ := C53_query_inserted_partial s.ix (s.rc sort haveDups) false ⟨160, false⟩ rfl (cols_ok false) hs hd (fun a => ⟨rfl, rfl⟩) qsort tuplesort hq htp
    (fun _ => some joinTs) (fun h => by cases h) full (rs.map s.row)
    (fun r hr => by obtain ⟨p, hp, rfl⟩ := List.mem_map.1 hr; exact row_ok hs hd (hok p (List.mem_append_left _ hp)) false)
    (fun r hr a => by obtain ⟨p, hp, rfl⟩ := List.mem_map.1 hr; exact entries_length hs (hok p (List.mem_append_left _ hp)) a) (fun h => by cases h) (new.map s.row)
    (fun r hr => by obtain ⟨p, hp, rfl⟩ := List.mem_map.1 hr; exact row_ok hs hd (hok p (List.mem_append_right _ hp)) false)
    (by rw [← List.map_append, List.map_map]; exact htid)
  rw [← List.map_append] at h3
  refine ⟨st, t, h1, h2, fun unk c cs hat hkinds hdist hpre => ?_⟩
  classical
  have hinj : ∀ p ∈ rs ++ new, ∀ q ∈ rs ++ new, p.tid = q.tid → p = q := fun p hp q hq h => List.inj_on_of_nodup_map htid hp hq h
  -- the documents of a row, by its TID
  let col : Row (List Nat) → Nat → Option (TsVector (List Nat)) := fun r a => if h : ∃ p ∈ rs ++ new, p.tid = r.tid then (Classical.choose h).col a else none
  have hcol : ∀ p ∈ rs ++ new, ∀ a, col (s.row p) a = p.col a := by
    intro p hp a
    have hex : ∃ q ∈ rs ++ new, q.tid = (s.row p).tid := ⟨p, hp, rfl⟩
    show (if h : ∃ q ∈ rs ++ new, q.tid = (s.row p).tid then (Classical.choose h).col a else none) = _
    rw [dif_pos hex]
    have hspec := Classical.choose_spec hex
    rw [hinj _ hspec.1 p hp hspec.2]
  obtain ⟨N, hN⟩ := text_of_finds (cols_ok false) h3 (List Nat) unk (fun p w => p <+: w) (fun _ => tsOps) tsCompare opSort P col c cs inferInstance inferInstance hop
    ⟨fun d hd => (hat d hd).1, fun d hd => (hat d hd).2, fun d hd => ⟨hkinds d hd, fun _ => hdist d hd⟩, fun d hd r hr => by
      obtain ⟨p, hp, rfl⟩ := List.mem_map.1 hr
      rw [hcol p hp]
      refine ⟨rfl, fun v hv => ⟨(hok p hp).vec _ v hv, fun o ho => ⟨fun _ w hw he => ?_, fun hpr => ⟨range_ok o.lex, fun w _ => cmpPrefix_iff o.lex w.1, fun w _ u _ he => ?_⟩⟩,
        fun _ o ho hpr => hpre d hd o ho hpr p hp v hv⟩⟩
      · exact LawfulEqCmp.eq_of_compare (cmp := tsCompare) he
      · exact LawfulEqCmp.eq_of_compare (cmp := tsCompare) he,
     fun d hd o ho hpr => range_ok o.lex, fun _ _ _ _ _ _ _ => Or.inr rfl, fun _ _ _ h => (by cases h), Or.inl rfl, fun _ _ _ h => (by cases h), fun _ _ _ => rfl⟩
  refine ⟨N, fun n hn junk => ?_⟩
  obtain ⟨out, g1, g2⟩ := hN n hn junk
  refine ⟨out, g1, g2.ends, g2.once, fun r hr hg => ?_, fun p hp => ?_, fun hex => g2.unchecked (fun d hd => ⟨rfl, (hex d hd).1, fun r hr v hv => ?_⟩)⟩
  · exact g2.complete (s.row r) (List.mem_map_of_mem hr) (fun d hd => by rw [hcol r hr]; exact hg d hd)
  · obtain ⟨r, hr, he, hg⟩ := g2.sound p hp
    obtain ⟨q, hq', rfl⟩ := List.mem_map.1 hr
    exact ⟨q, hq', he, fun h d hd => by have := hg h d hd; rwa [hcol q hq'] at this⟩
  · obtain ⟨q, hq', rfl⟩ := List.mem_map.1 hr
    rw [hcol q hq'] at hv
    exact (hex d hd).2 q hq' v hv

/-! ### What the scope excludes -/

/-- One row, with one document in its only column. -/
def oneRow (v : TsVector (List Nat)) : TRow := ⟨⟨1, 1⟩, fun a => if a = 1 then some v else none⟩
def oneSchema : TSchema := ⟨1, fun _ => 16⟩

theorem oneFits {P : Nat} {v : TsVector (List Nat)} (h : VecOK P v) (hl : v.length < 2 ^ 31) (hs : ∀ w ∈ v, ∀ ps, w.2 = some ps → ps.length ≤ 42) : oneSchema.Fits P (oneRow v) where
  blk := by show 1 < 2 ^ 32; omega
  off := by show 1 < 2 ^ 16; omega
  valid := Nat.le_refl 1
  vec := fun a u hu => by
    have hu : (if a = 1 then some v else none) = some u := hu
    split at hu <;> cases hu; exact h
  many := fun a u hu => by
    have hu : (if a = 1 then some v else none) = some u := hu
    split at hu <;> cases hu; exact hl
  short := fun a u hu => by
    have hu : (if a = 1 then some v else none) = some u := hu
    split at hu <;> cases hu; exact hs
  words := fun _ _ _ _ _ _ _ => (by decide : alignUp 8 16 ≤ maxTuple)
  null := fun _ _ _ _ => (by decide : alignUp 8 (16 + 1) ≤ maxTuple)
  empty := fun _ _ _ _ => (by decide : alignUp 8 (16 + 1) ≤ maxTuple)

/-- A search by one condition in the index of a table with one row. -/
def OneRowAnswer (v : TsVector (List Nat)) (q : Query (Opnd (List Nat))) (good : List (Item Datum × Bool) × Bool → Prop) : Prop :=
  ∀ (sort : Nat → List (Raw (List Nat) Datum) → List (Raw (List Nat) Datum)) (haveDups : Nat → List (Raw (List Nat) Datum) → Bool)
    (qsort tuplesort : (Item Datum → Item Datum → Ordering) → List (Item Datum) → List (Item Datum)) (full : Nat → Bool)
    (opSort : List (Opnd (List Nat)) → List (Opnd (List Nat))), (∀ a, SortOK tsCompare (sort a)) → (∀ a, DupsSeen tsCompare (haveDups a)) → Sorts qsort → Sorts tuplesort →
    SortsOpnds tsCompare opSort →
    ∃ st, oneSchema.ix.buildIndex (oneSchema.rc sort haveDups) qsort full [oneSchema.row (oneRow v)] = (st, true) ∧
      ∃ N, ∀ n, N ≤ n → ∀ junk, ∃ out, oneSchema.ix.find (oneSchema.rc sort haveDups) false tuplesort (fun _ => some joinTs) st junk n
          ((⟨1, q⟩ : TsSearch (List Nat)).clause (fun _ => tsOps) tsCompare opSort) [] = some out ∧ good out

theorem one_row {P : Nat} {v : TsVector (List Nat)} {q : Query (Opnd (List Nat))} (hfit : oneSchema.Fits P (oneRow v)) {yes : Prop}
    (h : ∀ (sort : Nat → List (Raw (List Nat) Datum) → List (Raw (List Nat) Datum)) (haveDups : Nat → List (Raw (List Nat) Datum) → Bool)
      (opSort : List (Opnd (List Nat)) → List (Opnd (List Nat))), SortsOpnds tsCompare opSort →
      Judges oneSchema.ix (oneSchema.rc sort haveDups) (fun _ => some joinTs) (oneSchema.row (oneRow v)) ((⟨1, q⟩ : TsSearch (List Nat)).clause (fun _ => tsOps) tsCompare opSort) yes True) :
    OneRowAnswer v q (fun out => (yes → ∃ p ∈ out.1, p.1.iptr = ⟨1, 1⟩ ∧ p.2 = false) ∧ (¬ yes → out.1 = [])) := by
  intro sort haveDups qsort tuplesort full opSort hs hd hq htp hop
  obtain ⟨st, t, h1, h2, h3⟩ := C53_query_inserted_partial oneSchema.ix (oneSchema.rc sort haveDups) false ⟨160, false⟩ rfl (cols_ok false) hs hd (fun a => ⟨rfl, rfl⟩) qsort tuplesort hq htp
    (fun _ => some joinTs) (fun h => by cases h) full [oneSchema.row (oneRow v)]
    (fun r hr => by rw [List.mem_singleton.1 hr]; exact row_ok hs hd hfit false)
    (fun r hr a => by rw [List.mem_singleton.1 hr]; exact entries_length hs hfit a) (fun h => by cases h) []
    (fun r hr => by cases hr) (by simp)
  have ht : t = st := by
    have : oneSchema.ix.insertRows (oneSchema.rc sort haveDups) st [] = (st, true) := rfl
    rw [this] at h2
    exact (Prod.mk.inj h2).1.symm
  subst ht
  rw [List.append_nil] at h3
  refine ⟨t, h1, ?_⟩
  have hcl : ∀ d ∈ [(⟨1, q⟩ : TsSearch (List Nat))], ClauseOK oneSchema.ix (oneSchema.rc sort haveDups) false false t [oneSchema.row (oneRow v)]
      (d.clause (fun _ => tsOps) tsCompare opSort) := by
    intro d hd
    rw [List.mem_singleton.1 hd]
    refine ⟨Nat.le_refl 1, Nat.le_refl 1, fun lk hlk => ?_⟩
    rcases List.mem_append.1 hlk with hlk | hlk
    · obtain ⟨o, ho, rfl⟩ := List.mem_map.1 hlk
      cases hp : o.pre with
      | false =>
        simp only [TsClass.look, hp, Bool.false_eq_true, if_false]
        exact ⟨trivial, fun t ht => Or.inr rfl⟩
      | true =>
        simp only [TsClass.look, hp, if_true]
        exact ⟨fun _ => range_ok o.lex, fun ha => (by cases ha)⟩
    · cases hm : requiresMatch q with
      | true => simp [tsMode, hm, hiddenLooks] at hlk
      | false =>
        simp only [tsMode, hm, Bool.false_eq_true, if_false, hiddenLooks, List.mem_singleton] at hlk
        subst hlk
        exact ⟨rfl, fun ha => (by cases ha)⟩
  obtain ⟨N, hN⟩ := answer_of_judges h3 (fun d : TsSearch (List Nat) => d.clause (fun _ => tsOps) tsCompare opSort) ⟨1, q⟩ [] hcl (Or.inl rfl)
    (good := fun _ _ => yes) (exact_ := fun _ => True) (fun r hr d hd => by
      rw [List.mem_singleton.1 hr, List.mem_singleton.1 hd]
      exact h sort haveDups opSort hop)
  refine ⟨N, fun n hn junk => ?_⟩
  obtain ⟨out, g1, g2⟩ := hN n hn junk
  refine ⟨out, g1, fun hy => ?_, fun hn => ?_⟩
  · obtain ⟨p, hp, he⟩ := g2.complete _ (List.mem_singleton.2 rfl) (fun _ _ => hy)
    exact ⟨p, hp, he, g2.unchecked (fun _ _ => trivial) p hp⟩
  · rw [List.eq_nil_iff_forall_not_mem]
    intro p hp
    obtain ⟨r, -, -, hg⟩ := g2.sound p hp
    exact hn (hg (g2.unchecked (fun _ _ => trivial) p hp) _ (List.mem_singleton.2 rfl))

/-- Stored positions, all of them in `S`. -/
def Within (S : Nat → Prop) (x : Option Datum) : Prop := ∃ d p, x = some d ∧ dataBytes d = compressPos 0 p ∧ PosList p ∧ p ≠ [] ∧ ∀ y ∈ p, S y

theorem foldl_within (S : Nat → Prop) (l : List (Option Datum)) : ∀ acc : Option Datum, acc = none ∨ Within S acc → (∀ x ∈ l, x = none ∨ Within S x) →
    (l.foldl (joinInfo (some joinTs)) acc = none ∧ acc = none ∧ ∀ x ∈ l, x = none) ∨ Within S (l.foldl (joinInfo (some joinTs)) acc) := by
  induction l with
  | nil =>
    intro acc h _
    rcases h with rfl | h
    · exact Or.inl ⟨rfl, rfl, by simp⟩
    · exact Or.inr h
  | cons x l ih =>
    intro acc h hl
    have hx := hl x (by simp)
    have hl := fun y hy => hl y (List.mem_cons_of_mem _ hy)
    rw [List.foldl_cons]
    rcases h with rfl | ⟨d, p, rfl, h1, h2, h3, h4⟩
    · rcases ih x hx hl with ⟨e1, rfl, e3⟩ | e
      · exact Or.inl ⟨e1, rfl, by simpa using e3⟩
      · exact Or.inr e
    · right
      have hstep : Within S (joinInfo (some joinTs) (some d) x) := by
        rcases hx with rfl | ⟨dx, px, rfl, g1, g2, g3, g4⟩
        · exact ⟨d, p, rfl, h1, h2, h3, h4⟩
        · obtain ⟨u, e1, e2, -, e3⟩ := C28_join_is_union p px h2 g2 h3 g3
          obtain ⟨y, hy⟩ := List.exists_mem_of_ne_nil p h3
          refine ⟨_, u, rfl, ?_, e2, List.ne_nil_of_mem ((e3 y).2 (Or.inl hy)), fun z hz => ?_⟩
          · show (joinPos (dataBytes d) (dataBytes dx)).getD [] = _
            rw [h1, g1, e1]; rfl
          · rcases (e3 z).1 hz with h | h
            · exact h4 z h
            · exact g4 z h.1
      rcases ih _ (Or.inr hstep) hl with ⟨-, e, -⟩ | e
      · obtain ⟨_, _, he, _⟩ := hstep
        rw [he] at e; cases e
      · exact e

theorem told_one (o : Opnd (List Nat)) (v : TsVector (List Nat)) : Told tsOps tsCompare (fun p w => p <+: w) o v :=
  ⟨fun _ _ _ h => LawfulEqCmp.eq_of_compare (cmp := tsCompare) h,
   fun _ => ⟨range_ok o.lex, fun w _ => cmpPrefix_iff o.lex w.1, fun _ _ _ _ h => LawfulEqCmp.eq_of_compare (cmp := tsCompare) h⟩⟩

/-- An operand that stands for a word with positions is told some of the positions of the words it stands for, and no others. -/
theorem sees_within {P : Nat} {v : TsVector (List Nat)} (hv : VecOK P v) (hne : ∀ w ∈ v, w.2 ≠ some [])
    {sort : Nat → List (Raw (List Nat) Datum) → List (Raw (List Nat) Datum)} {haveDups : Nat → List (Raw (List Nat) Datum) → Bool} {o : Opnd (List Nat)} (S : Nat → Prop)
    (hS : ∀ w ∈ v, Stands (fun p w => p <+: w) o w.1 → ∀ ps, w.2 = some ps → ∀ x ∈ ps, S x)
    (hex : ∃ w ∈ v, Stands (fun p w => p <+: w) o w.1 ∧ w.2 ≠ none) {x : Option (Option Datum)}
    (h : Sees oneSchema.ix (oneSchema.rc sort haveDups) (some joinTs) (oneSchema.row (oneRow v)) 1 (tsOps.look o) x) :
    ∃ p, found x = stored (.at p) ∧ PosList p ∧ p ≠ [] ∧ ∀ y ∈ p, S y := by
  have hK : TransCmp (oneSchema.ix.cmpK 1) := (inferInstance : TransCmp tsCompare)
  have hval : (oneSchema.row (oneRow v)).value 1 = some (extractTsvector tsOps.build tsOps.attr v) := rfl
  have hst := sees_stands hK (told_one o v) (cols_ok false) hval h
  cases x with
  | none =>
    obtain ⟨w, hw, hs, -⟩ := hex
    exact absurd hs (hst.1 rfl w hw)
  | some i =>
    obtain ⟨ws, -, w2, -, w4⟩ := sees_words hK (by show none ≠ some 1; simp) (told_one o v) (cols_ok false) hv hval h
    rcases foldl_within S (ws.map (wordInfo tsOps)) none (Or.inl rfl) (fun z hz => by
      obtain ⟨w, hw, rfl⟩ := List.mem_map.1 hz
      obtain ⟨hwv, hws⟩ := (w2 w).1 hw
      cases hp : w.2 with
      | none => left; simp [wordInfo, hp]
      | some ps =>
        right
        refine ⟨_, ps, by simp only [wordInfo, hp, Option.map_some]; rfl, dataBytes_stored _ _, (hv.positions w hwv ps hp).1, ?_, hS w hwv hws ps hp⟩
        rintro rfl
        exact hne w hwv hp) with ⟨-, -, hall⟩ | ⟨d, p, e1, e2, e3, e4, e5⟩
    · obtain ⟨w, hw, hs, hn⟩ := hex
      have := hall _ (List.mem_map_of_mem ((w2 w).2 ⟨hw, hs⟩))
      simp only [wordInfo, Option.map_eq_none_iff] at this
      exact absurd this hn
    · refine ⟨p, ?_, e3, e4, e5⟩
      rw [w4, e1]
      simp only [found, stored, e2]

theorem phrase_none {O : Type} {doc : O → Occ} {d : Nat} {l r : Query O} {R : Nat × (Int → Prop)} (hl : sem doc l = none) (hr : sem doc r = some R) {p : Int} (hp : R.2 p) :
    sem doc (.phrase d l r) = none := by
  simp only [sem, sem.both]
  rw [if_neg, hl]
  rintro (⟨z, hz, -⟩ | ⟨z, hz, hn⟩)
  · rw [hl] at hz; cases hz
  · rw [hr] at hz; cases hz; exact hn p hp

theorem phrase_some {O : Type} {doc : O → Occ} {d : Nat} {l r : Query O} {L R : Nat × (Int → Prop)} (hl : sem doc l = some L) (hr : sem doc r = some R) {p : Int}
    (h1 : L.2 (p - d - R.1)) (h2 : R.2 p) : ∃ y, sem doc (.phrase d l r) = some y ∧ ∃ p, y.2 p := by
  simp only [sem, sem.both]
  rw [if_neg, hl, hr]
  · exact ⟨_, rfl, p, h1, h2⟩
  · rintro (⟨z, hz, hn⟩ | ⟨z, hz, hn⟩)
    · rw [hl] at hz; cases hz; exact hn _ h1
    · rw [hr] at hz; cases hz; exact hn _ h2

/-- The words `ab` without positions, `ac:1`, `b:2`. -/
def mixedDoc : TsVector (List Nat) := [([97, 98], none), ([97, 99], some [1]), ([98], some [2])]
/-- `a:* <-> b`. -/
def mixedQuery : Query (Opnd (List Nat)) := .phrase 1 (.val ⟨[97], true⟩ 0) (.val ⟨[98], false⟩ 0)

theorem mixed_vec : VecOK 2 mixedDoc := by
  refine ⟨by decide, fun w hw ps hps => ?_⟩
  simp only [mixedDoc, List.mem_cons, List.not_mem_nil, or_false] at hw
  rcases hw with rfl | rfl | rfl
  · cases hps
  · cases hps; exact ⟨⟨by decide, by decide⟩, by decide⟩
  · cases hps; exact ⟨⟨by decide, by decide⟩, by decide⟩

/-- **C57, words with and without positions, violated.** The document `ab ac:1 b:2` does not match `a:* <-> b`, because it is not known where `ab` stands. The index
joins what it has for `ab` and `ac`, forgets that there is nothing for `ab`, and returns the row without asking for a recheck. -/
theorem C57_mixed_violated : VecOK 2 mixedDoc ∧ (∀ unk, ¬ DocMatches unk (fun p w => p <+: w) (some mixedDoc) mixedQuery) ∧
    OneRowAnswer mixedDoc mixedQuery (fun out => ∃ p ∈ out.1, p.1.iptr = ⟨1, 1⟩ ∧ p.2 = false) := by
  have hfit : oneSchema.Fits 2 (oneRow mixedDoc) := oneFits mixed_vec (by decide) (fun w hw ps hps => by
    simp only [mixedDoc, List.mem_cons, List.not_mem_nil, or_false] at hw
    rcases hw with rfl | rfl | rfl <;> cases hps <;> decide)
  refine ⟨mixed_vec, fun unk => ?_, ?_⟩
  · rintro ⟨v, hv, y, hy, p, hp⟩
    cases hv
    have h1 : occ (fun p w => p <+: w) mixedDoc ⟨[97], true⟩ = .noPos := by
      unfold occ
      rw [if_neg (by simp [Stands, mixedDoc]), if_pos ⟨([97, 98], none), by simp [mixedDoc], by simp [Stands], rfl⟩]
    have h2 : occ (fun p w => p <+: w) mixedDoc ⟨[98], false⟩ = .at [2] := by
      unfold occ
      rw [if_neg (by simp [Stands, mixedDoc]), if_neg (by simp [Stands, mixedDoc])]
      simp [Stands, mixedDoc]
    rw [phrase_none (R := (0, fun p => ∃ x ∈ [2], HasWeight 0 x ∧ (wepPos x : Int) = p)) (p := 2) (by simp only [sem, h1]) (by simp only [sem, h2])
      ⟨2, by simp, by simp [HasWeight], by decide⟩] at hy
    cases hy
  · have := one_row (yes := True) hfit (q := mixedQuery) (fun sort haveDups opSort hop => by
      intro w hw
      obtain ⟨w1, w2, rfl, -, hcons, hent⟩ := clause_view (c := ⟨1, mixedQuery⟩) (cls := fun _ => tsOps) (cmpL := tsCompare) (join := fun _ => some joinTs)
        (ix := oneSchema.ix) (rc := oneSchema.rc sort haveDups) (r := oneSchema.row (oneRow mixedDoc)) hop (by simp [mixedQuery, operands]) hw
      obtain ⟨x1, m1, s1, e1⟩ := hent ⟨[97], true⟩ (by simp [mixedQuery, operands])
      obtain ⟨x2, m2, s2, e2⟩ := hent ⟨[98], false⟩ (by simp [mixedQuery, operands])
      obtain ⟨p, p1, p2, p3, p4⟩ := sees_within mixed_vec (by decide) (fun x => x = 1) (fun w hw hs ps hps => by
        simp only [mixedDoc, List.mem_cons, List.not_mem_nil, or_false] at hw
        rcases hw with rfl | rfl | rfl
        · cases hps
        · cases hps; simp
        · simp [Stands] at hs) ⟨([97, 99], some [1]), by simp [mixedDoc], by simp [Stands], by simp⟩ s1
      obtain ⟨q, q1, q2, q3, q4⟩ := sees_within mixed_vec (by decide) (fun x => x = 2) (fun w hw hs ps hps => by
        simp only [mixedDoc, List.mem_cons, List.not_mem_nil, or_false] at hw
        rcases hw with rfl | rfl | rfl
        · cases hps
        · simp [Stands] at hs
        · cases hps; simp) ⟨([98], some [2]), by simp [mixedDoc], by simp [Stands], by simp⟩ s2
      have hc : ((fun _ => tsOps) 1 : TsClass (List Nat) (List Nat)).consistent (entryOf tsCompare (sortAndUniq tsCompare opSort mixedQuery) w1) mixedQuery =
          tsConsistent (fun o => stored (if o = ⟨[97], true⟩ then .at p else .at q)) mixedQuery := by
        show tsConsistent _ _ = _
        unfold tsConsistent
        rw [execute_congr mixedQuery false]
        · intro o ho w
          simp only [mixedQuery, operands, List.cons_append, List.nil_append, List.mem_cons, List.not_mem_nil, or_false] at ho
          rcases ho with rfl | rfl
          · rw [show entryOf _ _ _ _ = _ from e1, p1]; rfl
          · rw [show entryOf _ _ _ _ = _ from e2, q1]; rfl
        · intro o ho w
          simp only [mixedQuery, operands, List.cons_append, List.nil_append, List.mem_cons, List.not_mem_nil, or_false] at ho
          rcases ho with rfl | rfl
          · rw [show entryOf _ _ _ _ = _ from e1, p1]; rfl
          · rw [show entryOf _ _ _ _ = _ from e2, q1]; rfl
      have hex := C25_search_exact (fun _ _ => False) 2 (fun o : Opnd (List Nat) => if o = ⟨[97], true⟩ then .at p else .at q) mixedQuery
        (fun o ps h => by
          beta_reduce at h
          split at h <;> cases h
          · exact ⟨p2, fun y hy => by rw [p4 y hy]; decide⟩
          · exact ⟨q2, fun y hy => by rw [q4 y hy]; decide⟩) (by decide) (fun o h => by split at h <;> cases h) (by simp [mixedQuery, NoWeightUnderNot])
      have hp : 1 ∈ p := by
        obtain ⟨y, hy⟩ := List.exists_mem_of_ne_nil p p3
        rw [← p4 y hy]; exact hy
      have hq : 2 ∈ q := by
        obtain ⟨y, hy⟩ := List.exists_mem_of_ne_nil q q3
        rw [← q4 y hy]; exact hy
      have hm : Ts.Matches (fun _ _ => False) (fun o : Opnd (List Nat) => if o = ⟨[97], true⟩ then .at p else .at q) mixedQuery := by
        refine phrase_some (L := (0, fun z => ∃ x ∈ p, HasWeight 0 x ∧ (wepPos x : Int) = z)) (R := (0, fun z => ∃ x ∈ q, HasWeight 0 x ∧ (wepPos x : Int) = z)) (p := 2)
          (by simp only [sem, if_true]) ?_ ⟨1, hp, Or.inl rfl, (by decide : ((wepPos 1 : Nat) : Int) = 2 - 1 - 0)⟩ ⟨2, hq, Or.inl rfl, (by decide : ((wepPos 2 : Nat) : Int) = 2)⟩
        have : (⟨[98], false⟩ : Opnd (List Nat)) ≠ ⟨[97], true⟩ := by decide
        simp only [sem, if_neg this]
      have hacc : Collect.Accepted ((⟨1, mixedQuery⟩ : TsSearch (List Nat)).clause (fun _ => tsOps) tsCompare opSort) (w1 ++ w2) := by
        refine ⟨⟨x1, by simp [m1], ?_⟩, ?_⟩
        · cases x1 with
          | none => simp [found, stored] at p1
          | some i => rfl
        · rw [hcons]
          exact (congrArg Prod.fst hc).trans (hex.2.2 hm)
      have hrec : (((⟨1, mixedQuery⟩ : TsSearch (List Nat)).clause (fun _ => tsOps) tsCompare opSort).cons (w1 ++ w2)).2 = false := by
        rw [hcons]
        exact (congrArg Prod.snd hc).trans hex.1
      exact ⟨fun _ => hacc, fun _ _ => trivial, fun _ _ => hrec⟩)
    intro sort haveDups qsort tuplesort full opSort hs hd hq htp hop
    obtain ⟨st, h1, N, hN⟩ := this sort haveDups qsort tuplesort full opSort hs hd hq htp hop
    refine ⟨st, h1, N, fun n hn junk => ?_⟩
    obtain ⟨out, g1, g2, -⟩ := hN n hn junk
    exact ⟨out, g1, g2 trivial⟩

/-- The words `ab:1A`, `ac:1B`. -/
def weightDoc : TsVector (List Nat) := [([97, 98], some [49153]), ([97, 99], some [32769])]
/-- `a:*A & a:*B`. -/
def weightQuery : Query (Opnd (List Nat)) := .and (.val ⟨[97], true⟩ 8) (.val ⟨[97], true⟩ 4)

theorem weight_vec : VecOK 1 weightDoc := by
  refine ⟨by decide, fun w hw ps hps => ?_⟩
  simp only [weightDoc, List.mem_cons, List.not_mem_nil, or_false] at hw
  rcases hw with rfl | rfl
  · cases hps; exact ⟨⟨by decide, by decide⟩, by decide⟩
  · cases hps; exact ⟨⟨by decide, by decide⟩, by decide⟩

/-- **C57, weights, violated.** The document `ab:1A ac:1B` matches `a:*A & a:*B`. The index joins the positions of `ab` and `ac`, keeps one weight for position 1, and
does not return the row. -/
theorem C57_weights_violated : VecOK 1 weightDoc ∧ (∀ unk, DocMatches unk (fun p w => p <+: w) (some weightDoc) weightQuery) ∧
    OneRowAnswer weightDoc weightQuery (fun out => out.1 = []) := by
  have hfit : oneSchema.Fits 1 (oneRow weightDoc) := oneFits weight_vec (by decide) (fun w hw ps hps => by
    simp only [weightDoc, List.mem_cons, List.not_mem_nil, or_false] at hw
    rcases hw with rfl | rfl <;> cases hps <;> decide)
  refine ⟨weight_vec, fun unk => ⟨_, rfl, ?_⟩, ?_⟩
  · have h1 : occ (fun p w => p <+: w) weightDoc ⟨[97], true⟩ = .at [49153, 32769] := by
      unfold occ
      rw [if_neg (by simp [Stands, weightDoc]), if_neg (by simp [Stands, weightDoc])]
      simp [Stands, weightDoc]
    simp only [weightQuery, Ts.Matches, h1]
    exact ⟨Or.inr ⟨49153, by simp, by unfold HasWeight; decide⟩, Or.inr ⟨32769, by simp, by unfold HasWeight; decide⟩⟩
  · have := one_row (yes := False) hfit (q := weightQuery) (fun sort haveDups opSort hop => by
      intro w hw
      obtain ⟨w1, w2, rfl, -, hcons, hent⟩ := clause_view (c := ⟨1, weightQuery⟩) (cls := fun _ => tsOps) (cmpL := tsCompare) (join := fun _ => some joinTs)
        (ix := oneSchema.ix) (rc := oneSchema.rc sort haveDups) (r := oneSchema.row (oneRow weightDoc)) hop (by simp [weightQuery, operands]) hw
      obtain ⟨x1, m1, s1, e1⟩ := hent ⟨[97], true⟩ (by simp [weightQuery, operands])
      obtain ⟨p, p1, p2, p3, p4⟩ := sees_within weight_vec (by decide) (fun x => x = 49153 ∨ x = 32769) (fun w hw hs ps hps => by
        simp only [weightDoc, List.mem_cons, List.not_mem_nil, or_false] at hw
        rcases hw with rfl | rfl
        · cases hps; simp
        · cases hps; simp) ⟨([97, 99], some [32769]), by simp [weightDoc], by simp [Stands], by simp⟩ s1
      have hc : ((fun _ => tsOps) 1 : TsClass (List Nat) (List Nat)).consistent (entryOf tsCompare (sortAndUniq tsCompare opSort weightQuery) w1) weightQuery =
          tsConsistent (fun _ => stored (.at p)) weightQuery := by
        show tsConsistent _ _ = _
        unfold tsConsistent
        rw [execute_congr weightQuery false]
        · intro o ho w
          simp only [weightQuery, operands, List.cons_append, List.nil_append, List.mem_cons, List.not_mem_nil, or_false] at ho
          rcases ho with rfl | rfl <;> rw [show entryOf _ _ _ _ = _ from e1, p1]
        · intro o ho w
          simp only [weightQuery, operands, List.cons_append, List.nil_append, List.mem_cons, List.not_mem_nil, or_false] at ho
          rcases ho with rfl | rfl <;> rw [show entryOf _ _ _ _ = _ from e1, p1]
      have hex := C25_search_exact (fun _ _ => False) 1 (fun _ : Opnd (List Nat) => .at p) weightQuery
        (fun o ps h => by
          cases h
          exact ⟨p2, fun y hy => by rcases p4 y hy with rfl | rfl <;> decide⟩) (by decide) (fun o h => by cases h) (by simp [weightQuery, NoWeightUnderNot])
      have hm : ¬ Ts.Matches (fun _ _ => False) (fun _ : Opnd (List Nat) => .at p) weightQuery := by
        simp only [weightQuery, Ts.Matches]
        rintro ⟨h1, h2⟩
        have hA : 49153 ∈ p := by
          rcases h1 with h1 | ⟨x, hx, h1⟩
          · cases h1
          · rcases p4 x hx with rfl | rfl
            · exact hx
            · unfold HasWeight at h1; exact absurd h1 (by decide)
        have hB : 32769 ∈ p := by
          rcases h2 with h2 | ⟨x, hx, h2⟩
          · cases h2
          · rcases p4 x hx with rfl | rfl
            · unfold HasWeight at h2; exact absurd h2 (by decide)
            · exact hx
        have hp : p.Pairwise (fun a b => wepPos a ≠ wepPos b) := p2.2.imp (fun h => Nat.ne_of_lt h)
        have : Std.Symm (fun a b => wepPos a ≠ wepPos b) := ⟨fun _ _ h => Ne.symm h⟩
        exact List.Pairwise.forall hp hA hB (by decide) (by decide)
      have hna : ¬ Collect.Accepted ((⟨1, weightQuery⟩ : TsSearch (List Nat)).clause (fun _ => tsOps) tsCompare opSort) (w1 ++ w2) := by
        rintro ⟨-, h⟩
        rw [hcons] at h
        exact hm (hex.2.1 ((congrArg Prod.fst hc).symm.trans h))
      exact ⟨fun h => h.elim, fun h => absurd h hna, fun h => absurd h hna⟩)
    intro sort haveDups qsort tuplesort full opSort hs hd hq htp hop
    obtain ⟨st, h1, N, hN⟩ := this sort haveDups qsort tuplesort full opSort hs hd hq htp hop
    refine ⟨st, h1, N, fun n hn junk => ?_⟩
    obtain ⟨out, g1, -, g2⟩ := hN n hn junk
    exact ⟨out, g1, g2 (fun h => h)⟩

/-! ### Concrete cases -/

def txSort (l : List (Opnd (List Nat))) : List (Opnd (List Nat)) := l.mergeSort (fun a b => (tsCompare a.lex b.lex).isLE)

theorem txSort_sorts : SortsOpnds tsCompare txSort := fun l =>
  ⟨List.mergeSort_perm _ _, List.pairwise_mergeSort (l := l) (le := fun a b : Opnd (List Nat) => (tsCompare a.lex b.lex).isLE)
    (fun a b c h1 h2 => TransCmp.isLE_trans (cmp := tsCompare) h1 h2) (fun a b => by
      rw [OrientedCmp.eq_swap (cmp := tsCompare) (a := b.lex) (b := a.lex)]
      cases tsCompare a.lex b.lex <;> simp)⟩

theorem txKeys : SortOK (V := Datum) tsCompare (fun l => l.mergeSort (fun a b => (cmpExtract tsCompare a.key b.key).isLE)) ∧ DupsSeen (V := Datum) tsCompare (fun _ => true) := by
  refine ⟨⟨fun l => List.mergeSort_perm _ _, fun l => ?_⟩, fun l h => by cases h⟩
  have := List.pairwise_mergeSort (l := l) (le := fun a b : Raw (List Nat) Datum => (cmpExtract tsCompare a.key b.key).isLE)
    (fun a b c h1 h2 => TransCmp.isLE_trans h1 h2) (fun a b => by
      rw [OrientedCmp.eq_swap (cmp := cmpExtract tsCompare) (a := b.key) (b := a.key)]
      cases cmpExtract tsCompare a.key b.key <;> simp)
  exact this.imp (fun h hc => by rw [hc] at h; cases h)

/-- `ab:1 ac:2 b:3`. -/
def txDoc : TsVector (List Nat) := [([97, 98], some [1]), ([97, 99], some [2]), ([98], some [3])]
/-- `a:* <-> b`. -/
def txPhrase : TsSearch (List Nat) := ⟨1, mixedQuery⟩
/-- `!c`. -/
def txNot : TsSearch (List Nat) := ⟨1, .not (.val ⟨[99], false⟩ 0)⟩

theorem tx_vec : VecOK 3 txDoc := by
  refine ⟨by decide, fun w hw ps hps => ?_⟩
  simp only [txDoc, List.mem_cons, List.not_mem_nil, or_false] at hw
  rcases hw with rfl | rfl | rfl <;> cases hps <;> exact ⟨⟨by decide, by decide⟩, by decide⟩

/-- The hypotheses of `C57_text_search` are met by a table with the document and conditions `a:* <-> b` and `!c`. -/
example : oneSchema.Fits 3 (oneRow txDoc) ∧ (∀ d ∈ [txPhrase, txNot], 1 ≤ d.attnum ∧ d.attnum ≤ oneSchema.natts) ∧
    (∀ d ∈ [txPhrase, txNot], ∀ o ∈ operands d.query, ∀ p ∈ operands d.query, o.lex = p.lex → o.pre = p.pre) ∧
    (∀ d ∈ [txPhrase, txNot], 3 + d.query.dist < 2 ^ 14) ∧
    (∀ d ∈ [txPhrase, txNot], ∀ o ∈ operands d.query, o.pre = true → ∀ r ∈ [oneRow txDoc], ∀ v, r.col d.attnum = some v → PrefixWords (fun p w => p <+: w) o v) := by
  refine ⟨oneFits tx_vec (by decide) (fun w hw ps hps => by
    simp only [txDoc, List.mem_cons, List.not_mem_nil, or_false] at hw
    rcases hw with rfl | rfl | rfl <;> cases hps <;> decide), ?_, ?_, ?_, ?_⟩
  · simp [txPhrase, txNot, oneSchema]
  · simp [txPhrase, txNot, mixedQuery, operands]
  · simp [txPhrase, txNot, mixedQuery, Query.dist]
  · intro d hd o ho hp r hr v hv
    rw [List.mem_singleton.1 hr] at hv
    simp only [List.mem_cons, List.not_mem_nil, or_false] at hd
    rcases hd with rfl | rfl
    · obtain rfl : txDoc = v := by simpa [oneRow, txPhrase] using hv
      refine ⟨Or.inr (fun w hw _ => ?_), fun w hw _ u hu _ x hx y hy he => ?_⟩
      · simp only [txDoc, List.mem_cons, List.not_mem_nil, or_false] at hw
        rcases hw with rfl | rfl | rfl <;> exact ⟨_, rfl, by simp⟩
      · have hx : x = 1 ∨ x = 2 ∨ x = 3 := by
          simp only [txDoc, List.mem_cons, List.not_mem_nil, or_false] at hw
          rcases hw with rfl | rfl | rfl <;> simp_all
        have hy : y = 1 ∨ y = 2 ∨ y = 3 := by
          simp only [txDoc, List.mem_cons, List.not_mem_nil, or_false] at hu
          rcases hu with rfl | rfl | rfl <;> simp_all
        have e1 : wepPos 1 = 1 := by decide
        have e2 : wepPos 2 = 2 := by decide
        have e3 : wepPos 3 = 3 := by decide
        rcases hx with rfl | rfl | rfl <;> rcases hy with rfl | rfl | rfl <;> simp_all
    · simp only [txNot, operands, List.mem_singleton] at ho
      subst ho
      cases hp

/-- The document matches both. -/
theorem tx_both (unk : Opnd (List Nat) → Nat → Prop) : ∀ d ∈ [txPhrase, txNot], DocMatches unk (fun p w => p <+: w) ((oneRow txDoc).col d.attnum) d.query := by
  have h1 : occ (fun p w => p <+: w) txDoc ⟨[97], true⟩ = .at [1, 2] := by
    unfold occ
    rw [if_neg (by simp [Stands, txDoc]), if_neg (by simp [txDoc])]
    simp [Stands, txDoc]
  have h2 : occ (fun p w => p <+: w) txDoc ⟨[98], false⟩ = .at [3] := by
    unfold occ
    rw [if_neg (by simp [Stands, txDoc]), if_neg (by simp [txDoc])]
    simp [Stands, txDoc]
  have h3 : occ (fun p w => p <+: w) txDoc ⟨[99], false⟩ = .absent := by
    unfold occ
    rw [if_pos (by simp [Stands, txDoc])]
  intro d hd
  simp only [List.mem_cons, List.not_mem_nil, or_false] at hd
  rcases hd with rfl | rfl
  · refine ⟨txDoc, rfl, ?_⟩
    exact phrase_some (L := (0, fun z => ∃ x ∈ [1, 2], HasWeight 0 x ∧ (wepPos x : Int) = z)) (R := (0, fun z => ∃ x ∈ [3], HasWeight 0 x ∧ (wepPos x : Int) = z)) (p := 3)
      (by simp only [sem, h1]) (by simp only [sem, h2]) ⟨2, by simp, Or.inl rfl, (by decide : ((wepPos 2 : Nat) : Int) = 3 - 1 - 0)⟩ ⟨3, by simp, Or.inl rfl, (by decide : ((wepPos 3 : Nat) : Int) = 3)⟩
  · refine ⟨txDoc, rfl, ?_⟩
    simp only [txNot, Ts.Matches, h3, not_false_eq_true]

/-- Words that are numbers; a prefix stands for itself and the next number. -/
def txBegins (p w : Nat) : Prop := p ≤ w ∧ w ≤ p + 1
def txCmp (p w : Nat) : Int := if w < p then -1 else if w ≤ p + 1 then 0 else 1
def txClass : TsClass Nat Nat := ⟨id, ftAttr, false, txCmp⟩

theorem txRange (p : Nat) : RangeOK (compare : Nat → Nat → Ordering) p (txCmp p) where
  above := fun x hx h => by
    have : x < p := Nat.compare_eq_gt.1 h
    simp [txCmp, this] at hx
  stop := fun x y hx _ h => by
    rw [ne_eq, Nat.compare_eq_gt] at h
    unfold txCmp at hx ⊢
    split at hx
    · omega
    · split at hx
      · omega
      · split
        · omega
        · split <;> omega
  same := fun x y h hx => by
    rw [← Nat.compare_eq_eq.1 h]; exact hx

/-- `5:* & !7` and `!8`. -/
def txConds : List (TsSearch Nat) := [⟨1, .and (.val ⟨5, true⟩ 0) (.not (.val ⟨7, false⟩ 0))⟩, ⟨1, .not (.val ⟨8, false⟩ 0)⟩]

/-- The hypotheses of `C57_text_partial` about the conditions are met after the history of C51. -/
example : Covered txBegins (fun _ => txClass) ftIx ftRc false true (fun _ => some joinTs) (runs ftIx ftRc (emptyIndex, true) exFtEvents).1
    (exFtEvents.foldl Event.rows []) 1 (fun r _ => exVec r) txConds := by
  have hrows : exFtEvents.foldl Event.rows [] = [ftRow id 2 [(6, some [1])], ftRow id 3 [(5, some [1])]] := by
    simp [exFtEvents, Event.rows, ftRow]
  have h : ∀ k ∈ [7, 8], (ftIx.treeOf (runs ftIx ftRc (emptyIndex, true) exFtEvents).1 ⟨1, .norm, k⟩).isNone = true := by decide +kernel
  have hatt : ∀ c ∈ txConds, c.attnum = 1 := by simp [txConds]
  refine ⟨fun c hc => by rw [hatt c hc], fun c hc => by rw [hatt c hc]; exact Nat.le_refl 1, fun c hc => ⟨?_, fun _ => ?_⟩, fun c hc r hr => ?_, fun c hc o _ _ => txRange o.lex,
    fun c hc o ho hp t ht => ?_, fun _ _ _ h => (by cases h), Or.inl rfl, fun _ _ _ h => (by cases h), fun _ _ _ => rfl⟩
  · simp only [txConds, List.mem_cons, List.not_mem_nil, or_false] at hc
    rcases hc with rfl | rfl <;> simp [operands]
  · simp only [txConds, List.mem_cons, List.not_mem_nil, or_false] at hc
    rcases hc with rfl | rfl <;> decide
  · rw [hrows] at hr
    have hpos : PosList [1] ∧ ∀ x ∈ [1], 1 ≤ wepPos x ∧ wepPos x ≤ 1 := ⟨⟨by decide, by decide⟩, by decide⟩
    obtain ⟨y, hv, hval⟩ : ∃ y : Nat, exVec r = some [(y, some [1])] ∧ r.value 1 = some (extractTsvector id ftAttr [(y, some [1])]) := by
      simp only [List.mem_cons, List.not_mem_nil, or_false] at hr
      rcases hr with rfl | rfl
      · exact ⟨6, rfl, rfl⟩
      · exact ⟨5, rfl, rfl⟩
    rw [hatt c hc]
    refine ⟨by rw [hval, hv]; rfl, fun v hv' => ?_⟩
    rw [hv] at hv'
    cases hv'
    refine ⟨⟨by simp, fun w hw ps hps => ?_⟩, fun o _ => ⟨fun _ w _ h => Nat.compare_eq_eq.1 h, fun _ => ⟨txRange o.lex, fun w _ => ?_, fun w _ u _ h => Nat.compare_eq_eq.1 h⟩⟩,
      fun _ o _ _ => ⟨Or.inr (fun w hw _ => ?_), fun w hw _ u hu _ x hx z hz _ => ?_⟩⟩
    · simp at hw
      subst hw
      cases hps
      exact hpos
    · show txCmp o.lex w.1 = 0 ↔ _
      unfold txCmp txBegins
      split
      · constructor <;> intro <;> omega
      · split
        · constructor <;> intro <;> omega
        · constructor <;> intro <;> omega
    · rw [List.mem_singleton.1 hw]
      exact ⟨_, rfl, by simp⟩
    · rw [List.mem_singleton.1 hw] at hx
      rw [List.mem_singleton.1 hu] at hz
      simp only [Option.getD_some, List.mem_singleton] at hx hz
      rw [hx, hz]
  · have hk : o.lex ∈ [7, 8] := by
      simp only [txConds, List.mem_cons, List.not_mem_nil, or_false] at hc
      rcases hc with rfl | rfl
      · simp only [operands, List.cons_append, List.nil_append, List.mem_cons, List.not_mem_nil, or_false] at ho
        rcases ho with rfl | rfl
        · cases hp
        · simp
      · simp only [operands, List.mem_singleton] at ho
        subst ho; simp
    have := h o.lex hk
    rw [hatt c hc] at ht
    rw [show (txClass.build o.lex) = o.lex from rfl] at ht
    rw [ht] at this
    cases this

end Rum.Props.TextTable

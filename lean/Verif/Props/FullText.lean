import Verif.FullText
import Verif.Props.Query
import Verif.Props.TsQuery
/-!
# C51, C52: full-text search through the index returns exactly the documents that match
-/
namespace Rum.Props.FullText
open Rum Rum.Codec Rum.Leaf Rum.Entry Rum.Tree Rum.Index Rum.Extract Rum.Props Rum.Props.PostingTree Rum.Props.Index Rum.Props.IndexVacuum
  Rum.Props.ScanRegular Rum.Props.Query Rum.Props.Bulk Rum.Scan Rum.Pos Rum.Ts Rum.FullText Std

variable {L V : Type}

/-! ### Specification -/

/-- The operand stands for the word: it is the word, or the word begins with it. -/
def Stands (begins : L → L → Prop) (o : Opnd L) (w : L) : Prop := if o.pre then begins o.lex w else w = o.lex

open Classical in
/-- Where the words an operand stands for occur in a document. -/
noncomputable def occ (begins : L → L → Prop) (v : TsVector L) (o : Opnd L) : Occ :=
  if ∀ w ∈ v, ¬ Stands begins o w.1 then .absent
  else if ∃ w ∈ v, Stands begins o w.1 ∧ w.2 = none then .noPos
  else .at ((v.filter (fun w => Stands begins o w.1)).flatMap (fun w => w.2.getD []))

/-- A tsvector as PostgreSQL keeps it, all positions at most `P`. -/
structure VecOK (P : Nat) (v : TsVector L) : Prop where
  words : (v.map Prod.fst).Nodup
  positions : ∀ w ∈ v, ∀ ps, w.2 = some ps → PosList ps ∧ ∀ x ∈ ps, 1 ≤ wepPos x ∧ wepPos x ≤ P

/-- The row's document (`none`: NULL) matches the query. -/
def DocMatches (unk : Opnd L → Nat → Prop) (begins : L → L → Prop) (doc : Option (TsVector L)) (q : Query (Opnd L)) : Prop :=
  ∃ v, doc = some v ∧ Matches unk (occ begins v) q

/-- The right answer to `column @@ q` over a table with rows `rs` whose documents are `vec`: the scan ends; no row is returned twice; every row
whose document matches is returned; every row returned is in the table, and its document matches unless the executor is told to check it.
`positions` says that the index keeps positions; then the executor has nothing to check if all words of all documents have positions and no word
restricted to some weights is negated. -/
structure FtAnswer (unk : Opnd L → Nat → Prop) (begins : L → L → Prop) (vec : Row V → Option (TsVector L)) (rs : List (Row V)) (q : Query (Opnd L))
    (positions : Bool) (out : List (Item Datum × Bool) × Bool) : Prop where
  ends : out.2 = true
  once : (out.1.map (fun p => p.1.iptr)).Nodup
  complete : ∀ r ∈ rs, DocMatches unk begins (vec r) q → ∃ p ∈ out.1, p.1.iptr = r.tid
  sound : ∀ p ∈ out.1, ∃ r ∈ rs, r.tid = p.1.iptr ∧ (p.2 = false → DocMatches unk begins (vec r) q)
  unchecked : positions = true → (∀ r ∈ rs, ∀ v, vec r = some v → ∀ w ∈ v, w.2 ≠ none) → NoWeightUnderNot false q → ∀ p ∈ out.1, p.2 = false

/-- The column holds the documents, extracted by `build` with positions in the form of the attribute `attr`. -/
def Documents (build : L → V) (attr : Attr) (a : Nat) (P : Nat) (vec : Row V → Option (TsVector L)) (rs : List (Row V)) : Prop :=
  ∀ r ∈ rs, r.value a = (vec r).map (extractTsvector build attr) ∧ ∀ v, vec r = some v → VecOK P v

/-- No two different words among those of the documents and of the query give the same key. -/
def NoCollision (cmpK : V → V → Ordering) (build : L → V) (vec : Row V → Option (TsVector L)) (rs : List (Row V)) (q : Query (Opnd L)) : Prop :=
  ∀ r ∈ rs, ∀ v, vec r = some v → ∀ w ∈ v, ∀ o ∈ operands q, cmpK (build w.1) (build o.lex) = .eq → w.1 = o.lex

/-- A sorting function for operands. -/
def SortsOpnds (cmpL : L → L → Ordering) (sort : List (Opnd L) → List (Opnd L)) : Prop :=
  ∀ l, (sort l).Perm l ∧ (sort l).Pairwise (fun a b => (cmpL a.lex b.lex).isLE = true)

/-- A query the theorems cover: no prefix operands, some word must occur, positions and distances in range. -/
structure QueryOK (P : Nat) (q : Query (Opnd L)) : Prop where
  exact_ : ∀ o ∈ operands q, o.pre = false
  needs : requiresMatch q = true
  range : P + q.dist < 2 ^ 14

/-! ### Proof apparatus -/

section
variable {O : Type}

theorem phrase_congr {noPos : Bool} {f g : O → Nat → TV × PData} (q : Query O) (h : ∀ o ∈ operands q, ∀ w, f o w = g o w) :
    phraseExec noPos f q = phraseExec noPos g q := by
  induction q with
  | val o w => exact h o (by simp [operands]) w
  | not q ih => simp only [phraseExec, ih h]
  | and l r hl hr | or l r hl hr | phrase d l r hl hr =>
    simp only [phraseExec, hl (fun o ho => h o (by simp [operands, ho])), hr (fun o ho => h o (by simp [operands, ho]))]

theorem execute_congr {noPos : Bool} {f g : O → Nat → TV × PData} {f' g' : O → Nat → TV} (q : Query O) :
    ∀ inNeg, (∀ o ∈ operands q, ∀ w, f o w = g o w) → (∀ o ∈ operands q, ∀ w, f' o w = g' o w) → execute noPos f f' inNeg q = execute noPos g g' inNeg q := by
  induction q with
  | val o w => intro b _ h; simp only [execute, h o (by simp [operands]) w]
  | not q ih => intro b h h'; simp only [execute, ih true h h']
  | and l r hl hr | or l r hl hr =>
    intro b h h'
    simp only [execute, hl b (fun o ho => h o (by simp [operands, ho])) (fun o ho => h' o (by simp [operands, ho])),
      hr b (fun o ho => h o (by simp [operands, ho])) (fun o ho => h' o (by simp [operands, ho]))]
  | phrase d l r _ _ =>
    intro b h h'
    have := phrase_congr (noPos := noPos) (.phrase d l r) h
    simp only [execute, this]

/-- Without any of its words a query that requires a match is rejected. -/
theorem absent_phrase {noPos ts : Bool} {e : O → Stored} (q : Query O) (hq : requiresMatch q = true) (h : ∀ o ∈ operands q, e o = .absent) :
    (phraseExec noPos (fun o w => chkPhrase ts (e o) w) q).1 = .no := by
  induction q with
  | val o w => simp [phraseExec, h o (by simp [operands]), chkPhrase]
  | not q ih => simp [requiresMatch] at hq
  | and l r hl hr | phrase d l r hl hr =>
    simp only [requiresMatch, Bool.or_eq_true] at hq
    simp only [phraseExec]
    rcases hq with hq | hq
    · rw [if_pos (hl hq (fun o ho => h o (by simp [operands, ho])))]
    · by_cases h1 : (phraseExec noPos (fun o w => chkPhrase ts (e o) w) l).1 = .no
      · rw [if_pos h1]
      · rw [if_neg h1, if_pos (hr hq (fun o ho => h o (by simp [operands, ho])))]
  | or l r hl hr =>
    simp only [requiresMatch, Bool.and_eq_true] at hq
    simp only [phraseExec]
    rw [if_pos ⟨hl hq.1 (fun o ho => h o (by simp [operands, ho])), hr hq.2 (fun o ho => h o (by simp [operands, ho]))⟩]

theorem absent_execute {noPos ts : Bool} {e : O → Stored} (q : Query O) (hq : requiresMatch q = true) (h : ∀ o ∈ operands q, e o = .absent) :
    execute noPos (fun o w => chkPhrase ts (e o) w) (fun o w => chkPlain ts (e o) w) false q = .no := by
  induction q with
  | val o w => simp [execute, h o (by simp [operands]), chkPlain]
  | not q ih => simp [requiresMatch] at hq
  | and l r hl hr =>
    simp only [requiresMatch, Bool.or_eq_true] at hq
    simp only [execute]
    rcases hq with hq | hq
    · rw [if_pos (hl hq (fun o ho => h o (by simp [operands, ho])))]
    · rw [hr hq (fun o ho => h o (by simp [operands, ho]))]; simp
  | or l r hl hr =>
    simp only [requiresMatch, Bool.and_eq_true] at hq
    simp only [execute]
    rw [hl hq.1 (fun o ho => h o (by simp [operands, ho])), hr hq.2 (fun o ho => h o (by simp [operands, ho]))]
    simp
  | phrase d l r _ _ =>
    have := absent_phrase (noPos := noPos) (ts := ts) (.phrase d l r) hq h
    simp only [execute, this]

theorem prePhrase_ne (q : Query O) : prePhrase q ≠ .no := by
  induction q with
  | val => simp [prePhrase]
  | not => simp [prePhrase]
  | phrase d l r hl hr => simp only [prePhrase]; simp [hl, hr]; split <;> simp
  | and l r hl hr => simp only [prePhrase]; simp [hl, hr]; split <;> simp
  | or l r hl hr => simp only [prePhrase]; simp [hl]; split <;> simp

/-- What the pre-check rejects, the check rejects. -/
theorem pre_execute {noPos ts : Bool} {e : O → Stored} {check : O → Bool} (h : ∀ o, e o ≠ .absent → check o = true) (q : Query O) :
    ∀ rc, (preExec check rc q).1 = .no →
      execute noPos (fun o w => chkPhrase ts (e o) w) (fun o w => chkPlain ts (e o) w) false q = .no := by
  induction q with
  | val o w =>
    intro rc hp
    simp only [preExec] at hp
    split at hp
    · cases hp
    · split at hp
      · cases hp
      · next hck =>
        have : e o = .absent := by
          by_cases h' : e o = .absent
          · exact h'
          · exact absurd (h o h') hck
        simp [execute, this, chkPlain]
  | not q ih => intro rc hp; simp [preExec] at hp
  | and l r hl hr =>
    intro rc hp
    simp only [preExec] at hp
    simp only [execute]
    split at hp
    · next h1 => rw [if_pos (hl rc h1)]
    · next h1 =>
      simp only at hp
      split at hp
      · next h2 => rw [hr _ h2]; simp
      · exact absurd hp h1
      · cases hp
  | or l r hl hr =>
    intro rc hp
    simp only [preExec] at hp
    simp only [execute]
    split at hp
    · cases hp
    · simp only at hp
      split at hp
      · next h2 => rw [hl rc hp, hr _ h2]; simp
      · cases hp
      · cases hp
  | phrase d l r _ _ => intro rc hp; exact absurd hp (prePhrase_ne _)
end

section
variable {cmpL : L → L → Ordering} [TransCmp cmpL] [LawfulEqCmp cmpL] {sort : List (Opnd L) → List (Opnd L)}

theorem uniqLoop_cover {α : Type} {cmp : α → α → Ordering} [TransCmp cmp] (l : List α) : ∀ a x, x = a ∨ x ∈ l → ∃ y ∈ uniqLoop cmp a l, cmp y x = .eq := by
  induction l with
  | nil => intro a x h; simp at h; exact ⟨a, by simp [uniqLoop], h ▸ ReflCmp.compare_self⟩
  | cons b l ih =>
    intro a x h
    rw [uniqLoop]
    split
    · rcases h with rfl | h
      · exact ⟨x, by simp, ReflCmp.compare_self⟩
      · obtain ⟨y, hy, e⟩ := ih b x (by simpa using h)
        exact ⟨y, List.mem_cons_of_mem _ hy, e⟩
    · next hne =>
      simp only [ne_eq, Classical.not_not] at hne
      rcases h with rfl | h
      · exact ih x x (Or.inl rfl)
      · rcases List.mem_cons.1 h with rfl | h
        · obtain ⟨y, hy, e⟩ := ih a a (Or.inl rfl)
          exact ⟨y, hy, TransCmp.eq_trans e (OrientedCmp.eq_symm hne)⟩
        · exact ih a x (Or.inr h)

theorem uniqLoop_sub {α : Type} {cmp : α → α → Ordering} (l : List α) : ∀ a x, x ∈ uniqLoop cmp a l → x = a ∨ x ∈ l := by
  induction l with
  | nil => intro a x h; simp [uniqLoop] at h; exact Or.inl h
  | cons b l ih =>
    intro a x h
    rw [uniqLoop] at h
    split at h
    · rcases List.mem_cons.1 h with rfl | h
      · exact Or.inl rfl
      · rcases ih b x h with rfl | h <;> simp_all
    · rcases ih a x h with rfl | h <;> simp_all

instance : TransCmp (cmpOpnd cmpL) where
  eq_swap := OrientedCmp.eq_swap (cmp := cmpL)
  isLE_trans := TransCmp.isLE_trans (cmp := cmpL)

omit [TransCmp cmpL] [LawfulEqCmp cmpL] in
theorem mem_of_sortAndUniq (hs : SortsOpnds cmpL sort) {q : Query (Opnd L)} {o : Opnd L} (ho : o ∈ sortAndUniq cmpL sort q) : o ∈ operands q := by
  rw [← (hs (operands q)).1.mem_iff]
  unfold sortAndUniq at ho
  cases h : sort (operands q) with
  | nil => simp only [h, uniq] at ho; cases ho
  | cons a l =>
    simp only [h, uniq] at ho
    simpa using uniqLoop_sub l a o ho

/-- Every operand has its entry: the one with its lexeme. -/
theorem mapItem_ok (hs : SortsOpnds cmpL sort) {q : Query (Opnd L)} {o : Opnd L} (ho : o ∈ operands q) :
    ∃ j p, mapItem cmpL (sortAndUniq cmpL sort q) o = some j ∧ (sortAndUniq cmpL sort q)[j]? = some p ∧ p.lex = o.lex ∧ p ∈ operands q := by
  have ho' : o ∈ sort (operands q) := (hs (operands q)).1.mem_iff.2 ho
  have hcov : ∃ y ∈ sortAndUniq cmpL sort q, cmpOpnd cmpL y o = .eq := by
    unfold sortAndUniq
    cases h : sort (operands q) with
    | nil => rw [h] at ho'; simp at ho'
    | cons a l => rw [h] at ho'; exact uniqLoop_cover l a o (by simpa using ho')
  obtain ⟨y, hy, he⟩ := hcov
  have hsome : (mapItem cmpL (sortAndUniq cmpL sort q) o).isSome = true := by
    unfold mapItem
    rw [List.findIdx?_isSome, List.any_eq_true]
    exact ⟨y, hy, by simp [he]⟩
  obtain ⟨j, hj⟩ := Option.isSome_iff_exists.1 hsome
  have hj' := hj
  unfold mapItem at hj'
  rw [List.findIdx?_eq_some_iff_getElem] at hj'
  obtain ⟨h1, h2, -⟩ := hj'
  refine ⟨j, (sortAndUniq cmpL sort q)[j], hj, List.getElem?_eq_getElem h1, LawfulEqCmp.eq_of_compare (cmp := cmpL) (by simpa [cmpOpnd] using h2), ?_⟩
  rw [← (hs (operands q)).1.mem_iff]
  have := List.getElem_mem h1
  generalize (sortAndUniq cmpL sort q)[j] = z at this ⊢
  unfold sortAndUniq at this
  cases h : sort (operands q) with
  | nil => simp only [h, uniq] at this; cases this
  | cons a l =>
    simp only [h, uniq] at this
    simpa using uniqLoop_sub l a z this
end

section
variable {begins : L → L → Prop}

/-- An exact operand: the occurrence of its lexeme. -/
theorem occ_exact {P : Nat} {v : TsVector L} (hv : VecOK P v) {o : Opnd L} (ho : o.pre = false) :
    (occ begins v o = .absent ∧ ∀ w ∈ v, w.1 ≠ o.lex) ∨
    ∃ w ∈ v, w.1 = o.lex ∧ ((w.2 = none ∧ occ begins v o = .noPos) ∨ ∃ ps, w.2 = some ps ∧ occ begins v o = .at ps) := by
  have hst : ∀ w, Stands begins o w ↔ w = o.lex := fun w => by simp [Stands, ho]
  unfold occ
  by_cases h : ∀ w ∈ v, ¬ Stands begins o w.1
  · exact Or.inl ⟨by rw [if_pos h], fun w hw hl => h w hw ((hst _).2 hl)⟩
  · have h' := h
    simp only [hst]  at h'
    simp only [not_forall, Classical.not_not] at h'
    obtain ⟨w, hw, he⟩ := h'
    refine Or.inr ⟨w, hw, he, ?_⟩
    rw [if_neg h]
    have huniq : ∀ u ∈ v, u.1 = o.lex → u = w := fun u hu hl => List.inj_on_of_nodup_map hv.words hu hw (hl.trans he.symm)
    cases hp : w.2 with
    | none => exact Or.inl ⟨rfl, by rw [if_pos ⟨w, hw, (hst _).2 he, hp⟩]⟩
    | some ps =>
      refine Or.inr ⟨ps, rfl, ?_⟩
      rw [if_neg (by rintro ⟨u, hu, hl, hn⟩; rw [huniq u hu ((hst _).1 hl), hp] at hn; cases hn)]
      congr 1
      have hnd : v.Nodup := List.Nodup.of_map _ hv.words
      obtain ⟨A, B, hAB⟩ := List.append_of_mem hw
      subst hAB
      have hA : ∀ l : TsVector L, (∀ u ∈ l, u.1 ≠ o.lex) → l.filter (fun w => @decide (w.1 = o.lex) (Classical.propDecidable _)) = [] := by
        intro l hl
        rw [List.filter_eq_nil_iff]
        intro u hu
        simpa using hl u hu
      have hne : ∀ u ∈ A ++ B, u.1 ≠ o.lex := by
        intro u hu hl
        have := huniq u (by rcases List.mem_append.1 hu with h | h <;> simp [h]) hl
        subst this
        rw [List.nodup_append] at hnd
        rcases List.mem_append.1 hu with h | h
        · exact hnd.2.2 u h u (by simp) rfl
        · exact (List.nodup_cons.1 hnd.2.1).1 h
      have e1 := hA A (fun u hu => hne u (List.mem_append_left _ hu))
      have e2 := hA B (fun u hu => hne u (List.mem_append_right _ hu))
      rw [List.filter_congr (q := fun w => @decide (w.1 = o.lex) (Classical.propDecidable _)) (fun u _ => decide_eq_decide.2 (hst u.1)),
        List.filter_append, e1, List.filter_cons_of_pos (by simpa using he), e2]
      simp [hp]
end

theorem dataBytes_stored (a : Attr) (p : List Nat) : dataBytes (Datum.stored a (.varlena .full p)) = p := by
  unfold Datum.stored
  simp only
  split <;> rfl

theorem sem_congr {O : Type} {d d' : O → Occ} (q : Query O) (h : ∀ o ∈ operands q, d o = d' o) : sem d q = sem d' q := by
  induction q with
  | val o w => simp only [sem, h o (by simp [operands])]
  | not q ih => simp only [sem, ih h]
  | and l r hl hr | or l r hl hr | phrase k l r hl hr =>
    have h1 := hl (fun o ho => h o (by simp [operands, ho]))
    have h2 := hr (fun o ho => h o (by simp [operands, ho]))
    unfold sem
    rw [h1, h2]

theorem matches_congr {O : Type} (unk : O → Nat → Prop) {d d' : O → Occ} (q : Query O) (h : ∀ o ∈ operands q, d o = d' o) :
    Matches unk d q = Matches unk d' q := by
  induction q with
  | val o w => simp only [Ts.Matches, h o (by simp [operands])]
  | not q ih => simp only [Ts.Matches, ih h]
  | and l r hl hr | or l r hl hr =>
    simp only [Ts.Matches, hl (fun o ho => h o (by simp [operands, ho])), hr (fun o ho => h o (by simp [operands, ho]))]
  | phrase k l r _ _ => simp only [Ts.Matches, sem_congr (.phrase k l r) h]

section
variable {begins : L → L → Prop} {cmpL : L → L → Ordering} [TransCmp cmpL] [LawfulEqCmp cmpL] {sort : List (Opnd L) → List (Opnd L)}
  {build : L → V} {attr : Attr} {a P : Nat}

/-- What the scan found for an operand, given a truthful view of the row. -/
theorem entry_view (hs : SortsOpnds cmpL sort) {ix : Ix V} {rc : RowCfg V} (hK : TransCmp (ix.cmpK a)) {r : Row V} {q : Query (Opnd L)} {c : Cond V}
    (hca : c.attnum = a) (hck : c.keys = (sortAndUniq cmpL sort q).map (fun o => build o.lex)) {vw : List (Option (Option Datum))}
    (hv : View ix rc r c vw) {v : TsVector L} (hval : r.value a = some (extractTsvector build attr v))
    (hcoll : ∀ w ∈ v, ∀ o ∈ operands q, ix.cmpK a (build w.1) (build o.lex) = .eq → w.1 = o.lex) {o : Opnd L} (ho : o ∈ operands q) :
    (entryOf cmpL (sortAndUniq cmpL sort q) vw o = .absent ∧ ∀ w ∈ v, w.1 ≠ o.lex) ∨
    ∃ i, entryOf cmpL (sortAndUniq cmpL sort q) vw o = found (some i) ∧ (∃ w ∈ v, w.1 = o.lex) ∧ some i ∈ vw ∧
      (rc.addTo ≠ some a → ∃ w ∈ v, w.1 = o.lex ∧ i = w.2.map (fun ps => Datum.stored attr (.varlena .full (compressPos 0 ps)))) ∧
      (rc.addTo = some a → i = r.outer) := by
  obtain ⟨j, p, h1, h2, h3, h4⟩ := mapItem_ok hs ho
  unfold View at hv
  rw [List.forall₂_iff_get] at hv
  obtain ⟨hlen, hget⟩ := hv
  have hj : j < (sortAndUniq cmpL sort q).length := (List.getElem?_eq_some_iff.1 h2).1
  have hj1 : j < c.keys.length := by rw [hck, List.length_map]; exact hj
  have hj2 : j < vw.length := by rw [← hlen]; exact hj1
  have hg := hget j hj1 hj2
  have hkey : c.keys.get ⟨j, hj1⟩ = build o.lex := by
    have h5 : c.keys[j]? = some (build p.lex) := by rw [hck, List.getElem?_map, h2]; rfl
    rw [List.getElem?_eq_getElem hj1] at h5
    rw [← h3]
    exact Option.some.inj h5
  rw [hkey, hca] at hg
  have hent : entryOf cmpL (sortAndUniq cmpL sort q) vw o = found (vw.get ⟨j, hj2⟩) := by
    unfold entryOf
    rw [h1, Option.bind_some, List.getElem?_eq_getElem hj2]
    rfl
  have hmem : vw.get ⟨j, hj2⟩ ∈ vw := List.get_mem _ _
  generalize vw.get ⟨j, hj2⟩ = x at hg hent hmem
  have hcon : Contains (ix.cmpK a) (r.value a) ⟨a, .norm, build o.lex⟩ ↔ ∃ w ∈ v, w.1 = o.lex := by
    rw [hval]
    unfold Contains
    simp only
    constructor
    · rintro ⟨raws, he, x, hx, y, hy, hc⟩
      simp only [Option.some.injEq] at he
      subst he
      obtain ⟨w, hw, rfl⟩ := List.mem_map.1 hx
      simp only [Option.some.injEq] at hy
      subst hy
      exact ⟨w, hw, hcoll w hw o ho hc⟩
    · rintro ⟨w, hw, he⟩
      exact ⟨_, rfl, _, List.mem_map_of_mem hw, build w.1, rfl, by rw [he]; exact ReflCmp.compare_self (cmp := ix.cmpK a)⟩
  cases x with
  | none =>
    simp only at hg
    refine Or.inl ⟨hent, fun w hw he => hg (hcon.2 ⟨w, hw, he⟩)⟩
  | some i =>
    simp only at hg
    refine Or.inr ⟨i, hent, hcon.1 hg.1, hmem, fun hadd => ?_, fun hadd => ?_⟩
    · have hi := hg.2
      unfold InfoOf at hi
      rw [if_neg hadd] at hi
      simp only [hval] at hi
      cases hex : extractTsvector build attr v with
      | nil =>
        obtain ⟨w, hw, -⟩ := hcon.1 hg.1
        have := List.mem_map_of_mem (f := fun w : L × Option (List Nat) => (⟨some (build w.1), w.2.map (fun ps => Datum.stored attr (.varlena .full (compressPos 0 ps)))⟩ : Raw V Datum)) hw
        unfold extractTsvector at hex
        rw [hex] at this
        cases this
      | cons raw raws =>
        simp only [hex] at hi
        obtain ⟨z, hz, rfl, hh⟩ := hi
        rw [← hex] at hz
        obtain ⟨w, hw, rfl⟩ := List.mem_map.1 hz
        rcases hh with ⟨h, -⟩ | ⟨-, y, hy, hc⟩
        · cases h
        · simp only [Option.some.injEq] at hy
          subst hy
          exact ⟨w, hw, hcoll w hw o ho hc, rfl⟩
    · have hi := hg.2
      unfold InfoOf at hi
      rw [if_pos hadd] at hi
      exact hi

/-- A column whose value is NULL shows no keys. -/
theorem null_view {ix : Ix V} {rc : RowCfg V} {r : Row V} {c : Cond V} {vw : List (Option (Option Datum))} (hv : View ix rc r c vw)
    (hval : r.value c.attnum = none) : ∀ x ∈ vw, x = none := by
  unfold View at hv
  generalize c.keys = ks at hv
  induction hv with
  | nil => simp
  | @cons k x ks vs h _ ih =>
    intro y hy
    rcases List.mem_cons.1 hy with rfl | hy
    · cases y with
      | none => rfl
      | some i =>
        have := h.1
        rw [hval] at this
        obtain ⟨raws, he, -⟩ := this
        cases he
    · exact ih y hy

/-- The answer of the scan is the right answer. -/
theorem answer_ft (unk : Opnd L → Nat → Prop) (begins : L → L → Prop) (hs : SortsOpnds cmpL sort) {ix : Ix V} {rc : RowCfg V} (hK : TransCmp (ix.cmpK a))
    {rs : List (Row V)} {vec : Row V → Option (TsVector L)} (hdoc : Documents build attr a P vec rs) {q : Query (Opnd L)} (hq : QueryOK P q)
    (hcoll : NoCollision (ix.cmpK a) build vec rs q) {c : Cond V} (hca : c.attnum = a) (hck : c.keys = (sortAndUniq cmpL sort q).map (fun o => build o.lex))
    (ts : Bool) (hcons : ∀ v, c.cons v = finish (execute ts (fun o w => chkPhrase ts (entryOf cmpL (sortAndUniq cmpL sort q) v o) w)
      (fun o w => chkPlain ts (entryOf cmpL (sortAndUniq cmpL sort q) v o) w) false q))
    (hts : ts = false → rc.addTo ≠ some a) {view : Row V → Cond V → List (Option (Option Datum))} (hview : ∀ r ∈ rs, View ix rc r c (view r c))
    {cmp : Item Datum → Item Datum → Ordering} {out : List (Item Datum × Bool) × Bool} (hA : Answer cmp view rs [c] out) :
    FtAnswer unk begins vec rs q (!ts) out := by
  -- the view of a row with a document
  have hdoc' : ∀ r ∈ rs, ∀ v, vec r = some v → c.cons (view r c) = finish (execute ts (fun o w => chkPhrase ts (stored (occ begins v o)) w)
      (fun o w => chkPlain ts (stored (occ begins v o)) w) false q) := by
    intro r hr v hv
    rw [hcons]
    have hval : r.value a = some (extractTsvector build attr v) := by rw [(hdoc r hr).1, hv]; rfl
    have hpt : ∀ o ∈ operands q, ∀ w, chkPhrase ts (entryOf cmpL (sortAndUniq cmpL sort q) (view r c) o) w = chkPhrase ts (stored (occ begins v o)) w ∧
        chkPlain ts (entryOf cmpL (sortAndUniq cmpL sort q) (view r c) o) w = chkPlain ts (stored (occ begins v o)) w := by
      intro o ho w
      have hocc := occ_exact (begins := begins) ((hdoc r hr).2 v hv) (hq.exact_ o ho)
      rcases entry_view hs hK hca hck (hview r hr) hval (hcoll r hr v hv) ho with ⟨h1, h2⟩ | ⟨i, h1, ⟨u, hu, hul⟩, -, h2, h3⟩
      · rcases hocc with ⟨h3, -⟩ | ⟨u, hu, hul, -⟩
        · rw [h1, h3]; exact ⟨rfl, rfl⟩
        · exact absurd hul (h2 u hu)
      · rcases hocc with ⟨-, h4⟩ | ⟨z, hz, hzl, hz2⟩
        · exact absurd hul (h4 u hu)
        · cases ts with
          | false =>
            obtain ⟨y, hy, hyl, rfl⟩ := h2 (hts rfl)
            obtain rfl := List.inj_on_of_nodup_map ((hdoc r hr).2 v hv).words hy hz (hyl.trans hzl.symm)
            rcases hz2 with ⟨hn, h5⟩ | ⟨ps, hn, h5⟩
            · rw [h1, h5, hn]; exact ⟨rfl, rfl⟩
            · rw [h1, h5, hn]
              simp only [found, Option.map_some, dataBytes_stored, stored]
              exact ⟨trivial, trivial⟩
          | true =>
            have e1 : chkPhrase true (entryOf cmpL (sortAndUniq cmpL sort q) (view r c) o) w = (.maybe, {}) ∧
                chkPlain true (entryOf cmpL (sortAndUniq cmpL sort q) (view r c) o) w = .maybe := by
              rw [h1]
              cases i with
              | none => exact ⟨rfl, rfl⟩
              | some d => exact ⟨rfl, rfl⟩
            rw [e1.1, e1.2]
            rcases hz2 with ⟨-, h5⟩ | ⟨ps, -, h5⟩
            · rw [h5]; exact ⟨rfl, rfl⟩
            · rw [h5]; exact ⟨rfl, rfl⟩
    rw [execute_congr q false (fun o ho w => (hpt o ho w).1) (fun o ho w => (hpt o ho w).2)]
  have hagree : ∀ r ∈ rs, ∀ v, vec r = some v → (Matches unk (occ begins v) q → (c.cons (view r c)).1 = true) ∧
      (c.cons (view r c) = (true, false) → Matches unk (occ begins v) q) ∧
      (ts = false → (∀ w ∈ v, w.2 ≠ none) → NoWeightUnderNot false q → (c.cons (view r c)).2 = false) := by
    intro r hr v hv
    rw [hdoc' r hr v hv]
    -- exact operands only
    obtain ⟨doc, hd1, hd2, hd3⟩ : ∃ doc : Opnd L → Occ, DocOK P doc ∧ (∀ o ∈ operands q, occ begins v o = doc o) ∧
        ((∀ w ∈ v, w.2 ≠ none) → ∀ o, doc o ≠ .noPos) := by
      refine ⟨fun o => if o.pre = false then occ begins v o else .absent, fun o ps h => ?_, fun o ho => by simp only [hq.exact_ o ho, if_true], fun hall o hno => ?_⟩
      swap
      · simp only at hno
        split at hno
        · next hp =>
          rcases occ_exact (begins := begins) ((hdoc r hr).2 v hv) hp with ⟨h1, -⟩ | ⟨w, hw, -, ⟨h2, h1⟩ | ⟨ps', h2, h1⟩⟩
          · rw [h1] at hno; cases hno
          · exact hall w hw h2
          · rw [h1] at hno; cases hno
        · cases hno
      simp only at h
      split at h
      · next hp =>
        rcases occ_exact (begins := begins) ((hdoc r hr).2 v hv) hp with ⟨h1, -⟩ | ⟨w, hw, -, ⟨-, h1⟩ | ⟨ps', h2, h1⟩⟩
        · rw [h1] at h; cases h
        · rw [h1] at h; cases h
        · rw [h1] at h
          cases h
          exact ((hdoc r hr).2 v hv).positions w hw ps h2
      · cases h
    rw [matches_congr unk q hd2, execute_congr (f := fun o w => chkPhrase ts (stored (occ begins v o)) w) (g := fun o w => chkPhrase ts (stored (doc o)) w)
      (f' := fun o w => chkPlain ts (stored (occ begins v o)) w) (g' := fun o w => chkPlain ts (stored (doc o)) w) q false
      (fun o ho w => by simp only [hd2 o ho]) (fun o ho w => by simp only [hd2 o ho])]
    cases ts with
    | false =>
      have h := C25_search_agrees unk P doc q hd1 hq.range
      exact ⟨h.1, h.2, fun _ h3 h4 => (C25_search_exact unk P doc q hd1 hq.range (hd3 h3) h4).1⟩
    | true =>
      have h := C25_timestamp_search_agrees unk P doc q hd1 hq.range
      exact ⟨h.1, h.2, fun h => by cases h⟩
  -- acceptance needs a word
  have hneed : ∀ r ∈ rs, (c.cons (view r c)).1 = true → ∃ o ∈ view r c, o.isSome = true := by
    intro r hr h
    by_contra hno
    have hall : ∀ x ∈ view r c, x = none := by
      intro x hx
      cases x with
      | none => rfl
      | some i => exact absurd ⟨some i, hx, rfl⟩ hno
    rw [hcons, absent_execute q hq.needs] at h
    · simp [finish] at h
    · intro o _
      unfold entryOf
      cases mapItem cmpL (sortAndUniq cmpL sort q) o with
      | none => rfl
      | some j =>
        simp only [Option.bind_some]
        cases hj : (view r c)[j]? with
        | none => rfl
        | some x => rw [hall x (List.mem_of_getElem? hj)]; rfl
  refine ⟨hA.ends, hA.once, fun r hr hm => ?_, fun p hp => ?_, fun hpos hall hw p hp => ?_⟩
  · obtain ⟨v, hv, hm⟩ := hm
    refine (hA.rows r.tid).2 ⟨r, hr, rfl, ?_⟩
    simp only [List.mem_singleton, forall_eq]
    have := (hagree r hr v hv).1 hm
    exact ⟨hneed r hr this, this⟩
  · obtain ⟨r, hr, hrt, hacc⟩ := (hA.rows p.1.iptr).1 ⟨p, hp, rfl⟩
    simp only [List.mem_singleton, forall_eq] at hacc
    refine ⟨r, hr, hrt, fun hrec => ?_⟩
    have h2 := (hA.recheck p hp r hr hrt)
    rw [hrec] at h2
    simp only [Bool.false_eq_true, false_iff, List.mem_singleton, exists_eq_left, Bool.not_eq_true] at h2
    cases hv : vec r with
    | none =>
      have hval : r.value c.attnum = none := by rw [hca, (hdoc r hr).1, hv]; rfl
      obtain ⟨x, hx, hs⟩ := hacc.1
      rw [null_view (hview r hr) hval x hx] at hs
      cases hs
    | some v => exact ⟨v, rfl, (hagree r hr v hv).2.1 (Prod.ext hacc.2 h2)⟩
  · obtain ⟨r, hr, hrt, hacc⟩ := (hA.rows p.1.iptr).1 ⟨p, hp, rfl⟩
    simp only [List.mem_singleton, forall_eq] at hacc
    have h2 := (hA.recheck p hp r hr hrt)
    simp only [List.mem_singleton, exists_eq_left] at h2
    cases hv : vec r with
    | none =>
      have hval : r.value c.attnum = none := by rw [hca, (hdoc r hr).1, hv]; rfl
      obtain ⟨x, hx, hs⟩ := hacc.1
      rw [null_view (hview r hr) hval x hx] at hs
      cases hs
    | some v =>
      have h3 := (hagree r hr v hv).2.2 (by simpa using hpos) (hall r hr v hv) hw
      rw [h3] at h2
      cases hp2 : p.2 with
      | false => rfl
      | true => exact absurd (h2.1 hp2) (by simp)
end

/-! ### Properties -/

/-- Searches for `column @@ q` by a condition `c`, by a regular scan and by a fast scan, give the right answer. `n` is a bound on the number of steps
the scans are given; `predict` and `perm` are the choices of the fast scan. -/
def FtSearches (ix : Ix V) [Inhabited V] (rc : RowCfg V) (alternative vacuumed : Bool) (st : State V) (rs : List (Row V)) (c : Cond V)
    (right : List (Item Datum × Bool) × Bool → Prop) : Prop :=
  FirstPages ix vacuumed st [c] → ∀ junk n, rs.length * (c.keys.length + 1) < n →
    (∃ out, ix.search rc alternative st junk n c [] = some out ∧ right out) ∧
    ∀ predict perm, (∀ ks, ix.scanKeys rc st junk n [c] = some ks → Fast.SortResult (Fast.mkEnv (fun _ => (ix.ctx c.attnum).cmp) predict ks) ks perm) →
      ∃ out, ix.searchFast rc st junk n c predict perm = some out ∧ right out

section
variable {cmpL : L → L → Ordering} [TransCmp cmpL] [LawfulEqCmp cmpL] {sort : List (Opnd L) → List (Opnd L)}
  {build : L → V} {attr : Attr} {a P : Nat}

omit [TransCmp cmpL] [LawfulEqCmp cmpL] in
theorem entryOf_none (ops : List (Opnd L)) (m : Nat) (o : Opnd L) : entryOf cmpL ops (List.replicate m none) o = .absent := by
  unfold entryOf
  cases mapItem cmpL ops o with
  | none => rfl
  | some j =>
    simp only [Option.bind_some, List.getElem?_replicate]
    split <;> rfl

omit [TransCmp cmpL] [LawfulEqCmp cmpL] in
theorem entryOf_check (ops : List (Opnd L)) {v : List (Option (Option Datum))} {b : List Bool}
    (h : List.Forall₂ (fun x y => x.isSome = true → y = true) v b) (o : Opnd L) (hne : entryOf cmpL ops v o ≠ .absent) : checkOf cmpL ops b o = true := by
  unfold entryOf at hne
  unfold checkOf
  cases hm : mapItem cmpL ops o with
  | none => simp [hm, found] at hne
  | some j =>
    simp only [hm, Option.bind_some] at hne ⊢
    rw [List.forall₂_iff_get] at h
    by_cases hj : j < v.length
    · have hj' : j < b.length := by rw [← h.1]; exact hj
      have hg := h.2 j hj hj'
      rw [List.getElem?_eq_getElem hj] at hne
      rw [List.getElem?_eq_getElem hj']
      simp only [Option.getD_some] at hne ⊢
      refine hg ?_
      simp only [List.get_eq_getElem]
      cases hx : v[j] with
      | none => rw [hx] at hne; exact absurd rfl hne
      | some i => rfl
    · rw [List.getElem?_eq_none (by omega)] at hne
      exact absurd rfl hne

theorem ft_of_searches (unk : Opnd L → Nat → Prop) (begins : L → L → Prop) (hs : SortsOpnds cmpL sort) {ix : Ix V} [Inhabited V] {rc : RowCfg V}
    (hK : TransCmp (ix.cmpK a)) {rs : List (Row V)} {vec : Row V → Option (TsVector L)} (hdoc : Documents build attr a P vec rs)
    {q : Query (Opnd L)} (hq : QueryOK P q) (hcoll : NoCollision (ix.cmpK a) build vec rs q) (h1 : 1 ≤ a) (h2 : a ≤ rc.natts)
    {alternative vacuumed : Bool} {st : State V} (hS : Searches ix rc alternative vacuumed st rs) :
    (rc.addTo ≠ some a → FtSearches ix rc alternative vacuumed st rs (tsCond build cmpL sort a q) (FtAnswer unk begins vec rs q true)) ∧
    FtSearches ix rc alternative vacuumed st rs (tsAddonCond build cmpL sort a q) (FtAnswer unk begins vec rs q false) := by
  obtain ⟨view, hv, hreg, hfast⟩ := hS
  have hkind : ∀ c : Cond V, OneKind rc alternative [c] := by
    intro c
    by_cases h : rc.addTo = some c.attnum
    · exact Or.inr (Or.inl (by simpa using h))
    · exact Or.inr (Or.inr (by simpa using h))
  have hne : sortAndUniq cmpL sort q ≠ [] := by
    have : ∃ o, o ∈ operands q := by
      clear hq hcoll
      induction q with
      | val o w => exact ⟨o, by simp [operands]⟩
      | not q ih => exact ih
      | and l r hl _ | or l r hl _ | phrase d l r hl _ => obtain ⟨o, ho⟩ := hl; exact ⟨o, by simp [operands, ho]⟩
    obtain ⟨o, ho⟩ := this
    obtain ⟨j, p, -, hj, -⟩ := mapItem_ok (cmpL := cmpL) hs ho
    intro he
    rw [he] at hj
    simp at hj
  have go : ∀ (ts : Bool) (c : Cond V), c.attnum = a → c.keys = (sortAndUniq cmpL sort q).map (fun o => build o.lex) →
      (∀ v, c.cons v = finish (execute ts (fun o w => chkPhrase ts (entryOf cmpL (sortAndUniq cmpL sort q) v o) w)
        (fun o w => chkPlain ts (entryOf cmpL (sortAndUniq cmpL sort q) v o) w) false q)) →
      (∀ v, c.pre v = preConsistent (checkOf cmpL (sortAndUniq cmpL sort q) v) q) → (ts = false → rc.addTo ≠ some a) →
      FtSearches ix rc alternative vacuumed st rs c (FtAnswer unk begins vec rs q (!ts)) := by
    intro ts c hca hck hcons hpre hts hfp junk n hn
    have hcol : ColumnsOK rc [c] := by
      intro d hd
      simp only [List.mem_singleton] at hd
      subst hd
      exact ⟨by omega, by omega⟩
    have hans : ∀ cmp out, Answer cmp view rs [c] out → FtAnswer unk begins vec rs q (!ts) out := fun cmp out hA =>
      answer_ft unk begins hs hK hdoc hq hcoll hca hck ts hcons hts (fun r hr => hv r hr c (by omega) (by omega)) hA
    refine ⟨?_, fun predict perm hp => ?_⟩
    · obtain ⟨out, o1, o2⟩ := hreg c [] hcol (hkind c) hfp junk n (by simpa [keyCount] using hn)
      exact ⟨out, o1, hans _ _ o2⟩
    · obtain ⟨out, o1, o2⟩ := hfast c hcol hfp (fun b hb v hvb => by
          rw [hpre] at hb
          rw [hcons]
          have := pre_execute (noPos := ts) (ts := ts) (fun o => entryOf_check (cmpL := cmpL) (sortAndUniq cmpL sort q) hvb o) q false
            (by simpa [preConsistent] using hb)
          rw [this]; rfl)
        (by
          rw [hcons, absent_execute q hq.needs (fun o _ => entryOf_none _ _ o)]; rfl)
        (by rw [hck]; simpa using hne) predict perm junk n hn hp
      exact ⟨out, o1, hans _ _ o2⟩
  exact ⟨fun hadd => go false _ rfl rfl (fun _ => rfl) (fun _ => rfl) (fun _ => hadd),
    go true _ rfl rfl (fun _ => rfl) (fun _ => rfl) (fun h => by cases h)⟩
end

/-- **C51.** An index on a tsvector column, created on an empty table, after any sequence of insertions and VACUUMs: a search for `column @@ q`, with
AND, OR, NOT, phrases and weights, by a regular or a fast scan, returns every row whose document matches and, without asking for a recheck,
no other; with positions and without weights under NOT it never asks for a recheck. `build` makes keys of words (the word itself in
rum_tsvector_ops); for the operator classes that hash words the claim needs that no two words in play have the same hash (`C52_violated`).
Missing: prefix operands (`C51_prefix_violated`), queries that match documents with none of their words, several conditions (`C50_query_partial`), posting
trees whose leftmost page was emptied by VACUUM (`FirstPages`). -/
theorem C51_fulltext_partial (cmpL : L → L → Ordering) [TransCmp cmpL] [LawfulEqCmp cmpL] (sort : List (Opnd L) → List (Opnd L)) (hsort : SortsOpnds cmpL sort)
    (ix : Ix V) [Inhabited V] (rc : RowCfg V) (alternative : Bool) (n : Nat) (hc : ColsOK ix ⟨n, true⟩) (hal : ∀ k, 8 ∣ ix.keySize k)
    (hs : ∀ a, SortOK (ix.cmpK a) (rc.sort a)) (hd : ∀ a, DupsSeen (ix.cmpK a) (rc.haveDups a)) (ho : OptionsOK ix rc alternative)
    (evs : List (Event V)) (hev : Possible ix rc ⟨n, true⟩ [] evs)
    (build : L → V) (attr : Attr) (a P : Nat) (h1 : 1 ≤ a) (h2 : a ≤ rc.natts) (vec : Row V → Option (TsVector L))
    (hdoc : Documents build attr a P vec (evs.foldl Event.rows [])) (q : Query (Opnd L)) (hq : QueryOK P q)
    (hcoll : NoCollision (ix.cmpK a) build vec (evs.foldl Event.rows []) q) (unk : Opnd L → Nat → Prop) (begins : L → L → Prop) :
    ∃ st, runs ix rc (emptyIndex, true) evs = (st, true) ∧
      (rc.addTo ≠ some a → FtSearches ix rc alternative true st (evs.foldl Event.rows []) (tsCond build cmpL sort a q)
        (FtAnswer unk begins vec (evs.foldl Event.rows []) q true)) ∧
      FtSearches ix rc alternative true st (evs.foldl Event.rows []) (tsAddonCond build cmpL sort a q)
        (FtAnswer unk begins vec (evs.foldl Event.rows []) q false) := by
  obtain ⟨st, h, hS⟩ := C50_query_from_empty_partial ix rc alternative n hc hal hs hd ho evs hev
  exact ⟨st, h, ft_of_searches unk begins hsort (hc.keys a) hdoc hq hcoll h1 h2 hS⟩

/-- **C51, CREATE INDEX and insertions.** The same after CREATE INDEX on a table with any rows and any insertions, without VACUUM; here the position
lists must be short enough to need no alignment (`hn`). -/
theorem C51_fulltext_inserted_partial (cmpL : L → L → Ordering) [TransCmp cmpL] [LawfulEqCmp cmpL] (sort : List (Opnd L) → List (Opnd L))
    (hsort : SortsOpnds cmpL sort) (ix : Ix V) [Inhabited V] (rc : RowCfg V) (alternative : Bool) (M : Lim) (hn : M.single = false) (hc : ColsOK ix M)
    (hs : ∀ a, SortOK (ix.cmpK a) (rc.sort a)) (hd : ∀ a, DupsSeen (ix.cmpK a) (rc.haveDups a)) (ho : OptionsOK ix rc alternative)
    (qsort : (Item Datum → Item Datum → Ordering) → List (Item Datum) → List (Item Datum)) (hqs : Sorts qsort) (full : Nat → Bool)
    (rs : List (Row V)) (hok : ∀ r ∈ rs, RowOK ix rc M r) (hlen : ∀ r ∈ rs, ∀ a, (ix.colEntries rc a r).length < 2 ^ 31)
    (hord : alternative = true → rs.Pairwise (fun r q => cmpIptr r.tid q.tid = .lt))
    (new : List (Row V)) (hnew : ∀ r ∈ new, RowOK ix rc M r) (htid : ((rs ++ new).map Row.tid).Nodup)
    (build : L → V) (attr : Attr) (a P : Nat) (h1 : 1 ≤ a) (h2 : a ≤ rc.natts) (vec : Row V → Option (TsVector L))
    (hdoc : Documents build attr a P vec (rs ++ new)) (q : Query (Opnd L)) (hq : QueryOK P q)
    (hcoll : NoCollision (ix.cmpK a) build vec (rs ++ new) q) (unk : Opnd L → Nat → Prop) (begins : L → L → Prop) :
    ∃ st t, ix.buildIndex rc qsort full rs = (st, true) ∧ ix.insertRows rc st new = (t, true) ∧
      (rc.addTo ≠ some a → FtSearches ix rc alternative false t (rs ++ new) (tsCond build cmpL sort a q) (FtAnswer unk begins vec (rs ++ new) q true)) ∧
      FtSearches ix rc alternative false t (rs ++ new) (tsAddonCond build cmpL sort a q) (FtAnswer unk begins vec (rs ++ new) q false) := by
  obtain ⟨st, t, e1, e2, hS⟩ := C50_query_inserted_partial ix rc alternative M hn hc hs hd ho qsort hqs full rs hok hlen hord new hnew htid
  exact ⟨st, t, e1, e2, ft_of_searches unk begins hsort (hc.keys a) hdoc hq hcoll h1 h2 hS⟩

/-- **C51, prefix operands, violated.** Operands are told apart by their lexeme only, not by whether they are prefixes. The document `ab:1` matches
`a:* & !a`; whichever of the two operands keeps the entry, and with the entry answered truthfully, the document is rejected. -/
theorem C51_prefix_violated :
    ∃ (q : Query (Opnd (List Nat))) (v : TsVector (List Nat)), VecOK 1 v ∧
      DocMatches (fun _ _ => False) (fun p w => p <+: w) (some v) q ∧
      ∀ (cmpL : List Nat → List Nat → Ordering) (sort : List (Opnd (List Nat)) → List (Opnd (List Nat))), ReflCmp cmpL → SortsOpnds cmpL sort →
        ∃ o, sortAndUniq cmpL sort q = [o] ∧ o ∈ operands q ∧ ∀ vw : List (Option (Option Datum)),
          List.Forall₂ (fun p x => match x with
            | none => ∀ w ∈ v, ¬ Stands (fun p w => p <+: w) p w.1
            | some i => ∃ w ∈ v, Stands (fun p w => p <+: w) p w.1 ∧ i = w.2.map (fun ps => .varlena .short (compressPos 0 ps)))
            (sortAndUniq cmpL sort q) vw → (tsConsistent (entryOf cmpL (sortAndUniq cmpL sort q) vw) q).1 = false := by
  refine ⟨.and (.val ⟨[97], true⟩ 0) (.not (.val ⟨[97], false⟩ 0)), [([97, 98], some [1])], ⟨by simp, ?_⟩, ⟨_, rfl, ?_⟩, ?_⟩
  · intro w hw ps hps
    simp only [List.mem_singleton] at hw
    subst hw
    cases hps
    exact ⟨⟨by decide, by decide⟩, by decide⟩
  · simp only [Ts.Matches]
    have h1 : occ (fun p w => p <+: w) [([97, 98], some [1])] ⟨[97], true⟩ = .at [1] := by
      unfold occ
      rw [if_neg (by simp [Stands]), if_neg (by simp)]
      simp [Stands]
    have h2 : occ (fun p w => p <+: w) [([97, 98], some [1])] ⟨[97], false⟩ = .absent := by
      unfold occ
      rw [if_pos (by simp [Stands])]
    rw [h1, h2]
    simp
  · intro cmpL sort hrefl hsort
    have hp := (hsort (operands (.and (.val ⟨[97], true⟩ 0) (.not (.val ⟨[97], false⟩ 0)) : Query (Opnd (List Nat))))).1
    have hl := hp.length_eq
    have hcmp : ∀ x y : Opnd (List Nat), x.lex = [97] → y.lex = [97] → cmpOpnd cmpL x y = .eq := by
      intro x y hx hy
      unfold cmpOpnd
      rw [hx, hy]
      exact ReflCmp.compare_self
    have hlex : ∀ o ∈ sort (operands (.and (.val ⟨[97], true⟩ 0) (.not (.val ⟨[97], false⟩ 0)) : Query (Opnd (List Nat)))), o.lex = [97] := by
      intro o ho
      have := hp.mem_iff.1 ho
      simp [operands] at this
      rcases this with rfl | rfl <;> rfl
    unfold sortAndUniq
    have hmem := fun o (ho : o ∈ sort (operands (.and (.val ⟨[97], true⟩ 0) (.not (.val ⟨[97], false⟩ 0)) : Query (Opnd (List Nat))))) => hp.mem_iff.1 ho
    generalize sort (operands (.and (.val ⟨[97], true⟩ 0) (.not (.val ⟨[97], false⟩ 0)) : Query (Opnd (List Nat)))) = l at hl hlex hmem ⊢
    match l, hl with
    | [x, y], _ =>
      have hx := hlex x (by simp)
      have hy := hlex y (by simp)
      have hu : uniq (cmpOpnd cmpL) [x, y] = [x] := by simp [uniq, uniqLoop, hcmp y x hy hx]
      refine ⟨x, hu, hmem x (by simp), fun vw hvw => ?_⟩
      rw [hu] at hvw ⊢
      obtain ⟨z, rfl⟩ : ∃ z, vw = [z] := by
        cases hvw with
        | cons _ h => cases h; exact ⟨_, rfl⟩
      have hent : ∀ b, entryOf cmpL [x] [z] ⟨[97], b⟩ = found z := by
        intro b
        simp [entryOf, mapItem, List.findIdx?_cons, hcmp x ⟨[97], b⟩ hx rfl]
      have hz : z = none ∨ z = some (some (.varlena .short (compressPos 0 [1]))) := by
        cases hvw with
        | cons h _ =>
          cases z with
          | none => exact Or.inl rfl
          | some i =>
            simp only at h
            obtain ⟨w, hw, -, rfl⟩ := h
            simp only [List.mem_singleton] at hw
            subst hw
            exact Or.inr rfl
      unfold tsConsistent
      simp only [execute, hent]
      rcases hz with rfl | rfl
      · rfl
      · simp [found, dataBytes, chkPlain, finish]

/-! ### Hashed words -/

/-- bytea. -/
def ftAttr : Attr := ⟨false, -1, 4, false⟩
/-- A tsvector column with its words hashed, positions as additional info. -/
def ftIx : Ix Nat := ⟨fun _ => compare, fun _ => 16, fun _ => ⟨⟨false, some ftAttr⟩, false, fun _ _ => .eq⟩, false⟩
def ftRc : RowCfg Nat := ⟨1, fun _ l => l.mergeSort (fun a b => (cmpExtract compare a.key b.key).isLE), fun _ _ => true, none, fun _ => true⟩
/-- A row with a document. -/
def ftRow (hash : L → Nat) (n : Nat) (v : TsVector L) : Row Nat := ⟨⟨n, 1⟩, fun a => if a = 1 then some (extractTsvector hash ftAttr v) else none, none⟩

theorem ftCols : ColsOK ftIx 15 where
  keys := fun _ => (inferInstance : TransCmp (compare : Nat → Nat → Ordering))
  infos := fun _ => { eq_swap := rfl, isLE_trans := fun _ _ => rfl }
  sizes := fun _ => ⟨by decide, by decide, (by decide : padOf (⟨false, some ftAttr⟩ : Cfg) ∣ 8), fun h => by cases h⟩

theorem pos_one : compressPos 0 [1] = [1] := by
  have h1 : wepPos 1 = 1 := by decide
  have h0 : wepPos 0 = 0 := by decide
  have h2 : wepWeight 1 = 0 := by decide
  rw [compressPos, h1, h0, h2, compressDelta]
  decide

theorem ftSort : ∀ a, SortOK (ftIx.cmpK a) (ftRc.sort a) := fun a => by
  refine ⟨fun l => List.mergeSort_perm _ _, fun l => ?_⟩
  have := List.pairwise_mergeSort (l := l) (le := fun a b : Raw Nat Datum => (cmpExtract compare a.key b.key).isLE)
    (fun a b c h1 h2 => TransCmp.isLE_trans h1 h2) (fun a b => by
      rw [OrientedCmp.eq_swap (cmp := cmpExtract compare) (a := b.key) (b := a.key)]
      cases cmpExtract compare a.key b.key <;> simp)
  exact this.imp (fun h hc => by
    rw [show cmpExtract compare _ _ = Ordering.gt from hc] at h
    cases h)

theorem ftStorable (n : Nat) (h : n < 400) : Storable ⟨⟨false, some ftAttr⟩, false, fun _ _ => .eq⟩ 15 ⟨⟨n, 1⟩, some (.varlena .short [1])⟩ := by
  refine ⟨⟨⟨?_, ?_⟩, fun h => by simp at h, ?_⟩, ?_, ?_, ?_, ?_⟩
  · show n < _; omega
  · show 1 < _; omega
  · intro d hd
    refine ⟨ftAttr, rfl, ?_⟩
    obtain rfl : Datum.varlena .short [1] = d := by simpa using hd
    refine ⟨rfl, ?_⟩
    decide
  · revert n; decide +kernel
  · show 1 ≤ 1; omega
  · revert n; decide +kernel
  · revert n; decide +kernel

theorem ftRowOK (hash : L → Nat) (n : Nat) (hn : n < 400) (y : L) : RowOK ftIx ftRc 15 (ftRow hash n [(y, some [1])]) := by
  intro a h1 h2 o ho
  have ha : a = 1 := by have h2 : a ≤ 1 := h2; omega
  subst ha
  have hsz : ∀ k : AttKey Nat, ftIx.tupleSize k [] ≤ maxTuple := by
    intro k
    show alignUp 8 (16 + catByte k) ≤ maxTuple
    unfold catByte
    split <;> decide
  refine ⟨fun _ => rfl, hsz _, ?_⟩
  simp only [Ix.colEntries, ftRc, ftRow, extractEntries, reduceCtorEq, if_false, if_true, toOut, extractTsvector, List.map_cons, List.map_nil, pos_one,
    List.mem_singleton, Option.map_some] at ho
  subst ho
  exact ftStorable n hn

/-- **C52, violated.** For an operator class that makes keys of words by a hash function: let two different words have the same hash, and let the table
have one row with the document `y:1`. A search for `x` returns the row and does not ask for a recheck, though the document does not match; a search
for `y & !x` does not return it, though it matches. -/
theorem C52_violated (hash : L → Nat) (x y : L) (hne : x ≠ y) (hxy : hash x = hash y) (cmpL : L → L → Ordering) [TransCmp cmpL] [LawfulEqCmp cmpL]
    (sort : List (Opnd L) → List (Opnd L)) (hsort : SortsOpnds cmpL sort) (unk : Opnd L → Nat → Prop) (begins : L → L → Prop) :
    ∃ (r : Row Nat) (v : TsVector L) (st : State Nat), r.value 1 = some (extractTsvector hash ftAttr v) ∧ ftIx.insertRows ftRc emptyIndex [r] = (st, true) ∧
      (¬ DocMatches unk begins (some v) (.val ⟨x, false⟩ 0) ∧ ∀ junk n, 10 ≤ n →
        ∃ out, ftIx.search ftRc false st junk n (tsCond hash cmpL sort 1 (.val ⟨x, false⟩ 0)) [] = some out ∧ ∃ p ∈ out.1, p.1.iptr = r.tid ∧ p.2 = false) ∧
      (DocMatches unk begins (some v) (.and (.val ⟨y, false⟩ 0) (.not (.val ⟨x, false⟩ 0))) ∧ ∀ junk n, 10 ≤ n →
        ∃ out, ftIx.search ftRc false st junk n (tsCond hash cmpL sort 1 (.and (.val ⟨y, false⟩ 0) (.not (.val ⟨x, false⟩ 0)))) [] = some out ∧
          ∀ p ∈ out.1, p.1.iptr ≠ r.tid) := by
  have ho : OptionsOK ftIx ftRc false := fun a => ⟨rfl, rfl⟩
  have hvv : VecOK 1 [(y, some [1])] := by
    refine ⟨by simp, ?_⟩
    intro w hw ps hps
    simp only [List.mem_singleton] at hw
    subst hw
    cases hps
    exact ⟨⟨by decide, by decide⟩, by decide⟩
  obtain ⟨st0, st, h0, h1, view, hv, hreg, -⟩ := C50_query_inserted_partial ftIx ftRc false 15 rfl ftCols ftSort (fun a l h => by cases h) ho altSort altSort_sorts
    (fun _ => false) [] (by simp) (by simp) (by simp) [ftRow hash 1 [(y, some [1])]] (by
      simp only [List.mem_singleton, forall_eq]; exact ftRowOK hash 1 (by omega) y) (by simp)
  have hst0 : st0 = emptyIndex := by
    have : ftIx.buildIndex ftRc altSort (fun _ => false) [] = (emptyIndex, true) := rfl
    rw [h0] at this
    exact (Prod.mk.inj this).1
  subst hst0
  -- what the consistency function is told: both words are there
  have htold : ∀ q : Query (Opnd L), (∀ o ∈ operands q, hash o.lex = hash y) → (tsCond hash cmpL sort 1 q).cons (view (ftRow hash 1 [(y, some [1])]) (tsCond hash cmpL sort 1 q)) =
      finish (execute false (fun _ w => chkPhrase false (.bytes [1]) w) (fun _ w => chkPlain false (.bytes [1]) w) false q) ∧
      ∃ o ∈ view (ftRow hash 1 [(y, some [1])]) (tsCond hash cmpL sort 1 q), o.isSome = true := by
    intro q hq
    have hV := hv (ftRow hash 1 [(y, some [1])]) (by simp) (tsCond hash cmpL sort 1 q) (Nat.le_refl 1) (Nat.le_refl 1)
    generalize view (ftRow hash 1 [(y, some [1])]) (tsCond hash cmpL sort 1 q) = vw at hV ⊢
    unfold View at hV
    rw [List.forall₂_iff_get] at hV
    obtain ⟨hlen, hget⟩ := hV
    have hent : ∀ o ∈ operands q, entryOf cmpL (sortAndUniq cmpL sort q) vw o = .bytes [1] ∧ ∃ z ∈ vw, z.isSome = true := by
      intro o hoq
      obtain ⟨j, p, m1, m2, m3, m4⟩ := mapItem_ok (cmpL := cmpL) hsort hoq
      have hj : j < (sortAndUniq cmpL sort q).length := (List.getElem?_eq_some_iff.1 m2).1
      have hj1 : j < (tsCond hash cmpL sort 1 q).keys.length := by simpa [tsCond] using hj
      have hj2 : j < vw.length := by rw [← hlen]; exact hj1
      have hg := hget j hj1 hj2
      have hkey : (tsCond hash cmpL sort 1 q).keys.get ⟨j, hj1⟩ = hash y := by
        have h5 : (tsCond hash cmpL sort 1 q).keys[j]? = some (hash p.lex) := by
          show ((sortAndUniq cmpL sort q).map (fun o => hash o.lex))[j]? = _
          rw [List.getElem?_map, m2]; rfl
        rw [List.getElem?_eq_getElem hj1] at h5
        rw [← hq p m4]
        exact Option.some.inj h5
      rw [hkey] at hg
      have hE : entryOf cmpL (sortAndUniq cmpL sort q) vw o = found (vw.get ⟨j, hj2⟩) := by
        unfold entryOf
        rw [m1, Option.bind_some, List.getElem?_eq_getElem hj2]
        rfl
      have hmem : vw.get ⟨j, hj2⟩ ∈ vw := List.get_mem _ _
      generalize vw.get ⟨j, hj2⟩ = z at hg hE hmem
      cases z with
      | none =>
        exact absurd ⟨_, rfl, _, List.mem_singleton.2 rfl, hash y, rfl, ReflCmp.compare_self (cmp := (compare : Nat → Nat → Ordering))⟩ hg
      | some i =>
        have hi := hg.2
        unfold InfoOf at hi
        rw [if_neg (by rintro h; cases h)] at hi
        obtain ⟨w, hw, rfl, -⟩ := hi
        have hw' : w = ⟨some (hash y), some (.varlena .short [1])⟩ := by
          have := List.mem_singleton.1 hw
          rw [this]
          simp only [Option.map_some, pos_one]
          rfl
        subst hw'
        exact ⟨hE, _, hmem, rfl⟩
    refine ⟨?_, ?_⟩
    · show finish (execute false _ _ false q) = _
      rw [execute_congr q false (fun o hoq w => by rw [(hent o hoq).1]) (fun o hoq w => by rw [(hent o hoq).1])]
    · have : ∃ o, o ∈ operands q := by
        clear hq hent hget hlen
        induction q with
        | val o w => exact ⟨o, by simp [operands]⟩
        | not q ih => exact ih
        | and l r hl _ | or l r hl _ | phrase d l r hl _ => obtain ⟨o, ho⟩ := hl; exact ⟨o, by simp [operands, ho]⟩
      obtain ⟨o, ho⟩ := this
      exact (hent o ho).2
  have hfp : ∀ q, FirstPages ftIx false st [tsCond hash cmpL sort 1 q] := fun q c _ k _ t _ => Or.inr rfl
  have hcol : ∀ q : Query (Opnd L), ColumnsOK ftRc [tsCond hash cmpL sort 1 q] := by
    intro q d hd
    simp only [List.mem_singleton] at hd
    subst hd
    exact ⟨Nat.le_refl 1, Nat.le_refl 1⟩
  have hkeys : ∀ q : Query (Opnd L), (tsCond hash cmpL sort 1 q).keys.length ≤ (operands q).length := by
    intro q
    show ((sortAndUniq cmpL sort q).map (fun o => hash o.lex)).length ≤ _
    rw [List.length_map, ← (hsort (operands q)).1.length_eq]
    unfold sortAndUniq
    generalize sort (operands q) = l
    cases l with
    | nil => simp [uniq]
    | cons a l =>
      simp only [uniq]
      induction l generalizing a with
      | nil => simp [uniqLoop]
      | cons b l ih =>
        rw [uniqLoop]
        split
        · simpa using ih b
        · have := ih a; simp at this ⊢; omega
  refine ⟨ftRow hash 1 [(y, some [1])], [(y, some [1])], st, rfl, by simpa using h1, ⟨?_, fun junk n hn => ?_⟩, ?_, fun junk n hn => ?_⟩
  · rintro ⟨v, hv', hm⟩
    cases hv'
    have : occ begins [(y, some [1])] ⟨x, false⟩ = .absent := by
      unfold occ
      rw [if_pos]
      simp only [List.mem_singleton, forall_eq, Stands, Bool.false_eq_true, if_false]
      exact fun h => hne h.symm
    simp [Ts.Matches, this] at hm
  · obtain ⟨out, o1, o2⟩ := hreg (tsCond hash cmpL sort 1 (.val ⟨x, false⟩ 0)) [] (hcol _) (Or.inl rfl) (hfp _) junk n (by
      have := hkeys (.val ⟨x, false⟩ 0)
      simp only [operands, List.length_singleton] at this
      simp [keyCount]; omega)
    refine ⟨out, o1, ?_⟩
    obtain ⟨t1, t2⟩ := htold (.val ⟨x, false⟩ 0) (by simpa [operands] using hxy)
    have t1' : (tsCond hash cmpL sort 1 (.val ⟨x, false⟩ 0)).cons (view (ftRow hash 1 [(y, some [1])]) (tsCond hash cmpL sort 1 (.val ⟨x, false⟩ 0))) = (true, false) := by
      rw [t1]; simp [execute, chkPlain, finish]
    obtain ⟨p, hp, hpt⟩ := (o2.rows ⟨1, 1⟩).2 ⟨ftRow hash 1 [(y, some [1])], by simp, rfl, by
      simp only [List.mem_singleton, forall_eq]
      exact ⟨t2, by rw [t1']⟩⟩
    refine ⟨p, hp, hpt, ?_⟩
    have := o2.recheck p hp (ftRow hash 1 [(y, some [1])]) (by simp) hpt.symm
    simp only [List.mem_singleton, exists_eq_left, t1'] at this
    cases h : p.2 with
    | false => rfl
    | true => exact absurd (this.1 h) (by simp)
  · refine ⟨_, rfl, ?_⟩
    have e1 : occ begins [(y, some [1])] ⟨x, false⟩ = .absent := by
      unfold occ
      rw [if_pos]
      simp only [List.mem_singleton, forall_eq, Stands, Bool.false_eq_true, if_false]
      exact fun h => hne h.symm
    rcases occ_exact (begins := begins) (o := ⟨y, false⟩) hvv rfl with ⟨-, h⟩ | ⟨w, hw, -, ⟨h, -⟩ | ⟨ps, -, h⟩⟩
    · exact absurd rfl (h _ (List.mem_singleton.2 rfl))
    · simp only [List.mem_singleton] at hw
      subst hw
      cases h
    · simp [Ts.Matches, e1, h]
  · obtain ⟨out, o1, o2⟩ := hreg (tsCond hash cmpL sort 1 (.and (.val ⟨y, false⟩ 0) (.not (.val ⟨x, false⟩ 0)))) [] (hcol _) (Or.inl rfl) (hfp _) junk n (by
      have := hkeys (.and (.val ⟨y, false⟩ 0) (.not (.val ⟨x, false⟩ 0)))
      simp [operands] at this
      simp [keyCount]; omega)
    refine ⟨out, o1, fun p hp he => ?_⟩
    obtain ⟨r, hr, -, hacc⟩ := (o2.rows p.1.iptr).1 ⟨p, hp, rfl⟩
    simp only [List.nil_append, List.mem_singleton] at hr
    subst hr
    simp only [List.mem_singleton, forall_eq] at hacc
    have := hacc.2
    rw [(htold (.and (.val ⟨y, false⟩ 0) (.not (.val ⟨x, false⟩ 0))) (by simp [operands, hxy])).1] at this
    simp [execute, chkPlain, finish] at this

/-! ### Concrete cases -/

/-- A sorting function for words that are numbers. -/
def exSort (l : List (Opnd Nat)) : List (Opnd Nat) := l.mergeSort (fun a b => (compare a.lex b.lex).isLE)

theorem exSort_sorts : SortsOpnds (compare : Nat → Nat → Ordering) exSort := fun l =>
  ⟨List.mergeSort_perm _ _, List.pairwise_mergeSort (l := l) (le := fun a b : Opnd Nat => (compare a.lex b.lex).isLE)
    (fun a b c h1 h2 => TransCmp.isLE_trans (cmp := (compare : Nat → Nat → Ordering)) h1 h2) (fun a b => by
      rw [OrientedCmp.eq_swap (cmp := (compare : Nat → Nat → Ordering)) (a := b.lex) (b := a.lex)]
      cases compare a.lex b.lex <;> simp)⟩

/-- Three documents, of the words 5, 6 and 5; the row with the first one is removed. -/
def exFtEvents : List (Event Nat) :=
  [.insert (ftRow id 1 [(5, some [1])]), .insert (ftRow id 2 [(6, some [1])]), .vacuum (fun p => p.blk < 2), .insert (ftRow id 3 [(5, some [1])])]
/-- `(5 | 6 <-> 5) & !7`. -/
def exFtQuery : Query (Opnd Nat) :=
  .and (.or (.val ⟨5, false⟩ 0) (.phrase 1 (.val ⟨6, false⟩ 0) (.val ⟨5, false⟩ 0))) (.not (.val ⟨7, false⟩ 0))
def exVec (r : Row Nat) : Option (TsVector Nat) := some (if r.tid.blk = 2 then [(6, some [1])] else [(5, some [1])])

theorem ftCols1 : ColsOK ftIx ⟨15, true⟩ where
  keys := ftCols.keys
  infos := ftCols.infos
  sizes := fun _ => ⟨by decide, by decide, (by decide : padOf (⟨false, some ftAttr⟩ : Cfg) ∣ 8), fun _ => (by decide : padOf (⟨false, some ftAttr⟩ : Cfg) ∣ 4)⟩

theorem ftRowOK1 (n : Nat) (hn : n < 400) (y : Nat) : RowOK ftIx ftRc ⟨15, true⟩ (ftRow id n [(y, some [1])]) := fun a h1 h2 o ho => by
  obtain ⟨e1, e2, e3⟩ := ftRowOK id n hn y a h1 h2 o ho
  exact ⟨e1, e2, storable_single e3⟩

/-- The hypotheses of `C51_fulltext_partial` and of `C50_query_from_empty_partial` are met. -/
example : SortsOpnds (compare : Nat → Nat → Ordering) exSort ∧ ColsOK ftIx ⟨15, true⟩ ∧ (∀ k, 8 ∣ ftIx.keySize k) ∧ OptionsOK ftIx ftRc false ∧
    Possible ftIx ftRc ⟨15, true⟩ [] exFtEvents ∧ Documents id ftAttr 1 1 exVec (exFtEvents.foldl Event.rows []) ∧ QueryOK 1 exFtQuery ∧
    NoCollision (ftIx.cmpK 1) id exVec (exFtEvents.foldl Event.rows []) exFtQuery ∧ (exFtEvents.foldl Event.rows []).map Row.tid = [⟨2, 1⟩, ⟨3, 1⟩] := by
  have hrows : exFtEvents.foldl Event.rows [] = [ftRow id 2 [(6, some [1])], ftRow id 3 [(5, some [1])]] := by
    simp [exFtEvents, Event.rows, ftRow]
  refine ⟨exSort_sorts, ftCols1, fun _ => ⟨2, rfl⟩, fun a => ⟨rfl, rfl⟩, ?_, ?_, ⟨?_, rfl, by decide⟩, ?_, ?_⟩
  · refine ⟨⟨ftRowOK1 1 (by omega) 5, by simp⟩, ⟨ftRowOK1 2 (by omega) 6, ?_⟩, trivial, ⟨ftRowOK1 3 (by omega) 5, ?_⟩, trivial⟩
    all_goals simp [Event.rows, ftRow]
  · rw [hrows]
    intro r hr
    simp only [List.mem_cons, List.not_mem_nil, or_false] at hr
    have hpos : PosList [1] ∧ ∀ x ∈ [1], 1 ≤ wepPos x ∧ wepPos x ≤ 1 := ⟨⟨by decide, by decide⟩, by decide⟩
    rcases hr with rfl | rfl <;> refine ⟨rfl, fun v hv => ?_⟩ <;>
    · simp only [exVec, ftRow, Option.some.injEq] at hv
      subst hv
      exact ⟨by simp, fun w hw ps hps => by
        simp at hw
        subst hw
        cases hps
        exact hpos⟩
  · simp [exFtQuery, operands]
  · intro r _ v _ w _ o _ h
    exact LawfulEqCmp.eq_of_compare (cmp := (compare : Nat → Nat → Ordering)) h
  · rw [hrows]; rfl


/-- The condition on the leftmost pages is met: no key of the query has a posting tree. -/
example : FirstPages ftIx true (runs ftIx ftRc (emptyIndex, true) exFtEvents).1 [tsCond id (compare : Nat → Nat → Ordering) exSort 1 exFtQuery] := by
  have h : ∀ k ∈ [5, 6, 7], (ftIx.treeOf (runs ftIx ftRc (emptyIndex, true) exFtEvents).1 ⟨1, .norm, k⟩).isNone = true := by decide +kernel
  intro c hc k hk t ht
  simp only [List.mem_singleton] at hc
  subst hc
  have hk' : k ∈ [5, 6, 7] := by
    simp only [tsCond, List.mem_map] at hk
    obtain ⟨o, ho, rfl⟩ := hk
    have := mem_of_sortAndUniq exSort_sorts ho
    simp only [exFtQuery, operands, List.mem_append, List.mem_cons, List.not_mem_nil, or_false] at this
    rcases this with (rfl | rfl | rfl) | rfl <;> simp
  have := h k hk'
  rw [show (tsCond id (compare : Nat → Nat → Ordering) exSort 1 exFtQuery).attnum = 1 from rfl] at ht
  rw [ht] at this
  cases this

end Rum.Props.FullText

import Verif.InvSearch
import Verif.Props.TextTable
import Verif.Props.InvTsquery
/-!
# C68: inverted searches over a table
-/
namespace Rum.Props.InvSearch
open Rum Rum.Codec Rum.Leaf Rum.Entry Rum.Tree Rum.Index Rum.Extract Rum.Props Rum.Props.PostingTree Rum.Props.Index Rum.Props.IndexVacuum Rum.Props.Bulk
  Rum.Props.Query Rum.Props.Collect Rum.Props.ArraySearch Rum.FullText Rum.Props.FullText Std

variable {V : Type} [DecidableEq V]

/-! ### Specification -/

/-- `query @@ document` is true in SQL: the query is not NULL, and it is true of the document, where a word is true of a document that has it. -/
def InvTrue (doc : List V) : Option (Inv.Query V) → Prop
  | none => False
  | some q => q.eval (fun l => decide (l ∈ doc)) = true

/-- The queries the code handles: of words without weights (which it ignores, `C29_weights_violated`), NOT, AND and OR, at most 256 AND and OR (more overrun an array,
`C29_node_overflow`). -/
structure InvOK (q : Inv.Query V) : Prop where
  plain : q.Plain
  size : q.size < 2 ^ 30
  ops : q.ops ≤ 256

/-- The columns in the conditions hold such queries: `col r a` is the query in column `a` of row `r`. -/
def InvColumns (attr : Attr) (rs : List (Row V)) (col : Row V → Nat → Option (Inv.Query V)) (conds : List (InvCond V)) : Prop :=
  ∀ r ∈ rs, ∀ c ∈ conds, r.value c.attnum = invValue attr (col r c.attnum) ∧ ∀ q, col r c.attnum = some q → InvOK q

/-- What the theorems cover: documents, columns of the index without an attached column, keys whose posting tree has something on its leftmost page unless there was no
VACUUM. -/
structure Covered (ix : Ix V) [Inhabited V] (rc : RowCfg V) (vacuumed : Bool) (st : State V) (conds : List (InvCond V)) : Prop where
  low : ∀ c ∈ conds, 1 ≤ c.attnum
  high : ∀ c ∈ conds, c.attnum ≤ rc.natts
  plain : ∀ c ∈ conds, rc.addTo ≠ some c.attnum
  docs : ∀ c ∈ conds, c.doc.Nodup
  same : ∀ c ∈ conds, ∀ x y, ix.cmpK c.attnum x y = .eq → x = y
  first : ∀ c ∈ conds, ∀ k : AttKey V, k.attnum = c.attnum → (k.cat = .nullKey ∧ k.key = default) ∨ (k.cat = .norm ∧ k.key ∈ c.doc) →
    ∀ t, ix.treeOf st k = some t → firstLeaf (st.trees t) ≠ [] ∨ vacuumed = false

/-- The code's decision about one query, whatever is on the stack (C29). -/
def Decided (doc : List V) (col : Option (Inv.Query V)) : Prop := ∃ q, col = some q ∧ ∀ stack, Inv.searchRow stack q doc = some true

/-- The answer: the scan ends; no row twice; every row returned is one of the table, its queries match the documents, and nothing is left to check; every row whose
queries match the documents is returned, if no document is empty and no operator inside of one of the row's queries is true of the empty document. In any case the rows
returned are those on which the operator class decides so. -/
structure InvAnswer (rs : List (Row V)) (col : Row V → Nat → Option (Inv.Query V)) (conds : List (InvCond V)) (out : List (Item Datum × Bool) × Bool) : Prop where
  ends : out.2 = true
  once : (out.1.map (fun p => p.1.iptr)).Nodup
  sound : ∀ p ∈ out.1, p.2 = false ∧ ∃ r ∈ rs, r.tid = p.1.iptr ∧ ∀ c ∈ conds, InvTrue c.doc (col r c.attnum)
  complete : (∀ c ∈ conds, c.doc ≠ []) → ∀ r ∈ rs, (∀ c ∈ conds, InvTrue c.doc (col r c.attnum)) →
    (∀ c ∈ conds, ∀ q, col r c.attnum = some q → NoHiddenNegative q none false) → ∃ p ∈ out.1, p.1.iptr = r.tid
  decided : ∀ t, (∃ p ∈ out.1, p.1.iptr = t) ↔ ∃ r ∈ rs, r.tid = t ∧ ∀ c ∈ conds, Decided c.doc (col r c.attnum)

/-- Inverted searches give such answers, whatever is on the stack. -/
def InvSearches (ix : Ix V) [Inhabited V] (rc : RowCfg V) (alternative vacuumed : Bool) (attr : Attr)
    (tuplesort : (Item Datum → Item Datum → Ordering) → List (Item Datum) → List (Item Datum)) (join : Nat → Option (Datum → Datum → Datum)) (st : State V)
    (rs : List (Row V)) : Prop :=
  ∀ (col : Row V → Nat → Option (Inv.Query V)) (stack : List (Option (Option Datum)) → Nat → Inv.Node) (bad : List (Option (Option Datum)) → Bool) (c : InvCond V)
    (cs : List (InvCond V)), InvColumns attr rs col (c :: cs) → Covered ix rc vacuumed st (c :: cs) →
    ∃ N, ∀ n, N ≤ n → ∀ junk, ∃ out, ix.findInv rc alternative stack bad tuplesort join st junk n c cs = some out ∧ InvAnswer rs col (c :: cs) out

/-! ### The entries of a query -/

theorem addEntry_keys (l : V) (bs : List Nat) (es : List (V × List Nat)) :
    (Inv.addEntry l bs es).map Prod.fst = if l ∈ es.map Prod.fst then es.map Prod.fst else es.map Prod.fst ++ [l] := by
  induction es with
  | nil => simp [Inv.addEntry]
  | cons e es ih =>
    simp only [Inv.addEntry]
    by_cases h : l = e.1
    · rw [if_pos h]; simp [h]
    · rw [if_neg h]
      simp only [List.map_cons, ih, List.mem_cons, h, false_or]
      split <;> simp

theorem addEntry_nodup (l : V) (bs : List Nat) (es : List (V × List Nat)) (h : (es.map Prod.fst).Nodup) : ((Inv.addEntry l bs es).map Prod.fst).Nodup := by
  rw [addEntry_keys]
  split
  · exact h
  · next hn => exact List.nodup_append.2 ⟨h, by simp, by rintro a ha b hb rfl; simp at hb; exact hn (hb ▸ ha)⟩

theorem extractWraps_nodup (w : Inv.Wraps V) : ∀ up es, (es.map Prod.fst).Nodup → ((Inv.extractWraps w up es).map Prod.fst).Nodup := by
  induction w with
  | nil => intro up es h; exact h
  | val l neg rest ih => intro up es h; exact ih up _ (addEntry_nodup _ _ _ h)
  | op n s a kids rest ih1 ih2 => intro up es h; exact ih2 up _ (ih1 _ _ h)

theorem extract_nodup {q : Inv.Query V} {es : Inv.Entries V} (h : Inv.extractQuery q = some es) : (es.lex.map Prod.fst).Nodup := by
  unfold Inv.extractQuery at h
  split at h
  · cases h
  · cases h
    exact extractWraps_nodup _ _ _ List.nodup_nil

theorem lookup_none {l : V} {es : List (V × List Nat)} (h : l ∉ es.map Prod.fst) : es.lookup l = none := by
  induction es with
  | nil => rfl
  | cons e es ih =>
    simp only [List.map_cons, List.mem_cons, not_or] at h
    have h' : (l == e.1) = false := by simpa using h.1
    simp [List.lookup, h', ih h.2]

theorem lookup_mem {e : V × List Nat} {es : List (V × List Nat)} (h : e ∈ es) (hn : (es.map Prod.fst).Nodup) : es.lookup e.1 = some e.2 := by
  induction es with
  | nil => cases h
  | cons x es ih =>
    rw [List.map_cons, List.nodup_cons] at hn
    rcases List.mem_cons.1 h with rfl | h
    · simp [List.lookup]
    · have h' : (e.1 == x.1) = false := by
        simp only [beq_eq_false_iff_ne]
        rintro he
        exact hn.1 (he ▸ List.mem_map_of_mem h)
      simp [List.lookup, h', ih h hn.2]

/-! ### What the consistency function is told -/

section
variable {ix : Ix V} {rc : RowCfg V} {M : Lim} {join : Option (Datum → Datum → Datum)} {r : Row V} {a : Nat} {attr : Attr} {es : Inv.Entries V}

/-- The bytes of a lexeme's additional info. -/
theorem lexeme_view (hc : ColsOK ix M) (hsame : ∀ x y, ix.cmpK a x y = .eq → x = y) (hv : r.value a = some (invEntries attr es)) (hn : (es.lex.map Prod.fst).Nodup)
    (hp : rc.addTo ≠ some a) {x : V} {o : Option (Option Datum)} (h : Sees ix rc join r a ⟨.norm, x, .exact⟩ o) :
    (o = none ∧ es.lex.lookup x = none) ∨ ∃ d, o = some (some d) ∧ es.lex.lookup x = some (dataBytes d) := by
  have := hc.keys a
  rcases sees_exact hc h with ⟨rfl, h1⟩ | ⟨k, i, rfl, h1, h2, h3, h4⟩
  · refine Or.inl ⟨rfl, lookup_none (fun hm => ?_)⟩
    obtain ⟨e, he, rfl⟩ := List.mem_map.1 hm
    apply h1
    rw [hv]
    exact ⟨_, rfl, _, List.mem_append_left _ (List.mem_map_of_mem he), e.1, rfl, ReflCmp.compare_self (cmp := ix.cmpK a)⟩
  · obtain ⟨g1, g2⟩ := att_eq h1 h2
    have g2 := hsame _ _ (g2 rfl)
    unfold InfoOf at h4
    rw [if_neg (by rw [h2]; exact hp), h2, hv] at h4
    unfold Contains at h3
    rw [g1, hv] at h3
    obtain ⟨raws, e1, q, hq, y, e2, e3⟩ := h3
    simp only [Option.some.injEq] at e1
    subst e1
    cases hs : invEntries attr es with
    | nil => rw [hs] at hq; cases hq
    | cons raw raws =>
      rw [hs] at h4
      simp only [g1, reduceCtorEq, false_and, true_and, false_or] at h4
      obtain ⟨q', hq', rfl, z, hz, hze⟩ := h4
      rw [← hs] at hq'
      rcases List.mem_append.1 hq' with hq' | hq'
      · obtain ⟨e, he, rfl⟩ := List.mem_map.1 hq'
        simp only [Option.some.injEq] at hz
        subst hz
        have := hsame _ _ hze
        refine Or.inr ⟨_, rfl, ?_⟩
        rw [FullText.dataBytes_stored, g2, ← this]
        exact lookup_mem he hn
      · split at hq'
        · rw [List.mem_singleton.1 hq'] at hz; cases hz
        · cases hq'

omit [DecidableEq V] in
theorem null_view [Inhabited V] (hc : ColsOK ix M) (hv : r.value a = some (invEntries attr es)) {o : Option (Option Datum)}
    (h : Sees ix rc join r a ⟨.nullKey, default, .exact⟩ o) : o.isSome = es.null := by
  have hiff : (∃ q ∈ invEntries attr es, q.key = none) ↔ es.null = true := by
    unfold invEntries
    constructor
    · rintro ⟨q, hq, hk⟩
      rcases List.mem_append.1 hq with hq | hq
      · obtain ⟨e, he, rfl⟩ := List.mem_map.1 hq; cases hk
      · split at hq
        · assumption
        · cases hq
    · intro h; rw [if_pos h]; exact ⟨⟨none, none⟩, by simp, rfl⟩
  rcases sees_exact hc h with ⟨rfl, h1⟩ | ⟨k, i, rfl, h1, h2, h3, -⟩
  · cases hb : es.null with
    | false => rfl
    | true => exact absurd (by rw [hv]; exact ⟨_, rfl, hiff.2 hb⟩) h1
  · obtain ⟨g1, -⟩ := att_eq h1 h2
    unfold Contains at h3
    rw [g1, hv] at h3
    obtain ⟨raws, e1, h3⟩ := h3
    simp only [Option.some.injEq] at e1
    subst e1
    rw [hiff.1 h3]; rfl

theorem lexemes_view (hc : ColsOK ix M) (hsame : ∀ x y, ix.cmpK a x y = .eq → x = y) (hv : r.value a = some (invEntries attr es)) (hn : (es.lex.map Prod.fst).Nodup)
    (hp : rc.addTo ≠ some a) (doc : List V) : ∀ w, List.Forall₂ (Sees ix rc join r a) (doc.map (fun l => (⟨.norm, l, .exact⟩ : Look V))) w →
    invKeys w = some (doc.map (fun l => es.lex.lookup l)) ∧ ((∃ o ∈ w, o.isSome = true) ↔ ∃ l ∈ doc, (es.lex.lookup l).isSome = true) := by
  induction doc with
  | nil => intro w h; rw [List.forall₂_nil_left_iff.1 h]; simp [invKeys]
  | cons l doc ih =>
    intro w h
    obtain ⟨o, w, g1, g2, rfl⟩ := List.forall₂_cons_left_iff.1 h
    obtain ⟨i1, i2⟩ := ih w g2
    rcases lexeme_view hc hsame hv hn hp g1 with ⟨rfl, hl⟩ | ⟨d, rfl, hl⟩
    · simp only [invKeys, i1, Option.map_some, List.map_cons, hl, List.mem_cons, exists_eq_or_imp, Option.isSome_none, Bool.false_eq_true, false_or, i2, and_self]
    · simp only [invKeys, i1, Option.map_some, List.map_cons, hl, List.mem_cons, exists_eq_or_imp, Option.isSome_some, true_or, and_self]

/-- One condition on one row. -/
theorem cond_row [Inhabited V] (hc : ColsOK ix M) {c : InvCond V} (hsame : ∀ x y, ix.cmpK c.attnum x y = .eq → x = y) {col : Option (Inv.Query V)}
    (hv : r.value c.attnum = invValue attr col) (hok : ∀ q, col = some q → InvOK q) (hp : rc.addTo ≠ some c.attnum) (hd : c.doc.Nodup) (hne : c.doc ≠ [])
    {stack : List (Option (Option Datum)) → Nat → Inv.Node} {bad : List (Option (Option Datum)) → Bool} {w : List (Option (Option Datum))}
    (h : List.Forall₂ (Sees ix rc join r c.attnum) (c.clause stack bad).looks w) :
    (Collect.Accepted (c.clause stack bad) w → InvTrue c.doc col) ∧
    ((∀ q, col = some q → NoHiddenNegative q none false) → InvTrue c.doc col → Collect.Accepted (c.clause stack bad) w) ∧
    (Collect.Accepted (c.clause stack bad) w ↔ Decided c.doc col) := by
  have := hc.keys
  obtain ⟨w1, w2, rfl, h1, h2⟩ := forall₂_split _ _ w h
  obtain ⟨o, l', g1, g2, rfl⟩ := List.forall₂_cons_left_iff.1 h2
  rw [List.forall₂_nil_left_iff.1 g2] at h2 ⊢
  have hlen : w1.length = c.doc.length := by rw [← h1.length_eq, List.length_map]
  cases col with
  | none =>
    have hno : ∀ x cat o, cat ≠ .nullItem → Sees ix rc join r c.attnum ⟨cat, x, .exact⟩ o → o = none := by
      intro x cat o hcat hs
      rcases sees_exact hc hs with ⟨rfl, -⟩ | ⟨k, i, rfl, e1, e2, e3, -⟩
      · rfl
      · exfalso
        have := (att_eq e1 e2).1
        unfold Contains at e3
        rw [hv, this] at e3
        cases cat <;> simp_all [invValue]
    have hna : ¬ Collect.Accepted (c.clause stack bad) (w1 ++ [o]) := fun ⟨⟨p, hp, hs⟩, _⟩ => by
     rcases List.mem_append.1 hp with hp | hp
     · obtain ⟨i, hi, rfl⟩ := List.getElem_of_mem hp
       have hl := h1.length_eq
       have hs' := List.Forall₂.get h1 (i := i) (by omega) hi
       simp only [List.get_eq_getElem, List.getElem_map] at hs'
       rw [hno _ _ _ (by simp) hs'] at hs; cases hs
     · rw [List.mem_singleton.1 hp, hno _ _ _ (by simp) g1] at hs; cases hs
    exact ⟨fun h => absurd h hna, fun _ h => h.elim, fun h => absurd h hna, fun ⟨q, hq, _⟩ => by cases hq⟩
  | some q =>
    obtain ⟨o1, o2, o3⟩ := hok q rfl
    obtain ⟨res, sall, s2, s3⟩ := searchRow_char q c.doc o1 o2 o3 hd hne
    have s1 := sall (stack (w1 ++ [o]))
    unfold Inv.searchRow at s1
    cases he : Inv.extractQuery q with
    | none => rw [he] at s1; cases s1
    | some es =>
      rw [he] at s1
      simp only [if_neg hne] at s1
      have hv' : r.value c.attnum = some (invEntries attr es) := by rw [hv]; simp only [invValue, he]
      obtain ⟨v1, v2⟩ := lexemes_view hc hsame hv' (extract_nodup he) hp c.doc w1 h1
      have v3 := null_view hc hv' g1
      have hcons : ((c.clause stack bad).cons (w1 ++ [o])).1 = res := by
        show (match invKeys ((w1 ++ [o]).take c.doc.length) with
          | none => bad (w1 ++ [o])
          | some ks => (Inv.consistent (stack (w1 ++ [o])) ks (((w1 ++ [o]).getD c.doc.length none).isSome)).getD (bad (w1 ++ [o]))) = res
        have hg : (w1 ++ [o]).getD c.doc.length none = o := by
          rw [← hlen, List.getD_eq_getElem?_getD, List.getElem?_append_right (Nat.le_refl _)]; simp
        rw [hg, ← hlen, List.take_left, v1, v3]
        simp only [s1, Option.getD_some]
      have hacc : res = true → Collect.Accepted (c.clause stack bad) (w1 ++ [o]) := by
        intro hr
        refine ⟨?_, by rw [hcons]; exact hr⟩
        by_contra hno
        have hn1 : ¬ ∃ x ∈ w1, x.isSome = true := fun ⟨x, hx, hs⟩ => hno ⟨x, List.mem_append_left _ hx, hs⟩
        rw [v2] at hn1
        have hn2 : es.null = false := by
          rw [← v3]
          cases ho : o with
          | none => rfl
          | some i => exact absurd ⟨o, by simp, by rw [ho]; rfl⟩ hno
        have hall : c.doc.map (fun l => es.lex.lookup l) = c.doc.map (fun _ => none) := by
          apply List.map_congr_left
          intro l hl
          cases hlk : es.lex.lookup l with
          | none => rfl
          | some b => exact absurd ⟨l, hl, by rw [hlk]; rfl⟩ hn1
        have hloop : ∀ (d : List V) (st : Inv.St) (af : Bool), Inv.keyLoop (d.map (fun _ => none)) st af = some (st, false, af) := by
          intro d
          induction d with
          | nil => intro st af; rfl
          | cons x d ih => intro st af; exact ih st af
        rw [hall, hn2, hr] at s1
        simp only [Inv.consistent, hloop, Bool.and_false, Bool.false_eq_true, if_false, Inv.nodeLoop, Option.some.injEq] at s1
      refine ⟨fun ⟨_, hr⟩ => s2 (by rw [← hcons]; exact hr), fun hnn ht => hacc (s3 (hnn q rfl) ht), fun ⟨_, hr⟩ => ⟨q, rfl, fun stack' => ?_⟩, fun ⟨q', hq', hall⟩ => ?_⟩
      · rw [sall stack', ← hr, hcons]
      · cases hq'
        have := hall (fun _ => ⟨0, 0, false⟩)
        rw [sall] at this
        exact hacc (Option.some.inj this)
end

theorem inv_of_finds {ix : Ix V} [Inhabited V] {rc : RowCfg V} {alternative vacuumed : Bool} {M : Lim} (hc : ColsOK ix M) {attr : Attr}
    {tuplesort : (Item Datum → Item Datum → Ordering) → List (Item Datum) → List (Item Datum)} {join : Nat → Option (Datum → Datum → Datum)} {st : State V}
    {rs : List (Row V)} (H : Finds ix rc alternative vacuumed tuplesort join st rs) :
    InvSearches ix rc alternative vacuumed attr tuplesort join st rs := by
  obtain ⟨view, hv, hf⟩ := H
  intro col stack bad c cs hcol hcov
  by_cases hvoid : (c :: cs).any (fun d => d.doc.isEmpty) = true
  · refine ⟨0, fun n _ junk => ⟨([], true), by unfold Ix.findInv; rw [if_pos hvoid], rfl, List.nodup_nil, by simp, fun hne => ?_, fun t => ?_⟩⟩
    · obtain ⟨d, hd, hdv⟩ := List.any_eq_true.1 hvoid
      exact absurd (List.isEmpty_iff.1 hdv) (hne d hd)
    · obtain ⟨d, hd, hdv⟩ := List.any_eq_true.1 hvoid
      simp only [List.not_mem_nil, false_and, exists_false, false_iff]
      rintro ⟨r, -, -, hr⟩
      obtain ⟨q, -, hq⟩ := hr d hd
      have := hq (fun _ => ⟨0, 0, false⟩)
      unfold Inv.searchRow at this
      rw [List.isEmpty_iff.1 hdv] at this
      split at this <;> simp at this
  have hne : ∀ d ∈ c :: cs, d.doc ≠ [] := fun d hd h => hvoid (List.any_eq_true.2 ⟨d, hd, by rw [h]; rfl⟩)
  have hcl : ∀ d ∈ c :: cs, ClauseOK ix rc alternative vacuumed st rs (d.clause stack bad) := by
    intro d hd
    refine ⟨hcov.low d hd, hcov.high d hd, fun lk hlk => ?_⟩
    rcases List.mem_append.1 hlk with hlk | hlk
    · obtain ⟨x, hx, rfl⟩ := List.mem_map.1 hlk
      exact ⟨trivial, fun t ht => hcov.first d hd ⟨d.attnum, .norm, x⟩ rfl (Or.inr ⟨rfl, hx⟩) t ht⟩
    · rw [List.mem_singleton.1 hlk]
      exact ⟨trivial, fun t ht => hcov.first d hd ⟨d.attnum, .nullKey, default⟩ rfl (Or.inl ⟨rfl, rfl⟩) t ht⟩
  have hcl' : ∀ d ∈ c.clause stack bad :: cs.map (fun d => d.clause stack bad), ∃ e ∈ c :: cs, d = e.clause stack bad := by
    intro d hd
    rw [← List.map_cons (f := fun d : InvCond V => d.clause stack bad)] at hd
    obtain ⟨e, he, rfl⟩ := List.mem_map.1 hd
    exact ⟨e, he, rfl⟩
  have hcl'' : ∀ e ∈ c :: cs, e.clause stack bad ∈ c.clause stack bad :: cs.map (fun d => d.clause stack bad) := by
    intro e he
    rw [← List.map_cons (f := fun d : InvCond V => d.clause stack bad)]
    exact List.mem_map_of_mem he
  obtain ⟨N, hN⟩ := hf (c.clause stack bad) (cs.map (fun d => d.clause stack bad))
    (fun d hd => by obtain ⟨e, he, rfl⟩ := hcl' d hd; exact hcl e he)
    (Or.inr (Or.inr (fun d hd => by obtain ⟨e, he, rfl⟩ := hcl' d hd; exact hcov.plain e he)))
  have hrow : ∀ r ∈ rs, ∀ d ∈ c :: cs, _ := fun r hr d hd => cond_row (c := d) hc (hcov.same d hd) (hcol r hr d hd).1 (hcol r hr d hd).2 (hcov.plain d hd)
    (hcov.docs d hd) (hne d hd) (hv r hr _ (hcl d hd))
  refine ⟨N, fun n hn junk => ?_⟩
  obtain ⟨out, h1, h2⟩ := hN n hn junk
  refine ⟨out, by unfold Ix.findInv; rw [if_neg hvoid]; exact h1, h2.ends, h2.once, fun p hp => ?_, fun _ r hr hg hnn => ?_, fun t => ?_⟩
  · obtain ⟨r, hr, he, hacc⟩ := (h2.rows p.1.iptr).1 ⟨p, hp, rfl⟩
    refine ⟨?_, r, hr, he, fun d hd => (hrow r hr d hd).1 (hacc _ (hcl'' d hd))⟩
    cases hb : p.2 with
    | false => rfl
    | true =>
      obtain ⟨d, hd, h3⟩ := (h2.recheck p hp r hr he).1 hb
      obtain ⟨e, he', rfl⟩ := hcl' d hd
      cases h3
  · refine (h2.rows r.tid).2 ⟨r, hr, rfl, fun d hd => ?_⟩
    obtain ⟨e, he, rfl⟩ := hcl' d hd
    exact (hrow r hr e he).2.1 (hnn e he) (hg e he)
  · rw [h2.rows t]
    refine exists_congr (fun r => and_congr_right (fun hr => and_congr_right (fun _ => ⟨fun h d hd => ?_, fun h d hd => ?_⟩)))
    · exact ((hrow r hr d hd).2.2).1 (h _ (hcl'' d hd))
    · obtain ⟨e, he, rfl⟩ := hcl' d hd
      exact ((hrow r hr e he).2.2).2 (h e he)

/-! ### Properties -/

/-- **C68, with VACUUM.** After CREATE INDEX on a table with any rows and any sequence of insertions and VACUUMs, a search of tsquery columns with documents gives the answer
`InvAnswer`. Missing: what `Covered` excludes (posting trees whose leftmost page was emptied by VACUUM, `C23_forward_empty_first_violated`), and the matching rows that
`InvAnswer` does not promise (`C68_missed_violated`, `C68_empty_document_violated`). -/
theorem C68_inverted_partial (ix : Ix V) [Inhabited V] (rc : RowCfg V) (alternative : Bool) (n : Nat) (hc : ColsOK ix ⟨n, true⟩) (hal : ∀ k, 8 ∣ ix.keySize k)
    (hs : ∀ a, SortOK (ix.cmpK a) (rc.sort a)) (hd : ∀ a, DupsSeen (ix.cmpK a) (rc.haveDups a)) (ho : OptionsOK ix rc alternative)
    (qsort tuplesort : (Item Datum → Item Datum → Ordering) → List (Item Datum) → List (Item Datum)) (hq : Sorts qsort) (htp : Sorts tuplesort)
    (join : Nat → Option (Datum → Datum → Datum)) (hj : alternative = true → ∀ a, rc.addTo = some a → join a = none) (full : Nat → Bool)
    (rs : List (Row V)) (hok : ∀ r ∈ rs, RowOK ix rc ⟨n, false⟩ r) (hlen : ∀ r ∈ rs, ∀ a, (ix.colEntries rc a r).length < 2 ^ 31)
    (htid : (rs.map Row.tid).Nodup) (hord : alternative = true → rs.Pairwise (fun r q => cmpIptr r.tid q.tid = .lt))
    (evs : List (Event V)) (hev : Possible ix rc ⟨n, true⟩ rs evs) (attr : Attr) :
    ∃ st, runs ix rc (ix.buildIndex rc qsort full rs) evs = (st, true) ∧
      InvSearches ix rc alternative true attr tuplesort join st (evs.foldl Event.rows rs) := by
  obtain ⟨st, h1, h2⟩ := C53_query_partial ix rc alternative n hc hal hs hd ho qsort tuplesort hq htp join hj full rs hok hlen htid hord evs hev
  exact ⟨st, h1, inv_of_finds hc h2⟩

/-! ### Tables with tsquery columns -/

/-- A row of the table: its TID and the queries in its columns (`none`: NULL). -/
structure IRow where
  tid : Iptr
  col : Nat → Option (Inv.Query (List Nat))

/-- An index with rum_tsquery_ops on `natts` columns: the sizes of the keys in index tuples. -/
structure ISchema where
  natts : Nat
  keySize : AttKey (List Nat) → Nat

/-- A possible row: the TID is one of PostgreSQL's; the queries are such as the code handles, have less than 2^30 words, and the paths of each word take at most 126
bytes; each word fits in an index tuple. -/
structure ISchema.Fits (s : ISchema) (r : IRow) : Prop where
  blk : r.tid.blk < 2 ^ 32
  off : r.tid.off < 2 ^ 16
  valid : 1 ≤ r.tid.off
  queries : ∀ a q, r.col a = some q → InvOK q
  paths : ∀ a q es, r.col a = some q → Inv.extractQuery q = some es → ∀ p ∈ es.lex, p.2.length ≤ 126
  many : ∀ a q es, r.col a = some q → Inv.extractQuery q = some es → es.lex.length < 2 ^ 30
  words : ∀ a, 1 ≤ a → a ≤ s.natts → ∀ q es, r.col a = some q → Inv.extractQuery q = some es → ∀ p ∈ es.lex, alignUp 8 (s.keySize ⟨a, .norm, p.1⟩) ≤ maxTuple
  others : ∀ a c, 1 ≤ a → a ≤ s.natts → c ≠ .norm → alignUp 8 (s.keySize ⟨a, c, default⟩ + 1) ≤ maxTuple

/-- The index: additional info of type bytea (ruminv_tsquery_config, `/repo/src/rumtsquery.c:589-597`), keys ordered by gin_cmp_tslexeme. -/
def ISchema.ix (s : ISchema) : Ix (List Nat) := ⟨fun _ => tsCompare, s.keySize, fun _ => ⟨⟨false, some ftAttr⟩, false, fun _ _ => .eq⟩, false⟩

/-- The row as the index sees it, with ruminv_extract_tsquery. -/
def ISchema.row (_s : ISchema) (r : IRow) : Row (List Nat) := ⟨r.tid, fun a => invValue ftAttr (r.col a), none⟩

def ISchema.rc (s : ISchema) (sort : Nat → List (Raw (List Nat) Datum) → List (Raw (List Nat) Datum)) (haveDups : Nat → List (Raw (List Nat) Datum) → Bool) :
    RowCfg (List Nat) := ⟨s.natts, sort, haveDups, none, fun _ => true⟩

section
variable {s : ISchema} {sort : Nat → List (Raw (List Nat) Datum) → List (Raw (List Nat) Datum)} {haveDups : Nat → List (Raw (List Nat) Datum) → Bool}

theorem cols_ok (b : Bool) : ColsOK s.ix ⟨160, b⟩ where
  keys := fun _ => (inferInstance : TransCmp tsCompare)
  infos := fun _ => { eq_swap := rfl, isLE_trans := fun _ _ => rfl }
  sizes := fun _ => ⟨(by decide : 3 * 160 + 40 ≤ dataCap), by decide, (by decide : padOf (⟨false, some ftAttr⟩ : Cfg) ∣ 8), fun _ => (by decide : padOf (⟨false, some ftAttr⟩ : Cfg) ∣ 4)⟩

theorem stored_short {p : List Nat} (h : p.length ≤ 126) : Datum.stored ftAttr (.varlena .full p) = .varlena .short p := by
  have : p.length + 1 ≤ 0x7f := by omega
  have hp : packable ftAttr = true := by decide
  simp only [Datum.stored, hp, canMakeShort, this, decide_true, Bool.and_self, if_true]

theorem storable {r : IRow} (h : s.Fits r) (a : Nat) (b : Bool) (i : Option (List Nat)) (hi : ∀ p, i = some p → p.length ≤ 126) :
    Storable (s.ix.ctx a) ⟨160, b⟩ ⟨r.tid, i.map (fun p => .varlena .short p)⟩ := by
  have hsz := Plain.size_le r.tid ⟨0, 0⟩ h.off
  refine ⟨⟨⟨h.blk, h.off⟩, fun h => (by cases h), fun d hd => ?_⟩, ?_, h.valid, ?_, fun _ => ?_⟩
  · cases i with
    | none => cases hd
    | some p =>
      simp only [Option.map_some, Option.some.injEq] at hd
      subst hd
      have := hi p rfl
      exact ⟨ftAttr, rfl, rfl, rfl, (by decide : 0 < 4), (by omega : p.length + 1 ≤ 0x7f)⟩
  · cases i with
    | none => rfl
    | some p =>
      show (⟨r.tid, some (Datum.stored ftAttr (.varlena .short p))⟩ : Item Datum) = _
      simp [Datum.stored, canMakeShort]
  · cases i with
    | none =>
      show 0 + sizeIptr false r.tid ⟨0, 0⟩ ≤ 160
      omega
    | some p =>
      have := hi p rfl
      show computeSize ftAttr (0 + sizeIptr false r.tid ⟨0, 0⟩) (.varlena .short p) ≤ 160
      have hc : canMakeShort .short p = false := rfl
      simp only [computeSize, hc, Bool.and_false, Bool.false_eq_true, if_false]
      omega
  · cases i <;> rfl

/-- What the index gets for a column. -/
theorem raws_ok {r : IRow} (h : s.Fits r) {a : Nat} {raws : List (Raw (List Nat) Datum)} (hr : invValue ftAttr (r.col a) = some raws) :
    raws.length < 2 ^ 31 ∧ ∀ raw ∈ raws, (∃ i : Option (List Nat), raw.info = i.map (fun p => .varlena .short p) ∧ ∀ p, i = some p → p.length ≤ 126) ∧
      (1 ≤ a → a ≤ s.natts → ∀ k, raw.key = some k → alignUp 8 (s.keySize ⟨a, .norm, k⟩) ≤ maxTuple) := by
  cases hq : r.col a with
  | none => rw [hq] at hr; cases hr
  | some q =>
    rw [hq] at hr
    simp only [invValue] at hr
    cases he : Inv.extractQuery q with
    | none => rw [he] at hr; cases hr; simp
    | some es =>
      rw [he] at hr
      simp only [Option.some.injEq] at hr
      subst hr
      refine ⟨?_, fun raw hraw => ?_⟩
      · have := h.many a q es hq he
        unfold invEntries
        rw [List.length_append, List.length_map]
        split <;> simp <;> omega
      · rcases List.mem_append.1 hraw with hraw | hraw
        · obtain ⟨p, hp, rfl⟩ := List.mem_map.1 hraw
          have hl := h.paths a q es hq he p hp
          refine ⟨⟨some p.2, by rw [stored_short hl]; rfl, fun x hx => by cases hx; exact hl⟩, fun h1 h2 k hk => ?_⟩
          cases hk
          exact h.words a h1 h2 q es hq he p hp
        · split at hraw
          · rw [List.mem_singleton.1 hraw]
            exact ⟨⟨none, rfl, fun x hx => by cases hx⟩, fun _ _ k hk => by cases hk⟩
          · cases hraw

theorem row_ok (hs : ∀ a, SortOK tsCompare (sort a)) (hd : ∀ a, DupsSeen tsCompare (haveDups a)) {r : IRow} (h : s.Fits r) (b : Bool) :
    RowOK s.ix (s.rc sort haveDups) ⟨160, b⟩ (s.row r) := by
  intro a h1 h2 o ho
  have ho : o ∈ extractEntries tsCompare (sort a) (haveDups a) (invValue ftAttr (r.col a)) := ho
  obtain ⟨e1, e2, e3⟩ := C18_extract tsCompare (sort a) (haveDups a) (hs a) (hd a)
  cases hv : invValue ftAttr (r.col a) with
  | none =>
    rw [hv] at ho
    simp only [e1, List.mem_singleton] at ho
    subst ho
    exact ⟨fun h => (by cases h), h.others a .nullItem h1 h2 (by simp), storable h a b none (fun n h => by cases h)⟩
  | some raws =>
    rw [hv] at ho
    by_cases hne : raws = []
    · subst hne
      simp only [e2, List.mem_singleton] at ho
      subst ho
      exact ⟨fun h => (by cases h), h.others a .emptyItem h1 h2 (by simp), storable h a b none (fun n h => by cases h)⟩
    · obtain ⟨-, -, e4, -⟩ := e3 raws hne
      obtain ⟨raw, hraw, g⟩ := e4 o ho
      obtain ⟨⟨i, hi1, hi2⟩, hk⟩ := (raws_ok h hv).2 raw hraw
      obtain ⟨cat, key, info⟩ := o
      simp only at g
      obtain ⟨rfl, rfl, g3, g4⟩ := g
      refine ⟨fun _ => rfl, ?_, ?_⟩
      · cases hrk : raw.key with
        | none => rw [g3.2 hrk]; exact h.others a .nullKey h1 h2 (by simp)
        | some k => rw [g4.2 (by rw [hrk]; simp)]; exact hk h1 h2 k hrk
      · show Storable (s.ix.ctx a) ⟨160, b⟩ ⟨r.tid, raw.info⟩
        rw [hi1]; exact storable h a b i hi2

theorem entries_length (hs : ∀ a, SortOK tsCompare (sort a)) {r : IRow} (h : s.Fits r) (a : Nat) :
    (s.ix.colEntries (s.rc sort haveDups) a (s.row r)).length < 2 ^ 31 := by
  show (extractEntries tsCompare (sort a) (haveDups a) (invValue ftAttr (r.col a))).length < 2 ^ 31
  cases hv : invValue ftAttr (r.col a) with
  | none => simp [extractEntries]
  | some raws =>
    have h3 := (raws_ok h hv).1
    match raws, h3 with
    | [], _ => simp [extractEntries]
    | [r], _ => simp [extractEntries]
    | r1 :: r2 :: rest, h3 =>
      have hp := ((hs a).perm (r1 :: r2 :: rest)).length_eq
      simp only [extractEntries]
      cases hso : sort a (r1 :: r2 :: rest) with
      | nil => simp
      | cons x xs =>
        rw [hso] at hp
        simp only
        have := ArraySearch.length_dedup (cmpK := tsCompare) xs x
        simp only [List.length_cons] at hp h3
        split <;> simp <;> omega
end

/-- **C68.** An index with rum_tsquery_ops, created on a table with any rows; then any number of insertions. A search of the query columns with any number of documents
ends, returns no row twice, and only rows all of whose queries match (nothing is left to check). If no document is empty, every row all of whose queries match is
returned, if no operator inside of these queries is true of the empty document. Missing: rows with other queries, and the empty document, where matching rows are missed
(`C68_missed_violated`, `C68_empty_document_violated`). -/
theorem C68_inverted_table_partial (s : ISchema)
    (sort : Nat → List (Raw (List Nat) Datum) → List (Raw (List Nat) Datum)) (haveDups : Nat → List (Raw (List Nat) Datum) → Bool) (hs : ∀ a, SortOK tsCompare (sort a))
    (hd : ∀ a, DupsSeen tsCompare (haveDups a))
    (qsort tuplesort : (Item Datum → Item Datum → Ordering) → List (Item Datum) → List (Item Datum)) (hq : Sorts qsort) (htp : Sorts tuplesort) (full : Nat → Bool)
    (rs new : List IRow) (hok : ∀ r ∈ rs ++ new, s.Fits r) (htid : ((rs ++ new).map IRow.tid).Nodup) :
    ∃ st t, s.ix.buildIndex (s.rc sort haveDups) qsort full (rs.map s.row) = (st, true) ∧
      s.ix.insertRows (s.rc sort haveDups) st (new.map s.row) = (t, true) ∧
      ∀ (stack : List (Option (Option Datum)) → Nat → Inv.Node) (bad : List (Option (Option Datum)) → Bool) (c : InvCond (List Nat)) (cs : List (InvCond (List Nat))),
        (∀ d ∈ c :: cs, 1 ≤ d.attnum ∧ d.attnum ≤ s.natts) → (∀ d ∈ c :: cs, d.doc.Nodup) →
        ∃ N, ∀ n, N ≤ n → ∀ junk, ∃ out, s.ix.findInv (s.rc sort haveDups) false stack bad tuplesort (fun _ => none) t junk n c cs = some out ∧ out.2 = true ∧
          (out.1.map (fun p => p.1.iptr)).Nodup ∧
          (∀ p ∈ out.1, p.2 = false ∧ ∃ r ∈ rs ++ new, r.tid = p.1.iptr ∧ ∀ d ∈ c :: cs, InvTrue d.doc (r.col d.attnum)) ∧
          ((∀ d ∈ c :: cs, d.doc ≠ []) → ∀ r ∈ rs ++ new, (∀ d ∈ c :: cs, InvTrue d.doc (r.col d.attnum)) →
            (∀ d ∈ c :: cs, ∀ q, r.col d.attnum = some q → NoHiddenNegative q none false) → ∃ p ∈ out.1, p.1.iptr = r.tid) ∧
          (∀ r ∈ rs ++ new, (∃ p ∈ out.1, p.1.iptr = r.tid) ↔ ∀ d ∈ c :: cs, Decided d.doc (r.col d.attnum)) := by
  obtain ⟨st, t, h1, h2, h3⟩ := C53_query_inserted_partial s.ix (s.rc sort haveDups) false ⟨160, false⟩ rfl (cols_ok false) hs hd (fun a => ⟨rfl, rfl⟩) qsort tuplesort hq htp
    (fun _ => none) (fun h => by cases h) full (rs.map s.row)
    (fun r hr => by obtain ⟨p, hp, rfl⟩ := List.mem_map.1 hr; exact row_ok hs hd (hok p (List.mem_append_left _ hp)) false)
    (fun r hr a => by obtain ⟨p, hp, rfl⟩ := List.mem_map.1 hr; exact entries_length hs (hok p (List.mem_append_left _ hp)) a) (fun h => by cases h) (new.map s.row)
    (fun r hr => by obtain ⟨p, hp, rfl⟩ := List.mem_map.1 hr; exact row_ok hs hd (hok p (List.mem_append_right _ hp)) false)
    (by rw [← List.map_append, List.map_map]; exact htid)
  rw [← List.map_append] at h3
  refine ⟨st, t, h1, h2, fun stack bad c cs hat hdoc => ?_⟩
  classical
  have hinj : ∀ p ∈ rs ++ new, ∀ q ∈ rs ++ new, p.tid = q.tid → p = q := fun p hp q hq h => List.inj_on_of_nodup_map htid hp hq h
  -- the queries of a row, by its TID
  let col : Row (List Nat) → Nat → Option (Inv.Query (List Nat)) := fun r a => if h : ∃ p ∈ rs ++ new, p.tid = r.tid then (Classical.choose h).col a else none
  have hcol : ∀ p ∈ rs ++ new, ∀ a, col (s.row p) a = p.col a := by
    intro p hp a
    have hex : ∃ q ∈ rs ++ new, q.tid = (s.row p).tid := ⟨p, hp, rfl⟩
    show (if h : ∃ q ∈ rs ++ new, q.tid = (s.row p).tid then (Classical.choose h).col a else none) = _
    rw [dif_pos hex]
    have hspec := Classical.choose_spec hex
    rw [hinj _ hspec.1 p hp hspec.2]
  obtain ⟨N, hN⟩ := inv_of_finds (attr := ftAttr) (cols_ok false) h3 col stack bad c cs
    (fun r hr d _ => by obtain ⟨p, hp, rfl⟩ := List.mem_map.1 hr; rw [hcol p hp]; exact ⟨rfl, fun q hq => (hok p hp).queries _ q hq⟩)
    ⟨fun d hd => (hat d hd).1, fun d hd => (hat d hd).2, fun d _ h => (by cases h), hdoc,
      fun _ _ _ _ h => LawfulEqCmp.eq_of_compare (cmp := tsCompare) h, fun _ _ _ _ _ _ _ => Or.inr rfl⟩
  refine ⟨N, fun n hn junk => ?_⟩
  obtain ⟨out, g1, g2⟩ := hN n hn junk
  refine ⟨out, g1, g2.ends, g2.once, fun p hp => ?_, fun hne r hr hg hnn => ?_, fun r hr => ?_⟩
  · obtain ⟨hr, r, hr', he, hg⟩ := g2.sound p hp
    obtain ⟨q, hq', rfl⟩ := List.mem_map.1 hr'
    exact ⟨hr, q, hq', he, fun d hd => by have := hg d hd; rwa [hcol q hq'] at this⟩
  · exact g2.complete hne (s.row r) (List.mem_map_of_mem hr) (fun d hd => by rw [hcol r hr]; exact hg d hd) (fun d hd q hq' => hnn d hd q (by rw [← hcol r hr]; exact hq'))
  · rw [g2.decided r.tid]
    constructor
    · rintro ⟨x, hx, he, hg⟩ d hd
      obtain ⟨y, hy, rfl⟩ := List.mem_map.1 hx
      have := hg d hd
      rwa [hcol y hy, hinj y hy r hr he] at this
    · exact fun h => ⟨s.row r, List.mem_map_of_mem hr, rfl, fun d hd => by rw [hcol r hr]; exact h d hd⟩

/-! ### Concrete case -/

def exISchema : ISchema := ⟨1, fun _ => 16⟩
def exI (n : Nat) (q : Option (Inv.Query (List Nat))) : IRow := ⟨⟨n, 1⟩, fun a => if a = 1 then q else none⟩

/-- The words of the example. -/
def wA : List Nat := [97]
def wB : List Nat := [98]
def wC : List Nat := [99]

/-- `a & !b`, `!b`, NULL, `a | (b & c)`, and `a & (!b | c)`, in which an operator inside is true of the empty document. -/
def exQueries : List (Option (Inv.Query (List Nat))) :=
  [some (.and (.val wA) (.not (.val wB))), some (.not (.val wB)), none, some (.or (.val wA) (.and (.val wB) (.val wC))), some (.and (.val wA) (.or (.not (.val wB)) (.val wC)))]

def exIRows : List IRow := (exQueries.zipIdx 1).map (fun p => exI p.2 p.1)

theorem exIFits (n : Nat) (hn : n < 400) (q : Option (Inv.Query (List Nat))) (hq : q ∈ exQueries) : exISchema.Fits (exI n q) := by
  have hcol : ∀ a x, (exI n q).col a = some x → some x ∈ exQueries := by
    intro a x hx
    have hx : (if a = 1 then q else none) = some x := hx
    split at hx
    · rw [← hx]; exact hq
    · cases hx
  have hall : ∀ x, some x ∈ exQueries → x.size < 100 ∧ x.ops ≤ 256 ∧ ∀ es, Inv.extractQuery x = some es → es.lex.length < 100 ∧ ∀ p ∈ es.lex, p.2.length ≤ 126 := by
    intro x hx
    simp only [exQueries, List.mem_cons, List.not_mem_nil, or_false, Option.some.injEq, reduceCtorEq, false_or] at hx
    rcases hx with rfl | rfl | rfl | rfl <;> refine ⟨by decide, by decide, fun es he => ?_⟩ <;>
      (have he := he.symm.trans (Option.some_get (by decide +kernel)).symm; cases he; decide +kernel)
  have hplain : ∀ x, some x ∈ exQueries → x.Plain := by
    intro x hx
    simp only [exQueries, List.mem_cons, List.not_mem_nil, or_false, Option.some.injEq, reduceCtorEq, false_or] at hx
    rcases hx with rfl | rfl | rfl | rfl <;> simp [Inv.Query.Plain]
  exact {
    blk := by show n < 2 ^ 32; omega
    off := by show 1 < 2 ^ 16; omega
    valid := Nat.le_refl 1
    queries := fun a x hx => ⟨hplain x (hcol a x hx), by have := (hall x (hcol a x hx)).1; omega, (hall x (hcol a x hx)).2.1⟩
    paths := fun a x es hx he => ((hall x (hcol a x hx)).2.2 es he).2
    many := fun a x es hx he => by have := ((hall x (hcol a x hx)).2.2 es he).1; omega
    words := fun _ _ _ _ _ _ _ _ _ => (by decide : alignUp 8 16 ≤ maxTuple)
    others := fun _ _ _ _ _ => (by decide : alignUp 8 (16 + 1) ≤ maxTuple) }

/-- The hypotheses are met. -/
example : (∀ r ∈ exIRows, exISchema.Fits r) ∧ (exIRows.map IRow.tid).Nodup ∧ ([wA, wC] : List (List Nat)).Nodup := by
  refine ⟨fun r hr => ?_, by decide, by decide⟩
  obtain ⟨p, hp, rfl⟩ := List.mem_map.1 hr
  obtain ⟨h1, h2, h3⟩ := List.mem_zipIdx hp
  exact exIFits _ (by simp [exQueries] at h2; omega) _ (by rw [h3]; exact List.getElem_mem _)

/-- What the index answers, after the rows were inserted. -/
def exAnswer (doc : List (List Nat)) : Option (List (Iptr × Bool)) :=
  (exISchema.ix.findInv (exISchema.rc (fun _ l => l) (fun _ _ => true)) false (fun _ _ => ⟨0, 0, false⟩) (fun _ => true) altSort (fun _ => none)
    (exISchema.ix.insertRows (exISchema.rc (fun _ l => l) (fun _ _ => true)) emptyIndex (exIRows.map exISchema.row)).1 ⟨⟨0, 0⟩, none⟩ 30 ⟨1, doc⟩ []).map
    (fun o => o.1.map (fun p => (p.1.iptr, p.2)))

example : exAnswer [wC] = some [(⟨2, 1⟩, false)] ∧ exAnswer [wB, wC] = some [(⟨4, 1⟩, false)] := by decide +kernel

/-- What every search says about the first row of a table that is the only one. -/
def OneRow (q : Inv.Query (List Nat)) (doc : List (List Nat)) (good : List (Item Datum × Bool) → Prop) : Prop :=
  ∀ (sort : Nat → List (Raw (List Nat) Datum) → List (Raw (List Nat) Datum)) (haveDups : Nat → List (Raw (List Nat) Datum) → Bool)
    (qsort tuplesort : (Item Datum → Item Datum → Ordering) → List (Item Datum) → List (Item Datum)) (full : Nat → Bool),
    (∀ a, SortOK tsCompare (sort a)) → (∀ a, DupsSeen tsCompare (haveDups a)) → Sorts qsort → Sorts tuplesort →
    ∃ st, exISchema.ix.buildIndex (exISchema.rc sort haveDups) qsort full [exISchema.row (exI 1 (some q))] = (st, true) ∧
      ∀ stack bad, ∃ N, ∀ n, N ≤ n → ∀ junk, ∃ out,
        exISchema.ix.findInv (exISchema.rc sort haveDups) false stack bad tuplesort (fun _ => none) st junk n ⟨1, doc⟩ [] = some out ∧ good out.1

theorem one_row {q : Inv.Query (List Nat)} (hq : some q ∈ exQueries) {doc : List (List Nat)} (hd : doc.Nodup)
    (hno : Inv.searchRow (fun _ => ⟨0, 0, false⟩) q doc = some false) : OneRow q doc (fun out => out = []) := by
  intro sort haveDups qsort tuplesort full hs hd' hqs htp
  obtain ⟨st, t, h1, h2, h3⟩ := C68_inverted_table_partial exISchema sort haveDups hs hd' qsort tuplesort hqs htp full [exI 1 (some q)] []
    (fun r hr => by rw [List.append_nil] at hr; rw [List.mem_singleton.1 hr]; exact exIFits 1 (by omega) _ hq) (by simp)
  simp only [List.map_nil, Ix.insertRows, Prod.mk.injEq, and_true] at h2
  subst h2
  refine ⟨st, h1, fun stack bad => ?_⟩
  obtain ⟨N, hN⟩ := h3 stack bad ⟨1, doc⟩ [] (by simp [exISchema]) (by simpa using hd)
  refine ⟨N, fun n hn junk => ?_⟩
  obtain ⟨out, g1, -, -, g4, -, g6⟩ := hN n hn junk
  refine ⟨out, g1, ?_⟩
  show out.1 = []
  rw [List.eq_nil_iff_forall_not_mem]
  intro p hp
  obtain ⟨-, r, hr, he, -⟩ := g4 p hp
  have := (g6 r hr).1 ⟨p, hp, he.symm⟩ ⟨1, doc⟩ (by simp)
  simp only [List.append_nil, List.mem_singleton] at hr
  subst hr
  obtain ⟨q', hq', hall⟩ := this
  cases (show some q = some q' from hq')
  have := hall (fun _ => ⟨0, 0, false⟩)
  rw [hno] at this
  cases this

/-- **C68 is violated by the code**: `a & (!b | c)` is true of the document `a`, but a search of a table with this query does not return it. -/
theorem C68_missed_violated : InvTrue [wA] (some (.and (.val wA) (.or (.not (.val wB)) (.val wC)))) ∧
    OneRow (.and (.val wA) (.or (.not (.val wB)) (.val wC))) [wA] (fun out => out = []) :=
  ⟨by unfold InvTrue; decide, one_row (by simp [exQueries]) (by decide) (by decide +kernel)⟩

/-- **C68 is violated by the code**: `!b` is true of the empty document, but a search with it returns nothing. -/
theorem C68_empty_document_violated : InvTrue [] (some (.not (.val wB))) ∧ OneRow (.not (.val wB)) [] (fun out => out = []) :=
  ⟨by unfold InvTrue; decide, one_row (by simp [exQueries]) (by decide) (by decide +kernel)⟩

end Rum.Props.InvSearch

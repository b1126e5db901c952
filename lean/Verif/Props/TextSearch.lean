import Verif.TextSearch
import Verif.Props.SearchAnswer
import Verif.Props.FullText
import Verif.Props.ArraySearch
import Verif.Props.Positions
/-!
# C57: full-text searches with any query return the matching rows

As C51, with prefix operands, with queries that match documents with none of their words, and with several conditions.
-/
namespace Rum.Props.TextSearch
open Rum.Ts hiding Stands
open Rum Rum.Codec Rum.Leaf Rum.Entry Rum.Tree Rum.Index Rum.Extract Rum.Props Rum.Props.PostingTree Rum.Props.Index Rum.Props.IndexVacuum Rum.Props.Bulk
  Rum.Props.Query Rum.Props.Collect Rum.Props.Search Rum.Props.FullText Rum.Pos Rum.FullText Std

variable {L V : Type}

/-! ### Specification -/

/-- The words of a document that a prefix operand stands for: all have positions or none has, and no position has two of them with different weights. (Otherwise:
`C57_mixed_violated`, `C57_weights_violated`.) -/
structure PrefixWords (begins : L → L → Prop) (o : Opnd L) (v : TsVector L) : Prop where
  alike : (∀ w ∈ v, begins o.lex w.1 → w.2 = none) ∨ ∀ w ∈ v, begins o.lex w.1 → ∃ ps, w.2 = some ps ∧ ps ≠ []
  weights : ∀ w ∈ v, begins o.lex w.1 → ∀ u ∈ v, begins o.lex u.1 → ∀ x ∈ w.2.getD [], ∀ y ∈ u.2.getD [], wepPos x = wepPos y → x = y

/-- The operator class can tell the words of the document a prefix operand stands for: the partial match function is one, it accepts the keys of these words, and different words
have different keys. -/
structure PrefixKeys (k : TsClass L V) (cmpK : V → V → Ordering) (begins : L → L → Prop) (o : Opnd L) (v : TsVector L) : Prop where
  range : RangeOK cmpK (k.build o.lex) (k.prefixCmp o.lex)
  accepts : ∀ w ∈ v, k.prefixCmp o.lex (k.build w.1) = 0 ↔ begins o.lex w.1
  keys : ∀ w ∈ v, ∀ u ∈ v, cmpK (k.build w.1) (k.build u.1) = .eq → w.1 = u.1

/-! ### Occurrences with the same positions -/

/-- The same but for the order and repetition of positions. -/
def SameOcc : Occ → Occ → Prop
  | .absent, .absent => True
  | .noPos, .noPos => True
  | .at ps, .at qs => ∀ x, x ∈ ps ↔ x ∈ qs
  | _, _ => False

section
variable {O : Type}

theorem sem_same {d d' : O → Occ} (q : Query O) (h : ∀ o ∈ operands q, SameOcc (d o) (d' o)) : sem d q = sem d' q := by
  induction q with
  | val o w =>
    have := h o (by simp [operands])
    unfold sem
    cases h1 : d o <;> cases h2 : d' o <;> rw [h1, h2] at this <;> first | rfl | exact this.elim | (simp only [SameOcc] at this; simp only [this])
  | not q ih => simp only [sem, ih h]
  | and l r hl hr | or l r hl hr | phrase k l r hl hr =>
    have h1 := hl (fun o ho => h o (by simp [operands, ho]))
    have h2 := hr (fun o ho => h o (by simp [operands, ho]))
    unfold sem
    rw [h1, h2]

theorem matches_same (unk : O → Nat → Prop) {d d' : O → Occ} (q : Query O) (h : ∀ o ∈ operands q, SameOcc (d o) (d' o)) :
    Ts.Matches unk d q ↔ Ts.Matches unk d' q := by
  induction q with
  | val o w =>
    have := h o (by simp [operands])
    simp only [Ts.Matches]
    cases h1 : d o <;> cases h2 : d' o <;> rw [h1, h2] at this <;> first | rfl | exact this.elim | (simp only [SameOcc] at this; simp only [this])
  | not q ih => simp only [Ts.Matches, ih h]
  | and l r hl hr | or l r hl hr =>
    simp only [Ts.Matches, hl (fun o ho => h o (by simp [operands, ho])), hr (fun o ho => h o (by simp [operands, ho]))]
  | phrase k l r _ _ => simp only [Ts.Matches, sem_same (.phrase k l r) h]

/-! ### Without positions -/

/-- What a phrase evaluation without positions can know: the operand matches nowhere, or it matches everywhere. -/
theorem blind_phrase {doc : O → Occ} {e : O → Stored} (q : Query O) (h : ∀ o ∈ operands q, e o = .absent ↔ doc o = .absent) :
    ((phraseExec true (fun o w => chkPhrase true (e o) w) q).1 = .no →
      (phraseExec true (fun o w => chkPhrase true (e o) w) q).2.pos = [] ∧ (phraseExec true (fun o w => chkPhrase true (e o) w) q).2.negate = false ∧
      sem.nowhere (sem doc q)) ∧
    ((phraseExec true (fun o w => chkPhrase true (e o) w) q).1 = .yes →
      (phraseExec true (fun o w => chkPhrase true (e o) w) q).2.pos = [] ∧ (phraseExec true (fun o w => chkPhrase true (e o) w) q).2.negate = true ∧
      ∃ n, sem doc q = some (n, fun _ => True)) := by
  have nw : ∀ {n : Nat}, ¬ sem.nowhere (some (n, fun _ => True)) := by
    rintro n ⟨y, hy, h⟩
    cases hy
    exact h 0 trivial
  have nowh : sem.nowhere (some (0, fun _ => False)) := ⟨_, rfl, fun _ h => h⟩
  induction q with
  | val o w =>
    have ho := h o (by simp [operands])
    simp only [phraseExec]
    cases he : e o with
    | absent =>
      have := ho.1 he
      refine ⟨fun _ => ⟨rfl, rfl, ?_⟩, fun h => (by cases h)⟩
      simp only [sem, this]
      exact nowh
    | null => exact ⟨fun h => (by simp [chkPhrase] at h), fun h => (by simp [chkPhrase] at h)⟩
    | bytes b => exact ⟨fun h => (by simp [chkPhrase] at h), fun h => (by simp [chkPhrase] at h)⟩
  | not q ih =>
    have ih := ih h
    simp only [phraseExec]
    generalize phraseExec true (fun o w => chkPhrase true (e o) w) q = X at ih ⊢
    obtain ⟨t, d⟩ := X
    cases t with
    | no =>
      obtain ⟨h1, h2, y, hy, hn⟩ := ih.1 rfl
      refine ⟨fun h => (by cases h), fun _ => ⟨h1, rfl, y.1, ?_⟩⟩
      simp only [sem, hy, Option.map_some, Option.some.injEq, Prod.mk.injEq, true_and]
      funext p
      simp [hn p]
    | yes =>
      obtain ⟨h1, h2, n, hn⟩ := ih.2 rfl
      simp only at h1 h2
      simp only [notOutput, h1, h2, ne_eq, not_true, if_false, if_true]
      refine ⟨fun _ => ⟨trivial, trivial, ⟨(n, fun _ => False), ?_, fun _ h => h⟩⟩, fun h => (by cases h)⟩
      simp [sem, hn]
    | maybe => exact ⟨fun h => (by cases h), fun h => (by cases h)⟩
  | phrase k l r hl hr =>
    have hl := hl (fun o ho => h o (by simp [operands, ho]))
    have hr := hr (fun o ho => h o (by simp [operands, ho]))
    simp only [phraseExec, sem, sem.both]
    generalize phraseExec true (fun o w => chkPhrase true (e o) w) l = X at hl ⊢
    generalize phraseExec true (fun o w => chkPhrase true (e o) w) r = Y at hr ⊢
    by_cases h1 : X.1 = .no
    · rw [if_pos h1, if_pos (Or.inl (hl.1 h1).2.2)]
      exact ⟨fun _ => ⟨rfl, rfl, nowh⟩, fun h => (by cases h)⟩
    · rw [if_neg h1]
      by_cases h2 : Y.1 = .no
      · rw [if_pos h2, if_pos (Or.inr (hr.1 h2).2.2)]
        exact ⟨fun _ => ⟨rfl, rfl, nowh⟩, fun h => (by cases h)⟩
      · rw [if_neg h2]
        split
        · exact ⟨fun h => (by cases h), fun h => (by cases h)⟩
        · rw [if_pos trivial]
          exact ⟨fun h => (by cases h), fun h => (by cases h)⟩
  | and l r hl hr =>
    have hl := hl (fun o ho => h o (by simp [operands, ho]))
    have hr := hr (fun o ho => h o (by simp [operands, ho]))
    simp only [phraseExec, sem, sem.both]
    generalize phraseExec true (fun o w => chkPhrase true (e o) w) l = X at hl ⊢
    generalize phraseExec true (fun o w => chkPhrase true (e o) w) r = Y at hr ⊢
    by_cases h1 : X.1 = .no
    · rw [if_pos h1, if_pos (Or.inl (hl.1 h1).2.2)]
      exact ⟨fun _ => ⟨rfl, rfl, nowh⟩, fun h => (by cases h)⟩
    · rw [if_neg h1]
      by_cases h2 : Y.1 = .no
      · rw [if_pos h2, if_pos (Or.inr (hr.1 h2).2.2)]
        exact ⟨fun _ => ⟨rfl, rfl, nowh⟩, fun h => (by cases h)⟩
      · rw [if_neg h2]
        split
        · exact ⟨fun h => (by cases h), fun h => (by cases h)⟩
        · next h3 =>
          have y1 : X.1 = .yes := by cases hx : X.1 <;> simp_all
          have y2 : Y.1 = .yes := by cases hx : Y.1 <;> simp_all
          obtain ⟨p1, n1, m1, e1⟩ := hl.2 y1
          obtain ⟨p2, n2, m2, e2⟩ := hr.2 y2
          rw [e1, e2]
          unfold andOutput
          rw [if_pos ⟨n1, n2⟩]
          refine ⟨fun h => (by cases h), fun _ => ⟨?_, rfl, max m1 m2, ?_⟩⟩
          · simp [phraseOutput, p1, p2, outLoop]
          · rw [if_neg (by simp [nw])]
            simp
  | or l r hl hr =>
    have hl := hl (fun o ho => h o (by simp [operands, ho]))
    have hr := hr (fun o ho => h o (by simp [operands, ho]))
    simp only [phraseExec]
    generalize phraseExec true (fun o w => chkPhrase true (e o) w) l = X at hl ⊢
    generalize phraseExec true (fun o w => chkPhrase true (e o) w) r = Y at hr ⊢
    unfold sem
    by_cases h1 : X.1 = .no ∧ Y.1 = .no
    · rw [if_pos h1, if_pos ⟨(hl.1 h1.1).2.2, (hr.1 h1.2).2.2⟩]
      exact ⟨fun _ => ⟨rfl, rfl, nowh⟩, fun h => (by cases h)⟩
    · rw [if_neg h1]
      split
      · exact ⟨fun h => (by cases h), fun h => (by cases h)⟩
      · next h3 =>
        have hX : X.1 = .no ∨ X.1 = .yes := by cases hx : X.1 <;> simp_all
        have hY : Y.1 = .no ∨ Y.1 = .yes := by cases hx : Y.1 <;> simp_all
        have pX : X.2.pos = [] := by
          rcases hX with h | h
          · exact (hl.1 h).1
          · exact (hl.2 h).1
        have pY : Y.2.pos = [] := by
          rcases hY with h | h
          · exact (hr.1 h).1
          · exact (hr.2 h).1
        rcases hX with x1 | x1 <;> rcases hY with y1 | y1
        · exact absurd ⟨x1, y1⟩ h1
        · obtain ⟨-, n2, m2, e2⟩ := hr.2 y1
          obtain ⟨-, n1, Z, e1, hZ⟩ := hl.1 x1
          refine ⟨fun h => ?_, fun _ => ⟨?_, ?_, ?_⟩⟩
          · simp [orOutput, x1, y1, n1, n2] at h
          · simp [orOutput, x1, y1, n1, n2, phraseOutput, pX, pY, outLoop]
          · simp [orOutput, x1, y1, n1, n2]
          · rw [e1, e2, if_neg (by simp [nw])]
            simp
        · obtain ⟨-, n2, m2, e2⟩ := hl.2 x1
          obtain ⟨-, n1, Z, e1, hZ⟩ := hr.1 y1
          refine ⟨fun h => ?_, fun _ => ⟨?_, ?_, ?_⟩⟩
          · simp [orOutput, x1, y1, n1, n2] at h
          · simp [orOutput, x1, y1, n1, n2, phraseOutput, pX, pY, outLoop]
          · simp [orOutput, x1, y1, n1, n2]
          · rw [e1, e2, if_neg (by simp [nw])]
            simp
        · obtain ⟨-, n1, m1, e1⟩ := hl.2 x1
          obtain ⟨-, n2, m2, e2⟩ := hr.2 y1
          refine ⟨fun h => ?_, fun _ => ⟨?_, ?_, ?_⟩⟩
          · simp [orOutput, x1, y1, n1, n2] at h
          · simp [orOutput, x1, y1, n1, n2, phraseOutput, pX, pY, outLoop]
          · simp [orOutput, x1, y1, n1, n2]
          · rw [e1, e2, if_neg (by simp [nw])]
            simp

/-- A search without positions is right about what it is sure of. -/
theorem blind_execute (unk : O → Nat → Prop) {doc : O → Occ} {e : O → Stored} (q : Query O) : (∀ o ∈ operands q, e o = .absent ↔ doc o = .absent) → ∀ b,
    (execute true (fun o w => chkPhrase true (e o) w) (fun o w => chkPlain true (e o) w) b q = .no → ¬ Ts.Matches unk doc q) ∧
    (execute true (fun o w => chkPhrase true (e o) w) (fun o w => chkPlain true (e o) w) b q = .yes → Ts.Matches unk doc q) := by
  induction q with
  | val o w =>
    intro h b
    have ho := h o (by simp [operands])
    simp only [execute]
    split
    · exact ⟨fun h => (by cases h), fun h => (by cases h)⟩
    · cases he : e o with
      | absent => simp [chkPlain, Ts.Matches, ho.1 he]
      | null => simp [chkPlain]
      | bytes _ => simp [chkPlain]
  | not q ih =>
    intro h b
    have := ih h true
    simp only [execute, Ts.Matches]
    split <;> simp_all
  | and l r hl hr | or l r hl hr =>
    intro h b
    have h1 := hl (fun o ho => h o (by simp [operands, ho])) b
    have h2 := hr (fun o ho => h o (by simp [operands, ho])) b
    simp only [execute, Ts.Matches]
    split
    · simp_all
    · split <;> simp_all
  | phrase k l r _ _ =>
    intro h b
    have hp := blind_phrase (.phrase k l r) h
    simp only [execute]
    split
    · next h1 =>
      refine ⟨fun _ => ?_, fun h => (by cases h)⟩
      obtain ⟨-, -, y, hy, hn⟩ := hp.1 h1
      rintro ⟨z, hz, p, hp⟩
      rw [hy] at hz
      cases hz
      exact hn p hp
    · next h1 =>
      refine ⟨fun h => (by cases h), fun _ => ?_⟩
      obtain ⟨-, -, n, hn⟩ := hp.2 h1
      exact ⟨_, hn, 0, trivial⟩
    · exact ⟨fun h => (by cases h), fun h => (by cases h)⟩
end

/-! ### What the entries see -/

theorem foldl_nulls (join : Option (Datum → Datum → Datum)) (l : List (Option Datum)) (h : ∀ x ∈ l, x = none) : l.foldl (joinInfo join) none = none := by
  induction l with
  | nil => rfl
  | cons x l ih =>
    rw [h x (by simp), List.foldl_cons]
    exact ih (fun y hy => h y (by simp [hy]))

/-- Joining stored position lists gives the stored union, if no position comes with two weights. -/
theorem foldl_positions (T : Nat → Prop) (hT : ∀ x y, T x → T y → wepPos x = wepPos y → x = y) (l : List (Option Datum)) : ∀ (pss : List (List Nat)) (d : Datum) (ps : List Nat),
    List.Forall₂ (fun x p => (∃ d, x = some d ∧ dataBytes d = compressPos 0 p) ∧ PosList p ∧ p ≠ [] ∧ ∀ x ∈ p, T x) l pss →
    dataBytes d = compressPos 0 ps → PosList ps → ps ≠ [] → (∀ x ∈ ps, T x) →
    ∃ d' p', l.foldl (joinInfo (some joinTs)) (some d) = some d' ∧ dataBytes d' = compressPos 0 p' ∧ PosList p' ∧
      ∀ x, x ∈ p' ↔ x ∈ ps ∨ ∃ p ∈ pss, x ∈ p := by
  induction l with
  | nil =>
    intro pss d ps h h1 h2 h3 h4
    rw [List.forall₂_nil_left_iff.1 h]
    exact ⟨d, ps, rfl, h1, h2, by simp⟩
  | cons x l ih =>
    intro pss d ps h h1 h2 h3 h4
    obtain ⟨p, pss', ⟨⟨dx, rfl, g1⟩, g2, g3, g4⟩, h', rfl⟩ := List.forall₂_cons_left_iff.1 h
    obtain ⟨u, e1, e2, -, e3⟩ := C28_join_is_union ps p h2 g2 h3 g3
    have hu : ∀ x, x ∈ u ↔ x ∈ ps ∨ x ∈ p := by
      intro x
      rw [e3]
      constructor
      · rintro (h | h)
        · exact Or.inl h
        · exact Or.inr h.1
      · rintro (h | h)
        · exact Or.inl h
        · by_cases hx : x ∈ ps
          · exact Or.inl hx
          · exact Or.inr ⟨h, fun y hy he => hx (by rw [← hT y x (h4 y hy) (g4 x h) he]; exact hy)⟩
    obtain ⟨y, hy⟩ := List.exists_mem_of_ne_nil ps h3
    obtain ⟨d', p', f1, f2, f3, f4⟩ := ih pss' (joinTs d dx) u h' (by show (joinPos (dataBytes d) (dataBytes dx)).getD [] = _; rw [h1, g1, e1]; rfl) e2
      (List.ne_nil_of_mem ((hu y).2 (Or.inl hy))) (fun x hx => ((hu x).1 hx).elim (h4 x) (g4 x))
    refine ⟨d', p', f1, f2, f3, fun x => ?_⟩
    rw [f4, hu]
    simp only [List.mem_cons, exists_eq_or_imp, or_assoc]

section
variable {begins : L → L → Prop} {k : TsClass L V} {ix : Ix V} {rc : RowCfg V} {join : Option (Datum → Datum → Datum)} {r : Row V} {a P : Nat} {v : TsVector L} {o : Opnd L}

/-- The operand's keys are told apart: for a word by the words of the document, for a prefix as `PrefixKeys` says. -/
def Told (k : TsClass L V) (cmpK : V → V → Ordering) (begins : L → L → Prop) (o : Opnd L) (v : TsVector L) : Prop :=
  (o.pre = false → ∀ w ∈ v, cmpK (k.build w.1) (k.build o.lex) = .eq → w.1 = o.lex) ∧ (o.pre = true → PrefixKeys k cmpK begins o v)

theorem wants_stands (hK : TransCmp (ix.cmpK a)) (ht : Told k (ix.cmpK a) begins o v) {kk : AttKey V} (hw : Wants ix a (k.look o) kk) {w : L × Option (List Nat)} (hm : w ∈ v)
    (hc : ix.cmpK a (k.build w.1) kk.key = .eq) : kk.cat = .norm ∧ Stands begins o w.1 := by
  obtain ⟨h1, h2⟩ := hw
  unfold Stands
  cases hp : o.pre with
  | false =>
    simp only [TsClass.look, hp, Bool.false_eq_true, if_false] at h2 ⊢
    obtain ⟨e1, e2⟩ := ArraySearch.att_eq h2 h1
    exact ⟨e1, ht.1 hp w hm (TransCmp.eq_trans (cmp := ix.cmpK a) hc (OrientedCmp.eq_symm (cmp := ix.cmpK a) (e2 rfl)))⟩
  | true =>
    simp only [TsClass.look, hp, if_true] at h2 ⊢
    have hpk := ht.2 hp
    exact ⟨h2.2.1, (hpk.accepts w hm).1 (hpk.range.same _ _ (OrientedCmp.eq_symm (cmp := ix.cmpK a) hc) h2.2.2)⟩

theorem stands_wants (hK : TransCmp (ix.cmpK a)) (ht : Told k (ix.cmpK a) begins o v) {M : Lim} (hcols : ColsOK ix M)
    (hval : r.value a = some (extractTsvector k.build k.attr v)) {w : L × Option (List Nat)} (hm : w ∈ v) (hs : Stands begins o w.1) :
    Wants ix a (k.look o) ⟨a, .norm, k.build w.1⟩ ∧ Contains (ix.cmpK a) (r.value a) ⟨a, .norm, k.build w.1⟩ := by
  constructor
  · refine ⟨rfl, ?_⟩
    unfold Stands at hs
    cases hp : o.pre with
    | false =>
      simp only [hp, Bool.false_eq_true, if_false] at hs
      simp only [TsClass.look, hp, Bool.false_eq_true, if_false, hs]
      exact ArraySearch.cmpAtt_self hcols _
    | true =>
      simp only [hp, if_true] at hs
      simp only [TsClass.look, hp, if_true, true_and]
      exact ((ht.2 hp).accepts w hm).2 hs
  · rw [hval]
    exact ⟨_, rfl, _, List.mem_map_of_mem hm, k.build w.1, rfl, ReflCmp.compare_self (cmp := ix.cmpK a)⟩

theorem contains_word (hval : r.value a = some (extractTsvector k.build k.attr v)) {kk : AttKey V} (hc : kk.cat = .norm) (h : Contains (ix.cmpK a) (r.value a) kk) :
    ∃ w ∈ v, ix.cmpK a (k.build w.1) kk.key = .eq := by
  unfold Contains at h
  rw [hc, hval] at h
  obtain ⟨raws, e1, q, hq, y, e2, e3⟩ := h
  simp only [Option.some.injEq] at e1
  subst e1
  obtain ⟨w, hw, rfl⟩ := List.mem_map.1 hq
  simp only [Option.some.injEq] at e2
  subst e2
  exact ⟨w, hw, e3⟩

theorem look_cat (hw : Wants ix a (k.look o) kk) : kk.cat = .norm := by
  obtain ⟨h1, h2⟩ := hw
  cases hp : o.pre with
  | false =>
    simp only [TsClass.look, hp, Bool.false_eq_true, if_false] at h2
    exact (ArraySearch.att_eq h2 h1).1
  | true =>
    simp only [TsClass.look, hp, if_true] at h2
    exact h2.2.1

/-- The entry sees the row exactly if the document has a word the operand stands for. -/
theorem sees_stands (hK : TransCmp (ix.cmpK a)) (ht : Told k (ix.cmpK a) begins o v) {M : Lim} (hcols : ColsOK ix M)
    (hval : r.value a = some (extractTsvector k.build k.attr v)) {x : Option (Option Datum)} (h : Sees ix rc join r a (k.look o) x) :
    x = none ↔ ∀ w ∈ v, ¬ Stands begins o w.1 := by
  constructor
  · rintro rfl w hw hs
    obtain ⟨h1, h2⟩ := stands_wants hK ht hcols hval hw hs
    exact h _ h1 h2
  · intro hno
    cases x with
    | none => rfl
    | some i =>
      obtain ⟨ks, l, h1, h2, -⟩ := h
      obtain ⟨kk, hk⟩ := List.exists_mem_of_ne_nil ks h1
      obtain ⟨g1, g2⟩ := h2 kk hk
      obtain ⟨w, hw, hc⟩ := contains_word hval (look_cat g1) g2
      exact absurd (wants_stands hK ht g1 hw hc).2 (hno w hw)

/-- What the index keeps for a word of a document. -/
def wordInfo (k : TsClass L V) (w : L × Option (List Nat)) : Option Datum := w.2.map (fun ps => Datum.stored k.attr (.varlena .full (compressPos 0 ps)))

/-- The entry is told the positions of all these words, joined. -/
theorem sees_words (hK : TransCmp (ix.cmpK a)) (hadd : rc.addTo ≠ some a) (ht : Told k (ix.cmpK a) begins o v) {M : Lim} (hcols : ColsOK ix M) (hv : VecOK P v)
    (hval : r.value a = some (extractTsvector k.build k.attr v)) {i : Option Datum} (h : Sees ix rc join r a (k.look o) (some i)) :
    ∃ ws : TsVector L, ws ≠ [] ∧ (∀ w, w ∈ ws ↔ w ∈ v ∧ Stands begins o w.1) ∧ (o.pre = false → ws.length = 1) ∧
      i = (ws.map (wordInfo k)).foldl (joinInfo join) none := by
  obtain ⟨ks, l, h1, h2, h3, h4, h5, rfl⟩ := h
  have hword : ∀ kk ∈ ks, ∀ x, InfoOf rc (ix.cmpK a) r kk x → ∃ w ∈ v, ix.cmpK a (k.build w.1) kk.key = .eq ∧ x = wordInfo k w := by
    intro kk hk x hi
    obtain ⟨g1, g2⟩ := h2 kk hk
    have hcat := look_cat g1
    unfold InfoOf at hi
    rw [g1.1, if_neg hadd, hval] at hi
    obtain ⟨w0, hw0, -⟩ := contains_word hval hcat g2
    cases hex : extractTsvector k.build k.attr v with
    | nil =>
      have := List.mem_map_of_mem (f := fun w : L × Option (List Nat) => (⟨some (k.build w.1), w.2.map (fun ps => Datum.stored k.attr (.varlena .full (compressPos 0 ps)))⟩ : Raw V Datum)) hw0
      unfold extractTsvector at hex
      rw [hex] at this
      cases this
    | cons raw raws =>
      simp only [hex] at hi
      obtain ⟨z, hz, rfl, hh⟩ := hi
      rw [← hex] at hz
      obtain ⟨w, hw, rfl⟩ := List.mem_map.1 hz
      rcases hh with ⟨h, -⟩ | ⟨-, y, hy, hc⟩
      · rw [hcat] at h; cases h
      · simp only [Option.some.injEq] at hy
        subst hy
        exact ⟨w, hw, hc, rfl⟩
  obtain ⟨ws, f1, rfl⟩ : ∃ ws : TsVector L, List.Forall₂ (fun kk w => w ∈ v ∧ ix.cmpK a (k.build w.1) kk.key = .eq) ks ws ∧ l = ws.map (wordInfo k) := by
    clear h1 h2 h3 h4
    induction h5 with
    | nil => exact ⟨[], .nil, rfl⟩
    | @cons kk x ks l h _ ih =>
      obtain ⟨ws, g1, rfl⟩ := ih (fun kk hk => hword kk (by simp [hk]))
      obtain ⟨w, hw, hc, rfl⟩ := hword kk (by simp) x h
      exact ⟨w :: ws, .cons ⟨hw, hc⟩ g1, rfl⟩
  have hlen : ks.length = ws.length := f1.length_eq
  have hto : ∀ w ∈ ws, ∃ kk ∈ ks, w ∈ v ∧ ix.cmpK a (k.build w.1) kk.key = .eq := by
    intro w hw
    obtain ⟨j, hj, rfl⟩ := List.getElem_of_mem hw
    have := List.Forall₂.get f1 (i := j) (by omega) hj
    exact ⟨ks[j], List.getElem_mem _, this⟩
  have hfrom : ∀ kk ∈ ks, ∃ w ∈ ws, w ∈ v ∧ ix.cmpK a (k.build w.1) kk.key = .eq := by
    intro kk hk
    obtain ⟨j, hj, rfl⟩ := List.getElem_of_mem hk
    have := List.Forall₂.get f1 (i := j) hj (by omega)
    exact ⟨ws[j], List.getElem_mem _, this⟩
  refine ⟨ws, fun h => h1 (by rw [h] at hlen; simpa using hlen), fun w => ⟨fun hw => ?_, fun ⟨hw, hs⟩ => ?_⟩, fun hp => ?_, rfl⟩
  · obtain ⟨kk, hk, hm, hc⟩ := hto w hw
    exact ⟨hm, (wants_stands hK ht (h2 kk hk).1 hm hc).2⟩
  · obtain ⟨g1, g2⟩ := stands_wants hK ht hcols hval hw hs
    obtain ⟨kk, hk, he⟩ := h4 _ g1 g2
    obtain ⟨u, hu, hm, hc⟩ := hfrom kk hk
    have he' := (ArraySearch.att_eq he (h2 kk hk).1.1).2 rfl
    have hwu : ix.cmpK a (k.build w.1) (k.build u.1) = .eq := TransCmp.eq_trans (cmp := ix.cmpK a) he' (OrientedCmp.eq_symm (cmp := ix.cmpK a) hc)
    have hsu := (wants_stands hK ht (h2 kk hk).1 hm hc).2
    have : w.1 = u.1 := by
      cases hp : o.pre with
      | false =>
        simp only [Stands, hp, Bool.false_eq_true, if_false] at hs hsu
        rw [hs, hsu]
      | true => exact (ht.2 hp).keys w hw u hm hwu
    rw [List.inj_on_of_nodup_map hv.words hw hm this]
    exact hu
  · rw [← hlen]
    cases ks with
    | nil => exact absurd rfl h1
    | cons kk ks =>
      cases ks with
      | nil => rfl
      | cons kk' ks =>
        have htr := hcols.keys
        have htr' := cmp_trans ix
        have e1 := (h2 kk (by simp)).1.2
        have e2 := (h2 kk' (by simp)).1.2
        simp only [TsClass.look, hp, Bool.false_eq_true, if_false] at e1 e2
        have e3 := (List.pairwise_cons.1 h3).1 kk' (by simp)
        exact absurd (TransCmp.eq_trans (cmp := cmpAttEntries ix.cmpK) (OrientedCmp.eq_symm (cmp := cmpAttEntries ix.cmpK) e1) e2) e3

/-- What is found for an operand is what would be stored for one word with the positions of all words the operand stands for. -/
theorem found_occ (hK : TransCmp (ix.cmpK a)) (hadd : rc.addTo ≠ some a) (ht : Told k (ix.cmpK a) begins o v) {M : Lim} (hcols : ColsOK ix M) (hv : VecOK P v)
    (hval : r.value a = some (extractTsvector k.build k.attr v)) (hpw : o.pre = true → PrefixWords begins o v ∧ join = some joinTs)
    {x : Option (Option Datum)} (h : Sees ix rc join r a (k.look o) x) :
    ∃ d : Occ, SameOcc (occ begins v o) d ∧ found x = stored d ∧ (∀ ps, d = .at ps → PosList ps ∧ ∀ y ∈ ps, 1 ≤ wepPos y ∧ wepPos y ≤ P) ∧
      (d = .noPos → ∃ w ∈ v, w.2 = none) := by
  have hst := sees_stands hK ht hcols hval h
  cases x with
  | none =>
    refine ⟨.absent, ?_, rfl, fun _ h => (by cases h), fun h => (by cases h)⟩
    unfold occ
    rw [if_pos (hst.1 rfl)]
    trivial
  | some i =>
    have hne : ¬ ∀ w ∈ v, ¬ Stands begins o w.1 := fun h => by cases hst.2 h
    obtain ⟨ws, w1, w2, w3, w4⟩ := sees_words hK hadd ht hcols hv hval h
    have hflat : ∀ x, x ∈ (v.filter (fun w => @decide (Stands begins o w.1) (Classical.propDecidable _))).flatMap (fun w => w.2.getD []) ↔ ∃ w ∈ ws, x ∈ w.2.getD [] := by
      intro x
      simp only [List.mem_flatMap, List.mem_filter, decide_eq_true_eq, w2]
    -- nothing has positions
    have hnull : (∀ w ∈ ws, w.2 = none) → ∃ d : Occ, SameOcc (occ begins v o) d ∧ found (some i) = stored d ∧
        (∀ ps, d = .at ps → PosList ps ∧ ∀ y ∈ ps, 1 ≤ wepPos y ∧ wepPos y ≤ P) ∧ (d = .noPos → ∃ w ∈ v, w.2 = none) := by
      intro hall
      obtain ⟨w, hw⟩ := List.exists_mem_of_ne_nil ws w1
      have hwv := (w2 w).1 hw
      refine ⟨.noPos, ?_, ?_, fun _ h => (by cases h), fun _ => ⟨w, hwv.1, hall w hw⟩⟩
      · unfold occ
        rw [if_neg hne, if_pos ⟨w, hwv.1, hwv.2, hall w hw⟩]
        trivial
      · rw [w4, foldl_nulls join _ (fun x hx => by
          obtain ⟨u, hu, rfl⟩ := List.mem_map.1 hx
          simp [wordInfo, hall u hu])]
        rfl
    -- all have positions
    have hsome : ∀ (d : Datum) (ps : List Nat), i = some d → dataBytes d = compressPos 0 ps → PosList ps → (∀ x, x ∈ ps ↔ ∃ w ∈ ws, x ∈ w.2.getD []) →
        (∀ w ∈ ws, w.2 ≠ none) → ∃ d : Occ, SameOcc (occ begins v o) d ∧ found (some i) = stored d ∧
        (∀ ps, d = .at ps → PosList ps ∧ ∀ y ∈ ps, 1 ≤ wepPos y ∧ wepPos y ≤ P) ∧ (d = .noPos → ∃ w ∈ v, w.2 = none) := by
      intro d ps hi hd hp hmem hall
      refine ⟨.at ps, ?_, ?_, ?_, fun h => (by cases h)⟩
      · unfold occ
        rw [if_neg hne, if_neg (by rintro ⟨w, hw, hs, hn⟩; exact hall w ((w2 w).2 ⟨hw, hs⟩) hn)]
        exact fun x => (hflat x).trans (hmem x).symm
      · rw [hi]
        simp only [found, stored, hd]
      · intro ps' he
        cases he
        refine ⟨hp, fun y hy => ?_⟩
        obtain ⟨w, hw, hyw⟩ := (hmem y).1 hy
        cases hw2 : w.2 with
        | none => exact absurd hw2 (hall w hw)
        | some qs =>
          rw [hw2] at hyw
          exact (hv.positions w ((w2 w).1 hw).1 qs hw2).2 y hyw
    cases ws with
    | nil => exact absurd rfl w1
    | cons w ws =>
      cases hw2 : w.2 with
      | none =>
        refine hnull (fun u hu => ?_)
        cases hp : o.pre with
        | false =>
          have := w3 hp
          simp only [List.length_cons, Nat.add_eq_right, List.length_eq_zero_iff] at this
          subst this
          rw [List.mem_singleton.1 hu]; exact hw2
        | true =>
          have hs : ∀ u ∈ w :: ws, u ∈ v ∧ begins o.lex u.1 := fun u hu => by
            have := (w2 u).1 hu
            simpa [Stands, hp] using this
          rcases (hpw hp).1.alike with hal | hal
          · exact hal u (hs u hu).1 (hs u hu).2
          · obtain ⟨ps, he, -⟩ := hal w (hs w (by simp)).1 (hs w (by simp)).2
            rw [hw2] at he; cases he
      | some ps =>
        have hposw := hv.positions w ((w2 w).1 (by simp)).1 ps hw2
        cases hws : ws with
        | nil =>
          subst hws
          refine hsome _ ps (by rw [w4]; simp only [List.map_cons, List.map_nil, List.foldl_cons, List.foldl_nil, wordInfo, hw2, Option.map_some, joinInfo]; rfl)
            (dataBytes_stored _ _) hposw.1 (fun x => by simp [hw2]) (fun u hu => by rw [List.mem_singleton.1 hu, hw2]; simp)
        | cons u ws' =>
          have hp : o.pre = true := by
            cases hp : o.pre with
            | true => rfl
            | false => have := w3 hp; rw [hws] at this; simp at this
          obtain ⟨⟨hal, hwt⟩, hj⟩ := hpw hp
          have hs : ∀ u ∈ w :: ws, u ∈ v ∧ begins o.lex u.1 := fun u hu => by
            have := (w2 u).1 hu
            simpa [Stands, hp] using this
          have hal : ∀ u ∈ w :: ws, ∃ ps, u.2 = some ps ∧ ps ≠ [] := by
            rcases hal with hal | hal
            · exact absurd (hal w (hs w (by simp)).1 (hs w (by simp)).2) (by rw [hw2]; simp)
            · exact fun u hu => hal u (hs u hu).1 (hs u hu).2
          have hT : ∀ x y, (∃ u ∈ w :: ws, x ∈ u.2.getD []) → (∃ u ∈ w :: ws, y ∈ u.2.getD []) → wepPos x = wepPos y → x = y := by
            rintro x y ⟨u, hu, hx⟩ ⟨u', hu', hy⟩ he
            exact hwt u (hs u hu).1 (hs u hu).2 u' (hs u' hu').1 (hs u' hu').2 x hx y hy he
          have hlist : ∀ l : TsVector L, (∀ u ∈ l, u ∈ w :: ws) →
              List.Forall₂ (fun x p => (∃ d, x = some d ∧ dataBytes d = compressPos 0 p) ∧ PosList p ∧ p ≠ [] ∧ ∀ x ∈ p, ∃ u ∈ w :: ws, x ∈ u.2.getD [])
                (l.map (wordInfo k)) (l.map (fun u => u.2.getD [])) := by
            intro l hl
            induction l with
            | nil => exact .nil
            | cons u l ih =>
              have hu := hl u (by simp)
              obtain ⟨qs, e1, e2⟩ := hal u hu
              refine .cons ⟨⟨_, by simp only [wordInfo, e1, Option.map_some]; rfl, ?_⟩, ?_, ?_, ?_⟩ (ih (fun z hz => hl z (by simp [hz])))
              · beta_reduce; rw [dataBytes_stored, e1]; rfl
              · beta_reduce; rw [e1]; exact (hv.positions u ((w2 u).1 hu).1 qs e1).1
              · beta_reduce; rw [e1]; exact e2
              · exact fun x hx => ⟨u, hu, hx⟩
          obtain ⟨d', p', f1, f2, f3, f4⟩ := foldl_positions (fun x => ∃ u ∈ w :: ws, x ∈ u.2.getD []) hT (ws.map (wordInfo k)) (ws.map (fun u => u.2.getD []))
            (Datum.stored k.attr (.varlena .full (compressPos 0 ps))) ps (hlist ws (fun u hu => by simp [hu])) (dataBytes_stored _ _) hposw.1
            (by obtain ⟨qs, e1, e2⟩ := hal w (by simp); rw [hw2] at e1; cases e1; exact e2) (fun x hx => ⟨w, by simp, by rw [hw2]; exact hx⟩)
          refine hsome d' p' ?_ f2 f3 (fun x => ?_) (fun u hu => ?_)
          · rw [w4, hj, ← f1]
            simp only [List.map_cons, List.foldl_cons, wordInfo, hw2, Option.map_some, joinInfo]
          · rw [f4]
            simp only [List.mem_map, List.mem_cons, exists_eq_or_imp, hw2, Option.getD_some]
            simp
          · obtain ⟨qs, e1, -⟩ := hal u hu
            rw [e1]; simp
end

/-! ### One condition on one row -/

/-- A query the theorems cover: no lexeme is both a word and a prefix in it (`C51_prefix_violated`), and, where positions are kept, positions and distances are in range. -/
structure QueryFits (k : TsClass L V) (P : Nat) (q : Query (Opnd L)) : Prop where
  kinds : ∀ o ∈ operands q, ∀ p ∈ operands q, o.lex = p.lex → o.pre = p.pre
  range : k.addon = false → P + q.dist < 2 ^ 14

/-- A document the theorems cover, for a query. -/
structure DocFits (k : TsClass L V) (cmpK : V → V → Ordering) (begins : L → L → Prop) (P : Nat) (q : Query (Opnd L)) (v : TsVector L) : Prop where
  vec : VecOK P v
  told : ∀ o ∈ operands q, Told k cmpK begins o v
  words : k.addon = false → ∀ o ∈ operands q, o.pre = true → PrefixWords begins o v

section
variable {begins : L → L → Prop} {cls : Nat → TsClass L V} {cmpL : L → L → Ordering} [TransCmp cmpL] [LawfulEqCmp cmpL] {sort : List (Opnd L) → List (Opnd L)}
  {ix : Ix V} [Inhabited V] {rc : RowCfg V} {join : Nat → Option (Datum → Datum → Datum)} {r : Row V} {P : Nat} {v : TsVector L} {c : TsSearch L}

omit [LawfulEqCmp cmpL] [TransCmp cmpL] in
/-- A NULL document is not seen. -/
theorem null_seen {w : List (Option (Option Datum))} (hval : r.value c.attnum = none)
    (h : List.Forall₂ (Sees ix rc (join c.attnum) r c.attnum) (c.clause cls cmpL sort).looks w) : ∀ x ∈ w, x = none := by
  intro x hx
  obtain ⟨i, hi, rfl⟩ := List.getElem_of_mem hx
  have hl := h.length_eq
  have hs := List.Forall₂.get h (i := i) (by omega) hi
  simp only [List.get_eq_getElem] at hs
  have hlk : (c.clause cls cmpL sort).looks[i] ∈ (c.clause cls cmpL sort).looks := List.getElem_mem _
  generalize (c.clause cls cmpL sort).looks[i] = lk at hs hlk
  generalize w[i] = o at hs
  cases o with
  | none => rfl
  | some j =>
    obtain ⟨ks, -, g1, g2, -⟩ := hs
    obtain ⟨k, hk⟩ := List.exists_mem_of_ne_nil ks g1
    obtain ⟨a1, a3⟩ := g2 k hk
    have hcat : k.cat ≠ .nullItem := by
      rcases List.mem_append.1 hlk with hlk | hlk
      · obtain ⟨o, -, rfl⟩ := List.mem_map.1 hlk
        rw [look_cat a1]; simp
      · cases hm : tsMode c.query with
        | dflt => rw [hm] at hlk; cases hlk
        | includeEmpty => unfold tsMode at hm; split at hm <;> cases hm
        | all =>
          rw [hm] at hlk
          simp only [hiddenLooks, List.mem_singleton] at hlk
          subst hlk
          exact a1.2
    exfalso
    unfold Contains at a3
    rw [hval] at a3
    cases hk : k.cat <;> rw [hk] at a3 <;> simp_all

/-- What the consistency function gets: for each operand what its entry sees. -/
theorem clause_view (hsort : SortsOpnds cmpL sort) (hkinds : ∀ o ∈ operands c.query, ∀ p ∈ operands c.query, o.lex = p.lex → o.pre = p.pre)
    {w : List (Option (Option Datum))} (h : List.Forall₂ (Sees ix rc (join c.attnum) r c.attnum) (c.clause cls cmpL sort).looks w) :
    ∃ w1 w2, w = w1 ++ w2 ∧ List.Forall₂ (Sees ix rc (join c.attnum) r c.attnum) (hiddenLooks (tsMode c.query)) w2 ∧
      (c.clause cls cmpL sort).cons (w1 ++ w2) = (cls c.attnum).consistent (entryOf cmpL (sortAndUniq cmpL sort c.query) w1) c.query ∧
      ∀ o ∈ operands c.query, ∃ x ∈ w1, Sees ix rc (join c.attnum) r c.attnum ((cls c.attnum).look o) x ∧
        entryOf cmpL (sortAndUniq cmpL sort c.query) w1 o = found x := by
  obtain ⟨w1, w2, rfl, h1, h2⟩ := ArraySearch.forall₂_split _ _ w h
  have hlen : w1.length = (sortAndUniq cmpL sort c.query).length := by rw [← h1.length_eq, List.length_map]
  refine ⟨w1, w2, rfl, h2, ?_, ?_⟩
  · show (cls c.attnum).consistent (entryOf cmpL (sortAndUniq cmpL sort c.query) ((w1 ++ w2).take (sortAndUniq cmpL sort c.query).length)) c.query = _
    rw [← hlen, List.take_left]
  · intro o ho
    obtain ⟨j, p, m1, m2, m3, m4⟩ := mapItem_ok (cmpL := cmpL) hsort ho
    have hpo : p = o := by
      have := hkinds p m4 o ho m3
      cases p; cases o; simp_all
    subst hpo
    have hj : j < (sortAndUniq cmpL sort c.query).length := (List.getElem?_eq_some_iff.1 m2).1
    have hj2 : j < w1.length := by omega
    have hg := List.Forall₂.get h1 (i := j) (by simpa using hj) hj2
    refine ⟨w1[j], List.getElem_mem _, ?_, ?_⟩
    · simp only [List.get_eq_getElem, List.getElem_map] at hg
      rw [List.getElem?_eq_getElem hj] at m2
      rw [Option.some.inj m2] at hg
      exact hg
    · unfold entryOf
      rw [m1, Option.bind_some, List.getElem?_eq_getElem hj2]
      rfl

theorem text_judges (unk : Opnd L → Nat → Prop) (hsort : SortsOpnds cmpL sort) {M : Lim} (hcols : ColsOK ix M) {doc : Option (TsVector L)}
    (hval : r.value c.attnum = doc.map (extractTsvector (cls c.attnum).build (cls c.attnum).attr)) (hq : QueryFits (cls c.attnum) P c.query)
    (hdoc : ∀ v, doc = some v → DocFits (cls c.attnum) (ix.cmpK c.attnum) begins P c.query v) (hadd : (cls c.attnum).addon = false → rc.addTo ≠ some c.attnum)
    (hjoin : (cls c.attnum).addon = false → (∃ o ∈ operands c.query, o.pre = true) → join c.attnum = some joinTs) :
    Judges ix rc join r (c.clause cls cmpL sort) (DocMatches unk begins doc c.query)
      ((cls c.attnum).addon = false ∧ NoWeightUnderNot false c.query ∧ ∀ v, doc = some v → ∀ w ∈ v, w.2 ≠ none) := by
  intro w h
  cases doc with
  | none =>
    have hno := null_seen hval h
    have hna : ¬ Collect.Accepted (c.clause cls cmpL sort) w := by
      rintro ⟨⟨o, ho, hs⟩, -⟩
      rw [hno o ho] at hs; cases hs
    exact ⟨fun ⟨v, hv, _⟩ => (by cases hv), fun h => absurd h hna, fun h => absurd h hna⟩
  | some v =>
    have hK := hcols.keys c.attnum
    have hd := hdoc v rfl
    simp only [Option.map_some] at hval
    obtain ⟨w1, w2, rfl, h2, hcons, hent⟩ := clause_view hsort hq.kinds h
    -- the row is seen
    have hseen : ((cls c.attnum).consistent (entryOf cmpL (sortAndUniq cmpL sort c.query) w1) c.query).1 = true → ∃ o ∈ w1 ++ w2, o.isSome = true := by
      intro hacc
      cases hm : requiresMatch c.query with
      | true =>
        by_contra hno
        have hall : ∀ x ∈ w1, x = none := by
          intro x hx
          cases x with
          | none => rfl
          | some i => exact absurd ⟨some i, by simp [hx], rfl⟩ hno
        have habs : ∀ o ∈ operands c.query, entryOf cmpL (sortAndUniq cmpL sort c.query) w1 o = .absent := by
          intro o ho
          obtain ⟨x, hx, -, he⟩ := hent o ho
          rw [he, hall x hx]; rfl
        unfold TsClass.consistent at hacc
        split at hacc
        · rw [tsTimestampConsistent, absent_execute c.query hm habs] at hacc
          simp [finish] at hacc
        · rw [tsConsistent, absent_execute c.query hm habs] at hacc
          simp [finish] at hacc
      | false =>
        have hmode : tsMode c.query = .all := by simp [tsMode, hm]
        rw [hmode] at h2
        obtain ⟨o, l', g1, g2, rfl⟩ := List.forall₂_cons_left_iff.1 h2
        refine ⟨o, by simp, ?_⟩
        cases o with
        | some i => rfl
        | none =>
          exfalso
          cases hv : v with
          | nil =>
            refine g1 ⟨c.attnum, .emptyItem, default⟩ ⟨rfl, by simp⟩ ?_
            show r.value c.attnum = some []
            rw [hval, hv]; rfl
          | cons x xs =>
            refine g1 ⟨c.attnum, .norm, (cls c.attnum).build x.1⟩ ⟨rfl, by simp⟩ ?_
            rw [hval]
            exact ⟨_, rfl, _, List.mem_map_of_mem (by rw [hv]; simp), (cls c.attnum).build x.1, rfl, ReflCmp.compare_self (cmp := ix.cmpK c.attnum)⟩
    have hiff : DocMatches unk begins (some v) c.query ↔ Ts.Matches unk (occ begins v) c.query :=
      ⟨fun ⟨u, hu, hm⟩ => (by cases hu; exact hm), fun hm => ⟨v, rfl, hm⟩⟩
    unfold Collect.Accepted
    rw [hiff, hcons]
    cases ha : (cls c.attnum).addon with
    | true =>
      have hag := blind_execute unk (doc := occ begins v) (e := entryOf cmpL (sortAndUniq cmpL sort c.query) w1) c.query (fun o ho => by
        obtain ⟨x, hx, hs, he⟩ := hent o ho
        have hst := sees_stands hK (hd.told o ho) hcols hval hs
        rw [he]
        have : found x = .absent ↔ x = none := by
          cases x with
          | none => simp [found]
          | some i => cases i <;> simp [found]
        rw [this, hst]
        unfold occ
        constructor
        · intro h; rw [if_pos h]
        · intro h
          by_contra hno
          rw [if_neg hno] at h
          split at h <;> cases h) false
      have hc : (cls c.attnum).consistent (entryOf cmpL (sortAndUniq cmpL sort c.query) w1) c.query =
          tsTimestampConsistent (entryOf cmpL (sortAndUniq cmpL sort c.query) w1) c.query := by simp [TsClass.consistent, ha]
      rw [hc] at hseen ⊢
      unfold tsTimestampConsistent at hseen ⊢
      generalize execute true (fun o w => chkPhrase true (entryOf cmpL (sortAndUniq cmpL sort c.query) w1 o) w)
        (fun o w => chkPlain true (entryOf cmpL (sortAndUniq cmpL sort c.query) w1 o) w) false c.query = t at hag hseen ⊢
      refine ⟨fun hm => ?_, fun hacc hrec => ?_, fun _ h => (by simp at h)⟩
      · have : (finish t).1 = true := by
          simp only [finish, ne_eq, decide_eq_true_eq]
          exact fun h => hag.1 h hm
        exact ⟨hseen this, this⟩
      · refine hag.2 ?_
        have h1 := hacc.2
        simp only [finish, ne_eq, decide_eq_true_eq, decide_eq_false_iff_not] at h1 hrec
        cases t <;> simp_all
    | false =>
      have hocc : ∀ o, ∃ d : Occ, (∀ ps, d = .at ps → PosList ps ∧ ∀ y ∈ ps, 1 ≤ wepPos y ∧ wepPos y ≤ P) ∧
          (o ∈ operands c.query → SameOcc (occ begins v o) d ∧ entryOf cmpL (sortAndUniq cmpL sort c.query) w1 o = stored d) ∧
          (d = .noPos → ∃ w ∈ v, w.2 = none) := by
        intro o
        by_cases ho : o ∈ operands c.query
        · obtain ⟨x, hx, hs, he⟩ := hent o ho
          obtain ⟨d, d1, d2, d3, d4⟩ := found_occ (begins := begins) hK (hadd ha) (hd.told o ho) hcols hd.vec hval
            (fun hp => ⟨hd.words ha o ho hp, hjoin ha ⟨o, ho, hp⟩⟩) hs
          exact ⟨d, d3, fun _ => ⟨d1, by rw [he, d2]⟩, d4⟩
        · exact ⟨.absent, fun _ h => (by cases h), fun h => absurd h ho, fun h => (by cases h)⟩
      choose d d1 d2 d3 using hocc
      have hc : (cls c.attnum).consistent (entryOf cmpL (sortAndUniq cmpL sort c.query) w1) c.query = tsConsistent (fun o => stored (d o)) c.query := by
        simp only [TsClass.consistent, ha, Bool.false_eq_true, if_false, tsConsistent]
        rw [execute_congr c.query false (fun o ho w => by rw [(d2 o ho).2]) (fun o ho w => by rw [(d2 o ho).2])]
      rw [hc] at hseen ⊢
      rw [matches_same unk c.query (fun o ho => (d2 o ho).1)]
      have hag := C25_search_agrees unk P d c.query d1 (hq.range ha)
      refine ⟨fun hm => ⟨hseen (hag.1 hm), hag.1 hm⟩, fun hacc hrec => hag.2 (Prod.ext hacc.2 hrec), fun _ ⟨_, hw, hall⟩ => ?_⟩
      refine (C25_search_exact unk P d c.query d1 (hq.range ha) (fun o hno => ?_) hw).1
      obtain ⟨u, hu, hn⟩ := d3 o hno
      exact hall v rfl u hu hn
end

/-! ### Searches -/

/-- What the theorems cover: tsvector columns of the index; documents and queries as `DocFits` and `QueryFits` say; a proper partial match function; keys searched for whose
posting tree has something on its leftmost page, unless there was no VACUUM; no prefix operand and no whole-index scan where items are ordered by an attached column
with NULLs; all conditions on columns ordered alike. In classes that keep positions, rum_ts_join_pos joins them. -/
structure Covered (begins : L → L → Prop) (cls : Nat → TsClass L V) (ix : Ix V) [Inhabited V] (rc : RowCfg V) (alternative vacuumed : Bool)
    (join : Nat → Option (Datum → Datum → Datum)) (st : State V) (rs : List (Row V)) (P : Nat) (doc : Row V → Nat → Option (TsVector L)) (conds : List (TsSearch L)) : Prop where
  low : ∀ c ∈ conds, 1 ≤ c.attnum
  high : ∀ c ∈ conds, c.attnum ≤ rc.natts
  query : ∀ c ∈ conds, QueryFits (cls c.attnum) P c.query
  docs : ∀ c ∈ conds, ∀ r ∈ rs, r.value c.attnum = (doc r c.attnum).map (extractTsvector (cls c.attnum).build (cls c.attnum).attr) ∧
    ∀ v, doc r c.attnum = some v → DocFits (cls c.attnum) (ix.cmpK c.attnum) begins P c.query v
  ranges : ∀ c ∈ conds, ∀ o ∈ operands c.query, o.pre = true → RangeOK (ix.cmpK c.attnum) ((cls c.attnum).build o.lex) ((cls c.attnum).prefixCmp o.lex)
  first : ∀ c ∈ conds, ∀ o ∈ operands c.query, o.pre = false →
    ∀ t, ix.treeOf st ⟨c.attnum, .norm, (cls c.attnum).build o.lex⟩ = some t → firstLeaf (st.trees t) ≠ [] ∨ vacuumed = false
  nulls : ∀ c ∈ conds, (∃ o ∈ operands c.query, o.pre = true) ∨ requiresMatch c.query = false →
    alternative = true → rc.addTo = some c.attnum → ∀ r ∈ rs, r.outer.isSome = true
  kind : alternative = false ∨ (∀ c ∈ conds, rc.addTo = some c.attnum) ∨ ∀ c ∈ conds, rc.addTo ≠ some c.attnum
  plain : ∀ c ∈ conds, (cls c.attnum).addon = false → rc.addTo ≠ some c.attnum
  joins : ∀ c ∈ conds, (cls c.attnum).addon = false → join c.attnum = some joinTs

/-- Full-text searches give the right answers. `unk` is what PostgreSQL says of a word without positions when weights are asked for. There is nothing to check when the
index keeps positions, all words have positions, and no weight is under NOT. -/
def TextSearches (ix : Ix V) [Inhabited V] (rc : RowCfg V) (alternative vacuumed : Bool)
    (tuplesort : (Item Datum → Item Datum → Ordering) → List (Item Datum) → List (Item Datum)) (join : Nat → Option (Datum → Datum → Datum)) (st : State V)
    (rs : List (Row V)) : Prop :=
  ∀ (L : Type) (unk : Opnd L → Nat → Prop) (begins : L → L → Prop) (cls : Nat → TsClass L V) (cmpL : L → L → Ordering) (sort : List (Opnd L) → List (Opnd L)) (P : Nat)
    (doc : Row V → Nat → Option (TsVector L)) (c : TsSearch L) (cs : List (TsSearch L)), TransCmp cmpL → LawfulEqCmp cmpL → SortsOpnds cmpL sort →
    Covered begins cls ix rc alternative vacuumed join st rs P doc (c :: cs) →
    ∃ N, ∀ n, N ≤ n → ∀ junk, ∃ out, ix.find rc alternative tuplesort join st junk n (c.clause cls cmpL sort) (cs.map (fun d => d.clause cls cmpL sort)) = some out ∧
      RightAnswer rs (fun r => ∀ d ∈ c :: cs, DocMatches unk begins (doc r d.attnum) d.query)
        (∀ d ∈ c :: cs, (cls d.attnum).addon = false ∧ NoWeightUnderNot false d.query ∧ ∀ r ∈ rs, ∀ v, doc r d.attnum = some v → ∀ w ∈ v, w.2 ≠ none) out

theorem text_of_finds {ix : Ix V} [Inhabited V] {rc : RowCfg V} {alternative vacuumed : Bool} {M : Lim} (hcols : ColsOK ix M)
    {tuplesort : (Item Datum → Item Datum → Ordering) → List (Item Datum) → List (Item Datum)} {join : Nat → Option (Datum → Datum → Datum)} {st : State V}
    {rs : List (Row V)} (H : Finds ix rc alternative vacuumed tuplesort join st rs) : TextSearches ix rc alternative vacuumed tuplesort join st rs := by
  intro L unk begins cls cmpL sort P doc c cs htr hlaw hsort hcov
  have hcl : ∀ d ∈ c :: cs, ClauseOK ix rc alternative vacuumed st rs (d.clause cls cmpL sort) := by
    intro d hd
    refine ⟨hcov.low d hd, hcov.high d hd, fun lk hlk => ?_⟩
    rcases List.mem_append.1 hlk with hlk | hlk
    · obtain ⟨o, ho, rfl⟩ := List.mem_map.1 hlk
      have ho := mem_of_sortAndUniq hsort ho
      cases hp : o.pre with
      | false =>
        simp only [TsClass.look, hp, Bool.false_eq_true, if_false]
        exact ⟨trivial, fun t ht => hcov.first d hd o ho hp t ht⟩
      | true =>
        simp only [TsClass.look, hp, if_true]
        exact ⟨fun _ => hcov.ranges d hd o ho hp, fun ha hb => hcov.nulls d hd (Or.inl ⟨o, ho, hp⟩) ha hb⟩
    · cases hm : requiresMatch d.query with
      | true => simp [tsMode, hm, hiddenLooks] at hlk
      | false =>
        simp only [tsMode, hm, Bool.false_eq_true, if_false, hiddenLooks, List.mem_singleton] at hlk
        subst hlk
        exact ⟨rfl, fun ha hb => hcov.nulls d hd (Or.inr hm) ha hb⟩
  refine answer_of_judges H (fun d => d.clause cls cmpL sort) c cs hcl ?_ (good := fun r d => DocMatches unk begins (doc r d.attnum) d.query)
    (exact_ := fun d => (cls d.attnum).addon = false ∧ NoWeightUnderNot false d.query ∧ ∀ r ∈ rs, ∀ v, doc r d.attnum = some v → ∀ w ∈ v, w.2 ≠ none) ?_
  · have hmem : ∀ d ∈ c.clause cls cmpL sort :: cs.map (fun d => d.clause cls cmpL sort), ∃ e ∈ c :: cs, d = e.clause cls cmpL sort := by
      intro d hd
      rw [← List.map_cons (f := fun d : TsSearch L => d.clause cls cmpL sort)] at hd
      obtain ⟨e, he, rfl⟩ := List.mem_map.1 hd
      exact ⟨e, he, rfl⟩
    rcases hcov.kind with h | h | h
    · exact Or.inl h
    · exact Or.inr (Or.inl (fun d hd => by obtain ⟨e, he, rfl⟩ := hmem d hd; exact h e he))
    · exact Or.inr (Or.inr (fun d hd => by obtain ⟨e, he, rfl⟩ := hmem d hd; exact h e he))
  · intro r hr d hd w hw
    obtain ⟨h1, h2, h3⟩ := text_judges (begins := begins) unk hsort hcols (hcov.docs d hd r hr).1 (hcov.query d hd) (hcov.docs d hd r hr).2 (hcov.plain d hd)
      (fun h _ => hcov.joins d hd h) w hw
    exact ⟨h1, h2, fun ha ⟨e1, e2, e3⟩ => h3 ha ⟨e1, e2, e3 r hr⟩⟩

/-! ### Properties -/

/-- **C57, with VACUUM.** After CREATE INDEX on a table with any rows and any sequence of insertions and VACUUMs, a search by any number of conditions `column @@ query`,
with AND, OR, NOT, phrases, weights and prefixes, returns every row whose documents match, each once, and no other unless the executor is told to check it. Missing: what
`Covered` excludes, that is posting trees whose leftmost page was emptied by VACUUM (`C23_forward_empty_first_violated`), a lexeme that is both a word and a prefix in the
query (`C51_prefix_violated`), colliding hashes (`C52_violated`), documents in which some of the words a prefix stands for have positions and others have not
(`C57_mixed_violated`) or have one position with different weights (`C57_weights_violated`), and conditions on columns ordered differently. -/
theorem C57_text_partial (ix : Ix V) [Inhabited V] (rc : RowCfg V) (alternative : Bool) (n : Nat) (hc : ColsOK ix ⟨n, true⟩) (hal : ∀ k, 8 ∣ ix.keySize k)
    (hs : ∀ a, SortOK (ix.cmpK a) (rc.sort a)) (hd : ∀ a, DupsSeen (ix.cmpK a) (rc.haveDups a)) (ho : OptionsOK ix rc alternative)
    (qsort tuplesort : (Item Datum → Item Datum → Ordering) → List (Item Datum) → List (Item Datum)) (hq : Sorts qsort) (htp : Sorts tuplesort)
    (join : Nat → Option (Datum → Datum → Datum)) (hj : alternative = true → ∀ a, rc.addTo = some a → join a = none) (full : Nat → Bool)
    (rs : List (Row V)) (hok : ∀ r ∈ rs, RowOK ix rc ⟨n, false⟩ r) (hlen : ∀ r ∈ rs, ∀ a, (ix.colEntries rc a r).length < 2 ^ 31)
    (htid : (rs.map Row.tid).Nodup) (hord : alternative = true → rs.Pairwise (fun r q => cmpIptr r.tid q.tid = .lt))
    (evs : List (Event V)) (hev : Possible ix rc ⟨n, true⟩ rs evs) :
    ∃ st, runs ix rc (ix.buildIndex rc qsort full rs) evs = (st, true) ∧
      TextSearches ix rc alternative true tuplesort join st (evs.foldl Event.rows rs) := by
  obtain ⟨st, h1, h2⟩ := C53_query_partial ix rc alternative n hc hal hs hd ho qsort tuplesort hq htp join hj full rs hok hlen htid hord evs hev
  exact ⟨st, h1, text_of_finds hc h2⟩

end Rum.Props.TextSearch

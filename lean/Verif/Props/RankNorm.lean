import Verif.RankNorm
import Verif.Props.RankCovers
import Mathlib.Analysis.SpecialFunctions.Log.Deriv
import Mathlib.Analysis.Complex.ExponentialBounds
import Mathlib.Analysis.SpecialFunctions.Log.Base
/-!
# C78, C79: a document has a finite distance exactly if it matches, whatever the normalization; scores below 1
-/
namespace Rum.Props.RankNorm
open Rum Rum.Ts Rum.Rank Rum.Pos Rum.FullText Rum.Props.Rank Rum.Props.RankCovers Std

variable {F L : Type}

/-! ### Specification -/

/-- What is asked of the arithmetic: signs come out right (in particular nothing underflows to zero). -/
structure Signs (o : Norms F) (Pos : F → Prop) : Prop where
  zero : ¬ Pos (o.num 0)
  num : ∀ n, 0 < n → Pos (o.num n)
  add : ∀ a b, Pos a → Pos b → Pos (o.add a b)
  add0 : ∀ b, Pos b → Pos (o.add (o.num 0) b)
  mul : ∀ a b, Pos a → Pos b → Pos (o.mul a b)
  div : ∀ a b, Pos a → Pos b → Pos (o.div a b)
  div0 : ∀ b, Pos b → o.div (o.num 0) b = o.num 0
  weight : ∀ k, Pos (o.weight k)
  const : Pos o.c
  f4 : ∀ a, Pos a → Pos (o.f4 a)
  f40 : o.f4 (o.num 0) = o.num 0
  sub : ∀ a b, o.gt a b = true → Pos (o.sub a b)
  gt0 : ∀ a, o.gt a (o.num 0) = true → Pos a
  log : ∀ n, 2 ≤ n → Pos (o.log (o.num n))

/-- All words of the document have positions, none of them 0. -/
def Placed (v : TsVector L) : Prop := ∀ w ∈ v, ∃ ps, w.2 = some ps ∧ ps ≠ [] ∧ ∀ x ∈ ps, 0 < wepPos x

/-- The document satisfies the query: each operand stands for the words equal to it, or beginning with it. -/
def Satisfies (begins : L → L → Bool) (v : TsVector L) (q : Query (Opnd L)) : Prop := RankCovers.Holds (fun p => ∃ w ∈ v, For begins p w.1) q

/-! ### Proof -/

theorem holds_congr {O : Type} {S T : O → Prop} (q : Query O) (h : ∀ p ∈ operands q, S p ↔ T p) : RankCovers.Holds S q ↔ RankCovers.Holds T q := by
  induction q with
  | val p w => exact h p (by simp [operands])
  | not q ih => simp only [RankCovers.Holds]; rw [ih (fun p hp => h p (by simpa [operands] using hp))]
  | and l r il ir | or l r il ir =>
    simp only [RankCovers.Holds]
    rw [il (fun p hp => h p (by simp [operands, hp])), ir (fun p hp => h p (by simp [operands, hp]))]
  | phrase d l r => exact Iff.rfl

theorem holds_numbered {O : Type} {S : O → Prop} {T : Nat → Prop} (q : Query O) : ∀ n, (∀ (k : Nat) (p : O), (items q)[k]? = some (some p) → (T (n + k) ↔ S p)) →
    (RankCovers.Holds T (numbered n q) ↔ RankCovers.Holds S q) := by
  induction q with
  | val p w => intro n h; exact h 0 p rfl
  | not q ih =>
    intro n h
    simp only [numbered, RankCovers.Holds]
    rw [ih (n + 1) (fun k p hk => by have := h (k + 1) p (by simpa [items] using hk); rwa [show n + (k + 1) = n + 1 + k by omega] at this)]
  | and l r il ir | or l r il ir =>
    intro n h
    simp only [numbered, RankCovers.Holds]
    rw [il (n + 1 + (items r).length) (fun k p hk => by
        have := h ((items r).length + k + 1) p (by simp only [items, List.getElem?_cons_succ]; rw [List.getElem?_append_right (by omega)]; simpa using hk)
        rwa [show n + ((items r).length + k + 1) = n + 1 + (items r).length + k by omega] at this),
      ir (n + 1) (fun k p hk => by
        have := h (k + 1) p (by
          simp only [items, List.getElem?_cons_succ]
          rw [List.getElem?_append_left (List.getElem?_eq_some_iff.1 hk).1]; exact hk)
        rwa [show n + (k + 1) = n + 1 + k by omega] at this)]
  | phrase d l r => intro n h; exact Iff.rfl

/-- There is a minimal extent exactly if the whole satisfies the query. -/
theorem exists_minimal {q : Query Nat} (hq : Positive q) (doc : List DocR) : (∃ b e, Minimal q doc b e) ↔ Sat q doc 0 doc.length := by
  classical
  constructor
  · rintro ⟨b, e, h⟩
    exact sat_mono hq (Nat.zero_le b) h.high h.sat
  · intro h
    have hex : ∃ e, Sat q doc 0 e := ⟨_, h⟩
    have he := Nat.find_spec hex
    have hmin : ∀ m, m < Nat.find hex → ¬ Sat q doc 0 m := fun m hm => Nat.find_min hex hm
    have hle : Nat.find hex ≤ doc.length := Nat.find_min' hex h
    generalize Nat.find hex = E at he hmin hle
    have h0 : E ≠ 0 := by rintro rfl; exact sat_empty hq (Nat.le_refl 0) he
    obtain ⟨e, rfl⟩ := Nat.exists_eq_succ_of_ne_zero h0
    have hex2 : ∃ b, ¬ Sat q doc (b + 1) (e + 1) := ⟨e, sat_empty hq (Nat.le_refl _)⟩
    have hb := Nat.find_spec hex2
    have hbm : ∀ m, m < Nat.find hex2 → Sat q doc (m + 1) (e + 1) := fun m hm => by
      have := Nat.find_min hex2 hm; exact not_not.1 this
    have hbe : Nat.find hex2 ≤ e := Nat.find_min' hex2 (sat_empty hq (Nat.le_refl _))
    generalize Nat.find hex2 = b at hb hbm hbe
    refine ⟨b, e, ⟨hbe, hle, ?_, hb, fun hs => hmin e (Nat.lt_succ_self e) (sat_mono hq (Nat.zero_le b) (Nat.le_refl e) hs)⟩⟩
    cases b with
    | zero => exact he
    | succ b => exact hbm b (Nat.lt_succ_self b)

section
variable {o : Norms F} {Pos : F → Prop} (hs : Signs o Pos)
include hs

theorem foldl_pos {A : Type} (f : A → F) : ∀ (l : List A) (s : F), Pos s → (∀ a ∈ l, Pos (f a)) → Pos (l.foldl (fun s a => o.add s (f a)) s) := by
  intro l
  induction l with
  | nil => intro s h _; exact h
  | cons a l ih => intro s h hl; exact ih _ (hs.add _ _ h (hl a (by simp))) (fun b hb => hl b (by simp [hb]))

theorem sum_pos {A : Type} (f : A → F) (l : List A) (hne : l ≠ []) (h : ∀ a ∈ l, Pos (f a)) : Pos (l.foldl (fun s a => o.add s (f a)) (o.num 0)) := by
  cases l with
  | nil => exact absurd rfl hne
  | cons a l => exact foldl_pos hs f l _ (hs.add0 _ (h a (by simp))) (fun b hb => h b (by simp [hb]))

theorem coverRank_pos (len : Nat) (c : Cover) (l : List DocR) (hne : l ≠ []) : Pos (coverRank o.toFloats len c l) := by
  have h1 : Pos (o.div (o.num l.length) (l.foldl (fun s d => o.add s (o.weight d.wclass)) (o.num 0))) :=
    hs.div _ _ (hs.num _ (List.length_pos_iff.2 hne)) (sum_pos hs _ l hne (fun d _ => hs.weight _))
  unfold coverRank
  simp only
  refine hs.div _ _ ?_ (hs.num _ (by omega))
  split
  · exact hs.mul _ _ h1 (hs.num _ (by assumption))
  · exact h1

theorem addCover_pos (k : Nat) (r : F) (hr : Pos r) : ∀ gs : List (CoverGroup F), (∀ g ∈ gs, Pos g.rank) →
    (∀ g ∈ addCover o.toFloats k r gs, Pos g.rank) ∧ addCover o.toFloats k r gs ≠ [] := by
  have hd : ∀ n, Pos (o.div (o.div (o.div r (o.num (n + 1))) (o.num (n + 1))) o.c) := fun n =>
    hs.div _ _ (hs.div _ _ (hs.div _ _ hr (hs.num _ (by omega))) (hs.num _ (by omega))) hs.const
  intro gs
  induction gs with
  | nil =>
    intro _
    refine ⟨fun g hg => ?_, by simp [addCover]⟩
    simp only [addCover, List.mem_singleton] at hg
    subst hg
    exact hs.add0 _ (hd 0)
  | cons g gs ih =>
    intro h
    simp only [addCover]
    split
    · refine ⟨fun x hx => ?_, by simp⟩
      rcases List.mem_cons.1 hx with rfl | hx
      · exact hs.add _ _ (h g (by simp)) (hd _)
      · exact h x (by simp [hx])
    · refine ⟨fun x hx => ?_, by simp⟩
      rcases List.mem_cons.1 hx with rfl | hx
      · exact h x (by simp)
      · exact (ih (fun y hy => h y (by simp [hy]))).1 x hx

theorem groups_pos (len : Nat) (doc : List DocR) : ∀ (cs : List Cover) (gs : List (CoverGroup F)), (∀ c ∈ cs, c.elems doc ≠ []) → (∀ g ∈ gs, Pos g.rank) →
    let r := cs.foldl (fun gs c => addCover o.toFloats (coverKey (c.elems doc)) (coverRank o.toFloats len c (c.elems doc)) gs) gs
    (∀ g ∈ r, Pos g.rank) ∧ (cs ≠ [] ∨ gs ≠ [] → r ≠ []) := by
  intro cs
  induction cs with
  | nil => intro gs _ h; exact ⟨h, fun h => h.elim (fun h => absurd rfl h) id⟩
  | cons c cs ih =>
    intro gs hc h
    obtain ⟨a1, a2⟩ := addCover_pos hs (coverKey (c.elems doc)) _ (coverRank_pos hs len c _ (hc c (by simp))) gs h
    obtain ⟨b1, b2⟩ := ih _ (fun d hd => hc d (by simp [hd])) a1
    exact ⟨b1, fun _ => b2 (Or.inr a2)⟩

theorem normExt_pos (m n : Nat) (sd w : F) (hw : Pos w) : Pos (normExt o m n sd w) := by
  have h1 : Pos (if m.testBit 2 ∧ n > 0 ∧ o.gt sd (o.num 0) then o.div w (o.div (o.num n) sd) else w) := by
    split
    · rename_i h; exact hs.div _ _ hw (hs.div _ _ (hs.num _ h.2.1) (hs.gt0 _ h.2.2))
    · exact hw
  unfold normExt
  simp only
  split
  · exact hs.div _ _ h1 (hs.add _ _ h1 (hs.num 1 (by omega)))
  · exact h1

theorem normExt_zero (m : Nat) (sd : F) : normExt o m 0 sd (o.num 0) = o.num 0 := by
  unfold normExt
  simp only [Nat.lt_irrefl, gt_iff_lt, false_and, and_false, if_false]
  split
  · exact hs.div0 _ (hs.add0 _ (hs.num 1 (by omega)))
  · rfl

omit hs in
theorem countLength_pos (v : TsVector L) (h : 0 < v.length) : 0 < countLength v := by
  cases v with
  | nil => simp at h
  | cons w v =>
    unfold countLength
    simp only [List.map_cons, List.sum_cons]
    split <;> omega

/-- Each step of the normalization over the document divides by something positive or does nothing. -/
theorem normDoc_keeps (P : F → Prop) (hP : ∀ a b, P a → Pos b → P (o.div a b)) (m : Nat) (v : TsVector L) (w : F) (hw : P w) : P (normDoc o m v w) := by
  have ite : ∀ (c : Prop) [Decidable c] (x b : F), P x → (c → Pos b) → P (if c then o.div x b else x) := by
    intro c _ x b hx hb
    split
    · exact hP _ _ hx (hb (by assumption))
    · exact hx
  unfold normDoc
  simp only
  refine ite _ _ _ (ite _ _ _ (ite _ _ _ (ite _ _ _ hw ?_) ?_) ?_) ?_
  · rintro ⟨-, h⟩; exact hs.log _ (by have := countLength_pos v h; omega)
  · rintro ⟨-, h⟩; exact hs.num _ h
  · rintro ⟨-, h⟩; exact hs.num _ h
  · rintro ⟨-, h⟩; exact hs.div _ _ (hs.log _ (by omega)) (hs.log 2 (by omega))

theorem scoreDocrN_sign (idx : Bool) {q : Query Nat} (hq : Positive q) (len : Nat) {doc : List DocR} (hpos : ∀ d ∈ doc, 0 < d.pos)
    (hord : doc.Pairwise (fun a b => a.pos ≤ b.pos)) (m : Nat) :
    (Sat q doc 0 doc.length → Pos (scoreDocrN o idx q len doc m)) ∧ (¬ Sat q doc 0 doc.length → scoreDocrN o idx q len doc m = o.num 0) := by
  obtain ⟨e1, -, -⟩ := C59_extents hq hpos hord idx
  have hel : ∀ c ∈ covers idx q doc (doc.length + 1) 0, c.elems doc ≠ [] := by
    intro c hc h
    have hm := (e1 c.first c.last).2 ⟨c, hc, rfl, rfl⟩
    have := hm.low; have := hm.high
    have : (c.elems doc).length = 0 := by rw [h]; rfl
    simp [Cover.elems] at this
    omega
  obtain ⟨g1, g2⟩ := groups_pos hs len doc _ [] hel (by simp)
  rw [← exists_minimal hq]
  constructor
  · rintro ⟨b, e, hm⟩
    obtain ⟨c, hc, -⟩ := (e1 b e).1 hm
    unfold scoreDocrN
    exact hs.f4 _ (normExt_pos hs _ _ _ _ (sum_pos hs _ _ (g2 (Or.inl (List.ne_nil_of_mem hc))) g1))
  · intro h
    have hnil : covers idx q doc (doc.length + 1) 0 = [] := by
      rw [List.eq_nil_iff_forall_not_mem]
      exact fun c hc => h ⟨_, _, (e1 c.first c.last).2 ⟨c, hc, rfl, rfl⟩⟩
    simp only [scoreDocrN, coverGroups, hnil, List.foldl_nil, List.length_nil]
    rw [normExt_zero hs, hs.f40]

/-- **C78.** For a query of AND, OR and words or prefixes and a document all of whose words have positions: with every normalization method the score is positive if the
document satisfies the query and zero if not; so the distance is infinite exactly for the documents that do not. -/
theorem C78_distance [DecidableEq L] [DecidableEq F] {cmpL : L → L → Ordering} [TransCmp cmpL] [LawfulEqCmp cmpL] (begins : L → L → Bool) (addr : Nat → Nat)
    {sort : List DocR → List DocR} (hsort : SortsByPos sort) {v : TsVector L} (hv : Placed v) {q : Query (Opnd L)} (hq : Positive q) (hd : Distinct q) (m : Nat) :
    (Satisfies begins v q → Pos (scoreN o cmpL begins addr sort v q m)) ∧
    (¬ Satisfies begins v q → scoreN o cmpL begins addr sort v q m = o.num 0) ∧
    (distanceN o (scoreN o cmpL begins addr sort v q m) = none ↔ ¬ Satisfies begins v q) := by
  have hv' : ∀ w ∈ v, ∃ ps, w.2 = some ps ∧ ∀ x ∈ ps, 0 < wepPos x := fun w hw => by
    obtain ⟨ps, h1, -, h2⟩ := hv w hw; exact ⟨ps, h1, h2⟩
  have hmem : ∀ p, p ∈ docrep cmpL begins addr sort v q ↔ p ∈ docLoop cmpL begins addr v (items q) 0 [] 0 (items q) := fun p => (sort_perm hsort _).mem_iff
  have hdis : ∀ (i j : Nat) (o p : Opnd L), (items q)[i]? = some (some o) → (items q)[j]? = some (some p) → o.lex = p.lex → o = p :=
    fun i j o p h1 h2 h => hd o (items_mem h1) p (items_mem h2) h
  have hord : (docrep cmpL begins addr sort v q).Pairwise (fun a b => a.pos ≤ b.pos) := by
    obtain ⟨perm, h⟩ := hsort
    exact (h _).2.2
  have hpos : ∀ d ∈ docrep cmpL begins addr sort v q, 0 < d.pos := by
    intro d hdm
    obtain ⟨j, p, h1, h2, w, hw, hf, x, hx, h3, -⟩ := loop_sound begins addr v _ 0 [] 0 rfl d ((hmem d).1 hdm)
    obtain ⟨ps, h, h'⟩ := hv' w hw
    rw [h] at hx
    rw [h3]
    exact h' x hx
  have hsat : Sat (numbered 0 q) (docrep cmpL begins addr sort v q) 0 (docrep cmpL begins addr sort v q).length ↔ Satisfies begins v q := by
    refine holds_numbered q 0 (fun k p hk => ?_)
    rw [Nat.zero_add]
    constructor
    · rintro ⟨i, d, -, -, hdi, hks⟩
      obtain ⟨j, p', h1, h2, w, hw, hf, -⟩ := loop_sound begins addr v _ 0 [] 0 rfl d ((hmem d).1 (List.mem_of_getElem? hdi))
      rw [h2, mem_same hdis h1 k, hk] at hks
      cases hks
      exact ⟨w, hw, hf⟩
    · rintro ⟨w, hw, hf⟩
      obtain ⟨ps, h1, h2, -⟩ := hv w hw
      obtain ⟨x, hx⟩ := List.exists_mem_of_ne_nil ps h2
      obtain ⟨d, hdm, h, -⟩ := loop_complete (cmpL := cmpL) begins addr v hdis hk hw hf (x := x) (by rw [h1]; exact hx) _ 0 [] 0 rfl (Nat.zero_le k) (by simp)
      obtain ⟨i, hi, hi'⟩ := List.getElem_of_mem ((hmem d).2 hdm)
      exact ⟨i, d, Nat.zero_le i, hi, by rw [List.getElem?_eq_getElem hi, hi'], h⟩
  have h1 : Satisfies begins v q → Pos (scoreN o cmpL begins addr sort v q m) := by
    intro h
    unfold scoreN
    simp only
    split
    · rename_i he
      rw [← hsat, he] at h
      exact absurd h (sat_empty (positive_numbered q 0 hq) (Nat.le_refl 0))
    · exact hs.f4 _ (normDoc_keeps hs Pos hs.div m v _ ((scoreDocrN_sign hs false (positive_numbered q 0 hq) _ hpos hord m).1 (hsat.2 h)))
  have h2 : ¬ Satisfies begins v q → scoreN o cmpL begins addr sort v q m = o.num 0 := by
    intro h
    unfold scoreN
    simp only
    split
    · rfl
    · rw [normDoc_keeps hs (fun a => a = o.num 0) (fun a b ha hb => by rw [ha]; exact hs.div0 b hb) m v _
        ((scoreDocrN_sign hs false (positive_numbered q 0 hq) _ hpos hord m).2 (fun hs' => h (hsat.1 hs')))]
      exact hs.f40
  refine ⟨h1, h2, ?_⟩
  unfold distanceN
  constructor
  · intro h hsf
    split at h
    · rename_i he
      exact hs.zero (he ▸ h1 hsf)
    · cases h
  · intro h
    rw [h2 h, if_pos rfl]
end

/-! ### Exact arithmetic -/

/-- Real numbers; the weights of the classes D, C, B, A as in `/repo/src/rum_ts_utils.c:173`. -/
noncomputable def reals : Norms ℝ where
  num n := n
  add a b := a + b
  mul a b := a * b
  div a b := a / b
  weight k := if k = 0 then 10 else if k = 1 then 5 else if k = 2 then 2.5 else 1
  c := 1.64493406685
  f4 a := a
  sub a b := a - b
  gt a b := open Classical in decide (a > b)
  log a := Real.log a

/-- They meet the hypotheses. -/
theorem reals_signs : Signs reals (fun a : ℝ => 0 < a) where
  zero := by simp [reals]
  num n h := by simpa [reals] using h
  add a b ha hb := add_pos ha hb
  add0 b hb := by simpa [reals] using hb
  mul a b ha hb := mul_pos ha hb
  div a b ha hb := div_pos ha hb
  div0 b _ := by simp [reals]
  weight k := by
    show (0 : ℝ) < if k = 0 then 10 else if k = 1 then 5 else if k = 2 then 2.5 else 1
    split
    · norm_num
    · split
      · norm_num
      · split <;> norm_num
  const := by show (0 : ℝ) < 1.64493406685; norm_num
  f4 a h := h
  f40 := rfl
  sub a b h := by
    have : a > b := by simpa [reals] using h
    exact sub_pos.2 this
  gt0 a h := by
    have : a > ((0 : Nat) : ℝ) := by simpa [reals] using h
    simpa using this
  log n h := by
    show 0 < Real.log (n : ℝ)
    exact Real.log_pos (by exact_mod_cast h)

/-- The document `5:1,4` and the query `5 & 7 | 5` meet the others; it satisfies it, but not `7`. -/
example : Placed ([(5, some [1, 4])] : TsVector Nat) ∧ Distinct (.or (.and (word 5) (word 7)) (word 5)) ∧ Positive (.or (.and (word 5) (word 7)) (word 5)) ∧
    Satisfies (· == ·) [(5, some [1, 4])] (.or (.and (word 5) (word 7)) (word 5)) ∧ ¬ Satisfies (· == ·) [(5, some [1, 4])] (word 7) := by
  refine ⟨?_, ?_, ⟨⟨trivial, trivial⟩, trivial⟩, ?_, ?_⟩
  · intro w hw
    simp only [List.mem_singleton] at hw
    subst hw
    exact ⟨_, rfl, by simp, by decide⟩
  · intro o ho p hp h
    simp [word, operands] at ho hp
    rcases ho with rfl | rfl | rfl <;> rcases hp with rfl | rfl | rfl <;> simp_all
  · exact Or.inr ⟨_, List.mem_singleton.2 rfl, rfl⟩
  · rintro ⟨w, hw, hf⟩
    simp only [List.mem_singleton] at hw
    subst hw
    simp [For] at hf

theorem log_ge_one {n : Nat} (h : 3 ≤ n) : 1 ≤ Real.log n := by
  rw [Real.le_log_iff_exp_le (by exact_mod_cast (by omega : 0 < n))]
  have : (3 : ℝ) ≤ n := by exact_mod_cast h
  have := Real.exp_one_lt_d9
  linarith

theorem addCover_nonneg (k : Nat) {r : ℝ} (hr : 0 ≤ r) : ∀ gs : List (CoverGroup ℝ), (∀ g ∈ gs, 0 ≤ g.rank) → ∀ g ∈ addCover reals.toFloats k r gs, 0 ≤ g.rank := by
  have hd' : ∀ n : Nat, 0 ≤ reals.div (reals.div (reals.div r (reals.num n)) (reals.num n)) reals.c := fun n => by
    show 0 ≤ r / (n : ℝ) / (n : ℝ) / 1.64493406685
    positivity
  intro gs
  induction gs with
  | nil =>
    intro _ g hgm
    simp only [addCover, List.mem_singleton] at hgm
    subst hgm
    show 0 ≤ ((0 : Nat) : ℝ) + _
    rw [Nat.cast_zero, zero_add]
    exact hd' 1
  | cons x gs ih2 =>
    intro h
    simp only [addCover]
    split
    · intro g hgm
      rcases List.mem_cons.1 hgm with rfl | hgm
      · exact add_nonneg (h x (by simp)) (hd' _)
      · exact h g (by simp [hgm])
    · intro g hgm
      rcases List.mem_cons.1 hgm with rfl | hgm
      · exact h g (by simp)
      · exact ih2 (fun y hy => h y (by simp [hy])) g hgm

/-- In exact arithmetic method 32 puts the score between 0 and 1, with or without other methods; not with method 1 over a document with one position. -/
theorem C79_scaled_partial [DecidableEq L] {cmpL : L → L → Ordering} [TransCmp cmpL] [LawfulEqCmp cmpL] (begins : L → L → Bool) (addr : Nat → Nat)
    {sort : List DocR → List DocR} (hsort : SortsByPos sort) {v : TsVector L} (hv : Placed v) {q : Query (Opnd L)} (hq : Positive q) (hd : Distinct q) (m : Nat)
    (hm : m.testBit 5 = true) (h1 : m.testBit 0 = true → 2 ≤ countLength v) :
    0 ≤ scoreN reals cmpL begins addr sort v q m ∧ scoreN reals cmpL begins addr sort v q m < 1 := by
  classical
  have hlow : 0 ≤ scoreN reals cmpL begins addr sort v q m := by
    obtain ⟨a, b, -⟩ := C78_distance reals_signs (cmpL := cmpL) begins addr hsort hv hq hd m
    by_cases h : Satisfies begins v q
    · exact (a h).le
    · rw [b h]; simp [reals]
  refine ⟨hlow, ?_⟩
  unfold scoreN at hlow ⊢
  simp only at hlow ⊢
  split
  · simp [reals]
  · rename_i hne
    rw [if_neg hne] at hlow
    generalize docrep cmpL begins addr sort v q = doc at hlow ⊢
    -- what the extents give is non-negative
    have hg : ∀ (cs : List Cover) (gs : List (CoverGroup ℝ)), (∀ g ∈ gs, 0 ≤ g.rank) →
        ∀ g ∈ cs.foldl (fun gs c => addCover reals.toFloats (coverKey (c.elems doc)) (coverRank reals.toFloats (items q).length c (c.elems doc)) gs) gs, 0 ≤ g.rank := by
      intro cs
      induction cs with
      | nil => intro gs h; exact h
      | cons c cs ih =>
        intro gs h
        refine ih _ ?_
        have hr : 0 ≤ coverRank reals.toFloats (items q).length c (c.elems doc) := by
          by_cases he : c.elems doc = []
          · simp [coverRank, he, reals]
          · exact (coverRank_pos reals_signs _ c _ he).le
        exact addCover_nonneg _ hr _ h
    have hsum : ∀ (gs : List (CoverGroup ℝ)) (s : ℝ), 0 ≤ s → (∀ g ∈ gs, 0 ≤ g.rank) → 0 ≤ gs.foldl (fun s g => reals.add s g.rank) s := by
      intro gs
      induction gs with
      | nil => intro s h _; exact h
      | cons g gs ih => intro s h hh; exact ih _ (add_nonneg h (hh g (by simp))) (fun y hy => hh y (by simp [hy]))
    have hX : 0 ≤ scoreDocrN reals false (numbered 0 q) (items q).length doc m ∧ scoreDocrN reals false (numbered 0 q) (items q).length doc m < 1 := by
      unfold scoreDocrN
      simp only
      have hw := hsum (coverGroups reals.toFloats false (numbered 0 q) (items q).length doc) (reals.num 0) (by simp [reals]) (hg _ [] (by simp))
      generalize List.foldl _ _ (coverGroups reals.toFloats false (numbered 0 q) (items q).length doc) = w at hw
      generalize sumDist _ _ _ _ = sd
      generalize List.length _ = n
      show 0 ≤ normExt reals m n sd w ∧ normExt reals m n sd w < 1
      unfold normExt
      simp only [hm, if_true]
      have hw' : 0 ≤ (if m.testBit 2 = true ∧ n > 0 ∧ reals.gt sd (reals.num 0) = true then reals.div w (reals.div (reals.num n) sd) else w) := by
        split
        · rename_i h
          exact div_nonneg hw (div_pos (reals_signs.num _ h.2.1) (reals_signs.gt0 _ h.2.2)).le
        · exact hw
      generalize (if m.testBit 2 = true ∧ n > 0 ∧ reals.gt sd (reals.num 0) = true then reals.div w (reals.div (reals.num n) sd) else w) = u at hw'
      show 0 ≤ u / (u + ((1 : Nat) : ℝ)) ∧ u / (u + ((1 : Nat) : ℝ)) < 1
      rw [Nat.cast_one]
      exact ⟨by positivity, by rw [div_lt_one (by linarith)]; linarith⟩
    generalize scoreDocrN reals false (numbered 0 q) (items q).length doc m = x at hX
    show normDoc reals m v x < 1
    have ite : ∀ (c : Prop) [Decidable c] (x b : ℝ), (0 ≤ x ∧ x < 1) → (c → 1 ≤ b) → (0 ≤ (if c then reals.div x b else x) ∧ (if c then reals.div x b else x) < 1) := by
      intro c _ x b hx hb
      split
      · rename_i hc
        have := hb hc
        show 0 ≤ x / b ∧ x / b < 1
        refine ⟨div_nonneg hx.1 (by linarith), ?_⟩
        rw [div_lt_one (by linarith)]
        linarith
      · exact hx
    unfold normDoc
    simp only
    refine (ite _ _ _ (ite _ _ _ (ite _ _ _ (ite _ _ _ hX ?_) ?_) ?_) ?_).2
    · rintro ⟨h, -⟩
      exact log_ge_one (by have := h1 h; omega)
    · rintro ⟨-, h⟩
      show (1 : ℝ) ≤ (countLength v : ℝ)
      exact_mod_cast h
    · rintro ⟨-, h⟩
      show (1 : ℝ) ≤ (v.length : ℝ)
      exact_mod_cast h
    · rintro ⟨-, h⟩
      show (1 : ℝ) ≤ Real.log ((v.length + 1 : Nat) : ℝ) / Real.log ((2 : Nat) : ℝ)
      have h2 : 0 < Real.log ((2 : Nat) : ℝ) := Real.log_pos (by norm_num)
      rw [le_div_iff₀ h2, one_mul]
      refine Real.log_le_log (by norm_num) ?_
      exact_mod_cast (by omega : 2 ≤ v.length + 1)

/-! ### What each method does -/

/-- The number of positions of a document. -/
def positions (v : TsVector L) : Nat := (v.map (fun w => (w.2.getD []).length)).sum

/-- The middle between the positions of the first and the last element of an extent. -/
noncomputable def middle (doc : List DocR) (x : Nat × Nat) : ℝ := ((((doc[x.1]?.map (·.pos)).getD 0 : Nat) : ℝ) + (((doc[x.2]?.map (·.pos)).getD 0 : Nat) : ℝ)) / 2

/-- The sum of the inverse distances of consecutive extents, without those at the same place. -/
noncomputable def closeness (doc : List DocR) (ext : List (Nat × Nat)) : ℝ :=
  ((ext.zip ext.tail).map (fun p => if middle doc p.1 < middle doc p.2 then 1 / (middle doc p.2 - middle doc p.1) else 0)).sum

open Classical in
/-- The score `w` after the methods in `m`: 4 divides by the harmonic mean of the distances of the `n` extents, 32 by itself plus 1, 1 by the logarithm of one plus the number of
positions, 2 by this number, 8 by the number of words, 16 by the binary logarithm of one plus this number. -/
noncomputable def normalized (m : Nat) (w : ℝ) (n : Nat) (close : ℝ) (len words : Nat) : ℝ :=
  let w1 := if m.testBit 2 = true ∧ 0 < close then w * close / n else w
  let w2 := if m.testBit 5 = true then w1 / (w1 + 1) else w1
  w2 / ((if m.testBit 0 = true then Real.log (len + 1) else 1) * (if m.testBit 1 = true then (len : ℝ) else 1) * (if m.testBit 3 = true then (words : ℝ) else 1) *
    (if m.testBit 4 = true then Real.logb 2 (words + 1) else 1))

theorem countLength_eq {v : TsVector L} (hv : Placed v) : countLength v = positions v := by
  unfold countLength positions
  refine congrArg List.sum (List.map_congr_left (fun w hw => ?_))
  obtain ⟨ps, h, hne, -⟩ := hv w hw
  rw [if_neg]
  rw [h]
  simpa using hne

theorem sumDist_eq (doc : List DocR) : ∀ (l : List (Nat × Nat)) (x : Nat × Nat) (s : ℝ) (f : Nat × Nat → Nat × Nat),
    (∀ y ∈ x :: l, (((f y).2 + (f y).1 : Nat) : ℝ) / 2 = middle doc y) →
    sumDist reals (some (middle doc x)) s (l.map f) = s + closeness doc (x :: l) := by
  intro l
  induction l with
  | nil => intro x s f _; simp [sumDist, closeness]
  | cons y l ih =>
    intro x s f h
    have hy : reals.div (reals.num ((f y).2 + (f y).1)) (reals.num 2) = middle doc y := by
      rw [← h y (by simp)]
      show (((f y).2 + (f y).1 : Nat) : ℝ) / ((2 : Nat) : ℝ) = _
      norm_num
    simp only [List.map_cons, sumDist]
    rw [hy, ih y _ f (fun z hz => h z (by simp only [List.mem_cons] at hz ⊢; tauto))]
    have hc : closeness doc (x :: y :: l) = (if middle doc x < middle doc y then 1 / (middle doc y - middle doc x) else 0) + closeness doc (y :: l) := by
      simp [closeness]
    rw [hc]
    have hg : reals.gt (middle doc y) (middle doc x) = true ↔ middle doc x < middle doc y := by simp [reals]
    by_cases hm : middle doc x < middle doc y
    · rw [if_pos (hg.2 hm), if_pos hm]
      show s + ((1 : Nat) : ℝ) / (middle doc y - middle doc x) + _ = _
      rw [Nat.cast_one]
      ring
    · rw [if_neg (fun h => hm (hg.1 h)), if_neg hm]
      ring

theorem ends_middle {doc : List DocR} {c : Cover} (h1 : c.first ≤ c.last) (h2 : c.last < doc.length) :
    ((((c.ends doc).2 + (c.ends doc).1 : Nat) : ℝ)) / 2 = middle doc (c.first, c.last) := by
  have e1 : (c.elems doc).head? = doc[c.first]? := by
    unfold Cover.elems
    rw [List.head?_take, if_neg (by omega), List.head?_drop]
  have e2 : (c.elems doc).getLast? = doc[c.last]? := by
    unfold Cover.elems
    rw [List.getLast?_eq_getElem?, List.getElem?_take, if_pos (by simp; omega), List.getElem?_drop]
    congr 1
    simp
    omega
  unfold Cover.ends middle
  rw [e1, e2]
  push_cast
  ring

theorem normDoc_reals (m : Nat) {v : TsVector L} (h : 0 < v.length) (x : ℝ) :
    normDoc reals m v x = x / ((if m.testBit 0 = true then Real.log (countLength v + 1) else 1) * (if m.testBit 1 = true then (countLength v : ℝ) else 1) *
      (if m.testBit 3 = true then (v.length : ℝ) else 1) * (if m.testBit 4 = true then Real.logb 2 (v.length + 1) else 1)) := by
  have hl := countLength_pos v h
  have ite : ∀ (c : Prop) [Decidable c] (x b : ℝ), (if c then reals.div x b else x) = x / (if c then b else 1) := by
    intro c _ x b
    split
    · rfl
    · rw [div_one]
  unfold normDoc
  simp only [h, hl, and_true]
  have l1 : reals.log (reals.num (countLength v + 1)) = Real.log (countLength v + 1) := by
    show Real.log ((countLength v + 1 : Nat) : ℝ) = _
    push_cast; rfl
  have l2 : reals.div (reals.log (reals.num (v.length + 1))) (reals.log (reals.num 2)) = Real.logb 2 (v.length + 1) := by
    show Real.log ((v.length + 1 : Nat) : ℝ) / Real.log ((2 : Nat) : ℝ) = _
    rw [Real.logb]
    push_cast; rfl
  rw [ite, ite, ite, ite, div_div, div_div, div_div, l1, l2, mul_assoc, mul_assoc]
  rfl

/-- **C80.** In exact arithmetic, for AND/OR queries of words and prefixes over documents with positions, each method does to the score what it stands for, on the basis of the
minimal extents of the query in the document. -/
theorem C80_methods [DecidableEq L] {cmpL : L → L → Ordering} [TransCmp cmpL] [LawfulEqCmp cmpL] (begins : L → L → Bool) (addr : Nat → Nat)
    {sort : List DocR → List DocR} (hsort : SortsByPos sort) {v : TsVector L} (hv : Placed v) {q : Query (Opnd L)} (hq : Positive q) (hd : Distinct q) :
    ∃ (doc : List DocR) (ext : List (Nat × Nat)),
      doc.Pairwise (fun a b => a.pos ≤ b.pos) ∧
      (∀ k p, (items q)[k]? = some (some p) → ∀ pos wt, (∃ d ∈ doc, k ∈ d.slots ∧ d.pos = pos ∧ d.wclass = wt) ↔
        ∃ w ∈ v, For begins p w.1 ∧ ∃ x ∈ w.2.getD [], wepPos x = pos ∧ wepWeight x = wt) ∧
      (∀ b e, Minimal (numbered 0 q) doc b e ↔ (b, e) ∈ ext) ∧ ext.Pairwise (fun x y => x.1 < y.1) ∧
      ∀ m, scoreN reals cmpL begins addr sort v q m =
        normalized m (score reals.toFloats cmpL begins addr sort v q) ext.length (closeness doc ext) (positions v) v.length := by
  have hv' : ∀ w ∈ v, ∃ ps, w.2 = some ps ∧ ∀ x ∈ ps, 0 < wepPos x := fun w hw => by
    obtain ⟨ps, h1, -, h2⟩ := hv w hw; exact ⟨ps, h1, h2⟩
  have hmem : ∀ p, p ∈ docrep cmpL begins addr sort v q ↔ p ∈ docLoop cmpL begins addr v (items q) 0 [] 0 (items q) := fun p => (sort_perm hsort _).mem_iff
  have hdis : ∀ (i j : Nat) (o p : Opnd L), (items q)[i]? = some (some o) → (items q)[j]? = some (some p) → o.lex = p.lex → o = p :=
    fun i j o p h1 h2 h => hd o (items_mem h1) p (items_mem h2) h
  have hord : (docrep cmpL begins addr sort v q).Pairwise (fun a b => a.pos ≤ b.pos) := by
    obtain ⟨perm, h⟩ := hsort
    exact (h _).2.2
  have hget : ∀ w ∈ v, ∀ x, x ∈ w.2.getD [0] ↔ x ∈ w.2.getD [] := by
    intro w hw x
    obtain ⟨ps, h, -⟩ := hv w hw
    rw [h]; rfl
  have hpos : ∀ d ∈ docrep cmpL begins addr sort v q, 0 < d.pos := by
    intro d hdm
    obtain ⟨j, p, h1, h2, w, hw, hf, x, hx, h3, -⟩ := loop_sound begins addr v _ 0 [] 0 rfl d ((hmem d).1 hdm)
    obtain ⟨ps, h, h'⟩ := hv' w hw
    rw [h] at hx
    rw [h3]
    exact h' x hx
  obtain ⟨e1, e2, -⟩ := C59_extents (positive_numbered q 0 hq) hpos hord false
  refine ⟨docrep cmpL begins addr sort v q, (covers false (numbered 0 q) (docrep cmpL begins addr sort v q) ((docrep cmpL begins addr sort v q).length + 1) 0).map
    (fun c => (c.first, c.last)), hord, ?_, fun b e => ?_, List.pairwise_map.2 e2, fun m => ?_⟩
  · intro k p hk pos wt
    constructor
    · rintro ⟨d, hdm, hks, rfl, rfl⟩
      obtain ⟨j, p', h1, h2, w, hw, hf, x, hx, h3, h4⟩ := loop_sound begins addr v _ 0 [] 0 rfl d ((hmem d).1 hdm)
      rw [h2, mem_same hdis h1 k, hk] at hks
      cases hks
      exact ⟨w, hw, hf, x, (hget w hw x).1 hx, h3.symm, h4.symm⟩
    · rintro ⟨w, hw, hf, x, hx, rfl, rfl⟩
      obtain ⟨d, hdm, h⟩ := loop_complete (cmpL := cmpL) begins addr v hdis hk hw hf ((hget w hw x).2 hx) _ 0 [] 0 rfl (Nat.zero_le k) (by simp)
      exact ⟨d, (hmem d).2 hdm, h⟩
  · rw [e1, List.mem_map]
    simp only [Prod.mk.injEq]
  · unfold scoreN score
    simp only
    split
    · simp [normalized, reals]
    · rename_i hne
      have hvl : 0 < v.length := by
        obtain ⟨d, hdm⟩ := List.exists_mem_of_ne_nil _ hne
        obtain ⟨j, p, h1, h2, w, hw, -⟩ := loop_sound begins addr v _ 0 [] 0 rfl d ((hmem d).1 hdm)
        exact List.length_pos_of_mem hw
      generalize docrep cmpL begins addr sort v q = doc at *
      have hsd : sumDist reals none (reals.num 0) ((covers false (numbered 0 q) doc (doc.length + 1) 0).map (·.ends doc)) =
          closeness doc ((covers false (numbered 0 q) doc (doc.length + 1) 0).map (fun c => (c.first, c.last))) := by
        have hin : ∀ c ∈ covers false (numbered 0 q) doc (doc.length + 1) 0, c.first ≤ c.last ∧ c.last < doc.length := fun c hc => by
          have hm := (e1 c.first c.last).2 ⟨c, hc, rfl, rfl⟩
          exact ⟨hm.low, hm.high⟩
        generalize covers false (numbered 0 q) doc (doc.length + 1) 0 = cs at hin
        -- the ends are a function of the numbers of the elements
        have hmap : ∀ cs : List Cover, cs.map (·.ends doc) = (cs.map (fun c => (c.first, c.last))).map (fun x => Cover.ends ⟨x.1, x.2, noData⟩ doc) := by
          intro cs
          rw [List.map_map]
          rfl
        rw [hmap]
        cases cs with
        | nil => simp [sumDist, closeness, reals]
        | cons c cs =>
          simp only [List.map_cons, sumDist]
          have hf : ∀ y ∈ (c :: cs).map (fun c => (c.first, c.last)),
              (((Cover.ends ⟨y.1, y.2, noData⟩ doc).2 + (Cover.ends ⟨y.1, y.2, noData⟩ doc).1 : Nat) : ℝ) / 2 = middle doc y := by
            intro y hy
            obtain ⟨d, hdm, rfl⟩ := List.mem_map.1 hy
            exact ends_middle (c := ⟨d.first, d.last, noData⟩) (hin d hdm).1 (hin d hdm).2
          have h0 : reals.div (reals.num ((Cover.ends ⟨c.first, c.last, noData⟩ doc).2 + (Cover.ends ⟨c.first, c.last, noData⟩ doc).1)) (reals.num 2) =
              middle doc (c.first, c.last) := by
            rw [← hf (c.first, c.last) (by simp)]
            show (_ : ℝ) / ((2 : Nat) : ℝ) = _
            norm_num [reals]
          rw [h0, sumDist_eq doc _ (c.first, c.last) _ _ hf]
          show ((0 : Nat) : ℝ) + _ = _
          rw [Nat.cast_zero, zero_add]
      show normDoc reals m v (scoreDocrN reals false (numbered 0 q) (items q).length doc m) = _
      rw [normDoc_reals m hvl, countLength_eq hv]
      unfold normalized
      simp only
      congr 1
      show normExt reals m _ _ _ = _
      rw [hsd]
      have hS : (coverGroups reals.toFloats false (numbered 0 q) (items q).length doc).foldl (fun s g => reals.add s g.rank) (reals.num 0) =
          scoreDocr reals.toFloats false (numbered 0 q) (items q).length doc := rfl
      rw [hS, List.length_map]
      generalize scoreDocr reals.toFloats false (numbered 0 q) (items q).length doc = w
      have hcl : 0 < closeness doc ((covers false (numbered 0 q) doc (doc.length + 1) 0).map (fun c => (c.first, c.last))) →
          0 < (covers false (numbered 0 q) doc (doc.length + 1) 0).length := by
        intro h
        rw [List.length_pos_iff]
        intro hn
        rw [hn] at h
        simp [closeness] at h
      generalize closeness doc _ = cl at hcl
      generalize (covers false (numbered 0 q) doc (doc.length + 1) 0).length = n at hcl
      have hw1 : (if m.testBit 2 = true ∧ n > 0 ∧ reals.gt cl (reals.num 0) = true then reals.div w (reals.div (reals.num n) cl) else w) =
          (if m.testBit 2 = true ∧ 0 < cl then w * cl / n else w) := by
        have hg : reals.gt cl (reals.num 0) = true ↔ 0 < cl := by simp [reals]
        by_cases hc : m.testBit 2 = true ∧ 0 < cl
        · rw [if_pos ⟨hc.1, hcl hc.2, hg.2 hc.2⟩, if_pos hc]
          show w / ((n : ℝ) / cl) = _
          rw [div_div_eq_mul_div]
        · rw [if_neg (fun h => hc ⟨h.1, hg.1 h.2.2⟩), if_neg hc]
      unfold normExt
      simp only
      rw [hw1]
      split
      · show (_ : ℝ) / (_ + ((1 : Nat) : ℝ)) = _
        rw [Nat.cast_one]
      · rfl

/-- Four prefixes of one word. -/
def four : Query (Opnd (List Nat)) := .or (.or (.val ⟨[1], true⟩ 0) (.val ⟨[1, 2], true⟩ 0)) (.or (.val ⟨[1, 2, 3], true⟩ 0) (.val ⟨[1, 2, 3, 4], true⟩ 0))

/-- The word, with one position of weight A. -/
def fourDoc : TsVector (List Nat) := [([1, 2, 3, 4], some [3 * 2 ^ 14 + 1])]

/-- Its four elements. -/
def fourEls : List DocR := [⟨[2], 0, 1, 3⟩, ⟨[3], 1, 1, 3⟩, ⟨[5], 2, 1, 3⟩, ⟨[6], 3, 1, 3⟩]

theorem four_docrep : docrep compare List.isPrefixOf id exPosSort fourDoc four = fourEls := by
  have h : docLoop compare List.isPrefixOf id fourDoc (items four) 0 [] 0 (items four) = fourEls := by with_unfolding_all rfl
  unfold docrep
  rw [h]
  unfold exPosSort
  rw [List.mergeSort_of_pairwise (by decide)]
  rfl

theorem four_covers : (covers false (numbered 0 four) fourEls 5 0).map (fun c => (c.elems fourEls, ((List.range 7).filter (fun s => (c.data s).isSome)).length)) =
    [([⟨[2], 0, 1, 3⟩], 1), ([⟨[3], 1, 1, 3⟩], 1), ([⟨[5], 2, 1, 3⟩], 1), ([⟨[6], 3, 1, 3⟩], 1)] := by decide +kernel

/-- The rank of an extent from its elements and the number of operands in it. -/
noncomputable def rankOf (x : List DocR × Nat) : ℝ :=
  let inv := x.1.foldl (fun s d => reals.add s (reals.weight d.wclass)) (reals.num 0)
  let cpos := reals.div (reals.num x.1.length) inv
  let cpos := if x.2 > 0 then reals.mul cpos (reals.num x.2) else cpos
  reals.div cpos (reals.num (1 + noise ((x.1.head?.map (·.pos)).getD 0) ((x.1.getLast?.map (·.pos)).getD 0) x.1.length))

theorem four_groups : (coverGroups reals.toFloats false (numbered 0 four) 7 fourEls).foldl (fun s g => reals.add s g.rank) (reals.num 0) = 4 / 1.64493406685 := by
  have h : coverGroups reals.toFloats false (numbered 0 four) 7 fourEls =
      ((covers false (numbered 0 four) fourEls 5 0).map (fun c => (c.elems fourEls, ((List.range 7).filter (fun s => (c.data s).isSome)).length))).foldl
        (fun gs x => addCover reals.toFloats (coverKey x.1) (rankOf x) gs) [] := by
    rw [List.foldl_map]
    rfl
  have hr : ∀ a p : Nat, rankOf ([⟨[a], p, 1, 3⟩], 1) = 1 := by
    intro a p
    show (((1 : Nat) : ℝ) / (((0 : Nat) : ℝ) + 1) * ((1 : Nat) : ℝ)) / ((1 + 0 : Nat) : ℝ) = 1
    norm_num
  have hk : ∀ a p : Nat, coverKey [⟨[a], p, 1, 3⟩] = p % 2 ^ 32 := by intro a p; simp [coverKey]
  rw [h, four_covers]
  simp only [List.foldl_cons, List.foldl_nil, hr, hk, addCover, Nat.reducePow, Nat.reduceMod, Nat.reduceEqDiff, if_false, OfNat.zero_ne_ofNat, Nat.zero_ne_one, OfNat.one_ne_ofNat]
  show ((0 : Nat) : ℝ) + (((0 : Nat) : ℝ) + 1 / ((1 : Nat) : ℝ) / ((1 : Nat) : ℝ) / 1.64493406685) + (((0 : Nat) : ℝ) + 1 / ((1 : Nat) : ℝ) / ((1 : Nat) : ℝ) / 1.64493406685) +
    (((0 : Nat) : ℝ) + 1 / ((1 : Nat) : ℝ) / ((1 : Nat) : ℝ) / 1.64493406685) + (((0 : Nat) : ℝ) + 1 / ((1 : Nat) : ℝ) / ((1 : Nat) : ℝ) / 1.64493406685) = _
  norm_num

/-- PostgreSQL applies method 32 after all others, so that scores stay below 1; here it comes before those of the document: with methods 1 and 32 the score of a word with
one position for four prefixes of it is greater than 1. -/
theorem C79_scaled_violated : Placed fourDoc ∧ Positive four ∧ Distinct four ∧ 1 < scoreN reals compare List.isPrefixOf id exPosSort fourDoc four 33 := by
  refine ⟨?_, ⟨⟨trivial, trivial⟩, ⟨trivial, trivial⟩⟩, ?_, ?_⟩
  · intro w hw
    simp only [fourDoc, List.mem_singleton] at hw
    subst hw
    exact ⟨_, rfl, by simp, by decide⟩
  · intro o ho p hp h
    simp [four, operands] at ho hp
    rcases ho with rfl | rfl | rfl | rfl <;> rcases hp with rfl | rfl | rfl | rfl <;> simp_all
  · unfold scoreN
    simp only
    rw [four_docrep, if_neg (by decide)]
    show 1 < normDoc reals 33 fourDoc (normExt reals 33 _ _ ((coverGroups reals.toFloats false (numbered 0 four) 7 fourEls).foldl (fun s g => reals.add s g.rank) (reals.num 0)))
    rw [four_groups]
    have b0 : Nat.testBit 33 0 = true := by decide
    have b1 : Nat.testBit 33 1 = false := by decide
    have b2 : Nat.testBit 33 2 = false := by decide
    have b3 : Nat.testBit 33 3 = false := by decide
    have b4 : Nat.testBit 33 4 = false := by decide
    have b5 : Nat.testBit 33 5 = true := by decide
    have hl : fourDoc.length > 0 := by decide
    have hc : countLength fourDoc = 1 := by decide
    simp only [normDoc, normExt, b0, b1, b2, b3, b4, b5, hl, hc, Bool.false_eq_true, false_and, if_false, if_true, and_self]
    show (1 : ℝ) < 4 / 1.64493406685 / (4 / 1.64493406685 + ((1 : Nat) : ℝ)) / Real.log ((2 : Nat) : ℝ)
    have h2 : 0 < Real.log ((2 : Nat) : ℝ) := Real.log_pos (by norm_num)
    rw [lt_div_iff₀ h2, one_mul]
    have h3 : Real.log ((2 : Nat) : ℝ) < 0.6931471808 := by have := Real.log_two_lt_d9; simpa using this
    refine h3.trans ?_
    norm_num

end Rum.Props.RankNorm

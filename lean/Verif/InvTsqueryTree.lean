import Verif.InvTsqueryLemmas
/- Helper lemmas for inverted full-text search: the tree of operators. -/
set_option linter.unusedSectionVars false
namespace Rum.Inv

variable {L : Type} [DecidableEq L]

/-! ### Lists of paths -/

def startOf (p : Path L) : Nat := (p.2.2.head?.map (·.1)).getD 0
def contribOf (n : Nat) (p : Path L) : Int := if startOf p = n then (if p.2.1 then -1 else 1) else 0
def sumStarts (n : Nat) (ps : List (Path L)) : Int := (ps.map (contribOf n)).sum
def onPath (n : Nat) (p : Path L) : Prop := ∃ q ∈ p.2.2, q.1 = n

theorem run_paths (ini par : Nat → Int) (hpar : ∀ m, par m ≠ -2) (ps : List (Path L)) :
    ∀ (W : Nat → Prop) (S : Nat → Int) (st : St), (∀ p ∈ ps, upOK ini par p.2.2) →
      Rep par W S none st.nodes st.last → (∀ m, ¬ W m → S m = ini m) → st.child = none →
      ∃ st', runElems st (ps.flatMap (fun p => elems p.2.1 p.2.2)) = some st' ∧ st'.child = none ∧
        Rep par (fun m => W m ∨ ∃ p ∈ ps, onPath m p) (fun m => S m + sumStarts m ps) none st'.nodes st'.last ∧
        (∀ m, ¬ (W m ∨ ∃ p ∈ ps, onPath m p) → S m + sumStarts m ps = ini m) := by
  induction ps with
  | nil =>
    intro W S st _ hrep hS hc
    refine ⟨st, rfl, hc, hrep.congr (by simp) (by simp [sumStarts]), ?_⟩
    intro m hm
    simp at hm
    simp [sumStarts, hS m hm]
  | cons p ps ih =>
    intro W S st hok hrep hS hc
    have hup := hok p (by simp)
    have hne : p.2.2 ≠ [] := by intro h; rw [h] at hup; exact hup
    have hst : p.2.2.head?.map (·.1) = some (startOf p) := by
      unfold startOf
      cases h : p.2.2 with
      | nil => exact absurd h hne
      | cons _ _ => simp
    have hstart : onPath (startOf p) p := by
      unfold startOf onPath
      cases h : p.2.2 with
      | nil => exact absurd h hne
      | cons q _ => exact ⟨q, by simp, by simp⟩
    obtain ⟨st1, e1, c1, r1⟩ := run_path ini par S hpar p.2.1 p.2.2 (startOf p) W st hup hst hrep hS hc
    obtain ⟨st2, e2, c2, r2, z2⟩ := ih _ _ st1 (fun q hq => hok q (by simp [hq])) r1 (by
      intro m hm
      have h1 : ¬ W m := fun h => hm (Or.inl h)
      have h2 : startOf p ≠ m := fun h => hm (Or.inr (by rw [← h]; exact hstart))
      simp [h2, hS m h1]) c1
    have hs : ∀ m, S m + sumStarts m (p :: ps) = S m + (if startOf p = m then (if p.2.1 = true then -1 else 1) else 0) + sumStarts m ps := by
      intro m; simp only [sumStarts, List.map_cons, List.sum_cons, contribOf]; omega
    refine ⟨st2, ?_, c2, r2.congr ?_ (fun m => (hs m).symm), ?_⟩
    · rw [List.flatMap_cons, runElems_append, e1]; exact e2
    · intro m; simp [onPath, or_assoc]
    · intro m hm
      rw [hs]
      apply z2
      intro h
      apply hm
      simpa [onPath, or_assoc] using h

/-! ### Extraction -/

def paths : Wraps L → List (Nat × Int) → List (Path L)
  | .nil, _ => []
  | .val l neg rest, up => (l, neg, up) :: paths rest up
  | .op n s _ kids rest, up => paths kids ((n, s) :: up) ++ paths rest up

def encP (p : Path L) : List Nat := encodePath p.2.1 p.2.2

theorem extractWraps_eq (w : Wraps L) : ∀ up acc,
    extractWraps w up acc = (paths w up).foldl (fun a p => addEntry p.1 (encP p) a) acc := by
  induction w with
  | nil => intros; rfl
  | val l neg rest ih => intro up acc; simp [extractWraps, paths, ih, encP]
  | op n s a kids rest ih1 ih2 => intro up acc; simp [extractWraps, paths, ih1, ih2]

theorem lookup_addEntry (l m : L) (bs : List Nat) (es : List (L × List Nat)) :
    (addEntry l bs es).lookup m = if m = l then some ((es.lookup l).getD [] ++ bs) else es.lookup m := by
  induction es with
  | nil => simp [addEntry, List.lookup]; split <;> simp_all
  | cons e es ih =>
    obtain ⟨l', b'⟩ := e
    simp only [addEntry]
    by_cases hl : l = l'
    · subst hl
      by_cases hm : m = l <;> simp [List.lookup, hm]
      · split <;> simp_all
    · rw [if_neg hl]
      simp only [List.lookup]
      by_cases hm : m = l
      · subst hm
        have h1 : (m == l') = false := by simpa using hl
        simp only [h1, ih, if_true]
      · simp only [ih, hm, if_false]

def isLex (l : L) (p : Path L) : Bool := p.1 = l

theorem lookup_fold (m : L) (ps : List (Path L)) : ∀ acc : List (L × List Nat),
    (ps.foldl (fun a p => addEntry p.1 (encP p) a) acc).lookup m =
      if ps.filter (isLex m) = [] then acc.lookup m
      else some ((acc.lookup m).getD [] ++ (ps.filter (isLex m)).flatMap encP) := by
  induction ps with
  | nil => intro acc; simp
  | cons p ps ih =>
    intro acc
    rw [List.foldl_cons, ih, lookup_addEntry]
    by_cases hp : isLex m p = true
    · have hpm : m = p.1 := by simpa [isLex, eq_comm] using hp
      rw [List.filter_cons_of_pos hp]
      simp only [hpm, if_true, List.cons_ne_nil, if_false, List.flatMap_cons, Option.getD_some]
      split <;> simp_all
    · have hpm : ¬ m = p.1 := by simpa [isLex, eq_comm] using hp
      rw [List.filter_cons_of_neg hp]
      simp only [hpm, if_false]

/-! ### The loop over the document's lexemes -/

theorem flatMap_encP (ps : List (Path L)) (h : ∀ p ∈ ps, p.2.2 ≠ []) :
    ps.flatMap encP = encElems (ps.flatMap (fun p => elems p.2.1 p.2.2)) := by
  induction ps with
  | nil => rfl
  | cons p ps ih =>
    rw [List.flatMap_cons, List.flatMap_cons, encElems_append, ih (fun q hq => h q (by simp [hq]))]
    rw [encP, encodePath_eq _ _ (h p (by simp))]

theorem keyLoop_eq (ini par : Nat → Int) (hpar : ∀ m, par m ≠ -2) (ps : List (Path L))
    (hok : ∀ p ∈ ps, upOK ini par p.2.2)
    (hb : ∀ p ∈ ps, ∀ e ∈ elems p.2.1 p.2.2, e.1 < 2 ^ 32 ∧ e.2 < 2 ^ 32) (doc : List L) :
    ∀ (W : Nat → Prop) (S : Nat → Int) (st : St) (af : Bool),
      Rep par W S none st.nodes st.last → (∀ m, ¬ W m → S m = ini m) → st.child = none →
      ∃ st', keyLoop (doc.map (fun l => (ps.foldl (fun a p => addEntry p.1 (encP p) a) []).lookup l)) st af =
          some (st', false, af && (doc.flatMap (fun l => ps.filter (isLex l))).isEmpty) ∧
        Rep par (fun m => W m ∨ ∃ p ∈ doc.flatMap (fun l => ps.filter (isLex l)), onPath m p)
          (fun m => S m + sumStarts m (doc.flatMap (fun l => ps.filter (isLex l)))) none st'.nodes st'.last := by
  induction doc with
  | nil => intro W S st af hrep _ _; exact ⟨st, by simp [keyLoop], hrep.congr (by simp) (by simp [sumStarts])⟩
  | cons l doc ih =>
    intro W S st af hrep hS hc
    have hlk := lookup_fold l ps ([] : List (L × List Nat))
    rw [List.map_cons, hlk, List.flatMap_cons]
    by_cases hf : ps.filter (isLex l) = []
    · simp only [hf, if_true, List.nil_append, List.lookup_nil, keyLoop]
      exact ih W S st af hrep hS hc
    · simp only [hf, if_false, List.lookup_nil, Option.getD_none, List.nil_append, keyLoop]
      have hsub : ∀ p ∈ ps.filter (isLex l), p ∈ ps := fun p hp => (List.mem_filter.1 hp).1
      have hne : ∀ p ∈ ps.filter (isLex l), p.2.2 ≠ [] := by
        intro p hp h; have := hok p (hsub p hp); rw [h] at this; exact this
      rw [flatMap_encP _ hne]
      have hlen := encElems_length ((ps.filter (isLex l)).flatMap (fun p => elems p.2.1 p.2.2))
      have hpos : 0 < ((ps.filter (isLex l)).flatMap (fun p => elems p.2.1 p.2.2)).length := by
        cases hq : ps.filter (isLex l) with
        | nil => exact absurd hq hf
        | cons p qs =>
          have := hne p (by rw [hq]; simp)
          cases h22 : p.2.2 with
          | nil => exact absurd h22 this
          | cons e es => obtain ⟨n, s⟩ := e; simp [elems, h22]
      rw [if_neg (by omega)]
      rw [pathLoop_enc _ _ _ hlen (by
        intro e he
        simp only [List.mem_flatMap] at he
        obtain ⟨p, hp, he⟩ := he
        exact hb p (hsub p hp) e he)]
      have hst : ({ st with child := none } : St) = st := by rw [← hc]
      rw [hst]
      obtain ⟨st1, e1, c1, r1, z1⟩ := run_paths ini par hpar (ps.filter (isLex l)) W S st
        (fun p hp => hok p (hsub p hp)) hrep hS hc
      obtain ⟨st2, e2, r2⟩ := ih _ _ st1 false r1 z1 c1
      refine ⟨st2, ?_, r2.congr ?_ ?_⟩
      · simp only [e1, e2, Bool.false_and]
        have : (ps.filter (isLex l) ++ doc.flatMap (fun l => ps.filter (isLex l))).isEmpty = false := by
          cases hq : ps.filter (isLex l) with
          | nil => exact absurd hq hf
          | cons _ _ => rfl
        rw [this, Bool.and_false]
      · intro m; simp only [List.mem_append]; grind
      · intro m; simp only [sumStarts, List.map_append, List.sum_append]; omega

/-! ### The document against the tree -/

def touched (doc : L → Bool) : Wraps L → Bool
  | .nil => false
  | .val l _ rest => doc l || touched doc rest
  | .op _ _ _ kids rest => touched doc kids || touched doc rest

def comb (mode x y : Bool) : Bool := if mode then x && y else x || y

/-- What the algorithm computes: an operator none of whose words occur counts as false. -/
def weakEval (doc : L → Bool) : Bool → Wraps L → Bool
  | mode, .nil => mode
  | mode, .val l neg rest => comb mode (doc l != neg) (weakEval doc mode rest)
  | mode, .op _ _ a kids rest => comb mode (touched doc kids && weakEval doc a kids) (weakEval doc mode rest)

/-- The meaning of a wrap list combined by AND (`mode`) or OR. -/
def fullEval (doc : L → Bool) : Bool → Wraps L → Bool
  | mode, .nil => mode
  | mode, .val l neg rest => comb mode (doc l != neg) (fullEval doc mode rest)
  | mode, .op _ _ a kids rest => comb mode (fullEval doc a kids) (fullEval doc mode rest)

def leafC (doc : L → Bool) : Wraps L → Int
  | .nil => 0
  | .val l neg rest => (if doc l then (if neg then -1 else 1) else 0) + leafC doc rest
  | .op _ _ _ _ rest => leafC doc rest

def opC (doc : L → Bool) : Wraps L → Int
  | .nil => 0
  | .val _ _ rest => opC doc rest
  | .op _ _ a kids rest => (if touched doc kids && weakEval doc a kids then 1 else 0) + opC doc rest

theorem sum_pos_iff (doc : L → Bool) (a : Bool) (w : Wraps L) :
    (initSum a w + leafC doc w + opC doc w > 0) ↔ weakEval doc a w = true := by
  cases a with
  | true =>
    have : w.notCount - w.length + leafC doc w + opC doc w ≤ 0 ∧
        (w.notCount - w.length + leafC doc w + opC doc w = 0 ↔ weakEval doc true w = true) := by
      induction w with
      | nil => simp [Wraps.notCount, Wraps.length, leafC, opC, weakEval]
      | val l neg rest ih =>
        simp only [Wraps.notCount, Wraps.length, leafC, opC, weakEval, comb, if_true]
        cases doc l <;> cases neg <;> simp <;> grind
      | op n s a kids rest _ ih =>
        simp only [Wraps.notCount, Wraps.length, leafC, opC, weakEval, comb, if_true]
        cases touched doc kids && weakEval doc a kids <;> simp <;> grind
    unfold initSum; simp only [if_true]; grind
  | false =>
    have : w.notCount + leafC doc w + opC doc w ≥ 0 ∧
        (w.notCount + leafC doc w + opC doc w > 0 ↔ weakEval doc false w = true) := by
      induction w with
      | nil => simp [Wraps.notCount, leafC, opC, weakEval]
      | val l neg rest ih =>
        simp only [Wraps.notCount, leafC, opC, weakEval, comb]
        cases doc l <;> cases neg <;> simp <;> grind
      | op n s a kids rest _ ih =>
        simp only [Wraps.notCount, leafC, opC, weakEval, comb]
        cases touched doc kids && weakEval doc a kids <;> simp <;> grind
    unfold initSum; simpa using this.2

/-- Numbered in preorder from `a` (next free number `b`), with the right sums. -/
def NumOK : Wraps L → Nat → Nat → Prop
  | .nil, a, b => a = b
  | .val _ _ rest, a, b => NumOK rest a b
  | .op n s isAnd kids rest, a, b => n = a ∧ s = initSum isAnd kids ∧ ∃ c, NumOK kids (a + 1) c ∧ NumOK rest c b

theorem NumOK.le {w : Wraps L} : ∀ {a b : Nat}, NumOK w a b → a ≤ b := by
  induction w with
  | nil => intro a b h; exact Nat.le_of_eq h
  | val l neg rest ih => intro a b h; exact ih h
  | op n s isAnd kids rest ih1 ih2 =>
    intro a b h
    obtain ⟨_, _, c, h1, h2⟩ := h
    have := ih1 h1; have := ih2 h2; omega

theorem calc_counts (w : Wraps L) : ∀ k, (calcWraps w k).1.notCount = w.notCount ∧ (calcWraps w k).1.length = w.length := by
  induction w with
  | nil => intro k; exact ⟨rfl, rfl⟩
  | val l neg rest ih => intro k; simp [calcWraps, Wraps.notCount, Wraps.length, ih]
  | op n s a kids rest _ ih => intro k; simp [calcWraps, Wraps.notCount, Wraps.length, ih]

theorem calc_numOK (w : Wraps L) : ∀ k, NumOK (calcWraps w k).1 k (calcWraps w k).2 := by
  induction w with
  | nil => intro k; rfl
  | val l neg rest ih => intro k; exact ih k
  | op n s a kids rest ih1 ih2 =>
    intro k
    refine ⟨rfl, ?_, (calcWraps kids (k + 1)).2, ih1 _, ih2 _⟩
    simp [initSum, calc_counts]

/-- Contribution of the words below operator `p` (number of the parent of the list) to operator `n`. -/
def wsum (doc : L → Bool) (n : Nat) : Nat → Wraps L → Int
  | _, .nil => 0
  | p, .val l neg rest => (if p = n ∧ doc l then (if neg then -1 else 1) else 0) + wsum doc n p rest
  | p, .op m _ _ kids rest => wsum doc n m kids + wsum doc n p rest

/-- Operator `n` of the list lies on a path from a word of the document. -/
def thr (doc : L → Bool) (n : Nat) : Wraps L → Bool
  | .nil => false
  | .val _ _ rest => thr doc n rest
  | .op m _ _ kids rest => (m = n && touched doc kids) || thr doc n kids || thr doc n rest

theorem wsum_out (doc : L → Bool) (n : Nat) (w : Wraps L) : ∀ (p a b : Nat), NumOK w a b → p ≠ n → (n < a ∨ b ≤ n) →
    wsum doc n p w = 0 := by
  induction w with
  | nil => intros; rfl
  | val l neg rest ih => intro p a b h hp hn; simp [wsum, hp, ih p a b h hp hn]
  | op m s isAnd kids rest ih1 ih2 =>
    intro p a b h hp hn
    obtain ⟨rfl, _, c, h1, h2⟩ := h
    have l1 := h1.le; have l2 := h2.le
    simp only [wsum]
    rw [ih1 _ _ _ h1 (by omega) (by omega), ih2 _ _ _ h2 hp (by omega)]; rfl

theorem thr_out (doc : L → Bool) (n : Nat) (w : Wraps L) : ∀ (a b : Nat), NumOK w a b → (n < a ∨ b ≤ n) →
    thr doc n w = false := by
  induction w with
  | nil => intros; rfl
  | val l neg rest ih => intro a b h hn; exact ih a b h hn
  | op m s isAnd kids rest ih1 ih2 =>
    intro a b h hn
    obtain ⟨rfl, _, c, h1, h2⟩ := h
    have l1 := h1.le; have l2 := h2.le
    simp only [thr]
    rw [ih1 _ _ h1 (by omega), ih2 _ _ h2 (by omega)]
    simp; omega

theorem wsum_own (doc : L → Bool) (n : Nat) (w : Wraps L) : ∀ (a b : Nat), NumOK w a b → n < a →
    wsum doc n n w = leafC doc w := by
  induction w with
  | nil => intros; rfl
  | val l neg rest ih => intro a b h hn; simp [wsum, leafC, ih a b h hn]
  | op m s isAnd kids rest ih1 ih2 =>
    intro a b h hn
    obtain ⟨rfl, _, c, h1, h2⟩ := h
    have l1 := h1.le
    simp only [wsum, leafC]
    rw [wsum_out doc n kids _ _ _ h1 (by omega) (by omega), ih2 _ _ h2 (by omega)]; omega

theorem sumStarts_paths (doc : L → Bool) (n : Nat) (w : Wraps L) : ∀ (p : Nat) (s : Int) (up : List (Nat × Int)),
    sumStarts n ((paths w ((p, s) :: up)).filter (fun q => doc q.1)) = wsum doc n p w := by
  induction w with
  | nil => intros; rfl
  | val l neg rest ih =>
    intro p s up
    have := ih p s up
    simp only [paths, wsum, List.filter_cons]
    rw [← this]
    cases h : doc l
    · simp
    · by_cases hpn : p = n <;> simp [sumStarts, contribOf, startOf, hpn]
  | op m t isAnd kids rest ih1 ih2 =>
    intro p s up
    have e1 := ih1 m t ((p, s) :: up)
    have e2 := ih2 p s up
    simp only [paths, wsum, List.filter_append]
    rw [← e1, ← e2]
    simp [sumStarts]

theorem onPath_paths (doc : L → Bool) (n : Nat) (w : Wraps L) : ∀ (up : List (Nat × Int)),
    (∃ p ∈ (paths w up).filter (fun q => doc q.1), onPath n p) ↔
      (touched doc w = true ∧ ∃ q ∈ up, q.1 = n) ∨ thr doc n w = true := by
  induction w with
  | nil => intro up; simp [paths, touched, thr]
  | val l neg rest ih =>
    intro up
    simp only [paths, touched, thr, List.filter_cons]
    have := ih up
    cases h : doc l
    · simpa using this
    · have hop : onPath n (l, neg, up) ↔ ∃ q ∈ up, q.1 = n := Iff.rfl
      simp only [if_true, List.mem_cons, exists_eq_or_imp, this, hop, Bool.true_or]
      generalize (∃ q ∈ up, q.1 = n) = X
      grind
  | op m t isAnd kids rest ih1 ih2 =>
    intro up
    simp only [paths, touched, thr, List.filter_append, List.mem_append, or_and_right, exists_or]
    rw [ih1, ih2]
    simp only [List.mem_cons, exists_eq_or_imp, Bool.or_eq_true, Bool.and_eq_true, decide_eq_true_eq]
    grind

/-- The functions `ini` and `par` agree with the sums and parents in the tree. -/
def Agrees (ini par : Nat → Int) : Int → Wraps L → Prop
  | _, .nil => True
  | p, .val _ _ rest => Agrees ini par p rest
  | p, .op n s _ kids rest => ini n = s ∧ par n = p ∧ Agrees ini par ((n : Int) - 1) kids ∧ Agrees ini par p rest

theorem Agrees.congr {ini par ini' par' : Nat → Int} (w : Wraps L) : ∀ (p : Int) (a b : Nat), NumOK w a b →
    (∀ n, a ≤ n → n < b → ini n = ini' n ∧ par n = par' n) → Agrees ini par p w → Agrees ini' par' p w := by
  induction w with
  | nil => intros; trivial
  | val l neg rest ih => intro p a b h hc ha; exact ih p a b h hc ha
  | op n s isAnd kids rest ih1 ih2 =>
    intro p a b h hc ha
    obtain ⟨rfl, _, c, h1, h2⟩ := h
    have l1 := h1.le; have l2 := h2.le
    obtain ⟨x1, x2, x3, x4⟩ := ha
    have := hc n (by omega) (by omega)
    exact ⟨by rw [← this.1]; exact x1, by rw [← this.2]; exact x2,
      ih1 _ _ _ h1 (fun m h h' => hc m (by omega) (by omega)) x3,
      ih2 _ _ _ h2 (fun m h h' => hc m (by omega) (by omega)) x4⟩

theorem agrees_exists (w : Wraps L) : ∀ (p : Int) (a b : Nat), NumOK w a b → 1 ≤ a → p ≥ -1 →
    ∃ ini par : Nat → Int, (∀ m, par m ≠ -2) ∧ Agrees ini par p w := by
  induction w with
  | nil => intros; exact ⟨fun _ => 0, fun _ => 0, by simp, trivial⟩
  | val l neg rest ih => intro p a b h h1 hp; exact ih p a b h h1 hp
  | op n s isAnd kids rest ih1 ih2 =>
    intro p a b h ha hp
    obtain ⟨rfl, _, c, h1, h2⟩ := h
    have l1 := h1.le; have l2 := h2.le
    obtain ⟨i1, p1, q1, a1⟩ := ih1 ((n : Int) - 1) _ _ h1 (by omega) (by omega)
    obtain ⟨i2, p2, q2, a2⟩ := ih2 p _ _ h2 (by omega) hp
    refine ⟨fun m => if m = n then s else if m < c then i1 m else i2 m,
      fun m => if m = n then p else if m < c then p1 m else p2 m, ?_, ?_⟩
    · intro m; simp only
      split
      · omega
      · split
        · exact q1 m
        · exact q2 m
    · refine ⟨by simp, by simp, ?_, ?_⟩
      · refine Agrees.congr _ _ _ _ h1 ?_ a1
        intro m hm hm'
        simp [show m ≠ n by omega, hm']
      · refine Agrees.congr _ _ _ _ h2 ?_ a2
        intro m hm hm'
        simp [show m ≠ n by omega, show ¬ m < c by omega]

theorem paths_upOK (ini par : Nat → Int) (w : Wraps L) : ∀ (n : Nat) (s : Int) (up : List (Nat × Int)) (a b : Nat),
    NumOK w a b → n < a → 1 ≤ n → b ≤ 257 → upOK ini par ((n, s) :: up) → Agrees ini par ((n : Int) - 1) w →
    ∀ p ∈ paths w ((n, s) :: up), upOK ini par p.2.2 := by
  induction w with
  | nil => intro n s up a b _ _ _ _ _ _ p hp; simp [paths] at hp
  | val l neg rest ih =>
    intro n s up a b h hn h1 hb hup hag p hp
    simp only [paths, List.mem_cons] at hp
    rcases hp with rfl | hp
    · exact hup
    · exact ih n s up a b h hn h1 hb hup hag p hp
  | op m t isAnd kids rest ih1 ih2 =>
    intro n s up a b h hn hn1 hb hup hag p hp
    obtain ⟨rfl, _, c, h1, h2⟩ := h
    have l1 := h1.le; have l2 := h2.le
    obtain ⟨x1, x2, x3, x4⟩ := hag
    simp only [paths, List.mem_append] at hp
    rcases hp with hp | hp
    · refine ih1 m t ((n, s) :: up) _ _ h1 (by omega) (by omega) (by omega) ?_ x3 p hp
      exact ⟨by omega, by omega, x1.symm, x2, hn1, hn, hup⟩
    · exact ih2 n s up _ _ h2 (by omega) hn1 hb hup x4 p hp

/-! ### The loop over the nodes -/

/-- State of the nodes before the final loop. -/
def Base (doc : L → Bool) (f : Nat → Node) : Int → Wraps L → Prop
  | _, .nil => True
  | p, .val _ _ rest => Base doc f p rest
  | p, .op n s _ kids rest =>
    (touched doc kids = true → f (n - 1) = ⟨s + leafC doc kids, p, false⟩) ∧
    (touched doc kids = false → (f (n - 1)).parent = -2) ∧
    Base doc f ((n : Int) - 1) kids ∧ Base doc f p rest

theorem Base.congr {doc : L → Bool} {f g : Nat → Node} (w : Wraps L) : ∀ (p : Int) (a b : Nat), NumOK w a b →
    (∀ n, a ≤ n → n < b → f (n - 1) = g (n - 1)) → Base doc f p w → Base doc g p w := by
  induction w with
  | nil => intros; trivial
  | val l neg rest ih => intro p a b h hc ha; exact ih p a b h hc ha
  | op n s isAnd kids rest ih1 ih2 =>
    intro p a b h hc ha
    obtain ⟨rfl, _, c, h1, h2⟩ := h
    have l1 := h1.le; have l2 := h2.le
    obtain ⟨x1, x2, x3, x4⟩ := ha
    have := hc n (by omega) (by omega)
    exact ⟨by rw [← this]; exact x1, by rw [← this]; exact x2,
      ih1 _ _ _ h1 (fun m h h' => hc m (by omega) (by omega)) x3,
      ih2 _ _ _ h2 (fun m h h' => hc m (by omega) (by omega)) x4⟩

theorem nodeLoop_range (doc : L → Bool) (w : Wraps L) : ∀ (p a b : Nat) (f : Nat → Node) (res : Bool),
    NumOK w a b → p + 1 < a → Base doc f p w →
    ∃ g : Nat → Node, nodeLoop (b - 1) f res = nodeLoop (a - 1) g res ∧
      g p = { f p with sum := (f p).sum + opC doc w } ∧ ∀ i, i + 1 < a → i ≠ p → g i = f i := by
  induction w with
  | nil =>
    intro p a b f res h hp _
    cases h
    exact ⟨f, rfl, by simp [opC], fun _ _ _ => rfl⟩
  | val l neg rest ih => intro p a b f res h hp hb; exact ih p a b f res h hp hb
  | op n s isAnd kids rest ih1 ih2 =>
    intro p a b f res h hp hb
    obtain ⟨rfl, hs, c, h1, h2⟩ := h
    have l1 := h1.le; have l2 := h2.le
    obtain ⟨x1, x2, x3, x4⟩ := hb
    obtain ⟨g1, e1, k1, u1⟩ := ih2 p c b f res h2 (by omega) x4
    have x3' : Base doc g1 ((n - 1 : Nat) : Int) kids := by
      rw [show ((n - 1 : Nat) : Int) = (n : Int) - 1 by omega]
      exact x3.congr _ _ _ _ h1 (fun m h h' => (u1 (m - 1) (by omega) (by omega)).symm)
    obtain ⟨g2, e2, k2, u2⟩ := ih1 (n - 1) (n + 1) c g1 res h1 (by omega) x3'
    have hg1n : g1 (n - 1) = f (n - 1) := u1 _ (by omega) (by omega)
    have hg2p : g2 p = { f p with sum := (f p).sum + opC doc rest } := by rw [u2 p (by omega) (by omega), k1]
    have hn : n + 1 - 1 = (n - 1) + 1 := by omega
    rw [e1, e2, hn]
    simp only [nodeLoop]
    rw [k2, hg1n]
    cases ht : touched doc kids with
    | false =>
      simp only [x2 ht, ne_eq, not_true, if_false]
      refine ⟨g2, rfl, ?_, ?_⟩
      · rw [hg2p]; simp [opC, ht]
      · intro i hi hip; rw [u2 i (by omega) (by omega), u1 i (by omega) hip]
    | true =>
      have hx := x1 ht
      simp only [hx]
      rw [if_pos (by omega)]
      have hsum := sum_pos_iff doc isAnd kids
      rw [← hs] at hsum
      cases hw : weakEval doc isAnd kids with
      | true =>
        rw [if_pos (hsum.2 hw), if_neg (by omega)]
        refine ⟨_, rfl, ?_, ?_⟩
        · simp only [setNode, Int.toNat_natCast, if_true, Bool.false_eq_true, if_false, hg2p, opC, ht, hw]
          simp; omega
        · intro i hi hip
          simp only [setNode, Int.toNat_natCast]
          rw [if_neg hip, u2 i (by omega) (by omega), u1 i (by omega) hip]
      | false =>
        rw [if_neg (by intro h; have := hsum.1 h; rw [hw] at this; cases this)]
        refine ⟨g2, rfl, ?_, ?_⟩
        · rw [hg2p]; simp [opC, ht, hw]
        · intro i hi hip; rw [u2 i (by omega) (by omega), u1 i (by omega) hip]

theorem nodeLoop_skip (f : Nat → Node) (res : Bool) (m k : Nat) (h : ∀ i, m ≤ i → i < m + k → (f i).parent = -2) :
    nodeLoop (m + k) f res = nodeLoop m f res := by
  induction k with
  | zero => rfl
  | succ k ih =>
    rw [← Nat.add_assoc]
    simp only [nodeLoop]
    rw [if_neg (by rw [h (m + k) (by omega) (by omega)]; simp)]
    exact ih (fun i h1 h2 => h i h1 (by omega))

theorem nodeLoop_congr (k : Nat) : ∀ (f g : Nat → Node) (res : Bool), (∀ i, i < k → f i = g i) →
    nodeLoop k f res = nodeLoop k g res := by
  induction k with
  | zero => intros; rfl
  | succ i ih =>
    intro f g res hfg
    simp only [nodeLoop]
    have hi := hfg i (by omega)
    rw [← hi]
    have hrec := ih f g res (fun j hj => hfg j (by omega))
    split
    · split
      · split
        · rfl
        · apply ih
          intro j hj
          simp only [setNode]
          split
          · next h => rw [← h, hfg j (by omega)]
          · exact hfg j (by omega)
      · exact hrec
    · exact hrec

theorem base_of (doc : L → Bool) (ini par : Nat → Int) (W : Nat → Prop) (S : Nat → Int) (f : Nat → Node) (last : Nat)
    (hrep : Rep par W S none f last) (w : Wraps L) : ∀ (p a b : Nat), NumOK w a b → p < a →
    (∀ n, a ≤ n → n < b → (W n ↔ thr doc n w = true) ∧ S n = ini n + wsum doc n p w) →
    Agrees ini par ((p : Int) - 1) w →
    Base doc (fun i => if i < last then f i else ⟨0, -2, false⟩) ((p : Int) - 1) w := by
  induction w with
  | nil => intros; trivial
  | val l neg rest ih =>
    intro p a b h hp hW hag
    refine ih p a b h hp (fun n h1 h2 => ?_) hag
    obtain ⟨x, y⟩ := hW n h1 h2
    refine ⟨x, ?_⟩
    rw [y]
    simp [wsum, show p ≠ n by omega]
  | op n s isAnd kids rest ih1 ih2 =>
    intro p a b h hp hW hag
    obtain ⟨rfl, _, c, h1, h2⟩ := h
    have l1 := h1.le; have l2 := h2.le
    obtain ⟨x1, x2, x3, x4⟩ := hag
    have hn := hW n (by omega) (by omega)
    have t1 : thr doc n kids = false := thr_out doc n kids _ _ h1 (by omega)
    have t2 : thr doc n rest = false := thr_out doc n rest _ _ h2 (by omega)
    have w2 : wsum doc n p rest = 0 := wsum_out doc n rest p _ _ h2 (by omega) (by omega)
    have w1 : wsum doc n n kids = leafC doc kids := wsum_own doc n kids _ _ h1 (by omega)
    refine ⟨?_, ?_, ?_, ?_⟩
    · intro ht
      have hWn : W n := hn.1.2 (by simp [thr, ht])
      obtain ⟨v1, v2, v3, v4⟩ := hrep.vis n (by omega) hWn
      simp only [show n - 1 < last by omega, if_true]
      have e1 : S n = s + leafC doc kids := by rw [hn.2, x1, wsum, w1, w2]; omega
      have e2 : (f (n - 1)).parent = (p : Int) - 1 := by rw [← x2]; simpa using v4
      rw [e1] at v2
      cases hf : f (n - 1) with
      | mk a b c => rw [hf] at v2 v3 e2; simp only at v2 v3 e2; rw [v2, v3, e2]
    · intro ht
      have hWn : ¬ W n := by
        intro h; have := hn.1.1 h
        simp [thr, ht, t1, t2] at this
      simp only
      split
      · exact hrep.unvis n (by omega) hWn (by omega)
      · rfl
    · refine ih1 n _ _ h1 (by omega) (fun m hm hm' => ?_) x3
      obtain ⟨x, y⟩ := hW m (by omega) (by omega)
      have t : thr doc m rest = false := thr_out doc m rest _ _ h2 (by omega)
      have u : wsum doc m p rest = 0 := wsum_out doc m rest p _ _ h2 (by omega) (by omega)
      refine ⟨?_, ?_⟩
      · rw [x]; simp [thr, t, show n ≠ m by omega]
      · rw [y, wsum, u]; omega
    · refine ih2 p _ _ h2 (by omega) (fun m hm hm' => ?_) x4
      obtain ⟨x, y⟩ := hW m (by omega) (by omega)
      have t : thr doc m kids = false := thr_out doc m kids _ _ h1 (by omega)
      have u : wsum doc m n kids = 0 := wsum_out doc m kids n _ _ h1 (by omega) (by omega)
      refine ⟨?_, ?_⟩
      · rw [x]; simp [thr, t, show n ≠ m by omega]
      · rw [y, wsum, u]; omega

/-! ### Bounds -/

def Wraps.size : Wraps L → Nat
  | .nil => 0
  | .val _ _ rest => 1 + rest.size
  | .op _ _ _ kids rest => 1 + kids.size + rest.size

def Wraps.ops : Wraps L → Nat
  | .nil => 0
  | .val _ _ rest => rest.ops
  | .op _ _ _ kids rest => 1 + kids.ops + rest.ops

theorem counts_le (w : Wraps L) : 0 ≤ w.notCount ∧ w.notCount ≤ w.length ∧ w.length ≤ w.size := by
  induction w with
  | nil => simp [Wraps.notCount, Wraps.length, Wraps.size]
  | val l neg rest ih => simp only [Wraps.notCount, Wraps.length, Wraps.size]; split <;> omega
  | op n s a kids rest _ ih => simp only [Wraps.notCount, Wraps.length, Wraps.size]; omega

theorem initSum_le (a : Bool) (w : Wraps L) : (initSum a w).natAbs ≤ w.size + 1 := by
  have := counts_le w
  unfold initSum; split <;> omega

theorem NumOK.ops {w : Wraps L} : ∀ {a b : Nat}, NumOK w a b → b = a + w.ops := by
  induction w with
  | nil => intro a b h; exact h.symm
  | val l neg rest ih => intro a b h; exact ih h
  | op n s isAnd kids rest ih1 ih2 =>
    intro a b h
    obtain ⟨_, _, c, h1, h2⟩ := h
    have := ih1 h1; have := ih2 h2; simp only [Wraps.ops]; omega

theorem paths_bound (M : Nat) (w : Wraps L) : ∀ (up : List (Nat × Int)) (a b : Nat), NumOK w a b → w.size ≤ M → b ≤ 257 →
    (∀ q ∈ up, q.1 ≤ 256 ∧ q.2.natAbs ≤ M) → ∀ p ∈ paths w up, ∀ q ∈ p.2.2, q.1 ≤ 256 ∧ q.2.natAbs ≤ M := by
  induction w with
  | nil => intro up a b _ _ _ _ p hp; simp [paths] at hp
  | val l neg rest ih =>
    intro up a b h hM hb hup p hp
    simp only [paths, List.mem_cons] at hp
    simp only [Wraps.size] at hM
    rcases hp with rfl | hp
    · exact hup
    · exact ih up a b h (by omega) hb hup p hp
  | op n s isAnd kids rest ih1 ih2 =>
    intro up a b h hM hb hup p hp
    obtain ⟨rfl, hs, c, h1, h2⟩ := h
    have l1 := h1.le; have l2 := h2.le
    simp only [Wraps.size] at hM
    simp only [paths, List.mem_append] at hp
    rcases hp with hp | hp
    · refine ih1 ((n, s) :: up) _ _ h1 (by omega) (by omega) ?_ p hp
      intro q hq
      simp only [List.mem_cons] at hq
      rcases hq with rfl | hq
      · have := initSum_le isAnd kids
        exact ⟨by simp only; omega, by simp only [hs]; omega⟩
      · exact hup q hq
    · exact ih2 up _ _ h2 (by omega) hb hup p hp

theorem elems_bound (neg : Bool) (up : List (Nat × Int)) (h : ∀ q ∈ up, q.1 ≤ 256 ∧ q.2.natAbs < 2 ^ 30) :
    ∀ e ∈ elems neg up, e.1 < 2 ^ 32 ∧ e.2 < 2 ^ 32 := by
  have henc : ∀ (s : Int) (b : Bool), s.natAbs < 2 ^ 30 → encSum s b < 2 ^ 32 := by
    intro s b hs
    rw [encSum_val]
    split <;> split <;> omega
  cases up with
  | nil => intro e he; simp [elems] at he
  | cons q up =>
    obtain ⟨n, s⟩ := q
    intro e he
    simp only [elems, List.mem_cons, List.mem_map] at he
    rcases he with rfl | ⟨q, hq, rfl⟩
    · have := h (n, s) (by simp); exact ⟨by simp only at *; omega, henc _ _ this.2⟩
    · have := h q (by simp [hq]); exact ⟨by simp only at *; omega, henc _ _ this.2⟩

/-! ### The whole search -/

theorem docPaths_perm (ps : List (Path L)) (doc : List L) (hd : doc.Nodup) :
    (doc.flatMap (fun l => ps.filter (isLex l))).Perm (ps.filter (fun p => decide (p.1 ∈ doc))) := by
  induction doc with
  | nil => simp
  | cons l doc ih =>
    rw [List.nodup_cons] at hd
    rw [List.flatMap_cons]
    refine (List.Perm.append_left _ (ih hd.2)).trans ?_
    clear ih
    induction ps with
    | nil => simp
    | cons p ps ih =>
      by_cases h1 : p.1 = l
      · have h2 : ¬ p.1 ∈ doc := by rw [h1]; exact hd.1
        simp only [List.filter_cons, isLex, h1, decide_true, if_true, List.mem_cons, true_or]
        simp only [h1] at h2
        simp only [h2, decide_false, if_false, List.cons_append, Bool.false_eq_true]
        simpa using ih.cons p
      · by_cases h2 : p.1 ∈ doc
        · simp only [List.filter_cons, isLex, h1, h2, decide_true, decide_false, if_true, List.mem_cons, or_true,
            Bool.false_eq_true, if_false]
          exact List.perm_middle.trans (by simpa using ih.cons p)
        · simp only [List.filter_cons, isLex, h1, h2, decide_false, List.mem_cons, or_false,
            Bool.false_eq_true, if_false]
          simpa using ih

theorem sumStarts_perm (n : Nat) {a b : List (Path L)} (h : a.Perm b) : sumStarts n a = sumStarts n b := by
  unfold sumStarts
  induction h with
  | nil => rfl
  | cons x _ ih => simp only [List.map_cons, List.sum_cons, ih]
  | swap x y l => simp only [List.map_cons, List.sum_cons]; omega
  | trans _ _ ih1 ih2 => rw [ih1, ih2]

theorem touched_iff (doc : L → Bool) (w : Wraps L) : ∀ up,
    (paths w up).filter (fun q => doc q.1) = [] ↔ touched doc w = false := by
  induction w with
  | nil => intro up; simp [paths, touched]
  | val l neg rest ih =>
    intro up
    simp only [paths, touched, List.filter_cons]
    cases h : doc l
    · simpa using ih up
    · simp
  | op n s a kids rest ih1 ih2 =>
    intro up
    simp only [paths, touched, List.filter_append, List.append_eq_nil_iff, ih1, ih2, Bool.or_eq_false_iff]

theorem consistent_op (junk : Nat → Node) (n : Nat) (s : Int) (a : Bool) (kids : Wraps L) (b : Nat) (doc : List L) (nullCheck : Bool)
    (hw : NumOK (.op n s a kids .nil) 1 b) (hb : b ≤ 257) (hsz : kids.size + 1 < 2 ^ 30) (hd : doc.Nodup) :
    consistent junk (doc.map (fun l => (extractWraps (.op n s a kids .nil) [] []).lookup l)) nullCheck =
      some (if touched (fun l => decide (l ∈ doc)) kids then weakEval (fun l => decide (l ∈ doc)) a kids else nullCheck) := by
  obtain ⟨ini, par, hpar, hag⟩ := agrees_exists (.op n s a kids .nil) (-1) 1 b hw (by omega) (by omega)
  have hw' := hw
  obtain ⟨rfl, hs, c, h1, h2⟩ := hw
  have hcb : c = b := h2
  subst hcb
  obtain ⟨x1, x2, x3, _⟩ := hag
  have hps : paths (.op 1 s a kids .nil) ([] : List (Nat × Int)) = paths kids [(1, s)] := by simp [paths]
  have hok : ∀ p ∈ paths kids [(1, s)], upOK ini par p.2.2 :=
    paths_upOK ini par kids 1 s [] 2 c h1 (by omega) (by omega) hb ⟨rfl, x1.symm, x2⟩ x3
  have hbd : ∀ p ∈ paths kids [(1, s)], ∀ e ∈ elems p.2.1 p.2.2, e.1 < 2 ^ 32 ∧ e.2 < 2 ^ 32 := by
    intro p hp
    apply elems_bound
    intro q hq
    have := paths_bound (kids.size + 1) kids [(1, s)] 2 c h1 (by omega) hb (by
      intro q hq
      simp only [List.mem_singleton] at hq
      subst hq
      have := initSum_le a kids
      exact ⟨by simp, by simp only [hs]; exact this⟩) p hp q hq
    exact ⟨this.1, by omega⟩
  obtain ⟨st, e, r⟩ := keyLoop_eq ini par hpar (paths kids [(1, s)]) hok hbd doc (fun _ => False) ini ⟨junk, 0, none⟩ true
    ⟨fun _ _ h => h.elim, fun n h1 _ h2 => by simp only at h2; omega⟩ (fun _ _ => rfl) rfl
  unfold consistent
  rw [extractWraps_eq, hps]
  simp only [e, Bool.true_and]
  have hperm := docPaths_perm (paths kids [(1, s)]) doc hd
  have hemp : (doc.flatMap (fun l => (paths kids [(1, s)]).filter (isLex l))).isEmpty =
      !touched (fun l => decide (l ∈ doc)) kids := by
    have ht := touched_iff (fun l => decide (l ∈ doc)) kids [(1, s)]
    cases hx : touched (fun l => decide (l ∈ doc)) kids with
    | false =>
      rw [ht.2 hx] at hperm
      rw [hperm.eq_nil]; rfl
    | true =>
      cases hy : doc.flatMap (fun l => (paths kids [(1, s)]).filter (isLex l)) with
      | nil =>
        rw [hy] at hperm
        have := ht.1 hperm.nil_eq.symm
        rw [hx] at this; cases this
      | cons _ _ => rfl
  rw [hemp]
  have hW : ∀ m, (False ∨ ∃ p ∈ doc.flatMap (fun l => (paths kids [(1, s)]).filter (isLex l)), onPath m p) ↔
      thr (fun l => decide (l ∈ doc)) m (.op 1 s a kids .nil) = true := by
    intro m
    rw [false_or]
    have := onPath_paths (fun l => decide (l ∈ doc)) m (.op 1 s a kids .nil) []
    rw [hps] at this
    simp only [List.not_mem_nil, false_and, exists_false, and_false, false_or] at this
    rw [← this]
    constructor
    · rintro ⟨p, hp, h⟩; exact ⟨p, hperm.mem_iff.1 hp, h⟩
    · rintro ⟨p, hp, h⟩; exact ⟨p, hperm.mem_iff.2 hp, h⟩
  have hS : ∀ m, ini m + sumStarts m (doc.flatMap (fun l => (paths kids [(1, s)]).filter (isLex l))) =
      ini m + wsum (fun l => decide (l ∈ doc)) m 0 (.op 1 s a kids .nil) := by
    intro m
    have := sumStarts_paths (fun l => decide (l ∈ doc)) m kids 1 s []
    rw [sumStarts_perm m hperm, this]
    simp [wsum]
  have r' := r.congr hW hS
  have hbase := base_of (fun l => decide (l ∈ doc)) ini par _ _ st.nodes st.last r' (.op 1 s a kids .nil) 0 1 c hw' (by omega)
    (fun m _ _ => ⟨Iff.rfl, rfl⟩) ⟨x1, x2, x3, trivial⟩
  have hout : ∀ i, c - 1 ≤ i → ((fun i => if i < st.last then st.nodes i else ⟨0, -2, false⟩ : Nat → Node) i).parent = -2 := by
    intro i hi
    simp only
    split
    · have l1 := h1.le
      have := r'.unvis (i + 1) (by omega) (by
        rw [thr_out _ (i + 1) _ 1 c hw' (by omega)]; simp) (by omega)
      simpa using this
    · rfl
  have hloop : nodeLoop st.last st.nodes false =
      nodeLoop (c - 1) (fun i => if i < st.last then st.nodes i else ⟨0, -2, false⟩) false := by
    have e1 := nodeLoop_congr st.last st.nodes (fun i => if i < st.last then st.nodes i else ⟨0, -2, false⟩) false
      (fun i hi => by simp [hi])
    have e2 := nodeLoop_skip (fun i => if i < st.last then st.nodes i else ⟨0, -2, false⟩) false st.last (c - 1)
      (fun i h1 h2 => by simp [show ¬ i < st.last by omega])
    have e3 := nodeLoop_skip (fun i => if i < st.last then st.nodes i else ⟨0, -2, false⟩) false (c - 1) st.last
      (fun i h1 h2 => hout i h1)
    rw [e1, ← e2, Nat.add_comm, e3]
  rw [hloop]
  generalize (fun i => if i < st.last then st.nodes i else ⟨0, -2, false⟩ : Nat → Node) = g at hbase
  obtain ⟨b1, b2, b3, _⟩ := hbase
  obtain ⟨g', e1, k1, u1⟩ := nodeLoop_range (fun l => decide (l ∈ doc)) kids 0 2 c g false h1 (by omega) (by simpa using b3)
  rw [e1]
  simp only [nodeLoop, k1]
  cases ht : touched (fun l => decide (l ∈ doc)) kids with
  | false =>
    have := b2 ht
    simp only [Nat.sub_self] at this
    simp only [this, Bool.not_false, Bool.true_and]
    cases nullCheck <;> simp
  | true =>
    have := b1 ht
    simp only [Nat.sub_self] at this
    have hsum := sum_pos_iff (fun l => decide (l ∈ doc)) a kids
    rw [← hs] at hsum
    simp only [this]
    cases hwk : weakEval (fun l => decide (l ∈ doc)) a kids with
    | true => simp [hsum.2 hwk]
    | false =>
      have : ¬ s + leafC (fun l => decide (l ∈ doc)) kids + opC (fun l => decide (l ∈ doc)) kids > 0 := by
        intro h; have := hsum.1 h; rw [hwk] at this; cases this
      simp [this]

/-! ### Meaning of the wraps -/

theorem make_eval (doc : L → Bool) (q : Query L) : ∀ (par : Option Bool) (neg mode : Bool) (rest w : Wraps L),
    makeWraps q par neg rest = some w → (par = none ∨ par = some mode) →
    fullEval doc mode w = comb mode (q.eval doc != neg) (fullEval doc mode rest) := by
  induction q with
  | val l => intro par neg mode rest w h _; simp only [makeWraps, Option.some.injEq] at h; subst h; rfl
  | prefixVal l => intro par neg mode rest w h _; simp [makeWraps] at h
  | not q ih =>
    intro par neg mode rest w h hp
    rw [ih par (!neg) mode rest w h hp]
    simp only [Query.eval]
    cases q.eval doc <;> cases neg <;> rfl
  | and l r ih1 ih2 =>
    intro par neg mode rest w h hp
    simp only [makeWraps] at h
    split at h
    · next hpar =>
      subst hpar
      simp at hp
      subst hp
      simp only [Option.bind_eq_some_iff] at h
      obtain ⟨w1, h1, h2⟩ := h
      rw [ih1 _ _ _ _ _ h2 (Or.inr (by simp)), ih2 _ _ _ _ _ h1 (Or.inr (by simp))]
      simp only [Query.eval]
      cases l.eval doc <;> cases r.eval doc <;> cases mode <;> cases fullEval doc _ rest <;> rfl
    · simp only [Option.map_eq_some_iff, Option.bind_eq_some_iff] at h
      obtain ⟨w2, ⟨w1, h1, h2⟩, rfl⟩ := h
      simp only [fullEval]
      rw [ih1 _ _ (!neg) _ _ h2 (Or.inr rfl), ih2 _ _ (!neg) _ _ h1 (Or.inr rfl)]
      simp only [Query.eval, fullEval]
      cases l.eval doc <;> cases r.eval doc <;> cases neg <;> cases fullEval doc _ rest <;> rfl
  | or l r ih1 ih2 =>
    intro par neg mode rest w h hp
    simp only [makeWraps] at h
    split at h
    · next hpar =>
      subst hpar
      simp at hp
      subst hp
      simp only [Option.bind_eq_some_iff] at h
      obtain ⟨w1, h1, h2⟩ := h
      rw [ih1 _ _ _ _ _ h2 (Or.inr rfl), ih2 _ _ _ _ _ h1 (Or.inr rfl)]
      simp only [Query.eval]
      cases l.eval doc <;> cases r.eval doc <;> cases neg <;> cases fullEval doc _ rest <;> rfl
    · simp only [Option.map_eq_some_iff, Option.bind_eq_some_iff] at h
      obtain ⟨w2, ⟨w1, h1, h2⟩, rfl⟩ := h
      simp only [fullEval]
      rw [ih1 _ _ neg _ _ h2 (Or.inr rfl), ih2 _ _ neg _ _ h1 (Or.inr rfl)]
      simp only [Query.eval, fullEval]
      cases l.eval doc <;> cases r.eval doc <;> cases neg <;> cases fullEval doc _ rest <;> rfl
  | phrase l r _ _ => intro par neg mode rest w h _; simp [makeWraps] at h

theorem make_some (q : Query L) : ∀ (par : Option Bool) (neg : Bool) (rest : Wraps L), q.Plain →
    ∃ w, makeWraps q par neg rest = some w ∧ w.size ≤ q.size + rest.size ∧ w.ops ≤ q.ops + rest.ops := by
  induction q with
  | val l => intro par neg rest _; exact ⟨_, rfl, by simp [Wraps.size, Query.size], by simp [Wraps.ops, Query.ops]⟩
  | prefixVal l => intro par neg rest h; exact h.elim
  | not q ih =>
    intro par neg rest h
    obtain ⟨w, h1, h2, h3⟩ := ih par (!neg) rest h
    exact ⟨w, h1, by simp only [Query.size]; omega, h3⟩
  | and l r ih1 ih2 =>
    intro par neg rest h
    simp only [makeWraps, Query.size, Query.ops]
    split
    · obtain ⟨w1, a1, a2, a3⟩ := ih2 par neg rest h.2
      obtain ⟨w2, b1, b2, b3⟩ := ih1 par neg w1 h.1
      exact ⟨w2, by simp [a1, b1], by omega, by omega⟩
    · obtain ⟨w1, a1, a2, a3⟩ := ih2 (some (!neg)) neg .nil h.2
      obtain ⟨w2, b1, b2, b3⟩ := ih1 (some (!neg)) neg w1 h.1
      refine ⟨_, by simp [a1, b1]; rfl, ?_, ?_⟩
      · simp only [Wraps.size] at *; omega
      · simp only [Wraps.ops] at *; omega
  | or l r ih1 ih2 =>
    intro par neg rest h
    simp only [makeWraps, Query.size, Query.ops]
    split
    · obtain ⟨w1, a1, a2, a3⟩ := ih2 par neg rest h.2
      obtain ⟨w2, b1, b2, b3⟩ := ih1 par neg w1 h.1
      exact ⟨w2, by simp [a1, b1], by omega, by omega⟩
    · obtain ⟨w1, a1, a2, a3⟩ := ih2 (some neg) neg .nil h.2
      obtain ⟨w2, b1, b2, b3⟩ := ih1 (some neg) neg w1 h.1
      refine ⟨_, by simp [a1, b1]; rfl, ?_, ?_⟩
      · simp only [Wraps.size] at *; omega
      · simp only [Wraps.ops] at *; omega
  | phrase l r _ _ => intro par neg rest h; exact h.elim

theorem make_root (q : Query L) : ∀ (neg : Bool) (w : Wraps L), makeWraps q none neg .nil = some w →
    (∃ l b, w = .val l b .nil) ∨ (∃ a kids, w = .op 0 0 a kids .nil) := by
  induction q with
  | val l => intro neg w h; simp only [makeWraps, Option.some.injEq] at h; exact Or.inl ⟨_, _, h.symm⟩
  | prefixVal l => intro neg w h; simp [makeWraps] at h
  | not q ih => intro neg w h; exact ih (!neg) w h
  | and l r _ _ =>
    intro neg w h
    simp only [makeWraps, reduceCtorEq, if_false, Option.map_eq_some_iff] at h
    obtain ⟨k, _, rfl⟩ := h
    exact Or.inr ⟨_, _, rfl⟩
  | or l r _ _ =>
    intro neg w h
    simp only [makeWraps, reduceCtorEq, if_false, Option.map_eq_some_iff] at h
    obtain ⟨k, _, rfl⟩ := h
    exact Or.inr ⟨_, _, rfl⟩
  | phrase l r _ _ => intro neg w h; simp [makeWraps] at h

theorem fullEval_calc (doc : L → Bool) (w : Wraps L) : ∀ mode k, fullEval doc mode (calcWraps w k).1 = fullEval doc mode w := by
  induction w with
  | nil => intros; rfl
  | val l neg rest ih => intro mode k; simp only [calcWraps, fullEval, ih]
  | op n s a kids rest ih1 ih2 => intro mode k; simp only [calcWraps, fullEval, ih1, ih2]

theorem allNegative_eq (w : Wraps L) : ∀ mode, allNegative mode w = fullEval (fun _ => false) mode w := by
  induction w with
  | nil => intros; rfl
  | val l neg rest ih =>
    intro mode; simp only [allNegative, fullEval, ih, comb]
    cases mode <;> cases neg <;> simp
  | op n s a kids rest ih1 ih2 =>
    intro mode; simp only [allNegative, fullEval, ih1, ih2, comb]
    cases mode <;> cases fullEval (fun _ => false) a kids <;> simp

theorem fullEval_untouched (doc : L → Bool) (w : Wraps L) : ∀ mode, touched doc w = false →
    fullEval doc mode w = fullEval (fun _ => false) mode w := by
  induction w with
  | nil => intros; rfl
  | val l neg rest ih =>
    intro mode h
    simp only [touched, Bool.or_eq_false_iff] at h
    simp only [fullEval, ih mode h.2, h.1]
  | op n s a kids rest ih1 ih2 =>
    intro mode h
    simp only [touched, Bool.or_eq_false_iff] at h
    simp only [fullEval, ih1 _ h.1, ih2 _ h.2]

theorem weak_le_full (doc : L → Bool) (w : Wraps L) : ∀ mode, weakEval doc mode w = true → fullEval doc mode w = true := by
  induction w with
  | nil => intro mode h; exact h
  | val l neg rest ih =>
    intro mode h
    have := ih mode
    simp only [weakEval, fullEval, comb] at h ⊢
    cases mode <;> grind
  | op n s a kids rest ih1 ih2 =>
    intro mode h
    have := ih1 a
    have := ih2 mode
    simp only [weakEval, fullEval, comb] at h ⊢
    cases mode <;> grind

/-- No operator below the top holds on the empty document. -/
def noHidden : Wraps L → Prop
  | .nil => True
  | .val _ _ rest => noHidden rest
  | .op _ _ a kids rest => fullEval (fun _ => false) a kids = false ∧ noHidden kids ∧ noHidden rest

theorem weak_eq_full (doc : L → Bool) (w : Wraps L) : ∀ mode, noHidden w → weakEval doc mode w = fullEval doc mode w := by
  induction w with
  | nil => intros; rfl
  | val l neg rest ih => intro mode h; simp only [weakEval, fullEval, ih mode h]
  | op n s a kids rest ih1 ih2 =>
    intro mode h
    obtain ⟨h1, h2, h3⟩ := h
    simp only [weakEval, fullEval, ih1 a h2, ih2 mode h3]
    cases ht : touched doc kids with
    | true => simp
    | false => rw [fullEval_untouched doc kids a ht, h1]; simp

theorem noHidden_calc (w : Wraps L) : ∀ k, noHidden w → noHidden (calcWraps w k).1 := by
  induction w with
  | nil => intros; trivial
  | val l neg rest ih => intro k h; exact ih k h
  | op n s a kids rest ih1 ih2 =>
    intro k h
    exact ⟨by rw [fullEval_calc]; exact h.1, ih1 _ h.2.1, ih2 _ h.2.2⟩

end Rum.Inv

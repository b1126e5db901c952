import Verif.TsQuery
import Verif.Props.Positions
/- Lemmas for C25/C26. -/
set_option linter.unusedSectionVars false
namespace Rum.Ts
open Rum.Pos

variable {O : Type}

theorem mem_emitPos (e : Bool) (p x : Nat) (out : List Nat) (h : p < 2 ^ 16) :
    x ∈ emitPos e p out ↔ (e = true ∧ 0 < p ∧ x = p) ∨ x ∈ out := by
  unfold emitPos
  rw [Nat.mod_eq_of_lt h]
  split <;> simp <;> grind

/-- Strictly increasing list of numbers in `1 .. 2^16-1`. -/
def Inc (l : List Nat) : Prop := l.Pairwise (· < ·) ∧ ∀ x ∈ l, 0 < x ∧ x < 2 ^ 16

theorem inc_cons (a : Nat) (l : List Nat) : Inc (a :: l) ↔ 0 < a ∧ a < 2 ^ 16 ∧ (∀ x ∈ l, a < x) ∧ Inc l := by
  unfold Inc
  rw [List.pairwise_cons, List.forall_mem_cons]
  constructor
  · rintro ⟨⟨h1, h2⟩, h3, h4⟩; exact ⟨h3.1, h3.2, h1, h2, h4⟩
  · rintro ⟨h1, h2, h3, h4, h5⟩; exact ⟨⟨h3, h4⟩, ⟨h1, h2⟩, h5⟩

theorem inc_emit (e : Bool) (p : Nat) (out : List Nat) (hp : p < 2 ^ 16) (ho : Inc out) (hx : ∀ x ∈ out, p < x) :
    Inc (emitPos e p out) := by
  unfold emitPos
  rw [Nat.mod_eq_of_lt hp]
  split
  · next h => exact (inc_cons _ _).2 ⟨h.2, hp, hx, ho⟩
  · exact ho

/-- Membership in the output of the merge loop. -/
theorem outLoop_mem (eL eR eB : Bool) (ls rs : List Nat) (hl : Inc ls) (hr : Inc rs) :
    ∀ x, x ∈ outLoop eL eR eB ls rs ↔
      (eL = true ∧ x ∈ ls ∧ x ∉ rs) ∨ (eR = true ∧ x ∈ rs ∧ x ∉ ls) ∨ (eB = true ∧ x ∈ ls ∧ x ∈ rs) := by
  revert hl hr
  fun_induction outLoop eL eR eB ls rs <;> intro hl hr x <;> grind [inc_cons, mem_emitPos]

theorem outLoop_sorted (eL eR eB : Bool) (ls rs : List Nat) (hl : Inc ls) (hr : Inc rs) : Inc (outLoop eL eR eB ls rs) := by
  fun_induction outLoop eL eR eB ls rs with
  | case1 => exact hl
  | case2 => exact hl
  | case3 r rs h ih =>
    have hm := outLoop_mem eL eR eB [] rs hl ((inc_cons _ _).1 hr).2.2.2
    apply inc_emit <;> grind [inc_cons]
  | case4 => exact hr
  | case5 l ls h ih =>
    have hm := outLoop_mem eL eR eB ls [] ((inc_cons _ _).1 hl).2.2.2 hr
    apply inc_emit <;> grind [inc_cons]
  | case6 l ls r rs h ih =>
    have hm := outLoop_mem eL eR eB ls (r :: rs) ((inc_cons _ _).1 hl).2.2.2 hr
    apply inc_emit <;> grind [inc_cons]
  | case7 ls r rs h ih =>
    have hm := outLoop_mem eL eR eB ls rs ((inc_cons _ _).1 hl).2.2.2 ((inc_cons _ _).1 hr).2.2.2
    apply inc_emit <;> grind [inc_cons]
  | case8 l ls r rs h h' ih =>
    have hm := outLoop_mem eL eR eB (l :: ls) rs hl ((inc_cons _ _).1 hr).2.2.2
    apply inc_emit <;> grind [inc_cons]

/-- A position list fit for phrase processing with positions up to `B`. -/
def Good (B : Nat) (pos : List Nat) : Prop :=
  pos.Pairwise (fun a b => wepPos a < wepPos b) ∧ ∀ x ∈ pos, 1 ≤ wepPos x ∧ wepPos x ≤ B

/-- The set of integer positions. -/
def posZ (pos : List Nat) (p : Int) : Prop := ∃ x ∈ pos, (wepPos x : Int) = p

/-- The set a `PData` stands for. -/
def denote (pd : PData) (p : Int) : Prop := if pd.negate then ¬ posZ pd.pos p else posZ pd.pos p

theorem posZ_empty (p : Int) : ¬ posZ [] p := by simp [posZ]

theorem posZ_bound {B : Nat} {pos : List Nat} (h : Good B pos) {p : Int} (hp : posZ pos p) : 1 ≤ p ∧ p ≤ B := by
  obtain ⟨x, hx, rfl⟩ := hp
  have := h.2 x hx
  omega

/-- The output of rum_phrase_output as a set. -/
theorem phraseOutput_spec {B BL BR : Nat} (L R : PData) (eL eR eB : Bool) (lo ro : Nat) (gl : Good BL L.pos)
    (gr : Good BR R.pos) (hl : BL + lo ≤ B) (hr : BR + ro ≤ B) (hB : B < 2 ^ 14) :
    Good B (phraseOutput L R eL eR eB lo ro).2 ∧
    (∀ p : Int, posZ (phraseOutput L R eL eR eB lo ro).2 p ↔
      (eL = true ∧ posZ L.pos (p - lo) ∧ ¬ posZ R.pos (p - ro)) ∨ (eR = true ∧ posZ R.pos (p - ro) ∧ ¬ posZ L.pos (p - lo)) ∨
      (eB = true ∧ posZ L.pos (p - lo) ∧ posZ R.pos (p - ro))) ∧
    ((phraseOutput L R eL eR eB lo ro).1 = .yes ↔ ∃ p, posZ (phraseOutput L R eL eR eB lo ro).2 p) ∧
    ((phraseOutput L R eL eR eB lo ro).1 = .no ↔ (phraseOutput L R eL eR eB lo ro).2 = []) ∧
    (phraseOutput L R eL eR eB lo ro).1 ≠ .maybe := by
  have sl : (L.pos.map (fun x => wepPos x + lo)).Pairwise (· < ·) := by
    rw [List.pairwise_map]; exact gl.1.imp (fun h => by omega)
  have sr : (R.pos.map (fun x => wepPos x + ro)).Pairwise (· < ·) := by
    rw [List.pairwise_map]; exact gr.1.imp (fun h => by omega)
  have bl : ∀ x ∈ L.pos.map (fun x => wepPos x + lo), 0 < x ∧ x ≤ B := by
    intro x hx
    obtain ⟨y, hy, rfl⟩ := List.mem_map.1 hx
    have := gl.2 y hy; omega
  have br : ∀ x ∈ R.pos.map (fun x => wepPos x + ro), 0 < x ∧ x ≤ B := by
    intro x hx
    obtain ⟨y, hy, rfl⟩ := List.mem_map.1 hx
    have := gr.2 y hy; omega
  have zl : ∀ p : Nat, p ∈ L.pos.map (fun x => wepPos x + lo) ↔ posZ L.pos (p - lo) := by
    intro p; simp only [List.mem_map, posZ]
    constructor
    · rintro ⟨x, hx, rfl⟩; exact ⟨x, hx, by omega⟩
    · rintro ⟨x, hx, h⟩; exact ⟨x, hx, by omega⟩
  have zr : ∀ p : Nat, p ∈ R.pos.map (fun x => wepPos x + ro) ↔ posZ R.pos (p - ro) := by
    intro p; simp only [List.mem_map, posZ]
    constructor
    · rintro ⟨x, hx, rfl⟩; exact ⟨x, hx, by omega⟩
    · rintro ⟨x, hx, h⟩; exact ⟨x, hx, by omega⟩
  have bl' : ∀ x ∈ L.pos.map (fun x => wepPos x + lo), 0 < x ∧ x < 2 ^ 16 := fun x hx => by
    have := bl x hx; omega
  have br' : ∀ x ∈ R.pos.map (fun x => wepPos x + ro), 0 < x ∧ x < 2 ^ 16 := fun x hx => by
    have := br x hx; omega
  have hm := outLoop_mem eL eR eB _ _ ⟨sl, bl'⟩ ⟨sr, br'⟩
  have hs := outLoop_sorted eL eR eB _ _ ⟨sl, bl'⟩ ⟨sr, br'⟩
  have hb : ∀ x ∈ (phraseOutput L R eL eR eB lo ro).2, 1 ≤ x ∧ x ≤ B := by
    intro x hx
    rcases (hm x).1 hx with h | h | h
    · have := bl x h.2.1; omega
    · have := br x h.2.1; omega
    · have := bl x h.2.1; omega
  have hw : ∀ x ∈ (phraseOutput L R eL eR eB lo ro).2, wepPos x = x := by
    intro x hx
    rw [wepPos_eq, Nat.mod_eq_of_lt]; have := hb x hx; omega
  have hz : ∀ p : Int, posZ (phraseOutput L R eL eR eB lo ro).2 p ↔ ∃ n : Nat, (n : Int) = p ∧ n ∈ (phraseOutput L R eL eR eB lo ro).2 := by
    intro p; constructor
    · rintro ⟨x, hx, h⟩; exact ⟨x, by rw [← h, hw x hx], hx⟩
    · rintro ⟨x, h, hx⟩; exact ⟨x, hx, by rw [hw x hx, h]⟩
  refine ⟨⟨?_, ?_⟩, ?_, ?_, ?_, ?_⟩
  · refine List.Pairwise.imp_of_mem (fun ha hb' h => ?_) hs.1
    rw [hw _ ha, hw _ hb']; exact h
  · intro x hx; rw [hw x hx]; exact hb x hx
  · intro p
    rw [hz]
    constructor
    · rintro ⟨n, rfl, hn⟩
      have := (hm n).1 hn
      rw [zl, zr] at this; exact this
    · intro h
      have hp : 1 ≤ p := by
        rcases h with h | h | h
        · have := posZ_bound gl h.2.1; omega
        · have := posZ_bound gr h.2.1; omega
        · have := posZ_bound gl h.2.1; omega
      refine ⟨p.toNat, by omega, (hm _).2 ?_⟩
      rw [zl, zr, Int.toNat_of_nonneg (by omega)]; exact h
  · constructor
    · intro h
      have : (phraseOutput L R eL eR eB lo ro).2 ≠ [] := by
        intro h'
        unfold phraseOutput at h h'
        simp only at h h'
        rw [h'] at h; simp at h
      obtain ⟨x, hx⟩ := List.exists_mem_of_ne_nil _ this
      exact ⟨_, x, hx, rfl⟩
    · rintro ⟨p, x, hx, -⟩
      unfold phraseOutput at hx ⊢
      simp only at hx ⊢
      rw [if_neg]; exact List.ne_nil_of_mem hx
  · unfold phraseOutput; simp only; split <;> simp [*]
  · unfold phraseOutput; simp only; split <;> simp

/-- What a combined result must satisfy to stand for the set `S`. -/
structure Stands (B width : Nat) (r : TV × PData) (S : Int → Prop) : Prop where
  good : Good B r.2.pos
  den : ∀ p, S p ↔ denote r.2 p
  yes : r.1 = .yes → ∃ p, S p
  no : r.1 = .no → r.2.pos = [] ∧ r.2.negate = false
  sure : r.1 ≠ .maybe
  width : r.2.width = width

theorem exists_not_posZ {B : Nat} {pos : List Nat} (h : Good B pos) : ¬ posZ pos (B + 1) := by
  intro hp; have := posZ_bound h hp; omega

theorem andOutput_spec {B BL BR : Nat} (L R : PData) (lo ro width : Nat) (gl : Good BL L.pos)
    (gr : Good BR R.pos) (hl : BL + lo ≤ B) (hr : BR + ro ≤ B) (hB : B < 2 ^ 14) :
    Stands B width (andOutput L R lo ro width) (fun p => denote L (p - lo) ∧ denote R (p - ro)) := by
  have hs := fun eL eR eB => phraseOutput_spec L R eL eR eB lo ro gl gr hl hr hB
  unfold andOutput
  split
  · next h =>
    obtain ⟨g, m, y, n, s⟩ := hs true true true
    refine ⟨g, ?_, ?_, by simp, by simp, rfl⟩
    · intro p; simp only [denote, h.1, h.2, if_true, m]; grind
    · intro _
      refine ⟨B + 1, ?_⟩
      have := exists_not_posZ g
      rw [m] at this
      simp only [denote, h.1, h.2, if_true]; grind
  · split
    · next h0 h =>
      have h2 : R.negate = false := by grind
      obtain ⟨g, m, y, n, s⟩ := hs false true false
      have hd : ∀ p : Int, (denote L (p - lo) ∧ denote R (p - ro)) ↔ posZ (phraseOutput L R false true false lo ro).2 p := by
        intro p; simp only [denote, h, h2, if_true, m]; grind
      refine ⟨g, ?_, ?_, ?_, s, rfl⟩
      · intro p; simp only [hd]; simp [denote]
      · intro hy; simp only [hd]; exact y.1 hy
      · intro hn; exact ⟨n.1 hn, rfl⟩
    · split
      · next h0 h1 h =>
        have h2 : L.negate = false := by grind
        obtain ⟨g, m, y, n, s⟩ := hs true false false
        have hd : ∀ p : Int, (denote L (p - lo) ∧ denote R (p - ro)) ↔ posZ (phraseOutput L R true false false lo ro).2 p := by
          intro p; simp only [denote, h, h2, if_true, m]; grind
        refine ⟨g, ?_, ?_, ?_, s, rfl⟩
        · intro p; simp only [hd]; simp [denote]
        · intro hy; simp only [hd]; exact y.1 hy
        · intro hn; exact ⟨n.1 hn, rfl⟩
      · next h0 h1 h =>
        have h2 : L.negate = false := by grind
        have h3 : R.negate = false := by grind
        obtain ⟨g, m, y, n, s⟩ := hs false false true
        have hd : ∀ p : Int, (denote L (p - lo) ∧ denote R (p - ro)) ↔ posZ (phraseOutput L R false false true lo ro).2 p := by
          intro p; simp only [denote, h3, h2, m]; grind
        refine ⟨g, ?_, ?_, ?_, s, rfl⟩
        · intro p; simp only [hd]; simp [denote]
        · intro hy; simp only [hd]; exact y.1 hy
        · intro hn; exact ⟨n.1 hn, rfl⟩

theorem orOutput_spec {B BL BR : Nat} (L R : PData) (lo ro width : Nat) (gl : Good BL L.pos)
    (gr : Good BR R.pos) (hl : BL + lo ≤ B) (hr : BR + ro ≤ B) (hB : B < 2 ^ 14) :
    Stands B width (orOutput L R lo ro width) (fun p => denote L (p - lo) ∨ denote R (p - ro)) := by
  have hs := fun eL eR eB => phraseOutput_spec L R eL eR eB lo ro gl gr hl hr hB
  unfold orOutput
  split
  · next h =>
    obtain ⟨g, m, y, n, s⟩ := hs false false true
    refine ⟨g, ?_, ?_, by simp, by simp, rfl⟩
    · intro p; simp only [denote, h.1, h.2, if_true, m]; grind
    · intro _
      refine ⟨B + 1, ?_⟩
      have := exists_not_posZ g
      rw [m] at this
      simp only [denote, h.1, h.2, if_true]; grind
  · split
    · next h0 h =>
      have h2 : R.negate = false := by grind
      obtain ⟨g, m, y, n, s⟩ := hs true false false
      refine ⟨g, ?_, ?_, by simp, by simp, rfl⟩
      · intro p; simp only [denote, h, h2, if_true, m]; grind
      · intro _
        refine ⟨B + 1, ?_⟩
        have := exists_not_posZ g
        rw [m] at this
        simp only [denote, h, h2, if_true]; grind
    · split
      · next h0 h1 h =>
        have h2 : L.negate = false := by grind
        obtain ⟨g, m, y, n, s⟩ := hs false true false
        refine ⟨g, ?_, ?_, by simp, by simp, rfl⟩
        · intro p; simp only [denote, h, h2, if_true, m]; grind
        · intro _
          refine ⟨B + 1, ?_⟩
          have := exists_not_posZ g
          rw [m] at this
          simp only [denote, h, h2, if_true]; grind
      · next h0 h1 h =>
        have h2 : L.negate = false := by grind
        have h3 : R.negate = false := by grind
        obtain ⟨g, m, y, n, s⟩ := hs true true true
        have hd : ∀ p : Int, (denote L (p - lo) ∨ denote R (p - ro)) ↔ posZ (phraseOutput L R true true true lo ro).2 p := by
          intro p; simp only [denote, h3, h2, m]; grind
        refine ⟨g, ?_, ?_, ?_, s, rfl⟩
        · intro p; simp only [hd]; simp [denote]
        · intro hy; simp only [hd]; exact y.1 hy
        · intro hn; exact ⟨n.1 hn, rfl⟩

/-- Meaning of a phrase-level result. -/
structure Means (P : Nat) (doc : O → Occ) (exact : Prop) (q : Query O) (r : TV × PData) : Prop where
  good : Good (P + q.dist) r.2.pos
  width : r.1 ≠ .maybe → r.2.width ≤ q.dist
  yes : r.1 = .yes → ∃ S, sem doc q = some (r.2.width, S) ∧ (∃ p, S p) ∧ ∀ p, S p ↔ denote r.2 p
  no : r.1 = .no → r.2.pos = [] ∧ r.2.negate = false ∧ ∃ S, sem doc q = some (r.2.width, S) ∧ ∀ p, ¬ S p
  maybe : r.1 = .maybe → exact → sem doc q = none

theorem good_nil (B : Nat) : Good B [] := by simp [Good]

theorem good_mono {B C : Nat} {pos : List Nat} (h : Good B pos) (hc : B ≤ C) : Good C pos :=
  ⟨h.1, fun x hx => by have := h.2 x hx; omega⟩

theorem weightOK_iff (w x : Nat) : weightOK w x = true ↔ HasWeight w x := by
  unfold weightOK HasWeight
  simp only [decide_eq_true_eq]
  have : (w >>> wepWeight x &&& 1 ≠ 0) ↔ w.testBit (wepWeight x) = true := by
    rw [Nat.testBit, Nat.and_comm]; simp
  rw [this]

theorem chkPhrase_means (P : Nat) (doc : O → Occ) (ts : Bool) (hd : DocOK P doc) (o : O) (w : Nat) :
    Means P doc (ts = false) (.val o w) (chkPhrase ts (stored (doc o)) w) := by
  cases hdo : doc o with
  | absent =>
    refine ⟨good_nil _, fun _ => Nat.zero_le _, by simp [chkPhrase, stored], fun _ => ⟨rfl, rfl, ?_⟩, by simp [chkPhrase, stored]⟩
    exact ⟨fun _ => False, by simp [sem, hdo, chkPhrase, stored], by simp⟩
  | noPos =>
    refine ⟨good_nil _, fun _ => Nat.zero_le _, by simp [chkPhrase, stored], by simp [chkPhrase, stored], ?_⟩
    intros; simp [sem, hdo]
  | «at» ps =>
    obtain ⟨hp, hb⟩ := hd o ps hdo
    cases ts with
    | true =>
      refine ⟨good_nil _, fun _ => Nat.zero_le _, by simp [chkPhrase, stored], by simp [chkPhrase, stored], by simp⟩
    | false =>
      have h27 := Props.C27_positions_roundtrip ps [] hp
      simp only [List.append_nil] at h27
      have e : chkPhrase false (stored (.at ps)) w =
          (if ps.filter (fun x => weightOK w x) = [] then .no else .yes, { pos := ps.filter (fun x => weightOK w x) }) := by
        simp only [chkPhrase, stored, h27.2.1]; rfl
      rw [e]
      have hS : ∀ p : Int, (∃ x ∈ ps, HasWeight w x ∧ (wepPos x : Int) = p) ↔ posZ (ps.filter (fun x => weightOK w x)) p := by
        intro p; simp only [posZ, List.mem_filter, weightOK_iff]; grind
      refine ⟨⟨hp.2.filter _, fun x hx => ?_⟩, fun _ => Nat.zero_le _, ?_, ?_, ?_⟩
      · have := hb x (List.mem_filter.1 hx).1
        exact ⟨this.1, by omega⟩
      · intro h
        refine ⟨fun p => ∃ x ∈ ps, HasWeight w x ∧ (wepPos x : Int) = p, by simp [sem, hdo], ?_, ?_⟩
        · have hne : ps.filter (fun x => weightOK w x) ≠ [] := by
            intro h'; simp only [h', if_true] at h; cases h
          obtain ⟨x, hx⟩ := List.exists_mem_of_ne_nil _ hne
          exact ⟨wepPos x, (hS _).2 ⟨x, hx, rfl⟩⟩
        · intro p; simp only [hS]; simp [denote]
      · intro h
        have hne : ps.filter (fun x => weightOK w x) = [] := by
          by_cases h' : ps.filter (fun x => weightOK w x) = []
          · exact h'
          · simp only [h', if_false] at h; cases h
        refine ⟨hne, rfl, fun p => ∃ x ∈ ps, HasWeight w x ∧ (wepPos x : Int) = p, by simp [sem, hdo], ?_⟩
        intro p; simp only [hS, hne]; exact posZ_empty p
      · intro h; simp only at h; split at h <;> cases h

theorem nowhere_of_no {P : Nat} {doc : O → Occ} {e : Prop} {q : Query O} {r : TV × PData} (h : Means P doc e q r)
    (hn : r.1 = .no) : sem.nowhere (sem doc q) := by
  obtain ⟨-, -, S, hS, hp⟩ := h.no hn
  exact ⟨_, hS, hp⟩

theorem not_nowhere_of_yes {P : Nat} {doc : O → Occ} {e : Prop} {q : Query O} {r : TV × PData} (h : Means P doc e q r)
    (hn : r.1 = .yes) : ¬ sem.nowhere (sem doc q) := by
  obtain ⟨S, hS, ⟨p, hp⟩, -⟩ := h.yes hn
  rintro ⟨y, hy, hy'⟩
  rw [hS] at hy; cases hy
  exact hy' p hp

theorem not_nowhere_of_maybe {P : Nat} {doc : O → Occ} {e : Prop} {q : Query O} {r : TV × PData} (h : Means P doc e q r)
    (hn : r.1 = .maybe) (he : e) : ¬ sem.nowhere (sem doc q) := by
  rintro ⟨y, hy, -⟩
  rw [h.maybe hn he] at hy; cases hy

theorem tv_cases (t : TV) : t = .no ∨ t = .yes ∨ t = .maybe := by cases t <;> simp

theorem means_void {P : Nat} {doc : O → Occ} {e : Prop} {q : Query O}
    (h : sem doc q = some (0, fun _ => False)) : Means P doc e q (.no, {}) :=
  ⟨good_nil _, fun _ => Nat.zero_le _, by simp, fun _ => ⟨rfl, rfl, _, h, by simp⟩, by simp⟩

theorem means_maybe {P : Nat} {doc : O → Occ} {e : Prop} {q : Query O}
    (h : e → sem doc q = none) : Means P doc e q (.maybe, {}) :=
  ⟨good_nil _, by simp, by simp, by simp, fun _ he => h he⟩

/-- A combined result that stands for the meaning of `q`. -/
theorem means_of_stands {P : Nat} {doc : O → Occ} {e : Prop} {q : Query O} {r : TV × PData} {w : Nat} {S : Int → Prop}
    (hs : Stands (P + q.dist) w r S) (h : sem doc q = some (w, S)) (hw : w ≤ q.dist) : Means P doc e q r := by
  refine ⟨hs.good, fun _ => by rw [hs.width]; exact hw, ?_, ?_, fun hm => absurd hm hs.sure⟩
  · intro hy; exact ⟨S, by rw [hs.width]; exact h, hs.yes hy, hs.den⟩
  · intro hn
    obtain ⟨h1, h2⟩ := hs.no hn
    refine ⟨h1, h2, S, by rw [hs.width]; exact h, fun p => ?_⟩
    rw [hs.den]; simp [denote, h1, h2, posZ]

theorem means_not {P : Nat} {doc : O → Occ} {e : Prop} {q : Query O} {r : TV × PData} (h : Means P doc e q r) :
    Means P doc e (.not q) (notOutput r) := by
  obtain ⟨t, d⟩ := r
  have hg := h.good
  cases t with
  | no =>
    obtain ⟨h1, h2, S, h3, h4⟩ := h.no rfl
    simp only at h1 h2 h3
    refine ⟨hg, fun _ => h.width (by simp), fun _ => ?_, by simp [notOutput], by simp [notOutput]⟩
    refine ⟨fun p => ¬ S p, by simp [sem, h3, notOutput], ⟨0, h4 0⟩, fun p => ?_⟩
    simp [denote, notOutput, h1, posZ, h4]
  | maybe =>
    refine ⟨hg, by simp [notOutput], by simp [notOutput], by simp [notOutput], fun _ he => ?_⟩
    simp [sem, h.maybe rfl he]
  | yes =>
    obtain ⟨S, h3, ⟨p0, h4⟩, h5⟩ := h.yes rfl
    simp only at h3 h5
    by_cases hp : d.pos = []
    · have hneg : d.negate = true := by
        have := (h5 p0).1 h4
        simp only [denote, hp] at this
        by_cases hn : d.negate = true
        · exact hn
        · rw [if_neg hn] at this; exact absurd this (posZ_empty _)
      have hr : notOutput (.yes, d) = (.no, { d with negate := false }) := by simp [notOutput, hp, hneg]
      rw [hr]
      refine ⟨hg, fun _ => h.width (by simp), by simp, fun _ => ⟨hp, rfl, fun p => ¬ S p, by simp [sem, h3], ?_⟩, by simp⟩
      intro p; simp [h5, denote, hneg, hp, posZ]
    · have hr : notOutput (.yes, d) = (.yes, { d with negate := !d.negate }) := by simp [notOutput, hp]
      rw [hr]
      obtain ⟨x, hx⟩ := List.exists_mem_of_ne_nil _ hp
      refine ⟨hg, fun _ => h.width (by simp), fun _ => ⟨fun p => ¬ S p, by simp [sem, h3], ?_, ?_⟩, by simp, by simp⟩
      · cases hn : d.negate with
        | false =>
          refine ⟨(P + q.dist : Nat) + 1, ?_⟩
          simp only [h5, denote, hn]
          have := exists_not_posZ hg
          simpa using this
        | true =>
          refine ⟨wepPos x, ?_⟩
          simp only [h5, denote, hn, if_true, Classical.not_not]
          exact ⟨x, hx, rfl⟩
      · intro p
        simp only [h5, denote]
        cases hn : d.negate <;> simp

/-- **Phrase execution computes the declarative meaning.** -/
theorem phraseExec_means (P : Nat) (doc : O → Occ) (noPos ts : Bool) (hd : DocOK P doc) (q : Query O)
    (hB : P + q.dist < 2 ^ 14) :
    Means P doc (noPos = false ∧ ts = false) q (phraseExec noPos (fun o w => chkPhrase ts (stored (doc o)) w) q) := by
  induction q with
  | val o w =>
    have := chkPhrase_means P doc ts hd o w
    exact ⟨this.good, this.width, this.yes, this.no, fun h he => this.maybe h he.2⟩
  | not q ih => exact means_not (ih hB)
  | phrase d l r ihl ihr =>
    simp only [Query.dist] at hB
    have hl := ihl (by omega)
    have hr := ihr (by omega)
    simp only [phraseExec]
    generalize phraseExec noPos (fun o w => chkPhrase ts (stored (doc o)) w) l = L at *
    generalize phraseExec noPos (fun o w => chkPhrase ts (stored (doc o)) w) r = R at *
    split
    · next h => apply means_void; simp only [sem, sem.both]; rw [if_pos (Or.inl (nowhere_of_no hl h))]
    · next h1 =>
      split
      · next h => apply means_void; simp only [sem, sem.both]; rw [if_pos (Or.inr (nowhere_of_no hr h))]
      · next h2 =>
        split
        · next h3 =>
          apply means_maybe
          intro he
          simp only [sem, sem.both]
          have nl : ¬ sem.nowhere (sem doc l) := by
            rcases tv_cases L.1 with h | h | h
            · exact absurd h h1
            · exact not_nowhere_of_yes hl h
            · exact not_nowhere_of_maybe hl h he
          have nr : ¬ sem.nowhere (sem doc r) := by
            rcases tv_cases R.1 with h | h | h
            · exact absurd h h2
            · exact not_nowhere_of_yes hr h
            · exact not_nowhere_of_maybe hr h he
          rw [if_neg (by simp [nl, nr])]
          rcases h3 with h | h
          · rw [hl.maybe h he]
          · rw [hr.maybe h he]; cases sem doc l <;> rfl
        · next h3 =>
          split
          · next h4 => exact means_maybe (fun he => by simp [he.1] at h4)
          · have y1 : L.1 = .yes := by rcases tv_cases L.1 with h | h | h <;> simp_all
            have y2 : R.1 = .yes := by rcases tv_cases R.1 with h | h | h <;> simp_all
            obtain ⟨SL, eL, -, dL⟩ := hl.yes y1
            obtain ⟨SR, eR, -, dR⟩ := hr.yes y2
            have wl := hl.width (by simp [y1])
            have wr := hr.width (by simp [y2])
            have hs := andOutput_spec (B := P + (Query.phrase d l r).dist) L.2 R.2 (d + R.2.width) 0
              (d + L.2.width + R.2.width) hl.good hr.good (by simp only [Query.dist]; omega)
              (by simp only [Query.dist]; omega) (by simp only [Query.dist]; omega)
            refine means_of_stands hs ?_ (by simp only [Query.dist]; omega)
            simp only [sem, sem.both]
            rw [if_neg (by simp [not_nowhere_of_yes hl y1, not_nowhere_of_yes hr y2]), eL, eR]
            simp only [Option.some.injEq, Prod.mk.injEq, true_and]
            funext p
            rw [dL, dR]
            simp only [Int.natCast_add, Int.natCast_zero, Int.sub_zero, Int.sub_sub]
  | and l r ihl ihr =>
    simp only [Query.dist] at hB
    have hl := ihl (by omega)
    have hr := ihr (by omega)
    simp only [phraseExec]
    generalize phraseExec noPos (fun o w => chkPhrase ts (stored (doc o)) w) l = L at *
    generalize phraseExec noPos (fun o w => chkPhrase ts (stored (doc o)) w) r = R at *
    split
    · next h => apply means_void; simp only [sem, sem.both]; rw [if_pos (Or.inl (nowhere_of_no hl h))]
    · next h1 =>
      split
      · next h => apply means_void; simp only [sem, sem.both]; rw [if_pos (Or.inr (nowhere_of_no hr h))]
      · next h2 =>
        split
        · next h3 =>
          apply means_maybe
          intro he
          simp only [sem, sem.both]
          have nl : ¬ sem.nowhere (sem doc l) := by
            rcases tv_cases L.1 with h | h | h
            · exact absurd h h1
            · exact not_nowhere_of_yes hl h
            · exact not_nowhere_of_maybe hl h he
          have nr : ¬ sem.nowhere (sem doc r) := by
            rcases tv_cases R.1 with h | h | h
            · exact absurd h h2
            · exact not_nowhere_of_yes hr h
            · exact not_nowhere_of_maybe hr h he
          rw [if_neg (by simp [nl, nr])]
          rcases h3 with h | h
          · rw [hl.maybe h he]
          · rw [hr.maybe h he]; cases sem doc l <;> rfl
        · next h3 =>
          have y1 : L.1 = .yes := by rcases tv_cases L.1 with h | h | h <;> simp_all
          have y2 : R.1 = .yes := by rcases tv_cases R.1 with h | h | h <;> simp_all
          obtain ⟨SL, eL, -, dL⟩ := hl.yes y1
          obtain ⟨SR, eR, -, dR⟩ := hr.yes y2
          have wl := hl.width (by simp [y1])
          have wr := hr.width (by simp [y2])
          have hs := andOutput_spec (B := P + (Query.and l r).dist) L.2 R.2 (max L.2.width R.2.width - L.2.width)
            (max L.2.width R.2.width - R.2.width)
            (max L.2.width R.2.width) hl.good hr.good (by simp only [Query.dist]; omega)
            (by simp only [Query.dist]; omega) (by simp only [Query.dist]; omega)
          refine means_of_stands hs ?_ (by simp only [Query.dist]; omega)
          simp only [sem, sem.both]
          rw [if_neg (by simp [not_nowhere_of_yes hl y1, not_nowhere_of_yes hr y2]), eL, eR]
          simp only [Option.some.injEq, Prod.mk.injEq, true_and]
          funext p
          rw [dL, dR]
  | or l r ihl ihr =>
    simp only [Query.dist] at hB
    have hl := ihl (by omega)
    have hr := ihr (by omega)
    simp only [phraseExec]
    generalize phraseExec noPos (fun o w => chkPhrase ts (stored (doc o)) w) l = L at *
    generalize phraseExec noPos (fun o w => chkPhrase ts (stored (doc o)) w) r = R at *
    split
    · next h =>
      apply means_void; simp only [sem]; rw [if_pos ⟨nowhere_of_no hl h.1, nowhere_of_no hr h.2⟩]
    · next h1 =>
      split
      · next h3 =>
        apply means_maybe
        intro he
        simp only [sem]
        have nb : ¬ (sem.nowhere (sem doc l) ∧ sem.nowhere (sem doc r)) := by
          rcases h3 with h | h
          · exact fun x => not_nowhere_of_maybe hl h he x.1
          · exact fun x => not_nowhere_of_maybe hr h he x.2
        rw [if_neg nb]
        rcases h3 with h | h
        · rw [hl.maybe h he]
        · rw [hr.maybe h he]; cases sem doc l <;> rfl
      · next h3 =>
        have side : ∀ (q : Query O) (X : TV × PData), Means P doc (noPos = false ∧ ts = false) q X → X.1 ≠ .maybe →
            ∃ S, sem doc q = some (X.2.width, S) ∧ (∀ p, S p ↔ denote X.2 p) ∧ (sem.nowhere (sem doc q) ↔ X.1 = .no) ∧
              X.2.width ≤ q.dist := by
          intro q X hX hne
          rcases tv_cases X.1 with h | h | h
          · obtain ⟨n1, n2, S, n3, n4⟩ := hX.no h
            exact ⟨S, n3, fun p => by simp [denote, n1, n2, posZ, n4], by simp [h, nowhere_of_no hX h], hX.width hne⟩
          · obtain ⟨S, n3, -, n4⟩ := hX.yes h
            exact ⟨S, n3, n4, by simp [h, not_nowhere_of_yes hX h], hX.width hne⟩
          · exact absurd h hne
        obtain ⟨SL, eL, dL, nL, wl⟩ := side l L hl (fun h => h3 (Or.inl h))
        obtain ⟨SR, eR, dR, nR, wr⟩ := side r R hr (fun h => h3 (Or.inr h))
        generalize hLd : (if L.1 = .no then { L.2 with width := 0 } else L.2 : PData) = Ld
        generalize hRd : (if R.1 = .no then { R.2 with width := 0 } else R.2 : PData) = Rd
        have gL : Good (P + l.dist) Ld.pos := by rw [← hLd]; split <;> exact hl.good
        have gR : Good (P + r.dist) Rd.pos := by rw [← hRd]; split <;> exact hr.good
        have wL : Ld.width = if L.1 = .no then 0 else L.2.width := by rw [← hLd]; split <;> rfl
        have wR : Rd.width = if R.1 = .no then 0 else R.2.width := by rw [← hRd]; split <;> rfl
        have dL' : ∀ p, denote Ld p ↔ SL p := by intro p; rw [dL, ← hLd]; split <;> simp [denote]
        have dR' : ∀ p, denote Rd p ↔ SR p := by intro p; rw [dR, ← hRd]; split <;> simp [denote]
        have bL : Ld.width ≤ l.dist := by rw [wL]; split <;> omega
        have bR : Rd.width ≤ r.dist := by rw [wR]; split <;> omega
        have hs := orOutput_spec (B := P + (Query.or l r).dist) Ld Rd (max Ld.width Rd.width - Ld.width)
          (max Ld.width Rd.width - Rd.width)
          (max Ld.width Rd.width) gL gR (by simp only [Query.dist]; omega)
          (by simp only [Query.dist]; omega) (by simp only [Query.dist]; omega)
        refine means_of_stands hs ?_ (by simp only [Query.dist]; omega)
        simp only [sem]
        rw [if_neg (by rw [nL, nR]; exact h1)]
        rw [eL] at nL; rw [eR] at nR
        simp only [eL, eR, nL, nR, ← wL, ← wR, Option.some.injEq, Prod.mk.injEq, true_and]
        funext p
        simp only [dL', dR']

end Rum.Ts

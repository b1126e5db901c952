import Verif.InvTsquery
/- Helper lemmas for inverted full-text search. -/
namespace Rum.Inv
open Rum.Codec

theorem decodeGo_encodeVar (n : Nat) : ∀ (k i acc : Nat) (rest : List Nat), acc < 2 ^ i →
    acc + n * 2 ^ i < 2 ^ 32 → n < 2 ^ (7 * (k + 1)) →
    decodeGo k i acc (encodeVar n ++ rest) = some (acc + n * 2 ^ i, rest) := by
  induction n using Nat.strongRecOn with
  | _ n ih =>
    intro k i acc rest hacc hlt hk
    rw [encodeVar]
    have hr : n % 128 < 128 := Nat.mod_lt _ (by decide)
    have hs := split7 n (2 ^ i)
    by_cases hn : n > 0x7f
    · simp only [hn, dite_true, List.cons_append]
      rw [decodeGo.eq_def]; simp only
      have hb := byte_hi _ hr
      have hb1 := hb.1
      rw [Nat.or_comm (0x80), and7f n]
      rw [hb1]
      have hle : n % 128 * 2 ^ i < 2 ^ 32 := by
        have : n / 128 * (2 ^ i * 128) ≥ 0 := Nat.zero_le _
        omega
      have hmod : ((n % 128) <<< i) % 2 ^ 32 = (n % 128) <<< i := by rw [Nat.shiftLeft_eq]; exact Nat.mod_eq_of_lt hle
      rw [hmod, or_shift _ _ _ hacc]
      cases k with
      | zero => simp at hk; omega
      | succ k =>
        simp only
        rw [if_pos hb.2.1]
        have hsr : n >>> 7 = n / 128 := by rw [Nat.shiftRight_eq_div_pow]
        have hp := pow_succ7 i
        rw [hsr, ih (n / 128) (by omega) k (i + 7) _ rest]
        · rw [hp]; congr 2; omega
        · rw [hp]
          have : n % 128 * 2 ^ i ≤ 127 * 2 ^ i := Nat.mul_le_mul_right _ (by omega)
          omega
        · rw [hp]; omega
        · have : 2 ^ (7 * (k + 1 + 1)) = 2 ^ (7 * (k + 1)) * 128 := by
            rw [show 7 * (k + 1 + 1) = 7 * (k + 1) + 7 by omega, Nat.pow_add]
          omega
    · have hn' : n < 128 := by omega
      simp only [hn, dite_false, List.cons_append, List.nil_append]
      rw [decodeGo.eq_def]; simp only
      have hb := byte_lo n hn'
      have hmod : (n <<< i) % 2 ^ 32 = n <<< i := by
        rw [Nat.shiftLeft_eq]; exact Nat.mod_eq_of_lt (by omega)
      rw [hb.1, hmod, or_shift _ _ _ hacc]
      cases k with
      | zero => rfl
      | succ k => simp [hb.2]

theorem decodeVar_encodeVar (n : Nat) (rest : List Nat) (h : n < 2 ^ 32) :
    decodeVar (encodeVar n ++ rest) = some (n, rest) := by
  have := decodeGo_encodeVar n 4 0 0 rest (by simp) (by simpa using h)
    (Nat.lt_of_lt_of_le h (Nat.pow_le_pow_right (by decide) (by decide)))
  simpa [decodeVar] using this

theorem encodeVar_ne_nil (n : Nat) : encodeVar n ≠ [] := by
  rw [encodeVar]; split <;> simp

theorem encSum_val (s : Int) (neg : Bool) :
    encSum s neg = s.natAbs * 4 + (if s < 0 then 2 else 0) + (if neg then 1 else 0) := by
  unfold encSum
  have h1 : ∀ a b : Nat, b < 4 → (a <<< 2) ||| b = a * 4 + b := by
    intro a b hb
    rw [← Nat.shiftLeft_add_eq_or_of_lt (by simpa using hb), Nat.shiftLeft_eq]
  rw [Nat.or_assoc]
  split <;> split <;> rw [h1 _ _ (by decide)] <;> simp

theorem and2_ne (v : Nat) : (v &&& 2 ≠ 0) ↔ v / 2 % 2 = 1 := by
  have h : v &&& 2 = 2 * (v / 2 % 2) := by
    have := Nat.and_div_two_pow (a := v) (b := 2) (n := 1)
    have h2 : (v &&& 2) % 2 = 0 := by
      have := Nat.and_mod_two_pow (a := v) (b := 2) (n := 1)
      simpa using this
    have h3 : (v / 2) &&& 1 = v / 2 % 2 := Nat.and_two_pow_sub_one_eq_mod _ 1
    simp only [Nat.pow_one, Nat.div_self (by decide : 0 < 2)] at this
    rw [h3] at this
    omega
  omega

theorem encSum_dec (s : Int) (neg : Bool) :
    ((encSum s neg &&& 1 ≠ 0) ↔ neg = true) ∧
    (if encSum s neg &&& 2 ≠ 0 then -(Int.ofNat (encSum s neg >>> 2)) else Int.ofNat (encSum s neg >>> 2)) = s := by
  have h1 : encSum s neg &&& 1 = encSum s neg % 2 := Nat.and_two_pow_sub_one_eq_mod _ 1
  have h3 : encSum s neg >>> 2 = encSum s neg / 4 := by rw [Nat.shiftRight_eq_div_pow]
  simp only [and2_ne, h1, h3]
  rw [encSum_val s neg]
  by_cases hs : s < 0 <;> cases neg <;> simp [hs] <;> omega

variable {L : Type} [DecidableEq L]

/-! ### From bytes to path elements -/

def runElems : St → List (Nat × Nat) → Option St
  | st, [] => some st
  | st, (n, s) :: es => match stepElem st n s with
    | none => none
    | some st' => runElems st' es

def encElems : List (Nat × Nat) → List Nat
  | [] => []
  | (n, s) :: es => encodeVar n ++ encodeVar s ++ encElems es

theorem pathLoop_enc (es : List (Nat × Nat)) : ∀ (fuel : Nat) (st : St), es.length ≤ fuel →
    (∀ e ∈ es, e.1 < 2 ^ 32 ∧ e.2 < 2 ^ 32) → pathLoop fuel st (encElems es) = runElems st es := by
  induction es with
  | nil => intro fuel st _ _; cases fuel <;> rfl
  | cons e es ih =>
    intro fuel st hf hb
    obtain ⟨n, s⟩ := e
    obtain ⟨h1, h2⟩ := hb (n, s) (by simp)
    cases fuel with
    | zero => simp at hf
    | succ fuel =>
      have hne : encElems ((n, s) :: es) ≠ [] := by simp [encElems, encodeVar_ne_nil]
      have hd := decodeVar_encodeVar n (encodeVar s ++ encElems es) h1
      have hd2 := decodeVar_encodeVar s (encElems es) h2
      have he : encElems ((n, s) :: es) = encodeVar n ++ (encodeVar s ++ encElems es) := by simp [encElems]
      rw [he] at hne ⊢
      generalize encodeVar n ++ (encodeVar s ++ encElems es) = bs at hne hd
      cases bs with
      | nil => exact absurd rfl hne
      | cons b bs =>
        simp only [pathLoop, hd, hd2, runElems]
        cases stepElem st n s with
        | none => rfl
        | some st' => exact ih fuel st' (by simp at hf; omega) (fun e he => hb e (by simp [he]))

def elems (neg : Bool) : List (Nat × Int) → List (Nat × Nat)
  | [] => []
  | (n, s) :: up => (n, encSum s neg) :: up.map (fun p => (p.1, encSum p.2 false))

theorem encodeUp_eq (up : List (Nat × Int)) :
    encodeUp up = encElems (up.map (fun p => (p.1, encSum p.2 false))) := by
  induction up with
  | nil => rfl
  | cons p up ih => obtain ⟨n, s⟩ := p; simp [encodeUp, encElems, ih]

theorem encodePath_eq (neg : Bool) (up : List (Nat × Int)) (h : up ≠ []) :
    encodePath neg up = encElems (elems neg up) := by
  cases up with
  | nil => exact absurd rfl h
  | cons p up => obtain ⟨n, s⟩ := p; simp [encodePath, elems, encElems, encodeUp_eq]

theorem encElems_append (a b : List (Nat × Nat)) : encElems (a ++ b) = encElems a ++ encElems b := by
  induction a with
  | nil => rfl
  | cons e a ih => obtain ⟨n, s⟩ := e; simp [encElems, ih]

theorem runElems_append (a b : List (Nat × Nat)) : ∀ st, runElems st (a ++ b) = (runElems st a).bind (runElems · b) := by
  induction a with
  | nil => intro st; rfl
  | cons e a ih =>
    intro st; obtain ⟨n, s⟩ := e
    simp only [List.cons_append, runElems]
    cases stepElem st n s with
    | none => rfl
    | some st' => exact ih st'

theorem encElems_length (es : List (Nat × Nat)) : es.length ≤ (encElems es).length := by
  induction es with
  | nil => simp
  | cons e es ih =>
    obtain ⟨n, s⟩ := e
    have := List.length_pos_iff.2 (encodeVar_ne_nil n)
    simp [encElems]; omega

/-! ### One path -/

/-- A path (lexeme, negated, operators above) as extracted. -/
abbrev Path (L : Type) := L × Bool × List (Nat × Int)

def upOK (ini par : Nat → Int) : List (Nat × Int) → Prop
  | [] => False
  | [(n, s)] => n = 1 ∧ s = ini 1 ∧ par 1 = -1
  | (n, s) :: (m, t) :: up => 2 ≤ n ∧ n ≤ 256 ∧ s = ini n ∧ par n = (m : Int) - 1 ∧ 1 ≤ m ∧ m < n ∧
      upOK ini par ((m, t) :: up)

structure Rep (par : Nat → Int) (W : Nat → Prop) (S : Nat → Int) (exc : Option Nat) (f : Nat → Node) (last : Nat) :
    Prop where
  vis : ∀ n, 1 ≤ n → W n → n ≤ last ∧ (f (n - 1)).sum = S n ∧ (f (n - 1)).neg = false ∧
    ((f (n - 1)).parent = par n ∨ (exc = some n ∧ (f (n - 1)).parent = -1))
  unvis : ∀ n, 1 ≤ n → ¬ W n → n ≤ last → (f (n - 1)).parent = -2

theorem Rep.grow {par W S exc f last} (h : Rep par W S exc f last) (num : Nat) :
    Rep par W S exc (grow f last num) (max last num) := by
  constructor
  · intro n hn hW
    obtain ⟨a, b⟩ := h.vis n hn hW
    have : ¬ (last ≤ n - 1 ∧ n - 1 < num) := by omega
    simp only [Inv.grow, this, if_false]
    exact ⟨by omega, b⟩
  · intro n hn hW hl
    have := h.unvis n hn hW
    simp only [Inv.grow]
    split
    · rfl
    · exact this (by omega)

theorem Rep.init {par W S f last} (h : Rep par W S none f last) (hpar : ∀ m, par m ≠ -2) (n : Nat) (s : Int)
    (hn : 1 ≤ n) (hl : n ≤ last) (hs : ¬ W n → S n = s) :
    Rep par (fun m => W m ∨ m = n) S (some n) (initNode f (n - 1) s) last := by
  unfold initNode
  by_cases hW : W n
  · obtain ⟨_, _, _, d⟩ := h.vis n hn hW
    have d' : (f (n - 1)).parent = par n := by simpa using d
    rw [if_neg (by rw [d']; exact hpar n)]
    constructor
    · intro m hm hWm
      have hWm : W m := by rcases hWm with h | rfl <;> assumption
      obtain ⟨a, b, c, d⟩ := h.vis m hm hWm
      exact ⟨a, b, c, Or.inl (by simpa using d)⟩
    · intro m hm hWm
      exact h.unvis m hm (fun h => hWm (Or.inl h))
  · rw [if_pos (h.unvis n hn hW hl)]
    constructor
    · intro m hm hWm
      unfold setNode
      by_cases hmn : m = n
      · subst hmn
        simp [hs hW, hl]
      · have hWm : W m := by rcases hWm with h | h; exact h; exact absurd h hmn
        obtain ⟨a, b, c, d⟩ := h.vis m hm hWm
        rw [if_neg (by omega)]
        exact ⟨a, b, c, Or.inl (by simpa using d)⟩
    · intro m hm hWm
      have h1 : ¬ W m := fun h => hWm (Or.inl h)
      have h2 : m ≠ n := fun h => hWm (Or.inr h)
      unfold setNode
      rw [if_neg (by omega)]
      exact h.unvis m hm h1

theorem Rep.bump {par W S exc f last} (h : Rep par W S exc f last) (n : Nat) (neg : Bool) (hn : 1 ≤ n) (hW : W n) :
    Rep par W (fun m => S m + (if n = m then (if neg then -1 else 1) else 0)) exc (bump f (n - 1) neg) last := by
  constructor
  · intro m hm hWm
    obtain ⟨a, b, c, d⟩ := h.vis m hm hWm
    unfold Inv.bump setNode
    by_cases hmn : n = m
    · subst hmn
      simp only [if_true]
      refine ⟨a, ?_, c, d⟩
      rw [b]
      split <;> omega
    · rw [if_neg (by omega)]
      simp only [hmn, if_false]
      exact ⟨a, by omega, c, d⟩
  · intro m hm hWm hl
    unfold Inv.bump setNode
    by_cases hmn : n = m
    · subst hmn; exact absurd hW hWm
    · rw [if_neg (by omega)]; exact h.unvis m hm hWm hl

theorem Rep.setParent {par W S f last} (c : Nat) (h : Rep par W S (some c) f last) (index : Nat) (hc : 1 ≤ c)
    (hW : W c) (hp : par c = index) : Rep par W S none (setParent f (c - 1) index false) last := by
  constructor
  · intro m hm hWm
    obtain ⟨a, b, d, e⟩ := h.vis m hm hWm
    unfold Inv.setParent setNode
    by_cases hmn : m = c
    · subst hmn; simp [a, b, hp]
    · rw [if_neg (by omega)]
      refine ⟨a, b, d, ?_⟩
      rcases e with e | ⟨e, _⟩
      · exact Or.inl e
      · simp at e; exact absurd e.symm hmn
  · intro m hm hWm hl
    unfold Inv.setParent setNode
    by_cases hmn : m = c
    · subst hmn; exact absurd hW hWm
    · rw [if_neg (by omega)]; exact h.unvis m hm hWm hl

theorem Rep.drop {par W S f last} (h : Rep par W S (some 1) f last) (hp : par 1 = -1) : Rep par W S none f last := by
  constructor
  · intro m hm hWm
    obtain ⟨a, b, d, e⟩ := h.vis m hm hWm
    refine ⟨a, b, d, ?_⟩
    rcases e with e | ⟨e, e'⟩
    · exact Or.inl e
    · simp at e; subst e; left; rw [e', hp]
  · exact h.unvis

theorem Rep.congr {par W S W' S' exc f last} (h : Rep par W S exc f last) (hW : ∀ n, W n ↔ W' n) (hS : ∀ n, S n = S' n) :
    Rep par W' S' exc f last := by
  have e1 : W = W' := funext fun n => propext (hW n)
  have e2 : S = S' := funext hS
  subst e1; subst e2; exact h

/-- The elements of a path above its first operator. -/
theorem run_up (ini par : Nat → Int) (S : Nat → Int) (hpar : ∀ m, par m ≠ -2) (up : List (Nat × Int)) :
    ∀ (n : Nat) (s : Int) (W : Nat → Prop) (st : St), upOK ini par ((n, s) :: up) →
      Rep par W S (some n) st.nodes st.last → W n →
      (∀ m, ¬ W m → S m = ini m) → st.child = (if n = 1 then none else some (n - 1)) →
      ∃ st', runElems st (up.map (fun p => (p.1, encSum p.2 false))) = some st' ∧ st'.child = none ∧
        Rep par (fun m => W m ∨ ∃ p ∈ up, p.1 = m) S none st'.nodes st'.last := by
  induction up with
  | nil =>
    intro n s W st hup hrep hW hS hc
    obtain ⟨rfl, _, hp⟩ := hup
    exact ⟨st, rfl, by simpa using hc, by simpa using hrep.drop hp⟩
  | cons e up ih =>
    intro n s W st hup hrep hW hS hc
    obtain ⟨m, t⟩ := e
    obtain ⟨h2, h256, hs, hp, hm1, hmn, hrest⟩ := hup
    rw [if_neg (by omega)] at hc
    have ht : t = ini m := by
      cases up with
      | nil => obtain ⟨rfl, h, _⟩ := hrest; exact h
      | cons _ _ => exact hrest.2.2.1
    obtain ⟨d1, d2⟩ := encSum_dec t false
    have hneg : (decide (encSum t false &&& 1 ≠ 0)) = false := by
      rw [decide_eq_false_iff_not]; intro h; have := d1.1 h; cases this
    have hstep : stepElem st m (encSum t false) = some ⟨initNode (Inv.grow (Inv.setParent st.nodes (n - 1) (m - 1) false)
        st.last m) (m - 1) t, max st.last m, if m - 1 = 0 then none else some (m - 1)⟩ := by
      unfold stepElem
      rw [if_neg (by omega)]
      simp only [hc, d2, hneg]
    have r1 := (hrep.setParent n (m - 1) (by omega) hW (by omega)).grow m
    have r2 := r1.init hpar m t hm1 (by omega) (fun h => by rw [hS m h, ht])
    obtain ⟨st', e1, e2, e3⟩ := ih m t (fun k => W k ∨ k = m) ⟨_, _, if m - 1 = 0 then none else some (m - 1)⟩ hrest r2 (Or.inr rfl)
      (fun k hk => hS k (fun h => hk (Or.inl h))) (by
        by_cases h : m = 1
        · simp [h]
        · simp [h, show m - 1 ≠ 0 by omega])
    refine ⟨st', ?_, e2, e3.congr ?_ (fun _ => rfl)⟩
    · simp only [List.map_cons, runElems, hstep]; exact e1
    · intro k; simp only [List.mem_cons]; grind

theorem run_path (ini par : Nat → Int) (S : Nat → Int) (hpar : ∀ m, par m ≠ -2) (neg : Bool) (up : List (Nat × Int))
    (n0 : Nat) (W : Nat → Prop) (st : St) (hup : upOK ini par up) (hn0 : up.head?.map (·.1) = some n0)
    (hrep : Rep par W S none st.nodes st.last) (hS : ∀ m, ¬ W m → S m = ini m) (hc : st.child = none) :
    ∃ st', runElems st (elems neg up) = some st' ∧ st'.child = none ∧
      Rep par (fun m => W m ∨ ∃ p ∈ up, p.1 = m) (fun m => S m + (if n0 = m then (if neg then -1 else 1) else 0))
        none st'.nodes st'.last := by
  cases up with
  | nil => exact absurd hup (by simp [upOK])
  | cons e up =>
    obtain ⟨n, s⟩ := e
    simp at hn0; subst hn0
    have hs : s = ini n ∧ 1 ≤ n ∧ n ≤ 256 := by
      cases up with
      | nil => obtain ⟨rfl, h, _⟩ := hup; exact ⟨h, by omega, by omega⟩
      | cons _ _ => exact ⟨hup.2.2.1, by have := hup.1; omega, hup.2.1⟩
    obtain ⟨d1, d2⟩ := encSum_dec s neg
    have hneg : (decide (encSum s neg &&& 1 ≠ 0)) = neg := by
      cases neg <;> simp_all
    have hstep : stepElem st n (encSum s neg) = some ⟨Inv.bump (initNode (Inv.grow st.nodes st.last n) (n - 1) s) (n - 1) neg,
        max st.last n, if n - 1 = 0 then none else some (n - 1)⟩ := by
      unfold stepElem
      rw [if_neg (by omega)]
      simp only [hc, d2, hneg]
    have r1 := ((hrep.grow n).init hpar n s hs.2.1 (by omega) (fun h => by rw [hS n h, hs.1])).bump n neg hs.2.1 (Or.inr rfl)
    obtain ⟨st', e1, e2, e3⟩ := run_up ini par _ hpar up n s (fun k => W k ∨ k = n)
      ⟨_, _, if n - 1 = 0 then none else some (n - 1)⟩ hup r1 (Or.inr rfl)
      (fun k hk => by
        have h1 : ¬ W k := fun h => hk (Or.inl h)
        have h2 : ¬ n = k := fun h => hk (Or.inr h.symm)
        simp [h2, hS k h1]) (by
        by_cases h : n = 1
        · simp [h]
        · simp [h, show n - 1 ≠ 0 by omega])
    refine ⟨st', ?_, e2, e3.congr ?_ (fun _ => rfl)⟩
    · simp only [elems, runElems, hstep]; exact e1
    · intro k; simp only [List.mem_cons]; grind

end Rum.Inv

import Verif.Bulk
import Verif.EntryTreeInsert
import Mathlib.Data.Nat.Bitwise
import Mathlib.Algebra.Ring.Parity
import Mathlib.Tactic.Ring
import Mathlib.Data.Nat.Factorization.Basic
/-!
# Lemmas about the accumulator of CREATE INDEX
-/
namespace Rum.Index
open Rum Rum.Codec Rum.Leaf Rum.Extract Std

variable {V : Type}

/-! ### The order of visits -/

theorem mem_innerVisits (n step : Nat) (hs : 0 < step) : ∀ i j, j ∈ innerVisits n step i ↔ j < n ∧ ∃ q, j = i + q * (2 * step) := by
  intro i
  induction i using innerVisits.induct n step with
  | case1 i h ih =>
    intro j
    rw [innerVisits, dif_pos h, List.mem_cons, ih]
    constructor
    · rintro (rfl | ⟨h1, q, rfl⟩)
      · exact ⟨h.1, 0, by simp⟩
      · exact ⟨h1, q + 1, by ring⟩
    · rintro ⟨h1, q, rfl⟩
      cases q with
      | zero => left; simp
      | succ q => right; exact ⟨h1, q, by ring⟩
  | case2 i h =>
    intro j
    rw [innerVisits, dif_neg h]
    constructor
    · simp
    · rintro ⟨h1, q, rfl⟩
      exact absurd ⟨Nat.lt_of_le_of_lt (Nat.le_add_right _ _) h1, hs⟩ h

theorem nodup_innerVisits (n step : Nat) (hs : 0 < step) (i : Nat) : (innerVisits n step i).Nodup := by
  induction i using innerVisits.induct n step with
  | case1 i h ih =>
    rw [innerVisits, dif_pos h, List.nodup_cons]
    refine ⟨fun hm => ?_, ih⟩
    obtain ⟨-, q, e⟩ := (mem_innerVisits n step hs _ _).1 hm
    omega
  | case2 i h => rw [innerVisits, dif_neg h]; simp

theorem mem_visits (n : Nat) : ∀ h j, j ∈ visits n (2 ^ h) ↔ j < n ∧ ∃ a ≤ h, ∃ q, j + 1 = 2 ^ a * (2 * q + 1) := by
  intro h
  induction h with
  | zero =>
    intro j
    rw [visits, dif_pos (by simp), List.mem_append, mem_innerVisits _ _ (by simp), visits, dif_neg (by simp)]
    simp only [pow_zero, List.not_mem_nil, or_false]
    refine and_congr_right fun _ => ⟨?_, ?_⟩
    · rintro ⟨q, rfl⟩; exact ⟨0, by simp, q, by simp; omega⟩
    · rintro ⟨a, ha, q, e⟩
      obtain rfl : a = 0 := by omega
      exact ⟨q, by simp at e; omega⟩
  | succ h ih =>
    intro j
    have hp : 0 < 2 ^ (h + 1) := Nat.two_pow_pos _
    rw [visits, dif_pos hp, List.mem_append, mem_innerVisits _ _ hp,
      show 2 ^ (h + 1) / 2 = 2 ^ h by rw [pow_succ]; omega, ih]
    constructor
    · rintro (⟨h1, q, e⟩ | ⟨h1, a, ha, q, e⟩)
      · refine ⟨h1, h + 1, Nat.le_refl _, q, ?_⟩
        have : 2 ^ (h + 1) * (2 * q + 1) = 2 ^ (h + 1) + q * (2 * 2 ^ (h + 1)) := by ring
        omega
      · exact ⟨h1, a, by omega, q, e⟩
    · rintro ⟨h1, a, ha, q, e⟩
      by_cases hah : a = h + 1
      · subst hah
        left
        refine ⟨h1, q, ?_⟩
        have : 2 ^ (h + 1) * (2 * q + 1) = 2 ^ (h + 1) + q * (2 * 2 ^ (h + 1)) := by ring
        omega
      · exact Or.inr ⟨h1, a, by omega, q, e⟩

theorem odd_part {a b q r : Nat} (h : 2 ^ a * (2 * q + 1) = 2 ^ b * (2 * r + 1)) (hab : a < b) : False := by
  obtain ⟨c, rfl⟩ := Nat.exists_eq_add_of_lt hab
  rw [show 2 ^ (a + c + 1) * (2 * r + 1) = 2 ^ a * (2 * (2 ^ c * (2 * r + 1))) by ring] at h
  have := Nat.eq_of_mul_eq_mul_left (Nat.two_pow_pos a) h
  omega

theorem nodup_visits (n : Nat) : ∀ h, (visits n (2 ^ h)).Nodup := by
  intro h
  induction h with
  | zero =>
    rw [visits, dif_pos (by simp), visits, dif_neg (by simp), List.append_nil]
    exact nodup_innerVisits _ _ (by simp) _
  | succ h ih =>
    have hp : 0 < 2 ^ (h + 1) := Nat.two_pow_pos _
    rw [visits, dif_pos hp, show 2 ^ (h + 1) / 2 = 2 ^ h by rw [pow_succ]; omega, List.nodup_append]
    refine ⟨nodup_innerVisits _ _ hp _, ih, ?_⟩
    intro i hi j hj hij
    subst hij
    obtain ⟨-, q, e⟩ := (mem_innerVisits n _ hp _ _).1 hi
    obtain ⟨-, a, ha, r, e'⟩ := (mem_visits n h _).1 hj
    refine odd_part (a := a) (b := h + 1) (q := r) (r := q) ?_ (by omega)
    have : 2 ^ (h + 1) * (2 * q + 1) = 2 ^ (h + 1) + q * (2 * 2 ^ (h + 1)) := by ring
    omega

/-- With a first step that is the greatest power of two not above `n`, every index is visited exactly once. -/
theorem visits_perm {n h : Nat} (hn : n < 2 ^ (h + 1)) : (visits n (2 ^ h)).Perm (List.range n) := by
  rw [List.perm_ext_iff_of_nodup (nodup_visits n h) List.nodup_range]
  intro j
  rw [mem_visits, List.mem_range]
  refine ⟨fun h => h.1, fun hj => ⟨hj, ?_⟩⟩
  obtain ⟨a, m, hm, e⟩ := Nat.exists_eq_two_pow_mul_odd (n := j + 1) (by omega)
  obtain ⟨q, rfl⟩ := hm
  refine ⟨a, ?_, q, e⟩
  by_contra hlt
  have h1 : 2 ^ (h + 1) ≤ 2 ^ a := Nat.pow_le_pow_right (by omega) (by omega)
  have h2 : 2 ^ a ≤ 2 ^ a * (2 * q + 1) := Nat.le_mul_of_pos_right _ (by omega)
  omega

theorem topStep_eq {n : Nat} (hn : 0 < n) (h32 : n < 2 ^ 32) : topStep n = 2 ^ n.log2 := by
  have hb : ∀ i, n.testBit i = true → i ≤ n.log2 := by
    intro i hi
    by_contra hlt
    have h1 : n < 2 ^ i := Nat.lt_of_lt_of_le Nat.lt_log2_self (Nat.pow_le_pow_right (by omega) (by omega))
    rw [Nat.testBit_lt_two_pow h1] at hi
    cases hi
  have ht : n.testBit n.log2 = true := Nat.testBit_log2 (by omega)
  have hl : n.log2 < 32 := (Nat.log2_lt (by omega)).2 h32
  have key : ∀ s s' w : Nat, (∀ i, s.testBit i = true ↔ ∃ j < w, n.testBit (i + j) = true) → s' = s ||| (s >>> w) →
      ∀ i, s'.testBit i = true ↔ ∃ j < 2 * w, n.testBit (i + j) = true := by
    rintro s s' w hs rfl i
    rw [Nat.testBit_lor, Nat.testBit_shiftRight, Bool.or_eq_true, hs, hs]
    constructor
    · rintro (⟨j, hj, h⟩ | ⟨j, hj, h⟩)
      · exact ⟨j, by omega, h⟩
      · exact ⟨w + j, by omega, by rwa [show i + (w + j) = w + i + j by omega]⟩
    · rintro ⟨j, hj, h⟩
      by_cases hjw : j < w
      · exact Or.inl ⟨j, hjw, h⟩
      · exact Or.inr ⟨j - w, by omega, by rwa [show w + i + (j - w) = i + j by omega]⟩
  have h0 : ∀ i, n.testBit i = true ↔ ∃ j < 1, n.testBit (i + j) = true := by
    intro i
    constructor
    · intro h; exact ⟨0, by omega, h⟩
    · rintro ⟨j, hj, h⟩
      obtain rfl : j = 0 := by omega
      exact h
  have h1 := key n _ 1 h0 rfl
  have h2 := key _ _ 2 h1 rfl
  have h4 := key _ _ 4 h2 rfl
  have h8 := key _ _ 8 h4 rfl
  have h16 := key _ _ 16 h8 rfl
  unfold topStep
  simp only
  generalize hS : ((((n ||| n >>> 1) ||| (n ||| n >>> 1) >>> 2) ||| ((n ||| n >>> 1) ||| (n ||| n >>> 1) >>> 2) >>> 4) |||
    (((n ||| n >>> 1) ||| (n ||| n >>> 1) >>> 2) ||| ((n ||| n >>> 1) ||| (n ||| n >>> 1) >>> 2) >>> 4) >>> 8) = s8 at h16 ⊢
  have hfull : s8 ||| s8 >>> 16 = 2 ^ (n.log2 + 1) - 1 := by
    refine Nat.eq_of_testBit_eq fun i => ?_
    rw [Nat.testBit_two_pow_sub_one, Bool.eq_iff_iff, h16, decide_eq_true_eq]
    constructor
    · rintro ⟨j, -, h⟩
      have := hb _ h
      omega
    · intro h
      refine ⟨n.log2 - i, by omega, ?_⟩
      rw [show i + (n.log2 - i) = n.log2 by omega]
      exact ht
  rw [hfull, Nat.shiftRight_one]
  have : 0 < 2 ^ n.log2 := Nat.two_pow_pos _
  rw [pow_succ]
  omega

/-- rumInsertBAEntries visits every entry exactly once. -/
theorem visits_all {n : Nat} (hn : 0 < n) (h32 : n < 2 ^ 32) : (visits n (topStep n)).Perm (List.range n) := by
  rw [topStep_eq hn h32]
  exact visits_perm Nat.lt_log2_self


/-! ### The accumulator -/

/-- What the accumulator holds after the entries `E`. -/
structure AccInv (ix : Ix V) (acc : List (Acc V)) (E : List (AttKey V × Item Datum)) : Prop where
  keys : acc.Pairwise (fun a b => cmpAttEntries ix.cmpK a.key b.key = .lt)
  list : ∀ n ∈ acc, n.list = (E.filter (fun e => cmpAttEntries ix.cmpK e.1 n.key == .eq)).map Prod.snd
  key : ∀ n ∈ acc, n.list ≠ [] ∧ ∃ e ∈ E, e.1 = n.key
  cover : ∀ e ∈ E, ∃ n ∈ acc, cmpAttEntries ix.cmpK e.1 n.key = .eq
  flag : ∀ n ∈ acc, (ix.ctx n.key.attnum).cfg.alt = false → n.shouldSort = false →
    n.list.Pairwise (fun a b => cmpIptr a.iptr b.iptr ≠ .gt)

theorem accInv_nil (ix : Ix V) : AccInv ix [] [] := by
  refine ⟨?_, ?_, ?_, ?_, ?_⟩ <;> simp

theorem mem_baInsert {ix : Ix V} (hK : ∀ n, TransCmp (ix.cmpK n)) (k : AttKey V) (it : Item Datum) : ∀ acc : List (Acc V),
    acc.Pairwise (fun a b => cmpAttEntries ix.cmpK a.key b.key = .lt) →
    ((ix.baInsert k it acc).Pairwise (fun a b => cmpAttEntries ix.cmpK a.key b.key = .lt)) ∧
    ∀ n, n ∈ ix.baInsert k it acc ↔
      (∃ m ∈ acc, cmpAttEntries ix.cmpK k m.key = .eq ∧ n = ix.combine m it) ∨
      (n ∈ acc ∧ cmpAttEntries ix.cmpK k n.key ≠ .eq) ∨
      (n = ix.newAcc k it ∧ ∀ m ∈ acc, cmpAttEntries ix.cmpK k m.key ≠ .eq) := by
  intro acc
  induction acc with
  | nil => intro _; simp [Ix.baInsert]
  | cons a acc ih =>
    intro h
    obtain ⟨h1, h2⟩ := List.pairwise_cons.1 h
    rw [Ix.baInsert]
    cases hc : cmpAttEntries ix.cmpK k a.key with
    | lt =>
      have hall : ∀ m ∈ a :: acc, cmpAttEntries ix.cmpK k m.key = .lt := by
        intro m hm
        rcases List.mem_cons.1 hm with rfl | hm
        · exact hc
        · exact TransCmp.lt_trans (cmp := cmpAttEntries ix.cmpK) hc (h1 m hm)
      refine ⟨List.pairwise_cons.2 ⟨fun m hm => hall m hm, h⟩, fun n => ?_⟩
      simp only
      rw [List.mem_cons]
      constructor
      · rintro (rfl | hn)
        · exact Or.inr (Or.inr ⟨rfl, fun m hm => by rw [hall m hm]; simp⟩)
        · exact Or.inr (Or.inl ⟨hn, by rw [hall n hn]; simp⟩)
      · rintro (⟨m, hm, e, -⟩ | ⟨hn, -⟩ | ⟨rfl, -⟩)
        · rw [hall m hm] at e; cases e
        · exact Or.inr hn
        · exact Or.inl rfl
    | eq =>
      have hne : ∀ m ∈ acc, cmpAttEntries ix.cmpK k m.key ≠ .eq := by
        intro m hm
        rw [TransCmp.congr_left (cmp := cmpAttEntries ix.cmpK) hc, h1 m hm]; simp
      refine ⟨List.pairwise_cons.2 ⟨fun m hm => h1 m hm, h2⟩, fun n => ?_⟩
      simp only
      rw [List.mem_cons]
      constructor
      · rintro (rfl | hn)
        · exact Or.inl ⟨a, by simp, hc, rfl⟩
        · exact Or.inr (Or.inl ⟨by simp [hn], hne n hn⟩)
      · rintro (⟨m, hm, e, rfl⟩ | ⟨hn, e⟩ | ⟨-, e⟩)
        · rcases List.mem_cons.1 hm with rfl | hm
          · exact Or.inl rfl
          · exact absurd e (hne m hm)
        · rcases List.mem_cons.1 hn with rfl | hn
          · exact absurd hc e
          · exact Or.inr hn
        · exact absurd hc (e a (by simp))
    | gt =>
      obtain ⟨i1, i2⟩ := ih h2
      refine ⟨List.pairwise_cons.2 ⟨fun m hm => ?_, i1⟩, fun n => ?_⟩
      · rcases (i2 m).1 hm with ⟨m', hm', -, rfl⟩ | ⟨hm', -⟩ | ⟨rfl, -⟩
        · exact h1 m' hm'
        · exact h1 m hm'
        · exact OrientedCmp.lt_of_gt (cmp := cmpAttEntries ix.cmpK) hc
      · simp only
        rw [List.mem_cons, i2]
        constructor
        · rintro (rfl | ⟨m, hm, e, rfl⟩ | ⟨hn, e⟩ | ⟨rfl, e⟩)
          · exact Or.inr (Or.inl ⟨by simp, by rw [hc]; simp⟩)
          · exact Or.inl ⟨m, by simp [hm], e, rfl⟩
          · exact Or.inr (Or.inl ⟨by simp [hn], e⟩)
          · refine Or.inr (Or.inr ⟨rfl, fun m hm => ?_⟩)
            rcases List.mem_cons.1 hm with rfl | hm
            · rw [hc]; simp
            · exact e m hm
        · rintro (⟨m, hm, e, rfl⟩ | ⟨hn, e⟩ | ⟨rfl, e⟩)
          · rcases List.mem_cons.1 hm with rfl | hm
            · rw [hc] at e; cases e
            · exact Or.inr (Or.inl ⟨m, hm, e, rfl⟩)
          · rcases List.mem_cons.1 hn with rfl | hn
            · exact Or.inl rfl
            · exact Or.inr (Or.inr (Or.inl ⟨hn, e⟩))
          · exact Or.inr (Or.inr (Or.inr ⟨rfl, fun m hm => e m (by simp [hm])⟩))

theorem AccInv.insert {ix : Ix V} (hK : ∀ n, TransCmp (ix.cmpK n)) {acc : List (Acc V)} {E : List (AttKey V × Item Datum)} (h : AccInv ix acc E)
    (k : AttKey V) (it : Item Datum) : AccInv ix (ix.baInsert k it acc) (E ++ [(k, it)]) := by
  obtain ⟨m1, m2⟩ := mem_baInsert hK k it acc h.keys
  have hself : ∀ k : AttKey V, cmpAttEntries ix.cmpK k k = .eq := fun k => ReflCmp.compare_self (cmp := cmpAttEntries ix.cmpK)
  refine ⟨m1, fun n hn => ?_, fun n hn => ?_, fun e he => ?_, fun n hn ha hs => ?_⟩
  · rw [List.filter_append, List.map_append]
    rcases (m2 n).1 hn with ⟨m, hm, e, rfl⟩ | ⟨hm, e⟩ | ⟨rfl, e⟩
    · have := h.list m hm
      simp only [Ix.combine] at this ⊢
      rw [this]
      simp [e]
    · rw [h.list n hm]
      simp [e]
    · have hnil : E.filter (fun e => cmpAttEntries ix.cmpK e.1 k == .eq) = [] := by
        rw [List.filter_eq_nil_iff]
        intro e' he' hc
        obtain ⟨m, hm, e2⟩ := h.cover e' he'
        refine e m hm ?_
        rw [beq_iff_eq] at hc
        exact TransCmp.eq_trans (cmp := cmpAttEntries ix.cmpK) (OrientedCmp.eq_symm hc) e2
      simp only [Ix.newAcc]
      rw [hnil]
      simp [hself]
  · rcases (m2 n).1 hn with ⟨m, hm, e, rfl⟩ | ⟨hm, e⟩ | ⟨rfl, e⟩
    · obtain ⟨h1, e', h2, h3⟩ := h.key m hm
      exact ⟨by simp [Ix.combine], e', by simp [h2], by simpa [Ix.combine] using h3⟩
    · obtain ⟨h1, e', h2, h3⟩ := h.key n hm
      exact ⟨h1, e', by simp [h2], h3⟩
    · exact ⟨by simp [Ix.newAcc], (k, it), by simp, rfl⟩
  · have hold : ∀ m ∈ acc, ∃ n ∈ ix.baInsert k it acc, n.key = m.key := by
      intro m hm
      by_cases hc : cmpAttEntries ix.cmpK k m.key = .eq
      · exact ⟨_, (m2 _).2 (Or.inl ⟨m, hm, hc, rfl⟩), rfl⟩
      · exact ⟨m, (m2 m).2 (Or.inr (Or.inl ⟨hm, hc⟩)), rfl⟩
    rcases List.mem_append.1 he with he | he
    · obtain ⟨m, hm, e2⟩ := h.cover e he
      obtain ⟨n, hn, e3⟩ := hold m hm
      exact ⟨n, hn, by rw [e3]; exact e2⟩
    · obtain rfl : e = (k, it) := by simpa using he
      by_cases hex : ∃ m ∈ acc, cmpAttEntries ix.cmpK k m.key = .eq
      · obtain ⟨m, hm, e2⟩ := hex
        obtain ⟨n, hn, e3⟩ := hold m hm
        exact ⟨n, hn, by rw [e3]; exact e2⟩
      · exact ⟨_, (m2 _).2 (Or.inr (Or.inr ⟨rfl, fun m hm hc => hex ⟨m, hm, hc⟩⟩)), hself k⟩
  · rcases (m2 n).1 hn with ⟨m, hm, e, rfl⟩ | ⟨hm, e⟩ | ⟨rfl, e⟩
    · simp only [Ix.combine] at ha hs ⊢
      have hms : m.shouldSort = false := by
        by_contra hc
        rw [if_neg (fun hh => hc hh.2)] at hs
        exact hc hs
      have hp := h.flag m hm ha hms
      rw [if_pos ⟨ha, hms⟩] at hs
      rw [List.pairwise_append]
      refine ⟨hp, by simp, fun a hma b hb => ?_⟩
      obtain rfl : b = it := by simpa using hb
      obtain ⟨l, hl⟩ : ∃ l, m.list.getLast? = some l := by
        cases hg : m.list.getLast? with
        | none => rw [List.getLast?_eq_none_iff] at hg; exact absurd hg (h.key m hm).1
        | some l => exact ⟨l, rfl⟩
      rw [hl] at hs
      simp only at hs
      have hle : cmpIptr l.iptr b.iptr ≠ .gt := by intro hc; rw [hc] at hs; cases hs
      have hal : cmpIptr a.iptr l.iptr ≠ .gt := by
        obtain ⟨pre, hpre⟩ := List.getLast?_eq_some_iff.1 hl
        rw [hpre] at hma hp
        rcases List.mem_append.1 hma with hma | hma
        · exact (List.pairwise_append.1 hp).2.2 a hma l (by simp)
        · obtain rfl : a = l := by simpa using hma
          rw [ReflCmp.compare_self (cmp := cmpIptr)]; simp
      rw [ne_eq, ← Ordering.isLE_iff_ne_gt] at hle hal ⊢
      exact TransCmp.isLE_trans hal hle
    · exact h.flag n hm ha hs
    · simp [Ix.newAcc]

/-- Several entries, one after the other. -/
theorem AccInv.foldl {ix : Ix V} (hK : ∀ n, TransCmp (ix.cmpK n)) (L : List (AttKey V × Item Datum)) : ∀ {acc : List (Acc V)}
    {E : List (AttKey V × Item Datum)}, AccInv ix acc E → AccInv ix (L.foldl (fun acc e => ix.baInsert e.1 e.2 acc) acc) (E ++ L) := by
  induction L with
  | nil => intro acc E h; simpa using h
  | cons e L ih =>
    intro acc E h
    simpa using ih (h.insert hK e.1 e.2)

/-- The entries of one column of a row in the order in which they are put into the accumulator. -/
theorem baInsertEntries_eq (ix : Ix V) [Inhabited V] (a : Nat) (tid : Iptr) (acc : List (Acc V)) (es : List (Out V Datum)) (h : es.length < 2 ^ 32) :
    ∃ L : List (AttKey V × Item Datum), L.Perm (es.map (fun o => (outKey a o, (⟨tid, o.info⟩ : Item Datum)))) ∧
      ix.baInsertEntries a tid acc es = L.foldl (fun acc e => ix.baInsert e.1 e.2 acc) acc := by
  by_cases h0 : es.length = 0
  · refine ⟨[], ?_, by simp [Ix.baInsertEntries, h0]⟩
    rw [List.length_eq_zero_iff.1 h0]; simp
  · have hp := visits_all (Nat.pos_of_ne_zero h0) h
    refine ⟨(visits es.length (topStep es.length)).filterMap (fun i => es[i]?.map (fun o => (outKey a o, ⟨tid, o.info⟩))), ?_, ?_⟩
    · refine (hp.filterMap _).trans ?_
      have : (List.range es.length).filterMap (fun i => es[i]?.map (fun o => (outKey a o, (⟨tid, o.info⟩ : Item Datum)))) =
          es.map (fun o => (outKey a o, (⟨tid, o.info⟩ : Item Datum))) := by
        have e0 := List.filterMap_map (l := List.range es.length) (f := fun i => es[i]?)
          (g := Option.map (fun o : Out V Datum => (outKey a o, (⟨tid, o.info⟩ : Item Datum))))
        simp only [Function.comp_def] at e0
        rw [← e0]
        have e1 : (List.range es.length).map (fun i => es[i]?) = es.map some := by
          refine List.ext_getElem (by simp) fun i h1 h2 => ?_
          simp at h1 h2 ⊢
        rw [e1, List.filterMap_map]
        simp [Function.comp_def]
      rw [this]
    · rw [Ix.baInsertEntries, if_neg h0, List.foldl_filterMap]
      congr 1
      funext acc i
      cases es[i]? <;> rfl

end Rum.Index

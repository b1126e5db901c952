import Verif.ConcSys
import Mathlib.Data.Nat.Find
/-
There is always a backend that can go on. Proof apparatus.
-/
namespace Rum.Tree
open Rum Rum.Entry

variable {α K : Type} [LinearOrder K]
variable {key : α → K} {strict : Bool} {s t : Store α} {root : Nat} {G G' : Ghost} {IOK : List (α × Nat) → Prop} {KOK : α → Prop}
  {POK XOK : List α → Prop} {o : Ops α} {Bd C : Prop} {seek : List α → Option α → α → Option (List α)}

/-- A backend that keeps a page of level `k` locked visits a page of a higher level. -/
theorem visit_above (W : Weak key strict s root G) (hC : C) {th : Thread α} (ho : ThreadOK C key KOK root s G th) {w : Pending α}
    (hw : pending th = some w) {b : Nat} (hb : visit root th = some b) {k : Nat} (hm : w.child ∈ G.lv k) (hk : k < G.h) :
    ∃ j, k < j ∧ j ≤ G.h ∧ b ∈ G.lv j := by
  cases th with
  | walk w' p off up =>
    cases hw
    obtain ⟨k', h1, -, h2⟩ := ho
    cases hb
    have hlt := h1.lt
    obtain rfl := W.uniq k' k w.child (by omega) (by omega) h1.mem hm
    rcases h2 with ⟨h3, -⟩ | ⟨h3, -⟩
    · exact ⟨k' + 1, by omega, by omega, h3⟩
    · exact ⟨G.h, by omega, Nat.le_refl _, by rw [W.root, h3]; simp⟩
  | top w' =>
    cases hw
    cases hb
    exact ⟨G.h, by omega, Nat.le_refl _, by rw [W.root]; simp⟩
  | level w' p lm =>
    cases hw
    obtain ⟨k', j, h1, h2, h3, h4⟩ := ho
    cases hb
    have hlt := h1.lt
    obtain rfl := W.uniq k' k w.child (by omega) (by omega) h1.mem hm
    have := h4.le hC
    exact ⟨j, by omega, by omega, h3⟩
  | _ => simp [pending] at hw

theorem needs_level (W : Weak key strict s root G) {th : Thread α} {b j : Nat} (hb : visit root th = some b) (hj : j ≤ G.h) (hm : b ∈ G.lv j)
    {c : Nat} (hc : c ∈ needs o seek root s th) : c ∈ G.lv j := by
  unfold needs at hc
  rw [hb] at hc
  simp only [List.mem_cons] at hc
  rcases hc with rfl | hc
  · exact hm
  · split at hc
    · simp at hc
    · obtain ⟨A, B, e⟩ := List.append_of_mem hm
      have hr := (Linked.right (e ▸ W.linked j hj)).1
      cases B with
      | nil => simp at hr; rw [hr] at hc; simp at hc
      | cons d B =>
        simp at hr
        rw [hr] at hc
        simp at hc
        rw [e, hc]; simp

/-- Whenever a backend is busy, some busy backend can make a step. -/
theorem SysInv.someone (hC : C) {y : Sys α} (I : SysInv Bd C key strict IOK KOK XOK POK o root y G) {i : Nat} (hi : (y.th i).free = false) :
    ∃ j z, (y.th j).free = false ∧ Acts o seek root j y z ∧ ((pending (y.th j)).isSome ∨ ∀ j', pending (y.th j') = none) := by
  classical
  have W := I.good.weak
  by_cases hp : ∃ j w, pending (y.th j) = some w
  · obtain ⟨j, w, hw⟩ := hp
    let P : Nat → Prop := fun k => ∃ j w, pending (y.th j) = some w ∧ k < G.h ∧ w.child ∈ G.lv k
    obtain ⟨k, hk⟩ := linkOK_of (I.ok j) hw
    have hP : P (Nat.findGreatest P G.h) := Nat.findGreatest_spec (Nat.le_of_lt hk.lt) ⟨j, w, hw, hk.lt, hk.mem⟩
    have hmax : ∀ k, P k → k ≤ Nat.findGreatest P G.h := fun k h => Nat.le_findGreatest (Nat.le_of_lt h.choose_spec.choose_spec.2.1) h
    generalize Nat.findGreatest P G.h = m at hP hmax
    obtain ⟨j, w, hw, hm, hmem⟩ := hP
    have hv : ∃ b, visit root (y.th j) = some b := by
      cases hth : y.th j <;> rw [hth] at hw <;> simp [pending] at hw <;> simp [visit]
    obtain ⟨b, hb⟩ := hv
    obtain ⟨l, hl1, hl2, hl3⟩ := visit_above W hC (I.ok j) hw hb hmem hm
    refine ⟨j, _, ?_, ⟨?_, rfl⟩, Or.inl (by rw [hw]; rfl)⟩
    · cases hth : y.th j <;> rw [hth] at hw <;> simp [pending] at hw <;> rfl
    · intro j' hj' c hc hn
      rw [holds_eq] at hc
      cases hpj : pending (y.th j') with
      | none => rw [hpj] at hc; cases hc
      | some w' =>
        rw [hpj] at hc
        simp only [Option.map_some, Option.some.injEq] at hc
        subst hc
        obtain ⟨k', hk'⟩ := linkOK_of (I.ok j') hpj
        have h1 := hmax k' ⟨j', w', hpj, hk'.lt, hk'.mem⟩
        have h2 := W.uniq l k' _ hl2 (Nat.le_of_lt hk'.lt) (needs_level W hb hl2 hl3 hn) hk'.mem
        omega
  · refine ⟨i, _, hi, ⟨?_, rfl⟩, Or.inr (fun j' => ?_)⟩
    rotate_left
    · cases hpj : pending (y.th j') with
      | none => rfl
      | some w' => exact absurd ⟨j', w', hpj⟩ hp
    intro j hj c hc
    rw [holds_eq] at hc
    cases hpj : pending (y.th j) with
    | none => rw [hpj] at hc; cases hc
    | some w' => exact absurd ⟨j, w', hpj⟩ hp

end Rum.Tree

import Verif.IndexConc
import Verif.ConcSys
import Verif.EntryTreeInsert
/-
Single visits to pages of the entry tree. Proof apparatus.
-/
namespace Rum.Tree
open Rum Rum.Entry

variable {α K : Type} [LinearOrder K]
variable {key : α → K} {strict : Bool} {s : Store α} {root : Nat} {G : Ghost} {IOK : List (α × Nat) → Prop} {KOK : α → Prop}
  {POK : List α → Prop} {o : Ops α} {C : Prop}

/-- A descent is on its way, or has come to its leaf. -/
theorem ins_cases (hk : KeyOf o.cmp key) (hl : LocateOK o key strict) 
    (H : Good False key strict IOK KOK POK s root G) {x : α} {xs : List α} {b : Nat} {up : List (Nat × Nat)}
    (ho : ThreadOK C key KOK root s G (.ins (x :: xs) b up)) :
    (¬ ((s.page b).leaf = true ∧ ¬ (b ≠ root ∧ (s.page b).right.isSome ∧ o.cmp x (s.page b).bound = .gt)) ∧
      ∃ b' up', actIns o root s x xs b up = (s, .ins (x :: xs) b' up') ∧
      StepOut C key strict IOK KOK POK o root s G (.ins (x :: xs) b up) s (.ins (x :: xs) b' up') G (fun _ => False) (fun _ _ => False)) ∨
    (((s.page b).leaf = true ∧ ¬ (b ≠ root ∧ (s.page b).right.isSome ∧ o.cmp x (s.page b).bound = .gt)) ∧
      ∃ A B, G.lv 0 = A ++ b :: B ∧ (∀ c ∈ A, hiP key (s.page c) < ((key x : K) : WithTop K)) ∧ ((key x : K) : WithTop K) ≤ hiP key (s.page b) ∧
        PathOK root G 0 up) := by
  have W := H.weak
  obtain ⟨k, A, B, hkh, e, hA, hup⟩ : ∃ k A B, k ≤ G.h ∧ G.lv k = A ++ b :: B ∧ NotLeft key s G k A x ∧ PathOK root G k up := by
    rcases ho with ⟨rfl, rfl⟩ | ⟨k, A, B, h1, h2, h3, h4⟩
    · exact ⟨G.h, [], [], _root_.le_refl _, by rw [W.root]; rfl, fun c hc => by simp at hc, rfl⟩
    · exact ⟨k, A, B, by omega, h2, h3, h4⟩
  have hb : b ∈ G.lv k := by rw [e]; simp
  have hr := (Linked.right (e ▸ W.linked k hkh)).1
  have hlt : b ≠ root → k < G.h := by
    intro h
    rcases Nat.lt_or_eq_of_le hkh with h' | rfl
    · exact h'
    · rw [W.root] at hb; simp at hb; exact absurd hb h
  unfold actIns
  simp only
  by_cases hmv : b ≠ root ∧ (s.page b).right.isSome = true ∧ o.cmp x (s.page b).bound = .gt
  · left
    refine ⟨fun h => h.2 hmv, ?_⟩
    rw [if_pos hmv]
    cases B with
    | nil => simp at hr; rw [hr] at hmv; simp at hmv
    | cons r B =>
      simp at hr
      rw [hr]
      simp only [Option.getD_some]
      refine ⟨_, _, rfl, StepOut.read H (Or.inr ⟨k, A ++ [b], B, hlt hmv.1, by rw [e]; simp,
        notLeft_of_last W hkh e ((hi_gt hk _ x r hr).1 hmv.2.2), hup⟩) rfl (fun _ => rfl) ⟨0, rfl⟩ (fun _ _ => by simp) ?_⟩
      intro z hz
      simp only [knows, List.mem_cons] at hz ⊢
      rcases hz with rfl | hz
      · exact Or.inr (Or.inr (Or.inl ⟨b, k, rfl, hkh, hb, hr⟩))
      · exact Or.inl (Or.inr hz)
  · rw [if_neg hmv]
    have hx : ((key x : K) : WithTop K) ≤ hiP key (s.page b) := by
      cases hrr : (s.page b).right with
      | none => simp [hiP, hrr]
      | some r =>
        by_contra hlt'
        have hgt := (hi_gt hk _ x r hrr).2 (lt_of_not_ge hlt')
        refine hmv ⟨fun h => ?_, by rw [hrr]; rfl, hgt⟩
        have := W.linked G.h (_root_.le_refl _)
        rw [W.root] at this
        have h2 : (s.page root).right = none := by simpa using this.2.1
        rw [← h, hrr] at h2
        cases h2
    cases k with
    | zero =>
      right
      refine ⟨⟨W.leaf b hb, hmv⟩, A, B, e, ?_, hx, hup⟩
      intro c hc
      exact hA c (by simpa [under] using hc)
    | succ k =>
      left
      have hnl : (s.page b).leaf = false := (W.inner k (by omega) b hb).1
      refine ⟨fun h => by rw [hnl] at h; simp at h, ?_⟩
      rw [if_neg (by rw [hnl]; simp)]
      obtain ⟨d, A', B', hd, e', hA'⟩ := child_spec hl W (by omega) x A B b e hA hx
      rw [hd]
      simp only
      refine ⟨_, _, rfl, StepOut.read H (Or.inr ⟨k, A', B', by omega, e', hA', by omega, Or.inl ⟨hb, hup⟩⟩) rfl (fun _ => rfl) ⟨0, rfl⟩
        (fun _ _ => by simp) ?_⟩
      intro z hz
      simp only [knows, List.mem_cons, List.map_cons] at hz ⊢
      rcases hz with rfl | hz
      · exact Or.inr (Or.inr (Or.inr (hasDown_of W (by omega) hb hd)))
      · exact Or.inl hz

end Rum.Tree

namespace Rum.Index
open Rum Rum.Codec Rum.Leaf Rum.Entry Rum.Tree Rum.Props Rum.Props.PostingTree Std

variable {V : Type} {K : Type} [LinearOrder K] {key : Ent V → K} {s : Store (Ent V)} {G : Ghost} {C : Prop}

theorem stops_iff (ix : Ix V) [Inhabited V] (s : Store (Ent V)) (k : AttKey V) (b : Nat) :
    ix.stops s k b = true ↔ ((s.page b).leaf = true ∧ ¬ (b ≠ rootBlk ∧ (s.page b).right.isSome ∧ ix.cmp (probe k) (s.page b).bound = .gt)) := by
  unfold Ix.stops
  simp only [Bool.and_eq_true, Bool.not_eq_true', Bool.and_eq_false_iff, beq_eq_false_iff_ne, decide_eq_false_iff_not, not_and]
  constructor
  · rintro ⟨h1, h2⟩
    exact ⟨h1, fun h3 h4 h5 => by rcases h2 with (h2 | h2) | h2 <;> simp_all⟩
  · rintro ⟨h1, h2⟩
    refine ⟨h1, ?_⟩
    by_cases h3 : b ≠ rootBlk
    · cases h4 : (s.page b).right.isSome
      · exact Or.inl (Or.inr rfl)
      · exact Or.inr (h2 h3 h4)
    · exact Or.inl (Or.inl h3)

/-- A tuple is put on its leaf. -/
theorem leafPut_spec (ix : Ix V) [Inhabited V] [∀ n, TransCmp (ix.cmpK n)] (hk : KeyOf ix.cmp key)
    (H : Good False key true (InnerFit ix) (KeyFit ix) (LeafOK ix) s rootBlk G) {k : AttKey V} {A B : List Nat} {b : Nat} {up : List (Nat × Nat)}
    (e : G.lv 0 = A ++ b :: B) (hA : ∀ c ∈ A, hiP key (s.page c) < ((key (probe k) : K) : WithTop K))
    (hx : ((key (probe k) : K) : WithTop K) ≤ hiP key (s.page b)) (hup : PathOK rootBlk G 0 up) {x : Ent V} (he : ix.cmp (probe k) x = .eq)
    (hX : TupleOK ix x) :
    (leafPut ix.ops s b up x).2 ≠ .lost ∧ ((leafPut ix.ops s b up x).2 = .inserted ∨ ∃ w, pending (leafPut ix.ops s b up x).2 = some w ∧ w.batch = []) ∧
    (∀ y, y ∈ contents (leafPut ix.ops s b up x).1 rootBlk ↔ Upd ix.cmp false (contents s rootBlk) [x] y) ∧
    ∃ G' bad new, StepCore C key true (InnerFit ix) (KeyFit ix) (LeafOK ix) rootBlk s G (.ins [probe k] b up) (leafPut ix.ops s b up x).1
      (leafPut ix.ops s b up x).2 G' bad new := by
  have W := H.weak
  have hkx := (hk.eq _ _).1 he
  rw [hkx] at hA hx
  have LL := entryLeafLaws ix
  have hsort : SSorted ix.ops.cmp [x] := by simp [SSorted]
  have hok : ∀ e ∈ [x], TupleOK ix e := by simpa using hX
  have hnew : false = true → ∀ i ∈ (s.page b).items, ix.ops.cmp i x ≠ .eq := by simp
  unfold leafPut
  simp only
  by_cases hroom : ix.ops.roomLeaf (s.page b).items [x] = true
  · rw [if_pos hroom]
    obtain ⟨n, n1, n2, n3, g1, g2, g3, g4⟩ := leaf_place (o := ix.ops) hk LL H e hA hx hsort hok hroom
    obtain rfl : n = 1 := by simp at n2; omega
    have hc := contents_eq g1.weak
    rw [← contents_eq W, ← hc] at g2
    refine ⟨by simp, Or.inl rfl, g2, G, fun _ => False, fun _ _ => False, {
      good := g1, bnd := g3, ok := trivial, moved := ⟨Keeps.refl _ _, g4, ?_, _root_.le_refl _⟩, bad1 := fun _ h => h.elim,
      bad2 := fun _ w h => by simp [pending] at h, new1 := fun _ _ h => h.elim,
      held := fun w h => by simp [pending] at h, know := fun p hp => by simp [knows] at hp,
      rest := ⟨1, by simp [todo]⟩, lost := fun _ _ => by simp }⟩
    intro c _ _ _
    rw [Store.set_page]
    split
    · next h => subst h; rfl
    · rfl
  · rw [if_neg hroom]
    have hroom : ix.ops.roomLeaf (s.page b).items [x] = false := by simpa using hroom
    cases up with
    | nil =>
      obtain ⟨n, kk, n1, n2, n3, rfl, hget, G', g1, g2, g3, g4, g5⟩ := leaf_root (o := ix.ops) (entryInnerLaws ix) hk LL H e hA hx hsort hok hnew
        (Or.inl rfl) hroom (by simpa [PathOK] using hup.symm)
      obtain rfl : n = 1 := by simp at n2; omega
      simp only
      rw [hget]
      have hc := contents_eq g1.weak
      rw [← contents_eq W, ← hc] at g2
      refine ⟨by simp, Or.inl trivial, g2, G', fun _ => False, fun _ _ => False, {
        good := g1, bnd := g3, ok := trivial, moved := ⟨g5, g4, ?_, by rw [splitRoot_next]; omega⟩, bad1 := fun _ h => h.elim,
        bad2 := fun _ w h => by simp [pending] at h, new1 := fun _ _ h => h.elim,
        held := fun w h => by simp [pending] at h, know := fun p hp => by simp [knows] at hp,
        rest := ⟨1, by simp [todo]⟩, lost := fun _ _ => by simp }⟩
      intro c hc _ hr
      rw [(splitRoot_pages W).2.2.2 c hc hr]
    | cons q up' =>
      obtain ⟨q, off⟩ := q
      have h0 : 0 < G.h := hup.1
      obtain ⟨n, kk, n1, n2, n3, hget, hKK, G', g1, -, hhi, hpath, hh, g2, g3, g4, g5, g6, g7⟩ :=
        leaf_split (o := ix.ops) hk LL H e hA hx hsort hok hnew (Or.inl rfl) hroom h0
      obtain rfl : n = 1 := by simp at n2; omega
      simp only
      rw [hget]
      have hc := contents_eq g1.weak
      rw [← contents_eq W, ← hc] at g2
      refine ⟨by simp, Or.inr ⟨_, rfl, rfl⟩, g2, G', _, _, {
        good := g1, bnd := g3, ok := ⟨0, ⟨by omega, g6, g7, hhi, hKK⟩, hpath _ _ hup⟩,
        moved := ⟨g5, g4, ?_, by rw [splitAt_next]; omega⟩, bad1 := fun c h => Or.inl (by rw [h]; rfl),
        bad2 := fun _ w h => by simp [pending] at h, new1 := ?_,
        held := ?_, know := ?_, rest := ⟨1, by simp [todo]⟩, lost := fun _ _ => by simp }⟩
      · intro c hc hbad _
        exact splitAt_hi _ _ _ _ _ _ _ hbad (by omega)
      · rintro x y (⟨rfl, rfl⟩ | ⟨-, h⟩)
        · exact Or.inl ⟨_, rfl, rfl, rfl⟩
        · exact Or.inr ⟨b, rfl, h⟩
      · intro w' hw'
        simp only [pending, Option.some.injEq] at hw'
        subst hw'
        exact Or.inr ⟨rfl, rfl, by rw [splitAt_next]; omega⟩
      · intro p hp
        simp only [knows, List.mem_cons, List.map_cons] at hp ⊢
        exact Or.inl hp

end Rum.Index

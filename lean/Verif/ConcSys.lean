import Verif.ConcStep
/-
Invariant of the tree and all backends. Proof apparatus.
-/
namespace Rum.Tree
open Rum Rum.Entry

variable {α K : Type} [LinearOrder K]
variable {key : α → K} {strict : Bool} {s t : Store α} {root : Nat} {G G' : Ghost} {IOK : List (α × Nat) → Prop} {KOK : α → Prop}
  {POK XOK : List α → Prop} {o : Ops α} {Bd C : Prop} {seek : List α → Option α → α → Option (List α)}

/-- `Bd`: every bound of a leaf is the key of an item of the leaf (true until a VACUUM removes items). -/
structure SysInv (Bd C : Prop) (key : α → K) (strict : Bool) (IOK : List (α × Nat) → Prop) (KOK : α → Prop) (XOK POK : List α → Prop) (o : Ops α)
    (root : Nat) (y : Sys α) (G : Ghost) : Prop where
  good : Good False key strict IOK KOK POK y.store root G
  bnd : Bd → BoundIn key (leafs key y.store G)
  ok : ∀ i, ThreadOK C key KOK root y.store G (y.th i)
  batch : ∀ i, SSorted o.cmp (todo (y.th i)) ∧ XOK (todo (y.th i))
  dist : ∀ i j w w', i ≠ j → pending (y.th i) = some w → pending (y.th j) = some w' → w.child ≠ w'.child
  alloc : ∀ i, ∀ p ∈ knows (y.th i), p < y.store.next
  adj : C → ∀ c d, Adj G c d → ∃ i w, pending (y.th i) = some w ∧ w.child = c ∧ w.r = d
  fresh : C → ∀ i j w, pending (y.th j) = some w → w.r ∉ knows (y.th i)
  notlost : C → ∀ i, y.th i ≠ .lost

theorem adj_mem (W : Weak key strict s root G) {c r : Nat} (h : Adj G c r) : ∃ k X Y, k < G.h ∧ G.lv k = X ++ c :: r :: Y := by
  obtain ⟨k, P, u, v, h1, -, h3, h4⟩ := h
  obtain ⟨A, B, e⟩ := List.append_of_mem h3
  obtain ⟨G1, G2, e2⟩ := List.append_of_mem h4
  refine ⟨k, A.flatMap (fun b => (G.kids b).flatten) ++ G1.flatten ++ u, v ++ G2.flatten ++ B.flatMap (fun b => (G.kids b).flatten), h1, ?_⟩
  rw [W.cover k h1, e, List.flatMap_append, List.flatMap_cons, e2]
  simp

/-- The page before the new page of a split is the split page. -/
theorem adj_left (W : Weak key strict s root G) {c r b j : Nat} (h : Adj G c r) (hj : j ≤ G.h) (hb : b ∈ G.lv j)
    (hr : (s.page b).right = some r) : b = c := by
  obtain ⟨k, X, Y, hk, e⟩ := adj_mem W h
  obtain ⟨A, B, e'⟩ := List.append_of_mem hb
  have hrB := (Linked.right (e' ▸ W.linked j hj)).1
  cases B with
  | nil => simp at hrB; rw [hr] at hrB; cases hrB
  | cons d B =>
    simp at hrB
    rw [hr] at hrB
    cases hrB
    have hjk : j = k := W.uniq j k r hj (by omega) (by rw [e']; simp) (by rw [e]; simp)
    subst hjk
    have e1 : G.lv j = (X ++ [c]) ++ r :: Y := by rw [e]; simp
    have e2 : G.lv j = (A ++ [b]) ++ r :: B := by rw [e']; simp
    obtain ⟨h, -⟩ := split_unique (W.nodup j hj) e1 e2
    exact (List.append_inj' h rfl).2 |> fun h => by simpa using h.symm

theorem adj_not_down (W : Weak key strict s root G) {c r : Nat} (h : Adj G c r) (hd : HasDown G r) : False := by
  obtain ⟨k, P, u, v, h1, h2, h3, h4⟩ := h
  obtain ⟨k', Q, g, h5, h6, h7, h8⟩ := hd
  obtain ⟨tl, rfl⟩ := List.head?_eq_some_iff.1 h8
  have hPQ : P = Q := parent_unique W h1 h5 h3 h6 (c := r) (List.mem_flatten.2 ⟨_, h4, by simp⟩) (List.mem_flatten.2 ⟨_, h7, by simp⟩)
  subst hPQ
  have hnd := kids_nodup W h1 h3
  obtain ⟨hn1, hn2⟩ := List.nodup_flatten.1 hnd
  obtain ⟨G1, G2, e⟩ := List.append_of_mem h7
  rw [e] at hn2 h4
  obtain ⟨-, d2, d3⟩ := List.pairwise_append.1 hn2
  have hr : r ∈ u ++ c :: r :: v := by simp
  rcases List.mem_append.1 h4 with h4' | h4'
  · exact d3 _ h4' (r :: tl) (by simp) hr (by simp)
  · rcases List.mem_cons.1 h4' with h4' | h4'
    · have hn := hn1 _ h7
      cases u with
      | nil =>
        simp only [List.nil_append, List.cons.injEq] at h4'
        obtain ⟨rfl, h4'⟩ := h4'
        exact (List.nodup_cons.1 hn).1 (by rw [← h4']; simp)
      | cons a u =>
        simp only [List.cons_append, List.cons.injEq] at h4'
        obtain ⟨rfl, h4'⟩ := h4'
        exact (List.nodup_cons.1 hn).1 (by rw [← h4']; simp)
    · exact (List.pairwise_cons.1 d2).1 _ h4' (by simp) hr

theorem hasDown_mem (W : Weak key strict s root G) {r : Nat} (hd : HasDown G r) : ∃ k, k < G.h ∧ r ∈ G.lv k := by
  obtain ⟨k', Q, g, h5, h6, h7, h8⟩ := hd
  obtain ⟨tl, rfl⟩ := List.head?_eq_some_iff.1 h8
  exact ⟨k', h5, kids_mem W.toThin h5 h6 (List.mem_flatten.2 ⟨_, h7, by simp⟩)⟩

/-- A backend does not visit the page it keeps locked. -/
theorem visit_ne_child (W : Weak key strict s root G) (hC : C) {th : Thread α} (ho : ThreadOK C key KOK root s G th) {w : Pending α}
    (hw : pending th = some w) : visit root th ≠ some w.child := by
  cases th with
  | walk w' p off up =>
    cases hw
    obtain ⟨k, h1, -, h2⟩ := ho
    have hlt := h1.lt
    intro h
    simp only [visit, Option.some.injEq] at h
    rcases h2 with ⟨h3, -⟩ | ⟨h3, -⟩
    · have := W.uniq (k + 1) k p (by omega) (by omega) h3 (by rw [h]; exact h1.mem)
      omega
    · exact ne_root W hlt h1.mem (h.symm.trans h3)
  | top w' =>
    cases hw
    obtain ⟨k, h1⟩ := ho
    intro h
    simp only [visit, Option.some.injEq] at h
    exact ne_root W h1.lt h1.mem h.symm
  | level w' p lm =>
    cases hw
    obtain ⟨k, j, h1, h2, h3, h4⟩ := ho
    have hlt := h1.lt
    intro h
    simp only [visit, Option.some.injEq] at h
    have := W.uniq j k p (by omega) (by omega) h3 (by rw [h]; exact h1.mem)
    have := h4.le hC
    omega
  | _ => simp [pending] at hw

theorem put_same (y : Sys α) (i : Nat) (th : Thread α) : (y.put i th).th i = th := by simp [Sys.put]
theorem put_other (y : Sys α) {i j : Nat} (h : j ≠ i) (th : Thread α) : (y.put i th).th j = y.th j := by simp [Sys.put, h]
theorem put_store (y : Sys α) (i : Nat) (th : Thread α) : (y.put i th).store = y.store := rfl

/-- The page visited is not locked by another backend. -/
theorem acts_free {i : Nat} {y z : Sys α} (h : Acts o seek root i y z) {j : Nat} (hj : j ≠ i) {w : Pending α} (hw : pending (y.th j) = some w) :
    visit root (y.th i) ≠ some w.child := by
  intro hv
  refine h.1 j hj w.child (by rw [holds_eq, hw]; rfl) ?_
  simp [needs, hv]

theorem linkOK_of (ho : ThreadOK C key KOK root s G th) {w : Pending α} (hw : pending th = some w) : ∃ k, LinkOK key KOK s G k w := by
  cases th with
  | walk w' p off up => cases hw; obtain ⟨k, h, -⟩ := ho; exact ⟨k, h⟩
  | top w' => cases hw; exact ho
  | level w' p lm => cases hw; obtain ⟨k, j, h, -⟩ := ho; exact ⟨k, h⟩
  | _ => simp [pending] at hw

theorem child_knows {th : Thread α} {w : Pending α} (hw : pending th = some w) : w.child ∈ knows th := by
  cases th <;> simp [pending] at hw <;> subst hw <;> simp [knows]

/-- The split page of a backend is not the new page of another split. -/
theorem SysInv.no_adj {y : Sys α} {i : Nat} (I : SysInv Bd C key strict IOK KOK XOK POK o root y G) (c : C) {w : Pending α}
    (hw : pending (y.th i) = some w) : ∀ b, ¬ Adj G b w.child := by
  intro b hb
  obtain ⟨j, w', h1, h2, h3⟩ := I.adj c b w.child hb
  exact I.fresh c i j w' h1 (by rw [h3]; exact child_knows hw)

/-- Every step that leaves the tree in shape preserves the invariant. -/
theorem SysInv.step (hrest : ∀ l k, XOK l → XOK (l.drop k))
    {y z : Sys α} {i : Nat} (I : SysInv Bd C key strict IOK KOK XOK POK o root y G) {bad : Nat → Prop} {new : Nat → Nat → Prop}
    (S : StepCore C key strict IOK KOK POK root y.store G (y.th i) z.store (z.th i) G' bad new)
    (hfree : ∀ {j : Nat}, j ≠ i → ∀ {w : Pending α}, pending (y.th j) = some w → visit root (y.th i) ≠ some w.child)
    (hzj : ∀ j, j ≠ i → z.th j = y.th j) : SysInv Bd C key strict IOK KOK XOK POK o root z G' := by
  have W := I.good.weak
  have W' := S.good.weak
  have hnb : ∀ j, j ≠ i → ∀ w, pending (y.th j) = some w → ¬ bad w.child := by
    intro j hj w hw hbad
    rcases S.bad1 _ hbad with h1 | h1
    · exact hfree hj hw h1
    · rw [holds_eq] at h1
      cases hp : pending (y.th i) with
      | none => rw [hp] at h1; cases h1
      | some w' =>
        rw [hp] at h1
        simp only [Option.map_some, Option.some.injEq] at h1
        exact I.dist i j w' w (Ne.symm hj) hp hw h1
  have hroot : root < y.store.next := (W.alloc G.h (Nat.le_refl _) root (by rw [W.root]; simp)).1
  -- newly known pages are not the new pages of old splits
  have hknow : C → ∀ j w, pending (y.th j) = some w → w.r ∉ knows (z.th i) := by
    intro c j w hw hm
    obtain ⟨k, hL⟩ := linkOK_of (I.ok j) hw
    rcases S.know _ hm with h1 | h1 | ⟨-, b, j', h1, h2, h3, h4⟩ | h1
    · exact I.fresh c i j w hw h1
    · obtain ⟨k', X, Y, h2, h3⟩ := adj_mem W hL.adj
      exact ne_root W h2 (b := w.r) (by rw [h3]; simp) h1
    · have := adj_left W hL.adj h2 h3 h4
      subst this
      by_cases hj : j = i
      · subst hj; exact visit_ne_child W c (I.ok j) hw h1
      · exact hfree hj hw h1
    · exact adj_not_down W hL.adj h1
  have hkalloc : ∀ p ∈ knows (z.th i), p < y.store.next := by
    intro p hp
    rcases S.know p hp with h1 | h1 | ⟨-, b, j', h1, h2, h3, h4⟩ | h1
    · exact I.alloc i p h1
    · rw [h1]; exact hroot
    · obtain ⟨A, B, e⟩ := List.append_of_mem h3
      have hrB := (Linked.right (e ▸ W.linked j' h2)).1
      cases B with
      | nil => simp at hrB; rw [h4] at hrB; cases hrB
      | cons d B =>
        simp at hrB
        rw [h4] at hrB
        cases hrB
        exact (W.alloc j' h2 p (by rw [e]; simp)).1
    · obtain ⟨k, h2, h3⟩ := hasDown_mem W h1
      exact (W.alloc k (by omega) p h3).1
  refine ⟨S.good, fun b => S.bnd (I.bnd b), ?_, ?_, ?_, ?_, ?_, ?_, ?_⟩
  · intro j
    by_cases hj : j = i
    · rw [hj]; exact S.ok
    · rw [hzj j hj]; exact (I.ok j).moved W W' S.moved (hnb j hj)
  · intro j
    by_cases hj : j = i
    · rw [hj]
      obtain ⟨n, hn⟩ := S.rest
      rw [hn]
      exact ⟨List.Pairwise.sublist (List.drop_sublist _ _) (I.batch i).1, hrest _ _ (I.batch i).2⟩
    · rw [hzj j hj]; exact I.batch j
  · -- distinct
    have key1 : ∀ j, j ≠ i → ∀ w w', pending (z.th i) = some w → pending (y.th j) = some w' → w.child ≠ w'.child := by
      intro j hj w w' hw hw' he
      rcases S.held w hw with h1 | ⟨h1, -⟩
      · exact I.dist i j w w' (Ne.symm hj) h1 hw' he
      · exact hfree hj hw' (by rw [h1, he])
    intro a b w w' hab hw hw'
    by_cases ha : a = i
    · subst ha
      rw [hzj b (Ne.symm hab)] at hw'
      exact key1 b (Ne.symm hab) w w' hw hw'
    · by_cases hb : b = i
      · subst hb
        rw [hzj a hab] at hw
        exact fun he => key1 a hab w' w hw' hw he.symm
      · rw [hzj a ha] at hw
        rw [hzj b hb] at hw'
        exact I.dist a b w w' hab hw hw'
  · intro j p hp
    by_cases hj : j = i
    · subst hj; exact Nat.lt_of_lt_of_le (hkalloc p hp) S.moved.next
    · rw [hzj j hj] at hp; exact Nat.lt_of_lt_of_le (I.alloc j p hp) S.moved.next
  · intro c a d had
    rcases S.moved.keeps.adj' a d had with ⟨h1, h2⟩ | h1
    · obtain ⟨j, w, h3, h4, h5⟩ := I.adj c a d h1
      by_cases hj : j = i
      · subst hj
        rcases S.bad2 c w h3 with h6 | h6
        · exact ⟨j, w, h6, h4, h5⟩
        · exact absurd (h4 ▸ h6) h2
      · exact ⟨j, w, by rw [hzj j hj]; exact h3, h4, h5⟩
    · rcases S.new1 a d h1 with ⟨w, h2, h3, h4⟩ | ⟨b, h2, h3⟩
      · exact ⟨i, w, h2, h3.symm, h4.symm⟩
      · obtain ⟨j, w, h4, h5, h6⟩ := I.adj c b d h3
        subst h5
        by_cases hj : j = i
        · subst hj; exact absurd h2 (visit_ne_child W c (I.ok j) h4)
        · exact absurd h2 (hfree hj h4)
  · intro c a j w hw hm
    by_cases hj : j = i
    · subst hj
      rcases S.held w hw with h1 | ⟨-, h2, h3⟩
      · by_cases ha : a = j
        · subst ha; exact hknow c a w h1 hm
        · rw [hzj a ha] at hm; exact I.fresh c a j w h1 hm
      · by_cases ha : a = j
        · subst ha
          have := hkalloc _ hm
          omega
        · rw [hzj a ha] at hm
          have := I.alloc a _ hm
          omega
    · rw [hzj j hj] at hw
      by_cases ha : a = i
      · subst ha; exact hknow c j w hw hm
      · rw [hzj a ha] at hm; exact I.fresh c a j w hw hm
  · intro c j
    by_cases hj : j = i
    · subst hj; exact S.lost c (I.notlost c j)
    · rw [hzj j hj]; exact I.notlost c j

/-- Every step preserves the invariant. -/
theorem SysInv.acts (hk : KeyOf o.cmp key) (hl : LocateOK o key strict) (IL : InnerLaws o IOK KOK) (LL : LeafLaws o true POK XOK KOK)
    (hone : Bd ∨ ∀ l, XOK l → l.length ≤ 1)
    {y z : Sys α} {i : Nat} (I : SysInv Bd C key strict IOK KOK XOK POK o root y G) (h : Acts o seek root i y z) :
    ∃ G' bad new, StepOut C key strict IOK KOK POK o root y.store G (y.th i) z.store (z.th i) G' bad new ∧
      SysInv Bd C key strict IOK KOK XOK POK o root z G' ∧ ∀ j, j ≠ i → z.th j = y.th j := by
  obtain ⟨G', bad, new, S⟩ := act_spec (seek := seek) hk hl IL LL I.good (hone.elim (fun b => Or.inr (I.bnd b)) (fun f => Or.inl (f _ (I.batch i).2))) (I.ok i) (I.batch i).1 (I.batch i).2 (fun c w hw => I.no_adj c hw)
  have hz := h.2
  have hzs : z.store = (act o seek root y.store (y.th i)).1 := by rw [hz]; rfl
  have hzi : z.th i = (act o seek root y.store (y.th i)).2 := by rw [hz, put_same]
  have hzj : ∀ j, j ≠ i → z.th j = y.th j := fun j hj => by rw [hz, put_other _ hj]
  rw [← hzs, ← hzi] at S
  exact ⟨G', bad, new, S, I.step LL.rest S.toStepCore (fun hj _ hw => acts_free h hj hw) hzj, hzj⟩

/-- A backend starts an operation, or (without `C`) is stopped. -/
theorem SysInv.put {y : Sys α} {i : Nat} {th : Thread α} (I : SysInv Bd C key strict IOK KOK XOK POK o root y G) (hp : pending th = none)
    (hy : C → pending (y.th i) = none) (hk : ∀ p ∈ knows th, p = root) (ho : ThreadOK C key KOK root y.store G th)
    (hb : SSorted o.cmp (todo th) ∧ XOK (todo th)) (hl : th ≠ .lost) : SysInv Bd C key strict IOK KOK XOK POK o root (y.put i th) G := by
  have W := I.good.weak
  have hroot : root < y.store.next := (W.alloc G.h (Nat.le_refl _) root (by rw [W.root]; simp)).1
  refine ⟨I.good, I.bnd, ?_, ?_, ?_, ?_, ?_, ?_, ?_⟩
  · intro j
    by_cases hj : j = i
    · subst hj; rw [put_same]; exact ho
    · rw [put_other _ hj]; exact I.ok j
  · intro j
    by_cases hj : j = i
    · subst hj; rw [put_same]; exact hb
    · rw [put_other _ hj]; exact I.batch j
  · intro a b w w' hab hw hw'
    by_cases ha : a = i
    · subst ha; rw [put_same, hp] at hw; cases hw
    · by_cases hb : b = i
      · subst hb; rw [put_same, hp] at hw'; cases hw'
      · rw [put_other _ ha] at hw; rw [put_other _ hb] at hw'; exact I.dist a b w w' hab hw hw'
  · intro j p hpk
    by_cases hj : j = i
    · subst hj; rw [put_same] at hpk; rw [hk p hpk]; exact hroot
    · rw [put_other _ hj] at hpk; exact I.alloc j p hpk
  · intro c a d had
    obtain ⟨j, w, h3, h4, h5⟩ := I.adj c a d had
    by_cases hj : j = i
    · subst hj; rw [hy c] at h3; cases h3
    · exact ⟨j, w, by rw [put_other _ hj]; exact h3, h4, h5⟩
  · intro c a j w hw hm
    by_cases hj : j = i
    · subst hj; rw [put_same, hp] at hw; cases hw
    · rw [put_other _ hj] at hw
      by_cases ha : a = i
      · subst ha
        rw [put_same] at hm
        obtain ⟨k, hL⟩ := linkOK_of (I.ok j) hw
        obtain ⟨k', X, Y, h2, h3⟩ := adj_mem W hL.adj
        exact ne_root W h2 (b := w.r) (by rw [h3]; simp) (hk _ hm)
      · rw [put_other _ ha] at hm; exact I.fresh c a j w hw hm
  · intro c j
    by_cases hj : j = i
    · subst hj; rw [put_same]; exact hl
    · rw [put_other _ hj]; exact I.notlost c j

end Rum.Tree

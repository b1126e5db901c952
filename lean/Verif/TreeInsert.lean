import Verif.TreeSteps
import Verif.Props.EntryPage
/-
Insertion: finding the parent of a split page, the records from a split to the root.
-/
namespace Rum.Tree
open Rum Rum.Entry

variable {α K : Type} [LinearOrder K]

/-- No split is unfinished. -/
def Complete (G : Ghost) : Prop := ∀ k, k < G.h → ∀ b ∈ G.lv (k + 1), ∀ g ∈ G.kids b, ∃ c, g = [c]

/-- The split of `b` into `b` and `r` is unfinished; under `C` (the tree was complete before) it is the only one. -/
structure Pend (C : Prop) (G : Ghost) (k P b r : Nat) (t : List Nat) (G1 G2 : List (List Nat)) : Prop where
  lt : k < G.h
  mem : P ∈ G.lv (k + 1)
  kids : G.kids P = G1 ++ (b :: r :: t) :: G2
  nil : C → t = []
  g1 : C → ∀ g ∈ G1, ∃ c, g = [c]
  g2 : C → ∀ g ∈ G2, ∃ c, g = [c]
  other : C → ∀ j, j < G.h → ∀ Q ∈ G.lv (j + 1), Q ≠ P → ∀ g ∈ G.kids Q, ∃ c, g = [c]

/-- No page has a downlink to `b`: it was split off and the downlink never written. -/
def NoDown (G : Ghost) (b : Nat) : Prop := ∀ j, j < G.h → ∀ Q ∈ G.lv (j + 1), ∀ g ∈ G.kids Q, g.head? ≠ some b

section parent
variable {key : α → K} {strict : Bool} {s : Store α} {root : Nat} {G : Ghost}

theorem kids_nodup (W : Weak key strict s root G) {k P : Nat} (hk : k < G.h) (hP : P ∈ G.lv (k + 1)) : (G.kids P).flatten.Nodup := by
  have h := W.nodup k (by omega)
  rw [W.cover k hk, List.nodup_flatMap] at h
  exact h.1 P hP

theorem parent_unique (W : Weak key strict s root G) {j k P Q c : Nat} (hj : j < G.h) (hk : k < G.h) (hP : P ∈ G.lv (j + 1))
    (hQ : Q ∈ G.lv (k + 1)) (h1 : c ∈ (G.kids P).flatten) (h2 : c ∈ (G.kids Q).flatten) : P = Q := by
  have hjk : j = k := W.uniq j k c (by omega) (by omega) (kids_mem W.toThin hj hP h1) (kids_mem W.toThin hk hQ h2)
  subst hjk
  have h := W.nodup j (by omega)
  rw [W.cover j hk, List.nodup_flatMap] at h
  by_contra hne
  obtain ⟨i1, h3, rfl⟩ := List.getElem_of_mem hP
  obtain ⟨i2, h4, rfl⟩ := List.getElem_of_mem hQ
  have hp := List.pairwise_iff_getElem.1 h.2
  rcases Nat.lt_trichotomy i1 i2 with hlt | heq | hlt
  · exact (hp i1 i2 h3 h4 hlt) h1 h2
  · subst heq; exact hne rfl
  · exact (hp i2 i1 h4 h3 hlt) h2 h1

theorem exists_parent (W : Weak key strict s root G) {k b : Nat} (hk : k < G.h) (hb : b ∈ G.lv k) :
    ∃ P G1 g G2, P ∈ G.lv (k + 1) ∧ G.kids P = G1 ++ g :: G2 ∧ b ∈ g := by
  rw [W.cover k hk, List.mem_flatMap] at hb
  obtain ⟨P, hP, hb⟩ := hb
  obtain ⟨g, hg, hb⟩ := List.mem_flatten.1 hb
  obtain ⟨G1, G2, hG⟩ := List.append_of_mem hg
  exact ⟨P, G1, g, G2, hP, hG, hb⟩

/-- The downlinks of a page lead to the first pages of its groups. -/
theorem down_head (W : Weak key strict s root G) {k P : Nat} (hk : k < G.h) (hP : P ∈ G.lv (k + 1)) (i : Nat) (c : Nat) :
    ((s.page P).downs.map Prod.snd)[i]? = some c ↔ ∃ t, (G.kids P)[i]? = some (c :: t) := by
  have hI := (W.inner k hk P hP).2
  have hlen := hI.downs.length_eq
  rw [List.getElem?_map]
  by_cases hi : i < (s.page P).downs.length
  · have hR := forall₂_getElem hI.downs i hi (by omega)
    rw [List.getElem?_eq_getElem hi, List.getElem?_eq_getElem (by omega : i < (G.kids P).length)]
    simp only [Option.map_some, Option.some.injEq]
    obtain ⟨t, ht⟩ := List.head?_eq_some_iff.1 hR.1
    constructor
    · rintro rfl; exact ⟨t, ht⟩
    · rintro ⟨t', ht'⟩
      rw [ht] at ht'
      exact (List.cons.inj ht').1
  · rw [List.getElem?_eq_none (by omega), List.getElem?_eq_none (by omega)]
    simp

theorem down_mem (W : Weak key strict s root G) {k P : Nat} (hk : k < G.h) (hP : P ∈ G.lv (k + 1)) {i c : Nat}
    (h : ((s.page P).downs.map Prod.snd)[i]? = some c) : c ∈ (G.kids P).flatten := by
  obtain ⟨t, ht⟩ := (down_head W hk hP i c).1 h
  exact List.mem_flatten.2 ⟨_, List.mem_of_getElem? ht, by simp⟩

theorem down_pos (W : Weak key strict s root G) {k P : Nat} (hk : k < G.h) (hP : P ∈ G.lv (k + 1)) {G1 G2 : List (List Nat)}
    {b : Nat} {t : List Nat} (hg : G.kids P = G1 ++ (b :: t) :: G2) : ((s.page P).downs.map Prod.snd)[G1.length]? = some b :=
  (down_head W hk hP _ _).2 ⟨t, by rw [hg]; simp⟩

theorem down_inj (W : Weak key strict s root G) {k P : Nat} (hk : k < G.h) (hP : P ∈ G.lv (k + 1)) {G1 G2 : List (List Nat)}
    {b i : Nat} {t : List Nat} (hg : G.kids P = G1 ++ (b :: t) :: G2) (h : ((s.page P).downs.map Prod.snd)[i]? = some b) :
    i = G1.length := by
  obtain ⟨t', ht'⟩ := (down_head W hk hP _ _).1 h
  have hg' : (G.kids P)[G1.length]? = some (b :: t) := by rw [hg]; simp
  have hnd := (List.nodup_flatten.1 (kids_nodup W hk hP)).2
  obtain ⟨h1, e1⟩ := List.getElem?_eq_some_iff.1 ht'
  obtain ⟨h2, e2⟩ := List.getElem?_eq_some_iff.1 hg'
  have hp := List.pairwise_iff_getElem.1 hnd
  rcases Nat.lt_trichotomy i G1.length with hlt | heq | hlt
  · exact absurd (by rw [e2]; simp : b ∈ (G.kids P)[G1.length]) (hp _ _ h1 h2 hlt (by rw [e1]; simp))
  · exact heq
  · exact absurd (by rw [e1]; simp : b ∈ (G.kids P)[i]) (hp _ _ h2 h1 hlt (by rw [e2]; simp))

/-- The result of looking for a downlink among the pages of a level. -/
theorem parentWalk_spec (W : Weak key strict s root G) {k : Nat} (hk : k ≤ G.h) (child n off : Nat) (A B : List Nat) (b : Nat)
    (e : G.lv k = A ++ b :: B) (hn : B.length < n) :
    (∃ Q i, Q ∈ b :: B ∧ parentWalk s child n b off = some (Q, i + 1) ∧ ((s.page Q).downs.map Prod.snd)[i]? = some child) ∨
    (parentWalk s child n b off = none ∧ ∀ Q ∈ b :: B, child ∉ (s.page Q).downs.map Prod.snd) := by
  induction n generalizing A b B off with
  | zero => omega
  | succ n ih =>
    rw [parentWalk]
    rcases Props.C17_find_child ((s.page b).downs.map Prod.snd) child off with ⟨o, h1, h2, h3⟩ | ⟨h1, h2⟩
    · left
      obtain ⟨i, rfl⟩ : ∃ i, o = i + 1 := ⟨o - 1, by omega⟩
      rw [h1]
      exact ⟨b, i, by simp, rfl, by simpa using h3⟩
    · rw [h1]
      simp only
      have hr := (Linked.right (e ▸ W.linked k hk)).1
      cases B with
      | nil =>
        right
        simp at hr
        rw [hr]
        exact ⟨rfl, fun Q hQ => by simp only [List.mem_singleton] at hQ; subst hQ; exact h2⟩
      | cons c B =>
        simp at hr
        rw [hr]
        simp only
        rcases ih 0 (A ++ [b]) B c (by rw [e]; simp) (by simpa using hn) with ⟨Q, i, hQ, h3, h4⟩ | ⟨h3, h4⟩
        · left
          exact ⟨Q, i, by simp [List.mem_cons.1 hQ], h3, h4⟩
        · right
          refine ⟨h3, fun Q hQ => ?_⟩
          rcases List.mem_cons.1 hQ with rfl | hQ
          · exact h2
          · exact h4 Q hQ

/-- The first page of a level leads to the first page of the level below. -/
theorem head_down (W : Weak key strict s root G) {k b : Nat} {B : List Nat} (hk : k < G.h) (e : G.lv (k + 1) = b :: B) :
    ∃ d B', (s.page b).downs.head? = some d ∧ G.lv k = d.2 :: B' := by
  have hI := (W.inner k hk b (by rw [e]; simp)).2
  obtain ⟨g, gs, hg⟩ := List.exists_cons_of_ne_nil (W.ne k hk b (by rw [e]; simp))
  have hd := hI.downs
  rw [hg] at hd
  obtain ⟨d, ds, h1, h2, h3⟩ := List.forall₂_cons_right_iff.1 hd
  obtain ⟨t, ht⟩ := List.head?_eq_some_iff.1 h1.1
  refine ⟨d, t ++ (gs.flatten ++ B.flatMap (fun b => (G.kids b).flatten)), by rw [h3]; rfl, ?_⟩
  have := level_split W.toThin hk (A := []) (by simpa using e) (G1 := []) (by simpa using hg)
  rw [this, ht]
  simp

theorem findParentsGo_spec (W : Weak key strict s root G) {k P child : Nat} (hk : k < G.h) (hP : P ∈ G.lv (k + 1)) {i : Nat}
    (hi : ((s.page P).downs.map Prod.snd)[i]? = some child) (n j : Nat) (hj : k ≤ j) (hjh : j + 1 ≤ G.h) (hn : j < n + k) (b : Nat)
    (B : List Nat) (e : G.lv (j + 1) = b :: B) :
    ∃ Q i, findParentsGo s child n b = some (Q, i + 1) ∧ Q ∈ G.lv (k + 1) ∧ ((s.page Q).downs.map Prod.snd)[i]? = some child := by
  have hchild : child ∈ G.lv k := kids_mem W.toThin hk hP (down_mem W hk hP hi)
  induction n generalizing j b B with
  | zero => omega
  | succ n ih =>
    rw [findParentsGo, (W.inner j (by omega) b (by rw [e]; simp)).1]
    simp only [Bool.false_eq_true, if_false]
    have hlen := level_length W.toThin hjh
    rw [e, List.length_cons] at hlen
    rcases parentWalk_spec W hjh child s.next 0 [] B b (by simpa using e) (by omega) with ⟨Q, i', hQ, h3, h4⟩ | ⟨h3, h4⟩
    · rw [h3]
      have hQj : Q ∈ G.lv (j + 1) := by rw [e]; exact hQ
      have hcj := kids_mem W.toThin (by omega) hQj (down_mem W (by omega) hQj h4)
      have hjk : j = k := W.uniq j k child (by omega) (by omega) hcj hchild
      exact ⟨Q, i', rfl, hjk ▸ hQj, h4⟩
    · rw [h3]
      simp only
      have hjk : j ≠ k := by
        rintro rfl
        exact h4 P (by rw [e] at hP; exact hP) (List.mem_of_getElem? hi)
      obtain ⟨j', rfl⟩ : ∃ j', j = j' + 1 := ⟨j - 1, by omega⟩
      obtain ⟨d, B', hd, e'⟩ := head_down W (by omega) e
      rw [hd]
      exact ih j' (by omega) (by omega) (by omega) d.2 B' e'

theorem findParents_spec (W : Weak key strict s root G) {k P child : Nat} (hk : k < G.h) (hP : P ∈ G.lv (k + 1)) {i : Nat}
    (hi : ((s.page P).downs.map Prod.snd)[i]? = some child) :
    ∃ Q i up, findParents s root child = some ((Q, i + 1), up) ∧ Q ∈ G.lv (k + 1) ∧
      ((s.page Q).downs.map Prod.snd)[i]? = some child ∧ PathOK root G (k + 1) up := by
  have hchild : child ∈ G.lv k := kids_mem W.toThin hk hP (down_mem W hk hP hi)
  unfold findParents
  rcases Props.C17_find_child ((s.page root).downs.map Prod.snd) child 0 with ⟨o, h1, h2, h3⟩ | ⟨h1, h2⟩
  · obtain ⟨i', rfl⟩ : ∃ i, o = i + 1 := ⟨o - 1, by omega⟩
    rw [h1]
    have h3 : ((s.page root).downs.map Prod.snd)[i']? = some child := by simpa using h3
    obtain ⟨h', hh⟩ : ∃ h', G.h = h' + 1 := ⟨G.h - 1, by omega⟩
    have hr : root ∈ G.lv (h' + 1) := by rw [← hh, W.root]; simp
    have hjk : h' = k := W.uniq h' k child (by omega) (by omega) (kids_mem W.toThin (by omega) hr (down_mem W (by omega) hr h3)) hchild
    subst hjk
    exact ⟨root, i', [], rfl, hr, h3, hh.symm⟩
  · rw [h1]
    simp only
    obtain ⟨h', hh⟩ : ∃ h', G.h = h' + 1 := ⟨G.h - 1, by omega⟩
    have hr : G.lv (h' + 1) = [root] := by rw [← hh, W.root]
    have hkh : k ≠ h' := by
      rintro rfl
      rw [hr] at hP
      simp only [List.mem_singleton] at hP
      subst hP
      exact h2 (List.mem_of_getElem? hi)
    obtain ⟨d, B', hd, e'⟩ := head_down W (by omega) hr
    rw [hd]
    simp only
    obtain ⟨h'', hh'⟩ : ∃ h'', h' = h'' + 1 := ⟨h' - 1, by omega⟩
    rw [hh'] at e'
    have hlt := height_lt W
    obtain ⟨Q, i', h4, h5, h6⟩ := findParentsGo_spec W hk hP hi s.next h'' (by omega) (by omega) (by omega) d.2 B' e'
    refine ⟨Q, i', [(root, 0)], by rw [h4]; rfl, h5, h6, ?_⟩
    exact ⟨by omega, Or.inr ⟨rfl, rfl⟩⟩

theorem findParent_spec (W : Weak key strict s root G) {k P child : Nat} (hk : k < G.h) (hP : P ∈ G.lv (k + 1)) {i : Nat}
    (hi : ((s.page P).downs.map Prod.snd)[i]? = some child) {up : List (Nat × Nat)} (hup : PathOK root G k up) :
    ∃ Q i up', findParent s root child up = some ((Q, i + 1), up') ∧ Q ∈ G.lv (k + 1) ∧
      ((s.page Q).downs.map Prod.snd)[i]? = some child ∧ PathOK root G (k + 1) up' := by
  have hchild : child ∈ G.lv k := kids_mem W.toThin hk hP (down_mem W hk hP hi)
  cases up with
  | nil => simp only [PathOK] at hup; omega
  | cons p up =>
    obtain ⟨b, off⟩ := p
    simp only [findParent]
    obtain ⟨-, hup⟩ := hup
    obtain ⟨j, hj, hbj, hpath⟩ : ∃ j, j ≤ G.h ∧ b ∈ G.lv j ∧ (j = k + 1 → PathOK root G (k + 1) up) := by
      rcases hup with ⟨h1, h2⟩ | ⟨rfl, rfl⟩
      · exact ⟨k + 1, by omega, h1, fun _ => h2⟩
      · exact ⟨G.h, _root_.le_refl _, by rw [W.root]; simp, fun h => by simp only [PathOK]; omega⟩
    obtain ⟨A, B, e⟩ := List.append_of_mem hbj
    have hlen := level_length W.toThin hj
    rw [e, List.length_append, List.length_cons] at hlen
    rcases parentWalk_spec W hj child s.next off A B b e (by omega) with ⟨Q, i', hQ, h3, h4⟩ | ⟨h3, h4⟩
    · rw [h3]
      have hQj : Q ∈ G.lv j := by rw [e]; exact List.mem_append_right _ hQ
      obtain ⟨j', rfl⟩ : ∃ j', j = j' + 1 := by
        refine ⟨j - 1, ?_⟩
        by_contra h
        have hj0 : j = 0 := by omega
        subst hj0
        -- a leaf of a tree of height at least 1 is not the root
        rcases hup with ⟨h1, h2⟩ | ⟨rfl, rfl⟩
        · have := W.uniq 0 (k + 1) b (by omega) (by omega) hbj h1; omega
        · have := W.uniq 0 G.h b (by omega) (_root_.le_refl _) hbj (by rw [W.root]; simp); omega
      have hcj := kids_mem W.toThin (by omega) hQj (down_mem W (by omega) hQj h4)
      have hjk : j' = k := W.uniq j' k child (by omega) (by omega) hcj hchild
      subst hjk
      exact ⟨Q, i', up, rfl, hQj, h4, hpath rfl⟩
    · rw [h3]
      exact findParents_spec W hk hP hi

/-- Without a downlink the search for the parent fails: "Lost path". -/
theorem findParent_lost (W : Weak key strict s root G) {child : Nat} (hno : NoDown G child) {k : Nat} (hk : k < G.h) {up : List (Nat × Nat)}
    (hup : PathOK root G k up) : findParent s root child up = none := by
  have hd : ∀ j, j < G.h → ∀ Q ∈ G.lv (j + 1), child ∉ (s.page Q).downs.map Prod.snd := by
    intro j hj Q hQ hm
    obtain ⟨i, hi⟩ := List.getElem?_of_mem hm
    obtain ⟨t, ht⟩ := (down_head W hj hQ i child).1 hi
    exact hno j hj Q hQ _ (List.mem_of_getElem? ht) rfl
  have walk : ∀ j, j < G.h → ∀ b ∈ G.lv (j + 1), ∀ off, parentWalk s child s.next b off = none := by
    intro j hj b hb off
    obtain ⟨A, B, e⟩ := List.append_of_mem hb
    have hlen := level_length W.toThin (show j + 1 ≤ G.h by omega)
    rw [e, List.length_append, List.length_cons] at hlen
    rcases parentWalk_spec W (show j + 1 ≤ G.h by omega) child s.next off A B b e (by omega) with ⟨Q, i', hQ, h3, h4⟩ | ⟨h3, h4⟩
    · exact absurd (List.mem_of_getElem? h4) (hd j hj Q (by rw [e]; exact List.mem_append_right _ hQ))
    · exact h3
  have go : ∀ n j, j ≤ G.h → ∀ b B, G.lv j = b :: B → findParentsGo s child n b = none := by
    intro n
    induction n with
    | zero => intros; rfl
    | succ n ih =>
      intro j hj b B e
      rw [findParentsGo]
      cases j with
      | zero => rw [W.leaf b (by rw [e]; simp)]; rfl
      | succ j =>
        rw [(W.inner j (by omega) b (by rw [e]; simp)).1]
        simp only [Bool.false_eq_true, if_false]
        rw [walk j (by omega) b (by rw [e]; simp)]
        simp only
        obtain ⟨d, B', h1, h2⟩ := head_down W (by omega) e
        rw [h1]
        exact ih j (by omega) d.2 B' h2
  obtain ⟨h', hh⟩ : ∃ h', G.h = h' + 1 := ⟨G.h - 1, by omega⟩
  have hrm : root ∈ G.lv (h' + 1) := by rw [← hh, W.root]; simp
  have hfp : findParents s root child = none := by
    unfold findParents
    rcases Props.C17_find_child ((s.page root).downs.map Prod.snd) child 0 with ⟨o, h1, h2, h3⟩ | ⟨h1, h2⟩
    · exact absurd (List.mem_of_getElem? h3) (hd h' (by omega) root hrm)
    · rw [h1]
      simp only
      obtain ⟨d, B', h3, h4⟩ := head_down W (show h' < G.h by omega) (by rw [← hh, W.root])
      rw [h3]
      simp only
      rw [go s.next h' (by omega) d.2 B' h4]
      rfl
  cases up with
  | nil => rfl
  | cons p up =>
    obtain ⟨b, off⟩ := p
    simp only [findParent]
    obtain ⟨-, hup⟩ := hup
    rcases hup with ⟨h1, -⟩ | ⟨rfl, -⟩
    · rw [walk k hk b h1]; exact hfp
    · rw [walk h' (by omega) b hrm]; exact hfp

end parent

/-! ### Ghost states of records -/

theorem split_pend {key : α → K} {strict : Bool} {s : Store α} {root : Nat} {G : Ghost} (W : Weak key strict s root G) {C : Prop}
    (hC : C → Complete G) {k b r m : Nat} (hk : k < G.h) (hb : b ∈ G.lv k) (hfresh : ∀ j, j ≤ G.h → r ∉ G.lv j) :
    (∃ P t G1 G2, Pend C (G.split b r m) k P b r t G1 G2) ∨ (¬ C ∧ NoDown (G.split b r m) b) := by
  obtain ⟨P, G1, g, G2, hP, hg, hbg⟩ := exists_parent W hk hb
  have hPb : P ≠ b := fun h => by have := W.uniq (k + 1) k P (by omega) (by omega) hP (h ▸ hb); omega
  have hPr : P ≠ r := fun h => hfresh (k + 1) (by omega) (h ▸ hP)
  have hbr : b ≠ r := fun h => hfresh k (by omega) (h ▸ hb)
  have hnd := (List.nodup_flatten.1 (kids_nodup W hk hP))
  rw [hg] at hnd
  obtain ⟨n1, hnd⟩ := hnd
  obtain ⟨-, n2, n3⟩ := List.pairwise_append.1 hnd
  have n4 := (List.pairwise_cons.1 n2).1
  have h1 : ∀ g' ∈ G1, b ∉ g' := fun g' hg' hb' => n3 g' hg' g (by simp) hb' hbg
  have h2 : ∀ g' ∈ G2, b ∉ g' := fun g' hg' hb' => n4 g' hg' hbg hb'
  have ngd := n1 g (by simp)
  -- the groups after the split come from those before
  have orig : ∀ j, j < G.h → ∀ Q ∈ (G.split b r m).lv (j + 1), ∀ g' ∈ (G.split b r m).kids Q,
      ∃ Q0 ∈ G.lv (j + 1), (Q0 = Q ∨ Q0 = b) ∧ ∃ g0 ∈ G.kids Q0, g' = ins b r g0 := by
    intro j hj Q hQ g' hg'
    simp only [Ghost.split] at hg'
    by_cases hQr : Q = r
    · rw [if_pos hQr] at hg'
      obtain ⟨g, hgm, rfl⟩ := List.mem_map.1 hg'
      have hbj : b ∈ G.lv (j + 1) := by
        rcases mem_ins hQ with h | ⟨-, h⟩
        · exact absurd (hQr ▸ h) (hfresh _ (by omega))
        · exact h
      exact ⟨b, hbj, Or.inr rfl, g, List.mem_of_mem_drop hgm, rfl⟩
    · rw [if_neg hQr] at hg'
      have hQj : Q ∈ G.lv (j + 1) := by
        rcases mem_ins hQ with h | ⟨h, -⟩
        · exact h
        · exact absurd h hQr
      by_cases hQb : Q = b
      · rw [if_pos hQb] at hg'
        obtain ⟨g, hgm, rfl⟩ := List.mem_map.1 hg'
        exact ⟨b, hQb ▸ hQj, Or.inr rfl, g, List.mem_of_mem_take hgm, rfl⟩
      · rw [if_neg hQb] at hg'
        obtain ⟨g, hgm, rfl⟩ := List.mem_map.1 hg'
        exact ⟨Q, hQj, Or.inl rfl, g, hgm, rfl⟩
  by_cases hh : ∃ t, g = b :: t
  · left
    obtain ⟨t, rfl⟩ := hh
    have hgs : C → ∀ g ∈ G.kids P, ∃ c, g = [c] := fun c => hC c k hk P hP
    have hbt : b ∉ t := (List.nodup_cons.1 ngd).1
    refine ⟨P, t, G1.map (ins b r), G2.map (ins b r), hk, mem_ins_of hP, ?_, ?_, ?_, ?_, ?_⟩
    · simp only [Ghost.split, if_neg hPb, if_neg hPr]
      rw [hg, List.map_append, List.map_cons]
      have : ins b r (b :: t) = b :: r :: t := by
        have := ins_split b r [] t (by simp) hbt
        simpa using this
      rw [this]
    · intro c
      obtain ⟨c', hc'⟩ := hgs c (b :: t) (by rw [hg]; simp)
      simp at hc'
      exact hc'.2
    · intro c g' hg'
      obtain ⟨g, hgm, rfl⟩ := List.mem_map.1 hg'
      rw [ins_not_mem b r g (h1 g hgm)]
      exact hgs c g (by rw [hg]; simp [hgm])
    · intro c g' hg'
      obtain ⟨g, hgm, rfl⟩ := List.mem_map.1 hg'
      rw [ins_not_mem b r g (h2 g hgm)]
      exact hgs c g (by rw [hg]; simp [hgm])
    · intro c j hj Q hQ hQP g' hg'
      change j < G.h at hj
      obtain ⟨Q0, hQ0, hor, g0, hg0, rfl⟩ := orig j hj Q hQ g' hg'
      have hne : Q0 ≠ P := by
        rcases hor with rfl | rfl
        · exact hQP
        · exact fun h => hPb h.symm
      have hbg0 : b ∉ g0 := fun hbg => hne (parent_unique W hj hk hQ0 hP (List.mem_flatten.2 ⟨g0, hg0, hbg⟩)
        (by rw [hg]; simp))
      rw [ins_not_mem b r g0 hbg0]
      exact hC c j hj Q0 hQ0 g0 hg0
  · right
    refine ⟨fun c => ?_, ?_⟩
    · obtain ⟨c', rfl⟩ := hC c k hk P hP g (by rw [hg]; simp)
      simp only [List.mem_singleton] at hbg
      exact hh ⟨[], by rw [hbg]⟩
    · intro j hj Q hQ g' hg' hhd
      change j < G.h at hj
      obtain ⟨Q0, hQ0, hor, g0, hg0, rfl⟩ := orig j hj Q hQ g' hg'
      rw [head_ins] at hhd
      have hbg0 : b ∈ g0 := List.mem_of_mem_head? (by rw [hhd]; rfl)
      have hQP : Q0 = P := parent_unique W hj hk hQ0 hP (List.mem_flatten.2 ⟨g0, hg0, hbg0⟩) (by
        rw [hg]; simp [hbg])
      rw [hQP, hg] at hg0
      simp only [List.mem_append, List.mem_cons] at hg0
      rcases hg0 with h | rfl | h
      · exact h1 g0 h hbg0
      · obtain ⟨t, ht⟩ := List.head?_eq_some_iff.1 hhd
        exact hh ⟨t, ht⟩
      · exact h2 g0 h hbg0

theorem pend_add {C : Prop} {G : Ghost} {k P b r : Nat} {t : List Nat} {G1 G2 : List (List Nat)} (hp : Pend C G k P b r t G1 G2) :
    C → Complete (G.setKids P (G1 ++ [b] :: (r :: t) :: G2)) := by
  intro c j hj Q hQ g hg
  simp only [Ghost.setKids] at hg
  split at hg
  · simp only [List.mem_append, List.mem_cons] at hg
    rcases hg with h | rfl | rfl | h
    · exact hp.g1 c g h
    · exact ⟨b, rfl⟩
    · exact ⟨r, by rw [hp.nil c]⟩
    · exact hp.g2 c g h
  · next h => exact hp.other c j hj Q hQ h g hg

theorem complete_grow {key : α → K} {strict : Bool} {s : Store α} {root : Nat} {G : Ghost} (W : Weak key strict s root G)
    (hC : Complete G) {l : Nat} : Complete (G.grow root l) := by
  intro j hj Q hQ g hg
  change j < G.h + 1 at hj
  simp only [Ghost.grow] at hg hQ
  by_cases h1 : Q = root
  · rw [if_pos h1] at hg
    simp only [List.mem_singleton] at hg
    exact ⟨l, hg⟩
  · rw [if_neg h1] at hg
    have hjh : ¬ j + 1 = G.h + 1 := by
      intro h
      rw [if_pos h] at hQ
      simp only [List.mem_singleton] at hQ
      exact h1 hQ
    rw [if_neg hjh] at hQ
    by_cases h2 : Q = l
    · rw [if_pos h2] at hg
      exact hC (G.h - 1) (by omega) root (by rw [show G.h - 1 + 1 = G.h by omega, W.root]; simp) g hg
    · rw [if_neg h2] at hg
      by_cases h3 : j + 1 = G.h
      · rw [if_pos h3] at hQ
        simp only [List.mem_singleton] at hQ
        exact absurd hQ h2
      · rw [if_neg h3] at hQ
        exact hC j (by omega) Q hQ g hg

/-! ### What the leaves hold -/

/-- The items and the limit of every leaf. -/
def leafs (key : α → K) (s : Store α) (G : Ghost) : List (List α × WithTop K) :=
  (G.lv 0).map (fun b => ((s.page b).items, hiP key (s.page b)))

omit [LinearOrder K] in
theorem leafs_congr {key : α → K} {s t : Store α} {G G' : Ghost} (h : G'.lv 0 = G.lv 0)
    (hp : ∀ b ∈ G.lv 0, (t.page b).items = (s.page b).items ∧ hiP key (t.page b) = hiP key (s.page b)) :
    leafs key t G' = leafs key s G := by
  unfold leafs
  rw [h]
  apply List.map_congr_left
  intro b hb
  rw [(hp b hb).1, (hp b hb).2]

/-! ### Sizes of interior pages -/

/-- What is required of the space test and the split of interior pages. `IOK`: the downlinks fit on a page. `KOK`: keys are not too big. -/
structure InnerLaws (o : Ops α) (IOK : List (α × Nat) → Prop) (KOK : α → Prop) : Prop where
  zero : KOK o.zero
  rk : ∀ b its D, KOK b → (∀ i ∈ its, KOK i) → (∀ d ∈ D, KOK d.1) → KOK (o.rootKey b its D)
  keys : ∀ D, IOK D → ∀ d ∈ D, KOK d.1
  room : ∀ D off kk c r, IOK D → KOK kk → o.roomInner D kk = true → 1 ≤ off → off ≤ D.length → IOK (addDown D off kk c r)
  split : ∀ rm D off kk c r, IOK D → KOK kk → o.roomInner D kk = false → 1 ≤ off → off ≤ D.length →
    1 ≤ o.sep rm (addDown D off kk c r) ∧ o.sep rm (addDown D off kk c r) < (addDown D off kk c r).length ∧
      IOK ((addDown D off kk c r).take (o.sep rm (addDown D off kk c r))) ∧
      IOK ((addDown D off kk c r).drop (o.sep rm (addDown D off kk c r)))
  root : ∀ k1 k2 l r, KOK k1 → KOK k2 → IOK [(k1, l), (k2, r)]

/-- All interior pages fit. -/
structure Sized (IOK : List (α × Nat) → Prop) (KOK : α → Prop) (s : Store α) (G : Ghost) : Prop where
  inner : ∀ k, k < G.h → ∀ b ∈ G.lv (k + 1), IOK (s.page b).downs
  bounds : ∀ k, k ≤ G.h → ∀ b ∈ G.lv k, KOK (s.page b).bound

theorem path_split {root : Nat} {G : Ghost} {b r m k : Nat} {up : List (Nat × Nat)} (h : PathOK root G k up) :
    PathOK root (G.split b r m) k up := by
  induction up generalizing k with
  | nil => exact h
  | cons p up ih =>
    obtain ⟨c, off⟩ := p
    obtain ⟨h1, h2⟩ := h
    refine ⟨h1, ?_⟩
    rcases h2 with ⟨h2, h3⟩ | h2
    · exact Or.inl ⟨mem_ins_of h2, ih h3⟩
    · exact Or.inr h2

theorem path_setKids {root : Nat} {G : Ghost} {b k : Nat} {gs : List (List Nat)} {up : List (Nat × Nat)} (h : PathOK root G k up) :
    PathOK root (G.setKids b gs) k up := by
  induction up generalizing k with
  | nil => exact h
  | cons p up ih =>
    obtain ⟨c, off⟩ := p
    obtain ⟨h1, h2⟩ := h
    refine ⟨h1, ?_⟩
    rcases h2 with ⟨h2, h3⟩ | h2
    · exact Or.inl ⟨h2, ih h3⟩
    · exact Or.inr h2

end Rum.Tree

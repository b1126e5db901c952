import Verif.TreeVacuum
import Verif.TreeRun
/-
Deletion of an empty page keeps the invariant.
-/
namespace Rum.Tree
open Rum Rum.Entry

variable {α K : Type} [LinearOrder K]

theorem nodup_split {l1 l2 m1 m2 : List Nat} {d : Nat} (h : l1 ++ d :: l2 = m1 ++ d :: m2) (hn : (l1 ++ d :: l2).Nodup) : l1 = m1 ∧ l2 = m2 := by
  induction l1 generalizing m1 with
  | nil =>
    cases m1 with
    | nil => simpa using h
    | cons x m1 =>
      simp only [List.nil_append, List.cons_append, List.cons.injEq] at h
      obtain ⟨rfl, rfl⟩ := h
      simp at hn
  | cons x l1 ih =>
    cases m1 with
    | nil =>
      simp only [List.nil_append, List.cons_append, List.cons.injEq] at h
      obtain ⟨rfl, rfl⟩ := h
      simp at hn
    | cons y m1 =>
      simp only [List.cons_append, List.cons.injEq] at h
      simp only [List.cons_append, List.nodup_cons] at hn
      obtain ⟨h1, h2⟩ := ih h.2 hn.2
      exact ⟨by rw [h.1, h1], h2⟩

theorem forall₂_imp_mem {β γ : Type} {R S : β → γ → Prop} {l : List β} {m : List γ} (h : List.Forall₂ R l m)
    (hi : ∀ a b, b ∈ m → R a b → S a b) : List.Forall₂ S l m := by
  induction h with
  | nil => exact .nil
  | cons h1 _ ih => exact .cons (hi _ _ (by simp) h1) (ih (fun a b hb => hi a b (by simp [hb])))

/-- The pages after a deletion. -/
structure DelPages (s t : Store α) (a d r P i : Nat) : Prop where
  fo : ∀ c, c ≠ d → t.page c = { s.page c with
    right := if c = a then some r else (s.page c).right
    left := if c = r then some a else (s.page c).left
    downs := if c = P then (s.page c).downs.eraseIdx i else (s.page c).downs }
  next : t.next = s.next

/-- The ghost state after a deletion of `d` (predecessor `a`) on level `k`. -/
def Ghost.del (G : Ghost) (k a d P : Nat) (L : List Nat) (gs : List (List Nat)) : Ghost where
  h := G.h
  lv := fun j => if j = k then L else G.lv j
  kids := fun c => if c = P then gs else G.kids c
  tp := fun c => if G.tp c = G.tp d then G.tp a else G.tp c

section del
variable {key : α → K} {s t : Store α} {root : Nat} {G : Ghost} {k a d r P : Nat} {A B : List Nat} {G1 G2 : List (List Nat)}

/-- A page is child of one page only. -/
theorem kid_unique (W : Thin key false s root G) {k P Q d : Nat} (hk : k < G.h) (hP : P ∈ G.lv (k + 1)) (hQ : Q ∈ G.lv (k + 1))
    (h1 : d ∈ (G.kids P).flatten) (h2 : d ∈ (G.kids Q).flatten) : P = Q := by
  have hn := W.nodup k (by omega)
  rw [W.cover k hk] at hn
  by_contra hne
  have hp := (List.nodup_flatMap.1 hn).2
  rcases List.pairwise_iff_getElem.1 hp with h
  obtain ⟨i, hi, rfl⟩ := List.getElem_of_mem hP
  obtain ⟨j, hj, rfl⟩ := List.getElem_of_mem hQ
  rcases Nat.lt_trichotomy i j with hij | hij | hij
  · exact (h i j hi hj hij) h1 h2
  · subst hij; exact hne rfl
  · exact (h j i hj hi hij) h2 h1

theorem Thin.delete (W : Thin key false s root G) (htm : ∀ j, j ≤ G.h → ∀ b ∈ G.lv j, G.tp b ∈ G.lv 0) (hk : k < G.h) (hP : P ∈ G.lv (k + 1))
    (hg : G.kids P = G1 ++ [d] :: G2) (e : G.lv k = A ++ a :: d :: r :: B) (hd : k = 0 ∨ (G.kids d = [] ∧ G.tp d = G.tp a))
    (D : DelPages s t a d r P G1.length) :
    Thin key false t root (G.del k a d P (A ++ a :: r :: B) (G1 ++ G2)) ∧
      ∀ j, j ≤ G.h → ∀ b ∈ (G.del k a d P (A ++ a :: r :: B) (G1 ++ G2)).lv j,
        (G.del k a d P (A ++ a :: r :: B) (G1 ++ G2)).tp b ∈ (G.del k a d P (A ++ a :: r :: B) (G1 ++ G2)).lv 0 := by
  have hdk : d ∈ G.lv k := by rw [e]; simp
  have hak : a ∈ G.lv k := by rw [e]; simp
  have hnk := W.nodup k (by omega)
  have e2 : G.lv k = (A ++ [a]) ++ d :: (r :: B) := by rw [e]; simp
  have hdL : d ∉ A ++ a :: r :: B := by
    have := hnk
    rw [e2, List.nodup_middle, List.nodup_cons] at this
    simpa using this.1
  have had : a ≠ d := fun h => hdL (by rw [← h]; simp)
  have hrd : r ≠ d := fun h => hdL (by rw [← h]; simp)
  have hsubL : ∀ c ∈ A ++ a :: r :: B, c ∈ G.lv k := by
    intro c hc; rw [e]; simp only [List.mem_append, List.mem_cons] at hc ⊢
    rcases hc with h | h | h | h <;> simp [h]
  have hdP : d ≠ P := fun h => by
    have := W.uniq k (k + 1) d (by omega) (by omega) hdk (h ▸ hP)
    omega
  have hLd : ∀ j, j ≤ G.h → ∀ c ∈ (if j = k then A ++ a :: r :: B else G.lv j), c ≠ d ∧ c ∈ G.lv j := by
    intro j hj c hc
    split at hc
    · next h => subst h; exact ⟨fun h => hdL (h ▸ hc), hsubL c hc⟩
    · next h => exact ⟨fun h' => h (W.uniq j k d hj (by omega) (h' ▸ hc) hdk), hc⟩
  have hlk := W.linked k (by omega)
  have hra : (s.page a).right = some d := by
    have := (Linked.right (e ▸ hlk)).1
    simpa using this
  have hhi : ∀ c, c ≠ d → hiP key (t.page c) = hiP key (s.page c) := by
    intro c hc
    rw [D.fo c hc]
    unfold hiP
    simp only
    by_cases h : c = a
    · subst h; rw [if_pos rfl, hra]
    · rw [if_neg h]
  -- the last leaves
  have htpa : hiP key (s.page (G.tp a)) ≤ hiP key (s.page (G.tp d)) := by
    rcases hd with rfl | ⟨-, h⟩
    · rw [W.tpl a hak, W.tpl d hdk]
      have := W.order.pair
      rw [e, List.pairwise_append] at this
      exact ((List.pairwise_cons.1 this.2.1).1 d (by simp)).1.le
    · rw [h]
  have htp' : ∀ c, hiP key (s.page ((G.del k a d P (A ++ a :: r :: B) (G1 ++ G2)).tp c)) ≤ hiP key (s.page (G.tp c)) := by
    intro c
    simp only [Ghost.del]
    split
    · next h => rw [h]; exact htpa
    · exact _root_.le_refl _
  have htm' : ∀ j, j ≤ G.h → ∀ b ∈ G.lv j, (G.del k a d P (A ++ a :: r :: B) (G1 ++ G2)).tp b ∈ (if 0 = k then A ++ a :: r :: B else G.lv 0) := by
    intro j hj b hb
    simp only [Ghost.del]
    by_cases hk0 : 0 = k
    · subst hk0
      rw [if_pos rfl]
      split
      · rw [W.tpl a hak]; simp
      · next h =>
        rw [W.tpl d hdk] at h
        have h1 := htm j hj b hb
        rw [e] at h1
        simp only [List.mem_append, List.mem_cons] at h1 ⊢
        rcases h1 with h1 | h1 | h1 | h1 | h1
        · exact Or.inl h1
        · exact Or.inr (Or.inl h1)
        · exact absurd h1 h
        · exact Or.inr (Or.inr (Or.inl h1))
        · exact Or.inr (Or.inr (Or.inr h1))
    · rw [if_neg hk0]
      split
      · exact htm k (by omega) a hak
      · exact htm j hj b hb
  have hnotd : ∀ j, j ≤ G.h → ∀ b ∈ G.lv j, (G.del k a d P (A ++ a :: r :: B) (G1 ++ G2)).tp b ≠ d := by
    intro j hj b hb
    exact (hLd 0 (Nat.zero_le _) _ (htm' j hj b hb)).1
  -- where P is
  obtain ⟨X, Y, hX⟩ := List.append_of_mem hP
  have hlev := level_split W hk hX hg
  have hlev' : G.lv k = (X.flatMap (fun b => (G.kids b).flatten) ++ G1.flatten) ++ d ::
      (G2.flatten ++ Y.flatMap (fun b => (G.kids b).flatten)) := by rw [hlev]; simp
  obtain ⟨hAX, hBY⟩ := nodup_split (hlev'.symm.trans e2) (hlev' ▸ hnk)
  have hnP := W.nodup (k + 1) (by omega)
  have hPXY : P ∉ X ∧ P ∉ Y := by
    rw [hX, List.nodup_middle, List.nodup_cons] at hnP
    simpa using hnP.1
  refine ⟨⟨?_, ?_, ?_, ?_, ?_, ?_, ?_, ?_, ?_, ?_⟩, ?_⟩
  · -- root
    simp only [Ghost.del]
    rw [if_neg (by omega)]
    exact W.root
  · -- cover
    intro j hj
    simp only [Ghost.del] at hj ⊢
    by_cases hjk : j = k
    · subst hjk
      rw [if_pos rfl, if_neg (by omega), hX, List.flatMap_append, List.flatMap_cons, if_pos rfl]
      have h1 : X.flatMap (fun b => (if b = P then G1 ++ G2 else G.kids b).flatten) = X.flatMap (fun b => (G.kids b).flatten) := by
        apply List.flatMap_congr
        intro c hc
        rw [if_neg (fun h : c = P => hPXY.1 (h ▸ hc))]
      have h2 : Y.flatMap (fun b => (if b = P then G1 ++ G2 else G.kids b).flatten) = Y.flatMap (fun b => (G.kids b).flatten) := by
        apply List.flatMap_congr
        intro c hc
        rw [if_neg (fun h : c = P => hPXY.2 (h ▸ hc))]
      rw [h1, h2, List.flatten_append]
      have : A ++ a :: r :: B = (A ++ [a]) ++ (r :: B) := by simp
      rw [this, ← hAX, ← hBY]
      simp [List.append_assoc]
    · rw [if_neg hjk]
      by_cases hj1 : j + 1 = k
      · rw [if_pos hj1]
        rcases hd with hd | ⟨hd, -⟩
        · omega
        have hc := W.cover j hj
        rw [hj1, e2, List.flatMap_append, List.flatMap_cons, hd] at hc
        have h1 : (A ++ a :: r :: B).flatMap (fun b => (if b = P then G1 ++ G2 else G.kids b).flatten) =
            (A ++ a :: r :: B).flatMap (fun b => (G.kids b).flatten) := by
          apply List.flatMap_congr
          intro c hc
          rw [if_neg (fun h => by
            have := W.uniq k (k + 1) c (by omega) (by omega) (hsubL c hc) (h ▸ hP)
            omega)]
        rw [h1, hc, show A ++ a :: r :: B = (A ++ [a]) ++ (r :: B) by simp, List.flatMap_append]
        simp
      · rw [if_neg hj1, W.cover j hj]
        apply List.flatMap_congr
        intro c hc
        rw [if_neg (fun h => by
          have := W.uniq (j + 1) (k + 1) c (by omega) (by omega) hc (h ▸ hP)
          omega)]
  · -- linked
    intro j hj
    simp only [Ghost.del] at hj ⊢
    by_cases hjk : j = k
    · subst hjk
      rw [if_pos rfl]
      rw [e, linked_append] at hlk
      obtain ⟨l1, l2, l3, l4, l5, l6, l7, l8⟩ := hlk
      rw [linked_append]
      have hn2 := hnk
      rw [e, List.nodup_append] at hn2
      obtain ⟨n1, n2, n3⟩ := hn2
      simp only [List.nodup_cons, List.mem_cons, not_or] at n2
      have hA : ∀ b ∈ A, b ≠ d ∧ b ≠ a ∧ b ≠ r := by
        intro b hb
        exact ⟨fun h => n3 b hb d (by simp) h, fun h => n3 b hb a (by simp) h, fun h => n3 b hb r (by simp) h⟩
      have hB : ∀ b ∈ B, b ≠ d ∧ b ≠ a ∧ b ≠ r := by
        intro b hb
        refine ⟨fun h => ?_, fun h => ?_, fun h => ?_⟩
        · subst h; exact n2.2.1.2 hb
        · subst h; exact n2.1.2.2 hb
        · subst h; exact n2.2.2.1 hb
      refine ⟨?_, ?_, ?_, ?_, ?_, ?_⟩
      · refine Linked.mono ?_ (fun b hb => ?_) (s := s)
        · simpa using l1
        · obtain ⟨h1, h2, h3⟩ := hA b hb
          rw [D.fo b h1]
          simp [h2, h3]
      · rw [D.fo a had]
        have : a ≠ r := n2.1.2.1
        simp only [if_neg this]
        exact l2
      · rw [D.fo a had]; simp
      · rw [D.fo r hrd]; simp
      · rw [D.fo r hrd]
        have : r ≠ a := fun h => n2.1.2.1 h.symm
        simp only [if_neg this]
        exact l7
      · refine Linked.mono l8 (fun b hb => ?_)
        obtain ⟨h1, h2, h3⟩ := hB b hb
        rw [D.fo b h1]
        simp [h2, h3]
    · rw [if_neg hjk]
      refine (W.linked j hj).mono (fun b hb => ?_)
      have hne : ∀ c, c ∈ G.lv k → b ≠ c := fun c hc h => hjk (W.uniq j k b hj (by omega) hb (h ▸ hc))
      rw [D.fo b (hne d hdk)]
      simp [hne a hak, hne r (by rw [e]; simp)]
  · intro i j b hi hj hbi hbj
    simp only [Ghost.del] at hi hj hbi hbj
    exact W.uniq i j b hi hj (hLd i hi b hbi).2 (hLd j hj b hbj).2
  · intro j hj
    simp only [Ghost.del] at hj ⊢
    split
    · rw [e2, List.nodup_middle, List.nodup_cons] at hnk
      simpa using hnk.2
    · exact W.nodup j hj
  · intro j hj b hb
    simp only [Ghost.del] at hj hb
    obtain ⟨h1, h2⟩ := hLd j hj b hb
    rw [D.fo b h1, D.next]
    exact W.alloc j hj b h2
  · intro b hb
    simp only [Ghost.del] at hb
    obtain ⟨h1, h2⟩ := hLd 0 (Nat.zero_le _) b hb
    rw [D.fo b h1]
    exact W.leaf b h2
  · -- inner
    intro j hj b hb
    change j < G.h at hj
    obtain ⟨h1, h2⟩ := hLd (j + 1) (by omega) b hb
    obtain ⟨i1, i2⟩ := W.inner j hj b h2
    refine ⟨by rw [D.fo b h1]; exact i1, ?_⟩
    have hlim : hiP key (t.page ((G.del k a d P (A ++ a :: r :: B) (G1 ++ G2)).tp b)) ≤ hiP key (t.page b) := by
      rw [hhi _ (hnotd (j + 1) (by omega) b h2), hhi b h1]
      exact (htp' b).trans i2.lim
    by_cases hbP : b = P
    · subst hbP
      have hjk : j = k := by
        have := W.uniq (j + 1) (k + 1) b (by omega) (by omega) h2 hP
        omega
      subst hjk
      rw [show (G.del j a d b (A ++ a :: r :: B) (G1 ++ G2)).kids b = G1 ++ G2 by simp [Ghost.del]]
      have hdn := i2.downs
      rw [hg] at hdn
      obtain ⟨D1, dd, D2, q1, q2, q3, q4, q5⟩ := forall₂_split hdn
      have hers : (t.page b).downs = D1 ++ D2 := by
        rw [D.fo b h1]
        simp only [if_true]
        rw [q1, List.eraseIdx_append_of_length_le (by omega), q2]
        simp
      have hgd : ∀ g ∈ G1 ++ G2, ∀ c ∈ g, c ≠ d := by
        intro g hgm c hc h
        subst h
        rw [hlev', List.nodup_middle, List.nodup_cons] at hnk
        apply hnk.1
        rcases List.mem_append.1 hgm with hgm | hgm
        · have : c ∈ G1.flatten := List.mem_flatten.2 ⟨g, hgm, hc⟩
          simp [this]
        · have : c ∈ G2.flatten := List.mem_flatten.2 ⟨g, hgm, hc⟩
          simp [this]
      refine ⟨?_, ?_, hlim, fun h => by simp at h⟩
      · rw [hers]
        have := List.rel_append q3 q5
        refine forall₂_imp_mem this (fun x g hg' hx => ⟨hx.1, fun c hc => ?_⟩)
        rw [hhi c (hgd g hg' c (List.mem_of_getLast? hc))]
        exact hx.2 c hc
      · intro g c hgl hcl
        simp only [Ghost.del]
        by_cases hG2 : G2 = []
        · subst hG2
          rw [List.append_nil] at hgl
          obtain ⟨gs, rfl⟩ := List.getLast?_eq_some_iff.1 hgl
          obtain ⟨cs, rfl⟩ := List.getLast?_eq_some_iff.1 hcl
          have hca : c = a := by
            have h3 : (X.flatMap (fun b => (G.kids b).flatten) ++ (gs ++ [cs ++ [c]]).flatten).getLast? = some c := by
              simp [List.flatten_append]
            rw [hAX] at h3
            simpa using h3.symm
          subst hca
          have htd : G.tp d = G.tp b := i2.last [d] d (by rw [hg]; simp) (by simp)
          rw [htd]
          simp
        · have hgl' : (G.kids b).getLast? = some g := by
            rw [hg, List.getLast?_append_cons]
            rw [List.getLast?_append] at hgl
            cases hl : G2.getLast? with
            | none => exact absurd (List.getLast?_eq_none_iff.1 hl) hG2
            | some g' =>
              rw [hl] at hgl
              simp only [Option.some_or, Option.some.injEq] at hgl
              subst hgl
              rw [List.getLast?_cons, hl]; rfl
          rw [i2.last g c hgl' hcl]
    · rw [show (G.del k a d P (A ++ a :: r :: B) (G1 ++ G2)).kids b = G.kids b by simp [Ghost.del, hbP]]
      have hkd : ∀ c ∈ (G.kids b).flatten, c ≠ d := by
        intro c hc h
        subst h
        have hcj := kids_mem W hj h2 hc
        have hjk : j = k := W.uniq j k c (by omega) (by omega) hcj hdk
        subst hjk
        exact hbP (kid_unique W hj h2 hP hc (by rw [hg]; simp))
      refine ⟨?_, ?_, hlim, fun h => by simp at h⟩
      · rw [D.fo b h1]
        simp only [if_neg hbP]
        refine forall₂_imp_mem i2.downs (fun x g hg' hx => ⟨hx.1, fun c hc => ?_⟩)
        rw [hhi c (hkd c (List.mem_flatten.2 ⟨g, hg', List.mem_of_getLast? hc⟩))]
        exact hx.2 c hc
      · intro g c hgl hcl
        simp only [Ghost.del]
        rw [i2.last g c hgl hcl]
  · -- order
    have hsl : List.Sublist ((G.del k a d P (A ++ a :: r :: B) (G1 ++ G2)).lv 0) (G.lv 0) := by
      simp only [Ghost.del]
      split
      · next h =>
        rw [h, e]
        refine List.Sublist.append_left (List.Sublist.cons_cons _ (List.sublist_cons_self _ _)) _
      · exact List.Sublist.refl _
    have hit : ∀ b ∈ (G.del k a d P (A ++ a :: r :: B) (G1 ++ G2)).lv 0, (t.page b).items = (s.page b).items ∧
        hiP key (t.page b) = hiP key (s.page b) ∧ b ∈ G.lv 0 := by
      intro b hb
      obtain ⟨h1, h2⟩ := hLd 0 (Nat.zero_le _) b hb
      exact ⟨by rw [D.fo b h1], hhi b h1, h2⟩
    refine ⟨(W.order.pair.sublist hsl).imp_of_mem (fun {x y} hx hy h => ?_), fun b hb => ?_, fun b hb => ?_⟩
    · rw [(hit x hx).2.1, (hit y hy).2.1, (hit y hy).1]; exact h
    · rw [(hit b hb).2.1, (hit b hb).1]; exact W.order.le b (hit b hb).2.2
    · rw [(hit b hb).1]; exact W.order.sorted b (hit b hb).2.2
  · intro b hb
    obtain ⟨h1, h2⟩ := hLd 0 (Nat.zero_le _) b hb
    simp only [Ghost.del]
    split
    · next h =>
      rw [W.tpl b h2] at h
      rcases hd with rfl | ⟨-, h'⟩
      · rw [W.tpl d hdk] at h; exact absurd h h1
      · rw [← h', ← h]
    · exact W.tpl b h2
  · intro j hj b hb
    exact htm' j hj b (hLd j hj b hb).2

/-- The invariant while pages are being deleted: only `c` may be an interior page without downlinks. -/
structure Thinned (key : α → K) (s : Store α) (root : Nat) (G : Ghost) (c : Nat) : Prop where
  thin : Thin key false s root G
  tpm : ∀ j, j ≤ G.h → ∀ b ∈ G.lv j, G.tp b ∈ G.lv 0
  full : Complete G
  first : ∀ k, k < G.h → ∀ b B, G.lv (k + 1) = b :: B → G.kids b ≠ []
  last : ∀ k, k < G.h → ∀ b B, G.lv (k + 1) = B ++ [b] → G.kids b ≠ []
  ne : ∀ k, k < G.h → ∀ b ∈ G.lv (k + 1), b ≠ c → G.kids b ≠ []
  prev : G.kids c = [] → ∀ k A a B, k < G.h → G.lv (k + 1) = A ++ a :: c :: B → G.tp c = G.tp a
  hlt : G.h < s.next

theorem Thinned.of_weak (W : Weak key false s root G) (hC : Complete G) (c : Nat) : Thinned key s root G c where
  thin := W.toThin
  tpm := tp_mem W
  full := hC
  first := fun k hk b B e => W.ne k hk b (by rw [e]; simp)
  last := fun k hk b B e => W.ne k hk b (by rw [e]; simp)
  ne := fun k hk b hb _ => W.ne k hk b hb
  prev := fun h k A a B hk e => absurd h (W.ne k hk c (by rw [e]; simp))
  hlt := height_lt W

theorem Thinned.weak {c : Nat} (T : Thinned key s root G c) (h : G.kids c ≠ []) : Weak key false s root G :=
  ⟨T.thin, fun k hk b hb => by
    by_cases hbc : b = c
    · subst hbc; exact h
    · exact T.ne k hk b hb hbc⟩

/-- The items of the leaves. -/
def flat (s : Store α) (G : Ghost) : List α := (G.lv 0).flatMap (fun b => (s.page b).items)

/-- The tree `t` has fewer pages than `s`, otherwise the same contents. -/
structure Less (s : Store α) (G : Ghost) (t : Store α) (G' : Ghost) : Prop where
  h : G'.h = G.h
  next : t.next = s.next
  flat : flat t G' = flat s G
  pages : ∀ j, j ≤ G.h → ∀ b ∈ G'.lv j, b ∈ G.lv j ∧ (t.page b).items = (s.page b).items ∧ (t.page b).bound = (s.page b).bound ∧
    (t.page b).downs.length ≤ (s.page b).downs.length

theorem Less.refl (s : Store α) (G : Ghost) : Less s G s G := ⟨rfl, rfl, rfl, fun _ _ _ hb => ⟨hb, rfl, rfl, Nat.le_refl _⟩⟩

theorem Less.trans {u : Store α} {G' G'' : Ghost} (h1 : Less s G t G') (h2 : Less t G' u G'') : Less s G u G'' := by
  refine ⟨h2.h.trans h1.h, h2.next.trans h1.next, h2.flat.trans h1.flat, fun j hj b hb => ?_⟩
  obtain ⟨a1, a2, a3, a4⟩ := h2.pages j (by rw [h1.h]; exact hj) b hb
  obtain ⟨b1, b2, b3, b4⟩ := h1.pages j hj b a1
  exact ⟨b1, a2.trans b2, a3.trans b3, a4.trans b4⟩

/-- One record of VACUUM, as far as running scans are concerned: leaves may be taken out of the chain (then they are marked as deleted), leaves
may lose items that are not live. -/
structure VStep (key : α → K) (live : α → Bool) (s : Store α) (G : Ghost) (u : Store α) (G' : Ghost) : Prop where
  h : G'.h = G.h
  next : u.next = s.next
  head : ∀ k, k ≤ G.h → (G'.lv k).head? = (G.lv k).head?
  sub : (G'.lv 0).Sublist (G.lv 0)
  gone : ∀ b ∈ G.lv 0, b ∈ G'.lv 0 ∨ (u.page b).deleted = true
  hi : ∀ c ∈ G'.lv 0, hiP key (u.page c) = hiP key (s.page c)
  items : ∀ c ∈ G'.lv 0, (u.page c).items = (s.page c).items ∨ (u.page c).items = (s.page c).items.filter live
  live : ∀ c ∈ G.lv 0, ∀ y ∈ (s.page c).items, live y = true → c ∈ G'.lv 0 ∧ y ∈ (u.page c).items

theorem deletePage_deleted {i : Nat} (h : deletePage s d P i = some t) : (t.page d).deleted = true := by
  unfold deletePage at h
  split at h
  · simp only at h
    split at h
    · cases h
      simp [Store.set_page]
    · cases h
  · cases h

theorem deletePage_pages {l r : Nat} (hl : (s.page d).left = some l) (hr : (s.page d).right = some r) (h1 : (s.page l).right = some d)
    (h2 : (s.page r).left = some d) (h3 : (s.page d).maxoff < 1) (hlr : l ≠ r) (hlP : l ≠ P) (hrP : r ≠ P) (i : Nat) :
    ∃ t, deletePage s d P (i + 1) = some t ∧ DelPages s t l d r P i := by
  unfold deletePage
  rw [hl, hr]
  simp only
  rw [if_pos ⟨h1, h2, h3⟩]
  refine ⟨_, rfl, ⟨fun c hc => ?_, rfl⟩⟩
  simp only [Store.set_page, if_neg hc, Nat.add_sub_cancel]
  by_cases e1 : c = P
  · subst e1
    rw [if_pos rfl, if_neg (fun h => hrP h.symm), if_neg (fun h => hlP h.symm)]
    simp only [if_true, if_neg (fun h : c = l => hlP h.symm), if_neg (fun h : c = r => hrP h.symm)]
  · simp only [if_neg e1]
    by_cases e2 : c = r
    · subst e2
      simp only [if_true, if_neg (fun h : c = l => hlr h.symm)]
    · simp only [if_neg e2]
      by_cases e3 : c = l
      · subst e3; simp
      · simp [e3]

theorem step_delete (live : α → Bool) (T : Thinned key s root G d) (hk : k < G.h) (hP : P ∈ G.lv (k + 1)) {i : Nat} (hi : (G.kids P)[i]? = some [d])
    (hemp : (s.page d).maxoff < 1) (hd0 : k = 0 ∨ G.kids d = []) :
    (∃ t G', deletePage s d P (i + 1) = some t ∧ Thinned key t root G' P ∧ Less s G t G' ∧ (∀ j, k < j → G'.lv j = G.lv j) ∧
      (∀ j, k ≤ j → j < G.h → ∀ Q ∈ G.lv (j + 1), Q ≠ P → G'.kids Q = G.kids Q) ∧ G'.kids P = (G.kids P).eraseIdx i ∧ VStep key live s G t G') ∨
    (deletePage s d P (i + 1) = none ∧ k = 0) := by
  have W := T.thin
  obtain ⟨hil, hie⟩ := List.getElem?_eq_some_iff.1 hi
  have hg : G.kids P = (G.kids P).take i ++ [d] :: (G.kids P).drop (i + 1) := by
    rw [← hie, ← List.drop_eq_getElem_cons hil, List.take_append_drop]
  have hlen : ((G.kids P).take i).length = i := by rw [List.length_take]; omega
  have hers : (G.kids P).eraseIdx i = (G.kids P).take i ++ (G.kids P).drop (i + 1) := List.eraseIdx_eq_take_drop_succ ..
  generalize hG1 : (G.kids P).take i = G1 at *
  generalize hG2 : (G.kids P).drop (i + 1) = G2 at *
  have hdk : d ∈ G.lv k := kids_mem W hk hP (by rw [hg]; simp)
  obtain ⟨A0, B0, e0⟩ := List.append_of_mem hdk
  have hlk := W.linked k (by omega)
  obtain ⟨hright, hleft⟩ := Linked.right (e0 ▸ hlk)
  rw [Option.or_none] at hright hleft
  have hends : k ≠ 0 → A0 ≠ [] ∧ B0 ≠ [] := by
    intro hk0
    have hkd : G.kids d = [] := by rcases hd0 with h | h; exact absurd h hk0; exact h
    obtain ⟨k', rfl⟩ : ∃ k', k = k' + 1 := ⟨k - 1, by omega⟩
    constructor
    · rintro rfl
      exact T.first k' (by omega) d B0 (by simpa using e0) hkd
    · rintro rfl
      exact T.last k' (by omega) d A0 e0 hkd
  cases hA0 : A0.getLast? with
  | none =>
    right
    rw [hA0] at hleft
    refine ⟨by unfold deletePage; rw [hleft], ?_⟩
    by_contra hk0
    exact (hends hk0).1 (List.getLast?_eq_none_iff.1 hA0)
  | some a =>
    cases hB0 : B0.head? with
    | none =>
      right
      rw [hB0] at hright
      refine ⟨by unfold deletePage; rw [hright, hleft, hA0], ?_⟩
      by_contra hk0
      exact (hends hk0).2 (List.head?_eq_none_iff.1 hB0)
    | some r =>
      left
      obtain ⟨A, rfl⟩ := List.getLast?_eq_some_iff.1 hA0
      obtain ⟨B, rfl⟩ := List.head?_eq_some_iff.1 hB0
      have e : G.lv k = A ++ a :: d :: r :: B := by rw [e0]; simp
      have hra : (s.page a).right = some d := by
        have := (Linked.right (e ▸ hlk)).1
        simpa using this
      have hlr : (s.page r).left = some d := by
        have e3 : G.lv k = (A ++ [a, d]) ++ r :: B := by rw [e]; simp
        have := (Linked.right (e3 ▸ hlk)).2
        simpa using this
      have hnk := W.nodup k (by omega)
      have hne : a ≠ r := by
        have := hnk
        rw [e, List.nodup_append] at this
        have := this.2.1
        simp only [List.nodup_cons, List.mem_cons, not_or] at this
        exact this.1.2.1
      have hlP : ∀ c ∈ G.lv k, c ≠ P := fun c hc h => by
        have := W.uniq k (k + 1) c (by omega) (by omega) hc (h ▸ hP)
        omega
      obtain ⟨t, ht, D⟩ := deletePage_pages (P := P) (by rw [hleft, hA0]) (by rw [hright, hB0]) hra hlr hemp hne
        (hlP a (by rw [e]; simp)) (hlP r (by rw [e]; simp)) i
      have hd : k = 0 ∨ (G.kids d = [] ∧ G.tp d = G.tp a) := by
        rcases Nat.eq_zero_or_pos k with h | h
        · exact Or.inl h
        · right
          have hkd : G.kids d = [] := by rcases hd0 with h' | h'; omega; exact h'
          obtain ⟨k', rfl⟩ : ∃ k', k = k' + 1 := ⟨k - 1, by omega⟩
          exact ⟨hkd, T.prev hkd k' A a (r :: B) (by omega) e⟩
      obtain ⟨T1, T2⟩ := W.delete T.tpm hk hP hg e hd (by rw [hlen]; exact D)
      -- facts as in the proof of the lemma
      have e2 : G.lv k = (A ++ [a]) ++ d :: (r :: B) := by rw [e]; simp
      have hdL : d ∉ A ++ a :: r :: B := by
        have := hnk
        rw [e2, List.nodup_middle, List.nodup_cons] at this
        simpa using this.1
      have hsubL : ∀ c ∈ A ++ a :: r :: B, c ∈ G.lv k := by
        intro c hc; rw [e]; simp only [List.mem_append, List.mem_cons] at hc ⊢
        rcases hc with h | h | h | h <;> simp [h]
      have hLd : ∀ j, j ≤ G.h → ∀ c ∈ (if j = k then A ++ a :: r :: B else G.lv j), c ≠ d ∧ c ∈ G.lv j := by
        intro j hj c hc
        split at hc
        · next h => subst h; exact ⟨fun h => hdL (h ▸ hc), hsubL c hc⟩
        · next h => exact ⟨fun h' => h (W.uniq j k d hj (by omega) (h' ▸ hc) hdk), hc⟩
      obtain ⟨X, Y, hX⟩ := List.append_of_mem hP
      have hlev := level_split W hk hX hg
      have hlev' : G.lv k = (X.flatMap (fun b => (G.kids b).flatten) ++ G1.flatten) ++ d ::
          (G2.flatten ++ Y.flatMap (fun b => (G.kids b).flatten)) := by rw [hlev]; simp
      obtain ⟨hAX, hBY⟩ := nodup_split (hlev'.symm.trans e2) (hlev' ▸ hnk)
      have hnP := W.nodup (k + 1) (by omega)
      have hPXY : P ∉ X ∧ P ∉ Y := by
        rw [hX, List.nodup_middle, List.nodup_cons] at hnP
        simpa using hnP.1
      have hhead : ∀ b L, A ++ a :: r :: B = b :: L → ∃ L', G.lv k = b :: L' := by
        intro b L h
        rw [e]
        cases A with
        | nil => simp only [List.nil_append, List.cons.injEq] at h; exact ⟨_, by rw [← h.1]; rfl⟩
        | cons x A => simp only [List.cons_append, List.cons.injEq] at h; exact ⟨_, by rw [← h.1]; rfl⟩
      have hlast : ∀ b L, A ++ a :: r :: B = L ++ [b] → ∃ L', G.lv k = L' ++ [b] := by
        intro b L h
        have h1 : (r :: B).getLast? = some b := by
          have := congrArg List.getLast? h
          rw [List.getLast?_append_cons, List.getLast?_cons_cons] at this
          simpa using this
        obtain ⟨L', h2⟩ := List.getLast?_eq_some_iff.1 h1
        refine ⟨A ++ a :: d :: L', ?_⟩
        rw [e, h2]; simp
      refine ⟨t, _, ht, ⟨T1, T2, ?_, ?_, ?_, ?_, ?_, ?_⟩, ⟨rfl, D.next, ?_, ?_⟩, ?_, ?_, ?_, ⟨rfl, D.next, ?_, ?_, ?_, ?_, ?_, ?_⟩⟩
      · -- complete
        intro j hj b hb g hgm
        obtain ⟨h1, h2⟩ := hLd (j + 1) hj b hb
        simp only [Ghost.del] at hgm
        split at hgm
        · next h =>
          subst h
          refine T.full j hj b h2 g ?_
          rw [hg]
          rcases List.mem_append.1 hgm with h | h <;> simp [h]
        · exact T.full j hj b h2 g hgm
      · intro j hj b L hL
        change j < G.h at hj
        simp only [Ghost.del] at hL ⊢
        by_cases hbP : b = P
        · subst hbP
          rw [if_pos rfl]
          have hjk : j = k := by
            have := W.uniq (j + 1) (k + 1) b (by omega) (by omega) (by
              split at hL
              · exact (hLd (j + 1) (by omega) b (by rw [if_pos (by assumption), hL]; simp)).2
              · rw [hL]; simp) hP
            omega
          subst hjk
          rw [if_neg (by omega), hX] at hL
          have hX0 : X = [] := by
            cases X with
            | nil => rfl
            | cons x X =>
              simp only [List.cons_append, List.cons.injEq] at hL
              exact absurd hL.1 (fun h => hPXY.1 (by simp [h]))
          subst hX0
          intro h0
          rw [List.append_eq_nil_iff] at h0
          rw [h0.1] at hAX
          simp at hAX
        · rw [if_neg hbP]
          split at hL
          · next h =>
            obtain ⟨L', hL'⟩ := hhead b L hL
            exact T.first j hj b L' (by rw [h]; exact hL')
          · exact T.first j hj b L hL
      · intro j hj b L hL
        change j < G.h at hj
        simp only [Ghost.del] at hL ⊢
        by_cases hbP : b = P
        · subst hbP
          rw [if_pos rfl]
          have hjk : j = k := by
            have := W.uniq (j + 1) (k + 1) b (by omega) (by omega) (by
              split at hL
              · exact (hLd (j + 1) (by omega) b (by rw [if_pos (by assumption), hL]; simp)).2
              · rw [hL]; simp) hP
            omega
          subst hjk
          rw [if_neg (by omega), hX] at hL
          have hY0 : Y = [] := by
            cases hY : Y.getLast? with
            | none => exact List.getLast?_eq_none_iff.1 hY
            | some y =>
              have := congrArg List.getLast? hL
              rw [List.getLast?_append_cons, List.getLast?_cons, hY] at this
              simp at this
              exact absurd (List.mem_of_getLast? hY) (by rw [this]; exact hPXY.2)
          subst hY0
          intro h0
          rw [List.append_eq_nil_iff] at h0
          rw [h0.2] at hBY
          simp at hBY
        · rw [if_neg hbP]
          split at hL
          · next h =>
            obtain ⟨L', hL'⟩ := hlast b L hL
            exact T.last j hj b L' (by rw [h]; exact hL')
          · exact T.last j hj b L hL
      · intro j hj b hb hbP
        change j < G.h at hj
        obtain ⟨h1, h2⟩ := hLd (j + 1) (by omega) b hb
        simp only [Ghost.del, if_neg hbP]
        exact T.ne j hj b h2 h1
      · intro h0 j A' a' B' hj hL
        change j < G.h at hj
        simp only [Ghost.del, if_true] at h0
        have hPj : P ∈ G.lv (j + 1) := (hLd (j + 1) (by omega) P (by
          have : P ∈ A' ++ a' :: P :: B' := by simp
          rw [← hL] at this; exact this)).2
        have hjk : j = k := by
          have := W.uniq (j + 1) (k + 1) P (by omega) (by omega) hPj hP
          omega
        subst hjk
        simp only [Ghost.del] at hL ⊢
        rw [if_neg (by omega), hX, show A' ++ a' :: P :: B' = (A' ++ [a']) ++ P :: B' by simp] at hL
        obtain ⟨hXA, -⟩ := nodup_split hL (hX ▸ hnP)
        rw [List.append_eq_nil_iff] at h0
        obtain ⟨rfl, rfl⟩ := h0
        have ha'm : a' ∈ G.lv (j + 1) := by rw [hX, hXA]; simp
        have ha'P : a' ≠ d := fun h => by
          have := W.uniq (j + 1) j a' (by omega) (by omega) ha'm (h ▸ hdk)
          omega
        have htd : G.tp d = G.tp P := (W.inner j hj P hP).2.last [d] d (by rw [hg]; simp) (by simp)
        obtain ⟨g, c, -, -, hfl, htc⟩ := (W.inner j hj a' ha'm).2.last_kid (T.ne j hj a' ha'm ha'P)
        have hca : c = a := by
          have h3 := congrArg List.getLast? hAX
          rw [hXA, List.flatMap_append, List.flatMap_singleton] at h3
          simp only [List.flatten_nil, List.append_nil, List.getLast?_append, hfl] at h3
          simpa using h3
        subst hca
        rw [if_pos htd.symm]
        split
        · rfl
        · exact htc
      · show G.h < t.next
        rw [D.next]; exact T.hlt
      · -- contents
        unfold flat
        simp only [Ghost.del]
        by_cases h0 : 0 = k
        · subst h0
          rw [if_pos rfl, e2, show A ++ a :: r :: B = (A ++ [a]) ++ (r :: B) by simp]
          have hdL1 : d ∉ (A ++ [a]) ++ (r :: B) := by simpa using hdL
          generalize A ++ [a] = A1 at hdL1 ⊢
          generalize r :: B = B1 at hdL1 ⊢
          rw [List.flatMap_append, List.flatMap_append, List.flatMap_cons]
          have hitd : (s.page d).items = [] := by
            unfold Page.maxoff at hemp
            rw [if_pos (W.leaf d hdk)] at hemp
            exact List.length_eq_zero_iff.1 (by omega)
          rw [hitd, List.nil_append]
          congr 1 <;> apply List.flatMap_congr <;> intro c hc
          · rw [D.fo c (fun h => hdL1 (by rw [← h]; simp [hc]))]
          · rw [D.fo c (fun h => hdL1 (by rw [← h]; simp [hc]))]
        · rw [if_neg h0]
          apply List.flatMap_congr
          intro c hc
          rw [D.fo c (fun h => h0 (W.uniq 0 k d (by omega) (by omega) (h ▸ hc) hdk))]
      · intro j hj b hb
        obtain ⟨h1, h2⟩ := hLd j hj b hb
        rw [D.fo b h1]
        refine ⟨h2, rfl, rfl, ?_⟩
        simp only
        split
        · exact (List.eraseIdx_sublist _ _).length_le
        · exact Nat.le_refl _
      · intro j hj
        simp only [Ghost.del]
        rw [if_neg (by omega)]
      · intro j hj _ Q _ hQP
        simp only [Ghost.del, if_neg hQP]
      · simp only [Ghost.del, if_true]
        rw [hers]
      · intro j hj
        simp only [Ghost.del]
        split
        · next h =>
          subst h
          rw [e]
          cases A <;> rfl
        · rfl
      · simp only [Ghost.del]
        split
        · next h =>
          subst h
          rw [e]
          exact List.Sublist.append (List.Sublist.refl _) (List.Sublist.cons_cons _ (List.sublist_cons_self _ _))
        · exact List.Sublist.refl _
      · intro b hb
        by_cases hbd : b = d
        · subst hbd; exact Or.inr (deletePage_deleted ht)
        · left
          simp only [Ghost.del]
          split
          · next h =>
            subst h
            rw [e] at hb
            simp only [List.mem_append, List.mem_cons] at hb ⊢
            rcases hb with h | h | h | h | h
            · exact Or.inl h
            · exact Or.inr (Or.inl h)
            · exact absurd h hbd
            · exact Or.inr (Or.inr (Or.inl h))
            · exact Or.inr (Or.inr (Or.inr h))
          · exact hb
      · intro c hc
        obtain ⟨h1, h2⟩ := hLd 0 (Nat.zero_le _) c hc
        rw [D.fo c h1]
        unfold hiP
        simp only
        by_cases h : c = a
        · subst h; rw [if_pos rfl, hra]
        · rw [if_neg h]
      · intro c hc
        obtain ⟨h1, h2⟩ := hLd 0 (Nat.zero_le _) c hc
        rw [D.fo c h1]
        exact Or.inl rfl
      · intro c hc y hy _
        have hcd : c ≠ d := by
          rintro rfl
          have h0 : k = 0 := W.uniq k 0 c (by omega) (Nat.zero_le _) hdk hc
          subst h0
          unfold Page.maxoff at hemp
          rw [if_pos (W.leaf c hdk)] at hemp
          rw [List.length_eq_zero_iff.1 (show (s.page c).items.length = 0 by omega)] at hy
          simp at hy
        refine ⟨?_, by rw [D.fo c hcd]; exact hy⟩
        simp only [Ghost.del]
        split
        · next h =>
          subst h
          rw [e] at hc
          simp only [List.mem_append, List.mem_cons] at hc ⊢
          rcases hc with h | h | h | h | h
          · exact Or.inl h
          · exact Or.inr (Or.inl h)
          · exact absurd h hcd
          · exact Or.inr (Or.inr (Or.inl h))
          · exact Or.inr (Or.inr (Or.inr h))
        · exact hc
end del
end Rum.Tree

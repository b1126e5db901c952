import Verif.TreeInsert
/-
What a record of an insertion leaves alone: apparatus for concurrent threads.
-/
namespace Rum.Tree
open Rum Rum.Entry

variable {α K : Type} [LinearOrder K]

/-- `r` follows `b` in a group of children. -/
def Adj (G : Ghost) (b r : Nat) : Prop := ∃ k P u v, k < G.h ∧ b ∈ G.lv k ∧ P ∈ G.lv (k + 1) ∧ (u ++ b :: r :: v) ∈ G.kids P

/-- First child of an interior page. -/
def Ghost.fst (G : Ghost) (b : Nat) : Option Nat := (G.kids b).head?.bind List.head?

/-- What stays. `bad`: the pages whose successor in the group may change; `new`: the pairs of neighbours that are new. -/
structure Keeps (root : Nat) (bad : Nat → Prop) (new : Nat → Nat → Prop) (G G' : Ghost) : Prop where
  h : G.h ≤ G'.h
  mem : ∀ k, k ≤ G.h → ∀ b ∈ G.lv k, b ≠ root → b ∈ G'.lv k
  hd : ∀ k, k < G.h → ∀ b ∈ G.lv (k + 1), b ≠ root → G'.fst b = G.fst b
  adj : ∀ b r, b ≠ root → ¬ bad b → Adj G b r → Adj G' b r
  adj' : ∀ b r, Adj G' b r → (Adj G b r ∧ ¬ bad b) ∨ new b r
  path : ∀ k up, k < G.h → PathOK root G k up → PathOK root G' k up
  lhead : ∀ k, k < G.h → (G'.lv k).head? = (G.lv k).head?
  ord : ∀ k c P A p B, k < G.h → G.lv (k + 1) = A ++ p :: B → p ≠ root → P ∈ p :: B → c ∈ (G.kids P).flatten →
    ∃ P' A' B', G'.lv (k + 1) = A' ++ p :: B' ∧ P' ∈ p :: B' ∧ c ∈ (G'.kids P').flatten

theorem Keeps.refl (root : Nat) (G : Ghost) : Keeps root (fun _ => False) (fun _ _ => False) G G :=
  ⟨Nat.le_refl _, fun _ _ _ h _ => h, fun _ _ _ _ _ => rfl, fun _ _ _ _ h => h, fun _ _ h => Or.inl ⟨h, fun h => h⟩, fun _ _ _ h => h,
    fun _ _ => rfl, fun _ _ P A _ B _ e _ hP hc => ⟨P, A, B, e, hP, hc⟩⟩

theorem Keeps.trans {root : Nat} {bad bad' bad2 : Nat → Prop} {new new' new2 : Nat → Nat → Prop} {G G' G'' : Ghost}
    (h1 : Keeps root bad new G G') (h2 : Keeps root bad' new' G' G'')
    (hb : ∀ c d, Adj G c d → ¬ bad2 c → ¬ bad c ∧ ¬ bad' c)
    (hn : ∀ c d, (Adj G c d ∧ ¬ bad c ∧ ¬ bad' c) ∨ (new c d ∧ ¬ bad' c) ∨ new' c d → (Adj G c d ∧ ¬ bad2 c) ∨ new2 c d) :
    Keeps root bad2 new2 G G'' where
  h := h1.h.trans h2.h
  mem := fun k hk b hb hr => h2.mem k (hk.trans h1.h) b (h1.mem k hk b hb hr) hr
  hd := fun k hk b hb hr => by
    rw [h2.hd k (Nat.lt_of_lt_of_le hk h1.h) b (h1.mem (k + 1) hk b hb hr) hr, h1.hd k hk b hb hr]
  adj := fun b r hr hn h => h2.adj b r hr (hb b r h hn).2 (h1.adj b r hr (hb b r h hn).1 h)
  adj' := by
    intro b r h
    apply hn
    rcases h2.adj' b r h with ⟨h, hb'⟩ | h
    · rcases h1.adj' b r h with ⟨h, hb⟩ | h
      · exact Or.inl ⟨h, hb, hb'⟩
      · exact Or.inr (Or.inl ⟨h, hb'⟩)
    · exact Or.inr (Or.inr h)
  path := fun k up hk h => h2.path k up (Nat.lt_of_lt_of_le hk h1.h) (h1.path k up hk h)
  lhead := fun k hk => (h2.lhead k (Nat.lt_of_lt_of_le hk h1.h)).trans (h1.lhead k hk)
  ord := fun k c P A p B hk e hr hP hc => by
    obtain ⟨P1, A1, B1, e1, hP1, hc1⟩ := h1.ord k c P A p B hk e hr hP hc
    exact h2.ord k c P1 A1 p B1 (Nat.lt_of_lt_of_le hk h1.h) e1 hr hP1 hc1

variable {key : α → K} {strict : Bool} {s : Store α} {root : Nat} {G : Ghost}

theorem keeps_add (W : Weak key strict s root G) {k0 P b r : Nat} {t : List Nat} {G1 G2 : List (List Nat)} (hk0 : k0 < G.h)
    (hP : P ∈ G.lv (k0 + 1)) (hk : G.kids P = G1 ++ (b :: r :: t) :: G2) :
    Keeps root (fun c => c = b) (fun _ _ => False) G (G.setKids P (G1 ++ [b] :: (r :: t) :: G2)) where
  h := Nat.le_refl _
  mem := fun _ _ _ h _ => h
  hd := by
    intro k _ c _ _
    simp only [Ghost.fst, Ghost.setKids]
    split
    · next h => subst h; rw [hk]; cases G1 <;> rfl
    · rfl
  adj := by
    rintro c d - hc ⟨k, Q, u, v, h1, h2, h3, h4⟩
    by_cases hQ : Q = P
    · subst hQ
      rw [hk] at h4
      have hm : ∀ g, g ∈ G1 ++ [b] :: (r :: t) :: G2 → g ∈ (G.setKids Q (G1 ++ [b] :: (r :: t) :: G2)).kids Q := by
        intro g hg
        simpa [Ghost.setKids] using hg
      rcases List.mem_append.1 h4 with h4 | h4
      · exact ⟨k, Q, u, v, h1, h2, h3, hm _ (by simp [h4])⟩
      · rcases List.mem_cons.1 h4 with h4 | h4
        · cases u with
          | nil => simp only [List.nil_append, List.cons.injEq] at h4; exact absurd h4.1 hc
          | cons a u =>
            simp only [List.cons_append, List.cons.injEq] at h4
            exact ⟨k, Q, u, v, h1, h2, h3, hm _ (by rw [h4.2]; simp)⟩
        · exact ⟨k, Q, u, v, h1, h2, h3, hm _ (by simp [h4])⟩
    · exact ⟨k, Q, u, v, h1, h2, h3, by simpa [Ghost.setKids, hQ] using h4⟩
  adj' := by
    rintro c d ⟨k, Q, u, v, h1, h2, h3, h4⟩
    left
    change k < G.h at h1
    have hnd := kids_nodup W hk0 hP
    rw [hk] at hnd
    have hnd' : (G1 ++ [b] :: (r :: t) :: G2).flatten.Nodup := by simpa using hnd
    by_cases hQ : Q = P
    · subst hQ
      have h4 : u ++ c :: d :: v ∈ G1 ++ [b] :: (r :: t) :: G2 := by simpa [Ghost.setKids] using h4
      refine ⟨?_, ?_⟩
      · rcases List.mem_append.1 h4 with h4 | h4
        · exact ⟨k, Q, u, v, h1, h2, h3, by rw [hk]; simp [h4]⟩
        · rcases List.mem_cons.1 h4 with h4 | h4
          · have := congrArg List.length h4; simp at this; omega
          · rcases List.mem_cons.1 h4 with h4 | h4
            · exact ⟨k, Q, b :: u, v, h1, h2, h3, by rw [hk, ← h4]; simp⟩
            · exact ⟨k, Q, u, v, h1, h2, h3, by rw [hk]; simp [h4]⟩
      · rintro rfl
        obtain ⟨-, hd⟩ := List.nodup_flatten.1 hnd'
        obtain ⟨-, d2, d3⟩ := List.pairwise_append.1 hd
        have hc : c ∈ u ++ c :: d :: v := by simp
        rcases List.mem_append.1 h4 with h4 | h4
        · exact d3 _ h4 [c] (by simp) hc (by simp)
        · rcases List.mem_cons.1 h4 with h4 | h4
          · have := congrArg List.length h4; simp at this; omega
          · exact (List.pairwise_cons.1 d2).1 _ h4 (by simp : c ∈ [c]) hc
    · have h4' : u ++ c :: d :: v ∈ G.kids Q := by simpa [Ghost.setKids, hQ] using h4
      refine ⟨⟨k, Q, u, v, h1, h2, h3, h4'⟩, ?_⟩
      rintro rfl
      exact hQ (parent_unique W h1 hk0 h3 hP (c := c) (List.mem_flatten.2 ⟨_, h4', by simp⟩) (by rw [hk]; simp))
  path := fun _ _ _ h => path_setKids h
  lhead := fun _ _ => rfl
  ord := by
    intro k c Q A p B _ e _ hQ hc
    refine ⟨Q, A, B, e, hQ, ?_⟩
    simp only [Ghost.setKids]
    split
    · next h => subst h; rw [hk] at hc; simpa using hc
    · exact hc

theorem head_take {β : Type} (l : List β) {m : Nat} (hm : 1 ≤ m) : (l.take m).head? = l.head? := by
  obtain ⟨m, rfl⟩ : ∃ n, m = n + 1 := ⟨m - 1, by omega⟩
  cases l <;> simp

theorem keeps_split (W : Weak key strict s root G) {c r m : Nat} (hfr : ∀ j, j ≤ G.h → r ∉ G.lv j)
    (hm : ∀ k, k < G.h → c ∈ G.lv (k + 1) → 1 ≤ m) :
    Keeps root (fun d => d = c) (fun x y => (x = c ∧ y = r) ∨ (x = r ∧ Adj G c y)) G (G.split c r m) where
  h := Nat.le_refl _
  mem := fun _ _ _ h _ => mem_ins_of h
  hd := by
    intro k hk b hb _
    have hbr : b ≠ r := fun h => hfr (k + 1) hk (h ▸ hb)
    simp only [Ghost.fst, Ghost.split]
    rw [if_neg hbr]
    have aux : ∀ l : List (List Nat), (l.map (ins c r)).head?.bind List.head? = l.head?.bind List.head? := by
      intro l
      cases l with
      | nil => rfl
      | cons g l => simp [head_ins]
    split
    · next h =>
      subst h
      rw [aux, head_take _ (hm k hk hb)]
    · rw [aux]
  adj := by
    rintro b d hr hc ⟨k, Q, u, v, h1, h2, h3, h4⟩
    have hQr : Q ≠ r := fun h => hfr (k + 1) h1 (h ▸ h3)
    have hins : ∃ v', ins c r (u ++ b :: d :: v) = ins c r u ++ b :: d :: v' := by
      rw [ins_append]
      have : ins c r (b :: d :: v) = b :: ins c r (d :: v) := by
        show (if b = c then [c, r] else [b]) ++ ins c r (d :: v) = _
        rw [if_neg hc]; rfl
      rw [this]
      have hh := head_ins c r (d :: v)
      cases he : ins c r (d :: v) with
      | nil => rw [he] at hh; simp at hh
      | cons d' v' =>
        rw [he] at hh
        simp only [List.head?_cons, Option.some.injEq] at hh
        exact ⟨v', by rw [hh]⟩
    obtain ⟨v', hv⟩ := hins
    by_cases hQ : Q = c
    · rw [hQ] at h3 h4 hQr
      rw [← List.take_append_drop m (G.kids c)] at h4
      rcases List.mem_append.1 h4 with h4 | h4
      · refine ⟨k, c, ins c r u, v', h1, mem_ins_of h2, mem_ins_of h3, ?_⟩
        rw [← hv]
        simp only [Ghost.split]
        rw [if_neg hQr]
        simp only [if_true]
        exact List.mem_map.2 ⟨_, h4, rfl⟩
      · refine ⟨k, r, ins c r u, v', h1, mem_ins_of h2, ?_, ?_⟩
        · refine List.mem_flatMap.2 ⟨c, h3, by simp⟩
        rw [← hv]
        simp only [Ghost.split, if_true]
        exact List.mem_map.2 ⟨_, h4, rfl⟩
    · refine ⟨k, Q, ins c r u, v', h1, mem_ins_of h2, mem_ins_of h3, ?_⟩
      rw [← hv]
      simp only [Ghost.split]
      rw [if_neg hQr, if_neg hQ]
      exact List.mem_map.2 ⟨_, h4, rfl⟩
  adj' := by
    rintro b d ⟨k, Q, u, v, h1, h2, h3, h4⟩
    change k < G.h at h1
    -- the group before
    obtain ⟨Q0, hQ0, g0, hg0, e0⟩ : ∃ Q0 ∈ G.lv (k + 1), ∃ g0 ∈ G.kids Q0, u ++ b :: d :: v = ins c r g0 := by
      simp only [Ghost.split] at h4
      by_cases hQr : Q = r
      · rw [if_pos hQr] at h4
        obtain ⟨g0, h5, h6⟩ := List.mem_map.1 h4
        have hc : c ∈ G.lv (k + 1) := by
          rcases mem_ins h3 with h | h
          · exact absurd (hQr ▸ h) (hfr (k + 1) h1)
          · exact h.2
        exact ⟨c, hc, g0, List.mem_of_mem_drop h5, h6.symm⟩
      · rw [if_neg hQr] at h4
        have hQ : Q ∈ G.lv (k + 1) := by
          rcases mem_ins h3 with h | h
          · exact h
          · exact absurd h.1 hQr
        by_cases hQc : Q = c
        · rw [if_pos hQc] at h4
          obtain ⟨g0, h5, h6⟩ := List.mem_map.1 h4
          exact ⟨c, hQc ▸ hQ, g0, List.mem_of_mem_take h5, h6.symm⟩
        · rw [if_neg hQc] at h4
          obtain ⟨g0, h5, h6⟩ := List.mem_map.1 h4
          exact ⟨Q, hQ, g0, h5, h6.symm⟩
    have hsub : ∀ x ∈ g0, x ∈ G.lv k := fun x hx => kids_mem W.toThin h1 hQ0 (List.mem_flatten.2 ⟨g0, hg0, hx⟩)
    have hrg : r ∉ g0 := fun h => hfr k (by omega) (hsub r h)
    have hnd : g0.Nodup := (List.nodup_flatten.1 (kids_nodup W h1 hQ0)).1 g0 hg0
    by_cases hcg : c ∈ g0
    · obtain ⟨X, Y, rfl⟩ := List.append_of_mem hcg
      have hX : c ∉ X := by
        rw [List.nodup_append] at hnd
        exact fun h => hnd.2.2 c h c (by simp) rfl
      have hY : c ∉ Y := by
        rw [List.nodup_append] at hnd
        exact (List.nodup_cons.1 hnd.2.1).1
      rw [ins_split _ _ _ _ hX hY] at e0
      have hadj : ∀ x y X' Y', X ++ c :: Y = X' ++ x :: y :: Y' → Adj G x y := fun x y X' Y' e =>
        ⟨k, Q0, X', Y', h1, hsub x (by rw [e]; simp), hQ0, by rw [← e]; exact hg0⟩
      -- position of b
      rcases List.append_eq_append_iff.1 e0 with ⟨Z, hZ1, hZ2⟩ | ⟨Z, hZ1, hZ2⟩
      · -- X = u ++ Z, b :: d :: v = Z ++ c :: r :: Y
        cases Z with
        | nil =>
          simp only [List.nil_append, List.cons.injEq] at hZ2
          exact Or.inr (Or.inl ⟨hZ2.1, hZ2.2.1⟩)
        | cons z Z =>
          simp only [List.cons_append, List.cons.injEq] at hZ2
          obtain ⟨rfl, hZ2⟩ := hZ2
          have hbc : b ≠ c := fun h => hX (by rw [hZ1, h]; simp)
          cases Z with
          | nil =>
            simp only [List.nil_append, List.cons.injEq] at hZ2
            refine Or.inl ⟨hadj b d u Y ?_, hbc⟩
            rw [hZ1, hZ2.1]; simp
          | cons z Z =>
            simp only [List.cons_append, List.cons.injEq] at hZ2
            obtain ⟨rfl, hZ2⟩ := hZ2
            refine Or.inl ⟨hadj b d u (Z ++ c :: Y) ?_, hbc⟩
            rw [hZ1]; simp
      · -- u = X ++ Z, c :: r :: Y = Z ++ b :: d :: v
        cases Z with
        | nil =>
          simp only [List.nil_append, List.cons.injEq] at hZ2
          exact Or.inr (Or.inl ⟨hZ2.1.symm, hZ2.2.1.symm⟩)
        | cons z Z =>
          simp only [List.cons_append, List.cons.injEq] at hZ2
          obtain ⟨rfl, hZ2⟩ := hZ2
          cases Z with
          | nil =>
            simp only [List.nil_append, List.cons.injEq] at hZ2
            obtain ⟨rfl, rfl⟩ := hZ2
            exact Or.inr (Or.inr ⟨rfl, hadj c d X v rfl⟩)
          | cons z Z =>
            simp only [List.cons_append, List.cons.injEq] at hZ2
            obtain ⟨rfl, rfl⟩ := hZ2
            refine Or.inl ⟨hadj b d (X ++ c :: Z) v (by simp), fun h => hY (by rw [← h]; simp)⟩
    · rw [ins_not_mem _ _ _ hcg] at e0
      refine Or.inl ⟨⟨k, Q0, u, v, h1, hsub b (by rw [← e0]; simp), hQ0, by rw [e0]; exact hg0⟩, fun h => hcg ?_⟩
      rw [← e0, ← h]; simp
  path := fun _ _ _ h => path_split h
  lhead := fun _ _ => head_ins _ _ _
  ord := by
    intro k x P A p B hk e hp hP hx
    have hpr : p ≠ r := fun h => hfr (k + 1) hk (by rw [e, h]; simp)
    have hlv : (G.split c r m).lv (k + 1) = ins c r A ++ p :: ((if p = c then [r] else []) ++ ins c r B) := by
      show ins c r (G.lv (k + 1)) = _
      rw [e, ins_append]
      congr 1
      show (if p = c then [c, r] else [p]) ++ ins c r B = _
      split
      · next h => rw [h]; simp
      · simp
    have hmem : ∀ Q, Q ∈ p :: B → Q ∈ p :: ((if p = c then [r] else []) ++ ins c r B) := by
      intro Q hQ
      rcases List.mem_cons.1 hQ with rfl | hQ
      · simp
      · exact List.mem_cons_of_mem _ (List.mem_append_right _ (mem_ins_of hQ))
    have hmemr : c ∈ p :: B → r ∈ p :: ((if p = c then [r] else []) ++ ins c r B) := by
      intro hQ
      by_cases hpc : p = c
      · rw [if_pos hpc]; simp
      · have : c ∈ B := by
          rcases List.mem_cons.1 hQ with h | h
          · exact absurd h.symm hpc
          · exact h
        refine List.mem_cons_of_mem _ (List.mem_append_right _ (List.mem_flatMap.2 ⟨c, this, by simp⟩))
    have hP' : P ∈ G.lv (k + 1) := by rw [e]; exact List.mem_append_right _ hP
    have hPr : P ≠ r := fun h => hfr (k + 1) hk (h ▸ hP')
    obtain ⟨g, hg, hxg⟩ := List.mem_flatten.1 hx
    by_cases hPc : P = c
    · subst hPc
      rw [← List.take_append_drop m (G.kids P)] at hg
      rcases List.mem_append.1 hg with hg | hg
      · refine ⟨P, _, _, hlv, hmem P hP, ?_⟩
        simp only [Ghost.split]
        rw [if_neg hPr]
        simp only [if_true]
        exact List.mem_flatten.2 ⟨_, List.mem_map.2 ⟨g, hg, rfl⟩, mem_ins_of hxg⟩
      · refine ⟨r, _, _, hlv, hmemr hP, ?_⟩
        simp only [Ghost.split, if_true]
        exact List.mem_flatten.2 ⟨_, List.mem_map.2 ⟨g, hg, rfl⟩, mem_ins_of hxg⟩
    · refine ⟨P, _, _, hlv, hmem P hP, ?_⟩
      simp only [Ghost.split]
      rw [if_neg hPr, if_neg hPc]
      exact List.mem_flatten.2 ⟨_, List.mem_map.2 ⟨g, hg, rfl⟩, mem_ins_of hxg⟩

/-- The new page follows the page it was split off from. -/
theorem split_adj (W : Weak key strict s root G) {k b r m : Nat} (hk : k < G.h) (hb : b ∈ G.lv k) (hfr : ∀ j, j ≤ G.h → r ∉ G.lv j) :
    Adj (G.split b r m) b r := by
  obtain ⟨P, G1, g, G2, hP, hg, hbg⟩ := exists_parent W hk hb
  obtain ⟨X, Y, rfl⟩ := List.append_of_mem hbg
  have hPb : P ≠ b := fun h => by have := W.uniq (k + 1) k P (by omega) (by omega) hP (h ▸ hb); omega
  have hPr : P ≠ r := fun h => hfr (k + 1) (by omega) (h ▸ hP)
  refine ⟨k, P, ins b r X, ins b r Y, hk, mem_ins_of hb, mem_ins_of hP, ?_⟩
  simp only [Ghost.split]
  rw [if_neg hPr, if_neg hPb, hg]
  refine List.mem_map.2 ⟨X ++ b :: Y, by simp, ?_⟩
  rw [ins_append]
  congr 1
  show (if b = b then [b, r] else [b]) ++ ins b r Y = _
  simp

theorem keeps_grow (W : Weak key strict s root G) {l : Nat} (hfr : ∀ j, j ≤ G.h → l ∉ G.lv j) :
    Keeps root (fun _ => False) (fun _ _ => False) G (G.grow root l) := by
  have hroot : root ∈ G.lv G.h := by rw [W.root]; simp
  have hlt : ∀ k, k ≤ G.h → ∀ b ∈ G.lv k, b ≠ root → k < G.h := by
    intro k hk b hb hr
    rcases Nat.lt_or_eq_of_le hk with h | rfl
    · exact h
    · rw [W.root] at hb; simp at hb; exact absurd hb hr
  have hlv : ∀ k, k < G.h → (G.grow root l).lv k = G.lv k := by
    intro k hk
    simp only [Ghost.grow]
    rw [if_neg (by omega), if_neg (by omega)]
  refine ⟨by simp [Ghost.grow], ?_, ?_, ?_, ?_, ?_, ?_, ?_⟩
  · intro k hk b hb hr
    rw [hlv k (hlt k hk b hb hr)]; exact hb
  · intro k hk b hb hr
    have hbl : b ≠ l := fun h => hfr (k + 1) hk (h ▸ hb)
    simp only [Ghost.fst, Ghost.grow]
    rw [if_neg hr, if_neg hbl]
  · rintro b d hr - ⟨k, Q, u, v, h1, h2, h3, h4⟩
    by_cases hQ : Q = root
    · subst hQ
      have hk : k + 1 = G.h := W.uniq (k + 1) G.h Q h1 (_root_.le_refl _) h3 hroot
      refine ⟨k, l, u, v, by simp only [Ghost.grow]; omega, by rw [hlv k h1]; exact h2, ?_, ?_⟩
      · simp only [Ghost.grow]
        rw [if_neg (by omega), if_pos hk]; simp
      · simp only [Ghost.grow]
        rw [if_neg (fun (h : l = Q) => hfr G.h (_root_.le_refl _) (h ▸ hroot))]
        simpa using h4
    · have hk : k + 1 < G.h := hlt (k + 1) h1 Q h3 hQ
      refine ⟨k, Q, u, v, by simp only [Ghost.grow]; omega, by rw [hlv k h1]; exact h2, by rw [hlv _ hk]; exact h3, ?_⟩
      have hbl : Q ≠ l := fun h => hfr (k + 1) h1 (h ▸ h3)
      simp only [Ghost.grow]
      rw [if_neg hQ, if_neg hbl]
      exact h4
  · rintro b d ⟨k, Q, u, v, h1, h2, h3, h4⟩
    left
    change k < G.h + 1 at h1
    refine ⟨?_, fun h => h⟩
    have hlr : l ≠ root := fun h => hfr G.h (_root_.le_refl _) (h ▸ hroot)
    by_cases hQ : Q = root
    · subst hQ
      simp [Ghost.grow] at h4
      have := congrArg List.length h4; simp at this; omega
    · by_cases hQl : Q = l
      · subst hQl
        have h4 : u ++ b :: d :: v ∈ G.kids root := by simpa [Ghost.grow, hQ] using h4
        have hk : k + 1 = G.h := by
          rcases (by omega : k = G.h ∨ k + 1 = G.h ∨ k + 1 < G.h) with rfl | h | h
          · simp [Ghost.grow] at h3; exact absurd h3 hQ
          · exact h
          · rw [hlv _ h] at h3
            exact absurd h3 (hfr (k + 1) (by omega))
        refine ⟨k, root, u, v, by omega, ?_, by rw [hk]; exact hroot, h4⟩
        rw [hlv k (by omega)] at h2
        exact h2
      · have h4 : u ++ b :: d :: v ∈ G.kids Q := by simpa [Ghost.grow, hQ, hQl] using h4
        have hk : k + 1 < G.h := by
          rcases (by omega : k = G.h ∨ k + 1 = G.h ∨ k + 1 < G.h) with rfl | h | h
          · simp [Ghost.grow] at h3; exact absurd h3 hQ
          · simp [Ghost.grow, h] at h3; exact absurd h3 hQl
          · exact h
        refine ⟨k, Q, u, v, by omega, ?_, by rw [hlv _ hk] at h3; exact h3, h4⟩
        rw [hlv k (by omega)] at h2
        exact h2
  · intro k up
    induction up generalizing k with
    | nil => intro hk h; simp only [PathOK] at h; omega
    | cons p up ih =>
      intro hk h
      obtain ⟨b, off⟩ := p
      obtain ⟨-, h⟩ := h
      refine ⟨by simp only [Ghost.grow]; omega, ?_⟩
      rcases h with ⟨h1, h2⟩ | h
      · by_cases hb : b = root
        · subst hb
          have hk : k + 1 = G.h := W.uniq (k + 1) G.h b hk (_root_.le_refl _) h1 hroot
          right
          refine ⟨rfl, ?_⟩
          cases up with
          | nil => rfl
          | cons p up => obtain ⟨c, o⟩ := p; have := h2.1; omega
        · have hk' : k + 1 < G.h := hlt (k + 1) hk b h1 hb
          exact Or.inl ⟨by rw [hlv _ hk']; exact h1, ih (k + 1) hk' h2⟩
      · exact Or.inr h
  · intro k hk
    rw [hlv k hk]
  · intro k c P A p B hk e hp hP hc
    have hk' : k + 1 < G.h := hlt (k + 1) hk p (by rw [e]; simp) hp
    have hP' : P ∈ G.lv (k + 1) := by rw [e]; exact List.mem_append_right _ hP
    refine ⟨P, A, B, by rw [hlv _ hk']; exact e, hP, ?_⟩
    have h1 : P ≠ root := fun h => by have := W.uniq (k + 1) G.h P hk (_root_.le_refl _) hP' (h ▸ hroot); omega
    have h2 : P ≠ l := fun h => hfr (k + 1) hk (h ▸ hP')
    simp only [Ghost.grow]
    rw [if_neg h1, if_neg h2]
    exact hc

/-- The leaves are the same, with the same items and limits. -/
def SameLeaves (key : α → K) (s : Store α) (G : Ghost) (t : Store α) (G' : Ghost) : Prop :=
  G'.lv 0 = G.lv 0 ∧ ∀ c ∈ G.lv 0, (t.page c).items = (s.page c).items ∧ hiP key (t.page c) = hiP key (s.page c)

omit [LinearOrder K] in
theorem SameLeaves.leafs {t : Store α} {G' : Ghost} (h : SameLeaves key s G t G') : leafs key t G' = leafs key s G := leafs_congr h.1 h.2

/-- Every leaf stays, and the greatest limit before it. -/
def LeafKeeps (key : α → K) (root : Nat) (s : Store α) (G : Ghost) (t : Store α) (G' : Ghost) : Prop :=
  ∀ A a B, a ≠ root → G.lv 0 = A ++ a :: B → ∃ A' B', G'.lv 0 = A' ++ a :: B' ∧
    (∀ c' ∈ A', ∃ c ∈ A, hiP key (t.page c') ≤ hiP key (s.page c)) ∧ (∀ c ∈ A, ∃ c' ∈ A', hiP key (s.page c) ≤ hiP key (t.page c'))

theorem SameLeaves.keeps {t : Store α} {G' : Ghost} (h : SameLeaves key s G t G') : LeafKeeps key root s G t G' := by
  intro A a B _ e
  refine ⟨A, B, by rw [h.1, e], fun c hc => ⟨c, hc, ?_⟩, fun c hc => ⟨c, hc, ?_⟩⟩
  · rw [(h.2 c (by rw [e]; simp [hc])).2]
  · rw [(h.2 c (by rw [e]; simp [hc])).2]

end Rum.Tree

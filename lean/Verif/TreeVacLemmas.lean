import Verif.TreeDelete
/-
Whole runs of VACUUM over a posting tree.
-/
namespace Rum.Tree
open Rum Rum.Entry

variable {α K : Type} [LinearOrder K]

theorem lastStore_append (s : Store α) (l m : List (Store α)) : lastStore s (l ++ m) = lastStore (lastStore s l) m := by
  unfold lastStore
  rw [List.getLast?_append]
  cases m.getLast? <;> simp

/-- What running scans rely on: the tree as it is at every record, also in the middle of VACUUM. -/
structure Browse (key : α → K) (s : Store α) (root : Nat) (G : Ghost) : Prop where
  thin : Thin key false s root G
  first : ∀ k, k < G.h → ∀ b B, G.lv (k + 1) = b :: B → G.kids b ≠ []
  hlt : G.h < s.next

/-- Records one after the other, with the ghost states before and after. -/
inductive Chain (key : α → K) (root : Nat) (live : α → Bool) : Store α → Ghost → List (Store α) → Ghost → Prop
  | nil (s : Store α) (G : Ghost) : Chain key root live s G [] G
  | cons {s u : Store α} {G Gu G' : Ghost} {us : List (Store α)} : VStep key live s G u Gu → Browse key u root Gu →
      Chain key root live u Gu us G' → Chain key root live s G (u :: us) G'

theorem Chain.append {key : α → K} {root : Nat} {live : α → Bool} {s : Store α} {G G1 G2 : Ghost} {us vs : List (Store α)}
    (h1 : Chain key root live s G us G1) (h2 : Chain key root live (lastStore s us) G1 vs G2) : Chain key root live s G (us ++ vs) G2 := by
  induction h1 with
  | nil => exact h2
  | cons a b _ ih => exact .cons a b (ih (by rw [lastStore_cons] at h2; exact h2))

section
variable {key : α → K} {s t : Store α} {root : Nat} {G : Ghost}

/-! ### Contents -/

theorem Thinned.leftmost {c : Nat} (T : Thinned key s root G c) (k n : Nat) (hk : k ≤ G.h) (hn : k < n) (b : Nat) (B : List Nat) (e : G.lv k = b :: B) :
    ∃ c C, leftmost s n b = some c ∧ G.lv 0 = c :: C := by
  have W := T.thin
  induction n generalizing k b B with
  | zero => omega
  | succ n ih =>
    rw [Tree.leftmost]
    cases k with
    | zero => rw [W.leaf b (by rw [e]; simp)]; exact ⟨b, B, rfl, e⟩
    | succ k =>
      obtain ⟨h1, hI⟩ := W.inner k (by omega) b (by rw [e]; simp)
      rw [h1]
      simp only [Bool.false_eq_true, if_false]
      obtain ⟨g, gs, hg⟩ := List.exists_cons_of_ne_nil (T.first k (by omega) b B e)
      have hd := hI.downs
      rw [hg] at hd
      obtain ⟨d, ds, h1, h2, h3⟩ := List.forall₂_cons_right_iff.1 hd
      obtain ⟨t, ht⟩ := List.head?_eq_some_iff.1 h1.1
      have := level_split W (k := k) (by omega) (A := []) (by simpa using e) (G1 := []) (by simpa using hg)
      rw [h3]
      simp only [List.head?_cons]
      refine ih k (by omega) (by omega) d.2 (t ++ (gs.flatten ++ B.flatMap (fun b => (G.kids b).flatten))) ?_
      rw [this, ht]
      simp

theorem Thinned.browse {c : Nat} (T : Thinned key s root G c) : Browse key s root G := ⟨T.thin, T.first, T.hlt⟩

theorem Weak.browse (W : Weak key false s root G) : Browse key s root G :=
  ⟨W.toThin, fun k hk b B e => W.ne k hk b (by rw [e]; simp), height_lt W⟩

theorem Thin.walk (W : Thin key false s root G) {k : Nat} (hk : k ≤ G.h) (n : Nat) (A B : List Nat) (b : Nat) (e : G.lv k = A ++ b :: B)
    (hn : B.length < n) : walk s n b = (b :: B).flatMap (fun c => (s.page c).items) := by
  induction n generalizing A b B with
  | zero => omega
  | succ n ih =>
    have hr := (Linked.right (e ▸ W.linked k hk)).1
    rw [Tree.walk, List.flatMap_cons]
    cases B with
    | nil =>
      simp at hr
      rw [hr]
      simp
    | cons c B =>
      simp at hr
      rw [hr]
      simp only
      rw [ih (A ++ [b]) B c (by rw [e]; simp) (by simpa using hn)]

theorem Thinned.contents {c : Nat} (T : Thinned key s root G c) : contents s root = flat s G := by
  unfold Tree.contents
  obtain ⟨c, C, h1, h2⟩ := T.leftmost G.h s.next (_root_.le_refl _) T.hlt root [] T.thin.root
  rw [h1]
  simp only
  have hlen := level_length T.thin (Nat.zero_le _)
  rw [h2, List.length_cons] at hlen
  rw [T.thin.walk (Nat.zero_le _) s.next [] C c (by simpa using h2) (by omega)]
  unfold flat
  rw [h2]

theorem Weak.contents (W : Weak key strict s root G) : Tree.contents s root = flat s G := by
  rw [contents_eq W]
  unfold leafs flat
  rw [List.flatMap_map]

/-! ### Deletion -/

/-- What a run of deletions leaves alone above level `k`. -/
structure Above (G G' : Ghost) (k P : Nat) : Prop where
  lv : ∀ j, k < j → G'.lv j = G.lv j
  kids : ∀ j, k ≤ j → j < G.h → ∀ Q ∈ G.lv (j + 1), Q ≠ P → G'.kids Q = G.kids Q

theorem kid_of_down (W : Thin key false s root G) (hC : Complete G) {k b i : Nat} (hk : k < G.h) (hb : b ∈ G.lv (k + 1)) {d : α × Nat}
    (hd : (s.page b).downs[i]? = some d) : (G.kids b)[i]? = some [d.2] := by
  obtain ⟨hi, hie⟩ := List.getElem?_eq_some_iff.1 hd
  have hI := (W.inner k hk b hb).2
  have hlen := hI.downs.length_eq
  have hi' : i < (G.kids b).length := by omega
  have hR := (forall₂_getElem hI.downs i hi hi').1
  obtain ⟨c, hc⟩ := hC k hk b hb _ (List.getElem_mem hi')
  rw [hc, hie] at hR
  simp at hR
  rw [List.getElem?_eq_getElem hi', hc, hR]

/-- The records of a run. -/
def Recs (key : α → K) (s : Store α) (root : Nat) (G : Ghost) (ts : List (Store α)) : Prop :=
  ∀ u ∈ ts, ∃ Gu q, Thinned key u root Gu q ∧ Less s G u Gu

theorem delLoop_spec (live : α → Bool) (f : Store α → Nat → Nat → List (Store α) × Bool) (k b : Nat)
    (hf : ∀ (s : Store α) (G : Ghost), Weak key false s root G → Complete G → k < G.h → b ∈ G.lv (k + 1) → ∀ i c, (G.kids b)[i]? = some [c] →
      ∃ ts del G', f s c (i + 1) = (ts, del) ∧ Thinned key (lastStore s ts) root G' b ∧ Less s G (lastStore s ts) G' ∧ Above G G' k b ∧
        G'.kids b = (if del then (G.kids b).eraseIdx i else G.kids b) ∧ Recs key s root G ts ∧ Chain key root live s G ts G')
    (n : Nat) (T : Thinned key s root G b) (hk : k < G.h) (hb : b ∈ G.lv (k + 1)) (i : Nat) (hn : (G.kids b).length ≤ n + i) :
    ∃ G', Thinned key (lastStore s (delLoop f b n s (i + 1))) root G' b ∧ Less s G (lastStore s (delLoop f b n s (i + 1))) G' ∧ Above G G' k b ∧
      Recs key s root G (delLoop f b n s (i + 1)) ∧ Chain key root live s G (delLoop f b n s (i + 1)) G' := by
  induction n generalizing s G i with
  | zero => exact ⟨G, T, Less.refl s G, ⟨fun _ _ => rfl, fun _ _ _ _ _ _ => rfl⟩, fun u hu => by simp [delLoop] at hu, .nil s G⟩
  | succ n ih =>
    rw [delLoop, Nat.add_sub_cancel]
    cases hd : (s.page b).downs[i]? with
    | none => exact ⟨G, T, Less.refl s G, ⟨fun _ _ => rfl, fun _ _ _ _ _ _ => rfl⟩, fun u hu => by simp at hu, .nil s G⟩
    | some d =>
      simp only
      have hkid := kid_of_down T.thin T.full hk hb hd
      have hne : G.kids b ≠ [] := by intro h; rw [h] at hkid; simp at hkid
      obtain ⟨ts, del, G', h1, h2, h3, h4, h5, h6, h7⟩ := hf s G (T.weak hne) T.full hk hb i d.2 hkid
      rw [h1]
      simp only
      have hil : i < (G.kids b).length := (List.getElem?_eq_some_iff.1 hkid).1
      have hG'h := h3.h
      have hb' : b ∈ G'.lv (k + 1) := by rw [h4.lv (k + 1) (by omega)]; exact hb
      obtain ⟨G'', g1, g2, g3, g4, g5⟩ : ∃ G'', Thinned key (lastStore (lastStore s ts) (delLoop f b n (lastStore s ts) (if del then i + 1 else i + 1 + 1))) root G'' b ∧
          Less (lastStore s ts) G' (lastStore (lastStore s ts) (delLoop f b n (lastStore s ts) (if del then i + 1 else i + 1 + 1))) G'' ∧
          Above G' G'' k b ∧ Recs key (lastStore s ts) root G' (delLoop f b n (lastStore s ts) (if del then i + 1 else i + 1 + 1)) ∧
          Chain key root live (lastStore s ts) G' (delLoop f b n (lastStore s ts) (if del then i + 1 else i + 1 + 1)) G'' := by
        cases del with
        | true =>
          simp only [if_true] at h5 ⊢
          exact ih h2 (by omega) hb' i (by rw [h5, List.length_eraseIdx_of_lt hil]; omega)
        | false =>
          simp only [Bool.false_eq_true, if_false] at h5 ⊢
          exact ih h2 (by omega) hb' (i + 1) (by rw [h5]; omega)
      rw [lastStore_append]
      refine ⟨G'', g1, h3.trans g2, ⟨fun j hj => (g3.lv j hj).trans (h4.lv j hj), fun j hj hjh Q hQ hQb => ?_⟩, ?_, h7.append g5⟩
      · rw [g3.kids j hj (by omega) Q (by rw [h4.lv (j + 1) (by omega)]; exact hQ) hQb, h4.kids j hj hjh Q hQ hQb]
      · intro u hu
        rcases List.mem_append.1 hu with hu | hu
        · exact h6 u hu
        · obtain ⟨Gu, q, r1, r2⟩ := g4 u hu
          exact ⟨Gu, q, r1, h3.trans r2⟩

theorem scanToDelete_spec (live : α → Bool) (n : Nat) : ∀ (k P : Nat) (s : Store α) (G : Ghost), k < n → Weak key false s root G → Complete G → k < G.h →
    P ∈ G.lv (k + 1) → ∀ i c, (G.kids P)[i]? = some [c] →
      ∃ ts del G', scanToDelete n s c P (i + 1) = (ts, del) ∧ Thinned key (lastStore s ts) root G' P ∧ Less s G (lastStore s ts) G' ∧
        Above G G' k P ∧ G'.kids P = (if del then (G.kids P).eraseIdx i else G.kids P) ∧ Recs key s root G ts ∧ Chain key root live s G ts G' := by
  induction n with
  | zero => intro k _ _ _ h; omega
  | succ n ih =>
    intro k P s G hkn W hC hk hP i c hi
    have hck : c ∈ G.lv k := by
      refine kids_mem W.toThin hk hP (List.mem_flatten.2 ⟨[c], List.mem_of_getElem? hi, by simp⟩)
    rw [scanToDelete]
    cases k with
    | zero =>
      rw [W.leaf c hck]
      simp only [if_true, lastStore, List.getLast?_nil, Option.getD_none, List.nil_append]
      by_cases hm : (s.page c).maxoff < 1
      · rw [if_pos hm]
        rcases step_delete live (Thinned.of_weak W hC c) hk hP hi hm (Or.inl rfl) with ⟨t, G', h1, h2, h3, h4, h5, h6, h7⟩ | ⟨h1, -⟩
        · rw [h1]
          exact ⟨[t], true, G', rfl, h2, h3, ⟨h4, h5⟩, h6, fun u hu => by
            simp only [List.mem_singleton] at hu; subst hu; exact ⟨G', P, h2, h3⟩, .cons h7 h2.browse (.nil t G')⟩
        · rw [h1]
          exact ⟨[], false, G, rfl, Thinned.of_weak W hC P, Less.refl s G, ⟨fun _ _ => rfl, fun _ _ _ _ _ _ => rfl⟩, rfl, fun u hu => by simp at hu, .nil s G⟩
      · rw [if_neg hm]
        exact ⟨[], false, G, rfl, Thinned.of_weak W hC P, Less.refl s G, ⟨fun _ _ => rfl, fun _ _ _ _ _ _ => rfl⟩, rfl, fun u hu => by simp at hu, .nil s G⟩
    | succ k =>
      obtain ⟨hlf, hI⟩ := W.inner k (by omega) c hck
      rw [hlf]
      simp only [Bool.false_eq_true, if_false]
      obtain ⟨G', h1, h2, h3, h4, h8⟩ := delLoop_spec live (root := root) (key := key) (fun s c' i => scanToDelete n s c' c i) k c
        (fun s G W hC hk hb i c' hi => ih k c s G (by omega) W hC hk hb i c' hi) (s.page c).downs.length (Thinned.of_weak W hC c)
        (by omega) hck 0 (by rw [hI.downs.length_eq]; omega)
      simp only [Nat.zero_add] at h1 h2 h3 h4 h8
      generalize delLoop (fun s c' i => scanToDelete n s c' c i) c (s.page c).downs.length s 1 = ts at h1 h2 h3 h4 h8
      have hG'h := h2.h
      have hcP : c ≠ P := fun h => by
        have := W.uniq (k + 1) (k + 1 + 1) c (by omega) (by omega) hck (h ▸ hP)
        omega
      have hck' : c ∈ G'.lv (k + 1) := by rw [h3.lv (k + 1) (by omega)]; exact hck
      have hP' : P ∈ G'.lv (k + 1 + 1) := by rw [h3.lv (k + 1 + 1) (by omega)]; exact hP
      have hkP : G'.kids P = G.kids P := h3.kids (k + 1) (by omega) hk P hP (fun h => hcP h.symm)
      obtain ⟨hlf', hI'⟩ := h1.thin.inner k (by omega) c hck'
      have hmax : ((lastStore s ts).page c).maxoff = (G'.kids c).length := by
        unfold Page.maxoff
        rw [hlf', ← hI'.downs.length_eq]
        simp
      have habove : Above G G' (k + 1) P := ⟨fun j hj => h3.lv j (by omega), fun j hj hjh Q hQ _ => h3.kids j (by omega) hjh Q hQ (fun h => by
        have := W.uniq (j + 1) (k + 1) c (by omega) (by omega) (h ▸ hQ) hck
        omega)⟩
      by_cases hm : ((lastStore s ts).page c).maxoff < 1
      · rw [if_pos hm]
        have hkc : G'.kids c = [] := List.length_eq_zero_iff.1 (by omega)
        rcases step_delete live h1 (k := k + 1) (by omega) hP' (i := i) (by rw [hkP]; exact hi) hm (Or.inr hkc) with
          ⟨t, G'', g1, g2, g3, g4, g5, g6, g7⟩ | ⟨-, h⟩
        · rw [g1]
          have hl : lastStore s (ts ++ [t]) = t := by rw [lastStore_append]; rfl
          refine ⟨ts ++ [t], true, G'', rfl, by rw [hl]; exact g2, by rw [hl]; exact h2.trans g3, ⟨fun j hj => ?_, fun j hj hjh Q hQ hQP => ?_⟩, ?_, ?_,
            h8.append (.cons g7 g2.browse (.nil t G''))⟩
          · rw [g4 j hj, habove.lv j hj]
          · rw [g5 j hj (by omega) Q (by rw [h3.lv (j + 1) (by omega)]; exact hQ) hQP, habove.kids j hj hjh Q hQ hQP]
          · rw [g6, hkP]; rfl
          · intro u hu
            rcases List.mem_append.1 hu with hu | hu
            · exact h4 u hu
            · simp only [List.mem_singleton] at hu
              subst hu
              exact ⟨G'', P, g2, h2.trans g3⟩
        · omega
      · rw [if_neg hm]
        have hkc : G'.kids c ≠ [] := by intro h; rw [h] at hmax; simp at hmax; omega
        refine ⟨ts, false, G', rfl, Thinned.of_weak (h1.weak hkc) h1.full P, h2, habove, hkP, h4, h8⟩

theorem scanRoot_spec (live : α → Bool) (W : Weak key false s root G) (hC : Complete G) :
    ∃ G', Weak key false (lastStore s (scanRoot s root)) root G' ∧ Complete G' ∧ Less s G (lastStore s (scanRoot s root)) G' ∧
      Recs key s root G (scanRoot s root) ∧ Chain key root live s G (scanRoot s root) G' := by
  have hroot : root ∈ G.lv G.h := by rw [W.root]; simp
  unfold scanRoot
  cases hh : G.h with
  | zero =>
    rw [hh] at hroot
    rw [W.leaf root hroot]
    exact ⟨G, W, hC, Less.refl s G, fun u hu => by simp at hu, .nil s G⟩
  | succ k =>
    rw [hh] at hroot
    obtain ⟨hlf, hI⟩ := W.inner k (by omega) root hroot
    rw [hlf]
    simp only [Bool.false_eq_true, if_false]
    obtain ⟨G', h1, h2, h3, h4, h8⟩ := delLoop_spec live (root := root) (key := key) (fun s c' i => scanToDelete s.next s c' root i) k root
      (fun s G W hC hk hb i c' hi => scanToDelete_spec live s.next k root s G (by have := height_lt W; omega) W hC hk hb i c' hi)
      (s.page root).downs.length (Thinned.of_weak W hC root) (by omega) hroot 0 (by rw [hI.downs.length_eq]; omega)
    have hne : G'.kids root ≠ [] := by
      have := h3.lv (k + 1) (by omega)
      rw [← hh, W.root] at this
      have hh' := h2.h
      exact h1.first k (by omega) root [] (by rw [← hh]; exact this)
    exact ⟨G', h1.weak hne, h1.full, h2, h4, h8⟩

/-! ### Cleaning the leaves -/

/-- The leaves reached by downlinks from a page of level `k`. -/
def reached (G : Ghost) : Nat → Nat → List Nat
  | 0, b => [b]
  | k + 1, b => (G.kids b).flatMap (fun g => (g.head?.map (reached G k)).getD [])

/-- The store `t` is `s` with the leaves `L` cleaned. -/
def Cleaned (live : α → Bool) (s t : Store α) (L : List Nat) : Prop :=
  t.next = s.next ∧ ∀ c, t.page c = { s.page c with items := if c ∈ L then (s.page c).items.filter live else (s.page c).items }

theorem Cleaned.refl (live : α → Bool) (s : Store α) : Cleaned live s s [] := ⟨rfl, fun c => by simp⟩

theorem Cleaned.trans {live : α → Bool} {s t u : Store α} {L M : List Nat} (h1 : Cleaned live s t L)
    (h2 : Cleaned live t u M) : Cleaned live s u (L ++ M) := by
  refine ⟨h2.1.trans h1.1, fun c => ?_⟩
  rw [h2.2 c, h1.2 c]
  simp only [List.mem_append]
  by_cases hL : c ∈ L <;> by_cases hM : c ∈ M <;> simp [hL, hM]

omit [LinearOrder K] in
theorem Cleaned.vstep {live : α → Bool} {L : List Nat} (h : Cleaned live s t L) :
    VStep key live s G t G := by
  refine ⟨rfl, h.1, fun _ _ => rfl, List.Sublist.refl _, fun b hb => Or.inl hb, fun c _ => by rw [h.2 c]; rfl, fun c _ => ?_, fun c hc y hy hl => ⟨hc, ?_⟩⟩
  · rw [h.2 c]
    simp only
    split
    · exact Or.inr rfl
    · exact Or.inl rfl
  · rw [h.2 c]
    simp only
    split
    · exact List.mem_filter.2 ⟨hy, hl⟩
    · exact hy

variable {strict : Bool}

theorem Cleaned.weak {live : α → Bool} {L : List Nat} (h : Cleaned live s t L) (W : Weak key strict s root G) : Weak key strict t root G := by
  have hp : ∀ c, t.page c = { s.page c with items := (t.page c).items } := fun c => by rw [h.2 c]
  have hhi : ∀ c, hiP key (t.page c) = hiP key (s.page c) := fun c => by rw [h.2 c]; rfl
  have hsub : ∀ c, List.Sublist (t.page c).items (s.page c).items := by
    intro c
    rw [h.2 c]
    simp only
    split
    · exact List.filter_sublist
    · exact List.Sublist.refl _
  refine W.of_same hp (by rw [h.1]) ⟨W.order.pair.imp (fun {b c} hbc => ?_), fun b hb i hi => ?_, fun b hb => ?_⟩
  · rw [hhi, hhi]
    exact ⟨hbc.1, fun i hi => hbc.2 i ((hsub c).subset hi)⟩
  · rw [hhi]
    exact W.order.le b hb i ((hsub b).subset hi)
  · exact (W.order.sorted b hb).sublist (hsub b)

theorem Cleaned.flat {live : α → Bool} {L : List Nat} (h : Cleaned live s t L) (hL : ∀ c ∈ G.lv 0, c ∈ L) :
    flat t G = (flat s G).filter live := by
  unfold Tree.flat
  rw [List.filter_flatMap]
  apply List.flatMap_congr
  intro c hc
  rw [h.2 c, if_pos (hL c hc)]

/-- The pages below are as they were. -/
theorem vacKids_spec {live : α → Bool} {V : List α → Prop} (f : Store α → Nat → List (Store α) × Bool) (k : Nat)
    (hf : ∀ s : Store α, Weak key strict s root G → (∀ c ∈ G.lv 0, V (s.page c).items) → ∀ c ∈ G.lv k,
      Cleaned live s (lastStore s (f s c).1) (reached G k c) ∧
      ∀ u ∈ (f s c).1, ∃ L, (∀ c ∈ L, c ∈ G.lv 0) ∧ Cleaned live s u L)
    (hV : ∀ (s t : Store α) L, Cleaned live s t L → (∀ c ∈ G.lv 0, V (s.page c).items) → ∀ c ∈ G.lv 0, V (t.page c).items)
    (hr : ∀ c ∈ G.lv k, ∀ b ∈ reached G k c, b ∈ G.lv 0) (cs : List Nat) :
    ∀ s : Store α, Weak key strict s root G → (∀ c ∈ G.lv 0, V (s.page c).items) → (∀ c ∈ cs, c ∈ G.lv k) →
      Cleaned live s (lastStore s (vacKids f s cs).1) (cs.flatMap (reached G k)) ∧
      ∀ u ∈ (vacKids f s cs).1, (∃ L, (∀ c ∈ L, c ∈ G.lv 0) ∧ Cleaned live s u L) := by
  induction cs with
  | nil => intro s _ _ _; exact ⟨Cleaned.refl live s, fun u hu => by simp [vacKids] at hu⟩
  | cons c cs ih =>
    intro s W hVs hcs
    obtain ⟨h1, h3⟩ := hf s W hVs c (hcs c (by simp))
    obtain ⟨g1, g2⟩ := ih (lastStore s (f s c).1) (h1.weak W) (hV _ _ _ h1 hVs) (fun d hd => hcs d (by simp [hd]))
    simp only [vacKids]
    rw [lastStore_append]
    refine ⟨h1.trans g1, fun u hu => ?_⟩
    rcases List.mem_append.1 hu with hu | hu
    · exact h3 u hu
    · obtain ⟨L, l1, l2⟩ := g2 u hu
      refine ⟨_, fun d hd => ?_, h1.trans l2⟩
      rcases List.mem_append.1 hd with hd | hd
      · exact hr c (hcs c (by simp)) d hd
      · exact l1 d hd

theorem heads_of (W : Weak key strict s root G) {k b : Nat} (hk : k < G.h) (hb : b ∈ G.lv (k + 1)) :
    (G.kids b).map List.head? = ((s.page b).downs.map Prod.snd).map some := by
  have hI := (W.inner k hk b hb).2.downs
  generalize G.kids b = gs at hI
  generalize (s.page b).downs = ds at hI
  induction hI with
  | nil => rfl
  | cons h _ ih => simp [h.1, ih]

theorem reached_eq (W : Weak key strict s root G) {k b : Nat} (hk : k < G.h) (hb : b ∈ G.lv (k + 1)) :
    reached G (k + 1) b = ((s.page b).downs.map Prod.snd).flatMap (reached G k) := by
  have := heads_of W hk hb
  rw [reached]
  have e : (G.kids b).flatMap (fun g => (g.head?.map (reached G k)).getD []) =
      ((G.kids b).map List.head?).flatMap (fun h => (h.map (reached G k)).getD []) := by rw [List.flatMap_map]
  rw [e, this, List.flatMap_map]
  rfl

theorem down_mem' (W : Weak key strict s root G) {k b c : Nat} (hk : k < G.h) (hb : b ∈ G.lv (k + 1))
    (hc : c ∈ (s.page b).downs.map Prod.snd) : c ∈ G.lv k := by
  have h := heads_of W hk hb
  have : some c ∈ (G.kids b).map List.head? := by rw [h]; exact List.mem_map.2 ⟨c, hc, rfl⟩
  obtain ⟨g, hg, hh⟩ := List.mem_map.1 this
  exact kids_mem W.toThin hk hb (List.mem_flatten.2 ⟨g, hg, List.mem_of_mem_head? hh⟩)

theorem reached_mem (W : Weak key strict s root G) (k : Nat) (hk : k ≤ G.h) (b : Nat) (hb : b ∈ G.lv k) : ∀ c ∈ reached G k b, c ∈ G.lv 0 := by
  induction k generalizing b with
  | zero => intro c hc; simp [reached] at hc; subst hc; exact hb
  | succ k ih =>
    intro c hc
    rw [reached_eq W (by omega) hb] at hc
    obtain ⟨d, hd, hc⟩ := List.mem_flatMap.1 hc
    exact ih (by omega) d (down_mem' W (by omega) hb hd) c hc

/-- In a complete tree all leaves are reached. -/
theorem reached_all (hC : Complete G) (k : Nat) (hk : k ≤ G.h) (b : Nat) (hb : b ∈ G.lv k) (W : Weak key strict s root G) :
    reached G k b = under G k b := by
  induction k generalizing b with
  | zero => rfl
  | succ k ih =>
    rw [reached, under, List.flatMap_def, List.flatMap_def, List.map_flatten, List.flatten_flatten, List.map_map]
    congr 1
    apply List.map_congr_left
    intro g hg
    obtain ⟨c, rfl⟩ := hC k (by omega) b hb g hg
    have hcm : c ∈ G.lv k := kids_mem W.toThin (by omega) hb (List.mem_flatten.2 ⟨[c], hg, by simp⟩)
    simp [ih (by omega) c hcm]

theorem vacLeaves_spec {live : α → Bool} {V : List α → Prop} {vac : List α → List α}
    (hvac : ∀ its, V its → vac its = its.filter live ∧ V (its.filter live)) (n : Nat) :
    ∀ (k : Nat) (s : Store α) (isRoot : Bool) (b : Nat), k < n → k ≤ G.h → Weak key strict s root G → (∀ c ∈ G.lv 0, V (s.page c).items) → b ∈ G.lv k →
      Cleaned live s (lastStore s (vacLeaves vac n s isRoot b).1) (reached G k b) ∧
      ∀ u ∈ (vacLeaves vac n s isRoot b).1, ∃ L, (∀ c ∈ L, c ∈ G.lv 0) ∧ Cleaned live s u L := by
  have hV : ∀ (s t : Store α) L, Cleaned live s t L → (∀ c ∈ G.lv 0, V (s.page c).items) → ∀ c ∈ G.lv 0, V (t.page c).items := by
    intro s t L h hs c hc
    rw [h.2 c]
    simp only
    split
    · exact (hvac _ (hs c hc)).2
    · exact hs c hc
  induction n with
  | zero => intro k _ _ _ h; omega
  | succ n ih =>
    intro k s isRoot b hkn hk W hVs hb
    rw [vacLeaves]
    cases k with
    | zero =>
      rw [if_pos (W.leaf b hb)]
      unfold vacLeaf
      simp only
      obtain ⟨h1, h2⟩ := hvac _ (hVs b hb)
      have hcl : Cleaned live s (s.set b { s.page b with items := vac (s.page b).items }) [b] := by
        refine ⟨rfl, fun c => ?_⟩
        rw [Store.set_page]
        by_cases hc : c = b
        · subst hc; simp [h1]
        · simp [hc]
      split
      · next hlen =>
        refine ⟨⟨rfl, fun c => ?_⟩, fun u hu => by simp at hu⟩
        have : (s.page b).items.filter live = (s.page b).items := by
          rw [h1] at hlen
          exact List.filter_sublist.eq_of_length hlen.symm
        simp only [reached, List.mem_singleton]
        by_cases hc : c = b
        · subst hc; rw [if_pos rfl, this]; rfl
        · rw [if_neg hc]; rfl
      · refine ⟨by simpa [lastStore, reached] using hcl, fun u hu => ?_⟩
        simp only [List.mem_singleton] at hu
        subst hu
        exact ⟨[b], by simpa using hb, hcl⟩
    | succ k =>
      rw [(W.inner k (by omega) b hb).1]
      simp only [Bool.false_eq_true, if_false]
      rw [reached_eq W (by omega) hb]
      refine vacKids_spec (V := V) (fun s c => vacLeaves vac n s false c) k (fun s W hVs c hc => ?_) hV
        (fun c hc => reached_mem W k (by omega) c hc) _ s W hVs (fun c hc => down_mem' W (by omega) hb hc)
      exact ih k s false c (by omega) (by omega) W hVs hc

theorem vacKids_chain {live : α → Bool} {V : List α → Prop} (f : Store α → Nat → List (Store α) × Bool) (k : Nat)
    (hf : ∀ s : Store α, Weak key false s root G → (∀ c ∈ G.lv 0, V (s.page c).items) → ∀ c ∈ G.lv k,
      Cleaned live s (lastStore s (f s c).1) (reached G k c) ∧ Chain key root live s G (f s c).1 G)
    (hV : ∀ (s t : Store α) L, Cleaned live s t L → (∀ c ∈ G.lv 0, V (s.page c).items) → ∀ c ∈ G.lv 0, V (t.page c).items) (cs : List Nat) :
    ∀ s : Store α, Weak key false s root G → (∀ c ∈ G.lv 0, V (s.page c).items) → (∀ c ∈ cs, c ∈ G.lv k) →
      Chain key root live s G (vacKids f s cs).1 G := by
  induction cs with
  | nil => intro s _ _ _; exact .nil s G
  | cons c cs ih =>
    intro s W hVs hcs
    obtain ⟨h1, h3⟩ := hf s W hVs c (hcs c (by simp))
    exact h3.append (ih (lastStore s (f s c).1) (h1.weak W) (hV _ _ _ h1 hVs) (fun d hd => hcs d (by simp [hd])))

theorem vacLeaves_chain {live : α → Bool} {V : List α → Prop} {vac : List α → List α}
    (hvac : ∀ its, V its → vac its = its.filter live ∧ V (its.filter live)) (n : Nat) :
    ∀ (k : Nat) (s : Store α) (isRoot : Bool) (b : Nat), k < n → k ≤ G.h → Weak key false s root G → (∀ c ∈ G.lv 0, V (s.page c).items) → b ∈ G.lv k →
      Chain key root live s G (vacLeaves vac n s isRoot b).1 G := by
  have hV : ∀ (s t : Store α) L, Cleaned live s t L → (∀ c ∈ G.lv 0, V (s.page c).items) → ∀ c ∈ G.lv 0, V (t.page c).items := by
    intro s t L h hs c hc
    rw [h.2 c]
    simp only
    split
    · exact (hvac _ (hs c hc)).2
    · exact hs c hc
  induction n with
  | zero => intro k _ _ _ h; omega
  | succ n ih =>
    intro k s isRoot b hkn hk W hVs hb
    rw [vacLeaves]
    cases k with
    | zero =>
      rw [if_pos (W.leaf b hb)]
      unfold vacLeaf
      simp only
      have hcl : Cleaned live s (s.set b { s.page b with items := vac (s.page b).items }) [b] := by
        refine ⟨rfl, fun c => ?_⟩
        rw [Store.set_page]
        by_cases hc : c = b
        · subst hc; simp [(hvac _ (hVs c hb)).1]
        · simp [hc]
      split
      · exact .nil s G
      · exact .cons hcl.vstep (hcl.weak W).browse (.nil _ G)
    | succ k =>
      rw [(W.inner k (by omega) b hb).1]
      simp only [Bool.false_eq_true, if_false]
      refine vacKids_chain (V := V) (fun s c => vacLeaves vac n s false c) k (fun s W hVs c hc => ?_) hV
        _ s W hVs (fun c hc => down_mem' W (by omega) hb hc)
      exact ⟨(vacLeaves_spec (V := V) hvac n k s false c (by omega) (by omega) W hVs hc).1, ih k s false c (by omega) (by omega) W hVs hc⟩

/-! ### The whole -/

/-- VACUUM of a complete tree. -/
theorem vacuumTree_spec {live : α → Bool} {V : List α → Prop} {vac : List α → List α}
    (hvac : ∀ its, V its → vac its = its.filter live ∧ V (its.filter live)) (W : Weak key false s root G) (hC : Complete G)
    (hVs : ∀ c ∈ G.lv 0, V (s.page c).items) :
    ∃ s1 G', Weak key false (lastStore s (vacuumTree vac s root)) root G' ∧ Complete G' ∧ Cleaned live s s1 (G.lv 0) ∧
      Less s1 G (lastStore s (vacuumTree vac s root)) G' ∧
      (∀ u ∈ vacuumTree vac s root, (∃ L, (∀ c ∈ L, c ∈ G.lv 0) ∧ Cleaned live s u L) ∨ ∃ Gu q, Thinned key u root Gu q ∧ Less s1 G u Gu) ∧
      Chain key root live s G (vacuumTree vac s root) G' := by
  have hroot : root ∈ G.lv G.h := by rw [W.root]; simp
  obtain ⟨h1, h2⟩ := vacLeaves_spec (V := V) hvac s.next G.h s true root (height_lt W) (_root_.le_refl _) W hVs hroot
  have hch := vacLeaves_chain (V := V) hvac s.next G.h s true root (height_lt W) (_root_.le_refl _) W hVs hroot
  rw [reached_all hC G.h (_root_.le_refl _) root hroot W] at h1
  have hall : under G G.h root = G.lv 0 := by
    have := leaves_eq W.toThin G.h (_root_.le_refl _)
    rw [this, W.root]; simp
  rw [hall] at h1
  unfold vacuumTree
  simp only
  generalize hr : vacLeaves vac s.next s true root = r at h1 h2 hch
  have W1 := h1.weak W
  split
  · obtain ⟨G', g1, g2, g3, g4, g5⟩ := scanRoot_spec live W1 hC
    rw [lastStore_append]
    refine ⟨lastStore s r.1, G', g1, g2, h1, g3, fun u hu => ?_, hch.append g5⟩
    rcases List.mem_append.1 hu with hu | hu
    · exact Or.inl (h2 u hu)
    · exact Or.inr (g4 u hu)
  · exact ⟨lastStore s r.1, G, W1, hC, h1, Less.refl _ _, fun u hu => Or.inl (h2 u hu), hch⟩

end
end Rum.Tree

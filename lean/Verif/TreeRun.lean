import Verif.TreeLeaf
/-
What the tree holds, and whole insertions of batches.
-/
namespace Rum.Tree
open Rum Rum.Entry

variable {α K : Type} [LinearOrder K]

section run
variable {key : α → K} {strict : Bool} {s : Store α} {root : Nat} {G : Ghost} {IOK : List (α × Nat) → Prop} {KOK : α → Prop}
  {POK XOK : List α → Prop} {o : Ops α} {keep : Bool}

theorem leftmost_spec (W : Weak key strict s root G) (k n : Nat) (hk : k ≤ G.h) (hn : k < n) (b : Nat) (B : List Nat) (e : G.lv k = b :: B) :
    ∃ c C, leftmost s n b = some c ∧ G.lv 0 = c :: C := by
  induction n generalizing k b B with
  | zero => omega
  | succ n ih =>
    rw [leftmost]
    cases k with
    | zero => rw [W.leaf b (by rw [e]; simp)]; exact ⟨b, B, rfl, e⟩
    | succ k =>
      rw [(W.inner k (by omega) b (by rw [e]; simp)).1]
      simp only [Bool.false_eq_true, if_false]
      obtain ⟨d, B', h1, h2⟩ := head_down W (by omega) e
      rw [h1]
      exact ih k (by omega) (by omega) d.2 B' h2

theorem walk_spec (W : Weak key strict s root G) {k : Nat} (hk : k ≤ G.h) (n : Nat) (A B : List Nat) (b : Nat) (e : G.lv k = A ++ b :: B)
    (hn : B.length < n) : walk s n b = (b :: B).flatMap (fun c => (s.page c).items) := by
  induction n generalizing A b B with
  | zero => omega
  | succ n ih =>
    have hr := (Linked.right (e ▸ W.linked k hk)).1
    rw [walk, List.flatMap_cons]
    cases B with
    | nil =>
      simp at hr
      rw [hr]
      simp
    | cons c B =>
      simp at hr
      rw [hr]
      simp only
      rw [ih (A ++ [b]) B c (by rw [e]; simp) (by simpa using hn)]

/-- A full scan meets the items of all leaves, in order. -/
theorem contents_eq (W : Weak key strict s root G) : contents s root = (leafs key s G).flatMap Prod.fst := by
  unfold contents
  obtain ⟨c, C, h1, h2⟩ := leftmost_spec W G.h s.next (_root_.le_refl _) (height_lt W) root [] W.root
  rw [h1]
  simp only
  have hlen := level_length W.toThin (Nat.zero_le _)
  rw [h2, List.length_cons] at hlen
  rw [walk_spec W (Nat.zero_le _) s.next [] C c (by simpa using h2) (by omega)]
  unfold leafs
  rw [h2, List.flatMap_map]

theorem contents_sorted (hk : KeyOf o.cmp key) (W : Weak key strict s root G) : SSorted o.cmp (contents s root) := by
  rw [contents_eq W]
  unfold leafs
  rw [List.flatMap_map]
  rw [ssorted_key hk]
  have h := W.order
  have h1 := h.pair
  have h2 := h.le
  have h3 := h.sorted
  generalize G.lv 0 = l at h1 h2 h3
  rw [List.pairwise_flatMap]
  refine ⟨h3, ?_⟩
  refine List.Pairwise.imp_of_mem ?_ h1
  intro b c hb hc hbc i hi j hj
  exact WithTop.coe_lt_coe.1 ((h2 b hb i hi).trans_lt (hbc.2 j hj))

/-- The descent finds exactly the items a full scan meets. -/
theorem lookup_spec (hk : KeyOf o.cmp key) (hl : LocateOK o key strict) {C : Prop}
    (H : Good C key strict IOK KOK POK s root G) {x : α}
    (hx : ∀ its, POK its → SSorted o.cmp its → (o.found its x = true ↔ ∃ i ∈ its, o.cmp i x = .eq)) :
    lookup o s root x = true ↔ ∃ i ∈ contents s root, o.cmp i x = .eq := by
  obtain ⟨path, A, B, b, h1, e, hA, hb, hp⟩ := descent hk hl H.weak x
  unfold lookup
  rw [h1]
  simp only
  have hb0 : b ∈ G.lv 0 := by rw [e]; simp
  have hPb : POK (s.page b).items := H.fit ((s.page b).items, hiP key (s.page b)) (by rw [leafs_split e]; simp)
  rw [hx _ hPb ((ssorted_key hk).2 (H.weak.order.sorted b hb0))]
  rw [contents_eq H.weak, leafs_split e]
  obtain ⟨a1, a2, -⟩ := around H.weak e hA
  simp only [List.flatMap_append, List.flatMap_cons, List.flatMap_map, List.mem_append, List.mem_flatMap]
  constructor
  · rintro ⟨i, hi, he⟩
    exact ⟨i, Or.inr (Or.inl hi), he⟩
  · rintro ⟨i, ⟨c, hc, hi⟩ | hi | ⟨c, hc, hi⟩, he⟩
    · exact absurd ((hk.eq i x).1 he) (_root_.ne_of_lt (a1 c hc i hi))
    · exact ⟨i, hi, he⟩
    · have := a2 c hc i hi
      rw [(hk.eq i x).1 he] at this
      exact absurd hb (not_le.2 this)

/-- Whole insertion of a batch (posting trees). -/
theorem insertItems_spec (hk : KeyOf o.cmp key) (hl : LocateOK o key strict) (IL : InnerLaws o IOK KOK) (LL : LeafLaws o true POK XOK KOK)
    {C : Prop} (n : Nat) (H : Good C key strict IOK KOK POK s root G) {batch : List α} (hn : batch.length ≤ n)
    (hsort : SSorted o.cmp batch) (hok : XOK batch) (hB : batch.length ≤ 1 ∨ BoundIn key (leafs key s G)) :
    ∃ ts ok, insertItems o root n s batch = (ts, ok) ∧ (C → ok = true) ∧
      (∀ t ∈ ts, ∃ G', Good False key strict IOK KOK POK t root G' ∧ (BoundIn key (leafs key s G) → BoundIn key (leafs key t G')) ∧
        (∀ y ∈ contents s root, y ∈ contents t root) ∧ ∀ y ∈ contents t root, y ∈ contents s root ∨ y ∈ batch) ∧
      ∃ G', Good C key strict IOK KOK POK (lastStore s ts) root G' ∧
        (BoundIn key (leafs key s G) → BoundIn key (leafs key (lastStore s ts) G')) ∧
        (∀ y ∈ contents s root, y ∈ contents (lastStore s ts) root) ∧
        (∀ y ∈ contents (lastStore s ts) root, y ∈ contents s root ∨ y ∈ batch) ∧
        (ok = true → ∀ y, y ∈ contents (lastStore s ts) root ↔ Upd o.cmp true (contents s root) batch y) := by
  induction n generalizing s G batch with
  | zero =>
    have : batch = [] := List.length_eq_zero_iff.1 (by omega)
    subst this
    exact ⟨[], true, rfl, fun _ => rfl, by simp, G, H, fun h => h, fun y hy => hy, fun y hy => Or.inl hy, fun _ y => by simp [Upd, lastStore]⟩
  | succ n ih =>
    cases batch with
    | nil => exact ⟨[], true, rfl, fun _ => rfl, by simp, G, H, fun h => h, fun y hy => hy, fun y hy => Or.inl hy, fun _ y => by simp [Upd, lastStore]⟩
    | cons x xs =>
      rw [insertItems]
      obtain ⟨path, A, B, b, h1, e, hA, hb, hp⟩ := descent hk hl H.weak x
      rw [h1]
      simp only
      have hb0 : b ∈ G.lv 0 := by rw [e]; simp
      have hPb : POK (s.page b).items := H.fit ((s.page b).items, hiP key (s.page b)) (by rw [leafs_split e]; simp)
      have hf := LL.found _ x xs hPb ((ssorted_key hk).2 (H.weak.order.sorted b hb0)) hok
      cases hfound : o.found (s.page b).items x with
      | true =>
        simp only [if_true]
        obtain ⟨i, hi, he⟩ := hf.1 hfound
        have hic : i ∈ contents s root := by
          rw [contents_eq H.weak, leafs_split e]
          simp [hi]
        obtain ⟨ts, ok, t1, t2, t3, Gf, t4, t5, t6, t7, t8⟩ := ih H (batch := xs) (by simpa using hn) (List.pairwise_cons.1 hsort).2
          (LL.rest _ 1 hok) (by
            rcases hB with h | h
            · left; simp at h; simp [h]
            · exact Or.inr h)
        refine ⟨ts, ok, t1, t2, ?_, Gf, t4, t5, t6, fun y hy => ?_, fun h y => ?_⟩
        · intro t ht
          obtain ⟨G', g1, g2, g3, g4⟩ := t3 t ht
          refine ⟨G', g1, g2, g3, fun y hy => ?_⟩
          rcases g4 y hy with h | h
          · exact Or.inl h
          · exact Or.inr (by simp [h])
        · rcases t7 y hy with h | h
          · exact Or.inl h
          · exact Or.inr (by simp [h])
        · rw [t8 h]
          simp only [Upd, if_true, List.mem_cons]
          constructor
          · rintro (h | ⟨h1, h2⟩)
            · exact Or.inl h
            · exact Or.inr ⟨Or.inr h1, h2⟩
          · rintro (h | ⟨rfl | h1, h2⟩)
            · exact Or.inl h
            · exact absurd he (h2 i hic)
            · exact Or.inr ⟨h1, h2⟩
      | false =>
        simp only [Bool.false_eq_true, if_false]
        have hnew : true = true → ∀ i ∈ (s.page b).items, o.cmp i x ≠ .eq := by
          intro _ i hi he
          have := hf.2 ⟨i, hi, he⟩
          rw [hfound] at this
          exact absurd this (by simp)
        obtain ⟨k, ts, ok, ls, v1, v2, v3, v4, v5, v6, ⟨Gf, v7, v8⟩, v9, v10⟩ := insertValue_spec hk IL LL H e hA hb hp hsort hok hnew (by
          rcases hB with h | h
          · left; simpa using h
          · exact Or.inr ⟨rfl, h⟩)
        rw [v1]
        simp only
        have hcs := contents_eq H.weak
        have hct : ∀ y, y ∈ ls.flatMap Prod.fst ↔ Upd o.cmp true (contents s root) ((x :: xs).take k) y := by
          intro y; rw [v9, hcs]
        -- every store written by this step
        have hts : ∀ t ∈ ts, ∃ G', Good False key strict IOK KOK POK t root G' ∧ (BoundIn key (leafs key s G) → BoundIn key (leafs key t G')) ∧
            (∀ y ∈ contents s root, y ∈ contents t root) ∧ ∀ y ∈ contents t root, y ∈ contents s root ∨ y ∈ x :: xs := by
          intro t ht
          obtain ⟨G', g1, g2⟩ := v6 t ht
          refine ⟨G', g1, fun h => by rw [g2]; exact v10 h, fun y hy => ?_, fun y hy => ?_⟩
          · rw [contents_eq g1.weak, g2, hct]
            exact Or.inl hy
          · rw [contents_eq g1.weak, g2, hct] at hy
            rcases hy with h | ⟨h, -⟩
            · exact Or.inl h
            · exact Or.inr (List.mem_of_mem_take h)
        have hcl : ∀ y, y ∈ contents (lastStore s ts) root ↔ Upd o.cmp true (contents s root) ((x :: xs).take k) y := by
          intro y
          rw [contents_eq v7.weak, v8, hct]
        cases ok with
        | false =>
          simp only [Bool.false_eq_true, if_false]
          refine ⟨ts, false, rfl, v2, hts, Gf, v7, fun h => by rw [v8]; exact v10 h, fun y hy => ?_, fun y hy => ?_, fun h => by simp at h⟩
          · rw [hcl]; exact Or.inl hy
          · rw [hcl] at hy
            rcases hy with h | ⟨h, -⟩
            · exact Or.inl h
            · exact Or.inr (List.mem_of_mem_take h)
        | true =>
          simp only [if_true]
          obtain ⟨ts', ok', t1, t2, t3, Gf', t4, t5, t6, t7, t8⟩ := ih v7 (batch := (x :: xs).drop k)
            (by rw [List.length_drop]; omega) (hsort.sublist (List.drop_sublist _ _)) (LL.rest _ k hok) (by
              rcases hB with h | h
              · left; rw [List.length_drop]; omega
              · right; rw [v8]; exact v10 h)
          have hlast : lastStore s (ts ++ ts') = lastStore (lastStore s ts) ts' := by
            unfold lastStore
            rw [List.getLast?_append]
            cases ts'.getLast? <;> simp
          rw [t1]
          refine ⟨ts ++ ts', ok', rfl, t2, ?_, Gf', ?_⟩
          · intro t ht
            rcases List.mem_append.1 ht with ht | ht
            · exact hts t ht
            · obtain ⟨G', g1, g2, g3, g4⟩ := t3 t ht
              refine ⟨G', g1, fun h => g2 (by rw [v8]; exact v10 h), fun y hy => g3 y ((hcl y).2 (Or.inl hy)), fun y hy => ?_⟩
              rcases g4 y hy with h | h
              · rcases (hcl y).1 h with h | ⟨h, -⟩
                · exact Or.inl h
                · exact Or.inr (List.mem_of_mem_take h)
              · exact Or.inr (List.mem_of_mem_drop h)
          · rw [hlast]
            refine ⟨t4, fun h => t5 (by rw [v8]; exact v10 h), fun y hy => t6 y ((hcl y).2 (Or.inl hy)), fun y hy => ?_, fun h y => ?_⟩
            · rcases t7 y hy with h | h
              · rcases (hcl y).1 h with h | ⟨h, -⟩
                · exact Or.inl h
                · exact Or.inr (List.mem_of_mem_take h)
              · exact Or.inr (List.mem_of_mem_drop h)
            · rw [t8 h]
              have hsplit : x :: xs = (x :: xs).take k ++ (x :: xs).drop k := (List.take_append_drop _ _).symm
              have hdis : ∀ z ∈ (x :: xs).take k, ∀ y ∈ (x :: xs).drop k, o.cmp z y ≠ .eq := by
                intro z hz y hy he
                rw [hsplit] at hsort
                have := (List.pairwise_append.1 hsort).2.2 z hz y hy
                rw [this] at he
                simp at he
              simp only [Upd, if_true] at hcl ⊢
              rw [hcl]
              constructor
              · rintro ((h | ⟨h1, h2⟩) | ⟨h1, h2⟩)
                · exact Or.inl h
                · exact Or.inr ⟨List.mem_of_mem_take h1, h2⟩
                · exact Or.inr ⟨List.mem_of_mem_drop h1, fun z hz => h2 z ((hcl z).2 (Or.inl hz))⟩
              · rintro (h | ⟨h1, h2⟩)
                · exact Or.inl (Or.inl h)
                · rw [hsplit] at h1
                  rcases List.mem_append.1 h1 with h1 | h1
                  · exact Or.inl (Or.inr ⟨h1, h2⟩)
                  · refine Or.inr ⟨h1, fun z hz => ?_⟩
                    rcases (hcl z).1 hz with h | ⟨h, -⟩
                    · exact h2 z h
                    · exact hdis z h y h1

/-- Insertion of one item: from the first record on the tree holds it, even when the insertion ends with an error. -/
theorem insertItem_spec (hk : KeyOf o.cmp key) (hl : LocateOK o key strict) (IL : InnerLaws o IOK KOK) (LL : LeafLaws o true POK XOK KOK)
    {C : Prop} (n : Nat) (H : Good C key strict IOK KOK POK s root G) {x : α} (hx : XOK [x]) :
    ∃ ts ok, insertItems o root (n + 1) s [x] = (ts, ok) ∧ (C → ok = true) ∧ (ok = false → ts ≠ []) ∧
      (∀ t ∈ ts, ∃ G', Good False key strict IOK KOK POK t root G' ∧ ∀ y, y ∈ contents t root ↔ Upd o.cmp true (contents s root) [x] y) ∧
      ∃ G', Good C key strict IOK KOK POK (lastStore s ts) root G' ∧
        ∀ y, y ∈ contents (lastStore s ts) root ↔ Upd o.cmp true (contents s root) [x] y := by
  rw [insertItems]
  obtain ⟨path, A, B, b, h1, e, hA, hb, hp⟩ := descent hk hl H.weak x
  rw [h1]
  simp only
  have hb0 : b ∈ G.lv 0 := by rw [e]; simp
  have hPb : POK (s.page b).items := H.fit ((s.page b).items, hiP key (s.page b)) (by rw [leafs_split e]; simp)
  have hf := LL.found _ x [] hPb ((ssorted_key hk).2 (H.weak.order.sorted b hb0)) hx
  cases hfound : o.found (s.page b).items x with
  | true =>
    simp only [if_true]
    obtain ⟨i, hi, he⟩ := hf.1 hfound
    have hic : i ∈ contents s root := by
      rw [contents_eq H.weak, leafs_split e]
      simp [hi]
    refine ⟨[], true, by cases n <;> rfl, fun _ => rfl, by simp, by simp, G, H, fun y => ?_⟩
    simp only [Upd, if_true, List.mem_singleton]
    constructor
    · exact Or.inl
    · rintro (h | ⟨rfl, h⟩)
      · exact h
      · exact absurd he (h i hic)
  | false =>
    simp only [Bool.false_eq_true, if_false]
    have hnew : true = true → ∀ i ∈ (s.page b).items, o.cmp i x ≠ .eq := by
      intro _ i hi he
      have := hf.2 ⟨i, hi, he⟩
      rw [hfound] at this
      exact absurd this (by simp)
    obtain ⟨k, ts, ok, ls, v1, v2, v3, v4, v5, v6, ⟨Gf, v7, v8⟩, v9, v10⟩ := insertValue_spec hk IL LL H e hA hb hp
      (xs := []) (by simp [SSorted]) hx hnew (Or.inl rfl)
    have hk1 : k = 1 := by simp at v4; omega
    subst hk1
    rw [v1]
    have hct : ∀ y, y ∈ ls.flatMap Prod.fst ↔ Upd o.cmp true (contents s root) [x] y := by
      intro y; rw [v9, contents_eq H.weak]; rfl
    refine ⟨ts, ok, ?_, v2, fun _ => v5, fun t ht => ?_, Gf, v7, fun y => ?_⟩
    · cases ok <;> simp [insertItems]
    · obtain ⟨G', g1, g2⟩ := v6 t ht
      exact ⟨G', g1, fun y => by rw [contents_eq g1.weak, g2, hct]⟩
    · rw [contents_eq v7.weak, v8, hct]

end run
end Rum.Tree

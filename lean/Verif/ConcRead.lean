import Verif.ConcSys
/-
Scans among concurrent insertions. Proof apparatus.
-/
namespace Rum.Tree
open Rum Rum.Entry

variable {α K : Type} [LinearOrder K]
variable {key : α → K} {strict : Bool} {s t : Store α} {root : Nat} {G G' : Ghost} {IOK : List (α × Nat) → Prop} {KOK : α → Prop}
  {POK XOK : List α → Prop} {o : Ops α} {C : Prop} {seek : List α → Option α → α → Option (List α)} {bad : Nat → Prop} {new : Nat → Nat → Prop}

/-- What is required of scanPage (forward, exclusive) on the pages. -/
def SeekLaw (o : Ops α) (POK : List α → Prop) (seek : List α → Option α → α → Option (List α)) : Prop :=
  ∀ its hi cur its', POK its → SSorted o.cmp its → (∀ b, hi = some b → ∀ i ∈ its, o.cmp i b ≠ .gt) → POK its' → cur ∈ its' →
    (∃ pre y ys post, seek its hi cur = some (y :: ys) ∧ its = pre ++ (y :: ys) ++ post ∧ (∀ p ∈ pre, o.cmp p cur ≠ .gt) ∧ o.cmp y cur = .gt) ∨
    ((∀ y ys, seek its hi cur ≠ some (y :: ys)) ∧ ∀ i ∈ its, o.cmp i cur ≠ .gt)

/-- `y` lies above everything before the leaf. -/
def Low (key : α → K) (s : Store α) (A : List Nat) (y : α) : Prop := ∀ c ∈ A, hiP key (s.page c) < ((key y : K) : WithTop K)

def DescOK (root : Nat) (G : Ghost) (b : Nat) : Prop := b = root ∨ ∃ k, k < G.h ∧ (G.lv k).head? = some b

/-- `y` was delivered when everything delivered before was smaller. -/
def Delivered (cmp : α → α → Ordering) (acc : List α) (y : α) : Prop := ∃ u v, acc = u ++ y :: v ∧ ∀ a ∈ u, cmp a y = .lt

def ReadOK (key : α → K) (o : Ops α) (root : Nat) (s : Store α) (G : Ghost) (S : List α) : Thread α → Prop
  | .down b => DescOK root G b
  | .scan b acc => ∃ A B, G.lv 0 = A ++ b :: B ∧ 0 < G.h ∧ (∀ y ∈ S, y ∈ acc ∨ Low key s A y) ∧
      (∀ y ∈ acc, ∃ c ∈ A, ((key y : K) : WithTop K) ≤ hiP key (s.page c)) ∧ SSorted o.cmp acc ∧ ∀ y ∈ acc, y ∈ contents s root
  | .scanned acc => (∀ y ∈ S, y ∈ acc) ∧ SSorted o.cmp acc ∧ ∀ y ∈ acc, y ∈ contents s root
  | .opening b => DescOK root G b
  | .cursor b L cur acc => (∀ y ∈ acc, y ∈ contents s root) ∧ (∀ y ∈ L, y ∈ contents s root) ∧ cur ∈ acc ∧
      ((b = root ∧ 0 < G.h) ∨ ∃ A B, G.lv 0 = A ++ b :: B ∧ SSorted o.cmp L ∧ ∀ y ∈ S, Delivered o.cmp acc y ∨
        ((∀ a ∈ acc, key a < key y) ∧ (y ∈ L ∨ (Low key s A y ∧ ∀ l ∈ L, key l < key y))))
  | .next b cur acc => (∀ y ∈ acc, y ∈ contents s root) ∧ cur ∈ acc ∧ ∃ A B, G.lv 0 = A ++ b :: B ∧ 0 < G.h ∧
      ∀ y ∈ S, Delivered o.cmp acc y ∨ ((∀ a ∈ acc, key a < key y) ∧ Low key s A y)
  | .ended acc => (∀ y ∈ acc, y ∈ contents s root) ∧ ∀ y ∈ S, Delivered o.cmp acc y
  | _ => False

theorem DescOK.moved (hM : Moved key root bad new s G t G') {b : Nat} (h : DescOK root G b) : DescOK root G' b := by
  rcases h with h | ⟨k, h1, h2⟩
  · exact Or.inl h
  · exact Or.inr ⟨k, Nat.lt_of_lt_of_le h1 hM.keeps.h, by rw [hM.keeps.lhead k h1]; exact h2⟩

theorem low_moved {A A' : List Nat} {y : α} (h : Low key s A y) (h1 : ∀ c' ∈ A', ∃ c ∈ A, hiP key (t.page c') ≤ hiP key (s.page c)) :
    Low key t A' y := by
  intro c' hc'
  obtain ⟨c, hc, hle⟩ := h1 c' hc'
  exact hle.trans_lt (h c hc)

/-- Steps of other backends do not disturb a scan. -/
theorem ReadOK.moved (W : Weak key strict s root G) (W' : Weak key strict t root G') (hM : Moved key root bad new s G t G')
    (hk : ∀ y ∈ contents s root, y ∈ contents t root) {S : List α} {th : Thread α}
    (h : ReadOK key o root s G S th) : ReadOK key o root t G' S th := by
  cases th with
  | down b => exact DescOK.moved hM h
  | opening b => exact DescOK.moved hM h
  | scan b acc =>
    obtain ⟨A, B, e, h0, h1, h2, h3, h4⟩ := h
    obtain ⟨A', B', e', h5, h6⟩ := hM.leaf A b B (ne_root W (k := 0) h0 (by rw [e]; simp)) e
    refine ⟨A', B', e', Nat.lt_of_lt_of_le h0 hM.keeps.h, ?_, ?_, h3, fun y hy => hk y (h4 y hy)⟩
    · intro y hy
      rcases h1 y hy with h | h
      · exact Or.inl h
      · exact Or.inr (low_moved h h5)
    · intro y hy
      obtain ⟨c, hc, hle⟩ := h2 y hy
      obtain ⟨c', hc', hle'⟩ := h6 c hc
      exact ⟨c', hc', hle.trans hle'⟩
  | scanned acc => exact ⟨h.1, h.2.1, fun y hy => hk y (h.2.2 y hy)⟩
  | ended acc => exact ⟨fun y hy => hk y (h.1 y hy), h.2⟩
  | next b cur acc =>
    obtain ⟨h1, h2, A, B, e, h0, h3⟩ := h
    obtain ⟨A', B', e', h5, h6⟩ := hM.leaf A b B (ne_root W (k := 0) h0 (by rw [e]; simp)) e
    refine ⟨fun y hy => hk y (h1 y hy), h2, A', B', e', Nat.lt_of_lt_of_le h0 hM.keeps.h, ?_⟩
    intro y hy
    rcases h3 y hy with h | ⟨h, h'⟩
    · exact Or.inl h
    · exact Or.inr ⟨h, low_moved h' h5⟩
  | cursor b L cur acc =>
    obtain ⟨h1, h2, h3, h4⟩ := h
    refine ⟨fun y hy => hk y (h1 y hy), fun y hy => hk y (h2 y hy), h3, ?_⟩
    rcases h4 with ⟨rfl, h0⟩ | ⟨A, B, e, h5, h6⟩
    · exact Or.inl ⟨rfl, Nat.lt_of_lt_of_le h0 hM.keeps.h⟩
    · by_cases hbr : b = root
      · by_cases h0 : 0 < G'.h
        · exact Or.inl ⟨hbr, h0⟩
        · have h0' : G'.h = 0 := by omega
          have h00 : G.h = 0 := by have := hM.keeps.h; omega
          right
          have hr := W'.root
          have hr0 := W.root
          rw [h0'] at hr
          rw [h00] at hr0
          have hA : A = [] := by
            rw [hr0] at e
            have := congrArg List.length e
            simp at this
            exact List.length_eq_zero_iff.1 (by omega)
          subst hA
          refine ⟨[], [], by rw [hr, hbr]; rfl, h5, fun y hy => ?_⟩
          rcases h6 y hy with h | ⟨h, h'⟩
          · exact Or.inl h
          · refine Or.inr ⟨h, ?_⟩
            rcases h' with h' | ⟨-, h'⟩
            · exact Or.inl h'
            · exact Or.inr ⟨fun c hc => by simp at hc, h'⟩
      · obtain ⟨A', B', e', h7, h8⟩ := hM.leaf A b B hbr e
        right
        refine ⟨A', B', e', h5, fun y hy => ?_⟩
        rcases h6 y hy with h | ⟨h, h'⟩
        · exact Or.inl h
        · refine Or.inr ⟨h, ?_⟩
          rcases h' with h' | ⟨h', h''⟩
          · exact Or.inl h'
          · exact Or.inr ⟨low_moved h' h7, h''⟩
  | _ => exact h

theorem mem_contents (W : Weak key strict s root G) {y : α} : y ∈ contents s root ↔ ∃ c ∈ G.lv 0, y ∈ (s.page c).items := by
  rw [contents_eq W]
  simp only [leafs, List.mem_flatMap, List.mem_map]
  constructor
  · rintro ⟨p, ⟨c, hc, rfl⟩, hy⟩; exact ⟨c, hc, hy⟩
  · rintro ⟨c, hc, hy⟩; exact ⟨_, ⟨c, hc, rfl⟩, hy⟩

/-- What lies above everything before a leaf is on that leaf or behind. -/
theorem low_where (W : Weak key strict s root G) {A B : List Nat} {b : Nat} (e : G.lv 0 = A ++ b :: B) {y : α} (hy : y ∈ contents s root)
    (hl : Low key s A y) : y ∈ (s.page b).items ∨ ((∃ c ∈ B, y ∈ (s.page c).items) ∧ hiP key (s.page b) < ((key y : K) : WithTop K)) := by
  obtain ⟨c, hc, hyc⟩ := (mem_contents W).1 hy
  have hp := W.order.pair
  rw [e] at hc hp
  rcases List.mem_append.1 hc with hc | hc
  · exact absurd (W.order.le c (by rw [e]; simp [hc]) y hyc) (_root_.not_le.2 (hl c hc))
  · rcases List.mem_cons.1 hc with rfl | hc
    · exact Or.inl hyc
    · have := ((List.pairwise_cons.1 (List.pairwise_append.1 hp).2.1).1 c hc).2 y hyc
      exact Or.inr ⟨⟨c, hc, hyc⟩, this⟩

theorem low_items (W : Weak key strict s root G) {A B : List Nat} {b : Nat} (e : G.lv 0 = A ++ b :: B) {y : α} (hy : y ∈ (s.page b).items) :
    Low key s A y := by
  intro c hc
  have hp := W.order.pair
  rw [e] at hp
  exact ((List.pairwise_append.1 hp).2.2 c hc b (by simp)).2 y hy

theorem low_snoc {A : List Nat} {b : Nat} {y : α} (h : Low key s A y) (hb : hiP key (s.page b) < ((key y : K) : WithTop K)) :
    Low key s (A ++ [b]) y := by
  intro c hc
  rcases List.mem_append.1 hc with hc | hc
  · exact h c hc
  · simp at hc; subst hc; exact hb

/-- The descent to the leftmost leaf. -/
theorem desc_step (W : Weak key strict s root G) {b : Nat} (h : DescOK root G b) :
    ((s.page b).leaf = true ∧ ∃ B, G.lv 0 = b :: B) ∨ ((s.page b).leaf = false ∧ ∃ d, (s.page b).downs.head? = some d ∧ DescOK root G d.2) := by
  obtain ⟨k, hk, hh⟩ : ∃ k, k ≤ G.h ∧ (G.lv k).head? = some b := by
    rcases h with rfl | ⟨k, h1, h2⟩
    · exact ⟨G.h, _root_.le_refl _, by rw [W.root]; rfl⟩
    · exact ⟨k, by omega, h2⟩
  obtain ⟨B, e⟩ := List.head?_eq_some_iff.1 hh
  cases k with
  | zero => exact Or.inl ⟨W.leaf b (by rw [e]; simp), B, e⟩
  | succ k =>
    obtain ⟨d, B', h1, h2⟩ := head_down W (by omega) e
    exact Or.inr ⟨(W.inner k (by omega) b (by rw [e]; simp)).1, d, h1, Or.inr ⟨k, by omega, by rw [h2]; rfl⟩⟩

theorem scan_leaf (hk : KeyOf o.cmp key) (W : Weak key strict s root G) {S : List α} (hS : ∀ y ∈ S, y ∈ contents s root) {A B : List Nat} {b : Nat}
    {acc : List α} (e : G.lv 0 = A ++ b :: B) (h1 : ∀ y ∈ S, y ∈ acc ∨ Low key s A y)
    (h2 : ∀ y ∈ acc, ∃ c ∈ A, ((key y : K) : WithTop K) ≤ hiP key (s.page c)) (h3 : SSorted o.cmp acc) (h4 : ∀ y ∈ acc, y ∈ contents s root) :
    ReadOK key o root s G S (actScan s b acc).2 := by
  have hb : b ∈ G.lv 0 := by rw [e]; simp
  have hr := (Linked.right (e ▸ W.linked 0 (Nat.zero_le _))).1
  have hsort : SSorted o.cmp (acc ++ (s.page b).items) := by
    refine List.pairwise_append.2 ⟨h3, (ssorted_key hk).2 (W.order.sorted b hb), ?_⟩
    intro a ha i hi
    obtain ⟨c, hc, hle⟩ := h2 a ha
    have := low_items W e hi c hc
    exact (hk.lt a i).2 (by simpa using hle.trans_lt this)
  have hcont : ∀ y ∈ acc ++ (s.page b).items, y ∈ contents s root := by
    intro y hy
    rcases List.mem_append.1 hy with hy | hy
    · exact h4 y hy
    · exact (mem_contents W).2 ⟨b, hb, hy⟩
  unfold actScan
  cases B with
  | nil =>
    simp at hr
    rw [hr]
    refine ⟨fun y hy => ?_, hsort, hcont⟩
    rcases h1 y hy with h | h
    · exact List.mem_append_left _ h
    · rcases low_where W e (hS y hy) h with h | ⟨⟨c, hc, -⟩, -⟩
      · exact List.mem_append_right _ h
      · simp at hc
  | cons r B =>
    simp at hr
    rw [hr]
    have h0 : 0 < G.h := by
      rcases Nat.eq_zero_or_pos G.h with h | h
      · have := W.root
        rw [h, e] at this
        have := congrArg List.length this
        simp at this
        omega
      · exact h
    refine ⟨A ++ [b], B, by rw [e]; simp, h0, ?_, ?_, hsort, hcont⟩
    · intro y hy
      rcases h1 y hy with h | h
      · exact Or.inl (List.mem_append_left _ h)
      · rcases low_where W e (hS y hy) h with h' | ⟨-, h'⟩
        · exact Or.inl (List.mem_append_right _ h')
        · exact Or.inr (low_snoc h h')
    · intro y hy
      rcases List.mem_append.1 hy with hy | hy
      · obtain ⟨c, hc, hle⟩ := h2 y hy
        exact ⟨c, by simp [hc], hle⟩
      · exact ⟨b, by simp, W.order.le b hb y hy⟩

theorem Delivered.snoc {cmp : α → α → Ordering} {acc : List α} {y z : α} (h : Delivered cmp acc y) : Delivered cmp (acc ++ [z]) y := by
  obtain ⟨u, v, e, h⟩ := h
  exact ⟨u, v ++ [z], by rw [e]; simp, h⟩

/-- A loaded list, of which the first item is delivered at once. -/
theorem cursor_load (hk : KeyOf o.cmp key) {S : List α} {A : List Nat} {acc : List α} {y : α} {ys : List α}
    (hsort : SSorted o.cmp (y :: ys))
    (h : ∀ z ∈ S, Delivered o.cmp acc z ∨ ((∀ a ∈ acc, key a < key z) ∧ (z ∈ y :: ys ∨ (Low key s A z ∧ ∀ l ∈ y :: ys, key l < key z)))) :
    ∀ z ∈ S, Delivered o.cmp (acc ++ [y]) z ∨ ((∀ a ∈ acc ++ [y], key a < key z) ∧ (z ∈ ys ∨ (Low key s A z ∧ ∀ l ∈ ys, key l < key z))) := by
  intro z hz
  rcases h z hz with h | ⟨h1, h2⟩
  · exact Or.inl h.snoc
  · have hsnoc : key y < key z → ∀ a ∈ acc ++ [y], key a < key z := by
      intro hyz a ha
      rcases List.mem_append.1 ha with ha | ha
      · exact h1 a ha
      · simp at ha; subst ha; exact hyz
    rcases h2 with h2 | ⟨h2, h3⟩
    · rcases List.mem_cons.1 h2 with rfl | h2
      · exact Or.inl ⟨acc, [], rfl, fun a ha => (hk.lt a z).2 (h1 a ha)⟩
      · have : key y < key z := (hk.lt y z).1 ((List.pairwise_cons.1 hsort).1 z h2)
        exact Or.inr ⟨hsnoc this, Or.inl h2⟩
    · exact Or.inr ⟨hsnoc (h3 y (by simp)), Or.inr ⟨h2, fun l hl => h3 l (by simp [hl])⟩⟩

/-- Steps of the scan itself. -/
theorem ReadOK.act (hk : KeyOf o.cmp key) (hseek : SeekLaw o POK seek) (H : Good False key strict IOK KOK POK s root G)
    {S : List α} (hS : ∀ y ∈ S, y ∈ contents s root) {th : Thread α} (hB : ∀ b, th = .opening b → BoundIn key (leafs key s G)) (h : ReadOK key o root s G S th) :
    (Tree.act o seek root s th).1 = s ∧ ReadOK key o root s G S (Tree.act o seek root s th).2 := by
  have W := H.weak
  have hfit : ∀ c ∈ G.lv 0, POK (s.page c).items := fun c hc => H.fit ((s.page c).items, hiP key (s.page c)) (List.mem_map.2 ⟨c, hc, rfl⟩)
  have hss : ∀ c ∈ G.lv 0, SSorted o.cmp (s.page c).items := fun c hc => (ssorted_key hk).2 (W.order.sorted c hc)
  cases th with
  | down b =>
    rcases desc_step W h with ⟨h1, B, e⟩ | ⟨h1, d, h2, h3⟩
    · simp only [Tree.act, h1, if_true]
      exact ⟨rfl, scan_leaf hk W hS (A := []) e (fun y hy => Or.inr (fun c hc => by simp at hc)) (fun y hy => by simp at hy) List.Pairwise.nil
        (fun y hy => by simp at hy)⟩
    · simp only [Tree.act, h1, h2]
      exact ⟨rfl, h3⟩
  | scan b acc =>
    obtain ⟨A, B, e, h0, h1, h2, h3, h4⟩ := h
    exact ⟨rfl, scan_leaf hk W hS e h1 h2 h3 h4⟩
  | scanned acc => exact ⟨rfl, h⟩
  | ended acc => exact ⟨rfl, h⟩
  | opening b =>
    rcases desc_step W h with ⟨h1, B, e⟩ | ⟨h1, d, h2, h3⟩
    · simp only [Tree.act, h1, if_true]
      refine ⟨trivial, ?_⟩
      have hb : b ∈ G.lv 0 := by rw [e]; simp
      have hlow : ∀ y, Low key s [] y := fun y c hc => by simp at hc
      cases hits : (s.page b).items with
      | nil =>
        refine ⟨fun y hy => by simp at hy, fun y hy => ?_⟩
        exfalso
        rcases low_where W (A := []) e (hS y hy) (hlow y) with h' | ⟨⟨c, hc, -⟩, -⟩
        · rw [hits] at h'; simp at h'
        · cases B with
          | nil => simp at hc
          | cons r B =>
            rcases hB _ rfl _ (List.mem_map.2 ⟨b, hb, rfl⟩) with h'' | ⟨i, hi, -⟩
            · exact hi_ne_top W.toThin (Nat.zero_le _) (A := []) e h''.1
            · change i ∈ (s.page b).items at hi
              rw [hits] at hi
              simp at hi
      | cons y ys =>
        have hsort := hss b hb
        rw [hits] at hsort
        have hc : ∀ z ∈ y :: ys, z ∈ contents s root := fun z hz => (mem_contents W).2 ⟨b, hb, by rw [hits]; exact hz⟩
        refine ⟨fun z hz => by simp at hz; subst hz; exact hc z (by simp), fun z hz => hc z (by simp [hz]), by simp, Or.inr ⟨[], B, e,
          (List.pairwise_cons.1 hsort).2, ?_⟩⟩
        have := cursor_load (s := s) (A := []) (acc := []) hk (S := S) hsort ?_
        · simpa using this
        intro z hz
        right
        refine ⟨fun a ha => by simp at ha, ?_⟩
        rcases low_where W (A := []) e (hS z hz) (hlow z) with h' | ⟨-, h'⟩
        · exact Or.inl (by rw [← hits]; exact h')
        · refine Or.inr ⟨hlow z, fun l hl => ?_⟩
          have := W.order.le b hb l (by rw [hits]; exact hl)
          simpa using this.trans_lt h'
    · simp only [Tree.act, h1, h2]
      exact ⟨rfl, h3⟩
  | next b cur acc =>
    obtain ⟨h1, h2, A, B, e, h0, h3⟩ := h
    have hb : b ∈ G.lv 0 := by rw [e]; simp
    simp only [Tree.act]
    refine ⟨trivial, ?_⟩
    have hsort := hss b hb
    cases hd : (s.page b).items.dropWhile (fun it => o.cmp cur it != .gt) with
    | nil =>
      exact ⟨h1, fun y hy => by simp at hy, h2, Or.inr ⟨A, B, e, List.Pairwise.nil, fun y hy => by
        rcases h3 y hy with h | ⟨h, h'⟩
        · exact Or.inl h
        · exact Or.inr ⟨h, Or.inr ⟨h', fun l hl => by simp at hl⟩⟩⟩⟩
    | cons y ys =>
      have hsplit := List.takeWhile_append_dropWhile (p := fun it => o.cmp cur it != .gt) (l := (s.page b).items)
      rw [hd] at hsplit
      have hy : o.cmp cur y = .gt := by
        have := List.head?_dropWhile_not (fun it => o.cmp cur it != .gt) (s.page b).items
        rw [hd] at this
        simpa using this
      have hsort' : SSorted o.cmp (y :: ys) := by
        rw [← hsplit] at hsort
        exact (List.pairwise_append.1 hsort).2.1
      have hc : ∀ z ∈ y :: ys, z ∈ contents s root := fun z hz =>
        (mem_contents W).2 ⟨b, hb, by rw [← hsplit]; exact List.mem_append_right _ hz⟩
      refine ⟨fun z hz => ?_, fun z hz => hc z (by simp [hz]), by simp, Or.inr ⟨A, B, e, (List.pairwise_cons.1 hsort').2, ?_⟩⟩
      · rcases List.mem_append.1 hz with hz | hz
        · exact h1 z hz
        · simp at hz; subst hz; exact hc z (by simp)
      · apply cursor_load hk hsort'
        intro z hz
        rcases h3 z hz with h | ⟨h, h'⟩
        · exact Or.inl h
        · refine Or.inr ⟨h, ?_⟩
          rcases low_where W e (hS z hz) h' with hw | ⟨-, hw⟩
          · rw [← hsplit] at hw
            rcases List.mem_append.1 hw with hw | hw
            · -- before the first smaller item: impossible
              exfalso
              rw [← hsplit] at hsort
              have h5 := (hk.lt z y).1 ((List.pairwise_append.1 hsort).2.2 z hw y (by simp))
              have h6 := (hk.gt cur y).1 hy
              have h7 := h cur h2
              exact absurd (h5.trans (h6.trans h7)) (lt_irrefl _)
            · exact Or.inl hw
          · refine Or.inr ⟨h', fun l hl => ?_⟩
            have := W.order.le b hb l (by rw [← hsplit]; exact List.mem_append_right _ hl)
            simpa using this.trans_lt hw
  | cursor b L cur acc =>
    obtain ⟨h1, h2, h3, h4⟩ := h
    cases L with
    | cons y ys =>
      simp only [Tree.act]
      refine ⟨trivial, ?_, fun z hz => h2 z (by simp [hz]), by simp, ?_⟩
      · intro z hz
        rcases List.mem_append.1 hz with hz | hz
        · exact h1 z hz
        · simp at hz; subst hz; exact h2 z (by simp)
      · rcases h4 with h4 | ⟨A, B, e, h5, h6⟩
        · exact Or.inl h4
        · exact Or.inr ⟨A, B, e, (List.pairwise_cons.1 h5).2, cursor_load hk h5 h6⟩
    | nil =>
      rcases h4 with ⟨rfl, h0⟩ | ⟨A, B, e, h5, h6⟩
      · have hl : (s.page b).leaf = false :=
          (W.inner (G.h - 1) (by omega) b (by rw [Nat.sub_add_cancel (by omega), W.root]; simp)).1
        simp only [Tree.act, hl, Bool.false_eq_true, if_false]
        exact ⟨trivial, h1, h2, h3, Or.inl ⟨rfl, h0⟩⟩
      · have hb : b ∈ G.lv 0 := by rw [e]; simp
        have hl := W.leaf b hb
        have hr := (Linked.right (e ▸ W.linked 0 (Nat.zero_le _))).1
        simp only [Tree.act, hl, if_true]
        refine ⟨trivial, ?_⟩
        obtain ⟨cc, hcc, hcur⟩ := (mem_contents W).1 (h1 cur h3)
        have hbnd : ∀ b', (s.page b).hi = some b' → ∀ i ∈ (s.page b).items, o.cmp i b' ≠ .gt :=
          fun b' hb' i hi => (hi_some hk (s.page b) i).1 (W.order.le b hb i hi) b' hb'
        have hpend : ∀ y ∈ S, Delivered o.cmp acc y ∨ ((∀ a ∈ acc, key a < key y) ∧ Low key s A y) := by
          intro y hy
          rcases h6 y hy with h | ⟨h, h'⟩
          · exact Or.inl h
          · rcases h' with h' | ⟨h', -⟩
            · simp at h'
            · exact Or.inr ⟨h, h'⟩
        rcases hseek (s.page b).items (s.page b).hi cur (s.page cc).items (hfit b hb) (hss b hb) hbnd (hfit cc hcc) hcur with
          ⟨pre, y, ys, post, hs1, hs2, hs3, hs4⟩ | ⟨hs1, hs2⟩
        · rw [hs1]
          simp only
          have hsort := hss b hb
          rw [hs2] at hsort
          have hsl := (List.pairwise_append.1 hsort)
          have hsort' : SSorted o.cmp (y :: ys) := (List.pairwise_append.1 hsl.1).2.1
          have hc : ∀ z ∈ y :: ys, z ∈ contents s root := fun z hz => (mem_contents W).2 ⟨b, hb, by rw [hs2]; simp only [List.mem_append]; exact Or.inl (Or.inr hz)⟩
          refine ⟨fun z hz => ?_, fun z hz => hc z (by simp [hz]), by simp, Or.inr ⟨A, B, e, (List.pairwise_cons.1 hsort').2, ?_⟩⟩
          · rcases List.mem_append.1 hz with hz | hz
            · exact h1 z hz
            · simp at hz; subst hz; exact hc z (by simp)
          · apply cursor_load hk hsort'
            intro z hz
            rcases hpend z hz with h | ⟨h, h'⟩
            · exact Or.inl h
            · refine Or.inr ⟨h, ?_⟩
              rcases low_where W e (hS z hz) h' with hw | ⟨-, hw⟩
              · rw [hs2] at hw
                rcases List.mem_append.1 hw with hw | hw
                · rcases List.mem_append.1 hw with hw | hw
                  · exact absurd ((hk.gt z cur).2 (h cur h3)) (hs3 z hw)
                  · exact Or.inl hw
                · exact Or.inr ⟨h', fun l hl => (hk.lt l z).1 (hsl.2.2 l (List.mem_append_right _ hl) z hw)⟩
              · refine Or.inr ⟨h', fun l hl => ?_⟩
                have := W.order.le b hb l (by rw [hs2]; simp only [List.mem_append]; exact Or.inl (Or.inr hl))
                simpa using this.trans_lt hw
        · have hnot : ∀ z ∈ S, Delivered o.cmp acc z ∨ ((∀ a ∈ acc, key a < key z) ∧ Low key s A z ∧ hiP key (s.page b) < ((key z : K) : WithTop K) ∧
              ∃ c ∈ B, z ∈ (s.page c).items) := by
            intro z hz
            rcases hpend z hz with h | ⟨h, h'⟩
            · exact Or.inl h
            · rcases low_where W e (hS z hz) h' with hw | ⟨hw1, hw2⟩
              · exact absurd ((hk.gt z cur).2 (h cur h3)) (hs2 z hw)
              · exact Or.inr ⟨h, h', hw2, hw1⟩
          have hres : ReadOK key o root s G S (match (s.page b).right with | some r => Thread.next r cur acc | none => .ended acc) := by
            cases B with
            | nil =>
              simp at hr
              rw [hr]
              refine ⟨h1, fun z hz => ?_⟩
              rcases hnot z hz with h | ⟨-, -, -, c, hc, -⟩
              · exact h
              · simp at hc
            | cons r B =>
              simp at hr
              rw [hr]
              have h0 : 0 < G.h := by
                rcases Nat.eq_zero_or_pos G.h with h | h
                · have := W.root
                  rw [h, e] at this
                  have := congrArg List.length this
                  simp at this
                  omega
                · exact h
              refine ⟨h1, h3, A ++ [b], B, by rw [e]; simp, h0, fun z hz => ?_⟩
              rcases hnot z hz with h | ⟨h, h', h'', -⟩
              · exact Or.inl h
              · exact Or.inr ⟨h, low_snoc h' h''⟩
          cases hsk : seek (s.page b).items (s.page b).hi cur with
          | none => exact hres
          | some l =>
            cases l with
            | nil => exact hres
            | cons y ys => exact absurd hsk (hs1 y ys)
  | _ => exact h.elim

end Rum.Tree

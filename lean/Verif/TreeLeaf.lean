import Verif.TreeRecords
/-
Insertion of items: the leaf level, rumInsertValue and rumInsertItemPointers as a whole.
-/
namespace Rum.Tree
open Rum Rum.Entry

variable {α K : Type} [LinearOrder K]

/-- What putting `new` among `old` gives: with `keep` an old item wins over an equal new one (posting trees), else the new one (entry tree). -/
def Upd (cmp : α → α → Ordering) (keep : Bool) (old new : List α) (y : α) : Prop :=
  if keep then y ∈ old ∨ (y ∈ new ∧ ∀ z ∈ old, cmp z y ≠ .eq) else y ∈ new ∨ (y ∈ old ∧ ∀ z ∈ new, cmp z y ≠ .eq)

/-- What is required of the methods on leaf pages. `POK`: the items fit on a page. `XOK`: the batches that may be inserted. -/
structure LeafLaws (o : Ops α) (keep : Bool) (POK XOK : List α → Prop) (KOK : α → Prop) : Prop where
  keys : ∀ its, POK its → ∀ i ∈ its, KOK i
  rest : ∀ l k, XOK l → XOK (l.drop k)
  found : ∀ its x xs, POK its → SSorted o.cmp its → XOK (x :: xs) → (o.found its x = true ↔ ∃ i ∈ its, o.cmp i x = .eq)
  place : ∀ its hi x xs, POK its → SSorted o.cmp its → SSorted o.cmp (x :: xs) → XOK (x :: xs) →
    o.roomLeaf its (x :: xs) = true → (∀ b, hi = some b → o.cmp x b ≠ .gt) → (∀ b, hi = some b → ∀ i ∈ its, o.cmp i b ≠ .gt) →
    ∃ k, 1 ≤ k ∧ k ≤ (x :: xs).length ∧ (o.place its hi (x :: xs)).2 = (x :: xs).drop k ∧ POK (o.place its hi (x :: xs)).1 ∧
      SSorted o.cmp (o.place its hi (x :: xs)).1 ∧ (∀ b, hi = some b → ∀ i ∈ (o.place its hi (x :: xs)).1, o.cmp i b ≠ .gt) ∧
      ∀ y, y ∈ (o.place its hi (x :: xs)).1 ↔ Upd o.cmp keep its ((x :: xs).take k) y
  cut : ∀ its x xs, POK its → SSorted o.cmp its → SSorted o.cmp (x :: xs) → XOK (x :: xs) →
    o.roomLeaf its (x :: xs) = false → (keep = true → ∀ i ∈ its, o.cmp i x ≠ .eq) →
    ∃ k, 1 ≤ k ∧ k ≤ (x :: xs).length ∧ (o.cut its (x :: xs)).2.2 = (x :: xs).drop k ∧
      (o.cut its (x :: xs)).1 ≠ [] ∧ (o.cut its (x :: xs)).2.1 ≠ [] ∧
      POK (o.cut its (x :: xs)).1 ∧ POK (o.cut its (x :: xs)).2.1 ∧
      SSorted o.cmp ((o.cut its (x :: xs)).1 ++ (o.cut its (x :: xs)).2.1) ∧
      (∀ y, y ∈ (o.cut its (x :: xs)).1 ++ (o.cut its (x :: xs)).2.1 ↔ Upd o.cmp keep its ((x :: xs).take k) y) ∧
      ((∃ i ∈ its, o.cmp x i = .lt) → k = 1)

/-- Every leaf other than the last holds an item equal to its limit, and the last is not empty unless it is the only one (true until VACUUM removes
items). -/
def BoundIn (key : α → K) (ls : List (List α × WithTop K)) : Prop :=
  ∀ p ∈ ls, (p.2 = ⊤ ∧ (p.1 = [] → ls.length = 1)) ∨ ∃ i ∈ p.1, ((key i : K) : WithTop K) = p.2

omit [LinearOrder K] in
theorem BoundIn.nonempty {key : α → K} {ls : List (List α × WithTop K)} (h : BoundIn key ls) {p : List α × WithTop K} (hp : p ∈ ls) (hl : ls.length ≠ 1) :
    p.1 ≠ [] := by
  rcases h p hp with ⟨-, h⟩ | ⟨i, hi, -⟩
  · exact fun e => hl (h e)
  · exact List.ne_nil_of_mem hi

section leaf
variable {key : α → K} {strict : Bool} {s : Store α} {root : Nat} {G : Ghost} {IOK : List (α × Nat) → Prop} {KOK : α → Prop}
  {POK XOK : List α → Prop} {o : Ops α} {keep : Bool}

omit [LinearOrder K] in
theorem leafs_split {A B : List Nat} {b : Nat} (e : G.lv 0 = A ++ b :: B) :
    leafs key s G = A.map (fun b => ((s.page b).items, hiP key (s.page b))) ++
      ((s.page b).items, hiP key (s.page b)) :: B.map (fun b => ((s.page b).items, hiP key (s.page b))) := by
  simp [leafs, e]

/-- The order facts around the leaf where `x` belongs. -/
theorem around (W : Weak key strict s root G) {A B : List Nat} {b : Nat} (e : G.lv 0 = A ++ b :: B) {x : α}
    (hA : ∀ c ∈ A, hiP key (s.page c) < ((key x : K) : WithTop K)) :
    (∀ c ∈ A, ∀ i ∈ (s.page c).items, key i < key x) ∧
    (∀ c ∈ B, ∀ i ∈ (s.page c).items, hiP key (s.page b) < ((key i : K) : WithTop K)) ∧
    (∀ c ∈ A, ∀ i ∈ (s.page b).items, hiP key (s.page c) < ((key i : K) : WithTop K)) := by
  have hp := W.order.pair
  rw [e] at hp
  obtain ⟨p1, p2, p3⟩ := List.pairwise_append.1 hp
  refine ⟨fun c hc i hi => ?_, fun c hc i hi => ((List.pairwise_cons.1 p2).1 c hc).2 i hi, fun c hc i hi => (p3 c hc b (by simp)).2 i hi⟩
  exact WithTop.coe_lt_coe.1 ((W.order.le c (by rw [e]; simp [hc]) i hi).trans_lt (hA c hc))

theorem ssorted_key (hk : KeyOf o.cmp key) {l : List α} : SSorted o.cmp l ↔ l.Pairwise (fun i j => key i < key j) := by
  constructor
  · intro h; exact h.imp (fun {a b} h => (hk.lt a b).1 h)
  · intro h; exact h.imp (fun {a b} h => (hk.lt a b).2 h)

theorem hi_some (hk : KeyOf o.cmp key) (p : Page α) (x : α) :
    (((key x : K) : WithTop K) ≤ hiP key p ↔ ∀ b, p.hi = some b → o.cmp x b ≠ .gt) := by
  unfold hiP Page.hi
  cases h : p.right with
  | none => simp
  | some r =>
    simp only [Option.isSome_some, if_true, Option.some.injEq, forall_eq', WithTop.coe_le_coe]
    rw [Ne, hk.gt, not_lt]

/-- Membership in all leaves after a change of one of them. -/
theorem upd_global (hk : KeyOf o.cmp key) (W : Weak key strict s root G) {A B : List Nat} {b : Nat} (e : G.lv 0 = A ++ b :: B) {x : α}
    (hA : ∀ c ∈ A, hiP key (s.page c) < ((key x : K) : WithTop K)) {new M : List α} (hge : ∀ y ∈ new, key x ≤ key y)
    (hle : ∀ y ∈ new, ((key y : K) : WithTop K) ≤ hiP key (s.page b))
    (hM : ∀ y, y ∈ M ↔ Upd o.cmp keep (s.page b).items new y) (y : α) :
    ((∃ c ∈ A, y ∈ (s.page c).items) ∨ y ∈ M ∨ ∃ c ∈ B, y ∈ (s.page c).items) ↔
      Upd o.cmp keep ((leafs key s G).flatMap Prod.fst) new y := by
  obtain ⟨a1, a2, -⟩ := around W e hA
  have hmem : y ∈ (leafs key s G).flatMap Prod.fst ↔ (∃ c ∈ A, y ∈ (s.page c).items) ∨ y ∈ (s.page b).items ∨ ∃ c ∈ B, y ∈ (s.page c).items := by
    rw [leafs_split e]
    simp only [List.flatMap_append, List.flatMap_cons, List.flatMap_map, List.mem_append, List.mem_flatMap]
  have hmem' : ∀ z, z ∈ (leafs key s G).flatMap Prod.fst ↔ (∃ c ∈ A, z ∈ (s.page c).items) ∨ z ∈ (s.page b).items ∨ ∃ c ∈ B, z ∈ (s.page c).items := by
    intro z
    rw [leafs_split e]
    simp only [List.flatMap_append, List.flatMap_cons, List.flatMap_map, List.mem_append, List.mem_flatMap]
  -- items of other leaves differ from the new ones
  have hdA : ∀ n ∈ new, ∀ c ∈ A, ∀ i ∈ (s.page c).items, key i ≠ key n := fun n hn c hc i hi h =>
    absurd (a1 c hc i hi) (not_lt.2 (h ▸ hge n hn))
  have hdB : ∀ n ∈ new, ∀ c ∈ B, ∀ i ∈ (s.page c).items, key i ≠ key n := fun n hn c hc i hi h =>
    absurd (a2 c hc i hi) (not_lt.2 (h ▸ hle n hn))
  rw [hM]
  cases keep with
  | true =>
    simp only [Upd, if_true, hmem]
    constructor
    · rintro (h | (h | ⟨h1, h2⟩) | h)
      · exact Or.inl (Or.inl h)
      · exact Or.inl (Or.inr (Or.inl h))
      · refine Or.inr ⟨h1, fun z hz => ?_⟩
        rw [Ne, hk.eq]
        rcases (hmem' z).1 hz with ⟨c, hc, hz⟩ | hz | ⟨c, hc, hz⟩
        · exact hdA y h1 c hc z hz
        · have := h2 z hz; rwa [Ne, hk.eq] at this
        · exact hdB y h1 c hc z hz
      · exact Or.inl (Or.inr (Or.inr h))
    · rintro ((h | h | h) | ⟨h1, h2⟩)
      · exact Or.inl h
      · exact Or.inr (Or.inl (Or.inl h))
      · exact Or.inr (Or.inr h)
      · exact Or.inr (Or.inl (Or.inr ⟨h1, fun z hz => h2 z ((hmem' z).2 (Or.inr (Or.inl hz)))⟩))
  | false =>
    simp only [Upd, Bool.false_eq_true, if_false, hmem]
    constructor
    · rintro (⟨c, hc, h⟩ | (h | ⟨h1, h2⟩) | ⟨c, hc, h⟩)
      · refine Or.inr ⟨Or.inl ⟨c, hc, h⟩, fun z hz => ?_⟩
        rw [Ne, hk.eq]
        exact fun he => hdA z hz c hc y h he.symm
      · exact Or.inl h
      · exact Or.inr ⟨Or.inr (Or.inl h1), h2⟩
      · refine Or.inr ⟨Or.inr (Or.inr ⟨c, hc, h⟩), fun z hz => ?_⟩
        rw [Ne, hk.eq]
        exact fun he => hdB z hz c hc y h he.symm
    · rintro (h | ⟨h | h | h, h2⟩)
      · exact Or.inr (Or.inl (Or.inl h))
      · exact Or.inl h
      · exact Or.inr (Or.inl (Or.inr ⟨h, h2⟩))
      · exact Or.inr (Or.inr h)

/-- Everything the state between insertions satisfies; under `C`, no page split is unfinished. -/
structure Good (C : Prop) (key : α → K) (strict : Bool) (IOK : List (α × Nat) → Prop) (KOK : α → Prop) (POK : List α → Prop) (s : Store α)
    (root : Nat) (G : Ghost) : Prop where
  weak : Weak key strict s root G
  complete : C → Complete G
  sized : Sized IOK KOK s G
  fit : ∀ p ∈ leafs key s G, POK p.1

theorem upd_le {old new : List α} {y : α} {z : WithTop K} (h : Upd o.cmp keep old new y)
    (h1 : ∀ i ∈ old, ((key i : K) : WithTop K) ≤ z) (h2 : ∀ i ∈ new, ((key i : K) : WithTop K) ≤ z) : ((key y : K) : WithTop K) ≤ z := by
  unfold Upd at h
  split at h
  · rcases h with h | h
    · exact h1 y h
    · exact h2 y h.1
  · rcases h with h | h
    · exact h2 y h
    · exact h1 y h.1

theorem upd_gt {old new : List α} {y : α} {z : WithTop K} (h : Upd o.cmp keep old new y)
    (h1 : ∀ i ∈ old, z < ((key i : K) : WithTop K)) (h2 : ∀ i ∈ new, z < ((key i : K) : WithTop K)) : z < ((key y : K) : WithTop K) := by
  unfold Upd at h
  split at h
  · rcases h with h | h
    · exact h1 y h
    · exact h2 y h.1
  · rcases h with h | h
    · exact h2 y h
    · exact h1 y h.1

/-- An equal item survives. -/
theorem upd_keeps (hk : KeyOf o.cmp key) {old new : List α} {i : α} (hi : i ∈ old) : ∃ j, Upd o.cmp keep old new j ∧ key j = key i := by
  unfold Upd
  cases keep with
  | true => exact ⟨i, by simp [hi], rfl⟩
  | false =>
    simp only [Bool.false_eq_true, if_false]
    by_cases h : ∃ z ∈ new, o.cmp z i = .eq
    · obtain ⟨z, hz, he⟩ := h
      exact ⟨z, Or.inl hz, (hk.eq z i).1 he⟩
    · refine ⟨i, Or.inr ⟨hi, fun z hz he => h ⟨z, hz, he⟩⟩, rfl⟩

set_option maxHeartbeats 1000000 in
/-- The record that puts items on a leaf with room. -/
theorem leaf_place (hk : KeyOf o.cmp key) (LL : LeafLaws o keep POK XOK KOK)
    {C : Prop} (H : Good C key strict IOK KOK POK s root G) {A B : List Nat} {b : Nat} (e : G.lv 0 = A ++ b :: B) {x : α} {xs : List α}
    (hA : ∀ c ∈ A, hiP key (s.page c) < ((key x : K) : WithTop K)) (hx : ((key x : K) : WithTop K) ≤ hiP key (s.page b))
    (hsort : SSorted o.cmp (x :: xs)) (hok : XOK (x :: xs))
    (hroom : o.roomLeaf (s.page b).items (x :: xs) = true) :
    ∃ k, 1 ≤ k ∧ k ≤ (x :: xs).length ∧ (o.place (s.page b).items (s.page b).hi (x :: xs)).2 = (x :: xs).drop k ∧
      Good C key strict IOK KOK POK (s.set b { s.page b with items := (o.place (s.page b).items (s.page b).hi (x :: xs)).1 }) root G ∧
      (∀ y, y ∈ (leafs key (s.set b { s.page b with items := (o.place (s.page b).items (s.page b).hi (x :: xs)).1 }) G).flatMap Prod.fst ↔
        Upd o.cmp keep ((leafs key s G).flatMap Prod.fst) ((x :: xs).take k) y) ∧
      (BoundIn key (leafs key s G) →
        BoundIn key (leafs key (s.set b { s.page b with items := (o.place (s.page b).items (s.page b).hi (x :: xs)).1 }) G)) ∧
      LeafKeeps key root s G (s.set b { s.page b with items := (o.place (s.page b).items (s.page b).hi (x :: xs)).1 }) G := by
  have W := H.weak
  have hb0 : b ∈ G.lv 0 := by rw [e]; simp
  obtain ⟨a1, a2, a3⟩ := around W e hA
  have hPb : POK (s.page b).items := H.fit ((s.page b).items, hiP key (s.page b)) (by rw [leafs_split e]; simp)
  have hsb : SSorted o.cmp (s.page b).items := (ssorted_key hk).2 (W.order.sorted b hb0)
  have hleb := W.order.le b hb0
  have hge : ∀ y ∈ x :: xs, key x ≤ key y := by
    intro y hy
    rcases List.mem_cons.1 hy with rfl | hy
    · exact _root_.le_refl _
    · exact le_of_lt ((hk.lt _ _).1 ((List.pairwise_cons.1 hsort).1 y hy))
  obtain ⟨k, h1, h2, h3, h4, h5, h6, h7⟩ := LL.place (s.page b).items (s.page b).hi x xs hPb hsb hsort hok hroom
    ((hi_some hk _ _).1 hx) (fun bb hbb i hi => (hi_some hk _ i).1 (hleb i hi) bb hbb)
  set its := (o.place (s.page b).items (s.page b).hi (x :: xs)).1 with hits
  have hle' : ∀ i ∈ its, ((key i : K) : WithTop K) ≤ hiP key (s.page b) := fun i hi =>
    (hi_some hk _ i).2 (fun bb hbb => h6 bb hbb i hi)
  have hge' : ∀ y ∈ (x :: xs).take k, key x ≤ key y := fun y hy => hge y (List.mem_of_mem_take hy)
  have W' : Weak key strict (s.set b { s.page b with items := its }) root G := by
    refine W.leaf_change e ((ssorted_key hk).1 h5) hle' (fun c hc i hi => ?_)
    exact upd_gt ((h7 i).1 hi) (a3 c hc) (fun y hy => (hA c hc).trans_le (WithTop.coe_le_coe.2 (hge' y hy)))
  have hne : ∀ c ∈ A, c ≠ b := by
    have := W.nodup 0 (Nat.zero_le _)
    rw [e, List.nodup_append] at this
    exact fun c hc h => this.2.2 c hc b (by simp) h
  have hneB : ∀ c ∈ B, c ≠ b := by
    have := W.nodup 0 (Nat.zero_le _)
    rw [e, List.nodup_append] at this
    exact fun c hc h => (List.nodup_cons.1 this.2.1).1 (h ▸ hc)
  set t := s.set b { s.page b with items := its } with ht
  have htb : t.page b = { s.page b with items := its } := by rw [ht, Store.set_page, if_pos rfl]
  have htc : ∀ c, c ≠ b → t.page c = s.page c := fun c hc => by rw [ht, Store.set_page, if_neg hc]
  have hls : leafs key t G = A.map (fun b => ((s.page b).items, hiP key (s.page b))) ++
      (its, hiP key (s.page b)) :: B.map (fun b => ((s.page b).items, hiP key (s.page b))) := by
    rw [leafs_split e, htb]
    congr 1
    · exact List.map_congr_left (fun c hc => by rw [htc c (hne c hc)])
    · congr 1
      exact List.map_congr_left (fun c hc => by rw [htc c (hneB c hc)])
  have hfit : ∀ p ∈ leafs key t G, POK p.1 := by
    intro p hp
    rw [hls] at hp
    simp only [List.mem_append, List.mem_cons] at hp
    have := H.fit
    rw [leafs_split e] at this
    rcases hp with hp | rfl | hp
    · exact this p (by simp only [List.mem_append]; exact Or.inl hp)
    · exact h4
    · exact this p (by simp only [List.mem_append, List.mem_cons]; exact Or.inr (Or.inr hp))
  have S' : Sized IOK KOK t G := by
    refine ⟨?_, ?_⟩
    · intro j hj c hc
      show IOK (t.page c).downs
      by_cases h : c = b
      · rw [h, htb]; exact H.sized.inner j hj b (h ▸ hc)
      · rw [htc c h]; exact H.sized.inner j hj c hc
    · intro j hj c hc
      show KOK (t.page c).bound
      by_cases h : c = b
      · rw [h, htb]; exact H.sized.bounds j hj b (h ▸ hc)
      · rw [htc c h]; exact H.sized.bounds j hj c hc
  refine ⟨k, h1, h2, h3, ⟨W', H.complete, S', hfit⟩, ?_, ?_, ?_⟩
  · intro y
    have hnl : ∀ y ∈ (x :: xs).take k, ((key y : K) : WithTop K) ≤ hiP key (s.page b) := by
      intro y hy
      by_cases h : ∃ z ∈ (s.page b).items, o.cmp z y = .eq
      · obtain ⟨z, hz, he⟩ := h
        rw [← (hk.eq z y).1 he]; exact hleb z hz
      · apply hle'
        rw [h7]
        unfold Upd
        split
        · exact Or.inr ⟨hy, fun z hz he => h ⟨z, hz, he⟩⟩
        · exact Or.inl hy
    rw [← upd_global hk W e hA hge' hnl h7 y, hls]
    simp only [List.flatMap_append, List.flatMap_cons, List.flatMap_map, List.mem_append, List.mem_flatMap]
  · intro hB p hp
    rw [hls] at hp
    simp only [List.mem_append, List.mem_cons] at hp
    rw [leafs_split e] at hB
    have hlen : (leafs key t G).length = (A.map (fun b => ((s.page b).items, hiP key (s.page b))) ++
      ((s.page b).items, hiP key (s.page b)) :: B.map (fun b => ((s.page b).items, hiP key (s.page b)))).length := by rw [hls]; simp
    rw [hlen]
    rcases hp with hp | rfl | hp
    · exact hB p (by simp only [List.mem_append]; exact Or.inl hp)
    · rcases hB ((s.page b).items, hiP key (s.page b)) (by simp) with h | ⟨i, hi, he⟩
      · refine Or.inl ⟨h.1, fun hnil => ?_⟩
        apply h.2
        by_contra hne'
        obtain ⟨i, hi⟩ := List.exists_mem_of_ne_nil _ hne'
        obtain ⟨j, hj, -⟩ := upd_keeps (keep := keep) (new := (x :: xs).take k) hk hi
        have := (h7 j).2 hj
        rw [show its = [] from hnil] at this
        cases this
      · right
        obtain ⟨j, hj, hje⟩ := upd_keeps (keep := keep) (new := (x :: xs).take k) hk hi
        exact ⟨j, (h7 j).2 hj, by rw [hje]; exact he⟩
    · exact hB p (by simp only [List.mem_append, List.mem_cons]; exact Or.inr (Or.inr hp))
  · intro A' a B' _ e'
    have hh : ∀ c, hiP key (t.page c) = hiP key (s.page c) := by
      intro c
      by_cases h : c = b
      · rw [h, htb]; rfl
      · rw [htc c h]
    exact ⟨A', B', e', fun c hc => ⟨c, hc, le_of_eq (hh c)⟩, fun c hc => ⟨c, hc, le_of_eq (hh c).symm⟩⟩

/-- The leaves after the split of one. -/
def splitLeafs (key : α → K) (s : Store α) (A B : List Nat) (b : Nat) (Li Ri : List α) (kk : α) : List (List α × WithTop K) :=
  A.map (fun b => ((s.page b).items, hiP key (s.page b))) ++
    (Li, ((key kk : K) : WithTop K)) :: (Ri, hiP key (s.page b)) :: B.map (fun b => ((s.page b).items, hiP key (s.page b)))

set_option maxHeartbeats 1000000 in
/-- What the split of a leaf does to the items. -/
theorem cut_facts (hk : KeyOf o.cmp key) (LL : LeafLaws o keep POK XOK KOK)
    {C : Prop} (H : Good C key strict IOK KOK POK s root G) {A B : List Nat} {b : Nat} (e : G.lv 0 = A ++ b :: B) {x : α} {xs : List α}
    (hA : ∀ c ∈ A, hiP key (s.page c) < ((key x : K) : WithTop K)) (hx : ((key x : K) : WithTop K) ≤ hiP key (s.page b))
    (hsort : SSorted o.cmp (x :: xs)) (hok : XOK (x :: xs))
    (hnew : keep = true → ∀ i ∈ (s.page b).items, o.cmp i x ≠ .eq)
    (hbatch : xs = [] ∨ (keep = true ∧ BoundIn key (leafs key s G)))
    (hroom : o.roomLeaf (s.page b).items (x :: xs) = false) :
    ∃ k kk, 1 ≤ k ∧ k ≤ (x :: xs).length ∧ (o.cut (s.page b).items (x :: xs)).2.2 = (x :: xs).drop k ∧
      ((o.cut (s.page b).items (x :: xs)).1.getLast?).getD o.zero = kk ∧ KOK kk ∧ ((key kk : K) : WithTop K) < hiP key (s.page b) ∧
      (∀ A', (∀ c ∈ A', c ∈ A) → SplitOK key s G 0 b A' (o.cut (s.page b).items (x :: xs)).1 (o.cut (s.page b).items (x :: xs)).2.1 [] [] kk) ∧
      (∀ ls, ls = splitLeafs key s A B b (o.cut (s.page b).items (x :: xs)).1 (o.cut (s.page b).items (x :: xs)).2.1 kk →
        (∀ p ∈ ls, POK p.1) ∧ (∀ y, y ∈ ls.flatMap Prod.fst ↔ Upd o.cmp keep ((leafs key s G).flatMap Prod.fst) ((x :: xs).take k) y) ∧
        (BoundIn key (leafs key s G) → BoundIn key ls)) := by
  have W := H.weak
  have hb0 : b ∈ G.lv 0 := by rw [e]; simp
  obtain ⟨a1, a2, a3⟩ := around W e hA
  have hPb : POK (s.page b).items := H.fit ((s.page b).items, hiP key (s.page b)) (by rw [leafs_split e]; simp)
  have hsb : SSorted o.cmp (s.page b).items := (ssorted_key hk).2 (W.order.sorted b hb0)
  have hleb := W.order.le b hb0
  have hge : ∀ y ∈ x :: xs, key x ≤ key y := by
    intro y hy
    rcases List.mem_cons.1 hy with rfl | hy
    · exact _root_.le_refl _
    · exact le_of_lt ((hk.lt _ _).1 ((List.pairwise_cons.1 hsort).1 y hy))
  obtain ⟨k, h1, h2, h3, hLne, hRne, hLP, hRP, hLR, h7, hk1⟩ := LL.cut (s.page b).items x xs hPb hsb hsort hok hroom hnew
  set Li := (o.cut (s.page b).items (x :: xs)).1 with hLi
  set Ri := (o.cut (s.page b).items (x :: xs)).2.1 with hRi
  -- the new items stay within the limit
  have hnl : ∀ y ∈ (x :: xs).take k, ((key y : K) : WithTop K) ≤ hiP key (s.page b) := by
    have single : k = 1 → ∀ y ∈ (x :: xs).take k, ((key y : K) : WithTop K) ≤ hiP key (s.page b) := by
      rintro rfl y hy
      simp only [List.take_succ_cons, List.take_zero, List.mem_singleton] at hy
      subst hy
      exact hx
    rcases hbatch with rfl | ⟨hkeep, hBI⟩
    · exact single (by simp at h2; omega)
    · rcases hBI ((s.page b).items, hiP key (s.page b)) (by rw [leafs_split e]; simp) with h | ⟨i, hi, he⟩
      · intro y _
        replace h := h.1
        simp only at h
        rw [h]; exact le_top
      · apply single
        apply hk1
        refine ⟨i, hi, ?_⟩
        rw [hk.lt]
        refine lt_of_le_of_ne (WithTop.coe_le_coe.1 (by rw [he]; exact hx)) (fun h => ?_)
        exact hnew hkeep i hi ((hk.eq i x).2 h.symm)
  have hge' : ∀ y ∈ (x :: xs).take k, key x ≤ key y := fun y hy => hge y (List.mem_of_mem_take hy)
  have hall_le : ∀ i ∈ Li ++ Ri, ((key i : K) : WithTop K) ≤ hiP key (s.page b) := fun i hi => upd_le ((h7 i).1 hi) hleb hnl
  have hall_gt : ∀ c ∈ A, ∀ i ∈ Li ++ Ri, hiP key (s.page c) < ((key i : K) : WithTop K) := fun c hc i hi =>
    upd_gt ((h7 i).1 hi) (a3 c hc) (fun y hy => (hA c hc).trans_le (WithTop.coe_le_coe.2 (hge' y hy)))
  have hLR' := (ssorted_key hk).1 hLR
  obtain ⟨q1, q2, q3⟩ := List.pairwise_append.1 hLR'
  obtain ⟨L0, kk, hL0⟩ : ∃ L0 kk, Li = L0 ++ [kk] := ⟨_, _, (List.dropLast_append_getLast hLne).symm⟩
  have hkkm : kk ∈ Li := by rw [hL0]; simp
  have hget : (Li.getLast?).getD o.zero = kk := by rw [hL0]; simp
  have hlast : ∀ i ∈ Li, key i ≤ key kk := by
    intro i hi
    rw [hL0] at hi q1
    rcases List.mem_append.1 hi with hi | hi
    · exact le_of_lt ((List.pairwise_append.1 q1).2.2 i hi kk (by simp))
    · simp only [List.mem_singleton] at hi; rw [hi]
  have hkR : ∀ i ∈ Ri, key kk < key i := fun i hi => q3 kk hkkm i hi
  obtain ⟨r0, hr0⟩ := List.exists_mem_of_ne_nil _ hRne
  have hkhi : ((key kk : K) : WithTop K) < hiP key (s.page b) :=
    (WithTop.coe_lt_coe.2 (hkR r0 hr0)).trans_le (hall_le r0 (by simp [hr0]))
  have hKK : KOK kk := LL.keys Li hLP kk hkkm
  have hOK : ∀ A', (∀ c ∈ A', c ∈ A) → SplitOK key s G 0 b A' Li Ri [] [] kk := fun A' hA' =>
    ⟨fun _ => ⟨⟨q1, q2⟩, hlast, hkR, fun i hi => hall_le i (by simp [hi]), hkhi,
      fun c hc => hall_gt c (hA' c hc) kk (by simp [hkkm]), fun c hc i hi => hall_gt c (hA' c hc) i (by simp [hi])⟩,
      fun h => absurd rfl h⟩
  have hLRmem : ∀ y, ((∃ c ∈ A, y ∈ (s.page c).items) ∨ (y ∈ Li ∨ y ∈ Ri) ∨ ∃ c ∈ B, y ∈ (s.page c).items) ↔
    Upd o.cmp keep ((leafs key s G).flatMap Prod.fst) ((x :: xs).take k) y := by
    intro y
    rw [← upd_global hk W e hA hge' hnl h7 y, List.mem_append]
  have hfitof : ∀ ls, ls = A.map (fun b => ((s.page b).items, hiP key (s.page b))) ++
      (Li, ((key kk : K) : WithTop K)) :: (Ri, hiP key (s.page b)) :: B.map (fun b => ((s.page b).items, hiP key (s.page b))) →
      (∀ p ∈ ls, POK p.1) ∧ (∀ y, y ∈ ls.flatMap Prod.fst ↔ Upd o.cmp keep ((leafs key s G).flatMap Prod.fst) ((x :: xs).take k) y) ∧
      (BoundIn key (leafs key s G) → BoundIn key ls) := by
    rintro ls rfl
    refine ⟨?_, ?_, ?_⟩
    · intro p hp
      have := H.fit
      rw [leafs_split e] at this
      simp only [List.mem_append, List.mem_cons] at hp
      rcases hp with hp | rfl | rfl | hp
      · exact this p (by simp only [List.mem_append]; exact Or.inl hp)
      · exact hLP
      · exact hRP
      · exact this p (by simp only [List.mem_append, List.mem_cons]; exact Or.inr (Or.inr hp))
    · intro y
      rw [← hLRmem y]
      simp only [List.flatMap_append, List.flatMap_cons, List.flatMap_map, List.mem_append, List.mem_flatMap]
      simp only [or_assoc]
    · intro hBI p hp
      rw [leafs_split e] at hBI
      simp only [List.mem_append, List.mem_cons] at hp
      rcases hp with hp | rfl | rfl | hp
      · rcases hBI p (by simp only [List.mem_append]; exact Or.inl hp) with h | h
        · refine Or.inl ⟨h.1, fun h0 => ?_⟩
          have hl := h.2 h0
          have := List.length_pos_of_mem hp
          simp only [List.length_append, List.length_cons] at hl
          omega
        · exact Or.inr h
      · exact Or.inr ⟨kk, hkkm, rfl⟩
      · rcases hBI ((s.page b).items, hiP key (s.page b)) (by simp) with h | ⟨i, hi, he⟩
        · exact Or.inl ⟨h.1, fun h0 => absurd h0 hRne⟩
        · right
          obtain ⟨j, hj, hje⟩ := upd_keeps (keep := keep) (new := (x :: xs).take k) hk hi
          have hjm := (h7 j).2 hj
          have hje' : ((key j : K) : WithTop K) = hiP key (s.page b) := by rw [hje]; exact he
          rcases List.mem_append.1 hjm with hjL | hjR
          · exact absurd (hje' ▸ WithTop.coe_le_coe.2 (hlast j hjL)) (not_le.2 hkhi)
          · exact ⟨j, hjR, hje'⟩
      · rcases hBI p (by simp only [List.mem_append, List.mem_cons]; exact Or.inr (Or.inr hp)) with h | h
        · refine Or.inl ⟨h.1, fun h0 => ?_⟩
          have hl := h.2 h0
          have := List.length_pos_of_mem hp
          simp only [List.length_append, List.length_cons] at hl
          omega
        · exact Or.inr h
  exact ⟨k, kk, h1, h2, h3, hget, hKK, hkhi, hOK, hfitof⟩

/-- The record that splits a root that is a leaf. -/
theorem leaf_root (IL : InnerLaws o IOK KOK) (hk : KeyOf o.cmp key) (LL : LeafLaws o keep POK XOK KOK)
    {C : Prop} (H : Good C key strict IOK KOK POK s root G) {A B : List Nat} {b : Nat} (e : G.lv 0 = A ++ b :: B) {x : α} {xs : List α}
    (hA : ∀ c ∈ A, hiP key (s.page c) < ((key x : K) : WithTop K)) (hx : ((key x : K) : WithTop K) ≤ hiP key (s.page b))
    (hsort : SSorted o.cmp (x :: xs)) (hok : XOK (x :: xs))
    (hnew : keep = true → ∀ i ∈ (s.page b).items, o.cmp i x ≠ .eq)
    (hbatch : xs = [] ∨ (keep = true ∧ BoundIn key (leafs key s G)))
    (hroom : o.roomLeaf (s.page b).items (x :: xs) = false) (hup : G.h = 0) :
    ∃ k kk, 1 ≤ k ∧ k ≤ (x :: xs).length ∧ (o.cut (s.page b).items (x :: xs)).2.2 = (x :: xs).drop k ∧ b = root ∧
      ((o.cut (s.page b).items (x :: xs)).1.getLast?).getD o.zero = kk ∧
      ∃ G', Good C key strict IOK KOK POK
          (splitRoot o s root (o.cut (s.page b).items (x :: xs)).1 (o.cut (s.page b).items (x :: xs)).2.1 [] [] kk) root G' ∧
        (∀ y, y ∈ (leafs key (splitRoot o s root (o.cut (s.page b).items (x :: xs)).1 (o.cut (s.page b).items (x :: xs)).2.1 [] [] kk) G').flatMap
          Prod.fst ↔ Upd o.cmp keep ((leafs key s G).flatMap Prod.fst) ((x :: xs).take k) y) ∧
        (BoundIn key (leafs key s G) → BoundIn key
          (leafs key (splitRoot o s root (o.cut (s.page b).items (x :: xs)).1 (o.cut (s.page b).items (x :: xs)).2.1 [] [] kk) G')) ∧
        LeafKeeps key root s G (splitRoot o s root (o.cut (s.page b).items (x :: xs)).1 (o.cut (s.page b).items (x :: xs)).2.1 [] [] kk) G' ∧
        Keeps root (fun _ => False) (fun _ _ => False) G G' := by
  obtain ⟨k, kk, h1, h2, h3, hget, hKK, -, hOK, hfitof⟩ := cut_facts hk LL H e hA hx hsort hok hnew hbatch hroom
  have W := H.weak
  set Li := (o.cut (s.page b).items (x :: xs)).1 with hLi
  set Ri := (o.cut (s.page b).items (x :: xs)).2.1 with hRi
  replace hup : 0 = G.h := hup.symm
  have hbr : b = root := by
    have := W.root
    rw [← hup, e] at this
    have hlen := congrArg List.length this
    simp at hlen
    have hA0 : A = [] := List.length_eq_zero_iff.1 (by omega)
    subst hA0
    simp at this
    exact this.1
  subst hbr
  obtain ⟨rfl, rfl⟩ : A = [] ∧ B = [] := by
    have := W.root
    rw [← hup, e] at this
    have hlen := congrArg List.length this
    simp at hlen
    exact ⟨List.length_eq_zero_iff.1 (by omega), List.length_eq_zero_iff.1 (by omega)⟩
  obtain ⟨G', W', C', hh, g1, g2, g3, g4⟩ := root_split (o := o) W H.complete (by rw [← hup]; exact hOK [] (by simp))
  obtain ⟨p1, p2, p3, p4⟩ := splitRoot_pages (o := o) W (li := Li) (ri := Ri) (ld := []) (rd := []) (kk := kk)
  have hhi : hiP key (s.page b) = ⊤ := by
    have := W.linked G.h (_root_.le_refl _)
    rw [W.root] at this
    have hr : (s.page b).right = none := by simpa using this.2.1
    simp [hiP, hr]
  have hls : leafs key (splitRoot o s b Li Ri [] [] kk) G' = [(Li, ((key kk : K) : WithTop K)), (Ri, hiP key (s.page b))] := by
    unfold leafs
    rw [hup, g2]
    simp only [List.map_cons, List.map_nil, p2, p3, hhi]
    rfl
  obtain ⟨f1, f2, f3⟩ := hfitof (leafs key (splitRoot o s b Li Ri [] [] kk) G') (by rw [hls]; simp [splitLeafs])
  have S' := root_sized (o := o) (li := Li) (ri := Ri) (ld := []) (rd := []) (kk := kk) IL W H.sized hKK
    (IL.rk _ _ _ (H.sized.bounds G.h (_root_.le_refl _) b (by rw [W.root]; simp)) (LL.keys _ (f1 (Ri, hiP key (s.page b)) (by rw [hls]; simp))) (by simp))
    (fun h => absurd hup.symm h) hh g1 g2 g3
  refine ⟨k, kk, h1, h2, h3, rfl, hget, G', ⟨W', C', S', f1⟩, f2, f3, ?_, g4⟩
  intro A' a B' ha e'
  rw [e] at e'
  exfalso
  have : a ∈ [] ++ [b] := by rw [e']; simp
  simp at this
  exact ha this

/-- The record that splits a leaf other than the root. -/
theorem leaf_split (hk : KeyOf o.cmp key) (LL : LeafLaws o keep POK XOK KOK)
    {C : Prop} (H : Good C key strict IOK KOK POK s root G) {A B : List Nat} {b : Nat} (e : G.lv 0 = A ++ b :: B) {x : α} {xs : List α}
    (hA : ∀ c ∈ A, hiP key (s.page c) < ((key x : K) : WithTop K)) (hx : ((key x : K) : WithTop K) ≤ hiP key (s.page b))
    (hsort : SSorted o.cmp (x :: xs)) (hok : XOK (x :: xs))
    (hnew : keep = true → ∀ i ∈ (s.page b).items, o.cmp i x ≠ .eq)
    (hbatch : xs = [] ∨ (keep = true ∧ BoundIn key (leafs key s G)))
    (hroom : o.roomLeaf (s.page b).items (x :: xs) = false) (hlt : 0 < G.h) :
    ∃ k kk, 1 ≤ k ∧ k ≤ (x :: xs).length ∧ (o.cut (s.page b).items (x :: xs)).2.2 = (x :: xs).drop k ∧
      ((o.cut (s.page b).items (x :: xs)).1.getLast?).getD o.zero = kk ∧ KOK kk ∧
      ∃ G', Good False key strict IOK KOK POK
          (splitAt s b (o.cut (s.page b).items (x :: xs)).1 (o.cut (s.page b).items (x :: xs)).2.1 [] [] kk) root G' ∧
        ((∃ P t G1 G2, Pend C G' 0 P b s.next t G1 G2) ∨ (¬ C ∧ NoDown G' b)) ∧
        hiP key ((splitAt s b (o.cut (s.page b).items (x :: xs)).1 (o.cut (s.page b).items (x :: xs)).2.1 [] [] kk).page b) =
          ((key kk : K) : WithTop K) ∧
        (∀ j up, PathOK root G j up → PathOK root G' j up) ∧ G'.h = G.h ∧
        (∀ y, y ∈ (leafs key (splitAt s b (o.cut (s.page b).items (x :: xs)).1 (o.cut (s.page b).items (x :: xs)).2.1 [] [] kk) G').flatMap
          Prod.fst ↔ Upd o.cmp keep ((leafs key s G).flatMap Prod.fst) ((x :: xs).take k) y) ∧
        (BoundIn key (leafs key s G) → BoundIn key
          (leafs key (splitAt s b (o.cut (s.page b).items (x :: xs)).1 (o.cut (s.page b).items (x :: xs)).2.1 [] [] kk) G')) ∧
        LeafKeeps key root s G (splitAt s b (o.cut (s.page b).items (x :: xs)).1 (o.cut (s.page b).items (x :: xs)).2.1 [] [] kk) G' ∧
        Keeps root (fun c => c = b) (fun x y => (x = b ∧ y = s.next) ∨ (x = s.next ∧ Adj G b y)) G G' ∧ b ∈ G'.lv 0 ∧ Adj G' b s.next := by
  obtain ⟨k, kk, h1, h2, h3, hget, hKK, hkhi, hOK, hfitof⟩ := cut_facts hk LL H e hA hx hsort hok hnew hbatch hroom
  have W := H.weak
  have hb0 : b ∈ G.lv 0 := by rw [e]; simp
  set Li := (o.cut (s.page b).items (x :: xs)).1 with hLi
  set Ri := (o.cut (s.page b).items (x :: xs)).2.1 with hRi
  have hrB := (Linked.right (e ▸ W.linked 0 (Nat.zero_le _))).1
  have hrB : (s.page b).right = B.head? := by simpa using hrB
  have hfr : ∀ j, j ≤ G.h → s.next ∉ G.lv j := fresh_next W (_root_.le_refl _)
  have hnd := W.nodup 0 (Nat.zero_le _)
  rw [e, List.nodup_append] at hnd
  have hbB : b ∉ B := (List.nodup_cons.1 hnd.2.1).1
  have hbA : ∀ c ∈ A, c ≠ b := fun c hc h => hnd.2.2 c hc b (by simp) h
  have hbn : b ≠ s.next := fun h => hfr 0 (Nat.zero_le _) (h ▸ hb0)
  have pg : SplitPages s (splitAt s b Li Ri [] [] kk) b s.next (s.next + 1) B Li Ri [] [] kk := by
    rw [splitAt_eq]
    exact splitN_pages hrB hbn hbB (fun h => hfr 0 (Nat.zero_le _) (by rw [e]; simp [h]))
  have W' := W.split hlt e hfr (Nat.le_succ _) (Nat.lt_succ_self _) (hOK A (fun _ h => h)) pg
  have hp := split_pend (m := ([] : List (α × Nat)).length) W H.complete hlt hb0 hfr
  have S' : Sized IOK KOK (splitAt s b Li Ri [] [] kk) (G.split b s.next ([] : List (α × Nat)).length) := by
    refine ⟨?_, ?_⟩
    · intro j hj c hc
      change j < G.h at hj
      have hbj : b ∉ G.lv (j + 1) := fun h => by have := W.uniq (j + 1) 0 b (by omega) (by omega) h hb0; omega
      change c ∈ ins b s.next (G.lv (j + 1)) at hc
      rw [ins_not_mem _ _ _ hbj] at hc
      rw [pg.fo c (fun h => hbj (h ▸ hc)) (fun h => hfr _ (by omega) (h ▸ hc))]
      exact H.sized.inner j hj c hc
    · intro j hj c hc
      change j ≤ G.h at hj
      by_cases g1 : c = b
      · rw [g1, pg.fb]; exact hKK
      · by_cases g2 : c = s.next
        · rw [g2, pg.fr]; exact H.sized.bounds 0 (Nat.zero_le _) b hb0
        · rcases mem_ins hc with hc | ⟨hc, -⟩
          · rw [pg.fo c g1 g2]; exact H.sized.bounds j hj c hc
          · exact absurd hc g2
  have hlv : (G.split b s.next ([] : List (α × Nat)).length).lv 0 = A ++ b :: s.next :: B := by
    show ins b s.next (G.lv 0) = _
    rw [e]
    exact ins_split _ _ _ _ (fun h => hbA b h rfl) hbB
  have hls : leafs key (splitAt s b Li Ri [] [] kk) (G.split b s.next ([] : List (α × Nat)).length) =
      A.map (fun b => ((s.page b).items, hiP key (s.page b))) ++
      (Li, ((key kk : K) : WithTop K)) :: (Ri, hiP key (s.page b)) :: B.map (fun b => ((s.page b).items, hiP key (s.page b))) := by
    unfold leafs
    rw [hlv]
    simp only [List.map_append, List.map_cons, pg.fb, pg.fr]
    congr 1
    · exact List.map_congr_left (fun c hc => by
        rw [pg.fo c (hbA c hc) (fun h => hfr 0 (Nat.zero_le _) (by rw [e, ← h]; simp [hc]))]; rfl)
    · congr 1
      congr 1
      exact List.map_congr_left (fun c hc => by
        rw [pg.fo c (fun h => hbB (h ▸ hc)) (fun h => hfr 0 (Nat.zero_le _) (by rw [e, ← h]; simp [hc]))]; rfl)
  obtain ⟨f1, f2, f3⟩ := hfitof _ hls
  have hKs : Keeps root (fun c => c = b) (fun x y => (x = b ∧ y = s.next) ∨ (x = s.next ∧ Adj G b y)) G
      (G.split b s.next ([] : List (α × Nat)).length) :=
    keeps_split W hfr (fun j hj h => by have := W.uniq 0 (j + 1) b (by omega) (by omega) hb0 h; omega)
  refine ⟨k, kk, h1, h2, h3, hget, hKK, _, ⟨W', fun f => f.elim, S', f1⟩, hp, by rw [pg.fb]; rfl, fun j up h => path_split h, rfl, f2, f3, ?_,
    hKs, by rw [hlv]; simp, ?_⟩
  · intro A' a B' _ e'
    have hhb : hiP key ((splitAt s b Li Ri [] [] kk).page b) = ((key kk : K) : WithTop K) := by rw [pg.fb]; rfl
    have hhn : hiP key ((splitAt s b Li Ri [] [] kk).page s.next) = hiP key (s.page b) := by rw [pg.fr]; rfl
    have hho : ∀ c ∈ G.lv 0, c ≠ b → hiP key ((splitAt s b Li Ri [] [] kk).page c) = hiP key (s.page c) := by
      intro c hc h
      rw [pg.fo c h (fun h' => hfr 0 (Nat.zero_le _) (h' ▸ hc))]; rfl
    have hlv' : (G.split b s.next ([] : List (α × Nat)).length).lv 0 = ins b s.next A' ++ (ins b s.next (a :: B')) := by
      show ins b s.next (G.lv 0) = _
      rw [e', ins_append]
    have hmA : ∀ c ∈ A', c ∈ G.lv 0 := fun c hc => by rw [e']; simp [hc]
    refine ⟨ins b s.next A', (if a = b then [s.next] else []) ++ ins b s.next B', ?_, ?_, ?_⟩
    · rw [hlv']
      congr 1
      show (if a = b then [b, s.next] else [a]) ++ ins b s.next B' = _
      split
      · next h => rw [h]; simp
      · simp
    · intro c hc
      rcases mem_ins hc with hc | ⟨rfl, hc'⟩
      · by_cases h : c = b
        · exact ⟨c, hc, by rw [h, hhb]; exact le_of_lt hkhi⟩
        · exact ⟨c, hc, by rw [hho c (hmA c hc) h]⟩
      · exact ⟨b, hc', by rw [hhn]⟩
    · intro c hc
      by_cases h : c = b
      · subst h
        exact ⟨s.next, List.mem_flatMap.2 ⟨c, hc, by simp⟩, by rw [hhn]⟩
      · exact ⟨c, mem_ins_of hc, by rw [hho c (hmA c hc) h]⟩
  · obtain ⟨P, G1, g, G2, hP, hg, hbg⟩ := exists_parent W hlt hb0
    obtain ⟨X, Y, rfl⟩ := List.append_of_mem hbg
    have hPb : P ≠ b := fun h => by have := W.uniq (0 + 1) 0 P (by omega) (by omega) hP (h ▸ hb0); omega
    have hPr : P ≠ s.next := fun h => hfr (0 + 1) (by omega) (h ▸ hP)
    refine ⟨0, P, ins b s.next X, ins b s.next Y, hlt, by rw [hlv]; simp, mem_ins_of hP, ?_⟩
    simp only [Ghost.split]
    rw [if_neg hPr, if_neg hPb, hg]
    refine List.mem_map.2 ⟨X ++ b :: Y, by simp, ?_⟩
    rw [ins_append]
    congr 1
    show (if b = b then [b, s.next] else [b]) ++ ins b s.next Y = _
    simp

/-- rumInsertValue on the leaf where the first item of the batch belongs. -/
theorem insertValue_spec (hk : KeyOf o.cmp key) (IL : InnerLaws o IOK KOK) (LL : LeafLaws o keep POK XOK KOK)
    {C : Prop} (H : Good C key strict IOK KOK POK s root G) {A B : List Nat} {b : Nat} (e : G.lv 0 = A ++ b :: B) {x : α} {xs : List α}
    (hA : ∀ c ∈ A, hiP key (s.page c) < ((key x : K) : WithTop K)) (hx : ((key x : K) : WithTop K) ≤ hiP key (s.page b))
    {up : List (Nat × Nat)} (hup : PathOK root G 0 up) (hsort : SSorted o.cmp (x :: xs)) (hok : XOK (x :: xs))
    (hnew : keep = true → ∀ i ∈ (s.page b).items, o.cmp i x ≠ .eq)
    (hbatch : xs = [] ∨ (keep = true ∧ BoundIn key (leafs key s G))) :
    ∃ k ts ok ls, insertValue o root s ((b, 0) :: up) (x :: xs) = (ts, ok, (x :: xs).drop k) ∧ (C → ok = true) ∧ 1 ≤ k ∧
      k ≤ (x :: xs).length ∧ ts ≠ [] ∧
      (∀ t ∈ ts, ∃ G', Good False key strict IOK KOK POK t root G' ∧ leafs key t G' = ls) ∧
      (∃ G', Good C key strict IOK KOK POK (lastStore s ts) root G' ∧ leafs key (lastStore s ts) G' = ls) ∧
      (∀ y, y ∈ ls.flatMap Prod.fst ↔ Upd o.cmp keep ((leafs key s G).flatMap Prod.fst) ((x :: xs).take k) y) ∧
      (BoundIn key (leafs key s G) → BoundIn key ls) := by
  have W := H.weak
  unfold insertValue
  simp only
  cases hroom : o.roomLeaf (s.page b).items (x :: xs) with
  | true =>
    simp only [if_true]
    obtain ⟨k, h1, h2, h3, h4, h5, h6, -⟩ := leaf_place hk LL H e hA hx hsort hok hroom
    refine ⟨k, [s.set b { s.page b with items := (o.place (s.page b).items (s.page b).hi (x :: xs)).1 }], true, _, by rw [h3], fun _ => rfl, h1,
      h2, by simp, ?_, ⟨G, h4, rfl⟩, h5, h6⟩
    intro t' ht'
    simp only [List.mem_singleton] at ht'
    subst ht'
    exact ⟨G, ⟨h4.weak, fun f => f.elim, h4.sized, h4.fit⟩, rfl⟩
  | false =>
    simp only [Bool.false_eq_true, if_false]
    cases up with
    | nil =>
      simp only [PathOK] at hup
      obtain ⟨k, kk, h1, h2, h3, hb, hkk, G', g1, g2, g3, -, -⟩ := leaf_root IL hk LL H e hA hx hsort hok hnew hbatch hroom hup.symm
      subst hb
      rw [hkk]
      refine ⟨k, [splitRoot o s b (o.cut (s.page b).items (x :: xs)).1 (o.cut (s.page b).items (x :: xs)).2.1 [] [] kk], true, _, by simp only [h3],
        fun _ => rfl, h1, h2, by simp, ?_, ⟨G', g1, rfl⟩, g2, g3⟩
      intro t ht
      simp only [List.mem_singleton] at ht
      subst ht
      exact ⟨G', ⟨g1.weak, fun f => f.elim, g1.sized, g1.fit⟩, rfl⟩
    | cons p up =>
      simp only
      have hlt : 0 < G.h := hup.1
      obtain ⟨k, kk, h1, h2, h3, hkk, hK, G', g1, g2, g3, g4, g5, g6, g7, -⟩ := leaf_split hk LL H e hA hx hsort hok hnew hbatch hroom hlt
      rw [hkk]
      obtain ⟨ts, ok, t1, tc, t2, Gf, t3, t4, t5, t6⟩ := insertUp_spec IL s.next g1.weak g1.sized (by rw [g5]; exact hlt) g2 g3 hK (g4 _ _ hup)
        (by have := height_lt W; rw [g5]; omega)
      refine ⟨k, _ :: ts, ok, _, by rw [t1, h3], tc, h1, h2, by simp, ?_, ⟨Gf, ⟨?_, t4, ?_, ?_⟩, ?_⟩, g6, g7⟩
      · intro t ht
        rcases List.mem_cons.1 ht with rfl | ht
        · exact ⟨_, g1, rfl⟩
        · obtain ⟨G2, q1, q2, q3⟩ := t2 t ht
          exact ⟨G2, ⟨q1, fun f => f.elim, q2, by rw [q3]; exact g1.fit⟩, q3⟩
      · rw [lastStore_cons]; exact t3
      · rw [lastStore_cons]; exact t5
      · rw [lastStore_cons, t6]; exact g1.fit
      · rw [lastStore_cons]; exact t6

end leaf

end Rum.Tree

import Verif.Collect
import Verif.QueryLemmas
import Verif.Props.Sort
/-!
# Collecting the rows of many keys gives what is stored under them
-/
namespace Rum.Index
open Rum Rum.Codec Rum.Leaf Rum.Entry Rum.Tree Rum.Extract Rum.Props Rum.Props.PostingTree Rum.Sort Std

variable {V : Type}

/-! ### Posting trees -/

theorem pageItems_ok {x : Ctx} {M : Lim} {cap : Nat} {p : Tree.Page (Item Datum)} (hd : p.deleted = false) (hf : FitsPage x M cap p.items)
    (hs : SSorted x.cmp p.items) : pageItems x p = some p.items := by
  obtain ⟨q, q1, -⟩ := hf.holds hs
  obtain ⟨h1, h2, -, -⟩ := q1.facts
  have := readList_placeList x.cfg p.items 0 ⟨0, 0⟩ q.data [] q1.ok (by constructor <;> simp) h1
  rw [List.append_nil, ← h2] at this
  unfold pageItems
  rw [if_neg (by simp [hd])]
  simp only [q1.built, this, Option.map_some, Option.some.injEq]
  conv_rhs => rw [← List.map_id p.items]
  exact List.map_congr_left (fun i hi => q1.stored i hi)

theorem pagesItems_ok {x : Ctx} {M : Lim} {cap : Nat} : ∀ (ps : List (Tree.Page (Item Datum))),
    (∀ p ∈ ps, p.deleted = false ∧ FitsPage x M cap p.items ∧ SSorted x.cmp p.items) → pagesItems x ps = some (ps.flatMap (·.items)) := by
  intro ps
  induction ps with
  | nil => intro _; rfl
  | cons p ps ih =>
    intro h
    obtain ⟨h1, h2, h3⟩ := h p (by simp)
    simp only [pagesItems, pageItems_ok h1 h2 h3, ih (fun q hq => h q (List.mem_cons_of_mem _ hq)), List.flatMap_cons]

theorem scanPostingTree_ok {C : Prop} {x : Ctx} {M : Lim} {cap capI : Nat} {s : Store (Item Datum)} (h : TInv C x cap capI M s 0) :
    scanPostingTree x s = some (contents s 0) := by
  obtain ⟨K, hK, key, G, hk, hG, -⟩ := h
  have W := hG.weak
  obtain ⟨b, B, h1, h2⟩ := leftmost_spec W G.h s.next (_root_.le_refl _) (height_lt W) 0 [] W.root
  have hlen := level_length W.toThin (Nat.zero_le _)
  rw [h2, List.length_cons] at hlen
  have hch : chain s s.next b = (b :: B).map s.page := chain_spec W s.next [] B b (by simpa using h2) (by omega)
  have hcont : contents s 0 = ((b :: B).map s.page).flatMap (·.items) := by
    rw [contents_eq W, leafs, h2, List.flatMap_map, List.flatMap_map]
  unfold scanPostingTree
  rw [h1]
  simp only [hch]
  rw [pagesItems_ok (M := M) (cap := cap), hcont]
  intro p hp
  obtain ⟨c, hc, rfl⟩ := List.mem_map.1 hp
  rw [← h2] at hc
  exact ⟨(W.alloc 0 (Nat.zero_le _) c hc).2, hG.fit ((s.page c).items, hiP key (s.page c)) (List.mem_map.2 ⟨c, hc, rfl⟩),
    (W.order.sorted c hc).imp (fun {i j} h => (hk.lt i j).2 h)⟩

theorem tupleItems_ok {C : Prop} {ix : Ix V} {M : Lim} {st : State V} {e : Ent V} (h : EntOK C ix M st e) : ix.tupleItems st e = some (rows ix st e) := by
  unfold Ix.tupleItems rows
  cases hp : e.post with
  | list data n => rfl
  | tree t => exact scanPostingTree_ok (h.tree t hp).2

/-! ### The walk over the entry tree -/

/-- The walk over a list of tuples. -/
def judgeAll (ix : Ix V) (st : State V) (attnum : Nat) (m : Mode V) : List (Ent V) → List (Item Datum)
  | [] => []
  | e :: es => match judge attnum m e.key with
    | .stop => []
    | .skip => judgeAll ix st attnum m es
    | .take => rows ix st e ++ judgeAll ix st attnum m es

section
variable {K : Type} [LinearOrder K] {key : Ent V → K} {G : Ghost}

theorem collect_ok {ix : Ix V} {st : State V} {attnum : Nat} {m : Mode V} (W : Weak key true st.entry rootBlk G)
    (hne : (leafs key st.entry G).length ≠ 1 → ∀ b ∈ G.lv 0, (st.entry.page b).items ≠ [])
    (ht : ∀ b ∈ G.lv 0, ∀ e ∈ (st.entry.page b).items, ix.tupleItems st e = some (rows ix st e)) (n : Nat) :
    ∀ (A B : List Nat) (b : Nat) (X Y : List (Ent V)), G.lv 0 = A ++ b :: B → (st.entry.page b).items = X ++ Y →
      (Y ++ B.flatMap (fun c => (st.entry.page c).items)).length < n →
      ix.collect st attnum m n b (X.length + 1) = some (judgeAll ix st attnum m (Y ++ B.flatMap (fun c => (st.entry.page c).items))) := by
  induction n with
  | zero => intro A B b X Y _ _ h; omega
  | succ n ih =>
    have step : ∀ (A B : List Nat) (b : Nat) (X Y : List (Ent V)) (e : Ent V), G.lv 0 = A ++ b :: B → (st.entry.page b).items = X ++ e :: Y →
        (e :: Y ++ B.flatMap (fun c => (st.entry.page c).items)).length < n + 1 →
        (match (st.entry.page b).items[X.length + 1 - 1]? with
          | none => none
          | some e =>
            match judge attnum m e.key with
            | .stop => some []
            | .skip => ix.collect st attnum m n b (X.length + 1 + 1)
            | .take => match ix.tupleItems st e, ix.collect st attnum m n b (X.length + 1 + 1) with
              | some l, some ls => some (l ++ ls)
              | _, _ => none) = some (judgeAll ix st attnum m (e :: Y ++ B.flatMap (fun c => (st.entry.page c).items))) := by
      intro A B b X Y e hlv hit hn
      have hg : (st.entry.page b).items[X.length + 1 - 1]? = some e := by
        rw [hit, Nat.add_sub_cancel, List.getElem?_append_right (_root_.le_refl _)]; simp
      rw [hg]
      have hrec := ih A B b (X ++ [e]) Y hlv (by rw [hit]; simp) (by simp at hn ⊢; omega)
      rw [List.length_append, List.length_singleton] at hrec
      simp only [List.cons_append, judgeAll]
      cases hj : judge attnum m e.key with
      | stop => rfl
      | skip => simp only [hrec]
      | take => simp only [hrec, ht b (by rw [hlv]; simp) e (by rw [hit]; simp)]
    intro A B b X Y hlv hit hn
    have hr := (Linked.right (hlv ▸ W.linked 0 (Nat.zero_le _))).1
    have hr : (st.entry.page b).right = B.head? := by simpa using hr
    rw [Ix.collect]
    cases Y with
    | cons e Y =>
      have : moveRight st.entry b (X.length + 1) = some (b, X.length + 1) := by
        unfold moveRight
        rw [if_neg (by rw [hit]; simp)]
      rw [this]
      exact step A B b X Y e hlv hit hn
    | nil =>
      have hmv : moveRight st.entry b (X.length + 1) = B.head?.map (fun r => (r, 1)) := by
        unfold moveRight
        rw [if_pos (by rw [hit]; simp), hr]
      rw [hmv]
      cases B with
      | nil => rfl
      | cons c B =>
        simp only [List.head?_cons, Option.map_some]
        have hcm : c ∈ G.lv 0 := by rw [hlv]; simp
        have hl : (leafs key st.entry G).length ≠ 1 := by
          unfold leafs; rw [hlv]; simp; omega
        obtain ⟨e, Y', hc⟩ := List.exists_cons_of_ne_nil (hne hl c hcm)
        have := step (A ++ [b]) B c [] Y' e (by rw [hlv]; simp) (by rw [hc]; rfl) (by rw [List.nil_append, List.flatMap_cons, hc] at hn; exact hn)
        rw [hc] at this
        rw [List.nil_append, List.flatMap_cons, hc]
        exact this

end

/-- The whole way from the root to the end of the walk: what is left of the first tuple not below the key is skipped. -/
theorem walk_ok {C : Prop} {ix : Ix V} [Inhabited V] {M : Lim} (hc : ColsOK ix M) {st : State V} (H : IInv C ix M st) (attnum : Nat) (m : Mode V) (k : AttKey V) :
    ∃ b up pre suf, findLeaf ix.ops st.entry rootBlk (probe k) st.entry.next rootBlk [] = some ((b, 0) :: up) ∧
      contents st.entry rootBlk = pre ++ suf ∧ (∀ e ∈ pre, ix.cmp e (probe k) = .lt) ∧ (∀ e ∈ suf, ix.cmp e (probe k) ≠ .lt) ∧
      ∀ n, suf.length < n → ix.collect st attnum m n b (ix.locate (st.entry.page b).items (probe k)).2 = some (judgeAll ix st attnum m suf) := by
  have := hc.keys
  have htr := cmp_trans ix
  have Hents := H.ents
  obtain ⟨K, hK, key, G, hk, hG, hB⟩ := H.entry
  have W := hG.weak
  obtain ⟨up, A, B, b, h1, e, hA, hb, hp⟩ := descent (o := ix.ops) hk (locateEntry_ok ix hk) W (probe k)
  obtain ⟨a1, a2, -⟩ := around W e hA
  have hb0 : b ∈ G.lv 0 := by rw [e]; simp
  have hs : SSorted ix.cmp (st.entry.page b).items := (ssorted_key (o := ix.ops) hk).2 (W.order.sorted b hb0)
  have hcont : contents st.entry rootBlk = A.flatMap (fun c => (st.entry.page c).items) ++ ((st.entry.page b).items ++
      B.flatMap (fun c => (st.entry.page c).items)) := by
    rw [contents_eq W, leafs_split e]
    simp only [List.flatMap_append, List.flatMap_cons, List.flatMap_map]
  have hmem : ∀ c ∈ G.lv 0, ∀ y ∈ (st.entry.page c).items, y ∈ contents st.entry rootBlk := by
    intro c hc' y hy
    rw [contents_eq W]
    exact List.mem_flatMap.2 ⟨((st.entry.page c).items, hiP key (st.entry.page c)), List.mem_map.2 ⟨c, hc', rfl⟩, hy⟩
  have hcol := collect_ok (ix := ix) (attnum := attnum) (m := m) W
    (fun hl c hc' => BoundIn.nonempty hB (p := ((st.entry.page c).items, hiP key (st.entry.page c))) (List.mem_map.2 ⟨c, hc', rfl⟩) hl)
    (fun c hc' y hy => tupleItems_ok (Hents y (hmem c hc' y hy)))
  obtain ⟨X, Y, hXY, hloc, hX, hY⟩ : ∃ X Y, (st.entry.page b).items = X ++ Y ∧ (ix.locate (st.entry.page b).items (probe k)).2 = X.length + 1 ∧
      (∀ y ∈ X, ix.cmp y (probe k) = .lt) ∧ ∀ y ∈ Y, ix.cmp y (probe k) ≠ .lt := by
    rcases spot ix hs (probe k) with ⟨A', B', t, hi, hl, he⟩ | ⟨A', B', hi, hl, hA', hB'⟩
    · refine ⟨A', t :: B', hi, by rw [hl], ?_, ?_⟩
      · intro y hy
        rw [hi] at hs
        have h1 := (List.pairwise_append.1 hs).2.2 y hy t (by simp)
        exact TransCmp.lt_of_lt_of_eq (cmp := ix.cmp) h1 (OrientedCmp.eq_symm he)
      · intro y hy
        rcases List.mem_cons.1 hy with rfl | hy
        · rw [OrientedCmp.eq_symm he]; simp
        · rw [hi] at hs
          have h1 := (List.pairwise_cons.1 (List.pairwise_append.1 hs).2.1).1 y hy
          have h2 := TransCmp.lt_of_eq_of_lt (cmp := ix.cmp) he h1
          rw [OrientedCmp.gt_of_lt h2]; simp
    · refine ⟨A', B', hi, by rw [hl], fun y hy => ?_, fun y hy => ?_⟩
      · exact OrientedCmp.lt_of_gt (hA' y hy)
      · rw [OrientedCmp.gt_of_lt (hB' y hy)]; simp
  refine ⟨b, up, A.flatMap (fun c => (st.entry.page c).items) ++ X, Y ++ B.flatMap (fun c => (st.entry.page c).items), h1, ?_, ?_, ?_, ?_⟩
  · rw [hcont, hXY]; simp
  · intro y hy
    rcases List.mem_append.1 hy with hy | hy
    · obtain ⟨c, hc', hy⟩ := List.mem_flatMap.1 hy
      exact (hk.lt _ _).2 (a1 c hc' y hy)
    · exact hX y hy
  · intro y hy
    rcases List.mem_append.1 hy with hy | hy
    · exact hY y hy
    · obtain ⟨c, hc', hy⟩ := List.mem_flatMap.1 hy
      intro hlt
      have h2 := WithTop.coe_lt_coe.1 (hb.trans_lt (a2 c hc' y hy))
      exact absurd ((hk.lt _ _).1 hlt) (_root_.not_lt.2 (_root_.le_of_lt h2))
  · intro n hn
    rw [hloc]
    exact hcol n A B b X Y e hXY hn

end Rum.Index

import Verif.EntryTreeLemmas
import Verif.Props.VacuumTree
/-
Invariant of the index as a whole, and insertion under it.
-/
namespace Rum.Index
open Rum Rum.Codec Rum.Leaf Rum.Entry Rum.Tree Rum.Props Rum.Props.PostingTree Rum.Props.VacuumTree Std

variable {V : Type}

/-- What is required of the columns. -/
structure ColsOK (ix : Ix V) (M : Lim) : Prop where
  keys : ∀ n, TransCmp (ix.cmpK n)
  infos : ∀ n, TransCmp (ix.ctx n).cmpV
  sizes : ∀ n, Sizes (ix.ctx n) dataCap innerCap M

/-- The invariant of a posting tree of the index. The limits of the leaves matter only where several items may be inserted at once. -/
def TInv (C : Prop) (x : Ctx) (cap capI : Nat) (M : Lim) (s : Store (Item Datum)) (root : Nat) : Prop :=
  ∃ (K : Type) (_ : LinearOrder K) (key : Item Datum → K) (G : Ghost), KeyOf x.cmp key ∧
    Good C key false (fun D => D.length * 24 ≤ capI) (fun _ => True) (FitsPage x M cap) s root G ∧
    (M.single = false → BoundIn key (leafs key s G))

section
variable {x : Ctx} {cap capI : Nat} {M : Lim} {C : Prop} {s : Store (Item Datum)} {root : Nat}

theorem TInv.of (h : Inv C x cap capI M s root) : TInv C x cap capI M s root := by
  obtain ⟨K, hK, key, G, hk, hG, hB⟩ := h
  exact ⟨K, hK, key, G, hk, hG, fun _ => hB⟩

theorem TInv.toV (h : TInv C x cap capI M s root) : InvV C x cap capI M s root := by
  obtain ⟨K, hK, key, G, hk, hG, -⟩ := h
  exact ⟨K, hK, key, G, hk, hG⟩

theorem TInv.ofV (hM : M.single = true) (h : InvV C x cap capI M s root) : TInv C x cap capI M s root := by
  obtain ⟨K, hK, key, G, hk, hG⟩ := h
  exact ⟨K, hK, key, G, hk, hG, fun h => by rw [hM] at h; cases h⟩

theorem TInv.mono (h : TInv C x cap capI M s root) : TInv False x cap capI M s root := by
  obtain ⟨K, hK, key, G, hk, hG, hB⟩ := h
  exact ⟨K, hK, key, G, hk, ⟨hG.weak, fun h => h.elim, hG.sized, hG.fit⟩, hB⟩

theorem TInv.sorted [TransCmp x.cmpV] (h : TInv C x cap capI M s root) : SSorted x.cmp (contents s root) := h.toV.sorted

theorem TInv.insert [TransCmp x.cmpV] {build : Bool} (hz : Sizes x cap capI M) (h : TInv C x cap capI M s root)
    {b : List (Item Datum)} (hb : BatchOK x M b) :
    ∃ ts ok, insertItems (dataOps x cap capI build) root b.length s b = (ts, ok) ∧ (C → ok = true) ∧
      (∀ t ∈ ts, TInv False x cap capI M t root ∧ (∀ y ∈ contents s root, y ∈ contents t root) ∧
        ∀ y ∈ contents t root, y ∈ contents s root ∨ y ∈ b) ∧
      TInv C x cap capI M (lastStore s ts) root ∧
      (ok = true → ∀ y, y ∈ contents (lastStore s ts) root ↔ Upd x.cmp true (contents s root) b y) := by
  obtain ⟨K, hK, key, G, hk, hG, hB⟩ := h
  have hor : b.length ≤ 1 ∨ BoundIn key (leafs key s G) := by
    cases hM : M.single with
    | true => exact Or.inl (hb.one hM)
    | false => exact Or.inr (hB hM)
  obtain ⟨ts, ok, t1, t2, t3, G', t4, t5, t6, t7, t8⟩ := insertItems_spec (o := dataOps x cap capI build) hk (locateData_ok hk rfl)
    (dataInnerLaws x cap capI build hz.inner) (dataLeafLaws x cap capI M build hz.leaf hz.align hz.padded) b.length hG (_root_.le_refl _) hb.sorted ⟨hb.ok, hb.one⟩
    hor
  refine ⟨ts, ok, t1, t2, fun t ht => ?_, ⟨K, hK, key, G', hk, t4, fun h => t5 (hB h)⟩, t8⟩
  obtain ⟨G1, g1, g2, g3, g4⟩ := t3 t ht
  exact ⟨⟨K, hK, key, G1, hk, g1, fun h => g2 (hB h)⟩, g3, g4⟩

end

/-- The items a tuple stands for. -/
def rows (ix : Ix V) (st : State V) (e : Ent V) : List (Item Datum) :=
  match e.post with
  | .tree t => contents (st.trees t) 0
  | .list _ _ => ix.readTuple e

/-- A tuple whose payload is in order. -/
structure EntOK (C : Prop) (ix : Ix V) (M : Lim) (st : State V) (e : Ent V) : Prop where
  key : ix.tupleSize e.key [] ≤ maxTuple
  list : ∀ data n, e.post = .list data n → ∃ R, ListOK (ix.ctx e.key.attnum) M R ∧
    placeList (ix.ctx e.key.attnum).cfg (ix.keySize e.key) ⟨0, 0⟩ R = some data ∧ n = R.length ∧ ix.tupleSize e.key R ≤ maxTuple ∧
    e.size = ix.tupleSize e.key R
  tree : ∀ t, e.post = .tree t → t < st.ntrees ∧ TInv C (ix.ctx e.key.attnum) dataCap innerCap M (st.trees t) 0

/-- The invariant of the entry tree. -/
abbrev EInv (C : Prop) (ix : Ix V) [Inhabited V] (s : Store (Ent V)) : Prop :=
  ∃ (K : Type) (_ : LinearOrder K) (key : Ent V → K) (G : Ghost), KeyOf ix.cmp key ∧
    Good C key true (InnerFit ix) (KeyFit ix) (LeafOK ix) s rootBlk G ∧ BoundIn key (leafs key s G)

/-- The invariant of the index. -/
structure IInv (C : Prop) (ix : Ix V) [Inhabited V] (M : Lim) (st : State V) : Prop where
  entry : EInv C ix st.entry
  ents : ∀ e ∈ contents st.entry rootBlk, EntOK C ix M st e
  inj : ∀ e ∈ contents st.entry rootBlk, ∀ e' ∈ contents st.entry rootBlk, ∀ t, e.post = .tree t → e'.post = .tree t → e = e'

theorem EntOK.rows_list {ix : Ix V} {M : Lim} {e : Ent V} {data : List Nat} {n : Nat} (hp : e.post = .list data n)
    {R : List (Item Datum)} (hb : ListOK (ix.ctx e.key.attnum) M R)
    (hpl : placeList (ix.ctx e.key.attnum).cfg (ix.keySize e.key) ⟨0, 0⟩ R = some data) (hn : n = R.length) : ix.readTuple e = R := by
  have := readList_placeList (ix.ctx e.key.attnum).cfg R (ix.keySize e.key) ⟨0, 0⟩ data [] (fun it hi => (hb.ok it hi).ok)
    (by constructor <;> simp) hpl
  rw [List.append_nil] at this
  unfold Ix.readTuple
  rw [hp]
  simp only [hn, this]
  conv_rhs => rw [← List.map_id R]
  exact List.map_congr_left (fun i hi => (hb.ok i hi).stored)

/-- The rows of a tuple are in order, all storable. -/
theorem EntOK.rows_sorted {C : Prop} {ix : Ix V} {M : Lim} (hc : ColsOK ix M) {st : State V} {e : Ent V} (h : EntOK C ix M st e) :
    SSorted (ix.ctx e.key.attnum).cmp (rows ix st e) := by
  have := hc.infos e.key.attnum
  unfold rows
  cases hp : e.post with
  | list data n =>
    obtain ⟨R, h1, h2, h3, -, -⟩ := h.list data n hp
    simp only
    rw [EntOK.rows_list hp h1 h2 h3]
    exact h1.sorted
  | tree t => exact (h.tree t hp).2.sorted

/-! ### Search -/

/-- Where a key is, or belongs. -/
structure Find (ix : Ix V) [Inhabited V] (st : State V) (k : AttKey V) (b : Nat) (up : List (Nat × Nat)) : Prop where
  path : findLeaf ix.ops st.entry rootBlk (probe k) st.entry.next rootBlk [] = some ((b, 0) :: up)
  spot : (∃ off t, ix.locate (st.entry.page b).items (probe k) = (true, off) ∧ (st.entry.page b).items[off - 1]? = some t ∧
      t ∈ contents st.entry rootBlk ∧ ix.cmp (probe k) t = .eq) ∨
    (∃ off, ix.locate (st.entry.page b).items (probe k) = (false, off) ∧ ∀ e ∈ contents st.entry rootBlk, ix.cmp (probe k) e ≠ .eq)

theorem find_ok {C : Prop} {ix : Ix V} [Inhabited V] {M : Lim} (hc : ColsOK ix M) {st : State V} (H : EInv C ix st.entry) (k : AttKey V) :
    ∃ b up, Find ix st k b up ∧
      ∀ e : Ent V, ix.cmp (probe k) e = .eq → TupleOK ix e → ∃ ts ok, insertValue ix.ops rootBlk st.entry ((b, 0) :: up) [e] = (ts, ok, []) ∧
        (C → ok = true) ∧ ts ≠ [] ∧
        (∀ t ∈ ts, (∃ (K : Type) (_ : LinearOrder K) (key : Ent V → K) (G : Ghost), KeyOf ix.cmp key ∧
          Good False key true (InnerFit ix) (KeyFit ix) (LeafOK ix) t rootBlk G ∧ BoundIn key (leafs key t G)) ∧
          ∀ y, y ∈ contents t rootBlk ↔ Upd ix.cmp false (contents st.entry rootBlk) [e] y) ∧
        (∃ (K : Type) (_ : LinearOrder K) (key : Ent V → K) (G : Ghost), KeyOf ix.cmp key ∧
          Good C key true (InnerFit ix) (KeyFit ix) (LeafOK ix) (lastStore st.entry ts) rootBlk G ∧ BoundIn key (leafs key (lastStore st.entry ts) G)) ∧
        ∀ y, y ∈ contents (lastStore st.entry ts) rootBlk ↔ Upd ix.cmp false (contents st.entry rootBlk) [e] y := by
  have := hc.keys
  obtain ⟨K, hK, key, G, hk, hG, hB⟩ := H
  have W := hG.weak
  obtain ⟨up, A, B, b, h1, e, hA, hb, hp⟩ := descent (o := ix.ops) hk (locateEntry_ok ix hk) W (probe k)
  obtain ⟨a1, a2, -⟩ := around W e hA
  have hb0 : b ∈ G.lv 0 := by rw [e]; simp
  have hs : SSorted ix.cmp (st.entry.page b).items := (ssorted_key (o := ix.ops) hk).2 (W.order.sorted b hb0)
  have hmem : ∀ y, y ∈ contents st.entry rootBlk ↔ (∃ c ∈ A, y ∈ (st.entry.page c).items) ∨ y ∈ (st.entry.page b).items ∨
      ∃ c ∈ B, y ∈ (st.entry.page c).items := by
    intro y
    rw [contents_eq W, leafs_split e]
    simp only [List.flatMap_append, List.flatMap_cons, List.flatMap_map, List.mem_append, List.mem_flatMap]
  refine ⟨b, up, ⟨h1, ?_⟩, ?_⟩
  · rcases spot ix hs (probe k) with ⟨A', B', t, hi, hl, he⟩ | ⟨A', B', hi, hl, hA', hB'⟩
    · refine Or.inl ⟨A'.length + 1, t, hl, ?_, ?_, he⟩
      · rw [hi, Nat.add_sub_cancel, List.getElem?_append_right (_root_.le_refl _)]; simp
      · rw [hmem, hi]; simp
    · refine Or.inr ⟨A'.length + 1, hl, fun y hy h => ?_⟩
      have hky := (hk.eq _ _).1 h
      rcases (hmem y).1 hy with ⟨c, hc', hy⟩ | hy | ⟨c, hc', hy⟩
      · exact absurd hky (ne_of_gt (a1 c hc' y hy))
      · rw [hi] at hy
        rcases List.mem_append.1 hy with hy | hy
        · rw [hA' y hy] at h; cases h
        · rw [hB' y hy] at h; cases h
      · have := a2 c hc' y hy
        rw [← hky] at this
        exact absurd hb (_root_.not_le.2 this)
  · intro x hx hX
    have hkx := (hk.eq _ _).1 hx
    rw [hkx] at hA hb
    obtain ⟨n, ts, ok, ls, v1, v2, v3, v4, v5, v6, ⟨Gf, v7, v8⟩, v9, v10⟩ := insertValue_spec (o := ix.ops) (keep := false) hk (entryInnerLaws ix)
      (entryLeafLaws ix) hG e hA hb hp (xs := []) (by simp [SSorted]) (by simpa using hX) (by simp) (Or.inl rfl)
    have hn : n = 1 := by simp at v4; omega
    subst hn
    have hct : ∀ y, y ∈ ls.flatMap Prod.fst ↔ Upd ix.cmp false (contents st.entry rootBlk) [x] y := by
      intro y; rw [v9, contents_eq W]; rfl
    refine ⟨ts, ok, v1, v2, v5, fun t ht => ?_, ⟨K, hK, key, Gf, hk, v7, by rw [v8]; exact v10 hB⟩, fun y => ?_⟩
    · obtain ⟨G', g1, g2⟩ := v6 t ht
      exact ⟨⟨K, hK, key, G', hk, g1, by rw [g2]; exact v10 hB⟩, fun y => by rw [contents_eq g1.weak, g2, hct]⟩
    · rw [contents_eq v7.weak, v8, hct]

theorem EInv.unique {C : Prop} {ix : Ix V} [Inhabited V] {M : Lim} (hc : ColsOK ix M) {st : State V} (H : EInv C ix st.entry) {e e' : Ent V}
    (h1 : e ∈ contents st.entry rootBlk) (h2 : e' ∈ contents st.entry rootBlk) (h : ix.cmp e e' = .eq) : e = e' := by
  have := hc.keys
  have := cmp_trans ix
  obtain ⟨K, hK, key, G, hk, hG, hB⟩ := H
  exact ssorted_unique (cmp := ix.cmp) (contents_sorted (o := ix.ops) hk hG.weak) h1 h2 h

/-- A lookup gives the rows of the tuple with an equal key. -/
theorem EInv.rowsOf {C : Prop} {ix : Ix V} [Inhabited V] {M : Lim} (hc : ColsOK ix M) {st : State V} (H : EInv C ix st.entry) (k : AttKey V) :
    (∃ e ∈ contents st.entry rootBlk, ix.cmp (probe k) e = .eq ∧ ix.rowsOf st k = rows ix st e) ∨
    ((∀ e ∈ contents st.entry rootBlk, ix.cmp (probe k) e ≠ .eq) ∧ ix.rowsOf st k = []) := by
  obtain ⟨b, up, ⟨h1, h2⟩, -⟩ := find_ok hc H k
  unfold Ix.rowsOf
  rw [h1]
  simp only
  rcases h2 with ⟨off, t, hl, hg, hm, he⟩ | ⟨off, hl, hn⟩
  · left
    refine ⟨t, hm, he, ?_⟩
    rw [hl]
    simp only [if_true, hg]
    unfold rows
    cases t.post <;> rfl
  · right
    refine ⟨hn, ?_⟩
    rw [hl]
    simp

theorem EInv.rowsOf_eq {C : Prop} {ix : Ix V} [Inhabited V] {M : Lim} (hc : ColsOK ix M) {st : State V} (H : EInv C ix st.entry) {k : AttKey V}
    {e : Ent V} (he : e ∈ contents st.entry rootBlk) (hk : ix.cmp (probe k) e = .eq) : ix.rowsOf st k = rows ix st e := by
  have := hc.keys
  have := cmp_trans ix
  rcases EInv.rowsOf hc H k with ⟨e', h1, h2, h3⟩ | ⟨h, -⟩
  · rw [h3, EInv.unique hc H h1 he (TransCmp.eq_trans (cmp := ix.cmp) (OrientedCmp.eq_symm h2) hk)]
  · exact absurd hk (h e he)

theorem EInv.rowsOf_none {C : Prop} {ix : Ix V} [Inhabited V] {M : Lim} (hc : ColsOK ix M) {st : State V} (H : EInv C ix st.entry) {k : AttKey V}
    (hk : ∀ e ∈ contents st.entry rootBlk, ix.cmp (probe k) e ≠ .eq) : ix.rowsOf st k = [] := by
  rcases EInv.rowsOf hc H k with ⟨e, h1, h2, h3⟩ | ⟨-, h⟩
  · exact absurd h2 (hk e h1)
  · exact h

theorem IInv.unique {C : Prop} {ix : Ix V} [Inhabited V] {M : Lim} (hc : ColsOK ix M) {st : State V} (H : IInv C ix M st) {e e' : Ent V}
    (h1 : e ∈ contents st.entry rootBlk) (h2 : e' ∈ contents st.entry rootBlk) (h : ix.cmp e e' = .eq) : e = e' :=
  EInv.unique hc H.entry h1 h2 h

theorem IInv.rowsOf {C : Prop} {ix : Ix V} [Inhabited V] {M : Lim} (hc : ColsOK ix M) {st : State V} (H : IInv C ix M st) (k : AttKey V) :
    (∃ e ∈ contents st.entry rootBlk, ix.cmp (probe k) e = .eq ∧ ix.rowsOf st k = rows ix st e) ∨
    ((∀ e ∈ contents st.entry rootBlk, ix.cmp (probe k) e ≠ .eq) ∧ ix.rowsOf st k = []) := EInv.rowsOf hc H.entry k

theorem IInv.rowsOf_eq {C : Prop} {ix : Ix V} [Inhabited V] {M : Lim} (hc : ColsOK ix M) {st : State V} (H : IInv C ix M st) {k : AttKey V}
    {e : Ent V} (he : e ∈ contents st.entry rootBlk) (hk : ix.cmp (probe k) e = .eq) : ix.rowsOf st k = rows ix st e :=
  EInv.rowsOf_eq hc H.entry he hk

theorem IInv.rowsOf_none {C : Prop} {ix : Ix V} [Inhabited V] {M : Lim} (hc : ColsOK ix M) {st : State V} (H : IInv C ix M st) {k : AttKey V}
    (hk : ∀ e ∈ contents st.entry rootBlk, ix.cmp (probe k) e ≠ .eq) : ix.rowsOf st k = [] := EInv.rowsOf_none hc H.entry hk

theorem EntOK.mono {C : Prop} {ix : Ix V} {M : Lim} {st : State V} {e : Ent V} (h : EntOK C ix M st e) : EntOK False ix M st e :=
  ⟨h.key, h.list, fun t ht => ⟨(h.tree t ht).1, (h.tree t ht).2.mono⟩⟩

theorem IInv.mono {C : Prop} {ix : Ix V} [Inhabited V] {M : Lim} {st : State V} (H : IInv C ix M st) : IInv False ix M st := by
  obtain ⟨K, hK, key, G, hk, hG, hB⟩ := H.entry
  exact ⟨⟨K, hK, key, G, hk, ⟨hG.weak, fun h => h.elim, hG.sized, hG.fit⟩, hB⟩, fun e he => (H.ents e he).mono, H.inj⟩

/-! ### Building tuples -/

/-- New posting trees, nothing else. -/
structure Ext (st st' : State V) : Prop where
  entry : st'.entry = st.entry
  more : st.ntrees ≤ st'.ntrees
  trees : ∀ t, t < st.ntrees → st'.trees t = st.trees t

theorem Ext.refl (st : State V) : Ext st st := ⟨rfl, _root_.le_refl _, fun _ _ => rfl⟩

theorem EntOK.ext {C : Prop} {ix : Ix V} {M : Lim} {st st' : State V} {e : Ent V} (h : EntOK C ix M st e) (hx : Ext st st') :
    EntOK C ix M st' e ∧ rows ix st' e = rows ix st e := by
  refine ⟨⟨h.key, h.list, fun t ht => ?_⟩, ?_⟩
  · obtain ⟨h1, h2⟩ := h.tree t ht
    exact ⟨h1.trans_le hx.more, by rw [hx.trees t h1]; exact h2⟩
  · unfold rows
    cases hp : e.post with
    | list data n => rfl
    | tree t => simp only; rw [hx.trees t (h.tree t hp).1]

theorem IInv.ext {C : Prop} {ix : Ix V} [Inhabited V] {M : Lim} {st st' : State V} (H : IInv C ix M st) (hx : Ext st st') : IInv C ix M st' := by
  refine ⟨by rw [hx.entry]; exact H.entry, fun e he => ?_, by rw [hx.entry]; exact H.inj⟩
  rw [hx.entry] at he
  exact ((H.ents e he).ext hx).1

theorem ext_rows {C : Prop} {ix : Ix V} [Inhabited V] {M : Lim} (hc : ColsOK ix M) {st st' : State V} (H : IInv C ix M st) (hx : Ext st st')
    (k : AttKey V) : ix.rowsOf st' k = ix.rowsOf st k := by
  have H' := H.ext hx
  rcases H.rowsOf hc k with ⟨e, h1, h2, h3⟩ | ⟨h, h3⟩
  · rw [h3, H'.rowsOf_eq hc (by rw [hx.entry]; exact h1) h2, ((H.ents e h1).ext hx).2]
  · rw [h3, H'.rowsOf_none hc (by rw [hx.entry]; exact h)]

/-- What building a tuple for key `k` from the rows `R` and the new items has to give. -/
structure Built (C : Prop) (ix : Ix V) (M : Lim) (st : State V) (k : AttKey V) (R items : List (Item Datum)) (pre : List (State V)) (e : Ent V) :
    Prop where
  ext : ∀ t ∈ pre, Ext st t
  last : Ext st (lastState st pre)
  key : e.key = k
  fits : TupleOK ix e
  ok : EntOK C ix M (lastState st pre) e
  fresh : ∀ t, e.post = .tree t → st.ntrees ≤ t
  rows : ∀ y, y ∈ rows ix (lastState st pre) e ↔ Upd (ix.ctx k.attnum).cmp true R items y

theorem formTuple_spec {ix : Ix V} {M : Lim} {k : AttKey V} (hk : ix.tupleSize k [] ≤ maxTuple) {its : List (Item Datum)}
    (hb : ListOK (ix.ctx k.attnum) M its) :
    (ix.formTuple k its = none ∧ maxTuple < ix.tupleSize k its) ∨
    ∃ data, ix.formTuple k its = some ⟨k, ix.tupleSize k its, .list data its.length⟩ ∧ ix.tupleSize k its ≤ maxTuple ∧
      placeList (ix.ctx k.attnum).cfg (ix.keySize k) ⟨0, 0⟩ its = some data ∧ TupleOK ix ⟨k, ix.tupleSize k its, .list data its.length⟩ := by
  unfold Ix.formTuple
  by_cases h : ix.tupleSize k its > maxTuple
  · rw [if_pos h]; exact Or.inl ⟨rfl, h⟩
  · rw [if_neg h]
    obtain ⟨data, h1, h2⟩ := placeList_ok (ix.ctx k.attnum).cfg its (ix.keySize k) ⟨0, 0⟩ (fun it hi => (hb.ok it hi).ok)
    rw [h1]
    refine Or.inr ⟨data, rfl, by omega, rfl, by simp only; omega, ?_⟩
    show alignUp 8 (ix.keySize k) ≤ maxTuple
    refine _root_.le_trans (alignUp_mono 8 _ _ ?_) hk
    show ix.keySize k ≤ ix.keySize k + catByte k
    omega

theorem upd_sorted {x : Ctx} {a b : List (Item Datum)} (h : SSorted x.cmp (a ++ b)) (y : Item Datum) : Upd x.cmp true a b y ↔ y ∈ a ++ b := by
  simp only [Upd, if_true, List.mem_append]
  constructor
  · rintro (h | ⟨h, -⟩)
    exacts [Or.inl h, Or.inr h]
  · rintro (h' | h')
    · exact Or.inl h'
    · refine Or.inr ⟨h', fun z hz he => ?_⟩
      rw [(List.pairwise_append.1 h).2.2 z hz y h'] at he
      cases he

theorem lastState_cons (st a : State V) (l : List (State V)) : lastState st (a :: l) = lastState a l := by
  unfold lastState
  rw [List.getLast?_cons]
  rfl

/-- Insertion into one posting tree. -/
theorem insertTree_spec {C : Prop} {ix : Ix V} {M : Lim} (hc : ColsOK ix M) {attnum : Nat} {st : State V} {t : Nat}
    (hI : TInv C (ix.ctx attnum) dataCap innerCap M (st.trees t) 0) {items : List (Item Datum)} (hb : BatchOK (ix.ctx attnum) M items) :
    ∃ (ss : List (Store (Item Datum))) (ok : Bool), ix.insertTree attnum st t items = (ss.map (st.setTree t), ok) ∧ (C → ok = true) ∧
      (∀ s ∈ ss, TInv False (ix.ctx attnum) dataCap innerCap M s 0 ∧ (∀ y ∈ contents (st.trees t) 0, y ∈ contents s 0) ∧
        ∀ y ∈ contents s 0, y ∈ contents (st.trees t) 0 ∨ y ∈ items) ∧
      TInv C (ix.ctx attnum) dataCap innerCap M (lastStore (st.trees t) ss) 0 ∧
      (ok = true → ∀ y, y ∈ contents (lastStore (st.trees t) ss) 0 ↔ Upd (ix.ctx attnum).cmp true (contents (st.trees t) 0) items y) := by
  have := hc.infos attnum
  obtain ⟨ts, ok, t1, t2, t3, t4, t5⟩ := hI.insert (hc.sizes attnum) (build := ix.build) hb
  refine ⟨ts, ok, ?_, t2, t3, t4, t5⟩
  unfold Ix.insertTree Ix.treeOps
  rw [t1]

theorem setTree_self (st : State V) (t : Nat) : st.setTree t (st.trees t) = st := by
  unfold State.setTree
  congr 1
  funext i
  split
  · next h => rw [h]
  · rfl

theorem lastState_map (st : State V) (t : Nat) (ss : List (Store (Item Datum))) :
    lastState st (ss.map (st.setTree t)) = st.setTree t (lastStore (st.trees t) ss) := by
  unfold lastState lastStore
  rw [List.getLast?_map]
  cases ss.getLast? with
  | some s => rfl
  | none => exact (setTree_self st t).symm

/-- A new posting tree, filled with the rest of the items. -/
theorem newTree_spec (C : Prop) {ix : Ix V} {M : Lim} (hc : ColsOK ix M) {st : State V} {k : AttKey V} (hk : ix.tupleSize k [] ≤ maxTuple)
    {R items : List (Item Datum)} (hR : ListOK (ix.ctx k.attnum) M R) (hfit : checkList (ix.ctx k.attnum).cfg ⟨0, 0⟩ 0 R ≤ dataCap)
    (hb : BatchOK (ix.ctx k.attnum) M items) :
    (Built C ix M st k R [] [st.addTree R] ⟨k, ix.tupleSize k [], .tree st.ntrees⟩) ∧
    ∃ ts, ix.insertTree k.attnum (st.addTree R) st.ntrees items = (ts, true) ∧
      Built C ix M st k R items (st.addTree R :: ts) ⟨k, ix.tupleSize k [], .tree st.ntrees⟩ := by
  have := hc.infos k.attnum
  have hadd : (st.addTree R).trees st.ntrees = (createTree noStore R).1 := by simp [State.addTree]
  have hroot : (createTree noStore R).2 = 0 := rfl
  have hIC : ∀ D : Prop, TInv D (ix.ctx k.attnum) dataCap innerCap M ((st.addTree R).trees st.ntrees) 0 := by
    intro D
    have := (inv_create (x := ix.ctx k.attnum) (cap := dataCap) (capI := innerCap) (M := M) D noStore R hR hfit).1
    rw [hadd, ← hroot]; exact .of this
  have hcont : contents ((st.addTree R).trees st.ntrees) 0 = R := by
    have := (inv_create (x := ix.ctx k.attnum) (cap := dataCap) (capI := innerCap) (M := M) True noStore R hR hfit).2
    rw [hadd, ← hroot]; exact this
  have hext : Ext st (st.addTree R) := ⟨rfl, Nat.le_succ _, fun t ht => by simp [State.addTree, Nat.ne_of_lt ht]⟩
  have hsetx : ∀ s, Ext st ((st.addTree R).setTree st.ntrees s) := fun s =>
    ⟨rfl, Nat.le_succ _, fun t ht => by simp [State.addTree, State.setTree, Nat.ne_of_lt ht]⟩
  have hTOK : TupleOK ix ⟨k, ix.tupleSize k [], .tree st.ntrees⟩ := ⟨hk, hk⟩
  refine ⟨⟨?_, hext, rfl, hTOK, ⟨hk, fun _ _ h => (by cases h), ?_⟩, ?_, ?_⟩, ?_⟩
  · intro t ht; simp at ht; subst ht; exact hext
  · intro t ht
    obtain rfl : st.ntrees = t := by simpa using ht
    exact ⟨Nat.lt_succ_self _, hIC C⟩
  · intro t ht
    obtain rfl : st.ntrees = t := by simpa using ht
    exact _root_.le_refl _
  · intro y
    show y ∈ contents ((st.addTree R).trees st.ntrees) 0 ↔ _
    rw [hcont]
    simp [Upd]
  · obtain ⟨ss, ok, h1, h2, h3, h4, h5⟩ := insertTree_spec hc (hIC True) hb
    obtain rfl := h2 trivial
    have h4C : TInv C (ix.ctx k.attnum) dataCap innerCap M (lastStore ((st.addTree R).trees st.ntrees) ss) 0 := by
      obtain ⟨K, hK, key, G, a1, a2, a3⟩ := h4
      exact ⟨K, hK, key, G, a1, ⟨a2.weak, fun _ => a2.complete trivial, a2.sized, a2.fit⟩, a3⟩
    have hlast : lastState st (st.addTree R :: ss.map ((st.addTree R).setTree st.ntrees)) =
        (st.addTree R).setTree st.ntrees (lastStore ((st.addTree R).trees st.ntrees) ss) := by
      rw [lastState_cons, lastState_map]
    refine ⟨_, h1, ⟨?_, ?_, rfl, hTOK, ⟨hk, fun _ _ h => (by cases h), ?_⟩, ?_, ?_⟩⟩
    · intro t ht
      rcases List.mem_cons.1 ht with rfl | ht
      · exact hext
      · obtain ⟨s, -, rfl⟩ := List.mem_map.1 ht
        exact hsetx s
    · rw [hlast]; exact hsetx _
    · intro t ht
      obtain rfl : st.ntrees = t := by simpa using ht
      rw [hlast]
      exact ⟨Nat.lt_succ_self _, by simpa [State.setTree] using h4C⟩
    · intro t ht
      obtain rfl : st.ntrees = t := by simpa using ht
      exact _root_.le_refl _
    · intro y
      rw [hlast]
      show y ∈ contents (if st.ntrees = st.ntrees then _ else _) 0 ↔ _
      rw [if_pos rfl, h5 rfl, hcont]

theorem mem_merge {x : Ctx} [TransCmp x.cmpV] {items R : List (Item Datum)} (h1 : SSorted x.cmp items) (h2 : SSorted x.cmp R) (y : Item Datum) :
    y ∈ mergeItems x.cmp items R ↔ Upd x.cmp true R items y := by
  have : TransCmp x.cmp := cmpItem_trans _ _
  simp only [Upd, if_true]
  constructor
  · intro hy
    by_cases hR : y ∈ R
    · exact Or.inl hR
    · rcases merge_mem x.cmp items R y hy with h | h
      · refine Or.inr ⟨h, fun z hz he => hR ?_⟩
        have := ssorted_unique (merge_sorted x.cmp items R h1 h2) (merge_mem_right x.cmp items R z hz) hy he
        exact this ▸ hz
      · exact absurd h hR
  · rintro (h | ⟨h, hn⟩)
    · exact merge_mem_right x.cmp items R y h
    · rcases merge_mem_left' x.cmp items R y h with h | ⟨z, hz, he⟩
      · exact h
      · exact absurd (OrientedCmp.eq_symm he) (hn z hz)

/-- addItemPointersToLeafTuple. -/
theorem addItems_spec {C : Prop} {ix : Ix V} {M : Lim} (hc : ColsOK ix M) {st : State V} {old : Ent V} (ho : EntOK C ix M st old)
    {data : List Nat} {n : Nat} (hp : old.post = .list data n) {items : List (Item Datum)} (hb : BatchOK (ix.ctx old.key.attnum) M items) :
    ∃ pre e, ix.addItems st old items = (pre, some e) ∧ Built C ix M st old.key (rows ix st old) items pre e := by
  have := hc.infos old.key.attnum
  obtain ⟨R, r1, r2, r3, r4, r5⟩ := ho.list data n hp
  have hread := EntOK.rows_list hp r1 r2 r3
  have hrows : rows ix st old = R := by unfold rows; rw [hp]; exact hread
  rw [hrows]
  have hm : ListOK (ix.ctx old.key.attnum) M (mergeItems (ix.ctx old.key.attnum).cmp items R) := by
    have : TransCmp (ix.ctx old.key.attnum).cmp := cmpItem_trans _ _
    refine ⟨merge_sorted _ _ _ hb.sorted r1.sorted, fun it hi => ?_⟩
    rcases merge_mem _ _ _ it hi with h | h
    · exact hb.ok it h
    · exact r1.ok it h
  unfold Ix.addItems
  simp only [hread]
  rcases formTuple_spec ho.key hm with ⟨hf, -⟩ | ⟨d, hf, h1, h2, h3⟩
  · rw [hf]
    simp only
    have hfit : checkList (ix.ctx old.key.attnum).cfg ⟨0, 0⟩ 0 R ≤ dataCap := by
      have a1 := checkList_mono (ix.ctx old.key.attnum).cfg R ⟨0, 0⟩ ⟨0, 0⟩ 0 (ix.keySize old.key) (fun y hy => (r1.ok y hy).ok) (Nat.zero_le _)
        (fun ha => ⟨Nat.le_refl _, blkSorted_of _ ha _ r1.sorted⟩)
      have a2 := alignUp_ge 8 (checkList (ix.ctx old.key.attnum).cfg ⟨0, 0⟩ (ix.keySize old.key) R + catByte old.key) (by omega)
      unfold Ix.tupleSize at r4
      have e1 : maxTuple = 2712 := by decide
      have e2 : dataCap = 7368 := rfl
      omega
    obtain ⟨-, ts, t1, t2⟩ := newTree_spec C hc (st := st) ho.key r1 hfit hb
    rw [t1]
    refine ⟨_, _, ?_, t2⟩
    simp only [if_true, Ix.formTree]
    rw [if_neg (by have := ho.key; omega)]
  · rw [hf]
    refine ⟨[], _, rfl, ⟨by simp, Ext.refl st, rfl, h3, ⟨ho.key, fun d' n' h => ?_, fun t h => (by cases h)⟩, fun t h => (by cases h), fun y => ?_⟩⟩
    · simp only [Payload.list.injEq] at h
      obtain ⟨rfl, rfl⟩ := h
      exact ⟨_, hm, h2, rfl, h1, rfl⟩
    · rw [← mem_merge hb.sorted r1.sorted]
      have hr := EntOK.rows_list (ix := ix) (M := M)
        (e := ⟨old.key, ix.tupleSize old.key (mergeItems (ix.ctx old.key.attnum).cmp items R), .list d _⟩) rfl hm h2 rfl
      unfold rows
      simp only
      rw [hr]

theorem firstPage_spec (ix : Ix V) (attnum : Nat) : ∀ (its P : List (Item Datum)),
    checkList (ix.ctx attnum).cfg ⟨0, 0⟩ 0 (P.take (P.length - 1)) ≤ dataCap →
    let m := ix.firstPage attnum (Codec.lastIptr ⟨0, 0⟩ P) (checkList (ix.ctx attnum).cfg ⟨0, 0⟩ 0 P) P.length its
    checkList (ix.ctx attnum).cfg ⟨0, 0⟩ 0 ((P ++ its).take m) ≤ dataCap := by
  intro its
  induction its with
  | nil =>
    intro P h
    simp only [Ix.firstPage, List.append_nil]
    split
    · exact h
    · rw [List.take_length]; omega
  | cons it its ih =>
    intro P h
    simp only [Ix.firstPage]
    split
    · rw [List.take_append_of_le_length (by omega)]; exact h
    · next hn =>
      have := ih (P ++ [it]) (by
        simp only [List.length_append, List.length_cons, List.length_nil, Nat.add_sub_cancel]
        rw [List.take_append_of_le_length (by omega), List.take_length]
        by_cases hP : P.length > 0
        · by_contra hlt; exact hn ⟨hP, by omega⟩
        · have : P = [] := List.length_eq_zero_iff.1 (by omega)
          subst this
          exact Nat.zero_le _)
      simp only [List.append_assoc, List.singleton_append, List.length_append, List.length_cons, List.length_nil] at this
      rw [Codec.lastIptr_snoc, checkList_append] at this
      exact this

/-- buildFreshLeafTuple. -/
theorem freshTuple_spec (C : Prop) {ix : Ix V} {M : Lim} (hc : ColsOK ix M) (st : State V) {k : AttKey V} (hk : ix.tupleSize k [] ≤ maxTuple)
    {items : List (Item Datum)} (hb : BatchOK (ix.ctx k.attnum) M items) :
    ∃ pre e, ix.freshTuple st k items = (pre, some e) ∧ Built C ix M st k [] items pre e := by
  unfold Ix.freshTuple
  rcases formTuple_spec hk hb.list with ⟨hf, -⟩ | ⟨d, hf, h1, h2, h3⟩
  · rw [hf]
    simp only
    have hft : ix.formTree k st.ntrees = some ⟨k, ix.tupleSize k [], .tree st.ntrees⟩ := by
      unfold Ix.formTree; rw [if_neg (by omega)]
    rw [hft]
    simp only
    generalize hn : ix.firstPage k.attnum ⟨0, 0⟩ 0 0 items = n
    have hfit : checkList (ix.ctx k.attnum).cfg ⟨0, 0⟩ 0 (items.take n) ≤ dataCap := by
      have := firstPage_spec ix k.attnum items [] (Nat.zero_le _)
      rw [← hn]; exact this
    have hR : ListOK (ix.ctx k.attnum) M (items.take n) := ⟨hb.sorted.sublist (List.take_sublist _ _), fun it hi => hb.ok it (List.mem_of_mem_take hi)⟩
    have hD : BatchOK (ix.ctx k.attnum) M (items.drop n) := ⟨hb.sorted.sublist (List.drop_sublist _ _), fun it hi => hb.ok it (List.mem_of_mem_drop hi),
      fun h => by have := hb.one h; rw [List.length_drop]; omega⟩
    obtain ⟨b1, ts, t1, b2⟩ := newTree_spec C hc (st := st) hk hR hfit hD
    split
    · rw [t1]
      refine ⟨_, _, rfl, ⟨b2.ext, b2.last, rfl, b2.fits, b2.ok, b2.fresh, fun y => ?_⟩⟩
      rw [b2.rows, upd_sorted (by rw [List.take_append_drop]; exact hb.sorted), List.take_append_drop]
      simp [Upd]
    · next hlen =>
      refine ⟨_, _, rfl, ⟨b1.ext, b1.last, rfl, b1.fits, b1.ok, b1.fresh, fun y => ?_⟩⟩
      rw [b1.rows, List.take_of_length_le (by omega)]
      simp [Upd]
  · rw [hf]
    refine ⟨[], _, rfl, ⟨by simp, Ext.refl st, rfl, h3, ⟨hk, fun d' n' h => ?_, fun t h => (by cases h)⟩, fun t h => (by cases h), fun y => ?_⟩⟩
    · simp only [Payload.list.injEq] at h
      obtain ⟨rfl, rfl⟩ := h
      exact ⟨_, hb.list, h2, rfl, h1, rfl⟩
    · have hr := EntOK.rows_list (ix := ix) (M := M) (e := ⟨k, ix.tupleSize k items, .list d items.length⟩) rfl hb.list h2 rfl
      unfold rows
      simp only
      rw [hr]
      simp [Upd]

end Rum.Index

import Verif.DebugEntry
import Verif.Props.Debug
/-!
# C84: the entry tree can be explored page by page
-/
namespace Rum.Props.DebugEntry
open Rum Rum.Codec Rum.Leaf Rum.Entry Rum.Tree Rum.Extract Rum.Index Rum.Debug Rum.Props.Index Rum.Props.IndexVacuum Std

variable {V : Type}

/-! ### Specification -/

/-- The pages of a tree: those reached from the root by downlinks and right links. -/
inductive Reached {α : Type} (s : Store α) (root : Nat) : Nat → Prop
  | root : Reached s root root
  | down {b : Nat} {d : α × Nat} : Reached s root b → (s.page b).leaf = false → d ∈ (s.page b).downs → Reached s root d.2
  | right {b r : Nat} : Reached s root b → (s.page b).right = some r → Reached s root r

/-- A row of a listing bounds the keys on the leaf page it points to: none is beyond the row's key; all are beyond the key of an earlier row. -/
def Bounds (ix : Ix V) (st : State V) (rows : List (EntryInnerRow V)) : Prop :=
  (∀ r ∈ rows, (st.entry.page r.child).leaf = true → ∀ e ∈ (st.entry.page r.child).items, ∀ k, r.key = some k → cmpAttEntries ix.cmpK e.key k ≠ .gt) ∧
  rows.Pairwise (fun r' r => ∃ k, r'.key = some k ∧
    ((st.entry.page r.child).leaf = true → ∀ e ∈ (st.entry.page r.child).items, cmpAttEntries ix.cmpK e.key k = .gt))

/-! ### Proof -/

section
variable {α K : Type} [LinearOrder K] {key : α → K} {strict : Bool} {s : Store α} {root : Nat} {G : Ghost}

theorem kids_flat (W : Weak key strict s root G) (hC : Complete G) {k b : Nat} (hk : k < G.h) (hb : b ∈ G.lv (k + 1)) :
    (G.kids b).flatten = (s.page b).downs.map Prod.snd := by
  have hI := (W.inner k hk b hb).2.downs
  have hc := hC k hk b hb
  revert hc
  generalize (s.page b).downs = ds0 at hI ⊢
  generalize G.kids b = ks0 at hI ⊢
  induction hI with
  | nil => intro _; rfl
  | @cons d g ds gs h1 _ ih =>
    intro hc
    obtain ⟨c, rfl⟩ := hc g (by simp)
    have hcd : c = d.2 := by simpa using h1.1
    simp only [List.flatten_cons, List.map_cons, List.singleton_append, hcd]
    rw [ih (fun g hg => hc g (by simp [hg]))]

theorem down_hi (W : Weak key strict s root G) (hC : Complete G) {k b : Nat} (hk : k < G.h) (hb : b ∈ G.lv (k + 1)) {d : α × Nat} (hd : d ∈ (s.page b).downs) :
    hiP key (s.page d.2) = ⊤ ∨ hiP key (s.page d.2) = ((key d.1 : K) : WithTop K) := by
  obtain ⟨g, hg, h1, h2⟩ := Rum.Index.forall₂_left (W.inner k hk b hb).2.downs d hd
  obtain ⟨c, rfl⟩ := hC k hk b hb g hg
  have : c = d.2 := by simpa using h1
  rw [← this]
  exact h2 c rfl

theorem down_mem (W : Weak key strict s root G) (hC : Complete G) {k b c : Nat} (hk : k < G.h) (hb : b ∈ G.lv (k + 1)) (hc : c ∈ (s.page b).downs.map Prod.snd) :
    c ∈ G.lv k := kids_mem W.toThin hk hb (by rw [kids_flat W hC hk hb]; exact hc)

theorem parent (W : Weak key strict s root G) (hC : Complete G) {k c : Nat} (hk : k < G.h) (hc : c ∈ G.lv k) :
    ∃ b ∈ G.lv (k + 1), c ∈ (s.page b).downs.map Prod.snd := by
  rw [W.cover k hk] at hc
  obtain ⟨b, hb, hc⟩ := List.mem_flatMap.1 hc
  exact ⟨b, hb, by rw [← kids_flat W hC hk hb]; exact hc⟩

/-- The downlinks of a page are, in order, among the pages of the level below. -/
theorem down_sub (W : Weak key strict s root G) (hC : Complete G) {k b : Nat} (hk : k < G.h) (hb : b ∈ G.lv (k + 1)) :
    ((s.page b).downs.map Prod.snd).Sublist (G.lv k) := by
  rw [← kids_flat W hC hk hb, W.cover k hk]
  obtain ⟨A, B, e⟩ := List.append_of_mem hb
  rw [e, List.flatMap_append, List.flatMap_cons]
  exact ((List.sublist_append_left _ _).trans (List.sublist_append_right _ _))

/-- A child without a right neighbour hangs off the last downlink of a page without a right neighbour. -/
theorem last_down (W : Weak key strict s root G) (hC : Complete G) {k b : Nat} (hk : k < G.h) (hb : b ∈ G.lv (k + 1)) {i : Nat} {d : α × Nat}
    (hd : (s.page b).downs[i]? = some d) (hr : (s.page d.2).right = none) : (s.page b).right = none ∧ i + 1 = (s.page b).downs.length := by
  have hm : d.2 ∈ (s.page b).downs.map Prod.snd := List.mem_map.2 ⟨d, List.mem_of_getElem? hd, rfl⟩
  have hc := down_mem W hC hk hb hm
  obtain ⟨A, B, e⟩ := List.append_of_mem hc
  have hB : B = [] := by
    have h := (Linked.right (e ▸ W.linked k (by omega))).1
    rw [hr] at h
    cases B with
    | nil => rfl
    | cons x B => simp at h
  subst hB
  obtain ⟨A', B', e'⟩ := List.append_of_mem hb
  have hn := W.nodup k (by omega)
  have hB' : B' = [] := by
    cases B' with
    | nil => rfl
    | cons b' B' =>
      exfalso
      have hcov := W.cover k hk
      rw [e', List.flatMap_append, List.flatMap_cons, List.flatMap_cons] at hcov
      have hb' : b' ∈ G.lv (k + 1) := by rw [e']; simp
      have hne : (G.kids b').flatten ≠ [] := by
        rw [kids_flat W hC hk hb']
        intro h
        have hI := (W.inner k hk b' hb').2.downs
        rw [List.map_eq_nil_iff.1 h] at hI
        cases hq : G.kids b' with
        | nil => exact W.ne k hk b' hb' hq
        | cons g gs => rw [hq] at hI; cases hI
      have h1 : (G.lv k).getLast? = some d.2 := by rw [e]; simp
      have hlast : ∃ x ∈ (G.kids b').flatten ++ B'.flatMap (fun b => (G.kids b).flatten), (G.lv k).getLast? = some x := by
        have hne' : (G.kids b').flatten ++ B'.flatMap (fun b => (G.kids b).flatten) ≠ [] := by simp [hne]
        refine ⟨_, List.getLast_mem hne', ?_⟩
        rw [hcov, ← List.append_assoc, List.getLast?_append, List.getLast?_eq_some_getLast hne']
        rfl
      obtain ⟨x, hx, hx'⟩ := hlast
      rw [h1] at hx'
      cases hx'
      rw [hcov, ← List.append_assoc] at hn
      have := (List.nodup_append.1 hn).2.2 d.2 (by rw [kids_flat W hC hk hb]; exact List.mem_append_right _ hm) d.2 hx
      exact this rfl
  subst hB'
  constructor
  · have h := (Linked.right (e' ▸ W.linked (k + 1) (by omega))).1
    simpa using h
  · have hcov := W.cover k hk
    rw [e', List.flatMap_append, List.flatMap_cons, List.flatMap_nil, List.append_nil, kids_flat W hC hk hb] at hcov
    have hlt := (List.getElem?_eq_some_iff.1 hd).1
    have h1 : (G.lv k).getLast? = some d.2 := by rw [e]; simp
    have hne : (s.page b).downs.map Prod.snd ≠ [] := List.ne_nil_of_mem hm
    rw [hcov, List.getLast?_append, List.getLast?_eq_some_getLast hne] at h1
    simp only [Option.some_or, Option.some.injEq] at h1
    rw [hcov] at hn
    have hnd := (List.nodup_append.1 hn).2.1
    rw [List.getLast_eq_getElem] at h1
    have h2 : ((s.page b).downs.map Prod.snd)[i]'(by simpa using hlt) = d.2 := by
      rw [List.getElem_map, (List.getElem?_eq_some_iff.1 hd).2]
    have := (List.Nodup.getElem_inj_iff hnd).1 (h1.trans h2.symm)
    simp only [List.length_map] at this
    omega

end

/-- The listing row by row. -/
theorem calls_ok (p : Tree.Page (Ent V)) : ∀ (ds pre : List (Ent V × Nat)) (n : Nat), p.downs = pre ++ ds → ds.length < n →
    entryInnerCalls p n (pre.length + 1) = some (ds.zipIdx (pre.length + 1) |>.map (fun x => ⟨if p.right.isNone && x.2 == p.downs.length then none else some x.1.1.key, x.1.2⟩)) := by
  intro ds
  induction ds with
  | nil =>
    intro pre n h hn
    obtain ⟨m, rfl⟩ : ∃ m, n = m + 1 := ⟨n - 1, by omega⟩
    rw [entryInnerCalls, if_neg (by rw [h]; simp)]
    rfl
  | cons d ds ih =>
    intro pre n h hn
    obtain ⟨m, rfl⟩ : ∃ m, n = m + 1 := ⟨n - 1, by omega⟩
    rw [entryInnerCalls, if_pos (by rw [h]; simp)]
    have hg : p.downs[pre.length + 1 - 1]? = some d := by rw [h]; simp
    rw [hg]
    have := ih (pre ++ [d]) m (by simp [h]) (by simp at hn; omega)
    simp only [List.length_append, List.length_singleton] at this
    simp only
    rw [this]
    rfl

theorem calls_mono (p : Tree.Page (Ent V)) : ∀ (m n c : Nat) (rows rows' : List (EntryInnerRow V)), entryInnerCalls p m c = some rows → entryInnerCalls p n c = some rows' → rows = rows' := by
  intro m
  induction m with
  | zero => intro n c rows rows' h; simp [entryInnerCalls] at h
  | succ m ih =>
    intro n c rows rows' h h'
    cases n with
    | zero => simp [entryInnerCalls] at h'
    | succ n =>
      rw [entryInnerCalls] at h h'
      split at h
      · rename_i hc
        rw [if_pos hc] at h'
        split at h
        · cases h
        · rename_i d hd
          rw [hd] at h'
          simp only at h'
          obtain ⟨l, h1, rfl⟩ := Option.map_eq_some_iff.1 h
          obtain ⟨l', h2, rfl⟩ := Option.map_eq_some_iff.1 h'
          rw [ih n (c + 1) l l' h1 h2]
      · rename_i hc
        rw [if_neg hc] at h'
        rw [← Option.some.inj h, ← Option.some.inj h']

/-- The rows of the listing of a page. -/
def listing (p : Tree.Page (Ent V)) : List (EntryInnerRow V) :=
  p.downs.zipIdx 1 |>.map (fun x => ⟨if p.right.isNone && x.2 == p.downs.length then none else some x.1.1.key, x.1.2⟩)

theorem page_ok (p : Tree.Page (Ent V)) (hl : p.leaf = false) (hd : p.deleted = false) (n : Nat) (hn : p.downs.length < n) : entryInnerPage p n = some (listing p) := by
  unfold entryInnerPage
  rw [hl, hd]
  simp only [Bool.or_self, Bool.false_eq_true, if_false]
  exact calls_ok p p.downs [] n rfl hn

theorem page_listing (p : Tree.Page (Ent V)) {m : Nat} {rows : List (EntryInnerRow V)} (h : entryInnerPage p m = some rows) : p.leaf = false ∧ p.deleted = false ∧ rows = listing p := by
  have h0 := h
  unfold entryInnerPage at h
  split at h
  · cases h
  · rename_i hno
    simp only [Bool.or_eq_true, not_or, Bool.not_eq_true] at hno
    have := page_ok p hno.1 hno.2 (p.downs.length + 1) (by omega)
    unfold entryInnerPage at this
    rw [if_neg (by simp [hno])] at this
    exact ⟨hno.1, hno.2, calls_mono p _ _ _ _ _ h this⟩

theorem mem_listing {p : Tree.Page (Ent V)} {r : EntryInnerRow V} (h : r ∈ listing p) : ∃ (i : Nat) (d : Ent V × Nat), p.downs[i]? = some d ∧ r.child = d.2 ∧
    r.key = if p.right.isNone && i + 1 == p.downs.length then none else some d.1.key := by
  obtain ⟨⟨d, j⟩, hx, rfl⟩ := List.mem_map.1 h
  obtain ⟨hj, hi⟩ := List.mk_mem_zipIdx_iff_le_and_getElem?_sub.1 hx
  exact ⟨j - 1, d, hi, rfl, by simp only; rw [show j - 1 + 1 = j by omega]⟩

theorem listing_get {p : Tree.Page (Ent V)} {i : Nat} (h : i < (listing p).length) : ∃ d : Ent V × Nat, p.downs[i]? = some d ∧ (listing p)[i].child = d.2 ∧
    (listing p)[i].key = if p.right.isNone && i + 1 == p.downs.length then none else some d.1.key := by
  have h' : i < p.downs.length := by simpa [listing] using h
  refine ⟨p.downs[i], List.getElem?_eq_getElem h', ?_, ?_⟩
  · simp [listing]
  · simp [listing, Nat.add_comm]

/-- **C84.** After any history of insertions and VACUUMs, every page but the root of the entry tree is named as a child in the listing of an interior page of the tree
(`rum_internal_entry_page_items_info`), the children named in a listing are pages of the tree, and the keys listed bound the keys on the leaf pages they are listed with. -/
theorem C84_entry_tree_explored (ix : Ix V) [Inhabited V] (rc : RowCfg V) (n : Nat) (hc : ColsOK ix ⟨n, true⟩) (hal : ∀ k, 8 ∣ ix.keySize k)
    (hs : ∀ a, SortOK (ix.cmpK a) (rc.sort a)) (hd : ∀ a, DupsSeen (ix.cmpK a) (rc.haveDups a))
    (evs : List (Event V)) (hev : Possible ix rc ⟨n, true⟩ [] evs) :
    ∃ st, runs ix rc (emptyIndex, true) evs = (st, true) ∧ ∀ b, Reached st.entry rootBlk b →
      ((st.entry.page b).leaf = false → ∃ N, ∀ m, N ≤ m → (entryInnerPage (st.entry.page b) m).isSome) ∧
      (b ≠ rootBlk → ∃ q, Reached st.entry rootBlk q ∧ ∃ N, ∀ m, N ≤ m → ∃ rows, entryInnerPage (st.entry.page q) m = some rows ∧ ∃ r ∈ rows, r.child = b) ∧
      (∀ m rows, entryInnerPage (st.entry.page b) m = some rows → (∀ r ∈ rows, Reached st.entry rootBlk r.child) ∧ Bounds ix st rows) := by
  have L : Life ix rc ⟨n, true⟩ emptyIndex [] := ⟨inv_empty ix hc, by simp, fun k y => by rw [rowsOf_empty ix hc]; simp [EntryOf]⟩
  obtain ⟨st, h1, L'⟩ := L.runs hc hal rfl hs hd evs _ _ hev
  refine ⟨st, h1, fun b hb => ?_⟩
  obtain ⟨K, hK, key, G, hkey, hG, -⟩ := L'.inv.entry
  have W := hG.weak
  have hC := hG.complete trivial
  have hlevel : ∀ c, Reached st.entry rootBlk c → ∃ j, j ≤ G.h ∧ c ∈ G.lv j := by
    intro c hc
    induction hc with
    | root => exact ⟨G.h, _root_.le_refl _, by rw [W.root]; simp⟩
    | @down c d _ hleaf hd ih =>
      obtain ⟨j, hj, hm⟩ := ih
      cases j with
      | zero => rw [W.leaf c hm] at hleaf; cases hleaf
      | succ j => exact ⟨j, by omega, down_mem W hC (by omega) hm (List.mem_map.2 ⟨d, hd, rfl⟩)⟩
    | @right c r _ hr ih =>
      obtain ⟨j, hj, hm⟩ := ih
      obtain ⟨A, B, e1⟩ := List.append_of_mem hm
      have h2 := (Linked.right (e1 ▸ W.linked j hj)).1
      rw [hr] at h2
      cases B with
      | nil => simp at h2
      | cons r' B =>
        simp at h2
        refine ⟨j, hj, ?_⟩
        rw [e1, h2]
        simp
  have hin : ∀ j, j ≤ G.h → ∀ c ∈ G.lv (G.h - j), Reached st.entry rootBlk c := by
    intro j
    induction j with
    | zero => intro _ c hc; rw [Nat.sub_zero, W.root, List.mem_singleton] at hc; subst hc; exact .root
    | succ j ih =>
      intro hj c hc
      obtain ⟨P, hP, hm⟩ := parent W hC (by omega) hc
      rw [show G.h - (j + 1) + 1 = G.h - j by omega] at hP
      obtain ⟨d, hd, rfl⟩ := List.mem_map.1 hm
      refine .down (ih (by omega) P hP) ?_ hd
      rw [show G.h - j = (G.h - (j + 1)) + 1 by omega] at hP
      exact (W.inner _ (by omega) P hP).1
  refine ⟨fun hlf => ?_, fun hb0 => ?_, fun m rows hrows => ?_⟩
  · obtain ⟨j, hj, hm⟩ := hlevel b hb
    exact ⟨(st.entry.page b).downs.length + 1, fun m hm' => by rw [page_ok _ hlf (W.alloc j hj b hm).2 m (by omega)]; rfl⟩
  · obtain ⟨j, hj, hm⟩ := hlevel b hb
    have hlt : j < G.h := by
      rcases Nat.lt_or_ge j G.h with h | h
      · exact h
      · have : j = G.h := by omega
        rw [this, W.root, List.mem_singleton] at hm
        exact (hb0 hm).elim
    obtain ⟨q, hq, hd⟩ := parent W hC hlt hm
    obtain ⟨d, hdm, rfl⟩ := List.mem_map.1 hd
    obtain ⟨i, hi, hi'⟩ := List.getElem_of_mem hdm
    refine ⟨q, ?_, (st.entry.page q).downs.length + 1, fun m hm' => ⟨_, page_ok _ (W.inner j hlt q hq).1 (W.alloc (j + 1) (by omega) q hq).2 m (by omega),
      (listing (st.entry.page q))[i]'(by simpa [listing] using hi), List.getElem_mem _, ?_⟩⟩
    · have := hin (G.h - (j + 1)) (by omega) q
      rw [show G.h - (G.h - (j + 1)) = j + 1 by omega] at this
      exact this hq
    · obtain ⟨d', h1, h2, -⟩ := listing_get (p := st.entry.page q) (i := i) (by simpa [listing] using hi)
      rw [h2]
      rw [List.getElem?_eq_getElem hi, hi'] at h1
      rw [← Option.some.inj h1]
  · obtain ⟨hlf, -, rfl⟩ := page_listing _ hrows
    obtain ⟨j, hj, hm⟩ := hlevel b hb
    obtain ⟨k, rfl⟩ : ∃ k, j = k + 1 := by
      cases j with
      | zero => rw [W.leaf b hm] at hlf; cases hlf
      | succ k => exact ⟨k, rfl⟩
    -- a leaf child lies on the lowest level
    have hk0 : ∀ d ∈ (st.entry.page b).downs, (st.entry.page d.2).leaf = true → k = 0 := by
      intro d hd hl
      have hc := down_mem W hC (show k < G.h by omega) hm (List.mem_map.2 ⟨d, hd, rfl⟩)
      cases k with
      | zero => rfl
      | succ k => rw [(W.inner k (by omega) d.2 hc).1] at hl; cases hl
    have hnotop : ∀ (i : Nat) (d : Ent V × Nat), (st.entry.page b).downs[i]? = some d →
        ¬ ((st.entry.page b).right = none ∧ i + 1 = (st.entry.page b).downs.length) →
        hiP key (st.entry.page d.2) = ((key d.1 : K) : WithTop K) := by
      intro i d hdi hno
      rcases down_hi W hC (show k < G.h by omega) hm (List.mem_of_getElem? hdi) with h | h
      · exfalso
        refine hno (last_down W hC (by omega) hm hdi ?_)
        unfold hiP at h
        cases hr : (st.entry.page d.2).right with
        | none => rfl
        | some r => rw [hr] at h; exact (WithTop.coe_ne_top h).elim
      · exact h
    refine ⟨fun r hr => ?_, fun r hr hl e he x hx => ?_, ?_⟩
    · obtain ⟨i, d, hd1, hd2, -⟩ := mem_listing hr
      rw [hd2]
      exact .down hb hlf (List.mem_of_getElem? hd1)
    · obtain ⟨i, d, hd1, hd2, hd3⟩ := mem_listing hr
      rw [hd2] at hl he
      have hk := hk0 d (List.mem_of_getElem? hd1) hl
      subst hk
      rw [hd3] at hx
      split at hx
      · cases hx
      · rename_i hno
        cases hx
        have hle := W.order.le d.2 (down_mem W hC (by omega) hm (List.mem_map.2 ⟨d, List.mem_of_getElem? hd1, rfl⟩)) e he
        rw [hnotop i d hd1 (by simpa using hno), WithTop.coe_le_coe] at hle
        intro hgt
        exact absurd ((hkey.gt e d.1).1 hgt) (_root_.not_lt.2 hle)
    · rw [List.pairwise_iff_getElem]
      intro i i' hi hi' hii
      obtain ⟨d, a1, a2, a3⟩ := listing_get hi
      obtain ⟨d', b1, b2, -⟩ := listing_get hi'
      have hlt' := (List.getElem?_eq_some_iff.1 b1).1
      have hno : ¬ ((st.entry.page b).right = none ∧ i + 1 = (st.entry.page b).downs.length) := by rintro ⟨-, h⟩; omega
      refine ⟨d.1.key, ?_, fun hl e he => ?_⟩
      · rw [a3, if_neg (by simp; omega)]
      · rw [b2] at hl he
        have hk := hk0 d' (List.mem_of_getElem? b1) hl
        subst hk
        have hsub := down_sub W hC (show 0 < G.h by omega) hm
        have hpw := W.order.pair.sublist hsub
        rw [List.pairwise_iff_getElem] at hpw
        have := (hpw i i' (by simp; omega) (by simpa using hlt') hii).2
        simp only [List.getElem_map, (List.getElem?_eq_some_iff.1 b1).2, (List.getElem?_eq_some_iff.1 a1).2] at this
        have := this e he
        rw [hnotop i d a1 hno, WithTop.coe_lt_coe] at this
        exact (hkey.gt e d.1).2 this

/-! ### A concrete case -/

open Rum.Props.Debug in
/-- Four rows with different long keys. -/
def exFour : List (Event Nat) := [1, 2, 3, 4].map (fun i => Event.insert (exRow i (some [⟨some i, some (.byval 0)⟩])))

open Rum.Props.Debug in
theorem exFourOK (m : Nat) (hm : m < 400) : RowOK exWide exRc ⟨15, true⟩ (exRow m (some [⟨some m, some (.byval 0)⟩])) := by
  intro a h1 h2 o ho
  obtain ⟨g1, -, g3⟩ := exRowOK m hm _ (Or.inr (Or.inr ⟨m, rfl⟩)) true a h1 h2 o ho
  refine ⟨g1, ?_, g3⟩
  show alignUp 8 (2640 + catByte (outKey a o)) ≤ maxTuple
  unfold catByte
  split <;> decide

open Rum.Props.Debug in
/-- The hypotheses are met by this history, after which the root of the entry tree is an interior page with several children. -/
example : ColsOK exWide ⟨15, true⟩ ∧ (∀ k, 8 ∣ exWide.keySize k) ∧ Possible exWide exRc ⟨15, true⟩ [] exFour ∧
    ((runs exWide exRc (emptyIndex, true) exFour).1.entry.page rootBlk).leaf = false ∧
    2 ≤ ((runs exWide exRc (emptyIndex, true) exFour).1.entry.page rootBlk).downs.length := by
  refine ⟨exWideCols, fun _ => ⟨330, rfl⟩, ?_, by decide +kernel, by decide +kernel⟩
  refine ⟨⟨exFourOK 1 (by omega), by simp⟩, ⟨exFourOK 2 (by omega), ?_⟩, ⟨exFourOK 3 (by omega), ?_⟩, ⟨exFourOK 4 (by omega), ?_⟩, trivial⟩
  all_goals simp [Event.rows, exRow]

end Rum.Props.DebugEntry

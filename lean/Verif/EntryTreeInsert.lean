import Verif.EntryTreeInv
/-
rumEntryInsert under the invariant of the index.
-/
namespace Rum.Index
open Rum Rum.Codec Rum.Leaf Rum.Entry Rum.Tree Rum.Props Rum.Props.PostingTree Std

variable {V : Type}

/-- Keys the index treats as equal. -/
def Same (ix : Ix V) (a b : AttKey V) : Prop := cmpAttEntries ix.cmpK a b = .eq

theorem same_attnum {ix : Ix V} {a b : AttKey V} (h : Same ix a b) : a.attnum = b.attnum := by
  unfold Same cmpAttEntries at h
  by_contra hne
  rw [if_pos hne] at h
  split at h <;> cases h

/-- What one insertion may do to the rows a lookup finds. -/
structure Between (ix : Ix V) [Inhabited V] (st t : State V) (k : AttKey V) (items : List (Item Datum)) : Prop where
  other : ∀ k', ¬ Same ix k' k → ix.rowsOf t k' = ix.rowsOf st k'
  kept : ∀ k', Same ix k' k → ∀ y ∈ ix.rowsOf st k', y ∈ ix.rowsOf t k'
  added : ∀ k', Same ix k' k → ∀ y ∈ ix.rowsOf t k', y ∈ ix.rowsOf st k' ∨ y ∈ items

/-- What a completed insertion does. -/
structure Inserted (ix : Ix V) [Inhabited V] (st t : State V) (k : AttKey V) (items : List (Item Datum)) : Prop where
  other : ∀ k', ¬ Same ix k' k → ix.rowsOf t k' = ix.rowsOf st k'
  rows : ∀ k', Same ix k' k → ∀ y, y ∈ ix.rowsOf t k' ↔ Upd (ix.ctx k.attnum).cmp true (ix.rowsOf st k') items y

theorem Inserted.between {ix : Ix V} [Inhabited V] {st t : State V} {k : AttKey V} {items : List (Item Datum)} (h : Inserted ix st t k items) :
    Between ix st t k items where
  other := h.other
  kept := fun k' hk y hy => (h.rows k' hk y).2 (Or.inl hy)
  added := fun k' hk y hy => ((h.rows k' hk y).1 hy).imp id And.left

theorem IInv.rowsOf_same {C : Prop} {ix : Ix V} [Inhabited V] {M : Lim} (hc : ColsOK ix M) {st : State V} (H : IInv C ix M st) {k k' : AttKey V}
    (h : Same ix k' k) : ix.rowsOf st k' = ix.rowsOf st k := by
  have := hc.keys
  have := cmp_trans ix
  rcases H.rowsOf hc k with ⟨e, h1, h2, h3⟩ | ⟨h1, h3⟩
  · rw [h3]
    exact H.rowsOf_eq hc h1 (TransCmp.eq_trans (cmp := ix.cmp) (b := probe k) h h2)
  · rw [h3]
    exact H.rowsOf_none hc (fun e he h' => h1 e he (TransCmp.eq_trans (cmp := ix.cmp) (b := probe k') (OrientedCmp.eq_symm h) h'))

/-! ### Insertion into the posting tree of an existing key -/

theorem setTree_inv {C : Prop} {ix : Ix V} [Inhabited V] {M : Lim} {st : State V} (H : IInv C ix M st) {e : Ent V}
    (he : e ∈ contents st.entry rootBlk) {t : Nat} (hp : e.post = .tree t) {s : Store (Item Datum)}
    (hs : TInv C (ix.ctx e.key.attnum) dataCap innerCap M s 0) : IInv C ix M (st.setTree t s) := by
  refine ⟨H.entry, fun e' he' => ?_, H.inj⟩
  have h := H.ents e' he'
  refine ⟨h.key, h.list, fun t' ht' => ⟨(h.tree t' ht').1, ?_⟩⟩
  by_cases htt : t' = t
  · subst htt
    rw [H.inj e' he' e he t' ht' hp]
    simpa [State.setTree] using hs
  · simpa [State.setTree, htt] using (h.tree t' ht').2

theorem setTree_other {C : Prop} {ix : Ix V} [Inhabited V] {M : Lim} (hc : ColsOK ix M) {st : State V} (H : IInv C ix M st) {e : Ent V}
    (he : e ∈ contents st.entry rootBlk) {t : Nat} (hp : e.post = .tree t) {s : Store (Item Datum)}
    (hs : TInv C (ix.ctx e.key.attnum) dataCap innerCap M s 0) {k : AttKey V} (hk : ix.cmp (probe k) e = .eq) {k' : AttKey V} (hn : ¬ Same ix k' k) :
    ix.rowsOf (st.setTree t s) k' = ix.rowsOf st k' := by
  have := hc.keys
  have := cmp_trans ix
  have H' := setTree_inv H he hp hs
  rcases H.rowsOf hc k' with ⟨e', h1, h2, h3⟩ | ⟨h1, h3⟩
  · rw [h3, H'.rowsOf_eq hc h1 h2]
    unfold rows
    cases hp' : e'.post with
    | list d n => rfl
    | tree t' =>
      have htt : t' ≠ t := by
        rintro rfl
        have := H.inj e' h1 e he t' hp' hp
        subst this
        exact hn (TransCmp.eq_trans (cmp := ix.cmp) (a := probe k') (c := probe k) h2 (OrientedCmp.eq_symm hk))
      simp [State.setTree, htt]
  · rw [h3]
    exact H'.rowsOf_none hc h1

theorem setTree_rows {C : Prop} {ix : Ix V} [Inhabited V] {M : Lim} (hc : ColsOK ix M) {st : State V} (H : IInv C ix M st) {e : Ent V}
    (he : e ∈ contents st.entry rootBlk) {t : Nat} (hp : e.post = .tree t) {s : Store (Item Datum)}
    (hs : TInv C (ix.ctx e.key.attnum) dataCap innerCap M s 0) {k : AttKey V} (hk : ix.cmp (probe k) e = .eq) {k' : AttKey V} (hn : Same ix k' k) :
    ix.rowsOf (st.setTree t s) k' = contents s 0 := by
  have H' := setTree_inv H he hp hs
  rw [H'.rowsOf_same hc hn, H'.rowsOf_eq hc (e := e) he hk]
  unfold rows
  simp [hp, State.setTree]

theorem tree_case {C : Prop} {ix : Ix V} [Inhabited V] {M : Lim} (hc : ColsOK ix M) {st : State V} (H : IInv C ix M st) {e : Ent V}
    (he : e ∈ contents st.entry rootBlk) {t : Nat} (hp : e.post = .tree t) {k : AttKey V} (hk : ix.cmp (probe k) e = .eq)
    {items : List (Item Datum)} (hb : BatchOK (ix.ctx k.attnum) M items) :
    ∃ ts ok, ix.insertTree k.attnum st t items = (ts, ok) ∧ (C → ok = true) ∧
      (∀ s ∈ ts, IInv False ix M s ∧ Between ix st s k items) ∧ IInv C ix M (lastState st ts) ∧
      (ok = true → Inserted ix st (lastState st ts) k items) := by
  have hat : k.attnum = e.key.attnum := same_attnum (ix := ix) hk
  rw [hat] at hb
  have hI := ((H.ents e he).tree t hp).2
  obtain ⟨ss, ok, h1, h2, h3, h4, h5⟩ := insertTree_spec hc hI hb
  have hrows : ix.rowsOf st k = contents (st.trees t) 0 := by
    rw [H.rowsOf_eq hc he hk]; unfold rows; rw [hp]
  refine ⟨_, ok, by rw [hat]; exact h1, h2, fun s hs => ?_, ?_, fun hok => ?_⟩
  · obtain ⟨s', hs', rfl⟩ := List.mem_map.1 hs
    obtain ⟨a1, a2, a3⟩ := h3 s' hs'
    refine ⟨setTree_inv H.mono he hp a1, fun k' hn => setTree_other hc H.mono he hp a1 hk hn, fun k' hs y hy => ?_, fun k' hs y hy => ?_⟩
    · rw [setTree_rows hc H.mono he hp a1 hk hs]
      rw [H.rowsOf_same hc hs, hrows] at hy
      exact a2 y hy
    · rw [setTree_rows hc H.mono he hp a1 hk hs] at hy
      rw [H.rowsOf_same hc hs, hrows]
      exact a3 y hy
  · rw [lastState_map]
    exact setTree_inv H he hp h4
  · rw [lastState_map]
    refine ⟨fun k' hn => setTree_other hc H he hp h4 hk hn, fun k' hs y => ?_⟩
    rw [setTree_rows hc H he hp h4 hk hs, H.rowsOf_same hc hs, hrows, hat]
    exact h5 hok y

/-! ### A new or changed tuple -/

/-- The index after the new tuple is in place. -/
theorem put_inv {D : Prop} {ix : Ix V} [Inhabited V] {M : Lim} {st st' : State V} (H : IInv D ix M st) (hx : Ext st st') {e : Ent V}
    (he : EntOK D ix M st' e) (hf : ∀ t, e.post = .tree t → st.ntrees ≤ t) {s : Store (Ent V)}
    (hs : ∃ (K : Type) (_ : LinearOrder K) (key : Ent V → K) (G : Ghost), KeyOf ix.cmp key ∧
      Good D key true (InnerFit ix) (KeyFit ix) (LeafOK ix) s rootBlk G ∧ BoundIn key (leafs key s G))
    (hm : ∀ y, y ∈ contents s rootBlk ↔ Upd ix.cmp false (contents st.entry rootBlk) [e] y) : IInv D ix M { st' with entry := s } := by
  have hm' : ∀ y ∈ contents s rootBlk, y = e ∨ y ∈ contents st.entry rootBlk := by
    intro y hy
    have := (hm y).1 hy
    simp only [Upd, Bool.false_eq_true, if_false, List.mem_singleton] at this
    exact this.imp id And.left
  refine ⟨hs, fun y hy => ?_, fun y hy y' hy' t h1 h2 => ?_⟩
  · rcases hm' y hy with rfl | h
    · exact ⟨he.key, he.list, he.tree⟩
    · have := ((H.ents y h).ext hx).1
      exact ⟨this.key, this.list, this.tree⟩
  · rcases hm' y hy with rfl | h <;> rcases hm' y' hy' with rfl | h'
    · rfl
    · exact absurd (hf t h1) (by have := ((H.ents y' h').tree t h2).1; omega)
    · exact absurd (hf t h2) (by have := ((H.ents y h).tree t h1).1; omega)
    · exact H.inj y h y' h' t h1 h2

theorem put_rows {C D : Prop} {ix : Ix V} [Inhabited V] {M : Lim} (hc : ColsOK ix M) {st : State V} (H : IInv C ix M st) {k : AttKey V}
    {pre : List (State V)} {e : Ent V} {items R : List (Item Datum)} (hk : ix.cmp (probe k) e = .eq) (hR : ix.rowsOf st k = R)
    (hB : Built C ix M st e.key R items pre e) {s : Store (Ent V)} (H' : IInv D ix M { (lastState st pre) with entry := s })
    (hm : ∀ y, y ∈ contents s rootBlk ↔ Upd ix.cmp false (contents st.entry rootBlk) [e] y) :
    Inserted ix st { (lastState st pre) with entry := s } k items := by
  have := hc.keys
  have := cmp_trans ix
  have hm2 : ∀ y, y ∈ contents s rootBlk ↔ y = e ∨ (y ∈ contents st.entry rootBlk ∧ ix.cmp e y ≠ .eq) := by
    intro y; rw [hm]; simp [Upd]
  have hx := hB.last
  refine ⟨fun k' hn => ?_, fun k' hs y => ?_⟩
  · rcases H.rowsOf hc k' with ⟨e', h1, h2, h3⟩ | ⟨h1, h3⟩
    · have hne : ix.cmp e e' ≠ .eq := fun h => hn (TransCmp.eq_trans (cmp := ix.cmp) (a := probe k') (c := probe k) h2
        (OrientedCmp.eq_symm (TransCmp.eq_trans (cmp := ix.cmp) hk h)))
      rw [h3, H'.rowsOf_eq hc (e := e') ((hm2 e').2 (Or.inr ⟨h1, hne⟩)) h2]
      exact ((H.ents e' h1).ext hx).2
    · rw [h3]
      refine H'.rowsOf_none hc (fun y hy h => ?_)
      rcases (hm2 y).1 hy with rfl | ⟨hy, -⟩
      · exact hn (TransCmp.eq_trans (cmp := ix.cmp) (a := probe k') (c := probe k) h (OrientedCmp.eq_symm hk))
      · exact h1 y hy h
  · have hat : k.attnum = e.key.attnum := same_attnum (ix := ix) hk
    rw [H'.rowsOf_same hc hs, H'.rowsOf_eq hc (e := e) ((hm2 e).2 (Or.inl rfl)) hk, H.rowsOf_same hc hs, hR, hat]
    exact hB.rows y

theorem lastState_put (st : State V) (pre : List (State V)) (ts : List (Store (Ent V))) (h : ts ≠ []) :
    lastState st (pre ++ ts.map (fun s => { (lastState st pre) with entry := s })) =
      { (lastState st pre) with entry := lastStore st.entry ts } := by
  conv_lhs => unfold lastState
  rw [List.getLast?_append_of_ne_nil _ (by simpa using h), List.getLast?_map]
  unfold lastStore
  rw [List.getLast?_eq_some_getLast h]
  rfl

theorem put_case {C : Prop} {ix : Ix V} [Inhabited V] {M : Lim} (hc : ColsOK ix M) {st : State V} (H : IInv C ix M st) {k : AttKey V}
    {path : List (Nat × Nat)} {pre : List (State V)} {e : Ent V} {items R : List (Item Datum)} (hk : ix.cmp (probe k) e = .eq)
    (hR : ix.rowsOf st k = R) (hB : Built C ix M st e.key R items pre e)
    (hv : ∃ ts ok, insertValue ix.ops rootBlk st.entry path [e] = (ts, ok, []) ∧ (C → ok = true) ∧ ts ≠ [] ∧
        (∀ t ∈ ts, (∃ (K : Type) (_ : LinearOrder K) (key : Ent V → K) (G : Ghost), KeyOf ix.cmp key ∧
          Good False key true (InnerFit ix) (KeyFit ix) (LeafOK ix) t rootBlk G ∧ BoundIn key (leafs key t G)) ∧
          ∀ y, y ∈ contents t rootBlk ↔ Upd ix.cmp false (contents st.entry rootBlk) [e] y) ∧
        (∃ (K : Type) (_ : LinearOrder K) (key : Ent V → K) (G : Ghost), KeyOf ix.cmp key ∧
          Good C key true (InnerFit ix) (KeyFit ix) (LeafOK ix) (lastStore st.entry ts) rootBlk G ∧ BoundIn key (leafs key (lastStore st.entry ts) G)) ∧
        ∀ y, y ∈ contents (lastStore st.entry ts) rootBlk ↔ Upd ix.cmp false (contents st.entry rootBlk) [e] y) :
    ∃ ts ok, ix.putTuple st path (pre, some e) = (ts, ok) ∧ (C → ok = true) ∧
      (∀ s ∈ ts, IInv False ix M s ∧ Between ix st s k items) ∧ IInv C ix M (lastState st ts) ∧
      (ok = true → Inserted ix st (lastState st ts) k items) := by
  obtain ⟨ts, ok, v1, v2, v3, v4, v5, v6⟩ := hv
  have hl := lastState_put st pre ts v3
  have hI := put_inv H hB.last hB.ok hB.fresh v5 v6
  refine ⟨pre ++ ts.map (fun s => { (lastState st pre) with entry := s }), ok, ?_, v2, fun s hs => ?_, by rw [hl]; exact hI, fun _ => by
    rw [hl]; exact put_rows hc H hk hR hB hI v6⟩
  · unfold Ix.putTuple
    simp only [hB.last.entry, v1]
  · rcases List.mem_append.1 hs with hs | hs
    · have hx := hB.ext s hs
      refine ⟨H.mono.ext hx, fun k' _ => ext_rows hc H hx k', fun k' _ y hy => ?_, fun k' _ y hy => ?_⟩
      · rw [ext_rows hc H hx]; exact hy
      · rw [ext_rows hc H hx] at hy; exact Or.inl hy
    · obtain ⟨s', hs', rfl⟩ := List.mem_map.1 hs
      obtain ⟨a1, a2⟩ := v4 s' hs'
      have hI' := put_inv H.mono hB.last hB.ok.mono hB.fresh a1 a2
      exact ⟨hI', (put_rows hc H hk hR hB hI' a2).between⟩

/-- **rumEntryInsert.** -/
theorem entryInsert_spec {C : Prop} {ix : Ix V} [Inhabited V] {M : Lim} (hc : ColsOK ix M) {st : State V} (H : IInv C ix M st) {k : AttKey V}
    (hk : ix.tupleSize k [] ≤ maxTuple) {items : List (Item Datum)} (hb : BatchOK (ix.ctx k.attnum) M items) :
    ∃ ts ok, ix.entryInsert st k items = (ts, ok) ∧ (C → ok = true) ∧
      (∀ s ∈ ts, IInv False ix M s ∧ Between ix st s k items) ∧ IInv C ix M (lastState st ts) ∧
      (ok = true → Inserted ix st (lastState st ts) k items) := by
  have := hc.keys
  have := cmp_trans ix
  obtain ⟨b, up, ⟨h1, h2⟩, hv⟩ := find_ok hc H.entry k
  unfold Ix.entryInsert
  rw [h1]
  simp only
  rcases h2 with ⟨off, e, hl, hg, hm, he⟩ | ⟨off, hl, hn⟩
  · rw [hl]
    simp only [if_true, hg]
    have hr := H.rowsOf_eq hc hm he
    cases hp : e.post with
    | tree t => exact tree_case hc H hm hp he hb
    | list d n =>
      simp only
      obtain ⟨pre, x, a1, a2⟩ := addItems_spec hc (H.ents e hm) hp (items := items) (by rw [← same_attnum (ix := ix) he]; exact hb)
      rw [a1]
      have hx : ix.cmp (probe k) x = .eq := by
        unfold Ix.cmp; rw [a2.key]; exact he
      exact put_case hc H hx hr (by rw [a2.key]; exact a2) (hv x hx a2.fits)
  · rw [hl]
    simp only [Bool.false_eq_true, if_false]
    obtain ⟨pre, x, a1, a2⟩ := freshTuple_spec C hc st hk hb
    rw [a1]
    have hx : ix.cmp (probe k) x = .eq := by
      unfold Ix.cmp; rw [a2.key]; exact ReflCmp.compare_self (cmp := ix.cmp) (a := probe k)
    exact put_case hc H hx (H.rowsOf_none hc hn) (by rw [a2.key]; exact a2) (hv x hx a2.fits)

end Rum.Index

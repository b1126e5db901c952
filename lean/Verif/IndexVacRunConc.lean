import Verif.IndexVacInv
/-
The steps of the backends keep the invariant of the index, the backends and VACUUM. Proof apparatus.
-/
namespace Rum.Index.VC
open Rum Rum.Codec Rum.Leaf Rum.Entry Rum.Tree Rum.Index Rum.Props Rum.Props.PostingTree Rum.Props.VacConc Std

variable {V : Type} {ix : Ix V} [Inhabited V] {M : Lim} {g : Gh V} {v : Option Vac} {n : Net V} {i : Nat}

/-! ### A posting tree -/

theorem NInv.treeStep (hc : ColsOK ix M) (hbd : ix.build = false) (I : NInv ix M g v n) {t : Nat} {k : AttKey V} (hb : (n.tth t i).free = false)
    (hin : InTree ix n.st (n.eth i) (fun t => n.tth t i) k t)
    (hl : ∀ j, j ≠ i → ∀ c, holds (n.tth t j) = some c →
      c ∉ needs (ix.treeOps k.attnum) (seekData (ix.ctx k.attnum)) 0 (n.st.trees t) (n.tth t i))
    (hroot : tv v t ≠ none → visit 0 (n.tth t i) ≠ some 0)
    (hA : ∀ it ∈ todo (n.tth t i), (k, it) ∈ g.T ∧ ∀ k', Same ix k' k → ∀ i, g.A i k' it)
    {r : Store (Item Datum) × Thread (Item Datum)}
    (hr : Tree.act (ix.treeOps k.attnum) (seekData (ix.ctx k.attnum)) 0 (n.st.trees t) (n.tth t i) = r) {n1 : Net V}
    (hn : n1 = { n with st := n.st.setTree t r.1 }.setT t i r.2) :
    Part ix M g v n1 i ∧ Due ix g.T n1 i (n.job i).left ∧ Grow ix (fun _ => True) n.st n1.st ∧
    InTree ix n1.st (n1.eth i) (fun t => n1.tth t i) k t ∧
    (∀ y ∈ todo (n.tth t i), y ∈ todo r.2 ∨ Made ix n1.st (k, y)) ∧
    (∃ m, todo r.2 = (todo (n.tth t i)).drop m) ∧ r.2 ≠ .lost ∧
    ∀ c acc, r.2 = finish c acc → (c = false → ∀ y ∈ g.S i, y ∈ acc) ∧
      (c = true → acc = [] ∨ ∀ y ∈ g.S i, Delivered (ix.ctx k.attnum).cmp acc y) ∧ ∀ y ∈ acc, g.A i k y := by
  have := hc.keys
  have := cmp_trans ix
  have := hc.infos k.attnum
  obtain ⟨h1, h2, e, he, hp, hke⟩ := hin
  have hat : k.attnum = e.key.attnum := same_attnum (ix := ix) hke
  have hE := I.entry.einv
  have hrk : ix.rowsOf n.st k = contents (n.st.trees t) 0 := by
    rw [EInv.rowsOf_eq hc hE he hke]; unfold rows; rw [hp]
  have hT := ((I.tup e he).tree t hp).2
  rw [← hat] at hT
  simp only [Ix.treeOps, hbd] at hl hr
  obtain ⟨T1, T2, T3, T4, T5, T6, T7, T8⟩ := TV.act (i := i) (hc.sizes k.attnum) hT hb hl hroot hr
  have hown : ∀ k', Same ix k' k → ix.rowsOf (n.st.setTree t r.1) k' = contents r.1 0 := fun k' hs => tree_rows hc hE he hp r.1 hke hs
  have hoth : ∀ k', ¬ Same ix k' k → ix.rowsOf (n.st.setTree t r.1) k' = ix.rowsOf n.st k' := fun k' hs => tree_other hc hE I.inj he hp r.1 hke hs
  have hkk : Same ix k k := ReflCmp.compare_self (cmp := ix.cmp) (a := probe k)
  have hst : n1.st = n.st.setTree t r.1 := by rw [hn]; rfl
  have hgrow : Grow ix (fun _ => True) n.st n1.st := by
    rw [hst]
    refine ⟨fun k' y hy _ => ?_, fun e he t _ => he, fun e he => ⟨e, he, ReflCmp.compare_self⟩⟩
    by_cases hs : Same ix k' k
    · rw [hown k' hs]
      rw [rows_same hc hE hs, hrk] at hy
      exact T2 y hy
    · rw [hoth k' hs]; exact hy
  have hent : n1.st.entry = n.st.entry := by rw [hst]; rfl
  have heth : n1.eth = n.eth := by rw [hn]; rfl
  have htth : ∀ u j, n1.tth u j = if u = t ∧ j = i then r.2 else n.tth u j := by intro u j; rw [hn]; rfl
  have hnt : n1.st.ntrees = n.st.ntrees := by rw [hst]; rfl
  have htr : ∀ u, n1.st.trees u = if u = t then r.1 else n.st.trees u := by intro u; rw [hst]; rfl
  obtain ⟨P, D⟩ := I.step (i := i) (n' := n1) (fun hQ => by rw [heth]; exact I.entry.mono hc hent hgrow (fun _ _ _ => trivial) hQ) (by
      rw [hent]
      intro e' he'
      have h := I.tup e' he'
      refine ⟨h.key, h.list, fun u hu => ⟨by rw [hnt]; exact (h.tree u hu).1, ?_⟩⟩
      by_cases hut : u = t
      · subst hut
        obtain rfl := I.inj e' he' e he u hu hp
        have e1 : n1.tth u = fun j => if j = i then r.2 else n.tth u j := by
          funext j; rw [htth]; simp
        rw [e1, htr, if_pos rfl, ← hat]
        exact T1
      · have e1 : n1.tth u = n.tth u := by
          funext j; rw [htth, if_neg (fun h => hut h.1)]
        rw [e1, htr, if_neg hut]
        exact (h.tree u hu).2)
    (by unfold Inj; rw [hent]; exact I.inj) (by
      rw [hst]
      intro k' y hy
      by_cases hs : Same ix k' k
      · rw [hown k' hs] at hy
        rcases T3 y hy with h | h
        · exact Or.inl (by rw [rows_same hc hE hs, hrk]; exact h)
        · exact Or.inr ⟨(hA y h).2 k' hs, (k, y), (hA y h).1, OrientedCmp.eq_symm (cmp := ix.cmp) (a := probe k') (b := probe k) hs, rfl⟩
      · rw [hoth k' hs] at hy
        exact Or.inl hy) hgrow (fun u hu => by
      rw [htr]
      split
      · next h => subst h; exact T7 hu
      · rfl) (fun j hj => ⟨by rw [heth], fun u => by rw [htth, if_neg (fun h => hj h.2)], by rw [hn]; rfl⟩)
  refine ⟨P, D, hgrow, ⟨by rw [heth]; exact h1, fun u hu => by
      show n1.tth u i = _
      rw [htth, if_neg (fun h => hu h.1)]; exact h2 u hu, e, by rw [hent]; exact he, hp, hke⟩, fun y hy => ?_, T5, T6, fun c acc hf => ?_⟩
  · rcases T4 y hy with h | ⟨z, h1, h2⟩
    · exact Or.inl h
    · exact Or.inr ⟨z, by rw [hst]; show z ∈ ix.rowsOf _ k; rw [hown k hkk]; exact h1, h2⟩
  · obtain ⟨f1, f2, f3⟩ := T8 c acc hf
    exact ⟨f1, f2, fun y hy => f3 y hy k hke⟩

theorem Part.goOn (P : Part ix M g v n i) {k : AttKey V} {it : Item Datum} {l : List (AttKey V × Item Datum)} (hj : n.job i = .insert ((k, it) :: l))
    (hp : pending (n.eth i) = none) (ht : ∀ t, n.tth t i = .idle) (h1 : ∀ op ∈ (k, it) :: l, EntryOK ix M op) (h2 : ∀ op ∈ (k, it) :: l, op ∈ g.T)
    (h3 : ∀ op ∈ (k, it) :: l, ∀ k', Same ix k' op.1 → ∀ i, g.A i k' op.2)
    (hm : Made ix n.st (k, it)) (hd : Due ix g.T n i ((k, it) :: l)) : NInv ix M g v (n.goOn i) := by
  unfold Net.goOn
  rw [hj]
  refine P.next hp ht (fun op h => h1 op (by simp [h])) (fun op h => h2 op (by simp [h])) (fun op h => h3 op (by simp [h])) (fun op h => ?_)
  rcases hd op h with h | h | h
  · exact Or.inl h
  · rcases List.mem_cons.1 h with rfl | h
    · exact Or.inl hm
    · exact Or.inr (Or.inl h)
  · exact Or.inr (Or.inr h)

/-- **A visit to a page of a posting tree.** -/
theorem NInv.visitTree (hc : ColsOK ix M) (hbd : ix.build = false) (I : NInv ix M g v n) {t : Nat} (hb : (n.tth t i).free = false)
    (hl : ∀ j, j ≠ i → ∀ c, holds (n.tth t j) = some c → c ∉ ix.needsT n t i) (hroot : tv v t ≠ none → visit 0 (n.tth t i) ≠ some 0) :
    NInv ix M g v (ix.visitTree n t i) := by
  have hnq : ∀ {a : Thread (Ent V)}, ¬ Quiet a (fun t => n.tth t i) := by
    intro a h
    rw [show n.tth t i = .idle from h.2 t] at hb
    cases hb
  have hni : n.tth t i ≠ .idle := by intro h; rw [h] at hb; cases hb
  have hj := I.job i
  unfold Ix.visitTree
  unfold Ix.needsT at hl
  cases hjob : n.job i with
  | insert l =>
    rw [hjob] at hj hl
    obtain ⟨o1, o2, o3, k, it, l', rfl, hw⟩ := hj
    simp only [Job.attnum] at hl ⊢
    rcases hw with ⟨h, -⟩ | ⟨u, hin, w1, w2, w3⟩
    · exact absurd (h t) hni
    obtain rfl : u = t := by
      by_contra hne
      exact hni (hin.2.1 t (fun h => hne h.symm))
    obtain ⟨r, hr⟩ : ∃ r, Tree.act (ix.treeOps k.attnum) (seekData (ix.ctx k.attnum)) 0 (n.st.trees u) (n.tth u i) = r := ⟨_, rfl⟩
    rw [hr]
    obtain ⟨n1, hn⟩ : ∃ n1, n1 = ({ n with st := n.st.setTree u r.1 } : Net V).setT u i r.2 := ⟨_, rfl⟩
    obtain ⟨P, D, hg, hin', T1, ⟨m, T2⟩, T3, -⟩ := I.treeStep hc hbd w1 hin hl hroot
      (fun y hy => by
        rcases w3 with w3 | ⟨w3, -⟩ <;> rw [w3] at hy
        · simp only [List.mem_singleton] at hy; subst hy; exact ⟨o2 (k, y) (by simp), o3 (k, y) (by simp)⟩
        · simp at hy) hr hn
    rw [hjob] at D
    have hk := act_ins (o := ix.treeOps k.attnum) (seek := seekData (ix.ctx k.attnum)) (root := 0) (s := n.st.trees u) w1 w2
    rw [hr] at hk
    have hr2 : n1.tth u i = r.2 := by rw [hn]; simp [Net.setT]
    have hjob1 : n1.job i = .insert ((k, it) :: l') := by rw [hn]; exact hjob
    have hmade : todo r.2 = [] → Made ix n1.st (k, it) := by
      intro h2
      rcases w3 with w3 | ⟨-, w3⟩
      · rcases T1 it (by rw [w3]; simp) with h | h
        · rw [h2] at h; simp at h
        · exact h
      · exact made_grow hg trivial w3
    rw [← hn]
    unfold Net.settleT
    rw [hr2]
    rcases hk with ⟨k1, k2 | k2 | k2⟩
    · rw [k2]
      simp only
      obtain ⟨e, e1, e2, e3⟩ := hin'.2.2
      have P' := P.setT hc (t := u) (a := .idle) (by rw [hr2, k2]; rfl) e1 e2 e3 (Or.inl rfl)
      have hst : (n1.setT u i .idle).st = n1.st := rfl
      refine P'.goOn (l := l') hjob1 (by
          have : (n1.setT u i .idle).eth i = .idle := hin'.1
          rw [this]; rfl) (fun t' => ?_) o1 o2 o3 (hmade (by rw [k2]; rfl)) (D.of rfl (fun _ _ => rfl))
      simp only [Net.setT, and_true]
      split
      · rfl
      · next h => exact hin'.2.1 t' h
    · exact absurd k2 T3
    · have e : n1.settleT u i = n1 := by
        unfold Net.settleT
        rw [hr2]
        cases hv3 : r.2 <;> rw [hv3] at k2 <;> first | rfl | cases k2
      have e' := e
      unfold Net.settleT at e'
      rw [hr2] at e'
      rw [e']
      refine P.whole ?_ (by rw [hjob1]; exact D)
      rw [hjob1]
      refine ⟨o1, o2, o3, k, it, l', rfl, Or.inr ⟨u, hin', ?_, ?_, ?_⟩⟩
      · show (n1.tth u i).free = false
        rw [hr2]; exact k2
      · show mode (n1.tth u i) = none
        rw [hr2]; exact k1
      · show todo (n1.tth u i) = [it] ∨ todo (n1.tth u i) = [] ∧ _
        rw [hr2]
        rcases w3 with w3 | ⟨w3, -⟩ <;> rw [w3] at T2
        · cases m with
          | zero => exact Or.inl T2
          | succ m => exact Or.inr ⟨by simpa using T2, hmade (by simpa using T2)⟩
        · exact Or.inr ⟨by simpa using T2, hmade (by simpa using T2)⟩
  | read k c =>
    rw [hjob] at hj hl
    obtain ⟨o2, hw⟩ := hj
    simp only [Job.attnum] at hl ⊢
    rcases hw with ⟨h, -⟩ | ⟨u, hin, w1, w2⟩
    · exact absurd (h t) hni
    obtain rfl : u = t := by
      by_contra hne
      exact hni (hin.2.1 t (fun h => hne h.symm))
    obtain ⟨r, hr⟩ : ∃ r, Tree.act (ix.treeOps k.attnum) (seekData (ix.ctx k.attnum)) 0 (n.st.trees u) (n.tth u i) = r := ⟨_, rfl⟩
    rw [hr]
    obtain ⟨n1, hn⟩ : ∃ n1, n1 = ({ n with st := n.st.setTree u r.1 } : Net V).setT u i r.2 := ⟨_, rfl⟩
    obtain ⟨P, D, hg, hin', T1, ⟨m, T2⟩, T3, T4⟩ := I.treeStep hc hbd w1 hin hl hroot
      (fun y hy => by rw [mode_todo (th := n.tth u i) w2] at hy; simp at hy) hr hn
    rw [hjob] at D
    have hk := act_read (o := ix.treeOps k.attnum) (seek := seekData (ix.ctx k.attnum)) (root := 0) (s := n.st.trees u) w1 w2
    rw [hr] at hk
    have hr2 : n1.tth u i = r.2 := by rw [hn]; simp [Net.setT]
    have hjob1 : n1.job i = .read k c := by rw [hn]; exact hjob
    rw [← hn]
    rcases hk with ⟨k1, ⟨acc, k2⟩ | k2⟩
    · have e : n1.settleT u i = (n1.setT u i .idle).setJ i (.answer k c acc) := by
        unfold Net.settleT
        rw [hr2, k2, hjob1]
        cases c <;> rfl
      rw [e]
      obtain ⟨e, e1, e2, e3⟩ := hin'.2.2
      have P' := (P.setT hc (t := u) (a := .idle) (by rw [hr2]; exact pending_of_mode (by rw [k1]; rfl)) e1 e2 e3 (Or.inl rfl)).setJ (.answer k c acc)
      refine P'.whole ?_ ?_
      · rw [setJ_job]
        refine ⟨⟨hin'.1, fun t' => ?_⟩, T4 c acc k2⟩
        simp only [Net.setJ, Net.setT, and_true]
        split
        · rfl
        · next h => exact hin'.2.1 t' h
      · rw [setJ_job]
        exact D.of rfl (fun j hj => by simp [Net.setJ, Net.setT, hj])
    · have e : n1.settleT u i = n1 := by
        unfold Net.settleT
        rw [hr2]
        cases hv3 : r.2 <;> rw [hv3] at k2 <;> first | rfl | cases k2
      rw [e]
      refine P.whole ?_ (by rw [hjob1]; exact D)
      rw [hjob1]
      refine ⟨fun y hy => hg.rows k y (o2 y hy) trivial, Or.inr ⟨u, hin', ?_, ?_⟩⟩
      · show (n1.tth u i).free = false
        rw [hr2]; exact k2
      · show mode (n1.tth u i) = some c
        rw [hr2]; exact k1
  | idle => rw [hjob] at hj; exact absurd hj hnq
  | inserted => rw [hjob] at hj; exact absurd hj hnq
  | failed => rw [hjob] at hj; exact hj.elim
  | answer k c rows => rw [hjob] at hj; exact absurd hj.1 hnq

/-! ### The entry tree -/

/-- A step in the entry tree that leaves its tuples alone. -/
theorem NInv.entryStep (hc : ColsOK ix M) (I : NInv ix M g v n) {K : Type} [LinearOrder K] {key : Ent V → K} (hk : KeyOf ix.cmp key) {G G' : Ghost}
    {bad : Nat → Prop} {new : Nat → Nat → Prop} {s' : Store (Ent V)} {th : Thread (Ent V)}
    (Y : SysInv True True key true (InnerFit ix) (KeyFit ix) (fun l => l.length ≤ 1) (LeafOK ix) ix.ops rootBlk ⟨n.st.entry, n.eth⟩ G)
    (hP : (∀ w, v = some w → PosOK key n.st.entry G (Dirty ix n.st w.dead) (TreeKey ix n.st.entry) w.pos) ∧ RideOK ix key n.st G v g.r)
    (S : StepCore True key true (InnerFit ix) (KeyFit ix) (LeafOK ix) rootBlk n.st.entry G (n.eth i) s' th G' bad new)
    (hfree : ∀ j, j ≠ i → ∀ w, pending (n.eth j) = some w → visit rootBlk (n.eth i) ≠ some w.child)
    (hm : ∀ y, y ∈ contents s' rootBlk ↔ y ∈ contents n.st.entry rootBlk) {n1 : Net V}
    (hn : n1 = { n with st := { n.st with entry := s' } }.setE i th) :
    Part ix M g v n1 i ∧ Due ix g.T n1 i (n.job i).left ∧ Grow ix (fun _ => True) n.st n1.st := by
  have hst : n1.st = { n.st with entry := s' } := by rw [hn]; rfl
  have H' : EInv False ix s' := ⟨K, _, key, G', hk, S.good, S.bnd (Y.bnd trivial)⟩
  have hrows : ∀ k, ix.rowsOf n1.st k = ix.rowsOf n.st k := fun k => by rw [hst]; exact rows_entry hc I.entry.einv H' hm k
  have hent : n1.st.entry = s' := by rw [hst]
  have hg : Grow ix (fun _ => True) n.st n1.st := ⟨fun k y hy _ => by rw [hrows]; exact hy, fun e he t _ => by rw [hent]; exact (hm e).2 he,
    fun e he => ⟨e, by rw [hent]; exact (hm e).2 he, have := hc.keys; have := cmp_trans ix; ReflCmp.compare_self⟩⟩
  have htth : n1.tth = n.tth := by rw [hn]; rfl
  have heth : n1.eth = fun j => if j = i then th else n.eth j := by rw [hn]; rfl
  obtain ⟨P, D⟩ := I.step (i := i) (n' := n1) (fun hQ => by
      rw [heth]
      exact EV.step hc (st := n.st) (st' := n1.st) hk Y hP (by rw [hent]; exact S) hfree hQ hg) (by
      rw [hent]
      intro e he
      have h := I.tup e ((hm e).1 he)
      refine ⟨h.key, h.list, fun t ht => ?_⟩
      rw [htth, hst]
      exact h.tree t ht) (by
      unfold Inj
      rw [hent]
      intro e he e' he'
      exact I.inj e ((hm e).1 he) e' ((hm e').1 he')) (fun k y hy => Or.inl (by rw [hrows] at hy; exact hy)) hg
    (fun t _ => by rw [hst]) (fun j hj => ⟨by rw [heth]; simp [hj], fun t => by rw [htth], by rw [hn]; rfl⟩)
  exact ⟨P, D, hg⟩

/-- Nobody works in a tree that does not exist yet. -/
theorem NInv.newTree (I : NInv ix M g v n) {t : Nat} (ht : n.st.ntrees ≤ t) (j : Nat) : n.tth t j = .idle := by
  have hin : ∀ {a k u}, InTree ix n.st a (fun t => n.tth t j) k u → n.tth t j = .idle := by
    intro a k u h
    obtain ⟨-, h2, e, h3, h4, -⟩ := h
    have := ((I.tup e h3).tree u h4).1
    exact h2 t (by omega)
  have hj := I.job j
  cases hjob : n.job j with
  | insert l =>
    rw [hjob] at hj
    obtain ⟨-, -, -, k, it, l', -, hw⟩ := hj
    rcases hw with ⟨h, -⟩ | ⟨u, h, -⟩
    · exact h t
    · exact hin h
  | read k c =>
    rw [hjob] at hj
    rcases hj.2 with ⟨h, -⟩ | ⟨u, h, -⟩
    · exact h t
    · exact hin h
  | idle => rw [hjob] at hj; exact hj.2 t
  | inserted => rw [hjob] at hj; exact hj.2 t
  | failed => rw [hjob] at hj; exact hj.elim
  | answer k c rows => rw [hjob] at hj; exact hj.1.2 t

/-- The tree VACUUM is in exists. -/
theorem NInv.vacTree (I : NInv ix M g v n) {t : Nat} (ht : tv v t ≠ none) : t < n.st.ntrees := by
  obtain ⟨⟨dead, us⟩, h⟩ := Option.ne_none_iff_exists'.1 ht
  obtain ⟨ts, nxt, rfl⟩ := tv_some h
  obtain ⟨-, ⟨e, h1, h2⟩, -⟩ := I.clean _ rfl
  exact ((I.tup e h1).tree t h2).1

/-- The tuple of a key is put on its leaf. -/
theorem NInv.putAt (hc : ColsOK ix M) (I : NInv ix M g v n) {k : AttKey V} {it : Item Datum} {l' : List (AttKey V × Item Datum)}
    (hjob : n.job i = .insert ((k, it) :: l')) {b : Nat} {up : List (Nat × Nat)} (heth : n.eth i = .ins [probe k] b up)
    (ht : ∀ t, n.tth t i = .idle) (hfree : ∀ j, j ≠ i → ∀ w, pending (n.eth j) = some w → b ≠ w.child) (hstop : ix.stops n.st.entry k b = true)
    {pre : List (State V)} {e : Ent V} (hB : Built True ix M n.st e.key (ix.rowsOf n.st k) [it] pre e) (hke : ix.cmp (probe k) e = .eq)
    (hold : ∀ e' ∈ contents n.st.entry rootBlk, ix.cmp (probe k) e' = .eq → ∀ t, e'.post ≠ .tree t) :
    NInv ix M g v (ix.putAt n i b up (pre, some e)) := by
  have := hc.keys
  have := cmp_trans ix
  have := hc.infos k.attnum
  have htr : TransCmp (ix.ctx k.attnum).cmp := cmpItem_trans _ _
  have hj := I.job i
  rw [hjob] at hj
  obtain ⟨o1, o2, o3, -⟩ := hj
  obtain ⟨K, hK, key, G, hk, Y, hP⟩ := I.entry
  have hok := Y.ok i
  simp only [heth] at hok
  have hcases := ins_cases (o := ix.ops) (xs := []) hk (locateEntry_ok ix hk) Y.good hok
  have hst := (stops_iff ix _ _ _).1 hstop
  rcases hcases with ⟨hno, -⟩ | ⟨-, A, B, e0, hA, hx, hup⟩
  · exact absurd hst hno
  obtain ⟨v1, v2, v3, G', bad, new, v4⟩ := leafPut_spec (C := True) ix hk Y.good e0 hA hx hup hke hB.fits
  obtain ⟨r, hr⟩ : ∃ r, leafPut ix.ops n.st.entry b up e = r := ⟨_, rfl⟩
  rw [hr] at v1 v2 v3 v4
  have H' : EInv False ix r.1 := ⟨K, _, key, G', hk, v4.good, v4.bnd (Y.bnd trivial)⟩
  have hlt : ∀ e ∈ contents n.st.entry rootBlk, ∀ t, e.post = .tree t → t < n.st.ntrees := fun e he t ht => ((I.tup e he).tree t ht).1
  obtain ⟨hins, hinj⟩ := put_bare hc I.entry.einv hlt I.inj hke rfl hB H' v3
  have hm2 : ∀ y, y ∈ contents r.1 rootBlk ↔ y = e ∨ (y ∈ contents n.st.entry rootBlk ∧ ix.cmp e y ≠ .eq) := by
    intro y; rw [v3]; simp [Upd]
  obtain ⟨n1, hn⟩ : ∃ n1, n1 = ({ n with st := { (lastState n.st pre) with entry := r.1 } } : Net V).setE i r.2 := ⟨_, rfl⟩
  have hst1 : n1.st = { (lastState n.st pre) with entry := r.1 } := by rw [hn]; rfl
  have hent : n1.st.entry = r.1 := by rw [hst1]
  have heth1 : n1.eth = fun j => if j = i then r.2 else n.eth j := by rw [hn]; rfl
  have htth : n1.tth = n.tth := by rw [hn]; rfl
  have hg : Grow ix (fun _ => True) n.st n1.st := by
    rw [hst1]
    refine ⟨fun k' y hy _ => ?_, fun e' he' t ht => (hm2 e').2 (Or.inr ⟨he', fun h => ?_⟩), fun e' he' => ?_⟩
    · by_cases hs : Same ix k' k
      · exact (hins.rows k' hs y).2 (Or.inl hy)
      · rw [hins.other k' hs]; exact hy
    · exact hold e' he' (TransCmp.eq_trans (cmp := ix.cmp) hke h) t ht
    · by_cases h : ix.cmp e e' = .eq
      · exact ⟨e, (hm2 e).2 (Or.inl rfl), OrientedCmp.eq_symm h⟩
      · exact ⟨e', (hm2 e').2 (Or.inr ⟨he', h⟩), ReflCmp.compare_self⟩
  have hmade : Made ix n1.st (k, it) := by
    have hkk : Same ix k k := ReflCmp.compare_self (cmp := ix.cmp) (a := probe k)
    show ∃ y ∈ ix.rowsOf n1.st k, (ix.ctx k.attnum).cmp y it = .eq
    rw [hst1]
    by_cases hin : ∃ y ∈ ix.rowsOf n.st k, (ix.ctx k.attnum).cmp y it = .eq
    · obtain ⟨y, h1, h2⟩ := hin
      exact ⟨y, (hins.rows k hkk y).2 (Or.inl h1), h2⟩
    · refine ⟨it, (hins.rows k hkk it).2 (Or.inr ⟨by simp, fun y hy h => hin ⟨y, hy, h⟩⟩), ReflCmp.compare_self⟩
  have hnew : ∀ k', ∀ y ∈ ix.rowsOf { (lastState n.st pre) with entry := r.1 } k', y ∈ ix.rowsOf n.st k' ∨ ((∀ i, g.A i k' y) ∧ ∃ op ∈ g.T, Same ix op.1 k' ∧ y = op.2) := by
    intro k' y hy
    by_cases hs : Same ix k' k
    · rcases (hins.rows k' hs y).1 hy with h | ⟨h, -⟩
      · exact Or.inl h
      · simp only [List.mem_singleton] at h; subst h
        exact Or.inr ⟨o3 (k, y) (by simp) k' hs, (k, y), o2 _ (by simp), OrientedCmp.eq_symm (cmp := ix.cmp) (a := probe k') (b := probe k) hs, rfl⟩
    · rw [hins.other k' hs] at hy
      exact Or.inl hy
  obtain ⟨P, D⟩ := I.step (i := i) (n' := n1) (fun hQ => by
      rw [heth1]
      refine EV.step hc (st := n.st) (st' := n1.st) (bad := bad) (new := new) (G' := G') hk Y hP (by rw [hent, heth]; exact v4) (fun j hj w hw => ?_) hQ hg
      rw [heth]
      simp only [visit, ne_eq, Option.some.injEq]
      exact hfree j hj w hw) (by
      rw [hent]
      intro e' he'
      rw [htth, hst1]
      rcases (hm2 e').1 he' with rfl | ⟨he', -⟩
      · refine ⟨hB.ok.key, hB.ok.list, fun t htt => ⟨(hB.ok.tree t htt).1, ?_⟩⟩
        have hnt : tv v t = none := by
          by_contra h
          have := I.vacTree h
          have := hB.fresh t htt
          omega
        rw [hnt]
        refine TV.rest (hB.ok.tree t htt).2 (fun j => I.newTree (hB.fresh t htt) j) (fun j y hy => ?_)
        cases j with
        | zero => trivial
        | succ j =>
          intro k' hk'
          have : y ∈ ix.rowsOf { (lastState n.st pre) with entry := r.1 } k' := by
            rw [EInv.rowsOf_eq hc (st := { (lastState n.st pre) with entry := r.1 }) H' (e := e') ((hm2 e').2 (Or.inl rfl)) hk']
            unfold rows
            rw [htt]
            exact hy
          rcases hnew k' y this with h | h
          · exact (I.ok k' y h).1 j
          · exact h.1 j
      · have h := I.tup e' he'
        refine ⟨h.key, h.list, fun t htt => ?_⟩
        obtain ⟨h1, h2⟩ := h.tree t htt
        exact ⟨h1.trans_le hB.last.more, by rw [show ({ (lastState n.st pre) with entry := r.1 } : State V).trees t = n.st.trees t from hB.last.trees t h1]; exact h2⟩)
    (by rw [hst1]; exact hinj) (by rw [hst1]; exact hnew) hg (fun t ht => by rw [hst1]; exact hB.last.trees t (I.vacTree ht))
    (fun j hj => ⟨by rw [heth1]; simp [hj], fun t => by rw [htth], by rw [hn]; rfl⟩)
  rw [hjob] at D
  have hjob1 : n1.job i = .insert ((k, it) :: l') := by rw [hn]; exact hjob
  have heth2 : n1.eth i = r.2 := by rw [heth1]; simp
  have hput : ix.putAt n i b up (pre, some e) = n1.settleE i := by
    unfold Ix.putAt
    simp only [hB.last.entry, hr]
    rw [hn]
  rw [hput]
  rcases v2 with v2 | ⟨w, v2, v5⟩
  · unfold Net.settleE
    rw [heth2, v2]
    exact P.goOn hjob1 (by rw [heth2, v2]; rfl) (fun t => by rw [htth]; exact ht t) o1 o2 o3 hmade D
  · rw [settleE_pending (by rw [heth2]; exact v2)]
    refine P.whole ?_ (by rw [hjob1]; exact D)
    rw [hjob1]
    exact ⟨o1, o2, o3, k, it, l', rfl, Or.inl ⟨fun t => by rw [htth]; exact ht t, Or.inr ⟨w, by rw [heth2]; exact v2, v5, hmade⟩⟩⟩

/-- A descent is on its way. -/
theorem NInv.down (hc : ColsOK ix M) (I : NInv ix M g v n) {k : AttKey V} {b : Nat} {up : List (Nat × Nat)} (heth : n.eth i = .ins [probe k] b up)
    (hfree : ∀ j, j ≠ i → ∀ w, pending (n.eth j) = some w → b ≠ w.child) (hstop : ix.stops n.st.entry k b ≠ true) {r : Store (Ent V) × Thread (Ent V)}
    (hr : act ix.ops (fun _ _ _ => none) rootBlk n.st.entry (n.eth i) = r) {n1 : Net V}
    (hn : n1 = { n with st := { n.st with entry := r.1 } }.setE i r.2) :
    n1.settleE i = n1 ∧ Part ix M g v n1 i ∧ Due ix g.T n1 i (n.job i).left ∧ Grow ix (fun _ => True) n.st n1.st ∧ ∃ p up, n1.eth i = .ins [probe k] p up := by
  have := hc.keys
  obtain ⟨K, hK, key, G, hk, Y, hP⟩ := I.entry
  have hok := Y.ok i
  simp only [heth] at hok
  rcases ins_cases (o := ix.ops) (xs := []) hk (locateEntry_ok ix hk) Y.good hok with ⟨-, b', up', h1, h2⟩ | ⟨h1, -⟩
  · have hr' : r = (n.st.entry, .ins [probe k] b' up') := by rw [← hr, heth]; simp only [act]; exact h1
    obtain ⟨P, D, hg⟩ := I.entryStep hc hk Y hP (by rw [heth, hr']; exact h2.toStepCore) (fun j hj w hw => by
      rw [heth]
      simp only [visit, ne_eq, Option.some.injEq]
      exact hfree j hj w hw) (fun y => by rw [hr']) hn
    have he : n1.eth i = .ins [probe k] b' up' := by rw [hn]; simp [Net.setE, hr']
    refine ⟨?_, P, D, hg, b', up', he⟩
    unfold Net.settleE
    rw [he]
  · exact absurd ((stops_iff ix _ _ _).2 h1) hstop

/-- The search for a parent in the entry tree. -/
theorem NInv.climb (hc : ColsOK ix M) (I : NInv ix M g v n) {k : AttKey V} {it : Item Datum} {l' : List (AttKey V × Item Datum)}
    (hjob : n.job i = .insert ((k, it) :: l')) {w : Pending (Ent V)} (hw : pending (n.eth i) = some w) (hwb : w.batch = [])
    (hmade : Made ix n.st (k, it)) (ht : ∀ t, n.tth t i = .idle)
    (hfree : ∀ j, j ≠ i → ∀ w, pending (n.eth j) = some w → visit rootBlk (n.eth i) ≠ some w.child) {r : Store (Ent V) × Thread (Ent V)}
    (hr : act ix.ops (fun _ _ _ => none) rootBlk n.st.entry (n.eth i) = r) {n1 : Net V}
    (hn : n1 = { n with st := { n.st with entry := r.1 } }.setE i r.2) : NInv ix M g v (n1.settleE i) := by
  have := hc.keys
  have hj := I.job i
  rw [hjob] at hj
  obtain ⟨o1, o2, o3, -⟩ := hj
  obtain ⟨K, hK, key, G, hk, Y, hP⟩ := I.entry
  obtain ⟨G', bad, new, S⟩ := link_act_spec (o := ix.ops) (seek := fun _ _ _ => none) (entryInnerLaws ix) Y.good (th := n.eth i) (by rw [hw]; rfl)
    (Y.ok i) (fun c w' hw' => Y.no_adj c (i := i) hw')
  simp only [hr] at S
  have htodo : todo (n.eth i) = [] := by
    cases hth : n.eth i <;> rw [hth] at hw <;> simp [pending] at hw <;> subst hw <;> exact hwb
  obtain ⟨P, D, hg⟩ := I.entryStep hc hk Y hP S.toStepCore hfree (fun y => ⟨fun h => by
    rcases S.just y h with h | h
    · exact h
    · rw [htodo] at h; simp at h, S.keep y⟩) hn
  rw [hjob] at D
  have hjob1 : n1.job i = .insert ((k, it) :: l') := by rw [hn]; exact hjob
  have htth : n1.tth = n.tth := by rw [hn]; rfl
  have heth2 : n1.eth i = r.2 := by rw [hn]; simp [Net.setE]
  have hkind := pending_kind (o := ix.ops) (seek := fun _ _ _ => none) (root := rootBlk) (s := n.st.entry) hw
  rw [hr, hwb] at hkind
  rcases hkind with h | h | ⟨w', h, h'⟩
  · exact absurd h (S.lost trivial (fun h => by rw [h] at hw; cases hw))
  · unfold Net.settleE
    rw [heth2, h]
    exact P.goOn hjob1 (by rw [heth2, h]; rfl) (fun t => by rw [htth]; exact ht t) o1 o2 o3 (made_grow hg trivial hmade) D
  · rw [settleE_pending (by rw [heth2]; exact h)]
    refine P.whole ?_ (by rw [hjob1]; exact D)
    rw [hjob1]
    exact ⟨o1, o2, o3, k, it, l', rfl, Or.inl ⟨fun t => by rw [htth]; exact ht t, Or.inr ⟨w', by rw [heth2]; exact h, h', made_grow hg trivial hmade⟩⟩⟩

omit [Inhabited V] in
theorem Tuple.plain {st : State V} {tth : Nat → Nat → Thread (Item Datum)} {e : Ent V} (h : Tuple ix M st tth v g e) (hp : ∀ t, e.post ≠ .tree t) :
    EntOK True ix M st e := ⟨h.key, h.list, fun t ht => absurd ht (hp t)⟩

/-- An insertion on the leaf. -/
theorem NInv.leafInsert (hc : ColsOK ix M) (I : NInv ix M g v n) {k : AttKey V} {it : Item Datum} {l' : List (AttKey V × Item Datum)}
    (hjob : n.job i = .insert ((k, it) :: l')) {b : Nat} {up : List (Nat × Nat)} (heth : n.eth i = .ins [probe k] b up)
    (ht : ∀ t, n.tth t i = .idle) (hfree : ∀ j, j ≠ i → ∀ w, pending (n.eth j) = some w → b ≠ w.child) (hstop : ix.stops n.st.entry k b = true) :
    NInv ix M g v (ix.leafInsert n i b up k it) := by
  have := hc.keys
  have := cmp_trans ix
  have hj := I.job i
  rw [hjob] at hj
  obtain ⟨o1, o2, o3, -⟩ := hj
  have hop := o1 (k, it) (by simp)
  have hbat : BatchOK (ix.ctx k.attnum) M [it] := ⟨by simp [SSorted], by simpa using hop.item, fun _ => by simp⟩
  obtain ⟨K, hK, key, G, hk, Y, hP⟩ := I.entry
  have hok := Y.ok i
  simp only [heth] at hok
  have hst := (stops_iff ix _ _ _).1 hstop
  rcases ins_cases (o := ix.ops) (xs := []) hk (locateEntry_ok ix hk) Y.good hok with ⟨hno, -⟩ | ⟨-, A, B, e0, hA, hx, hup⟩
  · exact absurd hst hno
  unfold Ix.leafInsert
  simp only
  rcases leaf_spot hk Y.good.weak e0 hA hx with ⟨off, e, f1, f2, f3, f4⟩ | ⟨off, f1, f2⟩
  · simp only at f1 f2 f3
    rw [f1]
    simp only [if_true, f2]
    have hat : k.attnum = e.key.attnum := same_attnum (ix := ix) f4
    cases hp : e.post with
    | tree t =>
      simp only
      have P1 := (I.part i).setE (a := .idle) (by rw [heth]; rfl) (Or.inl rfl)
      have P2 := P1.setT hc (t := t) (a := .ins [it] 0 []) (by
          have : (n.setE i .idle).tth t i = .idle := ht t
          rw [this]; rfl) f3 hp f4 (Or.inr (Or.inr ⟨it, hop, rfl, o3 (k, it) (by simp)⟩))
      have hjob1 : ((n.setE i .idle).setT t i (.ins [it] 0 [])).job i = .insert ((k, it) :: l') := hjob
      refine P2.whole ?_ ?_
      · rw [hjob1]
        have hown : ((n.setE i .idle).setT t i (.ins [it] 0 [])).tth t i = .ins [it] 0 [] := by simp [Net.setT]
        refine ⟨o1, o2, o3, k, it, l', rfl, Or.inr ⟨t, ⟨by simp [Net.setT, Net.setE], fun u hu => ?_, e, f3, hp, f4⟩, ?_, ?_, Or.inl ?_⟩⟩
        · simp only [Net.setT, hu, false_and, if_false]
          exact ht u
        · simp only [hown]; rfl
        · simp only [hown]; rfl
        · simp only [hown]; rfl
      · rw [hjob1]
        have := I.due' i
        rw [hjob] at this
        exact this.of rfl (fun _ _ => rfl)
    | list d m =>
      simp only
      have h := I.tup e f3
      obtain ⟨pre, x, a1, a2⟩ := addItems_spec (C := True) hc (st := n.st) (old := e) (h.plain (fun t ht => by rw [hp] at ht; cases ht)) hp
        (items := [it]) (by rw [← hat]; exact hbat)
      have hx : ix.cmp (probe k) x = .eq := by unfold Ix.cmp; rw [a2.key]; exact f4
      rw [a1]
      refine I.putAt hc hjob heth ht hfree hstop (by rw [EInv.rowsOf_eq hc I.entry.einv f3 f4, a2.key]; exact a2) hx (fun e' he' h' t htt => ?_)
      rw [EInv.unique hc I.entry.einv he' f3 (TransCmp.eq_trans (cmp := ix.cmp) (OrientedCmp.eq_symm h') f4), hp] at htt
      cases htt
  · simp only at f1
    rw [f1]
    simp only [Bool.false_eq_true, if_false]
    obtain ⟨pre, x, a1, a2⟩ := freshTuple_spec True hc n.st (k := k) hop.key hbat
    rw [a1]
    have hx : ix.cmp (probe k) x = .eq := by
      unfold Ix.cmp; rw [a2.key]; exact ReflCmp.compare_self (cmp := ix.cmp) (a := probe k)
    exact I.putAt hc hjob heth ht hfree hstop (by rw [EInv.rowsOf_none hc I.entry.einv f2, a2.key]; exact a2) hx (fun e' he' h' => absurd h' (f2 e' he'))

/-- A search on the leaf. -/
theorem NInv.leafRead (hc : ColsOK ix M) (I : NInv ix M g v n) {k : AttKey V} {c : Bool}
    (hjob : n.job i = .read k c) {b : Nat} {up : List (Nat × Nat)} (heth : n.eth i = .ins [probe k] b up)
    (ht : ∀ t, n.tth t i = .idle) (hstop : ix.stops n.st.entry k b = true) :
    NInv ix M g v (ix.leafRead n i b k c) := by
  have := hc.keys
  have := cmp_trans ix
  have hj := I.job i
  rw [hjob] at hj
  obtain ⟨o2, -⟩ := hj
  obtain ⟨K, hK, key, G, hk, Y, hP⟩ := I.entry
  have hok := Y.ok i
  simp only [heth] at hok
  have hst := (stops_iff ix _ _ _).1 hstop
  rcases ins_cases (o := ix.ops) (xs := []) hk (locateEntry_ok ix hk) Y.good hok with ⟨hno, -⟩ | ⟨-, A, B, e0, hA, hx, hup⟩
  · exact absurd hst hno
  have P1 := (I.part i).setE (a := .idle) (by rw [heth]; rfl) (Or.inl rfl)
  have hdue := I.due' i
  rw [hjob] at hdue
  have hans : ∀ R, R = ix.rowsOf n.st k → SSorted (ix.ctx k.attnum).cmp R → NInv ix M g v ((n.setE i .idle).setJ i (.answer k c R)) := by
    intro R hR hs
    refine (P1.setJ (.answer k c R)).whole ?_ ?_
    · rw [setJ_job]
      refine ⟨⟨by simp [Net.setJ, Net.setE], fun t => ht t⟩, fun _ y hy => by rw [hR]; exact o2 y hy,
        fun _ => Or.inr (fun y hy => delivered_of_sorted hs (by rw [hR]; exact o2 y hy)), fun y hy => (I.ok k y (hR ▸ hy)).1 i⟩
    · rw [setJ_job]
      exact hdue.of rfl (fun j hj => by simp [Net.setJ, Net.setE, hj])
  unfold Ix.leafRead
  simp only
  rcases leaf_spot hk Y.good.weak e0 hA hx with ⟨off, e, f1, f2, f3, f4⟩ | ⟨off, f1, f2⟩
  · simp only at f1 f2 f3
    rw [f1]
    simp only [if_true, f2]
    have hat : k.attnum = e.key.attnum := same_attnum (ix := ix) f4
    cases hp : e.post with
    | tree t =>
      simp only
      have P2 := P1.setT hc (t := t) (a := if c then .opening 0 else .down 0) (by
          have : (n.setE i .idle).tth t i = .idle := ht t
          rw [this]; rfl) f3 hp f4 (Or.inr (Or.inl ⟨by cases c <;> simp, o2⟩))
      have hjob1 : ((n.setE i .idle).setT t i (if c then .opening 0 else .down 0)).job i = .read k c := hjob
      refine P2.whole ?_ ?_
      · rw [hjob1]
        have hown : ((n.setE i .idle).setT t i (if c then .opening 0 else .down 0)).tth t i = if c then .opening 0 else .down 0 := by
          simp [Net.setT]
        refine ⟨o2, Or.inr ⟨t, ⟨by simp [Net.setT, Net.setE], fun u hu => ?_, e, f3, hp, f4⟩, ?_, ?_⟩⟩
        · simp only [Net.setT, hu, false_and, if_false]
          exact ht u
        · simp only [hown]; cases c <;> rfl
        · simp only [hown]; cases c <;> rfl
      · rw [hjob1]
        exact hdue.of rfl (fun _ _ => rfl)
    | list d m =>
      simp only
      have hr : ix.readTuple e = ix.rowsOf n.st k := by
        rw [EInv.rowsOf_eq hc I.entry.einv f3 f4]; unfold rows; rw [hp]
      refine hans _ hr ?_
      rw [hr, EInv.rowsOf_eq hc I.entry.einv f3 f4, hat]
      exact ((I.tup e f3).plain (fun t ht => by rw [hp] at ht; cases ht)).rows_sorted hc
  · simp only at f1
    rw [f1]
    simp only [Bool.false_eq_true, if_false]
    exact hans [] (EInv.rowsOf_none hc I.entry.einv f2).symm (by simp [SSorted])

/-- **A visit to a page of the entry tree.** -/
theorem NInv.visitEntry (hc : ColsOK ix M) (I : NInv ix M g v n) (hb : n.eth i ≠ .idle)
    (hl : ∀ j, j ≠ i → ∀ c, holds (n.eth j) = some c → c ∉ ix.needsE n i) : NInv ix M g v (ix.visitEntry n i) := by
  have hfree : ∀ j, j ≠ i → ∀ w, pending (n.eth j) = some w → visit rootBlk (n.eth i) ≠ some w.child := by
    intro j hj w hw hv
    refine hl j hj w.child (by rw [holds_eq, hw]; rfl) ?_
    unfold Ix.needsE
    rw [hv]
    simp
  have hj := I.job i
  obtain ⟨r, hr⟩ : ∃ r, act ix.ops (fun _ _ _ => none) rootBlk n.st.entry (n.eth i) = r := ⟨_, rfl⟩
  unfold Ix.visitEntry
  simp only [hr]
  cases hjob : n.job i with
  | insert l =>
    rw [hjob] at hj
    obtain ⟨o1, o2, o3, k, it, l', rfl, hw⟩ := hj
    rcases hw with ⟨ht, ⟨p, up, heth⟩ | ⟨w, w1, w2, w3⟩⟩ | ⟨t, hin, -⟩
    · rw [heth] at hfree
      simp only [visit, ne_eq, Option.some.injEq] at hfree
      rw [heth]
      simp only
      split
      · next hs => exact I.leafInsert hc hjob heth ht hfree hs
      · next hs =>
        obtain ⟨h1, P, D, hg, p', up', h2⟩ := I.down hc heth hfree hs hr rfl
        rw [h1]
        rw [hjob] at D
        refine P.whole ?_ ?_
        · have : ((({ n with st := { n.st with entry := r.1 } } : Net V).setE i r.2)).job i = .insert ((k, it) :: l') := hjob
          rw [this]
          exact ⟨o1, o2, o3, k, it, l', rfl, Or.inl ⟨ht, Or.inl ⟨p', up', h2⟩⟩⟩
        · have : ((({ n with st := { n.st with entry := r.1 } } : Net V).setE i r.2)).job i = .insert ((k, it) :: l') := hjob
          rw [this]; exact D
    · have := I.climb hc hjob w1 w2 w3 ht hfree hr rfl
      cases hth : n.eth i <;> rw [hth] at w1 <;> first | exact this | simp [pending] at w1
    · exact absurd hin.1 hb
  | read k c =>
    rw [hjob] at hj
    obtain ⟨o2, hw⟩ := hj
    rcases hw with ⟨ht, p, up, heth⟩ | ⟨t, hin, -⟩
    · rw [heth] at hfree
      simp only [visit, ne_eq, Option.some.injEq] at hfree
      rw [heth]
      simp only
      split
      · next hs => exact I.leafRead hc hjob heth ht hs
      · next hs =>
        obtain ⟨h1, P, D, hg, p', up', h2⟩ := I.down hc heth hfree hs hr rfl
        rw [h1]
        rw [hjob] at D
        have hjob1 : ((({ n with st := { n.st with entry := r.1 } } : Net V).setE i r.2)).job i = .read k c := hjob
        refine P.whole ?_ ?_
        · rw [hjob1]
          exact ⟨fun y hy => hg.rows k y (o2 y hy) trivial, Or.inl ⟨ht, p', up', h2⟩⟩
        · rw [hjob1]; exact D
    · exact absurd hin.1 hb
  | idle => rw [hjob] at hj; exact absurd hj.1 hb
  | inserted => rw [hjob] at hj; exact absurd hj.1 hb
  | failed => rw [hjob] at hj; exact hj.elim
  | answer k c rows => rw [hjob] at hj; exact absurd hj.1.1 hb

end Rum.Index.VC

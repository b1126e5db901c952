import Verif.IndexConcInv
/-
Every step keeps the invariant of the index and its backends. Proof apparatus.
-/
namespace Rum.Tree
open Rum Rum.Entry Rum.Index

variable {α : Type} {o : Ops α} {seek : List α → Option α → α → Option (List α)} {root : Nat} {s : Store α}

theorem link_kind (w : Pending α) (b off : Nat) (up : List (Nat × Nat)) :
    (link o root s w b off up).2 = again root w.batch ∨ ∃ w', pending (link o root s w b off up).2 = some w' ∧ w'.batch = w.batch := by
  unfold link
  simp only
  split
  · exact Or.inl rfl
  · split
    · exact Or.inl rfl
    · exact Or.inr ⟨_, rfl, rfl⟩

/-- What becomes of the search for a parent. -/
theorem pending_kind {th : Thread α} {w : Pending α} (hw : pending th = some w) :
    (act o seek root s th).2 = .lost ∨ (act o seek root s th).2 = again root w.batch ∨
      ∃ w', pending (act o seek root s th).2 = some w' ∧ w'.batch = w.batch := by
  cases th <;> simp only [pending, Option.some.injEq, reduceCtorEq] at hw <;> subst hw <;> simp only [act]
  · split
    · exact Or.inr (link_kind _ _ _ _)
    · split <;> exact Or.inr (Or.inr ⟨_, rfl, rfl⟩)
  · split
    · exact Or.inr (link_kind _ _ _ _)
    · split
      · exact Or.inr (Or.inr ⟨_, rfl, rfl⟩)
      · exact Or.inl rfl
  · split
    · exact Or.inl rfl
    · split
      · exact Or.inr (link_kind _ _ _ _)
      · split
        · exact Or.inr (Or.inr ⟨_, rfl, rfl⟩)
        · exact Or.inr (Or.inr ⟨_, rfl, rfl⟩)
        · exact Or.inl rfl

theorem again_mode (l : List α) : mode (again root l) = none := by cases l <;> rfl
theorem pending_mode {th : Thread α} {w : Pending α} (h : pending th = some w) : mode th = none ∧ th.free = false := by
  cases th <;> simp_all [pending, mode, Thread.free]
theorem again_free (l : List α) : again root l = .inserted ∨ (again root l).free = false := by cases l <;> simp [again, Thread.free]

theorem ins_kind (x : α) (xs : List α) (b : Nat) (up : List (Nat × Nat)) :
    mode (actIns o root s x xs b up).2 = none ∧ ((actIns o root s x xs b up).2 = .inserted ∨ (actIns o root s x xs b up).2 = .lost ∨
      (actIns o root s x xs b up).2.free = false) := by
  have ha : ∀ l : List α, mode (again root l) = none ∧ (again root l = .inserted ∨ again root l = .lost ∨ (again root l).free = false) :=
    fun l => ⟨again_mode l, (again_free l).imp id Or.inr⟩
  unfold actIns
  simp only
  repeat' split
  all_goals first
    | exact ha _
    | exact ⟨rfl, Or.inr (Or.inl rfl)⟩
    | exact ⟨rfl, Or.inr (Or.inr rfl)⟩

/-- An insertion remains one. -/
theorem act_ins {th : Thread α} (h : th.free = false) (hm : mode th = none) :
    mode (act o seek root s th).2 = none ∧ ((act o seek root s th).2 = .inserted ∨ (act o seek root s th).2 = .lost ∨
      (act o seek root s th).2.free = false) := by
  have hp : ∀ {w}, pending th = some w → mode (act o seek root s th).2 = none ∧ ((act o seek root s th).2 = .inserted ∨
      (act o seek root s th).2 = .lost ∨ (act o seek root s th).2.free = false) := by
    intro w hw
    rcases pending_kind (o := o) (seek := seek) (root := root) (s := s) hw with e | e | ⟨w', e, -⟩
    · rw [e]; exact ⟨rfl, Or.inr (Or.inl rfl)⟩
    · rw [e]; exact ⟨again_mode _, (again_free _).imp id Or.inr⟩
    · exact ⟨(pending_mode e).1, Or.inr (Or.inr (pending_mode e).2)⟩
  cases th with
  | ins l b up =>
    cases l with
    | nil => exact ⟨rfl, Or.inr (Or.inr rfl)⟩
    | cons x xs => simp only [act]; exact ins_kind x xs b up
  | walk w p off up => exact hp rfl
  | top w => exact hp rfl
  | level w p lm => exact hp rfl
  | _ => simp [mode, Thread.free] at h hm

/-- The end of a search. -/
def finish (c : Bool) (acc : List α) : Thread α := match c with
  | true => .ended acc
  | false => .scanned acc

/-- A search remains one. -/
theorem act_read {th : Thread α} {c : Bool} (h : th.free = false) (hm : mode th = some c) :
    mode (act o seek root s th).2 = some c ∧ ((∃ acc, (act o seek root s th).2 = finish c acc) ∨
      (act o seek root s th).2.free = false) := by
  cases th <;> simp only [mode, Thread.free, Option.some.injEq, reduceCtorEq] at h hm
  · subst hm
    simp only [act, actScan]
    repeat' split
    all_goals first
      | exact ⟨rfl, Or.inr rfl⟩
      | exact ⟨rfl, Or.inl ⟨_, rfl⟩⟩
  · subst hm
    simp only [act, actScan]
    repeat' split
    all_goals first
      | exact ⟨rfl, Or.inr rfl⟩
      | exact ⟨rfl, Or.inl ⟨_, rfl⟩⟩
  · subst hm
    simp only [act]
    repeat' split
    all_goals first
      | exact ⟨rfl, Or.inr rfl⟩
      | exact ⟨rfl, Or.inl ⟨_, rfl⟩⟩
  · subst hm
    rename_i b l cur acc
    cases l <;> simp only [act]
    all_goals repeat' split
    all_goals first
      | exact ⟨rfl, Or.inr rfl⟩
      | exact ⟨rfl, Or.inl ⟨_, rfl⟩⟩
  · subst hm
    simp only [act]
    split <;> exact ⟨rfl, Or.inr rfl⟩

theorem mode_todo {th : Thread α} {c : Bool} (h : mode th = some c) : todo th = [] := by
  cases th <;> simp_all [mode, todo]

end Rum.Tree

namespace Rum.Index
open Rum Rum.Codec Rum.Leaf Rum.Entry Rum.Tree Rum.Props Rum.Props.PostingTree Rum.Props.Conc Std

variable {V : Type} {C : Prop} {ix : Ix V} [Inhabited V] {M : Lim} {g : Gh V} {n : Net V} {i : Nat}

omit [Inhabited V] in
theorem delivered_of_sorted {cmp : Item Datum → Item Datum → Ordering} {l : List (Item Datum)} (hs : SSorted cmp l) {y : Item Datum} (hy : y ∈ l) :
    Delivered cmp l y := by
  obtain ⟨u, v, rfl⟩ := List.append_of_mem hy
  exact ⟨u, v, rfl, fun a ha => (List.pairwise_append.1 hs).2.2 a ha y (by simp)⟩

omit [Inhabited V] in
/-- One step in a posting tree, before its outcome is looked at. -/
theorem TSys.act (hc : ColsOK ix M) {a : Nat} {s : Store (Item Datum)} {th : Nat → Thread (Item Datum)} {S : Nat → List (Item Datum)}
    (h : TSys C (ix.ctx a) M ix.build s th S) (hS : (mode (th i)).isSome → ∀ y ∈ S i, y ∈ contents s 0)
    (hcur : mode (th i) = some true → M.single = false) (hb : (th i).free = false)
    (hl : ∀ j, j ≠ i → ∀ c, holds (th j) = some c → c ∉ needs (ix.treeOps a) (seekData (ix.ctx a)) 0 s (th i))
    {v : Store (Item Datum) × Thread (Item Datum)} (hv : Tree.act (ix.treeOps a) (seekData (ix.ctx a)) 0 s (th i) = v) :
    TSys C (ix.ctx a) M ix.build v.1 (fun j => if j = i then v.2 else th j) S ∧
    (∀ y ∈ contents s 0, y ∈ contents v.1 0) ∧ (∀ y ∈ contents v.1 0, y ∈ contents s 0 ∨ y ∈ todo (th i)) ∧
    (v.2 ≠ .lost → ∀ y ∈ todo (th i), y ∈ todo v.2 ∨ ∃ z ∈ contents v.1 0, (ix.ctx a).cmp z y = .eq) ∧
    (∃ m, todo v.2 = (todo (th i)).drop m) ∧ (C → v.2 ≠ .lost) ∧
    ∀ c acc, v.2 = finish c acc → (∀ y ∈ S i, Delivered (ix.ctx a).cmp acc y) ∧ (∀ y ∈ acc, y ∈ contents v.1 0) ∧
      (c = false → SSorted (ix.ctx a).cmp acc) := by
  have := hc.infos a
  have hz := hc.sizes a
  obtain ⟨K, hK, key, G, hk, I, hR⟩ := h
  have hone : M.single = false ∨ ∀ l, BatchIn (ix.ctx a) M l → l.length ≤ 1 := by
    cases hs : M.single with
    | false => exact Or.inl rfl
    | true => exact Or.inr (fun l hl => hl.2 hs)
  obtain ⟨G', bad, new, S1, I1, ho⟩ := SysInv.acts (o := dataOps (ix.ctx a) dataCap innerCap ix.build) (seek := seekData (ix.ctx a))
    (z := ⟨v.1, fun j => if j = i then v.2 else th j⟩) hk (locateData_ok hk rfl)
    (dataInnerLaws (ix.ctx a) dataCap innerCap ix.build hz.inner)
    (dataLeafLaws (ix.ctx a) dataCap innerCap M ix.build hz.leaf hz.align hz.padded) hone I (i := i) ⟨hl, by
      rw [← hv]; rfl⟩
  simp only [if_true] at S1
  have hnf : th i ≠ .lost := by
    intro h; rw [h] at hb; simp [Thread.free] at hb
  have hown : (mode (th i)).isSome → ReadOK key (dataOps (ix.ctx a) dataCap innerCap ix.build) 0 v.1 G' (S i) v.2 := by
    intro hm
    have hop : ∀ b, th i = .opening b → BoundIn key (leafs key s G) := by
      intro b hb
      exact I.bnd (hcur (by rw [hb]; rfl))
    obtain ⟨r1, r2⟩ := ReadOK.act (o := dataOps (ix.ctx a) dataCap innerCap ix.build) (POK := FitsPage (ix.ctx a) M dataCap) hk seek_law I.good
      (hS hm) hop (hR i hm)
    have hv1 : v.1 = s := by rw [← hv]; exact r1
    have hM := S1.moved
    have hW := I1.good.weak
    simp only [hv1] at hM hW ⊢
    refine ReadOK.moved (o := dataOps (ix.ctx a) dataCap innerCap ix.build) I.good.weak hW hM (fun a h => h) ?_
    rw [← hv]
    exact r2
  have hmode : mode v.2 = mode (th i) := by
    rw [← hv]
    cases hm : mode (th i) with
    | none => exact (act_ins hb hm).1
    | some c => exact (act_read hb hm).1
  refine ⟨⟨K, hK, key, G', hk, I1, fun j hj => ?_⟩, S1.keep, S1.just, S1.made, S1.rest, fun c => S1.lost c hnf, fun c acc hfin => ?_⟩
  · by_cases hji : j = i
    · subst hji
      simp only [if_true] at hj ⊢
      exact hown (hmode ▸ hj)
    · simp only [if_neg hji] at hj ⊢
      exact ReadOK.moved (o := dataOps (ix.ctx a) dataCap innerCap ix.build) I.good.weak I1.good.weak S1.moved S1.keep (hR j hj)
  · have h := hown (by rw [← hmode, hfin]; cases c <;> rfl)
    rw [hfin] at h
    cases c with
    | false => exact ⟨fun y hy => delivered_of_sorted h.2.1 (h.1 y hy), h.2.2, fun _ => h.2.1⟩
    | true => exact ⟨h.2, h.1, fun h => by cases h⟩

/-- A visit to a page of a posting tree. -/
theorem NInv.treeStep (hc : ColsOK ix M) (I : NInv C ix M g n) {t : Nat} {k : AttKey V} (hb : (n.tth t i).free = false)
    (hin : InTree ix n.st (n.eth i) (fun t => n.tth t i) k t) 
    (hl : ∀ j, j ≠ i → ∀ c, holds (n.tth t j) = some c →
      c ∉ needs (ix.treeOps k.attnum) (seekData (ix.ctx k.attnum)) 0 (n.st.trees t) (n.tth t i))
    (hS : (mode (n.tth t i)).isSome → ∀ y ∈ g.S i, y ∈ ix.rowsOf n.st k) (hcur : mode (n.tth t i) = some true → M.single = false)
    (hA : ∀ it ∈ todo (n.tth t i), ∀ k', Same ix k' k → g.A k' it)
    {v : Store (Item Datum) × Thread (Item Datum)}
    (hv : Tree.act (ix.treeOps k.attnum) (seekData (ix.ctx k.attnum)) 0 (n.st.trees t) (n.tth t i) = v) {n1 : Net V}
    (hn : n1 = { n with st := n.st.setTree t v.1 }.setT t i v.2) :
    Part C ix M g n1 i ∧ Due C ix g.T n1 i (n.job i).left ∧ Grow ix n.st n1.st ∧ InTree ix n1.st (n1.eth i) (fun t => n1.tth t i) k t ∧
    (v.2 ≠ .lost → ∀ y ∈ todo (n.tth t i), y ∈ todo v.2 ∨ Made ix n1.st (k, y)) ∧
    (∃ m, todo v.2 = (todo (n.tth t i)).drop m) ∧ (C → v.2 ≠ .lost) ∧
    ∀ c acc, v.2 = finish c acc → (∀ y ∈ g.S i, Delivered (ix.ctx k.attnum).cmp acc y) ∧ (∀ y ∈ acc, y ∈ ix.rowsOf n1.st k) ∧
      (c = false → SSorted (ix.ctx k.attnum).cmp acc) := by
  have := hc.keys
  have := cmp_trans ix
  obtain ⟨h1, h2, e, he, hp, hke⟩ := hin
  have hat : k.attnum = e.key.attnum := same_attnum (ix := ix) hke
  have hrk : ix.rowsOf n.st k = contents (n.st.trees t) 0 := by
    rw [I.inv.rowsOf_eq hc he hke]; unfold rows; rw [hp]
  have hT := ((I.tup e he).tree t hp).2
  rw [← hat] at hT
  obtain ⟨T1, T2, T3, T4, T5, T6, T7⟩ := TSys.act (i := i) hc hT (fun h y hy => by rw [← hrk]; exact hS h y hy) hcur hb hl hv
  have hTI : TInv False (ix.ctx e.key.attnum) dataCap innerCap M v.1 0 := by rw [← hat]; exact T1.inv
  have hown : ∀ k', Same ix k' k → ix.rowsOf (n.st.setTree t v.1) k' = contents v.1 0 := fun k' hs => setTree_rows hc I.inv he hp hTI hke hs
  have hoth : ∀ k', ¬ Same ix k' k → ix.rowsOf (n.st.setTree t v.1) k' = ix.rowsOf n.st k' := fun k' hs => setTree_other hc I.inv he hp hTI hke hs
  have hkk : Same ix k k := ReflCmp.compare_self (cmp := ix.cmp) (a := probe k)
  have hst : n1.st = n.st.setTree t v.1 := by rw [hn]; rfl
  have hgrow : Grow ix n.st n1.st := by
    rw [hst]
    refine ⟨fun k' y hy => ?_, fun e he t _ => he⟩
    by_cases hs : Same ix k' k
    · rw [hown k' hs]
      rw [I.inv.rowsOf_same hc hs, hrk] at hy
      exact T2 y hy
    · rw [hoth k' hs]; exact hy
  have hent : n1.st.entry = n.st.entry := by rw [hst]; rfl
  have heth : n1.eth = n.eth := by rw [hn]; rfl
  have htth : ∀ u j, n1.tth u j = if u = t ∧ j = i then v.2 else n.tth u j := by intro u j; rw [hn]; rfl
  have hnt : n1.st.ntrees = n.st.ntrees := by rw [hst]; rfl
  have htr : ∀ u, n1.st.trees u = if u = t then v.1 else n.st.trees u := by intro u; rw [hst]; rfl
  obtain ⟨P, D⟩ := I.step (i := i) (n' := n1) (by rw [hent, heth]; exact I.entry) (by
      rw [hent]
      intro e' he'
      have h := I.tup e' he'
      refine ⟨h.key, h.list, fun u hu => ⟨by rw [hnt]; exact (h.tree u hu).1, ?_⟩⟩
      by_cases hut : u = t
      · subst hut
        obtain rfl := I.inj e' he' e he u hu hp
        have e1 : n1.tth u = fun j => if j = i then v.2 else n.tth u j := by
          funext j; rw [htth]; simp
        rw [e1, htr, if_pos rfl, ← hat]
        exact T1
      · have e1 : n1.tth u = n.tth u := by
          funext j; rw [htth, if_neg (fun h => hut h.1)]
        rw [e1, htr, if_neg hut]
        exact (h.tree u hu).2)
    (by rw [hent]; exact I.inj) (by
      rw [hst]
      intro k' y hy
      by_cases hs : Same ix k' k
      · rw [hown k' hs] at hy
        rcases T3 y hy with h | h
        · exact I.allowed k' y (by rw [I.inv.rowsOf_same hc hs, hrk]; exact h)
        · exact hA y h k' hs
      · rw [hoth k' hs] at hy
        exact I.allowed k' y hy) hgrow (fun j hj => ⟨by rw [heth], fun u => by rw [htth, if_neg (fun h => hj h.2)], by rw [hn]; rfl⟩)
  refine ⟨P, D, hgrow, ⟨by rw [heth]; exact h1, fun u hu => by
      show n1.tth u i = _
      rw [htth, if_neg (fun h => hu h.1)]; exact h2 u hu, e, by rw [hent]; exact he, hp, hke⟩, fun hv y hy => ?_, T5, T6, fun c acc hf => ?_⟩
  · rcases T4 hv y hy with h | ⟨z, h1, h2⟩
    · exact Or.inl h
    · exact Or.inr ⟨z, by rw [hst]; show z ∈ ix.rowsOf _ k; rw [hown k hkk]; exact h1, h2⟩
  · obtain ⟨f1, f2, f3⟩ := T7 c acc hf
    exact ⟨f1, fun y hy => by rw [hst, hown k hkk]; exact f2 y hy, f3⟩

theorem Part.goOn (P : Part C ix M g n i) {k : AttKey V} {it : Item Datum} {l : List (AttKey V × Item Datum)} (hj : n.job i = .insert ((k, it) :: l))
    (hp : C → pending (n.eth i) = none) (ht : ∀ t, n.tth t i = .idle) (h1 : ∀ op ∈ (k, it) :: l, EntryOK ix M op)
    (h2 : ∀ op ∈ (k, it) :: l, ∀ k', Same ix k' op.1 → g.A k' op.2) (h3 : ∀ op ∈ g.W i, op ∈ (k, it) :: l ∨ Made ix n.st op)
    (hm : Made ix n.st (k, it)) (hd : Due C ix g.T n i ((k, it) :: l)) : NInv C ix M g (n.goOn i) := by
  unfold Net.goOn
  rw [hj]
  refine P.next hp ht (fun op h => h1 op (by simp [h])) (fun op h => h2 op (by simp [h])) (fun op h => ?_) (fun c op h => ?_)
  · rcases h3 op h with h | h
    · rcases List.mem_cons.1 h with rfl | h
      · exact Or.inr hm
      · exact Or.inl h
    · exact Or.inr h
  · rcases hd c op h with h | h | h
    · exact Or.inl h
    · rcases List.mem_cons.1 h with rfl | h
      · exact Or.inl hm
      · exact Or.inr (Or.inl h)
    · exact Or.inr (Or.inr h)

theorem pending_of_mode {α : Type} {th : Thread α} (h : (mode th).isSome) : pending th = none := by
  cases th <;> simp_all [mode, pending]

/-- **A visit to a page of a posting tree.** -/
theorem NInv.visitTree (hc : ColsOK ix M) (I : NInv C ix M g n) {t : Nat} (hb : (n.tth t i).free = false)
    (hl : ∀ j, j ≠ i → ∀ c, holds (n.tth t j) = some c → c ∉ ix.needsT n t i) : NInv C ix M g (ix.visitTree n t i) := by
  have hnq : ∀ {a : Thread (Ent V)}, ¬ Quiet a (fun t => n.tth t i) := by
    intro a h
    rw [show n.tth t i = .idle from h.2 t] at hb
    cases hb
  have hni : n.tth t i ≠ .idle := by intro h; rw [h] at hb; cases hb
  have hj := I.job i
  unfold Ix.visitTree
  unfold Ix.needsT at hl
  cases hjob : n.job i with
  | insert l =>
    rw [hjob] at hj hl
    obtain ⟨o1, o2, o3, k, it, l', rfl, hw⟩ := hj
    simp only [Job.attnum] at hl ⊢
    rcases hw with ⟨h, -⟩ | ⟨u, hin, w1, w2, w3⟩
    · exact absurd (h t) hni
    obtain rfl : u = t := by
      by_contra hne
      exact hni (hin.2.1 t (fun h => hne h.symm))
    obtain ⟨v, hv⟩ : ∃ v, Tree.act (ix.treeOps k.attnum) (seekData (ix.ctx k.attnum)) 0 (n.st.trees u) (n.tth u i) = v := ⟨_, rfl⟩
    rw [hv]
    obtain ⟨n1, hn⟩ : ∃ n1, n1 = ({ n with st := n.st.setTree u v.1 } : Net V).setT u i v.2 := ⟨_, rfl⟩
    obtain ⟨P, D, hg, hin', T1, ⟨m, T2⟩, T3, -⟩ := I.treeStep hc w1 hin hl (fun h => by rw [w2] at h; cases h) (fun h => by rw [w2] at h; cases h)
      (fun y hy => by
        rcases w3 with w3 | ⟨w3, -⟩ <;> rw [w3] at hy
        · simp only [List.mem_singleton] at hy; subst hy; exact o2 (k, y) (by simp)
        · simp at hy) hv hn
    rw [hjob] at D
    have hk := act_ins (o := ix.treeOps k.attnum) (seek := seekData (ix.ctx k.attnum)) (root := 0) (s := n.st.trees u) w1 w2
    rw [hv] at hk
    have hv2 : n1.tth u i = v.2 := by rw [hn]; simp [Net.setT]
    have hjob1 : n1.job i = .insert ((k, it) :: l') := by rw [hn]; exact hjob
    have o3' : ∀ op ∈ g.W i, op ∈ (k, it) :: l' ∨ Made ix n1.st op := fun op h => (o3 op h).imp id (fun m => m.grow hg)
    have hmade : v.2 ≠ .lost → todo v.2 = [] → Made ix n1.st (k, it) := by
      intro h1 h2
      rcases w3 with w3 | ⟨-, w3⟩
      · rcases T1 h1 it (by rw [w3]; simp) with h | h
        · rw [h2] at h; simp at h
        · exact h
      · exact w3.grow hg
    rw [← hn]
    unfold Net.settleT
    rw [hv2]
    rcases hk with ⟨k1, k2 | k2 | k2⟩
    · rw [k2]
      simp only
      have P' := P.setT (t := u) (a := .idle) (fun _ => by rw [hv2, k2]; rfl) (Or.inl rfl)
      have hst : (n1.setT u i .idle).st = n1.st := rfl
      refine P'.goOn (l := l') hjob1 (fun _ => by
          have : (n1.setT u i .idle).eth i = .idle := hin'.1
          rw [this]; rfl) (fun t' => ?_) o1 o2 o3' (hmade (by rw [k2]; simp) (by rw [k2]; rfl)) (D.of rfl (fun _ _ => rfl))
      simp only [Net.setT, and_true]
      split
      · rfl
      · next h => exact hin'.2.1 t' h
    · rw [k2]
      exact P.fail (fun c => T3 c k2)
    · have e : n1.settleT u i = n1 := by
        unfold Net.settleT
        rw [hv2]
        cases hv3 : v.2 <;> rw [hv3] at k2 <;> first | rfl | cases k2
      have e' := e
      unfold Net.settleT at e'
      rw [hv2] at e'
      rw [e']
      refine P.whole ?_ (by rw [hjob1]; exact D)
      rw [hjob1]
      refine ⟨o1, o2, o3', k, it, l', rfl, Or.inr ⟨u, hin', ?_, ?_, ?_⟩⟩
      · show (n1.tth u i).free = false
        rw [hv2]; exact k2
      · show mode (n1.tth u i) = none
        rw [hv2]; exact k1
      · show todo (n1.tth u i) = [it] ∨ todo (n1.tth u i) = [] ∧ _
        rw [hv2]
        have hl' : v.2 ≠ .lost := by intro h; rw [h] at k2; cases k2
        rcases w3 with w3 | ⟨w3, -⟩ <;> rw [w3] at T2
        · cases m with
          | zero => exact Or.inl T2
          | succ m => exact Or.inr ⟨by simpa using T2, hmade hl' (by simpa using T2)⟩
        · exact Or.inr ⟨by simpa using T2, hmade hl' (by simpa using T2)⟩
  | read k c =>
    rw [hjob] at hj hl
    obtain ⟨o1, o2, hw⟩ := hj
    simp only [Job.attnum] at hl ⊢
    rcases hw with ⟨h, -⟩ | ⟨u, hin, w1, w2⟩
    · exact absurd (h t) hni
    obtain rfl : u = t := by
      by_contra hne
      exact hni (hin.2.1 t (fun h => hne h.symm))
    obtain ⟨v, hv⟩ : ∃ v, Tree.act (ix.treeOps k.attnum) (seekData (ix.ctx k.attnum)) 0 (n.st.trees u) (n.tth u i) = v := ⟨_, rfl⟩
    rw [hv]
    obtain ⟨n1, hn⟩ : ∃ n1, n1 = ({ n with st := n.st.setTree u v.1 } : Net V).setT u i v.2 := ⟨_, rfl⟩
    obtain ⟨P, D, hg, hin', T1, ⟨m, T2⟩, T3, T4⟩ := I.treeStep hc w1 hin hl (fun _ => o2) (fun h => by
        have w2' : mode (n.tth u i) = some c := w2
        rw [w2'] at h; exact o1 (by simpa using h))
      (fun y hy => by rw [mode_todo (th := n.tth u i) w2] at hy; simp at hy) hv hn
    rw [hjob] at D
    have hk := act_read (o := ix.treeOps k.attnum) (seek := seekData (ix.ctx k.attnum)) (root := 0) (s := n.st.trees u) w1 w2
    rw [hv] at hk
    have hv2 : n1.tth u i = v.2 := by rw [hn]; simp [Net.setT]
    have hjob1 : n1.job i = .read k c := by rw [hn]; exact hjob
    rw [← hn]
    rcases hk with ⟨k1, ⟨acc, k2⟩ | k2⟩
    · have e : n1.settleT u i = (n1.setT u i .idle).setJ i (.answer k c acc) := by
        unfold Net.settleT
        rw [hv2, k2, hjob1]
        cases c <;> rfl
      rw [e]
      have P' := (P.setT (t := u) (a := .idle) (fun _ => by rw [hv2]; exact pending_of_mode (by rw [k1]; rfl)) (Or.inl rfl)).setJ (.answer k c acc)
      refine P'.whole ?_ ?_
      · rw [setJ_job]
        obtain ⟨f1, f2, f3⟩ := T4 c acc k2
        refine ⟨⟨hin'.1, fun t' => ?_⟩, f1, f2, f3⟩
        simp only [Net.setJ, Net.setT, and_true]
        split
        · rfl
        · next h => exact hin'.2.1 t' h
      · rw [setJ_job]
        exact D.of rfl (fun j hj => by simp [Net.setJ, Net.setT, hj])
    · have e : n1.settleT u i = n1 := by
        unfold Net.settleT
        rw [hv2]
        cases hv3 : v.2 <;> rw [hv3] at k2 <;> first | rfl | cases k2
      rw [e]
      refine P.whole ?_ (by rw [hjob1]; exact D)
      rw [hjob1]
      refine ⟨o1, fun y hy => hg.rows k y (o2 y hy), Or.inr ⟨u, hin', ?_, ?_⟩⟩
      · show (n1.tth u i).free = false
        rw [hv2]; exact k2
      · show mode (n1.tth u i) = some c
        rw [hv2]; exact k1
  | idle => rw [hjob] at hj; exact absurd hj hnq
  | inserted => rw [hjob] at hj; exact absurd hj.1 hnq
  | failed => rw [hjob] at hj; exact absurd hj.1 hnq
  | answer k c rows => rw [hjob] at hj; exact absurd hj.1 hnq

/-! ### The entry tree -/

theorem TInv.imp {D : Prop} (h : C → D) {x : Ctx} {cap capI : Nat} {s : Store (Item Datum)} {root : Nat} (hT : TInv D x cap capI M s root) :
    TInv C x cap capI M s root := by
  obtain ⟨K, hK, key, G, hk, hG, hB⟩ := hT
  exact ⟨K, hK, key, G, hk, ⟨hG.weak, fun c => hG.complete (h c), hG.sized, hG.fit⟩, hB⟩

theorem rows_entry (hc : ColsOK ix M) {st : State V} {s' : Store (Ent V)} (H : EInv False ix st.entry) (H' : EInv False ix s')
    (hm : ∀ y, y ∈ contents s' rootBlk ↔ y ∈ contents st.entry rootBlk) (k : AttKey V) : ix.rowsOf { st with entry := s' } k = ix.rowsOf st k := by
  rcases EInv.rowsOf hc H k with ⟨e, h1, h2, h3⟩ | ⟨h1, h3⟩
  · rw [h3, EInv.rowsOf_eq hc (st := { st with entry := s' }) H' ((hm e).2 h1) h2]
    unfold rows
    cases e.post <;> rfl
  · rw [h3, EInv.rowsOf_none hc (st := { st with entry := s' }) H' (fun e he => h1 e ((hm e).1 he))]

/-- What the search on the leaf finds. -/
theorem leaf_spot {K : Type} [LinearOrder K] {key : Ent V → K} [∀ m, TransCmp (ix.cmpK m)] (hk : KeyOf ix.cmp key) {s : Store (Ent V)} {G : Ghost}
    (W : Weak key true s rootBlk G) {k : AttKey V} {A B : List Nat} {b : Nat} (e : G.lv 0 = A ++ b :: B)
    (hA : ∀ c ∈ A, hiP key (s.page c) < ((key (probe k) : K) : WithTop K)) (hb : ((key (probe k) : K) : WithTop K) ≤ hiP key (s.page b)) :
    (∃ off t, ix.locate (s.page b).items (probe k) = (true, off) ∧ (s.page b).items[off - 1]? = some t ∧
      t ∈ contents s rootBlk ∧ ix.cmp (probe k) t = .eq) ∨
    (∃ off, ix.locate (s.page b).items (probe k) = (false, off) ∧ ∀ e ∈ contents s rootBlk, ix.cmp (probe k) e ≠ .eq) := by
  obtain ⟨a1, a2, -⟩ := around W e hA
  have hb0 : b ∈ G.lv 0 := by rw [e]; simp
  have hs : SSorted ix.cmp (s.page b).items := (ssorted_key (o := ix.ops) hk).2 (W.order.sorted b hb0)
  rcases spot ix hs (probe k) with ⟨A', B', t, hi, hl, he⟩ | ⟨A', B', hi, hl, hA', hB'⟩
  · refine Or.inl ⟨A'.length + 1, t, hl, ?_, ?_, he⟩
    · rw [hi, Nat.add_sub_cancel, List.getElem?_append_right (_root_.le_refl _)]; simp
    · rw [mem_contents W]; exact ⟨b, hb0, by rw [hi]; simp⟩
  · refine Or.inr ⟨A'.length + 1, hl, fun y hy h => ?_⟩
    have hky := (hk.eq _ _).1 h
    obtain ⟨c, hc, hy⟩ := (mem_contents W).1 hy
    rw [e] at hc
    rcases List.mem_append.1 hc with hc' | hc'
    · exact absurd hky (ne_of_gt (a1 c hc' y hy))
    · rcases List.mem_cons.1 hc' with rfl | hc'
      · rw [hi] at hy
        rcases List.mem_append.1 hy with hy | hy
        · rw [hA' y hy] at h; cases h
        · rw [hB' y hy] at h; cases h
      · have := a2 c hc' y hy
        rw [← hky] at this
        exact absurd hb (_root_.not_le.2 this)

theorem ESys.step {K : Type} [LinearOrder K] {key : Ent V → K} (hk : KeyOf ix.cmp key) {s s' : Store (Ent V)} {th : Nat → Thread (Ent V)} {G G' : Ghost}
    {bad : Nat → Prop} {new : Nat → Nat → Prop} {th' : Thread (Ent V)}
    (Y : SysInv True C key true (InnerFit ix) (KeyFit ix) (fun l => l.length ≤ 1) (LeafOK ix) ix.ops rootBlk ⟨s, th⟩ G)
    (S : StepCore C key true (InnerFit ix) (KeyFit ix) (LeafOK ix) rootBlk s G (th i) s' th' G' bad new)
    (hfree : ∀ j, j ≠ i → ∀ w, pending (th j) = some w → visit rootBlk (th i) ≠ some w.child) :
    ESys C ix s' (fun j => if j = i then th' else th j) := by
  refine ⟨K, _, key, G', hk, SysInv.step (z := ⟨s', fun j => if j = i then th' else th j⟩) (i := i) (bad := bad) (new := new)
    (fun l m h => by simp only [List.length_drop] at *; omega) Y ?_ (fun hj _ hw => hfree _ hj _ hw) (fun j hj => by simp [hj])⟩
  simp only [if_true]
  exact S

/-- A step in the entry tree that leaves its tuples alone. -/
theorem NInv.entryStep (hc : ColsOK ix M) (I : NInv C ix M g n) {s' : Store (Ent V)} {th : Thread (Ent V)}
    (he : ESys C ix s' (fun j => if j = i then th else n.eth j)) (hm : ∀ y, y ∈ contents s' rootBlk ↔ y ∈ contents n.st.entry rootBlk) {n1 : Net V}
    (hn : n1 = { n with st := { n.st with entry := s' } }.setE i th) :
    Part C ix M g n1 i ∧ Due C ix g.T n1 i (n.job i).left ∧ Grow ix n.st n1.st := by
  have hst : n1.st = { n.st with entry := s' } := by rw [hn]; rfl
  have hrows : ∀ k, ix.rowsOf n1.st k = ix.rowsOf n.st k := fun k => by rw [hst]; exact rows_entry hc I.entry.inv he.inv hm k
  have hent : n1.st.entry = s' := by rw [hst]
  have hg : Grow ix n.st n1.st := ⟨fun k y hy => by rw [hrows]; exact hy, fun e he t _ => by rw [hent]; exact (hm e).2 he⟩
  have htth : n1.tth = n.tth := by rw [hn]; rfl
  have heth : n1.eth = fun j => if j = i then th else n.eth j := by rw [hn]; rfl
  obtain ⟨P, D⟩ := I.step (i := i) (n' := n1) (by rw [hent, heth]; exact he) (by
      rw [hent]
      intro e he
      have h := I.tup e ((hm e).1 he)
      refine ⟨h.key, h.list, fun t ht => ?_⟩
      rw [htth, hst]
      exact h.tree t ht) (by
      rw [hent]
      intro e he e' he'
      exact I.inj e ((hm e).1 he) e' ((hm e').1 he')) (fun k y hy => I.allowed k y (by rw [hrows] at hy; exact hy)) hg
    (fun j hj => ⟨by rw [heth]; simp [hj], fun t => by rw [htth], by rw [hn]; rfl⟩)
  exact ⟨P, D, hg⟩

/-- Nobody works in a tree that does not exist yet. -/
theorem NInv.newTree (I : NInv C ix M g n) {t : Nat} (ht : n.st.ntrees ≤ t) (j : Nat) : n.tth t j = .idle := by
  have hin : ∀ {a k u}, InTree ix n.st a (fun t => n.tth t j) k u → n.tth t j = .idle := by
    intro a k u h
    obtain ⟨-, h2, e, h3, h4, -⟩ := h
    have := ((I.tup e h3).tree u h4).1
    exact h2 t (by omega)
  have hj := I.job j
  cases hjob : n.job j with
  | insert l =>
    rw [hjob] at hj
    obtain ⟨-, -, -, k, it, l', -, hw⟩ := hj
    rcases hw with ⟨h, -⟩ | ⟨u, h, -⟩
    · exact h t
    · exact hin h
  | read k c =>
    rw [hjob] at hj
    rcases hj.2.2 with ⟨h, -⟩ | ⟨u, h, -⟩
    · exact h t
    · exact hin h
  | idle => rw [hjob] at hj; exact hj.2 t
  | inserted => rw [hjob] at hj; exact hj.1.2 t
  | failed => rw [hjob] at hj; exact hj.1.2 t
  | answer k c rows => rw [hjob] at hj; exact hj.1.2 t

omit [Inhabited V] in
theorem settleE_pending {w : Pending (Ent V)} (h : pending (n.eth i) = some w) : n.settleE i = n := by
  unfold Net.settleE
  cases hth : n.eth i <;> rw [hth] at h <;> first | rfl | simp [pending] at h

/-- The tuple of a key is put on its leaf. -/
theorem NInv.putAt (hc : ColsOK ix M) (I : NInv C ix M g n) {k : AttKey V} {it : Item Datum} {l' : List (AttKey V × Item Datum)}
    (hjob : n.job i = .insert ((k, it) :: l')) {b : Nat} {up : List (Nat × Nat)} (heth : n.eth i = .ins [probe k] b up)
    (ht : ∀ t, n.tth t i = .idle) (hfree : ∀ j, j ≠ i → ∀ w, pending (n.eth j) = some w → b ≠ w.child) (hstop : ix.stops n.st.entry k b = true)
    {pre : List (State V)} {e : Ent V} (hB : Built True ix M n.st e.key (ix.rowsOf n.st k) [it] pre e) (hke : ix.cmp (probe k) e = .eq)
    (hold : ∀ e' ∈ contents n.st.entry rootBlk, ix.cmp (probe k) e' = .eq → ∀ t, e'.post ≠ .tree t) :
    NInv C ix M g (ix.putAt n i b up (pre, some e)) := by
  have := hc.keys
  have := cmp_trans ix
  have := hc.infos k.attnum
  have htr : TransCmp (ix.ctx k.attnum).cmp := cmpItem_trans _ _
  have hj := I.job i
  rw [hjob] at hj
  obtain ⟨o1, o2, o3, -⟩ := hj
  obtain ⟨K, hK, key, G, hk, Y⟩ := I.entry
  have hok := Y.ok i
  simp only [heth] at hok
  have hcases := ins_cases (o := ix.ops) (xs := []) hk (locateEntry_ok ix hk) Y.good hok
  have hst := (stops_iff ix _ _ _).1 hstop
  rcases hcases with ⟨hno, -⟩ | ⟨-, A, B, e0, hA, hx, hup⟩
  · exact absurd hst hno
  obtain ⟨v1, v2, v3, G', bad, new, v4⟩ := leafPut_spec (C := C) ix hk Y.good e0 hA hx hup hke hB.fits
  obtain ⟨v, hv⟩ : ∃ v, leafPut ix.ops n.st.entry b up e = v := ⟨_, rfl⟩
  rw [hv] at v1 v2 v3 v4
  have hE : ESys C ix v.1 (fun j => if j = i then v.2 else n.eth j) := by
    refine ESys.step hk Y (bad := bad) (new := new) (G' := G') (by rw [heth]; exact v4) (fun j hj w hw => ?_)
    rw [heth]
    simp only [visit, ne_eq, Option.some.injEq]
    exact hfree j hj w hw
  have H' := put_inv I.inv hB.last hB.ok.mono hB.fresh hE.inv v3
  have hins : Inserted ix n.st { (lastState n.st pre) with entry := v.1 } k [it] :=
    put_rows hc I.inv hke rfl ⟨hB.ext, hB.last, hB.key, hB.fits, hB.ok.mono, hB.fresh, hB.rows⟩ H' v3
  have hm2 : ∀ y, y ∈ contents v.1 rootBlk ↔ y = e ∨ (y ∈ contents n.st.entry rootBlk ∧ ix.cmp e y ≠ .eq) := by
    intro y; rw [v3]; simp [Upd]
  obtain ⟨n1, hn⟩ : ∃ n1, n1 = ({ n with st := { (lastState n.st pre) with entry := v.1 } } : Net V).setE i v.2 := ⟨_, rfl⟩
  have hst1 : n1.st = { (lastState n.st pre) with entry := v.1 } := by rw [hn]; rfl
  have hent : n1.st.entry = v.1 := by rw [hst1]
  have heth1 : n1.eth = fun j => if j = i then v.2 else n.eth j := by rw [hn]; rfl
  have htth : n1.tth = n.tth := by rw [hn]; rfl
  have hg : Grow ix n.st n1.st := by
    rw [hst1]
    refine ⟨fun k' y hy => ?_, fun e' he' t ht => (hm2 e').2 (Or.inr ⟨he', fun h => ?_⟩)⟩
    · by_cases hs : Same ix k' k
      · exact (hins.rows k' hs y).2 (Or.inl hy)
      · rw [hins.other k' hs]; exact hy
    · exact hold e' he' (TransCmp.eq_trans (cmp := ix.cmp) hke h) t ht
  have hmade : Made ix n1.st (k, it) := by
    have hkk : Same ix k k := ReflCmp.compare_self (cmp := ix.cmp) (a := probe k)
    show ∃ y ∈ ix.rowsOf n1.st k, (ix.ctx k.attnum).cmp y it = .eq
    rw [hst1]
    by_cases hin : ∃ y ∈ ix.rowsOf n.st k, (ix.ctx k.attnum).cmp y it = .eq
    · obtain ⟨y, h1, h2⟩ := hin
      exact ⟨y, (hins.rows k hkk y).2 (Or.inl h1), h2⟩
    · refine ⟨it, (hins.rows k hkk it).2 (Or.inr ⟨by simp, fun y hy h => hin ⟨y, hy, h⟩⟩), ReflCmp.compare_self⟩
  obtain ⟨P, D⟩ := I.step (i := i) (n' := n1) (by rw [hent, heth1]; exact hE) (by
      rw [hent]
      intro e' he'
      rw [htth, hst1]
      rcases (hm2 e').1 he' with rfl | ⟨he', -⟩
      · refine ⟨hB.ok.key, hB.ok.list, fun t htt => ⟨(hB.ok.tree t htt).1, TSys.rest ((hB.ok.tree t htt).2.imp (fun _ => trivial)) (fun j => ?_)⟩⟩
        exact I.newTree (hB.fresh t htt) j
      · have h := I.tup e' he'
        refine ⟨h.key, h.list, fun t htt => ?_⟩
        obtain ⟨h1, h2⟩ := h.tree t htt
        exact ⟨h1.trans_le hB.last.more, by rw [show ({ (lastState n.st pre) with entry := v.1 } : State V).trees t = n.st.trees t from hB.last.trees t h1]; exact h2⟩)
    (by rw [hst1]; exact H'.inj) (by
      rw [hst1]
      intro k' y hy
      by_cases hs : Same ix k' k
      · rcases (hins.rows k' hs y).1 hy with h | ⟨h, -⟩
        · exact I.allowed k' y h
        · simp only [List.mem_singleton] at h; subst h; exact o2 (k, y) (by simp) k' hs
      · rw [hins.other k' hs] at hy
        exact I.allowed k' y hy) hg
    (fun j hj => ⟨by rw [heth1]; simp [hj], fun t => by rw [htth], by rw [hn]; rfl⟩)
  rw [hjob] at D
  have hjob1 : n1.job i = .insert ((k, it) :: l') := by rw [hn]; exact hjob
  have o3' : ∀ op ∈ g.W i, op ∈ (k, it) :: l' ∨ Made ix n1.st op := fun op h => (o3 op h).imp id (fun m => m.grow hg)
  have heth2 : n1.eth i = v.2 := by rw [heth1]; simp
  have hput : ix.putAt n i b up (pre, some e) = n1.settleE i := by
    unfold Ix.putAt
    simp only [hB.last.entry, hv]
    rw [hn]
  rw [hput]
  rcases v2 with v2 | ⟨w, v2, v5⟩
  · unfold Net.settleE
    rw [heth2, v2]
    exact P.goOn hjob1 (fun _ => by rw [heth2, v2]; rfl) (fun t => by rw [htth]; exact ht t) o1 o2 o3' hmade D
  · rw [settleE_pending (by rw [heth2]; exact v2)]
    refine P.whole ?_ (by rw [hjob1]; exact D)
    rw [hjob1]
    exact ⟨o1, o2, o3', k, it, l', rfl, Or.inl ⟨fun t => by rw [htth]; exact ht t, Or.inr ⟨w, by rw [heth2]; exact v2, v5, hmade⟩⟩⟩

/-- A descent is on its way. -/
theorem NInv.down (hc : ColsOK ix M) (I : NInv C ix M g n) {k : AttKey V} {b : Nat} {up : List (Nat × Nat)} (heth : n.eth i = .ins [probe k] b up)
    (hfree : ∀ j, j ≠ i → ∀ w, pending (n.eth j) = some w → b ≠ w.child) (hstop : ix.stops n.st.entry k b ≠ true) {v : Store (Ent V) × Thread (Ent V)}
    (hv : act ix.ops (fun _ _ _ => none) rootBlk n.st.entry (n.eth i) = v) {n1 : Net V}
    (hn : n1 = { n with st := { n.st with entry := v.1 } }.setE i v.2) :
    n1.settleE i = n1 ∧ Part C ix M g n1 i ∧ Due C ix g.T n1 i (n.job i).left ∧ Grow ix n.st n1.st ∧ ∃ p up, n1.eth i = .ins [probe k] p up := by
  have := hc.keys
  obtain ⟨K, hK, key, G, hk, Y⟩ := I.entry
  have hok := Y.ok i
  simp only [heth] at hok
  rcases ins_cases (o := ix.ops) (xs := []) hk (locateEntry_ok ix hk) Y.good hok with ⟨-, b', up', h1, h2⟩ | ⟨h1, -⟩
  · have hv' : v = (n.st.entry, .ins [probe k] b' up') := by rw [← hv, heth]; simp only [act]; exact h1
    have hE : ESys C ix v.1 (fun j => if j = i then v.2 else n.eth j) := by
      refine ESys.step hk Y (by rw [heth, hv']; exact h2.toStepCore) (fun j hj w hw => ?_)
      rw [heth]
      simp only [visit, ne_eq, Option.some.injEq]
      exact hfree j hj w hw
    obtain ⟨P, D, hg⟩ := I.entryStep hc hE (fun y => by rw [hv']) hn
    have he : n1.eth i = .ins [probe k] b' up' := by rw [hn]; simp [Net.setE, hv']
    refine ⟨?_, P, D, hg, b', up', he⟩
    unfold Net.settleE
    rw [he]
  · exact absurd ((stops_iff ix _ _ _).2 h1) hstop

/-- The search for a parent in the entry tree. -/
theorem NInv.climb (hc : ColsOK ix M) (I : NInv C ix M g n) {k : AttKey V} {it : Item Datum} {l' : List (AttKey V × Item Datum)}
    (hjob : n.job i = .insert ((k, it) :: l')) {w : Pending (Ent V)} (hw : pending (n.eth i) = some w) (hwb : w.batch = [])
    (hmade : Made ix n.st (k, it)) (ht : ∀ t, n.tth t i = .idle)
    (hfree : ∀ j, j ≠ i → ∀ w, pending (n.eth j) = some w → visit rootBlk (n.eth i) ≠ some w.child) {v : Store (Ent V) × Thread (Ent V)}
    (hv : act ix.ops (fun _ _ _ => none) rootBlk n.st.entry (n.eth i) = v) {n1 : Net V}
    (hn : n1 = { n with st := { n.st with entry := v.1 } }.setE i v.2) : NInv C ix M g (n1.settleE i) := by
  have := hc.keys
  have hj := I.job i
  rw [hjob] at hj
  obtain ⟨o1, o2, o3, -⟩ := hj
  obtain ⟨K, hK, key, G, hk, Y⟩ := I.entry
  obtain ⟨G', bad, new, S⟩ := link_act_spec (o := ix.ops) (seek := fun _ _ _ => none) (entryInnerLaws ix) Y.good (th := n.eth i) (by rw [hw]; rfl)
    (Y.ok i) (fun c w' hw' => Y.no_adj c (i := i) hw')
  simp only [hv] at S
  have hE : ESys C ix v.1 (fun j => if j = i then v.2 else n.eth j) := ESys.step hk Y S.toStepCore hfree
  have htodo : todo (n.eth i) = [] := by
    cases hth : n.eth i <;> rw [hth] at hw <;> simp [pending] at hw <;> subst hw <;> exact hwb
  obtain ⟨P, D, hg⟩ := I.entryStep hc hE (fun y => ⟨fun h => by
    rcases S.just y h with h | h
    · exact h
    · rw [htodo] at h; simp at h, S.keep y⟩) hn
  rw [hjob] at D
  have hjob1 : n1.job i = .insert ((k, it) :: l') := by rw [hn]; exact hjob
  have o3' : ∀ op ∈ g.W i, op ∈ (k, it) :: l' ∨ Made ix n1.st op := fun op h => (o3 op h).imp id (fun m => m.grow hg)
  have htth : n1.tth = n.tth := by rw [hn]; rfl
  have heth2 : n1.eth i = v.2 := by rw [hn]; simp [Net.setE]
  have hkind := pending_kind (o := ix.ops) (seek := fun _ _ _ => none) (root := rootBlk) (s := n.st.entry) hw
  rw [hv, hwb] at hkind
  rcases hkind with h | h | ⟨w', h, h'⟩
  · unfold Net.settleE
    rw [heth2, h]
    refine P.fail (fun c => S.lost c (fun h => ?_) h)
    rw [h] at hw; cases hw
  · unfold Net.settleE
    rw [heth2, h]
    exact P.goOn hjob1 (fun _ => by rw [heth2, h]; rfl) (fun t => by rw [htth]; exact ht t) o1 o2 o3' (hmade.grow hg) D
  · rw [settleE_pending (by rw [heth2]; exact h)]
    refine P.whole ?_ (by rw [hjob1]; exact D)
    rw [hjob1]
    exact ⟨o1, o2, o3', k, it, l', rfl, Or.inl ⟨fun t => by rw [htth]; exact ht t, Or.inr ⟨w', by rw [heth2]; exact h, h', hmade.grow hg⟩⟩⟩

/-- An insertion on the leaf. -/
theorem NInv.leafInsert (hc : ColsOK ix M) (I : NInv C ix M g n) {k : AttKey V} {it : Item Datum} {l' : List (AttKey V × Item Datum)}
    (hjob : n.job i = .insert ((k, it) :: l')) {b : Nat} {up : List (Nat × Nat)} (heth : n.eth i = .ins [probe k] b up)
    (ht : ∀ t, n.tth t i = .idle) (hfree : ∀ j, j ≠ i → ∀ w, pending (n.eth j) = some w → b ≠ w.child) (hstop : ix.stops n.st.entry k b = true) :
    NInv C ix M g (ix.leafInsert n i b up k it) := by
  have := hc.keys
  have := cmp_trans ix
  have hj := I.job i
  rw [hjob] at hj
  obtain ⟨o1, o2, o3, -⟩ := hj
  have hop := o1 (k, it) (by simp)
  have hbat : BatchOK (ix.ctx k.attnum) M [it] := ⟨by simp [SSorted], by simpa using hop.item, fun _ => by simp⟩
  obtain ⟨K, hK, key, G, hk, Y⟩ := I.entry
  have hok := Y.ok i
  simp only [heth] at hok
  have hst := (stops_iff ix _ _ _).1 hstop
  rcases ins_cases (o := ix.ops) (xs := []) hk (locateEntry_ok ix hk) Y.good hok with ⟨hno, -⟩ | ⟨-, A, B, e0, hA, hx, hup⟩
  · exact absurd hst hno
  unfold Ix.leafInsert
  simp only
  rcases leaf_spot hk Y.good.weak e0 hA hx with ⟨off, e, f1, f2, f3, f4⟩ | ⟨off, f1, f2⟩
  · simp only at f1 f2 f3
    rw [f1]
    simp only [if_true, f2]
    have hat : k.attnum = e.key.attnum := same_attnum (ix := ix) f4
    cases hp : e.post with
    | tree t =>
      simp only
      have P1 := (I.part i).setE (a := .idle) (fun _ => by rw [heth]; rfl) (Or.inl rfl)
      have P2 := P1.setT (t := t) (a := .ins [it] 0 []) (fun _ => by
          have : (n.setE i .idle).tth t i = .idle := ht t
          rw [this]; rfl) (Or.inr (Or.inr (Or.inr ⟨k, it, hop, rfl, fun e' he' hp' => by
            rw [I.inj e' he' e f3 t hp' hp]; exact hat⟩)))
      have hjob1 : ((n.setE i .idle).setT t i (.ins [it] 0 [])).job i = .insert ((k, it) :: l') := hjob
      refine P2.whole ?_ ?_
      · rw [hjob1]
        have hown : ((n.setE i .idle).setT t i (.ins [it] 0 [])).tth t i = .ins [it] 0 [] := by simp [Net.setT]
        refine ⟨o1, o2, o3, k, it, l', rfl, Or.inr ⟨t, ⟨by simp [Net.setT, Net.setE], fun u hu => ?_, e, f3, hp, f4⟩, ?_, ?_, Or.inl ?_⟩⟩
        · simp only [Net.setT, hu, false_and, if_false]
          exact ht u
        · simp only [hown]; rfl
        · simp only [hown]; rfl
        · simp only [hown]; rfl
      · rw [hjob1]
        have := I.due' i
        rw [hjob] at this
        exact this.of rfl (fun _ _ => rfl)
    | list d m =>
      simp only
      have h := I.tup e f3
      obtain ⟨pre, x, a1, a2⟩ := addItems_spec (C := True) hc (st := n.st) (old := e) ⟨h.key, h.list, fun t ht => by rw [hp] at ht; cases ht⟩ hp
        (items := [it]) (by rw [← hat]; exact hbat)
      have hx : ix.cmp (probe k) x = .eq := by unfold Ix.cmp; rw [a2.key]; exact f4
      rw [a1]
      refine I.putAt hc hjob heth ht hfree hstop (by rw [I.inv.rowsOf_eq hc f3 f4, a2.key]; exact a2) hx (fun e' he' h' t htt => ?_)
      rw [I.inv.unique hc he' f3 (TransCmp.eq_trans (cmp := ix.cmp) (OrientedCmp.eq_symm h') f4), hp] at htt
      cases htt
  · simp only at f1
    rw [f1]
    simp only [Bool.false_eq_true, if_false]
    obtain ⟨pre, x, a1, a2⟩ := freshTuple_spec True hc n.st (k := k) hop.key hbat
    rw [a1]
    have hx : ix.cmp (probe k) x = .eq := by
      unfold Ix.cmp; rw [a2.key]; exact ReflCmp.compare_self (cmp := ix.cmp) (a := probe k)
    exact I.putAt hc hjob heth ht hfree hstop (by rw [I.inv.rowsOf_none hc f2, a2.key]; exact a2) hx (fun e' he' h' => absurd h' (f2 e' he'))

/-- A search on the leaf. -/
theorem NInv.leafRead (hc : ColsOK ix M) (I : NInv C ix M g n) {k : AttKey V} {c : Bool}
    (hjob : n.job i = .read k c) {b : Nat} {up : List (Nat × Nat)} (heth : n.eth i = .ins [probe k] b up)
    (ht : ∀ t, n.tth t i = .idle) (hstop : ix.stops n.st.entry k b = true) :
    NInv C ix M g (ix.leafRead n i b k c) := by
  have := hc.keys
  have := cmp_trans ix
  have hj := I.job i
  rw [hjob] at hj
  obtain ⟨o1, o2, -⟩ := hj
  obtain ⟨K, hK, key, G, hk, Y⟩ := I.entry
  have hok := Y.ok i
  simp only [heth] at hok
  have hst := (stops_iff ix _ _ _).1 hstop
  rcases ins_cases (o := ix.ops) (xs := []) hk (locateEntry_ok ix hk) Y.good hok with ⟨hno, -⟩ | ⟨-, A, B, e0, hA, hx, hup⟩
  · exact absurd hst hno
  have P1 := (I.part i).setE (a := .idle) (fun _ => by rw [heth]; rfl) (Or.inl rfl)
  have hdue := I.due' i
  rw [hjob] at hdue
  have hans : ∀ R, R = ix.rowsOf n.st k → SSorted (ix.ctx k.attnum).cmp R → NInv C ix M g ((n.setE i .idle).setJ i (.answer k c R)) := by
    intro R hR hs
    refine (P1.setJ (.answer k c R)).whole ?_ ?_
    · rw [setJ_job]
      refine ⟨⟨by simp [Net.setJ, Net.setE], fun t => ht t⟩, fun y hy => delivered_of_sorted hs (by rw [hR]; exact o2 y hy), fun y hy => ?_, fun _ => hs⟩
      have hy' : y ∈ ix.rowsOf n.st k := hR ▸ hy
      exact hy'
    · rw [setJ_job]
      exact hdue.of rfl (fun j hj => by simp [Net.setJ, Net.setE, hj])
  unfold Ix.leafRead
  simp only
  rcases leaf_spot hk Y.good.weak e0 hA hx with ⟨off, e, f1, f2, f3, f4⟩ | ⟨off, f1, f2⟩
  · simp only at f1 f2 f3
    rw [f1]
    simp only [if_true, f2]
    have hat : k.attnum = e.key.attnum := same_attnum (ix := ix) f4
    cases hp : e.post with
    | tree t =>
      simp only
      have P2 := P1.setT (t := t) (a := if c then .opening 0 else .down 0) (fun _ => by
          have : (n.setE i .idle).tth t i = .idle := ht t
          rw [this]; rfl) (by cases c <;> simp)
      have hjob1 : ((n.setE i .idle).setT t i (if c then .opening 0 else .down 0)).job i = .read k c := hjob
      refine P2.whole ?_ ?_
      · rw [hjob1]
        have hown : ((n.setE i .idle).setT t i (if c then .opening 0 else .down 0)).tth t i = if c then .opening 0 else .down 0 := by
          simp [Net.setT]
        refine ⟨o1, o2, Or.inr ⟨t, ⟨by simp [Net.setT, Net.setE], fun u hu => ?_, e, f3, hp, f4⟩, ?_, ?_⟩⟩
        · simp only [Net.setT, hu, false_and, if_false]
          exact ht u
        · simp only [hown]; cases c <;> rfl
        · simp only [hown]; cases c <;> rfl
      · rw [hjob1]
        exact hdue.of rfl (fun _ _ => rfl)
    | list d m =>
      simp only
      have hr : ix.readTuple e = ix.rowsOf n.st k := by
        rw [I.inv.rowsOf_eq hc f3 f4]; unfold rows; rw [hp]
      refine hans _ hr ?_
      rw [hr, I.inv.rowsOf_eq hc f3 f4, hat]
      exact (I.inv.ents e f3).rows_sorted hc
  · simp only at f1
    rw [f1]
    simp only [Bool.false_eq_true, if_false]
    exact hans [] (I.inv.rowsOf_none hc f2).symm (by simp [SSorted])

/-- **A visit to a page of the entry tree.** -/
theorem NInv.visitEntry (hc : ColsOK ix M) (I : NInv C ix M g n) (hb : n.eth i ≠ .idle)
    (hl : ∀ j, j ≠ i → ∀ c, holds (n.eth j) = some c → c ∉ ix.needsE n i) : NInv C ix M g (ix.visitEntry n i) := by
  have hfree : ∀ j, j ≠ i → ∀ w, pending (n.eth j) = some w → visit rootBlk (n.eth i) ≠ some w.child := by
    intro j hj w hw hv
    refine hl j hj w.child (by rw [holds_eq, hw]; rfl) ?_
    unfold Ix.needsE
    rw [hv]
    simp
  have hj := I.job i
  obtain ⟨v, hv⟩ : ∃ v, act ix.ops (fun _ _ _ => none) rootBlk n.st.entry (n.eth i) = v := ⟨_, rfl⟩
  unfold Ix.visitEntry
  simp only [hv]
  cases hjob : n.job i with
  | insert l =>
    rw [hjob] at hj
    obtain ⟨o1, o2, o3, k, it, l', rfl, hw⟩ := hj
    rcases hw with ⟨ht, ⟨p, up, heth⟩ | ⟨w, w1, w2, w3⟩⟩ | ⟨t, hin, -⟩
    · rw [heth] at hfree
      simp only [visit, ne_eq, Option.some.injEq] at hfree
      rw [heth]
      simp only
      split
      · next hs => exact I.leafInsert hc hjob heth ht hfree hs
      · next hs =>
        obtain ⟨h1, P, D, hg, p', up', h2⟩ := I.down hc heth hfree hs hv rfl
        rw [h1]
        rw [hjob] at D
        refine P.whole ?_ ?_
        · have : ((({ n with st := { n.st with entry := v.1 } } : Net V).setE i v.2)).job i = .insert ((k, it) :: l') := hjob
          rw [this]
          exact ⟨o1, o2, fun op h => (o3 op h).imp id (fun m => m.grow hg), k, it, l', rfl, Or.inl ⟨ht, Or.inl ⟨p', up', h2⟩⟩⟩
        · have : ((({ n with st := { n.st with entry := v.1 } } : Net V).setE i v.2)).job i = .insert ((k, it) :: l') := hjob
          rw [this]; exact D
    · have := I.climb hc hjob w1 w2 w3 ht hfree hv rfl
      cases hth : n.eth i <;> rw [hth] at w1 <;> first | exact this | simp [pending] at w1
    · exact absurd hin.1 hb
  | read k c =>
    rw [hjob] at hj
    obtain ⟨o1, o2, hw⟩ := hj
    rcases hw with ⟨ht, p, up, heth⟩ | ⟨t, hin, -⟩
    · rw [heth] at hfree
      simp only [visit, ne_eq, Option.some.injEq] at hfree
      rw [heth]
      simp only
      split
      · next hs => exact I.leafRead hc hjob heth ht hs
      · next hs =>
        obtain ⟨h1, P, D, hg, p', up', h2⟩ := I.down hc heth hfree hs hv rfl
        rw [h1]
        rw [hjob] at D
        have hjob1 : ((({ n with st := { n.st with entry := v.1 } } : Net V).setE i v.2)).job i = .read k c := hjob
        refine P.whole ?_ ?_
        · rw [hjob1]
          exact ⟨o1, fun y hy => hg.rows k y (o2 y hy), Or.inl ⟨ht, p', up', h2⟩⟩
        · rw [hjob1]; exact D
    · exact absurd hin.1 hb
  | idle => rw [hjob] at hj; exact absurd hj.1 hb
  | inserted => rw [hjob] at hj; exact absurd hj.1.1 hb
  | failed => rw [hjob] at hj; exact absurd hj.1.1 hb
  | answer k c rows => rw [hjob] at hj; exact absurd hj.1.1 hb

/-! ### Starting and stopping -/

theorem JobOK.mono {S : List (Item Datum)} {W : List (AttKey V × Item Datum)} {A A' : AttKey V → Item Datum → Prop} (hA : ∀ k y, A k y → A' k y)
    {st : State V} {a : Thread (Ent V)} {b : Nat → Thread (Item Datum)} {j : Job V} (h : JobOK C ix M S W A st a b j) :
    JobOK C ix M S W A' st a b j := by
  cases j with
  | insert l => exact ⟨h.1, fun op ho k' hs => hA _ _ (h.2.1 op ho k' hs), h.2.2⟩
  | _ => exact h

theorem JobOK.quiet {S : List (Item Datum)} {W : List (AttKey V × Item Datum)} {A : AttKey V → Item Datum → Prop}
    {st : State V} {a : Thread (Ent V)} {b : Nat → Thread (Item Datum)} {j : Job V} (h : JobOK C ix M S W A st a b j) (hf : j.free = true) :
    Quiet a b ∧ j.left = [] := by
  cases j with
  | insert l => cases hf
  | read k c => cases hf
  | idle => exact ⟨h, rfl⟩
  | inserted => exact ⟨h.1, rfl⟩
  | failed => exact ⟨h.1, rfl⟩
  | answer k c rows => exact ⟨h.1, rfl⟩

/-- The ghosts after an insertion was begun. -/
def Gh.insert (g : Gh V) (ix : Ix V) (i : Nat) (l : List (AttKey V × Item Datum)) : Gh V :=
  { g with W := fun j => if j = i then l else g.W j, A := fun k y => g.A k y ∨ ∃ op ∈ l, Same ix k op.1 ∧ y = op.2, T := g.T ++ l }

/-- A row is to be inserted. -/
theorem NInv.insert (I : NInv C ix M g n) (hf : (n.job i).free = true) {l : List (AttKey V × Item Datum)} (h1 : ∀ op ∈ l, EntryOK ix M op) :
    NInv C ix M (g.insert ix i l) (n.next i l) := by
  obtain ⟨hq, hl⟩ := (I.job i).quiet hf
  have P : Part C ix M (g.insert ix i l) n i := by
    refine ⟨I.entry, I.tup, I.inj, fun k y hy => Or.inl (I.allowed k y hy), I.base, fun j hj => ?_⟩
    have := (I.job j).mono (A' := (g.insert ix i l).A) (fun k y h => Or.inl h)
    simpa [Gh.insert, hj] using this
  refine P.next (fun _ => by rw [hq.1]; rfl) hq.2 h1 (fun op ho k' hs => Or.inr ⟨op, ho, hs, rfl⟩) (fun op ho => ?_) (fun c op ho => ?_)
  · simp only [Gh.insert, if_true] at ho
    exact Or.inl ho
  · rcases List.mem_append.1 ho with ho | ho
    · rcases I.due' i c op ho with h | h | h
      · exact Or.inl h
      · rw [hl] at h; simp at h
      · exact Or.inr (Or.inr h)
    · exact Or.inr (Or.inl ho)

/-- The ghosts after a search was begun. -/
def Gh.read (g : Gh V) (i : Nat) (l : List (Item Datum)) : Gh V := { g with S := fun j => if j = i then l else g.S j }

/-- A search is begun. -/
theorem NInv.read (I : NInv C ix M g n) (hf : (n.job i).free = true) {k : AttKey V} {c : Bool} (hM : c = true → M.single = false) :
    NInv C ix M (g.read i (ix.rowsOf n.st k)) ((n.setE i (descent k)).setJ i (.read k c)) := by
  obtain ⟨hq, hl⟩ := (I.job i).quiet hf
  have P : Part C ix M (g.read i (ix.rowsOf n.st k)) n i := by
    refine ⟨I.entry, fun e he => ?_, I.inj, I.allowed, I.base, fun j hj => by simpa [Gh.read, hj] using I.job j⟩
    have h := I.tup e he
    refine ⟨h.key, h.list, fun t ht => ⟨(h.tree t ht).1, ?_⟩⟩
    obtain ⟨K, hK, key, G, hk, Y, hR⟩ := (h.tree t ht).2
    refine ⟨K, hK, key, G, hk, Y, fun j hj => ?_⟩
    by_cases hji : j = i
    · subst hji
      rw [show n.tth t j = .idle from hq.2 t] at hj
      simp [mode] at hj
    · simpa [Gh.read, hji] using hR j hj
  have P' := (P.setE (a := descent k) (fun _ => by rw [hq.1]; rfl) (Or.inr ⟨k, rfl⟩)).setJ (.read k c)
  refine P'.whole ?_ ?_
  · rw [setJ_job]
    refine ⟨hM, fun y hy => ?_, Or.inl ⟨hq.2, _, _, by simp [Net.setJ, Net.setE, descent]; exact ⟨rfl, rfl⟩⟩⟩
    simpa [Gh.read, Net.setE, Net.setJ] using hy
  · rw [setJ_job]
    have := I.due' i
    rw [hl] at this
    exact this.of rfl (fun j hj => by simp [Net.setJ, Net.setE, hj])

/-- A search is given up. -/
theorem NInv.quit (I : NInv C ix M g n) {k : AttKey V} {c : Bool} (hjob : n.job i = .read k c) : NInv C ix M g (n.quit i .idle) := by
  have hj := I.job i
  rw [hjob] at hj
  have hpe : pending (n.eth i) = none ∧ ∀ t, pending (n.tth t i) = none := by
    rcases hj.2.2 with ⟨h1, p, up, h2⟩ | ⟨t, hin, h1, h2⟩
    · exact ⟨by rw [h2]; rfl, fun t => by rw [show n.tth t i = .idle from h1 t]; rfl⟩
    · refine ⟨by rw [hin.1]; rfl, fun u => ?_⟩
      by_cases hu : u = t
      · rw [hu]; exact pending_of_mode (by rw [h2]; rfl)
      · rw [show n.tth u i = .idle from hin.2.1 u hu]; rfl
  have P := I.part i
  have P1 := (P.setE (a := .idle) (fun _ => hpe.1) (Or.inl rfl)).setJ .idle
  have P2 : Part C ix M g (n.quit i .idle) i := by
    refine ⟨P1.entry, fun e he => ?_, P1.inj, P1.allowed, P1.base, fun j hj => ?_⟩
    · have h := P.tup e he
      exact ⟨h.key, h.list, fun u hu => ⟨(h.tree u hu).1, (h.tree u hu).2.put (i := i) (a := .idle) (fun _ => hpe.2 u) (Or.inl rfl)⟩⟩
    · simpa [Net.quit, Net.setJ, Net.setE, hj] using P.job j hj
  have hj1 : (n.quit i .idle).job i = .idle := by simp [Net.quit, Net.setJ]
  refine P2.whole ?_ ?_
  · rw [hj1]
    exact ⟨by simp [Net.quit, Net.setJ, Net.setE], fun t => by simp [Net.quit]⟩
  · rw [hj1]
    have := I.due' i
    rw [hjob] at this
    exact this.of rfl (fun j hj => by simp [Net.quit, Net.setJ, Net.setE, hj])

/-! ### No deadlock -/

theorem NInv.busy (I : NInv C ix M g n) (hi : (n.job i).free = false) : (n.eth i).free = false ∨ ∃ t, (n.tth t i).free = false := by
  have hj := I.job i
  cases hjob : n.job i with
  | insert l =>
    rw [hjob] at hj
    obtain ⟨-, -, -, k, it, l', -, hw⟩ := hj
    rcases hw with ⟨-, ⟨p, up, h⟩ | ⟨w, h, -⟩⟩ | ⟨t, -, h, -⟩
    · left; rw [h]; rfl
    · exact Or.inl (pending_mode h).2
    · exact Or.inr ⟨t, h⟩
  | read k c =>
    rw [hjob] at hj
    rcases hj.2.2 with ⟨-, p, up, h⟩ | ⟨t, -, h, -⟩
    · left; rw [h]; rfl
    · exact Or.inr ⟨t, h⟩
  | _ => rw [hjob] at hi; cases hi

/-- Who is in a posting tree is there for a key of that tree. -/
theorem NInv.inTree (I : NInv C ix M g n) {t : Nat} (hb : (n.tth t i).free = false) :
    ∃ e ∈ contents n.st.entry rootBlk, e.post = .tree t ∧ (n.job i).attnum = e.key.attnum := by
  have hni : n.tth t i ≠ .idle := by intro h; rw [h] at hb; cases hb
  have hin : ∀ {a k u}, InTree ix n.st a (fun t => n.tth t i) k u → ∃ e ∈ contents n.st.entry rootBlk, e.post = .tree t ∧ k.attnum = e.key.attnum := by
    rintro a k u ⟨-, h2, e, h3, h4, h5⟩
    obtain rfl : u = t := by
      by_contra hne
      exact hni (h2 t (fun h => hne h.symm))
    exact ⟨e, h3, h4, same_attnum (ix := ix) h5⟩
  have hj := I.job i
  cases hjob : n.job i with
  | insert l =>
    rw [hjob] at hj
    obtain ⟨-, -, -, k, it, l', rfl, hw⟩ := hj
    rcases hw with ⟨h, -⟩ | ⟨u, h, -⟩
    · exact absurd (h t) hni
    · exact hin h
  | read k c =>
    rw [hjob] at hj
    rcases hj.2.2 with ⟨h, -⟩ | ⟨u, h, -⟩
    · exact absurd (h t) hni
    · exact hin h
  | idle => rw [hjob] at hj; exact absurd (hj.2 t) hni
  | inserted => rw [hjob] at hj; exact absurd (hj.1.2 t) hni
  | failed => rw [hjob] at hj; exact absurd (hj.1.2 t) hni
  | answer k c rows => rw [hjob] at hj; exact absurd (hj.1.2 t) hni

omit [Inhabited V] in
theorem settleE_st (n : Net V) (i : Nat) : (n.settleE i).st = n.st := by
  unfold Net.settleE
  split
  · unfold Net.goOn
    split
    · unfold Net.next; split <;> rfl
    · rfl
  · rfl
  · rfl

/-- Somebody can go on. -/
theorem NInv.someone (hC : C) (I : NInv C ix M g n) (hi : (n.job i).free = false) :
    ∃ j, (n.eth j ≠ .idle ∧ ∀ j', j' ≠ j → ∀ c, holds (n.eth j') = some c → c ∉ ix.needsE n j) ∨
      ∃ t, (n.tth t j).free = false ∧ ∀ j', j' ≠ j → ∀ c, holds (n.tth t j') = some c → c ∉ ix.needsT n t j := by
  rcases I.busy hi with hb | ⟨t, hb⟩
  · obtain ⟨K, hK, key, G, hk, Y⟩ := I.entry
    obtain ⟨j, z, h1, h2, h3⟩ := SysInv.someone (seek := fun _ _ _ => none) hC Y (i := i) hb
    refine ⟨j, Or.inl ⟨(fun h => by simp only [h] at h1; cases h1), fun j' hj' c hc => ?_⟩⟩
    rcases h3 with h3 | h3
    · have hn : ix.needsE n j = needs ix.ops (fun _ _ _ => none) rootBlk n.st.entry (n.eth j) := by
        obtain ⟨w, hw⟩ := Option.isSome_iff_exists.1 h3
        simp only at hw
        unfold Ix.needsE needs
        have : (ix.visitEntry n j).st.entry = (Tree.act ix.ops (fun _ _ _ => none) rootBlk n.st.entry (n.eth j)).1 := by
          unfold Ix.visitEntry
          cases hth : n.eth j <;> rw [hth] at hw <;> first | (simp only [settleE_st]; rfl) | simp [pending] at hw
        rw [this]
        cases visit rootBlk (n.eth j) <;> rfl
      rw [hn]
      exact h2.1 j' hj' c hc
    · rw [holds_eq, h3 j'] at hc
      cases hc
  · obtain ⟨e, he, hp, hat⟩ := I.inTree hb
    obtain ⟨K, hK, key, G, hk, Y, -⟩ := ((I.tup e he).tree t hp).2
    obtain ⟨j, z, h1, h2, -⟩ := SysInv.someone (seek := seekData (ix.ctx e.key.attnum)) hC Y (i := i) hb
    refine ⟨j, Or.inr ⟨t, h1, fun j' hj' c hc => ?_⟩⟩
    obtain ⟨e', he', hp', hat'⟩ := I.inTree (i := j) (t := t) h1
    unfold Ix.needsT
    rw [hat', I.inj e' he' e he t hp' hp]
    exact h2.1 j' hj' c hc

end Rum.Index

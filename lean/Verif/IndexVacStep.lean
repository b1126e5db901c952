import Verif.IndexVacStart
/-
The steps of VACUUM keep the invariant of the index, the backends and VACUUM. Proof apparatus.
-/
namespace Rum.Index.VC
open Rum Rum.Codec Rum.Leaf Rum.Entry Rum.Tree Rum.Index Rum.Props Rum.Props.PostingTree Rum.Props.VacConc Std

variable {V : Type} {ix : Ix V} [Inhabited V] {M : Lim} {g : Gh V} {n : Net V} {dead : Iptr → Bool} {p : Pos}

/-- A step of VACUUM. -/
theorem NInv.vstep (I : NInv ix M g (some ⟨dead, p⟩) n) {st' : State V} {q : Option Pos}
    (he : EV ix st' n.eth (q.map (⟨dead, ·⟩)) g.r) (ht : ∀ e ∈ contents st'.entry rootBlk, Tuple ix M st' n.tth (q.map (⟨dead, ·⟩)) g e) (hi : Inj st')
    (hr : ∀ k, ∀ y ∈ ix.rowsOf st' k, y ∈ ix.rowsOf n.st k) (hg : Grow ix (fun a => dead a = false) n.st st')
    (hok : q = none → ∀ k, ¬ Dirty ix st' dead k) (hcl : ∀ p', q = some p' → Clean st' dead p') :
    NInv ix M g (q.map (⟨dead, ·⟩)) { n with st := st' } := by
  obtain ⟨al1, al2⟩ := I.alive _ rfl
  refine ⟨he, ht, hi, fun k y hy => ⟨(I.ok k y (hr k y hy)).1, ?_⟩, fun w hw => ?_, fun w hw => ?_, fun j => ?_, fun op ho => ?_⟩
  · rcases (I.ok k y (hr k y hy)).2 with h | ⟨w, hw, hd⟩
    · exact Or.inl h
    · cases hw
      cases q with
      | none => exact absurd ⟨y, hy, hd⟩ (hok rfl k)
      | some p' => exact Or.inr ⟨_, rfl, hd⟩
  · cases q with
    | none => cases hw
    | some p' => cases hw; exact ⟨al1, al2⟩
  · cases q with
    | none => cases hw
    | some p' => cases hw; exact hcl p' rfl
  · exact (I.job j).grow hg al1 (al2 j)
  · rcases I.due op ho with h | h
    · exact Or.inl (made_grow hg (al1 op ho) h)
    · exact Or.inr h

/-- A step that changes nothing in the index. -/
theorem NInv.vmove (hc : ColsOK ix M) (I : NInv ix M g (some ⟨dead, p⟩) n) {q : Option Pos} (he : EV ix n.st n.eth (q.map (⟨dead, ·⟩)) g.r)
    (ht : ∀ e ∈ contents n.st.entry rootBlk, Tuple ix M n.st n.tth (q.map (⟨dead, ·⟩)) g e)
    (hok : q = none → ∀ k, ¬ Dirty ix n.st dead k) (hcl : ∀ p', q = some p' → Clean n.st dead p') :
    NInv ix M g (q.map (⟨dead, ·⟩)) { n with st := n.st } :=
  have := hc.keys
  have := cmp_trans ix
  I.vstep he ht I.inj (fun _ _ h => h) ⟨fun _ _ h _ => h, fun _ h _ _ => h, fun e he => ⟨e, he, ReflCmp.compare_self⟩⟩ hok hcl

/-- Only VACUUM's place in the entry tree changes. -/
theorem RideOK.pos {K : Type} [LinearOrder K] {key : Ent V → K} {st : State V} {G : Ghost} {r : Ride V} (h : RideOK ix key st G (some ⟨dead, p⟩) r) {v : Option Vac}
    (hv : ∀ w, v = some w → w.dead = dead) : RideOK ix key st G v r :=
  ⟨h.low, h.past, h.here, h.rows, fun w hw => by rw [hv w hw]; exact h.live _ rfl⟩

theorem EV.move {st : State V} {th : Nat → Thread (Ent V)} {r : Ride V} (h : EV ix st th (some ⟨dead, p⟩) r) {q : Pos}
    (hq : ∀ (K : Type) (_ : LinearOrder K) (key : Ent V → K) (G : Ghost), KeyOf ix.cmp key →
      SysInv True True key true (InnerFit ix) (KeyFit ix) (fun l => l.length ≤ 1) (LeafOK ix) ix.ops rootBlk ⟨st.entry, th⟩ G →
      PosOK key st.entry G (Dirty ix st dead) (TreeKey ix st.entry) p → PosOK key st.entry G (Dirty ix st dead) (TreeKey ix st.entry) q) :
    EV ix st th (some ⟨dead, q⟩) r := by
  obtain ⟨K, hK, key, G, hk, Y, hP, hR⟩ := h
  exact ⟨K, hK, key, G, hk, Y, fun w hw => by cases hw; exact hq K hK key G hk Y (hP _ rfl), hR.pos (fun w hw => by cases hw; rfl)⟩

theorem Spot.imp {K : Type} [LinearOrder K] {key : Ent V → K} {s : Store (Ent V)} {G : Ghost} {Q Q' : AttKey V → Prop} {b : Nat}
    (h : Spot key s G Q b) (hQ : ∀ k, Q' k → Q k) : Spot key s G Q' b := by
  obtain ⟨h1, A, B, h2, h3⟩ := h
  exact ⟨h1, A, B, h2, fun k hk => h3 k (hQ k hk)⟩

theorem Next.imp {K : Type} [LinearOrder K] {key : Ent V → K} {s : Store (Ent V)} {G : Ghost} {Q Q' : AttKey V → Prop} {b : Option Nat}
    (h : Next key s G Q b) (hQ : ∀ k, Q' k → Q k) : Next key s G Q' b := by
  cases b with
  | none => exact fun k hk => h k (hQ k hk)
  | some r => exact Spot.imp h hQ

theorem NInv.vDown (hc : ColsOK ix M) (I : NInv ix M g (some ⟨dead, .down b⟩) n) :
    ∃ r, ix.vacVisit dead n.st (.down b) = some r ∧ NInv ix M g (r.2.map (⟨dead, ·⟩)) { n with st := r.1 } := by
  have hT : ∀ q, (∀ t, tv (some ⟨dead, q⟩) t = none) → ∀ e ∈ contents n.st.entry rootBlk, Tuple ix M n.st n.tth (some ⟨dead, q⟩) g e :=
    fun q hq e he => (I.tup e he).same rfl rfl (fun t => by rw [hq t]; rfl)
  by_cases hl : (n.st.entry.page b).leaf = true
  · refine ⟨(n.st, some (.leaf b)), by simp [Ix.vacVisit, hl], I.vmove hc (q := some (.leaf b)) (I.entry.move (fun K hK key G hk Y hP => ?_))
      (hT _ (fun _ => rfl)) (fun h => by cases h) (fun p' h => by cases h; trivial)⟩
    rcases desc_step Y.good.weak hP with ⟨-, B, e⟩ | ⟨h, -⟩
    · by_cases hb : b = rootBlk
      · exact Or.inl hb
      · exact Or.inr ⟨hb, [], B, e, fun k _ c hc => by cases hc⟩
    · simp only at h; rw [hl] at h; cases h
  · simp only [Bool.not_eq_true] at hl
    obtain ⟨K, hK, key, G, hk, Y, hP, hR⟩ := I.entry
    rcases desc_step Y.good.weak (hP _ rfl) with ⟨h, -⟩ | ⟨-, d, h1, h2⟩
    · simp only at h; rw [hl] at h; cases h
    · refine ⟨(n.st, some (.down d.2)), by simp only at h1; simp [Ix.vacVisit, hl, h1], I.vmove hc (q := some (.down d.2))
        ⟨K, hK, key, G, hk, Y, fun w hw => by cases hw; exact h2, hR.pos (fun w hw => by cases hw; rfl)⟩ (hT _ (fun _ => rfl)) (fun h => by cases h) (fun p' h => by cases h; trivial)⟩

theorem NInv.vLeaf (hc : ColsOK ix M) (hal : ∀ k, 8 ∣ ix.keySize k) (hM : M.single = true) (I : NInv ix M g (some ⟨dead, .leaf b⟩) n) :
    ∃ r, ix.vacVisit dead n.st (.leaf b) = some r ∧ NInv ix M g (r.2.map (⟨dead, ·⟩)) { n with st := r.1 } := by
  have := hc.keys
  have := cmp_trans ix
  have hT : ∀ q, (∀ t, tv (some ⟨dead, q⟩) t = none) → ∀ e ∈ contents n.st.entry rootBlk, Tuple ix M n.st n.tth (some ⟨dead, q⟩) g e :=
    fun q hq e he => (I.tup e he).same rfl rfl (fun t => by rw [hq t]; rfl)
  by_cases hl : b = rootBlk ∧ (n.st.entry.page b).leaf = false
  · refine ⟨(n.st, some (.down rootBlk)), ?_, I.vmove hc (q := some (.down rootBlk)) (I.entry.move (fun K hK key G hk Y hP => Or.inl rfl))
      (hT _ (fun _ => rfl)) (fun h => by cases h) (fun p' h => by cases h; trivial)⟩
    show ix.vacLeaf dead n.st b = _
    unfold Ix.vacLeaf
    rw [if_pos hl]
  · obtain ⟨K, hK, key, G, hk, Y, hP, hR⟩ := I.entry
    have W : Weak key true n.st.entry rootBlk G := Y.good.weak
    have hspot : ∃ A B, G.lv 0 = A ++ b :: B ∧ ∀ k, Dirty ix n.st dead k → Low key n.st.entry A (probe k) := by
      rcases hP _ rfl with rfl | ⟨-, A, B, e, h⟩
      · rcases desc_step W (b := rootBlk) (Or.inl rfl) with ⟨-, B, e⟩ | ⟨h, -⟩
        · exact ⟨[], B, e, fun k _ c hc => by cases hc⟩
        · exact absurd ⟨rfl, h⟩ hl
      · exact ⟨A, B, e, h⟩
    obtain ⟨A, B, e, hlow⟩ := hspot
    have hb : b ∈ G.lv 0 := by rw [e]; simp
    have E : EG False key G ix n.st.entry := ⟨hk, Y.good, Y.bnd trivial⟩
    have H : IInv False ix M n.st := by
      refine ⟨E.einv, fun e he => ?_, I.inj⟩
      have h := I.tup e he
      exact ⟨h.key, h.list, fun t ht => ⟨(h.tree t ht).1, TV.inv hM (h.tree t ht).2⟩⟩
    obtain ⟨its, ch, g1, g2, g3, g4⟩ := pageVac_spec hc hal dead E H hb
    set st1 : State V := { n.st with entry := n.st.entry.set b { n.st.entry.page b with items := its } } with hst1
    obtain ⟨p1, p2, p3, p4, p5, p6⟩ := page_step hc E H hb g2 g3 hst1
    have hpos : ix.vacVisit dead n.st (.leaf b) =
        some (st1, some (.trees (rootsOf (n.st.entry.page b).items) (n.st.entry.page b).right)) := by
      show ix.vacLeaf dead n.st b = _
      unfold Ix.vacLeaf
      rw [if_neg hl, g1]
      simp only
      rw [g4]
    have hhi : ∀ c, hiP key (st1.entry.page c) = hiP key (n.st.entry.page c) := by
      intro c
      rw [hst1]
      show hiP key ((n.st.entry.set b _).page c) = _
      rw [Store.set_page]
      split
      · next h => rw [h]; rfl
      · rfl
    have W1 : Weak key true st1.entry rootBlk G := p1.good.weak
    have hMv : Moved key rootBlk (fun _ => False) (fun _ _ => False) n.st.entry G st1.entry G := by
      refine ⟨Keeps.refl _ _, fun A a B _ e => ⟨A, B, e, fun c hc => ⟨c, hc, by rw [hhi]⟩, fun c hc => ⟨c, hc, by rw [hhi]⟩⟩, fun c _ _ _ => hhi c, ?_⟩
      exact Nat.le_refl _
    have Y1 : SysInv True True key true (InnerFit ix) (KeyFit ix) (fun l => l.length ≤ 1) (LeafOK ix) ix.ops rootBlk ⟨st1.entry, n.eth⟩ G :=
      ⟨p1.good, fun _ => p1.bound, fun i => ThreadOK.moved W W1 hMv (Y.ok i) (fun _ _ h => h), Y.batch, Y.dist, Y.alloc, Y.adj, Y.fresh, Y.notlost⟩
    have hsub : ∀ k, ∀ y ∈ ix.rowsOf st1 k, y ∈ ix.rowsOf n.st k := fun k y hy => (p3.trim k).1.subset hy
    have hroots : ∀ p ∈ rootsOf (n.st.entry.page b).items, ∃ e ∈ contents st1.entry rootBlk, e.post = .tree p.1 ∧ e.key.attnum = p.2 := by
      intro p hp
      obtain ⟨e, he, h1, h2⟩ := mem_rootsOf.1 hp
      exact ⟨e, (p6 p.1 e h1).2 ((E.mem e).2 ⟨b, hb, he⟩), h1, h2⟩
    have hgrow : Grow ix (fun a => dead a = false) n.st st1 := by
      refine ⟨fun k y hy hd => (p3.trim k).2 y hy hd, fun e he t ht => (p6 t e ht).2 he, fun e he => ?_⟩
      obtain ⟨c, hcl, hin⟩ := (E.mem e).1 he
      obtain ⟨e1, z1, z2⟩ := (p4 c e.key).2 ⟨e, hin, ReflCmp.compare_self (cmp := ix.cmp) (a := e)⟩
      exact ⟨e1, (p1.mem e1).2 ⟨c, hcl, z1⟩, z2⟩
    refine ⟨_, hpos, I.vstep (q := some (.trees (rootsOf (n.st.entry.page b).items) (n.st.entry.page b).right))
      ⟨K, hK, key, G, hk, Y1, fun w hw => ?_, hR.moved hc hMv hgrow (hR.live _ rfl) (fun w hw => ⟨_, rfl, by cases hw; rfl⟩)⟩ (fun e he => ?_) (p2.inj) hsub hgrow
      (fun h => by cases h) (fun p' h => by cases h; exact hroots)⟩
    · cases hw
      -- the keys with dead rows left are further right
      have hfar : ∀ k, Dirty ix st1 dead k ∧ (¬ ∃ p ∈ rootsOf (n.st.entry.page b).items, TreeKey ix st1.entry p.1 k) →
          B ≠ [] ∧ Low key st1.entry (A ++ [b]) (probe k) := by
        intro k ⟨⟨y, hy, hd⟩, hnt⟩
        have hlowk : Low key st1.entry A (probe k) := by
          intro c hc'
          rw [hhi]
          exact hlow k ⟨y, hsub k y hy, hd⟩ c hc'
        rcases p2.rowsOf hc k with ⟨e1, q1, q2, -⟩ | ⟨-, q⟩
        · have hke : key (probe k) = key e1 := (hk.eq _ _).1 q2
          have hl1 : Low key st1.entry A e1 := by
            intro c hc'
            rw [← hke]
            exact hlowk c hc'
          rcases low_where W1 e q1 hl1 with hin | ⟨⟨c, hcB, -⟩, hlt⟩
          · exfalso
            obtain ⟨e0, z1, z2⟩ := (p4 b k).1 ⟨e1, hin, q2⟩
            cases hp0 : e0.post with
            | list d m =>
              rw [(p3 k).1 ⟨e0, z1, ⟨d, m, hp0⟩, z2⟩] at hy
              have := (List.mem_filter.1 hy).2
              simp [hd] at this
            | tree t =>
              exact hnt ⟨(t, e0.key.attnum), mem_rootsOf.2 ⟨e0, z1, hp0, rfl⟩, e0, (p6 t e0 hp0).2 ((E.mem e0).2 ⟨b, hb, z1⟩), hp0, z2⟩
          · refine ⟨(fun h => by rw [h] at hcB; cases hcB), low_snoc hlowk ?_⟩
            rw [hke]
            exact hlt
        · rw [q] at hy; cases hy
      have hr := (Linked.right (e ▸ W1.linked 0 (Nat.zero_le _))).1
      rw [p5 b] at hr
      show Next key st1.entry G _ (n.st.entry.page b).right
      cases B with
      | nil =>
        simp only [List.head?_nil, Option.none_or] at hr
        rw [hr]
        exact fun k hk' => (hfar k hk').1 rfl
      | cons r B =>
        simp only [List.head?_cons, Option.some_or] at hr
        rw [hr]
        refine ⟨?_, A ++ [b], B, by rw [e]; simp, fun k hk' => (hfar k hk').2⟩
        have h0 : 0 < G.h := by
          rcases Nat.eq_zero_or_pos G.h with h0 | h0
          · have hrt := W1.root
            rw [h0, e] at hrt
            have hlen := congrArg List.length hrt
            simp at hlen
            omega
          · exact h0
        exact ne_root W1 h0 (by rw [e]; simp)
    · have h2 := p2.ents e he
      refine ⟨h2.key, h2.list, fun t ht => ?_⟩
      have h := (I.tup e ((p6 t e ht).1 he)).tree t ht
      exact h

theorem NInv.vacStep (hc : ColsOK ix M) (hal : ∀ k, 8 ∣ ix.keySize k) (hM : M.single = true) (I : NInv ix M g (some ⟨dead, p⟩) n) (hmay : vacMay n p) :
    ∃ r, ix.vacVisit dead n.st p = some r ∧ NInv ix M g (r.2.map (⟨dead, ·⟩)) { n with st := r.1 } := by
  have := hc.keys
  have := cmp_trans ix
  have hcl := I.clean _ rfl
  obtain ⟨al1, al2⟩ := I.alive _ rfl
  cases p with
  | down b => exact I.vDown hc
  | leaf b => exact I.vLeaf hc hal hM
  | trees ts nxt =>
    cases ts with
    | nil =>
      cases nxt with
      | none =>
        have hno : ∀ k, ¬ Dirty ix n.st dead k := by
          obtain ⟨K, hK, key, G, hk, Y, hP, -⟩ := I.entry
          exact fun k hk => hP _ rfl k ⟨hk, by simp⟩
        refine ⟨(n.st, none), rfl, I.vmove hc (q := none) ?_ (fun e he => (I.tup e he).same rfl rfl (fun t => rfl)) (fun _ => hno) (fun p' h => by cases h)⟩
        obtain ⟨K, hK, key, G, hk, Y, hP, hR⟩ := I.entry
        exact ⟨K, hK, key, G, hk, Y, (fun w hw => by cases hw), hR.pos (fun w hw => by cases hw)⟩
      | some r =>
        refine ⟨(n.st, some (.leaf r)), rfl, I.vmove hc (q := some (.leaf r)) (I.entry.move (fun K hK key G hk Y hP => Or.inr ?_))
          (fun e he => (I.tup e he).same rfl rfl (fun t => rfl)) (fun h => by cases h) (fun p' h => by cases h; trivial)⟩
        exact Spot.imp hP (fun k hk => ⟨hk, by simp⟩)
    | cons ta ts =>
      obtain ⟨t, a⟩ := ta
      obtain ⟨e0, he0, hp0, ha0⟩ := hcl (t, a) (by simp)
      simp only at hp0 ha0
      subst ha0
      have hI := hc.infos e0.key.attnum
      have hT0 := ((I.tup e0 he0).tree t hp0).2
      obtain ⟨v1, v2⟩ := TV.vacuum (hc.sizes e0.key.attnum) hT0 dead hmay (fun i _ => al2 i)
      refine ⟨(n.st, some (.tree t _ ts nxt)), rfl, I.vmove hc (q := some (.tree t _ ts nxt)) (I.entry.move (fun K hK key G hk Y hP => ?_))
        (fun e he => ?_) (fun h => by cases h) (fun p' h => by cases h; exact ⟨fun p hp => hcl p (by simp [hp]), ⟨e0, he0, hp0⟩, v2⟩)⟩
      · exact Next.imp hP (fun k ⟨q1, q2, q3⟩ => ⟨q1, fun ⟨p, hp, hk⟩ => by
          rcases List.mem_cons.1 hp with rfl | hp
          · exact q2 hk
          · exact q3 ⟨p, hp, hk⟩⟩)
      · have h := I.tup e he
        refine ⟨h.key, h.list, fun u hu => ⟨(h.tree u hu).1, ?_⟩⟩
        by_cases hut : u = t
        · subst hut
          obtain rfl := I.inj e he e0 he0 u hu hp0
          simp only [Option.map_some, tv, if_true]
          exact v1
        · have := (h.tree u hu).2
          simp only [Option.map_some, tv, if_neg (fun h => hut (Eq.symm h))]
          exact this
  | tree t us ts nxt =>
    obtain ⟨c1, ⟨e0, he0, hp0⟩, c3⟩ := hcl
    have hI := hc.infos e0.key.attnum
    have hT0 := ((I.tup e0 he0).tree t hp0).2
    simp only [tv, if_true] at hT0
    have hkk : ix.cmp (probe e0.key) e0 = .eq := ReflCmp.compare_self (cmp := ix.cmp) (a := probe e0.key)
    have hE := I.entry.einv
    cases us with
    | nil =>
      refine ⟨(n.st, some (.trees ts nxt)), rfl, I.vmove hc (q := some (.trees ts nxt)) (I.entry.move (fun K hK key G hk Y hP => ?_))
        (fun e he => ?_) (fun h => by cases h) (fun p' h => by cases h; exact c1)⟩
      · refine Next.imp hP (fun k ⟨q1, q2⟩ => ⟨q1, fun hk' => ?_, q2⟩)
        obtain ⟨y, hy, hd⟩ := q1
        obtain ⟨e, g1, g2, g3⟩ := hk'
        rw [EInv.rowsOf_eq hc hE g1 g3] at hy
        unfold rows at hy
        rw [g2] at hy
        have hd' : dead y.iptr = false := c3 y hy
        rw [hd'] at hd
        cases hd
      · have h := I.tup e he
        refine ⟨h.key, h.list, fun u hu => ⟨(h.tree u hu).1, ?_⟩⟩
        by_cases hut : u = t
        · subst hut
          obtain rfl := I.inj e he e0 he0 u hu hp0
          exact TV.release (hc.sizes e.key.attnum) hT0
        · have := (h.tree u hu).2
          simp only [tv, if_neg (fun h => hut (Eq.symm h))] at this
          exact this
    | cons u us =>
      obtain ⟨v1, v2, v3⟩ := TV.record (hc.sizes e0.key.attnum) hT0 hmay
      have hown : ∀ k', Same ix k' e0.key → ix.rowsOf (n.st.setTree t u) k' = contents u 0 := fun k' hs => tree_rows hc hE he0 hp0 u hkk hs
      have hoth : ∀ k', ¬ Same ix k' e0.key → ix.rowsOf (n.st.setTree t u) k' = ix.rowsOf n.st k' :=
        fun k' hs => tree_other hc hE I.inj he0 hp0 u hkk hs
      have hold : ∀ k', Same ix k' e0.key → ix.rowsOf n.st k' = contents (n.st.trees t) 0 := by
        intro k' hs
        rw [EInv.rowsOf_eq hc hE he0 hs]
        unfold rows
        rw [hp0]
      have hsub : ∀ k, ∀ y ∈ ix.rowsOf (n.st.setTree t u) k, y ∈ ix.rowsOf n.st k := by
        intro k y hy
        by_cases hs : Same ix k e0.key
        · rw [hown k hs] at hy
          rw [hold k hs]
          exact v2 y hy
        · rw [hoth k hs] at hy; exact hy
      have hgrow : Grow ix (fun a => dead a = false) n.st (n.st.setTree t u) := by
        refine ⟨fun k y hy hd => ?_, fun e he _ _ => he, fun e he => ⟨e, he, ReflCmp.compare_self⟩⟩
        by_cases hs : Same ix k e0.key
        · rw [hown k hs]
          rw [hold k hs] at hy
          exact v3 y hy hd
        · rw [hoth k hs]; exact hy
      refine ⟨(n.st.setTree t u, some (.tree t us ts nxt)), rfl, I.vstep (q := some (.tree t us ts nxt)) ?_ (fun e he => ?_) I.inj hsub
        hgrow (fun h => by cases h) (fun p' h => ?_)⟩
      · refine EV.mono hc (st := n.st) (I.entry.move (fun K hK key G hk Y hP => hP)) rfl hgrow (by
          obtain ⟨K, hK, key, G, hk, Y, hP, hR⟩ := I.entry
          exact hR.live _ rfl) (fun w hw k hd => ?_)
        cases hw
        obtain ⟨y, hy, hd⟩ := hd
        exact ⟨y, hsub k y hy, hd⟩
      · have h := I.tup e he
        refine ⟨h.key, h.list, fun u' hu => ⟨(h.tree u' hu).1, ?_⟩⟩
        by_cases hut : u' = t
        · subst hut
          obtain rfl := I.inj e he e0 he0 u' hu hp0
          simp only [Option.map_some, tv, if_true, State.setTree]
          exact v1
        · have := (h.tree u' hu).2
          simp only [tv, if_neg (fun h => hut (Eq.symm h))] at this
          simp only [Option.map_some, tv, if_neg (fun h => hut (Eq.symm h)), State.setTree, if_neg hut]
          exact this
      · cases h
        refine ⟨c1, ⟨e0, he0, hp0⟩, ?_⟩
        have : (n.st.setTree t u).trees t = u := by simp [State.setTree]
        simp only [this]
        have e : lastStore u us = lastStore (n.st.trees t) (u :: us) := by
          unfold lastStore
          cases us with
          | nil => rfl
          | cons a l => simp [List.getLast?_cons]
        rw [e]
        exact c3

/-! ### Somebody can go on -/

omit [Inhabited V] in
theorem pins_busy {α : Type} {root b : Nat} {th : Thread α} (h : b ∈ pins root th) : th.free = false := by
  cases th <;> first | rfl | simp [pins] at h

/-- Backends in a posting tree that VACUUM is not in. -/
theorem NInv.someTree (hbd : ix.build = false) {v : Option Vac} (I : NInv ix M g v n) {t i : Nat} (hb : (n.tth t i).free = false) (hv : tv v t = none) :
    ∃ j, (n.tth t j).free = false ∧ ∀ j', j' ≠ j → ∀ c, holds (n.tth t j') = some c → c ∉ ix.needsT n t j := by
  obtain ⟨e, he, hp, hat⟩ := I.inTree hb
  have hT := ((I.tup e he).tree t hp).2
  rw [hv] at hT
  obtain ⟨K, hK, key, G, hk, Y⟩ := hT
  obtain ⟨j, z, h1, h2, -⟩ := SysInv.someone (seek := seekData (ix.ctx e.key.attnum)) trivial (Y.quiet rfl) (i := i) hb
  refine ⟨j, h1, fun j' hj' c hc => ?_⟩
  obtain ⟨e', he', hp', hat'⟩ := I.inTree (i := j) (t := t) h1
  unfold Ix.needsT Ix.treeOps
  rw [hat', I.inj e' he' e he t hp' hp, hbd]
  exact h2.1 j' hj' c hc

theorem NInv.live (hbd : ix.build = false) {v : Option Vac} (I : NInv ix M g v n) (hb : v ≠ none ∨ ∃ i, (n.job i).free = false) :
    (∃ j, n.eth j ≠ .idle ∧ ∀ j', j' ≠ j → ∀ c, holds (n.eth j') = some c → c ∉ ix.needsE n j) ∨
    (∃ t j, (n.tth t j).free = false ∧ (∀ j', j' ≠ j → ∀ c, holds (n.tth t j') = some c → c ∉ ix.needsT n t j) ∧
      (tv v t ≠ none → visit 0 (n.tth t j) ≠ some 0)) ∨ ∃ w, v = some w ∧ vacMay n w.pos := by
  by_cases hE : ∃ i, (n.eth i).free = false
  · left
    obtain ⟨i, hb⟩ := hE
    obtain ⟨K, hK, key, G, hk, Y, -⟩ := I.entry
    obtain ⟨j, z, h1, h2, h3⟩ := SysInv.someone (seek := fun _ _ _ => none) trivial Y (i := i) hb
    refine ⟨j, (fun h => by simp only [h] at h1; cases h1), fun j' hj' c hc => ?_⟩
    rcases h3 with h3 | h3
    · have hn : ix.needsE n j = needs ix.ops (fun _ _ _ => none) rootBlk n.st.entry (n.eth j) := by
        obtain ⟨w, hw⟩ := Option.isSome_iff_exists.1 h3
        simp only at hw
        unfold Ix.needsE needs
        have : (ix.visitEntry n j).st.entry = (Tree.act ix.ops (fun _ _ _ => none) rootBlk n.st.entry (n.eth j)).1 := by
          unfold Ix.visitEntry
          cases hth : n.eth j <;> rw [hth] at hw <;> first | (simp only [settleE_st]; rfl) | simp [pending] at hw
        rw [this]
        cases visit rootBlk (n.eth j) <;> rfl
      rw [hn]
      exact h2.1 j' hj' c hc
    · rw [holds_eq, h3 j'] at hc
      cases hc
  · right
    have hno : ∀ i, holds (n.eth i) = none := by
      intro i
      have hf : (n.eth i).free = true := by
        by_contra h
        exact hE ⟨i, by simpa using h⟩
      cases hth : n.eth i <;> rw [hth] at hf <;> first | rfl | cases hf
    cases v with
    | none =>
      left
      obtain ⟨i, hi⟩ := hb.resolve_left (by simp)
      rcases I.busy hi with h | ⟨t, h⟩
      · exact absurd ⟨i, h⟩ hE
      · obtain ⟨j, h1, h2⟩ := I.someTree hbd h rfl
        exact ⟨t, j, h1, h2, fun h => absurd rfl h⟩
    | some w =>
      obtain ⟨dead, p⟩ := w
      cases p with
      | down b => exact Or.inr ⟨_, rfl, fun j h => by rw [hno j] at h; cases h⟩
      | leaf b => exact Or.inr ⟨_, rfl, fun j h => by rw [hno j] at h; cases h⟩
      | trees ts nxt =>
        cases ts with
        | nil => exact Or.inr ⟨_, rfl, trivial⟩
        | cons ta ts =>
          obtain ⟨t, a⟩ := ta
          by_cases hp : ∀ j, 0 ∉ pins 0 (n.tth t j)
          · exact Or.inr ⟨_, rfl, hp⟩
          · push Not at hp
            obtain ⟨i, hi⟩ := hp
            obtain ⟨j, h1, h2⟩ := I.someTree hbd (pins_busy hi) rfl
            exact Or.inl ⟨t, j, h1, h2, fun h => absurd rfl h⟩
      | tree t us ts nxt =>
        cases us with
        | nil => exact Or.inr ⟨_, rfl, trivial⟩
        | cons u us =>
          by_cases hp : ∀ j, ∀ b ∈ pins 0 (n.tth t j), (u.page b).deleted = true → ((n.st.trees t).page b).deleted = true
          · exact Or.inr ⟨_, rfl, hp⟩
          · push Not at hp
            obtain ⟨i, b, hb, hd, -⟩ := hp
            left
            obtain ⟨e, he, hp, -⟩ := I.inTree (pins_busy hb)
            have hT := ((I.tup e he).tree t hp).2
            simp only [tv, if_true] at hT
            obtain ⟨K, hK, key, G, hk, Y⟩ := hT
            obtain ⟨b1, b2, b3, G', b4, b5⟩ := Y.busy dead _ rfl
            have hnr : b ≠ 0 := by
              rintro rfl
              cases b4 with
              | @cons _ _ _ Gu _ _ V B Ch =>
                have := (B.thin.alloc Gu.h (Nat.le_refl _) 0 (by rw [B.thin.root]; simp)).2
                rw [this] at hd; cases hd
            have hc := b2 i
            simp only at hc
            have hfv : (n.tth t i).free = false ∧ visit 0 (n.tth t i) ≠ some 0 := by
              generalize n.tth t i = th at hb hc
              cases th with
              | ins bt p up =>
                obtain ⟨-, -, rfl⟩ := hc.2.2 bt p up rfl
                simp [pins] at hb
              | walk _ _ _ _ => simp [Calm, pending] at hc
              | top _ => simp [Calm, pending] at hc
              | level _ _ _ => simp [Calm, pending] at hc
              | scan c acc =>
                simp only [pins, List.mem_singleton] at hb
                subst hb
                exact ⟨rfl, by simpa [visit] using hnr⟩
              | next c cur acc =>
                simp only [pins, List.mem_singleton] at hb
                subst hb
                exact ⟨rfl, by simpa [visit] using hnr⟩
              | cursor c L cur acc =>
                simp only [pins, List.mem_singleton] at hb
                subst hb
                refine ⟨rfl, ?_⟩
                cases L with
                | nil => simpa [visit] using hnr
                | cons => simp [visit]
              | _ => simp [pins] at hb
            refine ⟨t, i, hfv.1, fun j _ c hh => ?_, fun _ => hfv.2⟩
            have hb2 := (b2 j).2.1
            simp only at hb2
            rw [holds_eq, hb2] at hh
            cases hh

end Rum.Index.VC

import Verif.IndexWalk
import Verif.IndexVacStep
import Verif.Props.Collect
/-
What a visit of a range search to a page of the entry tree gives. Proof apparatus.
-/
namespace Rum.Index.VC
open Rum Rum.Codec Rum.Leaf Rum.Entry Rum.Tree Rum.Index Rum.Props Rum.Props.PostingTree Rum.Props.VacConc Rum.Props.Collect Std

variable {V : Type}

/-- The items collected so far. -/
def acc : WPos V → List (Item Datum)
  | .page _ acc | .tree _ _ _ acc | .seek _ _ acc | .done acc => acc
  | _ => []

/-- Neither on the way to the leaf nor in a posting tree. -/
def Still : WPos V → Prop
  | .down | .tree _ _ _ _ => False
  | _ => True

/-- `P`: rows that must be found; `q`: the first key. -/
def WPosOK (ix : Ix V) [Inhabited V] (r : Ride V) (P : AttKey V → Item Datum → Prop) (q : AttKey V) : WPos V → Prop
  | .down => True
  | .page b acc => r.L b q ∧ ∀ k y, P k y → y ∈ acc ∨ r.W b k
  | .tree k b off acc => (b = rootBlk ∨ r.W b k) ∧ ix.cmp (probe q) (probe k) ≠ .gt ∧ r.E k ∧ k.attnum = q.attnum ∧
      (∀ k' y, P k' y → ix.cmp (probe k') (probe k) = .lt → y ∈ acc) ∧
      ∃ ks : List (AttKey V), off ≤ ks.length + 1 ∧ ks.Pairwise (fun a b => ix.cmp (probe a) (probe b) = .lt) ∧
        ∀ x ∈ ks, r.E x ∧ ix.cmp (probe x) (probe k) = .lt ∧ (b = rootBlk ∨ r.W b x)
  | .seek k b acc => r.W b k ∧ ix.cmp (probe q) (probe k) ≠ .gt ∧ r.E k ∧ k.attnum = q.attnum ∧
      ∀ k' y, P k' y → ix.cmp (probe k') (probe k) ≠ .gt → y ∈ acc
  | .done acc => ∀ k y, P k y → y ∈ acc
  | .error => ∃ k, r.E k ∧ k.attnum < q.attnum

/-- All there is to remember. -/
def full (ix : Ix V) [Inhabited V] {K : Type} [LinearOrder K] (key : Ent V → K) (st : State V) (G : Ghost) (P : AttKey V → Item Datum → Prop) : Ride V :=
  ⟨fun b k => Spot key st.entry G (· = k) b,
   fun b k => b ≠ rootBlk ∧ ∃ A B, G.lv 0 = A ++ b :: B ∧ ∃ c ∈ A, ((key (probe k) : K) : WithTop K) ≤ hiP key (st.entry.page c),
   fun k => ∃ e ∈ contents st.entry rootBlk, ix.cmp (probe k) e = .eq, P⟩

theorem probe_eq [Inhabited V] {K : Type} [LinearOrder K] {ix : Ix V} [∀ m, TransCmp (ix.cmpK m)] {key : Ent V → K} (hk : KeyOf ix.cmp key) (e : Ent V) : key (probe e.key) = key e := by
  have := cmp_trans ix
  exact (hk.eq _ _).1 (ReflCmp.compare_self (cmp := ix.cmp) (a := probe e.key))

/-- What comes of a visit to a page: where the search is, and whether it goes into a posting tree. -/
structure Out (ix : Ix V) [Inhabited V] (st : State V) (r : Ride V) (P : AttKey V → Item Datum → Prop) (a : Nat) (lk : Look V) (acc0 : List (Item Datum))
    (o : WPos V × Option (AttKey V × Nat)) : Prop where
  ok : WPosOK ix r P ⟨a, lk.cat, lk.key⟩ o.1
  sound : ∀ y ∈ acc o.1, y ∈ acc0 ∨ ∃ k, Wants ix a lk k ∧ y ∈ ix.rowsOf st k
  tree : (Still o.1 ∧ o.2 = none) ∨ ∃ k b off acc t, o = (.tree k b off acc, some (k, t)) ∧ Wants ix a lk k ∧
    ∃ e ∈ contents st.entry rootBlk, e.post = .tree t ∧ ix.cmp (probe k) e = .eq

section
variable {C : Prop} {ix : Ix V} [Inhabited V] {M : Lim} {st : State V} {K : Type} [LinearOrder K] {key : Ent V → K} {G : Ghost}
  {P : AttKey V → Item Datum → Prop} {a : Nat} {lk : Look V} {b : Nat} {A B : List Nat}

/-- Nothing is wanted from a tuple on at which the search stops. -/
theorem stop_unwanted (hc : ColsOK ix M) (hlk : LookOK (ix.cmpK a) lk) (hv : lk.void = false) (hx : lk.mode ≠ .exact) {e : Ent V} {k : AttKey V}
    (hge : ix.cmp e (probe ⟨a, lk.cat, lk.key⟩) ≠ .lt) (hle : ix.cmp (probe k) e ≠ .lt) (hj : judge a lk.mode e.key = .stop) : ¬ Wants ix a lk k := by
  have := hc.keys
  intro hw
  have ha := hw.1
  have hle' := att_not_lt hle
  have hge' := att_not_lt hge
  simp only [probe] at hle' hge'
  have hea : e.key.attnum = a := by
    rcases hge' with h | ⟨h, -⟩
    · rcases hle' with h' | ⟨h', -⟩ <;> omega
    · exact h
  unfold judge at hj
  rw [if_neg (by simp [hea])] at hj
  have hle2 : e.key.cat.code < k.cat.code ∨ (k.cat = e.key.cat ∧ (k.cat = .norm → ix.cmpK a k.key e.key.key ≠ .lt)) := by
    rcases hle' with h | ⟨-, h⟩
    · omega
    · rw [ha] at h; exact h
  unfold Wants at hw
  unfold LookOK at hlk
  cases hm : lk.mode with
  | exact => exact hx hm
  | everything => rw [hm] at hj; cases hj
  | all =>
    rw [hm] at hj hw
    simp only at hj hw
    split at hj
    · next h =>
      rcases hle2 with h' | ⟨h', -⟩
      · rw [h] at h'
        cases hk : k.cat <;> rw [hk] at h' <;> simp [Cat.code] at h'
      · exact hw.2 (h'.trans h)
    · cases hj
  | part cp =>
    rw [hm] at hj hw hlk
    obtain ⟨-, hcn, hkn, hk0⟩ := hw
    have hr : RangeOK (ix.cmpK a) lk.key cp := hlk hcn
    simp only at hj
    by_cases hen : e.key.cat = .norm
    · rw [if_neg (by simp [hen])] at hj
      have hpos : cp e.key.key > 0 := by
        by_contra h
        rw [if_neg h] at hj
        split at hj <;> cases hj
      refine hr.stop _ _ hpos ?_ ?_ hk0
      · rcases hge' with h | ⟨-, h | ⟨-, h⟩⟩
        · omega
        · rw [hen, hcn] at h; omega
        · have := h hen
          rw [hea] at this
          exact fun hg => this (OrientedCmp.lt_of_gt hg)
      · rcases hle2 with h | ⟨-, h⟩
        · rw [hen, hkn] at h; omega
        · exact fun hg => h hkn (OrientedCmp.lt_of_gt hg)
    · have h1 : e.key.cat.code ≠ k.cat.code := fun h => hen ((Cat.code_inj h).trans hkn)
      have h2 : e.key.cat.code < k.cat.code := by
        rcases hle2 with h | ⟨h, -⟩
        · exact h
        · exact absurd (congrArg Cat.code h.symm) h1
      rcases hge' with h | ⟨-, h | ⟨h, -⟩⟩
      · omega
      · rw [hcn] at h; rw [hkn] at h2; omega
      · exact hen (h.trans hcn)

/-- Where the tuple of a key with rows is. -/
theorem where_key (hc : ColsOK ix M) (H : EInv C ix st.entry) (hk : KeyOf ix.cmp key) (W : Weak key true st.entry rootBlk G) (e : G.lv 0 = A ++ b :: B)
    {k : AttKey V} (hl : Low key st.entry A (probe k)) {d : Ent V} (hd : d ∈ contents st.entry rootBlk) (hkd : ix.cmp (probe k) d = .eq) :
    d ∈ (st.entry.page b).items ∨ (B ≠ [] ∧ hiP key (st.entry.page b) < ((key (probe k) : K) : WithTop K)) := by
  have hke : key (probe k) = key d := (hk.eq _ _).1 hkd
  have hld : Low key st.entry A d := fun c hc' => by rw [← hke]; exact hl c hc'
  rcases low_where W e hd hld with h | ⟨⟨c, hcB, -⟩, hlt⟩
  · exact Or.inl h
  · exact Or.inr ⟨(fun h => by rw [h] at hcB; cases hcB), by rw [hke]; exact hlt⟩

theorem right_spot (W : Weak key true st.entry rootBlk G) (e : G.lv 0 = A ++ b :: B) : (st.entry.page b).right = B.head? ∧ ∀ r B', B = r :: B' → r ≠ rootBlk := by
  have hr := (Linked.right (e ▸ W.linked 0 (Nat.zero_le _))).1
  refine ⟨by simpa using hr, ?_⟩
  rintro r B' rfl
  have h0 : 0 < G.h := by
    rcases Nat.eq_zero_or_pos G.h with h0 | h0
    · have hrt := W.root
      rw [h0, e] at hrt
      have hlen := congrArg List.length hrt
      simp at hlen
      omega
    · exact h0
  exact ne_root W h0 (by rw [e]; simp)

/-- A key on a page is not to the left of it. -/
theorem low_here (W : Weak key true st.entry rootBlk G) (e : G.lv 0 = A ++ b :: B) {d : Ent V} (hd : d ∈ (st.entry.page b).items) : Low key st.entry A d := by
  intro c hc'
  have hp := W.order.pair
  rw [e] at hp
  exact ((List.pairwise_append.1 hp).2.2 c hc' b (by simp)).2 d hd

theorem walkFrom_ok (hc : ColsOK ix M) (H : EInv C ix st.entry) (hk : KeyOf ix.cmp key) (W : Weak key true st.entry rootBlk G) (e : G.lv 0 = A ++ b :: B)
    (hP : ∀ k y, P k y → Wants ix a lk k ∧ y ∈ ix.rowsOf st k) (hlk : LookOK (ix.cmpK a) lk) (hv : lk.void = false) (hx : lk.mode ≠ .exact)
    (hcq : ∃ c ∈ A ++ [b], ((key (probe ⟨a, lk.cat, lk.key⟩) : K) : WithTop K) ≤ hiP key (st.entry.page c)) (acc0 : List (Item Datum)) :
    ∀ (es X : List (Ent V)) (off : Nat) (ac : List (Item Datum)), (st.entry.page b).items = X ++ es → off ≤ X.length + 1 →
      (∀ d ∈ es, key (probe ⟨a, lk.cat, lk.key⟩) ≤ key d) →
      (∀ y ∈ ac, y ∈ acc0 ∨ ∃ k, Wants ix a lk k ∧ y ∈ ix.rowsOf st k) →
      (∀ k y, P k y → y ∈ ac ∨ (Low key st.entry A (probe k) ∧ ∀ x ∈ X, key x < key (probe k))) →
      Out ix st (full ix key st G P) P a lk acc0 (ix.walkFrom a lk.mode b (st.entry.page b).right es off ac) := by
  have := hc.keys
  have := cmp_trans ix
  have hb : b ∈ G.lv 0 := by rw [e]; simp
  have hsort := W.order.sorted b hb
  have hmem : ∀ d ∈ (st.entry.page b).items, d ∈ contents st.entry rootBlk := fun d hd => (mem_contents W).2 ⟨b, hb, hd⟩
  obtain ⟨hright, hrr⟩ := right_spot W e
  -- the tuple of a row that is not collected yet
  have hfind : ∀ (X es : List (Ent V)), (st.entry.page b).items = X ++ es → ∀ k y, P k y → Low key st.entry A (probe k) → (∀ x ∈ X, key x < key (probe k)) →
      (∃ d ∈ es, ix.cmp (probe k) d = .eq ∧ y ∈ rows ix st d) ∨ (B ≠ [] ∧ hiP key (st.entry.page b) < ((key (probe k) : K) : WithTop K)) := by
    intro X es hi k y hy hl hX
    have hrow := (hP k y hy).2
    rcases EInv.rowsOf hc H k with ⟨d, h1, h2, h3⟩ | ⟨-, h3⟩
    · rcases where_key hc H hk W e hl h1 h2 with h | h
      · rw [hi] at h
        rcases List.mem_append.1 h with h | h
        · exact absurd (hX d h) (by rw [(hk.eq _ _).1 h2]; exact _root_.lt_irrefl _)
        · exact Or.inl ⟨d, h, h2, by rw [← h3]; exact hrow⟩
      · exact Or.inr h
    · rw [h3] at hrow; cases hrow
  have hle : ∀ d ∈ (st.entry.page b).items, ((key d : K) : WithTop K) ≤ hiP key (st.entry.page b) := fun d hd => W.order.le b hb d hd
  intro es
  induction es with
  | nil =>
    intro X off ac hi ho _ hs hH
    rw [hright]
    cases B with
    | nil =>
      simp only [List.head?_nil, Ix.walkFrom]
      refine ⟨fun k y hy => ?_, hs, Or.inl ⟨trivial, rfl⟩⟩
      rcases hH k y hy with h | ⟨h1, h2⟩
      · exact h
      · rcases hfind X [] hi k y hy h1 h2 with ⟨d, hd, -⟩ | ⟨h, -⟩
        · cases hd
        · exact absurd rfl h
    | cons r B =>
      simp only [List.head?_cons, Ix.walkFrom]
      refine ⟨⟨⟨hrr r B rfl, A ++ [b], B, by rw [e]; simp, hcq⟩, fun k y hy => ?_⟩, hs, Or.inl ⟨trivial, rfl⟩⟩
      rcases hH k y hy with h | ⟨h1, h2⟩
      · exact Or.inl h
      · rcases hfind X [] hi k y hy h1 h2 with ⟨d, hd, -⟩ | ⟨-, h⟩
        · cases hd
        · exact Or.inr ⟨hrr r B rfl, A ++ [b], B, by rw [e]; simp, fun k' hk' => by rw [hk']; exact low_snoc h1 h⟩
  | cons d es ih =>
    intro X off ac hi ho hge hs hH
    have hdm : d ∈ (st.entry.page b).items := by rw [hi]; simp
    have hs' := hsort
    rw [hi] at hs'
    -- an uncollected row is under this key or a greater one
    have htri : ∀ k y, P k y → y ∈ ac ∨ (Low key st.entry A (probe k) ∧ (∀ x ∈ X, key x < key (probe k)) ∧
        ((ix.cmp (probe k) d = .eq ∧ y ∈ rows ix st d) ∨ key d < key (probe k))) := by
      intro k y hy
      rcases hH k y hy with h | ⟨h1, h2⟩
      · exact Or.inl h
      · refine Or.inr ⟨h1, h2, ?_⟩
        rcases hfind X (d :: es) hi k y hy h1 h2 with ⟨d', hd', h3, h4⟩ | ⟨-, h⟩
        · rcases List.mem_cons.1 hd' with rfl | hd'
          · exact Or.inl ⟨h3, h4⟩
          · right
            rw [(hk.eq _ _).1 h3]
            exact (List.pairwise_cons.1 (List.pairwise_append.1 hs').2.1).1 d' hd'
        · exact Or.inr (WithTop.coe_lt_coe.1 ((hle d hdm).trans_lt h))
    have hnext : ∀ ac', (∀ y ∈ ac', y ∈ acc0 ∨ ∃ k, Wants ix a lk k ∧ y ∈ ix.rowsOf st k) → (∀ y ∈ ac, y ∈ ac') →
        (∀ k y, P k y → ix.cmp (probe k) d = .eq → y ∈ rows ix st d → y ∈ ac') →
        Out ix st (full ix key st G P) P a lk acc0 (ix.walkFrom a lk.mode b (st.entry.page b).right es (off + 1) ac') := by
      intro ac' h1 h2 h3
      refine ih (X ++ [d]) (off + 1) ac' (by rw [hi]; simp) (by simp; omega) (fun x hx => hge x (List.mem_cons_of_mem _ hx)) h1 (fun k y hy => ?_)
      rcases htri k y hy with h | ⟨h4, h5, h6 | h6⟩
      · exact Or.inl (h2 y h)
      · exact Or.inl (h3 k y hy h6.1 h6.2)
      · refine Or.inr ⟨h4, fun x hx => ?_⟩
        rcases List.mem_append.1 hx with hx | hx
        · exact h5 x hx
        · simp only [List.mem_singleton] at hx
          rw [hx]; exact h6
    have hkd : ix.cmp (probe d.key) d = .eq := ReflCmp.compare_self (cmp := ix.cmp) (a := probe d.key)
    rw [Ix.walkFrom]
    cases hj : judge a lk.mode d.key with
    | stop =>
      refine ⟨fun k y hy => ?_, hs, Or.inl ⟨trivial, rfl⟩⟩
      rcases htri k y hy with h | ⟨-, -, h6⟩
      · exact h
      · refine absurd (hP k y hy).1 (stop_unwanted hc hlk hv hx ?_ ?_ hj)
        · intro h
          exact absurd (hge d (by simp)) (_root_.not_le.2 ((hk.lt _ _).1 h))
        · rcases h6 with h6 | h6
          · rw [h6.1]; simp
          · intro h
            exact absurd ((hk.lt _ _).1 h) (_root_.not_lt.2 (_root_.le_of_lt h6))
    | skip =>
      refine hnext ac hs (fun _ h => h) (fun k y hy h1 _ => ?_)
      have := (judge_take (ix := ix) hv hx d.key).2 (wants_same hc hlk (hP k y hy).1 h1)
      rw [hj] at this
      cases this
    | take =>
      have hw := (judge_take (ix := ix) hv hx d.key).1 hj
      have hrd : ix.rowsOf st d.key = rows ix st d := EInv.rowsOf_eq hc H (hmem d hdm) hkd
      cases hp : d.post with
      | list data n =>
        have hrow : rows ix st d = ix.readTuple d := by unfold rows; rw [hp]
        refine hnext _ (fun y hy => ?_) (fun y h => List.mem_append_left _ h) (fun k y _ _ h2 => List.mem_append_right _ (hrow ▸ h2))
        rcases List.mem_append.1 hy with hy | hy
        · exact hs y hy
        · exact Or.inr ⟨d.key, hw, by rw [hrd, hrow]; exact hy⟩
      | tree t =>
        have hspot : ∀ x ∈ (st.entry.page b).items, b = rootBlk ∨ Spot key st.entry G (· = x.key) b := by
          intro x hx
          by_cases hb' : b = rootBlk
          · exact Or.inl hb'
          · refine Or.inr ⟨hb', A, B, e, fun k' hk' => ?_⟩
            subst hk'
            intro c hc'
            rw [probe_eq hk]
            exact low_here W e hx c hc'
        have hhere : ∀ x ∈ (st.entry.page b).items, ∃ e ∈ contents st.entry rootBlk, ix.cmp (probe x.key) e = .eq :=
          fun x hx => ⟨x, hmem x hx, ReflCmp.compare_self (cmp := ix.cmp) (a := probe x.key)⟩
        obtain ⟨s1, s2, s3⟩ := List.pairwise_append.1 hs'
        refine ⟨⟨hspot d hdm, ?_, hhere d hdm, hw.1, fun k y hy hlt => ?_, X.map Ent.key, ?_, ?_, ?_⟩, hs, Or.inr ⟨d.key, b, off, ac, t, rfl, hw, d, hmem d hdm, hp, hkd⟩⟩
        · intro h
          have h2 := (hk.lt _ _).1 (OrientedCmp.lt_of_gt h)
          rw [probe_eq hk] at h2
          exact absurd (hge d (by simp)) (_root_.not_le.2 h2)
        · have hlt' := (hk.lt _ _).1 hlt
          rw [probe_eq hk] at hlt'
          rcases htri k y hy with h | ⟨-, -, h6⟩
          · exact h
          · rcases h6 with h6 | h6
            · rw [(hk.eq _ _).1 h6.1] at hlt'
              exact absurd hlt' (_root_.lt_irrefl _)
            · exact absurd hlt' (_root_.not_lt.2 (_root_.le_of_lt h6))
        · rw [List.length_map]; exact ho
        · refine List.pairwise_map.2 (s1.imp (fun {x y} h => (hk.lt _ _).2 ?_))
          rw [probe_eq hk, probe_eq hk]
          exact h
        · intro x hx
          obtain ⟨x', hx', rfl⟩ := List.mem_map.1 hx
          have hxm : x' ∈ (st.entry.page b).items := by rw [hi]; simp [hx']
          refine ⟨hhere x' hxm, (hk.lt _ _).2 ?_, hspot x' hxm⟩
          rw [probe_eq hk, probe_eq hk]
          exact s3 x' hx' d (by simp)

theorem walkSeek_ok (hc : ColsOK ix M) (H : EInv C ix st.entry) (hk : KeyOf ix.cmp key) (W : Weak key true st.entry rootBlk G) (e : G.lv 0 = A ++ b :: B)
    (hP : ∀ k y, P k y → Wants ix a lk k ∧ y ∈ ix.rowsOf st k) (hlk : LookOK (ix.cmpK a) lk) (hv : lk.void = false) (hx : lk.mode ≠ .exact)
    (acc0 : List (Item Datum)) {k0 : AttKey V} (hat : k0.attnum = a) (hq : key (probe ⟨a, lk.cat, lk.key⟩) ≤ key (probe k0))
    (hE : ∃ d ∈ contents st.entry rootBlk, ix.cmp (probe k0) d = .eq) (hlow : Low key st.entry A (probe k0))
    (hac : ∀ k y, P k y → key (probe k) ≤ key (probe k0) → y ∈ acc0) :
    ∀ (es X : List (Ent V)) (off : Nat), (st.entry.page b).items = X ++ es → (es ≠ [] → off ≤ X.length + 1) → (∀ x ∈ X, key x < key (probe k0)) →
      Out ix st (full ix key st G P) P a lk acc0 (ix.walkSeek a lk.mode k0 b (st.entry.page b).right es off acc0) := by
  have := hc.keys
  have := cmp_trans ix
  have hb : b ∈ G.lv 0 := by rw [e]; simp
  have hsort := W.order.sorted b hb
  have hmem : ∀ d ∈ (st.entry.page b).items, d ∈ contents st.entry rootBlk := fun d hd => (mem_contents W).2 ⟨b, hb, hd⟩
  obtain ⟨hright, hrr⟩ := right_spot W e
  obtain ⟨d0, hd0, hkd0⟩ := hE
  have hle : ∀ d ∈ (st.entry.page b).items, ((key d : K) : WithTop K) ≤ hiP key (st.entry.page b) := fun d hd => W.order.le b hb d hd
  -- the key is still to come
  have hcome : ∀ (X es : List (Ent V)), (st.entry.page b).items = X ++ es → (∀ x ∈ X, key x < key (probe k0)) →
      d0 ∈ es ∨ (B ≠ [] ∧ hiP key (st.entry.page b) < ((key (probe k0) : K) : WithTop K)) := by
    intro X es hi hX
    rcases where_key hc H hk W e hlow hd0 hkd0 with h | h
    · rw [hi] at h
      rcases List.mem_append.1 h with h | h
      · exact absurd (hX d0 h) (by rw [(hk.eq _ _).1 hkd0]; exact _root_.lt_irrefl _)
      · exact Or.inl h
    · exact Or.inr h
  intro es
  induction es with
  | nil =>
    intro X off hi ho hX
    rw [hright]
    rcases hcome X [] hi hX with h | ⟨hB, h⟩
    · cases h
    · cases B with
      | nil => exact absurd rfl hB
      | cons r B =>
        simp only [List.head?_cons, Ix.walkSeek]
        refine ⟨⟨⟨hrr r B rfl, A ++ [b], B, by rw [e]; simp, fun k' hk' => by rw [hk']; exact low_snoc hlow h⟩, fun h => ?_, ⟨d0, hd0, hkd0⟩, hat, fun k y hy h => ?_⟩,
          fun y hy => Or.inl hy, Or.inl ⟨trivial, rfl⟩⟩
        · exact absurd hq (_root_.not_le.2 ((hk.lt _ _).1 (OrientedCmp.lt_of_gt h)))
        · refine hac k y hy (_root_.not_lt.1 (fun h' => h (OrientedCmp.gt_of_lt ((hk.lt _ _).2 h'))))
  | cons d es ih =>
    intro X off hi ho hX
    have hdm : d ∈ (st.entry.page b).items := by rw [hi]; simp
    have hs' := hsort
    rw [hi] at hs'
    rw [Ix.walkSeek]
    have hdle : key d ≤ key (probe k0) := by
      rcases hcome X (d :: es) hi hX with h | ⟨-, h⟩
      · rw [(hk.eq _ _).1 hkd0]
        rcases List.mem_cons.1 h with rfl | h
        · exact _root_.le_refl _
        · exact _root_.le_of_lt ((List.pairwise_cons.1 (List.pairwise_append.1 hs').2.1).1 d0 h)
      · exact _root_.le_of_lt (WithTop.coe_lt_coe.1 ((hle d hdm).trans_lt h))
    split
    · next ha =>
      refine ⟨⟨d.key, ⟨d, hmem d hdm, ReflCmp.compare_self (cmp := ix.cmp) (a := probe d.key)⟩, ?_⟩, (fun y hy => by cases hy), Or.inl ⟨trivial, rfl⟩⟩
      have hle' : ix.cmp (probe k0) d ≠ .lt := fun h => absurd hdle (_root_.not_le.2 ((hk.lt _ _).1 h))
      have := att_not_lt hle'
      simp only [probe] at this
      have h3 : d.key.attnum ≠ k0.attnum := by rw [hat]; exact ha
      show d.key.attnum < a
      rcases this with h | ⟨h, -⟩
      · omega
      · exact absurd h.symm h3
    · split
      · next hfound =>
        have hkd : key d = key (probe k0) := (hk.eq _ _).1 hfound
        refine walkFrom_ok hc H hk W e hP hlk hv hx ⟨b, by simp, ?_⟩ acc0 es (X ++ [d]) (off + 1) acc0 (by rw [hi]; simp) (by have := ho (by simp); simp; omega) (fun x hx' => ?_)
          (fun y hy => Or.inl hy) (fun k y hy => ?_)
        · exact (WithTop.coe_le_coe.2 (by rw [hkd]; exact hq)).trans (hle d hdm)
        · refine hq.trans (_root_.le_of_lt ?_)
          rw [← hkd]
          exact (List.pairwise_cons.1 (List.pairwise_append.1 hs').2.1).1 x hx'
        · rcases _root_.le_or_gt (key (probe k)) (key (probe k0)) with h | h
          · exact Or.inl (hac k y hy h)
          · refine Or.inr ⟨fun c hc' => (hlow c hc').trans (WithTop.coe_lt_coe.2 h), fun x hx' => ?_⟩
            rcases List.mem_append.1 hx' with hx' | hx'
            · exact (hX x hx').trans h
            · simp only [List.mem_singleton] at hx'
              rw [hx', hkd]; exact h
      · next hne =>
        refine ih (X ++ [d]) (off + 1) (by rw [hi]; simp) (fun _ => by have := ho (by simp); simp; omega) (fun x hx' => ?_)
        rcases List.mem_append.1 hx' with hx' | hx'
        · exact hX x hx'
        · simp only [List.mem_singleton] at hx'
          subst hx'
          exact _root_.lt_of_le_of_ne hdle (fun h => hne ((hk.eq _ _).2 h))

/-- The offset noted is not behind the key. -/
theorem before_off (hc : ColsOK ix M) (H : EInv C ix st.entry) (hk : KeyOf ix.cmp key) (W : Weak key true st.entry rootBlk G) (e : G.lv 0 = A ++ b :: B)
    {k0 : AttKey V} (hE : ∃ d ∈ contents st.entry rootBlk, ix.cmp (probe k0) d = .eq) (hlow : Low key st.entry A (probe k0)) {off : Nat}
    (hks : ∃ ks : List (AttKey V), off ≤ ks.length + 1 ∧ ks.Pairwise (fun a b => ix.cmp (probe a) (probe b) = .lt) ∧
        ∀ x ∈ ks, (∃ d ∈ contents st.entry rootBlk, ix.cmp (probe x) d = .eq) ∧ ix.cmp (probe x) (probe k0) = .lt ∧ Low key st.entry A (probe x)) :
    ∀ x ∈ (st.entry.page b).items.take (off - 1), key x < key (probe k0) := by
  classical
  have := hc.keys
  have := cmp_trans ix
  have hb : b ∈ G.lv 0 := by rw [e]; simp
  have hsort := W.order.sorted b hb
  have hle : ∀ d ∈ (st.entry.page b).items, ((key d : K) : WithTop K) ≤ hiP key (st.entry.page b) := fun d hd => W.order.le b hb d hd
  obtain ⟨d0, hd0, hkd0⟩ := hE
  rcases where_key hc H hk W e hlow hd0 hkd0 with h | ⟨-, h⟩
  · obtain ⟨X, Y, hi⟩ := List.append_of_mem h
    have hs' := hsort
    rw [hi] at hs'
    have hX : ∀ x ∈ X, key x < key (probe k0) := fun x hx => by
      rw [(hk.eq _ _).1 hkd0]
      exact (List.pairwise_append.1 hs').2.2 x hx d0 (by simp)
    obtain ⟨ks, h1, h2, h3⟩ := hks
    have hsub : ∀ z ∈ ks.map (fun x => key (probe x)), z ∈ X.map key := by
      intro z hz
      obtain ⟨x, hx, rfl⟩ := List.mem_map.1 hz
      obtain ⟨⟨d, hd, hkd⟩, h4, h5⟩ := h3 x hx
      have hlt : key d < key d0 := by
        rw [← (hk.eq _ _).1 hkd, ← (hk.eq _ _).1 hkd0]
        exact (hk.lt _ _).1 h4
      rcases where_key hc H hk W e h5 hd hkd with h6 | ⟨-, h6⟩
      · rw [hi] at h6
        rcases List.mem_append.1 h6 with h6 | h6
        · exact List.mem_map.2 ⟨d, h6, ((hk.eq _ _).1 hkd).symm⟩
        · exfalso
          rcases List.mem_cons.1 h6 with rfl | h6
          · exact _root_.lt_irrefl _ hlt
          · exact _root_.lt_irrefl _ (hlt.trans ((List.pairwise_cons.1 (List.pairwise_append.1 hs').2.1).1 d h6))
      · exfalso
        rw [(hk.eq _ _).1 hkd] at h6
        exact absurd (WithTop.coe_lt_coe.2 hlt) (_root_.not_lt.2 ((hle d0 h).trans (_root_.le_of_lt h6)))
    have hnd : (ks.map (fun x => key (probe x))).Nodup :=
      List.pairwise_map.2 (h2.imp (fun {x y} h => _root_.ne_of_lt ((hk.lt _ _).1 h)))
    have hlen : ks.length ≤ X.length := by
      have := (List.subperm_of_subset hnd hsub).length_le
      simpa using this
    intro x hx
    refine hX x ?_
    rw [hi, List.take_append_of_le_length (by omega)] at hx
    exact List.mem_of_mem_take hx
  · intro x hx
    exact WithTop.coe_lt_coe.1 ((hle x (List.mem_of_mem_take hx)).trans_lt h)

end
end Rum.Index.VC

import Verif.IndexVacuumLemmas
/-
VACUUM of the whole index: all pages, all posting trees.
-/
namespace Rum.Index
open Rum Rum.Codec Rum.Leaf Rum.Entry Rum.Tree Rum.Props Rum.Props.PostingTree Rum.Props.VacuumTree Std

variable {V : Type}

/-! ### What VACUUM does to the rows found -/

/-- Rows may have gone, but no live one. -/
def Trim (ix : Ix V) [Inhabited V] (dead : Iptr → Bool) (st u : State V) : Prop :=
  ∀ k, (ix.rowsOf u k).Sublist (ix.rowsOf st k) ∧ ∀ y ∈ ix.rowsOf st k, dead y.iptr = false → y ∈ ix.rowsOf u k

theorem Trim.trans {ix : Ix V} [Inhabited V] {dead : Iptr → Bool} {a b c : State V} (h : Trim ix dead a b) (h' : Trim ix dead b c) : Trim ix dead a c :=
  fun k => ⟨(h' k).1.trans (h k).1, fun y hy hd => (h' k).2 y ((h k).2 y hy hd) hd⟩

/-- The dead rows of some keys have gone, nothing else. -/
def Cleared (ix : Ix V) [Inhabited V] (dead : Iptr → Bool) (P : AttKey V → Prop) (st u : State V) : Prop :=
  ∀ k, (P k → ix.rowsOf u k = live dead (ix.rowsOf st k)) ∧ (¬ P k → ix.rowsOf u k = ix.rowsOf st k)

theorem Cleared.refl (ix : Ix V) [Inhabited V] (dead : Iptr → Bool) (st : State V) : Cleared ix dead (fun _ => False) st st :=
  fun _ => ⟨fun h => h.elim, fun _ => rfl⟩

theorem Cleared.trim {ix : Ix V} [Inhabited V] {dead : Iptr → Bool} {P : AttKey V → Prop} {a b : State V} (h : Cleared ix dead P a b) :
    Trim ix dead a b := by
  intro k
  by_cases hP : P k
  · rw [(h k).1 hP]
    exact ⟨List.filter_sublist, fun y hy hd => List.mem_filter.2 ⟨hy, by simp [hd]⟩⟩
  · rw [(h k).2 hP]
    exact ⟨List.Sublist.refl _, fun y hy _ => hy⟩

theorem live_live (dead : Iptr → Bool) (l : List (Item Datum)) : live dead (live dead l) = live dead l := by
  simp [live, List.filter_filter]

theorem Cleared.trans {ix : Ix V} [Inhabited V] {dead : Iptr → Bool} {P Q R : AttKey V → Prop} {a b c : State V} (h : Cleared ix dead P a b)
    (h' : Cleared ix dead Q b c) (hR : ∀ k, R k ↔ P k ∨ Q k) : Cleared ix dead R a c := by
  intro k
  by_cases hP : P k <;> by_cases hQ : Q k
  · refine ⟨fun _ => ?_, fun h => absurd ((hR k).2 (Or.inl hP)) h⟩
    rw [(h' k).1 hQ, (h k).1 hP, live_live]
  · refine ⟨fun _ => ?_, fun h => absurd ((hR k).2 (Or.inl hP)) h⟩
    rw [(h' k).2 hQ, (h k).1 hP]
  · refine ⟨fun _ => ?_, fun h => absurd ((hR k).2 (Or.inr hQ)) h⟩
    rw [(h' k).1 hQ, (h k).2 hP]
  · refine ⟨fun h => ?_, fun _ => ?_⟩
    · rcases (hR k).1 h with h | h
      exacts [absurd h hP, absurd h hQ]
    · rw [(h' k).2 hQ, (h k).2 hP]

theorem Cleared.congr {ix : Ix V} [Inhabited V] {dead : Iptr → Bool} {P Q : AttKey V → Prop} {a b : State V} (h : Cleared ix dead P a b)
    (hR : ∀ k, Q k ↔ P k) : Cleared ix dead Q a b :=
  fun k => ⟨fun hq => (h k).1 ((hR k).1 hq), fun hq => (h k).2 (fun hp => hq ((hR k).2 hp))⟩

theorem lastState_append (st : State V) (l m : List (State V)) : lastState st (l ++ m) = lastState (lastState st l) m := by
  unfold lastState
  rw [List.getLast?_append]
  cases m.getLast? <;> rfl

/-! ### The entry tree with its pages named -/

structure EG (C : Prop) {K : Type} [LinearOrder K] (key : Ent V → K) (G : Ghost) (ix : Ix V) [Inhabited V] (s : Store (Ent V)) : Prop where
  ko : KeyOf ix.cmp key
  good : Good C key true (InnerFit ix) (KeyFit ix) (LeafOK ix) s rootBlk G
  bound : BoundIn key (leafs key s G)

section
variable {C : Prop} {K : Type} [LinearOrder K] {key : Ent V → K} {G : Ghost} {ix : Ix V} [Inhabited V] {M : Lim} {dead : Iptr → Bool} {st : State V}

theorem EG.einv {s : Store (Ent V)} (E : EG C key G ix s) : EInv C ix s := ⟨K, _, key, G, E.ko, E.good, E.bound⟩

theorem EG.mem {s : Store (Ent V)} (E : EG C key G ix s) (y : Ent V) : y ∈ contents s rootBlk ↔ ∃ c ∈ G.lv 0, y ∈ (s.page c).items := by
  rw [contents_eq E.good.weak]
  simp [leafs, List.flatMap_map]

/-- A lookup in two states with the same entry tree. -/
theorem rowsOf_pair {D : Prop} (hc : ColsOK ix M) (H : EInv D ix st.entry) {u : State V} (hu : u.entry = st.entry) (k : AttKey V) :
    (∃ e ∈ contents st.entry rootBlk, ix.cmp (probe k) e = .eq ∧ ix.rowsOf st k = rows ix st e ∧ ix.rowsOf u k = rows ix u e) ∨
    ((∀ e ∈ contents st.entry rootBlk, ix.cmp (probe k) e ≠ .eq) ∧ ix.rowsOf st k = [] ∧ ix.rowsOf u k = []) := by
  have H' : EInv D ix u.entry := by rw [hu]; exact H
  rcases EInv.rowsOf hc H k with ⟨e, h1, h2, h3⟩ | ⟨h1, h3⟩
  · exact Or.inl ⟨e, h1, h2, h3, EInv.rowsOf_eq hc H' (by rw [hu]; exact h1) h2⟩
  · exact Or.inr ⟨h1, h3, EInv.rowsOf_none hc H' (by rw [hu]; exact h1)⟩

/-! ### The posting trees of a page -/

/-- The key of a tuple with the posting tree `t`. -/
def TreeKey (ix : Ix V) (s : Store (Ent V)) (t : Nat) (k : AttKey V) : Prop :=
  ∃ e ∈ contents s rootBlk, e.post = .tree t ∧ ix.cmp (probe k) e = .eq

theorem root_step (hc : ColsOK ix M) (hM : M.single = true) (H : IInv True ix M st) {e : Ent V}
    (he : e ∈ contents st.entry rootBlk) {t : Nat} (hp : e.post = .tree t) :
    let l := (vacuumTree (dataVac (ix.ctx e.key.attnum).cfg dead) (st.trees t) 0).map (st.setTree t)
    IInv True ix M (lastState st l) ∧ (lastState st l).entry = st.entry ∧ Cleared ix dead (TreeKey ix st.entry t) st (lastState st l) ∧
      ∀ u ∈ l, Trim ix dead st u := by
  have hI := hc.infos e.key.attnum
  have hK := hc.keys
  have hT := cmp_trans ix
  obtain ⟨v1, v2, v3⟩ := InvV.vacuum ((H.ents e he).tree t hp).2.toV dead
  have hs := TInv.ofV hM v1
  have hsame : ∀ s, rows ix (st.setTree t s) e = contents s 0 := by
    intro s
    unfold rows
    simp [hp, State.setTree]
  have hoth : ∀ e' ∈ contents st.entry rootBlk, e' ≠ e → ∀ s, rows ix (st.setTree t s) e' = rows ix st e' := by
    intro e' he' hee s
    unfold rows
    cases hp' : e'.post with
    | list d n => rfl
    | tree t' =>
      have : t' ≠ t := by rintro rfl; exact hee (H.inj e' he' e he t' hp' hp)
      simp [State.setTree, this]
  have hre : rows ix st e = contents (st.trees t) 0 := by unfold rows; rw [hp]
  refine ⟨by rw [lastState_map]; exact setTree_inv H he hp hs, by rw [lastState_map]; rfl, ?_, ?_⟩
  · rw [lastState_map]
    intro k
    rcases rowsOf_pair hc H.entry (u := st.setTree t (lastStore (st.trees t)
      (vacuumTree (dataVac (ix.ctx e.key.attnum).cfg dead) (st.trees t) 0))) rfl k with ⟨e', h1, h2, h3, h4⟩ | ⟨h1, h3, h4⟩
    · rw [h3, h4]
      by_cases hee : e' = e
      · subst hee
        rw [hsame, v2, hre]
        exact ⟨fun _ => rfl, fun h => absurd ⟨e', he, hp, h2⟩ h⟩
      · rw [hoth e' h1 hee]
        refine ⟨fun ⟨e2, g1, g2, g3⟩ => ?_, fun _ => rfl⟩
        have : e2 = e := H.inj e2 g1 e he t g2 hp
        subst this
        exact absurd (H.unique hc h1 g1 (TransCmp.eq_trans (cmp := ix.cmp) (OrientedCmp.eq_symm h2) g3)) hee
    · rw [h3, h4]; exact ⟨fun _ => rfl, fun _ => rfl⟩
  · intro u hu
    obtain ⟨s, hs', rfl⟩ := List.mem_map.1 hu
    intro k
    rcases rowsOf_pair hc H.entry (u := st.setTree t s) rfl k with ⟨e', h1, h2, h3, h4⟩ | ⟨h1, h3, h4⟩
    · rw [h3, h4]
      by_cases hee : e' = e
      · subst hee
        rw [hsame, hre]
        exact v3 s hs'
      · rw [hoth e' h1 hee]
        exact ⟨List.Sublist.refl _, fun y hy _ => hy⟩
    · rw [h3, h4]
      exact ⟨List.Sublist.refl _, fun y hy _ => hy⟩

theorem vacRoots_spec (hc : ColsOK ix M) (hM : M.single = true) (rs : List (Nat × Nat)) :
    ∀ st : State V, IInv True ix M st →
      (∀ p ∈ rs, ∃ e ∈ contents st.entry rootBlk, e.post = .tree p.1 ∧ e.key.attnum = p.2) →
      IInv True ix M (lastState st (ix.vacRoots dead st rs)) ∧ (lastState st (ix.vacRoots dead st rs)).entry = st.entry ∧
        Cleared ix dead (fun k => ∃ p ∈ rs, TreeKey ix st.entry p.1 k) st (lastState st (ix.vacRoots dead st rs)) ∧
        ∀ u ∈ ix.vacRoots dead st rs, Trim ix dead st u := by
  induction rs with
  | nil =>
    intro st H _
    exact ⟨H, rfl, (Cleared.refl ix dead st).congr (by simp), fun u hu => by cases hu⟩
  | cons p rs ih =>
    intro st H hp
    obtain ⟨t, a⟩ := p
    obtain ⟨e, h1, h2, rfl⟩ := hp (t, a) (by simp)
    obtain ⟨g1, g2, g3, g4⟩ := root_step (dead := dead) hc hM H h1 h2
    obtain ⟨i1, i2, i3, i4⟩ := ih _ g1 (fun p hp' => by rw [g2]; exact hp p (by simp [hp']))
    have hl : ix.vacRoots dead st ((t, e.key.attnum) :: rs) = (vacuumTree (dataVac (ix.ctx e.key.attnum).cfg dead) (st.trees t) 0).map (st.setTree t) ++
        ix.vacRoots dead (lastState st ((vacuumTree (dataVac (ix.ctx e.key.attnum).cfg dead) (st.trees t) 0).map (st.setTree t))) rs := rfl
    rw [hl, lastState_append]
    refine ⟨i1, by rw [i2, g2], g3.trans i3 (fun k => ?_), fun u hu => ?_⟩
    · rw [g2]; simp
    · rcases List.mem_append.1 hu with hu | hu
      · exact g4 u hu
      · exact g3.trim.trans (i4 u hu)

/-! ### The tuples of a page -/

/-- Keys on a page. -/
def On (ix : Ix V) (s : Store (Ent V)) (b : Nat) (k : AttKey V) : Prop := ∃ e ∈ (s.page b).items, ix.cmp (probe k) e = .eq

/-- Keys on a page whose tuples hold posting lists. -/
def OnList (ix : Ix V) (s : Store (Ent V)) (b : Nat) (k : AttKey V) : Prop :=
  ∃ e ∈ (s.page b).items, (∃ d n, e.post = .list d n) ∧ ix.cmp (probe k) e = .eq

theorem forall₂_left {α β : Type} {R : α → β → Prop} {l : List α} {m : List β} (h : List.Forall₂ R l m) : ∀ a ∈ l, ∃ b ∈ m, R a b := by
  induction h with
  | nil => simp
  | cons h _ ih =>
    intro a ha
    rcases List.mem_cons.1 ha with rfl | ha
    · exact ⟨_, by simp, h⟩
    · obtain ⟨b, hb, hr⟩ := ih a ha
      exact ⟨b, by simp [hb], hr⟩

theorem forall₂_right {α β : Type} {R : α → β → Prop} {l : List α} {m : List β} (h : List.Forall₂ R l m) : ∀ b ∈ m, ∃ a ∈ l, R a b := by
  induction h with
  | nil => simp
  | cons h _ ih =>
    intro b hb
    rcases List.mem_cons.1 hb with rfl | hb
    · exact ⟨_, by simp, h⟩
    · obtain ⟨a, ha, hr⟩ := ih b hb
      exact ⟨a, by simp [ha], hr⟩

theorem forall₂_map {α β : Type} {R : α → α → Prop} {f : α → β} {l m : List α} (h : List.Forall₂ R l m) (hf : ∀ a b, R a b → f b = f a) :
    m.map f = l.map f := by
  induction h with
  | nil => rfl
  | cons h _ ih => simp [hf _ _ h, ih]

theorem page_step (hc : ColsOK ix M) (E : EG C key G ix st.entry) (H : IInv C ix M st) {b : Nat} (hb : b ∈ G.lv 0) {its : List (Ent V)}
    (hF : List.Forall₂ (TupleVac C ix M dead st) (st.entry.page b).items its) (hfit : used (its.map leafT) ≤ entryCap)
    {st1 : State V} (hst : st1 = { st with entry := st.entry.set b { st.entry.page b with items := its } }) :
    EG C key G ix st1.entry ∧ IInv C ix M st1 ∧ Cleared ix dead (OnList ix st.entry b) st st1 ∧
      (∀ c k, On ix st1.entry c k ↔ On ix st.entry c k) ∧ (∀ c, (st1.entry.page c).right = (st.entry.page c).right) ∧
      ∀ t, (∀ e, e.post = .tree t → (e ∈ contents st1.entry rootBlk ↔ e ∈ contents st.entry rootBlk)) := by
  have hK := hc.keys
  have hT := cmp_trans ix
  have hkey : ∀ e e', TupleVac C ix M dead st e e' → key e' = key e := by
    intro e e' h
    refine (E.ko.eq _ _).1 ?_
    unfold Ix.cmp
    rw [h.key]
    exact ReflCmp.compare_self (cmp := cmpAttEntries ix.cmpK)
  have hcmp : ∀ e e', TupleVac C ix M dead st e e' → ∀ x, ix.cmp x e' = ix.cmp x e := fun e e' h x => by unfold Ix.cmp; rw [h.key]
  have hsmall : ∀ c ∈ G.lv 0, LeafOK ix (st.entry.page c).items := fun c hc' =>
    E.good.fit _ (List.mem_map.2 ⟨c, hc', rfl⟩)
  have hP : LeafOK ix its := by
    refine ⟨fun e' he' => ?_, fun e' he' => ?_, hfit⟩
    · obtain ⟨e, he, h⟩ := forall₂_right hF e' he'
      exact _root_.le_trans h.size ((hsmall b hb).small e he)
    · obtain ⟨e, he, h⟩ := forall₂_right hF e' he'
      exact h.inner
  obtain ⟨w1, w2⟩ := leaf_swap E.good E.bound hb (forall₂_map hF hkey) hP
  have E1 : EG C key G ix st1.entry := by rw [hst]; exact ⟨E.ko, w1, w2⟩
  have hpg : ∀ c, (st1.entry.page c).items = if c = b then its else (st.entry.page c).items := by
    intro c
    rw [hst]
    show ((st.entry.set b _).page c).items = _
    rw [Store.set_page]
    split <;> rfl
  have hnd := E.good.weak.nodup 0 (Nat.zero_le _)
  have hpair := E.good.weak.order.pair
  -- where the tuples went
  have hfwd : ∀ c ∈ G.lv 0, ∀ e ∈ (st.entry.page c).items, ∃ e' ∈ (st1.entry.page c).items,
      (c ≠ b ∧ e' = e) ∨ (c = b ∧ TupleVac C ix M dead st e e') := by
    intro c _ e he
    rw [hpg c]
    by_cases h : c = b
    · subst h
      rw [if_pos rfl]
      obtain ⟨e', h1, h2⟩ := forall₂_left hF e he
      exact ⟨e', h1, Or.inr ⟨rfl, h2⟩⟩
    · rw [if_neg h]; exact ⟨e, he, Or.inl ⟨h, rfl⟩⟩
  have hbwd : ∀ c ∈ G.lv 0, ∀ e' ∈ (st1.entry.page c).items, ∃ e ∈ (st.entry.page c).items,
      (c ≠ b ∧ e' = e) ∨ (c = b ∧ TupleVac C ix M dead st e e') := by
    intro c _ e' he
    rw [hpg c] at he
    by_cases h : c = b
    · subst h
      rw [if_pos rfl] at he
      obtain ⟨e, h1, h2⟩ := forall₂_right hF e' he
      exact ⟨e, h1, Or.inr ⟨rfl, h2⟩⟩
    · rw [if_neg h] at he; exact ⟨e', he, Or.inl ⟨h, rfl⟩⟩
  have htree : ∀ t e, e.post = .tree t → (e ∈ contents st1.entry rootBlk ↔ e ∈ contents st.entry rootBlk) := by
    intro t e ht
    rw [E1.mem, E.mem]
    constructor
    · rintro ⟨c, hc', he⟩
      obtain ⟨e0, h1, ⟨-, rfl⟩ | ⟨-, h2⟩⟩ := hbwd c hc' e he
      · exact ⟨c, hc', h1⟩
      · rw [h2.tree t (Or.inr ht)]; exact ⟨c, hc', h1⟩
    · rintro ⟨c, hc', he⟩
      obtain ⟨e1, h1, ⟨-, rfl⟩ | ⟨-, h2⟩⟩ := hfwd c hc' e he
      · exact ⟨c, hc', h1⟩
      · rw [← h2.tree t (Or.inl ht)]; exact ⟨c, hc', h1⟩
  have hok1 : ∀ e, EntOK C ix M st e → EntOK C ix M st1 e := by
    intro e h
    rw [hst]
    exact ⟨h.key, h.list, h.tree⟩
  have H1 : IInv C ix M st1 := by
    refine ⟨E1.einv, fun e' he' => ?_, fun e he e' he' t h h' => ?_⟩
    · obtain ⟨c, hc', hm⟩ := (E1.mem e').1 he'
      obtain ⟨e, h1, ⟨-, rfl⟩ | ⟨-, h2⟩⟩ := hbwd c hc' e' hm
      · exact hok1 _ (H.ents _ ((E.mem _).2 ⟨c, hc', h1⟩))
      · exact hok1 _ h2.ok
    · exact H.inj e ((htree t e h).1 he) e' ((htree t e' h').1 he') t h h'
  have hrow : ∀ e, rows ix st1 e = rows ix st e := by
    intro e; rw [hst]; unfold rows; cases e.post <;> rfl
  refine ⟨E1, H1, fun k => ?_, fun c k => ?_, fun c => ?_, fun t e ht => htree t e ht⟩
  · rcases H.rowsOf hc k with ⟨e, h1, h2, h3⟩ | ⟨h1, h3⟩
    · obtain ⟨c, hc', he⟩ := (E.mem e).1 h1
      have huq : ∀ e2, e2 ∈ contents st.entry rootBlk → ix.cmp (probe k) e2 = .eq → e2 = e := fun e2 g1 g2 =>
        H.unique hc g1 h1 (TransCmp.eq_trans (cmp := ix.cmp) (OrientedCmp.eq_symm g2) h2)
      have hbc : ∀ e2, e2 ∈ (st.entry.page b).items → e2 ∈ contents st.entry rootBlk := fun e2 g => (E.mem e2).2 ⟨b, hb, g⟩
      obtain ⟨e', g1, g2⟩ := hfwd c hc' e he
      have hm1 : e' ∈ contents st1.entry rootBlk := (E1.mem e').2 ⟨c, hc', g1⟩
      rcases g2 with ⟨hcb, rfl⟩ | ⟨rfl, g2⟩
      · have hr : ix.rowsOf st1 k = ix.rowsOf st k := by rw [H1.rowsOf_eq hc hm1 h2, h3, hrow]
        refine ⟨fun ⟨e2, q1, _, q3⟩ => ?_, fun _ => hr⟩
        exfalso
        have := huq e2 (hbc e2 q1) q3
        subst this
        -- a tuple is on one page only
        have hne : ∀ a ∈ G.lv 0, ∀ d ∈ G.lv 0, a ≠ d → ∀ y ∈ (st.entry.page a).items, y ∉ (st.entry.page d).items := by
          have hsy : ∀ a d, (hiP key (st.entry.page a) < hiP key (st.entry.page d) ∧
              ∀ i ∈ (st.entry.page d).items, hiP key (st.entry.page a) < (key i : WithTop K)) → a ∈ G.lv 0 →
              ∀ y ∈ (st.entry.page a).items, y ∉ (st.entry.page d).items := by
            intro a d h ha y hy hy'
            exact absurd (E.good.weak.order.le a ha y hy) (_root_.not_le.2 (h.2 y hy'))
          intro a ha d hd hne y hy hy'
          obtain ⟨A, B, e⟩ := List.append_of_mem ha
          have hd' := hd
          rw [e] at hd'
          rw [e] at hpair
          have hp3 := List.pairwise_append.1 hpair
          rcases List.mem_append.1 hd' with hd' | hd'
          · exact hsy d a (hp3.2.2 d hd' a (by simp)) hd y hy' hy
          · rcases List.mem_cons.1 hd' with rfl | hd'
            · exact hne rfl
            · exact hsy a d ((List.pairwise_cons.1 hp3.2.1).1 d hd') ha y hy hy'
        exact hne c hc' b hb hcb _ he q1
      · have hce : ix.cmp (probe k) e' = .eq := by rw [hcmp _ _ g2]; exact h2
        have hr1 : ix.rowsOf st1 k = rows ix st e' := by rw [H1.rowsOf_eq hc hm1 hce, hrow]
        cases hp : e.post with
        | tree t =>
          have hee := g2.tree t (Or.inl hp)
          subst hee
          refine ⟨fun ⟨e2, q1, ⟨d, n, q2⟩, q3⟩ => ?_, fun _ => by rw [hr1, h3]⟩
          rw [huq e2 (hbc e2 q1) q3, hp] at q2
          cases q2
        | list d n =>
          refine ⟨fun _ => ?_, fun h => absurd ⟨e, he, ⟨d, n, hp⟩, h2⟩ h⟩
          rw [hr1, h3]
          have e1 : rows ix st e = ix.readTuple e := by unfold rows; rw [hp]
          have e2 : rows ix st e' = ix.readTuple e' := by
            unfold rows
            cases hp' : e'.post with
            | list _ _ => rfl
            | tree t =>
              have := g2.tree t (Or.inr hp')
              subst this
              rw [hp] at hp'; cases hp'
          rw [e1, e2, g2.list d n hp]
    · have hn : ix.rowsOf st1 k = [] := by
        refine H1.rowsOf_none hc (fun e' he' h => ?_)
        obtain ⟨c, hc', hm⟩ := (E1.mem e').1 he'
        obtain ⟨e, g1, ⟨-, rfl⟩ | ⟨-, g2⟩⟩ := hbwd c hc' e' hm
        · exact h1 _ ((E.mem _).2 ⟨c, hc', g1⟩) h
        · rw [hcmp _ _ g2] at h
          exact h1 _ ((E.mem _).2 ⟨c, hc', g1⟩) h
      rw [hn, h3]
      exact ⟨fun _ => rfl, fun _ => rfl⟩
  · unfold On
    rw [hpg c]
    by_cases h : c = b
    · subst h
      rw [if_pos rfl]
      constructor
      · rintro ⟨e', he', h⟩
        obtain ⟨e, h1, h2⟩ := forall₂_right hF e' he'
        exact ⟨e, h1, by rw [← hcmp _ _ h2]; exact h⟩
      · rintro ⟨e, he, h⟩
        obtain ⟨e', h1, h2⟩ := forall₂_left hF e he
        exact ⟨e', h1, by rw [hcmp _ _ h2]; exact h⟩
    · rw [if_neg h]
  · rw [hst]
    show ((st.entry.set b _).page c).right = _
    rw [Store.set_page]
    split
    · next h => rw [h]
    · rfl

omit [Inhabited V] in
theorem mem_rootsOf {its : List (Ent V)} {p : Nat × Nat} : p ∈ rootsOf its ↔ ∃ e ∈ its, e.post = .tree p.1 ∧ e.key.attnum = p.2 := by
  unfold rootsOf
  rw [List.mem_filterMap]
  constructor
  · rintro ⟨e, he, h⟩
    refine ⟨e, he, ?_⟩
    cases hp : e.post with
    | list d n => rw [hp] at h; cases h
    | tree t =>
      rw [hp] at h
      simp only [Option.some.injEq] at h
      subst h
      exact ⟨rfl, rfl⟩
  · rintro ⟨e, he, h1, h2⟩
    refine ⟨e, he, ?_⟩
    rw [h1]
    simp only [h2]

/-- The page alone. -/
theorem pageVac_spec (hc : ColsOK ix M) (hal : ∀ k, 8 ∣ ix.keySize k) (dead : Iptr → Bool) (E : EG C key G ix st.entry) (H : IInv C ix M st) {b : Nat} (hb : b ∈ G.lv 0) :
    ∃ its ch, ix.vacPage dead [] false (st.entry.page b).items = some (its, ch) ∧
      List.Forall₂ (TupleVac C ix M dead st) (st.entry.page b).items its ∧ used (its.map leafT) ≤ entryCap ∧
      (if ch then { st with entry := st.entry.set b { st.entry.page b with items := its } } else st) =
        { st with entry := st.entry.set b { st.entry.page b with items := its } } := by
  have hsm : LeafOK ix (st.entry.page b).items := E.good.fit _ (List.mem_map.2 ⟨b, hb, rfl⟩)
  obtain ⟨its, ch, g1, g2, g3, g4⟩ := vacPage_spec hc hal dead (st := st) (st.entry.page b).items [] false
    (fun e he => ⟨H.ents e ((E.mem e).2 ⟨b, hb, he⟩), hsm.inner e he⟩) (by simpa using hsm.fit)
  simp only [List.nil_append] at g1 g3
  refine ⟨its, ch, g1, g2, g3, ?_⟩
  by_cases h : ch = true
  · rw [if_pos h]
  · rw [if_neg h, g4 (by simpa using h)]
    have : st.entry.set b { st.entry.page b with items := (st.entry.page b).items } = st.entry := by
      unfold Store.set
      congr 1
      funext c
      split
      · next h => rw [h]
      · rfl
    rw [this]

/-- One page with its posting trees. -/
theorem vacStep_spec (hc : ColsOK ix M) (hal : ∀ k, 8 ∣ ix.keySize k) (hM : M.single = true) (E : EG True key G ix st.entry) (H : IInv True ix M st)
    {b : Nat} (hb : b ∈ G.lv 0) :
    ∃ l, ix.vacStep dead st b = some l ∧ EG True key G ix (lastState st l).entry ∧ IInv True ix M (lastState st l) ∧
      Cleared ix dead (On ix st.entry b) st (lastState st l) ∧ (∀ c k, On ix (lastState st l).entry c k ↔ On ix st.entry c k) ∧
      (∀ c, ((lastState st l).entry.page c).right = (st.entry.page c).right) ∧ ∀ u ∈ l, Trim ix dead st u := by
  have hK := hc.keys
  have hT := cmp_trans ix
  obtain ⟨its, ch, g1, g2, g3, g4⟩ := pageVac_spec hc hal dead E H hb
  -- the state after the record for the page, if any
  set l1 : List (State V) := if ch then [{ st with entry := st.entry.set b { st.entry.page b with items := its } }] else [] with hl1
  have hstep : ix.vacStep dead st b = some (l1 ++ ix.vacRoots dead (lastState st l1) (rootsOf (st.entry.page b).items)) := by
    unfold Ix.vacStep
    rw [g1]
  have hst1 : lastState st l1 = { st with entry := st.entry.set b { st.entry.page b with items := its } } := by
    rw [hl1]
    rw [← g4]
    cases ch <;> rfl
  obtain ⟨p1, p2, p3, p4, p5, p6⟩ := page_step hc E H hb g2 g3 hst1
  obtain ⟨r1, r2, r3, r4⟩ := vacRoots_spec (dead := dead) hc hM (rootsOf (st.entry.page b).items) _ p2 (fun p hp => by
    obtain ⟨e, he, h1, h2⟩ := mem_rootsOf.1 hp
    exact ⟨e, (p6 p.1 e h1).2 ((E.mem e).2 ⟨b, hb, he⟩), h1, h2⟩)
  refine ⟨_, hstep, ?_, ?_, ?_, ?_, ?_, fun u hu => ?_⟩
  · rw [lastState_append, r2]; exact p1
  · rw [lastState_append]; exact r1
  · rw [lastState_append]
    refine p3.trans r3 (fun k => ⟨?_, ?_⟩)
    · rintro ⟨e, he, h⟩
      cases hp : e.post with
      | list d n => exact Or.inl ⟨e, he, ⟨d, n, hp⟩, h⟩
      | tree t =>
        exact Or.inr ⟨(t, e.key.attnum), mem_rootsOf.2 ⟨e, he, hp, rfl⟩, e, (p6 t e hp).2 ((E.mem e).2 ⟨b, hb, he⟩), hp, h⟩
    · rintro (⟨e, he, -, h⟩ | ⟨p, hp, e', he', h1, h2⟩)
      · exact ⟨e, he, h⟩
      · obtain ⟨e, he, h3, -⟩ := mem_rootsOf.1 hp
        have := H.inj e ((E.mem e).2 ⟨b, hb, he⟩) e' ((p6 p.1 e' h1).1 he') p.1 h3 h1
        subst this
        exact ⟨e, he, h2⟩
  · intro c k
    rw [lastState_append, r2]; exact p4 c k
  · intro c
    rw [lastState_append, r2]; exact p5 c
  · rcases List.mem_append.1 hu with hu | hu
    · have : u = lastState st l1 := by
        rw [hst1]
        rw [hl1] at hu
        split at hu
        · simpa using hu
        · cases hu
      rw [this]
      exact p3.trim
    · exact p3.trim.trans (r4 u hu)

theorem vacWalk_spec (hc : ColsOK ix M) (hal : ∀ k, 8 ∣ ix.keySize k) (hM : M.single = true) (n : Nat) :
    ∀ (st : State V) (A B : List Nat) (b : Nat), EG True key G ix st.entry → IInv True ix M st → G.lv 0 = A ++ b :: B → B.length < n →
      ∃ l, ix.vacWalk dead n st b = (l, true) ∧ IInv True ix M (lastState st l) ∧
        Cleared ix dead (fun k => ∃ c ∈ b :: B, On ix st.entry c k) st (lastState st l) ∧ ∀ u ∈ l, Trim ix dead st u := by
  induction n with
  | zero => intro _ _ _ _ _ _ _ h; omega
  | succ n ih =>
    intro st A B b E H e hn
    obtain ⟨l, g1, g2, g3, g4, g5, g6, g7⟩ := vacStep_spec (dead := dead) hc hal hM E H (b := b) (by rw [e]; simp)
    have hr := (Linked.right (e ▸ E.good.weak.linked 0 (Nat.zero_le _))).1
    rw [Ix.vacWalk, g1]
    simp only
    cases B with
    | nil =>
      simp only [List.head?_nil, Option.none_or] at hr
      rw [hr]
      exact ⟨l, rfl, g3, g4.congr (by simp), g7⟩
    | cons c B =>
      simp only [List.head?_cons, Option.some_or] at hr
      rw [hr]
      simp only
      obtain ⟨l2, i1, i2, i3, i4⟩ := ih (lastState st l) (A ++ [b]) B c g2 g3 (by rw [e]; simp) (by simp at hn; omega)
      rw [i1]
      refine ⟨l ++ l2, rfl, by rw [lastState_append]; exact i2, ?_, fun u hu => ?_⟩
      · rw [lastState_append]
        refine g4.trans i3 (fun k => ?_)
        simp only [g5]
        simp
      · rcases List.mem_append.1 hu with hu | hu
        · exact g7 u hu
        · exact g4.trim.trans (i4 u hu)

end

/-- VACUUM of the whole index. -/
theorem bulkDelete_spec {ix : Ix V} [Inhabited V] {M : Lim} (hc : ColsOK ix M) (hal : ∀ k, 8 ∣ ix.keySize k) (hM : M.single = true)
    (dead : Iptr → Bool) {st : State V} (H : IInv True ix M st) :
    ∃ l, ix.bulkDelete dead st = (l, true) ∧ IInv True ix M (lastState st l) ∧
      (∀ k, ix.rowsOf (lastState st l) k = live dead (ix.rowsOf st k)) ∧ ∀ u ∈ l, Trim ix dead st u := by
  obtain ⟨K, hK, key, G, hk, hG, hB⟩ := H.entry
  have E : EG True key G ix st.entry := ⟨hk, hG, hB⟩
  obtain ⟨c, C, h1, h2⟩ := leftmost_spec hG.weak G.h st.entry.next (_root_.le_refl _) (height_lt hG.weak) rootBlk [] hG.weak.root
  have hlen := level_length hG.weak.toThin (Nat.zero_le _)
  rw [h2, List.length_cons] at hlen
  obtain ⟨l, g1, g2, g3, g4⟩ := vacWalk_spec (dead := dead) hc hal hM st.entry.next st [] C c E H (by simpa using h2) (by omega)
  refine ⟨l, by unfold Ix.bulkDelete; rw [h1]; exact g1, g2, fun k => ?_, g4⟩
  by_cases hon : ∃ c' ∈ c :: C, On ix st.entry c' k
  · exact (g3 k).1 hon
  · rw [(g3 k).2 hon]
    have : ix.rowsOf st k = [] := by
      refine H.rowsOf_none hc (fun e he h => hon ?_)
      obtain ⟨c', hc', hm⟩ := (E.mem e).1 he
      exact ⟨c', by rw [← h2]; exact hc', e, hm, h⟩
    rw [this]; rfl

end Rum.Index

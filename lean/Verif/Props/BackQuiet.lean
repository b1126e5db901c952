import Verif.Props.BackScan
import Mathlib.Data.List.TakeWhile
/-!
# C46: backward scans as long as no page is split

The positive part of C46: what a backward scan delivers in runs in which other backends insert but no page is split.
-/
namespace Rum.Props.BackScan
open Rum Rum.Tree Rum.Codec Rum.Leaf Rum.Entry Rum.Props Rum.Props.PostingTree Rum.Props.Conc Std

/-! ### Proof apparatus -/

section generic
variable {α K : Type} [LinearOrder K] {key : α → K} {strict : Bool} {s t : Store α} {root : Nat} {G G' : Ghost} {o : Ops α}
  {seek : List α → Option α → α → Option (List α)}

/-- Links, bounds and kinds of the pages are the same. -/
def Quiet (s t : Store α) : Prop :=
  ∀ b, (t.page b).left = (s.page b).left ∧ (t.page b).right = (s.page b).right ∧ (t.page b).bound = (s.page b).bound ∧
    (t.page b).leaf = (s.page b).leaf

omit [LinearOrder K] in
theorem Quiet.refl (s : Store α) : Quiet s s := fun _ => ⟨rfl, rfl, rfl, rfl⟩

theorem quiet_set (s : Store α) (b : Nat) (its : List α) (downs : List (α × Nat)) :
    Quiet s (s.set b { s.page b with items := its, downs := downs }) := by
  intro c
  by_cases h : c = b
  · subst h; simp [Store.set]
  · simp [Store.set, h]

theorem splitAt_next (s : Store α) (b : Nat) (li ri : List α) (ld rd : List (α × Nat)) (k : α) : (splitAt s b li ri ld rd k).next = s.next + 1 := by
  unfold splitAt
  simp only
  split <;> rfl

theorem splitRoot_next (s : Store α) (b : Nat) (li ri : List α) (ld rd : List (α × Nat)) (k : α) : (splitRoot o s b li ri ld rd k).next = s.next + 2 := rfl

theorem link_quiet (s : Store α) (w : Pending α) (b off : Nat) (up : List (Nat × Nat)) :
    s.next ≤ (link o root s w b off up).1.next ∧ ((link o root s w b off up).1.next = s.next → Quiet s (link o root s w b off up).1) := by
  unfold link
  simp only
  split
  · exact ⟨Nat.le_refl _, fun _ => quiet_set s b _ _⟩
  · split
    · rw [splitRoot_next]; exact ⟨by omega, fun h => by omega⟩
    · rw [splitAt_next]; exact ⟨by omega, fun h => by omega⟩

theorem actIns_quiet (s : Store α) (a : α) (l : List α) (b : Nat) (up : List (Nat × Nat)) :
    s.next ≤ (actIns o root s a l b up).1.next ∧ ((actIns o root s a l b up).1.next = s.next → Quiet s (actIns o root s a l b up).1) := by
  unfold actIns
  simp only
  split
  · exact ⟨Nat.le_refl _, fun _ => Quiet.refl s⟩
  · split
    · split
      · exact ⟨Nat.le_refl _, fun _ => Quiet.refl s⟩
      · split
        · exact ⟨Nat.le_refl _, fun _ => quiet_set s b _ _⟩
        · split
          · rw [splitRoot_next]; exact ⟨by omega, fun h => by omega⟩
          · rw [splitAt_next]; exact ⟨by omega, fun h => by omega⟩
    · split <;> exact ⟨Nat.le_refl _, fun _ => Quiet.refl s⟩

/-- A step that allocates no page changes no link. -/
theorem act_quiet (s : Store α) (th : Thread α) :
    s.next ≤ (act o seek root s th).1.next ∧ ((act o seek root s th).1.next = s.next → Quiet s (act o seek root s th).1) := by
  have triv : s.next ≤ s.next ∧ (s.next = s.next → Quiet s s) := ⟨Nat.le_refl _, fun _ => Quiet.refl s⟩
  cases th with
  | ins batch b up =>
    cases batch with
    | nil => exact triv
    | cons a l => exact actIns_quiet s a l b up
  | walk w p off up =>
    simp only [act]
    split
    · exact link_quiet _ _ _ _ _
    · exact triv
  | top w =>
    simp only [act]
    split
    · exact link_quiet _ _ _ _ _
    · exact triv
  | level w p lm =>
    simp only [act]
    split
    · exact triv
    · split
      · exact link_quiet _ _ _ _ _
      · exact triv
  | down b => simp only [act]; split <;> exact triv
  | opening b => simp only [act]; split <;> exact triv
  | cursor b l cur acc =>
    cases l with
    | nil => simp only [act]; split <;> exact triv
    | cons => exact triv
  | _ => exact triv

omit [LinearOrder K] in
theorem hiP_quiet (h : Quiet s t) (b : Nat) : hiP key (t.page b) = hiP key (s.page b) := by
  unfold hiP
  rw [(h b).2.1, (h b).2.2.1]

omit [LinearOrder K] in
/-- The pages before a page are determined by the left links. -/
theorem left_unique (h : Quiet s t) (A : List Nat) : ∀ (A' B B' : List Nat) (b : Nat), Linked s none (A ++ b :: B) none →
    Linked t none (A' ++ b :: B') none → A = A' := by
  induction A using List.reverseRecOn with
  | nil =>
    intro A' B B' b h1 h2
    have l1 := (Linked.right h1).2
    have l2 := (Linked.right h2).2
    rw [(h b).1, l1] at l2
    simp at l2
    exact (List.getLast?_eq_none_iff.1 l2.symm).symm
  | append_singleton A a ih =>
    intro A' B B' b h1 h2
    have l1 := (Linked.right h1).2
    have l2 := (Linked.right h2).2
    rw [(h b).1, l1] at l2
    simp at l2
    obtain ⟨C, rfl⟩ := List.getLast?_eq_some_iff.1 l2.symm
    rw [List.append_assoc, List.singleton_append] at h1 h2
    rw [ih C _ _ a h1 h2]

/-- Without splits the leaf level stays the same. -/
theorem leaves_quiet (hq : Quiet s t) (W : Weak key strict s root G) (W' : Weak key strict t root G') {bad : Nat → Prop} {new : Nat → Nat → Prop}
    (hM : Moved key root bad new s G t G') {A B : List Nat} {b : Nat} (e : G.lv 0 = A ++ b :: B) :
    ∃ B', G'.lv 0 = A ++ b :: B' := by
  by_cases hb : b = root
  · subst hb
    have h0 : G.h = 0 := W.uniq G.h 0 b (Nat.le_refl _) (by omega) (by rw [W.root]; simp) (by rw [e]; simp)
    have hA : A = [] := by
      have := W.root
      rw [h0, e] at this
      cases A with
      | nil => rfl
      | cons a A => simp at this
    have hl : (t.page b).leaf = true := by rw [(hq b).2.2.2]; exact W.leaf b (by rw [e]; simp)
    have h0' : G'.h = 0 := by
      cases hh : G'.h with
      | zero => rfl
      | succ k =>
        have := (W'.inner k (by omega) b (by rw [← hh, W'.root]; simp)).1
        rw [hl] at this; cases this
    have := W'.root
    rw [h0'] at this
    exact ⟨[], by rw [this, hA]; rfl⟩
  · obtain ⟨A', B', e', -, -⟩ := hM.leaf A b B hb e
    have := left_unique hq A A' B B' b (e ▸ W.linked 0 (by omega)) (e' ▸ W'.linked 0 (by omega))
    exact ⟨B', by rw [this]; exact e'⟩

/-- An item within the limit of a page is on this page or before. -/
theorem where_le (W : Weak key strict s root G) {A B : List Nat} (e : G.lv 0 = A ++ B) {c : Nat} (hc : c ∈ A) {y : α} (hy : y ∈ contents s root)
    (hle : ((key y : K) : WithTop K) ≤ hiP key (s.page c)) : ∃ d ∈ A, y ∈ (s.page d).items := by
  obtain ⟨d, hd, hyd⟩ := (mem_contents W).1 hy
  rw [e] at hd
  rcases List.mem_append.1 hd with hd | hd
  · exact ⟨d, hd, hyd⟩
  · have hp := W.order.pair
    rw [e] at hp
    have := ((List.pairwise_append.1 hp).2.2 c hc d hd).2 y hyd
    exact absurd hle (_root_.not_le.2 this)

/-- What is known about a backward cursor. `S`: the items it has to deliver. -/
def BackOK (key : α → K) (cmp : α → α → Ordering) (root : Nat) (m : α) (s : Store α) (G : Ghost) (S : List α)
    (acc list : List α) (A B : List Nat) : Prop :=
  G.lv 0 = A ++ B ∧ acc ≠ [] ∧ (acc ++ list).Pairwise (fun a b => cmp b a = .lt) ∧
  (∀ a ∈ acc ++ list, a ∈ contents s root ∧ cmp a m ≠ .gt ∧ Low key s A a) ∧
  ∀ y ∈ S, y ∈ acc ++ list ∨ ∃ c ∈ A, y ∈ (s.page c).items

theorem BackOK.moved {cmp : α → α → Ordering} {m : α} {S acc list : List α} {A B : List Nat} {b : Nat} (hq : Quiet s t) (W : Weak key strict s root G)
    (W' : Weak key strict t root G') {bad : Nat → Prop} {new : Nat → Nat → Prop}
    (hM : Moved key root bad new s G t G') (hk : ∀ a ∈ contents s root, a ∈ contents t root)
    (h : BackOK key cmp root m s G S acc list A B) (hb : (∃ B0, B = b :: B0) ∨ ∃ A0, A = A0 ++ [b]) :
    ∃ B', BackOK key cmp root m t G' S acc list A B' ∧ (∀ B0, B = b :: B0 → ∃ B1, B' = b :: B1) := by
  obtain ⟨h1, h2, h3, h4, h5⟩ := h
  have hB : ∃ B', G'.lv 0 = A ++ B' ∧ (∀ B0, B = b :: B0 → ∃ B1, B' = b :: B1) := by
    rcases hb with ⟨B0, rfl⟩ | ⟨A0, rfl⟩
    · obtain ⟨B', e'⟩ := leaves_quiet hq W W' hM h1
      exact ⟨b :: B', e', fun _ _ => ⟨B', rfl⟩⟩
    · rw [List.append_assoc, List.singleton_append] at h1
      cases B with
      | nil =>
        obtain ⟨B', e'⟩ := leaves_quiet hq W W' hM h1
        exact ⟨B', by rw [e']; simp, fun B0 h => by cases h⟩
      | cons c B =>
        obtain ⟨B', e'⟩ := leaves_quiet hq W W' hM (show G.lv 0 = (A0 ++ [b]) ++ c :: B by rw [h1]; simp)
        refine ⟨c :: B', e', fun B0 h => ?_⟩
        obtain ⟨rfl, -⟩ := List.cons.inj h
        exact ⟨B', rfl⟩
  obtain ⟨B', e', hB'⟩ := hB
  refine ⟨B', ⟨e', h2, h3, fun a ha => ⟨hk a (h4 a ha).1, (h4 a ha).2.1, fun c hc => ?_⟩, fun y hy => ?_⟩, hB'⟩
  · rw [hiP_quiet hq]; exact (h4 a ha).2.2 c hc
  · rcases h5 y hy with h | ⟨c, hc, hyc⟩
    · exact Or.inl h
    · refine Or.inr (where_le W' e' hc (hk y ((mem_contents W).2 ⟨c, by rw [h1]; simp [hc], hyc⟩)) ?_)
      rw [hiP_quiet hq]
      exact W.order.le c (by rw [h1]; simp [hc]) y hyc

end generic


section concrete
variable {x : Ctx} {cap capI : Nat} {M : Lim} {build : Bool} {root : Nat}

/-- The state of a backward cursor started at `m`. -/
def CurOK {K : Type} [LinearOrder K] (key : Item Datum → K) (x : Ctx) (root : Nat) (m : Item Datum) (s : Store (Item Datum)) (G : Ghost)
    (S : List (Item Datum)) : Back → Prop
  | .opening b => b = root ∨ ∃ k A B, k < G.h ∧ G.lv k = A ++ b :: B ∧ NotLeft key s G k A m
  | .cursor b list cur acc => acc.getLast? = some cur ∧ ∃ A B, BackOK key x.cmp root m s G S acc list A (b :: B)
  | .prev b cur acc => acc.getLast? = some cur ∧ ∃ A B, BackOK key x.cmp root m s G S acc [] (A ++ [b]) B
  | .ended acc => acc.Pairwise (fun a b => x.cmp b a = .lt) ∧ (∀ a ∈ acc, a ∈ contents s root ∧ x.cmp a m ≠ .gt) ∧
      (acc ≠ [] ∨ (∃ y ∈ S, x.cmp y m = .eq) → ∀ y ∈ S, y ∈ acc)
  | .invalid => True

variable {K : Type} [LinearOrder K] {key : Item Datum → K} {y z : Sys (Item Datum)} {G G' : Ghost} {m : Item Datum} {S : List (Item Datum)}

theorem CurOK.moved {s t : Store (Item Datum)} (hq : Quiet s t) (W : Weak key false s root G)
    (W' : Weak key false t root G') {bad : Nat → Prop} {new : Nat → Nat → Prop}
    (hM : Moved key root bad new s G t G') (hk : ∀ a ∈ contents s root, a ∈ contents t root) {c : Back} (h : CurOK key x root m s G S c) :
    CurOK key x root m t G' S c := by
  cases c with
  | opening b =>
    rcases h with h | ⟨k, A, B, h1, h2, h3⟩
    · exact Or.inl h
    · obtain ⟨A', B', e', hA'⟩ := notLeft_moved W W' hM h1 h2 h3
      exact Or.inr ⟨k, A', B', Nat.lt_of_lt_of_le h1 hM.keeps.h, e', hA'⟩
  | cursor b list cur acc =>
    obtain ⟨h1, A, B, h2⟩ := h
    obtain ⟨B', h3, h4⟩ := h2.moved hq W W' hM hk (b := b) (Or.inl ⟨B, rfl⟩)
    obtain ⟨B1, rfl⟩ := h4 B rfl
    exact ⟨h1, A, B1, h3⟩
  | prev b cur acc =>
    obtain ⟨h1, A, B, h2⟩ := h
    obtain ⟨B', h3, -⟩ := h2.moved hq W W' hM hk (b := b) (Or.inr ⟨A, rfl⟩)
    exact ⟨h1, A, B', h3⟩
  | ended acc => exact ⟨h.1, fun a ha => ⟨hk a (h.2.1 a ha).1, (h.2.1 a ha).2⟩, h.2.2⟩
  | invalid => trivial

theorem page_sorted {s : Store (Item Datum)} (hk : KeyOf x.cmp key) (W : Weak key false s root G) {b : Nat} (hb : b ∈ G.lv 0) :
    SSorted x.cmp (s.page b).items :=
  (W.order.sorted b hb).imp (fun h => (hk.lt _ _).2 h)

/-- Delivery starts from a list. -/
theorem load_ok {s : Store (Item Datum)} {b : Nat} {acc l : List (Item Datum)} {A B : List Nat} {th : Back} (h : Back.load b acc l = some th)
    (h2 : G.lv 0 = A ++ b :: B) (h3 : (acc ++ l).Pairwise (fun a b => x.cmp b a = .lt))
    (h4 : ∀ a ∈ acc ++ l, a ∈ contents s root ∧ x.cmp a m ≠ .gt ∧ Low key s A a)
    (h5 : ∀ y ∈ S, y ∈ acc ++ l ∨ ∃ c ∈ A, y ∈ (s.page c).items) : CurOK key x root m s G S th := by
  cases l with
  | nil => cases h
  | cons a l =>
    cases h
    refine ⟨by simp, A, B, h2, by simp, ?_, ?_, ?_⟩
    · simpa using h3
    · simpa using h4
    · simpa using h5

theorem load_none {b : Nat} {acc l : List (Item Datum)} (h : Back.load b acc l = none) : l = [] := by
  cases l with
  | nil => rfl
  | cons a l => cases h

theorem rev_desc {l : List (Item Datum)} (h : SSorted x.cmp l) : l.reverse.Pairwise (fun a b => x.cmp b a = .lt) := by
  rw [List.pairwise_reverse]; exact h

/-- One step of the cursor. -/
theorem CurOK.act [TransCmp x.cmpV] {s : Store (Item Datum)} (hk : KeyOf x.cmp key) (W : Weak key false s root G)
    (hf : ∀ b ∈ G.lv 0, FitsPage x M cap (s.page b).items) (hS : ∀ y ∈ S, y ∈ contents s root ∧ x.cmp y m ≠ .gt)
    {c : Back} (h : CurOK key x root m s G S c) : CurOK key x root m s G S (actBack x root (some m) s c) := by
  have htr : TransCmp x.cmp := cmpItem_trans _ _
  cases c with
  | opening b =>
    obtain ⟨k, A, B, h1, h2, h3⟩ : ∃ k A B, k ≤ G.h ∧ G.lv k = A ++ b :: B ∧ NotLeft key s G k A m := by
      rcases h with rfl | ⟨k, A, B, h1, h2, h3⟩
      · exact ⟨G.h, [], [], Nat.le_refl _, by rw [W.root]; rfl, by simp [NotLeft]⟩
      · exact ⟨k, A, B, by omega, h2, h3⟩
    have hr := (Linked.right (h2 ▸ W.linked k h1)).1
    simp only [actBack]
    by_cases hmv : b ≠ root ∧ (s.page b).right.isSome = true ∧ x.cmp m (s.page b).bound = .gt
    · rw [if_pos hmv]
      cases B with
      | nil => rw [hr] at hmv; simp at hmv
      | cons r B =>
        simp at hr
        have hlt : k < G.h := by
          rcases Nat.lt_or_ge k G.h with h | h
          · exact h
          · obtain rfl : k = G.h := by omega
            rw [W.root] at h2
            cases A with
            | nil => simp at h2
            | cons a A => simp at h2
        have hgt := hmv.2.2
        rw [show x.cmp = (dataOps x 0 0 false).cmp from rfl] at hgt
        rw [hi_gt (o := dataOps x 0 0 false) hk _ _ r hr] at hgt
        rw [hr]
        exact Or.inr ⟨k, A ++ [b], B, hlt, by rw [h2]; simp, notLeft_of_last W h1 h2 hgt⟩
    · rw [if_neg hmv]
      have hle : ((key m : K) : WithTop K) ≤ hiP key (s.page b) := by
        cases B with
        | nil => simp at hr; simp [hiP, hr]
        | cons r B =>
          simp at hr
          have hb : b ≠ root := by
            rintro rfl
            have hh : k = G.h := W.uniq k G.h b h1 (Nat.le_refl _) (by rw [h2]; simp) (by rw [W.root]; simp)
            subst hh
            rw [W.root] at h2
            cases A with
            | nil => simp at h2
            | cons a A => simp at h2
          have : ¬ x.cmp m (s.page b).bound = .gt := fun h => hmv ⟨hb, by rw [hr]; rfl, h⟩
          rw [show x.cmp = (dataOps x 0 0 false).cmp from rfl] at this
          rw [hi_gt (o := dataOps x 0 0 false) hk _ _ r hr, _root_.not_lt] at this
          exact this
      cases k with
      | succ k =>
        have hnl := (W.inner k (by omega) b (by rw [h2]; simp)).1
        rw [hnl]
        simp only [Bool.false_eq_true, if_false]
        obtain ⟨d, A', B', e1, e2, e3⟩ := child_spec (o := dataOps x 0 0 false) (locateData_ok hk rfl) W (by omega) m A B b h2 h3 hle
        have e1' : (s.page b).downs[locateData x.cmp ((s.page b).downs.map Prod.fst) m - 1]? = some d := e1
        rw [e1']
        exact Or.inr ⟨k, A', B', by omega, e2, e3⟩
      | zero =>
        have hb : b ∈ G.lv 0 := by rw [h2]; simp
        rw [W.leaf b hb]
        simp only [if_true]
        have hss := page_sorted hk W hb
        have hmem : ∀ a, a ∈ (s.page b).items → x.cmp a m ≠ .gt →
            a ∈ (s.page b).items.takeWhile (fun it => x.cmp m it != .lt) := by
          intro a ha hc
          obtain ⟨u, v, e⟩ := List.append_of_mem ha
          rw [e]
          rw [List.takeWhile_append_of_pos]
          · rw [List.takeWhile_cons_of_pos]
            · simp
            · simp only [bne_iff_ne, ne_eq]
              rw [hk.lt]
              rw [ne_eq, hk.gt] at hc
              exact hc
          · intro c hc'
            simp only [bne_iff_ne, ne_eq]
            rw [e] at hss
            have := (List.pairwise_append.1 hss).2.2 c hc' a (by simp)
            rw [hk.lt] at this ⊢
            rw [ne_eq, hk.gt, _root_.not_lt] at hc
            exact _root_.not_lt.2 (_root_.le_of_lt (this.trans_le hc))
        have hin : ∀ a ∈ (s.page b).items.takeWhile (fun it => x.cmp m it != .lt), a ∈ (s.page b).items ∧ x.cmp a m ≠ .gt := by
          intro a ha
          refine ⟨List.takeWhile_subset _ ha, ?_⟩
          have := List.mem_takeWhile_imp ha
          simp only [bne_iff_ne, ne_eq] at this
          rw [hk.lt] at this
          rw [ne_eq, hk.gt]
          exact this
        have hall : ∀ y ∈ S, y ∈ (s.page b).items.takeWhile (fun it => x.cmp m it != .lt) ∨ ∃ c ∈ A, y ∈ (s.page c).items := by
          intro y hy
          obtain ⟨hy1, hy2⟩ := hS y hy
          obtain ⟨d, hd, hyd⟩ := where_le W (A := A ++ [b]) (B := B) (by rw [h2]; simp) (c := b) (by simp) hy1 (by
            rw [ne_eq, hk.gt, _root_.not_lt] at hy2
            exact (WithTop.coe_le_coe.2 hy2).trans hle)
          rcases List.mem_append.1 hd with hd | hd
          · exact Or.inr ⟨d, hd, hyd⟩
          · simp only [List.mem_singleton] at hd
            subst hd
            exact Or.inl (hmem y hyd hy2)
        cases hl : Back.load b [] ((s.page b).items.takeWhile (fun it => x.cmp m it != .lt)).reverse with
        | none =>
          have hnil := load_none hl
          rw [List.reverse_eq_nil_iff] at hnil
          simp only [Option.getD_none]
          refine ⟨List.Pairwise.nil, by simp, ?_⟩
          rintro (h | ⟨y, hy, he⟩)
          · exact absurd rfl h
          · exfalso
            rcases hall y hy with h | ⟨c, hc, hyc⟩
            · rw [hnil] at h; cases h
            · have h4 := h3 c (by simpa [under] using hc)
              have h5 := W.order.le c (by rw [h2]; simp [hc]) y hyc
              rw [hk.eq] at he
              rw [he] at h5
              exact absurd h5 (_root_.not_le.2 h4)
        | some th =>
          simp only [Option.getD_some]
          refine load_ok hl h2 ?_ ?_ ?_
          · rw [List.nil_append]
            exact rev_desc (hss.sublist (List.takeWhile_sublist _))
          · intro a ha
            rw [List.nil_append, List.mem_reverse] at ha
            obtain ⟨i1, i2⟩ := hin a ha
            exact ⟨(mem_contents W).2 ⟨b, hb, i1⟩, i2, low_items W h2 i1⟩
          · intro y hy
            rw [List.nil_append, List.mem_reverse]
            exact hall y hy
  | cursor b list cur acc =>
    obtain ⟨h1, A, B, h2, h3, h4, h5, h6⟩ := h
    cases list with
    | cons a list =>
      exact ⟨by simp, A, B, h2, by simp, by simpa using h4, by simpa using h5, by simpa using h6⟩
    | nil =>
      have hb : b ∈ G.lv 0 := by rw [h2]; simp
      rw [List.append_nil] at h4 h5 h6
      have hcur : cur ∈ acc := List.mem_of_getLast? h1
      obtain ⟨c, hc, hcc⟩ := (mem_contents W).1 (h5 cur hcur).1
      obtain ⟨p, hp, -⟩ := (hf b hb).holds (page_sorted hk W hb)
      simp only [actBack]
      rw [W.leaf b hb]
      simp only [if_true]
      rw [hp.built]
      simp only
      rcases C22_backward_partial x p _ hp (s.page b).hi cur false ((hf c hc).all cur hcc).valid with ⟨e, -⟩ | ⟨e, -⟩ | ⟨u, l, v, i, e, e2, ⟨hi, e3⟩, -⟩
      · rw [e]; trivial
      · rw [e]
        simp only
        have hl := (Linked.right (h2 ▸ W.linked 0 (by omega))).2
        rw [Option.or_none] at hl
        cases hA : A.getLast? with
        | none =>
          rw [hA] at hl; rw [hl]
          have hA' := List.getLast?_eq_none_iff.1 hA
          subst hA'
          refine ⟨h4, fun a ha => ⟨(h5 a ha).1, (h5 a ha).2.1⟩, fun _ y hy => ?_⟩
          rcases h6 y hy with h | ⟨c, hc, -⟩
          · exact h
          · cases hc
        | some d =>
          rw [hA] at hl; rw [hl]
          obtain ⟨A0, rfl⟩ := List.getLast?_eq_some_iff.1 hA
          exact ⟨h1, A0, b :: B, h2, h3, by simpa using h4, by simpa using h5, by simpa using h6⟩
      · rw [e]
        simp only
        have hlast : ∀ a ∈ acc, x.cmp cur a ≠ .gt := by
          obtain ⟨C, rfl⟩ := List.getLast?_eq_some_iff.1 h1
          intro a ha
          rcases List.mem_append.1 ha with ha | ha
          · rw [(List.pairwise_append.1 h4).2.2 a ha cur (by simp)]; decide
          · simp only [List.mem_singleton] at ha
            subst ha
            rw [ReflCmp.compare_self (cmp := x.cmp)]; decide
        have hlt : x.cmp l[i] cur = .lt := by
          rcases e3 with e3 | e3
          · exact e3
          · simp at e3
        have hss : SSorted x.cmp l := by
          have := hp.sorted
          rw [e2] at this
          exact (this.sublist (List.sublist_append_left _ _)).sublist (List.sublist_append_right _ _)
        have htake : ∀ a ∈ l.take (i + 1), a ∈ (s.page b).items ∧ x.cmp a cur = .lt := by
          intro a ha
          refine ⟨by rw [e2]; simp [List.mem_of_mem_take ha], ?_⟩
          rw [List.take_succ_eq_append_getElem hi] at ha
          rcases List.mem_append.1 ha with ha' | ha'
          · have : l = l.take i ++ l.drop i := (List.take_append_drop i l).symm
            rw [this] at hss
            have := (List.pairwise_append.1 hss).2.2 a ha' l[i] (by rw [List.drop_eq_getElem_cons hi]; exact List.mem_cons_self)
            exact TransCmp.lt_trans this hlt
          · simp only [List.mem_singleton] at ha'
            rw [ha']; exact hlt
        cases hl : Back.load b acc (l.take (i + 1)).reverse with
        | none => trivial
        | some th =>
          refine load_ok hl h2 ?_ ?_ ?_
          · refine List.pairwise_append.2 ⟨h4, rev_desc (hss.sublist (List.take_sublist _ _)), ?_⟩
            intro a ha d hd
            rw [List.mem_reverse] at hd
            have h7 := (htake d hd).2
            have h8 := hlast a ha
            rw [hk.lt] at h7 ⊢
            rw [ne_eq, hk.gt, _root_.not_lt] at h8
            exact h7.trans_le h8
          · intro a ha
            rcases List.mem_append.1 ha with ha | ha
            · exact h5 a ha
            · rw [List.mem_reverse] at ha
              obtain ⟨t1, t2⟩ := htake a ha
              refine ⟨(mem_contents W).2 ⟨b, hb, t1⟩, ?_, low_items W h2 t1⟩
              have := (h5 cur hcur).2.1
              rw [ne_eq, hk.gt, _root_.not_lt] at this ⊢
              rw [hk.lt] at t2
              exact (_root_.le_of_lt t2).trans this
          · intro y hy
            rcases h6 y hy with h | h
            · exact Or.inl (by simp [h])
            · exact Or.inr h
  | prev b cur acc =>
    obtain ⟨h1, A, B, h2, h3, h4, h5, h6⟩ := h
    rw [List.append_nil] at h4 h5 h6
    rw [List.append_assoc, List.singleton_append] at h2
    have hb : b ∈ G.lv 0 := by rw [h2]; simp
    have hss := page_sorted hk W hb
    simp only [actBack]
    have hord : ∀ a ∈ acc, ∀ d ∈ (s.page b).items, x.cmp d a = .lt := by
      intro a ha d hd
      have h7 := (h5 a ha).2.2 b (by simp)
      have h8 := W.order.le b hb d hd
      rw [hk.lt]
      exact WithTop.coe_lt_coe.1 (h8.trans_lt h7)
    cases hl : Back.load b acc (s.page b).items.reverse with
    | none => trivial
    | some th =>
      refine load_ok hl h2 ?_ ?_ ?_
      · refine List.pairwise_append.2 ⟨h4, rev_desc hss, ?_⟩
        intro a ha d hd
        rw [List.mem_reverse] at hd
        exact hord a ha d hd
      · intro a ha
        rcases List.mem_append.1 ha with ha | ha
        · exact ⟨(h5 a ha).1, (h5 a ha).2.1, fun c hc => (h5 a ha).2.2 c (by simp [hc])⟩
        · rw [List.mem_reverse] at ha
          refine ⟨(mem_contents W).2 ⟨b, hb, ha⟩, ?_, low_items W h2 ha⟩
          have hcur : cur ∈ acc := List.mem_of_getLast? h1
          have h7 := (h5 cur hcur).2.1
          have h8 := hord cur hcur a ha
          rw [hk.lt] at h8
          rw [ne_eq, hk.gt, _root_.not_lt] at h7 ⊢
          exact (_root_.le_of_lt h8).trans h7
      · intro y hy
        rcases h6 y hy with h | ⟨c, hc, hyc⟩
        · exact Or.inl (by simp [h])
        · rcases List.mem_append.1 hc with hc | hc
          · exact Or.inr ⟨c, hc, hyc⟩
          · simp only [List.mem_singleton] at hc
            subst hc
            exact Or.inl (by simp [hyc])
  | ended acc => exact h
  | invalid => trivial

theorem fires_quiet {e : Event} (h : Fires x cap capI M build root e y z) :
    y.store.next ≤ z.store.next ∧ (z.store.next = y.store.next → Quiet y.store z.store) := by
  cases e with
  | act i =>
    rw [h.2]
    exact act_quiet _ _
  | start i op =>
    obtain ⟨-, -, rfl⟩ := h
    exact ⟨Nat.le_refl _, fun _ => Quiet.refl _⟩
  | abort i =>
    subst h
    exact ⟨Nat.le_refl _, fun _ => Quiet.refl _⟩

theorem fits_of (I : SInv False x cap capI M build root key y G) : ∀ b ∈ G.lv 0, FitsPage x M cap (y.store.page b).items :=
  fun b hb => I.good.fit _ (List.mem_map.2 ⟨b, hb, rfl⟩)

theorem backRun_inv [TransCmp x.cmpV] (hz : Sizes x cap capI M) (hk : KeyOf x.cmp key) {u v : Sys (Item Datum) × Back}
    (h : BackRun x cap capI M build root (some m) u v) (hS : ∀ y ∈ S, y ∈ contents u.1.store root ∧ x.cmp y m ≠ .gt) :
    SInv False x cap capI M build root key u.1 G → CurOK key x root m u.1.store G S u.2 →
    u.1.store.next ≤ v.1.store.next ∧ (v.1.store.next = u.1.store.next →
      ∃ G', SInv False x cap capI M build root key v.1 G' ∧ (∀ a ∈ contents u.1.store root, a ∈ contents v.1.store root) ∧
        CurOK key x root m v.1.store G' S v.2) := by
  induction h with
  | refl => exact fun I h => ⟨Nat.le_refl _, fun _ => ⟨G, I, fun a h => h, h⟩⟩
  | @other z w e h1 h2 ih =>
    intro I hc
    obtain ⟨n1, ih⟩ := ih I hc
    obtain ⟨n2, hq⟩ := fires_quiet h2
    refine ⟨n1.trans n2, fun hn => ?_⟩
    obtain ⟨G1, I1, k1, c1⟩ := ih (by simp only at hn; omega)
    have hq := hq (by simp only at hn; omega)
    cases e with
    | act i =>
      obtain ⟨G2, bad, new, St, I2, ho⟩ := I1.acts hz hk h2
      exact ⟨G2, I2, fun a ha => St.keep a (k1 a ha), c1.moved hq I1.good.weak I2.good.weak St.moved St.keep⟩
    | start i op =>
      obtain ⟨h1, h2, rfl⟩ := h2
      obtain ⟨f1, f2, f3, f4, f5⟩ := start_facts (C := False) (key := key) (root := root) op
      exact ⟨G1, SysInv.put I1 f1 (fun _ => free_pending h1) f2 (f4 _ _) (start_todo h2) f3, k1, c1⟩
    | abort i =>
      subst h2
      exact ⟨G1, SysInv.put I1 rfl (fun c => c.elim) (by simp [knows]) trivial (by simp [todo, SSorted, BatchIn]) (by simp), k1, c1⟩
  | @own z h1 h2 ih =>
    intro I hc
    obtain ⟨n1, ih⟩ := ih I hc
    refine ⟨n1, fun hn => ?_⟩
    obtain ⟨G1, I1, k1, c1⟩ := ih hn
    exact ⟨G1, I1, k1, c1.act hk I1.good.weak (fits_of I1) (fun y hy => ⟨k1 y (hS y hy).1, (hS y hy).2⟩)⟩

end concrete

theorem head_takeWhile {α : Type} {l : List α} {p : α → Bool} (h : l.takeWhile p ≠ []) : (l.takeWhile p).head? = l.head? := by
  cases l with
  | nil => rfl
  | cons a l =>
    by_cases hp : p a = true
    · rw [List.takeWhile_cons_of_pos hp]; rfl
    · rw [List.takeWhile_cons_of_neg hp] at h; exact absurd rfl h

/-- Nothing lies before the first item of a page that has not exactly three items. -/
theorem miss_first {x : Ctx} [TransCmp x.cmpV] {M : Lim} {p : Leaf.Page} {its : List (Item Datum)} {rb : Option (Item Datum)} {cur : Item Datum}
    (hp : Holds x p its) (h3 : its ≠ [] ∧ its.length ≠ 3) (hc : [cur].getLast? = its.head?) (hst : ∀ it ∈ its, Storable x M it) :
    scanPage x p rb ⟨false, cur, false⟩ = some .miss := by
  have htr : TransCmp x.cmp := cmpItem_trans _ _
  cases its with
  | nil => exact absurd rfl h3.1
  | cons f its =>
    simp at hc
    subst hc
    have hs := hp.sorted
    have hge : ∀ a ∈ cur :: its, ¬ x.cmp a cur = .lt := by
      intro a ha h
      rcases List.mem_cons.1 ha with rfl | ha
      · rw [ReflCmp.compare_self (cmp := x.cmp)] at h; cases h
      · have := (List.pairwise_cons.1 hs).1 a ha
        have := TransCmp.lt_trans h this
        rw [ReflCmp.compare_self (cmp := x.cmp)] at this; cases this
    rcases C22_backward_partial x p _ hp rb cur false (hst cur (by simp)).valid with ⟨e, h | ⟨h1, h2, h⟩⟩ | ⟨e, -⟩ | ⟨u, l, v, i, e, e2, ⟨hi, e3⟩, -⟩
    · cases h
    · exfalso
      have h0 := (h 0 (by simp)).1 (Or.inr ⟨by simp [ReflCmp.compare_self (cmp := x.cmp)], rfl⟩)
      simp only [List.length_cons] at *
      have h4 := h 1 (by simp; omega)
      rcases Nat.lt_or_ge 3 (its.length + 1) with h5 | h5
      · rcases h4.2 (by omega) with h6 | ⟨h6, -⟩
        · exact hge _ (List.getElem_mem _) h6
        · have hp := List.pairwise_iff_getElem.1 hs 0 1 (by simp) (by simp; omega) (by omega)
          simp only [List.getElem_cons_zero] at hp
          rw [OrientedCmp.eq_comm] at h6
          rw [h6] at hp; cases hp
      · omega
    · exact e
    · exfalso
      rcases e3 with e3 | e3
      · exact hge l[i] (by rw [e2]; simp) e3
      · simp at e3

section ends
variable {x : Ctx} {cap : Nat} {M : Lim} {root : Nat} {K : Type} [LinearOrder K] {key : Item Datum → K} {G : Ghost} {m : Item Datum}
  {s : Store (Item Datum)}

theorem ends_succ {mark : Option (Item Datum)} {c : Back} (h : ∃ n acc, soloB x root mark s n (actBack x root mark s c) = .ended acc) :
    ∃ n acc, soloB x root mark s n c = .ended acc := by
  obtain ⟨n, acc, h⟩ := h
  exact ⟨n + 1, acc, h⟩

/-- A cursor on a tree left alone comes to its end. -/
theorem ends_cursor [TransCmp x.cmpV] {mark : Option (Item Datum)} (hk : KeyOf x.cmp key) (W : Weak key false s root G)
    (hf : ∀ b ∈ G.lv 0, FitsPage x M cap (s.page b).items) (h3 : ∀ b ∈ G.lv 0, (s.page b).items ≠ [] ∧ (s.page b).items.length ≠ 3) (A : List Nat) :
    ∀ (b : Nat) (B : List Nat) (list : List (Item Datum)) (cur : Item Datum) (acc : List (Item Datum)), G.lv 0 = A ++ b :: B →
    (cur :: list).getLast? = (s.page b).items.head? → ∃ n acc', soloB x root mark s n (.cursor b list cur acc) = .ended acc' := by
  have htr : TransCmp x.cmp := cmpItem_trans _ _
  induction A using List.reverseRecOn with
  | nil =>
    intro b B list
    induction list with
    | cons a list ih =>
      intro cur acc e hl
      exact ends_succ (ih a (acc ++ [a]) e (by rw [← hl]; simp))
    | nil =>
      intro cur acc e hl
      apply ends_succ
      have hb : b ∈ G.lv 0 := by rw [e]; simp
      obtain ⟨p, hp, -⟩ := (hf b hb).holds (page_sorted hk W hb)
      have e1 := miss_first (rb := (s.page b).hi) hp (h3 b hb) hl ((hf b hb).all)
      simp only [actBack, W.leaf b hb, if_true, hp.built, e1]
      have hlk := (Linked.right (e ▸ W.linked 0 (by omega))).2
      simp at hlk
      rw [hlk]
      exact ⟨0, acc, rfl⟩
  | append_singleton A d ihA =>
    intro b B list
    induction list with
    | cons a list ih =>
      intro cur acc e hl
      exact ends_succ (ih a (acc ++ [a]) e (by rw [← hl]; simp))
    | nil =>
      intro cur acc e hl
      apply ends_succ
      have hb : b ∈ G.lv 0 := by rw [e]; simp
      have hd : d ∈ G.lv 0 := by rw [e]; simp
      obtain ⟨p, hp, -⟩ := (hf b hb).holds (page_sorted hk W hb)
      have e1 := miss_first (rb := (s.page b).hi) hp (h3 b hb) hl ((hf b hb).all)
      simp only [actBack, W.leaf b hb, if_true, hp.built, e1]
      have hlk := (Linked.right (e ▸ W.linked 0 (by omega))).2
      simp at hlk
      rw [hlk]
      simp only
      apply ends_succ
      simp only [actBack]
      rw [List.append_assoc, List.singleton_append] at e
      cases hr : (s.page d).items.reverse with
      | nil => exact absurd (List.reverse_eq_nil_iff.1 hr) (h3 d hd).1
      | cons z zs =>
        refine ihA d (b :: B) zs z _ e ?_
        rw [← hr, List.getLast?_reverse]

/-- The descent of a scan with a mark comes to its end. -/
theorem ends_opening [TransCmp x.cmpV] (hk : KeyOf x.cmp key) (W : Weak key false s root G)
    (hf : ∀ b ∈ G.lv 0, FitsPage x M cap (s.page b).items) (h3 : ∀ b ∈ G.lv 0, (s.page b).items ≠ [] ∧ (s.page b).items.length ≠ 3) (k : Nat) :
    ∀ (B A : List Nat) (b : Nat), k ≤ G.h → G.lv k = A ++ b :: B → NotLeft key s G k A m →
    ∃ n acc, soloB x root (some m) s n (.opening b) = .ended acc := by
  induction k with
  | zero =>
    intro B
    induction B with
    | nil =>
      intro A b h1 h2 h4
      have hr := (Linked.right (h2 ▸ W.linked 0 h1)).1
      simp at hr
      have hb : b ∈ G.lv 0 := by rw [h2]; simp
      apply ends_succ
      simp only [actBack, hr, W.leaf b hb, if_true, Option.isSome_none, Bool.false_eq_true, false_and, and_false, if_false]
      cases hl : ((s.page b).items.takeWhile (fun it => x.cmp m it != .lt)).reverse with
      | nil => exact ⟨0, [], rfl⟩
      | cons z zs =>
        refine ends_cursor hk W hf h3 A b [] zs z _ h2 ?_
        rw [← hl, List.getLast?_reverse]
        exact head_takeWhile (by rw [ne_eq, ← List.reverse_eq_nil_iff, hl]; simp)
    | cons r B ih =>
      intro A b h1 h2 h4
      have hr := (Linked.right (h2 ▸ W.linked 0 h1)).1
      simp at hr
      have hb : b ∈ G.lv 0 := by rw [h2]; simp
      apply ends_succ
      simp only [actBack, hr, W.leaf b hb, if_true]
      split
      · next hmv =>
        have hgt := hmv.2.2
        rw [show x.cmp = (dataOps x 0 0 false).cmp from rfl] at hgt
        rw [hi_gt (o := dataOps x 0 0 false) hk _ _ r hr] at hgt
        exact ih (A ++ [b]) r h1 (by rw [h2]; simp) (notLeft_of_last W h1 h2 hgt)
      · cases hl : ((s.page b).items.takeWhile (fun it => x.cmp m it != .lt)).reverse with
        | nil => exact ⟨0, [], rfl⟩
        | cons z zs =>
          refine ends_cursor hk W hf h3 A b _ zs z _ h2 ?_
          rw [← hl, List.getLast?_reverse]
          exact head_takeWhile (by rw [ne_eq, ← List.reverse_eq_nil_iff, hl]; simp)
  | succ k ihk =>
    intro B
    have down : ∀ A b B, k + 1 ≤ G.h → G.lv (k + 1) = A ++ b :: B → NotLeft key s G (k + 1) A m → ((key m : K) : WithTop K) ≤ hiP key (s.page b) →
        ∃ n acc, soloB x root (some m) s n (match (s.page b).downs[locateData x.cmp ((s.page b).downs.map Prod.fst) m - 1]? with
          | some d => .opening d.2
          | none => .invalid) = .ended acc := by
      intro A b B h1 h2 h4 hle
      obtain ⟨d, A', B', e1, e2, e3⟩ := child_spec (o := dataOps x 0 0 false) (locateData_ok hk rfl) W (by omega) m A B b h2 h4 hle
      have e1' : (s.page b).downs[locateData x.cmp ((s.page b).downs.map Prod.fst) m - 1]? = some d := e1
      rw [e1']
      exact ihk B' A' d.2 (by omega) e2 e3
    induction B with
    | nil =>
      intro A b h1 h2 h4
      have hr := (Linked.right (h2 ▸ W.linked (k + 1) h1)).1
      simp at hr
      have hnl := (W.inner k (by omega) b (by rw [h2]; simp)).1
      apply ends_succ
      simp only [actBack, hr, hnl, Option.isSome_none, Bool.false_eq_true, false_and, and_false, if_false]
      exact down A b [] h1 h2 h4 (by simp [hiP, hr])
    | cons r B ih =>
      intro A b h1 h2 h4
      have hr := (Linked.right (h2 ▸ W.linked (k + 1) h1)).1
      simp at hr
      have hnl := (W.inner k (by omega) b (by rw [h2]; simp)).1
      apply ends_succ
      simp only [actBack, hr, hnl, Bool.false_eq_true, if_false]
      split
      · next hmv =>
        have hgt := hmv.2.2
        rw [show x.cmp = (dataOps x 0 0 false).cmp from rfl] at hgt
        rw [hi_gt (o := dataOps x 0 0 false) hk _ _ r hr] at hgt
        exact ih (A ++ [b]) r h1 (by rw [h2]; simp) (notLeft_of_last W h1 h2 hgt)
      · next hmv =>
        refine down A b (r :: B) h1 h2 h4 ?_
        have hb : b ≠ root := by
          rintro rfl
          have hh : k + 1 = G.h := W.uniq (k + 1) G.h b h1 (Nat.le_refl _) (by rw [h2]; simp) (by rw [W.root]; simp)
          rw [hh, W.root] at h2
          cases A with
          | nil => simp at h2
          | cons a A => simp at h2
        have : ¬ x.cmp m (s.page b).bound = .gt := fun h => hmv ⟨hb, rfl, h⟩
        rw [show x.cmp = (dataOps x 0 0 false).cmp from rfl] at this
        rw [hi_gt (o := dataOps x 0 0 false) hk _ _ r hr, _root_.not_lt] at this
        exact this

end ends

/-! ### Properties -/

/-- **C46, partial: as long as no page is split.** Whatever happened to the tree before, and whatever insertions, scans and aborts of other backends
come between the page visits of a backward scan started at `mark`, if none of them splits a page (no page is allocated): when the scan has come to
its end, it has delivered items of the tree not beyond the mark, in descending order, none twice; and unless it found nothing on its first page
(see `C23_mark_backward_violated`), it has delivered every item not beyond the mark that was there when it started. What is missing: runs with
splits, where the claim is false (`C46_violated`), and that the scan comes to its end (see `C46_ends_partial`). -/
theorem C46_no_split_partial (x : Ctx) [TransCmp x.cmpV] (cap capI : Nat) (M : Lim) (build : Bool) (hz : Sizes x cap capI M) (root : Nat)
    (s : Store (Item Datum)) (h : Reach x cap capI M build s root) (es : List Event) (y z : Sys (Item Datum)) (mark : Item Datum)
    (h1 : Run x cap capI M build root (atRest s) es y) (acc : List (Item Datum))
    (h2 : BackRun x cap capI M build root (some mark) (y, .opening root) (z, .ended acc)) (hn : z.store.next = y.store.next) :
    acc.Pairwise (fun a b => x.cmp b a = .lt) ∧ (∀ a ∈ acc, a ∈ contents z.store root ∧ x.cmp a mark ≠ .gt) ∧
    (acc ≠ [] ∨ (∃ a ∈ contents y.store root, x.cmp a mark = .eq) → ∀ a ∈ contents y.store root, x.cmp a mark ≠ .gt → a ∈ acc) := by
  obtain ⟨K, hK, key, G, hk, I, -, -⟩ := reach_run hz h h1
  obtain ⟨-, hv⟩ := backRun_inv hz hk (S := (contents y.store root).filter (fun a => x.cmp a mark != .gt)) h2
    (fun a ha => by simpa using ha) I (Or.inl rfl)
  obtain ⟨G', I', k1, c1⟩ := hv hn
  refine ⟨c1.1, c1.2.1, fun hc a ha hle => c1.2.2 ?_ a (by simpa using ⟨ha, hle⟩)⟩
  rcases hc with hc | ⟨b, hb, he⟩
  · exact Or.inl hc
  · exact Or.inr ⟨b, by simp [hb, he], he⟩

/-- **C46, partial: the scan comes to its end** on a tree left alone (with any history of insertions and crashes), provided no leaf page has exactly
three items (see `C23_backward_three_violated`) or none: and it has delivered everything (or found nothing on its first page). -/
theorem C46_ends_partial (x : Ctx) [TransCmp x.cmpV] (cap capI : Nat) (M : Lim) (build : Bool) (hz : Sizes x cap capI M) (root : Nat)
    (s : Store (Item Datum)) (h : Reach x cap capI M build s root) (mark : Item Datum)
    (h3 : ∀ b < s.next, (s.page b).leaf = true → (s.page b).items.length ≠ 0 ∧ (s.page b).items.length ≠ 3) :
    ∃ n acc, soloB x root (some mark) s n (.opening root) = .ended acc ∧
      acc.Pairwise (fun a b => x.cmp b a = .lt) ∧ (∀ a ∈ acc, a ∈ contents s root ∧ x.cmp a mark ≠ .gt) ∧
      (acc ≠ [] ∨ (∃ a ∈ contents s root, x.cmp a mark = .eq) → ∀ a ∈ contents s root, x.cmp a mark ≠ .gt → a ∈ acc) := by
  obtain ⟨K, hK, key, G, hk, I, -, -⟩ := reach_run hz h (Run.refl (atRest s))
  have W : Weak key false s root G := I.good.weak
  obtain ⟨n, acc, e⟩ := ends_opening (m := mark) hk W (fits_of I) (fun b hb => by
    obtain ⟨h1, h2⟩ := h3 b (W.alloc 0 (by omega) b hb).1 (W.leaf b hb)
    exact ⟨fun h => h1 (by rw [h]; rfl), h2⟩) G.h [] [] root (Nat.le_refl _) W.root (by simp [NotLeft])
  refine ⟨n, acc, e, C46_no_split_partial x cap capI M build hz root s h [] (atRest s) (atRest s) mark (Run.refl _) acc ?_ rfl⟩
  rw [← e]
  exact backRun_solo (fun _ => rfl) n _

/-- The hypotheses are met: a tree of one leaf with five items. -/
example : Sizes altCtx 88 96 14 ∧ Reach altCtx 88 96 14 false bkTree 0 ∧
    ∀ b < bkTree.next, (bkTree.page b).leaf = true → (bkTree.page b).items.length ≠ 0 ∧ (bkTree.page b).items.length ≠ 3 :=
  ⟨⟨by decide, by decide, by decide, by decide⟩, bkReach, by decide +kernel⟩

/-- A tree of two leaves after an insertion, scanned backward from the end: the hypotheses of `C46_no_split_partial` are met. -/
example : ∃ (es : List Event) (acc : List (Item Datum)), Run altCtx 88 96 14 false 0 (atRest bkTree) es (duo bkA.1 .idle bkA.2) ∧
    BackRun altCtx 88 96 14 false 0 (some (bkItem 11)) (duo bkA.1 .idle bkA.2, .opening 0) (duo bkA.1 .idle bkA.2, .ended acc) ∧
    acc.map (fun it => it.iptr.off) = [10, 9, 8, 3, 2, 1] := by
  obtain ⟨es, hr⟩ := bkRunA
  have e : bkDone (soloB altCtx 0 (some (bkItem 11)) bkA.1 11 (.opening 0)) = some [10, 9, 8, 3, 2, 1] := by
    unfold bkA
    rw [← dataOpsF_eq]
    decide +kernel
  cases hth : soloB altCtx 0 (some (bkItem 11)) bkA.1 11 (.opening 0) with
  | ended acc =>
    rw [hth] at e
    refine ⟨es, acc, hr, ?_, by simpa [bkDone] using e⟩
    rw [← hth]
    exact backRun_solo bkHolds 11 _
  | _ => rw [hth] at e; simp [bkDone] at e

end Rum.Props.BackScan

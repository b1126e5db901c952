import Verif.EntryScan
import Verif.Props.ScanPage
/-
Property theorems C23: walking the leaf pages of a posting tree.
-/
namespace Rum.Props
open Rum Rum.Codec Rum.Leaf Std

/-! ### Specification vocabulary -/

/-- `g` is a leaf page holding exactly `its`, all of which respect its right bound. -/
structure LeafOK (x : Ctx) (g : LeafB) (its : List (Item Datum)) : Prop where
  holds : Holds x g.page its
  bound : ∀ b, g.rb = some b → ∀ it ∈ its, x.cmp it b ≠ .gt
  valid : ∀ it ∈ its, 1 ≤ it.iptr.off

/-- The pages `gs`, in this order, hold the item lists `cs`. -/
inductive Leaves (x : Ctx) : List LeafB → List (List (Item Datum)) → Prop
  | nil : Leaves x [] []
  | cons {g gs c cs} : LeafOK x g c → Leaves x gs cs → Leaves x (g :: gs) (c :: cs)

/-! ### Helpers -/

theorem loadAll_ok (x : Ctx) (p : Page) (its : List (Item Datum)) (hp : Holds x p its) : loadAll x p = some its := by
  obtain ⟨hd, hm, -, -⟩ := hp.facts
  obtain ⟨rest, hr⟩ := read_segment x.cfg its p.data hp.ok hp.stored hd its.length 0 ⟨0, 0⟩ (by omega) (fun _ => by simp [lastIptr])
  have e : posOf x.cfg its 0 = 0 := by simp [posOf, checkList]
  rw [e] at hr
  unfold loadAll
  rw [hm]
  simp only [List.drop_zero] at hr
  rw [hr]; simp

theorem split_unique {α : Type} (B : α → Prop) {p q u v : List α} (e : p ++ q = u ++ v) (hp : ∀ y ∈ p, ¬ B y)
    (hu : ∀ y ∈ u, ¬ B y) (hv : ∀ y ∈ v, B y) (hq : ∀ y, q.head? = some y → B y) : p = u ∧ q = v := by
  rcases List.append_eq_append_iff.1 e with ⟨c, h1, h2⟩ | ⟨c, h1, h2⟩
  · cases c with
    | nil => simp at h1 h2; exact ⟨h1.symm, h2⟩
    | cons d c =>
      exfalso
      exact hu d (by rw [h1]; simp) (hq d (by rw [h2]; rfl))
  · cases c with
    | nil => simp at h1 h2; exact ⟨h1, h2.symm⟩
    | cons d c =>
      exfalso
      exact hp d (by rw [h1]; simp) (hv d (by rw [h2]; simp))

/-- Forward search on one page beyond an item that separates its items into `u` and `v`. -/
theorem seek_page_fwd (x : Ctx) [TransCmp x.cmpV] (g : LeafB) (it : Item Datum) (u v : List (Item Datum))
    (hg : LeafOK x g (u ++ v)) (hit : 1 ≤ it.iptr.off) (hu : ∀ y ∈ u, x.cmp y it ≠ .gt) (hv : ∀ y ∈ v, x.cmp y it = .gt) :
    (v = [] ∧ scanPage x g.page g.rb ⟨true, it, false⟩ = some .miss) ∨
    (∃ a l b i y, scanPage x g.page g.rb ⟨true, it, false⟩ = some (.hit l i) ∧ u ++ v = a ++ l ++ b ∧ l[i]? = some y ∧
      v = y :: (l.drop (i + 1) ++ b)) := by
  rcases C22_forward x g.page (u ++ v) hg.holds g.rb hg.bound it false hit with ⟨h1, h2⟩ | ⟨a, l, b, i, h1, h2, ⟨h3, h3'⟩, h4⟩
  · left
    refine ⟨?_, h1⟩
    rw [List.eq_nil_iff_forall_not_mem]
    intro y hy
    exact h2 y (by simp [hy]) (Or.inl (by simp [hv y hy]))
  · right
    have e : (a ++ l.take i) ++ (l.drop i ++ b) = u ++ v := by
      rw [h2]; simp only [List.append_assoc]; rw [← List.append_assoc (l.take i), List.take_append_drop]
    have hd : l.drop i = l[i] :: l.drop (i + 1) := List.drop_eq_getElem_cons h3
    have := split_unique (AtOrBeyond x true false it) e h4 (fun y hy hb => by
        rcases hb with hb | ⟨hb, -⟩
        · exact hu y hy (by simpa using hb)
        · cases hb) (fun y hy => Or.inl (by simp [hv y hy])) (fun y hy => by
        rw [hd, List.cons_append, List.head?_cons, Option.some.injEq] at hy; subst hy; exact h3')
    exact ⟨a, l, b, i, l[i], h1, h2, List.getElem?_eq_getElem h3, by rw [← this.2, hd, List.cons_append]⟩

/-- One request beyond `it`, when the loaded list is used up: forward. -/
theorem next_seek_fwd (x : Ctx) [TransCmp x.cmpV] : ∀ (sib : List LeafB) (cs : List (List (Item Datum))), Leaves x sib cs →
    ∀ (cur : LeafB) (list : List (Item Datum)) (off : Int) (it : Item Datum) (u v : List (Item Datum)),
    LeafOK x cur (u ++ v) → SSorted x.cmp ((u ++ v) ++ cs.flatten) → 1 ≤ it.iptr.off →
    (∀ y ∈ u, x.cmp y it ≠ .gt) → (∀ y ∈ v ++ cs.flatten, x.cmp y it = .gt) →
    (if 0 ≤ off then list[off.toNat]? else none) = none →
    (v ++ cs.flatten = [] ∧ nextItem x true sib cur list off it = some .finished) ∨
    (∃ g gs ds l i a b y R, nextItem x true sib cur list off it = some (.item ⟨g, gs, l, ((i + 1 : Nat) : Int), y⟩) ∧
      v ++ cs.flatten = y :: R ∧ LeafOK x g (a ++ l ++ b) ∧ Leaves x gs ds ∧ l[i]? = some y ∧
      SSorted x.cmp ((a ++ l ++ b) ++ ds.flatten) ∧ R = l.drop (i + 1) ++ b ++ ds.flatten) := by
  have htr : TransCmp x.cmp := cmpItem_trans _ _
  have hhit : ∀ (sib : List LeafB) (cs : List (List (Item Datum))), Leaves x sib cs →
      ∀ (cur : LeafB) (list : List (Item Datum)) (off : Int) (it : Item Datum) (u v : List (Item Datum)),
      LeafOK x cur (u ++ v) → SSorted x.cmp ((u ++ v) ++ cs.flatten) → 
      (if 0 ≤ off then list[off.toNat]? else none) = none → ∀ a l b i y,
      scanPage x cur.page cur.rb ⟨true, it, false⟩ = some (.hit l i) → u ++ v = a ++ l ++ b → l[i]? = some y →
      v = y :: (l.drop (i + 1) ++ b) → 
      (∃ g gs ds l i a b y R, nextItem x true sib cur list off it = some (.item ⟨g, gs, l, ((i + 1 : Nat) : Int), y⟩) ∧
      v ++ cs.flatten = y :: R ∧ LeafOK x g (a ++ l ++ b) ∧ Leaves x gs ds ∧ l[i]? = some y ∧
      SSorted x.cmp ((a ++ l ++ b) ++ ds.flatten) ∧ R = l.drop (i + 1) ++ b ++ ds.flatten) := by
    intro sib cs hL cur list off it u v hcur hso hoff a l b i y h1 h2 h3 h4
    refine ⟨cur, sib, cs, l, i, a, b, y, l.drop (i + 1) ++ b ++ cs.flatten, ?_, by rw [h4]; simp, by rw [← h2]; exact hcur, hL, h3, by rw [← h2]; exact hso, rfl⟩
    unfold nextItem
    simp only [hoff, h1, h3, Option.map_some, dirStep, if_true]
    simp
  intro sib
  induction sib with
  | nil =>
    intro cs hL cur list off it u v hcur hso hit hu hv hoff
    cases hL
    rcases seek_page_fwd x cur it u v hcur hit hu (fun y hy => hv y (by simp [hy])) with ⟨h1, h2⟩ | ⟨a, l, b, i, y, h1, h2, h3, h4⟩
    · left
      refine ⟨by simp [h1], ?_⟩
      unfold nextItem
      simp only [hoff, h2]
    · right
      exact hhit [] [] .nil cur list off it u v hcur hso hoff a l b i y h1 h2 h3 h4
  | cons pg sib ih =>
    intro cs hL cur list off it u v hcur hso hit hu hv hoff
    rcases seek_page_fwd x cur it u v hcur hit hu (fun y hy => hv y (by simp [hy])) with ⟨h1, h2⟩ | ⟨a, l, b, i, y, h1, h2, h3, h4⟩
    · cases hL with
      | @cons _ _ c cs' hpg hL' =>
        subst h1
        have hall : ∀ y ∈ c ++ cs'.flatten, x.cmp y it = .gt := fun y hy => hv y (by simpa using hy)
        have hnone : c.findIdx? (fun y => x.cmp it y == .gt) = none := by
          rw [List.findIdx?_eq_none_iff]
          intro y hy
          rw [OrientedCmp.lt_of_gt (hall y (by simp [hy]))]; rfl
        have e : nextItem x true (pg :: sib) cur list off it = nextItem x true sib pg c (-1) it := by
          conv => lhs; unfold nextItem
          have h0 : it.iptr.off ≠ 0 := by omega
          simp only [hoff, h2, loadAll_ok x pg.page c hpg.holds, Bool.true_and, bne_iff_ne, ne_eq, h0, not_false_eq_true, if_true, hnone]
        rw [e]
        have hso' : SSorted x.cmp (c ++ cs'.flatten) := by
          have := (List.pairwise_append.1 hso).2.1
          simpa using this
        have := ih cs' hL' pg c (-1) it [] c (by simpa using hpg) (by simpa using hso') hit (by simp) hall (by simp)
        simpa using this
    · right
      exact hhit _ cs hL cur list off it u v hcur hso hoff a l b i y h1 h2 h3 h4

/-- Forward scan state: `R` is what is still to be returned. -/
def FwdInv (x : Ctx) (st : EntryScan) (R : List (Item Datum)) : Prop :=
  ∃ cs a b, ∃ k : Nat, LeafOK x st.cur (a ++ st.list ++ b) ∧ Leaves x st.sib cs ∧
    SSorted x.cmp ((a ++ st.list ++ b) ++ cs.flatten) ∧ st.offset = k ∧ k ≤ st.list.length ∧
    R = st.list.drop k ++ b ++ cs.flatten ∧
    (k = st.list.length → 1 ≤ st.item.iptr.off ∧ (∀ y ∈ a ++ st.list, x.cmp y st.item ≠ .gt) ∧ ∀ y ∈ b ++ cs.flatten, x.cmp y st.item = .gt)

/-- After returning element `k` of the list. -/
theorem fwd_after (x : Ctx) [TransCmp x.cmpV] (g : LeafB) (gs : List LeafB) (ds : List (List (Item Datum)))
    (a l b : List (Item Datum)) (k : Nat) (y : Item Datum) (hg : LeafOK x g (a ++ l ++ b)) (hL : Leaves x gs ds)
    (hso : SSorted x.cmp ((a ++ l ++ b) ++ ds.flatten)) (hy : l[k]? = some y) :
    FwdInv x ⟨g, gs, l, ((k + 1 : Nat) : Int), y⟩ (l.drop (k + 1) ++ b ++ ds.flatten) := by
  have htr : TransCmp x.cmp := cmpItem_trans _ _
  obtain ⟨hk, rfl⟩ := List.getElem?_eq_some_iff.1 hy
  refine ⟨ds, a, b, k + 1, hg, hL, hso, rfl, hk, rfl, fun hlast => ?_⟩
  have hl : l = l.take k ++ [l[k]] := by
    rw [← List.take_succ_eq_append_getElem hk, hlast, List.take_length]
  have hso' : SSorted x.cmp ((a ++ l.take k) ++ [l[k]] ++ (b ++ ds.flatten)) := by
    have : (a ++ l.take k) ++ [l[k]] ++ (b ++ ds.flatten) = (a ++ l ++ b) ++ ds.flatten := by
      conv => rhs; rw [hl]
      simp only [List.append_assoc]
    rw [this]; exact hso
  obtain ⟨s1, s2, s3⟩ := List.pairwise_append.1 hso'
  refine ⟨hg.valid _ (by simp), fun y hy => ?_, fun y hy => ?_⟩
  · have hy' : y ∈ (a ++ l.take k) ++ [l[k]] := by rw [List.append_assoc, ← hl]; exact hy
    rcases List.mem_append.1 hy' with h | h
    · have := (List.pairwise_append.1 s1).2.2 y h l[k] (by simp)
      simp only [this]; decide
    · simp at h; subst h
      simp only [ReflCmp.compare_self (cmp := x.cmp)]; decide
  · exact OrientedCmp.gt_of_lt (s3 l[k] (List.mem_append_right _ (List.mem_singleton.2 rfl)) y hy)

theorem fwd_step (x : Ctx) [TransCmp x.cmpV] (st : EntryScan) (R : List (Item Datum)) (h : FwdInv x st R) :
    (R = [] ∧ nextItem x true st.sib st.cur st.list st.offset st.item = some .finished) ∨
    (∃ st' R', nextItem x true st.sib st.cur st.list st.offset st.item = some (.item st') ∧ R = st'.item :: R' ∧ FwdInv x st' R') := by
  obtain ⟨cs, a, b, k, h1, h2, h3, h4, h5, h6, h7⟩ := h
  rcases Nat.lt_or_ge k st.list.length with hk | hk
  · right
    refine ⟨⟨st.cur, st.sib, st.list, ((k + 1 : Nat) : Int), st.list[k]⟩, st.list.drop (k + 1) ++ b ++ cs.flatten, ?_, ?_, ?_⟩
    · unfold nextItem
      simp only [h4, Int.natCast_nonneg, if_true, Int.toNat_natCast, List.getElem?_eq_getElem hk, dirStep]
      simp
    · rw [h6, List.drop_eq_getElem_cons hk]; simp only [List.cons_append]
    · exact fwd_after x _ _ cs a st.list b k _ h1 h2 h3 (List.getElem?_eq_getElem hk)
  · have hk' : k = st.list.length := by omega
    obtain ⟨g1, g2, g3⟩ := h7 hk'
    have hR : R = b ++ cs.flatten := by rw [h6, hk', List.drop_length]; simp
    rcases next_seek_fwd x st.sib cs h2 st.cur st.list st.offset st.item (a ++ st.list) b h1 h3 g1 g2 g3
      (by rw [h4, hk']; simp) with ⟨q1, q2⟩ | ⟨g, gs, ds, l, i, a', b', y, R', q1, q2, q3, q4, q5, q6, q7⟩
    · left; exact ⟨by rw [hR, q1], q2⟩
    · right
      refine ⟨_, R', q1, by rw [hR, q2], ?_⟩
      rw [q7]
      exact fwd_after x g gs ds a' l b' i y q3 q4 q6 q5

theorem fwd_drain (x : Ctx) [TransCmp x.cmpV] (n : Nat) : ∀ (st : EntryScan) (R : List (Item Datum)), FwdInv x st R →
    R.length < n → drain x true n st = (R, .finished) := by
  induction n with
  | zero => intro st R _ h; omega
  | succ n ih =>
    intro st R h hn
    rcases fwd_step x st R h with ⟨rfl, h2⟩ | ⟨st', R', h2, rfl, h4⟩
    · simp only [drain, h2]
    · simp only [List.length_cons] at hn
      simp only [drain, h2, ih st' R' h4 (by omega)]

/-! Backward -/

/-- Backward scan state on whole pages: `k` elements of the current page are still to be returned. -/
def BwdInv (x : Ctx) (st : EntryScan) (R : List (Item Datum)) : Prop :=
  ∃ cs, ∃ k : Nat, LeafOK x st.cur st.list ∧ Leaves x st.sib cs ∧ st.list.length ≠ 3 ∧ (∀ c ∈ cs, c ≠ [] ∧ c.length ≠ 3) ∧
    st.offset = (k : Int) - 1 ∧ k ≤ st.list.length ∧ R = (st.list.take k).reverse ++ (cs.map List.reverse).flatten ∧
    (k = 0 → st.list[0]? = some st.item)

/-- On a page of other than three items, the search before its first item reports failure. -/
theorem seek_page_bwd (x : Ctx) [TransCmp x.cmpV] (g : LeafB) (its : List (Item Datum)) (y : Item Datum)
    (hg : LeafOK x g its) (h3 : its.length ≠ 3) (hy : its[0]? = some y) :
    scanPage x g.page g.rb ⟨false, y, false⟩ = some .miss := by
  have htr : TransCmp x.cmp := cmpItem_trans _ _
  have hpw := List.pairwise_iff_getElem.1 hg.holds.sorted
  obtain ⟨h0, rfl⟩ := List.getElem?_eq_some_iff.1 hy
  have hself : x.cmp its[0] its[0] = .eq := ReflCmp.compare_self
  rcases C22_backward_partial x g.page its hg.holds g.rb its[0] false (hg.valid _ (by simp)) with ⟨-, h⟩ | ⟨h, -⟩ | ⟨a, l, b, i, h1, h2, ⟨h4, h5⟩, -⟩
  · exfalso
    rcases h with h | ⟨q1, q2, q3⟩
    · subst h; simp at h0
    · have r0 := (q3 0 h0).1 (Or.inr ⟨hself, rfl⟩)
      have r1 := (q3 1 (by omega)).2 (by omega)
      rw [OrientedCmp.gt_of_lt (hpw 0 1 h0 (by omega) (by omega))] at r1
      simp at r1
  · exact h
  · exfalso
    have hmem : l[i] ∈ its := by rw [h2]; simp
    rcases h5 with h5 | ⟨h5, -⟩
    · simp only [Bool.false_eq_true, if_false] at h5
      obtain ⟨j, hj, hj'⟩ := List.getElem_of_mem hmem
      rw [← hj'] at h5
      cases j with
      | zero => rw [hself] at h5; cases h5
      | succ j => rw [OrientedCmp.gt_of_lt (hpw 0 (j + 1) h0 hj (by omega))] at h5; cases h5
    · cases h5

theorem bwd_step (x : Ctx) [TransCmp x.cmpV] (st : EntryScan) (R : List (Item Datum)) (h : BwdInv x st R) :
    (R = [] ∧ nextItem x false st.sib st.cur st.list st.offset st.item = some .finished) ∨
    (∃ st' R', nextItem x false st.sib st.cur st.list st.offset st.item = some (.item st') ∧ R = st'.item :: R' ∧ BwdInv x st' R') := by
  obtain ⟨cs, k, h1, h2, h3, h4, h5, h6, h7, h8⟩ := h
  cases k with
  | succ k =>
    right
    have hk : k < st.list.length := h6
    have hoff : st.offset = (k : Int) := by rw [h5]; omega
    refine ⟨⟨st.cur, st.sib, st.list, (k : Int) - 1, st.list[k]⟩, (st.list.take k).reverse ++ (cs.map List.reverse).flatten, ?_, ?_, ?_⟩
    · unfold nextItem
      simp only [hoff, Int.natCast_nonneg, if_true, Int.toNat_natCast, List.getElem?_eq_getElem hk, dirStep, Bool.false_eq_true, if_false]
      rfl
    · rw [h7, List.take_succ_eq_append_getElem hk]; simp only [List.reverse_append, List.reverse_singleton, List.cons_append, List.nil_append]
    · exact ⟨cs, k, h1, h2, h3, h4, rfl, Nat.le_of_lt hk, rfl, fun hk0 => by subst hk0; exact List.getElem?_eq_getElem hk⟩
  | zero =>
    have hR : R = (cs.map List.reverse).flatten := by rw [h7]; simp
    have hoff : st.offset = -1 := by rw [h5]; rfl
    have hmiss := seek_page_bwd x st.cur st.list st.item h1 h3 (h8 rfl)
    cases hs : st.sib with
    | nil =>
      rw [hs] at h2; cases h2
      left
      refine ⟨by rw [hR]; rfl, ?_⟩
      unfold nextItem
      simp only [hoff, hmiss]
      simp
    | cons pg sib =>
      rw [hs] at h2
      cases h2 with
      | @cons _ _ c cs' hpg hL =>
        right
        obtain ⟨hc, hc3⟩ := h4 c (by simp)
        have hlen := List.length_pos_iff.2 hc
        refine ⟨⟨pg, sib, c, ((c.length - 1 : Nat) : Int) - 1, c[c.length - 1]⟩, (c.take (c.length - 1)).reverse ++ (cs'.map List.reverse).flatten, ?_, ?_, ?_⟩
        · unfold nextItem
          have e : c.getLast? = some (c[c.length - 1]) := by rw [List.getLast?_eq_getElem?, List.getElem?_eq_getElem]
          simp only [hoff, hmiss, loadAll_ok x pg.page c hpg.holds, Bool.false_and, Bool.false_eq_true, if_false, e, dirStep]
          have : ¬ ((0 : Int) ≤ -1) := by omega
          simp only [this, if_false]
          congr 3
          omega
        · have e : c.take (c.length - 1 + 1) = c := by rw [Nat.sub_add_cancel hlen, List.take_length]
          have e2 := List.take_succ_eq_append_getElem (show c.length - 1 < c.length by omega)
          rw [e] at e2
          rw [hR]
          conv => lhs; rw [List.map_cons, List.flatten_cons, e2]
          simp only [List.reverse_append, List.reverse_singleton, List.cons_append, List.nil_append]
        · exact ⟨cs', c.length - 1, hpg, hL, hc3, fun d hd => h4 d (by simp [hd]), rfl, by simp, rfl,
            fun hk0 => by rw [List.getElem?_eq_getElem hlen]; congr 2; omega⟩

theorem bwd_drain (x : Ctx) [TransCmp x.cmpV] (n : Nat) : ∀ (st : EntryScan) (R : List (Item Datum)), BwdInv x st R →
    R.length < n → drain x false n st = (R, .finished) := by
  induction n with
  | zero => intro st R _ h; omega
  | succ n ih =>
    intro st R h hn
    rcases bwd_step x st R h with ⟨rfl, h2⟩ | ⟨st', R', h2, rfl, h4⟩
    · simp only [drain, h2]
    · simp only [List.length_cons] at hn
      simp only [drain, h2, ih st' R' h4 (by omega)]

/-! The binary search for the mark -/

/-- The loop finds an equal item, or the number of items before the mark. -/
theorem markSearch_ok (x : Ctx) [TransCmp x.cmpV] (m : Item Datum) (l : List (Item Datum)) (hs : SSorted x.cmp l)
    (fuel : Nat) : ∀ lo hi, hi - lo ≤ fuel → lo ≤ hi → hi ≤ l.length →
    (∀ i (h : i < l.length), i < lo → x.cmp l[i] m = .lt) → (∀ i (h : i < l.length), hi ≤ i → x.cmp l[i] m = .gt) →
    (∃ o, markSearch x m l fuel lo hi = .inl o ∧ ∃ h : o < l.length, x.cmp l[o] m = .eq) ∨
    (∃ k, markSearch x m l fuel lo hi = .inr k ∧ k ≤ l.length ∧ (∀ i (h : i < l.length), i < k → x.cmp l[i] m = .lt) ∧
      ∀ i (h : i < l.length), k ≤ i → x.cmp l[i] m = .gt) := by
  have htr : TransCmp x.cmp := cmpItem_trans _ _
  have hpw := List.pairwise_iff_getElem.1 hs
  induction fuel with
  | zero =>
    intro lo hi h1 h2 h3 h4 h5
    right
    exact ⟨hi, rfl, h3, fun i h hi' => h4 i h (by omega), h5⟩
  | succ fuel ih =>
    intro lo hi h1 h2 h3 h4 h5
    unfold markSearch
    by_cases hlt : lo < hi
    · rw [if_pos hlt]
      have hmid : lo + (hi - lo) / 2 < hi := by omega
      have hmid' : lo ≤ lo + (hi - lo) / 2 := by omega
      generalize lo + (hi - lo) / 2 = mid at *
      have hml : mid < l.length := by omega
      simp only [List.getElem?_eq_getElem hml, Option.map_some]
      cases hc : x.cmp m l[mid] with
      | lt =>
        refine ih lo mid (by omega) (by omega) (by omega) h4 (fun i h hi' => ?_)
        by_cases he : i = mid
        · subst he; exact OrientedCmp.gt_of_lt hc
        · exact OrientedCmp.gt_of_lt (TransCmp.lt_trans hc (hpw mid i hml h (by omega)))
      | gt =>
        refine ih (mid + 1) hi (by omega) (by omega) h3 (fun i h hi' => ?_) h5
        by_cases he : i = mid
        · subst he; exact OrientedCmp.lt_of_gt hc
        · exact TransCmp.lt_trans (hpw i mid h hml (by omega)) (OrientedCmp.lt_of_gt hc)
      | eq => exact Or.inl ⟨mid, rfl, hml, OrientedCmp.eq_symm hc⟩
    · rw [if_neg hlt]
      right
      exact ⟨hi, rfl, h3, fun i h hi' => h4 i h (by omega), h5⟩

/-! ### C23 -/

/-- Forward search on an empty page fails, whatever is searched. -/
theorem seek_empty (x : Ctx) (g : LeafB) (hg : LeafOK x g []) (it : Item Datum) :
    scanPage x g.page g.rb ⟨true, it, false⟩ = some .miss := by
  obtain ⟨hd, hm, -, -⟩ := hg.holds.facts
  have hd' : g.page.data = [] := by simpa [placeList] using hd.symm
  obtain ⟨idx, hi1, -, -⟩ := updateItemIndexes_ok x.cfg [] g.page.data (by simp) (by simp) hd
  have hidx : g.page.index = idx := by
    have hb := hg.holds.built
    simp only [buildPage, hd, hi1, Option.some.injEq] at hb
    rw [← hb]
  obtain ⟨ents, he1, he2, -, -⟩ := (updateItemIndexes_full x.cfg [] g.page.data (by simp) (by simp) hd idx _ hi1).ents
  have he0 : ents = [] := List.length_eq_zero_iff.1 (by simpa using he2)
  subst he0
  have hn := narrowScan_unused x ⟨true, it, false⟩ (32 - ([] : List IndexEnt).length) ⟨0, 1, ⟨0, 0⟩, g.page.maxoff⟩
  rw [List.nil_append] at he1
  unfold scanPage
  split
  · rfl
  · rw [hidx, he1, hn]
    have hm0 : g.page.maxoff = 0 := by simpa using hm
    simp [resetRange, hm0, readList, position]

/-- Forward, empty page, uninitialised current item that is not an existing first item. -/
theorem next_junk (x : Ctx) [TransCmp x.cmpV] (junk : Item Datum) (hj : 1 ≤ junk.iptr.off) :
    ∀ (sib : List LeafB) (cs : List (List (Item Datum))), Leaves x sib cs → ∀ (cur : LeafB), LeafOK x cur [] →
    SSorted x.cmp cs.flatten → (∀ y, cs.flatten.head? = some y → x.cmp junk y = .gt) → ∀ (off : Int),
    (cs.flatten = [] ∧ nextItem x true sib cur [] off junk = some .finished) ∨
    (∃ st' R', nextItem x true sib cur [] off junk = some (.item st') ∧ cs.flatten = st'.item :: R' ∧ FwdInv x st' R') := by
  intro sib
  induction sib with
  | nil =>
    intro cs hL cur hcur hso hhd off
    cases hL
    left
    refine ⟨rfl, ?_⟩
    unfold nextItem
    simp [seek_empty x cur hcur junk]
  | cons pg sib ih =>
    intro cs hL cur hcur hso hhd off
    cases hL with
    | @cons _ _ c cs' hpg hL' =>
      have h0 : junk.iptr.off ≠ 0 := by omega
      cases c with
      | nil =>
        have e : nextItem x true (pg :: sib) cur [] off junk = nextItem x true sib pg [] (-1) junk := by
          conv => lhs; unfold nextItem
          simp [seek_empty x cur hcur junk, loadAll_ok x pg.page [] hpg.holds, h0]
        rw [e]
        exact ih cs' hL' pg hpg hso hhd (-1)
      | cons y c =>
        right
        have hy := hhd y rfl
        refine ⟨⟨pg, sib, y :: c, ((0 + 1 : Nat) : Int), y⟩, (y :: c).drop (0 + 1) ++ [] ++ cs'.flatten, ?_, by simp, ?_⟩
        · unfold nextItem
          simp [seek_empty x cur hcur junk, loadAll_ok x pg.page _ hpg.holds, h0, List.findIdx?_cons, hy, dirStep]
        · exact fwd_after x pg sib cs' [] (y :: c) [] 0 y (by simpa using hpg) hL' (by simpa using hso) rfl

/-- **C23, forward, from the beginning, partial.** The leaf pages of a posting tree, empty ones among them in any place,
scanned forward from the leftmost page: every item is returned exactly once, in order, then the scan finishes. If the
leftmost page is empty, uninitialised memory is read as current item, and the claim needs that memory not to hold an item
that compares equal to the first one (`C23_forward_empty_first_violated`), nor zeros if the second page is empty as well
(`C23_forward_empty_two_violated`). -/
theorem C23_forward_partial (x : Ctx) [TransCmp x.cmpV] (g : LeafB) (gs : List LeafB) (its : List (Item Datum))
    (rest : List (List (Item Datum))) (hL : Leaves x (g :: gs) (its :: rest)) (hs : SSorted x.cmp (its :: rest).flatten)
    (junk : Item Datum)
    (hfirst : its ≠ [] ∨ (1 ≤ junk.iptr.off ∧ ∀ y, rest.flatten.head? = some y → x.cmp junk y ≠ .eq) ∨
      (junk.iptr.off = 0 ∧ ∀ c, rest.head? = some c → c ≠ []))
    (n : Nat) (hn : (its :: rest).flatten.length < n) :
    scanAll x true none g gs junk n = ((its :: rest).flatten, .finished) := by
  have htr : TransCmp x.cmp := cmpItem_trans _ _
  cases hL with
  | cons hg hL =>
    have hst : startEntry x true none g gs junk = some (.item ⟨g, gs, its, 0, (its[0]?).getD junk⟩) := by
      unfold startEntry
      simp [loadAll_ok x g.page its hg.holds, setListPosition]
    unfold scanAll
    simp only [hst]
    by_cases hnil : its = []
    · subst hnil
      simp only [List.flatten_cons, List.nil_append] at hs hn ⊢
      simp only [List.getElem?_nil, Option.getD_none]
      have hdone : ((rest.flatten = [] ∧ nextItem x true gs g [] 0 junk = some .finished) ∨
          (∃ st' R', nextItem x true gs g [] 0 junk = some (.item st') ∧ rest.flatten = st'.item :: R' ∧ FwdInv x st' R')) →
          drain x true n ⟨g, gs, [], 0, junk⟩ = (rest.flatten, .finished) := by
        intro h
        cases n with
        | zero => omega
        | succ n =>
          rcases h with ⟨h1, h2⟩ | ⟨st', R', h1, h2, h3⟩
          · simp only [drain, h2, h1]
          · rw [h2] at hn
            simp only [List.length_cons] at hn
            simp only [drain, h1, h2, fwd_drain x n st' R' h3 (by omega)]
      rcases hfirst with h | ⟨h1, h2⟩ | ⟨h1, h2⟩
      · exact absurd rfl h
      · by_cases hgt : ∀ y, rest.flatten.head? = some y → x.cmp junk y = .gt
        · exact hdone (next_junk x junk h1 gs rest hL g hg hs hgt 0)
        · refine fwd_drain x n _ _ ⟨rest, [], [], 0, by simpa using hg, hL, by simpa using hs, rfl, by simp, by simp, fun _ => ⟨h1, by simp, fun y hy => ?_⟩⟩ hn
          simp only [List.nil_append] at hy
          cases hf : rest.flatten with
          | nil => rw [hf] at hy; simp at hy
          | cons y0 f =>
            have hlt : x.cmp junk y0 = .lt := by
              have hne := h2 y0 (by rw [hf]; rfl)
              cases hc : x.cmp junk y0 with
              | lt => rfl
              | eq => exact absurd hc hne
              | gt => exact absurd (fun y hy => by rw [hf] at hy; simp at hy; subst hy; exact hc) hgt
            rw [hf] at hy hs
            rcases List.mem_cons.1 hy with rfl | h
            · exact OrientedCmp.gt_of_lt hlt
            · exact OrientedCmp.gt_of_lt (TransCmp.lt_trans hlt ((List.pairwise_cons.1 hs).1 y h))
      · apply hdone
        cases hL with
        | nil =>
          left
          refine ⟨rfl, ?_⟩
          unfold nextItem
          simp [seek_empty x g hg junk]
        | @cons pg sib c cs' hpg hL' =>
          right
          cases c with
          | nil => exact absurd rfl (h2 [] rfl)
          | cons y c =>
            refine ⟨⟨pg, sib, y :: c, ((0 + 1 : Nat) : Int), y⟩, (y :: c).drop (0 + 1) ++ [] ++ cs'.flatten, ?_, by simp, ?_⟩
            · unfold nextItem
              simp [seek_empty x g hg junk, loadAll_ok x pg.page _ hpg.holds, h1, dirStep]
            · exact fwd_after x pg sib cs' [] (y :: c) [] 0 y (by simpa using hpg) hL' (by simpa using hs) rfl
    · refine fwd_drain x n _ _ ?_ hn
      refine ⟨rest, [], [], 0, by simpa using hg, hL, by simpa using hs, rfl, by simp, by simp, fun h0 => ?_⟩
      exact absurd (List.length_eq_zero_iff.1 h0.symm) hnil

/-- **C23, backward, from the end, partial.** The leaf pages of a posting tree, listed from the rightmost one leftwards,
none of them empty or with exactly three items, scanned backward: every item is returned exactly once, in descending
order, then the scan finishes. Missing: pages with no or with exactly three items, where the scan reads out of bounds
(`C23_backward_three_violated`, `C23_backward_empty_violated`). -/
theorem C23_backward_partial (x : Ctx) [TransCmp x.cmpV] (g : LeafB) (gs : List LeafB) (cs : List (List (Item Datum)))
    (hL : Leaves x (g :: gs) cs) (hne : ∀ c ∈ cs, c ≠ [] ∧ c.length ≠ 3) (junk : Item Datum)
    (n : Nat) (hn : cs.flatten.length < n) :
    scanAll x false none g gs junk n = ((cs.map List.reverse).flatten, .finished) := by
  cases hL with
  | @cons _ _ its rest hg hL =>
    obtain ⟨h0, h3⟩ := hne its (by simp)
    have hlen := List.length_pos_iff.2 h0
    have hst : startEntry x false none g gs junk = some (.item ⟨g, gs, its, (its.length : Int) - 1, (its[its.length - 1]?).getD junk⟩) := by
      unfold startEntry
      simp only [loadAll_ok x g.page its hg.holds, setListPosition, Bool.false_eq_true, if_false]
      rw [if_neg (by omega)]
      congr 4
      congr 1
      omega
    unfold scanAll
    simp only [hst]
    refine bwd_drain x n _ _ ?_ ?_
    · exact ⟨rest, its.length, hg, hL, h3, fun c hc => hne c (by simp [hc]), rfl, Nat.le_refl _, by simp, fun h => by
        exact absurd h (by omega)⟩
    · have : ((its :: rest).map List.reverse).flatten.length = (its :: rest).flatten.length := by
        simp only [List.length_flatten, List.map_map]
        congr 2
        funext l
        simp
      rw [this]; exact hn

/-- Position found for the mark: forward, the first item not before it; backward, the last item not after it. -/
theorem setListPosition_ok (x : Ctx) [TransCmp x.cmpV] (fwd : Bool) (m : Item Datum) (l : List (Item Datum))
    (hs : SSorted x.cmp l) :
    ∃ k, k ≤ l.length ∧ setListPosition x fwd (some m) l =
        (if fwd then (if k < l.length then some (k : Int) else none) else (if 0 < k then some ((k : Int) - 1) else none)) ∧
      (∀ i (h : i < l.length), i < k → (if fwd then x.cmp l[i] m = .lt else x.cmp l[i] m ≠ .gt)) ∧
      (∀ i (h : i < l.length), k ≤ i → (if fwd then x.cmp l[i] m ≠ .lt else x.cmp l[i] m = .gt)) := by
  have htr : TransCmp x.cmp := cmpItem_trans _ _
  have hpw := List.pairwise_iff_getElem.1 hs
  rcases markSearch_ok x m l hs l.length 0 l.length (by omega) (by omega) (by omega) (fun i h hi => by omega) (fun i h hi => by omega) with
    ⟨o, h1, h2, h3⟩ | ⟨k, h1, h2, h3, h4⟩
  · cases fwd with
    | true =>
      refine ⟨o, by omega, by simp [setListPosition, h1, h2], fun i h hi => ?_, fun i h hi => ?_⟩
      · exact TransCmp.lt_of_lt_of_eq (hpw i o h h2 hi) h3
      · show x.cmp l[i] m ≠ .lt
        by_cases he : i = o
        · subst he; rw [h3]; decide
        · rw [TransCmp.gt_of_gt_of_eq (OrientedCmp.gt_of_lt (hpw o i h2 h (by omega))) h3]; decide
    | false =>
      refine ⟨o + 1, by omega, by simp [setListPosition, h1], fun i h hi => ?_, fun i h hi => ?_⟩
      · show x.cmp l[i] m ≠ .gt
        by_cases he : i = o
        · subst he; rw [h3]; decide
        · rw [TransCmp.lt_of_lt_of_eq (hpw i o h h2 (by omega)) h3]; decide
      · exact TransCmp.gt_of_gt_of_eq (OrientedCmp.gt_of_lt (hpw o i h2 h (by omega))) h3
  · refine ⟨k, h2, ?_, fun i h hi => ?_, fun i h hi => ?_⟩
    · cases fwd with
      | true =>
        by_cases hk : k < l.length
        · simp [setListPosition, h1, hk, Nat.not_le.2 hk]
        · simp [setListPosition, h1, hk, Nat.not_lt.1 hk]
      | false =>
        by_cases hk : k = 0
        · simp [setListPosition, h1, hk]
        · simp [setListPosition, h1, hk, Nat.pos_of_ne_zero hk]
    · rw [h3 i h hi]; cases fwd <;> simp
    · rw [h4 i h hi]; cases fwd <;> simp

/-- **C23, forward from a mark, partial.** A scan that starts at a mark on the page `g` found for it (items on earlier pages
precede the mark) returns exactly the items at or after the mark, in order, if `g` has such an item or no page has one.
Missing: `g` has none but a later page has; then the scan ends at once (`C23_mark_forward_violated`). -/
theorem C23_mark_forward_partial (x : Ctx) [TransCmp x.cmpV] (before : List (Item Datum)) (g : LeafB) (gs : List LeafB)
    (its : List (Item Datum)) (rest : List (List (Item Datum))) (hL : Leaves x (g :: gs) (its :: rest))
    (hs : SSorted x.cmp (before ++ (its :: rest).flatten)) (mark junk : Item Datum)
    (hbefore : ∀ y ∈ before, x.cmp y mark = .lt)
    (hhere : (∃ y ∈ its, x.cmp y mark ≠ .lt) ∨ ∀ y ∈ rest.flatten, x.cmp y mark = .lt)
    (n : Nat) (hn : (its :: rest).flatten.length < n) :
    scanAll x true (some mark) g gs junk n =
      ((before ++ (its :: rest).flatten).filter (fun y => x.cmp y mark != .lt), .finished) := by
  have htr : TransCmp x.cmp := cmpItem_trans _ _
  cases hL with
  | cons hg hL =>
    have hs' := (List.pairwise_append.1 hs).2.1
    rw [List.flatten_cons] at hs'
    obtain ⟨k, hk, hpos, hlt, hge⟩ := setListPosition_ok x true mark its hg.holds.sorted
    simp only [if_true] at hpos hlt hge
    have hb : before.filter (fun y => x.cmp y mark != .lt) = [] := by
      rw [List.filter_eq_nil_iff]; intro y hy; simp [hbefore y hy]
    have htake : (its.take k).filter (fun y => x.cmp y mark != .lt) = [] := by
      rw [List.filter_eq_nil_iff]; intro y hy
      obtain ⟨i, hi, rfl⟩ := List.getElem_of_mem hy
      simp only [List.length_take] at hi
      rw [List.getElem_take, hlt i (by omega) (by omega)]; simp
    have hspl : (before ++ (its :: rest).flatten).filter (fun y => x.cmp y mark != .lt) =
        (its.drop k ++ rest.flatten).filter (fun y => x.cmp y mark != .lt) := by
      rw [List.flatten_cons, List.filter_append, hb, List.nil_append, List.filter_append]
      conv => lhs; rw [← List.take_append_drop k its]
      rw [List.filter_append, htake, List.nil_append, ← List.filter_append]
    rw [hspl]
    unfold scanAll startEntry
    simp only [loadAll_ok x g.page its hg.holds, hpos]
    by_cases hkl : k < its.length
    · rw [if_pos hkl]
      simp only
      rw [if_neg (by omega)]
      have hall : ∀ y ∈ its.drop k ++ rest.flatten, (x.cmp y mark != .lt) = true := by
        intro y hy
        simp only [bne_iff_ne, ne_eq]
        rcases List.mem_append.1 hy with h | h
        · obtain ⟨i, hi, rfl⟩ := List.getElem_of_mem h
          simp only [List.length_drop] at hi
          rw [List.getElem_drop]
          exact hge _ _ (by omega)
        · have h1 := (List.pairwise_append.1 hs').2.2 its[k] (by simp) y h
          intro h2
          exact hge k hkl (Nat.le_refl _) (TransCmp.lt_trans h1 h2)
      rw [List.filter_eq_self.2 hall]
      refine fwd_drain x n _ _ ⟨rest, [], [], k, by simpa using hg, hL, by simpa using hs', rfl, by simp; omega, by simp, fun h => ?_⟩ ?_
      · exact absurd h (by simp; omega)
      · rw [List.flatten_cons] at hn
        simp only [List.length_append, List.length_drop] at hn ⊢
        omega
    · rw [if_neg hkl]
      simp only
      have hk' : k = its.length := by omega
      have hrest : ∀ y ∈ rest.flatten, x.cmp y mark = .lt := by
        rcases hhere with ⟨y, hy, hn⟩ | h
        · obtain ⟨i, hi, rfl⟩ := List.getElem_of_mem hy
          exact absurd (hlt i hi (by omega)) hn
        · exact h
      rw [hk', List.drop_length, List.nil_append]
      have : rest.flatten.filter (fun y => x.cmp y mark != .lt) = [] := by
        rw [List.filter_eq_nil_iff]; intro y hy; simp [hrest y hy]
      rw [this]

/-- **C23, backward from a mark, partial.** A backward scan that starts at a mark on the page `g` found for it (`after`, the
items on later pages, follow the mark; `gs` are the earlier pages from `g` leftwards), no page being empty or holding
exactly three items, returns exactly the items at or before the mark, in descending order, if `g` has such an item or no
page has one. Missing: `g` has none but an earlier page has; then the scan ends at once (`C23_mark_backward_violated`). -/
theorem C23_mark_backward_partial (x : Ctx) [TransCmp x.cmpV] (after : List (Item Datum)) (g : LeafB) (gs : List LeafB)
    (its : List (Item Datum)) (rest : List (List (Item Datum))) (hL : Leaves x (g :: gs) (its :: rest))
    (hs : SSorted x.cmp ((its :: rest).reverse.flatten ++ after)) (mark junk : Item Datum)
    (hafter : ∀ y ∈ after, x.cmp y mark = .gt)
    (hne : ∀ c ∈ its :: rest, c ≠ [] ∧ c.length ≠ 3)
    (hhere : (∃ y ∈ its, x.cmp y mark ≠ .gt) ∨ ∀ y ∈ rest.flatten, x.cmp y mark = .gt)
    (n : Nat) (hn : (its :: rest).flatten.length < n) :
    scanAll x false (some mark) g gs junk n =
      ((((its :: rest).reverse.flatten ++ after).filter (fun y => x.cmp y mark != .gt)).reverse, .finished) := by
  have htr : TransCmp x.cmp := cmpItem_trans _ _
  cases hL with
  | cons hg hL =>
    have hs' := (List.pairwise_append.1 hs).1
    rw [List.reverse_cons, List.flatten_append, List.flatten_singleton] at hs'
    obtain ⟨k, hk, hpos, hlt, hge⟩ := setListPosition_ok x false mark its hg.holds.sorted
    simp only [Bool.false_eq_true, if_false] at hpos hlt hge
    have hb : after.filter (fun y => x.cmp y mark != .gt) = [] := by
      rw [List.filter_eq_nil_iff]; intro y hy; simp [hafter y hy]
    have hdrop : (its.drop k).filter (fun y => x.cmp y mark != .gt) = [] := by
      rw [List.filter_eq_nil_iff]; intro y hy
      obtain ⟨i, hi, rfl⟩ := List.getElem_of_mem hy
      simp only [List.length_drop] at hi
      rw [List.getElem_drop, hge _ _ (by omega)]; simp
    have hspl : ((its :: rest).reverse.flatten ++ after).filter (fun y => x.cmp y mark != .gt) =
        (rest.reverse.flatten ++ its.take k).filter (fun y => x.cmp y mark != .gt) := by
      rw [List.reverse_cons, List.flatten_append, List.flatten_singleton, List.filter_append, hb, List.append_nil, List.filter_append]
      conv => lhs; rw [← List.take_append_drop k its]
      rw [List.filter_append, hdrop, List.append_nil, ← List.filter_append]
    rw [hspl]
    unfold scanAll startEntry
    simp only [loadAll_ok x g.page its hg.holds, hpos]
    by_cases hkl : 0 < k
    · rw [if_pos hkl]
      simp only
      rw [if_neg (by omega)]
      have hall : ∀ y ∈ rest.reverse.flatten ++ its.take k, (x.cmp y mark != .gt) = true := by
        intro y hy
        simp only [bne_iff_ne, ne_eq]
        rcases List.mem_append.1 hy with h | h
        · have h1 := (List.pairwise_append.1 hs').2.2 y h its[0] (by simp)
          intro h2
          exact hlt 0 (by omega) (by omega) (TransCmp.gt_trans (OrientedCmp.gt_of_lt h1) h2)
        · obtain ⟨i, hi, rfl⟩ := List.getElem_of_mem h
          simp only [List.length_take] at hi
          rw [List.getElem_take]
          exact hlt _ _ (by omega)
      rw [List.filter_eq_self.2 hall]
      have hrev : (rest.reverse.flatten ++ its.take k).reverse = (its.take k).reverse ++ (rest.map List.reverse).flatten := by
        rw [List.reverse_append, List.reverse_flatten, List.map_reverse, List.reverse_reverse]
      rw [hrev]
      refine bwd_drain x n _ _ ⟨rest, k, hg, hL, (hne its (by simp)).2, fun c hc => hne c (by simp [hc]), rfl, hk, rfl, fun h => by
        exact absurd h (by omega)⟩ ?_
      · have : (rest.map List.reverse).flatten.length = rest.flatten.length := by
          simp only [List.length_flatten, List.map_map]
          congr 2
          funext l
          simp
        rw [List.flatten_cons] at hn
        simp only [List.length_append, List.length_reverse, List.length_take, this] at hn ⊢
        omega
    · rw [if_neg hkl]
      simp only
      have hk' : k = 0 := by omega
      have hrest : ∀ y ∈ rest.reverse.flatten, x.cmp y mark = .gt := by
        intro y hy
        have hy' : y ∈ rest.flatten := by
          simp only [List.mem_flatten, List.mem_reverse] at hy ⊢; exact hy
        rcases hhere with ⟨z, hz, hn⟩ | h
        · obtain ⟨i, hi, rfl⟩ := List.getElem_of_mem hz
          exact absurd (hge i hi (by omega)) hn
        · exact h y hy'
      rw [hk', List.take_zero, List.append_nil]
      have : rest.reverse.flatten.filter (fun y => x.cmp y mark != .gt) = [] := by
        rw [List.filter_eq_nil_iff]; intro y hy; simp [hrest y hy]
      rw [this]; rfl

/-! ### Witnesses -/

/-- Items with the given values. -/
def vals (l : List Nat) : List (Item Datum) := l.map fun v => ai v v

theorem vals_leaf (l : List Nat) (hl : ∀ v ∈ l, 1 ≤ v ∧ v < 1000) (p : Page) (hp : buildPage altCtx.cfg (vals l) = some p)
    (hs : SSorted altCtx.cmp (vals l)) : LeafOK altCtx ⟨p, none⟩ (vals l) := by
  refine ⟨⟨fun it h => ?_, fun it h => ?_, hs, hp⟩, by simp, fun it h => ?_⟩ <;>
    (simp only [vals, List.mem_map] at h; obtain ⟨v, hv, rfl⟩ := h; have := hl v hv)
  · simp [ItemOK, Iptr.Fits, Datum.Typed, altCtx, ai]
    omega
  · rfl
  · exact this.1

theorem vals_page (l : List Nat) (h : (buildPage altCtx.cfg (vals l)).isSome = true) : ∃ p, buildPage altCtx.cfg (vals l) = some p :=
  Option.isSome_iff_exists.1 h

/-- A scan over two pages with the given contents, as an expression of the contents. -/
def scan2 (l1 l2 : List Nat) (fwd : Bool) (mark : Option (Item Datum)) (junk : Item Datum) : Option (List (Item Datum) × End) :=
  (buildPage altCtx.cfg (vals l1)).bind fun p1 => (buildPage altCtx.cfg (vals l2)).map fun p2 =>
    scanAll altCtx fwd mark ⟨p1, none⟩ [⟨p2, none⟩] junk 10

theorem scan2_witness (l1 l2 : List Nat) (fwd : Bool) (mark : Option (Item Datum)) (junk : Item Datum)
    (r : List (Item Datum) × End) (h : scan2 l1 l2 fwd mark junk = some r)
    (h1 : ∀ v ∈ l1, 1 ≤ v ∧ v < 1000) (h2 : ∀ v ∈ l2, 1 ≤ v ∧ v < 1000)
    (s1 : SSorted altCtx.cmp (vals l1)) (s2 : SSorted altCtx.cmp (vals l2)) :
    ∃ g gs, Leaves altCtx (g :: gs) [vals l1, vals l2] ∧ scanAll altCtx fwd mark g gs junk 10 = r := by
  unfold scan2 at h
  cases hp1 : buildPage altCtx.cfg (vals l1) with
  | none => rw [hp1] at h; cases h
  | some p1 =>
    cases hp2 : buildPage altCtx.cfg (vals l2) with
    | none => rw [hp1, hp2] at h; cases h
    | some p2 =>
      rw [hp1, hp2] at h
      simp only [Option.bind_some, Option.map_some, Option.some.injEq] at h
      exact ⟨⟨p1, none⟩, [⟨p2, none⟩], .cons (vals_leaf l1 h1 p1 hp1 s1) (.cons (vals_leaf l2 h2 p2 hp2 s2) .nil), h⟩

/-- **C23 is false (1).** Leftmost page empty, next page with the values 10 and 20; the uninitialised current item equals
the first of them (say, left over in memory from an earlier scan): the forward scan does not return 10. -/
theorem C23_forward_empty_first_violated : ∃ g gs, Leaves altCtx (g :: gs) [vals [], vals [10, 20]] ∧
    scanAll altCtx true none g gs (ai 10 10) 10 = (vals [20], .finished) :=
  scan2_witness [] [10, 20] true none (ai 10 10) _ (by decide +kernel) (by simp) (by simp) (by decide) (by decide)

/-- **C23 is false (1').** The two leftmost pages empty, memory zeroed: the scan reads beyond the loaded list. -/
theorem C23_forward_empty_two_violated : ∃ g gs, Leaves altCtx (g :: gs) [vals [], vals []] ∧
    scanAll altCtx true none g gs ⟨⟨0, 0⟩, some (.byval 0)⟩ 10 = ([], .invalid) :=
  scan2_witness [] [] true none _ _ (by decide +kernel) (by simp) (by simp) (by decide) (by decide)

/-- **C23 is false (2).** A backward scan over a page of three items with another page to its left reads out of bounds. -/
theorem C23_backward_three_violated : ∃ g gs, Leaves altCtx (g :: gs) [vals [20, 30, 40], vals [10]] ∧
    (scanAll altCtx false none g gs (ai 1 1) 10).2 = .invalid := by
  obtain ⟨g, gs, h1, h2⟩ := scan2_witness [20, 30, 40] [10] false none (ai 1 1) ([ai 40 40, ai 30 30, ai 20 20], .invalid)
    (by decide +kernel) (by simp) (by simp) (by decide) (by decide)
  exact ⟨g, gs, h1, by rw [h2]⟩

/-- **C23 is false (3).** So does a backward scan that reaches an empty page. -/
theorem C23_backward_empty_violated : ∃ g gs, Leaves altCtx (g :: gs) [vals [20], vals []] ∧
    (scanAll altCtx false none g gs (ai 1 1) 10).2 = .invalid := by
  obtain ⟨g, gs, h1, h2⟩ := scan2_witness [20] [] false none (ai 1 1) ([ai 20 20], .invalid)
    (by decide +kernel) (by simp) (by simp) (by decide) (by decide)
  exact ⟨g, gs, h1, by rw [h2]⟩

/-- **C23 is false (4).** Backward from the mark 25: the page found for it has the values 30 and 40 (the page to its left
ends at 20, so 25 belongs on this one). The scan returns nothing, although 10 and 20 are at or before the mark. -/
theorem C23_mark_backward_violated : ∃ g gs, Leaves altCtx (g :: gs) [vals [30, 40], vals [10, 20]] ∧
    scanAll altCtx false (some (ai 25 25)) g gs (ai 1 1) 10 = ([], .finished) :=
  scan2_witness [30, 40] [10, 20] false (some (ai 25 25)) (ai 1 1) _ (by decide +kernel) (by simp) (by simp) (by decide) (by decide)

/-- **C23 is false (5).** Forward from the mark 25 on a page whose right bound is still 28 (the item was removed by
VACUUM): the scan returns nothing, although the next page has 30 and 40. (The right bound is not read in this run, so the
witness leaves it out.) -/
theorem C23_mark_forward_violated : ∃ g gs, Leaves altCtx (g :: gs) [vals [10, 20], vals [30, 40]] ∧
    scanAll altCtx true (some (ai 25 25)) g gs (ai 1 1) 10 = ([], .finished) :=
  scan2_witness [10, 20] [30, 40] true (some (ai 25 25)) (ai 1 1) _ (by decide +kernel) (by simp) (by simp) (by decide) (by decide)

/-- The hypotheses of the positive theorems are met by concrete trees. -/
example : ∃ g gs, Leaves altCtx (g :: gs) [vals [10, 20], vals [30, 40]] ∧
    scanAll altCtx true none g gs (ai 1 1) 10 = (vals [10, 20, 30, 40], .finished) :=
  scan2_witness _ _ true none (ai 1 1) _ (by decide +kernel) (by simp) (by simp) (by decide) (by decide)
example : ∃ g gs, Leaves altCtx (g :: gs) [vals [30, 40], vals [10, 20]] ∧
    scanAll altCtx false (some (ai 35 35)) g gs (ai 1 1) 10 = (vals [30, 20, 10], .finished) :=
  scan2_witness _ _ false _ (ai 1 1) _ (by decide +kernel) (by simp) (by simp) (by decide) (by decide)

end Rum.Props

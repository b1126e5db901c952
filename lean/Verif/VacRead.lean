import Verif.ConcRead
import Verif.VacConc
import Verif.TreeVacLemmas
/-
Scans among concurrent insertions and VACUUM. Proof apparatus.
-/
namespace Rum.Tree
open Rum Rum.Entry

variable {α K : Type} [LinearOrder K]
variable {key : α → K} {s t u : Store α} {root : Nat} {G G' : Ghost}
  {POK : List α → Prop} {o : Ops α} {live : α → Bool} {seek : List α → Option α → α → Option (List α)} {bad : Nat → Prop} {new : Nat → Nat → Prop}

theorem Browse.contents (W : Browse key s root G) : Tree.contents s root = flat s G := by
  have hleft : ∀ (n k : Nat), k ≤ G.h → k < n → ∀ (b : Nat) (B : List Nat), G.lv k = b :: B → ∃ c C, leftmost s n b = some c ∧ G.lv 0 = c :: C := by
    intro n
    induction n with
    | zero => intro k _ h; omega
    | succ n ih =>
      intro k hk hn b B e
      rw [Tree.leftmost]
      cases k with
      | zero => rw [W.thin.leaf b (by rw [e]; simp)]; exact ⟨b, B, rfl, e⟩
      | succ k =>
        obtain ⟨h1, hI⟩ := W.thin.inner k (by omega) b (by rw [e]; simp)
        rw [h1]
        simp only [Bool.false_eq_true, if_false]
        obtain ⟨g, gs, hg⟩ := List.exists_cons_of_ne_nil (W.first k (by omega) b B e)
        have hd := hI.downs
        rw [hg] at hd
        obtain ⟨d, ds, h1, h2, h3⟩ := List.forall₂_cons_right_iff.1 hd
        obtain ⟨t, ht⟩ := List.head?_eq_some_iff.1 h1.1
        have := level_split W.thin (k := k) (by omega) (A := []) (by simpa using e) (G1 := []) (by simpa using hg)
        rw [h3]
        simp only [List.head?_cons]
        refine ih k (by omega) (by omega) d.2 (t ++ (gs.flatten ++ B.flatMap (fun b => (G.kids b).flatten))) ?_
        rw [this, ht]
        simp
  unfold Tree.contents
  obtain ⟨c, C, h1, h2⟩ := hleft s.next G.h (_root_.le_refl _) W.hlt root [] W.thin.root
  rw [h1]
  simp only
  have hlen := level_length W.thin (Nat.zero_le _)
  rw [h2, List.length_cons] at hlen
  rw [W.thin.walk (Nat.zero_le _) s.next [] C c (by simpa using h2) (by omega)]
  unfold flat
  rw [h2]

theorem Browse.mem (W : Browse key s root G) {y : α} : y ∈ Tree.contents s root ↔ ∃ c ∈ G.lv 0, y ∈ (s.page c).items := by
  rw [W.contents]
  simp [flat, List.mem_flatMap]

/-- What lies above everything before a leaf is on that leaf or behind. -/
theorem Browse.low_where (W : Browse key s root G) {A B : List Nat} {b : Nat} (e : G.lv 0 = A ++ b :: B) {y : α} (hy : y ∈ Tree.contents s root)
    (hl : Low key s A y) : y ∈ (s.page b).items ∨ ((∃ c ∈ B, y ∈ (s.page c).items) ∧ hiP key (s.page b) < ((key y : K) : WithTop K)) := by
  obtain ⟨c, hc, hyc⟩ := W.mem.1 hy
  have hp := W.thin.order.pair
  rw [e] at hc hp
  rcases List.mem_append.1 hc with hc | hc
  · exact absurd (W.thin.order.le c (by rw [e]; simp [hc]) y hyc) (_root_.not_le.2 (hl c hc))
  · rcases List.mem_cons.1 hc with rfl | hc
    · exact Or.inl hyc
    · have := ((List.pairwise_cons.1 (List.pairwise_append.1 hp).2.1).1 c hc).2 y hyc
      exact Or.inr ⟨⟨c, hc, hyc⟩, this⟩

/-- The descent to the leftmost leaf. -/
theorem Browse.desc_step (W : Browse key s root G) {b : Nat} (h : DescOK root G b) :
    ((s.page b).leaf = true ∧ ∃ B, G.lv 0 = b :: B) ∨ ((s.page b).leaf = false ∧ ∃ d, (s.page b).downs.head? = some d ∧ DescOK root G d.2) := by
  obtain ⟨k, hk, hh⟩ : ∃ k, k ≤ G.h ∧ (G.lv k).head? = some b := by
    rcases h with rfl | ⟨k, h1, h2⟩
    · exact ⟨G.h, _root_.le_refl _, by rw [W.thin.root]; rfl⟩
    · exact ⟨k, by omega, h2⟩
  obtain ⟨B, e⟩ := List.head?_eq_some_iff.1 hh
  cases k with
  | zero => exact Or.inl ⟨W.thin.leaf b (by rw [e]; simp), B, e⟩
  | succ k =>
    obtain ⟨h1, hI⟩ := W.thin.inner k (by omega) b (by rw [e]; simp)
    obtain ⟨g, gs, hg⟩ := List.exists_cons_of_ne_nil (W.first k (by omega) b B e)
    have hd := hI.downs
    rw [hg] at hd
    obtain ⟨d, ds, h3, h4, h5⟩ := List.forall₂_cons_right_iff.1 hd
    obtain ⟨t, ht⟩ := List.head?_eq_some_iff.1 h3.1
    have := level_split W.thin (k := k) (by omega) (A := []) (by simpa using e) (G1 := []) (by simpa using hg)
    exact Or.inr ⟨h1, d, by rw [h5]; rfl, Or.inr ⟨k, by omega, by rw [this, ht]; rfl⟩⟩

/-- What a scan knows; `S`: items that have been in the tree since it began, `Ev`: what may be in the tree at all. -/
def ReadV (key : α → K) (o : Ops α) (POK : List α → Prop) (Ev : α → Prop) (root : Nat) (s : Store α) (G : Ghost) (S : List α) : Thread α → Prop
  | .down b => DescOK root G b
  | .scan b acc => ∃ A B, G.lv 0 = A ++ b :: B ∧ 0 < G.h ∧ (∀ y ∈ S, y ∈ acc ∨ Low key s A y) ∧ ∀ y ∈ acc, Ev y
  | .scanned acc => (∀ y ∈ S, y ∈ acc) ∧ ∀ y ∈ acc, Ev y
  | .opening b => DescOK root G b
  | .cursor b L cur acc => (∃ its, POK its ∧ cur ∈ its) ∧ cur ∈ acc ∧ (∀ y ∈ acc, Ev y) ∧ (∀ y ∈ L, Ev y ∧ ∃ its, POK its ∧ y ∈ its) ∧
      ((b = root ∧ 0 < G.h) ∨ ∃ A B, G.lv 0 = A ++ b :: B ∧ SSorted o.cmp L ∧ ∀ y ∈ S, Delivered o.cmp acc y ∨
        ((∀ a ∈ acc, key a < key y) ∧ (y ∈ L ∨ (Low key s A y ∧ ∀ l ∈ L, key l < key y))))
  | .next b cur acc => (∃ its, POK its ∧ cur ∈ its) ∧ cur ∈ acc ∧ (∀ y ∈ acc, Ev y) ∧ ∃ A B, G.lv 0 = A ++ b :: B ∧ 0 < G.h ∧
      ∀ y ∈ S, Delivered o.cmp acc y ∨ ((∀ a ∈ acc, key a < key y) ∧ Low key s A y)
  | .ended acc => (acc = [] ∨ ∀ y ∈ S, Delivered o.cmp acc y) ∧ ∀ y ∈ acc, Ev y
  | _ => True

/-- A scan, running or ended. -/
def reads : Thread α → Bool
  | .down _ | .scan _ _ | .scanned _ | .opening _ | .cursor _ _ _ _ | .next _ _ _ | .ended _ => true
  | _ => false

theorem ReadV.of_not {Ev : α → Prop} {S : List α} {th : Thread α} (h : reads th = false) : ReadV key o POK Ev root s G S th := by
  cases th <;> simp [reads] at h <;> trivial

/-- Steps of insertions do not disturb a scan. -/
theorem ReadV.moved {Ev : α → Prop} (W : Weak key false s root G) (W' : Weak key false t root G') (hM : Moved key root bad new s G t G')
    {S : List α} {th : Thread α} (h : ReadV key o POK Ev root s G S th) : ReadV key o POK Ev root t G' S th := by
  cases th with
  | down b => exact DescOK.moved hM h
  | opening b => exact DescOK.moved hM h
  | scan b acc =>
    obtain ⟨A, B, e, h0, h1, h2⟩ := h
    obtain ⟨A', B', e', h5, h6⟩ := hM.leaf A b B (ne_root W (k := 0) h0 (by rw [e]; simp)) e
    refine ⟨A', B', e', Nat.lt_of_lt_of_le h0 hM.keeps.h, ?_, h2⟩
    intro y hy
    rcases h1 y hy with h | h
    · exact Or.inl h
    · exact Or.inr (low_moved h h5)
  | next b cur acc =>
    obtain ⟨h1, h2, hE, A, B, e, h0, h3⟩ := h
    obtain ⟨A', B', e', h5, h6⟩ := hM.leaf A b B (ne_root W (k := 0) h0 (by rw [e]; simp)) e
    refine ⟨h1, h2, hE, A', B', e', Nat.lt_of_lt_of_le h0 hM.keeps.h, ?_⟩
    intro y hy
    rcases h3 y hy with h | ⟨h, h'⟩
    · exact Or.inl h
    · exact Or.inr ⟨h, low_moved h' h5⟩
  | cursor b L cur acc =>
    obtain ⟨h1, h2, h3, h3', h4⟩ := h
    refine ⟨h1, h2, h3, h3', ?_⟩
    rcases h4 with ⟨rfl, h0⟩ | ⟨A, B, e, h5, h6⟩
    · exact Or.inl ⟨rfl, Nat.lt_of_lt_of_le h0 hM.keeps.h⟩
    · by_cases hbr : b = root
      · by_cases h0 : 0 < G'.h
        · exact Or.inl ⟨hbr, h0⟩
        · have h0' : G'.h = 0 := by omega
          have h00 : G.h = 0 := by have := hM.keeps.h; omega
          right
          have hr := W'.root
          have hr0 := W.root
          rw [h0'] at hr
          rw [h00] at hr0
          have hA : A = [] := by
            rw [hr0] at e
            have := congrArg List.length e
            simp at this
            exact List.length_eq_zero_iff.1 (by omega)
          subst hA
          refine ⟨[], [], by rw [hr, hbr]; rfl, h5, fun y hy => ?_⟩
          rcases h6 y hy with h | ⟨h, h'⟩
          · exact Or.inl h
          · refine Or.inr ⟨h, ?_⟩
            rcases h' with h' | ⟨-, h'⟩
            · exact Or.inl h'
            · exact Or.inr ⟨fun c hc => by simp at hc, h'⟩
      · obtain ⟨A', B', e', h7, h8⟩ := hM.leaf A b B hbr e
        right
        refine ⟨A', B', e', h5, fun y hy => ?_⟩
        rcases h6 y hy with h | ⟨h, h'⟩
        · exact Or.inl h
        · refine Or.inr ⟨h, ?_⟩
          rcases h' with h' | ⟨h', h''⟩
          · exact Or.inl h'
          · exact Or.inr ⟨low_moved h' h7, h''⟩
  | _ => exact h

/-- The part of a level before a page that stays. -/
theorem before_of_sublist {A B A' B' : List Nat} {b : Nat} (hn : (A ++ b :: B).Nodup) (h : (A' ++ b :: B').Sublist (A ++ b :: B)) :
    A'.Sublist A := by
  obtain ⟨l1, l2, e, h1, h2⟩ := List.append_sublist_iff.1 h
  obtain ⟨m1, m2, e2, h3, h4⟩ := List.cons_sublist_iff.1 h2
  obtain ⟨C, D, e3⟩ := List.append_of_mem h3
  rw [e2, e3] at e
  have e4 : A ++ b :: B = (l1 ++ C) ++ b :: (D ++ m2) := by rw [e]; simp
  obtain ⟨h5, -⟩ := split_unique hn rfl e4
  rw [h5]
  exact h1.trans (List.sublist_append_left _ _)

/-- The leaf a scan is on stays where it is if it is not deleted, and what was above everything before it still is. -/
theorem VStep.place (V : VStep key live s G u G') (W : Thin key false s root G) {A B : List Nat} {b : Nat} (e : G.lv 0 = A ++ b :: B)
    (hd : (u.page b).deleted = false) : ∃ A' B', G'.lv 0 = A' ++ b :: B' ∧ ∀ y, Low key s A y → Low key u A' y := by
  have hb : b ∈ G'.lv 0 := by
    rcases V.gone b (by rw [e]; simp) with h | h
    · exact h
    · rw [hd] at h; cases h
  obtain ⟨A', B', e'⟩ := List.append_of_mem hb
  refine ⟨A', B', e', fun y hl c hc => ?_⟩
  have hs := V.sub
  rw [e, e'] at hs
  have := before_of_sublist (by rw [← e]; exact W.nodup 0 (Nat.zero_le _)) hs
  rw [V.hi c (by rw [e']; simp [hc])]
  exact hl c (this.subset hc)

/-- A record of VACUUM does not disturb a scan if the leaf the scan has pinned is not deleted. -/
theorem ReadV.vac {Ev : α → Prop} (W : Thin key false s root G) (V : VStep key live s G u G') {S : List α} {th : Thread α}
    (hd : ∀ b ∈ pins root th, (u.page b).deleted = true → (s.page b).deleted = true)
    (h : ReadV key o POK Ev root s G S th) : ReadV key o POK Ev root u G' S th := by
  have hdesc : ∀ b, DescOK root G b → DescOK root G' b := by
    rintro b (h | ⟨k, h1, h2⟩)
    · exact Or.inl h
    · exact Or.inr ⟨k, by rw [V.h]; exact h1, by rw [V.head k (by omega)]; exact h2⟩
  have hdel : ∀ b ∈ pins root th, b ∈ G.lv 0 → (u.page b).deleted = false := by
    intro b hb hm
    have h1 := (W.alloc 0 (Nat.zero_le _) b hm).2
    cases h2 : (u.page b).deleted with
    | false => rfl
    | true => rw [hd b hb h2] at h1; cases h1
  cases th with
  | down b => exact hdesc b h
  | opening b => exact hdesc b h
  | scan b acc =>
    obtain ⟨A, B, e, h0, h1, h2⟩ := h
    obtain ⟨A', B', e', h5⟩ := V.place W e (hdel b (by simp [pins]) (by rw [e]; simp))
    exact ⟨A', B', e', by rw [V.h]; exact h0, fun y hy => (h1 y hy).imp_right (h5 y), h2⟩
  | next b cur acc =>
    obtain ⟨h1, h2, hE, A, B, e, h0, h3⟩ := h
    obtain ⟨A', B', e', h5⟩ := V.place W e (hdel b (by simp [pins]) (by rw [e]; simp))
    exact ⟨h1, h2, hE, A', B', e', by rw [V.h]; exact h0, fun y hy => (h3 y hy).imp_right (fun h => ⟨h.1, h5 y h.2⟩)⟩
  | cursor b L cur acc =>
    obtain ⟨h1, h2, h3, h3', h4⟩ := h
    refine ⟨h1, h2, h3, h3', ?_⟩
    rcases h4 with ⟨rfl, h0⟩ | ⟨A, B, e, h5, h6⟩
    · exact Or.inl ⟨rfl, by rw [V.h]; exact h0⟩
    · obtain ⟨A', B', e', h7⟩ := V.place W e (hdel b (by simp [pins]) (by rw [e]; simp))
      exact Or.inr ⟨A', B', e', h5, fun y hy => (h6 y hy).imp_right (fun h => ⟨h.1, h.2.imp_right (fun h => ⟨h7 y h.1, h.2⟩)⟩)⟩
  | _ => exact h

theorem Browse.scan_leaf {Ev : α → Prop} (W : Browse key s root G) {S : List α} (hS : ∀ y ∈ S, y ∈ Tree.contents s root) {A B : List Nat} {b : Nat}
    {acc : List α} (e : G.lv 0 = A ++ b :: B) (h1 : ∀ y ∈ S, y ∈ acc ∨ Low key s A y) (h2 : ∀ y ∈ acc, Ev y)
    (hEv : ∀ y ∈ Tree.contents s root, Ev y) : ReadV key o POK Ev root s G S (actScan s b acc).2 := by
  have hb : b ∈ G.lv 0 := by rw [e]; simp
  have hr := (Linked.right (e ▸ W.thin.linked 0 (Nat.zero_le _))).1
  have hE : ∀ y ∈ acc ++ (s.page b).items, Ev y := by
    intro y hy
    rcases List.mem_append.1 hy with hy | hy
    · exact h2 y hy
    · exact hEv y (W.mem.2 ⟨b, hb, hy⟩)
  unfold actScan
  cases B with
  | nil =>
    simp at hr
    rw [hr]
    refine ⟨fun y hy => ?_, hE⟩
    rcases h1 y hy with h | h
    · exact List.mem_append_left _ h
    · rcases W.low_where e (hS y hy) h with h | ⟨⟨c, hc, -⟩, -⟩
      · exact List.mem_append_right _ h
      · simp at hc
  | cons r B =>
    simp at hr
    rw [hr]
    have h0 : 0 < G.h := by
      rcases Nat.eq_zero_or_pos G.h with h | h
      · have := W.thin.root
        rw [h, e] at this
        have := congrArg List.length this
        simp at this
        omega
      · exact h
    refine ⟨A ++ [b], B, by rw [e]; simp, h0, ?_, hE⟩
    intro y hy
    rcases h1 y hy with h | h
    · exact Or.inl (List.mem_append_left _ h)
    · rcases W.low_where e (hS y hy) h with h' | ⟨-, h'⟩
      · exact Or.inl (List.mem_append_right _ h')
      · exact Or.inr (low_snoc h h')

/-- Steps of the scan itself. -/
theorem ReadV.act {Ev : α → Prop} (hk : KeyOf o.cmp key) (hseek : SeekLaw o POK seek) (W : Browse key s root G)
    (hfit : ∀ c ∈ G.lv 0, POK (s.page c).items) {S : List α}
    (hS : ∀ y ∈ S, y ∈ Tree.contents s root) (hEv : ∀ y ∈ Tree.contents s root, Ev y) {th : Thread α} (hr : reads th = true)
    (h : ReadV key o POK Ev root s G S th) :
    (Tree.act o seek root s th).1 = s ∧ reads (Tree.act o seek root s th).2 = true ∧ ReadV key o POK Ev root s G S (Tree.act o seek root s th).2 := by
  have hss : ∀ c ∈ G.lv 0, SSorted o.cmp (s.page c).items := fun c hc => (ssorted_key hk).2 (W.thin.order.sorted c hc)
  have hrs : ∀ b acc, reads (actScan s b acc).2 = true := by
    intro b acc
    unfold actScan
    cases (s.page b).right <;> rfl
  cases th with
  | down b =>
    rcases W.desc_step h with ⟨h1, B, e⟩ | ⟨h1, d, h2, h3⟩
    · simp only [Tree.act, h1, if_true]
      exact ⟨rfl, hrs _ _, W.scan_leaf hS (A := []) e (fun y hy => Or.inr (fun c hc => by simp at hc)) (fun y hy => by simp at hy) hEv⟩
    · simp only [Tree.act, h1, h2]
      exact ⟨rfl, rfl, h3⟩
  | scan b acc =>
    obtain ⟨A, B, e, h0, h1, h2⟩ := h
    exact ⟨rfl, hrs _ _, W.scan_leaf hS e h1 h2 hEv⟩
  | scanned acc => exact ⟨rfl, rfl, h⟩
  | ended acc => exact ⟨rfl, rfl, h⟩
  | opening b =>
    rcases W.desc_step h with ⟨h1, B, e⟩ | ⟨h1, d, h2, h3⟩
    · simp only [Tree.act, h1, if_true]
      have hb : b ∈ G.lv 0 := by rw [e]; simp
      have hlow : ∀ y, Low key s [] y := fun y c hc => by simp at hc
      cases hits : (s.page b).items with
      | nil => exact ⟨trivial, rfl, Or.inl rfl, fun y hy => by simp at hy⟩
      | cons y ys =>
        refine ⟨trivial, rfl, ?_⟩
        have hsort := hss b hb
        rw [hits] at hsort
        have hc : ∀ z ∈ y :: ys, Ev z ∧ ∃ its, POK its ∧ z ∈ its := fun z hz => ⟨hEv z (W.mem.2 ⟨b, hb, by rw [hits]; exact hz⟩),
          _, hfit b hb, by rw [hits]; exact hz⟩
        refine ⟨(hc y (by simp)).2, by simp, fun z hz => by simp at hz; subst hz; exact (hc z (by simp)).1,
          fun z hz => hc z (by simp [hz]), Or.inr ⟨[], B, e, (List.pairwise_cons.1 hsort).2, ?_⟩⟩
        have := cursor_load (s := s) (A := []) (acc := []) hk (S := S) hsort ?_
        · simpa using this
        intro z hz
        right
        refine ⟨fun a ha => by simp at ha, ?_⟩
        rcases W.low_where (A := []) e (hS z hz) (hlow z) with h' | ⟨-, h'⟩
        · exact Or.inl (by rw [← hits]; exact h')
        · refine Or.inr ⟨hlow z, fun l hl => ?_⟩
          have := W.thin.order.le b hb l (by rw [hits]; exact hl)
          simpa using this.trans_lt h'
    · simp only [Tree.act, h1, h2]
      exact ⟨rfl, rfl, h3⟩
  | next b cur acc =>
    obtain ⟨hcu, h2, hE, A, B, e, h0, h3⟩ := h
    have hb : b ∈ G.lv 0 := by rw [e]; simp
    simp only [Tree.act]
    have hsort := hss b hb
    cases hd : (s.page b).items.dropWhile (fun it => o.cmp cur it != .gt) with
    | nil =>
      exact ⟨trivial, rfl, hcu, h2, hE, fun y hy => by simp at hy, Or.inr ⟨A, B, e, List.Pairwise.nil, fun y hy => by
        rcases h3 y hy with h | ⟨h, h'⟩
        · exact Or.inl h
        · exact Or.inr ⟨h, Or.inr ⟨h', fun l hl => by simp at hl⟩⟩⟩⟩
    | cons y ys =>
      have hsplit := List.takeWhile_append_dropWhile (p := fun it => o.cmp cur it != .gt) (l := (s.page b).items)
      rw [hd] at hsplit
      have hy : o.cmp cur y = .gt := by
        have := List.head?_dropWhile_not (fun it => o.cmp cur it != .gt) (s.page b).items
        rw [hd] at this
        simpa using this
      have hsort' : SSorted o.cmp (y :: ys) := by
        rw [← hsplit] at hsort
        exact (List.pairwise_append.1 hsort).2.1
      have hm : ∀ z ∈ y :: ys, z ∈ (s.page b).items := fun z hz => by rw [← hsplit]; exact List.mem_append_right _ hz
      have hc : ∀ z ∈ y :: ys, Ev z ∧ ∃ its, POK its ∧ z ∈ its := fun z hz => ⟨hEv z (W.mem.2 ⟨b, hb, hm z hz⟩), _, hfit b hb, hm z hz⟩
      refine ⟨trivial, rfl, (hc y (by simp)).2, by simp, fun z hz => ?_, fun z hz => hc z (by simp [hz]),
        Or.inr ⟨A, B, e, (List.pairwise_cons.1 hsort').2, ?_⟩⟩
      · rcases List.mem_append.1 hz with hz | hz
        · exact hE z hz
        · simp at hz; subst hz; exact (hc z (by simp)).1
      · apply cursor_load hk hsort'
        intro z hz
        rcases h3 z hz with h | ⟨h, h'⟩
        · exact Or.inl h
        · refine Or.inr ⟨h, ?_⟩
          rcases W.low_where e (hS z hz) h' with hw | ⟨-, hw⟩
          · rw [← hsplit] at hw
            rcases List.mem_append.1 hw with hw | hw
            · -- before the first smaller item: impossible
              exfalso
              rw [← hsplit] at hsort
              have h5 := (hk.lt z y).1 ((List.pairwise_append.1 hsort).2.2 z hw y (by simp))
              have h6 := (hk.gt cur y).1 hy
              have h7 := h cur h2
              exact absurd (h5.trans (h6.trans h7)) (lt_irrefl _)
            · exact Or.inl hw
          · refine Or.inr ⟨h', fun l hl => ?_⟩
            have := W.thin.order.le b hb l (hm l hl)
            simpa using this.trans_lt hw
  | cursor b L cur acc =>
    obtain ⟨hcu, h3, hE, h2, h4⟩ := h
    cases L with
    | cons y ys =>
      simp only [Tree.act]
      refine ⟨trivial, rfl, (h2 y (by simp)).2, by simp, ?_, fun z hz => h2 z (by simp [hz]), ?_⟩
      · intro z hz
        rcases List.mem_append.1 hz with hz | hz
        · exact hE z hz
        · simp at hz; subst hz; exact (h2 z (by simp)).1
      · rcases h4 with h4 | ⟨A, B, e, h5, h6⟩
        · exact Or.inl h4
        · exact Or.inr ⟨A, B, e, (List.pairwise_cons.1 h5).2, cursor_load hk h5 h6⟩
    | nil =>
      rcases h4 with ⟨rfl, h0⟩ | ⟨A, B, e, h5, h6⟩
      · have hl : (s.page b).leaf = false :=
          (W.thin.inner (G.h - 1) (by omega) b (by rw [Nat.sub_add_cancel (by omega), W.thin.root]; simp)).1
        simp only [Tree.act, hl, Bool.false_eq_true, if_false]
        exact ⟨trivial, rfl, hcu, h3, hE, h2, Or.inl ⟨rfl, h0⟩⟩
      · have hb : b ∈ G.lv 0 := by rw [e]; simp
        have hl := W.thin.leaf b hb
        have hr := (Linked.right (e ▸ W.thin.linked 0 (Nat.zero_le _))).1
        simp only [Tree.act, hl, if_true]
        obtain ⟨its', hits', hcur⟩ := hcu
        have hbnd : ∀ b', (s.page b).hi = some b' → ∀ i ∈ (s.page b).items, o.cmp i b' ≠ .gt :=
          fun b' hb' i hi => (hi_some hk (s.page b) i).1 (W.thin.order.le b hb i hi) b' hb'
        have hpend : ∀ y ∈ S, Delivered o.cmp acc y ∨ ((∀ a ∈ acc, key a < key y) ∧ Low key s A y) := by
          intro y hy
          rcases h6 y hy with h | ⟨h, h'⟩
          · exact Or.inl h
          · rcases h' with h' | ⟨h', -⟩
            · simp at h'
            · exact Or.inr ⟨h, h'⟩
        rcases hseek (s.page b).items (s.page b).hi cur its' (hfit b hb) (hss b hb) hbnd hits' hcur with
          ⟨pre, y, ys, post, hs1, hs2, hs3, hs4⟩ | ⟨hs1, hs2⟩
        · rw [hs1]
          simp only
          have hsort := hss b hb
          rw [hs2] at hsort
          have hsl := (List.pairwise_append.1 hsort)
          have hsort' : SSorted o.cmp (y :: ys) := (List.pairwise_append.1 hsl.1).2.1
          have hm : ∀ z ∈ y :: ys, z ∈ (s.page b).items := fun z hz => by rw [hs2]; simp only [List.mem_append]; exact Or.inl (Or.inr hz)
          have hc : ∀ z ∈ y :: ys, Ev z ∧ ∃ its, POK its ∧ z ∈ its := fun z hz => ⟨hEv z (W.mem.2 ⟨b, hb, hm z hz⟩), _, hfit b hb, hm z hz⟩
          refine ⟨trivial, rfl, (hc y (by simp)).2, by simp, fun z hz => ?_, fun z hz => hc z (by simp [hz]),
            Or.inr ⟨A, B, e, (List.pairwise_cons.1 hsort').2, ?_⟩⟩
          · rcases List.mem_append.1 hz with hz | hz
            · exact hE z hz
            · simp at hz; subst hz; exact (hc z (by simp)).1
          · apply cursor_load hk hsort'
            intro z hz
            rcases hpend z hz with h | ⟨h, h'⟩
            · exact Or.inl h
            · refine Or.inr ⟨h, ?_⟩
              rcases W.low_where e (hS z hz) h' with hw | ⟨-, hw⟩
              · rw [hs2] at hw
                rcases List.mem_append.1 hw with hw | hw
                · rcases List.mem_append.1 hw with hw | hw
                  · exact absurd ((hk.gt z cur).2 (h cur h3)) (hs3 z hw)
                  · exact Or.inl hw
                · exact Or.inr ⟨h', fun l hl => (hk.lt l z).1 (hsl.2.2 l (List.mem_append_right _ hl) z hw)⟩
              · refine Or.inr ⟨h', fun l hl => ?_⟩
                have := W.thin.order.le b hb l (hm l hl)
                simpa using this.trans_lt hw
        · have hnot : ∀ z ∈ S, Delivered o.cmp acc z ∨ ((∀ a ∈ acc, key a < key z) ∧ Low key s A z ∧ hiP key (s.page b) < ((key z : K) : WithTop K) ∧
              ∃ c ∈ B, z ∈ (s.page c).items) := by
            intro z hz
            rcases hpend z hz with h | ⟨h, h'⟩
            · exact Or.inl h
            · rcases W.low_where e (hS z hz) h' with hw | ⟨hw1, hw2⟩
              · exact absurd ((hk.gt z cur).2 (h cur h3)) (hs2 z hw)
              · exact Or.inr ⟨h, h', hw2, hw1⟩
          have hres : reads (match (s.page b).right with | some r => Thread.next r cur acc | none => .ended acc) = true ∧
              ReadV key o POK Ev root s G S (match (s.page b).right with | some r => Thread.next r cur acc | none => .ended acc) := by
            cases B with
            | nil =>
              simp at hr
              rw [hr]
              refine ⟨rfl, Or.inr fun z hz => ?_, hE⟩
              rcases hnot z hz with h | ⟨-, -, -, c, hc, -⟩
              · exact h
              · simp at hc
            | cons r B =>
              simp at hr
              rw [hr]
              have h0 : 0 < G.h := by
                rcases Nat.eq_zero_or_pos G.h with h | h
                · have := W.thin.root
                  rw [h, e] at this
                  have := congrArg List.length this
                  simp at this
                  omega
                · exact h
              refine ⟨rfl, ⟨its', hits', hcur⟩, h3, hE, A ++ [b], B, by rw [e]; simp, h0, fun z hz => ?_⟩
              rcases hnot z hz with h | ⟨h, h', h'', -⟩
              · exact Or.inl h
              · exact Or.inr ⟨h, low_snoc h' h''⟩
          cases hsk : seek (s.page b).items (s.page b).hi cur with
          | none => exact ⟨trivial, hres⟩
          | some l =>
            cases l with
            | nil => exact ⟨trivial, hres⟩
            | cons y ys => exact absurd hsk (hs1 y ys)
  | _ => simp [reads] at hr

/-- A scan never comes to a deleted page, and the right link of a leaf leads to a leaf. -/
theorem ReadV.alive {Ev : α → Prop} (W : Browse key s root G) {S : List α} {th : Thread α} (hr : reads th = true)
    (h : ReadV key o POK Ev root s G S th) {b : Nat} (hv : visit root th = some b) :
    (s.page b).deleted = false ∧ (stepTo th = some b → (s.page b).leaf = true) := by
  have hroot := (W.thin.alloc G.h (Nat.le_refl _) root (by rw [W.thin.root]; simp)).2
  have hdesc : ∀ b, DescOK root G b → (s.page b).deleted = false := by
    rintro b (rfl | ⟨k, h1, h2⟩)
    · exact hroot
    · exact (W.thin.alloc k (by omega) b (List.mem_of_mem_head? h2)).2
  cases th with
  | down c => cases hv; exact ⟨hdesc _ h, by simp [stepTo]⟩
  | opening c => cases hv; exact ⟨hdesc _ h, by simp [stepTo]⟩
  | scan c acc =>
    cases hv
    obtain ⟨A, B, e, h0, h1, h2⟩ := h
    have hb : b ∈ G.lv 0 := by rw [e]; simp
    exact ⟨(W.thin.alloc 0 (Nat.zero_le _) b hb).2, fun _ => W.thin.leaf b hb⟩
  | next c cur acc =>
    cases hv
    obtain ⟨-, -, -, A, B, e, h0, h1⟩ := h
    have hb : b ∈ G.lv 0 := by rw [e]; simp
    exact ⟨(W.thin.alloc 0 (Nat.zero_le _) b hb).2, fun _ => W.thin.leaf b hb⟩
  | cursor c L cur acc =>
    cases L with
    | cons y ys => simp [visit] at hv
    | nil =>
      cases hv
      obtain ⟨-, -, -, -, h4⟩ := h
      refine ⟨?_, by simp [stepTo]⟩
      rcases h4 with ⟨rfl, h0⟩ | ⟨A, B, e, -, -⟩
      · exact hroot
      · exact (W.thin.alloc 0 (Nat.zero_le _) b (by rw [e]; simp)).2
  | ins _ _ _ => simp [reads] at hr
  | walk _ _ _ _ => simp [reads] at hr
  | top _ => simp [reads] at hr
  | level _ _ _ => simp [reads] at hr
  | _ => simp [visit] at hv

/-- Insertions do not turn into scans. -/
theorem act_reads {s : Store α} {th : Thread α} (h : reads th = false) : reads (Tree.act o seek root s th).2 = false := by
  have hag : ∀ l : List α, reads (again root l) = false := by intro l; cases l <;> rfl
  have hln : ∀ w b off up, reads (link o root s w b off up).2 = false := by
    intro w b off up
    unfold link
    simp only
    split
    · exact hag _
    · split
      · exact hag _
      · rfl
  cases th with
  | ins batch b up =>
    cases batch with
    | nil => rfl
    | cons x xs =>
      simp only [Tree.act]
      unfold actIns
      simp only
      split
      · rfl
      · split
        · split
          · exact hag _
          · split
            · exact hag _
            · split
              · exact hag _
              · rfl
        · split <;> rfl
  | walk w p off up =>
    simp only [Tree.act]
    split
    · exact hln _ _ _ _
    · simp only; split <;> rfl
  | top w =>
    simp only [Tree.act]
    split
    · exact hln _ _ _ _
    · simp only; split <;> rfl
  | level w p lm =>
    simp only [Tree.act]
    split
    · rfl
    · split
      · exact hln _ _ _ _
      · simp only; split <;> rfl
  | idle => rfl
  | inserted => rfl
  | lost => rfl
  | _ => simp [reads] at h

end Rum.Tree

import Verif.Tree
import Mathlib.Order.WithBot
import Mathlib.Data.List.Forall2
import Mathlib.Data.List.Basic
import Mathlib.Data.List.Nodup
import Mathlib.Data.List.Perm.Subperm
/-
Invariant of the trees, and the descent under it. Everything here is proof apparatus: the property statements do not mention it.

The ghost state gives the pages of every level (level 0: leaves) from left to right, and for every interior page its children in groups: a
group is a page with a downlink, followed by the pages split off from it that have no downlink yet.
-/
namespace Rum.Tree
open Rum Rum.Entry

variable {α K : Type} [LinearOrder K]

/-- `key` represents the comparison. -/
structure KeyOf (cmp : α → α → Ordering) (key : α → K) : Prop where
  lt : ∀ a b, cmp a b = .lt ↔ key a < key b
  eq : ∀ a b, cmp a b = .eq ↔ key a = key b
  gt : ∀ a b, cmp a b = .gt ↔ key b < key a

structure Ghost where
  h : Nat
  lv : Nat → List Nat
  kids : Nat → List (List Nat)
  tp : Nat → Nat

/-- Upper limit of what belongs on a page. -/
def hiP (key : α → K) (p : Page α) : WithTop K :=
  match p.right with
  | none => ⊤
  | some _ => ((key p.bound : K) : WithTop K)

/-- The links of the pages of a level. -/
def Linked (s : Store α) : Option Nat → List Nat → Option Nat → Prop
  | _, [], _ => True
  | p, b :: l, n => (s.page b).left = p ∧ (s.page b).right = l.head?.or n ∧ Linked s (some b) l n

/-- Downlinks and children of an interior page; `me` is the last leaf under it, `tp c` the last leaf under `c`. -/
structure InnerOK (key : α → K) (strict : Bool) (s : Store α) (tp : Nat → Nat) (me : Nat) (kids : List (List Nat)) (p : Page α) : Prop where
  downs : List.Forall₂ (fun (d : α × Nat) (g : List Nat) => g.head? = some d.2 ∧
    ∀ c, g.getLast? = some c → hiP key (s.page c) = ⊤ ∨ hiP key (s.page c) = ((key d.1 : K) : WithTop K)) p.downs kids
  last : ∀ g c, kids.getLast? = some g → g.getLast? = some c → tp c = me
  lim : hiP key (s.page me) ≤ hiP key p
  strict : strict = true → p.right ≠ none → ∀ d, p.downs.getLast? = some d → key d.1 = key p.bound

/-- Order on the leaf level. -/
structure LeafOrder (key : α → K) (s : Store α) (l : List Nat) : Prop where
  pair : l.Pairwise (fun b c => hiP key (s.page b) < hiP key (s.page c) ∧
    ∀ i ∈ (s.page c).items, hiP key (s.page b) < ((key i : K) : WithTop K))
  le : ∀ b ∈ l, ∀ i ∈ (s.page b).items, ((key i : K) : WithTop K) ≤ hiP key (s.page b)
  sorted : ∀ b ∈ l, (s.page b).items.Pairwise (fun i j => key i < key j)

/-- The invariant, except that interior pages may be without downlinks. -/
structure Thin (key : α → K) (strict : Bool) (s : Store α) (root : Nat) (G : Ghost) : Prop where
  root : G.lv G.h = [root]
  cover : ∀ k, k < G.h → G.lv k = (G.lv (k + 1)).flatMap (fun b => (G.kids b).flatten)
  linked : ∀ k, k ≤ G.h → Linked s none (G.lv k) none
  uniq : ∀ j k b, j ≤ G.h → k ≤ G.h → b ∈ G.lv j → b ∈ G.lv k → j = k
  nodup : ∀ k, k ≤ G.h → (G.lv k).Nodup
  alloc : ∀ k, k ≤ G.h → ∀ b ∈ G.lv k, b < s.next ∧ (s.page b).deleted = false
  leaf : ∀ b ∈ G.lv 0, (s.page b).leaf = true
  inner : ∀ k, k < G.h → ∀ b ∈ G.lv (k + 1), (s.page b).leaf = false ∧ InnerOK key strict s G.tp (G.tp b) (G.kids b) (s.page b)
  order : LeafOrder key s (G.lv 0)
  tpl : ∀ b ∈ G.lv 0, G.tp b = b

/-- The invariant that holds at every moment, also in the middle of page splits. -/
structure Weak (key : α → K) (strict : Bool) (s : Store α) (root : Nat) (G : Ghost) : Prop extends Thin key strict s root G where
  ne : ∀ k, k < G.h → ∀ b ∈ G.lv (k + 1), G.kids b ≠ []

/-! ### Lists -/

theorem linked_append (s : Store α) (A B : List Nat) (p n : Option Nat) :
    Linked s p (A ++ B) n ↔ Linked s p A (B.head?.or n) ∧ Linked s (A.getLast?.or p) B n := by
  induction A generalizing p with
  | nil => simp [Linked]
  | cons a A ih =>
    simp only [List.cons_append, Linked, ih]
    have e1 : (A ++ B).head?.or n = A.head?.or (B.head?.or n) := by
      cases A <;> simp
    have e2 : A.getLast?.or (some a) = (a :: A).getLast?.or p := by
      cases h : A.getLast? with
      | none => rw [List.getLast?_eq_none_iff] at h; subst h; simp
      | some c => simp [List.getLast?_cons, h]
    rw [e1, e2]
    tauto

theorem Linked.right {s : Store α} {A B : List Nat} {b : Nat} {p n : Option Nat} (h : Linked s p (A ++ b :: B) n) :
    (s.page b).right = B.head?.or n ∧ (s.page b).left = A.getLast?.or p := by
  rw [linked_append] at h
  exact ⟨h.2.2.1, h.2.1⟩

theorem Linked.mono {s t : Store α} {l : List Nat} {p n : Option Nat} (h : Linked s p l n)
    (hst : ∀ b ∈ l, (t.page b).left = (s.page b).left ∧ (t.page b).right = (s.page b).right) : Linked t p l n := by
  induction l generalizing p with
  | nil => trivial
  | cons a l ih =>
    have := hst a (by simp)
    exact ⟨by rw [this.1]; exact h.1, by rw [this.2]; exact h.2.1, ih h.2.2 (fun b hb => hst b (by simp [hb]))⟩

/-! ### Leaves under a page -/

/-- The leaves under a page of level `k`. -/
def under (G : Ghost) : Nat → Nat → List Nat
  | 0, b => [b]
  | k + 1, b => (G.kids b).flatten.flatMap (under G k)

theorem leaves_eq {key : α → K} {strict : Bool} {s : Store α} {root : Nat} {G : Ghost} (W : Thin key strict s root G) (k : Nat)
    (hk : k ≤ G.h) : G.lv 0 = (G.lv k).flatMap (under G k) := by
  induction k with
  | zero => simp [under]
  | succ k ih =>
    rw [ih (by omega), W.cover k (by omega), List.flatMap_assoc]
    rfl

/-- In the tree, the children of a page lie on the level below. -/
theorem kids_mem {key : α → K} {strict : Bool} {s : Store α} {root : Nat} {G : Ghost} (W : Thin key strict s root G) {k b c : Nat}
    (hk : k < G.h) (hb : b ∈ G.lv (k + 1)) (hc : c ∈ (G.kids b).flatten) : c ∈ G.lv k := by
  rw [W.cover k hk, List.mem_flatMap]
  exact ⟨b, hb, hc⟩

theorem InnerOK.group_ne {key : α → K} {strict : Bool} {s : Store α} {tp : Nat → Nat} {me : Nat} {kids : List (List Nat)} {p : Page α}
    (h : InnerOK key strict s tp me kids p) {g : List Nat} (hg : g ∈ kids) : g ≠ [] := by
  obtain ⟨i, hi, rfl⟩ := List.getElem_of_mem hg
  have hlen := h.downs.length_eq
  have := (List.forall₂_iff_get.1 h.downs).2 i (by omega) hi
  intro e
  simp only [List.get_eq_getElem] at this
  rw [e] at this
  simp at this

theorem InnerOK.last_kid {key : α → K} {strict : Bool} {s : Store α} {tp : Nat → Nat} {me : Nat} {kids : List (List Nat)} {p : Page α}
    (h : InnerOK key strict s tp me kids p) (hne : kids ≠ []) : ∃ g c, kids.getLast? = some g ∧ g.getLast? = some c ∧
      kids.flatten.getLast? = some c ∧ tp c = me := by
  obtain ⟨gs, g, rfl⟩ : ∃ gs g, kids = gs ++ [g] := ⟨_, _, (List.dropLast_append_getLast hne).symm⟩
  have hg := h.group_ne (g := g) (by simp)
  obtain ⟨cs, c, rfl⟩ : ∃ cs c, g = cs ++ [c] := ⟨_, _, (List.dropLast_append_getLast hg).symm⟩
  refine ⟨cs ++ [c], c, by simp, by simp, ?_, h.last (cs ++ [c]) c (by simp) (by simp)⟩
  rw [List.flatten_append]
  simp only [List.flatten_cons, List.flatten_nil, List.append_nil]
  rw [← List.append_assoc, List.getLast?_concat]

/-- The limit of the last leaf under a page does not exceed the page's limit. -/
theorem Thin.tp_le {key : α → K} {strict : Bool} {s : Store α} {root : Nat} {G : Ghost} (W : Thin key strict s root G) (k : Nat)
    (hk : k ≤ G.h) (b : Nat) (hb : b ∈ G.lv k) : hiP key (s.page (G.tp b)) ≤ hiP key (s.page b) := by
  cases k with
  | zero => rw [W.tpl b hb]
  | succ k => exact (W.inner k (by omega) b hb).2.lim

theorem under_tp {key : α → K} {strict : Bool} {s : Store α} {root : Nat} {G : Ghost} (W : Weak key strict s root G) (k : Nat)
    (hk : k ≤ G.h) (b : Nat) (hb : b ∈ G.lv k) : (under G k b).getLast? = some (G.tp b) := by
  induction k generalizing b with
  | zero => rw [W.tpl b hb]; rfl
  | succ k ih =>
    obtain ⟨g, c, hg, hc, hf, hle⟩ := (W.inner k (by omega) b hb).2.last_kid (W.ne k (by omega) b hb)
    have hcm : c ∈ G.lv k := kids_mem W.toThin (by omega) hb (List.mem_of_getLast? hf)
    have hd := ih (by omega) c hcm
    rw [hle] at hd
    rw [under]
    obtain ⟨fs, hfs⟩ : ∃ fs, (G.kids b).flatten = fs ++ [c] := by
      rw [List.getLast?_eq_some_iff] at hf; exact hf
    rw [hfs, List.flatMap_append, List.flatMap_singleton]
    rw [List.getLast?_append, hd]
    rfl

/-- The greatest limit of the leaves under a page does not exceed the page's limit. -/
theorem under_last {key : α → K} {strict : Bool} {s : Store α} {root : Nat} {G : Ghost} (W : Weak key strict s root G) (k : Nat)
    (hk : k ≤ G.h) (b : Nat) (hb : b ∈ G.lv k) : ∃ c, (under G k b).getLast? = some c ∧ hiP key (s.page c) ≤ hiP key (s.page b) :=
  ⟨G.tp b, under_tp W k hk b hb, W.tp_le k hk b hb⟩

theorem tp_mem {key : α → K} {strict : Bool} {s : Store α} {root : Nat} {G : Ghost} (W : Weak key strict s root G) (k : Nat)
    (hk : k ≤ G.h) (b : Nat) (hb : b ∈ G.lv k) : G.tp b ∈ G.lv 0 := by
  rw [leaves_eq W.toThin k hk, List.mem_flatMap]
  exact ⟨b, hb, List.mem_of_getLast? (under_tp W k hk b hb)⟩

/-- Everything under the pages `A` of level `k` is too small for `x`. -/
def NotLeft (key : α → K) (s : Store α) (G : Ghost) (k : Nat) (A : List Nat) (x : α) : Prop :=
  ∀ c ∈ A.flatMap (under G k), hiP key (s.page c) < ((key x : K) : WithTop K)

theorem LeafOrder.lt_of_last {key : α → K} {s : Store α} {l A B : List Nat} {c : Nat} (h : LeafOrder key s l)
    (e : l = A ++ B) (hc : A.getLast? = some c) {z : WithTop K} (hz : hiP key (s.page c) < z) :
    ∀ b ∈ A, hiP key (s.page b) < z := by
  obtain ⟨A', rfl⟩ := List.getLast?_eq_some_iff.1 hc
  intro b hb
  rcases List.mem_append.1 hb with hb | hb
  · have := h.pair
    rw [e, List.append_assoc] at this
    have := (List.pairwise_append.1 this).2.2 b hb c (by simp)
    exact this.1.trans hz
  · simp at hb; subst hb; exact hz

/-- If the last page of `A` has a limit below `x`, everything under `A` is too small. -/
theorem notLeft_of_last {key : α → K} {strict : Bool} {s : Store α} {root : Nat} {G : Ghost} (W : Weak key strict s root G) {k : Nat}
    (hk : k ≤ G.h) {A B : List Nat} {b : Nat} (e : G.lv k = A ++ b :: B) {x : α}
    (hx : hiP key (s.page b) < ((key x : K) : WithTop K)) : NotLeft key s G k (A ++ [b]) x := by
  obtain ⟨c, hc, hle⟩ := under_last W k hk b (by rw [e]; simp)
  have hl := leaves_eq W.toThin k hk
  have e2 : G.lv k = (A ++ [b]) ++ B := by rw [e]; simp
  rw [e2, List.flatMap_append] at hl
  refine W.order.lt_of_last hl (c := c) ?_ (hle.trans_lt hx)
  rw [List.flatMap_append, List.flatMap_singleton, List.getLast?_append, hc]
  rfl

/-- The same with `≤` for what lies strictly before the last page. -/
theorem notLeft_of_le {key : α → K} {strict : Bool} {s : Store α} {root : Nat} {G : Ghost} (W : Weak key strict s root G) {k : Nat}
    (hk : k ≤ G.h) {A B : List Nat} {b : Nat} (e : G.lv k = A ++ b :: B) {x : α}
    (hx : hiP key (s.page b) ≤ ((key x : K) : WithTop K)) : NotLeft key s G k A x := by
  obtain ⟨c, hc, hle⟩ := under_last W k hk b (by rw [e]; simp)
  have hl := leaves_eq W.toThin k hk
  rw [e, List.flatMap_append, List.flatMap_cons] at hl
  intro d hd
  have hp := W.order.pair
  rw [hl] at hp
  exact (((List.pairwise_append.1 hp).2.2 d hd c (by simp [List.mem_of_getLast? hc])).1).trans_le (hle.trans hx)

/-! ### Descent -/

theorem hi_gt {key : α → K} {o : Ops α} (hk : KeyOf o.cmp key) (p : Page α) (x : α) (r : Nat) (hr : p.right = some r) :
    (o.cmp x p.bound = .gt ↔ hiP key p < ((key x : K) : WithTop K)) := by
  rw [hk.gt]
  simp [hiP, hr]

theorem moveRight_spec {o : Ops α} {key : α → K} (ho : KeyOf o.cmp key) {strict : Bool} {s : Store α} {root : Nat} {G : Ghost}
    (W : Weak key strict s root G) {k : Nat} (hk : k ≤ G.h) (x : α) (n : Nat) (A B : List Nat) (b : Nat)
    (e : G.lv k = A ++ b :: B) (hn : B.length ≤ n) (hA : NotLeft key s G k A x) :
    ∃ A' b' B', G.lv k = A' ++ b' :: B' ∧ moveRight o s x n b = b' ∧ NotLeft key s G k A' x ∧
      ((key x : K) : WithTop K) ≤ hiP key (s.page b') := by
  induction n generalizing A b B with
  | zero =>
    have : B = [] := List.length_eq_zero_iff.1 (by omega)
    subst this
    have hr := (Linked.right (e ▸ W.linked k hk)).1
    refine ⟨A, b, [], e, rfl, hA, ?_⟩
    simp at hr
    simp [hiP, hr]
  | succ n ih =>
    have hr := (Linked.right (e ▸ W.linked k hk)).1
    rw [moveRight]
    cases B with
    | nil =>
      simp at hr
      rw [hr]
      exact ⟨A, b, [], e, rfl, hA, by simp [hiP, hr]⟩
    | cons r B =>
      simp at hr
      rw [hr]
      simp only
      by_cases hc : o.cmp x (s.page b).bound = .gt
      · rw [if_pos hc]
        rw [hi_gt ho _ _ r hr] at hc
        exact ih (A ++ [b]) B r (by rw [e]; simp) (by simpa using hn) (notLeft_of_last W hk e hc)
      · rw [if_neg hc]
        rw [hi_gt ho _ _ r hr, not_lt] at hc
        exact ⟨A, b, r :: B, e, rfl, hA, hc⟩

/-- What is required of the choice of a downlink. -/
def LocateOK (o : Ops α) (key : α → K) (strict : Bool) : Prop :=
  ∀ (rm : Bool) (keys : List α) (x : α), keys ≠ [] →
    (strict = true → rm = false → ∀ z, keys.getLast? = some z → key x ≤ key z) →
    ∃ i, o.locate rm keys x = i + 1 ∧ ∃ hi : i < keys.length, (i = 0 ∨ (∃ j, ∃ hj : j < keys.length, j + 1 = i ∧ key keys[j] < key x) ∨
      (key keys[i] = key x ∧ (i + 1 < keys.length ∨ rm = false)))

/-- A page that is followed by another one on its level has a finite limit. -/
theorem hi_ne_top {key : α → K} {strict : Bool} {s : Store α} {root : Nat} {G : Ghost} (W : Thin key strict s root G) {k : Nat}
    (hk : k ≤ G.h) {A B : List Nat} {b c : Nat} (e : G.lv k = A ++ b :: c :: B) : hiP key (s.page b) ≠ ⊤ := by
  have hr := (Linked.right (e ▸ W.linked k hk)).1
  simp at hr
  simp [hiP, hr]

/-- The split of the level below that corresponds to a downlink. -/
theorem level_split {key : α → K} {strict : Bool} {s : Store α} {root : Nat} {G : Ghost} (W : Thin key strict s root G) {k : Nat}
    (hk : k < G.h) {A B : List Nat} {b : Nat} (e : G.lv (k + 1) = A ++ b :: B) {G1 G2 : List (List Nat)} {g : List Nat}
    (hg : G.kids b = G1 ++ g :: G2) :
    G.lv k = (A.flatMap (fun b => (G.kids b).flatten) ++ G1.flatten) ++ g ++ (G2.flatten ++ B.flatMap (fun b => (G.kids b).flatten)) := by
  rw [W.cover k hk, e, List.flatMap_append, List.flatMap_cons, hg, List.flatten_append, List.flatten_cons]
  simp [List.append_assoc]

theorem forall₂_getElem {β γ : Type} {R : β → γ → Prop} {l : List β} {m : List γ} (h : List.Forall₂ R l m) (i : Nat)
    (h1 : i < l.length) (h2 : i < m.length) : R l[i] m[i] := by
  simpa using (List.forall₂_iff_get.1 h).2 i h1 h2

theorem child_spec {o : Ops α} {key : α → K} {strict : Bool} (hl : LocateOK o key strict) {s : Store α}
    {root : Nat} {G : Ghost} (W : Weak key strict s root G) {k : Nat} (hk : k < G.h) (x : α) (A B : List Nat) (b : Nat)
    (e : G.lv (k + 1) = A ++ b :: B) (hA : NotLeft key s G (k + 1) A x) (hx : ((key x : K) : WithTop K) ≤ hiP key (s.page b)) :
    ∃ d A' B', (s.page b).downs[o.locate (s.page b).right.isNone ((s.page b).downs.map Prod.fst) x - 1]? = some d ∧
      G.lv k = A' ++ d.2 :: B' ∧ NotLeft key s G k A' x := by
  obtain ⟨-, hI⟩ := W.inner k hk b (by rw [e]; simp)
  have hlen := hI.downs.length_eq
  have hne : (s.page b).downs.map Prod.fst ≠ [] := by
    intro h
    have : (s.page b).downs = [] := by simpa using h
    rw [this] at hlen
    exact W.ne k hk b (by rw [e]; simp) (List.length_eq_zero_iff.1 hlen.symm)
  obtain ⟨i, hi, hlt, hcase⟩ := hl (s.page b).right.isNone ((s.page b).downs.map Prod.fst) x hne (by
    intro h1 h2 z hz
    have hr : (s.page b).right ≠ none := by intro h; rw [h] at h2; simp at h2
    rw [List.getLast?_map] at hz
    obtain ⟨d, hd, rfl⟩ := Option.map_eq_some_iff.1 hz
    rw [hI.strict h1 hr d hd]
    obtain ⟨r, hr⟩ := Option.ne_none_iff_exists'.1 hr
    simpa [hiP, hr] using hx)
  simp only [List.length_map] at hlt
  have hlt' : i < (G.kids b).length := by omega
  have hsplit : G.kids b = (G.kids b).take i ++ (G.kids b)[i] :: (G.kids b).drop (i + 1) := by
    rw [← List.drop_eq_getElem_cons hlt', List.take_append_drop]
  have hR := forall₂_getElem hI.downs i hlt hlt'
  obtain ⟨g', hg'⟩ : ∃ g', (G.kids b)[i] = (s.page b).downs[i].2 :: g' := by
    obtain ⟨t, ht⟩ := List.head?_eq_some_iff.1 hR.1
    exact ⟨t, ht⟩
  have hlev := level_split W.toThin hk e hsplit
  refine ⟨(s.page b).downs[i], A.flatMap (fun b => (G.kids b).flatten) ++ ((G.kids b).take i).flatten,
    g' ++ (((G.kids b).drop (i + 1)).flatten ++ B.flatMap (fun b => (G.kids b).flatten)), ?_, ?_, ?_⟩
  · rw [hi, Nat.add_sub_cancel, List.getElem?_eq_getElem hlt]
  · rw [hlev, hg']; simp [List.append_assoc]
  · have hA0 : NotLeft key s G k (A.flatMap (fun b => (G.kids b).flatten)) x := by
      intro c hc
      apply hA
      rw [List.flatMap_assoc] at hc
      exact hc
    rcases hcase with h0 | ⟨j, hj, hji, hlt2⟩ | ⟨heq, hnl⟩
    · subst h0
      simpa using hA0
    · -- the downlink before
      simp only [List.length_map] at hj
      simp only [List.getElem_map] at hlt2
      have hj' : j < (G.kids b).length := by omega
      have hRj := forall₂_getElem hI.downs j hj hj'
      have hgne := hI.group_ne (List.getElem_mem hj')
      obtain ⟨cs, c, hcs⟩ : ∃ cs c, (G.kids b)[j] = cs ++ [c] := ⟨_, _, (List.dropLast_append_getLast hgne).symm⟩
      have hsp2 : G.kids b = (G.kids b).take j ++ (G.kids b)[j] :: (G.kids b).drop (j + 1) := by
        rw [← List.drop_eq_getElem_cons hj', List.take_append_drop]
      have hlev2 := level_split W.toThin hk e hsp2
      have htk : ((G.kids b).take i).flatten = ((G.kids b).take j).flatten ++ (cs ++ [c]) := by
        subst hji
        rw [List.take_succ_eq_append_getElem hj', List.flatten_append, hcs]
        simp
      -- c is followed by the chosen child
      have hpos : G.lv k = (A.flatMap (fun b => (G.kids b).flatten) ++ ((G.kids b).take j).flatten ++ cs) ++ c ::
          ((s.page b).downs[i].2 :: (g' ++ (((G.kids b).drop (i + 1)).flatten ++ B.flatMap (fun b => (G.kids b).flatten)))) := by
        rw [hlev, hg', htk]; simp [List.append_assoc]
      have hntop := hi_ne_top W.toThin (by omega) hpos
      have hhi : hiP key (s.page c) = ((key (s.page b).downs[j].1 : K) : WithTop K) := by
        rcases hRj.2 c (by rw [hcs]; simp) with h | h
        · exact absurd h hntop
        · exact h
      have := notLeft_of_last W (by omega) hpos (x := x) (by rw [hhi]; exact WithTop.coe_lt_coe.2 hlt2)
      rw [htk]
      simpa [List.append_assoc] using this
    · simp only [List.getElem_map, List.length_map] at heq hnl
      have hgne := hI.group_ne (List.getElem_mem hlt')
      obtain ⟨cs, c, hcs⟩ : ∃ cs c, (G.kids b)[i] = cs ++ [c] := ⟨_, _, (List.dropLast_append_getLast hgne).symm⟩
      have hpos : G.lv k = (A.flatMap (fun b => (G.kids b).flatten) ++ ((G.kids b).take i).flatten ++ cs) ++ c ::
          (((G.kids b).drop (i + 1)).flatten ++ B.flatMap (fun b => (G.kids b).flatten)) := by
        rw [hlev, hcs]; simp [List.append_assoc]
      have hle : hiP key (s.page c) ≤ ((key x : K) : WithTop K) := by
        rcases hR.2 c (by rw [hcs]; simp) with h | h
        · exfalso
          -- not the last page of the level
          have hr := (Linked.right (hpos ▸ W.linked k (by omega))).1
          have hr0 : (s.page c).right = none := by
            cases hc : (s.page c).right with
            | none => rfl
            | some r => simp [hiP, hc] at h
          rw [hr0] at hr
          have htail : ((G.kids b).drop (i + 1)).flatten ++ B.flatMap (fun b => (G.kids b).flatten) = [] := by
            cases ht : ((G.kids b).drop (i + 1)).flatten ++ B.flatMap (fun b => (G.kids b).flatten) with
            | nil => rfl
            | cons u v => rw [ht] at hr; simp at hr
          rw [List.append_eq_nil_iff] at htail
          rcases hnl with hnl | hnl
          · have h1 : (i + 1) < (G.kids b).length := by omega
            have hm : (G.kids b)[i + 1] ∈ (G.kids b).drop (i + 1) := by
              have h0 : 0 < ((G.kids b).drop (i + 1)).length := by simp; omega
              have h2 := List.getElem_mem h0
              rwa [List.getElem_drop] at h2
            have := List.flatten_eq_nil_iff.1 htail.1 _ hm
            exact hI.group_ne (List.getElem_mem h1) this
          · have hrb := (Linked.right (e ▸ W.linked (k + 1) (by omega))).1
            cases B with
            | nil => simp at hrb; rw [hrb] at hnl; simp at hnl
            | cons u v =>
              have hu := (W.inner k hk u (by rw [e]; simp)).2
              have h2 := htail.2
              rw [List.flatMap_cons, List.append_eq_nil_iff] at h2
              obtain ⟨g, hg⟩ := List.exists_mem_of_ne_nil _ (W.ne k hk u (by rw [e]; simp))
              exact hu.group_ne hg (List.flatten_eq_nil_iff.1 h2.1 g hg)
        · rw [h, heq]
      have := notLeft_of_le W (by omega) hpos hle
      intro d hd
      apply this
      rw [List.flatMap_append]
      exact List.mem_append_left _ hd

/-- The remembered path above a page of level `k` (possibly not up to date). -/
def PathOK (root : Nat) (G : Ghost) : Nat → List (Nat × Nat) → Prop
  | k, [] => k = G.h
  | k, (b, _) :: up => k < G.h ∧ ((b ∈ G.lv (k + 1) ∧ PathOK root G (k + 1) up) ∨ (b = root ∧ up = []))

theorem level_length {key : α → K} {strict : Bool} {s : Store α} {root : Nat} {G : Ghost} (W : Thin key strict s root G) {k : Nat}
    (hk : k ≤ G.h) : (G.lv k).length ≤ s.next := by
  have h1 : (G.lv k).Subperm (List.range s.next) :=
    List.subperm_of_subset (W.nodup k hk) (fun b hb => List.mem_range.2 (W.alloc k hk b hb).1)
  simpa using h1.length_le

theorem level_ne {key : α → K} {strict : Bool} {s : Store α} {root : Nat} {G : Ghost} (W : Weak key strict s root G) (k : Nat)
    (hk : k ≤ G.h) : G.lv k ≠ [] := by
  intro h
  have h1 := leaves_eq W.toThin k hk
  rw [h] at h1
  have h2 := leaves_eq W.toThin G.h (_root_.le_refl _)
  rw [W.root, h1] at h2
  obtain ⟨c, hc, -⟩ := under_last W G.h (_root_.le_refl _) root (by rw [W.root]; simp)
  simp only [List.flatMap_nil, List.flatMap_singleton] at h2
  rw [← h2] at hc
  simp at hc

theorem height_lt {key : α → K} {strict : Bool} {s : Store α} {root : Nat} {G : Ghost} (W : Weak key strict s root G) : G.h < s.next := by
  have hd : ∀ k, k ≤ G.h → ∃ b, b ∈ G.lv k := fun k hk => List.exists_mem_of_ne_nil _ (level_ne W k hk)
  choose! f hf using hd
  have hnd : ((List.range (G.h + 1)).map f).Nodup := by
    rw [List.Nodup, List.pairwise_map]
    refine (List.nodup_range (n := G.h + 1)).imp_of_mem ?_
    intro a b ha hb hab he
    rw [List.mem_range] at ha hb
    exact hab (W.uniq a b (f a) (by omega) (by omega) (hf a (by omega)) (by rw [he]; exact hf b (by omega)))
  have h1 : ((List.range (G.h + 1)).map f).Subperm (List.range s.next) :=
    List.subperm_of_subset hnd (fun b hb => by
      obtain ⟨k, hk, rfl⟩ := List.mem_map.1 hb
      rw [List.mem_range] at hk
      exact List.mem_range.2 (W.alloc k (by omega) _ (hf k (by omega))).1)
  have := h1.length_le
  simp at this
  omega

/-- The descent arrives at the one leaf where `x` belongs, at every moment. -/
theorem findLeaf_spec {o : Ops α} {key : α → K} (ho : KeyOf o.cmp key) {strict : Bool} (hl : LocateOK o key strict) {s : Store α}
    {root : Nat} {G : Ghost} (W : Weak key strict s root G) (x : α) (n k : Nat) (hk : k ≤ G.h) (hn : k < n) (A B : List Nat) (b : Nat)
    (e : G.lv k = A ++ b :: B) (hA : NotLeft key s G k A x) (up : List (Nat × Nat)) (hup : PathOK root G k up) :
    ∃ path A' B' b', findLeaf o s root x n b up = some ((b', 0) :: path) ∧ G.lv 0 = A' ++ b' :: B' ∧
      (∀ c ∈ A', hiP key (s.page c) < ((key x : K) : WithTop K)) ∧ ((key x : K) : WithTop K) ≤ hiP key (s.page b') ∧
      PathOK root G 0 path := by
  induction n generalizing k A b B up with
  | zero => omega
  | succ n ih =>
    rw [findLeaf]
    -- the page after moving right
    obtain ⟨A', b', B', e', hb', hA', hx⟩ : ∃ A' b' B', G.lv k = A' ++ b' :: B' ∧
        (if b = root then b else moveRight o s x s.next b) = b' ∧ NotLeft key s G k A' x ∧
        ((key x : K) : WithTop K) ≤ hiP key (s.page b') := by
      by_cases hr : b = root
      · rw [if_pos hr]
        refine ⟨A, b, B, e, rfl, hA, ?_⟩
        have hkh : k = G.h := W.uniq k G.h b hk (_root_.le_refl _) (by rw [e]; simp) (by rw [W.root, hr]; simp)
        subst hkh
        have hl1 := W.linked G.h (_root_.le_refl _)
        rw [W.root] at hl1
        have : (s.page b).right = none := by rw [hr]; simpa using hl1.2.1
        simp [hiP, this]
      · rw [if_neg hr]
        have hlen := level_length W.toThin hk
        rw [e] at hlen
        simp at hlen
        exact moveRight_spec ho W hk x s.next A B b e (by omega) hA
    rw [hb']
    simp only
    cases k with
    | zero =>
      rw [if_pos (W.leaf b' (by rw [e']; simp))]
      refine ⟨up, A', B', b', rfl, e', ?_, hx, hup⟩
      intro c hc
      exact hA' c (by simpa [under] using hc)
    | succ k =>
      obtain ⟨hleaf, -⟩ := W.inner k (by omega) b' (by rw [e']; simp)
      rw [hleaf]
      simp only [Bool.false_eq_true, if_false]
      obtain ⟨d, A2, B2, hd, e2, hA2⟩ := child_spec hl W (by omega) x A' B' b' e' hA' hx
      rw [hd]
      simp only
      exact ih k (by omega) (by omega) A2 B2 d.2 e2 hA2 _ ⟨by omega, Or.inl ⟨by rw [e']; simp, hup⟩⟩

/-- From the root. -/
theorem descent {o : Ops α} {key : α → K} (ho : KeyOf o.cmp key) {strict : Bool} (hl : LocateOK o key strict) {s : Store α}
    {root : Nat} {G : Ghost} (W : Weak key strict s root G) (x : α) :
    ∃ path A' B' b', findLeaf o s root x s.next root [] = some ((b', 0) :: path) ∧ G.lv 0 = A' ++ b' :: B' ∧
      (∀ c ∈ A', hiP key (s.page c) < ((key x : K) : WithTop K)) ∧ ((key x : K) : WithTop K) ≤ hiP key (s.page b') ∧
      PathOK root G 0 path :=
  findLeaf_spec ho hl W x s.next G.h (_root_.le_refl _) (height_lt W) [] [] root (by simpa using W.root)
    (by intro c hc; simp at hc) [] rfl

end Rum.Tree

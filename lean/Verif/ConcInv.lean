import Verif.Conc
import Verif.TreeRun
/-
Invariant of the concurrent backends, and why the steps of one backend do not disturb the others. Proof apparatus.
-/
namespace Rum.Tree
open Rum Rum.Entry

variable {α K : Type} [LinearOrder K]

/-- The unfinished split of a backend. -/
def pending : Thread α → Option (Pending α)
  | .walk w _ _ _ => some w
  | .top w => some w
  | .level w _ _ => some w
  | _ => none

theorem holds_eq (th : Thread α) : holds th = (pending th).map Pending.child := by
  cases th <;> rfl

/-- What a backend has still to insert. -/
def todo : Thread α → List α
  | .ins b _ _ => b
  | .walk w _ _ _ => w.batch
  | .top w => w.batch
  | .level w _ _ => w.batch
  | _ => []

structure LinkOK (key : α → K) (KOK : α → Prop) (s : Store α) (G : Ghost) (k : Nat) (w : Pending α) : Prop where
  lt : k < G.h
  mem : w.child ∈ G.lv k
  adj : Adj G w.child w.r
  hi : hiP key (s.page w.child) = ((key w.key : K) : WithTop K)
  kok : KOK w.key

/-- The search on a level; `C`: every split is under way. -/
structure LevelOK (C : Prop) (G : Ghost) (k j : Nat) (child p : Nat) (lm : Option Nat) : Prop where
  le : C → k + 1 ≤ j
  lm : (lm = none ∧ (G.lv j).head? = some p) ∨ ∃ q j', lm = some q ∧ j = j' + 1 ∧ (G.lv j').head? = some q
  ord : C → j = k + 1 → ∃ P A B, G.lv (k + 1) = A ++ p :: B ∧ P ∈ p :: B ∧ child ∈ (G.kids P).flatten

def ThreadOK (C : Prop) (key : α → K) (KOK : α → Prop) (root : Nat) (s : Store α) (G : Ghost) : Thread α → Prop
  | .ins [] _ _ => False
  | .ins (x :: _) b up => (b = root ∧ up = []) ∨
      ∃ k A B, k < G.h ∧ G.lv k = A ++ b :: B ∧ NotLeft key s G k A x ∧ PathOK root G k up
  | .walk w p off up => ∃ k, LinkOK key KOK s G k w ∧ PathOK root G k ((p, off) :: up)
  | .top w => ∃ k, LinkOK key KOK s G k w
  | .level w p lm => ∃ k j, LinkOK key KOK s G k w ∧ j < G.h ∧ p ∈ G.lv j ∧ LevelOK C G k j w.child p lm
  | _ => True

/-- What a step does to the tree, as far as the other backends are concerned. -/
structure Moved (key : α → K) (root : Nat) (bad : Nat → Prop) (new : Nat → Nat → Prop) (s : Store α) (G : Ghost) (t : Store α) (G' : Ghost) :
    Prop where
  keeps : Keeps root bad new G G'
  leaf : LeafKeeps key root s G t G'
  hi : ∀ c, c < s.next → ¬ bad c → c ≠ root → hiP key (t.page c) = hiP key (s.page c)
  next : s.next ≤ t.next

theorem LeafKeeps.refl (key : α → K) (root : Nat) (s : Store α) (G : Ghost) : LeafKeeps key root s G s G :=
  fun A _ B _ e => ⟨A, B, e, fun c hc => ⟨c, hc, _root_.le_refl _⟩, fun c hc => ⟨c, hc, _root_.le_refl _⟩⟩

theorem Moved.refl (key : α → K) (root : Nat) (s : Store α) (G : Ghost) : Moved key root (fun _ => False) (fun _ _ => False) s G s G :=
  ⟨Keeps.refl _ _, LeafKeeps.refl _ _ _ _, fun _ _ _ _ => rfl, Nat.le_refl _⟩

variable {key : α → K} {strict : Bool} {s t : Store α} {root : Nat} {G G' : Ghost} {KOK : α → Prop}
  {bad : Nat → Prop} {new : Nat → Nat → Prop}

theorem ne_root (W : Weak key strict s root G) {k b : Nat} (hk : k < G.h) (hb : b ∈ G.lv k) : b ≠ root := by
  rintro rfl
  have := W.uniq k G.h b (by omega) (Nat.le_refl _) hb (by rw [W.root]; simp)
  omega

/-- The first leaf under a page. -/
def firstLeaf (G : Ghost) : Nat → Nat → Nat
  | 0, b => b
  | k + 1, b => match G.fst b with
    | some c => firstLeaf G k c
    | none => b

theorem fst_some (W : Weak key strict s root G) {k b : Nat} (hk : k < G.h) (hb : b ∈ G.lv (k + 1)) :
    ∃ c fs, G.fst b = some c ∧ (G.kids b).flatten = c :: fs ∧ c ∈ G.lv k := by
  have hne := W.ne k hk b hb
  have hI := (W.inner k hk b hb).2
  cases hg : G.kids b with
  | nil => exact absurd hg hne
  | cons g gs =>
    have := hI.group_ne (g := g) (by rw [hg]; simp)
    cases g with
    | nil => exact absurd rfl this
    | cons c g =>
      refine ⟨c, g ++ gs.flatten, by simp [Ghost.fst, hg], by simp, ?_⟩
      exact kids_mem W.toThin hk hb (by rw [hg]; simp)

theorem under_head (W : Weak key strict s root G) (k : Nat) (hk : k ≤ G.h) (b : Nat) (hb : b ∈ G.lv k) :
    ∃ l, under G k b = firstLeaf G k b :: l := by
  induction k generalizing b with
  | zero => exact ⟨[], rfl⟩
  | succ k ih =>
    obtain ⟨c, fs, h1, h2, h3⟩ := fst_some W (by omega) hb
    obtain ⟨l, hl⟩ := ih (by omega) c h3
    refine ⟨l ++ fs.flatMap (under G k), ?_⟩
    rw [under, h2, List.flatMap_cons, hl, firstLeaf, h1]
    rfl

theorem firstLeaf_keeps (W : Weak key strict s root G) (hK : Keeps root bad new G G') (k : Nat) (hk : k < G.h) (b : Nat)
    (hb : b ∈ G.lv k) : firstLeaf G' k b = firstLeaf G k b := by
  induction k generalizing b with
  | zero => rfl
  | succ k ih =>
    obtain ⟨c, fs, h1, h2, h3⟩ := fst_some W (by omega) hb
    rw [firstLeaf, firstLeaf, hK.hd k (by omega) b hb (ne_root W hk hb), h1]
    exact ih (by omega) c h3

/-- In a list without duplicates, an element occurs at one place. -/
theorem split_unique {l A B A' B' : List Nat} {b : Nat} (hn : l.Nodup) (e : l = A ++ b :: B) (e' : l = A' ++ b :: B') : A = A' ∧ B = B' := by
  rw [e] at hn e'
  have h1 : b ∉ A := by
    rw [List.nodup_append] at hn
    exact fun h => hn.2.2 b h b (by simp) rfl
  have h2 : b ∉ B := by
    rw [List.nodup_append] at hn
    exact (List.nodup_cons.1 hn.2.1).1
  rcases List.append_eq_append_iff.1 e' with ⟨Z, hZ1, hZ2⟩ | ⟨Z, hZ1, hZ2⟩
  · cases Z with
    | nil => simp at hZ1 hZ2; exact ⟨hZ1.symm, hZ2⟩
    | cons z Z =>
      simp only [List.cons_append, List.cons.injEq] at hZ2
      obtain ⟨rfl, hZ2⟩ := hZ2
      exact absurd (by rw [hZ2]; simp) h2
  · cases Z with
    | nil => simp at hZ1 hZ2; exact ⟨hZ1, hZ2.symm⟩
    | cons z Z =>
      simp only [List.cons_append, List.cons.injEq] at hZ2
      obtain ⟨rfl, hZ2⟩ := hZ2
      exact absurd (by rw [hZ1]; simp) h1

theorem notLeft_moved (W : Weak key strict s root G) (W' : Weak key strict t root G') (hM : Moved key root bad new s G t G') {k : Nat}
    (hk : k < G.h) {A B : List Nat} {b : Nat} (e : G.lv k = A ++ b :: B) {x : α} (hA : NotLeft key s G k A x) :
    ∃ A' B', G'.lv k = A' ++ b :: B' ∧ NotLeft key t G' k A' x := by
  have hb : b ∈ G.lv k := by rw [e]; simp
  have hbr := ne_root W hk hb
  have hb' := hM.keeps.mem k (by omega) b hb hbr
  have hk' : k < G'.h := Nat.lt_of_lt_of_le hk hM.keeps.h
  obtain ⟨A', B', e'⟩ := List.append_of_mem hb'
  refine ⟨A', B', e', ?_⟩
  obtain ⟨l, hl⟩ := under_head W k (by omega) b hb
  obtain ⟨l', hl'⟩ := under_head W' k (by omega) b hb'
  have h0 := leaves_eq W.toThin k (by omega)
  have h0' := leaves_eq W'.toThin k (by omega)
  rw [e, List.flatMap_append, List.flatMap_cons, hl, List.cons_append] at h0
  rw [e', List.flatMap_append, List.flatMap_cons, hl', firstLeaf_keeps W hM.keeps k hk b hb, List.cons_append] at h0'
  have hf : firstLeaf G k b ≠ root := ne_root W (k := 0) (by omega) (by rw [h0]; simp)
  obtain ⟨A0, B0, e0, h1, -⟩ := hM.leaf _ _ _ hf h0
  obtain ⟨rfl, -⟩ := split_unique (W'.nodup 0 (by omega)) h0' e0
  intro c hc
  obtain ⟨d, hd, hle⟩ := h1 c hc
  exact hle.trans_lt (hA d hd)

theorem LinkOK.moved (W : Weak key strict s root G) (hM : Moved key root bad new s G t G') {k : Nat} {w : Pending α}
    (h : LinkOK key KOK s G k w) (hb : ¬ bad w.child) : LinkOK key KOK t G' k w := by
  have hr := ne_root W h.lt h.mem
  exact ⟨Nat.lt_of_lt_of_le h.lt hM.keeps.h, hM.keeps.mem k (by have := h.lt; omega) _ h.mem hr, hM.keeps.adj _ _ hr hb h.adj,
    (hM.hi _ (W.alloc k (by have := h.lt; omega) _ h.mem).1 hb hr).trans h.hi, h.kok⟩

theorem LevelOK.moved {C : Prop} (W : Weak key strict s root G) (hM : Moved key root bad new s G t G') {k j child p : Nat} {lm : Option Nat}
    (hj : j < G.h) (hp : p ∈ G.lv j) (h : LevelOK C G k j child p lm) : LevelOK C G' k j child p lm := by
  refine ⟨h.le, ?_, ?_⟩
  · rcases h.lm with ⟨h1, h2⟩ | ⟨q, j', h1, h2, h3⟩
    · exact Or.inl ⟨h1, by rw [hM.keeps.lhead j hj]; exact h2⟩
    · exact Or.inr ⟨q, j', h1, h2, by rw [hM.keeps.lhead j' (by omega)]; exact h3⟩
  · intro c e
    obtain ⟨P, A, B, h1, h2, h3⟩ := h.ord c e
    obtain ⟨P', A', B', h4, h5, h6⟩ := hM.keeps.ord k child P A p B (by omega) h1 (ne_root W hj hp) h2 h3
    exact ⟨P', A', B', h4, h5, h6⟩

/-- The other backends are not disturbed. -/
theorem ThreadOK.moved {C : Prop} (W : Weak key strict s root G) (W' : Weak key strict t root G') (hM : Moved key root bad new s G t G')
    {th : Thread α} (h : ThreadOK C key KOK root s G th) (hb : ∀ w, pending th = some w → ¬ bad w.child) :
    ThreadOK C key KOK root t G' th := by
  cases th with
  | ins batch b up =>
    cases batch with
    | nil => exact h
    | cons x xs =>
      rcases h with h | ⟨k, A, B, hk, e, hA, hup⟩
      · exact Or.inl h
      · obtain ⟨A', B', e', hA'⟩ := notLeft_moved W W' hM hk e hA
        exact Or.inr ⟨k, A', B', Nat.lt_of_lt_of_le hk hM.keeps.h, e', hA', hM.keeps.path k up hk hup⟩
  | walk w p off up =>
    obtain ⟨k, h1, h2⟩ := h
    exact ⟨k, h1.moved W hM (hb w rfl), hM.keeps.path k _ h1.lt h2⟩
  | top w =>
    obtain ⟨k, h1⟩ := h
    exact ⟨k, h1.moved W hM (hb w rfl)⟩
  | level w p lm =>
    obtain ⟨k, j, h1, h2, h3, h4⟩ := h
    exact ⟨k, j, h1.moved W hM (hb w rfl), Nat.lt_of_lt_of_le h2 hM.keeps.h,
      hM.keeps.mem j (by omega) p h3 (ne_root W h2 h3), h4.moved W hM h2 h3⟩
  | _ => trivial

end Rum.Tree

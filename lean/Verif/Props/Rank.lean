import Verif.Rank
import Verif.Props.FullText
import Mathlib.Data.List.Forall2
/-!
# C41: relevance computed from the index equals relevance computed from the document
-/
namespace Rum.Props.Rank
open Rum Rum.Codec Rum.Pos Rum.Ts Rum.FullText Rum.Rank Rum.Props.FullText Std

variable {L F : Type}

/-! ### Specification -/

/-- What the index tells the distance function about the entries of a query: for each whether the document has the word, and the stored positions. -/
def Told (attr : Attr) (v : TsVector L) (ops : List (Opnd L)) (vw : List (Option (Option Datum))) : Prop :=
  List.Forall₂ (fun p x => match x with
    | none => ∀ w ∈ v, w.1 ≠ p.lex
    | some i => ∃ w ∈ v, w.1 = p.lex ∧ i = w.2.map (fun ps => Datum.stored attr (.varlena .full (compressPos 0 ps)))) ops vw

/-- qsort by position: a permutation that depends on nothing but the positions. -/
def SortsByPos (sort : List DocR → List DocR) : Prop :=
  ∃ perm : List Nat → List Nat, ∀ l : List DocR, sort l = (perm (l.map (·.pos))).filterMap (fun i => l[i]?) ∧
    (perm (l.map (·.pos))).Perm (List.range l.length) ∧ (sort l).Pairwise (fun a b => a.pos ≤ b.pos)

/-- The query has no phrase operator. -/
def NoPhrase {O : Type} : Query O → Prop
  | .val _ _ => True
  | .not q => NoPhrase q
  | .and l r | .or l r => NoPhrase l ∧ NoPhrase r
  | .phrase _ _ _ => False

/-- The hash of a cover tells the covers of a document apart: equal only for the same sequence of words. -/
def HashTells (idx : Bool) (q : Query Nat) (doc : List DocR) : Prop :=
  ∀ c ∈ covers idx q doc (doc.length + 1) 0, ∀ d ∈ covers idx q doc (doc.length + 1) 0,
    coverKey (c.elems doc) = coverKey (d.elems doc) → (c.elems doc).map (·.slots) = (d.elems doc).map (·.slots)

/-! ### Proof apparatus -/

/-- An occurrence of operand number `i` of the query at a position. -/
structure Tok where
  i : Nat
  pos : Nat
  wclass : Nat

def toH (h : Nat → Nat) (t : Tok) : DocR := ⟨[t.i], h t.i, t.pos, t.wclass⟩
def toI (key : Nat → Nat) (g : Nat → Nat) (t : Tok) : DocR := ⟨[key t.i], g t.i, t.pos, t.wclass⟩

/-- The two contents of `operandData` say the same. -/
structure Rel (S : Nat → Prop) (key : Nat → Nat) (x y : Data) : Prop where
  same : ∀ i, S i → (x i).isSome = (y (key i)).isSome
  left : ∀ i, (x i).isSome = true → S i
  right : ∀ k, (y k).isSome = true → ∃ i, S i ∧ key i = k

section
variable {S : Nat → Prop} {key : Nat → Nat} {h g : Nat → Nat} (hinj : ∀ i j, S i → S j → key i = key j → i = j)
include hinj

theorem rel_both {x y : Data} (hr : Rel S key x y) {t : Tok} (ht : S t.i) : Rel S key (setBoth (toH h t) x) (setBoth (toI key g t) y) where
  same := fun i hi => by
    unfold setBoth toH toI
    simp only [List.mem_singleton]
    by_cases e : i = t.i
    · rw [if_pos e, if_pos (by rw [e])]
    · rw [if_neg e, if_neg (fun e' => e (hinj _ _ hi ht e'))]; exact hr.same i hi
  left := fun i hi => by
    unfold setBoth toH at hi
    simp only [List.mem_singleton] at hi
    by_cases e : i = t.i
    · rw [e]; exact ht
    · rw [if_neg e] at hi; exact hr.left i hi
  right := fun k hk => by
    unfold setBoth toI at hk
    simp only [List.mem_singleton] at hk
    by_cases e : k = key t.i
    · exact ⟨t.i, ht, e.symm⟩
    · rw [if_neg e] at hk; exact hr.right k hk

theorem rel_low {x y : Data} (hr : Rel S key x y) {t : Tok} (ht : S t.i) : Rel S key (setLow false (toH h t) x) (setLow true (toI key g t) y) := by
  have := rel_both (h := h) (g := g) hinj hr ht
  have e : ∀ k, (setLow true (toI key g t) y k).isSome = (setBoth (toI key g t) y k).isSome := by
    intro k
    unfold setLow setBoth
    simp only [if_true]
    split <;> rfl
  exact ⟨fun i hi => by rw [e]; exact this.same i hi, this.left, fun k hk => this.right k (by rw [← e]; exact hk)⟩

end

theorem rel_none (S : Nat → Prop) (key : Nat → Nat) : Rel S key noData noData :=
  ⟨fun _ _ => rfl, fun _ h => (by cases h), fun _ h => (by cases h)⟩

/-- The operand at a place of the item array. -/
def opAt {O : Type} (all : List (Option O)) (i : Nat) : Option O := (all[i]?).join

theorem opAt_eq {O : Type} {all : List (Option O)} {i : Nat} {o : O} : opAt all i = some o ↔ all[i]? = some (some o) := by
  unfold opAt
  cases h : all[i]? with
  | none => simp
  | some x => simp

/-- Both forms of a query without phrases are evaluated alike. -/
theorem exec_same {cmpL : L → L → Ordering} {ops : List (Opnd L)} {all : List (Option (Opnd L))} {S : Nat → Prop} {key : Nat → Nat} (sk : Bool)
    (hS : ∀ i o, all[i]? = some (some o) → S i ∧ key i = (mapItem cmpL ops o).getD 0) {x y : Data} (hr : Rel S key x y) (q : Query (Opnd L)) :
    ∀ n, NoPhrase q → (∀ j, j < (items q).length → all[n + j]? = (items q)[j]?) → coreExec sk x (numbered n q) = coreExec sk y (keyed cmpL ops q) := by
  induction q with
  | val o w =>
    intro n _ hn
    have h0 := hn 0 (by simp [items])
    simp only [items, List.getElem?_cons_zero, Nat.add_zero] at h0
    obtain ⟨h1, h2⟩ := hS n o h0
    simp only [numbered, keyed, coreExec]
    rw [hr.same n h1, h2]
  | not q ih =>
    intro n hp hn
    simp only [numbered, keyed, coreExec]
    rw [ih (n + 1) hp]
    intro j hj
    have := hn (j + 1) (by simp [items]; omega)
    simp only [items, List.getElem?_cons_succ] at this
    rw [← this]; congr 1; omega
  | and l r ihl ihr | or l r ihl ihr =>
    intro n hp hn
    simp only [numbered, keyed, coreExec]
    rw [ihl _ hp.1, ihr _ hp.2]
    · intro j hj
      have := hn (j + 1) (by simp [items]; omega)
      simp only [items, List.getElem?_cons_succ] at this
      rw [List.getElem?_append_left hj] at this
      rw [← this]; congr 1; omega
    · intro j hj
      have := hn (j + 1 + (items r).length) (by simp [items]; omega)
      rw [show j + 1 + (items r).length = (j + (items r).length) + 1 by omega] at this
      simp only [items, List.getElem?_cons_succ] at this
      rw [List.getElem?_append_right (by omega)] at this
      rw [show j + (items r).length - (items r).length = j by omega] at this
      rw [← this]; congr 1; omega
  | phrase d l r _ _ => intro n hp; cases hp

section
variable {S : Nat → Prop} {key : Nat → Nat} {h g : Nat → Nat} {Q Q' : Query Nat}
  (hex : ∀ sk x y, Rel S key x y → coreExec sk x Q = coreExec sk y Q') (hinj : ∀ i j, S i → S j → key i = key j → i = j)
include hex hinj

theorem upper_same (T : List Tok) : ∀ x y, Rel S key x y → (∀ t ∈ T, S t.i) → upper Q x (T.map (toH h)) = upper Q' y (T.map (toI key g)) := by
  induction T with
  | nil => intro x y _ _; rfl
  | cons t T ih =>
    intro x y hr hT
    have h1 := rel_both (h := h) (g := g) hinj hr (hT t (by simp))
    simp only [List.map_cons, upper]
    rw [hex true _ _ h1, ih _ _ h1 (fun u hu => hT u (by simp [hu]))]

theorem lower_same (T : List Tok) : ∀ x y, Rel S key x y → (∀ t ∈ T, S t.i) →
    (lower false Q x (T.map (toH h)) = none ∧ lower true Q' y (T.map (toI key g)) = none) ∨
    ∃ i x' y', lower false Q x (T.map (toH h)) = some (i, x') ∧ lower true Q' y (T.map (toI key g)) = some (i, y') ∧ Rel S key x' y' := by
  induction T with
  | nil => intro x y _ _; exact Or.inl ⟨rfl, rfl⟩
  | cons t T ih =>
    intro x y hr hT
    have h1 := rel_low (h := h) (g := g) hinj hr (hT t (by simp))
    simp only [List.map_cons, lower]
    rw [← hex false _ _ h1]
    by_cases hc : coreExec false (setLow false (toH h t) x) Q = true
    · rw [if_pos hc, if_pos hc]
      exact Or.inr ⟨0, _, _, rfl, rfl, h1⟩
    · rw [if_neg hc, if_neg hc]
      rcases ih _ _ h1 (fun u hu => hT u (by simp [hu])) with ⟨a, b⟩ | ⟨i, x', y', a, b, c⟩
      · rw [a, b]; exact Or.inl ⟨rfl, rfl⟩
      · rw [a, b]; exact Or.inr ⟨i + 1, x', y', rfl, rfl, c⟩

/-- Two covers of the two arrays that are the same. -/
def SameCover (S : Nat → Prop) (key : Nat → Nat) (c d : Cover) : Prop := c.first = d.first ∧ c.last = d.last ∧ Rel S key c.data d.data

theorem cover_same (T : List Tok) (hT : ∀ t ∈ T, S t.i) : ∀ n pos,
    (cover false Q (T.map (toH h)) n pos = none ∧ cover true Q' (T.map (toI key g)) n pos = none) ∨
    ∃ c d, cover false Q (T.map (toH h)) n pos = some c ∧ cover true Q' (T.map (toI key g)) n pos = some d ∧ SameCover S key c d := by
  intro n
  induction n with
  | zero => intro pos; exact Or.inl ⟨rfl, rfl⟩
  | succ n ih =>
    intro pos
    have hu := upper_same (h := h) (g := g) hex hinj (T.drop pos) noData noData (rel_none S key) (fun t ht => hT t (List.drop_subset _ _ ht))
    simp only [List.map_drop] at hu
    unfold cover
    rw [← hu]
    cases hup : upper Q noData ((T.map (toH h)).drop pos) with
    | none => exact Or.inl ⟨rfl, rfl⟩
    | some j =>
      simp only [List.getElem?_map]
      cases hT1 : T[pos + j]? with
      | none => exact Or.inl ⟨rfl, rfl⟩
      | some e =>
        simp only [Option.map_some]
        have hp : (toH h e).pos = (toI key g e).pos := rfl
        rw [← hp]
        by_cases h0 : (toH h e).pos > 0
        · rw [if_pos h0, if_pos h0]
          have hl := lower_same (h := h) (g := g) hex hinj ((T.drop pos).take (j + 1)).reverse noData noData (rel_none S key) (fun t ht =>
            hT t (List.drop_subset _ _ (List.take_subset _ _ (List.mem_reverse.1 ht))))
          simp only [List.map_reverse, List.map_take, List.map_drop] at hl
          rcases hl with ⟨a, b⟩ | ⟨i, x', y', a, b, c⟩
          · rw [a, b]; exact ih (pos + 1)
          · rw [a, b]
            simp only
            cases hT2 : T[pos + j - i]? with
            | none => exact Or.inl ⟨rfl, rfl⟩
            | some f =>
              simp only [Option.map_some]
              have hq : (toH h f).pos = (toI key g f).pos := rfl
              rw [← hq]
              by_cases h1 : (toH h f).pos ≤ (toH h e).pos
              · rw [if_pos h1, if_pos h1]
                exact Or.inr ⟨_, _, rfl, rfl, rfl, rfl, c⟩
              · rw [if_neg h1, if_neg h1]; exact ih (pos + 1)
        · rw [if_neg h0, if_neg h0]; exact Or.inl ⟨rfl, rfl⟩

theorem covers_same (T : List Tok) (hT : ∀ t ∈ T, S t.i) : ∀ n pos,
    List.Forall₂ (SameCover S key) (covers false Q (T.map (toH h)) n pos) (covers true Q' (T.map (toI key g)) n pos) := by
  intro n
  induction n with
  | zero => intro pos; exact .nil
  | succ n ih =>
    intro pos
    unfold covers
    rw [List.length_map, List.length_map]
    rcases cover_same (h := h) (g := g) hex hinj T hT (T.length + 1) pos with ⟨a, b⟩ | ⟨c, d, a, b, e⟩
    · rw [a, b]; exact .nil
    · rw [a, b]
      simp only
      rw [show d.first = c.first from e.1.symm]
      exact .cons e (ih _)
end

theorem elems_map (f : Tok → DocR) (T : List Tok) (c : Cover) :
    c.elems (T.map f) = ((T.drop c.first).take (c.last + 1 - c.first)).map f := by
  unfold Cover.elems
  rw [← List.map_drop, ← List.map_take]

/-! #### Groups -/

theorem addCover_same (o : Floats F) {K : List (Nat × Nat)} (hK : ∀ a ∈ K, ∀ b ∈ K, a.1 = b.1 ↔ a.2 = b.2) (a b : Nat) (hab : (a, b) ∈ K) (r : F)
    (gs hs : List (CoverGroup F)) (hf : List.Forall₂ (fun u v => (u.key, v.key) ∈ K ∧ u.count = v.count ∧ u.rank = v.rank) gs hs) :
    List.Forall₂ (fun u v => (u.key, v.key) ∈ K ∧ u.count = v.count ∧ u.rank = v.rank) (addCover o a r gs) (addCover o b r hs) := by
  induction hf with
  | nil => exact .cons ⟨hab, rfl, rfl⟩ .nil
  | @cons u v gs hs h1 h2 ih =>
    simp only [addCover]
    have := hK _ h1.1 _ hab
    by_cases hc : u.key = a
    · rw [if_pos hc, if_pos (this.1 hc), h1.2.1, h1.2.2]
      exact .cons ⟨hab, rfl, rfl⟩ h2
    · rw [if_neg hc, if_neg (fun e => hc (this.2 e))]
      exact .cons h1 ih

theorem groups_same (o : Floats F) {K : List (Nat × Nat)} (hK : ∀ a ∈ K, ∀ b ∈ K, a.1 = b.1 ↔ a.2 = b.2) {cs ds : List Cover} {k1 k2 : Cover → Nat}
    {r1 r2 : Cover → F} (hf : List.Forall₂ (fun c d => (k1 c, k2 d) ∈ K ∧ r1 c = r2 d) cs ds) : ∀ gs hs : List (CoverGroup F),
    List.Forall₂ (fun u v => (u.key, v.key) ∈ K ∧ u.count = v.count ∧ u.rank = v.rank) gs hs →
    List.Forall₂ (fun u v => (u.key, v.key) ∈ K ∧ u.count = v.count ∧ u.rank = v.rank)
      (cs.foldl (fun gs c => addCover o (k1 c) (r1 c) gs) gs) (ds.foldl (fun gs d => addCover o (k2 d) (r2 d) gs) hs) := by
  induction hf with
  | nil => intro gs hs h; exact h
  | cons h1 _ ih =>
    intro gs hs h
    simp only [List.foldl_cons]
    rw [h1.2]
    exact ih _ _ (addCover_same o hK _ _ h1.1 _ _ _ h)

theorem sum_same (o : Floats F) {K : List (Nat × Nat)} {gs hs : List (CoverGroup F)}
    (hf : List.Forall₂ (fun u v => (u.key, v.key) ∈ K ∧ u.count = v.count ∧ u.rank = v.rank) gs hs) :
    ∀ z, gs.foldl (fun s g => o.add s g.rank) z = hs.foldl (fun s g => o.add s g.rank) z := by
  induction hf with
  | nil => intro z; rfl
  | cons h1 _ ih => intro z; simp only [List.foldl_cons]; rw [h1.2.2]; exact ih _

theorem count_same {S : Nat → Prop} {key : Nat → Nat} (hinj : ∀ i j, S i → S j → key i = key j → i = j) {n m : Nat} (hn : ∀ i, S i → i < n)
    (hm : ∀ i, S i → key i < m) {x y : Data} (hr : Rel S key x y) :
    ((List.range n).filter (fun s => (x s).isSome)).length = ((List.range m).filter (fun s => (y s).isSome)).length := by
  have hp : (((List.range n).filter (fun s => (x s).isSome)).map key).Perm ((List.range m).filter (fun s => (y s).isSome)) := by
    rw [List.perm_ext_iff_of_nodup]
    · intro k
      simp only [List.mem_map, List.mem_filter, List.mem_range]
      constructor
      · rintro ⟨i, ⟨_, hi⟩, rfl⟩
        have := hr.left i hi
        exact ⟨hm i this, by rw [← hr.same i this]; exact hi⟩
      · rintro ⟨_, hk⟩
        obtain ⟨i, hi, rfl⟩ := hr.right k hk
        exact ⟨i, ⟨hn i hi, by rw [hr.same i hi]; exact hk⟩, rfl⟩
    · refine List.Nodup.map_on ?_ (List.Nodup.filter _ List.nodup_range)
      intro i hi j hj e
      exact hinj i j (hr.left i (List.mem_filter.1 hi).2) (hr.left j (List.mem_filter.1 hj).2) e
    · exact List.Nodup.filter _ List.nodup_range
  rw [← hp.length_eq, List.length_map]

/-- The same occurrences of words give the same score. -/
theorem scoreDocr_same (o : Floats F) {S : Nat → Prop} {key h g : Nat → Nat} {Q Q' : Query Nat} {n m : Nat}
    (hex : ∀ sk x y, Rel S key x y → coreExec sk x Q = coreExec sk y Q') (hinj : ∀ i j, S i → S j → key i = key j → i = j)
    (hn : ∀ i, S i → i < n) (hm : ∀ i, S i → key i < m) (T : List Tok) (hT : ∀ t ∈ T, S t.i)
    (h1 : HashTells false Q (T.map (toH h))) (h2 : HashTells true Q' (T.map (toI key g))) :
    scoreDocr o false Q n (T.map (toH h)) = scoreDocr o true Q' m (T.map (toI key g)) := by
  have hcov := covers_same (h := h) (g := g) hex hinj T hT (T.length + 1) 0
  unfold scoreDocr
  unfold HashTells at h1 h2
  simp only [List.length_map] at h1 h2 ⊢
  generalize hA : covers false Q (T.map (toH h)) (T.length + 1) 0 = cs at hcov h1
  generalize hB : covers true Q' (T.map (toI key g)) (T.length + 1) 0 = ds at hcov h2
  -- the elements of a cover are the same occurrences
  have hE : ∀ c d, SameCover S key c d → ∃ U : List Tok, (∀ t ∈ U, S t.i) ∧ c.elems (T.map (toH h)) = U.map (toH h) ∧ d.elems (T.map (toI key g)) = U.map (toI key g) := by
    intro c d hcd
    refine ⟨(T.drop c.first).take (c.last + 1 - c.first), ?_, elems_map _ _ _, ?_⟩
    · intro t ht; exact hT t (List.drop_subset _ _ (List.take_subset _ _ ht))
    · rw [elems_map, hcd.1, hcd.2.1]
  -- equal sequences of words have equal hashes
  have hkH : ∀ U W : List Tok, U.map (·.i) = W.map (·.i) → coverKey (U.map (toH h)) = coverKey (W.map (toH h)) := by
    intro U W e
    unfold coverKey
    have : ∀ U : List Tok, ∀ z, (U.map (toH h)).foldl (fun k d => (2 * k + d.ptr) % 2 ^ 32) z = (U.map (·.i)).foldl (fun k i => (2 * k + h i) % 2 ^ 32) z := by
      intro U; induction U with
      | nil => intro z; rfl
      | cons u U ih => intro z; simp only [List.map_cons, List.foldl_cons]; exact ih _
    rw [this, this, e]
  have hkI : ∀ U W : List Tok, U.map (·.i) = W.map (·.i) → coverKey (U.map (toI key g)) = coverKey (W.map (toI key g)) := by
    intro U W e
    unfold coverKey
    have : ∀ U : List Tok, ∀ z, (U.map (toI key g)).foldl (fun k d => (2 * k + d.ptr) % 2 ^ 32) z = (U.map (·.i)).foldl (fun k i => (2 * k + g i) % 2 ^ 32) z := by
      intro U; induction U with
      | nil => intro z; rfl
      | cons u U ih => intro z; simp only [List.map_cons, List.foldl_cons]; exact ih _
    rw [this, this, e]
  have hsH : ∀ U W : List Tok, (U.map (toH h)).map (·.slots) = (W.map (toH h)).map (·.slots) → U.map (·.i) = W.map (·.i) := by
    intro U W e
    have := congrArg (fun l => l.map (fun s : List Nat => s.headD 0)) e
    simpa [Function.comp_def, toH] using this
  have hsI : ∀ U W : List Tok, (∀ t ∈ U, S t.i) → (∀ t ∈ W, S t.i) →
      (U.map (toI key g)).map (·.slots) = (W.map (toI key g)).map (·.slots) → U.map (·.i) = W.map (·.i) := by
    intro U
    induction U with
    | nil => intro W _ _ e; cases W with
      | nil => rfl
      | cons w W => simp at e
    | cons u U ih =>
      intro W hU hW e
      cases W with
      | nil => simp at e
      | cons w W =>
        simp only [List.map_cons, toI, List.cons.injEq, and_true] at e ⊢
        exact ⟨hinj _ _ (hU u (by simp)) (hW w (by simp)) e.1, ih W (fun t ht => hU t (by simp [ht])) (fun t ht => hW t (by simp [ht])) e.2⟩
  let K := (cs.zip ds).map (fun p => (coverKey (p.1.elems (T.map (toH h))), coverKey (p.2.elems (T.map (toI key g)))))
  have hzip : ∀ p ∈ cs.zip ds, SameCover S key p.1 p.2 ∧ p.1 ∈ cs ∧ p.2 ∈ ds := fun p hp =>
    ⟨List.forall₂_zip hcov hp, (List.of_mem_zip hp).1, (List.of_mem_zip hp).2⟩
  have hK : ∀ a ∈ K, ∀ b ∈ K, a.1 = b.1 ↔ a.2 = b.2 := by
    intro a ha b hb
    obtain ⟨p, hp, rfl⟩ := List.mem_map.1 ha
    obtain ⟨r, hr, rfl⟩ := List.mem_map.1 hb
    obtain ⟨p1, p2, p3⟩ := hzip p hp
    obtain ⟨r1, r2, r3⟩ := hzip r hr
    obtain ⟨U, u1, u2, u3⟩ := hE _ _ p1
    obtain ⟨W, w1, w2, w3⟩ := hE _ _ r1
    constructor
    · intro e
      have := h1 _ p2 _ r2 e
      rw [u2, w2] at this
      show coverKey _ = coverKey _
      rw [u3, w3]
      exact hkI _ _ (hsH _ _ this)
    · intro e
      have := h2 _ p3 _ r3 e
      rw [u3, w3] at this
      show coverKey _ = coverKey _
      rw [u2, w2]
      exact hkH _ _ (hsI _ _ u1 w1 this)
  have hF : List.Forall₂ (fun c d => (coverKey (c.elems (T.map (toH h))), coverKey (d.elems (T.map (toI key g)))) ∈ K ∧
      coverRank o n c (c.elems (T.map (toH h))) = coverRank o m d (d.elems (T.map (toI key g)))) cs ds := by
    rw [List.forall₂_iff_zip]
    refine ⟨hcov.length_eq, fun {c d} hcd => ⟨List.mem_map.2 ⟨(c, d), hcd, rfl⟩, ?_⟩⟩
    obtain ⟨p1, -, -⟩ := hzip _ hcd
    obtain ⟨U, u1, u2, u3⟩ := hE _ _ p1
    rw [u2, u3]
    unfold coverRank
    have e1 : ∀ z, (U.map (toH h)).foldl (fun s d => o.add s (o.weight d.wclass)) z = (U.map (toI key g)).foldl (fun s d => o.add s (o.weight d.wclass)) z := by
      clear u1 u2 u3
      induction U with
      | nil => intro z; rfl
      | cons u U ih => intro z; simp only [List.map_cons, List.foldl_cons]; exact ih _
    have e2 := count_same hinj hn hm p1.2.2
    have e3 : ((U.map (toH h)).head?.map (·.pos)) = ((U.map (toI key g)).head?.map (·.pos)) := by
      cases U <;> rfl
    have e4 : ((U.map (toH h)).getLast?.map (·.pos)) = ((U.map (toI key g)).getLast?.map (·.pos)) := by
      simp only [List.getLast?_map, Option.map_map]; rfl
    simp only [List.length_map]
    rw [e1, e2, e3, e4]
  have hG := groups_same o hK hF [] [] .nil
  rw [sum_same o hG]

/-! #### The two loops over the query -/

section
variable [DecidableEq L]

/-- The positions of the word of an operand. -/
def wordPos (v : TsVector L) (o : Opnd L) : List Nat := ((v.find? (fun w => w.1 = o.lex)).bind (·.2)).getD []

/-- The occurrences of the words of the items from number `i` on. -/
def toks (v : TsVector L) : Nat → List (Option (Opnd L)) → List Tok
  | _, [] => []
  | i, none :: its => toks v (i + 1) its
  | i, some o :: its => (wordPos v o).map (fun x => ⟨i, wepPos x, wepWeight x⟩) ++ toks v (i + 1) its

/-- Number of arrays allocated before item `i`. -/
def allocAt (v : TsVector L) (all : List (Option (Opnd L))) (i : Nat) : Nat :=
  ((all.take i).filter (fun x => (x.map (fun o => (v.find? (fun w => w.1 = o.lex)).isSome)).getD false)).length

theorem allocAt_succ (v : TsVector L) (all : List (Option (Opnd L))) (i : Nat) (x : Option (Opnd L)) (h : all[i]? = some x) :
    allocAt v all (i + 1) = allocAt v all i + (if (x.map (fun o => (v.find? (fun w => w.1 = o.lex)).isSome)).getD false = true then 1 else 0) := by
  unfold allocAt
  rw [List.take_add_one, h, List.filter_append, List.length_append]
  congr 1
  simp only [Option.toList_some, List.filter_cons, List.filter_nil]
  split <;> rfl

theorem toks_mem (v : TsVector L) (all : List (Option (Opnd L))) : ∀ (its : List (Option (Opnd L))) (i : Nat), its = all.drop i →
    ∀ t ∈ toks v i its, ∃ o, all[t.i]? = some (some o) := by
  intro its
  induction its with
  | nil => intro i _ t ht; simp [toks] at ht
  | cons a its ih =>
    intro i he t ht
    have hi : all[i]? = some a := by
      have := congrArg List.head? he
      simpa using this.symm
    have hd : its = all.drop (i + 1) := by
      have := congrArg List.tail he
      simpa using this
    cases a with
    | none => exact ih (i + 1) hd t ht
    | some o =>
      simp only [toks, List.mem_append, List.mem_map] at ht
      rcases ht with ⟨x, -, rfl⟩ | ht
      · exact ⟨o, hi⟩
      · exact ih (i + 1) hd t ht

/-- A word found is the only one with its lexeme. -/
theorem filter_word {P : Nat} {v : TsVector L} (hv : VecOK P v) (x : L) : v.filter (fun w => w.1 = x) = (v.find? (fun w => w.1 = x)).toList := by
  have hw := hv.words
  clear hv
  induction v with
  | nil => rfl
  | cons a v ih =>
    simp only [List.map_cons, List.nodup_cons] at hw
    rw [List.filter_cons, List.find?_cons]
    by_cases h : a.1 = x
    · simp only [h, decide_true, if_true]
      rw [List.filter_eq_nil_iff.2]
      · rfl
      · intro b hb hbx
        exact hw.1 (List.mem_map.2 ⟨b, hb, by simpa [h] using hbx⟩)
    · simp only [h, decide_false, Bool.false_eq_true, if_false]
      exact ih hw.2

variable {cmpL : L → L → Ordering} [LawfulEqCmp cmpL]

theorem docLoop_toks {P : Nat} {v : TsVector L} (hv : VecOK P v) (begins : L → L → Bool) (addr : Nat → Nat) {all : List (Option (Opnd L))}
    (hd : ∀ (i j : Nat) (o p : Opnd L), all[i]? = some (some o) → all[j]? = some (some p) → o.lex = p.lex → i = j) (hpre : ∀ (i : Nat) (o : Opnd L), all[i]? = some (some o) → o.pre = false)
    (hpos : ∀ w ∈ v, ∀ (i : Nat) (o : Opnd L), all[i]? = some (some o) → w.1 = o.lex → w.2 ≠ none) :
    ∀ (its : List (Option (Opnd L))) (i : Nat) (seen : List Nat), its = all.drop i → (∀ s ∈ seen, s < i) →
      docLoop cmpL begins addr v all i seen (allocAt v all i) its = (toks v i its).map (toH (fun i => addr (allocAt v all i))) := by
  intro its
  induction its with
  | nil => intro i seen _ _; rfl
  | cons a its ih =>
    intro i seen he hs
    have hi : all[i]? = some a := by
      have := congrArg List.head? he
      simpa using this.symm
    have hdr : its = all.drop (i + 1) := by
      have := congrArg List.tail he
      simpa using this
    have hA := allocAt_succ v all i a hi
    cases a with
    | none =>
      simp only [docLoop, toks]
      rw [← ih (i + 1) seen hdr (fun s h => by have := hs s h; omega), hA]
      rfl
    | some o =>
      simp only [docLoop, toks]
      rw [if_neg (fun h => by have := hs i h; omega)]
      have hes : wordEntries begins v o = (v.find? (fun w => w.1 = o.lex)).toList := by
        unfold wordEntries
        rw [hpre i o hi]
        simp only [Bool.false_eq_true, if_false]
        exact filter_word hv o.lex
      have hsl : sameItems cmpL all i o = [i] := by
        unfold sameItems
        have hlt : i < all.length := (List.getElem?_eq_some_iff.1 hi).1
        have hiff : ∀ k, (k = i ∨ ((all[k]?).join.map (fun p => cmpOpnd cmpL p o == .eq)).getD false = true) ↔ k = i := by
          intro k
          refine ⟨fun h => ?_, Or.inl⟩
          rcases h with h | h
          · exact h
          · cases hk : (all[k]?).join with
            | none => rw [hk] at h; cases h
            | some p =>
              rw [hk] at h
              have h' : cmpOpnd cmpL p o = .eq := by simpa using h
              exact hd k i p o (opAt_eq.1 hk) hi (LawfulEqCmp.eq_of_compare (cmp := cmpL) h')
        simp only [hiff]
        have : ∀ n, i < n → (List.range n).filter (fun k => decide (k = i)) = [i] := by
          intro n hn
          rw [List.filter_eq, List.count_eq_one_of_mem List.nodup_range (List.mem_range.2 hn)]
          rfl
        exact this _ hlt
      rw [hes, hsl, List.map_append]
      cases hf : v.find? (fun w => w.1 = o.lex) with
      | none =>
        rw [Option.map_some, hf] at hA
        simp only [Option.toList_none, List.zipIdx_nil, List.flatMap_nil, List.nil_append, List.isEmpty_nil, if_true, List.length_nil, Nat.add_zero]
        simp only [wordPos, hf, Option.bind_none, Option.getD_none, List.map_nil, List.nil_append]
        rw [← ih (i + 1) seen hdr (fun s h => by have := hs s h; omega), hA]
        rfl
      | some w =>
        rw [Option.map_some, hf] at hA
        have hw1 : w.1 = o.lex := by simpa using List.find?_some hf
        have hw2 := List.mem_of_find?_eq_some hf
        obtain ⟨ps, hps⟩ := Option.ne_none_iff_exists'.1 (hpos w hw2 i o hi hw1)
        simp only [Option.toList_some, List.zipIdx_cons, List.zipIdx_nil, List.flatMap_cons, List.flatMap_nil, List.append_nil, List.isEmpty_cons,
          Bool.false_eq_true, if_false, List.length_singleton, List.cons_append, List.nil_append]
        simp only [wordPos, hf, Option.bind_some, hps, Option.getD_some, List.map_map]
        congr 1
        rw [← ih (i + 1) (i :: seen) hdr (fun s h => by
          rcases List.mem_cons.1 h with rfl | h
          · omega
          · have := hs s h; omega), hA]
        rfl

omit [DecidableEq L] in
theorem storedPos_ok {P : Nat} {v : TsVector L} (hv : VecOK P v) (attr : Attr) {w : L × Option (List Nat)} (hw : w ∈ v) {ps : List Nat} (hps : w.2 = some ps) :
    storedPos (dataBytes (Datum.stored attr (.varlena .full (compressPos 0 ps)))) = ps := by
  have h1 := (hv.positions w hw ps hps).1
  have h2 : dataBytes (Datum.stored attr (.varlena .full (compressPos 0 ps))) = compressPos 0 ps := by
    simp only [Datum.stored]
    split <;> rfl
  rw [h2]
  unfold storedPos
  have := (C27_positions_roundtrip ps [] h1).2.1
  rw [List.append_nil] at this
  rw [this]
  rfl

omit [LawfulEqCmp cmpL] in
theorem addinfoLoop_toks {P : Nat} {v : TsVector L} (hv : VecOK P v) (base : Nat) (attr : Attr) {all : List (Option (Opnd L))} {ops : List (Opnd L)}
    {vw : List (Option (Option Datum))} (hmap : ∀ (i : Nat) (o : Opnd L), all[i]? = some (some o) → ∃ j p, mapItem cmpL ops o = some j ∧ ops[j]? = some p ∧ p.lex = o.lex)
    (hd : ∀ (i j : Nat) (o p : Opnd L), all[i]? = some (some o) → all[j]? = some (some p) → o.lex = p.lex → i = j)
    (hpos : ∀ w ∈ v, ∀ (i : Nat) (o : Opnd L), all[i]? = some (some o) → w.1 = o.lex → w.2 ≠ none) (ht : Told attr v ops vw) :
    ∀ (its : List (Option (Opnd L))) (i : Nat) (seen : List Nat), its = all.drop i →
      (∀ s ∈ seen, ∃ k o, k < i ∧ all[k]? = some (some o) ∧ s = (mapItem cmpL ops o).getD 0) →
      addinfoLoop cmpL ops base vw i seen its =
        (toks v i its).map (toI (fun i => (((opAt all i).bind (mapItem cmpL ops)).getD 0)) (fun i => base + 12 * i)) := by
  intro its
  induction its with
  | nil => intro i seen _ _; rfl
  | cons a its ih =>
    intro i seen he hs
    have hi : all[i]? = some a := by
      have := congrArg List.head? he
      simpa using this.symm
    have hdr : its = all.drop (i + 1) := by
      have := congrArg List.tail he
      simpa using this
    have hs' : ∀ s ∈ seen, ∃ k o, k < i + 1 ∧ all[k]? = some (some o) ∧ s = (mapItem cmpL ops o).getD 0 := fun s h => by
      obtain ⟨k, o, h1, h2⟩ := hs s h
      exact ⟨k, o, by omega, h2⟩
    cases a with
    | none =>
      simp only [addinfoLoop, toks]
      exact ih (i + 1) seen hdr hs'
    | some o =>
      obtain ⟨j, p, m1, m2, m3⟩ := hmap i o hi
      simp only [addinfoLoop, toks, m1, Option.getD_some]
      have hns : j ∉ seen := by
        intro hj
        obtain ⟨k, o', h1, h2, h3⟩ := hs j hj
        obtain ⟨j', p', n1, n2, n3⟩ := hmap k o' h2
        rw [n1] at h3
        have : j = j' := h3
        subst this
        rw [m2] at n2
        cases n2
        have := hd i k o o' hi h2 (by rw [← m3, n3])
        omega
      rw [if_neg hns, List.map_append]
      unfold Told at ht
      have hjl : j < ops.length := (List.getElem?_eq_some_iff.1 m2).1
      obtain ⟨hlen, hget⟩ := List.forall₂_iff_get.1 ht
      have hjv : j < vw.length := by omega
      have hg := hget j hjl hjv
      have hp : ops.get ⟨j, hjl⟩ = p := by
        rw [List.getElem?_eq_getElem hjl] at m2
        exact Option.some.inj m2
      rw [hp] at hg
      have hv' : (vw[j]?).join = vw.get ⟨j, hjv⟩ := by rw [List.getElem?_eq_getElem hjv]; rfl
      have hs2 : ∀ s ∈ j :: seen, ∃ k o, k < i + 1 ∧ all[k]? = some (some o) ∧ s = (mapItem cmpL ops o).getD 0 := by
        intro s h
        rcases List.mem_cons.1 h with rfl | h
        · exact ⟨i, o, by omega, hi, by rw [m1]; rfl⟩
        · exact hs' s h
      rw [hv']
      generalize vw.get ⟨j, hjv⟩ = x at hg
      cases x with
      | none =>
        simp only at hg
        have hf : v.find? (fun w => w.1 = o.lex) = none := by
          rw [List.find?_eq_none]
          intro w hw
          have := hg w hw
          rw [m3] at this
          simpa using this
        simp only [wordPos, hf, Option.bind_none, Option.getD_none, List.map_nil, List.nil_append]
        exact ih (i + 1) seen hdr hs'
      | some y =>
        simp only at hg
        obtain ⟨w, hw, hwl, rfl⟩ := hg
        rw [m3] at hwl
        obtain ⟨ps, hps⟩ := Option.ne_none_iff_exists'.1 (hpos w hw i o hi hwl)
        have hf : v.find? (fun w => w.1 = o.lex) = some w := by
          have h1 := filter_word hv o.lex
          have h2 : w ∈ v.filter (fun w => w.1 = o.lex) := List.mem_filter.2 ⟨hw, by simpa using hwl⟩
          rw [h1] at h2
          exact (Option.mem_toList.1 h2)
        rw [hps]
        simp only [Option.map_some]
        rw [storedPos_ok hv attr hw hps, ih (i + 1) (j :: seen) hdr hs2]
        simp only [wordPos, hf, Option.bind_some, hps, Option.getD_some, List.map_map]
        congr 1
        refine List.map_congr_left (fun x _ => ?_)
        simp only [Function.comp_apply, toI, opAt_eq.2 hi, Option.bind_some, m1, Option.getD_some]

end

theorem items_operands {O : Type} (q : Query O) : ((items q).filterMap id).Perm (operands q) := by
  induction q with
  | val o w => exact List.Perm.refl _
  | not q ih => simpa [items, operands] using ih
  | and l r hl hr | or l r hl hr | phrase d l r hl hr =>
    simp only [items, operands, List.filterMap_cons, id_eq, List.filterMap_append]
    exact (List.perm_append_comm).trans (List.Perm.append hl hr)

theorem items_mem {O : Type} {q : Query O} {i : Nat} {o : O} (h : (items q)[i]? = some (some o)) : o ∈ operands q := by
  rw [← (items_operands q).mem_iff, List.mem_filterMap]
  exact ⟨some o, List.mem_of_getElem? h, rfl⟩

theorem items_inj {q : Query (Opnd L)} (hn : ((operands q).map Opnd.lex).Nodup) :
    ∀ (i j : Nat) (o p : Opnd L), (items q)[i]? = some (some o) → (items q)[j]? = some (some p) → o.lex = p.lex → i = j := by
  have h1 : (((items q).filterMap id).map Opnd.lex).Nodup := ((items_operands q).map Opnd.lex).nodup_iff.2 hn
  unfold List.Nodup at h1
  rw [List.pairwise_map, List.pairwise_filterMap, List.pairwise_iff_getElem] at h1
  intro i j o p hi hj he
  obtain ⟨li, hi⟩ := List.getElem?_eq_some_iff.1 hi
  obtain ⟨lj, hj⟩ := List.getElem?_eq_some_iff.1 hj
  rcases Nat.lt_trichotomy i j with h | h | h
  · exact absurd he (h1 i j li lj h o (by simp [hi]) p (by simp [hj]))
  · exact h
  · exact absurd he.symm (h1 j i lj li h p (by simp [hj]) o (by simp [hi]))

theorem sort_map {sort : List DocR → List DocR} {perm : List Nat → List Nat} (hs : ∀ l : List DocR, sort l = (perm (l.map (·.pos))).filterMap (fun i => l[i]?))
    (f : Tok → DocR) (hf : ∀ t, (f t).pos = t.pos) (T : List Tok) : sort (T.map f) = ((perm (T.map (·.pos))).filterMap (fun i => T[i]?)).map f := by
  rw [hs]
  have : (T.map f).map (·.pos) = T.map (·.pos) := by rw [List.map_map]; exact List.map_congr_left (fun t _ => hf t)
  rw [this, List.map_filterMap]
  refine List.filterMap_congr (fun i _ => ?_)
  rw [List.getElem?_map]

/-- **C41.** The relevance computed from what the index stores for a document is the relevance computed from the document itself: for every document
and every query of different words without prefixes and phrases, if the words of the query that occur in the document have positions and the hashes of covers
tell them apart in both computations. -/
theorem C41_score_partial [DecidableEq L] (o : Floats F) (cmpL : L → L → Ordering) [TransCmp cmpL] [LawfulEqCmp cmpL] (osort : List (Opnd L) → List (Opnd L))
    (hos : SortsOpnds cmpL osort) (sort : List DocR → List DocR) (hsort : SortsByPos sort) (begins : L → L → Bool) (addr : Nat → Nat) (base : Nat) (attr : Attr)
    (P : Nat) (v : TsVector L) (hv : VecOK P v) (q : Query (Opnd L)) (hpre : ∀ p ∈ operands q, p.pre = false) (hdist : ((operands q).map Opnd.lex).Nodup)
    (hphr : NoPhrase q) (hpos : ∀ w ∈ v, ∀ p ∈ operands q, w.1 = p.lex → w.2 ≠ none)
    (vw : List (Option (Option Datum))) (ht : Told attr v (sortAndUniq cmpL osort q) vw)
    (h1 : HashTells false (numbered 0 q) (docrep cmpL begins addr sort v q))
    (h2 : HashTells true (keyed cmpL (sortAndUniq cmpL osort q) q) (sort (addinfoLoop cmpL (sortAndUniq cmpL osort q) base vw 0 [] (items q)))) :
    score o cmpL begins addr sort v q = scoreIndex o cmpL osort base sort vw q := by
  have hinj := items_inj hdist
  have hmap : ∀ (i : Nat) (p : Opnd L), (items q)[i]? = some (some p) → ∃ j r, mapItem cmpL (sortAndUniq cmpL osort q) p = some j ∧ (sortAndUniq cmpL osort q)[j]? = some r ∧
      r.lex = p.lex := fun i p hi => by
    obtain ⟨j, r, m1, m2, m3, -⟩ := mapItem_ok (cmpL := cmpL) hos (items_mem hi)
    exact ⟨j, r, m1, m2, m3⟩
  have hA := docLoop_toks (cmpL := cmpL) hv begins addr hinj (fun i p hi => hpre p (items_mem hi)) (fun w hw i p hi => hpos w hw p (items_mem hi)) (items q) 0 []
    (by simp) (by simp)
  have hB := addinfoLoop_toks (cmpL := cmpL) hv base attr hmap hinj (fun w hw i p hi => hpos w hw p (items_mem hi)) ht (items q) 0 [] (by simp) (by simp)
  obtain ⟨perm, hperm⟩ := hsort
  unfold score scoreIndex
  unfold docrep at h1 ⊢
  rw [show allocAt v (items q) 0 = 0 from rfl] at hA
  simp only [hA, hB] at h1 h2 ⊢
  rw [sort_map (fun l => (hperm l).1) _ (fun _ => rfl)] at h1 h2 ⊢
  rw [sort_map (fun l => (hperm l).1) _ (fun _ => rfl)]
  have hT : ∀ t ∈ (perm ((toks v 0 (items q)).map (·.pos))).filterMap (fun i => (toks v 0 (items q))[i]?), ∃ p, (items q)[t.i]? = some (some p) := by
    intro t ht'
    obtain ⟨i, -, hi⟩ := List.mem_filterMap.1 ht'
    exact toks_mem v (items q) (items q) 0 (by simp) t (List.mem_of_getElem? hi)
  generalize (perm ((toks v 0 (items q)).map (·.pos))).filterMap (fun i => (toks v 0 (items q))[i]?) = T at hT h1 h2 ⊢
  simp only [List.map_eq_nil_iff]
  by_cases hT0 : T = []
  · rw [if_pos hT0, if_pos hT0]
  · rw [if_neg hT0, if_neg hT0]
    refine scoreDocr_same o (S := fun i => ∃ p, (items q)[i]? = some (some p)) ?_ ?_ ?_ ?_ T hT h1 h2
    · intro sk x y hr
      refine exec_same (all := items q) sk ?_ hr q 0 hphr (fun j _ => by rw [Nat.zero_add])
      intro i p hi
      exact ⟨⟨p, hi⟩, by rw [opAt_eq.2 hi, Option.bind_some]⟩
    · rintro i j ⟨p, hi⟩ ⟨r, hj⟩ e
      obtain ⟨k, p', m1, m2, m3⟩ := hmap i p hi
      obtain ⟨k', r', n1, n2, n3⟩ := hmap j r hj
      simp only [opAt_eq.2 hi, opAt_eq.2 hj, Option.bind_some, m1, n1, Option.getD_some] at e
      subst e
      rw [m2] at n2
      cases n2
      exact hinj i j p r hi hj (by rw [← m3, n3])
    · rintro i ⟨p, hi⟩
      exact (List.getElem?_eq_some_iff.1 hi).1
    · rintro i ⟨p, hi⟩
      obtain ⟨k, p', m1, m2, m3⟩ := hmap i p hi
      simp only [opAt_eq.2 hi, Option.bind_some, m1, Option.getD_some]
      exact (List.getElem?_eq_some_iff.1 m2).1

/-! ### Where the index disagrees -/

/-- Exact arithmetic, with the weights of `/repo/src/rum_ts_utils.c:173`. -/
def exF : Floats Rat :=
  ⟨fun n => n, (· + ·), (· * ·), (· / ·), fun n => (([10, 5, 5 / 2, 1] : List Rat)[n]?).getD 0, 164493406685 / 100000000000, id⟩
/-- A word as a query. -/
def word (n : Nat) : Query (Opnd Nat) := .val ⟨n, false⟩ 0

/-- The groups of a list of covers given by hash and rank. -/
theorem scoreDocr_eq (o : Floats F) (idx : Bool) (q : Query Nat) (len : Nat) (doc : List DocR) (l : List (Nat × F))
    (h : (covers idx q doc (doc.length + 1) 0).map (fun c => (coverKey (c.elems doc), coverRank o len c (c.elems doc))) = l) :
    scoreDocr o idx q len doc = o.f4 ((l.foldl (fun gs p => addCover o p.1 p.2 gs) []).foldl (fun s g => o.add s g.rank) (o.num 0)) := by
  subst h
  unfold scoreDocr
  rw [List.foldl_map]

/-- A sort by position has only one result if the positions are different. -/
theorem sort_unique {sort : List DocR → List DocR} (hs : SortsByPos sort) {l m : List DocR} (hp : m.Perm l) (hm : m.Pairwise (fun a b => a.pos < b.pos)) :
    sort l = m := by
  obtain ⟨perm, h⟩ := hs
  obtain ⟨h1, h2, h3⟩ := h l
  have hpl : (sort l).Perm l := by
    rw [h1]
    have h4 := List.Perm.filterMap (fun i => l[i]?) h2
    refine h4.trans (List.Perm.of_eq ?_)
    refine List.ext_getElem? (fun i => ?_)
    have : (List.range l.length).filterMap (fun i => l[i]?) = l := by
      clear h1 h2 h3 h4 hp
      induction l using List.reverseRecOn with
      | nil => rfl
      | append_singleton l a ih =>
        rw [List.length_append, List.length_singleton, List.range_succ, List.filterMap_append]
        congr 1
        · refine Eq.trans (List.filterMap_congr (fun i hi => ?_)) ih
          rw [List.getElem?_append_left (List.mem_range.1 hi)]
        · simp
    rw [this]
  refine List.Perm.eq_of_pairwise (le := fun a b => a.pos ≤ b.pos) ?_ h3 (hm.imp (fun h => Nat.le_of_lt h)) (hpl.trans hp.symm)
  intro a b ha hb hab hba
  have ha' : a ∈ m := (hpl.trans hp.symm).mem_iff.1 ha
  by_contra hne
  have := List.Pairwise.forall_of_forall_of_flip (R := fun a b : DocR => a ≠ b → a.pos ≠ b.pos) (l := m) (fun _ _ h => absurd rfl h)
    (hm.imp (S := fun a b : DocR => a ≠ b → a.pos ≠ b.pos) (fun h _ => Nat.ne_of_lt h))
    (hm.imp (S := flip fun a b : DocR => a ≠ b → a.pos ≠ b.pos) (fun h _ => Nat.ne_of_gt h)) ha' hb hne
  omega

/-- **C41, phrases, violated.** For a phrase of two words the index finds no relevance at all (distance infinity), whatever the document: the positions are
not recorded in the second loop of Cover. Computed from the document `a:1 b:2` the relevance of `a <-> b` is not 0. -/
theorem C41_phrase_violated :
    (∀ (o : Floats F) (cmpL : L → L → Ordering) (osort : List (Opnd L) → List (Opnd L)) (base : Nat) (sort : List DocR → List DocR) (vw : List (Option (Option Datum)))
      (d : Nat) (a b : Opnd L) (w x : Nat), 0 < d → scoreIndex o cmpL osort base sort vw (.phrase d (.val a w) (.val b x)) = o.num 0 ∨
        scoreIndex o cmpL osort base sort vw (.phrase d (.val a w) (.val b x)) = o.f4 (o.num 0)) ∧
    ∀ sort, SortsByPos sort → ∀ begins addr, score exF compare begins addr sort [(5, some [1]), (6, some [2])] (.phrase 1 (word 5) (word 6)) ≠ 0 := by
  constructor
  · intro o cmpL osort base sort vw d a b w x hd
    unfold scoreIndex
    simp only
    split
    · exact Or.inl rfl
    · right
      generalize sort _ = doc
      have hlow : ∀ (s t : Nat) (l : List DocR) (y : Data), (∀ k p, y k = some p → p = 0) → lower true (.phrase d (.val s w) (.val t x)) y l = none := by
        intro s t l
        induction l with
        | nil => intro y _; rfl
        | cons e l ih =>
          intro y hy
          have hy' : ∀ k p, setLow true e y k = some p → p = 0 := by
            intro k p h
            simp only [setLow, if_true] at h
            by_cases hk : k ∈ e.slots
            · rw [if_pos hk] at h
              cases hyk : y k with
              | none => rw [hyk] at h; simpa using h.symm
              | some z => rw [hyk] at h; have := hy k z hyk; subst this; simpa using h.symm
            · rw [if_neg hk] at h; exact hy k p h
          rw [lower, if_neg, ih _ hy']
          · rfl
          · generalize setLow true e y = z at hy'
            have h0 : wepPos 0 = 0 := by decide
            have hop : ∀ k, opPhrase z k = (.no, {}) ∨ opPhrase z k = (.yes, { pos := [0] }) := by
              intro k
              unfold opPhrase
              cases hk : z k with
              | none => exact Or.inl rfl
              | some p => obtain rfl := hy' _ _ hk; exact Or.inr rfl
            have hout : (andOutput { pos := [0] } { pos := [0] } d 0 d).1 = .no := by
              have : outLoop false false true [d] [0] = [] := by
                rw [outLoop, if_neg (by omega), if_neg (by omega), outLoop]
                simp [emitPos]
              simp [andOutput, phraseOutput, h0, this]
            simp only [coreExec, corePhrase]
            rcases hop s with h1 | h1 <;> rcases hop t with h2 | h2 <;> simp only [h1, h2] <;> simp [hout]
      have hcov : ∀ (s t n pos : Nat), cover true (.phrase d (.val s w) (.val t x)) doc n pos = none := by
        intro s t n
        induction n with
        | zero => intro pos; rfl
        | succ n ih =>
          intro pos
          unfold cover
          split
          · rfl
          · split
            · rfl
            · split
              · rw [hlow s t _ _ (fun k p h => by cases h)]
                exact ih _
              · rfl
      unfold scoreDocr
      simp only [keyed]
      rw [show covers true _ doc (doc.length + 1) 0 = [] from by rw [covers, hcov]]
      rfl
  · intro sort hs begins addr
    unfold score docrep
    have h1 : docLoop compare begins addr [(5, some [1]), (6, some [2])] (items (.phrase 1 (word 5) (word 6))) 0 [] 0 (items (.phrase 1 (word 5) (word 6))) =
        [⟨[1], addr 0, 2, 0⟩, ⟨[2], addr 1, 1, 0⟩] := by with_unfolding_all rfl
    rw [h1, sort_unique hs (m := [⟨[2], addr 1, 1, 0⟩, ⟨[1], addr 0, 2, 0⟩]) (List.Perm.swap _ _ _) (by simp)]
    simp only [reduceCtorEq, if_false]
    rw [scoreDocr_eq exF false _ _ _ [(coverKey [⟨[2], addr 1, 1, 0⟩, ⟨[1], addr 0, 2, 0⟩], exF.div (exF.mul (exF.div (exF.num 2)
      (exF.add (exF.add (exF.num 0) (exF.weight 0)) (exF.weight 0))) (exF.num 2)) (exF.num 1))]]
    · simp only [List.foldl_cons, List.foldl_nil, addCover]
      decide +kernel
    · generalize exF = o
      generalize hA : (⟨[2], addr 1, 1, 0⟩ : DocR) = A
      generalize hB : (⟨[1], addr 0, 2, 0⟩ : DocR) = B
      have w1 : wepPos 1 = 1 := by decide
      have w2 : wepPos 2 = 2 := by decide
      have hQ : numbered 0 (.phrase 1 (word 5) (word 6)) = .phrase 1 (.val 2 0) (.val 1 0) := rfl
      have e1 : ∀ sk, coreExec sk (setBoth A noData) (.phrase 1 (.val 2 0) (.val 1 0)) = false := by
        intro sk; subst hA; simp [coreExec, corePhrase, opPhrase, setBoth, noData]
      have e2 : ∀ sk, coreExec sk (setBoth B (setBoth A noData)) (.phrase 1 (.val 2 0) (.val 1 0)) = true := by
        intro sk; subst hA; subst hB
        simp [coreExec, corePhrase, opPhrase, setBoth, noData, andOutput, phraseOutput, outLoop, emitPos, w1, w2]
      have e3 : ∀ sk, coreExec sk (setBoth B noData) (.phrase 1 (.val 2 0) (.val 1 0)) = false := by
        intro sk; subst hB; simp [coreExec, corePhrase, opPhrase, setBoth, noData]
      have e4 : ∀ sk, coreExec sk (setBoth A (setBoth B noData)) (.phrase 1 (.val 2 0) (.val 1 0)) = true := by
        intro sk; subst hA; subst hB
        simp [coreExec, corePhrase, opPhrase, setBoth, noData, andOutput, phraseOutput, outLoop, emitPos, w1, w2]
      have hc : covers false (.phrase 1 (.val 2 0) (.val 1 0)) [A, B] 3 0 = [⟨0, 1, setBoth A (setBoth B noData)⟩] := by
        have p1 : A.pos = 1 := by subst hA; rfl
        have p2 : B.pos = 2 := by subst hB; rfl
        simp [covers, cover, upper, lower, setLow, e1, e2, e3, e4, p1, p2]
      rw [hQ]
      show List.map _ (covers false (.phrase 1 (.val 2 0) (.val 1 0)) [A, B] 3 0) = _
      rw [hc]
      subst hA; subst hB
      with_unfolding_all rfl

/-- **C41, repeated words, violated.** For `a & a` and the document `a:1` the relevance from the document is twice that from the index: the number of words of
a cover is counted once per item of the query in the one and once per entry in the other. -/
theorem C41_repeated_violated (sort : List DocR → List DocR) (hs : SortsByPos sort) (osort : List (Opnd Nat) → List (Opnd Nat)) (hos : SortsOpnds compare osort)
    (begins : Nat → Nat → Bool) (addr : Nat → Nat) (base : Nat) :
    ∃ (v : TsVector Nat) (q : Query (Opnd Nat)) (vw : List (Option (Option Datum))), VecOK 1 v ∧ Told ftAttr v (sortAndUniq compare osort q) vw ∧
      score exF compare begins addr sort v q = 2 * scoreIndex exF compare osort base sort vw q ∧ scoreIndex exF compare osort base sort vw q ≠ 0 := by
  have hops : sortAndUniq compare osort (.and (word 5) (word 5)) = [⟨5, false⟩] := by
    unfold sortAndUniq
    have : osort (operands (.and (word 5) (word 5))) = [⟨5, false⟩, ⟨5, false⟩] :=
      (List.perm_replicate (n := 2)).1 (hos (operands (.and (word 5) (word 5)))).1
    rw [this]
    rfl
  have hone : ∀ x, sort [x] = [x] := fun x => sort_unique hs (List.Perm.refl _) (by simp)
  refine ⟨[(5, some [1])], .and (word 5) (word 5), [some (some (.varlena .short [1]))], ?_, ?_, ?_⟩
  · refine ⟨by simp, fun w hw ps hps => ?_⟩
    simp only [List.mem_singleton] at hw
    subst hw
    cases hps
    exact ⟨⟨by decide, by decide⟩, by decide⟩
  · rw [hops]
    refine .cons ⟨_, List.mem_singleton.2 rfl, rfl, ?_⟩ .nil
    simp only [Option.map_some, pos_one]
    rfl
  · have hH : score exF compare begins addr sort [(5, some [1])] (.and (word 5) (word 5)) = exF.f4 (exF.add (exF.num 0) (exF.add (exF.num 0) (exF.div (exF.div (exF.div
        (exF.div (exF.mul (exF.div (exF.num 1) (exF.add (exF.num 0) (exF.weight 0))) (exF.num 2)) (exF.num 1)) (exF.num 1)) (exF.num 1)) exF.c))) := by
      unfold score docrep
      have h1 : docLoop compare begins addr [(5, some [1])] (items (.and (word 5) (word 5))) 0 [] 0 (items (.and (word 5) (word 5))) =
        [⟨[1, 2], addr 0, 1, 0⟩] := by with_unfolding_all rfl
      rw [h1, hone]
      simp only [reduceCtorEq, if_false]
      generalize exF = o
      with_unfolding_all rfl
    have hI : scoreIndex exF compare osort base sort [some (some (.varlena .short [1]))] (.and (word 5) (word 5)) = exF.f4 (exF.add (exF.num 0) (exF.add (exF.num 0)
        (exF.div (exF.div (exF.div (exF.div (exF.mul (exF.div (exF.num 1) (exF.add (exF.num 0) (exF.weight 0))) (exF.num 1)) (exF.num 1)) (exF.num 1)) (exF.num 1)) exF.c))) := by
      unfold scoreIndex
      rw [hops]
      have h1 : addinfoLoop compare [⟨5, false⟩] base [some (some (.varlena .short [1]))] 0 [] (items (.and (word 5) (word 5))) = [⟨[0], base + 12, 1, 0⟩] := by
        with_unfolding_all rfl
      simp only [h1, hone, reduceCtorEq, if_false]
      generalize exF = o
      with_unfolding_all rfl
    rw [hH, hI]
    decide +kernel

/-- **C41, words without positions, violated.** For `a & b` and the document `a b:2` the relevance from the document is not 0, that from the index is. -/
theorem C41_no_position_violated (sort : List DocR → List DocR) (hs : SortsByPos sort) (begins : Nat → Nat → Bool) (addr : Nat → Nat) (base : Nat) :
    ∃ (v : TsVector Nat) (q : Query (Opnd Nat)) (vw : List (Option (Option Datum))), VecOK 2 v ∧ Told ftAttr v (sortAndUniq compare exSort q) vw ∧
      score exF compare begins addr sort v q ≠ 0 ∧ scoreIndex exF compare exSort base sort vw q = 0 := by
  have hops : sortAndUniq compare exSort (.and (word 5) (word 6)) = [⟨5, false⟩, ⟨6, false⟩] := by
    have : exSort (operands (.and (word 5) (word 6))) = [⟨5, false⟩, ⟨6, false⟩] := List.mergeSort_of_pairwise (by simp [word, operands]; decide)
    unfold sortAndUniq
    rw [this]
    rfl
  have hpos2 : compressPos 0 [2] = [2] := by
    have h1 : wepPos 2 = 2 := by decide
    have h0 : wepPos 0 = 0 := by decide
    have h2 : wepWeight 2 = 0 := by decide
    rw [compressPos, h1, h0, h2, compressDelta]
    decide
  have hone : ∀ x, sort [x] = [x] := fun x => sort_unique hs (List.Perm.refl _) (by simp)
  refine ⟨[(5, none), (6, some [2])], .and (word 5) (word 6), [some none, some (some (.varlena .short [2]))], ?_, ?_, ?_, ?_⟩
  · refine ⟨by simp, fun w hw ps hps => ?_⟩
    simp only [List.mem_cons, List.not_mem_nil, or_false] at hw
    rcases hw with rfl | rfl
    · cases hps
    · cases hps
      exact ⟨⟨by decide, by decide⟩, by decide⟩
  · rw [hops]
    refine .cons ⟨_, List.mem_cons_self, rfl, rfl⟩ (.cons ⟨_, List.mem_cons_of_mem _ (List.mem_singleton.2 rfl), rfl, ?_⟩ .nil)
    simp only [Option.map_some, hpos2]
    rfl
  · unfold score docrep
    have h1 : docLoop compare begins addr [(5, none), (6, some [2])] (items (.and (word 5) (word 6))) 0 [] 0 (items (.and (word 5) (word 6))) =
        [⟨[1], addr 0, 2, 0⟩, ⟨[2], addr 1, 0, 0⟩] := by with_unfolding_all rfl
    rw [h1, sort_unique hs (m := [⟨[2], addr 1, 0, 0⟩, ⟨[1], addr 0, 2, 0⟩]) (List.Perm.swap _ _ _) (by simp)]
    simp only [reduceCtorEq, if_false]
    rw [scoreDocr_eq exF false _ _ _ [(coverKey [⟨[2], addr 1, 0, 0⟩, ⟨[1], addr 0, 2, 0⟩], exF.div (exF.mul (exF.div (exF.num 2)
      (exF.add (exF.add (exF.num 0) (exF.weight 0)) (exF.weight 0))) (exF.num 2)) (exF.num 2))]]
    · simp only [List.foldl_cons, List.foldl_nil, addCover]
      decide +kernel
    · generalize exF = o
      with_unfolding_all rfl
  · unfold scoreIndex
    rw [hops]
    have h1 : addinfoLoop compare [⟨5, false⟩, ⟨6, false⟩] base [some none, some (some (.varlena .short [2]))] 0 [] (items (.and (word 5) (word 6))) =
        [⟨[1], base + 12, 2, 0⟩] := by with_unfolding_all rfl
    simp only [h1, hone, reduceCtorEq, if_false]
    rw [scoreDocr_eq exF true _ _ _ []]
    · decide +kernel
    · generalize exF = o
      with_unfolding_all rfl

/-- `(1 | 2) & (3 | 4)`. -/
def exQ : Query (Opnd Nat) := .and (.or (word 1) (word 2)) (.or (word 3) (word 4))
/-- `3:1 1:2 2:10 4:11`. -/
def exV : TsVector Nat := [(1, some [2]), (2, some [10]), (3, some [1]), (4, some [11])]
/-- What the index stores for it. -/
def exView : List (Option (Option Datum)) :=
  [some (some (.varlena .short [2])), some (some (.varlena .short [10])), some (some (.varlena .short [1])), some (some (.varlena .short [11]))]

theorem exOps : sortAndUniq compare exSort exQ = [⟨1, false⟩, ⟨2, false⟩, ⟨3, false⟩, ⟨4, false⟩] := by
  have : exSort (operands exQ) = [⟨1, false⟩, ⟨2, false⟩, ⟨3, false⟩, ⟨4, false⟩] := List.mergeSort_of_pairwise (by simp [exQ, word, operands]; decide)
  unfold sortAndUniq
  rw [this]
  rfl

/-- **C41, hashes of covers, violated.** In the index the hash of a cover is made of the addresses of the query's items, which lie 12 bytes apart; so the covers
`3 1` and `2 4` have the same hash wherever the query lies in memory, and the second counts a quarter. The relevance from the document is another one
whenever the addresses of the arrays it allocates tell the two covers apart. -/
theorem C41_hash_violated (sort : List DocR → List DocR) (hs : SortsByPos sort) (begins : Nat → Nat → Bool) (addr : Nat → Nat) (base : Nat)
    (ha : (2 * (addr 1 % 2 ^ 32) + addr 3) % 2 ^ 32 ≠ (2 * (addr 2 % 2 ^ 32) + addr 0) % 2 ^ 32) :
    score exF compare begins addr sort exV exQ ≠ scoreIndex exF compare exSort base sort exView exQ := by
  have hH : score exF compare begins addr sort exV exQ = exF.f4 (exF.add (exF.add (exF.num 0) (exF.add (exF.num 0) (exF.div (exF.div (exF.div (1 / 5) (exF.num 1)) (exF.num 1)) exF.c)))
      (exF.add (exF.num 0) (exF.div (exF.div (exF.div (1 / 5) (exF.num 1)) (exF.num 1)) exF.c))) := by
    unfold score docrep
    have h1 : docLoop compare begins addr exV (items exQ) 0 [] 0 (items exQ) =
        [⟨[2], addr 0, 11, 0⟩, ⟨[3], addr 1, 1, 0⟩, ⟨[5], addr 2, 10, 0⟩, ⟨[6], addr 3, 2, 0⟩] := by with_unfolding_all rfl
    have h2 : [⟨[3], addr 1, 1, 0⟩, ⟨[6], addr 3, 2, 0⟩, ⟨[5], addr 2, 10, 0⟩, ⟨[2], addr 0, 11, 0⟩].Perm
        [⟨[2], addr 0, 11, 0⟩, ⟨[3], addr 1, 1, 0⟩, ⟨[5], addr 2, 10, 0⟩, (⟨[6], addr 3, 2, 0⟩ : DocR)] := by
      refine List.Perm.trans (List.Perm.cons _ ((List.Perm.swap _ _ _).trans (List.Perm.cons _ (List.Perm.swap _ _ _)))) ?_
      exact (List.Perm.cons _ (List.Perm.swap _ _ _)).trans (List.Perm.swap _ _ _)
    rw [h1, sort_unique hs h2 (by simp)]
    simp only [reduceCtorEq, if_false]
    have hR : exF.div (exF.mul (exF.div (exF.num 2) (exF.add (exF.add (exF.num 0) (exF.weight 0)) (exF.weight 0))) (exF.num 2)) (exF.num 1) = 1 / 5 := by decide +kernel
    rw [scoreDocr_eq exF false _ _ _ [(coverKey [⟨[3], addr 1, 1, 0⟩, ⟨[6], addr 3, 2, 0⟩], exF.div (exF.mul (exF.div (exF.num 2)
      (exF.add (exF.add (exF.num 0) (exF.weight 0)) (exF.weight 0))) (exF.num 2)) (exF.num 1)), (coverKey [⟨[5], addr 2, 10, 0⟩, ⟨[2], addr 0, 11, 0⟩], exF.div (exF.mul (exF.div (exF.num 2)
      (exF.add (exF.add (exF.num 0) (exF.weight 0)) (exF.weight 0))) (exF.num 2)) (exF.num 1))]]
    · rw [hR]
      simp only [List.foldl_cons, List.foldl_nil, addCover]
      rw [if_neg (by simpa [coverKey] using ha)]
      rfl
    · generalize exF = o
      with_unfolding_all rfl
  have hI : scoreIndex exF compare exSort base sort exView exQ = exF.f4 (exF.add (exF.num 0) (exF.add (exF.add (exF.num 0) (exF.div (exF.div (exF.div (1 / 5) (exF.num 1)) (exF.num 1)) exF.c))
      (exF.div (exF.div (exF.div (1 / 5) (exF.num 2)) (exF.num 2)) exF.c))) := by
    unfold scoreIndex
    rw [exOps]
    have h1 : addinfoLoop compare [⟨1, false⟩, ⟨2, false⟩, ⟨3, false⟩, ⟨4, false⟩] base exView 0 [] (items exQ) =
        [⟨[3], base + 12 * 2, 11, 0⟩, ⟨[2], base + 12 * 3, 1, 0⟩, ⟨[1], base + 12 * 5, 10, 0⟩, ⟨[0], base + 12 * 6, 2, 0⟩] := by with_unfolding_all rfl
    have h2 : [⟨[2], base + 12 * 3, 1, 0⟩, ⟨[0], base + 12 * 6, 2, 0⟩, ⟨[1], base + 12 * 5, 10, 0⟩, ⟨[3], base + 12 * 2, 11, 0⟩].Perm
        [⟨[3], base + 12 * 2, 11, 0⟩, ⟨[2], base + 12 * 3, 1, 0⟩, ⟨[1], base + 12 * 5, 10, 0⟩, (⟨[0], base + 12 * 6, 2, 0⟩ : DocR)] := by
      refine List.Perm.trans (List.Perm.cons _ ((List.Perm.swap _ _ _).trans (List.Perm.cons _ (List.Perm.swap _ _ _)))) ?_
      exact (List.Perm.cons _ (List.Perm.swap _ _ _)).trans (List.Perm.swap _ _ _)
    simp only [h1, sort_unique hs h2 (by simp), reduceCtorEq, if_false]
    have hR : exF.div (exF.mul (exF.div (exF.num 2) (exF.add (exF.add (exF.num 0) (exF.weight 0)) (exF.weight 0))) (exF.num 2)) (exF.num 1) = 1 / 5 := by decide +kernel
    have hk : coverKey [⟨[2], base + 12 * 3, 1, 0⟩, ⟨[0], base + 12 * 6, 2, 0⟩] = coverKey [⟨[1], base + 12 * 5, 10, 0⟩, ⟨[3], base + 12 * 2, 11, 0⟩] := by
      simp only [coverKey, List.foldl_cons, List.foldl_nil]
      omega
    rw [scoreDocr_eq exF true _ _ _ [(coverKey [⟨[2], base + 12 * 3, 1, 0⟩, ⟨[0], base + 12 * 6, 2, 0⟩], exF.div (exF.mul (exF.div (exF.num 2)
      (exF.add (exF.add (exF.num 0) (exF.weight 0)) (exF.weight 0))) (exF.num 2)) (exF.num 1)), (coverKey [⟨[1], base + 12 * 5, 10, 0⟩, ⟨[3], base + 12 * 2, 11, 0⟩], exF.div (exF.mul (exF.div (exF.num 2)
      (exF.add (exF.add (exF.num 0) (exF.weight 0)) (exF.weight 0))) (exF.num 2)) (exF.num 1))]]
    · rw [hR, hk]
      simp only [List.foldl_cons, List.foldl_nil, addCover, if_true]
    · generalize exF = o
      with_unfolding_all rfl
  rw [hH, hI]
  decide +kernel

/-! ### What the index stores is what the distance function is told -/

section
open Rum.Index Rum.Extract Rum.Props.Index Rum.Props.Query
variable {V : Type}

/-- The view of a row through the index (`View`, see C50) is what `Told` says, for a column with no attached column, if no two words have the same key. -/
theorem C41_told {cmpL : L → L → Ordering} {osort : List (Opnd L) → List (Opnd L)} (hos : SortsOpnds cmpL osort) {ix : Ix V} {rc : RowCfg V} {a : Nat}
    (hK : TransCmp (ix.cmpK a)) (hadd : rc.addTo ≠ some a) {r : Row V} {build : L → V} {attr : Attr} {v : TsVector L}
    (hr : r.value a = some (extractTsvector build attr v)) {q : Query (Opnd L)}
    (hcoll : ∀ w ∈ v, ∀ o ∈ operands q, ix.cmpK a (build w.1) (build o.lex) = .eq → w.1 = o.lex) {vw : List (Option (Option Datum))}
    (hv : View ix rc r (tsCond build cmpL osort a q) vw) : Told attr v (sortAndUniq cmpL osort q) vw := by
  unfold View at hv
  simp only [tsCond, List.forall₂_map_left_iff] at hv
  unfold Told
  refine List.forall₂_iff_zip.2 ⟨hv.length_eq, fun {p x} hpx => ?_⟩
  have hp : p ∈ operands q := mem_of_sortAndUniq hos (List.of_mem_zip hpx).1
  have h := (List.forall₂_iff_zip.1 hv).2 hpx
  cases x with
  | none =>
    intro w hw hwl
    refine h ⟨_, hr, ⟨some (build w.1), _⟩, List.mem_map.2 ⟨w, hw, rfl⟩, build w.1, rfl, ?_⟩
    rw [hwl]
    exact ReflCmp.compare_self
  | some i =>
    obtain ⟨⟨raws, h1, z, hz, y, hy, he⟩, h2⟩ := h
    rw [hr] at h1
    cases h1
    unfold InfoOf at h2
    rw [if_neg hadd, hr] at h2
    cases hE : extractTsvector build attr v with
    | nil => rw [hE] at hz; cases hz
    | cons b bs =>
      rw [hE] at h2
      obtain ⟨z', hz', hi, hk⟩ := h2
      rw [← hE] at hz'
      obtain ⟨w, hw, rfl⟩ := List.mem_map.1 hz'
      rcases hk with ⟨h3, -⟩ | ⟨-, y', hy', he'⟩
      · cases h3
      · cases hy'
        exact ⟨w, hw, hcoll w hw p hp he', hi.symm⟩
end

/-! ### Concrete cases -/

/-- A sort by position. -/
def exPosSort (l : List DocR) : List DocR :=
  ((List.range l.length).mergeSort (fun i j => ((l.map (·.pos))[i]?).getD 0 ≤ ((l.map (·.pos))[j]?).getD 0)).filterMap (fun i => l[i]?)

theorem exPosSort_sorts : SortsByPos exPosSort := by
  refine ⟨fun ps => (List.range ps.length).mergeSort (fun i j => (ps[i]?).getD 0 ≤ (ps[j]?).getD 0), fun l => ⟨?_, ?_, ?_⟩⟩
  · unfold exPosSort
    beta_reduce; rw [List.length_map]
  · beta_reduce; rw [List.length_map]; exact List.mergeSort_perm _ _
  · unfold exPosSort
    rw [List.pairwise_filterMap]
    have := List.pairwise_mergeSort (l := List.range l.length) (le := fun i j => decide (((l.map (·.pos))[i]?).getD 0 ≤ ((l.map (·.pos))[j]?).getD 0))
      (fun a b c h1 h2 => by simp only [decide_eq_true_eq] at *; omega) (fun a b => by simp only [Bool.or_eq_true, decide_eq_true_eq]; omega)
    refine this.imp (fun {i j} h x hx y hy => ?_)
    simp only [List.getElem?_map, hx, hy, Option.map_some, Option.getD_some, decide_eq_true_eq] at h
    exact h

/-- The hypotheses of `C41_score_partial` are met by `5 & 7` and the document `5:1 7:4`. -/
example (addr : Nat → Nat) (base : Nat) (begins : Nat → Nat → Bool) :
    ∃ vw, VecOK 4 [(5, some [1]), (7, some [4])] ∧ Told ftAttr [(5, some [1]), (7, some [4])] (sortAndUniq compare exSort (.and (word 5) (word 7))) vw ∧
    NoPhrase (.and (word 5) (word 7)) ∧ ((operands (.and (word 5) (word 7))).map Opnd.lex).Nodup ∧
    HashTells false (numbered 0 (.and (word 5) (word 7))) (docrep compare begins addr exPosSort [(5, some [1]), (7, some [4])] (.and (word 5) (word 7))) ∧
    HashTells true (keyed compare (sortAndUniq compare exSort (.and (word 5) (word 7))) (.and (word 5) (word 7)))
      (exPosSort (addinfoLoop compare (sortAndUniq compare exSort (.and (word 5) (word 7))) base vw 0 [] (items (.and (word 5) (word 7))))) := by
  have hops : sortAndUniq compare exSort (.and (word 5) (word 7)) = [⟨5, false⟩, ⟨7, false⟩] := by
    have : exSort (operands (.and (word 5) (word 7))) = [⟨5, false⟩, ⟨7, false⟩] := List.mergeSort_of_pairwise (by simp [word, operands]; decide)
    unfold sortAndUniq
    rw [this]
    rfl
  have hpos4 : compressPos 0 [4] = [4] := by
    have h1 : wepPos 4 = 4 := by decide
    have h0 : wepPos 0 = 0 := by decide
    have h2 : wepWeight 4 = 0 := by decide
    rw [compressPos, h1, h0, h2, compressDelta]
    decide
  refine ⟨[some (some (.varlena .short [1])), some (some (.varlena .short [4]))], ?_, ?_, ⟨trivial, trivial⟩, by decide, ?_, ?_⟩
  · refine ⟨by simp, fun w hw ps hps => ?_⟩
    simp only [List.mem_cons, List.not_mem_nil, or_false] at hw
    rcases hw with rfl | rfl <;> cases hps <;> exact ⟨⟨by decide, by decide⟩, by decide⟩
  · rw [hops]
    refine .cons ⟨_, List.mem_cons_self, rfl, ?_⟩ (.cons ⟨_, List.mem_cons_of_mem _ (List.mem_singleton.2 rfl), rfl, ?_⟩ .nil)
    · simp only [Option.map_some, pos_one]; rfl
    · simp only [Option.map_some, hpos4]; rfl
  · unfold docrep
    have h1 : docLoop compare begins addr [(5, some [1]), (7, some [4])] (items (.and (word 5) (word 7))) 0 [] 0 (items (.and (word 5) (word 7))) =
        [⟨[1], addr 0, 4, 0⟩, ⟨[2], addr 1, 1, 0⟩] := by with_unfolding_all rfl
    rw [h1, sort_unique exPosSort_sorts (m := [⟨[2], addr 1, 1, 0⟩, ⟨[1], addr 0, 4, 0⟩]) (List.Perm.swap _ _ _) (by simp)]
    have hc : ∃ c, covers false (numbered 0 (.and (word 5) (word 7))) [⟨[2], addr 1, 1, 0⟩, ⟨[1], addr 0, 4, 0⟩] 3 0 = [c] := ⟨_, by with_unfolding_all rfl⟩
    obtain ⟨c, hc⟩ := hc
    unfold HashTells
    simp only [List.length_cons, List.length_nil]
    rw [hc]
    intro x hx y hy _
    rw [List.mem_singleton.1 hx, List.mem_singleton.1 hy]
  · rw [hops]
    have h1 : addinfoLoop compare [⟨5, false⟩, ⟨7, false⟩] base [some (some (.varlena .short [1])), some (some (.varlena .short [4]))] 0 []
        (items (.and (word 5) (word 7))) = [⟨[1], base + 12 * 1, 4, 0⟩, ⟨[0], base + 12 * 2, 1, 0⟩] := by with_unfolding_all rfl
    rw [h1, sort_unique exPosSort_sorts (m := [⟨[0], base + 12 * 2, 1, 0⟩, ⟨[1], base + 12 * 1, 4, 0⟩]) (List.Perm.swap _ _ _) (by simp)]
    have hc : ∃ c, covers true (keyed compare [⟨5, false⟩, ⟨7, false⟩] (.and (word 5) (word 7))) [⟨[0], base + 12 * 2, 1, 0⟩, ⟨[1], base + 12 * 1, 4, 0⟩] 3 0 = [c] :=
      ⟨_, by with_unfolding_all rfl⟩
    obtain ⟨c, hc⟩ := hc
    unfold HashTells
    simp only [List.length_cons, List.length_nil]
    rw [hc]
    intro x hx y hy _
    rw [List.mem_singleton.1 hx, List.mem_singleton.1 hy]

end Rum.Props.Rank

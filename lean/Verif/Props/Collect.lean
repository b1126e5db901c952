import Verif.CollectLemmas
import Verif.Props.Query
import Verif.Props.Sort
import Mathlib.Data.List.Perm.Basic
/-!
# C53: prefix searches and full-index searches through the index return exactly the matching rows

As C50, for conditions whose entries search for many keys at once: partial match, all values, everything.
-/
namespace Rum.Props.Collect
open Rum Rum.Codec Rum.Leaf Rum.Entry Rum.Tree Rum.Index Rum.Extract Rum.Props Rum.Props.PostingTree Rum.Props.Index Rum.Props.IndexVacuum Rum.Props.Bulk
  Rum.Props.ScanRegular Rum.Props.Query Rum.Scan Rum.Sort Std

variable {V : Type}

/-! ### Specification -/

/-- The keys an entry searches for. -/
def Wants (ix : Ix V) (attnum : Nat) (lk : Look V) (k : AttKey V) : Prop :=
  k.attnum = attnum ∧ match lk.mode with
    | .exact => cmpAttEntries ix.cmpK ⟨attnum, lk.cat, lk.key⟩ k = .eq
    | .part cp => lk.cat = .norm ∧ k.cat = .norm ∧ cp k.key = 0
    | .all => k.cat ≠ .nullItem
    | .everything => True

/-- A partial match function as PostgreSQL requires it: matching keys are not below the query key, nothing matches above a key for which it said
stop, and equal keys match alike. -/
structure RangeOK (cmpK : V → V → Ordering) (start : V) (cp : V → Int) : Prop where
  above : ∀ x, cp x = 0 → cmpK start x ≠ .gt
  stop : ∀ x y, cp x > 0 → cmpK start x ≠ .gt → cmpK x y ≠ .gt → cp y ≠ 0
  same : ∀ x y, cmpK x y = .eq → cp x = 0 → cp y = 0

/-- An entry as rumFillScanEntry makes it. -/
def LookOK (cmpK : V → V → Ordering) (lk : Look V) : Prop :=
  match lk.mode with
  | .exact => True
  | .part cp => lk.cat = .norm → RangeOK cmpK lk.key cp
  | _ => lk.cat = .emptyQuery

/-- What the consistency function is to be told about a row for one entry: that the row's column contains none of the keys searched for, or the
additional infos of all those it contains, each once, joined. -/
def Sees (ix : Ix V) (rc : RowCfg V) (join : Option (Datum → Datum → Datum)) (r : Row V) (attnum : Nat) (lk : Look V) : Option (Option Datum) → Prop
  | none => ∀ k, Wants ix attnum lk k → ¬ Contains (ix.cmpK attnum) (r.value attnum) k
  | some i => ∃ (ks : List (AttKey V)) (l : List (Option Datum)), ks ≠ [] ∧
      (∀ k ∈ ks, Wants ix attnum lk k ∧ Contains (ix.cmpK attnum) (r.value attnum) k) ∧
      ks.Pairwise (fun a b => cmpAttEntries ix.cmpK a b ≠ .eq) ∧
      (∀ k, Wants ix attnum lk k → Contains (ix.cmpK attnum) (r.value attnum) k → ∃ k' ∈ ks, cmpAttEntries ix.cmpK k k' = .eq) ∧
      List.Forall₂ (fun k o => InfoOf rc (ix.cmpK attnum) r k o) ks l ∧ i = l.foldl (joinInfo join) none

/-- The row has one of the keys, and the consistency function says yes. -/
def Accepted (c : Clause V) (v : List (Option (Option Datum))) : Prop := (∃ o ∈ v, o.isSome = true) ∧ (c.cons v).1 = true

/-- The right answer, as in C50. -/
structure Answer (cmp : Item Datum → Item Datum → Ordering) (view : Row V → Clause V → List (Option (Option Datum))) (rs : List (Row V)) (conds : List (Clause V))
    (out : List (Item Datum × Bool) × Bool) : Prop where
  ends : out.2 = true
  sorted : (out.1.map Prod.fst).Pairwise (fun a b => cmp a b = .lt)
  once : (out.1.map (fun p => p.1.iptr)).Nodup
  rows : ∀ tid, (∃ p ∈ out.1, p.1.iptr = tid) ↔ ∃ r ∈ rs, r.tid = tid ∧ ∀ c ∈ conds, Accepted c (view r c)
  recheck : ∀ p ∈ out.1, ∀ r ∈ rs, r.tid = p.1.iptr → (p.2 = true ↔ ∃ c ∈ conds, (c.cons (view r c)).2 = true)

/-- All conditions are on columns ordered alike. -/
def OneKind (rc : RowCfg V) (alternative : Bool) (conds : List (Clause V)) : Prop :=
  alternative = false ∨ (∀ c ∈ conds, rc.addTo = some c.attnum) ∨ ∀ c ∈ conds, rc.addTo ≠ some c.attnum

/-- An entry the theorems cover. An exact entry: its posting tree has something on the leftmost page, or there was no VACUUM. Others: where items are
ordered by the attached column, no row has NULL there. -/
def Readable (ix : Ix V) [Inhabited V] (rc : RowCfg V) (alternative vacuumed : Bool) (st : State V) (rs : List (Row V)) (attnum : Nat) (lk : Look V) : Prop :=
  match lk.mode with
  | .exact => ∀ t, ix.treeOf st ⟨attnum, lk.cat, lk.key⟩ = some t → firstLeaf (st.trees t) ≠ [] ∨ vacuumed = false
  | _ => alternative = true → rc.addTo = some attnum → ∀ r ∈ rs, r.outer.isSome = true

/-- A condition the theorems cover. -/
structure ClauseOK (ix : Ix V) [Inhabited V] (rc : RowCfg V) (alternative vacuumed : Bool) (st : State V) (rs : List (Row V)) (c : Clause V) : Prop where
  low : 1 ≤ c.attnum
  high : c.attnum ≤ rc.natts
  looks : ∀ lk ∈ c.looks, LookOK (ix.cmpK c.attnum) lk ∧ Readable ix rc alternative vacuumed st rs c.attnum lk

/-- Searches with conditions of any kind give the right answers. -/
def Finds (ix : Ix V) [Inhabited V] (rc : RowCfg V) (alternative vacuumed : Bool)
    (sort : (Item Datum → Item Datum → Ordering) → List (Item Datum) → List (Item Datum)) (join : Nat → Option (Datum → Datum → Datum)) (st : State V)
    (rs : List (Row V)) : Prop :=
  ∃ view : Row V → Clause V → List (Option (Option Datum)),
    (∀ r ∈ rs, ∀ c, ClauseOK ix rc alternative vacuumed st rs c → List.Forall₂ (Sees ix rc (join c.attnum) r c.attnum) c.looks (view r c)) ∧
    ∀ c cs, (∀ d ∈ c :: cs, ClauseOK ix rc alternative vacuumed st rs d) → OneKind rc alternative (c :: cs) → ∃ N, ∀ n, N ≤ n → ∀ junk,
      ∃ out, ix.find rc alternative sort join st junk n c cs = some out ∧ Answer (ix.ctx c.attnum).cmp view rs (c :: cs) out

/-! ### Joining the items of a row -/

/-- The rows from a collected item and the sorted items to come. -/
def fuse (join : Option (Datum → Datum → Datum)) : Item Datum → List (Item Datum) → List (Item Datum)
  | c, [] => [c]
  | c, x :: xs => if cmpIptr c.iptr x.iptr = .eq then fuse join ⟨x.iptr, joinInfo join c.info x.info⟩ xs else c :: fuse join x xs

/-- The rows of the sorted items. -/
def fuseAll (join : Option (Datum → Datum → Datum)) : List (Item Datum) → List (Item Datum)
  | [] => []
  | x :: xs => fuse join x xs

theorem gather_fuse (join : Option (Datum → Datum → Datum)) (l : List (Item Datum)) : ∀ c : Item Datum,
    ∃ y o rest, gather join (some c) l = (some y, o, rest) ∧ rest.length ≤ l.length ∧ match o with
      | none => fuse join c l = [y] ∧ rest = []
      | some x => fuse join c l = y :: fuse join x rest ∧ rest.length < l.length := by
  induction l with
  | nil => intro c; exact ⟨c, none, [], rfl, Nat.zero_le _, rfl, rfl⟩
  | cons x xs ih =>
    intro c
    by_cases h : cmpIptr c.iptr x.iptr = .eq
    · obtain ⟨y, o, rest, h1, h2, h3⟩ := ih ⟨x.iptr, joinInfo join c.info x.info⟩
      refine ⟨y, o, rest, by rw [gather, if_pos h]; exact h1, by simp; omega, ?_⟩
      cases o with
      | none => simp only at h3 ⊢; rw [fuse, if_pos h]; exact h3
      | some z => simp only at h3 ⊢; rw [fuse, if_pos h]; exact ⟨h3.1, by simp; omega⟩
    · refine ⟨c, some x, xs, by rw [gather, if_neg h], by simp, ?_⟩
      simp only
      rw [fuse, if_neg h]
      exact ⟨rfl, by simp⟩

theorem drainSort_item (join : Option (Datum → Datum → Datum)) (n : Nat) : ∀ (c : Item Datum) (l : List (Item Datum)), l.length + 2 ≤ n →
    drainSort join n (.item c) l = some (fuse join c l) := by
  induction n with
  | zero => intro c l h; omega
  | succ n ih =>
    intro c l h
    obtain ⟨y, o, rest, h1, h2, h3⟩ := gather_fuse join l c
    rw [drainSort]
    · simp only [Pending.start, h1]
      cases o with
      | none =>
        simp only at h3 ⊢
        obtain ⟨m, rfl⟩ : ∃ m, n = m + 1 := ⟨n - 1, by omega⟩
        rw [h3.1, drainSort]; rfl
      | some x =>
        simp only at h3 ⊢
        rw [ih x rest (by omega), h3.1]; rfl
    · intro h; cases h

theorem drainSort_min (join : Option (Datum → Datum → Datum)) (n : Nat) (l : List (Item Datum)) (hn : l.length + 2 ≤ n) :
    drainSort join n .min l = some (fuseAll join l) := by
  obtain ⟨m, rfl⟩ : ∃ m, n = m + 1 := ⟨n - 1, by omega⟩
  cases l with
  | nil => rfl
  | cons x xs =>
    have := drainSort_item join (m + 1) x xs (by simp at hn; omega)
    rw [drainSort] at this ⊢
    · simp only [Pending.start] at this ⊢
      exact this
    · intro h; cases h
    · intro h; cases h

/-- Sorted items, those of a row side by side. -/
structure Fusable (alt : Bool) (cmpV : Datum → Datum → Ordering) (join : Option (Datum → Datum → Datum)) (L : List (Item Datum)) : Prop where
  sorted : L.Pairwise (fun a b => cmpItem alt cmpV a b ≠ .gt)
  same : alt = true → join = none ∧ ∀ a ∈ L, ∀ b ∈ L, a.iptr = b.iptr → a.info = b.info

section
variable {alt : Bool} {cmpV : Datum → Datum → Ordering} [TransCmp cmpV] {join : Option (Datum → Datum → Datum)}

theorem Fusable.eq_of_iptr {L : List (Item Datum)} (h : Fusable alt cmpV join L) {a b : Item Datum} (ha : a ∈ L) (hb : b ∈ L) (he : a.iptr = b.iptr) :
    cmpItem alt cmpV a b = .eq := by
  have htr := cmpItem_trans alt cmpV
  cases hal : alt with
  | false => simp only [cmpItem, Bool.false_eq_true, if_false, he]; exact ReflCmp.compare_self
  | true =>
    have hi := (h.same hal).2 a ha b hb he
    have : a = b := by cases a; cases b; simp_all
    rw [this, ← hal]; exact ReflCmp.compare_self (cmp := cmpItem alt cmpV)

omit [TransCmp cmpV] in
theorem cmpItem_eq_iptr {a b : Item Datum} (h : cmpItem alt cmpV a b = .eq) : a.iptr = b.iptr := by
  unfold cmpItem at h
  cases alt with
  | false => simp only [Bool.false_eq_true, if_false] at h; exact LawfulEqCmp.eq_of_compare h
  | true =>
    simp only [if_true] at h
    cases ha : a.info with
    | none =>
      cases hb : b.info with
      | none => rw [ha, hb] at h; exact LawfulEqCmp.eq_of_compare (cmp := cmpIptr) h
      | some y => rw [ha, hb] at h; cases h
    | some x =>
      cases hb : b.info with
      | none => rw [ha, hb] at h; cases h
      | some y =>
        rw [ha, hb] at h
        simp only at h
        cases hv : cmpV x y with
        | lt => rw [hv] at h; cases h
        | gt => rw [hv] at h; cases h
        | eq => rw [hv] at h; exact LawfulEqCmp.eq_of_compare (cmp := cmpIptr) h

omit [TransCmp cmpV] in
/-- What the joined item of two of the same row is like. -/
theorem Fusable.step {c x : Item Datum} {xs : List (Item Datum)} (h : Fusable alt cmpV join (c :: x :: xs)) (he : c.iptr = x.iptr) :
    Fusable alt cmpV join (⟨x.iptr, joinInfo join c.info x.info⟩ :: xs) := by
  cases hal : alt with
  | false =>
    refine ⟨?_, fun h => by cases h⟩
    have h1 := (List.pairwise_cons.1 h.sorted).2
    rw [List.pairwise_cons] at h1 ⊢
    rw [hal] at h1
    exact ⟨fun z hz => h1.1 z hz, h1.2⟩
  | true =>
    obtain ⟨hj, hs⟩ := h.same hal
    have hi := hs c (by simp) x (by simp) he
    have hx : (⟨x.iptr, joinInfo join c.info x.info⟩ : Item Datum) = x := by
      rw [hi, hj]
      cases x with
      | mk i o => cases o <;> rfl
    rw [hx]
    exact ⟨hal ▸ (List.pairwise_cons.1 h.sorted).2, fun _ => ⟨hj, fun a ha b hb => hs a (List.mem_cons_of_mem _ ha) b (List.mem_cons_of_mem _ hb)⟩⟩

omit [TransCmp cmpV] in
theorem Fusable.tail {c : Item Datum} {xs : List (Item Datum)} (h : Fusable alt cmpV join (c :: xs)) : Fusable alt cmpV join xs :=
  ⟨(List.pairwise_cons.1 h.sorted).2, fun ha => ⟨(h.same ha).1, fun a h1 b h2 => (h.same ha).2 a (List.mem_cons_of_mem _ h1) b (List.mem_cons_of_mem _ h2)⟩⟩

/-- If the next item is of another row, so are all others. -/
theorem Fusable.later {c x : Item Datum} {xs : List (Item Datum)} (h : Fusable alt cmpV join (c :: x :: xs)) (he : c.iptr ≠ x.iptr) :
    ∀ z ∈ x :: xs, cmpItem alt cmpV c z = .lt := by
  have htr := cmpItem_trans alt cmpV
  obtain ⟨h1, h2⟩ := List.pairwise_cons.1 h.sorted
  have hcx : cmpItem alt cmpV c x = .lt := by
    cases hc : cmpItem alt cmpV c x with
    | lt => rfl
    | eq => exact absurd (cmpItem_eq_iptr hc) he
    | gt => exact absurd hc (h1 x (by simp))
  intro z hz
  rcases List.mem_cons.1 hz with rfl | hz
  · exact hcx
  · have h3 := (List.pairwise_cons.1 h2).1 z hz
    rw [ne_eq, ← Ordering.isLE_iff_ne_gt] at h3
    exact TransCmp.lt_of_lt_of_isLE (cmp := cmpItem alt cmpV) hcx h3

theorem Fusable.ne {c z : Item Datum} {xs : List (Item Datum)} (h : Fusable alt cmpV join (c :: xs)) (hz : z ∈ xs) (hl : cmpItem alt cmpV c z = .lt) :
    z.iptr ≠ c.iptr := by
  intro he
  rw [h.eq_of_iptr (by simp) (List.mem_cons_of_mem _ hz) he.symm] at hl
  cases hl

omit [TransCmp cmpV] in
theorem mem_fuse_iptr (join : Option (Datum → Datum → Datum)) (l : List (Item Datum)) : ∀ (c : Item Datum) (t : Iptr),
    t ∈ (fuse join c l).map Item.iptr ↔ t ∈ (c :: l).map Item.iptr := by
  induction l with
  | nil => intro c t; rfl
  | cons x xs ih =>
    intro c t
    rw [fuse]
    split
    · next h =>
      have he : c.iptr = x.iptr := LawfulEqCmp.eq_of_compare h
      rw [ih]
      simp only [List.map_cons, List.mem_cons, he]
      constructor
      · rintro (h | h)
        · exact Or.inl h
        · exact Or.inr (Or.inr h)
      · rintro (h | h | h)
        · exact Or.inl h
        · exact Or.inl h
        · exact Or.inr h
    · rw [List.map_cons, List.mem_cons, ih]
      simp only [List.map_cons, List.mem_cons]

omit [TransCmp cmpV] in
theorem foldl_join (join : Option (Datum → Datum → Datum)) (c : Item Datum) (l : List (Option Datum)) :
    (c.info :: l).foldl (joinInfo join) none = l.foldl (joinInfo join) c.info := rfl

theorem fuse_ok (l : List (Item Datum)) : ∀ c : Item Datum, Fusable alt cmpV join (c :: l) →
    SSorted (cmpItem alt cmpV) (fuse join c l) ∧ ∀ y ∈ fuse join c l,
      y.info = (((c :: l).filter (fun z => z.iptr == y.iptr)).map Item.info).foldl (joinInfo join) none ∧
      ∃ z ∈ c :: l, z.iptr = y.iptr ∧ ∀ w, cmpItem alt cmpV w y = cmpItem alt cmpV w z := by
  have htr := cmpItem_trans alt cmpV
  induction l with
  | nil =>
    intro c _
    refine ⟨by simp [fuse, SSorted], fun y hy => ?_⟩
    simp only [fuse, List.mem_singleton] at hy
    subst hy
    refine ⟨?_, y, by simp, rfl, fun _ => rfl⟩
    simp [joinInfo]
  | cons x xs ih =>
    intro c H
    rw [fuse]
    split
    · next h =>
      have he : c.iptr = x.iptr := LawfulEqCmp.eq_of_compare h
      obtain ⟨i1, i2⟩ := ih _ (H.step he)
      refine ⟨i1, fun y hy => ?_⟩
      obtain ⟨i3, z, hz, hze, hzc⟩ := i2 y hy
      constructor
      · rw [i3]
        by_cases hy' : x.iptr = y.iptr
        · have hc' : c.iptr = y.iptr := he.trans hy'
          rw [List.filter_cons_of_pos (by simp [hy']), List.filter_cons_of_pos (by simp [hc']), List.filter_cons_of_pos (by simp [hy'])]
          rfl
        · have hc' : ¬ c.iptr = y.iptr := fun h => hy' (he.symm.trans h)
          rw [List.filter_cons_of_neg (by simp [hy']), List.filter_cons_of_neg (by simp [hc']), List.filter_cons_of_neg (by simp [hy'])]
      · rcases List.mem_cons.1 hz with rfl | hz
        · refine ⟨x, by simp, hze, fun w => ?_⟩
          rw [hzc]
          cases hal : alt with
          | false => rfl
          | true =>
            obtain ⟨hj, hs⟩ := H.same hal
            have hi := hs c (by simp) x (by simp) he
            have hx : (⟨x.iptr, joinInfo join c.info x.info⟩ : Item Datum) = x := by
              rw [hi, hj]
              cases x with
              | mk i o => cases o <;> rfl
            rw [hx]
        · exact ⟨z, by simp [hz], hze, hzc⟩
    · next h =>
      have he : c.iptr ≠ x.iptr := fun e => h (by rw [e]; exact ReflCmp.compare_self)
      obtain ⟨i1, i2⟩ := ih x H.tail
      have hlt := H.later he
      refine ⟨List.pairwise_cons.2 ⟨fun y hy => ?_, i1⟩, fun y hy => ?_⟩
      · obtain ⟨-, z, hz, -, hzc⟩ := i2 y hy
        rw [hzc]; exact hlt z hz
      · rcases List.mem_cons.1 hy with rfl | hy
        · refine ⟨?_, y, by simp, rfl, fun _ => rfl⟩
          rw [List.filter_cons_of_pos (by simp), List.filter_eq_nil_iff.2]
          · simp [joinInfo]
          · intro z hz
            simpa using H.ne hz (hlt z hz)
        · obtain ⟨i3, z, hz, hze, hzc⟩ := i2 y hy
          refine ⟨?_, z, List.mem_cons_of_mem _ hz, hze, hzc⟩
          have : c.iptr ≠ y.iptr := by
            rw [← hze]; exact (H.ne hz (hlt z hz)).symm
          rw [List.filter_cons_of_neg (by simpa using this)]
          exact i3

end

/-! ### The keys collected -/

theorem att_lt {cmpK : Nat → V → V → Ordering} {a b : AttKey V} (h : cmpAttEntries cmpK a b = .lt) :
    a.attnum < b.attnum ∨ (a.attnum = b.attnum ∧ (a.cat.code < b.cat.code ∨ (a.cat = .norm ∧ b.cat = .norm ∧ cmpK a.attnum a.key b.key = .lt))) := by
  unfold cmpAttEntries cmpEntries at h
  split at h
  · split at h
    · left; omega
    · cases h
  · next h1 =>
    right
    refine ⟨by simpa using h1, ?_⟩
    split at h
    · split at h
      · left; assumption
      · cases h
    · next h2 =>
      have h2 : a.cat = b.cat := by simpa using h2
      split at h
      · cases h
      · next h3 =>
        have h3 : a.cat = .norm := by simpa using h3
        exact Or.inr ⟨h3, by rw [← h2, h3], h⟩

theorem att_not_lt {cmpK : Nat → V → V → Ordering} {a b : AttKey V} (h : cmpAttEntries cmpK a b ≠ .lt) :
    b.attnum < a.attnum ∨ (a.attnum = b.attnum ∧ (b.cat.code < a.cat.code ∨ (a.cat = b.cat ∧ (a.cat = .norm → cmpK a.attnum a.key b.key ≠ .lt)))) := by
  unfold cmpAttEntries cmpEntries at h
  split at h
  · split at h
    · exact absurd rfl h
    · left; omega
  · next h1 =>
    right
    refine ⟨by simpa using h1, ?_⟩
    split at h
    · next h2 =>
      split at h
      · exact absurd rfl h
      · left
        have : a.cat.code ≠ b.cat.code := fun e => h2 (Cat.code_inj e)
        omega
    · next h2 =>
      have h2 : a.cat = b.cat := by simpa using h2
      refine Or.inr ⟨h2, fun h3 => ?_⟩
      rw [if_neg (by simp [h3])] at h
      exact h

/-- The walk finds all that is wanted in sorted tuples from the query key on. -/
theorem judgeAll_filter {ix : Ix V} {M : Lim} (hc : ColsOK ix M) {st : State V} {attnum : Nat} {lk : Look V} (hlk : LookOK (ix.cmpK attnum) lk)
    (hv : lk.void = false) (hx : lk.mode ≠ .exact) (es : List (Index.Ent V)) (hs : SSorted ix.cmp es)
    (hge : ∀ e ∈ es, ix.cmp e (probe ⟨attnum, lk.cat, lk.key⟩) ≠ .lt) :
    judgeAll ix st attnum lk.mode es = (es.filter (fun e => decide (judge attnum lk.mode e.key = .take))).flatMap (rows ix st) := by
  have := hc.keys
  induction es with
  | nil => rfl
  | cons e es ih =>
    obtain ⟨h1, h2⟩ := List.pairwise_cons.1 hs
    have ih := ih h2 (fun x hx => hge x (List.mem_cons_of_mem _ hx))
    have hge0 : ∀ x ∈ e :: es, attnum ≤ x.key.attnum := by
      intro x hx
      rcases att_not_lt (hge x hx) with h | h
      · exact _root_.le_of_lt h
      · exact h.1.ge
    rw [judgeAll]
    cases hj : judge attnum lk.mode e.key with
    | skip => rw [List.filter_cons_of_neg (by simp [hj])]; exact ih
    | take => rw [List.filter_cons_of_pos (by simp [hj]), List.flatMap_cons, ← ih]
    | stop =>
      rw [List.filter_cons_of_neg (by simp [hj]), List.filter_eq_nil_iff.2]
      · rfl
      · intro x hx' hjx
        simp only [decide_eq_true_eq] at hjx
        have hlt := att_lt (h1 x hx')
        have ha := hge0 e (by simp)
        have hxa : x.key.attnum = attnum := by
          unfold judge at hjx
          by_contra hne
          rw [if_pos hne] at hjx
          cases hjx
        have hea : e.key.attnum = attnum := by
          rcases hlt with h | h <;> omega
        have hlt : e.key.cat.code < x.key.cat.code ∨ (e.key.cat = .norm ∧ x.key.cat = .norm ∧ ix.cmpK attnum e.key.key x.key.key = .lt) := by
          rcases hlt with h | h
          · omega
          · rw [hea] at h; exact h.2
        unfold judge at hj hjx
        rw [if_neg (by simp [hea])] at hj
        rw [if_neg (by simp [hxa])] at hjx
        cases hm : lk.mode with
        | exact => exact hx hm
        | everything => rw [hm] at hj; cases hj
        | all =>
          rw [hm] at hj hjx
          simp only at hj hjx
          split at hj
          · next h3 =>
            rcases hlt with h | h
            · rw [h3] at h
              cases hcx : x.key.cat <;> rw [hcx] at h <;> simp [Cat.code] at h
            · rw [h3] at h; cases h.1
          · cases hj
        | part cp =>
          rw [hm] at hj hjx
          simp only at hj hjx
          have hcn : lk.cat = .norm := by
            unfold Look.void at hv; rw [hm] at hv; simpa using hv
          have hr : RangeOK (ix.cmpK attnum) lk.key cp := by
            unfold LookOK at hlk; rw [hm] at hlk; exact hlk hcn
          have hxn : x.key.cat = .norm := by
            by_contra hne
            rw [if_pos hne] at hjx; cases hjx
          rw [if_neg (by simp [hxn])] at hjx
          have hx0 : cp x.key.key = 0 := by
            split at hjx
            · cases hjx
            · split at hjx
              · cases hjx
              · omega
          have hen := att_not_lt (hge e (by simp))
          split at hj
          · next h3 =>
            rcases hlt with h | h
            · rcases hen with h4 | h4
              · exact absurd h4 (by show ¬ attnum < e.key.attnum; omega)
              · have h5 := h4.2
                simp only [probe, hcn] at h5
                rw [hxn] at h
                rcases h5 with h5 | h5
                · simp [Cat.code] at h h5; omega
                · exact h3 h5.1
            · exact h3 h.1
          · next h3 =>
            have h3 : e.key.cat = .norm := by simpa using h3
            split at hj
            · next h4 =>
              refine hr.stop e.key.key x.key.key h4 ?_ ?_ hx0
              · rcases hen with h5 | h5
                · exact absurd h5 (by show ¬ attnum < e.key.attnum; omega)
                · have h5 := h5.2
                  simp only [probe, hcn, h3, hea] at h5
                  rcases h5 with h5 | h5
                  · omega
                  · intro hgt
                    exact h5.2 trivial (OrientedCmp.lt_of_gt hgt)
              · rcases hlt with h | h
                · rw [h3, hxn] at h; omega
                · rw [h.2.2]; simp
            · split at hj <;> cases hj

/-- Nothing below the query key is wanted. -/
theorem below_unwanted {ix : Ix V} {M : Lim} (hc : ColsOK ix M) {attnum : Nat} {lk : Look V} (hlk : LookOK (ix.cmpK attnum) lk)
    (hv : lk.void = false) (hx : lk.mode ≠ .exact) {e : Index.Ent V} (hlt : ix.cmp e (probe ⟨attnum, lk.cat, lk.key⟩) = .lt) :
    judge attnum lk.mode e.key ≠ .take := by
  have := hc.keys
  intro hj
  have hea : e.key.attnum = attnum := by
    unfold judge at hj
    by_contra hne
    rw [if_pos hne] at hj
    cases hj
  have hlt := att_lt hlt
  simp only [probe] at hlt
  rw [hea] at hlt
  have hlt : e.key.cat.code < lk.cat.code ∨ (e.key.cat = .norm ∧ lk.cat = .norm ∧ ix.cmpK attnum e.key.key lk.key = .lt) := by
    rcases hlt with h | h
    · omega
    · exact h.2
  have hempty : lk.cat = .emptyQuery → False := by
    intro h
    rw [h] at hlt
    rcases hlt with h | h
    · cases hce : e.key.cat <;> rw [hce] at h <;> simp [Cat.code] at h
    · cases h.2.1
  unfold LookOK at hlk
  cases hm : lk.mode with
  | exact => exact hx hm
  | everything => rw [hm] at hlk; exact hempty hlk
  | all => rw [hm] at hlk; exact hempty hlk
  | part cp =>
    rw [hm] at hlk
    have hcn : lk.cat = .norm := by
      unfold Look.void at hv; rw [hm] at hv; simpa using hv
    have hr : RangeOK (ix.cmpK attnum) lk.key cp := hlk hcn
    unfold judge at hj
    rw [if_neg (by simp [hea]), hm] at hj
    simp only at hj
    split at hj
    · cases hj
    · next h3 =>
      have h3 : e.key.cat = .norm := by simpa using h3
      have hx0 : cp e.key.key = 0 := by
        split at hj
        · cases hj
        · split at hj
          · cases hj
          · omega
      rcases hlt with h | h
      · rw [h3, hcn] at h; omega
      · exact hr.above _ hx0 (OrientedCmp.gt_of_lt h.2.2)

/-- The walk finds all that is wanted. -/
theorem collected {C : Prop} {ix : Ix V} [Inhabited V] {M : Lim} (hc : ColsOK ix M) {st : State V} (H : IInv C ix M st) {attnum : Nat} {lk : Look V}
    (hlk : LookOK (ix.cmpK attnum) lk) (hv : lk.void = false) (hx : lk.mode ≠ .exact) :
    ∃ b up, findLeaf ix.ops st.entry rootBlk (probe ⟨attnum, lk.cat, lk.key⟩) st.entry.next rootBlk [] = some ((b, 0) :: up) ∧
      ∀ n, (contents st.entry rootBlk).length < n →
        ix.collect st attnum lk.mode n b (ix.locate (st.entry.page b).items (probe ⟨attnum, lk.cat, lk.key⟩)).2 =
          some (((contents st.entry rootBlk).filter (fun e => decide (judge attnum lk.mode e.key = .take))).flatMap (rows ix st)) := by
  have := hc.keys
  have htr := cmp_trans ix
  obtain ⟨b, up, pre, suf, h1, h2, h3, h4, h5⟩ := walk_ok hc H attnum lk.mode ⟨attnum, lk.cat, lk.key⟩
  refine ⟨b, up, h1, fun n hn => ?_⟩
  have hs : SSorted ix.cmp (contents st.entry rootBlk) := by
    obtain ⟨K, hK, key, G, hk, hG, hB⟩ := H.entry
    exact contents_sorted (o := ix.ops) hk hG.weak
  rw [h2] at hs hn
  have hpre : pre.filter (fun e => decide (judge attnum lk.mode e.key = .take)) = [] :=
    List.filter_eq_nil_iff.2 (fun e he => by simpa using below_unwanted hc hlk hv hx (h3 e he))
  rw [h5 n (by simp at hn; omega), judgeAll_filter hc hlk hv hx suf (List.pairwise_append.1 hs).2.1 h4, h2, List.filter_append, hpre, List.nil_append]

/-! ### What an entry delivers -/

/-- What an entry must deliver. -/
structure Strm (ix : Ix V) (rc : RowCfg V) (join : Option (Datum → Datum → Datum)) (rs : List (Row V)) (attnum : Nat) (lk : Look V) (S : List (Item Datum)) : Prop where
  sorted : SSorted (ix.ctx attnum).cmp S
  once : (S.map Item.iptr).Nodup
  rows : ∀ tid, tid ∈ S.map Item.iptr ↔ ∃ r ∈ rs, r.tid = tid ∧ ∃ k, Wants ix attnum lk k ∧ Contains (ix.cmpK attnum) (r.value attnum) k
  info : ∀ y ∈ S, ∀ r ∈ rs, r.tid = y.iptr → Sees ix rc join r attnum lk (some y.info)
  valid : ∀ y ∈ S, 1 ≤ y.iptr.off

theorem wants_same {ix : Ix V} {M : Lim} (hc : ColsOK ix M) {attnum : Nat} {lk : Look V} (hlk : LookOK (ix.cmpK attnum) lk) {k k' : AttKey V}
    (hw : Wants ix attnum lk k) (hs : cmpAttEntries ix.cmpK k k' = .eq) : Wants ix attnum lk k' := by
  have := hc.keys
  have ha : k.attnum = k'.attnum := same_attnum (ix := ix) hs
  have hcat : k.cat = k'.cat ∧ (k.cat = .norm → ix.cmpK k.attnum k.key k'.key = .eq) := by
    unfold cmpAttEntries cmpEntries at hs
    rw [if_neg (by simp [ha])] at hs
    split at hs
    · split at hs <;> cases hs
    · next h2 =>
      have h2 : k.cat = k'.cat := by simpa using h2
      refine ⟨h2, fun h => ?_⟩
      rw [if_neg (by simp [h])] at hs
      exact hs
  obtain ⟨h1, h2⟩ := hw
  refine ⟨ha ▸ h1, ?_⟩
  unfold LookOK at hlk
  cases hm : lk.mode with
  | exact => rw [hm] at h2; exact TransCmp.eq_trans (cmp := cmpAttEntries ix.cmpK) h2 hs
  | everything => trivial
  | all => rw [hm] at h2; exact hcat.1 ▸ h2
  | part cp =>
    rw [hm] at h2 hlk
    refine ⟨h2.1, hcat.1 ▸ h2.2.1, (hlk h2.1).same _ _ ?_ h2.2.2⟩
    have := hcat.2 h2.2.1
    rw [h1] at this
    exact this

theorem judge_take {ix : Ix V} {attnum : Nat} {lk : Look V} (hv : lk.void = false) (hx : lk.mode ≠ .exact) (k : AttKey V) :
    judge attnum lk.mode k = .take ↔ Wants ix attnum lk k := by
  unfold judge Wants
  unfold Look.void at hv
  by_cases ha : k.attnum = attnum
  · rw [if_neg (by simp [ha])]
    cases hm : lk.mode with
    | exact => exact absurd hm hx
    | everything => simp [ha]
    | all => simp only [ha, true_and]; by_cases h : k.cat = .nullItem <;> simp [h]
    | part cp =>
      rw [hm] at hv
      have hcn : lk.cat = .norm := by simpa using hv
      simp only [ha, true_and, hcn]
      by_cases h : k.cat = .norm
      · simp only [h, ne_eq, not_true, if_false, true_and]
        split
        · simp; omega
        · split
          · simp; omega
          · simp; omega
      · simp [h]
  · rw [if_pos ha]; simp [ha]

/-- The items of one row among those of several keys. -/
theorem pick {α : Type} (R : α → List (Item Datum)) (t : Iptr) (es : List α) (h : ∀ e ∈ es, ((R e).map Item.iptr).Nodup) :
    ∃ es' : List α, es'.Sublist es ∧ List.Forall₂ (fun e x => x ∈ R e ∧ x.iptr = t) es' ((es.flatMap R).filter (fun z => z.iptr == t)) ∧
      ∀ e ∈ es, t ∈ (R e).map Item.iptr → e ∈ es' := by
  induction es with
  | nil => exact ⟨[], List.Sublist.refl _, by simp, by simp⟩
  | cons e es ih =>
    obtain ⟨es', h1, h2, h3⟩ := ih (fun x hx => h x (List.mem_cons_of_mem _ hx))
    have hnd := h e (by simp)
    rw [List.flatMap_cons, List.filter_append]
    by_cases ht : t ∈ (R e).map Item.iptr
    · obtain ⟨x, hx, hxt⟩ := List.mem_map.1 ht
      have hf : (R e).filter (fun z => z.iptr == t) = [x] := by
        generalize R e = l at hnd hx
        clear h ht h2 h3 ih
        induction l with
        | nil => cases hx
        | cons y ys ih =>
          rw [List.map_cons, List.nodup_cons] at hnd
          rcases List.mem_cons.1 hx with rfl | hx
          · rw [List.filter_cons_of_pos (by simp [hxt]), List.filter_eq_nil_iff.2]
            intro z hz hz'
            exact hnd.1 (by rw [hxt, ← show z.iptr = t by simpa using hz']; exact List.mem_map_of_mem hz)
          · rw [List.filter_cons_of_neg, ih hnd.2 hx]
            intro hy
            exact hnd.1 (by rw [show y.iptr = t by simpa using hy, ← hxt]; exact List.mem_map_of_mem hx)
      rw [hf]
      refine ⟨e :: es', List.Sublist.cons_cons _ h1, List.Forall₂.cons ⟨hx, hxt⟩ h2, fun z hz hzt => ?_⟩
      rcases List.mem_cons.1 hz with rfl | hz
      · simp
      · exact List.mem_cons_of_mem _ (h3 z hz hzt)
    · have hf : (R e).filter (fun z => z.iptr == t) = [] := by
        rw [List.filter_eq_nil_iff]
        intro z hz hz'
        exact ht (by rw [← show z.iptr = t by simpa using hz']; exact List.mem_map_of_mem hz)
      rw [hf, List.nil_append]
      refine ⟨es', List.Sublist.cons _ h1, h2, fun z hz hzt => ?_⟩
      rcases List.mem_cons.1 hz with rfl | hz
      · exact absurd hzt ht
      · exact h3 z hz hzt

theorem sortCmp_trans {ix : Ix V} {M : Lim} (hc : ColsOK ix M) (attnum : Nat) : TransCmp (ix.sortCmp attnum) := by
  have := hc.infos attnum
  unfold Ix.sortCmp
  split
  · exact Sort.C36_item_sort_transitive _
  · have h : comparetupRumitem (V := Datum) none = cmpItem false (ix.ctx attnum).cmpV := by
      funext a b
      exact Sort.C36_item_sort_partial none _ (by simp) a b (by simp)
    rw [h]; exact cmpItem_trans _ _

section
variable {ix : Ix V} [Inhabited V] {rc : RowCfg V} {M : Lim} {st : State V} {rs : List (Row V)} {attnum : Nat} {lk : Look V}

theorem exact_strm (hc : ColsOK ix M) (htid : (rs.map Row.tid).Nodup) (H : IInv True ix M st) (hI : Indexes ix rc st rs) (h1 : 1 ≤ attnum) (h2 : attnum ≤ rc.natts)
    (hx : lk.mode = .exact) (join : Option (Datum → Datum → Datum)) :
    Strm ix rc join rs attnum lk (ix.rowsOf st ⟨attnum, lk.cat, lk.key⟩) := by
  have := hc.keys
  obtain ⟨i1, i2, i3, i4⟩ := hI ⟨attnum, lk.cat, lk.key⟩ h1 h2
  have hw : ∀ k, Wants ix attnum lk k ↔ k.attnum = attnum ∧ cmpAttEntries ix.cmpK ⟨attnum, lk.cat, lk.key⟩ k = .eq := by
    intro k; unfold Wants; rw [hx]
  have hself : Wants ix attnum lk ⟨attnum, lk.cat, lk.key⟩ := (hw _).2 ⟨rfl, ReflCmp.compare_self (cmp := cmpAttEntries ix.cmpK)⟩
  refine ⟨i1, i2, fun tid => ?_, fun y hy r hr he => ?_, rowsOf_valid hc H _⟩
  · rw [i3]
    constructor
    · rintro ⟨r, hr, he, hcon⟩
      exact ⟨r, hr, he, _, hself, hcon⟩
    · rintro ⟨r, hr, he, k, hk, hcon⟩
      have hk' := ((hw k).1 hk).2
      refine ⟨r, hr, he, ?_⟩
      have hka : k.attnum = attnum := ((hw k).1 hk).1
      have h3 := (hI k (by omega) (by omega)).2.2.1 tid
      rw [hka] at h3
      have h4 : tid ∈ (ix.rowsOf st k).map Item.iptr := h3.2 ⟨r, hr, he, hcon⟩
      have h5 : ix.rowsOf st k = ix.rowsOf st ⟨attnum, lk.cat, lk.key⟩ := by
        rcases H.rowsOf hc k with ⟨e, e1, e2, e3⟩ | ⟨-, e3⟩
        · rw [e3, H.rowsOf_eq hc e1 (k := ⟨attnum, lk.cat, lk.key⟩)]
          exact TransCmp.eq_trans (cmp := cmpAttEntries ix.cmpK) hk' e2
        · rw [e3] at h4; cases h4
      rw [h5] at h4
      obtain ⟨q, hq, q1, q2⟩ := (i3 tid).1 h4
      obtain rfl := List.inj_on_of_nodup_map htid hq hr (q1.trans he.symm)
      exact q2
  · obtain ⟨q, hq, q1, q2⟩ := i4 y hy
    obtain rfl := List.inj_on_of_nodup_map htid hq hr (q1.trans he.symm)
    obtain ⟨p, hp, p1, p2⟩ := (i3 y.iptr).1 (List.mem_map_of_mem hy)
    obtain rfl := List.inj_on_of_nodup_map htid hp hr (p1.trans he.symm)
    refine ⟨[⟨attnum, lk.cat, lk.key⟩], [y.info], by simp, ?_, by simp, ?_, by simpa using q2, ?_⟩
    · intro k hk
      simp only [List.mem_singleton] at hk
      subst hk
      exact ⟨hself, p2⟩
    · intro k hk _
      exact ⟨_, by simp, OrientedCmp.eq_symm (cmp := cmpAttEntries ix.cmpK) ((hw k).1 hk).2⟩
    · simp [joinInfo]

theorem many_strm {alternative : Bool} (hc : ColsOK ix M) (htid : (rs.map Row.tid).Nodup) (H : IInv True ix M st) (hI : Indexes ix rc st rs)
    (ho : OptionsOK ix rc alternative) (h1 : 1 ≤ attnum) (h2 : attnum ≤ rc.natts) (hlk : LookOK (ix.cmpK attnum) lk) (hv : lk.void = false) (hx : lk.mode ≠ .exact)
    (join : Option (Datum → Datum → Datum)) (hj : alternative = true → rc.addTo = some attnum → join = none)
    (hsome : alternative = true → rc.addTo = some attnum → ∀ r ∈ rs, r.outer.isSome = true)
    (sort : (Item Datum → Item Datum → Ordering) → List (Item Datum) → List (Item Datum)) (hq : Sorts sort) {L : List (Item Datum)}
    (hL : L = sort (ix.sortCmp attnum)
      (((contents st.entry rootBlk).filter (fun e => decide (judge attnum lk.mode e.key = .take))).flatMap (Index.rows ix st))) :
    Strm ix rc join rs attnum lk (fuseAll join L) := by
  have hK := hc.keys
  have hinf := hc.infos attnum
  have htr := cmp_trans ix
  have htrI : TransCmp (ix.ctx attnum).cmp := cmpItem_trans _ _
  set es := (contents st.entry rootBlk).filter (fun e => decide (judge attnum lk.mode e.key = .take)) with hes
  obtain ⟨hperm, hsorted⟩ := hq (ix.sortCmp attnum) (sortCmp_trans hc attnum) (es.flatMap (Index.rows ix st))
  rw [← hL] at hperm hsorted
  have hmem : ∀ e ∈ es, e ∈ contents st.entry rootBlk ∧ Wants ix attnum lk e.key ∧ ix.rowsOf st e.key = Index.rows ix st e := by
    intro e he
    obtain ⟨e1, e2⟩ := List.mem_filter.1 he
    refine ⟨e1, (judge_take hv hx _).1 (by simpa using e2), H.rowsOf_eq hc e1 ?_⟩
    exact ReflCmp.compare_self (cmp := cmpAttEntries ix.cmpK)
  have hIe : ∀ e ∈ es, ((Index.rows ix st e).map Item.iptr).Nodup ∧
      (∀ tid, tid ∈ (Index.rows ix st e).map Item.iptr ↔ ∃ r ∈ rs, r.tid = tid ∧ Contains (ix.cmpK attnum) (r.value attnum) e.key) ∧
      ∀ y ∈ Index.rows ix st e, ∃ r ∈ rs, r.tid = y.iptr ∧ InfoOf rc (ix.cmpK attnum) r e.key y.info := by
    intro e he
    obtain ⟨-, m2, m3⟩ := hmem e he
    have ha := m2.1
    have := (hI e.key (by omega) (by omega)).2
    rw [m3, ha] at this
    exact this
  have hitem : ∀ x ∈ L, ∃ e ∈ es, x ∈ Index.rows ix st e := fun x hx => by
    have := hperm.mem_iff.1 hx
    simpa using this
  have hadd : ∀ x ∈ L, ∀ r ∈ rs, r.tid = x.iptr → rc.addTo = some attnum → x.info = r.outer := by
    intro x hx r hr he ha
    obtain ⟨e, he', hxe⟩ := hitem x hx
    obtain ⟨q, hq, q1, q2⟩ := (hIe e he').2.2 x hxe
    obtain rfl := List.inj_on_of_nodup_map htid hq hr (q1.trans he.symm)
    unfold InfoOf at q2
    rwa [if_pos (by rw [(hmem e he').2.1.1]; exact ha)] at q2
  have hrow : ∀ x ∈ L, ∃ r ∈ rs, r.tid = x.iptr := by
    intro x hx
    obtain ⟨e, he', hxe⟩ := hitem x hx
    obtain ⟨q, hq, q1, -⟩ := (hIe e he').2.2 x hxe
    exact ⟨q, hq, q1⟩
  have hfus : Fusable ((ix.ctx attnum).cfg.alt && (ix.ctx attnum).isAddTo) (ix.ctx attnum).cmpV join L := by
    obtain ⟨o1, o2⟩ := ho attnum
    have hopt : ((ix.ctx attnum).cfg.alt && (ix.ctx attnum).isAddTo) = true → alternative = true ∧ rc.addTo = some attnum := by
      rw [o1, o2]; simp
    refine ⟨hsorted.imp_of_mem (fun {a b} ha hb hab => ?_), fun halt => ?_⟩
    · have := Sort.C36_item_sort_partial (if (ix.ctx attnum).cfg.alt && (ix.ctx attnum).isAddTo then some (ix.ctx attnum).cmpV else none) (ix.ctx attnum).cmpV
        (by intro c hc'; split at hc' <;> simp_all) a b (by
          intro hs
          have halt : ((ix.ctx attnum).cfg.alt && (ix.ctx attnum).isAddTo) = true := by
            by_contra hne
            rw [if_neg hne] at hs; cases hs
          obtain ⟨p1, p2⟩ := hopt halt
          obtain ⟨r, hr, r1⟩ := hrow a ha
          obtain ⟨q, hq', q1⟩ := hrow b hb
          rw [hadd a ha r hr r1 p2, hadd b hb q hq' q1 p2]
          exact ⟨hsome p1 p2 r hr, hsome p1 p2 q hq'⟩)
      have hiso : (if (ix.ctx attnum).cfg.alt && (ix.ctx attnum).isAddTo then some (ix.ctx attnum).cmpV else none).isSome =
          ((ix.ctx attnum).cfg.alt && (ix.ctx attnum).isAddTo) := by
        cases (ix.ctx attnum).cfg.alt && (ix.ctx attnum).isAddTo <;> rfl
      rw [hiso] at this
      rw [← this]; exact hab
    · obtain ⟨p1, p2⟩ := hopt halt
      refine ⟨hj p1 p2, fun a ha b hb he => ?_⟩
      obtain ⟨r, hr, r1⟩ := hrow a ha
      rw [hadd a ha r hr r1 p2, hadd b hb r hr (r1.trans he) p2]
  -- facts on the joined list
  have key : ∀ S, S = fuseAll join L → SSorted (ix.ctx attnum).cmp S ∧ (∀ t, t ∈ S.map Item.iptr ↔ t ∈ L.map Item.iptr) ∧
      (∀ y ∈ S, y.info = ((L.filter (fun z => z.iptr == y.iptr)).map Item.info).foldl (joinInfo join) none ∧
        ∃ z ∈ L, z.iptr = y.iptr ∧ ∀ w, (ix.ctx attnum).cmp w y = (ix.ctx attnum).cmp w z) := by
    rintro S rfl
    cases hLc : L with
    | nil => simp [SSorted, fuseAll]
    | cons x xs =>
      rw [hLc] at hfus
      obtain ⟨f1, f2⟩ := fuse_ok xs x hfus
      exact ⟨f1, fun t => mem_fuse_iptr join xs x t, f2⟩
  generalize fuseAll join L = S at key
  obtain ⟨k1, k2, k3⟩ := key S rfl
  refine ⟨k1, ?_, fun tid => ?_, fun y hy r hr he => ?_, fun y hy => ?_⟩
  · rw [List.Nodup, List.pairwise_map]
    refine k1.imp_of_mem (fun {a b} ha hb hab hab' => ?_)
    obtain ⟨-, za, hza, za1, za2⟩ := k3 a ha
    obtain ⟨-, zb, hzb, zb1, zb2⟩ := k3 b hb
    have e1 : (ix.ctx attnum).cmp za zb = .eq := hfus.eq_of_iptr hza hzb (za1.trans (hab'.trans zb1.symm))
    have e2 : (ix.ctx attnum).cmp za a = .eq := by
      rw [za2]; exact ReflCmp.compare_self (cmp := (ix.ctx attnum).cmp)
    have e3 : (ix.ctx attnum).cmp a b = .eq := by
      rw [zb2]; exact TransCmp.eq_trans (cmp := (ix.ctx attnum).cmp) (OrientedCmp.eq_symm (cmp := (ix.ctx attnum).cmp) e2) e1
    rw [e3] at hab; cases hab
  · rw [k2]
    constructor
    · intro ht
      obtain ⟨x, hx', rfl⟩ := List.mem_map.1 ht
      obtain ⟨e, he, hxe⟩ := hitem x hx'
      obtain ⟨r, hr, r1, r2⟩ := ((hIe e he).2.1 x.iptr).1 (List.mem_map_of_mem hxe)
      exact ⟨r, hr, r1, e.key, (hmem e he).2.1, r2⟩
    · rintro ⟨r, hr, rfl, k, hk, hcon⟩
      have hka := hk.1
      have h3 := (hI k (by omega) (by omega)).2.2.1 r.tid
      rw [hka] at h3
      have h4 : r.tid ∈ (ix.rowsOf st k).map Item.iptr := h3.2 ⟨r, hr, rfl, hcon⟩
      rcases H.rowsOf hc k with ⟨e, e1, e2, e3⟩ | ⟨-, e3⟩
      · rw [e3] at h4
        obtain ⟨x, hx', x1⟩ := List.mem_map.1 h4
        refine List.mem_map.2 ⟨x, hperm.mem_iff.2 (List.mem_flatMap.2 ⟨e, ?_, hx'⟩), x1⟩
        exact List.mem_filter.2 ⟨e1, by simpa using (judge_take hv hx e.key).2 (wants_same hc hlk hk e2)⟩
      · rw [e3] at h4; cases h4
  · obtain ⟨y1, -⟩ := k3 y hy
    obtain ⟨es', p1, p2, p3⟩ := pick (Index.rows ix st) y.iptr es (fun e he => (hIe e he).1)
    obtain ⟨es'', q1, q2⟩ : Relation.Comp (List.Perm (α := Index.Ent V))
        (List.Forall₂ (fun (e : Index.Ent V) (x : Item Datum) => x ∈ Index.rows ix st e ∧ x.iptr = y.iptr)) es' (L.filter (fun z => z.iptr == y.iptr)) := by
      rw [← List.forall₂_comp_perm_eq_perm_comp_forall₂]
      exact ⟨_, p2, (hperm.filter _).symm⟩
    have hsub : ∀ e ∈ es'', e ∈ es := fun e he => p1.subset (q1.mem_iff.2 he)
    have hss : SSorted ix.cmp es' := by
      obtain ⟨K, hK, key, G, hk, hG, hB⟩ := H.entry
      exact (contents_sorted (o := ix.ops) hk hG.weak).sublist (p1.trans (List.filter_sublist))
    have hconr : ∀ e ∈ es, (Contains (ix.cmpK attnum) (r.value attnum) e.key ↔ y.iptr ∈ (Index.rows ix st e).map Item.iptr) := by
      intro e he'
      rw [(hIe e he').2.1]
      constructor
      · intro h; exact ⟨r, hr, he, h⟩
      · rintro ⟨q, hq', q1, q2⟩
        obtain rfl := List.inj_on_of_nodup_map htid hq' hr (q1.trans he.symm)
        exact q2
    refine ⟨es''.map (·.key), (L.filter (fun z => z.iptr == y.iptr)).map Item.info, ?_, ?_, ?_, ?_, ?_, y1⟩
    · intro h0
      have h0 : es'' = [] := by simpa using h0
      rw [h0] at q2
      have h5 : L.filter (fun z => z.iptr == y.iptr) = [] := List.forall₂_nil_left_iff.1 q2
      obtain ⟨x, hx', x1⟩ := List.mem_map.1 ((k2 y.iptr).1 (List.mem_map_of_mem hy))
      have := List.filter_eq_nil_iff.1 h5 x hx'
      simp [x1] at this
    · intro k hk
      obtain ⟨e, he', rfl⟩ := List.mem_map.1 hk
      refine ⟨(hmem e (hsub e he')).2.1, (hconr e (hsub e he')).2 ?_⟩
      obtain ⟨x, -, hx1, hx2⟩ : ∃ x ∈ L.filter (fun z => z.iptr == y.iptr), x ∈ Index.rows ix st e ∧ x.iptr = y.iptr := by
        clear y1 p2 p3 q1 hsub hk
        generalize L.filter (fun z => z.iptr == y.iptr) = F at q2
        induction q2 with
        | nil => cases he'
        | cons h _ ih =>
          rcases List.mem_cons.1 he' with rfl | he'
          · exact ⟨_, by simp, h⟩
          · obtain ⟨x, g1, g2⟩ := ih he'
            exact ⟨x, List.mem_cons_of_mem _ g1, g2⟩
      rw [← hx2]; exact List.mem_map_of_mem hx1
    · rw [List.pairwise_map]
      refine (q1.pairwise_iff (R := fun a b : Index.Ent V => cmpAttEntries ix.cmpK a.key b.key ≠ .eq) ?_).1 ?_
      · intro a b hab h
        exact hab (OrientedCmp.eq_symm (cmp := cmpAttEntries ix.cmpK) h)
      · refine hss.imp (fun {a b} hab h => ?_)
        have : cmpAttEntries ix.cmpK a.key b.key = .lt := hab
        rw [this] at h; cases h
    · intro k hk hcon
      have hka := hk.1
      have h3 := (hI k (by omega) (by omega)).2.2.1 r.tid
      rw [hka] at h3
      have h4 : r.tid ∈ (ix.rowsOf st k).map Item.iptr := h3.2 ⟨r, hr, rfl, hcon⟩
      rcases H.rowsOf hc k with ⟨e, e1, e2, e3⟩ | ⟨-, e3⟩
      · rw [e3, he] at h4
        have hee : e ∈ es := List.mem_filter.2 ⟨e1, by simpa using (judge_take hv hx e.key).2 (wants_same hc hlk hk e2)⟩
        exact ⟨e.key, List.mem_map_of_mem (q1.mem_iff.1 (p3 e hee h4)), e2⟩
      · rw [e3] at h4; cases h4
    · rw [List.forall₂_map_left_iff, List.forall₂_map_right_iff]
      have q3 : List.Forall₂ (fun (e : Index.Ent V) (x : Item Datum) => e ∈ es ∧ x ∈ Index.rows ix st e ∧ x.iptr = y.iptr) es'' (L.filter (fun z => z.iptr == y.iptr)) := by
        clear y1 p2 p3 q1
        generalize L.filter (fun z => z.iptr == y.iptr) = F at q2
        induction q2 with
        | nil => exact .nil
        | cons h _ ih => exact .cons ⟨hsub _ (by simp), h⟩ (ih (fun e he => hsub e (List.mem_cons_of_mem _ he)))
      refine q3.imp (fun e x ⟨g1, g2, g3⟩ => ?_)
      obtain ⟨q, hq', q1, q2⟩ := (hIe e g1).2.2 x g2
      obtain rfl := List.inj_on_of_nodup_map htid hq' hr (q1.trans (g3.trans he.symm))
      exact q2
  · obtain ⟨-, z, hz, hze, -⟩ := k3 y hy
    obtain ⟨e, he', hxe⟩ := hitem z hz
    rw [← hze]
    exact rowsOf_valid hc H e.key z (by rw [(hmem e he').2.2]; exact hxe)

omit [Inhabited V] in
theorem void_strm {join : Option (Datum → Datum → Datum)} (hv : lk.void = true) : Strm ix rc join rs attnum lk [] := by
  refine ⟨by simp [SSorted], by simp, fun tid => ⟨fun h => (by cases h), ?_⟩, by simp, by simp⟩
  rintro ⟨r, -, -, k, hk, -⟩
  unfold Look.void at hv
  obtain ⟨-, hk⟩ := hk
  split at hv
  · next h => rw [h] at hk; simp [hk.1] at hv
  · cases hv

theorem readLook_ok {alternative : Bool} (hc : ColsOK ix M) (L : Life ix rc M st rs) (hI : Indexes ix rc st rs)
    (ho : OptionsOK ix rc alternative) (h1 : 1 ≤ attnum) (h2 : attnum ≤ rc.natts) (hlk : LookOK (ix.cmpK attnum) lk)
    (join : Nat → Option (Datum → Datum → Datum)) (hj : alternative = true → ∀ a, rc.addTo = some a → join a = none)
    (hr : Readable ix rc alternative M.single st rs attnum lk)
    (sort : (Item Datum → Item Datum → Ordering) → List (Item Datum) → List (Item Datum)) (hq : Sorts sort) :
    ∃ S, Strm ix rc (join attnum) rs attnum lk S ∧ ∃ N, ∀ n, N ≤ n → ∀ junk, ix.readLook sort join st junk n attnum lk = some S := by
  by_cases hx : lk.mode = .exact
  · refine ⟨_, exact_strm hc L.tids L.inv hI h1 h2 hx (join attnum), (ix.rowsOf st ⟨attnum, lk.cat, lk.key⟩).length + 1, fun n hn junk => ?_⟩
    unfold Ix.readLook
    rw [hx]
    refine readEntry_ok hc L.inv _ ?_ (by omega)
    unfold Readable at hr
    rw [hx] at hr
    exact hr
  · have hread : ∀ n junk, ix.readLook sort join st junk n attnum lk = ix.readMany sort join st n attnum lk := by
      intro n junk
      unfold Ix.readLook
      cases hm : lk.mode with
      | exact => exact absurd hm hx
      | all => rfl
      | everything => rfl
      | part cp => rfl
    have hsome : alternative = true → rc.addTo = some attnum → ∀ r ∈ rs, r.outer.isSome = true := by
      unfold Readable at hr
      cases hm : lk.mode with
      | exact => exact absurd hm hx
      | all => rw [hm] at hr; exact hr
      | everything => rw [hm] at hr; exact hr
      | part cp => rw [hm] at hr; exact hr
    cases hv : lk.void with
    | true =>
      refine ⟨[], void_strm hv, 2, fun n hn junk => ?_⟩
      rw [hread]
      unfold Ix.readMany
      obtain ⟨b, up, ⟨g1, -⟩, -⟩ := find_ok hc L.inv.entry ⟨attnum, lk.cat, lk.key⟩
      rw [g1]
      have hs : sort (ix.sortCmp attnum) [] = [] := (hq _ (sortCmp_trans hc attnum) []).1.eq_nil
      simp only [hv, if_true, Option.bind_some, hs]
      exact drainSort_min _ _ [] hn
    | false =>
      obtain ⟨b, up, g1, g2⟩ := collected hc L.inv hlk hv hx
      set l := ((contents st.entry rootBlk).filter (fun e => decide (judge attnum lk.mode e.key = .take))).flatMap (Index.rows ix st) with hl
      refine ⟨_, many_strm hc L.tids L.inv hI ho h1 h2 hlk hv hx (join attnum) (fun h h' => hj h _ h') hsome sort hq (L := sort (ix.sortCmp attnum) l) rfl,
        (contents st.entry rootBlk).length + (sort (ix.sortCmp attnum) l).length + 2, fun n hn junk => ?_⟩
      rw [hread]
      unfold Ix.readMany
      rw [g1]
      simp only [hv, Bool.false_eq_true, if_false]
      rw [g2 n (by omega)]
      exact drainSort_min _ _ _ (by omega)

end

/-! ### The scan -/

/-- What the scan finds for a row, from the streams of the entries. -/
def viewOf (S : Nat → Look V → List (Item Datum)) (r : Row V) (c : Clause V) : List (Option (Option Datum)) :=
  c.looks.map (fun lk => ((S c.attnum lk).find? (fun x => x.iptr == r.tid)).map (·.info))

/-- The scan key of a condition. -/
def specOf (rc : RowCfg V) (S : Nat → Look V → List (Item Datum)) (c : Clause V) : KeySpec Datum :=
  ⟨false, decide (rc.addTo = some c.attnum), c.cons, c.looks.map (S c.attnum)⟩

theorem foldl_same (o : Option Datum) (l : List (Option Datum)) (h : ∀ x ∈ l, x = o) (hne : l ≠ []) : l.foldl (joinInfo none) none = o := by
  have h0 : ∀ l : List (Option Datum), (∀ x ∈ l, x = o) → l.foldl (joinInfo none) o = o := by
    intro l
    induction l with
    | nil => intro _; rfl
    | cons x xs ih =>
      intro h
      rw [List.foldl_cons, h x (by simp)]
      have : joinInfo none o o = o := by cases o <;> rfl
      rw [this]; exact ih (fun y hy => h y (List.mem_cons_of_mem _ hy))
  cases l with
  | nil => exact absurd rfl hne
  | cons x xs =>
    rw [List.foldl_cons, h x (by simp)]
    have : joinInfo none none o = o := rfl
    rw [this]; exact h0 xs (fun y hy => h y (List.mem_cons_of_mem _ hy))

theorem sees_outer {ix : Ix V} {rc : RowCfg V} {r : Row V} {attnum : Nat} {lk : Look V} {i : Option Datum} (ha : rc.addTo = some attnum)
    (h : Sees ix rc none r attnum lk (some i)) : i = r.outer := by
  obtain ⟨ks, l, h1, h2, -, -, h5, rfl⟩ := h
  refine foldl_same _ _ ?_ ?_
  · clear h1
    induction h5 with
    | nil => simp
    | cons h _ ih =>
      intro x hx
      rcases List.mem_cons.1 hx with rfl | hx
      · unfold InfoOf at h
        rwa [if_pos (by rw [(h2 _ (by simp)).1.1]; exact ha)] at h
      · exact ih (fun k hk => h2 k (List.mem_cons_of_mem _ hk)) x hx
  · intro h
    rw [h] at h5
    exact h1 (List.forall₂_nil_right_iff.1 h5)

section
variable {ix : Ix V} {rc : RowCfg V} {M : Lim} {rs : List (Row V)} {join : Nat → Option (Datum → Datum → Datum)} {S : Nat → Look V → List (Item Datum)}

theorem view_ok {r : Row V} (hr : r ∈ rs) {c : Clause V} (hS : ∀ lk ∈ c.looks, Strm ix rc (join c.attnum) rs c.attnum lk (S c.attnum lk)) :
    List.Forall₂ (Sees ix rc (join c.attnum) r c.attnum) c.looks (viewOf S r c) := by
  unfold viewOf
  rw [List.forall₂_map_right_iff]
  refine List.forall₂_same.2 (fun lk hlk => ?_)
  have hs := hS lk hlk
  cases hf : (S c.attnum lk).find? (fun x => x.iptr == r.tid) with
  | none =>
    simp only [Option.map_none]
    intro k hk hcon
    obtain ⟨y, hy, he⟩ := List.mem_map.1 ((hs.rows r.tid).2 ⟨r, hr, rfl, k, hk, hcon⟩)
    have := List.find?_eq_none.1 hf y hy
    simp [he] at this
  | some y =>
    simp only [Option.map_some]
    exact hs.info y (List.mem_of_find?_eq_some hf) r hr (by have := List.find?_some hf; simpa using (by simpa using this : y.iptr = r.tid).symm)

theorem held_eq (r : Row V) (c : Clause V) : (specOf rc S c).held r.tid = viewOf S r c := by
  simp [KeySpec.held, specOf, viewOf, List.map_map, Function.comp_def]

theorem holds_iff (r : Row V) (c : Clause V) : (specOf rc S c).Holds r.tid ↔ ∃ o ∈ viewOf S r c, o.isSome = true := by
  simp only [KeySpec.Holds, specOf, viewOf, List.mem_map, exists_exists_and_eq_and, Option.isSome_map, List.find?_isSome, beq_iff_eq]

theorem accepts_iff (r : Row V) (c : Clause V) : (specOf rc S c).Accepts r.tid ↔ Accepted c (viewOf S r c) := by
  unfold KeySpec.Accepts Accepted
  rw [holds_iff, held_eq]; rfl

theorem holds_row {c : Clause V} (hS : ∀ lk ∈ c.looks, Strm ix rc (join c.attnum) rs c.attnum lk (S c.attnum lk)) {tid : Iptr} (h : (specOf rc S c).Holds tid) :
    ∃ r ∈ rs, r.tid = tid := by
  obtain ⟨s, hs, x, hx, rfl⟩ := h
  obtain ⟨lk, hlk, rfl⟩ := List.mem_map.1 hs
  obtain ⟨r, hr, he, -⟩ := ((hS lk hlk).rows x.iptr).1 (List.mem_map_of_mem hx)
  exact ⟨r, hr, he⟩

theorem cmp_kind {alternative : Bool} (ho : OptionsOK ix rc alternative) {conds : List (Clause V)} (hk : OneKind rc alternative conds) {c d : Clause V} (hc : c ∈ conds)
    (hd : d ∈ conds) : (ix.ctx c.attnum).cmp = (ix.ctx d.attnum).cmp := by
  obtain ⟨c1, c2⟩ := ho c.attnum
  obtain ⟨d1, d2⟩ := ho d.attnum
  rcases hk with rfl | h | h
  · funext a b; simp [Ctx.cmp, c1, d1, cmpItem]
  · have : c.attnum = d.attnum := by have := (h c hc).symm.trans (h d hd); simpa using this
    rw [this]
  · funext a b; simp [Ctx.cmp, c2, d2, h c hc, h d hd, cmpItem]

theorem scan_ok {alternative : Bool} (hc : ColsOK ix M) (ho : OptionsOK ix rc alternative)
    (hj : alternative = true → ∀ a, rc.addTo = some a → join a = none) (c : Clause V)
    (cs : List (Clause V)) (hkind : OneKind rc alternative (c :: cs))
    (hS : ∀ d ∈ c :: cs, ∀ lk ∈ d.looks, Strm ix rc (join d.attnum) rs d.attnum lk (S d.attnum lk)) (n : Nat)
    (hn : ((c :: cs).map (fun c => (specOf rc S c).streams.flatten.length)).sum < n) :
    Answer (ix.ctx c.attnum).cmp (viewOf S) rs (c :: cs)
      (Scan.regularScan ⟨(ix.ctx c.attnum).cmp, (ix.ctx c.attnum).cmp⟩ alternative ((c :: cs).map (specOf rc S)) n) := by
  have hstored : ∀ x, StoredAny ((c :: cs).map (specOf rc S)) x → ∃ d ∈ c :: cs, ∃ lk ∈ d.looks, x ∈ S d.attnum lk := by
    rintro x ⟨k, hk, s, hs, hx⟩
    obtain ⟨d, hd, rfl⟩ := List.mem_map.1 hk
    obtain ⟨k, hk, rfl⟩ := List.mem_map.1 hs
    exact ⟨d, hd, k, hk, hx⟩
  have hsane : SaneAny ((ix.ctx c.attnum).cfg.alt && (ix.ctx c.attnum).isAddTo) ((c :: cs).map (specOf rc S)) := by
    intro x hx
    obtain ⟨d, hd, k, hk, hx⟩ := hstored x hx
    refine ⟨by have := (hS d hd k hk).valid x hx; omega, fun halt y hy he => ?_⟩
    obtain ⟨e, he', k', hk', hy⟩ := hstored y hy
    obtain ⟨o1, o2⟩ := ho c.attnum
    rw [o1, o2] at halt
    simp only [Bool.and_eq_true, decide_eq_true_eq] at halt
    obtain ⟨rfl, hadd⟩ := halt
    have hall : ∀ d ∈ c :: cs, rc.addTo = some d.attnum := by
      rcases hkind with h | h | h
      · cases h
      · exact h
      · exact absurd hadd (h c (by simp))
    obtain ⟨r, hr, r1, -⟩ := ((hS d hd k hk).rows x.iptr).1 (List.mem_map_of_mem hx)
    have s1 := (hS d hd k hk).info x hx r hr r1
    have s2 := (hS e he' k' hk').info y hy r hr (r1.trans he)
    rw [hj rfl _ (hall d hd)] at s1
    rw [hj rfl _ (hall e he')] at s2
    rw [sees_outer (hall d hd) s1, sees_outer (hall e he') s2]
  have hss : ∀ k ∈ (c :: cs).map (specOf rc S), ∀ s ∈ k.streams, SSorted (ix.ctx c.attnum).cmp s := by
    intro k hk s hs
    obtain ⟨d, hd, rfl⟩ := List.mem_map.1 hk
    obtain ⟨k, hk, rfl⟩ := List.mem_map.1 hs
    rw [cmp_kind ho hkind (c := c) (d := d) (by simp) hd]
    exact (hS d hd k hk).sorted
  have htr := hc.infos c.attnum
  have hcmp : (ix.ctx c.attnum).cmp = scanOrder ((ix.ctx c.attnum).cfg.alt && (ix.ctx c.attnum).isAddTo) false (ix.ctx c.attnum).cmpV := by
    funext a b; rfl
  have hO : Contract (ix.ctx c.attnum).cmp ((c :: cs).map (specOf rc S))
      (Scan.regularScan ⟨(ix.ctx c.attnum).cmp, (ix.ctx c.attnum).cmp⟩ alternative ((c :: cs).map (specOf rc S)) n) := by
    rw [hcmp]
    rw [hcmp] at hss
    refine C20_regular_scan alternative _ false _ _ _ n ?_ ⟨specOf rc S c, by simp, rfl⟩ (fun k hk _ => hss k hk) (fun _ k hk _ => hss k hk) ?_ ?_
    · rcases hkind with h | h | h
      · exact Or.inl h
      · refine Or.inr (Or.inl (fun k hk => ?_))
        obtain ⟨d, hd, rfl⟩ := List.mem_map.1 hk
        exact decide_eq_true (h d hd)
      · refine Or.inr (Or.inr (fun k hk => ?_))
        obtain ⟨d, hd, rfl⟩ := List.mem_map.1 hk
        exact decide_eq_false (h d hd)
    · rintro x ⟨k, hk, -, hx⟩
      obtain ⟨s1, s2⟩ := hsane x ⟨k, hk, hx⟩
      exact ⟨s1, fun h y ⟨k', hk', _, hy⟩ => s2 h y ⟨k', hk', hy⟩⟩
    · refine Nat.lt_of_le_of_lt (Nat.le_of_eq ?_) hn
      rw [List.filter_eq_self.2 (by intro k hk; obtain ⟨d, hd, rfl⟩ := List.mem_map.1 hk; rfl), List.map_map]
      rfl
  generalize Scan.regularScan ⟨(ix.ctx c.attnum).cmp, (ix.ctx c.attnum).cmp⟩ alternative ((c :: cs).map (specOf rc S)) n = out at hO
  refine ⟨hO.ends, hO.sorted, ?_, fun tid => ?_, fun p hp r hr he => ?_⟩
  · have h1 := hO.sorted
    rw [List.pairwise_map] at h1
    rw [List.Nodup, List.pairwise_map]
    refine h1.imp_of_mem (fun {a b} ha hb hab he => ?_)
    have htr' : TransCmp (ix.ctx c.attnum).cmp := cmpItem_trans _ _
    have heq : (ix.ctx c.attnum).cmp a.1 b.1 = .eq := by
      cases hal : ((ix.ctx c.attnum).cfg.alt && (ix.ctx c.attnum).isAddTo) with
      | false =>
        show cmpItem _ _ _ _ = _
        rw [hal]
        simp only [cmpItem, Bool.false_eq_true, if_false]
        rw [he]; exact ReflCmp.compare_self
      | true =>
        have hinf := (hsane a.1 (hO.stored a ha)).2 hal b.1 (hO.stored b hb) he
        have : a.1 = b.1 := by
          generalize a.1 = x at he hinf
          generalize b.1 = y at he hinf
          cases x; cases y; simp_all
        rw [this]; exact ReflCmp.compare_self (cmp := (ix.ctx c.attnum).cmp)
    rw [heq] at hab; cases hab
  · rw [hO.exact_ tid]
    constructor
    · intro hm
      obtain ⟨r, hr, rfl⟩ := holds_row (hS c (by simp)) (hm (specOf rc S c) (by simp) rfl).1
      refine ⟨r, hr, rfl, fun d hd => ?_⟩
      exact (accepts_iff r d).1 (hm (specOf rc S d) (List.mem_map_of_mem hd) rfl)
    · rintro ⟨r, hr, rfl, h⟩ k hk -
      obtain ⟨d, hd, rfl⟩ := List.mem_map.1 hk
      exact (accepts_iff r d).2 (h d hd)
  · rw [hO.recheck p hp, ← he]
    unfold NeedsRecheck KeySpec.asks
    constructor
    · rintro ⟨k, hk, -, h⟩
      obtain ⟨d, hd, rfl⟩ := List.mem_map.1 hk
      exact ⟨d, hd, by rw [held_eq] at h; exact h⟩
    · rintro ⟨d, hd, h⟩
      exact ⟨_, List.mem_map_of_mem hd, rfl, by rw [held_eq]; exact h⟩

end

section
variable {ix : Ix V} [Inhabited V] {rc : RowCfg V} {st : State V} {join : Nat → Option (Datum → Datum → Datum)} {S : Nat → Look V → List (Item Datum)}
  {sort : (Item Datum → Item Datum → Ordering) → List (Item Datum) → List (Item Datum)}

theorem readLooks_ok (attnum : Nat) (ks : List (Look V))
    (h : ∀ lk ∈ ks, ∃ N, ∀ n, N ≤ n → ∀ junk, ix.readLook sort join st junk n attnum lk = some (S attnum lk)) :
    ∃ N, ∀ n, N ≤ n → ∀ junk, ix.readLooks sort join st junk n attnum ks = some (ks.map (S attnum)) := by
  induction ks with
  | nil => exact ⟨0, fun _ _ _ => rfl⟩
  | cons k ks ih =>
    obtain ⟨N1, h1⟩ := h k (by simp)
    obtain ⟨N2, h2⟩ := ih (fun q hq => h q (List.mem_cons_of_mem _ hq))
    refine ⟨max N1 N2, fun n hn junk => ?_⟩
    simp only [Ix.readLooks, h1 n (by omega) junk, h2 n (by omega) junk, List.map_cons]

theorem clauseKeys_ok (cs : List (Clause V))
    (h : ∀ c ∈ cs, ∀ lk ∈ c.looks, ∃ N, ∀ n, N ≤ n → ∀ junk, ix.readLook sort join st junk n c.attnum lk = some (S c.attnum lk)) :
    ∃ N, ∀ n, N ≤ n → ∀ junk, ix.clauseKeys rc sort join st junk n cs = some (cs.map (specOf rc S)) := by
  induction cs with
  | nil => exact ⟨0, fun _ _ _ => rfl⟩
  | cons c cs ih =>
    obtain ⟨N1, h1⟩ := readLooks_ok c.attnum c.looks (h c (by simp))
    obtain ⟨N2, h2⟩ := ih (fun q hq => h q (List.mem_cons_of_mem _ hq))
    refine ⟨max N1 N2, fun n hn junk => ?_⟩
    simp only [Ix.clauseKeys, h1 n (by omega) junk, h2 n (by omega) junk, List.map_cons, specOf]

end

/-- In every state of an index that came about by building, inserting and VACUUM, searches give the right answers. -/
theorem Life.finds {ix : Ix V} [Inhabited V] {rc : RowCfg V} {M : Lim} {st : State V} {rs : List (Row V)} {alternative : Bool} (hc : ColsOK ix M)
    (hs : ∀ a, SortOK (ix.cmpK a) (rc.sort a)) (hd : ∀ a, DupsSeen (ix.cmpK a) (rc.haveDups a)) (L : Life ix rc M st rs)
    (ho : OptionsOK ix rc alternative) (sort : (Item Datum → Item Datum → Ordering) → List (Item Datum) → List (Item Datum)) (hq : Sorts sort)
    (join : Nat → Option (Datum → Datum → Datum)) (hj : alternative = true → ∀ a, rc.addTo = some a → join a = none) :
    Finds ix rc alternative M.single sort join st rs := by
  have hI := L.indexes hc hs hd
  have hex : ∀ a lk, ∃ S, (1 ≤ a ∧ a ≤ rc.natts ∧ LookOK (ix.cmpK a) lk ∧ Readable ix rc alternative M.single st rs a lk) →
      Strm ix rc (join a) rs a lk S ∧ ∃ N, ∀ n, N ≤ n → ∀ junk, ix.readLook sort join st junk n a lk = some S := by
    intro a lk
    by_cases h : 1 ≤ a ∧ a ≤ rc.natts ∧ LookOK (ix.cmpK a) lk ∧ Readable ix rc alternative M.single st rs a lk
    · obtain ⟨S, h1⟩ := readLook_ok hc L hI ho h.1 h.2.1 h.2.2.1 join hj h.2.2.2 sort hq
      exact ⟨S, fun _ => h1⟩
    · exact ⟨[], fun h' => absurd h' h⟩
  choose S hS using hex
  refine ⟨viewOf S, fun r hr c hcl => view_ok hr (fun lk hlk => (hS c.attnum lk ⟨hcl.low, hcl.high, hcl.looks lk hlk⟩).1), ?_⟩
  intro c cs hok hkind
  have hall : ∀ d ∈ c :: cs, ∀ lk ∈ d.looks, Strm ix rc (join d.attnum) rs d.attnum lk (S d.attnum lk) ∧
      ∃ N, ∀ n, N ≤ n → ∀ junk, ix.readLook sort join st junk n d.attnum lk = some (S d.attnum lk) :=
    fun d hd' lk hlk => hS d.attnum lk ⟨(hok d hd').low, (hok d hd').high, (hok d hd').looks lk hlk⟩
  obtain ⟨N, hN⟩ := clauseKeys_ok (rc := rc) (c :: cs) (fun d hd' lk hlk => (hall d hd' lk hlk).2)
  refine ⟨max N (((c :: cs).map (fun c => (specOf rc S c).streams.flatten.length)).sum + 1), fun n hn junk => ?_⟩
  refine ⟨_, by unfold Ix.find; rw [hN n (by omega) junk]; rfl, ?_⟩
  exact scan_ok hc ho hj c cs hkind (fun d hd' lk hlk => (hall d hd' lk hlk).1) n (by omega)

/-! ### Properties -/

/-- **C53.** After CREATE INDEX on a table with any rows and any sequence of insertions and VACUUMs, a query with any number of conditions, each with
any number of entries that search for one key, for all keys a partial match function accepts, for all keys or for everything, returns exactly the
rows of the table that all conditions accept, each once, in order, with the right recheck flags; the consistency functions are told the truth
about every row. Missing: queries that mix conditions on the column ordered by an attached value with others (`C20_mixed_scan_partial`), NULL in the
attached column when items are ordered by it (`C36_item_sort_violated`), posting trees of exactly searched keys whose leftmost page was emptied by
VACUUM (`C23_forward_empty_first_violated`; searches for many keys are not affected). -/
theorem C53_query_partial (ix : Ix V) [Inhabited V] (rc : RowCfg V) (alternative : Bool) (n : Nat) (hc : ColsOK ix ⟨n, true⟩) (hal : ∀ k, 8 ∣ ix.keySize k)
    (hs : ∀ a, SortOK (ix.cmpK a) (rc.sort a)) (hd : ∀ a, DupsSeen (ix.cmpK a) (rc.haveDups a)) (ho : OptionsOK ix rc alternative)
    (qsort tuplesort : (Item Datum → Item Datum → Ordering) → List (Item Datum) → List (Item Datum)) (hq : Sorts qsort) (htp : Sorts tuplesort)
    (join : Nat → Option (Datum → Datum → Datum)) (hj : alternative = true → ∀ a, rc.addTo = some a → join a = none) (full : Nat → Bool)
    (rs : List (Row V)) (hok : ∀ r ∈ rs, RowOK ix rc ⟨n, false⟩ r) (hlen : ∀ r ∈ rs, ∀ a, (ix.colEntries rc a r).length < 2 ^ 31)
    (htid : (rs.map Row.tid).Nodup) (hord : alternative = true → rs.Pairwise (fun r q => cmpIptr r.tid q.tid = .lt))
    (evs : List (Event V)) (hev : Possible ix rc ⟨n, true⟩ rs evs) :
    ∃ st, runs ix rc (ix.buildIndex rc qsort full rs) evs = (st, true) ∧
      Finds ix rc alternative true tuplesort join st (evs.foldl Event.rows rs) := by
  obtain ⟨st, h1, L⟩ := Life.build hc hs hd qsort hq full rs hok hlen htid (fun a ha => hord (by rw [← (ho a).1]; exact ha))
  obtain ⟨t, h2, L'⟩ := L.runs hc hal rfl hs hd evs _ _ hev
  exact ⟨t, by rw [h1]; exact h2, Life.finds hc hs hd L' ho tuplesort htp join hj⟩

/-- **C53, empty table.** The same for an index created on an empty table. -/
theorem C53_query_from_empty_partial (ix : Ix V) [Inhabited V] (rc : RowCfg V) (alternative : Bool) (n : Nat) (hc : ColsOK ix ⟨n, true⟩)
    (hal : ∀ k, 8 ∣ ix.keySize k) (hs : ∀ a, SortOK (ix.cmpK a) (rc.sort a)) (hd : ∀ a, DupsSeen (ix.cmpK a) (rc.haveDups a))
    (ho : OptionsOK ix rc alternative) (tuplesort : (Item Datum → Item Datum → Ordering) → List (Item Datum) → List (Item Datum)) (htp : Sorts tuplesort)
    (join : Nat → Option (Datum → Datum → Datum)) (hj : alternative = true → ∀ a, rc.addTo = some a → join a = none)
    (evs : List (Event V)) (hev : Possible ix rc ⟨n, true⟩ [] evs) :
    ∃ st, runs ix rc (emptyIndex, true) evs = (st, true) ∧ Finds ix rc alternative true tuplesort join st (evs.foldl Event.rows []) := by
  have L : Life ix rc ⟨n, true⟩ emptyIndex [] := ⟨inv_empty ix hc, by simp, fun k y => by rw [rowsOf_empty ix hc]; simp [EntryOf]⟩
  obtain ⟨t, h2, L'⟩ := L.runs hc hal rfl hs hd evs _ _ hev
  exact ⟨t, h2, Life.finds hc hs hd L' ho tuplesort htp join hj⟩

/-- **C53, without VACUUM.** The same after CREATE INDEX and insertions, whatever the sizes of the posting lists and trees. Missing: as above, but for
VACUUM; additional info that needs alignment padding (`hn`). -/
theorem C53_query_inserted_partial (ix : Ix V) [Inhabited V] (rc : RowCfg V) (alternative : Bool) (M : Lim) (hn : M.single = false) (hc : ColsOK ix M)
    (hs : ∀ a, SortOK (ix.cmpK a) (rc.sort a)) (hd : ∀ a, DupsSeen (ix.cmpK a) (rc.haveDups a)) (ho : OptionsOK ix rc alternative)
    (qsort tuplesort : (Item Datum → Item Datum → Ordering) → List (Item Datum) → List (Item Datum)) (hq : Sorts qsort) (htp : Sorts tuplesort)
    (join : Nat → Option (Datum → Datum → Datum)) (hj : alternative = true → ∀ a, rc.addTo = some a → join a = none) (full : Nat → Bool)
    (rs : List (Row V)) (hok : ∀ r ∈ rs, RowOK ix rc M r) (hlen : ∀ r ∈ rs, ∀ a, (ix.colEntries rc a r).length < 2 ^ 31)
    (hord : alternative = true → rs.Pairwise (fun r q => cmpIptr r.tid q.tid = .lt))
    (new : List (Row V)) (hnew : ∀ r ∈ new, RowOK ix rc M r) (htid : ((rs ++ new).map Row.tid).Nodup) :
    ∃ st t, ix.buildIndex rc qsort full rs = (st, true) ∧ ix.insertRows rc st new = (t, true) ∧
      Finds ix rc alternative false tuplesort join t (rs ++ new) := by
  obtain ⟨st, t, h1, t1, L'⟩ := Query.inserted hn hc hs hd ho qsort hq full rs hok hlen hord new hnew htid
  have := Life.finds hc hs hd L' ho tuplesort htp join hj
  rw [hn] at this
  exact ⟨st, t, h1, t1, this⟩

/-! ### Concrete cases -/

/-- Keys from 7 to 8. -/
def exRange (x : Nat) : Int := if x < 7 then -1 else if x ≤ 8 then 0 else 1

/-- A key from 7 to 8, or key 9. -/
def exClause : Clause Nat := ⟨1, [⟨.norm, 7, .part exRange⟩, ⟨.norm, 9, .exact⟩], fun v => (v.any Option.isSome, false)⟩

/-- All rows with a value. -/
def exAll : Clause Nat := ⟨1, [⟨.emptyQuery, 0, .all⟩], fun _ => (true, true)⟩

theorem exRange_ok : RangeOK (compare : Nat → Nat → Ordering) 7 exRange where
  above := fun x hx h => by
    have : x < 7 := Nat.compare_eq_gt.1 h
    simp [exRange, this] at hx
  stop := fun x y hx _ h => by
    rw [ne_eq, Nat.compare_eq_gt] at h
    unfold exRange at hx ⊢
    split at hx
    · omega
    · split at hx
      · omega
      · split
        · omega
        · split <;> omega
  same := fun x y h hx => by
    rw [← Nat.compare_eq_eq.1 h]; exact hx

theorem exPlain (k : Nat) (hk : k ∈ [7, 8, 9]) : (exIx.treeOf (runs exIx exRc (emptyIndex, true) exEvents).1 ⟨1, .norm, k⟩).isNone = true := by
  revert k; decide +kernel

/-- The hypotheses of the theorems are met, with `exEvents` as the history. -/
example : Sorts altSort ∧ OptionsOK exIx exRc false ∧ OneKind exRc false [exClause, exAll] ∧
    ∀ c ∈ [exClause, exAll], ClauseOK exIx exRc false true (runs exIx exRc (emptyIndex, true) exEvents).1 (exEvents.foldl Event.rows []) c := by
  refine ⟨altSort_sorts, fun a => ⟨rfl, rfl⟩, Or.inl rfl, fun c hc => ?_⟩
  simp only [List.mem_cons, List.not_mem_nil, or_false] at hc
  rcases hc with rfl | rfl
  · refine ⟨Nat.le_refl 1, (by decide : 1 ≤ 2), fun lk hlk => ?_⟩
    simp only [exClause, List.mem_cons, List.not_mem_nil, or_false] at hlk
    rcases hlk with rfl | rfl
    · exact ⟨fun _ => exRange_ok, fun h => by cases h⟩
    · refine ⟨trivial, fun t ht => ?_⟩
      have := exPlain 9 (by simp)
      simp only [exClause] at ht
      rw [ht] at this; cases this
  · refine ⟨Nat.le_refl 1, (by decide : 1 ≤ 2), fun lk hlk => ?_⟩
    simp only [exAll, List.mem_cons, List.not_mem_nil, or_false] at hlk
    subst hlk
    exact ⟨rfl, fun h => by cases h⟩

/-- Both rows are found by both conditions; only the second asks for a recheck. -/
example : (exIx.find exRc false altSort (fun _ => none) (runs exIx exRc (emptyIndex, true) exEvents).1 ⟨⟨0, 0⟩, none⟩ 20 exClause []).map
      (fun o => (o.1.map (fun p => (p.1.iptr, p.2)), o.2)) = some ([(⟨1, 1⟩, false), (⟨3, 1⟩, false)], true) ∧
    (exIx.find exRc false altSort (fun _ => none) (runs exIx exRc (emptyIndex, true) exEvents).1 ⟨⟨0, 0⟩, none⟩ 20 exClause [exAll]).map
      (fun o => (o.1.map (fun p => (p.1.iptr, p.2)), o.2)) = some ([(⟨1, 1⟩, true), (⟨3, 1⟩, true)], true) := by
  decide +kernel

end Rum.Props.Collect

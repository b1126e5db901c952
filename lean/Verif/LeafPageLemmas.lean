import Verif.LeafPage
import Verif.VacuumListLemmas
import Verif.Sorted
namespace Rum.Leaf
open Rum Rum.Codec Std

theorem placeList_append (c : Cfg) (xs ys : List (Item Datum)) : ∀ (off : Nat) (prev : Iptr) (b : List Nat),
    placeList c off prev (xs ++ ys) = some b →
    ∃ b1 b2, placeList c off prev xs = some b1 ∧
      placeList c (off + b1.length) (lastIptr prev xs) ys = some b2 ∧ b = b1 ++ b2 := by
  induction xs with
  | nil => intro off prev b h; exact ⟨[], b, rfl, by simpa [lastIptr] using h, rfl⟩
  | cons x xs ih =>
    intro off prev b h
    simp only [List.cons_append, placeList] at h
    cases hx : placeItem c off x prev with
    | none => simp [hx] at h
    | some bx =>
      simp only [hx] at h
      cases hr : placeList c (off + bx.length) x.iptr (xs ++ ys) with
      | none => simp [hr] at h
      | some br =>
        simp only [hr, Option.some.injEq] at h
        obtain ⟨b1, b2, h1, h2, h3⟩ := ih _ _ _ hr
        refine ⟨bx ++ b1, b2, by simp [placeList, hx, h1], ?_, by rw [← h, h3, List.append_assoc]⟩
        simp only [lastIptr, List.length_append]
        rw [← Nat.add_assoc]; exact h2

/-- byte position of the `k`-th item (0-based) -/
def posOf (c : Cfg) (its : List (Item Datum)) (k : Nat) : Nat := checkList c ⟨0, 0⟩ 0 (its.take k)

theorem read_at (c : Cfg) (its : List (Item Datum)) (data : List Nat) (k : Nat) (hk : k < its.length)
    (hok : ∀ it ∈ its, ItemOK c it) (hd : placeList c 0 ⟨0, 0⟩ its = some data) :
    posOf c its k ≤ data.length ∧ posOf c its (k + 1) ≤ data.length ∧
    readItem c (posOf c its k) (lastIptr ⟨0, 0⟩ (its.take k)) (data.drop (posOf c its k)) =
      some (its[k].stored c, data.drop (posOf c its (k + 1))) := by
  have hsplit : its = its.take k ++ ([its[k]] ++ its.drop (k + 1)) := by simp
  have htk : its.take (k + 1) = its.take k ++ [its[k]] := by simp
  rw [hsplit] at hd
  obtain ⟨b1, b2, h1, h2, h3⟩ := placeList_append c _ _ _ _ _ hd
  have h2' := h2
  obtain ⟨b3, b4, h4, h5, h6⟩ := placeList_append c _ _ _ _ _ h2'
  have hokt : ∀ it ∈ its.take k, ItemOK c it := fun x hx => hok x (List.mem_of_mem_take hx)
  obtain ⟨y, hy1, hy2⟩ := placeList_ok c (its.take k) 0 ⟨0, 0⟩ hokt
  rw [h1] at hy1
  simp only [Option.some.injEq] at hy1
  subst hy1
  have hokt' : ∀ it ∈ its.take (k + 1), ItemOK c it := fun x hx => hok x (List.mem_of_mem_take hx)
  obtain ⟨z, hz1, hz2⟩ := placeList_ok c (its.take (k + 1)) 0 ⟨0, 0⟩ hokt'
  have hit : ItemOK c its[k] := hok _ (List.getElem_mem hk)
  simp only [placeList] at h4
  cases hp : placeItem c (0 + b1.length) its[k] (lastIptr ⟨0, 0⟩ (its.take k)) with
  | none => simp only [hp] at h4; exact absurd h4 (by simp)
  | some bx =>
    simp only [hp, List.append_nil, Option.some.injEq] at h4
    subst h4
    have hz3 := placeList_snoc c (its.take k) its[k] 0 ⟨0, 0⟩ b1 bx h1 hp
    rw [← htk, hz1] at hz3
    simp only [Option.some.injEq] at hz3
    subst hz3
    have p1 : posOf c its k = b1.length := by unfold posOf; omega
    have p2 : posOf c its (k + 1) = b1.length + bx.length := by
      unfold posOf; rw [← hz2]; simp
    subst h3; subst h6
    refine ⟨by rw [p1]; simp, by rw [p2]; simp, ?_⟩
    rw [p1, p2]
    have d1 : (b1 ++ (bx ++ b4)).drop b1.length = bx ++ b4 := by simp
    have d2 : (b1 ++ (bx ++ b4)).drop (b1.length + bx.length) = b4 := by
      rw [← List.append_assoc, ← List.length_append, List.drop_left]
    rw [d1, d2]
    have hl := lastIptr_fits c (its.take k) ⟨0, 0⟩ (by decide) hokt
    exact readItem_placeItem c b1.length its[k] _ hit hl bx b4 (by simpa using hp)

/-- A directory entry that describes the boundary before item number `e.offn`. -/
def EntOK (c : Cfg) (its : List (Item Datum)) (e : IndexEnt) : Prop :=
  1 ≤ e.offn ∧ e.offn ≤ its.length ∧ e.pageOff = posOf c its (e.offn - 1) ∧
  e = mkEnt c (((its.take (e.offn - 1)).getLast?.getD minItem)) e.offn e.pageOff

/-- Valid prefix of a directory is correct. -/
def DirOK (c : Cfg) (its : List (Item Datum)) (l : List IndexEnt) : Prop :=
  ∀ e ∈ l.takeWhile (fun e => e.offn ≠ 0), EntOK c its e

theorem lastIptr_getLast (xs : List (Item Datum)) :
    lastIptr ⟨0, 0⟩ xs = (xs.getLast?.getD minItem).iptr := by
  cases h : xs.reverse with
  | nil => have : xs = [] := by simpa using h
           subst this; rfl
  | cons y ys =>
    have : xs = ys.reverse ++ [y] := by
      have := congrArg List.reverse h; simpa using this
    subst this; simp [lastIptr_snoc]

theorem updLoop_ok (c : Cfg) (its : List (Item Datum)) (data : List Nat) (hok : ∀ it ∈ its, ItemOK c it)
    (hst : ∀ it ∈ its, it.stored c = it)
    (hd : placeList c 0 ⟨0, 0⟩ its = some data) (fuel : Nat) :
    ∀ (i : Nat) (item : Item Datum) (pos : Nat) (ents : List IndexEnt),
    1 ≤ i → i - 1 + fuel = its.length → item = (its.take (i - 1)).getLast?.getD minItem →
    pos = posOf c its (i - 1) → (∀ e ∈ ents, EntOK c its e) → ents.length ≤ indexCount →
    ∃ ents', updLoop c data its.length fuel i item pos ents = some (ents', posOf c its its.length) ∧
      (∀ e ∈ ents', EntOK c its e) ∧ ents'.length ≤ indexCount := by
  induction fuel with
  | zero =>
    intro i item pos ents h1 h2 h3 h4 h5 h6
    refine ⟨ents, ?_, h5, h6⟩
    simp only [updLoop]
    have : i - 1 = its.length := by omega
    rw [h4, this]
  | succ fuel ih =>
    intro i item pos ents h1 h2 h3 h4 h5 h6
    have hk : i - 1 < its.length := by omega
    obtain ⟨r1, r2, r3⟩ := read_at c its data (i - 1) hk hok hd
    have hcur : item.iptr = lastIptr ⟨0, 0⟩ (its.take (i - 1)) := by rw [lastIptr_getLast, h3]
    simp only [updLoop]
    rw [h4, hcur, r3, hst _ (List.getElem_mem hk)]
    simp only
    have hnov : ¬ ((decide (i * (indexCount + 1) > (ents.length + 1) * its.length) = true) ∧ ents.length ≥ indexCount) := by
      rintro ⟨hgt, hge⟩
      replace hgt := of_decide_eq_true hgt
      simp only [indexCount] at hgt hge
      have : i * 33 ≤ its.length * 33 := Nat.mul_le_mul_right _ (by omega)
      have : 33 * its.length ≤ (ents.length + 1) * its.length := Nat.mul_le_mul_right _ (by omega)
      omega
    rw [if_neg hnov]
    have hlen : data.length - (data.drop (posOf c its (i - 1 + 1))).length = posOf c its (i - 1 + 1) := by
      simp; omega
    rw [hlen]
    have htake : its.take (i + 1 - 1) = its.take (i - 1) ++ [its[i - 1]] := by
      rw [show i + 1 - 1 = i - 1 + 1 by omega]; simp
    apply ih (i + 1) _ _ _ (by omega) (by omega)
    · rw [htake, List.getLast?_concat]; rfl
    · congr 1
      omega
    · intro e he
      split at he
      · rename_i hpl
        rcases List.mem_append.1 he with h | h
        · exact h5 e h
        · simp only [List.mem_singleton] at h
          subst h
          have hoffn : ∀ it q, (mkEnt c it i q).offn = i ∧ (mkEnt c it i q).pageOff = q := by
            intro it q; unfold mkEnt; split <;> simp
          unfold EntOK
          rw [(hoffn _ _).1, (hoffn _ _).2]
          exact ⟨h1, by omega, rfl, by rw [h3]⟩
      · exact h5 e he
    · split
      · rename_i hpl
        have : ¬ ents.length ≥ indexCount := fun h => hnov ⟨hpl, h⟩
        simp; omega
      · exact h6

theorem takeWhile_append_invalid (ents : List IndexEnt) (n : Nat) (h : ∀ e ∈ ents, e.offn ≠ 0) :
    (ents ++ List.replicate n invalidEnt).takeWhile (fun e => e.offn ≠ 0) = ents := by
  induction ents with
  | nil => cases n <;> simp [invalidEnt, List.replicate_succ]
  | cons e es ih =>
    have h0 := h e (by simp)
    have := ih (fun x hx => h x (by simp [hx]))
    simp [h0]
    simpa using this

theorem updateItemIndexes_ok (c : Cfg) (its : List (Item Datum)) (data : List Nat) (hok : ∀ it ∈ its, ItemOK c it)
    (hst : ∀ it ∈ its, it.stored c = it) (hd : placeList c 0 ⟨0, 0⟩ its = some data) :
    ∃ idx, updateItemIndexes c data its.length = some (idx, data.length) ∧ idx.length = indexCount ∧
      DirOK c its idx := by
  obtain ⟨ents, h1, h2, h3⟩ := updLoop_ok c its data hok hst hd its.length 1 minItem 0 [] (by omega) (by omega)
    (by simp) (by simp [posOf, checkList]) (by simp) (by simp [indexCount])
  have hpos : posOf c its its.length = data.length := by
    unfold posOf
    rw [List.take_length]
    obtain ⟨y, hy1, hy2⟩ := placeList_ok c its 0 ⟨0, 0⟩ hok
    rw [hd] at hy1
    simp only [Option.some.injEq] at hy1
    subst hy1
    omega
  rw [hpos] at h1
  refine ⟨_, by unfold updateItemIndexes; rw [h1]; rfl, by simp; omega, ?_⟩
  intro e he
  rw [takeWhile_append_invalid ents _ (fun e he => by have := (h2 e he).1; omega)] at he
  exact h2 e he

/-! ### findInLeafPage -/

theorem readItem_alt_prev (c : Cfg) (h : c.alt = true) (off : Nat) (p q : Iptr) (bs : List Nat) :
    readItem c off p bs = readItem c off q bs := by
  unfold readItem readIptr
  rw [h]; rfl

theorem or8000 (n : Nat) (h : n < 0x8000) : n ||| 0x8000 = n + 0x8000 := by
  have := or_shift n 1 15 (by simpa using h)
  simpa using this

theorem convert_mkEnt (c : Cfg) (halt : c.alt = true) (it : Item Datum) (i p : Nat) (h : it.iptr.off < 0x8000) :
    convertIndexToKey (mkEnt c it i p) = it := by
  obtain ⟨⟨b, o⟩, info⟩ := it
  simp only at h
  unfold mkEnt convertIndexToKey
  rw [if_pos halt]
  cases info with
  | none =>
    simp only [Option.isNone_none, if_true]
    rw [or8000 o h, if_pos ((and_bit15 _ (by omega)).2 (by omega))]
    have : (o + 0x8000) &&& 0x7fff = o := by
      rw [show 0x7fff = 2 ^ 15 - 1 from rfl, Nat.and_two_pow_sub_one_eq_mod]; omega
    rw [this]
  | some d =>
    simp only [Option.isNone_some, Bool.false_eq_true, if_false]
    rw [if_neg (fun hh => by have := (and_bit15 o (by omega)).1 hh; omega)]

/-- The comparison with a directory entry is the comparison with the item it was made from. -/
theorem cmpEnt_mkEnt (x : Ctx) (it key : Item Datum) (i p : Nat) (h : x.cfg.alt = true → it.iptr.off < 0x8000) :
    cmpEnt x (mkEnt x.cfg it i p) key = x.cmp it key := by
  unfold cmpEnt
  cases halt : x.cfg.alt with
  | true => rw [if_pos rfl, convert_mkEnt x.cfg halt it i p (h halt)]
  | false =>
    simp [Ctx.cmp, cmpItem, mkEnt, halt]

/-- Range invariant: everything before `first` is less than the key, the item just after the range
(if the range was cut) is not. -/
def RangeOK (x : Ctx) (its : List (Item Datum)) (key : Item Datum) (r : Range) : Prop :=
  1 ≤ r.first ∧ r.first ≤ its.length + 1 ∧ r.ptr = posOf x.cfg its (r.first - 1) ∧
  (x.cfg.alt = false → r.cur = lastIptr ⟨0, 0⟩ (its.take (r.first - 1))) ∧
  (∀ h : r.first - 2 < its.length, 2 ≤ r.first → x.cmp (its[r.first - 2]) key = .lt) ∧
  r.maxoff ≤ its.length ∧
  (r.maxoff < its.length → r.first ≤ r.maxoff ∧ ∃ h : r.maxoff - 1 < its.length, x.cmp its[r.maxoff - 1] key ≠ .lt)

theorem getLast_take (its : List (Item Datum)) (k : Nat) (h1 : 1 ≤ k) (h2 : k ≤ its.length) :
    (its.take k).getLast?.getD minItem = its[k - 1]'(by omega) := by
  have : its.take k = its.take (k - 1) ++ [its[k - 1]'(by omega)] := by
    conv => lhs; rw [show k = k - 1 + 1 by omega]
    simp
  rw [this, List.getLast?_concat]; rfl

theorem narrow_ok (x : Ctx) [TransCmp x.cmpV] (its : List (Item Datum)) (key : Item Datum)
    (hok : ∀ it ∈ its, ItemOK x.cfg it) (hs : SSorted x.cmp its)
    (hmin : x.cmp minItem key = .lt) (l : List IndexEnt) :
    ∀ r, DirOK x.cfg its l → RangeOK x its key r → r.maxoff = its.length → RangeOK x its key (narrow x key l r) := by
  have hsort : ∀ (i j : Nat) (hi : i < its.length) (hj : j < its.length), i < j → x.cmp its[i] its[j] = .lt :=
    fun i j hi hj hij => List.pairwise_iff_getElem.1 hs i j hi hj hij
  have : TransCmp x.cmp := cmpItem_trans _ _
  induction l with
  | nil => intro r _ h _; exact h
  | cons e es ih =>
    intro r hdir hr hmax
    unfold narrow
    by_cases h0 : e.offn = 0
    · rw [if_pos h0]; exact hr
    · rw [if_neg h0]
      have hmem : e ∈ (e :: es).takeWhile (fun e => e.offn ≠ 0) := by simp [h0]
      have hdir' : DirOK x.cfg its es := by
        intro e' he'
        apply hdir
        rw [List.takeWhile_cons]
        simp only [ne_eq, h0, not_false_eq_true, decide_true, if_true]
        exact List.mem_cons_of_mem _ he'
      obtain ⟨e1, e2, e3, e4⟩ := hdir e hmem
      have hoff : x.cfg.alt = true → ((its.take (e.offn - 1)).getLast?.getD minItem).iptr.off < 0x8000 := by
        intro ha
        by_cases h1 : e.offn = 1
        · rw [h1]; simp [minItem]
        · rw [getLast_take its (e.offn - 1) (by omega) (by omega)]
          exact (hok _ (List.getElem_mem _)).2.1 ha
      have hcmp : cmpEnt x e key = x.cmp ((its.take (e.offn - 1)).getLast?.getD minItem) key := by
        conv => lhs; rw [e4]
        exact cmpEnt_mkEnt x _ key _ _ hoff
      cases hce : cmpEnt x e key with
      | lt =>
        simp only
        apply ih { r with ptr := e.pageOff, first := e.offn, cur := e.iptr } hdir' _ hmax
        refine ⟨e1, by show e.offn ≤ its.length + 1; omega, e3, ?_, ?_, by show r.maxoff ≤ _; omega, ?_⟩
        · intro ha
          show e.iptr = _
          rw [e4]
          simp only [mkEnt, ha, Bool.false_eq_true, if_false]
          rw [lastIptr_getLast]
        · intro hlt h2
          simp only at hlt h2 ⊢
          rw [hce, getLast_take its (e.offn - 1) (by omega) (by omega)] at hcmp
          exact hcmp.symm
        · intro hlt; simp only at hlt; omega
      | _ =>
        simp only
        obtain ⟨r1, r2, r3, r4, r5, r6, r7⟩ := hr
        have hn1 : e.offn ≠ 1 := by
          intro h1
          rw [h1] at hcmp
          simp at hcmp
          rw [hcmp] at hce; rw [hmin] at hce; simp at hce
        have hge : x.cmp (its[e.offn - 2]'(by omega)) key ≠ .lt := by
          rw [getLast_take its (e.offn - 1) (by omega) (by omega)] at hcmp
          have : e.offn - 1 - 1 = e.offn - 2 := by omega
          simp only [this] at hcmp
          rw [← hcmp, hce]; simp
        refine ⟨r1, r2, r3, r4, r5, by show e.offn - 1 ≤ _; omega, ?_⟩
        intro _
        refine ⟨?_, by show e.offn - 1 - 1 < _; omega, ?_⟩
        · show r.first ≤ e.offn - 1
          apply Nat.le_of_not_lt
          intro hlt
          by_cases hf : 2 ≤ r.first
          · have h5 := r5 (by omega) hf
            by_cases heq : r.first - 2 = e.offn - 2
            · simp only [heq] at h5; exact hge h5
            · exact hge (TransCmp.lt_trans (hsort (e.offn - 2) (r.first - 2) (by omega) (by omega) (by omega)) h5)
          · omega
        · have : e.offn - 1 - 1 = e.offn - 2 := by omega
          simp only [this]
          exact hge

/-- number of items less than the key -/
def lessCount (x : Ctx) (key : Item Datum) (its : List (Item Datum)) : Nat :=
  (its.takeWhile (fun it => x.cmp it key == .lt)).length

theorem lessCount_le (x : Ctx) (key : Item Datum) (its : List (Item Datum)) : lessCount x key its ≤ its.length := by
  unfold lessCount; exact (List.takeWhile_sublist _).length_le

theorem lessCount_lt (x : Ctx) (key : Item Datum) (its : List (Item Datum)) :
    ∀ (i : Nat) (h : i < its.length), i < lessCount x key its → x.cmp its[i] key = .lt := by
  induction its with
  | nil => intro i h; simp at h
  | cons a l ih =>
    intro i h hi
    unfold lessCount at hi ih
    rw [List.takeWhile_cons] at hi
    split at hi
    · rename_i ha
      cases i with
      | zero => simpa using ha
      | succ i => simp at hi h ⊢; exact ih i h hi
    · simp at hi

theorem lessCount_at (x : Ctx) (key : Item Datum) (its : List (Item Datum)) :
    ∀ (h : lessCount x key its < its.length), x.cmp (its[lessCount x key its]) key ≠ .lt := by
  induction its with
  | nil => intro h; simp at h
  | cons a l ih =>
    intro h
    by_cases ha : x.cmp a key = .lt
    · have e : lessCount x key (a :: l) = lessCount x key l + 1 := by simp [lessCount, ha]
      simp only [e] at h ⊢
      simp only [List.getElem_cons_succ]
      exact ih (by simpa using h)
    · have e : lessCount x key (a :: l) = 0 := by simp [lessCount, ha]
      simp only [e]; simpa using ha

/-- count is the least index not less -/
theorem lessCount_unique (x : Ctx) (key : Item Datum) (its : List (Item Datum)) (k : Nat) (hk : k ≤ its.length)
    (h1 : ∀ (i : Nat) (h : i < its.length), i < k → x.cmp its[i] key = .lt)
    (h2 : ∀ h : k < its.length, x.cmp its[k] key ≠ .lt) : lessCount x key its = k := by
  have hle := lessCount_le x key its
  rcases Nat.lt_trichotomy (lessCount x key its) k with h | h | h
  · exact absurd (h1 _ (by omega) h) (lessCount_at x key its (by omega))
  · exact h
  · exact absurd (lessCount_lt x key its k (by omega) h) (h2 (by omega))

theorem search_ok (x : Ctx) [TransCmp x.cmpV] (its : List (Item Datum)) (data : List Nat) (key : Item Datum)
    (hok : ∀ it ∈ its, ItemOK x.cfg it) (hst : ∀ it ∈ its, it.stored x.cfg = it)
    (hd : placeList x.cfg 0 ⟨0, 0⟩ its = some data) (n : Nat) :
    ∀ (i : Nat) (cur : Iptr) (ptr : Nat), 1 ≤ i → ptr = posOf x.cfg its (i - 1) →
    (x.cfg.alt = false → cur = lastIptr ⟨0, 0⟩ (its.take (i - 1))) →
    (∀ (j : Nat) (h : j < its.length), j < i - 1 → x.cmp its[j] key = .lt) →
    i - 1 + n ≤ its.length →
    (i - 1 + n = its.length ∨ (1 ≤ n ∧ ∃ h : i - 1 + n - 1 < its.length, x.cmp its[i - 1 + n - 1] key ≠ .lt)) →
    ∃ f, search x key data its.length n i cur ptr = some f ∧ f.offset = lessCount x key its + 1 ∧
      f.ptr = posOf x.cfg its (lessCount x key its) ∧
      (x.cfg.alt = false → f.iptr = lastIptr ⟨0, 0⟩ (its.take (lessCount x key its))) ∧
      (f.found = true ↔ ∃ h : lessCount x key its < its.length, x.cmp its[lessCount x key its] key = .eq) := by
  have : TransCmp x.cmp := cmpItem_trans _ _
  induction n with
  | zero =>
    intro i cur ptr h1 h2 h3 h4 h5 h6
    have hi : i - 1 = its.length := by
      rcases h6 with h | ⟨h, _⟩
      · omega
      · omega
    have hlc : lessCount x key its = its.length :=
      lessCount_unique x key its _ (Nat.le_refl _) (fun j hj _ => h4 j hj (by omega)) (fun h => absurd h (by omega))
    refine ⟨_, rfl, by simp [hlc], by simp [hlc, h2, hi], ?_, ?_⟩
    · intro ha; simp only [hlc]; rw [h3 ha, hi]
    · simp [hlc]
  | succ n ih =>
    intro i cur ptr h1 h2 h3 h4 h5 h6
    have hk : i - 1 < its.length := by omega
    obtain ⟨r1, r2, r3⟩ := read_at x.cfg its data (i - 1) hk hok hd
    have hread : readItem x.cfg ptr cur (data.drop ptr) = some (its[i - 1], data.drop (posOf x.cfg its (i - 1 + 1))) := by
      rw [h2]
      cases ha : x.cfg.alt with
      | true =>
        rw [readItem_alt_prev x.cfg ha _ cur (lastIptr ⟨0, 0⟩ (its.take (i - 1))), r3, hst _ (List.getElem_mem hk)]
      | false => rw [h3 ha, r3, hst _ (List.getElem_mem hk)]
    simp only [search, hread]
    cases hc : x.cmp key its[i - 1] with
    | eq =>
      have hlc : lessCount x key its = i - 1 := by
        apply lessCount_unique x key its _ (by omega) h4
        intro _; rw [OrientedCmp.eq_symm hc]; simp
      refine ⟨_, rfl, by simp [hlc]; omega, by simp [hlc, h2], ?_, ?_⟩
      · intro ha; simp only [hlc]; exact h3 ha
      · simp only [hlc, true_iff]; exact ⟨hk, OrientedCmp.eq_symm hc⟩
    | lt =>
      have hgt : x.cmp its[i - 1] key = .gt := OrientedCmp.gt_iff_lt.2 hc
      have hlc : lessCount x key its = i - 1 := by
        apply lessCount_unique x key its _ (by omega) h4
        intro _; rw [hgt]; simp
      refine ⟨_, rfl, by simp [hlc]; omega, by simp [hlc, h2], ?_, ?_⟩
      · intro ha; simp only [hlc]; exact h3 ha
      · simp only [hlc, Bool.false_eq_true, false_iff]
        rintro ⟨h, h'⟩
        rw [hgt] at h'; simp at h'
    | gt =>
      have hlt : x.cmp its[i - 1] key = .lt := OrientedCmp.gt_iff_lt.1 hc
      have hlen : data.length - (data.drop (posOf x.cfg its (i - 1 + 1))).length = posOf x.cfg its (i - 1 + 1) := by
        simp; omega
      simp only
      rw [hlen]
      have htake : its.take (i + 1 - 1) = its.take (i - 1) ++ [its[i - 1]] := by
        rw [show i + 1 - 1 = i - 1 + 1 by omega]; simp
      apply ih (i + 1) _ _ (by omega)
      · congr 1; omega
      · intro _; rw [htake, lastIptr_snoc]
      · intro j hj hji
        by_cases he : j = i - 1
        · subst he; exact hlt
        · exact h4 j hj (by omega)
      · omega
      · rcases h6 with h | ⟨_, h', h''⟩
        · left; omega
        · by_cases hn0 : n = 0
          · subst hn0
            simp at h''
            exact absurd hlt h''
          · right
            refine ⟨by omega, by omega, ?_⟩
            have e : i + 1 - 1 + n - 1 = i - 1 + (n + 1) - 1 := by omega
            simp only [e]; exact h''

theorem findInLeafPage_ok (x : Ctx) [TransCmp x.cmpV] (its : List (Item Datum)) (data : List Nat)
    (idx : List IndexEnt) (key : Item Datum)
    (hok : ∀ it ∈ its, ItemOK x.cfg it) (hst : ∀ it ∈ its, it.stored x.cfg = it)
    (hd : placeList x.cfg 0 ⟨0, 0⟩ its = some data) (hs : SSorted x.cmp its) (hdir : DirOK x.cfg its idx)
    (hmin : x.cmp minItem key = .lt) :
    ∃ f, findInLeafPage x ⟨data, its.length, idx⟩ key = some f ∧ f.offset = lessCount x key its + 1 ∧
      f.ptr = posOf x.cfg its (lessCount x key its) ∧
      (x.cfg.alt = false → f.iptr = lastIptr ⟨0, 0⟩ (its.take (lessCount x key its))) ∧
      (f.found = true ↔ ∃ h : lessCount x key its < its.length, x.cmp its[lessCount x key its] key = .eq) := by
  have : TransCmp x.cmp := cmpItem_trans _ _
  have hsort : ∀ (i j : Nat) (hi : i < its.length) (hj : j < its.length), i < j → x.cmp its[i] its[j] = .lt :=
    fun i j hi hj hij => List.pairwise_iff_getElem.1 hs i j hi hj hij
  have h0 : RangeOK x its key ⟨0, 1, ⟨0, 0⟩, its.length⟩ := by
    refine ⟨by simp, by simp, by simp [posOf, checkList], by intro _; simp [lastIptr], ?_, by simp, by simp⟩
    intro _ h; simp at h
  have hr := narrow_ok x its key hok hs hmin idx _ hdir h0 rfl
  unfold findInLeafPage
  simp only
  generalize narrow x key idx ⟨0, 1, ⟨0, 0⟩, its.length⟩ = r at hr
  obtain ⟨r1, r2, r3, r4, r5, r6, r7⟩ := hr
  apply search_ok x its data key hok hst hd _ _ _ _ r1 r3 r4
  · intro j hj hjf
    by_cases he : j = r.first - 2
    · subst he; exact r5 hj (by omega)
    · exact TransCmp.lt_trans (hsort j (r.first - 2) hj (by omega) (by omega)) (r5 (by omega) (by omega))
  · omega
  · by_cases hm : r.maxoff < its.length
    · right
      obtain ⟨a, b, cc⟩ := r7 hm
      refine ⟨by omega, by omega, ?_⟩
      have e : r.first - 1 + (r.maxoff + 1 - r.first) - 1 = r.maxoff - 1 := by omega
      simp only [e]; exact cc
    · left; omega

end Rum.Leaf

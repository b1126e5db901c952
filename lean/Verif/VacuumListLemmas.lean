import Verif.CodecLemmas
import Verif.VacuumList
namespace Rum.Codec

theorem writeDatum_stored (a : Attr) (off : Nat) (d : Datum) (h : d.Typed a) :
    writeDatum a off (d.stored a) = writeDatum a off d := by
  cases d with
  | varlena hd p =>
    obtain ⟨h1, h2, h3, h4⟩ := h
    by_cases hp : (packable a && canMakeShort hd p) = true
    · cases hd with
      | full => simp only [Datum.stored, writeDatum, h1, h2, hp, Bool.false_eq_true, if_false, if_true]
      | _ => simp [canMakeShort] at hp
    · simp only [Datum.stored, hp]; rfl
  | _ => rfl

theorem placeItem_stored (c : Cfg) (off : Nat) (it : Item Datum) (prev : Iptr) (h : ItemOK c it) :
    placeItem c off (it.stored c) prev = placeItem c off it prev := by
  obtain ⟨p, info⟩ := it
  cases info with
  | none => rfl
  | some d =>
    obtain ⟨a, ha, ht⟩ := h.2.2 d rfl
    simp [placeItem, Item.stored, ha, writeDatum_stored a _ d ht]

theorem lastIptr_fits (c : Cfg) (xs : List (Item Datum)) : ∀ (prev : Iptr), prev.Fits → (∀ it ∈ xs, ItemOK c it) →
    (lastIptr prev xs).Fits := by
  induction xs with
  | nil => intro prev h _; exact h
  | cons x xs ih => intro prev _ h; exact ih _ (h x (by simp)).1 (fun y hy => h y (by simp [hy]))

/-- survivors -/
abbrev surv (dead : Iptr → Bool) (l : List (Item Datum)) : List (Item Datum) :=
  l.filter (fun it => !dead it.iptr)

/-- what the output buffer must hold after the items `l` -/
def DstOK (c : Cfg) (dead : Iptr → Bool) (l : List (Item Datum)) (dst : Option (List Nat)) : Prop :=
  ((surv dead l).length = l.length ∧ dst = none) ∨
  ((surv dead l).length < l.length ∧ ∃ b, dst = some b ∧ placeList c 0 ⟨0, 0⟩ (surv dead l) = some b)

theorem surv_eq_of_length (dead : Iptr → Bool) (l : List (Item Datum)) (h : (surv dead l).length = l.length) :
    surv dead l = l := by
  exact (List.filter_sublist (p := fun it : Item Datum => !dead it.iptr)).eq_of_length h

theorem vacLoop_correct (c : Cfg) (dead : Iptr → Bool) (todo : List (Item Datum)) :
    ∀ (done : List (Item Datum)) (bd bt : List Nat) (s : VacState),
    (∀ it ∈ done ++ todo, ItemOK c it) →
    placeList c 0 ⟨0, 0⟩ done = some bd →
    placeList c bd.length (lastIptr ⟨0, 0⟩ done) todo = some bt →
    s.pos = bd.length → s.i = done.length → s.j = (surv dead done).length →
    s.cur = lastIptr ⟨0, 0⟩ done → s.prevIptr = lastIptr ⟨0, 0⟩ (surv dead done) → DstOK c dead done s.dst →
    ∃ s', vacLoop c dead (bd ++ bt) todo.length s = some s' ∧ s'.j = (surv dead (done ++ todo)).length ∧
      DstOK c dead (done ++ todo) s'.dst := by
  induction todo with
  | nil =>
    intro done bd bt s _ _ _ _ _ hj _ _ hd
    exact ⟨s, rfl, by simpa using hj, by simpa using hd⟩
  | cons it todo ih =>
    intro done bd bt s hok hbd hbt hpos hi hj hcur hprev hdst
    have hit : ItemOK c it := hok it (by simp)
    have hlast : (lastIptr ⟨0, 0⟩ done).Fits :=
      lastIptr_fits c done _ (by decide) (fun x hx => hok x (by simp [hx]))
    simp only [placeList] at hbt
    obtain ⟨b, hb, hbl⟩ := placeItem_ok c bd.length it (lastIptr ⟨0, 0⟩ done) hit
    simp only [hb] at hbt
    obtain ⟨bs, hbs, _⟩ := placeList_ok c todo (bd.length + b.length) it.iptr (fun x hx => hok x (by simp [hx]))
    simp only [hbs, Option.some.injEq] at hbt
    subst hbt
    have hsrc : bd ++ (b ++ bs) = (bd ++ b) ++ bs := by simp
    have hdone' : placeList c 0 ⟨0, 0⟩ (done ++ [it]) = some (bd ++ b) :=
      placeList_snoc c done it 0 ⟨0, 0⟩ bd b hbd (by simpa using hb)
    have hrd : readItem c s.pos s.cur ((bd ++ (b ++ bs)).drop s.pos) = some (it.stored c, bs) := by
      rw [hpos, hcur, List.drop_append_of_le_length (Nat.le_refl _), List.drop_of_length_le (Nat.le_refl _),
        List.nil_append]
      exact readItem_placeItem c bd.length it _ hit hlast b bs hb
    have hpos' : (bd ++ (b ++ bs)).length - bs.length = (bd ++ b).length := by simp; omega
    have hiptr : (it.stored c).iptr = it.iptr := rfl
    have hstep : ∃ s1, vacStep c dead (bd ++ (b ++ bs)) s = some s1 ∧ s1.pos = (bd ++ b).length ∧
        s1.i = (done ++ [it]).length ∧ s1.j = (surv dead (done ++ [it])).length ∧
        s1.cur = lastIptr ⟨0, 0⟩ (done ++ [it]) ∧ s1.prevIptr = lastIptr ⟨0, 0⟩ (surv dead (done ++ [it])) ∧
        DstOK c dead (done ++ [it]) s1.dst := by
      simp only [vacStep, hrd, hiptr, hpos']
      by_cases hd : dead it.iptr = true
      · have hf : surv dead (done ++ [it]) = surv dead done := by simp [surv, List.filter_append, hd]
        rw [if_pos hd]
        refine ⟨_, rfl, rfl, by simp [hi], by simp [hf, hj], by simp [lastIptr_snoc], by rw [hf]; exact hprev, ?_⟩
        rcases hdst with ⟨h1, h2⟩ | ⟨h1, b0, h2, h3⟩
        · right
          refine ⟨by rw [hf]; simp; omega, bd, ?_, ?_⟩
          · simp [h2, hpos]
          · rw [hf, surv_eq_of_length dead done h1]; exact hbd
        · right
          refine ⟨by rw [hf]; simp; omega, b0, by simp [h2], by rw [hf]; exact h3⟩
      · have hf : surv dead (done ++ [it]) = surv dead done ++ [it] := by simp [surv, List.filter_append, hd]
        rw [if_neg hd]
        rcases hdst with ⟨h1, h2⟩ | ⟨h1, b0, h2, h3⟩
        · rw [if_neg (by omega)]
          refine ⟨_, rfl, rfl, by simp [hi], by simp [hf, hj], by simp [lastIptr_snoc], by rw [hf, lastIptr_snoc], ?_⟩
          left
          exact ⟨by rw [hf]; simp [h1], h2⟩
        · rw [if_pos (by omega), h2]
          have hpf : (s.prevIptr).Fits := by
            rw [hprev]
            exact lastIptr_fits c _ _ (by decide) (fun x hx => hok x (by
              have := List.mem_filter.1 hx; simp [this.1]))
          obtain ⟨b2, hb2, _⟩ := placeItem_ok c b0.length it s.prevIptr hit
          have hb2' : placeItem c b0.length (it.stored c) s.prevIptr = some b2 := by
            rw [placeItem_stored c _ it _ hit]; exact hb2
          simp only [hb2']
          refine ⟨_, rfl, rfl, by simp [hi], by simp [hf, hj], by simp [lastIptr_snoc], by rw [hf, lastIptr_snoc], ?_⟩
          right
          refine ⟨by rw [hf]; simp only [List.length_append, List.length_singleton]; omega, b0 ++ b2, rfl, ?_⟩
          rw [hf]
          exact placeList_snoc c _ it 0 _ b0 b2 h3 (by rw [hprev] at hb2; simpa using hb2)
    obtain ⟨s1, hs1, g1, g2, g3, g4, g5, g6⟩ := hstep
    have := ih (done ++ [it]) (bd ++ b) bs s1 (by simpa using hok) hdone'
      (by rw [lastIptr_snoc]; simpa using hbs) g1 g2 g3 g4 g5 g6
    obtain ⟨s', k1, k2, k3⟩ := this
    refine ⟨s', ?_, by simpa using k2, by simpa using k3⟩
    simp only [List.length_cons, vacLoop, hs1]
    simpa using k1

/-! ### Re-encoding never grows -/

theorem sizeBlk_le_iff (n k : Nat) : sizeBlk n ≤ k + 1 ↔ n < 128 ^ (k + 1) := by
  induction k generalizing n with
  | zero =>
    rw [sizeBlk]
    by_cases h : n < 0x80
    · simp [h]
    · rw [if_neg h]
      have : 0 < sizeBlk (n >>> 7) := by rw [sizeBlk]; split <;> omega
      simp; omega
  | succ k ih =>
    rw [sizeBlk]
    by_cases h : n < 0x80
    · have : 128 ^ 1 ≤ 128 ^ (k + 1 + 1) := Nat.pow_le_pow_right (by decide) (by omega)
      simp only [h, if_true]; omega
    · rw [if_neg h]
      have h1 : 1 + sizeBlk (n >>> 7) ≤ k + 1 + 1 ↔ sizeBlk (n >>> 7) ≤ k + 1 := by omega
      rw [h1, ih, Nat.shiftRight_eq_div_pow, Nat.div_lt_iff_lt_mul (by decide), Nat.pow_succ 128 (k + 1)]

theorem sizeBlk_pos (n : Nat) : 0 < sizeBlk n := by rw [sizeBlk]; split <;> omega
theorem sizeOff_pos (n : Nat) : 0 < sizeOff n := by rw [sizeOff]; split <;> omega

theorem sizeBlk_add (a b : Nat) : sizeBlk (a + b) ≤ sizeBlk a + sizeBlk b := by
  obtain ⟨i, hi⟩ : ∃ i, sizeBlk a = i + 1 := ⟨sizeBlk a - 1, by have := sizeBlk_pos a; omega⟩
  obtain ⟨j, hj⟩ : ∃ j, sizeBlk b = j + 1 := ⟨sizeBlk b - 1, by have := sizeBlk_pos b; omega⟩
  have ha := (sizeBlk_le_iff a i).1 (by omega)
  have hb := (sizeBlk_le_iff b j).1 (by omega)
  rw [hi, hj, show i + 1 + (j + 1) = (i + 1 + j) + 1 by omega, sizeBlk_le_iff]
  have h1 : (2 : Nat) ≤ 128 ^ (i + 1) := by
    have : 128 ^ 1 ≤ 128 ^ (i + 1) := Nat.pow_le_pow_right (by decide) (by omega)
    omega
  have h2 : (2 : Nat) ≤ 128 ^ (j + 1) := by
    have : 128 ^ 1 ≤ 128 ^ (j + 1) := Nat.pow_le_pow_right (by decide) (by omega)
    omega
  have h3 : 128 ^ (i + 1 + j + 1) = 128 ^ (i + 1) * 128 ^ (j + 1) := by
    rw [← Nat.pow_add]; congr 1
  rw [h3]
  generalize 128 ^ (i + 1) = x at *
  generalize 128 ^ (j + 1) = y at *
  have : x + y ≤ x * y := Nat.add_le_mul h1 h2
  omega

theorem computeSize_mono (a : Attr) (d : Datum) (x y : Nat) (h : x ≤ y) : computeSize a x d ≤ computeSize a y d := by
  have := alignUp_mono a.align x y h
  cases d with
  | byval n => simp only [computeSize]; omega
  | varlena hd p =>
    simp only [computeSize]
    split
    · omega
    · cases hd <;> simp only <;> omega
  | cstring s => simp only [computeSize]; omega
  | fixedRef s => simp only [computeSize]; omega

theorem computeSize_ge (a : Attr) (d : Datum) (x : Nat) (ht : d.Typed a) : x ≤ computeSize a x d := by
  obtain ⟨bs, _, h⟩ := writeDatum_typed a x d ht
  omega

/-- size after the pointer part -/
def infoSize (c : Cfg) (it : Item Datum) (s : Nat) : Nat :=
  match it.info, c.attr with
  | some d, some a => computeSize a s d
  | _, _ => s

theorem checkPlace_eq (c : Cfg) (it : Item Datum) (prev : Iptr) (s : Nat) :
    checkPlace c it prev s = infoSize c it (s + sizeIptr c.alt it.iptr prev) := by
  unfold checkPlace infoSize
  rfl

theorem infoSize_mono (c : Cfg) (it : Item Datum) (x y : Nat) (h : x ≤ y) : infoSize c it x ≤ infoSize c it y := by
  unfold infoSize
  cases it.info with
  | none => exact h
  | some d => cases c.attr with
    | none => exact h
    | some a => exact computeSize_mono a d x y h

theorem infoSize_ge (c : Cfg) (it : Item Datum) (x : Nat) (h : ItemOK c it) : x ≤ infoSize c it x := by
  unfold infoSize
  cases hi : it.info with
  | none => exact Nat.le_refl _
  | some d =>
    obtain ⟨a, ha, ht⟩ := h.2.2 d hi
    rw [ha]; exact computeSize_ge a d x ht

theorem subBlk (a b : Nat) (h : b ≤ a) (ha : a < 2 ^ 32) : (a + 2 ^ 32 - b) % 2 ^ 32 = a - b := by omega

/-- block numbers never decrease along the list -/
def BlkSorted (prev : Nat) : List (Item Datum) → Prop
  | [] => True
  | it :: its => prev ≤ it.iptr.blk ∧ BlkSorted it.iptr.blk its

theorem checkList_filter_le (c : Cfg) (dead : Iptr → Bool) (its : List (Item Datum)) :
    ∀ (prev prevS : Iptr) (off offS : Nat),
    (∀ it ∈ its, ItemOK c it) → (c.alt = false → BlkSorted prev.blk its) → prevS.blk ≤ prev.blk ∨ c.alt = true →
    offS ≤ off →
    (c.alt = false → prevS.blk = prev.blk ∨ offS + sizeBlk (prev.blk - prevS.blk) ≤ off) →
    checkList c prevS offS (surv dead its) ≤ checkList c prev off its := by
  induction its with
  | nil => intro prev prevS off offS _ _ _ h _; exact h
  | cons it its ih =>
    intro prev prevS off offS hok hs hle hoff hinv
    have hit := hok it (by simp)
    have hrest : ∀ x ∈ its, ItemOK c x := fun x hx => hok x (by simp [hx])
    have hkey : offS + sizeIptr c.alt it.iptr prevS ≤ off + sizeIptr c.alt it.iptr prev := by
      cases halt : c.alt with
      | true => simp [sizeIptr]; exact hoff
      | false =>
        have hb : prev.blk ≤ it.iptr.blk := (hs halt).1
        have hl : prevS.blk ≤ prev.blk := by
          rcases hle with h | h
          · exact h
          · simp [halt] at h
        have hfit := hit.1.1
        simp only [sizeIptr, Bool.false_eq_true, if_false]
        rw [subBlk _ _ hb hfit, subBlk _ _ (by omega) hfit]
        rcases hinv halt with h | h
        · rw [h]; omega
        · have := sizeBlk_add (prev.blk - prevS.blk) (it.iptr.blk - prev.blk)
          rw [show prev.blk - prevS.blk + (it.iptr.blk - prev.blk) = it.iptr.blk - prevS.blk by omega] at this
          omega
    by_cases hd : dead it.iptr = true
    · have hf : surv dead (it :: its) = surv dead its := by simp [surv, hd]
      rw [hf]
      simp only [checkList]
      have hge := infoSize_ge c it (off + sizeIptr c.alt it.iptr prev) hit
      rw [← checkPlace_eq] at hge
      apply ih it.iptr prevS _ offS hrest (fun h => (hs h).2)
      · cases halt : c.alt with
        | true => exact Or.inr rfl
        | false =>
          left
          have := (hs halt).1
          rcases hle with h | h
          · omega
          · simp [halt] at h
      · omega
      · intro halt
        right
        have hb : prev.blk ≤ it.iptr.blk := (hs halt).1
        have hl : prevS.blk ≤ prev.blk := by
          rcases hle with h | h
          · exact h
          · simp [halt] at h
        have hfit := hit.1.1
        simp only [sizeIptr, halt, Bool.false_eq_true, if_false] at hkey hge
        rw [subBlk _ _ (by omega) hfit] at hkey
        omega
    · have hf : surv dead (it :: its) = it :: surv dead its := by simp [surv, hd]
      rw [hf]
      simp only [checkList]
      have hm := infoSize_mono c it _ _ hkey
      rw [← checkPlace_eq, ← checkPlace_eq] at hm
      exact ih it.iptr it.iptr _ _ hrest (fun h => (hs h).2) (Or.inl (Nat.le_refl _)) hm (fun _ => Or.inl rfl)

end Rum.Codec

import Verif.DataPageLemmas
set_option linter.unusedSectionVars false
namespace Rum.Leaf
open Rum Rum.Codec Std

theorem sizeLoop_fst (c : Cfg) (l : List (Item Datum)) : ∀ prev t m, (sizeLoop c prev t m l).1 = checkList c prev t l := by
  induction l with
  | nil => intros; rfl
  | cons a l ih => intro prev t m; simp only [sizeLoop, checkList, ih]

theorem lastIptr_append (a b : List (Item Datum)) : ∀ p, lastIptr p (a ++ b) = lastIptr (lastIptr p a) b := by
  induction a with
  | nil => intro p; rfl
  | cons y a ih => intro p; simp only [List.cons_append, lastIptr, ih]

/-- What the placing loop of the split delivers: the shortest front part that uses more than half of the total. -/
theorem splitLoop_ok (c : Cfg) (total : Nat) (its : List (Item Datum)) : ∀ (D : List (Item Datum)) (out : List Nat),
    (∀ it ∈ D, ItemOK c it) → (∀ it ∈ its, ItemOK c it) → placeList c 0 ⟨0, 0⟩ D = some out →
    checkList c ⟨0, 0⟩ 0 D ≤ total / 2 → total / 2 < checkList c ⟨0, 0⟩ 0 (D ++ its) →
    ∃ a z b bl br, its = a ++ z :: b ∧ splitLoop c total D out (lastIptr ⟨0, 0⟩ D) its = some (D ++ a ++ [z], b, bl, br) ∧
      placeList c 0 ⟨0, 0⟩ (D ++ a ++ [z]) = some bl ∧ placeList c 0 ⟨0, 0⟩ b = some br ∧
      checkList c ⟨0, 0⟩ 0 (D ++ a) ≤ total / 2 ∧ total / 2 < checkList c ⟨0, 0⟩ 0 (D ++ a ++ [z]) := by
  induction its with
  | nil => intro D out _ _ _ h1 h2; rw [List.append_nil] at h2; omega
  | cons it its ih =>
    intro D out hD hok hout hle htot
    have hit := hok it (by simp)
    have hrest : ∀ y ∈ its, ItemOK c y := fun y hy => hok y (by simp [hy])
    have hD' : ∀ y ∈ D ++ [it], ItemOK c y := by
      intro y hy; rcases List.mem_append.1 hy with h | h
      · exact hD y h
      · simp at h; subst h; exact hit
    obtain ⟨b, hb, hbl⟩ := placeItem_ok c out.length it (lastIptr ⟨0, 0⟩ D) hit
    have hsn : placeList c 0 ⟨0, 0⟩ (D ++ [it]) = some (out ++ b) :=
      placeList_snoc c D it 0 ⟨0, 0⟩ out b hout (by simpa using hb)
    obtain ⟨o', ho', hol⟩ := placeList_ok c (D ++ [it]) 0 ⟨0, 0⟩ hD'
    rw [hsn, Option.some.injEq] at ho'
    subst ho'
    rw [Nat.zero_add] at hol
    obtain ⟨r, hr, -⟩ := placeList_ok c its 0 ⟨0, 0⟩ hrest
    rw [splitLoop]
    simp only [hb]
    by_cases hc : (out ++ b).length > total / 2
    · refine ⟨[], it, its, out ++ b, r, rfl, ?_, by simpa using hsn, hr, by simpa using hle, ?_⟩
      · simp only [hc, if_true, hr]; simp
      · rw [hol] at hc; simpa using hc
    · simp only [hc, if_false]
      obtain ⟨a, z, b', bl, br, e, h1, h2, h3, h4, h5⟩ := ih (D ++ [it]) (out ++ b) hD' hrest hsn (by omega)
        (by simpa using htot)
      rw [lastIptr_snoc] at h1
      refine ⟨it :: a, z, b', bl, br, by rw [e]; rfl, ?_, ?_, h3, ?_, ?_⟩
      · rw [h1]; simp
      · simpa using h2
      · simpa using h4
      · simpa using h5

theorem checkPlace_gt (c : Cfg) (it : Item Datum) (hit : ItemOK c it) (prev : Iptr) (s : Nat) : s < checkPlace c it prev s := by
  rw [checkPlace_eq]
  have h1 := infoSize_ge c it (s + sizeIptr c.alt it.iptr prev) hit
  have h2 : 0 < sizeIptr c.alt it.iptr prev := by
    unfold sizeIptr; split
    · omega
    · have := sizeBlk_pos ((it.iptr.blk + 2 ^ 32 - prev.blk) % 2 ^ 32); omega
  omega

theorem checkList_ge (c : Cfg) (l : List (Item Datum)) : ∀ p s, (∀ it ∈ l, ItemOK c it) → s ≤ checkList c p s l := by
  induction l with
  | nil => intros; exact Nat.le_refl _
  | cons a l ih =>
    intro p s h
    have h1 := checkPlace_gt c a (h a (by simp)) p s
    have h2 := ih a.iptr (checkPlace c a p s) (fun y hy => h y (by simp [hy]))
    simp only [checkList]; omega

theorem sizeIptr_near (c : Cfg) (p q r : Iptr) : sizeIptr c.alt p q ≤ sizeIptr c.alt p r + 4 := by
  unfold sizeIptr
  split
  · omega
  · have h1 : sizeBlk ((p.blk + 2 ^ 32 - q.blk) % 2 ^ 32) ≤ 4 + 1 := by
      rw [sizeBlk_le_iff]
      have : (p.blk + 2 ^ 32 - q.blk) % 2 ^ 32 < 2 ^ 32 := Nat.mod_lt _ (by decide)
      have h2 : (2 : Nat) ^ 32 < 128 ^ (4 + 1) := by decide
      omega
    have h2 := sizeBlk_pos ((p.blk + 2 ^ 32 - r.blk) % 2 ^ 32)
    omega

/-- the size the first loop arrives at exceeds the real total by at most 8 bytes -/
theorem sizeInsert_le (c : Cfg) (a b : List (Item Datum)) (n : Item Datum) (hb : ∀ it ∈ b, ItemOK c it)
    (hs : c.alt = false → ∃ q, BlkSorted q b) (hpad : padOf c ∣ 8) :
    sizeInsert c a n b ≤ checkList c ⟨0, 0⟩ 0 (a ++ n :: b) + 8 := by
  simp only [sizeInsert, sizeLoop_fst]
  rw [checkList_append]
  cases b with
  | nil => simp only [checkList]; omega
  | cons o os =>
    have ho := hb o (by simp)
    simp only [checkList]
    generalize checkPlace c n (lastIptr ⟨0, 0⟩ a) (checkList c ⟨0, 0⟩ 0 a) = t
    have h1 : checkPlace c o (lastIptr ⟨0, 0⟩ a) t ≤ checkPlace c o n.iptr t + 8 * 1 := by
      rw [checkPlace_eq, checkPlace_eq, ← infoSize_shift c o ho 8 _ 1 (padItem_dvd hpad)]
      apply infoSize_mono
      have := sizeIptr_near c o.iptr (lastIptr ⟨0, 0⟩ a) n.iptr
      omega
    have h2 := checkList_mono c os o.iptr o.iptr _ _ (fun y hy => hb y (by simp [hy])) h1
      (fun ha => by obtain ⟨q, hq⟩ := hs ha; exact ⟨Nat.le_refl _, hq.2⟩)
    rw [checkList_shift c 8 1 hpad os _ _ (fun y hy => hb y (by simp [hy]))] at h2
    omega

theorem sizeInsert_ge (c : Cfg) (a b : List (Item Datum)) (n : Item Datum) (hn : ItemOK c n) (hb : ∀ it ∈ b, ItemOK c it)
    (hs : c.alt = false → BlkSorted (lastIptr ⟨0, 0⟩ a).blk b) :
    checkList c ⟨0, 0⟩ 0 (a ++ b) ≤ sizeInsert c a n b := by
  simp only [sizeInsert, sizeLoop_fst]
  rw [checkList_append]
  have h1 := checkPlace_gt c n hn (lastIptr ⟨0, 0⟩ a) (checkList c ⟨0, 0⟩ 0 a)
  exact checkList_mono c b _ _ _ _ hb (by omega) (fun ha => ⟨Nat.le_refl _, hs ha⟩)

theorem appendLoop_total (c : Cfg) (cap : Nat) (l : List (Item Datum)) : ∀ prev t m,
    (appendLoop c cap prev t m l).1 ≤ l.length ∧
    (appendLoop c cap prev t m l).2 = checkList c prev t (l.take (appendLoop c cap prev t m l).1) := by
  induction l with
  | nil => intro prev t m; simp [appendLoop, checkList]
  | cons a l ih =>
    intro prev t m
    simp only [appendLoop]
    split
    · obtain ⟨h1, h2⟩ := ih a.iptr (checkPlace c a prev t) (max m (checkPlace c a prev t - t))
      simp only [List.length_cons, List.take_succ_cons, checkList]
      exact ⟨by omega, h2⟩
    · simp [checkList]

/-- sizes without padding -/
theorem checkPlace_add (c : Cfg) (it : Item Datum) (hit : Flat c it) (prev : Iptr) (s : Nat) :
    checkPlace c it prev s = s + checkPlace c it prev 0 := by
  have := checkPlace_shift c it hit.ok prev 1 0 s (hit.dvd _)
  rw [Nat.zero_add, Nat.one_mul] at this
  omega

theorem checkList_add (c : Cfg) (l : List (Item Datum)) (hl : ∀ it ∈ l, Flat c it) (prev : Iptr) (s : Nat) :
    checkList c prev s l = s + checkList c prev 0 l := by
  have := checkList_shift' c 1 s l prev 0 (fun y hy => ⟨(hl y hy).ok, (hl y hy).dvd _⟩)
  rw [Nat.zero_add, Nat.one_mul] at this
  omega

/-- the greatest size the first loop arrives at covers every item -/
theorem sizeLoop_max (c : Cfg) (l : List (Item Datum)) : ∀ prev t m, (∀ it ∈ l, Flat c it) →
    m ≤ (sizeLoop c prev t m l).2 ∧
    ∀ a z b, l = a ++ z :: b → checkPlace c z (lastIptr prev a) 0 ≤ (sizeLoop c prev t m l).2 := by
  induction l with
  | nil => intro prev t m _; exact ⟨Nat.le_refl _, fun a z b h => by simp at h⟩
  | cons y l ih =>
    intro prev t m h
    simp only [sizeLoop]
    obtain ⟨h1, h2⟩ := ih y.iptr (checkPlace c y prev t) (max m (checkPlace c y prev t - t)) (fun w hw => h w (by simp [hw]))
    refine ⟨by omega, fun a z b e => ?_⟩
    cases a with
    | nil =>
      simp only [List.nil_append, List.cons.injEq] at e
      obtain ⟨rfl, rfl⟩ := e
      have := checkPlace_add c y (h y (by simp)) prev t
      simp only [lastIptr]; omega
    | cons a0 a =>
      simp only [List.cons_append, List.cons.injEq] at e
      obtain ⟨rfl, e⟩ := e
      exact h2 a z b e

/-- when the append loop takes items, the total leaves room for the greatest item except possibly the last one taken -/
theorem appendLoop_room (c : Cfg) (cap : Nat) (l : List (Item Datum)) : ∀ prev t m,
    (∀ it ∈ l, Flat c it) → 1 ≤ (appendLoop c cap prev t m l).1 →
    ∃ M, m ≤ M ∧ (appendLoop c cap prev t m l).2 + 2 * M + 16 < 2 * cap ∧
      ∀ a z b, l.take (appendLoop c cap prev t m l).1 = a ++ z :: b → b ≠ [] → checkPlace c z (lastIptr prev a) 0 ≤ M := by
  induction l with
  | nil => intro prev t m _ h; simp [appendLoop] at h
  | cons y l ih =>
    intro prev t m hok hk
    simp only [appendLoop] at hk ⊢
    split
    · next hc =>
      have hsz := checkPlace_add c y (hok y (by simp)) prev t
      simp only [List.take_succ_cons]
      by_cases hk2 : 1 ≤ (appendLoop c cap y.iptr (checkPlace c y prev t) (max m (checkPlace c y prev t - t)) l).1
      · obtain ⟨M, h1, h2, h3⟩ := ih _ _ _ (fun w hw => hok w (by simp [hw])) hk2
        refine ⟨M, by omega, h2, fun a z b e hb => ?_⟩
        cases a with
        | nil =>
          simp only [List.nil_append, List.cons.injEq] at e
          obtain ⟨rfl, rfl⟩ := e
          simp only [lastIptr]; omega
        | cons a0 a =>
          simp only [List.cons_append, List.cons.injEq] at e
          obtain ⟨rfl, e⟩ := e
          exact h3 a z b e hb
      · have h0 : (appendLoop c cap y.iptr (checkPlace c y prev t) (max m (checkPlace c y prev t - t)) l).1 = 0 := by omega
        have h2 := (appendLoop_total c cap l y.iptr (checkPlace c y prev t) (max m (checkPlace c y prev t - t))).2
        rw [h0] at h2 ⊢
        simp only [List.take_zero, checkList] at h2 ⊢
        refine ⟨m, Nat.le_refl _, by rw [h2]; exact hc, fun a z b e hb => ?_⟩
        cases a with
        | nil => simp only [List.nil_append, List.cons.injEq] at e; exact absurd e.2.symm hb
        | cons a0 a => simp at e
    · next hc => simp [hc] at hk

end Rum.Leaf

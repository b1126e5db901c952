import Verif.Codec
/- Helper lemmas for the codec. -/
namespace Rum.Codec

theorem and7f (n : Nat) : n &&& 0x7f = n % 128 := Nat.and_two_pow_sub_one_eq_mod n 7
theorem and3f (n : Nat) : n &&& 0x3f = n % 64 := Nat.and_two_pow_sub_one_eq_mod n 6

theorem byte_hi : ∀ r, r < 128 → ((r ||| 0x80) &&& 0x7f = r ∧ (r ||| 0x80) &&& 0x80 ≠ 0 ∧ (r ||| 0x80) < 256) := by
  decide +kernel
theorem byte_lo : ∀ r, r < 128 → (r &&& 0x7f = r ∧ r &&& 0x80 = 0) := by
  decide +kernel
theorem byte_six : ∀ r, r < 64 → (r &&& 0x3f = r ∧ r &&& 0x80 = 0 ∧ r &&& 0x40 = 0 ∧
    (r ||| 0x40) &&& 0x3f = r ∧ (r ||| 0x40) &&& 0x80 = 0 ∧ (r ||| 0x40) &&& 0x40 ≠ 0 ∧ (r ||| 0x40) < 256) := by
  decide +kernel

theorem or_shift (acc x i : Nat) (h : acc < 2 ^ i) : acc ||| (x <<< i) = acc + x * 2 ^ i := by
  rw [Nat.or_comm, ← Nat.shiftLeft_add_eq_or_of_lt h, Nat.shiftLeft_eq]; omega

theorem pow_succ7 (i : Nat) : 2 ^ (i + 7) = 2 ^ i * 128 := by
  rw [Nat.pow_add]

theorem split7 (n p : Nat) : n % 128 * p + n / 128 * (p * 128) = n * p := by
  have h : n = n % 128 + n / 128 * 128 := by omega
  conv => rhs; rw [h]
  rw [Nat.add_mul, Nat.mul_assoc, Nat.mul_comm 128 p]

theorem readBlk_writeBlk (n : Nat) : ∀ (i acc : Nat) (rest : List Nat), acc < 2 ^ i →
    acc + n * 2 ^ i < 2 ^ 32 → readBlk i acc (writeBlk n ++ rest) = some (acc + n * 2 ^ i, rest) := by
  induction n using Nat.strongRecOn with
  | _ n ih =>
    intro i acc rest hacc hlt
    rw [writeBlk]
    have hr : n % 128 < 128 := Nat.mod_lt _ (by decide)
    have hs := split7 n (2 ^ i)
    by_cases hn : n < 0x80
    · have hnm : n % 128 = n := Nat.mod_eq_of_lt hn
      have hge : ¬ (n ≥ 0x80) := by omega
      simp only [hn, hge, if_true, if_false, and7f, hnm, List.cons_append, List.nil_append, readBlk,
        Nat.or_zero]
      have hb := byte_lo n hn
      rw [or_shift _ _ _ hacc, hb.2]
      simp [Nat.mod_eq_of_lt hlt]
    · have hge : n ≥ 0x80 := by omega
      simp only [hn, hge, if_true, if_false, and7f, List.cons_append, readBlk]
      have hb := byte_hi _ hr
      have hb1 := hb.1
      rw [and7f] at hb1
      rw [or_shift _ _ _ hacc, hb1, if_pos hb.2.1]
      have hle : acc + n % 128 * 2 ^ i < 2 ^ 32 := by
        have : n / 128 * (2 ^ i * 128) ≥ 0 := Nat.zero_le _
        omega
      rw [Nat.mod_eq_of_lt hle]
      have hsr : n >>> 7 = n / 128 := by rw [Nat.shiftRight_eq_div_pow]
      rw [hsr]
      have hp := pow_succ7 i
      rw [ih (n / 128) (by omega) (i + 7) _ rest]
      · rw [hp]; congr 2; omega
      · rw [hp]
        have : n % 128 * 2 ^ i ≤ 127 * 2 ^ i := Nat.mul_le_mul_right _ (by omega)
        omega
      · rw [hp]; omega

theorem readOff_writeOff (isNull : Bool) (n : Nat) : ∀ (i acc : Nat) (rest : List Nat), acc < 2 ^ i →
    acc + n * 2 ^ i < 2 ^ 16 →
    readOff i acc (writeOff n isNull ++ rest) = some (acc + n * 2 ^ i, isNull, rest) := by
  induction n using Nat.strongRecOn with
  | _ n ih =>
    intro i acc rest hacc hlt
    rw [writeOff]
    have hr : n % 128 < 128 := Nat.mod_lt _ (by decide)
    have hs := split7 n (2 ^ i)
    by_cases hn : n ≥ 0x40
    · simp only [hn, if_true, and7f, List.cons_append, readOff]
      have hb := byte_hi _ hr
      have hb1 := hb.1
      rw [and7f] at hb1
      rw [or_shift _ _ _ hacc, hb1, if_pos hb.2.1]
      have hle : acc + n % 128 * 2 ^ i < 2 ^ 16 := by
        have : n / 128 * (2 ^ i * 128) ≥ 0 := Nat.zero_le _
        omega
      rw [Nat.mod_eq_of_lt hle]
      have hsr : n >>> 7 = n / 128 := by rw [Nat.shiftRight_eq_div_pow]
      rw [hsr]
      have hp := pow_succ7 i
      rw [ih (n / 128) (by omega) (i + 7) _ rest]
      · rw [hp]; congr 2; omega
      · rw [hp]
        have : n % 128 * 2 ^ i ≤ 127 * 2 ^ i := Nat.mul_le_mul_right _ (by omega)
        omega
      · rw [hp]; omega
    · have hb := byte_six n (by omega)
      rw [if_neg hn]
      cases isNull
      · simp only [Bool.false_eq_true, if_false, Nat.or_zero, List.cons_append, List.nil_append, readOff]
        rw [hb.1, hb.2.1, hb.2.2.1]
        rw [or_shift acc n i hacc, Nat.mod_eq_of_lt hlt]; simp
      · simp only [if_true, List.cons_append, List.nil_append, readOff]
        rw [hb.2.2.2.1, hb.2.2.2.2.1]
        rw [or_shift acc n i hacc, Nat.mod_eq_of_lt hlt]; simp [hb.2.2.2.2.2.1]

theorem and_bit15 (x : Nat) (hx : x < 2 ^ 16) : (x &&& 0x8000 ≠ 0 ↔ 0x8000 ≤ x) := by
  constructor
  · intro h
    apply Nat.le_of_not_lt
    intro hlt
    apply h
    apply Nat.eq_of_testBit_eq
    intro i
    rw [Nat.testBit_and, show 0x8000 = 2 ^ 15 from rfl, Nat.testBit_two_pow]
    by_cases hi : 15 = i
    · subst hi; simp [Nat.testBit_lt_two_pow (x := x) (i := 15) (by simpa using hlt)]
    · simp [hi]
  · intro h h0
    have h1 : x.testBit 15 = true := by
      rw [Nat.testBit_eq_decide_div_mod_eq]; simp; omega
    have h2 : (x &&& 0x8000).testBit 15 = true := by
      rw [Nat.testBit_and, h1]; decide
    rw [h0] at h2
    simp at h2

theorem leBytes_length (k n : Nat) : (leBytes k n).length = k := by
  induction k generalizing n with
  | zero => rfl
  | succ k ih => simp [leBytes, ih]

theorem leNat_leBytes (k n : Nat) (h : n < 256 ^ k) : leNat (leBytes k n) = n := by
  induction k generalizing n with
  | zero => simp at h; simp [leBytes, leNat, h]
  | succ k ih =>
    have : n / 256 < 256 ^ k := by
      rw [Nat.pow_succ] at h
      exact Nat.div_lt_of_lt_mul (by omega)
    simp [leBytes, leNat, ih _ this]; omega

theorem readIptr_writeIptr (alt : Bool) (p prev : Iptr) (isNull : Bool) (rest : List Nat)
    (hp : p.Fits) (hprev : prev.Fits) (halt : alt = true → p.off < 0x8000) :
    readIptr alt prev (writeIptr alt p prev isNull ++ rest) = some (p, isNull, rest) := by
  obtain ⟨hb, ho⟩ := hp
  obtain ⟨hpb, _⟩ := hprev
  cases alt
  · simp only [readIptr, writeIptr, Bool.false_eq_true, if_false, List.append_assoc]
    rw [readBlk_writeBlk _ 0 0 _ (by simp) (by omega)]
    simp only
    rw [readOff_writeOff isNull _ 0 0 _ (by simp) (by omega)]
    simp only [Nat.pow_zero, Nat.mul_one, Nat.zero_add]
    have : ((p.blk + 2 ^ 32 - prev.blk) % 2 ^ 32 + prev.blk) % 2 ^ 32 = p.blk := by omega
    rw [this]
  · have ho' := halt rfl
    have hor : p.off ||| 0x8000 = p.off + 0x8000 := by
      have := or_shift p.off 1 15 (by omega)
      simpa using this
    have h15 : ∀ x, x < 2 ^ 16 → (x &&& 0x8000 ≠ 0 ↔ 0x8000 ≤ x) := by
      intro x hx
      exact and_bit15 x hx
    have hand : ∀ x, x &&& 0x7fff = x % 2 ^ 15 := fun x => Nat.and_two_pow_sub_one_eq_mod x 15
    have hhi : leNat (leBytes 2 (p.blk / 2 ^ 16)) = p.blk / 2 ^ 16 := leNat_leBytes 2 _ (by omega)
    have hlo : leNat (leBytes 2 (p.blk % 2 ^ 16)) = p.blk % 2 ^ 16 := leNat_leBytes 2 _ (by omega)
    have gen : ∀ o, o < 2 ^ 16 → readIptr true prev (rawIptr ⟨p.blk, o⟩ ++ rest) =
        if 0x8000 ≤ o then some (⟨p.blk, o % 2 ^ 15⟩, true, rest) else some (⟨p.blk, o⟩, false, rest) := by
      intro o ho2
      have hoo : leNat (leBytes 2 o) = o := leNat_leBytes 2 _ (by omega)
      have hlen : ¬ (rawIptr ⟨p.blk, o⟩ ++ rest).length < 6 := by simp [rawIptr, leBytes_length]; omega
      simp only [readIptr, if_true, hlen, if_false]
      have t1 : (rawIptr ⟨p.blk, o⟩ ++ rest).take 2 = leBytes 2 (p.blk / 2 ^ 16) := by
        simp [rawIptr, leBytes]
      have t2 : ((rawIptr ⟨p.blk, o⟩ ++ rest).drop 2).take 2 = leBytes 2 (p.blk % 2 ^ 16) := by
        simp [rawIptr, leBytes]
      have t3 : ((rawIptr ⟨p.blk, o⟩ ++ rest).drop 4).take 2 = leBytes 2 o := by
        simp [rawIptr, leBytes]
      have t4 : (rawIptr ⟨p.blk, o⟩ ++ rest).drop 6 = rest := by
        simp [rawIptr, leBytes]
      rw [t1, t2, t3, t4, hhi, hlo, hoo, hand]
      have e : p.blk % 2 ^ 16 + p.blk / 2 ^ 16 * 2 ^ 16 = p.blk := by omega
      rw [e]
      by_cases h8 : 0x8000 ≤ o
      · rw [if_pos ((h15 o ho2).2 h8), if_pos h8]
      · rw [if_neg (fun h => h8 ((h15 o ho2).1 h)), if_neg h8]
    cases isNull
    · simp only [writeIptr, if_true, Bool.false_eq_true, if_false]
      rw [gen _ ho, if_neg (by omega)]
    · simp only [writeIptr, if_true]
      rw [hor, gen _ (by omega), if_pos (by omega)]
      have : (p.off + 32768) % 2 ^ 15 = p.off := by omega
      rw [this]

theorem writeBlk_length (n : Nat) : (writeBlk n).length = sizeBlk n := by
  induction n using Nat.strongRecOn with
  | _ n ih =>
    rw [writeBlk, sizeBlk]
    by_cases hn : n < 0x80
    · simp [hn]
    · simp only [hn, if_false, List.length_cons]
      rw [ih _ (by simp only [Nat.shiftRight_eq_div_pow]; omega)]; omega

theorem writeOff_length (b : Bool) (n : Nat) : (writeOff n b).length = sizeOff n := by
  induction n using Nat.strongRecOn with
  | _ n ih =>
    rw [writeOff, sizeOff]
    by_cases hn : n ≥ 0x40
    · rw [if_pos hn, if_neg (by omega)]
      simp only [List.length_cons]
      rw [ih _ (by simp only [Nat.shiftRight_eq_div_pow]; omega)]; omega
    · have h2 : n < 0x40 := by omega
      rw [if_neg hn, if_pos h2]; rfl

theorem writeIptr_length (alt : Bool) (p prev : Iptr) (b : Bool) :
    (writeIptr alt p prev b).length = sizeIptr alt p prev := by
  cases alt
  · simp [writeIptr, sizeIptr, writeBlk_length, writeOff_length]
  · simp [writeIptr, sizeIptr, rawIptr, leBytes_length]

theorem writeBlk_bytes (n : Nat) : ∀ b ∈ writeBlk n, b < 256 := by
  induction n using Nat.strongRecOn with
  | _ n ih =>
    rw [writeBlk]
    intro b hb
    have hr : n % 128 < 128 := Nat.mod_lt _ (by decide)
    rcases List.mem_cons.1 hb with h | h
    · subst h; rw [and7f]
      split
      · exact (byte_hi _ hr).2.2
      · simp; omega
    · by_cases hn : n < 0x80
      · simp [hn] at h
      · rw [if_neg hn] at h
        exact ih _ (by simp only [Nat.shiftRight_eq_div_pow]; omega) b h

theorem writeOff_bytes (isNull : Bool) (n : Nat) : ∀ b ∈ writeOff n isNull, b < 256 := by
  induction n using Nat.strongRecOn with
  | _ n ih =>
    rw [writeOff]
    intro b hb
    have hr : n % 128 < 128 := Nat.mod_lt _ (by decide)
    by_cases hn : n ≥ 0x40
    · rw [if_pos hn] at hb
      rcases List.mem_cons.1 hb with h | h
      · subst h; rw [and7f]; exact (byte_hi _ hr).2.2
      · exact ih _ (by simp only [Nat.shiftRight_eq_div_pow]; omega) b h
    · rw [if_neg hn] at hb
      have := byte_six n (by omega)
      cases isNull <;> simp at hb <;> subst hb
      · omega
      · exact this.2.2.2.2.2.2

theorem leBytes_bytes (k n : Nat) : ∀ b ∈ leBytes k n, b < 256 := by
  induction k generalizing n with
  | zero => simp [leBytes]
  | succ k ih =>
    intro b hb
    rcases List.mem_cons.1 hb with h | h
    · subst h; exact Nat.mod_lt _ (by decide)
    · exact ih _ b h

theorem writeIptr_bytes (alt : Bool) (p prev : Iptr) (isNull : Bool) :
    ∀ b ∈ writeIptr alt p prev isNull, b < 256 := by
  intro b hb
  cases alt
  · simp only [writeIptr, Bool.false_eq_true, if_false, List.mem_append] at hb
    rcases hb with h | h
    · exact writeBlk_bytes _ b h
    · exact writeOff_bytes _ _ b h
  · simp only [writeIptr, if_true, rawIptr, List.mem_append] at hb
    rcases hb with (h | h) | h <;> exact leBytes_bytes _ _ b h


/-! ### Datums -/

theorem alignUp_ge (a off : Nat) (ha : 0 < a) : off ≤ alignUp a off := by
  unfold alignUp
  have h1 := Nat.div_add_mod (off + a - 1) a
  have h2 := Nat.mod_lt (off + a - 1) ha
  rw [Nat.mul_comm] at h1
  omega

theorem alignUp_one (off : Nat) : alignUp 1 off = off := by simp [alignUp]

theorem alignUp_mono (a x y : Nat) (h : x ≤ y) : alignUp a x ≤ alignUp a y := by
  unfold alignUp
  exact Nat.mul_le_mul_right _ (Nat.div_le_div_right (by omega))

theorem shortHdr_facts : ∀ n, n ≤ 126 → (shortHdr n &&& 1 = 1 ∧ shortHdr n ≠ 1 ∧ shortHdr n ≠ 0 ∧
    (shortHdr n >>> 1) &&& 0x7f = n + 1 ∧ shortHdr n < 256) := by
  decide +kernel

theorem readVarlena_short (p rest : List Nat) (h : p.length ≤ 126) :
    readVarlena (shortHdr p.length :: p ++ rest) = some (.varlena .short p, rest) := by
  have hf := shortHdr_facts _ h
  simp only [List.cons_append, readVarlena]
  rw [if_pos hf.1, if_neg hf.2.1, hf.2.2.2.1]
  rw [if_neg (by simp)]
  simp

theorem longHdr_val (c : Bool) (n : Nat) : longHdr c n = (n + 4) * 4 + (if c then 2 else 0) := by
  unfold longHdr
  have := Nat.shiftLeft_add_eq_or_of_lt (i := 2) (b := if c then 2 else 0) (by cases c <;> simp) (n + 4)
  rw [← this, Nat.shiftLeft_eq]

theorem and2_iff (w : Nat) : (w &&& 2 = 2) ↔ w / 2 % 2 = 1 := by
  have h : w &&& 2 = 2 * (w / 2 % 2) := by
    apply Nat.eq_of_testBit_eq
    intro i
    rw [Nat.testBit_and, show 2 = 2 ^ 1 from rfl, Nat.testBit_two_pow]
    match i with
    | 0 => simp [Nat.testBit_eq_decide_div_mod_eq]
    | 1 =>
      rw [Nat.testBit_eq_decide_div_mod_eq, Nat.testBit_eq_decide_div_mod_eq]
      simp
    | i + 2 =>
      have : (2 ^ 1 * (w / 2 ^ 1 % 2)) < 2 ^ (i + 2) := by
        have h4 : 2 ^ (i + 2) = 2 ^ i * 4 := Nat.pow_add 2 i 2
        have := Nat.one_le_two_pow (n := i)
        omega
      rw [Nat.testBit_lt_two_pow this]; simp
  rw [h]; omega

theorem readVarlena_long (c : Bool) (p rest : List Nat) (h : p.length + 4 < 2 ^ 30) :
    readVarlena (leBytes 4 (longHdr c p.length) ++ p ++ rest) =
      some (.varlena (if c then .compressed else .full) p, rest) := by
  have hv := longHdr_val c p.length
  have hw : longHdr c p.length < 256 ^ 4 := by rw [hv]; cases c <;> simp <;> omega
  have hrt := leNat_leBytes 4 _ hw
  simp only [leBytes] at hrt ⊢
  generalize hW : longHdr c p.length = W at *
  simp only [List.cons_append, List.nil_append, readVarlena]
  have h1 : W % 256 &&& 1 = 0 := by
    rw [Nat.and_one_is_mod, hv]; cases c <;> simp <;> omega
  rw [if_neg (by omega), if_neg (by simp)]
  simp only [List.take_succ_cons, List.take_zero, hrt, List.drop_succ_cons, List.drop_zero]
  have hn : (W >>> 2) &&& 0x3fffffff = p.length + 4 := by
    rw [Nat.shiftRight_eq_div_pow, show 0x3fffffff = 2 ^ 30 - 1 from rfl, Nat.and_two_pow_sub_one_eq_mod]
    rw [hv]; cases c <;> simp <;> omega
  rw [hn, if_neg (by simp)]
  have hc : (W &&& 2 = 2) ↔ c = true := by
    rw [and2_iff, hv]; cases c <;> simp <;> omega
  have hd : p.length + 4 - 1 = p.length + 3 := by omega
  cases c
  · rw [if_neg (by simp [hc])]; simp [hd]
  · rw [if_pos (by simp [hc])]; simp [hd]

theorem pad_length (a : Attr) (off : Nat) : (pad a off).length = alignUp a.align off - off := by simp [pad]

theorem writeDatum_typed (a : Attr) (off : Nat) (d : Datum) (h : d.Typed a) :
    ∃ bs, writeDatum a off d = some bs ∧ off + bs.length = computeSize a off d := by
  cases d with
  | byval n =>
    obtain ⟨h1, h2, _⟩ := h
    exact ⟨_, by simp only [writeDatum, h1, if_true, if_pos h2]; rfl, by simp [leBytes_length, computeSize]⟩
  | varlena hd p =>
    obtain ⟨h1, h2, h3, h4⟩ := h
    have hge := alignUp_ge a.align off h3
    cases hd with
    | short =>
      refine ⟨_, by simp only [writeDatum, h1, h2, Bool.false_eq_true, if_false, if_true]; rfl, ?_⟩
      simp [computeSize, canMakeShort]
    | full =>
      by_cases hp : (packable a && canMakeShort .full p) = true
      · refine ⟨_, by simp only [writeDatum, h1, h2, Bool.false_eq_true, if_false, if_true, hp]; rfl, ?_⟩
        simp only [computeSize, hp, if_true, List.length_cons]
      · refine ⟨_, by simp only [writeDatum, h1, h2, Bool.false_eq_true, if_false, if_true, hp]; rfl, ?_⟩
        simp only [computeSize, hp]
        simp [pad_length, leBytes_length]; omega
    | compressed =>
      have hp : (packable a && canMakeShort .compressed p) = false := by simp [canMakeShort]
      refine ⟨_, by simp only [writeDatum, h1, h2, Bool.false_eq_true, if_false, if_true, hp]; rfl, ?_⟩
      simp only [computeSize, hp]
      simp [pad_length, leBytes_length]; omega
    | external => exact absurd h4 (by simp)
  | cstring s =>
    obtain ⟨h1, h2, h3, _⟩ := h
    refine ⟨_, by simp only [writeDatum, h1, h2, Bool.false_eq_true, if_false]; rfl, ?_⟩
    simp [computeSize, h3, alignUp_one]
  | fixedRef bs =>
    obtain ⟨h1, h2, h3, h4⟩ := h
    have hge := alignUp_ge a.align off h3
    have n1 : a.len ≠ -1 := by omega
    have n2 : a.len ≠ -2 := by omega
    refine ⟨_, by simp only [writeDatum, h1, Bool.false_eq_true, if_false, if_neg n1, if_neg n2]; rfl, ?_⟩
    simp [computeSize, pad_length]; omega

theorem readDatum_writeDatum (a : Attr) (off : Nat) (d : Datum) (h : d.Typed a) (bs rest : List Nat)
    (hw : writeDatum a off d = some bs) :
    readDatum a off (bs ++ rest) = some (d.stored a, rest) := by
  cases d with
  | byval n =>
    obtain ⟨h1, h2, h3⟩ := h
    simp only [writeDatum, h1, if_true, if_pos h2, Option.some.injEq] at hw
    subst hw
    simp only [readDatum, h1, if_true]
    rw [if_pos ⟨h2, by simp [leBytes_length]⟩]
    rw [List.take_append_of_le_length (by simp [leBytes_length]), List.take_of_length_le (by simp [leBytes_length]),
      leNat_leBytes _ _ h3]
    have : (leBytes a.len.toNat n ++ rest).drop a.len.toNat = rest := by
      rw [List.drop_append_of_le_length (by simp [leBytes_length]), List.drop_of_length_le (by simp [leBytes_length])]
      rfl
    rw [this]; rfl
  | varlena hd p =>
    obtain ⟨h1, h2, h3, h4⟩ := h
    have shortCase : p.length + 1 ≤ 0x7f → readDatum a off (shortHdr p.length :: p ++ rest) =
        some (.varlena .short p, rest) := by
      intro hp
      have hf := shortHdr_facts p.length (by omega)
      simp only [readDatum, h1, h2, Bool.false_eq_true, if_false, if_true, List.cons_append]
      rw [if_pos hf.2.2.1]
      exact readVarlena_short p rest (by omega)
    have longCase : ∀ c, p.length + 4 < 2 ^ 30 →
        readDatum a off (pad a off ++ leBytes 4 (longHdr c p.length) ++ p ++ rest) =
        some (.varlena (if c then .compressed else .full) p, rest) := by
      intro c hp
      have hge := alignUp_ge a.align off h3
      have hl := readVarlena_long c p rest hp
      simp only [readDatum, h1, h2, Bool.false_eq_true, if_false, if_true]
      by_cases hz : alignUp a.align off - off = 0
      · have hpad : pad a off = [] := by simp [pad, hz]
        rw [hpad, List.nil_append]
        simp only [leBytes, List.cons_append, List.nil_append] at hl ⊢
        rw [hz, List.drop_zero]
        simp only [hl, ite_self]
      · obtain ⟨k, hk⟩ : ∃ k, alignUp a.align off - off = k + 1 := ⟨alignUp a.align off - off - 1, by omega⟩
        have hpad : pad a off = 0 :: List.replicate k 0 := by simp [pad, hk, List.replicate_succ]
        rw [hpad]
        simp only [List.cons_append, ne_eq, not_true, if_false]
        rw [hk, List.drop_succ_cons, List.append_assoc, List.append_assoc,
          List.drop_append_of_le_length (by simp), List.drop_of_length_le (by simp), List.nil_append,
          ← List.append_assoc, hl]
    cases hd with
    | short =>
      simp only [writeDatum, h1, h2, Bool.false_eq_true, if_false, if_true, Option.some.injEq] at hw
      subst hw
      rw [shortCase h4]
      simp [Datum.stored, canMakeShort]
    | full =>
      by_cases hp : (packable a && canMakeShort .full p) = true
      · simp only [writeDatum, h1, h2, Bool.false_eq_true, if_false, if_true, hp, Option.some.injEq] at hw
        subst hw
        have : p.length + 1 ≤ 0x7f := by simp [canMakeShort] at hp; omega
        rw [shortCase this]
        simp only [Datum.stored, hp, if_true]
      · simp only [writeDatum, h1, h2, Bool.false_eq_true, if_false, if_true, hp, Option.some.injEq] at hw
        subst hw
        have := longCase false h4
        have e : (VHdr.full == VHdr.compressed) = false := by decide
        simp only [Datum.stored, hp, e]
        simpa using this
    | compressed =>
      have hp : (packable a && canMakeShort .compressed p) = false := by simp [canMakeShort]
      simp only [writeDatum, h1, h2, Bool.false_eq_true, if_false, if_true, hp, Option.some.injEq] at hw
      subst hw
      have := longCase true h4
      simp only [Datum.stored, hp]
      simpa using this
    | external => exact absurd h4 (by simp)
  | cstring s =>
    obtain ⟨h1, h2, h3, h4⟩ := h
    simp only [writeDatum, h1, h2, Bool.false_eq_true, if_false] at hw
    have hw' : bs = s ++ [0] := by
      have : (-2 : Int) ≠ -1 := by decide
      simpa [this] using hw.symm
    subst hw'
    have n1 : ¬ ((-2 : Int) = -1) := by decide
    simp only [readDatum, h1, h2, Bool.false_eq_true, if_false, n1, if_true, h3, alignUp_one, Nat.sub_self,
      List.drop_zero]
    have ht : (s ++ [0] ++ rest).takeWhile (· != 0) = s := by
      rw [List.append_assoc, List.takeWhile_append_of_pos (by intro c hc; simpa using h4 c hc)]
      simp
    rw [ht, if_pos (by simp)]
    simp [Datum.stored]
  | fixedRef fb =>
    obtain ⟨h1, h2, h3, h4⟩ := h
    have n1 : a.len ≠ -1 := by omega
    have n2 : a.len ≠ -2 := by omega
    simp only [writeDatum, h1, Bool.false_eq_true, if_false, if_neg n1, if_neg n2, Option.some.injEq] at hw
    subst hw
    simp only [readDatum, h1, Bool.false_eq_true, if_false, if_neg n1, if_neg n2]
    have hd : (pad a off ++ fb ++ rest).drop (alignUp a.align off - off) = fb ++ rest := by
      rw [List.append_assoc, List.drop_append_of_le_length (by simp [pad_length]),
        List.drop_of_length_le (by simp [pad_length]), List.nil_append]
    rw [hd]
    have hl : a.len.toNat = fb.length := by omega
    rw [hl, if_neg (by simp)]
    simp [Datum.stored]

/-! ### Items and lists -/

theorem placeItem_ok (c : Cfg) (off : Nat) (it : Item Datum) (prev : Iptr) (h : ItemOK c it) :
    ∃ bs, placeItem c off it prev = some bs ∧ off + bs.length = checkPlace c it prev off := by
  obtain ⟨p, info⟩ := it
  obtain ⟨h1, h2, h3⟩ := h
  cases info with
  | none =>
    exact ⟨_, rfl, by simp [checkPlace, writeIptr_length]⟩
  | some d =>
    obtain ⟨a, ha, ht⟩ := h3 d rfl
    obtain ⟨bs, hb1, hb2⟩ := writeDatum_typed a (off + (writeIptr c.alt p prev false).length) d ht
    refine ⟨writeIptr c.alt p prev false ++ bs, by simp [placeItem, ha, hb1], ?_⟩
    simp only [checkPlace, ha, ← writeIptr_length c.alt p prev false]
    rw [← hb2]; simp; omega

theorem readItem_placeItem (c : Cfg) (off : Nat) (it : Item Datum) (prev : Iptr) (h : ItemOK c it)
    (hprev : prev.Fits) (bs rest : List Nat) (hb : placeItem c off it prev = some bs) :
    readItem c off prev (bs ++ rest) = some (it.stored c, rest) := by
  obtain ⟨p, info⟩ := it
  obtain ⟨h1, h2, h3⟩ := h
  cases info with
  | none =>
    simp only [placeItem, Option.isNone_none, Option.some.injEq] at hb
    subst hb
    simp [readItem, readIptr_writeIptr c.alt p prev true rest h1 hprev h2, Item.stored]
  | some d =>
    obtain ⟨a, ha, ht⟩ := h3 d rfl
    obtain ⟨db, hb1, hb2⟩ := writeDatum_typed a (off + (writeIptr c.alt p prev false).length) d ht
    simp only [placeItem, Option.isNone_some, ha, hb1, Option.map_some, Option.some.injEq] at hb
    subst hb
    simp only [readItem, List.append_assoc]
    rw [readIptr_writeIptr c.alt p prev false _ h1 hprev h2]
    simp only [Bool.false_eq_true, if_false, ha]
    have hl : (writeIptr c.alt p prev false ++ (db ++ rest)).length - (db ++ rest).length =
        (writeIptr c.alt p prev false).length := by simp
    rw [hl, readDatum_writeDatum a _ d ht db rest hb1]
    simp [Item.stored, ha]

theorem placeList_ok (c : Cfg) (its : List (Item Datum)) : ∀ (off : Nat) (prev : Iptr),
    (∀ it ∈ its, ItemOK c it) →
    ∃ bs, placeList c off prev its = some bs ∧ off + bs.length = checkList c prev off its := by
  induction its with
  | nil => intro off prev _; exact ⟨[], rfl, rfl⟩
  | cons it its ih =>
    intro off prev h
    obtain ⟨b, hb1, hb2⟩ := placeItem_ok c off it prev (h it (by simp))
    obtain ⟨bs, h1, h2⟩ := ih (off + b.length) it.iptr (fun x hx => h x (by simp [hx]))
    refine ⟨b ++ bs, by simp [placeList, hb1, h1], ?_⟩
    simp only [checkList, ← hb2, ← h2]; simp; omega

theorem readList_placeList (c : Cfg) (its : List (Item Datum)) : ∀ (off : Nat) (prev : Iptr) (bs rest : List Nat),
    (∀ it ∈ its, ItemOK c it) → prev.Fits → placeList c off prev its = some bs →
    readList c off prev its.length (bs ++ rest) = some (its.map (Item.stored c), rest) := by
  induction its with
  | nil => intro off prev bs rest _ _ h; simp [placeList] at h; subst h; simp [readList]
  | cons it its ih =>
    intro off prev bs rest h hp hb
    obtain ⟨b, hb1, hb2⟩ := placeItem_ok c off it prev (h it (by simp))
    obtain ⟨bs', h1, h2⟩ := placeList_ok c its (off + b.length) it.iptr (fun x hx => h x (by simp [hx]))
    simp only [placeList, hb1, h1, Option.some.injEq] at hb
    subst hb
    simp only [List.length_cons, readList, List.append_assoc]
    rw [readItem_placeItem c off it prev (h it (by simp)) hp b _ hb1]
    have hl : (b ++ (bs' ++ rest)).length - (bs' ++ rest).length = b.length := by simp
    simp only [hl]
    have hi : (it.stored c).iptr = it.iptr := rfl
    rw [hi, ih _ _ _ rest (fun x hx => h x (by simp [hx])) (h it (by simp)).1 h1]
    simp

end Rum.Codec

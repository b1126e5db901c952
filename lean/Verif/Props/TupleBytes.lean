import Verif.TupleBytes
import Verif.CodecLemmas
import Verif.Props.Codec
/-!
# C73: tuples of the entry tree read back unchanged
-/
namespace Rum.Props.TupleBytes
open Rum Rum.Codec Rum.Leaf Rum.Entry Rum.Tree Rum.Index

variable {V : Type}

/-! ### Specification -/

/-- The key can be stored: a column number of 16 bits (1 in an index on one column), and PostgreSQL reads the bytes of the key back whatever follows
them. -/
structure Storable (F : Fmt V) (k : AttKey V) : Prop where
  num : k.attnum < 2 ^ 16
  one : F.oneCol = true → k.attnum = 1
  dec : k.cat = .norm → ∀ rest, F.dec k.attnum (F.area k.attnum k.key ++ rest) = k.key

/-- What is read from the tuple is the key: the column, the category, the value if there is one. -/
def Shows (F : Fmt V) (t : Tup) (k : AttKey V) : Prop :=
  F.attnum t = k.attnum ∧ F.key t = some (k.cat, if k.cat = .norm then some k.key else none)

/-- The size in the header is the length of the tuple, and it fits on a page. -/
def Sized (t : Tup) : Prop := t.size = 8 + t.body.length ∧ 8 ∣ t.size ∧ t.size ≤ maxTuple

/-! ### Proof apparatus -/

def flags (F : Fmt V) (k : AttKey V) : Nat := (if k.cat = .norm then 0 else 0x8000) ||| (if F.var k.attnum then 0x4000 else 0)

theorem flags_mem (F : Fmt V) (k : AttKey V) : flags F k = 0 ∨ flags F k = 0x8000 ∨ flags F k = 0x4000 ∨ flags F k = 0xc000 := by
  unfold flags
  by_cases h : k.cat = .norm <;> cases F.var k.attnum <;> simp [h]

theorem size_or {a : Nat} (F : Fmt V) (k : AttKey V) (ha : a < 8192) : (a ||| flags F k) &&& 0x1fff = a := by
  rw [Nat.and_or_distrib_right]
  have h1 : a &&& 0x1fff = a := by
    have := Nat.and_two_pow_sub_one_eq_mod a 13
    simp only [Nat.reducePow, Nat.reduceSub] at this
    rw [this, Nat.mod_eq_of_lt ha]
  have h2 : flags F k &&& 0x1fff = 0 := by
    rcases flags_mem F k with h | h | h | h <;> rw [h] <;> decide
  rw [h1, h2]
  simp

theorem high_or {a : Nat} (F : Fmt V) (k : AttKey V) (ha : a < 8192) : (a ||| flags F k) &&& 0xe000 = flags F k := by
  rw [Nat.and_or_distrib_right]
  have h1 : a &&& 0xe000 = 0 := by
    apply Nat.eq_of_testBit_eq
    intro i
    rw [Nat.testBit_and]
    by_cases hi : i < 13
    · have : Nat.testBit 0xe000 i = false := by
        have : ∀ j < 13, Nat.testBit 0xe000 j = false := by decide
        exact this i hi
      simp [this]
    · have : a.testBit i = false := Nat.testBit_lt_two_pow (Nat.lt_of_lt_of_le ha (by
        calc (8192 : Nat) = 2 ^ 13 := by decide
          _ ≤ 2 ^ i := Nat.pow_le_pow_right (by omega) (by omega)))
      simp [this]
  have h2 : flags F k &&& 0xe000 = flags F k := by
    rcases flags_mem F k with h | h | h | h <;> rw [h]
    all_goals decide
  rw [h1, h2]
  simp

theorem null_or {a : Nat} (F : Fmt V) (k : AttKey V) (ha : a < 8192) : ((a ||| flags F k) &&& 0x8000 != 0) = decide (k.cat ≠ .norm) := by
  rw [Nat.and_or_distrib_right]
  have h1 : a &&& 0x8000 = 0 := by
    apply Nat.eq_of_testBit_eq
    intro i
    rw [Nat.testBit_and]
    by_cases hi : i < 13
    · have : Nat.testBit 0x8000 i = false := by
        have : ∀ j < 13, Nat.testBit 0x8000 j = false := by decide
        exact this i hi
      simp [this]
    · have : a.testBit i = false := Nat.testBit_lt_two_pow (Nat.lt_of_lt_of_le ha (by
        calc (8192 : Nat) = 2 ^ 13 := by decide
          _ ≤ 2 ^ i := Nat.pow_le_pow_right (by omega) (by omega)))
      simp [this]
  rw [h1]
  unfold flags
  by_cases h : k.cat = .norm <;> cases F.var k.attnum <;> simp [h]

/-- The tuple has the right header and begins with null bitmap and attributes. -/
structure Pre (F : Fmt V) (k : AttKey V) (u : Tup) : Prop where
  body : ∃ rest, u.body = F.nulls k ++ F.data k ++ rest
  info : u.info = (8 + u.body.length) ||| flags F k
  small : 8 + u.body.length < 8192
  dvd : 8 ∣ u.body.length

/-- The same after the category has been stored, which may be in the padding of the null bitmap. -/
structure Good (F : Fmt V) (k : AttKey V) (u : Tup) : Prop where
  norm : k.cat = .norm → ∃ rest, u.body = F.data k ++ rest
  null : k.cat ≠ .norm → u.body[0]? = some (if F.oneCol then 0 else 1) ∧ (F.oneCol = false → (u.body.drop 8).take 2 = leBytes 2 k.attnum) ∧
    u.body[u.body.length - 1]? = some (Cat.byte k.cat) ∧ 0 < u.body.length
  info : u.info = (8 + u.body.length) ||| flags F k
  small : 8 + u.body.length < 8192
  dvd : 8 ∣ u.body.length

theorem alignUp8_dvd (n : Nat) : 8 ∣ alignUp 8 n := ⟨(n + 7) / 8, by unfold alignUp; rw [Nat.mul_comm]; rfl⟩

theorem alignUp8_ge (n : Nat) : n ≤ alignUp 8 n := by unfold alignUp; omega

theorem alignUp8_self {n : Nat} (h : 8 ∣ n) : alignUp 8 n = n := by unfold alignUp; omega

section
variable {F : Fmt V} {k : AttKey V} {u : Tup}

theorem Pre.size (h : Pre F k u) : u.size = 8 + u.body.length := by
  unfold Tup.size
  rw [h.info, size_or F k h.small]

theorem Good.size (h : Good F k u) : u.size = 8 + u.body.length := by
  unfold Tup.size
  rw [h.info, size_or F k h.small]

theorem cat_byte {c : Cat} {t : Tup} (h : t.body[t.size - 8 - 1]? = some (Cat.byte c)) : t.category = some c := by
  unfold Tup.category
  rw [h]
  cases c <;> rfl

theorem Good.shows (hs : Storable F k) (h : Good F k u) : Shows F u k := by
  have hn : u.hasNulls = decide (k.cat ≠ .norm) := by
    unfold Tup.hasNulls
    rw [h.info, null_or F k h.small]
  have hle : leNat (leBytes 2 k.attnum) = k.attnum := leNat_leBytes 2 _ (by have := hs.num; omega)
  by_cases hc : k.cat = .norm
  · obtain ⟨rest, hb⟩ := h.norm hc
    have hn' : u.hasNulls = false := by rw [hn]; simp [hc]
    have hd : u.dataOff = 0 := by unfold Tup.dataOff; rw [hn']; rfl
    have ha : F.attnum u = k.attnum := by
      unfold Fmt.attnum
      rw [hd, hb]
      unfold Fmt.data
      cases ho : F.oneCol with
      | true => exact (hs.one ho).symm
      | false =>
        simp only [Bool.false_eq_true, if_false, List.drop_zero, List.append_assoc]
        rw [List.take_append_of_le_length (by simp [leBytes_length]), List.take_of_length_le (by simp [leBytes_length]), hle]
    refine ⟨ha, ?_⟩
    unfold Fmt.key Fmt.keyNull
    rw [hn', ha, hd, hb]
    unfold Fmt.data
    simp only [Bool.false_and, Bool.false_eq_true, if_false, hc, if_true]
    cases ho : F.oneCol with
    | true => simp only [if_true, List.nil_append, Nat.add_zero, List.drop_zero]; rw [hs.dec hc]
    | false =>
      simp only [Bool.false_eq_true, if_false, List.append_assoc, Nat.zero_add]
      rw [List.drop_append_of_le_length (by simp [leBytes_length]), List.drop_of_length_le (by simp [leBytes_length]), List.nil_append, hs.dec hc]
  · obtain ⟨h1, h2, h3, h4⟩ := h.null hc
    have hn' : u.hasNulls = true := by rw [hn]; simp [hc]
    have hd : u.dataOff = 8 := by unfold Tup.dataOff; rw [hn']; rfl
    refine ⟨?_, ?_⟩
    · unfold Fmt.attnum
      cases ho : F.oneCol with
      | true => exact (hs.one ho).symm
      | false => simp only [Bool.false_eq_true, if_false]; rw [hd, h2 ho, hle]
    · have hk : F.keyNull u = true := by
        unfold Fmt.keyNull
        rw [hn', h1]
        cases F.oneCol <;> rfl
      unfold Fmt.key
      rw [hk, if_pos rfl, cat_byte (c := k.cat) (by rw [h.size]; simpa using h3)]
      simp [hc]

theorem nulls_length (F : Fmt V) (k : AttKey V) : (F.nulls k).length = if k.cat = .norm then 0 else 8 := by
  unfold Fmt.nulls
  split <;> rfl

theorem formBase_pre {t : Tup} (h : F.formBase k = some t) : Pre F k t ∧ t.blk = 0 ∧ t.off = 0 := by
  unfold Fmt.formBase at h
  simp only at h
  split at h
  · cases h
  · next hle =>
    simp only [Option.some.injEq] at h
    subst h
    have hge := alignUp8_ge (F.nulls k ++ F.data k).length
    have hlen : ((F.nulls k ++ F.data k) ++ List.replicate (8 + alignUp 8 (F.nulls k ++ F.data k).length - 8 - (F.nulls k ++ F.data k).length) 0).length =
        alignUp 8 (F.nulls k ++ F.data k).length := by
      rw [List.length_append, List.length_replicate]
      omega
    refine ⟨⟨⟨_, rfl⟩, ?_, ?_, ?_⟩, rfl, rfl⟩
    · show _ = (8 + (_ : List Nat).length) ||| _
      rw [hlen]
      rfl
    · show 8 + (_ : List Nat).length < _
      rw [hlen]; omega
    · show 8 ∣ (_ : List Nat).length
      rw [hlen]; exact alignUp8_dvd _

theorem Pre.resize (h : Pre F k u) {n : Nat} (h1 : u.size ≤ n) (h2 : n < 8192) (h3 : 8 ∣ n) :
    Pre F k (u.resize n) ∧ 8 + (u.resize n).body.length = n ∧ (u.resize n).blk = u.blk ∧ (u.resize n).off = u.off ∧
      ∃ z, (u.resize n).body = u.body ++ z := by
  have hs := h.size
  obtain ⟨rest, hb⟩ := h.body
  unfold Tup.resize
  split
  · next hne =>
    have hlen : (u.body ++ List.replicate (n - u.size) 0).length = n - 8 := by simp; omega
    refine ⟨⟨⟨rest ++ List.replicate (n - u.size) 0, ?_⟩, ?_, ?_, ?_⟩, ?_, rfl, rfl, ⟨_, rfl⟩⟩
    · show u.body ++ _ = _
      rw [hb]; simp
    · show (u.info &&& 0xe000) ||| n = (8 + (_ : List Nat).length) ||| _
      rw [hlen, h.info, high_or F k h.small, Nat.or_comm]
      congr 1
      omega
    · show 8 + (_ : List Nat).length < _
      rw [hlen]; omega
    · show 8 ∣ (_ : List Nat).length
      rw [hlen]; omega
    · show 8 + (_ : List Nat).length = _
      rw [hlen]; omega
  · next heq =>
    simp only [ne_eq, not_not] at heq
    exact ⟨h, by omega, rfl, rfl, [], by simp⟩

theorem Pre.write (h : Pre F k u) {off : Nat} {bs : List Nat} (h0 : 8 ≤ off) (h1 : (F.nulls k ++ F.data k).length ≤ off - 8)
    (h2 : off + bs.length ≤ 8 + u.body.length) :
    ∃ w, u.write off bs = some w ∧ Pre F k w ∧ w.blk = u.blk ∧ w.off = u.off ∧ w.body.length = u.body.length ∧ w.info = u.info ∧
      w.body = u.body.take (off - 8) ++ bs ++ u.body.drop (off - 8 + bs.length) := by
  obtain ⟨rest, hb⟩ := h.body
  have hlen : (u.body.take (off - 8) ++ bs ++ u.body.drop (off - 8 + bs.length)).length = u.body.length := by
    simp; omega
  refine ⟨⟨u.blk, u.off, u.info, u.body.take (off - 8) ++ bs ++ u.body.drop (off - 8 + bs.length)⟩, ?_, ⟨?_, ?_, ?_, ?_⟩, rfl, rfl, hlen, rfl, rfl⟩
  · unfold Tup.write
    rw [if_neg (by omega)]
  · refine ⟨rest.take (off - 8 - (F.nulls k ++ F.data k).length) ++ bs ++ u.body.drop (off - 8 + bs.length), ?_⟩
    show _ ++ _ ++ _ = _
    rw [hb, List.take_append, List.take_of_length_le h1]
    simp
  · show u.info = (8 + (_ : List Nat).length) ||| _
    rw [hlen]; exact h.info
  · show 8 + (_ : List Nat).length < _
    rw [hlen]; exact h.small
  · show 8 ∣ (_ : List Nat).length
    rw [hlen]; exact h.dvd

theorem Pre.good (h : Pre F k u) (hc : k.cat = .norm) : Good F k u := by
  obtain ⟨rest, hb⟩ := h.body
  refine ⟨fun _ => ⟨rest, ?_⟩, fun hn => absurd hc hn, h.info, h.small, h.dvd⟩
  rw [hb]
  simp [Fmt.nulls, hc]

theorem take_drop_set {l : List Nat} {i x : Nat} (h : 10 ≤ i) : ((l.set i x).drop 8).take 2 = (l.drop 8).take 2 := by
  apply List.ext_getElem?
  intro j
  simp only [List.getElem?_take, List.getElem?_drop, List.getElem?_set]
  split
  · rw [if_neg (by omega)]
  · rfl

/-- The category is stored. -/
theorem setCat_good {c : Cat} (hc : k.cat ≠ .norm) (hcc : c = k.cat) (hinfo : u.info = (8 + u.body.length) ||| flags F k) (hsm : 8 + u.body.length < 8192)
    (hdvd : 8 ∣ u.body.length) (h0 : u.body[0]? = some (if F.oneCol then 0 else 1))
    (h8 : F.oneCol = false → (u.body.drop 8).take 2 = leBytes 2 k.attnum) :
    ∃ w, u.setCat c = some w ∧ Good F k w ∧ w.blk = u.blk ∧ w.off = u.off ∧ w.body.length = u.body.length ∧
      w.body = u.body.set (u.body.length - 1) (Cat.byte c) := by
  subst hcc
  have hs : u.size = 8 + u.body.length := by unfold Tup.size; rw [hinfo, size_or F k hsm]
  have hpos : 0 < u.body.length := by
    cases hb : u.body with
    | nil => rw [hb] at h0; simp at h0
    | cons a l => simp
  have h16 : F.oneCol = false → 16 ≤ u.body.length := by
    intro ho
    have := congrArg List.length (h8 ho)
    simp [leBytes_length] at this
    omega
  refine ⟨⟨u.blk, u.off, u.info, u.body.set (u.size - 8 - 1) (Cat.byte k.cat)⟩, ?_, ⟨fun h => absurd h hc, fun _ => ⟨?_, fun ho => ?_, ?_, ?_⟩, ?_, ?_, ?_⟩, rfl,
    rfl, by simp, by simp [hs]⟩
  · unfold Tup.setCat
    rw [if_neg (by omega)]
  · show (u.body.set _ _)[0]? = _
    rw [List.getElem?_set_ne (by omega)]; exact h0
  · show ((u.body.set _ _).drop 8).take 2 = _
    have := h16 ho
    rw [take_drop_set (by omega)]; exact h8 ho
  · show (u.body.set _ _)[(u.body.set _ _).length - 1]? = _
    rw [List.length_set, hs, show 8 + u.body.length - 8 - 1 = u.body.length - 1 from by omega, List.getElem?_set_self (by omega)]
  · show 0 < (u.body.set _ _).length
    simpa using hpos
  · show _ = (8 + (u.body.set _ _).length) ||| _
    simpa using hinfo
  · show 8 + (u.body.set _ _).length < _
    simpa using hsm
  · show 8 ∣ (u.body.set _ _).length
    simpa using hdvd

theorem Pre.nulls (h : Pre F k u) (hc : k.cat ≠ .norm) : u.body[0]? = some (if F.oneCol then 0 else 1) ∧
    (F.oneCol = false → (u.body.drop 8).take 2 = leBytes 2 k.attnum) := by
  obtain ⟨rest, hb⟩ := h.body
  rw [hb]
  unfold Fmt.nulls Fmt.data
  simp only [hc, if_false]
  refine ⟨rfl, fun ho => ?_⟩
  simp only [ho, Bool.false_eq_true, if_false, List.append_nil]
  show (leBytes 2 k.attnum ++ rest).take 2 = _
  rw [List.take_append_of_le_length (by simp [leBytes_length]), List.take_of_length_le (by simp [leBytes_length])]

theorem maxTuple_eq : maxTuple = 2712 := by decide

theorem finish_good {t : Tup} {n last : Nat} {bytes : List Nat} (h : Pre F k t) (hblk : t.blk = t.size)
    (hl : last = t.size + if n > 0 then bytes.length else 0) (hle : alignUp 8 (last + if k.cat = .norm then 0 else 1) ≤ maxTuple) :
    ∃ w, t.finish k.cat n bytes last = some w ∧ Good F k w ∧ w.blk = t.blk ∧ w.off = t.off ∧
      w.size = alignUp 8 (last + if k.cat = .norm then 0 else 1) ∧ (n > 0 → ∃ rest, w.body.drop (t.size - 8) = bytes ++ rest) ∧
      (F.nulls k ++ F.data k).length ≤ t.size - 8 := by
  have hs := h.size
  have hmax := maxTuple_eq
  obtain ⟨N, hN⟩ : ∃ N, N = alignUp 8 (last + if k.cat = .norm then 0 else 1) := ⟨_, rfl⟩
  have hge : last + (if k.cat = .norm then 0 else 1) ≤ N := by rw [hN]; exact alignUp8_ge _
  have hdvd : 8 ∣ N := by rw [hN]; exact alignUp8_dvd _
  rw [← hN] at hle
  have hused : (F.nulls k ++ F.data k).length ≤ t.size - 8 := by
    obtain ⟨rest, hb⟩ := h.body
    rw [hs, hb]; simp
  unfold Tup.finish
  simp only [← hN]
  rw [if_neg (by omega)]
  obtain ⟨R, r1, r2, r3, z, r4⟩ := h.resize (n := N) (by omega) (by omega) hdvd
  -- the items are in place
  obtain ⟨u, hu, P, u1, u2, u3, u4⟩ : ∃ u, (if n > 0 then (t.resize N).write t.blk bytes else some (t.resize N)) = some u ∧ Pre F k u ∧ u.blk = t.blk ∧
      u.off = t.off ∧ 8 + u.body.length = N ∧ (n > 0 → ∃ pre post, pre.length = t.size - 8 ∧ u.body = pre ++ bytes ++ post) := by
    by_cases hn : n > 0
    · rw [if_pos hn] at hl ⊢
      obtain ⟨w, w1, w2, w3, w4, w5, w6, w7⟩ := R.write (off := t.blk) (bs := bytes) (by omega) (by omega) (by omega)
      refine ⟨w, w1, w2, by rw [w3, r2], by rw [w4, r3], by omega, fun _ => ⟨(t.resize N).body.take (t.blk - 8), _, ?_, w7⟩⟩
      rw [List.length_take]
      omega
    · rw [if_neg hn]
      exact ⟨_, rfl, R, r2, r3, r1, fun h => absurd h hn⟩
  rw [hu]
  show ∃ w, (if k.cat = .norm then some u else u.setCat k.cat) = some w ∧ _
  by_cases hc : k.cat = .norm
  · rw [if_pos hc]
    refine ⟨u, rfl, P.good hc, u1, u2, by rw [P.size, u3], fun hn => ?_, hused⟩
    obtain ⟨pre, post, e1, e2⟩ := u4 hn
    exact ⟨post, by rw [e2, ← e1, List.append_assoc, List.drop_left]⟩
  · rw [if_neg hc]
    rw [if_neg hc] at hge
    obtain ⟨n0, n8⟩ := P.nulls hc
    obtain ⟨w, w1, w2, w3, w4, w5, w6⟩ := setCat_good hc rfl P.info P.small P.dvd n0 n8
    refine ⟨w, w1, w2, by rw [w3, u1], by rw [w4, u2], by rw [w2.size, w5, u3], fun hn => ?_, hused⟩
    obtain ⟨pre, post, e1, e2⟩ := u4 hn
    rw [if_pos hn] at hl
    have hlen : u.body.length = pre.length + bytes.length + post.length := by rw [e2]; simp; omega
    refine ⟨post.set (u.body.length - 1 - (pre ++ bytes).length) (Cat.byte k.cat), ?_⟩
    rw [w6, e2, List.set_append_right (h := by simp; omega), ← e1, List.append_assoc, List.drop_left]

/-- `none`: the row is too big. -/
theorem finish_none {t : Tup} {n last : Nat} {bytes : List Nat} {c : Cat} (h : alignUp 8 (last + if c = .norm then 0 else 1) > maxTuple) :
    t.finish c n bytes last = none := by
  unfold Tup.finish
  simp only
  rw [if_pos h]

theorem setPosting_pre {t : Tup} (h : Pre F k t) (a b : Nat) : Pre F k (t.setPosting a b) := ⟨h.body, h.info, h.small, h.dvd⟩

theorem setPosting_size {t : Tup} (a b : Nat) : (t.setPosting a b).size = t.size := rfl

end

/-! ### C73 -/

section
variable {F : Fmt V} {k : AttKey V} {c : Cfg}

/-- The size of a tuple with these items: what comes before the items, the items, the category of a key that is NULL, rounded up. -/
def sizeWith (c : Cfg) (base : Nat) (k : AttKey V) (its : List (Item Datum)) : Nat :=
  alignUp 8 (checkList c ⟨0, 0⟩ base its + if k.cat = .norm then 0 else 1)

theorem writeBlk_append_pos (n : Nat) (l : List Nat) : 0 < (writeBlk n ++ l).length := by
  rw [writeBlk]
  simp

theorem placeItem_pos {c : Cfg} {off : Nat} {it : Item Datum} {prev : Iptr} {b : List Nat} (h : placeItem c off it prev = some b) : 0 < b.length := by
  have hw : ∀ n, 0 < (writeIptr c.alt it.iptr prev n).length := by
    intro n
    unfold writeIptr
    split
    · simp [rawIptr, leBytes_length]
    · exact writeBlk_append_pos _ _
  unfold placeItem at h
  simp only at h
  split at h
  · simp only [Option.some.injEq] at h
    subst h
    exact hw _
  · split at h
    · cases h
    · simp only [Option.map_eq_some_iff] at h
      obtain ⟨d, -, rfl⟩ := h
      have := hw it.info.isNone
      simp only [List.length_append]
      omega

/-- An item takes at least a byte. -/
theorem list_length {its : List (Item Datum)} (hok : ∀ it ∈ its, ItemOK c it) : ∀ (off : Nat) (prev : Iptr), off + its.length ≤ checkList c prev off its := by
  induction its with
  | nil => intro off prev; simp [checkList]
  | cons it its ih =>
    intro off prev
    obtain ⟨b, hb1, hb2⟩ := placeItem_ok c off it prev (hok it (by simp))
    have := ih (fun x hx => hok x (by simp [hx])) (checkPlace c it prev off) it.iptr
    have := placeItem_pos hb1
    simp only [checkList, List.length_cons]
    omega

/-- **C73, posting lists.** Whatever key (of any column and category) and rows a tuple is formed from, reading it gives the same key and the same rows,
and the number of rows never looks like the mark of a posting tree. Forming fails only if the tuple would be too big. -/
theorem C73_list (hs : Storable F k) {base : Tup} (hb : F.formBase k = some base) {its : List (Item Datum)} (hok : ∀ it ∈ its, ItemOK c it) :
    (sizeWith c base.size k its > maxTuple → F.formTuple c k its = none) ∧
    (sizeWith c base.size k its ≤ maxTuple → ∃ t, F.formTuple c k its = some t ∧ Shows F t k ∧ t.isTree = false ∧ t.items c = some (its.map (Item.stored c)) ∧
      Sized t ∧ t.size = sizeWith c base.size k its) := by
  obtain ⟨P, -, -⟩ := formBase_pre hb
  obtain ⟨bs, h1, h2⟩ := placeList_ok c its base.size ⟨0, 0⟩ hok
  have hmax := maxTuple_eq
  have hf : F.formTuple c k its = (base.setPosting base.size its.length).finish k.cat its.length bs (checkList c ⟨0, 0⟩ base.size its) := by
    unfold Fmt.formTuple
    rw [hb]
    simp only [Option.map_some, Option.getD_some, h1]
  rw [hf]
  refine ⟨fun h => finish_none h, fun h => ?_⟩
  have hge := alignUp8_ge (checkList c ⟨0, 0⟩ base.size its + if k.cat = .norm then 0 else 1)
  have hlen := list_length hok base.size ⟨0, 0⟩
  unfold sizeWith at h
  have hsz := P.size
  have hblk : (base.setPosting base.size its.length).blk = (base.setPosting base.size its.length).size := by
    show base.size % 2 ^ 32 = base.size
    exact Nat.mod_eq_of_lt (by have := P.small; omega)
  have hl : checkList c ⟨0, 0⟩ base.size its = (base.setPosting base.size its.length).size + if its.length > 0 then bs.length else 0 := by
    rw [setPosting_size]
    split
    · omega
    · next h0 =>
      have : its = [] := List.length_eq_zero_iff.1 (by omega)
      subst this
      simp [checkList]
  obtain ⟨w, w1, w2, w3, w4, w5, w6, w7⟩ := finish_good (setPosting_pre P base.size its.length) hblk hl h
  have hoff : w.off = its.length := by
    rw [w4]
    show its.length % 2 ^ 16 = _
    exact Nat.mod_eq_of_lt (by omega)
  have hwb : w.blk = base.size := by rw [w3, hblk]; rfl
  refine ⟨w, w1, w2.shows hs, ?_, ?_, ⟨w2.size, by rw [w5]; exact alignUp8_dvd _, by rw [w5]; exact h⟩, w5⟩
  · unfold Tup.isTree
    rw [hoff]
    simp only [beq_eq_false_iff_ne, ne_eq]
    omega
  · unfold Tup.items
    rw [hwb, hoff, if_neg (by omega)]
    by_cases h0 : its.length > 0
    · obtain ⟨rest, hr⟩ := w6 h0
      rw [setPosting_size] at hr
      rw [hr, readList_placeList c its base.size ⟨0, 0⟩ bs rest hok (by simp [Iptr.Fits]) h1]
      rfl
    · have : its = [] := List.length_eq_zero_iff.1 (by omega)
      subst this
      rfl

/-- **C73, posting trees.** The tuple of a posting tree shows its key and the root of the tree. -/
theorem C73_tree (hs : Storable F k) {base : Tup} (hb : F.formBase k = some base) {b : Nat} (hblk : b < 2 ^ 32) :
    (sizeWith c base.size k [] > maxTuple → F.formTree c k b = none) ∧
    (sizeWith c base.size k [] ≤ maxTuple → ∃ t, F.formTree c k b = some t ∧ Shows F t k ∧ t.isTree = true ∧ t.blk = b ∧ Sized t ∧
      t.size = sizeWith c base.size k []) := by
  obtain ⟨h1, h2⟩ := C73_list (c := c) hs hb (its := []) (by simp)
  unfold Fmt.formTree
  refine ⟨fun h => by rw [h1 h]; rfl, fun h => ?_⟩
  obtain ⟨t, t1, t2, -, -, t5, t6⟩ := h2 h
  refine ⟨t.setTree b, by rw [t1]; rfl, t2, rfl, Nat.mod_eq_of_lt hblk, t5, t6⟩

/-- **C73, VACUUM.** The tuple VACUUM forms from the encoded rows that are left is the tuple an insertion would form from these rows. -/
theorem C73_vacuum {base : Tup} (hb : F.formBase k = some base) {its : List (Item Datum)} (hok : ∀ it ∈ its, ItemOK c it) {bytes : List Nat}
    (hp : placeList c base.size ⟨0, 0⟩ its = some bytes) : F.formBytes k bytes its.length = F.formTuple c k its := by
  obtain ⟨bs, h1, h2⟩ := placeList_ok c its base.size ⟨0, 0⟩ hok
  rw [hp] at h1
  cases h1
  unfold Fmt.formTuple Fmt.formBytes
  rw [hb]
  simp only [Option.map_some, Option.getD_some, hp]
  congr 1
  split
  · exact h2
  · next h0 =>
    have : its = [] := List.length_eq_zero_iff.1 (by omega)
    subst this
    simp [checkList]

/-- The tuples of the entry tree with key `k`: on leaf pages with a posting list or a posting tree, on interior pages formed from other tuples. -/
inductive Stored (F : Fmt V) (c : Cfg) (k : AttKey V) : Bool → Tup → Prop
  | list {its : List (Item Datum)} {t : Tup} : (∀ it ∈ its, ItemOK c it) → F.formTuple c k its = some t → Stored F c k true t
  | tree {b : Nat} {t : Tup} : b < 2 ^ 32 → F.formTree c k b = some t → Stored F c k true t
  | inner {leaf : Bool} {child : Nat} {t u : Tup} : Stored F c k leaf t → child < 2 ^ 32 → F.formInner t leaf child = some u → Stored F c k false u

/-- What is known of such a tuple. -/
structure Known (F : Fmt V) (k : AttKey V) (leaf : Bool) (t : Tup) : Prop where
  good : Good F k t
  max : t.size ≤ maxTuple
  cut : leaf = true → t.isTree = false → 8 ∣ t.blk ∧ 8 ≤ t.blk ∧ t.blk ≤ 8 + t.body.length ∧ (F.nulls k ++ F.data k).length ≤ t.blk - 8

theorem list_known {its : List (Item Datum)} {t : Tup} (hok : ∀ it ∈ its, ItemOK c it) (h : F.formTuple c k its = some t) : Known F k true t := by
  cases hb : F.formBase k with
  | none => rw [Fmt.formTuple, hb] at h; cases h
  | some base =>
    obtain ⟨P, -, -⟩ := formBase_pre hb
    obtain ⟨bs, h1, h2⟩ := placeList_ok c its base.size ⟨0, 0⟩ hok
    have hf : F.formTuple c k its = (base.setPosting base.size its.length).finish k.cat its.length bs (checkList c ⟨0, 0⟩ base.size its) := by
      unfold Fmt.formTuple
      rw [hb]
      simp only [Option.map_some, Option.getD_some, h1]
    have hsz := P.size
    have hblk : (base.setPosting base.size its.length).blk = (base.setPosting base.size its.length).size := by
      show base.size % 2 ^ 32 = base.size
      exact Nat.mod_eq_of_lt (by have := P.small; omega)
    have hl : checkList c ⟨0, 0⟩ base.size its = (base.setPosting base.size its.length).size + if its.length > 0 then bs.length else 0 := by
      rw [setPosting_size]
      split
      · omega
      · next h0 =>
        have : its = [] := List.length_eq_zero_iff.1 (by omega)
        subst this
        simp [checkList]
    by_cases hle : alignUp 8 (checkList c ⟨0, 0⟩ base.size its + if k.cat = .norm then 0 else 1) ≤ maxTuple
    · obtain ⟨w, w1, w2, w3, w4, w5, w6, w7⟩ := finish_good (setPosting_pre P base.size its.length) hblk hl hle
      rw [← hf, h] at w1
      cases w1
      have hwb : t.blk = base.size := by rw [w3, hblk]; rfl
      have hge := alignUp8_ge (checkList c ⟨0, 0⟩ base.size its + if k.cat = .norm then 0 else 1)
      have hts := w2.size
      rw [setPosting_size] at w7 hl
      refine ⟨w2, by rw [w5]; exact hle, fun _ _ => ⟨?_, by omega, by omega, by rw [hwb]; exact w7⟩⟩
      rw [hwb, hsz]
      have := P.dvd
      omega
    · rw [hf, finish_none (by omega)] at h
      cases h

theorem or_null {a : Nat} (hc : k.cat ≠ .norm) : (a ||| flags F k) ||| 0x8000 = a ||| flags F k := by
  rw [Nat.or_assoc]
  congr 1
  unfold flags
  rw [if_neg hc]
  cases F.var k.attnum <;> decide

theorem Known.inner (hs : Storable F k) {leaf : Bool} {t : Tup} (h : Known F k leaf t) {child : Nat} (hch : child < 2 ^ 32) :
    ∃ u, F.formInner t leaf child = some u ∧ Known F k false u ∧ u.blk = child ∧ u.size = if leaf && !t.isTree then t.blk else t.size := by
  have hmax := maxTuple_eq
  have hts := h.good.size
  have hkey := (h.good.shows hs).2
  -- the copy
  obtain ⟨v, hv, v0, v1, v2, v3, v4, v5, v6⟩ : ∃ v : Tup, (if leaf && !t.isTree then
      ({ t with info := (t.info &&& 0xe000) ||| alignUp 8 t.blk, body := t.body.take (alignUp 8 t.blk - 8) } : Tup) else t) = v ∧
      (k.cat = .norm → ∃ rest, v.body = F.data k ++ rest) ∧ v.info = (8 + v.body.length) ||| flags F k ∧ v.body.length ≤ t.body.length ∧ 8 ∣ v.body.length ∧
      (k.cat ≠ .norm → v.body[0]? = some (if F.oneCol then 0 else 1)) ∧
      (k.cat ≠ .norm → F.oneCol = false → (v.body.drop 8).take 2 = leBytes 2 k.attnum) ∧
      8 + v.body.length = if leaf && !t.isTree then t.blk else t.size := by
    by_cases hcut : leaf = true ∧ t.isTree = false
    · obtain ⟨c1, c2, c3, c4⟩ := h.cut hcut.1 hcut.2
      rw [if_pos (by simp [hcut]), alignUp8_self c1]
      have hlen : (t.body.take (t.blk - 8)).length = t.blk - 8 := by rw [List.length_take]; omega
      have hnl : k.cat ≠ .norm → (F.nulls k ++ F.data k).length = 8 + if F.oneCol then 0 else 2 := by
        intro hc
        unfold Fmt.nulls Fmt.data
        simp only [hc, if_false]
        cases F.oneCol <;> simp [leBytes_length]
      refine ⟨_, rfl, fun hc => ?_, ?_, ?_, ?_, fun hc => ?_, fun hc ho => ?_, ?_⟩
      · obtain ⟨rest, hr⟩ := h.good.norm hc
        show ∃ r, t.body.take (t.blk - 8) = _
        have : (F.data k).length ≤ t.blk - 8 := by simpa [Fmt.nulls, hc] using c4
        exact ⟨rest.take (t.blk - 8 - (F.data k).length), by rw [hr, List.take_append, List.take_of_length_le this]⟩
      · show (t.info &&& 0xe000) ||| t.blk = (8 + (t.body.take (t.blk - 8)).length) ||| _
        rw [hlen, h.good.info, high_or F k h.good.small, Nat.or_comm]
        congr 1
        omega
      · show (t.body.take (t.blk - 8)).length ≤ _
        rw [hlen]; omega
      · show 8 ∣ (t.body.take (t.blk - 8)).length
        rw [hlen]; omega
      · show (t.body.take (t.blk - 8))[0]? = _
        have := hnl hc
        rw [List.getElem?_take, if_pos (by omega)]
        exact (h.good.null hc).1
      · show ((t.body.take (t.blk - 8)).drop 8).take 2 = _
        have := hnl hc
        rw [ho] at this
        simp only [Bool.false_eq_true, if_false] at this
        rw [List.drop_take, List.take_take, Nat.min_eq_left (by omega)]
        exact (h.good.null hc).2.1 ho
      · show 8 + (t.body.take (t.blk - 8)).length = _
        rw [hlen, if_pos (by simp [hcut])]; omega
    · rw [if_neg (by simpa using hcut)]
      exact ⟨t, rfl, h.good.norm, h.good.info, Nat.le_refl _, h.good.dvd, fun hc => (h.good.null hc).1, fun hc => (h.good.null hc).2.1,
        by rw [if_neg (by simpa using hcut), hts]⟩
  have hsm : 8 + v.body.length < 8192 := by have := h.good.small; omega
  unfold Fmt.formInner
  simp only [hv, hkey]
  by_cases hc : k.cat = .norm
  · rw [hc]
    have G : Good F k { v with blk := child % 2 ^ 32, off := 0 } := ⟨v0, fun hn => absurd hc hn, v1, hsm, v3⟩
    refine ⟨_, rfl, ⟨G, ?_, fun h => by cases h⟩, Nat.mod_eq_of_lt hch, by rw [G.size]; exact v6⟩
    rw [G.size]
    have := h.max
    show 8 + v.body.length ≤ _
    omega
  · obtain ⟨w, w1, w2, w3, w4, w5, w6⟩ := setCat_good (F := F) (k := k) (c := k.cat)
      (u := { v with blk := child % 2 ^ 32, off := 0, info := v.info ||| 0x8000 }) hc rfl (by
        show v.info ||| 0x8000 = _
        rw [v1, or_null hc]) hsm v3 (v4 hc) (v5 hc)
    refine ⟨w, ?_, ⟨w2, ?_, fun h => by cases h⟩, by rw [w3]; exact Nat.mod_eq_of_lt hch,
      by rw [w2.size, w5]; exact v6⟩
    · cases hk : k.cat with
      | norm => exact absurd hk hc
      | _ => rw [hk] at w1; exact w1
    · rw [w2.size, w5]
      have := h.max
      show 8 + v.body.length ≤ _
      omega

theorem Stored.known (hs : Storable F k) {leaf : Bool} {t : Tup} (h : Stored F c k leaf t) : Known F k leaf t := by
  induction h with
  | list hok h => exact list_known hok h
  | @tree b t hb h =>
    simp only [Fmt.formTree, Option.map_eq_some_iff] at h
    obtain ⟨u, h1, rfl⟩ := h
    have K := list_known (by simp) h1
    exact ⟨⟨K.good.norm, K.good.null, K.good.info, K.good.small, K.good.dvd⟩, K.max, fun _ h => by cases h⟩
  | inner _ hch h ih =>
    obtain ⟨u, h1, h2, -, -⟩ := ih.inner hs hch
    rw [h] at h1
    cases h1
    exact h2

/-- **C73, interior pages.** Every tuple of the entry tree, on leaf or interior pages, shows its key; the tuple formed from it for the page above can always be
formed, shows the same key and the page it points to, and is not longer. -/
theorem C73_inner (hs : Storable F k) {leaf : Bool} {t : Tup} (h : Stored F c k leaf t) {child : Nat} (hch : child < 2 ^ 32) :
    Shows F t k ∧ Sized t ∧ ∃ u, F.formInner t leaf child = some u ∧ Shows F u k ∧ u.blk = child ∧ Sized u := by
  have K := h.known hs
  have sized : ∀ {l t}, Known F k l t → Sized t := fun K => ⟨K.good.size, by rw [K.good.size]; have := K.good.dvd; omega, K.max⟩
  obtain ⟨u, u1, u2, u3, -⟩ := K.inner hs hch
  exact ⟨K.good.shows hs, sized K, u, u1, u2.good.shows hs, u3, sized u2⟩

/-- The byte strings are those of the model of the index used for all other properties, whose tuples are key, size and encoded rows: the same sizes on leaf
and interior pages, the same rows. -/
theorem C73_model (hs : Storable F k) {ix : Ix V} {base : Tup} (hb : F.formBase k = some base) (hk : ix.keySize k = base.size) {its : List (Item Datum)}
    (hok : ∀ it ∈ its, ItemOK (ix.ctx k.attnum).cfg it) {e : Ent V} (he : ix.formTuple k its = some e) {child : Nat} (hch : child < 2 ^ 32) :
    ∃ t u, F.formTuple (ix.ctx k.attnum).cfg k its = some t ∧ t.size = e.size ∧ t.items (ix.ctx k.attnum).cfg = some (ix.readTuple e) ∧
      F.formInner t true child = some u ∧ u.size = ix.innerSize e := by
  have hmax := maxTuple_eq
  unfold Ix.formTuple at he
  split at he
  · cases he
  · next hle =>
    obtain ⟨bs, h1, h2⟩ := placeList_ok (ix.ctx k.attnum).cfg its (ix.keySize k) ⟨0, 0⟩ hok
    rw [h1] at he
    simp only [Option.some.injEq] at he
    subst he
    have hsw : sizeWith (ix.ctx k.attnum).cfg base.size k its = ix.tupleSize k its := by
      unfold sizeWith Ix.tupleSize catByte
      rw [hk]
    obtain ⟨t, t1, t2, t3, t4, t5, t6⟩ := (C73_list (c := (ix.ctx k.attnum).cfg) hs hb hok).2 (by omega)
    have K := list_known hok t1
    obtain ⟨u, u1, u2, u3, u4⟩ := K.inner hs hch
    obtain ⟨P, -, -⟩ := formBase_pre hb
    refine ⟨t, u, t1, by rw [t6, hsw], ?_, u1, ?_⟩
    · rw [t4]
      unfold Ix.readTuple
      have := readList_placeList (ix.ctx k.attnum).cfg its (ix.keySize k) ⟨0, 0⟩ bs [] hok (by simp [Iptr.Fits]) h1
      simp only [List.append_nil] at this
      simp only [this]
    · rw [u4]
      simp only [Bool.true_and, t3, Bool.not_false, if_true]
      unfold Ix.innerSize
      simp only [hk]
      have hd : 8 ∣ base.size := by rw [P.size]; have := P.dvd; omega
      rw [alignUp8_self hd]
      unfold Fmt.formTuple at t1
      rw [hb] at t1
      simp only [Option.map_some, Option.getD_some] at t1
      rw [hk] at h1
      simp only [h1] at t1
      have hblk : (base.setPosting base.size its.length).blk = (base.setPosting base.size its.length).size := by
        show base.size % 2 ^ 32 = base.size
        exact Nat.mod_eq_of_lt (by have := P.small; have := P.size; omega)
      by_cases hle' : alignUp 8 (checkList (ix.ctx k.attnum).cfg ⟨0, 0⟩ base.size its + if k.cat = .norm then 0 else 1) ≤ maxTuple
      · obtain ⟨w, w1, -, w3, -⟩ := finish_good (setPosting_pre P base.size its.length) (n := its.length) (bytes := bs)
          (last := checkList (ix.ctx k.attnum).cfg ⟨0, 0⟩ base.size its) hblk (by
            rw [setPosting_size]
            rw [hk] at h2
            split
            · omega
            · next h0 =>
              have : its = [] := List.length_eq_zero_iff.1 (by omega)
              subst this
              simp [checkList]) hle'
        rw [t1] at w1
        cases w1
        rw [w3, hblk]
        rfl
      · rw [finish_none (by omega)] at t1
        cases t1

end

/-! ### Examples -/

/-- An index on an integer column and others: the column number, two bytes of padding, four bytes of the key. -/
def exFmt : Fmt Nat := ⟨false, fun _ => false, fun _ v => [0, 0] ++ leBytes 4 v, fun _ bs => leNat ((bs.drop 2).take 4)⟩

theorem exStorable (a v : Nat) (ha : a < 2 ^ 16) (hv : v < 2 ^ 32) (c : Cat) : Storable exFmt ⟨a, c, v⟩ := by
  refine ⟨ha, fun h => (by cases h), fun _ rest => ?_⟩
  show leNat ((([0, 0] ++ leBytes 4 v ++ rest).drop 2).take 4) = v
  have : ([0, 0] ++ leBytes 4 v ++ rest).drop 2 = leBytes 4 v ++ rest := rfl
  rw [this, List.take_append_of_le_length (by simp [leBytes_length]), List.take_of_length_le (by simp [leBytes_length]), leNat_leBytes 4 v (by omega)]

/-- An index on one integer column. -/
def exOne : Fmt Nat := ⟨true, fun _ => false, fun _ v => leBytes 4 v, fun _ bs => leNat (bs.take 4)⟩

theorem exOneStorable (v : Nat) (hv : v < 2 ^ 32) (c : Cat) : Storable exOne ⟨1, c, v⟩ := by
  refine ⟨(by show 1 < 2 ^ 16; decide), fun _ => rfl, fun _ rest => ?_⟩
  show leNat ((leBytes 4 v ++ rest).take 4) = v
  rw [List.take_append_of_le_length (by simp [leBytes_length]), List.take_of_length_le (by simp [leBytes_length]), leNat_leBytes 4 v (by omega)]

def exRows : List (Item Datum) := [⟨⟨1, 2⟩, none⟩, ⟨⟨1, 7⟩, none⟩, ⟨⟨300, 1⟩, none⟩]

/-- A NULL key: the category is the last byte of the tuple (2 more rows would go in between), and the last byte of the padding of the null bitmap on the page
above. -/
theorem C73_witness :
    ((exFmt.formTuple ⟨false, none⟩ ⟨3, .norm, 70000⟩ exRows).map Tup.size = some 24 ∧
      (exFmt.formTuple ⟨false, none⟩ ⟨3, .norm, 70000⟩ exRows).map exFmt.attnum = some 3 ∧
      (exFmt.formTuple ⟨false, none⟩ ⟨3, .norm, 70000⟩ exRows).bind exFmt.key = some (.norm, some 70000) ∧
      ((exFmt.formTuple ⟨false, none⟩ ⟨3, .norm, 70000⟩ exRows).bind (Tup.items ⟨false, none⟩)).map (·.map Item.iptr) = some (exRows.map Item.iptr)) ∧
    ((exFmt.formTuple ⟨false, none⟩ ⟨3, .nullItem, 0⟩ exRows).map Tup.size = some 32 ∧
      (exFmt.formTuple ⟨false, none⟩ ⟨3, .nullItem, 0⟩ exRows).bind exFmt.key = some (.nullItem, none) ∧
      ((exFmt.formTuple ⟨false, none⟩ ⟨3, .nullItem, 0⟩ exRows).bind (Tup.items ⟨false, none⟩)).map (·.map Item.iptr) = some (exRows.map Item.iptr)) ∧
    (((exOne.formTuple ⟨false, none⟩ ⟨1, .emptyItem, 0⟩ exRows).bind (fun t => exOne.formInner t true 77)).map Tup.size = some 16 ∧
      ((exOne.formTuple ⟨false, none⟩ ⟨1, .emptyItem, 0⟩ exRows).bind (fun t => exOne.formInner t true 77)).bind exOne.key = some (.emptyItem, none) ∧
      ((exOne.formTuple ⟨false, none⟩ ⟨1, .emptyItem, 0⟩ exRows).bind (fun t => exOne.formInner t true 77)).map Tup.blk = some 77) := by
  decide +kernel

end Rum.Props.TupleBytes

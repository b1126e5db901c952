import Verif.BtreeOps
import Verif.Sorted
/- Property theorems C33, C34, C35: scalar operator classes. -/
set_option linter.unusedSectionVars false
namespace Rum.Props
open Std Rum Rum.Bt

variable {K : Type}

/-- The entry tree's content in key order, without duplicates and with no query placeholder among the keys. -/
def EntriesOK (cmpAll : Nat → K → K → Ordering) (es : List (Entry K)) : Prop :=
  es.Pairwise (fun a b => cmpAttEntries cmpAll a.key b.key = .lt) ∧ ∀ e ∈ es, e.key.cat ≠ .emptyQuery

/-- The rows whose (non-NULL) value in column `attnum` satisfies the condition. -/
def rowsSatisfying (cmpK : K → K → Ordering) (attnum : Nat) (s : Strategy) (datum : K) (es : List (Entry K)) : List Iptr :=
  (es.filter (fun e => e.key.attnum = attnum ∧ e.key.cat = .norm ∧ Sat cmpK s e.key.key datum)).flatMap (fun e => e.rows)

private theorem lt_attnum {cmpAll : Nat → K → K → Ordering} {a b : AttKey K} (h : cmpAttEntries cmpAll a b = .lt) :
    a.attnum ≤ b.attnum := by
  unfold cmpAttEntries at h
  split at h
  · split at h
    · omega
    · cases h
  · omega

private theorem lt_cat {cmpAll : Nat → K → K → Ordering} {a b : AttKey K} (h : cmpAttEntries cmpAll a b = .lt)
    (hn : a.attnum = b.attnum) (ha : a.cat ≠ .norm) (he : a.cat ≠ .emptyQuery) : b.cat ≠ .norm := by
  intro hb
  unfold cmpAttEntries cmpEntries at h
  rw [if_neg (by simp [hn]), if_pos (by rw [hb]; exact ha), hb] at h
  cases hc : a.cat <;> simp_all [Cat.code]

private theorem lt_key {cmpAll : Nat → K → K → Ordering} {a b : AttKey K} (h : cmpAttEntries cmpAll a b = .lt)
    (hn : a.attnum = b.attnum) (ha : a.cat = .norm) (hb : b.cat = .norm) : cmpAll b.attnum a.key b.key = .lt := by
  unfold cmpAttEntries cmpEntries at h
  rw [if_neg (by simp [hn]), if_neg (by simp [ha, hb]), if_neg (by simp [ha])] at h
  rw [← hn]; exact h

private theorem walk_spec (cmpAll : Nat → K → K → Ordering) [∀ n, TransCmp (cmpAll n)] (attnum : Nat) (s : Strategy)
    (datum start : K) (hs : s ≠ .eq) (hst : s = .ge ∨ s = .gt → start = datum) (es : List (Entry K)) (h : EntriesOK cmpAll es)
    (hge : ∀ e ∈ es, attnum ≤ e.key.attnum)
    (hlo : s = .ge ∨ s = .gt → ∀ e ∈ es, e.key.attnum = attnum → e.key.cat = .norm → cmpAll attnum datum e.key.key ≠ .gt) :
    collectPartial attnum (comparePrefix (cmpAll attnum) s datum start) es = rowsSatisfying (cmpAll attnum) attnum s datum es := by
  obtain ⟨L, _, kk, k1, k2, k3⟩ := exists_key (cmpAll attnum)
  induction es with
  | nil => rfl
  | cons e es ih =>
    obtain ⟨hp, hc⟩ := h
    rw [List.pairwise_cons] at hp
    have ih' := ih ⟨hp.2, fun x hx => hc x (by simp [hx])⟩ (fun x hx => hge x (by simp [hx]))
      (fun h x hx => hlo h x (by simp [hx]))
    have none_rest : (∀ x ∈ e :: es, ¬ (x.key.attnum = attnum ∧ x.key.cat = .norm ∧ Sat (cmpAll attnum) s x.key.key datum = true)) →
        rowsSatisfying (cmpAll attnum) attnum s datum (e :: es) = [] := by
      intro hx
      unfold rowsSatisfying
      rw [List.filter_eq_nil_iff.2]
      · rfl
      · intro x hx'; simpa using hx x hx'
    rw [collectPartial]
    split
    · next h1 =>
      rw [none_rest]
      rintro x hx ⟨hx1, -⟩
      have h2 := hge e (by simp)
      rcases List.mem_cons.1 hx with rfl | hx
      · exact h1 hx1
      · have := lt_attnum (hp.1 x hx); omega
    · next h1 =>
      have h1 : e.key.attnum = attnum := by simpa using h1
      split
      · next h2 =>
        rw [none_rest]
        rintro x hx ⟨hx1, hx2, -⟩
        rcases List.mem_cons.1 hx with rfl | hx
        · exact h2 hx2
        · exact lt_cat (hp.1 x hx) (by omega) h2 (hc e (by simp)) hx2
      · next h2 =>
        have h2 : e.key.cat = .norm := by simpa using h2
        have later : ∀ x ∈ es, x.key.attnum = attnum → x.key.cat = .norm → kk e.key.key < kk x.key.key := by
          intro x hx hx1 hx2
          have := lt_key (hp.1 x hx) (by omega) h2 hx2
          rw [hx1, k1] at this; exact this
        have hlo' := fun h => hlo h e (by simp) h1 h2
        split
        · next h3 =>
          rw [none_rest]
          rintro x hx ⟨hx1, hx2, hx3⟩
          have hle : kk e.key.key ≤ kk x.key.key := by
            rcases List.mem_cons.1 hx with rfl | hx
            · exact _root_.le_refl _
            · exact _root_.le_of_lt (later x hx hx1 hx2)
          cases s with
          | eq => exact hs rfl
          | lt =>
            simp only [comparePrefix, Sat, true_or, if_true, k3, k1, decide_eq_true_eq] at h3 hx3
            split at h3
            · omega
            · next h4 => exact h4 (_root_.lt_of_le_of_lt hle hx3)
          | le =>
            simp only [comparePrefix, Sat, or_true, if_true, k3, k1, decide_eq_true_eq, ne_eq, _root_.not_lt] at h3 hx3
            split at h3
            · omega
            · next h4 => exact h4 (_root_.le_trans hle hx3)
          | ge =>
            have hd := hlo' (Or.inl rfl)
            simp [comparePrefix, hst (Or.inl rfl), hd] at h3
          | gt =>
            have hd := hlo' (Or.inr rfl)
            simp only [comparePrefix, hst (Or.inr rfl)] at h3
            cases hcc : cmpAll attnum datum e.key.key <;> simp_all
        · next h3 =>
          have hcons : ∀ b : Bool, Sat (cmpAll attnum) s e.key.key datum = b →
              rowsSatisfying (cmpAll attnum) attnum s datum (e :: es) =
                (if b then e.rows else []) ++ rowsSatisfying (cmpAll attnum) attnum s datum es := by
            intro b hb
            unfold rowsSatisfying
            rw [List.filter_cons]
            cases b <;> simp [h1, h2, hb]
          split
          · next h4 =>
            rw [ih']
            cases s with
            | eq => exact absurd rfl hs
            | lt => exfalso; simp only [comparePrefix] at h4; revert h4; split_ifs <;> decide
            | le => exfalso; simp only [comparePrefix] at h4; revert h4; split_ifs <;> decide
            | ge => exfalso; simp only [comparePrefix] at h4; revert h4; split_ifs <;> decide
            | gt =>
              rw [hcons false]
              · rfl
              · simp only [comparePrefix, hst (Or.inr rfl)] at h4
                simp only [Sat, decide_eq_false_iff_not]
                have : cmpAll attnum datum e.key.key = .eq := by
                  cases hcc : cmpAll attnum datum e.key.key <;> simp_all
                rw [k2] at this
                rw [k3, this]; exact _root_.lt_irrefl _
          · next h4 =>
            rw [ih', hcons true]
            · rfl
            · cases s with
              | eq => exact absurd rfl hs
              | lt =>
                simp only [comparePrefix, true_or, if_true, k3] at h3
                simp only [Sat, k1, decide_eq_true_eq]
                split at h3
                · assumption
                · simp at h3
              | le =>
                simp only [comparePrefix, or_true, if_true, k1, ne_eq, _root_.not_lt] at h3
                simp only [Sat, k3, ne_eq, _root_.not_lt, decide_eq_true_eq]
                split at h3
                · assumption
                · simp at h3
              | ge =>
                have hd := hlo' (Or.inl rfl)
                simp only [Sat, ne_eq, decide_eq_true_eq, k1, _root_.not_lt]
                simp only [ne_eq, k3, _root_.not_lt] at hd
                exact hd
              | gt =>
                have hd := hlo' (Or.inr rfl)
                simp only [comparePrefix, hst (Or.inr rfl)] at h3 h4
                simp only [Sat, decide_eq_true_eq]
                have hlt : cmpAll attnum datum e.key.key = .lt := by
                  cases hcc : cmpAll attnum datum e.key.key <;> simp_all
                rw [k1] at hlt
                rw [k3]; exact hlt

private theorem dropWhile_filter {α : Type} (p q : α → Bool) (l : List α) (h : ∀ x ∈ l, p x = true → q x = false) :
    (l.dropWhile p).filter q = l.filter q := by
  induction l with
  | nil => rfl
  | cons a l ih =>
    rw [List.dropWhile_cons]
    split
    · next hp =>
      rw [ih (fun x hx => h x (by simp [hx])), List.filter_cons_of_neg (by simp [h a (by simp) hp])]
    · rfl

/-- After dropping the entries below `k`, every entry left is at least `k`. -/
private theorem startAt_ge (cmpAll : Nat → K → K → Ordering) [∀ n, TransCmp (cmpAll n)] (k : AttKey K) (es : List (Entry K))
    (h : es.Pairwise (fun a b => cmpAttEntries cmpAll a.key b.key = .lt)) :
    ∀ e ∈ startAt cmpAll k es, cmpAttEntries cmpAll e.key k ≠ .lt := by
  unfold startAt
  induction es with
  | nil => simp
  | cons a l ih =>
    rw [List.pairwise_cons] at h
    rw [List.dropWhile_cons]
    split
    · exact ih h.2
    · next hp =>
      have hp : cmpAttEntries cmpAll a.key k ≠ .lt := by simpa using hp
      intro e he hlt
      rcases List.mem_cons.1 he with rfl | he
      · exact hp hlt
      · exact hp (TransCmp.lt_trans (h.1 e he) hlt)

/-- **C33.** For every content of the entry tree (any number of columns, keys, NULL placeholders), every comparison
operator and query value: if the walk's starting value is not above any key of the column, the scan returns exactly the
rows whose value satisfies the comparison (in key order), without recheck. -/
theorem C33_scalar_range_exact (cmpAll : Nat → K → K → Ordering) [∀ n, TransCmp (cmpAll n)] (leftmost : K) (attnum : Nat)
    (s : Strategy) (datum : K) (es : List (Entry K)) (h : EntriesOK cmpAll es)
    (hleft : ∀ e ∈ es, e.key.attnum = attnum → e.key.cat = .norm → cmpAll attnum leftmost e.key.key ≠ .gt) :
    scanRows cmpAll leftmost attnum s datum es = rowsSatisfying (cmpAll attnum) attnum s datum es := by
  have key : ∀ start : K, (s = .eq ∨ s = .ge ∨ s = .gt → start = datum) →
      (s = .lt ∨ s = .le → ∀ e ∈ es, e.key.attnum = attnum → e.key.cat = .norm → cmpAll attnum start e.key.key ≠ .gt) →
      (∀ e ∈ startAt cmpAll ⟨attnum, .norm, start⟩ es, attnum ≤ e.key.attnum) ∧
      (s = .eq ∨ s = .ge ∨ s = .gt → ∀ e ∈ startAt cmpAll ⟨attnum, .norm, start⟩ es, e.key.attnum = attnum → e.key.cat = .norm →
        cmpAll attnum datum e.key.key ≠ .gt) ∧
      rowsSatisfying (cmpAll attnum) attnum s datum (startAt cmpAll ⟨attnum, .norm, start⟩ es) =
        rowsSatisfying (cmpAll attnum) attnum s datum es := by
    intro start hst hlf
    have hge := startAt_ge cmpAll ⟨attnum, .norm, start⟩ es h.1
    refine ⟨?_, ?_, ?_⟩
    · intro e he
      have := hge e he
      rcases Nat.lt_or_ge e.key.attnum attnum with hl | hl
      · exfalso; apply this; unfold cmpAttEntries
        rw [if_pos (by simp only; omega), if_pos (by simpa using hl)]
      · exact hl
    · intro hs e he h1 h2 hgt
      apply hge e he
      unfold cmpAttEntries cmpEntries
      rw [if_neg (by simp [h1]), if_neg (by simp [h2]), if_neg (by simp [h2]), h1, hst hs]
      exact OrientedCmp.gt_iff_lt.1 hgt
    · unfold rowsSatisfying startAt
      rw [dropWhile_filter]
      intro e he hlt
      simp only [beq_iff_eq] at hlt
      simp only [Bool.decide_and, Bool.and_eq_false_iff, decide_eq_false_iff_not, Bool.decide_eq_true]
      by_cases h1 : e.key.attnum = attnum
      · by_cases h2 : e.key.cat = .norm
        · right; right
          have hk := lt_key hlt h1 h2 rfl
          simp only at hk
          cases s with
          | lt => exact absurd (OrientedCmp.gt_iff_lt.2 hk) (hlf (Or.inl rfl) e he h1 h2)
          | le => exact absurd (OrientedCmp.gt_iff_lt.2 hk) (hlf (Or.inr rfl) e he h1 h2)
          | eq => rw [hst (by simp)] at hk; simp [Sat, hk]
          | ge => rw [hst (by simp)] at hk; simp [Sat, hk]
          | gt => rw [hst (by simp)] at hk; simp [Sat, hk]
        · right; left; exact h2
      · left; exact h1
  have sub : ∀ k, EntriesOK cmpAll (startAt cmpAll k es) := fun k =>
    ⟨h.1.sublist (List.dropWhile_sublist _), fun e he => h.2 e ((List.dropWhile_sublist _).subset he)⟩
  unfold scanRows
  by_cases hs : s = .eq
  · subst hs
    obtain ⟨a1, a2, a3⟩ := key datum (fun _ => rfl) (by simp)
    have hq : extractQuery leftmost .eq datum = (datum, false) := rfl
    simp only [hq, Bool.false_eq_true, if_false]
    rw [← a3]
    have hok := sub ⟨attnum, .norm, datum⟩
    have hge := startAt_ge cmpAll ⟨attnum, .norm, datum⟩ es h.1
    cases hl : startAt cmpAll ⟨attnum, .norm, datum⟩ es with
    | nil => rfl
    | cons e l =>
      rw [hl] at hok hge
      obtain ⟨hp, hc⟩ := hok
      rw [List.pairwise_cons] at hp
      have hiff : ∀ x : Entry K, (x.key.attnum = attnum ∧ x.key.cat = .norm ∧ Sat (cmpAll attnum) .eq x.key.key datum = true) ↔
          cmpAttEntries cmpAll ⟨attnum, .norm, datum⟩ x.key = .eq := by
        intro x
        unfold cmpAttEntries cmpEntries Sat
        constructor
        · rintro ⟨h1, h2, h3⟩
          rw [if_neg (by simp [h1]), if_neg (by simp [h2]), if_neg (by simp)]
          exact OrientedCmp.eq_symm (by simpa using h3)
        · intro hx
          split at hx
          · split at hx <;> cases hx
          · next h1 =>
            split at hx
            · split at hx <;> cases hx
            · next h2 =>
              rw [if_neg (by simp)] at hx
              exact ⟨by simpa using Eq.symm (by simpa using h1), by simpa using Eq.symm (by simpa using h2),
                by simpa using OrientedCmp.eq_symm hx⟩
      have hrest : ∀ x ∈ l, cmpAttEntries cmpAll ⟨attnum, .norm, datum⟩ x.key ≠ .eq := by
        intro x hx heq
        apply hge e (by simp)
        exact TransCmp.lt_of_lt_of_eq (hp.1 x hx) (OrientedCmp.eq_symm heq)
      have hnil : l.filter (fun x => decide (x.key.attnum = attnum ∧ x.key.cat = .norm ∧ Sat (cmpAll attnum) .eq x.key.key datum)) = [] := by
        rw [List.filter_eq_nil_iff]
        intro x hx hh
        simp only [decide_eq_true_eq] at hh
        exact hrest x hx ((hiff x).1 hh)
      unfold rowsSatisfying
      rw [List.filter_cons, hnil]
      by_cases hh : cmpAttEntries cmpAll ⟨attnum, .norm, datum⟩ e.key = .eq
      · simp only [hh, if_true]
        rw [if_pos (by simpa using (hiff e).2 hh)]; simp
      · simp only [hh, if_false]
        rw [if_neg (by simpa using fun h1 h2 h3 => hh ((hiff e).1 ⟨h1, h2, h3⟩))]; rfl
  · by_cases hs2 : s = .ge ∨ s = .gt
    · obtain ⟨a1, a2, a3⟩ := key datum (fun _ => rfl) (by rcases hs2 with rfl | rfl <;> simp)
      have hq : extractQuery leftmost s datum = (datum, true) := by rcases hs2 with rfl | rfl <;> rfl
      simp only [hq, if_true]
      rw [← a3]
      exact walk_spec cmpAll attnum s datum datum hs (fun _ => rfl) _ (sub _) a1 (fun hh => a2 (Or.inr hh))
    · have hs3 : s = .lt ∨ s = .le := by cases s <;> simp_all
      have hq : extractQuery leftmost s datum = (leftmost, true) := by rcases hs3 with rfl | rfl <;> rfl
      obtain ⟨a1, a2, a3⟩ := key leftmost (by rcases hs3 with rfl | rfl <;> simp) (fun _ => hleft)
      simp only [hq, if_true]
      rw [← a3]
      exact walk_spec cmpAll attnum s datum leftmost hs (fun hh => absurd hh hs2) _ (sub _) a1 (fun hh => absurd hh hs2)

/-- Two columns, NULL placeholders, three keys in the searched column. -/
def exEntries : List (Entry Int) :=
  [⟨⟨1, .norm, 5⟩, [⟨1, 1⟩]⟩, ⟨⟨2, .norm, -3⟩, [⟨1, 2⟩]⟩, ⟨⟨2, .norm, 4⟩, [⟨1, 3⟩, ⟨1, 4⟩]⟩, ⟨⟨2, .norm, 9⟩, [⟨1, 5⟩]⟩,
   ⟨⟨2, .nullItem, 0⟩, [⟨1, 6⟩]⟩]

-- non-vacuity
example : EntriesOK (fun _ => (compare : Int → Int → Ordering)) exEntries ∧
    (∀ e ∈ exEntries, e.key.attnum = 2 → e.key.cat = .norm → compare (-2 ^ 31 : Int) e.key.key ≠ .gt) ∧
    rowsSatisfying (compare : Int → Int → Ordering) 2 .le 4 exEntries = [⟨1, 2⟩, ⟨1, 3⟩, ⟨1, 4⟩] := by
  refine ⟨⟨by decide, by decide⟩, by decide, by decide⟩

/-- **C33 is violated for "char"**: `col < 'b'` (98) does not return the row with 'a' (97), because the walk starts at the
byte 0x80. -/
theorem C33_char_violated :
    scanRows (fun _ => charCmp) charLeftmost 1 .lt (98 : BitVec 8) [⟨⟨1, .norm, 97⟩, [⟨1, 1⟩]⟩] = [] ∧
    rowsSatisfying charCmp 1 .lt (98 : BitVec 8) [⟨⟨1, .norm, 97⟩, [⟨1, 1⟩]⟩] = [⟨1, 1⟩] := by
  constructor <;> decide

/-! ### C34 -/

/-- **C34** for int2, int4, int8, money, date, timestamp(tz), time, oid: the start value is the least value of the
type's range. -/
theorem C34_leftmost_integer_types (lo : Int) (v : Int) (h : lo ≤ v) : compare lo v ≠ .gt := by
  rw [ne_eq, Int.compare_eq_gt]; omega

/-- The start values used for the integer-like types, with the least value of each type's range
(/repo/src/btree_rum.c:400-560: SHRT_MIN, INT_MIN, PG_INT64_MIN, PG_INT64_MIN, DATEVAL_NOBEGIN, DT_NOBEGIN, 0, 0). -/
def integerLeftmost : List (String × Int × Int) :=
  [("int2", -2 ^ 15, -32768), ("int4", -2 ^ 31, -2147483648), ("int8", -2 ^ 63, -9223372036854775808),
   ("money", -2 ^ 63, -9223372036854775808), ("date", -2 ^ 31, -2147483648), ("timestamp", -2 ^ 63, -9223372036854775808),
   ("time", 0, 0), ("oid", 0, 0), ("macaddr", 0, 0)]

/-- **C34** for those types. -/
theorem C34_leftmost_integers : ∀ t ∈ integerLeftmost, ∀ v : Int, t.2.1 ≤ v → compare t.2.2 v ≠ .gt := by
  intro t ht v hv
  apply C34_leftmost_integer_types
  have : t.2.2 = t.2.1 := by
    clear hv v; revert t; decide
  omega

/-- **C34** for float4 and float8, including NaN. -/
theorem C34_leftmost_float {Q : Type} (cmpQ : Q → Q → Ordering) (v : FloatVal Q) : floatCmp cmpQ .negInf v ≠ .gt := by
  cases v <;> simp [floatCmp, floatCmp.rank] <;> decide

/-- **C34** for numeric. -/
theorem C34_leftmost_numeric {Q : Type} (cmpQ : Q → Q → Ordering) (v : Option Q) : numericCmp cmpQ none v ≠ .gt := by
  cases v <;> simp [numericCmp]

/-- **C34** for bytea and for text in the C collation. -/
theorem C34_leftmost_bytes (v : List Nat) : bytesCmp [] v ≠ .gt := by
  cases v <;> simp [bytesCmp]

/-- **C34** for bit and varbit. -/
theorem C34_leftmost_bit (v : List Nat × Nat) : bitCmp ([], 0) v ≠ .gt := by
  unfold bitCmp
  simp only [List.length_nil, Nat.zero_min, List.take_zero, bytesCmp, Ordering.then]
  rw [ne_eq, Nat.compare_eq_gt]; omega

/-- **C34** for timetz. -/
theorem C34_leftmost_timetz (v : TimeTz) (h : v.Valid) : timetzCmp timetzLeftmost v ≠ .gt := by
  obtain ⟨h1, h2, h3, h4⟩ := h
  have : compare (timetzLeftmost.time + timetzLeftmost.zone * 1000000) (v.time + v.zone * 1000000) = .lt := by
    rw [Int.compare_eq_lt]; simp only [timetzLeftmost]; omega
  simp [timetzCmp, this, Ordering.then]

private theorem bytesCmp_zeros (l : List Nat) : ∀ n, n ≤ l.length → bytesCmp (List.replicate n 0) l ≠ .gt := by
  induction l with
  | nil => intro n hn; have : n = 0 := by simpa using hn
           subst this; simp [bytesCmp]
  | cons a l ih =>
    intro n hn
    cases n with
    | zero => simp [bytesCmp]
    | succ n =>
      rw [List.replicate_succ, bytesCmp]
      have := ih n (by simpa using hn)
      cases hc : compare 0 a with
      | lt => simp [Ordering.then]
      | eq => simpa [Ordering.then] using this
      | gt => rw [Nat.compare_eq_gt] at hc; omega

/-- **C34** for inet and cidr, both families. -/
theorem C34_leftmost_inet (v : Inet) (h : v.Valid) : networkCmp inetLeftmost v ≠ .gt := by
  unfold networkCmp
  obtain ⟨h1 | h1, h2⟩ := h
  · have : inetLeftmost.family = v.family := h1.1.symm
    rw [if_pos this]
    have hb : inetLeftmost.bits = 0 := rfl
    have ha : inetLeftmost.addr = List.replicate 32 0 := rfl
    rw [hb, ha, Nat.zero_min]
    simp only [List.take_zero, bytesCmp, Ordering.then]
    cases hc : compare 0 v.bits with
    | lt => simp
    | eq => simpa using bytesCmp_zeros v.addr 32 (by omega)
    | gt => rw [Nat.compare_eq_gt] at hc; omega
  · have : inetLeftmost.family ≠ v.family := by rw [h1.1]; decide
    rw [if_neg this, h1.1]; decide

/-- **C34 is violated for "char"**: the byte 'a' is below the start value. -/
theorem C34_char_violated : charCmp charLeftmost 97 = .gt := by decide

/-- **C34 is violated for interval**: minus 300000 years is below the start value. -/
theorem C34_interval_violated :
    (⟨-3600000, 0, 0⟩ : Interval).Valid ∧ intervalCmp intervalLeftmost ⟨-3600000, 0, 0⟩ = .gt := by
  constructor
  · simp only [Interval.Valid]; omega
  · decide

/-- **C34, interval, the part that holds**: intervals that are not shorter than -2^63 microseconds. -/
theorem C34_leftmost_interval_partial (v : Interval) (h : -2 ^ 63 ≤ v.span) : intervalCmp intervalLeftmost v ≠ .gt := by
  unfold intervalCmp
  rw [ne_eq, Int.compare_eq_gt]
  simp only [Interval.span, intervalLeftmost] at *
  omega

/-- **C34, "char", the part that holds**: bytes from 0x80 on. -/
theorem C34_leftmost_char_partial (v : BitVec 8) (h : 128 ≤ v.toNat) : charCmp charLeftmost v ≠ .gt := by
  unfold charCmp
  rw [ne_eq, Nat.compare_eq_gt]
  have : charLeftmost.toNat = 128 := by decide
  omega

/-! ### C35 -/

/-- **C35** for int2, int4 and oid (values up to 32 bits): the three distances are exactly the absolute difference, the
difference to values on the left, and to values strictly on the right, whatever the rounding beyond 2^53. -/
theorem C35_exact_distances (r : Rounding) (a b : Int) (ha : -2 ^ 31 ≤ a ∧ a < 2 ^ 32) (hb : -2 ^ 31 ≤ b ∧ b < 2 ^ 32) :
    distance (fun _ => false) compare (intSub r) a b = .num (if a > b then a - b else b - a) ∧
    leftDistance (fun _ => false) compare (intSub r) a b = (if a > b then .inf else .num (b - a)) ∧
    rightDistance (fun _ => false) compare (intSub r) a b = (if a > b then .num (a - b) else .inf) := by
  have e1 : r.rnd a = a := r.exact a (by omega) (by omega)
  have e2 : r.rnd b = b := r.exact b (by omega) (by omega)
  have e3 : r.rnd (a - b) = a - b := r.exact _ (by omega) (by omega)
  have e4 : r.rnd (b - a) = b - a := r.exact _ (by omega) (by omega)
  have hg : compare a b = .gt ↔ a > b := by rw [Int.compare_eq_gt]
  unfold distance leftDistance rightDistance intSub
  simp only [e1, e2, e3, e4, hg]
  simp

-- non-vacuity
example : ∃ r : Rounding, r.rnd (2 ^ 54 + 1) = 2 ^ 54 :=
  ⟨⟨fun n => if n ≤ 2 ^ 53 then (if -2 ^ 53 ≤ n then n else 2 * (n / 2)) else 2 * (n / 2),
    fun a b h => by split <;> split <;> (try split) <;> (try split) <;> omega,
    fun n h1 h2 => by rw [if_pos h2, if_pos h1]⟩, by decide⟩

/-- **C35** for int8 and money (64 bits, rounded): the distance is never negative, is symmetric, is zero from a value to
itself, and grows with the distance between the values. -/
theorem C35_int8_distances (r : Rounding) (a b c : Int) (hab : a ≤ b) (hbc : b ≤ c) :
    (∃ n, distance (fun _ => false) compare (intSub r) a b = .num n ∧ 0 ≤ n) ∧
    distance (fun _ => false) compare (intSub r) a b = distance (fun _ => false) compare (intSub r) b a ∧
    distance (fun _ => false) compare (intSub r) a a = .num 0 ∧
    (distance (fun _ => false) compare (intSub r) a b).le (distance (fun _ => false) compare (intSub r) a c) ∧
    (distance (fun _ => false) compare (intSub r) b c).le (distance (fun _ => false) compare (intSub r) a c) := by
  have z : r.rnd 0 = 0 := r.exact 0 (by decide) (by decide)
  have d : ∀ x y : Int, x ≤ y → distance (fun _ => false) compare (intSub r) x y = .num (intSub r y x) ∧
      distance (fun _ => false) compare (intSub r) y x = .num (intSub r y x) := by
    intro x y h
    unfold distance
    have h1 : compare x y ≠ .gt := by rw [ne_eq, Int.compare_eq_gt]; omega
    refine ⟨by simp [h1], ?_⟩
    by_cases e : x = y
    · subst e; simp [h1]
    · have h2 : compare y x = .gt := by rw [Int.compare_eq_gt]; omega
      simp [h2]
  have m1 := r.mono a b hab
  have m2 := r.mono b c hbc
  refine ⟨⟨_, (d a b hab).1, ?_⟩, ?_, ?_, ?_, ?_⟩
  · have := r.mono 0 (r.rnd b - r.rnd a) (by omega); unfold intSub; omega
  · rw [(d a b hab).1, (d a b hab).2]
  · rw [(d a a (by omega)).1]; unfold intSub; rw [Int.sub_self, z]
  · rw [(d a b hab).1, (d a c (by omega)).1]
    exact r.mono _ _ (by omega)
  · rw [(d b c hbc).1, (d a c (by omega)).1]
    exact r.mono _ _ (by omega)

/-- **C35**, agreement: the ordering functions called inside the index (for the attached column and for the key itself)
are the operators' functions, for every type. -/
theorem C35_index_uses_operator {T : Type} (isInf : T → Bool) (cmpT : T → T → Ordering) (sub : T → T → Int) (a b : T) :
    orderingFn isInf cmpT sub .both a b = distance isInf cmpT sub a b ∧
    orderingFn isInf cmpT sub .left a b = leftDistance isInf cmpT sub a b ∧
    orderingFn isInf cmpT sub .right a b = rightDistance isInf cmpT sub a b := ⟨rfl, rfl, rfl⟩

/-- **C35**, one-sided distances are the two-sided distance on their side and infinity on the other, for every type. -/
theorem C35_sides {T : Type} (isInf : T → Bool) (cmpT : T → T → Ordering) (sub : T → T → Int) (a b : T)
    (ha : isInf a = false) (hb : isInf b = false) :
    (cmpT a b = .gt → leftDistance isInf cmpT sub a b = .inf ∧
      rightDistance isInf cmpT sub a b = distance isInf cmpT sub a b) ∧
    (cmpT a b ≠ .gt → leftDistance isInf cmpT sub a b = distance isInf cmpT sub a b ∧
      rightDistance isInf cmpT sub a b = .inf) := by
  unfold leftDistance rightDistance distance
  simp only [ha, hb]
  constructor <;> intro h <;> simp [h]

/-- **C35** for timestamps whose difference fits in 64 bits. -/
theorem C35_timestamp_distance_partial (r : Rounding) (a b : Int) (ha : timestampInf a = false) (hb : timestampInf b = false)
    (h : a ≤ b) (hfit : b - a < 2 ^ 63) :
    distance timestampInf compare (timestampSub r) a b = .num (r.rnd (b - a)) ∧ 0 ≤ r.rnd (b - a) := by
  have z : r.rnd 0 = 0 := r.exact 0 (by decide) (by decide)
  have h1 : compare a b ≠ .gt := by rw [ne_eq, Int.compare_eq_gt]; omega
  have w : wrap64 (b - a) = b - a := by unfold wrap64; omega
  refine ⟨?_, by rw [← z]; apply r.mono; omega⟩
  unfold distance timestampSub
  simp [ha, hb, h1, w]

/-- **C35 is violated for timestamps**: between the smallest (4713-01-01 BC) and the largest (294276-12-31) timestamp the
int64 subtraction wraps, and the distance is negative. -/
theorem C35_timestamp_violated (r : Rounding) :
    ∃ n, distance timestampInf compare (timestampSub r) (-211813488000000000) 9223371331199999999 = .num n ∧ n ≤ -(2 ^ 53) := by
  refine ⟨_, rfl, ?_⟩
  have := r.mono (wrap64 (9223371331199999999 - -211813488000000000)) (-2 ^ 53) (by decide)
  rw [r.exact (-2 ^ 53) (by decide) (by decide)] at this
  exact this

/-- **C35 is violated for infinite values**: the distance between `-infinity` and `infinity` is 0. -/
theorem C35_infinity_violated (r : Rounding) :
    distance timestampInf compare (timestampSub r) (-2 ^ 63) (2 ^ 63 - 1) = .num 0 := by
  unfold distance timestampInf; simp

end Rum.Props

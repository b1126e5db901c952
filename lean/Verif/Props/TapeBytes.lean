import Verif.TapeBytes
/-!
# C82: tuples written to a tape by the sort are read back
-/
namespace Rum.Props.TapeBytes
open Rum Rum.Codec Rum.TapeBytes

theorem getlen_mark (rest : List Nat) : getlen true (markrunend ++ rest) = some (0, rest) := by
  simp [getlen, markrunend, leBytes, leNat]

theorem getlen_word {n : Nat} (h : n < 2 ^ 32) (rest : List Nat) : getlen true (leBytes 4 n ++ rest) = some (n, rest) := by
  have hl := leBytes_length 4 n
  unfold getlen
  rw [if_neg (by simp [hl]), if_neg (by simp), List.take_left' hl, List.drop_left' hl, leNat_leBytes 4 n h]

theorem readExact_append {n : Nat} {x : List Nat} (h : x.length = n) (rest : List Nat) : readExact n (x ++ rest) = some (x, rest) := by
  unfold readExact
  rw [if_neg (by simp [h]), List.take_left' h, List.drop_left' h]

theorem readRun_writeRun (ra : Bool) {size : Nat} (hs : size + 4 < 2 ^ 32) : ∀ (xs : List (List Nat)), (∀ x ∈ xs, x.length = size) → ∀ rest,
    readRun ra size (xs.length + 1) (writeRun ra size xs ++ rest) = some (xs, rest) := by
  intro xs
  induction xs with
  | nil =>
    intro _ rest
    simp only [writeRun, readRun]
    rw [getlen_mark]
    rfl
  | cons x xs ih =>
    intro h rest
    have hx : x.length = size := h x (by simp)
    have ih := ih (fun y hy => h y (by simp [hy])) rest
    have ht : x.take size = x := by rw [← hx]; exact List.take_length
    have h4 : (size + 4 = 0) = False := by simp
    rw [List.length_cons]
    unfold readRun
    cases ra with
    | false =>
      simp only [writeRun, writetup, ht, Bool.false_eq_true, if_false, List.append_nil, List.append_assoc]
      rw [getlen_word hs]
      simp only [h4, if_false, readtup, Nat.add_sub_cancel, ne_eq, not_true_eq_false, Bool.false_eq_true]
      rw [readExact_append hx]
      simp only [ih, Option.map_some]
    | true =>
      simp only [writeRun, writetup, ht, if_true, List.append_assoc]
      rw [getlen_word hs]
      simp only [h4, if_false, readtup, Nat.add_sub_cancel, ne_eq, not_true_eq_false, if_true]
      rw [readExact_append hx]
      simp only
      rw [readExact_append (leBytes_length 4 _)]
      simp only [ih, Option.map_some]

theorem flatMap_length (l : List Nat) : (l.flatMap (leBytes 8)).length = 8 * l.length := by
  induction l with
  | nil => rfl
  | cons a l ih => rw [List.flatMap_cons, List.length_append, ih, leBytes_length, List.length_cons]; omega

theorem flatMap_get (l : List Nat) : ∀ (i : Nat) (a : Nat), l[i]? = some a → ((l.flatMap (leBytes 8)).drop (8 * i)).take 8 = leBytes 8 a := by
  induction l with
  | nil => intro i a h; simp at h
  | cons b l ih =>
    intro i a h
    rw [List.flatMap_cons]
    cases i with
    | zero =>
      simp only [List.getElem?_cons_zero, Option.some.injEq] at h
      rw [h, Nat.mul_zero, List.drop_zero, List.take_left' (leBytes_length 8 a)]
    | succ i =>
      rw [show 8 * (i + 1) = (leBytes 8 b).length + 8 * i by rw [leBytes_length]; omega, ← List.drop_drop, List.drop_left]
      exact ih i a (by simpa using h)

theorem recBytes_length (x : SortRec) : (recBytes x).length = recSize x.data.length := by
  simp only [recBytes, List.length_append, flatMap_length, rawIptr, leBytes_length, recSize, List.length_cons, List.length_nil]

theorem recOf_recBytes {x : SortRec} (hp : x.iptr.Fits) (hd : ∀ a ∈ x.data, a < 2 ^ 64) : recOf x.data.length (recBytes x) = x := by
  obtain ⟨⟨blk, off⟩, re, data⟩ := x
  obtain ⟨h1, h2⟩ := hp
  simp only at h1 h2 hd
  have e2 : ∀ n, (leBytes 2 n).length = 2 := leBytes_length 2
  have g : ∀ n (l : List Nat), (leBytes 2 n ++ l).take 2 = leBytes 2 n := fun n l => List.take_left' (e2 n)
  have g' : ∀ n (l : List Nat), (leBytes 2 n ++ l).drop 2 = l := fun n l => List.drop_left' (e2 n)
  have d4 : ∀ l : List Nat, l.drop 4 = (l.drop 2).drop 2 := fun l => by rw [List.drop_drop]
  have d6 : ∀ l : List Nat, l.drop 6 = ((l.drop 2).drop 2).drop 2 := fun l => by rw [List.drop_drop, List.drop_drop]
  have d8 : ∀ l : List Nat, l.drop 8 = (((l.drop 2).drop 2).drop 2).drop 2 := fun l => by rw [List.drop_drop, List.drop_drop, List.drop_drop]
  unfold recOf recBytes rawIptr
  simp only [List.append_assoc]
  congr 1
  · congr 1
    · rw [g, g', g, leNat_leBytes 2 _ (by omega), leNat_leBytes 2 _ (by omega)]
      omega
    · rw [d4, g', g', g, leNat_leBytes 2 _ (by omega)]
  · rw [d6, g', g', g']
    cases re <;> simp
  · refine List.ext_getElem? (fun i => ?_)
    rw [List.getElem?_map]
    by_cases hi : i < data.length
    · rw [List.getElem?_range hi, List.getElem?_eq_getElem hi]
      simp only [Option.map_some, Option.some.injEq]
      rw [← List.drop_drop, d8, g', g', g']
      simp only [List.cons_append, List.nil_append, List.drop_succ_cons, List.drop_zero]
      rw [flatMap_get data i _ (List.getElem?_eq_getElem hi), leNat_leBytes 8 _ (by have := hd _ (List.getElem_mem hi); omega)]
    · rw [List.getElem?_eq_none (by simpa using hi), List.getElem?_eq_none (by simpa using hi)]
      rfl

/-- **C82.** A run of sorted rows written to a tape — with or without the trailing length words — is read back tuple by tuple up to its end mark; what follows on the tape is
left, and every tuple has its row pointer, its recheck flag and its distances. The same for tuples of any other fixed size. -/
theorem C82_tape_roundtrip (ra : Bool) :
    (∀ (size : Nat) (xs : List (List Nat)) (rest : List Nat), size + 4 < 2 ^ 32 → (∀ x ∈ xs, x.length = size) →
      readRun ra size (xs.length + 1) (writeRun ra size xs ++ rest) = some (xs, rest)) ∧
    ∀ (nKeys : Nat) (xs : List SortRec) (rest : List Nat), recSize nKeys + 4 < 2 ^ 32 →
      (∀ x ∈ xs, x.iptr.Fits ∧ x.data.length = nKeys ∧ ∀ a ∈ x.data, a < 2 ^ 64) →
      ∃ out, readRun ra (recSize nKeys) (xs.length + 1) (writeRun ra (recSize nKeys) (xs.map recBytes) ++ rest) = some (out, rest) ∧ out.map (recOf nKeys) = xs := by
  refine ⟨fun size xs rest hs h => readRun_writeRun ra hs xs h rest, fun nKeys xs rest hs h => ⟨xs.map recBytes, ?_, ?_⟩⟩
  · have := readRun_writeRun ra hs (xs.map recBytes) (fun y hy => by
      obtain ⟨x, hx, rfl⟩ := List.mem_map.1 hy
      rw [recBytes_length, (h x hx).2.1]) rest
    rwa [List.length_map] at this
  · rw [List.map_map]
    conv => rhs; rw [← List.map_id xs]
    refine List.map_congr_left (fun x hx => ?_)
    obtain ⟨h1, h2, h3⟩ := h x hx
    rw [Function.comp_apply, ← h2]
    exact recOf_recBytes h1 h3

/-- Two rows with two distances each meet the hypotheses. -/
example : recSize 2 + 4 < 2 ^ 32 ∧ ∀ x ∈ ([⟨⟨70000, 3⟩, false, [5, 2 ^ 63 + 1]⟩, ⟨⟨1, 1⟩, true, [6, 0]⟩] : List SortRec), x.iptr.Fits ∧ x.data.length = 2 ∧ ∀ a ∈ x.data, a < 2 ^ 64 := by
  refine ⟨by decide, fun x hx => ?_⟩
  simp at hx
  rcases hx with rfl | rfl <;> refine ⟨by decide, rfl, by decide⟩

end Rum.Props.TapeBytes

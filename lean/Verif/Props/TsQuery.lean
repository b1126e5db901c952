import Verif.TsQueryLemmas
/- Property theorems C25 and C26: full-text search through the index. -/
set_option linter.unusedSectionVars false
namespace Rum.Props
open Rum Rum.Pos Rum.Ts

variable {O : Type}

private theorem weightMask_bit (ps : List Nat) (i : Nat) :
    (weightMask ps).testBit i = true ↔ ∃ x ∈ ps, wepWeight x = i := by
  have aux : ∀ (ps : List Nat) (m : Nat), (ps.foldl (fun m x => m ||| (1 <<< wepWeight x)) m).testBit i = true ↔
      m.testBit i = true ∨ ∃ x ∈ ps, wepWeight x = i := by
    intro ps
    induction ps with
    | nil => simp
    | cons x xs ih =>
      intro m
      rw [List.foldl_cons, ih, Nat.testBit_or, Nat.one_shiftLeft, Nat.testBit_two_pow]
      simp [or_assoc]
  unfold weightMask
  rw [aux]; simp

private theorem weightMask_and (ps : List Nat) (w : Nat) :
    weightMask ps &&& w ≠ 0 ↔ ∃ x ∈ ps, w.testBit (wepWeight x) = true := by
  constructor
  · intro h
    obtain ⟨i, hi⟩ := Nat.exists_testBit_of_ne_zero h
    rw [Nat.testBit_and, Bool.and_eq_true, weightMask_bit] at hi
    obtain ⟨⟨x, hx, rfl⟩, h2⟩ := hi
    exact ⟨x, hx, h2⟩
  · rintro ⟨x, hx, h2⟩ h
    have : (weightMask ps &&& w).testBit (wepWeight x) = true := by
      rw [Nat.testBit_and, Bool.and_eq_true, weightMask_bit]
      exact ⟨⟨x, hx, rfl⟩, h2⟩
    rw [h] at this; simp at this

/-- Meaning of the index's three-valued answer. -/
private theorem execute_sound (unk : O → Nat → Prop) (P : Nat) (doc : O → Occ) (noPos ts : Bool) (hd : DocOK P doc)
    (hn : noPos = ts) (q : Query O) : ∀ (inNeg : Bool), P + q.dist < 2 ^ 14 →
    (execute noPos (fun o w => chkPhrase ts (stored (doc o)) w) (fun o w => chkPlain ts (stored (doc o)) w) inNeg q = .yes →
      Matches unk doc q) ∧
    (execute noPos (fun o w => chkPhrase ts (stored (doc o)) w) (fun o w => chkPlain ts (stored (doc o)) w) inNeg q = .no →
      ¬ Matches unk doc q) := by
  have leaf : ∀ (o : O) (w : Nat), (chkPlain ts (stored (doc o)) w = .yes → Matches unk doc (.val o w)) ∧
      (chkPlain ts (stored (doc o)) w = .no → ¬ Matches unk doc (.val o w)) := by
    intro o w
    cases hdo : doc o with
    | absent => simp [chkPlain, stored, Matches, hdo]
    | noPos => simp [chkPlain, stored]
    | «at» ps =>
      cases ts with
      | true => simp [chkPlain, stored]
      | false =>
        have h27 := (C27_positions_roundtrip ps [] (hd o ps hdo).1).2.1
        simp only [List.append_nil] at h27
        simp only [chkPlain, stored, h27, Matches, hdo, Option.getD_some]
        by_cases hw : w = 0
        · simp [hw]
        · have hm := weightMask_and ps w
          simp only [hw, if_false, false_or, HasWeight]
          by_cases h : weightMask ps &&& w ≠ 0
          · simp [h]; simpa using hm.1 h
          · simp only [h]
            refine ⟨by simp, fun _ hex => h (hm.2 hex)⟩
  induction q with
  | val o w =>
    intro inNeg _
    simp only [execute]
    split
    · simp
    · exact leaf o w
  | not q ih =>
    intro inNeg hB
    have := ih true hB
    simp only [execute, Matches]
    split <;> simp_all
  | and l r ihl ihr =>
    intro inNeg hB
    simp only [Query.dist] at hB
    have h1 := ihl inNeg (by omega)
    have h2 := ihr inNeg (by omega)
    simp only [execute, Matches]
    split
    · simp_all
    · split <;> simp_all
  | or l r ihl ihr =>
    intro inNeg hB
    simp only [Query.dist] at hB
    have h1 := ihl inNeg (by omega)
    have h2 := ihr inNeg (by omega)
    simp only [execute, Matches]
    split
    · simp_all
    · split <;> simp_all
  | phrase d l r _ _ =>
    intro inNeg hB
    have hm := phraseExec_means P doc noPos ts hd (.phrase d l r) hB
    simp only [execute, Matches]
    split
    · next h =>
      refine ⟨by simp, fun _ hex => ?_⟩
      obtain ⟨-, -, S, hS, hp⟩ := hm.no h
      obtain ⟨y, hy, p, hp'⟩ := hex
      rw [hS] at hy; cases hy; exact hp p hp'
    · next h =>
      obtain ⟨S, hS, hp, -⟩ := hm.yes h
      exact ⟨fun _ => ⟨_, hS, hp⟩, by simp⟩
    · next h =>
      cases ts with
      | true => simp [hn]
      | false =>
        subst hn
        refine ⟨by simp, fun _ hex => ?_⟩
        obtain ⟨y, hy, -⟩ := hex
        rw [hm.maybe h ⟨rfl, rfl⟩] at hy; cases hy

private theorem execute_decided (doc : O → Occ) (hpos : ∀ o, doc o ≠ .noPos) (q : Query O) :
    ∀ (inNeg : Bool), NoWeightUnderNot inNeg q →
    execute false (fun o w => chkPhrase false (stored (doc o)) w) (fun o w => chkPlain false (stored (doc o)) w) inNeg q ≠ .maybe := by
  induction q with
  | val o w =>
    intro inNeg h
    simp only [execute]
    rw [if_neg (by grind [NoWeightUnderNot])]
    cases hdo : doc o with
    | absent => simp [chkPlain, stored]
    | noPos => exact absurd hdo (hpos o)
    | «at» ps =>
      simp only [chkPlain, stored]
      repeat' split
      all_goals simp_all
  | not q ih =>
    intro inNeg h
    have := ih true h
    simp only [execute]; split <;> simp_all
  | and l r ihl ihr =>
    intro inNeg h
    have h1 := ihl inNeg h.1
    have h2 := ihr inNeg h.2
    simp only [execute]; split
    · simp
    · split <;> simp_all
  | or l r ihl ihr =>
    intro inNeg h
    have h1 := ihl inNeg h.1
    have h2 := ihr inNeg h.2
    simp only [execute]; split
    · simp
    · split <;> simp_all
  | phrase d l r _ _ =>
    intro inNeg h
    simp only [execute]; split <;> simp

/-- **C25 (never wrong).** For every query (any nesting, distances, weights) and every document whose positions plus the
query's total distance stay within the 14-bit position range: if the index rejects the row, the document does not
match; if it accepts without asking for a recheck, the document matches. -/
theorem C25_search_agrees (unk : O → Nat → Prop) (P : Nat) (doc : O → Occ) (q : Query O) (hd : DocOK P doc)
    (hB : P + q.dist < 2 ^ 14) :
    (Matches unk doc q → (tsConsistent (fun o => stored (doc o)) q).1 = true) ∧
    (tsConsistent (fun o => stored (doc o)) q = (true, false) → Matches unk doc q) := by
  have h := execute_sound unk P doc false false hd rfl q false hB
  unfold tsConsistent finish
  constructor
  · intro hm
    simp only [ne_eq, decide_eq_true_eq]
    exact fun hno => h.2 hno hm
  · intro he
    simp only [ne_eq, Prod.mk.injEq, decide_eq_true_eq, decide_eq_false_iff_not] at he
    rcases tv_cases (execute false (fun o w => chkPhrase false (stored (doc o)) w)
      (fun o w => chkPlain false (stored (doc o)) w) false q) with h' | h' | h'
    · exact absurd h' he.1
    · exact h.1 h'
    · exact absurd h' he.2

/-- **C25 (recheck only when needed).** If every word of the document has positions and no partial weight restriction
lies under a NOT, the index decides alone, and exactly. -/
theorem C25_search_exact (unk : O → Nat → Prop) (P : Nat) (doc : O → Occ) (q : Query O) (hd : DocOK P doc)
    (hB : P + q.dist < 2 ^ 14) (hpos : ∀ o, doc o ≠ .noPos) (hw : NoWeightUnderNot false q) :
    (tsConsistent (fun o => stored (doc o)) q).2 = false ∧
    ((tsConsistent (fun o => stored (doc o)) q).1 = true ↔ Matches unk doc q) := by
  have hdec : (tsConsistent (fun o => stored (doc o)) q).2 = false := by
    simp only [tsConsistent, finish, decide_eq_false_iff_not]
    exact execute_decided doc hpos q false hw
  have h := C25_search_agrees unk P doc q hd hB
  exact ⟨hdec, fun ht => h.2 (Prod.ext ht hdec), h.1⟩

/-- **C25 (attached timestamp instead of positions).** The same soundness when the index stores another value in place
of the positions. -/
theorem C25_timestamp_search_agrees (unk : O → Nat → Prop) (P : Nat) (doc : O → Occ) (q : Query O) (hd : DocOK P doc)
    (hB : P + q.dist < 2 ^ 14) :
    (Matches unk doc q → (tsTimestampConsistent (fun o => stored (doc o)) q).1 = true) ∧
    (tsTimestampConsistent (fun o => stored (doc o)) q = (true, false) → Matches unk doc q) := by
  have h := execute_sound unk P doc true true hd rfl q false hB
  unfold tsTimestampConsistent finish
  constructor
  · intro hm
    simp only [ne_eq, decide_eq_true_eq]
    exact fun hno => h.2 hno hm
  · intro he
    simp only [ne_eq, Prod.mk.injEq, decide_eq_true_eq, decide_eq_false_iff_not] at he
    rcases tv_cases (execute true (fun o w => chkPhrase true (stored (doc o)) w)
      (fun o w => chkPlain true (stored (doc o)) w) false q) with h' | h' | h'
    · exact absurd h' he.1
    · exact h.1 h'
    · exact absurd h' he.2

/-- A document `a:1A b:3 c:4` for the examples. -/
def exDoc : Nat → Occ
  | 0 => .at [0xC001]
  | 1 => .at [3]
  | 2 => .at [4]
  | _ => .absent

theorem exDoc_ok : DocOK 4 exDoc := by
  intro o ps h
  match o with
  | 0 | 1 | 2 => cases h; exact ⟨⟨by decide, by decide⟩, by decide⟩
  | n + 3 => cases h

-- non-vacuity: `a:A <2> (b <-> c)`-like query with NOT, all hypotheses hold
example : DocOK 4 exDoc ∧ (∀ o, exDoc o ≠ .noPos) ∧
    NoWeightUnderNot false (.and (.phrase 2 (.val 0 8) (.phrase 1 (.val 1 0) (.val 2 0))) (.not (.val 7 0)) : Query Nat) ∧
    4 + (.and (.phrase 2 (.val 0 8) (.phrase 1 (.val 1 0) (.val 2 0))) (.not (.val 7 0)) : Query Nat).dist < 2 ^ 14 := by
  refine ⟨exDoc_ok, ?_, by simp [NoWeightUnderNot], by simp [Query.dist]⟩
  intro o h
  match o with
  | 0 | 1 | 2 => cases h
  | n + 3 => cases h

/-! ### C26 -/

private theorem prePhrase_ne_no (q : Query O) : prePhrase q ≠ .no := by
  induction q with
  | val => simp [prePhrase]
  | not => simp [prePhrase]
  | phrase d l r hl hr => simp only [prePhrase]; simp [hl, hr]; split <;> simp
  | and l r hl hr => simp only [prePhrase]; simp [hl, hr]; split <;> simp
  | or l r hl hr => simp only [prePhrase]; simp [hl]; split <;> simp

/-- **C26.** If the pre-check, told which words may be present, rejects the query, then no document all of whose present
words are among them matches it. -/
theorem C26_prefilter_never_loses (unk : O → Nat → Prop) (check : O → Bool) (doc : O → Occ) (q : Query O)
    (hc : ∀ o, doc o ≠ .absent → check o = true) (hno : preConsistent check q = false) : ¬ Matches unk doc q := by
  have aux : ∀ (q : Query O) (rc : Bool), (preExec check rc q).1 = .no → ¬ Matches unk doc q := by
    intro q
    induction q with
    | val o w =>
      intro rc h
      simp only [preExec] at h
      split at h
      · cases h
      · split at h
        · cases h
        · next hck =>
          have : doc o = .absent := by
            by_cases h' : doc o = .absent
            · exact h'
            · exact absurd (hc o h') hck
          simp [Matches, this]
    | not q ih => intro rc h; simp [preExec] at h
    | and l r hl hr =>
      intro rc h
      simp only [preExec] at h
      simp only [Matches]
      split at h
      · next h1 => exact fun hm => hl rc h1 hm.1
      · next h1 =>
        simp only at h
        split at h
        · next h2 => exact fun hm => hr _ h2 hm.2
        · exact absurd h h1
        · cases h
    | or l r hl hr =>
      intro rc h
      simp only [preExec] at h
      simp only [Matches]
      split at h
      · cases h
      · next h1 =>
        simp only at h
        split at h
        · next h2 => exact fun hm => hm.elim (hl rc h) (hr _ h2)
        · cases h
        · cases h
    | phrase d l r _ _ => intro rc h; exact absurd h (prePhrase_ne_no _)
  apply aux q false
  simpa [preConsistent] using hno

-- non-vacuity: with only word 0 possible, `0 & (1 | 2)` is rejected, and the document with only word 0 is covered
example : preConsistent (fun o => o == 0) (.and (.val 0 0) (.or (.val 1 0) (.val 2 0)) : Query Nat) = false := by decide
-- ... while a query the document may match is not rejected
example : preConsistent (fun o => o == 0) (.and (.val 0 0) (.or (.val 1 0) (.not (.val 2 0))) : Query Nat) = true := by decide

end Rum.Props

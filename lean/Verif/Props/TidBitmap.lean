import Verif.TidBitmapLemmas

/-!
# C39 — testing a row pointer against a bitmap

`History t rows pages exact` says: `t` is a bitmap some sequence of API calls
(`rum_tbm_create`, `rum_tbm_add_tuples`, `rum_tbm_add_page`, `rum_tbm_union`,
`rum_tbm_intersect`) can produce, whatever the memory limit (the limit only decides when and which
pages become lossy, and both are left open); `rows` is the set of rows
those calls ask for, `pages` the set of heap pages they mention, and `exact` says that no
intersection in the history had a lossy page in its second operand.
-/

namespace Rum.Props.TidBitmap
open Rum.TidBitmap

/-- Everything the bitmap API can do, and what it means for the set of rows. -/
inductive History : Tbm → (Nat → Nat → Prop) → (Nat → Prop) → Prop → Prop
  | create : History create (fun _ _ => False) (fun _ => False) True
  | addTuples {t t' : Tbm} {rows pages ex} (rc : Bool)
      (new : List ((Nat × Nat) × Option (List Nat))) :
      History t rows pages ex → addTuples t new rc = some t' →
      History t' (fun q o => rows q o ∨ (q, o) ∈ new.map (·.1))
        (fun q => pages q ∨ q ∈ new.map (·.1.1)) ex
  | addPage {t : Tbm} {rows pages ex} (p : Nat) (d : Option (List Nat)) :
      History t rows pages ex →
      History (addPage t p d) (fun q o => rows q o ∨ q = p) (fun q => pages q ∨ q = p) ex
  | union {a b : Tbm} {rows pages ex rows' pages' ex'}
      (order : List (Entry × Option (List Nat))) :
      History a rows pages ex → History b rows' pages' ex' →
      (order.map (·.1)).Perm b.tab →
      History (union a b order) (fun q o => rows q o ∨ rows' q o)
        (fun q => pages q ∨ pages' q) (ex ∧ ex')
  | intersect {a b : Tbm} {rows pages ex rows' pages' ex'} :
      History a rows pages ex → History b rows' pages' ex' →
      History (intersect a b) (fun q o => rows q o ∧ rows' q o)
        (fun q => pages q ∧ pages' q)
        (ex ∧ ex' ∧ ∀ q off, (containsTid b q off).2 = false)

/-- Offsets heap rows can have: 1 .. MaxHeapTuplesPerPage. -/
def RowOffset (off : Nat) : Prop := 1 ≤ off ∧ off ≤ 291

theorem history_ref {t rows pages ex} (h : History t rows pages ex) :
    ∃ X, Ref t rows pages X ∧ (ex → ∀ q o, X q o → rows q o) := by
  induction h with
  | create => exact ⟨_, ref_create, fun _ _ _ h => h⟩
  | addTuples rc new _ he ih =>
    obtain ⟨X, hr, hx⟩ := ih
    refine ⟨_, ref_addTuplesLoop new hr (cache := none) trivial he, ?_⟩
    rintro hex q o (h | h)
    · exact Or.inl (hx hex q o h)
    · exact Or.inr h
  | addPage p d _ ih =>
    obtain ⟨X, hr, hx⟩ := ih
    exact ⟨X, ref_maybeLossify (ref_mark hr p) d, fun hex q o h => Or.inl (hx hex q o h)⟩
  | union order _ _ hp ih1 ih2 =>
    obtain ⟨X, hr, hx⟩ := ih1
    obtain ⟨Y, hr', hy⟩ := ih2
    refine ⟨_, ref_union hr hr' order hp, ?_⟩
    rintro ⟨h1, h2⟩ q o (h | h)
    · exact Or.inl (hx h1 q o h)
    · exact Or.inr (hy h2 q o h)
  | intersect _ _ ih1 ih2 =>
    obtain ⟨X, hr, hx⟩ := ih1
    obtain ⟨Y, hr', hy⟩ := ih2
    refine ⟨_, ref_intersect hr hr', ?_⟩
    rintro ⟨h1, h2, h3⟩ q o ⟨hX, hY | hY⟩
    · exact ⟨hx h1 q o hX, hy h2 q o hY⟩
    · have := h3 q o
      unfold containsTid at this
      rw [if_pos hY] at this
      cases this

/-- **C39, no row is lost.** Whatever was added, united and intersected and however little memory
there was, a row the calls ask for is reported as contained. -/
theorem C39_never_misses {t rows pages ex} (h : History t rows pages ex) (q off : Nat)
    (ho : RowOffset off) (hr : rows q off) : (containsTid t q off).1 = true := by
  obtain ⟨X, hf, _⟩ := history_ref h
  exact (containsTid_iff t q off).mpr (hf.complete q off ho hr)

/-- **C39, answers that ask for a recheck** concern only pages the calls mentioned, and then
hold for every row of the page. -/
theorem C39_lossy {t rows pages ex} (h : History t rows pages ex) (q off : Nat)
    (hr : (containsTid t q off).2 = true) :
    pages q ∧ ∀ off', containsTid t q off' = (true, true) := by
  obtain ⟨X, hf, _⟩ := history_ref h
  unfold containsTid at hr
  by_cases hl : pageIsLossy t q = true
  · refine ⟨hf.pages q (Or.inl hl), fun off' => ?_⟩
    unfold containsTid; rw [if_pos hl]
  · rw [if_neg hl] at hr
    split at hr <;> cases hr

/-- **C39, a row on a page never mentioned is never contained.** -/
theorem C39_foreign_page {t rows pages ex} (h : History t rows pages ex) (q off : Nat)
    (hq : ¬ pages q) : containsTid t q off = (false, false) := by
  obtain ⟨X, hf, _⟩ := history_ref h
  unfold containsTid
  rw [if_neg (fun hl => hq (hf.pages q (Or.inl hl)))]
  cases hfd : findPageentry t q with
  | none => rfl
  | some e => exact absurd (hf.pages q (Or.inr (by rw [hfd]; rfl))) hq

/-- **C39, answers without recheck are exact** — for histories in which no intersection had a
lossy page in its second operand.  Partial: for the others see `C39_recheck_violated`. -/
theorem C39_exact_partial {t rows pages ex} (h : History t rows pages ex) (hex : ex) (q off : Nat)
    (ho : RowOffset off) (hn : (containsTid t q off).2 = false) :
    (containsTid t q off).1 = true ↔ rows q off := by
  refine ⟨fun hc => ?_, C39_never_misses h q off ho⟩
  obtain ⟨X, hf, hx⟩ := history_ref h
  apply hx hex
  unfold containsTid at hc hn
  by_cases hl : pageIsLossy t q = true
  · rw [if_pos hl] at hn; cases hn
  · rw [if_neg hl] at hc
    cases hfd : findPageentry t q with
    | none => rw [hfd] at hc; cases hc
    | some e =>
      rw [hfd] at hc
      exact hf.exact q off e ho hfd hc

/-- An empty bitmap contains nothing, and `tbm_is_empty` tells the truth about the rows:
a bitmap reported empty was asked for no (valid) row. -/
theorem C39_is_empty {t rows pages ex} (h : History t rows pages ex) (he : isEmpty t = true) :
    ∀ q off, RowOffset off → ¬ rows q off := by
  intro q off ho hr
  obtain ⟨X, hf, _⟩ := history_ref h
  have h0 : t.tab = [] := by
    unfold isEmpty at he
    have : t.nentries = 0 := by simpa using he
    rw [hf.wf.nentries, List.length_eq_zero_iff] at this; exact this
  obtain ⟨e, hx, _⟩ := (sees_iff_entry hf.wf q off).mp (hf.complete q off ho hr)
  rw [h0] at hx; cases hx

/-! ## Concrete histories -/

/-- Rows (5,1) and (5,2), exact. -/
def bmA : Tbm := (addTuples create [((5, 1), none), ((5, 2), none)] false).getD create

/-- Row (5,2) on a page that the memory limit turned lossy. -/
def bmB : Tbm := (addTuples create [((5, 2), some [5])] false).getD create

theorem bmA_history : History bmA (fun q o => False ∨ (q, o) ∈ [(5, 1), (5, 2)])
    (fun q => False ∨ q ∈ [5, 5]) True :=
  History.addTuples false [((5, 1), none), ((5, 2), none)] .create (by rfl)

theorem bmB_history : History bmB (fun q o => False ∨ (q, o) ∈ [(5, 2)])
    (fun q => False ∨ q ∈ [5]) True :=
  History.addTuples false [((5, 2), some [5])] .create (by rfl)

/-- The hypotheses of the theorems above are met: row (5,2) in `bmA` is exact ... -/
theorem bmA_witness : containsTid bmA 5 2 = (true, false) ∧ containsTid bmA 5 3 = (false, false) ∧
    RowOffset 2 := by
  refine ⟨by decide +kernel, by decide +kernel, by unfold RowOffset; decide⟩

/-- ... and page 5 in `bmB` is lossy. -/
theorem bmB_witness : containsTid bmB 5 3 = (true, true) ∧ isEmpty bmB = false := by
  refine ⟨by decide +kernel, by decide +kernel⟩

/-- **C39 fails for intersections with a lossy page.** `tbm_intersect` keeps row (5,1) of the first
operand, because page 5 of the second one is lossy, and marks the page "recheck"
(`tidbitmap17.c:641`); `rum_tbm_contains_tid` never looks at that mark, so it reports (5,1) as
contained *without* recheck although it is not in the intersection. -/
theorem C39_recheck_violated :
    ∃ (t : Tbm) (rows : Nat → Nat → Prop) (pages : Nat → Prop) (ex : Prop),
      History t rows pages ex ∧ RowOffset 1 ∧ containsTid t 5 1 = (true, false) ∧ ¬ rows 5 1 := by
  refine ⟨intersect bmA bmB, _, _, _, History.intersect bmA_history bmB_history,
    by unfold RowOffset; decide, by decide +kernel, ?_⟩
  intro h
  simp at h

/-- The same gap for rows added with `recheck = true`: the mark is stored and never reported. -/
theorem C39_added_recheck_violated :
    ∃ t, addTuples create [((5, 1), none)] true = some t ∧
      (∃ e, findPageentry t 5 = some e ∧ e.recheck = true) ∧ containsTid t 5 1 = (true, false) :=
  ⟨(addTuples create [((5, 1), none)] true).getD create, by rfl, ⟨_, by rfl, by decide +kernel⟩, by decide +kernel⟩

end Rum.Props.TidBitmap

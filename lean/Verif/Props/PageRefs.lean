import Verif.PageRefs
import Verif.Props.Codec
/-!
# C81: additional information of prefix, range and whole-index searches
-/
namespace Rum.Props.PageRefs
open Rum Rum.Codec

theorem alignUp_idem (a x : Nat) : alignUp a (alignUp a x) = alignUp a x := by
  unfold alignUp
  rcases Nat.eq_zero_or_pos a with rfl | h
  · simp
  · have : ((x + a - 1) / a * a + a - 1) / a = (x + a - 1) / a := by
      rw [show (x + a - 1) / a * a + a - 1 = (a - 1) + (x + a - 1) / a * a by omega, Nat.add_mul_div_right _ _ h, Nat.div_eq_of_lt (by omega), Nat.zero_add]
    rw [this]

theorem le_alignUp (a x : Nat) (h : 0 < a) : x ≤ alignUp a x := by
  unfold alignUp
  have h1 := Nat.div_add_mod (x + a - 1) a
  have h2 := Nat.mod_lt (x + a - 1) h
  rw [Nat.mul_comm] at h1
  generalize (x + a - 1) / a * a = y at h1
  omega

/-- Following the pointer in the page it was taken from gives the value. -/
theorem follow_same {a : Attr} (hal : 0 < a.align) (hb : a.byval = false) {page : List Nat} {off : Nat} {d : Datum} {r : List Nat}
    (h : readDatum a off (page.drop off) = some (d, r)) :
    readDatum a (valuePos a off (page.drop off)) (page.drop (valuePos a off (page.drop off))) = some (d, r) := by
  have hle := le_alignUp a.align off hal
  have hd : (page.drop off).drop (alignUp a.align off - off) = page.drop (alignUp a.align off) := by
    rw [List.drop_drop]; congr 1; omega
  unfold valuePos
  split
  · exact h
  · rename_i hc
    unfold readDatum at h ⊢
    rw [hb] at h ⊢
    simp only [Bool.false_eq_true, if_false] at h ⊢
    rw [alignUp_idem, Nat.sub_self, List.drop_zero]
    rw [hd] at h
    by_cases h1 : a.len = -1
    · rw [if_pos h1] at h ⊢
      cases hp : page.drop off with
      | nil => rw [hp] at h; cases h
      | cons b bs =>
        rw [hp] at h
        have hb0 : b = 0 := by
          refine Decidable.byContradiction (fun hne => ?_)
          exact hc ⟨h1, by rw [hp]; exact hne⟩
        simp only [hb0, ne_eq, not_true_eq_false, if_false] at h
        cases hq : page.drop (alignUp a.align off) with
        | nil => rw [hq] at h; simp [readVarlena] at h
        | cons b' bs' =>
          rw [hq] at h
          simp only [ite_self]
          exact h
    · rw [if_neg h1] at h ⊢
      exact h

theorem readIptr_suffix {alt : Bool} {prev p : Iptr} {isNull : Bool} {bs bs1 : List Nat} (h : readIptr alt prev bs = some (p, isNull, bs1)) : bs1 <:+ bs := by
  have hB : ∀ (l : List Nat) (i acc n : Nat) (r : List Nat), readBlk i acc l = some (n, r) → r <:+ l := by
    intro l
    induction l with
    | nil => intro i acc n r h; simp [readBlk] at h
    | cons v l ih =>
      intro i acc n r h
      simp only [readBlk] at h
      split at h
      · exact (ih _ _ _ _ h).trans (List.suffix_cons _ _)
      · simp only [Option.some.injEq, Prod.mk.injEq] at h
        rw [← h.2]; exact List.suffix_cons _ _
  have hO : ∀ (l : List Nat) (i acc n : Nat) (b : Bool) (r : List Nat), readOff i acc l = some (n, b, r) → r <:+ l := by
    intro l
    induction l with
    | nil => intro i acc n b r h; simp [readOff] at h
    | cons v l ih =>
      intro i acc n b r h
      simp only [readOff] at h
      split at h
      · exact (ih _ _ _ _ _ h).trans (List.suffix_cons _ _)
      · simp only [Option.some.injEq, Prod.mk.injEq] at h
        rw [← h.2.2]; exact List.suffix_cons _ _
  unfold readIptr at h
  split at h
  · split at h
    · cases h
    · dsimp only at h
      split at h <;>
      · simp only [Option.some.injEq, Prod.mk.injEq] at h
        rw [← h.2.2]; exact List.drop_suffix _ _
  · split at h
    · cases h
    · rename_i hb
      split at h
      · cases h
      · rename_i ho
        simp only [Option.some.injEq, Prod.mk.injEq] at h
        rw [← h.2.2]
        exact (hO _ _ _ _ _ _ ho).trans (hB _ _ _ _ _ hb)

theorem readDatum_suffix {a : Attr} {off : Nat} {bs r : List Nat} {d : Datum} (h : readDatum a off bs = some (d, r)) : r <:+ bs := by
  have hv : ∀ (l : List Nat) (d : Datum) (r : List Nat), readVarlena l = some (d, r) → r <:+ l := by
    intro l d r h
    cases l with
    | nil => cases h
    | cons b l =>
      simp only [readVarlena] at h
      repeat' split at h
      all_goals first
        | (simp only [Option.some.injEq, Prod.mk.injEq] at h
           rw [← h.2]
           exact (List.drop_suffix _ _).trans (List.suffix_cons _ _))
        | cases h
  unfold readDatum at h
  split at h
  · split at h
    · simp only [Option.some.injEq, Prod.mk.injEq] at h
      rw [← h.2]; exact List.drop_suffix _ _
    · cases h
  · split at h
    · cases bs with
      | nil => cases h
      | cons b bs =>
        simp only at h
        split at h
        · exact hv _ _ _ h
        · exact (hv _ _ _ h).trans (List.drop_suffix _ _)
    · split at h
      · simp only at h
        split at h
        · simp only [Option.some.injEq, Prod.mk.injEq] at h
          rw [← h.2]; exact (List.drop_suffix _ _).trans (List.drop_suffix _ _)
        · cases h
      · simp only at h
        split at h
        · cases h
        · simp only [Option.some.injEq, Prod.mk.injEq] at h
          rw [← h.2]; exact (List.drop_suffix _ _).trans (List.drop_suffix _ _)

theorem drop_of_suffix {page bs bs1 : List Nat} {off : Nat} (hbs : page.drop off = bs) (h : bs1 <:+ bs) : page.drop (off + (bs.length - bs1.length)) = bs1 := by
  obtain ⟨t, ht⟩ := h
  rw [← List.drop_drop, hbs, ← ht]
  simp

/-- One item: the same pointer as with a copy; the pointer leads to the value. -/
theorem readRef_ok {c : Cfg} (hal : ∀ a, c.attr = some a → 0 < a.align) {page : List Nat} {off : Nat} {prev : Iptr} {it : Item Datum} {r : List Nat}
    (h : readItem c off prev (page.drop off) = some (it, r)) :
    ∃ l, readRef c off prev (page.drop off) = some ((it.iptr, l), r) ∧ follow c page l = some it.info ∧ page.drop (off + ((page.drop off).length - r.length)) = r ∧
      ((∀ a, c.attr = some a → a.byval = true) → ∀ page', follow c page' l = some it.info) := by
  unfold readItem at h
  unfold readRef
  split at h
  · cases h
  · rename_i p isNull bs1 hp
    have hs := readIptr_suffix hp
    have hd := drop_of_suffix (off := off) rfl hs
    rw [hp]
    simp only
    split at h
    · rename_i hn
      simp only [Option.some.injEq, Prod.mk.injEq] at h
      obtain ⟨rfl, rfl⟩ := h
      rw [if_pos hn]
      exact ⟨none, rfl, rfl, hd, fun _ _ => rfl⟩
    · rename_i hn
      rw [if_neg hn]
      cases ha : c.attr with
      | none => rw [ha] at h; cases h
      | some a =>
        rw [ha] at h
        simp only at h
        split at h
        · cases h
        · rename_i d bs2 hr
          simp only [Option.some.injEq, Prod.mk.injEq] at h
          obtain ⟨rfl, rfl⟩ := h
          simp only [hr]
          refine ⟨_, rfl, ?_, drop_of_suffix rfl ((readDatum_suffix hr).trans hs), ?_⟩
          · cases hb : a.byval with
            | true => simp [follow]
            | false =>
              simp only [Bool.false_eq_true, if_false, follow, ha]
              have hr' : readDatum a (off + ((page.drop off).length - bs1.length)) (page.drop (off + ((page.drop off).length - bs1.length))) = some (d, bs2) := by
                rw [hd]; exact hr
              have := follow_same (hal a ha) hb hr'
              rw [hd] at this
              rw [this]; rfl
          · intro hbv page'
            rw [hbv a rfl]
            rfl

theorem readRefs_ok {c : Cfg} (hal : ∀ a, c.attr = some a → 0 < a.align) {page : List Nat} : ∀ (n off : Nat) (prev : Iptr) (its : List (Item Datum)) (r : List Nat),
    readList c off prev n (page.drop off) = some (its, r) →
    ∃ refs, readRefs c off prev n (page.drop off) = some refs ∧ refs.map (fun x => (x.1, follow c page x.2)) = its.map (fun it => (it.iptr, some it.info)) ∧
      ((∀ a, c.attr = some a → a.byval = true) → ∀ page', refs.map (fun x => (x.1, follow c page' x.2)) = its.map (fun it => (it.iptr, some it.info))) := by
  intro n
  induction n with
  | zero =>
    intro off prev its r h
    simp only [readList, Option.some.injEq, Prod.mk.injEq] at h
    rw [← h.1]
    exact ⟨[], rfl, rfl, fun _ _ => rfl⟩
  | succ n ih =>
    intro off prev its r h
    simp only [readList] at h
    split at h
    · cases h
    · rename_i it bs1 hi
      split at h
      · cases h
      · rename_i its' bs2 hl
        simp only [Option.some.injEq, Prod.mk.injEq] at h
        obtain ⟨rfl, rfl⟩ := h
        obtain ⟨l, h1, h2, h3, h4⟩ := readRef_ok hal hi
        have hl' : readList c (off + ((page.drop off).length - bs1.length)) it.iptr n (page.drop (off + ((page.drop off).length - bs1.length))) = some (its', bs2) := by
          rw [h3]; exact hl
        obtain ⟨refs, i1, i2, i3⟩ := ih _ _ _ _ hl'
        rw [h3] at i1
        refine ⟨(it.iptr, l) :: refs, ?_, ?_, fun hb page' => ?_⟩
        · simp only [readRefs, h1, i1, Option.map_some]
        · simp only [List.map_cons, h2, i2]
        · simp only [List.map_cons, h4 hb page', i3 hb page']

/-- **C81, as far as it holds.** A posting list of any items on a page, read without copies: if the operator class looks at the items while the page is as it was, it sees
for every row the additional information stored with it; if the additional information is passed by value, whatever has become of the page. -/
theorem C81_page_unchanged_partial {c : Cfg} (hal : ∀ a, c.attr = some a → 0 < a.align) (hdr : List Nat) (its : List (Item Datum)) (hok : ∀ it ∈ its, ItemOK c it) :
    ∃ bs, placeList c hdr.length ⟨0, 0⟩ its = some bs ∧ ∀ rest, ∃ refs, readRefs c hdr.length ⟨0, 0⟩ its.length (bs ++ rest) = some refs ∧
      refs.map (fun x => (x.1, follow c (hdr ++ (bs ++ rest)) x.2)) = its.map (fun it => (it.iptr, some (it.stored c).info)) ∧
      ((∀ a, c.attr = some a → a.byval = true) → ∀ page', refs.map (fun x => (x.1, follow c page' x.2)) = its.map (fun it => (it.iptr, some (it.stored c).info))) := by
  obtain ⟨bs, h1, -, h2⟩ := Rum.Props.C02_posting_list_roundtrip c hdr.length ⟨0, 0⟩ its (by decide) hok
  refine ⟨bs, h1, fun rest => ?_⟩
  have hd : (hdr ++ (bs ++ rest)).drop hdr.length = bs ++ rest := by simp
  obtain ⟨refs, i1, i2, i3⟩ := readRefs_ok hal (page := hdr ++ (bs ++ rest)) its.length hdr.length ⟨0, 0⟩ (its.map (Item.stored c)) rest (by rw [hd]; exact h2 rest)
  rw [hd] at i1
  have hi : ∀ it : Item Datum, (it.stored c).iptr = it.iptr := fun it => (Rum.Props.C02_stored_same_value c it).1
  simp only [List.map_map, Function.comp_def, hi] at i2 i3
  exact ⟨refs, i1, i2, i3⟩

/-- Positions of words: a varlena. -/
def exC : Cfg := ⟨false, some ⟨false, -1, 4, false⟩⟩
def exRows : List (Item Datum) := [⟨⟨0, 1⟩, some (.varlena .full [5])⟩, ⟨⟨0, 3⟩, some (.varlena .full [9])⟩]
def exRows' : List (Item Datum) := [⟨⟨0, 1⟩, some (.varlena .full [5])⟩, ⟨⟨0, 2⟩, some (.varlena .full [7])⟩, ⟨⟨0, 3⟩, some (.varlena .full [9])⟩]

theorem exRows_ok : (∀ it ∈ exRows, ItemOK exC it) ∧ ∀ it ∈ exRows', ItemOK exC it := by
  have h : ∀ it ∈ exRows', ItemOK exC it := by
    intro it h
    simp [exRows'] at h
    rcases h with h | h | h <;> subst h <;> simp [ItemOK, Iptr.Fits, Datum.Typed, exC]
  refine ⟨fun it hi => h it ?_, h⟩
  simp [exRows, exRows'] at hi ⊢
  rcases hi with hi | hi <;> simp [hi]

/-- The claim is false of the code: a page with the rows (0,1) and (0,3) is read by a prefix search; then another backend inserts the row (0,2) into the page; for the row
(0,3) the search now finds the positions of (0,2). -/
theorem C81_page_changed_violated : ∃ bs bs' refs, placeList exC 0 ⟨0, 0⟩ exRows = some bs ∧ placeList exC 0 ⟨0, 0⟩ exRows' = some bs' ∧
    readRefs exC 0 ⟨0, 0⟩ 2 bs = some refs ∧
    refs.map (fun x => (x.1, follow exC bs x.2)) = [(⟨0, 1⟩, some (some (.varlena .short [5]))), (⟨0, 3⟩, some (some (.varlena .short [9])))] ∧
    refs.map (fun x => (x.1, follow exC bs' x.2)) = [(⟨0, 1⟩, some (some (.varlena .short [5]))), (⟨0, 3⟩, some (some (.varlena .short [7])))] := by
  refine ⟨[0, 1, 5, 5, 0, 3, 5, 9], [0, 1, 5, 5, 0, 2, 5, 7, 0, 3, 5, 9], [(⟨0, 1⟩, some (.at 2)), (⟨0, 3⟩, some (.at 6))], ?_, ?_, ?_, ?_, ?_⟩
  · simp [placeList, placeItem, writeIptr, writeBlk, writeOff, writeDatum, exC, exRows, packable, canMakeShort, shortHdr]
  · simp [placeList, placeItem, writeIptr, writeBlk, writeOff, writeDatum, exC, exRows', packable, canMakeShort, shortHdr]
  · decide +kernel
  · decide +kernel
  · decide +kernel

end Rum.Props.PageRefs

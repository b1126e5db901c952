import Verif.VacuumListLemmas
/-
Property theorems C01, C02, C13 and the posting-list part of C12.
The vocabulary (`Iptr.Fits`, `ItemOK`, `Datum.Typed`, `Datum.stored`, `Datum.SameValue`) is in
Verif/Basic.lean and the last section of Verif/Codec.lean.
-/
namespace Rum.Props
open Rum Rum.Codec

/-- **C01.** Any row pointer that fits the field widths, written after any other row pointer, is read
back exactly, with its NULL flag, whatever bytes follow, and exactly the bytes written are consumed; every
byte is a byte; the space computed beforehand is the space used.  In the alternative order the top bit of the
offset holds the NULL flag, so offsets there must be below 0x8000 (heap offsets are at most 2048 or so). -/
theorem C01_item_pointer_roundtrip (alt : Bool) (p prev : Iptr) (isNull : Bool) (rest : List Nat)
    (hp : p.Fits) (hprev : prev.Fits) (halt : alt = true → p.off < 0x8000) :
    readIptr alt prev (writeIptr alt p prev isNull ++ rest) = some (p, isNull, rest) ∧
    (∀ b ∈ writeIptr alt p prev isNull, b < 256) ∧
    (writeIptr alt p prev isNull).length = sizeIptr alt p prev :=
  ⟨readIptr_writeIptr alt p prev isNull rest hp hprev halt, writeIptr_bytes alt p prev isNull,
   writeIptr_length alt p prev isNull⟩

-- non-vacuity: the largest block, a predecessor far away, an offset needing two bytes
example : (⟨2 ^ 32 - 2, 291⟩ : Iptr).Fits ∧ (⟨5, 7⟩ : Iptr).Fits ∧ (291 < 0x8000) := by decide
example : writeIptr false ⟨300, 65⟩ ⟨5, 7⟩ true = [0xA7, 0x02, 0xC1, 0x40] := by
  simp [writeIptr, writeBlk, writeOff]

/-- Distinct (pointer, flag) pairs have distinct encodings, and no encoding is a prefix of another one
(after the same predecessor), so a posting list can be cut into items unambiguously. -/
theorem C01_prefix_free (alt : Bool) (p q prev : Iptr) (n m : Bool) (r s : List Nat)
    (hp : p.Fits) (hq : q.Fits) (hprev : prev.Fits)
    (hpa : alt = true → p.off < 0x8000) (hqa : alt = true → q.off < 0x8000)
    (h : writeIptr alt p prev n ++ r = writeIptr alt q prev m ++ s) : p = q ∧ n = m ∧ r = s := by
  have h1 := readIptr_writeIptr alt p prev n r hp hprev hpa
  rw [h, readIptr_writeIptr alt q prev m s hq hprev hqa] at h1
  simp at h1
  exact ⟨h1.1.symm, h1.2.1.symm, h1.2.2.symm⟩

/-- **C02.** Any list of storable items, placed from any running offset after any previous pointer, is
written without error in exactly the space computed beforehand (`checkList` is the size accounting the
code reserves room with) and read back item by item as the same list. -/
theorem C02_posting_list_roundtrip (c : Cfg) (off : Nat) (prev : Iptr) (its : List (Item Datum))
    (hprev : prev.Fits) (hok : ∀ it ∈ its, ItemOK c it) :
    ∃ bs, placeList c off prev its = some bs ∧
      off + bs.length = checkList c prev off its ∧
      ∀ rest, readList c off prev its.length (bs ++ rest) = some (its.map (Item.stored c), rest) := by
  obtain ⟨bs, h1, h2⟩ := placeList_ok c its off prev hok
  exact ⟨bs, h1, h2, fun rest => readList_placeList c its off prev bs rest hok hprev h1⟩

/-- **C02**, values: the stored form of a datum denotes the same value (only a long varlena header may
have become a short one), and the row pointer and NULLness are untouched. -/
theorem C02_stored_same_value (c : Cfg) (it : Item Datum) :
    (it.stored c).iptr = it.iptr ∧
    match it.info, (it.stored c).info with
    | none, none => True
    | some d, some e => Datum.SameValue d e
    | _, _ => False := by
  refine ⟨rfl, ?_⟩
  obtain ⟨p, info⟩ := it
  cases info with
  | none => simp [Item.stored]
  | some d =>
    simp only [Item.stored, Option.map_some]
    have refl : ∀ e : Datum, Datum.SameValue e e := by
      intro e; cases e with
      | varlena h p => cases h <;> simp [Datum.SameValue]
      | _ => simp [Datum.SameValue]
    cases c.attr with
    | none => exact refl d
    | some a =>
      cases d with
      | varlena h p =>
        simp only [Datum.stored]
        split
        · rename_i hp
          cases h with
          | full => simp [Datum.SameValue]
          | _ => simp [canMakeShort] at hp
        · exact refl _
      | _ => exact refl _

-- non-vacuity: a varlena column (text-like, int alignment) with a short, a long and a NULL additional info
example : ∀ it ∈ ([⟨⟨1, 1⟩, some (.varlena .full [9, 8, 7])⟩, ⟨⟨1, 2⟩, none⟩,
      ⟨⟨700, 3⟩, some (.varlena .full (List.replicate 130 5))⟩] : List (Item Datum)),
    ItemOK ⟨false, some ⟨false, -1, 4, false⟩⟩ it := by
  intro it h
  simp at h
  rcases h with h | h | h <;> subst h <;> simp only [ItemOK, Iptr.Fits, Datum.Typed] <;> simp

/-- **C12**, one posting list (an index tuple's list or a leaf page): VACUUM of an encoded list keeps exactly
the items whose row is not dead, in order, re-encoded so that they read back unchanged, and reports their
number; if nothing is dead the original bytes are left alone. -/
theorem C12_vacuum_posting_list (c : Cfg) (dead : Iptr → Bool) (its : List (Item Datum)) (src : List Nat)
    (hok : ∀ it ∈ its, ItemOK c it) (hsrc : placeList c 0 ⟨0, 0⟩ its = some src) :
    let live := its.filter (fun it => !dead it.iptr)
    ∃ out, vacuumPostingList c dead src its.length = some (live.length, out) ∧
      (out = none → live = its) ∧
      (∀ bytes rest, out = some bytes →
        readList c 0 ⟨0, 0⟩ live.length (bytes ++ rest) = some (live.map (Item.stored c), rest)) := by
  intro live
  obtain ⟨s', h1, h2, h3⟩ := vacLoop_correct c dead its [] [] src ⟨0, 0, 0, ⟨0, 0⟩, ⟨0, 0⟩, none⟩
    (by simpa using hok) rfl (by simpa [lastIptr] using hsrc) rfl rfl rfl rfl rfl (Or.inl ⟨rfl, rfl⟩)
  simp only [List.nil_append] at h1 h2 h3
  refine ⟨s'.dst, by simp [vacuumPostingList, h1, h2, live], ?_, ?_⟩
  · intro hn
    rcases h3 with ⟨h4, _⟩ | ⟨_, b, h4, _⟩
    · exact surv_eq_of_length dead its h4
    · rw [hn] at h4; simp at h4
  · intro bytes rest hb
    rcases h3 with ⟨_, h4⟩ | ⟨_, b, h4, h5⟩
    · rw [h4] at hb; simp at hb
    · rw [h4] at hb
      simp only [Option.some.injEq] at hb
      subst hb
      exact readList_placeList c _ 0 _ _ rest (fun x hx => hok x ((List.mem_filter.1 hx).1)) (by decide) h5

/-- **C13.** For a posting list whose block numbers do not decrease (any sorted list in row-pointer order; any
list at all in the alternative order), the list VACUUM writes is never longer than the list it read, so it fits
the buffer of the old size. -/
theorem C13_vacuum_never_grows (c : Cfg) (dead : Iptr → Bool) (its : List (Item Datum)) (src out : List Nat)
    (n : Nat) (hok : ∀ it ∈ its, ItemOK c it)
    (hs : c.alt = false → its.Pairwise (fun a b => a.iptr.blk ≤ b.iptr.blk))
    (hsrc : placeList c 0 ⟨0, 0⟩ its = some src)
    (hv : vacuumPostingList c dead src its.length = some (n, some out)) :
    out.length ≤ src.length := by
  obtain ⟨s', h1, h2, h3⟩ := vacLoop_correct c dead its [] [] src ⟨0, 0, 0, ⟨0, 0⟩, ⟨0, 0⟩, none⟩
    (by simpa using hok) rfl (by simpa [lastIptr] using hsrc) rfl rfl rfl rfl rfl (Or.inl ⟨rfl, rfl⟩)
  simp only [List.nil_append] at h1 h2 h3
  simp only [vacuumPostingList, h1, Option.map_some, Option.some.injEq, Prod.mk.injEq] at hv
  rcases h3 with ⟨_, h4⟩ | ⟨_, b, h4, h5⟩
  · rw [h4] at hv; simp at hv
  · have hb : b = out := by rw [h4] at hv; simpa using hv.2
    subst hb
    obtain ⟨x, hx1, hx2⟩ := placeList_ok c _ 0 ⟨0, 0⟩ (fun x hx => hok x ((List.mem_filter.1 hx).1))
    obtain ⟨y, hy1, hy2⟩ := placeList_ok c its 0 ⟨0, 0⟩ hok
    rw [h5] at hx1; rw [hsrc] at hy1
    simp only [Option.some.injEq] at hx1 hy1
    subst hx1; subst hy1
    have hsorted : ∀ (l : List (Item Datum)) (k : Nat), l.Pairwise (fun a b => a.iptr.blk ≤ b.iptr.blk) →
        (∀ x ∈ l, k ≤ x.iptr.blk) → BlkSorted k l := by
      intro l
      induction l with
      | nil => intros; trivial
      | cons a l ih =>
        intro k hp hk
        rw [List.pairwise_cons] at hp
        exact ⟨hk a (by simp), ih _ hp.2 hp.1⟩
    have := checkList_filter_le c dead its ⟨0, 0⟩ ⟨0, 0⟩ 0 0 hok
      (fun h => hsorted its 0 (hs h) (fun _ _ => Nat.zero_le _)) (Or.inl (Nat.le_refl _)) (Nat.le_refl _)
      (fun _ => Or.inl rfl)
    simp only [surv] at this hx2
    omega

-- non-vacuity of C12/C13: removing the middle one of three items (8-byte by-value additional info)
example : let c : Cfg := ⟨false, some ⟨true, 8, 8, true⟩⟩
    let its : List (Item Datum) := [⟨⟨1, 1⟩, some (.byval 5)⟩, ⟨⟨2, 1⟩, none⟩, ⟨⟨400, 70⟩, some (.byval 6)⟩]
    (∀ it ∈ its, ItemOK c it) ∧ its.Pairwise (fun a b => a.iptr.blk ≤ b.iptr.blk) ∧
    (placeList c 0 ⟨0, 0⟩ its).map (·.length) = some (10 + 2 + 12) := by
  refine ⟨?_, by decide, ?_⟩
  · intro it h
    simp at h
    rcases h with h | h | h <;> subst h <;> simp [ItemOK, Iptr.Fits, Datum.Typed]
  · simp [placeList, placeItem, writeIptr, writeBlk, writeOff, writeDatum, leBytes]

end Rum.Props

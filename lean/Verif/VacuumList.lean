import Verif.Codec
/-
VACUUM of one encoded posting list (an index tuple's inline list or a posting-tree leaf page).
-/
namespace Rum.Codec

/-- State of the loop in rumVacuumPostingList, /repo/src/rumvacuum.c:66-90.
`src` is the input, `pos` the read position in it (`ptr - src`), `item` the last
pointer read, `dst` the output buffer contents once allocated. -/
structure VacState where
  pos : Nat
  i : Nat
  j : Nat
  cur : Iptr
  prevIptr : Iptr
  dst : Option (List Nat)

/-- One iteration, /repo/src/rumvacuum.c:68-89. `none`: the read fails or the code would
write through a NULL `dst`. -/
def vacStep (c : Cfg) (dead : Iptr → Bool) (src : List Nat) (s : VacState) : Option VacState :=
  match readItem c s.pos s.cur (src.drop s.pos) with
  | none => none
  | some (it, rest) =>
    let pos' := src.length - rest.length
    if dead it.iptr then
      some { s with pos := pos', i := s.i + 1, cur := it.iptr,
                    dst := match s.dst with
                      | none => some (src.take s.pos)   -- palloc(size); memcpy(dst, src, prev - src)
                      | some d => some d }
    else
      if s.i ≠ s.j then
        match s.dst with
        | none => none
        | some d =>
          match placeItem c d.length it s.prevIptr with
          | none => none
          | some b => some ⟨pos', s.i + 1, s.j + 1, it.iptr, it.iptr, some (d ++ b)⟩
      else some ⟨pos', s.i + 1, s.j + 1, it.iptr, it.iptr, s.dst⟩

/-- The `for (i = 0; i < nitem; i++)` loop. -/
def vacLoop (c : Cfg) (dead : Iptr → Bool) (src : List Nat) : Nat → VacState → Option VacState
  | 0, s => some s
  | n + 1, s =>
    match vacStep c dead src s with
    | none => none
    | some s' => vacLoop c dead src n s'

/-- rumVacuumPostingList, /repo/src/rumvacuum.c:43-96: number of surviving items and the
re-encoded list, `none` as second component when nothing was removed (`*cleaned` untouched).
Buffers start at aligned addresses, so running offsets start at 0. -/
def vacuumPostingList (c : Cfg) (dead : Iptr → Bool) (src : List Nat) (nitem : Nat) :
    Option (Nat × Option (List Nat)) :=
  (vacLoop c dead src nitem ⟨0, 0, 0, ⟨0, 0⟩, ⟨0, 0⟩, none⟩).map (fun s => (s.j, s.dst))

/-! ### Lemmas -/

theorem writeIptr_pos (alt : Bool) (p prev : Iptr) : 0 < sizeIptr alt p prev := by
  unfold sizeIptr
  cases alt
  · simp only [Bool.false_eq_true, if_false]; rw [sizeBlk]; split <;> omega
  · simp

/-- Pointer of the last item of a list, or the default. -/
def lastIptr (prev : Iptr) : List (Item Datum) → Iptr
  | [] => prev
  | it :: its => lastIptr it.iptr its

theorem lastIptr_snoc (prev : Iptr) (xs : List (Item Datum)) (y : Item Datum) :
    lastIptr prev (xs ++ [y]) = y.iptr := by
  induction xs generalizing prev with
  | nil => rfl
  | cons x xs ih => exact ih _

theorem placeList_snoc (c : Cfg) (xs : List (Item Datum)) (y : Item Datum) :
    ∀ (off : Nat) (prev : Iptr) (b1 b2 : List Nat),
    placeList c off prev xs = some b1 → placeItem c (off + b1.length) y (lastIptr prev xs) = some b2 →
    placeList c off prev (xs ++ [y]) = some (b1 ++ b2) := by
  induction xs with
  | nil =>
    intro off prev b1 b2 h1 h2
    simp [placeList] at h1; subst h1
    simp only [List.length_nil, Nat.add_zero, lastIptr] at h2
    simp [placeList, h2]
  | cons x xs ih =>
    intro off prev b1 b2 h1 h2
    simp only [placeList] at h1
    cases hb : placeItem c off x prev with
    | none => simp [hb] at h1
    | some b =>
      simp only [hb] at h1
      cases hb' : placeList c (off + b.length) x.iptr xs with
      | none => simp [hb'] at h1
      | some bs =>
        simp only [hb', Option.some.injEq] at h1
        subst h1
        have := ih (off + b.length) x.iptr bs b2 hb' (by
          simp only [lastIptr, List.length_append] at h2
          rw [Nat.add_assoc]; exact h2)
        simp [placeList, hb, this, List.append_assoc]

end Rum.Codec

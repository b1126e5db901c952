import Verif.Positions
/- Property theorems C27 and C28: word positions stored in the index. -/
namespace Rum.Props
open Rum Rum.Pos

/-- **C27.** Every position list (any length, positions up to 16383, any weights) followed by any bytes reads back
unchanged; the number of positions is recovered from the bytes alone; the bytes fit the buffer of
`2 * npos * sizeof(WordEntryPos)` bytes allocated for them. -/
theorem C27_positions_roundtrip (ps : List Nat) (rest : List Nat) (h : PosList ps) :
    countPos (compressPos 0 ps) = ps.length ∧
    decompressN (countPos (compressPos 0 ps)) 0 (compressPos 0 ps ++ rest) = some (ps, rest) ∧
    (compressPos 0 ps).length ≤ 2 * ps.length * 2 := by
  have hs : ps.Pairwise (fun a b => wepPos a ≤ wepPos b) := h.2.imp (fun h => Nat.le_of_lt h)
  have h0 : ∀ p ∈ ps, wepPos 0 ≤ wepPos p := fun p _ => Nat.zero_le _
  have hc := countPos_compress ps 0 h.1
  refine ⟨hc, ?_, ?_⟩
  · rw [hc]; exact decompress_compress ps 0 rest (by decide) h.1 h0 hs
  · have := compress_length ps 0 h0 hs; omega

/-- **C28.** Joining two stored non-empty position lists stores the sorted union: a position list again, containing
every entry of the first list, and exactly those entries of the second whose position is not in the first. -/
theorem C28_join_is_union (p1 p2 : List Nat) (h1 : PosList p1) (h2 : PosList p2) (n1 : p1 ≠ []) (n2 : p2 ≠ []) :
    ∃ p, joinPos (compressPos 0 p1) (compressPos 0 p2) = some (compressPos 0 p) ∧ PosList p ∧
      decompressN p.length 0 (compressPos 0 p) = some (p, []) ∧
      ∀ x, x ∈ p ↔ x ∈ p1 ∨ (x ∈ p2 ∧ ∀ y ∈ p1, wepPos y ≠ wepPos x) := by
  have c1 := C27_positions_roundtrip p1 [] h1
  have c2 := C27_positions_roundtrip p2 [] h2
  simp only [List.append_nil] at c1 c2
  have hm := joinLoop_mem p1 p2 h1.2 h2.2
  have hs := joinLoop_sorted p1 p2 h1.2 h2.2
  have hp : PosList (joinLoop p1 p2) := by
    refine ⟨?_, hs⟩
    intro x hx
    rcases (hm x).1 hx with h | h
    · exact h1.1 x h
    · exact h2.1 x h.1
  have c3 := C27_positions_roundtrip _ [] hp
  simp only [List.append_nil] at c3
  refine ⟨joinLoop p1 p2, ?_, hp, ?_, hm⟩
  · unfold joinPos
    have l1 : p1.length ≠ 0 := by simpa using n1
    have l2 : p2.length ≠ 0 := by simpa using n2
    rw [if_neg (by rw [c1.1, c2.1]; omega), c1.2.1, c2.2.1]
  · have := c3.2.1; rwa [c3.1] at this

-- non-vacuity: three positions with different weights, one needing three bytes
example : PosList [5, 0x4000 + 300, 0xC000 + 16383] ∧ PosList [0x8000 + 5, 7] := by
  constructor <;> (constructor <;> decide)

end Rum.Props

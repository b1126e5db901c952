/-
Basic types shared by all parts of the model.
-/
namespace Rum

/-- Heap row pointer. Models PostgreSQL `ItemPointerData` as used by rum
(`ip_blkid` read as one 32-bit number, `ip_posid` as a 16-bit number);
used throughout /repo/src/rum.h:913-966 and /repo/src/rumdatapage.c:168-222. -/
structure Iptr where
  blk : Nat
  off : Nat
deriving DecidableEq, Repr, Inhabited

/-- An index item: row pointer and additional information, `none` when
`addInfoIsNull`.  Models `RumItem`, /repo/src/rum.h:171-176. -/
structure Item (V : Type) where
  iptr : Iptr
  info : Option V
deriving DecidableEq, Repr, Inhabited

/-- A row pointer that fits the on-disk field widths (32-bit block number,
16-bit offset number). -/
def Iptr.Fits (p : Iptr) : Prop := p.blk < 2 ^ 32 ∧ p.off < 2 ^ 16

instance (p : Iptr) : Decidable p.Fits := by unfold Iptr.Fits; infer_instance

end Rum

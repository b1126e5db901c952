import Verif.Props.FullText
import Mathlib.Data.Fintype.Pigeonhole
/-!
# C52: hashed words
-/
namespace Rum.Props.FullText

/-- **C52.** Whatever the hash function, there are words for which this happens. -/
theorem C52_hash_collides (hash : List Nat → Fin (2 ^ 32)) : ∃ x y, x ≠ y ∧ hash x = hash y :=
  Finite.exists_ne_map_eq_of_infinite hash

end Rum.Props.FullText

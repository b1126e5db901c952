import Verif.Scan
/-!
# Specification vocabulary for scans

A row is identified by its row pointer. What a scan has to return is said in terms of the stored items only.
-/
namespace Rum.Scan
variable {V : Type}

/-- For each entry of the key: does it hold the row, and with which additional info. -/
def KeySpec.held (k : KeySpec V) (tid : Iptr) : List (Option (Option V)) :=
  k.streams.map (fun st => (st.find? (fun x => x.iptr == tid)).map (·.info))

/-- Some entry of the key holds the row. -/
def KeySpec.Holds (k : KeySpec V) (tid : Iptr) : Prop := ∃ st ∈ k.streams, ∃ x ∈ st, x.iptr = tid

/-- The row satisfies the key: it is held by one of the key's entries and the consistency function says yes to the set of
entries that hold it. -/
def KeySpec.Accepts (k : KeySpec V) (tid : Iptr) : Prop := k.Holds tid ∧ (k.cons (k.held tid)).1 = true

/-- The consistency function asks for a recheck of the row. -/
def KeySpec.asks (k : KeySpec V) (tid : Iptr) : Bool := (k.cons (k.held tid)).2

/-- The unchanging part of a key. -/
def Key.spec (k : Key V) : KeySpec V := ⟨k.orderBy, k.alt, k.cons, k.ents.map (·.stream)⟩

/-- Keys that filter in the main loop of a scan (all filter keys, or in mixed-order scans those of the column ordered by the
attached value). -/
def KeySpec.active (altMode : Bool) (k : KeySpec V) : Bool := !k.orderBy && (!altMode || k.alt)

/-- All items of the entries of these keys. -/
def items (altMode : Bool) (specs : List (KeySpec V)) : List (Item V) :=
  (specs.filter (KeySpec.active altMode)).flatMap (fun k => k.streams.flatten)

end Rum.Scan

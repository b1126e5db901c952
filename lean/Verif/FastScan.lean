import Verif.Scan
/-!
# Model of the fast scan (`/repo/src/rumget.c:718-768, 883-905, 1920-2245`)

All entries of all keys stand in `sortedEntries`, the farthest ahead first. An entry is named by its number in `so->entries`.
-/
namespace Rum.Fast
open Std Rum Rum.Scan

variable {V : Type}

/-- A scan key in a fast scan: the numbers of its entries, its consistency function (callConsistentFn, `/repo/src/rumget.c:144-186`)
and its pre-consistency function (`pre` is constantly true for a key with search mode EVERYTHING, `/repo/src/rumget.c:2042-2043`). -/
structure FKey (V : Type) where
  orderBy : Bool
  ids : List Nat
  cons : List (Option (Option V)) → Bool × Bool
  pre : List Bool → Bool

/-- What does not change during a scan: the keys, `attnumOrig` and `predictNumberResult` of each entry, and for each column the
comparison of items in the direction of the scan. -/
structure Env (V : Type) where
  keys : List (FKey V)
  att : Nat → Nat
  predict : Nat → Nat
  cmp : Nat → Item V → Item V → Ordering

/-- `so->entries`, `so->sortedEntries`, `so->entriesIncrIndex`. -/
structure FSt (V : Type) where
  ents : Nat → Ent V
  sorted : List Nat
  incr : Option Nat

/-- cmpEntries, `/repo/src/rumget.c:730-754`. -/
def cmpEnt (E : Env V) (ents : Nat → Ent V) (a b : Nat) : Ordering :=
  if (ents a).fin then (if (ents b).fin then .eq else .gt)
  else if (ents b).fin then .lt
  else if E.att a ≠ E.att b then (if E.att a < E.att b then .gt else .lt)
  else E.cmp (E.att a) (ents a).cur (ents b).cur

/-- entryFindItem, `/repo/src/rumget.c:1924-2022`, on an entry whose items are all in memory: the first item behind the current one
that is not before `item`. (In a posting tree the remaining pages are searched as well, with the same result when the entry stands
before `item`; see C22 and C23 for the pages.) -/
def findItem (cmp : Item V → Item V → Ordering) (item : Item V) (e : Ent V) : Ent V :=
  match e.rest.dropWhile (fun x => cmp x item == .lt) with
  | [] => { e with rest := [], fin := true }
  | x :: r => { e with cur := x, rest := r }

/-- The choice of the entry to move: the first with the smallest predicted number of results, `/repo/src/rumget.c:2095-2104`; the list
split around it. -/
def splitMin (f : Nat → Nat) : List Nat → Option (List Nat × Nat × List Nat)
  | [] => none
  | a :: l =>
    match splitMin f l with
    | none => some ([], a, l)
    | some (p, b, q) => if f b < f a then some (a :: p, b, q) else some ([], a, l)

/-- `Restore order of so->sortedEntries`, `/repo/src/rumget.c:2114-2124`, on the reversed list of the entries before the moved one. -/
def bubbleRev (gt : Nat → Bool) (id : Nat) : List Nat → List Nat
  | [] => [id]
  | p :: ps => if gt p then p :: bubbleRev gt id ps else id :: p :: ps

def setEnt (ents : Nat → Ent V) (id : Nat) (e : Ent V) : Nat → Ent V := fun i => if i = id then e else ents i

/-- entryShift, `/repo/src/rumget.c:2081-2125`. -/
def shift (E : Env V) (i : Nat) (find : Bool) (s : FSt V) : FSt V :=
  match splitMin E.predict (s.sorted.drop i) with
  | none => s
  | some (p, id, q) =>
    let e := s.ents id
    let e' :=
      if find then
        match (s.sorted.take i).getLast? with
        | some l => findItem (E.cmp (E.att id)) (s.ents l).cur e
        | none => e
      else if e.fin then e else e.get
    let ents' := setEnt s.ents id e'
    let before := s.sorted.take i ++ p
    { s with
      ents := ents'
      sorted := (bubbleRev (fun x => cmpEnt E ents' id x == .gt) id before.reverse).reverse ++ q }

/-- `for (j = k; j < so->totalentries; j++) entryShift(j, so, false)`, `/repo/src/rumget.c:2141-2142, 2210-2211`. -/
def shiftAll (E : Env V) (k : Nat) (s : FSt V) : FSt V :=
  (List.range' k (s.sorted.length - k)).foldl (fun s j => shift E j false s) s

/-- preConsistentCheck, `/repo/src/rumget.c:2027-2075`, with `preValue` false for the first `i` entries. -/
def preCheck (E : Env V) (sorted : List Nat) (i : Nat) : Bool :=
  E.keys.all fun k =>
    k.orderBy ||
    let vals := k.ids.map (fun id => !(sorted.take i).contains id)
    (vals.all id || k.pre vals)

/-- The search for the border where preConsistent becomes false, `/repo/src/rumget.c:2155-2167`: result, `i`, `k`. -/
def borderGo (E : Env V) (s : FSt V) : Nat → Nat → List Nat → Nat → Bool × Nat × Nat
  | i, _, [], k => (true, i, k)
  | i, prev, x :: xs, k =>
    if cmpEnt E s.ents x prev = .lt then
      if preCheck E s.sorted i then borderGo E s (i + 1) x xs i else (false, i, i)
    else borderGo E s (i + 1) x xs k

def border (E : Env V) (s : FSt V) : Bool × Nat × Nat :=
  match s.sorted with
  | [] => (true, 0, 0)
  | x :: xs => borderGo E s 1 x xs 0

/-- `entryRes` and `addInfo` of a key for a row, `/repo/src/rumget.c:2188-2206`. -/
def view (s : FSt V) (tid : Iptr) (ids : List Nat) : List (Option (Option V)) :=
  ids.map (fun id => if !(s.ents id).fin && cmpIptr (s.ents id).cur.iptr tid == .eq then some (s.ents id).cur.info else none)

/-- The item of the last entry, i.e. the one least far ahead. -/
def lastCur (s : FSt V) : Option (Item V) := s.sorted.getLast?.map (fun id => (s.ents id).cur)

/-- The loop that calls the consistency functions, `/repo/src/rumget.c:2181-2215`: after a key that does not match the entries are
shifted, and the loop goes on with the next key. Third component: any `recheckCurItem`, `/repo/src/rumget.c:2221-2234`. -/
def checkKeys (E : Env V) (k : Nat) : List (FKey V) → FSt V → FSt V × Bool × Bool
  | [], s => (s, true, false)
  | key :: ks, s =>
    if key.orderBy then checkKeys E k ks s
    else
      let r := key.cons (match lastCur s with | some m => view s m.iptr key.ids | none => view s ⟨0, 0⟩ [])
      let s1 := if r.1 then s else shiftAll E k s
      let rest := checkKeys E k ks s1
      (rest.1, r.1 && rest.2.1, r.2 || rest.2.2)

inductive FRes (V : Type) where
  | done
  | found (item : Item V) (recheck : Bool) (s : FSt V)
  | stuck

/-- The loop of scanGetItemFast, `/repo/src/rumget.c:2145-2243`. -/
def fastLoop (E : Env V) : Nat → FSt V → FRes V
  | 0, _ => .stuck
  | n + 1, s =>
    let b := border E s
    match s.sorted[b.2.1 - 1]? with
    | none => .done
    | some l =>
      if (s.ents l).fin then .done
      else if !b.1 then fastLoop E n (shift E b.2.1 true s)
      else
        let r := checkKeys E b.2.2 E.keys s
        if r.2.1 then
          match lastCur r.1 with
          | some m => .found m r.2.2 { r.1 with incr := some b.2.2 }
          | none => .done
        else fastLoop E n r.1

/-- Items still to come, over all entries. -/
def total (s : FSt V) : Nat := (s.sorted.map (fun id => (s.ents id).left)).sum

/-- scanGetItemFast, `/repo/src/rumget.c:2127-2245`. -/
def scanGetItemFast (E : Env V) (s : FSt V) : FRes V :=
  let s := match s.incr with
    | none => s
    | some k => shiftAll E k s
  fastLoop E (total s + 1) s

/-- Up to `n` calls. -/
def runFast (E : Env V) : Nat → FSt V → List (Item V × Bool) × Bool
  | 0, _ => ([], false)
  | n + 1, s =>
    match scanGetItemFast E s with
    | .done => ([], true)
    | .stuck => ([], false)
    | .found it r s' => let o := runFast E n s'; ((it, r) :: o.1, o.2)

/-- What a user gives for a fast scan: the key, its column, and its pre-consistency function. -/
structure FSpec (V : Type) where
  spec : KeySpec V
  att : Nat
  pre : List Bool → Bool

/-- Entries are numbered key by key (rumFillScanEntry, `/repo/src/rumscan.c:62-130`). -/
def mkKeys : Nat → List (FSpec V) → List (FKey V)
  | _, [] => []
  | off, k :: ks => ⟨k.spec.orderBy, List.range' off k.spec.streams.length, k.spec.cons, k.pre⟩ :: mkKeys (off + k.spec.streams.length) ks

def allStreams (keys : List (FSpec V)) : List (List (Item V)) := keys.flatMap (fun k => k.spec.streams)

def allAtts (keys : List (FSpec V)) : List Nat := keys.flatMap (fun k => k.spec.streams.map (fun _ => k.att))

/-- An entry after startScanEntry and the first entryGetItem of startScan, `/repo/src/rumget.c:896-900`. -/
def firstItem (st : List (Item V)) : Ent V :=
  let e := Ent.start st ⟨⟨0, 0⟩, none⟩
  if e.fin then e else e.get

def mkEnv (cmp : Nat → Item V → Item V → Ordering) (predict : Nat → Nat) (keys : List (FSpec V)) : Env V :=
  ⟨mkKeys 0 keys, fun i => (allAtts keys)[i]?.getD 0, predict, cmp⟩

/-- startScan, `/repo/src/rumget.c:883-905`; `perm` is what qsort makes of the entry numbers. -/
def startFast (keys : List (FSpec V)) (perm : List Nat) : FSt V :=
  ⟨fun i => firstItem ((allStreams keys)[i]?.getD []), perm, none⟩

/-- `perm` is a possible result of the sort by scan_entry_cmp (`/repo/src/rumget.c:756-763, 901-902`): all entry numbers, farthest ahead
first. -/
def SortResult (E : Env V) (keys : List (FSpec V)) (perm : List Nat) : Prop :=
  perm.Perm (List.range (allStreams keys).length) ∧
  perm.Pairwise (fun a b => cmpEnt E (startFast keys perm).ents a b ≠ .lt)

/-- A whole fast scan of up to `n` calls. -/
def fastScan (cmp : Nat → Item V → Item V → Ordering) (predict : Nat → Nat) (keys : List (FSpec V)) (perm : List Nat) (n : Nat) :
    List (Item V × Bool) × Bool :=
  runFast (mkEnv cmp predict keys) n (startFast keys perm)

end Rum.Fast

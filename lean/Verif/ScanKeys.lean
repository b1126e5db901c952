/-!
# Scan setup: from the query's operators to the scan keys (`/repo/src/rumscan.c:57-735`)

`Q` is the type of query arguments, `K` of the keys an extractQuery function returns, `X` of its extra data.
-/
namespace Rum.ScanKeys

/-- The parts of RumState read here (`/repo/src/rumutil.c:165-444`): attached column and the column it is added to (0: none), `order_by_attach`, and
per column: has an ordering function (`canOrdering`), it takes three arguments, has an outer ordering function, pass-by-value type,
has a partial-match comparison, and the scan directions of its distance strategies (`strategyInfo`, up to the first invalid strategy). -/
structure Cfg where
  attach : Nat
  addTo : Nat
  alt : Bool
  canOrdering : Nat → Bool
  nargs3 : Nat → Bool
  canOuter : Nat → Bool
  byval : Nat → Bool
  canPartial : Nat → Bool
  dirs : Nat → List (Nat × Int)

/-- An operator of the query as PostgreSQL passes it (ScanKey): `column strategy arg`, in WHERE or ORDER BY. -/
structure InKey (Q : Type) where
  col : Nat
  strategy : Nat
  orderBy : Bool
  isNull : Bool
  arg : Q

/-- What an extractQuery function returns: keys with their null flags, the optional arrays of partial-match flags and extra data, the search mode
(0 default, 1 include empty, 2 all). A NULL or empty array of keys is `[]`. -/
structure Extr (K X : Type) where
  vals : List (K × Bool)
  pm : Option (Nat → Bool)
  extra : Option (Nat → X)
  mode : Int

/-- Key categories: normal key, null key, and the placeholders of the hidden entries (`/repo/src/rum.h:209-215`). -/
inductive Cat | norm | nullKey | emptyItem | emptyQuery
  deriving DecidableEq

/-- The fields of RumScanEntryData that say what the entry looks for; they never change after rumFillScanEntry. -/
structure ECore (K X : Type) where
  col : Nat
  strategy : Nat
  mode : Int
  key : Option K
  cat : Cat
  partialMatch : Bool
  extra : Option X

/-- RumScanEntryData, the fields that setup decides. Directions: 1 forward, -1 backward, 0 none. -/
structure Entry (K X : Type) where
  core : ECore K X
  useCurKey : Bool
  mark : Option K
  dir : Int
  withAddInfo : Bool

/-- The fields of RumScanKeyData that the support functions see; they never change after rumFillScanKey. -/
structure Core (Q K X : Type) where
  colOrig : Nat
  strategy : Nat
  mode : Int
  query : Option Q
  vals : List (K × Bool)
  extra : Option (Nat → X)

/-- RumScanKeyData. -/
structure Key (Q K X : Type) where
  core : Core Q K X
  col : Nat
  orderBy : Bool
  useAddTo : Bool
  useCurKey : Bool
  dir : Int
  entries : List (Entry K X)
  willSort : Bool

/-- A key with its additional-information keys (`addInfoKeys`). -/
structure PKey (Q K X : Type) where
  key : Key Q K X
  subs : Option (List (Key Q K X))

/-- The result of rumNewScanKey. -/
structure Plan (Q K X : Type) where
  void : Bool
  keys : List (PKey Q K X)
  natural : Int
  willSort : Bool

/-- The state while keys are added. -/
structure St (Q K X : Type) where
  keys : List (Key Q K X)
  void : Bool
  willSort : Bool

variable {Q K X : Type}

/-- A new entry, rumFillScanEntry, `/repo/src/rumscan.c:62-130`. The search for an equal earlier entry (`:79-101`) looks at
`so->entries[0 .. totalentries-1]`; `totalentries` is 0 until all keys are made (`/repo/src/rumscan.c:32`, `360`, `685`), so it never finds one. -/
def mkEntry (col strategy : Nat) (mode : Int) (key : Option K) (cat : Cat) (pm : Bool) (extra : Option X) : Entry K X :=
  ⟨⟨col, strategy, mode, key, cat, pm, extra⟩, false, none, 1, false⟩

/-- The user entries of a key, `/repo/src/rumscan.c:255-273` and `309-312`; an error if the query needs prefix matching the column cannot do. -/
def userEntries (c : Cfg) (col strategy : Nat) (mode : Int) (pm : Option (Nat → Bool)) (extra : Option (Nat → X)) :
    Nat → List (K × Bool) → Except String (List (Entry K X))
  | _, [] => .ok []
  | i, (k, null) :: vs =>
    let p : Bool := (pm.map (· i)).getD false
    if p = true ∧ c.canPartial col = false then .error "Compare with prefix expressions isn't supported"
    else do
      let r ← userEntries c col strategy mode pm extra (i + 1) vs
      .ok (mkEntry col strategy mode (some k) (if null then .nullKey else .norm) p (extra.map (· i)) :: r)

/-- The hidden entry of a search mode other than default, `/repo/src/rumscan.c:275-307`. EVERYTHING is 3. -/
def hiddenEntry (col : Nat) (mode : Int) : Except String (List (Entry K X)) :=
  if mode = 0 then .ok []
  else if mode = 1 then .ok [mkEntry col 0 mode none .emptyItem false none]
  else if mode = 2 ∨ mode = 3 then .ok [mkEntry col 0 mode none .emptyQuery false none]
  else .error "unexpected searchMode"

/-- `scanKey->scanEntry[0]->useCurKey = true`. -/
def markCurKey (k : Key Q K X) : Key Q K X :=
  { k with entries := match k.entries with
    | e :: es => { e with useCurKey := true } :: es
    | [] => [] }

/-- The search for the filter key whose current index key an ORDER BY refers to, `/repo/src/rumscan.c:206-229`; the keys with that one marked. -/
def linkCurKey (col : Nat) : List (Key Q K X) → Except String (List (Key Q K X))
  | [] => .error "cannot order without attribute in ORDER BY clause"
  | k :: ks =>
    if k.orderBy = false ∧ k.col = col then
      if k.entries.length > 1 then .error "scan key should contain only one value"
      else if k.entries.length = 0 then .error "scan key should contain key value"
      else .ok (markCurKey k :: ks)
    else do
      let r ← linkCurKey col ks
      .ok (k :: r)

/-- rumFillScanKey, `/repo/src/rumscan.c:137-319`. -/
def fillKey (c : Cfg) (st : St Q K X) (col strategy : Nat) (mode : Int) (query : Option Q) (vals : List (K × Bool)) (pm : Option (Nat → Bool))
    (extra : Option (Nat → X)) (orderBy : Bool) : Except String (St Q K X) :=
  let core : Core Q K X := ⟨col, strategy, mode, query, vals, extra⟩
  let curKey := orderBy && (col != c.attach) && c.canOrdering col && c.nargs3 col
  if orderBy = true ∧ (col = c.attach ∨ curKey = true) then
    if vals.length + (if mode = 0 then 0 else 1) ≠ 1 then .error "extractQuery should return only one value for ordering"
    else if c.byval col = false then .error "doesn't support order by over pass-by-reference column"
    else if col = c.attach then
      if c.canOuter col = false then .error "doesn't support ordering as additional info"
      else .ok { st with keys := st.keys ++ [⟨core, c.addTo, true, true, false, 1, [], false⟩], willSort := true }
    else do
      let ks ← linkCurKey col st.keys
      .ok { st with keys := ks ++ [⟨core, col, true, false, true, 1, [], false⟩], willSort := true }
  else if orderBy = true ∧ c.canOrdering col = false then .error "doesn't support ordering, check operator class definition"
  else do
    let us ← userEntries c col strategy mode pm extra 0 vals
    let hs ← hiddenEntry col mode
    .ok { st with keys := st.keys ++ [⟨core, col, orderBy, false, false, 1, us ++ hs, false⟩] }

/-- The search mode used, `/repo/src/rumscan.c:405-412`. -/
def saneMode (m : Int) : Int := if m < 0 ∨ m > 2 then 2 else m

/-- initScanKey, `/repo/src/rumscan.c:371-465`. -/
def initScanKey (c : Cfg) (ex : InKey Q → Extr K X) (st : St Q K X) (k : InKey Q) : Except String (St Q K X) :=
  if k.isNull then .ok { st with void := st.void || !k.orderBy }
  else if (ex k).vals = [] ∧ saneMode (ex k).mode = 0 then .ok { st with void := st.void || !k.orderBy }
  else fillKey c st k.col k.strategy (saneMode (ex k).mode) (some k.arg) (ex k).vals (ex k).pm (ex k).extra k.orderBy

/-- The loop over the filter operators, `/repo/src/rumscan.c:597-602`: it stops at the first unsatisfiable one. -/
def initFilters (c : Cfg) (ex : InKey Q → Extr K X) : St Q K X → List (InKey Q) → Except String (St Q K X)
  | st, [] => .ok st
  | st, k :: ks => do
    let st' ← initScanKey c ex st k
    if st'.void then .ok st' else initFilters c ex st' ks

/-- The loop over the ORDER BY operators, `/repo/src/rumscan.c:619-620`. -/
def initOrders (c : Cfg) (ex : InKey Q → Extr K X) : St Q K X → List (InKey Q) → Except String (St Q K X)
  | st, [] => .ok st
  | st, k :: ks => do
    let st' ← initScanKey c ex st k
    initOrders c ex st' ks

/-- lookupScanDirection, `/repo/src/rumscan.c:467-483`. -/
def lookupDir (c : Cfg) (col strategy : Nat) : Int := ((c.dirs col).lookup strategy).getD 0

/-- The entries of one key get the mark, `/repo/src/rumscan.c:508-518`. -/
def markEntries (m : Option K) (d : Int) : List (Entry K X) → Except String (List (Entry K X))
  | [] => .ok []
  | e :: es =>
    if e.mark.isSome then .error "could not order by more than one operator"
    else do
      let r ← markEntries m d es
      .ok ({ e with mark := m, dir := d } :: r)

/-- fillMarkAddInfo, `/repo/src/rumscan.c:485-525`: the loop over the keys; `nat` is `so->naturalOrder`. -/
def fillMark (c : Cfg) (ok : Key Q K X) : Int → List (Key Q K X) → Except String (List (Key Q K X) × Int)
  | nat, [] => .ok ([], nat)
  | nat, k :: ks =>
    if k.orderBy = false ∧ k.col = c.addTo ∧ ok.col = c.addTo ∧ lookupDir c ok.core.colOrig ok.core.strategy ≠ 0 then
      let d := lookupDir c ok.core.colOrig ok.core.strategy
      if nat ≠ 0 ∧ nat ≠ d then .error "Could not scan in differ directions at the same time"
      else do
        let es ← markEntries (ok.core.vals.head?.map (·.1)) d k.entries
        let r ← fillMark c ok d ks
        .ok ({ k with entries := es, dir := d } :: r.1, r.2)
    else do
      let r ← fillMark c ok nat ks
      .ok (k :: r.1, r.2)

/-- The loop that fills marks, `/repo/src/rumscan.c:625-633`. fillMark does not change the fields of ORDER BY keys, so that the loop can run over the
ORDER BY keys as they were before it. -/
def fillMarks (c : Cfg) : List (Key Q K X) → Int → List (Key Q K X) → Except String (List (Key Q K X) × Int)
  | keys, nat, [] => .ok (keys, nat)
  | keys, nat, o :: os =>
    if c.alt = true ∧ o.orderBy = true ∧ o.useAddTo = true ∧ o.col = c.addTo then do
      let r ← fillMark c o nat keys
      fillMarks c r.1 r.2 os
    else fillMarks c keys nat os

/-- A WHERE key on the column the attached one is added to. -/
def isTo (c : Cfg) (k : Key Q K X) : Bool := (k.orderBy == false) && (k.core.colOrig == c.addTo)

/-- A WHERE key on the attached column. -/
def isOn (c : Cfg) (k : Key Q K X) : Bool := (k.orderBy == false) && (k.core.colOrig == c.attach)

/-- The loop of the regrouping, `/repo/src/rumscan.c:653-679`; `given`: the first `isTo` key has been passed. -/
def regroupGo (c : Cfg) (subs : List (Key Q K X)) : Bool → List (Key Q K X) → List (PKey Q K X)
  | _, [] => []
  | given, k :: r =>
    if isOn c k then regroupGo c subs given r
    else if isTo c k ∧ given = false then ⟨k, some subs⟩ :: regroupGo c subs true r
    else ⟨k, none⟩ :: regroupGo c subs given r

/-- The WHERE keys on the attached column become additional-information keys of the first WHERE key on the column it is added to, if there are both,
`/repo/src/rumscan.c:635-684`. -/
def regroup (c : Cfg) (ks : List (Key Q K X)) : List (PKey Q K X) :=
  if ks.any (isTo c) = true ∧ ks.any (isOn c) = true then regroupGo c (ks.filter (isOn c)) false ks
  else ks.map (fun k => ⟨k, none⟩)

/-- adjustScanDirection, `/repo/src/rumscan.c:528-562`. -/
def adjust (c : Cfg) (nat : Int) : List (PKey Q K X) → Except String (List (PKey Q K X))
  | [] => .ok []
  | p :: ps =>
    if nat ≠ 0 ∧ p.key.orderBy = false ∧ p.key.col = c.addTo ∧ p.key.dir ≠ nat then
      if p.key.dir ≠ 0 then .error "Could not scan in differ directions at the same time"
      else do
        let r ← adjust c nat ps
        .ok ({ p with key := { p.key with dir := nat, entries := p.key.entries.map (fun e => { e with dir := nat }) } } :: r)
    else do
      let r ← adjust c nat ps
      .ok (p :: r)

/-- The first entry scans with additional information, `/repo/src/rumscan.c:710-718`. -/
def markFirst : List (PKey Q K X) → List (PKey Q K X)
  | [] => []
  | p :: ps => { p with key := { p.key with entries := match p.key.entries with
      | e :: es => { e with withAddInfo := true } :: es
      | [] => [] } } :: ps

/-- Without filter keys, one key that drives a full-index scan over the first column, `/repo/src/rumscan.c:604-617`. -/
def addEvery (c : Cfg) (st : St Q K X) : Except String (St Q K X) :=
  if st.keys.isEmpty && !st.void then fillKey c st 1 0 3 none [] none none false else .ok st

/-- rumNewScanKey, `/repo/src/rumscan.c:564-735`. -/
def newScanKey (c : Cfg) (ex : InKey Q → Extr K X) (filters orders : List (InKey Q)) : Except String (Plan Q K X) := do
  let st ← initFilters c ex ⟨[], false, false⟩ filters
  let every : Bool := st.keys.isEmpty && !st.void
  let st ← addEvery c st
  let st ← initOrders c ex st orders
  let r ← fillMarks c st.keys 0 st.keys
  let ks := r.1.map (fun k => { k with willSort := st.willSort })
  let ps ← adjust c r.2 (regroup c ks)
  let ps := if every = true ∧ ps.length > 1 then markFirst ps else ps
  .ok ⟨st.void, ps, r.2, st.willSort⟩

/-! ### What the scan does with the keys -/

/-- The functions of the operator classes and the index contents of one row, abstractly: `sat` is consistentFn applied to the row's entries for a
key, `found e` the additional information stored for the row under the entry's key (`none`: the row is not there), `cmpPartial` the partial-match
comparison of a column, `none` if there is no such function. -/
structure World (Q K X V : Type) where
  sat : Core Q K X → Bool
  found : ECore K X → Option (Option V)
  cmpPartial : Nat → Option (Option K → V → Nat → Option X → Int)

/-- callAddInfoConsistentFn's `outerAddInfo`: that of the first entry present with a non-NULL value, `/repo/src/rumget.c:88-104`. -/
def outerInfo {V : Type} (w : World Q K X V) : List (Entry K X) → Option V
  | [] => none
  | e :: es =>
    match w.found e.core with
    | some (some v) => some v
    | _ => outerInfo w es

/-- The loops over the sub-keys and their entries, `/repo/src/rumget.c:112-132`. `none`: a function that was never set up is called. -/
def subEntries {V : Type} (w : World Q K X V) (v : V) : List (Entry K X) → Option Bool
  | [] => some true
  | e :: es =>
    match w.cmpPartial e.core.col with
    | none => none
    | some f => if f e.core.key v e.core.strategy e.core.extra = 0 then subEntries w v es else some false

/-- callAddInfoConsistentFn, `/repo/src/rumget.c:69-140`. -/
def addInfoConsistent {V : Type} (c : Cfg) (w : World Q K X V) (p : PKey Q K X) : Option Bool :=
  if p.key.col ≠ c.addTo then some true
  else match p.subs with
    | none => some true
    | some subs =>
      match outerInfo w p.key.entries with
      | none => some false
      | some v => subEntries w v (subs.flatMap (·.entries))

/-- callConsistentFn, `/repo/src/rumget.c:144-186`. -/
def consistent {V : Type} (c : Cfg) (w : World Q K X V) (p : PKey Q K X) : Option Bool :=
  if (p.key.core.mode = 3 ∨ w.sat p.key.core = true) then addInfoConsistent c w p else some false

/-- The loop over the keys (`/repo/src/rumget.c:1571-1791`): ORDER BY keys do not filter. -/
def allConsistent {V : Type} (c : Cfg) (w : World Q K X V) : List (PKey Q K X) → Option Bool
  | [] => some true
  | k :: ks =>
    if k.key.orderBy then allConsistent c w ks
    else match consistent c w k with
      | none => none
      | some false => some false
      | some true => allConsistent c w ks

/-- A row is returned if all filter keys of the plan are consistent with it; nothing is returned if the plan is void
(`/repo/src/rumget.c:2349`, `2595`). -/
def returned {V : Type} (c : Cfg) (w : World Q K X V) (p : Plan Q K X) : Option Bool :=
  if p.void then some false else allConsistent c w p.keys

end Rum.ScanKeys

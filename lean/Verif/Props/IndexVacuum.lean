import Verif.IndexVacuumRun
import Verif.Props.Bulk
/-!
# C49: the index over its whole life: CREATE INDEX, INSERT, VACUUM

The table's rows change by insertions and by removals of dead rows; a TID may be used again once VACUUM has removed its row.
-/
namespace Rum.Props.IndexVacuum
open Rum Rum.Codec Rum.Leaf Rum.Entry Rum.Tree Rum.Index Rum.Extract Rum.Props Rum.Props.PostingTree Rum.Props.Index Rum.Props.Bulk Std

variable {V : Type}

/-! ### Specification -/

/-- What happens to the index: a row is inserted, or VACUUM runs with a callback that tells which TIDs are dead. -/
inductive Event (V : Type) where
  | insert (r : Row V)
  | vacuum (dead : Iptr → Bool)

/-- The rows of the table. -/
def Event.rows (rs : List (Row V)) : Event V → List (Row V)
  | .insert r => rs ++ [r]
  | .vacuum dead => rs.filter (fun r => !dead r.tid)

/-- The index: ruminsert, rumbulkdelete. The flag is `false` if an error was raised. -/
def Event.run (ix : Ix V) [Inhabited V] (rc : RowCfg V) (st : State V) : Event V → State V × Bool
  | .insert r => ix.insertRow rc st r
  | .vacuum dead => (lastState st (ix.bulkDelete dead st).1, (ix.bulkDelete dead st).2)

def runs (ix : Ix V) [Inhabited V] (rc : RowCfg V) : State V × Bool → List (Event V) → State V × Bool
  | u, [] => u
  | u, e :: es => if u.2 then runs ix rc (e.run ix rc u.1) es else u

/-- Events that can happen to a table with rows `rs`: an inserted row is one the index can take and its TID is free. -/
def Possible (ix : Ix V) [Inhabited V] (rc : RowCfg V) (M : Lim) : List (Row V) → List (Event V) → Prop
  | _, [] => True
  | rs, e :: es => (match e with
    | .insert r => RowOK ix rc M r ∧ ∀ q ∈ rs, q.tid ≠ r.tid
    | .vacuum _ => True) ∧ Possible ix rc M (e.rows rs) es

/-! ### Proof apparatus -/

/-- The items of the rows under a key. -/
def EntryOf (ix : Ix V) [Inhabited V] (rc : RowCfg V) (rs : List (Row V)) (k : AttKey V) (y : Item Datum) : Prop :=
  (1 ≤ k.attnum ∧ k.attnum ≤ rc.natts) ∧ ∃ r ∈ rs, ∃ o ∈ ix.colEntries rc k.attnum r, Same ix (outKey k.attnum o) k ∧ y = ⟨r.tid, o.info⟩

section
variable {ix : Ix V} [Inhabited V] {rc : RowCfg V} {M : Lim}

theorem entryOf_ops (rs : List (Row V)) (k : AttKey V) (y : Item Datum) :
    (∃ op ∈ rs.flatMap (rowOps ix rc), Same ix op.1 k ∧ y ∈ op.2) ↔ EntryOf ix rc rs k y := by
  constructor
  · intro h
    have hr : 1 ≤ k.attnum ∧ k.attnum ≤ rc.natts := by
      obtain ⟨op, hop, hsm, -⟩ := h
      obtain ⟨r, -, hop⟩ := List.mem_flatMap.1 hop
      obtain ⟨a, ha, hop⟩ := List.mem_flatMap.1 hop
      obtain ⟨o, -, rfl⟩ := List.mem_map.1 hop
      have hat : a = k.attnum := same_attnum (ix := ix) hsm
      rw [← hat]; exact mem_cols.1 ha
    exact ⟨hr, (rowOps_mem ix rc rs k hr.1 hr.2 y).1 h⟩
  · rintro ⟨hr, h⟩
    exact (rowOps_mem ix rc rs k hr.1 hr.2 y).2 h

theorem entryOf_one (hc : ColsOK ix M) (hs : ∀ a, SortOK (ix.cmpK a) (rc.sort a)) (hd : ∀ a, DupsSeen (ix.cmpK a) (rc.haveDups a))
    {rs : List (Row V)} (htid : (rs.map Row.tid).Nodup) {k : AttKey V} {y y' : Item Datum} (h : EntryOf ix rc rs k y) (h' : EntryOf ix rc rs k y')
    (he : y.iptr = y'.iptr) : y = y' := by
  obtain ⟨-, r, hr, o, ho, hsm, rfl⟩ := h
  obtain ⟨-, r', hr', o', ho', hsm', rfl⟩ := h'
  obtain rfl := List.inj_on_of_nodup_map htid hr hr' he
  rw [(colEntries_key (rc := rc) hc (hs k.attnum) (hd k.attnum) r (k := k) rfl).2.2 o ho o' ho' hsm hsm']

omit [Inhabited V] in
theorem mem_expected (hc : ColsOK ix M) {ops : List (AttKey V × List (Item Datum))} {k : AttKey V} {P : Item Datum → Prop}
    (hP : ∀ y, (∃ op ∈ ops, Same ix op.1 k ∧ y ∈ op.2) ↔ P y) (hone : ∀ y y', P y → P y' → y.iptr = y'.iptr → y = y') (y : Item Datum) :
    y ∈ expected ix ops k ↔ P y := by
  have hmem : ∀ y, y ∈ (ops.filter (fun o => cmpAttEntries ix.cmpK o.1 k == .eq)).flatMap Prod.snd ↔ P y := by
    intro y
    rw [← hP y]
    simp only [List.mem_flatMap, List.mem_filter, beq_iff_eq, and_assoc]
    rfl
  have htr : TransCmp (ix.ctx k.attnum).cmpV := hc.infos k.attnum
  have htr' : TransCmp (ix.ctx k.attnum).cmp := cmpItem_trans _ _
  rw [← hmem]
  unfold expected
  refine ⟨keepFirst_sub _ _ y, fun hy => ?_⟩
  obtain ⟨i, hi, he⟩ := (keepFirst_covers (ix.ctx k.attnum).cmp _ y).2 ⟨y, hy, ReflCmp.compare_self (cmp := (ix.ctx k.attnum).cmp)⟩
  rw [← hone i y ((hmem i).1 (keepFirst_sub _ _ i hi)) ((hmem y).1 hy) (cmp_eq_iptr he)]
  exact hi

/-- The state of an index that holds just these rows. -/
structure Life (ix : Ix V) [Inhabited V] (rc : RowCfg V) (M : Lim) (st : State V) (rs : List (Row V)) : Prop where
  inv : IInv True ix M st
  tids : (rs.map Row.tid).Nodup
  rows : ∀ k y, y ∈ ix.rowsOf st k ↔ EntryOf ix rc rs k y

theorem Life.indexes (hc : ColsOK ix M) (hs : ∀ a, SortOK (ix.cmpK a) (rc.sort a)) (hd : ∀ a, DupsSeen (ix.cmpK a) (rc.haveDups a))
    {st : State V} {rs : List (Row V)} (L : Life ix rc M st rs) : Indexes ix rc st rs := by
  intro k hk1 hk2
  have g1 := rowsOf_sorted hc L.inv k
  have hcol := fun r => colEntries_key (rc := rc) hc (hs k.attnum) (hd k.attnum) r (k := k) rfl
  refine ⟨g1, ?_, fun tid => ⟨fun h => ?_, fun h => ?_⟩, fun y hy => ?_⟩
  · have hnd : (ix.rowsOf st k).Nodup := by
      have htr : TransCmp (ix.ctx k.attnum).cmpV := hc.infos k.attnum
      have htr' : TransCmp (ix.ctx k.attnum).cmp := cmpItem_trans _ _
      refine g1.imp (fun {a b} h hab => ?_)
      subst hab
      rw [ReflCmp.compare_self (cmp := (ix.ctx k.attnum).cmp)] at h
      cases h
    exact hnd.map_on (fun y hy y' hy' he => entryOf_one hc hs hd L.tids ((L.rows k y).1 hy) ((L.rows k y').1 hy') he)
  · obtain ⟨y, hy, rfl⟩ := List.mem_map.1 h
    obtain ⟨-, r, hr, o, ho, hsm, rfl⟩ := (L.rows k y).1 hy
    exact ⟨r, hr, rfl, (hcol r).1.1 ⟨o, ho, hsm⟩⟩
  · obtain ⟨r, hr, rfl, hcon⟩ := h
    obtain ⟨o, ho, hsm⟩ := (hcol r).1.2 hcon
    exact List.mem_map.2 ⟨⟨r.tid, o.info⟩, (L.rows k _).2 ⟨⟨hk1, hk2⟩, r, hr, o, ho, hsm, rfl⟩, rfl⟩
  · obtain ⟨-, r, hr, o, ho, hsm, rfl⟩ := (L.rows k y).1 hy
    exact ⟨r, hr, rfl, (hcol r).2.1 o ho hsm⟩

theorem Life.insert (hc : ColsOK ix M) (hs : ∀ a, SortOK (ix.cmpK a) (rc.sort a)) (hd : ∀ a, DupsSeen (ix.cmpK a) (rc.haveDups a))
    {st : State V} {rs : List (Row V)} (L : Life ix rc M st rs) {r : Row V} (hr : RowOK ix rc M r) (hn : ∀ q ∈ rs, q.tid ≠ r.tid) :
    ∃ t, ix.insertRow rc st r = (t, true) ∧ Life ix rc M t (rs ++ [r]) := by
  have htid : ((rs ++ [r]).map Row.tid).Nodup := by
    rw [List.map_append, List.nodup_append]
    refine ⟨L.tids, by simp, ?_⟩
    intro a ha b hb
    obtain ⟨q, hq, rfl⟩ := List.mem_map.1 ha
    simp only [List.map_cons, List.map_nil, List.mem_singleton] at hb
    rw [hb]; exact hn q hq
  obtain ⟨t, t1, t2, t3⟩ := insertAll_ok hc (rowOps ix rc r) (rs.flatMap (rowOps ix rc)) st (rowOps_ok hr) L.inv (fun k y => by
    rw [L.rows, mem_expected hc (entryOf_ops rs k) (fun y y' h h' => entryOf_one hc hs hd L.tids h h')])
  refine ⟨t, ?_, t2, htid, fun k y => ?_⟩
  · have : ix.insertRow rc st r = ix.insertAll st (rowOps ix rc r) :=
      insertCols_eq ix rc r _ st (fun a ha o ho => (hr a (mem_cols.1 ha).1 (mem_cols.1 ha).2 o ho).1)
    rw [this, t1]
  · rw [t3]
    have : rs.flatMap (rowOps ix rc) ++ rowOps ix rc r = (rs ++ [r]).flatMap (rowOps ix rc) := by simp
    rw [this]
    exact mem_expected hc (entryOf_ops (rs ++ [r]) k) (fun y y' h h' => entryOf_one hc hs hd htid h h') y

theorem Life.vacuum (hc : ColsOK ix M) (hal : ∀ k, 8 ∣ ix.keySize k) (hM : M.single = true)
    {st : State V} {rs : List (Row V)} (L : Life ix rc M st rs) (dead : Iptr → Bool) :
    ∃ l, ix.bulkDelete dead st = (l, true) ∧ Life ix rc M (lastState st l) (rs.filter (fun r => !dead r.tid)) ∧ ∀ u ∈ l, Trim ix dead st u := by
  obtain ⟨l, l1, l2, l3, l4⟩ := bulkDelete_spec hc hal hM dead L.inv
  refine ⟨l, l1, ⟨l2, ?_, fun k y => ?_⟩, l4⟩
  · exact L.tids.sublist (List.Sublist.map _ List.filter_sublist)
  · rw [l3, List.mem_filter, L.rows]
    unfold EntryOf
    constructor
    · rintro ⟨⟨hk, r, hr, o, ho, hsm, rfl⟩, h⟩
      exact ⟨hk, r, List.mem_filter.2 ⟨hr, h⟩, o, ho, hsm, rfl⟩
    · rintro ⟨hk, r, hr, o, ho, hsm, rfl⟩
      exact ⟨⟨hk, r, (List.mem_filter.1 hr).1, o, ho, hsm, rfl⟩, (List.mem_filter.1 hr).2⟩

theorem Life.runs (hc : ColsOK ix M) (hal : ∀ k, 8 ∣ ix.keySize k) (hM : M.single = true) (hs : ∀ a, SortOK (ix.cmpK a) (rc.sort a))
    (hd : ∀ a, DupsSeen (ix.cmpK a) (rc.haveDups a)) (evs : List (Event V)) :
    ∀ (st : State V) (rs : List (Row V)), Life ix rc M st rs → Possible ix rc M rs evs →
      ∃ t, IndexVacuum.runs ix rc (st, true) evs = (t, true) ∧ Life ix rc M t (evs.foldl Event.rows rs) := by
  induction evs with
  | nil => intro st rs L _; exact ⟨st, rfl, L⟩
  | cons e evs ih =>
    intro st rs L hp
    obtain ⟨h1, h2⟩ := hp
    cases e with
    | insert r =>
      obtain ⟨t, t1, t2⟩ := L.insert hc hs hd h1.1 h1.2
      obtain ⟨u, u1, u2⟩ := ih t _ t2 h2
      refine ⟨u, ?_, u2⟩
      simp only [IndexVacuum.runs, if_true, Event.run, t1]
      exact u1
    | vacuum dead =>
      obtain ⟨l, l1, l2, -⟩ := L.vacuum hc hal hM dead
      obtain ⟨u, u1, u2⟩ := ih _ _ l2 h2
      refine ⟨u, ?_, u2⟩
      simp only [IndexVacuum.runs, if_true, Event.run, l1]
      exact u1

end

/-- Items that need no padding are storable one by one as well. -/
theorem storable_single {x : Ctx} {n : Nat} {it : Item Datum} (h : Storable x ⟨n, false⟩ it) : Storable x ⟨n, true⟩ it :=
  ⟨h.ok, h.stored, h.valid, h.small, fun h => by cases h⟩

theorem inv_single {ix : Ix V} [Inhabited V] {n : Nat} {st : State V} {b : Bool} (H : IInv True { ix with build := b } ⟨n, false⟩ st) :
    IInv True ix ⟨n, true⟩ st := by
  obtain ⟨K, hK, key, G, hk, hG, hB⟩ := H.entry
  refine ⟨⟨K, hK, key, G, ⟨hk.lt, hk.eq, hk.gt⟩, ⟨hG.weak, hG.complete, hG.sized,
    fun p hp => ⟨(hG.fit p hp).small, (hG.fit p hp).inner, (hG.fit p hp).fit⟩⟩, hB⟩, fun e he => ?_, H.inj⟩
  obtain ⟨h1, h2, h3⟩ := H.ents e he
  refine ⟨h1, fun d m hp => ?_, fun t ht => ?_⟩
  · obtain ⟨R, r1, r2⟩ := h2 d m hp
    exact ⟨R, ⟨r1.sorted, fun it hi => storable_single (r1.ok it hi)⟩, r2⟩
  · obtain ⟨g1, K, hK, key, G, g2, g3, g4⟩ := h3 t ht
    refine ⟨g1, K, hK, key, G, g2, ⟨g3.weak, g3.complete, g3.sized, fun p hp => ?_⟩, fun h => by cases h⟩
    exact ⟨fun it hi => storable_single ((g3.fit p hp).all it hi), (g3.fit p hp).fit⟩

/-- The invariant does not depend on whether the index is being built. -/
theorem inv_build {ix : Ix V} [Inhabited V] {M : Lim} {st : State V} {b : Bool} (H : IInv True { ix with build := b } M st) : IInv True ix M st := by
  obtain ⟨K, hK, key, G, hk, hG, hB⟩ := H.entry
  refine ⟨⟨K, hK, key, G, ⟨hk.lt, hk.eq, hk.gt⟩, ⟨hG.weak, hG.complete, hG.sized,
    fun p hp => ⟨(hG.fit p hp).small, (hG.fit p hp).inner, (hG.fit p hp).fit⟩⟩, hB⟩, fun e he => ?_, H.inj⟩
  obtain ⟨h1, h2, h3⟩ := H.ents e he
  exact ⟨h1, h2, h3⟩

theorem Life.build_tight {ix : Ix V} [Inhabited V] {rc : RowCfg V} {M : Lim} (hM : M.single = false) (hc : ColsOK ix M) (hs : ∀ a, SortOK (ix.cmpK a) (rc.sort a))
    (hd : ∀ a, DupsSeen (ix.cmpK a) (rc.haveDups a)) (qsort : (Item Datum → Item Datum → Ordering) → List (Item Datum) → List (Item Datum))
    (hq : Sorts qsort) (full : Nat → Bool) (rs : List (Row V)) (hok : ∀ r ∈ rs, RowOK ix rc M r)
    (hlen : ∀ r ∈ rs, ∀ a, (ix.colEntries rc a r).length < 2 ^ 31) (htid : (rs.map Row.tid).Nodup)
    (hord : ∀ a, (ix.ctx a).cfg.alt = true → rs.Pairwise (fun r q => cmpIptr r.tid q.tid = .lt)) :
    ∃ st, ix.buildIndex rc qsort full rs = (st, true) ∧ Life ix rc M st rs := by
  have hcb : ColsOK { ix with build := true } M := ⟨hc.keys, hc.infos, hc.sizes⟩
  obtain ⟨ops, o1, o2, o3⟩ := build_ops (ix := { ix with build := true }) (rc := rc) hM hcb hq hs hd full rs 0 [] emptyIndex [] (accInv_nil _)
    (by simp [OncePerKey]) (by simp) (by simp [TidOrder]) (by simp) htid (fun a ha => ⟨by simp, hord a ha⟩) hok hlen
  obtain ⟨st, h1, h2, h3⟩ := insertAll_ok hcb ops [] emptyIndex o2 (inv_empty _ hcb) (by
    intro k y; rw [rowsOf_empty _ hcb]; simp [expected, keepFirst])
  refine ⟨st, by unfold Ix.buildIndex; rw [o1, h1], inv_build h2, htid, fun k y => ?_⟩
  refine (h3 k y).trans ?_
  rw [List.nil_append]
  refine mem_expected (P := EntryOf ix rc rs k) hcb (fun z => (o3 k z).trans ?_) (fun z z' h h' => entryOf_one hc hs hd htid h h') y
  simp only [List.not_mem_nil, false_and, exists_false, false_or]
  constructor
  · rintro ⟨r, hr, e, he, hsm, rfl⟩
    obtain ⟨a, ha, he⟩ := List.mem_flatMap.1 he
    obtain ⟨o, ho, rfl⟩ := List.mem_map.1 he
    have hat : a = k.attnum := same_attnum (ix := ix) hsm
    subst hat
    exact ⟨mem_cols.1 ha, r, hr, o, ho, hsm, rfl⟩
  · rintro ⟨hk, r, hr, o, ho, hsm, rfl⟩
    exact ⟨r, hr, (outKey k.attnum o, ⟨r.tid, o.info⟩), List.mem_flatMap.2 ⟨k.attnum, mem_cols.2 hk, List.mem_map.2 ⟨o, ho, rfl⟩⟩, hsm, rfl⟩

theorem Life.build {ix : Ix V} [Inhabited V] {rc : RowCfg V} {n : Nat} (hc : ColsOK ix ⟨n, true⟩) (hs : ∀ a, SortOK (ix.cmpK a) (rc.sort a))
    (hd : ∀ a, DupsSeen (ix.cmpK a) (rc.haveDups a)) (qsort : (Item Datum → Item Datum → Ordering) → List (Item Datum) → List (Item Datum))
    (hq : Sorts qsort) (full : Nat → Bool) (rs : List (Row V)) (hok : ∀ r ∈ rs, RowOK ix rc ⟨n, false⟩ r)
    (hlen : ∀ r ∈ rs, ∀ a, (ix.colEntries rc a r).length < 2 ^ 31) (htid : (rs.map Row.tid).Nodup)
    (hord : ∀ a, (ix.ctx a).cfg.alt = true → rs.Pairwise (fun r q => cmpIptr r.tid q.tid = .lt)) :
    ∃ st, ix.buildIndex rc qsort full rs = (st, true) ∧ Life ix rc ⟨n, true⟩ st rs := by
  have hcb : ColsOK ix ⟨n, false⟩ :=
    ⟨hc.keys, hc.infos, fun a => ⟨(hc.sizes a).leaf, (hc.sizes a).inner, (hc.sizes a).align, fun h => by cases h⟩⟩
  obtain ⟨st, h1, L⟩ := Life.build_tight (M := ⟨n, false⟩) rfl hcb hs hd qsort hq full rs hok hlen htid hord
  exact ⟨st, h1, inv_single (ix := ix) (b := ix.build) L.inv, L.tids, L.rows⟩

/-! ### Properties -/

/-- **C49.** CREATE INDEX on a table with any rows, then any sequence of insertions of rows and VACUUMs: no operation fails, and a lookup of any
key of any column then finds exactly the rows of the table (those built or inserted and not removed) whose value contains the key, in
order, each once, with its additional info. A TID may be used again after its row was removed. Missing: rows in the table at CREATE INDEX whose
additional info needs alignment padding (see `C19_build_partial`), and tables whose heap scan delivers rows out of TID order if
additional info orders the items (`C19_violated`). -/
theorem C49_lifetime_partial (ix : Ix V) [Inhabited V] (rc : RowCfg V) (n : Nat) (hc : ColsOK ix ⟨n, true⟩) (hal : ∀ k, 8 ∣ ix.keySize k)
    (hs : ∀ a, SortOK (ix.cmpK a) (rc.sort a)) (hd : ∀ a, DupsSeen (ix.cmpK a) (rc.haveDups a))
    (qsort : (Item Datum → Item Datum → Ordering) → List (Item Datum) → List (Item Datum)) (hq : Sorts qsort) (full : Nat → Bool)
    (rs : List (Row V)) (hok : ∀ r ∈ rs, RowOK ix rc ⟨n, false⟩ r) (hlen : ∀ r ∈ rs, ∀ a, (ix.colEntries rc a r).length < 2 ^ 31)
    (htid : (rs.map Row.tid).Nodup) (hord : ∀ a, (ix.ctx a).cfg.alt = true → rs.Pairwise (fun r q => cmpIptr r.tid q.tid = .lt))
    (evs : List (Event V)) (hev : Possible ix rc ⟨n, true⟩ rs evs) :
    ∃ st, runs ix rc (ix.buildIndex rc qsort full rs) evs = (st, true) ∧ Indexes ix rc st (evs.foldl Event.rows rs) := by
  obtain ⟨st, h1, L⟩ := Life.build hc hs hd qsort hq full rs hok hlen htid hord
  obtain ⟨t, h2, L'⟩ := L.runs hc hal rfl hs hd evs _ _ hev
  exact ⟨t, by rw [h1]; exact h2, L'.indexes hc hs hd⟩

/-- **C49, empty table.** The same for an index created on an empty table: additional info of any kind (alignment at most 4 for values stored by
reference), any order of TIDs. -/
theorem C49_from_empty (ix : Ix V) [Inhabited V] (rc : RowCfg V) (n : Nat) (hc : ColsOK ix ⟨n, true⟩) (hal : ∀ k, 8 ∣ ix.keySize k)
    (hs : ∀ a, SortOK (ix.cmpK a) (rc.sort a)) (hd : ∀ a, DupsSeen (ix.cmpK a) (rc.haveDups a))
    (evs : List (Event V)) (hev : Possible ix rc ⟨n, true⟩ [] evs) :
    ∃ st, runs ix rc (emptyIndex, true) evs = (st, true) ∧ Indexes ix rc st (evs.foldl Event.rows []) := by
  have L : Life ix rc ⟨n, true⟩ emptyIndex [] := ⟨inv_empty ix hc, by simp, fun k y => by rw [rowsOf_empty ix hc]; simp [EntryOf]⟩
  obtain ⟨t, h2, L'⟩ := L.runs hc hal rfl hs hd evs _ _ hev
  exact ⟨t, h2, L'.indexes hc hs hd⟩

/-- **C49, every log record of VACUUM.** After any such history, VACUUM succeeds; after every log record it writes, a lookup of any key finds
all live rows it found before, no row it did not find before, in the same order; at the end it finds exactly the live rows. -/
theorem C49_every_record (ix : Ix V) [Inhabited V] (rc : RowCfg V) (n : Nat) (hc : ColsOK ix ⟨n, true⟩) (hal : ∀ k, 8 ∣ ix.keySize k)
    (hs : ∀ a, SortOK (ix.cmpK a) (rc.sort a)) (hd : ∀ a, DupsSeen (ix.cmpK a) (rc.haveDups a))
    (evs : List (Event V)) (hev : Possible ix rc ⟨n, true⟩ [] evs) (dead : Iptr → Bool) :
    ∃ st l, runs ix rc (emptyIndex, true) evs = (st, true) ∧ ix.bulkDelete dead st = (l, true) ∧
      (∀ u ∈ l, ∀ k, (ix.rowsOf u k).Sublist (ix.rowsOf st k) ∧ ∀ y ∈ ix.rowsOf st k, dead y.iptr = false → y ∈ ix.rowsOf u k) ∧
      ∀ k, ix.rowsOf (lastState st l) k = (ix.rowsOf st k).filter (fun y => !dead y.iptr) := by
  have L : Life ix rc ⟨n, true⟩ emptyIndex [] := ⟨inv_empty ix hc, by simp, fun k y => by rw [rowsOf_empty ix hc]; simp [EntryOf]⟩
  obtain ⟨t, h2, L'⟩ := L.runs hc hal rfl hs hd evs _ _ hev
  obtain ⟨l, l1, l2, l3, l4⟩ := bulkDelete_spec hc hal rfl dead L'.inv
  exact ⟨t, l, h2, l1, l4, l3⟩

/-! ### Concrete cases -/

theorem exCols1 : ColsOK exIx ⟨15, true⟩ where
  keys := exCols.keys
  infos := exCols.infos
  sizes := fun _ => ⟨by decide, by decide, (by decide : padOf PostingTree.exCtx.cfg ∣ 8), fun _ => (by decide : padOf PostingTree.exCtx.cfg ∣ 4)⟩

theorem exRowOK (m : Nat) (hm : m < 400) (v : Option (List (Raw Nat Datum))) (hv : v = none ∨ v = some [] ∨ ∃ j, v = some [⟨some j, some (.byval 0)⟩])
    (b : Bool) : RowOK exIx exRc ⟨15, b⟩ (exRow m v) := by
  have hsz : ∀ k : AttKey Nat, exIx.tupleSize k [] ≤ maxTuple := by
    intro k
    show alignUp 8 (16 + catByte k) ≤ maxTuple
    unfold catByte
    split <;> decide
  have hst : ∀ i, Storable PostingTree.exCtx 15 i → Storable PostingTree.exCtx ⟨15, b⟩ i := by
    intro i h
    cases b
    · exact h
    · exact storable_single h
  intro a h1 h2 o ho
  refine ⟨fun _ => rfl, hsz _, ?_⟩
  have h2 : a ≤ 2 := h2
  have ha : a = 1 ∨ a = 2 := by omega
  rcases hv with rfl | rfl | ⟨j, rfl⟩ <;> rcases ha with rfl | rfl <;>
    · simp only [Ix.colEntries, exRc, exRow, extractEntries, reduceCtorEq, if_false, if_true, (by decide : ¬ (2 = 1)), toOut,
        List.mem_singleton] at ho
      subst ho
      first | exact hst _ (exNull _ (by omega)) | exact hst _ (exStorable' _ (by omega))

/-- Two rows with key 7, a row without a value; the rows 1 and 2 die; TID 1 is used again with key 9. -/
def exEvents : List (Event Nat) :=
  [.insert (exRow 1 (some [⟨some 7, some (.byval 0)⟩])), .insert (exRow 2 none), .insert (exRow 3 (some [⟨some 7, some (.byval 0)⟩])),
   .vacuum (fun p => p.blk < 3), .insert (exRow 1 (some [⟨some 9, some (.byval 0)⟩]))]

/-- The hypotheses of the theorems are met by this history, from the empty table and from a table with 4 rows. -/
example : (∀ k, 8 ∣ exIx.keySize k) ∧ Possible exIx exRc ⟨15, true⟩ [] exEvents ∧
    Possible exIx exRc ⟨15, true⟩ [exRow 5 none, exRow 4 (some [])] exEvents ∧
    (∀ r ∈ [exRow 5 none, exRow 4 (some [])], RowOK exIx exRc ⟨15, false⟩ r) := by
  have h : ∀ m v, m < 400 → (v = none ∨ v = some [] ∨ ∃ j, v = some [⟨some j, some (.byval 0)⟩]) → RowOK exIx exRc ⟨15, true⟩ (exRow m v) :=
    fun m v hm hv => exRowOK m hm v hv true
  refine ⟨fun _ => ⟨2, rfl⟩, ?_, ?_, ?_⟩
  · refine ⟨⟨h 1 _ (by omega) (Or.inr (Or.inr ⟨7, rfl⟩)), by simp⟩, ⟨h 2 _ (by omega) (Or.inl rfl), ?_⟩,
      ⟨h 3 _ (by omega) (Or.inr (Or.inr ⟨7, rfl⟩)), ?_⟩, trivial, ⟨h 1 _ (by omega) (Or.inr (Or.inr ⟨9, rfl⟩)), ?_⟩, trivial⟩
    all_goals simp [Event.rows, exRow]
  · refine ⟨⟨h 1 _ (by omega) (Or.inr (Or.inr ⟨7, rfl⟩)), ?_⟩, ⟨h 2 _ (by omega) (Or.inl rfl), ?_⟩,
      ⟨h 3 _ (by omega) (Or.inr (Or.inr ⟨7, rfl⟩)), ?_⟩, trivial, ⟨h 1 _ (by omega) (Or.inr (Or.inr ⟨9, rfl⟩)), ?_⟩, trivial⟩
    all_goals simp [Event.rows, exRow]
  · intro r hr
    simp only [List.mem_cons, List.not_mem_nil, or_false] at hr
    rcases hr with rfl | rfl
    · exact exRowOK 5 (by omega) none (Or.inl rfl) false
    · exact exRowOK 4 (by omega) (some []) (Or.inr (Or.inl rfl)) false

/-- The table after the history: row 3 and the new row 1. -/
example : (exEvents.foldl Event.rows []).map Row.tid = [⟨3, 1⟩, ⟨1, 1⟩] := by decide

end Rum.Props.IndexVacuum

import Verif.IndexVacStep
import Verif.Props.IndexConc
/-!
# C64: VACUUM of the index while rows are inserted and searched
-/
namespace Rum.Props.IndexVacConc
open Rum Rum.Codec Rum.Leaf Rum.Entry Rum.Tree Rum.Index Rum.Extract Rum.Props Rum.Props.PostingTree Rum.Props.Index Rum.Props.Bulk
  Rum.Props.IndexVacuum Std
open Rum.Props.Conc (fresh fresh_sorted fresh_sub fresh_of_delivered)
open Rum.Props.IndexConc (calm searching mem_entries entryOf_iff entries_ok IndexOver)

variable {V : Type}

/-! ### Specification -/

/-- What can happen: backend `i` visits a page of the entry tree, or of posting tree `t`; backend `i`, not busy, begins to insert a row, or to search
for a key (item by item, or page by page); the consumer of a search of backend `i` has enough; VACUUM begins, told which rows are dead; VACUUM makes its
next step. -/
inductive Event (V : Type) where
  | entry (i : Nat)
  | tree (t i : Nat)
  | insert (i : Nat) (r : Row V)
  | read (i : Nat) (k : AttKey V) (cursor : Bool)
  | stop (i : Nat)
  | vacuum (dead : Iptr → Bool)
  | step

/-- The rows whose insertion was begun. -/
def begun : List (Event V) → List (Row V)
  | [] => []
  | .insert _ r :: es => r :: begun es
  | _ :: es => begun es

/-- The rows of the table: rows whose insertion was begun come, dead rows go when VACUUM begins. -/
def after (rs : List (Row V)) : List (Event V) → List (Row V)
  | [] => rs
  | .insert _ r :: es => after (rs ++ [r]) es
  | .vacuum dead :: es => after (rs.filter (fun r => !dead r.tid)) es
  | _ :: es => after rs es

/-- The event is not the beginning of a new operation of backend `j`. -/
def Event.leaves (j : Nat) : Event V → Bool
  | .insert i _ | .read i _ _ => i != j
  | _ => true

/-- Some backend is still inserting the row. -/
def BeingInserted (n : Net V) (r : Row V) : Prop := ∃ i l, n.job i = .insert l ∧ ∃ op ∈ l, op.2.iptr = r.tid

/-- The running VACUUM was told that the row is dead. -/
def BeingRemoved (y : VNet V) (r : Row V) : Prop := ∃ w, y.vac = some w ∧ w.dead r.tid = true

section
variable (ix : Ix V) [Inhabited V] (rc : RowCfg V) (M : Lim)

/-- The events that can happen and what they do. A backend can visit a page that no other backend keeps locked and that is not the root VACUUM
keeps locked; an inserted row is one the index can take, not one that the running VACUUM was told is dead; one VACUUM runs at a time, and no row still
being inserted is dead. -/
def Fires : Event V → VNet V → VNet V → Prop
  | .entry i, y, z => y.net.eth i ≠ .idle ∧ (∀ j, j ≠ i → ∀ c, holds (y.net.eth j) = some c → c ∉ ix.needsE y.net i) ∧
      z = ⟨ix.visitEntry y.net i, y.vac⟩
  | .tree t i, y, z => (y.net.tth t i).free = false ∧ (∀ j, j ≠ i → ∀ c, holds (y.net.tth t j) = some c → c ∉ ix.needsT y.net t i) ∧
      (tv y.vac t ≠ none → visit 0 (y.net.tth t i) ≠ some 0) ∧ z = ⟨ix.visitTree y.net t i, y.vac⟩
  | .insert i r, y, z => (y.net.job i).free = true ∧ RowOK ix rc M r ∧ ¬ BeingRemoved y r ∧ z = ⟨y.net.next i (ix.entries rc r), y.vac⟩
  | .read i k c, y, z => (y.net.job i).free = true ∧ z = ⟨(y.net.setE i (descent k)).setJ i (.read k c), y.vac⟩
  | .stop i, y, z => searching (y.net.job i) ∧ z = ⟨y.net.quit i .idle, y.vac⟩
  | .vacuum dead, y, z => y.vac = none ∧ (∀ r, BeingInserted y.net r → dead r.tid = false) ∧ z = ⟨y.net, some ⟨dead, .down rootBlk⟩⟩
  | .step, y, z => ∃ dead p st q, y.vac = some ⟨dead, p⟩ ∧ vacMay y.net p ∧ ix.vacVisit dead y.net.st p = some (st, q) ∧
      z = ⟨{ y.net with st := st }, q.map (⟨dead, ·⟩)⟩

/-- A sequence of events. -/
inductive Run : VNet V → List (Event V) → VNet V → Prop
  | refl (n : VNet V) : Run n [] n
  | snoc {n n' n'' : VNet V} {es : List (Event V)} {e : Event V} : Run n es n' → Fires ix rc M e n' n'' → Run n (es ++ [e]) n''

/-- An index and the rows it is over: after any history of `IndexConc.IndexOver`, any row insertions and VACUUMs one after the other and any phases of
concurrent insertions, searches and VACUUMs. -/
inductive Over : State V → List (Row V) → Prop
  | start {st : State V} {rs : List (Row V)} : IndexOver ix rc M st rs → Over st rs
  | insert {st st' : State V} {rs : List (Row V)} {r : Row V} : Over st rs → RowOK ix rc M r → (∀ q ∈ rs, q.tid ≠ r.tid) →
      ix.insertRow rc st r = (st', true) → Over st' (rs ++ [r])
  | vacuum {st : State V} {rs : List (Row V)} (dead : Iptr → Bool) : Over st rs →
      Over (lastState st (ix.bulkDelete dead st).1) (rs.filter (fun r => !dead r.tid))
  | phase {st : State V} {rs : List (Row V)} {es : List (Event V)} {y : VNet V} : Over st rs → Run ix rc M ⟨calm st, none⟩ es y →
      (∀ i, (y.net.job i).free = true) → y.vac = none → ((after rs es).map Row.tid).Nodup → Over y.net.st (after rs es)
end

/-! ### Proof apparatus -/

section
variable {ix : Ix V} [Inhabited V] {rc : RowCfg V} {M : Lim}

omit [Inhabited V] in
theorem begun_append (a b : List (Event V)) : begun (a ++ b) = begun a ++ begun b := by
  induction a with
  | nil => rfl
  | cons e a ih => cases e <;> simp [begun, ih]

omit [Inhabited V] in
theorem after_append (rs : List (Row V)) (a b : List (Event V)) : after rs (a ++ b) = after (after rs a) b := by
  induction a generalizing rs with
  | nil => rfl
  | cons e a ih => cases e <;> simp [after, ih]

omit [Inhabited V] in
theorem after_sub (rs : List (Row V)) (es : List (Event V)) : ∀ r ∈ after rs es, r ∈ rs ++ begun es := by
  induction es generalizing rs with
  | nil => intro r h; simpa [after, begun] using h
  | cons e es ih =>
    intro r h
    cases e with
    | insert i q => have := ih _ r h; simpa [begun, or_assoc] using this
    | vacuum dead =>
      have := ih _ r h
      simp only [begun, List.mem_append, List.mem_filter] at this ⊢
      exact this.imp (fun h => h.1) id
    | _ => exact ih _ r h

/-- What is known of the ghosts. `U`: the rows that may come. -/
structure Track (ix : Ix V) (rc : RowCfg V) (M : Lim) (U cur : List (Row V)) (g : VC.Gh V) (y : VNet V) : Prop where
  inv : VC.NInv ix M g y.vac y.net
  rows : ∀ op, op ∈ g.T ↔ op ∈ cur.flatMap (ix.entries rc)
  wide : ∀ r ∈ U, ∀ op ∈ ix.entries rc r, ∀ k', Same ix k' op.1 → ∀ i, g.A i k' op.2

theorem entries_tid {r : Row V} {op : AttKey V × Item Datum} (h : op ∈ ix.entries rc r) : op.2.iptr = r.tid := by
  obtain ⟨a, ha, o, ho, rfl⟩ := mem_entries.1 h
  rfl

theorem rows_filter {cur : List (Row V)} {dead : Iptr → Bool} {op : AttKey V × Item Datum} :
    op ∈ (cur.filter (fun r => !dead r.tid)).flatMap (ix.entries rc) ↔ op ∈ cur.flatMap (ix.entries rc) ∧ dead op.2.iptr = false := by
  simp only [List.mem_flatMap, List.mem_filter, Bool.not_eq_true']
  constructor
  · rintro ⟨r, ⟨h1, h2⟩, h3⟩
    exact ⟨⟨r, h1, h3⟩, by rw [entries_tid h3]; exact h2⟩
  · rintro ⟨⟨r, h1, h3⟩, h2⟩
    exact ⟨r, ⟨h1, by rw [← entries_tid h3]; exact h2⟩, h3⟩

variable {U cur : List (Row V)} {g : VC.Gh V}

theorem Track.fires (hc : ColsOK ix M) (hbd : ix.build = false) (hal : ∀ k, 8 ∣ ix.keySize k) (hM : M.single = true) {y z : VNet V} {e : Event V}
    (T : Track ix rc M U cur g y) (hf : Fires ix rc M e y z) (hU : ∀ r ∈ begun [e], r ∈ U)
    (hS : ∀ dead, e = .vacuum dead → ∀ i, ∀ y ∈ g.S i, dead y.iptr = false) (hR : ∀ dead, e = .vacuum dead → ∀ k y, g.r.P k y → dead y.iptr = false) :
    ∃ g', Track ix rc M U (after cur [e]) g' z ∧ (g'.A = g.A ∧ g'.r = g.r) ∧ (∀ j, g'.S j = g.S j ∨ g'.S j = []) ∧ ∀ j, e.leaves j = true → g'.S j = g.S j := by
  cases e with
  | entry i =>
    obtain ⟨h1, h2, rfl⟩ := hf
    exact ⟨g, ⟨T.inv.visitEntry hc h1 h2, T.rows, T.wide⟩, ⟨rfl, rfl⟩, fun _ => Or.inl rfl, fun _ _ => rfl⟩
  | tree t i =>
    obtain ⟨h1, h2, h3, rfl⟩ := hf
    exact ⟨g, ⟨T.inv.visitTree hc hbd h1 h2 h3, T.rows, T.wide⟩, ⟨rfl, rfl⟩, fun _ => Or.inl rfl, fun _ _ => rfl⟩
  | insert i r =>
    obtain ⟨h1, h2, h3, rfl⟩ := hf
    refine ⟨{ g with T := g.T ++ ix.entries rc r }, ⟨T.inv.insert h1 (entries_ok h2) (T.wide r (hU r (by simp [begun]))) (fun w hw op ho => ?_),
      fun op => ?_, T.wide⟩, ⟨rfl, rfl⟩, fun _ => Or.inl rfl, fun _ _ => rfl⟩
    · rw [entries_tid ho]
      by_contra h
      exact h3 ⟨w, hw, by simpa using h⟩
    · simp [after, List.mem_append, T.rows op]
  | read i k c =>
    obtain ⟨h1, rfl⟩ := hf
    have I := T.inv.read hc h1 (k := k) (c := c) (S := []) (A := g.A i) (by simp) (by simp) (fun k y hy => (T.inv.ok k y hy).1 i) (by
      intro j l hj op ho k' hk'
      have := T.inv.job j
      rw [hj] at this
      exact this.2.2.1 op ho k' hk' i)
    have hA : (g.read i [] (g.A i)).A = g.A := by
      funext j
      simp only [VC.Gh.read]
      split
      · next h => rw [h]
      · rfl
    refine ⟨_, ⟨I, T.rows, by rw [hA]; exact T.wide⟩, ⟨hA, rfl⟩, fun j => ?_, fun j hj => ?_⟩
    · by_cases h : j = i
      · exact Or.inr (by simp [VC.Gh.read, h])
      · exact Or.inl (by simp [VC.Gh.read, h])
    · simp only [Event.leaves, bne_iff_ne, ne_eq] at hj
      exact if_neg (fun h => hj h.symm)
  | stop i =>
    obtain ⟨h1, rfl⟩ := hf
    cases hj : y.net.job i with
    | read k c => exact ⟨g, ⟨T.inv.quit hj, T.rows, T.wide⟩, ⟨rfl, rfl⟩, fun _ => Or.inl rfl, fun _ _ => rfl⟩
    | _ => rw [hj] at h1; simp [searching] at h1
  | vacuum dead =>
    obtain ⟨h1, h2, rfl⟩ := hf
    have I := T.inv
    rw [h1] at I
    refine ⟨_, ⟨I.vacuum dead (hS dead rfl) (hR dead rfl) (fun j l hj op ho => ?_), fun op => ?_, T.wide⟩, ⟨rfl, rfl⟩, fun _ => Or.inl rfl, fun _ _ => rfl⟩
    · exact h2 ⟨op.2.iptr, fun _ => none, none⟩ ⟨j, l, hj, op, ho, rfl⟩
    · show _ ↔ op ∈ (cur.filter _).flatMap _
      rw [rows_filter, ← T.rows op, List.mem_filter]
      simp
  | step =>
    obtain ⟨dead, p, st, q, h1, h2, h3, rfl⟩ := hf
    have I := T.inv
    rw [h1] at I
    obtain ⟨r, h4, h5⟩ := I.vacStep hc hal hM h2
    rw [h3] at h4
    cases h4
    exact ⟨g, ⟨h5, T.rows, T.wide⟩, ⟨rfl, rfl⟩, fun _ => Or.inl rfl, fun _ _ => rfl⟩

theorem Track.run (hc : ColsOK ix M) (hbd : ix.build = false) (hal : ∀ k, 8 ∣ ix.keySize k) (hM : M.single = true) {y z : VNet V} {es : List (Event V)}
    (T : Track ix rc M U cur g y) (hr : Run ix rc M y es z) (hU : ∀ r ∈ begun es, r ∈ U)
    (hS : ∀ dead, .vacuum dead ∈ es → ∀ i, ∀ y ∈ g.S i, dead y.iptr = false) (hR : ∀ k y, ¬ g.r.P k y) :
    ∃ g', Track ix rc M U (after cur es) g' z ∧ (g'.A = g.A ∧ g'.r = g.r) ∧ (∀ j, g'.S j = g.S j ∨ g'.S j = []) ∧
      ∀ j, (∀ e ∈ es, e.leaves j = true) → g'.S j = g.S j := by
  induction hr with
  | refl => exact ⟨g, T, ⟨rfl, rfl⟩, fun _ => Or.inl rfl, fun _ _ => rfl⟩
  | @snoc n2 n3 es e hr hf ih =>
    obtain ⟨g', h1, h2, h3, h4⟩ := ih (fun r hr => hU r (by rw [begun_append]; exact List.mem_append_left _ hr))
      (fun d hd => hS d (List.mem_append_left _ hd))
    obtain ⟨g2, k1, k2, k3, k4⟩ := h1.fires hc hbd hal hM hf (fun r hr => hU r (by rw [begun_append]; exact List.mem_append_right _ hr))
      (fun d hd i y hy => by
        rcases h3 i with h | h
        · exact hS d (by simp [hd]) i y (h ▸ hy)
        · rw [h] at hy; cases hy) (fun d _ k y hy => absurd (h2.2 ▸ hy) (hR k y))
    refine ⟨g2, by rw [after_append]; exact k1, ⟨k2.1.trans h2.1, k2.2.trans h2.2⟩, fun j => ?_, fun j hj => ?_⟩
    · rcases k3 j with h | h
      · rw [h]; exact h3 j
      · exact Or.inr h
    · rw [k4 j (hj e (by simp)), h4 j (fun e he => hj e (List.mem_append_left _ he))]

/-- Nothing remembered. -/
def rest : VC.Ride V := ⟨fun _ _ => False, fun _ _ => False, fun _ => False, fun _ _ => False⟩

omit [Inhabited V] in
theorem rest_P (k : AttKey V) (y : Item Datum) : ¬ (rest : VC.Ride V).P k y := id

theorem Track.start (hc : ColsOK ix M) {st : State V} {rs : List (Row V)} (L : Life ix rc M st rs) (U : List (Row V)) :
    Track ix rc M (rs ++ U) rs ⟨fun _ => [], fun _ => EntryOf ix rc (rs ++ U), rs.flatMap (ix.entries rc), rest⟩ ⟨calm st, none⟩ := by
  have := hc.keys
  have hrow : ∀ k y, y ∈ ix.rowsOf st k → EntryOf ix rc (rs ++ U) k y := by
    intro k y h
    obtain ⟨h1, r, h2, h3⟩ := (L.rows k y).1 h
    exact ⟨h1, r, List.mem_append_left _ h2, h3⟩
  refine ⟨⟨?_, fun e he => ?_, L.inv.inj, fun k y h => ⟨fun _ => hrow k y h, Or.inl ((entryOf_iff rs k y).1 ((L.rows k y).1 h))⟩, (fun _ h => by cases h),
    (fun _ h => by cases h), fun j => ⟨rfl, fun _ => rfl⟩, fun op hop => Or.inl ?_⟩, fun _ => Iff.rfl, fun r hr op ho k' hk' i => ?_⟩
  · obtain ⟨K, hK, key, G, hk, Y⟩ := ESys.rest (C := True) L.inv.entry (th := fun _ => .idle) (fun _ => rfl)
    exact ⟨K, hK, key, G, hk, Y, (fun w hw => by cases hw), (fun _ _ h => h.elim), (fun _ _ h => h.elim), (fun _ h => h.elim), (fun _ _ h => h.elim), (fun _ _ _ _ h => h.elim)⟩
  · obtain ⟨h1, h2, h3⟩ := L.inv.ents e he
    refine ⟨h1, h2, fun t ht => ⟨(h3 t ht).1, VC.TV.rest (h3 t ht).2 (fun _ => rfl) (fun i y hy => ?_)⟩⟩
    cases i with
    | zero => trivial
    | succ i =>
      intro k' hk'
      refine hrow k' y ?_
      rw [EInv.rowsOf_eq hc L.inv.entry he hk']
      unfold Index.rows
      rw [ht]
      exact hy
  · have htr : TransCmp (ix.ctx op.1.attnum).cmpV := hc.infos _
    have htr' : TransCmp (ix.ctx op.1.attnum).cmp := cmpItem_trans _ _
    exact ⟨op.2, (L.rows op.1 op.2).2 ((entryOf_iff rs _ _).2 ⟨op, hop, ReflCmp.compare_self (cmp := cmpAttEntries ix.cmpK), rfl⟩),
      ReflCmp.compare_self (cmp := (ix.ctx op.1.attnum).cmp)⟩
  · exact (entryOf_iff _ k' op.2).2 ⟨op, List.mem_flatMap.2 ⟨r, hr, ho⟩, same_symm hc hk', rfl⟩

/-- A row that is in the table and not being inserted is found. -/
theorem Track.found (hc : ColsOK ix M) (hs : ∀ a, SortOK (ix.cmpK a) (rc.sort a)) (hd : ∀ a, DupsSeen (ix.cmpK a) (rc.haveDups a)) {y : VNet V}
    (T : Track ix rc M U cur g y) {r : Row V} (hr : r ∈ cur) (hn : ¬ BeingInserted y.net r) {k : AttKey V} (hk1 : 1 ≤ k.attnum)
    (hk2 : k.attnum ≤ rc.natts) (hcon : Contains (ix.cmpK k.attnum) (r.value k.attnum) k) : ∃ z ∈ ix.rowsOf y.net.st k, z.iptr = r.tid := by
  obtain ⟨o, ho, hsm⟩ := (colEntries_key (rc := rc) hc (hs k.attnum) (hd k.attnum) r (k := k) rfl).1.2 hcon
  have hop : (outKey k.attnum o, (⟨r.tid, o.info⟩ : Item Datum)) ∈ ix.entries rc r := mem_entries.2 ⟨_, ⟨hk1, hk2⟩, o, ho, rfl⟩
  rcases T.inv.due _ ((T.rows _).2 (List.mem_flatMap.2 ⟨r, hr, hop⟩)) with ⟨z, hz, he⟩ | ⟨j, l, h1, h2⟩
  · refine ⟨z, ?_, cmp_eq_iptr he⟩
    rw [← VC.rows_same hc T.inv.entry.einv hsm]
    exact hz
  · exact absurd ⟨j, l, h1, _, h2, rfl⟩ hn

/-- Nobody at work: the index is over the rows. -/
theorem Track.life (hc : ColsOK ix M) (hM : M.single = true) (hs : ∀ a, SortOK (ix.cmpK a) (rc.sort a)) (hd : ∀ a, DupsSeen (ix.cmpK a) (rc.haveDups a))
    {y : VNet V} (T : Track ix rc M U cur g y) (hf : ∀ i, (y.net.job i).free = true) (hv : y.vac = none) (htid : (cur.map Row.tid).Nodup) :
    Life ix rc M y.net.st cur := by
  have hq := fun i => ((T.inv.job i).quiet (hf i)).1
  have hall : ∀ k, ∀ z ∈ ix.rowsOf y.net.st k, EntryOf ix rc cur k z := by
    intro k z hz
    rcases (T.inv.ok k z hz).2 with ⟨op, h1, h2⟩ | ⟨w, hw, -⟩
    · exact (entryOf_iff cur k z).2 ⟨op, (T.rows op).1 h1, h2⟩
    · rw [hv] at hw; cases hw
  refine ⟨⟨?_, fun e he => ?_, T.inv.inj⟩, htid, fun k z => ⟨hall k z, fun h => ?_⟩⟩
  · obtain ⟨K, hK, key, G, hk, Y, -⟩ := T.inv.entry
    exact ESys.full (C := True) ⟨K, hK, key, G, hk, Y⟩ (fun i => by rw [(hq i).1]; rfl)
  · obtain ⟨h1, h2, h3⟩ := T.inv.tup e he
    refine ⟨h1, h2, fun t ht => ⟨(h3 t ht).1, ?_⟩⟩
    have h4 := (h3 t ht).2
    rw [hv] at h4
    exact VC.TV.full hM h4 (fun i => by rw [show y.net.tth t i = .idle from (hq i).2 t]; rfl)
  · obtain ⟨op, hop, hsm, rfl⟩ := (entryOf_iff cur k z).1 h
    rcases T.inv.due op ((T.rows op).2 hop) with ⟨z, hz, he⟩ | ⟨j, l, hj, -⟩
    · rw [VC.rows_same hc T.inv.entry.einv hsm] at hz
      rw [← entryOf_one hc hs hd htid (hall k z hz) h (cmp_eq_iptr he)]
      exact hz
    · have := hf j
      rw [hj] at this
      cases this

theorem Over.life (hbd : ix.build = false) (hal : ∀ k, 8 ∣ ix.keySize k) (hM : M.single = true) (hs : ∀ a, SortOK (ix.cmpK a) (rc.sort a))
    (hd : ∀ a, DupsSeen (ix.cmpK a) (rc.haveDups a)) {st : State V} {rs : List (Row V)} (h : Over ix rc M st rs) : ColsOK ix M ∧ Life ix rc M st rs := by
  induction h with
  | start h => exact h.life hs hd
  | insert _ hr hn hi ih =>
    obtain ⟨t, h1, L⟩ := ih.2.insert ih.1 hs hd hr hn
    rw [hi] at h1
    cases h1
    exact ⟨ih.1, L⟩
  | vacuum dead _ ih =>
    obtain ⟨l, l1, l2, -⟩ := ih.2.vacuum ih.1 hal hM dead
    rw [l1]
    exact ⟨ih.1, l2⟩
  | @phase st rs es y _ hr hf hv htid ih =>
    obtain ⟨g, T, -⟩ := (Track.start ih.1 ih.2 (begun es)).run ih.1 hbd hal hM hr (fun r hr => List.mem_append_right _ hr) (fun _ _ _ _ h => by cases h) rest_P
    exact ⟨ih.1, T.life ih.1 hM hs hd hf hv htid⟩

/-- Both kinds of searches. -/
theorem search (hbd : ix.build = false) (hal : ∀ k, 8 ∣ ix.keySize k) (hM : M.single = true) (hs : ∀ a, SortOK (ix.cmpK a) (rc.sort a))
    (hd : ∀ a, DupsSeen (ix.cmpK a) (rc.haveDups a)) {st : State V} {rs : List (Row V)} (h0 : Over ix rc M st rs) {es1 es2 : List (Event V)}
    {n1 n2 n3 : VNet V} {j : Nat} {k : AttKey V} {c : Bool} {R : List (Item Datum)} (hk1 : 1 ≤ k.attnum) (hk2 : k.attnum ≤ rc.natts)
    (h1 : Run ix rc M ⟨calm st, none⟩ es1 n1) (h2 : Fires ix rc M (.read j k c) n1 n2) (h3 : Run ix rc M n2 es2 n3)
    (hl : ∀ e ∈ es2, e.leaves j = true) (hR : n3.net.job j = .answer k c R) :
    (∀ r ∈ after rs es1, ¬ BeingInserted n1.net r → Contains (ix.cmpK k.attnum) (r.value k.attnum) k →
      (∀ dead, .vacuum dead ∈ es2 → dead r.tid = false) → c = false ∨ R ≠ [] →
      ∃ y ∈ R, y.iptr = r.tid ∧ (c = true → y ∈ fresh (ix.ctx k.attnum).cmp R)) ∧
    ∀ y ∈ R, ∃ r ∈ rs ++ begun es1 ++ begun es2, r.tid = y.iptr ∧ Contains (ix.cmpK k.attnum) (r.value k.attnum) k ∧
      InfoOf rc (ix.cmpK k.attnum) r k y.info ∧ (r ∈ after rs es1 ∨ r ∈ begun es2 ∨ BeingRemoved n1 r) := by
  classical
  obtain ⟨hc, L⟩ := h0.life hbd hal hM hs hd
  have htr : TransCmp (ix.ctx k.attnum).cmpV := hc.infos k.attnum
  have htr' : TransCmp (ix.ctx k.attnum).cmp := cmpItem_trans _ _
  obtain ⟨g1, T1, ⟨hA1, hr1⟩, hS1, -⟩ := (Track.start hc L (begun es1 ++ begun es2)).run hc hbd hal hM h1 (fun r hr => by simp [hr]) (fun _ _ _ _ h => by cases h) rest_P
  replace hS1 : ∀ i, g1.S i = [] := fun i => (hS1 i).elim id id
  let S : List (Item Datum) := (ix.rowsOf n1.net.st k).filter
    (fun y => decide ((∀ w, n1.vac = some w → w.dead y.iptr = false) ∧ ∀ dead, .vacuum dead ∈ es2 → dead y.iptr = false))
  let A : AttKey V → Item Datum → Prop := fun k y => EntryOf ix rc (after rs es1 ++ begun es2) k y ∨
    ((∃ w, n1.vac = some w ∧ w.dead y.iptr = true) ∧ EntryOf ix rc (rs ++ (begun es1 ++ begun es2)) k y)
  have hmS : ∀ y, y ∈ S ↔ y ∈ ix.rowsOf n1.net.st k ∧ (∀ w, n1.vac = some w → w.dead y.iptr = false) ∧ ∀ dead, .vacuum dead ∈ es2 → dead y.iptr = false := by
    intro y; simp [S, List.mem_filter]
  obtain ⟨f1, f2⟩ := h2
  have hcur : ∀ op ∈ g1.T, ∀ k', Same ix k' op.1 → A k' op.2 := by
    intro op ho k' hk'
    refine Or.inl ((entryOf_iff _ k' op.2).2 ⟨op, ?_, same_symm hc hk', rfl⟩)
    rw [List.flatMap_append]
    exact List.mem_append_left _ ((T1.rows op).1 ho)
  have I2 := T1.inv.read hc f1 (k := k) (c := c) (S := S) (A := A) (fun y hy => ((hmS y).1 hy).1) (fun w hw y hy => ((hmS y).1 hy).2.1 w hw)
    (by
      intro k' y hy
      obtain ⟨b1, b2⟩ := T1.inv.ok k' y hy
      rcases b2 with ⟨op, o1, o2, rfl⟩ | hw
      · exact hcur op o1 k' (same_symm hc o2)
      · refine Or.inr ⟨hw, ?_⟩
        have := b1 j
        rw [hA1] at this
        exact this)
    (by
      intro i l hi op ho k' hk'
      have := T1.inv.job i
      rw [hi] at this
      exact hcur op (this.2.1 op ho) k' hk')
  have T2 : Track ix rc M (begun es2) (after rs es1) (g1.read j S A) n2 := by
    refine ⟨by rw [f2]; exact I2, T1.rows, fun r hr op ho k' hk' i => ?_⟩
    simp only [VC.Gh.read]
    split
    · refine Or.inl ((entryOf_iff _ k' op.2).2 ⟨op, ?_, same_symm hc hk', rfl⟩)
      exact List.mem_flatMap.2 ⟨r, List.mem_append_right _ hr, ho⟩
    · exact T1.wide r (by simp [hr]) op ho k' hk' i
  have hSj : (g1.read j S A).S j = S := by simp [VC.Gh.read]
  have hAj : (g1.read j S A).A j = A := by simp [VC.Gh.read]
  obtain ⟨g3, T3, ⟨hA3, -⟩, -, hS3⟩ := T2.run hc hbd hal hM h3 (fun r hr => hr) (fun dead hv i y hy => by
    by_cases hij : i = j
    · subst hij
      rw [hSj] at hy
      exact ((hmS y).1 hy).2.2 dead hv
    · have : (g1.read j S A).S i = g1.S i := by simp [VC.Gh.read, hij]
      rw [this, hS1 i] at hy
      cases hy) (fun k y hy => by
      have : g1.r.P k y := hy
      rw [hr1] at this
      exact this)
  have hj := T3.inv.job j
  rw [hR] at hj
  obtain ⟨-, j1, j2, j3⟩ := hj
  rw [hS3 j hl, hSj] at j1 j2
  rw [hA3, hAj] at j3
  refine ⟨fun r hr hn hcon hv hne => ?_, fun y hy => ?_⟩
  · obtain ⟨y, hy, he⟩ := T1.found hc hs hd hr hn hk1 hk2 hcon
    have hyS : y ∈ S := by
      refine (hmS y).2 ⟨hy, fun w hw => ?_, fun dead hdd => by rw [he]; exact hv dead hdd⟩
      obtain ⟨o, ho, -⟩ := (colEntries_key (rc := rc) hc (hs k.attnum) (hd k.attnum) r (k := k) rfl).1.2 hcon
      have hop : (outKey k.attnum o, (⟨r.tid, o.info⟩ : Item Datum)) ∈ ix.entries rc r := mem_entries.2 ⟨_, ⟨hk1, hk2⟩, o, ho, rfl⟩
      have := (T1.inv.alive w hw).1 _ ((T1.rows _).2 (List.mem_flatMap.2 ⟨r, hr, hop⟩))
      rw [he]
      exact this
    cases c with
    | false => exact ⟨y, j1 rfl y hyS, he, fun h => by cases h⟩
    | true =>
      have hdel := ((j2 rfl).resolve_left (hne.resolve_left (by simp))) y hyS
      have hf := fresh_of_delivered hdel
      exact ⟨y, fresh_sub _ _ y hf, he, fun _ => hf⟩
  · have hrow : ∀ rows : List (Row V), EntryOf ix rc rows k y → ∃ r ∈ rows, r.tid = y.iptr ∧ Contains (ix.cmpK k.attnum) (r.value k.attnum) k ∧
        InfoOf rc (ix.cmpK k.attnum) r k y.info := by
      rintro rows ⟨-, r, hr, o, ho, hsm, rfl⟩
      have hcol := colEntries_key (rc := rc) hc (hs k.attnum) (hd k.attnum) r (k := k) rfl
      exact ⟨r, hr, rfl, hcol.1.1 ⟨o, ho, hsm⟩, hcol.2.1 o ho hsm⟩
    rcases j3 y hy with h | ⟨⟨w, hw, hdead⟩, h⟩
    · obtain ⟨r, hr, h4, h5, h6⟩ := hrow _ h
      rcases List.mem_append.1 hr with hr | hr
      · refine ⟨r, ?_, h4, h5, h6, Or.inl hr⟩
        exact List.mem_append_left _ (after_sub _ _ r hr)
      · exact ⟨r, List.mem_append_right _ hr, h4, h5, h6, Or.inr (Or.inl hr)⟩
    · obtain ⟨r, hr, h4, h5, h6⟩ := hrow _ h
      exact ⟨r, by simpa using hr, h4, h5, h6, Or.inr (Or.inr ⟨w, hw, by rw [h4]; exact hdead⟩)⟩

end

/-! ### Properties -/

section
variable (ix : Ix V) [Inhabited V] (rc : RowCfg V) (M : Lim) (hbd : ix.build = false) (hal : ∀ k, 8 ∣ ix.keySize k) (hM : M.single = true)
  (hs : ∀ a, SortOK (ix.cmpK a) (rc.sort a)) (hd : ∀ a, DupsSeen (ix.cmpK a) (rc.haveDups a))
include hbd hal hM hs hd

/-- **C64 (searches).** An index over rows `rs`; any concurrent insertions, searches and VACUUMs (`es1`); backend `j` begins a search for a key, page by
page; everything goes on meanwhile (`es2`), VACUUMs too. When the search has ended, it has delivered every row with the key that was in the table and not
still being inserted when the search began, unless a VACUUM that began meanwhile was told that it is dead. It has delivered nothing but rows with the
key, each with its additional info: rows that were in the table when the search began or came meanwhile, or dead rows that a VACUUM was removing when the
search began. -/
theorem C64_search (st : State V) (rs : List (Row V)) (h0 : Over ix rc M st rs) (es1 es2 : List (Event V)) (n1 n2 n3 : VNet V) (j : Nat)
    (k : AttKey V) (R : List (Item Datum)) (hk1 : 1 ≤ k.attnum) (hk2 : k.attnum ≤ rc.natts) (h1 : Run ix rc M ⟨calm st, none⟩ es1 n1)
    (h2 : Fires ix rc M (.read j k false) n1 n2) (h3 : Run ix rc M n2 es2 n3) (hl : ∀ e ∈ es2, e.leaves j = true)
    (hR : n3.net.job j = .answer k false R) :
    (∀ r ∈ after rs es1, ¬ BeingInserted n1.net r → Contains (ix.cmpK k.attnum) (r.value k.attnum) k →
      (∀ dead, .vacuum dead ∈ es2 → dead r.tid = false) → ∃ y ∈ R, y.iptr = r.tid) ∧
    ∀ y ∈ R, ∃ r ∈ rs ++ begun es1 ++ begun es2, r.tid = y.iptr ∧ Contains (ix.cmpK k.attnum) (r.value k.attnum) k ∧
      InfoOf rc (ix.cmpK k.attnum) r k y.info ∧ (r ∈ after rs es1 ∨ r ∈ begun es2 ∨ BeingRemoved n1 r) := by
  obtain ⟨a, b⟩ := search hbd hal hM hs hd h0 hk1 hk2 h1 h2 h3 hl hR
  refine ⟨fun r hr hn hcon hv => ?_, b⟩
  obtain ⟨y, hy, he, -⟩ := a r hr hn hcon hv (Or.inl rfl)
  exact ⟨y, hy, he⟩

/-- **C64 (the index).** No insertion fails. When nobody is at work, the index holds exactly the entries of the rows of the table: a lookup of any key
finds exactly the rows that contain it, in order, each once, with its additional info. -/
theorem C64_all_rows_indexed (st : State V) (rs : List (Row V)) (h0 : Over ix rc M st rs) (es : List (Event V)) (y : VNet V)
    (h : Run ix rc M ⟨calm st, none⟩ es y) (htid : ((after rs es).map Row.tid).Nodup) :
    (∀ i, y.net.job i ≠ .failed) ∧ ((∀ i, (y.net.job i).free = true) → y.vac = none → Indexes ix rc y.net.st (after rs es)) := by
  obtain ⟨hc, L⟩ := h0.life hbd hal hM hs hd
  obtain ⟨g, T, -⟩ := (Track.start hc L (begun es)).run hc hbd hal hM h (fun r hr => List.mem_append_right _ hr) (fun _ _ _ _ h => by cases h) rest_P
  refine ⟨fun i hi => ?_, fun hf hv => (T.life hc hM hs hd hf hv htid).indexes hc hs hd⟩
  have hj := T.inv.job i
  rw [hi] at hj
  exact hj

/-- **C64 (at any moment).** Whatever is going on, at every moment a lookup of any key finds every row with the key that is in the table and not still being
inserted, and nothing but rows of the table with the key, each with its additional info, and dead rows that a running VACUUM is removing. In particular once
VACUUM has ended no row that it was told is dead is found, although insertions and searches went on all the time. (This is also what a search finds after
a crash at that moment.) -/
theorem C64_any_moment (st : State V) (rs : List (Row V)) (h0 : Over ix rc M st rs) (es : List (Event V)) (y : VNet V)
    (h : Run ix rc M ⟨calm st, none⟩ es y) (k : AttKey V) (hk1 : 1 ≤ k.attnum) (hk2 : k.attnum ≤ rc.natts) :
    (∀ r ∈ after rs es, ¬ BeingInserted y.net r → Contains (ix.cmpK k.attnum) (r.value k.attnum) k → ∃ z ∈ ix.rowsOf y.net.st k, z.iptr = r.tid) ∧
    ∀ z ∈ ix.rowsOf y.net.st k, ∃ r ∈ rs ++ begun es, r.tid = z.iptr ∧ Contains (ix.cmpK k.attnum) (r.value k.attnum) k ∧
      InfoOf rc (ix.cmpK k.attnum) r k z.info ∧ (r ∈ after rs es ∨ BeingRemoved y r) := by
  obtain ⟨hc, L⟩ := h0.life hbd hal hM hs hd
  obtain ⟨g, T, ⟨hA, -⟩, -⟩ := (Track.start hc L (begun es)).run hc hbd hal hM h (fun r hr => List.mem_append_right _ hr) (fun _ _ _ _ h => by cases h) rest_P
  refine ⟨fun r hr hn hcon => T.found hc hs hd hr hn hk1 hk2 hcon, fun z hz => ?_⟩
  have hrow : ∀ rows : List (Row V), EntryOf ix rc rows k z → ∃ r ∈ rows, r.tid = z.iptr ∧ Contains (ix.cmpK k.attnum) (r.value k.attnum) k ∧
      InfoOf rc (ix.cmpK k.attnum) r k z.info := by
    rintro rows ⟨-, r, hr, o, ho, hsm, rfl⟩
    have hcol := colEntries_key (rc := rc) hc (hs k.attnum) (hd k.attnum) r (k := k) rfl
    exact ⟨r, hr, rfl, hcol.1.1 ⟨o, ho, hsm⟩, hcol.2.1 o ho hsm⟩
  obtain ⟨a1, a2⟩ := T.inv.ok k z hz
  rcases a2 with ⟨op, h1, h2⟩ | ⟨w, hw, hdead⟩
  · obtain ⟨r, hr, h4, h5, h6⟩ := hrow _ ((entryOf_iff (after rs es) k z).2 ⟨op, (T.rows op).1 h1, h2⟩)
    exact ⟨r, after_sub _ _ r hr, h4, h5, h6, Or.inl hr⟩
  · have := a1 0
    rw [hA] at this
    obtain ⟨r, hr, h4, h5, h6⟩ := hrow _ this
    exact ⟨r, hr, h4, h5, h6, Or.inr ⟨w, hw, by rw [h4]; exact hdead⟩⟩

/-- **C64 (no deadlock, no error).** As long as some backend is at work or a VACUUM is under way, a backend that is at work can visit its next page or VACUUM
can make its next step; and whenever VACUUM can take its locks its step does not end in an error. -/
theorem C64_no_deadlock (st : State V) (rs : List (Row V)) (h0 : Over ix rc M st rs) (es : List (Event V)) (y : VNet V)
    (h : Run ix rc M ⟨calm st, none⟩ es y) :
    (y.vac ≠ none ∨ (∃ i, (y.net.job i).free = false) →
      ∃ e z, Fires ix rc M e y z ∧ (e = .step ∨ (∃ j, e = .entry j) ∨ ∃ t j, e = .tree t j)) ∧
    ∀ w, y.vac = some w → vacMay y.net w.pos → ∃ r, ix.vacVisit w.dead y.net.st w.pos = some r := by
  obtain ⟨hc, L⟩ := h0.life hbd hal hM hs hd
  obtain ⟨g, T, -⟩ := (Track.start hc L (begun es)).run hc hbd hal hM h (fun r hr => List.mem_append_right _ hr) (fun _ _ _ _ h => by cases h) rest_P
  have hstep : ∀ w, y.vac = some w → vacMay y.net w.pos → ∃ r, ix.vacVisit w.dead y.net.st w.pos = some r := by
    intro w hw hm
    have I := T.inv
    rw [hw] at I
    obtain ⟨r, h1, -⟩ := I.vacStep hc hal hM hm
    exact ⟨r, h1⟩
  refine ⟨fun hb => ?_, hstep⟩
  rcases T.inv.live hbd hb with ⟨j, h1, h2⟩ | ⟨t, j, h1, h2, h3⟩ | ⟨w, hw, hm⟩
  · exact ⟨.entry j, _, ⟨h1, h2, rfl⟩, Or.inr (Or.inl ⟨j, rfl⟩)⟩
  · exact ⟨.tree t j, _, ⟨h1, h2, h3, rfl⟩, Or.inr (Or.inr ⟨t, j, rfl⟩)⟩
  · obtain ⟨⟨st', q⟩, hr⟩ := hstep w hw hm
    exact ⟨.step, _, ⟨w.dead, w.pos, st', q, hw, hm, hr, rfl⟩, Or.inl rfl⟩

/-- **C65, partial.** The same as `C64_search` for a search item by item that delivers at least one row; the rows are counted as the consumer sees them,
items not above the last one dropped. Missing: a search that delivers nothing may have missed live rows (VACUUM has emptied the first page of the posting
tree, `VacConc.C62_violated`). -/
theorem C65_search_partial (st : State V) (rs : List (Row V)) (h0 : Over ix rc M st rs) (es1 es2 : List (Event V)) (n1 n2 n3 : VNet V) (j : Nat)
    (k : AttKey V) (R : List (Item Datum)) (hk1 : 1 ≤ k.attnum) (hk2 : k.attnum ≤ rc.natts) (h1 : Run ix rc M ⟨calm st, none⟩ es1 n1)
    (h2 : Fires ix rc M (.read j k true) n1 n2) (h3 : Run ix rc M n2 es2 n3) (hl : ∀ e ∈ es2, e.leaves j = true)
    (hR : n3.net.job j = .answer k true R) :
    SSorted (ix.ctx k.attnum).cmp (fresh (ix.ctx k.attnum).cmp R) ∧
    (R ≠ [] → ∀ r ∈ after rs es1, ¬ BeingInserted n1.net r → Contains (ix.cmpK k.attnum) (r.value k.attnum) k →
      (∀ dead, .vacuum dead ∈ es2 → dead r.tid = false) → ∃ y ∈ fresh (ix.ctx k.attnum).cmp R, y.iptr = r.tid) ∧
    ∀ y ∈ R, ∃ r ∈ rs ++ begun es1 ++ begun es2, r.tid = y.iptr ∧ Contains (ix.cmpK k.attnum) (r.value k.attnum) k ∧
      InfoOf rc (ix.cmpK k.attnum) r k y.info ∧ (r ∈ after rs es1 ∨ r ∈ begun es2 ∨ BeingRemoved n1 r) := by
  obtain ⟨hc, -⟩ := h0.life hbd hal hM hs hd
  have htr : TransCmp (ix.ctx k.attnum).cmpV := hc.infos k.attnum
  have htr' : TransCmp (ix.ctx k.attnum).cmp := cmpItem_trans _ _
  obtain ⟨a, b⟩ := search hbd hal hM hs hd h0 hk1 hk2 h1 h2 h3 hl hR
  refine ⟨fresh_sorted _ R, fun hne r hr hn hcon hv => ?_, b⟩
  obtain ⟨y, -, he, hy⟩ := a r hr hn hcon hv (Or.inr hne)
  exact ⟨y, hy rfl, he⟩
end

/-! ### Concrete cases -/

section
variable {ix : Ix V} [Inhabited V] {rc : RowCfg V} {M : Lim}

theorem Run.split {n n' : VNet V} {es es' : List (Event V)} (h : Run ix rc M n (es ++ es') n') : ∃ m, Run ix rc M n es m ∧ Run ix rc M m es' n' := by
  generalize hl : es ++ es' = l at h
  induction h generalizing es' with
  | refl =>
    obtain ⟨rfl, rfl⟩ := List.append_eq_nil_iff.1 hl
    exact ⟨n, .refl _, .refl _⟩
  | @snoc n2 n3 l e hr hf ih =>
    rcases List.eq_nil_or_concat es' with rfl | ⟨l', e', rfl⟩
    · rw [List.append_nil] at hl
      subst hl
      exact ⟨n3, .snoc hr hf, .refl _⟩
    · rw [List.concat_eq_append, ← List.append_assoc] at hl
      obtain ⟨h1, h2⟩ := List.append_inj' hl rfl
      cases h2
      obtain ⟨m, m1, m2⟩ := ih h1
      exact ⟨m, m1, by rw [List.concat_eq_append]; exact .snoc m2 hf⟩

/-- The result of an event. -/
def Event.result (ix : Ix V) (rc : RowCfg V) (y : VNet V) : Event V → Option (VNet V)
  | .entry i => some ⟨ix.visitEntry y.net i, y.vac⟩
  | .insert i r => some ⟨y.net.next i (ix.entries rc r), y.vac⟩
  | .read i k c => some ⟨(y.net.setE i (descent k)).setJ i (.read k c), y.vac⟩
  | .vacuum dead => some ⟨y.net, some ⟨dead, .down rootBlk⟩⟩
  | .step => match y.vac with
    | some ⟨dead, p⟩ => (ix.vacVisit dead y.net.st p).map (fun r => ⟨{ y.net with st := r.1 }, r.2.map (⟨dead, ·⟩)⟩)
    | none => none
  | _ => none

/-- The event can happen, if only backends below `N` are at work. Visits to posting trees are left out. -/
def Event.can (ix : Ix V) (N : Nat) (y : VNet V) : Event V → Bool
  | .entry i => decide (i < N) && !IndexConc.isIdle (y.net.eth i) &&
      (List.range N).all (fun j => j == i || (holds (y.net.eth j)).all (fun c => !(ix.needsE y.net i).contains c))
  | .insert i r => decide (i < N) && (y.net.job i).free && y.vac.all (fun w => !w.dead r.tid)
  | .read i _ _ => decide (i < N) && (y.net.job i).free
  | .vacuum _ => y.vac.isNone && (List.range N).all (fun j => (y.net.job j).free)
  | .step => match y.vac with
    | some ⟨_, .down b⟩ | some ⟨_, .leaf b⟩ => (List.range N).all (fun j => !(holds (y.net.eth j) == some b))
    | some ⟨_, .trees [] _⟩ => true
    | _ => false
  | _ => false

def results (ix : Ix V) (rc : RowCfg V) (N : Nat) : VNet V → List (Event V) → Option (VNet V)
  | y, [] => some y
  | y, e :: es => if e.can ix N y then (e.result ix rc y).bind (fun z => results ix rc N z es) else none

theorem can_fires {N : Nat} {y z : VNet V} {e : Event V} (hN : ∀ j, N ≤ j → y.net.eth j = .idle ∧ y.net.job j = .idle) (h : e.can ix N y = true)
    (hz : e.result ix rc y = some z) (hr : ∀ i r, e = .insert i r → RowOK ix rc M r) :
    Fires ix rc M e y z ∧ ∀ j, N ≤ j → z.net.eth j = .idle ∧ z.net.job j = .idle := by
  cases e with
  | entry i =>
    cases hz
    simp only [Event.can, Bool.and_eq_true, decide_eq_true_eq, Bool.not_eq_true', List.all_eq_true, List.mem_range, Bool.or_eq_true, beq_iff_eq] at h
    obtain ⟨⟨h1, h2⟩, h3⟩ := h
    refine ⟨⟨(fun hi => by rw [hi] at h2; cases h2), fun j hj c hc => ?_, rfl⟩, fun j hj => ?_⟩
    · by_cases hjN : j < N
      · rcases h3 j hjN with h4 | h4
        · exact absurd h4 hj
        · rw [hc] at h4
          simpa using h4
      · rw [(hN j (by omega)).1] at hc; cases hc
    · have := IndexConc.visitEntry_other (ix := ix) (i := i) (j := j) (by omega) y.net
      simp only
      rw [this.1, this.2.2]
      exact hN j hj
  | tree t i => cases h
  | insert i r =>
    cases hz
    simp only [Event.can, Bool.and_eq_true, decide_eq_true_eq] at h
    refine ⟨⟨h.1.2, hr i r rfl, fun ⟨w, hw, hd⟩ => ?_, rfl⟩, fun j hj => ?_⟩
    · have := h.2
      rw [hw] at this
      simp [hd] at this
    · have := IndexConc.next_other (i := i) (j := j) (by omega) y.net (ix.entries rc r)
      simp only
      rw [this.1, this.2.2]
      exact hN j hj
  | read i k c =>
    cases hz
    simp only [Event.can, Bool.and_eq_true, decide_eq_true_eq] at h
    refine ⟨⟨h.2, rfl⟩, fun j hj => ?_⟩
    have : j ≠ i := by omega
    simpa [Net.setE, Net.setJ, this] using hN j hj
  | stop i => cases h
  | vacuum dead =>
    cases hz
    simp only [Event.can, Bool.and_eq_true, Option.isNone_iff_eq_none, List.all_eq_true, List.mem_range] at h
    refine ⟨⟨h.1, fun r ⟨i, l, h1, _⟩ => ?_, rfl⟩, hN⟩
    by_cases hi : i < N
    · have := h.2 i hi
      rw [h1] at this
      cases this
    · have := (hN i (by omega)).2
      rw [h1] at this
      cases this
  | step =>
    obtain ⟨n, v⟩ := y
    cases v with
    | none => cases h
    | some w =>
      obtain ⟨dead, p⟩ := w
      simp only [Event.result, Option.map_eq_some_iff] at hz
      obtain ⟨⟨st, q⟩, h1, rfl⟩ := hz
      refine ⟨⟨dead, p, st, q, rfl, ?_, h1, rfl⟩, hN⟩
      have hfree : ∀ b, (List.range N).all (fun j => !(holds (n.eth j) == some b)) = true → ∀ j, holds (n.eth j) ≠ some b := by
        intro b hb j hj
        by_cases hi : j < N
        · have := List.all_eq_true.1 hb j (List.mem_range.2 hi)
          rw [hj] at this
          simp at this
        · have := (hN j (by omega)).1
          simp only at this
          rw [this] at hj
          cases hj
      cases p with
      | down b => exact hfree b h
      | leaf b => exact hfree b h
      | trees ts nxt =>
        cases ts with
        | nil => trivial
        | cons t ts => cases h
      | tree t us ts nxt => cases h

theorem results_run {N : Nat} {n0 n n' : VNet V} {es0 es : List (Event V)} (h0 : Run ix rc M n0 es0 n)
    (hN : ∀ j, N ≤ j → n.net.eth j = .idle ∧ n.net.job j = .idle) (hr : ∀ i r, .insert i r ∈ es → RowOK ix rc M r) (h : results ix rc N n es = some n') :
    Run ix rc M n0 (es0 ++ es) n' := by
  induction es generalizing n es0 with
  | nil => cases h; rw [List.append_nil]; exact h0
  | cons e es ih =>
    simp only [results] at h
    split at h
    · next hc =>
      obtain ⟨z, hz, h⟩ := Option.bind_eq_some_iff.1 h
      obtain ⟨h1, h2⟩ := can_fires (rc := rc) (M := M) hN hc hz (fun i r he => hr i r (by rw [he]; simp))
      have := ih (.snoc h0 h1) h2 (fun i r hm => hr i r (List.mem_cons_of_mem _ hm)) h
      rw [List.append_assoc] at this
      exact this
    · cases h
end

/-- Row 5, with key 7 too. -/
def exR5 : Row Nat := exRow 5 (some [⟨some 7, some (.byval 0)⟩])
/-- Row 5 is dead. -/
def exDead : Iptr → Bool := fun p => p.blk == 5

/-- Rows 1 and 5 are inserted; VACUUM begins and comes to the leaf. -/
def exBefore : List (Event Nat) :=
  [.insert 0 IndexConc.exR1, .entry 0, .entry 0, .insert 0 exR5, .entry 0, .entry 0, .vacuum exDead, .step]
/-- A search (backend 2) begins; then backend 1 begins to insert row 3, VACUUM cleans the leaf, row 3 gets its first entry, the search goes on, the insertion and VACUUM end. -/
def exMeanwhile : List (Event Nat) := [.insert 1 IndexConc.exR3, .step, .entry 1, .entry 2, .entry 1, .step]

theorem ex_runs : ((results exIx exRc 3 ⟨calm emptyIndex, none⟩ (exBefore ++ .read 2 ⟨1, .norm, 7⟩ false :: exMeanwhile)).any
      (fun y => IndexConc.answers (y.net.job 2) == some [⟨1, 1⟩, ⟨3, 1⟩] && (List.range 3).all (fun i => (y.net.job i).free) && y.vac.isNone)) = true := by
  decide +kernel

theorem exOK : ∀ i r, .insert i r ∈ exBefore ++ .read 2 ⟨1, .norm, 7⟩ false :: exMeanwhile → RowOK exIx exRc ⟨15, true⟩ r := by
  have h : ∀ m v, m < 400 → (v = none ∨ v = some [] ∨ ∃ j, v = some [⟨some j, some (.byval 0)⟩]) → RowOK exIx exRc ⟨15, true⟩ (exRow m v) :=
    fun m v hm hv => exRowOK m hm v hv true
  intro i r hr
  simp only [exBefore, exMeanwhile, List.cons_append, List.nil_append, List.mem_cons, List.not_mem_nil, or_false, Event.insert.injEq, reduceCtorEq,
    false_or] at hr
  have : r = IndexConc.exR1 ∨ r = exR5 ∨ r = IndexConc.exR3 := by
    rcases hr with ⟨-, h⟩ | ⟨-, h⟩ | ⟨-, h⟩
    · exact Or.inl h
    · exact Or.inr (Or.inl h)
    · exact Or.inr (Or.inr h)
  rcases this with rfl | rfl | rfl
  · exact h 1 _ (by omega) (Or.inr (Or.inr ⟨7, rfl⟩))
  · exact h 5 _ (by omega) (Or.inr (Or.inr ⟨7, rfl⟩))
  · exact h 3 _ (by omega) (Or.inr (Or.inr ⟨7, rfl⟩))

/-- The hypotheses of `C64_search`, `C64_all_rows_indexed`, `C64_any_moment` and `C64_no_deadlock` are met by this run: row 1 is in the table when the
search begins; row 5 is being removed. The search delivers rows 1 and 3. -/
example : (∀ k, 8 ∣ exIx.keySize k) ∧ Over exIx exRc ⟨15, true⟩ emptyIndex [] ∧ IndexConc.exR1 ∈ after [] exBefore ∧ exR5 ∉ after [] exBefore ∧
    Contains (exIx.cmpK 1) (IndexConc.exR1.value 1) ⟨1, .norm, 7⟩ ∧ (((after [] (exBefore ++ .read 2 ⟨1, .norm, 7⟩ false :: exMeanwhile)).map Row.tid).Nodup) ∧
    ∃ n1 n2 n3 R, Run exIx exRc ⟨15, true⟩ ⟨calm emptyIndex, none⟩ exBefore n1 ∧ Fires exIx exRc ⟨15, true⟩ (.read 2 ⟨1, .norm, 7⟩ false) n1 n2 ∧
      Run exIx exRc ⟨15, true⟩ n2 exMeanwhile n3 ∧ (∀ e ∈ exMeanwhile, e.leaves 2 = true) ∧ n3.net.job 2 = .answer ⟨1, .norm, 7⟩ false R ∧
      R.map Item.iptr = [⟨1, 1⟩, ⟨3, 1⟩] ∧ n3.vac = none := by
  have hx := ex_runs
  have haf : after [] exBefore = [IndexConc.exR1] := rfl
  refine ⟨fun _ => ⟨2, rfl⟩, .start (.empty _ exCols1), by rw [haf]; simp, ?_, ⟨_, rfl, _, List.mem_singleton.2 rfl, 7, rfl, rfl⟩, by decide, ?_⟩
  · rw [haf]
    intro h
    have := congrArg Row.tid (List.mem_singleton.1 h)
    cases this
  cases e2 : results exIx exRc 3 ⟨calm emptyIndex, none⟩ (exBefore ++ .read 2 ⟨1, .norm, 7⟩ false :: exMeanwhile) with
  | none => rw [e2] at hx; cases hx
  | some n3 =>
    rw [e2] at hx
    simp only [Option.any_some, Bool.and_eq_true, beq_iff_eq, Option.isNone_iff_eq_none] at hx
    have R3 := results_run (ix := exIx) (rc := exRc) (M := ⟨15, true⟩) (.refl _) (fun _ _ => ⟨rfl, rfl⟩) exOK e2
    rw [List.nil_append] at R3
    obtain ⟨m1, a1, a2⟩ := R3.split
    rw [show Event.read 2 ⟨1, .norm, 7⟩ false :: exMeanwhile = [Event.read 2 ⟨1, .norm, 7⟩ false] ++ exMeanwhile from rfl] at a2
    obtain ⟨m2, b1, b2⟩ := a2.split
    have b3 : Fires exIx exRc ⟨15, true⟩ (.read 2 ⟨1, .norm, 7⟩ false) m1 m2 := by
      generalize hl : [Event.read 2 ⟨1, .norm, 7⟩ false] = l at b1
      cases b1 with
      | refl => simp at hl
      | @snoc x _ l e' c1 c2 =>
        obtain ⟨d1, d2⟩ := List.append_inj' (s₁ := []) hl rfl
        cases d2
        subst d1
        generalize hl' : ([] : List (Event Nat)) = l at c1
        cases c1 with
        | refl => exact c2
        | snoc => simp at hl'
    obtain ⟨R, hR, hq⟩ : ∃ R, n3.net.job 2 = .answer ⟨1, .norm, 7⟩ false R ∧ R.map Item.iptr = [⟨1, 1⟩, ⟨3, 1⟩] := by
      have hq := hx.1.1
      unfold IndexConc.answers at hq
      split at hq
      · next R hj => exact ⟨R, hj, by simpa using hq⟩
      · cases hq
    exact ⟨m1, m2, n3, R, a1, b3, b2, by decide, hR, hq, hx.2⟩

end Rum.Props.IndexVacConc

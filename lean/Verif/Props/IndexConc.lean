import Verif.IndexConcRun
import Verif.Props.IndexVacuum
/-!
# C63: rows inserted and searched by many backends at the same time
-/
namespace Rum.Props.IndexConc
open Rum Rum.Codec Rum.Leaf Rum.Entry Rum.Tree Rum.Index Rum.Extract Rum.Props Rum.Props.PostingTree Rum.Props.Index Rum.Props.Bulk
  Rum.Props.IndexVacuum Std
open Rum.Props.Conc (fresh fresh_sorted fresh_sub fresh_of_delivered)

variable {V : Type}

/-! ### Specification -/

/-- What can happen: backend `i` visits a page of the entry tree, or of posting tree `t`; backend `i`, not busy, begins to insert a row, or to search
for a key (item by item, or page by page); the consumer of a search of backend `i` has enough; an insertion of backend `i` is cancelled, or the backend
dies. -/
inductive Event (V : Type) where
  | entry (i : Nat)
  | tree (t i : Nat)
  | insert (i : Nat) (r : Row V)
  | read (i : Nat) (k : AttKey V) (cursor : Bool)
  | stop (i : Nat)
  | abort (i : Nat)

/-- The rows whose insertion was begun. -/
def begun : List (Event V) → List (Row V)
  | [] => []
  | .insert _ r :: es => r :: begun es
  | _ :: es => begun es

/-- The event is not the beginning of a new operation of backend `j`. -/
def Event.leaves (j : Nat) : Event V → Bool
  | .insert i _ | .read i _ _ => i != j
  | _ => true

/-- An insertion is cancelled. -/
def Event.aborts : Event V → Bool
  | .abort _ => true
  | _ => false

/-- Nobody is at work. -/
def calm (st : State V) : Net V := ⟨st, fun _ => .idle, fun _ _ => .idle, fun _ => .idle⟩

/-- The backend searches. -/
def searching : Job V → Prop
  | .read _ _ => True
  | _ => False

/-- The backend inserts. -/
def inserting : Job V → Prop
  | .insert _ => True
  | _ => False

section
variable (ix : Ix V) [Inhabited V] (rc : RowCfg V) (M : Lim)

/-- The events that can happen and what they do. A page can be visited when no other backend keeps it locked; an inserted row is one the index can
take. A search item by item is considered only where items need no alignment padding (`M.single = false`). -/
def Fires : Event V → Net V → Net V → Prop
  | .entry i, n, n' => n.eth i ≠ .idle ∧ (∀ j, j ≠ i → ∀ c, holds (n.eth j) = some c → c ∉ ix.needsE n i) ∧ n' = ix.visitEntry n i
  | .tree t i, n, n' => (n.tth t i).free = false ∧ (∀ j, j ≠ i → ∀ c, holds (n.tth t j) = some c → c ∉ ix.needsT n t i) ∧ n' = ix.visitTree n t i
  | .insert i r, n, n' => (n.job i).free = true ∧ RowOK ix rc M r ∧ n' = n.next i (ix.entries rc r)
  | .read i k c, n, n' => (n.job i).free = true ∧ (c = true → M.single = false) ∧ n' = (n.setE i (descent k)).setJ i (.read k c)
  | .stop i, n, n' => searching (n.job i) ∧ n' = n.quit i .idle
  | .abort i, n, n' => inserting (n.job i) ∧ n' = n.fail i

/-- A sequence of events. -/
inductive Run : Net V → List (Event V) → Net V → Prop
  | refl (n : Net V) : Run n [] n
  | snoc {n n' n'' : Net V} {es : List (Event V)} {e : Event V} : Run n es n' → Fires ix rc M e n' n'' → Run n (es ++ [e]) n''

/-- An index and the rows it is over: created on an empty table or on a table with rows, then any row insertions and VACUUMs one after the other and any
phases of concurrent insertions and searches. (`M.single`: items may need padding; VACUUM is considered under that reading, CREATE INDEX on
existing rows under the other.) -/
inductive IndexOver : Lim → State V → List (Row V) → Prop
  | empty (M : Lim) : ColsOK ix M → IndexOver M emptyIndex []
  | build {M : Lim} {st : State V} (qsort : (Item Datum → Item Datum → Ordering) → List (Item Datum) → List (Item Datum)) (full : Nat → Bool)
      (rs : List (Row V)) : ColsOK ix M → M.single = false → Sorts qsort → (∀ r ∈ rs, RowOK ix rc M r) →
      (∀ r ∈ rs, ∀ a, (ix.colEntries rc a r).length < 2 ^ 31) → (rs.map Row.tid).Nodup →
      (∀ a, (ix.ctx a).cfg.alt = true → rs.Pairwise (fun r q => cmpIptr r.tid q.tid = .lt)) →
      ix.buildIndex rc qsort full rs = (st, true) → IndexOver M st rs
  | single {n : Nat} {st : State V} {rs : List (Row V)} : ColsOK ix ⟨n, true⟩ → IndexOver ⟨n, false⟩ st rs → IndexOver ⟨n, true⟩ st rs
  | insert {M : Lim} {st st' : State V} {rs : List (Row V)} {r : Row V} : IndexOver M st rs → RowOK ix rc M r → (∀ q ∈ rs, q.tid ≠ r.tid) →
      ix.insertRow rc st r = (st', true) → IndexOver M st' (rs ++ [r])
  | vacuum {M : Lim} {st : State V} {rs : List (Row V)} (dead : Iptr → Bool) : M.single = true → (∀ k, 8 ∣ ix.keySize k) → IndexOver M st rs →
      IndexOver M (lastState st (ix.bulkDelete dead st).1) (rs.filter (fun r => !dead r.tid))
  | phase {M : Lim} {st : State V} {rs : List (Row V)} {es : List (Event V)} {n : Net V} : IndexOver M st rs → Run ix rc M (calm st) es n →
      (∀ e ∈ es, e.aborts = false) → (∀ i, (n.job i).free = true) → ((rs ++ begun es).map Row.tid).Nodup → IndexOver M n.st (rs ++ begun es)

/-- The insertion of the row was begun and has ended in the course of the events. -/
def Finished (st : State V) (es : List (Event V)) (r : Row V) : Prop :=
  ∃ i es1 es2 es3 n, es = es1 ++ .insert i r :: es2 ++ es3 ∧ Run ix rc M (calm st) (es1 ++ .insert i r :: es2) n ∧
    (∀ e ∈ es2, e.leaves i = true) ∧ n.job i = .inserted
end

/-! ### Proof apparatus -/

section
variable {ix : Ix V} [Inhabited V] {rc : RowCfg V} {M : Lim} {C : Prop}

omit [Inhabited V] in
theorem begun_append (a b : List (Event V)) : begun (a ++ b) = begun a ++ begun b := by
  induction a with
  | nil => rfl
  | cons e a ih => cases e <;> simp [begun, ih]

theorem mem_entries {r : Row V} {op : AttKey V × Item Datum} :
    op ∈ ix.entries rc r ↔ ∃ a, (1 ≤ a ∧ a ≤ rc.natts) ∧ ∃ o ∈ ix.colEntries rc a r, op = (outKey a o, ⟨r.tid, o.info⟩) := by
  unfold Ix.entries
  simp only [List.mem_flatMap, List.mem_map]
  constructor
  · rintro ⟨a, ha, o, ho, rfl⟩
    exact ⟨a, mem_cols.1 (List.mem_map.2 ha), o, ho, rfl⟩
  · rintro ⟨a, ha, o, ho, rfl⟩
    exact ⟨a, List.mem_map.1 (mem_cols.2 ha), o, ho, rfl⟩

theorem entryOf_iff (rs : List (Row V)) (k : AttKey V) (y : Item Datum) :
    EntryOf ix rc rs k y ↔ ∃ op ∈ rs.flatMap (ix.entries rc), Same ix op.1 k ∧ y = op.2 := by
  constructor
  · rintro ⟨hk, r, hr, o, ho, hsm, rfl⟩
    exact ⟨_, List.mem_flatMap.2 ⟨r, hr, mem_entries.2 ⟨_, hk, o, ho, rfl⟩⟩, hsm, rfl⟩
  · rintro ⟨op, hop, hsm, rfl⟩
    obtain ⟨r, hr, hop⟩ := List.mem_flatMap.1 hop
    obtain ⟨a, ha, o, ho, rfl⟩ := mem_entries.1 hop
    have hat : a = k.attnum := same_attnum (ix := ix) hsm
    subst hat
    exact ⟨ha, r, hr, o, ho, hsm, rfl⟩

theorem entries_ok {r : Row V} (h : RowOK ix rc M r) : ∀ op ∈ ix.entries rc r, EntryOK ix M op := by
  intro op hop
  obtain ⟨a, ha, o, ho, rfl⟩ := mem_entries.1 hop
  exact ⟨(h a ha.1 ha.2 o ho).2.1, (h a ha.1 ha.2 o ho).2.2⟩

/-- The ghosts after an event. -/
def after (ix : Ix V) (rc : RowCfg V) (g : Gh V) (n : Net V) : Event V → Gh V
  | .insert i r => g.insert ix i (ix.entries rc r)
  | .read i k _ => g.read i (ix.rowsOf n.st k)
  | _ => g

theorem fires (hc : ColsOK ix M) {g : Gh V} {n n' : Net V} {e : Event V} (I : NInv C ix M g n) (hf : Fires ix rc M e n n') (ha : e.aborts = true → ¬ C) :
    NInv C ix M (after ix rc g n e) n' := by
  cases e with
  | entry i => obtain ⟨h1, h2, rfl⟩ := hf; exact I.visitEntry hc h1 h2
  | tree t i => obtain ⟨h1, h2, rfl⟩ := hf; exact I.visitTree hc h1 h2
  | insert i r => obtain ⟨h1, h2, rfl⟩ := hf; exact I.insert h1 (entries_ok h2)
  | read i k c => obtain ⟨h1, h2, rfl⟩ := hf; exact I.read h1 h2
  | stop i =>
    obtain ⟨h1, rfl⟩ := hf
    cases hj : n.job i with
    | read k c => exact I.quit hj
    | _ => rw [hj] at h1; simp [searching] at h1
  | abort i => obtain ⟨h1, rfl⟩ := hf; exact (I.part i).fail (ha rfl)

/-- What is known of the ghosts. -/
structure Track (C : Prop) (ix : Ix V) (rc : RowCfg V) (M : Lim) (rs : List (Row V)) (g : Gh V) (n : Net V) : Prop where
  inv : NInv C ix M g n
  only : ∀ k y, g.A k y → EntryOf ix rc rs k y
  all : ∀ op ∈ rs.flatMap (ix.entries rc), op ∈ g.T

theorem Track.fires (hc : ColsOK ix M) {rs : List (Row V)} {g : Gh V} {n n' : Net V} {e : Event V} (T : Track C ix rc M rs g n)
    (hf : Fires ix rc M e n n') (ha : e.aborts = true → ¬ C) : Track C ix rc M (rs ++ begun [e]) (after ix rc g n e) n' := by
  refine ⟨IndexConc.fires hc T.inv hf ha, fun k y h => ?_, fun op ho => ?_⟩
  · rw [entryOf_iff, List.flatMap_append]
    have old : g.A k y → ∃ op ∈ rs.flatMap (ix.entries rc) ++ (begun [e]).flatMap (ix.entries rc), Same ix op.1 k ∧ y = op.2 := by
      intro h
      obtain ⟨op, h1, h2⟩ := (entryOf_iff rs k y).1 (T.only k y h)
      exact ⟨op, List.mem_append_left _ h1, h2⟩
    cases e with
    | insert i r =>
      rcases h with h | ⟨op, h1, h2, h3⟩
      · exact old h
      · exact ⟨op, List.mem_append_right _ (by simpa [begun] using h1), same_symm hc h2, h3⟩
    | _ => exact old h
  · rw [List.flatMap_append, List.mem_append] at ho
    cases e with
    | insert i r =>
      rcases ho with ho | ho
      · exact List.mem_append_left _ (T.all op ho)
      · exact List.mem_append_right _ (by simpa [begun] using ho)
    | _ => exact T.all op (by simpa [begun] using ho)

theorem Track.run (hc : ColsOK ix M) {rs : List (Row V)} {g : Gh V} {n n' : Net V} {es : List (Event V)} (T : Track C ix rc M rs g n)
    (hr : Run ix rc M n es n') (ha : ∀ e ∈ es, e.aborts = true → ¬ C) :
    ∃ g', Track C ix rc M (rs ++ begun es) g' n' ∧ g'.B = g.B ∧ ∀ j, (∀ e ∈ es, e.leaves j = true) → g'.S j = g.S j ∧ g'.W j = g.W j := by
  induction hr with
  | refl => exact ⟨g, by simpa [begun] using T, rfl, fun _ _ => ⟨rfl, rfl⟩⟩
  | @snoc n2 n3 es e hr hf ih =>
    obtain ⟨g', h1, h2, h3⟩ := ih (fun e he => ha e (List.mem_append_left _ he))
    refine ⟨after ix rc g' n2 e, ?_, ?_, ?_⟩
    rotate_left 1
    · rw [← h2]; cases e <;> rfl
    · intro j hj
      obtain ⟨a1, a2⟩ := h3 j (fun e he => hj e (List.mem_append_left _ he))
      have := hj e (by simp)
      rw [← a1, ← a2]
      cases e with
      | insert i r =>
        simp only [Event.leaves, bne_iff_ne, ne_eq] at this
        exact ⟨rfl, if_neg (fun h => this h.symm)⟩
      | read i k c =>
        simp only [Event.leaves, bne_iff_ne, ne_eq] at this
        exact ⟨if_neg (fun h => this h.symm), rfl⟩
      | _ => exact ⟨rfl, rfl⟩
    · have := h1.fires hc hf (ha e (by simp))
      rw [begun_append, ← List.append_assoc]
      exact this

theorem Track.based {rs : List (Row V)} {g : Gh V} {n : Net V} (T : Track C ix rc M rs g n) :
    Track C ix rc M rs { g with B := fun k y => y ∈ ix.rowsOf n.st k } n :=
  ⟨⟨T.inv.entry, T.inv.tup, T.inv.inj, T.inv.allowed, fun _ _ h => h, T.inv.job, T.inv.due⟩, T.only, T.all⟩

theorem einv_imp {D : Prop} (h : C → D) {s : Store (Ent V)} (hE : EInv D ix s) : EInv C ix s := by
  obtain ⟨K, hK, key, G, hk, hG, hB⟩ := hE
  exact ⟨K, hK, key, G, hk, ⟨hG.weak, fun c => hG.complete (h c), hG.sized, hG.fit⟩, hB⟩

theorem Track.start (hc : ColsOK ix M) {st : State V} {rs : List (Row V)} (L : Life ix rc M st rs) (C : Prop) :
    Track C ix rc M rs ⟨fun _ => [], fun _ => [], EntryOf ix rc rs, rs.flatMap (ix.entries rc), fun _ _ => False⟩ (calm st) := by
  refine ⟨⟨ESys.rest (einv_imp (fun _ => trivial) L.inv.entry) (fun _ => rfl), fun e he => ?_, L.inv.inj, fun k y h => (L.rows k y).1 h, fun _ _ h => h.elim,
    fun j => ⟨rfl, fun _ => rfl⟩, fun _ op hop => Or.inl ?_⟩, fun _ _ h => h, fun _ h => h⟩
  · obtain ⟨h1, h2, h3⟩ := L.inv.ents e he
    exact ⟨h1, h2, fun t ht => ⟨(h3 t ht).1, TSys.rest (TInv.imp (fun _ => trivial) (h3 t ht).2) (fun _ => rfl)⟩⟩
  · have htr : TransCmp (ix.ctx op.1.attnum).cmpV := hc.infos _
    have htr' : TransCmp (ix.ctx op.1.attnum).cmp := cmpItem_trans _ _
    refine ⟨op.2, (L.rows op.1 op.2).2 ((entryOf_iff rs _ _).2 ⟨op, hop, ?_, rfl⟩), ReflCmp.compare_self (cmp := (ix.ctx op.1.attnum).cmp)⟩
    have := hc.keys
    exact ReflCmp.compare_self (cmp := cmpAttEntries ix.cmpK)

/-- Made entries are found under every equal key. -/
theorem made_row {g : Gh V} {n : Net V} (hc : ColsOK ix M) (I : NInv C ix M g n) (hs : ∀ a, SortOK (ix.cmpK a) (rc.sort a))
    (hd : ∀ a, DupsSeen (ix.cmpK a) (rc.haveDups a)) {r : Row V} (h : ∀ op ∈ ix.entries rc r, Made ix n.st op) {k : AttKey V} (hk1 : 1 ≤ k.attnum)
    (hk2 : k.attnum ≤ rc.natts) (hcon : Contains (ix.cmpK k.attnum) (r.value k.attnum) k) : ∃ y ∈ ix.rowsOf n.st k, y.iptr = r.tid := by
  obtain ⟨o, ho, hsm⟩ := (colEntries_key (rc := rc) hc (hs k.attnum) (hd k.attnum) r (k := k) rfl).1.2 hcon
  obtain ⟨y, hy, he⟩ := h _ (mem_entries.2 ⟨_, ⟨hk1, hk2⟩, o, ho, rfl⟩)
  refine ⟨y, ?_, cmp_eq_iptr he⟩
  rw [← I.inv.rowsOf_same hc hsm]; exact hy

/-- Nobody at work, no cancelled insertions: the index is over the rows. -/
theorem Track.life (hc : ColsOK ix M) (hs : ∀ a, SortOK (ix.cmpK a) (rc.sort a)) (hd : ∀ a, DupsSeen (ix.cmpK a) (rc.haveDups a))
    {rs : List (Row V)} {g : Gh V} {n : Net V} (T : Track True ix rc M rs g n) (hf : ∀ i, (n.job i).free = true) (htid : (rs.map Row.tid).Nodup) :
    Life ix rc M n.st rs := by
  have hq := fun i => ((T.inv.job i).quiet (hf i)).1
  have hall : ∀ k, ∀ y ∈ ix.rowsOf n.st k, EntryOf ix rc rs k y := fun k y hy => T.only k y (T.inv.allowed k y hy)
  refine ⟨⟨T.inv.entry.full (fun i => by rw [(hq i).1]; rfl), fun e he => ?_, T.inv.inj⟩, htid, fun k y => ⟨hall k y, fun h => ?_⟩⟩
  · obtain ⟨h1, h2, h3⟩ := T.inv.tup e he
    exact ⟨h1, h2, fun t ht => ⟨(h3 t ht).1, (h3 t ht).2.full (fun i => by rw [show n.tth t i = .idle from (hq i).2 t]; rfl)⟩⟩
  · obtain ⟨op, hop, hsm, rfl⟩ := (entryOf_iff rs k y).1 h
    rcases T.inv.due trivial op (T.all op hop) with ⟨z, hz, he⟩ | ⟨j, l, hj, -⟩
    · rw [T.inv.inv.rowsOf_same hc hsm] at hz
      rw [← entryOf_one hc hs hd htid (hall k z hz) h (cmp_eq_iptr he)]
      exact hz
    · have := hf j
      rw [hj] at this
      cases this

theorem IndexOver.life {st : State V} {rs : List (Row V)} (hs : ∀ a, SortOK (ix.cmpK a) (rc.sort a))
    (hd : ∀ a, DupsSeen (ix.cmpK a) (rc.haveDups a)) (h : IndexOver ix rc M st rs) : ColsOK ix M ∧ Life ix rc M st rs := by
  induction h with
  | empty M hc => exact ⟨hc, inv_empty ix hc, by simp, fun k y => by rw [rowsOf_empty ix hc]; simp [EntryOf]⟩
  | build qsort full rs hc hM hq hok hlen htid hord hb =>
    obtain ⟨st', h1, L⟩ := Life.build_tight hM hc hs hd qsort hq full rs hok hlen htid hord
    rw [hb] at h1
    cases h1
    exact ⟨hc, L⟩
  | single hc _ ih => exact ⟨hc, inv_single (ix := ix) (b := ix.build) ih.2.inv, ih.2.tids, ih.2.rows⟩
  | insert _ hr hn hi ih =>
    obtain ⟨t, h1, L⟩ := ih.2.insert ih.1 hs hd hr hn
    rw [hi] at h1
    cases h1
    exact ⟨ih.1, L⟩
  | vacuum dead hM hal _ ih =>
    obtain ⟨l, l1, l2, -⟩ := ih.2.vacuum ih.1 hal hM dead
    rw [l1]
    exact ⟨ih.1, l2⟩
  | phase _ hr ha hf htid ih =>
    obtain ⟨g, T, -⟩ := (Track.start ih.1 ih.2 True).run ih.1 hr (fun e he h => by rw [ha e he] at h; cases h)
    exact ⟨ih.1, T.life ih.1 hs hd hf htid⟩

theorem Run.split {n n' : Net V} {es es' : List (Event V)} (h : Run ix rc M n (es ++ es') n') : ∃ m, Run ix rc M n es m ∧ Run ix rc M m es' n' := by
  generalize hl : es ++ es' = l at h
  induction h generalizing es' with
  | refl =>
    obtain ⟨rfl, rfl⟩ := List.append_eq_nil_iff.1 hl
    exact ⟨n, .refl _, .refl _⟩
  | @snoc n2 n3 l e hr hf ih =>
    rcases List.eq_nil_or_concat es' with rfl | ⟨l', e', rfl⟩
    · rw [List.append_nil] at hl
      subst hl
      exact ⟨n3, .snoc hr hf, .refl _⟩
    · rw [List.concat_eq_append, ← List.append_assoc] at hl
      obtain ⟨h1, h2⟩ := List.append_inj' hl rfl
      cases h2
      obtain ⟨m, m1, m2⟩ := ih h1
      exact ⟨m, m1, by rw [List.concat_eq_append]; exact .snoc m2 hf⟩

theorem Run.fun {n n' n'' : Net V} {es : List (Event V)} (h : Run ix rc M n es n') (h' : Run ix rc M n es n'') : n' = n'' := by
  induction h generalizing n'' with
  | refl =>
    generalize hl : ([] : List (Event V)) = l at h'
    cases h' with
    | refl => rfl
    | snoc => simp at hl
  | @snoc n2 n3 l e hr hf ih =>
    generalize hl : l ++ [e] = l' at h'
    cases h' with
    | refl => simp at hl
    | @snoc m2 m3 l2 e2 hr2 hf2 =>
      obtain ⟨h1, h2⟩ := List.append_inj' hl rfl
      cases h2
      subst h1
      obtain rfl := ih hr2
      cases e with
      | entry i => exact hf.2.2.trans hf2.2.2.symm
      | tree t i => exact hf.2.2.trans hf2.2.2.symm
      | insert i r => exact hf.2.2.trans hf2.2.2.symm
      | read i k c => exact hf.2.2.trans hf2.2.2.symm
      | stop i => exact hf.2.trans hf2.2.symm
      | abort i => exact hf.2.trans hf2.2.symm

theorem Run.one {n n' : Net V} {e : Event V} (h : Run ix rc M n [e] n') : Fires ix rc M e n n' := by
  generalize hl : [e] = l at h
  cases h with
  | refl => simp at hl
  | @snoc x _ l e' c1 c2 =>
    obtain ⟨d1, d2⟩ := List.append_inj' (s₁ := []) hl rfl
    cases d2
    subst d1
    generalize hl' : ([] : List (Event V)) = l at c1
    cases c1 with
    | refl => exact c2
    | snoc => simp at hl'

/-- What was in the index stays. -/
theorem Track.keeps (hc : ColsOK ix M) {rs : List (Row V)} {g : Gh V} {n n' : Net V} {es : List (Event V)} (T : Track False ix rc M rs g n)
    (hr : Run ix rc M n es n') (k : AttKey V) : ∀ y ∈ ix.rowsOf n.st k, y ∈ ix.rowsOf n'.st k := by
  obtain ⟨g', T', hB, -⟩ := T.based.run hc hr (fun _ _ _ h => h)
  intro y hy
  exact T'.inv.base k y (by rw [hB]; exact hy)

theorem finished_found (hc : ColsOK ix M) (hs : ∀ a, SortOK (ix.cmpK a) (rc.sort a)) (hd : ∀ a, DupsSeen (ix.cmpK a) (rc.haveDups a))
    {st : State V} {rs : List (Row V)} (L : Life ix rc M st rs) {es : List (Event V)} {n : Net V} (hr : Run ix rc M (calm st) es n) {r : Row V}
    (h : r ∈ rs ∨ Finished ix rc M st es r) {k : AttKey V} (hk1 : 1 ≤ k.attnum) (hk2 : k.attnum ≤ rc.natts)
    (hcon : Contains (ix.cmpK k.attnum) (r.value k.attnum) k) : ∃ y ∈ ix.rowsOf n.st k, y.iptr = r.tid := by
  have T0 := Track.start hc L False
  rcases h with h | ⟨i, es1, es2, es3, m, rfl, h1, h2, h3⟩
  · obtain ⟨o, ho, hsm⟩ := (colEntries_key (rc := rc) hc (hs k.attnum) (hd k.attnum) r (k := k) rfl).1.2 hcon
    exact ⟨⟨r.tid, o.info⟩, T0.keeps hc hr k _ ((L.rows k _).2 ⟨⟨hk1, hk2⟩, r, h, o, ho, hsm, rfl⟩), rfl⟩
  · obtain ⟨m', hm', h4⟩ := hr.split
    obtain rfl := hm'.fun h1
    obtain ⟨gm, Tm, -⟩ := T0.run hc h1 (fun _ _ _ h => h)
    rw [show es1 ++ Event.insert i r :: es2 = (es1 ++ [Event.insert i r]) ++ es2 by simp] at h1
    obtain ⟨m2, a1, a2⟩ := h1.split
    obtain ⟨m1, b1, b2⟩ := a1.split
    obtain ⟨g1, T1, -⟩ := T0.run hc b1 (fun _ _ _ h => h)
    have b3 : Fires ix rc M (.insert i r) m1 m2 := b2.one
    have T2 := T1.fires hc b3 (fun _ h => h)
    obtain ⟨g3, T3, -, e2⟩ := T2.run hc a2 (fun _ _ _ h => h)
    have hj := T3.inv.job i
    rw [h3] at hj
    have hW : g3.W i = ix.entries rc r := by rw [(e2 i h2).2]; simp [after, Gh.insert]
    rw [hW] at hj
    obtain ⟨y, hy, he⟩ := made_row hc T3.inv hs hd hj.2 hk1 hk2 hcon
    exact ⟨y, Tm.keeps hc h4 k y hy, he⟩

end

/-! ### Properties -/

section
variable (ix : Ix V) [Inhabited V] (rc : RowCfg V) (M : Lim) (hs : ∀ a, SortOK (ix.cmpK a) (rc.sort a))
  (hd : ∀ a, DupsSeen (ix.cmpK a) (rc.haveDups a))
include hs hd

/-- **C63 (searches).** An index over rows `rs`, any concurrent insertions and searches, cancelled or not (`es1`); backend `j` begins a search for a key;
any others go on meanwhile (`es2`). When the search has ended, what it delivered is in order, contains every row with the key whose insertion had ended
before the search began, and nothing but rows with the key whose insertion had begun, each with its additional info. -/
theorem C63_search (st : State V) (rs : List (Row V)) (h0 : IndexOver ix rc M st rs) (es1 es2 : List (Event V)) (n1 n2 n3 : Net V) (j : Nat)
    (k : AttKey V) (c : Bool) (R : List (Item Datum)) (hk1 : 1 ≤ k.attnum) (hk2 : k.attnum ≤ rc.natts) (h1 : Run ix rc M (calm st) es1 n1)
    (h2 : Fires ix rc M (.read j k c) n1 n2) (h3 : Run ix rc M n2 es2 n3) (hl : ∀ e ∈ es2, e.leaves j = true) (hR : n3.job j = .answer k c R) :
    SSorted (ix.ctx k.attnum).cmp (fresh (ix.ctx k.attnum).cmp R) ∧ (c = false → fresh (ix.ctx k.attnum).cmp R = R) ∧
    (∀ r, r ∈ rs ∨ Finished ix rc M st es1 r → Contains (ix.cmpK k.attnum) (r.value k.attnum) k →
      ∃ y ∈ fresh (ix.ctx k.attnum).cmp R, y.iptr = r.tid) ∧
    ∀ y ∈ fresh (ix.ctx k.attnum).cmp R, ∃ r ∈ rs ++ begun es1 ++ begun es2, r.tid = y.iptr ∧
      Contains (ix.cmpK k.attnum) (r.value k.attnum) k ∧ InfoOf rc (ix.cmpK k.attnum) r k y.info := by
  obtain ⟨hc, L⟩ := h0.life hs hd
  have htr : TransCmp (ix.ctx k.attnum).cmpV := hc.infos k.attnum
  have htr' : TransCmp (ix.ctx k.attnum).cmp := cmpItem_trans _ _
  obtain ⟨g1, T1, -⟩ := (Track.start hc L False).run hc h1 (fun _ _ _ h => h)
  have T2 := T1.fires hc h2 (fun _ h => h)
  obtain ⟨g3, T3, -, e3⟩ := T2.run hc h3 (fun _ _ _ h => h)
  have hj := T3.inv.job j
  rw [hR] at hj
  have hS : g3.S j = ix.rowsOf n1.st k := by rw [(e3 j hl).1]; simp [after, Gh.read]
  rw [hS] at hj
  obtain ⟨-, j1, j2, j3⟩ := hj
  refine ⟨fresh_sorted _ R, fun hcf => ?_, fun r hr hcon => ?_, fun y hy => ?_⟩
  · have hso := j3 hcf
    clear j1 j2 j3 hR
    induction R using List.reverseRecOn with
    | nil => rfl
    | append_singleton l a ih =>
      have h4 := List.pairwise_append.1 hso
      rw [Conc.fresh_snoc, ih h4.1]
      rw [if_pos]
      cases hg : l.getLast? with
      | none => rfl
      | some m => simpa using h4.2.2 m (List.mem_of_getLast? hg) a (by simp)
  · obtain ⟨y, hy, he⟩ := finished_found hc hs hd L h1 hr hk1 hk2 hcon
    exact ⟨y, fresh_of_delivered (j1 y hy), he⟩
  · have := T3.only k y (T3.inv.allowed k y (j2 y (fresh_sub _ _ y hy)))
    obtain ⟨-, r, hr, o, ho, hsm, rfl⟩ := this
    have hcol := colEntries_key (rc := rc) hc (hs k.attnum) (hd k.attnum) r (k := k) rfl
    exact ⟨r, by simpa [begun] using hr, rfl, hcol.1.1 ⟨o, ho, hsm⟩, hcol.2.1 o ho hsm⟩

/-- **C63 (the index).** If no insertion is cancelled, then none fails, and when nobody is at work the index holds exactly the entries of all rows: a
lookup of any key finds exactly the rows that contain it, in order, each once, with its additional info. -/
theorem C63_all_rows_indexed (st : State V) (rs : List (Row V)) (h0 : IndexOver ix rc M st rs) (es : List (Event V)) (n : Net V)
    (h : Run ix rc M (calm st) es n) (ha : ∀ e ∈ es, e.aborts = false) (htid : ((rs ++ begun es).map Row.tid).Nodup) :
    (∀ i, n.job i ≠ .failed) ∧ ((∀ i, (n.job i).free = true) → Indexes ix rc n.st (rs ++ begun es)) := by
  obtain ⟨hc, L⟩ := h0.life hs hd
  obtain ⟨g, T, -⟩ := (Track.start hc L True).run hc h (fun e he h => by rw [ha e he] at h; cases h)
  refine ⟨fun i hi => ?_, fun hf => (T.life hc hs hd hf htid).indexes hc hs hd⟩
  have hj := T.inv.job i
  rw [hi] at hj
  exact hj.2 trivial

/-- **C63 (no deadlock).** If no insertion is cancelled, then as long as some backend is at work some backend that is at work can visit its next page. -/
theorem C63_no_deadlock (st : State V) (rs : List (Row V)) (h0 : IndexOver ix rc M st rs) (es : List (Event V)) (n : Net V)
    (h : Run ix rc M (calm st) es n) (ha : ∀ e ∈ es, e.aborts = false) (i : Nat) (hi : (n.job i).free = false) :
    ∃ j n', Fires ix rc M (.entry j) n n' ∨ ∃ t, Fires ix rc M (.tree t j) n n' := by
  obtain ⟨hc, L⟩ := h0.life hs hd
  obtain ⟨g, T, -⟩ := (Track.start hc L True).run hc h (fun e he h => by rw [ha e he] at h; cases h)
  obtain ⟨j, ⟨h1, h2⟩ | ⟨t, h1, h2⟩⟩ := T.inv.someone trivial hi
  · exact ⟨j, _, Or.inl ⟨h1, h2, rfl⟩⟩
  · exact ⟨j, _, Or.inr ⟨t, h1, h2, rfl⟩⟩

/-- **C63 (at any moment).** Whatever is going on and whatever was cancelled, at every moment a lookup of any key finds, in order, every row with the key
whose insertion has ended, and nothing but rows with the key whose insertion has begun; what it finds it finds ever after. (This is also what a search
finds after a crash at that moment.) -/
theorem C63_any_moment (st : State V) (rs : List (Row V)) (h0 : IndexOver ix rc M st rs) (es es' : List (Event V)) (n n' : Net V)
    (h : Run ix rc M (calm st) es n) (h' : Run ix rc M n es' n') (k : AttKey V) (hk1 : 1 ≤ k.attnum) (hk2 : k.attnum ≤ rc.natts) :
    SSorted (ix.ctx k.attnum).cmp (ix.rowsOf n.st k) ∧
    (∀ r, r ∈ rs ∨ Finished ix rc M st es r → Contains (ix.cmpK k.attnum) (r.value k.attnum) k → ∃ y ∈ ix.rowsOf n.st k, y.iptr = r.tid) ∧
    (∀ y ∈ ix.rowsOf n.st k, ∃ r ∈ rs ++ begun es, r.tid = y.iptr ∧ Contains (ix.cmpK k.attnum) (r.value k.attnum) k ∧
      InfoOf rc (ix.cmpK k.attnum) r k y.info) ∧
    ∀ y ∈ ix.rowsOf n.st k, y ∈ ix.rowsOf n'.st k := by
  obtain ⟨hc, L⟩ := h0.life hs hd
  obtain ⟨g, T, -⟩ := (Track.start hc L False).run hc h (fun _ _ _ h => h)
  refine ⟨rowsOf_sorted hc T.inv.inv k, fun r hr hcon => finished_found hc hs hd L h hr hk1 hk2 hcon, fun y hy => ?_, T.keeps hc h' k⟩
  obtain ⟨-, r, hr, o, ho, hsm, rfl⟩ := T.only k y (T.inv.allowed k y hy)
  have hcol := colEntries_key (rc := rc) hc (hs k.attnum) (hd k.attnum) r (k := k) rfl
  exact ⟨r, hr, rfl, hcol.1.1 ⟨o, ho, hsm⟩, hcol.2.1 o ho hsm⟩
end

/-! ### Concrete cases -/

section
variable {ix : Ix V} [Inhabited V] {rc : RowCfg V} {M : Lim}

/-- Nothing changes for backend `j`. -/
def Other (j : Nat) (n n' : Net V) : Prop := n'.eth j = n.eth j ∧ (∀ t, n'.tth t j = n.tth t j) ∧ n'.job j = n.job j

omit [Inhabited V] in
theorem Other.trans {j : Nat} {n n' n'' : Net V} (h : Other j n n') (h' : Other j n' n'') : Other j n n'' :=
  ⟨h'.1.trans h.1, fun t => (h'.2.1 t).trans (h.2.1 t), h'.2.2.trans h.2.2⟩

omit [Inhabited V] in
theorem other_simple {i j : Nat} (h : j ≠ i) (n : Net V) (st : State V) (a : Thread (Ent V)) (t : Nat) (b : Thread (Item Datum)) (jb : Job V) :
    Other j n { n with st := st } ∧ Other j n (n.setE i a) ∧ Other j n (n.setT t i b) ∧ Other j n (n.setJ i jb) ∧ Other j n (n.quit i jb) := by
  simp [Other, Net.setE, Net.setT, Net.setJ, Net.quit, h]

omit [Inhabited V] in
theorem next_other {i j : Nat} (h : j ≠ i) (n : Net V) (l : List (AttKey V × Item Datum)) : Other j n (n.next i l) := by
  unfold Net.next
  split <;> simp [Other, Net.setE, Net.setJ, h]

omit [Inhabited V] in
theorem goOn_other {i j : Nat} (h : j ≠ i) (n : Net V) : Other j n (n.goOn i) := by
  unfold Net.goOn
  split
  · exact next_other h _ _
  · exact ⟨rfl, fun _ => rfl, rfl⟩

omit [Inhabited V] in
theorem settleE_other {i j : Nat} (h : j ≠ i) (n : Net V) : Other j n (n.settleE i) := by
  unfold Net.settleE
  split
  · exact goOn_other h _
  · exact (other_simple h n n.st .idle 0 .idle .failed).2.2.2.2
  · exact ⟨rfl, fun _ => rfl, rfl⟩

theorem putAt_other {i j : Nat} (h : j ≠ i) (n : Net V) (b : Nat) (up : List (Nat × Nat)) (r : List (State V) × Option (Ent V)) :
    Other j n (ix.putAt n i b up r) := by
  unfold Ix.putAt
  split
  · exact (other_simple h n _ .idle 0 .idle .failed).1.trans (other_simple h _ n.st .idle 0 .idle .failed).2.2.2.2
  · exact ((other_simple h n _ .idle 0 .idle .failed).1.trans (other_simple h _ n.st _ 0 .idle .failed).2.1).trans (settleE_other h _)

theorem visitEntry_other {i j : Nat} (h : j ≠ i) (n : Net V) : Other j n (ix.visitEntry n i) := by
  have go : ∀ (st : State V) (a : Thread (Ent V)), Other j n ((({ n with st := st } : Net V).setE i a).settleE i) := fun st a =>
    ((other_simple h n st .idle 0 .idle .failed).1.trans (other_simple h _ n.st a 0 .idle .failed).2.1).trans (settleE_other h _)
  have hf : Other j n (n.fail i) := (other_simple h n n.st .idle 0 .idle .failed).2.2.2.2
  unfold Ix.visitEntry
  simp only
  split
  · split
    · split
      · unfold Ix.leafInsert
        simp only
        repeat' split
        all_goals first
          | exact putAt_other h _ _ _ _
          | exact hf
          | exact (other_simple h n n.st .idle 0 .idle .failed).2.1.trans (other_simple h _ n.st .idle _ _ .failed).2.2.1
      · exact go _ _
    · split
      · unfold Ix.leafRead
        simp only
        repeat' split
        all_goals first
          | exact (other_simple h n n.st .idle 0 .idle .failed).2.1.trans (other_simple h _ n.st .idle _ _ .failed).2.2.1
          | exact (other_simple h n n.st .idle 0 .idle .failed).2.1.trans (other_simple h _ n.st .idle 0 .idle _).2.2.2.1
      · exact go _ _
    · exact go _ _
  · exact go _ _

/-- The result of an event. -/
def Event.result (ix : Ix V) (rc : RowCfg V) (n : Net V) : Event V → Net V
  | .entry i => ix.visitEntry n i
  | .tree t i => ix.visitTree n t i
  | .insert i r => n.next i (ix.entries rc r)
  | .read i k c => (n.setE i (descent k)).setJ i (.read k c)
  | .stop i => n.quit i .idle
  | .abort i => n.fail i

def isIdle {α : Type} : Thread α → Bool
  | .idle => true
  | _ => false

/-- The event can happen, if only backends below `N` are at work. Visits to posting trees are left out. -/
def Event.can (ix : Ix V) (N : Nat) (n : Net V) : Event V → Bool
  | .entry i => decide (i < N) && !isIdle (n.eth i) && (List.range N).all (fun j => j == i || (holds (n.eth j)).all (fun c => !(ix.needsE n i).contains c))
  | .insert i _ | .read i _ false => decide (i < N) && (n.job i).free
  | .stop i => decide (i < N) && match n.job i with | .read _ _ => true | _ => false
  | .abort i => decide (i < N) && match n.job i with | .insert _ => true | _ => false
  | _ => false

def results (ix : Ix V) (rc : RowCfg V) (N : Nat) : Net V → List (Event V) → Option (Net V)
  | n, [] => some n
  | n, e :: es => if e.can ix N n then results ix rc N (e.result ix rc n) es else none

omit [Inhabited V] in
theorem isIdle_iff {α : Type} {a : Thread α} : isIdle a = true ↔ a = .idle := by
  cases a <;> simp [isIdle]

theorem can_fires {N : Nat} {n : Net V} {e : Event V} (hN : ∀ j, N ≤ j → n.eth j = .idle) (h : e.can ix N n = true)
    (hr : ∀ i r, e = .insert i r → RowOK ix rc M r) :
    Fires ix rc M e n (e.result ix rc n) ∧ ∀ j, N ≤ j → (e.result ix rc n).eth j = .idle := by
  cases e with
  | entry i =>
    simp only [Event.can, Bool.and_eq_true, decide_eq_true_eq, Bool.not_eq_true', List.all_eq_true, List.mem_range, Bool.or_eq_true, beq_iff_eq] at h
    obtain ⟨⟨h1, h2⟩, h3⟩ := h
    refine ⟨⟨(fun hi => by rw [hi] at h2; cases h2), fun j hj c hc => ?_, rfl⟩, fun j hj => ?_⟩
    · by_cases hjN : j < N
      · rcases h3 j hjN with h4 | h4
        · exact absurd h4 hj
        · rw [hc] at h4
          simpa using h4
      · rw [hN j (by omega)] at hc; cases hc
    · show (ix.visitEntry n i).eth j = _
      rw [(visitEntry_other (by omega) n).1, hN j hj]
  | tree t i => cases h
  | insert i r =>
    simp only [Event.can, Bool.and_eq_true, decide_eq_true_eq] at h
    refine ⟨⟨h.2, hr i r rfl, rfl⟩, fun j hj => ?_⟩
    show (n.next i _).eth j = _
    rw [(next_other (by omega) n _).1, hN j hj]
  | read i k c =>
    cases c with
    | true => cases h
    | false =>
      simp only [Event.can, Bool.and_eq_true, decide_eq_true_eq] at h
      refine ⟨⟨h.2, (fun h => by cases h), rfl⟩, fun j hj => ?_⟩
      have : j ≠ i := by omega
      simpa [Event.result, Net.setE, Net.setJ, this] using hN j hj
  | stop i =>
    simp only [Event.can, Bool.and_eq_true, decide_eq_true_eq] at h
    refine ⟨⟨?_, rfl⟩, fun j hj => ?_⟩
    · cases hj : n.job i <;> rw [hj] at h <;> simp [searching] at h ⊢
    · have : j ≠ i := by omega
      simpa [Event.result, Net.quit, Net.setE, Net.setJ, this] using hN j hj
  | abort i =>
    simp only [Event.can, Bool.and_eq_true, decide_eq_true_eq] at h
    refine ⟨⟨?_, rfl⟩, fun j hj => ?_⟩
    · cases hj : n.job i <;> rw [hj] at h <;> simp [inserting] at h ⊢
    · have : j ≠ i := by omega
      simpa [Event.result, Net.fail, Net.quit, Net.setE, Net.setJ, this] using hN j hj

theorem results_run {N : Nat} {n0 n n' : Net V} {es0 es : List (Event V)} (h0 : Run ix rc M n0 es0 n) (hN : ∀ j, N ≤ j → n.eth j = .idle)
    (hr : ∀ i r, .insert i r ∈ es → RowOK ix rc M r) (h : results ix rc N n es = some n') : Run ix rc M n0 (es0 ++ es) n' := by
  induction es generalizing n es0 with
  | nil => cases h; rw [List.append_nil]; exact h0
  | cons e es ih =>
    simp only [results] at h
    split at h
    · next hc =>
      obtain ⟨h1, h2⟩ := can_fires (rc := rc) (M := M) hN hc (fun i r he => hr i r (by rw [he]; simp))
      have := ih (.snoc h0 h1) h2 (fun i r hm => hr i r (List.mem_cons_of_mem _ hm)) h
      rw [List.append_assoc] at this
      exact this
    · cases h

theorem results_append (N : Nat) (n : Net V) (es es' : List (Event V)) :
    results ix rc N n (es ++ es') = (results ix rc N n es).bind (fun m => results ix rc N m es') := by
  induction es generalizing n with
  | nil => rfl
  | cons e es ih =>
    simp only [List.cons_append, results]
    split
    · exact ih _
    · rfl
end

/-- Rows 1 and 3 with key 7 and row 4 without a value. -/
def exR1 : Row Nat := exRow 1 (some [⟨some 7, some (.byval 0)⟩])
def exR3 : Row Nat := exRow 3 (some [⟨some 7, some (.byval 0)⟩])
def exR4 : Row Nat := exRow 4 none

/-- Backend 0 begins to insert row 1 and comes to the leaf; backend 1 inserts row 3 whole meanwhile. -/
def exBefore : List (Event Nat) := [.insert 0 exR1, .insert 1 exR3, .entry 1, .entry 1]
/-- Backend 2 begins to search; backend 1 inserts row 4, backend 0 its first entry; then the search goes on and backend 0 is cancelled. -/
def exMeanwhile : List (Event Nat) := [.insert 1 exR4, .entry 1, .entry 0, .entry 2, .abort 0, .entry 1]

def answers : Job Nat → Option (List Iptr)
  | .answer ⟨1, .norm, 7⟩ false R => some (R.map Item.iptr)
  | _ => none

def isInserted' : Job Nat → Bool
  | .inserted => true
  | _ => false

theorem ex_runs : ((results exIx exRc 3 (calm emptyIndex) exBefore).any (fun n => isInserted' (n.job 1) && (n.job 2).free) &&
    (results exIx exRc 3 (calm emptyIndex) (exBefore ++ .read 2 ⟨1, .norm, 7⟩ false :: exMeanwhile)).any
      (fun n => answers (n.job 2) == some [⟨1, 1⟩, ⟨3, 1⟩] && (List.range 3).all (fun i => (n.job i).free))) = true := by
  decide +kernel

theorem exOK : ∀ i r, (.insert i r ∈ exBefore ∨ .insert i r ∈ exBefore ++ .read 2 ⟨1, .norm, 7⟩ false :: exMeanwhile) → RowOK exIx exRc 15 r := by
  have h : ∀ m v, m < 400 → (v = none ∨ v = some [] ∨ ∃ j, v = some [⟨some j, some (.byval 0)⟩]) → RowOK exIx exRc 15 (exRow m v) :=
    fun m v hm hv => exRowOK m hm v hv false
  intro i r hr
  simp only [exBefore, exMeanwhile, List.cons_append, List.nil_append, List.mem_cons, List.not_mem_nil, or_false, Event.insert.injEq, reduceCtorEq,
    false_or] at hr
  have : r = exR1 ∨ r = exR3 ∨ r = exR4 := by
    rcases hr with (⟨-, h⟩ | ⟨-, h⟩) | (⟨-, h⟩ | ⟨-, h⟩ | ⟨-, h⟩)
    · exact Or.inl h
    · exact Or.inr (Or.inl h)
    · exact Or.inl h
    · exact Or.inr (Or.inl h)
    · exact Or.inr (Or.inr h)
  rcases this with rfl | rfl | rfl
  · exact h 1 _ (by omega) (Or.inr (Or.inr ⟨7, rfl⟩))
  · exact h 3 _ (by omega) (Or.inr (Or.inr ⟨7, rfl⟩))
  · exact h 4 _ (by omega) (Or.inl rfl)

/-- The hypotheses of `C63_search` are met by this run: the insertion of row 3 has ended before the search began; row 1, whose insertion was
under way and was cancelled, is found as well. -/
theorem ex_search : IndexOver exIx exRc 15 emptyIndex [] ∧ Finished exIx exRc 15 emptyIndex exBefore exR3 ∧
    Contains (exIx.cmpK 1) (exR3.value 1) ⟨1, .norm, 7⟩ ∧
    ∃ n1 n2 n3 R, Run exIx exRc 15 (calm emptyIndex) exBefore n1 ∧ Fires exIx exRc 15 (.read 2 ⟨1, .norm, 7⟩ false) n1 n2 ∧
      Run exIx exRc 15 n2 exMeanwhile n3 ∧ (∀ e ∈ exMeanwhile, e.leaves 2 = true) ∧ n3.job 2 = .answer ⟨1, .norm, 7⟩ false R ∧
      R.map Item.iptr = [⟨1, 1⟩, ⟨3, 1⟩] := by
  have hx := ex_runs
  rw [Bool.and_eq_true] at hx
  obtain ⟨h1, h2⟩ := hx
  cases e1 : results exIx exRc 3 (calm emptyIndex) exBefore with
  | none => rw [e1] at h1; cases h1
  | some n1 =>
    rw [e1] at h1
    simp only [Option.any_some, Bool.and_eq_true] at h1
    have R1 : Run exIx exRc 15 (calm emptyIndex) ([] ++ exBefore) n1 := results_run (.refl _) (fun _ _ => rfl) (fun i r h => exOK i r (Or.inl h)) e1
    rw [List.nil_append] at R1
    have hj1 : n1.job 1 = .inserted := by
      cases hj : n1.job 1 <;> rw [hj] at h1 <;> simp [isInserted'] at h1 ⊢
    cases e2 : results exIx exRc 3 (calm emptyIndex) (exBefore ++ .read 2 ⟨1, .norm, 7⟩ false :: exMeanwhile) with
    | none => rw [e2] at h2; cases h2
    | some n3 =>
      rw [e2] at h2
      simp only [Option.any_some, Bool.and_eq_true, beq_iff_eq] at h2
      have R3 := results_run (ix := exIx) (rc := exRc) (M := 15) (.refl _) (fun _ _ => rfl) (fun i r h => exOK i r (Or.inr h)) e2
      rw [List.nil_append] at R3
      obtain ⟨m1, a1, a2⟩ := R3.split
      obtain rfl := a1.fun R1
      rw [show Event.read 2 ⟨1, .norm, 7⟩ false :: exMeanwhile = [Event.read 2 ⟨1, .norm, 7⟩ false] ++ exMeanwhile from rfl] at a2
      obtain ⟨m2, b1, b2⟩ := a2.split
      have b3 : Fires exIx exRc 15 (.read 2 ⟨1, .norm, 7⟩ false) m1 m2 := b1.one
      obtain ⟨R, hR, hq⟩ : ∃ R, n3.job 2 = .answer ⟨1, .norm, 7⟩ false R ∧ R.map Item.iptr = [⟨1, 1⟩, ⟨3, 1⟩] := by
        have hq := h2.1
        unfold answers at hq
        split at hq
        · next R hj => exact ⟨R, hj, by simpa using hq⟩
        · cases hq
      exact ⟨.empty _ exCols, ⟨1, [.insert 0 exR1], [.entry 1, .entry 1], [], m1, rfl, R1, by decide, hj1⟩,
        ⟨_, rfl, _, List.mem_singleton.2 rfl, 7, rfl, rfl⟩, m1, m2, n3, R, R1, b3, b2, by decide, hR, hq⟩

end Rum.Props.IndexConc

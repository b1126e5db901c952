import Verif.EntryTreeInsert
import Verif.RowInsert
import Verif.Props.Extract
import Mathlib.Data.List.Pairwise
/-!
# C15: the index as a whole is a map from keys to rows

`ix` gives the comparison of keys, the size of the key part of a tuple, and for each column the encoding and order of items. Page and tuple sizes
are those of PostgreSQL with 8 KB blocks. `M` bounds the encoded size of one item.
-/
namespace Rum.Props.Index
open Rum Rum.Codec Rum.Leaf Rum.Entry Rum.Tree Rum.Index Rum.Extract Rum.Props Rum.Props.PostingTree Std

variable {V : Type}

/-! ### Specification -/

/-- An insertion the index can take: the key fits in a tuple of its own, the items are sorted and storable. -/
structure OpOK (ix : Ix V) (M : Lim) (op : AttKey V × List (Item Datum)) : Prop where
  key : ix.tupleSize op.1 [] ≤ maxTuple
  items : BatchOK (ix.ctx op.1.attnum) M op.2

/-- What a sequence of insertions puts under a key: the items of all insertions under an equal key; of equal items the first. -/
def expected (ix : Ix V) (ops : List (AttKey V × List (Item Datum))) (k : AttKey V) : List (Item Datum) :=
  keepFirst (ix.ctx k.attnum).cmp ((ops.filter (fun o => cmpAttEntries ix.cmpK o.1 k == .eq)).flatMap Prod.snd)

/-- Every state the index can be in on disk: insertions from the empty index, each of which may be cut short after any log record. -/
inductive Reach (ix : Ix V) [Inhabited V] (M : Lim) : State V → Prop
  | empty : Reach ix M emptyIndex
  | record (st t : State V) (k : AttKey V) (items : List (Item Datum)) : Reach ix M st → OpOK ix M (k, items) →
      t ∈ (ix.entryInsert st k items).1 → Reach ix M t

/-- The value of a column contains the key: the placeholders for NULL and for a value without keys, a NULL key, a key. -/
def Contains (cmpK : V → V → Ordering) (value : Option (List (Raw V Datum))) (k : AttKey V) : Prop :=
  match k.cat with
  | .nullItem => value = none
  | .emptyItem => value = some []
  | .nullKey => ∃ raws, value = some raws ∧ ∃ r ∈ raws, r.key = none
  | .norm => ∃ raws, value = some raws ∧ ∃ r ∈ raws, ∃ x, r.key = some x ∧ cmpK x k.key = .eq
  | .emptyQuery => False

/-- The additional info stored for a row under a key: the attached column's value if the column is the one it is attached to, else the info that
came with the key (NULL for placeholders). -/
def InfoOf (rc : RowCfg V) (cmpK : V → V → Ordering) (r : Row V) (k : AttKey V) (info : Option Datum) : Prop :=
  if rc.addTo = some k.attnum then info = r.outer
  else match r.value k.attnum with
    | some (raw :: raws) => ∃ q ∈ raw :: raws, q.info = info ∧
        ((k.cat = .nullKey ∧ q.key = none) ∨ (k.cat = .norm ∧ ∃ x, q.key = some x ∧ cmpK x k.key = .eq))
    | _ => info = none

/-- A row the index can take: additional info only where the index has it, each key fits in a tuple, each item is storable. -/
def RowOK (ix : Ix V) [Inhabited V] (rc : RowCfg V) (M : Lim) (r : Row V) : Prop :=
  ∀ a, 1 ≤ a → a ≤ rc.natts → ∀ o ∈ ix.colEntries rc a r, (o.info.isSome → rc.addAttrs a = true) ∧
    ix.tupleSize (outKey a o) [] ≤ maxTuple ∧ Storable (ix.ctx a) M ⟨r.tid, o.info⟩

/-! ### Proof apparatus -/

theorem inv_empty (ix : Ix V) [Inhabited V] {M : Lim} (hc : ColsOK ix M) : IInv True ix M emptyIndex := by
  have := hc.keys
  have htr := cmp_trans ix
  obtain ⟨K, hK, key, h1, h2, h3⟩ := exists_key (cmp := ix.cmp)
  have hk : KeyOf ix.cmp key := ⟨h1, h2, h3⟩
  have hW : Weak key true (emptyIndex (V := V)).entry rootBlk ⟨0, fun _ => [rootBlk], fun _ => [], id⟩ := by
    refine ⟨⟨rfl, fun k hk => absurd hk (Nat.not_lt_zero _), ?_, ?_, ?_, ?_, ?_, fun k hk => absurd hk (Nat.not_lt_zero _), ?_, ?_⟩,
      fun k hk => absurd hk (Nat.not_lt_zero _)⟩
    · intro k _
      exact ⟨rfl, rfl, trivial⟩
    · intro j k b hj hk _ _
      simp at hj hk; omega
    · intro k _; simp
    · intro k _ b hb'
      simp at hb'
      subst hb'
      exact ⟨by show 1 < 2; omega, rfl⟩
    · intro b hb'; rfl
    · refine ⟨by simp, ?_, ?_⟩
      · intro b hb' i hi
        simp [emptyIndex] at hi
      · intro b hb'
        simp [emptyIndex]
    · intro b _; rfl
  have hleafs : leafs key (emptyIndex (V := V)).entry ⟨0, fun _ => [rootBlk], fun _ => [], id⟩ = [([], ⊤)] := by
    simp [leafs, hiP, emptyIndex]
  have hcont : contents (emptyIndex (V := V)).entry rootBlk = [] := by
    rw [contents_eq hW, hleafs]; simp
  refine ⟨⟨K, hK, key, _, hk, ⟨hW, fun _ k hk => absurd hk (Nat.not_lt_zero _), ⟨fun k hk => absurd hk (Nat.not_lt_zero _), ?_⟩, ?_⟩, ?_⟩, ?_, ?_⟩
  · intro k hk b hb
    exact Nat.zero_le _
  · rw [hleafs]
    intro p hp
    simp only [List.mem_singleton] at hp
    subst hp
    exact ⟨by simp, by simp, Nat.zero_le _⟩
  · rw [hleafs]
    intro p hp
    simp only [List.mem_singleton] at hp
    subst hp
    exact Or.inl ⟨rfl, fun _ => rfl⟩
  · rw [hcont]; simp
  · rw [hcont]; simp

theorem rowsOf_empty (ix : Ix V) [Inhabited V] {M : Lim} (hc : ColsOK ix M) (k : AttKey V) : ix.rowsOf emptyIndex k = [] := by
  refine (inv_empty ix hc).rowsOf_none hc (fun e he => ?_)
  obtain ⟨K, hK, key, G, hk, hG, hB⟩ := (inv_empty ix hc).entry
  exact absurd he (by rw [show contents (emptyIndex (V := V)).entry rootBlk = [] from rfl]; simp)

theorem rowsOf_sorted {C : Prop} {ix : Ix V} [Inhabited V] {M : Lim} (hc : ColsOK ix M) {st : State V} (H : IInv C ix M st) (k : AttKey V) :
    SSorted (ix.ctx k.attnum).cmp (ix.rowsOf st k) := by
  rcases H.rowsOf hc k with ⟨e, h1, h2, h3⟩ | ⟨-, h3⟩
  · rw [h3, show k.attnum = e.key.attnum from same_attnum (ix := ix) h2]
    exact (H.ents e h1).rows_sorted hc
  · rw [h3]; simp [SSorted]

theorem same_symm {ix : Ix V} {M : Lim} (hc : ColsOK ix M) {a b : AttKey V} (h : Same ix a b) : Same ix b a := by
  have := hc.keys
  exact OrientedCmp.eq_symm (cmp := cmpAttEntries ix.cmpK) h

theorem expected_snoc {ix : Ix V} {M : Lim} (hc : ColsOK ix M) (ops : List (AttKey V × List (Item Datum))) (op : AttKey V × List (Item Datum))
    (h : OpOK ix M op) (k : AttKey V) (y : Item Datum) :
    y ∈ expected ix (ops ++ [op]) k ↔
      if cmpAttEntries ix.cmpK k op.1 = .eq then Upd (ix.ctx op.1.attnum).cmp true (expected ix ops k) op.2 y else y ∈ expected ix ops k := by
  unfold expected
  rw [List.filter_append, List.flatMap_append]
  by_cases hs : cmpAttEntries ix.cmpK k op.1 = .eq
  · have hs' : cmpAttEntries ix.cmpK op.1 k = .eq := same_symm hc hs
    have hat : k.attnum = op.1.attnum := same_attnum (ix := ix) hs
    rw [if_pos hs]
    rw [show ([op].filter (fun o => cmpAttEntries ix.cmpK o.1 k == .eq)).flatMap Prod.snd = op.2 by simp [hs']]
    rw [hat]
    exact mem_keepFirst _ _ h.items.sorted _ y
  · have hs' : ¬ cmpAttEntries ix.cmpK op.1 k = .eq := fun h => hs (same_symm hc h)
    rw [if_neg hs]
    rw [show ([op].filter (fun o => cmpAttEntries ix.cmpK o.1 k == .eq)).flatMap Prod.snd = [] by simp [hs'], List.append_nil]

theorem insertAll_ok {ix : Ix V} [Inhabited V] {M : Lim} (hc : ColsOK ix M) (ops : List (AttKey V × List (Item Datum))) :
    ∀ (done : List (AttKey V × List (Item Datum))) (st : State V), (∀ o ∈ ops, OpOK ix M o) → IInv True ix M st →
      (∀ k y, y ∈ ix.rowsOf st k ↔ y ∈ expected ix done k) →
      ∃ t, ix.insertAll st ops = (t, true) ∧ IInv True ix M t ∧ ∀ k y, y ∈ ix.rowsOf t k ↔ y ∈ expected ix (done ++ ops) k := by
  induction ops with
  | nil => intro d st _ H h; exact ⟨st, rfl, H, by simpa using h⟩
  | cons op ops ih =>
    intro d st hops H h
    obtain ⟨k, items⟩ := op
    have hop := hops (k, items) (by simp)
    obtain ⟨ts, ok, e1, e2, -, e4, e5⟩ := entryInsert_spec hc H hop.key hop.items
    obtain rfl := e2 trivial
    have e5 := e5 rfl
    obtain ⟨t, t1, t2, t3⟩ := ih (d ++ [(k, items)]) (lastState st ts) (fun o ho => hops o (by simp [ho])) e4 (by
      intro k' y
      rw [expected_snoc hc d (k, items) hop]
      by_cases hs : cmpAttEntries ix.cmpK k' k = .eq
      · rw [if_pos hs, e5.rows k' hs]
        simp only [Upd, if_true, h]
      · rw [if_neg hs, e5.other k' hs, h])
    refine ⟨t, ?_, t2, by simpa [List.append_assoc] using t3⟩
    simp only [Ix.insertAll, e1, if_true]
    exact t1

theorem Reach.inv {ix : Ix V} [Inhabited V] {M : Lim} (hc : ColsOK ix M) {st : State V} (h : Reach ix M st) : IInv False ix M st := by
  induction h with
  | empty => exact (inv_empty ix hc).mono
  | record st t k items _ hop ht ih =>
    obtain ⟨ts, ok, e1, -, e3, -, -⟩ := entryInsert_spec hc ih hop.key hop.items
    rw [e1] at ht
    exact (e3 t ht).1

/-! ### Properties -/

/-- **C15.** Any sequence of insertions of sorted lists of items under any keys of any columns, from the empty index: all succeed, and a lookup of
any key finds exactly the items inserted under it (an item equal to one already there is dropped), in order, each once. Whether the items
are in the key's tuple or in a posting tree, and how the pages have split, does not show. -/
theorem C15_index_is_map (ix : Ix V) [Inhabited V] (M : Lim) (hc : ColsOK ix M) (ops : List (AttKey V × List (Item Datum)))
    (hops : ∀ o ∈ ops, OpOK ix M o) :
    ∃ st, ix.insertAll emptyIndex ops = (st, true) ∧
      ∀ k, SSorted (ix.ctx k.attnum).cmp (ix.rowsOf st k) ∧ ∀ y, y ∈ ix.rowsOf st k ↔ y ∈ expected ix ops k := by
  obtain ⟨t, h1, h2, h3⟩ := insertAll_ok hc ops [] emptyIndex hops (inv_empty ix hc) (by
    intro k y; rw [rowsOf_empty ix hc]; simp [expected, keepFirst])
  exact ⟨t, h1, fun k => ⟨rowsOf_sorted hc h2 k, by simpa using h3 k⟩⟩

/-- **C15 at every log record.** Whatever the history, crashes included, and after every log record of the next insertion: every key can be looked
up; the rows of other keys are unchanged; under the key itself nothing is lost and nothing but the new items has appeared, in order. If the
insertion reports success, exactly the new items have been added. -/
theorem C15_every_record (ix : Ix V) [Inhabited V] (M : Lim) (hc : ColsOK ix M) (st : State V) (h : Reach ix M st)
    (k : AttKey V) (items : List (Item Datum)) (hop : OpOK ix M (k, items)) :
    (∀ t ∈ (ix.entryInsert st k items).1, ∀ k',
      SSorted (ix.ctx k'.attnum).cmp (ix.rowsOf t k') ∧
      (cmpAttEntries ix.cmpK k' k ≠ .eq → ix.rowsOf t k' = ix.rowsOf st k') ∧
      (cmpAttEntries ix.cmpK k' k = .eq → (∀ y ∈ ix.rowsOf st k', y ∈ ix.rowsOf t k') ∧ ∀ y ∈ ix.rowsOf t k', y ∈ ix.rowsOf st k' ∨ y ∈ items)) ∧
    ((ix.entryInsert st k items).2 = true → ∀ k', cmpAttEntries ix.cmpK k' k = .eq → ∀ y,
      y ∈ ix.rowsOf (lastState st (ix.entryInsert st k items).1) k' ↔
        y ∈ ix.rowsOf st k' ∨ (y ∈ items ∧ ∀ z ∈ ix.rowsOf st k', (ix.ctx k.attnum).cmp z y ≠ .eq)) := by
  obtain ⟨ts, ok, e1, -, e3, -, e5⟩ := entryInsert_spec hc (h.inv hc) hop.key hop.items
  rw [e1]
  refine ⟨fun t ht k' => ?_, fun hok k' hs y => ?_⟩
  · obtain ⟨a1, a2⟩ := e3 t ht
    exact ⟨rowsOf_sorted hc a1 k', a2.other k', fun hs => ⟨a2.kept k' hs, a2.added k' hs⟩⟩
  · have := (e5 hok).rows k' hs y
    simpa only [Upd, if_true] using this

/-- **C15, oversized keys.** A key too big for a tuple of its own is refused and nothing is written, whatever the history. -/
theorem C15_key_too_big (ix : Ix V) [Inhabited V] (M : Lim) (hc : ColsOK ix M) (st : State V) (h : Reach ix M st) (k : AttKey V)
    (hk : ∀ k', cmpAttEntries ix.cmpK k k' = .eq → maxTuple < ix.tupleSize k' []) (items : List (Item Datum))
    (hi : ∀ it ∈ items, ItemOK (ix.ctx k.attnum).cfg it) :
    ix.entryInsert st k items = ([], false) := by
  have := hc.keys
  have H := h.inv hc
  obtain ⟨b, up, ⟨h1, h2⟩, -⟩ := find_ok hc H.entry k
  have hself : maxTuple < ix.tupleSize k [] := hk k (ReflCmp.compare_self (cmp := cmpAttEntries ix.cmpK))
  have hmore : ix.tupleSize k [] ≤ ix.tupleSize k items := by
    unfold Ix.tupleSize
    refine alignUp_mono 8 _ _ ?_
    have := checkList_ge (ix.ctx k.attnum).cfg items ⟨0, 0⟩ (ix.keySize k) hi
    simp only [checkList]
    omega
  unfold Ix.entryInsert
  rw [h1]
  simp only
  rcases h2 with ⟨off, e, hl, hg, hm, he⟩ | ⟨off, hl, hn⟩
  · exact absurd (H.ents e hm).key (by have := hk e.key he; omega)
  · rw [hl]
    simp only [Bool.false_eq_true, if_false]
    have e1 : ix.formTuple k items = none := by unfold Ix.formTuple; rw [if_pos (by omega)]
    have e2 : ix.formTree k st.ntrees = none := by unfold Ix.formTree; rw [if_pos (by omega)]
    simp only [Ix.freshTuple, e1, e2, Ix.putTuple]

/-! ### Rows -/

theorem keepFirst_sub (cmp : Item Datum → Item Datum → Ordering) (l : List (Item Datum)) : ∀ y ∈ keepFirst cmp l, y ∈ l := by
  induction l using List.reverseRecOn with
  | nil => simp [keepFirst]
  | append_singleton l a ih =>
    intro y hy
    rw [keepFirst_snoc] at hy
    split at hy
    · simp [ih y hy]
    · rcases List.mem_append.1 hy with h | h
      · simp [ih y h]
      · simp at h; simp [h]

theorem cmp_eq_iptr {x : Ctx} {a b : Item Datum} (h : x.cmp a b = .eq) : a.iptr = b.iptr := by
  have hc : ∀ p q : Iptr, cmpIptr p q = .eq → p = q := by
    intro p q h
    unfold cmpIptr at h
    cases p; cases q
    simp only at h
    split at h
    · split at h
      · next h1 h2 => subst h1; subst h2; rfl
      · split at h <;> cases h
    · split at h <;> cases h
  unfold Ctx.cmp cmpItem at h
  split at h
  · split at h
    · split at h
      · exact hc _ _ h
      · next hne => exact absurd h hne
    · cases h
    · exact hc _ _ h
    · cases h
  · exact hc _ _ h

/-- The insertions a row stands for. -/
def rowOps (ix : Ix V) [Inhabited V] (rc : RowCfg V) (r : Row V) : List (AttKey V × List (Item Datum)) :=
  ((List.range rc.natts).map (· + 1)).flatMap (fun a => (ix.colEntries rc a r).map (fun o => (outKey a o, [⟨r.tid, o.info⟩])))

theorem insertAll_append (ix : Ix V) [Inhabited V] (a b : List (AttKey V × List (Item Datum))) : ∀ st : State V,
    ix.insertAll st (a ++ b) = if (ix.insertAll st a).2 then ix.insertAll (ix.insertAll st a).1 b else ix.insertAll st a := by
  induction a with
  | nil => intro st; simp [Ix.insertAll]
  | cons op a ih =>
    intro st
    obtain ⟨k, items⟩ := op
    simp only [List.cons_append, Ix.insertAll]
    split
    · exact ih _
    · simp

theorem insertEntries_eq (ix : Ix V) [Inhabited V] (rc : RowCfg V) (a : Nat) (tid : Iptr) (os : List (Out V Datum)) : ∀ st : State V,
    (∀ o ∈ os, o.info.isSome → rc.addAttrs a = true) →
    ix.insertEntries rc a tid st os = ix.insertAll st (os.map (fun o => (outKey a o, [⟨tid, o.info⟩]))) := by
  induction os with
  | nil => intro st _; rfl
  | cons o os ih =>
    intro st h
    have h0 : (o.info.isSome && !rc.addAttrs a) = false := by
      cases hi : o.info.isSome with
      | false => rfl
      | true => rw [h o (by simp) hi]; rfl
    simp only [Ix.insertEntries, List.map_cons, Ix.insertAll, h0, Bool.false_eq_true, if_false]
    rw [ih _ (fun o' ho => h o' (by simp [ho]))]

theorem insertCols_eq (ix : Ix V) [Inhabited V] (rc : RowCfg V) (r : Row V) (as : List Nat) : ∀ st : State V,
    (∀ a ∈ as, ∀ o ∈ ix.colEntries rc a r, o.info.isSome → rc.addAttrs a = true) →
    ix.insertCols rc r st as = ix.insertAll st (as.flatMap (fun a => (ix.colEntries rc a r).map (fun o => (outKey a o, [⟨r.tid, o.info⟩])))) := by
  induction as with
  | nil => intro st _; rfl
  | cons a as ih =>
    intro st h
    simp only [Ix.insertCols, List.flatMap_cons]
    rw [insertAll_append, insertEntries_eq ix rc a r.tid _ st (h a (by simp)), ih _ (fun a' ha => h a' (by simp [ha]))]

theorem mem_cols {n a : Nat} : a ∈ (List.range n).map (· + 1) ↔ 1 ≤ a ∧ a ≤ n := by
  simp only [List.mem_map, List.mem_range]
  constructor
  · rintro ⟨b, hb, rfl⟩; omega
  · intro h; exact ⟨a - 1, by omega, by omega⟩

theorem insertRows_eq (ix : Ix V) [Inhabited V] (rc : RowCfg V) {M : Lim} (rs : List (Row V)) : ∀ st : State V, (∀ r ∈ rs, RowOK ix rc M r) →
    ix.insertRows rc st rs = ix.insertAll st (rs.flatMap (rowOps ix rc)) := by
  induction rs with
  | nil => intro st _; rfl
  | cons r rs ih =>
    intro st h
    simp only [Ix.insertRows, List.flatMap_cons]
    have hr : ix.insertRow rc st r = ix.insertAll st (rowOps ix rc r) :=
      insertCols_eq ix rc r _ st (fun a ha o ho => (h r (by simp) a (mem_cols.1 ha).1 (mem_cols.1 ha).2 o ho).1)
    rw [insertAll_append, hr, ih _ (fun r' hr' => h r' (by simp [hr']))]

theorem rowOps_ok {ix : Ix V} [Inhabited V] {rc : RowCfg V} {M : Lim} {r : Row V} (h : RowOK ix rc M r) : ∀ o ∈ rowOps ix rc r, OpOK ix M o := by
  intro op hop
  obtain ⟨a, ha, hop⟩ := List.mem_flatMap.1 hop
  obtain ⟨o, ho, rfl⟩ := List.mem_map.1 hop
  obtain ⟨-, h2, h3⟩ := h a (mem_cols.1 ha).1 (mem_cols.1 ha).2 o ho
  exact ⟨h2, by simp [SSorted], by simpa [outKey] using h3, fun _ => by simp⟩

/-- The entries of one column of one row with a given key. -/
theorem colEntries_key {ix : Ix V} [Inhabited V] {rc : RowCfg V} {M : Lim} (hc : ColsOK ix M) {a : Nat}
    (hs : SortOK (ix.cmpK a) (rc.sort a)) (hd : DupsSeen (ix.cmpK a) (rc.haveDups a)) (r : Row V) {k : AttKey V} (hk : k.attnum = a) :
    ((∃ o ∈ ix.colEntries rc a r, Same ix (outKey a o) k) ↔ Contains (ix.cmpK a) (r.value a) k) ∧
    (∀ o ∈ ix.colEntries rc a r, Same ix (outKey a o) k → InfoOf rc (ix.cmpK a) r k o.info) ∧
    (∀ o ∈ ix.colEntries rc a r, ∀ o' ∈ ix.colEntries rc a r, Same ix (outKey a o) k → Same ix (outKey a o') k → o.info = o'.info) := by
  have htr := hc.keys a
  have htr' := hc.keys
  obtain ⟨c1, c2, c3⟩ := C18_extract (ix.cmpK a) (rc.sort a) (rc.haveDups a) hs hd
  set es := extractEntries (ix.cmpK a) (rc.sort a) (rc.haveDups a) (r.value a) with hes
  -- the same question for the entries before the info is replaced
  have hsame : ∀ o : Out V Datum, Same ix (outKey a o) k ↔ o.cat = k.cat ∧ (o.cat = .norm → ix.cmpK a (o.key.getD default) k.key = .eq) := by
    intro o
    unfold Same cmpAttEntries outKey cmpEntries
    simp only [hk, ne_eq, not_true_eq_false, if_false]
    by_cases hcat : o.cat = k.cat
    · simp only [hcat, not_true_eq_false, if_false, true_and]
      by_cases hn : k.cat = .norm
      · simp [hn]
      · simp [hn]
    · simp only [hcat, not_false_eq_true, if_true, false_and, iff_false]
      split <;> simp
  have key : ((∃ o ∈ es, Same ix (outKey a o) k) ↔ Contains (ix.cmpK a) (r.value a) k) ∧
      (∀ o ∈ es, Same ix (outKey a o) k → rc.addTo ≠ some a → InfoOf rc (ix.cmpK a) r k o.info) ∧
      (∀ o ∈ es, ∀ o' ∈ es, Same ix (outKey a o) k → Same ix (outKey a o') k → o = o') := by
    cases hv : r.value a with
    | none =>
      rw [hv, c1] at hes
      rw [hes]
      refine ⟨?_, ?_, by simp⟩
      · simp only [List.mem_singleton, exists_eq_left, hsame]
        unfold Contains
        cases k.cat <;> simp
      · simp only [List.mem_singleton, forall_eq]
        intro _ hna
        unfold InfoOf
        rw [hk, if_neg hna, hv]
    | some raws =>
      by_cases hne : raws = []
      · subst hne
        rw [hv, c2] at hes
        rw [hes]
        refine ⟨?_, ?_, by simp⟩
        · simp only [List.mem_singleton, exists_eq_left, hsame]
          unfold Contains
          cases k.cat <;> simp
        · simp only [List.mem_singleton, forall_eq]
          intro _ hna
          unfold InfoOf
          rw [hk, if_neg hna, hv]
      · rw [hv] at hes
        obtain ⟨d1, d2, d3, d4⟩ := c3 raws hne
        rw [← hes] at d1 d2 d3 d4
        have hcats : ∀ o ∈ es, (o.cat = .nullKey ∧ o.key = none) ∨ (o.cat = .norm ∧ ∃ x, o.key = some x) := by
          intro o ho
          obtain ⟨q, -, hq1, -, hq2, hq3⟩ := d3 o ho
          cases hqk : q.key with
          | none => exact Or.inl ⟨hq2.2 hqk, by rw [hq1, hqk]⟩
          | some x => exact Or.inr ⟨hq3.2 (by rw [hqk]; simp), x, by rw [hq1, hqk]⟩
        refine ⟨⟨?_, ?_⟩, ?_, ?_⟩
        · rintro ⟨o, ho, hsm⟩
          obtain ⟨q, hq, hq1, hq2, hq3, hq4⟩ := d3 o ho
          obtain ⟨s1, s2⟩ := (hsame o).1 hsm
          unfold Contains
          rcases hcats o ho with ⟨h1, h2⟩ | ⟨h1, x, h2⟩
          · rw [← s1, h1]
            exact ⟨raws, rfl, q, hq, by rw [← hq1, h2]⟩
          · rw [← s1, h1]
            refine ⟨raws, rfl, q, hq, x, by rw [← hq1, h2], ?_⟩
            have := s2 h1
            rw [h2] at this
            exact this
        · intro hcon
          unfold Contains at hcon
          split at hcon
          · cases hcon
          · simp only [Option.some.injEq] at hcon; exact absurd hcon hne
          · next hkc =>
            obtain ⟨raws', h1, q, hq, hqk⟩ := hcon
            simp only [Option.some.injEq] at h1
            subst h1
            obtain ⟨o, ho, he⟩ := d4 q hq
            refine ⟨o, ho, (hsame o).2 ?_⟩
            rcases hcats o ho with ⟨h1, h2⟩ | ⟨h1, x, h2⟩
            · exact ⟨by rw [h1, hkc], by rw [h1]; simp⟩
            · rw [h2, hqk] at he; simp [cmpExtract] at he
          · next hkc =>
            obtain ⟨raws', h1, q, hq, x, hqk, hx⟩ := hcon
            simp only [Option.some.injEq] at h1
            subst h1
            obtain ⟨o, ho, he⟩ := d4 q hq
            refine ⟨o, ho, (hsame o).2 ?_⟩
            rcases hcats o ho with ⟨h1, h2⟩ | ⟨h1, z, h2⟩
            · rw [h2, hqk] at he; simp [cmpExtract] at he
            · rw [h2, hqk] at he
              refine ⟨by rw [h1, hkc], fun _ => ?_⟩
              rw [h2]
              exact TransCmp.eq_trans (cmp := ix.cmpK a) he hx
          · exact hcon.elim
        · intro o ho hsm hna
          obtain ⟨q, hq, hq1, hq2, -, -⟩ := d3 o ho
          obtain ⟨s1, s2⟩ := (hsame o).1 hsm
          obtain ⟨raw, raws', rfl⟩ := List.exists_cons_of_ne_nil hne
          unfold InfoOf
          rw [hk, if_neg hna, hv]
          refine ⟨q, hq, hq2.symm, ?_⟩
          rcases hcats o ho with ⟨h1, h2⟩ | ⟨h1, x, h2⟩
          · exact Or.inl ⟨by rw [← s1, h1], by rw [← hq1, h2]⟩
          · refine Or.inr ⟨by rw [← s1, h1], x, by rw [← hq1, h2], ?_⟩
            have := s2 h1
            rw [h2] at this
            exact this
        · intro o ho o' ho' hsm hsm'
          obtain ⟨s1, s2⟩ := (hsame o).1 hsm
          obtain ⟨s1', s2'⟩ := (hsame o').1 hsm'
          by_contra hneo
          have hb : ∀ u v : Out V Datum, u ∈ es → v ∈ es → u.cat = k.cat → v.cat = k.cat → (u.cat = .norm → ix.cmpK a (u.key.getD default) k.key = .eq) →
              (v.cat = .norm → ix.cmpK a (v.key.getD default) k.key = .eq) → ¬ outBefore (ix.cmpK a) u v := by
            intro u v _ _ hu hv hu2 hv2 hb
            rcases hb with hb | ⟨h1, h2, x, y, h3, h4, h5⟩
            · rw [hu, hv] at hb; omega
            · have e1 := hu2 h1
              have e2 := hv2 h2
              rw [h3] at e1
              rw [h4] at e2
              have := TransCmp.eq_trans (cmp := ix.cmpK a) e1 (OrientedCmp.eq_symm e2)
              simp only [Option.getD_some] at this
              rw [this] at h5; cases h5
          have hsym : Std.Symm (fun u v : Out V Datum => u = v ∨ outBefore (ix.cmpK a) u v ∨ outBefore (ix.cmpK a) v u) :=
            ⟨fun u v h => by rcases h with h | h | h; exacts [Or.inl h.symm, Or.inr (Or.inr h), Or.inr (Or.inl h)] ⟩
          rcases List.Pairwise.forall_of_forall (R := fun u v : Out V Datum => u = v ∨ outBefore (ix.cmpK a) u v ∨ outBefore (ix.cmpK a) v u)
            (fun u _ => Or.inl rfl) (d2.imp (fun h => Or.inr (Or.inl h))) ho ho' with h | h | h
          · exact hneo h
          · exact hb o o' ho ho' s1 s1' s2 s2' h
          · exact hb o' o ho' ho s1' s1 s2' s2 h
  obtain ⟨k1, k2, k3⟩ := key
  unfold Ix.colEntries
  by_cases hadd : rc.addTo = some a
  · simp only [hadd, if_true, ← hes]
    refine ⟨?_, ?_, ?_⟩
    · rw [← k1]
      constructor
      · rintro ⟨o, ho, hsm⟩
        obtain ⟨o', ho', rfl⟩ := List.mem_map.1 ho
        exact ⟨o', ho', hsm⟩
      · rintro ⟨o, ho, hsm⟩
        exact ⟨_, List.mem_map.2 ⟨o, ho, rfl⟩, hsm⟩
    · intro o ho _
      obtain ⟨o', ho', rfl⟩ := List.mem_map.1 ho
      unfold InfoOf
      rw [hk, if_pos hadd]
    · intro o ho o' ho' _ _
      obtain ⟨u, -, rfl⟩ := List.mem_map.1 ho
      obtain ⟨v, -, rfl⟩ := List.mem_map.1 ho'
      rfl
  · simp only [hadd, if_false, ← hes]
    exact ⟨k1, fun o ho hsm => k2 o ho hsm hadd, fun o ho o' ho' h1 h2 => by rw [k3 o ho o' ho' h1 h2]⟩

/-- A lookup of any key of any column finds exactly the rows whose value of that column contains the key (or, for the placeholder keys, is NULL or
has no keys), in order, each once, with the additional info that belongs to it. -/
def Indexes (ix : Ix V) [Inhabited V] (rc : RowCfg V) (st : State V) (rs : List (Row V)) : Prop :=
  ∀ k : AttKey V, 1 ≤ k.attnum → k.attnum ≤ rc.natts →
    SSorted (ix.ctx k.attnum).cmp (ix.rowsOf st k) ∧ ((ix.rowsOf st k).map Item.iptr).Nodup ∧
    (∀ tid, tid ∈ (ix.rowsOf st k).map Item.iptr ↔ ∃ r ∈ rs, r.tid = tid ∧ Contains (ix.cmpK k.attnum) (r.value k.attnum) k) ∧
    ∀ y ∈ ix.rowsOf st k, ∃ r ∈ rs, r.tid = y.iptr ∧ InfoOf rc (ix.cmpK k.attnum) r k y.info

/-- Insertions that put the entries of the rows under their keys, in whatever portions, index the rows. -/
theorem rows_of_ops (ix : Ix V) [Inhabited V] (rc : RowCfg V) (M : Lim) (hc : ColsOK ix M) (hs : ∀ a, SortOK (ix.cmpK a) (rc.sort a))
    (hd : ∀ a, DupsSeen (ix.cmpK a) (rc.haveDups a)) (rs : List (Row V)) (htid : (rs.map Row.tid).Nodup)
    (ops : List (AttKey V × List (Item Datum))) (hops : ∀ o ∈ ops, OpOK ix M o)
    (hmem0 : ∀ k : AttKey V, 1 ≤ k.attnum → k.attnum ≤ rc.natts → ∀ y, (∃ op ∈ ops, Same ix op.1 k ∧ y ∈ op.2) ↔
      ∃ r ∈ rs, ∃ o ∈ ix.colEntries rc k.attnum r, Same ix (outKey k.attnum o) k ∧ y = ⟨r.tid, o.info⟩) :
    ∃ st, ix.insertAll emptyIndex ops = (st, true) ∧ Indexes ix rc st rs ∧
      ∀ k : AttKey V, 1 ≤ k.attnum → k.attnum ≤ rc.natts → ∀ y, y ∈ ix.rowsOf st k ↔
        ∃ r ∈ rs, ∃ o ∈ ix.colEntries rc k.attnum r, Same ix (outKey k.attnum o) k ∧ y = ⟨r.tid, o.info⟩ := by
  obtain ⟨st, h1, h2⟩ := C15_index_is_map ix M hc ops hops
  refine ⟨st, h1, ?_⟩
  rw [Indexes, ← forall_and]
  intro k
  rw [← forall_and]
  intro hk1
  rw [← forall_and]
  intro hk2
  obtain ⟨g1, g2⟩ := h2 k
  -- the items inserted under the key
  have hmem : ∀ y, y ∈ (ops.filter (fun o => cmpAttEntries ix.cmpK o.1 k == .eq)).flatMap Prod.snd ↔
      ∃ r ∈ rs, ∃ o ∈ ix.colEntries rc k.attnum r, Same ix (outKey k.attnum o) k ∧ y = ⟨r.tid, o.info⟩ := by
    intro y
    rw [← hmem0 k hk1 hk2 y]
    simp only [List.mem_flatMap, List.mem_filter, beq_iff_eq, and_assoc]
    rfl
  have huniq : ∀ r ∈ rs, ∀ r' ∈ rs, r.tid = r'.tid → r = r' := fun r hr r' hr' h => List.inj_on_of_nodup_map htid hr hr' h
  have hcol := fun r => colEntries_key (rc := rc) hc (hs k.attnum) (hd k.attnum) r (k := k) rfl
  have hone : ∀ y y', y ∈ (ops.filter (fun o => cmpAttEntries ix.cmpK o.1 k == .eq)).flatMap Prod.snd →
      y' ∈ (ops.filter (fun o => cmpAttEntries ix.cmpK o.1 k == .eq)).flatMap Prod.snd → y.iptr = y'.iptr → y = y' := by
    intro y y' hy hy' he
    obtain ⟨r, hr, o, ho, hsm, rfl⟩ := (hmem y).1 hy
    obtain ⟨r', hr', o', ho', hsm', rfl⟩ := (hmem y').1 hy'
    obtain rfl := huniq r hr r' hr' he
    rw [(hcol r).2.2 o ho o' ho' hsm hsm']
  have hin : ∀ y, y ∈ ix.rowsOf st k ↔ ∃ r ∈ rs, ∃ o ∈ ix.colEntries rc k.attnum r, Same ix (outKey k.attnum o) k ∧ y = ⟨r.tid, o.info⟩ := by
    intro y
    rw [g2, ← hmem]
    unfold expected
    refine ⟨keepFirst_sub _ _ y, fun hy => ?_⟩
    have htr : TransCmp (ix.ctx k.attnum).cmpV := hc.infos k.attnum
    have htr' : TransCmp (ix.ctx k.attnum).cmp := cmpItem_trans _ _
    obtain ⟨i, hi, he⟩ := (keepFirst_covers (ix.ctx k.attnum).cmp _ y).2 ⟨y, hy, ReflCmp.compare_self (cmp := (ix.ctx k.attnum).cmp)⟩
    rw [← hone i y (keepFirst_sub _ _ i hi) hy (cmp_eq_iptr he)]
    exact hi
  refine ⟨⟨g1, ?_, fun tid => ⟨fun h => ?_, fun h => ?_⟩, fun y hy => ?_⟩, hin⟩
  · have hnd : (ix.rowsOf st k).Nodup := by
      have htr : TransCmp (ix.ctx k.attnum).cmpV := hc.infos k.attnum
      have htr' : TransCmp (ix.ctx k.attnum).cmp := cmpItem_trans _ _
      refine g1.imp (fun {a b} h hab => ?_)
      subst hab
      rw [ReflCmp.compare_self (cmp := (ix.ctx k.attnum).cmp)] at h
      cases h
    refine hnd.map_on (fun y hy y' hy' he => hone y y' ?_ ?_ he)
    · rw [hmem]; exact (hin y).1 hy
    · rw [hmem]; exact (hin y').1 hy'
  · obtain ⟨y, hy, rfl⟩ := List.mem_map.1 h
    obtain ⟨r, hr, o, ho, hsm, rfl⟩ := (hin y).1 hy
    exact ⟨r, hr, rfl, (hcol r).1.1 ⟨o, ho, hsm⟩⟩
  · obtain ⟨r, hr, rfl, hcon⟩ := h
    obtain ⟨o, ho, hsm⟩ := (hcol r).1.2 hcon
    exact List.mem_map.2 ⟨⟨r.tid, o.info⟩, (hin _).2 ⟨r, hr, o, ho, hsm, rfl⟩, rfl⟩
  · obtain ⟨r, hr, o, ho, hsm, rfl⟩ := (hin y).1 hy
    exact ⟨r, hr, rfl, (hcol r).2.1 o ho hsm⟩

theorem allRowOps_ok {ix : Ix V} [Inhabited V] {rc : RowCfg V} {M : Lim} {rs : List (Row V)} (hok : ∀ r ∈ rs, RowOK ix rc M r) :
    ∀ o ∈ rs.flatMap (rowOps ix rc), OpOK ix M o := by
  intro o ho
  obtain ⟨r, hr, ho⟩ := List.mem_flatMap.1 ho
  exact rowOps_ok (hok r hr) o ho

theorem rowOps_mem (ix : Ix V) [Inhabited V] (rc : RowCfg V) (rs : List (Row V)) (k : AttKey V) (hk1 : 1 ≤ k.attnum) (hk2 : k.attnum ≤ rc.natts)
    (y : Item Datum) : (∃ op ∈ rs.flatMap (rowOps ix rc), Same ix op.1 k ∧ y ∈ op.2) ↔
      ∃ r ∈ rs, ∃ o ∈ ix.colEntries rc k.attnum r, Same ix (outKey k.attnum o) k ∧ y = ⟨r.tid, o.info⟩ := by
  simp only [List.mem_flatMap]
  constructor
  · rintro ⟨op, ⟨r, hr, hop⟩, hsm, hy⟩
    obtain ⟨a, ha, hop⟩ := List.mem_flatMap.1 hop
    obtain ⟨o, ho, rfl⟩ := List.mem_map.1 hop
    have hat : a = k.attnum := same_attnum (ix := ix) hsm
    subst hat
    exact ⟨r, hr, o, ho, hsm, by simpa using hy⟩
  · rintro ⟨r, hr, o, ho, hsm, rfl⟩
    exact ⟨(outKey k.attnum o, [⟨r.tid, o.info⟩]), ⟨r, hr, List.mem_flatMap.2 ⟨k.attnum, mem_cols.2 ⟨hk1, hk2⟩,
      List.mem_map.2 ⟨o, ho, rfl⟩⟩⟩, hsm, by simp⟩

/-- **C15 for rows (INSERT).** Any sequence of rows with distinct TIDs inserted into the empty index: all insertions succeed; a lookup of a key of
a column finds exactly the rows whose value of that column contains the key (or, for the placeholder keys, is NULL or has no keys), each
once, with the additional info that belongs to it. -/
theorem C15_rows (ix : Ix V) [Inhabited V] (rc : RowCfg V) (M : Lim) (hc : ColsOK ix M) (hs : ∀ a, SortOK (ix.cmpK a) (rc.sort a))
    (hd : ∀ a, DupsSeen (ix.cmpK a) (rc.haveDups a)) (rs : List (Row V)) (hok : ∀ r ∈ rs, RowOK ix rc M r)
    (htid : (rs.map Row.tid).Nodup) :
    ∃ st, ix.insertRows rc emptyIndex rs = (st, true) ∧ ∀ k : AttKey V, 1 ≤ k.attnum → k.attnum ≤ rc.natts →
      SSorted (ix.ctx k.attnum).cmp (ix.rowsOf st k) ∧ ((ix.rowsOf st k).map Item.iptr).Nodup ∧
      (∀ tid, tid ∈ (ix.rowsOf st k).map Item.iptr ↔ ∃ r ∈ rs, r.tid = tid ∧ Contains (ix.cmpK k.attnum) (r.value k.attnum) k) ∧
      ∀ y ∈ ix.rowsOf st k, ∃ r ∈ rs, r.tid = y.iptr ∧ InfoOf rc (ix.cmpK k.attnum) r k y.info := by
  obtain ⟨st, h1, h2, -⟩ := rows_of_ops ix rc M hc hs hd rs htid _ (allRowOps_ok hok) (rowOps_mem ix rc rs)
  exact ⟨st, by rw [insertRows_eq ix rc rs _ hok]; exact h1, h2⟩

/-! ### Concrete cases -/

/-- An index on two integer columns; items of both with 8-byte additional info. -/
def exIx : Ix Nat := ⟨fun _ => compare, fun _ => 16, fun _ => PostingTree.exCtx, false⟩

theorem exCols : ColsOK exIx 15 where
  keys := fun _ => (inferInstance : TransCmp (compare : Nat → Nat → Ordering))
  infos := fun _ => { eq_swap := rfl, isLE_trans := fun _ _ => rfl }
  sizes := fun _ => ⟨by decide, by decide, (by decide : padOf PostingTree.exCtx.cfg ∣ 8), fun h => by cases h⟩

theorem exStorable' (n : Nat) (h : n < 400) : Storable PostingTree.exCtx 15 (PostingTree.exItem n) := by
  refine ⟨⟨⟨?_, ?_⟩, fun h => by simp [PostingTree.exCtx] at h, ?_⟩, ?_, ?_, ?_, ?_⟩
  · show n < _; omega
  · show 1 < _; omega
  · intro d hd
    refine ⟨⟨true, 8, 8, true⟩, rfl, ?_⟩
    obtain rfl : Datum.byval 0 = d := by simpa [PostingTree.exItem] using hd
    refine ⟨rfl, by simp, by simp⟩
  · revert n; decide +kernel
  · show 1 ≤ 1; omega
  · revert n; decide +kernel
  · revert n; decide +kernel

/-- 400 rows under key 7 of column 1 at once, 3 more under key 5 of column 2. -/
def exOps : List (AttKey Nat × List (Item Datum)) :=
  [(⟨1, .norm, 7⟩, (List.range 400).map PostingTree.exItem), (⟨2, .norm, 5⟩, [PostingTree.exItem 3]), (⟨2, .norm, 5⟩, [PostingTree.exItem 1]),
   (⟨2, .nullItem, 0⟩, [PostingTree.exItem 2])]

/-- The hypotheses of `C15_index_is_map` are met by these insertions; the first makes a posting tree, the others posting lists. -/
example : (∀ o ∈ exOps, OpOK exIx 15 o) ∧ (exIx.formTuple ⟨1, .norm, 7⟩ ((List.range 400).map PostingTree.exItem)).isNone = true ∧
    (exIx.formTuple ⟨2, .norm, 5⟩ [PostingTree.exItem 3]).isSome = true := by
  refine ⟨?_, by decide +kernel, by decide +kernel⟩
  intro o ho
  simp only [exOps, List.mem_cons, List.not_mem_nil, or_false] at ho
  rcases ho with rfl | rfl | rfl | rfl
  · refine ⟨by decide +kernel, ?_, ?_, fun h => by cases h⟩
    · unfold SSorted
      rw [List.pairwise_map]
      refine List.Pairwise.imp ?_ (List.pairwise_lt_range (n := 400))
      intro a b h
      show cmpIptr ⟨a, 1⟩ ⟨b, 1⟩ = .lt
      unfold cmpIptr
      rw [if_neg (by simp only; omega), if_neg (by simp only; omega)]
    · intro it hi
      obtain ⟨n, hn, rfl⟩ := List.mem_map.1 hi
      exact exStorable' n (by simpa using hn)
  all_goals
    refine ⟨by decide +kernel, by simp [SSorted], ?_, fun h => by cases h⟩
    intro it hi
    simp only [List.mem_singleton] at hi
    subst hi
    exact exStorable' _ (by omega)

/-- A one-column row configuration with merge sort. -/
def exRc : RowCfg Nat := ⟨2, fun _ l => l.mergeSort (fun a b => (cmpExtract compare a.key b.key).isLE), fun _ _ => true, none, fun _ => true⟩
def exRow (n : Nat) (v : Option (List (Raw Nat Datum))) : Row Nat := ⟨⟨n, 1⟩, fun a => if a = 1 then v else none, none⟩
/-- Rows: key 7 with info; NULL; no keys. -/
def exRows : List (Row Nat) := [exRow 1 (some [⟨some 7, some (.byval 0)⟩]), exRow 2 none, exRow 3 (some [])]

/-- The hypotheses of `C15_rows` are met. -/
example : (∀ a, SortOK (exIx.cmpK a) (exRc.sort a)) ∧ (∀ a, DupsSeen (exIx.cmpK a) (exRc.haveDups a)) ∧
    (exRows.map Row.tid).Nodup := by
  refine ⟨fun a => ⟨fun l => List.mergeSort_perm _ _, fun l => ?_⟩, fun a l h => (by cases h), by decide⟩
  have := List.pairwise_mergeSort (l := l) (le := fun a b : Raw Nat Datum => (cmpExtract compare a.key b.key).isLE)
    (fun a b c h1 h2 => TransCmp.isLE_trans h1 h2) (fun a b => by
      rw [OrientedCmp.eq_swap (cmp := cmpExtract compare) (a := b.key) (b := a.key)]
      cases cmpExtract compare a.key b.key <;> simp)
  exact this.imp (fun h hc => by
    rw [show cmpExtract compare _ _ = Ordering.gt from hc] at h
    cases h)

theorem exNull (n : Nat) (h : n < 400) : Storable PostingTree.exCtx 15 ⟨⟨n, 1⟩, none⟩ := by
  refine ⟨⟨⟨?_, ?_⟩, fun h => by simp [PostingTree.exCtx] at h, ?_⟩, ?_, ?_, ?_, ?_⟩
  · show n < _; omega
  · show 1 < _; omega
  · intro d hd; cases hd
  · revert n; decide +kernel
  · show 1 ≤ 1; omega
  · revert n; decide +kernel
  · revert n; decide +kernel

example : ∀ r ∈ exRows, RowOK exIx exRc 15 r := by
  have hsz : ∀ k : AttKey Nat, exIx.tupleSize k [] ≤ maxTuple := by
    intro k
    show alignUp 8 (16 + catByte k) ≤ maxTuple
    unfold catByte
    split <;> decide
  intro r hr a h1 h2 o ho
  refine ⟨fun _ => rfl, hsz _, ?_⟩
  have h2 : a ≤ 2 := h2
  have ha : a = 1 ∨ a = 2 := by omega
  simp only [exRows, List.mem_cons, List.not_mem_nil, or_false] at hr
  rcases hr with rfl | rfl | rfl <;> rcases ha with rfl | rfl <;>
    · simp only [Ix.colEntries, exRc, exRow, extractEntries, reduceCtorEq, if_false, if_true, (by decide : ¬ (2 = 1)), toOut,
        List.mem_singleton] at ho
      subst ho
      first | exact exNull _ (by omega) | exact exStorable' _ (by omega)

end Rum.Props.Index

import Verif.BulkLemmas
import Verif.Props.Index
import Mathlib.Data.List.Sort
/-!
# C19: CREATE INDEX gives the same index as inserting the rows one by one
-/
namespace Rum.Props.Bulk
open Rum Rum.Codec Rum.Leaf Rum.Entry Rum.Tree Rum.Index Rum.Extract Rum.Props Rum.Props.PostingTree Rum.Props.Index Std

variable {V : Type}

/-! ### Specification -/

/-- qsort sorts: for every total preorder a sorted permutation, whatever the algorithm. -/
def Sorts (qsort : (Item Datum → Item Datum → Ordering) → List (Item Datum) → List (Item Datum)) : Prop :=
  ∀ cmp : Item Datum → Item Datum → Ordering, TransCmp cmp → ∀ l, (qsort cmp l).Perm l ∧ (qsort cmp l).Pairwise (fun a b => cmp a b ≠ .gt)

/-- No key has the same row twice. -/
def OncePerKey (ix : Ix V) (E : List (AttKey V × Item Datum)) : Prop :=
  E.Pairwise (fun e f => ¬ (cmpAttEntries ix.cmpK e.1 f.1 = .eq ∧ e.2.iptr = f.2.iptr))

/-- The rows arrive in the order of their TIDs. -/
def TidOrder (E : List (AttKey V × Item Datum)) : Prop := E.Pairwise (fun e f => cmpIptr e.2.iptr f.2.iptr ≠ .gt)

/-! ### Proof apparatus -/

theorem deliver {ix : Ix V} {M : Lim} (hc : ColsOK ix M) {qsort : (Item Datum → Item Datum → Ordering) → List (Item Datum) → List (Item Datum)}
    (hq : Sorts qsort) {acc : List (Acc V)} {E : List (AttKey V × Item Datum)} (h : AccInv ix acc E) (h1 : OncePerKey ix E)
    (h2 : ∀ a, (ix.ctx a).cfg.alt = true → TidOrder E) (n : Acc V) (hn : n ∈ acc) :
    SSorted (ix.ctx n.key.attnum).cmp (ix.getBAEntry qsort n).2 ∧ (ix.getBAEntry qsort n).2.Perm n.list := by
  have hK := hc.keys
  have htr : TransCmp (ix.ctx n.key.attnum).cmpV := hc.infos _
  have htr' : TransCmp (ix.ctx n.key.attnum).cmp := cmpItem_trans _ _
  have htrI : TransCmp (fun a b : Item Datum => cmpIptr a.iptr b.iptr) :=
    { eq_swap := OrientedCmp.eq_swap, isLE_trans := TransCmp.isLE_trans }
  have hnd : (n.list.map Item.iptr).Nodup := by
    rw [h.list n hn, List.Nodup, List.pairwise_map, List.pairwise_map]
    rw [List.pairwise_filter]
    refine h1.imp (fun {e f} hef he hf hcc => hef ⟨?_, hcc⟩)
    rw [beq_iff_eq] at he hf
    exact TransCmp.eq_trans (cmp := cmpAttEntries ix.cmpK) he (OrientedCmp.eq_symm hf)
  have hstrict : ∀ (cmp : Item Datum → Item Datum → Ordering), (∀ a b, cmp a b = .eq → a.iptr = b.iptr) → ∀ l : List (Item Datum),
      l.Perm n.list → l.Pairwise (fun a b => cmp a b ≠ .gt) → l.Pairwise (fun a b => cmp a b = .lt) := by
    intro cmp hcmp l hp hl
    have hnd' : (l.map Item.iptr).Nodup := (hp.map _).nodup_iff.2 hnd
    rw [List.Nodup, List.pairwise_map] at hnd'
    refine (hl.and hnd').imp (fun {a b} hab => ?_)
    cases hcc : cmp a b with
    | lt => rfl
    | eq => exact absurd (hcmp a b hcc) hab.2
    | gt => exact absurd hcc hab.1
  unfold SSorted Ix.getBAEntry
  simp only
  by_cases hlen : n.list.length > 1
  · rw [if_pos hlen]
    by_cases hown : ix.ownOrder n.key.attnum = true
    · rw [if_pos hown]
      obtain ⟨q1, q2⟩ := hq _ htr' n.list
      exact ⟨hstrict _ (fun a b => cmp_eq_iptr) _ q1 q2, q1⟩
    · rw [if_neg hown]
      have hcmp : ∀ a b, (ix.ctx n.key.attnum).cmp a b = cmpIptr a.iptr b.iptr := by
        intro a b
        unfold Ctx.cmp cmpItem
        unfold Ix.ownOrder at hown
        rw [if_neg hown]
      simp only [hcmp]
      have hI : ∀ a b : Item Datum, cmpIptr a.iptr b.iptr = .eq → a.iptr = b.iptr := fun a b h => LawfulEqCmp.eq_of_compare h
      by_cases hsrt : n.shouldSort = true
      · rw [if_pos hsrt]
        obtain ⟨q1, q2⟩ := hq _ htrI n.list
        exact ⟨hstrict _ hI _ q1 q2, q1⟩
      · rw [if_neg hsrt]
        refine ⟨hstrict (fun a b => cmpIptr a.iptr b.iptr) hI _ (List.Perm.refl _) ?_, List.Perm.refl _⟩
        cases halt : (ix.ctx n.key.attnum).cfg.alt with
        | false => exact h.flag n hn halt (by simpa using hsrt)
        | true =>
          rw [h.list n hn, List.pairwise_map]
          exact (h2 _ halt).filter _
  · rw [if_neg hlen]
    refine ⟨?_, List.Perm.refl _⟩
    match hl : n.list, hlen with
    | [], _ => simp
    | [a], _ => simp
    | a :: b :: l, hlen => simp at hlen

/-- An entry the index can take. -/
def EOK (ix : Ix V) (M : Lim) (e : AttKey V × Item Datum) : Prop := ix.tupleSize e.1 [] ≤ maxTuple ∧ Storable (ix.ctx e.1.attnum) M e.2

theorem flush_ops {ix : Ix V} {M : Lim} (hM : M.single = false) (hc : ColsOK ix M) {qsort : (Item Datum → Item Datum → Ordering) → List (Item Datum) → List (Item Datum)}
    (hq : Sorts qsort) {acc : List (Acc V)} {E : List (AttKey V × Item Datum)} (h : AccInv ix acc E) (h1 : OncePerKey ix E)
    (h2 : ∀ a, (ix.ctx a).cfg.alt = true → TidOrder E) (hE : ∀ e ∈ E, EOK ix M e) :
    (∀ o ∈ acc.map (ix.getBAEntry qsort), OpOK ix M o) ∧
    ∀ k y, (∃ o ∈ acc.map (ix.getBAEntry qsort), Same ix o.1 k ∧ y ∈ o.2) ↔ ∃ e ∈ E, Same ix e.1 k ∧ y = e.2 := by
  have hK := hc.keys
  have hmem : ∀ n ∈ acc, ∀ y, y ∈ (ix.getBAEntry qsort n).2 ↔ ∃ e ∈ E, Same ix e.1 n.key ∧ y = e.2 := by
    intro n hn y
    rw [(deliver hc hq h h1 h2 n hn).2.mem_iff, h.list n hn, List.mem_map]
    constructor
    · rintro ⟨e, he, rfl⟩
      obtain ⟨he1, he2⟩ := List.mem_filter.1 he
      exact ⟨e, he1, beq_iff_eq.1 he2, rfl⟩
    · rintro ⟨e, he, hs, rfl⟩
      exact ⟨e, List.mem_filter.2 ⟨he, beq_iff_eq.2 hs⟩, rfl⟩
  constructor
  · intro o ho
    obtain ⟨n, hn, rfl⟩ := List.mem_map.1 ho
    obtain ⟨-, e0, he0, hk0⟩ := h.key n hn
    refine ⟨by have := (hE e0 he0).1; rw [hk0] at this; exact this, (deliver hc hq h h1 h2 n hn).1, fun y hy => ?_, fun hs => by rw [hM] at hs; cases hs⟩
    obtain ⟨e, he, hs, rfl⟩ := (hmem n hn y).1 hy
    have := (hE e he).2
    rw [same_attnum (ix := ix) hs] at this
    exact this
  · intro k y
    constructor
    · rintro ⟨o, ho, hs, hy⟩
      obtain ⟨n, hn, rfl⟩ := List.mem_map.1 ho
      obtain ⟨e, he, hs', rfl⟩ := (hmem n hn y).1 hy
      exact ⟨e, he, TransCmp.eq_trans (cmp := cmpAttEntries ix.cmpK) hs' hs, rfl⟩
    · rintro ⟨e, he, hs, rfl⟩
      obtain ⟨n, hn, hs'⟩ := h.cover e he
      refine ⟨_, List.mem_map_of_mem hn, ?_, (hmem n hn _).2 ⟨e, he, hs', rfl⟩⟩
      exact TransCmp.eq_trans (cmp := cmpAttEntries ix.cmpK) (OrientedCmp.eq_symm hs') hs

/-- The entries of a row. -/
def rowEntries (ix : Ix V) [Inhabited V] (rc : RowCfg V) (r : Row V) (as : List Nat) : List (AttKey V × Item Datum) :=
  as.flatMap (fun a => (ix.colEntries rc a r).map (fun o => (outKey a o, (⟨r.tid, o.info⟩ : Item Datum))))

theorem bulkRow_eq {ix : Ix V} [Inhabited V] {rc : RowCfg V} (r : Row V) (as : List Nat) : ∀ acc : List (Acc V),
    (∀ a ∈ as, (ix.colEntries rc a r).length < 2 ^ 31) → (∀ a ∈ as, ∀ o ∈ ix.colEntries rc a r, o.info.isSome → rc.addAttrs a = true) →
    ∃ L : List (AttKey V × Item Datum), L.Perm (rowEntries ix rc r as) ∧
      ix.bulkRow rc r acc as = some (L.foldl (fun acc e => ix.baInsert e.1 e.2 acc) acc) := by
  induction as with
  | nil => intro acc _ _; exact ⟨[], by simp [rowEntries], rfl⟩
  | cons a as ih =>
    intro acc h1 h2
    obtain ⟨L1, p1, e1⟩ := baInsertEntries_eq ix a r.tid acc (ix.colEntries rc a r) (by have := h1 a (by simp); omega)
    obtain ⟨L2, p2, e2⟩ := ih (L1.foldl (fun acc e => ix.baInsert e.1 e.2 acc) acc) (fun b hb => h1 b (by simp [hb])) (fun b hb => h2 b (by simp [hb]))
    refine ⟨L1 ++ L2, ?_, ?_⟩
    · simpa [rowEntries] using p1.append p2
    · have hany : (ix.colEntries rc a r).any (fun o => o.info.isSome && !rc.addAttrs a) = false := by
        rw [List.any_eq_false]
        intro o ho
        cases hi : o.info.isSome with
        | false => simp
        | true => rw [h2 a (by simp) o ho hi]; simp
      rw [Ix.bulkRow, Ix.bulkCol]
      simp only [hany, Bool.false_eq_true, if_false, e1, e2, List.foldl_append]

/-- Distinct entries of a column of a row have distinct keys. -/
theorem colEntries_distinct {ix : Ix V} [Inhabited V] {rc : RowCfg V} {M : Lim} (hc : ColsOK ix M) {a : Nat}
    (hs : SortOK (ix.cmpK a) (rc.sort a)) (hd : DupsSeen (ix.cmpK a) (rc.haveDups a)) (r : Row V) :
    (ix.colEntries rc a r).Pairwise (fun o p => cmpAttEntries ix.cmpK (outKey a o) (outKey a p) ≠ .eq) := by
  have htr := hc.keys a
  obtain ⟨c1, c2, c3⟩ := C18_extract (ix.cmpK a) (rc.sort a) (rc.haveDups a) hs hd
  have key : (extractEntries (ix.cmpK a) (rc.sort a) (rc.haveDups a) (r.value a)).Pairwise
      (fun o p => cmpAttEntries ix.cmpK (outKey a o) (outKey a p) ≠ .eq) := by
    cases hv : r.value a with
    | none => rw [c1]; simp
    | some raws =>
      by_cases hne : raws = []
      · subst hne; rw [c2]; simp
      · refine (c3 raws hne).2.1.imp (fun {o p} h => ?_)
        unfold cmpAttEntries outKey cmpEntries
        simp only [ne_eq, not_true_eq_false, if_false]
        rcases h with h | ⟨h1, h2, x, y, h3, h4, h5⟩
        · have : o.cat ≠ p.cat := fun hcc => by rw [hcc] at h; omega
          rw [if_pos this]
          split <;> simp
        · rw [h1, h2, h3, h4]
          simp [h5]
  unfold Ix.colEntries
  split
  · rw [List.pairwise_map]; exact key
  · exact key

theorem rowEntries_distinct {ix : Ix V} [Inhabited V] {rc : RowCfg V} {M : Lim} (hc : ColsOK ix M)
    (hs : ∀ a, SortOK (ix.cmpK a) (rc.sort a)) (hd : ∀ a, DupsSeen (ix.cmpK a) (rc.haveDups a)) (r : Row V) (as : List Nat) (has : as.Nodup) :
    (rowEntries ix rc r as).Pairwise (fun e f => cmpAttEntries ix.cmpK e.1 f.1 ≠ .eq) := by
  unfold rowEntries
  induction as with
  | nil => simp
  | cons a as ih =>
    obtain ⟨h1, h2⟩ := List.nodup_cons.1 has
    rw [List.flatMap_cons, List.pairwise_append]
    refine ⟨?_, ih h2, ?_⟩
    · rw [List.pairwise_map]; exact colEntries_distinct hc (hs a) (hd a) r
    · intro e he f hf hcc
      obtain ⟨o, -, rfl⟩ := List.mem_map.1 he
      obtain ⟨b, hb, hf⟩ := List.mem_flatMap.1 hf
      obtain ⟨p, -, rfl⟩ := List.mem_map.1 hf
      have : a = b := same_attnum (ix := ix) hcc
      exact h1 (this ▸ hb)

theorem rowEntries_tid {ix : Ix V} [Inhabited V] {rc : RowCfg V} {r : Row V} {as : List Nat} : ∀ e ∈ rowEntries ix rc r as, e.2.iptr = r.tid := by
  intro e he
  obtain ⟨a, -, he⟩ := List.mem_flatMap.1 he
  obtain ⟨o, -, rfl⟩ := List.mem_map.1 he
  rfl

theorem cols_nodup (n : Nat) : ((List.range n).map (· + 1)).Nodup :=
  List.nodup_range.map (fun a b h => by simpa using h)

theorem build_ops {ix : Ix V} [Inhabited V] {rc : RowCfg V} {M : Lim} (hM : M.single = false) (hc : ColsOK ix M)
    {qsort : (Item Datum → Item Datum → Ordering) → List (Item Datum) → List (Item Datum)} (hq : Sorts qsort)
    (hs : ∀ a, SortOK (ix.cmpK a) (rc.sort a)) (hd : ∀ a, DupsSeen (ix.cmpK a) (rc.haveDups a)) (full : Nat → Bool) (rs : List (Row V)) :
    ∀ (n : Nat) (acc : List (Acc V)) (st : State V) (E : List (AttKey V × Item Datum)), AccInv ix acc E → OncePerKey ix E →
      (∀ e ∈ E, EOK ix M e) → (∀ a, (ix.ctx a).cfg.alt = true → TidOrder E) →
      (∀ e ∈ E, ∀ r ∈ rs, e.2.iptr ≠ r.tid) → (rs.map Row.tid).Nodup →
      (∀ a, (ix.ctx a).cfg.alt = true → (∀ e ∈ E, ∀ r ∈ rs, cmpIptr e.2.iptr r.tid = .lt) ∧ rs.Pairwise (fun r q => cmpIptr r.tid q.tid = .lt)) →
      (∀ r ∈ rs, RowOK ix rc M r) → (∀ r ∈ rs, ∀ a, (ix.colEntries rc a r).length < 2 ^ 31) →
      ∃ ops, ix.buildRows rc qsort full n acc st rs = ix.insertAll st ops ∧ (∀ o ∈ ops, OpOK ix M o) ∧
        ∀ k y, (∃ o ∈ ops, Same ix o.1 k ∧ y ∈ o.2) ↔
          (∃ e ∈ E, Same ix e.1 k ∧ y = e.2) ∨ ∃ r ∈ rs, ∃ e ∈ rowEntries ix rc r ((List.range rc.natts).map (· + 1)), Same ix e.1 k ∧ y = e.2 := by
  have hK := hc.keys
  induction rs with
  | nil =>
    intro n acc st E h1 h2 h3 h4 _ _ _ _ _
    obtain ⟨f1, f2⟩ := flush_ops hM hc hq h1 h2 h4 h3
    exact ⟨_, rfl, f1, by simpa using f2⟩
  | cons r rs ih =>
    intro n acc st E h1 h2 h3 h4 h5 h6 h7 h8 h9
    obtain ⟨L, hp, hL⟩ := bulkRow_eq (ix := ix) (rc := rc) r ((List.range rc.natts).map (· + 1)) acc (fun a _ => h9 r (by simp) a)
      (fun a ha o ho => (h8 r (by simp) a (mem_cols.1 ha).1 (mem_cols.1 ha).2 o ho).1)
    have hLt : ∀ e ∈ L, e.2.iptr = r.tid := fun e he => rowEntries_tid e (hp.mem_iff.1 he)
    have i1 : AccInv ix (L.foldl (fun acc e => ix.baInsert e.1 e.2 acc) acc) (E ++ L) := h1.foldl hK L
    have i2 : OncePerKey ix (E ++ L) := by
      refine List.pairwise_append.2 ⟨h2, ?_, fun e he f hf hcc => ?_⟩
      · have := rowEntries_distinct hc hs hd r _ (cols_nodup rc.natts)
        have hsym : Std.Symm (fun e f : AttKey V × Item Datum => cmpAttEntries ix.cmpK e.1 f.1 ≠ .eq) :=
          ⟨fun a b h hcc => h (OrientedCmp.eq_symm (cmp := cmpAttEntries ix.cmpK) hcc)⟩
        exact ((hp.pairwise_iff (fun {a b} h => hsym.symm a b h)).2 this).imp (fun h hcc => h hcc.1)
      · exact h5 e he r (by simp) (hcc.2.trans (hLt f hf))
    have i3 : ∀ e ∈ E ++ L, EOK ix M e := by
      intro e he
      rcases List.mem_append.1 he with he | he
      · exact h3 e he
      · obtain ⟨a, ha, he⟩ := List.mem_flatMap.1 (hp.mem_iff.1 he)
        obtain ⟨o, ho, rfl⟩ := List.mem_map.1 he
        obtain ⟨-, g2, g3⟩ := h8 r (by simp) a (mem_cols.1 ha).1 (mem_cols.1 ha).2 o ho
        exact ⟨g2, g3⟩
    have i4 : ∀ a, (ix.ctx a).cfg.alt = true → TidOrder (E ++ L) := by
      intro a ha
      refine List.pairwise_append.2 ⟨h4 a ha, ?_, fun e he f hf => ?_⟩
      · refine List.pairwise_of_forall_mem_list (fun e he f hf => ?_)
        rw [hLt e he, hLt f hf, ReflCmp.compare_self (cmp := cmpIptr)]; simp
      · rw [hLt f hf, (h7 a ha).1 e he r (by simp)]; simp
    obtain ⟨nd1, nd2⟩ := List.nodup_cons.1 h6
    have i7 : ∀ a, (ix.ctx a).cfg.alt = true → rs.Pairwise (fun r q => cmpIptr r.tid q.tid = .lt) :=
      fun a ha => (List.pairwise_cons.1 (h7 a ha).2).2
    have i8 : ∀ q ∈ rs, RowOK ix rc M q := fun q hq => h8 q (by simp [hq])
    have i9 : ∀ q ∈ rs, ∀ a, (ix.colEntries rc a q).length < 2 ^ 31 := fun q hq => h9 q (by simp [hq])
    have hspl : ∀ k y, (∃ e ∈ E ++ L, Same ix e.1 k ∧ y = e.2) ↔ (∃ e ∈ E, Same ix e.1 k ∧ y = e.2) ∨
        ∃ e ∈ rowEntries ix rc r ((List.range rc.natts).map (· + 1)), Same ix e.1 k ∧ y = e.2 := by
      intro k y
      simp only [List.mem_append, hp.mem_iff, or_and_right, exists_or]
    rw [Ix.buildRows, hL]
    simp only
    by_cases hf : full n = true
    · rw [if_pos hf]
      obtain ⟨f1, f2⟩ := flush_ops hM hc hq i1 i2 i4 i3
      obtain ⟨ops, o1, o2, o3⟩ := ih (n + 1) [] (ix.flush qsort st (L.foldl (fun acc e => ix.baInsert e.1 e.2 acc) acc)).1 [] (accInv_nil ix)
        (by simp [OncePerKey]) (by simp) (by simp [TidOrder]) (by simp) nd2 (fun a ha => ⟨by simp, i7 a ha⟩) i8 i9
      refine ⟨(L.foldl (fun acc e => ix.baInsert e.1 e.2 acc) acc).map (ix.getBAEntry qsort) ++ ops, ?_, fun o ho => ?_, fun k y => ?_⟩
      · rw [insertAll_append, o1]
        rfl
      · rcases List.mem_append.1 ho with ho | ho
        · exact f1 o ho
        · exact o2 o ho
      · have happ : ∀ A : List (AttKey V × List (Item Datum)), (∃ o ∈ A ++ ops, Same ix o.1 k ∧ y ∈ o.2) ↔
            (∃ o ∈ A, Same ix o.1 k ∧ y ∈ o.2) ∨ ∃ o ∈ ops, Same ix o.1 k ∧ y ∈ o.2 := by
          intro A
          simp only [List.mem_append, or_and_right, exists_or]
        rw [happ, f2, hspl, o3]
        simp only [List.mem_cons, or_and_right, exists_or, exists_eq_left, List.not_mem_nil, false_and, exists_false, false_or, or_assoc]
    · rw [if_neg hf]
      obtain ⟨ops, o1, o2, o3⟩ := ih (n + 1) _ st (E ++ L) i1 i2 i3 i4 (by
          intro e he q hq hcc
          rcases List.mem_append.1 he with he | he
          · exact h5 e he q (by simp [hq]) hcc
          · rw [hLt e he] at hcc
            exact nd1 (List.mem_map.2 ⟨q, hq, hcc.symm⟩)) nd2 (fun a ha => ⟨by
          intro e he q hq
          rcases List.mem_append.1 he with he | he
          · exact (h7 a ha).1 e he q (by simp [hq])
          · rw [hLt e he]
            exact (List.pairwise_cons.1 (h7 a ha).2).1 q hq, i7 a ha⟩) i8 i9
      refine ⟨ops, o1, o2, fun k y => ?_⟩
      rw [o3, hspl]
      simp only [List.mem_cons, or_and_right, exists_or, exists_eq_left, or_assoc]

/-! ### Properties -/

/-- **C19, the accumulator.** Whatever entries (key and item) are put into the accumulator, in whatever order: it delivers the keys in strictly
ascending order, every key of an entry is delivered, and with each key exactly the items of the entries with an equal key. Unless
additional info orders some column's items and the rows came out of TID order, each list is in index order. -/
theorem C19_accumulator (ix : Ix V) (M : Lim) (hc : ColsOK ix M) (qsort : (Item Datum → Item Datum → Ordering) → List (Item Datum) → List (Item Datum))
    (hq : Sorts qsort) (E : List (AttKey V × Item Datum)) (h1 : OncePerKey ix E) (h2 : ∀ a, (ix.ctx a).cfg.alt = true → TidOrder E) :
    let out := (E.foldl (fun acc e => ix.baInsert e.1 e.2 acc) []).map (ix.getBAEntry qsort)
    out.Pairwise (fun a b => cmpAttEntries ix.cmpK a.1 b.1 = .lt) ∧
    (∀ e ∈ E, ∃ o ∈ out, cmpAttEntries ix.cmpK e.1 o.1 = .eq) ∧
    ∀ o ∈ out, o.2 ≠ [] ∧ SSorted (ix.ctx o.1.attnum).cmp o.2 ∧
      o.2.Perm ((E.filter (fun e => cmpAttEntries ix.cmpK e.1 o.1 == .eq)).map Prod.snd) := by
  have hK := hc.keys
  have h : AccInv ix (E.foldl (fun acc e => ix.baInsert e.1 e.2 acc) []) E := by
    simpa using (accInv_nil ix).foldl hK E
  refine ⟨?_, fun e he => ?_, fun o ho => ?_⟩
  · rw [List.pairwise_map]; exact h.keys
  · obtain ⟨n, hn, e2⟩ := h.cover e he
    exact ⟨_, List.mem_map_of_mem hn, e2⟩
  · obtain ⟨n, hn, rfl⟩ := List.mem_map.1 ho
    obtain ⟨d1, d2⟩ := deliver hc hq h h1 h2 n hn
    refine ⟨fun hcc => ?_, d1, ?_⟩
    · rw [hcc] at d2
      exact (h.key n hn).1 d2.nil_eq.symm
    · have := h.list n hn
      rw [show (ix.getBAEntry qsort n).1 = n.key from rfl, ← this]; exact d2

/-- **C19, order of insertion into the accumulator.** The loop that spreads the entries of a value over the tree visits each exactly once. -/
theorem C19_each_entry_once (n : Nat) (h0 : 0 < n) (h : n < 2 ^ 31) : (visits n (topStep n)).Perm (List.range n) :=
  visits_all h0 (by omega)

/-- **C19.** CREATE INDEX on a table with these rows (in whatever order the heap scan delivers them, with whatever flushes of the accumulator)
succeeds and indexes exactly these rows; the lists it makes are equal to those made by inserting the rows one by one in any order. Missing:
additional info that needs alignment padding (`hM`: a batch can overfill a page, `C07_overfilled_align8`) and, false (`C19_violated`), indexes
ordered by additional info when the heap scan delivers rows out of TID order. -/
theorem C19_build_partial (ix : Ix V) [Inhabited V] (rc : RowCfg V) (M : Lim) (hM : M.single = false) (hc : ColsOK ix M) (hs : ∀ a, SortOK (ix.cmpK a) (rc.sort a))
    (hd : ∀ a, DupsSeen (ix.cmpK a) (rc.haveDups a)) (qsort : (Item Datum → Item Datum → Ordering) → List (Item Datum) → List (Item Datum))
    (hq : Sorts qsort) (full : Nat → Bool) (rs : List (Row V)) (hok : ∀ r ∈ rs, RowOK ix rc M r)
    (hlen : ∀ r ∈ rs, ∀ a, (ix.colEntries rc a r).length < 2 ^ 31) (htid : (rs.map Row.tid).Nodup)
    (hord : ∀ a, (ix.ctx a).cfg.alt = true → rs.Pairwise (fun r q => cmpIptr r.tid q.tid = .lt)) :
    ∃ st, ix.buildIndex rc qsort full rs = (st, true) ∧ Indexes ix rc st rs ∧
      ∀ rs', rs'.Perm rs → ∃ st', ix.insertRows rc emptyIndex rs' = (st', true) ∧
        ∀ k : AttKey V, 1 ≤ k.attnum → k.attnum ≤ rc.natts → ix.rowsOf st k = ix.rowsOf st' k := by
  have hcb : ColsOK { ix with build := true } M := ⟨hc.keys, hc.infos, hc.sizes⟩
  obtain ⟨ops, o1, o2, o3⟩ := build_ops (ix := { ix with build := true }) (rc := rc) hM hcb hq hs hd full rs 0 [] emptyIndex [] (accInv_nil _)
    (by simp [OncePerKey]) (by simp) (by simp [TidOrder]) (by simp) htid (fun a ha => ⟨by simp, hord a ha⟩) hok hlen
  obtain ⟨st, s1, s2, s3⟩ := rows_of_ops { ix with build := true } rc M hcb hs hd rs htid ops o2 (by
    intro k hk1 hk2 y
    rw [o3 k y]
    simp only [List.not_mem_nil, false_and, exists_false, false_or]
    refine exists_congr fun r => and_congr_right fun _ => ?_
    constructor
    · rintro ⟨e, he, hsm, rfl⟩
      obtain ⟨a, ha, he⟩ := List.mem_flatMap.1 he
      obtain ⟨o, ho, rfl⟩ := List.mem_map.1 he
      have hat : a = k.attnum := same_attnum (ix := ix) hsm
      subst hat
      exact ⟨o, ho, hsm, rfl⟩
    · rintro ⟨o, ho, hsm, rfl⟩
      exact ⟨(outKey k.attnum o, ⟨r.tid, o.info⟩), List.mem_flatMap.2 ⟨k.attnum, mem_cols.2 ⟨hk1, hk2⟩, List.mem_map.2 ⟨o, ho, rfl⟩⟩, hsm, rfl⟩)
  refine ⟨st, by unfold Ix.buildIndex; rw [o1, s1], s2, fun rs' hp => ?_⟩
  have hok' : ∀ r ∈ rs', RowOK ix rc M r := fun r hr => hok r (hp.mem_iff.1 hr)
  obtain ⟨st', t1, t2, t3⟩ := rows_of_ops ix rc M hc hs hd rs' ((hp.map _).nodup_iff.2 htid) _ (allRowOps_ok hok') (rowOps_mem ix rc rs')
  refine ⟨st', by rw [insertRows_eq ix rc rs' _ hok']; exact t1, fun k hk1 hk2 => ?_⟩
  have htr : TransCmp (ix.ctx k.attnum).cmpV := hc.infos k.attnum
  have htr' : TransCmp (ix.ctx k.attnum).cmp := cmpItem_trans _ _
  refine ssorted_ext (cmp := (ix.ctx k.attnum).cmp) (s2 k hk1 hk2).1 (t2 k hk1 hk2).1 (fun y => ?_)
  refine (s3 k hk1 hk2 y).trans (Iff.trans ?_ (t3 k hk1 hk2 y).symm)
  constructor
  · rintro ⟨r, hr, h⟩; exact ⟨r, hp.mem_iff.2 hr, h⟩
  · rintro ⟨r, hr, h⟩; exact ⟨r, hp.mem_iff.1 hr, h⟩

/-! ### The code is wrong when additional info orders the items and rows come out of TID order -/

/-- An index on two columns whose first is ordered by additional info (`order_by_attach`); the attached value is in the second. -/
def altIx : Ix Nat := ⟨fun _ => compare, fun _ => 16,
  fun a => ⟨⟨true, if a = 1 then some ⟨true, 8, 8, true⟩ else none⟩, a == 1, fun _ _ => .eq⟩, false⟩
def altRc : RowCfg Nat := ⟨2, fun _ l => l.insertionSort (fun a b => cmpExtract compare a.key b.key ≠ .gt), fun _ _ => true, some 1, fun a => a == 1⟩
def altRow (n : Nat) : Row Nat := ⟨⟨0, n⟩, fun _ => some [⟨some 7, none⟩], some (.byval 0)⟩
def altSort (cmp : Item Datum → Item Datum → Ordering) (l : List (Item Datum)) : List (Item Datum) := l.insertionSort (fun a b => (cmp a b).isLE)

theorem altSort_sorts : Sorts altSort := by
  intro cmp htr l
  refine ⟨List.perm_insertionSort _ l, ?_⟩
  have h1 : Std.Total (fun a b : Item Datum => (cmp a b).isLE = true) := ⟨fun a b => by
    rw [OrientedCmp.eq_swap (cmp := cmp) (a := b) (b := a)]
    cases cmp a b <;> simp⟩
  have h2 : IsTrans (Item Datum) (fun a b : Item Datum => (cmp a b).isLE = true) := ⟨fun a b c => TransCmp.isLE_trans⟩
  exact (List.pairwise_insertionSort (fun a b => (cmp a b).isLE = true) l).imp (fun h hc => by rw [hc] at h; cases h)

theorem altSort_keys (a : Nat) : SortOK (altIx.cmpK a) (altRc.sort a) := by
  refine ⟨fun l => List.perm_insertionSort _ l, fun l => ?_⟩
  have h1 : Std.Total (fun a b : Raw Nat Datum => cmpExtract compare a.key b.key ≠ .gt) := ⟨fun a b => by
    rw [OrientedCmp.eq_swap (cmp := cmpExtract compare) (a := b.key) (b := a.key)]
    cases cmpExtract compare a.key b.key <;> simp⟩
  have h2 : IsTrans (Raw Nat Datum) (fun a b : Raw Nat Datum => cmpExtract compare a.key b.key ≠ .gt) := ⟨fun a b c h1 h2 => by
    rw [ne_eq, ← Ordering.isLE_iff_ne_gt] at *
    exact TransCmp.isLE_trans h1 h2⟩
  exact List.pairwise_insertionSort (fun a b : Raw Nat Datum => cmpExtract compare a.key b.key ≠ .gt) l

theorem altCols : ColsOK altIx 15 where
  keys := fun _ => (inferInstance : TransCmp (compare : Nat → Nat → Ordering))
  infos := fun _ => { eq_swap := rfl, isLE_trans := fun _ _ => rfl }
  sizes := fun n => ⟨by decide, by decide, by
    show padOf ⟨true, if n = 1 then some ⟨true, 8, 8, true⟩ else none⟩ ∣ 8
    split <;> decide, fun h => by cases h⟩

theorem altStorable (a n : Nat) (h0 : 1 ≤ n) (h : n < 3) : Storable (altIx.ctx a) 15 ⟨⟨0, n⟩, if a = 1 then some (.byval 0) else none⟩ := by
  by_cases ha : a = 1
  · subst ha
    refine ⟨⟨⟨?_, ?_⟩, fun _ => (by show n < 32768; omega), ?_⟩, ?_, ?_, ?_, ?_⟩
    · show 0 < _; omega
    · show n < _; omega
    · intro d hd
      refine ⟨⟨true, 8, 8, true⟩, rfl, ?_⟩
      obtain rfl : Datum.byval 0 = d := by simpa using hd
      refine ⟨rfl, by simp, by simp⟩
    · revert n; decide +kernel
    · exact h0
    · revert n; decide +kernel
    · revert n; decide +kernel
  · simp only [ha, if_false]
    have hctx : altIx.ctx a = ⟨⟨true, none⟩, false, fun _ _ => .eq⟩ := by
      simp only [altIx, ha, if_false, beq_eq_false_iff_ne.2 ha]
    rw [hctx]
    refine ⟨⟨⟨?_, ?_⟩, fun _ => (by show n < 32768; omega), ?_⟩, ?_, ?_, ?_, ?_⟩
    · show 0 < _; omega
    · show n < _; omega
    · intro d hd; cases hd
    · revert n; decide +kernel
    · exact h0
    · revert n; decide +kernel
    · revert n; decide +kernel

theorem altEntries (a n : Nat) : altIx.colEntries altRc a (altRow n) = [⟨.norm, some 7, if a = 1 then some (.byval 0) else none⟩] := by
  unfold Ix.colEntries altRc altRow extractEntries toOut
  by_cases ha : a = 1
  · subst ha; simp
  · have : ¬ 1 = a := fun h => ha h.symm
    simp [ha, this]

theorem altRowOK (n : Nat) (h0 : 1 ≤ n) (h : n < 3) : RowOK altIx altRc 15 (altRow n) := by
  intro a h1 h2 o ho
  rw [altEntries, List.mem_singleton] at ho
  subst ho
  refine ⟨?_, ?_, altStorable a n h0 h⟩
  · intro hs
    by_cases ha : a = 1
    · simp [altRc, ha]
    · simp [ha] at hs
  · show alignUp 8 (16 + 0) ≤ maxTuple
    decide

theorem visits_one : visits 1 (topStep 1) = [0] := by
  rw [show topStep 1 = 1 by decide, visits, dif_pos (by omega), innerVisits, dif_pos (by omega), innerVisits, dif_neg (by omega),
    visits, dif_neg (by omega)]
  rfl

/-- **C19 is violated** (`/repo/src/rumbulk.c:52, 191-192, 327-332`). When the index is ordered by additional info (`order_by_attach`), the lists of the
columns that are not ordered by it are never flagged for sorting. If the heap scan delivers two rows out of TID order (it does for a HOT
chain whose root comes later in the page), CREATE INDEX stores such a list unsorted; inserting the same rows one by one, in either order,
stores it sorted. All other hypotheses of `C19_build_partial` hold. -/
theorem C19_violated :
    ∃ (ix : Ix Nat) (rc : RowCfg Nat) (qsort : (Item Datum → Item Datum → Ordering) → List (Item Datum) → List (Item Datum)) (rs : List (Row Nat)),
      ColsOK ix 15 ∧ (∀ a, SortOK (ix.cmpK a) (rc.sort a)) ∧ (∀ a, DupsSeen (ix.cmpK a) (rc.haveDups a)) ∧ Sorts qsort ∧
      (∀ r ∈ rs, RowOK ix rc 15 r) ∧ (rs.map Row.tid).Nodup ∧
      ∃ st k, ix.buildIndex rc qsort (fun _ => false) rs = (st, true) ∧ k.attnum = 2 ∧
        (ix.rowsOf st k).map Item.iptr = [⟨0, 2⟩, ⟨0, 1⟩] ∧
        ∀ rs', rs'.Perm rs → ∃ st', ix.insertRows rc emptyIndex rs' = (st', true) ∧ (ix.rowsOf st' k).map Item.iptr ≠ [⟨0, 2⟩, ⟨0, 1⟩] := by
  have hd : ∀ a, DupsSeen (altIx.cmpK a) (altRc.haveDups a) := fun a l h => by cases h
  have hrs : ∀ r ∈ [altRow 2, altRow 1], RowOK altIx altRc 15 r := by
    simp only [List.mem_cons, List.not_mem_nil, or_false]
    rintro r (rfl | rfl)
    · exact altRowOK 2 (by omega) (by omega)
    · exact altRowOK 1 (by omega) (by omega)
  have htid : ([altRow 2, altRow 1].map Row.tid).Nodup := by decide
  have hb : altIx.buildIndex altRc altSort (fun _ => false) [altRow 2, altRow 1] =
      { altIx with build := true }.insertAll emptyIndex
        [(⟨1, .norm, 7⟩, altSort (altIx.ctx 1).cmp [⟨⟨0, 2⟩, some (.byval 0)⟩, ⟨⟨0, 1⟩, some (.byval 0)⟩]),
         (⟨2, .norm, 7⟩, [⟨⟨0, 2⟩, none⟩, ⟨⟨0, 1⟩, none⟩])] := by
    have he : ∀ a n, { altIx with build := true }.colEntries altRc a (altRow n) =
      [⟨.norm, some 7, if a = 1 then some (.byval 0) else none⟩] := altEntries
    have hcols : (List.range altRc.natts).map (· + 1) = [1, 2] := by decide
    have h2 : { altIx with build := true }.bulkRow altRc (altRow 2) [] [1, 2] =
        some [⟨⟨1, .norm, 7⟩, [⟨⟨0, 2⟩, some (.byval 0)⟩], true⟩, ⟨⟨2, .norm, 7⟩, [⟨⟨0, 2⟩, none⟩], false⟩] := by
      simp only [Ix.bulkRow, Ix.bulkCol, he, Ix.baInsertEntries, List.length_singleton, visits_one]
      rfl
    have h1 : { altIx with build := true }.bulkRow altRc (altRow 1)
        [⟨⟨1, .norm, 7⟩, [⟨⟨0, 2⟩, some (.byval 0)⟩], true⟩, ⟨⟨2, .norm, 7⟩, [⟨⟨0, 2⟩, none⟩], false⟩] [1, 2] =
        some [⟨⟨1, .norm, 7⟩, [⟨⟨0, 2⟩, some (.byval 0)⟩, ⟨⟨0, 1⟩, some (.byval 0)⟩], true⟩,
          ⟨⟨2, .norm, 7⟩, [⟨⟨0, 2⟩, none⟩, ⟨⟨0, 1⟩, none⟩], false⟩] := by
      simp only [Ix.bulkRow, Ix.bulkCol, he, Ix.baInsertEntries, List.length_singleton, visits_one]
      rfl
    unfold Ix.buildIndex
    simp only [Ix.buildRows, hcols, h2, h1, Bool.false_eq_true, if_false, Ix.flush]
    rfl
  have hval : (altIx.buildIndex altRc altSort (fun _ => false) [altRow 2, altRow 1]).2 = true ∧
      (altIx.rowsOf (altIx.buildIndex altRc altSort (fun _ => false) [altRow 2, altRow 1]).1 ⟨2, .norm, 7⟩).map Item.iptr = [⟨0, 2⟩, ⟨0, 1⟩] := by
    rw [hb]
    decide +kernel
  refine ⟨altIx, altRc, altSort, [altRow 2, altRow 1], altCols, altSort_keys, hd, altSort_sorts, hrs, htid, _, ⟨2, .norm, 7⟩,
    Prod.ext rfl hval.1, rfl, hval.2, fun rs' hp => ?_⟩
  obtain ⟨st', t1, t2⟩ := C15_rows altIx altRc 15 altCols altSort_keys hd rs' (fun r hr => hrs r (hp.mem_iff.1 hr)) ((hp.map _).nodup_iff.2 htid)
  refine ⟨st', t1, fun hcc => ?_⟩
  obtain ⟨hsorted, -⟩ := t2 ⟨2, .norm, 7⟩ (by decide) (by decide)
  have hcmp : ∀ a b, (altIx.ctx 2).cmp a b = cmpIptr a.iptr b.iptr := fun a b => rfl
  have : ((altIx.rowsOf st' ⟨2, .norm, 7⟩).map Item.iptr).Pairwise (fun a b => cmpIptr a b = .lt) := by
    rw [List.pairwise_map]
    exact hsorted
  rw [hcc] at this
  revert this
  decide

/-- The hypotheses of `C19_accumulator` are met by entries that arrive out of TID order (index without order by additional info). -/
example : OncePerKey exIx [(⟨1, .norm, 7⟩, PostingTree.exItem 3), (⟨1, .norm, 5⟩, PostingTree.exItem 3), (⟨1, .norm, 7⟩, PostingTree.exItem 1)] ∧
    ∀ a, (exIx.ctx a).cfg.alt = true → TidOrder [((⟨1, .norm, 7⟩ : AttKey Nat), PostingTree.exItem 3), (⟨1, .norm, 5⟩, PostingTree.exItem 3),
      (⟨1, .norm, 7⟩, PostingTree.exItem 1)] := by
  refine ⟨?_, fun a h => by simp [exIx, PostingTree.exCtx] at h⟩
  unfold OncePerKey
  decide

/-- The hypotheses of `C19_build_partial` are met by the same index and rows delivered in TID order. -/
example : (∀ a, (altIx.ctx a).cfg.alt = true → [altRow 1, altRow 2].Pairwise (fun r q => cmpIptr r.tid q.tid = .lt)) ∧
    (∀ r ∈ [altRow 1, altRow 2], ∀ a, (altIx.colEntries altRc a r).length < 2 ^ 31) ∧ ([altRow 1, altRow 2].map Row.tid).Nodup ∧
    ∀ r ∈ [altRow 1, altRow 2], RowOK altIx altRc 15 r := by
  refine ⟨fun _ _ => by decide, ?_, by decide, ?_⟩
  · simp only [List.mem_cons, List.not_mem_nil, or_false]
    rintro r (rfl | rfl) a <;> rw [altEntries] <;> simp
  · simp only [List.mem_cons, List.not_mem_nil, or_false]
    rintro r (rfl | rfl)
    · exact altRowOK 1 (by omega) (by omega)
    · exact altRowOK 2 (by omega) (by omega)

end Rum.Props.Bulk

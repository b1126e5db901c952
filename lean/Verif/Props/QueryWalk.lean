import Verif.Props.IndexWalk
import Verif.Props.QueryConc
/-!
# C75: queries with conditions of any kind while rows are inserted and VACUUM runs

As C67, for conditions whose entries search for one key, for all keys in a range or with a prefix, or for all keys: the searches are those of
`Props/IndexWalk.lean`, the items collected by the latter are sorted and joined as in `Verif/Collect.lean`, and the scan of `Verif/Scan.lean` puts together what the entries deliver.
-/
namespace Rum.Props.QueryWalk
open Rum Rum.Codec Rum.Leaf Rum.Entry Rum.Tree Rum.Index Rum.Extract Rum.Props Rum.Props.PostingTree Rum.Props.Index Rum.Props.Bulk
  Rum.Props.Collect Rum.Props.ScanRegular Rum.Scan Rum.Sort Std
open Rum.Props.IndexVacuum hiding Event
open Rum.Props.Query (OptionsOK ColumnsOK)
open Rum.Props.Conc (fresh fresh_sorted fresh_sub fresh_of_delivered)
open Rum.Props.IndexConc (calm mem_entries entryOf_iff)
open Rum.Props.IndexVacConc (Over after begun BeingInserted BeingRemoved)
open Rum.Props.IndexWalk (Event Run Fires Busy bases WTrack)
open Rum.Props.QueryConc (Visible OneRowEach forall2_zip forall2_of_zip forall2_mem forall2_imp_mem Less less_setJ less_quit)

variable {V : Type}

/-! ### Specification -/

/-- What the consistency function is to be told about a row for one entry: that the row's column contains none of the keys searched for, or the
joined additional infos of those it contains: nothing but such infos, and each of them. (How many times is left open.) -/
def Told (ix : Ix V) (rc : RowCfg V) (join : Option (Datum → Datum → Datum)) (r : Row V) (attnum : Nat) (lk : Look V) : Option (Option Datum) → Prop
  | none => ∀ k, Wants ix attnum lk k → ¬ Contains (ix.cmpK attnum) (r.value attnum) k
  | some i => ∃ l : List (Option Datum), l ≠ [] ∧
      (∀ o ∈ l, ∃ k, Wants ix attnum lk k ∧ Contains (ix.cmpK attnum) (r.value attnum) k ∧ InfoOf rc (ix.cmpK attnum) r k o) ∧
      (∀ k, Wants ix attnum lk k → Contains (ix.cmpK attnum) (r.value attnum) k → ∃ o ∈ l, InfoOf rc (ix.cmpK attnum) r k o) ∧
      i = l.foldl (joinInfo join) none

/-- The scan key of a condition whose entries deliver `ls`, rumFillScanKey `/repo/src/rumscan.c:137-319`. -/
def keyOf (rc : RowCfg V) (c : Clause V) (ls : List (List (Item Datum))) : KeySpec Datum := ⟨false, decide (rc.addTo = some c.attnum), c.cons, ls⟩

/-- The regular scan (`/repo/src/rumget.c:1571-1791`) over conditions whose entries deliver `lss`. -/
def result (ix : Ix V) (rc : RowCfg V) (alternative : Bool) (conds : List (Clause V)) (lss : List (List (List (Item Datum)))) (n : Nat) :
    List (Item Datum × Bool) × Bool :=
  regularScan ⟨(ix.ctx (conds.headD ⟨0, [], fun _ => (false, false)⟩).attnum).cmp, (ix.ctx (conds.headD ⟨0, [], fun _ => (false, false)⟩).attnum).cmp⟩
    alternative (List.zipWith (keyOf rc) conds lss) n

/-- The right answer for the rows a query has to care about (`stable`), as in C67. -/
structure AnswerFor (ix : Ix V) (rc : RowCfg V) (join : Nat → Option (Datum → Datum → Datum)) (cmp : Item Datum → Item Datum → Ordering) (stable : Row V → Prop)
    (conds : List (Clause V)) (out : List (Item Datum × Bool) × Bool) : Prop where
  ends : out.2 = true
  sorted : (out.1.map Prod.fst).Pairwise (fun a b => cmp a b = .lt)
  once : (out.1.map (fun p => p.1.iptr)).Nodup
  rows : ∀ r, stable r → ∃ vs, List.Forall₂ (fun (c : Clause V) v => List.Forall₂ (Told ix rc (join c.attnum) r c.attnum) c.looks v) conds vs ∧
    ((∃ p ∈ out.1, p.1.iptr = r.tid) ↔ List.Forall₂ Accepted conds vs) ∧
    ∀ p ∈ out.1, p.1.iptr = r.tid → (p.2 = true ↔ ∃ q ∈ conds.zip vs, (q.1.cons q.2).2 = true)

section
variable (ix : Ix V) [Inhabited V] (rc : RowCfg V) (M : Lim) (sort : (Item Datum → Item Datum → Ordering) → List (Item Datum) → List (Item Datum))
  (join : Nat → Option (Datum → Datum → Datum))

/-- In the course of the events `es` some backend did the search of an entry and came to the end without an error; `s` is what its consumer got. An entry for one key is read
item by item, and items not above the last one are dropped (`/repo/src/rumget.c:1441-1464`); it delivered something, or there was nothing to be got (`visible`: the
rows the query has to care about). What an entry for many keys has collected is sorted and joined (`/repo/src/rumget.c:1233-1295`). -/
def LookRead (visible : Row V → Prop) (n1 : WNet V) (es : List (Event V)) (n3 : WNet V) (a : Nat) (lk : Look V) (s : List (Item Datum)) : Prop :=
  (lk.mode = .exact ∧ ∃ j e1 e2 m1 m2 R, es = e1 ++ .base (.read j ⟨a, lk.cat, lk.key⟩ true) :: e2 ∧ Run ix rc M n1 e1 m1 ∧
    Fires ix rc M (.base (.read j ⟨a, lk.cat, lk.key⟩ true)) m1 m2 ∧ Run ix rc M m2 e2 n3 ∧ (∀ e ∈ e2, e.keeps j = true) ∧
    n3.v.net.job j = .answer ⟨a, lk.cat, lk.key⟩ true R ∧
    (R ≠ [] ∨ ∀ r, visible r → ¬ Contains (ix.cmpK a) (r.value a) ⟨a, lk.cat, lk.key⟩) ∧ s = fresh (ix.ctx a).cmp R) ∨
  (lk.mode ≠ .exact ∧ ∃ j e1 e2 m1 m2 R n, es = e1 ++ .begin j a lk :: e2 ∧ Run ix rc M n1 e1 m1 ∧ Fires ix rc M (.begin j a lk) m1 m2 ∧ Run ix rc M m2 e2 n3 ∧
    (∀ e ∈ e2, e.leaves j = true) ∧ n3.walk j = some ⟨a, lk, .done R⟩ ∧ drainSort (join a) n .min (sort (ix.sortCmp a) R) = some s)

end

/-! ### Searches for one key -/

section
variable {ix : Ix V} [Inhabited V] {rc : RowCfg V} {M : Lim}

/-- A search for one key, item by item. -/
theorem search_exact (hbd : ix.build = false) (hal : ∀ k, 8 ∣ ix.keySize k) (hM : M.single = true) (hs : ∀ a, SortOK (ix.cmpK a) (rc.sort a))
    (hd : ∀ a, DupsSeen (ix.cmpK a) (rc.haveDups a)) {st : State V} {rs : List (Row V)} (h0 : Over ix rc M st rs) {es1 es2 : List (Event V)}
    {n1 n2 n3 : WNet V} {j : Nat} {k : AttKey V} {R : List (Item Datum)} (hk1 : 1 ≤ k.attnum) (hk2 : k.attnum ≤ rc.natts)
    (h1 : Run ix rc M ⟨⟨calm st, none⟩, fun _ => none⟩ es1 n1) (h2 : Fires ix rc M (.base (.read j k true)) n1 n2) (h3 : Run ix rc M n2 es2 n3)
    (hl : ∀ e ∈ es2, e.keeps j = true) (hR : n3.v.net.job j = .answer k true R) :
    (∀ r ∈ after rs (bases es1), ¬ BeingInserted n1.v.net r → Contains (ix.cmpK k.attnum) (r.value k.attnum) k →
      (∀ dead, .vacuum dead ∈ bases es2 → dead r.tid = false) → R ≠ [] → ∃ y ∈ fresh (ix.ctx k.attnum).cmp R, y.iptr = r.tid) ∧
    ∀ y ∈ R, ∃ r ∈ rs ++ begun (bases es1) ++ begun (bases es2), r.tid = y.iptr ∧ Contains (ix.cmpK k.attnum) (r.value k.attnum) k ∧
      InfoOf rc (ix.cmpK k.attnum) r k y.info ∧ (r ∈ after rs (bases es1) ∨ r ∈ begun (bases es2) ∨ BeingRemoved n1.v r) := by
  classical
  obtain ⟨hc, L⟩ := h0.life hbd hal hM hs hd
  have htr : TransCmp (ix.ctx k.attnum).cmpV := hc.infos k.attnum
  have htr' : TransCmp (ix.ctx k.attnum).cmp := cmpItem_trans _ _
  obtain ⟨g1, T1, hA1, hr1, -⟩ := (WTrack.start (Q := fun i => i ≠ j) hc L (begun (bases es1) ++ begun (bases es2))).run hc hbd hal hM h1 (fun r hr => by simp [hr])
    (fun _ _ _ _ h => h.elim) (fun _ _ _ _ h => h)
  have hr1' : ∀ k y, ¬ g1.r.P k y := fun k y h => by rw [hr1] at h; exact h
  have hS1 : ∀ i, g1.S i = [] := fun i => List.eq_nil_iff_forall_not_mem.2 (fun y hy => by
    obtain ⟨k, hk⟩ := T1.small i y hy
    exact hr1' k y hk)
  let S : List (Item Datum) := (ix.rowsOf n1.v.net.st k).filter
    (fun y => decide ((∀ w, n1.v.vac = some w → w.dead y.iptr = false) ∧ ∀ dead, .vacuum dead ∈ bases es2 → dead y.iptr = false))
  have hmS : ∀ y, y ∈ S ↔ y ∈ ix.rowsOf n1.v.net.st k ∧ (∀ w, n1.v.vac = some w → w.dead y.iptr = false) ∧
      ∀ dead, .vacuum dead ∈ bases es2 → dead y.iptr = false := by
    intro y; simp [S, List.mem_filter]
  let P0 : AttKey V → Item Datum → Prop := fun k' y => k' = k ∧ y ∈ S
  let A : AttKey V → Item Datum → Prop := fun k y => EntryOf ix rc (after rs (bases es1) ++ begun (bases es2)) k y ∨
    ((∃ w, n1.v.vac = some w ∧ w.dead y.iptr = true) ∧ EntryOf ix rc (rs ++ (begun (bases es1) ++ begun (bases es2))) k y)
  obtain ⟨f0, ⟨f1, f2⟩, f3⟩ := h2
  have f0 : ¬ Busy n1 j := f0
  have hcur : ∀ op ∈ g1.T, ∀ k', Same ix k' op.1 → A k' op.2 := by
    intro op ho k' hk'
    refine Or.inl ((entryOf_iff _ k' op.2).2 ⟨op, ?_, same_symm hc hk', rfl⟩)
    rw [List.flatMap_append]
    exact List.mem_append_left _ ((T1.track.rows op).1 ho)
  -- what is remembered from now on
  obtain ⟨r0, hE, hr0P, hW0, hL0, hE0⟩ : ∃ r0 : VC.Ride V, VC.EV ix n1.v.net.st n1.v.net.eth n1.v.vac r0 ∧ r0.P = P0 ∧ (∀ b k, g1.r.W b k → r0.W b k) ∧
      (∀ b k, g1.r.L b k → r0.L b k) ∧ ∀ k, g1.r.E k → r0.E k := by
    obtain ⟨K, hK, key, G, hk, Y, hP, hR⟩ := T1.track.inv.entry
    exact ⟨VC.full ix key n1.v.net.st G P0, ⟨K, hK, key, G, hk, Y, hP, fun _ _ h => h, fun _ _ h => h, fun _ h => h,
      fun k' y h => by rw [h.1]; exact ((hmS y).1 h.2).1, fun w hw k' y h => ((hmS y).1 h.2).2.1 w hw⟩, rfl, hR.low, hR.past, hR.here⟩
  have I1 := T1.track.inv.ride hE
  have I2 := I1.read hc f1 (k := k) (c := true) (S := S) (A := A) (fun y hy => ((hmS y).1 hy).1) (fun w hw y hy => ((hmS y).1 hy).2.1 w hw)
    (by
      intro k' y hy
      obtain ⟨b1, b2⟩ := I1.ok k' y hy
      rcases b2 with ⟨op, o1, o2, rfl⟩ | hw
      · exact hcur op o1 k' (same_symm hc o2)
      · refine Or.inr ⟨hw, ?_⟩
        have := b1 j
        simp only [hA1] at this
        exact this)
    (by
      intro i l hi op ho k' hk'
      have := T1.track.inv.job i
      rw [hi] at this
      exact hcur op (this.2.1 op ho) k' hk')
  let g2 := (VC.Gh.read { g1 with r := r0 } j S A)
  have hSj : g2.S j = S := by simp [g2, VC.Gh.read]
  have hAj : g2.A j = A := by simp [g2, VC.Gh.read]
  have hSi : ∀ i, i ≠ j → g2.S i = g1.S i := fun i hi => by simp [g2, VC.Gh.read, hi]
  have hAi : ∀ i, i ≠ j → g2.A i = g1.A i := fun i hi => by simp [g2, VC.Gh.read, hi]
  have hr2 : g2.r = r0 := rfl
  have T2 : WTrack ix rc M (begun (bases es2)) (after rs (bases es1)) g2 (fun _ _ _ => False) (fun i => i ≠ j) n2 := by
    refine ⟨⟨by rw [f2]; exact I2, T1.track.rows, fun r hr op ho k' hk' i => ?_⟩, fun i w hw hq => ?_, fun i y hy => ?_⟩
    · by_cases hi : i = j
      · rw [hi, hAj]
        exact Or.inl ((entryOf_iff _ k' op.2).2 ⟨op, List.mem_flatMap.2 ⟨r, List.mem_append_right _ hr, ho⟩, same_symm hc hk', rfl⟩)
      · rw [hAi i hi]
        exact T1.track.wide r (by simp [hr]) op ho k' hk' i
    · rw [f3] at hw
      have hi : i ≠ j := by
        rintro rfl
        rcases hq with h | h
        · exact f0 ⟨w, hw, h⟩
        · exact h rfl
      have h := T1.walks i w hw (Or.inr hi)
      refine h.keep (hAi i hi) (fun _ _ h => h.elim) hW0 hL0 hE0 (h.shape.same ?_ (hSi i hi))
      rw [f2]
      exact (IndexConc.other_simple hi n1.v.net n1.v.net.st _ 0 .idle .idle).2.1.trans (IndexConc.other_simple hi _ n1.v.net.st .idle 0 .idle _).2.2.2.1
    · by_cases hi : i = j
      · rw [hi, hSj] at hy
        exact ⟨k, by rw [hr2, hr0P]; exact ⟨rfl, hy⟩⟩
      · rw [hSi i hi, hS1] at hy; cases hy
  obtain ⟨g3, T3, hA3, hP3, hS3⟩ := T2.run hc hbd hal hM h3 (fun r hr => hr) (fun dead hv k' y hy => by
    rw [hr2, hr0P] at hy
    exact ((hmS y).1 hy.2).2.2 dead hv) (fun _ _ _ _ h => h)
  have hj := T3.track.inv.job j
  rw [hR] at hj
  obtain ⟨-, j1, j2, j3⟩ := hj
  rw [(hS3 j hl (by
    rintro ⟨w, hw, ho⟩
    rw [f3] at hw
    exact f0 ⟨w, hw, ho⟩)).1, hSj] at j2
  rw [hA3, hAj] at j3
  refine ⟨fun r hr hn hcon hv hne => ?_, fun y hy => ?_⟩
  · obtain ⟨y, hy, he⟩ := T1.track.found hc hs hd hr hn hk1 hk2 hcon
    have hyS : y ∈ S := by
      refine (hmS y).2 ⟨hy, fun w hw => ?_, fun dead hdd => by rw [he]; exact hv dead hdd⟩
      obtain ⟨o, ho, -⟩ := (colEntries_key (rc := rc) hc (hs k.attnum) (hd k.attnum) r (k := k) rfl).1.2 hcon
      have hop : (outKey k.attnum o, (⟨r.tid, o.info⟩ : Item Datum)) ∈ ix.entries rc r := mem_entries.2 ⟨_, ⟨hk1, hk2⟩, o, ho, rfl⟩
      have := (T1.track.inv.alive w hw).1 _ ((T1.track.rows _).2 (List.mem_flatMap.2 ⟨r, hr, hop⟩))
      rw [he]
      exact this
    exact ⟨y, fresh_of_delivered (((j2 rfl).resolve_left hne) y hyS), he⟩
  · have hrow : ∀ rows : List (Row V), EntryOf ix rc rows k y → ∃ r ∈ rows, r.tid = y.iptr ∧ Contains (ix.cmpK k.attnum) (r.value k.attnum) k ∧
        InfoOf rc (ix.cmpK k.attnum) r k y.info := by
      rintro rows ⟨-, r, hr, o, ho, hsm, rfl⟩
      have hcol := colEntries_key (rc := rc) hc (hs k.attnum) (hd k.attnum) r (k := k) rfl
      exact ⟨r, hr, rfl, hcol.1.1 ⟨o, ho, hsm⟩, hcol.2.1 o ho hsm⟩
    rcases j3 y hy with h | ⟨⟨w, hw, hdead⟩, h⟩
    · obtain ⟨r, hr, h4, h5, h6⟩ := hrow _ h
      rcases List.mem_append.1 hr with hr | hr
      · refine ⟨r, ?_, h4, h5, h6, Or.inl hr⟩
        exact List.mem_append_left _ (IndexVacConc.after_sub _ _ r hr)
      · exact ⟨r, List.mem_append_right _ hr, h4, h5, h6, Or.inr (Or.inl hr)⟩
    · obtain ⟨r, hr, h4, h5, h6⟩ := hrow _ h
      exact ⟨r, by simpa using hr, h4, h5, h6, Or.inr (Or.inr ⟨w, hw, by rw [h4]; exact hdead⟩)⟩

end

/-! ### Other events -/

section
variable {ix : Ix V} [Inhabited V] {rc : RowCfg V} {M : Lim}

omit [Inhabited V] in
theorem less_enter (n : Net V) (i : Nat) (o : Option (AttKey V × Nat)) : Less n (n.enter i o) := by
  cases o with
  | none => exact Less.refl n
  | some p => exact (Less.of_job rfl).trans (less_setJ i _ (by simp))

theorem fires_cases {e : Event V} {y z : WNet V} (h : Fires ix rc M e y z) :
    (∃ b, e = .base b ∧ IndexVacConc.Fires ix rc M b y.v z.v) ∨ (bases [e] = [] ∧ z.v.vac = y.v.vac ∧ Less y.v.net z.v.net) := by
  cases e with
  | base b => exact Or.inl ⟨b, rfl, h.2.1⟩
  | begin i a lk =>
    obtain ⟨-, -, -, -, rfl⟩ := h
    exact Or.inr ⟨rfl, rfl, (Less.of_job rfl).trans (less_setJ i _ (by simp))⟩
  | leaf i =>
    obtain ⟨w, xs, b, up, -, -, -, -, -, rfl⟩ := h
    exact Or.inr ⟨rfl, rfl, (less_quit i _ (by simp)).trans (less_enter _ _ _)⟩
  | page i =>
    obtain ⟨w, b, ac, -, -, -, rfl⟩ := h
    exact Or.inr ⟨rfl, rfl, less_enter _ _ _⟩
  | relock i =>
    obtain ⟨w, k, b, off, ac, R, -, -, -, -, rfl⟩ := h
    refine Or.inr ⟨rfl, rfl, ?_⟩
    simp only [WNet.go, Ix.walkBack]
    split
    · exact (less_setJ i _ (by simp)).trans (less_enter _ _ _)
    · exact (Less.of_job rfl).trans (less_setJ i _ (by simp))
  | seek i =>
    obtain ⟨w, k, b, ac, -, -, -, rfl⟩ := h
    exact Or.inr ⟨rfl, rfl, less_enter _ _ _⟩
  | abort i =>
    obtain ⟨-, rfl⟩ := h
    exact Or.inr ⟨rfl, rfl, less_quit i _ (by simp)⟩

theorem run_append {n n' n'' : WNet V} {es es' : List (Event V)} (h : Run ix rc M n es n') (h' : Run ix rc M n' es' n'') :
    Run ix rc M n (es ++ es') n'' := by
  induction h' with
  | refl => rw [List.append_nil]; exact h
  | snoc _ hf ih => rw [← List.append_assoc]; exact .snoc ih hf

theorem begun_ok {n n' : WNet V} {es : List (Event V)} (h : Run ix rc M n es n') : ∀ r ∈ begun (bases es), RowOK ix rc M r := by
  induction h with
  | refl => intro r hr; cases hr
  | @snoc n2 n3 es e _ hf ih =>
    intro r hr
    rw [IndexWalk.bases_append, IndexVacConc.begun_append] at hr
    rcases List.mem_append.1 hr with hr | hr
    · exact ih r hr
    · rcases fires_cases hf with ⟨b, rfl, hb⟩ | ⟨h0, -⟩
      · exact QueryConc.begun_okV (.snoc (.refl _) hb) r hr
      · rw [h0] at hr; cases hr

/-- No running VACUUM was told that a row of the table is dead. -/
theorem not_removed {y z : WNet V} {rs : List (Row V)} {es : List (Event V)} (h0 : ∀ r ∈ rs, ¬ BeingRemoved y.v r) (h : Run ix rc M y es z) :
    ∀ r ∈ after rs (bases es), ¬ BeingRemoved z.v r := by
  induction h with
  | refl => exact h0
  | @snoc n2 n3 es e _ hf ih =>
    intro r hr
    rw [IndexWalk.bases_append, IndexVacConc.after_append] at hr
    rcases fires_cases hf with ⟨b, rfl, hb⟩ | ⟨h0, h1, -⟩
    · exact QueryConc.not_removed ih (.snoc (.refl _) hb) r hr
    · rw [h0] at hr
      rintro ⟨w, hw, hd⟩
      rw [h1] at hw
      exact ih r hr ⟨w, hw, hd⟩

theorem inserted_stays {y z : WNet V} {es : List (Event V)} (h : Run ix rc M y es z) {r : Row V} (hn : ¬ BeingInserted y.v.net r)
    (hne : ∀ q ∈ begun (bases es), q.tid ≠ r.tid) : ¬ BeingInserted z.v.net r := by
  induction h with
  | refl => exact hn
  | @snoc n2 n3 es e _ hf ih =>
    rw [IndexWalk.bases_append, IndexVacConc.begun_append] at hne
    have ih' := ih (fun q hq => hne q (List.mem_append_left _ hq))
    rcases fires_cases hf with ⟨b, rfl, hb⟩ | ⟨-, -, hl⟩
    · exact QueryConc.inserted_stays hb ih' (fun q hq => hne q (List.mem_append_right _ hq))
    · rintro ⟨i, l, h1, op, ho, he⟩
      obtain ⟨l0, h2, h3⟩ := hl i l h1
      exact ih' ⟨i, l0, h2, op, h3 op ho, he⟩

end

/-! ### Equal keys -/

section
variable {ix : Ix V} {rc : RowCfg V} {M : Lim}

theorem same_parts {k k' : AttKey V} (hs : cmpAttEntries ix.cmpK k k' = .eq) :
    k.attnum = k'.attnum ∧ k.cat = k'.cat ∧ (k.cat = .norm → ix.cmpK k.attnum k.key k'.key = .eq) := by
  have ha : k.attnum = k'.attnum := same_attnum (ix := ix) hs
  unfold cmpAttEntries cmpEntries at hs
  rw [if_neg (by simp [ha])] at hs
  split at hs
  · split at hs <;> cases hs
  · next h2 =>
    have h2 : k.cat = k'.cat := by simpa using h2
    refine ⟨ha, h2, fun h => ?_⟩
    rw [if_neg (by simp [h])] at hs
    exact hs

theorem same_row (hc : ColsOK ix M) {k k' : AttKey V} (hs : cmpAttEntries ix.cmpK k k' = .eq) (r : Row V) :
    (Contains (ix.cmpK k.attnum) (r.value k.attnum) k' → Contains (ix.cmpK k.attnum) (r.value k.attnum) k) ∧
    ∀ o, InfoOf rc (ix.cmpK k.attnum) r k o → InfoOf rc (ix.cmpK k.attnum) r k' o := by
  have := hc.keys k.attnum
  obtain ⟨a, cat, key⟩ := k
  obtain ⟨a', cat', key'⟩ := k'
  obtain ⟨h1, h2, h3⟩ := same_parts hs
  simp only at h1 h2 h3
  subst h1 h2
  constructor
  · unfold Contains
    cases cat with
    | norm =>
      rintro ⟨raws, h4, q, hq, x, hx, hx'⟩
      exact ⟨raws, h4, q, hq, x, hx, TransCmp.eq_trans hx' (OrientedCmp.eq_symm (h3 rfl))⟩
    | _ => exact id
  · intro o ho
    unfold InfoOf at ho ⊢
    simp only at ho ⊢
    split
    · next h => rwa [if_pos h] at ho
    · next h =>
      rw [if_neg h] at ho
      cases hv : r.value a with
      | none => rw [hv] at ho; exact ho
      | some l =>
        rw [hv] at ho
        cases l with
        | nil => exact ho
        | cons raw raws =>
          obtain ⟨q, hq, h4, h5⟩ := ho
          refine ⟨q, hq, h4, h5.imp id (fun ⟨h6, x, hx, hx'⟩ => ⟨h6, x, hx, TransCmp.eq_trans hx' (h3 h6)⟩)⟩

end

/-! ### What the entries deliver -/

/-- What is known of the list of an entry. -/
structure StreamOK (ix : Ix V) (rc : RowCfg V) (join : Option (Datum → Datum → Datum)) (stable : Row V → Prop) (U : List (Row V)) (a : Nat) (lk : Look V)
    (s : List (Item Datum)) : Prop where
  sorted : SSorted (ix.ctx a).cmp s
  valid : ∀ y ∈ s, y.iptr.off ≠ 0
  all : ∀ r, stable r → ∀ k, Wants ix a lk k → Contains (ix.cmpK a) (r.value a) k → ∃ y ∈ s, y.iptr = r.tid
  only : ∀ r, stable r → ∀ y ∈ s, y.iptr = r.tid → Told ix rc join r a lk (some y.info)
  src : ∀ y ∈ s, ∃ r ∈ U, r.tid = y.iptr

section
variable {ix : Ix V} {rc : RowCfg V} {M : Lim} {stable : Row V → Prop} {U : List (Row V)} {a : Nat} {lk : Look V} {R s : List (Item Datum)}
  {join : Option (Datum → Datum → Datum)} {alternative : Bool}

/-- What the search of an entry has delivered. -/
structure Raw (ix : Ix V) (rc : RowCfg V) (stable : Row V → Prop) (U : List (Row V)) (a : Nat) (lk : Look V) (R : List (Item Datum)) : Prop where
  all : ∀ r, stable r → ∀ k, Wants ix a lk k → Contains (ix.cmpK a) (r.value a) k → ∃ y ∈ R, y.iptr = r.tid ∧ InfoOf rc (ix.cmpK a) r k y.info
  only : ∀ y ∈ R, ∃ r ∈ U, r.tid = y.iptr ∧ (∃ k, Wants ix a lk k ∧ Contains (ix.cmpK a) (r.value a) k ∧ InfoOf rc (ix.cmpK a) r k y.info) ∧
    ∀ q, stable q → q.tid = y.iptr → r = q
  valid : ∀ y ∈ R, y.iptr.off ≠ 0

theorem Raw.outer (H : Raw ix rc stable U a lk R) (hadd : rc.addTo = some a) : ∀ y ∈ R, ∃ r ∈ U, r.tid = y.iptr ∧ y.info = r.outer := by
  intro y hy
  obtain ⟨r, hr, he, ⟨k, hk, -, hi⟩, -⟩ := H.only y hy
  unfold InfoOf at hi
  rw [if_pos (by rw [hk.1]; exact hadd)] at hi
  exact ⟨r, hr, he, hi⟩

theorem drainSort_mono (join : Option (Datum → Datum → Datum)) (n : Nat) : ∀ (m : Nat) (p : Pending) (l s : List (Item Datum)), n ≤ m →
    drainSort join n p l = some s → drainSort join m p l = some s := by
  induction n with
  | zero => intro m p l s _ h; cases h
  | succ n ih =>
    intro m p l s hm h
    obtain ⟨m, rfl⟩ : ∃ m', m = m' + 1 := ⟨m - 1, by omega⟩
    by_cases hp : p = .max
    · subst hp; exact h
    · rw [drainSort] at h ⊢
      · generalize gather join p.start l = g at h ⊢
        obtain ⟨y, o, rest⟩ := g
        cases y with
        | none => exact h
        | some y =>
          cases o <;>
          · simp only [Option.map_eq_some_iff] at h ⊢
            obtain ⟨a, h1, h2⟩ := h
            exact ⟨a, ih m _ _ _ (by omega) h1, h2⟩
      · exact hp
      · exact hp

/-- Collected, sorted and joined. -/
theorem joined_ok (hc : ColsOK ix M) (ho : OptionsOK ix rc alternative) (H : Raw ix rc stable U a lk R)
    (hj : alternative = true → rc.addTo = some a → join = none ∧ (U.map Row.tid).Nodup ∧ ∀ r ∈ U, r.outer.isSome = true)
    {sort : (Item Datum → Item Datum → Ordering) → List (Item Datum) → List (Item Datum)} (hq : Sorts sort) {n : Nat}
    (hs : drainSort join n .min (sort (ix.sortCmp a) R) = some s) :
    StreamOK ix rc join stable U a lk s ∧ (alternative = true → rc.addTo = some a → ∀ y ∈ s, ∃ r ∈ U, r.tid = y.iptr ∧ y.info = r.outer) := by
  have hinf := hc.infos a
  have htrI : TransCmp (ix.ctx a).cmp := cmpItem_trans _ _
  obtain ⟨hperm, hsorted⟩ := hq (ix.sortCmp a) (sortCmp_trans hc a) R
  generalize sort (ix.sortCmp a) R = L at hperm hsorted hs
  have hS : s = fuseAll join L := by
    have h1 := drainSort_mono join n (n + (L.length + 2)) .min L s (by omega) hs
    rw [drainSort_min join _ L (by omega)] at h1
    exact (Option.some.inj h1).symm
  have hLR : ∀ x, x ∈ L ↔ x ∈ R := fun x => hperm.mem_iff
  obtain ⟨o1, o2⟩ := ho a
  have hopt : ((ix.ctx a).cfg.alt && (ix.ctx a).isAddTo) = true → alternative = true ∧ rc.addTo = some a := by
    rw [o1, o2]; simp
  have hfus : Fusable ((ix.ctx a).cfg.alt && (ix.ctx a).isAddTo) (ix.ctx a).cmpV join L := by
    refine ⟨hsorted.imp_of_mem (fun {x y} hx hy hxy => ?_), fun halt => ?_⟩
    · have := Sort.C36_item_sort_partial (if (ix.ctx a).cfg.alt && (ix.ctx a).isAddTo then some (ix.ctx a).cmpV else none) (ix.ctx a).cmpV
        (by intro c hc'; split at hc' <;> simp_all) x y (by
          intro hs
          have halt : ((ix.ctx a).cfg.alt && (ix.ctx a).isAddTo) = true := by
            by_contra hne
            rw [if_neg hne] at hs; cases hs
          obtain ⟨p1, p2⟩ := hopt halt
          obtain ⟨-, -, hsome⟩ := hj p1 p2
          obtain ⟨r, hr, -, r1⟩ := H.outer p2 x ((hLR x).1 hx)
          obtain ⟨q, hq', -, q1⟩ := H.outer p2 y ((hLR y).1 hy)
          rw [r1, q1]
          exact ⟨hsome r hr, hsome q hq'⟩)
      have hiso : (if (ix.ctx a).cfg.alt && (ix.ctx a).isAddTo then some (ix.ctx a).cmpV else none).isSome =
          ((ix.ctx a).cfg.alt && (ix.ctx a).isAddTo) := by
        cases (ix.ctx a).cfg.alt && (ix.ctx a).isAddTo <;> rfl
      rw [hiso] at this
      rw [← this]; exact hxy
    · obtain ⟨p1, p2⟩ := hopt halt
      obtain ⟨hj1, hj2, -⟩ := hj p1 p2
      refine ⟨hj1, fun x hx y hy he => ?_⟩
      obtain ⟨r, hr, r0, r1⟩ := H.outer p2 x ((hLR x).1 hx)
      obtain ⟨q, hq', q0, q1⟩ := H.outer p2 y ((hLR y).1 hy)
      obtain rfl := List.inj_on_of_nodup_map hj2 hr hq' (r0.trans (he.trans q0.symm))
      rw [r1, q1]
  have key : SSorted (ix.ctx a).cmp s ∧ (∀ t, t ∈ s.map Item.iptr ↔ t ∈ L.map Item.iptr) ∧
      (∀ y ∈ s, y.info = ((L.filter (fun z => z.iptr == y.iptr)).map Item.info).foldl (joinInfo join) none ∧ ∃ z ∈ L, z.iptr = y.iptr) := by
    subst hS
    cases hLc : L with
    | nil => simp [SSorted, fuseAll]
    | cons x xs =>
      rw [hLc] at hfus
      obtain ⟨f1, f2⟩ := fuse_ok xs x hfus
      exact ⟨f1, fun t => mem_fuse_iptr join xs x t, fun y hy => ⟨(f2 y hy).1, (f2 y hy).2.imp (fun z hz => ⟨hz.1, hz.2.1⟩)⟩⟩
  obtain ⟨k1, k2, k3⟩ := key
  refine ⟨⟨k1, fun y hy => ?_, fun r hr k hk hcon => ?_, fun r hr y hy he => ?_, fun y hy => ?_⟩, fun p1 p2 y hy => ?_⟩
  · obtain ⟨-, z, hz, hzy⟩ := k3 y hy
    rw [← hzy]
    exact H.valid z ((hLR z).1 hz)
  · obtain ⟨z, hz, hzr, -⟩ := H.all r hr k hk hcon
    obtain ⟨y, hy, hyz⟩ := List.mem_map.1 ((k2 z.iptr).2 (List.mem_map_of_mem ((hLR z).2 hz)))
    exact ⟨y, hy, hyz.trans hzr⟩
  · obtain ⟨h1, z, hz, hzy⟩ := k3 y hy
    refine ⟨(L.filter (fun z => z.iptr == y.iptr)).map Item.info, ?_, fun o hom => ?_, fun k hk hcon => ?_, h1⟩
    · intro h0
      rw [List.map_eq_nil_iff, List.filter_eq_nil_iff] at h0
      exact h0 z hz (by simp [hzy])
    · obtain ⟨w, hw, rfl⟩ := List.mem_map.1 hom
      obtain ⟨hwL, hwy⟩ := List.mem_filter.1 hw
      have hwy : w.iptr = y.iptr := by simpa using hwy
      obtain ⟨q, -, q1, ⟨k, k1, k2, k3⟩, q2⟩ := H.only w ((hLR w).1 hwL)
      obtain rfl := q2 r hr (he.symm.trans hwy.symm)
      exact ⟨k, k1, k2, k3⟩
    · obtain ⟨w, hw, hwr, hi⟩ := H.all r hr k hk hcon
      exact ⟨w.info, List.mem_map_of_mem (List.mem_filter.2 ⟨(hLR w).2 hw, by simp [hwr, he]⟩), hi⟩
  · obtain ⟨-, z, hz, hzy⟩ := k3 y hy
    obtain ⟨r, hr, hrz, -⟩ := H.only z ((hLR z).1 hz)
    exact ⟨r, hr, hrz.trans hzy⟩
  · obtain ⟨h1, z, hz, hzy⟩ := k3 y hy
    obtain ⟨hj1, hj2, -⟩ := hj p1 p2
    obtain ⟨r, hr, r0, r1⟩ := H.outer p2 z ((hLR z).1 hz)
    refine ⟨r, hr, r0.trans hzy, ?_⟩
    rw [h1, hj1]
    refine foldl_same _ _ (fun o hom => ?_) (fun h0 => ?_)
    · obtain ⟨w, hw, rfl⟩ := List.mem_map.1 hom
      obtain ⟨hwL, hwy⟩ := List.mem_filter.1 hw
      have hwy : w.iptr = y.iptr := by simpa using hwy
      obtain ⟨q, hq', q0, q1⟩ := H.outer p2 w ((hLR w).1 hwL)
      obtain rfl := List.inj_on_of_nodup_map hj2 hr hq' (r0.trans (hzy.trans (hwy.symm.trans q0.symm)))
      exact q1
    · rw [List.map_eq_nil_iff, List.filter_eq_nil_iff] at h0
      exact h0 z hz (by simp [hzy])

end

/-! ### What searches deliver -/

section
variable {ix : Ix V} [Inhabited V] {rc : RowCfg V} {M : Lim} {alternative : Bool}

omit [Inhabited V] in
theorem bases_begun_mem {e1 e2 : List (Event V)} {e : Event V} {r : Row V} (h : r ∈ begun (bases e2)) : r ∈ begun (bases (e1 ++ e :: e2)) := by
  rw [show e1 ++ e :: e2 = e1 ++ ([e] ++ e2) from rfl, IndexWalk.bases_append, IndexWalk.bases_append, IndexVacConc.begun_append, IndexVacConc.begun_append]
  exact List.mem_append_right _ (List.mem_append_right _ h)

omit [Inhabited V] in
theorem bases_vac_mem {e1 e2 : List (Event V)} {e : Event V} {dead : Iptr → Bool} (h : IndexVacConc.Event.vacuum dead ∈ bases e2) :
    IndexVacConc.Event.vacuum dead ∈ bases (e1 ++ e :: e2) := by
  rw [show e1 ++ e :: e2 = e1 ++ ([e] ++ e2) from rfl, IndexWalk.bases_append, IndexWalk.bases_append]
  exact List.mem_append_right _ (List.mem_append_right _ h)

/-- A visible row when the search of an entry begins. -/
theorem visible_in {rs : List (Row V)} {es1 e1 es2 : List (Event V)} {n1 m1 : WNet V} (hone : OneRowEach rs (bases (es1 ++ es2)))
    (h1 : Run ix rc M n1 e1 m1) {e : Event V} {e2 : List (Event V)} (hes : es2 = e1 ++ e :: e2) {r : Row V} (hr : Visible rs (bases es1) (bases es2) n1.v r) :
    r ∈ after rs (bases (es1 ++ e1)) ∧ ¬ BeingInserted m1.v.net r ∧ (∀ dead, .vacuum dead ∈ bases e2 → dead r.tid = false) ∧
      ∀ q ∈ begun (bases es2), q.tid ≠ r.tid := by
  obtain ⟨v1, v2, v3⟩ := hr
  have hno := QueryConc.no_reuse (by rw [← IndexWalk.bases_append]; exact hone) v1 v3
  refine ⟨?_, inserted_stays h1 v2 (fun q hq => hno q ?_), fun d hd => v3 d (by rw [hes]; exact bases_vac_mem hd), hno⟩
  · rw [IndexWalk.bases_append, IndexVacConc.after_append]
    exact QueryConc.after_keeps v1 (fun d hd => v3 d (by rw [hes, IndexWalk.bases_append]; exact List.mem_append_left _ hd))
  · rw [hes, IndexWalk.bases_append, IndexVacConc.begun_append]
    exact List.mem_append_left _ hq

/-- The row an item delivered comes from. -/
theorem visible_row {st : State V} {rs : List (Row V)} {es1 e1 es2 : List (Event V)} {n1 m1 : WNet V} (hone : OneRowEach rs (bases (es1 ++ es2)))
    (h0 : Run ix rc M ⟨⟨calm st, none⟩, fun _ => none⟩ es1 n1) (h1 : Run ix rc M n1 e1 m1) {e : Event V} {e2 : List (Event V)} (hes : es2 = e1 ++ e :: e2)
    {r q : Row V} (hr : Visible rs (bases es1) (bases es2) n1.v r) (he : r.tid = q.tid)
    (hq : q ∈ after rs (bases (es1 ++ e1)) ∨ q ∈ begun (bases e2) ∨ BeingRemoved m1.v q) : q = r := by
  obtain ⟨a1, -, -, a4⟩ := visible_in hone h1 hes hr
  rcases hq with h | h | ⟨w, hw, hdead⟩
  · have := hone (bases (es1 ++ e1)) (bases (e :: e2)) (by rw [hes, ← IndexWalk.bases_append, List.append_assoc])
    exact List.inj_on_of_nodup_map this h a1 he.symm
  · exact absurd he.symm (a4 q (by rw [hes]; exact bases_begun_mem h))
  · exact absurd ⟨w, hw, by rw [he]; exact hdead⟩ (not_removed (rs := rs) (fun r _ ⟨w, h, _⟩ => by cases h) (run_append h0 h1) r a1)

/-- What the search of an entry delivers is right for the visible rows. -/
theorem look_ok (hbd : ix.build = false) (hal : ∀ k, 8 ∣ ix.keySize k) (hM : M.single = true) (hs : ∀ a, SortOK (ix.cmpK a) (rc.sort a))
    (hd : ∀ a, DupsSeen (ix.cmpK a) (rc.haveDups a)) (ho : OptionsOK ix rc alternative) {st : State V} {rs : List (Row V)} (h0 : Over ix rc M st rs)
    {es1 es2 : List (Event V)} {n1 n3 : WNet V} (h1 : Run ix rc M ⟨⟨calm st, none⟩, fun _ => none⟩ es1 n1) (hone : OneRowEach rs (bases (es1 ++ es2)))
    {a : Nat} (ha1 : 1 ≤ a) (ha2 : a ≤ rc.natts) {lk : Look V} {sort : (Item Datum → Item Datum → Ordering) → List (Item Datum) → List (Item Datum)}
    (hq : Sorts sort) {join : Nat → Option (Datum → Datum → Datum)}
    (hj : alternative = true → rc.addTo = some a → lk.mode ≠ .exact → join a = none ∧ ((rs ++ begun (bases (es1 ++ es2))).map Row.tid).Nodup ∧
      ∀ r ∈ rs ++ begun (bases (es1 ++ es2)), r.outer.isSome = true)
    {s : List (Item Datum)} (h : LookRead ix rc M sort join (Visible rs (bases es1) (bases es2) n1.v) n1 es2 n3 a lk s) :
    StreamOK ix rc (join a) (Visible rs (bases es1) (bases es2) n1.v) (rs ++ begun (bases (es1 ++ es2))) a lk s ∧
    (alternative = true → rc.addTo = some a → ∀ y ∈ s, ∃ r ∈ rs ++ begun (bases (es1 ++ es2)), r.tid = y.iptr ∧ y.info = r.outer) := by
  obtain ⟨hc, L⟩ := h0.life hbd hal hM hs hd
  have hU : ∀ {e1 : List (Event V)} {e : Event V} {e2 : List (Event V)}, es2 = e1 ++ e :: e2 → ∀ r, r ∈ rs ++ begun (bases (es1 ++ e1)) ++ begun (bases e2) →
      r ∈ rs ++ begun (bases (es1 ++ es2)) := by
    rintro e1 e e2 rfl r hr
    simp only [List.append_assoc, List.mem_append] at hr ⊢
    refine hr.imp id (fun hr => ?_)
    rw [show es1 ++ (e1 ++ e :: e2) = (es1 ++ e1) ++ ([e] ++ e2) by simp]
    simp only [IndexWalk.bases_append, IndexVacConc.begun_append, List.mem_append] at hr ⊢
    rcases hr with hr | hr
    · exact Or.inl hr
    · exact Or.inr (Or.inr hr)
  have hvalid : ∀ {m : WNet V}, Run ix rc M ⟨⟨calm st, none⟩, fun _ => none⟩ (es1 ++ es2) m → ∀ r ∈ rs ++ begun (bases (es1 ++ es2)), ∀ k, k.attnum = a →
      Contains (ix.cmpK a) (r.value a) k → r.tid.off ≠ 0 := by
    rintro m hm r hr k rfl hcon
    exact QueryConc.tid_valid hc hs hd L (begun_ok hm) ha1 ha2 hr hcon
  rcases h with ⟨hx, j, e1, e2, m1, m2, R, hes, r1, r2, r3, r4, r5, r6, rfl⟩ | ⟨hx, j, e1, e2, m1, m2, R, n, hes, r1, r2, r3, r4, r5, r6⟩
  · have R1 := run_append h1 r1
    have Rall : Run ix rc M ⟨⟨calm st, none⟩, fun _ => none⟩ (es1 ++ es2) n3 := by
      have := run_append (run_append R1 (.snoc (.refl _) r2)) r3
      rw [hes]
      simpa using this
    obtain ⟨g1, g2⟩ := search_exact hbd hal hM hs hd h0 (k := ⟨a, lk.cat, lk.key⟩) ha1 ha2 R1 r2 r3 r4 r5
    have htr : TransCmp (ix.ctx a).cmpV := hc.infos a
    have htr' : TransCmp (ix.ctx a).cmp := cmpItem_trans _ _
    have hwant : ∀ k, Wants ix a lk k ↔ k.attnum = a ∧ cmpAttEntries ix.cmpK ⟨a, lk.cat, lk.key⟩ k = .eq := by
      intro k; unfold Wants; rw [hx]
    have hself : Wants ix a lk ⟨a, lk.cat, lk.key⟩ := by
      have hK := hc.keys
      have := cmp_trans ix
      exact (hwant _).2 ⟨rfl, ReflCmp.compare_self (cmp := cmpAttEntries ix.cmpK)⟩
    refine ⟨⟨fresh_sorted _ _, fun y hy => ?_, fun r hr k hk hcon => ?_, fun r hr y hy he => ?_, fun y hy => ?_⟩, fun p1 p2 y hy => ?_⟩
    · obtain ⟨r, hr, q1, q2, -, -⟩ := g2 y (fresh_sub _ _ y hy)
      rw [← q1]
      exact hvalid Rall r (hU hes r hr) ⟨a, lk.cat, lk.key⟩ rfl q2
    · obtain ⟨a1, a2, a3, -⟩ := visible_in hone r1 hes hr
      have hcon' := (same_row (rc := rc) hc ((hwant k).1 hk).2 r).1 hcon
      exact g1 r a1 a2 hcon' a3 (r6.resolve_right (fun h => h r hr hcon'))
    · obtain ⟨q, hq', q1, q2, q3, q4⟩ := g2 y (fresh_sub _ _ y hy)
      obtain rfl := visible_row hone h1 r1 hes hr (he.symm.trans q1.symm) q4
      refine ⟨[y.info], by simp, ?_, fun k hk _ => ⟨_, by simp, (same_row (rc := rc) hc ((hwant k).1 hk).2 q).2 _ q3⟩, by simp [joinInfo]⟩
      intro o ho'
      rw [List.mem_singleton.1 ho']
      exact ⟨_, hself, q2, q3⟩
    · obtain ⟨r, hr, q1, -⟩ := g2 y (fresh_sub _ _ y hy)
      exact ⟨r, hU hes r hr, q1⟩
    · obtain ⟨r, hr, q1, -, q3, -⟩ := g2 y (fresh_sub _ _ y hy)
      unfold InfoOf at q3
      rw [if_pos p2] at q3
      exact ⟨r, hU hes r hr, q1, q3⟩
  · have R1 := run_append h1 r1
    have Rall : Run ix rc M ⟨⟨calm st, none⟩, fun _ => none⟩ (es1 ++ es2) n3 := by
      have := run_append (run_append R1 (.snoc (.refl _) r2)) r3
      rw [hes]
      simpa using this
    obtain ⟨g, P, I, hw, hall, hsnd⟩ := IndexWalk.search hbd hal hM hs hd h0 ha1 ha2 R1 r2 r3 r4
    have hok := hw _ r5
    refine joined_ok (R := R) hc ho ⟨fun r hr k hk hcon => ?_, fun y hy => ?_, fun y hy => ?_⟩ (fun p1 p2 => hj p1 p2 hx) hq r6
    · obtain ⟨a1, a2, a3, -⟩ := visible_in hone r1 hes hr
      obtain ⟨y, hy, he, q, hq', q1, q2⟩ := hall r a1 a2 k hk hcon a3
      obtain rfl := visible_row hone h1 r1 hes hr (he.symm.trans q1.symm) (Or.inl hq')
      exact ⟨y, hok.pos k y hy, he, q2⟩
    · obtain ⟨k, hk, hA⟩ := hok.sound y hy
      obtain ⟨r, hr, q1, q2, q3, q4⟩ := hsnd k hk y hA
      exact ⟨r, hU hes r hr, q1, ⟨k, hk, q2, q3⟩, fun q hq' he => visible_row hone h1 r1 hes hq' (he.trans q1.symm) q4⟩
    · obtain ⟨k, hk, hA⟩ := hok.sound y hy
      obtain ⟨r, hr, q1, q2, q3, q4⟩ := hsnd k hk y hA
      rw [← q1]
      exact hvalid Rall r (hU hes r hr) k hk.1 q2

end

/-! ### The scan -/

section
variable {ix : Ix V} {rc : RowCfg V} {stable : Row V → Prop} {join : Nat → Option (Datum → Datum → Datum)} {U : List (Row V)}

/-- What the scan sees of a row in the lists. -/
def seen (ls : List (List (Item Datum))) (r : Row V) : List (Option (Option Datum)) :=
  ls.map (fun s => (s.find? (fun x => x.iptr == r.tid)).map Item.info)

theorem seen_told {a : Nat} {looks : List (Look V)} {ls : List (List (Item Datum))} (h : List.Forall₂ (StreamOK ix rc (join a) stable U a) looks ls) {r : Row V}
    (hr : stable r) : List.Forall₂ (Told ix rc (join a) r a) looks (seen ls r) := by
  unfold seen
  rw [List.forall₂_map_right_iff]
  refine h.imp (fun k s H => ?_)
  cases hf : s.find? (fun x => x.iptr == r.tid) with
  | none =>
    simp only [Option.map_none]
    intro k' hk' hcon
    obtain ⟨y, hy, he⟩ := H.all r hr k' hk' hcon
    have := List.find?_eq_none.1 hf y hy
    simp [he] at this
  | some y =>
    simp only [Option.map_some]
    have he : y.iptr = r.tid := by have := List.find?_some hf; simpa using this
    exact H.only r hr y (List.mem_of_find?_eq_some hf) he

theorem mem_keys {conds : List (Clause V)} {lss : List (List (List (Item Datum)))} {k : KeySpec Datum} (h : k ∈ List.zipWith (keyOf rc) conds lss) :
    ∃ q ∈ conds.zip lss, k = keyOf rc q.1 q.2 := by
  rw [← List.map_uncurry_zip_eq_zipWith] at h
  obtain ⟨q, hq, rfl⟩ := List.mem_map.1 h
  exact ⟨q, hq, rfl⟩

theorem keys_mem {conds : List (Clause V)} {lss : List (List (List (Item Datum)))} {q : Clause V × List (List (Item Datum))} (h : q ∈ conds.zip lss) :
    keyOf rc q.1 q.2 ∈ List.zipWith (keyOf rc) conds lss := by
  rw [← List.map_uncurry_zip_eq_zipWith]
  exact List.mem_map.2 ⟨q, h, rfl⟩

/-- The scan over lists that are right for the stable rows. -/
theorem combine {alternative : Bool} (ho : OptionsOK ix rc alternative) (htrans : ∀ a, TransCmp (ix.ctx a).cmpV) (c : Clause V) (cs : List (Clause V))
    (lss : List (List (List (Item Datum)))) (H : List.Forall₂ (fun (d : Clause V) ls => List.Forall₂ (StreamOK ix rc (join d.attnum) stable U d.attnum) d.looks ls) (c :: cs) lss) (hkind : OneKind rc alternative (c :: cs))
    (hsame : alternative = true → (∀ d ∈ c :: cs, rc.addTo = some d.attnum) →
      ∀ x, (∃ ls ∈ lss, ∃ s ∈ ls, x ∈ s) → ∀ y, (∃ ls ∈ lss, ∃ s ∈ ls, y ∈ s) → x.iptr = y.iptr → x.info = y.info)
    (n : Nat) (hn : (lss.map (fun ls => ls.flatten.length)).sum < n) :
    AnswerFor ix rc join (ix.ctx c.attnum).cmp stable (c :: cs) (result ix rc alternative (c :: cs) lss n) ∧
    ∀ p ∈ (result ix rc alternative (c :: cs) lss n).1, ∃ ls ∈ lss, ∃ s ∈ ls, p.1 ∈ s := by
  have htr := htrans c.attnum
  have hlen := H.length_eq
  have Hz := forall2_zip H
  set keys := List.zipWith (keyOf rc) (c :: cs) lss with hkeys
  have hmem : ∀ q ∈ (c :: cs).zip lss, q.1 ∈ c :: cs ∧ q.2 ∈ lss := fun q hq => ⟨(List.of_mem_zip hq).1, (List.of_mem_zip hq).2⟩
  have hsorted : ∀ k ∈ keys, ∀ s ∈ k.streams, SSorted (ix.ctx c.attnum).cmp s := by
    intro k hk s hs
    obtain ⟨q, hq, rfl⟩ := mem_keys hk
    rw [cmp_kind ho hkind (c := c) (d := q.1) (by simp) (hmem q hq).1]
    obtain ⟨i, hi, rfl⟩ := List.getElem_of_mem hs
    have F := Hz q hq
    have hl := F.length_eq
    exact (F.get (i := i) (by simpa using (hl ▸ hi : i < q.1.looks.length)) hi).sorted
  have hvalid : ∀ x, StoredAny keys x → x.iptr.off ≠ 0 := by
    rintro x ⟨k, hk, s, hs, hx⟩
    obtain ⟨q, hq, rfl⟩ := mem_keys hk
    obtain ⟨i, hi, rfl⟩ := List.getElem_of_mem hs
    have F := Hz q hq
    have hl := F.length_eq
    exact (F.get (i := i) (by simpa using (hl ▸ hi : i < q.1.looks.length)) hi).valid x hx
  have hst : ∀ x, StoredAny keys x → ∃ ls ∈ lss, ∃ s ∈ ls, x ∈ s := by
    rintro x ⟨k, hk, s, hs, hx⟩
    obtain ⟨q, hq, rfl⟩ := mem_keys hk
    exact ⟨q.2, (hmem q hq).2, s, hs, hx⟩
  have hsane : SaneAny ((ix.ctx c.attnum).cfg.alt && (ix.ctx c.attnum).isAddTo) keys := by
    intro x hx
    refine ⟨hvalid x hx, fun halt y hy he => ?_⟩
    obtain ⟨o1, o2⟩ := ho c.attnum
    rw [o1, o2] at halt
    simp only [Bool.and_eq_true, decide_eq_true_eq] at halt
    refine hsame halt.1 ?_ x (hst x hx) y (hst y hy) he
    rcases hkind with h | h | h
    · rw [h] at halt; exact absurd halt.1 (by simp)
    · exact h
    · exact absurd halt.2 (h c (by simp))
  have hO : Contract (ix.ctx c.attnum).cmp keys (result ix rc alternative (c :: cs) lss n) := by
    have hcmp : (ix.ctx c.attnum).cmp = scanOrder ((ix.ctx c.attnum).cfg.alt && (ix.ctx c.attnum).isAddTo) false (ix.ctx c.attnum).cmpV := by
      funext a b; rfl
    unfold result
    simp only [List.headD_cons]
    rw [← hkeys, hcmp]
    rw [hcmp] at hsorted
    have hfil : ∀ k ∈ keys, k.orderBy = false := by
      intro k hk
      obtain ⟨q, -, rfl⟩ := mem_keys hk
      rfl
    refine C20_regular_scan alternative _ false _ _ _ n ?_ ?_ (fun k hk _ => hsorted k hk) (fun _ k hk _ => hsorted k hk) ?_ ?_
    · rcases hkind with h | h | h
      · exact Or.inl h
      · refine Or.inr (Or.inl (fun k hk => ?_))
        obtain ⟨q, hq, rfl⟩ := mem_keys hk
        exact decide_eq_true (h q.1 (hmem q hq).1)
      · refine Or.inr (Or.inr (fun k hk => ?_))
        obtain ⟨q, hq, rfl⟩ := mem_keys hk
        exact decide_eq_false (h q.1 (hmem q hq).1)
    · cases lss with
      | nil => simp at hlen
      | cons l ls => exact ⟨keyOf rc c l, by simp [hkeys], rfl⟩
    · rintro x ⟨k, hk, -, hx⟩
      obtain ⟨s1, s2⟩ := hsane x ⟨k, hk, hx⟩
      exact ⟨s1, fun h y ⟨k', hk', _, hy⟩ => s2 h y ⟨k', hk', hy⟩⟩
    · rw [List.filter_eq_self.2 (fun k hk => by rw [hfil k hk]; rfl)]
      refine Nat.lt_of_le_of_lt (Nat.le_of_eq ?_) hn
      rw [hkeys]
      clear * - hlen
      generalize c :: cs = ds at hlen
      induction ds generalizing lss with
      | nil => cases lss with
        | nil => rfl
        | cons _ _ => simp at hlen
      | cons d ds ih => cases lss with
        | nil => simp at hlen
        | cons l ls =>
          simp only [List.zipWith_cons_cons, List.map_cons, List.sum_cons, keyOf]
          rw [← ih ls (by simpa using hlen)]
  refine ⟨⟨hO.ends, hO.sorted, ?_, fun r hr => ⟨lss.map (fun ls => seen ls r), ?_, ?_, fun p hp he => ?_⟩⟩, fun p hp => hst p.1 (hO.stored p hp)⟩
  · have h1 := hO.sorted
    rw [List.pairwise_map] at h1
    rw [List.Nodup, List.pairwise_map]
    refine h1.imp_of_mem (fun {a b} ha hb hab he => ?_)
    have htr' : TransCmp (ix.ctx c.attnum).cmp := cmpItem_trans _ _
    have heq : (ix.ctx c.attnum).cmp a.1 b.1 = .eq := by
      cases hal : ((ix.ctx c.attnum).cfg.alt && (ix.ctx c.attnum).isAddTo) with
      | false =>
        show cmpItem _ _ _ _ = _
        rw [hal]
        simp only [cmpItem, Bool.false_eq_true, if_false]
        rw [he]; exact ReflCmp.compare_self
      | true =>
        have hinf := (hsane a.1 (hO.stored a ha)).2 hal b.1 (hO.stored b hb) he
        have : a.1 = b.1 := by
          generalize a.1 = x at he hinf
          generalize b.1 = y at he hinf
          cases x; cases y; simp_all
        rw [this]; exact ReflCmp.compare_self (cmp := (ix.ctx c.attnum).cmp)
    rw [heq] at hab; cases hab
  · rw [List.forall₂_map_right_iff]
    exact H.imp (fun d ls h => seen_told h hr)
  · rw [hO.exact_ r.tid, List.forall₂_map_right_iff]
    have key : ∀ q : Clause V × List (List (Item Datum)), (keyOf rc q.1 q.2).Accepts r.tid ↔ Accepted q.1 (seen q.2 r) := by
      intro q
      unfold KeySpec.Accepts Accepted
      refine and_congr ?_ Iff.rfl
      simp only [KeySpec.Holds, keyOf, seen, List.mem_map, exists_exists_and_eq_and, Option.isSome_map, List.find?_isSome, beq_iff_eq]
    constructor
    · intro hm
      exact forall2_of_zip hlen (fun q hq => (key q).1 (hm _ (keys_mem hq) rfl))
    · intro hf k hk _
      obtain ⟨q, hq, rfl⟩ := mem_keys hk
      exact (key q).2 (forall2_zip hf q hq)
  · rw [hO.recheck p hp, he]
    unfold NeedsRecheck KeySpec.asks
    constructor
    · rintro ⟨k, hk, -, h⟩
      obtain ⟨q, hq, rfl⟩ := mem_keys hk
      refine ⟨(q.1, seen q.2 r), ?_, h⟩
      rw [List.zip_map_right]
      exact List.mem_map.2 ⟨q, hq, rfl⟩
    · rintro ⟨q, hq, h⟩
      rw [List.zip_map_right] at hq
      obtain ⟨q', hq', rfl⟩ := List.mem_map.1 hq
      exact ⟨_, keys_mem hq', rfl, h⟩
end

section
variable (ix : Ix V) [Inhabited V] (rc : RowCfg V) (M : Lim) (alternative : Bool) (hbd : ix.build = false) (hal : ∀ k, 8 ∣ ix.keySize k)
  (hM : M.single = true) (hs : ∀ a, SortOK (ix.cmpK a) (rc.sort a)) (hd : ∀ a, DupsSeen (ix.cmpK a) (rc.haveDups a)) (ho : OptionsOK ix rc alternative)
  (sort : (Item Datum → Item Datum → Ordering) → List (Item Datum) → List (Item Datum)) (hq : Sorts sort) (join : Nat → Option (Datum → Datum → Datum))
include hbd hal hM hs hd ho hq

/-- **C75, partial.** An index over rows `rs`; any insertions, searches and VACUUMs have happened (`es1`), some are under way; a query begins, with conditions whose entries search
for a key, for the keys of a range or with a prefix, or for all keys: it searches the entries, at moments of its own, while everything goes on (`es2`), and puts together
what they deliver. For every row that is in the table when the query begins, whose insertion has ended and which no VACUUM is told is dead before the query has ended, the
answer is exact: the row is returned if and only if all conditions accept it, their consistency functions being told the truth about it. Rows come out in
order, each once, and no row pointer comes out but of rows that were in the table or whose insertion had begun. Missing: searches that end with an error (`IndexWalk.C74_violated`)
or deliver nothing although a visible row has the key (`VacConc.C62_violated`); how often an additional info is joined; with items ordered by an attached value,
row pointers used again in the course of the history, and NULLs or a join function if an entry is for many keys of the column the value is attached to. -/
theorem C75_query_partial (st : State V) (rs : List (Row V)) (h0 : Over ix rc M st rs) (es1 es2 : List (Event V)) (n1 n3 : WNet V)
    (h1 : Run ix rc M ⟨⟨calm st, none⟩, fun _ => none⟩ es1 n1) (hone : OneRowEach rs (bases (es1 ++ es2)))
    (halt : alternative = true → ((rs ++ begun (bases (es1 ++ es2))).map Row.tid).Nodup) (c : Clause V) (cs : List (Clause V))
    (hcol : ∀ d ∈ c :: cs, 1 ≤ d.attnum ∧ d.attnum ≤ rc.natts) (hkind : OneKind rc alternative (c :: cs))
    (hatt : ∀ d ∈ c :: cs, ∀ lk ∈ d.looks, alternative = true → rc.addTo = some d.attnum → lk.mode ≠ .exact →
      join d.attnum = none ∧ ∀ r ∈ rs ++ begun (bases (es1 ++ es2)), r.outer.isSome = true)
    (lss : List (List (List (Item Datum))))
    (hr : List.Forall₂ (fun (d : Clause V) ls =>
      List.Forall₂ (LookRead ix rc M sort join (Visible rs (bases es1) (bases es2) n1.v) n1 es2 n3 d.attnum) d.looks ls) (c :: cs) lss)
    (n : Nat) (hn : (lss.map (fun ls => ls.flatten.length)).sum < n) :
    AnswerFor ix rc join (ix.ctx c.attnum).cmp (Visible rs (bases es1) (bases es2) n1.v) (c :: cs) (result ix rc alternative (c :: cs) lss n) ∧
    ∀ p ∈ (result ix rc alternative (c :: cs) lss n).1, ∃ r ∈ rs ++ begun (bases (es1 ++ es2)), r.tid = p.1.iptr := by
  obtain ⟨hc, L⟩ := h0.life hbd hal hM hs hd
  have hlook : ∀ d ∈ c :: cs, ∀ lk ∈ d.looks, ∀ s, LookRead ix rc M sort join (Visible rs (bases es1) (bases es2) n1.v) n1 es2 n3 d.attnum lk s →
      StreamOK ix rc (join d.attnum) (Visible rs (bases es1) (bases es2) n1.v) (rs ++ begun (bases (es1 ++ es2))) d.attnum lk s ∧
      (alternative = true → rc.addTo = some d.attnum → ∀ y ∈ s, ∃ r ∈ rs ++ begun (bases (es1 ++ es2)), r.tid = y.iptr ∧ y.info = r.outer) :=
    fun d hdm lk hlk s h => look_ok hbd hal hM hs hd ho h0 h1 hone (hcol d hdm).1 (hcol d hdm).2 hq
      (fun p1 p2 p3 => ⟨(hatt d hdm lk hlk p1 p2 p3).1, halt p1, (hatt d hdm lk hlk p1 p2 p3).2⟩) h
  have hfrom : ∀ ls ∈ lss, ∀ s ∈ ls, ∃ d ∈ c :: cs, ∃ lk ∈ d.looks, LookRead ix rc M sort join (Visible rs (bases es1) (bases es2) n1.v) n1 es2 n3 d.attnum lk s := by
    intro ls hls s hs'
    obtain ⟨d, hdm, F⟩ := forall2_mem hr ls hls
    obtain ⟨lk, hlk, h⟩ := forall2_mem F s hs'
    exact ⟨d, hdm, lk, hlk, h⟩
  obtain ⟨A, B⟩ := combine (stable := Visible rs (bases es1) (bases es2) n1.v) (U := rs ++ begun (bases (es1 ++ es2))) (join := join) ho hc.infos c cs lss
    (forall2_imp_mem hr (fun d hdm ls F => forall2_imp_mem F (fun lk hlk s h => (hlook d hdm lk hlk s h).1))) hkind
    (by
      rintro ht hall x ⟨ls, a1, s, a2, a3⟩ y ⟨ls', b1, s', b2, b3⟩ he
      obtain ⟨d, hdm, lk, hlk, h⟩ := hfrom ls a1 s a2
      obtain ⟨d', hdm', lk', hlk', h'⟩ := hfrom ls' b1 s' b2
      obtain ⟨r, q1, q2, q3⟩ := (hlook d hdm lk hlk s h).2 ht (hall d hdm) x a3
      obtain ⟨r', q1', q2', q3'⟩ := (hlook d' hdm' lk' hlk' s' h').2 ht (hall d' hdm') y b3
      obtain rfl := List.inj_on_of_nodup_map (halt ht) q1 q1' (q2.trans (he.trans q2'.symm))
      rw [q3, q3']) n hn
  refine ⟨A, fun p hp => ?_⟩
  obtain ⟨ls, a1, s, a2, a3⟩ := B p hp
  obtain ⟨d, hdm, lk, hlk, h⟩ := hfrom ls a1 s a2
  exact (hlook d hdm lk hlk s h).1.src p.1 a3
end

/-! ### A concrete case -/

section
open IndexWalk

/-- The keys from 7 to 8 of column 2. -/
def exOne : Clause Nat := ⟨2, [exLook], fun v => (v.any (·.isSome), false)⟩

/-- Key 1 in column 1. -/
def exTwo : Clause Nat := ⟨1, [⟨.norm, 1, .exact⟩], fun v => (v.any (·.isSome), false)⟩

/-- A query with these two conditions. Row 3 comes while the keys of column 2 are searched for, and VACUUM begins. -/
def exQuery : List (Event Nat) := .begin 2 2 exLook :: (exMeanwhile ++ [.base (.read 1 ⟨1, .norm, 1⟩ true), .base (.entry 1)])

def exBusy : Job Nat → Bool
  | .insert _ => true
  | _ => false

def exRows : Job Nat → Option (List Iptr)
  | .answer ⟨1, .norm, 1⟩ true R => some (R.map Item.iptr)
  | _ => none

theorem ex_query : ((results exIxW exRc 3 ⟨⟨IndexConc.calm emptyIndex, none⟩, fun _ => none⟩ exBefore).any (fun m =>
    (List.range 3).all (fun i => !exBusy (m.v.net.job i)) &&
    (results exIxW exRc 3 m exQuery).any (fun n => exDone (n.walk 2) == some [⟨1, 1⟩, ⟨3, 1⟩, ⟨5, 1⟩] &&
      exRows (n.v.net.job 1) == some [⟨1, 1⟩, ⟨3, 1⟩, ⟨5, 1⟩]))) = true := by
  decide +kernel

theorem ex_ok : (∀ i r, .base (.insert i r) ∈ exBefore ++ exQuery → RowOK exIxW exRc ⟨15, true⟩ r) ∧
    ∀ i a lk, .begin i a lk ∈ exBefore ++ exQuery → lk.mode ≠ .exact ∧ LookOK (exIxW.cmpK a) lk := by
  obtain ⟨h1, h2⟩ := exOK exMeanwhile (Or.inl rfl)
  constructor
  · intro i r hr
    refine h1 i r ?_
    simp only [exQuery, List.mem_append, List.mem_cons, List.not_mem_nil, or_false, reduceCtorEq, false_or, Event.base.injEq] at hr ⊢
    exact hr
  · intro i a lk hr
    refine h2 i a lk ?_
    simp only [exQuery, List.mem_append, List.mem_cons, List.not_mem_nil, or_false, reduceCtorEq] at hr ⊢
    exact hr

theorem rest_run {N : Nat} {n n' : WNet Nat} {es : List (Event Nat)} (hN : Rest N n) (h : results exIxW exRc N n es = some n')
    (hr : ∀ i r, .base (.insert i r) ∈ es → RowOK exIxW exRc ⟨15, true⟩ r)
    (hl : ∀ i a lk, .begin i a lk ∈ es → lk.mode ≠ .exact ∧ LookOK (exIxW.cmpK a) lk) : Rest N n' := by
  induction es generalizing n with
  | nil => cases h; exact hN
  | cons e es ih =>
    simp only [results] at h
    split at h
    · next hc =>
      obtain ⟨z, hz, h⟩ := Option.bind_eq_some_iff.1 h
      exact ih (can_fires (rc := exRc) (M := ⟨15, true⟩) hN hc hz (fun i r he => hr i r (by rw [he]; simp)) (fun i a lk he => hl i a lk (by rw [he]; simp))).2 h
        (fun i r hm => hr i r (List.mem_cons_of_mem _ hm)) (fun i a lk hm => hl i a lk (List.mem_cons_of_mem _ hm))
    · cases h

/-- The hypotheses of `C75_query_partial` are met by this run: rows 1 and 5 are there when the query begins (row 1 is visible), row 3 comes meanwhile; both entries deliver
rows 1, 3 and 5. -/
example : exIxW.build = false ∧ (∀ k, 8 ∣ exIxW.keySize k) ∧ (∀ a, SortOK (exIxW.cmpK a) (exRc.sort a)) ∧ (∀ a, DupsSeen (exIxW.cmpK a) (exRc.haveDups a)) ∧
    OptionsOK exIxW exRc false ∧ Sorts altSort ∧ Over exIxW exRc ⟨15, true⟩ emptyIndex [] ∧
    OneRowEach [] (bases (exBefore ++ exQuery)) ∧ (∀ d ∈ [exOne, exTwo], 1 ≤ d.attnum ∧ d.attnum ≤ exRc.natts) ∧ OneKind exRc false [exOne, exTwo] ∧
    ∃ n1 n3 s1 s2, Run exIxW exRc ⟨15, true⟩ ⟨⟨IndexConc.calm emptyIndex, none⟩, fun _ => none⟩ exBefore n1 ∧
      Visible [] (bases exBefore) (bases exQuery) n1.v (exRowW 1 1 7) ∧
      List.Forall₂ (fun (d : Clause Nat) ls => List.Forall₂ (LookRead exIxW exRc ⟨15, true⟩ altSort (fun _ => none)
        (Visible [] (bases exBefore) (bases exQuery) n1.v) n1 exQuery n3 d.attnum) d.looks ls) [exOne, exTwo] [[s1], [s2]] ∧
      (∀ t, t ∈ s1.map Item.iptr ↔ t = ⟨1, 1⟩ ∨ t = ⟨3, 1⟩ ∨ t = ⟨5, 1⟩) := by
  refine ⟨rfl, exStart.1, exStart.2.1, exStart.2.2.1, fun a => ⟨rfl, rfl⟩, altSort_sorts, exStart.2.2.2, fun a b hab => ?_, ?_, Or.inl rfl, ?_⟩
  · have key : ∀ l : List (IndexVacConc.Event Nat), (∀ k ≤ l.length, ((after [] (l.take k)).map Row.tid).Nodup) → ∀ a b, l = a ++ b → ((after [] a).map Row.tid).Nodup := by
      rintro _ h a b rfl
      have := h a.length (by simp)
      rwa [List.take_left] at this
    exact key _ (by decide) a b hab
  · intro d hd
    simp only [List.mem_cons, List.not_mem_nil, or_false] at hd
    rcases hd with rfl | rfl
    · exact ⟨by decide, by decide⟩
    · exact ⟨by decide, by decide⟩
  have hx := ex_query
  obtain ⟨o1, o2⟩ := ex_ok
  have o1a := fun i r hm => o1 i r (List.mem_append_left _ hm)
  have o1b := fun i r hm => o1 i r (List.mem_append_right _ hm)
  have o2a := fun i a lk hm => o2 i a lk (List.mem_append_left _ hm)
  have o2b := fun i a lk hm => o2 i a lk (List.mem_append_right _ hm)
  have hrest : Rest (V := Nat) 3 ⟨⟨IndexConc.calm emptyIndex, none⟩, fun _ => none⟩ := fun _ _ => ⟨rfl, fun _ => rfl, rfl⟩
  cases e1 : results exIxW exRc 3 ⟨⟨IndexConc.calm emptyIndex, none⟩, fun _ => none⟩ exBefore with
  | none => rw [e1] at hx; cases hx
  | some n1 =>
    rw [e1] at hx
    simp only [Option.any_some, Bool.and_eq_true, List.all_eq_true, List.mem_range] at hx
    obtain ⟨x1, x2⟩ := hx
    have hrest1 := rest_run hrest e1 o1a o2a
    have R1 := results_run (ix := exIxW) (rc := exRc) (M := ⟨15, true⟩) (.refl _) hrest o1a o2a e1
    rw [List.nil_append] at R1
    cases e2 : results exIxW exRc 3 n1 exQuery with
    | none => rw [e2] at x2; cases x2
    | some n3 =>
      rw [e2] at x2
      simp only [Option.any_some, Bool.and_eq_true, beq_iff_eq] at x2
      obtain ⟨x2, x3⟩ := x2
      have R2 := results_run (ix := exIxW) (rc := exRc) (M := ⟨15, true⟩) (.refl _) hrest1 o1b o2b e2
      rw [List.nil_append] at R2
      -- the search in column 2
      have hl : ∀ e ∈ exMeanwhile ++ [.base (.read 1 ⟨1, .norm, 1⟩ true), .base (.entry 1)], e.leaves 2 = true := by
        intro e he
        simp only [exMeanwhile, List.mem_cons, List.mem_append, List.not_mem_nil, or_false] at he
        rcases he with (rfl | rfl | rfl | rfl | rfl | rfl | rfl | rfl | rfl | rfl | rfl) | rfl | rfl <;> rfl
      have R2' := R2
      rw [show exQuery = [Event.begin 2 2 exLook] ++ (exMeanwhile ++ [.base (.read 1 ⟨1, .norm, 1⟩ true), .base (.entry 1)]) from rfl] at R2'
      obtain ⟨m2, b1, b2⟩ := R2'.split
      have b1 := b1.single
      obtain ⟨w, hw, hlk⟩ := b2.same b1 hl (by simp [exMeanwhile])
      obtain ⟨a, lk, p⟩ := w
      obtain ⟨rfl, rfl⟩ := hlk
      obtain ⟨R, rfl, hR⟩ : ∃ R, p = .done R ∧ R.map Item.iptr = [⟨1, 1⟩, ⟨3, 1⟩, ⟨5, 1⟩] := by
        rw [hw] at x2
        cases p with
        | done R => exact ⟨R, rfl, by simpa [exDone] using x2⟩
        | _ => cases x2
      -- the search in column 1
      have R2'' := R2
      rw [show exQuery = (Event.begin 2 2 exLook :: exMeanwhile) ++ ([.base (.read 1 ⟨1, .norm, 1⟩ true)] ++ [.base (.entry 1)]) from rfl] at R2''
      obtain ⟨k1, c1, c2⟩ := R2''.split
      obtain ⟨k2, c2, c3⟩ := c2.split
      have c2 := c2.single
      obtain ⟨R', hj, hR'⟩ : ∃ R, n3.v.net.job 1 = .answer ⟨1, .norm, 1⟩ true R ∧ R.map Item.iptr = [⟨1, 1⟩, ⟨3, 1⟩, ⟨5, 1⟩] := by
        unfold exRows at x3
        split at x3
        · next R hj => exact ⟨R, hj, by simpa using x3⟩
        · cases x3
      have hds := drainSort_min none ((altSort (exIxW.sortCmp 2) R).length + 2) (altSort (exIxW.sortCmp 2) R) (Nat.le_refl _)
      refine ⟨n1, n3, fuseAll none (altSort (exIxW.sortCmp 2) R), fresh (exIxW.ctx 1).cmp R', R1, ⟨?_, ?_, ?_⟩,
        .cons (.cons (Or.inr ⟨by simp [exLook], 2, [], _, n1, m2, R, _, rfl, .refl _, b1, b2, hl, hw, hds⟩) .nil)
          (.cons (.cons (Or.inl ⟨rfl, 1, _, [.base (.entry 1)], k1, k2, R', rfl, c1, c2, c3, by decide, hj, Or.inl ?_, rfl⟩) .nil) .nil), fun t => ?_⟩
      · exact List.mem_cons_self
      · rintro ⟨i, l, h1, -⟩
        by_cases hi : i < 3
        · have := x1 i hi
          rw [h1] at this
          cases this
        · rw [(hrest1 i (by omega)).2.2] at h1; cases h1
      · intro dead hd
        have : dead = fun p => p.blk == 9 := by
          simp only [exQuery, exMeanwhile, bases, List.cons_append, List.nil_append, List.mem_cons, List.not_mem_nil, or_false, reduceCtorEq, false_or,
            IndexVacConc.Event.vacuum.injEq] at hd
          exact hd
        rw [this]; rfl
      · rintro rfl
        simp at hR'
      · have hp := (altSort_sorts (exIxW.sortCmp 2) (sortCmp_trans exColsW 2) R).1
        have hmem : t ∈ (fuseAll none (altSort (exIxW.sortCmp 2) R)).map Item.iptr ↔ t ∈ (altSort (exIxW.sortCmp 2) R).map Item.iptr := by
          generalize altSort (exIxW.sortCmp 2) R = L
          cases L with
          | nil => simp [fuseAll]
          | cons x xs => exact mem_fuse_iptr none xs x t
        rw [hmem, (hp.map Item.iptr).mem_iff, hR]
        simp
end

end Rum.Props.QueryWalk

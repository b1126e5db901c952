import Verif.FullScan
import Verif.Props.Sort
import Mathlib.Data.List.Forall2
/-!
# C47: ORDER BY without WHERE
-/
namespace Rum.Props.FullScan
open Std Rum Rum.Sort Rum.Full Rum.Props Rum.Props.Sort

variable {V : Type}

/-! ### Specification -/

/-- The tuples of the scanned column: those at the front of the index. -/
def column (col : Nat) (ts : List (Tup V)) : List (Tup V) := ts.takeWhile (fun t => t.col == col)

/-- What an ORDER BY entry with the items `L` holds for a row. -/
def held (L : List (Item V)) (tid : Iptr) : Option (Option V) := (L.find? (fun y => decide (y.iptr = tid))).map (·.info)

/-- The items `L` of an ORDER BY entry are in the order `cmp`, valid, one per row, and agree with the scanned column's items `its` on which
items belong to the same row. -/
structure GoodEntry (cmp : Item V → Item V → Ordering) (L : List (Item V)) (its : List (Item V)) : Prop where
  trans : TransCmp cmp
  sorted : L.Pairwise (fun a b => cmp a b ≠ .gt)
  valid : ∀ y ∈ L, y.iptr.off ≠ 0
  uniq : ∀ y ∈ L, ∀ z ∈ L, y.iptr = z.iptr → y = z
  row : ∀ y ∈ L, ∀ it ∈ its, y.iptr = it.iptr ↔ cmp y it = .eq

/-! ### One ORDER BY entry -/

/-- The items still to come. -/
def ahead (e : OEnt V) : List (Item V) :=
  if e.fin then [] else if e.cur.iptr.off = 0 then e.page.drop e.off else e.cur :: e.page.drop e.off

structure Shape (cmp : Item V → Item V → Ordering) (L : List (Item V)) (e : OEnt V) : Prop where
  order : e.cmp = cmp
  page : e.page = L
  next : e.next = []
  sub : ∀ y ∈ ahead e, y ∈ L
  sorted : (ahead e).Pairwise (fun a b => cmp a b ≠ .gt)

/-- Nothing at or after `it` has been passed. -/
def Covers (cmp : Item V → Item V → Ordering) (L : List (Item V)) (it : Item V) (e : OEnt V) : Prop :=
  ∀ y ∈ L, cmp y it ≠ .lt → y ∈ ahead e

/-- The entry stands at the first item not before `it`. -/
def Arrived (cmp : Item V → Item V → Ordering) (it : Item V) (e : OEnt V) : Prop :=
  e.fin = false → e.cur.iptr.off ≠ 0 ∧ cmp e.cur it ≠ .lt

theorem shape_get {cmp : Item V → Item V → Ordering} {L its} (hg : GoodEntry cmp L its) {e : OEnt V} {it : Item V} (h : Shape cmp L e)
    (hc : Covers cmp L it e) (hf : e.fin = false) (hs : e.cur.iptr.off = 0 ∨ cmp e.cur it = .lt) :
    Shape cmp L e.get ∧ Covers cmp L it e.get ∧ (e.get.fin = true ∨ (e.get.off = e.off + 1 ∧ e.off < L.length)) := by
  have hsub : ∀ y ∈ L.drop e.off, y ∈ ahead e := by
    intro y hy
    simp only [ahead, hf, Bool.false_eq_true, if_false, h.page]
    split
    · exact hy
    · exact List.mem_cons_of_mem _ hy
  have hcov : ∀ y ∈ L, cmp y it ≠ .lt → y ∈ L.drop e.off := by
    intro y hy hlt
    have := hc y hy hlt
    simp only [ahead, hf, Bool.false_eq_true, if_false, h.page] at this
    split at this
    · exact this
    · rcases List.mem_cons.1 this with rfl | this
      · rcases hs with hs | hs <;> contradiction
      · exact this
  have hsort : (L.drop e.off).Pairwise (fun a b => cmp a b ≠ .gt) := hg.sorted.sublist (List.drop_sublist _ _)
  unfold OEnt.get
  cases hp : e.page[e.off]? with
  | some y =>
    have hlt : e.off < L.length := by rw [h.page] at hp; exact (List.getElem?_eq_some_iff.1 hp).1
    have hy : L.drop e.off = y :: L.drop (e.off + 1) := by
      rw [h.page] at hp
      obtain ⟨h1, h2⟩ := List.getElem?_eq_some_iff.1 hp
      rw [List.drop_eq_getElem_cons h1, h2]
    have hv : y.iptr.off ≠ 0 := hg.valid y (List.mem_of_getElem? (h.page ▸ hp))
    have ha : ahead { e with cur := y, off := e.off + 1 } = L.drop e.off := by simp only [ahead, hf, Bool.false_eq_true, if_false, hv, h.page, hy]
    refine ⟨⟨h.order, h.page, h.next, ?_, ?_⟩, ?_, .inr ⟨rfl, hlt⟩⟩
    · rw [ha]; exact fun y hy => List.mem_of_mem_drop hy
    · rw [ha]; exact hsort
    · intro y hy hlt; rw [ha]; exact hcov y hy hlt
  | none =>
    have hnil : L.drop e.off = [] := by
      rw [h.page] at hp
      exact List.drop_eq_nil_of_le (List.getElem?_eq_none_iff.1 hp)
    simp only [h.next, List.dropWhile_nil]
    refine ⟨⟨h.order, h.page, rfl, ?_, ?_⟩, ?_, .inl trivial⟩
    · simp [ahead]
    · simp [ahead]
    · intro y hy hlt
      have := hcov y hy hlt
      rw [hnil] at this; cases this

theorem shape_moveTo {cmp : Item V → Item V → Ordering} {L its} (hg : GoodEntry cmp L its) {it : Item V} :
    ∀ (n : Nat) (e : OEnt V), Shape cmp L e → Covers cmp L it e → L.length - e.off + 2 ≤ n →
      Shape cmp L (e.moveTo it n) ∧ Covers cmp L it (e.moveTo it n) ∧ Arrived cmp it (e.moveTo it n) := by
  intro n
  induction n with
  | zero => intro e _ _ hn; omega
  | succ n ih =>
    intro e h hc hn
    unfold OEnt.moveTo
    split
    next hcond =>
      rw [h.order] at hcond
      obtain ⟨h1, h2, h3⟩ := shape_get hg h hc hcond.1 hcond.2
      rcases h3 with h3 | ⟨h3, h4⟩
      · have : (e.get).moveTo it n = e.get := by
          cases n with
          | zero => rfl
          | succ n => unfold OEnt.moveTo; rw [if_neg (by simp [h3])]
        rw [this]
        exact ⟨h1, h2, fun hf => by rw [h3] at hf; cases hf⟩
      · exact ih _ h1 h2 (by omega)
    next hcond =>
      rw [h.order] at hcond
      refine ⟨h, hc, fun hf => ?_⟩
      constructor
      · exact fun h0 => hcond ⟨hf, .inl h0⟩
      · exact fun h0 => hcond ⟨hf, .inr h0⟩

theorem view_arrived {cmp : Item V → Item V → Ordering} {L its} (hg : GoodEntry cmp L its) {it : Item V} (hit : it ∈ its) {e : OEnt V}
    (h : Shape cmp L e) (hc : Covers cmp L it e) (ha : Arrived cmp it e) : e.view it.iptr = held L it.iptr := by
  have := hg.trans
  unfold OEnt.view held
  split
  next hv =>
    obtain ⟨hf, heq⟩ := hv
    have hcur : e.cur ∈ L := h.sub _ (by simp [ahead, hf, (ha hf).1])
    have hip : e.cur.iptr = it.iptr := LawfulEqCmp.compare_eq_iff_eq.1 heq
    cases hfind : L.find? (fun y => decide (y.iptr = it.iptr)) with
    | none =>
      have := List.find?_eq_none.1 hfind _ hcur
      simp [hip] at this
    | some z =>
      have h1 := List.find?_some hfind
      have h2 := List.mem_of_find?_eq_some hfind
      have : z = e.cur := hg.uniq z h2 _ hcur (by rw [hip]; simpa using h1)
      simp [this]
  next hv =>
    have : L.find? (fun y => decide (y.iptr = it.iptr)) = none := by
      apply List.find?_eq_none.2
      intro y hy heq
      have heq : y.iptr = it.iptr := by simpa using heq
      have hye := (hg.row y hy it hit).1 heq
      have hin := hc y hy (by simp [hye])
      apply hv
      cases hf : e.fin with
      | true => simp [ahead, hf] at hin
      | false =>
        refine ⟨rfl, ?_⟩
        obtain ⟨h0, h1⟩ := ha hf
        have hahead : ahead e = e.cur :: e.page.drop e.off := by simp [ahead, hf, h0]
        have hcur : e.cur ∈ L := h.sub _ (by simp [hahead])
        have hs := h.sorted
        rw [hahead] at hin hs
        rw [LawfulEqCmp.compare_eq_iff_eq]
        apply (hg.row _ hcur it hit).2
        rcases List.mem_cons.1 hin with rfl | hin
        · exact hye
        · have h2 : cmp e.cur y ≠ .gt := (List.pairwise_cons.1 hs).1 y hin
          rw [TransCmp.congr_right (cmp := cmp) hye] at h2
          cases hq : cmp e.cur it with
          | eq => rfl
          | lt => exact absurd hq h1
          | gt => exact absurd hq h2
    rw [this]; rfl

theorem covers_mono {cmp : Item V → Item V → Ordering} (htr : TransCmp cmp) {L} {it it' : Item V} {e : OEnt V} (h : Covers cmp L it e)
    (hle : cmp it it' ≠ .gt) : Covers cmp L it' e := by
  intro y hy hlt
  refine h y hy (fun hyi => hlt ?_)
  exact TransCmp.lt_of_lt_of_isLE hyi (Ordering.isLE_iff_ne_gt.2 hle)

theorem shape_start {cmp : Item V → Item V → Ordering} {L its : List (Item V)} (hg : GoodEntry cmp L its) (it : Item V) :
    Shape cmp L (OEnt.start cmp [L]) ∧ Covers cmp L it (OEnt.start cmp [L]) := by
  have := hg.trans
  cases L with
  | nil => exact ⟨⟨rfl, rfl, rfl, by simp [ahead, OEnt.start], by simp [ahead, OEnt.start]⟩, fun y hy => by cases hy⟩
  | cons y ys =>
    have hv : y.iptr.off ≠ 0 := hg.valid y (by simp)
    have ha : ahead (OEnt.start cmp [y :: ys]) = y :: y :: ys := by simp [ahead, OEnt.start, hv]
    refine ⟨⟨rfl, rfl, rfl, ?_, ?_⟩, ?_⟩
    · rw [ha]; simp
    · rw [ha, List.pairwise_cons]
      refine ⟨fun z hz => ?_, hg.sorted⟩
      rcases List.mem_cons.1 hz with rfl | hz
      · rw [ReflCmp.compare_self (cmp := cmp)]; simp
      · exact (List.pairwise_cons.1 hg.sorted).1 z hz
    · intro z hz _; rw [ha]; exact List.mem_cons_of_mem _ hz

theorem shape_reset {cmp : Item V → Item V → Ordering} {L its : List (Item V)} (hg : GoodEntry cmp L its) (it : Item V) {e : OEnt V}
    (h : Shape cmp L e) : Shape cmp L e.reset ∧ Covers cmp L it e.reset := by
  unfold OEnt.reset
  split
  next hl =>
    have ha : ahead { e with fin := false, off := 0, cur := ⟨⟨0, 0⟩, none⟩ } = L := by simp [ahead, h.page]
    refine ⟨⟨h.order, h.page, h.next, ?_, ?_⟩, ?_⟩
    · rw [ha]; exact fun _ h => h
    · rw [ha]; exact hg.sorted
    · intro y hy _; rw [ha]; exact hy
  next hl =>
    refine ⟨h, fun y hy => ?_⟩
    have : L = [] := by rw [← h.page]; exact List.eq_nil_of_length_eq_zero (by omega)
    rw [this] at hy; cases hy

/-! ### All ORDER BY entries together -/

/-- The ORDER BY entries: their orders and items. -/
abbrev Src (V : Type) := (Item V → Item V → Ordering) × List (Item V)

theorem moveAll {its : List (Item V)} {srcs : List (Src V)} (hg : ∀ s ∈ srcs, GoodEntry s.1 s.2 its) {it : Item V} (hit : it ∈ its)
    {es : List (OEnt V)} (h : List.Forall₂ (fun (s : Src V) e => Shape s.1 s.2 e ∧ Covers s.1 s.2 it e) srcs es) :
    List.Forall₂ (fun (s : Src V) e => Shape s.1 s.2 e ∧ Covers s.1 s.2 it e) srcs (es.map (fun e => e.moveTo it e.fuel)) ∧
    (es.map (fun e => e.moveTo it e.fuel)).map (fun e => e.view it.iptr) = srcs.map (fun s => held s.2 it.iptr) := by
  induction h with
  | nil => exact ⟨.nil, rfl⟩
  | @cons s e srcs es hse _ ih =>
    obtain ⟨i1, i2⟩ := ih (fun s hs => hg s (List.mem_cons_of_mem _ hs))
    have hgs := hg s (by simp)
    obtain ⟨h1, h2, h3⟩ := shape_moveTo hgs e.fuel e hse.1 hse.2 (by simp [OEnt.fuel, hse.1.page]; omega)
    refine ⟨.cons ⟨h1, h2⟩ i1, ?_⟩
    simp only [List.map_cons]
    rw [i2, view_arrived hgs hit h1 h2 h3]

/-- The rest of a list of items. -/
theorem run_list {its : List (Item V)} {srcs : List (Src V)} (hg : ∀ s ∈ srcs, GoodEntry s.1 s.2 its) (rest : List (Bool × Item V)) :
    ∀ (l : List (Item V)) (es : List (OEnt V)), (∀ it ∈ l, it ∈ its) → (∀ s ∈ srcs, l.Pairwise (fun a b => s.1 a b ≠ .gt)) →
      (∀ it ∈ l.head?, List.Forall₂ (fun (s : Src V) e => Shape s.1 s.2 e ∧ Covers s.1 s.2 it e) srcs es) →
      List.Forall₂ (fun (s : Src V) e => Shape s.1 s.2 e) srcs es →
      ∃ es', List.Forall₂ (fun (s : Src V) e => Shape s.1 s.2 e) srcs es' ∧
        fullRun es (l.map (fun z => (false, z)) ++ rest) =
          l.map (fun z => (z, srcs.map (fun s => held s.2 z.iptr))) ++ fullRun es' rest := by
  intro l
  induction l with
  | nil => intro es _ _ _ h; exact ⟨es, h, rfl⟩
  | cons it l ih =>
    intro es hin hs hc _
    obtain ⟨h1, h2⟩ := moveAll hg (hin it (by simp)) (hc it (by simp))
    refine (ih (es.map (fun e => e.moveTo it e.fuel)) (fun z hz => hin z (List.mem_cons_of_mem _ hz))
      (fun s hs' => (List.pairwise_cons.1 (hs s hs')).2) ?_ ?_).imp ?_
    · intro it' hit'
      have hmem : it' ∈ l := List.mem_of_mem_head? hit'
      rw [List.forall₂_iff_get] at h1 ⊢
      refine ⟨h1.1, fun i hi hi' => ⟨(h1.2 i hi hi').1, ?_⟩⟩
      have hs1 : srcs.get ⟨i, hi⟩ ∈ srcs := List.get_mem _ _
      exact covers_mono (hg _ hs1).trans (h1.2 i hi hi').2 ((List.pairwise_cons.1 (hs _ hs1)).1 it' hmem)
    · exact h1.imp (fun _ _ h => h.1)
    · rintro es' ⟨h3, h4⟩
      refine ⟨h3, ?_⟩
      simp only [List.map_cons, List.cons_append, fullRun, Bool.false_eq_true, if_false, h2, h4]

theorem resetAll {its : List (Item V)} {srcs : List (Src V)} (hg : ∀ s ∈ srcs, GoodEntry s.1 s.2 its) (it : Item V)
    {es : List (OEnt V)} (h : List.Forall₂ (fun (s : Src V) e => Shape s.1 s.2 e) srcs es) :
    List.Forall₂ (fun (s : Src V) e => Shape s.1 s.2 e ∧ Covers s.1 s.2 it e) srcs (es.map OEnt.reset) := by
  induction h with
  | nil => exact .nil
  | @cons s e srcs es hse _ ih => exact .cons (shape_reset (hg s (by simp)) it hse) (ih (fun s hs => hg s (List.mem_cons_of_mem _ hs)))

/-- All lists of the column. -/
theorem run_lists {its : List (Item V)} {srcs : List (Src V)} (hg : ∀ s ∈ srcs, GoodEntry s.1 s.2 its) (col : Nat) :
    ∀ (ts : List (Tup V)) (es : List (OEnt V)),
      (∀ t ∈ column col ts, t.items ≠ [] ∧ (∀ it ∈ t.items, it ∈ its) ∧ ∀ s ∈ srcs, t.items.Pairwise (fun a b => s.1 a b ≠ .gt)) →
      List.Forall₂ (fun (s : Src V) e => Shape s.1 s.2 e) srcs es →
      ∃ vs, listsFrom col ts = some vs ∧
        fullRun es vs = (column col ts).flatMap (fun t => t.items.map (fun z => (z, srcs.map (fun s => held s.2 z.iptr)))) := by
  intro ts
  induction ts with
  | nil => intro es _ _; exact ⟨[], rfl, rfl⟩
  | cons t ts ih =>
    intro es ht he
    by_cases hcol : t.col = col
    · have hc : column col (t :: ts) = t :: column col ts := by simp [column, hcol]
      rw [hc] at ht
      obtain ⟨hne, hin, hs⟩ := ht t (by simp)
      have ih' := fun es he => ih es (fun t' ht' => ht t' (List.mem_cons_of_mem _ ht')) he
      cases hti : t.items with
      | nil => exact absurd hti hne
      | cons y ys =>
        obtain ⟨vs, hvs, _⟩ := ih' es he
        refine ⟨_, by simp only [listsFrom, hcol, ne_eq, not_true, if_false, hti, hvs, Option.map_some]; rfl, ?_⟩
        rw [hti] at hin hs
        have hy := resetAll hg y he
        obtain ⟨h1, h2⟩ := moveAll hg (hin y (by simp)) hy
        obtain ⟨es', h3, h4⟩ := run_list hg vs ys ((es.map OEnt.reset).map (fun e => e.moveTo y e.fuel))
          (fun z hz => hin z (List.mem_cons_of_mem _ hz)) (fun s hs' => (List.pairwise_cons.1 (hs s hs')).2)
          (by
            intro it' hit'
            have hmem : it' ∈ ys := List.mem_of_mem_head? hit'
            rw [List.forall₂_iff_get] at h1 ⊢
            refine ⟨h1.1, fun i hi hi' => ⟨(h1.2 i hi hi').1, ?_⟩⟩
            have hs1 : srcs.get ⟨i, hi⟩ ∈ srcs := List.get_mem _ _
            exact covers_mono (hg _ hs1).trans (h1.2 i hi hi').2 ((List.pairwise_cons.1 (hs _ hs1)).1 it' hmem))
          (h1.imp (fun _ _ h => h.1))
        obtain ⟨vs', hvs', h5⟩ := ih' es' h3
        obtain rfl : vs = vs' := by rw [hvs] at hvs'; exact Option.some.inj hvs'
        rw [hc]
        simp only [List.cons_append, fullRun, if_true, h2, h4, h5, List.flatMap_cons, hti, List.map_cons]
    · have hc : column col (t :: ts) = [] := by simp [column, hcol]
      exact ⟨[], by simp [listsFrom, hcol], by simp [hc, fullRun]⟩

/-- The whole scan: the items of the first list twice, then those of the other tuples; every row with what the ORDER BY entries hold for it. -/
theorem run_full (col : Nat) (t : Tup V) (ts : List (Tup V)) (srcs : List (Src V)) (hcol : t.col = col)
    (hg : ∀ s ∈ srcs, GoodEntry s.1 s.2 ((column col (t :: ts)).flatMap (·.items)))
    (hl : ∀ u ∈ column col (t :: ts), u.items ≠ [] ∧ ∀ s ∈ srcs, u.items.Pairwise (fun a b => s.1 a b ≠ .gt)) :
    ∃ vs, fullVisits col (t :: ts) = some vs ∧
      fullRun (srcs.map (fun s => OEnt.start s.1 [s.2])) vs =
        (t :: column col (t :: ts)).flatMap (fun u => u.items.map (fun z => (z, srcs.map (fun s => held s.2 z.iptr)))) := by
  have hc : column col (t :: ts) = t :: column col ts := by simp [column, hcol]
  have hin : ∀ u ∈ column col (t :: ts), ∀ it ∈ u.items, it ∈ (column col (t :: ts)).flatMap (·.items) :=
    fun u hu it hit => List.mem_flatMap.2 ⟨u, hu, hit⟩
  have hstart : ∀ it, List.Forall₂ (fun (s : Src V) e => Shape s.1 s.2 e ∧ Covers s.1 s.2 it e) srcs (srcs.map (fun s => OEnt.start s.1 [s.2])) := by
    intro it
    rw [List.forall₂_map_right_iff]
    exact List.forall₂_same.2 (fun s hs => shape_start (hg s hs) it)
  obtain ⟨hne, hs⟩ := hl t (by rw [hc]; simp)
  obtain ⟨vs, hvs, _⟩ := run_lists hg col (t :: ts) _ (fun u hu => ⟨(hl u hu).1, hin u hu, (hl u hu).2⟩) ((hstart ⟨⟨0, 0⟩, none⟩).imp (fun _ _ h => h.1))
  obtain ⟨es', h1, h2⟩ := run_list hg vs t.items _ (hin t (by rw [hc]; simp)) hs (fun it _ => hstart it) ((hstart ⟨⟨0, 0⟩, none⟩).imp (fun _ _ h => h.1))
  obtain ⟨vs', hvs', h3⟩ := run_lists hg col (t :: ts) es' (fun u hu => ⟨(hl u hu).1, hin u hu, (hl u hu).2⟩) h1
  obtain rfl : vs = vs' := by rw [hvs] at hvs'; exact Option.some.inj hvs'
  refine ⟨t.items.map (fun z => (false, z)) ++ vs, ?_, ?_⟩
  · unfold fullVisits
    cases htr : t.tree <;> cases hti : t.items <;> simp_all
  · rw [h2, h3, List.flatMap_cons]

/-! ### The property -/

section
variable {F : Type} (cmpF : F → F → Ordering) [TransCmp cmpF]

/-- **C47, ORDER BY without WHERE.** The index starts with entries of the scanned column, all with rows, each in order; the ORDER BY entries
are posting lists in order, and the distance function depends on the row only. Then, whatever the sort does with ties, every row of the column's entries
is returned exactly once, nothing else is, every row carries the distance computed from what the ORDER BY entries hold for it, and no row comes
before a nearer one. Partial: see the four violations below for what happens without the hypotheses. -/
theorem C47_full_scan_partial (zero : F) (nKeys : Nat) (dist : Item V → List (Option (Option V)) → Nat → F) (col : Nat) (t : Tup V)
    (ts : List (Tup V)) (srcs : List (Src V)) (hcol : t.col = col)
    (hg : ∀ s ∈ srcs, GoodEntry s.1 s.2 ((column col (t :: ts)).flatMap (·.items)))
    (hl : ∀ u ∈ column col (t :: ts), u.items ≠ [] ∧ (∀ it ∈ u.items, it.iptr.off ≠ 0) ∧ ∀ s ∈ srcs, u.items.Pairwise (fun a b => s.1 a b ≠ .gt))
    (hd : ∀ u ∈ column col (t :: ts), ∀ a ∈ u.items, ∀ v ∈ column col (t :: ts), ∀ b ∈ v.items, a.iptr = b.iptr → ∀ views, dist a views = dist b views) :
    ∃ vs, fullVisits col (t :: ts) = some vs ∧
      ∀ out, SortedBy (cmpSortItem cmpF zero nKeys true) ((fullRun (srcs.map (fun s => OEnt.start s.1 [s.2])) vs).map (toSort dist)) out →
        ((emit ⟨0, 0⟩ out).map (·.iptr)).Nodup ∧
        (∀ tid, tid ∈ (emit ⟨0, 0⟩ out).map (·.iptr) ↔ ∃ u ∈ column col (t :: ts), ∃ it ∈ u.items, it.iptr = tid) ∧
        (∀ r ∈ emit ⟨0, 0⟩ out, ∃ u ∈ column col (t :: ts), ∃ it ∈ u.items, it.iptr = r.iptr ∧
          r.data = dist it (srcs.map (fun s => held s.2 it.iptr))) ∧
        (emit ⟨0, 0⟩ out).Pairwise (fun a b => ¬ Nearer cmpF nKeys b a) := by
  obtain ⟨vs, h1, h2⟩ := run_full col t ts srcs hcol hg (fun u hu => ⟨(hl u hu).1, (hl u hu).2.2⟩)
  refine ⟨vs, h1, fun out hout => ?_⟩
  have hc : column col (t :: ts) = t :: column col ts := by simp [column, hcol]
  have hmem : ∀ x, x ∈ (fullRun (srcs.map (fun s => OEnt.start s.1 [s.2])) vs).map (toSort dist) ↔
      ∃ u ∈ column col (t :: ts), ∃ it ∈ u.items, x = ⟨it.iptr, false, dist it (srcs.map (fun s => held s.2 it.iptr))⟩ := by
    intro x
    rw [h2]
    constructor
    · intro hx
      obtain ⟨p, hp, rfl⟩ := List.mem_map.1 hx
      obtain ⟨u, hu, hp⟩ := List.mem_flatMap.1 hp
      obtain ⟨z, hz, rfl⟩ := List.mem_map.1 hp
      refine ⟨u, ?_, z, hz, rfl⟩
      rcases List.mem_cons.1 hu with rfl | hu
      · rw [hc]; simp
      · exact hu
    · rintro ⟨u, hu, it, hit, rfl⟩
      exact List.mem_map.2 ⟨_, List.mem_flatMap.2 ⟨u, List.mem_cons_of_mem _ hu, List.mem_map.2 ⟨it, hit, rfl⟩⟩, rfl⟩
  obtain ⟨a1, a2, a3⟩ := C36_all_rows cmpF zero nKeys true ⟨0, 0⟩ _ out hout (by
    intro x hx
    obtain ⟨u, hu, it, hit, rfl⟩ := (hmem x).1 hx
    intro h
    exact (hl u hu).2.1 it hit (congrArg Iptr.off h))
  refine ⟨?_, ?_, ?_, a3⟩
  · apply C36_each_row_once cmpF zero nKeys ⟨0, 0⟩ _ out hout
    intro x hx y hy hxy
    obtain ⟨u, hu, a, ha, rfl⟩ := (hmem x).1 hx
    obtain ⟨v, hv, b, hb, rfl⟩ := (hmem y).1 hy
    have hab : a.iptr = b.iptr := hxy
    simp only [SameDist, hab, hd u hu a ha v hv b hb hab]
    intros
    exact ReflCmp.compare_self (cmp := cmpF)
  · intro tid
    constructor
    · intro h
      obtain ⟨r, hr, rfl⟩ := List.mem_map.1 h
      obtain ⟨u, hu, it, hit, rfl⟩ := (hmem r).1 (a2 r hr)
      exact ⟨u, hu, it, hit, rfl⟩
    · rintro ⟨u, hu, it, hit, rfl⟩
      obtain ⟨y, hy, hye⟩ := a1 _ ((hmem _).2 ⟨u, hu, it, hit, rfl⟩)
      exact List.mem_map.2 ⟨y, hy, hye⟩
  · intro r hr
    obtain ⟨u, hu, it, hit, rfl⟩ := (hmem r).1 (a2 r hr)
    exact ⟨u, hu, it, hit, rfl, rfl⟩
end

/-! ### Examples and violations -/

/-- Additional information of the example: positions as numbers. -/
def it (o : Nat) (v : Nat) : Item Nat := ⟨⟨1, o⟩, some v⟩

/-- Items in the order of the row pointers (a column without attached order). -/
def byTid : Item Nat → Item Nat → Ordering := cmpItem false compare

/-- The example distance: what the single ORDER BY entry holds, 1000 if it has nothing for the row. -/
def exDist (_ : Item Nat) (views : List (Option (Option Nat))) (_ : Nat) : Nat := match views with
  | [some (some v)] => v
  | _ => 1000

/-- Two keys of the first column, rows 1, 2, 3; a tuple of the second column follows. -/
def exTups : List (Tup Nat) := [⟨1, false, [it 1 10, it 2 10]⟩, ⟨1, true, [it 2 20, it 3 20]⟩, ⟨2, false, [it 4 0]⟩]

/-- The rows with their first distance, as rumgettuple returns them for a sort that keeps the arrival order of ties. -/
def answer (vs : List (Bool × Item Nat)) (es : List (OEnt Nat)) : List (Nat × Nat) :=
  (emit ⟨0, 0⟩ (((fullRun es vs).map (toSort exDist)).foldr (fun x l =>
    (l.takeWhile (fun y => cmpSortItem compare 0 1 true x y == .gt)) ++ x :: l.dropWhile (fun y => cmpSortItem compare 0 1 true x y == .gt)) [])).map
    (fun r => (r.iptr.off, r.data 0))

/-- The hypotheses of `C47_full_scan_partial` hold for the example with an ORDER BY entry that holds rows 1 and 3. -/
theorem C47_witness :
    (∀ s ∈ [((byTid, [it 1 7, it 3 5]) : Src Nat)], GoodEntry s.1 s.2 ((column 1 exTups).flatMap (·.items))) ∧
    (∀ u ∈ column 1 exTups, u.items ≠ [] ∧ (∀ it ∈ u.items, it.iptr.off ≠ 0) ∧
      ∀ s ∈ [((byTid, [it 1 7, it 3 5]) : Src Nat)], u.items.Pairwise (fun a b => s.1 a b ≠ .gt)) ∧
    (fullVisits 1 exTups).map (fun vs => answer vs [OEnt.start byTid [[it 1 7, it 3 5]]]) = some [(3, 5), (1, 7), (2, 1000)] := by
  refine ⟨?_, by decide, by decide⟩
  intro s hs
  obtain rfl : s = (byTid, [it 1 7, it 3 5]) := by simpa using hs
  exact ⟨cmpItem_trans false compare, by decide, by decide, by decide, by decide⟩

/-- **C47 fails after VACUUM.** One entry of the column has lost all its rows (VACUUM keeps the empty entry): the scan reads the first
element of a list that was never allocated (`/repo/src/rumget.c:1109-1130`, `1162`). -/
theorem C47_vacuumed_violated : fullVisits 1 [⟨1, false, [it 1 10]⟩, ⟨1, false, []⟩, ⟨1, false, [it 2 10]⟩] = none := by decide

/-- **C47 fails after VACUUM, first entry.** If the column's first entry has lost all its rows, nothing is returned, although the column has rows. -/
theorem C47_first_empty_violated :
    fullVisits 1 [⟨1, false, []⟩, ⟨1, false, [it 1 10]⟩] = some [] ∧
    ∃ u ∈ column 1 [(⟨1, false, []⟩ : Tup Nat), ⟨1, false, [it 1 10]⟩], it 1 10 ∈ u.items := by decide

/-- **C47 fails for ORDER BY entries in posting trees.** The ORDER BY entry's rows are on two pages: with the second list of the column the entry is
only moved back to the start of the page it has reached. Row 1 of the second list gets distance 1000 instead of 7, and is returned twice. -/
theorem C47_tree_violated :
    (fullVisits 1 [⟨1, false, [it 1 10, it 3 10]⟩, ⟨1, false, [it 1 20]⟩]).map
      (fun vs => answer vs [OEnt.start byTid [[it 1 7, it 2 8], [it 3 50]]]) = some [(1, 7), (3, 50), (1, 1000)] := by decide

/-- The same rows with the ORDER BY entry on one page. -/
theorem C47_tree_control :
    (fullVisits 1 [⟨1, false, [it 1 10, it 3 10]⟩, ⟨1, false, [it 1 20]⟩]).map
      (fun vs => answer vs [OEnt.start byTid [[it 1 7, it 2 8, it 3 50]]]) = some [(1, 7), (3, 50)] := by decide

/-- **C47 fails in natural order** (`ORDER BY attached <=| 5` on an index built with order_by_attach, without WHERE): rows are returned as the lists
deliver them, those of the first entry twice, and not by distance. -/
theorem C47_natural_violated :
    (fullPass (cmpItem true compare) false ⟨⟨0, 0⟩, some 5⟩ 1
      [(⟨1, false, [it 1 1, it 2 4]⟩ : Tup Nat), ⟨1, false, [it 3 2, it 4 3]⟩]).map (fun i => (i.iptr.off, i.info)) =
      [(2, some 4), (1, some 1), (2, some 4), (1, some 1), (4, some 3), (3, some 2)] := by decide

end Rum.Props.FullScan

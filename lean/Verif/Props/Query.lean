import Verif.QueryLemmas
import Verif.Props.IndexVacuum
import Verif.Props.FastScan
/-!
# C50: a query through the index returns exactly the matching rows of the table

The whole way: rows put into the index by CREATE INDEX and INSERT and removed by VACUUM, the pages of the index read byte by byte, the scan over all
entries of all conditions.
-/
namespace Rum.Props.Query
open Rum Rum.Codec Rum.Leaf Rum.Entry Rum.Tree Rum.Index Rum.Extract Rum.Props Rum.Props.PostingTree Rum.Props.Index Rum.Props.IndexVacuum Rum.Props.Bulk
  Rum.Props.ScanRegular Rum.Scan Std

variable {V : Type}

/-! ### Specification -/

/-- What the consistency function of a condition is to be told about a row: for each key of the condition whether the row's column contains it, and
if so the additional info that goes with it. -/
def View (ix : Ix V) (rc : RowCfg V) (r : Row V) (c : Cond V) (v : List (Option (Option Datum))) : Prop :=
  List.Forall₂ (fun k o => match o with
    | none => ¬ Contains (ix.cmpK c.attnum) (r.value c.attnum) ⟨c.attnum, .norm, k⟩
    | some i => Contains (ix.cmpK c.attnum) (r.value c.attnum) ⟨c.attnum, .norm, k⟩ ∧
        InfoOf rc (ix.cmpK c.attnum) r ⟨c.attnum, .norm, k⟩ i) c.keys v

/-- The row contains one of the keys, and the consistency function says yes. -/
def Accepted (c : Cond V) (v : List (Option (Option Datum))) : Prop := (∃ o ∈ v, o.isSome = true) ∧ (c.cons v).1 = true

/-- The right answer to a query over a table with rows `rs`: the scan ends; rows come out in order, each once; a row is returned exactly if it is in
the table and all conditions accept it; it is to be rechecked exactly if one of the conditions asks for it. -/
structure Answer (cmp : Item Datum → Item Datum → Ordering) (view : Row V → Cond V → List (Option (Option Datum))) (rs : List (Row V)) (conds : List (Cond V))
    (out : List (Item Datum × Bool) × Bool) : Prop where
  ends : out.2 = true
  sorted : (out.1.map Prod.fst).Pairwise (fun a b => cmp a b = .lt)
  once : (out.1.map (fun p => p.1.iptr)).Nodup
  rows : ∀ tid, (∃ p ∈ out.1, p.1.iptr = tid) ↔ ∃ r ∈ rs, r.tid = tid ∧ ∀ c ∈ conds, Accepted c (view r c)
  recheck : ∀ p ∈ out.1, ∀ r ∈ rs, r.tid = p.1.iptr → (p.2 = true ↔ ∃ c ∈ conds, (c.cons (view r c)).2 = true)

/-- The index options: `alternative` is order_by_attach, and the item order of the column the attached column is added to depends on it. -/
def OptionsOK (ix : Ix V) (rc : RowCfg V) (alternative : Bool) : Prop :=
  ∀ a, (ix.ctx a).cfg.alt = alternative ∧ (ix.ctx a).isAddTo = decide (rc.addTo = some a)

/-- All conditions are on columns ordered alike. -/
def OneKind (rc : RowCfg V) (alternative : Bool) (conds : List (Cond V)) : Prop :=
  alternative = false ∨ (∀ c ∈ conds, rc.addTo = some c.attnum) ∨ ∀ c ∈ conds, rc.addTo ≠ some c.attnum

/-- The columns exist. -/
def ColumnsOK (rc : RowCfg V) (conds : List (Cond V)) : Prop := ∀ c ∈ conds, 1 ≤ c.attnum ∧ c.attnum ≤ rc.natts

/-- The posting trees of the conditions' keys have something on their leftmost page, or (`vacuumed = false`) there was no VACUUM. -/
def FirstPages (ix : Ix V) [Inhabited V] (vacuumed : Bool) (st : State V) (conds : List (Cond V)) : Prop :=
  ∀ c ∈ conds, ∀ k ∈ c.keys, ∀ t, ix.treeOf st ⟨c.attnum, .norm, k⟩ = some t → firstLeaf (st.trees t) ≠ [] ∨ vacuumed = false

/-- Number of keys of all conditions. -/
def keyCount (conds : List (Cond V)) : Nat := (conds.map (fun c => c.keys.length)).sum

/-- The pre-consistency function of a condition never rejects what the consistency function accepts. -/
def PreOK (c : Cond V) : Prop :=
  ∀ vals, c.pre vals = false → ∀ v : List (Option (Option Datum)), List.Forall₂ (fun a b => a.isSome = true → b = true) v vals → (c.cons v).1 = false

/-! ### Proof apparatus -/

/-- What the scan finds for a row. -/
def viewOf (ix : Ix V) [Inhabited V] (st : State V) (r : Row V) (c : Cond V) : List (Option (Option Datum)) :=
  c.keys.map (fun k => ((ix.rowsOf st ⟨c.attnum, .norm, k⟩).find? (fun x => x.iptr == r.tid)).map (·.info))

/-- The scan key of a condition. -/
def specOf (ix : Ix V) [Inhabited V] (rc : RowCfg V) (st : State V) (c : Cond V) : Fast.FSpec Datum :=
  ⟨⟨false, decide (rc.addTo = some c.attnum), c.cons, c.keys.map (fun k => ix.rowsOf st ⟨c.attnum, .norm, k⟩)⟩, c.attnum, c.pre⟩

section
variable {ix : Ix V} [Inhabited V] {rc : RowCfg V} {M : Lim} {st : State V} {rs : List (Row V)}

theorem view_ok (htid : (rs.map Row.tid).Nodup) (hI : Indexes ix rc st rs) {r : Row V} (hr : r ∈ rs) {c : Cond V} (h1 : 1 ≤ c.attnum) (h2 : c.attnum ≤ rc.natts) :
    View ix rc r c (viewOf ix st r c) := by
  unfold View viewOf
  rw [List.forall₂_map_right_iff]
  refine List.forall₂_same.2 (fun k _ => ?_)
  obtain ⟨-, -, i3, i4⟩ := hI ⟨c.attnum, .norm, k⟩ h1 h2
  cases hf : (ix.rowsOf st ⟨c.attnum, .norm, k⟩).find? (fun x => x.iptr == r.tid) with
  | none =>
    simp only [Option.map_none]
    intro hcon
    obtain ⟨y, hy, he⟩ := List.mem_map.1 ((i3 r.tid).2 ⟨r, hr, rfl, hcon⟩)
    have := List.find?_eq_none.1 hf y hy
    simp [he] at this
  | some y =>
    simp only [Option.map_some]
    have hy := List.mem_of_find?_eq_some hf
    have he : y.iptr = r.tid := by have := List.find?_some hf; simpa using this
    obtain ⟨q, hq, q1, q2⟩ := i4 y hy
    obtain rfl := List.inj_on_of_nodup_map htid hq hr (q1.trans he)
    obtain ⟨q', hq', q1', q2'⟩ := (i3 y.iptr).1 (List.mem_map_of_mem hy)
    obtain rfl := List.inj_on_of_nodup_map htid hq' hr (q1'.trans he)
    exact ⟨q2', q2⟩

theorem rowsOf_length (hI : Indexes ix rc st rs) {k : AttKey V} (h1 : 1 ≤ k.attnum) (h2 : k.attnum ≤ rc.natts) : (ix.rowsOf st k).length ≤ rs.length := by
  obtain ⟨-, i2, i3, -⟩ := hI k h1 h2
  have hsub : (ix.rowsOf st k).map Item.iptr ⊆ rs.map Row.tid := by
    intro t ht
    obtain ⟨r, hr, rfl, -⟩ := (i3 t).1 ht
    exact List.mem_map_of_mem hr
  have := (List.subperm_of_subset i2 hsub).length_le
  simpa using this

theorem readKeys_ok (hc : ColsOK ix M) (H : IInv True ix M st) (hI : Indexes ix rc st rs) {a : Nat} (h1 : 1 ≤ a) (h2 : a ≤ rc.natts) {junk : Item Datum} {n : Nat}
    (hn : rs.length < n) : ∀ ks : List V, (∀ k ∈ ks, ∀ t, ix.treeOf st ⟨a, .norm, k⟩ = some t → firstLeaf (st.trees t) ≠ [] ∨ M.single = false) →
    ix.readKeys st junk n a ks = some (ks.map (fun k => ix.rowsOf st ⟨a, .norm, k⟩)) := by
  intro ks
  induction ks with
  | nil => intro _; rfl
  | cons k ks ih =>
    intro hf
    have hr := readEntry_ok (junk := junk) (n := n) hc H ⟨a, .norm, k⟩ (hf k (by simp)) (by have := rowsOf_length hI (k := ⟨a, .norm, k⟩) h1 h2; omega)
    simp only [Ix.readKeys, hr, ih (fun q hq => hf q (List.mem_cons_of_mem _ hq)), List.map_cons]

theorem scanKeys_ok (hc : ColsOK ix M) (H : IInv True ix M st) (hI : Indexes ix rc st rs) {junk : Item Datum} {n : Nat} (hn : rs.length < n) :
    ∀ conds : List (Cond V), ColumnsOK rc conds → FirstPages ix M.single st conds → ix.scanKeys rc st junk n conds = some (conds.map (specOf ix rc st)) := by
  intro conds
  induction conds with
  | nil => intro _ _; rfl
  | cons c cs ih =>
    intro h hf
    obtain ⟨h1, h2⟩ := h c (by simp)
    simp only [Ix.scanKeys, readKeys_ok (junk := junk) hc H hI h1 h2 hn c.keys (hf c (by simp)),
      ih (fun d hd => h d (List.mem_cons_of_mem _ hd)) (fun d hd => hf d (List.mem_cons_of_mem _ hd)), List.map_cons, specOf]

theorem held_eq (r : Row V) (c : Cond V) : (specOf ix rc st c).spec.held r.tid = viewOf ix st r c := by
  simp [KeySpec.held, specOf, viewOf, List.map_map, Function.comp_def]

theorem holds_iff (r : Row V) (c : Cond V) : (specOf ix rc st c).spec.Holds r.tid ↔ ∃ o ∈ viewOf ix st r c, o.isSome = true := by
  simp only [KeySpec.Holds, specOf, viewOf, List.mem_map, exists_exists_and_eq_and, Option.isSome_map, List.find?_isSome, beq_iff_eq]

theorem holds_row (hI : Indexes ix rc st rs) {c : Cond V} (h1 : 1 ≤ c.attnum) (h2 : c.attnum ≤ rc.natts) {tid : Iptr} (h : (specOf ix rc st c).spec.Holds tid) :
    ∃ r ∈ rs, r.tid = tid := by
  obtain ⟨s, hs, x, hx, rfl⟩ := h
  obtain ⟨k, -, rfl⟩ := List.mem_map.1 hs
  obtain ⟨r, hr, he, -⟩ := ((hI ⟨c.attnum, .norm, k⟩ h1 h2).2.2.1 x.iptr).1 (List.mem_map_of_mem hx)
  exact ⟨r, hr, he⟩

theorem accepts_iff (r : Row V) (c : Cond V) : (specOf ix rc st c).spec.Accepts r.tid ↔ Accepted c (viewOf ix st r c) := by
  unfold KeySpec.Accepts Accepted
  rw [holds_iff, held_eq]; rfl

omit [Inhabited V] in
/-- Columns of one kind compare items alike. -/
theorem cmp_kind {alternative : Bool} (ho : OptionsOK ix rc alternative) {conds : List (Cond V)} (hk : OneKind rc alternative conds) {c d : Cond V} (hc : c ∈ conds)
    (hd : d ∈ conds) : (ix.ctx c.attnum).cmp = (ix.ctx d.attnum).cmp := by
  obtain ⟨c1, c2⟩ := ho c.attnum
  obtain ⟨d1, d2⟩ := ho d.attnum
  rcases hk with rfl | h | h
  · funext a b; simp [Ctx.cmp, c1, d1, cmpItem]
  · have : c.attnum = d.attnum := by have := (h c hc).symm.trans (h d hd); simpa using this
    rw [this]
  · funext a b; simp [Ctx.cmp, c2, d2, h c hc, h d hd, cmpItem]

theorem answer_of {alternative : Bool} (hc : ColsOK ix M) (L : Life ix rc M st rs) (hI : Indexes ix rc st rs) (ho : OptionsOK ix rc alternative) (c : Cond V)
    (cs : List (Cond V)) (hcol : ColumnsOK rc (c :: cs)) (hkind : OneKind rc alternative (c :: cs)) :
    (∀ k ∈ (c :: cs).map (fun c => (specOf ix rc st c).spec), ∀ s ∈ k.streams, SSorted (ix.ctx c.attnum).cmp s) ∧
    SaneAny ((ix.ctx c.attnum).cfg.alt && (ix.ctx c.attnum).isAddTo) ((c :: cs).map (fun c => (specOf ix rc st c).spec)) ∧
    ∀ out, Contract (ix.ctx c.attnum).cmp ((c :: cs).map (fun c => (specOf ix rc st c).spec)) out →
      Answer (ix.ctx c.attnum).cmp (viewOf ix st) rs (c :: cs) out := by
  have hstored : ∀ x, StoredAny ((c :: cs).map (fun c => (specOf ix rc st c).spec)) x →
      ∃ d ∈ c :: cs, ∃ k ∈ d.keys, x ∈ ix.rowsOf st ⟨d.attnum, .norm, k⟩ := by
    rintro x ⟨k, hk, s, hs, hx⟩
    obtain ⟨d, hd, rfl⟩ := List.mem_map.1 hk
    obtain ⟨k, hk, rfl⟩ := List.mem_map.1 hs
    exact ⟨d, hd, k, hk, hx⟩
  have hsane : SaneAny ((ix.ctx c.attnum).cfg.alt && (ix.ctx c.attnum).isAddTo) ((c :: cs).map (fun c => (specOf ix rc st c).spec)) := by
    intro x hx
    obtain ⟨d, hd, k, -, hx⟩ := hstored x hx
    refine ⟨by have := rowsOf_valid hc L.inv _ x hx; omega, fun halt y hy he => ?_⟩
    obtain ⟨e, he', k', -, hy⟩ := hstored y hy
    obtain ⟨o1, o2⟩ := ho c.attnum
    rw [o1, o2] at halt
    simp only [Bool.and_eq_true, decide_eq_true_eq] at halt
    obtain ⟨rfl, hadd⟩ := halt
    have hall : ∀ d ∈ c :: cs, rc.addTo = some d.attnum := by
      rcases hkind with h | h | h
      · cases h
      · exact h
      · exact absurd hadd (h c (by simp))
    obtain ⟨r, hr, r1, r2⟩ := (hI ⟨d.attnum, .norm, k⟩ (hcol d hd).1 (hcol d hd).2).2.2.2 x hx
    obtain ⟨q, hq, q1, q2⟩ := (hI ⟨e.attnum, .norm, k'⟩ (hcol e he').1 (hcol e he').2).2.2.2 y hy
    obtain rfl := List.inj_on_of_nodup_map L.tids hr hq (r1.trans (he.trans q1.symm))
    unfold InfoOf at r2 q2
    rw [if_pos (hall d hd)] at r2
    rw [if_pos (hall e he')] at q2
    rw [r2, q2]
  refine ⟨?_, hsane, fun out hO => ⟨hO.ends, hO.sorted, ?_, fun tid => ?_, fun p hp r hr he => ?_⟩⟩
  · intro k hk s hs
    obtain ⟨d, hd, rfl⟩ := List.mem_map.1 hk
    obtain ⟨k, -, rfl⟩ := List.mem_map.1 hs
    rw [cmp_kind ho hkind (c := c) (d := d) (by simp) hd]
    exact rowsOf_sorted hc L.inv ⟨d.attnum, .norm, k⟩
  · have h1 := hO.sorted
    rw [List.pairwise_map] at h1
    rw [List.Nodup, List.pairwise_map]
    refine h1.imp_of_mem (fun {a b} ha hb hab he => ?_)
    have htr := hc.infos c.attnum
    have htr' : TransCmp (ix.ctx c.attnum).cmp := cmpItem_trans _ _
    have heq : (ix.ctx c.attnum).cmp a.1 b.1 = .eq := by
      cases hal : ((ix.ctx c.attnum).cfg.alt && (ix.ctx c.attnum).isAddTo) with
      | false =>
        show cmpItem _ _ _ _ = _
        rw [hal]
        simp only [cmpItem, Bool.false_eq_true, if_false]
        rw [he]; exact ReflCmp.compare_self
      | true =>
        have hinf := (hsane a.1 (hO.stored a ha)).2 hal b.1 (hO.stored b hb) he
        have : a.1 = b.1 := by
          generalize a.1 = x at he hinf
          generalize b.1 = y at he hinf
          cases x; cases y; simp_all
        rw [this]; exact ReflCmp.compare_self (cmp := (ix.ctx c.attnum).cmp)
    rw [heq] at hab; cases hab
  · rw [hO.exact_ tid]
    constructor
    · intro hm
      obtain ⟨r, hr, rfl⟩ := holds_row hI (hcol c (by simp)).1 (hcol c (by simp)).2 (hm (specOf ix rc st c).spec (by simp) rfl).1
      refine ⟨r, hr, rfl, fun d hd => ?_⟩
      exact (accepts_iff r d).1 (hm (specOf ix rc st d).spec (List.mem_map_of_mem hd) rfl)
    · rintro ⟨r, hr, rfl, h⟩ k hk -
      obtain ⟨d, hd, rfl⟩ := List.mem_map.1 hk
      exact (accepts_iff r d).2 (h d hd)
  · rw [hO.recheck p hp, ← he]
    unfold NeedsRecheck KeySpec.asks
    constructor
    · rintro ⟨k, hk, -, h⟩
      obtain ⟨d, hd, rfl⟩ := List.mem_map.1 hk
      exact ⟨d, hd, by rw [held_eq] at h; exact h⟩
    · rintro ⟨d, hd, h⟩
      exact ⟨_, List.mem_map_of_mem hd, rfl, by rw [held_eq]; exact h⟩

theorem streams_length (hI : Indexes ix rc st rs) (conds : List (Cond V)) (hcol : ColumnsOK rc conds) :
    (conds.map (fun c => (specOf ix rc st c).spec.streams.flatten.length)).sum ≤ rs.length * keyCount conds := by
  induction conds with
  | nil => simp [keyCount]
  | cons c cs ih =>
    have h1 := ih (fun d hd => hcol d (List.mem_cons_of_mem _ hd))
    have h2 : (specOf ix rc st c).spec.streams.flatten.length ≤ rs.length * c.keys.length := by
      simp only [specOf]
      generalize c.keys = ks
      induction ks with
      | nil => simp
      | cons k ks ih =>
        have := rowsOf_length hI (k := ⟨c.attnum, .norm, k⟩) (hcol c (by simp)).1 (hcol c (by simp)).2
        simp only [List.map_cons, List.flatten_cons, List.length_append, List.length_cons, Nat.mul_add, Nat.mul_one]
        omega
    simp only [keyCount, List.map_cons, List.sum_cons, Nat.mul_add] at *
    omega

theorem Life.search {alternative : Bool} (hc : ColsOK ix M) (L : Life ix rc M st rs) (hI : Indexes ix rc st rs) (ho : OptionsOK ix rc alternative)
    (c : Cond V) (cs : List (Cond V)) (hcol : ColumnsOK rc (c :: cs)) (hkind : OneKind rc alternative (c :: cs)) (hfp : FirstPages ix M.single st (c :: cs))
    (junk : Item Datum) (n : Nat) (hn0 : rs.length * (keyCount (c :: cs) + 1) < n) :
    ∃ out, ix.search rc alternative st junk n c cs = some out ∧ Answer (ix.ctx c.attnum).cmp (viewOf ix st) rs (c :: cs) out := by
  obtain ⟨a1, a2, a3⟩ := answer_of hc L hI ho c cs hcol hkind
  rw [Nat.mul_add, Nat.mul_one] at hn0
  have hn1 : rs.length < n := by omega
  have hn : rs.length * keyCount (c :: cs) < n := by omega
  have htr := hc.infos c.attnum
  refine ⟨_, by unfold Ix.search; rw [scanKeys_ok hc L.inv hI hn1 _ hcol hfp]; rfl, a3 _ ?_⟩
  beta_reduce
  rw [List.map_map]
  have hcmp : (ix.ctx c.attnum).cmp = scanOrder ((ix.ctx c.attnum).cfg.alt && (ix.ctx c.attnum).isAddTo) false (ix.ctx c.attnum).cmpV := by
    funext a b; rfl
  have hspec : (fun k : Fast.FSpec Datum => k.spec) ∘ specOf ix rc st = fun c => (specOf ix rc st c).spec := rfl
  rw [hspec, hcmp]
  rw [hcmp] at a1
  refine C20_regular_scan alternative _ false _ _ _ n ?_ ⟨(specOf ix rc st c).spec, by simp, rfl⟩ (fun k hk _ => a1 k hk) (fun _ k hk _ => a1 k hk) ?_ ?_
  · rcases hkind with h | h | h
    · exact Or.inl h
    · refine Or.inr (Or.inl (fun k hk => ?_))
      obtain ⟨d, hd, rfl⟩ := List.mem_map.1 hk
      exact decide_eq_true (h d hd)
    · refine Or.inr (Or.inr (fun k hk => ?_))
      obtain ⟨d, hd, rfl⟩ := List.mem_map.1 hk
      exact decide_eq_false (h d hd)
  · rintro x ⟨k, hk, -, hx⟩
    obtain ⟨s1, s2⟩ := a2 x ⟨k, hk, hx⟩
    exact ⟨s1, fun h y ⟨k', hk', _, hy⟩ => s2 h y ⟨k', hk', hy⟩⟩
  · refine Nat.lt_of_le_of_lt ?_ hn
    refine Nat.le_trans (Nat.le_of_eq ?_) (streams_length hI (c :: cs) hcol)
    rw [List.filter_eq_self.2 (by intro k hk; obtain ⟨d, hd, rfl⟩ := List.mem_map.1 hk; rfl), List.map_map]
    rfl

theorem Life.searchFast {alternative : Bool} (hc : ColsOK ix M) (L : Life ix rc M st rs) (hI : Indexes ix rc st rs) (ho : OptionsOK ix rc alternative)
    (c : Cond V) (hcol : ColumnsOK rc [c]) (hfp : FirstPages ix M.single st [c]) (hpre : PreOK c) (hneeds : (c.cons (List.replicate c.keys.length none)).1 = false)
    (hkeys : c.keys ≠ []) (predict : Nat → Nat) (perm : List Nat) (junk : Item Datum) (n : Nat) (hn0 : rs.length * (c.keys.length + 1) < n)
    (hperm : ∀ ks, ix.scanKeys rc st junk n [c] = some ks → Fast.SortResult (Fast.mkEnv (fun _ => (ix.ctx c.attnum).cmp) predict ks) ks perm) :
    ∃ out, ix.searchFast rc st junk n c predict perm = some out ∧ Answer (ix.ctx c.attnum).cmp (viewOf ix st) rs [c] out := by
  have hkind : OneKind rc alternative [c] := by
    by_cases h : rc.addTo = some c.attnum
    · exact Or.inr (Or.inl (by simpa using h))
    · exact Or.inr (Or.inr (by simpa using h))
  obtain ⟨a1, a2, a3⟩ := answer_of hc L hI ho c [] hcol hkind
  rw [Nat.mul_add, Nat.mul_one] at hn0
  have hn1 : rs.length < n := by omega
  have htr := hc.infos c.attnum
  have hks := scanKeys_ok (junk := junk) hc L.inv hI hn1 [c] hcol hfp
  refine ⟨_, by unfold Ix.searchFast; rw [hks]; rfl, a3 _ ?_⟩
  have hcmp : (ix.ctx c.attnum).cmp = scanOrder ((ix.ctx c.attnum).cfg.alt && (ix.ctx c.attnum).isAddTo) false (ix.ctx c.attnum).cmpV := by
    funext a b; rfl
  have hp := hperm _ hks
  simp only [List.map_cons, List.map_nil] at hp a1 a2 ⊢
  rw [hcmp] at hp a1 ⊢
  refine FastScan.C21_fast_scan_partial _ false _ predict [specOf ix rc st c] (specOf ix rc st c) c.attnum perm n (by simp [specOf]) rfl hpre ?_ ?_ ?_ ?_ hp ?_
  · unfold FastScan.NeedsEntry
    simp only [specOf, List.length_map]
    exact hneeds
  · simpa [specOf] using hkeys
  · intro k hk s hs
    simp only [List.mem_singleton] at hk
    subst hk
    exact a1 _ (by simp) s hs
  · exact a2
  · have := streams_length hI [c] hcol
    simp only [List.map_cons, List.map_nil, List.sum_cons, List.sum_nil, Nat.add_zero, keyCount] at this
    simp only [Fast.allStreams, List.flatMap_cons, List.flatMap_nil, List.append_nil]
    omega

end

/-! ### Properties -/

/-- Everything a search needs to give the right answers in this state of index and table, by a regular scan with any conditions and by a fast scan
with one condition. -/
def Searches (ix : Ix V) [Inhabited V] (rc : RowCfg V) (alternative vacuumed : Bool) (st : State V) (rs : List (Row V)) : Prop :=
  ∃ view : Row V → Cond V → List (Option (Option Datum)),
    (∀ r ∈ rs, ∀ c, 1 ≤ c.attnum → c.attnum ≤ rc.natts → View ix rc r c (view r c)) ∧
    (∀ c cs, ColumnsOK rc (c :: cs) → OneKind rc alternative (c :: cs) → FirstPages ix vacuumed st (c :: cs) → ∀ junk n,
      rs.length * (keyCount (c :: cs) + 1) < n →
      ∃ out, ix.search rc alternative st junk n c cs = some out ∧ Answer (ix.ctx c.attnum).cmp view rs (c :: cs) out) ∧
    (∀ c, ColumnsOK rc [c] → FirstPages ix vacuumed st [c] → PreOK c → (c.cons (List.replicate c.keys.length none)).1 = false → c.keys ≠ [] →
      ∀ predict perm junk n, rs.length * (c.keys.length + 1) < n →
      (∀ ks, ix.scanKeys rc st junk n [c] = some ks → Fast.SortResult (Fast.mkEnv (fun _ => (ix.ctx c.attnum).cmp) predict ks) ks perm) →
      ∃ out, ix.searchFast rc st junk n c predict perm = some out ∧ Answer (ix.ctx c.attnum).cmp view rs [c] out)

theorem Life.searches {ix : Ix V} [Inhabited V] {rc : RowCfg V} {M : Lim} {st : State V} {rs : List (Row V)} {alternative : Bool} (hc : ColsOK ix M)
    (hs : ∀ a, SortOK (ix.cmpK a) (rc.sort a)) (hd : ∀ a, DupsSeen (ix.cmpK a) (rc.haveDups a)) (L : Life ix rc M st rs)
    (ho : OptionsOK ix rc alternative) : Searches ix rc alternative M.single st rs := by
  have hI := L.indexes hc hs hd
  refine ⟨viewOf ix st, fun r hr c h1 h2 => view_ok L.tids hI hr h1 h2, ?_, ?_⟩
  · intro c cs h1 h2 h3 junk n hn
    exact Life.search hc L hI ho c cs h1 h2 h3 junk n hn
  · intro c h1 h2 h3 h4 h5 predict perm junk n hn hp
    exact Life.searchFast hc L hI ho c h1 h2 h3 h4 h5 predict perm junk n hn hp

/-- **C50.** After CREATE INDEX on a table with any rows and any sequence of insertions and VACUUMs, a query with any number of conditions of any
operator class returns exactly the rows of the table that all conditions accept, each once, in order, with the right recheck flags; the
consistency functions are told the truth about every row. Missing: queries that mix conditions on the column ordered by an attached value with
others (`C20_mixed_scan_partial`), prefix search, several conditions in a fast scan (`C21_two_keys_violated`), and posting trees whose leftmost page
was emptied by VACUUM (`C23_forward_empty_first_violated`). -/
theorem C50_query_partial (ix : Ix V) [Inhabited V] (rc : RowCfg V) (alternative : Bool) (n : Nat) (hc : ColsOK ix ⟨n, true⟩) (hal : ∀ k, 8 ∣ ix.keySize k)
    (hs : ∀ a, SortOK (ix.cmpK a) (rc.sort a)) (hd : ∀ a, DupsSeen (ix.cmpK a) (rc.haveDups a)) (ho : OptionsOK ix rc alternative)
    (qsort : (Item Datum → Item Datum → Ordering) → List (Item Datum) → List (Item Datum)) (hq : Sorts qsort) (full : Nat → Bool)
    (rs : List (Row V)) (hok : ∀ r ∈ rs, RowOK ix rc ⟨n, false⟩ r) (hlen : ∀ r ∈ rs, ∀ a, (ix.colEntries rc a r).length < 2 ^ 31)
    (htid : (rs.map Row.tid).Nodup) (hord : alternative = true → rs.Pairwise (fun r q => cmpIptr r.tid q.tid = .lt))
    (evs : List (Event V)) (hev : Possible ix rc ⟨n, true⟩ rs evs) :
    ∃ st, runs ix rc (ix.buildIndex rc qsort full rs) evs = (st, true) ∧ Searches ix rc alternative true st (evs.foldl Event.rows rs) := by
  obtain ⟨st, h1, L⟩ := Life.build hc hs hd qsort hq full rs hok hlen htid (fun a ha => hord (by rw [← (ho a).1]; exact ha))
  obtain ⟨t, h2, L'⟩ := L.runs hc hal rfl hs hd evs _ _ hev
  exact ⟨t, by rw [h1]; exact h2, Life.searches hc hs hd L' ho⟩

/-- **C50, empty table.** The same for an index created on an empty table. -/
theorem C50_query_from_empty_partial (ix : Ix V) [Inhabited V] (rc : RowCfg V) (alternative : Bool) (n : Nat) (hc : ColsOK ix ⟨n, true⟩)
    (hal : ∀ k, 8 ∣ ix.keySize k) (hs : ∀ a, SortOK (ix.cmpK a) (rc.sort a)) (hd : ∀ a, DupsSeen (ix.cmpK a) (rc.haveDups a))
    (ho : OptionsOK ix rc alternative) (evs : List (Event V)) (hev : Possible ix rc ⟨n, true⟩ [] evs) :
    ∃ st, runs ix rc (emptyIndex, true) evs = (st, true) ∧ Searches ix rc alternative true st (evs.foldl Event.rows []) := by
  have L : Life ix rc ⟨n, true⟩ emptyIndex [] := ⟨inv_empty ix hc, by simp, fun k y => by rw [rowsOf_empty ix hc]; simp [EntryOf]⟩
  obtain ⟨t, h2, L'⟩ := L.runs hc hal rfl hs hd evs _ _ hev
  exact ⟨t, h2, Life.searches hc hs hd L' ho⟩

/-- What the index is like after CREATE INDEX and insertions. -/
theorem inserted {ix : Ix V} [Inhabited V] {rc : RowCfg V} {alternative : Bool} {M : Lim} (hn : M.single = false) (hc : ColsOK ix M)
    (hs : ∀ a, SortOK (ix.cmpK a) (rc.sort a)) (hd : ∀ a, DupsSeen (ix.cmpK a) (rc.haveDups a)) (ho : OptionsOK ix rc alternative)
    (qsort : (Item Datum → Item Datum → Ordering) → List (Item Datum) → List (Item Datum)) (hq : Sorts qsort) (full : Nat → Bool)
    (rs : List (Row V)) (hok : ∀ r ∈ rs, RowOK ix rc M r) (hlen : ∀ r ∈ rs, ∀ a, (ix.colEntries rc a r).length < 2 ^ 31)
    (hord : alternative = true → rs.Pairwise (fun r q => cmpIptr r.tid q.tid = .lt))
    (new : List (Row V)) (hnew : ∀ r ∈ new, RowOK ix rc M r) (htid : ((rs ++ new).map Row.tid).Nodup) :
    ∃ st t, ix.buildIndex rc qsort full rs = (st, true) ∧ ix.insertRows rc st new = (t, true) ∧ Life ix rc M t (rs ++ new) := by
  have htid0 : (rs.map Row.tid).Nodup := by
    rw [List.map_append] at htid
    exact (List.nodup_append.1 htid).1
  obtain ⟨st, h1, L⟩ := Life.build_tight hn hc hs hd qsort hq full rs hok hlen htid0 (fun a ha => hord (by rw [← (ho a).1]; exact ha))
  have key : ∀ (new done : List (Row V)) (st : State V), Life ix rc M st done → (∀ r ∈ new, RowOK ix rc M r) → ((done ++ new).map Row.tid).Nodup →
      ∃ t, ix.insertRows rc st new = (t, true) ∧ Life ix rc M t (done ++ new) := by
    intro new
    induction new with
    | nil => intro done st L _ _; exact ⟨st, rfl, by simpa using L⟩
    | cons r new ih =>
      intro done st L hr ht
      obtain ⟨t, t1, t2⟩ := L.insert hc hs hd (hr r (by simp)) (by
        intro q hq he
        rw [List.map_append, List.nodup_append] at ht
        exact ht.2.2 q.tid (List.mem_map_of_mem hq) r.tid (by simp) he)
      obtain ⟨u, u1, u2⟩ := ih (done ++ [r]) t t2 (fun q hq => hr q (List.mem_cons_of_mem _ hq)) (by simpa using ht)
      refine ⟨u, ?_, by simpa using u2⟩
      simp only [Ix.insertRows, t1, if_true]
      exact u1
  obtain ⟨t, t1, L'⟩ := key new rs st L hnew htid
  exact ⟨st, t, h1, t1, L'⟩

/-- **C50, without VACUUM.** After CREATE INDEX on a table with any rows and any sequence of insertions, queries give the right answers, whatever
the sizes of the posting lists and trees. Missing: as above, but for VACUUM; additional info that needs alignment padding (`hn`). -/
theorem C50_query_inserted_partial (ix : Ix V) [Inhabited V] (rc : RowCfg V) (alternative : Bool) (M : Lim) (hn : M.single = false) (hc : ColsOK ix M)
    (hs : ∀ a, SortOK (ix.cmpK a) (rc.sort a)) (hd : ∀ a, DupsSeen (ix.cmpK a) (rc.haveDups a)) (ho : OptionsOK ix rc alternative)
    (qsort : (Item Datum → Item Datum → Ordering) → List (Item Datum) → List (Item Datum)) (hq : Sorts qsort) (full : Nat → Bool)
    (rs : List (Row V)) (hok : ∀ r ∈ rs, RowOK ix rc M r) (hlen : ∀ r ∈ rs, ∀ a, (ix.colEntries rc a r).length < 2 ^ 31)
    (hord : alternative = true → rs.Pairwise (fun r q => cmpIptr r.tid q.tid = .lt))
    (new : List (Row V)) (hnew : ∀ r ∈ new, RowOK ix rc M r) (htid : ((rs ++ new).map Row.tid).Nodup) :
    ∃ st t, ix.buildIndex rc qsort full rs = (st, true) ∧ ix.insertRows rc st new = (t, true) ∧ Searches ix rc alternative false t (rs ++ new) := by
  obtain ⟨st, t, h1, t1, L'⟩ := inserted hn hc hs hd ho qsort hq full rs hok hlen hord new hnew htid
  have := Life.searches hc hs hd L' ho
  rw [hn] at this
  exact ⟨st, t, h1, t1, this⟩

end Rum.Props.Query

import Verif.Props.IndexVacConc
import Verif.Props.Query
/-!
# C66, C67: queries with any number of conditions while rows are inserted and VACUUM runs

The entries of all conditions are searched one item at a time or one page at a time by searches as in `Props/IndexConc.lean`; the scan of
`Verif/Scan.lean` puts together what they deliver.
-/
namespace Rum.Props.QueryConc
open Rum Rum.Codec Rum.Leaf Rum.Entry Rum.Tree Rum.Index Rum.Extract Rum.Props Rum.Props.PostingTree Rum.Props.Index Rum.Props.Bulk
  Rum.Props.IndexVacuum Rum.Props.Query Rum.Props.ScanRegular Rum.Scan Std
open Rum.Props.Conc (fresh fresh_sorted fresh_sub fresh_of_delivered)
open Rum.Props.IndexConc (calm IndexOver mem_entries entryOf_iff)

variable {V : Type}

/-! ### Specification -/

/-- The scan key of a condition whose entries deliver `ls`, rumFillScanKey `/repo/src/rumscan.c:137-319`. -/
def keyOf (rc : RowCfg V) (c : Cond V) (ls : List (List (Item Datum))) : KeySpec Datum := ⟨false, decide (rc.addTo = some c.attnum), c.cons, ls⟩

/-- The regular scan (`/repo/src/rumget.c:1571-1791`) over conditions whose entries deliver `lss`. -/
def result (ix : Ix V) (rc : RowCfg V) (alternative : Bool) (conds : List (Cond V)) (lss : List (List (List (Item Datum)))) (n : Nat) :
    List (Item Datum × Bool) × Bool :=
  regularScan ⟨(ix.ctx (conds.headD ⟨0, [], fun _ => (false, false), fun _ => true⟩).attnum).cmp, (ix.ctx (conds.headD ⟨0, [], fun _ => (false, false), fun _ => true⟩).attnum).cmp⟩
    alternative (List.zipWith (keyOf rc) conds lss) n

/-- The right answer for the rows a query has to care about (`stable`): the scan ends; rows come out in order, each once; such a row is returned exactly if
all conditions accept it, the consistency functions being told the truth about the row; it is to be rechecked exactly if one of the conditions asks
for it. -/
structure AnswerFor (ix : Ix V) (rc : RowCfg V) (cmp : Item Datum → Item Datum → Ordering) (stable : Row V → Prop) (conds : List (Cond V))
    (out : List (Item Datum × Bool) × Bool) : Prop where
  ends : out.2 = true
  sorted : (out.1.map Prod.fst).Pairwise (fun a b => cmp a b = .lt)
  once : (out.1.map (fun p => p.1.iptr)).Nodup
  rows : ∀ r, stable r → ∃ vs, List.Forall₂ (View ix rc r) conds vs ∧ ((∃ p ∈ out.1, p.1.iptr = r.tid) ↔ List.Forall₂ Accepted conds vs) ∧
    ∀ p ∈ out.1, p.1.iptr = r.tid → (p.2 = true ↔ ∃ q ∈ conds.zip vs, (q.1.cons q.2).2 = true)

/-! ### Proof apparatus -/

/-- What is known of the list of an entry. -/
structure StreamOK (ix : Ix V) (rc : RowCfg V) (stable : Row V → Prop) (a : Nat) (k : V) (s : List (Item Datum)) : Prop where
  sorted : SSorted (ix.ctx a).cmp s
  valid : ∀ y ∈ s, y.iptr.off ≠ 0
  all : ∀ r, stable r → Contains (ix.cmpK a) (r.value a) ⟨a, .norm, k⟩ → ∃ y ∈ s, y.iptr = r.tid
  only : ∀ r, stable r → ∀ y ∈ s, y.iptr = r.tid → Contains (ix.cmpK a) (r.value a) ⟨a, .norm, k⟩ ∧ InfoOf rc (ix.cmpK a) r ⟨a, .norm, k⟩ y.info

def StreamsOK (ix : Ix V) (rc : RowCfg V) (stable : Row V → Prop) (c : Cond V) (ls : List (List (Item Datum))) : Prop :=
  List.Forall₂ (StreamOK ix rc stable c.attnum) c.keys ls

/-- What the lists say of a row. -/
def seen (ls : List (List (Item Datum))) (r : Row V) : List (Option (Option Datum)) := ls.map (fun s => (s.find? (fun x => x.iptr == r.tid)).map (·.info))

section
variable {ix : Ix V} {rc : RowCfg V} {stable : Row V → Prop}

theorem seen_view {c : Cond V} {ls : List (List (Item Datum))} (h : StreamsOK ix rc stable c ls) {r : Row V} (hr : stable r) : View ix rc r c (seen ls r) := by
  unfold View seen
  rw [List.forall₂_map_right_iff]
  refine h.imp (fun k s H => ?_)
  cases hf : s.find? (fun x => x.iptr == r.tid) with
  | none =>
    simp only [Option.map_none]
    intro hcon
    obtain ⟨y, hy, he⟩ := H.all r hr hcon
    have := List.find?_eq_none.1 hf y hy
    simp [he] at this
  | some y =>
    simp only [Option.map_some]
    have he : y.iptr = r.tid := by have := List.find?_some hf; simpa using this
    exact H.only r hr y (List.mem_of_find?_eq_some hf) he

theorem mem_keys {conds : List (Cond V)} {lss : List (List (List (Item Datum)))} {k : KeySpec Datum} (h : k ∈ List.zipWith (keyOf rc) conds lss) :
    ∃ q ∈ conds.zip lss, k = keyOf rc q.1 q.2 := by
  rw [← List.map_uncurry_zip_eq_zipWith] at h
  obtain ⟨q, hq, rfl⟩ := List.mem_map.1 h
  exact ⟨q, hq, rfl⟩

theorem keys_mem {conds : List (Cond V)} {lss : List (List (List (Item Datum)))} {q : Cond V × List (List (Item Datum))} (h : q ∈ conds.zip lss) :
    keyOf rc q.1 q.2 ∈ List.zipWith (keyOf rc) conds lss := by
  rw [← List.map_uncurry_zip_eq_zipWith]
  exact List.mem_map.2 ⟨q, h, rfl⟩

theorem forall2_zip {α β : Type} {R : α → β → Prop} {as : List α} {bs : List β} (h : List.Forall₂ R as bs) : ∀ q ∈ as.zip bs, R q.1 q.2 := by
  induction h with
  | nil => intro q hq; cases hq
  | cons h1 _ ih =>
    intro q hq
    rcases List.mem_cons.1 hq with rfl | hq
    · exact h1
    · exact ih q hq

theorem forall2_of_zip {α β : Type} {R : α → β → Prop} {as : List α} {bs : List β} (hl : as.length = bs.length) (h : ∀ q ∈ as.zip bs, R q.1 q.2) :
    List.Forall₂ R as bs := by
  induction as generalizing bs with
  | nil => cases bs with
    | nil => exact .nil
    | cons _ _ => simp at hl
  | cons a as ih => cases bs with
    | nil => simp at hl
    | cons b bs => exact .cons (h (a, b) (by simp)) (ih (by simpa using hl) (fun q hq => h q (by simp [hq])))

/-- The scan over lists that are right for the stable rows. -/
theorem combine {alternative : Bool} (ho : OptionsOK ix rc alternative) (htrans : ∀ a, TransCmp (ix.ctx a).cmpV) (c : Cond V) (cs : List (Cond V))
    (lss : List (List (List (Item Datum)))) (H : List.Forall₂ (StreamsOK ix rc stable) (c :: cs) lss) (hkind : OneKind rc alternative (c :: cs))
    (hsame : alternative = true → (∀ d ∈ c :: cs, rc.addTo = some d.attnum) →
      ∀ x, (∃ ls ∈ lss, ∃ s ∈ ls, x ∈ s) → ∀ y, (∃ ls ∈ lss, ∃ s ∈ ls, y ∈ s) → x.iptr = y.iptr → x.info = y.info)
    (n : Nat) (hn : (lss.map (fun ls => ls.flatten.length)).sum < n) :
    AnswerFor ix rc (ix.ctx c.attnum).cmp stable (c :: cs) (result ix rc alternative (c :: cs) lss n) ∧
    ∀ p ∈ (result ix rc alternative (c :: cs) lss n).1, ∃ ls ∈ lss, ∃ s ∈ ls, p.1 ∈ s := by
  have htr := htrans c.attnum
  have hlen := H.length_eq
  have Hz := forall2_zip H
  set keys := List.zipWith (keyOf rc) (c :: cs) lss with hkeys
  have hmem : ∀ q ∈ (c :: cs).zip lss, q.1 ∈ c :: cs ∧ q.2 ∈ lss := fun q hq => ⟨(List.of_mem_zip hq).1, (List.of_mem_zip hq).2⟩
  have hsorted : ∀ k ∈ keys, ∀ s ∈ k.streams, SSorted (ix.ctx c.attnum).cmp s := by
    intro k hk s hs
    obtain ⟨q, hq, rfl⟩ := mem_keys hk
    rw [cmp_kind ho hkind (c := c) (d := q.1) (by simp) (hmem q hq).1]
    obtain ⟨i, hi, rfl⟩ := List.getElem_of_mem hs
    have F := Hz q hq
    have hl := F.length_eq
    exact (F.get (i := i) (by simpa using (hl ▸ hi : i < q.1.keys.length)) hi).sorted
  have hvalid : ∀ x, StoredAny keys x → x.iptr.off ≠ 0 := by
    rintro x ⟨k, hk, s, hs, hx⟩
    obtain ⟨q, hq, rfl⟩ := mem_keys hk
    obtain ⟨i, hi, rfl⟩ := List.getElem_of_mem hs
    have F := Hz q hq
    have hl := F.length_eq
    exact (F.get (i := i) (by simpa using (hl ▸ hi : i < q.1.keys.length)) hi).valid x hx
  have hst : ∀ x, StoredAny keys x → ∃ ls ∈ lss, ∃ s ∈ ls, x ∈ s := by
    rintro x ⟨k, hk, s, hs, hx⟩
    obtain ⟨q, hq, rfl⟩ := mem_keys hk
    exact ⟨q.2, (hmem q hq).2, s, hs, hx⟩
  have hsane : SaneAny ((ix.ctx c.attnum).cfg.alt && (ix.ctx c.attnum).isAddTo) keys := by
    intro x hx
    refine ⟨hvalid x hx, fun halt y hy he => ?_⟩
    obtain ⟨o1, o2⟩ := ho c.attnum
    rw [o1, o2] at halt
    simp only [Bool.and_eq_true, decide_eq_true_eq] at halt
    refine hsame halt.1 ?_ x (hst x hx) y (hst y hy) he
    rcases hkind with h | h | h
    · rw [h] at halt; exact absurd halt.1 (by simp)
    · exact h
    · exact absurd halt.2 (h c (by simp))
  have hO : Contract (ix.ctx c.attnum).cmp keys (result ix rc alternative (c :: cs) lss n) := by
    have hcmp : (ix.ctx c.attnum).cmp = scanOrder ((ix.ctx c.attnum).cfg.alt && (ix.ctx c.attnum).isAddTo) false (ix.ctx c.attnum).cmpV := by
      funext a b; rfl
    unfold result
    simp only [List.headD_cons]
    rw [← hkeys, hcmp]
    rw [hcmp] at hsorted
    have hfil : ∀ k ∈ keys, k.orderBy = false := by
      intro k hk
      obtain ⟨q, -, rfl⟩ := mem_keys hk
      rfl
    refine C20_regular_scan alternative _ false _ _ _ n ?_ ?_ (fun k hk _ => hsorted k hk) (fun _ k hk _ => hsorted k hk) ?_ ?_
    · rcases hkind with h | h | h
      · exact Or.inl h
      · refine Or.inr (Or.inl (fun k hk => ?_))
        obtain ⟨q, hq, rfl⟩ := mem_keys hk
        exact decide_eq_true (h q.1 (hmem q hq).1)
      · refine Or.inr (Or.inr (fun k hk => ?_))
        obtain ⟨q, hq, rfl⟩ := mem_keys hk
        exact decide_eq_false (h q.1 (hmem q hq).1)
    · cases lss with
      | nil => simp at hlen
      | cons l ls => exact ⟨keyOf rc c l, by simp [hkeys], rfl⟩
    · rintro x ⟨k, hk, -, hx⟩
      obtain ⟨s1, s2⟩ := hsane x ⟨k, hk, hx⟩
      exact ⟨s1, fun h y ⟨k', hk', _, hy⟩ => s2 h y ⟨k', hk', hy⟩⟩
    · rw [List.filter_eq_self.2 (fun k hk => by rw [hfil k hk]; rfl)]
      refine Nat.lt_of_le_of_lt (Nat.le_of_eq ?_) hn
      rw [hkeys]
      clear * - hlen
      generalize c :: cs = ds at hlen
      induction ds generalizing lss with
      | nil => cases lss with
        | nil => rfl
        | cons _ _ => simp at hlen
      | cons d ds ih => cases lss with
        | nil => simp at hlen
        | cons l ls =>
          simp only [List.zipWith_cons_cons, List.map_cons, List.sum_cons, keyOf]
          rw [← ih ls (by simpa using hlen)]
  refine ⟨⟨hO.ends, hO.sorted, ?_, fun r hr => ⟨lss.map (fun ls => seen ls r), ?_, ?_, fun p hp he => ?_⟩⟩, fun p hp => hst p.1 (hO.stored p hp)⟩
  · have h1 := hO.sorted
    rw [List.pairwise_map] at h1
    rw [List.Nodup, List.pairwise_map]
    refine h1.imp_of_mem (fun {a b} ha hb hab he => ?_)
    have htr' : TransCmp (ix.ctx c.attnum).cmp := cmpItem_trans _ _
    have heq : (ix.ctx c.attnum).cmp a.1 b.1 = .eq := by
      cases hal : ((ix.ctx c.attnum).cfg.alt && (ix.ctx c.attnum).isAddTo) with
      | false =>
        show cmpItem _ _ _ _ = _
        rw [hal]
        simp only [cmpItem, Bool.false_eq_true, if_false]
        rw [he]; exact ReflCmp.compare_self
      | true =>
        have hinf := (hsane a.1 (hO.stored a ha)).2 hal b.1 (hO.stored b hb) he
        have : a.1 = b.1 := by
          generalize a.1 = x at he hinf
          generalize b.1 = y at he hinf
          cases x; cases y; simp_all
        rw [this]; exact ReflCmp.compare_self (cmp := (ix.ctx c.attnum).cmp)
    rw [heq] at hab; cases hab
  · rw [List.forall₂_map_right_iff]
    exact H.imp (fun d ls h => seen_view h hr)
  · rw [hO.exact_ r.tid, List.forall₂_map_right_iff]
    have key : ∀ q : Cond V × List (List (Item Datum)), (keyOf rc q.1 q.2).Accepts r.tid ↔ Accepted q.1 (seen q.2 r) := by
      intro q
      unfold KeySpec.Accepts Accepted
      refine and_congr ?_ Iff.rfl
      simp only [KeySpec.Holds, keyOf, seen, List.mem_map, exists_exists_and_eq_and, Option.isSome_map, List.find?_isSome, beq_iff_eq]
    constructor
    · intro hm
      exact forall2_of_zip hlen (fun q hq => (key q).1 (hm _ (keys_mem hq) rfl))
    · intro hf k hk _
      obtain ⟨q, hq, rfl⟩ := mem_keys hk
      exact (key q).2 (forall2_zip hf q hq)
  · rw [hO.recheck p hp, he]
    unfold NeedsRecheck KeySpec.asks
    constructor
    · rintro ⟨k, hk, -, h⟩
      obtain ⟨q, hq, rfl⟩ := mem_keys hk
      refine ⟨(q.1, seen q.2 r), ?_, h⟩
      rw [List.zip_map_right]
      exact List.mem_map.2 ⟨q, hq, rfl⟩
    · rintro ⟨q, hq, h⟩
      rw [List.zip_map_right] at hq
      obtain ⟨q', hq', rfl⟩ := List.mem_map.1 hq
      exact ⟨_, keys_mem hq', rfl, h⟩
end

/-! ### Insertions only -/

section
variable (ix : Ix V) [Inhabited V] (rc : RowCfg V) (M : Lim)

/-- In the course of the events `es` some backend searched for the key and came to the end; `s` is what its consumer got (items not above the last one are
dropped, `/repo/src/rumget.c:1441-1464`). -/
def ReadOnce (n1 : Net V) (es : List (IndexConc.Event V)) (n3 : Net V) (k : AttKey V) (s : List (Item Datum)) : Prop :=
  ∃ j c a b m1 m2 R, es = a ++ .read j k c :: b ∧ IndexConc.Run ix rc M n1 a m1 ∧ IndexConc.Fires ix rc M (.read j k c) m1 m2 ∧ IndexConc.Run ix rc M m2 b n3 ∧
    (∀ e ∈ b, e.leaves j = true) ∧ n3.job j = .answer k c R ∧ s = fresh (ix.ctx k.attnum).cmp R
end

section
variable {ix : Ix V} [Inhabited V] {rc : RowCfg V} {M : Lim}

theorem run_append {n n' n'' : Net V} {es es' : List (IndexConc.Event V)} (h : IndexConc.Run ix rc M n es n') (h' : IndexConc.Run ix rc M n' es' n'') :
    IndexConc.Run ix rc M n (es ++ es') n'' := by
  induction h' with
  | refl => rw [List.append_nil]; exact h
  | snoc _ hf ih => rw [← List.append_assoc]; exact .snoc ih hf

theorem begun_ok {n n' : Net V} {es : List (IndexConc.Event V)} (h : IndexConc.Run ix rc M n es n') : ∀ r ∈ IndexConc.begun es, RowOK ix rc M r := by
  induction h with
  | refl => intro r hr; cases hr
  | @snoc n2 n3 es e _ hf ih =>
    intro r hr
    rw [IndexConc.begun_append] at hr
    rcases List.mem_append.1 hr with hr | hr
    · exact ih r hr
    · cases e with
      | insert i q =>
        rw [show r = q by simpa [IndexConc.begun] using hr]
        exact hf.2.1
      | _ => cases hr

theorem finished_mono {st : State V} {es es' : List (IndexConc.Event V)} {r : Row V} (h : IndexConc.Finished ix rc M st es r) :
    IndexConc.Finished ix rc M st (es ++ es') r := by
  obtain ⟨i, e1, e2, e3, n, rfl, h⟩ := h
  exact ⟨i, e1, e2, e3 ++ es', n, by simp, h⟩

theorem finished_begun {st : State V} {es : List (IndexConc.Event V)} {r : Row V} (h : IndexConc.Finished ix rc M st es r) : r ∈ IndexConc.begun es := by
  obtain ⟨i, e1, e2, e3, n, rfl, h⟩ := h
  simp [IndexConc.begun_append, IndexConc.begun]

/-- Rows with a key have valid row pointers. -/
theorem tid_valid (hc : ColsOK ix M) (hs : ∀ a, SortOK (ix.cmpK a) (rc.sort a)) (hd : ∀ a, DupsSeen (ix.cmpK a) (rc.haveDups a)) {st : State V}
    {rs new : List (Row V)} (L : Life ix rc M st rs) (hnew : ∀ r ∈ new, RowOK ix rc M r) {k : AttKey V} (hk1 : 1 ≤ k.attnum) (hk2 : k.attnum ≤ rc.natts) {r : Row V}
    (hr : r ∈ rs ++ new) (hcon : Contains (ix.cmpK k.attnum) (r.value k.attnum) k) : r.tid.off ≠ 0 := by
  obtain ⟨o, ho, hsm⟩ := (colEntries_key (rc := rc) hc (hs k.attnum) (hd k.attnum) r (k := k) rfl).1.2 hcon
  rcases List.mem_append.1 hr with hr | hr
  · have := rowsOf_valid hc L.inv k _ ((L.rows k _).2 ⟨⟨hk1, hk2⟩, r, hr, o, ho, hsm, rfl⟩)
    simp only at this
    omega
  · have := (hnew r hr k.attnum hk1 hk2 o ho).2.2.valid
    simp only at this
    omega

/-- What a search of the entry of a key delivers is right for the rows whose insertion had ended. -/
theorem read_ok (hs : ∀ a, SortOK (ix.cmpK a) (rc.sort a)) (hd : ∀ a, DupsSeen (ix.cmpK a) (rc.haveDups a)) {st : State V} {rs : List (Row V)}
    (h0 : IndexOver ix rc M st rs) {es1 es2 : List (IndexConc.Event V)} {n1 n3 : Net V} (h1 : IndexConc.Run ix rc M (calm st) es1 n1)
    (htid : ((rs ++ IndexConc.begun (es1 ++ es2)).map Row.tid).Nodup) {k : V} {a : Nat} (hk1 : 1 ≤ a) (hk2 : a ≤ rc.natts) {s : List (Item Datum)}
    (h : ReadOnce ix rc M n1 es2 n3 ⟨a, .norm, k⟩ s) :
    StreamOK ix rc (fun r => r ∈ rs ∨ IndexConc.Finished ix rc M st es1 r) a k s ∧
    ∀ y ∈ s, ∃ r ∈ rs ++ IndexConc.begun (es1 ++ es2), r.tid = y.iptr ∧ InfoOf rc (ix.cmpK a) r ⟨a, .norm, k⟩ y.info := by
  obtain ⟨hc, L⟩ := h0.life hs hd
  obtain ⟨j, c, e1, e2, m1, m2, R, rfl, r1, r2, r3, r4, r5, rfl⟩ := h
  have R1 := run_append h1 r1
  obtain ⟨g1, -, g3, g4⟩ := IndexConc.C63_search ix rc M hs hd st rs h0 _ _ m1 m2 n3 j ⟨a, .norm, k⟩ c R hk1 hk2 R1 r2 r3 r4 r5
  have hbeg : rs ++ IndexConc.begun (es1 ++ e1) ++ IndexConc.begun e2 = rs ++ IndexConc.begun (es1 ++ (e1 ++ .read j ⟨a, .norm, k⟩ c :: e2)) := by
    simp [IndexConc.begun_append, IndexConc.begun]
  have hnew : ∀ r ∈ IndexConc.begun (es1 ++ (e1 ++ .read j ⟨a, .norm, k⟩ c :: e2)), RowOK ix rc M r := by
    intro r hr
    have := begun_ok (run_append (run_append R1 (.snoc (.refl _) r2)) r3) r
    simp only [List.append_assoc, List.nil_append, List.cons_append] at this
    exact this hr
  rw [hbeg] at g4
  refine ⟨⟨g1, fun y hy => ?_, fun r hr hcon => ?_, fun r hr y hy he => ?_⟩, fun y hy => ?_⟩
  · obtain ⟨r, hr, q1, q2, q3⟩ := g4 y hy
    rw [← q1]
    exact tid_valid hc hs hd L hnew (k := ⟨a, .norm, k⟩) hk1 hk2 hr q2
  · exact g3 r (hr.imp id finished_mono) hcon
  · obtain ⟨q, hq, q1, q2, q3⟩ := g4 y hy
    have hr' : r ∈ rs ++ IndexConc.begun (es1 ++ (e1 ++ .read j ⟨a, .norm, k⟩ c :: e2)) := by
      rw [IndexConc.begun_append, ← List.append_assoc]
      refine List.mem_append_left _ (hr.elim (List.mem_append_left _) (fun h => List.mem_append_right _ (finished_begun h)))
    obtain rfl := List.inj_on_of_nodup_map htid hq hr' (q1.trans he)
    exact ⟨q2, q3⟩
  · obtain ⟨r, hr, q1, q2, q3⟩ := g4 y hy
    exact ⟨r, hr, q1, q3⟩

theorem forall2_mem {α β : Type} {R : α → β → Prop} {as : List α} {bs : List β} (h : List.Forall₂ R as bs) : ∀ b ∈ bs, ∃ a ∈ as, R a b := by
  induction h with
  | nil => intro b hb; cases hb
  | cons h1 _ ih =>
    intro b hb
    rcases List.mem_cons.1 hb with rfl | hb
    · exact ⟨_, by simp, h1⟩
    · obtain ⟨a, ha, h⟩ := ih b hb
      exact ⟨a, by simp [ha], h⟩

theorem forall2_imp_mem {α β : Type} {R S : α → β → Prop} {as : List α} {bs : List β} (h : List.Forall₂ R as bs) (hi : ∀ a ∈ as, ∀ b, R a b → S a b) :
    List.Forall₂ S as bs := by
  induction h with
  | nil => exact .nil
  | cons h1 _ ih => exact .cons (hi _ (by simp) _ h1) (ih (fun a ha => hi a (by simp [ha])))
end

section
variable (ix : Ix V) [Inhabited V] (rc : RowCfg V) (M : Lim) (alternative : Bool) (hs : ∀ a, SortOK (ix.cmpK a) (rc.sort a))
  (hd : ∀ a, DupsSeen (ix.cmpK a) (rc.haveDups a)) (ho : OptionsOK ix rc alternative)
include hs hd ho

/-- **C66.** An index over rows `rs`; any insertions and searches have happened (`es1`), some are under way; a query begins: it searches the entries of all
its conditions, at moments of its own, while insertions and other searches go on (`es2`), and puts together what they deliver. For every row whose
insertion had ended when the query began (every row its snapshot can see) the answer is exact: the row is returned if and only if all conditions accept it,
their consistency functions being told the truth about the row. Rows come out in order, each once, and no row pointer comes out but of rows whose
insertion had begun. -/
theorem C66_query (st : State V) (rs : List (Row V)) (h0 : IndexOver ix rc M st rs) (es1 es2 : List (IndexConc.Event V)) (n1 n3 : Net V)
    (h1 : IndexConc.Run ix rc M (calm st) es1 n1) (htid : ((rs ++ IndexConc.begun (es1 ++ es2)).map Row.tid).Nodup) (c : Cond V) (cs : List (Cond V))
    (hcol : ColumnsOK rc (c :: cs)) (hkind : OneKind rc alternative (c :: cs)) (lss : List (List (List (Item Datum))))
    (hr : List.Forall₂ (fun (d : Cond V) ls => List.Forall₂ (fun k s => ReadOnce ix rc M n1 es2 n3 ⟨d.attnum, .norm, k⟩ s) d.keys ls) (c :: cs) lss)
    (n : Nat) (hn : (lss.map (fun ls => ls.flatten.length)).sum < n) :
    AnswerFor ix rc (ix.ctx c.attnum).cmp (fun r => r ∈ rs ∨ IndexConc.Finished ix rc M st es1 r) (c :: cs) (result ix rc alternative (c :: cs) lss n) ∧
    ∀ p ∈ (result ix rc alternative (c :: cs) lss n).1, ∃ r ∈ rs ++ IndexConc.begun (es1 ++ es2), r.tid = p.1.iptr := by
  obtain ⟨hc, L⟩ := h0.life hs hd
  have hfrom : ∀ ls ∈ lss, ∀ s ∈ ls, ∀ y ∈ s, ∃ d ∈ c :: cs, ∃ k, ∃ r ∈ rs ++ IndexConc.begun (es1 ++ es2), r.tid = y.iptr ∧
      InfoOf rc (ix.cmpK d.attnum) r ⟨d.attnum, .norm, k⟩ y.info := by
    intro ls hls s hs' y hy
    obtain ⟨d, hdm, F⟩ := forall2_mem hr ls hls
    obtain ⟨k, -, hk⟩ := forall2_mem F s hs'
    obtain ⟨r, q1, q2, q3⟩ := (read_ok hs hd h0 h1 htid (hcol d hdm).1 (hcol d hdm).2 hk).2 y hy
    exact ⟨d, hdm, k, r, q1, q2, q3⟩
  obtain ⟨A, B⟩ := combine (stable := fun r => r ∈ rs ∨ IndexConc.Finished ix rc M st es1 r) ho hc.infos c cs lss
    (forall2_imp_mem hr (fun d hdm ls F => F.imp (fun k s h => (read_ok hs hd h0 h1 htid (hcol d hdm).1 (hcol d hdm).2 h).1))) hkind
    (by
      rintro - hall x ⟨ls, a1, s, a2, a3⟩ y ⟨ls', b1, s', b2, b3⟩ he
      obtain ⟨d, hdm, k, r, q1, q2, q3⟩ := hfrom ls a1 s a2 x a3
      obtain ⟨d', hdm', k', r', q1', q2', q3'⟩ := hfrom ls' b1 s' b2 y b3
      obtain rfl := List.inj_on_of_nodup_map htid q1 q1' (q2.trans (he.trans q2'.symm))
      unfold InfoOf at q3 q3'
      rw [if_pos (hall d hdm)] at q3
      rw [if_pos (hall d' hdm')] at q3'
      rw [q3, q3']) n hn
  refine ⟨A, fun p hp => ?_⟩
  obtain ⟨ls, a1, s, a2, a3⟩ := B p hp
  obtain ⟨-, -, -, r, q1, q2, -⟩ := hfrom ls a1 s a2 p.1 a3
  exact ⟨r, q1, q2⟩
end

/-! ### With VACUUM -/

section
open IndexVacConc
variable (ix : Ix V) [Inhabited V] (rc : RowCfg V) (M : Lim)

/-- In the course of the events `es` some backend searched for the key item by item and came to the end; `s` is what its consumer got. It got something,
or there was nothing to be got (`visible`: the rows the query has to care about). -/
def ReadOnceV (visible : Row V → Prop) (n1 : VNet V) (es : List (IndexVacConc.Event V)) (n3 : VNet V) (k : AttKey V) (s : List (Item Datum)) : Prop :=
  ∃ j a b m1 m2 R, es = a ++ .read j k true :: b ∧ Run ix rc M n1 a m1 ∧ Fires ix rc M (.read j k true) m1 m2 ∧ Run ix rc M m2 b n3 ∧
    (∀ e ∈ b, e.leaves j = true) ∧ n3.net.job j = .answer k true R ∧
    (R ≠ [] ∨ ∀ r, visible r → ¬ Contains (ix.cmpK k.attnum) (r.value k.attnum) k) ∧ s = fresh (ix.ctx k.attnum).cmp R

/-- A row pointer is used for one row of the table at a time. -/
def OneRowEach (rs : List (Row V)) (es : List (IndexVacConc.Event V)) : Prop := ∀ a b, es = a ++ b → ((after rs a).map Row.tid).Nodup

/-- The row is in the table when the query begins, its insertion has ended, and no VACUUM that begins before the query has ended is told that it is dead. -/
def Visible (rs : List (Row V)) (es1 es2 : List (IndexVacConc.Event V)) (n1 : VNet V) (r : Row V) : Prop :=
  r ∈ after rs es1 ∧ ¬ BeingInserted n1.net r ∧ ∀ dead, .vacuum dead ∈ es2 → dead r.tid = false
end

/-- Insertions have not got more to do. -/
def Less (n n' : Net V) : Prop := ∀ j l', n'.job j = .insert l' → ∃ l, n.job j = .insert l ∧ ∀ op ∈ l', op ∈ l

section
variable {n n' n'' : Net V}
theorem Less.refl (n : Net V) : Less n n := fun _ l' h => ⟨l', h, fun _ h => h⟩
theorem Less.trans (h : Less n n') (h' : Less n' n'') : Less n n'' := fun j l' hl => by
  obtain ⟨l, h1, h2⟩ := h' j l' hl
  obtain ⟨m, h3, h4⟩ := h j l h1
  exact ⟨m, h3, fun op ho => h4 op (h2 op ho)⟩
theorem Less.of_job (h : n'.job = n.job) : Less n n' := fun j l' hl => ⟨l', by rw [← h]; exact hl, fun _ h => h⟩
theorem less_setJ (i : Nat) (b : Job V) (hb : ∀ l, b ≠ .insert l) : Less n (n.setJ i b) := by
  intro j l' hl
  simp only [Net.setJ] at hl
  split at hl
  · exact absurd hl (hb l')
  · exact ⟨l', hl, fun _ h => h⟩
theorem less_quit (i : Nat) (b : Job V) (hb : ∀ l, b ≠ .insert l) : Less n (n.quit i b) := by
  intro j l' hl
  simp only [Net.quit, Net.setJ, Net.setE] at hl
  split at hl
  · exact absurd hl (hb l')
  · exact ⟨l', hl, fun _ h => h⟩
theorem less_next (i : Nat) (l : List (AttKey V × Item Datum)) (h : ∃ l0, n.job i = .insert l0 ∧ ∀ op ∈ l, op ∈ l0) : Less n (n.next i l) := by
  unfold Net.next
  split
  · exact (Less.of_job rfl).trans (less_setJ i _ (by simp))
  · intro j l' hl
    simp only [Net.setJ, Net.setE] at hl
    split at hl
    · next hji =>
      subst hji
      cases hl
      exact h
    · exact ⟨l', hl, fun _ h => h⟩
theorem less_goOn (i : Nat) : Less n (n.goOn i) := by
  unfold Net.goOn
  split
  · next x l h => exact less_next i l ⟨_, h, fun op ho => List.mem_cons_of_mem _ ho⟩
  · exact Less.refl n
theorem less_fail (i : Nat) : Less n (n.fail i) := less_quit i _ (by simp)
theorem less_settleE (i : Nat) : Less n (n.settleE i) := by
  unfold Net.settleE
  split
  · exact less_goOn i
  · exact less_fail i
  · exact Less.refl n
theorem less_settleT (t i : Nat) : Less n (n.settleT t i) := by
  unfold Net.settleT
  split
  · exact (Less.of_job rfl).trans (less_goOn i)
  · exact less_fail i
  · split
    · exact (Less.of_job rfl).trans (less_setJ i _ (by simp))
    · exact Less.refl n
  · split
    · exact (Less.of_job rfl).trans (less_setJ i _ (by simp))
    · exact Less.refl n
  · exact Less.refl n
end

section
variable {ix : Ix V} [Inhabited V] {rc : RowCfg V} {M : Lim}

theorem less_putAt (n : Net V) (i b : Nat) (up : List (Nat × Nat)) (r : List (State V) × Option (Index.Ent V)) : Less n (ix.putAt n i b up r) := by
  unfold Ix.putAt
  split
  · exact (Less.of_job (n' := { n with st := lastState n.st r.1 }) rfl).trans (less_fail i)
  · exact (Less.of_job rfl).trans (less_settleE i)

theorem less_visitEntry (n : Net V) (i : Nat) : Less n (ix.visitEntry n i) := by
  have go : ∀ (st : State V) (a : Thread (Index.Ent V)), Less n ((({ n with st := st } : Net V).setE i a).settleE i) :=
    fun st a => (Less.of_job rfl).trans (less_settleE i)
  unfold Ix.visitEntry
  simp only
  split
  · split
    · split
      · unfold Ix.leafInsert
        simp only
        split
        · split
          · split
            · exact Less.of_job rfl
            · exact less_putAt n i _ _ _
          · exact less_fail i
        · exact less_putAt n i _ _ _
      · exact go _ _
    · split
      · unfold Ix.leafRead
        simp only
        split
        · split
          · split
            · exact Less.of_job rfl
            · exact (Less.of_job rfl).trans (less_setJ i _ (by simp))
          · exact (Less.of_job rfl).trans (less_setJ i _ (by simp))
        · exact (Less.of_job rfl).trans (less_setJ i _ (by simp))
      · exact go _ _
    · exact go _ _
  · exact go _ _

omit [Inhabited V] in
theorem less_visitTree (n : Net V) (t i : Nat) : Less n (ix.visitTree n t i) := by
  unfold Ix.visitTree
  exact (Less.of_job rfl).trans (less_settleT t i)
end

section
open IndexVacConc
variable {ix : Ix V} [Inhabited V] {rc : RowCfg V} {M : Lim}

theorem inserted_stays {y z : VNet V} {e : IndexVacConc.Event V} (h : Fires ix rc M e y z) {r : Row V} (hn : ¬ BeingInserted y.net r) (hne : ∀ q ∈ begun [e], q.tid ≠ r.tid) :
    ¬ BeingInserted z.net r := by
  have key : ∀ n : Net V, Less y.net n → ¬ BeingInserted n r := by
    rintro n hl ⟨i, l, h1, op, ho, he⟩
    obtain ⟨l0, h2, h3⟩ := hl i l h1
    exact hn ⟨i, l0, h2, op, h3 op ho, he⟩
  cases e with
  | entry i => obtain ⟨-, -, rfl⟩ := h; exact key _ (less_visitEntry _ _)
  | tree t i => obtain ⟨-, -, -, rfl⟩ := h; exact key _ (less_visitTree _ _ _)
  | insert i q =>
    obtain ⟨-, -, -, rfl⟩ := h
    rintro ⟨j, l, h1, op, ho, he⟩
    by_cases hji : j = i
    · subst hji
      have : l = ix.entries rc q := by
        simp only [Net.next] at h1
        split at h1 <;> simp [Net.setJ, Net.setE] at h1
        · exact h1.symm.trans (by simp [*])
      subst this
      exact hne q (by simp [begun]) ((entries_tid ho).symm.trans he)
    · have := (IndexConc.next_other hji y.net (ix.entries rc q)).2.2
      simp only at h1
      rw [this] at h1
      exact hn ⟨j, l, h1, op, ho, he⟩
  | read i k c => obtain ⟨-, rfl⟩ := h; exact key _ ((Less.of_job rfl).trans (less_setJ i _ (by simp)))
  | stop i => obtain ⟨-, rfl⟩ := h; exact key _ (less_quit i _ (by simp))
  | vacuum dead => obtain ⟨-, -, rfl⟩ := h; exact hn
  | step => obtain ⟨_, _, _, _, -, -, -, rfl⟩ := h; exact key _ (Less.of_job rfl)

theorem run_appendV {n n' n'' : VNet V} {es es' : List (IndexVacConc.Event V)} (h : Run ix rc M n es n') (h' : Run ix rc M n' es' n'') :
    Run ix rc M n (es ++ es') n'' := by
  induction h' with
  | refl => rw [List.append_nil]; exact h
  | snoc _ hf ih => rw [← List.append_assoc]; exact .snoc ih hf

theorem begun_okV {n n' : VNet V} {es : List (IndexVacConc.Event V)} (h : Run ix rc M n es n') : ∀ r ∈ begun es, RowOK ix rc M r := by
  induction h with
  | refl => intro r hr; cases hr
  | @snoc n2 n3 es e _ hf ih =>
    intro r hr
    rw [begun_append] at hr
    rcases List.mem_append.1 hr with hr | hr
    · exact ih r hr
    · cases e with
      | insert i q =>
        rw [show r = q by simpa [begun] using hr]
        exact hf.2.1
      | _ => cases hr

omit [Inhabited V] in
/-- A row that no VACUUM is told is dead stays in the table. -/
theorem after_keeps {rs : List (Row V)} {es : List (IndexVacConc.Event V)} {r : Row V} (hr : r ∈ rs) (h : ∀ dead, .vacuum dead ∈ es → dead r.tid = false) :
    r ∈ after rs es := by
  induction es generalizing rs with
  | nil => exact hr
  | cons e es ih =>
    have h' : ∀ dead, .vacuum dead ∈ es → dead r.tid = false := fun d hd => h d (List.mem_cons_of_mem _ hd)
    cases e with
    | insert i q => exact ih (List.mem_append_left _ hr) h'
    | vacuum dead => exact ih (List.mem_filter.2 ⟨hr, by simp [h dead (by simp)]⟩) h'
    | _ => exact ih hr h'

omit [Inhabited V] in
/-- Its row pointer is not used for another row. -/
theorem no_reuse {rs : List (Row V)} {es1 es2 : List (IndexVacConc.Event V)} (H : OneRowEach rs (es1 ++ es2)) {r : Row V} (hr : r ∈ after rs es1)
    (h : ∀ dead, .vacuum dead ∈ es2 → dead r.tid = false) : ∀ q ∈ begun es2, q.tid ≠ r.tid := by
  intro q hq he
  have : ∃ a b i, es2 = a ++ .insert i q :: b := by
    clear H hr h
    induction es2 with
    | nil => cases hq
    | cons e es ih =>
      by_cases hqe : q ∈ begun es
      · obtain ⟨a, b, i, rfl⟩ := ih hqe
        exact ⟨e :: a, b, i, rfl⟩
      · cases e with
        | insert i x =>
          simp only [begun, List.mem_cons] at hq
          rcases hq with rfl | hq
          · exact ⟨[], es, i, rfl⟩
          · exact absurd hq hqe
        | _ => exact absurd hq hqe
  obtain ⟨a, b, i, rfl⟩ := this
  have h1 := H (es1 ++ a ++ [.insert i q]) b (by simp)
  rw [List.append_assoc, after_append, after_append] at h1
  simp only [after, List.map_append, List.map_cons, List.map_nil] at h1
  have h2 : r ∈ after (after rs es1) a := after_keeps hr (fun d hd => h d (List.mem_append_left _ hd))
  exact List.disjoint_of_nodup_append h1 (List.mem_map_of_mem h2) (by simp [he])

/-- No running VACUUM was told that a row of the table is dead. -/
theorem not_removed {y z : VNet V} {rs : List (Row V)} {es : List (IndexVacConc.Event V)} (h0 : ∀ r ∈ rs, ¬ BeingRemoved y r) (h : Run ix rc M y es z) :
    ∀ r ∈ after rs es, ¬ BeingRemoved z r := by
  induction h with
  | refl => exact h0
  | @snoc n2 n3 es e _ hf ih =>
    intro r hr ⟨w, hw, hdead⟩
    rw [after_append] at hr
    cases e with
    | entry i => obtain ⟨-, -, rfl⟩ := hf; exact ih r hr ⟨w, hw, hdead⟩
    | tree t i => obtain ⟨-, -, -, rfl⟩ := hf; exact ih r hr ⟨w, hw, hdead⟩
    | insert i q =>
      obtain ⟨-, -, h3, rfl⟩ := hf
      simp only [after, List.mem_append, List.mem_singleton] at hr
      rcases hr with hr | rfl
      · exact ih r hr ⟨w, hw, hdead⟩
      · exact h3 ⟨w, hw, hdead⟩
    | read i k c => obtain ⟨-, rfl⟩ := hf; exact ih r hr ⟨w, hw, hdead⟩
    | stop i => obtain ⟨-, rfl⟩ := hf; exact ih r hr ⟨w, hw, hdead⟩
    | vacuum dead =>
      obtain ⟨-, -, rfl⟩ := hf
      cases hw
      simp only [after, List.mem_filter] at hr
      simp only at hdead
      rw [hdead] at hr
      simp at hr
    | step =>
      obtain ⟨dead, p, st, q, h1, -, -, rfl⟩ := hf
      cases q with
      | none => cases hw
      | some q =>
        cases hw
        exact ih r hr ⟨_, h1, hdead⟩

theorem inserted_stays_run {y z : VNet V} {es : List (IndexVacConc.Event V)} (h : Run ix rc M y es z) {r : Row V} (hn : ¬ BeingInserted y.net r)
    (hne : ∀ q ∈ begun es, q.tid ≠ r.tid) : ¬ BeingInserted z.net r := by
  induction h with
  | refl => exact hn
  | snoc _ hf ih =>
    rw [begun_append] at hne
    exact inserted_stays hf (ih (fun q hq => hne q (List.mem_append_left _ hq))) (fun q hq => hne q (List.mem_append_right _ hq))

/-- What a search of the entry of a key delivers is right for the visible rows. -/
theorem read_okV (hbd : ix.build = false) (hal : ∀ k, 8 ∣ ix.keySize k) (hM : M.single = true) (hs : ∀ a, SortOK (ix.cmpK a) (rc.sort a))
    (hd : ∀ a, DupsSeen (ix.cmpK a) (rc.haveDups a)) {st : State V} {rs : List (Row V)} (h0 : Over ix rc M st rs) {es1 es2 : List (IndexVacConc.Event V)}
    {n1 n3 : VNet V} (h1 : Run ix rc M ⟨calm st, none⟩ es1 n1) (hone : OneRowEach rs (es1 ++ es2)) {k : V} {a : Nat} (hk1 : 1 ≤ a) (hk2 : a ≤ rc.natts)
    {s : List (Item Datum)} (h : ReadOnceV ix rc M (Visible rs es1 es2 n1) n1 es2 n3 ⟨a, .norm, k⟩ s) :
    StreamOK ix rc (Visible rs es1 es2 n1) a k s ∧
    ∀ y ∈ s, ∃ r ∈ rs ++ begun (es1 ++ es2), r.tid = y.iptr ∧ InfoOf rc (ix.cmpK a) r ⟨a, .norm, k⟩ y.info := by
  obtain ⟨hc, L⟩ := h0.life hbd hal hM hs hd
  obtain ⟨j, e1, e2, m1, m2, R, rfl, r1, r2, r3, r4, r5, r6, rfl⟩ := h
  have R1 := run_appendV h1 r1
  obtain ⟨g1, g3, g4⟩ := C65_search_partial ix rc M hbd hal hM hs hd st rs h0 _ _ m1 m2 n3 j ⟨a, .norm, k⟩ R hk1 hk2 R1 r2 r3 r4 r5
  have hbeg : rs ++ begun (es1 ++ e1) ++ begun e2 = rs ++ begun (es1 ++ (e1 ++ .read j ⟨a, .norm, k⟩ true :: e2)) := by
    simp [begun_append, begun]
  have hnew : ∀ r ∈ begun (es1 ++ (e1 ++ .read j ⟨a, .norm, k⟩ true :: e2)), RowOK ix rc M r := by
    intro r hr
    have := begun_okV (run_appendV (run_appendV R1 (.snoc (.refl _) r2)) r3) r
    simp only [List.append_assoc, List.nil_append, List.cons_append] at this
    exact this hr
  rw [hbeg] at g4
  have hin : ∀ r, Visible rs es1 (e1 ++ .read j ⟨a, .norm, k⟩ true :: e2) n1 r → r ∈ after rs (es1 ++ e1) := by
    intro r hr
    rw [after_append]
    exact after_keeps hr.1 (fun d hd => hr.2.2 d (List.mem_append_left _ hd))
  refine ⟨⟨g1, fun y hy => ?_, fun r hr hcon => ?_, fun r hr y hy he => ?_⟩, fun y hy => ?_⟩
  · obtain ⟨r, hr, q1, q2, q3, -⟩ := g4 y (fresh_sub _ _ y hy)
    rw [← q1]
    exact tid_valid hc hs hd L hnew (k := ⟨a, .norm, k⟩) hk1 hk2 hr q2
  · have hno := no_reuse hone hr.1 hr.2.2
    refine g3 (r6.resolve_right (fun h => h r hr hcon)) r (hin r hr) ?_ hcon (fun d hd => hr.2.2 d (by simp [hd]))
    exact inserted_stays_run r1 hr.2.1 (fun q hq => hno q (by rw [begun_append]; exact List.mem_append_left _ hq))
  · obtain ⟨q, hq, q1, q2, q3, q4⟩ := g4 y (fresh_sub _ _ y hy)
    have hqr : q = r := by
      rcases q4 with h | h | ⟨w, hw, hdead⟩
      · have := hone (es1 ++ e1) _ (by rw [List.append_assoc])
        exact List.inj_on_of_nodup_map this h (hin r hr) (q1.trans he)
      · exact absurd (q1.trans he) (no_reuse hone hr.1 hr.2.2 q (by rw [begun_append]; exact List.mem_append_right _ h))
      · refine absurd ⟨w, hw, ?_⟩ (not_removed (y := ⟨calm st, none⟩) (rs := rs) (fun r _ ⟨w, h, _⟩ => by cases h) R1 r (hin r hr))
        rw [← he, ← q1]
        exact hdead
    subst hqr
    exact ⟨q2, q3⟩
  · obtain ⟨r, hr, q1, q2, q3, -⟩ := g4 y (fresh_sub _ _ y hy)
    exact ⟨r, hr, q1, q3⟩
end

section
open IndexVacConc
variable (ix : Ix V) [Inhabited V] (rc : RowCfg V) (M : Lim) (alternative : Bool) (hbd : ix.build = false) (hal : ∀ k, 8 ∣ ix.keySize k)
  (hM : M.single = true) (hs : ∀ a, SortOK (ix.cmpK a) (rc.sort a)) (hd : ∀ a, DupsSeen (ix.cmpK a) (rc.haveDups a)) (ho : OptionsOK ix rc alternative)
include hbd hal hM hs hd ho

/-- **C67, partial.** The same while VACUUM runs too: for every row that is in the table when the query begins, whose insertion has ended and which no VACUUM
is told is dead before the query has ended (every row the snapshot of the query sees), the answer is exact. Rows that VACUUM removes meanwhile and rows
that come meanwhile, even at the same place in the table, do no harm. Missing: searches that deliver nothing although a visible row
has the key (`VacConc.C62_violated`); with items ordered
by an attached value, row pointers used again in the course of the history. -/
theorem C67_query_partial (st : State V) (rs : List (Row V)) (h0 : Over ix rc M st rs) (es1 es2 : List (IndexVacConc.Event V)) (n1 n3 : VNet V)
    (h1 : Run ix rc M ⟨calm st, none⟩ es1 n1) (hone : OneRowEach rs (es1 ++ es2))
    (halt : alternative = true → ((rs ++ begun (es1 ++ es2)).map Row.tid).Nodup) (c : Cond V) (cs : List (Cond V))
    (hcol : ColumnsOK rc (c :: cs)) (hkind : OneKind rc alternative (c :: cs)) (lss : List (List (List (Item Datum))))
    (hr : List.Forall₂ (fun (d : Cond V) ls => List.Forall₂ (fun k s => ReadOnceV ix rc M (Visible rs es1 es2 n1) n1 es2 n3 ⟨d.attnum, .norm, k⟩ s) d.keys ls) (c :: cs) lss)
    (n : Nat) (hn : (lss.map (fun ls => ls.flatten.length)).sum < n) :
    AnswerFor ix rc (ix.ctx c.attnum).cmp (Visible rs es1 es2 n1) (c :: cs) (result ix rc alternative (c :: cs) lss n) ∧
    ∀ p ∈ (result ix rc alternative (c :: cs) lss n).1, ∃ r ∈ rs ++ begun (es1 ++ es2), r.tid = p.1.iptr := by
  obtain ⟨hc, L⟩ := h0.life hbd hal hM hs hd
  have hfrom : ∀ ls ∈ lss, ∀ s ∈ ls, ∀ y ∈ s, ∃ d ∈ c :: cs, ∃ k, ∃ r ∈ rs ++ begun (es1 ++ es2), r.tid = y.iptr ∧
      InfoOf rc (ix.cmpK d.attnum) r ⟨d.attnum, .norm, k⟩ y.info := by
    intro ls hls s hs' y hy
    obtain ⟨d, hdm, F⟩ := forall2_mem hr ls hls
    obtain ⟨k, -, hk⟩ := forall2_mem F s hs'
    obtain ⟨r, q1, q2, q3⟩ := (read_okV hbd hal hM hs hd h0 h1 hone (hcol d hdm).1 (hcol d hdm).2 hk).2 y hy
    exact ⟨d, hdm, k, r, q1, q2, q3⟩
  obtain ⟨A, B⟩ := combine (stable := Visible rs es1 es2 n1) ho hc.infos c cs lss
    (forall2_imp_mem hr (fun d hdm ls F => F.imp (fun k s h => (read_okV hbd hal hM hs hd h0 h1 hone (hcol d hdm).1 (hcol d hdm).2 h).1))) hkind
    (by
      rintro ht hall x ⟨ls, a1, s, a2, a3⟩ y ⟨ls', b1, s', b2, b3⟩ he
      obtain ⟨d, hdm, k, r, q1, q2, q3⟩ := hfrom ls a1 s a2 x a3
      obtain ⟨d', hdm', k', r', q1', q2', q3'⟩ := hfrom ls' b1 s' b2 y b3
      obtain rfl := List.inj_on_of_nodup_map (halt ht) q1 q1' (q2.trans (he.trans q2'.symm))
      unfold InfoOf at q3 q3'
      rw [if_pos (hall d hdm)] at q3
      rw [if_pos (hall d' hdm')] at q3'
      rw [q3, q3']) n hn
  refine ⟨A, fun p hp => ?_⟩
  obtain ⟨ls, a1, s, a2, a3⟩ := B p hp
  obtain ⟨-, -, -, r, q1, q2, -⟩ := hfrom ls a1 s a2 p.1 a3
  exact ⟨r, q1, q2⟩
end
/-! ### Concrete cases -/

/-- Key 7 in column 1, without recheck. -/
def exCond : Cond Nat := ⟨1, [7], fun v => (v.any (·.isSome), false), fun _ => true⟩

/-- The hypotheses of `C66_query` are met by the run of `IndexConc.ex_search`: row 3 has to be found and is found. -/
example : ∃ n1 n3 R, IndexConc.Run exIx exRc 15 (calm emptyIndex) IndexConc.exBefore n1 ∧ IndexConc.Finished exIx exRc 15 emptyIndex IndexConc.exBefore IndexConc.exR3 ∧
    List.Forall₂ (fun (d : Cond Nat) ls => List.Forall₂ (fun k s => ReadOnce exIx exRc 15 n1 (.read 2 ⟨1, .norm, 7⟩ false :: IndexConc.exMeanwhile) n3
      ⟨d.attnum, .norm, k⟩ s) d.keys ls) [exCond] [[fresh (exIx.ctx 1).cmp R]] ∧
    (([] ++ IndexConc.begun (IndexConc.exBefore ++ IndexConc.Event.read 2 ⟨1, .norm, 7⟩ false :: IndexConc.exMeanwhile)).map Row.tid).Nodup ∧
    ColumnsOK exRc [exCond] ∧ OneKind exRc false [exCond] ∧ R.map Item.iptr = [⟨1, 1⟩, ⟨3, 1⟩] := by
  obtain ⟨-, h2, -, n1, n2, n3, R, h3, h4, h5, h6, h7, h8⟩ := IndexConc.ex_search
  refine ⟨n1, n3, R, h3, h2, .cons (.cons ⟨2, false, [], _, n1, n2, R, rfl, .refl _, h4, h5, h6, h7, rfl⟩ .nil) .nil, by decide, ?_, Or.inl rfl, h8⟩
  intro c hc
  rw [List.mem_singleton.1 hc]
  exact ⟨by decide, by decide⟩

def exAnswer : Job Nat → Option (List Iptr)
  | .answer ⟨1, .norm, 7⟩ true R => some (R.map Item.iptr)
  | _ => none

open IndexVacConc in
theorem ex_runs : ((IndexVacConc.results exIx exRc 3 ⟨calm emptyIndex, none⟩ (IndexVacConc.exBefore ++ .read 2 ⟨1, .norm, 7⟩ true :: IndexVacConc.exMeanwhile)).any
      (fun y => exAnswer (y.net.job 2) == some [⟨1, 1⟩, ⟨3, 1⟩])) = true := by
  decide +kernel

open IndexVacConc in
/-- The hypotheses of `C67_query_partial` are met by the run of `Props/IndexVacConc.lean` with a search item by item, while VACUUM removes row 5 and row 3
comes. -/
example : ∃ n1 n3 R, Run exIx exRc ⟨15, true⟩ ⟨calm emptyIndex, none⟩ IndexVacConc.exBefore n1 ∧
    OneRowEach [] (IndexVacConc.exBefore ++ .read 2 ⟨1, .norm, 7⟩ true :: IndexVacConc.exMeanwhile) ∧
    Over exIx exRc ⟨15, true⟩ emptyIndex [] ∧ IndexConc.exR1 ∈ after [] IndexVacConc.exBefore ∧
    List.Forall₂ (fun (d : Cond Nat) ls => List.Forall₂ (fun k s => ReadOnceV exIx exRc ⟨15, true⟩
      (Visible [] IndexVacConc.exBefore (.read 2 ⟨1, .norm, 7⟩ true :: IndexVacConc.exMeanwhile) n1) n1 (.read 2 ⟨1, .norm, 7⟩ true :: IndexVacConc.exMeanwhile) n3
      ⟨d.attnum, .norm, k⟩ s) d.keys ls) [exCond] [[fresh (exIx.ctx 1).cmp R]] ∧
    R.map Item.iptr = [⟨1, 1⟩, ⟨3, 1⟩] := by
  have hx := ex_runs
  cases e2 : IndexVacConc.results exIx exRc 3 ⟨calm emptyIndex, none⟩ (IndexVacConc.exBefore ++ .read 2 ⟨1, .norm, 7⟩ true :: IndexVacConc.exMeanwhile) with
  | none => rw [e2] at hx; cases hx
  | some n3 =>
    rw [e2] at hx
    simp only [Option.any_some, beq_iff_eq] at hx
    have R3 := IndexVacConc.results_run (ix := exIx) (rc := exRc) (M := ⟨15, true⟩) (.refl _) (fun _ _ => ⟨rfl, rfl⟩) (fun i r hr => IndexVacConc.exOK i r (by
      simp only [List.mem_append, List.mem_cons, reduceCtorEq, false_or] at hr ⊢
      exact hr)) e2
    rw [List.nil_append] at R3
    obtain ⟨m1, a1, a2⟩ := R3.split
    rw [show IndexVacConc.Event.read 2 ⟨1, .norm, 7⟩ true :: IndexVacConc.exMeanwhile = [IndexVacConc.Event.read 2 ⟨1, .norm, 7⟩ true] ++ IndexVacConc.exMeanwhile from rfl] at a2
    obtain ⟨m2, b1, b2⟩ := a2.split
    have b3 : Fires exIx exRc ⟨15, true⟩ (.read 2 ⟨1, .norm, 7⟩ true) m1 m2 := by
      generalize hl : [IndexVacConc.Event.read 2 ⟨1, .norm, 7⟩ true] = l at b1
      cases b1 with
      | refl => simp at hl
      | @snoc x _ l e' c1 c2 =>
        obtain ⟨d1, d2⟩ := List.append_inj' (s₁ := []) hl rfl
        cases d2
        subst d1
        generalize hl' : ([] : List (IndexVacConc.Event Nat)) = l at c1
        cases c1 with
        | refl => exact c2
        | snoc => simp at hl'
    obtain ⟨R, hR, hq⟩ : ∃ R, n3.net.job 2 = .answer ⟨1, .norm, 7⟩ true R ∧ R.map Item.iptr = [⟨1, 1⟩, ⟨3, 1⟩] := by
      have hq := hx
      unfold exAnswer at hq
      split at hq
      · next R hj => exact ⟨R, hj, by simpa using hq⟩
      · cases hq
    refine ⟨m1, n3, R, a1, fun a b hab => ?_, .start (.empty _ exCols1), (by rw [show after [] IndexVacConc.exBefore = [IndexConc.exR1] from rfl]; simp),
      .cons (.cons ⟨2, [], _, m1, m2, R, rfl, .refl _, b3, b2, by decide, hR, Or.inl ?_, rfl⟩ .nil) .nil, hq⟩
    · have key : ∀ l : List (IndexVacConc.Event Nat), (∀ k ≤ l.length, ((after [] (l.take k)).map Row.tid).Nodup) → ∀ a b, l = a ++ b → ((after [] a).map Row.tid).Nodup := by
        rintro _ h a b rfl
        have := h a.length (by simp)
        rwa [List.take_left] at this
      exact key _ (by decide) a b hab
    · rintro rfl
      simp at hq

end Rum.Props.QueryConc

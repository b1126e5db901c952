import Verif.FastLemmas
import Verif.Props.ScanRegular
/-!
# C21: what a fast scan returns

`fastScan cmp predict keys perm n` is what up to `n` calls return; `predict` are the estimated sizes of the entries (any), `perm` any
result of the initial sort.
-/
namespace Rum.Props.FastScan
open Std Rum Rum.Scan Rum.Fast Rum.Props.ScanRegular

variable {V : Type}

/-- The pre-consistency function is sound: if it says no for a set of entries that might hold a row, the consistency function says
no whenever the row is held by entries of this set only, whatever their additional info. -/
def SoundPre (k : FSpec V) : Prop :=
  ∀ vals, k.pre vals = false → ∀ v : List (Option (Option V)),
    List.Forall₂ (fun a b => a.isSome = true → b = true) v vals → (k.spec.cons v).1 = false

/-- A row that no entry of the key holds does not satisfy it. (Queries for which this is false get an entry that holds every row.) -/
def NeedsEntry (k : KeySpec V) : Prop := (k.cons (List.replicate k.streams.length none)).1 = false

theorem start_remaining (st : List (Item V)) : (firstItem st).remaining = st ∧ (firstItem st).stream = st := by
  unfold firstItem Ent.start Ent.get Ent.remaining
  cases st <;> simp

theorem mkKeys_ids (keys : List (FSpec V)) : ∀ off, ∀ k ∈ mkKeys off keys, ∃ k0 ∈ keys, ∃ o, off ≤ o ∧
    k = ⟨k0.spec.orderBy, List.range' o k0.spec.streams.length, k0.spec.cons, k0.pre⟩ ∧
    o + k0.spec.streams.length ≤ off + (allStreams keys).length ∧
    (∀ i < k0.spec.streams.length, (allStreams keys)[o - off + i]? = k0.spec.streams[i]?) := by
  induction keys with
  | nil => intro off k hk; simp [mkKeys] at hk
  | cons a l ih =>
    intro off k hk
    simp only [mkKeys, List.mem_cons] at hk
    have hall : allStreams (a :: l) = a.spec.streams ++ allStreams l := by simp [allStreams]
    rcases hk with rfl | hk
    · refine ⟨a, by simp, off, le_rfl, rfl, ?_, ?_⟩
      · rw [hall]; simp
      · intro i hi
        rw [hall, Nat.sub_self, Nat.zero_add, List.getElem?_append_left hi]
    · obtain ⟨k0, h1, o, h2, h3, h4, h5⟩ := ih _ k hk
      refine ⟨k0, by simp [h1], o, by omega, h3, ?_, ?_⟩
      · rw [hall]; simp only [List.length_append]; omega
      · intro i hi
        rw [hall, List.getElem?_append_right (by omega), ← h5 i hi]
        congr 1; omega

theorem mkKeys_filter (keys : List (FSpec V)) (kf : FSpec V) (h : keys.filter (fun k => !k.spec.orderBy) = [kf]) : ∀ off,
    ∃ o, (mkKeys off keys).filter (fun k => !k.orderBy) =
      [⟨kf.spec.orderBy, List.range' o kf.spec.streams.length, kf.spec.cons, kf.pre⟩] := by
  induction keys with
  | nil => simp at h
  | cons a l ih =>
    intro off
    simp only [mkKeys]
    cases ho : a.spec.orderBy with
    | true =>
      rw [List.filter_cons_of_neg (by simp [ho])] at h ⊢
      · exact ih h _
    | false =>
      rw [List.filter_cons_of_pos (by simp [ho])] at h
      obtain ⟨rfl, hl⟩ := List.cons.inj h
      rw [List.filter_cons_of_pos (by simp)]
      refine ⟨off, ?_⟩
      have hnil : ∀ (l : List (FSpec V)), l.filter (fun k => !k.spec.orderBy) = [] → ∀ off,
          (mkKeys off l).filter (fun k => !k.orderBy) = [] := by
        intro l
        induction l with
        | nil => intros; rfl
        | cons b l ih2 =>
          intro hb off
          cases hob : b.spec.orderBy with
          | false => rw [List.filter_cons_of_pos (by simp [hob])] at hb; exact absurd hb (by simp)
          | true =>
            rw [List.filter_cons_of_neg (by simp [hob])] at hb
            simp only [mkKeys]
            rw [List.filter_cons_of_neg (by simp [hob])]
            exact ih2 hb _
      rw [hnil l hl]
      rw [ho]

theorem allAtts_eq (keys : List (FSpec V)) (A : Nat) (h : ∀ k ∈ keys, k.att = A) : ∀ i < (allStreams keys).length,
    (allAtts keys)[i]? = some A := by
  have h1 : (allAtts keys).length = (allStreams keys).length := by
    unfold allAtts allStreams; simp [List.length_flatMap]
  have h2 : ∀ a ∈ allAtts keys, a = A := by
    intro a ha
    unfold allAtts at ha
    rw [List.mem_flatMap] at ha
    obtain ⟨k, hk, hm⟩ := ha
    obtain ⟨_, _, rfl⟩ := List.mem_map.1 hm
    exact h k hk
  intro i hi
  rw [List.getElem?_eq_getElem (by omega)]
  rw [h2 _ (List.getElem_mem _)]

/-- C21, partial: with one filter key, and any number of ORDER BY keys, on one column, the fast scan returns exactly the matching
rows, each once, in scan order, with the right recheck flag, whatever the estimated sizes of the entries and whatever the order of
equal entries after the initial sort. Missing: several filter keys, for which rows are lost, see `C21_two_keys_violated` and
`C21_two_columns_violated`. -/
theorem C21_fast_scan_partial (alt back : Bool) (cmpV : V → V → Ordering) [TransCmp cmpV] (predict : Nat → Nat)
    (keys : List (FSpec V)) (kf : FSpec V) (col : Nat) (perm : List Nat) (n : Nat)
    (hcol : ∀ k ∈ keys, k.att = col)
    (hone : keys.filter (fun k => !k.spec.orderBy) = [kf])
    (hpre : SoundPre kf) (hneeds : NeedsEntry kf.spec) (hentry : kf.spec.streams ≠ [])
    (hsorted : ∀ k ∈ keys, ∀ st ∈ k.spec.streams, SSorted (scanOrder alt back cmpV) st)
    (hsane : SaneAny alt (keys.map (·.spec)))
    (hperm : SortResult (mkEnv (fun _ => scanOrder alt back cmpV) predict keys) keys perm)
    (hn : (allStreams keys).flatten.length < n) :
    Contract (scanOrder alt back cmpV) (keys.map (·.spec))
      (fastScan (fun _ => scanOrder alt back cmpV) predict keys perm n) := by
  set c := scanOrder alt back cmpV with hc
  have htr : TransCmp c := inferInstanceAs (TransCmp (scanOrder alt back cmpV))
  set E := mkEnv (fun _ => c) predict keys with hE
  obtain ⟨o, ho⟩ := mkKeys_filter keys kf hone 0
  set k1 : FKey V := ⟨kf.spec.orderBy, List.range' o kf.spec.streams.length, kf.spec.cons, kf.pre⟩ with hk1
  set N := (allStreams keys).length with hN
  set st : Nat → List (Item V) := fun i => (allStreams keys)[i]?.getD [] with hst
  have hkf : kf ∈ keys := by
    have : kf ∈ keys.filter (fun k => !k.spec.orderBy) := by rw [hone]; simp
    exact (List.mem_filter.1 this).1
  have hkfo : kf.spec.orderBy = false := by
    have : kf ∈ keys.filter (fun k => !k.spec.orderBy) := by rw [hone]; simp
    simpa using (List.mem_filter.1 this).2
  -- the numbers of the filter key's entries
  have hfil : k1 ∈ (mkKeys 0 keys).filter (fun k => !k.orderBy) := by rw [ho]; simp
  have hmem1 := (List.mem_filter.1 hfil).1
  have hids : ∃ k0 ∈ keys, k0.spec.orderBy = false ∧ o + k0.spec.streams.length ≤ N ∧ k1.ids = List.range' o k0.spec.streams.length ∧
      (∀ i < k0.spec.streams.length, (allStreams keys)[o + i]? = k0.spec.streams[i]?) := by
    obtain ⟨k0, h1, o', h2, h3, h4, h5⟩ := mkKeys_ids keys 0 k1 hmem1
    have e1 : kf.spec.orderBy = k0.spec.orderBy := congrArg FKey.orderBy h3
    have e2 : List.range' o kf.spec.streams.length = List.range' o' k0.spec.streams.length := congrArg FKey.ids h3
    have el : kf.spec.streams.length = k0.spec.streams.length := by
      have := congrArg List.length e2; simpa using this
    have hpos : 0 < kf.spec.streams.length := List.length_pos_of_ne_nil hentry
    have eo : o = o' := by
      have := congrArg (fun l => l[0]?) e2
      simp only [← el] at this
      simpa [hpos] using this
    subst eo
    refine ⟨k0, h1, by rw [← e1]; exact hkfo, by omega, by rw [← e2], ?_⟩
    intro i hi; have := h5 i hi; simpa using this
  obtain ⟨k0, hk0, hk0o, hk0N, hk0i, hk0s⟩ := hids
  have hk0f : k0 = kf := by
    have : k0 ∈ keys.filter (fun k => !k.spec.orderBy) := List.mem_filter.2 ⟨hk0, by simp [hk0o]⟩
    rw [hone] at this; simpa using this
  subst hk0f
  have hmemst : ∀ i, i < N → ∃ k ∈ keys, st i ∈ k.spec.streams := by
    intro i hi
    have : st i ∈ allStreams keys := by
      simp only [hst]; rw [List.getElem?_eq_getElem hi]; exact List.getElem_mem _
    unfold allStreams at this
    exact List.mem_flatMap.1 this
  have hheld : ∀ t, held st k1 t = k0.spec.held t := by
    intro t
    unfold held KeySpec.held
    rw [hk0i]
    apply List.ext_getElem
    · simp
    · intro i h1 h2
      simp only [List.length_map, List.length_range'] at h1
      simp only [List.getElem_map, List.getElem_range', hst, Nat.one_mul]
      rw [hk0s i h1, List.getElem?_eq_getElem h1]
      rfl
  have hS : Setup E col N c st (StoredAny (keys.map (·.spec))) k1 := by
    refine ⟨rfl, ?_, ?_, coherent_any alt back cmpV _ hsane, ?_, ho, ?_, hpre⟩
    · intro id hid
      show (allAtts keys)[id]?.getD 0 = col
      rw [allAtts_eq keys col hcol id hid]; rfl
    · intro id hid
      obtain ⟨k, hk, hm⟩ := hmemst id hid
      exact hsorted k hk _ hm
    · intro id hid x hx
      obtain ⟨k, hk, hm⟩ := hmemst id hid
      exact ⟨k.spec, List.mem_map_of_mem hk, _, hm, hx⟩
    · intro id hid
      rw [hk0i, List.mem_range'_1] at hid; omega
  have hpos : 0 < N := by
    have : 0 < k0.spec.streams.length := List.length_pos_of_ne_nil hentry
    omega
  have hinv : Inv E N st k1 (startFast keys perm) := by
    refine ⟨⟨hperm.1, hperm.2, ?_⟩, ?_⟩
    · intro id _
      obtain ⟨r1, r2⟩ := start_remaining (st id)
      exact ⟨r2, [], by rw [List.nil_append]; exact r1.symm⟩
    · intro t
      left
      rintro id hid ⟨x, hx, hxt⟩
      refine ⟨x, ?_, hxt⟩
      show x ∈ (firstItem (st id)).remaining
      rw [(start_remaining _).1]; exact hx
  have htot : total (startFast keys perm) < n := by
    rw [total_eq hperm.1]
    refine Nat.lt_of_le_of_lt (Nat.le_of_eq ?_) hn
    rw [List.length_flatten]
    congr 1
    apply List.ext_getElem
    · simp
    · intro i h1 h2
      simp only [List.getElem_map, List.getElem_range]
      rw [left_eq]
      show (firstItem _).remaining.length = _
      rw [(start_remaining _).1]
      simp only [List.length_map, List.length_range] at h1
      rw [List.getElem?_eq_getElem h1]; rfl
  obtain ⟨hrun, _⟩ := runFast_ok hS hpos n (startFast keys perm) (startFast keys perm) rfl hinv htot
  have hmatch : ∀ t, Matches (keys.map (·.spec)) t ↔ k0.spec.Accepts t := by
    intro t
    unfold Matches
    constructor
    · intro h; exact h _ (List.mem_map_of_mem hk0) hk0o
    · intro h k hk hko
      obtain ⟨k', hk', rfl⟩ := List.mem_map.1 hk
      have : k' ∈ keys.filter (fun k => !k.spec.orderBy) := List.mem_filter.2 ⟨hk', by simp [hko]⟩
      rw [hone] at this
      rw [List.mem_singleton.1 this]; exact h
  refine ⟨hrun.finished, hrun.stored, hrun.sorted, ?_, ?_⟩
  · intro t
    unfold fastScan
    rw [hmatch t, hrun.rows t]
    unfold Future KeySpec.Accepts
    rw [hheld]
    refine ⟨fun ⟨h1, h2⟩ => ⟨?_, h2⟩, fun ⟨⟨s, hs, x, hx, hxt⟩, h2⟩ => ⟨?_, h2⟩⟩
    · by_contra hno
      have hnone : k0.spec.held t = List.replicate k0.spec.streams.length none := by
        unfold KeySpec.held
        rw [List.eq_replicate_iff]
        refine ⟨by simp, ?_⟩
        intro b hb
        obtain ⟨s, hs, rfl⟩ := List.mem_map.1 hb
        rw [List.find?_eq_none.2]
        · rfl
        · intro x hx hxt
          exact hno ⟨s, hs, x, hx, by simpa using hxt⟩
      rw [hnone] at h2
      have := hneeds
      unfold NeedsEntry at this
      have h2' : (k0.spec.cons (List.replicate k0.spec.streams.length none)).1 = true := h2
      rw [this] at h2'; exact absurd h2' (by simp)
    · intro hg
      obtain ⟨i, hi, rfl⟩ := List.getElem_of_mem hs
      refine hg (o + i) (by omega) ⟨x, ?_, hxt⟩
      show x ∈ (firstItem (st (o + i))).remaining
      rw [(start_remaining _).1]
      show x ∈ (allStreams keys)[o + i]?.getD []
      rw [hk0s i hi, List.getElem?_eq_getElem hi]; exact hx
  · intro p hp
    unfold fastScan at hp
    rw [hrun.flags p hp, hheld]
    unfold NeedsRecheck KeySpec.asks
    constructor
    · intro h; exact ⟨_, List.mem_map_of_mem hk0, hk0o, h⟩
    · rintro ⟨k, hk, hko, h⟩
      obtain ⟨k', hk', rfl⟩ := List.mem_map.1 hk
      have : k' ∈ keys.filter (fun k => !k.spec.orderBy) := List.mem_filter.2 ⟨hk', by simp [hko]⟩
      rw [hone] at this
      rw [List.mem_singleton.1 this] at h; exact h

/-- Two lists of stored items, both strictly in scan order, with the same rows: the rows come in the same order. -/
theorem same_rows (c : Item V → Item V → Ordering) [TransCmp c] (U : Item V → Prop) (hU : Coherent c U) :
    ∀ l m : List (Item V), (∀ x ∈ l, U x) → (∀ x ∈ m, U x) → l.Pairwise (fun a b => c a b = .lt) → m.Pairwise (fun a b => c a b = .lt) →
    (∀ t, (∃ x ∈ l, x.iptr = t) ↔ ∃ x ∈ m, x.iptr = t) → l.map (·.iptr) = m.map (·.iptr) := by
  intro l
  induction l with
  | nil =>
    intro m _ _ _ _ h
    cases m with
    | nil => rfl
    | cons b m => obtain ⟨x, hx, _⟩ := (h b.iptr).2 ⟨b, by simp, rfl⟩; exact absurd hx (by simp)
  | cons a l ih =>
    intro m hUl hUm hl hm h
    cases m with
    | nil => obtain ⟨x, hx, _⟩ := (h a.iptr).1 ⟨a, by simp, rfl⟩; exact absurd hx (by simp)
    | cons b m =>
      obtain ⟨hal, hl⟩ := List.pairwise_cons.1 hl
      obtain ⟨hbm, hm⟩ := List.pairwise_cons.1 hm
      have hUa := hUl a (by simp)
      have hUb := hUm b (by simp)
      have hab : a.iptr = b.iptr := by
        by_contra hne
        obtain ⟨x, hx, hxa⟩ := (h a.iptr).1 ⟨a, by simp, rfl⟩
        obtain ⟨y, hy, hyb⟩ := (h b.iptr).2 ⟨b, by simp, rfl⟩
        have hx' : x ∈ m := by
          rcases List.mem_cons.1 hx with rfl | hx
          · exact absurd hxa.symm hne
          · exact hx
        have hy' : y ∈ l := by
          rcases List.mem_cons.1 hy with rfl | hy
          · exact absurd hyb hne
          · exact hy
        have e1 : c x a = .eq := (hU.iff x a (hUm x hx) hUa).2 hxa
        have e2 : c y b = .eq := (hU.iff y b (hUl y hy) hUb).2 hyb
        have l1 : c b a = .lt := by rw [← TransCmp.congr_right (cmp := c) e1]; exact hbm x hx'
        have l2 : c a b = .lt := by rw [← TransCmp.congr_right (cmp := c) e2]; exact hal y hy'
        rw [OrientedCmp.eq_swap (cmp := c), l1] at l2; exact absurd l2 (by decide)
      simp only [List.map_cons]
      rw [hab]
      congr 1
      refine ih m (fun x hx => hUl x (by simp [hx])) (fun x hx => hUm x (by simp [hx])) hl hm ?_
      intro t
      have hnl : ∀ x ∈ l, x.iptr ≠ a.iptr := by
        intro x hx he
        have := (hU.iff a x hUa (hUl x (by simp [hx]))).2 he.symm
        rw [hal x hx] at this; exact absurd this (by decide)
      have hnm : ∀ x ∈ m, x.iptr ≠ b.iptr := by
        intro x hx he
        have := (hU.iff b x hUb (hUm x (by simp [hx]))).2 he.symm
        rw [hbm x hx] at this; exact absurd this (by decide)
      constructor
      · rintro ⟨x, hx, rfl⟩
        obtain ⟨y, hy, hyx⟩ := (h x.iptr).1 ⟨x, by simp [hx], rfl⟩
        rcases List.mem_cons.1 hy with rfl | hy
        · exact absurd (hyx.symm.trans hab.symm) (hnl x hx)
        · exact ⟨y, hy, hyx⟩
      · rintro ⟨x, hx, rfl⟩
        obtain ⟨y, hy, hyx⟩ := (h x.iptr).2 ⟨x, by simp [hx], rfl⟩
        rcases List.mem_cons.1 hy with rfl | hy
        · exact absurd (hyx.symm.trans hab) (hnm x hx)
        · exact ⟨y, hy, hyx⟩

/-- Two scans that keep the contract return the same rows in the same order with the same recheck flags. -/
theorem contract_unique (alt back : Bool) (cmpV : V → V → Ordering) [TransCmp cmpV] (keys : List (KeySpec V)) (hsane : SaneAny alt keys)
    (o1 o2 : List (Item V × Bool) × Bool) (h1 : Contract (scanOrder alt back cmpV) keys o1) (h2 : Contract (scanOrder alt back cmpV) keys o2) :
    o1.1.map (fun p => (p.1.iptr, p.2)) = o2.1.map (fun p => (p.1.iptr, p.2)) := by
  have hrows := same_rows (scanOrder alt back cmpV) _ (coherent_any alt back cmpV keys hsane) (o1.1.map Prod.fst) (o2.1.map Prod.fst)
    (by intro x hx; obtain ⟨p, hp, rfl⟩ := List.mem_map.1 hx; exact h1.stored p hp)
    (by intro x hx; obtain ⟨p, hp, rfl⟩ := List.mem_map.1 hx; exact h2.stored p hp)
    h1.sorted h2.sorted
    (by
      intro t
      have e : ∀ o : List (Item V × Bool) × Bool, (∃ x ∈ o.1.map Prod.fst, x.iptr = t) ↔ ∃ p ∈ o.1, p.1.iptr = t := by
        intro o; simp
      rw [e, e, h1.exact_, h2.exact_])
  simp only [List.map_map] at hrows
  apply List.ext_getElem
  · have := congrArg List.length hrows; simpa using this
  · intro i hi1 hi2
    simp only [List.length_map] at hi1 hi2
    simp only [List.getElem_map]
    have hi : o1.1[i].1.iptr = o2.1[i].1.iptr := by
      have h : (o1.1.map ((·.iptr) ∘ Prod.fst))[i]'(by simpa using hi1) = (o2.1.map ((·.iptr) ∘ Prod.fst))[i]'(by simpa using hi2) := by
        simp only [hrows]
      simpa using h
    refine Prod.ext hi ?_
    have a := h1.recheck _ (List.getElem_mem hi1)
    have b := h2.recheck _ (List.getElem_mem hi2)
    rw [hi] at a
    exact Bool.eq_iff_iff.2 (a.trans b.symm)

/-- C21 as stated, for one filter key: fast and regular scan return the same rows in the same order with the same flags. -/
theorem C21_same_as_regular_partial (alternative alt back : Bool) (cmpV : V → V → Ordering) [TransCmp cmpV] (predict : Nat → Nat)
    (keys : List (FSpec V)) (kf : FSpec V) (col : Nat) (perm : List Nat) (n : Nat)
    (hcol : ∀ k ∈ keys, k.att = col) (hkind : SameKind alternative (keys.map (·.spec)))
    (hone : keys.filter (fun k => !k.spec.orderBy) = [kf])
    (hpre : SoundPre kf) (hneeds : NeedsEntry kf.spec) (hentry : kf.spec.streams ≠ [])
    (hsorted : ∀ k ∈ keys, ∀ st ∈ k.spec.streams, SSorted (scanOrder alt back cmpV) st)
    (hsane : SaneAny alt (keys.map (·.spec)))
    (hperm : SortResult (mkEnv (fun _ => scanOrder alt back cmpV) predict keys) keys perm)
    (hn : (allStreams keys).flatten.length < n) :
    (fastScan (fun _ => scanOrder alt back cmpV) predict keys perm n).1.map (fun p => (p.1.iptr, p.2)) =
    (regularScan ⟨scanOrder alt back cmpV, scanOrder alt back cmpV⟩ alternative (keys.map (·.spec)) n).1.map (fun p => (p.1.iptr, p.2)) := by
  apply contract_unique alt back cmpV _ hsane
  · exact C21_fast_scan_partial alt back cmpV predict keys kf col perm n hcol hone hpre hneeds hentry hsorted hsane hperm hn
  · apply C20_regular_scan alternative alt back cmpV _ _ n hkind
    · have : kf ∈ keys.filter (fun k => !k.spec.orderBy) := by rw [hone]; simp
      obtain ⟨h1, h2⟩ := List.mem_filter.1 this
      exact ⟨kf.spec, List.mem_map_of_mem h1, by simpa using h2⟩
    · intro k hk _ st hst
      obtain ⟨k', hk', rfl⟩ := List.mem_map.1 hk
      exact hsorted k' hk' st hst
    · intro _ k hk _ st hst
      obtain ⟨k', hk', rfl⟩ := List.mem_map.1 hk
      exact hsorted k' hk' st hst
    · have hsub : ∀ x, Stored (keys.map (·.spec)) x → StoredAny (keys.map (·.spec)) x := fun x ⟨k, hk, _, r⟩ => ⟨k, hk, r⟩
      intro x hx
      obtain ⟨h1, h2⟩ := hsane x (hsub x hx)
      exact ⟨h1, fun ha y hy => h2 ha y (hsub y hy)⟩
    · refine Nat.lt_of_le_of_lt ?_ hn
      unfold allStreams
      rw [List.filter_map, List.map_map]
      clear hn hperm hsane hsorted hone hkind hcol
      induction keys with
      | nil => simp
      | cons a l ih =>
        simp only [List.flatMap_cons, List.flatten_append, List.length_append]
        by_cases h : a.spec.orderBy
        · rw [List.filter_cons_of_neg (by simp [h])]; omega
        · rw [List.filter_cons_of_pos (by simp [h])]
          simp only [List.map_cons, List.sum_cons, Function.comp]
          omega

/-! Concrete case: words 'a' (rows 1, 2, 4) and 'b' (rows 2, 3, 4), both required; ORDER BY word 'c' (rows 1, 4). Rows 2 and 4
match. -/
section example1
def it (r : Nat) : Item Nat := ⟨⟨0, r⟩, some 1⟩
def fAB : FSpec Nat := ⟨⟨false, false, fun v => (v.all Option.isSome, false), [[it 1, it 2, it 4], [it 2, it 3, it 4]]⟩, 1, fun v => v.all id⟩
def fC : FSpec Nat := ⟨⟨true, false, fun _ => (true, false), [[it 1, it 4]]⟩, 1, fun _ => true⟩

theorem sound_all (k : FSpec V) (h1 : ∀ v, (k.spec.cons v).1 = true → v.all Option.isSome = true) (h2 : ∀ v, k.pre v = v.all id) :
    SoundPre k := by
  intro vals hv v hf
  cases hc : (k.spec.cons v).1 with
  | false => rfl
  | true =>
    exfalso
    have hA := h1 v hc
    rw [h2] at hv
    clear hc h1 h2
    induction hf with
    | nil => simp at hv
    | cons hab _ ih =>
      simp only [List.all_cons, Bool.and_eq_true, id_eq] at hA hv
      rw [hab hA.1] at hv
      exact ih (by simpa using hv) hA.2

example : (∀ k ∈ [fAB, fC], k.att = 1) ∧ [fAB, fC].filter (fun k => !k.spec.orderBy) = [fAB] ∧ SoundPre fAB ∧ NeedsEntry fAB.spec ∧
    (∀ k ∈ [fAB, fC], ∀ st ∈ k.spec.streams, SSorted (scanOrder false false compare) st) ∧
    SaneAny false ([fAB, fC].map (·.spec)) ∧
    SortResult (mkEnv (fun _ => scanOrder false false compare) (fun _ => 0) [fAB, fC]) [fAB, fC] [1, 0, 2] ∧
    SortResult (mkEnv (fun _ => scanOrder false false compare) (fun _ => 0) [fAB, fC]) [fAB, fC] [1, 2, 0] := by
  refine ⟨by decide, rfl, sound_all _ (fun v h => h) (fun _ => rfl), rfl, ?_, ?_, ⟨?_, ?_⟩, ⟨?_, ?_⟩⟩
  · intro k hk st hst
    simp only [List.mem_cons, List.not_mem_nil, or_false] at hk
    rcases hk with rfl | rfl <;> simp only [fAB, fC, List.mem_cons, List.not_mem_nil, or_false] at hst
    · rcases hst with rfl | rfl <;> decide
    · subst hst; decide
  · rintro x ⟨k, hk, st, hst, hx⟩
    refine ⟨?_, by simp⟩
    simp only [List.map_cons, List.map_nil, List.mem_cons, List.not_mem_nil, or_false] at hk
    rcases hk with rfl | rfl <;> simp only [fAB, fC, List.mem_cons, List.not_mem_nil, or_false] at hst
    · rcases hst with rfl | rfl <;> simp only [List.mem_cons, List.not_mem_nil, or_false] at hx <;>
        rcases hx with rfl | rfl | rfl <;> decide
    · subst hst; simp only [List.mem_cons, List.not_mem_nil, or_false] at hx; rcases hx with rfl | rfl <;> decide
  · show List.Perm [1, 0, 2] [0, 1, 2]; decide
  · decide
  · show List.Perm [1, 2, 0] [0, 1, 2]; decide
  · decide

example : (fastScan (fun _ => scanOrder false false compare) (fun _ => 0) [fAB, fC] [1, 2, 0] 10) =
    ([(it 2, false), (it 4, false)], true) := by with_unfolding_all rfl
end example1

/-! ### Several filter keys -/
section violations

/-- A phrase of two words, both in rows 1, 2 and 3, which in row 1 are not next to each other (info 0). -/
def fPhrase : FSpec Nat :=
  ⟨⟨false, false, fun v => (v.all (· == some (some 1)), false),
    [[⟨⟨0, 1⟩, some 0⟩, it 2, it 3], [⟨⟨0, 1⟩, some 0⟩, it 2, it 3]]⟩, 1, fun v => v.all id⟩
/-- A second condition on the same column: a word in rows 1 and 3. -/
def fWord : FSpec Nat := ⟨⟨false, false, fun v => (v.all Option.isSome, false), [[it 1, it 3]]⟩, 1, fun v => v.all id⟩
/-- A condition on another column. -/
def fOther : FSpec Nat := ⟨⟨false, false, fun v => (v.all Option.isSome, false), [[it 1, it 2, it 3]]⟩, 2, fun v => v.all id⟩

/-- Negation of C21 for two filter keys on one column: row 3 satisfies both, the pre-consistency functions are sound, and the fast
scan does not return it; the regular scan does. The entries are shifted once per key that fails, not once per row. -/
theorem C21_two_keys_violated :
    SoundPre fPhrase ∧ SoundPre fWord ∧ Matches ([fPhrase, fWord].map (·.spec)) ⟨0, 3⟩ ∧
    SortResult (mkEnv (fun _ => scanOrder false false compare) (fun _ => 0) [fPhrase, fWord]) [fPhrase, fWord] [0, 1, 2] ∧
    fastScan (fun _ => scanOrder false false compare) (fun _ => 0) [fPhrase, fWord] [0, 1, 2] 10 = ([], true) ∧
    regularScan ⟨scanOrder false false compare, scanOrder false false compare⟩ false ([fPhrase, fWord].map (·.spec)) 10 =
      ([(it 3, false)], true) := by
  refine ⟨sound_all _ ?_ (fun _ => rfl), sound_all _ (fun v h => h) (fun _ => rfl), ?_, ⟨?_, ?_⟩, by with_unfolding_all rfl,
    by with_unfolding_all rfl⟩
  · intro v h
    rw [List.all_eq_true]
    intro x hx
    have := List.all_eq_true.1 h x hx
    rw [beq_iff_eq] at this; rw [this]; rfl
  · intro k hk _
    simp only [List.map_cons, List.map_nil, List.mem_cons, List.not_mem_nil, or_false] at hk
    rcases hk with rfl | rfl
    · exact ⟨⟨[⟨⟨0, 1⟩, some 0⟩, it 2, it 3], by simp [fPhrase], it 3, by simp, rfl⟩, by decide⟩
    · exact ⟨⟨[it 1, it 3], by simp [fWord], it 3, by simp, rfl⟩, by decide⟩
  · show List.Perm [0, 1, 2] [0, 1, 2]; decide
  · decide

/-- Negation of C21 for filter keys on two columns: rows 1 and 3 satisfy both, and the fast scan returns nothing. Entries of
different columns are compared by column number, not by row. -/
theorem C21_two_columns_violated :
    SoundPre fWord ∧ SoundPre fOther ∧ Matches ([fWord, fOther].map (·.spec)) ⟨0, 1⟩ ∧ Matches ([fWord, fOther].map (·.spec)) ⟨0, 3⟩ ∧
    SortResult (mkEnv (fun _ => scanOrder false false compare) (fun _ => 0) [fWord, fOther]) [fWord, fOther] [0, 1] ∧
    fastScan (fun _ => scanOrder false false compare) (fun _ => 0) [fWord, fOther] [0, 1] 10 = ([], true) ∧
    regularScan ⟨scanOrder false false compare, scanOrder false false compare⟩ false ([fWord, fOther].map (·.spec)) 10 =
      ([(it 1, false), (it 3, false)], true) := by
  refine ⟨sound_all _ (fun v h => h) (fun _ => rfl), sound_all _ (fun v h => h) (fun _ => rfl), ?_, ?_, ⟨?_, ?_⟩,
    by with_unfolding_all rfl, by with_unfolding_all rfl⟩
  · intro k hk _
    simp only [List.map_cons, List.map_nil, List.mem_cons, List.not_mem_nil, or_false] at hk
    rcases hk with rfl | rfl
    · exact ⟨⟨[it 1, it 3], by simp [fWord], it 1, by simp, rfl⟩, by decide⟩
    · exact ⟨⟨[it 1, it 2, it 3], by simp [fOther], it 1, by simp, rfl⟩, by decide⟩
  · intro k hk _
    simp only [List.map_cons, List.map_nil, List.mem_cons, List.not_mem_nil, or_false] at hk
    rcases hk with rfl | rfl
    · exact ⟨⟨[it 1, it 3], by simp [fWord], it 3, by simp, rfl⟩, by decide⟩
    · exact ⟨⟨[it 1, it 2, it 3], by simp [fOther], it 3, by simp, rfl⟩, by decide⟩
  · show List.Perm [0, 1] [0, 1]; decide
  · decide

end violations
end Rum.Props.FastScan

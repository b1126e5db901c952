import Verif.ScanRun
/-!
# C20, C43: what a regular scan returns

`regularScan c alternative keys n` is what up to `n` calls return. A key is ORDER BY or filter (`orderBy`), on the column that
stores the attached value or not (`alt`), with a consistency function and the items stored under its entries (`streams`).
`alternative` is the index option `order_by_attach`.
-/
namespace Rum.Props.ScanRegular
open Std Rum Rum.Scan

variable {V : Type}

/-- The order of a scan: by attached value and row pointer, or by row pointer; forward or backward. -/
def scanOrder (alt back : Bool) (cmpV : V → V → Ordering) : Item V → Item V → Ordering :=
  fun a b => if back then cmpItem alt cmpV b a else cmpItem alt cmpV a b

instance (alt back : Bool) (cmpV : V → V → Ordering) [TransCmp cmpV] : TransCmp (scanOrder alt back cmpV) := by
  cases back with
  | false => exact cmpItem_trans alt cmpV
  | true => exact { eq_swap := OrientedCmp.eq_swap (cmp := cmpItem alt cmpV), isLE_trans := fun h g => TransCmp.isLE_trans (cmp := cmpItem alt cmpV) g h }

/-- The row satisfies the whole WHERE clause, as far as the index can tell. -/
def Matches (keys : List (KeySpec V)) (tid : Iptr) : Prop := ∀ k ∈ keys, k.orderBy = false → k.Accepts tid

/-- Some condition of the WHERE clause has to be rechecked for the row. -/
def NeedsRecheck (keys : List (KeySpec V)) (tid : Iptr) : Prop := ∃ k ∈ keys, k.orderBy = false ∧ k.asks tid = true

/-- The items stored under the entries of the filter keys. -/
def Stored (keys : List (KeySpec V)) (x : Item V) : Prop := ∃ k ∈ keys, k.orderBy = false ∧ ∃ st ∈ k.streams, x ∈ st

/-- Everything stored under entries of any key, ORDER BY keys included. -/
def StoredAny (keys : List (KeySpec V)) (x : Item V) : Prop := ∃ k ∈ keys, ∃ st ∈ k.streams, x ∈ st

/-- What the index stores is sane: valid row pointers, and when the order is by attached value, one attached value per row. -/
def Sane (alt : Bool) (keys : List (KeySpec V)) : Prop :=
  ∀ x, Stored keys x → x.iptr.off ≠ 0 ∧ (alt = true → ∀ y, Stored keys y → x.iptr = y.iptr → x.info = y.info)

theorem cmpItem_iptr (alt : Bool) (cmpV : V → V → Ordering) (a b : Item V) (h : cmpItem alt cmpV a b = .eq) :
    a.iptr = b.iptr := by
  unfold cmpItem at h
  split at h
  · split at h
    · split at h
      · exact LawfulEqCmp.eq_of_compare h
      · rename_i hh; exact absurd h hh
    · exact absurd h (by decide)
    · exact LawfulEqCmp.eq_of_compare h
    · exact absurd h (by decide)
  · exact LawfulEqCmp.eq_of_compare h

theorem coherent_of_sane (alt back : Bool) (cmpV : V → V → Ordering) [TransCmp cmpV] (am : Bool) (keys : List (KeySpec V))
    (h : Sane alt (keys.filter (KeySpec.active am))) : Coherent (scanOrder alt back cmpV) (· ∈ items am keys) := by
  have hst : ∀ x, x ∈ items am keys → Stored (keys.filter (KeySpec.active am)) x := by
    intro x hx
    obtain ⟨k, hk, ha, r⟩ := (mem_items _ _ _).1 hx
    refine ⟨k, List.mem_filter.2 ⟨hk, ha⟩, ?_, r⟩
    unfold KeySpec.active at ha; simp at ha; exact ha.1
  refine ⟨fun a b ha hb => ⟨fun he => ?_, fun he => ?_⟩, fun a ha => (h a (hst a ha)).1⟩
  · unfold scanOrder at he
    split at he
    · exact (cmpItem_iptr _ _ _ _ he).symm
    · exact cmpItem_iptr _ _ _ _ he
  · cases alt with
    | false =>
      cases back <;> simp only [scanOrder, cmpItem, Bool.false_eq_true, if_false, if_true] <;> rw [he] <;> exact ReflCmp.compare_self
    | true =>
      have hab : a = b := by
        have := (h a (hst a ha)).2 rfl b (hst b hb) he
        cases a; cases b; simp_all
      rw [hab]; exact ReflCmp.compare_self (cmp := scanOrder true back cmpV)

theorem filter_active_false (keys : List (KeySpec V)) : keys.filter (KeySpec.active false) = keys.filter (fun k => !k.orderBy) := by
  apply List.filter_congr; intro k _; simp [KeySpec.active]

theorem stored_filter (am : Bool) (keys : List (KeySpec V)) (x : Item V) (h : Stored (keys.filter (KeySpec.active am)) x) : Stored keys x := by
  obtain ⟨k, hk, r⟩ := h
  exact ⟨k, (List.mem_filter.1 hk).1, r⟩

theorem sane_filter (alt am : Bool) (keys : List (KeySpec V)) (h : Sane alt keys) : Sane alt (keys.filter (KeySpec.active am)) := by
  intro x hx
  obtain ⟨h1, h2⟩ := h x (stored_filter am keys x hx)
  exact ⟨h1, fun ha y hy => h2 ha y (stored_filter am keys y hy)⟩

/-- The user-visible contract of a scan that is not mixed-order: it ends; only stored items come out, and rows come out strictly in scan order (so each once);
a row is returned if and only if it satisfies every filter key; and the recheck flag is exactly the disjunction of what the
filter keys ask for. -/
structure Contract (order : Item V → Item V → Ordering) (keys : List (KeySpec V)) (out : List (Item V × Bool) × Bool) : Prop where
  ends : out.2 = true
  stored : ∀ p ∈ out.1, StoredAny keys p.1
  sorted : (out.1.map Prod.fst).Pairwise (fun a b => order a b = .lt)
  exact_ : ∀ tid, (∃ p ∈ out.1, p.1.iptr = tid) ↔ Matches keys tid
  recheck : ∀ p ∈ out.1, p.2 = true ↔ NeedsRecheck keys p.1.iptr

/-- Keys of one kind of order only. -/
def SameKind (alternative : Bool) (keys : List (KeySpec V)) : Prop :=
  alternative = false ∨ (∀ k ∈ keys, k.alt = true) ∨ (∀ k ∈ keys, k.alt = false)

theorem not_mixed (alternative : Bool) (keys : List (KeySpec V)) (h : SameKind alternative keys) :
    isScanWithAltOrderKeys alternative (keys.map startKey) = false := by
  unfold isScanWithAltOrderKeys
  split
  · rfl
  · have e : ∀ k : KeySpec V, (startKey k).alt = k.alt := fun _ => rfl
    rcases h with rfl | h | h
    · simp
    · cases alternative with
      | false => simp
      | true =>
        have : (keys.map startKey).any (fun k => !(true && k.alt)) = false := by
          rw [List.any_map, List.any_eq_false]
          intro x hx; simp [e, h x hx]
        rw [this, Bool.and_false]
    · have : (keys.map startKey).any (fun k => alternative && k.alt) = false := by
        rw [List.any_map, List.any_eq_false]
        intro x hx; simp [e, h x hx]
      rw [this]; rfl

theorem contract_of_runOK (c : Cmp V) [TransCmp c.item] (keys : List (KeySpec V)) (out : List (Item V × Bool) × Bool)
    (hex : ∃ k ∈ keys, k.orderBy = false)
    (h : RunOK c false keys ⟨⟨0, 0⟩, none⟩ [] false out) : Contract c.item keys out := by
  refine ⟨h.finished, ?_, h.sorted, ?_, ?_⟩
  · intro p hp
    obtain ⟨k, hk, _, st, hst, hx⟩ := (mem_items _ _ _).1 (h.sound p hp).1
    exact ⟨k, hk, st, hst, hx⟩
  · intro tid
    have hA : Accept false keys [] tid ↔ Matches keys tid := by
      unfold Accept Matches KeySpec.active
      simp
    constructor
    · rintro ⟨p, hp, rfl⟩
      exact hA.1 (h.sound p hp).2.2
    · intro hm
      obtain ⟨k, hk, ho⟩ := hex
      obtain ⟨⟨st, hst, x, hx, rfl⟩, _⟩ := hm k hk ho
      obtain ⟨p, hp, he⟩ := h.complete x ((mem_items _ _ _).2 ⟨k, hk, by simp [KeySpec.active, ho], st, hst, hx⟩)
        (by simp [beyond]) (hA.2 hm)
      exact ⟨p, hp, he⟩
  · intro p hp
    rw [h.flags p hp]
    unfold asksAny NeedsRecheck KeySpec.active
    simp [List.any_eq_true]

/-- C20: a regular scan whose keys all have the same order returns exactly the matching rows, each once, in scan order, with the
right recheck flag, after at most as many calls as there are stored items, plus one. -/
theorem C20_regular_scan (alternative alt back : Bool) (cmpV : V → V → Ordering) [TransCmp cmpV]
    (order : Item V → Item V → Ordering) (keys : List (KeySpec V)) (n : Nat)
    (hkind : SameKind alternative keys) (hfilter : ∃ k ∈ keys, k.orderBy = false)
    (hsorted : ∀ k ∈ keys, k.orderBy = false → ∀ st ∈ k.streams, SSorted (scanOrder alt back cmpV) st)
    (horder : order = scanOrder alt back cmpV → ∀ k ∈ keys, k.orderBy = true → ∀ st ∈ k.streams, SSorted (scanOrder alt back cmpV) st)
    (hsane : Sane alt keys)
    (hn : ((keys.filter (fun k => !k.orderBy)).map (fun k => k.streams.flatten.length)).sum < n) :
    Contract (scanOrder alt back cmpV) keys (regularScan ⟨scanOrder alt back cmpV, order⟩ alternative keys n) := by
  set c : Cmp V := ⟨scanOrder alt back cmpV, order⟩ with hc
  have htr : TransCmp c.item := inferInstanceAs (TransCmp (scanOrder alt back cmpV))
  apply contract_of_runOK c keys _ hfilter
  unfold regularScan startScan
  rw [not_mixed alternative keys hkind]
  have hst : stale false (keys.map startKey) = false := by
    unfold stale
    rw [List.any_eq_false]
    intro k hk
    obtain ⟨k0, _, rfl⟩ := List.mem_map.1 hk
    simp [startKey]
  have := run_ok c false keys (coherent_of_sane alt back cmpV false keys (sane_filter alt false keys hsane))
    (by obtain ⟨k, hk, ho⟩ := hfilter; exact ⟨k, hk, by simp [KeySpec.active, ho]⟩)
    n ⟨keys.map startKey, false, []⟩ ⟨keys.map startKey, false, []⟩ ⟨⟨0, 0⟩, none⟩ rfl rfl (startScan_specs keys)
    (by
      intro k hk ha
      obtain ⟨k0, hk0, rfl⟩ := List.mem_map.1 hk
      rw [active_spec, start_spec] at ha
      exact start_inv c false keys k0 (hsorted k0 hk0 (by simpa [KeySpec.active] using ha)) hk0 ha)
    (by
      intro k hk
      obtain ⟨k0, hk0, rfl⟩ := List.mem_map.1 hk
      exact start_order c false k0 (fun _ h2 h3 => horder h2 k0 hk0 h3))
    (by
      refine Nat.lt_of_le_of_lt List.countP_le_length (Nat.lt_of_le_of_lt (Nat.le_of_eq ?_) hn)
      unfold items
      rw [List.length_flatMap, filter_active_false])
  rwa [hst] at this

/-! Concrete case: two keys, the second with two entries; rows 1 and 3 match, row 2 is only in one key. -/
section example1

def kA : KeySpec Nat := ⟨false, false, fun r => (r.any Option.isSome, false), [[⟨⟨0, 1⟩, none⟩, ⟨⟨0, 2⟩, none⟩, ⟨⟨0, 3⟩, none⟩]]⟩
def kB : KeySpec Nat := ⟨false, false, fun r => (r.any Option.isSome, true), [[⟨⟨0, 1⟩, none⟩], [⟨⟨0, 3⟩, none⟩, ⟨⟨0, 4⟩, none⟩]]⟩

example : (∀ k ∈ [kA, kB], k.orderBy = false → ∀ st ∈ k.streams, SSorted (scanOrder false false compare) st) ∧
    Sane false [kA, kB] ∧ SameKind false [kA, kB] := by
  refine ⟨?_, ?_, .inl rfl⟩
  · intro k hk _ st hst
    simp only [List.mem_cons, List.not_mem_nil, or_false] at hk
    rcases hk with rfl | rfl <;> simp only [kA, kB, List.mem_cons, List.not_mem_nil, or_false] at hst
    · subst hst; decide
    · rcases hst with rfl | rfl <;> decide
  · rintro x ⟨k, hk, _, st, hst, hx⟩
    refine ⟨?_, by simp⟩
    simp only [List.mem_cons, List.not_mem_nil, or_false] at hk
    rcases hk with rfl | rfl <;> simp only [kA, kB, List.mem_cons, List.not_mem_nil, or_false] at hst
    · subst hst; simp only [List.mem_cons, List.not_mem_nil, or_false] at hx; rcases hx with rfl | rfl | rfl <;> decide
    · rcases hst with rfl | rfl <;> simp only [List.mem_cons, List.not_mem_nil, or_false] at hx
      · subst hx; decide
      · rcases hx with rfl | rfl <;> decide

end example1

/-! ### Mixed-order scans -/

/-- What a mixed-order scan delivers: the right rows in the order of the attached value; a recheck is asked for at least whenever
a key of the column ordered by attached value asks for one. -/
structure MixedContract (order : Item V → Item V → Ordering) (keys : List (KeySpec V)) (out : List (Item V × Bool) × Bool) : Prop where
  ends : out.2 = true
  sorted : (out.1.map Prod.fst).Pairwise (fun a b => order a b = .lt)
  exact_ : ∀ tid, (∃ p ∈ out.1, p.1.iptr = tid) ↔ Matches keys tid
  recheck : ∀ p ∈ out.1, ∀ k ∈ keys, k.orderBy = false → k.alt = true → k.asks p.1.iptr = true → p.2 = true

/-- C20 for scans that mix conditions on the column ordered by attached value (`alt`) with conditions on other columns, with at
least one filter key of each kind. Missing for the full contract: recheck requests of the other columns' keys are not honoured,
see `C20_mixed_recheck_violated`, and rows are lost if the only key of a kind is an ORDER BY key, see
`C20_order_by_attach_loses_rows`. -/
theorem C20_mixed_scan_partial (back : Bool) (cmpV : V → V → Ordering) [TransCmp cmpV]
    (order : Item V → Item V → Ordering) (keys : List (KeySpec V)) (n : Nat)
    (halt : ∃ k ∈ keys, k.orderBy = false ∧ k.alt = true) (husual : ∃ k ∈ keys, k.orderBy = false ∧ k.alt = false)
    (hsorted : ∀ k ∈ keys, k.orderBy = false → ∀ st ∈ k.streams,
      SSorted (if k.alt then scanOrder true back cmpV else scanOrder false false cmpV) st)
    (hvalid : ∀ x, Stored keys x → x.iptr.off ≠ 0)
    (hone : Sane true (keys.filter (·.alt)))
    (hn : ((keys.filter (fun k => !k.orderBy && k.alt)).map (fun k => k.streams.flatten.length)).sum < n) :
    MixedContract (scanOrder true back cmpV) keys (regularScan ⟨scanOrder true back cmpV, order⟩ true keys n) := by
  set c : Cmp V := ⟨scanOrder true back cmpV, order⟩ with hc
  have htr : TransCmp c.item := inferInstanceAs (TransCmp (scanOrder true back cmpV))
  have hmix : isScanWithAltOrderKeys true (keys.map startKey) = true := by
    obtain ⟨k1, hk1, _, ha1⟩ := halt
    obtain ⟨k2, hk2, _, ha2⟩ := husual
    unfold isScanWithAltOrderKeys
    have hl : (keys.map startKey).length ≠ 1 := by
      rw [List.length_map]
      intro h
      obtain ⟨a, rfl⟩ := List.length_eq_one_iff.1 h
      simp only [List.mem_cons, List.not_mem_nil, or_false] at hk1 hk2
      subst hk1; subst hk2; simp [ha1] at ha2
    rw [if_neg hl]
    simp only [Bool.and_eq_true, List.any_map, List.any_eq_true]
    exact ⟨⟨k1, hk1, by simp [Function.comp, startKey, ha1]⟩, ⟨k2, hk2, by simp [Function.comp, startKey, ha2]⟩⟩
  obtain ⟨p1, p2, p3⟩ := prepKeys_ok keys (by
    intro k hk ho ha st hst
    have := hsorted k hk ho st hst
    rw [ha] at this
    exact ⟨this, fun x hx => hvalid x ⟨k, hk, ho, st, hst, hx⟩⟩) true [] (fun _ => rfl)
  set pr := prepKeys true [] (keys.map startKey) with hpr
  have hact : ∀ k : KeySpec V, k.active true = true ↔ k.orderBy = false ∧ k.alt = true := by
    intro k; simp [KeySpec.active]
  have hfe : keys.filter (KeySpec.active true) = keys.filter (fun k => !k.orderBy && k.alt) := by
    apply List.filter_congr; intro k _; simp [KeySpec.active]
  have hsane : Sane true (keys.filter (KeySpec.active true)) := by
    have hsub : ∀ x, Stored (keys.filter (KeySpec.active true)) x → Stored (keys.filter (·.alt)) x := by
      rintro x ⟨k, hk, r⟩
      obtain ⟨hk, ha⟩ := List.mem_filter.1 hk
      exact ⟨k, List.mem_filter.2 ⟨hk, ((hact k).1 ha).2⟩, r⟩
    intro x hx
    obtain ⟨h1, h2⟩ := hone x (hsub x hx)
    exact ⟨h1, fun ha y hy => h2 ha y (hsub y hy)⟩
  have hcall : scanGetItemRegular c ⟨keys.map startKey, true, []⟩ ⟨⟨0, 0⟩, none⟩ =
      regLoop c ((pr.2.map keyLeft).sum + 2) ⟨pr.2, true, pr.1⟩ ⟨⟨0, 0⟩, none⟩ := by
    unfold scanGetItemRegular; rfl
  have hstart : ∀ k ∈ pr.2, ((k.orderBy || k.alt) = true) → ∃ s ∈ keys, k = startKey s := by
    intro k hk ho
    obtain ⟨i, hi, rfl⟩ := List.getElem_of_mem hk
    have hl := p2.length_eq
    have h2 : i < keys.length := by omega
    have := (List.forall₂_iff_get.1 p2).2 i h2 hi
    simp only [List.get_eq_getElem] at this
    have hsp : pr.2[i].spec = keys[i] := by
      have : (pr.2.map Key.spec)[i]'(by simpa using hi) = keys[i] := by simp only [p1]
      simpa using this
    refine ⟨keys[i], List.getElem_mem h2, this ?_⟩
    rw [← hsp]; exact ho
  have hinv : ∀ k ∈ pr.2, active true k = true → KInv c true keys ⟨⟨0, 0⟩, none⟩ k := by
    intro k hk ha
    have hb : k.orderBy = false ∧ k.alt = true := (hact k.spec).1 ha
    obtain ⟨s, hs, rfl⟩ := hstart k hk (by simp [hb.2])
    rw [active_spec, start_spec] at ha
    refine start_inv c true keys s ?_ hs ha
    intro st hst
    have := hsorted s hs hb.1 st hst
    have ha2 : s.alt = true := hb.2
    rw [ha2] at this; exact this
  have hO : ∀ k ∈ pr.2, OI c true ⟨⟨0, 0⟩, none⟩ k := by intro k _ h; exact absurd h (by simp)
  have h := run_ok c true keys (coherent_of_sane true back cmpV true keys hsane)
    (by obtain ⟨k, hk, ho⟩ := halt; exact ⟨k, hk, (hact k).2 ho⟩)
    n ⟨keys.map startKey, true, []⟩ ⟨pr.2, true, pr.1⟩ ⟨⟨0, 0⟩, none⟩ hcall rfl p1 hinv hO
    (by
      refine Nat.lt_of_le_of_lt List.countP_le_length (Nat.lt_of_le_of_lt (Nat.le_of_eq ?_) hn)
      unfold items
      rw [List.length_flatMap, hfe])
  unfold regularScan startScan
  rw [hmix]
  have hA : ∀ tid, Accept true keys pr.1 tid ↔ Matches keys tid := by
    intro tid
    unfold Accept Matches
    rw [p3 tid]
    simp only [forall_const, Bool.true_eq_false, IsEmpty.forall_iff, and_true]
    constructor
    · rintro ⟨h1, _, h2⟩ k hk ho
      cases ha : k.alt with
      | true => exact h1 k hk ((hact k).2 ⟨ho, ha⟩)
      | false => exact h2 k hk ho ha
    · intro h
      exact ⟨fun k hk ha => h k hk ((hact k).1 ha).1, husual, fun k hk ho _ => h k hk ho⟩
  refine ⟨h.finished, h.sorted, ?_, ?_⟩
  · intro tid
    constructor
    · rintro ⟨p, hp, rfl⟩
      exact (hA _).1 (h.sound p hp).2.2
    · intro hm
      obtain ⟨k, hk, ho, ha⟩ := halt
      obtain ⟨⟨st, hst, x, hx, rfl⟩, _⟩ := hm k hk ho
      obtain ⟨p, hp, he⟩ := h.complete x ((mem_items _ _ _).2 ⟨k, hk, (hact k).2 ⟨ho, ha⟩, st, hst, hx⟩)
        (by simp [beyond]) ((hA _).2 hm)
      exact ⟨p, hp, he⟩
  · intro p hp k hk ho ha hask
    rw [h.flags p hp]
    unfold asksAny
    rw [Bool.or_eq_true]; left
    rw [List.any_eq_true]
    exact ⟨k, hk, by simp [(hact k).2 ⟨ho, ha⟩, hask]⟩

theorem regLoop_empty (c : Cmp V) : ∀ n (s : ScanSt V) adv, s.altMode = true → s.tbm = [] →
    ∀ it r s', regLoop c n s adv ≠ .found it r s' := by
  intro n
  induction n with
  | zero => intro s adv _ _ it r s' h; exact absurd h (by simp [regLoop])
  | succ n ih =>
    intro s adv h1 h2 it r s'
    unfold regLoop
    simp only
    split
    · simp
    · split
      · simp
      · rw [if_neg]
        · apply ih
          · exact h1
          · exact h2
        · simp [matchAll, h1, h2]

/-- The index loses all rows of a query whose only condition on another column is an ORDER BY: with `order_by_attach`, any
filter keys on the column that stores the attached value and any ORDER BY key on another column (in particular on the attached
column itself), a regular scan returns nothing, whatever is stored. -/
theorem C20_order_by_attach_loses_rows (c : Cmp V) (keys : List (KeySpec V)) (n : Nat)
    (horder : ∃ k ∈ keys, k.orderBy = true ∧ k.alt = false) (halt : ∃ k ∈ keys, k.alt = true)
    (hf : ∀ k ∈ keys, k.orderBy = false → k.alt = true) : (regularScan c true keys n).1 = [] := by
  have hmix : isScanWithAltOrderKeys true (keys.map startKey) = true := by
    obtain ⟨k1, hk1, ha1⟩ := halt
    obtain ⟨k2, hk2, _, ha2⟩ := horder
    unfold isScanWithAltOrderKeys
    have hl : (keys.map startKey).length ≠ 1 := by
      rw [List.length_map]
      intro h
      obtain ⟨a, rfl⟩ := List.length_eq_one_iff.1 h
      simp only [List.mem_cons, List.not_mem_nil, or_false] at hk1 hk2
      subst hk1; subst hk2; simp [ha1] at ha2
    rw [if_neg hl]
    simp only [Bool.and_eq_true, List.any_map, List.any_eq_true]
    exact ⟨⟨k1, hk1, by simp [Function.comp, startKey, ha1]⟩, ⟨k2, hk2, by simp [Function.comp, startKey, ha2]⟩⟩
  unfold regularScan startScan
  rw [hmix]
  cases n with
  | zero => rfl
  | succ n =>
    unfold run
    have hp : (prepKeys true [] (keys.map startKey)).1 = [] := by
      obtain ⟨_, _, p3⟩ := prepKeys_ok keys (by
        intro k hk ho ha; rw [hf k hk ho] at ha; exact absurd ha (by simp)) true [] (fun _ => rfl)
      rw [List.eq_nil_iff_forall_not_mem]
      intro t ht
      obtain ⟨⟨h, _⟩, _⟩ := (p3 t).1 ht
      obtain ⟨k, hk, ho, ha⟩ := h rfl
      rw [hf k hk ho] at ha; exact absurd ha (by simp)
    have hcall : scanGetItemRegular c ⟨keys.map startKey, true, []⟩ ⟨⟨0, 0⟩, none⟩ =
        regLoop c (((prepKeys true [] (keys.map startKey)).2.map keyLeft).sum + 2)
          ⟨(prepKeys true [] (keys.map startKey)).2, true, (prepKeys true [] (keys.map startKey)).1⟩ ⟨⟨0, 0⟩, none⟩ := by
      unfold scanGetItemRegular; rfl
    rw [hcall]
    have := regLoop_empty c (((prepKeys true [] (keys.map startKey)).2.map keyLeft).sum + 2)
      ⟨(prepKeys true [] (keys.map startKey)).2, true, (prepKeys true [] (keys.map startKey)).1⟩ ⟨⟨0, 0⟩, none⟩ rfl hp
    revert this
    cases regLoop c (((prepKeys true [] (keys.map startKey)).2.map keyLeft).sum + 2)
      ⟨(prepKeys true [] (keys.map startKey)).2, true, (prepKeys true [] (keys.map startKey)).1⟩ ⟨⟨0, 0⟩, none⟩ with
    | done => intro _; rfl
    | stuck => intro _; rfl
    | found it r s' => intro h; exact absurd rfl (h it r s')

/-- `WHERE t @@ 'x:*' ORDER BY d <=> now()` on an index with `attach = d, to = t, order_by_attach`: one stored row matches. -/
def kAlt : KeySpec Nat := ⟨false, true, fun r => (r.any Option.isSome, false), [[⟨⟨0, 1⟩, some 5⟩]]⟩
def kOrd : KeySpec Nat := ⟨true, false, fun _ => (true, false), []⟩

/-- Negation of C20 for such a query: a matching row exists, and the scan returns nothing however often it is called. -/
theorem C20_order_by_attach_violated : Matches [kAlt, kOrd] ⟨0, 1⟩ ∧
    ∀ (c : Cmp Nat) n, (regularScan c true [kAlt, kOrd] n).1 = [] := by
  refine ⟨?_, fun c n => C20_order_by_attach_loses_rows c _ n ⟨kOrd, by simp, rfl, rfl⟩ ⟨kAlt, by simp, rfl⟩ ?_⟩
  · intro k hk ho
    simp only [List.mem_cons, List.not_mem_nil, or_false] at hk
    rcases hk with rfl | rfl
    · exact ⟨⟨_, List.mem_singleton.2 rfl, _, List.mem_singleton.2 rfl, rfl⟩, by decide⟩
    · exact absurd ho (by decide)
  · intro k hk ho
    simp only [List.mem_cons, List.not_mem_nil, or_false] at hk
    rcases hk with rfl | rfl
    · rfl
    · exact absurd ho (by decide)

/-- A condition on another column whose consistency function asks for a recheck, but only for row 1. -/
def kUsual : KeySpec Nat := ⟨false, false, fun r => (true, r.any (· == some (some 1))), [[⟨⟨0, 1⟩, some 1⟩, ⟨⟨0, 2⟩, some 2⟩]]⟩
def kAlt2 : KeySpec Nat := ⟨false, true, fun r => (r.any Option.isSome, false), [[⟨⟨0, 1⟩, some 5⟩, ⟨⟨0, 2⟩, some 6⟩]]⟩

/-- Negation of the recheck clause of C20 in mixed-order scans: row 1 needs a recheck and is returned as certain. -/
theorem C20_mixed_recheck_violated :
    (regularScan ⟨scanOrder true false compare, scanOrder true false compare⟩ true [kAlt2, kUsual] 5).1 =
      [(⟨⟨0, 1⟩, some 5⟩, false), (⟨⟨0, 2⟩, some 6⟩, false)] ∧
    NeedsRecheck [kAlt2, kUsual] ⟨0, 1⟩ := by
  constructor
  · with_unfolding_all rfl
  · exact ⟨kUsual, by simp, rfl, by decide⟩

/-! ### C43: distances are computed from the row's own entries -/

/-- What the distance functions of the ORDER BY keys should see for a row. -/
def ownEntries (keys : List (KeySpec V)) (tid : Iptr) : List (List (Option (Option V))) :=
  (keys.filter (·.orderBy)).map (fun k => k.held tid)

/-- All keys' items are sane. -/
def SaneAny (alt : Bool) (keys : List (KeySpec V)) : Prop :=
  ∀ x, StoredAny keys x → x.iptr.off ≠ 0 ∧ (alt = true → ∀ y, StoredAny keys y → x.iptr = y.iptr → x.info = y.info)

theorem coherent_any (alt back : Bool) (cmpV : V → V → Ordering) [TransCmp cmpV] (keys : List (KeySpec V))
    (h : SaneAny alt keys) : Coherent (scanOrder alt back cmpV) (StoredAny keys) := by
  refine ⟨fun a b ha hb => ⟨fun he => ?_, fun he => ?_⟩, fun a ha => (h a ha).1⟩
  · unfold scanOrder at he
    split at he
    · exact (cmpItem_iptr _ _ _ _ he).symm
    · exact cmpItem_iptr _ _ _ _ he
  · cases alt with
    | false =>
      cases back <;> simp only [scanOrder, cmpItem, Bool.false_eq_true, if_false, if_true] <;> rw [he] <;> exact ReflCmp.compare_self
    | true =>
      have hab : a = b := by
        have := (h a ha).2 rfl b hb he
        cases a; cases b; simp_all
      rw [hab]; exact ReflCmp.compare_self (cmp := scanOrder true back cmpV)

theorem views_ok (c : Cmp V) [TransCmp c.item] (hco : c.order = c.item) (specs : List (KeySpec V))
    (hU : Coherent c.item (· ∈ items false specs)) (hA : Coherent c.item (StoredAny specs))
    (hex : ∃ k ∈ specs, k.active false = true) :
    ∀ n (s : ScanSt V) (adv : Item V), s.altMode = false → s.keys.map Key.spec = specs →
    (∀ k ∈ s.keys, active false k = true → KInv c false specs adv k) → (∀ k ∈ s.keys, OI c false adv k) →
    ∀ p ∈ runViews c n s adv, p.2.1 = false → p.2.2 = ownEntries specs p.1.iptr := by
  intro n
  induction n with
  | zero => intro s adv _ _ _ _ p hp; exact absurd hp (by simp [runViews])
  | succ n ih =>
    intro s adv ham hspec hinv hO
    unfold runViews
    have hcall : scanGetItemRegular c s adv = regLoop c ((s.keys.map keyLeft).sum + 2) s adv := by
      unfold scanGetItemRegular; simp [ham]
    rw [hcall]
    have hfuel := fuel_ok c false specs s adv hspec hinv
    have h := regLoop_ok c false specs hU hex ((s.keys.map keyLeft).sum + 2) s adv ham hspec hinv hO (by omega)
    revert h
    cases regLoop c ((s.keys.map keyLeft).sum + 2) s adv with
    | stuck => intro _ p hp; exact absurd hp (by simp)
    | done => intro _ p hp; exact absurd hp (by simp)
    | found it r s' =>
      rintro ⟨a1, a2, a3, a4, a5, a6, a7, a8, a9, a10, a11, a12, a13⟩ p hp hr
      rcases List.mem_cons.1 hp with rfl | hp
      · simp only at hr ⊢
        unfold orderViews ownEntries
        rw [← a7, List.filter_map, List.map_map]
        apply List.map_congr_left
        intro k hk
        obtain ⟨hk, ho⟩ := List.mem_filter.1 hk
        refine a13 hr k hk rfl hco ho (StoredAny specs) hA ?_ ?_
        · obtain ⟨k', hk', _, st, hst, hx⟩ := (mem_items _ _ _).1 a1
          exact ⟨k', hk', st, hst, hx⟩
        · intro e he x hx
          exact ⟨k.spec, by rw [← a7]; exact List.mem_map_of_mem hk, e.stream, List.mem_map_of_mem he, hx⟩
      · exact ih s' it a5 a7 a8 a12 p hp hr

/-- C43, partial: in a forward regular scan whose keys all have the same order, the distance functions see for every row
returned without recheck exactly the entries that hold this row, with its additional info. Missing: rows returned with recheck
(`C43_recheck_violated`), mixed-order scans (`C43_mixed_violated`). -/
theorem C43_distance_partial (alternative alt : Bool) (cmpV : V → V → Ordering) [TransCmp cmpV] (keys : List (KeySpec V)) (n : Nat)
    (hkind : SameKind alternative keys) (hfilter : ∃ k ∈ keys, k.orderBy = false)
    (hsorted : ∀ k ∈ keys, ∀ st ∈ k.streams, SSorted (scanOrder alt false cmpV) st) (hsane : SaneAny alt keys) :
    ∀ p ∈ runViews ⟨scanOrder alt false cmpV, scanOrder alt false cmpV⟩ n (startScan alternative keys) ⟨⟨0, 0⟩, none⟩,
      p.2.1 = false → p.2.2 = ownEntries keys p.1.iptr := by
  set c : Cmp V := ⟨scanOrder alt false cmpV, scanOrder alt false cmpV⟩ with hc
  have htr : TransCmp c.item := inferInstanceAs (TransCmp (scanOrder alt false cmpV))
  unfold startScan
  rw [not_mixed alternative keys hkind]
  have hs : Sane alt keys := by
    have hsub : ∀ x, Stored keys x → StoredAny keys x := fun x ⟨k, hk, _, r⟩ => ⟨k, hk, r⟩
    intro x hx
    obtain ⟨h1, h2⟩ := hsane x (hsub x hx)
    exact ⟨h1, fun ha y hy => h2 ha y (hsub y hy)⟩
  exact views_ok c rfl keys (coherent_of_sane alt false cmpV false keys (sane_filter alt false keys hs))
    (coherent_any alt false cmpV keys hsane)
    (by obtain ⟨k, hk, ho⟩ := hfilter; exact ⟨k, hk, by simp [KeySpec.active, ho]⟩)
    n ⟨keys.map startKey, false, []⟩ ⟨⟨0, 0⟩, none⟩ rfl (startScan_specs keys)
    (by
      intro k hk ha
      obtain ⟨k0, hk0, rfl⟩ := List.mem_map.1 hk
      rw [active_spec, start_spec] at ha
      exact start_inv c false keys k0 (hsorted k0 hk0) hk0 ha)
    (by
      intro k hk
      obtain ⟨k0, hk0, rfl⟩ := List.mem_map.1 hk
      exact start_order c false k0 (fun _ _ _ => hsorted k0 hk0))

/-- Filter on word 'a' (row 2) that asks for a recheck; ORDER BY distance to words 'b' (rows 1 and 2). -/
def kRe : KeySpec Nat := ⟨false, false, fun _ => (true, true), [[⟨⟨0, 2⟩, none⟩]]⟩
def kNo : KeySpec Nat := ⟨false, false, fun _ => (true, false), [[⟨⟨0, 2⟩, none⟩]]⟩
def kDist : KeySpec Nat := ⟨true, false, fun _ => (true, false), [[⟨⟨0, 1⟩, some 7⟩, ⟨⟨0, 2⟩, some 8⟩]]⟩

/-- Negation of C43 for rows returned with recheck: row 2 holds the ORDER BY word, but the distance function is told it does not.
With a filter that does not ask for a recheck it is told the truth. -/
theorem C43_recheck_violated :
    runViews ⟨scanOrder false false compare, scanOrder false false compare⟩ 5 (startScan false [kRe, kDist]) ⟨⟨0, 0⟩, none⟩ =
      [(⟨⟨0, 2⟩, none⟩, true, [[none]])] ∧
    ownEntries [kRe, kDist] ⟨0, 2⟩ = [[some (some 8)]] ∧
    runViews ⟨scanOrder false false compare, scanOrder false false compare⟩ 5 (startScan false [kNo, kDist]) ⟨⟨0, 0⟩, none⟩ =
      [(⟨⟨0, 2⟩, none⟩, false, [[some (some 8)]])] := by
  refine ⟨by with_unfolding_all rfl, by decide, by with_unfolding_all rfl⟩

/-- Rows 2 and 1 in the order of the attached value; a second column filters and orders. -/
def kAlt3 : KeySpec Nat := ⟨false, true, fun _ => (true, false), [[⟨⟨0, 2⟩, some 5⟩, ⟨⟨0, 1⟩, some 6⟩]]⟩
def kUsual3 : KeySpec Nat := ⟨false, false, fun _ => (true, false), [[⟨⟨0, 1⟩, none⟩, ⟨⟨0, 2⟩, none⟩]]⟩

/-- Negation of C43 for mixed-order scans: the entries of the ORDER BY key only move forward by row pointer while the rows come in
the order of the attached value, so the distance function is told that row 1 does not hold the ORDER BY word. -/
theorem C43_mixed_violated :
    runViews ⟨scanOrder true false compare, scanOrder false false compare⟩ 5 (startScan true [kAlt3, kUsual3, kDist]) ⟨⟨0, 0⟩, none⟩ =
      [(⟨⟨0, 2⟩, some 5⟩, false, [[some (some 8)]]), (⟨⟨0, 1⟩, some 6⟩, false, [[none]])] ∧
    ownEntries [kAlt3, kUsual3, kDist] ⟨0, 1⟩ = [[some (some 7)]] := by
  refine ⟨by with_unfolding_all rfl, by decide⟩

end Rum.Props.ScanRegular

import Verif.ScanLemmas
set_option linter.unusedSectionVars false
/-! Whole scans: repeated calls of `scanGetItemRegular`. -/
namespace Rum.Scan
open Std
variable {V : Type}

theorem left_ge (cmp : Item V → Item V → Ordering) (adv : Item V) (e : Ent V) (h : e.Before cmp adv) :
    e.stream.countP (beyond cmp adv) ≤ e.left := by
  unfold Ent.Before at h
  unfold Ent.left
  by_cases h0 : adv.iptr.off = 0
  · rw [if_pos h0] at h
    have := List.countP_le_length (p := beyond cmp adv) (l := e.stream)
    cases hf : e.fin with
    | true => rw [h.2 hf]; simp
    | false => rw [← h.1] at this ⊢; simp; omega
  · rw [if_neg h0] at h
    obtain ⟨pre, he, hp⟩ := h
    rw [he, List.countP_append]
    have h1 : pre.countP (beyond cmp adv) = 0 := by
      rw [List.countP_eq_zero]; intro x hx; simp [beyond, h0, hp x hx]
    have := List.countP_le_length (p := beyond cmp adv) (l := e.remaining)
    rw [h1]
    unfold Ent.remaining at this ⊢
    cases hf : e.fin with
    | true => simp
    | false => simp only [hf, Bool.false_eq_true, if_false, List.length_cons] at this ⊢; omega

theorem sum_map_le {α : Type} (f g : α → Nat) (l : List α) (h : ∀ x ∈ l, f x ≤ g x) : (l.map f).sum ≤ (l.map g).sum := by
  induction l with
  | nil => simp
  | cons a l ih =>
    simp only [List.map_cons, List.sum_cons]
    have := h a (by simp)
    have := ih (fun x hx => h x (by simp [hx]))
    omega

section
variable (c : Cmp V) [TransCmp c.item] (am : Bool) (specs : List (KeySpec V))

theorem fuel_ok (s : ScanSt V) (adv : Item V) (hspec : s.keys.map Key.spec = specs)
    (hinv : ∀ k ∈ s.keys, active am k = true → KInv c am specs adv k) :
    (items am specs).countP (beyond c.item adv) ≤ (s.keys.map keyLeft).sum := by
  unfold items
  rw [List.countP_flatMap, ← hspec]
  have : ∀ keys : List (Key V), (∀ k ∈ keys, active am k = true → KInv c am specs adv k) →
      (((keys.map Key.spec).filter (KeySpec.active am)).map
        (List.countP (beyond c.item adv) ∘ fun k => k.streams.flatten)).sum ≤ (keys.map keyLeft).sum := by
    intro keys
    induction keys with
    | nil => intro _; simp
    | cons k ks ih =>
      intro hk
      have ih := ih (fun k' h' => hk k' (by simp [h']))
      simp only [List.map_cons, List.sum_cons]
      by_cases ha : KeySpec.active am k.spec = true
      · rw [List.filter_cons_of_pos ha]
        simp only [List.map_cons, List.sum_cons, Function.comp]
        have hb := (hk k (by simp) ha).before
        have : List.countP (beyond c.item adv) k.spec.streams.flatten ≤ keyLeft k := by
          unfold keyLeft Key.spec
          rw [List.countP_flatten, List.map_map]
          exact sum_map_le _ _ _ (fun e he => left_ge c.item adv e (hb e he))
        have h2 : (((ks.map Key.spec).filter (KeySpec.active am)).map
          (List.countP (beyond c.item adv) ∘ fun k => k.streams.flatten)).sum ≤ (ks.map keyLeft).sum := ih
        simp only [Function.comp_def] at h2
        omega
      · rw [List.filter_cons_of_neg ha]; omega
  exact this s.keys hinv

/-- Flags of filter keys that do not take part in the main loop. -/
def stale (am : Bool) (keys : List (Key V)) : Bool := keys.any (fun k => !k.orderBy && !active am k && k.recheck)

/-- Some key of the main loop asks for a recheck. -/
def asksAny (am : Bool) (specs : List (KeySpec V)) (tid : Iptr) : Bool :=
  specs.any (fun k => k.active am && k.asks tid)

theorem stale_congr (keys keys' : List (Key V)) (hs : keys'.map Key.spec = keys.map Key.spec)
    (h : List.Forall₂ (fun k k' => k.orderBy = false → active am k = false → k' = k) keys keys') :
    stale am keys' = stale am keys := by
  unfold stale
  induction h with
  | nil => rfl
  | cons h _ ih =>
    rename_i a b _ _ _
    simp only [List.map_cons, List.cons.injEq] at hs
    simp only [List.any_cons]
    rw [ih hs.2]
    congr 1
    have h1 : b.orderBy = a.orderBy := congrArg KeySpec.orderBy hs.1
    have h2 : active am b = active am a := by rw [active_spec, active_spec, hs.1]
    rw [h1, h2]
    cases ho : a.orderBy with
    | true => rfl
    | false =>
      cases ha : active am a with
      | true => rfl
      | false => rw [h ho ha]

theorem flags_split (it : Iptr) (keys : List (Key V))
    (h : ∀ k ∈ keys, active am k = true → k.recheck = k.spec.asks it) :
    keys.any (fun k => !k.orderBy && k.recheck) = (asksAny am (keys.map Key.spec) it || stale am keys) := by
  unfold asksAny stale
  rw [List.any_map]
  induction keys with
  | nil => rfl
  | cons k ks ih =>
    simp only [List.any_cons]
    rw [ih (fun k' h' => h k' (by simp [h']))]
    have hk := h k (by simp)
    simp only [Function.comp]
    rw [← active_spec]
    cases ha : active am k with
    | true =>
      have ho : k.orderBy = false := by unfold active at ha; simp at ha; exact ha.1
      rw [hk ha, ho]; simp [Bool.or_assoc]
    | false =>
      cases k.orderBy <;> cases k.recheck <;> simp

theorem call_noprep (s : ScanSt V) (adv : Item V) (h : adv.iptr.off ≠ 0) :
    scanGetItemRegular c s adv = regLoop c ((s.keys.map keyLeft).sum + 2) s adv := by
  unfold scanGetItemRegular
  have : (s.altMode && adv.iptr.off == 0) = false := by simp [h]
  simp [this]

/-- What the user gets from a whole scan that starts behind `adv`. -/
structure RunOK (adv : Item V) (tbm : List Iptr) (st : Bool) (out : List (Item V × Bool) × Bool) : Prop where
  finished : out.2 = true
  sorted : (out.1.map Prod.fst).Pairwise (fun a b => c.item a b = .lt)
  sound : ∀ p ∈ out.1, p.1 ∈ items am specs ∧ beyond c.item adv p.1 = true ∧ Accept am specs tbm p.1.iptr
  complete : ∀ x ∈ items am specs, beyond c.item adv x = true → Accept am specs tbm x.iptr →
    ∃ p ∈ out.1, p.1.iptr = x.iptr
  flags : ∀ p ∈ out.1, p.2 = (asksAny am specs p.1.iptr || st)

theorem run_ok (hU : Coherent c.item (· ∈ items am specs)) (hex : ∃ k ∈ specs, k.active am = true) :
    ∀ n (s0 s : ScanSt V) (adv : Item V),
    scanGetItemRegular c s0 adv = regLoop c ((s.keys.map keyLeft).sum + 2) s adv → s.altMode = am →
    s.keys.map Key.spec = specs →
    (∀ k ∈ s.keys, active am k = true → KInv c am specs adv k) → (∀ k ∈ s.keys, OI c am adv k) →
    (items am specs).countP (beyond c.item adv) < n →
    RunOK c am specs adv s.tbm (stale am s.keys) (run c n s0 adv) := by
  obtain ⟨K, _, key, h1, h2, h3⟩ := exists_key c.item
  intro n
  induction n with
  | zero => intro s0 s adv _ _ _ _ _ h; omega
  | succ n ih =>
    intro s0 s adv hprep ham hspec hinv hO hn
    unfold run
    rw [hprep]
    have hfuel := fuel_ok c am specs s adv hspec hinv
    have hcall := regLoop_ok c am specs hU hex ((s.keys.map keyLeft).sum + 2) s adv ham hspec hinv hO (by omega)
    revert hcall
    cases regLoop c ((s.keys.map keyLeft).sum + 2) s adv with
    | stuck => intro h; exact h.elim
    | done =>
      intro h
      exact ⟨rfl, by simp, by simp, fun x hx hb ha => absurd ha (h x hx hb), by simp⟩
    | found it r s' =>
      rintro ⟨a1, a2, a3, a4, a5, a6, a7, a8, a9, a10, a11, a12, _⟩
      have hv := hU.valid it a1
      have hlt : (items am specs).countP (beyond c.item it) < (items am specs).countP (beyond c.item adv) := by
        apply countP_lt
        · intro x _ hx
          unfold beyond at hx a2 ⊢
          simp only [Bool.or_eq_true, beq_iff_eq, hv, false_or] at hx a2 ⊢
          rcases a2 with h | h
          · exact .inl h
          · right; rw [h3] at *; exact h.trans hx
        · refine ⟨it, a1, a2, ?_⟩
          unfold beyond
          simp [hv, ReflCmp.compare_self (cmp := c.item)]
      have hr := ih s' s' it (call_noprep c s' it hv) a5 a7 a8 a12 (by omega)
      rw [a6] at hr
      have hst : stale am s'.keys = stale am s.keys := stale_congr am _ _ (by rw [a7, hspec]) a11
      rw [hst] at hr
      refine ⟨hr.finished, ?_, ?_, ?_, ?_⟩
      · simp only [List.map_cons, List.pairwise_cons]
        refine ⟨?_, hr.sorted⟩
        intro x hx
        obtain ⟨p, hp, rfl⟩ := List.mem_map.1 hx
        have := (hr.sound p hp).2.1
        unfold beyond at this
        simp only [Bool.or_eq_true, beq_iff_eq, hv, false_or] at this
        rw [h1]; rw [h3] at this; exact this
      · intro p hp
        rcases List.mem_cons.1 hp with rfl | hp
        · exact ⟨a1, a2, a3⟩
        · obtain ⟨b1, b2, b3⟩ := hr.sound p hp
          refine ⟨b1, ?_, b3⟩
          unfold beyond at a2 b2 ⊢
          simp only [Bool.or_eq_true, beq_iff_eq, hv, false_or] at a2 b2 ⊢
          rcases a2 with h | h
          · exact .inl h
          · right; rw [h3] at *; exact h.trans b2
      · intro x hx hb ha
        by_cases he : it.iptr = x.iptr
        · exact ⟨_, List.mem_cons_self, he⟩
        · have hle := a4 x hx hb ha
          have hne : c.item it x ≠ .eq := fun h => he ((hU.iff _ _ a1 hx).1 h)
          have : beyond c.item it x = true := by
            unfold beyond
            simp only [Bool.or_eq_true, beq_iff_eq]
            right
            rw [Ne, h3, _root_.not_lt] at hle
            rw [Ne, h2] at hne
            rw [h3]; exact _root_.lt_of_le_of_ne hle hne
          obtain ⟨p, hp, hpx⟩ := hr.complete x hx this ha
          exact ⟨p, List.mem_cons_of_mem _ hp, hpx⟩
      · intro p hp
        rcases List.mem_cons.1 hp with rfl | hp
        · show r = _
          rw [a9, flags_split am it.iptr s'.keys a10, a7, hst]
        · exact hr.flags p hp

end

/-! ### The start of a scan -/

theorem start_spec (k : KeySpec V) : (startKey k).spec = k := by
  cases k; simp [startKey, Key.spec, Ent.start, Function.comp_def]

theorem startScan_specs (keys : List (KeySpec V)) : (keys.map startKey).map Key.spec = keys := by
  rw [List.map_map]
  conv => rhs; rw [← List.map_id keys]
  exact List.map_congr_left (fun k _ => start_spec k)

section
variable (c : Cmp V) [TransCmp c.item] (am : Bool) (specs : List (KeySpec V))

theorem start_inv (k : KeySpec V) (hs : ∀ st ∈ k.streams, SSorted c.item st) (hk : k ∈ specs)
    (ha : k.active am = true) : KInv c am specs ⟨⟨0, 0⟩, none⟩ (startKey k) := by
  refine ⟨?_, ?_, .inl rfl, rfl⟩
  · intro e he
    obtain ⟨st, hst, rfl⟩ := List.mem_map.1 he
    exact ⟨hs st hst, fun x hx => (mem_items _ _ _).2 ⟨k, hk, ha, st, hst, hx⟩⟩
  · intro e he
    obtain ⟨st, hst, rfl⟩ := List.mem_map.1 he
    unfold Ent.Before
    rw [if_pos rfl]
    exact ⟨rfl, fun h => by simpa [Ent.start] using h⟩

theorem start_order (k : KeySpec V) (hs : am = false → c.order = c.item → k.orderBy = true → ∀ st ∈ k.streams, SSorted c.item st) :
    OI c am ⟨⟨0, 0⟩, none⟩ (startKey k) := by
  intro q1 q2 q3 e he
  obtain ⟨st, hst, rfl⟩ := List.mem_map.1 he
  refine ⟨hs q1 q2 q3 st hst, ?_⟩
  unfold Ent.Before
  rw [if_pos rfl]
  exact ⟨rfl, fun h => by simpa [Ent.start] using h⟩

end

/-! ### Preparing a mixed-order scan -/

/-- Comparison of row pointers. -/
abbrev byTid : Item V → Item V → Ordering := fun a b => cmpIptr a.iptr b.iptr

instance : TransCmp (byTid (V := V)) where
  eq_swap := OrientedCmp.eq_swap (cmp := cmpIptr)
  isLE_trans := TransCmp.isLE_trans (cmp := cmpIptr)

theorem coherent_byTid : Coherent (byTid (V := V)) (fun x => x.iptr.off ≠ 0) :=
  ⟨fun _ _ _ _ => ⟨fun h => LawfulEqCmp.eq_of_compare h, fun h => by
    show cmpIptr _ _ = _; rw [h]; exact ReflCmp.compare_self⟩, fun _ h => h⟩

theorem keyGetItem_orderBy (cmp : Item V → Item V → Ordering) (k : Key V) : (keyGetItem cmp k).spec = k.spec := by
  unfold keyGetItem; split
  · rfl
  · split <;> rfl

theorem advance_all_spec (cmp : Item V → Item V → Ordering) [TransCmp cmp] (adv : Item V) (k : Key V) :
    ({ k with ents := k.ents.map (advance cmp adv) } : Key V).spec = k.spec := by
  unfold Key.spec
  simp only [List.map_map]
  congr 1
  exact List.map_congr_left (fun e _ => advance_stream cmp adv e)

theorem collectLoop_ok : ∀ (n : Nat) (k : Key V) (adv : Iptr),
    k.Good byTid (fun x => x.iptr.off ≠ 0) → (∀ e ∈ k.ents, e.Before byTid ⟨adv, none⟩) → k.Cache → k.fin = false →
    (k.spec.streams.flatten).countP (beyond byTid ⟨adv, none⟩) < n →
    (collectLoop n k adv).2.spec = k.spec ∧
    ∀ t, t ∈ (collectLoop n k adv).1 ↔ k.spec.Accepts t ∧ beyond byTid (⟨adv, none⟩ : Item V) ⟨t, none⟩ = true := by
  intro n
  induction n with
  | zero => intro k adv _ _ _ _ h; omega
  | succ n ih =>
    intro k adv hg hb hc hf hn
    unfold collectLoop
    simp only
    set k0 : Key V := { k with ents := k.ents.map (advance byTid ⟨adv, none⟩) } with hk0
    have hs0 : k0.spec = k.spec := advance_all_spec byTid ⟨adv, none⟩ k
    have hg0 : k0.Good byTid (fun x => x.iptr.off ≠ 0) := by
      intro e he
      obtain ⟨e0, he0, rfl⟩ := List.mem_map.1 he
      rw [advance_stream]; exact hg e0 he0
    have hat : ∀ e ∈ k0.ents, e.At byTid ⟨adv, none⟩ := by
      intro e he
      obtain ⟨e0, he0, rfl⟩ := List.mem_map.1 he
      exact advance_at byTid _ e0 (hg e0 he0).1 (hb e0 he0)
    have hc0 : k0.Cache := by
      unfold Key.Cache at hc ⊢
      rw [hs0]
      rcases hc with h | ⟨⟨e, he, hx⟩, h⟩
      · exact .inl h
      · exact .inr ⟨⟨_, List.mem_map_of_mem he, by rw [advance_stream]; exact hx⟩, h⟩
    obtain ⟨r1, r2, r3⟩ := keyGetItem_ok byTid _ coherent_byTid ⟨adv, none⟩ k0 hg0 hat hc0 hf
    change (if (keyGetItem byTid k0).fin = true then _ else _ : List Iptr × Key V).2.spec = _ ∧
      ∀ t, t ∈ (if (keyGetItem byTid k0).fin = true then _ else _ : List Iptr × Key V).1 ↔ _
    have hst : ∀ (P : List (Item V) → Prop), (∀ e ∈ k0.ents, P e.stream) ↔ ∀ st ∈ k.spec.streams, P st := by
      intro P; rw [← hs0]; simp [Key.spec]
    have hst' : ∀ (P : List (Item V) → Prop), (∃ e ∈ k0.ents, P e.stream) ↔ ∃ st ∈ k.spec.streams, P st := by
      intro P; rw [← hs0]; simp [Key.spec]
    have hbt : ∀ (x : Item V), beyond byTid ⟨adv, none⟩ x = beyond byTid (⟨adv, none⟩ : Item V) ⟨x.iptr, none⟩ := fun _ => rfl
    rcases r3 with ⟨q1, q2⟩ | ⟨q1, q2, q3, q4, q5⟩
    · rw [if_pos q1]
      refine ⟨r2.trans hs0, ?_⟩
      intro t
      simp only [List.not_mem_nil, false_iff, not_and]
      rintro ⟨⟨st, hst1, x, hx, rfl⟩, _⟩
      have := (hst (fun st => ∀ x ∈ st, beyond byTid ⟨adv, none⟩ x = false)).1 q2 st hst1 x hx
      rw [hbt] at this
      simp [this]
    · rw [if_neg (by simp [q1])]
      set k1 := keyGetItem byTid k0 with hk1
      obtain ⟨st, hst1, hcur⟩ := (hst' (fun st => k1.cur ∈ st)).1 q3
      have hcv : k1.cur.iptr.off ≠ 0 := by
        obtain ⟨e, he, hx⟩ := q3; exact (hg0 e he).2 _ hx
      have q5' := (hst (fun st => ∀ x ∈ st, beyond byTid ⟨adv, none⟩ x = true → byTid k1.cur x ≠ .gt)).1 q5
      have hcong : ∀ (a b : Item V), a.iptr = b.iptr → ∀ c : Item V, byTid c a = byTid c b := by
        intro a b h c; show cmpIptr _ _ = cmpIptr _ _; rw [h]
      obtain ⟨K, _, key, h1, h2, h3⟩ := exists_key (byTid (V := V))
      have hadvle : (⟨adv, none⟩ : Item V).iptr.off = 0 ∨ byTid (⟨adv, none⟩ : Item V) ⟨k1.cur.iptr, none⟩ ≠ .gt := by
        rw [hbt] at q4
        unfold beyond at q4
        simp only [Bool.or_eq_true, beq_iff_eq] at q4
        rcases q4 with h | h
        · exact .inl h
        · right; rw [Ne, h3]; rw [h3] at h; exact not_lt_of_gt h
      have hmono : ∀ x : Item V, beyond byTid ⟨k1.cur.iptr, none⟩ x = true → beyond byTid ⟨adv, none⟩ x = true := by
        intro x hx
        rw [hbt k1.cur] at q4
        unfold beyond at hx q4 ⊢
        simp only [Bool.or_eq_true, beq_iff_eq, hcv, false_or] at hx q4 ⊢
        rcases q4 with h | h
        · exact .inl h
        · right; rw [h3] at *; exact h.trans hx
      have hs1 : k1.spec = k.spec := r2.trans hs0
      have hrec := ih k1 k1.cur.iptr (by unfold Key.Good; rw [r1]; exact hg0)
        (by intro e he
            rw [r1] at he
            exact at_before byTid _ _ e (hg0 e he).1 (hat e he) hcv hadvle)
        q2 q1 (by
          rw [hs1]
          refine Nat.lt_of_lt_of_le (countP_lt (beyond byTid ⟨adv, none⟩) _ _ (fun x _ => hmono x)
            ⟨k1.cur, List.mem_flatten.2 ⟨st, hst1, hcur⟩, q4, ?_⟩) (by omega)
          unfold beyond byTid
          simp only [hcv, beq_eq_false_iff_ne, ne_eq, Bool.or_eq_false_iff, not_false_eq_true, true_and]
          rw [ReflCmp.compare_self (cmp := cmpIptr)]; decide)
      refine ⟨hrec.1.trans hs1, ?_⟩
      rw [hs1] at hrec
      have hcache := (q2.resolve_left hcv).2
      rw [hs1] at hcache
      have hcons : k1.cons = k.spec.cons := by rw [← hs1]; rfl
      rw [hcons] at hcache
      have hacc : k.spec.Accepts k1.cur.iptr ↔ k1.isMatch = true := by
        have : k1.isMatch = (k.spec.cons (k.spec.held k1.cur.iptr)).1 := by rw [← hcache]
        rw [this]
        exact ⟨fun h => h.2, fun h => ⟨⟨st, hst1, _, hcur, rfl⟩, h⟩⟩
      intro t
      have hmem : (t ∈ (if k1.isMatch then k1.cur.iptr :: (collectLoop n k1 k1.cur.iptr).1 else (collectLoop n k1 k1.cur.iptr).1)) ↔
          ((k1.isMatch = true ∧ t = k1.cur.iptr) ∨ t ∈ (collectLoop n k1 k1.cur.iptr).1) := by
        cases k1.isMatch <;> simp
      show (t ∈ (if k1.isMatch then k1.cur.iptr :: (collectLoop n k1 k1.cur.iptr).1 else (collectLoop n k1 k1.cur.iptr).1)) ↔ _
      rw [hmem, hrec.2 t]
      constructor
      · rintro (⟨hm, rfl⟩ | ⟨ha, hbt'⟩)
        · exact ⟨hacc.2 hm, by rw [← hbt]; exact q4⟩
        · exact ⟨ha, hmono _ hbt'⟩
      · rintro ⟨ha, hbt'⟩
        by_cases he : t = k1.cur.iptr
        · subst he; exact .inl ⟨hacc.1 ha, rfl⟩
        · right
          refine ⟨ha, ?_⟩
          obtain ⟨⟨st', hst', x, hx, rfl⟩, _⟩ := ha
          have hle := q5' st' hst' x hx (by rw [hbt]; exact hbt')
          have hne : byTid k1.cur x ≠ .eq := fun h => he (LawfulEqCmp.eq_of_compare (cmp := cmpIptr) h).symm
          have hlt : byTid k1.cur x = .lt := by
            cases hh : byTid k1.cur x with
            | lt => rfl
            | eq => exact absurd hh hne
            | gt => exact absurd hh hle
          have hgt : cmpIptr x.iptr k1.cur.iptr = .gt := OrientedCmp.gt_of_lt hlt
          simp [beyond, byTid, hgt]

/-- The bitmap of a mixed-order scan after the preparation. -/
theorem prepKeys_ok (keys : List (KeySpec V))
    (hs : ∀ k ∈ keys, k.orderBy = false → k.alt = false → ∀ st ∈ k.streams,
      SSorted byTid st ∧ ∀ x ∈ st, x.iptr.off ≠ 0) : ∀ (first : Bool) (tbm : List Iptr), (first = true → tbm = []) →
    (prepKeys first tbm (keys.map startKey)).2.map Key.spec = keys ∧
    List.Forall₂ (fun s k => (s.orderBy || s.alt) = true → k = startKey s) keys (prepKeys first tbm (keys.map startKey)).2 ∧
    ∀ t, t ∈ (prepKeys first tbm (keys.map startKey)).1 ↔
      ((first = true → ∃ k ∈ keys, k.orderBy = false ∧ k.alt = false) ∧ (first = false → t ∈ tbm)) ∧
      ∀ k ∈ keys, k.orderBy = false → k.alt = false → k.Accepts t := by
  induction keys with
  | nil =>
    intro first tbm hf
    refine ⟨rfl, .nil, ?_⟩
    intro t
    cases first with
    | true => simp [prepKeys, hf rfl]
    | false => simp [prepKeys]
  | cons k ks ih =>
    intro first tbm hf
    have ih := ih (fun k' h' => hs k' (by simp [h']))
    simp only [List.map_cons]
    unfold prepKeys
    have e1 : (startKey k).orderBy = k.orderBy := rfl
    have e2 : (startKey k).alt = k.alt := rfl
    rw [e1, e2]
    by_cases ho : (k.orderBy || k.alt) = true
    · rw [if_pos ho]
      obtain ⟨i1, i2, i3⟩ := ih first tbm hf
      refine ⟨by simp [i1, start_spec], .cons (fun _ => rfl) i2, ?_⟩
      intro t
      have hno : ∀ {P : Prop}, (k.orderBy = false → k.alt = false → P) ↔ True := by
        intro P; simp only [iff_true]; intro h1 h2; simp [h1, h2] at ho
      have hno2 : ¬ (k.orderBy = false ∧ k.alt = false) := by
        rintro ⟨h1, h2⟩; simp [h1, h2] at ho
      rw [i3 t]
      simp only [List.mem_cons, forall_eq_or_imp, exists_eq_or_imp, hno, true_and, hno2, false_or]
    · rw [if_neg ho]
      have ho' : k.orderBy = false ∧ k.alt = false := by simpa using ho
      have hk := hs k (by simp) ho'.1 ho'.2
      have hcl := collectLoop_ok (keyLeft (startKey k) + 1) (startKey k) ⟨0, 0⟩
        (by intro e he
            obtain ⟨st, hst, rfl⟩ := List.mem_map.1 he
            exact hk st hst)
        (by intro e he
            obtain ⟨st, hst, rfl⟩ := List.mem_map.1 he
            unfold Ent.Before
            rw [if_pos rfl]
            exact ⟨rfl, fun h => by simpa [Ent.start] using h⟩)
        (.inl rfl) rfl
        (by
          rw [start_spec]
          have : keyLeft (startKey k) = (k.streams.map (fun st => (Ent.start st ⟨⟨0, 0⟩, none⟩).left)).sum := by
            simp [keyLeft, startKey, Function.comp_def]
          rw [this, List.countP_flatten]
          refine Nat.lt_succ_of_le (sum_map_le _ _ _ ?_)
          intro st _
          have := List.countP_le_length (p := beyond byTid (⟨⟨0, 0⟩, none⟩ : Item V)) (l := st)
          unfold Ent.left Ent.start
          cases st with
          | nil => simp
          | cons a l => simp only [List.isEmpty_cons, Bool.false_eq_true, if_false]; omega)
      set cl := collectLoop (keyLeft (startKey k) + 1) (startKey k) ⟨0, 0⟩ with hcl'
      obtain ⟨c1, c2⟩ := hcl
      rw [start_spec] at c1 c2
      have c2' : ∀ t, t ∈ cl.1 ↔ k.Accepts t := by
        intro t; rw [c2 t]; simp [beyond]
      obtain ⟨i1, i2, i3⟩ := ih false (if first = true then tbm ++ cl.1 else tbm.filter (fun t => cl.1.contains t)) (by simp)
      refine ⟨?_, .cons (fun h => absurd h ho) i2, ?_⟩
      · simp only [List.map_cons]
        exact congr (congrArg List.cons c1) i1
      intro t
      show t ∈ (prepKeys false (if first = true then tbm ++ cl.1 else tbm.filter (fun t => cl.1.contains t)) (ks.map startKey)).1 ↔ _
      rw [i3 t]
      simp only [List.mem_cons, forall_eq_or_imp, exists_eq_or_imp, ho'.1, ho'.2, forall_const, true_and,
        Bool.false_eq_true, IsEmpty.forall_iff]
      cases first with
      | true =>
        rw [hf rfl]
        simp [c2']
      | false =>
        simp [List.mem_filter, c2', and_assoc]

end Rum.Scan

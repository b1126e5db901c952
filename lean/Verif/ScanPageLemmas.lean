import Verif.ScanPage
import Verif.LeafPageLemmas
set_option linter.unusedSectionVars false
namespace Rum.Leaf
open Rum Rum.Codec Std

theorem mkEnt_offn (c : Cfg) (it : Item Datum) (i q : Nat) : (mkEnt c it i q).offn = i := by
  unfold mkEnt; split <;> rfl

/-- Shape of the directory: offsets strictly increasing, one entry per item up to 32. -/
theorem updLoop_shape (c : Cfg) (data : List Nat) (n fuel : Nat) :
    ∀ (i : Nat) (item : Item Datum) (pos : Nat) (ents ents' : List IndexEnt) (e : Nat),
    updLoop c data n fuel i item pos ents = some (ents', e) → 1 ≤ i → i + fuel = n + 1 →
    ents.Pairwise (fun a b => a.offn < b.offn) → (∀ a ∈ ents, 1 ≤ a.offn ∧ a.offn < i) →
    (n ≤ 32 → ents.length = i - 1) → (33 ≤ n → ents.length ≤ 32 ∧ (ents.length < 32 → (i - 1) * 33 ≤ (ents.length + 1) * n)) →
    ents'.Pairwise (fun a b => a.offn < b.offn) ∧ (∀ a ∈ ents', 1 ≤ a.offn) ∧ ents'.length = min n 32 := by
  induction fuel with
  | zero =>
    intro i item pos ents ents' e h hi hn hp ho h1 h2
    simp only [updLoop, Option.some.injEq, Prod.mk.injEq] at h
    obtain ⟨rfl, rfl⟩ := h
    refine ⟨hp, fun a ha => (ho a ha).1, ?_⟩
    by_cases hc : n ≤ 32
    · have := h1 hc; omega
    · obtain ⟨q1, q2⟩ := h2 (by omega)
      have : ¬ ents.length < 32 := fun hl => by
        have h3 := q2 hl
        have e1 : i - 1 = n := by omega
        rw [e1] at h3
        have : (ents.length + 1) * n ≤ 32 * n := Nat.mul_le_mul_right _ (by omega)
        omega
      omega
  | succ fuel ih =>
    intro i item pos ents ents' e h hi hn hp ho h1 h2
    simp only [updLoop] at h
    split at h
    · cases h
    · next hcap =>
      split at h
      · cases h
      · next it rest hr =>
        refine ih (i + 1) _ _ _ _ _ h (by omega) (by omega) ?_ ?_ ?_ ?_
        · split
          · rw [List.pairwise_append]
            refine ⟨hp, by simp, fun a ha b hb => ?_⟩
            simp only [List.mem_singleton] at hb
            subst hb
            rw [mkEnt_offn]; exact (ho a ha).2
          · exact hp
        · intro a ha
          split at ha
          · rcases List.mem_append.1 ha with h' | h'
            · have := ho a h'; omega
            · simp only [List.mem_singleton] at h'
              subst h'
              rw [mkEnt_offn]; omega
          · have := ho a ha; omega
        · intro hc
          have hl := h1 hc
          rw [if_pos]
          · simp; omega
          · simp only [indexCount]
            apply decide_eq_true
            rw [hl, show i - 1 + 1 = i by omega]
            exact Nat.mul_lt_mul_of_pos_left (by omega) (by omega)
        · intro hc
          obtain ⟨q1, q2⟩ := h2 hc
          by_cases hpl : decide (i * (indexCount + 1) > (ents.length + 1) * n) = true
          · rw [if_pos hpl]
            have hlt : ¬ ents.length ≥ indexCount := fun h => hcap ⟨hpl, h⟩
            simp only [indexCount] at hlt
            simp only [List.length_append, List.length_singleton]
            refine ⟨by omega, fun hl => ?_⟩
            have := q2 (by omega)
            rw [show i + 1 - 1 = i - 1 + 1 by omega, Nat.add_mul (i - 1) 1 33, Nat.add_mul (ents.length + 1) 1 n]
            omega
          · rw [if_neg hpl]
            refine ⟨q1, fun hl => ?_⟩
            have := Nat.not_lt.1 (fun h => hpl (decide_eq_true h))
            simp only [indexCount] at this
            rw [show i + 1 - 1 = i by omega]; exact this

/-- The directory of a page. -/
structure DirFull (c : Cfg) (its : List (Item Datum)) (idx : List IndexEnt) : Prop where
  ents : ∃ ents, idx = ents ++ List.replicate (32 - ents.length) invalidEnt ∧ ents.length = min its.length 32 ∧
    ents.Pairwise (fun a b => a.offn < b.offn) ∧ ∀ e ∈ ents, EntOK c its e

theorem updateItemIndexes_full (c : Cfg) (its : List (Item Datum)) (data : List Nat) (hok : ∀ it ∈ its, ItemOK c it)
    (hst : ∀ it ∈ its, it.stored c = it) (hd : placeList c 0 ⟨0, 0⟩ its = some data) (idx : List IndexEnt) (e : Nat)
    (h : updateItemIndexes c data its.length = some (idx, e)) : DirFull c its idx := by
  obtain ⟨ents, h1, h2, h3⟩ := updLoop_ok c its data hok hst hd its.length 1 minItem 0 [] (by omega) (by omega)
    (by simp) (by simp [posOf, checkList]) (by simp) (by simp [indexCount])
  have hsh := updLoop_shape c data its.length its.length 1 minItem 0 [] ents _ h1 (by omega) (by omega) (by simp) (by simp)
    (by simp) (by intro _; simp)
  unfold updateItemIndexes at h
  rw [h1] at h
  simp only [Option.map_some, Option.some.injEq, Prod.mk.injEq, indexCount] at h
  exact ⟨ents, h.1.symm, hsh.2.2, hsh.1, h2⟩

theorem read_segment (c : Cfg) (its : List (Item Datum)) (data : List Nat) (hok : ∀ it ∈ its, ItemOK c it)
    (hst : ∀ it ∈ its, it.stored c = it) (hd : placeList c 0 ⟨0, 0⟩ its = some data) (m : Nat) :
    ∀ k cur, k + m ≤ its.length → (c.alt = false → cur = lastIptr ⟨0, 0⟩ (its.take k)) →
    ∃ rest, readList c (posOf c its k) cur m (data.drop (posOf c its k)) = some ((its.drop k).take m, rest) := by
  induction m with
  | zero => intro k cur _ _; exact ⟨_, by simp [readList]; rfl⟩
  | succ m ih =>
    intro k cur hk hcur
    have hkl : k < its.length := by omega
    obtain ⟨r1, r2, r3⟩ := read_at c its data k hkl hok hd
    have e : readItem c (posOf c its k) cur (data.drop (posOf c its k)) =
        readItem c (posOf c its k) (lastIptr ⟨0, 0⟩ (its.take k)) (data.drop (posOf c its k)) := by
      cases ha : c.alt with
      | true => exact readItem_alt_prev c ha _ _ _ _
      | false => rw [hcur ha]
    obtain ⟨rest, hr⟩ := ih (k + 1) its[k].iptr (by omega) (fun _ => by
      rw [List.take_succ_eq_append_getElem hkl, lastIptr_snoc])
    have hst' := hst _ (List.getElem_mem hkl)
    have hpos : posOf c its k + ((data.drop (posOf c its k)).length - (data.drop (posOf c its (k + 1))).length) =
        posOf c its (k + 1) ∨ posOf c its (k + 1) < posOf c its k := by
      simp only [List.length_drop]; omega
    have hmono : posOf c its k ≤ posOf c its (k + 1) := by
      have hl1 := congrArg (fun o : Option (Item Datum × List Nat) => o.map (fun a => a.2.length)) r3
      unfold posOf
      rw [List.take_succ_eq_append_getElem hkl]
      have hsub : ∀ (l r : List (Item Datum)) p s, (∀ it ∈ r, ItemOK c it) → checkList c p s l ≤ checkList c p s (l ++ r) := by
        intro l
        induction l with
        | nil =>
          intro r p s hr
          obtain ⟨b, _, hb⟩ := placeList_ok c r s p hr
          simp only [List.nil_append, checkList]; omega
        | cons a l ih => intro r p s hr; simp only [List.cons_append, checkList]; exact ih r _ _ hr
      exact hsub _ _ _ _ (fun it hit => by simp at hit; subst hit; exact hok _ (List.getElem_mem hkl))
    refine ⟨rest, ?_⟩
    simp only [readList, e, r3, hst']
    rw [show posOf c its k + ((data.drop (posOf c its k)).length - (data.drop (posOf c its (k + 1))).length) = posOf c its (k + 1) by omega, hr]
    simp only [List.drop_eq_getElem_cons hkl, List.take_succ_cons]

/-! ### The directory loop of scanPage -/

/-- Range found by the directory loop: `first` is 1 or the offset of a directory entry whose item passes; forward, a cut
range ends at an item that does not pass; backward, a cut range contains such an item, or is empty because the directory
entry after the one found is unused. -/
structure SeekRange (x : Ctx) (q : Seek) (its : List (Item Datum)) (idx : List IndexEnt) (r : Range) : Prop where
  lo : 1 ≤ r.first
  hi : r.first ≤ its.length ∨ r.first = 1
  ptr : r.ptr = posOf x.cfg its (r.first - 1)
  cur : x.cfg.alt = false → r.cur = lastIptr ⟨0, 0⟩ (its.take (r.first - 1))
  pass : 2 ≤ r.first → ∃ h : r.first - 2 < its.length, q.passes (x.cmp its[r.first - 2] q.item) = true
  dir : r.first = 1 ∨ ∃ e ∈ idx, e.offn = r.first
  max : r.maxoff ≤ its.length
  cut : r.maxoff = its.length ∨
    (∃ m, r.first ≤ m ∧ m ≤ r.maxoff ∧ (q.fwd = true → m = r.maxoff) ∧ ∃ h : m - 1 < its.length, q.passes (x.cmp its[m - 1] q.item) = false) ∨
    (q.fwd = false ∧ r.maxoff = 0 ∧ its.length ≤ 31 ∧ 2 ≤ its.length ∧ r.first = its.length - 1 ∧
      ∃ h : its.length - 2 < its.length, q.passes (x.cmp its[its.length - 2] q.item) = false)

theorem cmpEnt_ok (x : Ctx) (its : List (Item Datum)) (hok : ∀ it ∈ its, ItemOK x.cfg it) (e : IndexEnt)
    (he : EntOK x.cfg its e) (key : Item Datum) :
    cmpEnt x e key = x.cmp ((its.take (e.offn - 1)).getLast?.getD minItem) key := by
  obtain ⟨e1, e2, e3, e4⟩ := he
  conv => lhs; rw [e4]
  apply cmpEnt_mkEnt
  intro ha
  by_cases h1 : e.offn = 1
  · rw [h1]; simp [minItem]
  · rw [getLast_take its (e.offn - 1) (by omega) (by omega)]
    exact (hok _ (List.getElem_mem _)).2.1 ha

/-- strictly increasing offsets, as many as items: entry `j` is at offset `j + 1` -/
theorem offn_exact (n : Nat) (ents : List IndexEnt) (hp : ents.Pairwise (fun a b => a.offn < b.offn))
    (hb : ∀ e ∈ ents, 1 ≤ e.offn ∧ e.offn ≤ n) (hl : ents.length = n) (j : Nat) (hj : j < ents.length) :
    ents[j].offn = j + 1 := by
  have lo : ∀ j (hj : j < ents.length), j + 1 ≤ ents[j].offn := by
    intro j
    induction j with
    | zero => intro hj; exact (hb _ (List.getElem_mem hj)).1
    | succ j ih =>
      intro hj
      have := ih (by omega)
      have := List.pairwise_iff_getElem.1 hp j (j + 1) (by omega) hj (by omega)
      omega
  have hi : ∀ d j (hj : j < ents.length), j + d + 1 = ents.length → ents[j].offn + d ≤ n := by
    intro d
    induction d with
    | zero => intro j hj _; exact (hb _ (List.getElem_mem hj)).2
    | succ d ih =>
      intro j hj h
      have := ih (j + 1) (by omega) (by omega)
      have := List.pairwise_iff_getElem.1 hp j (j + 1) (by omega) (by omega) (by omega)
      omega
  have h1 := lo j hj
  have h2 := hi (ents.length - 1 - j) j hj (by omega)
  omega

theorem narrowScan_cons (x : Ctx) (q : Seek) (e : IndexEnt) (es : List IndexEnt) (r : Range) :
    narrowScan x q (e :: es) r = if e.offn = 0 then r
      else if q.passes (cmpEnt x e q.item) then narrowScan x q es { r with ptr := e.pageOff, first := e.offn, cur := e.iptr }
      else if q.fwd then { r with maxoff := e.offn - 1 }
      else match es with
        | [] => r
        | e' :: _ => { r with maxoff := e'.offn } := by
  cases es <;> simp only [narrowScan]

theorem narrowScan_unused (x : Ctx) (q : Seek) (k : Nat) (r : Range) :
    narrowScan x q (List.replicate k invalidEnt) r = r := by
  cases k with
  | zero => rfl
  | succ k => rw [List.replicate_succ, narrowScan_cons, if_pos (show invalidEnt.offn = 0 from rfl)]

theorem narrowScan_ok (x : Ctx) [TransCmp x.cmpV] (q : Seek) (its : List (Item Datum))
    (hok : ∀ it ∈ its, ItemOK x.cfg it) (hmin : x.cmp minItem q.item = .lt) (ents : List IndexEnt)
    (hent : ∀ e ∈ ents, EntOK x.cfg its e) (hpw : ents.Pairwise (fun a b => a.offn < b.offn))
    (hlen : ents.length = min its.length 32) (es : List IndexEnt) :
    ∀ pre r, ents = pre ++ es → SeekRange x q its (ents ++ List.replicate (32 - ents.length) invalidEnt) r →
      r.maxoff = its.length → r.first = pre.getLast?.elim 1 (·.offn) →
      SeekRange x q its (ents ++ List.replicate (32 - ents.length) invalidEnt)
        (narrowScan x q (es ++ List.replicate (32 - ents.length) invalidEnt) r) := by
  induction es with
  | nil =>
    intro pre r _ hr _ _
    rw [List.nil_append, narrowScan_unused]; exact hr
  | cons e es ih =>
    intro pre r hents hr hmax hfirst
    have hmem : e ∈ ents := by rw [hents]; simp
    obtain ⟨e1, e2, e3, e4⟩ := hent e hmem
    have hcmp := cmpEnt_ok x its hok e (hent e hmem) q.item
    rw [List.cons_append, narrowScan_cons, if_neg (by omega)]
    cases hps : q.passes (cmpEnt x e q.item) with
    | true =>
      simp only [if_true]
      refine ih (pre ++ [e]) { r with ptr := e.pageOff, first := e.offn, cur := e.iptr } (by rw [hents]; simp) ?_ hmax (by simp)
      refine ⟨e1, Or.inl e2, e3, ?_, ?_, Or.inr ⟨e, by simp [hmem], rfl⟩, hr.max, Or.inl hmax⟩
      · intro ha
        show e.iptr = _
        rw [e4]
        simp only [mkEnt, ha, Bool.false_eq_true, if_false]
        rw [lastIptr_getLast]
      · intro h2
        simp only at h2 ⊢
        refine ⟨by omega, ?_⟩
        rw [hcmp, getLast_take its (e.offn - 1) (by omega) (by omega)] at hps
        exact hps
    | false =>
      have hn1 : 2 ≤ e.offn := by
        by_cases h1 : e.offn = 1
        · rw [hcmp, h1] at hps
          simp [hmin, Seek.passes] at hps
        · omega
      have hbad : q.passes (x.cmp (its[e.offn - 2]'(by omega)) q.item) = false := by
        rw [hcmp, getLast_take its (e.offn - 1) (by omega) (by omega)] at hps
        exact hps
      have hfm : r.first ≤ e.offn - 1 := by
        rw [hfirst]
        cases hg : pre.getLast? with
        | none => simp only [Option.elim_none]; omega
        | some a =>
          have : a.offn < e.offn := by
            rw [hents] at hpw
            exact (List.pairwise_append.1 hpw).2.2 a (List.mem_of_getLast? hg) e (by simp)
          simp only [Option.elim_some]; omega
      have e2' : ∀ k, k = e.offn - 2 → ∃ h : k < its.length, q.passes (x.cmp its[k] q.item) = false := by
        rintro k rfl; exact ⟨by omega, hbad⟩
      simp only [Bool.false_eq_true, if_false]
      cases hfw : q.fwd with
      | true =>
        simp only [if_true]
        refine ⟨hr.lo, hr.hi, hr.ptr, hr.cur, hr.pass, hr.dir, by show e.offn - 1 ≤ _; omega, Or.inr (Or.inl ⟨e.offn - 1, hfm, Nat.le_refl _, fun _ => rfl, e2' _ (by omega)⟩)⟩
      | false =>
        simp only [Bool.false_eq_true, if_false]
        have fin : ∀ r' : Range, r'.first = r.first → r'.ptr = r.ptr → r'.cur = r.cur → r'.maxoff ≤ its.length → e.offn - 1 ≤ r'.maxoff →
            SeekRange x q its (ents ++ List.replicate (32 - ents.length) invalidEnt) r' := by
          intro r' h1 h2 h3 h4 h5
          refine ⟨by rw [h1]; exact hr.lo, by rw [h1]; exact hr.hi, by rw [h1, h2]; exact hr.ptr, by rw [h1, h3]; exact hr.cur,
            by rw [h1]; exact hr.pass, by rw [h1]; exact hr.dir, h4, Or.inr (Or.inl ⟨e.offn - 1, by rw [h1]; exact hfm, h5, fun h => by simp [hfw] at h, e2' _ (by omega)⟩)⟩
        cases es with
        | cons e' es' =>
          have hmem' : e' ∈ ents := by rw [hents]; simp
          obtain ⟨f1, f2, -, -⟩ := hent e' hmem'
          have hlt : e.offn < e'.offn := by
            rw [hents] at hpw
            exact (List.pairwise_cons.1 (List.pairwise_append.1 hpw).2.1).1 e' (by simp)
          exact fin _ rfl rfl rfl f2 (by show e.offn - 1 ≤ e'.offn; omega)
        | nil =>
          rw [List.nil_append]
          cases hk : 32 - ents.length with
          | zero => rw [hk] at fin; exact fin r rfl rfl rfl (by omega) (by omega)
          | succ k =>
            rw [List.replicate_succ]
            have hn : ents.length = its.length := by omega
            have hbds : ∀ e ∈ ents, 1 ≤ e.offn ∧ e.offn ≤ its.length := fun e he => ⟨(hent e he).1, (hent e he).2.1⟩
            have hex := offn_exact its.length ents hpw hbds hn
            have hen : e.offn = its.length := by
              have hl : pre.length < ents.length := by rw [hents]; simp
              have := hex pre.length hl
              have he : ents[pre.length] = e := by simp [hents]
              rw [he] at this
              have : ents.length = pre.length + 1 := by rw [hents]; simp
              omega
            have hf : r.first = its.length - 1 := by
              rw [hfirst]
              have hpl : ents.length = pre.length + 1 := by rw [hents]; simp
              have hp1 : pre.length - 1 < ents.length := by omega
              have := hex (pre.length - 1) hp1
              have hne : pre ≠ [] := by rintro rfl; simp at hpl; omega
              have hg : pre.getLast? = some (ents[pre.length - 1]) := by
                rw [List.getLast?_eq_getElem?]
                have : pre.length - 1 < pre.length := by have := List.length_pos_iff.2 hne; omega
                rw [List.getElem?_eq_getElem this]
                simp [hents, List.getElem_append_left this]
              rw [hg]
              simp only [Option.elim_some]
              omega
            refine ⟨hr.lo, hr.hi, hr.ptr, hr.cur, hr.pass, by have := hr.dir; rw [hk] at this; exact this, by show 0 ≤ _; omega, Or.inr (Or.inr ⟨hfw, rfl, by omega, by omega, hf, e2' _ (by omega)⟩)⟩

/-! ### Position in the loaded part -/

theorem prefix_exists {α : Type} (P : α → Bool) (l : List α)
    (down : ∀ i j (hi : i < l.length) (hj : j < l.length), i < j → P l[j] = true → P l[i] = true) :
    ∃ k, k ≤ l.length ∧ ∀ i (h : i < l.length), (P l[i] = true ↔ i < k) := by
  induction l with
  | nil => exact ⟨0, by simp, fun i h => by simp at h⟩
  | cons a l ih =>
    obtain ⟨k, hk, hi⟩ := ih (fun i j hi hj hij hp => down (i + 1) (j + 1) (by simpa using hi) (by simpa using hj) (by omega) (by simpa using hp))
    cases ha : P a with
    | true =>
      refine ⟨k + 1, by simp; omega, fun i h => ?_⟩
      cases i with
      | zero => simp [ha]
      | succ i => simp only [List.getElem_cons_succ]; rw [hi i (by simpa using h)]; omega
    | false =>
      refine ⟨0, by simp, fun i h => ?_⟩
      cases i with
      | zero => simp [ha]
      | succ i =>
        have hl : i < l.length := by simpa using h
        have : ¬ P l[i] = true := fun hp => by
          have := down 0 (i + 1) (by simp) h (by omega) (by simpa using hp)
          simp [ha] at this
        simp [this]

/-- items wanted by the scan: at or beyond the searched item in the scan direction -/
def Seek.wants (q : Seek) (x : Ctx) (it : Item Datum) : Bool :=
  x.cmp it q.item == (if q.fwd then .gt else .lt) || (q.eqOk && x.cmp it q.item == .eq)

theorem passes_iff (q : Seek) (x : Ctx) (h : q.fwd = true) (it : Item Datum) :
    q.passes (x.cmp it q.item) = !q.wants x it := by
  unfold Seek.passes Seek.wants
  rw [h]
  cases x.cmp it q.item <;> cases q.eqOk <;> rfl

theorem position_ok (x : Ctx) [TransCmp x.cmpV] (q : Seek) (l : List (Item Datum)) (hs : SSorted x.cmp l) :
    ∃ k0 k1, k0 ≤ k1 ∧ k1 ≤ l.length ∧ (∀ i (h : i < l.length), x.cmp l[i] q.item = .lt ↔ i < k0) ∧
      (∀ i (h : i < l.length), x.cmp l[i] q.item = .gt ↔ k1 ≤ i) ∧
      position x q l =
        if q.fwd then (if (if q.eqOk then k0 else k1) < l.length then .hit l (if q.eqOk then k0 else k1) else .miss)
        else if l.length = 0 then .invalid
        else if 0 < (if q.eqOk then k1 else k0) then .hit l ((if q.eqOk then k1 else k0) - 1) else .miss := by
  have htr : TransCmp x.cmp := cmpItem_trans _ _
  have hpw := List.pairwise_iff_getElem.1 hs
  obtain ⟨k0, hk0, h0⟩ := prefix_exists (fun it => x.cmp it q.item == .lt) l (fun i j hi hj hij hp => by
    simp only [beq_iff_eq] at hp ⊢
    exact TransCmp.lt_trans (hpw i j hi hj hij) hp)
  obtain ⟨k1, hk1, h1⟩ := prefix_exists (fun it => x.cmp it q.item != .gt) l (fun i j hi hj hij hp => by
    simp only [bne_iff_ne, ne_eq] at hp ⊢
    intro hgt
    exact hp (TransCmp.gt_trans (OrientedCmp.gt_of_lt (hpw i j hi hj hij)) hgt))
  simp only [beq_iff_eq] at h0
  have h1' : ∀ i (h : i < l.length), x.cmp l[i] q.item = .gt ↔ k1 ≤ i := by
    intro i h
    have := h1 i h
    simp only [bne_iff_ne, ne_eq] at this
    by_cases hg : x.cmp l[i] q.item = .gt
    · simp only [hg, not_true_eq_false, false_iff] at this
      simp only [hg, true_iff]; omega
    · simp only [hg, not_false_eq_true, true_iff] at this
      simp only [hg, false_iff]; omega
  have hle : k0 ≤ k1 := by
    by_contra hlt
    have hk : k1 < l.length := by omega
    have g1 := (h0 k1 hk).2 (by omega)
    have g2 := (h1' k1 hk).2 (Nat.le_refl _)
    rw [g1] at g2; cases g2
  refine ⟨k0, k1, hle, hk1, h0, h1', ?_⟩
  -- at most one equal item
  have hone : k1 ≤ k0 + 1 := by
    by_contra hlt
    have a1 : x.cmp l[k0] q.item = .eq := by
      have e1 := h0 k0 (by omega); have e2 := h1' k0 (by omega)
      cases hc : x.cmp l[k0] q.item with
      | lt => have := e1.1 hc; omega
      | eq => rfl
      | gt => have := e2.1 hc; omega
    have a2 : x.cmp l[k0 + 1] q.item = .eq := by
      have e1 := h0 (k0 + 1) (by omega); have e2 := h1' (k0 + 1) (by omega)
      cases hc : x.cmp l[k0 + 1] q.item with
      | lt => have := e1.1 hc; omega
      | eq => rfl
      | gt => have := e2.1 hc; omega
    have := hpw k0 (k0 + 1) (by omega) (by omega) (by omega)
    have := TransCmp.eq_trans a1 (OrientedCmp.eq_symm a2)
    simp_all
  have hflip : ∀ it, (x.cmp q.item it != .gt) = true ↔ ¬ x.cmp it q.item = .lt := by
    intro it
    simp only [bne_iff_ne, ne_eq]
    constructor
    · intro h hl; exact h (OrientedCmp.gt_of_lt hl)
    · intro h hg; exact h (OrientedCmp.lt_of_gt hg)
  have hidx : l.findIdx? (fun it => x.cmp q.item it != .gt) = if k0 < l.length then some k0 else none := by
    split
    · next hlt =>
      rw [List.findIdx?_eq_some_iff_getElem]
      refine ⟨hlt, (hflip _).2 (fun h => by have := (h0 k0 hlt).1 h; omega), fun j hj => ?_⟩
      rw [hflip]
      simp [(h0 j (by omega)).2 hj]
    · next hge =>
      rw [List.findIdx?_eq_none_iff]
      intro it hit
      obtain ⟨i, hi, rfl⟩ := List.getElem_of_mem hit
      have hf := hflip l[i]
      have := (h0 i hi).2 (by omega)
      cases hb : (x.cmp q.item l[i] != .gt) with
      | false => rfl
      | true => exact absurd this (hf.1 hb)
  unfold position
  rw [hidx]
  by_cases hlt : k0 < l.length
  · rw [if_pos hlt]
    simp only
    have hfe : (l[k0]?.any (fun it => x.cmp q.item it == .eq)) = decide (k0 < k1) := by
      rw [List.getElem?_eq_getElem hlt, Option.any_some]
      have e1 := h0 k0 hlt; have e2 := h1' k0 hlt
      cases hc : x.cmp l[k0] q.item with
      | lt => have := e1.1 hc; omega
      | eq =>
        have : ¬ k1 ≤ k0 := fun h => by have := e2.2 h; rw [hc] at this; cases this
        rw [OrientedCmp.eq_symm hc]; simp; omega
      | gt =>
        have := e2.1 hc
        rw [OrientedCmp.lt_of_gt hc]; simp; omega
    rw [hfe]
    have hl0 : ¬ l.length = 0 := by omega
    by_cases heq : k0 < k1 <;> cases q.eqOk <;> cases q.fwd <;> simp only [heq, hl0, decide_true, decide_false, if_true, if_false, Bool.false_eq_true]
    · by_cases hz : k0 = 0
      · rw [if_pos (by omega), if_neg (by omega)]
      · rw [if_neg (by omega), if_pos (by omega)]; congr 1; omega
    · have : k1 = k0 + 1 := by omega
      by_cases hz : k1 < l.length
      · rw [if_neg (by omega), if_pos hz]; congr 1; omega
      · rw [if_pos (by omega), if_neg hz]
    · rw [if_neg (by omega), if_pos (by omega)]; congr 1; omega
    · rw [if_neg (by omega), if_pos (by omega)]; congr 1
    · by_cases hz : k0 = 0
      · rw [if_pos (by omega), if_neg (by omega)]
      · rw [if_neg (by omega), if_pos (by omega)]; congr 1; omega
    · have : k1 = k0 := by omega
      rw [if_neg (by omega), if_pos (by omega)]; congr 1; omega
    · have : k1 = k0 := by omega
      by_cases hz : k0 = 0
      · rw [if_pos (by omega), if_neg (by omega)]
      · rw [if_neg (by omega), if_pos (by omega)]; congr 1; omega
    · rw [if_neg (by omega), if_pos (by omega)]; congr 1
  · rw [if_neg hlt]
    have e0 : k0 = l.length := by omega
    have e1 : k1 = l.length := by omega
    simp only [e0, e1]
    cases q.fwd <;> cases q.eqOk <;> simp
    all_goals
      by_cases hl0 : l = []
      · subst hl0; simp
      · have := List.length_pos_iff.2 hl0
        simp [hl0, this]

end Rum.Leaf

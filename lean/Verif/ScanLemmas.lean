import Verif.ScanSpec
import Mathlib.Tactic.Set
import Mathlib.Data.List.Forall2
set_option linter.unusedSectionVars false
namespace Rum.Scan
open Std
variable {V : Type}

/-- Items an entry has not gone past, the current one first. -/
def Ent.remaining (e : Ent V) : List (Item V) := if e.fin then [] else e.cur :: e.rest

section
variable (cmp : Item V → Item V → Ordering)

/-- `x` lies behind the position `adv` (an invalid position is before everything). -/
def beyond (adv x : Item V) : Bool := adv.iptr.off == 0 || cmp x adv == .gt

/-- Entry before the advance step. -/
def Ent.Before (adv : Item V) (e : Ent V) : Prop :=
  if adv.iptr.off = 0 then e.rest = e.stream ∧ (e.fin = true → e.stream = [])
  else ∃ pre, e.stream = pre ++ e.remaining ∧ ∀ x ∈ pre, cmp x adv ≠ .gt

/-- Entry after the advance step. -/
def Ent.At (adv : Item V) (e : Ent V) : Prop := e.remaining = e.stream.filter (beyond cmp adv)

variable [TransCmp cmp]

theorem pastLoop_ok (adv : Item V) (st : List (Item V)) (rest : List (Item V)) :
    ∀ cur, SSorted cmp (cur :: rest) →
    (pastLoop cmp adv st cur rest).stream = st ∧
    (pastLoop cmp adv st cur rest).remaining = (cur :: rest).filter (fun x => cmp x adv == .gt) := by
  induction rest with
  | nil =>
    intro cur _
    rw [pastLoop]
    by_cases h : cmp cur adv = .gt <;> simp [h, Ent.remaining]
  | cons x r ih =>
    intro cur hs
    rw [pastLoop]
    by_cases h : cmp cur adv = .gt
    · rw [if_pos h]
      refine ⟨rfl, ?_⟩
      simp only [Ent.remaining, Bool.false_eq_true, if_false]
      symm
      rw [List.filter_eq_self]
      intro y hy
      rcases List.mem_cons.1 hy with rfl | hy
      · simp [h]
      · have : cmp cur y = .lt := (List.pairwise_cons.1 hs).1 y hy
        have h2 : cmp y adv = .gt := by
          have a1 := OrientedCmp.lt_of_gt h
          exact OrientedCmp.gt_of_lt (TransCmp.lt_trans a1 this)
        simp [h2]
    · rw [if_neg h]
      have := ih x (List.pairwise_cons.1 hs).2
      simp only [this, true_and]
      rw [List.filter_cons_of_neg (a := cur) (by simpa using h)]

theorem advance_stream (adv : Item V) (e : Ent V) : (advance cmp adv e).stream = e.stream := by
  unfold advance Ent.get
  have hp : ∀ rest cur, (pastLoop cmp adv e.stream cur rest).stream = e.stream := by
    intro rest
    induction rest with
    | nil => intro cur; rw [pastLoop]; split <;> rfl
    | cons x r ih => intro cur; rw [pastLoop]; split; · rfl
                     · exact ih x
  split
  · rfl
  · split
    · split <;> rfl
    · exact hp _ _

theorem advance_at (adv : Item V) (e : Ent V) (hs : SSorted cmp e.stream) (hb : e.Before cmp adv) :
    (advance cmp adv e).At cmp adv := by
  unfold Ent.At
  rw [advance_stream]
  unfold Ent.Before at hb
  unfold advance
  by_cases h0 : adv.iptr.off = 0
  · rw [if_pos h0] at hb
    have hf : e.stream.filter (beyond cmp adv) = e.stream := by
      rw [List.filter_eq_self]; intro x _; simp [beyond, h0]
    rw [hf]
    by_cases hfin : e.fin = true
    · rw [if_pos hfin]; simp [Ent.remaining, hfin, hb.2 hfin]
    · rw [if_neg hfin, if_pos h0]
      unfold Ent.get
      cases hr : e.rest with
      | nil => rw [hr] at hb; simp [Ent.remaining, ← hb.1]
      | cons x r => rw [hr] at hb; simp [Ent.remaining, ← hb.1, hfin]
  · rw [if_neg h0] at hb
    obtain ⟨pre, he, hp⟩ := hb
    have hf : e.stream.filter (beyond cmp adv) = e.remaining.filter (fun x => cmp x adv == .gt) := by
      rw [he, List.filter_append]
      have h1 : pre.filter (beyond cmp adv) = [] := by
        rw [List.filter_eq_nil_iff]; intro x hx; simp [beyond, h0, hp x hx]
      have h2 : beyond cmp adv = (fun x => cmp x adv == .gt) := by
        funext x; simp [beyond, h0]
      rw [h1, List.nil_append, h2]
    rw [hf]
    by_cases hfin : e.fin = true
    · rw [if_pos hfin]; simp [Ent.remaining, hfin]
    · rw [if_neg hfin, if_neg h0]
      have hrem : e.remaining = e.cur :: e.rest := by simp [Ent.remaining, hfin]
      have hs' : SSorted cmp (e.cur :: e.rest) := by
        rw [← hrem]; rw [he] at hs; exact (List.pairwise_append.1 hs).2.1
      rw [(pastLoop_ok cmp adv e.stream e.rest e.cur hs').2, hrem]

/-- An entry at a position is ready for an advance to any later position. -/
theorem at_before (adv adv' : Item V) (e : Ent V) (hs : SSorted cmp e.stream) (h : e.At cmp adv)
    (hv : adv'.iptr.off ≠ 0) (hle : adv.iptr.off = 0 ∨ cmp adv adv' ≠ .gt) : e.Before cmp adv' := by
  unfold Ent.Before
  rw [if_neg hv]
  unfold Ent.At at h
  rw [h]
  obtain ⟨K, _, key, h1, h2, h3⟩ := exists_key cmp
  clear h
  generalize e.stream = st at hs
  induction st with
  | nil => exact ⟨[], by simp⟩
  | cons x st ih =>
    obtain ⟨hx, hs⟩ := List.pairwise_cons.1 hs
    by_cases hb : beyond cmp adv x = true
    · refine ⟨[], ?_, by simp⟩
      rw [List.nil_append]; symm
      rw [List.filter_eq_self]
      intro y hy
      rcases List.mem_cons.1 hy with rfl | hy
      · exact hb
      · have := hx y hy
        simp only [beyond, Bool.or_eq_true, beq_iff_eq] at hb ⊢
        rcases hb with hb | hb
        · exact .inl hb
        · right; rw [h3] at hb ⊢; rw [h1] at this; exact hb.trans this
    · obtain ⟨pre, hp1, hp2⟩ := ih hs
      refine ⟨x :: pre, ?_, ?_⟩
      · rw [List.filter_cons_of_neg hb]; simp [← hp1]
      · intro y hy
        rcases List.mem_cons.1 hy with rfl | hy
        · simp only [beyond, Bool.or_eq_true, beq_iff_eq, not_or] at hb
          rcases hle with hle | hle
          · exact absurd hle hb.1
          · have e1 := hb.2
            rw [Ne, h3] at *
            have e1' : ¬ key adv < key y := e1
            rw [_root_.not_lt] at *
            exact e1'.trans hle
        · exact hp2 y hy

/-! ### Minimum of the current items -/

theorem least_fold {α : Type} (p : α → Bool) (f : α → Item V) (l : List α) : ∀ acc : Option (Item V),
    (l.foldl (fun acc e => if p e then least cmp acc (f e) else acc) acc = none ↔
      acc = none ∧ ∀ e ∈ l, p e = false) ∧
    (∀ m, l.foldl (fun acc e => if p e then least cmp acc (f e) else acc) acc = some m →
      (acc = some m ∨ ∃ e ∈ l, p e = true ∧ f e = m) ∧
      (∀ a, acc = some a → cmp m a ≠ .gt) ∧ ∀ e ∈ l, p e = true → cmp m (f e) ≠ .gt) := by
  obtain ⟨K, _, key, h1, h2, h3⟩ := exists_key cmp
  induction l with
  | nil =>
    intro acc
    refine ⟨by simp, ?_⟩
    intro m hm
    simp only [List.foldl_nil] at hm
    subst hm
    simp [ReflCmp.compare_self (cmp := cmp)]
  | cons e es ih =>
    intro acc
    simp only [List.foldl_cons]
    obtain ⟨i1, i2⟩ := ih (if p e then least cmp acc (f e) else acc)
    by_cases hf : p e = true
    · simp only [hf, if_true] at i1 i2 ⊢
      have hne : least cmp acc (f e) ≠ none := by
        unfold least; cases acc <;> simp; split <;> simp
      refine ⟨by rw [i1]; simp [hf, hne], ?_⟩
      intro m hm
      obtain ⟨j1, j2, j3⟩ := i2 m hm
      have hl : ∀ b, least cmp acc (f e) = some b →
          (acc = some b ∨ f e = b) ∧ (∀ a, acc = some a → key b ≤ key a) ∧ key b ≤ key (f e) := by
        intro b hb
        unfold least at hb
        cases acc with
        | none => simp at hb; subst hb; simp
        | some a =>
          simp only at hb
          split at hb
          · rename_i hc; rw [h1] at hc
            simp at hb; subst hb; simp [hc.le]
          · rename_i hc; rw [h1, _root_.not_lt] at hc
            simp at hb; subst hb; simp [hc]
      obtain ⟨b, hb⟩ := Option.ne_none_iff_exists'.1 hne
      obtain ⟨l1, l2, l3⟩ := hl b hb
      have hmb := j2 b hb
      rw [Ne, h3, _root_.not_lt] at hmb
      refine ⟨?_, ?_, ?_⟩
      · rcases j1 with j | ⟨e', he', j⟩
        · rw [hb] at j
          have : b = m := by simpa using j
          subst this
          rcases l1 with l | l
          · exact .inl l
          · exact .inr ⟨e, by simp, hf, l⟩
        · exact .inr ⟨e', by simp [he'], j⟩
      · intro a ha
        rw [Ne, h3, _root_.not_lt]
        exact hmb.trans (l2 a ha)
      · intro e' he' hp
        rcases List.mem_cons.1 he' with rfl | he'
        · rw [Ne, h3, _root_.not_lt]
          exact hmb.trans l3
        · exact j3 e' he' hp
    · simp only [hf] at i1 i2 ⊢
      refine ⟨by rw [if_neg (by simp)]; rw [if_neg (by simp)] at i1; rw [i1]; simp [hf], ?_⟩
      rw [if_neg (by simp)] at *
      intro m hm
      obtain ⟨j1, j2, j3⟩ := i2 m hm
      refine ⟨?_, j2, ?_⟩
      · rcases j1 with j | ⟨e', he', j⟩
        · exact .inl j
        · exact .inr ⟨e', by simp [he'], j⟩
      · intro e' he' hp
        rcases List.mem_cons.1 he' with rfl | he'
        · exact absurd hp hf
        · exact j3 e' he' hp

theorem minCur_none (ents : List (Ent V)) : minCur cmp ents = none ↔ ∀ e ∈ ents, e.fin = true := by
  have := (least_fold cmp (fun e : Ent V => !e.fin) (·.cur) ents none).1
  simpa [minCur] using this

theorem minCur_some (ents : List (Ent V)) (m : Item V) (h : minCur cmp ents = some m) :
    (∃ e ∈ ents, e.fin = false ∧ e.cur = m) ∧ ∀ e ∈ ents, e.fin = false → cmp m e.cur ≠ .gt := by
  have := (least_fold cmp (fun e : Ent V => !e.fin) (·.cur) ents none).2 m h
  simpa using And.intro (this.1.resolve_left (by simp)) this.2.2

theorem minKey_some (am : Bool) (keys : List (Key V)) (m : Item V) (h : minKey cmp am keys = some m) :
    (∃ k ∈ keys, active am k = true ∧ k.cur = m) ∧ ∀ k ∈ keys, active am k = true → cmp m k.cur ≠ .gt := by
  have := (least_fold cmp (fun k : Key V => active am k) (·.cur) keys none).2 m h
  exact ⟨this.1.resolve_left (by simp), this.2.2⟩

theorem minKey_none (am : Bool) (keys : List (Key V)) : minKey cmp am keys = none ↔ ∀ k ∈ keys, active am k = false := by
  have := (least_fold cmp (fun k : Key V => active am k) (·.cur) keys none).1
  simpa [minKey] using this

/-! ### keyGetItem -/

variable (U : Item V → Prop)

/-- Row pointers identify items among `U`, and are valid. -/
structure Coherent : Prop where
  iff : ∀ a b, U a → U b → (cmp a b = .eq ↔ a.iptr = b.iptr)
  valid : ∀ a, U a → a.iptr.off ≠ 0

/-- What the key remembers about its current item is right. -/
def Key.Cache (k : Key V) : Prop :=
  k.cur.iptr.off = 0 ∨ ((∃ e ∈ k.ents, k.cur ∈ e.stream) ∧ (k.isMatch, k.recheck) = k.cons (k.spec.held k.cur.iptr))

/-- The entries' streams are sorted lists of items from `U`. -/
def Key.Good (k : Key V) : Prop := ∀ e ∈ k.ents, SSorted cmp e.stream ∧ ∀ x ∈ e.stream, U x

theorem beyond_congr (adv a b : Item V) (h : cmp a b = .eq) : beyond cmp adv a = beyond cmp adv b := by
  unfold beyond; rw [TransCmp.congr_left h]

theorem entryRes_eq' (hU : Coherent cmp U) (p : Item V → Bool) (m : Item V) (ents : List (Ent V))
    (hg : ∀ e ∈ ents, SSorted cmp e.stream ∧ ∀ x ∈ e.stream, U x)
    (hat : ∀ e ∈ ents, e.remaining = e.stream.filter p)
    (hm : U m) (hb : ∀ x, cmp x m = .eq → p x = true) (hmin : ∀ e ∈ ents, e.fin = false → cmp m e.cur ≠ .gt) :
    entryRes m.iptr ents =
      (ents.map (·.stream)).map (fun st => (st.find? (fun x => x.iptr == m.iptr)).map (·.info)) := by
  obtain ⟨K, _, key, h1, h2, h3⟩ := exists_key cmp
  unfold entryRes
  rw [List.map_map]
  apply List.map_congr_left
  intro e he
  simp only [Function.comp]
  obtain ⟨hs, hu⟩ := hg e he
  have ha := hat e he
  unfold Ent.remaining at ha
  by_cases hx : ∃ x ∈ e.stream, x.iptr = m.iptr
  · obtain ⟨x, hx, hxm⟩ := hx
    have hxe : cmp x m = .eq := (hU.iff x m (hu x hx) hm).2 hxm
    have hxb : x ∈ e.stream.filter p := by
      rw [List.mem_filter]; exact ⟨hx, hb x hxe⟩
    rw [← ha] at hxb
    have hf : e.fin = false := by
      cases hf : e.fin with
      | false => rfl
      | true => simp [hf] at hxb
    simp only [hf, Bool.false_eq_true, if_false] at ha hxb
    have hcs : e.cur ∈ e.stream := by
      have : e.cur ∈ e.stream.filter p := by rw [← ha]; simp
      exact (List.mem_filter.1 this).1
    have hsf : SSorted cmp (e.cur :: e.rest) := by rw [ha]; exact hs.filter _
    have hle := hmin e he hf
    have hcm : cmp e.cur m = .eq := by
      rw [h2] at hxe ⊢
      rw [Ne, h3, _root_.not_lt] at hle
      rcases List.mem_cons.1 hxb with rfl | hxr
      · exact hxe
      · have := (List.pairwise_cons.1 hsf).1 x hxr
        rw [h1] at this
        rw [hxe] at this
        exact absurd this (_root_.not_lt.2 hle)
    have hci : e.cur.iptr = m.iptr := (hU.iff _ _ (hu _ hcs) hm).1 hcm
    have hfind : e.stream.find? (fun x => x.iptr == m.iptr) = some e.cur := by
      rw [List.find?_eq_some_iff_append]
      refine ⟨by simp [hci], ?_⟩
      obtain ⟨as, bs, hab⟩ := List.append_of_mem hcs
      refine ⟨as, bs, hab, ?_⟩
      intro a haa
      rw [hab] at hs
      have hlt := (List.pairwise_append.1 hs).2.2 a haa e.cur (by simp)
      have hau : U a := hu a (by rw [hab]; simp [haa])
      have : ¬ a.iptr = m.iptr := by
        intro h
        have := (hU.iff a m hau hm).2 h
        rw [h2] at this hcm; rw [h1] at hlt
        rw [this, hcm] at hlt
        exact absurd hlt (lt_irrefl _)
      simp [this]
    rw [hfind]
    simp [hf, hci, ReflCmp.compare_self (cmp := cmpIptr)]
  · have hfind : e.stream.find? (fun x => x.iptr == m.iptr) = none := by
      rw [List.find?_eq_none]
      intro x hx'
      simp only [beq_iff_eq]
      intro h; exact hx ⟨x, hx', h⟩
    rw [hfind]
    have : ¬ (e.fin = false ∧ cmpIptr e.cur.iptr m.iptr = .eq) := by
      rintro ⟨hf, hc⟩
      simp only [hf, Bool.false_eq_true, if_false] at ha
      have : e.cur ∈ e.stream.filter p := by rw [← ha]; simp
      exact hx ⟨e.cur, (List.mem_filter.1 this).1, LawfulEqCmp.eq_of_compare hc⟩
    have h4 : (!e.fin && cmpIptr e.cur.iptr m.iptr == .eq) = false := by
      simpa using this
    simp [h4]

theorem entryRes_eq (hU : Coherent cmp U) (adv m : Item V) (ents : List (Ent V))
    (hg : ∀ e ∈ ents, SSorted cmp e.stream ∧ ∀ x ∈ e.stream, U x) (hat : ∀ e ∈ ents, e.At cmp adv)
    (hm : U m) (hb : beyond cmp adv m = true) (hmin : ∀ e ∈ ents, e.fin = false → cmp m e.cur ≠ .gt) :
    entryRes m.iptr ents =
      (ents.map (·.stream)).map (fun st => (st.find? (fun x => x.iptr == m.iptr)).map (·.info)) :=
  entryRes_eq' cmp U hU (beyond cmp adv) m ents hg hat hm
    (fun x hx => by rw [beyond_congr cmp adv x m hx]; exact hb) hmin

/-! ### Catching up -/

theorem catchLoop_ok (item : Item V) (st : List (Item V)) (rest : List (Item V)) :
    ∀ cur, SSorted cmp (cur :: rest) →
    (catchLoop cmp item st cur rest).stream = st ∧
    (catchLoop cmp item st cur rest).remaining = (cur :: rest).filter (fun x => cmp x item != .lt) := by
  induction rest with
  | nil =>
    intro cur _
    rw [catchLoop]
    by_cases h : cmp cur item = .lt <;> simp [h, Ent.remaining]
  | cons x r ih =>
    intro cur hs
    rw [catchLoop]
    by_cases h : cmp cur item = .lt
    · rw [if_pos h]
      have := ih x (List.pairwise_cons.1 hs).2
      simp only [this, true_and]
      rw [List.filter_cons_of_neg (a := cur) (by simpa using h)]
    · rw [if_neg h]
      refine ⟨rfl, ?_⟩
      simp only [Ent.remaining, Bool.false_eq_true, if_false]
      symm
      rw [List.filter_eq_self]
      intro y hy
      rcases List.mem_cons.1 hy with rfl | hy
      · simpa using h
      · have : cmp cur y = .lt := (List.pairwise_cons.1 hs).1 y hy
        have h2 : cmp y item ≠ .lt := fun hh => h (TransCmp.lt_trans this hh)
        simpa using h2

/-- An entry that had not gone past `item` stands after the catch-up at the first item not before `item`. -/
theorem catchUp_ok (adv item : Item V) (e : Ent V) (hs : SSorted cmp e.stream) (ha : e.At cmp adv)
    (hb : beyond cmp adv item = true) :
    (catchUp cmp item e).stream = e.stream ∧
    (catchUp cmp item e).remaining = e.stream.filter (fun x => cmp x item != .lt) := by
  obtain ⟨K, _, key, h1, h2, h3⟩ := exists_key cmp
  have hsub : e.stream.filter (fun x => cmp x item != .lt) =
      e.remaining.filter (fun x => cmp x item != .lt) := by
    unfold Ent.At at ha
    rw [ha, List.filter_filter]
    apply List.filter_congr
    intro x _
    cases hx : cmp x item != .lt with
    | false => rfl
    | true =>
      simp only [Bool.true_and]
      symm
      unfold beyond at hb ⊢
      simp only [Bool.or_eq_true, beq_iff_eq, bne_iff_ne, ne_eq] at hb hx ⊢
      rcases hb with hb | hb
      · exact .inl hb
      · right; rw [h3] at *; rw [h1, _root_.not_lt] at hx; exact hb.trans_le hx
  rw [hsub]
  unfold catchUp
  by_cases hf : e.fin = true
  · rw [if_pos hf]; simp [Ent.remaining, hf]
  · rw [if_neg hf]
    have hrem : e.remaining = e.cur :: e.rest := by simp [Ent.remaining, hf]
    have hs' : SSorted cmp (e.cur :: e.rest) := by
      rw [← hrem]; unfold Ent.At at ha; rw [ha]; exact hs.filter _
    rw [hrem]
    exact catchLoop_ok cmp item e.stream e.rest e.cur hs'

/-- Such an entry is ready for an advance past `item`. -/
theorem caught_before (item : Item V) (e : Ent V) (hs : SSorted cmp e.stream) (hv : item.iptr.off ≠ 0)
    (h : e.remaining = e.stream.filter (fun x => cmp x item != .lt)) : e.Before cmp item := by
  unfold Ent.Before
  rw [if_neg hv, h]
  obtain ⟨K, _, key, h1, h2, h3⟩ := exists_key cmp
  clear h
  generalize e.stream = st at hs
  induction st with
  | nil => exact ⟨[], by simp⟩
  | cons x st ih =>
    obtain ⟨hx, hs⟩ := List.pairwise_cons.1 hs
    by_cases hb : (cmp x item != .lt) = true
    · refine ⟨[], ?_, by simp⟩
      rw [List.nil_append]; symm
      rw [List.filter_eq_self]
      intro y hy
      rcases List.mem_cons.1 hy with rfl | hy
      · exact hb
      · have := hx y hy
        simp only [bne_iff_ne, ne_eq] at hb ⊢
        intro hh; exact hb (TransCmp.lt_trans this hh)
    · obtain ⟨pre, hp1, hp2⟩ := ih hs
      refine ⟨x :: pre, ?_, ?_⟩
      · rw [List.filter_cons_of_neg (a := x) (by simpa using hb)]; simp [← hp1]
      · intro y hy
        rcases List.mem_cons.1 hy with rfl | hy
        · simp only [bne_iff_ne, ne_eq, Decidable.not_not] at hb
          rw [hb]; decide
        · exact hp2 y hy

/-- keyGetItem finds the first item behind `adv` in any of the key's entries, and what it tells about it is right. -/
theorem keyGetItem_ok (hU : Coherent cmp U) (adv : Item V) (k : Key V) (hg : k.Good cmp U)
    (hat : ∀ e ∈ k.ents, e.At cmp adv) (hc : k.Cache) (hfin : k.fin = false) :
    (keyGetItem cmp k).ents = k.ents ∧ (keyGetItem cmp k).spec = k.spec ∧
    (((keyGetItem cmp k).fin = true ∧ ∀ e ∈ k.ents, ∀ x ∈ e.stream, beyond cmp adv x = false) ∨
     ((keyGetItem cmp k).fin = false ∧ (keyGetItem cmp k).Cache ∧
      (∃ e ∈ k.ents, (keyGetItem cmp k).cur ∈ e.stream) ∧ beyond cmp adv (keyGetItem cmp k).cur = true ∧
      ∀ e ∈ k.ents, ∀ x ∈ e.stream, beyond cmp adv x = true → cmp (keyGetItem cmp k).cur x ≠ .gt)) := by
  obtain ⟨K, _, key, h1, h2, h3⟩ := exists_key cmp
  unfold keyGetItem
  cases hm : minCur cmp k.ents with
  | none =>
    rw [minCur_none] at hm
    refine ⟨rfl, rfl, .inl ⟨rfl, ?_⟩⟩
    intro e he x hx
    have ha := hat e he
    unfold Ent.At Ent.remaining at ha
    rw [if_pos (hm e he)] at ha
    have := List.filter_eq_nil_iff.1 ha.symm x hx
    simpa using this
  | some m =>
    obtain ⟨⟨e, he, hef, hem⟩, hmin⟩ := minCur_some cmp k.ents m hm
    have ha := hat e he
    unfold Ent.At Ent.remaining at ha
    rw [if_neg (by simp [hef])] at ha
    have hmf : m ∈ e.stream.filter (beyond cmp adv) := by rw [← ha, hem]; simp
    obtain ⟨hms, hmb⟩ := List.mem_filter.1 hmf
    have hmU : U m := (hg e he).2 m hms
    have hleast : ∀ e ∈ k.ents, ∀ x ∈ e.stream, beyond cmp adv x = true → cmp m x ≠ .gt := by
      intro e' he' x hx hxb
      have ha := hat e' he'
      unfold Ent.At Ent.remaining at ha
      have hxf : x ∈ e'.stream.filter (beyond cmp adv) := List.mem_filter.2 ⟨hx, hxb⟩
      rw [← ha] at hxf
      cases hf : e'.fin with
      | true => simp [hf] at hxf
      | false =>
        simp only [hf, Bool.false_eq_true, if_false] at ha hxf
        have hle := hmin e' he' hf
        have hsf : SSorted cmp (e'.cur :: e'.rest) := by rw [ha]; exact (hg e' he').1.filter _
        rcases List.mem_cons.1 hxf with rfl | hxr
        · exact hle
        · have := (List.pairwise_cons.1 hsf).1 x hxr
          rw [h1] at this
          rw [Ne, h3, _root_.not_lt] at hle ⊢
          exact hle.trans this.le
    simp only
    by_cases hceq : cmpIptr k.cur.iptr m.iptr = .eq
    · rw [if_pos hceq]
      have hci : k.cur.iptr = m.iptr := LawfulEqCmp.eq_of_compare hceq
      have hcv : k.cur.iptr.off ≠ 0 := by rw [hci]; exact hU.valid m hmU
      obtain ⟨⟨e', he', hce'⟩, _⟩ := hc.resolve_left hcv
      have hcU : U k.cur := (hg e' he').2 _ hce'
      have hcm : cmp k.cur m = .eq := (hU.iff _ _ hcU hmU).2 hci
      refine ⟨rfl, rfl, .inr ⟨hfin, hc, ⟨e', he', hce'⟩, ?_, ?_⟩⟩
      · rw [beyond_congr cmp adv _ _ hcm]; exact hmb
      · intro e'' he'' x hx hxb
        rw [TransCmp.congr_left hcm]
        exact hleast e'' he'' x hx hxb
    · rw [if_neg hceq]
      refine ⟨rfl, rfl, .inr ⟨hfin, ?_, ⟨e, he, hms⟩, hmb, hleast⟩⟩
      right
      refine ⟨⟨e, he, hms⟩, ?_⟩
      simp only
      rw [entryRes_eq cmp U hU adv m k.ents hg hat hmU hmb hmin]
      rfl

end

/-! ### The main loop -/

section
variable (c : Cmp V) [TransCmp c.item] (am : Bool) (specs : List (KeySpec V)) (tbm : List Iptr)

theorem active_spec (k : Key V) : active am k = k.spec.active am := rfl

theorem mem_items (x : Item V) : x ∈ items am specs ↔
    ∃ k ∈ specs, k.active am = true ∧ ∃ st ∈ k.streams, x ∈ st := by
  unfold items
  simp only [List.mem_flatMap, List.mem_filter, List.mem_flatten]
  constructor
  · rintro ⟨k, ⟨h1, h2⟩, st, h3, h4⟩; exact ⟨k, h1, h2, st, h3, h4⟩
  · rintro ⟨k, h1, h2, st, h3, h4⟩; exact ⟨k, ⟨h1, h2⟩, st, h3, h4⟩

/-- Acceptance by the keys of the main loop and, in mixed-order scans, by the bitmap. -/
def Accept (tid : Iptr) : Prop :=
  (∀ k ∈ specs, k.active am = true → k.Accepts tid) ∧ (am = true → tid ∈ tbm)

/-- State of the filtering keys before the entries are advanced past `adv`. -/
structure KInv (adv : Item V) (k : Key V) : Prop where
  good : k.Good c.item (· ∈ items am specs)
  before : ∀ e ∈ k.ents, e.Before c.item adv
  cache : k.Cache
  fin : k.fin = false

/-- State of the ORDER BY keys before the entries are advanced (one order for all keys). -/
def OI (adv : Item V) (k : Key V) : Prop :=
  am = false → c.order = c.item → k.orderBy = true → ∀ e ∈ k.ents, SSorted c.item e.stream ∧ e.Before c.item adv

/-- The entries of an ORDER BY key tell the truth about a row. -/
def Exact (it : Item V) (k : Key V) : Prop :=
  am = false → c.order = c.item → k.orderBy = true →
    ∀ U : Item V → Prop, Coherent c.item U → U it → (∀ e ∈ k.ents, ∀ x ∈ e.stream, U x) →
      entryRes it.iptr k.ents = k.spec.held it.iptr

theorem countP_lt {α : Type} (p q : α → Bool) (l : List α) (hqp : ∀ x ∈ l, q x = true → p x = true)
    (hx : ∃ x ∈ l, p x = true ∧ q x = false) : l.countP q < l.countP p := by
  induction l with
  | nil => simp at hx
  | cons a l ih =>
    have hle : l.countP q ≤ l.countP p := List.countP_mono_left (fun x hx h => hqp x (by simp [hx]) h)
    obtain ⟨x, hx, h1, h2⟩ := hx
    rcases List.mem_cons.1 hx with rfl | hx
    · rw [List.countP_cons_of_pos h1, List.countP_cons_of_neg (by simp [h2])]; omega
    · have := ih (fun x hx h => hqp x (by simp [hx]) h) ⟨x, hx, h1, h2⟩
      have ha := hqp a (by simp)
      by_cases hq : q a = true
      · rw [List.countP_cons_of_pos hq, List.countP_cons_of_pos (ha hq)]; omega
      · rw [List.countP_cons_of_neg hq]
        rw [List.countP_cons]
        omega

theorem finishKeys_spec (cmp : Item V → Item V → Ordering) (item : Item V) (keys : List (Key V)) :
    (finishKeys cmp item keys).1 = keys.any (fun k => !k.orderBy && k.recheck) ∧
    List.Forall₂ (fun k k' => k'.spec = k.spec ∧ (k.orderBy = false → k' = k)) keys (finishKeys cmp item keys).2 := by
  have hrefl : ∀ ks : List (Key V), List.Forall₂ (fun k k' => k'.spec = k.spec ∧ (k.orderBy = false → k' = k)) ks ks := by
    intro ks; induction ks with
    | nil => exact .nil
    | cons k ks ih => exact .cons ⟨rfl, fun _ => rfl⟩ ih
  induction keys with
  | nil => exact ⟨rfl, .nil⟩
  | cons k ks ih =>
    unfold finishKeys
    by_cases ho : k.orderBy = true
    · simp only [ho, if_true]
      refine ⟨by simp [ih.1, ho], .cons ⟨?_, by simp [ho]⟩ ih.2⟩
      unfold Key.spec
      simp only [ho, List.map_map]
      congr 1
      apply List.map_congr_left
      intro e _
      simp only [Function.comp, catchUp]
      split
      · rfl
      · have : ∀ rest cur, (catchLoop cmp item e.stream cur rest).stream = e.stream := by
          intro rest
          induction rest with
          | nil => intro cur; rw [catchLoop]; split <;> rfl
          | cons x r ih => intro cur; rw [catchLoop]; split
                           · exact ih x
                           · rfl
        exact this _ _
    · have ho' : k.orderBy = false := by simpa using ho
      simp only [ho', Bool.false_eq_true, if_false]
      by_cases hr : k.recheck = true
      · simp only [hr, if_true]
        exact ⟨by simp [ho', hr], hrefl _⟩
      · simp only [hr]
        exact ⟨by simp [ih.1, hr], .cons ⟨rfl, fun _ => rfl⟩ ih.2⟩

theorem finishKeys_order (cmp : Item V → Item V → Ordering) (item : Item V) (keys : List (Key V)) :
    List.Forall₂ (fun k k' => k.orderBy = true →
      ((k'.ents = k.ents ∨ k'.ents = k.ents.map (catchUp cmp item)) ∧
       ((finishKeys cmp item keys).1 = false → k'.ents = k.ents.map (catchUp cmp item))))
      keys (finishKeys cmp item keys).2 := by
  have hrefl : ∀ (P : Prop) (ks : List (Key V)), P → List.Forall₂ (fun k k' : Key V => k.orderBy = true →
      ((k'.ents = k.ents ∨ k'.ents = k.ents.map (catchUp cmp item)) ∧ (true = false → k'.ents = k.ents.map (catchUp cmp item)))) ks ks := by
    intro P ks _; induction ks with
    | nil => exact .nil
    | cons k ks ih => exact .cons (fun _ => ⟨.inl rfl, by simp⟩) ih
  induction keys with
  | nil => exact .nil
  | cons k ks ih =>
    unfold finishKeys
    by_cases ho : k.orderBy = true
    · simp only [ho, if_true]
      exact .cons (fun _ => ⟨.inr rfl, fun _ => rfl⟩) ih
    · have ho' : k.orderBy = false := by simpa using ho
      simp only [ho', Bool.false_eq_true, if_false]
      by_cases hr : k.recheck = true
      · simp only [hr, if_true]
        exact hrefl True _ trivial
      · simp only [hr]
        exact .cons (fun h => absurd h (by simp [ho'])) ih

theorem advKey_spec (adv : Item V) (k : Key V) : (advKey c am adv k).spec = k.spec := by
  unfold advKey
  split
  · unfold Key.spec
    simp only [List.map_map]
    congr 1
    apply List.map_congr_left
    intro e _
    unfold advance Ent.get
    simp only [Function.comp]
    split
    · rfl
    · split
      · split <;> rfl
      · have : ∀ (cmp : Item V → Item V → Ordering) rest cur, (pastLoop cmp adv e.stream cur rest).stream = e.stream := by
          intro cmp rest
          induction rest with
          | nil => intro cur; rw [pastLoop]; split <;> rfl
          | cons x r ih => intro cur; rw [pastLoop]; split
                           · rfl
                           · exact ih x
        exact this _ _ _
  · rfl

theorem nextKey_spec (k : Key V) : (nextKey c am k).spec = k.spec := by
  unfold nextKey keyGetItem
  split
  · split
    · rfl
    · split <;> rfl
  · rfl

/-- Effect of one pass on a filtering key. -/
theorem pass_key (hU : Coherent c.item (· ∈ items am specs)) (adv : Item V) (k : Key V) (ha : active am k = true)
    (hi : KInv c am specs adv k) :
    (∀ e ∈ (nextKey c am (advKey c am adv k)).ents, e.At c.item adv) ∧
    (nextKey c am (advKey c am adv k)).Good c.item (· ∈ items am specs) ∧
    (((nextKey c am (advKey c am adv k)).fin = true ∧
        ∀ st ∈ k.spec.streams, ∀ x ∈ st, beyond c.item adv x = false) ∨
     ((nextKey c am (advKey c am adv k)).fin = false ∧ (nextKey c am (advKey c am adv k)).Cache ∧
      (∃ st ∈ k.spec.streams, (nextKey c am (advKey c am adv k)).cur ∈ st) ∧
      beyond c.item adv (nextKey c am (advKey c am adv k)).cur = true ∧
      ∀ st ∈ k.spec.streams, ∀ x ∈ st, beyond c.item adv x = true →
        c.item (nextKey c am (advKey c am adv k)).cur x ≠ .gt)) := by
  have ho : k.orderBy = false := by unfold active at ha; simp at ha; exact ha.1
  have hv : visible am k = true := by unfold active at ha; simp at ha; exact ha.2
  set k1 := advKey c am adv k with hk1
  have hk1e : k1.ents = k.ents.map (advance c.item adv) := by
    rw [hk1]; unfold advKey; simp [hv, ho]
  have hk1s : k1.spec = k.spec := advKey_spec c am adv k
  have ha1 : active am k1 = true := by rw [active_spec, hk1s]; exact ha
  have hnx : nextKey c am k1 = keyGetItem c.item k1 := by unfold nextKey; rw [if_pos ha1]
  rw [hnx]
  have hg1 : k1.Good c.item (· ∈ items am specs) := by
    intro e he
    rw [hk1e] at he
    obtain ⟨e0, he0, rfl⟩ := List.mem_map.1 he
    rw [advance_stream]
    exact hi.good e0 he0
  have hat : ∀ e ∈ k1.ents, e.At c.item adv := by
    intro e he
    rw [hk1e] at he
    obtain ⟨e0, he0, rfl⟩ := List.mem_map.1 he
    exact advance_at c.item adv e0 (hi.good e0 he0).1 (hi.before e0 he0)
  have hc1 : k1.Cache := by
    have h := hi.cache
    unfold Key.Cache at h ⊢
    rw [hk1s]
    have e1 : k1.cur = k.cur := by rw [hk1]; unfold advKey; split <;> rfl
    have e2 : k1.isMatch = k.isMatch := by rw [hk1]; unfold advKey; split <;> rfl
    have e3 : k1.recheck = k.recheck := by rw [hk1]; unfold advKey; split <;> rfl
    have e4 : k1.cons = k.cons := by rw [hk1]; unfold advKey; split <;> rfl
    rw [e1, e2, e3, e4]
    rcases h with h | ⟨⟨e, he, hx⟩, h⟩
    · exact .inl h
    · refine .inr ⟨⟨advance c.item adv e, by rw [hk1e]; exact List.mem_map_of_mem he, ?_⟩, h⟩
      rw [advance_stream]; exact hx
  have hf1 : k1.fin = false := by rw [hk1]; unfold advKey; split <;> exact hi.fin
  have hst : ∀ (P : List (Item V) → Prop), (∀ e ∈ k1.ents, P e.stream) ↔ ∀ st ∈ k.spec.streams, P st := by
    intro P
    rw [← hk1s]
    simp [Key.spec]
  have hst' : ∀ (P : List (Item V) → Prop), (∃ e ∈ k1.ents, P e.stream) ↔ ∃ st ∈ k.spec.streams, P st := by
    intro P
    rw [← hk1s]
    simp [Key.spec]
  obtain ⟨r1, r2, r3⟩ := keyGetItem_ok c.item (· ∈ items am specs) hU adv k1 hg1 hat hc1 hf1
  refine ⟨by rw [r1]; exact hat, by unfold Key.Good; rw [r1]; exact hg1, ?_⟩
  rcases r3 with ⟨r3, r4⟩ | ⟨r3, r4, r5, r6, r7⟩
  · exact .inl ⟨r3, (hst (fun st => ∀ x ∈ st, beyond c.item adv x = false)).1 r4⟩
  · refine .inr ⟨r3, r4, (hst' (fun st => (keyGetItem c.item k1).cur ∈ st)).1 r5, r6, ?_⟩
    exact (hst (fun st => ∀ x ∈ st, beyond c.item adv x = true → c.item (keyGetItem c.item k1).cur x ≠ .gt)).1 r7

/-- What one call has to deliver. -/
def CallOK (adv : Item V) (s : ScanSt V) : Res V → Prop
  | .stuck => False
  | .done => ∀ x ∈ items am specs, beyond c.item adv x = true → ¬ Accept am specs s.tbm x.iptr
  | .found it r s' =>
    it ∈ items am specs ∧ beyond c.item adv it = true ∧ Accept am specs s.tbm it.iptr ∧
    (∀ x ∈ items am specs, beyond c.item adv x = true → Accept am specs s.tbm x.iptr → c.item it x ≠ .gt) ∧
    s'.altMode = am ∧ s'.tbm = s.tbm ∧ s'.keys.map Key.spec = specs ∧
    (∀ k ∈ s'.keys, active am k = true → KInv c am specs it k) ∧
    r = s'.keys.any (fun k => !k.orderBy && k.recheck) ∧
    (∀ k ∈ s'.keys, active am k = true → k.recheck = k.spec.asks it.iptr) ∧
    List.Forall₂ (fun k k' => k.orderBy = false → active am k = false → k' = k) s.keys s'.keys ∧
    (∀ k ∈ s'.keys, OI c am it k) ∧ (r = false → ∀ k ∈ s'.keys, Exact c am it k)

theorem regLoop_ok (hU : Coherent c.item (· ∈ items am specs)) (hex : ∃ k ∈ specs, k.active am = true) :
    ∀ n (s : ScanSt V) (adv : Item V), s.altMode = am → s.keys.map Key.spec = specs →
    (∀ k ∈ s.keys, active am k = true → KInv c am specs adv k) → (∀ k ∈ s.keys, OI c am adv k) →
    (items am specs).countP (beyond c.item adv) < n →
    CallOK c am specs adv s (regLoop c n s adv) := by
  obtain ⟨K, _, key, h1, h2, h3⟩ := exists_key c.item
  intro n
  induction n with
  | zero => intro s adv _ _ _ _ h; omega
  | succ n ih =>
    intro s adv ham hspec hinv hO hn
    subst ham
    set pass : Key V → Key V := fun k => nextKey c s.altMode (advKey c s.altMode adv k) with hpass
    have hps : ∀ k, (pass k).spec = k.spec := fun k => by rw [hpass]; simp only [nextKey_spec, advKey_spec]
    have hkeys2 : (s.keys.map (advKey c s.altMode adv)).map (nextKey c s.altMode) = s.keys.map pass := by
      rw [List.map_map]; rfl
    have hspec2 : (s.keys.map pass).map Key.spec = specs := by
      rw [List.map_map, ← hspec]; apply List.map_congr_left; intro k _; exact hps k
    have hact : ∀ k, active s.altMode (pass k) = active s.altMode k := fun k => by rw [active_spec, hps]; rfl
    have hP := fun k (hk : k ∈ s.keys) (ha : active s.altMode k = true) =>
      pass_key c s.altMode specs hU adv k ha (hinv k hk ha)
    -- a filtering key all of whose streams are exhausted means no acceptable row is left
    have hnone : ∀ k ∈ s.keys, active s.altMode k = true →
        (∀ st ∈ k.spec.streams, ∀ x ∈ st, beyond c.item adv x = false) →
        ∀ x ∈ items s.altMode specs, beyond c.item adv x = true → ¬ Accept s.altMode specs s.tbm x.iptr := by
      intro k hk ha hall x hx hxb hacc
      have hks : k.spec ∈ specs := by rw [← hspec]; exact List.mem_map_of_mem hk
      obtain ⟨⟨st, hst, y, hy, hyx⟩, _⟩ := hacc.1 k.spec hks ha
      have hyi : y ∈ items s.altMode specs := (mem_items _ _ _).2 ⟨k.spec, hks, ha, st, hst, hy⟩
      have := beyond_congr c.item adv y x ((hU.iff y x hyi hx).2 hyx)
      rw [hxb] at this
      rw [hall st hst y hy] at this
      exact absurd this (by simp)
    obtain ⟨k0s, hk0s, hk0a⟩ := hex
    obtain ⟨k0, hk0, hk0e⟩ : ∃ k0 ∈ s.keys, k0.spec = k0s := by
      rw [← hspec] at hk0s; exact List.mem_map.1 hk0s
    have hk0a' : active s.altMode k0 = true := by rw [active_spec, hk0e]; exact hk0a
    unfold regLoop
    simp only [hkeys2]
    by_cases hall : (s.keys.map (advKey c s.altMode adv)).all
        (fun k => !visible s.altMode k || k.ents.all (·.fin)) = true
    · rw [if_pos hall]
      show ∀ x ∈ items s.altMode specs, _
      refine hnone k0 hk0 hk0a' ?_
      rw [List.all_eq_true] at hall
      have hz := hall (advKey c s.altMode adv k0) (List.mem_map_of_mem hk0)
      have hv : visible s.altMode k0 = true := by
        have := hk0a'; unfold active at this; simp at this; exact this.2
      have hv' : visible s.altMode (advKey c s.altMode adv k0) = true := by
        have : ∀ k : Key V, visible s.altMode k = (!s.altMode || k.spec.alt) := fun _ => rfl
        rw [this, advKey_spec, ← this]; exact hv
      rw [hv'] at hz
      simp only [Bool.not_true, Bool.false_or, List.all_eq_true] at hz
      obtain ⟨q1, q2, q3⟩ := hP k0 hk0 hk0a'
      rcases q3 with q3 | q3
      · exact q3.2
      · exfalso
        have hfin := q3.1
        have ha1 : active s.altMode (advKey c s.altMode adv k0) = true := by
          rw [active_spec, advKey_spec]; exact hk0a'
        unfold nextKey at hfin
        rw [if_pos ha1] at hfin
        unfold keyGetItem at hfin
        rw [(minCur_none c.item _).2 hz] at hfin
        simp at hfin
    · rw [if_neg hall]
      by_cases hfin : (s.keys.map pass).any (fun k => active s.altMode k && k.fin) = true
      · rw [if_pos hfin]
        rw [List.any_eq_true] at hfin
        obtain ⟨k', hk', hf⟩ := hfin
        obtain ⟨k, hk, rfl⟩ := List.mem_map.1 hk'
        rw [hact] at hf
        simp only [Bool.and_eq_true] at hf
        obtain ⟨q1, q2, q3⟩ := hP k hk hf.1
        rcases q3 with q3 | q3
        · exact hnone k hk hf.1 q3.2
        · exfalso; have := q3.1; rw [hf.2] at this; simp at this
      · rw [if_neg hfin]
        have hnf : ∀ k ∈ s.keys, active s.altMode k = true → (pass k).fin = false := by
          intro k hk ha
          cases hx : (pass k).fin with
          | false => rfl
          | true =>
            exfalso; apply hfin
            rw [List.any_eq_true]
            exact ⟨pass k, List.mem_map_of_mem hk, by rw [hact, ha, hx]; rfl⟩
        have hQ : ∀ k ∈ s.keys, active s.altMode k = true → (pass k).Cache ∧
            (∃ st ∈ k.spec.streams, (pass k).cur ∈ st) ∧ beyond c.item adv (pass k).cur = true ∧
            ∀ st ∈ k.spec.streams, ∀ x ∈ st, beyond c.item adv x = true → c.item (pass k).cur x ≠ .gt := by
          intro k hk ha
          rcases (hP k hk ha).2.2 with q | q
          · exfalso; have := q.1; have h' := hnf k hk ha; rw [hpass] at h'; simp only at h'; rw [this] at h'; simp at h'
          · exact q.2
        have hcurU : ∀ k ∈ s.keys, active s.altMode k = true → (pass k).cur ∈ items s.altMode specs := by
          intro k hk ha
          obtain ⟨st, hst, hx⟩ := (hQ k hk ha).2.1
          exact (mem_items _ _ _).2 ⟨k.spec, by rw [← hspec]; exact List.mem_map_of_mem hk, ha, st, hst, hx⟩
        cases hmk : minKey c.item s.altMode (s.keys.map pass) with
        | none =>
          exfalso
          have := (minKey_none c.item s.altMode _).1 hmk (pass k0) (List.mem_map_of_mem hk0)
          rw [hact, hk0a'] at this; simp at this
        | some item =>
          simp only [Option.getD_some]
          obtain ⟨⟨km, hkm, hkma, hkmc⟩, hle⟩ := minKey_some c.item s.altMode _ item hmk
          obtain ⟨ki, hki, rfl⟩ := List.mem_map.1 hkm
          rw [hact] at hkma
          have hitU : item ∈ items s.altMode specs := by rw [← hkmc]; exact hcurU ki hki hkma
          have hitb : beyond c.item adv item = true := by rw [← hkmc]; exact (hQ ki hki hkma).2.2.1
          have hitv := hU.valid item hitU
          have hle' : ∀ k ∈ s.keys, active s.altMode k = true → key item ≤ key (pass k).cur := by
            intro k hk ha
            have := hle (pass k) (List.mem_map_of_mem hk) (by rw [hact]; exact ha)
            rw [Ne, h3, _root_.not_lt] at this; exact this
          -- every acceptable row behind adv is at or behind item
          have hfirst : ∀ x ∈ items s.altMode specs, beyond c.item adv x = true →
              Accept s.altMode specs s.tbm x.iptr → key item ≤ key x := by
            intro x hx hxb hacc
            have hks : k0.spec ∈ specs := by rw [← hspec]; exact List.mem_map_of_mem hk0
            obtain ⟨⟨st, hst, y, hy, hyx⟩, _⟩ := hacc.1 k0.spec hks hk0a'
            have hyi : y ∈ items s.altMode specs := (mem_items _ _ _).2 ⟨k0.spec, hks, hk0a', st, hst, hy⟩
            have hyxe : c.item y x = .eq := (hU.iff y x hyi hx).2 hyx
            have := (hQ k0 hk0 hk0a').2.2.2 st hst y hy (by rw [beyond_congr c.item adv y x hyxe]; exact hxb)
            rw [Ne, h3, _root_.not_lt] at this
            rw [h2] at hyxe
            rw [← hyxe]
            exact (hle' k0 hk0 hk0a').trans this
          -- what the keys say about item
          have hval : ∀ k ∈ s.keys, active s.altMode k = true →
              (((pass k).isMatch && cmpIptr item.iptr (pass k).cur.iptr == .eq) = true ↔ k.spec.Accepts item.iptr) ∧
              (cmpIptr item.iptr (pass k).cur.iptr = .eq → (pass k).recheck = k.spec.asks item.iptr) := by
            intro k hk ha
            obtain ⟨p1, ⟨st, hst, p2⟩, p3, p4⟩ := hQ k hk ha
            have hcons : (pass k).cons = k.spec.cons := by rw [← hps k]; rfl
            have hcv := hU.valid _ (hcurU k hk ha)
            have hcache := (p1.resolve_left hcv).2
            rw [hps, hcons] at hcache
            constructor
            · constructor
              · intro h
                simp only [Bool.and_eq_true, beq_iff_eq] at h
                have hi : item.iptr = (pass k).cur.iptr := LawfulEqCmp.eq_of_compare h.2
                rw [hi]
                refine ⟨⟨st, hst, _, p2, rfl⟩, ?_⟩
                rw [← hcache]; exact h.1
              · rintro ⟨⟨st', hst', y, hy, hyi⟩, hc⟩
                have hyU : y ∈ items s.altMode specs := (mem_items _ _ _).2
                  ⟨k.spec, by rw [← hspec]; exact List.mem_map_of_mem hk, ha, st', hst', hy⟩
                have hye : c.item y item = .eq := (hU.iff y item hyU hitU).2 hyi
                have := p4 st' hst' y hy (by rw [beyond_congr c.item adv y item hye]; exact hitb)
                rw [Ne, h3, _root_.not_lt] at this
                rw [h2] at hye
                have heq : key (pass k).cur = key item := _root_.le_antisymm (this.trans hye.le) (hle' k hk ha)
                rw [← h2] at heq
                have hi := (hU.iff _ _ (hcurU k hk ha) hitU).1 heq
                rw [← hi] at hc ⊢
                rw [← hcache] at hc
                simp only at hc
                simp [hc, ReflCmp.compare_self (cmp := cmpIptr)]
            · intro h
              have hi : item.iptr = (pass k).cur.iptr := LawfulEqCmp.eq_of_compare h
              unfold KeySpec.asks
              rw [hi, ← hcache]
          have hmatch : matchAll s (s.keys.map pass) item = true ↔ Accept s.altMode specs s.tbm item.iptr := by
            unfold matchAll Accept
            rw [Bool.and_eq_true, List.all_eq_true]
            apply and_congr
            · constructor
              · intro h ks hks ha
                rw [← hspec] at hks
                obtain ⟨k, hk, rfl⟩ := List.mem_map.1 hks
                have := h (pass k) (List.mem_map_of_mem hk)
                rw [hact, show active s.altMode k = true from ha] at this
                simp only [Bool.not_true, Bool.false_or] at this
                exact ((hval k hk ha).1).1 this
              · intro h k' hk'
                obtain ⟨k, hk, rfl⟩ := List.mem_map.1 hk'
                rw [hact]
                cases ha : active s.altMode k with
                | false => rfl
                | true =>
                  simp only [Bool.not_true, Bool.false_or]
                  exact ((hval k hk ha).1).2 (h k.spec (by rw [← hspec]; exact List.mem_map_of_mem hk) ha)
            · cases s.altMode <;> simp
          have hinv2 : ∀ k ∈ s.keys.map pass, active s.altMode k = true → KInv c s.altMode specs item k := by
            intro k' hk' ha
            obtain ⟨k, hk, rfl⟩ := List.mem_map.1 hk'
            rw [hact] at ha
            obtain ⟨q1, q2, q3⟩ := hP k hk ha
            refine ⟨q2, ?_, (hQ k hk ha).1, hnf k hk ha⟩
            intro e he
            refine at_before c.item adv item e (q2 e he).1 (q1 e he) hitv ?_
            unfold beyond at hitb
            simp only [Bool.or_eq_true, beq_iff_eq] at hitb
            rcases hitb with h | h
            · exact .inl h
            · right; rw [Ne, h3]; rw [h3] at h; exact not_lt_of_gt h
          have hadvle : adv.iptr.off = 0 ∨ c.item adv item ≠ .gt := by
            unfold beyond at hitb
            simp only [Bool.or_eq_true, beq_iff_eq] at hitb
            rcases hitb with h | h
            · exact .inl h
            · right; rw [Ne, h3]; rw [h3] at h; exact not_lt_of_gt h
          have hO1 : ∀ k ∈ s.keys, s.altMode = false → c.order = c.item → k.orderBy = true →
              ∀ e ∈ (pass k).ents, SSorted c.item e.stream ∧ e.At c.item adv := by
            intro k hk ham' hoi ho e he
            have e1 : (pass k).ents = k.ents.map (advance c.item adv) := by
              rw [hpass]
              have : active s.altMode (advKey c s.altMode adv k) = false := by
                rw [active_spec, advKey_spec]; unfold KeySpec.active Key.spec; simp [ho]
              unfold nextKey; simp only; rw [if_neg (by simp [this])]
              unfold advKey visible; simp [ham', ho, hoi]
            rw [e1] at he
            obtain ⟨e0, he0, rfl⟩ := List.mem_map.1 he
            obtain ⟨g1, g2⟩ := hO k hk ham' hoi ho e0 he0
            exact ⟨by rw [advance_stream]; exact g1, advance_at c.item adv e0 g1 g2⟩
          have hob : ∀ k, (pass k).orderBy = k.orderBy := fun k => by
            have : (pass k).spec.orderBy = k.spec.orderBy := by rw [hps]
            exact this
          have hO2 : ∀ k ∈ s.keys.map pass, OI c s.altMode item k := by
            intro k' hk' ham' hoi ho e he
            obtain ⟨k, hk, rfl⟩ := List.mem_map.1 hk'
            rw [hob] at ho
            obtain ⟨g1, g2⟩ := hO1 k hk ham' hoi ho e he
            exact ⟨g1, at_before c.item adv item e g1 g2 hitv hadvle⟩
          by_cases hm : matchAll s (s.keys.map pass) item = true
          · rw [if_pos hm]
            obtain ⟨f1, f2⟩ := finishKeys_spec c.order item (s.keys.map pass)
            have hfs : (finishKeys c.order item (s.keys.map pass)).2.map Key.spec = specs := by
              rw [← hspec2]
              generalize (finishKeys c.order item (s.keys.map pass)).2 = fk at f2
              generalize s.keys.map pass = ks at f2
              clear * - f2
              induction f2 with
              | nil => rfl
              | cons h _ ih => simp [h.1, ih]
            have hmem : ∀ k ∈ (finishKeys c.order item (s.keys.map pass)).2, active s.altMode k = true →
                k ∈ s.keys.map pass := by
              generalize (finishKeys c.order item (s.keys.map pass)).2 = fk at f2
              generalize s.keys.map pass = ks at f2
              clear * - f2
              induction f2 with
              | nil => intro k hk; simp at hk
              | cons h _ ih =>
                rename_i a b _ _ _
                intro k hk ha
                rcases List.mem_cons.1 hk with rfl | hk
                · have : a.orderBy = false := by
                    rw [active_spec, h.1] at ha
                    unfold KeySpec.active at ha; simp at ha; exact ha.1
                  rw [h.2 this]; simp
                · exact List.mem_cons_of_mem _ (ih k hk ha)
            have f3 := finishKeys_order c.order item (s.keys.map pass)
            have hO3 : ∀ k' ∈ (finishKeys c.order item (s.keys.map pass)).2, s.altMode = false → c.order = c.item →
                k'.orderBy = true → ∃ k ∈ s.keys, k.orderBy = true ∧ k'.spec = k.spec ∧
                  (k'.ents = (pass k).ents ∨ k'.ents = (pass k).ents.map (catchUp c.item item)) ∧
                  ((finishKeys c.order item (s.keys.map pass)).1 = false →
                    k'.ents = (pass k).ents.map (catchUp c.item item)) := by
              intro k' hk' _ hoi ho
              obtain ⟨i, hi, hik⟩ := List.getElem_of_mem hk'
              have hlen := f2.length_eq
              have hi2 : i < (s.keys.map pass).length := by omega
              have g2 := (List.forall₂_iff_get.1 f2).2 i hi2 hi
              have g3 := (List.forall₂_iff_get.1 f3).2 i hi2 hi
              simp only [List.get_eq_getElem, hik] at g2 g3
              have hi3 : i < s.keys.length := by simpa using hi2
              have hpi : (s.keys.map pass)[i] = pass s.keys[i] := by simp
              rw [hpi] at g2 g3
              have ho1 : (pass s.keys[i]).orderBy = true := by
                have : k'.spec.orderBy = (pass s.keys[i]).spec.orderBy := by rw [g2.1]
                exact this.symm.trans ho
              have g4 := g3 ho1
              rw [hoi] at g4
              exact ⟨s.keys[i], List.getElem_mem hi3, (hob _).symm.trans ho1, by rw [g2.1, hps], g4.1,
                by rw [hoi]; exact g4.2⟩
            refine ⟨hitU, hitb, hmatch.1 hm, ?_, rfl, rfl, hfs, ?_, ?_, ?_, ?_, ?_, ?_⟩
            · intro x hx hxb hacc
              rw [Ne, h3, _root_.not_lt]; exact hfirst x hx hxb hacc
            · intro k hk ha; exact hinv2 k (hmem k hk ha) ha
            · rw [f1]
              show _ = (finishKeys c.order item (s.keys.map pass)).2.any _
              generalize (finishKeys c.order item (s.keys.map pass)).2 = fk at f2
              generalize s.keys.map pass = ks at f2
              clear * - f2
              induction f2 with
              | nil => rfl
              | cons h _ ih =>
                rename_i a b _ _ _
                simp only [List.any_cons, ih]
                congr 1
                have hob : b.orderBy = a.orderBy := congrArg KeySpec.orderBy h.1
                cases hob' : a.orderBy with
                | true => rw [hob, hob']; simp
                | false => rw [h.2 hob', hob']
            · intro k hk ha
              have hk' := hmem k hk ha
              obtain ⟨k1, hk1, rfl⟩ := List.mem_map.1 hk'
              rw [hact] at ha
              rw [hps]
              apply (hval k1 hk1 ha).2
              have := ((hval k1 hk1 ha).1).2 ((hmatch.1 hm).1 k1.spec (by rw [← hspec]; exact List.mem_map_of_mem hk1) ha)
              simp only [Bool.and_eq_true, beq_iff_eq] at this
              exact this.2
            · show List.Forall₂ _ s.keys (finishKeys c.order item (s.keys.map pass)).2
              rw [List.forall₂_map_left_iff] at f2
              refine List.Forall₂.imp ?_ f2
              intro k k' h ho ha
              have ho' : (pass k).orderBy = false := by
                have : (pass k).spec.orderBy = k.spec.orderBy := by rw [hps]
                exact this.trans ho
              rw [h.2 ho']
              have hv : visible s.altMode k = false := by
                unfold active at ha; simpa [ho] using ha
              have : advKey c s.altMode adv k = k := by unfold advKey; simp [hv]
              rw [hpass]; simp only [this]
              unfold nextKey; rw [if_neg (by simp [ha])]
            · intro k' hk' ham' hoi ho e he
              obtain ⟨k, hk, hko, hks, hke, _⟩ := hO3 k' hk' ham' hoi ho
              rcases hke with hke | hke
              · rw [hke] at he
                obtain ⟨g1, g2⟩ := hO1 k hk ham' hoi hko e he
                exact ⟨g1, at_before c.item adv item e g1 g2 hitv hadvle⟩
              · rw [hke] at he
                obtain ⟨e0, he0, rfl⟩ := List.mem_map.1 he
                obtain ⟨g1, g2⟩ := hO1 k hk ham' hoi hko e0 he0
                obtain ⟨c1, c2⟩ := catchUp_ok c.item adv item e0 g1 g2 hitb
                have g1' : SSorted c.item (catchUp c.item item e0).stream := by rw [c1]; exact g1
                exact ⟨g1', caught_before c.item item _ g1' hitv (by rw [c1]; exact c2)⟩
            · intro hr k' hk' ham' hoi ho U' hU' hUi hUs
              obtain ⟨k, hk, hko, hks, _, hke⟩ := hO3 k' hk' ham' hoi ho
              have hke := hke hr
              have hall : ∀ e ∈ k'.ents, SSorted c.item e.stream ∧
                  e.remaining = e.stream.filter (fun x => c.item x item != .lt) := by
                intro e he
                rw [hke] at he
                obtain ⟨e0, he0, rfl⟩ := List.mem_map.1 he
                obtain ⟨g1, g2⟩ := hO1 k hk ham' hoi hko e0 he0
                obtain ⟨c1, c2⟩ := catchUp_ok c.item adv item e0 g1 g2 hitb
                exact ⟨by rw [c1]; exact g1, by rw [c1]; exact c2⟩
              refine entryRes_eq' c.item U' hU' (fun x => c.item x item != .lt) item k'.ents
                (fun e he => ⟨(hall e he).1, hUs e he⟩) (fun e he => (hall e he).2) hUi
                (fun x hx => by simp [hx]) ?_
              intro e he hf
              have h5 := (hall e he).2
              have : e.cur ∈ e.stream.filter (fun x => c.item x item != .lt) := by
                rw [← h5]; simp [Ent.remaining, hf]
              have := (List.mem_filter.1 this).2
              simp only [bne_iff_ne, ne_eq] at this
              rw [Ne, h3]; rw [h1] at this; exact this
          · rw [if_neg hm]
            have hdec : (items s.altMode specs).countP (beyond c.item item) <
                (items s.altMode specs).countP (beyond c.item adv) := by
              apply countP_lt
              · intro x _ hx
                unfold beyond at hx hitb ⊢
                simp only [Bool.or_eq_true, beq_iff_eq, hitv, false_or] at hx hitb ⊢
                rcases hitb with h | h
                · exact .inl h
                · right; rw [h3] at *; exact h.trans hx
              · refine ⟨item, hitU, hitb, ?_⟩
                unfold beyond
                simp [hitv, ReflCmp.compare_self (cmp := c.item)]
            have hrec := ih { s with keys := s.keys.map pass } item rfl hspec2 hinv2 hO2 (by omega)
            have hskip : ∀ x ∈ items s.altMode specs, beyond c.item adv x = true →
                Accept s.altMode specs s.tbm x.iptr → beyond c.item item x = true := by
              intro x hx hxb hacc
              unfold beyond
              simp only [Bool.or_eq_true, beq_iff_eq]
              right
              have hle := hfirst x hx hxb hacc
              rw [h3]
              refine _root_.lt_of_le_of_ne hle ?_
              intro he
              rw [← h2] at he
              have := (hU.iff _ _ hitU hx).1 he
              rw [← this] at hacc
              exact hm (hmatch.2 hacc)
            revert hrec
            cases regLoop c n { s with keys := s.keys.map pass } item with
            | stuck => exact id
            | done =>
              intro hrec x hx hxb hacc
              exact hrec x hx (hskip x hx hxb hacc) hacc
            | found it r s' =>
              rintro ⟨a1, a2, a3, a4, a5, a6, a7, a8, a9, a10, a11, a12, a13⟩
              refine ⟨a1, ?_, a3, ?_, a5, a6, a7, a8, a9, a10, ?_, a12, a13⟩
              · unfold beyond at a2 hitb ⊢
                simp only [Bool.or_eq_true, beq_iff_eq, hitv, false_or] at a2 hitb ⊢
                rcases hitb with h | h
                · exact .inl h
                · right; rw [h3] at *; exact h.trans a2
              · intro x hx hxb hacc
                exact a4 x hx (hskip x hx hxb hacc) hacc
              · rw [List.forall₂_map_left_iff] at a11
                refine List.Forall₂.imp ?_ a11
                intro k k' h ho ha
                have hv : visible s.altMode k = false := by
                  unfold active at ha; simpa [ho] using ha
                have e1 : advKey c s.altMode adv k = k := by unfold advKey; simp [hv]
                have e2 : pass k = k := by
                  rw [hpass]; simp only [e1]
                  unfold nextKey; rw [if_neg (by simp [ha])]
                rw [e2] at h
                exact h ho ha

end
end Rum.Scan

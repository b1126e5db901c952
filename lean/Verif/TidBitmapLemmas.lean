import Verif.TidBitmap
import Mathlib.Tactic.Tauto

set_option linter.unusedSectionVars false
set_option linter.unusedSimpArgs false

namespace Rum.TidBitmap

/-! ## Bits -/

theorem testBit_eq (w : Words) (wn bn : Nat) (h : bn < 64) :
    testBit w wn bn = (w wn).getLsbD bn := by
  unfold testBit
  by_cases hb : (w wn).getLsbD bn = true
  · rw [hb]
    simp only [decide_eq_true_eq]
    intro h0
    have := congrArg (fun v => v.getLsbD bn) h0
    simp only [BitVec.getLsbD_and, hb, BitVec.getLsbD_shiftLeft, BitVec.getLsbD_one] at this
    simp [h] at this
  · simp only [Bool.not_eq_true] at hb
    rw [hb]
    simp only [decide_eq_false_iff_not, Decidable.not_not, ne_eq]
    apply BitVec.eq_of_getLsbD_eq
    intro i hi
    simp only [BitVec.getLsbD_and, BitVec.getLsbD_shiftLeft, BitVec.getLsbD_one]
    by_cases hib : i = bn
    · subst hib; simp [hb]
    · simp only [BitVec.getLsbD_zero]
      have : ¬ (i ≥ bn ∧ i - bn = 0) := by omega
      by_cases h2 : i < bn
      · simp [h2]
      · have : i - bn ≠ 0 := by omega
        simp [this]

theorem testBit_setBit (w : Words) (wn bn wn' bn' : Nat) (h : bn < 64) (h' : bn' < 64) :
    testBit (setBit w wn bn) wn' bn' = (decide (wn' = wn ∧ bn' = bn) || testBit w wn' bn') := by
  rw [testBit_eq _ _ _ h', testBit_eq _ _ _ h']
  unfold setBit
  by_cases hw : wn' = wn
  · subst hw
    simp only [if_true, BitVec.getLsbD_or, BitVec.getLsbD_shiftLeft, BitVec.getLsbD_one]
    by_cases hb : bn' = bn
    · subst hb; simp [h']
    · by_cases h2 : bn' < bn
      · simp [h2, hb]
      · have : bn' - bn ≠ 0 := by omega
        simp [this, hb]
  · simp [hw]

theorem bitnum_lt (x : Nat) : bitnum x < 64 := Nat.mod_lt _ (by decide)

/-- Test of the bit at a flat position. -/
def bit (w : Words) (x : Nat) : Bool := testBit w (wordnum x) (bitnum x)

theorem bit_set (w : Words) (x y : Nat) :
    bit (setBit w (wordnum x) (bitnum x)) y = (decide (y = x) || bit w y) := by
  unfold bit
  rw [testBit_setBit _ _ _ _ _ (bitnum_lt _) (bitnum_lt _)]
  congr 1
  rw [decide_eq_decide]
  unfold wordnum bitnum
  constructor
  · rintro ⟨h1, h2⟩; omega
  · rintro rfl; exact ⟨rfl, rfl⟩

theorem bit_set0 (w : Words) (y : Nat) :
    bit (setBit w 0 0) y = (decide (y = 0) || bit w y) := by
  simpa [wordnum, bitnum] using bit_set w 0 y

theorem bit_zero (y : Nat) : bit (fun _ => 0#64) y = false := by
  unfold bit testBit; simp

/-! ## The table -/

/-- Table invariant: keys are distinct, chunk headers are aligned, counters are right. -/
structure WF (t : Tbm) : Prop where
  nodup : (t.tab.map (·.blk)).Nodup
  aligned : ∀ e ∈ t.tab, e.ischunk = true → e.blk % pagesPerChunk = 0
  nentries : t.nentries = t.tab.length
  nchunks : t.nchunks = t.tab.countP (·.ischunk)

theorem wf_create : WF create := by
  constructor <;> simp [create]

theorem lookup_blk {tab : List Entry} {k : Nat} {e : Entry} (h : lookup tab k = some e) :
    e.blk = k ∧ e ∈ tab := by
  unfold lookup at h
  have h1 := List.find?_some h
  exact ⟨by simpa using h1, List.mem_of_find?_eq_some h⟩

theorem lookup_of_mem {tab : List Entry} (hn : (tab.map (·.blk)).Nodup) {e : Entry}
    (h : e ∈ tab) : lookup tab e.blk = some e := by
  unfold lookup
  induction tab with
  | nil => cases h
  | cons x xs ih =>
    simp only [List.map_cons, List.nodup_cons] at hn
    rcases List.mem_cons.mp h with rfl | h'
    · simp
    · have : x.blk ≠ e.blk := fun hx => hn.1 (hx ▸ List.mem_map_of_mem h')
      simp [this, ih hn.2 h']

theorem lookup_none_iff {tab : List Entry} {k : Nat} :
    lookup tab k = none ↔ k ∉ tab.map (·.blk) := by
  unfold lookup
  simp only [List.find?_eq_none, List.mem_map, beq_iff_eq, not_exists, not_and]

theorem lookup_append_new {tab : List Entry} {e : Entry} (k : Nat)
    (h : lookup tab e.blk = none) :
    lookup (tab ++ [e]) k = if k = e.blk then some e else lookup tab k := by
  unfold lookup at *
  rw [List.find?_append]
  by_cases hk : k = e.blk
  · subst hk; simp [h]
  · have : e.blk ≠ k := fun x => hk x.symm
    simp [hk, this]

theorem lookup_update {tab : List Entry} (c : Nat) (f : Entry → Entry)
    (hf : ∀ e, e.blk = c → (f e).blk = c) (k : Nat) :
    lookup (update tab c f) k = if k = c then (lookup tab k).map f else lookup tab k := by
  unfold lookup update
  induction tab with
  | nil => simp
  | cons x xs ih =>
    simp only [List.map_cons, List.find?_cons]
    by_cases hx : x.blk = c
    · simp only [hx, if_true]
      by_cases hk : k = c
      · subst hk; simp [hf x hx]
      · have h1 : (c == k) = false := by simpa using fun h : c = k => hk h.symm
        simp only [hf x hx, h1, ih, hk, if_false]
    · simp only [hx, if_false]
      by_cases hk : x.blk = k
      · have : k ≠ c := fun h => hx (hk.trans h)
        simp [hk, this]
      · have h1 : (x.blk == k) = false := by simpa using hk
        simp only [h1, ih]

theorem lookup_delete {tab : List Entry} (c k : Nat) :
    lookup (delete tab c) k = if k = c then none else lookup tab k := by
  unfold lookup delete
  induction tab with
  | nil => simp
  | cons x xs ih =>
    simp only [List.filter_cons]
    by_cases hx : x.blk = c
    · simp only [hx, beq_self_eq_true, Bool.not_true, Bool.false_eq_true, if_false, ih,
        List.find?_cons]
      by_cases hk : k = c
      · simp [hk]
      · have h1 : (c == k) = false := by simpa using fun h : c = k => hk h.symm
        simp [hk, h1]
    · have h2 : (x.blk == c) = false := by simpa using hx
      simp only [h2, Bool.not_false, if_true, List.find?_cons, ih]
      by_cases hk : x.blk = k
      · have : k ≠ c := fun h => hx (hk.trans h)
        simp [hk, this]
      · have h1 : (x.blk == k) = false := by simpa using hk
        simp only [h1]

/-! ## Well-formedness is preserved -/

theorem keys_update {tab : List Entry} (c : Nat) (f : Entry → Entry)
    (hf : ∀ e, e.blk = c → (f e).blk = c) :
    (update tab c f).map (·.blk) = tab.map (·.blk) := by
  unfold update
  rw [List.map_map]
  apply List.map_congr_left
  intro e _
  simp only [Function.comp]
  split
  · next h => rw [hf e h, h]
  · rfl

theorem mem_update {tab : List Entry} {c : Nat} {f : Entry → Entry} {e : Entry}
    (h : e ∈ update tab c f) : (∃ x ∈ tab, x.blk = c ∧ e = f x) ∨ (e ∈ tab ∧ e.blk ≠ c) := by
  unfold update at h
  obtain ⟨x, hx, rfl⟩ := List.mem_map.mp h
  by_cases hc : x.blk = c
  · left; exact ⟨x, hx, hc, by simp [hc]⟩
  · right; simp [hc, hx]

theorem length_update {tab : List Entry} (c : Nat) (f : Entry → Entry) :
    (update tab c f).length = tab.length := by simp [update]

theorem countP_update_same {tab : List Entry} (c : Nat) (f : Entry → Entry)
    (hf : ∀ e ∈ tab, e.blk = c → (f e).ischunk = e.ischunk) :
    (update tab c f).countP (·.ischunk) = tab.countP (·.ischunk) := by
  unfold update
  rw [List.countP_map]
  apply List.countP_congr
  intro e he
  simp only [Function.comp]
  split
  · next h => rw [hf e he h]
  · rfl

theorem update_absent {tab : List Entry} (c : Nat) (f : Entry → Entry)
    (h : c ∉ tab.map (·.blk)) : update tab c f = tab := by
  unfold update
  conv => rhs; rw [← List.map_id tab]
  apply List.map_congr_left
  intro e he
  have : e.blk ≠ c := fun hc => h (hc ▸ List.mem_map_of_mem he)
  simp [this]

theorem countP_update_new {tab : List Entry} (c : Nat) (f : Entry → Entry)
    (hn : (tab.map (·.blk)).Nodup) {p : Entry} (hp : lookup tab c = some p)
    (hpc : p.ischunk = false) (hf : ∀ e, (f e).ischunk = true) :
    (update tab c f).countP (·.ischunk) = tab.countP (·.ischunk) + 1 := by
  induction tab with
  | nil => simp [lookup] at hp
  | cons x xs ih =>
    simp only [List.map_cons, List.nodup_cons] at hn
    by_cases hx : x.blk = c
    · have hxp : x = p := by
        have := hp; unfold lookup at this; simp [hx] at this; exact this
      subst hxp
      have h1 : c ∉ xs.map (·.blk) := hx ▸ hn.1
      have h2 : update (x :: xs) c f = f x :: xs := by
        have := update_absent c f h1
        unfold update at this ⊢
        simp only [List.map_cons, hx, if_true, this]
      rw [h2, List.countP_cons, List.countP_cons]
      simp [hf, hpc]
    · have h3 : lookup xs c = some p := by
        have := hp; unfold lookup at this ⊢
        have h1 : (x.blk == c) = false := by simpa using hx
        simpa [List.find?_cons, h1] using this
      have h2 : update (x :: xs) c f = x :: update xs c f := by
        unfold update; simp [hx]
      rw [h2, List.countP_cons, List.countP_cons, ih hn.2 h3]; omega

theorem length_delete {tab : List Entry} {k : Nat} (hn : (tab.map (·.blk)).Nodup) {e : Entry}
    (h : lookup tab k = some e) : (delete tab k).length + 1 = tab.length := by
  induction tab with
  | nil => simp [lookup] at h
  | cons x xs ih =>
    simp only [List.map_cons, List.nodup_cons] at hn
    by_cases hx : x.blk = k
    · have h1 : delete xs k = xs := by
        unfold delete
        apply List.filter_eq_self.mpr
        intro y hy
        have : y.blk ≠ k := fun hk => hn.1 (hx ▸ hk ▸ List.mem_map_of_mem hy)
        simpa using this
      have h2 : delete (x :: xs) k = delete xs k := by
        unfold delete; simp [hx]
      rw [h2, h1]; simp
    · have h3 : lookup xs k = some e := by
        have := h; unfold lookup at this ⊢
        have h1 : (x.blk == k) = false := by simpa using hx
        simpa [List.find?_cons, h1] using this
      have h2 : delete (x :: xs) k = x :: delete xs k := by
        unfold delete; simp [hx]
      rw [h2, List.length_cons, List.length_cons, ← ih hn.2 h3]

theorem countP_delete {tab : List Entry} {k : Nat}
    (h : ∀ e ∈ tab, e.blk = k → e.ischunk = false) :
    (delete tab k).countP (·.ischunk) = tab.countP (·.ischunk) := by
  unfold delete
  rw [List.countP_filter]
  apply List.countP_congr
  intro e he
  by_cases hk : e.blk = k
  · simp [hk, h e he hk]
  · have : (e.blk == k) = false := by simpa using hk
    simp [this]

/-- After the removal step of `markPageLossy`. -/
def dropExact (t : Tbm) (p : Nat) : Tbm :=
  if p % pagesPerChunk ≠ 0 ∧ (lookup t.tab p).isSome then
    { t with tab := delete t.tab p, nentries := t.nentries - 1 }
  else t

theorem mark_unfold (t : Tbm) (p : Nat) :
    markPageLossy t p =
      match lookup (dropExact t p).tab (p - p % pagesPerChunk) with
      | none =>
        { tab := (dropExact t p).tab ++ [{ newEntry (p - p % pagesPerChunk) true with
            words := setBit (fun _ => 0#64) (wordnum (p % pagesPerChunk)) (bitnum (p % pagesPerChunk)) }]
          nentries := (dropExact t p).nentries + 1, nchunks := (dropExact t p).nchunks + 1 }
      | some page =>
        if page.ischunk then
          { dropExact t p with tab := update (dropExact t p).tab (p - p % pagesPerChunk) (fun e =>
              { e with words := setBit e.words (wordnum (p % pagesPerChunk)) (bitnum (p % pagesPerChunk)) }) }
        else
          { dropExact t p with
            tab := update (dropExact t p).tab (p - p % pagesPerChunk) (fun _ =>
              { newEntry (p - p % pagesPerChunk) true with
                words := setBit (setBit (fun _ => 0#64) 0 0)
                  (wordnum (p % pagesPerChunk)) (bitnum (p % pagesPerChunk)) })
            nchunks := (dropExact t p).nchunks + 1 } := rfl

theorem wf_dropExact {t : Tbm} (h : WF t) (p : Nat) : WF (dropExact t p) := by
  unfold dropExact
  split
  · next hc =>
    obtain ⟨e, he⟩ := Option.isSome_iff_exists.mp hc.2
    constructor
    · exact h.nodup.sublist (List.Sublist.map _ List.filter_sublist)
    · intro x hx; exact h.aligned x (List.mem_filter.mp hx).1
    · have := length_delete h.nodup he
      simp only [h.nentries]; omega
    · simp only [h.nchunks]
      rw [countP_delete]
      intro x hx hxp
      by_cases hxc : x.ischunk = true
      · exact absurd (hxp ▸ h.aligned x hx hxc) hc.1
      · simpa using hxc
  · exact h

theorem lookup_dropExact (t : Tbm) (p k : Nat) :
    lookup (dropExact t p).tab k =
      if k = p ∧ p % pagesPerChunk ≠ 0 then none else lookup t.tab k := by
  unfold dropExact
  by_cases hc : p % pagesPerChunk ≠ 0 ∧ (lookup t.tab p).isSome
  · rw [if_pos hc]
    simp only [lookup_delete]
    by_cases hk : k = p
    · rw [if_pos hk, if_pos ⟨hk, hc.1⟩]
    · rw [if_neg hk, if_neg (fun h => hk h.1)]
  · rw [if_neg hc]
    by_cases hk : k = p ∧ p % pagesPerChunk ≠ 0
    · rw [if_pos hk]
      have : ¬ (lookup t.tab p).isSome := fun h => hc ⟨hk.2, h⟩
      rw [hk.1]; simpa using this
    · rw [if_neg hk]

theorem wf_append {t : Tbm} (h : WF t) {e : Entry} (he : lookup t.tab e.blk = none)
    (ha : e.ischunk = true → e.blk % pagesPerChunk = 0) :
    WF { tab := t.tab ++ [e], nentries := t.nentries + 1,
         nchunks := t.nchunks + (if e.ischunk then 1 else 0) } := by
  constructor
  · rw [List.map_append, List.nodup_append]
    refine ⟨h.nodup, by simp, ?_⟩
    intro a ha b hb hab
    simp only [List.map_cons, List.map_nil, List.mem_singleton] at hb
    exact lookup_none_iff.mp he (hb ▸ hab ▸ ha)
  · intro x hx hc
    rcases List.mem_append.mp hx with hx | hx
    · exact h.aligned x hx hc
    · rw [List.mem_singleton.mp hx] at hc ⊢; exact ha hc
  · simp [h.nentries]
  · simp [h.nchunks, List.countP_append, List.countP_cons]

theorem wf_update_same {t : Tbm} (h : WF t) (c : Nat) (f : Entry → Entry)
    (hb : ∀ e, e.blk = c → (f e).blk = c) (hi : ∀ e, e.blk = c → (f e).ischunk = e.ischunk) :
    WF { t with tab := update t.tab c f } := by
  constructor
  · simp only [keys_update c f hb]; exact h.nodup
  · intro x hx hc
    rcases mem_update hx with ⟨y, hy, hyc, rfl⟩ | ⟨hy, _⟩
    · rw [hi y hyc] at hc
      rw [hb y hyc, ← hyc]; exact h.aligned y hy hc
    · exact h.aligned x hy hc
  · simp only [length_update]; exact h.nentries
  · simp only [countP_update_same c f (fun e _ he => hi e he)]; exact h.nchunks

theorem header_mod (p : Nat) : (p - p % pagesPerChunk) % pagesPerChunk = 0 := by
  unfold pagesPerChunk; omega

theorem wf_mark {t : Tbm} (h : WF t) (p : Nat) : WF (markPageLossy t p) := by
  rw [mark_unfold]
  have h1 := wf_dropExact h p
  split
  · next hl =>
    exact wf_append h1 (e := { newEntry (p - p % pagesPerChunk) true with
            words := setBit (fun _ => 0#64) (wordnum (p % pagesPerChunk)) (bitnum (p % pagesPerChunk)) })
      hl (fun _ => header_mod p)
  · next page hl =>
    split
    · exact wf_update_same h1 _ _ (fun e he => he) (fun _ _ => rfl)
    · next hc =>
      have hc' : page.ischunk = false := by simpa using hc
      constructor
      · simp only
        rw [keys_update]
        · exact h1.nodup
        · intro e _; rfl
      · intro x hx hxc
        rcases mem_update hx with ⟨y, hy, hyc, rfl⟩ | ⟨hy, _⟩
        · exact header_mod p
        · exact h1.aligned x hy hxc
      · simp only [length_update]; exact h1.nentries
      · simp only
        rw [countP_update_new _ _ h1.nodup hl hc' (fun _ => rfl), h1.nchunks]

theorem wf_lossify {t : Tbm} (h : WF t) (ps : List Nat) : WF (lossify t ps) := by
  induction ps generalizing t with
  | nil => exact h
  | cons p ps ih =>
    unfold lossify
    split
    · exact ih h
    · split
      · exact ih h
      · split
        · exact ih h
        · exact ih (wf_mark h _)

theorem wf_getPageentry {t : Tbm} (h : WF t) (p : Nat) : WF (getPageentry t p) := by
  unfold getPageentry
  split
  · exact h
  · next hl =>
    have := wf_append h (e := newEntry p false) hl (by simp [newEntry])
    simpa [newEntry] using this

/-! ## What the readers see -/

theorem findPageentry_wf {t : Tbm} (h : WF t) (k : Nat) :
    findPageentry t k = (lookup t.tab k).filter (fun e => !e.ischunk) := by
  unfold findPageentry
  by_cases h0 : t.nentries = 0
  · rw [if_pos h0]
    rw [h.nentries, List.length_eq_zero_iff] at h0
    simp [h0, lookup]
  · rw [if_neg h0]
    cases lookup t.tab k with
    | none => rfl
    | some e => cases hc : e.ischunk <;> simp [Option.filter, hc]

theorem pageIsLossy_wf {t : Tbm} (h : WF t) (k : Nat) :
    pageIsLossy t k = (match lookup t.tab (k - k % pagesPerChunk) with
      | some e => e.ischunk && bit e.words (k % pagesPerChunk)
      | none => false) := by
  unfold pageIsLossy
  by_cases h0 : t.nchunks = 0
  · rw [if_pos h0]
    rw [h.nchunks, List.countP_eq_zero] at h0
    split
    · next e he =>
      have := h0 e (lookup_blk he).2
      simp at this; simp [this]
    · rfl
  · rw [if_neg h0]; rfl

theorem hdr_hdr (p : Nat) : p - p % pagesPerChunk - (p - p % pagesPerChunk) % pagesPerChunk
    = p - p % pagesPerChunk := by rw [header_mod]; rfl

theorem lookup_mark {t : Tbm} (p k : Nat) :
    lookup (markPageLossy t p).tab k =
      if k = p - p % pagesPerChunk then
        some (match lookup t.tab k with
          | none => { newEntry k true with
              words := setBit (fun _ => 0#64) (wordnum (p % pagesPerChunk)) (bitnum (p % pagesPerChunk)) }
          | some e => if e.ischunk then
              { e with words := setBit e.words (wordnum (p % pagesPerChunk)) (bitnum (p % pagesPerChunk)) }
            else { newEntry k true with
              words := setBit (setBit (fun _ => 0#64) 0 0)
                  (wordnum (p % pagesPerChunk)) (bitnum (p % pagesPerChunk)) })
      else if k = p then none else lookup t.tab k := by
  have hD : lookup (dropExact t p).tab (p - p % pagesPerChunk) =
      lookup t.tab (p - p % pagesPerChunk) := by
    rw [lookup_dropExact, if_neg]
    rintro ⟨h1, h2⟩
    unfold pagesPerChunk at *; omega
  rw [mark_unfold]
  by_cases hk : k = p - p % pagesPerChunk
  · rw [if_pos hk]
    subst hk
    rw [hD]
    split
    · next hl =>
      simp only [hl]
      rw [lookup_append_new _ (by rw [← hD] at hl; exact hl)]
      rw [if_pos (by rfl)]
    · next e hl =>
      simp only [hl]
      split
      · simp only
        rw [lookup_update _ _ (by intro e he; exact he), if_pos rfl, hD, hl]; rfl
      · simp only
        rw [lookup_update _ _ (by intro e he; rfl), if_pos rfl, hD, hl]; rfl
  · rw [if_neg hk]
    have h2 : lookup (dropExact t p).tab k = if k = p then none else lookup t.tab k := by
      rw [lookup_dropExact]
      by_cases hkp : k = p
      · have : p % pagesPerChunk ≠ 0 := by intro h0; rw [h0] at hk; exact hk hkp
        rw [if_pos ⟨hkp, this⟩, if_pos hkp]
      · rw [if_neg (fun h => hkp h.1), if_neg hkp]
    rw [← h2]
    split
    · next hl =>
      simp only
      rw [lookup_append_new _ hl, if_neg (by exact hk)]
    · next e hl =>
      split
      · simp only
        rw [lookup_update _ _ (by intro e he; exact he), if_neg hk]
      · simp only
        rw [lookup_update _ _ (by intro e he; rfl), if_neg hk]

/-- Block `q` has an exact entry. -/
theorem find_mark {t : Tbm} (h : WF t) (p q : Nat) :
    findPageentry (markPageLossy t p) q =
      if q = p ∨ q = p - p % pagesPerChunk then none else findPageentry t q := by
  rw [findPageentry_wf (wf_mark h p), findPageentry_wf h, lookup_mark]
  by_cases hq : q = p - p % pagesPerChunk
  · rw [if_pos hq, if_pos (Or.inr hq)]
    cases hl : lookup t.tab q with
    | none => rfl
    | some e => cases hc : e.ischunk <;> simp [Option.filter, hc, newEntry]
  · rw [if_neg hq]
    by_cases hp : q = p
    · rw [if_pos hp, if_pos (Or.inl hp)]; rfl
    · rw [if_neg hp, if_neg (fun h => h.elim hp hq)]

theorem lossy_mark {t : Tbm} (h : WF t) (p q : Nat) :
    pageIsLossy (markPageLossy t p) q = true ↔
      (pageIsLossy t q = true ∨ q = p ∨
        (q = p - p % pagesPerChunk ∧ (findPageentry t q).isSome)) := by
  rw [pageIsLossy_wf (wf_mark h p), pageIsLossy_wf h, findPageentry_wf h, lookup_mark]
  by_cases hh : q - q % pagesPerChunk = p - p % pagesPerChunk
  · have key : q % pagesPerChunk = p % pagesPerChunk ↔ q = p := by
      unfold pagesPerChunk at *; omega
    have key0 : q % pagesPerChunk = 0 ↔ q = p - p % pagesPerChunk := by
      unfold pagesPerChunk at *; omega
    rw [if_pos hh]
    have hfilter : ∀ (hq : q = p - p % pagesPerChunk),
        lookup t.tab q = lookup t.tab (q - q % pagesPerChunk) := by
      intro hq; rw [hh, ← hq]
    cases hl : lookup t.tab (q - q % pagesPerChunk) with
    | none =>
      simp only [newEntry, Bool.true_and, bit_set, bit_zero, Bool.or_false, decide_eq_true_eq, key]
      constructor
      · intro hx; exact Or.inr (Or.inl hx)
      · rintro (hx | hx | ⟨hx, hy⟩)
        · cases hx
        · exact hx
        · rw [hfilter hx, hl] at hy; simp at hy
    | some e =>
      cases hc : e.ischunk
      · simp only [hc, Bool.false_eq_true, if_false, newEntry, Bool.true_and, bit_set, bit_set0,
          bit_zero, Bool.or_false, Bool.or_eq_true, decide_eq_true_eq, key, key0, Bool.false_and,
          false_or]
        constructor
        · rintro (hx | hx)
          · exact Or.inl hx
          · refine Or.inr ⟨hx, ?_⟩
            rw [hfilter hx, hl]; simp [Option.filter, hc]
        · rintro (hx | ⟨hx, _⟩)
          · exact Or.inl hx
          · exact Or.inr hx
      · simp only [hc, if_true, Bool.true_and, bit_set, Bool.or_eq_true, decide_eq_true_eq, key]
        constructor
        · rintro (hx | hx)
          · exact Or.inr (Or.inl hx)
          · exact Or.inl hx
        · rintro (hx | hx | ⟨hx, hy⟩)
          · exact Or.inr hx
          · exact Or.inl hx
          · rw [hfilter hx, hl] at hy; simp [Option.filter, hc] at hy
  · rw [if_neg hh]
    have h1 : ¬ (q - q % pagesPerChunk = p) := by
      intro hx; apply hh
      unfold pagesPerChunk at *; omega
    rw [if_neg h1]
    have h2 : q ≠ p := fun hx => hh (by rw [hx])
    have h3 : q ≠ p - p % pagesPerChunk := by
      intro hx; apply hh; unfold pagesPerChunk at *; omega
    simp [h2, h3]

/-! ## Refinement of a set of rows -/

/-- Offsets a heap tuple can have. -/
def OkOff (off : Nat) : Prop := 1 ≤ off ∧ off ≤ maxTuplesPerPage

/-- Row `(q, off)` is visible in the bitmap. -/
def Sees (t : Tbm) (q off : Nat) : Prop :=
  pageIsLossy t q = true ∨ ∃ e, findPageentry t q = some e ∧ bit e.words (off - 1) = true

/-- Page `q` occurs in the bitmap. -/
def Has (t : Tbm) (q : Nat) : Prop :=
  pageIsLossy t q = true ∨ (findPageentry t q).isSome = true

/-- `t` contains at least the rows `A`, only pages `P`, and its exact entries only rows `X`. -/
structure Ref (t : Tbm) (A : Nat → Nat → Prop) (P : Nat → Prop) (X : Nat → Nat → Prop) : Prop where
  wf : WF t
  complete : ∀ q off, OkOff off → A q off → Sees t q off
  pages : ∀ q, Has t q → P q
  exact : ∀ q off e, OkOff off → findPageentry t q = some e → bit e.words (off - 1) = true → X q off

theorem Ref.mono {t : Tbm} {A A' P P' X X'} (h : Ref t A P X) (hA : ∀ q o, A' q o → A q o)
    (hP : ∀ q, P q → P' q) (hX : ∀ q o, X q o → X' q o) : Ref t A' P' X' :=
  ⟨h.wf, fun q o ho ha => h.complete q o ho (hA q o ha), fun q hq => hP q (h.pages q hq),
    fun q o e ho h1 h2 => hX q o (h.exact q o e ho h1 h2)⟩

theorem has_mark {t : Tbm} (h : WF t) (p q : Nat) :
    Has (markPageLossy t p) q ↔ (Has t q ∨ q = p) := by
  unfold Has
  rw [lossy_mark h, find_mark h]
  by_cases h1 : q = p
  · simp [h1]
  · by_cases h2 : q = p - p % pagesPerChunk
    · rw [if_pos (Or.inr h2)]; simp only [h1, h2, true_and, false_or, Option.isSome_none, Bool.false_eq_true]; tauto
    · rw [if_neg (fun h => h.elim h1 h2)]; simp [h1, h2]

theorem ref_mark {t : Tbm} {A P X} (h : Ref t A P X) (p : Nat) :
    Ref (markPageLossy t p) (fun q o => A q o ∨ q = p) (fun q => P q ∨ q = p) X := by
  refine ⟨wf_mark h.wf p, ?_, ?_, ?_⟩
  · intro q off ho ha
    unfold Sees
    rw [lossy_mark h.wf, find_mark h.wf]
    rcases ha with ha | ha
    · rcases h.complete q off ho ha with hl | ⟨e, he, hb⟩
      · exact Or.inl (Or.inl hl)
      · by_cases h1 : q = p
        · exact Or.inl (Or.inr (Or.inl h1))
        · by_cases h2 : q = p - p % pagesPerChunk
          · exact Or.inl (Or.inr (Or.inr ⟨h2, by simp [he]⟩))
          · right; rw [if_neg (fun h => h.elim h1 h2)]; exact ⟨e, he, hb⟩
    · exact Or.inl (Or.inr (Or.inl ha))
  · intro q hq
    rw [has_mark h.wf] at hq
    exact hq.imp (h.pages q) id
  · intro q off e ho he hb
    rw [find_mark h.wf] at he
    split at he
    · cases he
    · exact h.exact q off e ho he hb

theorem ref_lossify {t : Tbm} {A P X} (h : Ref t A P X) (ps : List Nat) :
    Ref (lossify t ps) A P X := by
  induction ps generalizing t with
  | nil => exact h
  | cons p ps ih =>
    unfold lossify
    split
    · exact ih h
    · next e he =>
      split
      · exact ih h
      · next hc =>
        split
        · exact ih h
        · apply ih
          have hP : P e.blk := by
            apply h.pages
            right
            rw [findPageentry_wf h.wf, (lookup_blk he).1, he]
            simp [Option.filter, hc]
          exact (ref_mark h e.blk).mono (fun q o ha => Or.inl ha)
            (fun q hq => hq.elim id (fun h => h ▸ hP)) (fun q o hx => hx)

theorem ref_maybeLossify {t : Tbm} {A P X} (h : Ref t A P X) (d : Option (List Nat)) :
    Ref (maybeLossify t d) A P X := by
  cases d with
  | none => exact h
  | some ps => exact ref_lossify h ps

theorem lookup_get (t : Tbm) (p k : Nat) :
    lookup (getPageentry t p).tab k =
      if k = p then some ((lookup t.tab p).getD (newEntry p false)) else lookup t.tab k := by
  unfold getPageentry
  cases hl : lookup t.tab p with
  | some e =>
    simp only [Option.getD_some]
    split
    · next hk => rw [hk, hl]
    · rfl
  | none =>
    simp only [Option.getD_none]
    rw [lookup_append_new _ (by exact hl)]
    rfl

theorem lossy_get {t : Tbm} (h : WF t) (p q : Nat) :
    pageIsLossy (getPageentry t p) q = pageIsLossy t q := by
  rw [pageIsLossy_wf (wf_getPageentry h p), pageIsLossy_wf h, lookup_get]
  by_cases hk : q - q % pagesPerChunk = p
  · rw [if_pos hk, hk]
    cases lookup t.tab p with
    | none => rfl
    | some e => rfl
  · rw [if_neg hk]

theorem ref_get {t : Tbm} {A P X} (h : Ref t A P X) (p : Nat) :
    Ref (getPageentry t p) A (fun q => P q ∨ q = p) X := by
  have hf : ∀ q e, findPageentry (getPageentry t p) q = some e →
      findPageentry t q = some e ∨ (q = p ∧ e = newEntry p false) := by
    intro q e he
    rw [findPageentry_wf (wf_getPageentry h.wf p), lookup_get] at he
    rw [findPageentry_wf h.wf]
    by_cases hk : q = p
    · rw [if_pos hk] at he
      rw [hk]
      cases hl : lookup t.tab p with
      | some x => rw [hl] at he; left; exact he
      | none =>
        rw [hl] at he; right
        simp [Option.filter, newEntry] at he
        exact ⟨rfl, he.symm⟩
    · rw [if_neg hk] at he; exact Or.inl he
  refine ⟨wf_getPageentry h.wf p, ?_, ?_, ?_⟩
  · intro q off ho ha
    unfold Sees
    rw [lossy_get h.wf]
    rcases h.complete q off ho ha with hl | ⟨e, he, hb⟩
    · exact Or.inl hl
    · refine Or.inr ⟨e, ?_, hb⟩
      rw [findPageentry_wf h.wf] at he
      rw [findPageentry_wf (wf_getPageentry h.wf p), lookup_get]
      by_cases hk : q = p
      · rw [if_pos hk]; rw [hk] at he
        cases hl : lookup t.tab p with
        | some x => rw [hl] at he; exact he
        | none => rw [hl] at he; cases he
      · rw [if_neg hk]; exact he
  · intro q hq
    unfold Has at hq
    rw [lossy_get h.wf] at hq
    rcases hq with hq | hq
    · exact Or.inl (h.pages q (Or.inl hq))
    · obtain ⟨e, he⟩ := Option.isSome_iff_exists.mp hq
      rcases hf q e he with he | ⟨hk, _⟩
      · exact Or.inl (h.pages q (Or.inr (by simp [he])))
      · exact Or.inr hk
  · intro q off e ho he hb
    rcases hf q e he with he | ⟨hk, rfl⟩
    · exact h.exact q off e ho he hb
    · have : bit (newEntry p false).words (off - 1) = false := bit_zero _
      rw [this] at hb; cases hb

/-- Setting bits in the entry of a page that is present and not lossy. -/
theorem ref_touch {t : Tbm} {A P X} (h : Ref t A P X) (blk : Nat)
    (hhas : P blk) (f : Entry → Entry)
    (hfb : ∀ e, (f e).blk = e.blk) (hfi : ∀ e, (f e).ischunk = e.ischunk)
    (hfc : ∀ e y, e.ischunk = true → bit (f e).words y = (decide (y = 0) || bit e.words y))
    (N : Nat → Prop)
    (hfx : ∀ e off, e.ischunk = false → OkOff off →
      (bit (f e).words (off - 1) = true ↔ (bit e.words (off - 1) = true ∨ N off)))
    (hp : (lookup t.tab blk).isSome) :
    Ref { t with tab := update t.tab blk f } (fun q o => A q o ∨ (q = blk ∧ N o)) P
      (fun q o => X q o ∨ (q = blk ∧ N o)) := by
  have hwf : WF { t with tab := update t.tab blk f } :=
    wf_update_same h.wf blk f (fun e he => by rw [hfb, he]) (fun e _ => hfi e)
  obtain ⟨pg, hpg⟩ := Option.isSome_iff_exists.mp hp
  have hlk : ∀ k, lookup (update t.tab blk f) k = if k = blk then some (f pg) else lookup t.tab k := by
    intro k
    rw [lookup_update _ _ (fun e he => by rw [hfb, he])]
    split
    · next hk => rw [hk, hpg]; rfl
    · rfl
  have hal : pg.ischunk = true → blk % pagesPerChunk = 0 := by
    intro hc
    rw [← (lookup_blk hpg).1]
    exact h.wf.aligned pg (lookup_blk hpg).2 hc
  have hlossy : ∀ q, pageIsLossy { t with tab := update t.tab blk f } q = true ↔
      (pageIsLossy t q = true ∨ (q = blk ∧ pg.ischunk = true)) := by
    intro q
    rw [pageIsLossy_wf hwf, pageIsLossy_wf h.wf]
    simp only [hlk]
    by_cases hk : q - q % pagesPerChunk = blk
    · rw [if_pos hk, hk, hpg]
      simp only [hfi]
      cases hc : pg.ischunk
      · simp
      · have hz : q % pagesPerChunk = 0 ↔ q = blk := by
          have := hal hc
          unfold pagesPerChunk at *; omega
        simp only [Bool.true_and, hfc pg _ hc, Bool.or_eq_true, decide_eq_true_eq, and_true, hz]
        exact Or.comm
    · rw [if_neg hk]
      constructor
      · exact Or.inl
      · rintro (hx | ⟨hx, hc⟩)
        · exact hx
        · exfalso; apply hk
          have := hal hc
          rw [hx, this]; rfl
  have hfind : ∀ q, findPageentry { t with tab := update t.tab blk f } q =
      if q = blk then (findPageentry t q).map f else findPageentry t q := by
    intro q
    rw [findPageentry_wf hwf, findPageentry_wf h.wf]
    simp only [hlk]
    by_cases hk : q = blk
    · rw [if_pos hk, if_pos hk, hk, hpg]
      cases hc : pg.ischunk <;> simp [Option.filter, hc, hfi]
    · rw [if_neg hk, if_neg hk]
  have hfpg : pg.ischunk = false → findPageentry t blk = some pg := by
    intro hc
    rw [findPageentry_wf h.wf, hpg]; simp [Option.filter, hc]
  have hfpg' : ∀ e, findPageentry t blk = some e → e = pg ∧ pg.ischunk = false := by
    intro e he
    rw [findPageentry_wf h.wf, hpg] at he
    cases hc : pg.ischunk <;> simp [Option.filter, hc] at he
    exact ⟨he.symm, rfl⟩
  refine ⟨hwf, ?_, ?_, ?_⟩
  · intro q off ho ha
    unfold Sees
    rw [hlossy, hfind]
    rcases ha with ha | ⟨hq, hn⟩
    · rcases h.complete q off ho ha with hl | ⟨e, he, hb⟩
      · exact Or.inl (Or.inl hl)
      · right
        by_cases hk : q = blk
        · rw [if_pos hk]
          refine ⟨f e, by rw [he]; rfl, ?_⟩
          rw [hk] at he
          obtain ⟨rfl, hc⟩ := hfpg' e he
          exact (hfx e off hc ho).mpr (Or.inl hb)
        · rw [if_neg hk]; exact ⟨e, he, hb⟩
    · cases hc : pg.ischunk
      · right
        rw [if_pos hq, hq, hfpg hc]
        exact ⟨f pg, rfl, (hfx pg off hc ho).mpr (Or.inr hn)⟩
      · exact Or.inl (Or.inr ⟨hq, rfl⟩)
  · intro q hq
    unfold Has at hq
    rw [hlossy, hfind] at hq
    rcases hq with (hq | ⟨hq, _⟩) | hq
    · exact h.pages q (Or.inl hq)
    · rw [hq]; exact hhas
    · by_cases hk : q = blk
      · rw [hk]; exact hhas
      · rw [if_neg hk] at hq; exact h.pages q (Or.inr hq)
  · intro q off e ho he hb
    rw [hfind] at he
    by_cases hk : q = blk
    · rw [if_pos hk] at he
      obtain ⟨e0, he0, rfl⟩ := Option.map_eq_some_iff.mp he
      rw [hk] at he0
      obtain ⟨rfl, hc⟩ := hfpg' e0 he0
      rcases (hfx e0 off hc ho).mp hb with hb | hn
      · left; rw [hk]; exact h.exact blk off e0 ho he0 hb
      · exact Or.inr ⟨hk, hn⟩
    · rw [if_neg hk] at he
      exact Or.inl (h.exact q off e ho he hb)

/-! ## Adding rows -/

/-- What the loop's cached page pointer guarantees. -/
def CacheOk (t : Tbm) : Option (Nat × Bool) → Prop
  | none => True
  | some (b, isNull) => (isNull = true → pageIsLossy t b = true) ∧
      (isNull = false → (lookup t.tab b).isSome = true)

theorem ref_addTuplesLoop {rc : Bool} (rows : List ((Nat × Nat) × Option (List Nat))) :
    ∀ {t : Tbm} {A P X} {cache : Option (Nat × Bool)} {t' : Tbm}, Ref t A P X → CacheOk t cache →
    addTuplesLoop t cache rc rows = some t' →
    Ref t' (fun q o => A q o ∨ (q, o) ∈ rows.map (·.1))
      (fun q => P q ∨ q ∈ rows.map (·.1.1))
      (fun q o => X q o ∨ (q, o) ∈ rows.map (·.1)) := by
  induction rows with
  | nil =>
    intro t A P X cache t' h _ he
    simp only [addTuplesLoop, Option.some.injEq] at he
    subst he
    simpa using h
  | cons row rest ih =>
    intro t A P X cache t' h hcache he
    obtain ⟨⟨blk, off⟩, dec⟩ := row
    simp only [addTuplesLoop] at he
    split at he
    · cases he
    next hoff =>
    have hok : OkOff off := ⟨by omega, by omega⟩
    generalize hhit : cacheHit cache blk = hit at he
    generalize hnull : pageNull t cache blk = isNull at he
    unfold pageNull at hnull
    rw [hhit] at hnull
    unfold cacheHit at hhit
    -- the decision is right
    have hN : isNull = true → pageIsLossy t blk = true := by
      intro hn
      rw [hn] at hnull
      cases hit
      · simpa using hnull
      · cases cache with
        | none => simp at hhit
        | some c =>
          obtain ⟨b, n⟩ := c
          simp only [beq_iff_eq] at hhit
          simp only [if_true] at hnull
          subst hhit
          exact hcache.1 hnull
    by_cases hn : isNull = true
    · subst hn
      simp only [Bool.or_true, if_true] at he
      have hl := hN rfl
      have hPb : P blk := h.pages blk (Or.inl hl)
      have h2 : Ref t (fun q o => A q o ∨ (q = blk ∧ o = off)) P X :=
        ⟨h.wf, fun q o ho ha => ha.elim (h.complete q o ho) (fun hq => Or.inl (hq.1 ▸ hl)),
          h.pages, h.exact⟩
      have := ih h2 (cache := some (blk, true)) ⟨fun _ => hl, fun h => by cases h⟩ he
      refine this.mono ?_ ?_ ?_
      · intro q o hq
        simp only [List.map_cons, List.mem_cons, Prod.mk.injEq] at hq
        tauto
      · intro q hq
        simp only [List.map_cons, List.mem_cons]
        tauto
      · intro q o hq
        simp only [List.map_cons, List.mem_cons, Prod.mk.injEq]
        tauto
    · have hn' : isNull = false := by simpa using hn
      subst hn'
      simp only [Bool.or_false, Bool.false_eq_true, if_false] at he
      -- the page entry is there
      generalize ht1 : (if hit = true then t else getPageentry t blk) = t1 at he
      have hr1 : Ref t1 A (fun q => P q ∨ q = blk) X := by
        rw [← ht1]
        split
        · exact h.mono (fun _ _ => id) (fun _ => Or.inl) (fun _ _ => id)
        · exact ref_get h blk
      have hp1 : (lookup t1.tab blk).isSome = true := by
        rw [← ht1]
        cases hit
        · simp only [Bool.false_eq_true, if_false]
          rw [lookup_get, if_pos rfl]; rfl
        · cases cache with
          | none => simp at hhit
          | some c =>
            obtain ⟨b, n⟩ := c
            simp only [beq_iff_eq] at hhit
            simp only [if_true] at hnull
            subst hhit
            simp only [if_true]
            exact hcache.2 hnull
      have hr2 := ref_touch hr1 blk (Or.inr rfl) (fun page =>
            { page with
              words := if page.ischunk then setBit page.words 0 0
                       else setBit page.words (wordnum (off - 1)) (bitnum (off - 1))
              recheck := page.recheck || rc })
          (fun _ => rfl) (fun _ => rfl)
          (by intro e y hc; simp only [hc, if_true]; exact bit_set0 _ _)
          (fun o => o = off)
          (by
            intro e o hc ho
            simp only [hc, Bool.false_eq_true, if_false, bit_set, Bool.or_eq_true,
              decide_eq_true_eq]
            have : o - 1 = off - 1 ↔ o = off := by
              have := ho.1; have := hok.1; omega
            rw [this]; exact Or.comm) hp1
      cases dec with
      | none =>
        simp only at he
        have := ih hr2 (cache := some (blk, false)) ⟨fun h => (by cases h), fun _ => by
          rw [lookup_update _ _ (by intro e he; exact he), if_pos rfl]
          obtain ⟨x, hx⟩ := Option.isSome_iff_exists.mp hp1
          rw [hx]; rfl⟩ he
        refine this.mono ?_ ?_ ?_
        · intro q o hq
          simp only [List.map_cons, List.mem_cons, Prod.mk.injEq] at hq
          tauto
        · intro q hq
          simp only [List.map_cons, List.mem_cons]
          tauto
        · intro q o hq
          simp only [List.map_cons, List.mem_cons, Prod.mk.injEq]
          tauto
      | some ps =>
        simp only at he
        have := ih (ref_lossify hr2 ps) (cache := none) trivial he
        refine this.mono ?_ ?_ ?_
        · intro q o hq
          simp only [List.map_cons, List.mem_cons, Prod.mk.injEq] at hq
          tauto
        · intro q hq
          simp only [List.map_cons, List.mem_cons]
          tauto
        · intro q o hq
          simp only [List.map_cons, List.mem_cons, Prod.mk.injEq]
          tauto

/-! ## Union -/

/-- Rows an entry makes visible. -/
def eSees (e : Entry) (q off : Nat) : Prop :=
  if e.ischunk then ∃ i < 256, q = e.blk + i ∧ bit e.words i = true
  else q = e.blk ∧ bit e.words (off - 1) = true

/-- Pages an entry contains. -/
def eHas (e : Entry) (q : Nat) : Prop :=
  if e.ischunk then ∃ i < 256, q = e.blk + i ∧ bit e.words i = true
  else q = e.blk

theorem mem_chunkPages (e : Entry) (q : Nat) :
    q ∈ chunkPages e ↔ ∃ i < 256, q = e.blk + i ∧ bit e.words i = true := by
  unfold chunkPages
  simp only [List.mem_flatMap, List.mem_range, List.mem_map, List.mem_filter, wordsPerChunk]
  constructor
  · rintro ⟨wn, hw, bn, ⟨hb, ht⟩, rfl⟩
    refine ⟨wn * 64 + bn, by omega, by omega, ?_⟩
    unfold bit wordnum bitnum
    have h1 : (wn * 64 + bn) / 64 = wn := by omega
    have h2 : (wn * 64 + bn) % 64 = bn := by omega
    rw [h1, h2]; exact ht
  · rintro ⟨i, hi, rfl, hb⟩
    exact ⟨i / 64, by omega, i % 64, ⟨by omega, hb⟩, by omega⟩

theorem ref_marks {t : Tbm} {A P X} (h : Ref t A P X) (ps : List Nat) :
    Ref (ps.foldl markPageLossy t) (fun q o => A q o ∨ q ∈ ps) (fun q => P q ∨ q ∈ ps) X := by
  induction ps generalizing t A P with
  | nil => simpa using h
  | cons p ps ih =>
    rw [List.foldl_cons]
    refine (ih (ref_mark h p)).mono ?_ ?_ (fun _ _ => id)
    · intro q o hq; simp only [List.mem_cons] at hq; tauto
    · intro q hq; simp only [List.mem_cons]; tauto

theorem bit_or (w v : Words) (off : Nat) (ho : OkOff off) :
    bit (fun k => if k < wordsPerPage then w k ||| v k else w k) (off - 1) =
      (bit w (off - 1) || bit v (off - 1)) := by
  unfold bit
  rw [testBit_eq _ _ _ (bitnum_lt _), testBit_eq _ _ _ (bitnum_lt _), testBit_eq _ _ _ (bitnum_lt _)]
  have : wordnum (off - 1) < wordsPerPage := by
    have h1 := ho.1; have h2 := ho.2
    unfold maxTuplesPerPage at h2
    unfold wordnum wordsPerPage; omega
  simp only [this, if_true, BitVec.getLsbD_or]

theorem bit_and (w v : Words) (off : Nat) (ho : OkOff off) :
    bit (fun k => if k < wordsPerPage then w k &&& v k else w k) (off - 1) =
      (bit w (off - 1) && bit v (off - 1)) := by
  unfold bit
  rw [testBit_eq _ _ _ (bitnum_lt _), testBit_eq _ _ _ (bitnum_lt _), testBit_eq _ _ _ (bitnum_lt _)]
  have : wordnum (off - 1) < wordsPerPage := by
    have h1 := ho.1; have h2 := ho.2
    unfold maxTuplesPerPage at h2
    unfold wordnum wordsPerPage; omega
  simp only [this, if_true, BitVec.getLsbD_and]

theorem ref_unionPage {a : Tbm} {A P X} (h : Ref a A P X) (e : Entry) (dec : Option (List Nat)) :
    Ref (unionPage a e dec) (fun q o => A q o ∨ eSees e q o) (fun q => P q ∨ eHas e q)
      (fun q o => X q o ∨ (e.ischunk = false ∧ eSees e q o)) := by
  unfold unionPage
  by_cases hc : e.ischunk = true
  · rw [if_pos hc]
    refine (ref_maybeLossify (ref_marks h (chunkPages e)) dec).mono ?_ ?_ ?_
    · intro q o hq
      rw [mem_chunkPages]; unfold eSees at hq; rw [if_pos hc] at hq; exact hq
    · intro q hq
      rw [mem_chunkPages] at hq; unfold eHas; rw [if_pos hc]; exact hq
    · intro q o hx; exact Or.inl hx
  · have hc' : e.ischunk = false := by simpa using hc
    have hs : ∀ q o, eSees e q o ↔ (q = e.blk ∧ bit e.words (o - 1) = true) := by
      intro q o; unfold eSees; rw [if_neg hc]
    have hh : ∀ q, eHas e q ↔ q = e.blk := by
      intro q; unfold eHas; rw [if_neg hc]
    rw [if_neg hc]
    by_cases hl : pageIsLossy a e.blk = true
    · rw [if_pos hl]
      refine ⟨h.wf, ?_, fun q hq => Or.inl (h.pages q hq), fun q o x ho h1 h2 => Or.inl (h.exact q o x ho h1 h2)⟩
      intro q o ho hq
      rcases hq with hq | hq
      · exact h.complete q o ho hq
      · left; rw [((hs q o).mp hq).1]; exact hl
    · rw [if_neg hl]
      have hp1 : (lookup (getPageentry a e.blk).tab e.blk).isSome = true := by
        rw [lookup_get, if_pos rfl]; rfl
      have hr2 := ref_touch (ref_get h e.blk) e.blk (Or.inr rfl) (fun apage =>
          if apage.ischunk then { apage with words := setBit apage.words 0 0 }
          else { apage with
             words := fun k => if k < wordsPerPage then apage.words k ||| e.words k
                               else apage.words k
             recheck := apage.recheck || e.recheck })
          (by intro x; split <;> rfl) (by intro x; split <;> rfl)
          (by intro x y hx; simp only [hx, if_true]; exact bit_set0 _ _)
          (fun o => bit e.words (o - 1) = true)
          (by
            intro x o hx ho
            simp only [hx, Bool.false_eq_true, if_false]
            rw [bit_or _ _ _ ho, Bool.or_eq_true]) hp1
      refine (ref_maybeLossify hr2 dec).mono ?_ ?_ ?_
      · intro q o hq; rw [hs] at hq; exact hq
      · intro q hq; rw [hh]; exact hq
      · intro q o hq; rw [hs]; exact hq.imp id (fun h => ⟨hc', h⟩)

theorem ref_unionFold {a : Tbm} {A P X} (h : Ref a A P X) (es : List (Entry × Option (List Nat))) :
    Ref (es.foldl (fun a p => unionPage a p.1 p.2) a)
      (fun q o => A q o ∨ ∃ e ∈ es.map (·.1), eSees e q o)
      (fun q => P q ∨ ∃ e ∈ es.map (·.1), eHas e q)
      (fun q o => X q o ∨ ∃ e ∈ es.map (·.1), e.ischunk = false ∧ eSees e q o) := by
  induction es generalizing a A P X with
  | nil => simpa using h
  | cons e es ih =>
    rw [List.foldl_cons]
    refine (ih (ref_unionPage h e.1 e.2)).mono ?_ ?_ ?_
    · rintro q o (hq | ⟨x, hx, hq⟩)
      · exact Or.inl (Or.inl hq)
      · simp only [List.map_cons, List.mem_cons] at hx
        rcases hx with rfl | hx
        · exact Or.inl (Or.inr hq)
        · exact Or.inr ⟨x, hx, hq⟩
    · rintro q ((hq | hq) | ⟨x, hx, hq⟩)
      · exact Or.inl hq
      · exact Or.inr ⟨e.1, by simp, hq⟩
      · exact Or.inr ⟨x, by simp only [List.map_cons, List.mem_cons]; exact Or.inr hx, hq⟩
    · rintro q o ((hq | hq) | ⟨x, hx, hq⟩)
      · exact Or.inl hq
      · exact Or.inr ⟨e.1, by simp, hq⟩
      · exact Or.inr ⟨x, by simp only [List.map_cons, List.mem_cons]; exact Or.inr hx, hq⟩

theorem lossy_iff_entry {b : Tbm} (h : WF b) (q : Nat) :
    pageIsLossy b q = true ↔ ∃ e ∈ b.tab, e.ischunk = true ∧
      ∃ i < 256, q = e.blk + i ∧ bit e.words i = true := by
  rw [pageIsLossy_wf h]
  constructor
  · intro hx
    split at hx
    · next e he =>
      obtain ⟨h1, h2⟩ := lookup_blk he
      rw [Bool.and_eq_true] at hx
      refine ⟨e, h2, hx.1, q % pagesPerChunk, Nat.mod_lt _ (by decide), ?_, hx.2⟩
      rw [h1]; unfold pagesPerChunk; omega
    · cases hx
  · rintro ⟨e, he, hc, i, hi, rfl, hb⟩
    have ha := h.aligned e he hc
    have h1 : e.blk + i - (e.blk + i) % pagesPerChunk = e.blk := by
      unfold pagesPerChunk at *; omega
    have h2 : (e.blk + i) % pagesPerChunk = i := by unfold pagesPerChunk at *; omega
    rw [h1, h2, lookup_of_mem h.nodup he]
    simp [hc, hb]

theorem find_iff_entry {b : Tbm} (h : WF b) (q : Nat) (e : Entry) :
    findPageentry b q = some e ↔ (e ∈ b.tab ∧ e.ischunk = false ∧ e.blk = q) := by
  rw [findPageentry_wf h]
  constructor
  · intro hx
    cases hl : lookup b.tab q with
    | none => rw [hl] at hx; cases hx
    | some x =>
      rw [hl] at hx
      obtain ⟨h1, h2⟩ := lookup_blk hl
      cases hc : x.ischunk <;> simp [Option.filter, hc] at hx
      subst hx; exact ⟨h2, hc, h1⟩
  · rintro ⟨h1, h2, rfl⟩
    rw [lookup_of_mem h.nodup h1]; simp [Option.filter, h2]

theorem sees_iff_entry {b : Tbm} (h : WF b) (q off : Nat) :
    Sees b q off ↔ ∃ e ∈ b.tab, eSees e q off := by
  unfold Sees
  rw [lossy_iff_entry h]
  constructor
  · rintro (⟨e, he, hc, hx⟩ | ⟨e, he, hb⟩)
    · exact ⟨e, he, by unfold eSees; rw [if_pos hc]; exact hx⟩
    · obtain ⟨h1, h2, h3⟩ := (find_iff_entry h q e).mp he
      exact ⟨e, h1, by unfold eSees; rw [if_neg (by simp [h2])]; exact ⟨h3.symm, hb⟩⟩
  · rintro ⟨e, he, hs⟩
    unfold eSees at hs
    by_cases hc : e.ischunk = true
    · rw [if_pos hc] at hs; exact Or.inl ⟨e, he, hc, hs⟩
    · rw [if_neg hc] at hs
      exact Or.inr ⟨e, (find_iff_entry h q e).mpr ⟨he, by simpa using hc, hs.1.symm⟩, hs.2⟩

theorem has_of_entry {b : Tbm} (h : WF b) (q : Nat) {e : Entry} (he : e ∈ b.tab) (hs : eHas e q) :
    Has b q := by
  unfold eHas at hs
  by_cases hc : e.ischunk = true
  · rw [if_pos hc] at hs; exact Or.inl ((lossy_iff_entry h q).mpr ⟨e, he, hc, hs⟩)
  · rw [if_neg hc] at hs
    right
    rw [(find_iff_entry h q e).mpr ⟨he, by simpa using hc, hs.symm⟩]; rfl

theorem ref_union {a b : Tbm} {A P X B Q Y} (ha : Ref a A P X) (hb : Ref b B Q Y)
    (order : List (Entry × Option (List Nat))) (hp : (order.map (·.1)).Perm b.tab) :
    Ref (union a b order) (fun q o => A q o ∨ B q o) (fun q => P q ∨ Q q)
      (fun q o => X q o ∨ Y q o) := by
  unfold union
  by_cases h0 : b.nentries = 0
  · rw [if_pos h0]
    have ht : b.tab = [] := by rw [hb.wf.nentries, List.length_eq_zero_iff] at h0; exact h0
    refine ⟨ha.wf, ?_, fun q hq => Or.inl (ha.pages q hq), fun q o e ho h1 h2 => Or.inl (ha.exact q o e ho h1 h2)⟩
    intro q o ho hq
    rcases hq with hq | hq
    · exact ha.complete q o ho hq
    · obtain ⟨e, he, _⟩ := (sees_iff_entry hb.wf q o).mp (hb.complete q o ho hq)
      rw [ht] at he; cases he
  · rw [if_neg h0]
    have hu := ref_unionFold ha order
    refine ⟨hu.wf, ?_, ?_, ?_⟩
    · intro q o ho hq
      apply hu.complete q o ho
      rcases hq with hq | hq
      · exact Or.inl hq
      · obtain ⟨e, he, hs⟩ := (sees_iff_entry hb.wf q o).mp (hb.complete q o ho hq)
        exact Or.inr ⟨e, hp.mem_iff.mpr he, hs⟩
    · intro q hq
      rcases hu.pages q hq with hq | ⟨e, he, hs⟩
      · exact Or.inl hq
      · exact Or.inr (hb.pages q (has_of_entry hb.wf q (hp.mem_iff.mp he) hs))
    · intro q o e ho h1 h2
      rcases hu.exact q o e ho h1 h2 with hq | ⟨x, hx, hc, hs⟩
      · exact Or.inl hq
      · right
        unfold eSees at hs; rw [if_neg (by simp [hc])] at hs
        exact hb.exact q o x ho
          ((find_iff_entry hb.wf q x).mpr ⟨hp.mem_iff.mp hx, hc, hs.1.symm⟩) hs.2

/-! ## Intersection -/

theorem getLsbD_clear (v : BitVec 64) (bn i : Nat) (hb : bn < 64) (hi : i < 64) :
    (v &&& ~~~ (1#64 <<< bn)).getLsbD i = (v.getLsbD i && !decide (i = bn)) := by
  simp only [BitVec.getLsbD_and, BitVec.getLsbD_not, BitVec.getLsbD_shiftLeft, BitVec.getLsbD_one,
    hi, decide_true, Bool.true_and]
  congr 1
  by_cases h : i = bn
  · subst h; simp
  · by_cases h2 : i < bn
    · simp [h2, h]
    · have : i - bn ≠ 0 := by omega
      simp [this, h]

theorem clear_fold (C : Nat → Bool) (l : List Nat) (hl : ∀ x ∈ l, x < 64) (v : BitVec 64) (i : Nat)
    (hi : i < 64) :
    (l.foldl (fun neww bn => if C bn then neww &&& ~~~ (1#64 <<< bn) else neww) v).getLsbD i =
      (v.getLsbD i && !(decide (i ∈ l) && C i)) := by
  induction l generalizing v with
  | nil => simp
  | cons x xs ih =>
    rw [List.foldl_cons, ih (fun y hy => hl y (by simp [hy]))]
    have hx := hl x (by simp)
    by_cases hC : C x = true
    · rw [if_pos hC, getLsbD_clear _ _ _ hx hi]
      by_cases hix : i = x
      · subst hix; simp [hC]
      · simp [hix]
    · rw [if_neg hC]
      by_cases hix : i = x
      · subst hix; simp [hC]
      · simp [hix]

theorem bit_clear (b : Tbm) (e : Entry) (i : Nat) (hi : i < 256) :
    bit (clearAbsent b e) i = (bit e.words i &&
      (pageIsLossy b (e.blk + i) || (findPageentry b (e.blk + i)).isSome)) := by
  unfold bit
  rw [testBit_eq _ _ _ (bitnum_lt _)]
  unfold clearAbsent
  have h1 : wordnum i < wordsPerChunk := by unfold wordnum wordsPerChunk; omega
  rw [if_pos h1, clear_fold (fun bn => testBit e.words (wordnum i) bn &&
            (!pageIsLossy b (e.blk + wordnum i * 64 + bn) &&
              (findPageentry b (e.blk + wordnum i * 64 + bn)).isNone)) _
            (fun x hx => List.mem_range.mp hx) _ _ (bitnum_lt _)]
  have h2 : e.blk + wordnum i * 64 + bitnum i = e.blk + i := by unfold wordnum bitnum; omega
  rw [h2, testBit_eq _ _ _ (bitnum_lt _)]
  have h3 : bitnum i ∈ List.range 64 := List.mem_range.mpr (bitnum_lt _)
  simp only [h3, decide_true, Bool.true_and]
  cases (e.words (wordnum i)).getLsbD (bitnum i) <;>
    cases pageIsLossy b (e.blk + i) <;> cases findPageentry b (e.blk + i) <;> rfl

theorem intersectPage_blk {b : Tbm} {e e' : Entry} (h : intersectPage b e = some e') :
    e'.blk = e.blk ∧ e'.ischunk = e.ischunk := by
  unfold intersectPage at h
  split at h
  · simp only at h
    split at h
    · cases h
    · cases h; exact ⟨rfl, rfl⟩
  · split at h
    · cases h; exact ⟨rfl, rfl⟩
    · split at h
      · cases h
      · simp only at h
        split at h
        · cases h
        · cases h; exact ⟨rfl, rfl⟩

theorem mem_intersect {a b : Tbm} {e' : Entry} :
    e' ∈ a.tab.filterMap (intersectPage b) ↔ ∃ e ∈ a.tab, intersectPage b e = some e' := by
  simp [List.mem_filterMap]

theorem intersect_tab (a b : Tbm) (h : WF a) : (intersect a b).tab = a.tab.filterMap (intersectPage b) := by
  unfold intersect
  split
  · next h0 =>
    rw [h.nentries, List.length_eq_zero_iff] at h0
    simp [h0]
  · rfl

theorem keys_filterMap (b : Tbm) (l : List Entry) :
    ((l.filterMap (intersectPage b)).map (·.blk)).Sublist (l.map (·.blk)) := by
  induction l with
  | nil => simp
  | cons x xs ih =>
    rw [List.filterMap_cons]
    split
    · exact ih.trans (by simp)
    · next y hy =>
      simp only [List.map_cons, (intersectPage_blk hy).1]
      exact ih.cons_cons _

theorem chunks_filterMap (b : Tbm) (l : List Entry) :
    (l.filterMap (intersectPage b)).countP (·.ischunk) ≤ l.countP (·.ischunk) := by
  induction l with
  | nil => simp
  | cons x xs ih =>
    rw [List.filterMap_cons]
    split
    · rw [List.countP_cons]; omega
    · next y hy =>
      rw [List.countP_cons, List.countP_cons, (intersectPage_blk hy).2]; omega

theorem wf_intersect {a : Tbm} (h : WF a) (b : Tbm) : WF (intersect a b) := by
  have ht := intersect_tab a b h
  constructor
  · rw [ht]; exact h.nodup.sublist (keys_filterMap b a.tab)
  · rw [ht]
    intro e he hc
    obtain ⟨x, hx, hxe⟩ := mem_intersect.mp he
    rw [(intersectPage_blk hxe).2] at hc
    rw [(intersectPage_blk hxe).1]; exact h.aligned x hx hc
  · rw [ht]
    unfold intersect
    have hl : (a.tab.filterMap (intersectPage b)).length ≤ a.tab.length := List.length_filterMap_le _ _
    split
    · next h0 => rw [h0]; rw [h.nentries] at h0; omega
    · simp only [h.nentries]; omega
  · rw [ht]
    unfold intersect
    have hl := chunks_filterMap b a.tab
    split
    · next h0 =>
      rw [h.nentries, List.length_eq_zero_iff] at h0
      rw [h.nchunks, h0]; simp
    · simp only [h.nchunks]; omega

theorem words_zero_bit {w : Words} {n : Nat} (h : (List.range n).all (fun k => w k == 0#64) = true)
    (i : Nat) (hi : wordnum i < n) : bit w i = false := by
  rw [List.all_eq_true] at h
  have := h (wordnum i) (List.mem_range.mpr hi)
  unfold bit testBit
  simp only [beq_iff_eq] at this
  simp [this]

theorem ref_intersect {a b : Tbm} {A P X B Q Y} (ha : Ref a A P X) (hb : Ref b B Q Y) :
    Ref (intersect a b) (fun q o => A q o ∧ B q o) (fun q => P q ∧ Q q)
      (fun q o => X q o ∧ (Y q o ∨ pageIsLossy b q = true)) := by
  have hwf := wf_intersect ha.wf b
  have ht := intersect_tab a b ha.wf
  refine ⟨hwf, ?_, ?_, ?_⟩
  · rintro q off ho ⟨h1, h2⟩
    rw [sees_iff_entry hwf, ht]
    obtain ⟨e, he, hs⟩ := (sees_iff_entry ha.wf q off).mp (ha.complete q off ho h1)
    have hsb := hb.complete q off ho h2
    unfold eSees at hs
    by_cases hc : e.ischunk = true
    · rw [if_pos hc] at hs
      obtain ⟨i, hi, rfl, hbit⟩ := hs
      have hbc : bit (clearAbsent b e) i = true := by
        rw [bit_clear b e i hi, hbit]
        rcases hsb with hl | ⟨x, hx, _⟩
        · simp [hl]
        · simp [hx]
      refine ⟨{ e with words := clearAbsent b e }, ?_, ?_⟩
      · rw [mem_intersect]
        refine ⟨e, he, ?_⟩
        unfold intersectPage
        rw [if_pos hc]
        simp only
        rw [if_neg]
        intro hall
        have := words_zero_bit hall i (by unfold wordnum wordsPerChunk; omega)
        rw [hbc] at this; cases this
      · unfold eSees
        simp only [hc, if_true]
        exact ⟨i, hi, rfl, hbc⟩
    · rw [if_neg hc] at hs
      obtain ⟨rfl, hbit⟩ := hs
      by_cases hl : pageIsLossy b e.blk = true
      · refine ⟨{ e with recheck := true }, ?_, ?_⟩
        · rw [mem_intersect]
          refine ⟨e, he, ?_⟩
          unfold intersectPage
          rw [if_neg hc, if_pos hl]
        · unfold eSees; simp only [hc, if_false]; exact ⟨trivial, hbit⟩
      · rcases hsb with hl' | ⟨x, hx, hxb⟩
        · exact absurd hl' hl
        · have hand := bit_and e.words x.words off ho
          rw [hbit, hxb] at hand
          refine ⟨{ e with
              words := fun k => if k < wordsPerPage then e.words k &&& x.words k else e.words k,
              recheck := e.recheck || x.recheck }, ?_, ?_⟩
          · rw [mem_intersect]
            refine ⟨e, he, ?_⟩
            unfold intersectPage
            rw [if_neg hc, if_neg hl, hx]
            simp only
            rw [if_neg]
            intro hall
            have := words_zero_bit hall (off - 1) (by
              have h1 := ho.1; have h2 := ho.2
              unfold maxTuplesPerPage at h2
              unfold wordnum wordsPerPage; omega)
            rw [hand] at this; cases this
          · unfold eSees; simp only [hc, if_false]; exact ⟨trivial, hand⟩
  · intro q hq
    have hcase : ∃ e ∈ (intersect a b).tab, eHas e q := by
      rcases hq with hq | hq
      · obtain ⟨e, he, hc, hx⟩ := (lossy_iff_entry hwf q).mp hq
        exact ⟨e, he, by unfold eHas; rw [if_pos hc]; exact hx⟩
      · obtain ⟨e, he⟩ := Option.isSome_iff_exists.mp hq
        obtain ⟨h1, h2, h3⟩ := (find_iff_entry hwf q e).mp he
        exact ⟨e, h1, by unfold eHas; rw [if_neg (by simp [h2])]; exact h3.symm⟩
    obtain ⟨e', he', hs⟩ := hcase
    rw [ht, mem_intersect] at he'
    obtain ⟨e, he, hi⟩ := he'
    have hblk := intersectPage_blk hi
    unfold eHas at hs
    by_cases hc : e.ischunk = true
    · rw [if_pos (by rw [hblk.2]; exact hc)] at hs
      obtain ⟨i, hi256, rfl, hbit⟩ := hs
      unfold intersectPage at hi
      rw [if_pos hc] at hi
      simp only at hi
      split at hi
      · cases hi
      · cases hi
        simp only at hbit ⊢
        rw [bit_clear b e i hi256, Bool.and_eq_true, Bool.or_eq_true] at hbit
        exact ⟨ha.pages _ (has_of_entry ha.wf _ he (by
          unfold eHas; rw [if_pos hc]; exact ⟨i, hi256, rfl, hbit.1⟩)), hb.pages _ hbit.2⟩
    · rw [if_neg (by rw [hblk.2]; exact hc)] at hs
      rw [hs, hblk.1]
      refine ⟨ha.pages _ (has_of_entry ha.wf _ he (by unfold eHas; rw [if_neg hc])), ?_⟩
      apply hb.pages
      unfold intersectPage at hi
      rw [if_neg hc] at hi
      split at hi
      · next hl => exact Or.inl hl
      · split at hi
        · cases hi
        · next x hx => exact Or.inr (by rw [hx]; rfl)
  · intro q off e' ho he' hbit
    obtain ⟨h1, h2, h3⟩ := (find_iff_entry hwf q e').mp he'
    rw [ht, mem_intersect] at h1
    obtain ⟨e, he, hi⟩ := h1
    have hblk := intersectPage_blk hi
    have hc : e.ischunk = false := by rw [← hblk.2]; exact h2
    have hq : e.blk = q := by rw [← hblk.1]; exact h3
    have hfa := (find_iff_entry ha.wf q e).mpr ⟨he, hc, hq⟩
    unfold intersectPage at hi
    rw [if_neg (by simp [hc])] at hi
    split at hi
    · next hl =>
      cases hi
      exact ⟨ha.exact q off e ho hfa hbit, Or.inr (hq ▸ hl)⟩
    · split at hi
      · cases hi
      · next x hx =>
        simp only at hi
        split at hi
        · cases hi
        · cases hi
          simp only at hbit
          rw [bit_and _ _ _ ho, Bool.and_eq_true] at hbit
          exact ⟨ha.exact q off e ho hfa hbit.1, Or.inl (hb.exact q off x ho (hq ▸ hx) hbit.2)⟩

theorem ref_create : Ref create (fun _ _ => False) (fun _ => False) (fun _ _ => False) := by
  refine ⟨wf_create, fun _ _ _ h => h.elim, ?_, ?_⟩
  · intro q hq
    unfold Has at hq
    rcases hq with hq | hq <;> simp [pageIsLossy, findPageentry, create] at hq
  · intro q o e _ h; simp [findPageentry, create] at h

theorem containsTid_iff (t : Tbm) (q off : Nat) :
    (containsTid t q off).1 = true ↔ Sees t q off := by
  unfold containsTid Sees
  by_cases hl : pageIsLossy t q = true
  · simp [hl]
  · rw [if_neg hl]
    cases hf : findPageentry t q with
    | none => simp [hl]
    | some e => simp [hl, bit]

end Rum.TidBitmap

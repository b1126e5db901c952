import Verif.Options
/-!
# C37 — index options are validated
-/
namespace Rum.Props.Options
open Rum.Options

/-- `n` is the name of column number `k` (1-based, the first of that name). -/
def Names (names : List String) (n : String) (k : Nat) : Prop :=
  1 ≤ k ∧ names[k - 1]? = some n ∧ ∀ j, 1 ≤ j → j < k → names[j - 1]? ≠ some n

/-- The rules a user reads in the documentation. -/
inductive Accepted (table : List String) (cols : List Col) : Option Opts → State → Prop
  | plain : (∀ c ∈ cols, c.hasCmp = true) →
      Accepted table cols none
        { attach := none, addTo := none, alt := false, info := cols.map (·.ownInfo) }
  | attached (a t : String) (alt : Bool) (ka kt : Nat) (ca ct : Col) :
      (∀ c ∈ cols, c.hasCmp = true) →
      a ∈ table → t ∈ table →
      Names (cols.map (·.name)) a ka → Names (cols.map (·.name)) t kt → ka ≠ kt →
      cols[ka - 1]? = some ca → cols[kt - 1]? = some ct →
      ct.ownInfo = none →
      (alt = true → ca.byval = true) →
      Accepted table cols (some { attach := some a, to := some t, alt := alt })
        { attach := some ka, addTo := some kt, alt := alt,
          info := (cols.map (·.ownInfo)).set (kt - 1) (some ca.typid) }

theorem attnum_some {names : List String} {n : String} {k : Nat} :
    attnum names n = some k ↔ Names names n k := by
  unfold attnum Names
  rw [Option.map_eq_some_iff]
  constructor
  · rintro ⟨i, hi, rfl⟩
    rw [List.findIdx?_eq_some_iff_getElem] at hi
    obtain ⟨h, h1, h2⟩ := hi
    refine ⟨by omega, ?_, ?_⟩
    · simp only [Nat.add_sub_cancel]
      rw [List.getElem?_eq_getElem h]; simpa using h1
    · intro j hj hjk hc
      have hlt : j - 1 < i := by omega
      have := h2 (j - 1) hlt
      rw [List.getElem?_eq_getElem (by omega)] at hc
      simp at hc this
      exact this hc
  · rintro ⟨h1, h2, h3⟩
    refine ⟨k - 1, ?_, by omega⟩
    rw [List.findIdx?_eq_some_iff_getElem]
    obtain ⟨h, he⟩ := List.getElem?_eq_some_iff.mp h2
    refine ⟨h, by simpa using he, ?_⟩
    intro j hj hc
    have := h3 (j + 1) (by omega) (by omega)
    apply this
    simp only [Nat.add_sub_cancel]
    rw [List.getElem?_eq_getElem (by omega)]
    simpa using hc

theorem attnum_isSome {names : List String} {n : String} :
    (attnum names n).isSome = true ↔ n ∈ names := by
  unfold attnum
  rw [Option.isSome_map, List.findIdx?_isSome]
  simp

theorem resolve_ok {table : List String} {cols : List Col} {n : String} {k : Nat} :
    resolve table cols n = .ok k ↔ (n ∈ table ∧ Names (cols.map (·.name)) n k) := by
  unfold resolve
  rw [← attnum_some, ← attnum_isSome]
  cases h1 : attnum table n with
  | none => simp
  | some x =>
    cases h2 : attnum (cols.map (·.name)) n with
    | none => simp
    | some y => simp

theorem columns_ok {cols : List Col} {a t : Option Nat} {alt : Bool} (rest : List Col) (i : Nat)
    (info : List (Option Nat)) :
    columns cols a t alt i rest = .ok info ↔
      (info.length = rest.length ∧ ∀ j c, rest[j]? = some c →
        ∃ x, column cols a t alt (i + j) c = .ok x ∧ info[j]? = some x) := by
  induction rest generalizing i info with
  | nil =>
    simp only [columns, Except.ok.injEq, List.length_nil, List.getElem?_nil, reduceCtorEq,
      false_imp_iff, implies_true, and_true]
    rw [eq_comm, List.length_eq_zero_iff]
  | cons c rest ih =>
    simp only [columns, bind, Except.bind]
    cases hc : column cols a t alt i c with
    | error e =>
      simp only [reduceCtorEq, false_iff, not_and]
      intro _ h
      obtain ⟨x, hx, _⟩ := h 0 c rfl
      rw [Nat.add_zero, hc] at hx; cases hx
    | ok x =>
      simp only
      cases hr : columns cols a t alt (i + 1) rest with
      | error e =>
        simp only [reduceCtorEq, false_iff, not_and]
        intro hl h
        cases info with
        | nil => simp at hl
        | cons y ys =>
          have := (ih (i + 1) ys).mpr ⟨by simpa using hl, fun j d hd => by
            obtain ⟨z, hz, hz'⟩ := h (j + 1) d (by simpa using hd)
            refine ⟨z, ?_, by simpa using hz'⟩
            rw [show i + 1 + j = i + (j + 1) from by omega]; exact hz⟩
          rw [hr] at this; cases this
      | ok xs =>
        simp only [Except.ok.injEq]
        have hxs := (ih (i + 1) xs).mp hr
        constructor
        · rintro rfl
          refine ⟨by simp [hxs.1], ?_⟩
          intro j d hd
          rcases j with _ | j
          · simp only [List.getElem?_cons_zero, Option.some.injEq] at hd
            subst hd
            exact ⟨x, by simpa using hc, rfl⟩
          · obtain ⟨z, hz, hz'⟩ := hxs.2 j d (by simpa using hd)
            refine ⟨z, ?_, by simpa using hz'⟩
            rw [show i + (j + 1) = i + 1 + j from by omega]; exact hz
        · rintro ⟨hl, h⟩
          cases info with
          | nil => simp at hl
          | cons y ys =>
            obtain ⟨z, hz, hz'⟩ := h 0 c rfl
            rw [Nat.add_zero, hc] at hz
            cases hz
            simp only [List.getElem?_cons_zero, Option.some.injEq] at hz'
            subst hz'
            have := (ih (i + 1) ys).mpr ⟨by simpa using hl, fun j d hd => by
              obtain ⟨z, hz, hz'⟩ := h (j + 1) d (by simpa using hd)
              refine ⟨z, ?_, by simpa using hz'⟩
              rw [show i + 1 + j = i + (j + 1) from by omega]; exact hz⟩
            rw [hr] at this
            cases this; rfl

theorem column_plain {cols : List Col} {c : Col} {a t : Option Nat} {alt : Bool} {i : Nat}
    (h : t ≠ some (i + 1)) (x : Option Nat) :
    column cols a t alt i c = .ok x ↔ (c.hasCmp = true ∧ x = c.ownInfo) := by
  unfold column
  rw [if_neg h]
  cases hc : c.hasCmp
  · simp [bind, Except.bind]
  · simp [bind, Except.bind, eq_comm]

theorem column_target {cols : List Col} {c ca : Col} {ka : Nat} {alt : Bool} {i : Nat}
    (hca : cols[ka - 1]? = some ca) (x : Option Nat) :
    column cols (some ka) (some (i + 1)) alt i c = .ok x ↔
      (c.hasCmp = true ∧ c.ownInfo = none ∧ (alt = true → ca.byval = true) ∧ x = some ca.typid) := by
  unfold column
  rw [if_pos rfl]
  simp only [hca]
  cases ho : c.ownInfo with
  | some y => simp [bind, Except.bind]
  | none =>
    simp only [Option.isSome_none, Bool.false_eq_true, if_false, true_and]
    cases hc : c.hasCmp <;> cases alt <;> cases hb : ca.byval <;>
      simp [bind, Except.bind, eq_comm]

theorem Names.lt {names : List String} {n : String} {k : Nat} (h : Names names n k) :
    k - 1 < names.length := (List.getElem?_eq_some_iff.mp h.2.1).1

/-- **C37.** `initRumState` accepts an index exactly if the documented rules allow it, and then the
columns, the flag and the additional-info layout are the documented ones; everything else is an error. -/
theorem C37_accepts_iff (table : List String) (cols : List Col) (opts : Option Opts) (s : State) :
    initRumState table cols opts = .ok s ↔ Accepted table cols opts s := by
  unfold initRumState
  cases opts with
  | none =>
    simp only [bind, Except.bind]
    cases hcol : columns cols none none false 0 cols with
    | error e =>
      simp only [reduceCtorEq, false_iff]
      intro h
      cases h with
      | plain hc =>
        have := (columns_ok (cols := cols) (a := none) (t := none) (alt := false) cols 0
          (cols.map (·.ownInfo))).mpr ⟨by simp, fun j c hj => ⟨c.ownInfo,
            (column_plain (by simp) _).mpr ⟨hc c (List.mem_of_getElem? hj), rfl⟩, by simp [hj]⟩⟩
        rw [hcol] at this; cases this
    | ok info =>
      simp only [Except.ok.injEq]
      obtain ⟨hl, hi⟩ := (columns_ok cols 0 info).mp hcol
      have hinfo : info = cols.map (·.ownInfo) := by
        apply List.ext_getElem?
        intro j
        by_cases hj : j < cols.length
        · obtain ⟨x, hx, hx'⟩ := hi j cols[j] (List.getElem?_eq_getElem hj)
          rw [hx', ((column_plain (by simp) _).mp hx).2]
          simp [List.getElem?_eq_getElem hj]
        · rw [List.getElem?_eq_none (by omega), List.getElem?_eq_none (by simp; omega)]
      have hcmp : ∀ c ∈ cols, c.hasCmp = true := by
        intro c hc
        obtain ⟨j, hj⟩ := List.getElem?_of_mem hc
        obtain ⟨x, hx, _⟩ := hi j c hj
        exact ((column_plain (by simp) _).mp hx).1
      constructor
      · rintro rfl
        rw [hinfo]; exact Accepted.plain hcmp
      · intro h
        cases h with
        | plain _ => rw [hinfo]
  | some o =>
    obtain ⟨oa, ot, alt⟩ := o
    -- both options are needed
    cases oa with
    | none =>
      have : readOptions table cols ⟨none, ot, alt⟩ = .error .bothNeeded ∨
          ∃ e, readOptions table cols ⟨none, ot, alt⟩ = .error e := by
        unfold readOptions
        cases ot with
        | none => left; simp [bind, Except.bind]
        | some t =>
          cases hr : resolve table cols t with
          | error e => right; exact ⟨e, by simp [bind, Except.bind, hr]⟩
          | ok k => left; simp [bind, Except.bind, hr]
      have hex : ∃ e, readOptions table cols ⟨none, ot, alt⟩ = .error e := this.elim (fun h => ⟨_, h⟩) id
      obtain ⟨e, he⟩ := hex
      simp only [bind, Except.bind, he, reduceCtorEq, false_iff]
      intro h; cases h
    | some a =>
      cases ha : resolve table cols a with
      | error e =>
        have he : readOptions table cols ⟨some a, ot, alt⟩ = .error e := by
          unfold readOptions; simp [bind, Except.bind, ha, Except.map]
        simp only [bind, Except.bind, he, reduceCtorEq, false_iff]
        intro h
        cases h with
        | attached _ t _ ka kt ca ct _ h1 h2 h3 h4 =>
          have := resolve_ok.mpr ⟨h1, h3⟩
          rw [ha] at this; cases this
      | ok ka =>
        cases ot with
        | none =>
          have he : readOptions table cols ⟨some a, none, alt⟩ = .error .bothNeeded := by
            unfold readOptions; simp [bind, Except.bind, ha, Except.map]
          simp only [bind, Except.bind, he, reduceCtorEq, false_iff]
          intro h; cases h
        | some t =>
          cases ht : resolve table cols t with
          | error e =>
            have he : readOptions table cols ⟨some a, some t, alt⟩ = .error e := by
              unfold readOptions; simp [bind, Except.bind, ha, ht, Except.map]
            simp only [bind, Except.bind, he, reduceCtorEq, false_iff]
            intro h
            cases h with
            | attached _ t _ ka' kt ca ct _ h1 h2 h3 h4 =>
              have := resolve_ok.mpr ⟨h2, h4⟩
              rw [ht] at this; cases this
          | ok kt =>
            by_cases hk : kt = ka
            · have he : readOptions table cols ⟨some a, some t, alt⟩ = .error .sameColumn := by
                unfold readOptions; simp [bind, Except.bind, ha, ht, Except.map, hk]
              simp only [bind, Except.bind, he, reduceCtorEq, false_iff]
              intro h
              cases h with
              | attached _ t _ ka' kt' ca ct _ h1 h2 h3 h4 h5 =>
                have e1 := resolve_ok.mpr ⟨h1, h3⟩
                have e2 := resolve_ok.mpr ⟨h2, h4⟩
                rw [ha] at e1; rw [ht] at e2; cases e1; cases e2
                exact h5 hk.symm
            · have he : readOptions table cols ⟨some a, some t, alt⟩ = .ok (some ka, some kt, alt) := by
                unfold readOptions
                have : ¬ (some kt = some ka) := by simpa using hk
                cases alt <;> simp [bind, Except.bind, ha, ht, Except.map, this]
              simp only [bind, Except.bind, he]
              have hA := resolve_ok.mp ha
              have hT := resolve_ok.mp ht
              have hla : ka - 1 < cols.length := by have := hA.2.lt; simpa using this
              have hlt : kt - 1 < cols.length := by have := hT.2.lt; simpa using this
              have hca := List.getElem?_eq_getElem hla
              have hct := List.getElem?_eq_getElem hlt
              have hkt1 : 1 ≤ kt := hT.2.1
              have hpl : ∀ j, j ≠ kt - 1 → (some kt : Option Nat) ≠ some (0 + j + 1) := by
                intro j hj hc; simp only [Option.some.injEq] at hc; omega
              have hself : (some kt : Option Nat) = some (0 + (kt - 1) + 1) := by
                congr 1; omega
              -- characterise the column loop
              have hcols : ∀ info, columns cols (some ka) (some kt) alt 0 cols = .ok info ↔
                  ((∀ c ∈ cols, c.hasCmp = true) ∧ cols[kt - 1].ownInfo = none ∧
                    (alt = true → cols[ka - 1].byval = true) ∧
                    info = (cols.map (·.ownInfo)).set (kt - 1) (some cols[ka - 1].typid)) := by
                intro info
                rw [columns_ok]
                constructor
                · rintro ⟨hl, hi⟩
                  obtain ⟨x, hx, hx'⟩ := hi (kt - 1) _ hct
                  rw [hself] at hx
                  have htg := (column_target hca x).mp hx
                  refine ⟨?_, htg.2.1, htg.2.2.1, ?_⟩
                  · intro c hc
                    obtain ⟨j, hj⟩ := List.getElem?_of_mem hc
                    by_cases hjk : j = kt - 1
                    · subst hjk
                      rw [hct] at hj; cases hj; exact htg.1
                    · obtain ⟨y, hy, _⟩ := hi j c hj
                      exact ((column_plain (hpl j hjk) _).mp hy).1
                  · apply List.ext_getElem?
                    intro j
                    by_cases hjk : j = kt - 1
                    · subst hjk
                      rw [hx', htg.2.2.2, List.getElem?_set_self (by simpa using hlt)]
                    · rw [List.getElem?_set_ne (fun h => hjk h.symm)]
                      by_cases hj : j < cols.length
                      · obtain ⟨y, hy, hy'⟩ := hi j cols[j] (List.getElem?_eq_getElem hj)
                        rw [hy', ((column_plain (hpl j hjk) _).mp hy).2]
                        simp [List.getElem?_eq_getElem hj]
                      · rw [List.getElem?_eq_none (by omega), List.getElem?_eq_none (by simp; omega)]
                · rintro ⟨h1, h2, h3, rfl⟩
                  refine ⟨by simp, ?_⟩
                  intro j c hj
                  by_cases hjk : j = kt - 1
                  · subst hjk
                    rw [hct] at hj; cases hj
                    refine ⟨some cols[ka - 1].typid, ?_, ?_⟩
                    · rw [hself]
                      exact (column_target hca _).mpr ⟨h1 _ (List.getElem_mem hlt), h2, h3, rfl⟩
                    · rw [List.getElem?_set_self (by simpa using hlt)]
                  · refine ⟨c.ownInfo, (column_plain (hpl j hjk) _).mpr
                      ⟨h1 c (List.mem_of_getElem? hj), rfl⟩, ?_⟩
                    rw [List.getElem?_set_ne (fun h => hjk h.symm)]
                    simp [hj]
              cases hcol : columns cols (some ka) (some kt) alt 0 cols with
              | error e =>
                simp only [reduceCtorEq, false_iff]
                intro h
                cases h with
                | attached _ t _ ka' kt' ca ct h0 h1 h2 h3 h4 h5 h6 h7 h8 h9 =>
                  have e1 := resolve_ok.mpr ⟨h1, h3⟩
                  have e2 := resolve_ok.mpr ⟨h2, h4⟩
                  rw [ha] at e1; rw [ht] at e2; cases e1; cases e2
                  rw [hca] at h6; rw [hct] at h7; cases h6; cases h7
                  have := (hcols _).mpr ⟨h0, h8, h9, rfl⟩
                  rw [hcol] at this; cases this
              | ok info =>
                obtain ⟨c1, c2, c3, rfl⟩ := (hcols info).mp hcol
                simp only [Except.ok.injEq]
                constructor
                · rintro rfl
                  exact Accepted.attached a t alt ka kt _ _ c1 hA.1 hT.1 hA.2 hT.2
                    (fun h => hk h.symm) hca hct c2 c3
                · intro h
                  cases h with
                  | attached _ t _ ka' kt' ca ct h0 h1 h2 h3 h4 h5 h6 h7 h8 h9 =>
                    have e1 := resolve_ok.mpr ⟨h1, h3⟩
                    have e2 := resolve_ok.mpr ⟨h2, h4⟩
                    rw [ha] at e1; rw [ht] at e2; cases e1; cases e2
                    rw [hca] at h6; cases h6
                    rfl

/-- Consequence: in an accepted index with options both columns exist in the index and differ, so
every later use `attr[attrnAttachColumn - 1]` is in range. -/
theorem C37_columns_in_range (table : List String) (cols : List Col) (opts : Option Opts) (s : State)
    (h : initRumState table cols opts = .ok s) :
    (s.attach = none ∧ s.addTo = none ∧ s.alt = false ∧ opts = none) ∨
    ∃ ka kt, s.attach = some ka ∧ s.addTo = some kt ∧ ka ≠ kt ∧
      1 ≤ ka ∧ ka ≤ cols.length ∧ 1 ≤ kt ∧ kt ≤ cols.length := by
  rw [C37_accepts_iff] at h
  cases h with
  | plain _ => exact Or.inl ⟨rfl, rfl, rfl, rfl⟩
  | attached a t alt ka kt ca ct _ _ _ h3 h4 h5 =>
    right
    have h6 := h3.lt; have h7 := h4.lt
    have h8 := h3.1; have h9 := h4.1
    simp only [List.length_map] at h6 h7
    exact ⟨ka, kt, rfl, rfl, h5, by omega, by omega, by omega, by omega⟩

/-- A documented example: `CREATE INDEX ... USING rum (t rum_tsvector_hash_addon_ops, d)
WITH (attach = 'd', to = 't', order_by_attach = 't')`. -/
def exCols : List Col := [⟨"t", 3614, false, none, true⟩, ⟨"d", 1114, true, none, true⟩]

theorem C37_witness :
    initRumState ["id", "t", "d"] exCols (some ⟨some "d", some "t", true⟩) =
      .ok { attach := some 2, addTo := some 1, alt := true, info := [some 1114, none] } ∧
    initRumState ["id", "t", "d"] exCols (some ⟨some "d", some "d", true⟩) = .error .sameColumn ∧
    initRumState ["id", "t", "d"] exCols (some ⟨some "id", some "t", true⟩) = .error .notInIndex ∧
    initRumState ["id", "t", "d"] exCols (some ⟨some "t", some "d", true⟩) = .error .byReference := by
  exact ⟨by rfl, by rfl, by rfl, by rfl⟩

end Rum.Props.Options

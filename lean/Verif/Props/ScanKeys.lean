import Verif.ScanKeys
import Mathlib.Data.List.Forall2
import Mathlib.Logic.Basic
/-!
# C38: scan setup preserves the meaning of the query
-/
namespace Rum.Props.ScanKeys
open Rum.ScanKeys

variable {Q K X V : Type}

/-! ### Specification -/

/-- The operator can match some row: its argument is not NULL, and its query has keys or asks for more than rows with keys. -/
def Satisfiable (ex : InKey Q → Extr K X) (k : InKey Q) : Prop :=
  k.isNull = false ∧ ((ex k).vals ≠ [] ∨ (ex k).mode ≠ 0)

instance (ex : InKey Q → Extr K X) (k : InKey Q) : Decidable (Satisfiable ex k) :=
  if h1 : k.isNull = true then .isFalse (fun h => by simp [h.1] at h1)
  else if h2 : (ex k).mode = 0 then
    if h3 : (ex k).vals.isEmpty = true then .isFalse (fun h => by rcases h.2 with h | h <;> simp_all)
    else .isTrue ⟨by simpa using h1, .inl (by simpa using h3)⟩
  else .isTrue ⟨by simpa using h1, .inr h2⟩

/-- What the support functions of the column are told about the operator: an unknown search mode counts as "all". -/
def coreOf (ex : InKey Q → Extr K X) (k : InKey Q) : Core Q K X :=
  ⟨k.col, k.strategy, if (ex k).mode = 0 ∨ (ex k).mode = 1 then (ex k).mode else 2, some k.arg, (ex k).vals, (ex k).extra⟩

/-- The index entries an operator asks for: one per key of its query, and a placeholder according to the search mode. -/
def entriesOf (ex : InKey Q → Extr K X) (k : InKey Q) : List (ECore K X) :=
  let m := (coreOf ex k).mode
  (ex k).vals.mapIdx (fun i v => ⟨k.col, k.strategy, m, some v.1, if v.2 then .nullKey else .norm,
    ((ex k).pm.map (· i)).getD false, (ex k).extra.map (· i)⟩) ++
  (if m = 0 then [] else [⟨k.col, 0, m, none, if m = 1 then .emptyItem else .emptyQuery, false, none⟩])

/-- The row satisfies the WHERE clause: every operator is satisfiable and its consistent function accepts the row. -/
def Matches (ex : InKey Q → Extr K X) (w : World Q K X V) (filters : List (InKey Q)) : Prop :=
  ∀ k ∈ filters, Satisfiable ex k ∧ w.sat (coreOf ex k) = true

/-- The first additional information found under a list of entries. -/
def firstInfo (w : World Q K X V) (es : List (ECore K X)) : Option V := es.findSome? (fun e => (w.found e).join)

/-- What regrouping relies on. A WHERE operator on the attached column can be decided from the row's attached value `att` by the
partial-match comparison of its entries, and any row accepted by an operator on the other column is found under one of its entries with the
attached value. -/
structure AttachLaw (c : Cfg) (ex : InKey Q → Extr K X) (w : World Q K X V) (filters : List (InKey Q)) (att : Option V) : Prop where
  info : ∀ k ∈ filters, k.col = c.addTo → w.sat (coreOf ex k) = true → firstInfo w (entriesOf ex k) = att
  decide : ∀ k ∈ filters, k.col = c.attach → ∃ f, w.cmpPartial c.attach = some f ∧
    (w.sat (coreOf ex k) = true ↔ ∃ v, att = some v ∧ ∀ e ∈ entriesOf ex k, f e.key v e.strategy e.extra = 0)

/-! ### What no step changes -/

/-- The part of a key that says what it means. -/
def ess (k : Key Q K X) : Core Q K X × Nat × Bool × List (ECore K X) := (k.core, k.col, k.orderBy, k.entries.map (·.core))

def pess (p : PKey Q K X) := (ess p.key, p.subs.map (List.map ess))

theorem saneMode_eq (m : Int) : saneMode m = if m = 0 ∨ m = 1 then m else 2 := by
  unfold saneMode
  split <;> split <;> omega

theorem userEntries_ok (c : Cfg) (col strategy : Nat) (mode : Int) (pm : Option (Nat → Bool)) (extra : Option (Nat → X)) :
    ∀ (vs : List (K × Bool)) (i : Nat) (es : List (Entry K X)), userEntries c col strategy mode pm extra i vs = .ok es →
      es.map (·.core) = vs.mapIdx (fun j v => ⟨col, strategy, mode, some v.1, if v.2 then .nullKey else .norm,
        (pm.map (· (i + j))).getD false, extra.map (· (i + j))⟩) := by
  intro vs
  induction vs with
  | nil => intro i es h; simp only [userEntries, Except.ok.injEq] at h; subst h; rfl
  | cons v vs ih =>
    intro i es h
    obtain ⟨k, null⟩ := v
    simp only [userEntries] at h
    split at h
    · cases h
    · cases hr : userEntries c col strategy mode pm extra (i + 1) vs with
      | error e => rw [hr] at h; cases h
      | ok r =>
        rw [hr] at h
        simp only [bind, Except.bind, Except.ok.injEq] at h
        subst h
        rw [List.map_cons, ih _ _ hr, List.mapIdx_cons]
        simp only [mkEntry, Nat.add_zero, List.cons.injEq, true_and]
        congr 1
        funext j v
        have : i + 1 + j = i + (j + 1) := by omega
        rw [this]

theorem hiddenEntry_ok {col : Nat} {mode : Int} {es : List (Entry K X)} (h : hiddenEntry col mode = .ok es) :
    es.map (·.core) = if mode = 0 then [] else [⟨col, 0, mode, none, if mode = 1 then .emptyItem else .emptyQuery, false, none⟩] := by
  unfold hiddenEntry at h
  split at h
  · cases h; simp_all
  split at h
  · cases h; simp_all [mkEntry]
  split at h
  · cases h; simp_all [mkEntry]
  · cases h

theorem markCurKey_ess (k : Key Q K X) : ess (markCurKey k) = ess k := by
  unfold markCurKey ess
  cases k.entries <;> rfl

theorem linkCurKey_ess {col : Nat} : ∀ {ks ks' : List (Key Q K X)}, linkCurKey col ks = .ok ks' → ks'.map ess = ks.map ess := by
  intro ks
  induction ks with
  | nil => intro ks' h; cases h
  | cons k ks ih =>
    intro ks' h
    simp only [linkCurKey] at h
    split at h
    · split at h
      · cases h
      split at h
      · cases h
      · cases h; rw [List.map_cons, markCurKey_ess]; rfl
    · cases hr : linkCurKey col ks with
      | error e => rw [hr] at h; cases h
      | ok r =>
        rw [hr] at h; cases h
        rw [List.map_cons, List.map_cons, ih hr]

/-- A filter key. -/
theorem fillKey_filter {c : Cfg} {st st' : St Q K X} {col strategy mode query vals pm extra}
    (h : fillKey c st col strategy mode query vals pm extra false = .ok st') :
    st'.void = st.void ∧ st'.keys.map ess = st.keys.map ess ++ [(⟨col, strategy, mode, query, vals, extra⟩, col, false,
      vals.mapIdx (fun i v => ⟨col, strategy, mode, some v.1, if v.2 then .nullKey else .norm,
        (pm.map (· i)).getD false, extra.map (· i)⟩) ++
      (if mode = 0 then [] else [⟨col, 0, mode, none, if mode = 1 then .emptyItem else .emptyQuery, false, none⟩]))] := by
  unfold fillKey at h
  simp only [Bool.false_eq_true, false_and, if_false] at h
  cases hu : userEntries c col strategy mode pm extra 0 vals with
  | error e => rw [hu] at h; cases h
  | ok us =>
    cases hh : (hiddenEntry col mode : Except String (List (Entry K X))) with
    | error e => rw [hu, hh] at h; cases h
    | ok hs =>
      rw [hu, hh] at h
      cases h
      refine ⟨rfl, ?_⟩
      have h1 := userEntries_ok c col strategy mode pm extra vals 0 us hu
      have h2 := hiddenEntry_ok hh
      simp only [Nat.zero_add] at h1
      simp only [List.map_append, List.map_cons, List.map_nil, ess, h1, h2]

/-- An ORDER BY key. -/
theorem fillKey_order {c : Cfg} {st st' : St Q K X} {col strategy mode query vals pm extra}
    (h : fillKey c st col strategy mode query vals pm extra true = .ok st') :
    st'.void = st.void ∧ ∃ k : Key Q K X, st'.keys.map ess = st.keys.map ess ++ [ess k] ∧ k.orderBy = true ∧
      k.core = ⟨col, strategy, mode, query, vals, extra⟩ := by
  unfold fillKey at h
  simp only [Bool.true_and, true_and] at h
  generalize vals.length + (if mode = 0 then 0 else 1) = n at h
  split at h
  · split at h
    · cases h
    split at h
    · cases h
    split at h
    · split at h
      · cases h
      · cases h
        exact ⟨rfl, _, by rw [List.map_append, List.map_cons, List.map_nil], rfl, rfl⟩
    · cases hl : linkCurKey col st.keys with
      | error e => rw [hl] at h; cases h
      | ok ks =>
        rw [hl] at h; cases h
        exact ⟨rfl, _, by rw [List.map_append, List.map_cons, List.map_nil, linkCurKey_ess hl], rfl, rfl⟩
  split at h
  · cases h
  · cases hu : userEntries c col strategy mode pm extra 0 vals with
    | error e => rw [hu] at h; cases h
    | ok us =>
      cases hh : (hiddenEntry col mode : Except String (List (Entry K X))) with
      | error e => rw [hu, hh] at h; cases h
      | ok hs =>
        rw [hu, hh] at h
        cases h
        exact ⟨rfl, _, by rw [List.map_append, List.map_cons, List.map_nil], rfl, rfl⟩

/-- What a filter operator becomes. -/
def filterEss (ex : InKey Q → Extr K X) (k : InKey Q) : Core Q K X × Nat × Bool × List (ECore K X) :=
  (coreOf ex k, k.col, false, entriesOf ex k)

theorem sat_iff (ex : InKey Q → Extr K X) (k : InKey Q) :
    Satisfiable ex k ↔ ¬ (k.isNull = true ∨ ((ex k).vals = [] ∧ saneMode (ex k).mode = 0)) := by
  unfold Satisfiable
  rw [saneMode_eq]
  constructor
  · rintro ⟨h1, h2⟩ (h | ⟨h3, h4⟩)
    · simp [h1] at h
    · rcases h2 with h2 | h2
      · exact h2 h3
      · split at h4
        · exact h2 h4
        · omega
  · intro h
    refine ⟨by cases hk : k.isNull <;> simp_all, ?_⟩
    by_cases hm : (ex k).mode = 0
    · left; intro hv; exact h (.inr ⟨hv, by simp [hm]⟩)
    · exact .inr hm

theorem init_void {c : Cfg} {ex : InKey Q → Extr K X} {st : St Q K X} {k : InKey Q} (hs : ¬ Satisfiable ex k) :
    initScanKey c ex st k = .ok { st with void := st.void || !k.orderBy } := by
  rw [sat_iff, Classical.not_not] at hs
  unfold initScanKey
  rcases hs with hs | hs
  · rw [if_pos hs]
  · rw [if_pos hs, ite_self]

theorem init_fill {c : Cfg} {ex : InKey Q → Extr K X} {st : St Q K X} {k : InKey Q} (hs : Satisfiable ex k) :
    initScanKey c ex st k = fillKey c st k.col k.strategy (coreOf ex k).mode (some k.arg) (ex k).vals (ex k).pm (ex k).extra k.orderBy := by
  rw [sat_iff] at hs
  unfold initScanKey
  rw [if_neg (fun h => hs (.inl h)), if_neg (fun h => hs (.inr h)), saneMode_eq]
  rfl

theorem initFilters_ok {c : Cfg} {ex : InKey Q → Extr K X} :
    ∀ (fs : List (InKey Q)) (st st' : St Q K X), (∀ k ∈ fs, k.orderBy = false) → st.void = false → initFilters c ex st fs = .ok st' →
      (st'.void = true ↔ ∃ k ∈ fs, ¬ Satisfiable ex k) ∧
      (st'.void = false → st'.keys.map ess = st.keys.map ess ++ fs.map (filterEss ex)) := by
  intro fs
  induction fs with
  | nil =>
    intro st st' _ hv h
    cases h
    simp [hv]
  | cons k fs ih =>
    intro st st' ho hv h
    have hok : k.orderBy = false := ho k (by simp)
    simp only [initFilters] at h
    by_cases hs : Satisfiable ex k
    · rw [init_fill hs, hok] at h
      cases hf : fillKey c st k.col k.strategy (coreOf ex k).mode (some k.arg) (ex k).vals (ex k).pm (ex k).extra false with
      | error e => rw [hf] at h; cases h
      | ok st1 =>
        rw [hf] at h
        obtain ⟨h1, h2⟩ := fillKey_filter hf
        simp only [bind, Except.bind, h1, hv, Bool.false_eq_true, if_false] at h
        obtain ⟨i1, i2⟩ := ih st1 st' (fun k hk => ho k (List.mem_cons_of_mem _ hk)) (by rw [h1, hv]) h
        refine ⟨?_, ?_⟩
        · rw [i1]; simp [hs]
        · intro hv'
          rw [i2 hv', h2, List.map_cons, List.append_assoc]
          rfl
    · rw [init_void hs] at h
      simp only [bind, Except.bind, hok, Bool.not_false, Bool.or_true, if_true] at h
      cases h
      simp [hs]

theorem initOrders_ok {c : Cfg} {ex : InKey Q → Extr K X} :
    ∀ (os : List (InKey Q)) (st st' : St Q K X), (∀ k ∈ os, k.orderBy = true) → initOrders c ex st os = .ok st' →
      st'.void = st.void ∧ ∃ L : List (Key Q K X), st'.keys.map ess = st.keys.map ess ++ L.map ess ∧ (∀ k ∈ L, k.orderBy = true) ∧
        L.map (·.core) = (os.filter (fun k => decide (Satisfiable ex k))).map (coreOf ex) := by
  intro os
  induction os with
  | nil =>
    intro st st' _ h
    cases h
    exact ⟨rfl, [], by simp, by simp, by simp⟩
  | cons k os ih =>
    intro st st' ho h
    have hok : k.orderBy = true := ho k (by simp)
    simp only [initOrders] at h
    by_cases hs : Satisfiable ex k
    · rw [init_fill hs, hok] at h
      cases hf : fillKey c st k.col k.strategy (coreOf ex k).mode (some k.arg) (ex k).vals (ex k).pm (ex k).extra true with
      | error e => rw [hf] at h; cases h
      | ok st1 =>
        rw [hf] at h
        obtain ⟨h1, k1, h2, h3, h4⟩ := fillKey_order hf
        obtain ⟨i1, L, i2, i3, i4⟩ := ih st1 st' (fun k hk => ho k (List.mem_cons_of_mem _ hk)) h
        refine ⟨by rw [i1, h1], k1 :: L, ?_, ?_, ?_⟩
        · rw [i2, h2, List.append_assoc]; rfl
        · intro k hk
          rcases List.mem_cons.1 hk with rfl | hk
          · exact h3
          · exact i3 k hk
        · rw [List.map_cons, i4, h4, List.filter_cons, if_pos (by simpa using hs)]
          rfl
    · rw [init_void hs] at h
      simp only [bind, Except.bind, hok, Bool.not_true, Bool.or_false] at h
      obtain ⟨i1, L, i2, i3, i4⟩ := ih st st' (fun k hk => ho k (List.mem_cons_of_mem _ hk)) h
      exact ⟨i1, L, i2, i3, by rw [i4, List.filter_cons, if_neg (by simpa using hs)]⟩

theorem markEntries_core {m : Option K} {d : Int} : ∀ {es es' : List (Entry K X)}, markEntries m d es = .ok es' →
    es'.map (·.core) = es.map (·.core) := by
  intro es
  induction es with
  | nil => intro es' h; cases h; rfl
  | cons e es ih =>
    intro es' h
    simp only [markEntries] at h
    split at h
    · cases h
    · cases hr : markEntries m d es with
      | error e => rw [hr] at h; cases h
      | ok r => rw [hr] at h; cases h; rw [List.map_cons, List.map_cons, ih hr]

theorem fillMark_ess {c : Cfg} {o : Key Q K X} : ∀ {ks : List (Key Q K X)} {n : Int} {r : List (Key Q K X) × Int},
    fillMark c o n ks = .ok r → r.1.map ess = ks.map ess := by
  intro ks
  induction ks with
  | nil => intro n r h; cases h; rfl
  | cons k ks ih =>
    intro n r h
    simp only [fillMark] at h
    split at h
    · split at h
      · cases h
      · cases hm : markEntries (o.core.vals.head?.map (·.1)) (lookupDir c o.core.colOrig o.core.strategy) k.entries with
        | error e => rw [hm] at h; cases h
        | ok es =>
          cases hr : fillMark c o (lookupDir c o.core.colOrig o.core.strategy) ks with
          | error e => rw [hm, hr] at h; cases h
          | ok r' =>
            rw [hm, hr] at h; cases h
            rw [List.map_cons, List.map_cons, ih hr]
            simp only [ess, markEntries_core hm]
    · cases hr : fillMark c o n ks with
      | error e => rw [hr] at h; cases h
      | ok r' => rw [hr] at h; cases h; rw [List.map_cons, List.map_cons, ih hr]

theorem fillMarks_ess {c : Cfg} : ∀ {os ks : List (Key Q K X)} {n : Int} {r : List (Key Q K X) × Int},
    fillMarks c ks n os = .ok r → r.1.map ess = ks.map ess := by
  intro os
  induction os with
  | nil => intro ks n r h; cases h; rfl
  | cons o os ih =>
    intro ks n r h
    simp only [fillMarks] at h
    split at h
    · cases hr : fillMark c o n ks with
      | error e => rw [hr] at h; cases h
      | ok r' => rw [hr] at h; rw [ih h, fillMark_ess hr]
    · exact ih h

theorem adjust_pess {c : Cfg} {n : Int} : ∀ {ps ps' : List (PKey Q K X)}, adjust c n ps = .ok ps' → ps'.map pess = ps.map pess := by
  intro ps
  induction ps with
  | nil => intro ps' h; cases h; rfl
  | cons p ps ih =>
    intro ps' h
    simp only [adjust] at h
    split at h
    · split at h
      · cases h
      · cases hr : adjust c n ps with
        | error e => rw [hr] at h; cases h
        | ok r =>
          rw [hr] at h; cases h
          rw [List.map_cons, List.map_cons, ih hr]
          simp [pess, ess, Function.comp_def]
    · cases hr : adjust c n ps with
      | error e => rw [hr] at h; cases h
      | ok r => rw [hr] at h; cases h; rw [List.map_cons, List.map_cons, ih hr]

theorem markFirst_pess (ps : List (PKey Q K X)) : (markFirst ps).map pess = ps.map pess := by
  cases ps with
  | nil => rfl
  | cons p ps =>
    simp only [markFirst, List.map_cons, pess, ess]
    cases p.key.entries <;> rfl

/-! ### Evaluation depends on the meaning only -/

theorem outerInfo_eq (w : World Q K X V) : ∀ es : List (Entry K X), outerInfo w es = firstInfo w (es.map (·.core)) := by
  intro es
  induction es with
  | nil => rfl
  | cons e es ih =>
    unfold outerInfo firstInfo
    rw [List.map_cons, List.findSome?_cons]
    cases h : w.found e.core with
    | none => simpa [h, firstInfo] using ih
    | some o =>
      cases o with
      | none => simpa [h, firstInfo] using ih
      | some v => simp

/-- subEntries on the meanings. -/
def subCores (w : World Q K X V) (v : V) : List (ECore K X) → Option Bool
  | [] => some true
  | e :: es =>
    match w.cmpPartial e.col with
    | none => none
    | some f => if f e.key v e.strategy e.extra = 0 then subCores w v es else some false

theorem subEntries_eq (w : World Q K X V) (v : V) : ∀ es : List (Entry K X), subEntries w v es = subCores w v (es.map (·.core)) := by
  intro es
  induction es with
  | nil => rfl
  | cons e es ih =>
    unfold subEntries
    rw [List.map_cons]
    unfold subCores
    cases w.cmpPartial e.core.col with
    | none => rfl
    | some f => simp only [ih]

/-- consistent on the meanings. -/
def consistentE (c : Cfg) (w : World Q K X V) (p : (Core Q K X × Nat × Bool × List (ECore K X)) × Option (List (Core Q K X × Nat × Bool × List (ECore K X)))) :
    Option Bool :=
  if p.1.1.mode = 3 ∨ w.sat p.1.1 = true then
    if p.1.2.1 ≠ c.addTo then some true
    else match p.2 with
      | none => some true
      | some subs =>
        match firstInfo w p.1.2.2.2 with
        | none => some false
        | some v => subCores w v (subs.flatMap (·.2.2.2))
  else some false

theorem consistent_eq (c : Cfg) (w : World Q K X V) (p : PKey Q K X) : consistent c w p = consistentE c w (pess p) := by
  unfold consistent consistentE addInfoConsistent
  by_cases h1 : p.key.core.mode = 3 ∨ w.sat p.key.core = true
  · rw [if_pos h1, if_pos (show (pess p).1.1.mode = 3 ∨ w.sat (pess p).1.1 = true from h1)]
    by_cases h2 : p.key.col ≠ c.addTo
    · rw [if_pos h2, if_pos (show (pess p).1.2.1 ≠ c.addTo from h2)]
    · rw [if_neg h2, if_neg (show ¬ (pess p).1.2.1 ≠ c.addTo from h2), outerInfo_eq]
      cases hs : p.subs with
      | none => simp only [pess, hs, Option.map_none]
      | some subs =>
        simp only [pess, ess, hs, Option.map_some]
        cases firstInfo w (p.key.entries.map (·.core)) with
        | none => rfl
        | some v => simp only [subEntries_eq, List.map_flatMap, List.flatMap_map, ess]
  · rw [if_neg h1, if_neg (show ¬ ((pess p).1.1.mode = 3 ∨ w.sat (pess p).1.1 = true) from h1)]

theorem allConsistent_eq (c : Cfg) (w : World Q K X V) : ∀ ps : List (PKey Q K X), (∀ p ∈ ps, p.key.orderBy = false → consistentE c w (pess p) ≠ none) →
    allConsistent c w ps = some (ps.all (fun p => p.key.orderBy || consistentE c w (pess p) == some true)) := by
  intro ps
  induction ps with
  | nil => intro _; rfl
  | cons p ps ih =>
    intro h
    have ih := ih (fun q hq => h q (List.mem_cons_of_mem _ hq))
    have hp := h p (by simp)
    unfold allConsistent
    rw [List.all_cons]
    cases ho : p.key.orderBy with
    | true => simp [ih]
    | false =>
      simp only [Bool.false_eq_true, if_false, consistent_eq]
      cases hc : consistentE c w (pess p) with
      | none => exact absurd hc (hp ho)
      | some b => cases b <;> simp [ih]

/-! ### Regrouping -/

/-- What regrouping puts where. -/
theorem regroupGo_mem (c : Cfg) (subs : List (Key Q K X)) : ∀ (ks : List (Key Q K X)) (given : Bool) (p : PKey Q K X), p ∈ regroupGo c subs given ks →
    p.key ∈ ks ∧ isOn c p.key = false ∧ (p.subs = none ∨ (p.subs = some subs ∧ isTo c p.key = true)) := by
  intro ks
  induction ks with
  | nil => intro given p h; cases h
  | cons k ks ih =>
    intro given p h
    simp only [regroupGo] at h
    split at h
    · obtain ⟨h1, h2⟩ := ih _ _ h
      exact ⟨List.mem_cons_of_mem _ h1, h2⟩
    next hon =>
      split at h
      next hto =>
        rcases List.mem_cons.1 h with rfl | h
        · exact ⟨by simp, by simpa using hon, .inr ⟨rfl, hto.1⟩⟩
        · obtain ⟨h1, h2⟩ := ih _ _ h
          exact ⟨List.mem_cons_of_mem _ h1, h2⟩
      · rcases List.mem_cons.1 h with rfl | h
        · exact ⟨by simp, by simpa using hon, .inl rfl⟩
        · obtain ⟨h1, h2⟩ := ih _ _ h
          exact ⟨List.mem_cons_of_mem _ h1, h2⟩

theorem regroupGo_keeps (c : Cfg) (subs : List (Key Q K X)) : ∀ (ks : List (Key Q K X)) (given : Bool) (k : Key Q K X), k ∈ ks → isOn c k = false →
    ∃ p ∈ regroupGo c subs given ks, p.key = k := by
  intro ks
  induction ks with
  | nil => intro given k h; cases h
  | cons k' ks ih =>
    intro given k h hon
    simp only [regroupGo]
    rcases List.mem_cons.1 h with rfl | h
    · rw [if_neg (by simp [hon])]
      split
      · exact ⟨_, List.mem_cons_self, rfl⟩
      · exact ⟨_, List.mem_cons_self, rfl⟩
    · split
      · exact ih _ _ h hon
      split
      · obtain ⟨p, hp, e⟩ := ih true k h hon
        exact ⟨p, List.mem_cons_of_mem _ hp, e⟩
      · obtain ⟨p, hp, e⟩ := ih given k h hon
        exact ⟨p, List.mem_cons_of_mem _ hp, e⟩

theorem regroupGo_given (c : Cfg) (subs : List (Key Q K X)) : ∀ (ks : List (Key Q K X)), (∃ k ∈ ks, isTo c k = true ∧ isOn c k = false) →
    ∃ p ∈ regroupGo c subs false ks, p.subs = some subs := by
  intro ks
  induction ks with
  | nil => rintro ⟨k, hk, _⟩; cases hk
  | cons k' ks ih =>
    rintro ⟨k, hk, hto, hon⟩
    simp only [regroupGo]
    split
    next hon' =>
      rcases List.mem_cons.1 hk with rfl | hk
      · simp [hon] at hon'
      · exact ih ⟨k, hk, hto, hon⟩
    split
    · exact ⟨_, List.mem_cons_self, rfl⟩
    next hn =>
      rcases List.mem_cons.1 hk with rfl | hk
      · simp [hto] at hn
      · obtain ⟨p, hp, e⟩ := ih ⟨k, hk, hto, hon⟩
        exact ⟨p, List.mem_cons_of_mem _ hp, e⟩

theorem subCores_true (w : World Q K X V) (v : V) (col : Nat) (f) (hf : w.cmpPartial col = some f) : ∀ es : List (ECore K X), (∀ e ∈ es, e.col = col) →
    subCores w v es ≠ none ∧ (subCores w v es = some true ↔ ∀ e ∈ es, f e.key v e.strategy e.extra = 0) := by
  intro es
  induction es with
  | nil => intro _; simp [subCores]
  | cons e es ih =>
    intro h
    obtain ⟨h1, h2⟩ := ih (fun e he => h e (List.mem_cons_of_mem _ he))
    unfold subCores
    rw [h e (by simp), hf]
    simp only
    split
    next h0 => exact ⟨h1, by simp [h2, h0]⟩
    next h0 => exact ⟨by simp, by simp [h0]⟩

theorem entriesOf_col (ex : InKey Q → Extr K X) (k : InKey Q) : ∀ e ∈ entriesOf ex k, e.col = k.col := by
  intro e he
  unfold entriesOf at he
  rcases List.mem_append.1 he with he | he
  · obtain ⟨i, hi, rfl⟩ := List.mem_mapIdx.1 he
    rfl
  · split at he
    · cases he
    · obtain rfl := List.mem_singleton.1 he
      rfl

/-! ### The whole setup -/

/-- The keys before regrouping: the filter operators (or the key that matches everything), then the ORDER BY operators. -/
def everyEss : Core Q K X × Nat × Bool × List (ECore K X) :=
  (⟨1, 0, 3, none, [], none⟩, 1, false, [⟨1, 0, 3, none, .emptyQuery, false, none⟩])

theorem new_ok {c : Cfg} {ex : InKey Q → Extr K X} {filters orders : List (InKey Q)} {p : Plan Q K X} (hf : ∀ k ∈ filters, k.orderBy = false)
    (ho : ∀ k ∈ orders, k.orderBy = true) (h : newScanKey c ex filters orders = .ok p) :
    (p.void = true ↔ ∃ k ∈ filters, ¬ Satisfiable ex k) ∧
    (p.void = false → ∃ ks L : List (Key Q K X), p.keys.map pess = (regroup c ks).map pess ∧
      ks.map ess = (if filters = [] then [everyEss] else filters.map (filterEss ex)) ++ L.map ess ∧ (∀ k ∈ L, k.orderBy = true) ∧
      L.map (·.core) = (orders.filter (fun k => decide (Satisfiable ex k))).map (coreOf ex)) := by
  unfold newScanKey at h
  cases h1 : initFilters c ex ⟨[], false, false⟩ filters with
  | error e => rw [h1] at h; cases h
  | ok st1 =>
    obtain ⟨f1, f2⟩ := initFilters_ok filters _ st1 hf rfl h1
    rw [h1] at h
    simp only [bind, Except.bind] at h
    cases h2 : addEvery c st1 with
    | error e => rw [h2] at h; cases h
    | ok st2 =>
      rw [h2] at h
      simp only at h
      cases h3 : initOrders c ex st2 orders with
      | error e => rw [h3] at h; cases h
      | ok st3 =>
        rw [h3] at h
        simp only at h
        obtain ⟨g1, L, g2, g3, g4⟩ := initOrders_ok orders st2 st3 ho h3
        cases h4 : fillMarks c st3.keys 0 st3.keys with
        | error e => rw [h4] at h; cases h
        | ok r =>
          rw [h4] at h
          simp only at h
          cases h5 : adjust c r.2 (regroup c (r.1.map (fun k => { k with willSort := st3.willSort }))) with
          | error e => rw [h5] at h; cases h
          | ok ps =>
            rw [h5] at h
            simp only [Except.ok.injEq] at h
            unfold addEvery at h2
            have hvoid : st2.void = st1.void := by
              split at h2
              · exact (fillKey_filter h2).1
              · cases h2; rfl
            subst h
            refine ⟨?_, ?_⟩
            · show st3.void = true ↔ _
              rw [g1, hvoid, f1]
            · intro hv
              have hv : st1.void = false := by rw [← hvoid, ← g1]; exact hv
              refine ⟨r.1.map (fun k => { k with willSort := st3.willSort }), L, ?_, ?_, g3, g4⟩
              · show List.map pess (if _ then markFirst ps else ps) = _
                rw [← adjust_pess h5]
                split
                · exact markFirst_pess ps
                · rfl
              · have e1 : (r.1.map (fun k => { k with willSort := st3.willSort })).map ess = r.1.map ess := by
                  rw [List.map_map]; rfl
                rw [e1, fillMarks_ess h4, g2]
                congr 1
                have e2 := f2 hv
                simp only [List.map_nil, List.nil_append] at e2
                split
                next hnil =>
                  rw [hnil] at e2
                  have : st1.keys = [] := by simpa using e2
                  rw [this, hv] at h2
                  simp only [List.isEmpty_nil, Bool.not_false, Bool.and_true, if_true] at h2
                  rw [(fillKey_filter h2).2, this]
                  rfl
                next hne =>
                  have : st1.keys ≠ [] := by
                    intro hk
                    rw [hk] at e2
                    exact hne (List.map_eq_nil_iff.1 e2.symm)
                  rw [if_neg (by simp [this])] at h2
                  cases h2
                  exact e2

/-- **C38, NULL arguments and empty queries.** Whenever setup succeeds, the scan is void (it returns no row) exactly if some WHERE operator has a NULL
argument, or an empty query that asks only for rows with keys. ORDER BY operators never make it void. -/
theorem C38_void {c : Cfg} {ex : InKey Q → Extr K X} {filters orders : List (InKey Q)} {p : Plan Q K X} (hf : ∀ k ∈ filters, k.orderBy = false)
    (ho : ∀ k ∈ orders, k.orderBy = true) (h : newScanKey c ex filters orders = .ok p) :
    (p.void = true ↔ ∃ k ∈ filters, k.isNull = true ∨ ((ex k).vals = [] ∧ (ex k).mode = 0)) ∧
    (∀ (w : World Q K X V), (∃ k ∈ filters, k.isNull = true ∨ ((ex k).vals = [] ∧ (ex k).mode = 0)) → returned c w p = some false) := by
  have hs : ∀ k : InKey Q, ¬ Satisfiable ex k ↔ (k.isNull = true ∨ ((ex k).vals = [] ∧ (ex k).mode = 0)) := by
    intro k
    unfold Satisfiable
    cases k.isNull <;> simp
  have h1 : p.void = true ↔ ∃ k ∈ filters, k.isNull = true ∨ ((ex k).vals = [] ∧ (ex k).mode = 0) := by
    rw [(new_ok hf ho h).1]
    simp only [hs]
  refine ⟨h1, fun w hk => ?_⟩
  rw [returned, if_pos (h1.2 hk)]

/-- The order keys are untouched by regrouping. -/
theorem regroup_orders (c : Cfg) (ks : List (Key Q K X)) : ((regroup c ks).map (·.key)).filter (·.orderBy) = ks.filter (·.orderBy) := by
  have hgo : ∀ (subs : List (Key Q K X)) (l : List (Key Q K X)) (g : Bool),
      ((regroupGo c subs g l).map (·.key)).filter (·.orderBy) = l.filter (·.orderBy) := by
    intro subs l
    induction l with
    | nil => intro g; rfl
    | cons k l ih =>
      intro g
      simp only [regroupGo]
      split
      next hon =>
        have : k.orderBy = false := by simp only [isOn, Bool.and_eq_true, beq_iff_eq] at hon; exact hon.1
        rw [ih, List.filter_cons, this]; simp
      split
      · rw [List.map_cons, List.filter_cons, List.filter_cons, ih]
      · rw [List.map_cons, List.filter_cons, List.filter_cons, ih]
  unfold regroup
  split
  · exact hgo _ _ _
  · rw [List.map_map]
    have : ((fun p : PKey Q K X => p.key) ∘ fun k => ⟨k, none⟩) = id := rfl
    rw [this, List.map_id]

/-- The filter keys and their sub-keys are the filter keys there were. -/
theorem regroup_filters (c : Cfg) (ks : List (Key Q K X)) (hc : c.attach ≠ c.addTo) :
    (((regroup c ks).filter (fun p => !p.key.orderBy)).flatMap (fun p => p.key :: p.subs.getD [])).Perm (ks.filter (fun k => !k.orderBy)) := by
  have hgo : ∀ (subs : List (Key Q K X)) (l : List (Key Q K X)) (g : Bool),
      (((regroupGo c subs g l).filter (fun p => !p.key.orderBy)).flatMap (fun p => p.key :: p.subs.getD [])).Perm
        ((if g = false ∧ l.any (isTo c) = true then subs else []) ++ l.filter (fun k => !k.orderBy && !isOn c k)) := by
    intro subs l
    induction l with
    | nil => intro g; simp [regroupGo]
    | cons k l ih =>
      intro g
      simp only [regroupGo]
      split
      next hon =>
        have hto : isTo c k = false := by
          simp only [isOn, isTo, Bool.and_eq_true, beq_iff_eq, Bool.and_eq_false_iff] at hon ⊢
          right; simp only [beq_eq_false_iff_ne]; rw [hon.2]; exact hc
        have hfil : (k :: l).filter (fun k => !k.orderBy && !isOn c k) = l.filter (fun k => !k.orderBy && !isOn c k) :=
          List.filter_cons_of_neg (by simp [hon])
        rw [List.any_cons, hto, Bool.false_or, hfil]
        exact ih g
      next hon =>
        have hon : isOn c k = false := by simpa using hon
        split
        next hto =>
          have hob : k.orderBy = false := by
            have := hto.1
            simp only [isTo, Bool.and_eq_true, beq_iff_eq] at this; exact this.1
          rw [List.filter_cons, if_pos (by simp [hob]), List.flatMap_cons, List.any_cons, hto.1, if_pos ⟨hto.2, rfl⟩, List.filter_cons,
            if_pos (by simp [hob, hon])]
          have ih := ih true
          simp only [Bool.true_eq_false, false_and, if_false, List.nil_append] at ih
          simp only [Option.getD_some, List.cons_append]
          exact ((List.Perm.append_left _ ih).cons _).trans List.perm_middle.symm
        next hto =>
          cases hob : k.orderBy with
          | true =>
            have : isTo c k = false := by simp [isTo, hob]
            have hfil : (k :: l).filter (fun k => !k.orderBy && !isOn c k) = l.filter (fun k => !k.orderBy && !isOn c k) :=
              List.filter_cons_of_neg (by simp [hob])
            rw [List.filter_cons_of_neg (by simp [hob]), List.any_cons, this, Bool.false_or, hfil]
            exact ih g
          | false =>
            have hfil : (k :: l).filter (fun k => !k.orderBy && !isOn c k) = k :: l.filter (fun k => !k.orderBy && !isOn c k) :=
              List.filter_cons_of_pos (by simp [hob, hon])
            rw [List.filter_cons_of_pos (by simp [hob]), List.flatMap_cons, hfil]
            simp only [Option.getD_none, List.cons_append, List.nil_append]
            refine ((ih g).cons _).trans ?_
            have : (g = false ∧ (k :: l).any (isTo c) = true) ↔ (g = false ∧ l.any (isTo c) = true) := by
              rw [List.any_cons]
              constructor
              · rintro ⟨h1, h2⟩
                refine ⟨h1, ?_⟩
                cases h3 : isTo c k with
                | true => exact absurd ⟨h3, h1⟩ hto
                | false => simpa [h3] using h2
              · rintro ⟨h1, h2⟩
                exact ⟨h1, by simp [h2]⟩
            simp only [this]
            exact List.perm_middle.symm
  unfold regroup
  split
  next h =>
    refine (hgo _ _ _).trans ?_
    rw [if_pos ⟨rfl, h.1⟩]
    have : ∀ l : List (Key Q K X), (l.filter (isOn c) ++ l.filter (fun k => !k.orderBy && !isOn c k)).Perm (l.filter (fun k => !k.orderBy)) := by
      intro l
      induction l with
      | nil => simp
      | cons k l ih =>
        cases hon : isOn c k with
        | true =>
          have hob : k.orderBy = false := by simp only [isOn, Bool.and_eq_true, beq_iff_eq] at hon; exact hon.1
          simp only [List.filter_cons, hon, hob, if_true, Bool.not_false, Bool.not_true, Bool.and_false, Bool.false_eq_true, if_false, List.cons_append]
          exact ih.cons _
        | false =>
          cases hob : k.orderBy with
          | true => simpa [List.filter_cons, hon, hob] using ih
          | false =>
            simp only [List.filter_cons, hon, hob, Bool.not_false, Bool.and_true, if_true, Bool.false_eq_true, if_false]
            exact List.perm_middle.trans (ih.cons _)
    exact this ks
  next h =>
    have : ∀ l : List (Key Q K X), (((l.map (fun k => (⟨k, none⟩ : PKey Q K X))).filter (fun p => !p.key.orderBy)).flatMap (fun p => p.key :: p.subs.getD [])) =
        l.filter (fun k => !k.orderBy) := by
      intro l
      induction l with
      | nil => rfl
      | cons k l ih =>
        rw [List.map_cons, List.filter_cons, List.filter_cons]
        cases hob : k.orderBy <;> simp [ih]
    rw [this]

/-- **C38, nothing is lost.** In a scan that is not void every WHERE operator appears exactly once, as a key or as an additional-information key, with exactly
the entries its query asks for (one per key, plus the placeholder of its search mode; an unknown search mode counts as "all"); without WHERE there is
one key that matches everything. The ORDER BY keys are the satisfiable ORDER BY operators, in their order. -/
theorem C38_nothing_lost {c : Cfg} {ex : InKey Q → Extr K X} {filters orders : List (InKey Q)} {p : Plan Q K X} (hc : c.attach ≠ c.addTo)
    (hf : ∀ k ∈ filters, k.orderBy = false) (ho : ∀ k ∈ orders, k.orderBy = true) (h : newScanKey c ex filters orders = .ok p) (hv : p.void = false) :
    (((p.keys.filter (fun q => !q.key.orderBy)).flatMap (fun q => q.key :: q.subs.getD [])).map (fun k => (k.core, k.entries.map (·.core)))).Perm
      (if filters = [] then [(⟨1, 0, 3, none, [], none⟩, [⟨1, 0, 3, none, .emptyQuery, false, none⟩])] else
        filters.map (fun k => (coreOf ex k, entriesOf ex k))) ∧
    ((p.keys.map (·.key)).filter (·.orderBy)).map (·.core) = (orders.filter (fun k => decide (Satisfiable ex k))).map (coreOf ex) := by
  obtain ⟨ks, L, h1, h2, h3, h4⟩ := (new_ok hf ho h).2 hv
  -- both sides only look at the meaning of the keys
  have hob : ∀ (A B : List (PKey Q K X)), A.map pess = B.map pess →
      ((A.filter (fun q => !q.key.orderBy)).flatMap (fun q => q.key :: q.subs.getD [])).map ess =
        ((B.filter (fun q => !q.key.orderBy)).flatMap (fun q => q.key :: q.subs.getD [])).map ess ∧
      ((A.map (·.key)).filter (·.orderBy)).map ess = ((B.map (·.key)).filter (·.orderBy)).map ess := by
    intro A
    induction A with
    | nil => intro B hB; cases B with
      | nil => exact ⟨rfl, rfl⟩
      | cons b B => cases hB
    | cons a A ih =>
      intro B hB
      cases B with
      | nil => cases hB
      | cons b B =>
        rw [List.map_cons, List.map_cons, List.cons.injEq] at hB
        obtain ⟨i1, i2⟩ := ih B hB.2
        have he : ess a.key = ess b.key := congrArg Prod.fst hB.1
        have hs : a.subs.map (List.map ess) = b.subs.map (List.map ess) := congrArg Prod.snd hB.1
        have ho : a.key.orderBy = b.key.orderBy := congrArg (fun x => x.2.2.1) he
        have hs' : (a.subs.getD []).map ess = (b.subs.getD []).map ess := by
          cases ha : a.subs <;> cases hb : b.subs <;> simp_all
        refine ⟨?_, ?_⟩
        · rw [List.filter_cons, List.filter_cons, ho]
          cases b.key.orderBy with
          | true => simpa using i1
          | false => simp only [Bool.not_false, if_true, List.flatMap_cons, List.map_append, List.map_cons, he, hs', i1]
        · rw [List.map_cons, List.map_cons, List.filter_cons, List.filter_cons, ho]
          cases b.key.orderBy with
          | true => simp only [if_true, List.map_cons, he, i2]
          | false => simpa using i2
  obtain ⟨o1, o2⟩ := hob _ _ h1
  have hfl : ∀ A : List (Key Q K X), A.map (fun k => (k.core, k.entries.map (·.core))) = (A.map ess).map (fun x => (x.1, x.2.2.2)) := by
    intro A; rw [List.map_map]; rfl
  have hcore : ∀ A : List (Key Q K X), A.map (·.core) = (A.map ess).map (·.1) := by
    intro A; rw [List.map_map]; rfl
  -- the keys before regrouping
  have hpre : ∀ (ks : List (Key Q K X)) (E : List (Core Q K X × Nat × Bool × List (ECore K X))), ks.map ess = E →
      (ks.filter (fun k => !k.orderBy)).map ess = E.filter (fun e => !e.2.2.1) ∧ (ks.filter (·.orderBy)).map ess = E.filter (fun e => e.2.2.1) := by
    rintro ks E rfl
    rw [List.filter_map, List.filter_map]
    exact ⟨rfl, rfl⟩
  obtain ⟨p1, p2⟩ := hpre ks _ h2
  have hL : ∀ x ∈ L.map ess, x.2.2.1 = true := by
    intro x hx
    obtain ⟨k, hk, rfl⟩ := List.mem_map.1 hx
    exact h3 k hk
  have hF : ∀ x ∈ (if filters = [] then [everyEss] else filters.map (filterEss ex)), x.2.2.1 = false := by
    intro x hx
    split at hx
    · obtain rfl := List.mem_singleton.1 hx; rfl
    · obtain ⟨k, hk, rfl⟩ := List.mem_map.1 hx; rfl
  constructor
  · rw [hfl, o1]
    refine (((regroup_filters c ks hc).map ess).map _).trans ?_
    rw [p1, List.filter_append, List.filter_eq_self.2 (fun x hx => by simp [hF x hx]), List.filter_eq_nil_iff.2 (fun x hx => by simp [hL x hx]),
      List.append_nil]
    split
    · exact List.Perm.refl _
    · rw [List.map_map]; exact List.Perm.refl _
  · rw [hcore, o2, regroup_orders, p2, List.filter_append, List.filter_eq_nil_iff.2 (fun x hx => by simp [hF x hx]),
      List.filter_eq_self.2 (fun x hx => by simp [hL x hx]), List.nil_append, ← hcore, h4]

/-- **C38, the meaning is preserved.** If setup succeeds, and operators on the attached column obey `AttachLaw` whenever there is also an
operator on the column it is added to, a row is returned exactly if it satisfies every WHERE operator; in particular no function is called that does not
exist. Partial: the law fails for operator classes without a partial-match function or with queries of several keys, see the violations. -/
theorem C38_meaning_partial {c : Cfg} {ex : InKey Q → Extr K X} {filters orders : List (InKey Q)} {p : Plan Q K X} (hc : c.attach ≠ c.addTo)
    (hf : ∀ k ∈ filters, k.orderBy = false) (ho : ∀ k ∈ orders, k.orderBy = true) (h : newScanKey c ex filters orders = .ok p)
    (w : World Q K X V) (att : Option V)
    (hlaw : (∃ k ∈ filters, k.col = c.addTo) → (∃ k ∈ filters, k.col = c.attach) → AttachLaw c ex w filters att) :
    ∃ b, returned c w p = some b ∧ (b = true ↔ Matches ex w filters) := by
  obtain ⟨hvoid, hkeys⟩ := new_ok hf ho h
  cases hv : p.void with
  | true =>
    refine ⟨false, by rw [returned, if_pos hv], ?_⟩
    obtain ⟨k, hk, hs⟩ := hvoid.1 hv
    simp only [Bool.false_eq_true, false_iff]
    exact fun hm => hs (hm k hk).1
  | false =>
    obtain ⟨ks, L, h1, h2, h3, _⟩ := hkeys hv
    have hsat : ∀ k ∈ filters, Satisfiable ex k := by
      intro k hk
      by_contra hs
      have := hvoid.2 ⟨k, hk, hs⟩
      simp [hv] at this
    -- membership
    have hmem : ∀ q, q ∈ p.keys.map pess ↔ q ∈ (regroup c ks).map pess := by intro q; rw [h1]
    have hks : ∀ k ∈ ks, k.orderBy = false → (filters = [] ∧ ess k = everyEss) ∨ ∃ i ∈ filters, ess k = filterEss ex i := by
      intro k hk hob
      have := List.mem_map_of_mem (f := ess) hk
      rw [h2] at this
      rcases List.mem_append.1 this with this | this
      · split at this
        next hnil => exact .inl ⟨hnil, List.mem_singleton.1 this⟩
        next hne =>
          obtain ⟨i, hi, e⟩ := List.mem_map.1 this
          exact .inr ⟨i, hi, e.symm⟩
      · obtain ⟨k', hk', e⟩ := List.mem_map.1 this
        have : k'.orderBy = k.orderBy := congrArg (fun x => x.2.2.1) e
        rw [h3 k' hk', hob] at this
        cases this
    have hfilt : ∀ i ∈ filters, ∃ k ∈ ks, ess k = filterEss ex i := by
      intro i hi
      have hne : filters ≠ [] := List.ne_nil_of_mem hi
      have : filterEss ex i ∈ ks.map ess := by
        rw [h2, if_neg hne]
        exact List.mem_append_left _ (List.mem_map_of_mem hi)
      obtain ⟨k, hk, e⟩ := List.mem_map.1 this
      exact ⟨k, hk, e⟩
    have hfields : ∀ {k : Key Q K X} {i : InKey Q}, ess k = filterEss ex i → k.core = coreOf ex i ∧ k.col = i.col ∧ k.orderBy = false ∧
        k.entries.map (·.core) = entriesOf ex i := by
      intro k i e
      exact ⟨congrArg Prod.fst e, congrArg (fun x => x.2.1) e, congrArg (fun x => x.2.2.1) e, congrArg (fun x => x.2.2.2) e⟩
    have hmode : ∀ i : InKey Q, (coreOf ex i).mode ≠ 3 := by
      intro i
      show (if _ then _ else _) ≠ (3 : Int)
      split <;> omega
    have hon_iff : ∀ {k : Key Q K X} {i : InKey Q}, ess k = filterEss ex i → (isOn c k = true ↔ i.col = c.attach) := by
      intro k i e
      obtain ⟨e1, e2, e3, _⟩ := hfields e
      simp [isOn, e3, e1, coreOf]
    have hto_iff : ∀ {k : Key Q K X} {i : InKey Q}, ess k = filterEss ex i → (isTo c k = true ↔ i.col = c.addTo) := by
      intro k i e
      obtain ⟨e1, e2, e3, _⟩ := hfields e
      simp [isTo, e3, e1, coreOf]
    -- the two cases of regrouping
    have key : (∀ q ∈ regroup c ks, q.key.orderBy = false → consistentE c w (pess q) ≠ none) ∧
        ((∀ q ∈ regroup c ks, q.key.orderBy = false → consistentE c w (pess q) = some true) ↔ Matches ex w filters) := by
      by_cases hg : ks.any (isTo c) = true ∧ ks.any (isOn c) = true
      · -- grouped
        have hreg : regroup c ks = regroupGo c (ks.filter (isOn c)) false ks := by rw [regroup, if_pos hg]
        rw [hreg]
        obtain ⟨k1, hk1, hto1⟩ := List.any_eq_true.1 hg.1
        obtain ⟨k2, hk2, hon2⟩ := List.any_eq_true.1 hg.2
        have hob1 : k1.orderBy = false := by simp only [isTo, Bool.and_eq_true, beq_iff_eq] at hto1; exact hto1.1
        have hob2 : k2.orderBy = false := by simp only [isOn, Bool.and_eq_true, beq_iff_eq] at hon2; exact hon2.1
        have hne : filters ≠ [] := by
          intro hnil
          have e1 : ess k1 = everyEss := by
            rcases hks k1 hk1 hob1 with h | ⟨i, hi, _⟩
            · exact h.2
            · rw [hnil] at hi; cases hi
          have e2 : ess k2 = everyEss := by
            rcases hks k2 hk2 hob2 with h | ⟨i, hi, _⟩
            · exact h.2
            · rw [hnil] at hi; cases hi
          have c1 : k1.core = k2.core := by rw [show k1.core = (ess k1).1 from rfl, e1, ← e2]; rfl
          simp only [isTo, isOn, Bool.and_eq_true, beq_iff_eq] at hto1 hon2
          rw [c1, hon2.2] at hto1
          exact hc hto1.2
        have hks' : ∀ k ∈ ks, k.orderBy = false → ∃ i ∈ filters, ess k = filterEss ex i := by
          intro k hk hob
          rcases hks k hk hob with h | h
          · exact absurd h.1 hne
          · exact h
        obtain ⟨i1, hi1, e1⟩ := hks' k1 hk1 hob1
        obtain ⟨i2, hi2, e2⟩ := hks' k2 hk2 hob2
        have law := hlaw ⟨i1, hi1, (hto_iff e1).1 hto1⟩ ⟨i2, hi2, (hon_iff e2).1 hon2⟩
        obtain ⟨f, hf1, _⟩ := law.decide i2 hi2 ((hon_iff e2).1 hon2)
        -- the sub-entries
        have hsub : ∀ e ∈ ((ks.filter (isOn c)).map ess).flatMap (fun x => x.2.2.2), e.col = c.attach := by
          intro e he
          obtain ⟨x, hx, he⟩ := List.mem_flatMap.1 he
          obtain ⟨k, hk, rfl⟩ := List.mem_map.1 hx
          obtain ⟨hk, hon⟩ := List.mem_filter.1 hk
          have hob : k.orderBy = false := by simp only [isOn, Bool.and_eq_true, beq_iff_eq] at hon; exact hon.1
          obtain ⟨i, hi, ei⟩ := hks' k hk hob
          rw [ei] at he
          rw [entriesOf_col ex i e he]
          exact (hon_iff ei).1 hon
        have hsubs : ∀ v, (∀ e ∈ ((ks.filter (isOn c)).map ess).flatMap (fun x => x.2.2.2), f e.key v e.strategy e.extra = 0) ↔
            ∀ i ∈ filters, i.col = c.attach → ∀ e ∈ entriesOf ex i, f e.key v e.strategy e.extra = 0 := by
          intro v
          constructor
          · intro hall i hi hcol e he
            obtain ⟨k, hk, ek⟩ := hfilt i hi
            refine hall e (List.mem_flatMap.2 ⟨ess k, List.mem_map_of_mem (List.mem_filter.2 ⟨hk, (hon_iff ek).2 hcol⟩), ?_⟩)
            rw [ek]; exact he
          · intro hall e he
            obtain ⟨x, hx, he⟩ := List.mem_flatMap.1 he
            obtain ⟨k, hk, rfl⟩ := List.mem_map.1 hx
            obtain ⟨hk, hon⟩ := List.mem_filter.1 hk
            have hob : k.orderBy = false := by simp only [isOn, Bool.and_eq_true, beq_iff_eq] at hon; exact hon.1
            obtain ⟨i, hi, ei⟩ := hks' k hk hob
            rw [ei] at he
            exact hall i hi ((hon_iff ei).1 hon) e he
        have hdec : ∀ i ∈ filters, i.col = c.attach → (w.sat (coreOf ex i) = true ↔ ∃ v, att = some v ∧ ∀ e ∈ entriesOf ex i, f e.key v e.strategy e.extra = 0) := by
          intro i hi hcol
          obtain ⟨f', hf', hd⟩ := law.decide i hi hcol
          rw [hf1] at hf'
          cases hf'
          exact hd
        -- one key
        have hone : ∀ q ∈ regroupGo c (ks.filter (isOn c)) false ks, q.key.orderBy = false → ∃ i ∈ filters, ess q.key = filterEss ex i ∧
            consistentE c w (pess q) ≠ none ∧
            (consistentE c w (pess q) = some true ↔ w.sat (coreOf ex i) = true ∧ (q.subs = none ∨ ∃ v, att = some v ∧
              ∀ i ∈ filters, i.col = c.attach → ∀ e ∈ entriesOf ex i, f e.key v e.strategy e.extra = 0)) := by
          intro q hq hob
          obtain ⟨m1, m2, m3⟩ := regroupGo_mem c _ ks false q hq
          obtain ⟨i, hi, ei⟩ := hks' q.key m1 hob
          obtain ⟨a1, a2, a3, a4⟩ := hfields ei
          refine ⟨i, hi, ei, ?_⟩
          unfold consistentE
          simp only [pess, ei, filterEss]
          by_cases hs : w.sat (coreOf ex i) = true
          · rw [if_pos (.inr hs)]
            rcases m3 with m3 | ⟨m3, m4⟩
            · rw [m3]
              by_cases hcol : i.col = c.addTo
              · simp [hcol, hs]
              · simp [hcol, hs]
            · have hcol : i.col = c.addTo := (hto_iff ei).1 m4
              rw [m3, law.info i hi hcol hs]
              simp only [hcol, ne_eq, not_true, if_false, Option.map_some]
              cases hatt : att with
              | none => simp
              | some v =>
                obtain ⟨s1, s2⟩ := subCores_true w v c.attach f hf1 _ hsub
                refine ⟨s1, ?_⟩
                rw [s2, hsubs v]
                simp [hs]
          · rw [if_neg (by rintro (h | h); exacts [hmode i h, hs h])]
            simp [hs]
        refine ⟨fun q hq hob => (hone q hq hob).choose_spec.2.2.1, ?_⟩
        constructor
        · intro hall i hi
          refine ⟨hsat i hi, ?_⟩
          by_cases hcol : i.col = c.attach
          · obtain ⟨q, hq, hqs⟩ := regroupGo_given c (ks.filter (isOn c)) ks ⟨k1, hk1, hto1, by
              cases ho : isOn c k1 with
              | false => rfl
              | true =>
                exact absurd (((hon_iff e1).1 ho).symm.trans ((hto_iff e1).1 hto1)) hc⟩
            obtain ⟨m1, m2, m3⟩ := regroupGo_mem c _ ks false q hq
            have hqob : q.key.orderBy = false := by
              rcases m3 with m3 | ⟨_, m4⟩
              · rw [hqs] at m3; cases m3
              · simp only [isTo, Bool.and_eq_true, beq_iff_eq] at m4; exact m4.1
            obtain ⟨j, hj, ej, _, hcons⟩ := hone q hq hqob
            obtain ⟨_, hr⟩ := hcons.1 (hall q hq hqob)
            rcases hr with hr | ⟨v, hv, hz⟩
            · rw [hqs] at hr; cases hr
            · exact (hdec i hi hcol).2 ⟨v, hv, hz i hi hcol⟩
          · obtain ⟨k, hk, ek⟩ := hfilt i hi
            have hoff : isOn c k = false := by
              cases ho : isOn c k with
              | false => rfl
              | true => exact absurd ((hon_iff ek).1 ho) hcol
            obtain ⟨q, hq, rfl⟩ := regroupGo_keeps c (ks.filter (isOn c)) ks false k hk hoff
            have hqob : q.key.orderBy = false := (hfields ek).2.2.1
            obtain ⟨j, hj, ej, _, hcons⟩ := hone q hq hqob
            have : coreOf ex i = coreOf ex j := by rw [← (hfields ek).1, ← (hfields ej).1]
            rw [this]
            exact (hcons.1 (hall q hq hqob)).1
        · intro hm q hq hob
          obtain ⟨i, hi, ei, _, hcons⟩ := hone q hq hob
          refine hcons.2 ⟨(hm i hi).2, .inr ?_⟩
          have hcol2 := (hon_iff e2).1 hon2
          obtain ⟨v, hv, _⟩ := (hdec i2 hi2 hcol2).1 (hm i2 hi2).2
          refine ⟨v, hv, fun j hj hcol => ?_⟩
          obtain ⟨v', hv', hz⟩ := (hdec j hj hcol).1 (hm j hj).2
          rw [hv] at hv'
          cases hv'
          exact hz
      · -- not grouped
        have hreg : regroup c ks = ks.map (fun k => ⟨k, none⟩) := by rw [regroup, if_neg hg]
        rw [hreg]
        have hone : ∀ k ∈ ks, consistentE c w (pess ⟨k, none⟩) ≠ none ∧
            (consistentE c w (pess ⟨k, none⟩) = some true ↔ (k.core.mode = 3 ∨ w.sat k.core = true)) := by
          intro k hk
          have hE : consistentE c w (pess ⟨k, none⟩) = if k.core.mode = 3 ∨ w.sat k.core = true then some true else some false := by
            unfold consistentE
            show (if k.core.mode = 3 ∨ w.sat k.core = true then (if k.col ≠ c.addTo then some true else some true) else some false) = _
            rw [ite_self]
          rw [hE]
          by_cases hs : k.core.mode = 3 ∨ w.sat k.core = true
          · rw [if_pos hs]; simp [hs]
          · rw [if_neg hs]; simp [hs]
        constructor
        · intro q hq hob
          obtain ⟨k, hk, rfl⟩ := List.mem_map.1 hq
          exact (hone k hk).1
        · constructor
          · intro hall i hi
            obtain ⟨k, hk, ek⟩ := hfilt i hi
            obtain ⟨a1, a2, a3, a4⟩ := hfields ek
            have := (hone k hk).2.1 (hall ⟨k, none⟩ (List.mem_map_of_mem hk) a3)
            rw [a1] at this
            refine ⟨hsat i hi, ?_⟩
            rcases this with this | this
            · exact absurd this (hmode i)
            · exact this
          · intro hm q hq hob
            obtain ⟨k, hk, rfl⟩ := List.mem_map.1 hq
            refine (hone k hk).2.2 ?_
            rcases hks k hk hob with ⟨_, e⟩ | ⟨i, hi, e⟩
            · left
              rw [show k.core = (ess k).1 from rfl, e]; rfl
            · right
              rw [(hfields e).1]
              exact (hm i hi).2
    have hpk : ∀ q ∈ p.keys, ∃ q' ∈ regroup c ks, pess q' = pess q := by
      intro q hq
      have := (hmem (pess q)).1 (List.mem_map_of_mem hq)
      obtain ⟨q', h1, h2⟩ := List.mem_map.1 this
      exact ⟨q', h1, h2⟩
    have hpk' : ∀ q' ∈ regroup c ks, ∃ q ∈ p.keys, pess q = pess q' := by
      intro q hq
      have := (hmem (pess q)).2 (List.mem_map_of_mem hq)
      obtain ⟨q', h1, h2⟩ := List.mem_map.1 this
      exact ⟨q', h1, h2⟩
    have hpo : ∀ q q' : PKey Q K X, pess q = pess q' → q.key.orderBy = q'.key.orderBy := fun q q' e => congrArg (fun x => x.1.2.2.1) e
    have hno : ∀ q ∈ p.keys, q.key.orderBy = false → consistentE c w (pess q) ≠ none := by
      intro q hq hob
      obtain ⟨q', hq', e⟩ := hpk q hq
      rw [← e]
      exact key.1 q' hq' (by rw [hpo _ _ e, hob])
    refine ⟨_, by rw [returned, if_neg (by simp [hv]), allConsistent_eq c w _ hno], ?_⟩
    rw [← key.2, List.all_eq_true]
    constructor
    · intro hall q' hq' hob
      obtain ⟨q, hq, e⟩ := hpk' q' hq'
      have := hall q hq
      rw [hpo _ _ e, hob, Bool.false_or, beq_iff_eq, e] at this
      exact this
    · intro hall q hq
      obtain ⟨q', hq', e⟩ := hpk q hq
      cases hob : q.key.orderBy with
      | true => rfl
      | false =>
        rw [Bool.false_or, beq_iff_eq, ← e]
        exact hall q' hq' (by rw [hpo _ _ e, hob])

/-! ### Examples and violations -/

/-- An index on (text column 1, number column 2, number column 3, array column 4), the numbers of column 2 attached to column 1. Columns 2 and 3 have
btree-like operators and distances by key value; column 4 has neither partial match nor ordering. -/
def exCfg : Cfg where
  attach := 2
  addTo := 1
  alt := true
  canOrdering := fun c => c != 4
  nargs3 := fun c => c == 2 || c == 3
  canOuter := fun c => c == 2
  byval := fun c => c == 2 || c == 3
  canPartial := fun c => c != 4
  dirs := fun c => if c == 2 then [(21, -1), (22, 1)] else []

/-- Queries are lists of keys; the extra data is the operator's strategy. -/
def exExtract (k : InKey (List Nat)) : Extr Nat Nat := ⟨k.arg.map (fun a => (a, false)), none, some (fun _ => k.strategy), 0⟩

/-- A WHERE operator. -/
def wh (col strategy : Nat) (arg : List Nat) : InKey (List Nat) := ⟨col, strategy, false, false, arg⟩
/-- An ORDER BY operator. -/
def ob (col strategy : Nat) (arg : List Nat) : InKey (List Nat) := ⟨col, strategy, true, false, arg⟩
/-- The same operator with a NULL argument. -/
def nul (k : InKey (List Nat)) : InKey (List Nat) := { k with isNull := true }

/-- A row with text keys 10 and 11, number 7 attached, column 3 = 5, array {1, 2}: `=` is strategy 3, `<` strategy 1, overlap strategy 1. -/
def exWorld : World (List Nat) Nat Nat Nat where
  sat := fun c =>
    if c.colOrig = 1 then c.vals.all (fun v => v.1 == 10 || v.1 == 11)
    else if c.colOrig = 2 then (if c.strategy = 3 then c.vals.all (fun v => v.1 == 7) else c.vals.any (fun v => decide (7 < v.1)))
    else if c.colOrig = 3 then c.vals.all (fun v => v.1 == 5)
    else c.vals.any (fun v => v.1 == 1 || v.1 == 2)
  found := fun e => if e.col = 1 ∧ (e.key = some 10 ∨ e.key = some 11) then some (some 7) else none
  cmpPartial := fun c => if c = 4 then none else some (fun k v s _ => match k with
    | some a => if s = 3 then (if a = v then 0 else 1) else if v < a then 0 else 1
    | none => 1)

/-- `WHERE text @@ '10 & 11' AND number = 7 AND number < 9 AND col3 = 5 ORDER BY number <=> 4`. -/
def exFilters : List (InKey (List Nat)) := [wh 2 3 [7], wh 1 1 [10, 11], wh 2 1 [9], wh 3 3 [5]]

/-- The example satisfies the hypotheses of the theorems, setup succeeds, the operators on the attached column become additional-information keys, and
the row is returned. -/
theorem C38_witness :
    ((newScanKey exCfg exExtract exFilters [ob 2 20 [4]]).toOption.map (fun p =>
      (p.void, p.keys.map (fun k => (k.key.core.colOrig, k.key.orderBy, (k.subs.getD []).map (fun s => s.core.colOrig))), returned exCfg exWorld p))) =
      some (false, [(1, false, [2, 2]), (3, false, []), (2, true, [])], some true) ∧
    AttachLaw exCfg exExtract exWorld exFilters (some 7) ∧ Matches exExtract exWorld exFilters ∧ exCfg.attach ≠ exCfg.addTo := by
  refine ⟨by with_unfolding_all rfl, ⟨?_, ?_⟩, ?_, by decide⟩
  · intro k hk h
    simp only [exFilters, List.mem_cons, List.not_mem_nil, or_false] at hk
    rcases hk with rfl | rfl | rfl | rfl
    · exact absurd h (by decide)
    · intro _; decide
    · exact absurd h (by decide)
    · exact absurd h (by decide)
  · intro k hk h
    refine ⟨_, rfl, ?_⟩
    simp only [exFilters, List.mem_cons, List.not_mem_nil, or_false] at hk
    rcases hk with rfl | rfl | rfl | rfl
    · exact iff_of_true (by decide) ⟨7, rfl, by decide⟩
    · exact absurd h (by decide)
    · exact iff_of_true (by decide) ⟨7, rfl, by decide⟩
    · exact absurd h (by decide)
  · intro k hk
    simp only [exFilters, List.mem_cons, List.not_mem_nil, or_false] at hk
    rcases hk with rfl | rfl | rfl | rfl <;> exact ⟨by decide, by decide⟩

/-- With a NULL argument the scan is void. -/
theorem C38_null_witness :
    ((newScanKey exCfg exExtract [wh 1 1 [10], nul (wh 3 3 [5])] []).toOption.map (fun p => (p.void, returned exCfg exWorld p))) =
      some (true, some false) := by decide +kernel

/-- **C38 fails for NULL with ORDER BY on the same column.** `WHERE col3 = NULL ORDER BY col3 <=> 4` must return no row; setup stops at the NULL operator,
the ORDER BY operator then finds no key to refer to, and the query fails with an error. -/
theorem C38_null_order_violated :
    newScanKey exCfg exExtract [nul (wh 3 3 [5])] [ob 3 20 [4]] = .error "cannot order without attribute in ORDER BY clause" := by rfl

/-- The same index with the array column attached instead. -/
def arrCfg : Cfg := { exCfg with attach := 4 }

/-- **C38 fails if the attached column has no partial-match function.** `WHERE text @@ '10' AND array && '{1}'`: the row satisfies both operators, but
deciding the second calls a function that was never set up. -/
theorem C38_no_function_violated :
    Matches exExtract exWorld [wh 1 1 [10], wh 4 1 [1]] ∧
    ((newScanKey arrCfg exExtract [wh 1 1 [10], wh 4 1 [1]] []).toOption.map (fun p => returned arrCfg exWorld p)) = some none := by
  refine ⟨?_, by decide +kernel⟩
  intro k hk
  simp only [List.mem_cons, List.not_mem_nil, or_false] at hk
  rcases hk with rfl | rfl <;> exact ⟨by decide, by decide⟩

/-- **C38 fails for attached queries with several keys.** The operator `number < any of (9, 3)` is satisfied by 7 through the key 9, but regrouped it is
decided as if all its keys had to match. -/
theorem C38_or_query_violated :
    Matches exExtract exWorld [wh 1 1 [10], wh 2 1 [9, 3]] ∧
    ((newScanKey exCfg exExtract [wh 1 1 [10], wh 2 1 [9, 3]] []).toOption.map (fun p => returned exCfg exWorld p)) = some (some false) := by
  refine ⟨?_, by decide +kernel⟩
  intro k hk
  simp only [List.mem_cons, List.not_mem_nil, or_false] at hk
  rcases hk with rfl | rfl <;> exact ⟨by decide, by decide⟩

end Rum.Props.ScanKeys

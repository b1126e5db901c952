import Verif.OrderVals
import Verif.Props.ScanKeys
import Verif.Props.Sort
/-!
# C48: the values rows are sorted by are the distances of the ORDER BY operators
-/
namespace Rum.Props.OrderVals
open Rum.ScanKeys Rum.OrderVals Rum.Sort Rum.Props.ScanKeys

variable {Q K X V D : Type}

/-! ### Specification -/

/-- The operator orders by the values of its own column, stored as index keys. -/
def ByKey (c : Cfg) (k : InKey Q) : Prop := k.col ≠ c.attach ∧ c.canOrdering k.col = true ∧ c.nargs3 k.col = true

instance (c : Cfg) (k : InKey Q) : Decidable (ByKey c k) := inferInstanceAs (Decidable (_ ∧ _ ∧ _))

/-- The distance an ORDER BY operator asks for: to the row's attached value `att`, to the row's value `val` in the operator's column (infinite for
NULL), or as computed from the entries of the operator's query. -/
def wanted (c : Cfg) (ex : InKey Q → Extr K X) (d : Dists Q K X V D) (w : RowWorld Q K X V) (att : Option V) (val : Nat → Option K) (k : InKey Q) : D :=
  if k.col = c.attach then (att.map (fun v => d.outer ((ex k).vals.head?.map (·.1)) v k.strategy)).getD d.inf
  else if ByKey c k then ((val k.col).map (fun x => d.byKey k.col x (some k.arg) k.strategy)).getD d.inf
  else d.own (coreOf ex k) ((entriesOf ex k).map w.world.found)

/-! ### The keys of the plan -/

/-- What matters of a key here. -/
def brief (k : Key Q K X) := (ess k, k.useAddTo, k.useCurKey, headFlag k, k.entries.length)

theorem markEntries_flag {m : Option K} {d : Int} : ∀ {es es' : List (Entry K X)}, markEntries m d es = .ok es' →
    es'.map (·.useCurKey) = es.map (·.useCurKey) := by
  intro es
  induction es with
  | nil => intro es' h; cases h; rfl
  | cons e es ih =>
    intro es' h
    simp only [markEntries] at h
    split at h
    · cases h
    · cases hr : markEntries m d es with
      | error e => rw [hr] at h; cases h
      | ok r => rw [hr] at h; cases h; rw [List.map_cons, List.map_cons, ih hr]

theorem headFlag_eq (k : Key Q K X) : headFlag k = ((k.entries.map (·.useCurKey)).head?).getD false := by
  unfold headFlag
  cases k.entries <;> rfl

theorem fillMark_brief {c : Cfg} {o : Key Q K X} : ∀ {ks : List (Key Q K X)} {n : Int} {r : List (Key Q K X) × Int},
    fillMark c o n ks = .ok r → r.1.map brief = ks.map brief := by
  intro ks
  induction ks with
  | nil => intro n r h; cases h; rfl
  | cons k ks ih =>
    intro n r h
    simp only [fillMark] at h
    split at h
    · split at h
      · cases h
      · cases hm : markEntries (o.core.vals.head?.map (·.1)) (lookupDir c o.core.colOrig o.core.strategy) k.entries with
        | error e => rw [hm] at h; cases h
        | ok es =>
          cases hr : fillMark c o (lookupDir c o.core.colOrig o.core.strategy) ks with
          | error e => rw [hm, hr] at h; cases h
          | ok r' =>
            rw [hm, hr] at h; cases h
            rw [List.map_cons, List.map_cons, ih hr]
            have hl : es.length = k.entries.length := by simpa using congrArg List.length (markEntries_core hm)
            simp only [brief, ess, markEntries_core hm, headFlag_eq, markEntries_flag hm, hl]
    · cases hr : fillMark c o n ks with
      | error e => rw [hr] at h; cases h
      | ok r' => rw [hr] at h; cases h; rw [List.map_cons, List.map_cons, ih hr]

theorem fillMarks_brief {c : Cfg} : ∀ {os ks : List (Key Q K X)} {n : Int} {r : List (Key Q K X) × Int},
    fillMarks c ks n os = .ok r → r.1.map brief = ks.map brief := by
  intro os
  induction os with
  | nil => intro ks n r h; cases h; rfl
  | cons o os ih =>
    intro ks n r h
    simp only [fillMarks] at h
    split at h
    · cases hr : fillMark c o n ks with
      | error e => rw [hr] at h; cases h
      | ok r' => rw [hr] at h; rw [ih h, fillMark_brief hr]
    · exact ih h

theorem adjust_brief {c : Cfg} {n : Int} : ∀ {ps ps' : List (PKey Q K X)}, adjust c n ps = .ok ps' →
    ps'.map (fun p => (brief p.key, p.key.willSort)) = ps.map (fun p => (brief p.key, p.key.willSort)) := by
  intro ps
  induction ps with
  | nil => intro ps' h; cases h; rfl
  | cons p ps ih =>
    intro ps' h
    simp only [adjust] at h
    split at h
    · split at h
      · cases h
      · cases hr : adjust c n ps with
        | error e => rw [hr] at h; cases h
        | ok r =>
          rw [hr] at h; cases h
          rw [List.map_cons, List.map_cons, ih hr]
          simp [brief, ess, headFlag, Function.comp_def]
    · cases hr : adjust c n ps with
      | error e => rw [hr] at h; cases h
      | ok r => rw [hr] at h; cases h; rw [List.map_cons, List.map_cons, ih hr]

theorem markFirst_brief (ps : List (PKey Q K X)) :
    (markFirst ps).map (fun p => (brief p.key, p.key.willSort)) = ps.map (fun p => (brief p.key, p.key.willSort)) := by
  cases ps with
  | nil => rfl
  | cons p ps =>
    simp only [markFirst, List.map_cons, brief, ess, headFlag]
    cases p.key.entries <;> rfl

theorem regroupGo_key (c : Cfg) (subs : List (Key Q K X)) : ∀ (ks : List (Key Q K X)) (given : Bool),
    (regroupGo c subs given ks).map (·.key) = ks.filter (fun k => !isOn c k) := by
  intro ks
  induction ks with
  | nil => intro _; rfl
  | cons k ks ih =>
    intro given
    simp only [regroupGo]
    split
    next h => rw [ih, List.filter_cons_of_neg (by simp [h])]
    next h =>
      rw [List.filter_cons_of_pos (by simpa using h)]
      split <;> rw [List.map_cons, ih]

/-- An ORDER BY operator and its key. -/
structure OKey (c : Cfg) (ex : InKey Q → Extr K X) (k : InKey Q) (o : Key Q K X) : Prop where
  core : o.core = coreOf ex k
  order : o.orderBy = true
  addTo : o.useAddTo = true ↔ k.col = c.attach
  byKey : o.useCurKey = true ↔ ByKey c k
  col : o.col = if k.col = c.attach then c.addTo else k.col
  entries : o.useAddTo = false → o.useCurKey = false → o.entries.map (·.core) = entriesOf ex k
  flag : headFlag o = false

/-- The keys during setup: filters `F`, then ORDER BY keys `O`. -/
structure Keys (F O : List (Key Q K X)) : Prop where
  filt : ∀ f ∈ F, f.orderBy = false ∧ f.useAddTo = false ∧ f.useCurKey = false
  order : ∀ o ∈ O, o.orderBy = true
  sound : ∀ f ∈ F, headFlag f = true → f.entries.length = 1 ∧ ∃ o ∈ O, o.useCurKey = true ∧ o.col = f.col
  complete : ∀ o ∈ O, o.useCurKey = true → ∃ f ∈ F, f.col = o.col ∧ headFlag f = true

theorem link_append {col : Nat} {O : List (Key Q K X)} (hO : ∀ o ∈ O, o.orderBy = true) : ∀ {F ks' : List (Key Q K X)}, linkCurKey col (F ++ O) = .ok ks' →
    ∃ F', ks' = F' ++ O ∧ F'.map ess = F.map ess ∧
      List.Forall₂ (fun f f' => f' = f ∨ (f' = markCurKey f ∧ f.col = col ∧ f.entries.length = 1 ∧ f.orderBy = false)) F F' ∧
      ∃ f ∈ F', f.col = col ∧ headFlag f = true := by
  intro F
  induction F with
  | nil =>
    intro ks' h
    exfalso
    rw [List.nil_append] at h
    induction O generalizing ks' with
    | nil => cases h
    | cons o O ih =>
      simp only [linkCurKey, hO o (by simp)] at h
      simp only [Bool.true_eq_false, false_and, if_false] at h
      cases hr : linkCurKey col O with
      | error e => rw [hr] at h; cases h
      | ok r => exact ih (fun o ho => hO o (List.mem_cons_of_mem _ ho)) hr
  | cons k F ih =>
    intro ks' h
    simp only [List.cons_append, linkCurKey] at h
    split at h
    next hk =>
      split at h
      · cases h
      split at h
      · cases h
      · cases h
        have hlen : k.entries.length = 1 := by omega
        refine ⟨markCurKey k :: F, rfl, by rw [List.map_cons, markCurKey_ess]; rfl, ?_, markCurKey k, by simp, hk.2, ?_⟩
        · refine .cons (.inr ⟨rfl, hk.2, hlen, hk.1⟩) ?_
          exact List.forall₂_same.2 (fun _ _ => .inl rfl)
        · match he : k.entries, hlen with
          | [e], _ => simp [headFlag, markCurKey, he]
    · cases hr : linkCurKey col (F ++ O) with
      | error e => rw [hr] at h; cases h
      | ok r =>
        rw [hr] at h; cases h
        obtain ⟨F', e, h1, h2, f, hf, h3⟩ := ih hr
        exact ⟨k :: F', by rw [e]; rfl, by rw [List.map_cons, List.map_cons, h1], .cons (.inl rfl) h2, f, List.mem_cons_of_mem _ hf, h3⟩

theorem userEntries_flag (c : Cfg) (col strategy : Nat) (mode : Int) (pm : Option (Nat → Bool)) (extra : Option (Nat → X)) :
    ∀ (vs : List (K × Bool)) (i : Nat) (es : List (Entry K X)), userEntries c col strategy mode pm extra i vs = .ok es → ∀ e ∈ es, e.useCurKey = false := by
  intro vs
  induction vs with
  | nil => intro i es h; simp only [userEntries, Except.ok.injEq] at h; subst h; simp
  | cons v vs ih =>
    intro i es h
    obtain ⟨k, null⟩ := v
    simp only [userEntries] at h
    split at h
    · cases h
    · cases hr : userEntries c col strategy mode pm extra (i + 1) vs with
      | error e => rw [hr] at h; cases h
      | ok r =>
        rw [hr] at h
        simp only [bind, Except.bind, Except.ok.injEq] at h
        subst h
        intro e he
        rcases List.mem_cons.1 he with rfl | he
        · rfl
        · exact ih _ _ hr e he

theorem hiddenEntry_flag {col : Nat} {mode : Int} {es : List (Entry K X)} (h : hiddenEntry col mode = .ok es) : ∀ e ∈ es, e.useCurKey = false := by
  unfold hiddenEntry at h
  split at h
  · cases h; simp
  split at h
  · cases h; simp [mkEntry]
  split at h
  · cases h; simp [mkEntry]
  · cases h

theorem headFlag_false {k : Key Q K X} (h : ∀ e ∈ k.entries, e.useCurKey = false) : headFlag k = false := by
  unfold headFlag
  cases he : k.entries with
  | nil => rfl
  | cons e es => simp [h e (by simp [he])]

theorem fill_filter {c : Cfg} {st st' : St Q K X} {col strategy mode query vals pm extra}
    (h : fillKey c st col strategy mode query vals pm extra false = .ok st') :
    st'.willSort = st.willSort ∧ ∃ k : Key Q K X, st'.keys = st.keys ++ [k] ∧ k.orderBy = false ∧ k.useAddTo = false ∧ k.useCurKey = false ∧ headFlag k = false := by
  unfold fillKey at h
  simp only [Bool.false_eq_true, false_and, if_false] at h
  cases hu : userEntries c col strategy mode pm extra 0 vals with
  | error e => rw [hu] at h; cases h
  | ok us =>
    cases hh : (hiddenEntry col mode : Except String (List (Entry K X))) with
    | error e => rw [hu, hh] at h; cases h
    | ok hs =>
      rw [hu, hh] at h
      cases h
      refine ⟨rfl, _, rfl, rfl, rfl, rfl, headFlag_false ?_⟩
      intro e he
      rcases List.mem_append.1 he with he | he
      · exact userEntries_flag c col strategy mode pm extra vals 0 us hu e he
      · exact hiddenEntry_flag hh e he

theorem Keys.snoc {F O : List (Key Q K X)} (h : Keys F O) {o : Key Q K X} (ho : o.orderBy = true) (hc : o.useCurKey = false) : Keys F (O ++ [o]) where
  filt := h.filt
  order := by
    intro k hk
    rcases List.mem_append.1 hk with hk | hk
    · exact h.order k hk
    · obtain rfl := List.mem_singleton.1 hk; exact ho
  sound := by
    intro f hf hh
    obtain ⟨h1, o', h2, h3⟩ := h.sound f hf hh
    exact ⟨h1, o', List.mem_append_left _ h2, h3⟩
  complete := by
    intro k hk hu
    rcases List.mem_append.1 hk with hk | hk
    · exact h.complete k hk hu
    · obtain rfl := List.mem_singleton.1 hk
      rw [hc] at hu; cases hu

theorem Keys.link {F F' O : List (Key Q K X)} (h : Keys F O) {o : Key Q K X} (ho : o.orderBy = true) (hc : o.useCurKey = true)
    (h2 : List.Forall₂ (fun f f' => f' = f ∨ (f' = markCurKey f ∧ f.col = o.col ∧ f.entries.length = 1 ∧ f.orderBy = false)) F F')
    (hex : ∃ f ∈ F', f.col = o.col ∧ headFlag f = true) : Keys F' (O ++ [o]) := by
  have hback : ∀ f' ∈ F', ∃ f ∈ F, f' = f ∨ (f' = markCurKey f ∧ f.col = o.col ∧ f.entries.length = 1 ∧ f.orderBy = false) := by
    intro f' hf'
    obtain ⟨i, hi⟩ := List.mem_iff_getElem?.1 hf'
    have hl := h2.length_eq
    have hlt : i < F'.length := by
      by_contra hn
      rw [List.getElem?_eq_none (by omega)] at hi; cases hi
    have := (List.forall₂_iff_get.1 h2).2 i (by omega) hlt
    rw [List.getElem?_eq_getElem hlt] at hi
    cases hi
    exact ⟨_, List.get_mem F ⟨i, by omega⟩, by simpa using this⟩
  have hforth : ∀ f ∈ F, headFlag f = true → ∃ f' ∈ F', f'.col = f.col ∧ headFlag f' = true := by
    intro f hf hh
    obtain ⟨i, hi⟩ := List.mem_iff_getElem?.1 hf
    have hl := h2.length_eq
    have hlt : i < F.length := by
      by_contra hn
      rw [List.getElem?_eq_none (by omega)] at hi; cases hi
    have := (List.forall₂_iff_get.1 h2).2 i hlt (by omega)
    rw [List.getElem?_eq_getElem hlt] at hi
    cases hi
    refine ⟨_, List.get_mem F' ⟨i, by omega⟩, ?_⟩
    simp only [List.get_eq_getElem] at this ⊢
    rcases this with e | ⟨e, hcol, hlen, _⟩
    · rw [e]; exact ⟨rfl, hh⟩
    · rw [e]
      refine ⟨rfl, ?_⟩
      match he : F[i].entries, hlen with
      | [e], _ => simp [headFlag, markCurKey, he]
  refine ⟨?_, ?_, ?_, ?_⟩
  · intro f' hf'
    obtain ⟨f, hf, e | ⟨e, _⟩⟩ := hback f' hf'
    · rw [e]; exact h.filt f hf
    · rw [e]; exact h.filt f hf
  · intro k hk
    rcases List.mem_append.1 hk with hk | hk
    · exact h.order k hk
    · obtain rfl := List.mem_singleton.1 hk; exact ho
  · intro f' hf' hh
    obtain ⟨f, hf, e | ⟨e, hcol, hlen, _⟩⟩ := hback f' hf'
    · rw [e] at hh ⊢
      obtain ⟨h1, o', h2, h3⟩ := h.sound f hf hh
      exact ⟨h1, o', List.mem_append_left _ h2, h3⟩
    · rw [e]
      refine ⟨?_, o, by simp, hc, hcol.symm⟩
      match he : f.entries, hlen with
      | [e], _ => simp [markCurKey, he]
  · intro k hk hu
    rcases List.mem_append.1 hk with hk | hk
    · obtain ⟨f, hf, h1, h2⟩ := h.complete k hk hu
      obtain ⟨f', hf', h3, h4⟩ := hforth f hf h2
      exact ⟨f', hf', by rw [h3, h1], h4⟩
    · obtain rfl := List.mem_singleton.1 hk
      exact hex

theorem fill_order {c : Cfg} {ex : InKey Q → Extr K X} {k : InKey Q} {st st' : St Q K X} {F O : List (Key Q K X)} (hk : st.keys = F ++ O) (hK : Keys F O)
    (h : fillKey c st k.col k.strategy (coreOf ex k).mode (some k.arg) (ex k).vals (ex k).pm (ex k).extra true = .ok st') :
    ∃ F' o, st'.keys = F' ++ (O ++ [o]) ∧ F'.map ess = F.map ess ∧ Keys F' (O ++ [o]) ∧ OKey c ex k o ∧
      ((o.useAddTo = true ∨ o.useCurKey = true) → st'.willSort = true) ∧ (st.willSort = true → st'.willSort = true) := by
  unfold fillKey at h
  simp only [Bool.true_and, true_and] at h
  generalize hn : (ex k).vals.length + (if (coreOf ex k).mode = 0 then 0 else 1) = n at h
  split at h
  next hsp =>
    split at h
    · cases h
    split at h
    · cases h
    split at h
    next hat =>
      split at h
      · cases h
      · cases h
        refine ⟨F, _, (congrArg (· ++ [_]) hk).trans (List.append_assoc F O [_]), rfl, hK.snoc rfl rfl, ⟨rfl, rfl, ?_, ?_, ?_, ?_, rfl⟩, fun _ => rfl, fun _ => rfl⟩
        · simp [hat]
        · simp [ByKey, hat]
        · simp [hat]
        · simp
    next hat =>
      have hcur := hsp.resolve_left hat
      simp only [bne_iff_ne, ne_eq, Bool.and_eq_true] at hcur
      cases hl : linkCurKey k.col st.keys with
      | error e => rw [hl] at h; cases h
      | ok ks =>
        rw [hl] at h; cases h
        rw [hk] at hl
        obtain ⟨F', e, h1, h2, h3⟩ := link_append hK.order hl
        refine ⟨F', _, (congrArg (· ++ [_]) e).trans (List.append_assoc F' O [_]), h1, hK.link rfl rfl h2 h3, ⟨rfl, rfl, ?_, ?_, ?_, ?_, rfl⟩, fun _ => rfl, fun _ => rfl⟩
        · simp [hat]
        · simp [ByKey, hat, hcur.1.2, hcur.2]
        · simp [hat]
        · simp
  next hsp =>
    split at h
    · cases h
    next hco =>
      cases hu : userEntries c k.col k.strategy (coreOf ex k).mode (ex k).pm (ex k).extra 0 (ex k).vals with
      | error e => rw [hu] at h; cases h
      | ok us =>
        cases hh : (hiddenEntry k.col (coreOf ex k).mode : Except String (List (Entry K X))) with
        | error e => rw [hu, hh] at h; cases h
        | ok hs =>
          rw [hu, hh] at h
          cases h
          have hflag : ∀ e ∈ us ++ hs, e.useCurKey = false := by
            intro e he
            rcases List.mem_append.1 he with he | he
            · exact userEntries_flag _ _ _ _ _ _ _ _ us hu e he
            · exact hiddenEntry_flag hh e he
          have hat : k.col ≠ c.attach := fun e => hsp (.inl e)
          refine ⟨F, _, (congrArg (· ++ [_]) hk).trans (List.append_assoc F O [_]), rfl, hK.snoc rfl rfl, ⟨rfl, rfl, ?_, ?_, ?_, ?_, headFlag_false hflag⟩, ?_, fun h => h⟩
          · simp [hat]
          · constructor
            · intro h; cases h
            · intro hb
              exact absurd (.inr (by simp [hb.1, hb.2.1, hb.2.2])) hsp
          · simp [hat]
          · intro _ _
            have e1 := userEntries_ok _ _ _ _ _ _ _ _ us hu
            have e2 := hiddenEntry_ok hh
            simp only [Nat.zero_add] at e1
            rw [List.map_append, e1, e2]
            rfl
          · rintro (h | h) <;> cases h

theorem init_filters {c : Cfg} {ex : InKey Q → Extr K X} :
    ∀ (fs : List (InKey Q)) (st st' : St Q K X), (∀ k ∈ fs, k.orderBy = false) → Keys st.keys [] → initFilters c ex st fs = .ok st' → Keys st'.keys [] := by
  intro fs
  induction fs with
  | nil => intro st st' _ hK h; cases h; exact hK
  | cons k fs ih =>
    intro st st' ho hK h
    have hok : k.orderBy = false := ho k (by simp)
    simp only [initFilters] at h
    have hstep : ∀ st1, initScanKey c ex st k = .ok st1 → Keys st1.keys [] := by
      intro st1 h1
      by_cases hs : Satisfiable ex k
      · rw [init_fill hs, hok] at h1
        obtain ⟨_, k', e, h2, h3, h4, h5⟩ := fill_filter h1
        rw [e]
        refine ⟨?_, by simp, ?_, by simp⟩
        · intro f hf
          rcases List.mem_append.1 hf with hf | hf
          · exact hK.filt f hf
          · obtain rfl := List.mem_singleton.1 hf; exact ⟨h2, h3, h4⟩
        · intro f hf hh
          rcases List.mem_append.1 hf with hf | hf
          · exact hK.sound f hf hh
          · obtain rfl := List.mem_singleton.1 hf; rw [h5] at hh; cases hh
      · rw [init_void hs] at h1
        cases h1; exact hK
    cases h1 : initScanKey c ex st k with
    | error e => rw [h1] at h; cases h
    | ok st1 =>
      rw [h1] at h
      simp only [bind, Except.bind] at h
      split at h
      · cases h; exact hstep _ h1
      · exact ih st1 st' (fun k hk => ho k (List.mem_cons_of_mem _ hk)) (hstep _ h1) h

theorem init_orders {c : Cfg} {ex : InKey Q → Extr K X} :
    ∀ (os l : List (InKey Q)) (st st' : St Q K X) (F O : List (Key Q K X)), (∀ k ∈ os, k.orderBy = true) → st.keys = F ++ O → Keys F O →
      List.Forall₂ (OKey c ex) l O → ((∃ o ∈ O, o.useAddTo = true ∨ o.useCurKey = true) → st.willSort = true) → initOrders c ex st os = .ok st' →
      ∃ F' O', st'.keys = F' ++ O' ∧ F'.map ess = F.map ess ∧ Keys F' O' ∧
        List.Forall₂ (OKey c ex) (l ++ os.filter (fun k => decide (Satisfiable ex k))) O' ∧
        ((∃ o ∈ O', o.useAddTo = true ∨ o.useCurKey = true) → st'.willSort = true) := by
  intro os
  induction os with
  | nil =>
    intro l st st' F O _ hk hK hO hw h
    cases h
    exact ⟨F, O, hk, rfl, hK, by simpa using hO, hw⟩
  | cons k os ih =>
    intro l st st' F O ho hk hK hO hw h
    have hok : k.orderBy = true := ho k (by simp)
    simp only [initOrders] at h
    by_cases hs : Satisfiable ex k
    · rw [init_fill hs, hok] at h
      cases hf : fillKey c st k.col k.strategy (coreOf ex k).mode (some k.arg) (ex k).vals (ex k).pm (ex k).extra true with
      | error e => rw [hf] at h; cases h
      | ok st1 =>
        rw [hf] at h
        obtain ⟨F1, o, e1, e2, e3, e4, e5, e6⟩ := fill_order hk hK hf
        obtain ⟨F', O', g1, g2, g3, g4, g5⟩ := ih (l ++ [k]) st1 st' F1 (O ++ [o]) (fun k hk => ho k (List.mem_cons_of_mem _ hk)) e1 e3
          (List.rel_append hO (.cons e4 .nil)) (by
            rintro ⟨o', ho', h'⟩
            rcases List.mem_append.1 ho' with ho' | ho'
            · exact e6 (hw ⟨o', ho', h'⟩)
            · obtain rfl := List.mem_singleton.1 ho'; exact e5 h') h
        refine ⟨F', O', g1, by rw [g2, e2], g3, ?_, g5⟩
        rw [List.filter_cons_of_pos (by simpa using hs)]
        simpa using g4
    · rw [init_void hs] at h
      simp only [bind, Except.bind] at h
      rw [List.filter_cons_of_neg (by simpa using hs)]
      exact ih l _ st' F O (fun k hk => ho k (List.mem_cons_of_mem _ hk)) (by exact hk) hK hO (by exact hw) h

theorem OKey.congr {c : Cfg} {ex : InKey Q → Extr K X} {k : InKey Q} {o o' : Key Q K X} (e : brief o = brief o') (h : OKey c ex k o) : OKey c ex k o' := by
  simp only [brief, ess, Prod.mk.injEq] at e
  obtain ⟨⟨e1, e2, e3, e4⟩, e5, e6, e7, e8⟩ := e
  exact ⟨e1 ▸ h.core, e3 ▸ h.order, e5 ▸ h.addTo, e6 ▸ h.byKey, e2 ▸ h.col, by rw [← e5, ← e6, ← e4]; exact h.entries, e7 ▸ h.flag⟩

theorem okeys_congr {c : Cfg} {ex : InKey Q → Extr K X} {l : List (InKey Q)} {O : List (Key Q K X)} (h : List.Forall₂ (OKey c ex) l O) :
    ∀ {O' : List (Key Q K X)}, O.map brief = O'.map brief → List.Forall₂ (OKey c ex) l O' := by
  induction h with
  | nil =>
    intro O' e
    have : O' = [] := List.map_eq_nil_iff.1 e.symm
    rw [this]; exact .nil
  | cons hk _ ih =>
    intro O' e
    match O', e with
    | [], e => cases e
    | o' :: O', e =>
      rw [List.map_cons, List.map_cons, List.cons.injEq] at e
      exact .cons (hk.congr e.1) (ih e.2)

theorem mem_brief {F F' : List (Key Q K X)} (e : F.map brief = F'.map brief) {f : Key Q K X} (h : f ∈ F) : ∃ f' ∈ F', brief f' = brief f := by
  have := List.mem_map_of_mem (f := brief) h
  rw [e] at this
  obtain ⟨f', h1, h2⟩ := List.mem_map.1 this
  exact ⟨f', h1, h2⟩

theorem Keys.congr {F F' O O' : List (Key Q K X)} (h : Keys F O) (e1 : F.map brief = F'.map brief) (e2 : O.map brief = O'.map brief) : Keys F' O' := by
  refine ⟨?_, ?_, ?_, ?_⟩
  · intro f hf
    obtain ⟨f', h1, e⟩ := mem_brief e1.symm hf
    have := h.filt f' h1
    simp only [brief, ess, Prod.mk.injEq] at e
    obtain ⟨⟨_, _, e3, _⟩, e5, e6, _, _⟩ := e
    rw [← e3, ← e5, ← e6]; exact this
  · intro f hf
    obtain ⟨f', h1, e⟩ := mem_brief e2.symm hf
    have := h.order f' h1
    simp only [brief, ess, Prod.mk.injEq] at e
    rw [← e.1.2.2.1]; exact this
  · intro f hf hh
    obtain ⟨f', h1, e⟩ := mem_brief e1.symm hf
    simp only [brief, ess, Prod.mk.injEq] at e
    obtain ⟨⟨_, e2', e3, _⟩, e5, e6, e7, e8⟩ := e
    rw [← e7] at hh
    obtain ⟨g1, o, g2, g3, g4⟩ := h.sound f' h1 hh
    obtain ⟨o', g5, g6⟩ := mem_brief e2 g2
    simp only [brief, ess, Prod.mk.injEq] at g6
    exact ⟨e8 ▸ g1, o', g5, by rw [g6.2.2.1, g3], by rw [g6.1.2.1, g4, e2']⟩
  · intro o ho hu
    obtain ⟨o', h1, e⟩ := mem_brief e2.symm ho
    simp only [brief, ess, Prod.mk.injEq] at e
    rw [← e.2.2.1] at hu
    obtain ⟨f, g1, g2, g3⟩ := h.complete o' h1 hu
    obtain ⟨f', g4, g5⟩ := mem_brief e1 g1
    simp only [brief, ess, Prod.mk.injEq] at g5
    exact ⟨f', g4, by rw [g5.1.2.1, g2, e.1.2.1], by rw [g5.2.2.2.1, g3]⟩

/-- The keys of a plan that is not void. -/
theorem plan_keys {c : Cfg} {ex : InKey Q → Extr K X} {filters orders : List (InKey Q)} {p : Plan Q K X} (hf : ∀ k ∈ filters, k.orderBy = false)
    (ho : ∀ k ∈ orders, k.orderBy = true) (h : newScanKey c ex filters orders = .ok p) (hv : p.void = false) :
    ∃ PF PO : List (PKey Q K X), p.keys = PF ++ PO ∧ Keys (PF.map (·.key)) (PO.map (·.key)) ∧
      List.Forall₂ (OKey c ex) (orders.filter (fun k => decide (Satisfiable ex k))) (PO.map (·.key)) ∧
      (∀ q ∈ PF, ess q.key = everyEss ∧ filters = [] ∨ ∃ k ∈ filters, ess q.key = filterEss ex k) ∧
      (∀ k ∈ filters, k.col ≠ c.attach → ∃ q ∈ PF, ess q.key = filterEss ex k) ∧
      (filters = [] → c.attach ≠ 1 → ∃ q ∈ PF, ess q.key = everyEss) ∧
      ((∃ o ∈ PO, o.key.useAddTo = true ∨ o.key.useCurKey = true) → p.willSort = true ∧ ∀ q ∈ PF, q.key.willSort = true) := by
  have hnew := h
  unfold newScanKey at h
  cases h1 : initFilters c ex ⟨[], false, false⟩ filters with
  | error e => rw [h1] at h; cases h
  | ok st1 =>
    obtain ⟨f1, f2⟩ := initFilters_ok filters _ st1 hf rfl h1
    have f3 : Keys st1.keys [] := init_filters filters _ st1 hf ⟨by simp, by simp, by simp, by simp⟩ h1
    rw [h1] at h
    simp only [bind, Except.bind] at h
    cases h2 : addEvery c st1 with
    | error e => rw [h2] at h; cases h
    | ok st2 =>
      rw [h2] at h
      simp only at h
      cases h3 : initOrders c ex st2 orders with
      | error e => rw [h3] at h; cases h
      | ok st3 =>
        rw [h3] at h
        simp only at h
        cases h4 : fillMarks c st3.keys 0 st3.keys with
        | error e => rw [h4] at h; cases h
        | ok r =>
          rw [h4] at h
          simp only at h
          cases h5 : adjust c r.2 (regroup c (r.1.map (fun k => { k with willSort := st3.willSort }))) with
          | error e => rw [h5] at h; cases h
          | ok ps =>
            rw [h5] at h
            simp only [Except.ok.injEq] at h
            unfold addEvery at h2
            have hvoid : st2.void = st1.void := by
              split at h2
              · exact (fillKey_filter h2).1
              · cases h2; rfl
            obtain ⟨g1, _⟩ := initOrders_ok orders st2 st3 ho h3
            have hv1 : st1.void = false := by
              rw [← hvoid, ← g1]
              subst h
              exact hv
            -- the filter keys before ORDER BY keys are added
            have hk2 : Keys st2.keys [] ∧ st2.keys.map ess = (if filters = [] then [everyEss] else filters.map (filterEss ex)) := by
              have e2 := f2 hv1
              simp only [List.map_nil, List.nil_append] at e2
              by_cases hnil : filters = []
              · rw [hnil] at e2
                have hk : st1.keys = [] := by simpa using e2
                rw [hk, hv1] at h2
                simp only [List.isEmpty_nil, Bool.not_false, Bool.and_true, if_true] at h2
                rw [if_pos hnil]
                refine ⟨?_, by rw [(fillKey_filter h2).2, hk]; rfl⟩
                obtain ⟨_, k', e, a2, a3, a4, a5⟩ := fill_filter h2
                rw [e, hk]
                refine ⟨?_, by simp, ?_, by simp⟩
                · intro f hf
                  obtain rfl := List.mem_singleton.1 hf
                  exact ⟨a2, a3, a4⟩
                · intro f hf hh
                  obtain rfl := List.mem_singleton.1 hf
                  rw [a5] at hh; cases hh
              · have : st1.keys ≠ [] := by
                  intro hk
                  rw [hk] at e2
                  exact hnil (List.map_eq_nil_iff.1 e2.symm)
                rw [if_neg (by simp [this])] at h2
                cases h2
                rw [if_neg hnil]
                exact ⟨f3, e2⟩
            have hw2 : ((∃ o ∈ ([] : List (Key Q K X)), o.useAddTo = true ∨ o.useCurKey = true) → st2.willSort = true) := by rintro ⟨o, ho, _⟩; cases ho
            obtain ⟨F, O, k1, k2, k3, k4, k5⟩ := init_orders orders [] st2 st3 st2.keys [] ho (by simp) hk2.1 .nil hw2 h3
            rw [List.nil_append] at k4
            have e3 := fillMarks_brief h4
            rw [k1, List.map_append] at e3
            obtain ⟨F', O', r1, r2, r3⟩ := List.map_eq_append_iff.1 e3
            have hK' : Keys F' O' := k3.congr r2.symm r3.symm
            have hO' := okeys_congr k4 r3.symm
            have hes : ∀ {A B : List (Key Q K X)}, A.map brief = B.map brief → A.map ess = B.map ess := by
              intro A B e
              have := congrArg (List.map (·.1)) e
              simpa [List.map_map, Function.comp_def, brief] using this
            have hF' : F'.map ess = (if filters = [] then [everyEss] else filters.map (filterEss ex)) := by rw [hes r2, k2, hk2.2]
            -- the keys after regrouping
            let sw : Key Q K X → Key Q K X := fun k => { k with willSort := st3.willSort }
            have hsw : ∀ A : List (Key Q K X), (A.map sw).map brief = A.map brief := fun A => by rw [List.map_map]; rfl
            have hkey : ∃ F2 : List (Key Q K X), (regroup c (r.1.map sw)).map (·.key) = F2.map sw ++ O'.map sw ∧ (∀ f ∈ F2, f ∈ F') ∧
                (∀ f ∈ F', isOn c f = false → f ∈ F2) := by
              unfold regroup
              split
              · rw [regroupGo_key, r1, List.map_append, List.filter_append]
                refine ⟨F'.filter (fun k => !isOn c k), ?_, fun f hf => List.mem_of_mem_filter hf, fun f hf ho => List.mem_filter.2 ⟨hf, by simp [ho]⟩⟩
                congr 1
                · rw [List.filter_map]; rfl
                · rw [List.filter_eq_self.2]
                  intro k hk
                  obtain ⟨k', hk', rfl⟩ := List.mem_map.1 hk
                  have := hK'.order k' hk'
                  simp [isOn, sw, this]
              · refine ⟨F', ?_, fun f hf => hf, fun f hf _ => hf⟩
                rw [List.map_map, r1]
                show List.map _ (List.map sw (F' ++ O')) = _
                rw [List.map_append, List.map_append, List.map_map, List.map_map]
                rfl
            obtain ⟨F2, q1, q2, q3⟩ := hkey
            have hps : p.keys.map (fun q => (brief q.key, q.key.willSort)) = (F2.map sw ++ O'.map sw).map (fun k => (brief k, k.willSort)) := by
              rw [← q1, List.map_map]
              have e5 := adjust_brief h5
              subst h
              show List.map _ (if _ then markFirst ps else ps) = _
              split
              · rw [markFirst_brief, e5]; rfl
              · rw [e5]; rfl
            rw [List.map_append] at hps
            obtain ⟨PF, PO, s1, s2, s3⟩ := List.map_eq_append_iff.1 hps
            have t2 : (PF.map (·.key)).map brief = F2.map brief := by
              rw [← hsw F2]
              have := congrArg (List.map (·.1)) s2
              simpa [List.map_map, Function.comp_def] using this
            have t3 : (PO.map (·.key)).map brief = O'.map brief := by
              rw [← hsw O']
              have := congrArg (List.map (·.1)) s3
              simpa [List.map_map, Function.comp_def] using this
            have hcols : ∀ f ∈ F', f.core.colOrig = f.col := by
              intro f hf
              have := List.mem_map_of_mem (f := ess) hf
              rw [hF'] at this
              split at this
              · obtain e := List.mem_singleton.1 this
                have e1 : f.core = _ := congrArg (·.1) e
                have e2 : f.col = _ := congrArg (·.2.1) e
                rw [e1, e2]; rfl
              · obtain ⟨k, _, e⟩ := List.mem_map.1 this
                have e1 : _ = f.core := congrArg (·.1) e
                have e2 : _ = f.col := congrArg (·.2.1) e
                rw [← e1, ← e2]; rfl
            have hK2 : Keys F2 O' := by
              refine ⟨fun f hf => hK'.filt f (q2 f hf), hK'.order, fun f hf => hK'.sound f (q2 f hf), ?_⟩
              intro o ho hu
              obtain ⟨f, g1, g2, g3⟩ := hK'.complete o ho hu
              refine ⟨f, q3 f g1 ?_, g2, g3⟩
              obtain ⟨i, hi⟩ := List.mem_iff_getElem?.1 ho
              have hlt : i < O'.length := by
                by_contra hn
                rw [List.getElem?_eq_none (by omega)] at hi; cases hi
              have hlen := hO'.length_eq
              have hk := (List.forall₂_iff_get.1 hO').2 i (by omega) hlt
              rw [List.getElem?_eq_getElem hlt] at hi
              cases hi
              simp only [List.get_eq_getElem] at hk
              have hb := hk.byKey.1 hu
              have hc := hk.col
              rw [if_neg hb.1] at hc
              simp only [isOn, hcols f g1, g2, hc]
              simp [hb.1]
            have hmem : ∀ q ∈ PF, ∃ f ∈ F2, brief f = brief q.key := by
              intro q hq
              exact mem_brief t2 (List.mem_map_of_mem hq)
            refine ⟨PF, PO, s1, hK2.congr t2.symm t3.symm, okeys_congr hO' t3.symm, ?_, ?_, ?_, ?_⟩
            · intro q hq
              obtain ⟨f, hf, e⟩ := hmem q hq
              have e : ess f = ess q.key := congrArg (·.1) e
              have := List.mem_map_of_mem (f := ess) (q2 f hf)
              rw [hF'] at this
              rw [← e]
              split at this
              next hnil => exact .inl ⟨List.mem_singleton.1 this, hnil⟩
              next hnil =>
                obtain ⟨k, hk, e'⟩ := List.mem_map.1 this
                exact .inr ⟨k, hk, e'.symm⟩
            · intro k hk hcol
              have : filterEss ex k ∈ F'.map ess := by
                rw [hF', if_neg (by rintro rfl; cases hk)]
                exact List.mem_map_of_mem hk
              obtain ⟨f, hf, e⟩ := List.mem_map.1 this
              have hon : isOn c f = false := by
                have e1 : f.core = _ := congrArg (·.1) e
                simp only [isOn, e1]
                simp [filterEss, coreOf, hcol]
              obtain ⟨q, hq, e'⟩ := mem_brief t2.symm (q3 f hf hon)
              obtain ⟨q', hq', rfl⟩ := List.mem_map.1 hq
              exact ⟨q', hq', by rw [← e]; exact congrArg (·.1) e'⟩
            · intro hnil hat
              have : everyEss ∈ F'.map ess := by rw [hF', if_pos hnil]; exact List.mem_singleton.2 rfl
              obtain ⟨f, hf, e⟩ := List.mem_map.1 this
              have hon : isOn c f = false := by
                have e1 : f.core = _ := congrArg (·.1) e
                simp only [isOn, e1]
                simp [everyEss, Ne.symm hat]
              obtain ⟨q, hq, e'⟩ := mem_brief t2.symm (q3 f hf hon)
              obtain ⟨q', hq', rfl⟩ := List.mem_map.1 hq
              exact ⟨q', hq', by rw [← e]; exact congrArg (·.1) e'⟩
            · rintro ⟨o, ho', hu⟩
              obtain ⟨o', ho'', e⟩ := mem_brief t3 (List.mem_map_of_mem ho')
              obtain ⟨o3, ho3, e3'⟩ := mem_brief r3 ho''
              have hu3 : o3.useAddTo = true ∨ o3.useCurKey = true := by
                simp only [brief, ess, Prod.mk.injEq] at e e3'
                rw [e3'.2.1, e3'.2.2.1, e.2.1, e.2.2.1]; exact hu
              have hw := k5 ⟨o3, ho3, hu3⟩
              refine ⟨by subst h; exact hw, ?_⟩
              intro q hq
              have := List.mem_map_of_mem (f := fun q : PKey Q K X => (brief q.key, q.key.willSort)) hq
              rw [s2] at this
              obtain ⟨k, hk, e⟩ := List.mem_map.1 this
              obtain ⟨k', _, rfl⟩ := List.mem_map.1 hk
              have : st3.willSort = q.key.willSort := congrArg (·.2) e
              rw [← this, hw]

/-! ### Copying the values -/

theorem spread_stop (c : Cfg) (w : RowWorld Q K X V) {nA nK n cA cK : Nat} (hA : ¬ cA < nA) (hK : ¬ cK < nK) (l : List (SKey Q K X V)) :
    spread c w nA nK n cA cK l = l := by
  cases n with
  | zero => rfl
  | succ n =>
    cases l with
    | nil => rfl
    | cons s l => rw [spread, if_neg (by omega)]

theorem spread_orders (c : Cfg) (w : RowWorld Q K X V) {nA nK cA cK : Nat} : ∀ (l : List (SKey Q K X V)) (n : Nat), (∀ s ∈ l, headFlag s.key = false) →
    (cA < nA → ∀ s ∈ l, ¬ (s.key.col = c.addTo ∧ s.outer.isSome = true)) → spread c w nA nK n cA cK l = l := by
  intro l
  induction l with
  | nil => intro n _ _; cases n <;> rfl
  | cons s l ih =>
    intro n h1 h2
    cases n with
    | zero => rfl
    | succ n =>
      rw [spread]
      split
      · rw [if_neg (fun h => h2 h.1 s (by simp) h.2), if_neg (by simp [h1 s (by simp)]),
          ih n (fun s hs => h1 s (List.mem_cons_of_mem _ hs)) (fun h s hs => h2 h s (List.mem_cons_of_mem _ hs))]
      · rfl

/-- Both copies. -/
def upd (att : Option V) (x : Option K) (a b : Bool) (s : SKey Q K X V) : SKey Q K X V :=
  let s1 := if a then giveOuter att s else s
  if b then giveCur x s1 else s1

theorem give_comm (v : Option V) (x : Option K) (s : SKey Q K X V) : giveOuter v (giveCur x s) = giveCur x (giveOuter v s) := by
  unfold giveOuter giveCur
  by_cases u1 : s.key.useCurKey = true <;> by_cases u2 : s.key.useAddTo = true ∧ s.outer.isNone = true
  · simp only [if_pos u1, if_pos u2]
  · simp only [if_pos u1, if_neg u2]
  · simp only [if_neg u1, if_pos u2]
  · simp only [if_neg u1, if_neg u2]

theorem spread_filters (c : Cfg) (w : RowWorld Q K X V) (att : Option V) (x : Option K) {nA nK : Nat} : ∀ (F : List (SKey Q K X V)) (O : List (SKey Q K X V)) (n cA cK : Nat),
    (∀ f ∈ F, f.key.useAddTo = false ∧ f.key.useCurKey = false ∧ (f.key.col = c.addTo → 0 < nA → f.outer = att ∧ headFlag f.key = false) ∧
      (headFlag f.key = true → headCur w f.key = x)) →
    (cA < nA → cA = 0 ∧ nA = O.countP (fun r => r.key.useAddTo && r.outer.isNone)) → (cK < nK → cK = 0 ∧ nK = O.countP (fun r => r.key.useCurKey)) →
    ∃ a b cA' cK' m, spread c w nA nK (F.length + n) cA cK (F ++ O) = F ++ spread c w nA nK m cA' cK' (O.map (upd att x a b)) ∧
      (a = true ↔ cA < nA ∧ ∃ f ∈ F, f.key.col = c.addTo ∧ f.outer.isSome = true) ∧ (b = true ↔ cK < nK ∧ ∃ f ∈ F, headFlag f.key = true) ∧
      (a = true → cA' = nA) ∧ (a = false → cA' = cA) := by
  intro F
  induction F with
  | nil =>
    intro O n cA cK _ _ _
    refine ⟨false, false, cA, cK, n, ?_, by simp, by simp, by simp, by simp⟩
    rw [List.length_nil, Nat.zero_add, List.nil_append, List.nil_append]
    congr 1
    rw [show (upd att x false false : SKey Q K X V → SKey Q K X V) = id from rfl, List.map_id]
  | cons f F ih =>
    intro O n cA cK hF hA hK
    have hF' : ∀ g ∈ F, _ := fun g hg => hF g (List.mem_cons_of_mem _ hg)
    obtain ⟨f1, f2, f3, f4⟩ := hF f (by simp)
    rw [show (f :: F).length + n = F.length + n + 1 by rw [List.length_cons]; omega, List.cons_append, spread]
    have hgo : ∀ v : Option V, (F ++ O).map (giveOuter v) = F ++ O.map (giveOuter v) := by
      intro v
      rw [List.map_append]
      congr 1
      conv_rhs => rw [← List.map_id F]
      apply List.map_congr_left
      intro g hg
      simp [giveOuter, (hF' g hg).1]
    have hgc : ∀ v : Option K, (F ++ O).map (giveCur v) = F ++ O.map (giveCur v) := by
      intro v
      rw [List.map_append]
      congr 1
      conv_rhs => rw [← List.map_id F]
      apply List.map_congr_left
      intro g hg
      simp [giveCur, (hF' g hg).2.1]
    by_cases hgo1 : cA < nA ∨ cK < nK
    · rw [if_pos hgo1]
      by_cases hp : cA < nA ∧ f.key.col = c.addTo ∧ f.outer.isSome = true
      · rw [if_pos hp]
        obtain ⟨e1, e2⟩ := f3 hp.2.1 (by omega)
        obtain ⟨hA1, hA2⟩ := hA hp.1
        have hcnt : cA + (F ++ O).countP (fun r => r.key.useAddTo && r.outer.isNone) = nA := by
          rw [List.countP_append, hA1, ← hA2, List.countP_eq_zero.2]
          · omega
          · intro g hg; simp [(hF' g hg).1]
        rw [hcnt, hgo, e1]
        obtain ⟨a, b, cA', cK', m, g1, g2, g3, g4, g5⟩ := ih (O.map (giveOuter att)) n nA cK hF' (fun h => absurd h (Nat.lt_irrefl _)) (by
          intro h
          obtain ⟨h1, h2⟩ := hK h
          refine ⟨h1, h2.trans ?_⟩
          rw [List.countP_map]
          apply List.countP_congr
          intro s _
          simp only [Function.comp, giveOuter]
          split <;> rfl)
        have ha : a = false := by
          cases a with
          | false => rfl
          | true => exact absurd (g2.1 rfl).1 (Nat.lt_irrefl _)
        subst ha
        refine ⟨true, b, cA', cK', m, ?_, ?_, ?_, fun _ => g5 rfl, fun h => by cases h⟩
        · rw [g1, List.cons_append, List.map_map]
          congr 4
        · simp only [true_iff]
          exact ⟨hp.1, f, by simp, hp.2⟩
        · rw [g3]
          constructor
          · rintro ⟨h, g, hg, h'⟩; exact ⟨h, g, List.mem_cons_of_mem _ hg, h'⟩
          · rintro ⟨h, g, hg, h'⟩
            rcases List.mem_cons.1 hg with rfl | hg
            · rw [e2] at h'; cases h'
            · exact ⟨h, g, hg, h'⟩
      · rw [if_neg hp]
        have hnp : (cA < nA ∧ ∃ g ∈ f :: F, g.key.col = c.addTo ∧ g.outer.isSome = true) ↔ (cA < nA ∧ ∃ g ∈ F, g.key.col = c.addTo ∧ g.outer.isSome = true) := by
          constructor
          · rintro ⟨h, g, hg, h'⟩
            rcases List.mem_cons.1 hg with rfl | hg
            · exact absurd ⟨h, h'⟩ hp
            · exact ⟨h, g, hg, h'⟩
          · rintro ⟨h, g, hg, h'⟩; exact ⟨h, g, List.mem_cons_of_mem _ hg, h'⟩
        by_cases hq : cK < nK ∧ headFlag f.key = true
        · rw [if_pos hq]
          obtain ⟨hK1, hK2⟩ := hK hq.1
          have hcnt : cK + (F ++ O).countP (fun r => r.key.useCurKey) = nK := by
            rw [List.countP_append, hK1, ← hK2, List.countP_eq_zero.2]
            · omega
            · intro g hg; simp [(hF' g hg).2.1]
          rw [hcnt, hgc, f4 hq.2]
          obtain ⟨a, b, cA', cK', m, g1, g2, g3, g4, g5⟩ := ih (O.map (giveCur x)) n cA nK hF' (by
            intro h
            obtain ⟨h1, h2⟩ := hA h
            refine ⟨h1, h2.trans ?_⟩
            rw [List.countP_map]
            apply List.countP_congr
            intro s _
            simp only [Function.comp, giveCur]
            split <;> rfl) (fun h => absurd h (Nat.lt_irrefl _))
          have hb : b = false := by
            cases b with
            | false => rfl
            | true => exact absurd (g3.1 rfl).1 (Nat.lt_irrefl _)
          subst hb
          refine ⟨a, true, cA', cK', m, ?_, by rw [g2, hnp], ?_, g4, g5⟩
          · rw [g1, List.cons_append, List.map_map]
            congr 4
            funext s
            simp only [Function.comp, upd, Bool.false_eq_true, if_false, if_true]
            cases a
            · rfl
            · exact give_comm _ _ s
          · simp only [true_iff]
            exact ⟨hq.1, f, by simp, hq.2⟩
        · rw [if_neg hq]
          obtain ⟨a, b, cA', cK', m, g1, g2, g3, g4, g5⟩ := ih O n cA cK hF' hA hK
          refine ⟨a, b, cA', cK', m, by rw [g1, List.cons_append], by rw [g2, hnp], ?_, g4, g5⟩
          rw [g3]
          constructor
          · rintro ⟨h, g, hg, h'⟩; exact ⟨h, g, List.mem_cons_of_mem _ hg, h'⟩
          · rintro ⟨h, g, hg, h'⟩
            rcases List.mem_cons.1 hg with rfl | hg
            · exact absurd ⟨h, h'⟩ hq
            · exact ⟨h, g, hg, h'⟩
    · rw [if_neg hgo1]
      refine ⟨false, false, cA, cK, 0, ?_, ?_, ?_, by simp, by simp⟩
      · rw [show (upd att x false false : SKey Q K X V → SKey Q K X V) = id from rfl, List.map_id]
        rfl
      · simp only [Bool.false_eq_true, false_iff]; intro h; omega
      · simp only [Bool.false_eq_true, false_iff]; intro h; omega

/-! ### The theorem -/

/-- What the recorded values rely on: the row's attached value `att` is stored under the entries of every WHERE operator on the column it is attached
to (and under those of the scan over everything), and a WHERE operator with a single entry stands on the row's value in its column. -/
structure RowLaw (c : Cfg) (ex : InKey Q → Extr K X) (w : RowWorld Q K X V) (filters : List (InKey Q)) (att : Option V) (val : Nat → Option K) : Prop where
  info : ∀ k ∈ filters, k.col = c.addTo → firstInfo w.world (entriesOf ex k) = att
  every : filters = [] → c.addTo = 1 → firstInfo w.world [⟨1, 0, 3, none, .emptyQuery, false, none⟩] = att
  value : ∀ k ∈ filters, ∀ e, entriesOf ex k = [e] → w.cur e = val k.col
  first : filters = [] → w.cur ⟨1, 0, 3, none, .emptyQuery, false, none⟩ = val 1

/-- The ORDER BY operators whose values get recorded right. -/
structure Plain (c : Cfg) (filters orders : List (InKey Q)) (att : Option V) : Prop where
  /-- An ORDER BY on the attached column comes with a WHERE on the column it is attached to (or there is no WHERE at all). -/
  carrier : (∃ k ∈ orders, k.col = c.attach) → (∃ k ∈ filters, k.col = c.addTo) ∨ filters = [] ∧ c.addTo = 1
  /-- Only one column is ordered by key value. -/
  same : ∀ k ∈ orders, ∀ k' ∈ orders, ByKey c k → ByKey c k' → k.col = k'.col
  /-- With an ORDER BY on the attached column, that is not the one it is attached to. -/
  apart : (∃ k ∈ orders, k.col = c.attach) → ∀ k ∈ orders, ByKey c k → k.col ≠ c.addTo
  /-- If the attached value is NULL, an ORDER BY on the attached column has none beside it on the column it is attached to. -/
  null : att = none → (∃ k ∈ orders, k.col = c.attach) → ∀ k ∈ orders, k.col ≠ c.addTo

theorem if_const_id {α : Type} {p : Prop} [Decidable p] (x : α) : (if p then x else x) = x := by split <;> rfl

theorem start_key (c : Cfg) (d : Dists Q K X V D) (w : RowWorld Q K X V) (p : PKey Q K X) : (start c d w p).key = p.key := rfl

theorem okey_of {c : Cfg} {ex : InKey Q → Extr K X} {SO : List (InKey Q)} {O : List (Key Q K X)} (h : List.Forall₂ (OKey c ex) SO O) :
    ∀ o ∈ O, ∃ k ∈ SO, OKey c ex k o := by
  induction h with
  | nil => intro o ho; cases ho
  | cons h _ ih =>
    intro o ho
    rcases List.mem_cons.1 ho with rfl | ho
    · exact ⟨_, by simp, h⟩
    · obtain ⟨k, hk, h⟩ := ih o ho
      exact ⟨k, List.mem_cons_of_mem _ hk, h⟩

/-- **C48, the values.** If scan setup succeeds and the scan is not void, then for every row whose index entries obey `RowLaw` the list of values handed
to the sort is, operator by operator, the distance each satisfiable ORDER BY operator asks for. Restricted to ORDER BY lists that are `Plain`:
each restriction is needed, see the violations below. -/
theorem C48_values_partial {c : Cfg} {ex : InKey Q → Extr K X} {d : Dists Q K X V D} {w : RowWorld Q K X V} {filters orders : List (InKey Q)} {p : Plan Q K X}
    {att : Option V} {val : Nat → Option K} (hc : c.attach ≠ c.addTo) (hf : ∀ k ∈ filters, k.orderBy = false) (ho : ∀ k ∈ orders, k.orderBy = true)
    (h : newScanKey c ex filters orders = .ok p) (hv : p.void = false) (law : RowLaw c ex w filters att val) (hp : Plain c filters orders att) :
    recorded c d w p = (orders.filter (fun k => decide (Satisfiable ex k))).map (wanted c ex d w att val) := by
  obtain ⟨PF, PO, e1, hK, hO, hPF, hkept, hevery, hsort⟩ := plan_keys hf ho h hv
  set SO := orders.filter (fun k => decide (Satisfiable ex k)) with hSO
  have hsub : ∀ k ∈ SO, k ∈ orders := fun k hk => List.mem_of_mem_filter hk
  let F := PF.map (start c d w)
  let O := PO.map (start c d w)
  have hok : ∀ s ∈ O, ∃ k ∈ SO, OKey c ex k s.key ∧ s.outer = (if s.key.useAddTo = true then none else some d.zeroV) := by
    intro s hs
    obtain ⟨q, hq, rfl⟩ := List.mem_map.1 hs
    obtain ⟨k, hk, hko⟩ := okey_of hO q.key (List.mem_map_of_mem hq)
    refine ⟨k, hk, hko, ?_⟩
    show (if _ then _ else _) = _
    rw [start_key]
    have : ¬ (q.key.orderBy = false ∧ q.key.col = c.addTo) := by rw [hko.order]; simp
    rw [if_neg this]
  have hfilt : ∀ f ∈ F, f.key.orderBy = false ∧ f.key.useAddTo = false ∧ f.key.useCurKey = false := by
    intro f hf
    obtain ⟨q, hq, rfl⟩ := List.mem_map.1 hf
    exact hK.filt q.key (List.mem_map_of_mem hq)
  have hnA : (F ++ O).countP (fun s => s.key.useAddTo) = O.countP (fun r => r.key.useAddTo && r.outer.isNone) := by
    rw [List.countP_append, List.countP_eq_zero.2 (by intro f hf; simp [(hfilt f hf).2.1]), Nat.zero_add]
    apply List.countP_congr
    intro s hs
    obtain ⟨k, _, _, hout⟩ := hok s hs
    rw [hout]
    cases s.key.useAddTo <;> simp
  have hnK : (F ++ O).countP (fun s => !s.key.useAddTo && s.key.useCurKey) = O.countP (fun r => r.key.useCurKey) := by
    rw [List.countP_append, List.countP_eq_zero.2 (by intro f hf; simp [(hfilt f hf).2.2]), Nat.zero_add]
    apply List.countP_congr
    intro s hs
    obtain ⟨k, _, hko, _⟩ := hok s hs
    have : s.key.useCurKey = true → s.key.useAddTo = false := by
      intro hu
      have hb := hko.byKey.1 hu
      by_contra hn
      exact hb.1 (hko.addTo.1 (by simpa using hn))
    cases hu : s.key.useCurKey
    · simp
    · simp [this hu]
  have hspecial : (0 < O.countP (fun r => r.key.useAddTo && r.outer.isNone) ∨ 0 < O.countP (fun r => r.key.useCurKey)) →
      p.willSort = true ∧ ∀ q ∈ PF, q.key.willSort = true := by
    intro hpos
    apply hsort
    rcases hpos with hpos | hpos
    · obtain ⟨s, hs, hu⟩ := List.countP_pos_iff.1 hpos
      obtain ⟨q, hq, rfl⟩ := List.mem_map.1 hs
      simp only [Bool.and_eq_true] at hu
      exact ⟨q, hq, .inl hu.1⟩
    · obtain ⟨s, hs, hu⟩ := List.countP_pos_iff.1 hpos
      obtain ⟨q, hq, rfl⟩ := List.mem_map.1 hs
      exact ⟨q, hq, .inr hu⟩
  have hattach : 0 < O.countP (fun r => r.key.useAddTo && r.outer.isNone) → ∃ k ∈ orders, k.col = c.attach := by
    intro hpos
    obtain ⟨s, hs, hu⟩ := List.countP_pos_iff.1 hpos
    simp only [Bool.and_eq_true] at hu
    obtain ⟨k, hk, hko, _⟩ := hok s hs
    exact ⟨k, hsub k hk, hko.addTo.1 hu.1⟩
  -- the key value all by-key operators refer to
  obtain ⟨x, hx⟩ : ∃ x : Option K, ∀ k ∈ SO, ByKey c k → val k.col = x := by
    by_cases hex : ∃ k ∈ SO, ByKey c k
    · obtain ⟨k, hk, hb⟩ := hex
      refine ⟨val k.col, ?_⟩
      intro k' hk' hb'
      rw [hp.same k' (hsub k' hk') k (hsub k hk) hb' hb]
    · exact ⟨none, fun k hk hb => absurd ⟨k, hk, hb⟩ hex⟩
  have hpad : ∀ q ∈ PF, q.key.col = c.addTo → q.key.willSort = true → (start c d w q).outer = att := by
    intro q hq hcol hws
    have hfq := hK.filt q.key (List.mem_map_of_mem hq)
    show (if _ then _ else _) = _
    rw [if_neg (by simp [hfq.2.1]), if_pos ⟨hfq.1, hcol⟩, if_neg (by simp [hws]), outerInfo_eq]
    rcases hPF q hq with ⟨e, hnil⟩ | ⟨k, hk, e⟩
    · have e4 : q.key.entries.map (·.core) = _ := congrArg (·.2.2.2) e
      have e2 : q.key.col = 1 := congrArg (·.2.1) e
      rw [e4]
      exact law.every hnil (by rw [← hcol, e2])
    · have e4 : q.key.entries.map (·.core) = _ := congrArg (·.2.2.2) e
      have e2 : q.key.col = k.col := congrArg (·.2.1) e
      rw [e4]
      exact law.info k hk (by rw [← e2, hcol])
  have hFcond : ∀ f ∈ F, f.key.useAddTo = false ∧ f.key.useCurKey = false ∧
      (f.key.col = c.addTo → 0 < O.countP (fun r => r.key.useAddTo && r.outer.isNone) → f.outer = att ∧ headFlag f.key = false) ∧
      (headFlag f.key = true → headCur w f.key = x) := by
    intro f hf
    refine ⟨(hfilt f hf).2.1, (hfilt f hf).2.2, ?_, ?_⟩
    · intro hcol hpos
      obtain ⟨q, hq, rfl⟩ := List.mem_map.1 hf
      refine ⟨hpad q hq hcol ((hspecial (.inl hpos)).2 q hq), ?_⟩
      by_contra hn
      rw [start_key] at hn
      obtain ⟨_, o, ho', hu, hcol'⟩ := hK.sound q.key (List.mem_map_of_mem hq) (by simpa using hn)
      obtain ⟨k, hk, hko⟩ := okey_of hO o ho'
      have hb := hko.byKey.1 hu
      have := hko.col
      rw [if_neg hb.1] at this
      refine hp.apart (hattach hpos) k (hsub k hk) hb ?_
      rw [← this, hcol']
      exact hcol
    · intro hh
      obtain ⟨q, hq, rfl⟩ := List.mem_map.1 hf
      obtain ⟨hlen, o, ho', hu, hcol'⟩ := hK.sound q.key (List.mem_map_of_mem hq) hh
      obtain ⟨k, hk, hko⟩ := okey_of hO o ho'
      have hb := hko.byKey.1 hu
      have hkc := hko.col
      rw [if_neg hb.1] at hkc
      rw [← hx k hk hb, ← hkc, hcol']
      obtain ⟨e, he⟩ := List.length_eq_one_iff.1 hlen
      show headCur w q.key = _
      unfold headCur
      rw [he]
      show w.cur e.core = val q.key.col
      rcases hPF q hq with ⟨e', hnil⟩ | ⟨k', hk', e'⟩
      · have e4 : q.key.entries.map (·.core) = _ := congrArg (·.2.2.2) e'
        have e2 : q.key.col = 1 := congrArg (·.2.1) e'
        rw [he] at e4
        have e5 : e.core = ⟨1, 0, 3, none, .emptyQuery, false, none⟩ := (List.cons.inj e4).1
        rw [e5, e2]
        exact law.first hnil
      · have e4 : q.key.entries.map (·.core) = entriesOf ex k' := congrArg (·.2.2.2) e'
        have e2 : q.key.col = k'.col := congrArg (·.2.1) e'
        rw [he] at e4
        rw [e2]
        exact law.value k' hk' e.core e4.symm
  -- the loop
  obtain ⟨a, b, hss, ha, hb⟩ : ∃ a b, (if c.addTo ≠ 0 ∨ p.willSort = true then
      spread c w (O.countP (fun r => r.key.useAddTo && r.outer.isNone)) (O.countP (fun r => r.key.useCurKey)) (F ++ O).length 0 0 (F ++ O) else F ++ O) =
        F ++ O.map (upd att x a b) ∧ (0 < O.countP (fun r => r.key.useAddTo && r.outer.isNone) → a = true ∨ att = none) ∧
        (0 < O.countP (fun r => r.key.useCurKey) → b = true) := by
    set nA := O.countP (fun r => r.key.useAddTo && r.outer.isNone) with hnAd
    set nK := O.countP (fun r => r.key.useCurKey) with hnKd
    have hid : (O.map (upd att x false false) : List (SKey Q K X V)) = O := by
      rw [show (upd att x false false : SKey Q K X V → SKey Q K X V) = id from rfl, List.map_id]
    by_cases hz : 0 < nA ∨ 0 < nK
    · rw [if_pos (.inr (hspecial hz).1), List.length_append]
      obtain ⟨a, b, cA', cK', m, g1, g2, g3, g4, g5⟩ := spread_filters c w att x (nA := nA) (nK := nK) F O O.length 0 0 hFcond
        (fun _ => ⟨rfl, rfl⟩) (fun _ => ⟨rfl, rfl⟩)
      have hcarry : 0 < nA → a = true ∨ att = none := by
        intro hpos
        cases hatt : att with
        | none => exact .inr rfl
        | some v =>
          left
          rw [g2]
          refine ⟨hpos, ?_⟩
          have : ∃ q ∈ PF, q.key.col = c.addTo := by
            rcases hp.carrier (hattach hpos) with ⟨k, hk, hcol⟩ | ⟨hnil, h1⟩
            · obtain ⟨q, hq, e⟩ := hkept k hk (by rw [hcol]; exact hc.symm)
              have e2 : q.key.col = k.col := congrArg (·.2.1) e
              exact ⟨q, hq, by rw [e2, hcol]⟩
            · obtain ⟨q, hq, e⟩ := hevery hnil (by rw [← h1]; exact hc)
              have e2 : q.key.col = 1 := congrArg (·.2.1) e
              exact ⟨q, hq, by rw [e2, h1]⟩
          obtain ⟨q, hq, hcol⟩ := this
          refine ⟨start c d w q, List.mem_map_of_mem hq, hcol, ?_⟩
          rw [hpad q hq hcol ((hspecial (.inl hpos)).2 q hq), hatt]
          rfl
      refine ⟨a, b, ?_, hcarry, ?_⟩
      · rw [g1, spread_orders]
        · intro s hs
          obtain ⟨s', hs', rfl⟩ := List.mem_map.1 hs
          obtain ⟨k, _, hko, _⟩ := hok s' hs'
          have : (upd att x a b s').key = s'.key := by
            unfold upd giveOuter giveCur
            cases a <;> cases b <;> simp only [Bool.false_eq_true, if_false, if_true] <;> (repeat' split) <;> rfl
          rw [this]
          exact hko.flag
        · intro hlt s hs hbad
          cases a with
          | true => rw [g4 rfl] at hlt; exact Nat.lt_irrefl _ hlt
          | false =>
            rw [g5 rfl] at hlt
            have hatt : att = none := (hcarry hlt).resolve_left (by simp)
            obtain ⟨s', hs', rfl⟩ := List.mem_map.1 hs
            obtain ⟨k, hk, hko, hout⟩ := hok s' hs'
            have e1 : (upd att x false b s').key = s'.key := by
              unfold upd giveCur
              cases b <;> simp only [Bool.false_eq_true, if_false, if_true]
              split <;> rfl
            have e2 : (upd att x false b s').outer = s'.outer := by
              unfold upd giveCur
              cases b <;> simp only [Bool.false_eq_true, if_false, if_true]
              split <;> rfl
            rw [e1, e2] at hbad
            have hu : s'.key.useAddTo = false := by
              by_contra hn
              rw [hout, if_pos (by simpa using hn)] at hbad
              exact absurd hbad.2 (by simp)
            have hne : k.col ≠ c.attach := fun he => by rw [hko.addTo.2 he] at hu; cases hu
            have hkc := hko.col
            rw [if_neg hne] at hkc
            exact hp.null hatt (hattach hlt) k (hsub k hk) (by rw [← hkc]; exact hbad.1)
      · intro hpos
        rw [g3]
        refine ⟨hpos, ?_⟩
        obtain ⟨s, hs, hu⟩ := List.countP_pos_iff.1 hpos
        obtain ⟨q, hq, rfl⟩ := List.mem_map.1 hs
        obtain ⟨f, hf', _, hfl⟩ := hK.complete q.key (List.mem_map_of_mem hq) hu
        obtain ⟨q', hq', rfl⟩ := List.mem_map.1 hf'
        exact ⟨start c d w q', List.mem_map_of_mem hq', hfl⟩
    · refine ⟨false, false, ?_, fun h => absurd (.inl h) hz, fun h => absurd (.inr h) hz⟩
      rw [hid]
      split
      · exact spread_stop c w (by omega) (by omega) _
      · rfl
  have hmain : recorded c d w p = (O.map (upd att x a b)).map (keyOrdering d w) := by
    unfold recorded
    dsimp only
    rw [e1, List.map_append]
    rw [show (PF.map (start c d w) ++ PO.map (start c d w)) = F ++ O from rfl, hnA, hnK]
    rw [hss, List.filter_append, List.filter_eq_nil_iff.2 (by intro f hf; simp [(hfilt f hf).1]), List.nil_append, List.filter_eq_self.2]
    intro s hs
    obtain ⟨s', hs', rfl⟩ := List.mem_map.1 hs
    obtain ⟨k, _, hko, _⟩ := hok s' hs'
    have : (upd att x a b s').key = s'.key := by
      unfold upd giveOuter giveCur
      cases a <;> cases b <;> simp only [Bool.false_eq_true, if_false, if_true] <;> (repeat' split) <;> rfl
    rw [this]
    exact hko.order
  rw [hmain, List.map_map, List.map_map]
  have key : ∀ (q : PKey Q K X) (k : InKey Q), q ∈ PO → k ∈ SO → OKey c ex k q.key →
      keyOrdering d w (upd att x a b (start c d w q)) = wanted c ex d w att val k := by
    intro q k hq hk hko
    have hs : start c d w q ∈ O := List.mem_map_of_mem hq
    have hout : (start c d w q).outer = (if q.key.useAddTo = true then none else some d.zeroV) := by
      obtain ⟨_, _, _, hout⟩ := hok _ hs
      exact hout
    by_cases hA : q.key.useAddTo = true
    · have hcol := hko.addTo.1 hA
      have hnK' : q.key.useCurKey = false := by
        by_contra hn
        exact (hko.byKey.1 (by simpa using hn)).1 hcol
      have hpos : 0 < O.countP (fun r => r.key.useAddTo && r.outer.isNone) := by
        apply List.countP_pos_iff.2
        refine ⟨_, hs, ?_⟩
        rw [hout, if_pos hA, start_key, hA]
        rfl
      have houter : (upd att x a b (start c d w q)).outer = att ∧ (upd att x a b (start c d w q)).key = q.key := by
        rw [if_pos hA] at hout
        have hcur : ∀ s : SKey Q K X V, s.key = q.key → giveCur x s = s := by
          intro s hs
          unfold giveCur
          rw [hs, hnK']
          rfl
        have hgo : giveOuter att (start c d w q) = { start c d w q with outer := att } := by
          unfold giveOuter
          rw [if_pos ⟨hA, by rw [hout]; rfl⟩]
        rcases ha hpos with ha | ha
        · unfold upd
          rw [ha]
          simp only [if_true, hgo]
          split
          · rw [hcur _ rfl]; exact ⟨rfl, rfl⟩
          · exact ⟨rfl, rfl⟩
        · unfold upd
          have hgo' : giveOuter att (start c d w q) = start c d w q := by
            rw [hgo, ha, ← hout]
          rw [hgo', if_const_id]
          split
          · rw [hcur _ rfl]; exact ⟨hout.trans ha.symm, rfl⟩
          · exact ⟨hout.trans ha.symm, rfl⟩
      unfold keyOrdering wanted
      rw [houter.1, houter.2, if_pos hA, if_pos hcol, hko.core]
      cases att <;> rfl
    · have hA' : q.key.useAddTo = false := by simpa using hA
      have hcol : k.col ≠ c.attach := fun he => hA (hko.addTo.2 he)
      have hgo : giveOuter att (start c d w q) = start c d w q := by
        unfold giveOuter
        rw [if_neg (fun h => hA h.1)]
      have hu : upd att x a b (start c d w q) = if b then giveCur x (start c d w q) else start c d w q := by
        unfold upd
        rw [hgo, if_const_id]
      rw [hu]
      by_cases hCK : q.key.useCurKey = true
      · have hbk := hko.byKey.1 hCK
        have hpos : 0 < O.countP (fun r => r.key.useCurKey) := List.countP_pos_iff.2 ⟨_, hs, hCK⟩
        have hkc := hko.col
        rw [if_neg hcol] at hkc
        rw [hb hpos, if_pos rfl]
        unfold giveCur
        rw [if_pos (show (start c d w q).key.useCurKey = true from hCK)]
        unfold keyOrdering wanted
        dsimp only
        rw [start_key, if_neg hA, if_pos hCK, if_neg hcol, if_pos hbk, hx k hk hbk, hko.core, hkc]
        cases x <;> rfl
      · have hCK' : q.key.useCurKey = false := by simpa using hCK
        have hgc : giveCur x (start c d w q) = start c d w q := by
          unfold giveCur
          rw [if_neg (show ¬ (start c d w q).key.useCurKey = true from hCK)]
        rw [hgc, if_const_id]
        unfold keyOrdering wanted
        rw [start_key, if_neg hA, if_neg hCK, if_neg hcol, if_neg (fun h => hCK (hko.byKey.2 h)), hko.core]
        rw [← hko.entries hA' hCK', List.map_map]
        rfl
  clear_value SO
  clear hmain hss ha hb hFcond hattach hspecial hnA hnK hok hsort hSO
  have gen : ∀ (SO' : List (InKey Q)) (PO' : List (PKey Q K X)), (∀ k ∈ SO', k ∈ SO) → (∀ q ∈ PO', q ∈ PO) →
      List.Forall₂ (OKey c ex) SO' (PO'.map (·.key)) →
      PO'.map (keyOrdering d w ∘ upd att x a b ∘ start c d w) = SO'.map (wanted c ex d w att val) := by
    intro SO'
    induction SO' with
    | nil =>
      intro PO' _ _ h
      cases PO' with
      | nil => rfl
      | cons q l => cases h
    | cons k SO' ih =>
      intro PO' h1 h2 h
      cases PO' with
      | nil => cases h
      | cons q l =>
        rw [List.map_cons] at h
        cases h with
        | cons hk hl =>
          rw [List.map_cons, List.map_cons, ih l (fun k hk => h1 k (List.mem_cons_of_mem _ hk)) (fun q hq => h2 q (List.mem_cons_of_mem _ hq)) hl]
          congr 1
          exact key q k (h2 q (by simp)) (h1 k (by simp)) hk
  exact gen SO PO (fun _ h => h) (fun _ h => h) hO

theorem perm_map {α β : Type} {f : α → β} (l : List α) {o : List β} (h : o.Perm (l.map f)) : ∃ l' : List α, l'.Perm l ∧ o = l'.map f := by
  generalize hm : l.map f = m at h
  induction h generalizing l with
  | nil => exact ⟨l, .rfl, hm.symm⟩
  | cons x h ih =>
    cases l with
    | nil => cases hm
    | cons a l =>
      obtain ⟨e1, e2⟩ := List.cons.inj hm
      obtain ⟨l', h1, h2⟩ := ih l e2
      exact ⟨a :: l', h1.cons a, by rw [List.map_cons, e1, h2]⟩
  | swap x y m =>
    obtain ⟨a, l, rfl, e1, e2⟩ := List.map_eq_cons_iff.1 hm
    obtain ⟨b, l, rfl, e3, e4⟩ := List.map_eq_cons_iff.1 e2
    exact ⟨b :: a :: l, .swap _ _ _, by simp [e1, e3, e4]⟩
  | trans h1 h2 ih1 ih2 =>
    obtain ⟨l1, a1, a2⟩ := ih2 l hm
    obtain ⟨l2, b1, b2⟩ := ih1 l1 a2.symm
    exact ⟨l2, b1.trans a1, b2⟩

/-- Row `a` must come before row `b`: the first ORDER BY operator that distinguishes them puts `a` nearer. -/
def Before {R : Type} (cmpD : D → D → Ordering) (SO : List (InKey Q)) (want : R → InKey Q → D) (a b : R) : Prop :=
  ∃ pre k post, SO = pre ++ k :: post ∧ (∀ k' ∈ pre, cmpD (want a k') (want b k') = .eq) ∧ cmpD (want a k) (want b k) = .lt

/-- **C48, the order of the rows.** When the rows are sorted, they come out in the order of the distances the ORDER BY operators ask for: no row comes
after one it must precede, and no row is lost or made up. -/
theorem C48_order_partial {R : Type} {c : Cfg} {ex : InKey Q → Extr K X} {d : Dists Q K X V D} {world : R → RowWorld Q K X V} {filters orders : List (InKey Q)}
    {p : Plan Q K X} {att : R → Option V} {val : R → Nat → Option K} (hc : c.attach ≠ c.addTo) (hf : ∀ k ∈ filters, k.orderBy = false)
    (ho : ∀ k ∈ orders, k.orderBy = true) (h : newScanKey c ex filters orders = .ok p) (hv : p.void = false) (rows : List R)
    (law : ∀ r ∈ rows, RowLaw c ex (world r) filters (att r) (val r)) (hp : ∀ r ∈ rows, Plain c filters orders (att r))
    (cmpD : D → D → Ordering) [Std.TransCmp cmpD] (zero : D) (tid : R → Iptr) (recheck : R → Bool) (out : List (SortItem D))
    (hs : SortedBy (cmpSortItem cmpD zero orders.length false)
      (rows.map (fun r => sortItem c d zero p (world r) (tid r) (recheck r))) out) :
    ∃ rs : List R, rs.Perm rows ∧ out = rs.map (fun r => sortItem c d zero p (world r) (tid r) (recheck r)) ∧
      rs.Pairwise (fun a b => ¬ Before cmpD (orders.filter (fun k => decide (Satisfiable ex k))) (fun r => wanted c ex d (world r) (att r) (val r)) b a) := by
  obtain ⟨h1, h2, _⟩ := Rum.Props.Sort.C36_sorted cmpD zero orders.length false _ out hs
  obtain ⟨rs, hperm, hout⟩ : ∃ rs : List R, rs.Perm rows ∧ out = rs.map (fun r => sortItem c d zero p (world r) (tid r) (recheck r)) := by
    exact perm_map rows h1
  refine ⟨rs, hperm, hout, ?_⟩
  rw [hout, List.pairwise_map] at h2
  refine h2.imp_of_mem ?_
  intro a b ha hb hn hbef
  apply hn
  obtain ⟨pre, k, post, hSO, heq, hlt⟩ := hbef
  have hval : ∀ r ∈ rs, recorded c d (world r) p = (pre ++ k :: post).map (wanted c ex d (world r) (att r) (val r)) := by
    intro r hr
    have hr' : r ∈ rows := hperm.mem_iff.1 hr
    rw [C48_values_partial hc hf ho h hv (law r hr') (hp r hr'), hSO]
  have hlen : pre.length < orders.length := by
    have := List.length_filter_le (fun k => decide (Satisfiable ex k)) orders
    rw [hSO, List.length_append, List.length_cons] at this
    omega
  refine ⟨pre.length, hlen, ?_, ?_⟩
  · intro j hj
    show cmpD ((recorded _ _ _ _).getD _ _) ((recorded _ _ _ _).getD _ _) = _
    rw [hval a ha, hval b hb]
    simp only [List.map_append, List.getD_eq_getElem?_getD]
    rw [List.getElem?_append_left (by simpa using hj), List.getElem?_append_left (by simpa using hj)]
    simp only [List.getElem?_map, List.getElem?_eq_getElem hj, Option.map_some, Option.getD_some]
    exact heq _ (List.getElem_mem hj)
  · show cmpD ((recorded _ _ _ _).getD _ _) ((recorded _ _ _ _).getD _ _) = _
    rw [hval a ha, hval b hb]
    simpa [List.getD_eq_getElem?_getD] using hlt

/-! ### Example and violations -/

/-- Distances are absolute differences, infinity is 1000; a text distance (column 1) counts the query's keys that are missing in the row. The attached
column orders by the distance to the query value. -/
def exDists : Dists (List Nat) Nat Nat Nat Nat where
  outer := fun q v _ => (q.map (fun a => (a - v) + (v - a))).getD 1000
  byKey := fun _ x q _ => ((q.bind List.head?).map (fun a => (a - x) + (x - a))).getD 1000
  own := fun _ es => es.countP (·.isNone)
  inf := 1000
  zeroV := 0
  zeroK := 0

/-- The row of `exWorld`: it stands on 7 in column 2 and on 5 in column 3. -/
def exRow : RowWorld (List Nat) Nat Nat Nat := ⟨exWorld, fun e => if e.col = 3 then some 5 else if e.col = 2 then some 7 else e.key⟩

/-- What the index contains for the row: number 7 in column 2, number 5 in column 3. -/
def exVal (col : Nat) : Option Nat := if col = 3 then some 5 else if col = 2 then some 7 else some 10

/-- `ORDER BY number <=> 4, col3 <=> 8, text <=> '10 | 12'`. -/
def exOrders : List (InKey (List Nat)) := [ob 2 20 [4], ob 3 20 [8], ob 1 20 [10, 12]]

/-- The example meets the hypotheses of both theorems, and the recorded values are 3 (to 7), 3 (to 5) and 1 (one missing key). -/
theorem C48_witness :
    ((newScanKey exCfg exExtract exFilters exOrders).toOption.map (fun p => (p.void, p.natural, recorded exCfg exDists exRow p))) = some (false, 0, [3, 3, 1]) ∧
    RowLaw exCfg exExtract exRow exFilters (some 7) exVal ∧ Plain exCfg exFilters exOrders (some 7) ∧
    exOrders.map (wanted exCfg exExtract exDists exRow (some 7) exVal) = [3, 3, 1] := by
  refine ⟨by with_unfolding_all rfl, ⟨?_, ?_, ?_, ?_⟩, ⟨?_, ?_, ?_, ?_⟩, by decide⟩
  · intro k hk h
    simp only [exFilters, List.mem_cons, List.not_mem_nil, or_false] at hk
    rcases hk with rfl | rfl | rfl | rfl <;> first | decide | exact absurd h (by decide)
  · intro h; cases h
  · intro k hk e he
    simp only [exFilters, List.mem_cons, List.not_mem_nil, or_false] at hk
    rcases hk with rfl | rfl | rfl | rfl <;> cases he <;> decide
  · intro h; cases h
  · intro _
    exact .inl ⟨wh 1 1 [10, 11], by simp [exFilters], rfl⟩
  · intro k hk k' hk' hb hb'
    simp only [exOrders, List.mem_cons, List.not_mem_nil, or_false] at hk hk'
    rcases hk with rfl | rfl | rfl <;> rcases hk' with rfl | rfl | rfl <;> first | rfl | exact absurd hb (by decide) | exact absurd hb' (by decide)
  · intro _ k hk hb
    simp only [exOrders, List.mem_cons, List.not_mem_nil, or_false] at hk
    rcases hk with rfl | rfl | rfl <;> first | decide | exact absurd hb (by decide)
  · intro h; cases h

/-- **C48 fails without a WHERE on the column that carries the attached value.** `WHERE col3 = 5 ORDER BY number <=> 4`: the distance is 3, recorded is
infinity for every row. -/
theorem C48_no_carrier_violated :
    ((newScanKey exCfg exExtract [wh 3 3 [5]] [ob 2 20 [4]]).toOption.map (fun p => (p.void, recorded exCfg exDists exRow p))) = some (false, [1000]) ∧
    [ob 2 20 [4]].map (wanted exCfg exExtract exDists exRow (some 7) exVal) = [3] := by
  exact ⟨by with_unfolding_all rfl, by decide⟩

/-- **C48 fails for the index order.** `WHERE text @@ '10' ORDER BY text <=> '12', number <=| 9`: because the second operator can be answered by the order of the
index, the rows are not sorted at all and the first operator is ignored: whatever the sort is, the rows come as they are found. -/
theorem C48_natural_violated :
    ∃ p, newScanKey exCfg exExtract [wh 1 1 [10]] [ob 1 20 [12], ob 2 21 [9]] = .ok p ∧ p.natural = -1 ∧
      ∀ (R : Type) (world : R → RowWorld (List Nat) Nat Nat Nat) (sort : (R → List Nat) → List R → List R) (rows : List R),
        delivered exCfg exDists p world sort rows = rows := by
  refine ⟨_, rfl, rfl, ?_⟩
  intro R world sort rows
  rfl

/-- **C48 fails with two columns ordered by key value.** `WHERE col2 = 7 AND col3 = 5 ORDER BY col2 <=> 7, col3 <=> 5` on an index without attached column: the distances
are 0 and 0; the second is computed from the value of the first column. -/
theorem C48_two_values_violated :
    ((newScanKey { exCfg with attach := 0, addTo := 0 } exExtract [wh 2 3 [7], wh 3 3 [5]] [ob 2 20 [7], ob 3 20 [5]]).toOption.map (fun p =>
      (p.void, recorded { exCfg with attach := 0, addTo := 0 } exDists exRow p))) = some (false, [0, 2]) ∧
    [ob 2 20 [7], ob 3 20 [5]].map (wanted { exCfg with attach := 0, addTo := 0 } exExtract exDists exRow none exVal) = [0, 0] := by
  exact ⟨by with_unfolding_all rfl, by decide⟩

/-- An index with the numbers of column 2 attached to the numbers of column 3. -/
def numCfg : Cfg := { exCfg with addTo := 3, alt := false }

/-- Its row: under its number 5 in column 3 the number `v` of column 2 is stored. -/
def numRow (v : Option Nat) : RowWorld (List Nat) Nat Nat Nat :=
  ⟨{ exWorld with found := fun e => if e.col = 3 ∧ e.key = some 5 then some v else none }, fun e => if e.col = 3 then some 5 else none⟩

/-- **C48 fails if one key carries both values.** `WHERE col3 = 5 ORDER BY number <=> 4, col3 <=> 5`: the distances are 3 and 0; the key of column 3 hands on the
attached value only, the second distance is computed from zeroed memory. -/
theorem C48_both_violated :
    ((newScanKey numCfg exExtract [wh 3 3 [5]] [ob 2 20 [4], ob 3 20 [5]]).toOption.map (fun p => (p.void, recorded numCfg exDists (numRow (some 7)) p))) =
      some (false, [3, 5]) ∧
    [ob 2 20 [4], ob 3 20 [5]].map (wanted numCfg exExtract exDists (numRow (some 7)) (some 7) exVal) = [3, 0] := by
  exact ⟨by with_unfolding_all rfl, by decide⟩

/-- The row of `exWorld` with NULL attached. -/
def nullRow : RowWorld (List Nat) Nat Nat Nat :=
  ⟨{ exWorld with found := fun e => if e.col = 1 ∧ (e.key = some 10 ∨ e.key = some 11) then some none else none }, exRow.cur⟩

/-- **C48 fails for NULL beside an ORDER BY on the carrying column.** `WHERE text @@ '10' ORDER BY text <=> '10', number <=> 4` for a row whose number is NULL: the
distance is infinite; the zeroed memory of the first ORDER BY key is taken for the attached value. -/
theorem C48_null_violated :
    ((newScanKey exCfg exExtract [wh 1 1 [10]] [ob 1 20 [10], ob 2 20 [4]]).toOption.map (fun p => (p.void, recorded exCfg exDists nullRow p))) =
      some (false, [0, 4]) ∧
    [ob 1 20 [10], ob 2 20 [4]].map (wanted exCfg exExtract exDists nullRow none exVal) = [0, 1000] := by
  exact ⟨by with_unfolding_all rfl, by decide⟩

end Rum.Props.OrderVals

import Verif.Props.ScanKeys

/-!
# C60: direction and starting point of the scans of a query ordered by the attached column

The specification is the query: its WHERE operators, its ORDER BY operators, and the directions of the distance operators (`dirs`, from
`rum_*_config`).
-/
namespace Rum.Props.ScanDirection
open Rum.ScanKeys Rum.Props.ScanKeys
variable {Q K X V : Type}

/-- The ORDER BY operator asks for a walk of the attached column in one direction: `attached <=| v` or `attached |=> v` in an index with
`order_by_attach`. -/
def Directed (c : Cfg) (ex : InKey Q → Extr K X) (d : Int) (o : InKey Q) : Prop :=
  c.alt = true ∧ Satisfiable ex o ∧ o.col = c.attach ∧ (c.dirs c.attach).lookup o.strategy = some d ∧ d ≠ 0

/-- A WHERE key on the column the attached one is added to. -/
def OnMain (c : Cfg) (k : Key Q K X) : Prop := k.orderBy = false ∧ k.col = c.addTo

/-- The key and all its entries are read in direction `d` from position `m` (`none`: from the end). -/
def Reads (k : Key Q K X) (d : Int) (m : Option K) : Prop := k.dir = d ∧ ∀ e ∈ k.entries, e.dir = d ∧ e.mark = m

/-- Every key reads as the state says: forward from the beginning, or, if `s = some (d, m)`, the WHERE keys on the main column in direction `d` from `m`. -/
def Shaped (c : Cfg) (s : Option (Int × Option K)) (ks : List (Key Q K X)) : Prop :=
  ∀ k ∈ ks, k.orderBy = false → match s with
    | some (d, m) => (k.col = c.addTo → Reads k d m) ∧ (k.col ≠ c.addTo → Reads k 1 none)
    | none => Reads k 1 none

/-- The position an ORDER BY key names. -/
def posOf (o : Key Q K X) : Option K := o.core.vals.head?.map (·.1)

theorem mkEntry_reads (col strategy : Nat) (mode : Int) (key : Option K) (cat : Cat) (pm : Bool) (extra : Option X) :
    (mkEntry col strategy mode key cat pm extra).dir = 1 ∧ (mkEntry col strategy mode key cat pm extra).mark = none := ⟨rfl, rfl⟩

theorem userEntries_reads (c : Cfg) (col strategy : Nat) (mode : Int) (pm : Option (Nat → Bool)) (extra : Option (Nat → X)) :
    ∀ (vs : List (K × Bool)) (i : Nat) (es : List (Entry K X)), userEntries c col strategy mode pm extra i vs = .ok es →
      ∀ e ∈ es, e.dir = 1 ∧ e.mark = none := by
  intro vs
  induction vs with
  | nil => intro i es h; cases h; simp
  | cons v vs ih =>
    intro i es h
    obtain ⟨k, null⟩ := v
    simp only [userEntries] at h
    split at h
    · cases h
    · cases hr : userEntries c col strategy mode pm extra (i + 1) vs with
      | error e => rw [hr] at h; cases h
      | ok r =>
        rw [hr] at h; cases h
        intro e he
        rcases List.mem_cons.1 he with rfl | he
        · exact ⟨rfl, rfl⟩
        · exact ih _ _ hr e he

theorem hiddenEntry_reads {col : Nat} {mode : Int} {es : List (Entry K X)} (h : hiddenEntry col mode = .ok es) :
    ∀ e ∈ es, e.dir = 1 ∧ e.mark = none := by
  unfold hiddenEntry at h
  split at h
  · cases h; simp
  split at h
  · cases h; simp [mkEntry]
  split at h
  · cases h; simp [mkEntry]
  · cases h

theorem linkCurKey_shaped {c : Cfg} {col : Nat} : ∀ {ks ks' : List (Key Q K X)}, linkCurKey col ks = .ok ks' → Shaped c none ks → Shaped c none ks' := by
  intro ks
  induction ks with
  | nil => intro ks' h; cases h
  | cons k ks ih =>
    intro ks' h hs
    simp only [linkCurKey] at h
    split at h
    · split at h
      · cases h
      split at h
      · cases h
      · cases h
        intro k' hk' ho
        rcases List.mem_cons.1 hk' with rfl | hk'
        · have := hs k (by simp) (by exact ho)
          refine ⟨this.1, ?_⟩
          have h2 := this.2
          simp only [markCurKey]
          cases hE : k.entries with
          | nil => simp
          | cons e es =>
            rw [hE] at h2
            intro e' he'
            rcases List.mem_cons.1 he' with rfl | he'
            · exact h2 e (by simp)
            · exact h2 e' (List.mem_cons_of_mem _ he')
        · exact hs k' (List.mem_cons_of_mem _ hk') ho
    · cases hr : linkCurKey col ks with
      | error e => rw [hr] at h; cases h
      | ok r =>
        rw [hr] at h; cases h
        intro k' hk' ho
        rcases List.mem_cons.1 hk' with rfl | hk'
        · exact hs _ (by simp) ho
        · exact ih hr (fun k hk => hs k (List.mem_cons_of_mem _ hk)) k' hk' ho

theorem linkCurKey_orders {col : Nat} : ∀ {ks ks' : List (Key Q K X)}, linkCurKey col ks = .ok ks' →
    ks'.filter (fun k => k.orderBy) = ks.filter (fun k => k.orderBy) := by
  intro ks
  induction ks with
  | nil => intro ks' h; cases h
  | cons k ks ih =>
    intro ks' h
    simp only [linkCurKey] at h
    split at h
    next hc =>
      split at h
      · cases h
      split at h
      · cases h
      · cases h
        rw [List.filter_cons, List.filter_cons, if_neg (by simp [markCurKey, hc.1]), if_neg (by simp [hc.1])]
    · cases hr : linkCurKey col ks with
      | error e => rw [hr] at h; cases h
      | ok r =>
        rw [hr] at h; cases h
        rw [List.filter_cons, List.filter_cons, ih hr]

/-- The ORDER BY keys on the attached column, as fillMarks selects them. -/
def attachKeys (ks : List (Key Q K X)) : List (Key Q K X) := ks.filter (fun k => k.orderBy && k.useAddTo)

theorem attachKeys_of {ks ks' : List (Key Q K X)} (h : ks'.filter (fun k => k.orderBy) = ks.filter (fun k => k.orderBy)) :
    attachKeys ks' = attachKeys ks := by
  unfold attachKeys
  have : ∀ l : List (Key Q K X), l.filter (fun k => k.orderBy && k.useAddTo) = (l.filter (fun k => k.orderBy)).filter (fun k => k.useAddTo) := by
    intro l
    rw [List.filter_filter]
    exact List.filter_congr (fun k _ => by rw [Bool.and_comm])
  rw [this, this, h]

/-- What fillKey adds. -/
theorem fillKey_shaped {c : Cfg} {st st' : St Q K X} {col strategy mode query vals pm extra orderBy}
    (h : fillKey c st col strategy mode query vals pm extra orderBy = .ok st') (hs : Shaped c none st.keys)
    (ha : ∀ k ∈ attachKeys st.keys, k.col = c.addTo) :
    Shaped c none st'.keys ∧ (∀ k ∈ attachKeys st'.keys, k.col = c.addTo) ∧
    (attachKeys st'.keys).map (·.core) = (attachKeys st.keys).map (·.core) ++
      (if orderBy = true ∧ col = c.attach then [⟨col, strategy, mode, query, vals, extra⟩] else []) := by
  have happ : ∀ (l : List (Key Q K X)) (k : Key Q K X), (l = st.keys ∨ ∃ cl, linkCurKey cl st.keys = .ok l) → (k.orderBy = false → Reads k 1 none) →
      (k.useAddTo = true → k.col = c.addTo) →
      Shaped c none (l ++ [k]) ∧ (∀ q ∈ attachKeys (l ++ [k]), q.col = c.addTo) ∧
      (attachKeys (l ++ [k])).map (·.core) = (attachKeys st.keys).map (·.core) ++ (if (k.orderBy && k.useAddTo) = true then [k.core] else []) := by
    intro l k hl h1 h2
    have hl1 : Shaped c none l := by
      rcases hl with rfl | ⟨cl, hl⟩
      · exact hs
      · exact linkCurKey_shaped hl hs
    have hl2 : attachKeys l = attachKeys st.keys := by
      rcases hl with rfl | ⟨cl, hl⟩
      · rfl
      · exact attachKeys_of (linkCurKey_orders hl)
    have hl3 : attachKeys (l ++ [k]) = attachKeys l ++ (if (k.orderBy && k.useAddTo) = true then [k] else []) := by
      simp only [attachKeys, List.filter_append, List.filter_cons, List.filter_nil]
    refine ⟨?_, ?_, ?_⟩
    · intro q hq ho
      rcases List.mem_append.1 hq with hq | hq
      · exact hl1 q hq ho
      · cases List.mem_singleton.1 hq
        exact h1 ho
    · intro q hq
      rw [hl3, hl2] at hq
      rcases List.mem_append.1 hq with hq | hq
      · exact ha q hq
      · split at hq
        next hc =>
          cases List.mem_singleton.1 hq
          exact h2 (by simp only [Bool.and_eq_true] at hc; exact hc.2)
        · cases hq
    · rw [hl3, hl2, List.map_append]
      split <;> rfl
  unfold fillKey at h
  simp only at h
  generalize vals.length + (if mode = 0 then 0 else 1) = n at h
  split at h
  next hc =>
    split at h
    · cases h
    split at h
    · cases h
    split at h
    next hcol =>
      split at h
      · cases h
      · cases h
        obtain ⟨r1, r2, r3⟩ := happ st.keys ⟨⟨col, strategy, mode, query, vals, extra⟩, c.addTo, true, true, false, 1, [], false⟩ (.inl rfl)
          (by simp) (by simp)
        exact ⟨r1, r2, by rw [r3]; simp [hc.1, hcol]⟩
    next hcol =>
      cases hl : linkCurKey col st.keys with
      | error e => rw [hl] at h; cases h
      | ok ks =>
        rw [hl] at h; cases h
        obtain ⟨r1, r2, r3⟩ := happ ks ⟨⟨col, strategy, mode, query, vals, extra⟩, col, true, false, true, 1, [], false⟩ (.inr ⟨_, hl⟩)
          (by simp) (by simp)
        exact ⟨r1, r2, by rw [r3]; simp [hcol]⟩
  next hc =>
    split at h
    · cases h
    · cases hu : userEntries c col strategy mode pm extra 0 vals with
      | error e => rw [hu] at h; cases h
      | ok us =>
        cases hh : (hiddenEntry col mode : Except String (List (Entry K X))) with
        | error e => rw [hu, hh] at h; cases h
        | ok hs' =>
          rw [hu, hh] at h; cases h
          obtain ⟨r1, r2, r3⟩ := happ st.keys ⟨⟨col, strategy, mode, query, vals, extra⟩, col, orderBy, false, false, 1, us ++ hs', false⟩ (.inl rfl)
            (fun _ => ⟨rfl, fun e he => by
              rcases List.mem_append.1 he with he | he
              · exact userEntries_reads _ _ _ _ _ _ _ _ _ hu e he
              · exact hiddenEntry_reads hh e he⟩) (by simp)
          refine ⟨r1, r2, ?_⟩
          rw [r3]
          have : ¬ (orderBy = true ∧ col = c.attach) := fun h => hc ⟨h.1, .inl h.2⟩
          rw [if_neg this]
          simp

theorem initFilters_shaped {c : Cfg} {ex : InKey Q → Extr K X} :
    ∀ (fs : List (InKey Q)) (st st' : St Q K X), (∀ k ∈ fs, k.orderBy = false) → initFilters c ex st fs = .ok st' →
      Shaped c none st.keys → attachKeys st.keys = [] → Shaped c none st'.keys ∧ attachKeys st'.keys = [] := by
  intro fs
  induction fs with
  | nil => intro st st' _ h hs ha; cases h; exact ⟨hs, ha⟩
  | cons k fs ih =>
    intro st st' ho h hs ha
    have hok : k.orderBy = false := ho k (by simp)
    simp only [initFilters] at h
    by_cases hsat : Satisfiable ex k
    · rw [init_fill hsat, hok] at h
      cases hf : fillKey c st k.col k.strategy (coreOf ex k).mode (some k.arg) (ex k).vals (ex k).pm (ex k).extra false with
      | error e => rw [hf] at h; cases h
      | ok st1 =>
        rw [hf] at h
        obtain ⟨r1, r2, r3⟩ := fillKey_shaped hf hs (by simp [ha])
        have r3 : attachKeys st1.keys = [] := by simpa [ha] using r3
        simp only [bind, Except.bind] at h
        split at h
        · cases h; exact ⟨r1, r3⟩
        · exact ih st1 st' (fun k hk => ho k (List.mem_cons_of_mem _ hk)) h r1 r3
    · rw [init_void hsat] at h
      simp only [bind, Except.bind, hok, Bool.not_false, Bool.or_true, if_true] at h
      cases h
      exact ⟨hs, ha⟩

theorem initOrders_shaped {c : Cfg} {ex : InKey Q → Extr K X} :
    ∀ (os : List (InKey Q)) (st st' : St Q K X), (∀ k ∈ os, k.orderBy = true) → initOrders c ex st os = .ok st' →
      Shaped c none st.keys → (∀ k ∈ attachKeys st.keys, k.col = c.addTo) →
      Shaped c none st'.keys ∧ (∀ k ∈ attachKeys st'.keys, k.col = c.addTo) ∧
      (attachKeys st'.keys).map (·.core) = (attachKeys st.keys).map (·.core) ++
        (os.filter (fun o => decide (Satisfiable ex o ∧ o.col = c.attach))).map (coreOf ex) := by
  intro os
  induction os with
  | nil => intro st st' _ h hs ha; cases h; exact ⟨hs, ha, by simp⟩
  | cons k os ih =>
    intro st st' ho h hs ha
    have hok : k.orderBy = true := ho k (by simp)
    simp only [initOrders] at h
    by_cases hsat : Satisfiable ex k
    · rw [init_fill hsat, hok] at h
      cases hf : fillKey c st k.col k.strategy (coreOf ex k).mode (some k.arg) (ex k).vals (ex k).pm (ex k).extra true with
      | error e => rw [hf] at h; cases h
      | ok st1 =>
        rw [hf] at h
        obtain ⟨r1, r2, r3⟩ := fillKey_shaped hf hs ha
        obtain ⟨i1, i2, i3⟩ := ih st1 st' (fun k hk => ho k (List.mem_cons_of_mem _ hk)) h r1 r2
        refine ⟨i1, i2, ?_⟩
        rw [i3, r3, List.append_assoc, List.filter_cons]
        congr 1
        by_cases hcol : k.col = c.attach
        · rw [if_pos ⟨rfl, hcol⟩, if_pos (by simp [hsat, hcol])]; rfl
        · rw [if_neg (fun h => hcol h.2), if_neg (by simp [hcol])]; rfl
    · rw [init_void hsat] at h
      simp only [bind, Except.bind, hok, Bool.not_true, Bool.or_false] at h
      obtain ⟨i1, i2, i3⟩ := ih st st' (fun k hk => ho k (List.mem_cons_of_mem _ hk)) h hs ha
      exact ⟨i1, i2, by rw [i3, List.filter_cons, if_neg (by simp [hsat])]⟩

/-! ### Marks -/

theorem markEntries_new (m : Option K) (d : Int) : ∀ es : List (Entry K X), (∀ e ∈ es, e.mark = none) →
    ∃ es', markEntries m d es = .ok es' ∧ ∀ e ∈ es', e.dir = d ∧ e.mark = m := by
  intro es
  induction es with
  | nil => intro _; exact ⟨[], rfl, by simp⟩
  | cons e es ih =>
    intro h
    obtain ⟨r, hr, h2⟩ := ih (fun e he => h e (List.mem_cons_of_mem _ he))
    refine ⟨{ e with mark := m, dir := d } :: r, ?_, ?_⟩
    · simp only [markEntries, h e (by simp), Option.isSome_none, Bool.false_eq_true, if_false, hr]
      rfl
    · intro e' he'
      rcases List.mem_cons.1 he' with rfl | he'
      · exact ⟨rfl, rfl⟩
      · exact h2 e' he'

/-- A key without direction in its operator changes nothing. -/
theorem fillMark_none {c : Cfg} {o : Key Q K X} (hd : lookupDir c o.core.colOrig o.core.strategy = 0) :
    ∀ (ks : List (Key Q K X)) (n : Int), fillMark c o n ks = .ok (ks, n) := by
  intro ks
  induction ks with
  | nil => intro n; rfl
  | cons k ks ih =>
    intro n
    simp only [fillMark]
    rw [if_neg (fun h => h.2.2.2 hd), ih]
    rfl

/-- No WHERE key on the main column: nothing changes. -/
theorem fillMark_away {c : Cfg} {o : Key Q K X} : ∀ (ks : List (Key Q K X)) (n : Int), (∀ k ∈ ks, ¬ OnMain c k) → fillMark c o n ks = .ok (ks, n) := by
  intro ks
  induction ks with
  | nil => intro n _; rfl
  | cons k ks ih =>
    intro n h
    simp only [fillMark]
    rw [if_neg (fun hh => h k (by simp) ⟨hh.1, hh.2.1⟩), ih n (fun k hk => h k (List.mem_cons_of_mem _ hk))]
    rfl

/-- The first directed operator marks all WHERE keys on the main column. -/
theorem fillMark_first {c : Cfg} {o : Key Q K X} (hcol : o.col = c.addTo) (hd : lookupDir c o.core.colOrig o.core.strategy ≠ 0) :
    ∀ (ks : List (Key Q K X)) (n : Int), Shaped c none ks → (n = 0 ∨ n = lookupDir c o.core.colOrig o.core.strategy) →
      ∃ ks' n', fillMark c o n ks = .ok (ks', n') ∧ Shaped c (some (lookupDir c o.core.colOrig o.core.strategy, posOf o)) ks' ∧
        (((∃ k ∈ ks, OnMain c k) ∨ n = lookupDir c o.core.colOrig o.core.strategy) → n' = lookupDir c o.core.colOrig o.core.strategy) := by
  intro ks
  induction ks with
  | nil => intro n _ _; exact ⟨[], n, rfl, by simp [Shaped], by simp⟩
  | cons k ks ih =>
    intro n hs hn
    have hs' : Shaped c none ks := fun k hk => hs k (List.mem_cons_of_mem _ hk)
    simp only [fillMark]
    by_cases hm : OnMain c k
    · rw [if_pos ⟨hm.1, hm.2, hcol, hd⟩, if_neg (by rintro ⟨h1, h2⟩; rcases hn with h | h <;> contradiction)]
      obtain ⟨es, he, h2⟩ := markEntries_new (posOf o) (lookupDir c o.core.colOrig o.core.strategy) k.entries
        (fun e he => ((hs k (by simp) hm.1).2 e he).2)
      obtain ⟨ks', n', hf, h3, h4⟩ := ih _ hs' (.inr rfl)
      refine ⟨_, _, by rw [show (o.core.vals.head?.map (·.1)) = posOf o from rfl, he, hf]; rfl, ?_, ?_⟩
      · intro q hq ho
        rcases List.mem_cons.1 hq with rfl | hq
        · exact ⟨fun _ => ⟨rfl, h2⟩, fun h => absurd hm.2 h⟩
        · exact h3 q hq ho
      · intro _
        exact h4 (.inr rfl)
    · rw [if_neg (fun hh => hm ⟨hh.1, hh.2.1⟩)]
      obtain ⟨ks', n', hf, h3, h4⟩ := ih n hs' hn
      refine ⟨_, _, by rw [hf]; rfl, ?_, ?_⟩
      · intro q hq ho
        rcases List.mem_cons.1 hq with rfl | hq
        · exact ⟨fun h => absurd ⟨ho, h⟩ hm, fun _ => hs q (by simp) ho⟩
        · exact h3 q hq ho
      · rintro (⟨q, hq, hq2⟩ | h)
        · rcases List.mem_cons.1 hq with rfl | hq
          · exact absurd hq2 hm
          · exact h4 (.inl ⟨q, hq, hq2⟩)
        · exact h4 (.inr h)

/-- A second directed operator is rejected, if there is a WHERE key on the main column with an entry. -/
theorem fillMark_second {c : Cfg} {o : Key Q K X} {d : Int} {v : K} (hcol : o.col = c.addTo) (hd : lookupDir c o.core.colOrig o.core.strategy ≠ 0) :
    ∀ (ks : List (Key Q K X)) (n : Int), Shaped c (some (d, some v)) ks → (∃ k ∈ ks, OnMain c k ∧ k.entries ≠ []) →
      ∀ r, fillMark c o n ks ≠ .ok r := by
  intro ks
  induction ks with
  | nil => rintro n _ ⟨k, hk, _⟩; cases hk
  | cons k ks ih =>
    intro n hs hex r h
    simp only [fillMark] at h
    by_cases hm : OnMain c k ∧ k.entries ≠ []
    · rw [if_pos ⟨hm.1.1, hm.1.2, hcol, hd⟩] at h
      split at h
      · cases h
      · obtain ⟨e, es, hE⟩ := List.exists_cons_of_ne_nil hm.2
        have := ((hs k (by simp) hm.1.1).1 hm.1.2).2 e (by rw [hE]; simp)
        rw [hE] at h
        simp only [markEntries, this.2, Option.isSome_some, if_true, bind, Except.bind] at h
        cases h
    · have hex' : ∃ k ∈ ks, OnMain c k ∧ k.entries ≠ [] := by
        obtain ⟨q, hq, hq2⟩ := hex
        rcases List.mem_cons.1 hq with rfl | hq
        · exact absurd hq2 hm
        · exact ⟨q, hq, hq2⟩
      have hs' : Shaped c (some (d, some v)) ks := fun k hk => hs k (List.mem_cons_of_mem _ hk)
      split at h
      · split at h
        · cases h
        · cases he : markEntries (o.core.vals.head?.map (·.1)) (lookupDir c o.core.colOrig o.core.strategy) k.entries with
          | error e => rw [he] at h; cases h
          | ok es =>
            cases hr : fillMark c o (lookupDir c o.core.colOrig o.core.strategy) ks with
            | error e => rw [he, hr] at h; cases h
            | ok r' => exact ih _ hs' hex' _ hr
      · cases hr : fillMark c o n ks with
        | error e => rw [hr] at h; cases h
        | ok r' => exact ih _ hs' hex' _ hr

/-- The ORDER BY keys that ask for a direction. -/
def directedKeys (c : Cfg) (os : List (Key Q K X)) : List (Key Q K X) :=
  if c.alt = true then (attachKeys os).filter (fun o => lookupDir c o.core.colOrig o.core.strategy != 0) else []

theorem attachKeys_cons (o : Key Q K X) (os : List (Key Q K X)) :
    attachKeys (o :: os) = if (o.orderBy && o.useAddTo) = true then o :: attachKeys os else attachKeys os := by
  simp only [attachKeys, List.filter_cons]

/-- One step of the loop: either the key is not directed and nothing changes, or it is. -/
theorem fillMarks_cons {c : Cfg} (o : Key Q K X) (os keys : List (Key Q K X)) (n : Int) (ha : ∀ k ∈ attachKeys (o :: os), k.col = c.addTo) :
    (∀ k ∈ attachKeys os, k.col = c.addTo) ∧
    ((directedKeys c (o :: os) = directedKeys c os ∧ fillMarks c keys n (o :: os) = fillMarks c keys n os) ∨
     (directedKeys c (o :: os) = o :: directedKeys c os ∧ o.col = c.addTo ∧ lookupDir c o.core.colOrig o.core.strategy ≠ 0 ∧
      fillMarks c keys n (o :: os) = (do let r ← fillMark c o n keys; fillMarks c r.1 r.2 os))) := by
  have ha' : ∀ k ∈ attachKeys os, k.col = c.addTo := by
    intro k hk
    apply ha
    rw [attachKeys_cons]
    split
    · exact List.mem_cons_of_mem _ hk
    · exact hk
  refine ⟨ha', ?_⟩
  by_cases halt : c.alt = true
  · by_cases hat : o.orderBy = true ∧ o.useAddTo = true
    · have hb : (o.orderBy && o.useAddTo) = true := by simp [hat.1, hat.2]
      have hcol : o.col = c.addTo := ha o (by rw [attachKeys_cons, if_pos hb]; simp)
      have hf : fillMarks c keys n (o :: os) = (do let r ← fillMark c o n keys; fillMarks c r.1 r.2 os) := by
        simp only [fillMarks]
        rw [if_pos ⟨halt, hat.1, hat.2, hcol⟩]
      by_cases hd : lookupDir c o.core.colOrig o.core.strategy = 0
      · left
        refine ⟨?_, ?_⟩
        · simp only [directedKeys, if_pos halt, attachKeys_cons, if_pos hb, List.filter_cons, hd]
          simp
        · rw [hf, fillMark_none hd]; rfl
      · right
        refine ⟨?_, hcol, hd, hf⟩
        simp only [directedKeys, if_pos halt, attachKeys_cons, if_pos hb, List.filter_cons]
        simp [hd]
    · left
      refine ⟨?_, ?_⟩
      · have hb : ¬ (o.orderBy && o.useAddTo) = true := by simpa using hat
        simp only [directedKeys, attachKeys_cons, if_neg hb]
      · simp only [fillMarks]
        rw [if_neg (fun h => hat ⟨h.2.1, h.2.2.1⟩)]
  · left
    refine ⟨by simp [directedKeys, halt], ?_⟩
    simp only [fillMarks]
    rw [if_neg (fun h => halt h.1)]

theorem fillMarks_none {c : Cfg} (keys : List (Key Q K X)) (n : Int) : ∀ os : List (Key Q K X), (∀ k ∈ attachKeys os, k.col = c.addTo) →
    (directedKeys c os = [] ∨ ∀ k ∈ keys, ¬ OnMain c k) → fillMarks c keys n os = .ok (keys, n) := by
  intro os
  induction os with
  | nil => intro _ _; rfl
  | cons o os ih =>
    intro ha h
    obtain ⟨ha', h1 | h1⟩ := fillMarks_cons o os keys n ha
    · rw [h1.2]
      exact ih ha' (by rw [← h1.1]; exact h)
    · rcases h with h | h
      · rw [h1.1] at h; cases h
      · rw [h1.2.2.2, fillMark_away keys n h]
        exact ih ha' (.inr h)

theorem fillMarks_first {c : Cfg} (keys : List (Key Q K X)) (hs : Shaped c none keys) (hex : ∃ k ∈ keys, OnMain c k) (o : Key Q K X)
    (rest : List (Key Q K X)) : ∀ os : List (Key Q K X), (∀ k ∈ attachKeys os, k.col = c.addTo) → directedKeys c os = o :: rest →
    ∃ keys' os', fillMarks c keys 0 os = fillMarks c keys' (lookupDir c o.core.colOrig o.core.strategy) os' ∧
      keys'.map ess = keys.map ess ∧
      Shaped c (some (lookupDir c o.core.colOrig o.core.strategy, posOf o)) keys' ∧ directedKeys c os' = rest ∧
      (∀ k ∈ attachKeys os', k.col = c.addTo) := by
  intro os
  induction os with
  | nil => intro _ h; unfold directedKeys at h; split at h <;> cases h
  | cons q os ih =>
    intro ha h
    obtain ⟨ha', h1 | h1⟩ := fillMarks_cons q os keys 0 ha
    · rw [h1.2]
      exact ih ha' (by rw [← h1.1]; exact h)
    · rw [h1.1] at h
      cases h
      obtain ⟨ks', n', hf, h3, h4⟩ := fillMark_first h1.2.1 h1.2.2.1 keys 0 hs (.inl rfl)
      obtain rfl := h4 (.inl hex)
      refine ⟨ks', os, ?_, fillMark_ess hf, h3, rfl, ha'⟩
      rw [h1.2.2.2, hf]
      rfl

theorem fillMarks_second {c : Cfg} {d : Int} {v : K} (keys : List (Key Q K X)) (n : Int) (hs : Shaped c (some (d, some v)) keys)
    (hex : ∃ k ∈ keys, OnMain c k ∧ k.entries ≠ []) : ∀ os : List (Key Q K X), (∀ k ∈ attachKeys os, k.col = c.addTo) → directedKeys c os ≠ [] →
    ∀ r, fillMarks c keys n os ≠ .ok r := by
  intro os
  induction os with
  | nil => intro _ h; unfold directedKeys at h; split at h <;> exact absurd rfl h
  | cons q os ih =>
    intro ha h r
    obtain ⟨ha', h1 | h1⟩ := fillMarks_cons q os keys n ha
    · rw [h1.2]
      exact ih ha' (by rw [← h1.1]; exact h) r
    · rw [h1.2.2.2]
      intro hr
      cases hf : fillMark c q n keys with
      | error e => rw [hf] at hr; cases hr
      | ok r' => exact fillMark_second h1.2.1 h1.2.2.1 keys n hs hex _ hf

/-- adjustScanDirection finds nothing to adjust. -/
theorem adjust_noop {c : Cfg} {n : Int} : ∀ ps : List (PKey Q K X), (n = 0 ∨ ∀ p ∈ ps, OnMain c p.key → p.key.dir = n) → adjust c n ps = .ok ps := by
  intro ps
  induction ps with
  | nil => intro _; rfl
  | cons p ps ih =>
    intro h
    simp only [adjust]
    rw [if_neg, ih]
    · rfl
    · rcases h with h | h
      · exact .inl h
      · exact .inr (fun p hp => h p (List.mem_cons_of_mem _ hp))
    · rintro ⟨h1, h2, h3, h4⟩
      rcases h with h | h
      · exact h1 h
      · exact h4 (h p (by simp) ⟨h2, h3⟩)

theorem regroup_mem {c : Cfg} {ks : List (Key Q K X)} {p : PKey Q K X} (h : p ∈ regroup c ks) : p.key ∈ ks := by
  unfold regroup at h
  split at h
  · exact (regroupGo_mem c _ ks false p h).1
  · obtain ⟨k, hk, rfl⟩ := List.mem_map.1 h
    exact hk

/-! ### The plan -/

/-- The directed ORDER BY operators of the query, in order. -/
def directedOf (c : Cfg) (ex : InKey Q → Extr K X) (orders : List (InKey Q)) : List (InKey Q) :=
  if c.alt = true then orders.filter (fun o => decide (Satisfiable ex o ∧ o.col = c.attach) && (((c.dirs c.attach).lookup o.strategy).getD 0 != 0)) else []

theorem mem_directedOf {c : Cfg} {ex : InKey Q → Extr K X} {orders : List (InKey Q)} {o : InKey Q} :
    o ∈ directedOf c ex orders ↔ o ∈ orders ∧ ∃ d, Directed c ex d o := by
  unfold directedOf Directed
  by_cases ha : c.alt = true
  · rw [if_pos ha, List.mem_filter]
    simp only [ha, true_and, Bool.and_eq_true, decide_eq_true_eq, bne_iff_ne, ne_eq]
    constructor
    · rintro ⟨h1, ⟨h2, h3⟩, h4⟩
      cases hl : (c.dirs c.attach).lookup o.strategy with
      | none => rw [hl] at h4; exact absurd rfl h4
      | some d => rw [hl] at h4; exact ⟨h1, d, h2, h3, rfl, h4⟩
    · rintro ⟨h1, d, h2, h3, h4, h5⟩
      exact ⟨h1, ⟨h2, h3⟩, by rw [h4]; exact h5⟩
  · rw [if_neg ha]
    simp [ha]

/-- Everything before the marks. -/
theorem keys_before {c : Cfg} {ex : InKey Q → Extr K X} {filters orders : List (InKey Q)} {st1 st2 st3 : St Q K X}
    (hf : ∀ k ∈ filters, k.orderBy = false) (ho : ∀ k ∈ orders, k.orderBy = true)
    (h1 : initFilters c ex ⟨[], false, false⟩ filters = .ok st1) (h2 : addEvery c st1 = .ok st2) (h3 : initOrders c ex st2 orders = .ok st3) :
    Shaped c none st3.keys ∧ (∀ k ∈ attachKeys st3.keys, k.col = c.addTo) ∧
    (directedKeys c st3.keys).map (·.core) = (directedOf c ex orders).map (coreOf ex) := by
  obtain ⟨a1, a2⟩ := initFilters_shaped filters _ st1 hf h1 (by intro k hk; cases hk) rfl
  have b : Shaped c none st2.keys ∧ attachKeys st2.keys = [] := by
    unfold addEvery at h2
    split at h2
    · obtain ⟨r1, r2, r3⟩ := fillKey_shaped h2 a1 (by simp [a2])
      exact ⟨r1, by simpa [a2] using r3⟩
    · cases h2; exact ⟨a1, a2⟩
  obtain ⟨c1, c2, c3⟩ := initOrders_shaped orders st2 st3 ho h3 b.1 (by simp [b.2])
  refine ⟨c1, c2, ?_⟩
  rw [b.2, List.map_nil, List.nil_append] at c3
  unfold directedKeys directedOf
  split
  · have e1 : ((attachKeys st3.keys).filter (fun o => lookupDir c o.core.colOrig o.core.strategy != 0)).map (·.core) =
        ((attachKeys st3.keys).map (·.core)).filter (fun q => lookupDir c q.colOrig q.strategy != 0) := by
      rw [List.filter_map]; rfl
    rw [e1, c3, List.filter_map, List.filter_filter]
    congr 1
    apply List.filter_congr
    intro o ho'
    simp only [Function.comp_apply, coreOf, lookupDir]
    by_cases hc : o.col = c.attach
    · rw [hc, Bool.and_comm]
    · simp [hc]
  · rfl

/-- The way the plan is made. -/
theorem plan_parts {c : Cfg} {ex : InKey Q → Extr K X} {filters orders : List (InKey Q)} {p : Plan Q K X}
    (h : newScanKey c ex filters orders = .ok p) :
    ∃ st1 st2 st3 r ps, initFilters c ex ⟨[], false, false⟩ filters = .ok st1 ∧ addEvery c st1 = .ok st2 ∧ initOrders c ex st2 orders = .ok st3 ∧
      fillMarks c st3.keys 0 st3.keys = .ok r ∧ adjust c r.2 (regroup c (r.1.map (fun k => { k with willSort := st3.willSort }))) = .ok ps ∧
      p.natural = r.2 ∧ p.void = st3.void ∧ (p.keys = ps ∨ p.keys = markFirst ps) := by
  unfold newScanKey at h
  cases h1 : initFilters c ex ⟨[], false, false⟩ filters with
  | error e => rw [h1] at h; cases h
  | ok st1 =>
    rw [h1] at h
    simp only [bind, Except.bind] at h
    cases h2 : addEvery c st1 with
    | error e => rw [h2] at h; cases h
    | ok st2 =>
      rw [h2] at h
      simp only at h
      cases h3 : initOrders c ex st2 orders with
      | error e => rw [h3] at h; cases h
      | ok st3 =>
        rw [h3] at h
        simp only at h
        cases h4 : fillMarks c st3.keys 0 st3.keys with
        | error e => rw [h4] at h; cases h
        | ok r =>
          rw [h4] at h
          simp only at h
          cases h5 : adjust c r.2 (regroup c (r.1.map (fun k => { k with willSort := st3.willSort }))) with
          | error e => rw [h5] at h; cases h
          | ok ps =>
            rw [h5] at h
            simp only [Except.ok.injEq] at h
            subst h
            refine ⟨st1, st2, st3, r, ps, rfl, h2, h3, h4, h5, rfl, rfl, ?_⟩
            show (if _ then markFirst ps else ps) = ps ∨ (if _ then markFirst ps else ps) = markFirst ps
            split
            · exact .inr rfl
            · exact .inl rfl

theorem markFirst_reads {ps : List (PKey Q K X)} {q : PKey Q K X} (h : q ∈ markFirst ps) :
    ∃ q' ∈ ps, q.key.orderBy = q'.key.orderBy ∧ q.key.col = q'.key.col ∧ (∀ d m, Reads q'.key d m → Reads q.key d m) := by
  cases ps with
  | nil => cases h
  | cons p ps =>
    rcases List.mem_cons.1 h with rfl | h
    · refine ⟨p, by simp, rfl, rfl, ?_⟩
      rintro d m ⟨h1, h2⟩
      refine ⟨h1, ?_⟩
      cases hE : p.key.entries with
      | nil => simp
      | cons e es =>
        rw [hE] at h2
        intro e' he'
        rcases List.mem_cons.1 he' with rfl | he'
        · exact h2 e (by simp)
        · exact h2 e' (List.mem_cons_of_mem _ he')
    · exact ⟨q, List.mem_cons_of_mem _ h, rfl, rfl, fun _ _ h => h⟩

/-- Shaped keys make a shaped plan. -/
theorem plan_shaped {c : Cfg} {ks : List (Key Q K X)} {w : Bool} {n : Int} {s : Option (Int × Option K)} {ps : List (PKey Q K X)} (hs : Shaped c s ks)
    (hn : n = 0 ∨ ∃ m, s = some (n, m)) (h : adjust c n (regroup c (ks.map (fun k => { k with willSort := w }))) = .ok ps) :
    Shaped c s (ps.map (·.key)) ∧ Shaped c s ((markFirst ps).map (·.key)) ∧ ps = regroup c (ks.map (fun k => { k with willSort := w })) := by
  have hs' : Shaped c s (ks.map (fun k => { k with willSort := w })) := by
    intro k hk hko
    obtain ⟨k', hk', rfl⟩ := List.mem_map.1 hk
    exact hs k' hk' hko
  have hr : Shaped c s ((regroup c (ks.map (fun k => { k with willSort := w }))).map (·.key)) := by
    intro k hk hko
    obtain ⟨q, hq, rfl⟩ := List.mem_map.1 hk
    exact hs' _ (regroup_mem hq) hko
  have hno : adjust c n (regroup c (ks.map (fun k => { k with willSort := w }))) = .ok (regroup c (ks.map (fun k => { k with willSort := w }))) := by
    apply adjust_noop
    rcases hn with hn | ⟨m, rfl⟩
    · exact .inl hn
    · right
      intro q hq hm
      exact ((hr _ (List.mem_map.2 ⟨q, hq, rfl⟩) hm.1).1 hm.2).1
  rw [hno] at h
  cases h
  refine ⟨hr, ?_, rfl⟩
  intro k hk hko
  obtain ⟨q, hq, rfl⟩ := List.mem_map.1 hk
  obtain ⟨q', hq', e1, e2, e3⟩ := markFirst_reads hq
  have := hr _ (List.mem_map.2 ⟨q', hq', rfl⟩) (by rw [← e1]; exact hko)
  cases s with
  | none => exact e3 _ _ this
  | some dm =>
    obtain ⟨d, m⟩ := dm
    exact ⟨fun h => e3 _ _ (this.1 (by rw [← e2]; exact h)), fun h => e3 _ _ (this.2 (by rw [← e2]; exact h))⟩

theorem onMain_of_ess {c : Cfg} {ks ks' : List (Key Q K X)} (h : ks'.map ess = ks.map ess) {k : Key Q K X} (hk : k ∈ ks) (hm : OnMain c k) :
    ∃ k' ∈ ks', OnMain c k' ∧ (k.entries ≠ [] → k'.entries ≠ []) := by
  have : ess k ∈ ks'.map ess := by rw [h]; exact List.mem_map.2 ⟨k, hk, rfl⟩
  obtain ⟨k', hk', he⟩ := List.mem_map.1 this
  refine ⟨k', hk', ?_, ?_⟩
  · unfold OnMain
    simp only [ess, Prod.mk.injEq] at he
    rw [he.2.2.1, he.2.1]; exact hm
  · intro hne hnil
    simp only [ess, Prod.mk.injEq] at he
    rw [hnil] at he
    exact hne (List.map_eq_nil_iff.1 he.2.2.2.symm)

/-- A key of the plan that filters comes from a key before the marks. -/
theorem plan_key {c : Cfg} {ks : List (Key Q K X)} {w : Bool} {ps qs : List (PKey Q K X)} (hps : ps = regroup c (ks.map (fun k => { k with willSort := w })))
    (hqs : qs = ps ∨ qs = markFirst ps) {q : PKey Q K X} (hq : q ∈ qs) (hm : OnMain c q.key) : ∃ k ∈ ks, OnMain c k := by
  have : ∃ q' ∈ ps, OnMain c q'.key := by
    rcases hqs with rfl | rfl
    · exact ⟨q, hq, hm⟩
    · obtain ⟨q', hq', e1, e2, -⟩ := markFirst_reads hq
      exact ⟨q', hq', by unfold OnMain; rw [← e1, ← e2]; exact hm⟩
  obtain ⟨q', hq', hm'⟩ := this
  rw [hps] at hq'
  obtain ⟨k, hk, he⟩ := List.mem_map.1 (regroup_mem hq')
  refine ⟨k, hk, ?_⟩
  rw [← he] at hm'
  exact hm'

/-- **C60, directed ordering.** If setup accepts a query whose ORDER BY contains a directed operator on the attached column with argument `v`, then every
WHERE condition on the main column reads its entries in that direction starting from `v`, and conditions on the other columns read forward from the beginning.
If there is a condition on the main column, rows are taken in the order of the index (`natural`). -/
theorem C60_directed {c : Cfg} {ex : InKey Q → Extr K X} {filters orders : List (InKey Q)} {p : Plan Q K X} {o : InKey Q} {d : Int} {v : K}
    (hf : ∀ k ∈ filters, k.orderBy = false) (ho : ∀ k ∈ orders, k.orderBy = true) (h : newScanKey c ex filters orders = .ok p)
    (hv : p.void = false) (hvals : ∀ o ∈ orders, (ex o).vals ≠ []) (hmem : o ∈ orders) (hd : Directed c ex d o) (harg : (ex o).vals.head?.map (·.1) = some v)
    {q : PKey Q K X} (hq : q ∈ p.keys) (hw : q.key.orderBy = false) :
    (q.key.col = c.addTo → p.natural = d ∧ q.key.dir = d ∧ ∀ e ∈ q.key.entries, e.dir = d ∧ e.mark = some v) ∧
    (q.key.col ≠ c.addTo → q.key.dir = 1 ∧ ∀ e ∈ q.key.entries, e.dir = 1 ∧ e.mark = none) := by
  obtain ⟨st1, st2, st3, r, ps, h1, h2, h3, h4, h5, h6, h6v, h7⟩ := plan_parts h
  obtain ⟨k1, k2, k3⟩ := keys_before hf ho h1 h2 h3
  by_cases hex : ∃ k ∈ st3.keys, OnMain c k
  · -- the directed operators
    have hmd : o ∈ directedOf c ex orders := mem_directedOf.2 ⟨hmem, d, hd⟩
    cases hD : directedKeys c st3.keys with
    | nil =>
      rw [hD] at k3
      have : directedOf c ex orders = [] := List.map_eq_nil_iff.1 k3.symm
      rw [this] at hmd; cases hmd
    | cons a rest =>
      obtain ⟨keys', os', e1, e2, e3, e4, e5⟩ := fillMarks_first st3.keys k1 hex a rest st3.keys k2 hD
      rw [e1] at h4
      cases hO : directedOf c ex orders with
      | nil => rw [hO] at hmd; cases hmd
      | cons b brest =>
        rw [hD, hO] at k3
        simp only [List.map_cons, List.cons.injEq] at k3
        have hb : b ∈ orders := (mem_directedOf.1 (by rw [hO]; simp : b ∈ directedOf c ex orders)).1
        have hpos : posOf a = (ex b).vals.head?.map (·.1) := by unfold posOf; rw [k3.1]; rfl
        obtain ⟨vb, hvb⟩ : ∃ vb, posOf a = some vb := by
          rw [hpos]
          have := hvals b hb
          cases hE : (ex b).vals with
          | nil => exact absurd hE this
          | cons x xs => exact ⟨x.1, rfl⟩
        have hrest : rest = [] := by
          by_contra hne
          obtain ⟨k, hk, hm⟩ := hex
          have hent : k.entries ≠ [] := by
            obtain ⟨n1, n2⟩ := initFilters_ok filters _ st1 hf rfl h1
            obtain ⟨g1, L, g2, g3, g4⟩ := initOrders_ok orders st2 st3 ho h3
            have hk' : ess k ∈ st3.keys.map ess := List.mem_map.2 ⟨k, hk, rfl⟩
            rw [g2] at hk'
            rcases List.mem_append.1 hk' with hk' | hk'
            · have hvoid : st2.void = st1.void := by
                unfold addEvery at h2
                split at h2
                · exact (fillKey_filter h2).1
                · cases h2; rfl
              have hv1 : st1.void = false := by rw [← hvoid, ← g1, ← h6v]; exact hv
              have n2 := n2 hv1
              simp only [List.map_nil, List.nil_append] at n2
              have hfil : ∀ x ∈ st1.keys.map (ess (Q := Q) (K := K) (X := X)), x.2.2.2 ≠ [] := by
                rw [n2]
                intro x hx
                obtain ⟨f, hfm, rfl⟩ := List.mem_map.1 hx
                have hsat : Satisfiable ex f := by
                  by_contra hns
                  rw [n1.2 ⟨f, hfm, hns⟩] at hv1
                  cases hv1
                show entriesOf ex f ≠ []
                unfold entriesOf
                rcases hsat.2 with hh | hh
                · cases hE : (ex f).vals with
                  | nil => exact absurd hE hh
                  | cons y ys => simp [List.mapIdx_cons]
                · have : (coreOf ex f).mode ≠ 0 := by
                    simp only [coreOf]; split <;> omega
                  simp [this]
              have hfil2 : ∀ x ∈ st2.keys.map (ess (Q := Q) (K := K) (X := X)), x.2.2.2 ≠ [] := by
                unfold addEvery at h2
                split at h2
                · rw [(fillKey_filter h2).2]
                  intro x hx
                  rcases List.mem_append.1 hx with hx | hx
                  · exact hfil x hx
                  · cases List.mem_singleton.1 hx
                    simp
                · cases h2; exact hfil
              intro hnil
              exact hfil2 _ hk' (by simp [ess, hnil])
            · obtain ⟨l, hl, he⟩ := List.mem_map.1 hk'
              simp only [ess, Prod.mk.injEq] at he
              have := g3 l hl
              rw [he.2.2.1, hm.1] at this
              cases this
          obtain ⟨k', hk', hm', hent'⟩ := onMain_of_ess e2 hk hm
          rw [hvb] at e3
          exact fillMarks_second keys' _ e3 ⟨k', hk', hm', hent' hent⟩ os' e5 (by rw [e4]; exact hne) r h4
        have hbo : b = o := by
          have : brest = [] := by
            have := k3.2
            rw [hrest] at this
            exact List.map_eq_nil_iff.1 this.symm
          rw [hO, this] at hmd
          exact (List.mem_singleton.1 hmd).symm
        subst hbo
        have hlook : lookupDir c a.core.colOrig a.core.strategy = d := by
          rw [k3.1]
          simp only [coreOf, lookupDir]
          rw [hd.2.2.1, hd.2.2.2.1]
          rfl
        rw [hlook] at h4 e3
        rw [hpos, harg] at e3
        rw [fillMarks_none keys' d os' e5 (.inl (by rw [e4]; exact hrest))] at h4
        cases h4
        obtain ⟨s1, s2, s3⟩ := plan_shaped e3 (.inr ⟨_, rfl⟩) h5
        have hS : Shaped c (some (d, some v)) (p.keys.map (·.key)) := by
          rcases h7 with h7 | h7 <;> rw [h7]
          · exact s1
          · exact s2
        have := hS _ (List.mem_map.2 ⟨q, hq, rfl⟩) hw
        exact ⟨fun hc => ⟨h6, this.1 hc⟩, this.2⟩
  · have hno : ∀ k ∈ st3.keys, ¬ OnMain c k := fun k hk hm => hex ⟨k, hk, hm⟩
    rw [fillMarks_none st3.keys 0 st3.keys k2 (.inr hno)] at h4
    cases h4
    obtain ⟨s1, s2, s3⟩ := plan_shaped k1 (.inl rfl) h5
    have hS : Shaped c none (p.keys.map (·.key)) := by
      rcases h7 with h7 | h7 <;> rw [h7]
      · exact s1
      · exact s2
    refine ⟨fun hc => ?_, fun _ => hS _ (List.mem_map.2 ⟨q, hq, rfl⟩) hw⟩
    obtain ⟨k, hk, hm⟩ := plan_key s3 h7 hq ⟨hw, hc⟩
    exact absurd hm (hno k hk)

/-- **C60, no directed ordering.** Otherwise every condition reads forward from the beginning, and the order of the index is not relied on. -/
theorem C60_undirected {c : Cfg} {ex : InKey Q → Extr K X} {filters orders : List (InKey Q)} {p : Plan Q K X}
    (hf : ∀ k ∈ filters, k.orderBy = false) (ho : ∀ k ∈ orders, k.orderBy = true) (h : newScanKey c ex filters orders = .ok p)
    (hd : ∀ o ∈ orders, ∀ d, ¬ Directed c ex d o) :
    p.natural = 0 ∧ ∀ q ∈ p.keys, q.key.orderBy = false → q.key.dir = 1 ∧ ∀ e ∈ q.key.entries, e.dir = 1 ∧ e.mark = none := by
  obtain ⟨st1, st2, st3, r, ps, h1, h2, h3, h4, h5, h6, -, h7⟩ := plan_parts h
  obtain ⟨k1, k2, k3⟩ := keys_before hf ho h1 h2 h3
  have hO : directedOf c ex orders = [] := by
    cases hO : directedOf c ex orders with
    | nil => rfl
    | cons b bs =>
      obtain ⟨hb, d, hbd⟩ := mem_directedOf.1 (by rw [hO]; simp : b ∈ directedOf c ex orders)
      exact absurd hbd (hd b hb d)
  rw [hO] at k3
  rw [fillMarks_none st3.keys 0 st3.keys k2 (.inl (List.map_eq_nil_iff.1 k3))] at h4
  cases h4
  obtain ⟨s1, s2, -⟩ := plan_shaped k1 (.inl rfl) h5
  refine ⟨h6, fun q hq hw => ?_⟩
  rcases h7 with h7 | h7 <;> rw [h7] at hq
  · exact s1 _ (List.mem_map.2 ⟨q, hq, rfl⟩) hw
  · exact s2 _ (List.mem_map.2 ⟨q, hq, rfl⟩) hw

/-! ### Errors -/

/-- The errors about directions. -/
def dirErrors : List String := ["Could not scan in differ directions at the same time", "could not order by more than one operator"]

theorem linkCurKey_err {col : Nat} : ∀ {ks : List (Key Q K X)} {m : String}, linkCurKey col ks = .error m → m ∉ dirErrors := by
  intro ks
  induction ks with
  | nil => intro m h; cases h; decide
  | cons k ks ih =>
    intro m h
    simp only [linkCurKey] at h
    split at h
    · split at h
      · cases h; decide
      split at h
      · cases h; decide
      · cases h
    · cases hr : linkCurKey col ks with
      | error e => rw [hr] at h; cases h; exact ih hr
      | ok r => rw [hr] at h; cases h

theorem userEntries_err (c : Cfg) (col strategy : Nat) (mode : Int) (pm : Option (Nat → Bool)) (extra : Option (Nat → X)) :
    ∀ (vs : List (K × Bool)) (i : Nat) (m : String), userEntries c col strategy mode pm extra i vs = .error m → m ∉ dirErrors := by
  intro vs
  induction vs with
  | nil => intro i m h; cases h
  | cons v vs ih =>
    intro i m h
    obtain ⟨k, null⟩ := v
    simp only [userEntries] at h
    split at h
    · cases h; decide
    · cases hr : userEntries c col strategy mode pm extra (i + 1) vs with
      | error e => rw [hr] at h; cases h; exact ih _ _ hr
      | ok r => rw [hr] at h; cases h

theorem fillKey_err {c : Cfg} {st : St Q K X} {col strategy mode query vals pm extra orderBy} {m : String}
    (h : fillKey c st col strategy mode query vals pm extra orderBy = .error m) : m ∉ dirErrors := by
  unfold fillKey at h
  simp only at h
  generalize vals.length + (if mode = 0 then 0 else 1) = n at h
  split at h
  · split at h
    · cases h; decide
    split at h
    · cases h; decide
    split at h
    · split at h
      · cases h; decide
      · cases h
    · cases hl : linkCurKey col st.keys with
      | error e => rw [hl] at h; cases h; exact linkCurKey_err hl
      | ok ks => rw [hl] at h; cases h
  split at h
  · cases h; decide
  · cases hu : userEntries c col strategy mode pm extra 0 vals with
    | error e => rw [hu] at h; cases h; exact userEntries_err _ _ _ _ _ _ _ _ _ hu
    | ok us =>
      cases hh : (hiddenEntry col mode : Except String (List (Entry K X))) with
      | error e =>
        rw [hu, hh] at h; cases h
        unfold hiddenEntry at hh
        split at hh
        · cases hh
        split at hh
        · cases hh
        split at hh
        · cases hh
        · cases hh; decide
      | ok hs' => rw [hu, hh] at h; cases h

theorem init_err {c : Cfg} {ex : InKey Q → Extr K X} {st : St Q K X} {k : InKey Q} {m : String} (h : initScanKey c ex st k = .error m) : m ∉ dirErrors := by
  unfold initScanKey at h
  split at h
  · cases h
  split at h
  · cases h
  · exact fillKey_err h

theorem initFilters_err {c : Cfg} {ex : InKey Q → Extr K X} : ∀ (fs : List (InKey Q)) (st : St Q K X) (m : String),
    initFilters c ex st fs = .error m → m ∉ dirErrors := by
  intro fs
  induction fs with
  | nil => intro st m h; cases h
  | cons k fs ih =>
    intro st m h
    simp only [initFilters] at h
    cases hk : initScanKey c ex st k with
    | error e => rw [hk] at h; cases h; exact init_err hk
    | ok st1 =>
      rw [hk] at h
      simp only [bind, Except.bind] at h
      split at h
      · cases h
      · exact ih _ _ h

theorem initOrders_err {c : Cfg} {ex : InKey Q → Extr K X} : ∀ (fs : List (InKey Q)) (st : St Q K X) (m : String),
    initOrders c ex st fs = .error m → m ∉ dirErrors := by
  intro fs
  induction fs with
  | nil => intro st m h; cases h
  | cons k fs ih =>
    intro st m h
    simp only [initOrders] at h
    cases hk : initScanKey c ex st k with
    | error e => rw [hk] at h; cases h; exact init_err hk
    | ok st1 => rw [hk] at h; exact ih _ _ h

/-- **C60, no spurious rejection.** A query is rejected because of its directions only if its ORDER BY has two directed operators on the attached column. -/
theorem C60_rejects {c : Cfg} {ex : InKey Q → Extr K X} {filters orders : List (InKey Q)} {m : String}
    (hf : ∀ k ∈ filters, k.orderBy = false) (ho : ∀ k ∈ orders, k.orderBy = true) (h : newScanKey c ex filters orders = .error m)
    (hm : m = "Could not scan in differ directions at the same time" ∨ m = "could not order by more than one operator") :
    ∃ o o', [o, o'].Sublist orders ∧ (∃ d, Directed c ex d o) ∧ (∃ d, Directed c ex d o') := by
  have hm' : m ∈ dirErrors := by simpa [dirErrors] using hm
  by_contra hno
  have hD : directedOf c ex orders = [] ∨ ∃ o, directedOf c ex orders = [o] := by
    cases hO : directedOf c ex orders with
    | nil => exact .inl rfl
    | cons a l =>
      cases l with
      | nil => exact .inr ⟨a, rfl⟩
      | cons b l =>
        exfalso
        apply hno
        refine ⟨a, b, ?_, (mem_directedOf.1 (by rw [hO]; simp : a ∈ directedOf c ex orders)).2,
          (mem_directedOf.1 (by rw [hO]; simp : b ∈ directedOf c ex orders)).2⟩
        have h1 : (directedOf c ex orders).Sublist orders := by
          unfold directedOf
          split
          · exact List.filter_sublist
          · exact List.nil_sublist _
        rw [hO] at h1
        exact List.Sublist.trans (by simp) h1
  unfold newScanKey at h
  cases h1 : initFilters c ex ⟨[], false, false⟩ filters with
  | error e => rw [h1] at h; cases h; exact initFilters_err _ _ _ h1 hm'
  | ok st1 =>
    rw [h1] at h
    simp only [bind, Except.bind] at h
    cases h2 : addEvery c st1 with
    | error e =>
      rw [h2] at h; cases h
      unfold addEvery at h2
      split at h2
      · exact fillKey_err h2 hm'
      · cases h2
    | ok st2 =>
      rw [h2] at h
      simp only at h
      cases h3 : initOrders c ex st2 orders with
      | error e => rw [h3] at h; cases h; exact initOrders_err _ _ _ h3 hm'
      | ok st3 =>
        rw [h3] at h
        simp only at h
        obtain ⟨k1, k2, k3⟩ := keys_before hf ho h1 h2 h3
        have key : ∃ s keys n, fillMarks c st3.keys 0 st3.keys = .ok (keys, n) ∧ Shaped c s keys ∧ (n = 0 ∨ ∃ m, s = some (n, m)) := by
          by_cases hex : ∃ k ∈ st3.keys, OnMain c k
          · rcases hD with hD | ⟨o, hD⟩
            · rw [hD] at k3
              exact ⟨none, _, _, fillMarks_none st3.keys 0 st3.keys k2 (.inl (List.map_eq_nil_iff.1 k3)), k1, .inl rfl⟩
            · rw [hD] at k3
              cases hE : directedKeys c st3.keys with
              | nil => rw [hE] at k3; cases k3
              | cons a rest =>
                rw [hE] at k3
                simp only [List.map_cons, List.map_nil, List.cons.injEq] at k3
                have hr : rest = [] := List.map_eq_nil_iff.1 k3.2
                obtain ⟨keys', os', e1, e2, e3, e4, e5⟩ := fillMarks_first st3.keys k1 hex a rest st3.keys k2 hE
                exact ⟨_, _, _, by rw [e1, fillMarks_none keys' _ os' e5 (.inl (by rw [e4]; exact hr))], e3, .inr ⟨_, rfl⟩⟩
          · exact ⟨none, _, _, fillMarks_none st3.keys 0 st3.keys k2 (.inr (fun k hk hm => hex ⟨k, hk, hm⟩)), k1, .inl rfl⟩
        obtain ⟨s, keys, n, h4, h5, h6⟩ := key
        rw [h4] at h
        simp only at h
        have : ∃ ps, adjust c n (regroup c (keys.map (fun k => { k with willSort := st3.willSort }))) = .ok ps := by
          refine ⟨_, adjust_noop _ ?_⟩
          rcases h6 with h6 | ⟨m, rfl⟩
          · exact .inl h6
          · right
            intro q hq hq2
            obtain ⟨k, hk, he⟩ := List.mem_map.1 (regroup_mem hq)
            rw [← he] at hq2 ⊢
            exact ((h5 k hk hq2.1).1 hq2.2).1
        obtain ⟨ps, hps⟩ := this
        rw [hps] at h
        cases h

/-- The example: `WHERE text @@ '10 & 11' AND col3 = 5 ORDER BY number <=| 4` reads both text entries backward from 4 and column 3 forward. -/
theorem C60_witness :
    ((newScanKey exCfg exExtract [wh 1 1 [10, 11], wh 3 3 [5]] [ob 2 21 [4]]).toOption.map (fun p =>
      (p.void, p.natural, p.keys.map (fun k => (k.key.col, k.key.dir, k.key.entries.map (fun e => (e.dir, e.mark))))))) =
      some (false, -1, [(1, -1, [(-1, some 4), (-1, some 4)]), (3, 1, [(1, none)]), (1, 1, [])]) ∧
    Directed exCfg exExtract (-1) (ob 2 21 [4]) ∧
    newScanKey exCfg exExtract [wh 1 1 [10]] [ob 2 21 [4], ob 2 22 [4]] = .error "Could not scan in differ directions at the same time" := by
  refine ⟨by with_unfolding_all rfl, ⟨rfl, ⟨by decide, by decide⟩, rfl, by decide, by decide⟩, rfl⟩

end Rum.Props.ScanDirection

import Verif.IndexWalkStep
/-!
# C74: range, prefix and whole-index searches while rows are inserted and searched and VACUUM runs
-/
namespace Rum.Props.IndexWalk
open Rum Rum.Codec Rum.Leaf Rum.Entry Rum.Tree Rum.Index Rum.Extract Rum.Props Rum.Props.PostingTree Rum.Props.Index Rum.Props.Bulk
  Rum.Props.IndexVacuum Rum.Props.Collect Std
open Rum.Props.IndexConc (calm mem_entries entryOf_iff)
open Rum.Props.IndexVacConc (Over after begun BeingInserted BeingRemoved)

variable {V : Type}

/-! ### Specification -/

/-- What can happen: what could happen in C64; backend `i`, not busy, begins a search in column `a` for all keys that `lk` wants; the search of backend `i` visits the leaf its
descent has come to, or the next page, or locks its page again after a posting tree, or visits the next page to find its place again; the search
is given up. -/
inductive Event (V : Type) where
  | base (e : IndexVacConc.Event V)
  | begin (i a : Nat) (lk : Look V)
  | leaf (i : Nat)
  | page (i : Nat)
  | relock (i : Nat)
  | seek (i : Nat)
  | abort (i : Nat)

/-- The events of C64. -/
def bases : List (Event V) → List (IndexVacConc.Event V)
  | [] => []
  | .base e :: es => e :: bases es
  | _ :: es => bases es

/-- The event is not the beginning of another such search of backend `j`. -/
def Event.leaves (j : Nat) : Event V → Bool
  | .begin i _ _ => i != j
  | _ => true

/-- The event is not the beginning of anything new of backend `j`. -/
def Event.keeps (j : Nat) : Event V → Bool
  | .base e => e.leaves j
  | .begin i _ _ => i != j
  | _ => true

/-- A search of backend `i` is under way. -/
def Busy (z : WNet V) (i : Nat) : Prop := ∃ w, z.walk i = some w ∧ ¬ w.over

/-- No other backend keeps page `b` of the entry tree locked. -/
def Unlocked (z : WNet V) (i b : Nat) : Prop := ∀ j, j ≠ i → holds (z.v.net.eth j) ≠ some b

section
variable (ix : Ix V) [Inhabited V] (rc : RowCfg V) (M : Lim)

/-- What a backend with such a search under way does not do: begin something else, or take the leaf of its descent for that of an exact search. -/
def Allowed (z : WNet V) : IndexVacConc.Event V → Prop
  | .insert i _ | .read i _ _ | .stop i => ¬ Busy z i
  | .entry i => ∀ w xs b up, z.walk i = some w → w.pos = .down → z.v.net.eth i = .ins xs b up → ix.stops z.v.net.st.entry w.key b = false
  | _ => True

/-- The events that can happen and what they do. -/
def Fires : Event V → WNet V → WNet V → Prop
  | .base e, y, z => Allowed ix y e ∧ IndexVacConc.Fires ix rc M e y.v z.v ∧ z.walk = y.walk
  | .begin i a lk, y, z => (y.v.net.job i).free = true ∧ ¬ Busy y i ∧ lk.mode ≠ .exact ∧ LookOK (ix.cmpK a) lk ∧
      z = y.go i ⟨a, lk, .down⟩ ((y.v.net.setE i (descent ⟨a, lk.cat, lk.key⟩)).setJ i (.read ⟨a, lk.cat, lk.key⟩ false), .down)
  | .leaf i, y, z => ∃ w xs b up, y.walk i = some w ∧ w.pos = .down ∧ y.v.net.eth i = .ins xs b up ∧ ix.stops y.v.net.st.entry w.key b = true ∧
      Unlocked y i b ∧ z = y.go i w (ix.walkLeaf y.v.net i b w)
  | .page i, y, z => ∃ w b acc, y.walk i = some w ∧ w.pos = .page b acc ∧ Unlocked y i b ∧ z = y.go i w (ix.walkPage y.v.net i b w acc)
  | .relock i, y, z => ∃ w k b off acc R, y.walk i = some w ∧ w.pos = .tree k b off acc ∧ y.v.net.job i = .answer k false R ∧ Unlocked y i b ∧
      z = y.go i w (ix.walkBack y.v.net i b off w k (acc ++ R))
  | .seek i, y, z => ∃ w k b acc, y.walk i = some w ∧ w.pos = .seek k b acc ∧ Unlocked y i b ∧ z = y.go i w (ix.walkOn y.v.net i b w k acc)
  | .abort i, y, z => Busy y i ∧ z = ⟨⟨y.v.net.quit i .idle, y.v.vac⟩, fun j => if j = i then none else y.walk j⟩

/-- A sequence of events. -/
inductive Run : WNet V → List (Event V) → WNet V → Prop
  | refl (n : WNet V) : Run n [] n
  | snoc {n n' n'' : WNet V} {es : List (Event V)} {e : Event V} : Run n es n' → Fires ix rc M e n' n'' → Run n (es ++ [e]) n''
end

/-! ### Proof apparatus -/

section
variable {ix : Ix V} [Inhabited V] {rc : RowCfg V} {M : Lim} {U cur : List (Row V)} {g : VC.Gh V} {P : Nat → AttKey V → Item Datum → Prop}
  {Q : Nat → Prop}

omit [Inhabited V] in
theorem bases_append (a b : List (Event V)) : bases (a ++ b) = bases a ++ bases b := by
  induction a with
  | nil => rfl
  | cons e a ih => cases e <;> simp [bases, ih]

/-- What is known. `P i`: the rows that backend `i` must find; `Q`: the backends whose ended searches matter. -/
structure WTrack (ix : Ix V) [Inhabited V] (rc : RowCfg V) (M : Lim) (U cur : List (Row V)) (g : VC.Gh V) (P : Nat → AttKey V → Item Datum → Prop) (Q : Nat → Prop)
    (z : WNet V) : Prop where
  track : IndexVacConc.Track ix rc M U cur g z.v
  walks : ∀ i w, z.walk i = some w → ¬ w.over ∨ Q i → VC.WalkOK ix g z.v.net i (P i) w
  small : ∀ i, ∀ y ∈ g.S i, ∃ k, g.r.P k y

/-- The backend of a search, while others (or itself in a tree) go on. -/
theorem shape_base (hc : ColsOK ix M) {y z : WNet V} {e : IndexVacConc.Event V} {g' : VC.Gh V} (T : WTrack ix rc M U cur g P Q y)
    (ha : Allowed ix y e) (hf : IndexVacConc.Fires ix rc M e y.v z.v) (I' : VC.NInv ix M g' z.v.vac z.v.net) (hS : ∀ j, e.leaves j = true → g'.S j = g.S j)
    {i : Nat} {w : Walker V} (hw : y.walk i = some w) (h : VC.WalkOK ix g y.v.net i (P i) w) : VC.Shape ix g' z.v.net i (P i) w.attnum w.look w.pos := by
  have hsh := h.shape
  have I := T.track.inv
  have hjob := I.job i
  -- an ended search
  by_cases ho : w.over
  · unfold Walker.over at ho
    generalize w.pos = p at ho
    cases p <;> first | exact ho.elim | trivial
  have hb : Busy y i := ⟨w, hw, ho⟩
  have hlv : e.leaves i = true := by
    cases e with
    | insert j r =>
      have : j ≠ i := fun h => ha (h ▸ hb)
      simpa [IndexVacConc.Event.leaves] using this
    | read j k c =>
      have : j ≠ i := fun h => ha (h ▸ hb)
      simpa [IndexVacConc.Event.leaves] using this
    | _ => rfl
  have keep : IndexConc.Other i y.v.net z.v.net → VC.Shape ix g' z.v.net i (P i) w.attnum w.look w.pos := fun h => hsh.same h (hS i hlv)
  cases e with
  | entry j =>
    obtain ⟨h1, h2, h3⟩ := hf
    by_cases hij : i = j
    · subst hij
      obtain ⟨a, lk, p⟩ := w
      cases p with
      | down =>
        obtain ⟨hj, ht⟩ := hsh
        simp only at hj
        rw [hj] at hjob
        have heth : ∃ p up, y.v.net.eth i = .ins [probe ⟨a, lk.cat, lk.key⟩] p up := by
          rcases hjob.2 with ⟨-, h⟩ | ⟨t, h, -⟩
          · exact h
          · exact absurd h.1 h1
        obtain ⟨p, up, heth⟩ := heth
        have hns := ha _ _ _ _ hw rfl heth
        change ix.stops y.v.net.st.entry ⟨a, lk.cat, lk.key⟩ p = false at hns
        obtain ⟨r, hr⟩ : ∃ r, act ix.ops (fun _ _ _ => none) rootBlk y.v.net.st.entry (y.v.net.eth i) = r := ⟨_, rfl⟩
        obtain ⟨k1, -, -, -, -⟩ := I.down (i := i) hc heth (fun j hj w hw h => h2 j hj w.child (by rw [holds_eq, hw]; rfl) (by
          unfold Ix.needsE
          rw [heth]
          simp [visit, h])) (by rw [hns]; simp) hr rfl
        have hz : z.v.net = ({ y.v.net with st := { y.v.net.st with entry := r.1 } } : Net V).setE i r.2 := by
          rw [h3]
          simp only
          unfold Ix.visitEntry
          simp only [hj, heth, hns, Bool.false_eq_true, if_false]
          rw [heth] at hr
          rw [hr]
          exact k1
        rw [hz]
        exact ⟨hj, ht⟩
      | tree k b off ac => exact absurd hsh.1 h1
      | page b ac => rw [hsh.1] at hjob; exact absurd hjob.1 h1
      | seek k b ac => rw [hsh.1] at hjob; exact absurd hjob.1 h1
      | done ac => trivial
      | error => trivial
    · refine keep ?_
      rw [h3]
      exact IndexConc.visitEntry_other hij _
  | tree t j =>
    obtain ⟨h1, h2, h3, h4⟩ := hf
    by_cases hij : i = j
    · subst hij
      have hni : y.v.net.tth t i ≠ .idle := fun h => by rw [h] at h1; cases h1
      obtain ⟨a, lk, p⟩ := w
      cases p with
      | down => exact absurd (hsh.2 t) hni
      | tree k b off ac =>
        obtain ⟨s1, s2, s3, s4⟩ := hsh
        rcases s2 with s2 | ⟨R, s2⟩
        · have hne : (ix.visitTree y.v.net t i).job i ≠ .failed := by
            intro hh
            have := I'.job i
            rw [h4] at this
            simp only [hh] at this
            exact this
          obtain ⟨q1, q2⟩ := VC.visitTree_read s2 hne
          rw [h4]
          exact ⟨q1.trans s1, q2, s3, fun k' x hx hk => by rw [hS i hlv]; exact s4 k' x hx hk⟩
        · rw [s2] at hjob; exact absurd (hjob.1.2 t) hni
      | page b ac => rw [hsh.1] at hjob; exact absurd (hjob.2 t) hni
      | seek k b ac => rw [hsh.1] at hjob; exact absurd (hjob.2 t) hni
      | done ac => trivial
      | error => trivial
    · refine keep ?_
      rw [h4]
      exact VC.visitTree_other hij _
  | insert j r =>
    obtain ⟨-, -, -, h4⟩ := hf
    refine keep ?_
    rw [h4]
    exact IndexConc.next_other (fun h : i = j => ha (h ▸ hb)) _ _
  | read j k c =>
    obtain ⟨-, h4⟩ := hf
    have hij : i ≠ j := fun h => ha (h ▸ hb)
    refine keep ?_
    rw [h4]
    exact (IndexConc.other_simple hij y.v.net y.v.net.st _ 0 .idle .idle).2.1.trans (IndexConc.other_simple hij _ y.v.net.st .idle 0 .idle _).2.2.2.1
  | stop j =>
    obtain ⟨-, h4⟩ := hf
    have hij : i ≠ j := fun h => ha (h ▸ hb)
    refine keep ?_
    rw [h4]
    exact (IndexConc.other_simple hij y.v.net y.v.net.st .idle 0 .idle .idle).2.2.2.2
  | vacuum dead =>
    obtain ⟨-, -, h4⟩ := hf
    refine keep ?_
    rw [h4]
    exact ⟨rfl, fun _ => rfl, rfl⟩
  | step =>
    obtain ⟨dead, p, st, q, -, -, -, h4⟩ := hf
    refine keep ?_
    rw [h4]
    exact ⟨rfl, fun _ => rfl, rfl⟩

/-- A step of a range search, in the net of all. -/
theorem WTrack.go {y : WNet V} (T : WTrack ix rc M U cur g P Q y) {i : Nat} {g' : VC.Gh V} {n' : Net V} {walk : Nat → Option (Walker V)}
    (h1 : VC.NInv ix M g' y.v.vac n') (h2 : VC.Stepped i g g' y.v.net n') (h3 : ∀ j, j ≠ i → walk j = y.walk j)
    (h4 : ∀ w, walk i = some w → VC.WalkOK ix g' n' i (P i) w) : WTrack ix rc M U cur g' P Q ⟨⟨n', y.v.vac⟩, walk⟩ := by
  refine ⟨⟨h1, by rw [h2.T]; exact T.track.rows, by rw [h2.A]; exact T.track.wide⟩, fun j w hw hq => ?_, fun j x hx => ?_⟩
  · by_cases hj : j = i
    · subst hj; exact h4 w hw
    · exact (T.walks j w (by rw [← h3 j hj]; exact hw) hq).stay h2 hj
  · rw [h2.P]
    by_cases hj : j = i
    · subst hj
      exact (h2.Si x hx).elim (T.small j x) id
    · exact T.small j x (by rw [← h2.S j hj]; exact hx)

theorem WTrack.fires (hc : ColsOK ix M) (hbd : ix.build = false) (hal : ∀ k, 8 ∣ ix.keySize k) (hM : M.single = true) {y z : WNet V} {e : Event V}
    (T : WTrack ix rc M U cur g P Q y) (hf : Fires ix rc M e y z) (hU : ∀ r ∈ begun (bases [e]), r ∈ U)
    (hR : ∀ dead, .vacuum dead ∈ bases [e] → ∀ k y, g.r.P k y → dead y.iptr = false) (hP : ∀ i, e.leaves i = false → ∀ k y, ¬ P i k y) :
    ∃ g', WTrack ix rc M U (after cur (bases [e])) g' P Q z ∧ g'.A = g.A ∧ g'.r.P = g.r.P ∧
      ∀ j, e.keeps j = true → ¬ Busy y j → g'.S j = g.S j ∧ ¬ Busy z j := by
  have stay : ∀ {i : Nat} {w : Walker V} {r : Net V × WPos V} {j : Nat}, j ≠ i → ¬ Busy y j → ¬ Busy (y.go i w r) j := by
    rintro i w r j hj hb ⟨w', h1, h2⟩
    simp only [WNet.go, if_neg hj] at h1
    exact hb ⟨w', h1, h2⟩
  cases e with
  | base e =>
    obtain ⟨ha, hf, hz⟩ := hf
    obtain ⟨g', h1, ⟨h2, h3⟩, h4, h5⟩ := T.track.fires hc hbd hal hM hf hU (fun dead hd i x hx => by
      obtain ⟨k, hk⟩ := T.small i x hx
      exact hR dead (by rw [hd]; simp [bases]) k x hk) (fun dead hd k x hx => hR dead (by rw [hd]; simp [bases]) k x hx)
    refine ⟨g', ⟨h1, fun i w hw hq => ?_, fun i x hx => ?_⟩, h2, by rw [h3], fun j hj hb => ⟨h5 j hj, ?_⟩⟩
    rotate_left 2
    · rintro ⟨w, h6, h7⟩
      rw [hz] at h6
      exact hb ⟨w, h6, h7⟩
    · rw [hz] at hw
      have h := T.walks i w hw hq
      refine h.keep (by rw [h2]) (by rw [h3]; exact h.ride) (by rw [h3]; exact fun _ _ h => h) (by rw [h3]; exact fun _ _ h => h) (by rw [h3]; exact fun _ h => h) ?_
      exact shape_base hc T ha hf h1.inv h5 hw h
    · rw [h3]
      rcases h4 i with h | h
      · exact T.small i x (by rw [← h]; exact hx)
      · rw [h] at hx; cases hx
  | begin i a lk =>
    obtain ⟨h1, h2, h3, h4, rfl⟩ := hf
    have hno := hP i (by simp [Event.leaves])
    obtain ⟨g', k1, k2, k3⟩ := T.track.inv.wStart hc h1 (P := P i) h4 h3 (fun k y h => absurd h (hno k y)) (fun k y h => absurd h (hno k y))
    refine ⟨g', T.go k1 k2 (fun j hj => by simp [hj]) (fun w hw => ?_), k2.A, k2.P, fun j hj hb => ?_⟩
    · simp only [if_true, Option.some.injEq] at hw
      subst hw
      exact k3
    · have hj : j ≠ i := fun h => by simp [Event.keeps, h] at hj
      exact ⟨k2.S j hj, stay hj hb⟩
  | leaf i =>
    obtain ⟨w, xs, b, up, h1, h2, h3, h4, -, rfl⟩ := hf
    obtain ⟨g', k1, k2, k3⟩ := T.track.inv.wLeaf hc (T.walks i w h1 (Or.inl (by unfold Walker.over; rw [h2]; exact id))) h2 h3 h4
    refine ⟨g', T.go k1 k2 (fun j hj => by simp [hj]) (fun w hw => ?_), k2.A, k2.P, fun j _ hb => ?_⟩
    · simp only [if_true, Option.some.injEq] at hw
      subst hw
      exact k3
    · have hj : j ≠ i := fun hj => hb (hj ▸ ⟨_, h1, by unfold Walker.over; rw [h2]; exact id⟩)
      exact ⟨k2.S j hj, stay hj hb⟩
  | page i =>
    obtain ⟨w, b, ac, h1, h2, -, rfl⟩ := hf
    obtain ⟨g', k1, k2, k3⟩ := T.track.inv.wPage hc (T.walks i w h1 (Or.inl (by unfold Walker.over; rw [h2]; exact id))) h2
    refine ⟨g', T.go k1 k2 (fun j hj => by simp [hj]) (fun w hw => ?_), k2.A, k2.P, fun j _ hb => ?_⟩
    · simp only [if_true, Option.some.injEq] at hw
      subst hw
      exact k3
    · have hj : j ≠ i := fun hj => hb (hj ▸ ⟨_, h1, by unfold Walker.over; rw [h2]; exact id⟩)
      exact ⟨k2.S j hj, stay hj hb⟩
  | relock i =>
    obtain ⟨w, k, b, off, ac, R, h1, h2, h3, -, rfl⟩ := hf
    obtain ⟨g', k1, k2, k3⟩ := T.track.inv.wBack hc (T.walks i w h1 (Or.inl (by unfold Walker.over; rw [h2]; exact id))) h2 h3
    refine ⟨g', T.go k1 k2 (fun j hj => by simp [hj]) (fun w hw => ?_), k2.A, k2.P, fun j _ hb => ?_⟩
    · simp only [if_true, Option.some.injEq] at hw
      subst hw
      exact k3
    · have hj : j ≠ i := fun hj => hb (hj ▸ ⟨_, h1, by unfold Walker.over; rw [h2]; exact id⟩)
      exact ⟨k2.S j hj, stay hj hb⟩
  | seek i =>
    obtain ⟨w, k, b, ac, h1, h2, -, rfl⟩ := hf
    obtain ⟨g', k1, k2, k3⟩ := T.track.inv.wOn hc (T.walks i w h1 (Or.inl (by unfold Walker.over; rw [h2]; exact id))) h2
    refine ⟨g', T.go k1 k2 (fun j hj => by simp [hj]) (fun w hw => ?_), k2.A, k2.P, fun j _ hb => ?_⟩
    · simp only [if_true, Option.some.injEq] at hw
      subst hw
      exact k3
    · have hj : j ≠ i := fun hj => hb (hj ▸ ⟨_, h1, by unfold Walker.over; rw [h2]; exact id⟩)
      exact ⟨k2.S j hj, stay hj hb⟩
  | abort i =>
    obtain ⟨⟨w, h1, h2⟩, rfl⟩ := hf
    have hs := (T.walks i w h1 (Or.inl h2)).shape
    have hj : (∃ k c, y.v.net.job i = .read k c) ∨ (y.v.net.job i).free = true := by
      unfold Walker.over at h2
      generalize w.pos = p at hs h2
      cases p with
      | down => exact Or.inl ⟨_, _, hs.1⟩
      | tree k b off ac =>
        rcases hs.2.1 with h | ⟨R, h⟩
        · exact Or.inl ⟨_, _, h⟩
        · exact Or.inr (by rw [h]; rfl)
      | page b ac => exact Or.inr (by rw [hs.1]; rfl)
      | seek k b ac => exact Or.inr (by rw [hs.1]; rfl)
      | done ac => exact absurd trivial h2
      | error => exact absurd trivial h2
    have k2 := VC.quit_stepped g y.v.net i
    refine ⟨g, T.go (T.track.inv.leave hj) k2 (fun j hj => by simp [hj]) (fun w hw => by simp at hw), rfl, rfl, fun j _ hb => ⟨rfl, ?_⟩⟩
    rintro ⟨w', h3, h4⟩
    simp only at h3
    split at h3
    · cases h3
    · exact hb ⟨w', h3, h4⟩

theorem WTrack.run (hc : ColsOK ix M) (hbd : ix.build = false) (hal : ∀ k, 8 ∣ ix.keySize k) (hM : M.single = true) {y z : WNet V} {es : List (Event V)}
    (T : WTrack ix rc M U cur g P Q y) (hr : Run ix rc M y es z) (hU : ∀ r ∈ begun (bases es), r ∈ U)
    (hR : ∀ dead, .vacuum dead ∈ bases es → ∀ k y, g.r.P k y → dead y.iptr = false) (hP : ∀ i, (∃ e ∈ es, e.leaves i = false) → ∀ k y, ¬ P i k y) :
    ∃ g', WTrack ix rc M U (after cur (bases es)) g' P Q z ∧ g'.A = g.A ∧ g'.r.P = g.r.P ∧
      ∀ j, (∀ e ∈ es, e.keeps j = true) → ¬ Busy y j → g'.S j = g.S j ∧ ¬ Busy z j := by
  induction hr with
  | refl => exact ⟨g, T, rfl, rfl, fun _ _ h => ⟨rfl, h⟩⟩
  | @snoc n2 n3 es e hr hf ih =>
    obtain ⟨g', h1, h2, h3, h4⟩ := ih (fun r hr => hU r (by rw [bases_append, IndexVacConc.begun_append]; exact List.mem_append_left _ hr))
      (fun d hd => hR d (by rw [bases_append]; exact List.mem_append_left _ hd)) (fun i ⟨e, he, h⟩ => hP i ⟨e, by simp [he], h⟩)
    obtain ⟨g2, k1, k2, k3, k4⟩ := h1.fires hc hbd hal hM hf (fun r hr => hU r (by rw [bases_append, IndexVacConc.begun_append]; exact List.mem_append_right _ hr))
      (fun d hd k x hx => hR d (by rw [bases_append]; exact List.mem_append_right _ hd) k x (by rw [← h3]; exact hx)) (fun i h => hP i ⟨e, by simp, h⟩)
    exact ⟨g2, by rw [bases_append, IndexVacConc.after_append]; exact k1, k2.trans h2, k3.trans h3, fun j hj hb => by
      obtain ⟨a1, a2⟩ := h4 j (fun e he => hj e (by simp [he])) hb
      obtain ⟨b1, b2⟩ := k4 j (hj e (by simp)) a2
      exact ⟨b1.trans a1, b2⟩⟩

/-- Nobody searches. -/
theorem WTrack.start (hc : ColsOK ix M) {st : State V} {rs : List (Row V)} (L : Life ix rc M st rs) (U : List (Row V)) :
    WTrack ix rc M (rs ++ U) rs ⟨fun _ => [], fun _ => EntryOf ix rc (rs ++ U), rs.flatMap (ix.entries rc), IndexVacConc.rest⟩ (fun _ _ _ => False) Q
      ⟨⟨calm st, none⟩, fun _ => none⟩ :=
  ⟨IndexVacConc.Track.start hc L U, (fun _ _ h _ => by cases h), (fun _ _ h => by cases h)⟩

/-- A search from its beginning to some later moment. -/
theorem search (hbd : ix.build = false) (hal : ∀ k, 8 ∣ ix.keySize k) (hM : M.single = true) (hs : ∀ a, SortOK (ix.cmpK a) (rc.sort a))
    (hd : ∀ a, DupsSeen (ix.cmpK a) (rc.haveDups a)) {st : State V} {rs : List (Row V)} (h0 : Over ix rc M st rs) {es1 es2 : List (Event V)}
    {n1 n2 n3 : WNet V} {j a : Nat} {lk : Look V} (ha1 : 1 ≤ a) (ha2 : a ≤ rc.natts)
    (h1 : Run ix rc M ⟨⟨calm st, none⟩, fun _ => none⟩ es1 n1) (h2 : Fires ix rc M (.begin j a lk) n1 n2) (h3 : Run ix rc M n2 es2 n3)
    (hl : ∀ e ∈ es2, e.leaves j = true) :
    ∃ (g : VC.Gh V) (P : AttKey V → Item Datum → Prop), VC.NInv ix M g n3.v.vac n3.v.net ∧ (∀ w, n3.walk j = some w → VC.WalkOK ix g n3.v.net j P w) ∧
      (∀ r ∈ after rs (bases es1), ¬ BeingInserted n1.v.net r → ∀ k, Wants ix a lk k → Contains (ix.cmpK a) (r.value a) k →
        (∀ dead, .vacuum dead ∈ bases es2 → dead r.tid = false) → ∃ y, P k y ∧ y.iptr = r.tid ∧
          ∃ q ∈ after rs (bases es1), q.tid = y.iptr ∧ InfoOf rc (ix.cmpK a) q k y.info) ∧
      ∀ k, Wants ix a lk k → ∀ y, g.A j k y → ∃ r ∈ rs ++ begun (bases es1) ++ begun (bases es2), r.tid = y.iptr ∧
        Contains (ix.cmpK a) (r.value a) k ∧ InfoOf rc (ix.cmpK a) r k y.info ∧
        (r ∈ after rs (bases es1) ∨ r ∈ begun (bases es2) ∨ BeingRemoved n1.v r) := by
  classical
  obtain ⟨hc, L⟩ := h0.life hbd hal hM hs hd
  obtain ⟨g1, T1, hA1, hr1, -⟩ := (WTrack.start (Q := fun _ => True) hc L (begun (bases es1) ++ begun (bases es2))).run hc hbd hal hM h1 (fun r hr => by simp [hr]) (fun _ _ _ _ h => h.elim)
    (fun _ _ _ _ h => h)
  have hr1' : ∀ k y, ¬ g1.r.P k y := fun k y h => by rw [hr1] at h; exact h
  let P0 : AttKey V → Item Datum → Prop := fun k y => Wants ix a lk k ∧ y ∈ ix.rowsOf n1.v.net.st k ∧ (∀ w, n1.v.vac = some w → w.dead y.iptr = false) ∧
    ∀ dead, .vacuum dead ∈ bases es2 → dead y.iptr = false
  let A : AttKey V → Item Datum → Prop := fun k y => EntryOf ix rc (after rs (bases es1) ++ begun (bases es2)) k y ∨
    ((∃ w, n1.v.vac = some w ∧ w.dead y.iptr = true) ∧ EntryOf ix rc (rs ++ (begun (bases es1) ++ begun (bases es2))) k y)
  obtain ⟨f1, f2, f3, f4, f5⟩ := h2
  have hcur : ∀ op ∈ g1.T, ∀ k', Same ix k' op.1 → A k' op.2 := by
    intro op ho k' hk'
    refine Or.inl ((entryOf_iff _ k' op.2).2 ⟨op, ?_, same_symm hc hk', rfl⟩)
    rw [List.flatMap_append]
    exact List.mem_append_left _ ((T1.track.rows op).1 ho)
  -- what is remembered from now on
  obtain ⟨r0, hE, hr0P, hW0, hL0, hE0⟩ : ∃ r0 : VC.Ride V, VC.EV ix n1.v.net.st n1.v.net.eth n1.v.vac r0 ∧ r0.P = P0 ∧ (∀ b k, g1.r.W b k → r0.W b k) ∧
      (∀ b k, g1.r.L b k → r0.L b k) ∧ ∀ k, g1.r.E k → r0.E k := by
    obtain ⟨K, hK, key, G, hk, Y, hP, hR⟩ := T1.track.inv.entry
    exact ⟨VC.full ix key n1.v.net.st G P0, ⟨K, hK, key, G, hk, Y, hP, fun _ _ h => h, fun _ _ h => h, fun _ h => h, fun k y h => h.2.1, fun w hw k y h => h.2.2.1 w hw⟩,
      rfl, hR.low, hR.past, hR.here⟩
  have I1 := T1.track.inv.ride hE
  have I2 := I1.read hc f1 (k := ⟨a, lk.cat, lk.key⟩) (c := false) (S := []) (A := A) (by simp) (by simp)
    (by
      intro k' y hy
      obtain ⟨b1, b2⟩ := I1.ok k' y hy
      rcases b2 with ⟨op, o1, o2, rfl⟩ | hw
      · exact hcur op o1 k' (same_symm hc o2)
      · refine Or.inr ⟨hw, ?_⟩
        have := b1 j
        simp only [hA1] at this
        exact this)
    (by
      intro i l hi op ho k' hk'
      have := T1.track.inv.job i
      rw [hi] at this
      exact hcur op (this.2.1 op ho) k' hk')
  let g2 := (VC.Gh.read { g1 with r := r0 } j [] A)
  have hSj : g2.S j = [] := by simp [g2, VC.Gh.read]
  have hAj : g2.A j = A := by simp [g2, VC.Gh.read]
  have hSi : ∀ i, i ≠ j → g2.S i = g1.S i := fun i hi => by simp [g2, VC.Gh.read, hi]
  have hAi : ∀ i, i ≠ j → g2.A i = g1.A i := fun i hi => by simp [g2, VC.Gh.read, hi]
  have hr2 : g2.r = r0 := rfl
  let P : Nat → AttKey V → Item Datum → Prop := fun i k y => i = j ∧ P0 k y
  have T2 : WTrack ix rc M (begun (bases es2)) (after rs (bases es1)) g2 P (fun _ => True) n2 := by
    subst f5
    refine ⟨⟨I2, T1.track.rows, fun r hr op ho k' hk' i => ?_⟩, fun i w hw _ => ?_, fun i y hy => ?_⟩
    · by_cases hi : i = j
      · rw [hi, hAj]
        exact Or.inl ((entryOf_iff _ k' op.2).2 ⟨op, List.mem_flatMap.2 ⟨r, List.mem_append_right _ hr, ho⟩, same_symm hc hk', rfl⟩)
      · rw [hAi i hi]
        exact T1.track.wide r (by simp [hr]) op ho k' hk' i
    · by_cases hi : i = j
      · subst hi
        simp only [WNet.go, if_true, Option.some.injEq] at hw
        subst hw
        obtain ⟨hq, -⟩ := (T1.track.inv.job i).quiet f1
        exact ⟨f4, f3, fun k y h => h.2.1, fun k y h => by rw [hr2, hr0P]; exact h.2, trivial, ⟨by simp [WNet.go, Net.setJ], fun t => hq.2 t⟩, fun y hy => by cases hy⟩
      · simp only [WNet.go, if_neg hi] at hw
        have h := T1.walks i w hw (Or.inr trivial)
        have h' : VC.WalkOK ix g1 n1.v.net i (P i) w := by
          have hno : ∀ k y, ¬ P i k y := fun k y h => hi h.1
          refine ⟨h.look, h.mode, fun k y h => absurd h (hno k y), fun k y h => absurd h (hno k y), ?_, ?_, h.sound⟩
          · have hp := h.pos
            generalize w.pos = p at hp
            cases p with
            | down => trivial
            | page b ac => exact ⟨hp.1, fun k y h => absurd h (hno k y)⟩
            | tree k b off ac => exact ⟨hp.1, hp.2.1, hp.2.2.1, hp.2.2.2.1, fun k' y h => absurd h (hno k' y), hp.2.2.2.2.2⟩
            | seek k b ac => exact ⟨hp.1, hp.2.1, hp.2.2.1, hp.2.2.2.1, fun k' y h => absurd h (hno k' y)⟩
            | done ac => exact fun k y h => absurd h (hno k y)
            | error => exact hp
          · have hp := h.shape
            generalize w.pos = p at hp
            cases p with
            | tree k b off ac => exact ⟨hp.1, hp.2.1, hp.2.2.1, fun k' y h => absurd h (hno k' y)⟩
            | _ => exact hp
        refine h'.keep (hAi i hi) (fun k y h => absurd h.1 hi) hW0 hL0 hE0 (h'.shape.same ?_ (hSi i hi))
        exact (IndexConc.other_simple hi n1.v.net n1.v.net.st _ 0 .idle .idle).2.1.trans (IndexConc.other_simple hi _ n1.v.net.st .idle 0 .idle _).2.2.2.1
    · by_cases hi : i = j
      · rw [hi, hSj] at hy; cases hy
      · rw [hSi i hi] at hy
        obtain ⟨k, hk⟩ := T1.small i y hy
        exact absurd hk (hr1' k y)
  obtain ⟨g3, T3, hA3, hP3, -⟩ := T2.run hc hbd hal hM h3 (fun r hr => hr) (fun dead hv k y hy => by
    rw [hr2, hr0P] at hy
    exact hy.2.2.2 dead hv) (fun i ⟨e, he, h⟩ k y hy => by
      rw [hy.1, hl e he] at h
      cases h)
  have hPj : P j = P0 := by
    funext k y
    exact propext ⟨fun h => h.2, fun h => ⟨rfl, h⟩⟩
  refine ⟨g3, P0, T3.track.inv, fun w hw => by rw [← hPj]; exact T3.walks j w hw (Or.inr trivial), fun r hr hn k hwk hcon hv => ?_, fun k hwk y hy => ?_⟩
  · have hka : k.attnum = a := hwk.1
    subst hka
    obtain ⟨y, hy, he⟩ := T1.track.found hc hs hd hr hn ha1 ha2 hcon
    have halive : ∀ w, n1.v.vac = some w → w.dead y.iptr = false := by
      intro w hw
      obtain ⟨o, ho, -⟩ := (colEntries_key (rc := rc) hc (hs k.attnum) (hd k.attnum) r (k := k) rfl).1.2 hcon
      have hop : (outKey k.attnum o, (⟨r.tid, o.info⟩ : Item Datum)) ∈ ix.entries rc r := mem_entries.2 ⟨_, ⟨ha1, ha2⟩, o, ho, rfl⟩
      have := (T1.track.inv.alive w hw).1 _ ((T1.track.rows _).2 (List.mem_flatMap.2 ⟨r, hr, hop⟩))
      rw [he]
      exact this
    refine ⟨y, ⟨hwk, hy, halive, fun dead hdd => by rw [he]; exact hv dead hdd⟩, he, ?_⟩
    rcases (T1.track.inv.ok k y hy).2 with ⟨op, o1, o2⟩ | ⟨w, hw, hdead⟩
    · obtain ⟨-, q, hq, o, ho, hsm, rfl⟩ := (entryOf_iff _ k y).2 ⟨op, (T1.track.rows op).1 o1, o2⟩
      exact ⟨q, hq, rfl, (colEntries_key (rc := rc) hc (hs k.attnum) (hd k.attnum) q (k := k) rfl).2.1 o ho hsm⟩
    · rw [halive w hw] at hdead; cases hdead
  · have hka : k.attnum = a := hwk.1
    subst hka
    have hrow : ∀ rows : List (Row V), EntryOf ix rc rows k y → ∃ r ∈ rows, r.tid = y.iptr ∧ Contains (ix.cmpK k.attnum) (r.value k.attnum) k ∧
        InfoOf rc (ix.cmpK k.attnum) r k y.info := by
      rintro rows ⟨-, r, hr, o, ho, hsm, rfl⟩
      have hcol := colEntries_key (rc := rc) hc (hs k.attnum) (hd k.attnum) r (k := k) rfl
      exact ⟨r, hr, rfl, hcol.1.1 ⟨o, ho, hsm⟩, hcol.2.1 o ho hsm⟩
    rw [hA3, hAj] at hy
    rcases hy with h | ⟨⟨w, hw, hdead⟩, h⟩
    · obtain ⟨r, hr, h4, h5, h6⟩ := hrow _ h
      rcases List.mem_append.1 hr with hr | hr
      · exact ⟨r, List.mem_append_left _ (IndexVacConc.after_sub _ _ r hr), h4, h5, h6, Or.inl hr⟩
      · exact ⟨r, List.mem_append_right _ hr, h4, h5, h6, Or.inr (Or.inl hr)⟩
    · obtain ⟨r, hr, h4, h5, h6⟩ := hrow _ h
      exact ⟨r, by simpa using hr, h4, h5, h6, Or.inr (Or.inr ⟨w, hw, by rw [h4]; exact hdead⟩)⟩

end

/-! ### Properties -/

section
variable (ix : Ix V) [Inhabited V] (rc : RowCfg V) (M : Lim) (hbd : ix.build = false) (hal : ∀ k, 8 ∣ ix.keySize k) (hM : M.single = true)
  (hs : ∀ a, SortOK (ix.cmpK a) (rc.sort a)) (hd : ∀ a, DupsSeen (ix.cmpK a) (rc.haveDups a))
include hbd hal hM hs hd

/-- **C74 (searches that end).** An index over rows `rs`; any concurrent insertions, searches of all kinds and VACUUMs (`es1`); backend `j` begins a search in column `a` for all
keys in a range, with a prefix, or for all keys; everything goes on meanwhile (`es2`), VACUUMs too. When the search has ended without an error, it has delivered, for
every row that was in the table and not still being inserted when it began and that no VACUUM begun meanwhile was told is dead, an item of each wanted key the row contains.
It has delivered nothing but items of rows with a wanted key, with the additional information of that key, that were in the table or being removed when it began, or were inserted meanwhile. -/
theorem C74_search_partial {st : State V} {rs : List (Row V)} (h0 : Over ix rc M st rs) {es1 es2 : List (Event V)}
    {n1 n2 n3 : WNet V} {j a : Nat} {lk : Look V} (ha1 : 1 ≤ a) (ha2 : a ≤ rc.natts)
    (h1 : Run ix rc M ⟨⟨calm st, none⟩, fun _ => none⟩ es1 n1) (h2 : Fires ix rc M (.begin j a lk) n1 n2) (h3 : Run ix rc M n2 es2 n3)
    (hl : ∀ e ∈ es2, e.leaves j = true) {R : List (Item Datum)} (hR : n3.walk j = some ⟨a, lk, .done R⟩) :
    (∀ r ∈ after rs (bases es1), ¬ BeingInserted n1.v.net r → ∀ k, Wants ix a lk k → Contains (ix.cmpK a) (r.value a) k →
      (∀ dead, .vacuum dead ∈ bases es2 → dead r.tid = false) → ∃ y ∈ R, y.iptr = r.tid) ∧
    ∀ y ∈ R, ∃ r ∈ rs ++ begun (bases es1) ++ begun (bases es2), r.tid = y.iptr ∧ (∃ k, Wants ix a lk k ∧ Contains (ix.cmpK a) (r.value a) k ∧
      InfoOf rc (ix.cmpK a) r k y.info) ∧ (r ∈ after rs (bases es1) ∨ r ∈ begun (bases es2) ∨ BeingRemoved n1.v r) := by
  obtain ⟨g, P, I, hw, hall, hsnd⟩ := search hbd hal hM hs hd h0 ha1 ha2 h1 h2 h3 hl
  have h := hw _ hR
  refine ⟨fun r hr hn k hwk hcon hv => ?_, fun y hy => ?_⟩
  · obtain ⟨y, hy, he, -⟩ := hall r hr hn k hwk hcon hv
    exact ⟨y, h.pos k y hy, he⟩
  · obtain ⟨k, hwk, hA⟩ := h.sound y hy
    obtain ⟨r, hr, h4, h5, h6, h7⟩ := hsnd k hwk y hA
    exact ⟨r, hr, h4, ⟨k, hwk, h5, h6⟩, h7⟩

/-- **C74 (errors).** Such a search ends with an error only if the index has a key of an earlier column. (Then it can: `C74_violated`.) -/
theorem C74_error_partial {st : State V} {rs : List (Row V)} (h0 : Over ix rc M st rs) {es1 es2 : List (Event V)}
    {n1 n2 n3 : WNet V} {j a : Nat} {lk : Look V} (ha1 : 1 ≤ a) (ha2 : a ≤ rc.natts)
    (h1 : Run ix rc M ⟨⟨calm st, none⟩, fun _ => none⟩ es1 n1) (h2 : Fires ix rc M (.begin j a lk) n1 n2) (h3 : Run ix rc M n2 es2 n3)
    (hl : ∀ e ∈ es2, e.leaves j = true) (hR : n3.walk j = some ⟨a, lk, .error⟩) :
    ∃ e ∈ contents n3.v.net.st.entry rootBlk, e.key.attnum < a := by
  obtain ⟨g, P, I, hw, -⟩ := search hbd hal hM hs hd h0 ha1 ha2 h1 h2 h3 hl
  obtain ⟨k, h4, h5⟩ := (hw _ hR).pos
  obtain ⟨K, hK, key, G, hk, Y, hP, hRide⟩ := I.entry
  obtain ⟨e, he, hke⟩ := hRide.here k h4
  exact ⟨e, he, by rw [← same_attnum (ix := ix) hke]; exact h5⟩

/-- **C74 (first column).** In an index over one column, or in the first column, such a search never ends with an error. (`hz`: there is no column 0; the model's way to say so is that
its keys do not fit on a page.) -/
theorem C74_first_column {st : State V} {rs : List (Row V)} (h0 : Over ix rc M st rs) {es1 es2 : List (Event V)}
    (hz : ∀ k : AttKey V, k.attnum = 0 → maxTuple < ix.tupleSize k [])
    {n1 n2 n3 : WNet V} {j : Nat} {lk : Look V} (hn : 1 ≤ rc.natts)
    (h1 : Run ix rc M ⟨⟨calm st, none⟩, fun _ => none⟩ es1 n1) (h2 : Fires ix rc M (.begin j 1 lk) n1 n2) (h3 : Run ix rc M n2 es2 n3)
    (hl : ∀ e ∈ es2, e.leaves j = true) : n3.walk j ≠ some ⟨1, lk, .error⟩ := by
  intro hR
  obtain ⟨e, he, hlt⟩ := C74_error_partial ix rc M hbd hal hM hs hd h0 (Nat.le_refl 1) hn h1 h2 h3 hl hR
  obtain ⟨g, P, I, -⟩ := search hbd hal hM hs hd h0 (Nat.le_refl 1) hn h1 h2 h3 hl
  have h4 := (I.tup e he).key
  have h5 := hz e.key (by omega)
  omega

/-- **C74 (the index).** Searches with errors, searches given up and all others leave the index as it must be: no insertion fails, and when nobody is at work the index holds
exactly the entries of the rows of the table. -/
theorem C74_all_rows_indexed {st : State V} {rs : List (Row V)} (h0 : Over ix rc M st rs) {es : List (Event V)} {n : WNet V}
    (h : Run ix rc M ⟨⟨calm st, none⟩, fun _ => none⟩ es n) (htid : ((after rs (bases es)).map Row.tid).Nodup) :
    (∀ i, n.v.net.job i ≠ .failed) ∧
    ((∀ i, (n.v.net.job i).free = true) → n.v.vac = none → Indexes ix rc n.v.net.st (after rs (bases es))) := by
  obtain ⟨hc, L⟩ := h0.life hbd hal hM hs hd
  obtain ⟨g, T, -⟩ := (WTrack.start (Q := fun _ => True) hc L (begun (bases es))).run hc hbd hal hM h (fun r hr => List.mem_append_right _ hr) (fun _ _ _ _ h => h.elim) (fun _ _ _ _ h => h)
  refine ⟨fun i hi => ?_, fun hf hv => (T.track.life hc hM hs hd hf hv htid).indexes hc hs hd⟩
  have hj := T.track.inv.job i
  rw [hi] at hj
  exact hj

/-- **C74 (no deadlock).** While a search, an insertion or VACUUM is under way, one of those under way can go on. -/
theorem C74_no_deadlock {st : State V} {rs : List (Row V)} (h0 : Over ix rc M st rs) {es : List (Event V)} {n : WNet V}
    (h : Run ix rc M ⟨⟨calm st, none⟩, fun _ => none⟩ es n) (hb : n.v.vac ≠ none ∨ (∃ i, (n.v.net.job i).free = false) ∨ ∃ i, Busy n i) :
    ∃ e z, Fires ix rc M e n z ∧ (e = .base .step ∨ ∃ i, e = .base (.entry i) ∨ (∃ t, e = .base (.tree t i)) ∨ e = .leaf i ∨ e = .page i ∨ e = .relock i ∨ e = .seek i) := by
  classical
  obtain ⟨hc, L⟩ := h0.life hbd hal hM hs hd
  obtain ⟨g, T, -⟩ := (WTrack.start (Q := fun _ => True) hc L (begun (bases es))).run hc hbd hal hM h (fun r hr => List.mem_append_right _ hr) (fun _ _ _ _ h => h.elim) (fun _ _ _ _ h => h)
  by_cases hb' : n.v.vac ≠ none ∨ ∃ i, (n.v.net.job i).free = false
  · rcases T.track.inv.live hbd hb' with ⟨j, h1, h2⟩ | ⟨t, j, h1, h2, h3⟩ | ⟨w, hw, hm⟩
    · by_cases hA : Allowed ix n (.entry j)
      · exact ⟨.base (.entry j), ⟨⟨_, _⟩, _⟩, ⟨hA, ⟨h1, h2, rfl⟩, rfl⟩, Or.inr ⟨j, Or.inl rfl⟩⟩
      · simp only [Allowed, not_forall] at hA
        obtain ⟨w, xs, b, up, k1, k2, k3, k4⟩ := hA
        refine ⟨.leaf j, _, ⟨w, xs, b, up, k1, k2, k3, by simpa using k4, fun j' hj' hh => h2 j' hj' b hh ?_, rfl⟩, Or.inr ⟨j, Or.inr (Or.inr (Or.inl rfl))⟩⟩
        unfold Ix.needsE
        rw [k3]
        simp [visit]
    · exact ⟨.base (.tree t j), ⟨⟨_, _⟩, _⟩, ⟨trivial, ⟨h1, h2, h3, rfl⟩, rfl⟩, Or.inr ⟨j, Or.inr (Or.inl ⟨t, rfl⟩)⟩⟩
    · have I := T.track.inv
      rw [hw] at I
      obtain ⟨⟨st', q⟩, hr, -⟩ := I.vacStep hc hal hM hm
      exact ⟨.base .step, ⟨⟨_, _⟩, _⟩, ⟨trivial, ⟨w.dead, w.pos, st', q, hw, hm, hr, rfl⟩, rfl⟩, Or.inl rfl⟩
  · push Not at hb'
    have hfree : ∀ i, (n.v.net.job i).free = true := fun i => by simpa using hb'.2 i
    obtain ⟨i, w, hw, ho⟩ : ∃ i, Busy n i := by
      rcases hb with h | ⟨i, h⟩ | h
      · exact absurd hb'.1 h
      · rw [hfree i] at h; cases h
      · exact h
    have hun : ∀ b, Unlocked n i b := fun b j hj hh => by
      rw [((T.track.inv.job j).quiet (hfree j)).1.1] at hh
      cases hh
    have hs' := (T.walks i w hw (Or.inl ho)).shape
    obtain ⟨a, lk, p⟩ := w
    cases p with
    | down =>
      have := hfree i
      rw [hs'.1] at this
      cases this
    | page b ac => exact ⟨.page i, _, ⟨_, b, ac, hw, rfl, hun b, rfl⟩, Or.inr ⟨i, by simp⟩⟩
    | tree k b off ac =>
      rcases hs'.2.1 with h1 | ⟨R, h1⟩
      · have := hfree i
        rw [h1] at this
        cases this
      · exact ⟨.relock i, _, ⟨_, k, b, off, ac, R, hw, rfl, h1, hun b, rfl⟩, Or.inr ⟨i, by simp⟩⟩
    | seek k b ac => exact ⟨.seek i, _, ⟨_, k, b, ac, hw, rfl, hun b, rfl⟩, Or.inr ⟨i, by simp⟩⟩
    | done ac => exact absurd trivial ho
    | error => exact absurd trivial ho

end

/-! ### Concrete cases -/

section
variable {ix : Ix V} [Inhabited V] {rc : RowCfg V} {M : Lim}

theorem Run.split {n n' : WNet V} {es es' : List (Event V)} (h : Run ix rc M n (es ++ es') n') : ∃ m, Run ix rc M n es m ∧ Run ix rc M m es' n' := by
  generalize hl : es ++ es' = l at h
  induction h generalizing es' with
  | refl =>
    obtain ⟨rfl, rfl⟩ := List.append_eq_nil_iff.1 hl
    exact ⟨n, .refl _, .refl _⟩
  | @snoc n2 n3 l e hr hf ih =>
    rcases List.eq_nil_or_concat es' with rfl | ⟨l', e', rfl⟩
    · rw [List.append_nil] at hl
      subst hl
      exact ⟨n3, .snoc hr hf, .refl _⟩
    · rw [List.concat_eq_append, ← List.append_assoc] at hl
      obtain ⟨h1, h2⟩ := List.append_inj' hl rfl
      cases h2
      obtain ⟨m, m1, m2⟩ := ih h1
      exact ⟨m, m1, by rw [List.concat_eq_append]; exact .snoc m2 hf⟩

theorem Run.single {n n' : WNet V} {e : Event V} (h : Run ix rc M n [e] n') : Fires ix rc M e n n' := by
  generalize hl : [e] = l at h
  cases h with
  | refl => simp at hl
  | @snoc x _ l e' c1 c2 =>
    obtain ⟨d1, d2⟩ := List.append_inj' (s₁ := []) hl rfl
    cases d2
    subst d1
    generalize hl' : ([] : List (Event V)) = l at c1
    cases c1 with
    | refl => exact c2
    | snoc => simp at hl'

/-- Backend `i` has the search it has begun, if nothing gives it up. -/
theorem Fires.same {y z : WNet V} {e : Event V} {i a : Nat} {lk : Look V} (h : Fires ix rc M e y z) (hl : e.leaves i = true)
    (ha : e ≠ .abort i) (hw : ∃ w, y.walk i = some w ∧ w.attnum = a ∧ w.look = lk) : ∃ w, z.walk i = some w ∧ w.attnum = a ∧ w.look = lk := by
  obtain ⟨w, h1, h2⟩ := hw
  have go : ∀ (j : Nat) (v : Walker V) (r : Net V × WPos V), (j = i → y.walk i = some v) → ∃ w, (y.go j v r).walk i = some w ∧ w.attnum = a ∧ w.look = lk := by
    intro j v r hv
    simp only [WNet.go]
    split
    · next hj =>
      rw [hv hj.symm] at h1
      cases h1
      exact ⟨_, rfl, h2⟩
    · exact ⟨w, h1, h2⟩
  cases e with
  | base e => rw [h.2.2]; exact ⟨w, h1, h2⟩
  | begin j a' lk' =>
    obtain ⟨-, -, -, -, rfl⟩ := h
    simp only [Event.leaves, bne_iff_ne, ne_eq] at hl
    exact ⟨w, by simp only [WNet.go]; rw [if_neg (fun h => hl h.symm)]; exact h1, h2⟩
  | leaf j => obtain ⟨v, _, _, _, hv, -, -, -, -, rfl⟩ := h; exact go j v _ (fun h => h ▸ hv)
  | page j => obtain ⟨v, _, _, hv, -, -, rfl⟩ := h; exact go j v _ (fun h => h ▸ hv)
  | relock j => obtain ⟨v, _, _, _, _, _, hv, -, -, -, rfl⟩ := h; exact go j v _ (fun h => h ▸ hv)
  | seek j => obtain ⟨v, _, _, _, hv, -, -, rfl⟩ := h; exact go j v _ (fun h => h ▸ hv)
  | abort j =>
    obtain ⟨-, rfl⟩ := h
    have : i ≠ j := fun h => ha (by rw [h])
    exact ⟨w, by simp only [if_neg this]; exact h1, h2⟩

theorem Run.same {y y' z : WNet V} {es : List (Event V)} {i a : Nat} {lk : Look V} (h : Run ix rc M y es z) (hb : Fires ix rc M (.begin i a lk) y' y)
    (hl : ∀ e ∈ es, e.leaves i = true) (ha : .abort i ∉ es) : ∃ w, z.walk i = some w ∧ w.attnum = a ∧ w.look = lk := by
  induction h with
  | refl =>
    obtain ⟨-, -, -, -, rfl⟩ := hb
    exact ⟨⟨a, lk, .down⟩, by simp [WNet.go], rfl, rfl⟩
  | snoc hr hf ih =>
    exact hf.same (hl _ (by simp)) (fun h => ha (by simp [h])) (ih (fun e he => hl e (by simp [he])) (fun h => ha (by simp [h])))

/-- Whether the search of backend `i` is under way. -/
def busy (z : WNet V) (i : Nat) : Bool := match z.walk i with
  | some ⟨_, _, .done _⟩ | some ⟨_, _, .error⟩ | none => false
  | _ => true

omit [Inhabited V] in
theorem busy_of {z : WNet V} {i : Nat} (h : Busy z i) : busy z i = true := by
  obtain ⟨⟨a, lk, p⟩, h1, h2⟩ := h
  unfold busy
  rw [h1]
  cases p <;> first | rfl | exact absurd trivial h2

/-- The result of an event. -/
def Event.result (ix : Ix V) (rc : RowCfg V) (y : WNet V) : Event V → Option (WNet V)
  | .base (.tree t i) => some ⟨⟨ix.visitTree y.v.net t i, y.v.vac⟩, y.walk⟩
  | .base e => (e.result ix rc y.v).map (⟨·, y.walk⟩)
  | .begin i a lk => some (y.go i ⟨a, lk, .down⟩ ((y.v.net.setE i (descent ⟨a, lk.cat, lk.key⟩)).setJ i (.read ⟨a, lk.cat, lk.key⟩ false), .down))
  | .leaf i => match y.walk i, y.v.net.eth i with
    | some w, .ins _ b _ => some (y.go i w (ix.walkLeaf y.v.net i b w))
    | _, _ => none
  | .page i => match y.walk i with
    | some ⟨a, lk, .page b acc⟩ => some (y.go i ⟨a, lk, .page b acc⟩ (ix.walkPage y.v.net i b ⟨a, lk, .page b acc⟩ acc))
    | _ => none
  | .relock i => match y.walk i, y.v.net.job i with
    | some ⟨a, lk, .tree k b off acc⟩, .answer _ _ R =>
      some (y.go i ⟨a, lk, .tree k b off acc⟩ (ix.walkBack y.v.net i b off ⟨a, lk, .tree k b off acc⟩ k (acc ++ R)))
    | _, _ => none
  | .seek i => match y.walk i with
    | some ⟨a, lk, .seek k b acc⟩ => some (y.go i ⟨a, lk, .seek k b acc⟩ (ix.walkOn y.v.net i b ⟨a, lk, .seek k b acc⟩ k acc))
    | _ => none
  | .abort _ => none

def free (N : Nat) (y : WNet V) (i b : Nat) : Bool := (List.range N).all (fun j => j == i || !(holds (y.v.net.eth j) == some b))

/-- The event can happen, if only backends below `N` are at work. -/
def Event.can [DecidableEq V] (ix : Ix V) (N : Nat) (y : WNet V) : Event V → Bool
  | .base (.tree t i) => decide (i < N) && !(y.v.net.tth t i).free && (tv y.v.vac t).isNone &&
      (List.range N).all (fun j => j == i || (holds (y.v.net.tth t j)).all (fun c => !(ix.needsT y.v.net t i).contains c))
  | .base (.entry i) => IndexVacConc.Event.can ix N y.v (.entry i) && (match y.walk i, y.v.net.eth i with
      | some ⟨a, lk, .down⟩, .ins _ b _ => !ix.stops y.v.net.st.entry ⟨a, lk.cat, lk.key⟩ b
      | _, _ => true)
  | .base (.insert i r) => IndexVacConc.Event.can ix N y.v (.insert i r) && !busy y i
  | .base (.read i k c) => IndexVacConc.Event.can ix N y.v (.read i k c) && !busy y i
  | .base (.stop _) => false
  | .base e => e.can ix N y.v
  | .begin i _ _ => decide (i < N) && (y.v.net.job i).free && !busy y i
  | .leaf i => match y.walk i, y.v.net.eth i with
    | some ⟨a, lk, .down⟩, .ins _ b _ => decide (i < N) && ix.stops y.v.net.st.entry ⟨a, lk.cat, lk.key⟩ b && free N y i b
    | _, _ => false
  | .page i => match y.walk i with
    | some ⟨_, _, .page b _⟩ => decide (i < N) && free N y i b
    | _ => false
  | .relock i => match y.walk i, y.v.net.job i with
    | some ⟨_, _, .tree k b _ _⟩, .answer k' false _ => decide (i < N) && free N y i b && decide (k'.attnum = k.attnum ∧ k'.cat = k.cat ∧ k'.key = k.key)
    | _, _ => false
  | .seek i => match y.walk i with
    | some ⟨_, _, .seek _ b _⟩ => decide (i < N) && free N y i b
    | _ => false
  | .abort _ => false

def results [DecidableEq V] (ix : Ix V) (rc : RowCfg V) (N : Nat) : WNet V → List (Event V) → Option (WNet V)
  | y, [] => some y
  | y, e :: es => if e.can ix N y then (e.result ix rc y).bind (fun z => results ix rc N z es) else none

omit [Inhabited V] in
theorem free_of {N : Nat} {y : WNet V} {i b : Nat} (hN : ∀ j, N ≤ j → y.v.net.eth j = .idle) (h : free N y i b = true) : Unlocked y i b := by
  intro j hj hh
  by_cases hjN : j < N
  · have := List.all_eq_true.1 h j (List.mem_range.2 hjN)
    simp [hj, hh] at this
  · rw [hN j (by omega)] at hh; cases hh

omit [Inhabited V] in
theorem enter_other {i j : Nat} (h : j ≠ i) (n : Net V) (o : Option (AttKey V × Nat)) : IndexConc.Other j n (n.enter i o) := by
  cases o with
  | none => exact ⟨rfl, fun _ => rfl, rfl⟩
  | some o =>
    obtain ⟨k, t⟩ := o
    exact (IndexConc.other_simple h n n.st .idle t (.down 0) .idle).2.2.1.trans (IndexConc.other_simple h _ n.st .idle 0 .idle (.read k false)).2.2.2.1

/-- Backends from `N` on do nothing. -/
def Rest (N : Nat) (y : WNet V) : Prop := ∀ j, N ≤ j → y.v.net.eth j = .idle ∧ (∀ t, y.v.net.tth t j = .idle) ∧ y.v.net.job j = .idle

omit [Inhabited V] in
theorem Rest.other {N : Nat} {y z : WNet V} (h : Rest N y) (ho : ∀ j, N ≤ j → IndexConc.Other j y.v.net z.v.net) : Rest N z := by
  intro j hj
  obtain ⟨h1, h2, h3⟩ := h j hj
  obtain ⟨o1, o2, o3⟩ := ho j hj
  exact ⟨o1.trans h1, fun t => (o2 t).trans (h2 t), o3.trans h3⟩

theorem can_fires [DecidableEq V] {N : Nat} {y z : WNet V} {e : Event V} (hN : Rest N y) (h : e.can ix N y = true)
    (hz : e.result ix rc y = some z) (hr : ∀ i r, e = .base (.insert i r) → RowOK ix rc M r)
    (hl : ∀ i a lk, e = .begin i a lk → lk.mode ≠ .exact ∧ LookOK (ix.cmpK a) lk) : Fires ix rc M e y z ∧ Rest N z := by
  have hN' : ∀ j, N ≤ j → y.v.net.eth j = .idle ∧ y.v.net.job j = .idle := fun j hj => ⟨(hN j hj).1, (hN j hj).2.2⟩
  have hNe : ∀ j, N ≤ j → y.v.net.eth j = .idle := fun j hj => (hN j hj).1
  have hsame : ∀ n : Net V, IndexConc.Other 0 n n := fun n => ⟨rfl, fun _ => rfl, rfl⟩
  have base : ∀ b : IndexVacConc.Event V, e = .base b → b.can ix N y.v = true → ∀ v, b.result ix rc y.v = some v → z = ⟨v, y.walk⟩ → Allowed ix y b →
      (∀ j, N ≤ j → IndexConc.Other j y.v.net v.net) → Fires ix rc M e y z ∧ Rest N z := by
    rintro b rfl hb v hv rfl ha ho
    obtain ⟨k1, -⟩ := IndexVacConc.can_fires (rc := rc) (M := M) hN' hb hv (fun i r he => hr i r (by rw [he]))
    exact ⟨⟨ha, k1, rfl⟩, hN.other ho⟩
  cases e with
  | base b =>
    cases b with
    | tree t i =>
      cases hz
      simp only [Event.can, Bool.and_eq_true, decide_eq_true_eq, Bool.not_eq_true', List.all_eq_true, List.mem_range, Bool.or_eq_true, beq_iff_eq,
        Option.isNone_iff_eq_none] at h
      obtain ⟨⟨⟨h1, h2⟩, h3⟩, h4⟩ := h
      refine ⟨⟨trivial, ⟨h2, fun j hj c hc => ?_, fun hh => absurd h3 hh, rfl⟩, rfl⟩, hN.other (fun j hj => VC.visitTree_other (by omega) _)⟩
      by_cases hjN : j < N
      · rcases h4 j hjN with h5 | h5
        · exact absurd h5 hj
        · rw [hc] at h5
          simpa using h5
      · rw [(hN j (by omega)).2.1 t] at hc; cases hc
    | entry i =>
      simp only [Event.can, Bool.and_eq_true] at h
      have hi : i < N := by
        have := h.1
        simp only [IndexVacConc.Event.can, Bool.and_eq_true, decide_eq_true_eq] at this
        exact this.1.1
      cases hz
      refine base _ rfl h.1 _ rfl rfl (fun w xs b up h1 h2 h3 => ?_) (fun j hj => IndexConc.visitEntry_other (by omega) _)
      obtain ⟨a, lk, p⟩ := w
      simp only at h2
      subst h2
      have := h.2
      rw [h1, h3] at this
      simpa [Walker.key] using this
    | insert i r =>
      simp only [Event.can, Bool.and_eq_true, Bool.not_eq_true'] at h
      have hi : i < N := by
        have := h.1
        simp only [IndexVacConc.Event.can, Bool.and_eq_true, decide_eq_true_eq] at this
        exact this.1.1
      cases hz
      exact base _ rfl h.1 _ rfl rfl (fun hb => by rw [busy_of hb] at h; cases h.2) (fun j hj => IndexConc.next_other (by omega) _ _)
    | read i k c =>
      simp only [Event.can, Bool.and_eq_true, Bool.not_eq_true'] at h
      have hi : i < N := by
        have := h.1
        simp only [IndexVacConc.Event.can, Bool.and_eq_true, decide_eq_true_eq] at this
        exact this.1
      cases hz
      exact base _ rfl h.1 _ rfl rfl (fun hb => by rw [busy_of hb] at h; cases h.2) (fun j hj =>
        (IndexConc.other_simple (by omega) _ y.v.net.st _ 0 .idle .idle).2.1.trans (IndexConc.other_simple (by omega) _ y.v.net.st .idle 0 .idle _).2.2.2.1)
    | stop i => cases h
    | vacuum dead =>
      cases hz
      exact base _ rfl h _ rfl rfl trivial (fun j hj => ⟨rfl, fun _ => rfl, rfl⟩)
    | step =>
      simp only [Event.result, Option.map_eq_some_iff] at hz
      obtain ⟨v, hv, rfl⟩ := hz
      refine base _ rfl h v hv rfl trivial (fun j hj => ?_)
      simp only [IndexVacConc.Event.result] at hv
      split at hv
      · obtain ⟨q, -, rfl⟩ := Option.map_eq_some_iff.1 hv
        exact ⟨rfl, fun _ => rfl, rfl⟩
      · cases hv
  | begin i a lk =>
    simp only [Event.can, Bool.and_eq_true, Bool.not_eq_true', decide_eq_true_eq] at h
    cases hz
    obtain ⟨l1, l2⟩ := hl i a lk rfl
    exact ⟨⟨h.1.2, (fun hb => by rw [busy_of hb] at h; cases h.2), l1, l2, rfl⟩, hN.other (fun j hj =>
      (IndexConc.other_simple (by omega) _ y.v.net.st _ 0 .idle .idle).2.1.trans (IndexConc.other_simple (by omega) _ y.v.net.st .idle 0 .idle _).2.2.2.1)⟩
  | leaf i =>
    simp only [Event.can] at h
    split at h
    · next a lk xs b up hw he =>
      simp only [Bool.and_eq_true, decide_eq_true_eq] at h
      simp only [Event.result, hw, he, Option.some.injEq] at hz
      subst hz
      exact ⟨⟨_, xs, b, up, hw, rfl, he, h.1.2, free_of hNe h.2, rfl⟩, hN.other (fun j hj =>
        (IndexConc.other_simple (by omega) _ y.v.net.st .idle 0 .idle _).2.2.2.2.trans (enter_other (by omega) _ _))⟩
    · cases h
  | page i =>
    simp only [Event.can] at h
    split at h
    · next a lk b ac hw =>
      simp only [Bool.and_eq_true, decide_eq_true_eq] at h
      simp only [Event.result, hw, Option.some.injEq] at hz
      subst hz
      exact ⟨⟨_, b, ac, hw, rfl, free_of hNe h.2, rfl⟩, hN.other (fun j hj => enter_other (by omega) _ _)⟩
    · cases h
  | relock i =>
    simp only [Event.can] at h
    split at h
    · next a lk k b off ac k' R hw hj =>
      simp only [Bool.and_eq_true, decide_eq_true_eq] at h
      simp only [Event.result, hw, hj, Option.some.injEq] at hz
      subst hz
      have hk : k' = k := by
        obtain ⟨a1, b1, c1⟩ := k
        obtain ⟨a2, b2, c2⟩ := k'
        obtain ⟨h1, h2, h3⟩ := h.2
        simp only at h1 h2 h3
        rw [h1, h2, h3]
      subst hk
      refine ⟨⟨_, k', b, off, ac, R, hw, rfl, hj, free_of hNe h.1.2, rfl⟩, hN.other (fun j hj => ?_)⟩
      simp only [WNet.go, Ix.walkBack]
      split
      · exact (IndexConc.other_simple (by omega) _ y.v.net.st .idle 0 .idle _).2.2.2.1.trans (enter_other (by omega) _ _)
      · exact (IndexConc.other_simple (by omega) _ y.v.net.st _ 0 .idle .idle).2.1.trans (IndexConc.other_simple (by omega) _ y.v.net.st .idle 0 .idle _).2.2.2.1
    · cases h
  | seek i =>
    simp only [Event.can] at h
    split at h
    · next a lk k b ac hw =>
      simp only [Bool.and_eq_true, decide_eq_true_eq] at h
      simp only [Event.result, hw, Option.some.injEq] at hz
      subst hz
      exact ⟨⟨_, k, b, ac, hw, rfl, free_of hNe h.2, rfl⟩, hN.other (fun j hj => enter_other (by omega) _ _)⟩
    · cases h
  | abort i => cases h

theorem results_run [DecidableEq V] {N : Nat} {n0 n n' : WNet V} {es0 es : List (Event V)} (h0 : Run ix rc M n0 es0 n)
    (hN : Rest N n) (hr : ∀ i r, .base (.insert i r) ∈ es → RowOK ix rc M r)
    (hl : ∀ i a lk, .begin i a lk ∈ es → lk.mode ≠ .exact ∧ LookOK (ix.cmpK a) lk) (h : results ix rc N n es = some n') :
    Run ix rc M n0 (es0 ++ es) n' := by
  induction es generalizing n es0 with
  | nil => cases h; rw [List.append_nil]; exact h0
  | cons e es ih =>
    simp only [results] at h
    split at h
    · next hc =>
      obtain ⟨z, hz, h⟩ := Option.bind_eq_some_iff.1 h
      obtain ⟨h1, h2⟩ := can_fires (rc := rc) (M := M) hN hc hz (fun i r he => hr i r (by rw [he]; simp)) (fun i a lk he => hl i a lk (by rw [he]; simp))
      have := ih (.snoc h0 h1) h2 (fun i r hm => hr i r (List.mem_cons_of_mem _ hm)) (fun i a lk hm => hl i a lk (List.mem_cons_of_mem _ hm)) h
      rw [List.append_assoc] at this
      exact this
    · cases h
end

/-- An index over two columns; the keys of the second one take so much space that each has a posting tree. -/
def exIxW : Ix Nat := ⟨fun _ => compare, fun k => if k.attnum = 2 then 2704 else 16, fun _ => PostingTree.exCtx, false⟩

/-- A row with one key in each column. -/
def exRowW (n a b : Nat) : Row Nat := ⟨⟨n, 1⟩, fun c => if c = 1 then some [⟨some a, some (.byval 0)⟩] else some [⟨some b, some (.byval 0)⟩], none⟩

theorem exColsW : ColsOK exIxW ⟨15, true⟩ := ⟨exCols1.keys, exCols1.infos, exCols1.sizes⟩

theorem exRowOKW (m a b : Nat) (hm : m < 400) : RowOK exIxW exRc ⟨15, true⟩ (exRowW m a b) := by
  have hsz : ∀ k : AttKey Nat, exIxW.tupleSize k [] ≤ maxTuple := by
    intro k
    show alignUp 8 ((if k.attnum = 2 then 2704 else 16) + catByte k) ≤ maxTuple
    unfold catByte
    split <;> split <;> decide
  intro c h1 h2 o ho
  have h2 : c ≤ 2 := h2
  have hc : c = 1 ∨ c = 2 := by omega
  rcases hc with rfl | rfl <;>
    · simp only [Ix.colEntries, exRc, exRowW, extractEntries, if_true, if_false, (by decide : ¬ (2 = 1)), reduceCtorEq, toOut, List.mem_singleton] at ho
      subst ho
      exact ⟨fun _ => rfl, hsz _, storable_single (exStorable' _ hm)⟩

/-- Rows 1 and 5 with keys 7 and 8 in column 2. -/
def exBefore : List (Event Nat) := [.base (.insert 0 (exRowW 1 1 7)), .base (.entry 0), .base (.entry 0), .base (.insert 0 (exRowW 5 1 8)), .base (.entry 0), .base (.entry 0)]

/-- Keys from 7 to 8. -/
def exLook : Look Nat := ⟨.norm, 7, .part exRange⟩

/-- The search comes to the posting tree of key 7; row 3 with key 8 is being inserted meanwhile; VACUUM begins; the search goes on to key 8. -/
def exMeanwhile : List (Event Nat) := [.leaf 2, .base (.insert 0 (exRowW 3 1 8)), .base (.tree 0 2), .base (.entry 0), .base (.entry 0),
  .base (.tree 1 0), .base (.vacuum (fun p => p.blk == 9)), .relock 2, .base .step, .base (.tree 1 2), .relock 2]

/-- The search comes to the posting tree of key 7; row 3, with a new key in column 1, is being inserted meanwhile. -/
def exShift : List (Event Nat) := [.leaf 2, .base (.insert 0 (exRowW 3 2 8)), .base (.tree 0 2), .base (.entry 0), .relock 2]

def exDone : Option (Walker Nat) → Option (List Iptr)
  | some ⟨2, _, .done R⟩ => some (R.map Item.iptr)
  | _ => none

def exError : Option (Walker Nat) → Bool
  | some ⟨2, _, .error⟩ => true
  | _ => false

theorem ex_runs : exDone (((results exIxW exRc 3 ⟨⟨calm emptyIndex, none⟩, fun _ => none⟩ (exBefore ++ .begin 2 2 exLook :: exMeanwhile)).bind (·.walk 2)))
    = some [⟨1, 1⟩, ⟨3, 1⟩, ⟨5, 1⟩] := by
  decide +kernel

theorem ex_fails : exError (((results exIxW exRc 3 ⟨⟨calm emptyIndex, none⟩, fun _ => none⟩ (exBefore ++ .begin 2 2 exLook :: exShift)).bind (·.walk 2)))
    = true := by
  decide +kernel

theorem exOK (l : List (Event Nat)) (h : l = exMeanwhile ∨ l = exShift) :
    (∀ i r, .base (.insert i r) ∈ exBefore ++ .begin 2 2 exLook :: l → RowOK exIxW exRc ⟨15, true⟩ r) ∧
    ∀ i a lk, .begin i a lk ∈ exBefore ++ .begin 2 2 exLook :: l → lk.mode ≠ .exact ∧ LookOK (exIxW.cmpK a) lk := by
  constructor
  · intro i r hr
    have : ∃ m a b, m < 400 ∧ r = exRowW m a b := by
      rcases h with rfl | rfl <;>
      · simp only [exBefore, exMeanwhile, exShift, List.cons_append, List.nil_append, List.mem_cons, List.not_mem_nil, or_false, reduceCtorEq, false_or,
          Event.base.injEq, IndexVacConc.Event.insert.injEq] at hr
        rcases hr with ⟨-, h⟩ | ⟨-, h⟩ | ⟨-, h⟩ <;> exact ⟨_, _, _, (by omega), h⟩
    obtain ⟨m, a, b, hm, rfl⟩ := this
    exact exRowOKW m a b hm
  · intro i a lk hr
    have : lk = exLook := by
      rcases h with rfl | rfl <;>
      · simp only [exBefore, exMeanwhile, exShift, List.cons_append, List.nil_append, List.mem_cons, List.not_mem_nil, or_false, reduceCtorEq, false_or,
          Event.begin.injEq] at hr
        exact hr.2.2
    subst this
    exact ⟨(by simp [exLook]), fun _ => exRange_ok⟩

/-- What there is in common to the two runs. -/
theorem exRun {l : List (Event Nat)} (h : l = exMeanwhile ∨ l = exShift) {n3 : WNet Nat}
    (hr : results exIxW exRc 3 ⟨⟨calm emptyIndex, none⟩, fun _ => none⟩ (exBefore ++ .begin 2 2 exLook :: l) = some n3) :
    ∃ n1 n2, Run exIxW exRc ⟨15, true⟩ ⟨⟨calm emptyIndex, none⟩, fun _ => none⟩ exBefore n1 ∧
      Fires exIxW exRc ⟨15, true⟩ (.begin 2 2 exLook) n1 n2 ∧ Run exIxW exRc ⟨15, true⟩ n2 l n3 ∧ ∀ e ∈ l, e.leaves 2 = true := by
  have R3 := results_run (ix := exIxW) (rc := exRc) (M := ⟨15, true⟩) (.refl _) (fun _ _ => ⟨rfl, fun _ => rfl, rfl⟩) (exOK l h).1 (exOK l h).2 hr
  rw [List.nil_append] at R3
  obtain ⟨m1, a1, a2⟩ := R3.split
  rw [show Event.begin 2 2 exLook :: l = [Event.begin 2 2 exLook] ++ l from rfl] at a2
  obtain ⟨m2, b1, b2⟩ := a2.split
  refine ⟨m1, m2, a1, b1.single, b2, fun e he => ?_⟩
  rcases h with rfl | rfl <;>
  · simp only [exMeanwhile, exShift, List.mem_cons, List.not_mem_nil, or_false] at he
    rcases he with rfl | rfl | rfl | rfl | rfl | rfl | rfl | rfl | rfl | rfl | rfl <;> rfl

theorem exSorts : (∀ a, SortOK (exIxW.cmpK a) (exRc.sort a)) ∧ ∀ a, DupsSeen (exIxW.cmpK a) (exRc.haveDups a) := by
  refine ⟨fun a => ⟨fun l => List.mergeSort_perm _ _, fun l => ?_⟩, fun a l h => (by cases h)⟩
  have := List.pairwise_mergeSort (l := l) (le := fun a b : Raw Nat Datum => (cmpExtract compare a.key b.key).isLE)
    (fun a b c h1 h2 => TransCmp.isLE_trans h1 h2) (fun a b => by
      rw [OrientedCmp.eq_swap (cmp := cmpExtract compare) (a := b.key) (b := a.key)]
      cases cmpExtract compare a.key b.key <;> simp)
  exact this.imp (fun h hc => by
    rw [show cmpExtract compare _ _ = Ordering.gt from hc] at h
    cases h)

theorem exStart : (∀ k, 8 ∣ exIxW.keySize k) ∧ (∀ a, SortOK (exIxW.cmpK a) (exRc.sort a)) ∧ (∀ a, DupsSeen (exIxW.cmpK a) (exRc.haveDups a)) ∧
    Over exIxW exRc ⟨15, true⟩ emptyIndex [] := by
  refine ⟨fun k => ?_, exSorts.1, exSorts.2, .start (.empty _ exColsW)⟩
  show 8 ∣ if k.attnum = 2 then 2704 else 16
  split
  · exact ⟨338, rfl⟩
  · exact ⟨2, rfl⟩

/-- The hypotheses of `C74_search_partial` are met by this run: rows 1 and 5 are in the table when the search begins, row 3 comes meanwhile, and VACUUM begins. The search
ends with rows 1, 3 and 5. -/
example : exIxW.build = false ∧ (∀ k, 8 ∣ exIxW.keySize k) ∧ (∀ a, SortOK (exIxW.cmpK a) (exRc.sort a)) ∧ (∀ a, DupsSeen (exIxW.cmpK a) (exRc.haveDups a)) ∧
    Over exIxW exRc ⟨15, true⟩ emptyIndex [] ∧
    ∃ n1 n2 n3 R, Run exIxW exRc ⟨15, true⟩ ⟨⟨calm emptyIndex, none⟩, fun _ => none⟩ exBefore n1 ∧ Fires exIxW exRc ⟨15, true⟩ (.begin 2 2 exLook) n1 n2 ∧
      Run exIxW exRc ⟨15, true⟩ n2 exMeanwhile n3 ∧ (∀ e ∈ exMeanwhile, e.leaves 2 = true) ∧ n3.walk 2 = some ⟨2, exLook, .done R⟩ ∧
      R.map Item.iptr = [⟨1, 1⟩, ⟨3, 1⟩, ⟨5, 1⟩] := by
  refine ⟨rfl, exStart.1, exStart.2.1, exStart.2.2.1, exStart.2.2.2, ?_⟩
  have hx := ex_runs
  cases e2 : results exIxW exRc 3 ⟨⟨calm emptyIndex, none⟩, fun _ => none⟩ (exBefore ++ .begin 2 2 exLook :: exMeanwhile) with
  | none => rw [e2] at hx; cases hx
  | some n3 =>
    rw [e2] at hx
    obtain ⟨n1, n2, r1, r2, r3, r4⟩ := exRun (Or.inl rfl) e2
    obtain ⟨w, hw, hl⟩ := r3.same r2 r4 (by simp [exMeanwhile])
    simp only [Option.bind_some, hw] at hx
    obtain ⟨a, lk, p⟩ := w
    obtain ⟨rfl, rfl⟩ := hl
    cases p with
    | done R => exact ⟨n1, n2, n3, R, r1, r2, r3, r4, hw, by simpa [exDone] using hx⟩
    | _ => cases hx

/-- **C74 (violated).** The error is possible, though nothing is wrong with the index: an index over two columns has rows 1 and 5, with key 1 in column 1 and keys
7 and 8 in column 2. A search for the keys from 7 to 8 of column 2 reads the posting tree of key 7, which is at offset 2 of the leaf. Meanwhile
another backend inserts row 3, with key 2 in column 1: its tuple goes to offset 2. When the search locks the leaf again the tuple at offset 2 has
another column, and it ends with the error "lost saved point in index". -/
theorem C74_violated : ∃ (ix : Ix Nat) (rc : RowCfg Nat) (M : Lim) (es1 es2 : List (Event Nat)) (n1 n2 n3 : WNet Nat) (lk : Look Nat),
    ix.build = false ∧ (∀ k, 8 ∣ ix.keySize k) ∧ M.single = true ∧ (∀ a, SortOK (ix.cmpK a) (rc.sort a)) ∧ (∀ a, DupsSeen (ix.cmpK a) (rc.haveDups a)) ∧
    Over ix rc M emptyIndex [] ∧ rc.natts = 2 ∧ Run ix rc M ⟨⟨calm emptyIndex, none⟩, fun _ => none⟩ es1 n1 ∧ Fires ix rc M (.begin 2 2 lk) n1 n2 ∧
    Run ix rc M n2 es2 n3 ∧ (∀ e ∈ es2, e.leaves 2 = true) ∧ (∀ dead, .vacuum dead ∉ bases es2) ∧ n3.walk 2 = some ⟨2, lk, .error⟩ := by
  have hx := ex_fails
  cases e2 : results exIxW exRc 3 ⟨⟨calm emptyIndex, none⟩, fun _ => none⟩ (exBefore ++ .begin 2 2 exLook :: exShift) with
  | none => rw [e2] at hx; cases hx
  | some n3 =>
    rw [e2] at hx
    obtain ⟨n1, n2, r1, r2, r3, r4⟩ := exRun (Or.inr rfl) e2
    obtain ⟨w, hw, hl⟩ := r3.same r2 r4 (by simp [exShift])
    simp only [Option.bind_some, hw] at hx
    obtain ⟨a, lk, p⟩ := w
    obtain ⟨rfl, rfl⟩ := hl
    cases p with
    | error => exact ⟨exIxW, exRc, ⟨15, true⟩, exBefore, exShift, n1, n2, n3, exLook, rfl, exStart.1, rfl, exStart.2.1, exStart.2.2.1, exStart.2.2.2, rfl, r1, r2, r3, r4,
        (fun dead h => by simp [exShift, bases] at h), hw⟩
    | _ => cases hx

/-- An index over one column; each key has a posting tree. -/
def exIx1 : Ix Nat := ⟨fun _ => compare, fun k => if k.attnum = 0 then 8192 else 2704, fun _ => PostingTree.exCtx, false⟩

def exRc1 : RowCfg Nat := { exRc with natts := 1 }

/-- Rows 1 and 5 with keys 7 and 8. -/
def exBefore1 : List (Event Nat) := [.base (.insert 0 (exRowW 1 7 0)), .base (.entry 0), .base (.insert 0 (exRowW 5 8 0)), .base (.entry 0)]

/-- The search comes to the posting tree of key 7; row 3, with the new key 6, is inserted meanwhile; the search finds its place again and goes on. -/
def exShift1 : List (Event Nat) := [.leaf 2, .base (.insert 0 (exRowW 3 6 0)), .base (.tree 0 2), .base (.entry 0), .relock 2, .base (.tree 1 2), .relock 2]

theorem ex_runs1 : ((((results exIx1 exRc1 3 ⟨⟨calm emptyIndex, none⟩, fun _ => none⟩ (exBefore1 ++ .begin 2 1 exLook :: exShift1)).bind (·.walk 2)).map (·.pos)).map
    (fun p => match p with | .done R => R.map Item.iptr | _ => [])) = some [⟨1, 1⟩, ⟨5, 1⟩] := by
  decide +kernel

theorem exRowOK1 (m a : Nat) (hm : m < 400) : RowOK exIx1 exRc1 ⟨15, true⟩ (exRowW m a 0) := by
  have hsz : ∀ k : AttKey Nat, k.attnum = 1 → exIx1.tupleSize k [] ≤ maxTuple := by
    intro k hk
    show alignUp 8 ((if k.attnum = 0 then 8192 else 2704) + catByte k) ≤ maxTuple
    rw [if_neg (by omega)]
    unfold catByte
    split <;> decide
  intro c h1 h2 o ho
  have h2 : c ≤ 1 := h2
  have hc : c = 1 := by omega
  subst hc
  simp only [Ix.colEntries, exRc1, exRc, exRowW, extractEntries, if_true, reduceCtorEq, if_false, toOut, List.mem_singleton] at ho
  subst ho
  exact ⟨fun _ => rfl, hsz _ rfl, storable_single (exStorable' _ hm)⟩

/-- The hypotheses of `C74_first_column` are met by this run, in which a new key comes before the one the search is at. -/
example : (∀ k, 8 ∣ exIx1.keySize k) ∧ (∀ k : AttKey Nat, k.attnum = 0 → maxTuple < exIx1.tupleSize k []) ∧ 1 ≤ exRc1.natts ∧
    (∀ a, SortOK (exIx1.cmpK a) (exRc1.sort a)) ∧ (∀ a, DupsSeen (exIx1.cmpK a) (exRc1.haveDups a)) ∧ Over exIx1 exRc1 ⟨15, true⟩ emptyIndex [] ∧
    ∃ n1 n2 n3, Run exIx1 exRc1 ⟨15, true⟩ ⟨⟨calm emptyIndex, none⟩, fun _ => none⟩ exBefore1 n1 ∧ Fires exIx1 exRc1 ⟨15, true⟩ (.begin 2 1 exLook) n1 n2 ∧
      Run exIx1 exRc1 ⟨15, true⟩ n2 exShift1 n3 ∧ ∀ e ∈ exShift1, e.leaves 2 = true := by
  refine ⟨fun k => ?_, fun k hk => ?_, (by decide), exSorts.1, exSorts.2, .start (.empty _ ⟨exCols1.keys, exCols1.infos, exCols1.sizes⟩), ?_⟩
  · show 8 ∣ if k.attnum = 0 then 8192 else 2704
    split
    · exact ⟨1024, rfl⟩
    · exact ⟨338, rfl⟩
  · show maxTuple < alignUp 8 ((if k.attnum = 0 then 8192 else 2704) + catByte k)
    rw [if_pos hk]
    unfold catByte
    split <;> decide
  have hx := ex_runs1
  cases e2 : results exIx1 exRc1 3 ⟨⟨calm emptyIndex, none⟩, fun _ => none⟩ (exBefore1 ++ .begin 2 1 exLook :: exShift1) with
  | none => rw [e2] at hx; cases hx
  | some n3 =>
    have R3 := results_run (ix := exIx1) (rc := exRc1) (M := ⟨15, true⟩) (.refl _) (fun _ _ => ⟨rfl, fun _ => rfl, rfl⟩) (fun i r hr => by
      have : ∃ m a, m < 400 ∧ r = exRowW m a 0 := by
        simp only [exBefore1, exShift1, List.cons_append, List.nil_append, List.mem_cons, List.not_mem_nil, or_false, reduceCtorEq, false_or,
          Event.base.injEq, IndexVacConc.Event.insert.injEq] at hr
        rcases hr with ⟨-, h⟩ | ⟨-, h⟩ | ⟨-, h⟩ <;> exact ⟨_, _, (by omega), h⟩
      obtain ⟨m, a, hm, rfl⟩ := this
      exact exRowOK1 m a hm) (fun i a lk hr => by
      have : lk = exLook := by
        simp only [exBefore1, exShift1, List.cons_append, List.nil_append, List.mem_cons, List.not_mem_nil, or_false, reduceCtorEq, false_or,
          Event.begin.injEq] at hr
        exact hr.2.2
      subst this
      exact ⟨(by simp [exLook]), fun _ => exRange_ok⟩) e2
    rw [List.nil_append] at R3
    obtain ⟨m1, a1, a2⟩ := R3.split
    rw [show Event.begin 2 1 exLook :: exShift1 = [Event.begin 2 1 exLook] ++ exShift1 from rfl] at a2
    obtain ⟨m2, b1, b2⟩ := a2.split
    refine ⟨m1, m2, n3, a1, b1.single, b2, fun e he => ?_⟩
    simp only [exShift1, List.mem_cons, List.not_mem_nil, or_false] at he
    rcases he with rfl | rfl | rfl | rfl | rfl | rfl | rfl <;> rfl

end Rum.Props.IndexWalk

import Verif.IndexWalkLemmas
import Verif.Props.IndexVacConc
/-
Steps of a range search among backends and VACUUM keep the invariant. Proof apparatus.
-/
namespace Rum.Index.VC
open Rum Rum.Codec Rum.Leaf Rum.Entry Rum.Tree Rum.Index Rum.Props Rum.Props.PostingTree Rum.Props.VacConc Rum.Props.Collect Std
open Rum.Props.IndexConc (Other other_simple)

variable {V : Type}

/-- What a backend with a range search is doing. -/
def Shape (ix : Ix V) (g : Gh V) (n : Net V) (i : Nat) (P : AttKey V → Item Datum → Prop) (a : Nat) (lk : Look V) : WPos V → Prop
  | .down => n.job i = .read ⟨a, lk.cat, lk.key⟩ false ∧ ∀ t, n.tth t i = .idle
  | .tree k _ _ _ => n.eth i = .idle ∧ (n.job i = .read k false ∨ ∃ R, n.job i = .answer k false R) ∧ Wants ix a lk k ∧ ∀ k' y, P k' y → Same ix k' k → y ∈ g.S i
  | .page _ _ | .seek _ _ _ => n.job i = .idle ∧ lk.void = false
  | _ => True

/-- What is known of a range search. `P`: rows that must be found. -/
structure WalkOK (ix : Ix V) [Inhabited V] (g : Gh V) (n : Net V) (i : Nat) (P : AttKey V → Item Datum → Prop) (w : Walker V) : Prop where
  look : LookOK (ix.cmpK w.attnum) w.look
  mode : w.look.mode ≠ .exact
  want : ∀ k y, P k y → Wants ix w.attnum w.look k
  ride : ∀ k y, P k y → g.r.P k y
  pos : WPosOK ix g.r P w.key w.pos
  shape : Shape ix g n i P w.attnum w.look w.pos
  sound : ∀ y ∈ acc w.pos, ∃ k, Wants ix w.attnum w.look k ∧ g.A i k y

/-- A step of the range search of backend `i`. -/
structure Stepped (i : Nat) (g g' : Gh V) (n n' : Net V) : Prop where
  A : g'.A = g.A
  T : g'.T = g.T
  S : ∀ j, j ≠ i → g'.S j = g.S j
  Si : ∀ y ∈ g'.S i, y ∈ g.S i ∨ ∃ k, g.r.P k y
  P : g'.r.P = g.r.P
  W : ∀ b k, g.r.W b k → g'.r.W b k
  L : ∀ b k, g.r.L b k → g'.r.L b k
  E : ∀ k, g.r.E k → g'.r.E k
  st : n'.st = n.st
  other : ∀ j, j ≠ i → Other j n n'

section
variable {ix : Ix V} [Inhabited V] {M : Lim} {g g' g'' : Gh V} {v : Option Vac} {n n' n'' : Net V} {i j : Nat} {P : AttKey V → Item Datum → Prop}
  {a : Nat} {lk : Look V} {w : Walker V}

omit [Inhabited V] in
theorem Stepped.trans (h : Stepped i g g' n n') (h' : Stepped i g' g'' n' n'') : Stepped i g g'' n n'' :=
  ⟨h'.A.trans h.A, h'.T.trans h.T, fun j hj => (h'.S j hj).trans (h.S j hj),
    fun y hy => (h'.Si y hy).elim (h.Si y) (fun ⟨k, hk⟩ => Or.inr ⟨k, by rw [← h.P]; exact hk⟩), h'.P.trans h.P, fun b k hb => h'.W b k (h.W b k hb),
    fun b k hb => h'.L b k (h.L b k hb), fun k hb => h'.E k (h.E k hb), h'.st.trans h.st, fun j hj => (h.other j hj).trans (h'.other j hj)⟩

theorem WPosOK.mono {r r' : Ride V} (hW : ∀ b k, r.W b k → r'.W b k) (hL : ∀ b k, r.L b k → r'.L b k) (hE : ∀ k, r.E k → r'.E k) {q : AttKey V} {p : WPos V}
    (h : WPosOK ix r P q p) : WPosOK ix r' P q p := by
  cases p with
  | down => trivial
  | page b ac => exact ⟨hL _ _ h.1, fun k y hy => (h.2 k y hy).imp id (hW _ _)⟩
  | tree k b off ac =>
    obtain ⟨h1, h2, h3, h4, h5, ks, h6, h7, h8⟩ := h
    exact ⟨h1.imp id (hW _ _), h2, hE _ h3, h4, h5, ks, h6, h7, fun x hx => ⟨hE _ (h8 x hx).1, (h8 x hx).2.1, (h8 x hx).2.2.imp id (hW _ _)⟩⟩
  | seek k b ac => exact ⟨hW _ _ h.1, h.2.1, hE _ h.2.2.1, h.2.2.2⟩
  | done ac => exact h
  | error => obtain ⟨k, h1, h2⟩ := h; exact ⟨k, hE k h1, h2⟩

omit [Inhabited V] in
theorem Shape.same {p : WPos V} (h : Shape ix g n j P a lk p) (ho : Other j n n') (hS : g'.S j = g.S j) :
    Shape ix g' n' j P a lk p := by
  obtain ⟨he, ht, hj⟩ := ho
  cases p with
  | down => exact ⟨by rw [hj]; exact h.1, fun t => by rw [ht]; exact h.2 t⟩
  | tree k b off ac => exact ⟨by rw [he]; exact h.1, by rw [hj]; exact h.2.1, h.2.2.1, fun k' y hy hk => by rw [hS]; exact h.2.2.2 k' y hy hk⟩
  | page b ac => exact ⟨hj.trans h.1, h.2⟩
  | seek k b ac => exact ⟨hj.trans h.1, h.2⟩
  | done ac => trivial
  | error => trivial

theorem WalkOK.keep (h : WalkOK ix g n j P w) (hA : g'.A j = g.A j) (hP : ∀ k y, P k y → g'.r.P k y) (hW : ∀ b k, g.r.W b k → g'.r.W b k)
    (hL : ∀ b k, g.r.L b k → g'.r.L b k) (hE : ∀ k, g.r.E k → g'.r.E k) (hs : Shape ix g' n' j P w.attnum w.look w.pos) : WalkOK ix g' n' j P w :=
  ⟨h.look, h.mode, h.want, hP, h.pos.mono hW hL hE, hs, by rw [hA]; exact h.sound⟩

theorem WalkOK.stay (h : WalkOK ix g n j P w) (hs : Stepped i g g' n n') (hj : j ≠ i) : WalkOK ix g' n' j P w :=
  h.keep (by rw [hs.A]) (fun k y hy => by rw [hs.P]; exact h.ride k y hy) hs.W hs.L hs.E (h.shape.same (hs.other j hj) (hs.S j hj))

/-! ### The net -/

theorem NInv.ride (I : NInv ix M g v n) {r : Ride V} (h : EV ix n.st n.eth v r) : NInv ix M { g with r := r } v n :=
  ⟨h, fun e he => (I.tup e he).same rfl rfl (fun _ => rfl), I.inj, I.ok, I.alive, I.clean, fun j => (I.job j).mono (fun l hl op ho => by
    have := I.job j
    rw [hl] at this
    exact this.2.1 op ho), I.due⟩

theorem RideOK.full {K : Type} [LinearOrder K] {key : Ent V → K} {st : State V} {G : Ghost} {r : Ride V} (h : RideOK ix key st G v r) :
    RideOK ix key st G v (full ix key st G r.P) :=
  ⟨fun _ _ h => h, fun _ _ h => h, fun _ h => h, h.rows, h.live⟩

/-- The backend is not busy: it can forget its answer. -/
theorem NInv.rest (I : NInv ix M g v n) (hf : (n.job i).free = true) : NInv ix M g v (n.setJ i .idle) := by
  obtain ⟨hq, hl⟩ := (I.job i).quiet hf
  refine ((I.part i).setJ .idle).whole ?_ ?_
  · rw [setJ_job]; exact hq
  · rw [setJ_job]
    have := I.due' i
    rw [hl] at this
    exact this.of rfl (fun j hj => by simp [Net.setJ, hj])

omit [Inhabited V] in
theorem read_self (g : Gh V) (i : Nat) : g.read i (g.S i) (g.A i) = g := by
  obtain ⟨S, A, T, r⟩ := g
  simp only [Gh.read, Gh.mk.injEq, and_true]
  constructor <;> funext j <;> split <;> simp_all

/-- Into a posting tree. -/
theorem NInv.enter (hc : ColsOK ix M) (I : NInv ix M g v n) (hf : n.job i = .idle) {st : State V} (hst : n.st = st) {r : Ride V} {acc0 : List (Item Datum)}
    (hp : ∀ k y, P k y → y ∈ ix.rowsOf n.st k ∧ ∀ w, v = some w → w.dead y.iptr = false) {o : WPos V × Option (AttKey V × Nat)}
    (hO : Out ix st r P a lk acc0 o) (hv : lk.void = false ∨ ∃ ac, o.1 = .done ac) :
    ∃ S, NInv ix M (g.read i S (g.A i)) v (n.enter i o.2) ∧ Shape ix (g.read i S (g.A i)) (n.enter i o.2) i P a lk o.1 ∧
      (∀ j, j ≠ i → Other j n (n.enter i o.2)) ∧ ∀ y ∈ S, y ∈ g.S i ∨ ∃ k, P k y := by
  classical
  subst hst
  rcases hO.tree with ⟨h1, h2⟩ | ⟨k, b, off, ac, t, rfl, h1, e, he, hp', hke⟩
  · refine ⟨g.S i, by rw [read_self, h2]; exact I, ?_, fun j _ => by rw [h2]; exact ⟨rfl, fun _ => rfl, rfl⟩, fun y hy => Or.inl hy⟩
    rw [h2]
    revert h1 hv
    cases o.1 with
    | down => exact fun _ h => h.elim
    | tree => exact fun _ h => h.elim
    | page => exact fun hv _ => ⟨hf, hv.resolve_right (by simp)⟩
    | seek => exact fun hv _ => ⟨hf, hv.resolve_right (by simp)⟩
    | _ => exact fun _ _ => trivial
  · let S := (ix.rowsOf n.st k).filter (fun y => decide (∃ k', Same ix k' k ∧ P k' y))
    have hmS : ∀ y, y ∈ S ↔ y ∈ ix.rowsOf n.st k ∧ ∃ k', Same ix k' k ∧ P k' y := by intro y; simp [S, List.mem_filter]
    have hfr : (n.job i).free = true := by rw [hf]; rfl
    obtain ⟨hq, -⟩ := (I.job i).quiet hfr
    have I1 := I.read hc hfr (k := k) (c := false) (S := S) (A := g.A i) (fun y hy => ((hmS y).1 hy).1)
      (fun w hw y hy => by obtain ⟨-, k', -, h⟩ := (hmS y).1 hy; exact (hp k' y h).2 w hw)
      (fun k y hy => (I.ok k y hy).1 i) (by
        intro j l hj op ho k' hk'
        have := I.job j
        rw [hj] at this
        exact this.2.2.1 op ho k' hk' i)
    have P1 := (I1.part i).setE (a := .idle) (by simp [Net.setJ, Net.setE, descent]; rfl) (Or.inl rfl)
    have hS2 : ∀ y ∈ (g.read i S (g.A i)).S i, y ∈ ix.rowsOf n.st k := by
      intro y hy
      simp only [Gh.read, if_true] at hy
      exact ((hmS y).1 hy).1
    have P2 := P1.setT hc (t := t) (a := .down 0) (by
        have : (((n.setE i (descent k)).setJ i (.read k false)).setE i .idle).tth t i = .idle := hq.2 t
        rw [this]; rfl) (k := k) he hp' hke (Or.inr (Or.inl ⟨Or.inl rfl, hS2⟩))
    have hnet : (((n.setE i (descent k)).setJ i (.read k false)).setE i .idle).setT t i (.down 0) = n.enter i (some (k, t)) := by
      simp only [Net.enter, Net.setT, Net.setJ, Net.setE, Net.mk.injEq, true_and, and_true]
      funext j
      split
      · next h => rw [h]; exact hq.1.symm
      · rfl
    rw [hnet] at P2
    have hjob : (n.enter i (some (k, t))).job i = .read k false := by simp [Net.enter, Net.setJ]
    refine ⟨S, P2.whole ?_ ?_, ⟨hq.1, Or.inl hjob, h1, fun k' y hy hk' => ?_⟩, fun j hj => ?_, fun y hy => by
      obtain ⟨-, k', -, h⟩ := (hmS y).1 hy
      exact Or.inr ⟨k', h⟩⟩
    · rw [hjob]
      have hown : (n.enter i (some (k, t))).tth t i = .down 0 := by simp [Net.enter, Net.setT, Net.setJ]
      refine ⟨hS2, Or.inr ⟨t, ⟨hq.1, fun u hu => ?_, e, he, hp', hke⟩, ?_, ?_⟩⟩
      · simp only [Net.enter, Net.setT, Net.setJ, hu, false_and, if_false]
        exact hq.2 u
      · simp only [hown]; rfl
      · simp only [hown]; rfl
    · rw [hjob]
      have := I.due' i
      rw [hf] at this
      exact this.of rfl (fun j hj => by simp [Net.enter, Net.setJ, Net.setT, hj])
    · simp only [Gh.read, if_true]
      refine (hmS y).2 ⟨?_, k', hk', hy⟩
      rw [← rows_same hc I.entry.einv hk']
      exact (hp k' y hy).1
    · exact (other_simple hj n n.st .idle t (.down 0) .idle).2.2.1.trans (other_simple hj _ n.st .idle t (.down 0) (.read k false)).2.2.2.1

/-- What a visit to a page leaves. -/
theorem NInv.out (hc : ColsOK ix M) (hlk : LookOK (ix.cmpK a) lk) (hx : lk.mode ≠ .exact) (hw : ∀ k y, P k y → Wants ix a lk k)
    (hr : ∀ k y, P k y → g.r.P k y) (I : NInv ix M g v n) (hf : n.job i = .idle) {acc0 : List (Item Datum)} {o : WPos V × Option (AttKey V × Nat)}
    (hO : Out ix n.st g.r P a lk acc0 o) (hv : lk.void = false ∨ ∃ ac, o.1 = .done ac) (hs : ∀ y ∈ acc0, ∃ k, Wants ix a lk k ∧ g.A i k y) :
    ∃ g', NInv ix M g' v (n.enter i o.2) ∧ Stepped i g g' n (n.enter i o.2) ∧ WalkOK ix g' (n.enter i o.2) i P ⟨a, lk, o.1⟩ := by
  have hp : ∀ k y, P k y → y ∈ ix.rowsOf n.st k ∧ ∀ w, v = some w → w.dead y.iptr = false := by
    obtain ⟨K, hK, key, G, hk, Y, hP, hR⟩ := I.entry
    exact fun k y hy => ⟨hR.rows k y (hr k y hy), fun w hw => hR.live w hw k y (hr k y hy)⟩
  obtain ⟨S, h1, h2, h3, h4⟩ := I.enter hc hf rfl hp hO hv
  have hA : (g.read i S (g.A i)).A = g.A := by
    funext j
    simp only [Gh.read]
    split
    · next h => rw [h]
    · rfl
  refine ⟨_, h1, ⟨hA, rfl, fun j hj => by simp [Gh.read, hj], fun y hy => by
      simp only [Gh.read, if_true] at hy
      exact (h4 y hy).imp id (fun ⟨k, hk⟩ => ⟨k, hr k y hk⟩), rfl, fun _ _ h => h, fun _ _ h => h, fun _ h => h, ?_, h3⟩,
    ⟨hlk, hx, hw, hr, hO.ok, h2, fun y hy => ?_⟩⟩
  · cases o.2 <;> rfl
  · rw [hA]
    rcases hO.sound y hy with h | ⟨k, h, hk⟩
    · exact hs y h
    · exact ⟨k, h, (I.ok k y hk).1 i⟩

/-! ### Visits to pages -/

section
variable {K : Type} [LinearOrder K] {key : Ent V → K} {G : Ghost}

/-- Keys wanted are not below the first key. -/
theorem wants_le (hc : ColsOK ix M) (hk : KeyOf ix.cmp key) (hlk : LookOK (ix.cmpK a) lk) (hv : lk.void = false) (hx : lk.mode ≠ .exact) {k : AttKey V}
    (hw : Wants ix a lk k) : key (probe ⟨a, lk.cat, lk.key⟩) ≤ key (probe k) := by
  have := hc.keys
  refine _root_.not_lt.1 (fun h => below_unwanted hc hlk hv hx (e := probe k) ((hk.lt _ _).2 h) ?_)
  exact (judge_take hv hx _).2 hw

omit [Inhabited V] in
theorem not_void (hw : Wants ix a lk k) : lk.void = false := by
  unfold Wants at hw
  unfold Look.void
  split at hw <;> simp_all

theorem full_stepped {r : Ride V} (hr : RideOK ix key n.st G v r) (hg : g.r = r) (ho : ∀ j, j ≠ i → Other j n n') (hst : n'.st = n.st) :
    Stepped i g { g with r := full ix key n.st G g.r.P } n n' := by
  subst hg
  exact ⟨rfl, rfl, fun _ _ => rfl, fun _ h => Or.inl h, rfl, hr.low, hr.past, hr.here, hst, ho⟩

/-- A page that is to the right of another is a leaf and has a tuple. -/
theorem good_page (W : Weak key true n.st.entry rootBlk G) (hB : BoundIn key (leafs key n.st.entry G)) {A B : List Nat} {b : Nat} (e : G.lv 0 = A ++ b :: B)
    (hA : A ≠ [] ∨ B ≠ [] ∨ (n.st.entry.page b).items ≠ []) : goodPage (n.st.entry.page b) = true := by
  have hb : b ∈ G.lv 0 := by rw [e]; simp
  have h1 := W.leaf b hb
  have h2 : (n.st.entry.page b).items ≠ [] := by
    rw [← or_assoc] at hA
    rcases hA with hA | hA
    · refine BoundIn.nonempty hB (p := ((n.st.entry.page b).items, hiP key (n.st.entry.page b))) (List.mem_map.2 ⟨b, hb, rfl⟩) ?_
      unfold leafs
      rw [List.length_map, e]
      rcases hA with hA | hA <;>
      · have := List.length_pos_iff.2 hA
        simp
        omega
    · exact hA
  unfold goodPage
  cases hi : (n.st.entry.page b).items with
  | nil => exact absurd hi h2
  | cons d l => simpa using h1
end

/-- The visit to the leaf the descent has come to. -/
theorem NInv.wLeaf (hc : ColsOK ix M) (I : NInv ix M g v n) (h : WalkOK ix g n i P w) (hp : w.pos = .down) {b : Nat} {xs : List (Ent V)} {up : List (Nat × Nat)}
    (heth : n.eth i = .ins xs b up) (hstop : ix.stops n.st.entry w.key b = true) :
    ∃ g', NInv ix M g' v (ix.walkLeaf n i b w).1 ∧ Stepped i g g' n (ix.walkLeaf n i b w).1 ∧
      WalkOK ix g' (ix.walkLeaf n i b w).1 i P { w with pos := (ix.walkLeaf n i b w).2 } := by
  have := hc.keys
  have := cmp_trans ix
  obtain ⟨a, lk, p⟩ := w
  simp only at hp
  subst hp
  obtain ⟨hlk, hx, hw, hr, -, ⟨hjob, htth⟩, -⟩ := h
  simp only at hlk hx hw hjob
  have hj := I.job i
  rw [hjob] at hj
  have hxs : xs = [probe ⟨a, lk.cat, lk.key⟩] := by
    rcases hj.2 with ⟨-, p, up', h⟩ | ⟨t, -, h, -⟩
    · rw [heth] at h; cases h; rfl
    · simp only [htth t] at h; cases h
  subst hxs
  obtain ⟨K, hK, key, G, hk, Y, hP, hR⟩ := I.entry
  have I0 := I.ride ⟨K, hK, key, G, hk, Y, hP, hR.full⟩
  have I1 := I0.quit hjob
  have hst : (n.quit i .idle).st = n.st := rfl
  have hidle : (n.quit i .idle).job i = .idle := by simp [Net.quit, Net.setJ]
  have hS := full_stepped (i := i) (g := g) (n' := n.quit i .idle) hR rfl (fun j hj => (other_simple hj n n.st .idle 0 .idle .idle).2.2.2.2) rfl
  have fin : ∀ o, Out ix n.st (full ix key n.st G g.r.P) P a lk [] o → (lk.void = false ∨ ∃ ac, o.1 = .done ac) → ∃ g', NInv ix M g' v ((n.quit i .idle).enter i o.2) ∧
      Stepped i g g' n ((n.quit i .idle).enter i o.2) ∧ WalkOK ix g' ((n.quit i .idle).enter i o.2) i P ⟨a, lk, o.1⟩ := by
    intro o hO hv
    obtain ⟨g', h1, h2, h3⟩ := NInv.out (g := { g with r := full ix key n.st G g.r.P }) (acc0 := []) hc hlk hx hw hr I1 hidle hO hv (fun y hy => by cases hy)
    exact ⟨g', h1, hS.trans h2, h3⟩
  unfold Ix.walkLeaf
  simp only
  cases hv : lk.void with
  | true =>
    simp only [if_true]
    refine fin (.done [], none) ⟨fun k y hy => ?_, fun y hy => Or.inl hy, Or.inl ⟨trivial, rfl⟩⟩ (Or.inr ⟨_, rfl⟩)
    have := not_void (hw k y hy)
    rw [hv] at this
    cases this
  | false =>
    simp only [Bool.false_eq_true, if_false]
    refine fin _ ?_ (Or.inl hv)
    have hok := Y.ok i
    simp only [heth] at hok
    have hst := (stops_iff ix _ _ _).1 hstop
    rcases ins_cases (o := ix.ops) (xs := []) hk (locateEntry_ok ix hk) Y.good hok with ⟨hno, -⟩ | ⟨-, A, B, e0, hA, hxb, hup⟩
    · exact absurd hst hno
    simp only at hA hxb
    have W := Y.good.weak
    have hb0 : b ∈ G.lv 0 := by rw [e0]; simp
    have hs : SSorted ix.cmp (n.st.entry.page b).items := (ssorted_key (o := ix.ops) hk).2 (W.order.sorted b hb0)
    obtain ⟨X, Y', hXY, hloc, hX, hY⟩ : ∃ X Y, (n.st.entry.page b).items = X ++ Y ∧
        (ix.locate (n.st.entry.page b).items (probe ⟨a, lk.cat, lk.key⟩)).2 = X.length + 1 ∧
        (∀ y ∈ X, key y < key (probe ⟨a, lk.cat, lk.key⟩)) ∧ ∀ y ∈ Y, key (probe ⟨a, lk.cat, lk.key⟩) ≤ key y := by
      rcases Index.spot ix hs (probe ⟨a, lk.cat, lk.key⟩) with ⟨A', B', t, hi, hl, he⟩ | ⟨A', B', hi, hl, hA', hB'⟩
      · have hs' := W.order.sorted b hb0
        simp only at hs'
        rw [hi] at hs'
        rw [(hk.eq _ _).1 he]
        refine ⟨A', t :: B', hi, by rw [hl], fun y hy => ?_, fun y hy => ?_⟩
        · exact (List.pairwise_append.1 hs').2.2 y hy t (by simp)
        · rcases List.mem_cons.1 hy with rfl | hy
          · exact _root_.le_refl _
          · exact _root_.le_of_lt ((List.pairwise_cons.1 (List.pairwise_append.1 hs').2.1).1 y hy)
      · refine ⟨A', B', hi, by rw [hl], fun y hy => ?_, fun y hy => ?_⟩
        · exact (hk.lt _ _).1 (OrientedCmp.lt_of_gt (hA' y hy))
        · exact _root_.le_of_lt ((hk.lt _ _).1 (hB' y hy))
    have hRr : ∀ k y, P k y → Wants ix a lk k ∧ y ∈ ix.rowsOf n.st k := fun k y hy => ⟨hw k y hy, hR.rows k y (hr k y hy)⟩
    have hkey : (⟨a, lk, WPos.down⟩ : Walker V).key = ⟨a, lk.cat, lk.key⟩ := rfl
    rw [hkey, hloc, hXY, Nat.add_sub_cancel, List.drop_left]
    have hO := walkFrom_ok (P := P) hc I.entry.einv hk W e0 hRr hlk hv hx ⟨b, by simp, hxb⟩ [] Y' X (X.length + 1) [] hXY (_root_.le_refl _) hY (fun y hy => by cases hy)
      (fun k y hy => Or.inr ⟨fun c hc' => (hA c hc').trans_le (WithTop.coe_le_coe.2 (wants_le hc hk hlk hv hx (hw k y hy))),
        fun x hx' => (hX x hx').trans_le (wants_le hc hk hlk hv hx (hw k y hy))⟩)
    refine ⟨?_, hO.sound, hO.tree⟩
    refine hO.ok.mono ?_ ?_ ?_ <;> intros <;> assumption

/-- On the page of the search, nobody but the ghosts moved. -/
theorem NInv.wOut (hc : ColsOK ix M) (hlk : LookOK (ix.cmpK a) lk) (hx : lk.mode ≠ .exact) (hw : ∀ k y, P k y → Wants ix a lk k)
    (hr : ∀ k y, P k y → g.r.P k y) (I : NInv ix M g v n) (hf : (n.job i).free = true) (hn : n' = n.setJ i .idle) {acc0 : List (Item Datum)}
    (hs : ∀ y ∈ acc0, ∃ k, Wants ix a lk k ∧ g.A i k y) {K : Type} [LinearOrder K] {key : Ent V → K} {G : Ghost} (hk : KeyOf ix.cmp key)
    (Y : SysInv True True key true (InnerFit ix) (KeyFit ix) (fun l => l.length ≤ 1) (LeafOK ix) ix.ops rootBlk ⟨n.st.entry, n.eth⟩ G)
    (hP : ∀ w, v = some w → PosOK key n.st.entry G (Dirty ix n.st w.dead) (TreeKey ix n.st.entry) w.pos) (hR : RideOK ix key n.st G v g.r)
    {o : WPos V × Option (AttKey V × Nat)} (hO : Out ix n.st (full ix key n.st G P) P a lk acc0 o) (hv : lk.void = false) :
    ∃ g', NInv ix M g' v (n'.enter i o.2) ∧ Stepped i g g' n (n'.enter i o.2) ∧ WalkOK ix g' (n'.enter i o.2) i P ⟨a, lk, o.1⟩ := by
  subst hn
  have I1 := (I.ride ⟨K, _, key, G, hk, Y, hP, hR.full⟩).rest hf
  have hS := full_stepped (i := i) (g := g) (n' := n.setJ i .idle) hR rfl (fun j hj => (other_simple hj n n.st .idle 0 .idle .idle).2.2.2.1) rfl
  have hO' : Out ix n.st (full ix key n.st G g.r.P) P a lk acc0 o := by
    refine ⟨?_, hO.sound, hO.tree⟩
    refine hO.ok.mono ?_ ?_ ?_ <;> intros <;> assumption
  obtain ⟨g', h1, h2, h3⟩ := NInv.out (g := { g with r := full ix key n.st G g.r.P }) hc hlk hx hw hr I1 (setJ_job _ _ _) hO' (Or.inl hv) hs
  exact ⟨g', h1, hS.trans h2, h3⟩

theorem setJ_self (h : n.job i = .idle) : n = n.setJ i .idle := by
  obtain ⟨st, e, t, jb⟩ := n
  simp only [Net.setJ, Net.mk.injEq, true_and]
  funext j
  split
  · next hj => rw [hj]; exact h
  · rfl

/-- The visit to a right neighbour. -/
theorem NInv.wPage (hc : ColsOK ix M) (I : NInv ix M g v n) (h : WalkOK ix g n i P w) {b : Nat} {ac : List (Item Datum)} (hp : w.pos = .page b ac) :
    ∃ g', NInv ix M g' v (ix.walkPage n i b w ac).1 ∧ Stepped i g g' n (ix.walkPage n i b w ac).1 ∧
      WalkOK ix g' (ix.walkPage n i b w ac).1 i P { w with pos := (ix.walkPage n i b w ac).2 } := by
  have := hc.keys
  have := cmp_trans ix
  obtain ⟨a, lk, p⟩ := w
  simp only at hp
  subst hp
  obtain ⟨hlk, hx, hw, hr, ⟨p1, p2⟩, ⟨hjob, hv⟩, hso⟩ := h
  simp only at hlk hx hw hso hv
  obtain ⟨K, hK, key, G, hk, Y, hP, hR⟩ := I.entry
  have W := Y.good.weak
  obtain ⟨hne, A, B, e0, c, hcA, hqc⟩ := hR.past b _ p1
  have hgp := good_page (n := n) W (Y.bnd trivial) e0 (Or.inl (by rintro rfl; cases hcA))
  have hRr : ∀ k y, P k y → Wants ix a lk k ∧ y ∈ ix.rowsOf n.st k := fun k y hy => ⟨hw k y hy, hR.rows k y (hr k y hy)⟩
  unfold Ix.walkPage
  simp only [hgp, if_true]
  refine NInv.wOut hc hlk hx hw hr I (by rw [hjob]; rfl) (setJ_self hjob) hso hk Y hP hR ?_ hv
  refine walkFrom_ok (P := P) hc I.entry.einv hk W e0 hRr hlk hv hx ⟨c, by simp [hcA], hqc⟩ ac (n.st.entry.page b).items [] 1 ac rfl (_root_.le_refl _) (fun d hd => ?_)
    (fun y hy => Or.inl hy) (fun k y hy => ?_)
  · have hp := W.order.pair
    rw [e0] at hp
    have := ((List.pairwise_append.1 hp).2.2 c hcA b (by simp)).2 d hd
    exact WithTop.coe_le_coe.1 (hqc.trans (_root_.le_of_lt this))
  · rcases p2 k y hy with h | h
    · exact Or.inl h
    · obtain ⟨-, A', B', e', hl⟩ := hR.low b k h
      have hA' : A' = A := by
        exact (split_unique (W.nodup 0 (Nat.zero_le _)) e' e0).1
      rw [hA'] at hl
      exact Or.inr ⟨hl k rfl, fun x hx' => by cases hx'⟩

/-- The loop that looks for the tuple again. -/
theorem NInv.wSeekOut (hc : ColsOK ix M) (hlk : LookOK (ix.cmpK a) lk) (hx : lk.mode ≠ .exact) (hw : ∀ k y, P k y → Wants ix a lk k)
    (hr : ∀ k y, P k y → g.r.P k y) (I : NInv ix M g v n) (hf : (n.job i).free = true) (hn : n' = n.setJ i .idle) {acc0 : List (Item Datum)}
    (hs : ∀ y ∈ acc0, ∃ k, Wants ix a lk k ∧ g.A i k y) (hv : lk.void = false) {K : Type} [LinearOrder K] {key : Ent V → K} {G : Ghost} (hk : KeyOf ix.cmp key)
    (Y : SysInv True True key true (InnerFit ix) (KeyFit ix) (fun l => l.length ≤ 1) (LeafOK ix) ix.ops rootBlk ⟨n.st.entry, n.eth⟩ G)
    (hP : ∀ w, v = some w → PosOK key n.st.entry G (Dirty ix n.st w.dead) (TreeKey ix n.st.entry) w.pos) (hR : RideOK ix key n.st G v g.r)
    {A B : List Nat} {b : Nat} (e0 : G.lv 0 = A ++ b :: B) {k0 : AttKey V} (hat : k0.attnum = a) (hq : ix.cmp (probe ⟨a, lk.cat, lk.key⟩) (probe k0) ≠ .gt)
    (hE : g.r.E k0) (hlow : Low key n.st.entry A (probe k0)) (hac : ∀ k y, P k y → ix.cmp (probe k) (probe k0) ≠ .gt → y ∈ acc0)
    {es X : List (Ent V)} {off : Nat} (hi : (n.st.entry.page b).items = X ++ es) (ho : es ≠ [] → off ≤ X.length + 1) (hX : ∀ x ∈ X, key x < key (probe k0)) :
    ∃ g', NInv ix M g' v (n'.enter i (ix.walkSeek a lk.mode k0 b (n.st.entry.page b).right es off acc0).2) ∧
      Stepped i g g' n (n'.enter i (ix.walkSeek a lk.mode k0 b (n.st.entry.page b).right es off acc0).2) ∧
      WalkOK ix g' (n'.enter i (ix.walkSeek a lk.mode k0 b (n.st.entry.page b).right es off acc0).2) i P
        ⟨a, lk, (ix.walkSeek a lk.mode k0 b (n.st.entry.page b).right es off acc0).1⟩ := by
  have := hc.keys
  have := cmp_trans ix
  have hcmp : ∀ k k' : AttKey V, ix.cmp (probe k) (probe k') ≠ .gt ↔ key (probe k) ≤ key (probe k') := by
    intro k k'
    rw [← _root_.not_lt, ← hk.lt]
    exact not_congr ⟨fun h => OrientedCmp.lt_of_gt h, fun h => OrientedCmp.gt_of_lt h⟩
  refine NInv.wOut hc hlk hx hw hr I hf hn hs hk Y hP hR ?_ hv
  exact walkSeek_ok (P := P) hc I.entry.einv hk Y.good.weak e0 (fun k y hy => ⟨hw k y hy, hR.rows k y (hr k y hy)⟩) hlk hv hx acc0 hat ((hcmp _ _).1 hq) (hR.here _ hE) hlow
    (fun k y hy h => hac k y hy ((hcmp _ _).2 h)) es X off hi ho hX

/-- The visit to a right neighbour when looking for a key again. -/
theorem NInv.wOn (hc : ColsOK ix M) (I : NInv ix M g v n) (h : WalkOK ix g n i P w) {b : Nat} {k0 : AttKey V} {ac : List (Item Datum)} (hp : w.pos = .seek k0 b ac) :
    ∃ g', NInv ix M g' v (ix.walkOn n i b w k0 ac).1 ∧ Stepped i g g' n (ix.walkOn n i b w k0 ac).1 ∧
      WalkOK ix g' (ix.walkOn n i b w k0 ac).1 i P { w with pos := (ix.walkOn n i b w k0 ac).2 } := by
  obtain ⟨a, lk, p⟩ := w
  simp only at hp
  subst hp
  obtain ⟨hlk, hx, hw, hr, ⟨p1, p2, p3, p4, p5⟩, ⟨hjob, hv⟩, hso⟩ := h
  simp only at hlk hx hw hso hv p4
  obtain ⟨K, hK, key, G, hk, Y, hP, hR⟩ := I.entry
  have W := Y.good.weak
  obtain ⟨hne, A, B, e0, hl⟩ := hR.low b _ p1
  obtain ⟨d0, hd0, hkd⟩ := hR.here _ p3
  have hA : A ≠ [] ∨ B ≠ [] ∨ (n.st.entry.page b).items ≠ [] := by
    rcases where_key hc I.entry.einv hk W e0 (hl _ rfl) hd0 hkd with h | ⟨h, -⟩
    · exact Or.inr (Or.inr (List.ne_nil_of_mem h))
    · exact Or.inr (Or.inl h)
  have hgp := good_page (n := n) W (Y.bnd trivial) e0 hA
  unfold Ix.walkOn
  simp only [hgp, if_true]
  exact NInv.wSeekOut hc hlk hx hw hr I (by rw [hjob]; rfl) (setJ_self hjob) hso hv hk Y hP hR e0 p4 p2 p3 (hl _ rfl) p5 (X := []) rfl (fun _ => _root_.le_refl _) (fun x hx => by cases hx)

/-- A search begins, or begins again. -/
theorem NInv.wStart (hc : ColsOK ix M) (I : NInv ix M g v n) (hf : (n.job i).free = true) (hlk : LookOK (ix.cmpK a) lk) (hx : lk.mode ≠ .exact)
    (hw : ∀ k y, P k y → Wants ix a lk k) (hr : ∀ k y, P k y → g.r.P k y) :
    ∃ g', NInv ix M g' v ((n.setE i (descent ⟨a, lk.cat, lk.key⟩)).setJ i (.read ⟨a, lk.cat, lk.key⟩ false)) ∧
      Stepped i g g' n ((n.setE i (descent ⟨a, lk.cat, lk.key⟩)).setJ i (.read ⟨a, lk.cat, lk.key⟩ false)) ∧
      WalkOK ix g' ((n.setE i (descent ⟨a, lk.cat, lk.key⟩)).setJ i (.read ⟨a, lk.cat, lk.key⟩ false)) i P ⟨a, lk, .down⟩ := by
  obtain ⟨hq, -⟩ := (I.job i).quiet hf
  have I1 := I.read hc hf (k := ⟨a, lk.cat, lk.key⟩) (c := false) (S := []) (A := g.A i) (by simp) (by simp) (fun k y hy => (I.ok k y hy).1 i) (by
    intro j l hj op ho k' hk'
    have := I.job j
    rw [hj] at this
    exact this.2.2.1 op ho k' hk' i)
  have hA : (g.read i [] (g.A i)).A = g.A := by
    funext j
    simp only [Gh.read]
    split
    · next h => rw [h]
    · rfl
  refine ⟨_, I1, ⟨hA, rfl, fun j hj => by simp [Gh.read, hj], fun y hy => by simp [Gh.read] at hy, rfl, fun _ _ h => h, fun _ _ h => h, fun _ h => h, rfl, fun j hj => ?_⟩,
    ⟨hlk, hx, hw, hr, trivial, ⟨by simp [Net.setJ], fun t => hq.2 t⟩, fun y hy => by cases hy⟩⟩
  exact (other_simple hj n n.st _ 0 .idle .idle).2.1.trans (other_simple hj _ n.st .idle 0 .idle _).2.2.2.1

/-- Back on the page after a posting tree was read. -/
theorem NInv.wBack (hc : ColsOK ix M) (I : NInv ix M g v n) (h : WalkOK ix g n i P w) {b off : Nat} {k0 : AttKey V} {ac R : List (Item Datum)}
    (hp : w.pos = .tree k0 b off ac) (hjob : n.job i = .answer k0 false R) :
    ∃ g', NInv ix M g' v (ix.walkBack n i b off w k0 (ac ++ R)).1 ∧ Stepped i g g' n (ix.walkBack n i b off w k0 (ac ++ R)).1 ∧
      WalkOK ix g' (ix.walkBack n i b off w k0 (ac ++ R)).1 i P { w with pos := (ix.walkBack n i b off w k0 (ac ++ R)).2 } := by
  have := hc.keys
  have := cmp_trans ix
  obtain ⟨a, lk, p⟩ := w
  simp only at hp
  subst hp
  obtain ⟨hlk, hx, hw, hr, ⟨p1, p2, p3, p4, p5, p6⟩, ⟨-, -, hwk, hS⟩, hso⟩ := h
  simp only at hlk hx hw hso p4 hwk
  have hfr : (n.job i).free = true := by rw [hjob]; rfl
  have hj := I.job i
  rw [hjob] at hj
  obtain ⟨-, j1, -, j3⟩ := hj
  unfold Ix.walkBack
  simp only
  split
  · next hleaf =>
    obtain ⟨K, hK, key, G, hk, Y, hP, hR⟩ := I.entry
    have W := Y.good.weak
    obtain ⟨A, B, e0, hl⟩ : ∃ A B, G.lv 0 = A ++ b :: B ∧ ∀ x, (b = rootBlk ∨ g.r.W b x) → Low key n.st.entry A (probe x) := by
      by_cases hb : b = rootBlk
      · subst hb
        have h0 : G.h = 0 := by
          rcases Nat.eq_zero_or_pos G.h with h | h
          · exact h
          · have := (W.inner (G.h - 1) (by omega) rootBlk (by rw [Nat.sub_add_cancel h, W.root]; simp)).1
            rw [this] at hleaf; cases hleaf
        have hrt := W.root
        rw [h0] at hrt
        exact ⟨[], [], hrt, fun x _ c hc' => by cases hc'⟩
      · obtain ⟨-, A, B, e0, -⟩ := hR.low b _ (p1.resolve_left hb)
        refine ⟨A, B, e0, fun x hx' => ?_⟩
        obtain ⟨-, A', B', e', hl⟩ := hR.low b _ (hx'.resolve_left hb)
        rw [← (split_unique (W.nodup 0 (Nat.zero_le _)) e' e0).1]
        exact hl x rfl
    obtain ⟨ks, q1, q2, q3⟩ := p6
    have hbo := before_off hc I.entry.einv hk W e0 (hR.here _ p3) (hl _ p1) (off := off) ⟨ks, q1, q2, fun x hx' => ⟨hR.here _ (q3 x hx').1, (q3 x hx').2.1, hl _ (q3 x hx').2.2⟩⟩
    have hac : ∀ k y, P k y → ix.cmp (probe k) (probe k0) ≠ .gt → y ∈ ac ++ R := by
      intro k y hy hne
      cases hcm : ix.cmp (probe k) (probe k0) with
      | gt => exact absurd hcm hne
      | lt => exact List.mem_append_left _ (p5 k y hy hcm)
      | eq => exact List.mem_append_right _ (j1 rfl y (hS k y hy hcm))
    have hs' : ∀ y ∈ ac ++ R, ∃ k, Wants ix a lk k ∧ g.A i k y := by
      intro y hy
      rcases List.mem_append.1 hy with hy | hy
      · exact hso y hy
      · exact ⟨k0, hwk, j3 y hy⟩
    refine NInv.wSeekOut hc hlk hx hw hr I hfr rfl hs' (not_void hwk) hk Y hP hR e0 p4 p2 p3 (hl _ p1) hac (List.take_append_drop (off - 1) _).symm (fun hne => ?_) hbo
    have hlen : off - 1 < (n.st.entry.page b).items.length := by
      by_contra hle
      exact hne (List.drop_eq_nil_of_le (by omega))
    rw [List.length_take]
    omega
  · exact I.wStart hc hfr hlk hx hw hr

/-- A search is given up, or has nothing left to do. -/
theorem NInv.leave (I : NInv ix M g v n) (h : (∃ k c, n.job i = .read k c) ∨ (n.job i).free = true) : NInv ix M g v (n.quit i .idle) := by
  rcases h with ⟨k, c, h⟩ | h
  · exact I.quit h
  · obtain ⟨hq, -⟩ := (I.job i).quiet h
    have : n.quit i .idle = n.setJ i .idle := by
      simp only [Net.quit, Net.setJ, Net.setE, Net.mk.injEq, true_and, and_true]
      constructor
      · funext j
        split
        · next hj => rw [hj]; exact hq.1.symm
        · rfl
      · funext t j
        split
        · next hj => rw [hj]; exact (hq.2 t).symm
        · rfl
    rw [this]
    exact I.rest h

omit [Inhabited V] in
theorem quit_stepped (g : Gh V) (n : Net V) (i : Nat) : Stepped i g g n (n.quit i .idle) :=
  ⟨rfl, rfl, fun _ _ => rfl, fun _ h => Or.inl h, rfl, fun _ _ h => h, fun _ _ h => h, fun _ h => h, rfl, fun _ hj => (other_simple hj n n.st .idle 0 .idle .idle).2.2.2.2⟩

/-! ### What backends do meanwhile -/

omit [Inhabited V] in
theorem visitTree_other {t : Nat} (h : j ≠ i) (n : Net V) : Other j n (ix.visitTree n t i) := by
  have go : ∀ (m : Net V), Other j m (m.settleT t i) := by
    intro m
    unfold Net.settleT
    split
    · exact (other_simple h m m.st .idle t .idle .idle).2.2.1.trans (Rum.Props.IndexConc.goOn_other h _)
    · exact (other_simple h m m.st .idle t .idle .failed).2.2.2.2
    · split
      · exact (other_simple h m m.st .idle t .idle .idle).2.2.1.trans (other_simple h _ m.st .idle t .idle _).2.2.2.1
      · exact ⟨rfl, fun _ => rfl, rfl⟩
    · split
      · exact (other_simple h m m.st .idle t .idle .idle).2.2.1.trans (other_simple h _ m.st .idle t .idle _).2.2.2.1
      · exact ⟨rfl, fun _ => rfl, rfl⟩
    · exact ⟨rfl, fun _ => rfl, rfl⟩
  unfold Ix.visitTree
  exact ((other_simple h n _ .idle t .idle .idle).1.trans (other_simple h _ n.st .idle t _ .idle).2.2.1).trans (go _)

omit [Inhabited V] in
/-- A reader in a posting tree goes on or has its answer. -/
theorem visitTree_read {t : Nat} {k : AttKey V} {c : Bool} (hj : n.job i = .read k c) (hne : (ix.visitTree n t i).job i ≠ .failed) :
    (ix.visitTree n t i).eth i = n.eth i ∧ ((ix.visitTree n t i).job i = .read k c ∨ ∃ R, (ix.visitTree n t i).job i = .answer k c R) := by
  have go : ∀ (m : Net V), m.job i = .read k c → (m.settleT t i).job i ≠ .failed →
      (m.settleT t i).eth i = m.eth i ∧ ((m.settleT t i).job i = .read k c ∨ ∃ R, (m.settleT t i).job i = .answer k c R) := by
    intro m hm
    unfold Net.settleT
    split
    · intro _
      unfold Net.goOn
      simp only [Net.setT, hm]
      exact ⟨trivial, Or.inl trivial⟩
    · intro h
      exact absurd (by simp [Net.fail, Net.quit, Net.setJ]) h
    · rw [hm]
      exact fun _ => ⟨rfl, Or.inr ⟨_, by simp [Net.setJ]; rfl⟩⟩
    · rw [hm]
      exact fun _ => ⟨rfl, Or.inr ⟨_, by simp [Net.setJ]; rfl⟩⟩
    · exact fun _ => ⟨rfl, Or.inl hm⟩
  exact go _ hj hne

end
end Rum.Index.VC

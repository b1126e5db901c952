import Verif.IndexVacTree
/-
Invariant of the index, the backends and VACUUM. Proof apparatus.
-/
namespace Rum.Index.VC
open Rum Rum.Codec Rum.Leaf Rum.Entry Rum.Tree Rum.Index Rum.Props Rum.Props.PostingTree Rum.Props.VacConc Std

variable {V : Type}

/-! ### Rows found, knowing only the entry tree -/

section
variable {C : Prop} {ix : Ix V} [Inhabited V] {M : Lim} {st : State V}

theorem rows_same (hc : ColsOK ix M) (H : EInv C ix st.entry) {k k' : AttKey V} (h : Same ix k' k) : ix.rowsOf st k' = ix.rowsOf st k := by
  have := hc.keys
  have := cmp_trans ix
  rcases EInv.rowsOf hc H k with ⟨e, h1, h2, h3⟩ | ⟨h1, h3⟩
  · rw [h3]
    exact EInv.rowsOf_eq hc H h1 (TransCmp.eq_trans (cmp := ix.cmp) (b := probe k) h h2)
  · rw [h3]
    exact EInv.rowsOf_none hc H (fun e he h' => h1 e he (TransCmp.eq_trans (cmp := ix.cmp) (b := probe k') (OrientedCmp.eq_symm h) h'))

def Inj (st : State V) : Prop :=
  ∀ e ∈ contents st.entry rootBlk, ∀ e' ∈ contents st.entry rootBlk, ∀ t, e.post = .tree t → e'.post = .tree t → e = e'

omit [Inhabited V] in
theorem setTree_entry (t : Nat) (s : Store (Item Datum)) : (st.setTree t s).entry = st.entry := rfl

theorem tree_other (hc : ColsOK ix M) (H : EInv C ix st.entry) (hi : Inj st) {e : Ent V} (he : e ∈ contents st.entry rootBlk) {t : Nat}
    (hp : e.post = .tree t) (s : Store (Item Datum)) {k : AttKey V} (hk : ix.cmp (probe k) e = .eq) {k' : AttKey V} (hn : ¬ Same ix k' k) :
    ix.rowsOf (st.setTree t s) k' = ix.rowsOf st k' := by
  have := hc.keys
  have := cmp_trans ix
  have H' : EInv C ix (st.setTree t s).entry := H
  rcases EInv.rowsOf hc H k' with ⟨e', h1, h2, h3⟩ | ⟨h1, h3⟩
  · rw [h3, EInv.rowsOf_eq hc H' h1 h2]
    unfold rows
    cases hp' : e'.post with
    | list d n => rfl
    | tree t' =>
      have htt : t' ≠ t := by
        rintro rfl
        have := hi e' h1 e he t' hp' hp
        subst this
        exact hn (TransCmp.eq_trans (cmp := ix.cmp) (a := probe k') (c := probe k) h2 (OrientedCmp.eq_symm hk))
      simp [State.setTree, htt]
  · rw [h3]
    exact EInv.rowsOf_none hc H' h1

theorem tree_rows (hc : ColsOK ix M) (H : EInv C ix st.entry) {e : Ent V} (he : e ∈ contents st.entry rootBlk) {t : Nat} (hp : e.post = .tree t)
    (s : Store (Item Datum)) {k : AttKey V} (hk : ix.cmp (probe k) e = .eq) {k' : AttKey V} (hn : Same ix k' k) :
    ix.rowsOf (st.setTree t s) k' = contents s 0 := by
  have H' : EInv C ix (st.setTree t s).entry := H
  rw [rows_same hc H' hn, EInv.rowsOf_eq hc H' (e := e) he hk]
  unfold rows
  simp [hp, State.setTree]

theorem put_bare {C D : Prop} (hc : ColsOK ix M) (H : EInv C ix st.entry) (hlt : ∀ e ∈ contents st.entry rootBlk, ∀ t, e.post = .tree t → t < st.ntrees)
    (hi : Inj st) {k : AttKey V} {pre : List (State V)} {e : Ent V} {items R : List (Item Datum)} (hk : ix.cmp (probe k) e = .eq)
    (hR : ix.rowsOf st k = R) (hB : Built True ix M st e.key R items pre e) {s : Store (Ent V)} (H' : EInv D ix s)
    (hm : ∀ y, y ∈ contents s rootBlk ↔ Upd ix.cmp false (contents st.entry rootBlk) [e] y) :
    Inserted ix st { (lastState st pre) with entry := s } k items ∧ Inj { (lastState st pre) with entry := s } := by
  have := hc.keys
  have := cmp_trans ix
  have hm2 : ∀ y, y ∈ contents s rootBlk ↔ y = e ∨ (y ∈ contents st.entry rootBlk ∧ ix.cmp e y ≠ .eq) := by
    intro y; rw [hm]; simp [Upd]
  have hx := hB.last
  have H2 : EInv D ix ({ (lastState st pre) with entry := s } : State V).entry := H'
  refine ⟨⟨fun k' hn => ?_, fun k' hs y => ?_⟩, fun y hy y' hy' t h1 h2 => ?_⟩
  · rcases EInv.rowsOf hc H k' with ⟨e', h1, h2, h3⟩ | ⟨h1, h3⟩
    · have hne : ix.cmp e e' ≠ .eq := fun h => hn (TransCmp.eq_trans (cmp := ix.cmp) (a := probe k') (c := probe k) h2
        (OrientedCmp.eq_symm (TransCmp.eq_trans (cmp := ix.cmp) hk h)))
      rw [h3, EInv.rowsOf_eq hc H2 (e := e') ((hm2 e').2 (Or.inr ⟨h1, hne⟩)) h2]
      unfold rows
      cases hp : e'.post with
      | list d n => rfl
      | tree t =>
        show contents ((lastState st pre).trees t) 0 = _
        rw [hx.trees t (hlt e' h1 t hp)]
    · rw [h3]
      refine EInv.rowsOf_none hc H2 (fun y hy h => ?_)
      rcases (hm2 y).1 hy with rfl | ⟨hy, -⟩
      · exact hn (TransCmp.eq_trans (cmp := ix.cmp) (a := probe k') (c := probe k) h (OrientedCmp.eq_symm hk))
      · exact h1 y hy h
  · have hat : k.attnum = e.key.attnum := same_attnum (ix := ix) hk
    rw [rows_same hc H2 hs, EInv.rowsOf_eq hc H2 (e := e) ((hm2 e).2 (Or.inl rfl)) hk, rows_same hc H hs, hR, hat]
    exact hB.rows y
  · rcases (hm2 y).1 hy with rfl | ⟨h, -⟩ <;> rcases (hm2 y').1 hy' with rfl | ⟨h', -⟩
    · rfl
    · exact absurd (hB.fresh t h1) (by have := hlt y' h' t h2; omega)
    · exact absurd (hB.fresh t h2) (by have := hlt y h t h1; omega)
    · exact hi y h y' h' t h1 h2

end

/-! ### Where VACUUM is -/

section
variable {K : Type} [LinearOrder K]

/-- The keys in question are not to the left of leaf `b`. -/
def Spot (key : Ent V → K) (s : Store (Ent V)) (G : Ghost) (Q : AttKey V → Prop) (b : Nat) [Inhabited V] : Prop :=
  b ≠ rootBlk ∧ ∃ A B, G.lv 0 = A ++ b :: B ∧ ∀ k, Q k → Low key s A (probe k)

def Next (key : Ent V → K) (s : Store (Ent V)) (G : Ghost) (Q : AttKey V → Prop) [Inhabited V] : Option Nat → Prop
  | none => ∀ k, ¬ Q k
  | some r => Spot key s G Q r

/-- `Q`: the keys that still have dead rows; `TK t`: the keys of posting tree `t`. -/
def PosOK (key : Ent V → K) (s : Store (Ent V)) (G : Ghost) (Q : AttKey V → Prop) (TK : Nat → AttKey V → Prop) [Inhabited V] : Pos → Prop
  | .down b => DescOK rootBlk G b
  | .leaf b => b = rootBlk ∨ Spot key s G Q b
  | .trees ts nxt => Next key s G (fun k => Q k ∧ ¬ ∃ p ∈ ts, TK p.1 k) nxt
  | .tree t _ ts nxt => Next key s G (fun k => Q k ∧ ¬ TK t k ∧ ¬ ∃ p ∈ ts, TK p.1 k) nxt

variable [Inhabited V] {key : Ent V → K} {s t : Store (Ent V)} {G G' : Ghost} {Q Q' : AttKey V → Prop} {TK TK' : Nat → AttKey V → Prop}
  {bad : Nat → Prop} {new : Nat → Nat → Prop}

theorem Spot.moved (hM : Moved key rootBlk bad new s G t G') (hQ : ∀ k, Q' k → Q k) {b : Nat} (h : Spot key s G Q b) : Spot key t G' Q' b := by
  obtain ⟨h1, A, B, h2, h3⟩ := h
  obtain ⟨A', B', e, d1, -⟩ := hM.leaf A b B h1 h2
  exact ⟨h1, A', B', e, fun k hk => low_moved (h3 k (hQ k hk)) d1⟩

theorem Next.moved (hM : Moved key rootBlk bad new s G t G') (hQ : ∀ k, Q' k → Q k) {b : Option Nat} (h : Next key s G Q b) : Next key t G' Q' b := by
  cases b with
  | none => exact fun k hk => h k (hQ k hk)
  | some r => exact Spot.moved hM hQ h

theorem PosOK.moved (hM : Moved key rootBlk bad new s G t G') (hQ : ∀ k, Q' k → Q k) (hT : ∀ t k, TK t k → TK' t k) {p : Pos}
    (h : PosOK key s G Q TK p) : PosOK key t G' Q' TK' p := by
  cases p with
  | down b => exact DescOK.moved hM h
  | leaf b => exact Or.imp id (Spot.moved hM hQ) h
  | trees ts nxt => exact Next.moved hM (fun k ⟨h1, h2⟩ => ⟨hQ k h1, fun ⟨p, hp, hk⟩ => h2 ⟨p, hp, hT _ _ hk⟩⟩) h
  | tree u us ts nxt =>
    exact Next.moved hM (fun k ⟨h1, h3, h2⟩ => ⟨hQ k h1, fun h => h3 (hT _ _ h), fun ⟨p, hp, hk⟩ => h2 ⟨p, hp, hT _ _ hk⟩⟩) h

end

/-! ### The invariant -/

/-- A key that still has dead rows. -/
def Dirty (ix : Ix V) [Inhabited V] (st : State V) (dead : Iptr → Bool) (k : AttKey V) : Prop := ∃ y ∈ ix.rowsOf st k, dead y.iptr = true

/-- What is remembered of the entry tree: keys that are not to the left of a leaf; keys that are not to the right of all leaves before a leaf; keys
with a tuple; and rows that stay. -/
structure Ride (V : Type) where
  W : Nat → AttKey V → Prop
  L : Nat → AttKey V → Prop
  E : AttKey V → Prop
  P : AttKey V → Item Datum → Prop

structure RideOK (ix : Ix V) [Inhabited V] {K : Type} [LinearOrder K] (key : Ent V → K) (st : State V) (G : Ghost) (v : Option Vac) (r : Ride V) : Prop where
  low : ∀ b k, r.W b k → Spot key st.entry G (· = k) b
  past : ∀ b k, r.L b k → b ≠ rootBlk ∧ ∃ A B, G.lv 0 = A ++ b :: B ∧ ∃ c ∈ A, ((key (probe k) : K) : WithTop K) ≤ hiP key (st.entry.page c)
  here : ∀ k, r.E k → ∃ e ∈ contents st.entry rootBlk, ix.cmp (probe k) e = .eq
  rows : ∀ k y, r.P k y → y ∈ ix.rowsOf st k
  live : ∀ w, v = some w → ∀ k y, r.P k y → w.dead y.iptr = false

def EV (ix : Ix V) [Inhabited V] (st : State V) (th : Nat → Thread (Ent V)) (v : Option Vac) (r : Ride V) : Prop :=
  ∃ (K : Type) (_ : LinearOrder K) (key : Ent V → K) (G : Ghost), KeyOf ix.cmp key ∧
    SysInv True True key true (InnerFit ix) (KeyFit ix) (fun l => l.length ≤ 1) (LeafOK ix) ix.ops rootBlk ⟨st.entry, th⟩ G ∧
    (∀ w, v = some w → PosOK key st.entry G (Dirty ix st w.dead) (TreeKey ix st.entry) w.pos) ∧ RideOK ix key st G v r

/-- Ghosts: what the searches must find; what they may deliver; the entries of rows that are in the table. -/
structure Gh (V : Type) where
  S : Nat → List (Item Datum)
  A : Nat → AttKey V → Item Datum → Prop
  T : List (AttKey V × Item Datum)
  r : Ride V

def EvA (ix : Ix V) (A : Nat → AttKey V → Item Datum → Prop) (k : AttKey V) : Nat → Item Datum → Prop
  | 0, _ => True
  | i + 1, y => ∀ k', Same ix k' k → A i k' y

structure Tuple (ix : Ix V) (M : Lim) (st : State V) (tth : Nat → Nat → Thread (Item Datum)) (v : Option Vac) (g : Gh V) (e : Ent V) : Prop where
  key : ix.tupleSize e.key [] ≤ maxTuple
  list : ∀ data n, e.post = .list data n → ∃ R, ListOK (ix.ctx e.key.attnum) M R ∧
    placeList (ix.ctx e.key.attnum).cfg (ix.keySize e.key) ⟨0, 0⟩ R = some data ∧ n = R.length ∧ ix.tupleSize e.key R ≤ maxTuple ∧
    e.size = ix.tupleSize e.key R
  tree : ∀ t, e.post = .tree t → t < st.ntrees ∧ TV (ix.ctx e.key.attnum) M (st.trees t) (tth t) (tv v t) g.S (EvA ix g.A e.key)

/-- The posting trees VACUUM still has to do are there; the one it is in will have no dead row. -/
def Clean [Inhabited V] (st : State V) (dead : Iptr → Bool) : Pos → Prop
  | .trees ts _ => ∀ p ∈ ts, ∃ e ∈ contents st.entry rootBlk, e.post = .tree p.1 ∧ e.key.attnum = p.2
  | .tree t us ts _ => (∀ p ∈ ts, ∃ e ∈ contents st.entry rootBlk, e.post = .tree p.1 ∧ e.key.attnum = p.2) ∧
      (∃ e ∈ contents st.entry rootBlk, e.post = .tree t) ∧ ∀ y ∈ contents (lastStore (st.trees t) us) 0, dead y.iptr = false
  | _ => True

def JobOK (ix : Ix V) [Inhabited V] (M : Lim) (g : Gh V) (i : Nat) (st : State V) (a : Thread (Ent V)) (b : Nat → Thread (Item Datum)) : Job V → Prop
  | .idle => Quiet a b
  | .inserted => Quiet a b
  | .failed => False
  | .answer k c rows => Quiet a b ∧ (c = false → ∀ y ∈ g.S i, y ∈ rows) ∧
      (c = true → rows = [] ∨ ∀ y ∈ g.S i, Delivered (ix.ctx k.attnum).cmp rows y) ∧ ∀ y ∈ rows, g.A i k y
  | .insert l => (∀ op ∈ l, EntryOK ix M op) ∧ (∀ op ∈ l, op ∈ g.T) ∧ (∀ op ∈ l, ∀ k', Same ix k' op.1 → ∀ i, g.A i k' op.2) ∧
      ∃ k it l', l = (k, it) :: l' ∧ AtWork ix st a b k it
  | .read k c => (∀ y ∈ g.S i, y ∈ ix.rowsOf st k) ∧ Reading ix st a b k c

structure Part (ix : Ix V) [Inhabited V] (M : Lim) (g : Gh V) (v : Option Vac) (n : Net V) (i : Nat) : Prop where
  entry : EV ix n.st n.eth v g.r
  tup : ∀ e ∈ contents n.st.entry rootBlk, Tuple ix M n.st n.tth v g e
  inj : Inj n.st
  ok : ∀ k, ∀ y ∈ ix.rowsOf n.st k, (∀ i, g.A i k y) ∧ ((∃ op ∈ g.T, Same ix op.1 k ∧ y = op.2) ∨ ∃ w, v = some w ∧ w.dead y.iptr = true)
  alive : ∀ w, v = some w → (∀ op ∈ g.T, w.dead op.2.iptr = false) ∧ ∀ i, ∀ y ∈ g.S i, w.dead y.iptr = false
  clean : ∀ w, v = some w → Clean n.st w.dead w.pos
  job : ∀ j, j ≠ i → JobOK ix M g j n.st (n.eth j) (fun t => n.tth t j) (n.job j)

def Due (ix : Ix V) [Inhabited V] (T : List (AttKey V × Item Datum)) (n : Net V) (i : Nat) (l : List (AttKey V × Item Datum)) : Prop :=
  ∀ op ∈ T, Made ix n.st op ∨ op ∈ l ∨ ∃ j l', j ≠ i ∧ n.job j = .insert l' ∧ op ∈ l'

structure NInv (ix : Ix V) [Inhabited V] (M : Lim) (g : Gh V) (v : Option Vac) (n : Net V) : Prop where
  entry : EV ix n.st n.eth v g.r
  tup : ∀ e ∈ contents n.st.entry rootBlk, Tuple ix M n.st n.tth v g e
  inj : Inj n.st
  ok : ∀ k, ∀ y ∈ ix.rowsOf n.st k, (∀ i, g.A i k y) ∧ ((∃ op ∈ g.T, Same ix op.1 k ∧ y = op.2) ∨ ∃ w, v = some w ∧ w.dead y.iptr = true)
  alive : ∀ w, v = some w → (∀ op ∈ g.T, w.dead op.2.iptr = false) ∧ ∀ i, ∀ y ∈ g.S i, w.dead y.iptr = false
  clean : ∀ w, v = some w → Clean n.st w.dead w.pos
  job : ∀ j, JobOK ix M g j n.st (n.eth j) (fun t => n.tth t j) (n.job j)
  due : ∀ op ∈ g.T, Made ix n.st op ∨ ∃ j l', n.job j = .insert l' ∧ op ∈ l'

section
variable {ix : Ix V} [Inhabited V] {M : Lim} {g : Gh V} {v : Option Vac} {n : Net V} {i : Nat}

theorem EV.einv {st : State V} {th : Nat → Thread (Ent V)} {r : Ride V} (h : EV ix st th v r) : EInv False ix st.entry := by
  obtain ⟨K, hK, key, G, hk, I, -⟩ := h
  exact ⟨K, hK, key, G, hk, I.good, I.bnd trivial⟩

omit [Inhabited V] in
theorem tv_some {t : Nat} {dead : Iptr → Bool} {us : List (Store (Item Datum))} (h : tv v t = some (dead, us)) :
    ∃ ts nxt, v = some ⟨dead, .tree t us ts nxt⟩ := by
  unfold tv at h
  split at h
  · split at h
    · next d u us' ts nxt hu =>
      simp only [Option.some.injEq, Prod.mk.injEq] at h
      obtain ⟨rfl, rfl⟩ := h
      subst hu
      exact ⟨_, _, rfl⟩
    · cases h
  · cases h

theorem NInv.due' (I : NInv ix M g v n) (i : Nat) : Due ix g.T n i (n.job i).left := by
  intro op hop
  rcases I.due op hop with h | ⟨j, l, h1, h2⟩
  · exact Or.inl h
  · by_cases hj : j = i
    · subst hj; rw [h1]; exact Or.inr (Or.inl h2)
    · exact Or.inr (Or.inr ⟨j, l, hj, h1, h2⟩)

theorem NInv.part (I : NInv ix M g v n) (i : Nat) : Part ix M g v n i := ⟨I.entry, I.tup, I.inj, I.ok, I.alive, I.clean, fun j _ => I.job j⟩

theorem Part.whole (P : Part ix M g v n i) (hj : JobOK ix M g i n.st (n.eth i) (fun t => n.tth t i) (n.job i))
    (hd : Due ix g.T n i (n.job i).left) : NInv ix M g v n := by
  refine ⟨P.entry, P.tup, P.inj, P.ok, P.alive, P.clean, fun j => ?_, fun op hop => ?_⟩
  · by_cases h : j = i
    · subst h; exact hj
    · exact P.job j h
  · rcases hd op hop with h | h | ⟨j, l, -, h1, h2⟩
    · exact Or.inl h
    · cases hjob : n.job i with
      | insert l => rw [hjob] at h; exact Or.inr ⟨i, l, hjob, h⟩
      | _ => rw [hjob] at h; simp [Job.left] at h
    · exact Or.inr ⟨j, l, h1, h2⟩

/-! ### Growing, as far as rows are live -/

structure Grow (ix : Ix V) [Inhabited V] (L : Iptr → Prop) (st st' : State V) : Prop where
  rows : ∀ k, ∀ y ∈ ix.rowsOf st k, L y.iptr → y ∈ ix.rowsOf st' k
  trees : ∀ e ∈ contents st.entry rootBlk, ∀ t, e.post = .tree t → e ∈ contents st'.entry rootBlk
  keys : ∀ e ∈ contents st.entry rootBlk, ∃ e' ∈ contents st'.entry rootBlk, ix.cmp e e' = .eq

variable {L : Iptr → Prop}

theorem made_grow {st st' : State V} (h : Grow ix L st st') {op : AttKey V × Item Datum} (hL : L op.2.iptr) (hm : Made ix st op) : Made ix st' op := by
  obtain ⟨y, h1, h2⟩ := hm
  have : y.iptr = op.2.iptr := ((C03_item_order_eq _ _ y op.2).1 h2).1
  exact ⟨y, h.rows _ y h1 (this ▸ hL), h2⟩

theorem inTree_grow {st st' : State V} (h : Grow ix L st st') {a : Thread (Ent V)} {b : Nat → Thread (Item Datum)} {k : AttKey V} {t : Nat}
    (hi : InTree ix st a b k t) : InTree ix st' a b k t := by
  obtain ⟨h1, h2, e, h3, h4, h5⟩ := hi
  exact ⟨h1, h2, e, h.trees e h3 t h4, h4, h5⟩

theorem JobOK.grow {st st' : State V} (h : Grow ix L st st') (hT : ∀ op ∈ g.T, L op.2.iptr) (hS : ∀ y ∈ g.S i, L y.iptr)
    {a : Thread (Ent V)} {b : Nat → Thread (Item Datum)} {j : Job V} (hj : JobOK ix M g i st a b j) : JobOK ix M g i st' a b j := by
  cases j with
  | insert l =>
    obtain ⟨h1, h2, h3, k, it, l', rfl, h5⟩ := hj
    have hL := hT _ (h2 (k, it) (by simp))
    refine ⟨h1, h2, h3, k, it, l', rfl, ?_⟩
    rcases h5 with ⟨h5, h6⟩ | ⟨t, h5, h6, h7, h8⟩
    · exact Or.inl ⟨h5, h6.imp id (fun ⟨w, w1, w2, w3⟩ => ⟨w, w1, w2, made_grow h hL w3⟩)⟩
    · exact Or.inr ⟨t, inTree_grow h h5, h6, h7, h8.imp id (fun w => ⟨w.1, made_grow h hL w.2⟩)⟩
  | read k c =>
    obtain ⟨h2, h3⟩ := hj
    exact ⟨fun y hy => h.rows k y (h2 y hy) (hS y hy), h3.imp id (fun ⟨t, t1, t2⟩ => ⟨t, inTree_grow h t1, t2⟩)⟩
  | _ => exact hj

theorem Clean.grow {st st' : State V} (h : Grow ix L st st') {dead : Iptr → Bool} {p : Pos} (ht : ∀ t us ts nxt, p = .tree t us ts nxt → st'.trees t = st.trees t)
    (hc : Clean st dead p) : Clean st' dead p := by
  have hp : ∀ ts : List (Nat × Nat), (∀ p ∈ ts, ∃ e ∈ contents st.entry rootBlk, e.post = .tree p.1 ∧ e.key.attnum = p.2) →
      ∀ p ∈ ts, ∃ e ∈ contents st'.entry rootBlk, e.post = .tree p.1 ∧ e.key.attnum = p.2 := by
    intro ts h1 p hp
    obtain ⟨e, e1, e2, e3⟩ := h1 p hp
    exact ⟨e, h.trees e e1 _ e2, e2, e3⟩
  cases p with
  | down b => trivial
  | leaf b => trivial
  | trees ts nxt => exact hp ts hc
  | tree t us ts nxt =>
    obtain ⟨h1, ⟨e, e1, e2⟩, h3⟩ := hc
    exact ⟨hp ts h1, ⟨e, h.trees e e1 _ e2, e2⟩, by rw [ht t us ts nxt rfl]; exact h3⟩

/-- A step of backend `i`. -/
theorem NInv.step (I : NInv ix M g v n) {n' : Net V}
    (he : (∀ w, v = some w → ∀ k, Dirty ix n'.st w.dead k → Dirty ix n.st w.dead k) → EV ix n'.st n'.eth v g.r)
    (ht : ∀ e ∈ contents n'.st.entry rootBlk, Tuple ix M n'.st n'.tth v g e) (hi : Inj n'.st)
    (ha : ∀ k, ∀ y ∈ ix.rowsOf n'.st k, y ∈ ix.rowsOf n.st k ∨ ((∀ i, g.A i k y) ∧ ∃ op ∈ g.T, Same ix op.1 k ∧ y = op.2))
    (hg : Grow ix (fun _ => True) n.st n'.st) (htr : ∀ t, tv v t ≠ none → n'.st.trees t = n.st.trees t)
    (ho : ∀ j, j ≠ i → n'.eth j = n.eth j ∧ (∀ t, n'.tth t j = n.tth t j) ∧ n'.job j = n.job j) :
    Part ix M g v n' i ∧ Due ix g.T n' i (n.job i).left := by
  refine ⟨⟨he (fun w hw k ⟨y, hy, hd⟩ => ?_), ht, hi, fun k y hy => ?_, I.alive, fun w hw => (I.clean w hw).grow hg (fun t us ts nxt hp => htr t ?_),
    fun j hj => ?_⟩, fun op hop => ?_⟩
  · rcases ha k y hy with h | ⟨-, op, ho, -, rfl⟩
    · exact ⟨y, h, hd⟩
    · rw [(I.alive w hw).1 op ho] at hd; cases hd
  · rcases ha k y hy with h | ⟨h1, h2⟩
    · exact I.ok k y h
    · exact ⟨h1, Or.inl h2⟩
  · obtain ⟨dead, pos⟩ := w
    simp only at hp
    subst hp
    rw [hw]; simp [tv]
  · obtain ⟨h1, h2, h3⟩ := ho j hj
    have h2' : (fun t => n'.tth t j) = fun t => n.tth t j := funext h2
    rw [h1, h2', h3]
    exact (I.job j).grow hg (fun _ _ => trivial) (fun _ _ => trivial)
  · rcases I.due' i op hop with h | h | ⟨j, l, h1, h2, h3⟩
    · exact Or.inl (made_grow hg trivial h)
    · exact Or.inr (Or.inl h)
    · exact Or.inr (Or.inr ⟨j, l, h1, by rw [(ho j h1).2.2]; exact h2, h3⟩)

/-! ### Threads that start and stop -/

theorem RideOK.moved (hc : ColsOK ix M) {K : Type} [LinearOrder K] {key : Ent V → K} {st st' : State V} {G G' : Ghost} {bad : Nat → Prop} {new : Nat → Nat → Prop} {v' : Option Vac}
    {r : Ride V} (h : RideOK ix key st G v r) (hM : Moved key rootBlk bad new st.entry G st'.entry G')
    (hg : Grow ix L st st') (hL : ∀ k y, r.P k y → L y.iptr) (hv : ∀ w, v' = some w → ∃ w', v = some w' ∧ w'.dead = w.dead) :
    RideOK ix key st' G' v' r := by
  have := hc.keys
  have := cmp_trans ix
  refine ⟨fun b k hb => (h.low b k hb).moved hM (fun _ h => h), fun b k hb => ?_, fun k hk => ?_, fun k y hy => ?_, fun w hw k y hy => ?_⟩
  · obtain ⟨h1, A, B, e, c, hcA, hle⟩ := h.past b k hb
    obtain ⟨A', B', e', -, d2⟩ := hM.leaf A b B h1 e
    obtain ⟨c', hc', hle'⟩ := d2 c hcA
    exact ⟨h1, A', B', e', c', hc', hle.trans hle'⟩
  · obtain ⟨e, h1, h2⟩ := h.here k hk
    obtain ⟨e', h3, h4⟩ := hg.keys e h1
    exact ⟨e', h3, TransCmp.eq_trans (cmp := ix.cmp) h2 h4⟩
  · exact hg.rows k y (h.rows k y hy) (hL k y hy)
  · obtain ⟨w', h1, h2⟩ := hv w hw
    rw [← h2]
    exact h.live w' h1 k y hy

theorem EV.put {st : State V} {th : Nat → Thread (Ent V)} {r : Ride V} (h : EV ix st th v r) {a : Thread (Ent V)} (hp : pending (th i) = none)
    (ha : a = .idle ∨ ∃ k, a = descent k) : EV ix st (fun j => if j = i then a else th j) v r := by
  obtain ⟨K, hK, key, G, hk, I, hP⟩ := h
  refine ⟨K, hK, key, G, hk, ?_, hP⟩
  rcases ha with rfl | ⟨k, rfl⟩
  · exact SysInv.put I (th := .idle) rfl (fun _ => hp) (by simp [knows]) trivial (by simp [todo, SSorted]) (by simp)
  · exact SysInv.put I (th := descent k) rfl (fun _ => hp) (by simp [descent, knows]) (Or.inl ⟨rfl, rfl⟩) (by simp [descent, todo, SSorted]) (by simp [descent])

theorem EV.mono (hc : ColsOK ix M) {st st' : State V} {th : Nat → Thread (Ent V)} {r : Ride V} (h : EV ix st th v r) (he : st'.entry = st.entry)
    (hg : Grow ix L st st') (hL : ∀ k y, r.P k y → L y.iptr)
    (hQ : ∀ w, v = some w → ∀ k, Dirty ix st' w.dead k → Dirty ix st w.dead k) : EV ix st' th v r := by
  obtain ⟨K, hK, key, G, hk, I, hP, hR⟩ := h
  refine ⟨K, hK, key, G, hk, by rw [he]; exact I, fun w hw => ?_, hR.moved (bad := fun _ => False) (new := fun _ _ => False) (G' := G) hc
    (by rw [he]; exact Moved.refl key rootBlk st.entry G) hg hL (fun w hw => ⟨w, hw, rfl⟩)⟩
  rw [he]
  exact (hP w hw).moved (Moved.refl key rootBlk st.entry G) (hQ w hw) (fun _ _ h => h)

theorem EV.step (hc : ColsOK ix M) {r : Ride V} {K : Type} [LinearOrder K] {key : Ent V → K} (hk : KeyOf ix.cmp key) {st st' : State V} {th : Nat → Thread (Ent V)} {G G' : Ghost}
    {bad : Nat → Prop} {new : Nat → Nat → Prop} {th' : Thread (Ent V)}
    (Y : SysInv True True key true (InnerFit ix) (KeyFit ix) (fun l => l.length ≤ 1) (LeafOK ix) ix.ops rootBlk ⟨st.entry, th⟩ G)
    (hP : (∀ w, v = some w → PosOK key st.entry G (Dirty ix st w.dead) (TreeKey ix st.entry) w.pos) ∧ RideOK ix key st G v r)
    (S : StepCore True key true (InnerFit ix) (KeyFit ix) (LeafOK ix) rootBlk st.entry G (th i) st'.entry th' G' bad new)
    (hfree : ∀ j, j ≠ i → ∀ w, pending (th j) = some w → visit rootBlk (th i) ≠ some w.child)
    (hQ : ∀ w, v = some w → ∀ k, Dirty ix st' w.dead k → Dirty ix st w.dead k)
    (hg : Grow ix (fun _ => True) st st') :
    EV ix st' (fun j => if j = i then th' else th j) v r := by
  refine ⟨K, _, key, G', hk, SysInv.step (z := ⟨st'.entry, fun j => if j = i then th' else th j⟩) (i := i) (bad := bad) (new := new)
    (fun l m h => by simp only [List.length_drop] at *; omega) Y ?_ (fun hj _ hw => hfree _ hj _ hw) (fun j hj => by simp [hj]), fun w hw => ?_,
    hP.2.moved hc S.moved hg (fun _ _ _ => trivial) (fun w hw => ⟨w, hw, rfl⟩)⟩
  · simp only [if_true]
    exact S
  · exact (hP.1 w hw).moved S.moved (hQ w hw) (fun t k ⟨e, h1, h2, h3⟩ => ⟨e, hg.trees e h1 t h2, h2, h3⟩)

theorem Part.setE (P : Part ix M g v n i) {a : Thread (Ent V)} (hp : pending (n.eth i) = none) (ha : a = .idle ∨ ∃ k, a = descent k) :
    Part ix M g v (n.setE i a) i :=
  ⟨P.entry.put hp ha, P.tup, P.inj, P.ok, P.alive, P.clean, fun j hj => by simpa [Net.setE, hj] using P.job j hj⟩

theorem Part.setJ (P : Part ix M g v n i) (b : Job V) : Part ix M g v (n.setJ i b) i :=
  ⟨P.entry, P.tup, P.inj, P.ok, P.alive, P.clean, fun j hj => by simpa [Net.setJ, hj] using P.job j hj⟩

theorem Part.setT (hc : ColsOK ix M) (P : Part ix M g v n i) {t : Nat} {a : Thread (Item Datum)} (hp : pending (n.tth t i) = none) {k : AttKey V} {e : Ent V}
    (he : e ∈ contents n.st.entry rootBlk) (het : e.post = .tree t) (hke : ix.cmp (probe k) e = .eq)
    (ha : a = .idle ∨ ((a = .down 0 ∨ a = .opening 0) ∧ ∀ y ∈ g.S i, y ∈ ix.rowsOf n.st k) ∨ ∃ it, EntryOK ix M (k, it) ∧ a = .ins [it] 0 [] ∧
      ∀ k', Same ix k' k → ∀ i, g.A i k' it) :
    Part ix M g v (n.setT t i a) i := by
  have := hc.keys
  have := cmp_trans ix
  have hat : k.attnum = e.key.attnum := same_attnum (ix := ix) hke
  refine ⟨P.entry, fun e' he' => ?_, P.inj, P.ok, P.alive, P.clean, fun j hj => by simpa [Net.setT, hj] using P.job j hj⟩
  have h := P.tup e' he'
  refine ⟨h.key, h.list, fun u hu => ⟨(h.tree u hu).1, ?_⟩⟩
  by_cases hut : u = t
  · subst hut
    obtain rfl := P.inj e' he' e he u hu het
    have := (h.tree u hu).2.put (i := i) (a := a) hp (by
      rcases ha with h | ⟨h, hS⟩ | ⟨it, h1, h2, h3⟩
      · exact Or.inl h
      · refine Or.inr (Or.inl ⟨h, fun y hy => ⟨?_, fun dead us hv => ?_⟩⟩)
        · have := hS y hy
          rw [EInv.rowsOf_eq hc P.entry.einv he hke] at this
          unfold rows at this
          rw [hu] at this
          exact this
        · obtain ⟨ts, nxt, hv⟩ := tv_some hv
          exact (P.alive _ hv).2 i y hy
      · refine Or.inr (Or.inr ⟨it, h2, by rw [← hat]; exact h1.item, fun j => ?_⟩)
        cases j with
        | zero => trivial
        | succ j => exact fun k' hk' => h3 k' (TransCmp.eq_trans (cmp := ix.cmp) (a := probe k') (c := probe k) hk' (OrientedCmp.eq_symm hke)) j)
    simpa [Net.setT] using this
  · simpa [Net.setT, hut] using (h.tree u hu).2

theorem Due.of {T l : List (AttKey V × Item Datum)} {n n' : Net V} (h : Due ix T n i l) (hs : n'.st = n.st) (hj : ∀ j, j ≠ i → n'.job j = n.job j) :
    Due ix T n' i l := by
  intro op hop
  rcases h op hop with h | h | ⟨j, l', h1, h2, h3⟩
  · exact Or.inl (by rw [hs]; exact h)
  · exact Or.inr (Or.inl h)
  · exact Or.inr (Or.inr ⟨j, l', h1, by rw [hj j h1]; exact h2, h3⟩)

/-- On to the next entry. -/
theorem Part.next (P : Part ix M g v n i) {l : List (AttKey V × Item Datum)} (hp : pending (n.eth i) = none) (ht : ∀ t, n.tth t i = .idle)
    (h1 : ∀ op ∈ l, EntryOK ix M op) (h2 : ∀ op ∈ l, op ∈ g.T) (h3 : ∀ op ∈ l, ∀ k', Same ix k' op.1 → ∀ i, g.A i k' op.2)
    (hd : Due ix g.T n i l) : NInv ix M g v (n.next i l) := by
  cases l with
  | nil =>
    refine ((P.setE (a := .idle) hp (Or.inl rfl)).setJ .inserted).whole ?_ ?_
    · rw [setJ_job]
      exact ⟨by simp [Net.setJ, Net.setE], ht⟩
    · rw [setJ_job]
      exact hd.of rfl (fun j hj => by simp [Net.setJ, Net.setE, hj])
  | cons op l =>
    obtain ⟨k, it⟩ := op
    refine ((P.setE (a := descent k) hp (Or.inr ⟨k, rfl⟩)).setJ (.insert ((k, it) :: l))).whole ?_ ?_
    · rw [setJ_job]
      exact ⟨h1, h2, h3, k, it, l, rfl, Or.inl ⟨ht, Or.inl ⟨_, _, by simp [Net.setJ, Net.setE, descent]; exact ⟨rfl, rfl⟩⟩⟩⟩
    · rw [setJ_job]
      exact hd.of rfl (fun j hj => by simp [Net.setJ, Net.setE, hj])

end
end Rum.Index.VC

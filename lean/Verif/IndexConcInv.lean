import Verif.IndexConcStep
import Verif.Props.Conc
import Verif.Props.Index
/-
Invariant of the index and all backends. Proof apparatus.
-/
namespace Rum.Index
open Rum Rum.Codec Rum.Leaf Rum.Entry Rum.Tree Rum.Props Rum.Props.PostingTree Rum.Props.Conc Std

variable {V : Type}

/-- Kind of a reading backend: by pages (`false`), by items (`true`). -/
def mode {α : Type} : Thread α → Option Bool
  | .down _ | .scan _ _ | .scanned _ => some false
  | .opening _ | .cursor _ _ _ _ | .next _ _ _ | .ended _ => some true
  | _ => none

/-- The entry is in the index. -/
def Made (ix : Ix V) [Inhabited V] (st : State V) (op : AttKey V × Item Datum) : Prop :=
  ∃ y ∈ ix.rowsOf st op.1, (ix.ctx op.1.attnum).cmp y op.2 = .eq

/-- An entry the index can take. -/
structure EntryOK (ix : Ix V) (M : Lim) (op : AttKey V × Item Datum) : Prop where
  key : ix.tupleSize op.1 [] ≤ maxTuple
  item : Storable (ix.ctx op.1.attnum) M op.2

def ESys (C : Prop) (ix : Ix V) [Inhabited V] (s : Store (Ent V)) (th : Nat → Thread (Ent V)) : Prop :=
  ∃ (K : Type) (_ : LinearOrder K) (key : Ent V → K) (G : Ghost), KeyOf ix.cmp key ∧
    SysInv True C key true (InnerFit ix) (KeyFit ix) (fun l => l.length ≤ 1) (LeafOK ix) ix.ops rootBlk ⟨s, th⟩ G

def TSys (C : Prop) (x : Ctx) (M : Lim) (build : Bool) (s : Store (Item Datum)) (th : Nat → Thread (Item Datum)) (S : Nat → List (Item Datum)) : Prop :=
  ∃ (K : Type) (_ : LinearOrder K) (key : Item Datum → K) (G : Ghost), KeyOf x.cmp key ∧
    SysInv (M.single = false) C key false (fun D => D.length * 24 ≤ innerCap) (fun _ => True) (BatchIn x M) (FitsPage x M dataCap)
      (dataOps x dataCap innerCap build) 0 ⟨s, th⟩ G ∧
    ∀ i, (mode (th i)).isSome → ReadOK key (dataOps x dataCap innerCap build) 0 s G (S i) (th i)

structure Tuple (C : Prop) (ix : Ix V) (M : Lim) (st : State V) (tth : Nat → Nat → Thread (Item Datum)) (S : Nat → List (Item Datum)) (e : Ent V) :
    Prop where
  key : ix.tupleSize e.key [] ≤ maxTuple
  list : ∀ data n, e.post = .list data n → ∃ R, ListOK (ix.ctx e.key.attnum) M R ∧
    placeList (ix.ctx e.key.attnum).cfg (ix.keySize e.key) ⟨0, 0⟩ R = some data ∧ n = R.length ∧ ix.tupleSize e.key R ≤ maxTuple ∧
    e.size = ix.tupleSize e.key R
  tree : ∀ t, e.post = .tree t → t < st.ntrees ∧ TSys C (ix.ctx e.key.attnum) M ix.build (st.trees t) (tth t) S

/-- A backend works in the posting tree of a key. -/
def InTree (ix : Ix V) [Inhabited V] (st : State V) (a : Thread (Ent V)) (b : Nat → Thread (Item Datum)) (k : AttKey V) (t : Nat) : Prop :=
  a = .idle ∧ (∀ u, u ≠ t → b u = .idle) ∧ ∃ e ∈ contents st.entry rootBlk, e.post = .tree t ∧ ix.cmp (probe k) e = .eq

def Quiet (a : Thread (Ent V)) (b : Nat → Thread (Item Datum)) : Prop := a = .idle ∧ ∀ t, b t = .idle

/-- Where an insertion is. -/
def AtWork (ix : Ix V) [Inhabited V] (st : State V) (a : Thread (Ent V)) (b : Nat → Thread (Item Datum)) (k : AttKey V) (it : Item Datum) : Prop :=
  ((∀ t, b t = .idle) ∧ ((∃ p up, a = .ins [probe k] p up) ∨ ∃ w, pending a = some w ∧ w.batch = [] ∧ Made ix st (k, it))) ∨
  ∃ t, InTree ix st a b k t ∧ (b t).free = false ∧ mode (b t) = none ∧ (todo (b t) = [it] ∨ (todo (b t) = [] ∧ Made ix st (k, it)))

/-- Where a search is. -/
def Reading (ix : Ix V) [Inhabited V] (st : State V) (a : Thread (Ent V)) (b : Nat → Thread (Item Datum)) (k : AttKey V) (c : Bool) : Prop :=
  ((∀ t, b t = .idle) ∧ ∃ p up, a = .ins [probe k] p up) ∨
  ∃ t, InTree ix st a b k t ∧ (b t).free = false ∧ mode (b t) = some c

def JobOK (C : Prop) (ix : Ix V) [Inhabited V] (M : Lim) (S : List (Item Datum)) (W : List (AttKey V × Item Datum)) (A : AttKey V → Item Datum → Prop)
    (st : State V) (a : Thread (Ent V)) (b : Nat → Thread (Item Datum)) : Job V → Prop
  | .idle => Quiet a b
  | .inserted => Quiet a b ∧ ∀ op ∈ W, Made ix st op
  | .failed => Quiet a b ∧ ¬ C
  | .answer k c rows => Quiet a b ∧ (∀ y ∈ S, Delivered (ix.ctx k.attnum).cmp rows y) ∧ (∀ y ∈ rows, y ∈ ix.rowsOf st k) ∧
      (c = false → SSorted (ix.ctx k.attnum).cmp rows)
  | .insert l => (∀ op ∈ l, EntryOK ix M op) ∧ (∀ op ∈ l, ∀ k', Same ix k' op.1 → A k' op.2) ∧ (∀ op ∈ W, op ∈ l ∨ Made ix st op) ∧
      ∃ k it l', l = (k, it) :: l' ∧ AtWork ix st a b k it
  | .read k c => (c = true → M.single = false) ∧ (∀ y ∈ S, y ∈ ix.rowsOf st k) ∧ Reading ix st a b k c

/-- Ghosts: what the searches must find; the entries of the row each backend inserts; what may be in the index; the entries whose insertion was
begun; what must be in the index. -/
structure Gh (V : Type) where
  S : Nat → List (Item Datum)
  W : Nat → List (AttKey V × Item Datum)
  A : AttKey V → Item Datum → Prop
  T : List (AttKey V × Item Datum)
  B : AttKey V → Item Datum → Prop

structure Part (C : Prop) (ix : Ix V) [Inhabited V] (M : Lim) (g : Gh V) (n : Net V) (i : Nat) : Prop where
  entry : ESys C ix n.st.entry n.eth
  tup : ∀ e ∈ contents n.st.entry rootBlk, Tuple C ix M n.st n.tth g.S e
  inj : ∀ e ∈ contents n.st.entry rootBlk, ∀ e' ∈ contents n.st.entry rootBlk, ∀ t, e.post = .tree t → e'.post = .tree t → e = e'
  allowed : ∀ k, ∀ y ∈ ix.rowsOf n.st k, g.A k y
  base : ∀ k y, g.B k y → y ∈ ix.rowsOf n.st k
  job : ∀ j, j ≠ i → JobOK C ix M (g.S j) (g.W j) g.A n.st (n.eth j) (fun t => n.tth t j) (n.job j)

/-- Begun entries are in the index, or on the list `l` of backend `i`, or another backend's. -/
def Due (C : Prop) (ix : Ix V) [Inhabited V] (T : List (AttKey V × Item Datum)) (n : Net V) (i : Nat) (l : List (AttKey V × Item Datum)) : Prop :=
  C → ∀ op ∈ T, Made ix n.st op ∨ op ∈ l ∨ ∃ j l', j ≠ i ∧ n.job j = .insert l' ∧ op ∈ l'

/-- The entries a job still has to insert. -/
def Job.left : Job V → List (AttKey V × Item Datum)
  | .insert l => l
  | _ => []

structure NInv (C : Prop) (ix : Ix V) [Inhabited V] (M : Lim) (g : Gh V) (n : Net V) : Prop where
  entry : ESys C ix n.st.entry n.eth
  tup : ∀ e ∈ contents n.st.entry rootBlk, Tuple C ix M n.st n.tth g.S e
  inj : ∀ e ∈ contents n.st.entry rootBlk, ∀ e' ∈ contents n.st.entry rootBlk, ∀ t, e.post = .tree t → e'.post = .tree t → e = e'
  allowed : ∀ k, ∀ y ∈ ix.rowsOf n.st k, g.A k y
  base : ∀ k y, g.B k y → y ∈ ix.rowsOf n.st k
  job : ∀ j, JobOK C ix M (g.S j) (g.W j) g.A n.st (n.eth j) (fun t => n.tth t j) (n.job j)
  due : C → ∀ op ∈ g.T, Made ix n.st op ∨ ∃ j l', n.job j = .insert l' ∧ op ∈ l'

section
variable {C : Prop} {ix : Ix V} [Inhabited V] {M : Lim} {g : Gh V} {n : Net V} {i : Nat}

omit [Inhabited V] in
theorem TSys.inv {x : Ctx} {build : Bool} {s : Store (Item Datum)} {th : Nat → Thread (Item Datum)} {S : Nat → List (Item Datum)}
    (h : TSys C x M build s th S) : TInv False x dataCap innerCap M s 0 := by
  obtain ⟨K, hK, key, G, hk, I, -⟩ := h
  exact ⟨K, hK, key, G, hk, I.good, I.bnd⟩

theorem ESys.inv {s : Store (Ent V)} {th : Nat → Thread (Ent V)} (h : ESys C ix s th) : EInv False ix s := by
  obtain ⟨K, hK, key, G, hk, I⟩ := h
  exact ⟨K, hK, key, G, hk, I.good, I.bnd trivial⟩

omit [Inhabited V] in
theorem Tuple.ent {st : State V} {tth : Nat → Nat → Thread (Item Datum)} {S : Nat → List (Item Datum)} {e : Ent V}
    (h : Tuple C ix M st tth S e) : EntOK False ix M st e :=
  ⟨h.key, h.list, fun t ht => ⟨(h.tree t ht).1, (h.tree t ht).2.inv⟩⟩

theorem NInv.inv (I : NInv C ix M g n) : IInv False ix M n.st := ⟨I.entry.inv, fun e he => (I.tup e he).ent, I.inj⟩
theorem Part.inv (I : Part C ix M g n i) : IInv False ix M n.st := ⟨I.entry.inv, fun e he => (I.tup e he).ent, I.inj⟩

theorem NInv.due' (I : NInv C ix M g n) (i : Nat) : Due C ix g.T n i (n.job i).left := by
  intro c op hop
  rcases I.due c op hop with h | ⟨j, l, h1, h2⟩
  · exact Or.inl h
  · by_cases hj : j = i
    · subst hj; rw [h1]; exact Or.inr (Or.inl h2)
    · exact Or.inr (Or.inr ⟨j, l, hj, h1, h2⟩)

theorem NInv.part (I : NInv C ix M g n) (i : Nat) : Part C ix M g n i := ⟨I.entry, I.tup, I.inj, I.allowed, I.base, fun j _ => I.job j⟩

theorem Part.whole (P : Part C ix M g n i) (hj : JobOK C ix M (g.S i) (g.W i) g.A n.st (n.eth i) (fun t => n.tth t i) (n.job i))
    (hd : Due C ix g.T n i (n.job i).left) : NInv C ix M g n := by
  refine ⟨P.entry, P.tup, P.inj, P.allowed, P.base, fun j => ?_, fun c op hop => ?_⟩
  · by_cases h : j = i
    · subst h; exact hj
    · exact P.job j h
  · rcases hd c op hop with h | h | ⟨j, l, -, h1, h2⟩
    · exact Or.inl h
    · cases hjob : n.job i with
      | insert l => rw [hjob] at h; exact Or.inr ⟨i, l, hjob, h⟩
      | _ => rw [hjob] at h; simp [Job.left] at h
    · exact Or.inr ⟨j, l, h1, h2⟩

/-! ### Growing -/

structure Grow (ix : Ix V) [Inhabited V] (st st' : State V) : Prop where
  rows : ∀ k, ∀ y ∈ ix.rowsOf st k, y ∈ ix.rowsOf st' k
  trees : ∀ e ∈ contents st.entry rootBlk, ∀ t, e.post = .tree t → e ∈ contents st'.entry rootBlk

theorem Grow.refl (st : State V) : Grow ix st st := ⟨fun _ _ h => h, fun _ h _ _ => h⟩

theorem Made.grow {st st' : State V} (h : Grow ix st st') {op : AttKey V × Item Datum} (hm : Made ix st op) : Made ix st' op := by
  obtain ⟨y, h1, h2⟩ := hm
  exact ⟨y, h.rows _ y h1, h2⟩

theorem InTree.grow {st st' : State V} (h : Grow ix st st') {a : Thread (Ent V)} {b : Nat → Thread (Item Datum)} {k : AttKey V} {t : Nat}
    (hi : InTree ix st a b k t) : InTree ix st' a b k t := by
  obtain ⟨h1, h2, e, h3, h4, h5⟩ := hi
  exact ⟨h1, h2, e, h.trees e h3 t h4, h4, h5⟩

theorem JobOK.grow {st st' : State V} (h : Grow ix st st') {S : List (Item Datum)} {W : List (AttKey V × Item Datum)} {A : AttKey V → Item Datum → Prop}
    {a : Thread (Ent V)} {b : Nat → Thread (Item Datum)} {j : Job V} (hj : JobOK C ix M S W A st a b j) : JobOK C ix M S W A st' a b j := by
  cases j with
  | idle => exact hj
  | inserted => exact ⟨hj.1, fun op ho => (hj.2 op ho).grow h⟩
  | failed => exact hj
  | answer k c rows => exact ⟨hj.1, hj.2.1, fun y hy => h.rows k y (hj.2.2.1 y hy), hj.2.2.2⟩
  | insert l =>
    obtain ⟨h1, h2, h3, k, it, l', h4, h5⟩ := hj
    refine ⟨h1, h2, fun op ho => (h3 op ho).imp id (fun m => m.grow h), k, it, l', h4, ?_⟩
    rcases h5 with ⟨h5, h6⟩ | ⟨t, h5, h6, h7, h8⟩
    · exact Or.inl ⟨h5, h6.imp id (fun ⟨w, w1, w2, w3⟩ => ⟨w, w1, w2, w3.grow h⟩)⟩
    · exact Or.inr ⟨t, h5.grow h, h6, h7, h8.imp id (fun w => ⟨w.1, w.2.grow h⟩)⟩
  | read k c =>
    obtain ⟨h1, h2, h3⟩ := hj
    refine ⟨h1, fun y hy => h.rows k y (h2 y hy), h3.imp id (fun ⟨t, t1, t2⟩ => ⟨t, t1.grow h, t2⟩)⟩

/-- A step of backend `i`. -/
theorem NInv.step (I : NInv C ix M g n) {n' : Net V} (he : ESys C ix n'.st.entry n'.eth)
    (ht : ∀ e ∈ contents n'.st.entry rootBlk, Tuple C ix M n'.st n'.tth g.S e)
    (hi : ∀ e ∈ contents n'.st.entry rootBlk, ∀ e' ∈ contents n'.st.entry rootBlk, ∀ t, e.post = .tree t → e'.post = .tree t → e = e')
    (ha : ∀ k, ∀ y ∈ ix.rowsOf n'.st k, g.A k y) (hg : Grow ix n.st n'.st)
    (ho : ∀ j, j ≠ i → n'.eth j = n.eth j ∧ (∀ t, n'.tth t j = n.tth t j) ∧ n'.job j = n.job j) :
    Part C ix M g n' i ∧ Due C ix g.T n' i (n.job i).left := by
  refine ⟨⟨he, ht, hi, ha, fun k y hy => hg.rows k y (I.base k y hy), fun j hj => ?_⟩, fun c op hop => ?_⟩
  · obtain ⟨h1, h2, h3⟩ := ho j hj
    have h2' : (fun t => n'.tth t j) = fun t => n.tth t j := funext h2
    rw [h1, h2', h3]
    exact (I.job j).grow hg
  · rcases I.due' i c op hop with h | h | ⟨j, l, h1, h2, h3⟩
    · exact Or.inl (h.grow hg)
    · exact Or.inr (Or.inl h)
    · exact Or.inr (Or.inr ⟨j, l, h1, by rw [(ho j h1).2.2]; exact h2, h3⟩)

/-! ### Threads that start and stop -/

theorem ESys.put {s : Store (Ent V)} {th : Nat → Thread (Ent V)} (h : ESys C ix s th) {a : Thread (Ent V)} (hp : C → pending (th i) = none)
    (ha : a = .idle ∨ ∃ k, a = descent k) : ESys C ix s (fun j => if j = i then a else th j) := by
  obtain ⟨K, hK, key, G, hk, I⟩ := h
  refine ⟨K, hK, key, G, hk, ?_⟩
  rcases ha with rfl | ⟨k, rfl⟩
  · exact SysInv.put I (th := .idle) rfl hp (by simp [knows]) trivial (by simp [todo, SSorted]) (by simp)
  · exact SysInv.put I (th := descent k) rfl hp (by simp [descent, knows]) (Or.inl ⟨rfl, rfl⟩) (by simp [descent, todo, SSorted]) (by simp [descent])

omit [Inhabited V] in
theorem TSys.put {x : Ctx} {build : Bool} {s : Store (Item Datum)} {th : Nat → Thread (Item Datum)} {S : Nat → List (Item Datum)}
    (h : TSys C x M build s th S) {a : Thread (Item Datum)} (hp : C → pending (th i) = none)
    (ha : a = .idle ∨ a = .down 0 ∨ a = .opening 0 ∨ ∃ it, Storable x M it ∧ a = .ins [it] 0 []) :
    TSys C x M build s (fun j => if j = i then a else th j) S := by
  obtain ⟨K, hK, key, G, hk, I, hR⟩ := h
  have hR' : (∀ (h : (mode a).isSome), ReadOK key (dataOps x dataCap innerCap build) 0 s G (S i) a) → ∀ j, (mode (if j = i then a else th j)).isSome →
      ReadOK key (dataOps x dataCap innerCap build) 0 s G (S j) (if j = i then a else th j) := by
    intro h j
    by_cases hj : j = i
    · subst hj; rw [if_pos rfl]; exact h
    · rw [if_neg hj]; exact hR j
  rcases ha with rfl | rfl | rfl | ⟨it, hit, rfl⟩
  · exact ⟨K, hK, key, G, hk, SysInv.put I (th := .idle) rfl hp (by simp [knows]) trivial (by simp [todo, SSorted, BatchIn]) (by simp),
      hR' (by simp [mode])⟩
  · exact ⟨K, hK, key, G, hk, SysInv.put I (th := .down 0) rfl hp (by simp [knows]) trivial (by simp [todo, SSorted, BatchIn]) (by simp),
      hR' (fun _ => Or.inl rfl)⟩
  · exact ⟨K, hK, key, G, hk, SysInv.put I (th := .opening 0) rfl hp (by simp [knows]) trivial (by simp [todo, SSorted, BatchIn]) (by simp),
      hR' (fun _ => Or.inl rfl)⟩
  · exact ⟨K, hK, key, G, hk, SysInv.put I (th := .ins [it] 0 []) rfl hp (by simp [knows]) (Or.inl ⟨rfl, rfl⟩)
      (by simpa [todo, SSorted, BatchIn] using hit) (by simp), hR' (by simp [mode])⟩

omit [Inhabited V] in
/-- Nobody is in the tree. -/
theorem TSys.rest {x : Ctx} {build : Bool} {s : Store (Item Datum)} {th : Nat → Thread (Item Datum)} {S : Nat → List (Item Datum)}
    (h : TInv C x dataCap innerCap M s 0) (hth : ∀ i, th i = .idle) : TSys C x M build s th S := by
  obtain ⟨K, hK, key, G, hk, hG, hB⟩ := h
  refine ⟨K, hK, key, G, hk, ⟨⟨hG.weak, fun h => h.elim, hG.sized, hG.fit⟩, hB, ?_, ?_, ?_, ?_, ?_, ?_, ?_⟩, ?_⟩
  · intro i; simp only [hth]; trivial
  · intro i; simp [hth, todo, SSorted, BatchIn]
  · intro i j w w' _ h; simp [hth, pending] at h
  · intro i p h; simp [hth, knows] at h
  · intro c a d h; exact absurd h (complete_adj (hG.complete c) a d)
  · intro c i j w h; simp [hth, pending] at h
  · intro c i; simp [hth]
  · intro i h; simp [hth, mode] at h

theorem ESys.rest {s : Store (Ent V)} {th : Nat → Thread (Ent V)} (h : EInv C ix s) (hth : ∀ i, th i = .idle) : ESys C ix s th := by
  obtain ⟨K, hK, key, G, hk, hG, hB⟩ := h
  refine ⟨K, hK, key, G, hk, ⟨hG.weak, fun h => h.elim, hG.sized, hG.fit⟩, fun _ => hB, ?_, ?_, ?_, ?_, ?_, ?_, ?_⟩
  · intro i; simp only [hth]; trivial
  · intro i; simp [hth, todo, SSorted]
  · intro i j w w' _ h; simp [hth, pending] at h
  · intro i p h; simp [hth, knows] at h
  · intro c a d h; exact absurd h (complete_adj (hG.complete c) a d)
  · intro c i j w h; simp [hth, pending] at h
  · intro c i; simp [hth]

/-- A tree without unfinished splits is complete. -/
theorem complete_of_adj {α K : Type} [LinearOrder K] {key : α → K} {strict : Bool} {s : Store α} {root : Nat} {G : Ghost} (W : Weak key strict s root G)
    (h : ∀ c d, ¬ Adj G c d) : Complete G := by
  intro k hk b hb g hg
  have hI := (W.inner k hk b hb).2
  have hne := hI.group_ne hg
  match g, hne, hg with
  | [c], _, _ => exact ⟨c, rfl⟩
  | c :: d :: t, _, hg =>
    exact absurd ⟨k, b, [], t, hk, kids_mem W.toThin hk hb (List.mem_flatten.2 ⟨_, hg, by simp⟩), hb, hg⟩ (h c d)

omit [Inhabited V] in
theorem TSys.full {x : Ctx} {build : Bool} {s : Store (Item Datum)} {th : Nat → Thread (Item Datum)} {S : Nat → List (Item Datum)}
    (h : TSys C x M build s th S) (hth : ∀ i, pending (th i) = none) : TInv C x dataCap innerCap M s 0 := by
  obtain ⟨K, hK, key, G, hk, I, -⟩ := h
  refine ⟨K, hK, key, G, hk, ⟨I.good.weak, fun c => complete_of_adj I.good.weak (fun a d had => ?_), I.good.sized, I.good.fit⟩, I.bnd⟩
  obtain ⟨i, w, h1, -⟩ := I.adj c a d had
  rw [hth i] at h1; cases h1

theorem ESys.full {s : Store (Ent V)} {th : Nat → Thread (Ent V)} (h : ESys C ix s th) (hth : ∀ i, pending (th i) = none) : EInv C ix s := by
  obtain ⟨K, hK, key, G, hk, I⟩ := h
  refine ⟨K, hK, key, G, hk, ⟨I.good.weak, fun c => complete_of_adj I.good.weak (fun a d had => ?_), I.good.sized, I.good.fit⟩, I.bnd trivial⟩
  obtain ⟨i, w, h1, -⟩ := I.adj c a d had
  rw [hth i] at h1; cases h1

theorem Part.setE (P : Part C ix M g n i) {a : Thread (Ent V)} (hp : C → pending (n.eth i) = none) (ha : a = .idle ∨ ∃ k, a = descent k) :
    Part C ix M g (n.setE i a) i :=
  ⟨P.entry.put hp ha, P.tup, P.inj, P.allowed, P.base, fun j hj => by simpa [Net.setE, hj] using P.job j hj⟩

theorem Part.setJ (P : Part C ix M g n i) (b : Job V) : Part C ix M g (n.setJ i b) i :=
  ⟨P.entry, P.tup, P.inj, P.allowed, P.base, fun j hj => by simpa [Net.setJ, hj] using P.job j hj⟩

theorem Part.setT (P : Part C ix M g n i) {t : Nat} {a : Thread (Item Datum)} (hp : C → pending (n.tth t i) = none)
    (ha : a = .idle ∨ a = .down 0 ∨ a = .opening 0 ∨ ∃ k it, EntryOK ix M (k, it) ∧ a = .ins [it] 0 [] ∧
      ∀ e ∈ contents n.st.entry rootBlk, e.post = .tree t → k.attnum = e.key.attnum) :
    Part C ix M g (n.setT t i a) i := by
  refine ⟨P.entry, fun e he => ?_, P.inj, P.allowed, P.base, fun j hj => by simpa [Net.setT, hj] using P.job j hj⟩
  have h := P.tup e he
  refine ⟨h.key, h.list, fun u hu => ⟨(h.tree u hu).1, ?_⟩⟩
  by_cases hut : u = t
  · subst hut
    have := (h.tree u hu).2.put (i := i) (a := a) hp (by
      rcases ha with h | h | h | ⟨k, it, h1, h2, h3⟩
      · exact Or.inl h
      · exact Or.inr (Or.inl h)
      · exact Or.inr (Or.inr (Or.inl h))
      · exact Or.inr (Or.inr (Or.inr ⟨it, by rw [← h3 e he hu]; exact h1.item, h2⟩)))
    simpa [Net.setT] using this
  · simpa [Net.setT, hut] using (h.tree u hu).2

theorem Due.of {T l : List (AttKey V × Item Datum)} {n n' : Net V} (h : Due C ix T n i l) (hs : n'.st = n.st) (hj : ∀ j, j ≠ i → n'.job j = n.job j) :
    Due C ix T n' i l := by
  intro c op hop
  rcases h c op hop with h | h | ⟨j, l', h1, h2, h3⟩
  · exact Or.inl (by rw [hs]; exact h)
  · exact Or.inr (Or.inl h)
  · exact Or.inr (Or.inr ⟨j, l', h1, by rw [hj j h1]; exact h2, h3⟩)

omit [Inhabited V] in
theorem setJ_job (n : Net V) (i : Nat) (b : Job V) : (n.setJ i b).job i = b := by simp [Net.setJ]
omit [Inhabited V] in
theorem setE_eth (n : Net V) (i : Nat) (b : Thread (Ent V)) : (n.setE i b).eth i = b := by simp [Net.setE]

/-- On to the next entry. -/
theorem Part.next (P : Part C ix M g n i) {l : List (AttKey V × Item Datum)} (hp : C → pending (n.eth i) = none) (ht : ∀ t, n.tth t i = .idle)
    (h1 : ∀ op ∈ l, EntryOK ix M op) (h2 : ∀ op ∈ l, ∀ k', Same ix k' op.1 → g.A k' op.2) (h3 : ∀ op ∈ g.W i, op ∈ l ∨ Made ix n.st op)
    (hd : Due C ix g.T n i l) : NInv C ix M g (n.next i l) := by
  cases l with
  | nil =>
    refine ((P.setE (a := .idle) hp (Or.inl rfl)).setJ .inserted).whole ?_ ?_
    · rw [setJ_job]
      exact ⟨⟨by simp [Net.setJ, Net.setE], ht⟩, fun op ho => (h3 op ho).resolve_left (by simp)⟩
    · rw [setJ_job]
      exact hd.of rfl (fun j hj => by simp [Net.setJ, Net.setE, hj])
  | cons op l =>
    obtain ⟨k, it⟩ := op
    refine ((P.setE (a := descent k) hp (Or.inr ⟨k, rfl⟩)).setJ (.insert ((k, it) :: l))).whole ?_ ?_
    · rw [setJ_job]
      exact ⟨h1, h2, h3, k, it, l, rfl, Or.inl ⟨ht, Or.inl ⟨_, _, by simp [Net.setJ, Net.setE, descent]; exact ⟨rfl, rfl⟩⟩⟩⟩
    · rw [setJ_job]
      exact hd.of rfl (fun j hj => by simp [Net.setJ, Net.setE, hj])

/-- An error. -/
theorem Part.fail (P : Part C ix M g n i) (hC : ¬ C) : NInv C ix M g (n.fail i) := by
  have P1 := (P.setE (a := .idle) (fun c => absurd c hC) (Or.inl rfl)).setJ .failed
  have P2 : Part C ix M g (n.fail i) i := by
    refine ⟨P1.entry, fun e he => ?_, P1.inj, P1.allowed, P1.base, fun j hj => ?_⟩
    · have h := P.tup e he
      exact ⟨h.key, h.list, fun u hu => ⟨(h.tree u hu).1, (h.tree u hu).2.put (i := i) (a := .idle) (fun c => absurd c hC) (Or.inl rfl)⟩⟩
    · simpa [Net.fail, Net.quit, Net.setJ, Net.setE, hj] using P.job j hj
  refine P2.whole ?_ (fun c => absurd c hC)
  have : (n.fail i).job i = .failed := by simp [Net.fail, Net.quit, Net.setJ]
  rw [this]
  exact ⟨⟨by simp [Net.fail, Net.quit, Net.setJ, Net.setE], fun t => by simp [Net.fail, Net.quit]⟩, hC⟩

end
end Rum.Index

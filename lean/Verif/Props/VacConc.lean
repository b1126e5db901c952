import Verif.VacRead
import Verif.Props.Conc
import Verif.Props.VacuumTree
import Verif.Props.Order
/-!
# C61, C62: VACUUM of a posting tree while scans and insertions go on
-/
namespace Rum.Props.VacConc
open Rum Rum.Tree Rum.Codec Rum.Leaf Rum.Entry Rum.Props Rum.Props.PostingTree Rum.Props.Conc Std

/-! ### Specification -/

/-- What can happen: backend `i` visits a page; backend `i`, not busy, starts an operation; backend `i` is stopped by an error or a cancel request
(not between the split of a page and the insertion of the downlink to the new page); VACUUM, told which rows are dead, gets the lock on the root;
VACUUM writes its next record; VACUUM releases the root. -/
inductive Event where
  | act (i : Nat)
  | start (i : Nat) (op : Op (Item Datum))
  | stop (i : Nat)
  | vacuum (dead : Iptr → Bool)
  | record
  | release

/-- Rows are inserted one at a time. -/
def OpOK (x : Ctx) (M : Lim) : Op (Item Datum) → Prop
  | .insert b => ∃ a, b = [a] ∧ Storable x M a
  | _ => True

abbrev State := VSys (Item Datum) (Iptr → Bool)

variable (x : Ctx) (cap capI : Nat) (M : Lim) (root : Nat)

/-- The event takes the system from `y` to `z`. -/
def Fires : Event → State → State → Prop
  | .act i, y, z => Acts (dataOps x cap capI false) (seekData x) root i y.sys z.sys ∧ z.vac = y.vac ∧
      (y.vac ≠ none → visit root (y.sys.th i) ≠ some root)
  | .start i op, y, z => (y.sys.th i).free = true ∧ OpOK x M op ∧ z = ⟨y.sys.put i (op.start root), y.vac⟩
  | .stop i, y, z => holds (y.sys.th i) = none ∧ z = ⟨y.sys.put i .idle, y.vac⟩
  | .vacuum dead, y, z => y.vac = none ∧ (∀ i, root ∉ pins root (y.sys.th i)) ∧
      z = ⟨y.sys, some (dead, vacuumTree (dataVac x.cfg dead) y.sys.store root)⟩
  | .record, y, z => ∃ dead u us, y.vac = some (dead, u :: us) ∧
      (∀ i, ∀ b ∈ pins root (y.sys.th i), (u.page b).deleted = true → (y.sys.store.page b).deleted = true) ∧
      z = ⟨{ y.sys with store := u }, some (dead, us)⟩
  | .release, y, z => ∃ dead, y.vac = some (dead, []) ∧ z = ⟨y.sys, none⟩

/-- A run: any events in any order. -/
inductive Run : State → List Event → State → Prop
  | refl (y : State) : Run y [] y
  | snoc {y z w : State} {es : List Event} {e : Event} : Run y es z → Fires x cap capI M root e z w → Run y (es ++ [e]) w

/-- A tree at rest: nobody is doing anything. -/
def atRest (s : Store (Item Datum)) : State := ⟨Conc.atRest s, none⟩

/-- `a` is dead for no VACUUM that is under way at `y` or begins in the run `es`. -/
def Lives (y : State) (es : List Event) (a : Item Datum) : Prop :=
  (∀ dead us, y.vac = some (dead, us) → dead a.iptr = false) ∧ ∀ dead, Event.vacuum dead ∈ es → dead a.iptr = false

/-- `a` is to be inserted by an insertion under way at `y` or started in the run `es`. -/
def Requested (y : State) (es : List Event) (a : Item Datum) : Prop :=
  (∃ i, a ∈ todo (y.sys.th i)) ∨ ∃ i b, Event.start i (.insert b) ∈ es ∧ a ∈ b

/-- Backend `j` neither starts something new nor is stopped. -/
def Event.leaves (j : Nat) : Event → Bool
  | .start i _ => i != j
  | .stop i => i != j
  | _ => true

/-! ### Proof apparatus -/
variable {x cap capI M root}

/-- Batches of one item. -/
def One (x : Ctx) (M : Lim) (l : List (Item Datum)) : Prop := BatchIn x M l ∧ l.length ≤ 1

theorem oneLaws [TransCmp x.cmpV] (hz : Sizes x cap capI M) :
    LeafLaws (dataOps x cap capI false) true (FitsPage x M cap) (One x M) (fun _ => True) := by
  have L := dataLeafLaws x cap capI M false hz.leaf hz.align hz.padded
  refine ⟨L.keys, fun l k h => ⟨L.rest l k h.1, by rw [List.length_drop]; have := h.2; omega⟩, fun its a xs h1 h2 h3 => L.found its a xs h1 h2 h3.1,
    fun its hi a xs h1 h2 h3 h4 => L.place its hi a xs h1 h2 h3 h4.1, fun its a xs h1 h2 h3 h4 => L.cut its a xs h1 h2 h3 h4.1⟩

/-- What a backend can be doing while VACUUM has the root locked. -/
def Calm (root : Nat) (th : Thread (Item Datum)) : Prop :=
  th ≠ .lost ∧ pending th = none ∧ ∀ b p up, th = .ins b p up → b ≠ [] ∧ p = root ∧ up = []

section
variable {K : Type} [LinearOrder K] {key : Item Datum → K}

abbrev SInv1 (x : Ctx) (cap capI : Nat) (M : Lim) (root : Nat) {K : Type} [LinearOrder K] (key : Item Datum → K) (y : Sys (Item Datum)) (G : Ghost) : Prop :=
  SysInv False True key false (fun D => D.length * 24 ≤ capI) (fun _ => True) (One x M) (FitsPage x M cap) (dataOps x cap capI false) root y G

/-- The invariant. `S (i + 1)`: items in the tree since the scan of backend `i` began; `Ev (i + 1)`: what it may deliver; `S 0`, `Ev 0`: the same for
the tree alone. -/
structure VInv (x : Ctx) (cap capI : Nat) (M : Lim) (root : Nat) {K : Type} [LinearOrder K] (key : Item Datum → K) (S : Nat → List (Item Datum))
    (Ev : Nat → Item Datum → Prop) (y : State) (G : Ghost) : Prop where
  browse : Browse key y.sys.store root G
  fit : ∀ c ∈ G.lv 0, FitsPage x M cap (y.sys.store.page c).items
  rd : ∀ i, ReadV key (dataOps x cap capI false) (FitsPage x M cap) (Ev (i + 1)) root y.sys.store G (S (i + 1)) (y.sys.th i)
  sub : ∀ i, ∀ a ∈ S i, a ∈ contents y.sys.store root
  ev : ∀ i, ∀ a ∈ contents y.sys.store root, Ev i a
  evt : ∀ i j, ∀ a ∈ todo (y.sys.th j), Ev i a
  quiet : y.vac = none → SInv1 x cap capI M root key y.sys G
  busy : ∀ dead us, y.vac = some (dead, us) → (∀ i, ∀ a ∈ S i, dead a.iptr = false) ∧ (∀ i, Calm root (y.sys.th i)) ∧
    (∀ i, One x M (todo (y.sys.th i))) ∧
    ∃ G', Chain key root (fun a => !dead a.iptr) y.sys.store G us G' ∧
      Good True key false (fun D => D.length * 24 ≤ capI) (fun _ => True) (FitsPage x M cap) (lastStore y.sys.store us) root G'

theorem one_sorted {l : List (Item Datum)} (h : l.length ≤ 1) : SSorted x.cmp l := by
  match l, h with
  | [], _ => simp [SSorted]
  | [a], _ => simp [SSorted]

theorem calm_ok {th : Thread (Item Datum)} (h : Calm root th) (s : Store (Item Datum)) (G : Ghost) : ThreadOK True key (fun _ => True) root s G th := by
  cases th with
  | ins b p up =>
    obtain ⟨h1, rfl, rfl⟩ := h.2.2 b p up rfl
    cases b with
    | nil => exact absurd rfl h1
    | cons a b => exact Or.inl ⟨rfl, rfl⟩
  | walk _ _ _ _ => simp [Calm, pending] at h
  | top _ => simp [Calm, pending] at h
  | level _ _ _ => simp [Calm, pending] at h
  | _ => trivial

theorem calm_knows {th : Thread (Item Datum)} (h : Calm root th) : ∀ p ∈ knows th, p = root := by
  cases th with
  | ins b p up =>
    obtain ⟨h1, rfl, rfl⟩ := h.2.2 b p up rfl
    simp [knows]
  | walk _ _ _ _ => simp [Calm, pending] at h
  | top _ => simp [Calm, pending] at h
  | level _ _ _ => simp [Calm, pending] at h
  | _ => simp [knows]

/-- Everybody outside the tree or reading it. -/
theorem sinv_calm {y : Sys (Item Datum)} {G : Ghost}
    (hG : Good True key false (fun D => D.length * 24 ≤ capI) (fun _ => True) (FitsPage x M cap) y.store root G) (hc : ∀ i, Calm root (y.th i))
    (ho : ∀ i, One x M (todo (y.th i))) : SInv1 x cap capI M root key y G := by
  have hroot : root < y.store.next := (hG.weak.alloc G.h (Nat.le_refl _) root (by rw [hG.weak.root]; simp)).1
  refine ⟨⟨hG.weak, fun h => h.elim, hG.sized, hG.fit⟩, fun h => h.elim, fun i => calm_ok (hc i) _ _, fun i => ⟨one_sorted (ho i).2, ho i⟩,
    ?_, ?_, ?_, ?_, ?_⟩
  · intro i j w w' _ h; rw [(hc i).2.1] at h; cases h
  · intro i p h; rw [calm_knows (hc i) p h]; exact hroot
  · intro _ a d h; exact absurd h (complete_adj (hG.complete trivial) a d)
  · intro _ i j w h; rw [(hc j).2.1] at h; cases h
  · intro _ i; exact (hc i).1

theorem complete_of {G : Ghost} {s : Store (Item Datum)} (W : Weak key false s root G) (h : ∀ c d, ¬ Adj G c d) : Complete G := by
  intro k hk b hb g hg
  have hne := ((W.inner k hk b hb).2).group_ne hg
  match g, hne with
  | [c], _ => exact ⟨c, rfl⟩
  | c :: d :: g, _ =>
    exact absurd ⟨k, b, [], g, hk, kids_mem W.toThin hk hb (List.mem_flatten.2 ⟨_, hg, by simp⟩), hb, hg⟩ (h c d)

theorem start_calm {op : Op (Item Datum)} (h : OpOK x M op) : Calm root (op.start root) ∧ One x M (todo (op.start root)) := by
  cases op with
  | insert b =>
    obtain ⟨a, rfl, ha⟩ := h
    refine ⟨⟨by simp [Op.start, again], rfl, ?_⟩, ⟨?_, ?_⟩, ?_⟩
    · intro b p up h
      simp only [Op.start, again, Thread.ins.injEq] at h
      obtain ⟨rfl, rfl, rfl⟩ := h
      exact ⟨by simp, rfl, rfl⟩
    · intro z hz; simp only [Op.start, again, todo, List.mem_singleton] at hz; subst hz; exact ha
    · intro _; simp [Op.start, again, todo]
    · simp [Op.start, again, todo]
  | scan => exact ⟨⟨by simp [Op.start], rfl, by simp [Op.start]⟩, by simp [One, Op.start, todo, BatchIn]⟩
  | cursor => exact ⟨⟨by simp [Op.start], rfl, by simp [Op.start]⟩, by simp [One, Op.start, todo, BatchIn]⟩

theorem idle_calm : Calm root (.idle : Thread (Item Datum)) ∧ One x M (todo (.idle : Thread (Item Datum))) :=
  ⟨⟨by simp, rfl, by simp⟩, by simp [One, todo, BatchIn]⟩

theorem reads_calm {th : Thread (Item Datum)} (h : reads th = true) : Calm root th ∧ todo th = [] := by
  cases th <;> simp [reads] at h <;> exact ⟨⟨by simp, rfl, by simp⟩, rfl⟩

/-- A backend gets something new to do. -/
theorem VInv.put {S : Nat → List (Item Datum)} {Ev : Nat → Item Datum → Prop} {y : State} {G : Ghost} (I : VInv x cap capI M root key S Ev y G)
    {i : Nat} {th : Thread (Item Datum)} (hc : Calm root th ∧ One x M (todo th)) (hh : holds (y.sys.th i) = none)
    (hr : ReadV key (dataOps x cap capI false) (FitsPage x M cap) (Ev (i + 1)) root y.sys.store G (S (i + 1)) th) (he : ∀ j, ∀ a ∈ todo th, Ev j a) :
    VInv x cap capI M root key S Ev ⟨y.sys.put i th, y.vac⟩ G := by
  refine ⟨I.browse, I.fit, ?_, I.sub, I.ev, ?_, fun hv => ?_, fun dead us hv => ?_⟩
  · intro j
    by_cases hj : j = i
    · subst hj
      show ReadV _ _ _ _ _ _ _ _ ((y.sys.put j th).th j)
      rw [put_same]; exact hr
    · show ReadV _ _ _ _ _ _ _ _ ((y.sys.put i th).th j)
      rw [put_other _ hj]; exact I.rd j
  · intro k j a ha
    change a ∈ todo ((y.sys.put i th).th j) at ha
    by_cases hj : j = i
    · subst hj; rw [put_same] at ha; exact he k a ha
    · rw [put_other _ hj] at ha; exact I.evt k j a ha
  · refine SysInv.put (I.quiet hv) hc.1.2.1 (fun _ => ?_) (calm_knows hc.1) (calm_ok hc.1 _ _) ⟨one_sorted hc.2.2, hc.2⟩ hc.1.1
    rw [holds_eq] at hh
    cases hp : pending (y.sys.th i) with
    | none => rfl
    | some w => rw [hp] at hh; cases hh
  · obtain ⟨b1, b2, b3, b4⟩ := I.busy dead us hv
    refine ⟨b1, fun j => ?_, fun j => ?_, b4⟩
    · by_cases hj : j = i
      · subst hj
        show Calm root ((y.sys.put j th).th j)
        rw [put_same]; exact hc.1
      · show Calm root ((y.sys.put i th).th j)
        rw [put_other _ hj]; exact b2 j
    · by_cases hj : j = i
      · subst hj
        show One x M (todo ((y.sys.put j th).th j))
        rw [put_same]; exact hc.2
      · show One x M (todo ((y.sys.put i th).th j))
        rw [put_other _ hj]; exact b3 j

theorem Good.browse {C : Prop} {s : Store (Item Datum)} {G : Ghost}
    (h : Good C key false (fun D => D.length * 24 ≤ capI) (fun _ => True) (FitsPage x M cap) s root G) :
    Browse key s root G ∧ ∀ c ∈ G.lv 0, FitsPage x M cap (s.page c).items := ⟨h.weak.browse, VacuumTree.Good.pages h⟩

theorem free_holds {th : Thread (Item Datum)} (h : th.free = true) : holds th = none := by
  cases th <;> simp [Thread.free] at h <;> rfl

/-- Nobody has the root pinned: there is no unfinished split. -/
theorem VInv.rooted {S : Nat → List (Item Datum)} {Ev : Nat → Item Datum → Prop}
    {y : State} {G : Ghost} (I : VInv x cap capI M root key S Ev y G) (h1 : y.vac = none) (h2 : ∀ i, root ∉ pins root (y.sys.th i)) :
    (∀ i, Calm root (y.sys.th i)) ∧
    Good True key false (fun D => D.length * 24 ≤ capI) (fun _ => True) (FitsPage x M cap) y.sys.store root G := by
  have SI := I.quiet h1
  have W := SI.good.weak
  have hcalm : ∀ i, Calm root (y.sys.th i) := by
    intro i
    have hp := h2 i
    have ho := SI.ok i
    have hl := SI.notlost trivial i
    generalize y.sys.th i = th at hp ho hl
    refine ⟨hl, ?_, ?_⟩
    · cases th <;> first | rfl | exact absurd (by simp [pins]) hp
    · rintro b p up rfl
      cases up with
      | cons q up => exact absurd (by simp [pins]) hp
      | nil =>
        cases b with
        | nil => exact ho.elim
        | cons a b =>
          rcases ho with ⟨rfl, -⟩ | ⟨k, A, B, hk', -, -, hup⟩
          · exact ⟨by simp, rfl, rfl⟩
          · change k = G.h at hup
            omega
  have hC : Complete G := by
    refine complete_of W (fun c d hcd => ?_)
    obtain ⟨i, w, hw, -⟩ := SI.adj trivial c d hcd
    rw [(hcalm i).2.1] at hw
    cases hw
  exact ⟨hcalm, W, fun _ => hC, SI.good.sized, SI.good.fit⟩

/-- A step while VACUUM is under way changes nothing but the backend. -/
theorem VInv.quiet_act [TransCmp x.cmpV] (hk : KeyOf x.cmp key) {S : Nat → List (Item Datum)} {Ev : Nat → Item Datum → Prop}
    {y : State} {G : Ghost} (I : VInv x cap capI M root key S Ev y G) {i : Nat} {dead : Iptr → Bool} {us : List (Store (Item Datum))}
    (hvac : y.vac = some (dead, us)) (hnr : visit root (y.sys.th i) ≠ some root) :
    (act (dataOps x cap capI false) (seekData x) root y.sys.store (y.sys.th i)).1 = y.sys.store ∧
    Calm root (act (dataOps x cap capI false) (seekData x) root y.sys.store (y.sys.th i)).2 ∧
    todo (act (dataOps x cap capI false) (seekData x) root y.sys.store (y.sys.th i)).2 = [] ∧
    todo (y.sys.th i) = [] ∧
    ReadV key (dataOps x cap capI false) (FitsPage x M cap) (Ev (i + 1)) root y.sys.store G (S (i + 1))
      (act (dataOps x cap capI false) (seekData x) root y.sys.store (y.sys.th i)).2 := by
  obtain ⟨b1, b2, b3, b4⟩ := I.busy dead us hvac
  cases hrd : reads (y.sys.th i) with
  | true =>
    obtain ⟨r1, r2, r3⟩ := ReadV.act (o := dataOps x cap capI false) hk seek_law I.browse I.fit (I.sub (i + 1)) (I.ev (i + 1)) hrd (I.rd i)
    exact ⟨r1, (reads_calm r2).1, (reads_calm (root := root) r2).2, (reads_calm (root := root) hrd).2, r3⟩
  | false =>
    have hcalm := b2 i
    generalize y.sys.th i = th at hrd hcalm hnr
    cases th with
    | idle => exact ⟨rfl, hcalm, rfl, rfl, trivial⟩
    | inserted => exact ⟨rfl, hcalm, rfl, rfl, trivial⟩
    | lost => exact absurd rfl hcalm.1
    | ins b p up =>
      obtain ⟨-, rfl, -⟩ := hcalm.2.2 b p up rfl
      exact absurd rfl hnr
    | walk _ _ _ _ => simp [Calm, pending] at hcalm
    | top _ => simp [Calm, pending] at hcalm
    | level _ _ _ => simp [Calm, pending] at hcalm
    | _ => simp [reads] at hrd

/-- Every event keeps the invariant. -/
theorem VInv.fires [TransCmp x.cmpV] (hz : Sizes x cap capI M) (hk : KeyOf x.cmp key) {S : Nat → List (Item Datum)} {Ev : Nat → Item Datum → Prop}
    {y z : State} {G : Ghost} (I : VInv x cap capI M root key S Ev y G) {e : Event} (h : Fires x cap capI M root e y z)
    (hd : ∀ dead, e = .vacuum dead → ∀ i, ∀ a ∈ S i, dead a.iptr = false) (he : ∀ i b, e = .start i (.insert b) → ∀ j, ∀ a ∈ b, Ev j a) :
    ∃ G', VInv x cap capI M root key S Ev z G' := by
  cases e with
  | act i =>
    obtain ⟨ha, hv, hroot⟩ := h
    obtain ⟨zs, zv⟩ := z
    simp only at ha hv
    subst hv
    cases hvac : y.vac with
    | none =>
      have SI := I.quiet hvac
      obtain ⟨G', bad, new, St, SI', ho⟩ := SysInv.acts (o := dataOps x cap capI false) hk (locateData_ok hk rfl)
        (dataInnerLaws x cap capI false hz.inner) (oneLaws hz) (Or.inr (fun l h => h.2)) SI ha
      have W := SI.good.weak
      have W' := SI'.good.weak
      refine ⟨G', (Good.browse SI'.good).1, (Good.browse SI'.good).2, fun j => ?_, fun j a ha => St.keep a (I.sub j a ha), fun j a ha => ?_, fun k j a hma => ?_,
        fun _ => SI', fun dead us hv => by simp at hv⟩
      · by_cases hj : j = i
        · subst hj
          have e1 : zs.th j = (act (dataOps x cap capI false) (seekData x) root y.sys.store (y.sys.th j)).2 := by rw [ha.2, put_same]
          have e2 : zs.store = (act (dataOps x cap capI false) (seekData x) root y.sys.store (y.sys.th j)).1 := by rw [ha.2]; rfl
          cases hrd : reads (y.sys.th j) with
          | false =>
            refine ReadV.of_not ?_
            show reads (zs.th j) = false
            rw [e1]; exact act_reads hrd
          | true =>
            obtain ⟨r1, -, r3⟩ := ReadV.act (o := dataOps x cap capI false) hk seek_law I.browse I.fit (I.sub (j + 1)) (I.ev (j + 1)) hrd (I.rd j)
            show ReadV _ _ _ _ _ zs.store _ _ (zs.th j)
            rw [e1]
            have hM := St.moved
            rw [e2, r1] at hM ⊢
            exact ReadV.moved (o := dataOps x cap capI false) W (by rw [e2, r1] at W'; exact W') hM r3
        · show ReadV _ _ _ _ _ zs.store _ _ (zs.th j)
          rw [ho j hj]
          exact ReadV.moved (o := dataOps x cap capI false) W W' St.moved (I.rd j)
      · rcases St.just a ha with h | h
        · exact I.ev j a h
        · exact I.evt j i a h
      · by_cases hj : j = i
        · subst hj
          obtain ⟨n, hn⟩ := St.rest
          change a ∈ todo (zs.th j) at hma
          rw [hn] at hma
          exact I.evt k j a (List.mem_of_mem_drop hma)
        · change a ∈ todo (zs.th j) at hma
          rw [ho j hj] at hma
          exact I.evt k j a hma
    | some v =>
      obtain ⟨dead, us⟩ := v
      obtain ⟨b1, b2, b3, b4⟩ := I.busy dead us hvac
      have hnr := hroot (by rw [hvac]; simp)
      obtain ⟨s1, s2, s3, -, s4⟩ := I.quiet_act hk hvac hnr
      have hz' : zs = y.sys.put i (act (dataOps x cap capI false) (seekData x) root y.sys.store (y.sys.th i)).2 := by
        rw [ha.2, s1]
      have := I.put (i := i) ⟨s2, by rw [s3]; simp [One, BatchIn]⟩ (by rw [holds_eq, (b2 i).2.1]; rfl) s4 (by rw [s3]; simp)
      rw [← hz', hvac] at this
      exact ⟨G, this⟩
  | start i op =>
    obtain ⟨h1, h2, rfl⟩ := h
    have hc := start_calm (root := root) h2
    refine ⟨G, I.put hc (free_holds h1) ?_ ?_⟩
    · cases op with
      | insert b =>
        obtain ⟨a, rfl, ha⟩ := h2
        trivial
      | scan => exact Or.inl rfl
      | cursor => exact Or.inl rfl
    · intro j a ha
      cases op with
      | insert b =>
        obtain ⟨c, rfl, hc⟩ := h2
        exact he i [c] rfl j a ha
      | scan => simp [Op.start, todo] at ha
      | cursor => simp [Op.start, todo] at ha
  | stop i =>
    obtain ⟨h1, rfl⟩ := h
    exact ⟨G, I.put idle_calm h1 trivial (by simp [todo])⟩
  | vacuum dead =>
    obtain ⟨h1, h2, rfl⟩ := h
    have SI := I.quiet h1
    obtain ⟨hcalm, hC⟩ := I.rooted h1 h2
    obtain ⟨G', g1, g2⟩ := VacuumTree.vacuum_chain (x := x) (cap := cap) (capI := capI) (M := M) hk hC dead
    refine ⟨G, I.browse, I.fit, I.rd, I.sub, I.ev, I.evt, fun hv => by simp at hv, fun dead' us hv => ?_⟩
    simp only [Option.some.injEq, Prod.mk.injEq] at hv
    obtain ⟨rfl, rfl⟩ := hv
    exact ⟨hd dead rfl, hcalm, fun i => (SI.batch i).2, G', g2, g1⟩
  | record =>
    obtain ⟨dead, u, us, h1, h2, rfl⟩ := h
    obtain ⟨b1, b2, b3, G', b4, b5⟩ := I.busy dead _ h1
    cases b4 with
    | @cons _ _ _ Gu _ _ V B Ch =>
      have T := I.browse.thin
      rw [lastStore_cons] at b5
      have hsub : ∀ a ∈ contents u root, a ∈ contents y.sys.store root := by
        intro a ha
        obtain ⟨c, hc, ha⟩ := B.mem.1 ha
        refine I.browse.mem.2 ⟨c, V.sub.subset hc, ?_⟩
        rcases V.items c hc with h | h
        · rw [← h]; exact ha
        · rw [h] at ha; exact (List.mem_filter.1 ha).1
      refine ⟨Gu, B, ?_, fun i => ReadV.vac (o := dataOps x cap capI false) T V (h2 i) (I.rd i), ?_, fun i a ha => I.ev i a (hsub a ha), I.evt,
        fun hv => by simp at hv, fun dead' us' hv => ?_⟩
      · intro c hc
        have hcG := V.sub.subset hc
        rcases V.items c hc with h | h
        · show FitsPage x M cap (u.page c).items
          rw [h]; exact I.fit c hcG
        · show FitsPage x M cap (u.page c).items
          rw [h]
          exact VacuumTree.fits_filter dead (I.fit c hcG) ((ssorted_key (o := dataOps x cap capI false) hk).2 (T.order.sorted c hcG))
      · intro i a ha
        obtain ⟨c, hc, hac⟩ := I.browse.mem.1 (I.sub i a ha)
        obtain ⟨h3, h4⟩ := V.live c hc a hac (by simp [b1 i a ha])
        exact B.mem.2 ⟨c, h3, h4⟩
      · simp only [Option.some.injEq, Prod.mk.injEq] at hv
        obtain ⟨rfl, rfl⟩ := hv
        exact ⟨b1, b2, b3, G', Ch, b5⟩
  | release =>
    obtain ⟨dead, h1, rfl⟩ := h
    obtain ⟨b1, b2, b3, G', b4, b5⟩ := I.busy dead _ h1
    cases b4
    refine ⟨G, I.browse, I.fit, I.rd, I.sub, I.ev, I.evt, fun _ => sinv_calm b5 b2 b3, fun _ _ hv => by simp at hv⟩

theorem VInv.run [TransCmp x.cmpV] (hz : Sizes x cap capI M) (hk : KeyOf x.cmp key) {S : Nat → List (Item Datum)} {Ev : Nat → Item Datum → Prop}
    {y z : State} {es : List Event} (h : Run x cap capI M root y es z) : ∀ {G : Ghost}, VInv x cap capI M root key S Ev y G →
    (∀ dead, Event.vacuum dead ∈ es → ∀ i, ∀ a ∈ S i, dead a.iptr = false) → (∀ i b, Event.start i (.insert b) ∈ es → ∀ j, ∀ a ∈ b, Ev j a) →
    ∃ G', VInv x cap capI M root key S Ev z G' := by
  induction h with
  | refl => intro G I _ _; exact ⟨G, I⟩
  | snoc _ h2 ih =>
    intro G I hd he
    obtain ⟨G1, I1⟩ := ih I (fun dead h => hd dead (by simp [h])) (fun i b h => he i b (by simp [h]))
    exact I1.fires hz hk h2 (fun dead h => hd dead (by simp [h])) (fun i b h => he i b (by simp [h]))

/-- Nothing is required of the scans that are under way. -/
theorem VInv.weaken {S : Nat → List (Item Datum)} {Ev : Nat → Item Datum → Prop} {y : State} {G : Ghost} (I : VInv x cap capI M root key S Ev y G)
    {S' : Nat → List (Item Datum)} {Ev' : Nat → Item Datum → Prop} (hs : ∀ i, ∀ a ∈ S' i, a ∈ contents y.sys.store root)
    (hc : ∀ i, ∀ a ∈ contents y.sys.store root, Ev' i a) (ht : ∀ i j, ∀ a ∈ todo (y.sys.th j), Ev' i a)
    (hl : ∀ dead us, y.vac = some (dead, us) → ∀ i, ∀ a ∈ S' i, dead a.iptr = false)
    (hr : ∀ i, ReadV key (dataOps x cap capI false) (FitsPage x M cap) (Ev' (i + 1)) root y.sys.store G (S' (i + 1)) (y.sys.th i)) :
    VInv x cap capI M root key S' Ev' y G :=
  ⟨I.browse, I.fit, hr, hs, hc, ht, I.quiet, fun dead us hv => ⟨hl dead us hv, (I.busy dead us hv).2⟩⟩

theorem readV_mono {Ev Ev' : Item Datum → Prop} (hE : ∀ a, Ev a → Ev' a) {s : Store (Item Datum)} {G : Ghost} {o : Ops (Item Datum)}
    {POK : List (Item Datum) → Prop} {S : List (Item Datum)} {th : Thread (Item Datum)}
    (h : ReadV key o POK Ev root s G S th) : ReadV key o POK Ev' root s G S th := by
  cases th with
  | scan b acc => obtain ⟨A, B, h1, h2, h3, h4⟩ := h; exact ⟨A, B, h1, h2, h3, fun a ha => hE a (h4 a ha)⟩
  | scanned acc => exact ⟨h.1, fun a ha => hE a (h.2 a ha)⟩
  | cursor b L cur acc => obtain ⟨h1, h2, h3, h4, h5⟩ := h; exact ⟨h1, h2, fun a ha => hE a (h3 a ha), fun a ha => ⟨hE a (h4 a ha).1, (h4 a ha).2⟩, h5⟩
  | next b cur acc => obtain ⟨h1, h2, h3, h4⟩ := h; exact ⟨h1, h2, fun a ha => hE a (h3 a ha), h4⟩
  | ended acc => exact ⟨h.1, fun a ha => hE a (h.2 a ha)⟩
  | down b => exact h
  | opening b => exact h
  | _ => trivial

open Classical in
/-- A scan starts. -/
theorem scan_start [TransCmp x.cmpV] (hz : Sizes x cap capI M) (hk : KeyOf x.cmp key) {y z : State} {G : Ghost}
    (I : VInv x cap capI M root key (fun _ => []) (fun _ _ => True) y G) {j : Nat} {op : Op (Item Datum)} (hf : (y.sys.th j).free = true) (ho : OpOK x M op)
    (ht : todo (op.start root) = [])
    (hr : ∀ Ev S, ReadV key (dataOps x cap capI false) (FitsPage x M cap) Ev root y.sys.store G S (op.start root)) {es : List Event}
    (h : Run x cap capI M root ⟨y.sys.put j (op.start root), y.vac⟩ es z) :
    ∃ G', VInv x cap capI M root key (fun i => if i = j + 1 then (contents y.sys.store root).filter (fun a => decide (Lives y es a)) else [])
      (fun i a => i = j + 1 → a ∈ contents y.sys.store root ∨ Requested y es a) z G' := by
  have I0 := I.put (i := j) (start_calm ho) (free_holds hf) (hr _ _) (fun _ _ _ => trivial)
  refine VInv.run hz hk h (I0.weaken ?_ (fun _ a ha _ => Or.inl ha) ?_ ?_ ?_) ?_ (fun i b hb _ a ha _ => Or.inr (Or.inr ⟨i, b, hb, ha⟩))
  · intro i a ha
    split at ha
    · exact (List.mem_filter.1 ha).1
    · simp at ha
  · intro i k a ha _
    change a ∈ todo ((y.sys.put j (op.start root)).th k) at ha
    by_cases hkj : k = j
    · subst hkj; rw [put_same, ht] at ha; simp at ha
    · rw [put_other _ hkj] at ha; exact Or.inr (Or.inl ⟨k, ha⟩)
  · intro dead us hv i a ha
    split at ha
    · have := (List.mem_filter.1 ha).2
      simp only [decide_eq_true_eq] at this
      exact this.1 dead us hv
    · simp at ha
  · intro i
    by_cases hi : i = j
    · subst hi
      show ReadV _ _ _ _ _ _ _ _ ((y.sys.put i (op.start root)).th i)
      rw [put_same]; exact hr _ _
    · have hne : ¬ i + 1 = j + 1 := by omega
      simp only [if_neg hne]
      exact readV_mono (fun a _ h => absurd h hne) (I0.rd i)
  · intro dead hd i a ha
    split at ha
    · have := (List.mem_filter.1 ha).2
      simp only [decide_eq_true_eq] at this
      exact this.2 dead hd
    · simp at ha

/-- Between two records nothing else is written. -/
theorem VInv.records [TransCmp x.cmpV] (hz : Sizes x cap capI M) (hk : KeyOf x.cmp key) {y z : State} {es : List Event} (h : Run x cap capI M root y es z) :
    ∀ {G : Ghost}, VInv x cap capI M root key (fun _ => []) (fun _ _ => True) y G → Event.release ∉ es →
    ∀ dead us0, y.vac = some (dead, us0) → ∃ us, z.vac = some (dead, us) ∧ lastStore z.sys.store us = lastStore y.sys.store us0 := by
  induction h with
  | refl => intro G I _ dead us0 hv; exact ⟨us0, hv, rfl⟩
  | @snoc z w es e h1 h2 ih =>
    intro G I hn dead us0 hv
    obtain ⟨us, e1, e2⟩ := ih I (fun h => hn (by simp [h])) dead us0 hv
    obtain ⟨G1, I1⟩ := I.run hz hk h1 (by simp) (fun _ _ _ _ _ _ => trivial)
    cases e with
    | act i =>
      obtain ⟨ha, hv', hroot⟩ := h2
      obtain ⟨s1, -⟩ := I1.quiet_act (i := i) hk e1 (hroot (by rw [e1]; simp))
      have hst : w.sys.store = z.sys.store := by rw [ha.2]; exact s1
      exact ⟨us, by rw [hv']; exact e1, by rw [hst]; exact e2⟩
    | start i op => obtain ⟨-, -, rfl⟩ := h2; exact ⟨us, e1, e2⟩
    | stop i => obtain ⟨-, rfl⟩ := h2; exact ⟨us, e1, e2⟩
    | vacuum dead' => exact absurd h2.1 (by rw [e1]; simp)
    | record =>
      obtain ⟨dead', u, us', e3, -, rfl⟩ := h2
      rw [e1] at e3
      simp only [Option.some.injEq, Prod.mk.injEq] at e3
      obtain ⟨rfl, rfl⟩ := e3
      exact ⟨us', rfl, by rw [← e2, lastStore_cons]⟩
    | release => exact absurd (by simp) hn

end

/-- A run from a tree with a history. -/
theorem history_run [TransCmp x.cmpV] (hz : Sizes x cap capI M) (H : VacuumTree.History x cap capI M) {es : List Event} {y : State}
    (h : Run x cap capI M H.root (atRest H.final.1) es y) :
    ∃ (K : Type) (_ : LinearOrder K) (key : Item Datum → K) (G : Ghost), KeyOf x.cmp key ∧
      VInv x cap capI M H.root key (fun _ => []) (fun _ _ => True) y G := by
  obtain ⟨-, -, ⟨K, hK, key, G, hk, hG⟩, -⟩ := H.inv hz
  have hc : ∀ i, Calm H.root ((Conc.atRest H.final.1).th i) := fun i => (idle_calm (x := x) (M := M)).1
  have ho : ∀ i, One x M (todo ((Conc.atRest H.final.1).th i)) := fun i => (idle_calm (root := 0)).2
  have I0 : VInv x cap capI M H.root key (fun _ => []) (fun _ _ => True) (atRest H.final.1) G :=
    ⟨(Good.browse hG).1, (Good.browse hG).2, fun _ => trivial, by simp, fun _ _ _ => trivial, fun _ _ _ _ => trivial, fun _ => sinv_calm hG hc ho,
      fun _ _ h => by simp [atRest] at h⟩
  obtain ⟨G', I'⟩ := VInv.run hz hk h I0 (by simp) (fun _ _ _ _ _ _ => trivial)
  exact ⟨K, hK, key, G', hk, I'⟩


/-- What is live stays live. -/
theorem Lives.run {y z : State} {es : List Event} {a : Item Datum} (h : Run x cap capI M root y es z) : Lives y es a →
    ∀ dead us, z.vac = some (dead, us) → dead a.iptr = false := by
  induction h with
  | refl => exact fun h => h.1
  | @snoc z w es e h1 h2 ih =>
    intro hL dead us hv
    have ih := ih ⟨hL.1, fun dead h => hL.2 dead (by simp [h])⟩
    cases e with
    | act i => rw [h2.2.1] at hv; exact ih dead us hv
    | start i op => rw [h2.2.2] at hv; exact ih dead us hv
    | stop i => rw [h2.2] at hv; exact ih dead us hv
    | vacuum dead' =>
      rw [h2.2.2] at hv
      simp only [Option.some.injEq, Prod.mk.injEq] at hv
      rw [← hv.1]
      exact hL.2 dead' (by simp)
    | record =>
      obtain ⟨dead', u, us', e1, -, rfl⟩ := h2
      simp only [Option.some.injEq, Prod.mk.injEq] at hv
      rw [← hv.1]
      exact ih dead' _ e1
    | release =>
      obtain ⟨dead', e1, rfl⟩ := h2
      cases hv

section
variable {K : Type} [LinearOrder K] {key : Item Datum → K}

/-- One event: live items stay, and what is to be inserted is inserted or still to be inserted. -/
theorem VInv.keeps [TransCmp x.cmpV] (hz : Sizes x cap capI M) (hk : KeyOf x.cmp key) {S : Nat → List (Item Datum)} {Ev : Nat → Item Datum → Prop}
    {y z : State} {G : Ghost} (I : VInv x cap capI M root key S Ev y G) {e : Event} (h : Fires x cap capI M root e y z) :
    (∀ a ∈ contents y.sys.store root, (∀ dead us, y.vac = some (dead, us) → dead a.iptr = false) → a ∈ contents z.sys.store root) ∧
    ∀ i, e.leaves i = true → ∀ a ∈ todo (y.sys.th i), a ∈ todo (z.sys.th i) ∨ ∃ w ∈ contents z.sys.store root, x.cmp w a = .eq := by
  cases e with
  | act i =>
    obtain ⟨ha, hv, hroot⟩ := h
    cases hvac : y.vac with
    | none =>
      obtain ⟨G', bad, new, St, SI', ho⟩ := SysInv.acts (o := dataOps x cap capI false) hk (locateData_ok hk rfl)
        (dataInnerLaws x cap capI false hz.inner) (oneLaws hz) (Or.inr (fun l h => h.2)) (I.quiet hvac) ha
      refine ⟨fun a ha _ => St.keep a ha, fun j _ a ha' => ?_⟩
      by_cases hj : j = i
      · subst hj
        exact St.made (SI'.notlost trivial j) a ha'
      · rw [ho j hj]; exact Or.inl ha'
    | some v =>
      obtain ⟨s1, s2, s3, s4, -⟩ := I.quiet_act (i := i) hk hvac (hroot (by rw [hvac]; simp))
      have hst : z.sys.store = y.sys.store := by rw [ha.2]; exact s1
      refine ⟨fun a ha _ => by rw [hst]; exact ha, fun j _ a ha' => ?_⟩
      by_cases hj : j = i
      · subst hj; rw [s4] at ha'; simp at ha'
      · rw [ha.2, put_other _ hj]; exact Or.inl ha'
  | start i op =>
    obtain ⟨h1, h2, rfl⟩ := h
    refine ⟨fun a ha _ => ha, fun j hj a ha => Or.inl ?_⟩
    have hj : j ≠ i := by rintro rfl; simp [Event.leaves] at hj
    show a ∈ todo ((y.sys.put i (op.start root)).th j)
    rw [put_other _ hj]; exact ha
  | stop i =>
    obtain ⟨h1, rfl⟩ := h
    refine ⟨fun a ha _ => ha, fun j hj a ha => Or.inl ?_⟩
    have hj : j ≠ i := by rintro rfl; simp [Event.leaves] at hj
    show a ∈ todo ((y.sys.put i .idle).th j)
    rw [put_other _ hj]; exact ha
  | vacuum dead =>
    obtain ⟨-, -, rfl⟩ := h
    exact ⟨fun a ha _ => ha, fun j _ a ha => Or.inl ha⟩
  | record =>
    obtain ⟨dead, u, us, h1, h2, rfl⟩ := h
    obtain ⟨b1, b2, b3, G', b4, b5⟩ := I.busy dead _ h1
    refine ⟨fun a ha hl => ?_, fun j _ a ha => Or.inl ha⟩
    cases b4 with
    | @cons _ _ _ Gu _ _ V B Ch =>
      obtain ⟨c, hc, hac⟩ := I.browse.mem.1 ha
      obtain ⟨h3, h4⟩ := V.live c hc a hac (by simp [hl dead _ h1])
      exact B.mem.2 ⟨c, h3, h4⟩
  | release =>
    obtain ⟨dead, -, rfl⟩ := h
    exact ⟨fun a ha _ => ha, fun j _ a ha => Or.inl ha⟩

/-- A run: live items stay, and a live item to be inserted by `j` is inserted or still to be inserted. -/
theorem VInv.keeps_run [TransCmp x.cmpV] (hz : Sizes x cap capI M) (hk : KeyOf x.cmp key) {Ev : Nat → Item Datum → Prop}
    {y z : State} {es : List Event} (hE : ∀ i a, Ev i a) (h : Run x cap capI M root y es z) : ∀ {G : Ghost}, VInv x cap capI M root key (fun _ => []) Ev y G →
    (∀ a ∈ contents y.sys.store root, Lives y es a → a ∈ contents z.sys.store root) ∧
    ∀ j, (∀ e ∈ es, e.leaves j = true) → ∀ a ∈ todo (y.sys.th j), Lives y es a →
      a ∈ todo (z.sys.th j) ∨ ∃ w ∈ contents z.sys.store root, x.cmp w a = .eq := by
  induction h with
  | refl => intro G I; exact ⟨fun a ha _ => ha, fun j _ a ha _ => Or.inl ha⟩
  | @snoc z w es e h1 h2 ih =>
    intro G I
    obtain ⟨k1, k2⟩ := ih I
    obtain ⟨G1, I1⟩ := I.run hz hk h1 (by simp) (fun _ _ _ _ _ _ => hE _ _)
    obtain ⟨k3, k4⟩ := I1.keeps hz hk h2
    have hL : ∀ a, Lives y (es ++ [e]) a → Lives y es a := fun a h => ⟨h.1, fun dead h' => h.2 dead (by simp [h'])⟩
    refine ⟨fun a ha hl => k3 a (k1 a ha (hL a hl)) ((hL a hl).run h1), fun j hj a ha hl => ?_⟩
    rcases k2 j (fun e he => hj e (by simp [he])) a ha (hL a hl) with h | ⟨c, hc, he⟩
    · exact k4 j (hj e (by simp)) a h
    · refine Or.inr ⟨c, k3 c hc (fun dead us hv => ?_), he⟩
      rw [((C03_item_order_eq _ _ c a).1 he).1]
      exact (hL a hl).run h1 dead us hv

/-- The pages visited. -/
theorem VInv.alive {S : Nat → List (Item Datum)} {Ev : Nat → Item Datum → Prop} {y : State} {G : Ghost} (I : VInv x cap capI M root key S Ev y G)
    {i b : Nat} (hv : visit root (y.sys.th i) = some b) :
    (y.sys.store.page b).deleted = false ∧ (stepTo (y.sys.th i) = some b → (y.sys.store.page b).leaf = true) := by
  cases hrd : reads (y.sys.th i) with
  | true => exact ReadV.alive (o := dataOps x cap capI false) I.browse hrd (I.rd i) hv
  | false =>
    have T := I.browse.thin
    have hroot := (T.alloc G.h (Nat.le_refl _) root (by rw [T.root]; simp)).2
    refine ⟨?_, fun h => by cases hth : y.sys.th i <;> rw [hth] at h hrd <;> simp [stepTo, reads] at h hrd⟩
    cases hvac : y.vac with
    | none =>
      have ho := (I.quiet hvac).ok i
      generalize y.sys.th i = th at hv ho hrd
      cases th with
      | ins bt p up =>
        simp only [visit, Option.some.injEq] at hv
        subst hv
        cases bt with
        | nil => exact ho.elim
        | cons a bt =>
          rcases ho with ⟨rfl, -⟩ | ⟨k, A, B, hk, e, -⟩
          · exact hroot
          · exact (T.alloc k (by omega) p (by rw [e]; simp)).2
      | walk w p off up =>
        simp only [visit, Option.some.injEq] at hv
        subst hv
        obtain ⟨k, hl, hp⟩ := ho
        rcases hp.2 with ⟨h, -⟩ | ⟨rfl, -⟩
        · exact (T.alloc (k + 1) (by have := hl.lt; omega) p h).2
        · exact hroot
      | top w =>
        simp only [visit, Option.some.injEq] at hv
        subst hv
        exact hroot
      | level w p lm =>
        simp only [visit, Option.some.injEq] at hv
        subst hv
        obtain ⟨k, j, -, hj, hp, -⟩ := ho
        exact (T.alloc j (by omega) p hp).2
      | _ => simp [visit, reads] at hv hrd
    | some v =>
      have hc := (I.busy v.1 v.2 hvac).2.1 i
      generalize y.sys.th i = th at hv hc hrd
      cases th with
      | ins bt p up =>
        simp only [visit, Option.some.injEq] at hv
        subst hv
        obtain ⟨-, rfl, -⟩ := hc.2.2 bt p up rfl
        exact hroot
      | walk _ _ _ _ => simp [Calm, pending] at hc
      | top _ => simp [Calm, pending] at hc
      | level _ _ _ => simp [Calm, pending] at hc
      | _ => simp [visit, reads] at hv hrd
end

/-! ### Properties -/

/-- **C61 (scans that read a whole posting tree page by page).** A posting tree with any history of insertions and VACUUMs, then any concurrent
insertions, scans and VACUUMs (`es1`); backend `j` starts a scan; any concurrent insertions, scans and VACUUMs come between its page visits
(`es2`). When it is done it has seen every item that was in the tree when it started, unless a VACUUM that was running or began meanwhile was told
that the row is dead; and it has seen only items that were in the tree or that somebody was inserting meanwhile. -/
theorem C61_scan_complete (x : Ctx) [TransCmp x.cmpV] (cap capI : Nat) (M : Lim) (hz : Sizes x cap capI M) (H : VacuumTree.History x cap capI M)
    (es1 es2 : List Event) (y z : State) (j : Nat) (h1 : Run x cap capI M H.root (atRest H.final.1) es1 y) (hf : (y.sys.th j).free = true)
    (h2 : Run x cap capI M H.root ⟨y.sys.put j (Op.scan.start H.root), y.vac⟩ es2 z) (acc : List (Item Datum)) (hd : z.sys.th j = .scanned acc) :
    (∀ a ∈ contents y.sys.store H.root, Lives y es2 a → a ∈ acc) ∧
    ∀ a ∈ acc, a ∈ contents y.sys.store H.root ∨ Requested y es2 a := by
  classical
  obtain ⟨K, hK, key, G, hk, I⟩ := history_run hz H h1
  obtain ⟨G1, I1⟩ := scan_start hz hk I (op := .scan) hf trivial rfl (fun _ _ => Or.inl rfl) h2
  have hR := I1.rd j
  rw [hd] at hR
  simp only [if_true] at hR
  exact ⟨fun a ha hl => hR.1 a (List.mem_filter.2 ⟨ha, by simpa using hl⟩), fun a ha => hR.2 a ha trivial⟩

/-- **C62 (cursors), partial.** The same for a scan item by item (entryGetNextItem) that has come to its end with at least one item: the items it
delivered, as far as they are new to its consumer, are in order and contain every item that was in the tree when it started, unless a VACUUM was
told meanwhile that the row is dead; and it delivered only items that were in the tree or that somebody was inserting meanwhile. Missing: a
cursor that ends without any item may have missed live ones (it finds the first page emptied by VACUUM: `C62_violated`), and a
cursor may never end (`C40_cursor_never_ends`). -/
theorem C62_cursor_complete_partial (x : Ctx) [TransCmp x.cmpV] (cap capI : Nat) (M : Lim) (hz : Sizes x cap capI M) (H : VacuumTree.History x cap capI M)
    (es1 es2 : List Event) (y z : State) (j : Nat) (h1 : Run x cap capI M H.root (atRest H.final.1) es1 y) (hf : (y.sys.th j).free = true)
    (h2 : Run x cap capI M H.root ⟨y.sys.put j (Op.cursor.start H.root), y.vac⟩ es2 z) (acc : List (Item Datum)) (hd : z.sys.th j = .ended acc) :
    SSorted x.cmp (fresh x.cmp acc) ∧
    (acc ≠ [] → ∀ a ∈ contents y.sys.store H.root, Lives y es2 a → a ∈ fresh x.cmp acc) ∧
    ∀ a ∈ fresh x.cmp acc, a ∈ contents y.sys.store H.root ∨ Requested y es2 a := by
  classical
  have htr : TransCmp x.cmp := cmpItem_trans _ _
  obtain ⟨K, hK, key, G, hk, I⟩ := history_run hz H h1
  obtain ⟨G1, I1⟩ := scan_start hz hk I (op := .cursor) hf trivial rfl (fun _ _ => Or.inl rfl) h2
  have hR := I1.rd j
  rw [hd] at hR
  simp only [if_true] at hR
  refine ⟨fresh_sorted _ _, fun hne a ha hl => ?_, fun a ha => hR.2 a (fresh_sub _ _ a ha) trivial⟩
  rcases hR.1 with h | h
  · exact absurd h hne
  · exact fresh_of_delivered (h a (List.mem_filter.2 ⟨ha, by simpa using hl⟩))

/-- **C61 (the tree).** At every moment of such a run: no insertion has failed; the page a backend visits next is not a deleted one, and is a leaf
if the backend comes to it by a right link ("right sibling was deleted", "of different type" are never raised); and when no VACUUM is under
way on the tree, it is in order and searches find exactly what it contains. From `y` to any later `z`: an item stays unless a VACUUM is told that
the row is dead, and only items that somebody was inserting are added. -/
theorem C61_tree (x : Ctx) [TransCmp x.cmpV] (cap capI : Nat) (M : Lim) (hz : Sizes x cap capI M) (H : VacuumTree.History x cap capI M)
    (es1 es2 : List Event) (y z : State) (h1 : Run x cap capI M H.root (atRest H.final.1) es1 y) (h2 : Run x cap capI M H.root y es2 z) :
    (∀ i, y.sys.th i ≠ .lost) ∧
    (∀ i b, visit H.root (y.sys.th i) = some b →
      (y.sys.store.page b).deleted = false ∧ (stepTo (y.sys.th i) = some b → (y.sys.store.page b).leaf = true)) ∧
    (y.vac = none → SSorted x.cmp (contents y.sys.store H.root) ∧
      ∀ a, 1 ≤ a.iptr.off → (lookup (dataOps x cap capI false) y.sys.store H.root a = true ↔ ∃ i ∈ contents y.sys.store H.root, x.cmp i a = .eq)) ∧
    (∀ a ∈ contents y.sys.store H.root, Lives y es2 a → a ∈ contents z.sys.store H.root) ∧
    ∀ a ∈ contents z.sys.store H.root, a ∈ contents y.sys.store H.root ∨ Requested y es2 a := by
  obtain ⟨K, hK, key, G, hk, I⟩ := history_run hz H h1
  refine ⟨fun i => ?_, fun i b => I.alive, fun hv => ?_, (I.keeps_run hz hk (fun _ _ => trivial) h2).1, ?_⟩
  · cases hvac : y.vac with
    | none => exact (I.quiet hvac).notlost trivial i
    | some v => exact ((I.busy v.1 v.2 hvac).2.1 i).1
  · have hI : VacuumTree.InvV False x cap capI M y.sys.store H.root := ⟨K, hK, key, G, hk, (I.quiet hv).good⟩
    exact ⟨hI.sorted, fun a ha => hI.lookup false ha⟩
  · obtain ⟨G1, I1⟩ := VInv.run (S := fun _ => []) (Ev := fun i a => i = 0 → a ∈ contents y.sys.store H.root ∨ Requested y es2 a) hz hk h2
      (I.weaken (by simp) (fun _ a ha _ => Or.inl ha) (fun _ i a ha _ => Or.inr (Or.inl ⟨i, ha⟩)) (by simp)
        (fun i => readV_mono (fun a _ h => absurd h (by omega)) (I.rd i))) (by simp) (fun i b hb _ a ha _ => Or.inr (Or.inr ⟨i, b, hb, ha⟩))
    exact fun a ha => I1.ev 0 a ha rfl

/-- **C61 (insertions).** When an insertion of backend `j` has ended with success, the item is found, unless a VACUUM under way or begun meanwhile was
told that the row is dead. -/
theorem C61_insertion_found (x : Ctx) [TransCmp x.cmpV] (cap capI : Nat) (M : Lim) (hz : Sizes x cap capI M) (H : VacuumTree.History x cap capI M)
    (es1 es2 : List Event) (y z : State) (j : Nat) (a : Item Datum) (ha : Storable x M a) (h1 : Run x cap capI M H.root (atRest H.final.1) es1 y)
    (hf : (y.sys.th j).free = true) (h2 : Run x cap capI M H.root ⟨y.sys.put j ((Op.insert [a]).start H.root), y.vac⟩ es2 z)
    (hl : ∀ e ∈ es2, e.leaves j = true) (hd : z.sys.th j = .inserted) (hL : Lives y es2 a) :
    (∃ i ∈ contents z.sys.store H.root, x.cmp i a = .eq) ∧
    (z.vac = none → lookup (dataOps x cap capI false) z.sys.store H.root a = true) := by
  obtain ⟨K, hK, key, G, hk, I⟩ := history_run hz H h1
  have I0 := I.put (i := j) (start_calm (op := .insert [a]) ⟨a, rfl, ha⟩) (free_holds hf) trivial (fun _ _ _ => trivial)
  have hmem : ∃ i ∈ contents z.sys.store H.root, x.cmp i a = .eq := by
    rcases (I0.keeps_run hz hk (fun _ _ => trivial) h2).2 j hl a (by
      show a ∈ todo ((y.sys.put j ((Op.insert [a]).start H.root)).th j)
      rw [put_same]; simp [Op.start, again, todo]) hL with h | h
    · rw [hd] at h; simp [todo] at h
    · exact h
  refine ⟨hmem, fun hv => ?_⟩
  obtain ⟨G1, I1⟩ := I0.run hz hk h2 (by simp) (fun _ _ _ _ _ _ => trivial)
  have hI : VacuumTree.InvV False x cap capI M z.sys.store H.root := ⟨K, hK, key, G1, hk, (I1.quiet hv).good⟩
  exact (hI.lookup false ha.valid).2 hmem

/-- **C61 (VACUUM).** When a VACUUM that was told the rows `dead` has released the root, exactly the items of these rows are gone, whatever scans and
insertions went on or were waiting meanwhile. -/
theorem C61_vacuum_exact (x : Ctx) [TransCmp x.cmpV] (cap capI : Nat) (M : Lim) (hz : Sizes x cap capI M) (H : VacuumTree.History x cap capI M)
    (es1 es2 : List Event) (y y1 z z1 : State) (dead : Iptr → Bool) (h1 : Run x cap capI M H.root (atRest H.final.1) es1 y)
    (hv : Fires x cap capI M H.root (.vacuum dead) y y1) (h2 : Run x cap capI M H.root y1 es2 z) (hn : Event.release ∉ es2)
    (hr : Fires x cap capI M H.root .release z z1) :
    contents z1.sys.store H.root = (contents y.sys.store H.root).filter (fun a => !dead a.iptr) := by
  obtain ⟨K, hK, key, G, hk, I⟩ := history_run hz H h1
  obtain ⟨G1, I1⟩ := I.fires hz hk hv (by simp) (fun _ _ _ _ _ _ => trivial)
  obtain ⟨us, e1, e2⟩ := VInv.records hz hk h2 I1 hn dead _ (by rw [hv.2.2])
  obtain ⟨dead', e3, rfl⟩ := hr
  rw [e1] at e3
  simp only [Option.some.injEq, Prod.mk.injEq] at e3
  obtain ⟨rfl, rfl⟩ := e3
  have hq := (I.rooted hv.1 hv.2.1).2
  have := (VacuumTree.InvV.vacuum ⟨K, hK, key, G, hk, hq⟩ dead).2.1
  rw [← this]
  have e4 : y1.sys.store = y.sys.store := by rw [hv.2.2]
  rw [e4] at e2
  rw [← e2]
  rfl

/-- **C61 (no deadlock).** As long as a backend is busy or a VACUUM of the tree is under way, something can go on: a busy backend can visit its next
page, or VACUUM can write its next record or release the root. (What VACUUM may have to wait for is a scan that keeps a page pinned; the scan
can always go on meanwhile.) -/
theorem C61_no_deadlock (x : Ctx) [TransCmp x.cmpV] (cap capI : Nat) (M : Lim) (hz : Sizes x cap capI M) (H : VacuumTree.History x cap capI M)
    (es : List Event) (y : State) (h : Run x cap capI M H.root (atRest H.final.1) es y) (hb : y.vac ≠ none ∨ ∃ i, (y.sys.th i).free = false) :
    ∃ e z, Fires x cap capI M H.root e y z ∧ (e = .record ∨ e = .release ∨ ∃ j, e = .act j ∧ (y.sys.th j).free = false) := by
  obtain ⟨K, hK, key, G, hk, I⟩ := history_run hz H h
  cases hvac : y.vac with
  | none =>
    obtain ⟨i, hi⟩ := hb.resolve_left (by simp [hvac])
    obtain ⟨j, z, hj, ha, -⟩ := SysInv.someone (seek := seekData x) trivial (I.quiet hvac) hi
    exact ⟨.act j, ⟨z, none⟩, ⟨ha, hvac.symm, fun h => absurd hvac h⟩, Or.inr (Or.inr ⟨j, rfl, hj⟩)⟩
  | some v =>
    obtain ⟨dead, us⟩ := v
    obtain ⟨b1, b2, b3, G', b4, b5⟩ := I.busy dead us hvac
    cases us with
    | nil => exact ⟨.release, _, ⟨dead, hvac, rfl⟩, Or.inr (Or.inl rfl)⟩
    | cons u us =>
      by_cases hp : ∀ i, ∀ b ∈ pins H.root (y.sys.th i), (u.page b).deleted = true → (y.sys.store.page b).deleted = true
      · exact ⟨.record, _, ⟨dead, u, us, hvac, hp, rfl⟩, Or.inl rfl⟩
      · push Not at hp
        obtain ⟨i, b, hb, hd, -⟩ := hp
        have hnr : b ≠ H.root := by
          rintro rfl
          cases b4 with
          | @cons _ _ _ Gu _ _ V B Ch =>
            have := (B.thin.alloc Gu.h (Nat.le_refl _) H.root (by rw [B.thin.root]; simp)).2
            rw [this] at hd; cases hd
        have hc := b2 i
        have hfv : (y.sys.th i).free = false ∧ visit H.root (y.sys.th i) ≠ some H.root := by
          generalize y.sys.th i = th at hb hc
          cases th with
          | ins bt p up =>
            obtain ⟨-, -, rfl⟩ := hc.2.2 bt p up rfl
            simp [pins] at hb
          | walk _ _ _ _ => simp [Calm, pending] at hc
          | top _ => simp [Calm, pending] at hc
          | level _ _ _ => simp [Calm, pending] at hc
          | scan c acc =>
            simp only [pins, List.mem_singleton] at hb
            subst hb
            exact ⟨rfl, by simpa [visit] using hnr⟩
          | next c cur acc =>
            simp only [pins, List.mem_singleton] at hb
            subst hb
            exact ⟨rfl, by simpa [visit] using hnr⟩
          | cursor c L cur acc =>
            simp only [pins, List.mem_singleton] at hb
            subst hb
            refine ⟨rfl, ?_⟩
            cases L with
            | nil => simpa [visit] using hnr
            | cons => simp [visit]
          | _ => simp [pins] at hb
        refine ⟨.act i, ⟨_, y.vac⟩, ⟨⟨fun j _ c hh => ?_, rfl⟩, rfl, fun _ => hfv.2⟩, Or.inr (Or.inr ⟨i, rfl, hfv.1⟩)⟩
        rw [holds_eq, (b2 j).2.1] at hh
        cases hh

/-! ### Concrete cases -/

/-- A history with a build and one insertion: three leaves. -/
def exHist : VacuumTree.History PostingTree.exCtx 76 96 12 where
  s0 := exStore
  its := VacuumTree.exHistory.its
  bs := VacuumTree.exHistory.bs
  evs := [.insert (exItem 7)]
  itsOK := VacuumTree.exHistory.itsOK
  fits := VacuumTree.exHistory.fits
  bsOK := VacuumTree.exHistory.bsOK
  evsOK := by
    intro e he
    simp only [List.mem_cons, List.not_mem_nil, or_false] at he
    subst he
    exact exStorable 7 (by decide)

/-- One backend and VACUUM. -/
structure Conf where
  s : Store (Item Datum)
  th : Thread (Item Datum)
  vac : Option (List (Store (Item Datum)))

inductive Cmd where
  | act
  | scan
  | cursor
  | insert (n : Nat)
  | vacuum
  | record
  | release

/-- The rows of the first leaf. -/
def exDead1 : Iptr → Bool := fun i => decide (i.blk ≤ 4)

/-- The rows that are dead in the examples. -/
def exDead : Iptr → Bool := fun i => decide (5 ≤ i.blk ∧ i.blk ≤ 12)

def Conf.st (dead : Iptr → Bool) (c : Conf) : State := ⟨⟨c.s, fun j => if j = 0 then c.th else .idle⟩, c.vac.map (fun us => (dead, us))⟩

def Cmd.ev (dead : Iptr → Bool) : Cmd → Event
  | .act => .act 0
  | .scan => .start 0 .scan
  | .cursor => .start 0 .cursor
  | .insert n => .start 0 (.insert [exItem n])
  | .vacuum => .vacuum dead
  | .record => .record
  | .release => .release

/-- One command, if it is possible now. -/
def Cmd.exec (dead : Iptr → Bool) (o : Ops (Item Datum)) (root : Nat) (c : Conf) : Cmd → Option Conf
  | .act => if c.vac.isSome && visit root c.th == some root then none
      else let r := Tree.act o (seekData PostingTree.exCtx) root c.s c.th; some ⟨r.1, r.2, c.vac⟩
  | .scan => if c.th.free then some ⟨c.s, Op.scan.start root, c.vac⟩ else none
  | .cursor => if c.th.free then some ⟨c.s, Op.cursor.start root, c.vac⟩ else none
  | .insert n => if c.th.free && decide (n < 16) then some ⟨c.s, (Op.insert [exItem n]).start root, c.vac⟩ else none
  | .vacuum => if c.vac.isNone && !(pins root c.th).contains root then
      some ⟨c.s, c.th, some (vacuumTree (dataVac PostingTree.exCtx.cfg dead) c.s root)⟩ else none
  | .record => match c.vac with
    | some (u :: us) => if (pins root c.th).all (fun b => !(u.page b).deleted || (c.s.page b).deleted) then some ⟨u, c.th, some us⟩ else none
    | _ => none
  | .release => match c.vac with
    | some [] => some ⟨c.s, c.th, none⟩
    | _ => none

def execs (dead : Iptr → Bool) (o : Ops (Item Datum)) (root : Nat) : List Cmd → Conf → Option Conf
  | [], c => some c
  | m :: ms, c => match m.exec dead o root c with
    | some c' => execs dead o root ms c'
    | none => none

theorem conf_put (dead : Iptr → Bool) (c : Conf) (s : Store (Item Datum)) (th : Thread (Item Datum)) : (⟨s, th, c.vac⟩ : Conf).st dead = ⟨({ (c.st dead).sys with store := s } : Sys _).put 0 th, (c.st dead).vac⟩ := by
  simp only [Conf.st, Sys.put]
  congr 2
  funext j
  by_cases h : j = 0 <;> simp [h]

theorem exec_fires {dead : Iptr → Bool} {root : Nat} {c c' : Conf} {m : Cmd} (h : m.exec dead (dataOps PostingTree.exCtx 76 96 false) root c = some c') :
    Fires PostingTree.exCtx 76 96 12 root (m.ev dead) (c.st dead) (c'.st dead) := by
  have hp : ∀ i b, b ∈ pins root ((c.st dead).sys.th i) → b ∈ pins root c.th := by
    intro i b hb
    simp only [Conf.st] at hb
    split at hb
    · exact hb
    · simp [pins] at hb
  cases m with
  | act =>
    simp only [Cmd.exec] at h
    split at h
    · cases h
    · next hn =>
      simp only [Option.some.injEq] at h
      subst h
      refine ⟨⟨fun j hj c' hc => ?_, ?_⟩, rfl, fun hv hr => hn ?_⟩
      · simp only [Conf.st, if_neg hj] at hc; cases hc
      · rw [conf_put]; rfl
      · have hr : visit root c.th = some root := hr
        have hv : c.vac.isSome = true := by
          cases hc : c.vac with
          | none => exact absurd (by simp [Conf.st, hc]) hv
          | some => rfl
        simp [hr, hv]
  | scan =>
    simp only [Cmd.exec] at h
    split at h
    · next hf =>
      simp only [Option.some.injEq] at h
      subst h
      exact ⟨hf, trivial, conf_put dead c c.s _⟩
    · cases h
  | cursor =>
    simp only [Cmd.exec] at h
    split at h
    · next hf =>
      simp only [Option.some.injEq] at h
      subst h
      exact ⟨hf, trivial, conf_put dead c c.s _⟩
    · cases h
  | insert n =>
    simp only [Cmd.exec] at h
    split at h
    · next hf =>
      simp only [Bool.and_eq_true, decide_eq_true_eq] at hf
      simp only [Option.some.injEq] at h
      subst h
      exact ⟨hf.1, ⟨_, rfl, exStorable n (by omega)⟩, conf_put dead c c.s _⟩
    · cases h
  | vacuum =>
    simp only [Cmd.exec] at h
    split at h
    · next hf =>
      simp only [Bool.and_eq_true, Bool.not_eq_true', Option.isNone_iff_eq_none] at hf
      simp only [Option.some.injEq] at h
      subst h
      refine ⟨by simp [Conf.st, hf.1], fun i hi => ?_, rfl⟩
      have := hf.2
      rw [List.contains_eq_mem, decide_eq_false_iff_not] at this
      exact this (hp i _ hi)
    · cases h
  | record =>
    simp only [Cmd.exec] at h
    split at h
    · next u us hv =>
      split at h
      · next hf =>
        simp only [Option.some.injEq] at h
        subst h
        refine ⟨dead, u, us, by simp [Conf.st, hv], fun i b hb hd => ?_, rfl⟩
        have := List.all_eq_true.1 hf b (hp i b hb)
        rw [hd] at this
        show (c.s.page b).deleted = true
        simpa using this
      · cases h
    · cases h
  | release =>
    simp only [Cmd.exec] at h
    split at h
    · next hv =>
      simp only [Option.some.injEq] at h
      subst h
      exact ⟨dead, by simp [Conf.st, hv], rfl⟩
    · cases h

theorem Run.trans {y z w : State} {es es' : List Event} (h : Run x cap capI M root y es z) (h' : Run x cap capI M root z es' w) :
    Run x cap capI M root y (es ++ es') w := by
  induction h' with
  | refl => simpa using h
  | snoc h1 h2 ih => rw [← List.append_assoc]; exact Run.snoc ih h2

theorem execs_run {dead : Iptr → Bool} {root : Nat} : ∀ (ms : List Cmd) {c c' : Conf}, execs dead (dataOps PostingTree.exCtx 76 96 false) root ms c = some c' →
    Run PostingTree.exCtx 76 96 12 root (c.st dead) (ms.map (Cmd.ev dead)) (c'.st dead) := by
  intro ms
  induction ms with
  | nil => intro c c' h; simp only [execs, Option.some.injEq] at h; subst h; exact Run.refl _
  | cons m ms ih =>
    intro c c' h
    simp only [execs] at h
    split at h
    · next c1 h1 =>
      have := Run.snoc (Run.refl _) (exec_fires h1)
      exact Run.trans (es := [m.ev dead]) this (ih h)
    · cases h

/-- The tree of the examples, at rest. -/
def exConf : Conf := ⟨exHist.final.1, .idle, none⟩

theorem exConf_rest (dead : Iptr → Bool) : exConf.st dead = atRest exHist.final.1 := by
  simp only [exConf, Conf.st, atRest, Conc.atRest, Option.map_none]
  congr 2
  funext j
  simp

/-- A scan goes down; VACUUM gets the root and empties the middle one of three leaves; the scan reads the first leaf, which pins the middle one: it
cannot be deleted (`exBlocked`); the scan goes on, the page is deleted, the scan comes to its end, VACUUM releases the root. -/
def exScanCmds : List Cmd := [.act, .vacuum, .record, .act, .act, .record, .act, .release]
/-- The same with a cursor. -/
def exCurCmds : List Cmd := [.act, .vacuum, .record, .act, .act, .act, .act, .act, .act, .act, .act, .record, .act, .act, .act, .act, .act, .act, .act, .act, .release]
/-- An insertion comes while VACUUM has the root. -/
def exInsCmds : List Cmd := [.record, .record, .release, .act, .act]

def exOps : Ops (Item Datum) := dataOps PostingTree.exCtx 76 96 false

theorem ex_runs :
    (match execs exDead exOps 0 exScanCmds ⟨exConf.s, .down 0, none⟩ with
      | some c => scannedN c.th == some 8 && (c.s.page 1).deleted
      | none => false) = true ∧
    (match execs exDead exOps 0 exCurCmds ⟨exConf.s, .opening 0, none⟩ with
      | some c => endedN c.th == some 8 && (c.s.page 1).deleted
      | none => false) = true ∧
    (match execs exDead exOps 0 [.vacuum] exConf with
      | some c => match execs exDead exOps 0 exInsCmds ⟨c.s, .ins [exItem 8] 0 [], c.vac⟩ with
        | some c => isInserted c.th
        | none => false
      | none => false) = true ∧
    (match execs exDead exOps 0 [.act, .vacuum, .record, .act, .record] ⟨exConf.s, .down 0, none⟩ with
      | some _ => false
      | none => true) = true ∧
    (match execs exDead1 exOps 0 [.act, .vacuum, .record, .release, .act] ⟨exConf.s, .opening 0, none⟩ with
      | some c => endedN c.th == some 0
      | none => false) = true ∧ contents exConf.s 0 = ([0, 1, 2, 3, 4, 5, 6, 7, 11, 12, 13, 14, 15] : List Nat).map exItem := by
  unfold exOps exConf VacuumTree.History.final VacuumTree.History.built VacuumTree.History.root VacuumTree.runs VacuumTree.Event.run
  simp only [exHist, VacuumTree.exHistory]
  rw [← dataOpsF_eq, ← dataOpsF_eq]
  unfold VacuumTree.runs
  decide +kernel

theorem exRoot : exHist.root = 0 := by decide +kernel

theorem exConf_start (dead : Iptr → Bool) (op : Op (Item Datum)) : (⟨exConf.s, op.start 0, none⟩ : Conf).st dead = ⟨(atRest exHist.final.1).sys.put 0 (op.start exHist.root), none⟩ := by
  rw [exRoot]
  have := conf_put dead exConf exConf.s (op.start 0)
  rw [exConf_rest] at this
  exact this

/-- The hypotheses of `C61_scan_complete` are met by a scan during which VACUUM deletes a page. -/
example : ∃ es2 z acc, Run PostingTree.exCtx 76 96 12 exHist.root ⟨(atRest exHist.final.1).sys.put 0 (Op.scan.start exHist.root), none⟩ es2 z ∧
    z.sys.th 0 = .scanned acc ∧ acc.length = 8 ∧ (z.sys.store.page 1).deleted = true := by
  have h := ex_runs.1
  cases he : execs exDead exOps 0 exScanCmds ⟨exConf.s, .down 0, none⟩ with
  | none => rw [he] at h; cases h
  | some c =>
    rw [he] at h
    simp only [Bool.and_eq_true, beq_iff_eq] at h
    have hr := execs_run _ he
    rw [← exConf_start exDead, exRoot]
    refine ⟨exScanCmds.map (Cmd.ev exDead), c.st exDead, ?_⟩
    cases hth : c.th <;> rw [hth] at h <;> simp [scannedN] at h
    exact ⟨_, hr, hth, h.1, h.2⟩

/-- The hypotheses of `C62_cursor_complete_partial` are met by a cursor during which VACUUM deletes a page. -/
example : ∃ es2 z acc, Run PostingTree.exCtx 76 96 12 exHist.root ⟨(atRest exHist.final.1).sys.put 0 (Op.cursor.start exHist.root), none⟩ es2 z ∧
    z.sys.th 0 = .ended acc ∧ acc.length = 8 ∧ (z.sys.store.page 1).deleted = true := by
  have h := ex_runs.2.1
  cases he : execs exDead exOps 0 exCurCmds ⟨exConf.s, .opening 0, none⟩ with
  | none => rw [he] at h; cases h
  | some c =>
    rw [he] at h
    simp only [Bool.and_eq_true, beq_iff_eq] at h
    have hr := execs_run _ he
    rw [← exConf_start exDead, exRoot]
    refine ⟨exCurCmds.map (Cmd.ev exDead), c.st exDead, ?_⟩
    cases hth : c.th <;> rw [hth] at h <;> simp [endedN] at h
    exact ⟨_, hr, hth, h.1, h.2⟩

/-- The hypotheses of `C61_insertion_found`, `C61_vacuum_exact` and `C61_tree` are met by an insertion that comes while VACUUM has the root. -/
example : ∃ y es2 z, Run PostingTree.exCtx 76 96 12 exHist.root (atRest exHist.final.1) [.vacuum exDead] y ∧ (y.sys.th 0).free = true ∧ y.vac ≠ none ∧
    Run PostingTree.exCtx 76 96 12 exHist.root ⟨y.sys.put 0 ((Op.insert [exItem 8]).start exHist.root), y.vac⟩ es2 z ∧
    (∀ e ∈ es2, e.leaves 0 = true) ∧ z.sys.th 0 = .inserted ∧ Event.release ∈ es2 := by
  have h := ex_runs.2.2.1
  cases he : execs exDead exOps 0 [.vacuum] exConf with
  | none => rw [he] at h; cases h
  | some c =>
    rw [he] at h
    simp only at h
    cases he2 : execs exDead exOps 0 exInsCmds ⟨c.s, .ins [exItem 8] 0 [], c.vac⟩ with
    | none => rw [he2] at h; cases h
    | some c2 =>
      rw [he2] at h
      simp only at h
      have hr := execs_run _ he
      have hr2 := execs_run _ he2
      rw [exConf_rest] at hr
      have hc : c.th = .idle ∧ c.vac.isSome = true := by
        simp only [execs, Cmd.exec] at he
        split at he
        · next c' h' =>
          rw [if_pos (show (exConf.vac.isNone && !(pins 0 exConf.th).contains 0) = true from rfl)] at h'
          simp only [Option.some.injEq] at h' he
          subst h'
          subst he
          exact ⟨rfl, rfl⟩
        · cases he
      rw [exRoot]
      refine ⟨_, exInsCmds.map (Cmd.ev exDead), c2.st exDead, hr, ?_, ?_, ?_, by decide, inserted_of h, by simp [exInsCmds, Cmd.ev]⟩
      · show c.th.free = true
        rw [hc.1]; rfl
      · intro hv
        cases hcv : c.vac with
        | none => rw [hcv] at hc; cases hc.2
        | some => simp [Conf.st, hcv] at hv
      · rw [conf_put] at hr2
        exact hr2

/-- **C62 is false for cursors that find the first page emptied.** A cursor goes down; VACUUM removes the items of the first leaf, all dead (the first
leaf is never deleted); the cursor comes to the leaf and ends without any item (`/repo/src/rumget.c:660-683` takes the first page as it is), although
the live rows of the other pages were there all the time. -/
theorem C62_violated : ∃ (H : VacuumTree.History PostingTree.exCtx 76 96 12) (es2 : List Event) (z : State) (a : Item Datum),
    Run PostingTree.exCtx 76 96 12 H.root ⟨(atRest H.final.1).sys.put 0 (Op.cursor.start H.root), none⟩ es2 z ∧ z.sys.th 0 = .ended [] ∧
    a ∈ contents H.final.1 H.root ∧ Lives (atRest H.final.1) es2 a := by
  obtain ⟨-, -, -, -, h, h'⟩ := ex_runs
  cases he : execs exDead1 exOps 0 [.act, .vacuum, .record, .release, .act] ⟨exConf.s, .opening 0, none⟩ with
  | none => rw [he] at h; cases h
  | some c =>
    rw [he] at h
    simp only [beq_iff_eq] at h
    have hr := execs_run _ he
    refine ⟨exHist, ([.act, .vacuum, .record, .release, .act] : List Cmd).map (Cmd.ev exDead1), c.st exDead1, exItem 13, ?_, ?_, ?_, ?_⟩
    · rw [← exConf_start exDead1, exRoot]; exact hr
    · show c.th = .ended []
      cases hth : c.th <;> rw [hth] at h <;> simp [endedN] at h
      rw [h]
    · rw [exRoot]
      show exItem 13 ∈ contents exConf.s 0
      rw [h']
      exact List.mem_map.2 ⟨13, by decide, rfl⟩
    · refine ⟨fun _ _ hv => by simp [atRest] at hv, fun dead hd => ?_⟩
      simp [Cmd.ev] at hd
      subst hd
      decide

end Rum.Props.VacConc

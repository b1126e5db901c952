import Verif.ConcRead
import Verif.ConcFree
import Verif.PostingScan
import Verif.Props.PostingTree
import Verif.Props.ScanPage
/-!
# C40, C44, C45: concurrent insertions and scans of a posting tree
-/
namespace Rum.Props.Conc
open Rum Rum.Tree Rum.Codec Rum.Leaf Rum.Entry Rum.Props Rum.Props.PostingTree Std

/-! ### Specification -/

/-- What can happen: backend `i` visits a page; backend `i`, not busy, starts an operation; backend `i` is stopped by an error or a cancel
request, leaving everything as it is. -/
inductive Event where
  | act (i : Nat)
  | start (i : Nat) (op : Op (Item Datum))
  | abort (i : Nat)

/-- The operations a backend may be asked to do: insertions get sorted batches of storable items. -/
def OpOK (x : Ctx) (M : Lim) : Op (Item Datum) → Prop
  | .insert b => BatchOK x M b
  | _ => True

variable (x : Ctx) (cap capI : Nat) (M : Lim) (build : Bool) (root : Nat)

/-- The event takes the system from `y` to `z`. -/
def Fires : Event → Sys (Item Datum) → Sys (Item Datum) → Prop
  | .act i, y, z => Acts (dataOps x cap capI build) (seekData x) root i y z
  | .start i op, y, z => (y.th i).free = true ∧ OpOK x M op ∧ z = y.put i (op.start root)
  | .abort i, y, z => z = y.put i .idle

/-- A run: any events in any order. -/
inductive Run : Sys (Item Datum) → List Event → Sys (Item Datum) → Prop
  | refl (y : Sys (Item Datum)) : Run y [] y
  | snoc {y z w : Sys (Item Datum)} {es : List Event} {e : Event} : Run y es z → Fires x cap capI M build root e z w → Run y (es ++ [e]) w

/-- Backend `j` neither starts nor is stopped. -/
def Event.leaves (j : Nat) : Event → Bool
  | .act _ => true
  | .start i _ => i != j
  | .abort i => i != j

def Event.aborts : Event → Bool
  | .abort _ => true
  | _ => false

/-- A tree at rest: no backend is doing anything. -/
def atRest (s : Store (Item Datum)) : Sys (Item Datum) := ⟨s, fun _ => .idle⟩

/-- What the consumer of a cursor keeps: it skips everything not beyond what it has (`/repo/src/rumget.c:1641-1651`: entries are advanced
while their item is not beyond the last one returned). -/
def fresh (cmp : Item Datum → Item Datum → Ordering) (acc : List (Item Datum)) : List (Item Datum) :=
  acc.foldl (fun out a => if out.getLast?.all (fun m => cmp m a == .lt) then out ++ [a] else out) []

/-! ### Proof apparatus -/
variable {x cap capI M build root}

theorem seek_law [TransCmp x.cmpV] : SeekLaw (dataOps x cap capI build) (FitsPage x M cap) (seekData x) := by
  intro its hi cur its' hP hs hb hP' hc
  have htr : TransCmp x.cmp := cmpItem_trans _ _
  have hs : SSorted x.cmp its := hs
  obtain ⟨p, hp, -⟩ := hP.holds hs
  have hv := (hP'.all cur hc).valid
  rcases C22_forward x p its hp hi hb cur false hv with ⟨h1, h2⟩ | ⟨a, l, b, i, h1, h2, ⟨h3, h4⟩, h5⟩
  · right
    constructor
    · intro y ys
      simp [seekData, hp.built, h1]
    · intro it hit h
      exact h2 it hit (Or.inl h)
  · left
    refine ⟨a ++ l.take i, l[i], l.drop (i + 1), b, ?_, ?_, ?_, ?_⟩
    · simp [seekData, hp.built, h1]
    · rw [h2, ← List.drop_eq_getElem_cons h3]
      simp
    · intro it hit h
      exact h5 it hit (Or.inl h)
    · rcases h4 with h4 | h4
      · exact h4
      · simp at h4

/-- The invariant of the whole system. -/
def SInv (C : Prop) (x : Ctx) (cap capI : Nat) (M : Lim) (build : Bool) (root : Nat) {K : Type} [LinearOrder K] (key : Item Datum → K) (y : Sys (Item Datum)) (G : Ghost) :
    Prop :=
  SysInv True C key false (fun D => D.length * 24 ≤ capI) (fun _ => True) (BatchIn x M) (FitsPage x M cap) (dataOps x cap capI build) root y G

theorem sinv_rest {C : Prop} {K : Type} [LinearOrder K] {key : Item Datum → K} {s : Store (Item Datum)} {G : Ghost}
    (hG : Good C key false (fun D => D.length * 24 ≤ capI) (fun _ => True) (FitsPage x M cap) s root G) (hB : BoundIn key (leafs key s G))
    (hC : C → ∀ c d, ¬ Adj G c d) : SInv C x cap capI M build root key (atRest s) G := by
  refine ⟨⟨hG.weak, fun h => h.elim, hG.sized, hG.fit⟩, fun _ => hB, fun _ => trivial, fun _ => ⟨by simp [atRest, todo, SSorted], by simp [atRest, todo, BatchIn]⟩, ?_, ?_, ?_, ?_, ?_⟩
  · intro i j w w' _ h; simp [atRest, pending] at h
  · intro i p h; simp [atRest, knows] at h
  · intro c a d h; exact absurd h (hC c a d)
  · intro c i j w h; simp [atRest, pending] at h
  · intro c i; simp [atRest]

theorem complete_adj {G : Ghost} (h : Complete G) (c d : Nat) : ¬ Adj G c d := by
  rintro ⟨k, P, u, v, h1, -, h3, h4⟩
  obtain ⟨e, he⟩ := h k h1 P h3 _ h4
  have := congrArg List.length he
  simp at this
  omega

section
variable {C : Prop} {K : Type} [LinearOrder K] {key : Item Datum → K} {y z : Sys (Item Datum)} {G : Ghost}

theorem start_facts (op : Op (Item Datum)) : pending (op.start root) = none ∧ (∀ p ∈ knows (op.start root), p = root) ∧ op.start root ≠ .lost ∧
    (∀ s G, ThreadOK C key (fun _ => True) root s G (op.start root)) ∧
    ((∃ b, op = .insert b ∧ todo (op.start root) = b) ∨ todo (op.start root) = []) := by
  cases op with
  | insert b =>
    cases b with
    | nil => simp [Op.start, again, pending, knows, todo, ThreadOK]
    | cons a b => simp [Op.start, again, pending, knows, todo, ThreadOK]
  | scan => simp [Op.start, pending, knows, todo, ThreadOK]
  | cursor => simp [Op.start, pending, knows, todo, ThreadOK]

theorem start_todo {op : Op (Item Datum)} (h : OpOK x M op) :
    SSorted x.cmp (todo (op.start root)) ∧ BatchIn x M (todo (op.start root)) := by
  rcases (start_facts (C := True) (key := fun _ => (0 : Nat)) (root := root) op).2.2.2.2 with ⟨b, rfl, hb⟩ | hb
  · rw [hb]; exact ⟨h.sorted, h.ok, h.one⟩
  · rw [hb]; simp [SSorted, BatchIn]

theorem free_pending {th : Thread (Item Datum)} (h : th.free = true) : pending th = none := by
  cases th <;> simp [Thread.free] at h <;> rfl

theorem SInv.acts [TransCmp x.cmpV] (hz : Sizes x cap capI M) (hk : KeyOf x.cmp key) (I : SInv C x cap capI M build root key y G) {i : Nat}
    (h : Acts (dataOps x cap capI build) (seekData x) root i y z) :
    ∃ G' bad new, StepOut C key false (fun D => D.length * 24 ≤ capI) (fun _ => True) (FitsPage x M cap) (dataOps x cap capI build) root
      y.store G (y.th i) z.store (z.th i) G' bad new ∧ SInv C x cap capI M build root key z G' ∧ ∀ j, j ≠ i → z.th j = y.th j :=
  SysInv.acts (o := dataOps x cap capI build) hk (locateData_ok hk rfl) (dataInnerLaws x cap capI build hz.inner)
    (dataLeafLaws x cap capI M build hz.leaf hz.align hz.padded) (Or.inl trivial) I h

/-- One event. -/
theorem SInv.fires [TransCmp x.cmpV] (hz : Sizes x cap capI M) (hk : KeyOf x.cmp key) (I : SInv C x cap capI M build root key y G) {e : Event}
    (h : Fires x cap capI M build root e y z) (he : C → e.aborts = false) :
    ∃ G', SInv C x cap capI M build root key z G' ∧ (∀ a ∈ contents y.store root, a ∈ contents z.store root) ∧
      (∀ a ∈ contents z.store root, a ∈ contents y.store root ∨ ∃ i, a ∈ todo (y.th i)) ∧
      (∀ i, ∀ a ∈ todo (z.th i), a ∈ todo (y.th i) ∨ ∃ b, e = .start i (.insert b) ∧ a ∈ b) := by
  cases e with
  | act i =>
    obtain ⟨G', bad, new, S, I', ho⟩ := I.acts hz hk h
    refine ⟨G', I', S.keep, ?_, ?_⟩
    · intro a ha
      rcases S.just a ha with h | h
      · exact Or.inl h
      · exact Or.inr ⟨i, h⟩
    · intro j a ha
      by_cases hj : j = i
      · subst hj
        obtain ⟨n, hn⟩ := S.rest
        rw [hn] at ha
        exact Or.inl (List.mem_of_mem_drop ha)
      · rw [ho j hj] at ha; exact Or.inl ha
  | start i op =>
    obtain ⟨h1, h2, rfl⟩ := h
    obtain ⟨f1, f2, f3, f4, f5⟩ := start_facts (C := C) (key := key) (root := root) op
    refine ⟨G, SysInv.put I f1 (fun _ => free_pending h1) f2 (f4 _ _) (start_todo h2) f3, fun a ha => ha, fun a ha => Or.inl ha, ?_⟩
    intro j a ha
    by_cases hj : j = i
    · subst hj
      rw [put_same] at ha
      rcases f5 with ⟨b, rfl, hb⟩ | hb
      · rw [hb] at ha; exact Or.inr ⟨b, rfl, ha⟩
      · rw [hb] at ha; simp at ha
    · rw [put_other _ hj] at ha; exact Or.inl ha
  | abort i =>
    subst h
    refine ⟨G, SysInv.put I rfl (fun c => ?_) (by simp [knows]) trivial (by simp [todo, SSorted, BatchIn]) (by simp), fun a ha => ha, fun a ha => Or.inl ha, ?_⟩
    · simp [Event.aborts] at he; exact absurd c he
    · intro j a ha
      by_cases hj : j = i
      · subst hj; rw [put_same] at ha; simp [todo] at ha
      · rw [put_other _ hj] at ha; exact Or.inl ha

theorem SInv.run [TransCmp x.cmpV] (hz : Sizes x cap capI M) (hk : KeyOf x.cmp key) {es : List Event} (h : Run x cap capI M build root y es z) :
    SInv C x cap capI M build root key y G → (C → ∀ e ∈ es, e.aborts = false) →
    ∃ G', SInv C x cap capI M build root key z G' ∧ (∀ a ∈ contents y.store root, a ∈ contents z.store root) ∧
      (∀ a ∈ contents z.store root, a ∈ contents y.store root ∨ (∃ i, a ∈ todo (y.th i)) ∨ ∃ i b, .start i (.insert b) ∈ es ∧ a ∈ b) ∧
      (∀ i, ∀ a ∈ todo (z.th i), a ∈ todo (y.th i) ∨ ∃ i b, .start i (.insert b) ∈ es ∧ a ∈ b) := by
  induction h with
  | refl => intro I _; exact ⟨G, I, fun a h => h, fun a h => Or.inl h, fun i a h => Or.inl h⟩
  | snoc h1 h2 ih =>
    intro I he
    obtain ⟨G1, I1, k1, j1, t1⟩ := ih I (fun c e h => he c e (by simp [h]))
    obtain ⟨G2, I2, k2, j2, t2⟩ := I1.fires hz hk h2 (fun c => he c _ (by simp))
    refine ⟨G2, I2, fun a h => k2 a (k1 a h), ?_, ?_⟩
    · intro a ha
      rcases j2 a ha with h | ⟨i, h⟩
      · rcases j1 a h with h | h | ⟨i, b, h, h'⟩
        · exact Or.inl h
        · exact Or.inr (Or.inl h)
        · exact Or.inr (Or.inr ⟨i, b, by simp [h], h'⟩)
      · rcases t1 i a h with h | ⟨i, b, h, h'⟩
        · exact Or.inr (Or.inl ⟨_, h⟩)
        · exact Or.inr (Or.inr ⟨i, b, by simp [h], h'⟩)
    · intro i a ha
      rcases t2 i a ha with h | ⟨b, rfl, h⟩
      · rcases t1 i a h with h | ⟨i, b, h, h'⟩
        · exact Or.inl h
        · exact Or.inr ⟨i, b, by simp [h], h'⟩
      · exact Or.inr ⟨i, b, by simp, h⟩

/-- What backend `j` does in a run in which it neither starts nor is stopped: `P` holds to the end if its own steps and those of the others
keep it. -/
theorem SInv.follow [TransCmp x.cmpV] (hz : Sizes x cap capI M) (hk : KeyOf x.cmp key) {es : List Event} (j : Nat)
    (P : Store (Item Datum) → Ghost → Thread (Item Datum) → Prop)
    (h : Run x cap capI M build root y es z)
    (hown : ∀ y z G G' bad new, SInv False x cap capI M build root key y G → SInv False x cap capI M build root key z G' →
      z.store = (act (dataOps x cap capI build) (seekData x) root y.store (y.th j)).1 →
      z.th j = (act (dataOps x cap capI build) (seekData x) root y.store (y.th j)).2 →
      StepOut False key false (fun D => D.length * 24 ≤ capI) (fun _ => True) (FitsPage x M cap) (dataOps x cap capI build) root
        y.store G (y.th j) z.store (z.th j) G' bad new → P y.store G (y.th j) → P z.store G' (z.th j))
    (hother : ∀ y z G G' bad new, SInv False x cap capI M build root key y G → SInv False x cap capI M build root key z G' →
      Moved key root bad new y.store G z.store G' → (∀ a ∈ contents y.store root, a ∈ contents z.store root) → z.th j = y.th j →
      P y.store G (y.th j) → P z.store G' (z.th j)) :
    SInv False x cap capI M build root key y G → (∀ e ∈ es, e.leaves j = true) → P y.store G (y.th j) →
    ∃ G', SInv False x cap capI M build root key z G' ∧ P z.store G' (z.th j) := by
  induction h with
  | refl => intro I _ hP; exact ⟨G, I, hP⟩
  | @snoc z w es e h1 h2 ih =>
    intro I he hP
    obtain ⟨G1, I1, P1⟩ := ih I (fun e h => he e (by simp [h])) hP
    have hl := he e (by simp)
    cases e with
    | act i =>
      obtain ⟨G2, bad, new, S, I2, ho⟩ := I1.acts hz hk h2
      refine ⟨G2, I2, ?_⟩
      by_cases hj : j = i
      · subst hj
        refine hown z w G1 G2 bad new I1 I2 ?_ ?_ S P1
        · rw [h2.2]; rfl
        · rw [h2.2, put_same]
      · exact hother z w G1 G2 bad new I1 I2 S.moved S.keep (ho j hj) P1
    | start i op =>
      have hj : j ≠ i := by rintro rfl; simp [Event.leaves] at hl
      obtain ⟨G2, I2, -⟩ := I1.fires hz hk h2 (fun c => c.elim)
      obtain ⟨h1, h2, rfl⟩ := h2
      obtain ⟨f1, f2, f3, f4, f5⟩ := start_facts (C := False) (key := key) (root := root) op
      refine ⟨G1, SysInv.put I1 f1 (fun _ => free_pending h1) f2 (f4 _ _) (start_todo h2) f3, ?_⟩
      rw [put_other _ hj]; exact P1
    | abort i =>
      have hj : j ≠ i := by rintro rfl; simp [Event.leaves] at hl
      subst h2
      refine ⟨G1, SysInv.put I1 rfl (fun c => c.elim) (by simp [knows]) trivial (by simp [todo, SSorted, BatchIn]) (by simp), ?_⟩
      rw [put_other _ hj]; exact P1

/-- A reader. -/
theorem SInv.reader [TransCmp x.cmpV] (hz : Sizes x cap capI M) (hk : KeyOf x.cmp key) {es : List Event} {j : Nat}
    (h : Run x cap capI M build root y es z) (I : SInv False x cap capI M build root key y G) (he : ∀ e ∈ es, e.leaves j = true)
    (hP : ReadOK key (dataOps x cap capI build) root y.store G (contents y.store root) (y.th j)) :
    ∃ G', SInv False x cap capI M build root key z G' ∧
      ReadOK key (dataOps x cap capI build) root z.store G' (contents y.store root) (z.th j) := by
  refine (SInv.follow hz hk j (fun s G th => (∀ a ∈ contents y.store root, a ∈ contents s root) ∧
    ReadOK key (dataOps x cap capI build) root s G (contents y.store root) th) h ?_ ?_ I he ⟨fun a h => h, hP⟩).imp
      (fun G' h => ⟨h.1, h.2.2⟩)
  · intro y' z' G G' bad new I I' hs ht S hR
    obtain ⟨r1, r2⟩ := ReadOK.act (o := dataOps x cap capI build) (POK := FitsPage x M cap) hk seek_law I.good hR.1 (fun _ _ => I.bnd trivial) hR.2
    refine ⟨fun a ha => S.keep a (hR.1 a ha), ?_⟩
    rw [r1] at hs
    rw [← ht] at r2
    have hM := S.moved
    rw [hs] at hM ⊢
    exact ReadOK.moved (o := dataOps x cap capI build) I.good.weak (hs ▸ I'.good.weak) hM (fun a h => h) r2
  · intro y' z' G G' bad new I I' hM hk' ht hR
    rw [ht]
    exact ⟨fun a ha => hk' a (hR.1 a ha), ReadOK.moved (o := dataOps x cap capI build) I.good.weak I'.good.weak hM hk' hR.2⟩

end

theorem fresh_snoc (cmp : Item Datum → Item Datum → Ordering) (l : List (Item Datum)) (a : Item Datum) :
    fresh cmp (l ++ [a]) = if (fresh cmp l).getLast?.all (fun m => cmp m a == .lt) then fresh cmp l ++ [a] else fresh cmp l := by
  unfold fresh
  rw [List.foldl_append]
  rfl

theorem fresh_sub (cmp : Item Datum → Item Datum → Ordering) (l : List (Item Datum)) : ∀ a ∈ fresh cmp l, a ∈ l := by
  induction l using List.reverseRecOn with
  | nil => simp [fresh]
  | append_singleton l b ih =>
    intro a ha
    rw [fresh_snoc] at ha
    split at ha
    · rcases List.mem_append.1 ha with h | h
      · simp [ih a h]
      · simp at h; simp [h]
    · simp [ih a ha]

theorem fresh_mono (cmp : Item Datum → Item Datum → Ordering) (l m : List (Item Datum)) : ∀ a ∈ fresh cmp l, a ∈ fresh cmp (l ++ m) := by
  induction m using List.reverseRecOn with
  | nil => simp
  | append_singleton m b ih =>
    intro a ha
    rw [← List.append_assoc, fresh_snoc]
    split
    · simp [ih a ha]
    · exact ih a ha

theorem fresh_sorted (cmp : Item Datum → Item Datum → Ordering) [TransCmp cmp] (l : List (Item Datum)) : SSorted cmp (fresh cmp l) := by
  induction l using List.reverseRecOn with
  | nil => simp [fresh, SSorted]
  | append_singleton l b ih =>
    rw [fresh_snoc]
    split
    · next h =>
      refine List.pairwise_append.2 ⟨ih, by simp, ?_⟩
      intro a ha c hc
      simp only [List.mem_singleton] at hc
      subst hc
      cases hl : (fresh cmp l).getLast? with
      | none => rw [List.getLast?_eq_none_iff.1 hl] at ha; simp at ha
      | some m =>
        rw [hl] at h
        have hm : cmp m c = .lt := by simpa using h
        obtain ⟨A, e⟩ := List.getLast?_eq_some_iff.1 hl
        rw [e] at ha ih
        rcases List.mem_append.1 ha with h' | h'
        · exact TransCmp.lt_trans ((List.pairwise_append.1 ih).2.2 a h' m (by simp)) hm
        · simp only [List.mem_singleton] at h'
          rw [h']; exact hm
    · exact ih

theorem fresh_of_delivered {cmp : Item Datum → Item Datum → Ordering} {acc : List (Item Datum)} {a : Item Datum} (h : Delivered cmp acc a) :
    a ∈ fresh cmp acc := by
  obtain ⟨u, v, rfl, h⟩ := h
  rw [show u ++ a :: v = (u ++ [a]) ++ v by simp]
  apply fresh_mono
  rw [fresh_snoc, if_pos]
  · simp
  · cases hl : (fresh cmp u).getLast? with
    | none => rfl
    | some m => simp [h m (fresh_sub cmp u m (List.mem_of_getLast? hl))]

/-- A run from a tree with a history of crashes. -/
theorem reach_run [TransCmp x.cmpV] (hz : Sizes x cap capI M) {s : Store (Item Datum)} (h : Reach x cap capI M build s root)
    {y : Sys (Item Datum)} {es : List Event} (hr : Run x cap capI M build root (atRest s) es y) :
    ∃ (K : Type) (_ : LinearOrder K) (key : Item Datum → K) (G : Ghost), KeyOf x.cmp key ∧ SInv False x cap capI M build root key y G ∧
      (∀ a ∈ contents s root, a ∈ contents y.store root) ∧
      (∀ a ∈ contents y.store root, a ∈ contents s root ∨ ∃ i b, .start i (.insert b) ∈ es ∧ a ∈ b) := by
  obtain ⟨K, hK, key, G, hk, hG, hB⟩ := h.inv hz
  obtain ⟨G', I, h1, h2, -⟩ := SInv.run (C := False) hz hk hr (sinv_rest hG hB (fun c => c.elim)) (fun c => c.elim)
  refine ⟨K, hK, key, G', hk, I, h1, fun a ha => ?_⟩
  rcases h2 a ha with h | ⟨i, h⟩ | h
  · exact Or.inl h
  · simp [atRest, todo] at h
  · exact Or.inr h

theorem put_free [TransCmp x.cmpV] {C : Prop} {K : Type} [LinearOrder K] {key : Item Datum → K} {y : Sys (Item Datum)} {G : Ghost}
    (I : SInv C x cap capI M build root key y G) {j : Nat} (hf : (y.th j).free = true) {op : Op (Item Datum)} (ho : OpOK x M op) :
    SInv C x cap capI M build root key (y.put j (op.start root)) G := by
  obtain ⟨f1, f2, f3, f4, f5⟩ := start_facts (C := C) (key := key) (root := root) op
  exact SysInv.put I f1 (fun _ => free_pending hf) f2 (f4 _ _) (start_todo ho) f3

/-! ### Properties -/

/-- **C40 (scans that read a whole posting tree page by page, scanPostingTree).** Whatever happened to the tree before (`Reach`: insertions and
crashes; `es1`: concurrent operations, aborted or not), and whatever insertions, splits, scans and aborts of other backends come between two
page visits of the scan (`es2`): when the scan of backend `j` is done, it has seen every item that was in the tree when it started, only items
of the tree, in order, and none twice. -/
theorem C40_full_scan_complete (x : Ctx) [TransCmp x.cmpV] (cap capI : Nat) (M : Lim) (build : Bool) (hz : Sizes x cap capI M) (root : Nat)
    (s : Store (Item Datum)) (h : Reach x cap capI M build s root) (es1 es2 : List Event) (y z : Sys (Item Datum)) (j : Nat)
    (h1 : Run x cap capI M build root (atRest s) es1 y) (hf : (y.th j).free = true)
    (h2 : Run x cap capI M build root (y.put j (Op.scan.start root)) es2 z) (hl : ∀ e ∈ es2, e.leaves j = true)
    (acc : List (Item Datum)) (hd : z.th j = .scanned acc) :
    SSorted x.cmp acc ∧ (∀ a ∈ contents y.store root, a ∈ acc) ∧ ∀ a ∈ acc, a ∈ contents z.store root := by
  obtain ⟨K, hK, key, G, hk, I, -, -⟩ := reach_run hz h h1
  obtain ⟨G', I', hR⟩ := SInv.reader hz hk h2 (put_free I hf (op := .scan) trivial) hl (by rw [put_same]; exact Or.inl rfl)
  rw [hd] at hR
  exact ⟨hR.2.1, hR.1, hR.2.2⟩

/-- **C40 (scans item by item, entryGetNextItem), partial.** As `C40_full_scan_complete`: when the cursor of backend `j` has come to its end,
the items it delivered, as far as they are new to its consumer, are in order, contain every item that was in the tree when it started, and only
items of the tree. What is missing: that it comes to its end when it goes on; it may not, see `C40_cursor_never_ends`. -/
theorem C40_cursor_complete_partial (x : Ctx) [TransCmp x.cmpV] (cap capI : Nat) (M : Lim) (build : Bool) (hz : Sizes x cap capI M) (root : Nat)
    (s : Store (Item Datum)) (h : Reach x cap capI M build s root) (es1 es2 : List Event) (y z : Sys (Item Datum)) (j : Nat)
    (h1 : Run x cap capI M build root (atRest s) es1 y) (hf : (y.th j).free = true)
    (h2 : Run x cap capI M build root (y.put j (Op.cursor.start root)) es2 z) (hl : ∀ e ∈ es2, e.leaves j = true)
    (acc : List (Item Datum)) (hd : z.th j = .ended acc) :
    SSorted x.cmp (fresh x.cmp acc) ∧ (∀ a ∈ contents y.store root, a ∈ fresh x.cmp acc) ∧
      ∀ a ∈ fresh x.cmp acc, a ∈ contents z.store root := by
  have htr : TransCmp x.cmp := cmpItem_trans _ _
  obtain ⟨K, hK, key, G, hk, I, -, -⟩ := reach_run hz h h1
  obtain ⟨G', I', hR⟩ := SInv.reader hz hk h2 (put_free I hf (op := .cursor) trivial) hl (by rw [put_same]; exact Or.inl rfl)
  rw [hd] at hR
  exact ⟨fresh_sorted _ _, fun a ha => fresh_of_delivered (hR.2 a ha), fun a ha => hR.1 a (fresh_sub _ _ a ha)⟩

/-- **C44.** Concurrent insertions, whatever happened before, with any other operations in between, aborted or not: at every moment the tree is
in order, searches find exactly what it contains, nothing gets lost and nothing is invented; and when an insertion of backend `j` has ended
with success, every item of its batch is found. -/
theorem C44_concurrent_insertions (x : Ctx) [TransCmp x.cmpV] (cap capI : Nat) (M : Lim) (build : Bool) (hz : Sizes x cap capI M) (root : Nat)
    (s : Store (Item Datum)) (h : Reach x cap capI M build s root) (es1 es2 : List Event) (y z : Sys (Item Datum)) (j : Nat)
    (b : List (Item Datum)) (hb : BatchOK x M b)
    (h1 : Run x cap capI M build root (atRest s) es1 y) (hf : (y.th j).free = true)
    (h2 : Run x cap capI M build root (y.put j ((Op.insert b).start root)) es2 z) (hl : ∀ e ∈ es2, e.leaves j = true) :
    SSorted x.cmp (contents y.store root) ∧
    (∀ a, 1 ≤ a.iptr.off → (lookup (dataOps x cap capI build) y.store root a = true ↔ ∃ i ∈ contents y.store root, x.cmp i a = .eq)) ∧
    (∀ a ∈ contents s root, a ∈ contents y.store root) ∧
    (∀ a ∈ contents y.store root, a ∈ contents s root ∨ ∃ i b', .start i (.insert b') ∈ es1 ∧ a ∈ b') ∧
    (∀ a ∈ contents y.store root, a ∈ contents z.store root) ∧
    (z.th j = .inserted → ∀ a ∈ b, lookup (dataOps x cap capI build) z.store root a = true) := by
  obtain ⟨K, hK, key, G, hk, I, k1, k2⟩ := reach_run hz h h1
  have hinv : Inv False x cap capI M y.store root := ⟨K, hK, key, G, hk, I.good, I.bnd trivial⟩
  have I1 := put_free I hf (op := .insert b) hb
  obtain ⟨G2, I2, k3, -, -⟩ := SInv.run (C := False) hz hk h2 I1 (fun c => c.elim)
  refine ⟨hinv.sorted, fun a ha => hinv.lookup build ha, k1, k2, k3, fun hd a ha => ?_⟩
  have hinv2 : Inv False x cap capI M z.store root := ⟨K, hK, key, G2, hk, I2.good, I2.bnd trivial⟩
  rw [hinv2.lookup build (hb.ok a ha).valid]
  obtain ⟨G3, I3, hP⟩ := SInv.follow hz hk j (fun t _ th => th ≠ .lost → a ∈ todo th ∨ ∃ i ∈ contents t root, x.cmp i a = .eq) h2
    (by
      intro y z G G' bad new I I' hs ht S hP hn
      have hn' : y.th j ≠ .lost := by
        intro h'
        rw [h'] at ht
        exact hn ht
      rcases hP hn' with h | ⟨i, hi, he⟩
      · exact S.made hn a h
      · exact Or.inr ⟨i, S.keep i hi, he⟩)
    (by
      intro y z G G' bad new I I' hM hk' ht hP
      rw [ht]
      intro hn
      rcases hP hn with h | ⟨i, hi, he⟩
      · exact Or.inl h
      · exact Or.inr ⟨i, hk' i hi, he⟩) I1 hl (by
      intro _
      rw [put_same]
      cases b with
      | nil => simp at ha
      | cons c b => exact Or.inl ha)
  rw [hd] at hP
  rcases hP (by simp) with h | h
  · simp [todo] at h
  · exact h

/-- **C45.** A tree created and then used by any number of backends, none of which is stopped in the middle of an operation: no insertion ever
fails ("Lost path"), and there is no deadlock: as long as a backend is busy, some busy backend can make its next step. -/
theorem C45_no_failure_no_deadlock (x : Ctx) [TransCmp x.cmpV] (cap capI : Nat) (M : Lim) (build : Bool) (hz : Sizes x cap capI M)
    (s0 : Store (Item Datum)) (its : List (Item Datum)) (hits : ListOK x M its) (hfit : checkList x.cfg ⟨0, 0⟩ 0 its ≤ cap)
    (es : List Event) (y : Sys (Item Datum))
    (h : Run x cap capI M build (createTree s0 its).2 (atRest (createTree s0 its).1) es y) (hes : ∀ e ∈ es, e.aborts = false) :
    (∀ i, y.th i ≠ .lost) ∧
    ∀ i, (y.th i).free = false → ∃ j z, (y.th j).free = false ∧ Fires x cap capI M build (createTree s0 its).2 (.act j) y z := by
  obtain ⟨⟨K, hK, key, G, hk, hG, hB⟩, -⟩ := inv_create (x := x) (cap := cap) (capI := capI) (M := M) True s0 its hits hfit
  obtain ⟨G', I, -, -, -⟩ := SInv.run (C := True) hz hk h (sinv_rest hG hB (fun _ => complete_adj (hG.complete trivial))) (fun _ => hes)
  exact ⟨I.notlost trivial, fun i hi => let ⟨j, z, h1, h2, _⟩ := SysInv.someone (seek := seekData x) trivial I hi; ⟨j, z, h1, h2⟩⟩

/-! ### Concrete cases -/

/-- Two backends. -/
def duo (s : Store (Item Datum)) (a b : Thread (Item Datum)) : Sys (Item Datum) := ⟨s, fun j => if j = 0 then a else if j = 1 then b else .idle⟩

theorem duo_put0 (s t : Store (Item Datum)) (a b a' : Thread (Item Datum)) : duo t a' b = ({ duo s a b with store := t } : Sys _).put 0 a' := by
  simp only [duo, Sys.put]
  congr 1
  funext j
  by_cases h0 : j = 0 <;> simp [h0]

theorem duo_put1 (s t : Store (Item Datum)) (a b b' : Thread (Item Datum)) : duo t a b' = ({ duo s a b with store := t } : Sys _).put 1 b' := by
  simp only [duo, Sys.put]
  congr 1
  funext j
  by_cases h0 : j = 0
  · simp [h0]
  · by_cases h1 : j = 1 <;> simp [h0, h1]

/-- `n` steps of one backend. -/
def solo (o : Ops (Item Datum)) (x : Ctx) (root : Nat) : Nat → Store (Item Datum) × Thread (Item Datum) → Store (Item Datum) × Thread (Item Datum)
  | 0, p => p
  | n + 1, p => solo o x root n (act o (seekData x) root p.1 p.2)

theorem Run.trans {y z w : Sys (Item Datum)} {es es' : List Event} (h : Run x cap capI M build root y es z)
    (h' : Run x cap capI M build root z es' w) : Run x cap capI M build root y (es ++ es') w := by
  induction h' with
  | refl => simpa using h
  | snoc h1 h2 ih => rw [← List.append_assoc]; exact Run.snoc ih h2

theorem Run.one {y z : Sys (Item Datum)} {e : Event} (h : Fires x cap capI M build root e y z) : Run x cap capI M build root y [e] z := by
  simpa using Run.snoc (Run.refl y) h

theorem run_solo0 {b : Thread (Item Datum)} (hb : holds b = none) : ∀ (n : Nat) (s : Store (Item Datum)) (a : Thread (Item Datum)),
    Run x cap capI M build root (duo s a b) (List.replicate n (.act 0)) (duo (solo (dataOps x cap capI build) x root n (s, a)).1
      (solo (dataOps x cap capI build) x root n (s, a)).2 b) := by
  intro n
  induction n with
  | zero => intro s a; exact Run.refl _
  | succ n ih =>
    intro s a
    refine Run.trans (es := [.act 0]) (Run.one ?_) (ih _ _)
    refine ⟨?_, ?_⟩
    · intro j hj c hc
      simp only [duo, if_neg hj] at hc
      split at hc
      · rw [hb] at hc; cases hc
      · cases hc
    · exact duo_put0 s _ a b _

theorem run_solo1 {a : Thread (Item Datum)} (ha : holds a = none) : ∀ (n : Nat) (s : Store (Item Datum)) (b : Thread (Item Datum)),
    Run x cap capI M build root (duo s a b) (List.replicate n (.act 1)) (duo (solo (dataOps x cap capI build) x root n (s, b)).1 a
      (solo (dataOps x cap capI build) x root n (s, b)).2) := by
  intro n
  induction n with
  | zero => intro s a; exact Run.refl _
  | succ n ih =>
    intro s b
    refine Run.trans (es := [.act 1]) (Run.one ?_) (ih _ _)
    refine ⟨?_, ?_⟩
    · intro j hj c hc
      simp only [duo, if_neg hj] at hc
      split at hc
      · rw [ha] at hc; cases hc
      · cases hc
    · exact duo_put1 s _ a b _

theorem run_start0 {s : Store (Item Datum)} {a b : Thread (Item Datum)} {op : Op (Item Datum)} (hf : a.free = true) (ho : OpOK x M op) :
    Run x cap capI M build root (duo s a b) [.start 0 op] (duo s (op.start root) b) := by
  exact Run.one ⟨hf, ho, duo_put0 s s a b _⟩

theorem run_start1 {s : Store (Item Datum)} {a b : Thread (Item Datum)} {op : Op (Item Datum)} (hf : b.free = true) (ho : OpOK x M op) :
    Run x cap capI M build root (duo s a b) [.start 1 op] (duo s a (op.start root)) := by
  exact Run.one ⟨hf, ho, duo_put1 s s a b _⟩

theorem duo_rest (s : Store (Item Datum)) : duo s .idle .idle = atRest s := by
  simp only [duo, atRest]
  congr 1
  funext j
  simp

instance exTrans : TransCmp PostingTree.exCtx.cmpV where
  eq_swap := rfl
  isLE_trans := fun _ _ => rfl

/-- The steps of the counterexample: a cursor opens a tree of a single page (7 items); an insertion splits this page; the cursor delivers what
it has loaded and asks for the next item. -/
def exCur : Store (Item Datum) × Thread (Item Datum) := solo (dataOps PostingTree.exCtx 76 96 false) PostingTree.exCtx 0 1 (exTree, .opening 0)
def exIns : Store (Item Datum) × Thread (Item Datum) :=
  solo (dataOps PostingTree.exCtx 76 96 false) PostingTree.exCtx 0 1 (exCur.1, .ins [exItem 7] 0 [])
def exEnd : Store (Item Datum) × Thread (Item Datum) := solo (dataOps PostingTree.exCtx 76 96 false) PostingTree.exCtx 0 6 (exIns.1, exCur.2)

/-- The cursor stands on the root, which is not a leaf any more, with nothing loaded. -/
def stuck (root : Nat) (s : Store (Item Datum)) : Thread (Item Datum) → Bool
  | .cursor b [] _ _ => b == root && !(s.page b).leaf
  | _ => false

theorem ex_facts : (holds exCur.2).isNone = true ∧ (holds exIns.2).isNone = true ∧ exIns.2.free = true ∧ stuck 0 exEnd.1 exEnd.2 = true := by
  unfold exEnd exIns exCur
  rw [← dataOpsF_eq]
  decide +kernel

theorem exRun_end : ∃ es, Run PostingTree.exCtx 76 96 12 false 0 (atRest exTree) es (duo exEnd.1 exEnd.2 exIns.2) := by
  obtain ⟨f1, f2, f3, -⟩ := ex_facts
  rw [← duo_rest]
  refine ⟨_, ((run_start0 (op := .cursor) rfl trivial).trans ((run_solo0 rfl 1 _ _).trans ((run_start1 (op := .insert [exItem 7]) rfl ?_).trans
    ((run_solo1 (Option.isNone_iff_eq_none.1 f1) 1 _ _).trans (run_solo0 (Option.isNone_iff_eq_none.1 f2) 6 _ _)))))⟩
  exact exBatch 7 (by decide)

theorem stuck_stays [TransCmp x.cmpV] (hz : Sizes x cap capI M) {s : Store (Item Datum)} (h : Reach x cap capI M build s root)
    {y : Sys (Item Datum)} {es : List Event} (hr : Run x cap capI M build root (atRest s) es y) {j : Nat} (hst : stuck root y.store (y.th j) = true)
    {z : Sys (Item Datum)} {es' : List Event} (hr' : Run x cap capI M build root y es' z) (hl : ∀ e ∈ es', e.leaves j = true) :
    z.th j = y.th j := by
  obtain ⟨K, hK, key, G, hk, I, -, -⟩ := reach_run hz h hr
  have W := I.good.weak
  obtain ⟨cur, acc, hth, hnl⟩ : ∃ cur acc, y.th j = .cursor root [] cur acc ∧ (y.store.page root).leaf = false := by
    cases hth : y.th j with
    | cursor b L cur acc =>
      rw [hth] at hst
      cases L with
      | nil =>
        simp only [stuck, Bool.and_eq_true, beq_iff_eq, Bool.not_eq_true'] at hst
        exact ⟨cur, acc, by rw [hst.1], by rw [← hst.1]; exact hst.2⟩
      | cons => simp [stuck] at hst
    | _ => rw [hth] at hst; simp [stuck] at hst
  have hh : 0 < G.h := by
    rcases Nat.eq_zero_or_pos G.h with h0 | h0
    · exfalso
      have hroot := W.root
      rw [h0] at hroot
      have := W.leaf root (by rw [hroot]; simp)
      rw [this] at hnl; cases hnl
    · exact h0
  obtain ⟨G', I', -, hP⟩ := SInv.follow hz hk j (fun s G th => 0 < G.h ∧ th = .cursor root [] cur acc) hr'
    (by
      rintro y z G G' bad new I I' hs ht S ⟨h0, h1⟩
      refine ⟨Nat.lt_of_lt_of_le h0 S.moved.keeps.h, ?_⟩
      have W := I.good.weak
      rw [ht, h1]
      have : (y.store.page root).leaf = false := by
        obtain ⟨k, hk⟩ : ∃ k, G.h = k + 1 := ⟨G.h - 1, by omega⟩
        exact (W.inner k (by omega) root (by rw [← hk, W.root]; simp)).1
      simp [act, this])
    (by
      rintro y z G G' bad new I I' hM hk' ht ⟨h0, h1⟩
      exact ⟨Nat.lt_of_lt_of_le h0 hM.keeps.h, by rw [ht, h1]⟩) I hl ⟨hh, hth⟩
  rw [hP, hth]

/-- **C40 is false for cursors.** A cursor opens a posting tree that consists of a single page; before it asks for the next page, an insertion
splits this page, so that it is not a leaf any more. From then on entryGetNextItem returns at once without an item and without marking the
entry as finished (`/repo/src/rumget.c:934-941`), and its caller asks again for as long as the entry is not finished and not beyond the last
item (`/repo/src/rumget.c:1641-1651`): whatever the other backends do, the cursor never comes to an end. -/
theorem C40_cursor_never_ends : ∃ (x : Ctx) (cap capI : Nat) (M : Lim) (build : Bool) (s : Store (Item Datum)) (root : Nat), Sizes x cap capI M ∧
    Reach x cap capI M build s root ∧ ∃ (y : Sys (Item Datum)) (es : List Event) (acc : List (Item Datum)),
      Run x cap capI M build root (atRest s) es y ∧
      ∀ z es', Run x cap capI M build root y es' z → (∀ e ∈ es', e.leaves 0 = true) → ∃ b cur, z.th 0 = .cursor b [] cur acc := by
  obtain ⟨f1, f2, f3, f4⟩ := ex_facts
  obtain ⟨es, hr⟩ := exRun_end
  have hz : Sizes PostingTree.exCtx 76 96 12 := ⟨by decide, by decide, by decide, by decide⟩
  obtain ⟨b, cur, acc, he⟩ : ∃ b cur acc, exEnd.2 = .cursor b [] cur acc := by
    cases hth : exEnd.2 with
    | cursor b L cur acc =>
      cases L with
      | nil => exact ⟨b, cur, acc, rfl⟩
      | cons => rw [hth] at f4; simp [stuck] at f4
    | _ => rw [hth] at f4; simp [stuck] at f4
  refine ⟨_, 76, 96, 12, false, exTree, 0, hz, exReach_tree, _, es, acc, hr, fun z es' hr' hl => ⟨b, cur, ?_⟩⟩
  rw [stuck_stays hz exReach_tree hr (j := 0) f4 hr' hl]
  exact he

/-- The runs used as examples below: an insertion splits the only page; a scan and a cursor go down and read a page; an insertion of seven
items splits a leaf; scan and cursor go on to their end. -/
def exA : Store (Item Datum) × Thread (Item Datum) :=
  solo (dataOps PostingTree.exCtx 76 96 false) PostingTree.exCtx 0 1 (exTree, .ins [exItem 7] 0 [])
def exBatch7 : List (Item Datum) := [8, 9, 10, 11, 12, 13, 14].map exItem
def exScan1 : Store (Item Datum) × Thread (Item Datum) := solo (dataOps PostingTree.exCtx 76 96 false) PostingTree.exCtx 0 2 (exA.1, .down 0)
def exCur1 : Store (Item Datum) × Thread (Item Datum) := solo (dataOps PostingTree.exCtx 76 96 false) PostingTree.exCtx 0 8 (exA.1, .opening 0)
def exB1 : Store (Item Datum) × Thread (Item Datum) :=
  solo (dataOps PostingTree.exCtx 76 96 false) PostingTree.exCtx 0 5 (exScan1.1, .ins exBatch7 0 [])
def exB2 : Store (Item Datum) × Thread (Item Datum) :=
  solo (dataOps PostingTree.exCtx 76 96 false) PostingTree.exCtx 0 5 (exCur1.1, .ins exBatch7 0 [])
def exScan2 : Store (Item Datum) × Thread (Item Datum) :=
  solo (dataOps PostingTree.exCtx 76 96 false) PostingTree.exCtx 0 2 (exB1.1, exScan1.2)
def exCur2 : Store (Item Datum) × Thread (Item Datum) :=
  solo (dataOps PostingTree.exCtx 76 96 false) PostingTree.exCtx 0 13 (exB2.1, exCur1.2)

/-- Number of items of a finished scan, of a finished cursor. -/
def scannedN : Thread (Item Datum) → Option Nat
  | .scanned acc => some acc.length
  | _ => none
def endedN : Thread (Item Datum) → Option Nat
  | .ended acc => some acc.length
  | _ => none

def isInserted : Thread (Item Datum) → Bool
  | .inserted => true
  | _ => false

theorem ex_facts2 : isInserted exA.2 = true ∧ isInserted exB1.2 = true ∧ isInserted exB2.2 = true ∧ (holds exScan1.2).isNone = true ∧
    (holds exCur1.2).isNone = true ∧ scannedN exScan2.2 = some 15 ∧ endedN exCur2.2 = some 15 := by
  unfold exScan2 exCur2 exB1 exB2 exScan1 exCur1 exA
  rw [← dataOpsF_eq]
  decide +kernel

theorem inserted_of {th : Thread (Item Datum)} (h : isInserted th = true) : th = .inserted := by
  cases th <;> simp [isInserted] at h
  rfl

theorem exBatch7_ok : BatchOK PostingTree.exCtx 12 exBatch7 := by
  refine ⟨?_, ?_, fun h => by cases h⟩
  · unfold SSorted exBatch7; decide +kernel
  · intro it hi
    obtain ⟨n, hn, rfl⟩ := List.mem_map.1 hi
    exact exStorable n (by simp at hn; omega)

theorem exRunA : ∃ es, Run PostingTree.exCtx 76 96 12 false 0 (atRest exTree) es (duo exA.1 .idle exA.2) := by
  rw [← duo_rest]
  exact ⟨_, (run_start1 (op := .insert [exItem 7]) rfl (exBatch 7 (by decide))).trans (run_solo1 rfl 1 _ _)⟩

/-- The hypotheses of `C40_full_scan_complete` are met by a scan during which a leaf is split: it started with 8 items and returns 15. -/
example : ∃ es1 es2 y z acc, Run PostingTree.exCtx 76 96 12 false 0 (atRest exTree) es1 y ∧ (y.th 0).free = true ∧
    Run PostingTree.exCtx 76 96 12 false 0 (y.put 0 (Op.scan.start 0)) es2 z ∧ (∀ e ∈ es2, e.leaves 0 = true) ∧ z.th 0 = .scanned acc ∧
    acc.length = 15 := by
  obtain ⟨f1, f2, f3, f4, f5, f6, f7⟩ := ex_facts2
  obtain ⟨es1, h1⟩ := exRunA
  obtain ⟨acc, hacc, hlen⟩ : ∃ acc, exScan2.2 = .scanned acc ∧ acc.length = 15 := by
    cases hth : exScan2.2 <;> rw [hth] at f6 <;> simp [scannedN] at f6
    exact ⟨_, rfl, f6⟩
  refine ⟨es1, List.replicate 2 (.act 0) ++ ([.start 1 (.insert exBatch7)] ++ (List.replicate 5 (.act 1) ++ List.replicate 2 (.act 0))), _,
    duo exScan2.1 exScan2.2 exB1.2, acc, h1, rfl, ?_, ?_, hacc, hlen⟩
  · rw [show (duo exA.1 .idle exA.2).put 0 (Op.scan.start 0) = duo exA.1 (.down 0) exA.2 from (duo_put0 exA.1 exA.1 _ _ _).symm]
    refine (run_solo0 (by rw [inserted_of f1]; rfl) 2 _ _).trans ((run_start1 (op := .insert exBatch7) (by rw [inserted_of f1]; rfl) exBatch7_ok).trans
      ((run_solo1 (Option.isNone_iff_eq_none.1 f4) 5 _ _).trans (run_solo0 ?_ 2 _ _)))
    show holds exB1.2 = none
    rw [inserted_of f2]; rfl
  · intro e he
    simp only [List.mem_append, List.mem_replicate, List.mem_singleton] at he
    rcases he with ⟨-, rfl⟩ | rfl | ⟨-, rfl⟩ | ⟨-, rfl⟩ <;> rfl

/-- The same for `C40_cursor_complete_partial`, with a cursor that has read the first of two pages when the second is split, and for
`C44_concurrent_insertions`: the insertion has ended. -/
example : ∃ es1 es2 y z acc, Run PostingTree.exCtx 76 96 12 false 0 (atRest exTree) es1 y ∧ (y.th 0).free = true ∧
    Run PostingTree.exCtx 76 96 12 false 0 (y.put 0 (Op.cursor.start 0)) es2 z ∧ (∀ e ∈ es2, e.leaves 0 = true) ∧ z.th 0 = .ended acc ∧
    acc.length = 15 := by
  obtain ⟨f1, f2, f3, f4, f5, f6, f7⟩ := ex_facts2
  obtain ⟨es1, h1⟩ := exRunA
  obtain ⟨acc, hacc, hlen⟩ : ∃ acc, exCur2.2 = .ended acc ∧ acc.length = 15 := by
    cases hth : exCur2.2 <;> rw [hth] at f7 <;> simp [endedN] at f7
    exact ⟨_, rfl, f7⟩
  refine ⟨es1, List.replicate 8 (.act 0) ++ ([.start 1 (.insert exBatch7)] ++ (List.replicate 5 (.act 1) ++ List.replicate 13 (.act 0))), _,
    duo exCur2.1 exCur2.2 exB2.2, acc, h1, rfl, ?_, ?_, hacc, hlen⟩
  · rw [show (duo exA.1 .idle exA.2).put 0 (Op.cursor.start 0) = duo exA.1 (.opening 0) exA.2 from (duo_put0 exA.1 exA.1 _ _ _).symm]
    refine (run_solo0 (by rw [inserted_of f1]; rfl) 8 _ _).trans ((run_start1 (op := .insert exBatch7) (by rw [inserted_of f1]; rfl) exBatch7_ok).trans
      ((run_solo1 (Option.isNone_iff_eq_none.1 f5) 5 _ _).trans (run_solo0 ?_ 13 _ _)))
    show holds exB2.2 = none
    rw [inserted_of f3]; rfl
  · intro e he
    simp only [List.mem_append, List.mem_replicate, List.mem_singleton] at he
    rcases he with ⟨-, rfl⟩ | rfl | ⟨-, rfl⟩ | ⟨-, rfl⟩ <;> rfl

/-- The hypotheses of `C44_concurrent_insertions` and `C45_no_failure_no_deadlock` are met by a finished insertion. -/
example : BatchOK PostingTree.exCtx 12 [exItem 7] ∧ ∃ es z, Run PostingTree.exCtx 76 96 12 false 0 ((atRest exTree).put 1 ((Op.insert [exItem 7]).start 0)) es z ∧
    (∀ e ∈ es, e.leaves 1 = true) ∧ z.th 1 = .inserted ∧ exTree = (createTree exStore ((List.range 7).map exItem)).1 ∧ ∀ e ∈ es, e.aborts = false := by
  obtain ⟨f1, -⟩ := ex_facts2
  refine ⟨exBatch 7 (by decide), List.replicate 1 (.act 1), duo exA.1 .idle exA.2, ?_, ?_, inserted_of f1, rfl, ?_⟩
  · rw [show (atRest exTree).put 1 ((Op.insert [exItem 7]).start 0) = duo exTree .idle (.ins [exItem 7] 0 []) by
      rw [← duo_rest]; exact (duo_put1 exTree exTree _ _ _).symm]
    exact run_solo1 rfl 1 _ _
  · simp [Event.leaves]
  · simp [Event.aborts]

end Rum.Props.Conc

import Verif.TreeVacLemmas
import Verif.Props.PostingTree
import Verif.Props.Codec
/-!
# C12, C14: VACUUM of posting trees
-/
namespace Rum.Props.VacuumTree
open Rum Rum.Tree Rum.Codec Rum.Leaf Rum.Entry Rum.Props Rum.Props.PostingTree Std

/-! ### Specification -/

/-- What happens to a posting tree after the index was built: rows are added one at a time (`/repo/src/ruminsert.c:764-815`), VACUUM is
told which rows are dead. -/
inductive Event where
  | insert (y : Item Datum)
  | vacuum (dead : Iptr → Bool)

/-- The effect on the set of items. -/
def Event.spec (x : Ctx) (l : List (Item Datum)) : Event → List (Item Datum)
  | .insert y => if l.any (fun z => x.cmp z y == .eq) then l else l ++ [y]
  | .vacuum dead => l.filter (fun y => !dead y.iptr)

/-- The effect on the tree; `false`: an error was raised. -/
def Event.run (x : Ctx) (cap capI : Nat) (root : Nat) (s : Store (Item Datum)) : Event → Store (Item Datum) × Bool
  | .insert y =>
    let r := insertItems (dataOps x cap capI false) root 1 s [y]
    (lastStore s r.1, r.2)
  | .vacuum dead => (lastStore s (vacuumTree (dataVac x.cfg dead) s root), true)

/-- A sequence of events. -/
def runs (x : Ctx) (cap capI : Nat) (root : Nat) (s : Store (Item Datum)) : List Event → Store (Item Datum) × Bool
  | [] => (s, true)
  | e :: es => let r := e.run x cap capI root s; if r.2 then runs x cap capI root r.1 es else r

/-- The events are about storable items. -/
def Event.OK (x : Ctx) (M : Lim) : Event → Prop
  | .insert y => Storable x M y
  | .vacuum _ => True

/-- A tree that was built, then changed by events, without a crash: store and root. -/
structure History (x : Ctx) (cap capI : Nat) (M : Lim) where
  s0 : Store (Item Datum)
  its : List (Item Datum)
  bs : List (List (Item Datum))
  evs : List Event
  itsOK : ListOK x M its
  fits : checkList x.cfg ⟨0, 0⟩ 0 its ≤ cap
  bsOK : ∀ b ∈ bs, BatchOK x M b
  evsOK : ∀ e ∈ evs, e.OK x M

namespace History
variable {x : Ctx} {cap capI : Nat} {M : Lim}

def root (H : History x cap capI M) : Nat := (createTree H.s0 H.its).2
/-- The tree after the build. -/
def built (H : History x cap capI M) : Store (Item Datum) × Bool :=
  insertMany (dataOps x cap capI true) H.root (createTree H.s0 H.its).1 H.bs
/-- The tree after the events. -/
def final (H : History x cap capI M) : Store (Item Datum) × Bool := runs x cap capI H.root H.built.1 H.evs
/-- The set of items it should hold. -/
def spec (H : History x cap capI M) : List (Item Datum) :=
  H.evs.foldl (Event.spec x) (keepFirst x.cmp (H.its ++ H.bs.flatten))
end History

/-! ### Proof apparatus -/

section
variable {x : Ctx} {cap capI : Nat} {M : Lim}

theorem blkSorted_of (l : List (Item Datum)) (k : Nat) (hp : l.Pairwise (fun a b => a.iptr.blk ≤ b.iptr.blk))
    (hk : ∀ y ∈ l, k ≤ y.iptr.blk) : BlkSorted k l := by
  induction l generalizing k with
  | nil => trivial
  | cons a l ih =>
    rw [List.pairwise_cons] at hp
    exact ⟨hk a (by simp), ih _ hp.2 hp.1⟩

theorem fits_filter (dead : Iptr → Bool) {its : List (Item Datum)} (h : FitsPage x M cap its) (hs : SSorted x.cmp its) :
    FitsPage x M cap (its.filter (fun y => !dead y.iptr)) := by
  refine ⟨fun it hi => h.all it (List.mem_filter.1 hi).1, ?_⟩
  have hsz : checkList x.cfg ⟨0, 0⟩ 0 (surv dead its) ≤ checkList x.cfg ⟨0, 0⟩ 0 its := by
    refine checkList_filter_le x.cfg dead its ⟨0, 0⟩ ⟨0, 0⟩ 0 0 (fun it hi => (h.all it hi).ok) (fun halt => ?_) (Or.inl (Nat.le_refl _))
      (Nat.le_refl _) (fun _ => Or.inl rfl)
    refine blkSorted_of its 0 (hs.imp (fun {a b} hab => ?_)) (fun _ _ => Nat.zero_le _)
    simp only [Ctx.cmp, halt, Bool.false_and, cmpItem, Bool.false_eq_true, if_false] at hab
    unfold cmpIptr at hab
    split at hab
    · omega
    · split at hab
      · simp at hab
      · omega
  exact hsz.trans h.fit

theorem dataVac_eq (dead : Iptr → Bool) {its : List (Item Datum)} (h : FitsPage x M cap its) :
    dataVac x.cfg dead its = its.filter (fun y => !dead y.iptr) := by
  have hok : ∀ it ∈ its, ItemOK x.cfg it := fun it hi => (h.all it hi).ok
  obtain ⟨data, hd, -⟩ := placeList_ok x.cfg its 0 ⟨0, 0⟩ hok
  obtain ⟨idx, hi1, -, -⟩ := updateItemIndexes_ok x.cfg its data hok (fun it hi => (h.all it hi).stored) hd
  unfold dataVac buildPage
  rw [hd]
  simp only [hi1]
  obtain ⟨out, h1, h2, h3⟩ := C12_vacuum_posting_list x.cfg dead its data hok hd
  rw [h1]
  cases out with
  | none => exact (h2 rfl).symm
  | some bytes =>
    simp only
    have := h3 bytes [] rfl
    rw [List.append_nil] at this
    unfold decodePage
    simp only [this]
    conv_rhs => rw [← List.map_id (its.filter (fun y => !dead y.iptr))]
    exact List.map_congr_left (fun i hi => (h.all i (List.mem_filter.1 hi).1).stored)

/-- The invariant without anything about the bounds. -/
def InvV (C : Prop) (x : Ctx) (cap capI : Nat) (M : Lim) (s : Store (Item Datum)) (root : Nat) : Prop :=
  ∃ (K : Type) (_ : LinearOrder K) (key : Item Datum → K) (G : Ghost), KeyOf x.cmp key ∧
    Good C key false (fun D => D.length * 24 ≤ capI) (fun _ => True) (FitsPage x M cap) s root G

theorem InvV.sorted {C : Prop} [TransCmp x.cmpV] {s : Store (Item Datum)} {root : Nat} (h : InvV C x cap capI M s root) :
    SSorted x.cmp (contents s root) := by
  obtain ⟨K, hK, key, G, hk, hG⟩ := h
  exact contents_sorted (o := dataOps x cap capI false) hk hG.weak

theorem InvV.lookup {C : Prop} [TransCmp x.cmpV] {s : Store (Item Datum)} {root : Nat} (h : InvV C x cap capI M s root) (build : Bool)
    {y : Item Datum} (hy : 1 ≤ y.iptr.off) :
    Tree.lookup (dataOps x cap capI build) s root y = true ↔ ∃ i ∈ contents s root, x.cmp i y = .eq := by
  obtain ⟨K, hK, key, G, hk, hG⟩ := h
  exact lookup_spec (o := dataOps x cap capI build) hk (locateData_ok hk rfl) hG (fun its hP hs => found_ok build y hy its hP hs)

theorem InvV.insert_one {C : Prop} [TransCmp x.cmpV] (hz : Sizes x cap capI M) {s : Store (Item Datum)} {root : Nat} (h : InvV C x cap capI M s root)
    {y : Item Datum} (hy : Storable x M y) (build : Bool) :
    ∃ ts ok, insertItems (dataOps x cap capI build) root 1 s [y] = (ts, ok) ∧ (C → ok = true) ∧ InvV C x cap capI M (lastStore s ts) root ∧
      (∀ z, z ∈ contents (lastStore s ts) root ↔ Upd x.cmp true (contents s root) [y] z) := by
  obtain ⟨K, hK, key, G, hk, hG⟩ := h
  obtain ⟨ts, ok, t1, t2, t3, t4, G', t5, t6⟩ := insertItem_spec (o := dataOps x cap capI build) hk (locateData_ok hk rfl)
    (dataInnerLaws x cap capI build hz.inner) (dataLeafLaws x cap capI M build hz.leaf hz.align hz.padded) 0 hG ⟨by simpa using hy, fun _ => by simp⟩
  exact ⟨ts, ok, t1, t2, ⟨K, hK, key, G', hk, t5⟩, t6⟩

theorem Good.pages {α K : Type} [LinearOrder K] {key : α → K} {C : Prop} {strict : Bool} {IOK : List (α × Nat) → Prop} {KOK : α → Prop} {POK : List α → Prop}
    {s : Store α} {root : Nat} {G : Ghost} (h : Good C key strict IOK KOK POK s root G) : ∀ c ∈ G.lv 0, POK (s.page c).items := by
  intro c hc
  exact h.fit ((s.page c).items, hiP key (s.page c)) (List.mem_map.2 ⟨c, hc, rfl⟩)

theorem sublist_flatMap {β γ : Type} {f g : β → List γ} (l : List β) (h : ∀ c ∈ l, (f c).Sublist (g c)) : (l.flatMap f).Sublist (l.flatMap g) := by
  induction l with
  | nil => simp
  | cons a l ih =>
    simp only [List.flatMap_cons]
    exact (h a (by simp)).append (ih (fun c hc => h c (by simp [hc])))

/-- One VACUUM of a complete tree, record by record. -/
theorem vacuum_chain [TransCmp x.cmpV] {K : Type} [LinearOrder K] {key : Item Datum → K} {G : Ghost} {s : Store (Item Datum)} {root : Nat}
    (hk : KeyOf x.cmp key) (hG : Good True key false (fun D => D.length * 24 ≤ capI) (fun _ => True) (FitsPage x M cap) s root G) (dead : Iptr → Bool) :
    ∃ G', Good True key false (fun D => D.length * 24 ≤ capI) (fun _ => True) (FitsPage x M cap) (lastStore s (vacuumTree (dataVac x.cfg dead) s root)) root G' ∧
      Chain key root (fun y => !dead y.iptr) s G (vacuumTree (dataVac x.cfg dead) s root) G' := by
  obtain ⟨s1, G', h1, h2, h3, h4, -, h5⟩ := vacuumTree_spec (live := fun y => !dead y.iptr)
    (V := fun its => FitsPage x M cap its ∧ SSorted x.cmp its) (vac := dataVac x.cfg dead)
    (fun its hV => ⟨dataVac_eq dead hV.1, fits_filter dead hV.1 hV.2, hV.2.sublist List.filter_sublist⟩) hG.weak (hG.complete trivial)
    (fun c hc => ⟨Good.pages hG c hc, (ssorted_key (o := dataOps x cap capI false) hk).2 (hG.weak.order.sorted c hc)⟩)
  refine ⟨G', ⟨h1, fun _ => h2, ⟨fun k hk' b hb => ?_, fun _ _ _ _ => trivial⟩, fun p hp => ?_⟩, h5⟩
  · have hh := h4.h
    obtain ⟨a1, a2, a3, a4⟩ := h4.pages (k + 1) (by omega) b hb
    have := hG.sized.inner k (by omega) b a1
    rw [h3.2 b] at a4
    simp only at a4
    have := Nat.mul_le_mul_right 24 a4
    omega
  · obtain ⟨c, hc, rfl⟩ := List.mem_map.1 hp
    obtain ⟨a1, a2, a3, a4⟩ := h4.pages 0 (Nat.zero_le _) c hc
    simp only
    rw [a2, h3.2 c]
    simp only [if_pos a1]
    exact fits_filter dead (Good.pages hG c a1) ((ssorted_key (o := dataOps x cap capI false) hk).2 (hG.weak.order.sorted c a1))

/-- One VACUUM of a complete tree. -/
theorem InvV.vacuum [TransCmp x.cmpV] {s : Store (Item Datum)} {root : Nat} (h : InvV True x cap capI M s root) (dead : Iptr → Bool) :
    InvV True x cap capI M (lastStore s (vacuumTree (dataVac x.cfg dead) s root)) root ∧
    contents (lastStore s (vacuumTree (dataVac x.cfg dead) s root)) root = (contents s root).filter (fun y => !dead y.iptr) ∧
    ∀ u ∈ vacuumTree (dataVac x.cfg dead) s root, List.Sublist (contents u root) (contents s root) ∧
      ∀ y ∈ contents s root, dead y.iptr = false → y ∈ contents u root := by
  obtain ⟨K, hK, key, G, hk, hG⟩ := h
  obtain ⟨s1, G', h1, h2, h3, h4, h5, -⟩ := vacuumTree_spec (live := fun y => !dead y.iptr)
    (V := fun its => FitsPage x M cap its ∧ SSorted x.cmp its) (vac := dataVac x.cfg dead)
    (fun its hV => ⟨dataVac_eq dead hV.1, fits_filter dead hV.1 hV.2, hV.2.sublist List.filter_sublist⟩) hG.weak (hG.complete trivial)
    (fun c hc => ⟨Good.pages hG c hc, (ssorted_key (o := dataOps x cap capI false) hk).2 (hG.weak.order.sorted c hc)⟩)
  have hpg : ∀ c ∈ G.lv 0, FitsPage x M cap (s1.page c).items := by
    intro c hc
    rw [h3.2 c]
    simp only [if_pos hc]
    exact fits_filter dead (Good.pages hG c hc) ((ssorted_key (o := dataOps x cap capI false) hk).2 (hG.weak.order.sorted c hc))
  have hcon : flat s1 G = (contents s root).filter (fun y => !dead y.iptr) := by
    rw [h3.flat (fun c hc => hc), hG.weak.contents]
  refine ⟨⟨K, hK, key, G', hk, h1, fun _ => h2, ⟨fun k hk' b hb => ?_, fun _ _ _ _ => trivial⟩, fun p hp => ?_⟩, ?_, fun u hu => ?_⟩
  · have hh := h4.h
    obtain ⟨a1, a2, a3, a4⟩ := h4.pages (k + 1) (by omega) b hb
    have := hG.sized.inner k (by omega) b a1
    rw [h3.2 b] at a4
    simp only at a4
    have := Nat.mul_le_mul_right 24 a4
    omega
  · obtain ⟨c, hc, rfl⟩ := List.mem_map.1 hp
    obtain ⟨a1, a2, a3, a4⟩ := h4.pages 0 (Nat.zero_le _) c hc
    simp only
    rw [a2]
    exact hpg c a1
  · rw [h1.contents, h4.flat, hcon]
  · rcases h5 u hu with ⟨L, hL, hcl⟩ | ⟨Gu, q, hT, hless⟩
    · rw [(hcl.weak hG.weak).contents, hG.weak.contents]
      unfold flat
      constructor
      · refine sublist_flatMap _ (fun c hc => ?_)
        rw [hcl.2 c]
        simp only
        split
        · exact List.filter_sublist
        · exact List.Sublist.refl _
      · intro y hy hd
        obtain ⟨c, hc, hy⟩ := List.mem_flatMap.1 hy
        refine List.mem_flatMap.2 ⟨c, hc, ?_⟩
        rw [hcl.2 c]
        simp only
        split
        · exact List.mem_filter.2 ⟨hy, by simp [hd]⟩
        · exact hy
    · rw [hT.contents, hless.flat, hcon]
      exact ⟨List.filter_sublist, fun y hy hd => List.mem_filter.2 ⟨hy, by simp [hd]⟩⟩

theorem Inv.toV {C : Prop} {s : Store (Item Datum)} {root : Nat} (h : Inv C x cap capI M s root) : InvV C x cap capI M s root := by
  obtain ⟨K, hK, key, G, hk, hG, -⟩ := h
  exact ⟨K, hK, key, G, hk, hG⟩

theorem InvV.runs [TransCmp x.cmpV] (hz : Sizes x cap capI M) {root : Nat} (evs : List Event) :
    ∀ (l : List (Item Datum)) (s : Store (Item Datum)), (∀ e ∈ evs, e.OK x M) → InvV True x cap capI M s root →
      (∀ y, y ∈ contents s root ↔ y ∈ l) → ∃ t, runs x cap capI root s evs = (t, true) ∧ InvV True x cap capI M t root ∧
        ∀ y, y ∈ contents t root ↔ y ∈ evs.foldl (Event.spec x) l := by
  induction evs with
  | nil => intro l s _ hI hc; exact ⟨s, rfl, hI, hc⟩
  | cons e evs ih =>
    intro l s hOK hI hc
    have hOK' : ∀ e ∈ evs, e.OK x M := fun e' h => hOK e' (by simp [h])
    cases e with
    | insert y =>
      obtain ⟨ts, ok, t1, t2, t3, t4⟩ := hI.insert_one hz (hOK (.insert y) (by simp)) false
      obtain rfl := t2 trivial
      obtain ⟨t, u1, u2, u3⟩ := ih (Event.spec x l (.insert y)) _ hOK' t3 (by
        intro z
        rw [t4]
        simp only [Upd, if_true, hc, Event.spec, List.mem_singleton]
        by_cases hany : l.any (fun z => x.cmp z y == .eq) = true
        · rw [if_pos hany]
          obtain ⟨w, hw, he⟩ := List.any_eq_true.1 hany
          constructor
          · rintro (h | ⟨rfl, h⟩)
            · exact h
            · exact absurd (by simpa using he) (h w hw)
          · exact Or.inl
        · rw [if_neg hany]
          simp only [List.mem_append, List.mem_singleton]
          constructor
          · rintro (h | ⟨rfl, h⟩)
            · exact Or.inl h
            · exact Or.inr rfl
          · rintro (h | rfl)
            · exact Or.inl h
            · exact Or.inr ⟨rfl, fun w hw he => hany (List.any_eq_true.2 ⟨w, hw, by simp [he]⟩)⟩)
      refine ⟨t, ?_, u2, u3⟩
      simp only [VacuumTree.runs, Event.run, t1, if_true]
      exact u1
    | vacuum dead =>
      obtain ⟨v1, v2, -⟩ := hI.vacuum dead
      obtain ⟨t, u1, u2, u3⟩ := ih (Event.spec x l (.vacuum dead)) _ hOK' v1 (by
        intro z
        rw [v2]
        simp only [Event.spec, List.mem_filter, hc])
      refine ⟨t, ?_, u2, u3⟩
      simp only [VacuumTree.runs, Event.run, if_true]
      exact u1

theorem History.inv [TransCmp x.cmpV] (hz : Sizes x cap capI M) (H : History x cap capI M) :
    H.built.2 = true ∧ H.final.2 = true ∧ InvV True x cap capI M H.final.1 H.root ∧ ∀ y, y ∈ contents H.final.1 H.root ↔ y ∈ H.spec := by
  obtain ⟨hI, hc⟩ := inv_create (x := x) (cap := cap) (capI := capI) (M := M) True H.s0 H.its H.itsOK H.fits
  obtain ⟨s, h1, h2, h3⟩ := Inv.insertMany hz (build := true) H.bs H.its _ H.bsOK hI
    (by intro y; rw [hc, keepFirst_sorted x.cmp H.its H.itsOK.sorted])
  obtain ⟨t, u1, u2, u3⟩ := InvV.runs hz H.evs _ s H.evsOK (Inv.toV h2) h3
  have e1 : H.built = (s, true) := h1
  have e2 : H.final = (t, true) := by
    unfold History.final
    rw [e1]
    exact u1
  refine ⟨by rw [e1], by rw [e2], by rw [e2]; exact u2, by rw [e2]; exact u3⟩

/-- The cleaning phase, also of a tree with incomplete splits. -/
theorem InvV.clean {C : Prop} [TransCmp x.cmpV] {s : Store (Item Datum)} {root : Nat} (h : InvV C x cap capI M s root) (dead : Iptr → Bool)
    (u : Store (Item Datum)) (hu : u ∈ (vacLeaves (dataVac x.cfg dead) s.next s true root).1) :
    InvV C x cap capI M u root ∧ List.Sublist (contents u root) (contents s root) ∧
      ∀ y ∈ contents s root, dead y.iptr = false → y ∈ contents u root := by
  obtain ⟨K, hK, key, G, hk, hG⟩ := h
  have hroot : root ∈ G.lv G.h := by rw [hG.weak.root]; simp
  have hpg : ∀ c ∈ G.lv 0, FitsPage x M cap (s.page c).items ∧ SSorted x.cmp (s.page c).items := fun c hc =>
    ⟨Good.pages hG c hc, (ssorted_key (o := dataOps x cap capI false) hk).2 (hG.weak.order.sorted c hc)⟩
  obtain ⟨L, hL, hcl⟩ := (vacLeaves_spec (live := fun y => !dead y.iptr) (V := fun its => FitsPage x M cap its ∧ SSorted x.cmp its)
    (vac := dataVac x.cfg dead)
    (fun its hV => ⟨dataVac_eq dead hV.1, fits_filter dead hV.1 hV.2, hV.2.sublist List.filter_sublist⟩) s.next G.h s true root
    (height_lt hG.weak) (_root_.le_refl _) hG.weak hpg hroot).2 u hu
  have W := hcl.weak hG.weak
  refine ⟨⟨K, hK, key, G, hk, W, hG.complete, ⟨fun k hk' b hb => ?_, fun _ _ _ _ => trivial⟩, fun p hp => ?_⟩, ?_, ?_⟩
  · have := hG.sized.inner k hk' b hb
    rw [hcl.2 b]
    exact this
  · obtain ⟨c, hc, rfl⟩ := List.mem_map.1 hp
    simp only
    rw [hcl.2 c]
    simp only
    split
    · exact fits_filter dead (hpg c hc).1 (hpg c hc).2
    · exact (hpg c hc).1
  · rw [W.contents, hG.weak.contents]
    refine sublist_flatMap _ (fun c hc => ?_)
    rw [hcl.2 c]
    simp only
    split
    · exact List.filter_sublist
    · exact List.Sublist.refl _
  · rw [W.contents, hG.weak.contents]
    intro y hy hd
    obtain ⟨c, hc, hy⟩ := List.mem_flatMap.1 hy
    refine List.mem_flatMap.2 ⟨c, hc, ?_⟩
    rw [hcl.2 c]
    simp only
    split
    · exact List.mem_filter.2 ⟨hy, by simp [hd]⟩
    · exact hy

end

/-! ### Properties -/

/-- **C12 (posting trees).** Any history of a posting tree without a crash (built from batches, then rows inserted and VACUUMs, in any order
and number): nothing fails, a scan of the leaves meets exactly the items that were inserted and not reported dead by a later VACUUM, in
order and each once, and a descent from the root finds exactly these. -/
theorem C12_tree_exact (x : Ctx) [TransCmp x.cmpV] (cap capI : Nat) (M : Lim) (hz : Sizes x cap capI M) (H : History x cap capI M) :
    H.built.2 = true ∧ H.final.2 = true ∧ SSorted x.cmp (contents H.final.1 H.root) ∧
    (∀ y, y ∈ contents H.final.1 H.root ↔ y ∈ H.spec) ∧
    ∀ (build : Bool) (y : Item Datum), 1 ≤ y.iptr.off → (lookup (dataOps x cap capI build) H.final.1 H.root y = true ↔
      ∃ i ∈ H.spec, x.cmp i y = .eq) := by
  obtain ⟨h1, h2, h3, h4⟩ := H.inv hz
  refine ⟨h1, h2, h3.sorted, h4, fun build y hy => ?_⟩
  rw [h3.lookup build hy]
  simp only [h4]

/-- **C14 (posting trees).** At every log record of a VACUUM of a tree with such a history (page cleanings and page deletions): a scan meets
what it met before without some dead items, in the same order, and no live item is missing. -/
theorem C14_tree_records (x : Ctx) [TransCmp x.cmpV] (cap capI : Nat) (M : Lim) (hz : Sizes x cap capI M) (H : History x cap capI M) (dead : Iptr → Bool)
    (u : Store (Item Datum)) (hu : u ∈ vacuumTree (dataVac x.cfg dead) H.final.1 H.root) :
    List.Sublist (contents u H.root) (contents H.final.1 H.root) ∧
    ∀ y ∈ contents H.final.1 H.root, dead y.iptr = false → y ∈ contents u H.root :=
  ((H.inv hz).2.2.1.vacuum dead).2.2 u hu

/-- **C12 and C14 after crashes, partial.** Whatever the history, crashes included: at every log record of the cleaning phase of a VACUUM a scan
meets what it met before without some dead items, no live item is missing, and a descent finds exactly what is there. Missing: that all dead
items are removed (false, `C12_violated`), and the deletion of empty pages (which loses live items, `C14_violated`). -/
theorem C14_cleaning_after_crash_partial (x : Ctx) [TransCmp x.cmpV] (cap capI : Nat) (M : Lim) (build : Bool) (hz : Sizes x cap capI M)
    (s : Store (Item Datum)) (root : Nat) (h : Reach x cap capI M build s root) (dead : Iptr → Bool)
    (u : Store (Item Datum)) (hu : u ∈ (vacLeaves (dataVac x.cfg dead) s.next s true root).1) :
    List.Sublist (contents u root) (contents s root) ∧ (∀ y ∈ contents s root, dead y.iptr = false → y ∈ contents u root) ∧
    ∀ y, 1 ≤ y.iptr.off → (lookup (dataOps x cap capI build) u root y = true ↔ ∃ i ∈ contents u root, x.cmp i y = .eq) := by
  obtain ⟨h1, h2, h3⟩ := (Inv.toV (h.inv hz)).clean dead u hu
  exact ⟨h2, h3, fun y hy => h1.lookup build hy⟩

/-! ### Concrete cases and counterexamples -/

/-- **C12 is false after a crash.** In a tree with an incomplete split, VACUUM does not visit the right page of that split: with every row dead,
items remain, and a scan meets them. -/
theorem C12_violated : ∃ (x : Ctx) (cap capI : Nat) (M : Lim) (build : Bool) (s : Store (Item Datum)) (root : Nat),
    Sizes x cap capI M ∧ Reach x cap capI M build s root ∧
    contents (lastStore s (vacuumTree (dataVac x.cfg (fun _ => true)) s root)) root ≠ [] := by
  refine ⟨PostingTree.exCtx, 76, 96, 12, false, exOrphan, 0, ⟨by decide, by decide, by decide, fun h => by cases h⟩, exReach_orphan, ?_⟩
  unfold exOrphan exRun exCrash exInsert
  rw [← dataOpsF_eq]
  decide +kernel

/-- A tree whose second leaf was split by an insertion that crashed before the parent got the downlink. -/
def exMiddle : Store (Item Datum) := exCrash (exRun exTree [11, 12, 13, 14, 15, 7, 8]) 9

theorem exReach_middle : Reach PostingTree.exCtx 76 96 12 false exMiddle 0 :=
  exReach_crash (exReach_run _ exReach_tree (by decide)) 9 (by decide)

/-- **C14 is false after a crash.** The left page of an incomplete split becomes empty, VACUUM deletes it and its downlink: the live items of the
right page, found by descents before, are not found any more. -/
theorem C14_violated : ∃ (x : Ctx) (cap capI : Nat) (M : Lim) (build : Bool) (s : Store (Item Datum)) (root : Nat) (dead : Iptr → Bool) (y : Item Datum),
    Sizes x cap capI M ∧ Reach x cap capI M build s root ∧ Storable x M y ∧ dead y.iptr = false ∧
    lookup (dataOps x cap capI build) s root y = true ∧
    lookup (dataOps x cap capI build) (lastStore s (vacuumTree (dataVac x.cfg dead) s root)) root y = false := by
  refine ⟨PostingTree.exCtx, 76, 96, 12, false, exMiddle, 0, fun i => decide (5 ≤ i.blk ∧ i.blk ≤ 8), exItem 11, ⟨by decide, by decide, by decide, fun h => by cases h⟩,
    exReach_middle, exStorable 11 (by decide), rfl, ?_, ?_⟩
  all_goals
    unfold exMiddle exRun exCrash exInsert
    rw [← dataOpsF_eq]
    decide +kernel

/-- A history with a build, insertions, a VACUUM that deletes a page, and an insertion after it. -/
def exHistory : History PostingTree.exCtx 76 96 12 where
  s0 := exStore
  its := (List.range 7).map exItem
  bs := [[exItem 11, exItem 12], [exItem 13, exItem 14, exItem 15]]
  evs := [.insert (exItem 7), .vacuum (fun i => decide (5 ≤ i.blk ∧ i.blk ≤ 12)), .insert (exItem 8)]
  itsOK := ⟨by unfold SSorted; decide +kernel, by
    intro it hi
    obtain ⟨n, hn, rfl⟩ := List.mem_map.1 hi
    exact exStorable n (by simp at hn; omega)⟩
  fits := by decide +kernel
  bsOK := by
    intro b hb
    simp only [List.mem_cons, List.not_mem_nil, or_false] at hb
    rcases hb with rfl | rfl
    · exact ⟨by unfold SSorted; decide +kernel, fun it hi => by
        simp only [List.mem_cons, List.not_mem_nil, or_false] at hi
        rcases hi with rfl | rfl <;> exact exStorable _ (by decide), fun h => by cases h⟩
    · exact ⟨by unfold SSorted; decide +kernel, fun it hi => by
        simp only [List.mem_cons, List.not_mem_nil, or_false] at hi
        rcases hi with rfl | rfl | rfl <;> exact exStorable _ (by decide), fun h => by cases h⟩
  evsOK := by
    intro e he
    simp only [List.mem_cons, List.not_mem_nil, or_false] at he
    rcases he with rfl | rfl | rfl
    · exact exStorable 7 (by decide)
    · trivial
    · exact exStorable 8 (by decide)

/-- The history is not trivial: VACUUM deleted a page of the tree. -/
example : (exHistory.final.1.page 1).deleted = true := by
  unfold History.final History.built History.root runs Event.run
  simp only [exHistory]
  rw [← dataOpsF_eq]
  unfold runs Event.run
  rw [← dataOpsF_eq]
  decide +kernel

end Rum.Props.VacuumTree

import Verif.PostingTreeLemmas
import Verif.TreeEval
import Mathlib.Data.List.Induction
/-!
# C09, C10, C11: posting trees under insertions and crashes

Throughout, `x` is the column (encoding of items, order), `cap` the capacity of a leaf page in bytes (7368 in the real code), `capI` that of an
interior page (8136), `build` whether the index is being built.
-/
namespace Rum.Props.PostingTree
open Rum Rum.Tree Rum.Codec Rum.Leaf Rum.Entry Rum.Props Std

/-! ### Specification -/

/-- Sequential insertion into a set: an item is added unless an equal one is there already. -/
def keepFirst (cmp : Item Datum → Item Datum → Ordering) (l : List (Item Datum)) : List (Item Datum) :=
  l.foldl (fun acc y => if acc.any (fun z => cmp z y == .eq) then acc else acc ++ [y]) []

/-- Items of a tree or of a list: sorted without duplicates, all storable. -/
structure ListOK (x : Ctx) (M : Lim) (b : List (Item Datum)) : Prop where
  sorted : SSorted x.cmp b
  ok : ∀ it ∈ b, Storable x M it

/-- A batch handed to an insertion: sorted without duplicates, all items storable, one item if items are inserted one at a time. -/
structure BatchOK (x : Ctx) (M : Lim) (b : List (Item Datum)) : Prop where
  sorted : SSorted x.cmp b
  ok : ∀ it ∈ b, Storable x M it
  one : M.single = true → b.length ≤ 1

theorem BatchOK.list {x : Ctx} {M : Lim} {b : List (Item Datum)} (h : BatchOK x M b) : ListOK x M b := ⟨h.sorted, h.ok⟩

/-- Sizes for which the page layout works: three items of the greatest size and 40 bytes fit on a leaf page, two downlinks on an interior
page, the alignment of the additional info divides 8 (4 if items with padding are to be stored). -/
structure Sizes (x : Ctx) (cap capI : Nat) (M : Lim) : Prop where
  leaf : 3 * M.size + 40 ≤ cap
  inner : 48 ≤ capI
  align : padOf x.cfg ∣ 8
  padded : M.single = true → padOf x.cfg ∣ 4

/-- Every state a posting tree can be in on disk: created with some items, then any insertions, each of which may be cut short by a crash
after any of its log records. -/
inductive Reach (x : Ctx) (cap capI : Nat) (M : Lim) (build : Bool) : Store (Item Datum) → Nat → Prop
  | create (s : Store (Item Datum)) (its : List (Item Datum)) : ListOK x M its → checkList x.cfg ⟨0, 0⟩ 0 its ≤ cap →
      Reach x cap capI M build (createTree s its).1 (createTree s its).2
  | record (s t : Store (Item Datum)) (root : Nat) (b : List (Item Datum)) : Reach x cap capI M build s root → BatchOK x M b →
      t ∈ (insertItems (dataOps x cap capI build) root b.length s b).1 → Reach x cap capI M build t root

/-! ### Proof apparatus -/

theorem keepFirst_snoc (cmp : Item Datum → Item Datum → Ordering) (l : List (Item Datum)) (a : Item Datum) :
    keepFirst cmp (l ++ [a]) = if (keepFirst cmp l).any (fun z => cmp z a == .eq) then keepFirst cmp l else keepFirst cmp l ++ [a] := by
  unfold keepFirst
  rw [List.foldl_append]
  rfl

theorem mem_keepFirst (cmp : Item Datum → Item Datum → Ordering) (m : List (Item Datum)) (hm : SSorted cmp m) :
    ∀ l y, y ∈ keepFirst cmp (l ++ m) ↔ Upd cmp true (keepFirst cmp l) m y := by
  induction m with
  | nil => intro l y; simp [Upd]
  | cons a m ih =>
    intro l y
    obtain ⟨ha, hm'⟩ := List.pairwise_cons.1 hm
    rw [show l ++ a :: m = (l ++ [a]) ++ m by simp, ih hm', keepFirst_snoc]
    simp only [Upd, if_true, List.mem_cons]
    by_cases hc : (keepFirst cmp l).any (fun z => cmp z a == .eq) = true
    · rw [if_pos hc]
      obtain ⟨z, hz, he⟩ := List.any_eq_true.1 hc
      have he : cmp z a = .eq := by simpa using he
      constructor
      · rintro (h | ⟨h, h2⟩)
        · exact Or.inl h
        · exact Or.inr ⟨Or.inr h, h2⟩
      · rintro (h | ⟨rfl | h, h2⟩)
        · exact Or.inl h
        · exact absurd he (h2 z hz)
        · exact Or.inr ⟨h, h2⟩
    · rw [if_neg hc]
      have hc' : ∀ z ∈ keepFirst cmp l, cmp z a ≠ .eq := by
        intro z hz he
        exact hc (List.any_eq_true.2 ⟨z, hz, by simp [he]⟩)
      simp only [List.mem_append, List.mem_singleton]
      constructor
      · rintro ((h | rfl) | ⟨h, h2⟩)
        · exact Or.inl h
        · exact Or.inr ⟨Or.inl rfl, hc'⟩
        · exact Or.inr ⟨Or.inr h, fun z hz => h2 z (Or.inl hz)⟩
      · rintro (h | ⟨rfl | h, h2⟩)
        · exact Or.inl (Or.inl h)
        · exact Or.inl (Or.inr rfl)
        · refine Or.inr ⟨h, ?_⟩
          rintro z (hz | rfl)
          · exact h2 z hz
          · rw [ha y h]; simp

theorem keepFirst_sorted (cmp : Item Datum → Item Datum → Ordering) (m : List (Item Datum)) (hm : SSorted cmp m) (y : Item Datum) :
    y ∈ keepFirst cmp m ↔ y ∈ m := by
  have := mem_keepFirst cmp m hm [] y
  simpa [Upd, keepFirst] using this

/-- Every item is equal to one that was kept. -/
theorem keepFirst_covers (cmp : Item Datum → Item Datum → Ordering) [TransCmp cmp] (l : List (Item Datum)) (y : Item Datum) :
    (∃ i ∈ keepFirst cmp l, cmp i y = .eq) ↔ ∃ i ∈ l, cmp i y = .eq := by
  induction l using List.reverseRecOn with
  | nil => simp [keepFirst]
  | append_singleton l a ih =>
    rw [keepFirst_snoc]
    split
    · next hany =>
      obtain ⟨z, hz, he⟩ := List.any_eq_true.1 hany
      have he : cmp z a = .eq := by simpa using he
      rw [ih]
      constructor
      · rintro ⟨i, hi, h⟩; exact ⟨i, by simp [hi], h⟩
      · rintro ⟨i, hi, h⟩
        rcases List.mem_append.1 hi with hi | hi
        · exact ⟨i, hi, h⟩
        · simp only [List.mem_singleton] at hi
          subst hi
          exact ih.1 ⟨z, hz, TransCmp.eq_trans he h⟩
    · constructor
      · rintro ⟨i, hi, h⟩
        rcases List.mem_append.1 hi with hi | hi
        · obtain ⟨j, hj, h⟩ := ih.1 ⟨i, hi, h⟩
          exact ⟨j, by simp [hj], h⟩
        · exact ⟨i, by simp at hi; simp [hi], h⟩
      · rintro ⟨i, hi, h⟩
        rcases List.mem_append.1 hi with hi | hi
        · obtain ⟨j, hj, h⟩ := ih.2 ⟨i, hi, h⟩
          exact ⟨j, by simp [hj], h⟩
        · exact ⟨i, by simp at hi; simp [hi], h⟩

section
variable {x : Ctx} {cap capI : Nat} {M : Lim} {build : Bool}

/-- The invariant of posting trees, without mention of keys and ghost state. -/
def Inv (C : Prop) (x : Ctx) (cap capI : Nat) (M : Lim) (s : Store (Item Datum)) (root : Nat) : Prop :=
  ∃ (K : Type) (_ : LinearOrder K) (key : Item Datum → K) (G : Ghost), KeyOf x.cmp key ∧
    Good C key false (fun D => D.length * 24 ≤ capI) (fun _ => True) (FitsPage x M cap) s root G ∧ BoundIn key (leafs key s G)

theorem inv_create (C : Prop) [TransCmp x.cmpV] (s : Store (Item Datum)) (its : List (Item Datum)) (hb : ListOK x M its)
    (hfit : checkList x.cfg ⟨0, 0⟩ 0 its ≤ cap) :
    Inv C x cap capI M (createTree s its).1 (createTree s its).2 ∧ contents (createTree s its).1 (createTree s its).2 = its := by
  have htr : TransCmp x.cmp := cmpItem_trans _ _
  obtain ⟨K, hK, key, h1, h2, h3⟩ := exists_key (cmp := x.cmp)
  have hk : KeyOf x.cmp key := ⟨h1, h2, h3⟩
  have hpg : (createTree s its).1.page s.next = ⟨true, its, [], minItem, none, none, false⟩ := by simp [createTree, Store.set]
  have hW : Weak key false (createTree s its).1 s.next ⟨0, fun _ => [s.next], fun _ => [], id⟩ := by
    refine ⟨⟨rfl, fun k hk => absurd hk (Nat.not_lt_zero _), ?_, ?_, ?_, ?_, ?_, fun k hk => absurd hk (Nat.not_lt_zero _), ?_, ?_⟩,
      fun k hk => absurd hk (Nat.not_lt_zero _)⟩
    · intro k _
      exact ⟨by rw [hpg], by rw [hpg]; rfl, trivial⟩
    · intro j k b hj hk _ _
      simp at hj hk; omega
    · intro k _; simp
    · intro k _ b hb'
      simp at hb'
      subst hb'
      exact ⟨by simp [createTree, Store.set], by rw [hpg]⟩
    · intro b hb'
      simp at hb'
      subst hb'
      rw [hpg]
    · refine ⟨by simp, ?_, ?_⟩
      · intro b hb' i _
        simp at hb'
        subst hb'
        rw [hpg]
        exact le_top
      · intro b hb'
        simp at hb'
        subst hb'
        rw [hpg]
        exact (ssorted_key (o := dataOps x cap capI false) hk).1 hb.sorted
    · intro b _; rfl
  have hleafs : leafs key (createTree s its).1 ⟨0, fun _ => [s.next], fun _ => [], id⟩ = [(its, ⊤)] := by
    simp [leafs, hpg, hiP]
  refine ⟨⟨K, hK, key, _, hk, ⟨hW, fun _ k hk => absurd hk (Nat.not_lt_zero _), ⟨fun k hk => absurd hk (Nat.not_lt_zero _), fun _ _ _ _ => trivial⟩, ?_⟩, ?_⟩, ?_⟩
  · rw [hleafs]
    intro p hp
    simp only [List.mem_singleton] at hp
    subst hp
    exact ⟨hb.ok, hfit⟩
  · rw [hleafs]
    intro p hp
    simp only [List.mem_singleton] at hp
    subst hp
    exact Or.inl ⟨rfl, fun _ => rfl⟩
  · have := contents_eq hW
    rw [hleafs] at this
    show contents _ s.next = its
    simpa using this

theorem Inv.sorted {C : Prop} [TransCmp x.cmpV] {s : Store (Item Datum)} {root : Nat} (h : Inv C x cap capI M s root) :
    SSorted x.cmp (contents s root) := by
  obtain ⟨K, hK, key, G, hk, hG, -⟩ := h
  exact contents_sorted (o := dataOps x cap capI false) hk hG.weak

theorem found_ok [TransCmp x.cmpV] (build : Bool) (y : Item Datum) (hy : 1 ≤ y.iptr.off) (its : List (Item Datum)) (hP : FitsPage x M cap its)
    (hs : SSorted x.cmp its) : (dataOps x cap capI build).found its y = true ↔ ∃ i ∈ its, x.cmp i y = .eq := by
  obtain ⟨q, h1, h2, f, h3, h4, h5⟩ := C06_directory_lookup_exact x its y (fun it hi => (hP.all it hi).ok)
    (fun it hi => (hP.all it hi).stored) hs hy
  show dataFound x its y = true ↔ _
  unfold dataFound
  rw [h1]
  simp only [h3, Option.any_some]
  exact h4

theorem Inv.lookup {C : Prop} [TransCmp x.cmpV] {s : Store (Item Datum)} {root : Nat} (h : Inv C x cap capI M s root) (build : Bool)
    {y : Item Datum} (hy : 1 ≤ y.iptr.off) :
    Tree.lookup (dataOps x cap capI build) s root y = true ↔ ∃ i ∈ contents s root, x.cmp i y = .eq := by
  obtain ⟨K, hK, key, G, hk, hG, -⟩ := h
  exact lookup_spec (o := dataOps x cap capI build) hk (locateData_ok hk rfl) hG (fun its hP hs => found_ok build y hy its hP hs)

theorem Inv.insert {C : Prop} [TransCmp x.cmpV] (hz : Sizes x cap capI M) {s : Store (Item Datum)} {root : Nat} (h : Inv C x cap capI M s root)
    {b : List (Item Datum)} (hb : BatchOK x M b) :
    ∃ ts ok, insertItems (dataOps x cap capI build) root b.length s b = (ts, ok) ∧ (C → ok = true) ∧
      (∀ t ∈ ts, Inv False x cap capI M t root ∧ (∀ y ∈ contents s root, y ∈ contents t root) ∧
        ∀ y ∈ contents t root, y ∈ contents s root ∨ y ∈ b) ∧
      Inv C x cap capI M (lastStore s ts) root ∧
      (ok = true → ∀ y, y ∈ contents (lastStore s ts) root ↔ Upd x.cmp true (contents s root) b y) := by
  obtain ⟨K, hK, key, G, hk, hG, hB⟩ := h
  obtain ⟨ts, ok, t1, t2, t3, G', t4, t5, t6, t7, t8⟩ := insertItems_spec (o := dataOps x cap capI build) hk (locateData_ok hk rfl)
    (dataInnerLaws x cap capI build hz.inner) (dataLeafLaws x cap capI M build hz.leaf hz.align hz.padded) b.length hG (_root_.le_refl _) hb.sorted ⟨hb.ok, hb.one⟩
    (Or.inr hB)
  refine ⟨ts, ok, t1, t2, fun t ht => ?_, ⟨K, hK, key, G', hk, t4, t5 hB⟩, t8⟩
  obtain ⟨G1, g1, g2, g3, g4⟩ := t3 t ht
  exact ⟨⟨K, hK, key, G1, hk, g1, g2 hB⟩, g3, g4⟩

theorem Inv.insert_one {C : Prop} [TransCmp x.cmpV] (hz : Sizes x cap capI M) {s : Store (Item Datum)} {root : Nat} (h : Inv C x cap capI M s root)
    {y : Item Datum} (hy : Storable x M y) :
    ∃ ts ok, insertItems (dataOps x cap capI build) root 1 s [y] = (ts, ok) ∧ (ok = false → ts ≠ []) ∧
      (∀ t ∈ ts, ∀ z, z ∈ contents t root ↔ Upd x.cmp true (contents s root) [y] z) ∧
      (∀ z, z ∈ contents (lastStore s ts) root ↔ Upd x.cmp true (contents s root) [y] z) := by
  obtain ⟨K, hK, key, G, hk, hG, hB⟩ := h
  obtain ⟨ts, ok, t1, t2, t3, t4, G', t5, t6⟩ := insertItem_spec (o := dataOps x cap capI build) hk (locateData_ok hk rfl)
    (dataInnerLaws x cap capI build hz.inner) (dataLeafLaws x cap capI M build hz.leaf hz.align hz.padded) 0 hG ⟨by simpa using hy, fun _ => by simp⟩
  exact ⟨ts, ok, t1, t3, fun t ht => (t4 t ht).choose_spec.2, t6⟩

/-- Insertions of batches into a complete tree. -/
theorem Inv.insertMany [TransCmp x.cmpV] (hz : Sizes x cap capI M) {root : Nat} :
    ∀ (bs : List (List (Item Datum))) (l : List (Item Datum)) (s : Store (Item Datum)), (∀ b ∈ bs, BatchOK x M b) →
      Inv True x cap capI M s root → (∀ y, y ∈ contents s root ↔ y ∈ keepFirst x.cmp l) →
      ∃ t, Tree.insertMany (dataOps x cap capI build) root s bs = (t, true) ∧ Inv True x cap capI M t root ∧
        ∀ y, y ∈ contents t root ↔ y ∈ keepFirst x.cmp (l ++ bs.flatten) := by
  intro bs
  induction bs with
  | nil => intro l s _ hI hc; exact ⟨s, rfl, hI, by simpa using hc⟩
  | cons b bs ih =>
    intro l s hbs hI hc
    obtain ⟨ts, ok, t1, t2, -, t4, t5⟩ := hI.insert hz (build := build) (hbs b (by simp))
    obtain rfl := t2 trivial
    obtain ⟨t, u1, u2, u3⟩ := ih (l ++ b) (lastStore s ts) (fun b' h => hbs b' (by simp [h])) t4 (by
      intro y
      rw [t5 rfl, mem_keepFirst x.cmp b (hbs b (by simp)).sorted]
      simp only [Upd, if_true, hc])
    refine ⟨t, ?_, u2, by simpa [List.append_assoc] using u3⟩
    simp only [Tree.insertMany, t1, if_true]
    exact u1

theorem Inv.mono {C : Prop} {s : Store (Item Datum)} {root : Nat} (h : Inv C x cap capI M s root) : Inv False x cap capI M s root := by
  obtain ⟨K, hK, key, G, hk, hG, hB⟩ := h
  exact ⟨K, hK, key, G, hk, ⟨hG.weak, fun h => h.elim, hG.sized, hG.fit⟩, hB⟩

theorem Reach.inv [TransCmp x.cmpV] (hz : Sizes x cap capI M) {s : Store (Item Datum)} {root : Nat} (h : Reach x cap capI M build s root) :
    Inv False x cap capI M s root := by
  induction h with
  | create s its hb hfit => exact (inv_create False s its hb hfit).1
  | record s t root b _ hb ht ih =>
    obtain ⟨ts, ok, t1, -, t3, -, -⟩ := ih.insert hz (build := build) hb
    rw [t1] at ht
    exact (t3 t ht).1

end

/-! ### Properties -/

/-- **C09.** A posting tree created with the items `its` (one page), then any sequence of insertions of batches, leaf, interior and root pages
splitting as they fall: every insertion succeeds; a scan of the leaves from the leftmost on meets exactly the inserted items, in order, each
once; and a descent from the root finds exactly the items that were inserted. -/
theorem C09_posting_tree_exact (x : Ctx) [TransCmp x.cmpV] (cap capI : Nat) (M : Lim) (build : Bool) (hz : Sizes x cap capI M)
    (s0 : Store (Item Datum)) (its : List (Item Datum)) (hits : ListOK x M its) (hfit : checkList x.cfg ⟨0, 0⟩ 0 its ≤ cap)
    (bs : List (List (Item Datum))) (hbs : ∀ b ∈ bs, BatchOK x M b) :
    ∃ s, insertMany (dataOps x cap capI build) (createTree s0 its).2 (createTree s0 its).1 bs = (s, true) ∧
      SSorted x.cmp (contents s (createTree s0 its).2) ∧
      (∀ y, y ∈ contents s (createTree s0 its).2 ↔ y ∈ keepFirst x.cmp (its ++ bs.flatten)) ∧
      ∀ y, 1 ≤ y.iptr.off → (lookup (dataOps x cap capI build) s (createTree s0 its).2 y = true ↔
        ∃ i ∈ its ++ bs.flatten, x.cmp i y = .eq) := by
  have htr : TransCmp x.cmp := cmpItem_trans _ _
  obtain ⟨hI, hc⟩ := inv_create (x := x) (cap := cap) (capI := capI) (M := M) True s0 its hits hfit
  generalize hroot : (createTree s0 its).2 = root at *
  obtain ⟨s, h1, h2, h3⟩ := Inv.insertMany hz (build := build) bs its _ hbs hI (by intro y; rw [hc, keepFirst_sorted x.cmp its hits.sorted])
  refine ⟨s, h1, h2.sorted, h3, fun y hy => ?_⟩
  rw [h2.lookup build hy, ← keepFirst_covers x.cmp (its ++ bs.flatten)]
  exact ⟨fun ⟨i, hi, he⟩ => ⟨i, (h3 i).1 hi, he⟩, fun ⟨i, hi, he⟩ => ⟨i, (h3 i).2 hi, he⟩⟩

/-- **C10.** Whatever the history (insertions, crashes after any log record), and at every log record of the next insertion: the tree is still
searchable, everything found before is found, a scan meets everything it met before, nothing but the items to be inserted is added, and if the
insertion is of one item, that item is found from its first record on. -/
theorem C10_every_record_searchable (x : Ctx) [TransCmp x.cmpV] (cap capI : Nat) (M : Lim) (build : Bool) (hz : Sizes x cap capI M)
    (s : Store (Item Datum)) (root : Nat) (h : Reach x cap capI M build s root) (b : List (Item Datum)) (hb : BatchOK x M b)
    (t : Store (Item Datum)) (ht : t ∈ (insertItems (dataOps x cap capI build) root b.length s b).1) :
    SSorted x.cmp (contents t root) ∧
    (∀ y, 1 ≤ y.iptr.off → (lookup (dataOps x cap capI build) t root y = true ↔ ∃ i ∈ contents t root, x.cmp i y = .eq)) ∧
    (∀ y ∈ contents s root, y ∈ contents t root) ∧ (∀ y ∈ contents t root, y ∈ contents s root ∨ y ∈ b) ∧
    (∀ y, 1 ≤ y.iptr.off → lookup (dataOps x cap capI build) s root y = true → lookup (dataOps x cap capI build) t root y = true) ∧
    (b.length = 1 → ∀ y ∈ b, lookup (dataOps x cap capI build) t root y = true) := by
  have htr : TransCmp x.cmp := cmpItem_trans _ _
  have hI := h.inv hz
  obtain ⟨ts, ok, t1, -, t3, -, -⟩ := hI.insert hz (build := build) hb
  rw [t1] at ht
  obtain ⟨i1, i2, i3⟩ := t3 t ht
  refine ⟨i1.sorted, fun y hy => i1.lookup build hy, i2, i3, fun y hy hl => ?_, fun hb1 y hy => ?_⟩
  · rw [i1.lookup build hy]
    obtain ⟨i, hi, he⟩ := (hI.lookup build hy).1 hl
    exact ⟨i, i2 i hi, he⟩
  · obtain ⟨z, rfl⟩ := List.length_eq_one_iff.1 hb1
    simp only [List.mem_singleton] at hy
    subst hy
    have hst := hb.ok y (by simp)
    obtain ⟨ts', ok', u1, u2, u3, u4⟩ := hI.insert_one hz (build := build) hst
    have : ts' = ts := by
      have : (ts', ok') = (ts, ok) := by rw [← u1, ← t1]; rfl
      exact (Prod.mk.inj this).1
    subst this
    rw [i1.lookup build hst.valid]
    by_cases hex : ∃ i ∈ contents s root, x.cmp i y = .eq
    · obtain ⟨i, hi, he⟩ := hex
      exact ⟨i, i2 i hi, he⟩
    · refine ⟨y, (u3 t ht y).2 ?_, ReflCmp.compare_self (cmp := x.cmp)⟩
      simp only [Upd, if_true, List.mem_singleton, true_and]
      exact Or.inr (fun z hz he => hex ⟨z, hz, he⟩)

/-- **C11, partial.** After any history with crashes, the insertion of any item stores it (the tree stays searchable and the item is found),
although the insertion may end with the error "Lost path": full C11 would be `ok = true`, see `C11_violated`. When every split was completed,
insertions succeed (`C09_posting_tree_exact`). -/
theorem C11_item_stored_partial (x : Ctx) [TransCmp x.cmpV] (cap capI : Nat) (M : Lim) (build : Bool) (hz : Sizes x cap capI M)
    (s : Store (Item Datum)) (root : Nat) (h : Reach x cap capI M build s root) (y : Item Datum) (hy : Storable x M y) :
    ∃ ts ok, insertItems (dataOps x cap capI build) root 1 s [y] = (ts, ok) ∧
      (∀ z, z ∈ contents (lastStore s ts) root ↔ Upd x.cmp true (contents s root) [y] z) ∧
      (∀ z, 1 ≤ z.iptr.off → (lookup (dataOps x cap capI build) (lastStore s ts) root z = true ↔
        lookup (dataOps x cap capI build) s root z = true ∨ x.cmp y z = .eq)) := by
  have htr : TransCmp x.cmp := cmpItem_trans _ _
  have hI := h.inv hz
  obtain ⟨ts, ok, u1, u2, u3, u4⟩ := hI.insert_one hz (build := build) hy
  refine ⟨ts, ok, u1, u4, fun z hz' => ?_⟩
  have hL : Inv False x cap capI M (lastStore s ts) root := by
    obtain ⟨ts', ok', t1, -, -, t4, -⟩ := hI.insert hz (build := build) (b := [y]) ⟨by simp [SSorted], by simpa using hy, fun _ => by simp⟩
    have : (ts', ok') = (ts, ok) := by rw [← u1, ← t1]; rfl
    rw [← (Prod.mk.inj this).1]
    exact t4
  rw [hL.lookup build hz', hI.lookup build hz']
  simp only [u4, Upd, if_true, List.mem_singleton]
  constructor
  · rintro ⟨i, hi | ⟨rfl, hi⟩, he⟩
    · exact Or.inl ⟨i, hi, he⟩
    · exact Or.inr he
  · rintro (⟨i, hi, he⟩ | he)
    · exact ⟨i, Or.inl hi, he⟩
    · by_cases hex : ∃ i ∈ contents s root, x.cmp i y = .eq
      · obtain ⟨i, hi, he'⟩ := hex
        exact ⟨i, Or.inl hi, TransCmp.eq_trans he' he⟩
      · exact ⟨y, Or.inr ⟨rfl, fun w hw he' => hex ⟨w, hw, he'⟩⟩, he⟩

/-! ### Concrete cases -/

/-- A column with 8-byte additional info, passed by value. -/
def exCtx : Ctx := ⟨⟨false, some ⟨true, 8, 8, true⟩⟩, false, fun _ _ => .eq⟩
def exItem (n : Nat) : Item Datum := ⟨⟨n, 1⟩, some (.byval 0)⟩
def exStore : Store (Item Datum) := ⟨fun _ => ⟨true, [], [], minItem, none, none, false⟩, 0⟩
def exTree : Store (Item Datum) := (createTree exStore ((List.range 7).map exItem)).1
/-- Insertion of one item. -/
def exInsert (s : Store (Item Datum)) (n : Nat) : List (Store (Item Datum)) × Bool :=
  insertItems (dataOps exCtx 76 96 false) 0 1 s [exItem n]
/-- Insertions that run to the end. -/
def exRun (s : Store (Item Datum)) (l : List Nat) : Store (Item Datum) := l.foldl (fun s n => lastStore s (exInsert s n).1) s
/-- Insertion that crashes after the first record. -/
def exCrash (s : Store (Item Datum)) (n : Nat) : Store (Item Datum) := ((exInsert s n).1.head?).getD s

example : Sizes exCtx 76 96 12 := ⟨by decide, by decide, by decide, by decide⟩

theorem exStorable (n : Nat) (h : n < 16) : Storable exCtx 12 (exItem n) := by
  refine ⟨⟨⟨?_, ?_⟩, fun h => by simp [exCtx] at h, ?_⟩, ?_, ?_, ?_, ?_⟩
  · show n < _; omega
  · show 1 < _; omega
  · intro d hd
    refine ⟨⟨true, 8, 8, true⟩, rfl, ?_⟩
    obtain rfl : Datum.byval 0 = d := by simpa [exItem] using hd
    refine ⟨rfl, by simp, by simp⟩
  · revert n; decide +kernel
  · show 1 ≤ 1; omega
  · revert n; decide +kernel
  · revert n; decide +kernel

example : ListOK exCtx 12 ((List.range 7).map exItem) ∧ checkList exCtx.cfg ⟨0, 0⟩ 0 ((List.range 7).map exItem) ≤ 76 := by
  refine ⟨⟨?_, ?_⟩, by decide +kernel⟩
  · unfold SSorted; decide +kernel
  · intro it hi
    obtain ⟨n, hn, rfl⟩ := List.mem_map.1 hi
    exact exStorable n (by simp at hn; omega)

theorem exReach_tree : Reach exCtx 76 96 12 false exTree 0 := by
  refine Reach.create exStore _ ⟨?_, ?_⟩ (by decide +kernel)
  · unfold SSorted; decide +kernel
  · intro it hi
    obtain ⟨n, hn, rfl⟩ := List.mem_map.1 hi
    exact exStorable n (by simp at hn; omega)

theorem exBatch (n : Nat) (h : n < 16) : BatchOK exCtx 12 [exItem n] :=
  ⟨by simp [SSorted], by simpa using exStorable n h, by simp⟩

theorem exReach_crash {s : Store (Item Datum)} (hs : Reach exCtx 76 96 12 false s 0) (n : Nat) (h : n < 16) :
    Reach exCtx 76 96 12 false (exCrash s n) 0 := by
  unfold exCrash
  cases hh : (exInsert s n).1.head? with
  | none => simpa using hs
  | some t => exact Reach.record s t 0 _ hs (exBatch n h) (List.mem_of_mem_head? (show (exInsert s n).1.head? = some t from hh))

theorem exReach_run (l : List Nat) : ∀ {s : Store (Item Datum)}, Reach exCtx 76 96 12 false s 0 → (∀ n ∈ l, n < 16) →
    Reach exCtx 76 96 12 false (exRun s l) 0 := by
  induction l with
  | nil => intro s hs _; exact hs
  | cons n l ih =>
    intro s hs hl
    refine ih ?_ (fun m hm => hl m (by simp [hm]))
    show Reach exCtx 76 96 12 false ((exInsert s n).1.getLast?.getD s) 0
    cases hh : (exInsert s n).1.getLast? with
    | none => exact hs
    | some t => exact Reach.record s t 0 _ hs (exBatch n (hl n (by simp))) (List.mem_of_getLast? hh)

/-- A column with additional info of a varlena type aligned to 4 bytes (bytea, what word positions are stored as). -/
def padCtx : Ctx := ⟨⟨false, some ⟨false, -1, 4, true⟩⟩, false, fun _ _ => .eq⟩
def padData : Item Datum := ⟨⟨3, 1⟩, some (.varlena .full (List.replicate 200 7))⟩

/-- Items with padding are covered when they are inserted one at a time: 200 bytes of additional info, too long for a short header. -/
example : Sizes padCtx 7368 8136 ⟨2400, true⟩ ∧ BatchOK padCtx ⟨2400, true⟩ [padData] ∧ padItem padCtx.cfg padData = 4 := by
  refine ⟨⟨by decide, by decide, by decide, fun _ => by decide⟩, ⟨by simp [SSorted], ?_, fun _ => by simp⟩, by decide +kernel⟩
  intro it hi
  simp only [List.mem_singleton] at hi
  subst hi
  refine ⟨⟨⟨by decide, by decide⟩, fun h => Bool.noConfusion h, ?_⟩, by decide +kernel, by decide, by decide +kernel, fun h => by cases h⟩
  intro d hd
  refine ⟨⟨false, -1, 4, true⟩, rfl, ?_⟩
  obtain rfl : Datum.varlena .full (List.replicate 200 7) = d := by simpa [padData] using hd
  refine ⟨rfl, rfl, by decide, ?_⟩
  simp only [List.length_replicate]
  omega

/-- The state after: creation with 7 items, 4 insertions, one insertion that splits a leaf and crashes before the parent has its downlink,
three more insertions. -/
def exOrphan : Store (Item Datum) := exRun (exCrash (exRun exTree [7, 8, 9, 10]) 11) [12, 13, 14]

theorem exReach_orphan : Reach exCtx 76 96 12 false exOrphan 0 :=
  exReach_run _ (exReach_crash (exReach_run _ exReach_tree (by decide)) 11 (by decide)) (by decide)

/-- **C11 is false.** After a crash between the record that splits a leaf and the record that adds the downlink to the parent, the next
insertion that has to split the orphaned right page ends with the error "Lost path" (`/repo/src/rumbtree.c:323`), although the tree is
reachable and the item valid. Nothing repairs the tree. -/
theorem C11_violated : ∃ (x : Ctx) (cap capI : Nat) (M : Lim) (build : Bool) (s : Store (Item Datum)) (root : Nat) (y : Item Datum),
    Sizes x cap capI M ∧ Reach x cap capI M build s root ∧ Storable x M y ∧
    (insertItems (dataOps x cap capI build) root 1 s [y]).2 = false := by
  refine ⟨exCtx, 76, 96, 12, false, exOrphan, 0, exItem 15, ⟨by decide, by decide, by decide, by decide⟩, exReach_orphan, exStorable 15 (by decide), ?_⟩
  unfold exOrphan exRun exCrash exInsert
  rw [← dataOpsF_eq]
  decide +kernel

end Rum.Props.PostingTree

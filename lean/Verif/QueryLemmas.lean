import Verif.Query
import Verif.EntryTreeInsert
import Verif.Props.EntryScan
/-!
# Reading the pages of a key gives its rows
-/
namespace Rum.Index
open Rum Rum.Codec Rum.Leaf Rum.Entry Rum.Tree Rum.Extract Rum.Props Rum.Props.PostingTree Std

variable {V : Type}

/-- The items on the leftmost leaf page of a posting tree. -/
def firstLeaf (s : Store (Item Datum)) : List (Item Datum) :=
  match leftmost s s.next 0 with
  | some b => (s.page b).items
  | none => []

/-- The posting tree of a key, if it has one. -/
def Ix.treeOf (ix : Ix V) [Inhabited V] (st : State V) (k : AttKey V) : Option Nat :=
  match findLeaf ix.ops st.entry rootBlk (probe k) st.entry.next rootBlk [] with
  | some ((b, _) :: _) =>
    if (ix.locate (st.entry.page b).items (probe k)).1 then
      ((st.entry.page b).items[(ix.locate (st.entry.page b).items (probe k)).2 - 1]?).bind
        (fun e => match e.post with
          | .tree t => some t
          | .list _ _ => none)
    else none
  | _ => none

theorem chain_spec {α K : Type} [LinearOrder K] {key : α → K} {strict : Bool} {s : Store α} {root : Nat} {G : Ghost} (W : Weak key strict s root G) (n : Nat)
    (A B : List Nat) (b : Nat) (e : G.lv 0 = A ++ b :: B) (hn : B.length < n) : chain s n b = (b :: B).map s.page := by
  induction n generalizing A b B with
  | zero => omega
  | succ n ih =>
    have hr := (Linked.right (e ▸ W.linked 0 (Nat.zero_le _))).1
    rw [chain, List.map_cons]
    cases B with
    | nil =>
      simp at hr
      rw [hr]
      simp
    | cons c B =>
      simp at hr
      rw [hr]
      simp only
      rw [ih (A ++ [b]) B c (by simp [e]) (by simp at hn; omega)]

/-- All pages of a tree can be read. -/
theorem leaves_ok {x : Ctx} {M : Lim} {cap : Nat} : ∀ (ps : List (Tree.Page (Item Datum))),
    (∀ p ∈ ps, FitsPage x M cap p.items ∧ SSorted x.cmp p.items ∧ ∀ b, p.hi = some b → ∀ it ∈ p.items, x.cmp it b ≠ .gt) →
    ∃ gs, leavesBytes x ps = some gs ∧ Leaves x gs (ps.map (·.items)) := by
  intro ps
  induction ps with
  | nil => intro _; exact ⟨[], rfl, .nil⟩
  | cons p ps ih =>
    intro h
    obtain ⟨gs, h1, h2⟩ := ih (fun q hq => h q (List.mem_cons_of_mem _ hq))
    obtain ⟨f1, f2, f3⟩ := h p (by simp)
    obtain ⟨q, q1, -⟩ := f1.holds f2
    refine ⟨⟨q, p.hi⟩ :: gs, ?_, .cons ⟨q1, f3, fun it hi => (f1.all it hi).valid⟩ h2⟩
    simp only [leavesBytes, leafBytes, q1.built, Option.map_some, h1]

theorem readTree_ok {C : Prop} {x : Ctx} [TransCmp x.cmpV] {M : Lim} {cap capI : Nat} {s : Store (Item Datum)} (h : TInv C x cap capI M s 0)
    {junk : Item Datum} {n : Nat} (hf : firstLeaf s ≠ [] ∨ M.single = false) (hn : (contents s 0).length < n) : readTree x s junk n = some (contents s 0) := by
  have hsorted := h.sorted
  obtain ⟨K, hK, key, G, hk, hG, hB⟩ := h
  have W := hG.weak
  obtain ⟨b, B, h1, h2⟩ := leftmost_spec W G.h s.next (_root_.le_refl _) (height_lt W) 0 [] W.root
  have hlen := level_length W.toThin (Nat.zero_le _)
  rw [h2, List.length_cons] at hlen
  have hch : chain s s.next b = (b :: B).map s.page := chain_spec W s.next [] B b (by simpa using h2) (by omega)
  have hcont : contents s 0 = ((b :: B).map (fun c => (s.page c).items)).flatten := by
    rw [contents_eq W, leafs, h2, List.flatMap_def, List.map_map]; rfl
  obtain ⟨gs, g1, g2⟩ := leaves_ok (x := x) (M := M) (cap := cap) ((b :: B).map s.page) (by
    intro p hp
    obtain ⟨c, hc, rfl⟩ := List.mem_map.1 hp
    rw [← h2] at hc
    refine ⟨hG.fit ((s.page c).items, hiP key (s.page c)) (List.mem_map.2 ⟨c, hc, rfl⟩), (W.order.sorted c hc).imp (fun {i j} h => (hk.lt i j).2 h), ?_⟩
    intro d hd it hit
    have hle := W.order.le c hc it hit
    unfold Page.hi at hd
    split at hd
    · rename_i hr
      obtain ⟨r, hr⟩ := Option.isSome_iff_exists.1 hr
      simp only [Option.some.injEq] at hd
      subst hd
      have : hiP key (s.page c) = ((key (s.page c).bound : K) : WithTop K) := by unfold hiP; rw [hr]
      rw [this] at hle
      have hle := WithTop.coe_le_coe.1 hle
      intro hgt
      exact absurd ((hk.gt _ _).1 hgt) (_root_.not_lt.2 hle)
    · cases hd)
  unfold readTree
  rw [h1]
  simp only [hch, g1, Option.bind_some]
  cases g2 with
  | @cons g gs c cs hg hgs =>
    have hfl : firstLeaf s = (s.page b).items := by unfold firstLeaf; rw [h1]
    rw [hfl] at hf
    have hcs : ((b :: B).map (fun c => (s.page c).items)) = (s.page b).items :: (B.map s.page).map (·.items) := by
      rw [List.map_cons, List.map_map]; rfl
    have hfirst : (s.page b).items ≠ [] ∨ B = [] := by
      rcases hf with h | h
      · exact Or.inl h
      · by_cases he : (s.page b).items = []
        · refine Or.inr ?_
          have hb := hB h ((s.page b).items, hiP key (s.page b)) (List.mem_map.2 ⟨b, by rw [h2]; simp, rfl⟩)
          rw [he] at hb
          simp only [List.not_mem_nil, false_and, exists_false, or_false] at hb
          have hr := (Linked.right (A := []) (h2 ▸ W.linked 0 (Nat.zero_le _))).1
          cases B with
          | nil => rfl
          | cons c B =>
            simp only [List.head?_cons, Option.some_or] at hr
            unfold hiP at hb
            rw [hr] at hb
            exact absurd hb.1 (WithTop.coe_ne_top)
        · exact Or.inl he
    have hc := C23_forward_partial x g gs (s.page b).items ((B.map s.page).map (·.items)) (.cons hg hgs) (by rw [← hcs, ← hcont]; exact hsorted) junk
      (by
        rcases hfirst with h | rfl
        · exact Or.inl h
        · by_cases hj : junk.iptr.off = 0
          · exact Or.inr (Or.inr ⟨hj, by simp⟩)
          · exact Or.inr (Or.inl ⟨by omega, by simp⟩)) n (by rw [← hcs, ← hcont]; exact hn)
    rw [← hcs, ← hcont] at hc
    simp only [readPages, hc, if_true]

/-- Reading an entry delivers the rows of its key. -/
theorem readEntry_ok {C : Prop} {ix : Ix V} [Inhabited V] {M : Lim} (hc : ColsOK ix M) {st : State V} (H : IInv C ix M st) (k : AttKey V)
    {junk : Item Datum} {n : Nat} (hf : ∀ t, ix.treeOf st k = some t → firstLeaf (st.trees t) ≠ [] ∨ M.single = false) (hn : (ix.rowsOf st k).length < n) :
    ix.readEntry st junk n k = some (ix.rowsOf st k) := by
  obtain ⟨b, up, ⟨h1, h2⟩, -⟩ := find_ok hc H.entry k
  unfold Ix.treeOf at hf
  unfold Ix.rowsOf at hn ⊢
  unfold Ix.readEntry
  rw [h1] at hf hn ⊢
  simp only at hf hn ⊢
  rcases h2 with ⟨off, t, hl, hg, hm, he⟩ | ⟨off, hl, -⟩
  · rw [hl] at hf hn ⊢
    simp only [if_true, hg, Option.bind_some] at hf hn ⊢
    cases hp : t.post with
    | list data m => rfl
    | tree u =>
      simp only [hp] at hf hn ⊢
      have hat : k.attnum = t.key.attnum := same_attnum (ix := ix) he
      have := hc.infos k.attnum
      have hT := ((H.ents t hm).tree u hp).2
      rw [← hat] at hT
      exact readTree_ok hT (hf u rfl) hn
  · rw [hl]
    simp

/-- Every row found has a valid TID. -/
theorem rowsOf_valid {C : Prop} {ix : Ix V} [Inhabited V] {M : Lim} (hc : ColsOK ix M) {st : State V} (H : IInv C ix M st) (k : AttKey V) :
    ∀ y ∈ ix.rowsOf st k, 1 ≤ y.iptr.off := by
  intro y hy
  rcases H.rowsOf hc k with ⟨e, h1, -, h3⟩ | ⟨-, h3⟩
  · rw [h3] at hy
    have hE := H.ents e h1
    unfold rows at hy
    cases hp : e.post with
    | list data n =>
      simp only [hp] at hy
      obtain ⟨R, r1, r2, r3, -, -⟩ := hE.list data n hp
      rw [EntOK.rows_list hp r1 r2 r3] at hy
      exact (r1.ok y hy).valid
    | tree t =>
      simp only [hp] at hy
      obtain ⟨K, hK, key, G, hk, hG, -⟩ := (hE.tree t hp).2
      rw [contents_eq hG.weak] at hy
      obtain ⟨p, hp, hy⟩ := List.mem_flatMap.1 hy
      exact ((hG.fit p hp).all y hy).valid
  · rw [h3] at hy; cases hy

end Rum.Index

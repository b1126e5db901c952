import Verif.ConcInv
/-
One step of one backend preserves the invariant. Proof apparatus.
-/
namespace Rum.Tree
open Rum Rum.Entry

variable {α K : Type} [LinearOrder K]
variable {key : α → K} {strict : Bool} {s t : Store α} {root : Nat} {G G' : Ghost} {IOK : List (α × Nat) → Prop} {KOK : α → Prop}
  {POK XOK : List α → Prop} {o : Ops α} {C : Prop} {seek : List α → Option α → α → Option (List α)}

/-- The pages an inserting backend has a note of. -/
def knows : Thread α → List Nat
  | .ins _ b up => b :: up.map Prod.fst
  | .walk w p _ up => w.child :: p :: up.map Prod.fst
  | .top w => [w.child]
  | .level w p lm => w.child :: p :: lm.toList
  | _ => []

/-- `p` is a page with a downlink. -/
def HasDown (G : Ghost) (p : Nat) : Prop := ∃ k P g, k < G.h ∧ P ∈ G.lv (k + 1) ∧ g ∈ G.kids P ∧ g.head? = some p

/-- The result of a step as far as the shape of the tree is concerned. -/
structure StepCore (C : Prop) (key : α → K) (strict : Bool) (IOK : List (α × Nat) → Prop) (KOK : α → Prop) (POK : List α → Prop)
    (root : Nat) (s : Store α) (G : Ghost) (th : Thread α) (t : Store α) (th' : Thread α) (G' : Ghost) (bad : Nat → Prop)
    (new : Nat → Nat → Prop) : Prop where
  good : Good False key strict IOK KOK POK t root G'
  bnd : BoundIn key (leafs key s G) → BoundIn key (leafs key t G')
  ok : ThreadOK C key KOK root t G' th'
  moved : Moved key root bad new s G t G'
  bad1 : ∀ c, bad c → visit root th = some c ∨ holds th = some c
  bad2 : C → ∀ w, pending th = some w → pending th' = some w ∨ bad w.child
  new1 : ∀ x y, new x y → (∃ w, pending th' = some w ∧ x = w.child ∧ y = w.r) ∨ ∃ b, visit root th = some b ∧ Adj G b y
  held : ∀ w, pending th' = some w → pending th = some w ∨ (visit root th = some w.child ∧ w.r = s.next ∧ s.next < t.next)
  know : ∀ p ∈ knows th', p ∈ knows th ∨ p = root ∨
    (t = s ∧ (∃ b j, visit root th = some b ∧ j ≤ G.h ∧ b ∈ G.lv j ∧ (s.page b).right = some p)) ∨ HasDown G p
  rest : ∃ k, todo th' = (todo th).drop k
  lost : C → th ≠ .lost → th' ≠ .lost

/-- The result of a step. -/
structure StepOut (C : Prop) (key : α → K) (strict : Bool) (IOK : List (α × Nat) → Prop) (KOK : α → Prop) (POK : List α → Prop) (o : Ops α)
    (root : Nat) (s : Store α) (G : Ghost) (th : Thread α) (t : Store α) (th' : Thread α) (G' : Ghost) (bad : Nat → Prop)
    (new : Nat → Nat → Prop) : Prop extends StepCore C key strict IOK KOK POK root s G th t th' G' bad new where
  keep : ∀ y ∈ contents s root, y ∈ contents t root
  just : ∀ y ∈ contents t root, y ∈ contents s root ∨ y ∈ todo th
  made : th' ≠ .lost → ∀ y ∈ todo th, y ∈ todo th' ∨ ∃ i ∈ contents t root, o.cmp i y = .eq

/-- A step that only reads. -/
theorem StepOut.read {th th' : Thread α} (H : Good False key strict IOK KOK POK s root G)
    (ho : ThreadOK C key KOK root s G th')
    (h1 : pending th' = pending th) (h2 : th' ≠ .lost → todo th' = todo th) (hr : ∃ k, todo th' = (todo th).drop k) (hl : C → th ≠ .lost → th' ≠ .lost)
    (h3 : ∀ p ∈ knows th', p ∈ knows th ∨ p = root ∨ (∃ b j, visit root th = some b ∧ j ≤ G.h ∧ b ∈ G.lv j ∧ (s.page b).right = some p) ∨
      HasDown G p) :
    StepOut C key strict IOK KOK POK o root s G th s th' G (fun _ => False) (fun _ _ => False) where
  good := H
  bnd := id
  ok := ho
  moved := Moved.refl _ _ _ _
  bad1 := fun _ h => h.elim
  bad2 := fun _ w h => Or.inl (h1.trans h)
  new1 := fun _ _ h => h.elim
  held := fun w h => Or.inl (h1.symm.trans h)
  know := fun p hp => by
    rcases h3 p hp with h | h | h | h
    · exact Or.inl h
    · exact Or.inr (Or.inl h)
    · exact Or.inr (Or.inr (Or.inl ⟨rfl, h⟩))
    · exact Or.inr (Or.inr (Or.inr h))
  keep := fun _ h => h
  just := fun _ h => Or.inl h
  made := fun hn y hy => Or.inl (by rw [h2 hn]; exact hy)
  rest := hr
  lost := hl

omit [LinearOrder K] in
theorem splitAt_hi (b : Nat) (li ri : List α) (ld rd : List (α × Nat)) (kk : α) (c : Nat) (h1 : c ≠ b) (h2 : c ≠ s.next) :
    hiP key ((splitAt s b li ri ld rd kk).page c) = hiP key (s.page c) := by
  simp only [splitAt]
  cases hr : (s.page b).right with
  | none => simp [Store.set, h1, h2]
  | some rr =>
    simp only [Store.set]
    by_cases hc : c = rr
    · subst hc
      simp [h1, h2, hiP]
    · simp [hc, h1, h2]

/-- The error "Lost path". -/
theorem StepOut.toLost {th : Thread α} (H : Good False key strict IOK KOK POK s root G) (hC : ¬ C) :
    StepOut C key strict IOK KOK POK o root s G th s .lost G (fun _ => False) (fun _ _ => False) where
  good := H
  bnd := id
  ok := trivial
  moved := Moved.refl _ _ _ _
  bad1 := fun _ h => h.elim
  bad2 := fun c => absurd c hC
  new1 := fun _ _ h => h.elim
  held := fun w h => by simp [pending] at h
  know := fun p hp => by simp [knows] at hp
  keep := fun _ h => h
  just := fun _ h => Or.inl h
  made := fun hn => absurd rfl hn
  rest := ⟨(todo th).length, by simp [todo]⟩
  lost := fun c => absurd c hC

theorem splitAt_next (b : Nat) (li ri : List α) (ld rd : List (α × Nat)) (kk : α) : (splitAt s b li ri ld rd kk).next = s.next + 1 := by
  simp only [splitAt]
  cases (s.page b).right <;> rfl

theorem splitRoot_next (b : Nat) (li ri : List α) (ld rd : List (α × Nat)) (kk : α) : (splitRoot o s b li ri ld rd kk).next = s.next + 2 := rfl

theorem pending_again (l : List α) : pending (again root l) = none := by cases l <;> rfl
theorem todo_again (l : List α) : todo (again root l) = l := by cases l <;> rfl
theorem knows_again (l : List α) : ∀ p ∈ knows (again root l), p = root := by cases l <;> simp [again, knows]
theorem again_ne (l : List α) : again root l ≠ .lost := by cases l <;> simp [again]
theorem ok_again (l : List α) : ThreadOK C key KOK root s G (again root l) := by
  cases l with
  | nil => trivial
  | cons x l => exact Or.inl ⟨rfl, rfl⟩

/-- The downlink to the left page of an unfinished split. -/
theorem pend_of_down (W : Weak key strict s root G) {k b i : Nat} {w : Pending α} (h : LinkOK key KOK s G k w) (hb : b ∈ G.lv (k + 1))
    (hi : ((s.page b).downs.map Prod.snd)[i]? = some w.child) :
    ∃ t G1 G2, Pend False G k b w.child w.r t G1 G2 ∧ i = G1.length := by
  obtain ⟨t, ht⟩ := (down_head W h.lt hb i w.child).1 hi
  obtain ⟨k', P, u, v, hk', h1, h2, h3⟩ := h.adj
  have hkk : k' = k := W.uniq k' k w.child (by omega) (by have := h.lt; omega) h1 h.mem
  subst hkk
  have hPb : P = b := parent_unique W hk' hk' h2 hb (c := w.child) (List.mem_flatten.2 ⟨_, h3, by simp⟩) (down_mem W hk' hb hi)
  subst hPb
  have hi' : i < (G.kids P).length := (List.getElem?_eq_some_iff.1 ht).1
  have hsp : G.kids P = (G.kids P).take i ++ (w.child :: t) :: (G.kids P).drop (i + 1) := by
    conv_lhs => rw [← List.take_append_drop i (G.kids P)]
    rw [List.drop_eq_getElem_cons hi', (List.getElem?_eq_some_iff.1 ht).2]
  have hnd := kids_nodup W hk' hb
  -- the two groups with the child are the same
  have hg : u ++ w.child :: w.r :: v = w.child :: t := by
    obtain ⟨-, hd⟩ := List.nodup_flatten.1 hnd
    rw [hsp] at h3 hd
    obtain ⟨-, d2, d3⟩ := List.pairwise_append.1 hd
    rcases List.mem_append.1 h3 with h3 | h3
    · exact absurd (by simp) (d3 _ h3 (w.child :: t) (by simp) (by simp : w.child ∈ u ++ w.child :: w.r :: v))
    · rcases List.mem_cons.1 h3 with h3 | h3
      · exact h3
      · exact absurd (by simp : w.child ∈ u ++ w.child :: w.r :: v) ((List.pairwise_cons.1 d2).1 _ h3 (by simp))
  have hu : u = [] := by
    cases u with
    | nil => rfl
    | cons a u =>
      simp only [List.cons_append, List.cons.injEq] at hg
      obtain ⟨rfl, hg⟩ := hg
      have hn : (w.child :: t).Nodup := (List.nodup_flatten.1 hnd).1 _ (List.mem_of_getElem? ht)
      exact absurd (by rw [← hg]; simp) (List.nodup_cons.1 hn).1
  subst hu
  simp only [List.nil_append, List.cons.injEq, true_and] at hg
  refine ⟨v, (G.kids P).take i, (G.kids P).drop (i + 1), ⟨hk', h2, by rw [hg]; exact hsp, fun f => f.elim, fun f => f.elim, fun f => f.elim,
    fun f => f.elim⟩, by simp; omega⟩

/-- The downlink was found: the change of the parent. -/
theorem link_spec (IL : InnerLaws o IOK KOK) (H : Good False key strict IOK KOK POK s root G)
    {k b i : Nat} {w : Pending α} {up : List (Nat × Nat)} (hw : LinkOK key KOK s G k w) (hb : b ∈ G.lv (k + 1))
    (hi : ((s.page b).downs.map Prod.snd)[i]? = some w.child) (hup : PathOK root G (k + 1) up) {th : Thread α} (hth : pending th = some w)
    (hv : visit root th = some b) (htodo : todo th = w.batch)
    (hkn : b = root ∨ b ∈ knows th) (hkn' : ∀ p ∈ up.map Prod.fst, p = root ∨ p ∈ knows th) :
    ∃ G' bad new, StepOut C key strict IOK KOK POK o root s G th (link o root s w b (i + 1) up).1 (link o root s w b (i + 1) up).2 G' bad new := by
  have W := H.weak
  have hhold : holds th = some w.child := by rw [holds_eq, hth]; rfl
  obtain ⟨tl, G1, G2, hp, rfl⟩ := pend_of_down W hw hb hi
  unfold link
  simp only
  cases hroom : o.roomInner (s.page b).downs w.key with
  | true =>
    simp only [if_true]
    obtain ⟨G', h1, -, h3, h4, h5⟩ := rec_add IL W H.sized hp hw.hi hw.kok hroom
    have hls := h4.leafs
    refine ⟨G', fun c => c = w.child, fun _ _ => False, ?_⟩
    refine {
      good := ⟨h1, fun f => f.elim, h3, by rw [hls]; exact H.fit⟩, bnd := (fun hB => by rw [hls]; exact hB), ok := ok_again _,
      moved := ⟨h5, h4.keeps, ?_, _root_.le_refl _⟩, bad1 := ?_, bad2 := ?_, new1 := fun _ _ h => h.elim,
      held := fun w' h => (by rw [pending_again] at h; exact absurd h (by simp)), know := fun p hp => Or.inr (Or.inl (knows_again _ p hp)),
      keep := ?_, just := ?_, made := ?_, rest := ⟨0, by rw [todo_again, htodo]; rfl⟩, lost := fun _ _ => again_ne _ }
    · intro c _ _ _
      rw [Store.set_page]
      split
      · next h => subst h; rfl
      · rfl
    · intro c hc; right; rw [hhold, hc]
    · intro _ w' hw'; right; rw [hth] at hw'; cases hw'; rfl
    · intro y hy; rwa [contents_eq h1, hls, ← contents_eq W]
    · intro y hy; left; rwa [contents_eq h1, hls, ← contents_eq W] at hy
    · intro _ y hy; left; rw [todo_again, ← htodo]; exact hy
  | false =>
    simp only [Bool.false_eq_true, if_false]
    cases up with
    | nil =>
      simp only [PathOK] at hup
      have hbr : b = root := by
        have := hb
        rw [hup, W.root] at this
        simpa using this
      subst hbr
      obtain ⟨G', d, hd, h1, -, h3, h4, h5⟩ := rec_root IL W H.sized hp hw.hi hw.kok hroom rfl rfl
      rw [hd]
      simp only [Option.map_some, Option.getD_some]
      have hls := h4.leafs
      refine ⟨G', fun c => c = w.child, fun _ _ => False, ?_⟩
      refine {
        good := ⟨h1, fun f => f.elim, h3, by rw [hls]; exact H.fit⟩, bnd := (fun hB => by rw [hls]; exact hB), ok := ok_again _,
        moved := ⟨h5, h4.keeps, ?_, by rw [splitRoot_next]; omega⟩, bad1 := ?_, bad2 := ?_, new1 := fun _ _ h => h.elim,
        held := fun w' h => (by rw [pending_again] at h; exact absurd h (by simp)), know := fun p hp => Or.inr (Or.inl (knows_again _ p hp)),
        keep := ?_, just := ?_, made := ?_, rest := ⟨0, by rw [todo_again, htodo]; rfl⟩, lost := fun _ _ => again_ne _ }
      · intro c hc _ hr
        rw [(splitRoot_pages W).2.2.2 c hc hr]
      · intro c hc; right; rw [hhold, hc]
      · intro _ w' hw'; right; rw [hth] at hw'; cases hw'; rfl
      · intro y hy; rwa [contents_eq h1, hls, ← contents_eq W]
      · intro y hy; left; rwa [contents_eq h1, hls, ← contents_eq W] at hy
      · intro _ y hy; left; rw [todo_again, ← htodo]; exact hy
    | cons q up' =>
      obtain ⟨q, off'⟩ := q
      have hk1 : k + 1 < G.h := hup.1
      obtain ⟨G', d, hd, h1, -, h3, h4, hKd, hhi, hh, hnx, hpath, h5, hadj⟩ := rec_split IL W H.sized hp hw.hi hw.kok hroom hk1 rfl rfl
      rw [hd]
      simp only [Option.map_some, Option.getD_some]
      have hls := h4.leafs
      refine ⟨G', fun c => c = w.child ∨ c = b, fun x y => (x = b ∧ y = s.next) ∨ (x = s.next ∧ Adj G b y), ?_⟩
      refine {
        good := ⟨h1, fun f => f.elim, h3, by rw [hls]; exact H.fit⟩, bnd := (fun hB => by rw [hls]; exact hB),
        ok := ⟨k + 1, ⟨by omega, h5.mem _ (by omega) b hb (ne_root W hk1 hb), hadj, hhi, hKd⟩, hpath _ hup⟩,
        moved := ⟨h5, h4.keeps, ?_, by rw [splitAt_next]; omega⟩, bad1 := ?_, bad2 := ?_, new1 := ?_,
        held := ?_, know := ?_,
        keep := ?_, just := ?_, made := ?_, rest := ⟨0, by rw [htodo]; rfl⟩, lost := fun _ _ => by simp }
      · intro c hc hbad _
        apply splitAt_hi
        · exact fun h => hbad (Or.inr h)
        · omega
      · rintro c (hc | hc)
        · right; rw [hhold, hc]
        · left; rw [hv, hc]
      · intro _ w' hw'; right; rw [hth] at hw'; cases hw'; exact Or.inl rfl
      · rintro x y (⟨rfl, rfl⟩ | ⟨-, h⟩)
        · exact Or.inl ⟨_, rfl, rfl, rfl⟩
        · exact Or.inr ⟨b, hv, h⟩
      · intro w' hw'
        simp only [pending, Option.some.injEq] at hw'
        subst hw'
        exact Or.inr ⟨hv, rfl, hnx⟩
      · intro p hp
        simp only [knows, List.mem_cons] at hp
        rcases hp with rfl | hp
        · rcases hkn with h | h
          · exact Or.inr (Or.inl h)
          · exact Or.inl h
        · rcases hkn' p (by simpa using hp) with h | h
          · exact Or.inr (Or.inl h)
          · exact Or.inl h
      · intro y hy; rwa [contents_eq h1, hls, ← contents_eq W]
      · intro y hy; left; rwa [contents_eq h1, hls, ← contents_eq W] at hy
      · intro _ y hy; left; rw [← htodo]; exact hy

theorem level_of_down (W : Weak key strict s root G) {j k P i c : Nat} (hj : j < G.h) (hk : k ≤ G.h) (hP : P ∈ G.lv (j + 1)) (hc : c ∈ G.lv k)
    (hi : ((s.page P).downs.map Prod.snd)[i]? = some c) : j = k :=
  W.uniq j k c (by omega) hk (kids_mem W.toThin hj hP (down_mem W hj hP hi)) hc

/-- A page that does not follow another in a group has a downlink. -/
theorem down_of_head (W : Weak key strict s root G) {k c : Nat} (hk : k < G.h) (hc : c ∈ G.lv k) (hno : ∀ b, ¬ Adj G b c) :
    ∃ (P i : Nat), P ∈ G.lv (k + 1) ∧ ((s.page P).downs.map Prod.snd)[i]? = some c ∧ c ∈ (G.kids P).flatten := by
  obtain ⟨P, G1, g, G2, hP, hg, hcg⟩ := exists_parent W hk hc
  obtain ⟨u, v, rfl⟩ := List.append_of_mem hcg
  have hu : u = [] := by
    rcases List.eq_nil_or_concat u with rfl | ⟨u, b, rfl⟩
    · rfl
    · refine absurd ⟨k, P, u, v, hk, ?_, hP, ?_⟩ (hno b)
      · exact kids_mem W.toThin hk hP (by rw [hg]; simp)
      · rw [hg]; simp
  subst hu
  exact ⟨P, G1.length, hP, down_pos W hk hP hg, by rw [hg]; simp⟩

theorem hasDown_of (W : Weak key strict s root G) {k P i : Nat} {d : α × Nat} (hk : k < G.h) (hP : P ∈ G.lv (k + 1))
    (hi : (s.page P).downs[i]? = some d) : HasDown G d.2 := by
  obtain ⟨t, ht⟩ := (down_head W hk hP i d.2).1 (by rw [List.getElem?_map, hi]; rfl)
  exact ⟨k, P, d.2 :: t, hk, hP, List.mem_of_getElem? ht, rfl⟩

/-- Steps of the search for the parent. -/
theorem link_act_spec (IL : InnerLaws o IOK KOK) (H : Good False key strict IOK KOK POK s root G)
    {th : Thread α} (hth : (pending th).isSome) (ho : ThreadOK C key KOK root s G th) (hC : C → ∀ w, pending th = some w → ∀ c, ¬ Adj G c w.child) :
    ∃ G' bad new, StepOut C key strict IOK KOK POK o root s G th (act o seek root s th).1 (act o seek root s th).2 G' bad new := by
  have W := H.weak
  cases th with
  | walk w p off up =>
    obtain ⟨k, hw, hk, hup⟩ := ho
    unfold act
    simp only
    have hpj : ∃ j, j < G.h ∧ p ∈ G.lv (j + 1) := by
      rcases hup with ⟨h1, -⟩ | ⟨rfl, -⟩
      · exact ⟨k, hk, h1⟩
      · exact ⟨G.h - 1, by omega, by rw [Nat.sub_add_cancel (by omega), W.root]; simp⟩
    obtain ⟨j, hj, hp⟩ := hpj
    rcases Props.C17_find_child ((s.page p).downs.map Prod.snd) w.child off with ⟨i, h1, h2, h3⟩ | ⟨h1, h2⟩
    · obtain ⟨i, rfl⟩ : ∃ i', i = i' + 1 := ⟨i - 1, by omega⟩
      simp only [Nat.add_sub_cancel] at h3
      have hjk := level_of_down W hj (by omega) hp hw.mem h3
      subst hjk
      rw [h1]
      refine link_spec IL H hw hp h3 ?_ rfl rfl rfl (Or.inr (by simp [knows])) (fun q hq => Or.inr (by simp only [knows, List.mem_cons]; exact Or.inr (Or.inr hq)))
      rcases hup with ⟨-, h⟩ | ⟨rfl, rfl⟩
      · exact h
      · exact W.uniq (j + 1) G.h p (by omega) (_root_.le_refl _) hp (by rw [W.root]; simp)
    · rw [h1]
      simp only
      obtain ⟨A, B, e⟩ := List.append_of_mem hp
      have hr := (Linked.right (e ▸ W.linked (j + 1) hj)).1
      cases B with
      | nil =>
        simp at hr
        rw [hr]
        exact ⟨G, _, _, StepOut.read H ⟨k, hw⟩ rfl (fun _ => rfl) ⟨0, rfl⟩ (fun _ _ => by simp) (fun q hq => Or.inl (by simp [knows] at hq ⊢; simp [hq]))⟩
      | cons q B =>
        simp at hr
        rw [hr]
        refine ⟨G, _, _, StepOut.read H ⟨k, hw, hk, ?_⟩ rfl (fun _ => rfl) ⟨0, rfl⟩ (fun _ _ => by simp) ?_⟩
        · rcases hup with ⟨h3, h4⟩ | ⟨rfl, rfl⟩
          · have hjk : j + 1 = k + 1 := W.uniq (j + 1) (k + 1) p (by omega) (by omega) hp h3
            left
            exact ⟨by rw [← hjk, e]; simp, h4⟩
          · have : j + 1 = G.h := W.uniq (j + 1) G.h p (by omega) (_root_.le_refl _) hp (by rw [W.root]; simp)
            rw [this, W.root] at e
            have := congrArg List.length e
            simp at this
            omega
        · intro z hz
          simp only [knows, List.mem_cons] at hz ⊢
          rcases hz with rfl | rfl | hz
          · exact Or.inl (Or.inl rfl)
          · exact Or.inr (Or.inr (Or.inl ⟨p, j + 1, rfl, by omega, hp, hr⟩))
          · exact Or.inl (Or.inr (Or.inr hz))
  | top w =>
    obtain ⟨k, hw⟩ := ho
    unfold act
    simp only
    have hk := hw.lt
    have hroot : root ∈ G.lv (G.h - 1 + 1) := by rw [Nat.sub_add_cancel (by omega), W.root]; simp
    rcases Props.C17_find_child ((s.page root).downs.map Prod.snd) w.child 0 with ⟨i, h1, h2, h3⟩ | ⟨h1, h2⟩
    · obtain ⟨i, rfl⟩ : ∃ i', i = i' + 1 := ⟨i - 1, by omega⟩
      simp only [Nat.add_sub_cancel] at h3
      have hjk := level_of_down W (by omega) (by omega) hroot hw.mem h3
      rw [h1]
      refine link_spec IL H hw (by rw [← hjk]; exact hroot) h3 ?_ rfl rfl rfl (Or.inl rfl) (by simp)
      show k + 1 = G.h
      omega
    · rw [h1]
      simp only
      obtain ⟨d, B', hd, e'⟩ := head_down W (k := G.h - 1) (b := root) (B := []) (by omega) (by rw [Nat.sub_add_cancel (by omega), W.root])
      rw [hd]
      have hfound : C → k + 1 ≤ G.h - 1 := by
        intro c
        obtain ⟨P, i, hP, hi, -⟩ := down_of_head W hk hw.mem (hC c w rfl)
        by_contra hlt
        have : k + 1 = G.h := by omega
        rw [this, W.root] at hP
        simp only [List.mem_singleton] at hP
        subst hP
        exact h2 (List.mem_of_getElem? hi)
      refine ⟨G, _, _, StepOut.read H ⟨k, G.h - 1, hw, by omega, by rw [e']; simp, ⟨hfound, Or.inl ⟨rfl, by rw [e']; rfl⟩, ?_⟩⟩ rfl (fun _ => rfl)
        ⟨0, rfl⟩ (fun _ _ => by simp) ?_⟩
      · intro c hj
        obtain ⟨P, i, hP, hi, hP'⟩ := down_of_head W hk hw.mem (hC c w rfl)
        refine ⟨P, [], B', by rw [← hj, e']; rfl, ?_, hP'⟩
        rw [← e', hj]; exact hP
      · intro z hz
        simp only [knows, List.mem_cons, Option.toList_none, List.not_mem_nil, or_false] at hz ⊢
        rcases hz with rfl | rfl
        · exact Or.inl rfl
        · refine Or.inr (Or.inr (Or.inr (hasDown_of W (k := G.h - 1) (by omega) hroot (i := 0) ?_)))
          rw [← List.head?_eq_getElem?]; exact hd
  | level w p lm =>
    obtain ⟨k, j, hw, hj, hp, hL⟩ := ho
    unfold act
    simp only
    have hk := hw.lt
    cases j with
    | zero =>
      rw [if_pos (W.leaf p hp)]
      exact ⟨G, _, _, StepOut.toLost H (fun c => absurd (hL.le c) (by omega))⟩
    | succ j =>
      rw [if_neg (by rw [(W.inner j (by omega) p hp).1]; simp)]
      rcases Props.C17_find_child ((s.page p).downs.map Prod.snd) w.child 0 with ⟨i, h1, h2, h3⟩ | ⟨h1, h2⟩
      · obtain ⟨i, rfl⟩ : ∃ i', i = i' + 1 := ⟨i - 1, by omega⟩
        simp only [Nat.add_sub_cancel] at h3
        have hjk := level_of_down W (by omega) (by omega) hp hw.mem h3
        subst hjk
        rw [h1]
        refine link_spec (up := [(root, 0)]) IL H hw hp h3 ⟨hj, Or.inr ⟨rfl, rfl⟩⟩ rfl rfl rfl (Or.inr (by simp [knows])) (fun q hq => Or.inl (by simpa using hq))
      · rw [h1]
        simp only
        obtain ⟨A, B, e⟩ := List.append_of_mem hp
        have hr := (Linked.right (e ▸ W.linked (j + 1) (by omega))).1
        -- the note of the next level
        obtain ⟨q0, hq0, hq1, hq2⟩ : ∃ q0, lm.or ((s.page p).downs.head?.map Prod.snd) = some q0 ∧ (G.lv j).head? = some q0 ∧
            (q0 ∈ lm.toList ∨ HasDown G q0) := by
          rcases hL.lm with ⟨rfl, h⟩ | ⟨q, j', rfl, h3, h4⟩
          · obtain ⟨B', hB'⟩ := List.head?_eq_some_iff.1 h
            obtain ⟨d, B'', hd, e''⟩ := head_down W (by omega) hB'
            refine ⟨d.2, by rw [hd]; rfl, by rw [e'']; rfl, Or.inr (hasDown_of W (k := j) (by omega) hp (i := 0) ?_)⟩
            rw [← List.head?_eq_getElem?]; exact hd
          · obtain rfl : j = j' := by omega
            exact ⟨q, rfl, h4, Or.inl (by simp)⟩
        have hPp : C → j + 1 = k + 1 → ∃ P A B, G.lv (k + 1) = A ++ p :: B ∧ P ∈ B ∧ w.child ∈ (G.kids P).flatten := by
          intro c hjk
          obtain ⟨P, A, B, h3, h4, h5⟩ := hL.ord c hjk
          refine ⟨P, A, B, h3, ?_, h5⟩
          rcases List.mem_cons.1 h4 with rfl | h4
          · obtain ⟨Q, i, hQ, hi, hQ'⟩ := down_of_head W hk hw.mem (hC c w rfl)
            have := parent_unique W hk hk hQ (by rw [h3]; simp) hQ' h5
            subst this
            exact absurd (List.mem_of_getElem? hi) h2
          · exact h4
        rw [hq0]
        cases B with
        | nil =>
          simp at hr
          rw [hr]
          simp only
          obtain ⟨B', hB'⟩ := List.head?_eq_some_iff.1 hq1
          have hle : C → k + 1 ≤ j := by
            intro c
            have := hL.le c
            by_contra hlt
            obtain ⟨P, A', B'', h3, h4, -⟩ := hPp c (by omega)
            have hjk : j + 1 = k + 1 := by omega
            rw [hjk] at e
            obtain ⟨-, rfl⟩ := split_unique (W.nodup (k + 1) (by omega)) e h3
            simp at h4
          refine ⟨G, _, _, StepOut.read H ⟨k, j, hw, by omega, by rw [hB']; simp, ⟨hle, Or.inl ⟨rfl, hq1⟩, ?_⟩⟩ rfl (fun _ => rfl)
            ⟨0, rfl⟩ (fun _ _ => by simp) ?_⟩
          · intro c hjk
            obtain ⟨P, i, hP, hi, hP'⟩ := down_of_head W hk hw.mem (hC c w rfl)
            refine ⟨P, [], B', by rw [← hjk, hB']; rfl, ?_, hP'⟩
            rw [← hB', hjk]; exact hP
          · intro z hz
            simp only [knows, List.mem_cons, Option.toList_none, List.not_mem_nil, or_false] at hz ⊢
            rcases hz with rfl | rfl
            · exact Or.inl (Or.inl rfl)
            · rcases hq2 with h | h
              · exact Or.inl (Or.inr (Or.inr h))
              · exact Or.inr (Or.inr (Or.inr h))
        | cons q B =>
          simp at hr
          rw [hr]
          simp only
          refine ⟨G, _, _, StepOut.read H ⟨k, j + 1, hw, by omega, by rw [e]; simp, ⟨hL.le, Or.inr ⟨q0, j, rfl, rfl, hq1⟩, ?_⟩⟩ rfl
            (fun _ => rfl) ⟨0, rfl⟩ (fun _ _ => by simp) ?_⟩
          · intro c hjk
            obtain ⟨P, A', B', h3, h4, h5⟩ := hPp c hjk
            rw [hjk] at e
            obtain ⟨rfl, rfl⟩ := split_unique (W.nodup (k + 1) (by omega)) e h3
            exact ⟨P, A ++ [p], B, by rw [e]; simp, h4, h5⟩
          · intro z hz
            simp only [knows, List.mem_cons, Option.mem_toList, Option.some.injEq] at hz ⊢
            rcases hz with rfl | rfl | rfl
            · exact Or.inl (Or.inl rfl)
            · exact Or.inr (Or.inr (Or.inl ⟨p, j + 1, rfl, by omega, hp, hr⟩))
            · rcases hq2 with h | h
              · exact Or.inl (Or.inr (Or.inr (by simpa using h)))
              · exact Or.inr (Or.inr (Or.inr h))
  | _ => simp [pending] at hth

theorem upd_made (hk : KeyOf o.cmp key) {old new : List α} {y : α} (hy : y ∈ new) {l : List α} (hl : ∀ z, z ∈ l ↔ Upd o.cmp true old new z) :
    ∃ i ∈ l, o.cmp i y = .eq := by
  by_cases h : ∃ z ∈ old, o.cmp z y = .eq
  · obtain ⟨z, hz, he⟩ := h
    exact ⟨z, (hl z).2 (by simp [Upd, hz]), he⟩
  · refine ⟨y, (hl y).2 ?_, (hk.eq y y).2 rfl⟩
    simp only [Upd, if_true]
    exact Or.inr ⟨hy, fun z hz he => h ⟨z, hz, he⟩⟩

/-- Steps of the descent of an insertion. -/
theorem ins_act_spec (hk : KeyOf o.cmp key) (hl : LocateOK o key strict) (IL : InnerLaws o IOK KOK) (LL : LeafLaws o true POK XOK KOK)
    (H : Good False key strict IOK KOK POK s root G) {x : α} {xs : List α} (hB : xs = [] ∨ BoundIn key (leafs key s G)) {b : Nat} {up : List (Nat × Nat)}
    (ho : ThreadOK C key KOK root s G (.ins (x :: xs) b up)) (hsort : SSorted o.cmp (x :: xs)) (hok : XOK (x :: xs)) :
    ∃ G' bad new, StepOut C key strict IOK KOK POK o root s G (.ins (x :: xs) b up) (actIns o root s x xs b up).1 (actIns o root s x xs b up).2
      G' bad new := by
  have W := H.weak
  obtain ⟨k, A, B, hkh, e, hA, hup⟩ : ∃ k A B, k ≤ G.h ∧ G.lv k = A ++ b :: B ∧ NotLeft key s G k A x ∧ PathOK root G k up := by
    rcases ho with ⟨rfl, rfl⟩ | ⟨k, A, B, h1, h2, h3, h4⟩
    · exact ⟨G.h, [], [], _root_.le_refl _, by rw [W.root]; rfl, fun c hc => by simp at hc, rfl⟩
    · exact ⟨k, A, B, by omega, h2, h3, h4⟩
  have hb : b ∈ G.lv k := by rw [e]; simp
  have hr := (Linked.right (e ▸ W.linked k hkh)).1
  have hlt : b ≠ root → k < G.h := by
    intro h
    rcases Nat.lt_or_eq_of_le hkh with h' | rfl
    · exact h'
    · rw [W.root] at hb; simp at hb; exact absurd hb h
  unfold actIns
  simp only
  by_cases hmv : b ≠ root ∧ (s.page b).right.isSome = true ∧ o.cmp x (s.page b).bound = .gt
  · rw [if_pos hmv]
    cases B with
    | nil => simp at hr; rw [hr] at hmv; simp at hmv
    | cons r B =>
      simp at hr
      rw [hr]
      simp only [Option.getD_some]
      refine ⟨G, _, _, StepOut.read H (Or.inr ⟨k, A ++ [b], B, hlt hmv.1, by rw [e]; simp,
        notLeft_of_last W hkh e ((hi_gt hk _ x r hr).1 hmv.2.2), hup⟩) rfl (fun _ => rfl) ⟨0, rfl⟩ (fun _ _ => by simp) ?_⟩
      intro z hz
      simp only [knows, List.mem_cons] at hz ⊢
      rcases hz with rfl | hz
      · exact Or.inr (Or.inr (Or.inl ⟨b, k, rfl, hkh, hb, hr⟩))
      · exact Or.inl (Or.inr hz)
  · rw [if_neg hmv]
    have hx : ((key x : K) : WithTop K) ≤ hiP key (s.page b) := by
      cases hrr : (s.page b).right with
      | none => simp [hiP, hrr]
      | some r =>
        by_contra hlt'
        have hgt := (hi_gt hk _ x r hrr).2 (lt_of_not_ge hlt')
        refine hmv ⟨fun h => ?_, by rw [hrr]; rfl, hgt⟩
        have := W.linked G.h (_root_.le_refl _)
        rw [W.root] at this
        have h2 : (s.page root).right = none := by simpa using this.2.1
        rw [← h, hrr] at h2
        cases h2
    cases k with
    | zero =>
      rw [if_pos (W.leaf b hb)]
      have hA0 : ∀ c ∈ A, hiP key (s.page c) < ((key x : K) : WithTop K) := by
        intro c hc
        exact hA c (by simpa [under] using hc)
      have hmem : ((s.page b).items, hiP key (s.page b)) ∈ leafs key s G := by rw [leafs_split e]; simp
      have hPOK : POK (s.page b).items := H.fit _ hmem
      have hss : SSorted o.cmp (s.page b).items := (ssorted_key hk).2 (W.order.sorted b hb)
      have hfnd := LL.found _ x xs hPOK hss hok
      have hcont : ∀ i ∈ (s.page b).items, i ∈ contents s root := by
        intro i hi
        rw [contents_eq W]
        exact List.mem_flatMap.2 ⟨_, hmem, hi⟩
      by_cases hf : o.found (s.page b).items x = true
      · rw [if_pos hf]
        obtain ⟨i, hi, he⟩ := hfnd.1 hf
        refine ⟨G, _, _, {
          StepOut.read (th' := (.ins (x :: xs) b up : Thread α)) (o := o) H ho rfl (fun _ => rfl) ⟨0, rfl⟩ (fun _ _ => by simp)
            (fun q hq => Or.inl hq) with
          ok := ok_again _, bad2 := fun _ w h => by simp [pending] at h, new1 := fun _ _ h => h.elim,
          held := fun w h => (by rw [pending_again] at h; exact absurd h (by simp)), know := fun p hp => Or.inr (Or.inl (knows_again _ p hp)),
          made := ?_, rest := ⟨1, by rw [todo_again]; rfl⟩, lost := fun _ _ => again_ne _ }⟩
        intro _ y hy
        rcases List.mem_cons.1 hy with rfl | hy
        · exact Or.inr ⟨i, hcont i hi, he⟩
        · left; rw [todo_again]; exact hy
      · rw [if_neg hf]
        have hnew : true = true → ∀ i ∈ (s.page b).items, o.cmp i x ≠ .eq := fun _ i hi he => hf (hfnd.2 ⟨i, hi, he⟩)
        have htd : ∀ {n : Nat} {y : α}, y ∈ x :: xs → y ∈ (x :: xs).take n ∨ y ∈ (x :: xs).drop n := by
          intro n y hy
          rw [← List.take_append_drop n (x :: xs)] at hy
          exact List.mem_append.1 hy
        by_cases hroom : o.roomLeaf (s.page b).items (x :: xs) = true
        · rw [if_pos hroom]
          obtain ⟨n, n1, n2, n3, g1, g2, g3, g4⟩ := leaf_place hk LL H e hA0 hx hsort hok hroom
          have hc := contents_eq g1.weak
          rw [← contents_eq W, ← hc] at g2
          refine ⟨G, fun _ => False, fun _ _ => False, {
            good := g1, bnd := g3, ok := ok_again _, moved := ⟨Keeps.refl _ _, g4, ?_, _root_.le_refl _⟩, bad1 := fun _ h => h.elim,
            bad2 := fun _ w h => by simp [pending] at h, new1 := fun _ _ h => h.elim,
            held := fun w h => (by rw [pending_again] at h; exact absurd h (by simp)), know := fun p hp => Or.inr (Or.inl (knows_again _ p hp)),
            keep := ?_, just := ?_, made := ?_, rest := ⟨n, by rw [todo_again, n3]; rfl⟩, lost := fun _ _ => again_ne _ }⟩
          · intro c _ _ _
            rw [Store.set_page]
            split
            · next h => subst h; rfl
            · rfl
          · intro y hy; exact (g2 y).2 (by simp [Upd, hy])
          · intro y hy
            have := (g2 y).1 hy
            simp only [Upd, if_true] at this
            rcases this with h | ⟨h, -⟩
            · exact Or.inl h
            · exact Or.inr (List.mem_of_mem_take h)
          · intro _ y hy
            rcases htd (n := n) hy with h | h
            · exact Or.inr (upd_made hk h g2)
            · left; rw [todo_again, n3]; exact h
        · rw [if_neg hroom]
          have hroom : o.roomLeaf (s.page b).items (x :: xs) = false := by simpa using hroom
          cases up with
          | nil =>
            obtain ⟨n, kk, n1, n2, n3, rfl, hget, G', g1, g2, g3, g4, g5⟩ := leaf_root IL hk LL H e hA0 hx hsort hok hnew (hB.imp id (fun h => ⟨rfl, h⟩)) hroom
              (by simpa [PathOK] using hup.symm)
            simp only
            rw [hget]
            have hc := contents_eq g1.weak
            rw [← contents_eq W, ← hc] at g2
            refine ⟨G', fun _ => False, fun _ _ => False, {
              good := g1, bnd := g3, ok := ok_again _, moved := ⟨g5, g4, ?_, by rw [splitRoot_next]; omega⟩, bad1 := fun _ h => h.elim,
              bad2 := fun _ w h => by simp [pending] at h, new1 := fun _ _ h => h.elim,
              held := fun w h => (by rw [pending_again] at h; exact absurd h (by simp)), know := fun p hp => Or.inr (Or.inl (knows_again _ p hp)),
              keep := ?_, just := ?_, made := ?_, rest := ⟨n, by rw [todo_again, n3]; rfl⟩, lost := fun _ _ => again_ne _ }⟩
            · intro c hc _ hr
              rw [(splitRoot_pages W).2.2.2 c hc hr]
            · intro y hy; exact (g2 y).2 (by simp [Upd, hy])
            · intro y hy
              have := (g2 y).1 hy
              simp only [Upd, if_true] at this
              rcases this with h | ⟨h, -⟩
              · exact Or.inl h
              · exact Or.inr (List.mem_of_mem_take h)
            · intro _ y hy
              rcases htd (n := n) hy with h | h
              · exact Or.inr (upd_made hk h g2)
              · left; rw [todo_again, n3]; exact h
          | cons q up' =>
            obtain ⟨q, off⟩ := q
            have h0 : 0 < G.h := hup.1
            obtain ⟨n, kk, n1, n2, n3, hget, hKK, G', g1, -, hhi, hpath, hh, g2, g3, g4, g5, g6, g7⟩ :=
              leaf_split hk LL H e hA0 hx hsort hok hnew (hB.imp id (fun h => ⟨rfl, h⟩)) hroom h0
            simp only
            rw [hget]
            have hc := contents_eq g1.weak
            rw [← contents_eq W, ← hc] at g2
            refine ⟨G', _, _, {
              good := g1, bnd := g3, ok := ⟨0, ⟨by omega, g6, g7, hhi, hKK⟩, hpath _ _ hup⟩,
              moved := ⟨g5, g4, ?_, by rw [splitAt_next]; omega⟩, bad1 := fun c h => Or.inl (by rw [h]; rfl),
              bad2 := fun _ w h => by simp [pending] at h, new1 := ?_,
              held := ?_, know := ?_,
              keep := ?_, just := ?_, made := ?_, rest := ⟨n, by rw [n3]; rfl⟩, lost := fun _ _ => by simp }⟩
            · intro c hc hbad _
              exact splitAt_hi _ _ _ _ _ _ _ hbad (by omega)
            · rintro x y (⟨rfl, rfl⟩ | ⟨-, h⟩)
              · exact Or.inl ⟨_, rfl, rfl, rfl⟩
              · exact Or.inr ⟨b, rfl, h⟩
            · intro w' hw'
              simp only [pending, Option.some.injEq] at hw'
              subst hw'
              exact Or.inr ⟨rfl, rfl, by rw [splitAt_next]; omega⟩
            · intro p hp
              simp only [knows, List.mem_cons, List.map_cons] at hp ⊢
              exact Or.inl hp
            · intro y hy; exact (g2 y).2 (by simp [Upd, hy])
            · intro y hy
              have := (g2 y).1 hy
              simp only [Upd, if_true] at this
              rcases this with h | ⟨h, -⟩
              · exact Or.inl h
              · exact Or.inr (List.mem_of_mem_take h)
            · intro _ y hy
              rcases htd (n := n) hy with h | h
              · exact Or.inr (upd_made hk h g2)
              · left; show y ∈ (o.cut _ _).2.2; rw [n3]; exact h
    | succ k =>
      rw [if_neg (by rw [(W.inner k (by omega) b hb).1]; simp)]
      obtain ⟨d, A', B', hd, e', hA'⟩ := child_spec hl W (by omega) x A B b e hA hx
      rw [hd]
      simp only
      refine ⟨G, _, _, StepOut.read H (Or.inr ⟨k, A', B', by omega, e', hA', by omega, Or.inl ⟨hb, hup⟩⟩) rfl (fun _ => rfl) ⟨0, rfl⟩
        (fun _ _ => by simp) ?_⟩
      intro z hz
      simp only [knows, List.mem_cons, List.map_cons] at hz ⊢
      rcases hz with rfl | hz
      · exact Or.inr (Or.inr (Or.inr (hasDown_of W (by omega) hb hd)))
      · exact Or.inl hz

/-- One step of a backend. -/
theorem act_spec (hk : KeyOf o.cmp key) (hl : LocateOK o key strict) (IL : InnerLaws o IOK KOK) (LL : LeafLaws o true POK XOK KOK)
    (H : Good False key strict IOK KOK POK s root G) {th : Thread α} (hB : (todo th).length ≤ 1 ∨ BoundIn key (leafs key s G))
    (ho : ThreadOK C key KOK root s G th) (hsort : SSorted o.cmp (todo th)) (hok : XOK (todo th))
    (hC : C → ∀ w, pending th = some w → ∀ c, ¬ Adj G c w.child) :
    ∃ G' bad new, StepOut C key strict IOK KOK POK o root s G th (act o seek root s th).1 (act o seek root s th).2 G' bad new := by
  have hread : ∀ th' : Thread α, pending th = none → todo th = [] → pending th' = none → todo th' = [] → knows th' = [] →
      ThreadOK C key KOK root s G th' → (th ≠ .lost → th' ≠ .lost) →
      ∃ G' bad new, StepOut C key strict IOK KOK POK o root s G th s th' G' bad new := by
    intro th' h1 h2 h3 h4 h5 h6 h7
    exact ⟨G, _, _, StepOut.read H h6 (h3.trans h1.symm) (fun _ => h4.trans h2.symm) ⟨0, by rw [h4, h2]; rfl⟩ (fun _ => h7)
      (fun p hp => by rw [h5] at hp; simp at hp)⟩
  cases th with
  | ins batch b up =>
    cases batch with
    | nil => exact ho.elim
    | cons x xs => exact ins_act_spec hk hl IL LL H (hB.imp (fun h => List.length_eq_zero_iff.1 (by simpa [todo] using h)) id) ho hsort hok
  | walk w p off up => exact link_act_spec IL H rfl ho hC
  | top w => exact link_act_spec IL H rfl ho hC
  | level w p lm => exact link_act_spec IL H rfl ho hC
  | idle => exact hread _ rfl rfl rfl rfl rfl trivial id
  | inserted => exact hread _ rfl rfl rfl rfl rfl trivial id
  | lost => exact hread _ rfl rfl rfl rfl rfl trivial id
  | scanned => exact hread _ rfl rfl rfl rfl rfl trivial id
  | ended => exact hread _ rfl rfl rfl rfl rfl trivial id
  | down b =>
    unfold act
    simp only
    split
    · unfold actScan
      split <;> exact hread _ rfl rfl rfl rfl rfl trivial (fun _ => by simp)
    · split <;> exact hread _ rfl rfl rfl rfl rfl trivial (fun _ => by simp)
  | scan b acc =>
    unfold act actScan
    simp only
    split <;> exact hread _ rfl rfl rfl rfl rfl trivial (fun _ => by simp)
  | opening b =>
    unfold act
    simp only
    split
    · split <;> exact hread _ rfl rfl rfl rfl rfl trivial (fun _ => by simp)
    · split <;> exact hread _ rfl rfl rfl rfl rfl trivial (fun _ => by simp)
  | cursor b list cur acc =>
    cases list with
    | cons y ys => exact hread _ rfl rfl rfl rfl rfl trivial (fun _ => by simp [act])
    | nil =>
      unfold act
      simp only
      split
      · split
        · exact hread _ rfl rfl rfl rfl rfl trivial (fun _ => by simp)
        · split <;> exact hread _ rfl rfl rfl rfl rfl trivial (fun _ => by simp)
      · exact hread _ rfl rfl rfl rfl rfl trivial (fun _ => by simp)
  | next b cur acc =>
    unfold act
    simp only
    split <;> exact hread _ rfl rfl rfl rfl rfl trivial (fun _ => by simp)

end Rum.Tree

import Verif.TreeInv
/-
The elementary changes of a tree keep the invariant: changing the items of a leaf, splitting a page, adding a downlink, adding a level.
-/
namespace Rum.Tree
open Rum Rum.Entry

variable {α K : Type} [LinearOrder K]

theorem Store.set_page (s : Store α) (b : Nat) (p : Page α) (c : Nat) : (s.set b p).page c = if c = b then p else s.page c := rfl

theorem Store.set_next (s : Store α) (b : Nat) (p : Page α) : (s.set b p).next = s.next := rfl

theorem InnerOK.congr {key : α → K} {strict : Bool} {s t : Store α} {tp tp' : Nat → Nat} {me me' : Nat} {kids : List (List Nat)} {p q : Page α}
    (h : InnerOK key strict s tp me kids p) (hst : ∀ c ∈ kids.flatten, hiP key (t.page c) = hiP key (s.page c))
    (htp : ∀ c ∈ kids.flatten, tp c = me → tp' c = me') (hme : hiP key (t.page me') = hiP key (s.page me))
    (hd : q.downs = p.downs) (hb : q.bound = p.bound) (hr : q.right = p.right) : InnerOK key strict t tp' me' kids q := by
  have hm : ∀ g ∈ kids, ∀ c, g.getLast? = some c → c ∈ kids.flatten := fun g hg c hc =>
    List.mem_flatten.2 ⟨g, hg, List.mem_of_getLast? hc⟩
  refine ⟨?_, ?_, ?_, ?_⟩
  · rw [hd]
    have := h.downs
    rw [List.forall₂_iff_get] at this ⊢
    refine ⟨this.1, fun i h1 h2 => ⟨(this.2 i h1 h2).1, fun c hc => ?_⟩⟩
    rw [hst c (hm _ (List.get_mem _ _) c hc)]
    exact (this.2 i h1 h2).2 c hc
  · intro g c hg hc
    exact htp c (hm g (List.mem_of_getLast? hg) c hc) (h.last g c hg hc)
  · have : hiP key q = hiP key p := by simp [hiP, hb, hr]
    rw [this, hme]
    exact h.lim
  · rw [hd, hb, hr]; exact h.strict

/-! ### Changing a leaf -/

theorem Weak.of_same {key : α → K} {strict : Bool} {s t : Store α} {root : Nat} {G : Ghost} (W : Weak key strict s root G)
    (h : ∀ c, t.page c = { s.page c with items := (t.page c).items }) (hn : s.next ≤ t.next) (ho : LeafOrder key t (G.lv 0)) :
    Weak key strict t root G := by
  have hhi : ∀ c, hiP key (t.page c) = hiP key (s.page c) := fun c => by rw [h c]; rfl
  refine ⟨⟨W.root, W.cover, fun k hk => (W.linked k hk).mono (fun b _ => by rw [h b]; exact ⟨rfl, rfl⟩), W.uniq, W.nodup, ?_, ?_, ?_, ho, W.tpl⟩, W.ne⟩
  · intro k hk b hb
    have := W.alloc k hk b hb
    rw [h b]
    exact ⟨by omega, this.2⟩
  · intro b hb
    rw [h b]; exact W.leaf b hb
  · intro k hk b hb
    obtain ⟨h1, h2⟩ := W.inner k hk b hb
    refine ⟨by rw [h b]; exact h1, h2.congr (fun c _ => hhi c) (fun _ _ h => h) (hhi _) ?_ ?_ ?_⟩ <;> rw [h b]

theorem Weak.leaf_change {key : α → K} {strict : Bool} {s : Store α} {root : Nat} {G : Ghost} (W : Weak key strict s root G)
    {A B : List Nat} {b : Nat} (e : G.lv 0 = A ++ b :: B) {its : List α} (hs : its.Pairwise (fun i j => key i < key j))
    (hle : ∀ i ∈ its, ((key i : K) : WithTop K) ≤ hiP key (s.page b))
    (hlo : ∀ c ∈ A, ∀ i ∈ its, hiP key (s.page c) < ((key i : K) : WithTop K)) :
    Weak key strict (s.set b { s.page b with items := its }) root G := by
  have hpg : ∀ c, (s.set b { s.page b with items := its }).page c =
      { s.page c with items := ((s.set b { s.page b with items := its }).page c).items } := by
    intro c
    rw [Store.set_page]
    split
    · next h => subst h; rfl
    · rfl
  have hhi : ∀ c, hiP key ((s.set b { s.page b with items := its }).page c) = hiP key (s.page c) := fun c => by rw [hpg c]; rfl
  refine W.of_same hpg (_root_.le_refl _) ⟨?_, ?_, ?_⟩
  · have hnd := W.nodup 0 (Nat.zero_le _)
    have hp := W.order.pair
    rw [e] at hp hnd ⊢
    obtain ⟨h1, h2, h3⟩ := List.pairwise_append.1 hp
    obtain ⟨h4, h5⟩ := List.pairwise_cons.1 h2
    rw [List.nodup_append] at hnd
    obtain ⟨-, hnB, hnd⟩ := hnd
    have hne : ∀ c ∈ A, c ≠ b := fun c hc he => hnd c hc b (by simp) he
    have hneB : ∀ c ∈ B, c ≠ b := fun c hc he => (List.nodup_cons.1 hnB).1 (he ▸ hc)
    refine List.pairwise_append.2 ⟨?_, List.pairwise_cons.2 ⟨?_, ?_⟩, ?_⟩
    · refine h1.imp_of_mem (fun {c d} hc hd h => ?_)
      rw [hhi, hhi, Store.set_page, if_neg (hne d hd)]; exact h
    · intro d hd
      rw [hhi, hhi, Store.set_page, if_neg (hneB d hd)]; exact h4 d hd
    · refine h5.imp_of_mem (fun {c d} hc hd h => ?_)
      rw [hhi, hhi, Store.set_page, if_neg (hneB d hd)]; exact h
    · intro c hc d hd
      rw [hhi, hhi]
      rcases List.mem_cons.1 hd with rfl | hd
      · rw [Store.set_page, if_pos rfl]
        exact ⟨(h3 c hc d (by simp)).1, hlo c hc⟩
      · rw [Store.set_page, if_neg (hneB d hd)]
        exact h3 c hc d (by simp [hd])
  · intro c hc i hi
    rw [hhi]
    rw [Store.set_page] at hi
    split at hi
    · next h => subst h; exact hle i hi
    · exact W.order.le c hc i hi
  · intro c hc
    rw [Store.set_page]
    split
    · exact hs
    · exact W.order.sorted c hc

/-! ### Adding a downlink -/

theorem addDown_eq (D1 D2 : List (α × Nat)) (d : α × Nat) (kk : α) (c r : Nat) :
    addDown (D1 ++ d :: D2) (D1.length + 1) kk c r = D1 ++ (kk, c) :: (d.1, r) :: D2 := by
  unfold addDown
  rw [Nat.add_sub_cancel]
  have : (D1 ++ d :: D2).modify D1.length (fun d => (d.1, r)) = D1 ++ (d.1, r) :: D2 := by
    rw [List.modify_eq_set_getElem?, List.getElem?_append_right (_root_.le_refl _)]
    simp
  rw [this]
  clear this
  induction D1 with
  | nil => rfl
  | cons a D1 ih => simpa using ih

/-- The ghost state with other children of one page. -/
def Ghost.setKids (G : Ghost) (b : Nat) (gs : List (List Nat)) : Ghost := { G with kids := fun c => if c = b then gs else G.kids c }

theorem forall₂_split {β γ : Type} {R : β → γ → Prop} {D : List β} {G1 G2 : List γ} {g : γ} (h : List.Forall₂ R D (G1 ++ g :: G2)) :
    ∃ D1 d D2, D = D1 ++ d :: D2 ∧ D1.length = G1.length ∧ List.Forall₂ R D1 G1 ∧ R d g ∧ List.Forall₂ R D2 G2 := by
  have h1 := List.forall₂_take_append D G1 (g :: G2) h
  have h2 := List.forall₂_drop_append D G1 (g :: G2) h
  obtain ⟨d, D2, h3, h4, h5⟩ := List.forall₂_cons_right_iff.1 h2
  exact ⟨_, d, D2, by rw [← h5, List.take_append_drop], h1.length_eq, h1, h3, h4⟩

theorem Weak.setKids {key : α → K} {strict : Bool} {s : Store α} {root : Nat} {G : Ghost} (W : Weak key strict s root G) {k b : Nat}
    (_hk : k < G.h) (_hb : b ∈ G.lv (k + 1)) {gs : List (List Nat)} {p : Page α} (hflat : gs.flatten = (G.kids b).flatten)
    (hp : p = { s.page b with downs := p.downs }) (hne : gs ≠ []) (hI : InnerOK key strict s G.tp (G.tp b) gs p) :
    Weak key strict (s.set b p) root (G.setKids b gs) := by
  have hpg : ∀ c, (s.set b p).page c = { s.page c with downs := ((s.set b p).page c).downs } := by
    intro c
    rw [Store.set_page]
    split
    · next h => subst h; exact hp
    · rfl
  have hhi : ∀ c, hiP key ((s.set b p).page c) = hiP key (s.page c) := fun c => by rw [hpg c]; rfl
  have hits : ∀ c, ((s.set b p).page c).items = (s.page c).items := fun c => by rw [hpg c]
  refine ⟨⟨W.root, ?_, fun k hk => (W.linked k hk).mono (fun b _ => by rw [hpg b]; exact ⟨rfl, rfl⟩), W.uniq, W.nodup, ?_, ?_, ?_, ?_, W.tpl⟩, ?_⟩
  · intro j hj
    show G.lv j = (G.lv (j + 1)).flatMap _
    rw [W.cover j hj]
    apply List.flatMap_congr
    intro c hc
    simp only [Ghost.setKids]
    split
    · next h => subst h; exact hflat.symm
    · rfl
  · intro k hk b hb
    rw [hpg b]; exact W.alloc k hk b hb
  · intro b hb
    rw [hpg b]; exact W.leaf b hb
  · intro j hj c hc
    obtain ⟨h1, h2⟩ := W.inner j hj c hc
    refine ⟨by rw [hpg c]; exact h1, ?_⟩
    by_cases h : c = b
    · subst h
      simp only [Ghost.setKids, if_pos]
      exact hI.congr (fun c _ => hhi c) (fun _ _ h => h) (hhi _) (by rw [Store.set_page, if_pos rfl]) (by rw [Store.set_page, if_pos rfl])
        (by rw [Store.set_page, if_pos rfl])
    · simp only [Ghost.setKids, if_neg h]
      exact h2.congr (fun c _ => hhi c) (fun _ _ h => h) (hhi _) (by rw [Store.set_page, if_neg h]) (by rw [Store.set_page, if_neg h])
        (by rw [Store.set_page, if_neg h])
  · refine ⟨W.order.pair.imp (fun {c d} h => ?_), fun c hc i hi => ?_, fun c hc => ?_⟩
    · rw [hhi, hhi, hits]; exact h
    · rw [hhi]; rw [hits] at hi; exact W.order.le c hc i hi
    · rw [hits]; exact W.order.sorted c hc
  · intro j hj c hc
    simp only [Ghost.setKids]
    split
    · exact hne
    · exact W.ne j hj c hc

theorem Weak.add_down {key : α → K} {strict : Bool} {s : Store α} {root : Nat} {G : Ghost} (W : Weak key strict s root G) {k b : Nat}
    (hk : k < G.h) (hb : b ∈ G.lv (k + 1)) {G1 G2 : List (List Nat)} {c r : Nat} {t : List Nat}
    (hg : G.kids b = G1 ++ (c :: r :: t) :: G2) {kk : α} (hkk : hiP key (s.page c) = ((key kk : K) : WithTop K)) :
    Weak key strict (s.set b { s.page b with downs := addDown (s.page b).downs (G1.length + 1) kk c r }) root
      (G.setKids b (G1 ++ [c] :: (r :: t) :: G2)) := by
  obtain ⟨-, hI⟩ := W.inner k hk b hb
  have hf := hI.downs
  rw [hg] at hf
  obtain ⟨D1, d, D2, hD, hlen, f1, f2, f3⟩ := forall₂_split hf
  have ha : addDown (s.page b).downs (G1.length + 1) kk c r = D1 ++ (kk, c) :: (d.1, r) :: D2 := by
    rw [hD, ← hlen, addDown_eq]
  refine W.setKids hk hb (by rw [hg]; simp) (by rfl) (by simp) ?_
  rw [ha]
  refine ⟨?_, ?_, hI.lim, ?_⟩
  · show List.Forall₂ _ (D1 ++ (kk, c) :: (d.1, r) :: D2) _
    refine List.rel_append f1 (List.Forall₂.cons ⟨by simp, ?_⟩ (List.Forall₂.cons ⟨by simp, ?_⟩ f3))
    · intro c' hc'
      simp at hc'
      subst hc'
      exact Or.inr hkk
    · intro c' hc'
      exact f2.2 c' (by rw [List.getLast?_cons]; simp [hc'])
  · intro g c' hg' hc'
    have hl := hI.last
    rw [hg] at hl
    cases G2 with
    | nil =>
      have : g = r :: t := by simpa using hg'.symm
      subst this
      exact hl (c :: r :: t) c' (by simp) (by rw [List.getLast?_cons]; simp [hc'])
    | cons u v =>
      exact hl g c' (by simpa using hg') hc'
  · intro h1 h2 d' hd'
    have hs := hI.strict h1 h2
    rw [hD] at hs
    cases D2 with
    | nil =>
      have : d' = (d.1, r) := by simpa using hd'.symm
      subst this
      exact hs d (by simp)
    | cons u v => exact hs d' (by simpa using hd')

/-! ### Splitting a page -/

/-- Inserting `r` after `b`. -/
def ins (b r : Nat) (l : List Nat) : List Nat := l.flatMap (fun c => if c = b then [b, r] else [c])

theorem ins_append (b r : Nat) (l m : List Nat) : ins b r (l ++ m) = ins b r l ++ ins b r m := List.flatMap_append

theorem ins_not_mem (b r : Nat) (l : List Nat) (h : b ∉ l) : ins b r l = l := by
  induction l with
  | nil => rfl
  | cons c l ih =>
    simp only [List.mem_cons, not_or] at h
    show (if c = b then [b, r] else [c]) ++ ins b r l = _
    rw [if_neg (fun e => h.1 e.symm), ih h.2]
    rfl

theorem ins_split (b r : Nat) (A B : List Nat) (hA : b ∉ A) (hB : b ∉ B) : ins b r (A ++ b :: B) = A ++ b :: r :: B := by
  rw [ins_append, ins_not_mem b r A hA]
  show A ++ ((if b = b then [b, r] else [b]) ++ ins b r B) = _
  rw [if_pos rfl, ins_not_mem b r B hB]
  rfl

theorem flatten_map_ins (b r : Nat) (L : List (List Nat)) : (L.map (ins b r)).flatten = ins b r L.flatten := by
  induction L with
  | nil => rfl
  | cons g L ih => rw [List.map_cons, List.flatten_cons, ih, List.flatten_cons, ins_append]

theorem mem_ins {b r : Nat} {l : List Nat} {c : Nat} (h : c ∈ ins b r l) : c ∈ l ∨ (c = r ∧ b ∈ l) := by
  obtain ⟨d, hd, hc⟩ := List.mem_flatMap.1 h
  split at hc
  · next e =>
    subst e
    simp only [List.mem_cons, List.not_mem_nil, or_false] at hc
    rcases hc with rfl | rfl
    · exact Or.inl hd
    · exact Or.inr ⟨rfl, hd⟩
  · simp only [List.mem_singleton] at hc
    subst hc
    exact Or.inl hd

theorem mem_ins_of {b r : Nat} {l : List Nat} {c : Nat} (h : c ∈ l) : c ∈ ins b r l := by
  refine List.mem_flatMap.2 ⟨c, h, ?_⟩
  split
  · next e => subst e; simp
  · simp

theorem head_ins (b r : Nat) (l : List Nat) : (ins b r l).head? = l.head? := by
  cases l with
  | nil => rfl
  | cons c l =>
    show ((if c = b then [b, r] else [c]) ++ ins b r l).head? = _
    split
    · next e => subst e; rfl
    · rfl

theorem last_ins (b r : Nat) (l : List Nat) (c : Nat) (h : l.getLast? = some c) :
    (ins b r l).getLast? = some (if c = b then r else c) := by
  obtain ⟨l, rfl⟩ := List.getLast?_eq_some_iff.1 h
  rw [ins_append]
  show (ins b r l ++ ((if c = b then [b, r] else [c]) ++ [])).getLast? = _
  split <;> simp

/-- The store after a split: `b` keeps the left part, the new page `r` gets the right part. -/
def splitN (s : Store α) (b r nx : Nat) (li ri : List α) (ld rd : List (α × Nat)) (kk : α) : Store α :=
  let old := s.page b
  let s1 := ({ s with next := nx } : Store α).set r ⟨old.leaf, ri, rd, old.bound, old.right, some b, false⟩
  let s2 := s1.set b ⟨old.leaf, li, ld, kk, some r, old.left, false⟩
  match old.right with
  | none => s2
  | some rr => s2.set rr { s2.page rr with left := some r }

theorem splitAt_eq (s : Store α) (b : Nat) (li ri : List α) (ld rd : List (α × Nat)) (kk : α) :
    splitAt s b li ri ld rd kk = splitN s b s.next (s.next + 1) li ri ld rd kk := rfl

/-- The last leaf after a split of `b`. -/
def moved (b r c : Nat) : Nat := if c = b then r else c

/-- The ghost state after a split, `m` groups staying with `b`. -/
def Ghost.split (G : Ghost) (b r m : Nat) : Ghost where
  h := G.h
  lv := fun j => ins b r (G.lv j)
  kids := fun c =>
    if c = r then ((G.kids b).drop m).map (ins b r)
    else if c = b then ((G.kids b).take m).map (ins b r)
    else (G.kids c).map (ins b r)
  tp := fun c =>
    if c = b then (if G.tp b = b then b else G.tp (((G.kids b).take m).flatten.getLast?.getD b))
    else moved b r (G.tp (if c = r then b else c))

theorem InnerOK.map_ins {key : α → K} {strict : Bool} {s t : Store α} {tp tp' : Nat → Nat} {me me' : Nat} {kids : List (List Nat)}
    {p q : Page α} {b r : Nat}
    (h : InnerOK key strict s tp me kids p) (hst : ∀ c ∈ kids.flatten, c ≠ b → hiP key (t.page c) = hiP key (s.page c))
    (htp : ∀ c ∈ kids.flatten, tp c = me → tp' (if c = b then r else c) = me') (hme : hiP key (t.page me') ≤ hiP key q)
    (hr' : hiP key (t.page r) = hiP key (s.page b))
    (hd : q.downs = p.downs) (hb : q.bound = p.bound) (hr : q.right = p.right) : InnerOK key strict t tp' me' (kids.map (ins b r)) q := by
  have hm : ∀ g ∈ kids, ∀ c, g.getLast? = some c → c ∈ kids.flatten := fun g hg c hc =>
    List.mem_flatten.2 ⟨g, hg, List.mem_of_getLast? hc⟩
  have hlast : ∀ g ∈ kids, ∀ c', (ins b r g).getLast? = some c' → ∃ c, g.getLast? = some c ∧
      hiP key (t.page c') = hiP key (s.page c) := by
    intro g hg c' hc'
    obtain ⟨gs, c, rfl⟩ : ∃ gs c, g = gs ++ [c] := ⟨_, _, (List.dropLast_append_getLast (h.group_ne hg)).symm⟩
    have hl : (gs ++ [c]).getLast? = some c := by simp
    rw [last_ins b r _ c hl] at hc'
    refine ⟨c, hl, ?_⟩
    split at hc'
    · next e =>
      subst e
      simp only [Option.some.injEq] at hc'
      subst hc'
      exact hr'
    · next e =>
      simp only [Option.some.injEq] at hc'
      subst hc'
      exact hst _ (hm _ hg _ hl) e
  refine ⟨?_, ?_, hme, ?_⟩
  · rw [hd, List.forall₂_map_right_iff]
    have := h.downs
    rw [List.forall₂_iff_get] at this ⊢
    refine ⟨this.1, fun i h1 h2 => ⟨by rw [head_ins]; exact (this.2 i h1 h2).1, fun c hc => ?_⟩⟩
    obtain ⟨c', h3, h4⟩ := hlast _ (List.get_mem _ _) c hc
    rw [h4]
    exact (this.2 i h1 h2).2 c' h3
  · intro g c hg hc
    rw [List.getLast?_map] at hg
    obtain ⟨g', hg', rfl⟩ := Option.map_eq_some_iff.1 hg
    have hgm := List.mem_of_getLast? hg'
    obtain ⟨gs, c', rfl⟩ : ∃ gs c, g' = gs ++ [c] := ⟨_, _, (List.dropLast_append_getLast (h.group_ne hgm)).symm⟩
    have hl : (gs ++ [c']).getLast? = some c' := by simp
    rw [last_ins b r _ c' hl, Option.some.injEq] at hc
    rw [← hc]
    exact htp c' (hm _ hgm _ hl) (h.last _ c' hg' hl)
  · rw [hd, hb, hr]; exact h.strict

/-- What a split must satisfy: on the leaf level, the items; above, the downlinks. -/
structure SplitOK (key : α → K) (s : Store α) (G : Ghost) (k b : Nat) (A : List Nat) (li ri : List α) (ld rd : List (α × Nat)) (kk : α) : Prop where
  leafItems : k = 0 → (li.Pairwise (fun i j => key i < key j) ∧ ri.Pairwise (fun i j => key i < key j)) ∧
    (∀ i ∈ li, key i ≤ key kk) ∧ (∀ i ∈ ri, key kk < key i) ∧ (∀ i ∈ ri, ((key i : K) : WithTop K) ≤ hiP key (s.page b)) ∧
    ((key kk : K) : WithTop K) < hiP key (s.page b) ∧ (∀ c ∈ A, hiP key (s.page c) < ((key kk : K) : WithTop K)) ∧
    ∀ c ∈ A, ∀ i ∈ li, hiP key (s.page c) < ((key i : K) : WithTop K)
  innerDowns : k ≠ 0 → (s.page b).downs = ld ++ rd ∧ rd ≠ [] ∧ ∃ d, ld.getLast? = some d ∧ d.1 = kk

section split
variable {key : α → K} {strict : Bool} {s t : Store α} {root : Nat} {G : Ghost} {k b r nx : Nat} {A B : List Nat}
  {li ri : List α} {ld rd : List (α × Nat)} {kk : α}

/-- The pages after a split. -/
structure SplitPages (s t : Store α) (b r nx : Nat) (B : List Nat) (li ri : List α) (ld rd : List (α × Nat)) (kk : α) : Prop where
  fb : t.page b = ⟨(s.page b).leaf, li, ld, kk, some r, (s.page b).left, false⟩
  fr : t.page r = ⟨(s.page b).leaf, ri, rd, (s.page b).bound, (s.page b).right, some b, false⟩
  fo : ∀ c, c ≠ b → c ≠ r → t.page c = { s.page c with left := if B.head? = some c then some r else (s.page c).left }
  next : t.next = nx

theorem splitN_pages (hB : (s.page b).right = B.head?) (hbr : b ≠ r) (hnb : b ∉ B) (hnr : r ∉ B) :
    SplitPages s (splitN s b r nx li ri ld rd kk) b r nx B li ri ld rd kk := by
  unfold splitN
  dsimp only
  cases B with
  | nil =>
    simp only [List.head?_nil] at hB
    rw [hB]
    refine ⟨?_, ?_, ?_, rfl⟩
    · simp [Store.set_page]
    · simp [Store.set_page, hbr.symm, hB]
    · intro c h1 h2
      simp [Store.set_page, h1, h2]
  | cons c B =>
    simp only [List.head?_cons] at hB
    rw [hB]
    simp only [List.mem_cons, not_or] at hnb hnr
    refine ⟨?_, ?_, ?_, rfl⟩
    · simp [Store.set_page, hnb.1]
    · simp [Store.set_page, hbr.symm, hnr.1, hB]
    · intro d h1 h2
      simp only [Store.set_page]
      split
      · next e => subst e; simp [h1, h2]
      · next e =>
        simp only [List.head?_cons, Option.some.injEq]
        rw [if_neg (fun x : c = d => e x.symm)]

theorem Weak.split (W : Weak key strict s root G) (hk : k < G.h) (e : G.lv k = A ++ b :: B) (hfresh : ∀ j, j ≤ G.h → r ∉ G.lv j)
    (hnx : s.next ≤ nx) (hr : r < nx) (hS : SplitOK key s G k b A li ri ld rd kk) (P : SplitPages s t b r nx B li ri ld rd kk) :
    Weak key strict t root (G.split b r ld.length) := by
  have hbk : b ∈ G.lv k := by rw [e]; simp
  have hbr : b ≠ r := fun h => hfresh k (by omega) (h ▸ hbk)
  have hbj : ∀ j, j ≤ G.h → j ≠ k → b ∉ G.lv j := fun j hj hjk h => hjk (W.uniq j k b hj (by omega) h hbk)
  have hnd := W.nodup k (by omega)
  rw [e, List.nodup_append] at hnd
  obtain ⟨hndA, hndB, hndAB⟩ := hnd
  have hbA : b ∉ A := fun h => hndAB b h b (by simp) rfl
  have hbB : b ∉ B := (List.nodup_cons.1 hndB).1
  have hlvk : ins b r (G.lv k) = A ++ b :: r :: B := by rw [e, ins_split b r A B hbA hbB]
  have hlvj : ∀ j, j ≤ G.h → j ≠ k → ins b r (G.lv j) = G.lv j := fun j hj hjk => ins_not_mem b r _ (hbj j hj hjk)
  have hhi : ∀ c, c ≠ b → c ≠ r → hiP key (t.page c) = hiP key (s.page c) := fun c h1 h2 => by rw [P.fo c h1 h2]; rfl
  have hhib : hiP key (t.page b) = ((key kk : K) : WithTop K) := by rw [P.fb]; rfl
  have hhir : hiP key (t.page r) = hiP key (s.page b) := by rw [P.fr]; rfl
  have hnr : ∀ j, j ≤ G.h → ∀ c ∈ G.lv j, c ≠ r := fun j hj c hc h => hfresh j hj (h ▸ hc)
  have hrB := (Linked.right (e ▸ W.linked k (by omega))).1
  have hrB : (s.page b).right = B.head? := by simpa using hrB
  -- the last leaves
  have htm : ∀ j, j ≤ G.h → ∀ c ∈ G.lv j, G.tp c ∈ G.lv 0 := fun j hj c hc => tp_mem W j hj c hc
  have htpo : ∀ c, c ≠ b → (G.split b r ld.length).tp c = moved b r (G.tp (if c = r then b else c)) := fun c h => by
    simp only [Ghost.split, if_neg h]
  have htpi : ∀ c, c ≠ r → (G.split b r ld.length).tp (if c = b then r else c) = moved b r (G.tp c) := by
    intro c hc
    split
    · next h => subst h; rw [htpo r hbr.symm, if_pos rfl]
    · next h => rw [htpo c h, if_neg hc]
  have hmv : ∀ c ∈ G.lv 0, hiP key (t.page (moved b r c)) = hiP key (s.page c) := by
    intro c hc
    unfold moved
    split
    · next h => subst h; exact hhir
    · next h => exact hhi c h (hnr 0 (Nat.zero_le _) c hc)
  refine ⟨⟨?_, ?_, ?_, ?_, ?_, ?_, ?_, ?_, ?_, ?_⟩, ?_⟩
  · show ins b r (G.lv G.h) = _
    rw [hlvj G.h (_root_.le_refl _) (by omega), W.root]
  · intro j hj
    change j < G.h at hj
    show ins b r (G.lv j) = (ins b r (G.lv (j + 1))).flatMap _
    rw [W.cover j hj]
    unfold ins
    rw [List.flatMap_assoc, List.flatMap_assoc]
    apply List.flatMap_congr
    intro c hc
    have hcr : c ≠ r := hnr (j + 1) (by omega) c hc
    show ins b r (G.kids c).flatten = _
    split
    · next h =>
      subst h
      simp only [Ghost.split, List.flatMap_cons, List.flatMap_nil, List.append_nil, if_neg hcr, if_true]
      rw [flatten_map_ins, flatten_map_ins, ← ins_append, ← List.flatten_append, List.take_append_drop]
    · next h =>
      simp only [Ghost.split, List.flatMap_cons, List.flatMap_nil, List.append_nil, if_neg hcr, if_neg h]
      rw [flatten_map_ins]
  · intro j hj
    show Linked t none (ins b r (G.lv j)) none
    by_cases hjk : j = k
    · subst hjk
      rw [hlvk]
      have hl := W.linked j hj
      rw [e, linked_append] at hl
      rw [linked_append]
      obtain ⟨hlA, hlB⟩ := hl
      have hneA : ∀ c ∈ A, c ≠ b ∧ c ≠ r ∧ B.head? ≠ some c := fun c hc =>
        ⟨fun h => hbA (h ▸ hc), hnr j hj c (by rw [e]; simp [hc]), fun h => hndAB c hc c (by simp [List.mem_of_head? h]) rfl⟩
      refine ⟨hlA.mono (fun c hc => ?_), ?_⟩
      · obtain ⟨h1, h2, h3⟩ := hneA c hc
        rw [P.fo c h1 h2, if_neg h3]; exact ⟨rfl, rfl⟩
      · refine ⟨by rw [P.fb]; exact hlB.1, by rw [P.fb]; rfl, by rw [P.fr], by rw [P.fr, hrB]; simp, ?_⟩
        have hlB2 := hlB.2.2
        cases B with
        | nil => trivial
        | cons c B =>
          have hcB := List.nodup_cons.1 (List.nodup_cons.1 hndB).2
          have hcb : c ≠ b := fun h => hbB (by simp [h])
          have hcr : c ≠ r := hnr j hj c (by rw [e]; simp)
          refine ⟨by rw [P.fo c hcb hcr]; simp, by rw [P.fo c hcb hcr]; exact hlB2.2.1, hlB2.2.2.mono (fun d hd => ?_)⟩
          have hdb : d ≠ b := fun h => hbB (by simp [← h, hd])
          have hdr : d ≠ r := hnr j hj d (by rw [e]; simp [hd])
          rw [P.fo d hdb hdr, if_neg (by simp only [List.head?_cons, Option.some.injEq]; exact fun h => hcB.1 (h ▸ hd))]
          exact ⟨rfl, rfl⟩
    · rw [hlvj j hj hjk]
      refine (W.linked j hj).mono (fun c hc => ?_)
      have hcb : c ≠ b := fun h => hbj j hj hjk (h ▸ hc)
      have hcr : c ≠ r := hnr j hj c hc
      have hcB : B.head? ≠ some c := fun h => hjk (W.uniq j k c hj (by omega) hc (by rw [e]; simp [List.mem_of_head? h]))
      rw [P.fo c hcb hcr, if_neg hcB]
      exact ⟨rfl, rfl⟩
  · intro i j c hi hj h1 h2
    rcases mem_ins h1 with h1 | ⟨h1, h1'⟩ <;> rcases mem_ins h2 with h2 | ⟨h2, h2'⟩
    · exact W.uniq i j c hi hj h1 h2
    · exact absurd (h2 ▸ h1) (hfresh i hi)
    · exact absurd (h1 ▸ h2) (hfresh j hj)
    · exact W.uniq i j b hi hj h1' h2'
  · intro j hj
    show (ins b r (G.lv j)).Nodup
    by_cases hjk : j = k
    · subst hjk
      rw [hlvk]
      have hrn := hfresh j hj
      rw [e] at hrn
      simp only [List.mem_append, List.mem_cons, not_or] at hrn
      rw [List.nodup_append]
      refine ⟨hndA, List.nodup_cons.2 ⟨?_, List.nodup_cons.2 ⟨hrn.2.2, (List.nodup_cons.1 hndB).2⟩⟩, ?_⟩
      · simp only [List.mem_cons, not_or]; exact ⟨hbr, hbB⟩
      · intro c hc d hd
        simp only [List.mem_cons] at hd
        rcases hd with rfl | rfl | hd
        · exact hndAB c hc d (by simp)
        · exact fun h => hrn.1 (h ▸ hc)
        · exact hndAB c hc d (by simp [hd])
    · rw [hlvj j hj hjk]; exact W.nodup j hj
  · intro j hj c hc
    rw [P.next]
    by_cases h1 : c = b
    · subst h1
      refine ⟨lt_of_lt_of_le (W.alloc k (by omega) c hbk).1 hnx, by rw [P.fb]⟩
    · by_cases h2 : c = r
      · subst h2
        exact ⟨hr, by rw [P.fr]⟩
      · rcases mem_ins hc with hc | ⟨hc, -⟩
        · have := W.alloc j hj c hc
          exact ⟨lt_of_lt_of_le this.1 hnx, by rw [P.fo c h1 h2]; exact this.2⟩
        · exact absurd hc h2
  · intro c hc
    by_cases h1 : c = b
    · subst h1
      rw [P.fb]
      rcases mem_ins hc with hc | ⟨hc, -⟩
      · exact W.leaf c hc
      · exact absurd hc hbr
    · by_cases h2 : c = r
      · subst h2
        rw [P.fr]
        rcases mem_ins hc with hc | ⟨-, hc⟩
        · exact absurd hc (hfresh 0 (Nat.zero_le _))
        · exact W.leaf b hc
      · rcases mem_ins hc with hc | ⟨hc, -⟩
        · rw [P.fo c h1 h2]; exact W.leaf c hc
        · exact absurd hc h2
  · intro j hj c hc
    change j < G.h at hj
    -- children of pages of level j + 1 are not r
    have hkr : ∀ d ∈ G.lv (j + 1), ∀ x ∈ (G.kids d).flatten, x ≠ r := fun d hd x hx =>
      hnr j (by omega) x (kids_mem W.toThin hj hd hx)
    by_cases h2 : c = r
    · subst h2
      have hb1 : b ∈ G.lv (j + 1) := by
        rcases mem_ins hc with hc | ⟨-, hc⟩
        · exact absurd hc (hfresh _ (by omega))
        · exact hc
      have hjk : j + 1 = k := W.uniq _ _ b (by omega) (by omega) hb1 hbk
      obtain ⟨h3, h4⟩ := W.inner j hj b hb1
      obtain ⟨hd, hrd, d, hd1, hd2⟩ := hS.innerDowns (by omega)
      refine ⟨by rw [P.fr]; exact h3, ?_⟩
      rw [show (G.split b c ld.length).kids c = ((G.kids b).drop ld.length).map (ins b c) by simp only [Ghost.split, if_true]]
      have hkb : ∀ x ∈ (G.kids b).flatten, x ≠ b := fun x hx h =>
        (by omega : j ≠ k) (W.uniq j k b (by omega) (by omega) (h ▸ kids_mem W.toThin hj hb1 hx) hbk)
      have hf := h4.downs
      rw [hd] at hf
      have hlen := hf.length_eq
      rw [List.length_append] at hlen
      have hrl := List.length_pos_iff.2 hrd
      have hI : InnerOK key strict s G.tp (G.tp b) ((G.kids b).drop ld.length) { s.page b with downs := rd } := by
        refine ⟨?_, ?_, h4.lim, ?_⟩
        · have := List.forall₂_drop ld.length hf
          simpa using this
        · intro g x hg hx
          rw [List.getLast?_drop, if_neg (by omega)] at hg
          exact h4.last g x hg hx
        · intro h5 h6 d' hd'
          refine h4.strict h5 h6 d' ?_
          rw [hd, List.getLast?_append]
          simp only at hd'
          rw [hd']
          rfl
      have hx' : ∀ x ∈ ((G.kids b).drop ld.length).flatten, x ∈ (G.kids b).flatten := by
        intro x hx
        obtain ⟨g, hg, hxg⟩ := List.mem_flatten.1 hx
        exact List.mem_flatten.2 ⟨g, List.mem_of_mem_drop hg, hxg⟩
      have htr : (G.split b c ld.length).tp c = moved b c (G.tp b) := by rw [htpo c hbr.symm, if_pos rfl]
      refine hI.map_ins (fun x hx hxb => hhi x hxb (hkr b hb1 x (hx' x hx))) (fun x hx hx2 => ?_) ?_ hhir (by rw [P.fr]) (by rw [P.fr])
        (by rw [P.fr])
      · rw [htpi x (hkr b hb1 x (hx' x hx)), hx2, htr]
      · rw [htr, hmv _ (htm k (by omega) b hbk), hhir]
        exact h4.lim
    · have hc' : c ∈ G.lv (j + 1) := by
        rcases mem_ins hc with hc | ⟨hc, -⟩
        · exact hc
        · exact absurd hc h2
      obtain ⟨h3, h4⟩ := W.inner j hj c hc'
      by_cases h1 : c = b
      · subst h1
        have hjk : j + 1 = k := W.uniq _ _ c (by omega) (by omega) hc' hbk
        obtain ⟨hd, hrd, d, hd1, hd2⟩ := hS.innerDowns (by omega)
        refine ⟨by rw [P.fb]; exact h3, ?_⟩
        rw [show (G.split c r ld.length).kids c = ((G.kids c).take ld.length).map (ins c r) by simp only [Ghost.split, if_neg h2, if_true]]
        have hf := h4.downs
        rw [hd] at hf
        have hlen := hf.length_eq
        rw [List.length_append] at hlen
        have hrl := List.length_pos_iff.2 hrd
        have hll : 0 < ld.length := by
          apply List.length_pos_iff.2
          intro h
          rw [h] at hd1
          simp at hd1
        have hft := List.forall₂_take ld.length hf
        simp only [List.take_left'] at hft
        -- the last page that stays has a finite limit, which is the key
        have hlastkey : ∀ g x, ((G.kids c).take ld.length).getLast? = some g → g.getLast? = some x →
            hiP key (s.page x) = ((key kk : K) : WithTop K) := by
          intro g x hg hx
          obtain ⟨gs, hgs⟩ := List.getLast?_eq_some_iff.1 hg
          obtain ⟨xs, hxs⟩ := List.getLast?_eq_some_iff.1 hx
          have hsp : G.kids c = gs ++ g :: (G.kids c).drop ld.length := by
            conv_lhs => rw [← List.take_append_drop ld.length (G.kids c), hgs]
            simp
          have hdne : (G.kids c).drop ld.length ≠ [] := by
            intro h
            rw [List.drop_eq_nil_iff] at h
            omega
          obtain ⟨g2, G2, hG2⟩ := List.exists_cons_of_ne_nil hdne
          have hg2m : g2 ∈ G.kids c := by rw [hsp, hG2]; simp
          obtain ⟨y, ys, hys⟩ := List.exists_cons_of_ne_nil (h4.group_ne hg2m)
          have hlev := level_split W.toThin hj (show G.lv (j + 1) = A ++ c :: B by rw [hjk]; exact e) hsp
          rw [hG2, hys, hxs] at hlev
          have hpos : G.lv j = (A.flatMap (fun b => (G.kids b).flatten) ++ gs.flatten ++ xs) ++ x :: y ::
              (ys ++ (G2.flatten ++ B.flatMap (fun b => (G.kids b).flatten))) := by
            rw [hlev]; simp [List.append_assoc]
          have hnt := hi_ne_top W.toThin (by omega) hpos
          rw [hgs] at hft
          obtain ⟨D1, d', D2, hD, hDl, f1, f2, f3⟩ := forall₂_split (G2 := []) (by simpa using hft)
          have hD2 : D2 = [] := by cases f3; rfl
          subst hD2
          rw [hD] at hd1
          simp at hd1
          subst hd1
          rcases f2.2 x hx with h | h
          · exact absurd h hnt
          · rw [h, hd2]
        have htk : (G.kids c).take ld.length ≠ [] := by
          intro h
          rw [List.take_eq_nil_iff] at h
          rcases h with h | h
          · omega
          · exact W.ne j hj c hc' h
        -- the last leaf of the left part
        obtain ⟨gl, hgl⟩ : ∃ g, ((G.kids c).take ld.length).getLast? = some g := ⟨_, List.getLast?_eq_some_getLast htk⟩
        have hglm : gl ∈ G.kids c := List.mem_of_mem_take (List.mem_of_getLast? hgl)
        obtain ⟨xl, hxl⟩ : ∃ x, gl.getLast? = some x := ⟨_, List.getLast?_eq_some_getLast (h4.group_ne hglm)⟩
        have hxm : xl ∈ G.lv j := kids_mem W.toThin hj hc' (List.mem_flatten.2 ⟨gl, hglm, List.mem_of_getLast? hxl⟩)
        have hxf : ((G.kids c).take ld.length).flatten.getLast? = some xl := by
          obtain ⟨u, hu⟩ := List.getLast?_eq_some_iff.1 hgl
          obtain ⟨v, hv⟩ := List.getLast?_eq_some_iff.1 hxl
          rw [hu, hv]; simp
        have hcb : G.tp c ≠ c := fun h => by
          have := W.uniq 0 (j + 1) c (Nat.zero_le _) (by omega) (h ▸ htm _ (by omega) c hc') hc'
          omega
        have htx : G.tp xl ≠ c := fun h => by
          have := W.uniq 0 (j + 1) c (Nat.zero_le _) (by omega) (h ▸ htm _ (by omega) xl hxm) hc'
          omega
        have htc : (G.split c r ld.length).tp c = G.tp xl := by
          simp only [Ghost.split, if_true, if_neg hcb, hxf, Option.getD_some]
        have hI : InnerOK key strict s G.tp (G.tp xl) ((G.kids c).take ld.length)
            ⟨(s.page c).leaf, li, ld, kk, some r, (s.page c).left, false⟩ := by
          refine ⟨hft, ?_, ?_, ?_⟩
          · intro g x hg hx
            rw [hgl, Option.some.injEq] at hg
            subst hg
            rw [hxl, Option.some.injEq] at hx
            rw [hx]
          · refine (W.tp_le j (by omega) xl hxm).trans ?_
            rw [hlastkey gl xl hgl hxl]
            exact _root_.le_refl _
          · intro _ _ d' hd'
            simp only at hd'
            rw [hd1, Option.some.injEq] at hd'
            subst hd'
            rw [hd2]
        have hx' : ∀ x ∈ ((G.kids c).take ld.length).flatten, x ∈ (G.kids c).flatten := by
          intro x hx
          obtain ⟨g, hg, hxg⟩ := List.mem_flatten.1 hx
          exact List.mem_flatten.2 ⟨g, List.mem_of_mem_take hg, hxg⟩
        have hmx : moved c r (G.tp xl) = G.tp xl := if_neg htx
        refine hI.map_ins (fun x hx hxb => hhi x hxb (hkr c hc' x (hx' x hx))) (fun x hx hx2 => ?_) ?_ hhir (by rw [P.fb]) (by rw [P.fb])
          (by rw [P.fb])
        · rw [htpi x (hkr c hc' x (hx' x hx)), hx2, htc, hmx]
        · rw [htc, ← hmx, hmv _ (htm _ (by omega) xl hxm), hhib, ← hlastkey gl xl hgl hxl]
          exact W.tp_le j (by omega) xl hxm
      · refine ⟨by rw [P.fo c h1 h2]; exact h3, ?_⟩
        rw [show (G.split b r ld.length).kids c = (G.kids c).map (ins b r) by simp only [Ghost.split, if_neg h2, if_neg h1]]
        have htc : (G.split b r ld.length).tp c = moved b r (G.tp c) := by rw [htpo c h1, if_neg h2]
        refine h4.map_ins (fun x hx hxb => hhi x hxb (hkr c hc' x hx)) (fun x hx hx2 => ?_) ?_ hhir (by rw [P.fo c h1 h2])
          (by rw [P.fo c h1 h2]) (by rw [P.fo c h1 h2])
        · rw [htpi x (hkr c hc' x hx), hx2, htc]
        · rw [htc, hmv _ (htm _ (by omega) c hc'), hhi c h1 h2]
          exact h4.lim
  · show LeafOrder key t (ins b r (G.lv 0))
    by_cases hk0 : k = 0
    · subst hk0
      obtain ⟨⟨hs1, hs2⟩, hl1, hl2, hl3, hl4, hl5, hl6⟩ := hS.leafItems rfl
      rw [hlvk]
      have hp := W.order.pair
      rw [e] at hp
      obtain ⟨p1, p2, p3⟩ := List.pairwise_append.1 hp
      obtain ⟨p4, p5⟩ := List.pairwise_cons.1 p2
      have hAn : ∀ c ∈ A, c ≠ b ∧ c ≠ r := fun c hc => ⟨fun h => hbA (h ▸ hc), hnr 0 (Nat.zero_le _) c (by rw [e]; simp [hc])⟩
      have hBn : ∀ c ∈ B, c ≠ b ∧ c ≠ r := fun c hc => ⟨fun h => hbB (h ▸ hc), hnr 0 (Nat.zero_le _) c (by rw [e]; simp [hc])⟩
      have hits : ∀ c, c ≠ b → c ≠ r → (t.page c).items = (s.page c).items := fun c h1 h2 => by rw [P.fo c h1 h2]
      refine ⟨?_, ?_, ?_⟩
      · refine List.pairwise_append.2 ⟨?_, List.pairwise_cons.2 ⟨?_, List.pairwise_cons.2 ⟨?_, ?_⟩⟩, ?_⟩
        · refine p1.imp_of_mem (fun {c d} hc hd h => ?_)
          rw [hhi c (hAn c hc).1 (hAn c hc).2, hhi d (hAn d hd).1 (hAn d hd).2, hits d (hAn d hd).1 (hAn d hd).2]
          exact h
        · intro d hd
          rw [hhib]
          rcases List.mem_cons.1 hd with rfl | hd
          · rw [hhir, P.fr]
            exact ⟨hl4, fun i hi => WithTop.coe_lt_coe.2 (hl2 i hi)⟩
          · rw [hhi d (hBn d hd).1 (hBn d hd).2, hits d (hBn d hd).1 (hBn d hd).2]
            exact ⟨hl4.trans (p4 d hd).1, fun i hi => hl4.trans ((p4 d hd).2 i hi)⟩
        · intro d hd
          rw [hhir, hhi d (hBn d hd).1 (hBn d hd).2, hits d (hBn d hd).1 (hBn d hd).2]
          exact p4 d hd
        · refine p5.imp_of_mem (fun {c d} hc hd h => ?_)
          rw [hhi c (hBn c hc).1 (hBn c hc).2, hhi d (hBn d hd).1 (hBn d hd).2, hits d (hBn d hd).1 (hBn d hd).2]
          exact h
        · intro c hc d hd
          rw [hhi c (hAn c hc).1 (hAn c hc).2]
          rcases List.mem_cons.1 hd with rfl | hd
          · rw [hhib, P.fb]
            exact ⟨hl5 c hc, hl6 c hc⟩
          · rcases List.mem_cons.1 hd with rfl | hd
            · rw [hhir, P.fr]
              exact ⟨(p3 c hc b (by simp)).1, fun i hi => (hl5 c hc).trans (WithTop.coe_lt_coe.2 (hl2 i hi))⟩
            · rw [hhi d (hBn d hd).1 (hBn d hd).2, hits d (hBn d hd).1 (hBn d hd).2]
              exact p3 c hc d (by simp [hd])
      · intro c hc i hi
        by_cases h1 : c = b
        · subst h1
          rw [hhib]
          rw [P.fb] at hi
          exact WithTop.coe_le_coe.2 (hl1 i hi)
        · by_cases h2 : c = r
          · subst h2
            rw [hhir]
            rw [P.fr] at hi
            exact hl3 i hi
          · rw [hhi c h1 h2]
            rw [hits c h1 h2] at hi
            refine W.order.le c ?_ i hi
            rw [e]
            simp only [List.mem_append, List.mem_cons] at hc ⊢
            tauto
      · intro c hc
        by_cases h1 : c = b
        · subst h1; rw [P.fb]; exact hs1
        · by_cases h2 : c = r
          · subst h2; rw [P.fr]; exact hs2
          · rw [hits c h1 h2]
            refine W.order.sorted c ?_
            rw [e]
            simp only [List.mem_append, List.mem_cons] at hc ⊢
            tauto
    · rw [hlvj 0 (Nat.zero_le _) (fun h => hk0 h.symm)]
      have hn : ∀ c ∈ G.lv 0, c ≠ b ∧ c ≠ r := fun c hc =>
        ⟨fun h => hbj 0 (Nat.zero_le _) (fun h => hk0 h.symm) (h ▸ hc), hnr 0 (Nat.zero_le _) c hc⟩
      have hits : ∀ c, c ≠ b → c ≠ r → (t.page c).items = (s.page c).items := fun c h1 h2 => by rw [P.fo c h1 h2]
      refine ⟨W.order.pair.imp_of_mem (fun {c d} hc hd h => ?_), fun c hc i hi => ?_, fun c hc => ?_⟩
      · rw [hhi c (hn c hc).1 (hn c hc).2, hhi d (hn d hd).1 (hn d hd).2, hits d (hn d hd).1 (hn d hd).2]
        exact h
      · rw [hhi c (hn c hc).1 (hn c hc).2]
        rw [hits c (hn c hc).1 (hn c hc).2] at hi
        exact W.order.le c hc i hi
      · rw [hits c (hn c hc).1 (hn c hc).2]
        exact W.order.sorted c hc
  · intro c hc
    by_cases h1 : c = b
    · subst h1
      have hc0 : c ∈ G.lv 0 := by
        rcases mem_ins hc with hc | ⟨hc, -⟩
        · exact hc
        · exact absurd hc hbr
      simp only [Ghost.split, if_true, W.tpl c hc0]
    · rw [htpo c h1]
      by_cases h2 : c = r
      · subst h2
        have hb0 : b ∈ G.lv 0 := by
          rcases mem_ins hc with hc | ⟨-, hc⟩
          · exact absurd hc (hfresh 0 (Nat.zero_le _))
          · exact hc
        rw [if_pos rfl, W.tpl b hb0]
        exact if_pos rfl
      · rw [if_neg h2]
        rcases mem_ins hc with hc | ⟨hc, -⟩
        · rw [W.tpl c hc]; exact if_neg h1
        · exact absurd hc h2
  · intro j hj c hc
    change j < G.h at hj
    have hpos : b ∈ G.lv (j + 1) → 0 < ld.length ∧ ld.length < (G.kids b).length := by
      intro hb1
      have hjk : j + 1 = k := W.uniq _ _ b (by omega) (by omega) hb1 hbk
      obtain ⟨hd, hrd, d, hd1, hd2⟩ := hS.innerDowns (by omega)
      have hf := (W.inner j hj b hb1).2.downs.length_eq
      rw [hd, List.length_append] at hf
      have := List.length_pos_iff.2 hrd
      have : 0 < ld.length := by
        apply List.length_pos_iff.2
        intro h
        rw [h] at hd1
        simp at hd1
      omega
    by_cases h2 : c = r
    · subst h2
      have hb1 : b ∈ G.lv (j + 1) := by
        rcases mem_ins hc with hc | ⟨-, hc⟩
        · exact absurd hc (hfresh _ (by omega))
        · exact hc
      simp only [Ghost.split, if_true, ne_eq, List.map_eq_nil_iff, List.drop_eq_nil_iff]
      have := hpos hb1
      omega
    · have hc' : c ∈ G.lv (j + 1) := by
        rcases mem_ins hc with hc | ⟨hc, -⟩
        · exact hc
        · exact absurd hc h2
      by_cases h1 : c = b
      · subst h1
        simp only [Ghost.split, if_neg h2, if_true, ne_eq, List.map_eq_nil_iff, List.take_eq_nil_iff, not_or]
        have := hpos hc'
        exact ⟨by omega, W.ne j hj c hc'⟩
      · simp only [Ghost.split, if_neg h2, if_neg h1, ne_eq, List.map_eq_nil_iff]
        exact W.ne j hj c hc'

end split

/-! ### A new level -/

/-- The store after the content of the root has gone to a page `l` of its own (never written to disk by itself). -/
def growN (s : Store α) (root l nx : Nat) (rk zero : α) : Store α :=
  (({ s with next := nx } : Store α).set l { s.page root with right := none, left := none }).set root
    ⟨false, [], [(rk, l)], zero, none, none, false⟩

def Ghost.grow (G : Ghost) (root l : Nat) : Ghost where
  h := G.h + 1
  lv := fun j => if j = G.h + 1 then [root] else if j = G.h then [l] else G.lv j
  kids := fun c => if c = root then [[l]] else if c = l then G.kids root else G.kids c
  tp := fun c => if c = root ∨ c = l then (if G.tp root = root then l else G.tp root) else G.tp c

theorem Weak.grow {key : α → K} {strict : Bool} {s : Store α} {root : Nat} {G : Ghost} (W : Weak key strict s root G) {l nx : Nat}
    (hfresh : ∀ j, j ≤ G.h → l ∉ G.lv j) (hnx : s.next ≤ nx) (hl : l < nx) (rk zero : α) :
    Weak key strict (growN s root l nx rk zero) root (G.grow root l) := by
  have hroot : root ∈ G.lv G.h := by rw [W.root]; simp
  have hlr : l ≠ root := fun h => hfresh G.h (_root_.le_refl _) (h ▸ hroot)
  have hpr : (growN s root l nx rk zero).page root = ⟨false, [], [(rk, l)], zero, none, none, false⟩ := by
    simp [growN, Store.set_page]
  have hpl : (growN s root l nx rk zero).page l = { s.page root with right := none, left := none } := by
    simp [growN, Store.set_page, hlr]
  have hpo : ∀ c, c ≠ root → c ≠ l → (growN s root l nx rk zero).page c = s.page c := fun c h1 h2 => by
    simp [growN, Store.set_page, h1, h2]
  have hno : ∀ j, j < G.h → ∀ c ∈ G.lv j, c ≠ root ∧ c ≠ l := fun j hj c hc =>
    ⟨fun h => by have := W.uniq j G.h c (by omega) (_root_.le_refl _) hc (h ▸ hroot); omega, fun h => hfresh j (by omega) (h ▸ hc)⟩
  have hlvh : (G.grow root l).lv G.h = [l] := by simp [Ghost.grow]
  have hlvs : (G.grow root l).lv (G.h + 1) = [root] := by simp [Ghost.grow]
  have hlvj : ∀ j, j < G.h → (G.grow root l).lv j = G.lv j := fun j hj => by
    simp only [Ghost.grow]
    rw [if_neg (by omega), if_neg (by omega)]
  have hkr : (G.grow root l).kids root = [[l]] := by simp [Ghost.grow]
  have hkl : (G.grow root l).kids l = G.kids root := by simp [Ghost.grow, hlr]
  have hko : ∀ c, c ≠ root → c ≠ l → (G.grow root l).kids c = G.kids c := fun c h1 h2 => by simp [Ghost.grow, h1, h2]
  have hrl : (s.page root).right = none ∧ (s.page root).left = none := by
    have := W.linked G.h (_root_.le_refl _)
    rw [W.root] at this
    exact ⟨by simpa using this.2.1, this.1⟩
  have hpl' : (growN s root l nx rk zero).page l = s.page root := by
    rw [hpl]
    conv_rhs => rw [show s.page root = ⟨_, _, _, _, (s.page root).right, (s.page root).left, _⟩ from rfl, hrl.1, hrl.2]
  have hcase : ∀ j, j ≤ G.h + 1 → j = G.h + 1 ∨ j = G.h ∨ j < G.h := fun j hj => by omega
  have htr : (G.grow root l).tp root = (if G.tp root = root then l else G.tp root) := by simp [Ghost.grow]
  have htl : (G.grow root l).tp l = (if G.tp root = root then l else G.tp root) := by simp [Ghost.grow]
  have hto : ∀ c, c ≠ root → c ≠ l → (G.grow root l).tp c = G.tp c := fun c h1 h2 => by simp [Ghost.grow, h1, h2]
  have htm : ∀ j, j ≤ G.h → ∀ c ∈ G.lv j, G.tp c ∈ G.lv 0 := fun j hj c hc => tp_mem W j hj c hc
  refine ⟨⟨hlvs, ?_, ?_, ?_, ?_, ?_, ?_, ?_, ?_, ?_⟩, ?_⟩
  · intro j hj
    change j < G.h + 1 at hj
    rcases (by omega : j = G.h ∨ j + 1 = G.h ∨ j + 1 < G.h) with rfl | h | h
    · rw [hlvh, hlvs]; simp [hkr]
    · rw [h, hlvh, hlvj j (by omega), W.cover j (by omega), h, W.root]; simp [hkl]
    · rw [hlvj j (by omega), hlvj (j + 1) h, W.cover j (by omega)]
      apply List.flatMap_congr
      intro c hc
      rw [hko c (hno _ h c hc).1 (hno _ h c hc).2]
  · intro j hj
    rcases hcase j hj with rfl | rfl | h
    · rw [hlvs]; exact ⟨by rw [hpr], by rw [hpr]; rfl, trivial⟩
    · rw [hlvh]; exact ⟨by rw [hpl], by rw [hpl]; rfl, trivial⟩
    · rw [hlvj j h]
      refine (W.linked j (by omega)).mono (fun c hc => ?_)
      rw [hpo c (hno j h c hc).1 (hno j h c hc).2]; exact ⟨rfl, rfl⟩
  · intro i j c hi hj h1 h2
    rcases hcase i hi with rfl | rfl | hi' <;> rcases hcase j hj with rfl | rfl | hj'
    · rfl
    · rw [hlvs] at h1; rw [hlvh] at h2; simp at h1 h2; exact absurd (h2.symm.trans h1) hlr
    · rw [hlvs] at h1; rw [hlvj _ hj'] at h2; simp at h1; exact absurd h1 (hno j hj' c h2).1
    · rw [hlvh] at h1; rw [hlvs] at h2; simp at h1 h2; exact absurd (h1.symm.trans h2) hlr
    · rfl
    · rw [hlvh] at h1; rw [hlvj _ hj'] at h2; simp at h1; exact absurd h1 (hno j hj' c h2).2
    · rw [hlvs] at h2; rw [hlvj _ hi'] at h1; simp at h2; exact absurd h2 (hno i hi' c h1).1
    · rw [hlvh] at h2; rw [hlvj _ hi'] at h1; simp at h2; exact absurd h2 (hno i hi' c h1).2
    · rw [hlvj _ hi'] at h1; rw [hlvj _ hj'] at h2
      exact W.uniq i j c (by omega) (by omega) h1 h2
  · intro j hj
    rcases hcase j hj with rfl | rfl | h
    · rw [hlvs]; simp
    · rw [hlvh]; simp
    · rw [hlvj j h]; exact W.nodup j (by omega)
  · intro j hj c hc
    have hnext : (growN s root l nx rk zero).next = nx := rfl
    rw [hnext]
    rcases hcase j hj with rfl | rfl | h
    · rw [hlvs] at hc; simp at hc; subst hc
      exact ⟨lt_of_lt_of_le (W.alloc G.h (_root_.le_refl _) c hroot).1 hnx, by rw [hpr]⟩
    · rw [hlvh] at hc; simp at hc; subst hc
      exact ⟨hl, by rw [hpl']; exact (W.alloc G.h (_root_.le_refl _) root hroot).2⟩
    · rw [hlvj j h] at hc
      have := W.alloc j (by omega) c hc
      exact ⟨lt_of_lt_of_le this.1 hnx, by rw [hpo c (hno j h c hc).1 (hno j h c hc).2]; exact this.2⟩
  · intro c hc
    by_cases h0 : G.h = 0
    · rw [← h0, hlvh] at hc
      simp at hc
      subst hc
      rw [hpl']
      exact W.leaf root (by rw [← h0]; exact hroot)
    · rw [hlvj 0 (by omega)] at hc
      rw [hpo c (hno 0 (by omega) c hc).1 (hno 0 (by omega) c hc).2]
      exact W.leaf c hc
  · intro j hj c hc
    change j < G.h + 1 at hj
    rcases (by omega : j = G.h ∨ j + 1 = G.h ∨ j + 1 < G.h) with rfl | h | h
    · rw [hlvs] at hc; simp at hc; subst hc
      refine ⟨by rw [hpr], ?_⟩
      rw [hkr, hpr]
      refine ⟨?_, ?_, ?_, ?_⟩
      · refine List.Forall₂.cons ⟨rfl, ?_⟩ List.Forall₂.nil
        intro c' hc'
        simp at hc'
        subst hc'
        left
        rw [hpl]; rfl
      · intro g c' hg hc'
        simp at hg
        subst hg
        simp at hc'
        subst hc'
        rw [htr, htl]
      · exact le_top
      · intro _ h; exact absurd rfl h
    · rw [h, hlvh] at hc; simp at hc; subst hc
      obtain ⟨h1, h2⟩ := W.inner j (by omega) root (by rw [h]; exact hroot)
      refine ⟨by rw [hpl']; exact h1, ?_⟩
      rw [hkl]
      have hd' : ∀ d ∈ (G.kids root).flatten, d ∈ G.lv j := fun d hd => kids_mem W.toThin (by omega) (by rw [h]; exact hroot) hd
      have ht0 : G.tp root ∈ G.lv 0 := htm G.h (_root_.le_refl _) root hroot
      have hne : G.tp root ≠ root := fun he => by
        have := W.uniq 0 G.h root (Nat.zero_le _) (_root_.le_refl _) (he ▸ ht0) hroot
        omega
      refine h2.congr (fun d hd => ?_) (fun d hd htd => ?_) ?_ (by rw [hpl']) (by rw [hpl']) (by rw [hpl'])
      · rw [hpo d (hno j (by omega) d (hd' d hd)).1 (hno j (by omega) d (hd' d hd)).2]
      · rw [hto d (hno j (by omega) d (hd' d hd)).1 (hno j (by omega) d (hd' d hd)).2, htd, htl, if_neg hne]
      · rw [htl, if_neg hne, hpo _ (hno 0 (by omega) _ ht0).1 (hno 0 (by omega) _ ht0).2]
    · rw [hlvj _ h] at hc
      obtain ⟨h1, h2⟩ := W.inner j (by omega) c hc
      have hn := hno _ h c hc
      refine ⟨by rw [hpo c hn.1 hn.2]; exact h1, ?_⟩
      rw [hko c hn.1 hn.2]
      have hd' : ∀ d ∈ (G.kids c).flatten, d ∈ G.lv j := fun d hd => kids_mem W.toThin (by omega) hc hd
      have ht0 : G.tp c ∈ G.lv 0 := htm (j + 1) (by omega) c hc
      refine h2.congr (fun d hd => ?_) (fun d hd htd => ?_) ?_ (by rw [hpo c hn.1 hn.2]) (by rw [hpo c hn.1 hn.2]) (by rw [hpo c hn.1 hn.2])
      · rw [hpo d (hno j (by omega) d (hd' d hd)).1 (hno j (by omega) d (hd' d hd)).2]
      · rw [hto d (hno j (by omega) d (hd' d hd)).1 (hno j (by omega) d (hd' d hd)).2, htd, hto c hn.1 hn.2]
      · rw [hto c hn.1 hn.2, hpo _ (hno 0 (by omega) _ ht0).1 (hno 0 (by omega) _ ht0).2]
  · by_cases h0 : G.h = 0
    · rw [← h0, hlvh]
      have hr0 : root ∈ G.lv 0 := by rw [← h0]; exact hroot
      refine ⟨by simp, ?_, ?_⟩
      · intro c hc
        simp at hc; subst hc
        rw [hpl']
        exact W.order.le root hr0
      · intro c hc
        simp at hc; subst hc
        rw [hpl']
        exact W.order.sorted root hr0
    · rw [hlvj 0 (by omega)]
      have hn := hno 0 (by omega)
      refine ⟨W.order.pair.imp_of_mem (fun {c d} hc hd h => ?_), fun c hc => ?_, fun c hc => ?_⟩
      · rw [hpo c (hn c hc).1 (hn c hc).2, hpo d (hn d hd).1 (hn d hd).2]; exact h
      · rw [hpo c (hn c hc).1 (hn c hc).2]; exact W.order.le c hc
      · rw [hpo c (hn c hc).1 (hn c hc).2]; exact W.order.sorted c hc
  · intro c hc
    by_cases h0 : G.h = 0
    · rw [← h0, hlvh] at hc
      simp at hc
      subst hc
      have hr0 : root ∈ G.lv 0 := by rw [← h0]; exact hroot
      rw [htl, if_pos (W.tpl root hr0)]
    · rw [hlvj 0 (by omega)] at hc
      rw [hto c (hno 0 (by omega) c hc).1 (hno 0 (by omega) c hc).2, W.tpl c hc]
  · intro j hj c hc
    change j < G.h + 1 at hj
    rcases (by omega : j = G.h ∨ j + 1 = G.h ∨ j + 1 < G.h) with rfl | h | h
    · rw [hlvs] at hc; simp at hc; subst hc
      rw [hkr]; simp
    · rw [h, hlvh] at hc; simp at hc; subst hc
      rw [hkl]; exact W.ne j (by omega) root (by rw [h]; exact hroot)
    · rw [hlvj _ h] at hc
      rw [hko c (hno _ h c hc).1 (hno _ h c hc).2]
      exact W.ne j (by omega) c hc

end Rum.Tree

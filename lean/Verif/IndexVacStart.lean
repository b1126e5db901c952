import Verif.IndexVacRunConc
/-
Operations that begin and end among backends and VACUUM. Proof apparatus.
-/
namespace Rum.Index.VC
open Rum Rum.Codec Rum.Leaf Rum.Entry Rum.Tree Rum.Index Rum.Props Rum.Props.PostingTree Rum.Props.VacConc Std

variable {V : Type} {ix : Ix V} [Inhabited V] {M : Lim} {g : Gh V} {v : Option Vac} {n : Net V} {i : Nat}

theorem JobOK.quiet {st : State V} {a : Thread (Ent V)} {b : Nat → Thread (Item Datum)} {j : Job V} (h : JobOK ix M g i st a b j) (hf : j.free = true) :
    Quiet a b ∧ j.left = [] := by
  cases j with
  | insert l => cases hf
  | read k c => cases hf
  | idle => exact ⟨h, rfl⟩
  | inserted => exact ⟨h, rfl⟩
  | failed => exact h.elim
  | answer k c rows => exact ⟨h.1, rfl⟩

/-- What a backend still has to put into a posting tree. -/
theorem NInv.todo_op (I : NInv ix M g v n) {t j : Nat} {e : Ent V} (he : e ∈ contents n.st.entry rootBlk) (hp : e.post = .tree t) {y : Item Datum}
    (hy : y ∈ todo (n.tth t j)) : ∃ k l, n.job j = .insert l ∧ (k, y) ∈ l ∧ ix.cmp (probe k) e = .eq := by
  have hni : n.tth t j ≠ .idle := by intro h; rw [h] at hy; simp [todo] at hy
  have hj := I.job j
  cases hjob : n.job j with
  | insert l =>
    rw [hjob] at hj
    obtain ⟨-, -, -, k, it, l', rfl, hw⟩ := hj
    rcases hw with ⟨h, -⟩ | ⟨u, hin, -, -, hw⟩
    · exact absurd (h t) hni
    · obtain rfl : u = t := by
        by_contra hne
        exact hni (hin.2.1 t (fun h => hne h.symm))
      obtain ⟨e', h1, h2, h3⟩ := hin.2.2
      obtain rfl := I.inj e' h1 e he u h2 hp
      rcases hw with hw | ⟨hw, -⟩
      · rw [show todo (n.tth u j) = [it] from hw] at hy
        simp only [List.mem_singleton] at hy
        subst hy
        exact ⟨k, _, rfl, by simp, h3⟩
      · rw [show todo (n.tth u j) = [] from hw] at hy
        simp at hy
  | read k c =>
    rw [hjob] at hj
    rcases hj.2 with ⟨h, -⟩ | ⟨u, hin, -, hm⟩
    · exact absurd (h t) hni
    · obtain rfl : u = t := by
        by_contra hne
        exact hni (hin.2.1 t (fun h => hne h.symm))
      rw [mode_todo (th := n.tth u j) hm] at hy
      simp at hy
  | idle => rw [hjob] at hj; exact absurd (hj.2 t) hni
  | inserted => rw [hjob] at hj; exact absurd (hj.2 t) hni
  | failed => rw [hjob] at hj; exact hj.elim
  | answer k c rows => rw [hjob] at hj; exact absurd (hj.1.2 t) hni

omit [Inhabited V] in
theorem Tuple.same {st : State V} {tth : Nat → Nat → Thread (Item Datum)} {e : Ent V} {g' : Gh V} {v' : Option Vac} (h : Tuple ix M st tth v g e)
    (hS : g'.S = g.S) (hA : g'.A = g.A) (hv : ∀ t, tv v' t = tv v t) : Tuple ix M st tth v' g' e :=
  ⟨h.key, h.list, fun t ht => by rw [hS, hA, hv]; exact h.tree t ht⟩

theorem JobOK.mono {T' : List (AttKey V × Item Datum)} {st : State V} {a : Thread (Ent V)} {b : Nat → Thread (Item Datum)} {j : Job V}
    (h : JobOK ix M g i st a b j) (hT : ∀ l, j = .insert l → ∀ op ∈ l, op ∈ T') : JobOK ix M { g with T := T' } i st a b j := by
  cases j with
  | insert l => exact ⟨h.1, hT l rfl, h.2.2⟩
  | _ => exact h

/-- A row is to be inserted. -/
theorem NInv.insert (I : NInv ix M g v n) (hf : (n.job i).free = true) {l : List (AttKey V × Item Datum)} (h1 : ∀ op ∈ l, EntryOK ix M op)
    (hA : ∀ op ∈ l, ∀ k', Same ix k' op.1 → ∀ i, g.A i k' op.2) (hd : ∀ w, v = some w → ∀ op ∈ l, w.dead op.2.iptr = false) :
    NInv ix M { g with T := g.T ++ l } v (n.next i l) := by
  obtain ⟨hq, hl⟩ := (I.job i).quiet hf
  have P : Part ix M { g with T := g.T ++ l } v n i := by
    refine ⟨I.entry, fun e he => (I.tup e he).same rfl rfl (fun _ => rfl), I.inj, fun k y hy => ⟨(I.ok k y hy).1, ?_⟩, fun w hw => ⟨fun op ho => ?_, (I.alive w hw).2⟩,
      I.clean, fun j hj => (I.job j).mono (fun l' hl' op ho => ?_)⟩
    · exact (I.ok k y hy).2.imp (fun ⟨op, h1, h2⟩ => ⟨op, List.mem_append_left _ h1, h2⟩) id
    · rcases List.mem_append.1 ho with ho | ho
      · exact (I.alive w hw).1 op ho
      · exact hd w hw op ho
    · have := I.job j
      rw [hl'] at this
      exact List.mem_append_left _ (this.2.1 op ho)
  refine P.next (by rw [hq.1]; rfl) hq.2 h1 (fun op ho => List.mem_append_right _ ho) hA (fun op ho => ?_)
  rcases List.mem_append.1 ho with ho | ho
  · rcases I.due' i op ho with h | h | h
    · exact Or.inl h
    · rw [hl] at h; simp at h
    · exact Or.inr (Or.inr h)
  · exact Or.inr (Or.inl ho)

/-- The ghosts after a search was begun. -/
def Gh.read (g : Gh V) (i : Nat) (S : List (Item Datum)) (A : AttKey V → Item Datum → Prop) : Gh V :=
  ⟨fun j => if j = i then S else g.S j, fun j => if j = i then A else g.A j, g.T, g.r⟩

/-- A search is begun. -/
theorem NInv.read (hc : ColsOK ix M) (I : NInv ix M g v n) (hf : (n.job i).free = true) {k : AttKey V} {c : Bool} {S : List (Item Datum)} {A : AttKey V → Item Datum → Prop}
    (hS : ∀ y ∈ S, y ∈ ix.rowsOf n.st k) (hl : ∀ w, v = some w → ∀ y ∈ S, w.dead y.iptr = false)
    (hA1 : ∀ k, ∀ y ∈ ix.rowsOf n.st k, A k y) (hA2 : ∀ j l, n.job j = .insert l → ∀ op ∈ l, ∀ k', Same ix k' op.1 → A k' op.2) :
    NInv ix M (g.read i S A) v ((n.setE i (descent k)).setJ i (.read k c)) := by
  have := hc.keys
  have := cmp_trans ix
  obtain ⟨hq, hlf⟩ := (I.job i).quiet hf
  have hmem : ∀ e ∈ contents n.st.entry rootBlk, ∀ t, e.post = .tree t → ∀ k', Same ix k' e.key → ∀ y ∈ contents (n.st.trees t) 0, y ∈ ix.rowsOf n.st k' := by
    intro e he t ht k' hk' y hy
    rw [EInv.rowsOf_eq hc I.entry.einv he hk']
    unfold rows
    rw [ht]
    exact hy
  have P : Part ix M (g.read i S A) v n i := by
    refine ⟨I.entry, fun e he => ?_, I.inj, fun k y hy => ⟨fun j => ?_, (I.ok k y hy).2⟩, fun w hw => ⟨(I.alive w hw).1, fun j y hy => ?_⟩, I.clean, fun j hj => ?_⟩
    · have h := I.tup e he
      refine ⟨h.key, h.list, fun t ht => ⟨(h.tree t ht).1, ?_⟩⟩
      have hA : ∀ j k' y, y ∈ ix.rowsOf n.st k' → (g.read i S A).A j k' y := by
        intro j k' y hy
        simp only [Gh.read]
        split
        · exact hA1 k' y hy
        · exact (I.ok k' y hy).1 j
      have hni : ∀ j, reads (n.tth t j) = true → j ≠ i := by
        rintro j hj rfl
        rw [show n.tth t j = .idle from hq.2 t] at hj
        cases hj
      refine (h.tree t ht).2.ghost (fun j hj => by simp [Gh.read, hni j hj]) (fun j hj y hy k' hk' => ?_) (fun j y hy => ?_) (fun j j' y hy => ?_)
      · have := hy k' hk'
        simpa [Gh.read, hni j hj] using this
      · cases j with
        | zero => trivial
        | succ j => exact fun k' hk' => hA j k' y (hmem e he t ht k' hk' y hy)
      · cases j with
        | zero => trivial
        | succ j =>
          intro k' hk'
          obtain ⟨k2, l, h1, h2, h3⟩ := I.todo_op he ht hy
          have hs : Same ix k' k2 := TransCmp.eq_trans (cmp := ix.cmp) (a := probe k') (c := probe k2) hk' (OrientedCmp.eq_symm h3)
          simp only [Gh.read]
          split
          · exact hA2 j' l h1 (k2, y) h2 k' hs
          · have := I.job j'
            rw [h1] at this
            exact this.2.2.1 (k2, y) h2 k' hs j
    · simp only [Gh.read]
      split
      · exact hA1 k y hy
      · exact (I.ok k y hy).1 j
    · simp only [Gh.read] at hy
      split at hy
      · exact hl w hw y hy
      · exact (I.alive w hw).2 j y hy
    · have h := I.job j
      have e1 : (g.read i S A).S j = g.S j := by simp [Gh.read, hj]
      have e2 : (g.read i S A).A j = g.A j := by simp [Gh.read, hj]
      cases hjob : n.job j with
      | insert l =>
        rw [hjob] at h
        refine ⟨h.1, h.2.1, fun op ho k' hs j' => ?_, h.2.2.2⟩
        simp only [Gh.read]
        split
        · exact hA2 j l hjob op ho k' hs
        · exact h.2.2.1 op ho k' hs j'
      | read k c =>
        rw [hjob] at h
        exact ⟨by rw [e1]; exact h.1, h.2⟩
      | answer k c R =>
        rw [hjob] at h
        exact ⟨h.1, by rw [e1]; exact h.2.1, by rw [e1]; exact h.2.2.1, by rw [e2]; exact h.2.2.2⟩
      | idle => rw [hjob] at h; exact h
      | inserted => rw [hjob] at h; exact h
      | failed => rw [hjob] at h; exact h
  have P' := (P.setE (a := descent k) (by rw [hq.1]; rfl) (Or.inr ⟨k, rfl⟩)).setJ (.read k c)
  refine P'.whole ?_ ?_
  · rw [setJ_job]
    refine ⟨fun y hy => ?_, Or.inl ⟨hq.2, _, _, by simp [Net.setJ, Net.setE, descent]; exact ⟨rfl, rfl⟩⟩⟩
    simp only [Gh.read, if_true] at hy
    exact hS y hy
  · rw [setJ_job]
    have := I.due' i
    rw [hlf] at this
    exact this.of rfl (fun j hj => by simp [Net.setJ, Net.setE, hj])

/-- A search is given up. -/
theorem NInv.quit (I : NInv ix M g v n) {k : AttKey V} {c : Bool} (hjob : n.job i = .read k c) : NInv ix M g v (n.quit i .idle) := by
  have hj := I.job i
  rw [hjob] at hj
  have hpe : pending (n.eth i) = none ∧ ∀ t, pending (n.tth t i) = none := by
    rcases hj.2 with ⟨h1, p, up, h2⟩ | ⟨t, hin, h1, h2⟩
    · exact ⟨by rw [h2]; rfl, fun t => by rw [show n.tth t i = .idle from h1 t]; rfl⟩
    · refine ⟨by rw [hin.1]; rfl, fun u => ?_⟩
      by_cases hu : u = t
      · rw [hu]; exact pending_of_mode (by rw [h2]; rfl)
      · rw [show n.tth u i = .idle from hin.2.1 u hu]; rfl
  have P := I.part i
  have P1 := (P.setE (a := .idle) hpe.1 (Or.inl rfl)).setJ .idle
  have P2 : Part ix M g v (n.quit i .idle) i := by
    refine ⟨P1.entry, fun e he => ?_, P1.inj, P1.ok, P1.alive, P1.clean, fun j hj => ?_⟩
    · have h := P.tup e he
      exact ⟨h.key, h.list, fun u hu => ⟨(h.tree u hu).1, (h.tree u hu).2.put (i := i) (a := .idle) (hpe.2 u) (Or.inl rfl)⟩⟩
    · simpa [Net.quit, Net.setJ, Net.setE, hj] using P.job j hj
  have hj1 : (n.quit i .idle).job i = .idle := by simp [Net.quit, Net.setJ]
  refine P2.whole ?_ ?_
  · rw [hj1]
    exact ⟨by simp [Net.quit, Net.setJ, Net.setE], fun t => by simp [Net.quit]⟩
  · rw [hj1]
    have := I.due' i
    rw [hjob] at this
    exact this.of rfl (fun j hj => by simp [Net.quit, Net.setJ, Net.setE, hj])

/-- VACUUM begins. -/
theorem NInv.vacuum (I : NInv ix M g none n) (dead : Iptr → Bool) (hS : ∀ i, ∀ y ∈ g.S i, dead y.iptr = false) (hR : ∀ k y, g.r.P k y → dead y.iptr = false)
    (hJ : ∀ j l, n.job j = .insert l → ∀ op ∈ l, dead op.2.iptr = false) :
    NInv ix M { g with T := g.T.filter (fun op => !dead op.2.iptr) } (some ⟨dead, .down rootBlk⟩) n := by
  refine ⟨?_, fun e he => (I.tup e he).same rfl rfl (fun _ => rfl), I.inj, fun k y hy => ⟨(I.ok k y hy).1, ?_⟩, fun w hw => ?_, fun w hw => ?_,
    fun j => (I.job j).mono (fun l hl op ho => ?_), fun op ho => I.due op (List.mem_filter.1 ho).1⟩
  · obtain ⟨K, hK, key, G, hk, Y, -, r2, r3, r4, r5, -⟩ := I.entry
    exact ⟨K, hK, key, G, hk, Y, fun w hw => by cases hw; exact Or.inl rfl, r2, r3, r4, r5, fun w hw => by cases hw; exact hR⟩
  · cases hd : dead y.iptr with
    | true => exact Or.inr ⟨_, rfl, hd⟩
    | false =>
      rcases (I.ok k y hy).2 with ⟨op, h1, h2, rfl⟩ | ⟨w, hw, -⟩
      · exact Or.inl ⟨op, List.mem_filter.2 ⟨h1, by simp [hd]⟩, h2, rfl⟩
      · cases hw
  · cases hw
    exact ⟨fun op ho => by simpa using (List.mem_filter.1 ho).2, hS⟩
  · cases hw
    trivial
  · have := I.job j
    rw [hl] at this
    exact List.mem_filter.2 ⟨this.2.1 op ho, by simp [hJ j l hl op ho]⟩

/-! ### Who is at work where -/

theorem NInv.busy (I : NInv ix M g v n) (hi : (n.job i).free = false) : (n.eth i).free = false ∨ ∃ t, (n.tth t i).free = false := by
  have hj := I.job i
  cases hjob : n.job i with
  | insert l =>
    rw [hjob] at hj
    obtain ⟨-, -, -, k, it, l', -, hw⟩ := hj
    rcases hw with ⟨-, ⟨p, up, h⟩ | ⟨w, h, -⟩⟩ | ⟨t, -, h, -⟩
    · left; rw [h]; rfl
    · exact Or.inl (pending_mode h).2
    · exact Or.inr ⟨t, h⟩
  | read k c =>
    rw [hjob] at hj
    rcases hj.2 with ⟨-, p, up, h⟩ | ⟨t, -, h, -⟩
    · left; rw [h]; rfl
    · exact Or.inr ⟨t, h⟩
  | _ => rw [hjob] at hi; cases hi

/-- Who is in a posting tree is there for a key of that tree. -/
theorem NInv.inTree (I : NInv ix M g v n) {t : Nat} (hb : (n.tth t i).free = false) :
    ∃ e ∈ contents n.st.entry rootBlk, e.post = .tree t ∧ (n.job i).attnum = e.key.attnum := by
  have hni : n.tth t i ≠ .idle := by intro h; rw [h] at hb; cases hb
  have hin : ∀ {a k u}, InTree ix n.st a (fun t => n.tth t i) k u → ∃ e ∈ contents n.st.entry rootBlk, e.post = .tree t ∧ k.attnum = e.key.attnum := by
    rintro a k u ⟨-, h2, e, h3, h4, h5⟩
    obtain rfl : u = t := by
      by_contra hne
      exact hni (h2 t (fun h => hne h.symm))
    exact ⟨e, h3, h4, same_attnum (ix := ix) h5⟩
  have hj := I.job i
  cases hjob : n.job i with
  | insert l =>
    rw [hjob] at hj
    obtain ⟨-, -, -, k, it, l', rfl, hw⟩ := hj
    rcases hw with ⟨h, -⟩ | ⟨u, h, -⟩
    · exact absurd (h t) hni
    · exact hin h
  | read k c =>
    rw [hjob] at hj
    rcases hj.2 with ⟨h, -⟩ | ⟨u, h, -⟩
    · exact absurd (h t) hni
    · exact hin h
  | idle => rw [hjob] at hj; exact absurd (hj.2 t) hni
  | inserted => rw [hjob] at hj; exact absurd (hj.2 t) hni
  | failed => rw [hjob] at hj; exact hj.elim
  | answer k c rows => rw [hjob] at hj; exact absurd (hj.1.2 t) hni

end Rum.Index.VC

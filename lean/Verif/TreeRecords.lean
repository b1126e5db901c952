import Verif.TreeKeeps
/-
The records of an insertion, and rumInsertValue as a whole.
-/
namespace Rum.Tree
open Rum Rum.Entry

variable {α K : Type} [LinearOrder K]

section records
variable {key : α → K} {strict : Bool} {s : Store α} {root : Nat} {G : Ghost} {IOK : List (α × Nat) → Prop} {KOK : α → Prop} {o : Ops α}

theorem Store.ext' {s t : Store α} (h1 : ∀ c, s.page c = t.page c) (h2 : s.next = t.next) : s = t := by
  cases s; cases t
  simp only at h1 h2
  subst h2
  congr
  funext c
  exact h1 c

theorem fresh_next (W : Weak key strict s root G) {r : Nat} (hr : s.next ≤ r) : ∀ j, j ≤ G.h → r ∉ G.lv j :=
  fun j hj h => by have := (W.alloc j hj r h).1; omega

/-- The record that adds the downlink of a split page where there is room. -/
theorem rec_add (L : InnerLaws o IOK KOK) (W : Weak key strict s root G) (S : Sized IOK KOK s G) {C : Prop} {k P b r : Nat} {tl : List Nat} {G1 G2 : List (List Nat)}
    (hp : Pend C G k P b r tl G1 G2) {kk : α} (hkk : hiP key (s.page b) = ((key kk : K) : WithTop K)) (hK : KOK kk)
    (hroom : o.roomInner (s.page P).downs kk = true) :
    ∃ G', Weak key strict (s.set P { s.page P with downs := addDown (s.page P).downs (G1.length + 1) kk b r }) root G' ∧
      (C → Complete G') ∧ Sized IOK KOK (s.set P { s.page P with downs := addDown (s.page P).downs (G1.length + 1) kk b r }) G' ∧
      SameLeaves key s G (s.set P { s.page P with downs := addDown (s.page P).downs (G1.length + 1) kk b r }) G' ∧
      Keeps root (fun c => c = b) (fun _ _ => False) G G' := by
  refine ⟨_, W.add_down hp.lt hp.mem hp.kids hkk, pend_add hp, ⟨?_, ?_⟩, ?_, keeps_add W hp.lt hp.mem hp.kids⟩
  · intro j hj c hc
    rw [Store.set_page]
    split
    · next h =>
      subst h
      have hlen := (W.inner k hp.lt c hp.mem).2.downs.length_eq
      rw [hp.kids] at hlen
      simp at hlen
      exact L.room _ _ _ _ _ (S.inner k hp.lt c hp.mem) hK hroom (by omega) (by omega)
    · exact S.inner j hj c hc
  · intro j hj c hc
    rw [Store.set_page]
    split
    · next h => subst h; exact S.bounds j hj c hc
    · exact S.bounds j hj c hc
  · refine ⟨rfl, fun c hc => ?_⟩
    rw [Store.set_page]
    split
    · next h => subst h; exact ⟨rfl, rfl⟩
    · exact ⟨rfl, rfl⟩

theorem getLast_take_drop {D : List (α × Nat)} {m : Nat} (h1 : 1 ≤ m) (h2 : m < D.length) :
    ∃ d, (D.take m).getLast? = some d ∧ d ∈ D ∧ D.drop m ≠ [] := by
  have hne : D.take m ≠ [] := by
    intro h
    rw [List.take_eq_nil_iff] at h
    rcases h with h | h
    · omega
    · subst h; simp at h2
  refine ⟨(D.take m).getLast hne, List.getLast?_eq_some_getLast hne, List.mem_of_mem_take (List.getLast_mem hne), ?_⟩
  intro h
  rw [List.drop_eq_nil_iff] at h
  omega

/-- The virtual store in which the page has all downlinks. -/
theorem rec_virtual (W : Weak key strict s root G) {C : Prop} {k P b r : Nat} {tl : List Nat} {G1 G2 : List (List Nat)}
    (hp : Pend C G k P b r tl G1 G2) {kk : α} (hkk : hiP key (s.page b) = ((key kk : K) : WithTop K)) :
    Weak key strict (s.set P { s.page P with downs := addDown (s.page P).downs (G1.length + 1) kk b r }) root
      (G.setKids P (G1 ++ [b] :: (r :: tl) :: G2)) ∧ (C → Complete (G.setKids P (G1 ++ [b] :: (r :: tl) :: G2))) :=
  ⟨W.add_down hp.lt hp.mem hp.kids hkk, pend_add hp⟩

theorem addDown_length (D : List (α × Nat)) (off : Nat) (kk : α) (c r : Nat) (h1 : 1 ≤ off) (h2 : off ≤ D.length) :
    (addDown D off kk c r).length = D.length + 1 := by
  unfold addDown
  rw [List.length_insertIdx, List.length_modify, if_pos (by omega)]

/-- The record that splits an interior page other than the root while adding a downlink to it. -/
theorem rec_split (L : InnerLaws o IOK KOK) (W : Weak key strict s root G) (S : Sized IOK KOK s G) {C : Prop} {k P b r : Nat} {tl : List Nat} {G1 G2 : List (List Nat)}
    (hp : Pend C G k P b r tl G1 G2) {kk : α} (hkk : hiP key (s.page b) = ((key kk : K) : WithTop K)) (hK : KOK kk)
    (hroom : o.roomInner (s.page P).downs kk = false) (hk : k + 1 < G.h) {D : List (α × Nat)}
    (hD : D = addDown (s.page P).downs (G1.length + 1) kk b r) {m : Nat} (hm : m = o.sep (s.page P).right.isNone D) :
    ∃ G' d, (D.take m).getLast? = some d ∧
      Weak key strict (splitAt s P [] [] (D.take m) (D.drop m) d.1) root G' ∧
      ((∃ P' t' G1' G2', Pend C G' (k + 1) P' P s.next t' G1' G2') ∨ (¬ C ∧ NoDown G' P)) ∧
      Sized IOK KOK (splitAt s P [] [] (D.take m) (D.drop m) d.1) G' ∧
      SameLeaves key s G (splitAt s P [] [] (D.take m) (D.drop m) d.1) G' ∧ KOK d.1 ∧
      hiP key ((splitAt s P [] [] (D.take m) (D.drop m) d.1).page P) = ((key d.1 : K) : WithTop K) ∧
      G'.h = G.h ∧ s.next < (splitAt s P [] [] (D.take m) (D.drop m) d.1).next ∧
      (∀ up, PathOK root G (k + 1) up → PathOK root G' (k + 1) up) ∧
      Keeps root (fun c => c = b ∨ c = P) (fun x y => (x = P ∧ y = s.next) ∨ (x = s.next ∧ Adj G P y)) G G' ∧ Adj G' P s.next := by
  obtain ⟨W1, C1⟩ := rec_virtual W hp hkk
  have hlen := (W.inner k hp.lt P hp.mem).2.downs.length_eq
  rw [hp.kids] at hlen
  simp at hlen
  have hs := L.split (s.page P).right.isNone (s.page P).downs (G1.length + 1) kk b r (S.inner k hp.lt P hp.mem) hK hroom (by omega) (by omega)
  rw [← hD, ← hm] at hs
  obtain ⟨hs1, hs2, hs3, hs4⟩ := hs
  obtain ⟨d, hd, hdD, hne⟩ := getLast_take_drop hs1 hs2
  rw [← hD] at W1
  set s1 := s.set P { s.page P with downs := D } with hs1def
  set Ga := G.setKids P (G1 ++ [b] :: (r :: tl) :: G2) with hGa
  obtain ⟨A, B, e⟩ := List.append_of_mem hp.mem
  have e1 : Ga.lv (k + 1) = A ++ P :: B := e
  have hrB := (Linked.right (e ▸ W.linked (k + 1) (by have := hp.lt; omega))).1
  have hrB : (s.page P).right = B.head? := by simpa using hrB
  have hfr : ∀ j, j ≤ G.h → s.next ∉ G.lv j := fresh_next W (_root_.le_refl _)
  have hPB : P ∉ B := by
    have := W.nodup (k + 1) (by omega)
    rw [e, List.nodup_append] at this
    exact (List.nodup_cons.1 this.2.1).1
  have hnB : s.next ∉ B := fun h => hfr (k + 1) (by omega) (by rw [e]; simp [h])
  have hPn : P ≠ s.next := fun h => hfr (k + 1) (by omega) (h ▸ hp.mem)
  have pg0 : SplitPages s (splitAt s P [] [] (D.take m) (D.drop m) d.1) P s.next (s.next + 1) B [] [] (D.take m) (D.drop m) d.1 := by
    rw [splitAt_eq]
    exact splitN_pages hrB hPn hPB hnB
  have hs1P : s1.page P = { s.page P with downs := D } := by rw [hs1def, Store.set_page, if_pos rfl]
  have hs1c : ∀ c, c ≠ P → s1.page c = s.page c := fun c hc => by rw [hs1def, Store.set_page, if_neg hc]
  have pg : SplitPages s1 (splitAt s P [] [] (D.take m) (D.drop m) d.1) P s.next (s.next + 1) B [] [] (D.take m) (D.drop m) d.1 := by
    refine ⟨by rw [pg0.fb, hs1P], by rw [pg0.fr, hs1P], fun c h1 h2 => by rw [pg0.fo c h1 h2, hs1c c h1], pg0.next⟩
  have hOK : SplitOK key s1 Ga (k + 1) P A [] [] (D.take m) (D.drop m) d.1 := by
    refine ⟨fun h => by omega, fun _ => ⟨by rw [hs1P]; simp [List.take_append_drop], hne, d, hd, rfl⟩⟩
  have W2 := W1.split (by exact hk) e1 hfr (_root_.le_refl _ |>.trans (Nat.le_succ _)) (Nat.lt_succ_self _) hOK pg
  have hp' := split_pend (m := (D.take m).length) (r := s.next) W1 C1 (by exact hk : k + 1 < Ga.h) (by rw [e1]; simp : P ∈ Ga.lv (k + 1)) hfr
  have hKd : KOK d.1 := by
    have : d ∈ D.take m := List.mem_of_getLast? hd
    exact L.keys _ hs3 d this
  refine ⟨_, d, hd, W2, hp', ⟨?_, ?_⟩, ?_, hKd, by rw [pg.fb]; rfl, rfl, by rw [pg.next]; omega,
    fun up hup => path_split (path_setKids hup), ?_,
    split_adj W1 (by exact hk : k + 1 < Ga.h) (by rw [e1]; simp : P ∈ Ga.lv (k + 1)) hfr⟩
  · intro j hj c hc
    change j < G.h at hj
    by_cases h1 : c = P
    · rw [h1, pg.fb]; exact hs3
    · by_cases h2 : c = s.next
      · rw [h2, pg.fr]; exact hs4
      · rcases mem_ins hc with hc | ⟨hc, -⟩
        · rw [pg0.fo c h1 h2]; exact S.inner j hj c hc
        · exact absurd hc h2
  · intro j hj c hc
    change j ≤ G.h at hj
    by_cases h1 : c = P
    · rw [h1, pg.fb]; exact hKd
    · by_cases h2 : c = s.next
      · rw [h2, pg0.fr]; exact S.bounds (k + 1) (by omega) P hp.mem
      · rcases mem_ins hc with hc | ⟨hc, -⟩
        · rw [pg0.fo c h1 h2]; exact S.bounds j hj c hc
        · exact absurd hc h2
  · have hP0 : P ∉ G.lv 0 := fun h => by have := W.uniq 0 (k + 1) P (by omega) (by omega) h hp.mem; omega
    refine ⟨ins_not_mem _ _ _ hP0, fun c hc => ?_⟩
    have h1 : c ≠ P := fun h => hP0 (h ▸ hc)
    have h2 : c ≠ s.next := fun h => hfr 0 (Nat.zero_le _) (h ▸ hc)
    rw [pg0.fo c h1 h2]
    exact ⟨rfl, rfl⟩
  · have k1 : Keeps root _ _ G Ga := keeps_add W hp.lt hp.mem hp.kids
    have k2 := keeps_split (root := root) (m := (D.take m).length) W1 (c := P) (r := s.next) hfr (fun _ _ _ => by simp; omega)
    refine k1.trans k2 ?_ ?_
    · intro c _ _ hc
      exact ⟨fun h => hc (Or.inl h), fun h => hc (Or.inr h)⟩
    · rintro c e (⟨h1, h2, h3⟩ | ⟨h, -⟩ | h | ⟨h1, h2⟩)
      · exact Or.inl ⟨h1, fun h => h.elim h2 h3⟩
      · exact h.elim
      · exact Or.inr (Or.inl h)
      · rcases k1.adj' _ _ h2 with ⟨h2, -⟩ | h2
        · exact Or.inr (Or.inr ⟨h1, h2⟩)
        · exact h2.elim

theorem splitRoot_set (s : Store α) (root : Nat) (D : List (α × Nat)) (li ri : List α) (ld rd : List (α × Nat)) (kk : α) :
    splitRoot o (s.set root { s.page root with downs := D }) root li ri ld rd kk = splitRoot o s root li ri ld rd kk := by
  apply Store.ext'
  · intro c
    simp only [splitRoot, Store.set, if_true]
    split
    · rfl
    · rfl
  · rfl

/-- The record that splits the root. -/
theorem root_split (W : Weak key strict s root G) {C : Prop} (hC : C → Complete G) {li ri : List α} {ld rd : List (α × Nat)} {kk : α}
    (hS : SplitOK key s G G.h root [] li ri ld rd kk) :
    ∃ G', Weak key strict (splitRoot o s root li ri ld rd kk) root G' ∧ (C → Complete G') ∧ G'.h = G.h + 1 ∧
      G'.lv (G.h + 1) = [root] ∧ G'.lv G.h = [s.next + 1, s.next] ∧ (∀ j, j < G.h → G'.lv j = G.lv j) ∧
      Keeps root (fun _ => False) (fun _ _ => False) G G' := by
  set l := s.next + 1 with hl
  set r := s.next with hr
  have hroot : root ∈ G.lv G.h := by rw [W.root]; simp
  have hrn : root < s.next := (W.alloc G.h (_root_.le_refl _) root hroot).1
  have W1 := W.grow (l := l) (nx := s.next + 2) (fresh_next W (by omega)) (by omega) (by omega) (o.rootKey (s.page root).bound ri rd) o.zero
  have C1 : C → Complete (G.grow root l) := fun c => complete_grow W (hC c)
  set s1 := growN s root l (s.next + 2) (o.rootKey (s.page root).bound ri rd) o.zero with hs1
  set Ga := G.grow root l with hGa
  have hrl : (s.page root).right = none ∧ (s.page root).left = none := by
    have := W.linked G.h (_root_.le_refl _)
    rw [W.root] at this
    exact ⟨by simpa using this.2.1, this.1⟩
  have hpl : s1.page l = s.page root := by
    have : s1.page l = { s.page root with right := none, left := none } := by
      rw [hs1]
      unfold growN
      rw [Store.set_page, Store.set_page, if_neg (by omega), if_pos rfl]
    rw [this]
    conv_rhs => rw [show s.page root = ⟨_, _, _, _, (s.page root).right, (s.page root).left, _⟩ from rfl, hrl.1, hrl.2]
  have hpr : s1.page root = ⟨false, [], [(o.rootKey (s.page root).bound ri rd, l)], o.zero, none, none, false⟩ := by
    rw [hs1]
    simp only [growN, Store.set_page, if_true]
  have hlvh : Ga.lv G.h = [l] := by simp [hGa, Ghost.grow]
  have hlvs : Ga.lv (G.h + 1) = [root] := by simp [hGa, Ghost.grow]
  have hlvj : ∀ j, j < G.h → Ga.lv j = G.lv j := fun j hj => by
    simp only [hGa, Ghost.grow]
    rw [if_neg (by omega), if_neg (by omega)]
  have hfr : ∀ j, j ≤ Ga.h → r ∉ Ga.lv j := by
    intro j hj h
    change j ≤ G.h + 1 at hj
    rcases (by omega : j = G.h + 1 ∨ j = G.h ∨ j < G.h) with rfl | rfl | hlt
    · rw [hlvs] at h; simp only [List.mem_singleton] at h; omega
    · rw [hlvh] at h; simp only [List.mem_singleton] at h; omega
    · rw [hlvj j hlt] at h
      exact fresh_next W (_root_.le_refl _) j (by omega) h
  have e1 : Ga.lv G.h = [] ++ l :: [] := hlvh
  have hOK : SplitOK key s1 Ga G.h l [] li ri ld rd kk := by
    refine ⟨fun h => ?_, fun h => ?_⟩
    · have := hS.leafItems h
      rw [hpl]
      refine ⟨this.1, this.2.1, this.2.2.1, this.2.2.2.1, this.2.2.2.2.1, by simp, by simp⟩
    · rw [hpl]; exact hS.innerDowns h
  have pg : SplitPages s1 (splitN s1 l r (s.next + 2) li ri ld rd kk) l r (s.next + 2) [] li ri ld rd kk :=
    splitN_pages (by rw [hpl, hrl.1]; rfl) (by omega) (by simp) (by simp)
  have W2 := W1.split (by simp [hGa, Ghost.grow] : G.h < Ga.h) e1 hfr (_root_.le_refl (s.next + 2)) (by omega) hOK pg
  have hkr : (Ga.split l r ld.length).kids root = [[l, r]] := by
    simp only [Ghost.split]
    rw [if_neg (by omega), if_neg (by omega)]
    have : Ga.kids root = [[l]] := by simp [hGa, Ghost.grow]
    rw [this]
    have := ins_split l r [] [] (by simp) (by simp)
    simp only [List.nil_append] at this
    rw [List.map_cons, List.map_nil, this]
  have hlv1 : (Ga.split l r ld.length).lv (G.h + 1) = [root] := by
    show ins l r (Ga.lv (G.h + 1)) = _
    rw [hlvs]
    exact ins_not_mem _ _ _ (by simp only [List.mem_singleton]; omega)
  have hlv2 : (Ga.split l r ld.length).lv G.h = [l, r] := by
    show ins l r (Ga.lv G.h) = _
    rw [hlvh]
    have := ins_split l r [] [] (by simp) (by simp)
    simpa using this
  have hlv3 : ∀ j, j < G.h → (Ga.split l r ld.length).lv j = G.lv j := by
    intro j hj
    show ins l r (Ga.lv j) = _
    rw [hlvj j hj]
    exact ins_not_mem _ _ _ (fresh_next W (by omega) j (by omega))
  have hrm : root ∈ (Ga.split l r ld.length).lv (G.h + 1) := by rw [hlv1]; simp
  have W3 := W2.add_down (k := G.h) (by simp [Ghost.split, hGa, Ghost.grow]) hrm (G1 := []) (G2 := []) (by simpa using hkr)
    (kk := kk) (by rw [pg.fb]; rfl)
  have K : Keeps root (fun _ => False) (fun _ _ => False) G ((Ga.split l r ld.length).setKids root ([] ++ [l] :: [r] :: [])) := by
    have k1 := keeps_grow W (l := l) (fresh_next W (by omega))
    have k2 := keeps_split (root := root) (m := ld.length) W1 (c := l) (r := r) hfr (fun k hk' h => by
      change k < G.h + 1 at hk'
      rcases (by omega : k = G.h ∨ k + 1 = G.h ∨ k + 1 < G.h) with rfl | h' | h'
      · rw [hlvs] at h; simp only [List.mem_singleton] at h; omega
      · obtain ⟨-, -, d, hd, -⟩ := hS.innerDowns (by omega)
        exact List.length_pos_of_mem (List.mem_of_getLast? hd)
      · rw [hlvj _ h'] at h
        exact absurd h (fresh_next W (by omega) _ (by omega)))
    have k3 := keeps_add W2 (k0 := G.h) (G1 := []) (G2 := []) (t := []) (by simp [Ghost.split, hGa, Ghost.grow]) hrm (by simpa using hkr)
    have hAl : ∀ d, ¬ Adj G l d := by
      rintro d ⟨k, P, u, v, h1, h2, -, -⟩
      exact fresh_next W (by omega) k (by omega) h2
    refine (k1.trans (bad2 := fun c => c = l) (new2 := fun x y => x = l ∧ y = r) k2 (fun _ _ _ h => ⟨fun h => h, h⟩) ?_).trans k3 ?_ ?_
    · rintro c d (⟨h1, -, h3⟩ | ⟨h, -⟩ | h | ⟨-, h2⟩)
      · exact Or.inl ⟨h1, h3⟩
      · exact h.elim
      · exact Or.inr h
      · rcases k1.adj' _ _ h2 with ⟨h2, -⟩ | h2
        · exact absurd h2 (hAl d)
        · exact h2.elim
    · intro c d h _
      exact ⟨fun h' => hAl d (h' ▸ h), fun h' => hAl d (h' ▸ h)⟩
    · rintro c d (⟨h1, -, -⟩ | ⟨h, h'⟩ | h)
      · exact Or.inl ⟨h1, fun h => h⟩
      · exact absurd h.1 h'
      · exact h.elim
  have hroot' : root = root := rfl
  generalize root = P at *
  have C3 : C → Complete ((Ga.split l r ld.length).setKids P ([] ++ [l] :: [r] :: [])) := by
    intro c
    rcases split_pend (m := ld.length) W1 C1 (by simp [hGa, Ghost.grow] : G.h < Ga.h) (by rw [e1]; simp : l ∈ Ga.lv G.h) hfr with
      ⟨P', t, G1, G2, hp⟩ | ⟨h, -⟩
    · have hP : P' = P := by
        have := hp.mem
        rw [hlv1] at this
        simpa using this
      subst hP
      have hG : G1 = [] ∧ G2 = [] := by
        have := hp.kids
        rw [hkr] at this
        have hlen := congrArg List.length this
        simp at hlen
        exact ⟨List.length_eq_zero_iff.1 (by omega), List.length_eq_zero_iff.1 (by omega)⟩
      obtain ⟨rfl, rfl⟩ := hG
      have := pend_add hp c
      rw [hp.nil c] at this
      exact this
    · exact absurd c h
  refine ⟨_, ?_, C3, rfl, hlv1, hlv2, hlv3, K⟩
  convert W3 using 1
  have hr2 : (splitN s1 l r (s.next + 2) li ri ld rd kk).page P = s1.page P := by
    rw [pg.fo P (by omega) (by omega)]
    simp
  have hdown : addDown ((splitN s1 l r (s.next + 2) li ri ld rd kk).page P).downs 1 kk l r = [(kk, l), (o.rootKey (s.page P).bound ri rd, r)] := by
    rw [hr2, hpr]
    exact addDown_eq [] [] (o.rootKey (s.page P).bound ri rd, l) kk l r
  apply Store.ext'
  · intro c
    rw [Store.set_page]
    split
    · next h =>
      subst h
      simp only [List.length_nil, Nat.zero_add]
      rw [hdown, hr2, hpr]
      simp only [splitRoot, Store.set, if_true, hl, hr]
    · next h =>
      by_cases h1 : c = l
      · rw [h1, pg.fb, hpl, hrl.2]
        simp only [splitRoot, Store.set]
        rw [if_neg (by omega), if_pos rfl]
      · by_cases h2 : c = r
        · rw [h2, pg.fr, hpl, hrl.1]
          simp only [splitRoot, Store.set]
          rw [if_neg (by omega), if_neg (by omega), if_pos rfl]
        · rw [pg.fo c h1 h2]
          simp only [splitRoot, Store.set, List.head?_nil]
          rw [if_neg h, if_neg h1, if_neg h2]
          have hpc : s1.page c = s.page c := by
            rw [hs1]
            unfold growN
            rw [Store.set_page, Store.set_page, if_neg h, if_neg h1]
          simp [hpc]
  · rw [Store.set_next, pg.next]; rfl

/-- Pages after a root split. -/
theorem splitRoot_pages (W : Weak key strict s root G) {li ri : List α} {ld rd : List (α × Nat)} {kk : α} :
    (splitRoot o s root li ri ld rd kk).page root =
      ⟨false, [], [(kk, s.next + 1), (o.rootKey (s.page root).bound ri rd, s.next)], o.zero, none, none, false⟩ ∧
    (splitRoot o s root li ri ld rd kk).page (s.next + 1) = ⟨(s.page root).leaf, li, ld, kk, some s.next, none, false⟩ ∧
    (splitRoot o s root li ri ld rd kk).page s.next = ⟨(s.page root).leaf, ri, rd, (s.page root).bound, none, some (s.next + 1), false⟩ ∧
    ∀ c, c < s.next → c ≠ root → (splitRoot o s root li ri ld rd kk).page c = s.page c := by
  have hroot : root ∈ G.lv G.h := by rw [W.root]; simp
  have hrn : root < s.next := (W.alloc G.h (_root_.le_refl _) root hroot).1
  simp only [splitRoot, Store.set]
  refine ⟨if_pos trivial, by rw [if_neg (by omega)]; exact if_pos trivial,
    by rw [if_neg (by omega), if_neg (by omega)]; exact if_pos trivial, fun c h1 h2 => ?_⟩
  rw [if_neg h2, if_neg (by omega), if_neg (by omega)]

theorem root_sized (L : InnerLaws o IOK KOK) (W : Weak key strict s root G) (S : Sized IOK KOK s G) {li ri : List α}
    {ld rd : List (α × Nat)} {kk : α} (hK : KOK kk) (hrk : KOK (o.rootKey (s.page root).bound ri rd)) (hI : G.h ≠ 0 → IOK ld ∧ IOK rd) {G' : Ghost} (hh : G'.h = G.h + 1)
    (h1 : G'.lv (G.h + 1) = [root]) (h2 : G'.lv G.h = [s.next + 1, s.next]) (h3 : ∀ j, j < G.h → G'.lv j = G.lv j) :
    Sized IOK KOK (splitRoot o s root li ri ld rd kk) G' := by
  obtain ⟨p1, p2, p3, p4⟩ := splitRoot_pages (o := o) W (li := li) (ri := ri) (ld := ld) (rd := rd) (kk := kk)
  have hroot : root ∈ G.lv G.h := by rw [W.root]; simp
  have hb := S.bounds G.h (_root_.le_refl _) root hroot
  have hlow : ∀ j, j < G.h → ∀ c ∈ G.lv j, (splitRoot o s root li ri ld rd kk).page c = s.page c := fun j hj c hc =>
    p4 c (W.alloc j (by omega) c hc).1 (fun h => by have := W.uniq j G.h c (by omega) (_root_.le_refl _) hc (h ▸ hroot); omega)
  refine ⟨?_, ?_⟩
  · intro j hj c hc
    rcases (by omega : j = G.h ∨ j + 1 = G.h ∨ j + 1 < G.h) with rfl | h | h
    · rw [h1] at hc
      simp only [List.mem_singleton] at hc
      rw [hc, p1]
      exact L.root _ _ _ _ hK hrk
    · rw [h, h2] at hc
      simp only [List.mem_cons, List.not_mem_nil, or_false] at hc
      rcases hc with rfl | rfl
      · rw [p2]; exact (hI (by omega)).1
      · rw [p3]; exact (hI (by omega)).2
    · rw [h3 _ h] at hc
      rw [hlow _ h c hc]
      exact S.inner j (by omega) c hc
  · intro j hj c hc
    rcases (by omega : j = G.h + 1 ∨ j = G.h ∨ j < G.h) with rfl | rfl | h
    · rw [h1] at hc
      simp only [List.mem_singleton] at hc
      rw [hc, p1]
      exact L.zero
    · rw [h2] at hc
      simp only [List.mem_cons, List.not_mem_nil, or_false] at hc
      rcases hc with rfl | rfl
      · rw [p2]; exact hK
      · rw [p3]; exact hb
    · rw [h3 _ h] at hc
      rw [hlow _ h c hc]
      exact S.bounds j (by omega) c hc

theorem rec_root (L : InnerLaws o IOK KOK) (W : Weak key strict s root G) (S : Sized IOK KOK s G) {C : Prop} {k b r : Nat} {tl : List Nat} {G1 G2 : List (List Nat)}
    (hp : Pend C G k root b r tl G1 G2) {kk : α} (hkk : hiP key (s.page b) = ((key kk : K) : WithTop K)) (hK : KOK kk)
    (hroom : o.roomInner (s.page root).downs kk = false) {D : List (α × Nat)}
    (hD : D = addDown (s.page root).downs (G1.length + 1) kk b r) {m : Nat} (hm : m = o.sep (s.page root).right.isNone D) :
    ∃ G' d, (D.take m).getLast? = some d ∧
      Weak key strict (splitRoot o s root [] [] (D.take m) (D.drop m) d.1) root G' ∧ (C → Complete G') ∧
      Sized IOK KOK (splitRoot o s root [] [] (D.take m) (D.drop m) d.1) G' ∧
      SameLeaves key s G (splitRoot o s root [] [] (D.take m) (D.drop m) d.1) G' ∧
      Keeps root (fun c => c = b) (fun _ _ => False) G G' := by
  obtain ⟨W1, C1⟩ := rec_virtual W hp hkk
  have hlen := (W.inner k hp.lt root hp.mem).2.downs.length_eq
  rw [hp.kids] at hlen
  simp at hlen
  have hs := L.split (s.page root).right.isNone (s.page root).downs (G1.length + 1) kk b r (S.inner k hp.lt root hp.mem) hK hroom (by omega) (by omega)
  rw [← hD, ← hm] at hs
  obtain ⟨hs1, hs2, hs3, hs4⟩ := hs
  obtain ⟨d, hd, hdD, hne⟩ := getLast_take_drop hs1 hs2
  rw [← hD] at W1
  have hroot : root ∈ G.lv G.h := by rw [W.root]; simp
  have hkh : k + 1 = G.h := W.uniq _ _ root (by have := hp.lt; omega) (_root_.le_refl _) hp.mem hroot
  have hOK : SplitOK key (s.set root { s.page root with downs := D }) (G.setKids root (G1 ++ [b] :: (r :: tl) :: G2))
      (G.setKids root (G1 ++ [b] :: (r :: tl) :: G2)).h root [] [] [] (D.take m) (D.drop m) d.1 := by
    refine ⟨fun h => ?_, fun _ => ⟨by rw [Store.set_page, if_pos rfl]; simp [List.take_append_drop], hne, d, hd, rfl⟩⟩
    change G.h = 0 at h
    omega
  obtain ⟨G', W', C', hh, h1, h2, h3, hK'⟩ := root_split (o := o) W1 C1 hOK
  rw [splitRoot_set] at W'
  change G'.h = G.h + 1 at hh
  change G'.lv (G.h + 1) = [root] at h1
  change G'.lv G.h = [s.next + 1, s.next] at h2
  change ∀ j, j < G.h → G'.lv j = G.lv j at h3
  have hKd : KOK d.1 := L.keys _ hs3 d (List.mem_of_getLast? hd)
  refine ⟨G', d, hd, W', C', root_sized L W S hKd (L.rk _ _ _ (S.bounds G.h (_root_.le_refl _) root hroot) (by simp) (L.keys _ hs4)) (fun _ => ⟨hs3, hs4⟩) hh h1 h2 h3, ⟨h3 0 (by omega), fun c hc => ?_⟩, ?_⟩
  swap
  · refine (keeps_add W hp.lt hp.mem hp.kids).trans hK' (fun _ _ _ h => ⟨h, fun h => h⟩) ?_
    rintro c d (⟨h1, h2, -⟩ | ⟨h, -⟩ | h)
    · exact Or.inl ⟨h1, h2⟩
    · exact h.elim
    · exact h.elim
  obtain ⟨-, -, -, p4⟩ := splitRoot_pages (o := o) W (li := []) (ri := []) (ld := D.take m) (rd := D.drop m) (kk := d.1)
  rw [p4 c (W.alloc 0 (Nat.zero_le _) c hc).1 (fun h => by
    have := W.uniq 0 G.h c (Nat.zero_le _) (_root_.le_refl _) hc (h ▸ hroot); omega)]
  exact ⟨rfl, rfl⟩

theorem lastStore_cons (s t : Store α) (l : List (Store α)) : lastStore s (t :: l) = lastStore t l := by
  unfold lastStore
  rw [List.getLast?_cons]
  rfl

/-- From the split of a page to the end of the insertion. -/
theorem insertUp_spec (L : InnerLaws o IOK KOK) (n : Nat) (W : Weak key strict s root G) (S : Sized IOK KOK s G) {C : Prop} {k b r : Nat}
    (hk : k < G.h) (hp : (∃ P tl G1 G2, Pend C G k P b r tl G1 G2) ∨ (¬ C ∧ NoDown G b)) {kk : α}
    (hkk : hiP key (s.page b) = ((key kk : K) : WithTop K)) (hK : KOK kk)
    {up : List (Nat × Nat)} (hup : PathOK root G k up) (hn : G.h < n + k + 1) :
    ∃ ts ok, insertUp o root n s up b kk r = (ts, ok) ∧ (C → ok = true) ∧
      (∀ t ∈ ts, ∃ G', Weak key strict t root G' ∧ Sized IOK KOK t G' ∧ leafs key t G' = leafs key s G) ∧
      ∃ G', Weak key strict (lastStore s ts) root G' ∧ (C → Complete G') ∧ Sized IOK KOK (lastStore s ts) G' ∧
        leafs key (lastStore s ts) G' = leafs key s G := by
  induction n generalizing s G k b r kk up with
  | zero => omega
  | succ n ih =>
    rw [insertUp]
    rcases hp with ⟨P, tl, G1, G2, hp⟩ | ⟨hnC, hno⟩
    swap
    · rw [findParent_lost W hno hk hup]
      exact ⟨[], false, rfl, fun c => absurd c hnC, by simp, G, W, fun c => absurd c hnC, S, rfl⟩
    obtain ⟨Q, i, up', hf, hQ, hi, hup'⟩ := findParent_spec W hp.lt hp.mem (down_pos W hp.lt hp.mem hp.kids) hup
    have hQP : Q = P := parent_unique W hp.lt hp.lt hQ hp.mem (down_mem W hp.lt hQ hi)
      (by rw [hp.kids]; simp)
    subst hQP
    have hii : i = G1.length := down_inj W hp.lt hp.mem hp.kids hi
    subst hii
    rw [hf]
    simp only
    cases hroom : o.roomInner (s.page Q).downs kk with
    | true =>
      simp only [if_true]
      obtain ⟨G', h1, h2, h3, h4, -⟩ := rec_add L W S hp hkk hK hroom
      replace h4 := h4.leafs
      exact ⟨_, _, rfl, fun _ => rfl, fun t ht => by simp only [List.mem_singleton] at ht; subst ht; exact ⟨G', h1, h3, h4⟩, G', h1, h2, h3, h4⟩
    | false =>
      simp only [Bool.false_eq_true, if_false]
      cases up' with
      | nil =>
        simp only [PathOK] at hup'
        have hQr : Q = root := by
          have := hp.mem
          rw [hup', W.root] at this
          simpa using this
        subst hQr
        obtain ⟨G', d, hd, h1, h2, h3, h4, -⟩ := rec_root L W S hp hkk hK hroom rfl rfl
        replace h4 := h4.leafs
        rw [hd]
        exact ⟨_, _, rfl, fun _ => rfl, fun t ht => by simp only [List.mem_singleton] at ht; subst ht; exact ⟨G', h1, h3, h4⟩, G', h1, h2, h3, h4⟩
      | cons p up' =>
        simp only
        have hlt : k + 1 < G.h := hup'.1
        obtain ⟨G', d, hd, h1, h2, h3, h4, h5, h6, h7, h8, h9, -⟩ := rec_split L W S hp hkk hK hroom hlt rfl rfl
        replace h4 := h4.leafs
        rw [hd]
        simp only [Option.map_some, Option.getD_some]
        obtain ⟨ts, ok, ht1, htc, ht2, Gf, ht3, ht4, ht5, ht6⟩ := ih h1 h3 (by rw [h7]; exact hlt) h2 h6 h5 (h9 _ hup') (by omega)
        refine ⟨_ :: ts, ok, by rw [ht1], htc, ?_, Gf, ?_⟩
        · intro t ht
          rcases List.mem_cons.1 ht with rfl | ht
          · exact ⟨G', h1, h3, h4⟩
          · obtain ⟨G2, g1, g3, g2⟩ := ht2 t ht
            exact ⟨G2, g1, g3, g2.trans h4⟩
        · rw [lastStore_cons]
          exact ⟨ht3, ht4, ht5, ht6.trans h4⟩

end records

end Rum.Tree

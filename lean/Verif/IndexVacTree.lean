import Verif.IndexConcRun
import Verif.IndexVacConc
import Verif.IndexVacuumRun
import Verif.Props.VacConc
/-
Invariant of one posting tree among backends and VACUUM. Proof apparatus.
-/
namespace Rum.Index.VC
open Rum Rum.Codec Rum.Leaf Rum.Entry Rum.Tree Rum.Index Rum.Props Rum.Props.PostingTree Rum.Props.VacConc Std

/-- The ghosts of a tree: what the scans in it must deliver. -/
def part (S : Nat → List (Item Datum)) (th : Nat → Thread (Item Datum)) : Nat → List (Item Datum)
  | 0 => []
  | i + 1 => if reads (th i) then S i else []

def TV (x : Ctx) (M : Lim) (s : Store (Item Datum)) (th : Nat → Thread (Item Datum)) (v : Option ((Iptr → Bool) × List (Store (Item Datum))))
    (S : Nat → List (Item Datum)) (E : Nat → Item Datum → Prop) : Prop :=
  ∃ (K : Type) (_ : LinearOrder K) (key : Item Datum → K) (G : Ghost), KeyOf x.cmp key ∧
    VInv x dataCap innerCap M 0 key (part S th) E ⟨⟨s, th⟩, v⟩ G

theorem reads_mode {α : Type} (th : Thread α) : reads th = (mode th).isSome := by cases th <;> rfl

section
variable {x : Ctx} {M : Lim} {s : Store (Item Datum)} {th : Nat → Thread (Item Datum)} {v : Option ((Iptr → Bool) × List (Store (Item Datum)))}
  {S : Nat → List (Item Datum)} {E : Nat → Item Datum → Prop} {i : Nat}

/-- Nobody is in the tree. -/
theorem TV.rest (h : TInv True x dataCap innerCap M s 0) (hth : ∀ i, th i = .idle) (hE : ∀ i, ∀ y ∈ contents s 0, E i y) :
    TV x M s th none S E := by
  obtain ⟨K, hK, key, G, hk, hG, -⟩ := h
  obtain ⟨b1, b2⟩ := Good.browse hG
  have hp : ∀ i, part S th i = [] := by
    intro i
    cases i with
    | zero => rfl
    | succ i => simp [part, hth, reads]
  refine ⟨K, hK, key, G, hk, b1, b2, fun i => ?_, fun i a ha => ?_, hE, fun i j a ha => ?_, fun _ => ?_, fun _ _ h => by cases h⟩
  · simp only [hth]; trivial
  · rw [hp] at ha; simp at ha
  · simp [hth, todo] at ha
  · exact sinv_calm (y := ⟨s, th⟩) hG (fun i => by simp only [hth]; exact (idle_calm (x := x) (M := M)).1)
      (fun i => by simp only [hth]; exact (idle_calm (x := x) (M := M) (root := 0)).2)

/-- Other ghosts. -/
theorem TV.ghost (h : TV x M s th v S E) {S' : Nat → List (Item Datum)} {E' : Nat → Item Datum → Prop} (hS : ∀ i, reads (th i) = true → S' i = S i)
    (hE : ∀ i, reads (th i) = true → ∀ y, E (i + 1) y → E' (i + 1) y) (hc : ∀ i, ∀ y ∈ contents s 0, E' i y)
    (ht : ∀ i j, ∀ y ∈ todo (th j), E' i y) : TV x M s th v S' E' := by
  obtain ⟨K, hK, key, G, hk, I⟩ := h
  have hp : part S' th = part S th := by
    funext i
    cases i with
    | zero => rfl
    | succ i =>
      simp only [part]
      split
      · next h => rw [hS i h]
      · rfl
  refine ⟨K, hK, key, G, hk, ?_⟩
  rw [hp]
  refine I.weaken I.sub hc ht (fun dead us hv => (I.busy dead us hv).1) (fun i => ?_)
  cases hr : reads (th i) with
  | false => exact ReadV.of_not hr
  | true => exact readV_mono (hE i hr) (I.rd i)

/-- A backend comes or goes. -/
theorem TV.put (h : TV x M s th v S E) {a : Thread (Item Datum)} (hp : pending (th i) = none)
    (ha : a = .idle ∨ ((a = .down 0 ∨ a = .opening 0) ∧ ∀ y ∈ S i, y ∈ contents s 0 ∧ ∀ dead us, v = some (dead, us) → dead y.iptr = false) ∨
      ∃ it, a = .ins [it] 0 [] ∧ Storable x M it ∧ ∀ j, E j it) : TV x M s (fun j => if j = i then a else th j) v S E := by
  obtain ⟨K, hK, key, G, hk, I⟩ := h
  have hh : holds (th i) = none := by rw [holds_eq, hp]; rfl
  have I1 := I.put (i := i) (th := .idle) idle_calm hh trivial (by simp [todo])
  have hne : ∀ j, j ≠ i → ((⟨s, th⟩ : Sys (Item Datum)).put i .idle).th j = th j := fun j hj => put_other _ hj _
  have hsm : ((⟨s, th⟩ : Sys (Item Datum)).put i .idle).th i = .idle := put_same _ _ _
  have hc : Calm 0 a ∧ One x M (todo a) := by
    rcases ha with rfl | ⟨rfl | rfl, -⟩ | ⟨it, rfl, h1, -⟩
    · exact idle_calm
    · exact start_calm (op := .scan) trivial
    · exact start_calm (op := .cursor) trivial
    · exact start_calm (op := .insert [it]) ⟨it, rfl, h1⟩
  have hsub : ∀ j, ∀ y ∈ part S (fun j => if j = i then a else th j) j, y ∈ contents s 0 ∧ ∀ dead us, v = some (dead, us) → dead y.iptr = false := by
    intro j y hy
    cases j with
    | zero => simp [part] at hy
    | succ j =>
      by_cases hj : j = i
      · subst hj
        simp only [part, if_true] at hy
        rcases ha with rfl | ⟨-, ha⟩ | ⟨it, rfl, -⟩
        · simp [reads] at hy
        · split at hy
          · exact ha y hy
          · simp at hy
        · simp [reads] at hy
      · have hy' : y ∈ part S th (j + 1) := by
          simp only [part, if_neg hj] at hy ⊢
          exact hy
        exact ⟨I.sub _ y hy', fun dead us hv => (I.busy dead us hv).1 _ y hy'⟩
  have I2 : VInv x dataCap innerCap M 0 key (part S (fun j => if j = i then a else th j)) E ⟨(⟨s, th⟩ : Sys (Item Datum)).put i .idle, v⟩ G := by
    refine I1.weaken (fun j y hy => (hsub j y hy).1) I1.ev I1.evt (fun dead us hv j y hy => (hsub j y hy).2 dead us hv) (fun j => ?_)
    by_cases hj : j = i
    · subst hj
      simp only [hsm]; trivial
    · have := I1.rd j
      have e : part S (fun j => if j = i then a else th j) (j + 1) = part S th (j + 1) := by simp [part, hj]
      rw [e]
      exact this
  have I3 := I2.put (i := i) (th := a) hc (by simp only [hsm]; rfl) (by
    rcases ha with rfl | ⟨rfl | rfl, -⟩ | ⟨it, rfl, -⟩
    · trivial
    · exact Or.inl rfl
    · exact Or.inl rfl
    · trivial) (by
    intro j y hy
    rcases ha with rfl | ⟨rfl | rfl, -⟩ | ⟨it, rfl, -, h1⟩
    · simp [todo] at hy
    · simp [todo] at hy
    · simp [todo] at hy
    · simp only [todo, List.mem_singleton] at hy
      subst hy; exact h1 j)
  refine ⟨K, hK, key, G, hk, ?_⟩
  have e : ((⟨s, th⟩ : Sys (Item Datum)).put i .idle).put i a = ⟨s, fun j => if j = i then a else th j⟩ := by
    simp only [Sys.put]
    congr 1
    funext j
    split <;> rfl
  rw [← e]
  exact I3

/-- One step in a posting tree, before its outcome is looked at. -/
theorem TV.act [TransCmp x.cmpV] (hz : Sizes x dataCap innerCap M) (h : TV x M s th v S E) (hb : (th i).free = false)
    (hl : ∀ j, j ≠ i → ∀ c, holds (th j) = some c → c ∉ needs (dataOps x dataCap innerCap false) (seekData x) 0 s (th i))
    (hroot : v ≠ none → visit 0 (th i) ≠ some 0)
    {r : Store (Item Datum) × Thread (Item Datum)} (hr : Tree.act (dataOps x dataCap innerCap false) (seekData x) 0 s (th i) = r) :
    TV x M r.1 (fun j => if j = i then r.2 else th j) v S E ∧
    (∀ y ∈ contents s 0, y ∈ contents r.1 0) ∧ (∀ y ∈ contents r.1 0, y ∈ contents s 0 ∨ y ∈ todo (th i)) ∧
    (∀ y ∈ todo (th i), y ∈ todo r.2 ∨ ∃ z ∈ contents r.1 0, x.cmp z y = .eq) ∧
    (∃ m, todo r.2 = (todo (th i)).drop m) ∧ r.2 ≠ .lost ∧ (v ≠ none → r.1 = s) ∧
    ∀ c acc, r.2 = finish c acc → (c = false → ∀ y ∈ S i, y ∈ acc) ∧ (c = true → acc = [] ∨ ∀ y ∈ S i, Delivered x.cmp acc y) ∧
      ∀ y ∈ acc, E (i + 1) y := by
  obtain ⟨K, hK, key, G, hk, I⟩ := h
  have hacts : Acts (dataOps x dataCap innerCap false) (seekData x) 0 i ⟨s, th⟩ ⟨r.1, fun j => if j = i then r.2 else th j⟩ :=
    ⟨hl, by rw [← hr]; rfl⟩
  have hF : Fires x dataCap innerCap M 0 (.act i) ⟨⟨s, th⟩, v⟩ ⟨⟨r.1, fun j => if j = i then r.2 else th j⟩, v⟩ := ⟨hacts, rfl, hroot⟩
  obtain ⟨G', I'⟩ := I.fires hz hk hF (fun _ h => by cases h) (fun _ _ h => by cases h)
  obtain ⟨K1, K2⟩ := I.keeps hz hk hF
  have hmode : mode r.2 = mode (th i) := by
    rw [← hr]
    cases hm : mode (th i) with
    | none => exact (act_ins hb hm).1
    | some c => exact (act_read hb hm).1
  have hpart : part S (fun j => if j = i then r.2 else th j) = part S th := by
    funext j
    cases j with
    | zero => rfl
    | succ j =>
      by_cases hj : j = i
      · subst hj; simp only [part, if_true, reads_mode, hmode]
      · simp only [part, if_neg hj]
  have hnew : ((fun j => if j = i then r.2 else th j) i) = r.2 := by simp
  have hfin : ∀ c acc, r.2 = finish c acc → (c = false → ∀ y ∈ S i, y ∈ acc) ∧ (c = true → acc = [] ∨ ∀ y ∈ S i, Delivered x.cmp acc y) ∧
      ∀ y ∈ acc, E (i + 1) y := by
    intro c acc hfin
    have hrd := I'.rd i
    have hS : part S th (i + 1) = S i := by
      have : reads (th i) = true := by rw [reads_mode, ← hmode, hfin]; cases c <;> rfl
      simp [part, this]
    simp only [if_true, hfin, hS] at hrd
    cases c with
    | false => exact ⟨fun _ => hrd.1, fun h => (by cases h), hrd.2⟩
    | true => exact ⟨fun h => (by cases h), fun _ => hrd.1, hrd.2⟩
  have hmade : ∀ y ∈ todo (th i), y ∈ todo r.2 ∨ ∃ z ∈ contents r.1 0, x.cmp z y = .eq := by
    intro y hy
    have := K2 i rfl y hy
    simpa using this
  cases hv : v with
  | none =>
    subst hv
    obtain ⟨G'', bad, new, St, SI', ho⟩ := SysInv.acts (o := dataOps x dataCap innerCap false) hk (locateData_ok hk rfl)
      (dataInnerLaws x dataCap innerCap false hz.inner) (oneLaws hz) (Or.inr (fun l h => h.2)) (I.quiet rfl) hacts
    have hl := SI'.notlost trivial i
    simp only [if_true] at St hl
    exact ⟨⟨K, hK, key, G', hk, by rw [hpart]; exact I'⟩, St.keep, St.just, hmade, St.rest, hl, fun h => absurd rfl h, hfin⟩
  | some w =>
    subst hv
    obtain ⟨dead, us⟩ := w
    obtain ⟨s1, s2, s3, s4, -⟩ := I.quiet_act (i := i) hk rfl (hroot (by simp))
    simp only [hr] at s1 s2 s3 s4
    refine ⟨⟨K, hK, key, G', hk, by rw [hpart]; exact I'⟩, fun y hy => by rw [s1]; exact hy, fun y hy => Or.inl (by rw [s1] at hy; exact hy), hmade,
      ⟨0, by rw [s3, s4]; rfl⟩, s2.1, fun _ => s1, hfin⟩

/-- VACUUM gets the lock on the root. -/
theorem TV.vacuum [TransCmp x.cmpV] (hz : Sizes x dataCap innerCap M) (h : TV x M s th none S E) (dead : Iptr → Bool) (hp : ∀ i, 0 ∉ pins 0 (th i))
    (hd : ∀ i, reads (th i) = true → ∀ y ∈ S i, dead y.iptr = false) :
    TV x M s th (some (dead, vacuumTree (dataVac x.cfg dead) s 0)) S E ∧
    ∀ y ∈ contents (lastStore s (vacuumTree (dataVac x.cfg dead) s 0)) 0, dead y.iptr = false := by
  obtain ⟨K, hK, key, G, hk, I⟩ := h
  obtain ⟨G', I'⟩ := I.fires hz hk (e := .vacuum dead) (z := ⟨⟨s, th⟩, some (dead, vacuumTree (dataVac x.cfg dead) s 0)⟩) ⟨rfl, hp, rfl⟩
    (by
      intro d he i y hy
      cases he
      cases i with
      | zero => simp [part] at hy
      | succ i =>
        simp only [part] at hy
        split at hy
        · next h => exact hd i h y hy
        · simp at hy) (fun _ _ h => by cases h)
  refine ⟨⟨K, hK, key, G', hk, I'⟩, fun y hy => ?_⟩
  obtain ⟨-, hG⟩ := I.rooted rfl hp
  have hI : VacuumTree.InvV True x dataCap innerCap M s 0 := ⟨K, hK, key, G, hk, hG⟩
  rw [(hI.vacuum dead).2.1] at hy
  simpa using (List.mem_filter.1 hy).2

/-- VACUUM writes a record. -/
theorem TV.record [TransCmp x.cmpV] (hz : Sizes x dataCap innerCap M) {dead : Iptr → Bool} {u : Store (Item Datum)} {us : List (Store (Item Datum))}
    (h : TV x M s th (some (dead, u :: us)) S E)
    (hp : ∀ i, ∀ b ∈ pins 0 (th i), (u.page b).deleted = true → (s.page b).deleted = true) :
    TV x M u th (some (dead, us)) S E ∧ (∀ y ∈ contents u 0, y ∈ contents s 0) ∧ ∀ y ∈ contents s 0, dead y.iptr = false → y ∈ contents u 0 := by
  obtain ⟨K, hK, key, G, hk, I⟩ := h
  have hF : Fires x dataCap innerCap M 0 .record ⟨⟨s, th⟩, some (dead, u :: us)⟩ ⟨⟨u, th⟩, some (dead, us)⟩ := ⟨dead, u, us, rfl, hp, rfl⟩
  obtain ⟨G', I'⟩ := I.fires hz hk hF (fun _ h => by cases h) (fun _ _ h => by cases h)
  obtain ⟨K1, -⟩ := I.keeps hz hk hF
  refine ⟨⟨K, hK, key, G', hk, I'⟩, ?_, fun y hy hd => K1 y hy (fun d us' hv => by cases hv; exact hd)⟩
  obtain ⟨b1, b2, b3, G2, b4, b5⟩ := I.busy dead _ rfl
  cases b4 with
  | @cons _ _ _ Gu _ _ V B Ch =>
    intro a ha
    obtain ⟨c, hc, ha⟩ := B.mem.1 ha
    refine I.browse.mem.2 ⟨c, V.sub.subset hc, ?_⟩
    rcases V.items c hc with h | h
    · rw [← h]; exact ha
    · rw [h] at ha; exact (List.mem_filter.1 ha).1

/-- VACUUM leaves the tree. -/
theorem TV.release [TransCmp x.cmpV] (hz : Sizes x dataCap innerCap M) {dead : Iptr → Bool} (h : TV x M s th (some (dead, [])) S E) :
    TV x M s th none S E := by
  obtain ⟨K, hK, key, G, hk, I⟩ := h
  obtain ⟨G', I'⟩ := I.fires hz hk (e := .release) (z := ⟨⟨s, th⟩, none⟩) ⟨dead, rfl, rfl⟩ (fun _ h => by cases h) (fun _ _ h => by cases h)
  exact ⟨K, hK, key, G', hk, I'⟩

theorem TV.inv (hM : M.single = true) (h : TV x M s th none S E) : TInv False x dataCap innerCap M s 0 := by
  obtain ⟨K, hK, key, G, hk, I⟩ := h
  exact TInv.ofV hM ⟨K, hK, key, G, hk, (I.quiet rfl).good⟩

/-- Without VACUUM and unfinished splits the tree is whole. -/
theorem TV.full (hM : M.single = true) (h : TV x M s th none S E) (hth : ∀ i, pending (th i) = none) : TInv True x dataCap innerCap M s 0 := by
  obtain ⟨K, hK, key, G, hk, I⟩ := h
  have SI := I.quiet rfl
  refine TInv.ofV hM ⟨K, hK, key, G, hk, SI.good.weak, fun _ => complete_of_adj SI.good.weak (fun a d had => ?_), SI.good.sized, SI.good.fit⟩
  obtain ⟨i, w, h1, -⟩ := SI.adj trivial a d had
  simp only [hth i] at h1; cases h1

end
end Rum.Index.VC

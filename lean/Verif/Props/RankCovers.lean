import Verif.Props.Rank
import Mathlib.Data.List.Induction
/-!
# C59: what relevance is computed from

For queries without NOT and phrases, over documents whose words have positions: the extents that contribute to the score are exactly the minimal parts of the document
that satisfy the query, each once; those with the same hash count with the inverse squares of their numbers.
-/
namespace Rum.Props.RankCovers
open Rum Rum.Ts Rum.Rank Rum.Pos Rum.FullText Rum.Props.Rank Std

variable {F L : Type}

/-! ### Specification -/

/-- Only AND and OR. -/
def Positive {O : Type} : Query O → Prop
  | .val _ _ => True
  | .and l r | .or l r => Positive l ∧ Positive r
  | .not _ | .phrase _ _ _ => False

/-- The query holds if the operands in `S` are present. -/
def Holds {O : Type} (S : O → Prop) : Query O → Prop
  | .val o _ => S o
  | .not q => ¬ Holds S q
  | .and l r => Holds S l ∧ Holds S r
  | .or l r => Holds S l ∨ Holds S r
  | .phrase _ _ _ => False

/-- The elements of the document from `b` on and before `e` satisfy the query. -/
def Sat (q : Query Nat) (doc : List DocR) (b e : Nat) : Prop :=
  Holds (fun s => ∃ i d, b ≤ i ∧ i < e ∧ doc[i]? = some d ∧ s ∈ d.slots) q

/-- A minimal extent: the elements from `b` to `e` satisfy the query, without the first or without the last they do not. -/
structure Minimal (q : Query Nat) (doc : List DocR) (b e : Nat) : Prop where
  low : b ≤ e
  high : e < doc.length
  sat : Sat q doc b (e + 1)
  first : ¬ Sat q doc (b + 1) (e + 1)
  last : ¬ Sat q doc b e

/-- What the extents with one hash add to the score: the rank of the k-th one divided by k², times a constant. -/
def groupRank (o : Floats F) (rs : List F) : F := (rs.zipIdx 1).foldl (fun s p => o.add s (o.div (o.div (o.div p.1 (o.num p.2)) (o.num p.2)) o.c)) (o.num 0)

/-- The elements of the document from `b` to `e`. -/
def part (doc : List DocR) (x : Nat × Nat) : List DocR := (doc.drop x.1).take (x.2 + 1 - x.1)

/-- The number of operands of the query (of `len`) that occur in an extent. -/
noncomputable def operandsIn (len : Nat) (els : List DocR) : Nat :=
  open Classical in ((List.range len).filter (fun s => decide (∃ d ∈ els, s ∈ d.slots))).length

/-- The number of words between the first and the last element of an extent that are not part of it; if several elements have the same position and the difference is
negative, half the number of the others. -/
def between (els : List DocR) : Nat :=
  let dist := (els.getLast?.map (·.pos)).getD 0 - (els.head?.map (·.pos)).getD 0
  if dist < els.length - 1 then (els.length - 1) / 2 else dist - (els.length - 1)

/-- The rank of an extent: the harmonic mean of the weights, times the number of operands, divided by one plus the number of other words. -/
noncomputable def extentRank (o : Floats F) (len : Nat) (els : List DocR) : F :=
  o.div (o.mul (o.div (o.num els.length) (els.foldl (fun s d => o.add s (o.weight d.wclass)) (o.num 0))) (o.num (operandsIn len els))) (o.num (1 + between els))

/-- The hashes in the order of their first extents. -/
def firstKeys : List Nat → List Nat
  | [] => []
  | k :: ks => k :: (firstKeys ks).filter (· ≠ k)

/-! ### Proof -/

theorem holds_mono {O : Type} {S T : O → Prop} (h : ∀ o, S o → T o) (q : Query O) : Positive q → Holds S q → Holds T q := by
  induction q with
  | val o w => exact fun _ => h o
  | not q _ => exact fun h => h.elim
  | and l r hl hr => exact fun hp ⟨a, b⟩ => ⟨hl hp.1 a, hr hp.2 b⟩
  | or l r hl hr => exact fun hp hh => hh.elim (fun a => Or.inl (hl hp.1 a)) (fun b => Or.inr (hr hp.2 b))
  | phrase _ l r _ _ => exact fun h => h.elim

theorem holds_empty {O : Type} (q : Query O) : Positive q → ¬ Holds (fun _ => False) q := by
  induction q with
  | val o w => exact fun _ h => h
  | not q _ => exact fun h => h.elim
  | and l r hl hr => exact fun hp ⟨a, b⟩ => hl hp.1 a
  | or l r hl hr => exact fun hp hh => hh.elim (hl hp.1) (hr hp.2)
  | phrase _ l r _ _ => exact fun h => h.elim

theorem exec_holds (b : Bool) (x : Data) (q : Query Nat) : Positive q → (coreExec b x q = true ↔ Holds (fun s => (x s).isSome = true) q) := by
  induction q with
  | val o w => exact fun _ => Iff.rfl
  | not q _ => exact fun h => h.elim
  | and l r hl hr => exact fun hp => by simp [coreExec, Holds, hl hp.1, hr hp.2]
  | or l r hl hr => exact fun hp => by simp [coreExec, Holds, hl hp.1, hr hp.2]
  | phrase _ l r _ _ => exact fun h => h.elim

section
variable {q : Query Nat} {doc : List DocR} (hq : Positive q)
include hq

theorem sat_mono {b e b' e' : Nat} (h1 : b' ≤ b) (h2 : e ≤ e') (h : Sat q doc b e) : Sat q doc b' e' :=
  holds_mono (fun _ ⟨i, d, g1, g2, g3⟩ => ⟨i, d, by omega, by omega, g3⟩) q hq h

theorem sat_empty {b e : Nat} (h : e ≤ b) : ¬ Sat q doc b e := fun hs =>
  holds_empty q hq (holds_mono (fun _ ⟨i, d, g1, g2, _⟩ => (by omega : False)) q hq hs)

/-- `operandData` tells what is present in a part of the document. -/
def Knows (doc : List DocR) (b e : Nat) (x : Data) : Prop := ∀ s, (x s).isSome = true ↔ ∃ i d, b ≤ i ∧ i < e ∧ doc[i]? = some d ∧ s ∈ d.slots

theorem exec_sat (f : Bool) {b e : Nat} {x : Data} (h : Knows doc b e x) : coreExec f x q = true ↔ Sat q doc b e := by
  rw [exec_holds f x q hq]
  constructor
  · exact holds_mono (fun s hs => (h s).1 hs) q hq
  · exact holds_mono (fun s hs => (h s).2 hs) q hq

omit hq in
theorem knows_none (doc : List DocR) {b e : Nat} (h : e ≤ b) : Knows doc b e noData := fun s => by
  constructor
  · intro h; cases h
  · rintro ⟨i, d, g1, g2, -⟩; omega

omit hq in
theorem knows_up {b e : Nat} (hb : b ≤ e) {x : Data} {d : DocR} (h : Knows doc b e x) (hd : doc[e]? = some d) : Knows doc b (e + 1) (setBoth d x) := fun s => by
  unfold setBoth
  constructor
  · intro hs
    by_cases hm : s ∈ d.slots
    · exact ⟨e, d, hb, by omega, hd, hm⟩
    · rw [if_neg hm] at hs
      obtain ⟨i, d', g1, g2, g3⟩ := (h s).1 hs
      exact ⟨i, d', g1, by omega, g3⟩
  · rintro ⟨i, d', g1, g2, g3, g4⟩
    by_cases hm : s ∈ d.slots
    · rw [if_pos hm]; rfl
    · rw [if_neg hm]
      refine (h s).2 ⟨i, d', g1, ?_, g3, g4⟩
      by_contra hge
      have : i = e := by omega
      subst this
      rw [hd] at g3
      cases g3
      exact hm g4

omit hq in
theorem isSome_low (idx : Bool) (d : DocR) (x : Data) (s : Nat) : (setLow idx d x s).isSome = (setBoth d x s).isSome := by
  unfold setLow
  cases idx with
  | false => rfl
  | true =>
    simp only [setBoth, if_true]
    split <;> rfl

omit hq in
theorem knows_down (idx : Bool) {b e : Nat} (hb : b < e) {x : Data} {d : DocR} (h : Knows doc (b + 1) e x) (hd : doc[b]? = some d) : Knows doc b e (setLow idx d x) := fun s => by
  rw [isSome_low]
  unfold setBoth
  constructor
  · intro hs
    by_cases hm : s ∈ d.slots
    · exact ⟨b, d, Nat.le_refl b, hb, hd, hm⟩
    · rw [if_neg hm] at hs
      obtain ⟨i, d', g1, g2, g3⟩ := (h s).1 hs
      exact ⟨i, d', by omega, g2, g3⟩
  · rintro ⟨i, d', g1, g2, g3, g4⟩
    by_cases hm : s ∈ d.slots
    · rw [if_pos hm]; rfl
    · rw [if_neg hm]
      refine (h s).2 ⟨i, d', ?_, g2, g3, g4⟩
      by_contra hge
      have : i = b := by omega
      subst this
      rw [hd] at g3
      cases g3
      exact hm g4

/-- The first loop finds the first place up to which the query holds. -/
theorem upper_ok (p : Nat) : ∀ (l : List DocR) (m : Nat) (x : Data), l = doc.drop m → p ≤ m → Knows doc p m x → ¬ Sat q doc p m →
    match upper q x l with
    | none => ∀ e, ¬ Sat q doc p e
    | some j => m + j < doc.length ∧ Sat q doc p (m + j + 1) ∧ ¬ Sat q doc p (m + j) := by
  intro l
  induction l with
  | nil =>
    intro m x hl hp hx hn
    simp only [upper]
    intro e hs
    have hlen : doc.length ≤ m := by
      have := congrArg List.length hl
      simp at this
      omega
    refine hn (holds_mono (fun s => ?_) q hq hs)
    rintro ⟨i, d, g1, g2, g3, g4⟩
    exact ⟨i, d, g1, by have := (List.getElem?_eq_some_iff.1 g3).1; omega, g3, g4⟩
  | cons d l ih =>
    intro m x hl hp hx hn
    have hm : m < doc.length := by
      have := congrArg List.length hl
      simp at this
      omega
    have hd : doc[m]? = some d := by
      have := congrArg (fun l => l[0]?) hl
      simpa [List.getElem?_drop, eq_comm] using this
    have hl' : l = doc.drop (m + 1) := by
      have := congrArg List.tail hl
      simpa [List.tail_drop] using this
    have hk := knows_up hp hx hd
    have hex := exec_sat hq true hk
    simp only [upper]
    by_cases he : coreExec true (setBoth d x) q = true
    · rw [if_pos he]
      exact ⟨hm, hex.1 he, hn⟩
    · rw [if_neg he]
      have := ih (m + 1) _ hl' (by omega) hk (fun h => he (hex.2 h))
      cases hu : upper q (setBoth d x) l with
      | none => rw [hu] at this; exact this
      | some j =>
        rw [hu] at this
        simp only [Option.map_some]
        have e1 : m + (j + 1) = m + 1 + j := by omega
        rw [e1]
        exact this

/-- The second loop finds the last place from which it holds. -/
theorem lower_ok (idx : Bool) (p e : Nat) : ∀ (n : Nat) (x : Data), p + n ≤ e → e ≤ doc.length → Knows doc (p + n) e x → ¬ Sat q doc (p + n) e → Sat q doc p e →
    ∃ i x', lower idx q x ((doc.drop p).take n).reverse = some (i, x') ∧ i < n ∧ Sat q doc (p + n - 1 - i) e ∧ ¬ Sat q doc (p + n - i) e ∧
      Knows doc (p + n - 1 - i) e x' := by
  intro n
  induction n with
  | zero => intro x _ _ _ h1 h2; exact absurd h2 h1
  | succ n ih =>
    intro x hpe hel hk hn hs
    have hlt : p + n < doc.length := by omega
    have hrev : ((doc.drop p).take (n + 1)).reverse = doc[p + n] :: ((doc.drop p).take n).reverse := by
      rw [List.take_succ_eq_append_getElem (by simp; omega), List.reverse_append]
      simp
    rw [hrev]
    have hk' := knows_down idx (b := p + n) (by omega) hk (List.getElem?_eq_getElem hlt)
    have hex := exec_sat hq false hk'
    simp only [lower]
    by_cases he : coreExec false (setLow idx doc[p + n] x) q = true
    · rw [if_pos he]
      refine ⟨0, _, rfl, by omega, ?_, hn, hk'⟩
      exact hex.1 he
    · rw [if_neg he]
      obtain ⟨i, x', h1, h2, h3, h4, h5⟩ := ih _ (by omega) hel hk' (fun h => he (hex.2 h)) hs
      refine ⟨i + 1, x', by rw [h1]; rfl, by omega, ?_, ?_, ?_⟩
      · have : p + (n + 1) - 1 - (i + 1) = p + n - 1 - i := by omega
        rw [this]; exact h3
      · have : p + (n + 1) - (i + 1) = p + n - i := by omega
        rw [this]; exact h4
      · have : p + (n + 1) - 1 - (i + 1) = p + n - 1 - i := by omega
        rw [this]; exact h5

/-- Cover finds the next minimal extent. -/
theorem cover_ok (idx : Bool) (hpos : ∀ d ∈ doc, 0 < d.pos) (hord : doc.Pairwise (fun a b => a.pos ≤ b.pos)) (n p : Nat) :
    match cover idx q doc (n + 1) p with
    | none => ∀ b e, p ≤ b → ¬ Minimal q doc b e
    | some c => p ≤ c.first ∧ Minimal q doc c.first c.last ∧ Knows doc c.first (c.last + 1) c.data ∧ ¬ Sat q doc p c.last := by
  have hu := upper_ok hq p (doc.drop p) p noData rfl (Nat.le_refl p) (knows_none doc (Nat.le_refl p)) (sat_empty hq (Nat.le_refl p))
  simp only [cover]
  cases hup : upper q noData (doc.drop p) with
  | none =>
    rw [hup] at hu
    exact fun b e hb hm => hu (e + 1) (sat_mono hq hb (Nat.le_refl _) hm.sat)
  | some j =>
    rw [hup] at hu
    obtain ⟨h1, h2, h3⟩ := hu
    obtain ⟨i, x, g1, g2, g3, g4, g5⟩ := lower_ok hq idx p (p + j + 1) (j + 1) noData (by omega) (by omega) (knows_none doc (by omega)) (sat_empty hq (by omega)) h2
    have hle : doc[p + j - i].pos ≤ doc[p + j].pos := by
      rcases Nat.eq_or_lt_of_le (Nat.zero_le i) with h | h
      · subst h; exact Nat.le_refl _
      · exact List.pairwise_iff_getElem.1 hord _ _ (by omega) h1 (by omega)
    simp only [List.getElem?_eq_getElem h1, g1, List.getElem?_eq_getElem (show p + j - i < doc.length by omega)]
    rw [if_pos (hpos _ (List.getElem_mem _)), if_pos hle]
    refine ⟨(by show p ≤ p + j - i; omega), ⟨(by show p + j - i ≤ p + j; omega), h1, ?_, ?_, ?_⟩, ?_, h3⟩
    · have : p + (j + 1) - 1 - i = p + j - i := by omega
      rw [← this]; exact g3
    · have : p + (j + 1) - i = p + j - i + 1 := by omega
      rw [← this]; exact g4
    · exact fun h => h3 (sat_mono hq (by show p ≤ p + j - i; omega) (Nat.le_refl _) h)
    · have : p + (j + 1) - 1 - i = p + j - i := by omega
      rw [← this]; exact g5

theorem covers_ok (idx : Bool) (hpos : ∀ d ∈ doc, 0 < d.pos) (hord : doc.Pairwise (fun a b => a.pos ≤ b.pos)) : ∀ (n p : Nat), doc.length + 1 ≤ n + p →
    (∀ c ∈ covers idx q doc n p, p ≤ c.first ∧ Minimal q doc c.first c.last ∧ Knows doc c.first (c.last + 1) c.data) ∧
    (∀ b e, p ≤ b → Minimal q doc b e → ∃ c ∈ covers idx q doc n p, c.first = b ∧ c.last = e) ∧
    (covers idx q doc n p).Pairwise (fun c d => c.first < d.first) := by
  intro n
  induction n with
  | zero =>
    intro p hp
    exact ⟨by simp [covers], fun b e hb hm => by have := hm.low; have := hm.high; omega, by simp [covers]⟩
  | succ n ih =>
    intro p hp
    have hc := cover_ok hq idx hpos hord doc.length p
    simp only [covers]
    cases hcv : cover idx q doc (doc.length + 1) p with
    | none =>
      rw [hcv] at hc
      exact ⟨by simp, fun b e hb hm => absurd hm (hc b e hb), by simp⟩
    | some c =>
      rw [hcv] at hc
      obtain ⟨c1, c2, c4, c3⟩ := hc
      obtain ⟨i1, i2, i3⟩ := ih (c.first + 1) (by omega)
      refine ⟨fun d hd => ?_, fun b e hb hm => ?_, List.pairwise_cons.2 ⟨fun d hd => (i1 d hd).1, i3⟩⟩
      · rcases List.mem_cons.1 hd with rfl | hd
        · exact ⟨c1, c2, c4⟩
        · have := i1 d hd
          exact ⟨by omega, this.2⟩
      · have hce : c.last ≤ e := by
          by_contra hlt
          exact c3 (sat_mono hq hb (by omega) hm.sat)
        have hcb : c.first ≤ b := by
          by_contra hlt
          exact hm.first (sat_mono hq (by omega) (by omega) c2.sat)
        rcases Nat.eq_or_lt_of_le hcb with h | h
        · refine ⟨c, by simp, h, ?_⟩
          by_contra hne
          refine hm.last (sat_mono hq (by omega) (by omega) c2.sat)
        · obtain ⟨d, hd, h'⟩ := i2 b e h hm
          exact ⟨d, by simp [hd], h'⟩
end

/-! ### Groups -/

/-- The contributions with hash `k`, in order. -/
def withKey (k : Nat) (l : List (Nat × F)) : List F := (l.filter (fun p => p.1 = k)).map (·.2)

/-- The groups after the extents `l` (hash, rank). -/
def groupsOf (o : Floats F) (l : List (Nat × F)) : List (CoverGroup F) := l.foldl (fun gs p => addCover o p.1 p.2 gs) []

theorem groupRank_append (o : Floats F) (rs : List F) (r : F) :
    groupRank o (rs ++ [r]) = o.add (groupRank o rs) (o.div (o.div (o.div r (o.num (rs.length + 1))) (o.num (rs.length + 1))) o.c) := by
  simp [groupRank, List.zipIdx_append, List.foldl_append, Nat.add_comm 1]

theorem mem_firstKeys (ks : List Nat) (k : Nat) : k ∈ firstKeys ks ↔ k ∈ ks := by
  induction ks with
  | nil => simp [firstKeys]
  | cons a ks ih =>
    simp only [firstKeys, List.mem_cons, List.mem_filter, ih, decide_not, Bool.not_eq_true', decide_eq_false_iff_not]
    by_cases h : k = a <;> simp [h]

theorem firstKeys_append (ks : List Nat) (k : Nat) : firstKeys (ks ++ [k]) = if k ∈ ks then firstKeys ks else firstKeys ks ++ [k] := by
  induction ks with
  | nil => simp [firstKeys]
  | cons a ks ih =>
    simp only [List.cons_append, firstKeys, ih]
    by_cases h : k = a
    · subst h
      by_cases hk : k ∈ ks <;> simp [hk]
    · by_cases hk : k ∈ ks <;> simp [hk, h]

theorem nodup_firstKeys (ks : List Nat) : (firstKeys ks).Nodup := by
  induction ks with
  | nil => simp [firstKeys]
  | cons a ks ih => exact List.nodup_cons.2 ⟨by simp, ih.filter _⟩

theorem addCover_new (o : Floats F) (k : Nat) (r : F) (gs : List (CoverGroup F)) (h : ∀ g ∈ gs, g.key ≠ k) : addCover o k r gs = gs ++ addCover o k r [] := by
  induction gs with
  | nil => rfl
  | cons g gs ih =>
    simp only [List.forall_mem_cons] at h
    have e := ih h.2
    have e2 : addCover o k r (g :: gs) = g :: addCover o k r gs := by simp only [addCover]; rw [if_neg h.1]
    rw [e2, e]
    rfl

theorem addCover_old (o : Floats F) (k : Nat) (r : F) (f : Nat → CoverGroup F) (hf : ∀ k, (f k).key = k) : ∀ ks : List Nat, ks.Nodup → k ∈ ks →
    addCover o k r (ks.map f) = ks.map (fun j => if j = k then
      ⟨k, (f k).count + 1, o.add (f k).rank (o.div (o.div (o.div r (o.num ((f k).count + 1))) (o.num ((f k).count + 1))) o.c)⟩ else f j) := by
  intro ks
  induction ks with
  | nil => intro _ h; cases h
  | cons a ks ih =>
    intro hn hk
    obtain ⟨h1, h2⟩ := List.nodup_cons.1 hn
    simp only [List.map_cons, addCover, hf]
    by_cases h : a = k
    · subst h
      rw [if_pos rfl, if_pos rfl]
      congr 1
      refine List.map_congr_left (fun j hj => ?_)
      rw [if_neg (fun e : j = a => h1 (e ▸ hj))]
    · rw [if_neg h, if_neg h, ih h2 ((List.mem_cons.1 hk).resolve_left (fun e => h e.symm))]

theorem withKey_append (k : Nat) (l : List (Nat × F)) (p : Nat × F) : withKey k (l ++ [p]) = if p.1 = k then withKey k l ++ [p.2] else withKey k l := by
  unfold withKey
  by_cases h : p.1 = k <;> simp [h, List.filter_append]

/-- One group for each hash, in the order of the first extents; its rank is that of all extents with this hash. -/
theorem C59_groups (o : Floats F) (l : List (Nat × F)) :
    groupsOf o l = (firstKeys (l.map (·.1))).map (fun k => ⟨k, (withKey k l).length, groupRank o (withKey k l)⟩) := by
  induction l using List.reverseRecOn with
  | nil => rfl
  | append_singleton l p ih =>
    have e0 : groupsOf o (l ++ [p]) = addCover o p.1 p.2 (groupsOf o l) := by simp [groupsOf, List.foldl_append]
    rw [e0, ih, List.map_append]
    simp only [List.map_cons, List.map_nil]
    rw [firstKeys_append]
    by_cases hk : p.1 ∈ l.map (·.1)
    · rw [if_pos hk, addCover_old o p.1 p.2 _ (fun _ => rfl) _ (nodup_firstKeys _) ((mem_firstKeys _ _).2 hk)]
      refine List.map_congr_left (fun j hj => ?_)
      rw [withKey_append]
      by_cases h : j = p.1
      · subst h
        rw [if_pos rfl, if_pos rfl, groupRank_append]
        simp
      · rw [if_neg h, if_neg (fun e => h e.symm)]
    · rw [if_neg hk, addCover_new, List.map_append]
      · congr 1
        · refine List.map_congr_left (fun j hj => ?_)
          rw [withKey_append, if_neg (fun e => hk ?_)]
          rw [e]
          exact (mem_firstKeys _ _).1 hj
        · have : withKey p.1 l = [] := by
            unfold withKey
            rw [List.map_eq_nil_iff, List.filter_eq_nil_iff]
            intro x hx h
            exact hk (List.mem_map.2 ⟨x, hx, by simpa using h⟩)
          simp [withKey_append, this, addCover, groupRank]
      · intro g hg
        obtain ⟨j, hj, rfl⟩ := List.mem_map.1 hg
        intro h
        exact hk (h ▸ (mem_firstKeys _ _).1 hj)

/-- The extents found are exactly the minimal ones, each once and from left to right, and it is known which operands are in them. -/
theorem C59_extents {q : Query Nat} (hq : Positive q) {doc : List DocR} (hpos : ∀ d ∈ doc, 0 < d.pos) (hord : doc.Pairwise (fun a b => a.pos ≤ b.pos)) (idx : Bool) :
    (∀ b e, Minimal q doc b e ↔ ∃ c ∈ covers idx q doc (doc.length + 1) 0, c.first = b ∧ c.last = e) ∧
    (covers idx q doc (doc.length + 1) 0).Pairwise (fun c d => c.first < d.first) ∧
    ∀ c ∈ covers idx q doc (doc.length + 1) 0, Knows doc c.first (c.last + 1) c.data := by
  obtain ⟨h1, h2, h3⟩ := covers_ok hq idx hpos hord (doc.length + 1) 0 (by omega)
  exact ⟨fun b e => ⟨h2 b e (Nat.zero_le b), fun ⟨c, hc, hb, he⟩ => hb ▸ he ▸ (h1 c hc).2.1⟩, h3, fun c hc => (h1 c hc).2.2⟩

theorem mem_part (doc : List DocR) (b e : Nat) (d : DocR) : d ∈ part doc (b, e) ↔ ∃ i, b ≤ i ∧ i < e + 1 ∧ doc[i]? = some d := by
  unfold part
  rw [List.mem_iff_getElem?]
  constructor
  · rintro ⟨i, h⟩
    rw [List.getElem?_take] at h
    split at h
    · rw [List.getElem?_drop] at h
      simp only at *
      exact ⟨b + i, by omega, by omega, h⟩
    · cases h
  · rintro ⟨i, h1, h2, h3⟩
    refine ⟨i - b, ?_⟩
    rw [List.getElem?_take, if_pos (by simp only; omega), List.getElem?_drop]
    have : b + (i - b) = i := by omega
    simp only [this, h3]

/-- The rank computed for an extent. -/
theorem rank_ok (o : Floats F) {doc : List DocR} {len : Nat} {c : Cover} (hk : Knows doc c.first (c.last + 1) c.data)
    (hne : ∃ d ∈ part doc (c.first, c.last), ∃ s ∈ d.slots, s < len) : coverRank o len c (c.elems doc) = extentRank o len (part doc (c.first, c.last)) := by
  have hlen : ((List.range len).filter (fun s => (c.data s).isSome)).length = operandsIn len (part doc (c.first, c.last)) := by
    unfold operandsIn
    congr 1
    refine List.filter_congr (fun s _ => ?_)
    rw [Bool.eq_iff_iff, decide_eq_true_eq, hk s]
    constructor
    · rintro ⟨i, d, h1, h2, h3, h4⟩
      exact ⟨d, (mem_part doc _ _ d).2 ⟨i, h1, h2, h3⟩, h4⟩
    · rintro ⟨d, hd, h4⟩
      obtain ⟨i, h1, h2, h3⟩ := (mem_part doc _ _ d).1 hd
      exact ⟨i, d, h1, h2, h3, h4⟩
  have hpos : 0 < operandsIn len (part doc (c.first, c.last)) := by
    obtain ⟨d, hd, s, hs, hl⟩ := hne
    unfold operandsIn
    exact List.length_pos_of_mem (List.mem_filter.2 ⟨List.mem_range.2 hl, by rw [decide_eq_true_eq]; exact ⟨d, hd, hs⟩⟩)
  unfold coverRank extentRank
  simp only [hlen]
  rw [if_pos hpos]
  rfl

/-- The score is the sum over the hashes. -/
theorem C59_score (o : Floats F) (idx : Bool) {q : Query Nat} (hq : Positive q) (len : Nat) {doc : List DocR} (hpos : ∀ d ∈ doc, 0 < d.pos)
    (hord : doc.Pairwise (fun a b => a.pos ≤ b.pos)) (hsl : ∀ d ∈ doc, ∃ s ∈ d.slots, s < len) :
    ∃ ext : List (Nat × Nat), (∀ b e, Minimal q doc b e ↔ (b, e) ∈ ext) ∧ ext.Pairwise (fun x y => x.1 < y.1) ∧
      let parts := ext.map (fun x => (coverKey (part doc x), extentRank o len (part doc x)))
      scoreDocr o idx q len doc = o.f4 ((firstKeys (parts.map (·.1))).foldl (fun s k => o.add s (groupRank o (withKey k parts))) (o.num 0)) := by
  obtain ⟨e1, e2, e3⟩ := C59_extents hq hpos hord idx
  refine ⟨(covers idx q doc (doc.length + 1) 0).map (fun c => (c.first, c.last)), fun b e => ?_, List.pairwise_map.2 e2, ?_⟩
  · rw [e1, List.mem_map]
    simp only [Prod.mk.injEq]
  · have e : (covers idx q doc (doc.length + 1) 0).foldl (fun gs c => addCover o (coverKey (c.elems doc)) (coverRank o len c (c.elems doc)) gs) []
        = groupsOf o (((covers idx q doc (doc.length + 1) 0).map (fun c => (c.first, c.last))).map (fun x => (coverKey (part doc x), extentRank o len (part doc x)))) := by
      unfold groupsOf
      rw [List.map_map, List.foldl_map]
      refine List.foldl_ext _ _ _ (fun gs c hc => ?_)
      have hm := (e1 c.first c.last).2 ⟨c, hc, rfl, rfl⟩
      have hin : doc[c.first]? = some (doc[c.first]'(by have := hm.low; have := hm.high; omega)) := List.getElem?_eq_getElem _
      rw [rank_ok o (e3 c hc) ⟨_, (mem_part doc _ _ _).2 ⟨c.first, Nat.le_refl _, by have := hm.low; omega, hin⟩, hsl _ (List.getElem_mem _)⟩]
      rfl
    simp only [scoreDocr]
    rw [e, C59_groups, List.foldl_map]

/-! ### Documents -/

/-- Operand `o` stands for the word `w`. -/
def For (begins : L → L → Bool) (o : Opnd L) (w : L) : Prop := if o.pre then begins o.lex w = true else w = o.lex

/-- No lexeme is in the query both as a word and as a prefix. -/
def Distinct (q : Query (Opnd L)) : Prop := ∀ o ∈ operands q, ∀ p ∈ operands q, o.lex = p.lex → o = p

theorem positive_numbered {O : Type} (q : Query O) : ∀ n, Positive q → Positive (numbered n q) := by
  induction q with
  | val o w => exact fun _ _ => trivial
  | not q _ => exact fun _ h => h.elim
  | and l r hl hr => exact fun n hp => ⟨hl _ hp.1, hr _ hp.2⟩
  | or l r hl hr => exact fun n hp => ⟨hl _ hp.1, hr _ hp.2⟩
  | phrase _ l r _ _ => exact fun _ h => h.elim

theorem mem_entries [DecidableEq L] (begins : L → L → Bool) (v : TsVector L) (o : Opnd L) (w : L × Option (List Nat)) :
    w ∈ wordEntries begins v o ↔ w ∈ v ∧ For begins o w.1 := by
  unfold wordEntries For
  rw [List.mem_filter]
  cases o.pre <;> simp

section
variable [DecidableEq L] {cmpL : L → L → Ordering} [TransCmp cmpL] [LawfulEqCmp cmpL]

omit [DecidableEq L] [TransCmp cmpL] in
theorem mem_same {all : List (Option (Opnd L))} (hd : ∀ (i j : Nat) (o p : Opnd L), all[i]? = some (some o) → all[j]? = some (some p) → o.lex = p.lex → o = p) {i : Nat} {o : Opnd L}
    (hi : all[i]? = some (some o)) (k : Nat) : k ∈ sameItems cmpL all i o ↔ all[k]? = some (some o) := by
  unfold sameItems
  rw [List.mem_filter, List.mem_range]
  constructor
  · rintro ⟨hk, h⟩
    simp only [decide_eq_true_eq] at h
    rcases h with rfl | h
    · exact hi
    · cases hp : all[k]? with
      | none => rw [hp] at h; simp at h
      | some x =>
        cases x with
        | none => rw [hp] at h; simp at h
        | some p =>
          rw [hp] at h
          simp only [Option.join_some, Option.map_some, Option.getD_some, beq_iff_eq] at h
          rw [hd k i p o hp hi (LawfulEqCmp.eq_of_compare (cmp := cmpL) h)]
  · intro h
    refine ⟨(List.getElem?_eq_some_iff.1 h).1, ?_⟩
    simp only [decide_eq_true_eq, h, Option.join_some, Option.map_some, Option.getD_some, beq_iff_eq]
    exact Or.inr (ReflCmp.compare_self (cmp := cmpL))

omit [TransCmp cmpL] [LawfulEqCmp cmpL] in
theorem loop_sound (begins : L → L → Bool) (addr : Nat → Nat) (v : TsVector L) {all : List (Option (Opnd L))} :
    ∀ (its : List (Option (Opnd L))) (i : Nat) (seen : List Nat) (alloc : Nat), its = all.drop i → ∀ d ∈ docLoop cmpL begins addr v all i seen alloc its,
      ∃ j o, all[j]? = some (some o) ∧ d.slots = sameItems cmpL all j o ∧ ∃ w ∈ v, For begins o w.1 ∧ ∃ x ∈ w.2.getD [0], d.pos = wepPos x ∧ d.wclass = wepWeight x := by
  intro its
  induction its with
  | nil => intro i seen alloc _ d hd; simp [docLoop] at hd
  | cons it its ih =>
    intro i seen alloc hl d hd
    have hi : all[i]? = some it := by
      have := congrArg (fun l => l[0]?) hl
      simpa [List.getElem?_drop, eq_comm] using this
    have hl' : its = all.drop (i + 1) := by
      have := congrArg List.tail hl
      simpa [List.tail_drop] using this
    cases it with
    | none => simp only [docLoop] at hd; exact ih _ _ _ hl' d hd
    | some o =>
      simp only [docLoop] at hd
      split at hd
      · exact ih _ _ _ hl' d hd
      · rcases List.mem_append.1 hd with hd | hd
        · obtain ⟨e, he, hx⟩ := List.mem_flatMap.1 hd
          obtain ⟨x, hx', rfl⟩ := List.mem_map.1 hx
          have he' : e.1 ∈ wordEntries begins v o := List.fst_mem_of_mem_zipIdx he
          obtain ⟨hw, hf⟩ := (mem_entries begins v o _).1 he'
          exact ⟨i, o, hi, rfl, e.1, hw, hf, x, hx', rfl, rfl⟩
        · exact ih _ _ _ hl' d hd

theorem loop_complete (begins : L → L → Bool) (addr : Nat → Nat) (v : TsVector L) {all : List (Option (Opnd L))}
    (hdis : ∀ (i j : Nat) (o p : Opnd L), all[i]? = some (some o) → all[j]? = some (some p) → o.lex = p.lex → o = p) {k : Nat} {o : Opnd L} (hk : all[k]? = some (some o))
    {w : L × Option (List Nat)} (hw : w ∈ v) (hf : For begins o w.1) {x : Nat} (hx : x ∈ w.2.getD [0]) :
    ∀ (its : List (Option (Opnd L))) (i : Nat) (seen : List Nat) (alloc : Nat), its = all.drop i → i ≤ k → k ∉ seen →
      ∃ d ∈ docLoop cmpL begins addr v all i seen alloc its, k ∈ d.slots ∧ d.pos = wepPos x ∧ d.wclass = wepWeight x := by
  intro its
  induction its with
  | nil =>
    intro i seen alloc hl hik _
    have := congrArg List.length hl
    have := (List.getElem?_eq_some_iff.1 hk).1
    simp at *
    omega
  | cons it its ih =>
    intro i seen alloc hl hik hns
    have hi : all[i]? = some it := by
      have := congrArg (fun l => l[0]?) hl
      simpa [List.getElem?_drop, eq_comm] using this
    have hl' : its = all.drop (i + 1) := by
      have := congrArg List.tail hl
      simpa [List.tail_drop] using this
    cases it with
    | none =>
      simp only [docLoop]
      have : i ≠ k := by rintro rfl; rw [hk] at hi; cases hi
      exact ih _ _ _ hl' (by omega) hns
    | some p =>
      simp only [docLoop]
      split
      · rename_i hs
        have : i ≠ k := by rintro rfl; exact hns hs
        exact ih _ _ _ hl' (by omega) hns
      · by_cases hkp : p = o
        · subst hkp
          have he : w ∈ wordEntries begins v p := (mem_entries begins v p w).2 ⟨hw, hf⟩
          obtain ⟨n, hn, hn'⟩ := List.getElem_of_mem he
          refine ⟨⟨sameItems cmpL all i p, addr (alloc + n), wepPos x, wepWeight x⟩, List.mem_append_left _ (List.mem_flatMap.2 ⟨(w, alloc + n), ?_, ?_⟩), ?_, rfl, rfl⟩
          · exact (List.mk_add_mem_zipIdx_iff_getElem? (k := alloc) (i := n)).2 (by rw [List.getElem?_eq_getElem hn, hn'])
          · exact List.mem_map.2 ⟨x, hx, rfl⟩
          · exact (mem_same hdis hi k).2 hk
        · have hne : i ≠ k := by
            rintro rfl
            rw [hk] at hi
            cases hi
            exact hkp rfl
          have hns' : k ∉ (if (wordEntries begins v p).isEmpty = true then seen else sameItems cmpL all i p ++ seen) := by
            split
            · exact hns
            · intro h
              rcases List.mem_append.1 h with h | h
              · rw [mem_same hdis hi k, hk] at h
                cases h
                exact hkp rfl
              · exact hns h
          obtain ⟨d, hd, h⟩ := ih (i + 1) _ (alloc + (wordEntries begins v p).length) hl' (by omega) hns'
          exact ⟨d, List.mem_append_right _ hd, h⟩
end

theorem sort_perm {sort : List DocR → List DocR} (hs : SortsByPos sort) (l : List DocR) : (sort l).Perm l := by
  obtain ⟨perm, h⟩ := hs
  obtain ⟨h1, h2, -⟩ := h l
  rw [h1]
  refine (List.Perm.filterMap (fun i => l[i]?) h2).trans (List.Perm.of_eq ?_)
  clear h h1 h2
  induction l using List.reverseRecOn with
  | nil => rfl
  | append_singleton l a ih =>
    rw [List.length_append, List.length_singleton, List.range_succ, List.filterMap_append]
    congr 1
    · refine Eq.trans (List.filterMap_congr (fun i hi => ?_)) ih
      rw [List.getElem?_append_left (List.mem_range.1 hi)]
    · simp

/-- **C59.** For a query of AND, OR and words or prefixes, and a document all of whose words have positions: the score is computed from a list of elements, sorted by
position, in which an operand of the query occurs at a position with a weight class exactly if the document has a word there that it stands for; the extents are exactly
the minimal parts of this list that satisfy the query, each once and from left to right; the score is the sum over their hashes, in the order of the first extents, of the
ranks of the extents with this hash, the k-th divided by k² and the constant. -/
theorem C59_document [DecidableEq L] (o : Floats F) {cmpL : L → L → Ordering} [TransCmp cmpL] [LawfulEqCmp cmpL] (begins : L → L → Bool) (addr : Nat → Nat)
    {sort : List DocR → List DocR} (hs : SortsByPos sort) {v : TsVector L} (hv : ∀ w ∈ v, ∃ ps, w.2 = some ps ∧ ∀ x ∈ ps, 0 < wepPos x) {q : Query (Opnd L)} (hq : Positive q)
    (hd : Distinct q) :
    ∃ (doc : List DocR) (ext : List (Nat × Nat)),
      doc.Pairwise (fun a b => a.pos ≤ b.pos) ∧
      (∀ k p, (items q)[k]? = some (some p) → ∀ pos wt, (∃ d ∈ doc, k ∈ d.slots ∧ d.pos = pos ∧ d.wclass = wt) ↔
        ∃ w ∈ v, For begins p w.1 ∧ ∃ x ∈ w.2.getD [], wepPos x = pos ∧ wepWeight x = wt) ∧
      (∀ d ∈ doc, ∃ k ∈ d.slots, ∃ p, (items q)[k]? = some (some p)) ∧
      (∀ b e, Minimal (numbered 0 q) doc b e ↔ (b, e) ∈ ext) ∧
      ext.Pairwise (fun x y => x.1 < y.1) ∧
      let parts := ext.map (fun x => (coverKey (part doc x), extentRank o (items q).length (part doc x)))
      (doc = [] → score o cmpL begins addr sort v q = o.num 0) ∧
      (doc ≠ [] → score o cmpL begins addr sort v q = o.f4 ((firstKeys (parts.map (·.1))).foldl (fun s k => o.add s (groupRank o (withKey k parts))) (o.num 0))) := by
  have hmem : ∀ p, p ∈ docrep cmpL begins addr sort v q ↔ p ∈ docLoop cmpL begins addr v (items q) 0 [] 0 (items q) := fun p => (sort_perm hs _).mem_iff
  have hdis : ∀ (i j : Nat) (o p : Opnd L), (items q)[i]? = some (some o) → (items q)[j]? = some (some p) → o.lex = p.lex → o = p :=
    fun i j o p h1 h2 h => hd o (items_mem h1) p (items_mem h2) h
  have hord : (docrep cmpL begins addr sort v q).Pairwise (fun a b => a.pos ≤ b.pos) := by
    obtain ⟨perm, h⟩ := hs
    exact (h _).2.2
  have hget : ∀ w ∈ v, ∀ x, x ∈ w.2.getD [0] ↔ x ∈ w.2.getD [] := by
    intro w hw x
    obtain ⟨ps, h, -⟩ := hv w hw
    rw [h]; rfl
  have hpos : ∀ d ∈ docrep cmpL begins addr sort v q, 0 < d.pos := by
    intro d hdm
    obtain ⟨j, p, h1, h2, w, hw, hf, x, hx, h3, -⟩ := loop_sound begins addr v _ 0 [] 0 rfl d ((hmem d).1 hdm)
    obtain ⟨ps, h, h'⟩ := hv w hw
    rw [h] at hx
    rw [h3]
    exact h' x hx
  have hsl : ∀ d ∈ docrep cmpL begins addr sort v q, ∃ k ∈ d.slots, ∃ p, (items q)[k]? = some (some p) := by
    intro d hdm
    obtain ⟨j, p, h1, h2, -⟩ := loop_sound begins addr v _ 0 [] 0 rfl d ((hmem d).1 hdm)
    exact ⟨j, by rw [h2]; exact (mem_same hdis h1 j).2 h1, p, h1⟩
  obtain ⟨ext, e1, e2, e3⟩ := C59_score o false (positive_numbered q 0 hq) (items q).length hpos hord
    (fun d hdm => by obtain ⟨k, hk, p, hp⟩ := hsl d hdm; exact ⟨k, hk, (List.getElem?_eq_some_iff.1 hp).1⟩)
  refine ⟨docrep cmpL begins addr sort v q, ext, hord, ?_, hsl, e1, e2, ?_⟩
  · intro k p hk pos wt
    constructor
    · rintro ⟨d, hdm, hks, rfl, rfl⟩
      obtain ⟨j, p', h1, h2, w, hw, hf, x, hx, h3, h4⟩ := loop_sound begins addr v _ 0 [] 0 rfl d ((hmem d).1 hdm)
      rw [h2, mem_same hdis h1 k, hk] at hks
      cases hks
      exact ⟨w, hw, hf, x, (hget w hw x).1 hx, h3.symm, h4.symm⟩
    · rintro ⟨w, hw, hf, x, hx, rfl, rfl⟩
      obtain ⟨d, hdm, h⟩ := loop_complete (cmpL := cmpL) begins addr v hdis hk hw hf ((hget w hw x).2 hx) _ 0 [] 0 rfl (Nat.zero_le k) (by simp)
      exact ⟨d, (hmem d).2 hdm, h⟩
  · refine ⟨fun h => ?_, fun h => ?_⟩
    · unfold score; rw [h, if_pos rfl]
    · unfold score; rw [if_neg h]; exact e3

/-- The document `5:1,4 7:3` and the query `5 & 7` meet the hypotheses. -/
example : SortsByPos exPosSort ∧ Positive (.and (word 5) (word 7)) ∧ Distinct (.and (word 5) (word 7)) ∧
    ∀ w ∈ ([(5, some [1, 4]), (7, some [3])] : TsVector Nat), ∃ ps, w.2 = some ps ∧ ∀ x ∈ ps, 0 < wepPos x := by
  refine ⟨exPosSort_sorts, ⟨trivial, trivial⟩, ?_, ?_⟩
  · intro o ho p hp h
    simp [word, operands] at ho hp
    rcases ho with rfl | rfl <;> rcases hp with rfl | rfl <;> simp_all
  · intro w hw
    simp only [List.mem_cons, List.not_mem_nil, or_false] at hw
    rcases hw with rfl | rfl
    · exact ⟨_, rfl, by decide⟩
    · exact ⟨_, rfl, by decide⟩

/-- Its minimal extents are the first two and the last two elements. -/
example : let doc : List DocR := [⟨[2], 0, 1, 0⟩, ⟨[1], 1, 3, 0⟩, ⟨[2], 0, 4, 0⟩]
    (covers false (numbered 0 (.and (word 5) (word 7))) doc (doc.length + 1) 0).map (fun c => (c.first, c.last)) = [(0, 1), (1, 2)] := by decide +kernel

end Rum.Props.RankCovers

import Verif.Debug
import Verif.CollectLemmas
import Verif.Props.Positions
import Verif.Props.IndexVacuum
import Mathlib.Data.Nat.Digits.Defs
/-!
# Properties C69–C72: what the page inspection functions report
-/
namespace Rum.Props.Debug
open Rum Rum.Codec Rum.Leaf Rum.Entry Rum.Tree Rum.Extract Rum.Index Rum.Debug Rum.Props.Index Rum.Props.IndexVacuum Std

variable {V : Type}

/-! ### Word positions -/

/-- How a position is written in a tsvector: the number, and the letter of its weight unless that is D. -/
def label (w : Nat) : List Char :=
  Nat.toDigits 10 (w % 2 ^ 14) ++ (if w / 2 ^ 14 = 3 then ['A'] else if w / 2 ^ 14 = 2 then ['B'] else if w / 2 ^ 14 = 1 then ['C'] else [])

theorem posText_label (w : Nat) (hw : w < 2 ^ 16) : posText w = label w ++ [','] := by
  have h4 : w / 2 ^ 14 < 4 := by omega
  unfold posText label weightLetter decimal
  rw [Pos.wepPos_eq, Pos.wepWeight_eq]
  have : w / 2 ^ 14 = 0 ∨ w / 2 ^ 14 = 1 ∨ w / 2 ^ 14 = 2 ∨ w / 2 ^ 14 = 3 := by omega
  generalize w / 2 ^ 14 = z at this
  rcases this with rfl | rfl | rfl | rfl <;> simp

theorem posText_length (w : Nat) (hw : w < 2 ^ 16) : (posText w).length ≤ 7 := by
  rw [posText_label w hw]
  have h1 : (Nat.toDigits 10 (w % 2 ^ 14)).length ≤ 5 := Nat.toDigits_length 10 _ 5 (by decide) (by omega)
  unfold label
  generalize Nat.toDigits 10 (w % 2 ^ 14) = l at h1
  generalize w / 2 ^ 14 = z
  simp only [List.length_append, List.length_singleton]
  have : (if z = 3 then ['A'] else if z = 2 then ['B'] else if z = 1 then ['C'] else []).length ≤ 1 := by
    split
    · simp
    split
    · simp
    split <;> simp
  omega

theorem posLoop_ok : ∀ (ps : List Nat) (pos : Nat) (bs rest : List Nat) (text : List Char) (size cur : Nat), (∀ p ∈ ps, p < 2 ^ 16) →
    Pos.decompressN ps.length pos bs = some (ps, rest) → cur ≤ size → text.length + 16 < cur →
    posLoop ps.length pos bs text size cur = some (text ++ ps.flatMap posText) := by
  intro ps
  induction ps with
  | nil => intro pos bs rest text size cur _ _ _ _; simp [posLoop]
  | cons p ps ih =>
    intro pos bs rest text size cur hp hd hc hl
    rw [List.length_cons, Pos.decompressN] at hd
    cases h1 : Pos.decompressPos pos bs with
    | none => rw [h1] at hd; simp at hd
    | some q =>
      obtain ⟨w, r⟩ := q
      rw [h1] at hd
      simp only at hd
      cases h2 : Pos.decompressN ps.length w r with
      | none => rw [h2] at hd; simp at hd
      | some q2 =>
        rw [h2] at hd
        simp only [Option.map_some, Option.some.injEq, Prod.mk.injEq, List.cons.injEq] at hd
        obtain ⟨⟨rfl, h3⟩, h4⟩ := hd
        have hq : q2 = (ps, rest) := Prod.ext h3 h4
        rw [hq] at h2
        have hw := posText_length w (hp w (by simp))
        rw [List.length_cons, posLoop, h1]
        simp only
        have hlen : (text ++ posText w).length ≤ text.length + 7 := by rw [List.length_append]; omega
        rw [if_neg (by omega)]
        split
        · next hs =>
          rw [ih w r rest (text ++ posText w) (cur + 1024) (cur + 1024) (fun a ha => hp a (by simp [ha])) h2 (by omega) (by omega)]
          simp
        · next hs =>
          rw [ih w r rest (text ++ posText w) size cur (fun a ha => hp a (by simp [ha])) h2 hc (by omega)]
          simp

theorem flatMap_comma (ps : List Nat) (hp : ∀ p ∈ ps, p < 2 ^ 16) (hn : ps ≠ []) :
    (ps.flatMap posText).dropLast = List.intercalate [','] (ps.map label) := by
  induction ps with
  | nil => simp at hn
  | cons p ps ih =>
    rw [List.flatMap_cons, posText_label p (hp p (by simp))]
    cases ps with
    | nil => simp [List.intercalate]
    | cons q ps =>
      have hne : (q :: ps).flatMap posText ≠ [] := by
        rw [List.flatMap_cons, posText_label q (hp q (by simp))]; simp
      rw [List.dropLast_append_of_ne_nil hne, ih (fun a ha => hp a (by simp [ha])) (by simp)]
      simp [List.intercalate]

/-- **C71.** The additional info of an item of a full-text index is shown as its positions in order, each with the letter of its weight (none
for D), separated by commas; for any number of positions, and the memory for the text is never exceeded. -/
theorem C71_positions_text (ps : List Nat) (h : Pos.PosList ps) :
    positionsText (Pos.compressPos 0 ps) = some (List.intercalate [','] (ps.map label)) := by
  obtain ⟨h1, h2, -⟩ := C27_positions_roundtrip ps [] h
  rw [h1, List.append_nil] at h2
  unfold positionsText
  simp only [h1]
  rw [posLoop_ok ps 0 _ [] [] 1024 1023 h.1 h2 (by omega) (by simp)]
  cases ps with
  | nil => simp [List.intercalate]
  | cons p ps => simpa using flatMap_comma (p :: ps) h.1 (by simp)

/-- Three positions, one with weight A. -/
example : Pos.PosList [3, 5 + 3 * 2 ^ 14, 16383] ∧
    positionsText (Pos.compressPos 0 [3, 5 + 3 * 2 ^ 14, 16383]) = some "3,5A,16383".toList := by
  refine ⟨⟨by decide, by decide⟩, ?_⟩
  rw [C71_positions_text _ ⟨by decide, by decide⟩]
  decide

/-- The memory for the text grows: 300 positions take more than the 1024 bytes first taken. -/
example : Pos.PosList ((List.range 300).map (fun i => i + 1000)) ∧
    1024 < (((List.range 300).map (fun i => i + 1000)).flatMap posText).length := by
  refine ⟨⟨fun p hp => ?_, ?_⟩, by decide +kernel⟩
  · obtain ⟨i, hi, rfl⟩ := List.mem_map.1 hp
    have := List.mem_range.1 hi
    omega
  · rw [List.pairwise_map]
    refine List.Pairwise.imp_of_mem ?_ List.pairwise_lt_range
    intro a b ha hb hab
    have := List.mem_range.1 ha
    have := List.mem_range.1 hb
    rw [Pos.wepPos_eq, Pos.wepPos_eq]
    omega

/-! ### Leaf pages of posting trees -/

theorem dataCalls_items (c : Cfg) (maxoff : Nat) (bound : Item Datum) : ∀ (its : List (Item Datum)) (n : Nat) (d : DataSt) (rest : List Nat),
    1 ≤ d.cntr → d.cntr + its.length = maxoff + 1 → its.length < n →
    readList c d.off (if d.cntr = 1 then ⟨0, 0⟩ else d.iptr) its.length d.rest = some (its, rest) →
    dataCalls c maxoff bound n d = some (its.map (fun i => ⟨false, i⟩)) := by
  intro its
  induction its with
  | nil =>
    intro n d rest h1 h2 h3 _
    obtain ⟨n, rfl⟩ : ∃ m, n = m + 1 := ⟨n - 1, by simp at h3; omega⟩
    simp only [List.length_nil] at h2
    rw [dataCalls, dataCall, if_neg (by omega)]
    rfl
  | cons it its ih =>
    intro n d rest h1 h2 h3 h4
    obtain ⟨n, rfl⟩ : ∃ m, n = m + 1 := ⟨n - 1, by omega⟩
    rw [List.length_cons] at h2 h3
    rw [List.length_cons, readList] at h4
    rw [dataCalls, dataCall, if_pos (by omega), if_neg (by omega)]
    simp only
    cases h5 : readItem c d.off (if d.cntr = 1 then ⟨0, 0⟩ else d.iptr) d.rest with
    | none => rw [h5] at h4; simp at h4
    | some q =>
      obtain ⟨i, bs⟩ := q
      rw [h5] at h4
      simp only at h4
      cases h6 : readList c (d.off + (d.rest.length - bs.length)) i.iptr its.length bs with
      | none => rw [h6] at h4; simp at h4
      | some q =>
        rw [h6] at h4
        simp only [Option.some.injEq, Prod.mk.injEq, List.cons.injEq] at h4
        obtain ⟨⟨rfl, h7⟩, h8⟩ := h4
        have hq : q = (its, rest) := Prod.ext h7 h8
        rw [hq] at h6
        simp only
        rw [ih n ⟨d.cntr + 1, bs, d.off + (d.rest.length - bs.length), i.iptr⟩ rest (by simp) (by simp; omega) (by omega)
          (by simp only; rw [if_neg (by omega)]; exact h6)]
        rfl

/-- The listing of a leaf page: the high key, then its items in order. -/
theorem dataPage_ok {x : Ctx} {M : Lim} {cap : Nat} {p : Tree.Page (Item Datum)} (hl : p.leaf = true) (hd : p.deleted = false) (hf : FitsPage x M cap p.items)
    (hs : SSorted x.cmp p.items) {n : Nat} (hn : p.items.length + 1 < n) :
    dataPage x p n = some (⟨true, p.bound⟩ :: p.items.map (fun i => ⟨false, i⟩)) := by
  obtain ⟨q, q1, -⟩ := hf.holds hs
  obtain ⟨h1, h2, -, -⟩ := q1.facts
  have h3 := readList_placeList x.cfg p.items 0 ⟨0, 0⟩ q.data [] q1.ok (by constructor <;> simp) h1
  rw [List.append_nil] at h3
  have h4 : p.items.map (Item.stored x.cfg) = p.items := by
    conv_rhs => rw [← List.map_id p.items]
    exact List.map_congr_left (fun i hi => q1.stored i hi)
  rw [h4] at h3
  unfold dataPage
  rw [hl, hd]
  simp only [q1.built]
  obtain ⟨m, rfl⟩ : ∃ m, n = m + 1 := ⟨n - 1, by omega⟩
  simp only [Bool.not_false, Bool.and_self, if_true]
  rw [dataCalls, dataCall, if_pos (by simp), if_pos rfl]
  simp only
  rw [dataCalls_items x.cfg q.maxoff p.bound p.items m ⟨1, q.data, 0, p.bound.iptr⟩ [] (by simp) (by simp [h2]; omega) (by omega)
    (by simpa using h3)]
  rfl

/-! ### Searching a posting tree for a page -/

section
variable {K : Type} [LinearOrder K] {key : Item Datum → K} {strict : Bool} {s : Store (Item Datum)} {root : Nat} {G : Ghost}

theorem first_down (W : Weak key strict s root G) {k b : Nat} (hk : k < G.h) (hb : b ∈ G.lv (k + 1)) : ∃ d, (s.page b).downs.head? = some d := by
  have hI := (W.inner k hk b hb).2.downs
  have hn := W.ne k hk b hb
  cases h : (s.page b).downs with
  | nil => rw [h] at hI; cases hI' : G.kids b with
    | nil => exact (hn hI').elim
    | cons g gs => rw [hI'] at hI; cases hI
  | cons d ds => exact ⟨d, rfl⟩

/-- The search on one level: it finds the target if a page from here on has a downlink to it. -/
theorem findPage_here (W : Weak key strict s root G) {k target : Nat} (hk : k < G.h) : ∀ (n : Nat) (A B : List Nat) (b : Nat), G.lv (k + 1) = A ++ b :: B →
    B.length < n → (∃ c ∈ b :: B, target ∈ (s.page c).downs.map Prod.snd) → findPage s target n b = some true := by
  intro n
  induction n with
  | zero => intro A B b _ hn; omega
  | succ n ih =>
    intro A B b e hn hc
    have hb : b ∈ G.lv (k + 1) := by rw [e]; simp
    obtain ⟨d, hd⟩ := first_down W hk hb
    have hr := (Linked.right (e ▸ W.linked (k + 1) (by omega))).1
    rw [findPage, (W.inner k hk b hb).1]
    simp only [Bool.false_eq_true, if_false, hd]
    split
    · rfl
    · next hno =>
      cases B with
      | nil =>
        obtain ⟨c, h1, h2⟩ := hc
        rw [List.mem_singleton] at h1
        subst h1
        exact (hno h2).elim
      | cons b' B =>
        simp at hr
        rw [hr]
        simp only
        refine ih (A ++ [b]) B b' (by simp [e]) (by simp at hn; omega) ?_
        obtain ⟨c, h1, h2⟩ := hc
        rcases List.mem_cons.1 h1 with rfl | h1
        · exact (hno h2).elim
        · exact ⟨c, h1, h2⟩

/-- Otherwise it goes on at the first child of the last page of the level. -/
theorem findPage_next (W : Weak key strict s root G) {k target : Nat} (hk : k < G.h) : ∀ (n : Nat) (B A : List Nat) (b : Nat), G.lv (k + 1) = A ++ b :: B →
    (∀ c ∈ b :: B, target ∉ (s.page c).downs.map Prod.snd) → ∃ l d, (b :: B).getLast? = some l ∧ (s.page l).downs.head? = some d ∧
      findPage s target (n + (B.length + 1)) b = findPage s target n d.2 := by
  intro n B
  induction B with
  | nil =>
    intro A b e hno
    have hb : b ∈ G.lv (k + 1) := by rw [e]; simp
    obtain ⟨d, hd⟩ := first_down W hk hb
    have hr := (Linked.right (e ▸ W.linked (k + 1) (by omega))).1
    simp at hr
    refine ⟨b, d, rfl, hd, ?_⟩
    rw [List.length_nil, Nat.zero_add, findPage, (W.inner k hk b hb).1]
    simp only [Bool.false_eq_true, if_false, hd, hr]
    rw [if_neg (hno b (by simp))]
  | cons b' B ih =>
    intro A b e hno
    have hb : b ∈ G.lv (k + 1) := by rw [e]; simp
    obtain ⟨d0, hd0⟩ := first_down W hk hb
    have hr := (Linked.right (e ▸ W.linked (k + 1) (by omega))).1
    simp at hr
    obtain ⟨l, d, h1, h2, h3⟩ := ih (A ++ [b]) b' (by simp [e]) (fun c hc => hno c (List.mem_cons_of_mem _ hc))
    refine ⟨l, d, by rw [List.getLast?_cons_cons]; exact h1, h2, ?_⟩
    rw [List.length_cons, show n + (B.length + 1 + 1) = n + (B.length + 1) + 1 from rfl, findPage, (W.inner k hk b hb).1]
    simp only [Bool.false_eq_true, if_false, hd0, hr]
    rw [if_neg (hno b (by simp)), h3]

/-- A downlink leads to the level below. -/
theorem down_level (W : Weak key strict s root G) {k b c : Nat} (hk : k < G.h) (hb : b ∈ G.lv (k + 1)) (hc : c ∈ (s.page b).downs.map Prod.snd) : c ∈ G.lv k := by
  obtain ⟨d, hd, rfl⟩ := List.mem_map.1 hc
  obtain ⟨g, hg, h1, -⟩ := forall₂_left (W.inner k hk b hb).2.downs d hd
  exact kids_mem W.toThin hk hb (List.mem_flatten.2 ⟨g, hg, List.mem_of_mem_head? h1⟩)

/-- The page with the downlink. -/
theorem parent_of (W : Weak key strict s root G) (hC : Complete G) {k c : Nat} (hk : k < G.h) (hc : c ∈ G.lv k) :
    ∃ b ∈ G.lv (k + 1), c ∈ (s.page b).downs.map Prod.snd := by
  rw [W.cover k hk] at hc
  obtain ⟨b, hb, hc⟩ := List.mem_flatMap.1 hc
  obtain ⟨g, hg, hc⟩ := List.mem_flatten.1 hc
  obtain ⟨c', rfl⟩ := hC k hk b hb g hg
  rw [List.mem_singleton] at hc
  subst hc
  obtain ⟨d, hd, h1, -⟩ := forall₂_right (W.inner k hk b hb).2.downs _ hg
  simp at h1
  exact ⟨b, hb, List.mem_map.2 ⟨d, hd, h1.symm⟩⟩

/-- A page without downlink is not found; the search ends. -/
theorem findPage_end (W : Weak key strict s root G) {target : Nat} (ht : s.next ≤ target) : ∀ (k : Nat) (A B : List Nat) (b : Nat), k ≤ G.h → G.lv k = A ++ b :: B →
    ∃ N, ∀ n, N ≤ n → findPage s target n b = some false := by
  intro k
  induction k with
  | zero =>
    intro A B b _ e
    refine ⟨1, fun n hn => ?_⟩
    obtain ⟨m, rfl⟩ : ∃ m, n = m + 1 := ⟨n - 1, by omega⟩
    rw [findPage, W.leaf b (by rw [e]; simp)]
    rfl
  | succ k ih =>
    intro A B b hk e
    have hno : ∀ c ∈ b :: B, target ∉ (s.page c).downs.map Prod.snd := by
      intro c hc hm
      have := (W.alloc k (by omega) target (down_level W (by omega) (b := c) (by rw [e]; exact List.mem_append_right _ hc) hm)).1
      omega
    obtain ⟨l, d, h1, h2, -⟩ := findPage_next W (by omega) 0 B A b e hno
    have hl : l ∈ G.lv (k + 1) := by rw [e]; exact List.mem_append_right _ (List.mem_of_getLast? h1)
    have hd : d.2 ∈ G.lv k := down_level W (by omega) hl (List.mem_map.2 ⟨d, List.mem_of_mem_head? h2, rfl⟩)
    obtain ⟨A', B', e'⟩ := List.append_of_mem hd
    obtain ⟨N, hN⟩ := ih A' B' d.2 (by omega) e'
    refine ⟨N + (B.length + 1), fun n hn => ?_⟩
    obtain ⟨m, rfl⟩ : ∃ m, n = m + (B.length + 1) := ⟨n - (B.length + 1), by omega⟩
    obtain ⟨l', d', h1', h2', h3'⟩ := findPage_next W (by omega) m B A b e hno
    rw [h1] at h1'
    cases h1'
    rw [h2] at h2'
    cases h2'
    rw [h3', hN m (by omega)]

/-- In a tree of up to three levels every page but the root is found. -/
theorem findPage_three (W : Weak key strict s root G) (hC : Complete G) (hh : G.h ≤ 2) {j target : Nat} (hj : j < G.h) (ht : target ∈ G.lv j) :
    ∃ N, ∀ n, N ≤ n → findPage s target n root = some true := by
  obtain ⟨P, hP, hd⟩ := parent_of W hC hj ht
  obtain ⟨q, hq⟩ : ∃ q, G.h = q + 1 := ⟨G.h - 1, by omega⟩
  have hroot : G.lv (q + 1) = [] ++ root :: [] := by rw [← hq]; exact W.root
  by_cases hjq : j + 1 = G.h
  · refine ⟨1, fun n hn => findPage_here W (k := q) (by omega) n [] [] root hroot (by simp; omega) ⟨root, by simp, ?_⟩⟩
    rw [hjq, W.root, List.mem_singleton] at hP
    rw [← hP]; exact hd
  · have hj0 : j = 0 := by omega
    have hq1 : q = 1 := by omega
    subst hj0
    subst hq1
    obtain ⟨d, B', h1, h2⟩ := head_down W (k := 1) (by omega) (b := root) (B := []) (by simpa using hroot)
    refine ⟨s.next + 2, fun n hn => ?_⟩
    by_cases hin : target ∈ (s.page root).downs.map Prod.snd
    · exact findPage_here W (k := 1) (by omega) n [] [] root hroot (by simp; omega) ⟨root, by simp, hin⟩
    · obtain ⟨m, rfl⟩ : ∃ m, n = m + 1 := ⟨n - 1, by omega⟩
      obtain ⟨l, d', g1, g2, g3⟩ := findPage_next W (k := 1) (target := target) (by omega) m [] [] root hroot (by simpa using hin)
      simp at g1
      subst g1
      rw [h1] at g2
      cases g2
      simp only [List.length_nil, Nat.zero_add] at g3
      rw [g3]
      have hlen := level_length W.toThin (k := 1) (by omega)
      rw [h2, List.length_cons] at hlen
      refine findPage_here W (k := 0) (by omega) m [] B' d.2 (by simpa using h2) (by omega) ⟨P, ?_, hd⟩
      rw [← h2]; exact hP

/-- What hangs off a page that is not the first of its level is not the first of the level below. -/
theorem not_first (W : Weak key strict s root G) {k b P x y : Nat} {B C : List Nat} (hk : k < G.h) (e : G.lv (k + 1) = b :: B) (hP : P ∈ B)
    (hx : x ∈ (s.page P).downs.map Prod.snd) (ey : G.lv k = y :: C) : x ≠ y := by
  obtain ⟨d, hd, rfl⟩ := List.mem_map.1 hx
  have hPm : P ∈ G.lv (k + 1) := by rw [e]; exact List.mem_cons_of_mem _ hP
  obtain ⟨g, hg, h1, -⟩ := forall₂_left (W.inner k hk P hPm).2.downs d hd
  have hxP : d.2 ∈ (G.kids P).flatten := List.mem_flatten.2 ⟨g, hg, List.mem_of_mem_head? h1⟩
  have hnd := W.nodup k (by omega)
  have hb : b ∈ G.lv (k + 1) := by rw [e]; simp
  obtain ⟨d0, hd0⟩ := first_down W hk hb
  obtain ⟨g0, hg0, h10, -⟩ := forall₂_left (W.inner k hk b hb).2.downs d0 (List.mem_of_mem_head? hd0)
  obtain ⟨d', B', h2, h3⟩ := head_down W hk e
  rw [hd0] at h2
  cases h2
  rw [ey] at h3
  simp only [List.cons.injEq] at h3
  have hy : y ∈ (G.kids b).flatten := by rw [h3.1]; exact List.mem_flatten.2 ⟨g0, hg0, List.mem_of_mem_head? h10⟩
  rw [W.cover k hk, e, List.flatMap_cons, List.nodup_append] at hnd
  intro hxy
  exact hnd.2.2 y hy d.2 (List.mem_flatMap.2 ⟨P, hP, hxP⟩) hxy.symm

/-- With four levels, the leftmost leaf is not found: the search goes on to the lower of the two middle levels under its last page. -/
theorem findPage_four (W : Weak key strict s root G) (hh : G.h = 3) (h2 : 2 ≤ (s.page root).downs.length) {target : Nat} {C : List Nat} (ht : G.lv 0 = target :: C) :
    ∃ N, ∀ n, N ≤ n → findPage s target n root = some false := by
  have hroot : G.lv (2 + 1) = [] ++ root :: [] := by have := W.root; rw [hh] at this; exact this
  have ht0 : target ∈ G.lv 0 := by rw [ht]; simp
  have hno : ∀ j, 0 < j → j < 3 → ∀ c ∈ G.lv (j + 1), target ∉ (s.page c).downs.map Prod.snd := by
    intro j hj hj3 c hc hm
    have := W.uniq j 0 target (by omega) (by omega) (down_level W (by omega) hc hm) ht0
    omega
  obtain ⟨d3, B2, a1, a2⟩ := head_down W (k := 2) (by omega) (b := root) (B := []) (by simpa using hroot)
  have hB2 : B2 ≠ [] := by
    intro hB
    rw [hB] at a2
    match hds : (s.page root).downs, h2 with
    | e1 :: e2 :: ds, _ =>
      have hI := (W.inner 2 (by omega) root (by rw [hroot]; simp)).2.downs
      rw [hds] at hI
      obtain ⟨g1, gs1, r1, r2, r3⟩ := List.forall₂_cons_left_iff.1 hI
      obtain ⟨g2, gs2, r4, r5, r6⟩ := List.forall₂_cons_left_iff.1 r2
      have hl : 2 ≤ (G.lv 2).length := by
        rw [W.cover 2 (by omega), hroot]
        simp only [List.nil_append, List.flatMap_cons, List.flatMap_nil, List.append_nil]
        rw [r3, r6, List.flatten_cons, List.flatten_cons]
        obtain ⟨t1, ht1⟩ := List.head?_eq_some_iff.1 r1.1
        obtain ⟨t2, ht2⟩ := List.head?_eq_some_iff.1 r4.1
        rw [ht1, ht2]
        simp only [List.length_append, List.length_cons]
        omega
      rw [a2] at hl
      simp at hl
  obtain ⟨l2, d2, b1, b2, -⟩ := findPage_next W (k := 1) (target := target) (by omega) 0 B2 [] d3.2 (by simpa using a2)
    (by rw [← a2]; exact hno 1 (by omega) (by omega))
  have hl2 : l2 ∈ B2 := by
    obtain ⟨y, B3, rfl⟩ := List.exists_cons_of_ne_nil hB2
    rw [List.getLast?_cons_cons] at b1
    exact List.mem_of_getLast? b1
  have hd2 : d2.2 ∈ G.lv 1 := down_level W (by omega) (b := l2) (by rw [a2]; exact List.mem_cons_of_mem _ hl2)
    (List.mem_map.2 ⟨d2, List.mem_of_mem_head? b2, rfl⟩)
  obtain ⟨A1, B1, e1⟩ := List.append_of_mem hd2
  obtain ⟨y, C1, ey⟩ : ∃ y C1, G.lv 1 = y :: C1 := by
    cases h : G.lv 1 with
    | nil => rw [h] at hd2; cases hd2
    | cons y C1 => exact ⟨y, C1, rfl⟩
  have hne := not_first W (k := 1) (by omega) a2 hl2 (List.mem_map.2 ⟨d2, List.mem_of_mem_head? b2, rfl⟩) ey
  have hA1 : ∃ A', A1 = y :: A' := by
    cases A1 with
    | nil => rw [ey] at e1; simp only [List.nil_append, List.cons.injEq] at e1; exact (hne e1.1.symm).elim
    | cons z A' => rw [ey] at e1; simp only [List.cons_append, List.cons.injEq] at e1; exact ⟨A', by rw [e1.1]⟩
  obtain ⟨A', rfl⟩ := hA1
  have hno1 : ∀ c ∈ d2.2 :: B1, target ∉ (s.page c).downs.map Prod.snd := by
    intro c hc hm
    refine not_first W (k := 0) (by omega) ey (P := c) ?_ hm ht rfl
    rw [ey] at e1
    simp only [List.cons_append, List.cons.injEq, true_and] at e1
    rw [e1]
    exact List.mem_append_right _ hc
  obtain ⟨l1, d1, c1, c2, -⟩ := findPage_next W (k := 0) (target := target) (by omega) 0 B1 (y :: A') d2.2 e1 hno1
  have hl1 : l1 ∈ G.lv 1 := by rw [e1]; exact List.mem_append_right _ (List.mem_of_getLast? c1)
  have hd1 : d1.2 ∈ G.lv 0 := down_level W (by omega) hl1 (List.mem_map.2 ⟨d1, List.mem_of_mem_head? c2, rfl⟩)
  refine ⟨1 + (B1.length + 1) + (B2.length + 1) + 1, fun n hn => ?_⟩
  obtain ⟨m, rfl⟩ : ∃ m, n = (m + 1) + (B1.length + 1) + (B2.length + 1) + 1 := ⟨n - (1 + (B1.length + 1) + (B2.length + 1) + 1), by omega⟩
  obtain ⟨l3, d3', g1, g2, g3⟩ := findPage_next W (k := 2) (target := target) (by omega) ((m + 1) + (B1.length + 1) + (B2.length + 1)) [] [] root hroot
    (by
      intro c hc
      rw [List.mem_singleton] at hc
      subst hc
      exact hno 2 (by omega) (by omega) c (by rw [hroot]; simp))
  simp at g1
  subst g1
  rw [a1] at g2
  cases g2
  simp only [List.length_nil, Nat.zero_add] at g3
  rw [g3]
  obtain ⟨l2', d2', b1', b2', b3'⟩ := findPage_next W (k := 1) (target := target) (by omega) ((m + 1) + (B1.length + 1)) B2 [] d3.2 (by simpa using a2)
    (by rw [← a2]; exact hno 1 (by omega) (by omega))
  rw [b1] at b1'
  cases b1'
  rw [b2] at b2'
  cases b2'
  rw [b3']
  obtain ⟨l1', d1', c1', c2', c3'⟩ := findPage_next W (k := 0) (target := target) (by omega) (m + 1) B1 (y :: A') d2.2 e1 hno1
  rw [c1] at c1'
  cases c1'
  rw [c2] at c2'
  cases c2'
  rw [c3', findPage, W.leaf _ hd1]
  rfl

/-- Number of levels of a tree, along the first downlinks. -/
def levels {α : Type} (s : Store α) : Nat → Nat → Nat
  | 0, _ => 0
  | n + 1, b => if (s.page b).leaf then 1 else match (s.page b).downs.head? with
    | some d => levels s n d.2 + 1
    | none => 1

theorem levels_eq (W : Weak key strict s root G) : ∀ (k n b : Nat) (B : List Nat), k ≤ G.h → G.lv k = b :: B → k < n → levels s n b = k + 1 := by
  intro k
  induction k with
  | zero =>
    intro n b B _ e hn
    obtain ⟨m, rfl⟩ : ∃ m, n = m + 1 := ⟨n - 1, by omega⟩
    rw [levels, W.leaf b (by rw [e]; simp)]
    rfl
  | succ k ih =>
    intro n b B hk e hn
    obtain ⟨m, rfl⟩ : ∃ m, n = m + 1 := ⟨n - 1, by omega⟩
    obtain ⟨d, B', h1, h2⟩ := head_down W (k := k) (by omega) e
    rw [levels, (W.inner k (by omega) b (by rw [e]; simp)).1]
    simp only [Bool.false_eq_true, if_false, h1]
    rw [ih m d.2 B' (by omega) h2 (by omega)]

end

/-- The column found for a page of a posting tree of up to three levels. -/
theorem attnumIn_ok {ix : Ix V} {M : Lim} {st : State V} {t b : Nat} {e : Ent V} (hp : e.post = .tree t)
    (hfind : b ≠ 0 → ∃ N, ∀ n, N ≤ n → findPage (st.trees t) b n 0 = some true) : ∀ (l : List (Ent V)),
    (∀ e' ∈ l, EntOK True ix M st e') → (∀ e' ∈ l, e'.post = .tree t → e' = e) → e ∈ l → ∃ N, ∀ n, N ≤ n → attnumIn st t b n l = some e.key.attnum := by
  intro l
  induction l with
  | nil => intro _ _ h; cases h
  | cons e' l ih =>
    intro hok hinj hmem
    by_cases he : e' = e
    · subst he
      by_cases hb : b = 0
      · exact ⟨0, fun n _ => by simp [attnumIn, hp, hb]⟩
      · obtain ⟨N, hN⟩ := hfind hb
        exact ⟨N, fun n hn => by simp [attnumIn, hp, hb, hN n hn]⟩
    · obtain ⟨N, hN⟩ := ih (fun a ha => hok a (by simp [ha])) (fun a ha => hinj a (by simp [ha]))
        (by rcases List.mem_cons.1 hmem with h | h; exact (he h.symm).elim; exact h)
      cases hp' : e'.post with
      | list data m => exact ⟨N, fun n hn => by simp only [attnumIn, hp']; exact hN n hn⟩
      | tree t' =>
        have htt : t' ≠ t := fun h => he (hinj e' (by simp) (by rw [hp', h]))
        obtain ⟨K, hK, key, G, hk, hG, -⟩ := ((hok e' (by simp)).tree t' hp').2
        obtain ⟨N', hN'⟩ := findPage_end hG.weak (target := (st.trees t').next) (_root_.le_refl _) G.h [] [] 0 (_root_.le_refl _) (by simpa using hG.weak.root)
        refine ⟨max N N', fun n hn => ?_⟩
        simp only [attnumIn, hp', if_neg htt]
        rw [if_neg (fun h => htt h.1), hN' n (by omega)]
        exact hN n (by omega)

/-- The blocks of a level, from this page on to the right. -/
def blocks {α : Type} (s : Store α) : Nat → Nat → List Nat
  | 0, _ => []
  | n + 1, b => b :: match (s.page b).right with
    | some r => blocks s n r
    | none => []

/-- All listings, if none is missing. -/
def allOf {α β : Type} (f : α → Option β) : List α → Option (List β)
  | [] => some []
  | a :: l => match f a, allOf f l with
    | some x, some xs => some (x :: xs)
    | _, _ => none

/-- The listings of all leaf pages of a posting tree, from the leftmost on along the right links. -/
def dumpTree (ix : Ix V) (st : State V) (t n : Nat) : Option (List (List DataRow)) :=
  match leftmost (st.trees t) (st.trees t).next 0 with
  | some l => allOf (fun b => leafDataInfo ix st t b n) (blocks (st.trees t) (st.trees t).next l)
  | none => none

/-- The items listed, without the high keys. -/
def listed (pages : List (List DataRow)) : List (Item Datum) := (pages.flatten.filter (fun r => !r.high)).map (·.item)

/-- A listing is a high key followed by items in order, none of them beyond the high key unless it is the last page. -/
def Listing (x : Ctx) (last : Bool) (p : List DataRow) : Prop :=
  ∃ b its, p = ⟨true, b⟩ :: its.map (fun i => ⟨false, i⟩) ∧ SSorted x.cmp its ∧ (last = false → ∀ i ∈ its, x.cmp i b ≠ .gt)

theorem blocks_spec {α K : Type} [LinearOrder K] {key : α → K} {strict : Bool} {s : Store α} {root : Nat} {G : Ghost} (W : Weak key strict s root G) (n : Nat)
    (A B : List Nat) (b : Nat) (e : G.lv 0 = A ++ b :: B) (hn : B.length < n) : blocks s n b = b :: B := by
  induction n generalizing A b B with
  | zero => omega
  | succ n ih =>
    have hr := (Linked.right (e ▸ W.linked 0 (Nat.zero_le _))).1
    rw [blocks]
    cases B with
    | nil => simp at hr; rw [hr]
    | cons c B =>
      simp at hr
      rw [hr]
      simp only
      rw [ih (A ++ [b]) B c (by simp [e]) (by simp at hn; omega)]

theorem allOf_ok {α β : Type} {f : α → Option β} {g : α → β} : ∀ (l : List α), (∀ a ∈ l, f a = some (g a)) → allOf f l = some (l.map g) := by
  intro l
  induction l with
  | nil => intro _; rfl
  | cons a l ih =>
    intro h
    rw [allOf, h a (by simp), ih (fun b hb => h b (by simp [hb]))]
    rfl

theorem common {α : Type} {P : α → Nat → Prop} : ∀ (l : List α), (∀ a ∈ l, ∃ N, ∀ n, N ≤ n → P a n) → ∃ N, ∀ n, N ≤ n → ∀ a ∈ l, P a n := by
  intro l
  induction l with
  | nil => intro _; exact ⟨0, fun n _ a ha => by cases ha⟩
  | cons a l ih =>
    intro h
    obtain ⟨N, hN⟩ := h a (by simp)
    obtain ⟨N', hN'⟩ := ih (fun b hb => h b (by simp [hb]))
    refine ⟨max N N', fun n hn b hb => ?_⟩
    rcases List.mem_cons.1 hb with rfl | hb
    · exact hN n (by omega)
    · exact hN' n (by omega) b hb

/-- The tuples of the entry tree in the order of its leaf pages. -/
theorem entry_walk {C : Prop} {ix : Ix V} [Inhabited V] {st : State V} (H : EInv C ix st.entry) :
    ∃ l, leftmost st.entry st.entry.next rootBlk = some l ∧ (chain st.entry st.entry.next l).flatMap (·.items) = contents st.entry rootBlk := by
  obtain ⟨K, hK, key, G, hk, hG, -⟩ := H
  have W := hG.weak
  obtain ⟨b, B, h1, h2⟩ := leftmost_spec W G.h st.entry.next (_root_.le_refl _) (height_lt W) rootBlk [] W.root
  have hlen := level_length W.toThin (Nat.zero_le _)
  rw [h2, List.length_cons] at hlen
  refine ⟨b, h1, ?_⟩
  rw [chain_spec W st.entry.next [] B b (by simpa using h2) (by omega), contents_eq W, leafs, h2, List.flatMap_map, List.flatMap_map]

theorem filter_rows (b : Item Datum) (its : List (Item Datum)) :
    (((⟨true, b⟩ : DataRow) :: its.map (fun i => ⟨false, i⟩)).filter (fun r => !r.high)).map (·.item) = its := by
  rw [List.filter_cons_of_neg (by simp), List.filter_map, List.map_map]
  simp [Function.comp_def]

/-- The listings of the leaf pages of a posting tree. -/
theorem dump_ok {ix : Ix V} [Inhabited V] {M : Lim} {st : State V} (H : IInv True ix M st) {e : Ent V} (he : e ∈ contents st.entry rootBlk) {t : Nat}
    (hp : e.post = .tree t) (h3 : levels (st.trees t) (st.trees t).next 0 ≤ 3) :
    ∃ N, ∀ n, N ≤ n → ∃ pages, dumpTree ix st t n = some pages ∧ listed pages = contents (st.trees t) 0 ∧
      ∀ A p B, pages = A ++ p :: B → Listing (ix.ctx e.key.attnum) B.isEmpty p := by
  obtain ⟨l, l1, l2⟩ := entry_walk H.entry
  obtain ⟨K, hK, key, G, hk, hG, -⟩ := ((H.ents e he).tree t hp).2
  have W := hG.weak
  have hh : G.h ≤ 2 := by
    have := levels_eq W G.h (st.trees t).next 0 [] (_root_.le_refl _) W.root (height_lt W)
    omega
  obtain ⟨b, B, h1, h2⟩ := leftmost_spec W G.h (st.trees t).next (_root_.le_refl _) (height_lt W) 0 [] W.root
  have hlen := level_length W.toThin (Nat.zero_le _)
  rw [h2, List.length_cons] at hlen
  have hbl := blocks_spec W (st.trees t).next [] B b (by simpa using h2) (by omega)
  have hsort : ∀ c ∈ b :: B, SSorted (ix.ctx e.key.attnum).cmp ((st.trees t).page c).items := fun c hc =>
    (W.order.sorted c (by rw [h2]; exact hc)).imp (fun {i j} h => (hk.lt i j).2 h)
  have hone : ∀ c ∈ b :: B, ∃ N, ∀ n, N ≤ n → leafDataInfo ix st t c n =
      some (⟨true, ((st.trees t).page c).bound⟩ :: ((st.trees t).page c).items.map (fun i => ⟨false, i⟩)) := by
    intro c hc
    have hc0 : c ∈ G.lv 0 := by rw [h2]; exact hc
    obtain ⟨N, hN⟩ := attnumIn_ok (ix := ix) (M := M) (b := c) hp (fun hc' => by
      have hj : 0 < G.h := by
        refine Nat.pos_of_ne_zero (fun h0 => hc' ?_)
        have := W.root
        rw [h0] at this
        rw [this] at hc0
        simpa using hc0
      exact findPage_three W (hG.complete trivial) hh hj hc0) (contents st.entry rootBlk) H.ents
      (fun e' he' hpe => H.inj e' he' e he t hpe hp) he
    refine ⟨max N (((st.trees t).page c).items.length + 2), fun n hn => ?_⟩
    unfold leafDataInfo attnumOf
    rw [l1]
    simp only [l2]
    rw [hN n (by omega), Option.bind_some]
    exact dataPage_ok (W.leaf c hc0) (W.alloc 0 (Nat.zero_le _) c hc0).2
      (hG.fit (((st.trees t).page c).items, hiP key ((st.trees t).page c)) (List.mem_map.2 ⟨c, hc0, rfl⟩)) (hsort c hc) (by omega)
  obtain ⟨N, hN⟩ := common (b :: B) hone
  refine ⟨N, fun n hn => ⟨_, by
    unfold dumpTree
    rw [h1]
    simp only [hbl]
    exact allOf_ok (b :: B) (hN n hn), ?_, ?_⟩⟩
  · unfold listed
    rw [contents_eq W, leafs, h2, List.flatMap_map]
    clear hN hone hsort hbl hlen h1 h2
    induction (b :: B) with
    | nil => rfl
    | cons c l ih =>
      rw [List.map_cons, List.flatten_cons, List.filter_append, List.map_append, ih, filter_rows, List.flatMap_cons]
  · intro A p D hpages
    obtain ⟨A', B', e1, rfl, e2⟩ := List.map_eq_append_iff.1 hpages
    obtain ⟨c, D', rfl, rfl, rfl⟩ := List.map_eq_cons_iff.1 e2
    have hc : c ∈ b :: B := by rw [e1]; simp
    refine ⟨_, _, rfl, hsort c hc, fun hlast i hi => ?_⟩
    have hle := W.order.le c (by rw [h2]; exact hc) i hi
    have hr := (Linked.right ((h2.trans e1) ▸ W.linked 0 (Nat.zero_le _))).1
    cases D' with
    | nil => simp at hlast
    | cons c' D' =>
      simp at hr
      rw [hiP, hr] at hle
      simp only [WithTop.coe_le_coe] at hle
      intro hgt
      exact absurd ((hk.gt _ _).1 hgt) (_root_.not_lt.2 hle)

/-- **C69.** After any history of insertions and VACUUMs, for every key kept in a posting tree: `rum_leaf_data_page_items_info` of the leaf pages of that tree, from
the leftmost along the right links, gives for every page its high key and then its items in order, none beyond the high key (the last page has none); all
items together are exactly the rows of the table that contain the key, with their additional info. Missing: trees of more than three levels, where it gives nothing
for most pages (`C69_four_levels_violated`). -/
theorem C69_leaf_pages_partial (ix : Ix V) [Inhabited V] (rc : RowCfg V) (n : Nat) (hc : ColsOK ix ⟨n, true⟩) (hal : ∀ k, 8 ∣ ix.keySize k)
    (hs : ∀ a, SortOK (ix.cmpK a) (rc.sort a)) (hd : ∀ a, DupsSeen (ix.cmpK a) (rc.haveDups a))
    (evs : List (Event V)) (hev : Possible ix rc ⟨n, true⟩ [] evs) :
    ∃ st, runs ix rc (emptyIndex, true) evs = (st, true) ∧ Indexes ix rc st (evs.foldl Event.rows []) ∧
      ∀ k t, ix.treeOf st k = some t → levels (st.trees t) (st.trees t).next 0 ≤ 3 →
        ∃ N, ∀ m, N ≤ m → ∃ pages, dumpTree ix st t m = some pages ∧ listed pages = ix.rowsOf st k ∧
          ∀ A p B, pages = A ++ p :: B → Listing (ix.ctx k.attnum) B.isEmpty p := by
  have L : Life ix rc ⟨n, true⟩ emptyIndex [] := ⟨inv_empty ix hc, by simp, fun k y => by rw [rowsOf_empty ix hc]; simp [EntryOf]⟩
  obtain ⟨st, h1, L'⟩ := L.runs hc hal rfl hs hd evs _ _ hev
  refine ⟨st, h1, L'.indexes hc hs hd, fun k t hk h3 => ?_⟩
  obtain ⟨b, up, ⟨f1, f2⟩, -⟩ := find_ok hc L'.inv.entry k
  unfold Ix.treeOf at hk
  unfold Ix.rowsOf
  rw [f1] at hk ⊢
  simp only at hk ⊢
  rcases f2 with ⟨off, e, hl, hg, hm, he⟩ | ⟨off, hl, -⟩
  · rw [hl] at hk ⊢
    simp only [if_true, hg, Option.bind_some] at hk ⊢
    cases hp : e.post with
    | list data m => simp [hp] at hk
    | tree u =>
      simp only [hp, Option.some.injEq] at hk ⊢
      subst hk
      have hat : k.attnum = e.key.attnum := same_attnum (ix := ix) he
      rw [hat]
      exact dump_ok L'.inv hm hp h3
  · rw [hl] at hk
    simp at hk

theorem attnumIn_none {ix : Ix V} {M : Lim} {st : State V} {t b : Nat} (hb : b ≠ 0)
    (hfind : ∃ N, ∀ n, N ≤ n → findPage (st.trees t) b n 0 = some false) : ∀ (l : List (Ent V)),
    (∀ e' ∈ l, EntOK True ix M st e') → ∃ N, ∀ n, N ≤ n → attnumIn st t b n l = none := by
  intro l
  induction l with
  | nil => intro _; exact ⟨0, fun n _ => rfl⟩
  | cons e' l ih =>
    intro hok
    obtain ⟨N, hN⟩ := ih (fun a ha => hok a (by simp [ha]))
    cases hp' : e'.post with
    | list data m => exact ⟨N, fun n hn => by simp only [attnumIn, hp']; exact hN n hn⟩
    | tree t' =>
      by_cases htt : t' = t
      · subst htt
        obtain ⟨N', hN'⟩ := hfind
        refine ⟨max N N', fun n hn => ?_⟩
        simp only [attnumIn, hp', if_true]
        rw [if_neg (fun h => hb h.2), hN' n (by omega)]
        exact hN n (by omega)
      · obtain ⟨K, hK, key, G, hk, hG, -⟩ := ((hok e' (by simp)).tree t' hp').2
        obtain ⟨N', hN'⟩ := findPage_end hG.weak (target := (st.trees t').next) (_root_.le_refl _) G.h [] [] 0 (_root_.le_refl _) (by simpa using hG.weak.root)
        refine ⟨max N N', fun n hn => ?_⟩
        simp only [attnumIn, hp', if_neg htt]
        rw [if_neg (fun h => htt h.1), hN' n (by omega)]
        exact hN n (by omega)

/-! ### Interior pages of posting trees -/

/-- The pages of a tree: those reached from the root by downlinks and right links. -/
inductive InTree {α : Type} (s : Store α) : Nat → Prop
  | root : InTree s 0
  | down {b : Nat} {d : α × Nat} : InTree s b → (s.page b).leaf = false → d ∈ (s.page b).downs → InTree s d.2
  | right {b r : Nat} : InTree s b → (s.page b).right = some r → InTree s r

theorem innerCalls_ok (p : Tree.Page (Item Datum)) : ∀ (ds : List (Item Datum × Nat)) (pre : List (Item Datum × Nat)) (n : Nat), p.downs = pre ++ ds → ds.length < n →
    innerCalls p n (pre.length + 1) = some (ds.map (fun d => ⟨false, some d.2, d.1⟩)) := by
  intro ds
  induction ds with
  | nil =>
    intro pre n h hn
    obtain ⟨m, rfl⟩ : ∃ m, n = m + 1 := ⟨n - 1, by omega⟩
    rw [innerCalls, if_neg (by rw [h]; simp)]
    rfl
  | cons d ds ih =>
    intro pre n h hn
    obtain ⟨m, rfl⟩ : ∃ m, n = m + 1 := ⟨n - 1, by omega⟩
    rw [innerCalls, if_pos (by rw [h]; simp), if_neg (by omega)]
    have hg : p.downs[pre.length + 1 - 1]? = some d := by rw [h]; simp
    rw [hg]
    have := ih (pre ++ [d]) m (by simp [h]) (by simp at hn; omega)
    simp only [List.length_append, List.length_singleton] at this
    simp only
    rw [this]
    rfl

theorem innerPage_ok (p : Tree.Page (Item Datum)) (hl : p.leaf = false) (hd : p.deleted = false) (n : Nat) (hn : p.downs.length + 1 < n) :
    innerPage p n = some (⟨true, none, p.bound⟩ :: p.downs.map (fun d => ⟨false, some d.2, d.1⟩)) := by
  obtain ⟨m, rfl⟩ : ∃ m, n = m + 1 := ⟨n - 1, by omega⟩
  unfold innerPage
  rw [hl, hd]
  simp only [Bool.or_self, Bool.false_eq_true, if_false]
  rw [innerCalls, if_pos (Nat.zero_le _), if_pos rfl]
  have := innerCalls_ok p p.downs [] m rfl (by omega)
  simp only [List.length_nil, Nat.zero_add] at this
  rw [this]
  rfl

/-- **C72.** After any history of insertions and VACUUMs, every page but the root of the posting tree of a key is named as a child in the listing of an interior page of the tree
(`rum_internal_data_page_items_info`), and the children named in a listing are pages of the tree: the tree can be explored from the root. -/
theorem C72_tree_explored (ix : Ix V) [Inhabited V] (rc : RowCfg V) (n : Nat) (hc : ColsOK ix ⟨n, true⟩) (hal : ∀ k, 8 ∣ ix.keySize k)
    (hs : ∀ a, SortOK (ix.cmpK a) (rc.sort a)) (hd : ∀ a, DupsSeen (ix.cmpK a) (rc.haveDups a))
    (evs : List (Event V)) (hev : Possible ix rc ⟨n, true⟩ [] evs) :
    ∃ st, runs ix rc (emptyIndex, true) evs = (st, true) ∧ ∀ k t, ix.treeOf st k = some t → ∀ b, InTree (st.trees t) b →
      (b ≠ 0 → ∃ q, InTree (st.trees t) q ∧ ∃ N, ∀ m, N ≤ m → ∃ rows, innerPage ((st.trees t).page q) m = some rows ∧ ∃ r ∈ rows, r.child = some b) ∧
      (∀ m rows, innerPage ((st.trees t).page b) m = some rows → ∀ r ∈ rows, r.high = false → ∃ c, r.child = some c ∧ InTree (st.trees t) c) := by
  have L : Life ix rc ⟨n, true⟩ emptyIndex [] := ⟨inv_empty ix hc, by simp, fun k y => by rw [rowsOf_empty ix hc]; simp [EntryOf]⟩
  obtain ⟨st, h1, L'⟩ := L.runs hc hal rfl hs hd evs _ _ hev
  refine ⟨st, h1, fun k t hk b hb => ?_⟩
  obtain ⟨e, he, hp⟩ : ∃ e ∈ contents st.entry rootBlk, e.post = .tree t := by
    obtain ⟨b', up, ⟨f1, f2⟩, -⟩ := find_ok hc L'.inv.entry k
    unfold Ix.treeOf at hk
    rw [f1] at hk
    simp only at hk
    rcases f2 with ⟨off, e, hl, hg, hm, he⟩ | ⟨off, hl, -⟩
    · rw [hl] at hk
      simp only [if_true, hg, Option.bind_some] at hk
      cases hp : e.post with
      | list data m => simp [hp] at hk
      | tree u =>
        simp only [hp, Option.some.injEq] at hk
        subst hk
        exact ⟨e, hm, hp⟩
    · rw [hl] at hk
      simp at hk
  obtain ⟨K, hK, key, G, hkey, hG, -⟩ := ((L'.inv.ents e he).tree t hp).2
  have W := hG.weak
  have hlevel : ∀ c, InTree (st.trees t) c → ∃ j, j ≤ G.h ∧ c ∈ G.lv j := by
    intro c hc
    induction hc with
    | root => exact ⟨G.h, _root_.le_refl _, by rw [W.root]; simp⟩
    | @down c d _ hleaf hd ih =>
      obtain ⟨j, hj, hm⟩ := ih
      cases j with
      | zero => rw [W.leaf c hm] at hleaf; cases hleaf
      | succ j => exact ⟨j, by omega, down_level W (by omega) hm (List.mem_map.2 ⟨d, hd, rfl⟩)⟩
    | @right c r _ hr ih =>
      obtain ⟨j, hj, hm⟩ := ih
      obtain ⟨A, B, e1⟩ := List.append_of_mem hm
      have h2 := (Linked.right (e1 ▸ W.linked j hj)).1
      rw [hr] at h2
      cases B with
      | nil => simp at h2
      | cons r' B =>
        simp at h2
        refine ⟨j, hj, ?_⟩
        rw [e1, h2]
        simp
  have hin : ∀ j, j ≤ G.h → ∀ c ∈ G.lv (G.h - j), InTree (st.trees t) c := by
    intro j
    induction j with
    | zero => intro _ c hc; rw [Nat.sub_zero, W.root, List.mem_singleton] at hc; subst hc; exact .root
    | succ j ih =>
      intro hj c hc
      obtain ⟨P, hP, hm⟩ := parent_of W (hG.complete trivial) (by omega) hc
      rw [show G.h - (j + 1) + 1 = G.h - j by omega] at hP
      obtain ⟨d, hd, rfl⟩ := List.mem_map.1 hm
      refine .down (ih (by omega) P hP) ?_ hd
      rw [show G.h - j = (G.h - (j + 1)) + 1 by omega] at hP
      exact (W.inner _ (by omega) P hP).1
  refine ⟨fun hb0 => ?_, fun m rows hrows r hr hh => ?_⟩
  · obtain ⟨j, hj, hm⟩ := hlevel b hb
    have hlt : j < G.h := by
      rcases Nat.lt_or_ge j G.h with h | h
      · exact h
      · have : j = G.h := by omega
        rw [this, W.root, List.mem_singleton] at hm
        exact (hb0 hm).elim
    obtain ⟨q, hq, hd⟩ := parent_of W (hG.complete trivial) hlt hm
    obtain ⟨d, hdm, rfl⟩ := List.mem_map.1 hd
    refine ⟨q, ?_, ((st.trees t).page q).downs.length + 2, fun m hm' => ⟨_, innerPage_ok _ (W.inner j hlt q hq).1 (W.alloc (j + 1) (by omega) q hq).2 m (by omega),
      ⟨false, some d.2, d.1⟩, List.mem_cons_of_mem _ (List.mem_map.2 ⟨d, hdm, rfl⟩), rfl⟩⟩
    have := hin (G.h - (j + 1)) (by omega) q
    rw [show G.h - (G.h - (j + 1)) = j + 1 by omega] at this
    exact this hq
  · have hmono : ∀ (p : Tree.Page (Item Datum)) (m c : Nat) (rows : List InnerRow), innerCalls p m c = some rows →
        ∀ r ∈ rows, r.high = false → ∃ d ∈ p.downs, r.child = some d.2 := by
      intro p m
      induction m with
      | zero => intro c rows h; simp [innerCalls] at h
      | succ m ih =>
        intro c rows h r hr hh
        rw [innerCalls] at h
        split at h
        · split at h
          · cases h3 : innerCalls p m 1 with
            | none => rw [h3] at h; simp at h
            | some l =>
              rw [h3] at h
              simp only [Option.map_some, Option.some.injEq] at h
              subst h
              rcases List.mem_cons.1 hr with rfl | hr
              · cases hh
              · exact ih 1 l h3 r hr hh
          · cases hg : p.downs[c - 1]? with
            | none => rw [hg] at h; simp at h
            | some d =>
              rw [hg] at h
              simp only at h
              cases h3 : innerCalls p m (c + 1) with
              | none => rw [h3] at h; simp at h
              | some l =>
                rw [h3] at h
                simp only [Option.map_some, Option.some.injEq] at h
                subst h
                rcases List.mem_cons.1 hr with rfl | hr
                · exact ⟨d, List.mem_of_getElem? hg, rfl⟩
                · exact ih (c + 1) l h3 r hr hh
        · simp only [Option.some.injEq] at h
          subst h
          cases hr
    unfold innerPage at hrows
    split at hrows
    · cases hrows
    · next hno =>
      obtain ⟨d, hd, h3⟩ := hmono _ _ _ _ hrows r hr hh
      refine ⟨d.2, h3, .down hb ?_ hd⟩
      cases hlf : ((st.trees t).page b).leaf with
      | false => rfl
      | true => rw [hlf] at hno; simp at hno

/-- **C69, violated.** Whenever a posting tree has four levels and its root two downlinks (as after every split of the root), `rum_leaf_data_page_items_info` gives nothing
(NULL) for its leftmost leaf page, although the page is in the tree. -/
theorem C69_four_levels_violated (ix : Ix V) [Inhabited V] (M : Lim) (st : State V) (H : IInv True ix M st) (e : Ent V) (he : e ∈ contents st.entry rootBlk) (t : Nat)
    (hp : e.post = .tree t) (h4 : levels (st.trees t) (st.trees t).next 0 = 4) (h2 : 2 ≤ ((st.trees t).page 0).downs.length) :
    ∃ l, leftmost (st.trees t) (st.trees t).next 0 = some l ∧ ∃ N, ∀ n, N ≤ n → leafDataInfo ix st t l n = none := by
  obtain ⟨l, l1, l2⟩ := entry_walk H.entry
  obtain ⟨K, hK, key, G, hk, hG, -⟩ := ((H.ents e he).tree t hp).2
  have W := hG.weak
  have hh : G.h = 3 := by
    have := levels_eq W G.h (st.trees t).next 0 [] (_root_.le_refl _) W.root (height_lt W)
    omega
  obtain ⟨b, B, h1, h0⟩ := leftmost_spec W G.h (st.trees t).next (_root_.le_refl _) (height_lt W) 0 [] W.root
  have hb : b ≠ 0 := by
    intro hb
    have := W.uniq 0 3 0 (Nat.zero_le _) (by omega) (by rw [h0, hb]; simp) (by rw [← hh, W.root]; simp)
    omega
  obtain ⟨N, hN⟩ := attnumIn_none (ix := ix) (M := M) hb (findPage_four W hh h2 h0) _ H.ents
  refine ⟨b, h1, N, fun n hn => ?_⟩
  unfold leafDataInfo attnumOf
  rw [l1]
  simp only [l2]
  rw [hN n hn]
  rfl

/-- A posting tree of four levels, made by inserting items into small pages (capacity 76 and 72 bytes). -/
def exDeep : Store (Item Datum) :=
  (List.range 40).foldl (fun s i => lastStore s (insertItems (dataOps PostingTree.exCtx 76 72 false) 0 1 s [PostingTree.exItem (i + 7)]).1) PostingTree.exTree

/-- Its leftmost leaf is block 2, and the search for block 2 ends without finding it. -/
theorem exDeep_facts : levels exDeep exDeep.next 0 = 4 ∧ (exDeep.page 0).downs.length = 2 ∧ leftmost exDeep exDeep.next 0 = some 2 ∧
    findPage exDeep 2 100 0 = some false ∧ findPage exDeep 5 100 0 = some true := by decide +kernel

/-- The listing of its root: the high key and two children. -/
example : (innerPage (exDeep.page 0) 9).map (fun l => l.map (fun r => (r.high, r.child))) = some [(true, none), (false, some 14), (false, some 13)] := by decide +kernel

/-! ### Leaf pages of the entry tree -/

/-- The rows that describe a tuple of the entry tree: one for every item of its posting list, or one with the posting tree. -/
def entryRows (ix : Ix V) (e : Ent V) : List (EntryRow V) :=
  match e.post with
  | .tree t => [⟨e.key, none, some t⟩]
  | .list _ _ => (ix.readTuple e).map (fun i => ⟨e.key, some i, none⟩)

/-- What is listed: everything about the tuples but the last, and only the first row about the last. -/
def shown (ix : Ix V) : List (Ent V) → List (EntryRow V)
  | [] => []
  | [e] => (entryRows ix e).take 1
  | e :: es => entryRows ix e ++ shown ix es

/-- A posting list that can be read, with its items. -/
def Reads (ix : Ix V) (e : Ent V) : Prop := ∀ data n, e.post = .list data n → ∃ rest,
  readList (ix.ctx e.key.attnum).cfg (ix.keySize e.key) ⟨0, 0⟩ n data = some (ix.readTuple e, rest)

theorem readList_length {c : Cfg} : ∀ {n off : Nat} {prev : Iptr} {bs : List Nat} {its : List (Item Datum)} {rest : List Nat},
    readList c off prev n bs = some (its, rest) → its.length = n := by
  intro n
  induction n with
  | zero => intro off prev bs its rest h; simp [readList] at h; rw [h.1]; rfl
  | succ n ih =>
    intro off prev bs its rest h
    rw [readList] at h
    cases h5 : readItem c off prev bs with
    | none => rw [h5] at h; simp at h
    | some q =>
      obtain ⟨i, bs'⟩ := q
      rw [h5] at h
      simp only at h
      cases h6 : readList c (off + (bs.length - bs'.length)) i.iptr n bs' with
      | none => rw [h6] at h; simp at h
      | some q =>
        rw [h6] at h
        simp only [Option.some.injEq, Prod.mk.injEq] at h
        obtain ⟨rfl, -⟩ := h
        rw [List.length_cons, ih h6]

/-- One item of a posting list. -/
theorem listResult_step {ix : Ix V} {d : EntrySt V} {e : Ent V} {data : List Nat} {n : Nat} {i : Item Datum} {its : List (Item Datum)} {rest : List Nat}
    (hc : d.cur = some e) (hp : e.post = .list data n)
    (hr : readList (ix.ctx e.key.attnum).cfg d.off d.iptr (its.length + 1) d.rest = some (i :: its, rest)) :
    ∃ d', listResult ix d = some (⟨e.key, some i, none⟩, d') ∧ d'.cur = some e ∧ d'.tupleNum = d.tupleNum ∧ d'.itemNum = d.itemNum + 1 ∧
      d'.need = (if d.itemNum + 1 > n then true else d.need) ∧
      readList (ix.ctx e.key.attnum).cfg d'.off d'.iptr its.length d'.rest = some (its, rest) := by
  rw [readList] at hr
  cases h5 : readItem (ix.ctx e.key.attnum).cfg d.off d.iptr d.rest with
  | none => rw [h5] at hr; simp at hr
  | some q =>
    obtain ⟨i', bs⟩ := q
    rw [h5] at hr
    simp only at hr
    cases h6 : readList (ix.ctx e.key.attnum).cfg (d.off + (d.rest.length - bs.length)) i'.iptr its.length bs with
    | none => rw [h6] at hr; simp at hr
    | some q =>
      rw [h6] at hr
      simp only [Option.some.injEq, Prod.mk.injEq, List.cons.injEq] at hr
      obtain ⟨⟨rfl, h7⟩, h8⟩ := hr
      have hq : q = (its, rest) := Prod.ext h7 h8
      rw [hq] at h6
      refine ⟨{ d with
          itemNum := d.itemNum + 1
          need := if d.itemNum + 1 > n then true else d.need
          rest := bs
          off := d.off + (d.rest.length - bs.length)
          iptr := i'.iptr }, by unfold listResult; rw [hc]; simp only [hp, h5], hc, rfl, rfl, rfl, h6⟩

/-- The calls inside a posting list. -/
theorem entryCalls_list {ix : Ix V} {page : List (Ent V)} {e : Ent V} {data : List Nat} {n : Nat} (hp : e.post = .list data n) :
    ∀ (its : List (Item Datum)) (d : EntrySt V) (rest : List Nat), d.cur = some e → d.tupleNum ≤ page.length → d.itemNum + its.length = n + 1 →
      d.need = decide (its = []) →
      readList (ix.ctx e.key.attnum).cfg d.off d.iptr its.length d.rest = some (its, rest) →
      ∃ d', d'.need = true ∧ d'.tupleNum = d.tupleNum ∧ ∀ m, entryCalls ix page (m + its.length) d =
        (entryCalls ix page m d').map (fun l => its.map (fun i => ⟨e.key, some i, none⟩) ++ l) := by
  intro its
  induction its with
  | nil =>
    intro d rest _ _ _ hn _
    refine ⟨d, by simpa using hn, rfl, fun m => ?_⟩
    simp
  | cons i its ih =>
    intro d rest hc ht hi hn hr
    rw [List.length_cons] at hi hr
    obtain ⟨d1, a1, a2, a3, a4, a5, a6⟩ := listResult_step hc hp hr
    have hneed : d1.need = decide (its = []) := by
      rw [a5, hn]
      cases its with
      | nil => simp at hi; simp [hi]
      | cons j its => simp at hi; simp; omega
    obtain ⟨d', b1, b2, b3⟩ := ih d1 rest a2 (by omega) (by omega) hneed a6
    refine ⟨d', b1, by omega, fun m => ?_⟩
    rw [List.length_cons, show m + (its.length + 1) = (m + its.length) + 1 from rfl, entryCalls, entryCall, if_pos ht, hn]
    simp only [List.cons_ne_nil, decide_false, Bool.false_eq_true, if_false]
    rw [a1]
    simp only [Option.map_some]
    rw [b3, Option.map_map]
    rfl

theorem entryCalls_ok {ix : Ix V} {page : List (Ent V)} : ∀ (Q P : List (Ent V)) (d : EntrySt V), page = P ++ Q → d.need = true → d.tupleNum = P.length + 1 →
    (∀ e ∈ Q, Reads ix e) → (∀ e ∈ Q, entryRows ix e ≠ []) → ∃ N, ∀ m, N ≤ m → entryCalls ix page m d = some (shown ix Q) := by
  intro Q
  induction Q with
  | nil =>
    intro P d hpg hn ht _ _
    refine ⟨1, fun m hm => ?_⟩
    obtain ⟨k, rfl⟩ : ∃ k, m = k + 1 := ⟨m - 1, by omega⟩
    rw [entryCalls, entryCall, if_neg (by rw [hpg]; simp; omega)]
    rfl
  | cons e Q ih =>
    intro P d hpg hn ht hR hne
    have hle : d.tupleNum ≤ page.length := by rw [hpg, List.length_append, List.length_cons]; omega
    have hget : page[d.tupleNum - 1]? = some e := by rw [hpg, ht]; simp
    have hih : ∀ d' : EntrySt V, d'.need = true → d'.tupleNum = P.length + 2 → ∃ N, ∀ m, N ≤ m → entryCalls ix page m d' = some (shown ix Q) := fun d' h1 h2 =>
      ih (P ++ [e]) d' (by simp [hpg]) h1 (by simp [h2]) (fun a ha => hR a (by simp [ha])) (fun a ha => hne a (by simp [ha]))
    cases hp : e.post with
    | tree t =>
      obtain ⟨N, hN⟩ := hih { d with cur := some e, itemNum := 1, need := true, tupleNum := d.tupleNum + 1, iptr := ⟨0, 0⟩ } rfl (by simp [ht])
      refine ⟨N + 1, fun m hm => ?_⟩
      obtain ⟨k, rfl⟩ : ∃ k, m = k + 1 := ⟨m - 1, by omega⟩
      rw [entryCalls, entryCall, if_pos hle, hn]
      simp only [if_true, hget, hp]
      rw [hN k (by omega)]
      simp only [Option.map_some, Option.some.injEq]
      have hrow : entryRows ix e = [⟨e.key, none, some t⟩] := by simp only [entryRows, hp]
      cases Q with
      | nil => simp [shown, hrow]
      | cons e' Q => simp [shown, hrow]
    | list data n =>
      have hrow : entryRows ix e = (ix.readTuple e).map (fun i => ⟨e.key, some i, none⟩) := by simp only [entryRows, hp]
      obtain ⟨rest, hr⟩ := hR e (by simp) data n hp
      have hlen := readList_length hr
      cases hits : ix.readTuple e with
      | nil => exact (hne e (by simp) (by rw [hrow, hits]; rfl)).elim
      | cons i its =>
        rw [hits] at hr hlen hrow
        rw [List.length_cons] at hlen
        rw [← hlen] at hr
        obtain ⟨d1, a1, a2, a3, a4, a5, a6⟩ := listResult_step (ix := ix)
          (d := (⟨d.tupleNum + 1, 1, false, some e, data, ix.keySize e.key, ⟨0, 0⟩⟩ : EntrySt V)) rfl hp hr
        simp only at a3 a4 a5
        have hcall : ∀ k, entryCalls ix page (k + 1) d = (entryCalls ix page k d1).map (fun l => ⟨e.key, some i, none⟩ :: l) := by
          intro k
          rw [entryCalls, entryCall, if_pos hle, hn]
          simp only [if_true, hget, hp, a1, Option.map_some]
        cases Q with
        | nil =>
          refine ⟨2, fun m hm => ?_⟩
          obtain ⟨k, rfl⟩ : ∃ k, m = k + 1 + 1 := ⟨m - 2, by omega⟩
          rw [hcall, entryCalls, entryCall, if_neg (by rw [hpg, a3, ht]; simp)]
          simp [shown, hrow]
        | cons e' Q =>
          have hneed : d1.need = decide (its = []) := by
            rw [a5]
            cases its with
            | nil => simp at hlen; simp [← hlen]
            | cons j its => simp at hlen; simp; omega
          obtain ⟨d', b1, b2, b3⟩ := entryCalls_list (ix := ix) (page := page) hp its d1 rest a2 (by rw [a3, ht, hpg]; simp) (by omega) hneed a6
          obtain ⟨N, hN⟩ := hih d' b1 (by omega)
          refine ⟨N + its.length + 1, fun m hm => ?_⟩
          obtain ⟨k, rfl⟩ : ∃ k, m = k + its.length + 1 := ⟨m - its.length - 1, by omega⟩
          rw [hcall, b3, hN k (by omega)]
          simp [shown, hrow]

/-- The rows that describe a key, from a lookup of the key: one for every row of the table with the key, or one with its posting tree. -/
def about (ix : Ix V) [Inhabited V] (st : State V) (k : AttKey V) : List (EntryRow V) :=
  match ix.treeOf st k with
  | some t => [⟨k, none, some t⟩]
  | none => (ix.rowsOf st k).map (fun i => ⟨k, some i, none⟩)

theorem about_eq {C : Prop} {ix : Ix V} [Inhabited V] {M : Lim} (hc : ColsOK ix M) {st : State V} (H : IInv C ix M st) {e : Ent V}
    (he : e ∈ contents st.entry rootBlk) : about ix st e.key = entryRows ix e := by
  have := hc.keys
  have := cmp_trans ix
  have hself : ix.cmp (probe e.key) e = .eq := (ReflCmp.compare_self (cmp := ix.cmp) : ix.cmp e e = .eq)
  have hrows := H.rowsOf_eq hc he hself
  obtain ⟨b, up, ⟨f1, f2⟩, -⟩ := find_ok hc H.entry e.key
  have htree : ix.treeOf st e.key = match e.post with
      | .tree t => some t
      | .list _ _ => none := by
    unfold Ix.treeOf
    rw [f1]
    simp only
    rcases f2 with ⟨off, e', hl, hg, hm, he'⟩ | ⟨off, hl, hno⟩
    · rw [hl]
      simp only [if_true, hg, Option.bind_some]
      rw [H.unique hc hm he (TransCmp.eq_trans (cmp := ix.cmp) (OrientedCmp.eq_symm he') hself)]
      cases e.post <;> rfl
    · exact absurd hself (hno e he)
  unfold about entryRows
  rw [htree, hrows]
  cases hp : e.post with
  | tree t => rfl
  | list data n => simp only [rows, hp]

/-- Everything about the keys but the last, and only the first row about the last. -/
def truncated (ix : Ix V) [Inhabited V] (st : State V) (ks : List (AttKey V)) : List (EntryRow V) :=
  ks.dropLast.flatMap (about ix st) ++ (ks.getLast?.toList.flatMap (about ix st)).take 1

theorem shown_eq {C : Prop} {ix : Ix V} [Inhabited V] {M : Lim} (hc : ColsOK ix M) {st : State V} (H : IInv C ix M st) : ∀ (l : List (Ent V)),
    (∀ e ∈ l, e ∈ contents st.entry rootBlk) → shown ix l = truncated ix st (l.map (·.key)) := by
  intro l
  induction l with
  | nil => intro _; rfl
  | cons e l ih =>
    intro hl
    cases l with
    | nil => simp [shown, truncated, about_eq hc H (hl e (by simp))]
    | cons e' l =>
      have := ih (fun a ha => hl a (by simp [ha]))
      rw [shown, this, ← about_eq hc H (hl e (by simp))]
      · simp [truncated, List.getLast?_cons_cons]
      · simp

theorem entryPage_ok {C : Prop} {ix : Ix V} [Inhabited V] {M : Lim} (hc : ColsOK ix M) {st : State V} (H : IInv C ix M st) :
    ∃ l, leftmost st.entry st.entry.next rootBlk = some l ∧
      (chain st.entry st.entry.next l).flatMap (·.items) = contents st.entry rootBlk ∧
      ∀ p ∈ chain st.entry st.entry.next l, (∀ e ∈ p.items, about ix st e.key ≠ []) →
        ∃ N, ∀ m, N ≤ m → entryPage ix p m = some (truncated ix st (p.items.map (·.key))) := by
  obtain ⟨l, l1, l2⟩ := entry_walk H.entry
  refine ⟨l, l1, l2, fun p hp hne => ?_⟩
  have hmem : ∀ e ∈ p.items, e ∈ contents st.entry rootBlk := fun e he => by rw [← l2]; exact List.mem_flatMap.2 ⟨p, hp, he⟩
  have hlive : p.leaf = true ∧ p.deleted = false := by
    obtain ⟨K, hK, key, G, hk, hG, -⟩ := H.entry
    have W := hG.weak
    obtain ⟨b, B, h1, h2⟩ := leftmost_spec W G.h st.entry.next (_root_.le_refl _) (height_lt W) rootBlk [] W.root
    rw [l1] at h1
    cases h1
    have hlen := level_length W.toThin (Nat.zero_le _)
    rw [h2, List.length_cons] at hlen
    rw [chain_spec W st.entry.next [] B l (by simpa using h2) (by omega)] at hp
    obtain ⟨c, hc', rfl⟩ := List.mem_map.1 hp
    rw [← h2] at hc'
    exact ⟨W.leaf c hc', (W.alloc 0 (Nat.zero_le _) c hc').2⟩
  obtain ⟨N, hN⟩ := entryCalls_ok (ix := ix) (page := p.items) p.items [] ⟨1, 0, true, none, [], 0, ⟨0, 0⟩⟩ rfl rfl rfl
    (by
      intro e he data n hp
      obtain ⟨R, r1, r2, r3, -, -⟩ := (H.ents e (hmem e he)).list data n hp
      have h3 := readList_placeList (ix.ctx e.key.attnum).cfg R (ix.keySize e.key) ⟨0, 0⟩ data [] (fun it hi => (r1.ok it hi).ok)
        (by constructor <;> simp) r2
      rw [List.append_nil, ← r3] at h3
      refine ⟨[], ?_⟩
      have h4 : ix.readTuple e = R.map (Item.stored (ix.ctx e.key.attnum).cfg) := by
        unfold Ix.readTuple
        rw [hp]
        simp only [h3]
      rw [h4]
      exact h3)
    (fun e he => by rw [← about_eq hc H (hmem e he)]; exact hne e he)
  refine ⟨N, fun m hm => ?_⟩
  unfold entryPage
  rw [hlive.1, hlive.2]
  simp only [Bool.not_false, Bool.and_self, if_true]
  rw [hN m hm, shown_eq hc H p.items hmem]

/-- **C70.** After any history of insertions and VACUUMs: every key with rows is on a leaf page of the entry tree, and `rum_leaf_entry_page_items_info` of such a page lists
the keys in order, with every key exactly the rows of the table that contain it (or its posting tree); of the last key of the page it lists
only the first row. Missing: the other rows of the last key (`C70_last_key_violated`), and pages with a key whose rows are all gone (`C70_empty_key_violated`). -/
theorem C70_entry_pages_partial (ix : Ix V) [Inhabited V] (rc : RowCfg V) (n : Nat) (hc : ColsOK ix ⟨n, true⟩) (hal : ∀ k, 8 ∣ ix.keySize k)
    (hs : ∀ a, SortOK (ix.cmpK a) (rc.sort a)) (hd : ∀ a, DupsSeen (ix.cmpK a) (rc.haveDups a))
    (evs : List (Event V)) (hev : Possible ix rc ⟨n, true⟩ [] evs) :
    ∃ st l, runs ix rc (emptyIndex, true) evs = (st, true) ∧ Indexes ix rc st (evs.foldl Event.rows []) ∧
      leftmost st.entry st.entry.next rootBlk = some l ∧
      (∀ k, ix.rowsOf st k ≠ [] → ∃ p ∈ chain st.entry st.entry.next l, ∃ e ∈ p.items, Same ix k e.key) ∧
      ∀ p ∈ chain st.entry st.entry.next l, (∀ e ∈ p.items, about ix st e.key ≠ []) →
        ∃ N, ∀ m, N ≤ m → entryPage ix p m = some (truncated ix st (p.items.map (·.key))) := by
  have L : Life ix rc ⟨n, true⟩ emptyIndex [] := ⟨inv_empty ix hc, by simp, fun k y => by rw [rowsOf_empty ix hc]; simp [EntryOf]⟩
  obtain ⟨st, h1, L'⟩ := L.runs hc hal rfl hs hd evs _ _ hev
  obtain ⟨l, l1, l2, l3⟩ := entryPage_ok hc L'.inv
  refine ⟨st, l, h1, L'.indexes hc hs hd, l1, fun k hk => ?_, l3⟩
  rcases L'.inv.rowsOf hc k with ⟨e, h1, h2, -⟩ | ⟨-, h2⟩
  · rw [← l2] at h1
    obtain ⟨p, hp, he⟩ := List.mem_flatMap.1 h1
    exact ⟨p, hp, e, he, h2⟩
  · exact (hk h2).elim

/-- Two rows with key 7 in column 1 and nothing in column 2. -/
def exTwo : List (Event Nat) := exEvents.take 1 ++ [.insert (exRow 3 (some [⟨some 7, some (.byval 0)⟩]))]

theorem exTwo_possible : Possible exIx exRc ⟨15, true⟩ [] exTwo := by
  refine ⟨⟨exRowOK 1 (by omega) _ (Or.inr (Or.inr ⟨7, rfl⟩)) true, by simp⟩, ⟨exRowOK 3 (by omega) _ (Or.inr (Or.inr ⟨7, rfl⟩)) true, ?_⟩, trivial⟩
  simp [Event.rows, exRow]

/-- **C70, violated.** A history after which two rows have a null in column 2, the last key of the only leaf page of the entry tree, but the page is listed with only one
of them. -/
theorem C70_last_key_violated : Possible exIx exRc ⟨15, true⟩ [] exTwo ∧ (runs exIx exRc (emptyIndex, true) exTwo).2 = true ∧
    (exIx.rowsOf (runs exIx exRc (emptyIndex, true) exTwo).1 ⟨2, .nullItem, 0⟩).map (·.iptr.blk) = [1, 3] ∧
    (entryPage exIx ((runs exIx exRc (emptyIndex, true) exTwo).1.entry.page rootBlk) 20).map
      (fun l => l.map (fun r => (r.key.attnum, r.item.map (·.iptr.blk)))) = some [(1, some 1), (1, some 3), (2, some 1)] :=
  ⟨exTwo_possible, by decide +kernel, by decide +kernel, by decide +kernel⟩

theorem entryCalls_mono {ix : Ix V} {page : List (Ent V)} : ∀ (m : Nat) (d : EntrySt V) (l : List (EntryRow V)), entryCalls ix page m d = some l →
    ∀ j, entryCalls ix page (m + j) d = some l := by
  intro m
  induction m with
  | zero => intro d l h; simp [entryCalls] at h
  | succ m ih =>
    intro d l h j
    rw [show m + 1 + j = (m + j) + 1 by omega]
    rw [entryCalls] at h ⊢
    cases hc : entryCall ix page d with
    | none => rw [hc] at h; simp at h
    | some o =>
      rw [hc] at h
      cases o with
      | none => exact h
      | some q =>
        obtain ⟨r, d'⟩ := q
        simp only at h ⊢
        cases hr : entryCalls ix page m d' with
        | none => rw [hr] at h; simp at h
        | some l' => rw [ih d' l' hr j]; rw [hr] at h; exact h

/-- The calls for the tuples before the last. -/
theorem entryCalls_before {ix : Ix V} {page R : List (Ent V)} (hR0 : R ≠ []) : ∀ (Q P : List (Ent V)) (d : EntrySt V), page = P ++ (Q ++ R) → d.need = true →
    d.tupleNum = P.length + 1 → (∀ e ∈ Q, Reads ix e) → (∀ e ∈ Q, entryRows ix e ≠ []) →
    ∃ d' c, d'.need = true ∧ d'.tupleNum = P.length + Q.length + 1 ∧ ∀ m, entryCalls ix page (m + c) d =
      (entryCalls ix page m d').map (fun l => Q.flatMap (entryRows ix) ++ l) := by
  intro Q
  induction Q with
  | nil => intro P d _ hn ht _ _; exact ⟨d, 0, hn, by simpa using ht, fun m => by simp⟩
  | cons e Q ih =>
    intro P d hpg hn ht hR hne
    have hle : d.tupleNum ≤ page.length := by rw [hpg]; simp; omega
    have hget : page[d.tupleNum - 1]? = some e := by rw [hpg, ht]; simp
    have hih : ∀ d1 : EntrySt V, d1.need = true → d1.tupleNum = P.length + 2 → ∃ d' c, d'.need = true ∧ d'.tupleNum = P.length + (Q.length + 1) + 1 ∧
        ∀ m, entryCalls ix page (m + c) d1 = (entryCalls ix page m d').map (fun l => Q.flatMap (entryRows ix) ++ l) := by
      intro d1 h1 h2
      obtain ⟨d', c, a1, a2, a3⟩ := ih (P ++ [e]) d1 (by simp [hpg]) h1 (by simp [h2]) (fun a ha => hR a (by simp [ha])) (fun a ha => hne a (by simp [ha]))
      exact ⟨d', c, a1, by simp at a2; omega, a3⟩
    cases hp : e.post with
    | tree t =>
      obtain ⟨d', c, b1, b2, b3⟩ := hih { d with cur := some e, itemNum := 1, need := true, tupleNum := d.tupleNum + 1, iptr := ⟨0, 0⟩ } rfl (by simp [ht])
      refine ⟨d', c + 1, b1, by simpa using b2, fun m => ?_⟩
      rw [show m + (c + 1) = m + c + 1 from rfl, entryCalls, entryCall, if_pos hle, hn]
      simp only [if_true, hget, hp]
      have hrow : entryRows ix e = [⟨e.key, none, some t⟩] := by simp only [entryRows, hp]
      rw [b3, Option.map_map, List.flatMap_cons, hrow]
      rfl
    | list data n =>
      have hrow : entryRows ix e = (ix.readTuple e).map (fun i => ⟨e.key, some i, none⟩) := by simp only [entryRows, hp]
      obtain ⟨rest, hr⟩ := hR e (by simp) data n hp
      have hlen := readList_length hr
      cases hits : ix.readTuple e with
      | nil => exact (hne e (by simp) (by rw [hrow, hits]; rfl)).elim
      | cons i its =>
        rw [hits] at hr hlen hrow
        rw [List.length_cons] at hlen
        rw [← hlen] at hr
        obtain ⟨d1, a1, a2, a3, a4, a5, a6⟩ := listResult_step (ix := ix)
          (d := (⟨d.tupleNum + 1, 1, false, some e, data, ix.keySize e.key, ⟨0, 0⟩⟩ : EntrySt V)) rfl hp hr
        simp only at a3 a4 a5
        have hcall : ∀ k, entryCalls ix page (k + 1) d = (entryCalls ix page k d1).map (fun l => ⟨e.key, some i, none⟩ :: l) := by
          intro k
          rw [entryCalls, entryCall, if_pos hle, hn]
          simp only [if_true, hget, hp, a1, Option.map_some]
        have hneed : d1.need = decide (its = []) := by
          rw [a5]
          cases its with
          | nil => simp at hlen; simp [← hlen]
          | cons j its => simp at hlen; simp; omega
        have hlt : d1.tupleNum ≤ page.length := by
          have := List.length_pos_of_ne_nil hR0
          rw [a3, ht, hpg]; simp; omega
        obtain ⟨d2, b1, b2, b3⟩ := entryCalls_list (ix := ix) (page := page) hp its d1 rest a2 hlt (by omega) hneed a6
        obtain ⟨d', c, c1, c2, c3⟩ := hih d2 b1 (by omega)
        refine ⟨d', c + its.length + 1, c1, by simpa using c2, fun m => ?_⟩
        rw [show m + (c + its.length + 1) = (m + c) + its.length + 1 by omega, hcall, b3, c3, Option.map_map, Option.map_map, List.flatMap_cons, hrow]
        congr 1
        funext l
        simp

/-- **C70, violated.** Whenever a leaf page of the entry tree has a key whose rows are all gone, after keys that have some, there is no listing of the page: an
item is read where there is none. -/
theorem C70_empty_key_violated (ix : Ix V) [Inhabited V] (M : Lim) (hc : ColsOK ix M) (st : State V) (H : IInv True ix M st) (l : Nat)
    (hl : leftmost st.entry st.entry.next rootBlk = some l) (p : Tree.Page (Ent V)) (hp : p ∈ chain st.entry st.entry.next l)
    (A B : List (Ent V)) (e : Ent V) (hi : p.items = A ++ e :: B) (hA : ∀ a ∈ A, about ix st a.key ≠ []) (he : about ix st e.key = []) (m : Nat) :
    entryPage ix p m = none := by
  obtain ⟨l', l1, l2⟩ := entry_walk H.entry
  rw [l1] at hl
  cases hl
  have hmem : ∀ e ∈ p.items, e ∈ contents st.entry rootBlk := fun e he => by rw [← l2]; exact List.mem_flatMap.2 ⟨p, hp, he⟩
  have hmA : ∀ a ∈ A, a ∈ p.items := fun a ha => by rw [hi]; simp [ha]
  unfold entryPage
  split
  · rw [about_eq hc H (hmem e (by rw [hi]; simp))] at he
    have hpost : ∃ n, e.post = .list [] n := by
      unfold entryRows at he
      cases hpe : e.post with
      | tree t => simp [hpe] at he
      | list data n =>
        obtain ⟨R, r1, r2, r3, -, -⟩ := (H.ents e (hmem e (by rw [hi]; simp))).list data n hpe
        simp only [hpe, List.map_eq_nil_iff] at he
        have h3 := readList_placeList (ix.ctx e.key.attnum).cfg R (ix.keySize e.key) ⟨0, 0⟩ data [] (fun it hi => (r1.ok it hi).ok)
          (by constructor <;> simp) r2
        rw [List.append_nil, ← r3] at h3
        unfold Ix.readTuple at he
        simp only [hpe, h3, List.map_eq_nil_iff] at he
        rw [he] at r2
        simp only [placeList, Option.some.injEq] at r2
        exact ⟨n, by rw [r2]⟩
    obtain ⟨n, hpost⟩ := hpost
    obtain ⟨d', c, a1, a2, a3⟩ := entryCalls_before (ix := ix) (page := p.items) (R := e :: B) (by simp) A [] ⟨1, 0, true, none, [], 0, ⟨0, 0⟩⟩ (by simpa using hi) rfl rfl
      (by
        intro e' he' data n hpe
        obtain ⟨R, r1, r2, r3, -, -⟩ := (H.ents e' (hmem e' (hmA e' he'))).list data n hpe
        have h3 := readList_placeList (ix.ctx e'.key.attnum).cfg R (ix.keySize e'.key) ⟨0, 0⟩ data [] (fun it hi => (r1.ok it hi).ok)
          (by constructor <;> simp) r2
        rw [List.append_nil, ← r3] at h3
        refine ⟨[], ?_⟩
        have h4 : ix.readTuple e' = R.map (Item.stored (ix.ctx e'.key.attnum).cfg) := by
          unfold Ix.readTuple
          rw [hpe]
          simp only [h3]
        rw [h4]
        exact h3)
      (fun a ha => by rw [← about_eq hc H (hmem a (hmA a ha))]; exact hA a ha)
    have hnone : ∀ m, entryCalls ix p.items m d' = none := by
      intro m
      cases m with
      | zero => rfl
      | succ m =>
        have hle : d'.tupleNum ≤ p.items.length := by rw [a2, hi]; simp
        have hget : p.items[d'.tupleNum - 1]? = some e := by rw [a2, hi]; simp
        rw [entryCalls, entryCall, if_pos hle, a1]
        simp only [if_true, hget, hpost]
        have hread : readItem (ix.ctx e.key.attnum).cfg (ix.keySize e.key) ⟨0, 0⟩ [] = none := by
          have : readIptr (ix.ctx e.key.attnum).cfg.alt ⟨0, 0⟩ [] = none := by
            unfold readIptr readBlk
            split <;> simp
          unfold readItem
          rw [this]
        simp only [listResult, hpost, hread, Option.map_none]
    cases hm : entryCalls ix p.items m ⟨1, 0, true, none, [], 0, ⟨0, 0⟩⟩ with
    | none => rfl
    | some l =>
      have h1 := entryCalls_mono m _ l hm c
      rw [a3, hnone m] at h1
      simp at h1
  · rfl

/-- Such a page arises in the history `exEvents`: after it the only leaf page has the keys 7, 9 and null of column 1, the null without rows. -/
example : (((runs exIx exRc (emptyIndex, true) exEvents).1.entry.page rootBlk).items.map
      (fun e => (e.key.attnum, e.key.key, (about exIx (runs exIx exRc (emptyIndex, true) exEvents).1 e.key).length))) =
        [(1, 7, 1), (1, 9, 1), (1, 0, 0), (2, 0, 2)] ∧
    leftmost (runs exIx exRc (emptyIndex, true) exEvents).1.entry (runs exIx exRc (emptyIndex, true) exEvents).1.entry.next rootBlk = some rootBlk := by
  constructor <;> decide +kernel

/-- And in the history `exTwo` all keys have rows, so the listing is as `C70_entry_pages_partial` says. -/
example : (((runs exIx exRc (emptyIndex, true) exTwo).1.entry.page rootBlk).items.map
      (fun e => (about exIx (runs exIx exRc (emptyIndex, true) exTwo).1 e.key).length)) = [2, 2] := by decide +kernel

/-- An index with long keys, so that few rows fill a posting list. -/
def exWide : Ix Nat := { exIx with keySize := fun _ => 2640 }

/-- Nine rows with key 7 in column 1; one of them dies. -/
def exNine : List (Event Nat) :=
  ([1, 2, 3, 4, 5, 6, 7, 8, 9].map (fun i => Event.insert (exRow i (some [⟨some 7, some (.byval 0)⟩])))) ++ [.vacuum (fun p => p.blk = 4)]

theorem exWideCols : ColsOK exWide ⟨15, true⟩ := ⟨exCols1.keys, exCols1.infos, exCols1.sizes⟩

theorem exWideOK (m : Nat) (hm : m < 400) : RowOK exWide exRc ⟨15, true⟩ (exRow m (some [⟨some 7, some (.byval 0)⟩])) := by
  intro a h1 h2 o ho
  obtain ⟨g1, -, g3⟩ := exRowOK m hm _ (Or.inr (Or.inr ⟨7, rfl⟩)) true a h1 h2 o ho
  refine ⟨g1, ?_, g3⟩
  show alignUp 8 (2640 + catByte (outKey a o)) ≤ maxTuple
  unfold catByte
  split <;> decide

/-- The hypotheses of `C69_leaf_pages_partial` are met by this history, and the key has a posting tree after it. -/
example : ColsOK exWide ⟨15, true⟩ ∧ (∀ k, 8 ∣ exWide.keySize k) ∧ Possible exWide exRc ⟨15, true⟩ [] exNine ∧
    exWide.treeOf (runs exWide exRc (emptyIndex, true) exNine).1 ⟨1, .norm, 7⟩ = some 0 ∧
    levels ((runs exWide exRc (emptyIndex, true) exNine).1.trees 0) ((runs exWide exRc (emptyIndex, true) exNine).1.trees 0).next 0 ≤ 3 := by
  refine ⟨exWideCols, fun _ => ⟨330, rfl⟩, ?_, by decide +kernel, by decide +kernel⟩
  refine ⟨⟨exWideOK 1 (by omega), by simp⟩, ⟨exWideOK 2 (by omega), ?_⟩, ⟨exWideOK 3 (by omega), ?_⟩, ⟨exWideOK 4 (by omega), ?_⟩,
    ⟨exWideOK 5 (by omega), ?_⟩, ⟨exWideOK 6 (by omega), ?_⟩, ⟨exWideOK 7 (by omega), ?_⟩, ⟨exWideOK 8 (by omega), ?_⟩, ⟨exWideOK 9 (by omega), ?_⟩, trivial, trivial⟩
  all_goals simp [Event.rows, exRow]

/-- Its page is listed with the eight rows left. -/
example : (dumpTree exWide (runs exWide exRc (emptyIndex, true) exNine).1 0 40).map (fun l => (listed l).map (·.iptr.blk)) =
    some [1, 2, 3, 5, 6, 7, 8, 9] := by decide +kernel

end Rum.Props.Debug

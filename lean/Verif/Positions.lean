import Verif.CodecLemmas
/-
Word positions stored as additional information (/repo/src/rum_ts_utils.c).
A `WordEntryPos` is a uint16: weight in the two high bits, position in the low 14.
-/
namespace Rum.Pos

/-- `WEP_GETPOS` / `WEP_GETWEIGHT` / `WEP_SETWEIGHT` of PostgreSQL's ts_type.h. -/
def wepPos (w : Nat) : Nat := w &&& 0x3fff
def wepWeight (w : Nat) : Nat := w >>> 14
def wepSetWeight (w v : Nat) : Nat := (v <<< 14) ||| (w &&& 0x3fff)

/-- The inner `while (true)` of compress_pos, /repo/src/rum_ts_utils.c:979-993; bytes are `char`. -/
def compressDelta (delta weight : Nat) : List Nat :=
  if _h : delta ≥ 0x20 then ((delta &&& 0x7f) ||| 0x80) :: compressDelta (delta >>> 7) weight
  else [delta ||| (weight <<< 5)]
termination_by delta
decreasing_by rw [Nat.shiftRight_eq_div_pow]; omega

/-- compress_pos, /repo/src/rum_ts_utils.c:966-997. `prev` is the previous packed position (0 at first); the
difference is taken modulo 2^16 (`uint16 delta`). -/
def compressPos (prev : Nat) : List Nat → List Nat
  | [] => []
  | p :: ps => compressDelta ((wepPos p + 2 ^ 16 - wepPos prev) % 2 ^ 16) (wepWeight p) ++ compressPos p ps

/-- The loop of decompress_pos, /repo/src/rum_ts_utils.c:1007-1024. `none`: a read past the end of the value. -/
def decompGo (i delta pos : Nat) : List Nat → Option (Nat × List Nat)
  | [] => none
  | v :: rest =>
    if v &&& 0x80 ≠ 0 then decompGo (i + 7) ((delta ||| ((v &&& 0x7f) <<< i)) % 2 ^ 16) pos rest
    else
      let d := (delta ||| ((v &&& 0x1f) <<< i)) % 2 ^ 16
      some (wepSetWeight ((pos + d) % 2 ^ 16) (v >>> 5), rest)

/-- decompress_pos, /repo/src/rum_ts_utils.c:999-1025: the new value of `*pos` and the rest of the bytes. -/
def decompressPos (pos : Nat) (bs : List Nat) : Option (Nat × List Nat) := decompGo 0 0 pos bs

/-- Reading `n` positions in a row, as every user of decompress_pos does. -/
def decompressN : Nat → Nat → List Nat → Option (List Nat × List Nat)
  | 0, _, bs => some ([], bs)
  | n + 1, pos, bs =>
    match decompressPos pos bs with
    | none => none
    | some (p, r) => (decompressN n p r).map (fun x => (p :: x.1, x.2))

/-- count_pos, /repo/src/rum_ts_utils.c:1027-1041. -/
def countPos (bs : List Nat) : Nat := (bs.filter (fun b => b &&& 0x80 = 0)).length

/-- The merge loops of rum_ts_join_pos, /repo/src/rum_ts_utils.c:2292-2346, on the decompressed lists (the code
decompresses them one element ahead). -/
def joinLoop : List Nat → List Nat → List Nat
  | [], l2 => l2
  | a :: l1, [] => a :: l1
  | a :: l1, b :: l2 =>
    if wepPos a > wepPos b then b :: joinLoop (a :: l1) l2
    else if wepPos a < wepPos b then a :: joinLoop l1 (b :: l2)
    else a :: joinLoop l1 l2
termination_by l1 l2 => l1.length + l2.length

/-- rum_ts_join_pos, /repo/src/rum_ts_utils.c:2266-2358. Both counts are assumed positive by the code
(`Assert`); with a count of zero it reads past the end: `none`. -/
def joinPos (b1 b2 : List Nat) : Option (List Nat) :=
  if countPos b1 = 0 ∨ countPos b2 = 0 then none
  else match decompressN (countPos b1) 0 b1, decompressN (countPos b2) 0 b2 with
    | some (l1, _), some (l2, _) => some (compressPos 0 (joinLoop l1 l2))
    | _, _ => none

/-! ### Specification -/

/-- A position list as PostgreSQL keeps it in a tsvector: 16-bit entries in strictly increasing position order. -/
def PosList (ps : List Nat) : Prop := (∀ p ∈ ps, p < 2 ^ 16) ∧ ps.Pairwise (fun a b => wepPos a < wepPos b)

/-! ### Lemmas -/

theorem wepPos_eq (w : Nat) : wepPos w = w % 2 ^ 14 := Nat.and_two_pow_sub_one_eq_mod w 14

theorem wepWeight_eq (w : Nat) : wepWeight w = w / 2 ^ 14 := Nat.shiftRight_eq_div_pow w 14

theorem wepSetWeight_eq (w v : Nat) : wepSetWeight w v = v * 2 ^ 14 + w % 2 ^ 14 := by
  unfold wepSetWeight
  rw [show w &&& 0x3fff = w % 2 ^ 14 from Nat.and_two_pow_sub_one_eq_mod w 14,
    ← Nat.shiftLeft_add_eq_or_of_lt (Nat.mod_lt _ (by decide)), Nat.shiftLeft_eq]

theorem last_byte : ∀ d, d < 32 → ∀ w, w < 4 → ((d ||| (w <<< 5)) &&& 0x80 = 0 ∧ (d ||| (w <<< 5)) &&& 0x1f = d ∧
    (d ||| (w <<< 5)) >>> 5 = w ∧ (d ||| (w <<< 5)) < 256) := by decide +kernel

theorem decompGo_compressDelta (delta w : Nat) (hw : w < 4) : ∀ (i acc pos : Nat) (rest : List Nat), acc < 2 ^ i →
    acc + delta * 2 ^ i < 2 ^ 16 → decompGo i acc pos (compressDelta delta w ++ rest) =
      some (wepSetWeight ((pos + (acc + delta * 2 ^ i)) % 2 ^ 16) w, rest) := by
  induction delta using Nat.strongRecOn with
  | _ n ih =>
    intro i acc pos rest hacc hlt
    rw [compressDelta]
    have hr : n % 128 < 128 := Nat.mod_lt _ (by decide)
    have hs := Codec.split7 n (2 ^ i)
    split
    · next hn =>
      rw [List.cons_append, decompGo]
      have hb := Codec.byte_hi _ hr
      have hb1 := hb.1
      rw [Codec.and7f n, if_pos hb.2.1, hb1, Codec.or_shift _ _ _ hacc]
      have hle : acc + n % 128 * 2 ^ i < 2 ^ 16 := by
        have : n / 128 * (2 ^ i * 128) ≥ 0 := Nat.zero_le _
        omega
      have hsr : n >>> 7 = n / 128 := by rw [Nat.shiftRight_eq_div_pow]
      have hp := Codec.pow_succ7 i
      rw [Nat.mod_eq_of_lt hle, hsr, ih (n / 128) (by omega) (i + 7) _ pos rest]
      · rw [hp]
        have e : acc + n % 128 * 2 ^ i + n / 128 * (2 ^ i * 128) = acc + n * 2 ^ i := by omega
        rw [e]
      · rw [hp]
        have : n % 128 * 2 ^ i ≤ 127 * 2 ^ i := Nat.mul_le_mul_right _ (by omega)
        omega
      · rw [hp]; omega
    · next hn =>
      have hl := last_byte n (by omega) w hw
      rw [List.cons_append, decompGo]
      simp only [hl.1, hl.2.1, hl.2.2.1, ne_eq, not_true, if_false, List.nil_append]
      rw [Codec.or_shift _ _ _ hacc, Nat.mod_eq_of_lt hlt]

theorem compressDelta_bytes (delta w : Nat) (hw : w < 4) : (∀ b ∈ compressDelta delta w, b < 256) ∧
    countPos (compressDelta delta w) = 1 := by
  induction delta using Nat.strongRecOn with
  | _ n ih =>
    rw [compressDelta]
    have hb := Codec.byte_hi _ (Nat.mod_lt n (by decide : 128 > 0))
    split
    · next hn =>
      have hsr : n >>> 7 = n / 128 := by rw [Nat.shiftRight_eq_div_pow]
      obtain ⟨h1, h2⟩ := ih (n >>> 7) (by omega)
      rw [Codec.and7f]
      constructor
      · intro b hb'
        rcases List.mem_cons.1 hb' with rfl | hb'
        · exact hb.2.2
        · exact h1 b hb'
      · unfold countPos at *
        rw [List.filter_cons_of_neg (by simpa using hb.2.1)]; exact h2
    · next hn =>
      have hl := last_byte n (by omega) w hw
      constructor
      · intro b hb'; simp only [List.mem_singleton] at hb'; subst hb'; exact hl.2.2.2
      · simp [countPos, hl.1]

theorem compressDelta_length (delta w : Nat) (h : delta < 2 ^ 14) : (compressDelta delta w).length ≤ 3 := by
  have h3 : ∀ d, d < 32 → (compressDelta d w).length ≤ 1 := by
    intro d hd; rw [compressDelta]; simp [show ¬ d ≥ 32 by omega]
  have h2 : ∀ d, d < 4096 → (compressDelta d w).length ≤ 2 := by
    intro d hd; rw [compressDelta]
    split
    · have := h3 (d >>> 7) (by rw [Nat.shiftRight_eq_div_pow]; omega)
      simpa using this
    · simp
  rw [compressDelta]
  split
  · have := h2 (delta >>> 7) (by rw [Nat.shiftRight_eq_div_pow]; omega)
    simpa using this
  · simp

theorem countPos_append (a b : List Nat) : countPos (a ++ b) = countPos a + countPos b := by
  simp [countPos]

theorem delta_eq (prev p : Nat) (h : wepPos prev ≤ wepPos p) :
    (wepPos p + 2 ^ 16 - wepPos prev) % 2 ^ 16 = wepPos p - wepPos prev := by
  have h1 := wepPos_eq p
  have : wepPos p < 2 ^ 14 := by rw [h1]; exact Nat.mod_lt _ (by decide)
  omega

theorem decompressPos_step (prev p : Nat) (rest : List Nat) (hp : p < 2 ^ 16)
    (h : wepPos prev ≤ wepPos p) :
    decompressPos prev (compressDelta ((wepPos p + 2 ^ 16 - wepPos prev) % 2 ^ 16) (wepWeight p) ++ rest) =
      some (p, rest) := by
  have e1 := wepPos_eq p
  have e2 := wepPos_eq prev
  have e3 := wepWeight_eq p
  have hlt : wepPos p < 2 ^ 14 := by rw [e1]; exact Nat.mod_lt _ (by decide)
  rw [delta_eq prev p h]
  unfold decompressPos
  rw [decompGo_compressDelta _ _ (by rw [e3]; omega) 0 0 prev rest (by decide) (by omega)]
  rw [wepSetWeight_eq]
  congr 2
  omega

theorem decompress_compress (ps : List Nat) : ∀ (prev : Nat) (rest : List Nat), prev < 2 ^ 16 → (∀ p ∈ ps, p < 2 ^ 16) →
    (∀ p ∈ ps, wepPos prev ≤ wepPos p) → ps.Pairwise (fun a b => wepPos a ≤ wepPos b) →
    decompressN ps.length prev (compressPos prev ps ++ rest) = some (ps, rest) := by
  induction ps with
  | nil => intros; rfl
  | cons p ps ih =>
    intro prev rest hprev hb hle hs
    rw [List.pairwise_cons] at hs
    have hp := hb p (by simp)
    rw [List.length_cons, decompressN, compressPos, List.append_assoc,
      decompressPos_step prev p _ hp (hle p (by simp))]
    simp only
    rw [ih p rest hp (fun q hq => hb q (by simp [hq])) (fun q hq => hs.1 q hq) hs.2]
    rfl

theorem countPos_compress (ps : List Nat) : ∀ prev, (∀ p ∈ ps, p < 2 ^ 16) → countPos (compressPos prev ps) = ps.length := by
  induction ps with
  | nil => intros; rfl
  | cons p ps ih =>
    intro prev hb
    have hp := hb p (by simp)
    have hw : wepWeight p < 4 := by rw [wepWeight_eq]; omega
    rw [compressPos, countPos_append, (compressDelta_bytes _ _ hw).2, ih p (fun q hq => hb q (by simp [hq])), List.length_cons]
    omega

theorem compress_length (ps : List Nat) : ∀ prev, (∀ p ∈ ps, wepPos prev ≤ wepPos p) →
    ps.Pairwise (fun a b => wepPos a ≤ wepPos b) → (compressPos prev ps).length ≤ 3 * ps.length := by
  induction ps with
  | nil => intros; simp [compressPos]
  | cons p ps ih =>
    intro prev hle hs
    rw [List.pairwise_cons] at hs
    have h1 := hle p (by simp)
    have e1 := wepPos_eq p
    have hlt : wepPos p < 2 ^ 14 := by rw [e1]; exact Nat.mod_lt _ (by decide)
    have := compressDelta_length ((wepPos p + 2 ^ 16 - wepPos prev) % 2 ^ 16) (wepWeight p) (by rw [delta_eq _ _ h1]; omega)
    have := ih p hs.1 hs.2
    rw [compressPos, List.length_append, List.length_cons]; omega

theorem joinLoop_mem (l1 l2 : List Nat) : (l1.Pairwise (fun a b => wepPos a < wepPos b)) →
    (l2.Pairwise (fun a b => wepPos a < wepPos b)) → ∀ x, x ∈ joinLoop l1 l2 ↔ x ∈ l1 ∨ (x ∈ l2 ∧ ∀ y ∈ l1, wepPos y ≠ wepPos x) := by
  fun_induction joinLoop l1 l2 <;> grind [List.pairwise_cons]

theorem joinLoop_sorted (l1 l2 : List Nat) : (l1.Pairwise (fun a b => wepPos a < wepPos b)) →
    (l2.Pairwise (fun a b => wepPos a < wepPos b)) → (joinLoop l1 l2).Pairwise (fun a b => wepPos a < wepPos b) := by
  fun_induction joinLoop l1 l2 with
  | case1 l2 => intro _ h; exact h
  | case2 a l1 => intro h _; exact h
  | case3 a l1 b l2 h ih =>
    intro h1 h2
    have hm := joinLoop_mem (a :: l1) l2 h1 (List.pairwise_cons.1 h2).2
    grind [List.pairwise_cons]
  | case4 a l1 b l2 h h' ih =>
    intro h1 h2
    have hm := joinLoop_mem l1 (b :: l2) (List.pairwise_cons.1 h1).2 h2
    grind [List.pairwise_cons]
  | case5 a l1 b l2 h h' ih =>
    intro h1 h2
    have hm := joinLoop_mem l1 l2 (List.pairwise_cons.1 h1).2 (List.pairwise_cons.1 h2).2
    grind [List.pairwise_cons]

end Rum.Pos

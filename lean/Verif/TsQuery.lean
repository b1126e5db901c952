import Verif.Positions
/-
Full-text query evaluation on the word positions stored in the index (/repo/src/rum_ts_utils.c:204-963).
-/
namespace Rum.Ts
open Rum.Pos

/-- Three-valued results (`RumTernaryValue`). -/
inductive TV where
  | no | yes | maybe
deriving DecidableEq, Repr

/-- A tsquery as a tree (the flat `QueryItem` array with `left` offsets is read as the tree it encodes). An operand is
identified by `o` (lexeme and prefix flag; the index sees each distinct operand as one entry) and carries a weight mask
(0: no restriction). -/
inductive Query (O : Type) where
  | val (o : O) (weight : Nat)
  | not (q : Query O)
  | and (l r : Query O)
  | or (l r : Query O)
  | phrase (distance : Nat) (l r : Query O)

/-- What the index hands to the consistent function for one operand: `check[j]` false; `check[j]` with NULL additional
information; or the stored bytes. -/
inductive Stored where
  | absent
  | null
  | bytes (bs : List Nat)

/-- `ExecPhraseData`. -/
structure PData where
  pos : List Nat := []
  negate : Bool := false
  width : Nat := 0

/-- The weight test of a position, /repo/src/rum_ts_utils.c:318. -/
def weightOK (w x : Nat) : Bool := w = 0 ∨ (w >>> wepWeight x) &&& 1 ≠ 0

/-- `KeyWeightsMask`, /repo/src/rum_ts_utils.c:344-349. -/
def weightMask (ps : List Nat) : Nat := ps.foldl (fun m x => m ||| (1 <<< wepWeight x)) 0

/-- checkcondition_rum with a data pointer (phrase search), /repo/src/rum_ts_utils.c:258-326, 355. `ts` is
`recheckPhrase` (a timestamp is stored instead of positions). A read past the end of the stored value cannot happen for
values written by compress_pos; it is treated here as having no positions (see `chkPhrase_stored`). -/
def chkPhrase (ts : Bool) (s : Stored) (weight : Nat) : TV × PData :=
  match s with
  | .absent => (.no, {})
  | .null => (.maybe, {})
  | .bytes bs =>
    if ts then (.maybe, {})
    else
      let ps := ((decompressN (countPos bs) 0 bs).getD ([], [])).1
      let ps' := ps.filter (fun x => weightOK weight x)
      (if ps' = [] then .no else .yes, { pos := ps' })

/-- checkcondition_rum without a data pointer, /repo/src/rum_ts_utils.c:258-355. -/
def chkPlain (ts : Bool) (s : Stored) (weight : Nat) : TV :=
  match s with
  | .absent => .no
  | .null => .maybe
  | .bytes bs =>
    if ts then .maybe
    else if weight = 0 then .yes
    else
      let ps := ((decompressN (countPos bs) 0 bs).getD ([], [])).1
      if weightMask ps &&& weight ≠ 0 then .yes else .no

/-- Storing `output_pos` into a `WordEntryPos` array, only if positive, /repo/src/rum_ts_utils.c:445-458. -/
def emitPos (e : Bool) (p : Nat) (out : List Nat) : List Nat := if e ∧ p > 0 then (p % 2 ^ 16) :: out else out

/-- The merge loop of rum_phrase_output, /repo/src/rum_ts_utils.c:392-477, on the shifted positions
`WEP_GETPOS(pos[i]) + offset`; `eL`, `eR`, `eB` are the TSPO_L_ONLY, TSPO_R_ONLY, TSPO_BOTH bits. -/
def outLoop (eL eR eB : Bool) : List Nat → List Nat → List Nat
  | [], [] => []
  | [], r :: rs => if !eR then [] else emitPos eR r (outLoop eL eR eB [] rs)
  | l :: ls, [] => if !eL then [] else emitPos eL l (outLoop eL eR eB ls [])
  | l :: ls, r :: rs =>
    if l < r then emitPos eL l (outLoop eL eR eB ls (r :: rs))
    else if l = r then emitPos eB r (outLoop eL eR eB ls rs)
    else emitPos eR r (outLoop eL eR eB (l :: ls) rs)
termination_by ls rs => ls.length + rs.length

/-- rum_phrase_output, /repo/src/rum_ts_utils.c:380-485: result and position list. (With `data == NULL`, at the topmost
phrase operator, only the result is used and it is the same.) -/
def phraseOutput (L R : PData) (eL eR eB : Bool) (lo ro : Nat) : TV × List Nat :=
  let out := outLoop eL eR eB (L.pos.map (fun x => wepPos x + lo)) (R.pos.map (fun x => wepPos x + ro))
  (if out = [] then .no else .yes, out)

/-- The final part of OP_AND / OP_PHRASE, /repo/src/rum_ts_utils.c:622-665. -/
def andOutput (L R : PData) (lo ro width : Nat) : TV × PData :=
  if L.negate ∧ R.negate then
    let o := phraseOutput L R true true true lo ro
    (.yes, { pos := o.2, negate := true, width := width })
  else if L.negate then
    let o := phraseOutput L R false true false lo ro
    (o.1, { pos := o.2, width := width })
  else if R.negate then
    let o := phraseOutput L R true false false lo ro
    (o.1, { pos := o.2, width := width })
  else
    let o := phraseOutput L R false false true lo ro
    (o.1, { pos := o.2, width := width })

/-- The final part of OP_OR, /repo/src/rum_ts_utils.c:708-755. -/
def orOutput (L R : PData) (lo ro width : Nat) : TV × PData :=
  if L.negate ∧ R.negate then
    let o := phraseOutput L R false false true lo ro
    (.yes, { pos := o.2, negate := true, width := width })
  else if L.negate then
    let o := phraseOutput L R true false false lo ro
    (.yes, { pos := o.2, negate := true, width := width })
  else if R.negate then
    let o := phraseOutput L R false true false lo ro
    (.yes, { pos := o.2, negate := true, width := width })
  else
    let o := phraseOutput L R true true true lo ro
    (o.1, { pos := o.2, width := width })

/-- OP_NOT with TS_EXEC_CALC_NOT (set by both callers), /repo/src/rum_ts_utils.c:545-584. -/
def notOutput : TV × PData → TV × PData
  | (.no, d) => (.yes, { d with negate := true })
  | (.yes, d) =>
    if d.pos ≠ [] then (.yes, { d with negate := !d.negate })
    else if d.negate then (.no, { d with negate := false })
    else (.no, d)   -- "should not get here": Assert(false), then `return TS_NO` after the switch
  | (.maybe, d) => (.maybe, d)

variable {O : Type}

/-- rum_phrase_execute, /repo/src/rum_ts_utils.c:521-762. `noPos` is TS_EXEC_PHRASE_NO_POS. -/
def phraseExec (noPos : Bool) (chk : O → Nat → TV × PData) : Query O → TV × PData
  | .val o w => chk o w
  | .not q => notOutput (phraseExec noPos chk q)
  | .phrase d l r =>
    let L := phraseExec noPos chk l
    let R := phraseExec noPos chk r
    if L.1 = .no then (.no, {})
    else if R.1 = .no then (.no, {})
    else if L.1 = .maybe ∨ R.1 = .maybe then (.maybe, {})
    else if noPos then (.maybe, {})
    else andOutput L.2 R.2 (d + R.2.width) 0 (d + L.2.width + R.2.width)
  | .and l r =>
    let L := phraseExec noPos chk l
    let R := phraseExec noPos chk r
    if L.1 = .no then (.no, {})
    else if R.1 = .no then (.no, {})
    else if L.1 = .maybe ∨ R.1 = .maybe then (.maybe, {})
    else
      let mw := max L.2.width R.2.width
      andOutput L.2 R.2 (mw - L.2.width) (mw - R.2.width) mw
  | .or l r =>
    let L := phraseExec noPos chk l
    let R := phraseExec noPos chk r
    if L.1 = .no ∧ R.1 = .no then (.no, {})
    else if L.1 = .maybe ∨ R.1 = .maybe then (.maybe, {})
    else
      let Ld := if L.1 = .no then { L.2 with width := 0 } else L.2
      let Rd := if R.1 = .no then { R.2 with width := 0 } else R.2
      let mw := max Ld.width Rd.width
      orOutput Ld Rd (mw - Ld.width) (mw - Rd.width) mw

/-- rum_TS_execute, /repo/src/rum_ts_utils.c:777-875; `inNeg` is TS_EXEC_IN_NEG. -/
def execute (noPos : Bool) (chkP : O → Nat → TV × PData) (chk : O → Nat → TV) : Bool → Query O → TV
  | inNeg, .val o w => if inNeg ∧ w ≠ 0 ∧ w ≠ 15 then .maybe else chk o w
  | _, .not q =>
    match execute noPos chkP chk true q with
    | .no => .yes
    | .yes => .no
    | .maybe => .maybe
  | inNeg, .and l r =>
    let lm := execute noPos chkP chk inNeg l
    if lm = .no then .no
    else match execute noPos chkP chk inNeg r with
      | .no => .no
      | .yes => lm
      | .maybe => .maybe
  | inNeg, .or l r =>
    let lm := execute noPos chkP chk inNeg l
    if lm = .yes then .yes
    else match execute noPos chkP chk inNeg r with
      | .no => lm
      | .yes => .yes
      | .maybe => .maybe
  | _, .phrase d l r =>
    match (phraseExec noPos chkP (.phrase d l r)).1 with
    | .no => .no
    | .yes => .yes
    | .maybe => if noPos then .maybe else .no

/-- Result of a consistent function: the returned boolean and `*recheck`
(`PG_RETURN_BOOL` of TS_MAYBE is true). -/
def finish (t : TV) : Bool × Bool := (t ≠ .no, t = .maybe)

/-- rum_tsquery_consistent, /repo/src/rum_ts_utils.c:876-918, for a non-empty query. -/
def tsConsistent (entries : O → Stored) (q : Query O) : Bool × Bool :=
  finish (execute false (fun o w => chkPhrase false (entries o) w) (fun o w => chkPlain false (entries o) w) false q)

/-- rum_tsquery_timestamp_consistent, /repo/src/rum_ts_utils.c:919-962. -/
def tsTimestampConsistent (entries : O → Stored) (q : Query O) : Bool × Bool :=
  finish (execute true (fun o w => chkPhrase true (entries o) w) (fun o w => chkPlain true (entries o) w) false q)

/-! ### Pre-consistency -/

/-- Result of PostgreSQL's TS_phrase_execute under TS_EXEC_SKIP_NOT, with the callback pre_checkcondition_rum: every
operand below a phrase operator has a data pointer, so it sets `need_recheck` and answers TS_MAYBE
(/repo/src/rum_ts_utils.c:210-219); NOT answers "matches everywhere". Core code, modelled by assumption. -/
def prePhrase : Query O → TV
  | .val _ _ => .maybe
  | .not _ => .yes
  | .phrase _ l r | .and l r =>
    if prePhrase l = .no ∨ prePhrase r = .no then .no
    else if prePhrase l = .maybe ∨ prePhrase r = .maybe then .maybe else .yes
  | .or l r =>
    if prePhrase l = .no ∧ prePhrase r = .no then .no
    else if prePhrase l = .maybe ∨ prePhrase r = .maybe then .maybe else .yes

/-- Does a phrase evaluation call the operand callback (and so set `need_recheck`)? -/
def callsVal : Query O → Bool
  | .val _ _ => true
  | .not _ => false
  | .phrase _ l r | .and l r | .or l r => callsVal l || callsVal r

/-- PostgreSQL's TS_execute_recurse under TS_EXEC_PHRASE_NO_POS | TS_EXEC_SKIP_NOT with the callback
pre_checkcondition_rum, /repo/src/rum_ts_utils.c:199-219 (PostgreSQL 13 and later). The second component is the sticky
flag `need_recheck`. -/
def preExec (check : O → Bool) : Bool → Query O → TV × Bool
  | rc, .val o w =>
    let rc' := rc || (w ≠ 0)
    (if rc' then .maybe else if check o then .yes else .no, rc')
  | rc, .not _ => (.yes, rc)
  | rc, .and l r =>
    let lm := preExec check rc l
    if lm.1 = .no then (.no, lm.2)
    else
      let rm := preExec check lm.2 r
      (match rm.1 with
        | .no => .no
        | .yes => lm.1
        | .maybe => .maybe, rm.2)
  | rc, .or l r =>
    let lm := preExec check rc l
    if lm.1 = .yes then (.yes, lm.2)
    else
      let rm := preExec check lm.2 r
      (match rm.1 with
        | .no => lm.1
        | .yes => .yes
        | .maybe => .maybe, rm.2)
  | rc, .phrase d l r => (prePhrase (.phrase d l r), rc || callsVal (.phrase d l r))

/-- rum_tsquery_pre_consistent, /repo/src/rum_ts_utils.c:222-255: `TS_execute` returns whether the result is not
TS_NO. -/
def preConsistent (check : O → Bool) (q : Query O) : Bool := (preExec check false q).1 ≠ .no

/-! ### Specification: what it means for a document to match a query -/

/-- How an operand occurs in a document: not at all; without position information (a stripped tsvector); or at the given
positions with weights. -/
inductive Occ where
  | absent
  | noPos
  | at (ps : List Nat)

/-- A position carries one of the weights in the mask (bit `i` of the mask: weight `i`). -/
def HasWeight (w x : Nat) : Prop := w = 0 ∨ w.testBit (wepWeight x) = true

open Classical in
/-- The match positions of a query below a phrase operator, with the width of the match; `none`: not determined because
positions are missing. Positions are the ends of matches. A NOT matches at every position where its operand does not; a
phrase `l <d> r` matches where `r` ends, when `l` ends `d` before `r` starts; AND and OR align the narrower side to the
right end of the wider one. An operand that matches nowhere makes AND and phrase match nowhere, whatever the other
side is. -/
noncomputable def sem (doc : O → Occ) : Query O → Option (Nat × (Int → Prop))
  | .val o w => match doc o with
    | .absent => some (0, fun _ => False)
    | .noPos => none
    | .at ps => some (0, fun p => ∃ x ∈ ps, HasWeight w x ∧ (wepPos x : Int) = p)
  | .not q => (sem doc q).map (fun x => (x.1, fun p => ¬ x.2 p))
  | .phrase d l r =>
    both (sem doc l) (sem doc r) (fun wl L wr R => (d + wl + wr, fun p => L (p - d - wr) ∧ R p))
  | .and l r =>
    both (sem doc l) (sem doc r) (fun wl L wr R =>
      (max wl wr, fun p => L (p - (max wl wr - wl : Nat)) ∧ R (p - (max wl wr - wr : Nat))))
  | .or l r =>
    if nowhere (sem doc l) ∧ nowhere (sem doc r) then some (0, fun _ => False)
    else match sem doc l, sem doc r with
      | some L, some R =>
        let wl := if nowhere (some L) then 0 else L.1
        let wr := if nowhere (some R) then 0 else R.1
        some (max wl wr, fun p => L.2 (p - (max wl wr - wl : Nat)) ∨ R.2 (p - (max wl wr - wr : Nat)))
      | _, _ => none
where
  /-- Known to match nowhere. -/
  nowhere (x : Option (Nat × (Int → Prop))) : Prop := ∃ y, x = some y ∧ ∀ p, ¬ y.2 p
  both (l r : Option (Nat × (Int → Prop)))
      (f : Nat → (Int → Prop) → Nat → (Int → Prop) → Nat × (Int → Prop)) : Option (Nat × (Int → Prop)) :=
    if nowhere l ∨ nowhere r then some (0, fun _ => False)
    else match l, r with
      | some L, some R => some (f L.1 L.2 R.1 R.2)
      | _, _ => none

/-- The document matches the query: boolean operators as usual; an operand must occur, with one of the weights; a phrase
must match somewhere (if positions are missing it does not match). `unk` says whether a weight-restricted operand matches
a word stored without positions (PostgreSQL's choice, irrelevant here). -/
def Matches (unk : O → Nat → Prop) (doc : O → Occ) : Query O → Prop
  | .val o w => match doc o with
    | .absent => False
    | .noPos => w = 0 ∨ unk o w
    | .at ps => w = 0 ∨ ∃ x ∈ ps, HasWeight w x
  | .not q => ¬ Matches unk doc q
  | .and l r => Matches unk doc l ∧ Matches unk doc r
  | .or l r => Matches unk doc l ∨ Matches unk doc r
  | .phrase d l r => ∃ y, sem doc (.phrase d l r) = some y ∧ ∃ p, y.2 p

/-- What the index stores for an operand of a document (rum_extract_tsvector, C27). -/
def stored : Occ → Stored
  | .absent => .absent
  | .noPos => .null
  | .at ps => .bytes (compressPos 0 ps)

/-- Sum of all phrase distances: bounds the width of any match. -/
def Query.dist : Query O → Nat
  | .val _ _ => 0
  | .not q => q.dist
  | .and l r | .or l r => l.dist + r.dist
  | .phrase d l r => d + l.dist + r.dist

/-- A well-formed document: position lists as in a tsvector (sorted, distinct, starting from 1), with all positions
at most `P`. -/
def DocOK (P : Nat) (doc : O → Occ) : Prop :=
  ∀ o ps, doc o = .at ps → PosList ps ∧ ∀ x ∈ ps, 1 ≤ wepPos x ∧ wepPos x ≤ P

/-- No operand restricted to some but not all weights lies below a NOT (outside phrases). -/
def NoWeightUnderNot : Bool → Query O → Prop
  | neg, .val _ w => neg = true → w = 0 ∨ w = 15
  | _, .not q => NoWeightUnderNot true q
  | neg, .and l r | neg, .or l r => NoWeightUnderNot neg l ∧ NoWeightUnderNot neg r
  | _, .phrase _ _ _ => True

end Rum.Ts

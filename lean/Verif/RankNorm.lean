import Verif.Rank
/-!
# Normalization of the relevance (`/repo/src/rum_ts_utils.c:175-188`, `1847-1968`, `1998-2107`)

rum_ts_score and rum_ts_distance with a method: what calc_score_docr and calc_score do with its bits. Without a method it is 0.
-/
namespace Rum.Rank
open Rum Rum.Codec Rum.Pos Rum.Ts Rum.FullText

variable {L F : Type}

/-- The further floating-point operations: difference, comparison, `log`. -/
structure Norms (F : Type) extends Floats F where
  sub : F → F → F
  gt : F → F → Bool
  log : F → F

/-- The sum over the distances of the middles of consecutive extents, given by the positions of their first and last elements; `prev` is PrevExtPos,
`/repo/src/rum_ts_utils.c:1939-1947`. The first extent (`NExtent` = 0) only sets it. -/
def sumDist (o : Norms F) : Option F → F → List (Nat × Nat) → F
  | _, s, [] => s
  | none, s, x :: xs => sumDist o (some (o.div (o.num (x.2 + x.1)) (o.num 2))) s xs
  | some p, s, x :: xs =>
    let cur := o.div (o.num (x.2 + x.1)) (o.num 2)
    sumDist o (some cur) (if o.gt cur p then o.add s (o.div (o.num 1) (o.sub cur p)) else s) xs

/-- The positions `ext.p`, `ext.q` of a cover. -/
def Cover.ends (c : Cover) (doc : List DocR) : Nat × Nat :=
  (((c.elems doc).head?.map (·.pos)).getD 0, ((c.elems doc).getLast?.map (·.pos)).getD 0)

/-- The groups of covers after the loop of calc_score_docr, `/repo/src/rum_ts_utils.c:1868-1948`. -/
def coverGroups (o : Floats F) (idx : Bool) (q : Query Nat) (len : Nat) (doc : List DocR) : List (CoverGroup F) :=
  (covers idx q doc (doc.length + 1) 0).foldl (fun gs c => addCover o (coverKey (c.elems doc)) (coverRank o len c (c.elems doc)) gs) []

/-- RANK_NORM_EXTDIST and RANK_NORM_RDIVRPLUS1, `/repo/src/rum_ts_utils.c:1956-1960`. -/
def normExt (o : Norms F) (m : Nat) (n : Nat) (sd : F) (w : F) : F :=
  let w := if m.testBit 2 ∧ n > 0 ∧ o.gt sd (o.num 0) then o.div w (o.div (o.num n) sd) else w
  if m.testBit 5 then o.div w (o.add w (o.num 1)) else w

/-- calc_score_docr, `/repo/src/rum_ts_utils.c:1847-1968`. -/
def scoreDocrN (o : Norms F) (idx : Bool) (q : Query Nat) (len : Nat) (doc : List DocR) (m : Nat) : F :=
  let cs := covers idx q doc (doc.length + 1) 0
  let w := (coverGroups o.toFloats idx q len doc).foldl (fun s g => o.add s g.rank) (o.num 0)
  o.f4 (normExt o m cs.length (sumDist o none (o.num 0) (cs.map (·.ends doc))) w)

/-- count_length, `/repo/src/rum_ts_utils.c:1042-1062`: a word without positions counts as one. -/
def countLength (v : TsVector L) : Nat := (v.map (fun w => if (w.2.getD []).length = 0 then 1 else (w.2.getD []).length)).sum

/-- RANK_NORM_LOGLENGTH, RANK_NORM_LENGTH, RANK_NORM_UNIQ and RANK_NORM_LOGUNIQ, `/repo/src/rum_ts_utils.c:2022-2036`; `txt->size` is the number of words. -/
def normDoc (o : Norms F) (m : Nat) (v : TsVector L) (w : F) : F :=
  let w := if m.testBit 0 ∧ v.length > 0 then o.div w (o.log (o.num (countLength v + 1))) else w
  let w := if m.testBit 1 ∧ countLength v > 0 then o.div w (o.num (countLength v)) else w
  let w := if m.testBit 3 ∧ v.length > 0 then o.div w (o.num v.length) else w
  if m.testBit 4 ∧ v.length > 0 then o.div w (o.div (o.log (o.num (v.length + 1))) (o.log (o.num 2))) else w

/-- calc_score, the value of rum_ts_score(tsvector, rum_distance_query) and rum_ts_score(tsvector, tsquery, int), `/repo/src/rum_ts_utils.c:1998-2042`,
`2188-2224`. The bits of a negative method are those of its two's complement. -/
def scoreN [DecidableEq L] (o : Norms F) (cmpL : L → L → Ordering) (begins : L → L → Bool) (addr : Nat → Nat) (sort : List DocR → List DocR) (v : TsVector L)
    (q : Query (Opnd L)) (m : Nat) : F :=
  let doc := docrep cmpL begins addr sort v q
  if doc = [] then o.num 0 else o.f4 (normDoc o m v (scoreDocrN o false (numbered 0 q) (items q).length doc m))

/-- rum_ts_distance, `/repo/src/rum_ts_utils.c:2074-2107`, `2150-2167`: `none` is infinity. -/
def distanceN [DecidableEq F] (o : Norms F) (s : F) : Option F := if s = o.num 0 then none else some (o.f4 (o.div (o.num 1) s))

end Rum.Rank

import Verif.InvTsqueryTree
/-
Property theorems C29 and C30: inverted full-text search.
-/
namespace Rum.Props
open Rum Rum.Inv

variable {L : Type} [DecidableEq L]

/-- **C30.** Every 32-bit value, followed by any bytes, decodes to itself and leaves exactly those bytes. -/
theorem C30_varbyte_roundtrip (v : Nat) (rest : List Nat) (h : v < 2 ^ 32) :
    decodeVar (encodeVar v ++ rest) = some (v, rest) := decodeVar_encodeVar v rest h

/-- Decoding a whole stream of integers. -/
def decodeAll : Nat → List Nat → Option (List Nat)
  | 0, [] => some []
  | 0, _ :: _ => none
  | n + 1, bs => match decodeVar bs with
    | none => none
    | some (v, r) => (decodeAll n r).map (v :: ·)

/-- **C30.** Any sequence of 32-bit integers reads back unchanged, with nothing left over. -/
theorem C30_varbyte_sequence (vs : List Nat) (h : ∀ v ∈ vs, v < 2 ^ 32) :
    decodeAll vs.length (vs.flatMap encodeVar) = some vs := by
  induction vs with
  | nil => rfl
  | cons v vs ih =>
    rw [List.flatMap_cons, List.length_cons, decodeAll, C30_varbyte_roundtrip v _ (h v (by simp))]
    simp [ih (fun w hw => h w (by simp [hw]))]

/-- At most five bytes, and every one is a byte. -/
theorem C30_varbyte_bytes (v : Nat) (h : v < 2 ^ 32) :
    (encodeVar v).length ≤ 5 ∧ ∀ b ∈ encodeVar v, b < 256 := by
  have aux : ∀ (k v : Nat), v < 2 ^ (7 * (k + 1)) → (encodeVar v).length ≤ k + 1 ∧ ∀ b ∈ encodeVar v, b < 256 := by
    intro k
    induction k with
    | zero =>
      intro v hv
      rw [encodeVar]
      have : ¬ v > 0x7f := by simp at hv; omega
      simp [this]; omega
    | succ k ih =>
      intro v hv
      rw [encodeVar]
      split
      · have e : 2 ^ (7 * (k + 1 + 1)) = 2 ^ (7 * (k + 1)) * 128 := by
          rw [show 7 * (k + 1 + 1) = 7 * (k + 1) + 7 by omega, Nat.pow_add]
        obtain ⟨h1, h2⟩ := ih (v >>> 7) (by rw [Nat.shiftRight_eq_div_pow]; omega)
        refine ⟨by simp; omega, ?_⟩
        intro b hb
        simp only [List.mem_cons] at hb
        rcases hb with rfl | hb
        · rw [Nat.or_comm, Codec.and7f]
          exact (Codec.byte_hi _ (Nat.mod_lt _ (by decide))).2.2
        · exact h2 b hb
      · refine ⟨by simp, ?_⟩
        intro b hb; simp only [List.mem_singleton] at hb; omega
  exact aux 4 v (Nat.lt_of_lt_of_le h (Nat.pow_le_pow_right (by decide) (by decide)))

example : decodeAll 3 ([0, 300, 4294967295].flatMap encodeVar) = some [0, 300, 4294967295] :=
  C30_varbyte_sequence [0, 300, 4294967295] (by decide)

/-- No AND/OR node strictly inside the query (after pushing NOT down to the words and merging nested equal operators) is
true of the empty document. `parent` is the operator above, `neg` whether an odd number of NOTs is above. -/
def NoHiddenNegative : Query L → Option Bool → Bool → Prop
  | .val _, _, _ => True
  | .prefixVal _, _, _ => True
  | .not q, parent, neg => NoHiddenNegative q parent (!neg)
  | .and l r, parent, neg =>
    (parent ≠ none → parent ≠ some (!neg) → ((Query.and l r).eval (fun _ => false) != neg) = false) ∧
    NoHiddenNegative l (some (!neg)) neg ∧ NoHiddenNegative r (some (!neg)) neg
  | .or l r, parent, neg =>
    (parent ≠ none → parent ≠ some neg → ((Query.or l r).eval (fun _ => false) != neg) = false) ∧
    NoHiddenNegative l (some neg) neg ∧ NoHiddenNegative r (some neg) neg
  | .phrase _ _, _, _ => True

theorem noHidden_make (q : Query L) : ∀ (parent : Option Bool) (neg : Bool) (rest w : Wraps L), parent ≠ none →
    makeWraps q parent neg rest = some w → NoHiddenNegative q parent neg → noHidden rest → noHidden w := by
  induction q with
  | val l => intro p neg rest w _ h _ hr; simp only [makeWraps, Option.some.injEq] at h; subst h; exact hr
  | prefixVal l => intro p neg rest w _ h; simp [makeWraps] at h
  | not q ih => intro p neg rest w hp h hn hr; exact ih p (!neg) rest w hp h hn hr
  | and l r ih1 ih2 =>
    intro p neg rest w hp h hn hr
    have hev := make_eval (fun _ => false) (.and l r) (some (neg)) neg neg .nil
    simp only [makeWraps] at h
    obtain ⟨n1, n2, n3⟩ := hn
    split at h
    · next hpar =>
      subst hpar
      simp only [Option.bind_eq_some_iff] at h
      obtain ⟨w1, h1, h2⟩ := h
      exact ih1 _ _ _ _ (by simp) h2 n2 (ih2 _ _ _ _ (by simp) h1 n3 hr)
    · next hpar =>
      simp only [Option.map_eq_some_iff, Option.bind_eq_some_iff] at h
      obtain ⟨w2, ⟨w1, h1, h2⟩, rfl⟩ := h
      refine ⟨?_, ih1 _ _ _ _ (by simp) h2 n2 (ih2 _ _ _ _ (by simp) h1 n3 trivial), hr⟩
      have e := hev (.op 0 0 (!neg) w2 .nil) (by simp [makeWraps, h1, h2]) (Or.inr rfl)
      rw [n1 hp hpar] at e
      simp only [fullEval] at e
      cases hf : fullEval (fun _ => false) (!neg) w2 <;> rw [hf] at e <;> cases neg <;> simp [comb] at e <;> rfl
  | or l r ih1 ih2 =>
    intro p neg rest w hp h hn hr
    have hev := make_eval (fun _ => false) (.or l r) (some (!neg)) neg (!neg) .nil
    simp only [makeWraps] at h
    obtain ⟨n1, n2, n3⟩ := hn
    split at h
    · next hpar =>
      subst hpar
      simp only [Option.bind_eq_some_iff] at h
      obtain ⟨w1, h1, h2⟩ := h
      exact ih1 _ _ _ _ (by simp) h2 n2 (ih2 _ _ _ _ (by simp) h1 n3 hr)
    · next hpar =>
      simp only [Option.map_eq_some_iff, Option.bind_eq_some_iff] at h
      obtain ⟨w2, ⟨w1, h1, h2⟩, rfl⟩ := h
      refine ⟨?_, ih1 _ _ _ _ (by simp) h2 n2 (ih2 _ _ _ _ (by simp) h1 n3 trivial), hr⟩
      have e := hev (.op 0 0 neg w2 .nil) (by simp [makeWraps, h1, h2]) (Or.inr rfl)
      rw [n1 hp hpar] at e
      simp only [fullEval] at e
      cases hf : fullEval (fun _ => false) neg w2 <;> rw [hf] at e <;> cases neg <;> simp [comb] at e <;> rfl
  | phrase l r _ _ => intro p neg rest w _ h; simp [makeWraps] at h

theorem noHidden_root (q : Query L) : ∀ (neg : Bool) (a : Bool) (kids : Wraps L),
    makeWraps q none neg .nil = some (.op 0 0 a kids .nil) → NoHiddenNegative q none neg → noHidden kids := by
  induction q with
  | val l => intro neg a k h; simp [makeWraps] at h
  | prefixVal l => intro neg a k h; simp [makeWraps] at h
  | not q ih => intro neg a k h hn; exact ih (!neg) a k h hn
  | and l r _ _ =>
    intro neg a k h hn
    obtain ⟨_, n2, n3⟩ := hn
    simp only [makeWraps, reduceCtorEq, if_false, Option.map_eq_some_iff, Option.bind_eq_some_iff, Wraps.op.injEq] at h
    obtain ⟨w2, ⟨w1, h1, h2⟩, h⟩ := h
    obtain ⟨_, _, rfl, rfl, _⟩ := h
    exact noHidden_make l _ _ _ _ (by simp) h2 n2 (noHidden_make r _ _ _ _ (by simp) h1 n3 trivial)
  | or l r _ _ =>
    intro neg a k h hn
    obtain ⟨_, n2, n3⟩ := hn
    simp only [makeWraps, reduceCtorEq, if_false, Option.map_eq_some_iff, Option.bind_eq_some_iff, Wraps.op.injEq] at h
    obtain ⟨w2, ⟨w1, h1, h2⟩, h⟩ := h
    obtain ⟨_, _, rfl, rfl, _⟩ := h
    exact noHidden_make l _ _ _ _ (by simp) h2 n2 (noHidden_make r _ _ _ _ (by simp) h1 n3 trivial)
  | phrase l r _ _ => intro neg a k h; simp [makeWraps] at h

/-- What the search computes, for every plain query that fits the consistent function's node array. -/
theorem searchRow_char (q : Query L) (doc : List L) (hq : q.Plain) (hsz : q.size < 2 ^ 30)
    (hops : q.ops ≤ 256) (hd : doc.Nodup) (hne : doc ≠ []) :
    ∃ res, (∀ junk, searchRow junk q doc = some res) ∧ (res = true → q.eval (fun l => decide (l ∈ doc)) = true) ∧
      (NoHiddenNegative q none false → q.eval (fun l => decide (l ∈ doc)) = true → res = true) := by
  obtain ⟨w, hw, hs, ho⟩ := make_some q none false .nil hq
  simp only [Wraps.size, Wraps.ops, Nat.add_zero] at hs ho
  have hev : ∀ d : L → Bool, fullEval d true w = q.eval d := by
    intro d
    rw [make_eval d q none false true .nil w hw (Or.inl rfl)]
    simp [comb, fullEval]
  unfold searchRow extractQuery
  simp only [hw, hne, if_false]
  rcases make_root q false w hw with ⟨l, b, rfl⟩ | ⟨a, kids, rfl⟩
  · -- a single word
    have he := hev (fun l => decide (l ∈ doc))
    simp only [fullEval, comb, if_true, Bool.and_true] at he
    have hnull : rootAllNegative (calcWraps (.val l b .nil : Wraps L) 1).1 = b := by
      cases b <;> rfl
    rw [hnull]
    have hlk : ∀ m : L, (extractWraps (calcWraps (.val l b .nil : Wraps L) 1).1 [] []).lookup m =
        if m = l then some (encodePath b []) else none := by
      intro m
      simp only [calcWraps, extractWraps, addEntry, List.lookup]
      by_cases h : m = l
      · simp [h]
      · have h' : (m == l) = false := by simpa using h
        simp [h, h']
    simp only [hlk]
    have key : ∀ (ds : List L) (st : St) (af : Bool), (st.last = 0 ∨ (st.last = 1 ∧ (st.nodes 0).parent = -1 ∧ (st.nodes 0).sum = 0)) →
        ds.Nodup → ¬ (st.last = 1 ∧ l ∈ ds) →
        ∃ st', keyLoop (ds.map (fun m => if m = l then some (encodePath b []) else none)) st af =
          some (st', !b && decide (l ∈ ds), af && !decide (l ∈ ds)) ∧
          (st'.last = 0 ∨ (st'.last = 1 ∧ (st'.nodes 0).parent = -1 ∧ (st'.nodes 0).sum = 0)) := by
      intro ds
      induction ds with
      | nil => intro st af hst _ _; exact ⟨st, by simp [keyLoop], hst⟩
      | cons d ds ih =>
        intro st af hst hnd hno
        rw [List.nodup_cons] at hnd
        by_cases hdl : d = l
        · subst hdl
          cases b with
          | false =>
            refine ⟨st, ?_, hst⟩
            simp [keyLoop, encodePath]
          | true =>
            have h0 : st.last = 0 := by
              rcases hst with h | h
              · exact h
              · exact absurd ⟨h.1, by simp⟩ hno
            simp only [List.map_cons, if_true, keyLoop]
            have henc : encodePath true [] = [1, 5] := by
              unfold encodePath
              simp [encodeVar]
            have hstep : ∃ st1, pathLoop 2 { st with child := none } [1, 5] = some st1 ∧ st1.last = 1 ∧
                (st1.nodes 0).parent = -1 ∧ (st1.nodes 0).sum = 0 := by
              refine ⟨⟨bump (initNode (grow st.nodes st.last 1) 0 1) 0 true, 1, none⟩, ?_, rfl, ?_, ?_⟩
              · have d1 : decodeVar [1, 5] = some (1, [5]) := by decide
                have d2 : decodeVar [5] = some (5, []) := by decide
                simp only [pathLoop, d1, d2, stepElem]
                rw [h0]
                rfl
              · simp [bump, initNode, grow, h0, setNode]
              · simp [bump, initNode, grow, h0, setNode]
            obtain ⟨st1, p1, p2, p3, p4⟩ := hstep
            rw [henc]
            simp only [List.length_cons, List.length_nil, Nat.zero_add]
            rw [if_neg (by decide), show (1 + 1) = 2 from rfl, p1]
            obtain ⟨st2, q1, q2⟩ := ih st1 false (Or.inr ⟨p2, p3, p4⟩) hnd.2 (fun h => hnd.1 h.2)
            refine ⟨st2, ?_, q2⟩
            rw [henc] at q1
            simp only [q1]
            simp [hnd.1]
        · simp only [List.map_cons, hdl, if_false, keyLoop]
          obtain ⟨st2, q1, q2⟩ := ih st af hst hnd.2 (fun h => hno ⟨h.1, by simp [h.2]⟩)
          refine ⟨st2, ?_, q2⟩
          rw [q1]
          have : (l ∈ d :: ds) ↔ l ∈ ds := by simp [Ne.symm hdl]
          simp [Ne.symm hdl]
    have hres : ∀ junk, consistent junk (doc.map (fun m => if m = l then some (encodePath b []) else none)) b =
        some (decide (l ∈ doc) != b) := by
      intro junk
      obtain ⟨st', k1, k2⟩ := key doc ⟨junk, 0, none⟩ true (Or.inl rfl) hd (by simp)
      have hnl : ∀ r, nodeLoop st'.last st'.nodes r = r := by
        intro r
        rcases k2 with h | ⟨h1, h2, h3⟩
        · rw [h]; rfl
        · rw [h1]; simp [nodeLoop, h2, h3]
      unfold consistent
      simp only [k1, hnl, Bool.true_and]
      cases b <;> cases decide (l ∈ doc) <;> simp
    refine ⟨_, hres, ?_, ?_⟩
    · intro h; rw [← he]; exact h
    · intro _ h; rw [← he] at h; exact h
  · -- an operator at the top
    have hnum := calc_numOK (.op 0 0 a kids .nil : Wraps L) 1
    have hops' := hnum.ops
    have hopeq : ∀ (w : Wraps L) (k : Nat), (calcWraps w k).1.ops = w.ops ∧ (calcWraps w k).1.size = w.size := by
      intro w
      induction w with
      | nil => intro k; exact ⟨rfl, rfl⟩
      | val l neg rest ih => intro k; simp [calcWraps, Wraps.ops, Wraps.size, ih]
      | op n s a kids rest ih1 ih2 => intro k; simp [calcWraps, Wraps.ops, Wraps.size, ih1, ih2]
    rw [(hopeq _ 1).1] at hops'
    have hks : (calcWraps kids 2).1.size = kids.size := (hopeq kids 2).2
    simp only [Wraps.size] at hs
    have hc := fun junk => consistent_op junk 1 (initSum a kids) a (calcWraps kids 2).1 _ doc
      (rootAllNegative (calcWraps (.op 0 0 a kids .nil : Wraps L) 1).1) hnum (by omega) (by omega) hd
    have he : ∀ d : L → Bool, fullEval d a kids = q.eval d := by
      intro d
      have := hev d
      simpa [fullEval, comb] using this
    refine ⟨_, hc, ?_, ?_⟩
    · intro h
      rw [← he]
      split at h
      · have := weak_le_full _ _ _ h
        rwa [fullEval_calc] at this
      · next ht =>
        rw [← fullEval_calc _ kids a 2, fullEval_untouched _ _ _ (by simpa using ht), fullEval_calc]
        unfold rootAllNegative at h
        rw [allNegative_eq, fullEval_calc] at h
        simpa [fullEval, comb] using h
    · intro hnh h
      rw [← he] at h
      have hh := noHidden_calc kids 2 (noHidden_root q false a kids hw hnh)
      split
      · rw [weak_eq_full _ _ _ hh, fullEval_calc]; exact h
      · next ht =>
        rw [← fullEval_calc _ kids a 2, fullEval_untouched _ _ _ (by simpa using ht), fullEval_calc] at h
        unfold rootAllNegative
        rw [allNegative_eq, fullEval_calc]
        simpa [fullEval, comb] using h

/-- **C29, no wrong answers.** For every accepted query and every non-empty document the search never returns a stored
query that does not match, and it is well defined (no access outside the node array) as long as the query has at most 256
AND/OR operators. -/
theorem C29_inverted_search_sound (junk : Nat → Node) (q : Query L) (doc : List L) (hq : q.Plain)
    (hsz : q.size < 2 ^ 30) (hops : q.ops ≤ 256) (hd : doc.Nodup) (hne : doc ≠ []) :
    ∃ res, searchRow junk q doc = some res ∧ (res = true → q.eval (fun l => decide (l ∈ doc)) = true) := by
  obtain ⟨res, h1, h2, _⟩ := searchRow_char q doc hq hsz hops hd hne
  exact ⟨res, h1 junk, h2⟩

/-- **C29, exactness (partial).** The full property (a stored query is returned iff it matches the document, for every
query and document) fails, see `C29_inverted_search_violated`. It holds for non-empty documents and queries of at most 256
operators in which no operator below the top is true of the empty document. Missing: the excluded queries and the empty
document, for which the property is false. -/
theorem C29_inverted_search_exact_partial (junk : Nat → Node) (q : Query L) (doc : List L) (hq : q.Plain)
    (hsz : q.size < 2 ^ 30) (hops : q.ops ≤ 256) (hd : doc.Nodup) (hne : doc ≠ [])
    (hnn : NoHiddenNegative q none false) :
    searchRow junk q doc = some (q.eval (fun l => decide (l ∈ doc))) := by
  obtain ⟨res, h1, h2, h3⟩ := searchRow_char q doc hq hsz hops hd hne
  rw [h1 junk]
  cases hr : res with
  | true => rw [h2 hr]
  | false =>
    cases he : q.eval (fun l => decide (l ∈ doc)) with
    | false => rfl
    | true => have := h3 hnn he; rw [hr] at this; cases this

-- non-vacuity: `1 & ((2 | (3 & !4)) & !5)` meets every hypothesis
example : let q : Query Nat := .and (.val 1) (.and (.or (.val 2) (.and (.val 3) (.not (.val 4)))) (.not (.val 5)))
    q.Plain ∧ q.size < 2 ^ 30 ∧ q.ops ≤ 256 ∧ NoHiddenNegative q none false ∧ [1, 3].Nodup := by
  simp [Query.Plain, Query.size, Query.ops, NoHiddenNegative, Query.eval]

/-- **C29 is violated by the code**: `a & (!b | c)` matches the document `{a}`, but the search does not return it. -/
theorem C29_inverted_search_violated :
    ¬ ∀ (junk : Nat → Node) (q : Query Nat) (doc : List Nat), q.Plain → q.size < 2 ^ 30 → q.ops ≤ 256 → doc.Nodup →
      doc ≠ [] → searchRow junk q doc = some (q.eval (fun l => decide (l ∈ doc))) := by
  intro h
  have := h (fun _ => ⟨0, 0, false⟩) (.and (.val 1) (.or (.not (.val 2)) (.val 3))) [1]
    (by simp [Query.Plain]) (by decide) (by decide) (by decide) (by decide)
  revert this
  decide +kernel

/-- **C29 is violated by the code** on the empty document: `!a` matches it but nothing is returned. -/
theorem C29_empty_document_violated (junk : Nat → Node) :
    searchRow junk (.not (.val 1)) ([] : List Nat) = some false ∧
      (Query.not (.val 1) : Query Nat).eval (fun _ => false) = true := ⟨rfl, rfl⟩

/-- **C29 is violated by the code** for queries with weights (`a:A`): weights are not indexed, and no recheck is asked for (`*recheck = false`,
/repo/src/rumtsquery.c:480). Operands are words with the set of weights they ask for; a document says which weights a word has. `a:A` is returned for the
document `a:1B`. -/
theorem C29_weights_violated :
    ¬ ∀ (junk : Nat → Node) (q : Query (Nat × (Nat → Bool))) (doc : List (Nat × Nat)), q.Plain → q.size < 2 ^ 30 → q.ops ≤ 256 →
      (doc.map Prod.fst).Nodup → doc ≠ [] →
      searchRow junk (q.map Prod.fst) (doc.map Prod.fst) = some true → q.eval (fun o => doc.any (fun w => w.1 == o.1 && o.2 w.2)) = true := by
  intro h
  have := h (fun _ => ⟨0, 0, false⟩) (.val (1, fun w => w == 3)) [(1, 2)] trivial (by decide) (by decide) (by decide) (by decide) (by decide +kernel)
  revert this
  decide

/-- A query with `n` alternating nested operators. -/
def nested : Nat → Query Nat
  | 0 => .val 2
  | n + 1 => if n % 2 = 0 then .and (.val 1) (nested n) else .or (.val 1) (nested n)

/-- **C29, undefined behaviour**: a query with 257 nested operators makes the search access `nodes[256]` of a 256-element
array. -/
theorem C29_node_overflow : searchRow (fun _ => ⟨0, 0, false⟩) (nested 257) [2] = none := by decide +kernel

end Rum.Props

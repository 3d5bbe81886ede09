import Mathlib.Tactic
import Verif.KeyedVectors.EvalModel

/-!
# C95: evaluation on analogies and word pairs
-/

namespace Verif.KvEval

open Verif

variable {W : Type} [DecidableEq W]

/-! ### The restricted, case-folded vocabulary -/

/-- The tables of a model agree (C38): key number `i` has index `i`, and no key occurs twice. -/
def Kv.Ok (kv : Kv W) : Prop :=
  kv.keys.Nodup ∧ ∀ (i : ℕ) k, kv.keys[i]? = some k → PyDict.get? kv.index k = some i

theorem get?_foldl_fold (fold : W → W) (idx : W → ℕ) (w : W) : ∀ (l : List W) (d : PyDict W ℕ),
    PyDict.get? (l.foldl (fun d k => PyDict.set d (fold k) (idx k)) d) w
      = ((l.reverse.find? fun k => decide (fold k = w)).map idx).or (PyDict.get? d w) := by
  intro l
  induction l with
  | nil => intro d; simp
  | cons k l ih =>
    intro d
    simp only [List.foldl_cons, List.reverse_cons, List.find?_append]
    rw [ih, PyDict.get?_set]
    cases hf : l.reverse.find? (fun k => decide (fold k = w)) with
    | some x => simp
    | none =>
      by_cases h : fold k = w
      · simp [List.find?, h]
      · simp [List.find?, h]

/-- **C95.** The words taken into account are the first `restrict_vocab` keys, case-folded; where several
keys fold to the same word, the earliest (most frequent) one is used. -/
theorem C95_vocabulary {kv : Kv W} (hkv : kv.Ok) (fold : W → W) (restrict : ℕ) (w : W) (i : ℕ) :
    PyDict.get? (okVocab kv fold restrict) w = some i ↔
      i < restrict ∧ (∃ k, kv.keys[i]? = some k ∧ fold k = w) ∧
        ∀ j < i, ∀ k, kv.keys[j]? = some k → fold k ≠ w := by
  unfold okVocab
  rw [get?_foldl_fold fold (fun k => PyDict.getD kv.index k 0)]
  simp only [List.reverse_reverse, PyDict.get?_nil, Option.or_none, Option.map_eq_some_iff]
  constructor
  · rintro ⟨k, hf, hk⟩
    rw [List.find?_eq_some_iff_getElem] at hf
    obtain ⟨h1, j, hj, e, h2⟩ := hf
    have hj' : j < kv.keys.length ∧ j < restrict := by
      rw [List.length_take] at hj; omega
    have hkj : kv.keys[j]? = some k := by
      rw [List.getElem_take] at e
      rw [List.getElem?_eq_getElem hj'.1, e]
    have hij : i = j := by
      have := hkv.2 j k hkj
      simp only [PyDict.getD, this, Option.getD_some] at hk
      exact hk.symm
    subst hij
    refine ⟨hj'.2, ⟨k, hkj, by simpa using h1⟩, fun a ha x hx hfx => ?_⟩
    have := h2 a ha
    rw [List.getElem_take] at this
    obtain ⟨ha', e'⟩ := List.getElem?_eq_some_iff.1 hx
    rw [e'] at this
    simp [hfx] at this
  · rintro ⟨hi, ⟨k, hk, hfk⟩, hmin⟩
    obtain ⟨hil, e⟩ := List.getElem?_eq_some_iff.1 hk
    refine ⟨k, ?_, ?_⟩
    · rw [List.find?_eq_some_iff_getElem]
      refine ⟨by simpa using hfk, i, by rw [List.length_take]; omega, by
        rw [List.getElem_take]; exact e, fun j hj => ?_⟩
      rw [List.getElem_take]
      have := hmin j hj _ (List.getElem?_eq_getElem (by omega))
      simpa using this
    · simp [PyDict.getD, hkv.2 i k hk]

/-! ### Specification of the result -/

/-- The suggestion an analogy is judged by: the first most similar word, case-folded, that is in the
vocabulary and not one of the three given words. -/
def suggestion (fold : W → W) (ok : PyDict W ℕ) (a b c : W) (sims : List W) : Option W :=
  (sims.map fold).find? fun p => ok.contains p && decide (p ≠ a ∧ p ≠ b ∧ p ≠ c)

/-- The judgement of the words of a line: nothing if the line is skipped, else the quadruplet and whether
it is right. -/
def judge (o : Opt W) (ok : PyDict W ℕ) (sims : W → W → W → List W) (ws : List W) :
    Option (Quad W × Bool) :=
  match ws.map o.fold with
  | [a, b, c, e] =>
    if ok.contains a ∧ ok.contains b ∧ ok.contains c ∧ ok.contains e then
      some ((a, b, c, e), decide (suggestion o.fold ok a b c (sims b c a) = some e))
    else if o.dummy then some ((a, b, c, e), false) else none
  | _ => none

/-- The quadruplets of some lines judged right (or wrong), in order. -/
def judged (o : Opt W) (ok : PyDict W ℕ) (sims : W → W → W → List W) (right : Bool)
    (rows : List (List W)) : List (Quad W) :=
  rows.filterMap fun ws => (judge o ok sims ws).bind fun r => if r.2 = right then some r.1 else none

/-- A section of the file as a section of the result. -/
def sectionOf (o : Opt W) (ok : PyDict W ℕ) (sims : W → W → W → List W) (b : W × List (List W)) :
    Section W :=
  ⟨some b.1, judged o ok sims true b.2, judged o ok sims false b.2⟩

/-- The lines of a file that consists of sections. -/
def linesOf (bs : List (W × List (List W))) : List (Line W) :=
  bs.flatMap fun b => .header b.1 :: b.2.map .row

/-- The number of lines with four words. -/
def fourWords (rows : List (List W)) : ℕ := (rows.filter fun ws => decide (ws.length = 4)).length

/-- No analogy expects one of its own words. -/
def Proper (o : Opt W) (ws : List W) : Prop :=
  ∀ a b c e, ws.map o.fold = [a, b, c, e] → e ≠ a ∧ e ≠ b ∧ e ≠ c

theorem predict_eq (fold : W → W) (ok : PyDict W ℕ) (a b c e : W) (he : ok.contains e = true)
    (hp : e ≠ a ∧ e ≠ b ∧ e ≠ c) : ∀ (sims : List W) (pr : Option W), pr ≠ some e →
    (predict fold ok [a, b, c] pr sims = some e ↔ suggestion fold ok a b c sims = some e) := by
  intro sims
  induction sims with
  | nil => intro pr h; simp [predict, suggestion, h]
  | cons x xs ih =>
    intro pr h
    simp only [predict]
    by_cases hg : (ok.contains (fold x) && !([a, b, c].contains (fold x))) = true
    · rw [if_pos hg]
      have : suggestion fold ok a b c (x :: xs) = some (fold x) := by
        unfold suggestion
        rw [List.map_cons, List.find?_cons_of_pos]
        simp only [Bool.and_eq_true, Bool.not_eq_true', decide_eq_true_eq] at hg ⊢
        refine ⟨hg.1, ?_⟩
        have h2 := hg.2
        simp only [List.contains_eq_mem, List.mem_cons, List.not_mem_nil, or_false,
          decide_eq_false_iff_not, not_or] at h2
        exact h2
      rw [this]
    · rw [if_neg hg]
      have hs : suggestion fold ok a b c (x :: xs) = suggestion fold ok a b c xs := by
        unfold suggestion
        rw [List.map_cons, List.find?_cons_of_neg]
        intro hc
        apply hg
        simp only [Bool.and_eq_true, Bool.not_eq_true', decide_eq_true_eq] at hc ⊢
        refine ⟨hc.1, ?_⟩
        simp only [List.contains_eq_mem, List.mem_cons, List.not_mem_nil, or_false,
          decide_eq_false_iff_not, not_or]
        exact hc.2
      rw [hs]
      apply ih
      intro hx
      injection hx with hx
      apply hg
      rw [hx]
      simp only [Bool.and_eq_true, Bool.not_eq_true']
      refine ⟨he, ?_⟩
      simp only [List.contains_eq_mem, List.mem_cons, List.not_mem_nil, or_false,
        decide_eq_false_iff_not, not_or]
      exact hp

theorem evalLine_row (kv : Kv W) (o : Opt W) (ok : PyDict W ℕ)
    (ms : PyDict W ℕ → W → W → W → Except Err (List W)) (sims : W → W → W → List W)
    (hms : ∀ b c a, ms ok b c a = .ok (sims b c a)) (ws : List W) (hp : Proper o ws)
    (done : List (Section W)) (c : Section W) (quads oov : ℕ) :
    ∃ oov', evalLine kv o ok ms ⟨done, some c, quads, oov⟩ (.row ws)
      = .ok ⟨done, some ⟨c.name, c.correct ++ judged o ok sims true [ws],
          c.incorrect ++ judged o ok sims false [ws]⟩, quads + fourWords [ws], oov'⟩ := by
  match ws with
  | [] => exact ⟨oov, by simp [evalLine, judged, judge, fourWords]⟩
  | [_] => exact ⟨oov, by simp [evalLine, judged, judge, fourWords]⟩
  | [_, _] => exact ⟨oov, by simp [evalLine, judged, judge, fourWords]⟩
  | [_, _, _] => exact ⟨oov, by simp [evalLine, judged, judge, fourWords]⟩
  | _ :: _ :: _ :: _ :: _ :: _ => exact ⟨oov, by simp [evalLine, judged, judge, fourWords]⟩
  | [a0, b0, x0, e0] =>
    have hpe := hp (o.fold a0) (o.fold b0) (o.fold x0) (o.fold e0) rfl
    unfold evalLine judged judge fourWords
    simp only [List.map_cons, List.map_nil, List.filterMap_cons, List.filterMap_nil]
    generalize o.fold a0 = a at *
    generalize o.fold b0 = b at *
    generalize o.fold x0 = x at *
    generalize o.fold e0 = e at *
    by_cases hk : ok.contains a ∧ ok.contains b ∧ ok.contains x ∧ ok.contains e
    · have hk' : (!(ok.contains a && ok.contains b && ok.contains x && ok.contains e)) = false := by
        simp [hk.1, hk.2.1, hk.2.2.1, hk.2.2.2]
      refine ⟨oov, ?_⟩
      have hpe := predict_eq o.fold ok a b x e hk.2.2.2 hpe (sims b x a) none (by simp)
      simp only [hk', Bool.false_eq_true, if_false, hms]
      by_cases hs : suggestion o.fold ok a b x (sims b x a) = some e
      · rw [if_pos (hpe.2 hs)]
        simp [hk, hs]
      · rw [if_neg (fun h => hs (hpe.1 h))]
        simp [hk, hs]
    · have hk' : (!(ok.contains a && ok.contains b && ok.contains x && ok.contains e)) = true := by
        by_contra hc
        apply hk
        simpa [Bool.not_eq_true, and_assoc] using hc
      refine ⟨oov + 1, ?_⟩
      simp only [hk', if_true]
      cases o.dummy <;> simp [hk]

theorem judged_cons (o : Opt W) (ok : PyDict W ℕ) (sims : W → W → W → List W) (r : Bool)
    (ws : List W) (rows : List (List W)) :
    judged o ok sims r (ws :: rows) = judged o ok sims r [ws] ++ judged o ok sims r rows := by
  unfold judged
  rw [← List.singleton_append, List.filterMap_append]

theorem fourWords_cons (ws : List W) (rows : List (List W)) :
    fourWords (ws :: rows) = fourWords [ws] + fourWords rows := by
  unfold fourWords
  rw [← List.singleton_append, List.filter_append, List.length_append]

theorem evalLines_rows (kv : Kv W) (o : Opt W) (ok : PyDict W ℕ)
    (ms : PyDict W ℕ → W → W → W → Except Err (List W)) (sims : W → W → W → List W)
    (hms : ∀ b c a, ms ok b c a = .ok (sims b c a)) (rest : List (Line W)) (done : List (Section W))
    (rows : List (List W)) :
    (∀ ws ∈ rows, Proper o ws) → ∀ (c : Section W) (quads oov : ℕ),
    ∃ oov', evalLines kv o ok ms ⟨done, some c, quads, oov⟩ (rows.map .row ++ rest)
      = evalLines kv o ok ms ⟨done, some ⟨c.name, c.correct ++ judged o ok sims true rows,
          c.incorrect ++ judged o ok sims false rows⟩, quads + fourWords rows, oov'⟩ rest := by
  induction rows with
  | nil =>
    intro _ c quads oov
    exact ⟨oov, by simp [judged, fourWords]⟩
  | cons ws rows ih =>
    intro hp c quads oov
    obtain ⟨o1, h1⟩ := evalLine_row kv o ok ms sims hms ws (hp ws (by simp)) done c quads oov
    obtain ⟨o2, h2⟩ := ih (fun x hx => hp x (by simp [hx]))
      ⟨c.name, c.correct ++ judged o ok sims true [ws], c.incorrect ++ judged o ok sims false [ws]⟩
      (quads + fourWords [ws]) o1
    refine ⟨o2, ?_⟩
    simp only [List.map_cons, List.cons_append, evalLines, h1]
    rw [h2, judged_cons o ok sims true ws rows, judged_cons o ok sims false ws rows,
      fourWords_cons ws rows]
    simp only [List.append_assoc, Nat.add_assoc]

theorem evalLines_blocks (kv : Kv W) (o : Opt W) (ok : PyDict W ℕ)
    (ms : PyDict W ℕ → W → W → W → Except Err (List W)) (sims : W → W → W → List W)
    (hms : ∀ b c a, ms ok b c a = .ok (sims b c a)) (bs : List (W × List (List W))) :
    (∀ b ∈ bs, ∀ ws ∈ b.2, Proper o ws) → ∀ (done : List (Section W)) (c : Section W) (quads oov : ℕ),
    ∃ s, evalLines kv o ok ms ⟨done, some c, quads, oov⟩ (linesOf bs) = .ok s ∧
      (∃ c', s.cur = some c' ∧ s.done ++ [c'] = done ++ [c] ++ bs.map (sectionOf o ok sims)) ∧
      s.quads = quads + fourWords (bs.flatMap Prod.snd) := by
  induction bs with
  | nil =>
    intro _ done c quads oov
    exact ⟨⟨done, some c, quads, oov⟩, rfl, ⟨c, rfl, by simp⟩, by simp [fourWords]⟩
  | cons b bs ih =>
    intro hp done c quads oov
    obtain ⟨o1, h1⟩ := evalLines_rows kv o ok ms sims hms (linesOf bs) (done ++ [c]) b.2
      (hp b (by simp)) ⟨some b.1, [], []⟩ quads oov
    obtain ⟨s, e, ⟨c', hc', hd⟩, hq⟩ := ih (fun x hx => hp x (by simp [hx])) (done ++ [c])
      (sectionOf o ok sims b) (quads + fourWords b.2) o1
    refine ⟨s, ?_, ⟨c', hc', ?_⟩, ?_⟩
    · have hl : linesOf (b :: bs) = .header b.1 :: (b.2.map .row ++ linesOf bs) := by
        simp [linesOf]
      rw [hl]
      simp only [evalLines, evalLine]
      rw [h1]
      simp only [List.nil_append]
      exact e
    · rw [hd]; simp
    · rw [hq]
      unfold fourWords
      rw [List.flatMap_cons, List.filter_append, List.length_append]
      omega

/-- **C95.** `evaluate_word_analogies` of a file made of sections, when no analogy expects one of its own
words: one section of the result per section of the file, in order, holding the analogies judged right and
wrong in order; then the total of all sections with its accuracy; and the model's tables as before.
Analogies with unknown words are left out, or counted as wrong with `dummy4unknown`; lines without exactly
four words are left out.  (Finding.)  If no line has four words the call fails with a division by zero. -/
theorem C95_analogies (kv : Kv W) (o : Opt W)
    (ms : PyDict W ℕ → W → W → W → Except Err (List W)) (sims : W → W → W → List W)
    (hms : ∀ b c a, ms (okVocab kv o.fold o.restrict) b c a = .ok (sims b c a))
    (bs : List (W × List (List W))) (hp : ∀ b ∈ bs, ∀ ws ∈ b.2, Proper o ws) :
    let ok := okVocab kv o.fold o.restrict
    let all := bs.flatMap Prod.snd
    let right := judged o ok sims true all
    let wrong := judged o ok sims false all
    evaluateAnalogies kv o ms (some (linesOf bs))
      = if fourWords all = 0 then (.error .zeroDiv, kv.index)
        else (.ok (if right.length + wrong.length = 0 then none
                   else some ((right.length : ℚ) / (right.length + wrong.length)),
               bs.map (sectionOf o ok sims) ++ [⟨none, right, wrong⟩]), kv.index) := by
  intro ok all right wrong
  have htot : totalOf (bs.map (sectionOf o ok sims)) = ⟨none, right, wrong⟩ := by
    have h : ∀ (r : Bool) (l : List (W × List (List W))),
        (l.flatMap fun b => judged o ok sims r b.2) = judged o ok sims r (l.flatMap Prod.snd) := by
      intro r l
      induction l with
      | nil => rfl
      | cons x xs ih =>
        rw [List.flatMap_cons, ih, List.flatMap_cons]
        unfold judged
        rw [List.filterMap_append]
    unfold totalOf
    rw [List.flatMap_map, List.flatMap_map]
    have e1 := h true bs
    have e2 := h false bs
    simp only [sectionOf]
    rw [e1, e2]
  have hacc : accuracy (⟨none, right, wrong⟩ : Section W)
      = if right.length + wrong.length = 0 then none
        else some ((right.length : ℚ) / (right.length + wrong.length)) := by
    unfold accuracy
    by_cases h : right.length + wrong.length = 0
    · rw [if_pos h, if_neg (by simp only; omega)]
    · rw [if_neg h, if_pos (by simp only; omega)]
  cases bs with
  | nil => simp [evaluateAnalogies, linesOf, evalLines, fourWords, all]
  | cons b bs =>
    obtain ⟨o1, h1⟩ := evalLines_rows kv o ok ms sims hms (linesOf bs) [] b.2
      (hp b (by simp)) ⟨some b.1, [], []⟩ 0 0
    obtain ⟨s, e, ⟨c', hc', hd⟩, hq⟩ := evalLines_blocks kv o ok ms sims hms bs
      (fun x hx => hp x (by simp [hx])) [] (sectionOf o ok sims b) (0 + fourWords b.2) o1
    have hl : linesOf (b :: bs) = .header b.1 :: (b.2.map .row ++ linesOf bs) := by
      simp [linesOf]
    have hrun : evalLines kv o ok ms ⟨[], none, 0, 0⟩ (linesOf (b :: bs)) = .ok s := by
      rw [hl]
      simp only [evalLines, evalLine]
      rw [h1]
      simp only [List.nil_append]
      exact e
    have hquads : s.quads = fourWords all := by
      rw [hq]
      simp only [all, fourWords]
      rw [List.flatMap_cons, List.filter_append, List.length_append]
      omega
    have hsec : s.done ++ [c'] = (b :: bs).map (sectionOf o ok sims) := by
      rw [hd]; simp
    have hrun' : evalLines kv o (okVocab kv o.fold o.restrict) ms ⟨[], none, 0, 0⟩ (linesOf (b :: bs))
        = .ok s := hrun
    unfold evaluateAnalogies
    simp only [hrun', hc', hquads, hsec, htot, hacc]

/-- **C95.** How many analogies are judged: with `dummy4unknown` all lines with four words, otherwise those
whose words are all in the restricted vocabulary; so the accuracy lies between `0` and `1`. -/
theorem C95_counts (o : Opt W) (ok : PyDict W ℕ) (sims : W → W → W → List W) (rows : List (List W)) :
    (judged o ok sims true rows).length + (judged o ok sims false rows).length
      = (rows.filter fun ws => decide (ws.length = 4) &&
          (o.dummy || ws.all fun w => ok.contains (o.fold w))).length := by
  induction rows with
  | nil => rfl
  | cons ws rows ih =>
    have hsplit : ws :: rows = [ws] ++ rows := rfl
    rw [judged_cons o ok sims true ws rows, judged_cons o ok sims false ws rows, List.length_append,
      List.length_append]
    conv_rhs => rw [hsplit, List.filter_append, List.length_append]
    rw [← ih]
    have h1 : (judged o ok sims true [ws]).length + (judged o ok sims false [ws]).length
        = ([ws].filter fun ws => decide (ws.length = 4) &&
          (o.dummy || ws.all fun w => ok.contains (o.fold w))).length := by
      unfold judged judge
      match ws with
      | [] => simp
      | [_] => simp
      | [_, _] => simp
      | [_, _, _] => simp
      | _ :: _ :: _ :: _ :: _ :: _ => simp
      | [a, b, c, e] =>
        simp only [List.map_cons, List.map_nil, List.filterMap_cons, List.filterMap_nil]
        by_cases hk : ok.contains (o.fold a) ∧ ok.contains (o.fold b) ∧ ok.contains (o.fold c) ∧
            ok.contains (o.fold e)
        · by_cases hs : suggestion o.fold ok (o.fold a) (o.fold b) (o.fold c)
            (sims (o.fold b) (o.fold c) (o.fold a)) = some (o.fold e)
          · simp [hk, hs]
          · simp [hk, hs]
        · have hk' : ([a, b, c, e].all fun w => ok.contains (o.fold w)) = false := by
            by_contra hc
            apply hk
            simpa [Bool.not_eq_false] using hc
          cases hd : o.dummy
          · simp [hk, hk', -List.all_cons]
          · simp [hk, -List.all_cons]
    omega

/-- **C95.** A file that starts with something else than a section header is refused, with the model's
tables as before. -/
theorem C95_missing_header (kv : Kv W) (o : Opt W)
    (ms : PyDict W ℕ → W → W → W → Except Err (List W)) (ws : List W) (rest : List (Line W)) :
    evaluateAnalogies kv o ms (some (.row ws :: rest)) = (.error .value, kv.index) := by
  simp [evaluateAnalogies, evalLines, evalLine]

/-- A three-word model for the examples: `1` is the lower case of `101`, and so on. -/
def exampleKv : Kv ℕ := ⟨[1, 2, 3, 4], [(1, 0), (2, 1), (3, 2), (4, 3)]⟩

/-- The case folding of the examples. -/
def up (w : ℕ) : ℕ := if w < 100 then w + 100 else w

example : exampleKv.Ok := by
  refine ⟨by decide, ?_⟩
  intro i k h
  match i with
  | 0 => simp [exampleKv] at h; subst h; rfl
  | 1 => simp [exampleKv] at h; subst h; rfl
  | 2 => simp [exampleKv] at h; subst h; rfl
  | 3 => simp [exampleKv] at h; subst h; rfl
  | n + 4 => simp [exampleKv] at h

example : (evaluateAnalogies exampleKv ⟨up, 10, false⟩ (fun _ _ _ _ => .ok [4, 1])
    (some (linesOf [(7, [[1, 2, 3, 4], [1, 2, 4, 3], [1, 2], [1, 2, 3, 9]])]))).1.toOption
    = some (some (1 / 2), [⟨some 7, [(101, 102, 103, 104)], [(101, 102, 104, 103)]⟩,
        ⟨none, [(101, 102, 103, 104)], [(101, 102, 104, 103)]⟩]) := by decide +kernel

/-- **C95 (finding).** An analogy that expects one of its own words is counted as right when every
suggestion is one of its own words and the last is the expected one: excluded words can be predicted. -/
theorem C95_excluded_word_predicted :
    (evaluateAnalogies exampleKv ⟨up, 10, false⟩ (fun _ _ _ _ => .ok [1, 2])
      (some (linesOf [(7, [[1, 2, 3, 2]])]))).1.toOption
      = some (some 1, [⟨some 7, [(101, 102, 103, 102)], []⟩, ⟨none, [(101, 102, 103, 102)], []⟩]) ∧
    judged ⟨up, 10, false⟩ (okVocab exampleKv up 10) (fun _ _ _ => [1, 2]) true [[1, 2, 3, 2]] = [] := by
  decide +kernel

/-! ### The tables after a failure -/

/-- **C95 (finding).** A similarity query that fails while analogies are evaluated, and a word-pair file
that cannot be opened (or a pair whose similarity fails), leave the model with the restricted, case-folded
table in place of its own (an analogy file that cannot be opened does not). -/
theorem C95_failure_leaves_folded_table (kv : Kv W) (o : Opt W) :
    (∀ (ms : PyDict W ℕ → W → W → W → Except Err (List W)) name a b c e rest er,
      (∀ w ∈ [a, b, c, e], (okVocab kv o.fold o.restrict).contains (o.fold w) = true) →
      ms (okVocab kv o.fold o.restrict) (o.fold b) (o.fold c) (o.fold a) = .error er →
      evaluateAnalogies kv o ms (some (.header name :: .row [a, b, c, e] :: rest))
        = (.error er, okVocab kv o.fold o.restrict)) ∧
    (∀ parse similarity corr,
      evaluatePairs kv o parse similarity corr none = (.error .io, okVocab kv o.fold o.restrict)) ∧
    (∀ parse (similarity : PyDict W ℕ → W → W → Except Err ℚ) corr a b x v rest er,
      (∀ w ∈ [a, b], (okVocab kv o.fold o.restrict).contains (o.fold w) = true) →
      parse (o.fold x) = some v →
      similarity (okVocab kv o.fold o.restrict) (o.fold a) (o.fold b) = .error er →
      evaluatePairs kv o parse similarity corr (some (.fields [a, b, x] :: rest))
        = (.error er, okVocab kv o.fold o.restrict)) ∧
    (∀ ms, evaluateAnalogies kv o ms none = (.error .io, kv.index)) := by
  refine ⟨?_, ?_, ?_, ?_⟩
  · intro ms name a b c e rest er hk her
    have ha := hk a (by simp)
    have hb := hk b (by simp)
    have hc := hk c (by simp)
    have he := hk e (by simp)
    simp [evaluateAnalogies, evalLines, evalLine, ha, hb, hc, he, her]
  · intro parse similarity corr
    rfl
  · intro parse similarity corr a b x v rest er hk hx her
    have ha := hk a (by simp)
    have hb := hk b (by simp)
    simp [evaluatePairs, pairLines, pairLine, ha, hb, hx, her]
  · intro ms
    rfl

/-- **C95 (finding), on a case.** After a word-pair file could not be opened no lower-case word of the
model is found any more. -/
theorem C95_failure_example (corr : List ℚ → List ℚ → Bool) :
    (∀ w ∈ exampleKv.keys, PyDict.get? exampleKv.index w ≠ none) ∧
    (∀ w ∈ exampleKv.keys, PyDict.get? (evaluatePairs exampleKv ⟨up, 10, false⟩ (fun _ => none)
      (fun _ _ _ => .ok 0) corr none).2 w = none) := by
  constructor
  · decide
  · have h : (evaluatePairs exampleKv ⟨up, 10, false⟩ (fun _ => none)
        (fun _ _ _ => .ok 0) corr none).2 = okVocab exampleKv up 10 := rfl
    rw [h]
    decide

/-! ### Word pairs -/

/-- The pair and the number on a line, if it has them. -/
def pairOf (o : Opt W) (parse : W → Option ℚ) : PairLine W → Option (W × W × ℚ)
  | .comment => none
  | .fields fs =>
    match fs.map o.fold with
    | [a, b, x] => (parse x).map fun v => (a, b, v)
    | _ => none

/-- The pairs compared: with `dummy4unknown` all, otherwise those with both words known. -/
def compared (o : Opt W) (ok : PyDict W ℕ) (parse : W → Option ℚ) (ls : List (PairLine W)) :
    List (W × W × ℚ) :=
  (ls.filterMap (pairOf o parse)).filter fun p => o.dummy || (ok.contains p.1 && ok.contains p.2.1)

/-- The pairs with an unknown word. -/
def unknown (o : Opt W) (ok : PyDict W ℕ) (parse : W → Option ℚ) (ls : List (PairLine W)) :
    List (W × W × ℚ) :=
  (ls.filterMap (pairOf o parse)).filter fun p => !(ok.contains p.1 && ok.contains p.2.1)

theorem pairLines_eq (o : Opt W) (ok : PyDict W ℕ) (parse : W → Option ℚ)
    (similarity : PyDict W ℕ → W → W → Except Err ℚ) (sim : W → W → ℚ)
    (hs : ∀ a b, similarity ok a b = .ok (sim a b)) (ls : List (PairLine W)) : ∀ s : PairLoop,
    pairLines o ok parse similarity s ls
      = .ok ⟨s.gold ++ (compared o ok parse ls).map fun p => p.2.2,
          s.model ++ (compared o ok parse ls).map fun p =>
            if ok.contains p.1 && ok.contains p.2.1 then sim p.1 p.2.1 else 0,
          s.oov + (unknown o ok parse ls).length⟩ := by
  induction ls with
  | nil => intro s; simp [pairLines, compared, unknown]
  | cons l ls ih =>
    intro s
    have hstep : pairLine o ok parse similarity s l
        = .ok ⟨s.gold ++ (compared o ok parse [l]).map fun p => p.2.2,
          s.model ++ (compared o ok parse [l]).map fun p =>
            if ok.contains p.1 && ok.contains p.2.1 then sim p.1 p.2.1 else 0,
          s.oov + (unknown o ok parse [l]).length⟩ := by
      cases l with
      | comment =>
        have h : [(PairLine.comment : PairLine W)].filterMap (pairOf o parse) = [] := rfl
        simp [pairLine, compared, unknown, h]
      | fields fs =>
        simp only [pairLine, compared, unknown, pairOf, List.filterMap_cons, List.filterMap_nil]
        match hm : fs.map o.fold with
        | [] => simp
        | [_] => simp
        | [_, _] => simp
        | _ :: _ :: _ :: _ :: _ => simp
        | [a, b, x] =>
          simp only
          cases hx : parse x with
          | none => simp
          | some v =>
            simp only [Option.map_some]
            by_cases hk : (ok.contains a && ok.contains b) = true
            · have hka : ok.contains a = true ∧ ok.contains b = true := by simpa using hk
              simp [hka.1, hka.2, hs]
            · have hk' : (ok.contains a && ok.contains b) = false := by simpa using hk
              cases o.dummy <;>
                (rcases Bool.and_eq_false_iff.1 hk' with h | h <;> simp [h, List.filter])
    have hc : compared o ok parse (l :: ls) = compared o ok parse [l] ++ compared o ok parse ls := by
      unfold compared
      rw [← List.singleton_append, List.filterMap_append, List.filter_append]
    have hu : unknown o ok parse (l :: ls) = unknown o ok parse [l] ++ unknown o ok parse ls := by
      unfold unknown
      rw [← List.singleton_append, List.filterMap_append, List.filter_append]
    simp only [pairLines, hstep]
    rw [ih, hc, hu]
    simp [Nat.add_assoc]

/-- **C95.** `evaluate_word_pairs` compares the given similarities of the pairs — all of them with
`dummy4unknown`, otherwise those with both words in the vocabulary — with the model's, in file order,
unknown pairs counting as similarity `0`; it reports the percentage of pairs with an unknown word among all
pairs, whichever way they are treated; and it puts the model's table back, also when the correlation
functions refuse the lists. -/
theorem C95_pairs (kv : Kv W) (o : Opt W) (parse : W → Option ℚ)
    (similarity : PyDict W ℕ → W → W → Except Err ℚ) (sim : W → W → ℚ)
    (hs : ∀ a b, similarity (okVocab kv o.fold o.restrict) a b = .ok (sim a b))
    (corr : List ℚ → List ℚ → Bool) (ls : List (PairLine W)) :
    let ok := okVocab kv o.fold o.restrict
    let ps := compared o ok parse ls
    let all := ls.filterMap (pairOf o parse)
    let gold := ps.map fun p => p.2.2
    let model := ps.map fun p => if ok.contains p.1 && ok.contains p.2.1 then sim p.1 p.2.1 else 0
    evaluatePairs kv o parse similarity corr (some ls)
      = if corr gold model = false then (.error .value, kv.index)
        else if all = [] then (.error .zeroDiv, kv.index)
        else (.ok (gold, model, ((unknown o ok parse ls).length : ℚ) / all.length * 100), kv.index) := by
  intro ok ps all gold model
  have hlen : ps.length = if o.dummy then all.length
      else all.length - (unknown o ok parse ls).length := by
    simp only [ps, compared, unknown, all]
    cases hd : o.dummy
    · have := List.length_eq_length_filter_add (l := ls.filterMap (pairOf o parse))
        (fun p => ok.contains p.1 && ok.contains p.2.1)
      simp only [Bool.false_or]
      simp only [Bool.false_eq_true, if_false]
      omega
    · simp
  have hle : (unknown o ok parse ls).length ≤ all.length := List.length_filter_le _ _
  unfold evaluatePairs
  simp only
  rw [pairLines_eq o ok parse similarity sim hs]
  simp only [List.nil_append, Nat.zero_add]
  by_cases hc : corr gold model = false
  · rw [if_pos hc, if_pos]
    show (!corr gold model) = true
    rw [hc]; rfl
  · rw [if_neg hc, if_neg]
    swap
    · show ¬ (!corr gold model) = true
      intro h; exact hc (by simpa using h)
    have hg : gold.length = ps.length := by simp [gold]
    unfold oovRatio
    cases hd : o.dummy
    · rw [hd] at hlen
      simp only [Bool.false_eq_true, if_false] at hlen ⊢
      have hsum : gold.length + (unknown o ok parse ls).length = all.length := by omega
      by_cases ha : all = []
      · rw [if_pos ha]
        have h0 : all.length = 0 := by rw [ha]; rfl
        have : (ps.map fun p => p.2.2).length + (unknown o ok parse ls).length = 0 := by
          have : (ps.map fun p => p.2.2).length = gold.length := rfl
          omega
        rw [if_pos this]
      · rw [if_neg ha]
        have h0 : ¬ all.length = 0 := fun h => ha (List.length_eq_zero_iff.1 h)
        have h1 : ¬ (ps.map fun p => p.2.2).length + (unknown o ok parse ls).length = 0 := by
          have : (ps.map fun p => p.2.2).length = gold.length := rfl
          omega
        rw [if_neg h1]
        have h2 : (((ps.map fun p => p.2.2).length : ℚ) + ((unknown o ok parse ls).length : ℚ))
            = (all.length : ℚ) := by
          rw [← hsum]; push_cast; rfl
        rw [h2]
    · rw [hd] at hlen
      simp only [if_true] at hlen ⊢
      have hgl : (ps.map fun p => p.2.2).length = all.length := by
        have : (ps.map fun p => p.2.2).length = gold.length := rfl
        omega
      by_cases ha : all = []
      · rw [if_pos ha]
        have h0 : all.length = 0 := by rw [ha]; rfl
        rw [if_pos (hgl.trans h0)]
      · rw [if_neg ha]
        have h0 : ¬ all.length = 0 := fun h => ha (List.length_eq_zero_iff.1 h)
        rw [if_neg (fun h => h0 (hgl.symm.trans h)), hgl]

example : (evaluatePairs exampleKv ⟨up, 10, false⟩ (fun w => some (w : ℚ)) (fun _ a b => .ok (a * b))
    (fun _ _ => true) (some [.comment, .fields [1, 2, 105], .fields [1, 9, 105], .fields [1]])).1.toOption
    = some ([105], [101 * 102], 50) := by decide +kernel

end Verif.KvEval

import Verif.Phrases.ScoreModel
import Verif.Phrases.FrozenProps

/-!
# C117: scoring, arguments and loading of phrase models
-/

namespace Verif.Phrases
open Verif PyDict Text Vocab

/-! ## Counts of a model -/

/-- What the counts of a model satisfy: `sents` are all sentences learned so far. -/
structure Bounded (S : Type) [LinearOrder S] (c : Cfg S) (d : Char) (sents : List (List Str)) (s : Ph) : Prop where
  free : ∀ x ∈ sents, ∀ w ∈ x, d ∉ w
  le : ∀ k, getD s.vocab k 0 ≤ trueCount c sents k
  words : s.corpusWords = nWords sents

section
variable {S : Type} [LinearOrder S]

theorem reach_bounded {c : Cfg S} {d : Char} (hd : c.delim = [d]) {s : Ph} (h : Reach c d s) :
    ∃ sents, Bounded S c d sents s ∧ Upper c sents s := by
  induction h with
  | empty => exact ⟨[], ⟨by simp, by simp [Ph.empty, getD], rfl⟩, ⟨WF_nil, by simp [Ph.empty, getD], rfl, le_rfl⟩⟩
  | @add s batch hb _ ih =>
    obtain ⟨sents, h1, h2⟩ := ih
    have h3 := upper_add c h2 batch
    refine ⟨sents ++ batch, ⟨?_, h3.le, h3.words⟩, h3⟩
    intro x hx w hw
    rcases List.mem_append.1 hx with hx | hx
    · exact h1.free x hx w hw
    · exact (hb x hx w hw).2
  | @transform s sent hs hr ih =>
    obtain ⟨sents, h1, h2⟩ := ih
    have hi := (Reach.inv hd hr).1
    obtain ⟨k1, k2⟩ := transform_keeps c hd hi sent hs
    have hle : ∀ k, getD (transform c s sent).1.vocab k 0 ≤ trueCount c sents k := by
      intro k
      rw [k2]
      exact h1.le k
    exact ⟨sents, ⟨h1.free, hle, h1.words⟩, ⟨k1.wf, hle, h2.words, h2.pos⟩⟩

theorem word_le {conn sent : List Str} {d : Char} (hs : ∀ w ∈ sent, d ∉ w) (k : Str) (hk : d ∉ k) :
    occurs (counted conn [d] sent) k ≤ sent.length := by
  have h0 : occurs ((candidatesOf conn sent).map (textOf [d])) k = 0 := by
    by_contra hn
    obtain ⟨t, _, ht⟩ := List.mem_map.1 (occurs_pos.1 (Nat.pos_of_ne_zero hn))
    apply hk
    rw [← ht]
    exact isPhrase_text d t.1 t.2.2 t.2.1
  simp only [counted, occurs_append, h0, Nat.add_zero]
  exact (List.countP_le_length).trans (List.length_filter_le _ _)

theorem phrase_lt {conn sent : List Str} {d : Char} (hs : ∀ w ∈ sent, d ∉ w) (k : Str) (hk : d ∈ k)
    (hp : 0 < occurs (counted conn [d] sent) k) : occurs (counted conn [d] sent) k < sent.length := by
  obtain ⟨h1, _, _⟩ := candidates_first conn sent
  have h0 : occurs (sent.filter (fun w => decide (w ∉ conn))) k = 0 := by
    by_contra hn
    have := occurs_pos.mp (Nat.pos_of_ne_zero hn)
    exact hs k (List.mem_of_mem_filter this) hk
  simp only [counted, occurs_append, h0, Nat.zero_add] at hp ⊢
  have h2 : occurs ((candidatesOf conn sent).map (textOf [d])) k ≤ (candidatesOf conn sent).length := by
    refine List.countP_le_length.trans ?_
    rw [List.length_map]
  have h3 := congrArg List.length h1
  rw [List.length_map, List.length_dropLast] at h3
  have h4 := List.length_filter_le (fun w => decide (w ∉ conn)) sent
  omega

theorem bounded_word {c : Cfg S} {d : Char} (hd : c.delim = [d]) {sents : List (List Str)} {s : Ph}
    (h : Bounded S c d sents s) (k : Str) (hk : d ∉ k) : getD s.vocab k 0 ≤ s.corpusWords := by
  refine (h.le k).trans ?_
  rw [h.words]
  have hf := h.free
  clear h
  induction sents with
  | nil => simp [trueCount]
  | cons x xs ih =>
    have h1 := word_le (conn := c.connectors) (hf x (by simp)) k hk
    have h2 := ih fun y hy => hf y (by simp [hy])
    have h3 := trueCount_append c [x] xs k
    rw [trueCount_single] at h3
    rw [← hd] at h1
    simp only [nWords, List.map_cons, List.sum_cons, List.singleton_append] at h2 h3 ⊢
    omega

theorem bounded_phrase {c : Cfg S} {d : Char} (hd : c.delim = [d]) {sents : List (List Str)} {s : Ph}
    (h : Bounded S c d sents s) (k : Str) (hk : d ∈ k) (hp : 0 < getD s.vocab k 0) :
    getD s.vocab k 0 < s.corpusWords := by
  have hpos : 0 < trueCount c sents k := hp.trans_le (h.le k)
  refine (h.le k).trans_lt ?_
  rw [h.words]
  have hf := h.free
  clear h hp
  have key : ∀ sents : List (List Str), (∀ x ∈ sents, ∀ w ∈ x, d ∉ w) →
      trueCount c sents k ≤ nWords sents ∧ (0 < trueCount c sents k → trueCount c sents k < nWords sents) := by
    intro sents
    induction sents with
    | nil => intro _; simp [trueCount]
    | cons x xs ih =>
      intro hf
      obtain ⟨i1, i2⟩ := ih fun y hy => hf y (by simp [hy])
      have h1 := phrase_lt (conn := c.connectors) (hf x (by simp)) k hk
      have h3 := trueCount_append c [x] xs k
      rw [trueCount_single] at h3
      rw [← hd] at h1
      simp only [nWords, List.map_cons, List.sum_cons, List.singleton_append] at i1 i2 h3 ⊢
      constructor <;> omega
  exact (key sents hf).2 hpos

end

/-! ## The scores -/

/-- **C117.** The default score does not depend on the order of the two words, grows with the count of the phrase, and is
positive exactly when the phrase was seen more than `min_count` times; it is `-inf` if one of the words was not seen. -/
theorem C117_default (a b n len minCount words : ℕ) :
    defaultScorer a b n len minCount words = defaultScorer b a n len minCount words ∧
    (∀ n', n ≤ n' → defaultScorer a b n len minCount words ≤ defaultScorer a b n' len minCount words) ∧
    (a = 0 ∨ b = 0 → defaultScorer a b n len minCount words = ⊥) ∧
    (0 < a → 0 < b → 0 < len → (0 < defaultScorer a b n len minCount words ↔ minCount < n)) := by
  refine ⟨?_, ?_, ?_, ?_⟩
  · simp only [defaultScorer]
    rw [Nat.mul_comm a b]
  · intro n' hn
    simp only [defaultScorer]
    split
    · exact le_rfl
    · rw [WithBot.coe_le_coe]
      have : (n : ℝ) ≤ n' := by exact_mod_cast hn
      gcongr
  · intro h
    have : a * b = 0 := Nat.mul_eq_zero.2 h
    simp [defaultScorer, this]
  · intro ha hb hl
    have hab : a * b ≠ 0 := Nat.mul_ne_zero ha.ne' hb.ne'
    simp only [defaultScorer]
    rw [if_neg hab, ← WithBot.coe_zero, WithBot.coe_lt_coe]
    have h1 : (0 : ℝ) < (a * b : ℕ) := by exact_mod_cast Nat.pos_of_ne_zero hab
    have h2 : (0 : ℝ) < len := by exact_mod_cast hl
    constructor
    · intro h
      have h3 := (pos_iff_pos_of_mul_pos h).2 h2
      have h4 : 0 < (n : ℝ) - minCount := by
        by_contra hc
        exact absurd h3 (not_lt.2 (div_nonpos_of_nonpos_of_nonneg (not_lt.1 hc) h1.le))
      have : (minCount : ℝ) < n := by linarith
      exact_mod_cast this
    · intro h
      have : (minCount : ℝ) < n := by exact_mod_cast h
      have h3 : 0 < (n : ℝ) - minCount := by linarith
      positivity

/-- The arithmetic of `npmi`. -/
theorem npmi_range {a b n w : ℕ} (hn : 0 < n) (hna : n ≤ a) (hnb : n ≤ b) (ha : a ≤ w) (hb : b ≤ w) (hw : n < w) :
    let v := Real.log ((n / w : ℝ) / ((a / w : ℝ) * (b / w : ℝ))) / -Real.log (n / w : ℝ)
    (a / w : ℝ) * (b / w : ℝ) ≠ 0 ∧ (n / w : ℝ) ≠ 0 ∧ Real.log (n / w : ℝ) ≠ 0 ∧ -1 ≤ v ∧ v ≤ 1 := by
  have cn : (0 : ℝ) < n := by exact_mod_cast hn
  have cna : (n : ℝ) ≤ a := by exact_mod_cast hna
  have cnb : (n : ℝ) ≤ b := by exact_mod_cast hnb
  have ca : (a : ℝ) ≤ w := by exact_mod_cast ha
  have cb : (b : ℝ) ≤ w := by exact_mod_cast hb
  have cw : (n : ℝ) < w := by exact_mod_cast hw
  have w0 : (0 : ℝ) < w := cn.trans cw
  have a0 : (0 : ℝ) < a := cn.trans_le cna
  have b0 : (0 : ℝ) < b := cn.trans_le cnb
  have hpab : (n / w : ℝ) < 1 := (div_lt_one w0).2 cw
  have hpab0 : (0 : ℝ) < n / w := by positivity
  have hneg : Real.log (n / w : ℝ) < 0 := Real.log_neg hpab0 hpab
  have hp0 : (0 : ℝ) < a / w * (b / w) := by positivity
  have hp1 : (a / w : ℝ) * (b / w) ≤ 1 :=
    mul_le_one₀ ((div_le_one w0).2 ca) (by positivity) ((div_le_one w0).2 cb)
  dsimp only
  refine ⟨hp0.ne', hpab0.ne', hneg.ne, ?_, ?_⟩
  · rw [le_div_iff₀ (by linarith)]
    have : Real.log (n / w : ℝ) ≤ Real.log ((n / w : ℝ) / ((a / w : ℝ) * (b / w : ℝ))) := by
      apply Real.log_le_log hpab0
      rw [le_div_iff₀ hp0]
      nlinarith
    linarith
  · rw [div_le_iff₀ (by linarith), one_mul, ← Real.log_inv]
    apply Real.log_le_log (by positivity)
    rw [div_le_iff₀ hp0]
    have e : (n / w : ℝ)⁻¹ * ((a / w : ℝ) * (b / w)) = (a * b) / (n * w) := by field_simp
    rw [e, div_le_div_iff₀ w0 (by positivity)]
    have : (n : ℝ) * n ≤ a * b := mul_le_mul cna cnb cn.le a0.le
    nlinarith

/-- **C117.** For every model trained and used with tokens that do not contain the delimiter, whatever was pruned, and every
candidate it scores: `npmi_scorer` raises nothing, and gives `-inf` for a phrase seen less than `min_count` times and a
score between -1 and 1 for every other. -/
theorem C117_npmi {S : Type} [LinearOrder S] (c : Cfg S) {d : Char} (hd : c.delim = [d]) {s : Ph} (h : Reach c d s)
    (a b : Str) (mid : List Str) (ha : d ∉ a) (hb : d ∉ b) (hm : ∀ m ∈ mid, d ∉ m) (len : ℕ)
    (hp : 0 < getD s.vocab (joinWith c.delim ([a] ++ mid ++ [b])) 0) :
    let n := getD s.vocab (joinWith c.delim ([a] ++ mid ++ [b])) 0
    ∃ x, npmiScorer (getD s.vocab a 0) (getD s.vocab b 0) n len c.minCount s.corpusWords = .ok x ∧
      (n < c.minCount → x = ⊥) ∧ (c.minCount ≤ n → ((-1 : ℝ) : WithBot ℝ) ≤ x ∧ x ≤ 1) := by
  obtain ⟨sents, hB, _⟩ := reach_bounded hd h
  have hV := (Reach.inv hd h).1
  rw [hd] at hp ⊢
  dsimp only
  have hk : isPhrase d (joinWith [d] ([a] ++ mid ++ [b])) := isPhrase_text d a b mid
  obtain ⟨l1, l2⟩ := hV.le _ hk
  have f1 := first_text ha hb hm
  have f2 := last_text ha hb hm
  rw [f1] at l1
  rw [f2] at l2
  have h1 := bounded_word hd hB a ha
  have h2 := bounded_word hd hB b hb
  have h3 := bounded_phrase hd hB _ hk hp
  generalize getD s.vocab (joinWith [d] ([a] ++ mid ++ [b])) 0 = n at *
  obtain ⟨r1, r2, r3, r4, r5⟩ := npmi_range hp l1 l2 h1 h2 h3
  by_cases hmc : c.minCount ≤ n
  · have hx : npmiScorer (getD s.vocab a 0) (getD s.vocab b 0) n len c.minCount s.corpusWords
        = .ok ((Real.log ((n / s.corpusWords : ℝ) / ((getD s.vocab a 0 / s.corpusWords : ℝ)
          * (getD s.vocab b 0 / s.corpusWords : ℝ))) / -Real.log (n / s.corpusWords : ℝ) : ℝ) : WithBot ℝ) := by
      unfold npmiScorer
      rw [if_pos hmc, if_neg (by omega)]
      dsimp only
      rw [if_neg r1, if_neg r2, if_neg r3]
    refine ⟨_, hx, fun hc => absurd hmc (by omega), fun _ => ?_⟩
    · constructor
      · exact WithBot.coe_le_coe.2 r4
      · exact WithBot.coe_le_coe.2 r5
  · refine ⟨⊥, ?_, fun _ => rfl, fun hc => absurd hc hmc⟩
    unfold npmiScorer
    rw [if_neg hmc]

theorem scoreCandidate_count {S : Type} [LinearOrder S] (c : Cfg S) (words : ℕ) (v : PyDict Str ℕ) (a b : Str)
    (mid : List Str) (p : Str) (x : S) (h : (scoreCandidate c words v a b mid).2 = some (p, x)) :
    p = joinWith c.delim ([a] ++ mid ++ [b]) ∧ 0 < getD v a 0 ∧ 0 < getD v b 0 ∧ 0 < getD v p 0 ∧ c.threshold < x ∧
      ∃ len, 0 < len ∧ x = c.scoring (getD v a 0) (getD v b 0) (getD v p 0) len c.minCount words := by
  unfold scoreCandidate at h
  dsimp only at h
  split at h
  · simp at h
  · rename_i h1
    split at h
    · simp at h
    · rename_i h2
      split at h
      · simp at h
      · rename_i h3
        split at h
        · simp at h
        · rename_i h4
          simp only [Option.some.injEq, Prod.mk.injEq] at h
          obtain ⟨rfl, hx⟩ := h
          simp only [getD_touch] at h1 h2 h3 h4 hx
          have hlen : 0 < (touch (touch (touch v a) b) (joinWith c.delim ([a] ++ mid ++ [b]))).length := by
            have hm := mem_of_getD_pos (v := touch (touch (touch v a) b) (joinWith c.delim ([a] ++ mid ++ [b])))
              (k := a) (by simp only [getD_touch]; omega)
            apply List.length_pos_of_ne_nil
            intro hnil
            rw [hnil] at hm
            simp [keys] at hm
          exact ⟨rfl, by omega, by omega, by omega, hx ▸ not_le.1 h4, _, hlen, hx.symm⟩

/-- **C117.** With the default scoring and a threshold that is not negative, a phrase found was seen more than `min_count`
times. -/
theorem C117_default_found (c : Cfg (WithBot ℝ)) (hs : c.scoring = defaultScorer) (ht : 0 ≤ c.threshold) (s : Ph)
    (a b : Str) (mid : List Str) (p : Str) (x : WithBot ℝ)
    (h : (scoreCandidate c s.corpusWords s.vocab a b mid).2 = some (p, x)) : c.minCount < getD s.vocab p 0 := by
  obtain ⟨_, ha, hb, _, hx, len, hlen, he⟩ := scoreCandidate_count c _ _ a b mid p x h
  rw [he, hs] at hx
  exact ((C117_default _ _ _ len c.minCount s.corpusWords).2.2.2 ha hb hlen).1 (ht.trans_lt hx)

/-- **C117.** With `npmi` scoring a phrase found was seen at least `min_count` times, and its score is at most 1 (and above
the threshold). -/
theorem C117_npmi_found (c : Cfg (WithBot ℝ)) (hs : c.scoring = npmiScoring) {d : Char} (hd : c.delim = [d]) {s : Ph}
    (hr : Reach c d s) (a b : Str) (mid : List Str) (ha : d ∉ a) (hb : d ∉ b) (hm : ∀ m ∈ mid, d ∉ m) (p : Str)
    (x : WithBot ℝ) (h : (scoreCandidate c s.corpusWords s.vocab a b mid).2 = some (p, x)) :
    c.minCount ≤ getD s.vocab p 0 ∧ c.threshold < x ∧ ((-1 : ℝ) : WithBot ℝ) ≤ x ∧ x ≤ 1 := by
  obtain ⟨hp, _, _, hpos, hx, len, _, he⟩ := scoreCandidate_count c _ _ a b mid p x h
  subst hp
  obtain ⟨y, y1, y2, y3⟩ := C117_npmi c hd hr a b mid ha hb hm len hpos
  rw [hs] at he
  have hy : x = y := by
    rw [he]
    simp only [npmiScoring, y1]
  by_cases hmc : c.minCount ≤ getD s.vocab (joinWith c.delim ([a] ++ mid ++ [b])) 0
  · rw [hy]
    rw [hy] at hx
    exact ⟨hmc, hx, y3 hmc⟩
  · rw [hy, y2 (by omega)] at hx
    exact absurd hx not_lt_bot

/-- A configuration for examples. -/
noncomputable def npmiCfg : Cfg (WithBot ℝ) := ⟨[], ['_'], npmiScoring, 1, 0, 100⟩

/-- **C117.** A token that contains the delimiter is counted as the phrase, and the score can exceed 1. -/
theorem C117_npmi_collision :
    let s := addVocab npmiCfg Ph.empty [[['a'], ['b']], [['a', '_', 'b']], [['a', '_', 'b']]]
    ∃ x, npmiScorer (getD s.vocab ['a'] 0) (getD s.vocab ['b'] 0) (getD s.vocab ['a', '_', 'b'] 0) s.vocab.length 1
      s.corpusWords = .ok x ∧ 1 < x := by
  have h1 : addVocab npmiCfg Ph.empty [[['a'], ['b']], [['a', '_', 'b']], [['a', '_', 'b']]]
      = ⟨[(['a'], 1), (['b'], 1), (['a', '_', 'b'], 3)], 1, 4⟩ := by
    simp [addVocab, learnVocab, learnSentence, learnWord, Ph.empty, npmiCfg, bump1, PyDict.set, getD, get?, joinWith]
  rw [h1]
  have hl : Real.log (3 / 4 : ℝ) < 0 := Real.log_neg (by norm_num) (by norm_num)
  refine ⟨((Real.log ((3 : ℕ) / (4 : ℕ) / ((1 : ℕ) / (4 : ℕ) * ((1 : ℕ) / (4 : ℕ)))) / -Real.log ((3 : ℕ) / (4 : ℕ)) : ℝ)
    : WithBot ℝ), ?_, ?_⟩
  · have g1 : getD (ν := ℕ) [(['a'], 1), (['b'], 1), (['a', '_', 'b'], 3)] ['a'] 0 = 1 := by decide
    have g2 : getD (ν := ℕ) [(['a'], 1), (['b'], 1), (['a', '_', 'b'], 3)] ['b'] 0 = 1 := by decide
    have g3 : getD (ν := ℕ) [(['a'], 1), (['b'], 1), (['a', '_', 'b'], 3)] ['a', '_', 'b'] 0 = 3 := by decide
    dsimp only
    rw [g1, g2, g3]
    unfold npmiScorer
    dsimp only
    rw [if_pos (by norm_num), if_neg (by norm_num), if_neg (by norm_num), if_neg (by norm_num), if_neg]
    have : (((3 : ℕ) : ℝ) / ((4 : ℕ) : ℝ)) = 3 / 4 := by norm_num
    rw [this]
    exact hl.ne
  · rw [← WithBot.coe_one, WithBot.coe_lt_coe]
    norm_num
    rw [lt_div_iff₀ (by linarith), one_mul, ← Real.log_inv]
    apply Real.log_lt_log <;> norm_num

/-- **C117.** `npmi_scorer` raises ZeroDivisionError if one of the words was never seen, and always if the number of words
is 0, as in a loaded model that did not store it. -/
theorem C117_npmi_errors (a b n len minCount words : ℕ) (hn : minCount ≤ n) :
    (words = 0 ∨ a = 0 ∨ b = 0 → npmiScorer a b n len minCount words = .error .zeroDivision) := by
  intro h
  unfold npmiScorer
  rw [if_pos hn]
  by_cases hw : words = 0
  · rw [if_pos hw]
  · rw [if_neg hw]
    dsimp only
    rw [if_pos]
    rcases h with h | h | h
    · exact absurd h hw
    · simp [h]
    · simp [h]

/-! ## Arguments -/

/-- **C117.** The arguments accepted: a positive `min_count`; for the default scoring a positive threshold; for `npmi` one
between -1 and 1; or a function that has the six parameters, with any threshold. -/
theorem C117_arguments (minCount : ℤ) (threshold : ℚ) (scoring : ScoringArg) :
    checkArgs minCount threshold scoring = .ok () ↔
      0 < minCount ∧ ((scoring = .text "default".toList ∧ 0 < threshold) ∨
        (scoring = .text "npmi".toList ∧ -1 ≤ threshold ∧ threshold ≤ 1) ∨
        ∃ params, scoring = .fn params ∧ ∀ p ∈ scoringParams, p ∈ params) := by
  have hdn : ("default".toList : Str) ≠ "npmi".toList := by decide
  unfold checkArgs
  by_cases h1 : minCount ≤ 0
  · simp [h1]
  · rw [if_neg h1]
    have h1' : 0 < minCount := by omega
    cases scoring with
    | text s =>
      by_cases hs : s = "default".toList
      · subst hs
        by_cases ht : threshold ≤ 0
        · simp [ht, hdn, h1']
        · simp [ht, hdn, h1', not_le.1 ht]
      · by_cases hs2 : s = "npmi".toList
        · subst hs2
          by_cases ht : threshold < -1 ∨ threshold > 1
          · rcases ht with ht | ht
            · simp [ht, h1', hdn.symm]
            · simp [ht, h1', hdn.symm]
          · have ht' := not_or.1 ht
            simp [ht'.1, ht'.2, h1', hdn.symm, not_lt.1 ht'.1, not_lt.1 ht'.2]
        · simp only [ScoringArg.text.injEq, hs, hs2, and_false, false_and, if_false, or_self, false_or]
          simp
    | fn params =>
      by_cases hp : ∀ p ∈ scoringParams, p ∈ params
      · simp [h1', hp]
      · simp [h1', hp]
    | other => simp

/-! ## Sentences and corpora -/

/-- **C117.** An input is taken as a single sentence unless its first item is a sentence; nothing of it is lost, not even
of an iterator; and a corpus that can be read again can still be read again. -/
theorem C117_single (o : Obj) :
    ((isSingle o).1 = false ↔ ∃ s r, o.read.1 = .sent s :: r) ∧ (isSingle o).2.read.1 = o.read.1 ∧
      ((isSingle o).1 = false → (isSingle o).2 = o) := by
  rcases o with (_ | ⟨⟨w⟩ | ⟨s⟩, r⟩) | (_ | ⟨⟨w⟩ | ⟨s⟩, r⟩) <;> simp [isSingle, Obj.read]

/-! ## Loading -/

/-- An object stored by this version: texts for keys and delimiter, scores for values, a function for scoring, connector
words, and (in a `Phrases`, which has a vocabulary) the number of words. -/
structure Current {S : Type} (x : Saved S) : Prop where
  delim : x.delim.isStr
  grams : ∀ g, x.phrasegrams = some g → ∀ k v, (k, v) ∈ g → k.isStr ∧ ∃ s, v = .score s
  vocab : ∀ v, x.vocab = some v → ∀ k n, (k, n) ∈ v → k.isStr
  scoring : x.scoring = some .original ∨ x.scoring = some .npmi ∨ ∃ n, x.scoring = some (.custom n)
  terms : x.commonTerms = none
  connectors : ∃ ws, x.connectorWords = some ws
  words : ∃ n, x.corpusWords = some n

/-- **C117.** Loading a model of this version changes nothing but its connector words, which it always loses. -/
theorem C117_load_current {S : Type} (dec : List UInt8 → Option Str) (x : Saved S) (h : Current x) :
    loadPhrases dec x = .ok { x with connectorWords := some [] } := by
  have h1 : upgradeGrams dec x = .ok x := by
    unfold upgradeGrams
    split
    · rfl
    · rfl
    · rename_i component score rest hg
      obtain ⟨a, s, b⟩ := h.grams _ hg component score (by simp)
      subst b
      cases component <;> simp_all [Key.isStr]
  have h2 : upgradeScoring x = .ok x := by
    unfold upgradeScoring
    rcases h.scoring with hs | hs | ⟨n, hs⟩ <;> rw [hs]
  obtain ⟨n, hn⟩ := h.words
  have h3 : upgradeCount (upgradeTerms x) = { x with connectorWords := some [] } := by
    simp only [upgradeTerms, h.terms, upgradeCount, hn]
  have h4 : upgradeVocab dec { x with connectorWords := some [] } = .ok { x with connectorWords := some [] } := by
    unfold upgradeVocab
    dsimp only
    split
    · rfl
    · rfl
    · rename_i k m rest hv
      rw [if_pos (h.vocab _ hv k m (by simp))]
  simp only [loadPhrases, h1, h2, h3, h4, upgradeDelim, h.delim, if_true]

/-- **C117.** So the same sentence can give another result after loading. -/
theorem C117_connectors_matter :
    let c : Cfg ℕ := ⟨[['o', 'f']], ['_'], fun _ _ _ _ _ _ => 0, 1, 1, 100⟩
    let grams : PyDict Str ℕ := [("bank_of_america".toList, 5)]
    let sent := ["bank".toList, "of".toList, "america".toList]
    frozenTransform c grams sent = ["bank_of_america".toList] ∧
      frozenTransform { c with connectors := [] } grams sent = sent := by
  decide

theorem upgradeTuples_get {S : Type} (dec : List UInt8 → Option Str) (delim component k' : Key) (score : GramVal S)
    (hj : joinKey dec delim component = .ok k') (g : PyDict Key (GramVal S)) :
    upgradeTuples dec delim component score g [(k', score)] = .ok [(k', score)] := by
  induction g with
  | nil => rfl
  | cons e g ih =>
    simp only [upgradeTuples, hj]
    have : set [(k', score)] k' score = [(k', score)] := by simp [PyDict.set]
    rw [this, ih]

/-- **C117.** Phrases stored with tuples of words as keys and plain scores (the previous version) collapse to one: the
first is kept, the others are lost. -/
theorem C117_load_collapse {S : Type} (dec : List UInt8 → Option Str) (x : Saved S) (parts : List (List UInt8)) (s : S)
    (rest : PyDict Key (GramVal S)) (hg : x.phrasegrams = some ((.tuple parts, .score s) :: rest)) (d : List UInt8)
    (hd : x.delim = .bytes d) (t : Str) (ht : dec (joinBytes d parts) = some t) (y : Saved S)
    (hy : loadPhrases dec x = .ok y) : y.phrasegrams = some [(.str t, .score s)] := by
  have hj : joinKey dec x.delim (.tuple parts) = .ok (.str t) := by
    rw [hd]
    simp only [joinKey, ht]
  have h1 : upgradeGrams dec x = .ok { x with phrasegrams := some [(.str t, .score s)] } := by
    unfold upgradeGrams
    simp only [hg, upgradeTuples, hj]
    have : set ([] : PyDict Key (GramVal S)) (.str t) (.score s) = [(.str t, .score s)] := rfl
    rw [this, upgradeTuples_get dec x.delim (.tuple parts) (.str t) (.score s) hj]
  rw [loadPhrases, h1] at hy
  dsimp only at hy
  have h2 : ∀ z z' : Saved S, upgradeScoring z = .ok z' → z'.phrasegrams = z.phrasegrams := by
    intro z z' h
    unfold upgradeScoring at h
    split at h
    · simp only [Except.ok.injEq] at h; rw [← h]
    · split at h
      · simp only [Except.ok.injEq] at h; rw [← h]
      · split at h
        · simp only [Except.ok.injEq] at h; rw [← h]
        · simp at h
    · simp only [Except.ok.injEq] at h; rw [← h]
  have h3 : ∀ z : Saved S, (upgradeCount (upgradeTerms z)).phrasegrams = z.phrasegrams := by
    intro z
    unfold upgradeCount upgradeTerms
    split <;> split <;> rfl
  have h4 : ∀ z z' : Saved S, upgradeVocab dec z = .ok z' → z'.phrasegrams = z.phrasegrams := by
    intro z z' h
    unfold upgradeVocab at h
    split at h
    · simp only [Except.ok.injEq] at h; rw [← h]
    · simp only [Except.ok.injEq] at h; rw [← h]
    · split at h
      · simp only [Except.ok.injEq] at h; rw [← h]
      · split at h
        · simp at h
        · simp only [Except.ok.injEq] at h; rw [← h]
  have h5 : ∀ z z' : Saved S, upgradeDelim dec z = .ok z' → z'.phrasegrams = z.phrasegrams := by
    intro z z' h
    unfold upgradeDelim at h
    split at h
    · simp only [Except.ok.injEq] at h; rw [← h]
    · split at h
      · simp at h
      · simp only [Except.ok.injEq] at h; rw [← h]
  split at hy
  · simp at hy
  · rename_i z hz
    split at hy
    · simp at hy
    · rename_i w hw
      rw [h5 _ _ hy, h4 _ _ hw, h3, h2 _ _ hz]

/-- What is stored of older versions: keys are tuples of byte strings, values a count and a score. -/
def oldGrams {S : Type} (l : List (List (List UInt8) × ℕ × S)) : PyDict Key (GramVal S) :=
  l.map fun e => (.tuple e.1, .pair e.2.1 e.2.2)

theorem upgradePairs_eq {S : Type} (dec : List UInt8 → Option Str) (d : List UInt8)
    (l : List (List (List UInt8) × ℕ × S)) (name : List (List UInt8) → Str)
    (hn : ∀ e ∈ l, dec (joinBytes d e.1) = some (name e.1)) (hnd : (l.map fun e => name e.1).Nodup)
    (r : PyDict Key (GramVal S)) (hr : ∀ e ∈ l, Key.str (name e.1) ∉ keys r) :
    upgradePairs dec (.bytes d) (oldGrams l) r
      = .ok (r ++ l.map fun e => (.str (name e.1), .score e.2.2)) := by
  induction l generalizing r with
  | nil => simp [oldGrams, upgradePairs]
  | cons e l ih =>
    have h1 : joinKey dec (.bytes d) (.tuple e.1) = .ok (.str (name e.1)) := by
      simp only [joinKey, hn e (by simp)]
    have hs : set r (.str (name e.1)) (.score e.2.2) = r ++ [(.str (name e.1), .score e.2.2)] :=
      set_of_not_mem (hr e (by simp)) _
    show upgradePairs dec (.bytes d) ((.tuple e.1, .pair e.2.1 e.2.2) :: oldGrams l) r = _
    simp only [upgradePairs, h1, second]
    rw [hs, ih (fun f hf => hn f (by simp [hf])) (List.nodup_cons.1 hnd).2]
    · simp
    · intro f hf hmem
      rw [keys, List.map_append, List.mem_append] at hmem
      rcases hmem with hmem | hmem
      · exact hr f (by simp [hf]) hmem
      · simp only [List.map_cons, List.map_nil, List.mem_singleton, Key.str.injEq] at hmem
        exact (List.nodup_cons.1 hnd).1 (List.mem_map.2 ⟨f, hf, hmem⟩)

/-- **C117.** Phrases stored with a count and a score (earlier versions) are all kept, in order, with their scores, under
the texts of their words joined by the delimiter. -/
theorem C117_load_pairs {S : Type} (dec : List UInt8 → Option Str) (x : Saved S) (d : List UInt8)
    (hd : x.delim = .bytes d) (l : List (List (List UInt8) × ℕ × S)) (hne : l ≠ [])
    (hg : x.phrasegrams = some (oldGrams l)) (name : List (List UInt8) → Str)
    (hn : ∀ e ∈ l, dec (joinBytes d e.1) = some (name e.1)) (hnd : (l.map fun e => name e.1).Nodup) :
    upgradeGrams dec x = .ok { x with phrasegrams := some (l.map fun e => (.str (name e.1), .score e.2.2)) } := by
  have := upgradePairs_eq dec d l name hn hnd [] (by simp [keys])
  unfold upgradeGrams
  cases l with
  | nil => exact absurd rfl hne
  | cons e l =>
    have h' : upgradePairs dec x.delim ((.tuple e.1, .pair e.2.1 e.2.2) :: oldGrams l) []
        = .ok ((e :: l).map fun e => (.str (name e.1), .score e.2.2)) := by
      rw [hd]
      exact this
    have hg' : x.phrasegrams = some ((.tuple e.1, .pair e.2.1 e.2.2) :: oldGrams l) := hg
    simp only [hg', h']

theorem decodeVocab_eq (dec : List UInt8 → Option Str) (name : List UInt8 → Str) (l : List (List UInt8 × ℕ))
    (hn : ∀ e ∈ l, dec e.1 = some (name e.1)) (hnd : (l.map fun e => name e.1).Nodup) (r : PyDict Key ℕ)
    (hr : ∀ e ∈ l, Key.str (name e.1) ∉ keys r) :
    decodeVocab dec (l.map fun e => (.bytes e.1, e.2)) r = .ok (r ++ l.map fun e => (.str (name e.1), e.2)) := by
  induction l generalizing r with
  | nil => simp [decodeVocab]
  | cons e l ih =>
    have h1 : decodeKey dec (.bytes e.1) = .ok (.str (name e.1)) := by
      simp only [decodeKey, hn e (by simp)]
    have hs : set r (.str (name e.1)) e.2 = r ++ [(.str (name e.1), e.2)] := set_of_not_mem (hr e (by simp)) _
    rw [List.map_cons]
    simp only [decodeVocab, h1]
    rw [hs, ih (fun f hf => hn f (by simp [hf])) (List.nodup_cons.1 hnd).2]
    · simp
    · intro f hf hmem
      rw [keys, List.map_append, List.mem_append] at hmem
      rcases hmem with hmem | hmem
      · exact hr f (by simp [hf]) hmem
      · simp only [List.map_cons, List.map_nil, List.mem_singleton, Key.str.injEq] at hmem
        exact (List.nodup_cons.1 hnd).1 (List.mem_map.2 ⟨f, hf, hmem⟩)

/-- **C117.** A vocabulary of byte strings is decoded: the same counts in the same order. -/
theorem C117_load_vocab {S : Type} (dec : List UInt8 → Option Str) (x : Saved S) (l : List (List UInt8 × ℕ))
    (hv : x.vocab = some (l.map fun e => (.bytes e.1, e.2))) (hw : (l.map Prod.fst).Nodup)
    (hinj : ∀ a b s, dec a = some s → dec b = some s → a = b) (name : List UInt8 → Str)
    (hn : ∀ e ∈ l, dec e.1 = some (name e.1)) :
    upgradeVocab dec x = .ok { x with vocab := some (l.map fun e => (.str (name e.1), e.2)) } := by
  have hnd : (l.map fun e => name e.1).Nodup := by
    have : (l.map fun e => name e.1) = (l.map Prod.fst).map name := by simp
    rw [this]
    apply List.Nodup.map_on _ hw
    intro a ha b hb hab
    obtain ⟨e, he, rfl⟩ := List.mem_map.1 ha
    obtain ⟨f, hf, rfl⟩ := List.mem_map.1 hb
    exact hinj _ _ _ (hn e he) (hab ▸ hn f hf)
  have := decodeVocab_eq dec name l hn hnd [] (by simp [keys])
  unfold upgradeVocab
  cases l with
  | nil => 
    rw [List.map_nil] at hv
    simp only [hv, List.map_nil]
    rw [← hv]
  | cons e l =>
    simp only [hv, List.map_cons, Key.isStr, Bool.false_eq_true, if_false]
    rw [List.map_cons] at this
    rw [this]
    rfl

/-- **C117.** The scoring after loading: the default if none was stored, the function of that name if `default` or `npmi`
was, and ValueError for any other text.  Connector words of earlier versions are taken over as they were stored, without
decoding. -/
theorem C117_load_scoring {S : Type} (x : Saved S) :
    (x.scoring = none → upgradeScoring x = .ok { x with scoring := some .original }) ∧
    (x.scoring = some (.text "default".toList) → upgradeScoring x = .ok { x with scoring := some .original }) ∧
    (x.scoring = some (.text "npmi".toList) → upgradeScoring x = .ok { x with scoring := some .npmi }) ∧
    (∀ s, x.scoring = some (.text s) → s ≠ "default".toList → s ≠ "npmi".toList →
      upgradeScoring x = .error .value) ∧
    (∀ t, x.commonTerms = some t → (upgradeTerms x).connectorWords = some t) ∧
    (x.corpusWords = none → (upgradeCount x).corpusWords = some 0) := by
  have hdn : ("npmi".toList : Str) ≠ "default".toList := by decide
  refine ⟨?_, ?_, ?_, ?_, ?_, ?_⟩
  · intro h; simp only [upgradeScoring, h]
  · intro h; simp only [upgradeScoring, h, if_true]
  · intro h; simp only [upgradeScoring, h, if_true, if_neg hdn]
  · intro s h h1 h2; simp only [upgradeScoring, h, if_neg h1, if_neg h2]
  · intro t h; simp only [upgradeTerms, h]
  · intro h; simp only [upgradeCount, h]

/-! ## Examples -/

example : Reach npmiCfg '_' (addVocab npmiCfg Ph.empty [[['a'], ['b'], ['a'], ['b']]]) :=
  .add _ (by decide) .empty

example : Current (S := ℕ) ⟨some [(.str "a_b".toList, .score 3)], some .npmi, none, some [.str "of".toList], some 4,
    some [(.str "a".toList, 2)], .str ['_']⟩ :=
  ⟨rfl, by simp [Key.isStr], by simp [Key.isStr], by simp, rfl, ⟨_, rfl⟩, ⟨_, rfl⟩⟩

end Verif.Phrases

import Verif.Coherence.MeasureModel
import Verif.Coherence.CorpusProps
import Verif.Coherence.SegmentProps
import Verif.Coherence.WindowProps
import Mathlib.Tactic.Linarith
import Mathlib.Tactic.Positivity
import Mathlib.Tactic.FieldSimp

/-!
# C79: u_mass, c_uci and c_npmi coherence
-/

namespace Verif.Coherence

variable {W : Type} [DecidableEq W]

/-! ## Specification -/

/-- Documents with both words. -/
def docsWith {C : Type} (corpus : List (List (W × C))) (a b : W) : Nat :=
  corpus.countP fun doc => mentions a doc && mentions b doc

/-- The u_mass score of a pair: log of the (smoothed) probability of both words over the probability of
the second; 0 for a second word no document has. -/
noncomputable def massScore {C : Type} (eps : ℝ) (corpus : List (List (W × C))) (p : W × W) : ℝ :=
  if docsWith corpus p.2 p.2 = 0 then 0
  else Real.log (((docsWith corpus p.1 p.2 : ℝ) / corpus.length + eps)
    / ((docsWith corpus p.2 p.2 : ℝ) / corpus.length))

/-- The mean over the topics of the mean scores of the pairs of a word and an earlier word. -/
noncomputable def massCoherence {C : Type} (eps : ℝ) (topics : List (List W))
    (corpus : List (List (W × C))) : Option ℝ :=
  arithmeticMean (topics.map fun top =>
    mean ((pairsWhere top fun i j => decide (j < i)).map (massScore eps corpus)))

theorem corpus_counts {C : Type} (rel : List W) (corpus : List (List (W × C))) :
    ∃ s, accumulateCorpus rel (Index.init rel) corpus = some s ∧ s.numDocs = corpus.length ∧
      (∀ w ∈ rel, s.occurrences rel w = some (docsWith corpus w w)) ∧
      ∀ a ∈ rel, ∀ b ∈ rel, s.coOccurrences rel a b = some (docsWith corpus a b) := by
  obtain ⟨s, h1, h2, h3, h4, _⟩ := C51_exact rel [corpus]
  refine ⟨s, ?_, by simpa using h2, ?_, ?_⟩
  · simpa using h1
  · intro w hw
    rw [h3 w hw]
    simp [docsWith]
  · intro a ha b hb
    rw [h4 a ha b hb]
    simp [docsWith]

/-- **C79.** The u_mass coherence is the documented formula over the document frequencies, for every set
of relevant ids that has the words of the pairs. -/
theorem C79_u_mass {C : Type} (eps : ℝ) (rel : List W) (topics : List (List W))
    (corpus : List (List (W × C)))
    (hrel : ∀ top ∈ topics, ∀ p ∈ pairsWhere top (fun i j => decide (j < i)), p.1 ∈ rel ∧ p.2 ∈ rel) :
    uMass eps rel topics corpus = some (massCoherence eps topics corpus) := by
  obtain ⟨s, h1, h2, h3, h4⟩ := corpus_counts rel corpus
  unfold uMass massCoherence
  rw [h1, Option.map_some, logConditionalProbability, C50_one_pre, List.map_map]
  congr 2
  apply List.map_congr_left
  intro top ht
  rw [Function.comp_apply]
  congr 1
  apply List.map_congr_left
  intro p hp
  obtain ⟨ha, hb⟩ := hrel top ht p hp
  unfold logConditional massScore Index.counts
  dsimp only
  rw [h3 p.2 hb, h4 p.1 ha p.2 hb]
  dsimp only
  rw [h2]
  by_cases h0 : docsWith corpus p.2 p.2 = 0
  · rw [if_pos h0, if_pos (Or.inr h0)]
  · rw [if_neg h0, if_neg]
    rintro (h | h)
    · have : docsWith corpus p.2 p.2 ≤ corpus.length := List.countP_le_length
      omega
    · exact h0 h

/-- **C79.** The set of ids the model computes for the pairs has them. -/
theorem C79_relevant (topics : List (List W)) (top : List W) (ht : top ∈ topics) (p : W × W)
    (hp : p ∈ pairsWhere top fun i j => decide (j < i)) :
    p.1 ∈ uniqueIds (sOnePre topics) ∧ p.2 ∈ uniqueIds (sOnePre topics) := by
  unfold uniqueIds
  rw [C50_one_pre]
  have hm : p ∈ (topics.map fun top => pairsWhere top fun i j => decide (j < i)).flatten :=
    List.mem_flatten.2 ⟨_, List.mem_map.2 ⟨top, ht, rfl⟩, hp⟩
  constructor <;> rw [List.mem_dedup, List.mem_flatMap]
  · exact ⟨p, hm, by simp⟩
  · exact ⟨p, hm, by simp⟩

theorem docsWith_le {C : Type} (corpus : List (List (W × C))) (a b : W) :
    docsWith corpus a b ≤ docsWith corpus b b ∧ docsWith corpus b b ≤ corpus.length := by
  constructor
  · unfold docsWith
    apply List.countP_mono_left
    intro d _ h
    rw [Bool.and_eq_true] at h ⊢
    exact ⟨h.2, h.2⟩
  · exact List.countP_le_length

/-- **C79.** The sign of a u_mass score (`eps` times the number of documents being less than 1): a pair
scores below 0 exactly when some document has the second word without the first; it scores 0 exactly
when no document has the second word, and above 0 when every document with the second word (and there
is one) has the first.  In particular words that never occur score better than words that do but not
always together. -/
theorem C79_u_mass_sign {C : Type} (eps : ℝ) (h0 : 0 < eps) (corpus : List (List (W × C)))
    (h1 : eps * corpus.length < 1) (a b : W) :
    (massScore eps corpus (a, b) < 0 ↔ docsWith corpus a b < docsWith corpus b b) ∧
      (massScore eps corpus (a, b) = 0 ↔ docsWith corpus b b = 0) ∧
      (0 < massScore eps corpus (a, b) ↔
        docsWith corpus a b = docsWith corpus b b ∧ docsWith corpus b b ≠ 0) := by
  obtain ⟨hle, hN⟩ := docsWith_le corpus a b
  unfold massScore
  dsimp only
  generalize docsWith corpus a b = k at *
  generalize docsWith corpus b b = n at *
  by_cases hn : n = 0
  · subst hn
    have : k = 0 := by omega
    simp [this]
  · rw [if_neg hn]
    have hNpos : (0 : ℝ) < corpus.length := by
      have : 0 < corpus.length := by omega
      exact_mod_cast this
    have hnpos : (0 : ℝ) < n := by exact_mod_cast Nat.pos_of_ne_zero hn
    have harg : ((k : ℝ) / corpus.length + eps) / ((n : ℝ) / corpus.length)
        = (k + eps * corpus.length) / n := by
      field_simp
    rw [harg]
    by_cases hk : k = n
    · subst hk
      have : 1 < ((k : ℝ) + eps * corpus.length) / k := by
        rw [lt_div_iff₀ hnpos]
        nlinarith
      have hp := Real.log_pos this
      refine ⟨⟨fun h => by linarith, fun h => by omega⟩, ⟨fun h => by linarith, fun h => by omega⟩,
        ⟨fun _ => ⟨rfl, hn⟩, fun _ => hp⟩⟩
    · have hk' : (k : ℝ) + 1 ≤ n := by
        have : k + 1 ≤ n := by omega
        exact_mod_cast this
      have hpos : 0 < ((k : ℝ) + eps * corpus.length) / n := by positivity
      have hlt : ((k : ℝ) + eps * corpus.length) / n < 1 := by
        rw [div_lt_one hnpos]
        linarith
      have hp := Real.log_neg hpos hlt
      refine ⟨⟨fun _ => by omega, fun _ => hp⟩, ⟨fun h => by linarith, fun h => absurd h hn⟩,
        ⟨fun h => by linarith, fun h => absurd h.1 hk⟩⟩

/-! ## Log ratio -/

/-- **C79.** The (normalized) log ratio does not depend on the order of the two words. -/
theorem C79_symmetric (eps : ℝ) (c : Counts W) (hc : ∀ a b, c.co a b = c.co b a) (a b : W) :
    logRatio eps c (a, b) = logRatio eps c (b, a) ∧
      logRatioNormalized eps c (a, b) = logRatioNormalized eps c (b, a) := by
  have h1 : logRatio eps c (a, b) = logRatio eps c (b, a) := by
    unfold logRatio
    dsimp only
    rw [hc b a]
    cases c.occ a <;> cases c.occ b <;> cases c.co a b <;> try rfl
    rename_i x y z
    dsimp only
    have : (c.numDocs = 0 ∨ x = 0 ∨ y = 0) ↔ (c.numDocs = 0 ∨ y = 0 ∨ x = 0) := by tauto
    rw [if_congr this rfl rfl, mul_comm]
  refine ⟨h1, ?_⟩
  unfold logRatioNormalized
  dsimp only
  rw [hc b a, h1]

theorem npmi_arith (k x y : Nat) (e : ℝ) (h0 : 0 < e) (h3 : e ≤ 1 / 3) (hkx : k ≤ x) (hky : k ≤ y)
    (hx0 : 0 < x) (hy0 : 0 < y) : (x : ℝ) * y < (k + e) * (k + e) ↔ k = x ∧ k = y := by
  have hexp : ((k : ℝ) + e) * (k + e) = k * k + 2 * e * k + e * e := by ring
  have hee : e * e ≤ 1 / 9 := by nlinarith
  have hkr : (0 : ℝ) ≤ k := Nat.cast_nonneg k
  have hek : 2 * e * k ≤ 2 / 3 * k := by
    apply mul_le_mul_of_nonneg_right _ hkr
    linarith
  rw [hexp]
  constructor
  · intro h
    by_contra hne
    have hnat : k * k + k ≤ x * y ∧ 1 ≤ x * y := by
      constructor
      · rcases Nat.lt_or_ge k x with hlt | hge
        · calc k * k + k = (k + 1) * k := by ring
            _ ≤ x * y := Nat.mul_le_mul hlt hky
        · have hlt : k < y := by omega
          calc k * k + k = k * (k + 1) := by ring
            _ ≤ x * y := Nat.mul_le_mul hkx hlt
      · exact Nat.mul_pos hx0 hy0
    have h1 : (k : ℝ) * k + k ≤ x * y := by exact_mod_cast hnat.1
    have h2 : (1 : ℝ) ≤ x * y := by exact_mod_cast hnat.2
    rcases Nat.eq_zero_or_pos k with hz | hpos
    · rw [hz] at h
      push_cast at h
      linarith
    · have h4 : (1 : ℝ) ≤ k := by exact_mod_cast hpos
      linarith
  · rintro ⟨h1, h2⟩
    rw [← h1, ← h2]
    have : 0 < e * e := mul_pos h0 h0
    have : 0 ≤ 2 * e * k := by positivity
    linarith

/-- **C79.** The normalized log ratio of two words that are seen, the first in `x`, the second in `y`,
both in `k` of `N` windows (`3 · eps · N ≤ 1`): it is at least -1; it is -1 exactly if both words are in
*all* windows, although they then always occur together; it exceeds 1 exactly if the words only occur
together, and not in all windows; and it is positive if both words occur together more often than
expected, unless they are in all windows. -/
theorem C79_npmi_range (eps : ℝ) (h0 : 0 < eps) (c : Counts W) (a b : W) (x y k : Nat)
    (hx : c.occ a = some x) (hy : c.occ b = some y) (hk : c.co a b = some k)
    (hkx : k ≤ x) (hky : k ≤ y) (hxN : x ≤ c.numDocs) (hyN : y ≤ c.numDocs)
    (hx0 : 0 < x) (hy0 : 0 < y) (h3 : 3 * eps * c.numDocs ≤ 1) :
    ∃ v, logRatioNormalized eps c (a, b) = some v ∧ -1 ≤ v ∧
      (v = -1 ↔ x = c.numDocs ∧ y = c.numDocs) ∧
      (1 < v ↔ k = x ∧ k = y ∧ k < c.numDocs) ∧
      (k < c.numDocs → x * y ≤ k * c.numDocs → 0 < v) := by
  have hN0 : 0 < c.numDocs := by omega
  set N := c.numDocs with hN
  have hNr : (0 : ℝ) < N := by exact_mod_cast hN0
  have hxr : (0 : ℝ) < x := by exact_mod_cast hx0
  have hyr : (0 : ℝ) < y := by exact_mod_cast hy0
  have hxN' : (x : ℝ) ≤ N := by exact_mod_cast hxN
  have hyN' : (y : ℝ) ≤ N := by exact_mod_cast hyN
  have hkx' : (k : ℝ) ≤ x := by exact_mod_cast hkx
  have hky' : (k : ℝ) ≤ y := by exact_mod_cast hky
  have hkr : (0 : ℝ) ≤ k := Nat.cast_nonneg k
  -- probabilities
  set P : ℝ := (k : ℝ) / N + eps with hP
  set Q : ℝ := ((x : ℝ) / N) * ((y : ℝ) / N) with hQ
  have hPpos : 0 < P := by positivity
  have hQpos : 0 < Q := by positivity
  have hQle : Q ≤ 1 := by
    have h1 : (x : ℝ) / N ≤ 1 := by rw [div_le_one hNr]; exact hxN'
    have h2 : (y : ℝ) / N ≤ 1 := by rw [div_le_one hNr]; exact hyN'
    have h3 : (0 : ℝ) ≤ (y : ℝ) / N := by positivity
    nlinarith
  have hlr : logRatio eps c (a, b) = some (Real.log (P / Q)) := by
    unfold logRatio
    dsimp only
    rw [hx, hy, hk]
    dsimp only
    rw [if_neg (by omega)]
  have hlogdiv : Real.log (P / Q) = Real.log P - Real.log Q := Real.log_div hPpos.ne' hQpos.ne'
  have hlogQ : Real.log Q ≤ 0 := Real.log_nonpos hQpos.le hQle
  have hQ1 : Real.log Q = 0 ↔ x = N ∧ y = N := by
    constructor
    · intro h
      have h1 : Q = 1 := by
        rcases Real.log_eq_zero.1 h with h | h | h <;> linarith
      have h2 : (x : ℝ) * y = N * N := by
        rw [hQ] at h1
        field_simp at h1
        nlinarith
      constructor
      · by_contra hne
        have : (x : ℝ) + 1 ≤ N := by
          have : x + 1 ≤ N := by omega
          exact_mod_cast this
        nlinarith
      · by_contra hne
        have : (y : ℝ) + 1 ≤ N := by
          have : y + 1 ≤ N := by omega
          exact_mod_cast this
        nlinarith
    · rintro ⟨rfl, rfl⟩
      have : Q = 1 := by rw [hQ]; field_simp
      rw [this, Real.log_one]
  have heN : eps * N ≤ 1 / 3 := by linarith
  by_cases hkN : k = N
  · -- in all windows
    have hxe : x = N := by omega
    have hye : y = N := by omega
    have hP1 : 1 < P := by
      rw [hP, hkN, div_self hNr.ne']
      linarith
    have hlP : 0 < Real.log P := Real.log_pos hP1
    have hQz : Real.log Q = 0 := hQ1.2 ⟨hxe, hye⟩
    have hv : logRatioNormalized eps c (a, b) = some (-1) := by
      unfold logRatioNormalized
      rw [hlr, hk]
      dsimp only
      rw [if_neg hlP.ne', hlogdiv, hQz, sub_zero, div_neg, div_self hlP.ne']
    refine ⟨-1, hv, le_refl _, ⟨fun _ => ⟨hxe, hye⟩, fun _ => rfl⟩, ?_, fun h => by omega⟩
    constructor
    · intro h; linarith
    · rintro ⟨_, _, h⟩; omega
  · have hkN' : (k : ℝ) + 1 ≤ N := by
      have : k + 1 ≤ N := by omega
      exact_mod_cast this
    have hPe : P = (k + eps * N) / N := by rw [hP]; field_simp
    have hP1 : P < 1 := by
      rw [hPe, div_lt_one hNr]
      linarith
    have hlP : Real.log P < 0 := Real.log_neg hPpos hP1
    have hv : logRatioNormalized eps c (a, b) = some (Real.log (P / Q) / (-Real.log P)) := by
      unfold logRatioNormalized
      rw [hlr, hk]
      dsimp only
      rw [if_neg hlP.ne]
    have hd : 0 < -Real.log P := by linarith
    refine ⟨_, hv, ?_, ?_, ?_, ?_⟩
    · rw [le_div_iff₀ hd, hlogdiv]
      linarith
    · rw [div_eq_iff hd.ne', hlogdiv, ← hQ1]
      constructor <;> intro h <;> linarith
    · rw [lt_div_iff₀ hd, hlogdiv]
      have hsq : (1 * -Real.log P < Real.log P - Real.log Q) ↔ Q < P * P := by
        have : Real.log (P * P) = Real.log P + Real.log P := Real.log_mul hPpos.ne' hPpos.ne'
        rw [← Real.log_lt_log_iff hQpos (by positivity), this]
        constructor <;> intro h <;> linarith
      have hint : Q < P * P ↔ (x : ℝ) * y < (k + eps * N) * (k + eps * N) := by
        rw [hQ, hPe, div_mul_div_comm, div_mul_div_comm, div_lt_div_iff_of_pos_right (by positivity)]
      rw [hsq, hint]
      have heNpos : 0 < eps * N := by positivity
      rw [npmi_arith k x y (eps * N) heNpos heN hkx hky hx0 hy0]
      constructor
      · rintro ⟨h1, h2⟩
        exact ⟨h1, h2, by omega⟩
      · rintro ⟨h1, h2, _⟩
        exact ⟨h1, h2⟩
    · intro _ hxy
      apply div_pos _ hd
      apply Real.log_pos
      rw [lt_div_iff₀ hQpos, one_mul, hQ, hPe, div_mul_div_comm, div_lt_div_iff₀ (by positivity) hNr]
      have : (x : ℝ) * y ≤ k * N := by exact_mod_cast hxy
      have h5 : 0 < eps * N := by positivity
      have h6 : (x : ℝ) * y * N ≤ k * N * N := mul_le_mul_of_nonneg_right this hNr.le
      have h7 : 0 < eps * N * (N * N) := by positivity
      nlinarith

/-! ## c_uci and c_npmi -/

/-- The log ratio of a pair over the windows of the texts that have a relevant word. -/
noncomputable def pairScore (eps : ℝ) (normalize : Bool) (window : Nat) (rel : List W)
    (texts : List (List W)) (p : W × W) : Option ℝ :=
  let N : ℝ := (((texts.filter fun text => text.any fun w => decide (w ∈ rel)).flatMap
          (slidingWindows window)).length : ℝ)
  let pmi := Real.log (((windowsWith window texts p.1 p.2 : ℝ) / N + eps)
    / (((windowsWith window texts p.1 p.1 : ℝ) / N) * ((windowsWith window texts p.2 p.2 : ℝ) / N)))
  if windowsWith window texts p.1 p.1 = 0 ∨ windowsWith window texts p.2 p.2 = 0 then none
  else if normalize then
    if Real.log ((windowsWith window texts p.1 p.2 : ℝ) / N + eps) = 0 then none
    else some (pmi / (-Real.log ((windowsWith window texts p.1 p.2 : ℝ) / N + eps)))
  else some pmi

/-- **C79.** For texts without repeated words (see C52 for the others), the c_uci and c_npmi coherences
are the means over the topics of the mean (normalized) log ratios of all ordered pairs of their
words. -/
theorem C79_uci_npmi (eps : ℝ) (normalize : Bool) (rel : List W) (window : Nat) (hw : 0 < window)
    (topics texts : List (List W)) (hnd : ∀ text ∈ texts, text.Nodup)
    (hrel : ∀ top ∈ topics, ∀ p ∈ pairsWhere top (fun i j => decide (i ≠ j)), p.1 ∈ rel ∧ p.2 ∈ rel) :
    uciNpmi eps normalize rel window topics texts
      = (topics.mapM fun top =>
          ((pairsWhere top fun i j => decide (i ≠ j)).mapM
            (pairScore eps normalize window rel texts)).map mean).map arithmeticMean := by
  unfold uciNpmi logRatioMeasure
  rw [C50_one_one]
  have hpair : ∀ top ∈ topics, ∀ p ∈ pairsWhere top (fun i j => decide (i ≠ j)),
      (if normalize then logRatioNormalized eps ((accumulate rel window Acc.init texts).counts rel)
        else logRatio eps ((accumulate rel window Acc.init texts).counts rel)) p
        = pairScore eps normalize window rel texts p := by
    intro top ht p hp
    obtain ⟨ha, hb⟩ := hrel top ht p hp
    obtain ⟨o1, o2⟩ := C52_distinct_words rel window hw texts hnd p.1 p.2 ha hb
    obtain ⟨o3, _⟩ := C52_distinct_words rel window hw texts hnd p.2 p.1 hb ha
    have o4 := C52_num_windows rel window texts
    have hlr : logRatio eps ((accumulate rel window Acc.init texts).counts rel) p
        = pairScore eps false window rel texts p := by
      unfold logRatio pairScore Acc.counts
      dsimp only
      rw [o1, o2, o3, o4]
      dsimp only
      by_cases hz : windowsWith window texts p.1 p.1 = 0 ∨ windowsWith window texts p.2 p.2 = 0
      · rw [if_pos (Or.inr hz), if_pos hz]
      · rw [if_neg hz, if_neg]
        · simp
        · rintro (h | h)
          · have hle : windowsWith window texts p.1 p.1 ≤ ((texts.filter fun text =>
                text.any fun w => decide (w ∈ rel)).flatMap (slidingWindows window)).length := by
              obtain ⟨na, _, h1, _, _, _, _, _, _⟩ := C52_never_over rel window hw texts p.1 p.2 ha hb
              rw [windowsWith_sum ha, List.length_flatMap]
              apply sum_le_sum_map
              intro text _
              exact List.countP_le_length
            omega
          · exact hz h
    cases normalize with
    | false => simpa using hlr
    | true =>
      rw [if_pos rfl]
      unfold logRatioNormalized
      rw [hlr]
      unfold pairScore Acc.counts
      dsimp only
      rw [o2, o4]
      by_cases hz : windowsWith window texts p.1 p.1 = 0 ∨ windowsWith window texts p.2 p.2 = 0
      · rw [if_pos hz, if_pos hz]
      · rw [if_neg hz, if_neg hz]
        simp
  congr 1
  have mapM_congr' : ∀ {A B : Type} (l : List A) (f g : A → Option B), (∀ x ∈ l, f x = g x) →
      l.mapM f = l.mapM g := by
    intro A B l f g h
    induction l with
    | nil => rfl
    | cons a l ih =>
      rw [List.mapM_cons, List.mapM_cons, h a List.mem_cons_self,
        ih fun x hx => h x (List.mem_cons_of_mem _ hx)]
  rw [List.mapM_map]
  apply mapM_congr'
  intro top ht
  rw [Function.comp_apply]
  congr 1
  exact mapM_congr' _ _ _ (hpair top ht)

/-- Two words that are in every one of three windows: normalized log ratio -1. -/
theorem C79_npmi_always_together :
    ∃ v, logRatioNormalized (1 / 10 ^ 12)
        ((accumulate ["a", "b"] 2 Acc.init [["a", "b"], ["b", "a"], ["a", "b"]]).counts ["a", "b"])
        ("a", "b") = some v ∧ v = -1 := by
  have h1 : ((accumulate ["a", "b"] 2 Acc.init [["a", "b"], ["b", "a"], ["a", "b"]]).counts
      ["a", "b"]).occ "a" = some 3 := by decide +kernel
  have h2 : ((accumulate ["a", "b"] 2 Acc.init [["a", "b"], ["b", "a"], ["a", "b"]]).counts
      ["a", "b"]).occ "b" = some 3 := by decide +kernel
  have h3 : ((accumulate ["a", "b"] 2 Acc.init [["a", "b"], ["b", "a"], ["a", "b"]]).counts
      ["a", "b"]).co "a" "b" = some 3 := by decide +kernel
  have h4 : ((accumulate ["a", "b"] 2 Acc.init [["a", "b"], ["b", "a"], ["a", "b"]]).counts
      ["a", "b"]).numDocs = 3 := by decide +kernel
  obtain ⟨v, hv, _, h5, _⟩ := C79_npmi_range (1 / 10 ^ 12) (by positivity) _ "a" "b" 3 3 3 h1 h2 h3
    (by omega) (by omega) (by omega) (by omega) (by omega) (by omega) (by rw [h4]; norm_num)
  exact ⟨v, hv, h5.2 ⟨h4.symm, h4.symm⟩⟩

/-- **C79.** A mean of numbers lies between any bounds of them; a topic of a single word has none. -/
theorem C79_mean_bounds (l : List ℝ) (lo hi : ℝ) (h : ∀ x ∈ l, lo ≤ x ∧ x ≤ hi) :
    (mean l = none ↔ l = []) ∧ ∀ m, mean l = some m → lo ≤ m ∧ m ≤ hi := by
  unfold mean
  by_cases hl : l = []
  · simp [hl]
  · rw [if_neg hl]
    refine ⟨by simp [hl], ?_⟩
    intro m hm
    rw [Option.some.injEq] at hm
    have hpos : (0 : ℝ) < l.length := by
      have : 0 < l.length := List.length_pos_iff.2 hl
      exact_mod_cast this
    have hb : ∀ l : List ℝ, (∀ x ∈ l, lo ≤ x ∧ x ≤ hi) →
        lo * l.length ≤ l.sum ∧ l.sum ≤ hi * l.length := by
      intro l
      induction l with
      | nil => simp
      | cons a l ih =>
        intro h
        obtain ⟨h1, h2⟩ := ih fun x hx => h x (List.mem_cons_of_mem _ hx)
        obtain ⟨h3, h4⟩ := h a List.mem_cons_self
        rw [List.sum_cons, List.length_cons]
        push_cast
        constructor <;> nlinarith
    obtain ⟨h1, h2⟩ := hb l h
    rw [← hm, le_div_iff₀ hpos, div_le_iff₀ hpos]
    exact ⟨h1, h2⟩

example : docsWith [[("a", 1), ("b", 2)], [("b", 1)]] "a" "b" = 1 := by decide +kernel

end Verif.Coherence

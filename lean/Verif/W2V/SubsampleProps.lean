import Verif.W2V.SubsampleModel
import Verif.W2V.VocabProps
import Verif.W2V.NegProps
import Mathlib.Tactic.Positivity
import Mathlib.Tactic.FieldSimp
import Mathlib.Tactic.Linarith

/-!
# C84: downsampling of frequent words
-/

namespace Verif.W2V
open Verif PyDict Vocab

variable {τ : Type} [DecidableEq τ]

/-! ## Specification -/

/-- The fraction of the generator's states in which a word with the given `sample_int` is kept. -/
noncomputable def keptFraction (si : ℕ) : ℝ :=
  ((((Finset.range (2 ^ 48)).filter fun r => (subsample true (fun _ => si) [0] r).1 = [0]).card : ℕ) : ℝ)
    / 2 ^ 48

/-! ## Proofs -/

theorem sqrt5_sq : √5 * √5 = (5 : ℝ) := Real.mul_self_sqrt (by norm_num)

theorem sqrt5_bounds : (2236 / 1000 : ℝ) < √5 ∧ √5 < 2237 / 1000 := by
  constructor
  · rw [Real.lt_sqrt (by norm_num)]; norm_num
  · rw [Real.sqrt_lt' (by norm_num)]; norm_num

theorem rawP_eq (t v : ℝ) (ht : 0 < t) (hv : 0 < v) : (√(v / t) + 1) * (t / v) = √(t / v) + t / v := by
  have h1 : √(v / t) * (t / v) = √(t / v) := by
    have hx : 0 < t / v := by positivity
    rw [show v / t = (t / v)⁻¹ by rw [inv_div], Real.sqrt_inv]
    have := Real.mul_self_sqrt hx.le
    have h0 : √(t / v) ≠ 0 := (Real.sqrt_pos.2 hx).ne'
    rw [inv_mul_eq_iff_eq_mul₀ h0, this]
  rw [add_mul, h1, one_mul]

theorem sqrt_add_lt_one_iff (x : ℝ) (hx : 0 < x) : √x + x < 1 ↔ x < (3 - √5) / 2 := by
  have h5 := sqrt5_bounds
  have h5s := sqrt5_sq
  have hs := Real.mul_self_sqrt hx.le
  have h0 := Real.sqrt_nonneg x
  have hk : ((√5 - 1) / 2) * ((√5 - 1) / 2) = (3 - √5) / 2 := by linarith
  have hk1 : (√5 - 1) / 2 + (3 - √5) / 2 = 1 := by ring
  constructor
  · intro h
    by_contra hcon
    push Not at hcon
    have : (√5 - 1) / 2 ≤ √x := by
      apply Real.le_sqrt_of_sq_le
      nlinarith
    linarith
  · intro h
    have : √x < (√5 - 1) / 2 := by
      rw [Real.sqrt_lt' (by linarith)]
      nlinarith
    linarith

theorem prob_lt_one_iff (t v : ℝ) (ht : 0 < t) (hv : 0 < v) :
    (√(v / t) + 1) * (t / v) < 1 ↔ t * ((3 + √5) / 2) < v := by
  have h5 := sqrt5_bounds
  have h5s := sqrt5_sq
  have hk : (3 - √5) / 2 * ((3 + √5) / 2) = 1 := by linarith
  rw [rawP_eq t v ht hv, sqrt_add_lt_one_iff _ (by positivity), div_lt_iff₀ hv]
  constructor
  · intro h
    nlinarith
  · intro h
    nlinarith

/-- **C84.** The probability of keeping a word is in (0, 1], falls with the count of the word, and is 1
exactly for counts up to about 2.6 times the threshold. -/
theorem C84_probability (t : ℝ) (ht : 0 < t) :
    (∀ v : ℕ, 0 < v → 0 < wordProbability t v ∧ wordProbability t v ≤ 1 ∧
      (wordProbability t v = 1 ↔ (v : ℝ) ≤ t * ((3 + √5) / 2))) ∧
    (∀ v : ℕ, t * ((3 + √5) / 2) < v → wordProbability t v = √(t / v) + t / v) ∧
    ∀ v w : ℕ, 0 < v → v ≤ w → wordProbability t w ≤ wordProbability t v := by
  have hlt : ∀ v : ℕ, 0 < v → ((√((v : ℝ) / t) + 1) * (t / v) < 1 ↔ t * ((3 + √5) / 2) < v) :=
    fun v hv => prob_lt_one_iff t v ht (by exact_mod_cast hv)
  refine ⟨?_, ?_, ?_⟩
  · intro v hv
    have hv' : (0 : ℝ) < v := by exact_mod_cast hv
    unfold wordProbability
    dsimp only
    split
    · rename_i h
      refine ⟨by positivity, h.le, fun he => absurd he h.ne, fun hc => ?_⟩
      have := (hlt v hv).1 h
      linarith
    · rename_i h
      refine ⟨one_pos, le_rfl, fun _ => ?_, fun _ => rfl⟩
      by_contra hcon
      exact h ((hlt v hv).2 (not_le.1 hcon))
  · intro v hv
    have h5 := sqrt5_bounds
    have hv' : (0 : ℝ) < v := by
      refine lt_trans ?_ hv
      apply mul_pos ht
      linarith
    unfold wordProbability
    dsimp only
    rw [if_pos ((prob_lt_one_iff t v ht hv').2 hv), rawP_eq t v ht hv']
  · intro v w hv hw
    have hv' : (0 : ℝ) < v := by exact_mod_cast hv
    have hw' : (v : ℝ) ≤ w := by exact_mod_cast hw
    have hle : t / (w : ℝ) ≤ t / v := div_le_div_of_nonneg_left ht.le hv' hw'
    have hs := Real.sqrt_le_sqrt hle
    unfold wordProbability
    dsimp only
    rw [rawP_eq t v ht hv', rawP_eq t w ht (lt_of_lt_of_le hv' hw')]
    split <;> split <;> linarith

theorem wordProbability_mem (t : ℝ) (ht : 0 < t) (v : ℕ) (hv : 0 < v) :
    0 ≤ wordProbability t v ∧ wordProbability t v ≤ 1 :=
  ⟨((C84_probability t ht).1 v hv).1.le, ((C84_probability t ht).1 v hv).2.1⟩

theorem sampleInt_bounds (p : ℝ) (h0 : 0 ≤ p) (h1 : p ≤ 1) :
    sampleInt p ≤ 2 ^ 32 - 1 ∧ (sampleInt p : ℝ) ≤ p * (2 ^ 32 - 1) ∧ p * (2 ^ 32 - 1) < sampleInt p + 1 := by
  have hnn : 0 ≤ p * (2 ^ 32 - 1) := mul_nonneg h0 (by norm_num)
  refine ⟨?_, Nat.floor_le hnn, Nat.lt_floor_add_one _⟩
  have : (sampleInt p : ℝ) ≤ ((2 ^ 32 - 1 : ℕ) : ℝ) := by
    refine (Nat.floor_le hnn).trans ?_
    norm_num
    linarith
  exact_mod_cast this

theorem kept_iff (si r : ℕ) : (subsample true (fun _ => si) [0] r).1 = [0] ↔ r < (si + 1) * 2 ^ 16 := by
  have hdiv : randomInt32 r = r / 2 ^ 16 := Nat.shiftRight_eq_div_pow _ _
  unfold subsample
  rw [if_pos rfl, hdiv]
  unfold subsample
  dsimp only
  split
  · rename_i h
    rw [Nat.lt_div_iff_mul_lt (by norm_num)] at h
    constructor
    · intro hc
      exact absurd hc (by simp)
    · intro hc
      omega
  · rename_i h
    rw [Nat.lt_div_iff_mul_lt (by norm_num)] at h
    exact ⟨fun _ => by omega, fun _ => rfl⟩

/-- **C84.** Over all states of the generator, a word is kept with its probability, up to 2⁻³²; a word of
probability 1 is kept in every state. -/
theorem C84_kept (p : ℝ) (h0 : 0 ≤ p) (h1 : p ≤ 1) :
    |keptFraction (sampleInt p) - p| ≤ 1 / 2 ^ 32 ∧ (p = 1 → keptFraction (sampleInt p) = 1) := by
  obtain ⟨b1, b2, b3⟩ := sampleInt_bounds p h0 h1
  have hcard : ((Finset.range (2 ^ 48)).filter fun r =>
      (subsample true (fun _ => sampleInt p) [0] r).1 = [0]).card = (sampleInt p + 1) * 2 ^ 16 := by
    have : ((Finset.range (2 ^ 48)).filter fun r =>
        (subsample true (fun _ => sampleInt p) [0] r).1 = [0]) = Finset.range ((sampleInt p + 1) * 2 ^ 16) := by
      ext r
      rw [Finset.mem_filter, Finset.mem_range, Finset.mem_range, kept_iff]
      constructor
      · exact fun h => h.2
      · intro h
        refine ⟨lt_of_lt_of_le h ?_, h⟩
        have : (sampleInt p + 1) * 2 ^ 16 ≤ 2 ^ 32 * 2 ^ 16 := Nat.mul_le_mul_right _ (by omega)
        exact this.trans (by norm_num)
    rw [this, Finset.card_range]
  have hfrac : keptFraction (sampleInt p) = (sampleInt p + 1) / 2 ^ 32 := by
    unfold keptFraction
    rw [hcard]
    push_cast
    rw [div_eq_div_iff (by norm_num) (by norm_num)]
    ring
  constructor
  · rw [hfrac, abs_le]
    constructor
    · rw [le_sub_iff_add_le, le_div_iff₀ (by norm_num)]
      linarith
    · rw [sub_le_iff_le_add, div_le_iff₀ (by norm_num)]
      linarith
  · rintro rfl
    rw [hfrac]
    have : sampleInt 1 = 2 ^ 32 - 1 := by
      unfold sampleInt
      rw [one_mul, show (2 ^ 32 - 1 : ℝ) = ((2 ^ 32 - 1 : ℕ) : ℝ) by norm_num, Nat.floor_natCast]
    rw [this]
    norm_num

/-- **C84.** What is trained of a sentence is a subsequence of it, in which the words of the largest
`sample_int` all occur; without downsampling it is the sentence and no random number is drawn, and with
it exactly one is drawn for each word, kept or not. -/
theorem C84_sentence (sampleInts : ℕ → ℕ) (ws : List ℕ) (r : ℕ) (hr : r < 2 ^ 48) :
    (subsample true sampleInts ws r).1.Sublist ws ∧
      (subsample true sampleInts ws r).1.filter (fun w => decide (2 ^ 32 - 1 ≤ sampleInts w))
        = ws.filter (fun w => decide (2 ^ 32 - 1 ≤ sampleInts w)) ∧
      (subsample true sampleInts ws r).2 = nextRandom^[ws.length] r ∧
      subsample false sampleInts ws r = (ws, r) := by
  refine ⟨?_, ?_, ?_, ?_⟩
  · induction ws generalizing r with
    | nil => simp [subsample]
    | cons w ws ih =>
      have hn : nextRandom r < 2 ^ 48 := by rw [nextRandom_eq]; exact Nat.mod_lt _ (by norm_num)
      unfold subsample
      rw [if_pos rfl]
      dsimp only
      split
      · exact (ih _ hn).cons _
      · exact (ih _ hn).cons_cons _
  · induction ws generalizing r with
    | nil => simp [subsample]
    | cons w ws ih =>
      have hn : nextRandom r < 2 ^ 48 := by rw [nextRandom_eq]; exact Nat.mod_lt _ (by norm_num)
      unfold subsample
      rw [if_pos rfl]
      dsimp only
      split
      · rename_i h
        rw [ih _ hn, List.filter_cons, if_neg]
        rw [decide_eq_true_eq]
        unfold randomInt32 at h
        rw [Nat.shiftRight_eq_div_pow] at h
        have : r / 2 ^ 16 < 2 ^ 32 := Nat.div_lt_of_lt_mul (by norm_num; exact hr)
        omega
      · rw [List.filter_cons, List.filter_cons, ih _ hn]
  · induction ws generalizing r with
    | nil => simp [subsample]
    | cons w ws ih =>
      have hn : nextRandom r < 2 ^ 48 := by rw [nextRandom_eq]; exact Nat.mod_lt _ (by norm_num)
      unfold subsample
      rw [if_pos rfl, List.length_cons, Function.iterate_succ_apply]
      dsimp only
      split <;> exact ih _ hn
  · induction ws with
    | nil => rfl
    | cons w ws ih =>
      unfold subsample
      rw [if_neg (by simp), ih]

theorem foldl_update_get (l : List (τ × Nat)) (f : Nat → Nat) (hl : (l.map Prod.fst).Nodup) (old : τ → Nat)
    (w : τ) : (l.foldl (fun s p => Function.update s p.1 (f p.2)) old) w
      = match get? l w with | some c => f c | none => old w := by
  induction l generalizing old with
  | nil => simp [get?]
  | cons p l ih =>
    rw [List.map_cons, List.nodup_cons] at hl
    rw [List.foldl_cons, ih hl.2]
    by_cases hw : p.1 = w
    · subst hw
      have : get? l p.1 = none := by
        rw [get?_eq_none_iff]
        exact hl.1
      rw [this]
      simp [get?]
    · have hne : w ≠ p.1 := fun h => hw h.symm
      have : get? (p :: l) w = get? l w := by simp [get?, hw]
      rw [this]
      cases get? l w <;> simp [Function.update_of_ne hne]

/-- **C84.** After building a vocabulary, every word that the scanned counts keep has the `sample_int` of
its count in that scan, with the threshold of that scan; all other words have the one they had. -/
theorem C84_build (sample : ℝ) (cfg : Cfg τ) (raw : PyDict τ Nat) (hr : WF raw) (old : τ → ℕ) (w : τ) :
    (∀ c, get? raw w = some c → Kept ⟨false, cfg, raw⟩ w c →
      setSampleInts sample cfg raw old w = sampleInt (wordProbability (thresholdCount sample
        ((raw.filter fun p => keepItem cfg.rule p.1 p.2 (effective cfg raw)).map Prod.snd).sum) c)) ∧
    ((∀ c, get? raw w = some c → ¬ Kept ⟨false, cfg, raw⟩ w c) →
      setSampleInts sample cfg raw old w = old w) := by
  have hnd : ((raw.filter fun p => keepItem cfg.rule p.1 p.2 (effective cfg raw)).map Prod.fst).Nodup :=
    hr.sublist (List.filter_sublist.map _)
  have hwf : WF (raw.filter fun p => keepItem cfg.rule p.1 p.2 (effective cfg raw)) := hnd
  unfold setSampleInts
  rw [foldl_update_get _ (fun c => sampleInt (wordProbability (thresholdCount sample
        ((raw.filter fun p => keepItem cfg.rule p.1 p.2 (effective cfg raw)).map Prod.snd).sum) c)) hnd]
  constructor
  · intro c hc hk
    have hm : (w, c) ∈ raw.filter fun p => keepItem cfg.rule p.1 p.2 (effective cfg raw) := by
      rw [List.mem_filter]
      exact ⟨mem_of_get? hc, hk⟩
    rw [get?_of_mem hwf hm]
  · intro h
    have : get? (raw.filter fun p => keepItem cfg.rule p.1 p.2 (effective cfg raw)) w = none := by
      rw [get?_eq_none_iff]
      intro hcon
      obtain ⟨c, h1, h2⟩ := (mem_kept hr _ w).1 hcon
      exact h c h1 h2
    rw [this]

/-- **C84.** `sample=0` keeps every word always. -/
theorem C84_zero (total v : ℕ) (hv : 0 < v) (hle : v ≤ total) :
    wordProbability (thresholdCount 0 total) v = 1 := by
  have h5 := sqrt5_bounds
  have ht : (0 : ℝ) < total := by exact_mod_cast (lt_of_lt_of_le hv hle)
  unfold thresholdCount
  rw [if_pos rfl, ((C84_probability _ ht).1 v hv).2.2]
  have : (v : ℝ) ≤ total := by exact_mod_cast hle
  nlinarith

/-- **C84.** `sample ≥ 1`, documented as the count above which words are downsampled, keeps all words of
up to four times that count always, and only downsamples all words of more than seven times that count. -/
theorem C84_shorthand (sample : ℝ) (hs : 1 ≤ sample) (total v : ℕ) (hv : 0 < v) :
    ((v : ℝ) ≤ 4 * sample → wordProbability (thresholdCount sample total) v = 1) ∧
      (7 * sample < v → wordProbability (thresholdCount sample total) v < 1) := by
  have h5 := sqrt5_bounds
  have hth : thresholdCount sample total = ((⌊sample * (3 + √5) / 2⌋₊ : ℕ) : ℝ) := by
    unfold thresholdCount
    rw [if_neg (by linarith), if_neg (by linarith)]
  have hnn : 0 ≤ sample * (3 + √5) / 2 := by
    apply div_nonneg _ (by norm_num)
    apply mul_nonneg <;> linarith
  have hf1 := Nat.floor_le hnn
  have hf2 := Nat.lt_floor_add_one (sample * (3 + √5) / 2)
  rw [← hth] at hf1 hf2
  have hlo : sample * (2618 / 1000) - 1 < thresholdCount sample total := by nlinarith
  have hhi : thresholdCount sample total < sample * (2619 / 1000) := by nlinarith
  have ht : 0 < thresholdCount sample total := by nlinarith
  have hiff := ((C84_probability _ ht).1 v hv).2
  constructor
  · intro h
    rw [hiff.2]
    have : thresholdCount sample total * (2618 / 1000) ≤ thresholdCount sample total * ((3 + √5) / 2) := by
      apply mul_le_mul_of_nonneg_left _ ht.le
      linarith
    nlinarith
  · intro h
    refine lt_of_le_of_ne hiff.1 fun he => ?_
    have h1 := hiff.2.1 he
    have : thresholdCount sample total * ((3 + √5) / 2) ≤ thresholdCount sample total * (2619 / 1000) := by
      apply mul_le_mul_of_nonneg_left _ ht.le
      linarith
    nlinarith

/-- **C84.** So `sample=100` does not downsample a word that occurs 600 times. -/
theorem C84_shorthand_witness (total : ℕ) : wordProbability (thresholdCount 100 total) 600 = 1 := by
  have h5 := sqrt5_bounds
  have hth : thresholdCount 100 total = 261 := by
    unfold thresholdCount
    rw [if_neg (by norm_num), if_neg (by norm_num)]
    have : ⌊100 * (3 + √5) / 2⌋₊ = 261 := by
      rw [Nat.floor_eq_iff (by linarith)]
      constructor
      · push_cast; linarith
      · push_cast; linarith
    rw [this]
    norm_num
  rw [hth, ((C84_probability 261 (by norm_num)).1 600 (by norm_num)).2.2]
  push_cast
  linarith

/-- **C84.** Adding a corpus to a vocabulary (`update=True`) forgets the counts of the earlier ones: a word
that is downsampled in a corpus, and in both corpora together, is always kept after the second is added. -/
theorem C84_update_forgets :
    let cfg : Cfg String := { rule := none, minCount := 1, maxFinal := none, sorted := true }
    let first := setSampleInts (1 / 100) cfg [("the", 9000), ("cat", 1000)] fun _ => 0
    let second := setSampleInts (1 / 100) cfg [("the", 1), ("cat", 999)] first
    let both := setSampleInts (1 / 100) cfg [("the", 9001), ("cat", 1999)] fun _ => 0
    first "the" < 2 ^ 31 ∧ both "the" < 2 ^ 31 ∧ second "the" = 2 ^ 32 - 1 := by
  dsimp only
  have h5 := sqrt5_bounds
  have hth : ∀ n : ℕ, thresholdCount (1 / 100) n = 1 / 100 * n := by
    intro n
    unfold thresholdCount
    rw [if_neg (by norm_num), if_pos (by norm_num)]
  have small : ∀ (t : ℝ) (v : ℕ), 0 < t → 16 * t ≤ v → sampleInt (wordProbability t v) < 2 ^ 31 := by
    intro t v ht hv
    have hv0 : (0 : ℝ) < v := by linarith
    have hp : wordProbability t v ≤ 5 / 16 := by
      rw [(C84_probability t ht).2.1 v (by nlinarith)]
      have hx : t / v ≤ 1 / 16 := by
        rw [div_le_iff₀ hv0]
        linarith
      have : √(t / v) ≤ 1 / 4 := by
        rw [Real.sqrt_le_left (by norm_num)]
        linarith
      linarith
    have := (wordProbability_mem t ht v (by exact_mod_cast hv0)).1
    unfold sampleInt
    rw [Nat.floor_lt (mul_nonneg this (by norm_num))]
    norm_num
    linarith
  refine ⟨?_, ?_, ?_⟩
  · rw [(C84_build (1 / 100) _ [("the", 9000), ("cat", 1000)] (by unfold WF keys; decide) _ "the").1 9000 rfl (by decide), hth]
    apply small
    · norm_num [keepItem, effective]
    · norm_num [keepItem, effective]
  · rw [(C84_build (1 / 100) _ [("the", 9001), ("cat", 1999)] (by unfold WF keys; decide) _ "the").1 9001 rfl (by decide), hth]
    apply small
    · norm_num [keepItem, effective]
    · norm_num [keepItem, effective]
  · rw [(C84_build (1 / 100) _ [("the", 1), ("cat", 999)] (by unfold WF keys; decide) _ "the").1 1 rfl (by decide), hth]
    have : wordProbability (1 / 100 * (((([("the", 1), ("cat", 999)] : PyDict String Nat).filter fun p =>
        keepItem none p.1 p.2 (effective { rule := none, minCount := 1, maxFinal := none, sorted := true }
          [("the", 1), ("cat", 999)])).map Prod.snd).sum : ℕ)) 1 = 1 := by
      have he : (((([("the", 1), ("cat", 999)] : PyDict String Nat).filter fun p =>
        keepItem none p.1 p.2 (effective { rule := none, minCount := 1, maxFinal := none, sorted := true }
          [("the", 1), ("cat", 999)])).map Prod.snd).sum : ℕ) = 1000 := by decide
      rw [he, ((C84_probability _ (by norm_num)).1 1 one_pos).2.2]
      push_cast
      linarith
    rw [this]
    unfold sampleInt
    rw [one_mul, show (2 ^ 32 - 1 : ℝ) = ((2 ^ 32 - 1 : ℕ) : ℝ) by norm_num, Nat.floor_natCast]

end Verif.W2V

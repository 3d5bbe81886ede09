import Verif.Doc2Vec.StepProps

/-!
# C88: inferring the vector of a new document
-/

namespace Verif.D2VStep

open Verif.W2V Verif.W2V.Step
open scoped InnerProductSpace

variable {E H : Type} [NormedAddCommGroup E] [InnerProductSpace ℝ E] [NormedAddCommGroup H]
  [InnerProductSpace ℝ H]

/-! ## Specification -/

/-- The weights of the model: word vectors and output rows. -/
def weights (s : DNet E H) : (ℕ → E) × (ℕ → H) × (ℕ → H) := (s.wv, s.syn1, s.syn1neg)

/-! ## Frozen weights -/

theorem outHs_foldl_false (S : Sig) (alpha : ℝ) (h : H) (path : List (ℕ × Bool)) (o : (ℕ → H) × H) :
    (path.foldl (outHs S alpha false h) o).1 = o.1 := by
  rw [foldl_outHs, outNeg_foldl_false]

theorem hidden_frozen (c : DConfig) (hf : c.learnHidden = false) (h : H) (s : DNet E H) (word : ℕ) :
    weights (hidden c h s word).1 = weights s ∧ (hidden c h s word).1.dv = s.dv := by
  unfold hidden weights
  rw [hf]
  have h1 : ∀ w : H, (((negTargets c.table c.negative word s.rand).foldl (outNeg c.S c.alpha false h)
      (s.syn1neg, w)).1) = s.syn1neg := fun w => by rw [outNeg_foldl_false]
  have h2 := outHs_foldl_false c.S c.alpha h (c.path word) (s.syn1, 0)
  cases c.hs <;> by_cases hn : c.negative > 0 <;> simp [hn, h1, h2]

theorem dbowTagPair_frozen (c : DConfig) (hf : c.learnHidden = false) (s : DNet E E) (word tag : ℕ) :
    weights (dbowTagPair c s word tag) = weights s := by
  unfold dbowTagPair weights dbowHs dbowNeg
  rw [hf]
  have h1 : ∀ (x : E) (r : ℕ), (((negTargets c.table c.negative word r).foldl (outNeg c.S c.alpha false x)
      (s.syn1neg, 0)).1) = s.syn1neg := fun x r => by rw [outNeg_foldl_false]
  have h2 := fun x => outHs_foldl_false c.S c.alpha x (c.path word) (s.syn1, (0 : E))
  cases c.hs <;> by_cases hn : c.negative > 0 <;> simp [hn, h1, h2]

theorem dmWord_frozen (c : DConfig) (hf : c.learnHidden = false) (hw : c.learnWords = false) (lockLen : ℕ)
    (s : DNet E E) (word : ℕ) (ctx tags : List ℕ) : weights (dmWord c lockLen s word ctx tags) = weights s := by
  have h := (hidden_frozen c hf (dmInput c.cbowMean ctx tags s.wv s.dv) s word).1
  unfold dmWord
  rw [hw]
  unfold weights at *
  cases c.learnDoctags <;> exact h

theorem concatWord_frozen {n : ℕ} (c : DConfig) (hf : c.learnHidden = false) (hw : c.learnWords = false)
    (tagBlock : ℕ → ℕ) (s : DNet E (Blocks E n)) (word : ℕ) (widx tags : List ℕ) :
    weights (concatWord c tagBlock s word widx tags) = weights s := by
  have h := (hidden_frozen c hf (concatInput tags widx s.wv s.dv) s word).1
  unfold concatWord
  rw [hw]
  unfold weights at *
  cases c.learnDoctags <;> exact h

theorem foldl_frozen {α σ β : Type} (f : σ → α → σ) (g : σ → β) (h : ∀ s a, g (f s a) = g s) (l : List α) (s : σ) :
    g (l.foldl f s) = g s := by
  induction l generalizing s with
  | nil => rfl
  | cons a l ih => rw [List.foldl_cons, ih, h]

theorem inferEpoch_frozen (m : Trained E E) (sg : Bool) (words : List (Option ℕ)) (s : DNet E E) (e : ℝ × Draws) :
    weights (inferEpoch m sg words s e) = weights s := by
  unfold inferEpoch
  dsimp only
  cases sg
  · simp only [Bool.false_eq_true, if_false]
    unfold dmDocument
    rw [foldl_frozen _ weights fun s i => dmWord_frozen _ rfl rfl _ s _ _ _]
    rfl
  · simp only [if_true]
    unfold dbowDocument
    rw [foldl_frozen _ weights]
    · rfl
    · intro s i
      unfold dbowPosition
      simp only [inferConfig, Bool.false_eq_true, if_false]
      exact foldl_frozen _ weights (fun s t => dbowTagPair_frozen _ rfl s _ t) _ _

/-- **C88.** Inference leaves the model as it is: no word vector and no output row changes, in any mode, for any
words, arguments and random draws. -/
theorem C88_model_unchanged (m : Trained E E) (sg : Bool) (words : List (Option ℕ)) (start : E)
    (alpha minAlpha : Option ℝ) (epochs : Option ℕ) (draws : List Draws) :
    (infer m sg words start alpha minAlpha epochs draws).wv = m.net.wv ∧
      (infer m sg words start alpha minAlpha epochs draws).syn1 = m.net.syn1 ∧
      (infer m sg words start alpha minAlpha epochs draws).syn1neg = m.net.syn1neg := by
  have h := foldl_frozen (inferEpoch m sg words) weights (inferEpoch_frozen m sg words)
    ((inferRates (orDefault alpha m.cfg.alpha) (orDefault minAlpha m.minAlpha)
      (orDefaultNat epochs m.epochs)).zip draws) { m.net with dv := fun _ => start }
  unfold weights at h
  simp only [Prod.mk.injEq] at h
  exact h

theorem inferConcatEpoch_frozen {n : ℕ} (m : Trained E (Blocks E n)) (expected nullWord : ℕ)
    (words : List (Option ℕ)) (s : DNet E (Blocks E n)) (e : ℝ × Draws) :
    weights (inferConcatEpoch m expected nullWord words s e) = weights s := by
  unfold inferConcatEpoch concatDocument
  dsimp only
  split
  · rfl
  · rw [foldl_frozen _ weights fun s i => concatWord_frozen _ rfl rfl _ s _ _ _]
    rfl

/-- **C88.** The same with concatenation. -/
theorem C88_concat_model_unchanged {n : ℕ} (m : Trained E (Blocks E n)) (expected nullWord : ℕ)
    (words : List (Option ℕ)) (start : E) (alpha minAlpha : Option ℝ) (epochs : Option ℕ) (draws : List Draws) :
    (inferConcat m expected nullWord words start alpha minAlpha epochs draws).wv = m.net.wv ∧
      (inferConcat m expected nullWord words start alpha minAlpha epochs draws).syn1 = m.net.syn1 ∧
      (inferConcat m expected nullWord words start alpha minAlpha epochs draws).syn1neg = m.net.syn1neg := by
  have h := foldl_frozen (inferConcatEpoch m expected nullWord words) weights
    (inferConcatEpoch_frozen m expected nullWord words)
    ((inferRates (orDefault alpha m.cfg.alpha) (orDefault minAlpha m.minAlpha)
      (orDefaultNat epochs m.epochs)).zip draws) { m.net with dv := fun _ => start }
  unfold weights at h
  simp only [Prod.mk.injEq] at h
  exact h

/-! ## The learning rates -/

theorem inferRates_eq (alpha minAlpha : ℝ) (epochs : ℕ) : inferRates alpha minAlpha epochs
    = (List.range epochs).map fun i : ℕ => alpha - i * ((alpha - minAlpha) / ((max (epochs - 1) 1 : ℕ) : ℝ)) := by
  unfold inferRates
  dsimp only
  generalize (alpha - minAlpha) / ((max (epochs - 1) 1 : ℕ) : ℝ) = d
  have key : ∀ n : ℕ, (List.range n).foldl (fun st _ => (st.1 ++ [st.2], st.2 - d)) (([] : List ℝ), alpha)
      = ((List.range n).map fun i : ℕ => alpha - i * d, alpha - n * d) := by
    intro n
    induction n with
    | zero => simp
    | succ n ih =>
      rw [List.range_succ, List.foldl_append, ih, List.map_append]
      simp only [List.foldl_cons, List.foldl_nil, List.map_cons, List.map_nil, Prod.mk.injEq, true_and]
      push_cast
      ring
  rw [key]

/-- **C88.** There is one rate for each epoch; they fall in equal steps from `alpha` in the first epoch to
`min_alpha` in the last; a single epoch uses `alpha`. -/
theorem C88_rates (alpha minAlpha : ℝ) (epochs : ℕ) :
    (inferRates alpha minAlpha epochs).length = epochs ∧
      (∀ i, i < epochs → (inferRates alpha minAlpha epochs)[i]?
        = some (alpha - i * ((alpha - minAlpha) / ((max (epochs - 1) 1 : ℕ) : ℝ)))) ∧
      (0 < epochs → (inferRates alpha minAlpha epochs).head? = some alpha) ∧
      (2 ≤ epochs → (inferRates alpha minAlpha epochs).getLast? = some minAlpha) := by
  rw [inferRates_eq]
  have hget : ∀ i, i < epochs → ((List.range epochs).map fun i : ℕ =>
      alpha - i * ((alpha - minAlpha) / ((max (epochs - 1) 1 : ℕ) : ℝ)))[i]?
        = some (alpha - i * ((alpha - minAlpha) / ((max (epochs - 1) 1 : ℕ) : ℝ))) := by
    intro i hi
    rw [List.getElem?_map, List.getElem?_range hi]
    rfl
  refine ⟨by simp, hget, ?_, ?_⟩
  · intro h
    rw [List.head?_eq_getElem?, hget 0 h]
    simp
  · intro h
    rw [List.getLast?_eq_getElem?, List.length_map, List.length_range, hget (epochs - 1) (by omega)]
    have h1 : max (epochs - 1) 1 = epochs - 1 := by omega
    have h2 : ((epochs - 1 : ℕ) : ℝ) ≠ 0 := by
      have : 0 < epochs - 1 := by omega
      positivity
    rw [h1, mul_div_cancel₀ _ h2]
    simp

/-- **C88.** All rates are between the two if `min_alpha ≤ alpha`. -/
theorem C88_rates_bounds (alpha minAlpha : ℝ) (h : minAlpha ≤ alpha) (epochs : ℕ) (r : ℝ)
    (hr : r ∈ inferRates alpha minAlpha epochs) : minAlpha ≤ r ∧ r ≤ alpha := by
  rw [inferRates_eq, List.mem_map] at hr
  obtain ⟨i, hi, rfl⟩ := hr
  have hi := List.mem_range.1 hi
  have hp : (0 : ℝ) < ((max (epochs - 1) 1 : ℕ) : ℝ) := by
    have : 0 < max (epochs - 1) 1 := by omega
    exact_mod_cast this
  have hile : (i : ℝ) ≤ ((max (epochs - 1) 1 : ℕ) : ℝ) := by
    have : i ≤ max (epochs - 1) 1 := by omega
    exact_mod_cast this
  have hd : 0 ≤ alpha - minAlpha := by linarith
  have h1 : 0 ≤ (i : ℝ) * ((alpha - minAlpha) / ((max (epochs - 1) 1 : ℕ) : ℝ)) := by positivity
  have h2 : (i : ℝ) * ((alpha - minAlpha) / ((max (epochs - 1) 1 : ℕ) : ℝ)) ≤ alpha - minAlpha := by
    rw [mul_div_assoc', div_le_iff₀ hp, mul_comm]
    exact mul_le_mul_of_nonneg_left hile hd
  constructor <;> linarith

/-! ## Each step goes down the gradient -/

theorem infer_dbow_epoch (m : Trained E E) (words : List (Option ℕ)) (s : DNet E E) (e : ℝ × Draws) :
    inferEpoch m true words s e
      = (docIndexes m.useSample m.sampleInts maxDocumentLen words e.2.rand).1.foldl
          (fun s w => dbowTagPair (inferConfig m.cfg e.1) s w 0)
          { s with rand := (docIndexes m.useSample m.sampleInts maxDocumentLen words e.2.rand).2 } := by
  unfold inferEpoch dbowDocument
  simp only [if_true]
  generalize (docIndexes m.useSample m.sampleInts maxDocumentLen words e.2.rand) = r
  have hp : ∀ (s : DNet E E) (i : ℕ), dbowPosition (inferConfig m.cfg e.1) e.2.reduced r.1 [0] s i
      = dbowTagPair (inferConfig m.cfg e.1) s (r.1.getD i 0) 0 := fun s i => rfl
  have hr : r.1 = (List.range r.1.length).map fun i => r.1.getD i 0 := by
    apply List.ext_getElem?
    intro i
    by_cases hi : i < r.1.length
    · simp [hi]
    · rw [List.getElem?_eq_none (by omega), List.getElem?_eq_none (by simp; omega)]
  conv_rhs => rw [hr, List.foldl_map]
  congr 1

/-- **C88.** Inference in DBOW mode: each epoch goes through the known words (those that pass the downsampling) in
order, and each of these steps is a step of gradient descent, with the rate of the epoch, on the negative
log-likelihood of the word given the vector that is inferred, for the trained weights. -/
theorem C88_dbow [CompleteSpace E] (m : Trained E E) (hS : m.cfg.S = exact) (h1 : m.cfg.hs = true ↔ m.cfg.negative = 0)
    (rate : ℝ) (s : DNet E E) (hw : weights s = weights m.net) (word : ℕ)
    (hreg : Regular (inferConfig m.cfg rate) word s.rand (s.dv 0) m.net.syn1 m.net.syn1neg) :
    GradientStep rate (fun x => wordLoss m.cfg word s.rand x m.net.syn1 m.net.syn1neg) (s.dv 0)
      ((dbowTagPair (inferConfig m.cfg rate) s word 0).dv 0) := by
  unfold weights at hw
  simp only [Prod.mk.injEq] at hw
  obtain ⟨_, w1, w2⟩ := hw
  rw [← w1, ← w2] at hreg ⊢
  have := (C87_dbow_tag (inferConfig m.cfg rate) hS s word 0 h1 hreg).1
  rw [show (if (inferConfig m.cfg rate).learnDoctags then lock (inferConfig m.cfg rate).doctagsLockf 0
    * (inferConfig m.cfg rate).alpha else 0) = rate by simp [inferConfig, lock]] at this
  exact this

/-- **C88.** Inference in DM mode: a step for a word goes down the gradient, for the trained weights; its length is
that of a gradient step times (mean) or divided by (sum) the number of context vectors. -/
theorem C88_dm [CompleteSpace E] (m : Trained E E) (hS : m.cfg.S = exact) (rate : ℝ) (s : DNet E E)
    (hw : weights s = weights m.net) (word : ℕ) (ctx : List ℕ)
    (hreg : Regular (inferConfig m.cfg rate) word s.rand (dmBag m.cfg.cbowMean ctx [0] m.net.wv s.dv)
      m.net.syn1 m.net.syn1neg) :
    GradientStep (rate * (if m.cfg.cbowMean then ((ctx.length + 1 : ℕ) : ℝ) else 1 / ((ctx.length + 1 : ℕ) : ℝ)))
      (fun x => wordLoss m.cfg word s.rand (dmBag m.cfg.cbowMean ctx [0] m.net.wv (Function.update s.dv 0 x))
        m.net.syn1 m.net.syn1neg) (s.dv 0)
      ((dmWord (inferConfig m.cfg rate) (inferConfig m.cfg rate).doctagsLockf.length s word ctx [0]).dv 0) := by
  unfold weights at hw
  simp only [Prod.mk.injEq] at hw
  obtain ⟨w0, w1, w2⟩ := hw
  rw [← w0, ← w1, ← w2] at hreg ⊢
  have := (C87_dm (inferConfig m.cfg rate) hS 1 s word ctx [0] (by simp) hreg).1 0
  rw [show (if (inferConfig m.cfg rate).learnDoctags then lock (inferConfig m.cfg rate).doctagsLockf 0
    * (inferConfig m.cfg rate).alpha * (if (inferConfig m.cfg rate).cbowMean then
      ((ctx.length + [0].length : ℕ) : ℝ) else 1 / ((ctx.length + [0].length : ℕ) : ℝ)) else 0)
      = rate * (if m.cfg.cbowMean then ((ctx.length + 1 : ℕ) : ℝ) else 1 / ((ctx.length + 1 : ℕ) : ℝ)) by
        simp [inferConfig, lock]] at this
  exact this

/-- **C88.** Inference with concatenation: a step for a word is a step of gradient descent with the rate of the
epoch, for the trained weights. -/
theorem C88_concat [CompleteSpace E] (widx : List ℕ) (m : Trained E (Blocks E ([0].length + widx.length)))
    (hS : m.cfg.S = exact) (rate : ℝ) (s : DNet E (Blocks E ([0].length + widx.length)))
    (hw : weights s = weights m.net) (word : ℕ)
    (hreg : Regular (inferConfig m.cfg rate) word s.rand
      (concatInput [0] widx m.net.wv s.dv : Blocks E ([0].length + widx.length)) m.net.syn1 m.net.syn1neg) :
    GradientStep rate
      (fun x => wordLoss m.cfg word s.rand
        (concatInput [0] widx m.net.wv (Function.update s.dv 0 x) : Blocks E ([0].length + widx.length))
        m.net.syn1 m.net.syn1neg) (s.dv 0)
      ((concatWord (inferConfig m.cfg rate) id s word widx [0]).dv 0) := by
  unfold weights at hw
  simp only [Prod.mk.injEq] at hw
  obtain ⟨w0, w1, w2⟩ := hw
  rw [← w0, ← w1, ← w2] at hreg ⊢
  have := (C87_concat (inferConfig m.cfg rate) hS [0] widx s word hreg).1 0
  rw [show (if (inferConfig m.cfg rate).learnDoctags then lock (inferConfig m.cfg rate).doctagsLockf 0
    * (inferConfig m.cfg rate).alpha else 0) = rate by simp [inferConfig, lock]] at this
  exact this

/-! ## Documents and settings that train nothing -/

theorem docIndexes_unknown (useSample : Bool) (sampleInts : ℕ → ℕ) (room r : ℕ) (words : List (Option ℕ))
    (h : ∀ w ∈ words, w = none) : docIndexes useSample sampleInts room words r = ([], r) := by
  induction words with
  | nil => rfl
  | cons w words ih =>
    rw [h w (by simp), docIndexes, ih fun w hw => h w (by simp [hw])]

/-- **C88.** A document without known words keeps the vector that inference starts with. -/
theorem C88_unknown_words (m : Trained E E) (sg : Bool) (words : List (Option ℕ)) (h : ∀ w ∈ words, w = none)
    (start : E) (alpha minAlpha : Option ℝ) (epochs : Option ℕ) (draws : List Draws) :
    (infer m sg words start alpha minAlpha epochs draws).dv 0 = start := by
  unfold infer
  dsimp only
  refine foldl_frozen (inferEpoch m sg words) (fun s => s.dv 0) (fun s e => ?_) _ _
  unfold inferEpoch
  dsimp only
  rw [docIndexes_unknown _ _ _ _ _ h]
  cases sg <;> rfl

/-- **C88.** With concatenation and `dm_tag_count` other than 1, inference trains nothing: the result is the
vector it starts with, whatever the document. -/
theorem C88_concat_tag_count {n : ℕ} (m : Trained E (Blocks E n)) (expected nullWord : ℕ) (he : expected ≠ 1)
    (words : List (Option ℕ)) (start : E) (alpha minAlpha : Option ℝ) (epochs : Option ℕ) (draws : List Draws) :
    (inferConcat m expected nullWord words start alpha minAlpha epochs draws).dv 0 = start := by
  unfold inferConcat
  dsimp only
  refine foldl_frozen (inferConcatEpoch m expected nullWord words) (fun s => s.dv 0) (fun s e => ?_) _ _
  unfold inferConcatEpoch concatDocument
  dsimp only
  rw [if_pos (by simpa using he.symm)]

/-- **C88.** An argument of 0 is not used: it means the default. -/
theorem C88_zero_is_default (m : Trained E E) (sg : Bool) (words : List (Option ℕ)) (start : E)
    (alpha minAlpha : Option ℝ) (epochs : Option ℕ) (draws : List Draws) :
    infer m sg words start (some 0) minAlpha epochs draws = infer m sg words start none minAlpha epochs draws ∧
      infer m sg words start alpha (some 0) epochs draws = infer m sg words start alpha none epochs draws ∧
      infer m sg words start alpha minAlpha (some 0) draws = infer m sg words start alpha minAlpha none draws := by
  unfold infer orDefault orDefaultNat
  simp

/-- **C88.** All arguments but 0 are used as they are. -/
theorem C88_arguments (a d : ℝ) (ha : a ≠ 0) (n k : ℕ) (hn : n ≠ 0) :
    orDefault (some a) d = a ∧ orDefaultNat (some n) k = n ∧ orDefault none d = d ∧ orDefaultNat none k = k := by
  simp [orDefault, orDefaultNat, ha, hn]

/-! ## Examples -/

/-- The hypotheses of `C88_dbow` are met, and inference does move the vector. -/
example : Regular (inferConfig lockedConfig 1) 0 0 (0 : ℝ) (fun _ => 1) (fun _ => 0) ∧
    (infer (⟨⟨fun _ => 0, fun _ => 0, fun _ => 1, fun _ => 0, 0⟩, lockedConfig, false, fun _ => 0, 1, 1⟩ : Trained ℝ ℝ)
      true [some 0] 0 none none none [⟨0, fun _ => 0⟩]).dv 0 = 1 / 2 := by
  have hs : sigm 0 = 1 / 2 := by
    unfold sigm
    norm_num
  refine ⟨by simp [Regular, inferConfig, lockedConfig], ?_⟩
  simp [infer, inferRates, orDefault, orDefaultNat, lockedConfig, inferEpoch, docIndexes, maxDocumentLen,
    dbowDocument, inferConfig, dbowPosition, dbowTagPair, dbowHs, outHs, exact, hs, lock]
  norm_num

end Verif.D2VStep

import Verif.W2V.StepProps

/-!
# C83: a training step of word2vec follows the gradient (continuous bag of words)
-/

namespace Verif.W2V.Step

open scoped InnerProductSpace

variable {E : Type} [NormedAddCommGroup E] [InnerProductSpace ℝ E]

/-! ## Specification -/

/-- The input of the network: the mean or the sum of the vectors of the context words. -/
noncomputable def bag (mean : Bool) (ctx : List ℕ) (v : ℕ → E) : E :=
  if mean then (1 / (ctx.length : ℝ)) • (ctx.map v).sum else (ctx.map v).sum

/-! ## Proofs -/

theorem foldl_sum (ctx : List ℕ) (v : ℕ → E) (a : E) :
    ctx.foldl (fun s w => s + v w) a = a + (ctx.map v).sum := by
  induction ctx generalizing a with
  | nil => simp
  | cons w ctx ih => rw [List.foldl_cons, ih, List.map_cons, List.sum_cons, add_assoc]

/-- **C83.** The input of the network is the mean (or the sum) of the vectors of the context words. -/
theorem C83_input (cbowMean : Bool) (ctx : List ℕ) (syn0 : ℕ → E) (hne : ctx ≠ []) :
    cbowInput cbowMean ctx syn0 = bag cbowMean ctx syn0 := by
  unfold cbowInput bag invCount
  dsimp only
  rw [foldl_sum, zero_add, if_pos (List.length_pos_iff.2 hne)]

theorem sum_update (ctx : List ℕ) (v : ℕ → E) (c : ℕ) (y : E) :
    (ctx.map (Function.update v c y)).sum
      = ((ctx.count c : ℕ) : ℝ) • (y - v c) + (ctx.map v).sum := by
  induction ctx with
  | nil => simp
  | cons w ctx ih =>
    rw [List.map_cons, List.sum_cons, ih, List.map_cons, List.sum_cons]
    by_cases hw : w = c
    · subst hw
      rw [List.count_cons_self, Function.update_self]
      push_cast
      rw [add_smul, one_smul]
      abel
    · rw [List.count_cons_of_ne (fun h => hw h), Function.update_of_ne hw]
      abel

/-- The factor of a context word in the input. -/
noncomputable def factor (mean : Bool) (ctx : List ℕ) (c : ℕ) : ℝ :=
  if mean then (1 / (ctx.length : ℝ)) * (ctx.count c : ℝ) else (ctx.count c : ℝ)

theorem bag_update (mean : Bool) (ctx : List ℕ) (v : ℕ → E) (c : ℕ) (y : E) :
    bag mean ctx (Function.update v c y) = factor mean ctx c • (y - v c) + bag mean ctx v := by
  unfold bag factor
  cases mean with
  | false =>
    simp only [Bool.false_eq_true, if_false]
    exact sum_update ctx v c y
  | true =>
    simp only [if_true]
    rw [sum_update, smul_add, smul_smul]

theorem spread_eq (mean : Bool) (lockf : List ℝ) (ctx : List ℕ) (work : E) (syn0 : ℕ → E) (c : ℕ) :
    cbowSpread mean lockf ctx work syn0 c = syn0 c
      + ((ctx.count c : ℝ) * lock lockf c) • (if mean then work else invCount ctx • work) := by
  unfold cbowSpread
  generalize (if mean then work else invCount ctx • work) = w'
  induction ctx generalizing syn0 with
  | nil => simp
  | cons w ctx ih =>
    rw [List.foldl_cons, ih]
    by_cases hw : w = c
    · subst hw
      rw [Function.update_self, List.count_cons_self]
      push_cast
      rw [add_mul, one_mul, add_smul]
      abel
    · rw [Function.update_of_ne (fun h => hw h.symm), List.count_cons_of_ne (fun h => hw h)]

theorem chain_bag [CompleteSpace E] (mean : Bool) (ctx : List ℕ) (v : ℕ → E) (c : ℕ) (F : E → ℝ) (G : E)
    (hG : HasGradientAt F G (bag mean ctx v)) :
    HasGradientAt (fun y => F (bag mean ctx (Function.update v c y))) (factor mean ctx c • G) (v c) := by
  rw [hasGradientAt_iff_innerSL] at hG ⊢
  have h1 : HasFDerivAt (fun y => bag mean ctx (Function.update v c y))
      (factor mean ctx c • ContinuousLinearMap.id ℝ E) (v c) := by
    have he : (fun y => bag mean ctx (Function.update v c y))
        = fun y => factor mean ctx c • (y - v c) + bag mean ctx v := by
      funext y
      exact bag_update mean ctx v c y
    rw [he]
    exact (((hasFDerivAt_id (v c)).sub_const (v c)).const_smul (factor mean ctx c)).add_const _
  have h2 : HasFDerivAt F (innerSL ℝ G) (bag mean ctx (Function.update v c (v c))) := by
    rw [Function.update_eq_self]
    exact hG
  have h3 := h2.comp (v c) h1
  refine h3.congr_fderiv ?_
  ext x
  simp [inner_smul_left]

theorem step_context [CompleteSpace E] (mean : Bool) (lockf : List ℝ) (ctx : List ℕ) (hne : ctx ≠ [])
    (alpha : ℝ) (syn0 : ℕ → E) (F : E → ℝ) (work : E)
    (h : ∃ G, HasGradientAt F G (bag mean ctx syn0) ∧ work = -(alpha • G)) (c : ℕ) :
    GradientStep (lock lockf c * alpha * (if mean then (ctx.length : ℝ) else 1 / ctx.length))
      (fun y => F (bag mean ctx (Function.update syn0 c y))) (syn0 c)
      (cbowSpread mean lockf ctx work syn0 c) := by
  obtain ⟨G, h1, h2⟩ := h
  have hlen : (ctx.length : ℝ) ≠ 0 := by
    have := List.length_pos_iff.2 hne
    positivity
  refine ⟨_, chain_bag mean ctx syn0 c F G h1, ?_⟩
  rw [spread_eq, h2, sub_eq_add_neg, smul_smul]
  congr 1
  unfold factor invCount
  rw [if_pos (List.length_pos_iff.2 hne)]
  cases mean with
  | true =>
    simp only [if_true]
    rw [smul_neg, smul_smul]
    congr 2
    field_simp
  | false =>
    simp only [Bool.false_eq_true, if_false]
    rw [smul_neg, smul_neg, smul_smul, smul_smul]
    congr 2
    field_simp

/-- **C83.** A CBOW step with negative sampling (distinct samples, no saturation) is a step of gradient
descent for all output vectors.  For a context word it goes in the direction of the gradient, but the step
is too long by the number of context words if their mean is used, and too short by this number if their
sum is used.  The loss reported is the negative log-likelihood. -/
theorem C83_cbow_neg [CompleteSpace E] (alpha : ℝ) (computeLoss cbowMean : Bool) (lockf : List ℝ)
    (targets : List (ℕ × Bool)) (ctx : List ℕ) (hne : ctx ≠ []) (syn0 syn1neg : ℕ → E) (loss : ℝ)
    (hd : (targets.map Prod.fst).Nodup)
    (hr : ∀ tl ∈ targets, |⟪bag cbowMean ctx syn0, syn1neg tl.1⟫_ℝ| < 6) :
    let r := cbowNeg exact alpha computeLoss cbowMean lockf targets ctx syn0 syn1neg loss
    (∀ c, GradientStep
        (lock lockf c * alpha * (if cbowMean then (ctx.length : ℝ) else 1 / ctx.length))
        (fun y => pairLoss targets (bag cbowMean ctx (Function.update syn0 c y)) syn1neg)
        (syn0 c) (r.1 c)) ∧
      (∀ c, c ∉ ctx → r.1 c = syn0 c) ∧
      (∀ t, GradientStep alpha
        (fun y => pairLoss targets (bag cbowMean ctx syn0) (Function.update syn1neg t y))
        (syn1neg t) (r.2.1 t)) ∧
      r.2.2 = if computeLoss then loss + pairLoss targets (bag cbowMean ctx syn0) syn1neg else loss := by
  obtain ⟨h1, h2, h3, h4⟩ := loop_gradient alpha computeLoss argNeg targets (bag cbowMean ctx syn0)
    syn1neg loss hd hr
  rw [← foldl_neg] at h1 h2 h3 h4
  unfold cbowNeg
  dsimp only
  rw [C83_input cbowMean ctx syn0 hne]
  refine ⟨fun c => step_context cbowMean lockf ctx hne alpha syn0 _ _ h1 c, ?_, h2, ?_⟩
  · intro c hc
    rw [spread_eq, List.count_eq_zero.2 hc]
    simp
  · cases computeLoss with
    | false => exact h4 rfl
    | true =>
      simp only [if_true]
      rw [pairLoss]
      simp only [neg_arg] at h3
      exact h3 trivial

/-- **C83.** The same for hierarchical softmax, with the reversed loss of C82. -/
theorem C83_cbow_hs [CompleteSpace E] (alpha : ℝ) (computeLoss cbowMean : Bool) (lockf : List ℝ)
    (path : List (ℕ × Bool)) (ctx : List ℕ) (hne : ctx ≠ []) (syn0 syn1 : ℕ → E) (loss : ℝ)
    (hd : (path.map Prod.fst).Nodup)
    (hr : ∀ pc ∈ path, |⟪bag cbowMean ctx syn0, syn1 pc.1⟫_ℝ| < 6) :
    let r := cbowHs exact alpha computeLoss cbowMean lockf path ctx syn0 syn1 loss
    (∀ c, GradientStep
        (lock lockf c * alpha * (if cbowMean then (ctx.length : ℝ) else 1 / ctx.length))
        (fun y => pairLoss (labels path) (bag cbowMean ctx (Function.update syn0 c y)) syn1)
        (syn0 c) (r.1 c)) ∧
      (∀ c, c ∉ ctx → r.1 c = syn0 c) ∧
      (∀ t, GradientStep alpha
        (fun y => pairLoss (labels path) (bag cbowMean ctx syn0) (Function.update syn1 t y))
        (syn1 t) (r.2.1 t)) ∧
      r.2.2 = if computeLoss then loss + pairLoss path (bag cbowMean ctx syn0) syn1 else loss := by
  obtain ⟨h1, h2, h3, h4⟩ := loop_gradient alpha computeLoss (fun l f => argNeg (!l) f) (labels path)
    (bag cbowMean ctx syn0) syn1 loss (by rw [labels_fst]; exact hd) (by
      intro tl hm
      obtain ⟨pc, hpc, rfl⟩ := List.mem_map.1 hm
      exact hr pc hpc)
  rw [← foldl_hs] at h1 h2 h3 h4
  unfold cbowHs
  dsimp only
  rw [C83_input cbowMean ctx syn0 hne]
  refine ⟨fun c => step_context cbowMean lockf ctx hne alpha syn0 _ _ h1 c, ?_, h2, ?_⟩
  · intro c hc
    rw [spread_eq, List.count_eq_zero.2 hc]
    simp
  · cases computeLoss with
    | false => exact h4 rfl
    | true =>
      simp only [if_true]
      rw [pairLoss]
      simp only [neg_arg, labels, List.map_map] at h3
      rw [show _ = _ from h3 trivial]
      simp [Function.comp_def]

/-- **C83.** A word without context (a sentence of one word) trains nothing, but adds log 2 to the loss for
every sample. -/
theorem C83_no_context (alpha : ℝ) (cbowMean : Bool) (lockf : List ℝ) (targets : List (ℕ × Bool))
    (syn0 syn1neg : ℕ → E) (loss : ℝ) :
    cbowNeg exact alpha true cbowMean lockf targets [] syn0 syn1neg loss
      = (syn0, syn1neg, loss + targets.length * Real.log 2) := by
  have hin : cbowInput cbowMean [] syn0 = 0 := by
    cases cbowMean <;> simp [cbowInput]
  have hloop : ∀ (ts : List (ℕ × Bool)) (o : Out E),
      (ts.foldl (negDraw exact alpha true (0 : E)) o).syn1 = o.syn1 ∧
      (ts.foldl (negDraw exact alpha true (0 : E)) o).loss = o.loss + ts.length * Real.log 2 := by
    intro ts
    induction ts with
    | nil => intro o; simp
    | cons tl ts ih =>
      intro o
      rw [List.foldl_cons]
      obtain ⟨i1, i2⟩ := ih (negDraw exact alpha true 0 o tl)
      rw [i1, i2, negDraw_common]
      unfold common
      have hns : ¬ Sat ⟪(0 : E), o.syn1 tl.1⟫_ℝ := by
        rw [inner_zero_left, not_sat_iff]
        norm_num
      rw [if_neg hns]
      constructor
      · dsimp only
        rw [smul_zero, add_zero, Function.update_eq_self]
      · dsimp only [exact]
        rw [neg_arg, inner_zero_left]
        have : prob tl.2 0 = 2⁻¹ := by
          cases tl.2 <;> norm_num [prob, sigm]
        rw [this, Real.log_inv, List.length_cons]
        push_cast
        simp only [if_true]
        ring
  obtain ⟨h1, h2⟩ := hloop targets { syn1 := syn1neg, work := 0, loss := loss }
  unfold cbowNeg
  dsimp only
  rw [hin, h1, h2]
  rfl

theorem cbowWord_syn0 (c : Config) (s : Net E) (p : ℕ × List ℕ) (w : ℕ)
    (h : w ∉ p.2 ∨ lock c.lockf w = 0) : (cbowWord c s p).syn0 w = s.syn0 w := by
  have step : ∀ (work : E) (syn0 : ℕ → E), cbowSpread c.cbowMean c.lockf p.2 work syn0 w = syn0 w := by
    intro work syn0
    rw [spread_eq]
    rcases h with h | h
    · rw [List.count_eq_zero.2 h]; simp
    · rw [h]; simp
  unfold cbowWord
  dsimp only
  by_cases hh : c.hs = true <;> by_cases hn : c.negative > 0 <;>
    simp only [hh, hn, if_true, if_false, cbowHs, cbowNeg, Bool.false_eq_true, step]

/-- **C83.** With negative sampling, training on a word is a gradient step as in `C83_cbow_neg` with the
targets drawn for the word, leaves the tree alone and advances the generator. -/
theorem C83_word_neg [CompleteSpace E] (c : Config) (hS : c.S = exact) (hh : c.hs = false)
    (hn : 0 < c.negative) (s : Net E) (word : ℕ) (ctx : List ℕ) (hne : ctx ≠ [])
    (hd : ((negTargets c.table c.negative word s.rand).map Prod.fst).Nodup)
    (hr : ∀ tl ∈ negTargets c.table c.negative word s.rand,
      |⟪bag c.cbowMean ctx s.syn0, s.syn1neg tl.1⟫_ℝ| < 6) :
    let s' := cbowWord c s (word, ctx)
    (∀ w, GradientStep
        (lock c.lockf w * c.alpha * (if c.cbowMean then (ctx.length : ℝ) else 1 / ctx.length))
        (fun y => pairLoss (negTargets c.table c.negative word s.rand)
          (bag c.cbowMean ctx (Function.update s.syn0 w y)) s.syn1neg) (s.syn0 w) (s'.syn0 w)) ∧
      (∀ t, GradientStep c.alpha
        (fun y => pairLoss (negTargets c.table c.negative word s.rand) (bag c.cbowMean ctx s.syn0)
          (Function.update s.syn1neg t y)) (s.syn1neg t) (s'.syn1neg t)) ∧
      s'.syn1 = s.syn1 ∧ s'.rand = (negatives c.table word c.negative s.rand).2 ∧
      (c.computeLoss = true → s'.loss = s.loss
        + pairLoss (negTargets c.table c.negative word s.rand) (bag c.cbowMean ctx s.syn0) s.syn1neg) := by
  obtain ⟨h1, _, h3, h4⟩ := C83_cbow_neg c.alpha c.computeLoss c.cbowMean c.lockf
    (negTargets c.table c.negative word s.rand) ctx hne s.syn0 s.syn1neg s.loss hd hr
  dsimp only
  unfold cbowWord
  simp only [hh, Bool.false_eq_true, if_false, if_pos hn, hS]
  refine ⟨h1, h3, trivial, trivial, ?_⟩
  intro hc
  rw [h4, if_pos hc]

/-- **C83.** With hierarchical softmax alone, it is one as in `C83_cbow_hs` with the path of the word. -/
theorem C83_word_hs [CompleteSpace E] (c : Config) (hS : c.S = exact) (hh : c.hs = true)
    (hn : c.negative = 0) (s : Net E) (word : ℕ) (ctx : List ℕ) (hne : ctx ≠ [])
    (hd : ((c.path word).map Prod.fst).Nodup)
    (hr : ∀ pc ∈ c.path word, |⟪bag c.cbowMean ctx s.syn0, s.syn1 pc.1⟫_ℝ| < 6) :
    let s' := cbowWord c s (word, ctx)
    (∀ w, GradientStep
        (lock c.lockf w * c.alpha * (if c.cbowMean then (ctx.length : ℝ) else 1 / ctx.length))
        (fun y => pairLoss (labels (c.path word)) (bag c.cbowMean ctx (Function.update s.syn0 w y)) s.syn1)
        (s.syn0 w) (s'.syn0 w)) ∧
      (∀ t, GradientStep c.alpha
        (fun y => pairLoss (labels (c.path word)) (bag c.cbowMean ctx s.syn0) (Function.update s.syn1 t y))
        (s.syn1 t) (s'.syn1 t)) ∧
      s'.syn1neg = s.syn1neg ∧ s'.rand = s.rand := by
  obtain ⟨h1, _, h3, _⟩ := C83_cbow_hs c.alpha c.computeLoss c.cbowMean c.lockf (c.path word) ctx hne
    s.syn0 s.syn1 s.loss hd hr
  dsimp only
  unfold cbowWord
  simp only [hh, if_true, hn, gt_iff_lt, Nat.lt_irrefl, if_false, hS]
  exact ⟨h1, h3, trivial, trivial⟩

/-- **C83.** With both, a word is trained as with hierarchical softmax and then as with negative sampling. -/
theorem C83_word_both (c : Config) (hh : c.hs = true) (s : Net E) (p : ℕ × List ℕ) :
    cbowWord c s p = cbowWord { c with hs := false } (cbowWord { c with negative := 0 } s p) p := by
  unfold cbowWord
  simp [hh]

/-- **C83.** A batch trains, one after the other, each word with the words of its reduced window. -/
theorem C83_batch (c : Config) (window : ℕ) (reduced : ℕ → ℕ) (indexes : List ℕ) (a b : ℕ) (rest : List ℕ)
    (s : Net E) :
    trainCbow c window reduced indexes (a :: b :: rest) s
      = trainCbow c window reduced indexes (b :: rest)
          (((List.range' a (b - a)).map fun i => (indexes.getD i 0,
            ((List.range' a (b - a)).filter fun j =>
              decide (j ≠ i ∧ j + reduced i ≤ i + window ∧ i + reduced i ≤ j + window)).map fun j =>
              indexes.getD j 0)).foldl (cbowWord c) s) := by
  unfold trainCbow
  simp only [List.length_cons, Nat.add_sub_cancel]
  rw [List.range_succ_eq_map, List.flatMap_cons, List.flatMap_map, List.foldl_append]
  simp only [context_filter]
  rfl

/-- **C83.** Training on a batch never changes a locked vector, and changes only vectors of context
words. -/
theorem C83_frame (c : Config) (window : ℕ) (reduced : ℕ → ℕ) (indexes sidx : List ℕ) (s : Net E)
    (w : ℕ) (h : (∀ p ∈ pairs window reduced sidx, indexes.getD p.2 0 ≠ w) ∨ lock c.lockf w = 0) :
    (trainCbow c window reduced indexes sidx s).syn0 w = s.syn0 w := by
  have fold : ∀ (ps : List (ℕ × List ℕ)) (s : Net E), (∀ p ∈ ps, w ∉ p.2 ∨ lock c.lockf w = 0) →
      (ps.foldl (cbowWord c) s).syn0 w = s.syn0 w := by
    intro ps
    induction ps with
    | nil => intro s _; rfl
    | cons p ps ih =>
      intro s hp
      rw [List.foldl_cons, ih _ fun q hq => hp q (List.mem_cons_of_mem _ hq),
        cbowWord_syn0 c s p w (hp p List.mem_cons_self)]
  unfold trainCbow
  apply fold
  intro p hp
  rcases h with h | h
  · left
    intro hw
    obtain ⟨n, hn, hp⟩ := List.mem_flatMap.1 hp
    obtain ⟨i, hi, rfl⟩ := List.mem_map.1 hp
    obtain ⟨j, hj, hjw⟩ := List.mem_map.1 hw
    refine h (i, j) ?_ hjw
    unfold pairs
    exact List.mem_flatMap.2 ⟨n, hn, List.mem_flatMap.2 ⟨i, hi, List.mem_map.2 ⟨j, hj, rfl⟩⟩⟩
  · exact Or.inr h

example : bag true [1, 2, 2] (fun n => (n : ℝ)) = 5 / 3 ∧ bag false [1, 2, 2] (fun n => (n : ℝ)) = 5 := by
  constructor <;> norm_num [bag]

end Verif.W2V.Step

import Verif.Doc2Vec.StepModel
import Verif.W2V.CbowProps

/-!
# C87: training of document vectors follows the gradient
-/

namespace Verif.D2VStep

open Verif.W2V Verif.W2V.Step
open scoped InnerProductSpace

variable {E H : Type} [NormedAddCommGroup E] [InnerProductSpace ℝ E] [NormedAddCommGroup H]
  [InnerProductSpace ℝ H]

/-! ## Specification -/

/-- The negative log-likelihood of a word given the input `h` of the output layer: that of its path in the
tree, and that of the word against its negative samples. -/
noncomputable def wordLoss (c : DConfig) (word rand : ℕ) (h : H) (syn1 syn1neg : ℕ → H) : ℝ :=
  (if c.hs then pairLoss (labels (c.path word)) h syn1 else 0)
    + (if 0 < c.negative then pairLoss (negTargets c.table c.negative word rand) h syn1neg else 0)

/-- No score is saturated, and if the output rows are trained they are distinct. -/
def Regular (c : DConfig) (word rand : ℕ) (h : H) (syn1 syn1neg : ℕ → H) : Prop :=
  (c.hs = true → (∀ pc ∈ c.path word, |⟪h, syn1 pc.1⟫_ℝ| < 6) ∧
    (c.learnHidden = true → ((c.path word).map Prod.fst).Nodup)) ∧
  (0 < c.negative → (∀ tl ∈ negTargets c.table c.negative word rand, |⟪h, syn1neg tl.1⟫_ℝ| < 6) ∧
    (c.learnHidden = true → ((negTargets c.table c.negative word rand).map Prod.fst).Nodup))

/-- The input of DM: the mean or the sum of the vectors of the words of the window and of the tags. -/
noncomputable def dmBag (mean : Bool) (ctx tags : List ℕ) (wv dv : ℕ → E) : E :=
  if mean then (1 / ((ctx.length + tags.length : ℕ) : ℝ)) • ((ctx.map wv).sum + (tags.map dv).sum)
  else (ctx.map wv).sum + (tags.map dv).sum

/-! ## The output layer -/

theorem outHs_eq (S : Sig) (alpha : ℝ) (lh : Bool) (h : H) (o : (ℕ → H) × H) (pc : ℕ × Bool) :
    outHs S alpha lh h o pc = outNeg S alpha lh h o (pc.1, !pc.2) := by
  unfold outHs outNeg
  cases pc.2 <;> simp

theorem foldl_outHs (S : Sig) (alpha : ℝ) (lh : Bool) (h : H) (path : List (ℕ × Bool)) (o : (ℕ → H) × H) :
    path.foldl (outHs S alpha lh h) o = (labels path).foldl (outNeg S alpha lh h) o := by
  unfold labels
  rw [List.foldl_map]
  congr 1
  funext o pc
  exact outHs_eq S alpha lh h o pc

theorem outNeg_true (S : Sig) (alpha : ℝ) (h : H) (o : Out H) (tl : ℕ × Bool) :
    outNeg S alpha true h (o.syn1, o.work) tl
      = ((negDraw S alpha false h o tl).syn1, (negDraw S alpha false h o tl).work) := by
  unfold outNeg negDraw
  dsimp only
  split <;> simp

theorem outNeg_foldl_true (S : Sig) (alpha : ℝ) (h : H) (targets : List (ℕ × Bool)) (o : Out H) :
    targets.foldl (outNeg S alpha true h) (o.syn1, o.work)
      = ((targets.foldl (negDraw S alpha false h) o).syn1, (targets.foldl (negDraw S alpha false h) o).work) := by
  induction targets generalizing o with
  | nil => rfl
  | cons tl targets ih => rw [List.foldl_cons, outNeg_true, ih, List.foldl_cons]

theorem outNeg_foldl_false (S : Sig) (alpha : ℝ) (h : H) (targets : List (ℕ × Bool)) (o : (ℕ → H) × H) :
    targets.foldl (outNeg S alpha false h) o
      = (o.1, o.2 + (targets.map fun tl => (coef S h o.1 tl * alpha) • o.1 tl.1).sum) := by
  induction targets generalizing o with
  | nil => simp
  | cons tl targets ih =>
    rw [List.foldl_cons, ih, List.map_cons, List.sum_cons]
    have h1 : outNeg S alpha false h o tl = (o.1, o.2 + (coef S h o.1 tl * alpha) • o.1 tl.1) := by
      unfold outNeg coef
      dsimp only
      by_cases hs : Sat ⟪h, o.1 tl.1⟫_ℝ
      · rw [if_pos hs, if_pos (show _ ∨ _ from hs)]
        simp
      · rw [if_neg hs, if_neg (show ¬ (_ ∨ _) from hs)]
        rfl
    rw [h1, add_assoc]

/-- The output layer: the error for the input is the step of gradient descent, and the output rows make such a
step if they are trained. -/
theorem out_gradient [CompleteSpace H] (alpha : ℝ) (lh : Bool) (targets : List (ℕ × Bool)) (h : H) (v : ℕ → H)
    (work : H) (hd : lh = true → (targets.map Prod.fst).Nodup) (hr : ∀ tl ∈ targets, |⟪h, v tl.1⟫_ℝ| < 6) :
    let o := targets.foldl (outNeg exact alpha lh h) (v, work)
    (∃ G, HasGradientAt (fun x => pairLoss targets x v) G h ∧ o.2 = work - alpha • G) ∧
      (lh = true → ∀ t,
        GradientStep alpha (fun y => pairLoss targets h (Function.update v t y)) (v t) (o.1 t)) ∧
      (lh = false → o.1 = v) := by
  have hG := hasGradientAt_iff_innerSL.2 (hasFDerivAt_loss_h targets h v)
  have hsum : (targets.map fun tl => (coef exact h v tl * alpha) • v tl.1).sum
      = alpha • (targets.map fun tl => (num tl.2 - sigm ⟪h, v tl.1⟫_ℝ) • v tl.1).sum := by
    rw [List.smul_sum, List.map_map]
    congr 1
    apply List.map_congr_left
    intro tl hm
    rw [coef_exact h v tl (hr tl hm), Function.comp_apply, smul_smul, mul_comm]
  cases lh with
  | false =>
    refine ⟨⟨_, hG, ?_⟩, fun hc => absurd hc (by simp), fun _ => ?_⟩
    · rw [outNeg_foldl_false]
      dsimp only
      rw [hsum, smul_neg, sub_neg_eq_add]
    · rw [outNeg_foldl_false]
  | true =>
    have he := outNeg_foldl_true exact alpha h targets { syn1 := v, work := work, loss := 0 }
    dsimp only at he ⊢
    rw [he]
    rw [foldl_neg]
    obtain ⟨h1, h2, _, _⟩ := common_foldl exact alpha false argNeg h targets
      { syn1 := v, work := work, loss := 0 } (hd rfl)
    dsimp only at h1 h2
    refine ⟨⟨_, hG, ?_⟩, fun _ t => ⟨_, hasGradientAt_iff_innerSL.2 (hasFDerivAt_loss_v targets h v t), ?_⟩,
      fun hc => absurd hc (by simp)⟩
    · rw [h1, hsum, smul_neg, sub_neg_eq_add]
    · show (targets.foldl (common exact alpha false argNeg h) { syn1 := v, work := work, loss := 0 }).syn1 t = _
      rw [h2 t, smul_neg, sub_neg_eq_add, smul_smul]
      congr 4
      apply List.map_congr_left
      intro tl hm
      exact coef_exact h v tl (hr tl (List.mem_filter.1 hm).1)

/-- The output layer with the tree, the samples or both: `work` is a step of gradient descent on the negative
log-likelihood of the word for the input; so are the changes of the output rows if they are trained. -/
theorem hidden_gradient [CompleteSpace H] (c : DConfig) (hS : c.S = exact) (h : H) (s : DNet E H) (word : ℕ)
    (hreg : Regular c word s.rand h s.syn1 s.syn1neg) :
    let r := hidden c h s word
    (∃ G, HasGradientAt (fun x => wordLoss c word s.rand x s.syn1 s.syn1neg) G h ∧ r.2 = -(c.alpha • G)) ∧
      (c.learnHidden = true → ∀ t,
        GradientStep c.alpha (fun y => wordLoss c word s.rand h (Function.update s.syn1 t y) s.syn1neg)
          (s.syn1 t) (r.1.syn1 t) ∧
        GradientStep c.alpha (fun y => wordLoss c word s.rand h s.syn1 (Function.update s.syn1neg t y))
          (s.syn1neg t) (r.1.syn1neg t)) ∧
      (c.learnHidden = false → r.1.syn1 = s.syn1 ∧ r.1.syn1neg = s.syn1neg) ∧
      r.1.wv = s.wv ∧ r.1.dv = s.dv := by
  have hzero : ∀ (x : H) (k : ℝ), GradientStep c.alpha (fun _ : H => k) x x := fun x k =>
    ⟨0, hasGradientAt_const _ _, by simp⟩
  -- the tree
  have tree : ∃ (w1 : H) (v1 : ℕ → H),
      (if c.hs then (c.path word).foldl (outHs c.S c.alpha c.learnHidden h) (s.syn1, 0) else (s.syn1, 0)) = (v1, w1) ∧
      (∃ G, HasGradientAt (fun x => if c.hs then pairLoss (labels (c.path word)) x s.syn1 else 0) G h ∧
        w1 = -(c.alpha • G)) ∧
      (c.learnHidden = true → ∀ t, GradientStep c.alpha
        (fun y => if c.hs then pairLoss (labels (c.path word)) h (Function.update s.syn1 t y) else 0)
          (s.syn1 t) (v1 t)) ∧
      (c.learnHidden = false → v1 = s.syn1) := by
    by_cases hh : c.hs = true
    · simp only [if_pos hh]
      obtain ⟨g1, g2⟩ := hreg.1 hh
      obtain ⟨⟨G, a1, a1'⟩, a2, a3⟩ := out_gradient c.alpha c.learnHidden (labels (c.path word)) h s.syn1 0
        (fun hl => by rw [labels_fst]; exact g2 hl) (by
          intro tl hm
          obtain ⟨pc, hpc, rfl⟩ := List.mem_map.1 hm
          exact g1 pc hpc)
      refine ⟨_, _, by rw [foldl_outHs, hS], ⟨G, a1, by rw [a1', zero_sub]⟩, a2, a3⟩
    · simp only [if_neg hh]
      exact ⟨0, s.syn1, rfl, ⟨0, hasGradientAt_const _ _, by simp⟩, fun _ t => hzero _ _, fun _ => rfl⟩
  obtain ⟨w1, v1, e1, ⟨G1, t1, t1'⟩, t2, t3⟩ := tree
  have hadd : ∀ (F1 F2 : H → ℝ) (G1 G2 x : H), HasGradientAt F1 G1 x → HasGradientAt F2 G2 x →
      HasGradientAt (fun y => F1 y + F2 y) (G1 + G2) x := by
    intro F1 F2 G1 G2 x h1 h2
    rw [hasGradientAt_iff_innerSL] at h1 h2 ⊢
    rw [map_add]
    exact h1.add h2
  have hplus : ∀ (F : H → ℝ) (k : ℝ) (x x' : H), GradientStep c.alpha F x x' →
      GradientStep c.alpha (fun y => F y + k) x x' := by
    rintro F k x x' ⟨G, g1, g2⟩
    refine ⟨G, ?_, g2⟩
    have := hadd F (fun _ => k) G 0 x g1 (hasGradientAt_const _ _)
    rwa [add_zero] at this
  have hplus' : ∀ (F : H → ℝ) (k : ℝ) (x x' : H), GradientStep c.alpha F x x' →
      GradientStep c.alpha (fun y => k + F y) x x' := by
    intro F k x x' hg
    have := hplus F k x x' hg
    simpa only [add_comm] using this
  unfold hidden wordLoss
  dsimp only
  rw [e1]
  dsimp only
  by_cases hn : 0 < c.negative
  · simp only [gt_iff_lt, if_pos hn]
    obtain ⟨g1, g2⟩ := hreg.2 hn
    obtain ⟨⟨G, a1, a1'⟩, a2, a3⟩ := out_gradient c.alpha c.learnHidden (negTargets c.table c.negative word s.rand)
      h s.syn1neg w1 g2 g1
    rw [hS]
    refine ⟨⟨G1 + G, hadd _ _ _ _ _ t1 a1, ?_⟩, ?_, ?_, trivial, trivial⟩
    · rw [a1', t1', smul_add]
      abel
    · intro hl t
      exact ⟨hplus _ _ _ _ (t2 hl t), hplus' _ _ _ _ (a2 hl t)⟩
    · intro hl
      exact ⟨t3 hl, a3 hl⟩
  · simp only [gt_iff_lt, if_neg hn]
    refine ⟨⟨G1, ?_, t1'⟩, ?_, ?_, trivial, trivial⟩
    · simpa only [add_zero] using t1
    · intro hl t
      exact ⟨hplus _ _ _ _ (t2 hl t), hzero _ _⟩
    · intro hl
      exact ⟨t3 hl, trivial⟩

/-! ## DBOW -/

/-- **C87.** DBOW, tree: a word and a context vector make a gradient step. -/
theorem dbowHs_spec [CompleteSpace E] (c : DConfig) (hS : c.S = exact) (learn : Bool) (lockf : List ℝ)
    (path : List (ℕ × Bool)) (ctx : ℕ) (vecs syn1 : ℕ → E)
    (hd : c.learnHidden = true → (path.map Prod.fst).Nodup) (hr : ∀ pc ∈ path, |⟪vecs ctx, syn1 pc.1⟫_ℝ| < 6) :
    let r := dbowHs c learn lockf path ctx vecs syn1
    GradientStep (if learn then lock lockf ctx * c.alpha else 0) (fun x => pairLoss (labels path) x syn1)
        (vecs ctx) (r.1 ctx) ∧
      (∀ w, w ≠ ctx → r.1 w = vecs w) ∧
      (∀ t, GradientStep (if c.learnHidden then c.alpha else 0)
        (fun y => pairLoss (labels path) (vecs ctx) (Function.update syn1 t y)) (syn1 t) (r.2 t)) := by
  obtain ⟨⟨G, a1, a1'⟩, a2, a3⟩ := out_gradient c.alpha c.learnHidden (labels path) (vecs ctx) syn1 0
    (fun hl => by rw [labels_fst]; exact hd hl) (by
      intro tl hm
      obtain ⟨pc, hpc, rfl⟩ := List.mem_map.1 hm
      exact hr pc hpc)
  unfold dbowHs
  dsimp only
  rw [foldl_outHs, hS]
  refine ⟨⟨G, a1, ?_⟩, ?_, ?_⟩
  · cases learn
    · simp
    · simp only [if_true, Function.update_self, a1', zero_sub, smul_neg, smul_smul]
      rw [sub_eq_add_neg]
  · intro w hw
    cases learn
    · rfl
    · simp only [if_true, Function.update_of_ne hw]
  · intro t
    cases hl : c.learnHidden with
    | true => rw [hl] at a2; exact a2 rfl t
    | false =>
      rw [hl] at a3
      refine ⟨_, hasGradientAt_iff_innerSL.2 (hasFDerivAt_loss_v (labels path) (vecs ctx) syn1 t), ?_⟩
      rw [a3 rfl]
      simp

/-- **C87.** DBOW, samples: a word and a context vector make a gradient step. -/
theorem dbowNeg_spec [CompleteSpace E] (c : DConfig) (hS : c.S = exact) (learn : Bool) (lockf : List ℝ)
    (targets : List (ℕ × Bool)) (ctx : ℕ) (vecs syn1neg : ℕ → E)
    (hd : c.learnHidden = true → (targets.map Prod.fst).Nodup)
    (hr : ∀ tl ∈ targets, |⟪vecs ctx, syn1neg tl.1⟫_ℝ| < 6) :
    let r := dbowNeg c learn lockf targets ctx vecs syn1neg
    GradientStep (if learn then lock lockf ctx * c.alpha else 0) (fun x => pairLoss targets x syn1neg)
        (vecs ctx) (r.1 ctx) ∧
      (∀ w, w ≠ ctx → r.1 w = vecs w) ∧
      (∀ t, GradientStep (if c.learnHidden then c.alpha else 0)
        (fun y => pairLoss targets (vecs ctx) (Function.update syn1neg t y)) (syn1neg t) (r.2 t)) := by
  obtain ⟨⟨G, a1, a1'⟩, a2, a3⟩ := out_gradient c.alpha c.learnHidden targets (vecs ctx) syn1neg 0 hd hr
  unfold dbowNeg
  dsimp only
  rw [hS]
  refine ⟨⟨G, a1, ?_⟩, ?_, ?_⟩
  · cases learn
    · simp
    · simp only [if_true, Function.update_self, a1', zero_sub, smul_neg, smul_smul]
      rw [sub_eq_add_neg]
  · intro w hw
    cases learn
    · rfl
    · simp only [if_true, Function.update_of_ne hw]
  · intro t
    cases hl : c.learnHidden with
    | true => rw [hl] at a2; exact a2 rfl t
    | false =>
      rw [hl] at a3
      refine ⟨_, hasGradientAt_iff_innerSL.2 (hasFDerivAt_loss_v targets (vecs ctx) syn1neg t), ?_⟩
      rw [a3 rfl]
      simp

/-- **C87.** DBOW with one of the two output layers: training on a word of a document is a step of gradient
descent on the negative log-likelihood of the word given the vector of the tag; other vectors stay as they
are.  What is not to be learnt has rate 0. -/
theorem C87_dbow_tag [CompleteSpace E] (c : DConfig) (hS : c.S = exact) (s : DNet E E) (word tag : ℕ)
    (h1 : c.hs = true ↔ c.negative = 0) (hreg : Regular c word s.rand (s.dv tag) s.syn1 s.syn1neg) :
    let s' := dbowTagPair c s word tag
    GradientStep (if c.learnDoctags then lock c.doctagsLockf tag * c.alpha else 0)
        (fun x => wordLoss c word s.rand x s.syn1 s.syn1neg) (s.dv tag) (s'.dv tag) ∧
      (∀ t, t ≠ tag → s'.dv t = s.dv t) ∧ s'.wv = s.wv ∧
      (∀ t, GradientStep (if c.learnHidden then c.alpha else 0)
        (fun y => wordLoss c word s.rand (s.dv tag) (Function.update s.syn1 t y) s.syn1neg)
        (s.syn1 t) (s'.syn1 t)) ∧
      (∀ t, GradientStep (if c.learnHidden then c.alpha else 0)
        (fun y => wordLoss c word s.rand (s.dv tag) s.syn1 (Function.update s.syn1neg t y))
        (s.syn1neg t) (s'.syn1neg t)) := by
  have hzero : ∀ (r : ℝ) (x : E) (k : ℝ), GradientStep r (fun _ : E => k) x x := fun r x k =>
    ⟨0, hasGradientAt_const _ _, by simp⟩
  unfold dbowTagPair wordLoss
  by_cases hh : c.hs = true
  · have hn : c.negative = 0 := h1.1 hh
    obtain ⟨a1, a2, a3⟩ := dbowHs_spec c hS c.learnDoctags c.doctagsLockf (c.path word) tag s.dv s.syn1
      (hreg.1 hh).2 (hreg.1 hh).1
    simp only [hh, hn, if_true, gt_iff_lt, lt_irrefl, if_false, add_zero]
    exact ⟨a1, a2, trivial, a3, fun t => hzero _ _ _⟩
  · have hn : 0 < c.negative := Nat.pos_of_ne_zero fun h => hh (h1.2 h)
    obtain ⟨a1, a2, a3⟩ := dbowNeg_spec c hS c.learnDoctags c.doctagsLockf
      (negTargets c.table c.negative word s.rand) tag s.dv s.syn1neg (hreg.2 hn).2 (hreg.2 hn).1
    simp only [if_neg hh, gt_iff_lt, if_pos hn, zero_add]
    exact ⟨a1, a2, trivial, fun t => hzero _ _ _, a3⟩

/-- **C87.** The same for the simultaneous skip-gram training of words. -/
theorem C87_dbow_word [CompleteSpace E] (c : DConfig) (hS : c.S = exact) (s : DNet E E) (word ctx : ℕ)
    (h1 : c.hs = true ↔ c.negative = 0) (hreg : Regular c word s.rand (s.wv ctx) s.syn1 s.syn1neg) :
    let s' := dbowWordPair c s word ctx
    GradientStep (if c.learnWords then lock c.wordsLockf ctx * c.alpha else 0)
        (fun x => wordLoss c word s.rand x s.syn1 s.syn1neg) (s.wv ctx) (s'.wv ctx) ∧
      (∀ t, t ≠ ctx → s'.wv t = s.wv t) ∧ s'.dv = s.dv ∧
      (∀ t, GradientStep (if c.learnHidden then c.alpha else 0)
        (fun y => wordLoss c word s.rand (s.wv ctx) (Function.update s.syn1 t y) s.syn1neg)
        (s.syn1 t) (s'.syn1 t)) ∧
      (∀ t, GradientStep (if c.learnHidden then c.alpha else 0)
        (fun y => wordLoss c word s.rand (s.wv ctx) s.syn1 (Function.update s.syn1neg t y))
        (s.syn1neg t) (s'.syn1neg t)) := by
  have hzero : ∀ (r : ℝ) (x : E) (k : ℝ), GradientStep r (fun _ : E => k) x x := fun r x k =>
    ⟨0, hasGradientAt_const _ _, by simp⟩
  unfold dbowWordPair wordLoss
  by_cases hh : c.hs = true
  · have hn : c.negative = 0 := h1.1 hh
    obtain ⟨a1, a2, a3⟩ := dbowHs_spec c hS c.learnWords c.wordsLockf (c.path word) ctx s.wv s.syn1
      (hreg.1 hh).2 (hreg.1 hh).1
    simp only [hh, hn, if_true, gt_iff_lt, lt_irrefl, if_false, add_zero]
    exact ⟨a1, a2, trivial, a3, fun t => hzero _ _ _⟩
  · have hn : 0 < c.negative := Nat.pos_of_ne_zero fun h => hh (h1.2 h)
    obtain ⟨a1, a2, a3⟩ := dbowNeg_spec c hS c.learnWords c.wordsLockf
      (negTargets c.table c.negative word s.rand) ctx s.wv s.syn1neg (hreg.2 hn).2 (hreg.2 hn).1
    simp only [if_neg hh, gt_iff_lt, if_pos hn, zero_add]
    exact ⟨a1, a2, trivial, fun t => hzero _ _ _, a3⟩

/-- **C87.** With both output layers, a pair is trained with the tree and then with the samples. -/
theorem C87_dbow_both (c : DConfig) (hh : c.hs = true) (s : DNet E E) (word x : ℕ) :
    dbowTagPair c s word x
        = dbowTagPair { c with hs := false } (dbowTagPair { c with negative := 0 } s word x) word x ∧
      dbowWordPair c s word x
        = dbowWordPair { c with hs := false } (dbowWordPair { c with negative := 0 } s word x) word x := by
  unfold dbowTagPair dbowWordPair dbowHs dbowNeg
  simp [hh]

/-- The pairs that DBOW trains a document on, in order: each word first with the words of its reduced window if
words are trained, then with the tags. -/
def dbowPairs (trainWords : Bool) (window : ℕ) (reduced : ℕ → ℕ) (indexes tags : List ℕ) : List (ℕ × (ℕ ⊕ ℕ)) :=
  (List.range indexes.length).flatMap fun i =>
    (if trainWords then ((List.range indexes.length).filter fun j =>
        decide (j ≠ i ∧ j + reduced i ≤ i + window ∧ i + reduced i ≤ j + window)).map fun j =>
          (indexes.getD i 0, Sum.inl (indexes.getD j 0))
      else []) ++ tags.map fun t => (indexes.getD i 0, Sum.inr t)

/-- **C87.** DBOW trains exactly these pairs in this order. -/
theorem C87_dbow_document (c : DConfig) (reduced : ℕ → ℕ) (indexes tags : List ℕ) (s : DNet E E) :
    dbowDocument c reduced indexes tags s
      = (dbowPairs c.trainWords c.window reduced indexes tags).foldl (fun s p =>
          match p.2 with
          | .inl w => dbowWordPair c s p.1 w
          | .inr t => dbowTagPair c s p.1 t) s := by
  unfold dbowDocument dbowPairs
  rw [List.foldl_flatMap]
  congr 1
  funext s i
  unfold dbowPosition
  dsimp only
  rw [List.foldl_append, List.foldl_map, context_filter, List.foldl_map]
  cases c.trainWords with
  | false => rfl
  | true => simp only [if_true, List.foldl_map, Nat.sub_zero, List.range_eq_range']

/-! ## DM -/

theorem chain_affine [CompleteSpace E] (F : E → ℝ) (G h x : E) (k : ℝ) (hG : HasGradientAt F G h) :
    HasGradientAt (fun y => F (k • (y - x) + h)) (k • G) x := by
  rw [hasGradientAt_iff_innerSL] at hG ⊢
  have h1 : HasFDerivAt (fun y : E => k • (y - x) + h) (k • ContinuousLinearMap.id ℝ E) x :=
    (((hasFDerivAt_id x).sub_const x).const_smul k).add_const _
  have h2 : HasFDerivAt F (innerSL ℝ G) (k • (x - x) + h) := by simpa using hG
  refine (h2.comp x h1).congr_fderiv ?_
  ext y
  simp [inner_smul_left]

/-- **C87.** The input of DM is the mean or the sum of the vectors of the window and of the tags. -/
theorem C87_dm_input (mean : Bool) (ctx tags : List ℕ) (wv dv : ℕ → E) (hne : 0 < ctx.length + tags.length) :
    dmInput mean ctx tags wv dv = dmBag mean ctx tags wv dv := by
  unfold dmInput dmBag dmInvCount
  dsimp only
  rw [foldl_sum, foldl_sum, zero_add, if_pos hne]

theorem spread_apply (lk : ℕ → ℝ) (rows : List ℕ) (work : E) (v : ℕ → E) (c : ℕ) :
    spread lk rows work v c = v c + ((rows.count c : ℝ) * lk c) • work := by
  unfold spread
  induction rows generalizing v with
  | nil => simp
  | cons w rows ih =>
    rw [List.foldl_cons, ih]
    by_cases hw : w = c
    · subst hw
      rw [Function.update_self, List.count_cons_self]
      push_cast
      rw [add_mul, one_mul, add_smul]
      abel
    · rw [Function.update_of_ne (fun h => hw h.symm), List.count_cons_of_ne (fun h => hw h)]

theorem dmBag_update_word (mean : Bool) (ctx tags : List ℕ) (wv dv : ℕ → E) (w : ℕ) (y : E) :
    dmBag mean ctx tags (Function.update wv w y) dv
      = ((if mean then 1 / ((ctx.length + tags.length : ℕ) : ℝ) else 1) * (ctx.count w : ℝ)) • (y - wv w)
        + dmBag mean ctx tags wv dv := by
  unfold dmBag
  rw [sum_update]
  cases mean
  · simp only [Bool.false_eq_true, if_false, one_mul]
    abel
  · simp only [if_true]
    rw [mul_smul, ← smul_add]
    congr 1
    abel

theorem dmBag_update_tag (mean : Bool) (ctx tags : List ℕ) (wv dv : ℕ → E) (t : ℕ) (y : E) :
    dmBag mean ctx tags wv (Function.update dv t y)
      = ((if mean then 1 / ((ctx.length + tags.length : ℕ) : ℝ) else 1) * (tags.count t : ℝ)) • (y - dv t)
        + dmBag mean ctx tags wv dv := by
  unfold dmBag
  rw [sum_update]
  cases mean
  · simp only [Bool.false_eq_true, if_false, one_mul]
    abel
  · simp only [if_true]
    rw [mul_smul, ← smul_add]
    congr 1
    abel

/-- **C87.** DM, for a word with a non-empty context: the output rows make a gradient step, and the vectors of the
tags and of the words of the window move along the gradient; but their step is too long by the number of
context vectors if the mean is used, and too short by this number if the sum is used. -/
theorem C87_dm [CompleteSpace E] (c : DConfig) (hS : c.S = exact) (lockLen : ℕ) (s : DNet E E) (word : ℕ)
    (ctx tags : List ℕ) (hne : 0 < ctx.length + tags.length)
    (hreg : Regular c word s.rand (dmBag c.cbowMean ctx tags s.wv s.dv) s.syn1 s.syn1neg) :
    let s' := dmWord c lockLen s word ctx tags
    let scale : ℝ := if c.cbowMean then ((ctx.length + tags.length : ℕ) : ℝ)
      else 1 / ((ctx.length + tags.length : ℕ) : ℝ)
    (∀ t, GradientStep (if c.learnDoctags then lock c.doctagsLockf t * c.alpha * scale else 0)
        (fun y => wordLoss c word s.rand (dmBag c.cbowMean ctx tags s.wv (Function.update s.dv t y)) s.syn1
          s.syn1neg) (s.dv t) (s'.dv t)) ∧
      (∀ w, GradientStep
        (if c.learnWords then readLock c.wordsLockf c.beyond lockLen w * c.alpha * scale else 0)
        (fun y => wordLoss c word s.rand (dmBag c.cbowMean ctx tags (Function.update s.wv w y) s.dv) s.syn1
          s.syn1neg) (s.wv w) (s'.wv w)) ∧
      (c.learnHidden = true → ∀ t,
        GradientStep c.alpha (fun y => wordLoss c word s.rand (dmBag c.cbowMean ctx tags s.wv s.dv)
          (Function.update s.syn1 t y) s.syn1neg) (s.syn1 t) (s'.syn1 t) ∧
        GradientStep c.alpha (fun y => wordLoss c word s.rand (dmBag c.cbowMean ctx tags s.wv s.dv)
          s.syn1 (Function.update s.syn1neg t y)) (s.syn1neg t) (s'.syn1neg t)) ∧
      (c.learnHidden = false → s'.syn1 = s.syn1 ∧ s'.syn1neg = s.syn1neg) := by
  obtain ⟨⟨G, a1, a1'⟩, a2, a3, a4, a5⟩ := hidden_gradient c hS (dmBag c.cbowMean ctx tags s.wv s.dv) s word hreg
  have hlen : (((ctx.length + tags.length : ℕ)) : ℝ) ≠ 0 := by exact_mod_cast hne.ne'
  unfold dmWord
  dsimp only
  rw [C87_dm_input _ _ _ _ _ hne]
  set r := hidden c (dmBag c.cbowMean ctx tags s.wv s.dv) s word with hr
  have key : ∀ (k lk : ℝ), (k * lk) • (if c.cbowMean = true then r.2 else dmInvCount ctx tags • r.2)
      = -((lk * c.alpha * (if c.cbowMean then ((ctx.length + tags.length : ℕ) : ℝ)
          else 1 / ((ctx.length + tags.length : ℕ) : ℝ))) •
        (((if c.cbowMean then 1 / ((ctx.length + tags.length : ℕ) : ℝ) else 1) * k) • G)) := by
    intro k lk
    rw [a1']
    unfold dmInvCount
    rw [if_pos hne]
    cases c.cbowMean
    · simp only [Bool.false_eq_true, if_false]
      rw [smul_neg, smul_neg, smul_smul, smul_smul, smul_smul]
      congr 2
      ring
    · simp only [if_true]
      rw [smul_neg, smul_smul, smul_smul]
      congr 2
      field_simp
  refine ⟨?_, ?_, ?_, ?_⟩
  · intro t
    have hg := chain_affine (fun x => wordLoss c word s.rand x s.syn1 s.syn1neg) G _ (s.dv t)
      ((if c.cbowMean then 1 / ((ctx.length + tags.length : ℕ) : ℝ) else 1) * (tags.count t : ℝ)) a1
    simp only [← dmBag_update_tag] at hg
    refine ⟨_, hg, ?_⟩
    have hw : ∀ (x : DNet E E) (f : ℕ → E), (if c.learnWords = true then { x with wv := f } else x).dv = x.dv := by
      intro x f
      split <;> rfl
    cases hld : c.learnDoctags
    · simp only [Bool.false_eq_true, if_false, zero_smul, sub_zero, hw]
      rw [a5]
    · simp only [if_true]
      have he : spread (lock c.doctagsLockf) tags (if c.cbowMean = true then r.2 else dmInvCount ctx tags • r.2)
          r.1.dv t = s.dv t - (lock c.doctagsLockf t * c.alpha *
            if c.cbowMean = true then ((ctx.length + tags.length : ℕ) : ℝ)
            else 1 / ((ctx.length + tags.length : ℕ) : ℝ)) •
        ((if c.cbowMean = true then 1 / ((ctx.length + tags.length : ℕ) : ℝ) else 1) * (tags.count t : ℝ)) • G := by
        rw [spread_apply, a5, key, sub_eq_add_neg]
      cases c.learnWords <;> exact he
  · intro w
    have hg := chain_affine (fun x => wordLoss c word s.rand x s.syn1 s.syn1neg) G _ (s.wv w)
      ((if c.cbowMean then 1 / ((ctx.length + tags.length : ℕ) : ℝ) else 1) * (ctx.count w : ℝ)) a1
    simp only [← dmBag_update_word] at hg
    refine ⟨_, hg, ?_⟩
    have hd : ∀ (x : DNet E E) (f : ℕ → E), (if c.learnDoctags = true then { x with dv := f } else x).wv = x.wv := by
      intro x f
      split <;> rfl
    cases hlw : c.learnWords
    · simp only [Bool.false_eq_true, if_false, zero_smul, sub_zero, hd]
      rw [a4]
    · simp only [if_true, hd]
      rw [spread_apply, a4, key, sub_eq_add_neg]
  · intro hl t
    have := a2 hl t
    cases c.learnDoctags <;> cases c.learnWords <;> exact this
  · intro hl
    have := a3 hl
    cases c.learnDoctags <;> cases c.learnWords <;> exact this

/-- **C87.** DM trains the words of a document in order, each with the words of its reduced window. -/
theorem C87_dm_document (c : DConfig) (reduced : ℕ → ℕ) (indexes tags : List ℕ) (s : DNet E E) :
    dmDocument c reduced indexes tags s
      = (List.range indexes.length).foldl (fun s i => dmWord c c.doctagsLockf.length s (indexes.getD i 0)
          (((List.range indexes.length).filter fun j =>
            decide (j ≠ i ∧ j + reduced i ≤ i + c.window ∧ i + reduced i ≤ j + c.window)).map fun j =>
              indexes.getD j 0) tags) s := by
  unfold dmDocument
  simp only [context_filter, Nat.sub_zero, List.range_eq_range']

/-- **C87.** If there are as many lock factors of words as of tags, each word has its own. -/
theorem C87_dm_lock (c : DConfig) (h : c.wordsLockf.length = c.doctagsLockf.length) (hp : c.wordsLockf ≠ []) (w : ℕ) :
    readLock c.wordsLockf c.beyond c.doctagsLockf.length w = lock c.wordsLockf w := by
  unfold readLock lock
  rw [← h]
  have : w % c.wordsLockf.length < c.wordsLockf.length := Nat.mod_lt _ (List.length_pos_iff.2 hp)
  simp [this]

/-- **C87.** Otherwise not: with a single factor for the tags (the default) all words have the factor of word 0;
with more factors for the tags than for the words, memory after the end is read. -/
theorem C87_dm_lock_wrong (c : DConfig) :
    (c.doctagsLockf.length = 1 → ∀ w, readLock c.wordsLockf c.beyond c.doctagsLockf.length w
      = readLock c.wordsLockf c.beyond c.doctagsLockf.length 0) ∧
    (∀ w, c.wordsLockf.length ≤ w → w < c.doctagsLockf.length →
      readLock c.wordsLockf c.beyond c.doctagsLockf.length w = c.beyond w) := by
  refine ⟨?_, ?_⟩
  · intro h w
    rw [h]
    unfold readLock
    rw [Nat.mod_one, Nat.mod_one]
  · intro w h1 h2
    unfold readLock
    rw [Nat.mod_eq_of_lt h2]
    simp [h1]

/-- A configuration for a witness: hierarchical softmax with one node, word 1 is locked. -/
noncomputable def lockedConfig : DConfig :=
  { S := exact, hs := true, negative := 0, cbowMean := true, alpha := 1, window := 1, wordsLockf := [1, 0],
    doctagsLockf := [1], beyond := fun _ => 0, table := [], path := fun _ => [(0, false)], trainWords := false,
    learnDoctags := true, learnWords := true, learnHidden := true }

/-- **C87.** So a locked word is changed by DM training. -/
theorem C87_dm_locked_word_moves :
    lock lockedConfig.wordsLockf 1 = 0 ∧
      ∃ (s : DNet ℝ ℝ) (tags : List ℕ),
        (dmDocument lockedConfig (fun _ => 0) [0, 1] tags s).wv 1 ≠ s.wv 1 := by
  refine ⟨by simp [lock, lockedConfig], ⟨fun _ => 0, fun _ => 0, fun _ => 1, fun _ => 0, 0⟩, [], ?_⟩
  have hs : sigm 0 = 1 / 2 := by
    unfold sigm
    norm_num
  have h1 : context 1 (fun _ => 0) 0 2 0 = [1] := by decide
  have h2 : context 1 (fun _ => 0) 0 2 1 = [0] := by decide
  simp only [dmDocument, lockedConfig, List.length_cons, List.length_nil, List.range_succ, List.range_zero,
    List.nil_append, List.foldl_append, List.foldl_cons, List.foldl_nil, h1, h2, List.map_cons, List.map_nil,
    List.getD_cons_zero, List.getD_cons_succ, List.singleton_append, List.cons_append, Nat.zero_add, Nat.reduceAdd]
  simp [dmWord, hidden, dmInput, dmInvCount, outHs, spread, readLock, exact, hs]
  norm_num

/-! ## DM with concatenation -/

theorem chain_blocks [CompleteSpace E] {n : ℕ} (F : Blocks E n → ℝ) (G h : Blocks E n) (x : E) (P : Fin n → Prop)
    [DecidablePred P] (hG : HasGradientAt F G h) :
    HasGradientAt (fun y => F (WithLp.toLp 2 fun b => if P b then h b + (y - x) else h b))
      (∑ b with P b, G b) x := by
  rw [hasGradientAt_iff_innerSL] at hG ⊢
  let L : E →L[ℝ] Blocks E n :=
    ((PiLp.continuousLinearEquiv 2 ℝ fun _ : Fin n => E).symm : (Fin n → E) →L[ℝ] Blocks E n).comp
      (ContinuousLinearMap.pi fun b => if P b then ContinuousLinearMap.id ℝ E else 0)
  have hL : ∀ y b, L y b = if P b then y else 0 := by
    intro y b
    show (if P b then ContinuousLinearMap.id ℝ E else 0) y = _
    split <;> rfl
  have he : (fun y : E => (WithLp.toLp 2 fun b => if P b then h b + (y - x) else h b : Blocks E n))
      = fun y => L (y - x) + h := by
    funext y
    ext b
    rw [PiLp.add_apply, hL]
    show (if P b then h b + (y - x) else h b) = _
    split
    · rw [add_comm]
    · rw [zero_add]
  have h1 : HasFDerivAt (fun y : E => L (y - x) + h) L x := by
    have h0 : HasFDerivAt (fun y : E => y - x) (ContinuousLinearMap.id ℝ E) x := (hasFDerivAt_id x).sub_const x
    have h0' : HasFDerivAt (fun y : E => L (y - x)) (L.comp (ContinuousLinearMap.id ℝ E)) x :=
      HasFDerivAt.comp (g := fun y => L y) x L.hasFDerivAt h0
    rw [ContinuousLinearMap.comp_id] at h0'
    exact h0'.add_const h
  have h2 : HasFDerivAt F (innerSL ℝ G) (L (x - x) + h) := by simpa using hG
  have h3 := h2.comp x h1
  have he' : (fun y => F (WithLp.toLp 2 fun b => if P b then h b + (y - x) else h b))
      = F ∘ fun y => L (y - x) + h := by rw [← he]; rfl
  rw [he']
  refine h3.congr_fderiv ?_
  ext y
  rw [ContinuousLinearMap.comp_apply, innerSL_apply_apply, innerSL_apply_apply, PiLp.inner_apply, sum_inner,
    Finset.sum_filter]
  apply Finset.sum_congr rfl
  intro b _
  rw [hL]
  split
  · rfl
  · rw [inner_zero_right]

theorem spreadBlocks_apply {n : ℕ} (lk : ℕ → ℝ) (rows : List ℕ) (blk : ℕ → ℕ) (work : Blocks E n) (v : ℕ → E)
    (c : ℕ) : spreadBlocks lk rows blk work v c
      = v c + lk c • ∑ m : Fin rows.length, if rows[m] = c then block work (blk m) else 0 := by
  have key : ∀ (k : ℕ) (v : ℕ → E), (rows.zipIdx k).foldl (fun v wm =>
      Function.update v wm.1 (v wm.1 + lk wm.1 • block work (blk wm.2))) v c
      = v c + lk c • ∑ m : Fin rows.length, if rows[m] = c then block work (blk (k + m)) else 0 := by
    induction rows with
    | nil => intro k v; simp
    | cons w rows ih =>
      intro k v
      rw [List.zipIdx_cons, List.foldl_cons, ih]
      show _ = v c + lk c • ∑ m : Fin (rows.length + 1), if (w :: rows)[(m : ℕ)] = c then _ else 0
      rw [Fin.sum_univ_succ]
      simp only [Fin.val_zero, List.getElem_cons_zero, Fin.val_succ, List.getElem_cons_succ, add_zero,
        Fin.getElem_fin]
      have hk : ∀ m : ℕ, k + 1 + m = k + (m + 1) := fun m => by ring
      simp only [hk]
      by_cases hw : w = c
      · subst hw
        rw [Function.update_self, if_pos rfl, smul_add, add_assoc]
      · rw [Function.update_of_ne (fun h => hw h.symm), if_neg hw, zero_add]
  have := key 0 v
  simp only [zero_add] at this
  exact this

theorem concatInput_word {T W : ℕ} (tags widx : List ℕ) (hT : tags.length = T) (hW : widx.length = W)
    (wv dv : ℕ → E) (w : ℕ) (y : E) :
    (concatInput tags widx (Function.update wv w y) dv : Blocks E (T + W))
      = WithLp.toLp 2 fun b : Fin (T + W) => if T ≤ (b : ℕ) ∧ widx.getD (b - T) 0 = w
          then (concatInput tags widx wv dv : Blocks E (T + W)) b + (y - wv w)
          else (concatInput tags widx wv dv : Blocks E (T + W)) b := by
  subst hT
  unfold concatInput
  ext b
  dsimp only
  by_cases hb : (b : ℕ) < tags.length
  · simp only [if_pos hb, show ¬ tags.length ≤ (b : ℕ) by omega, false_and, if_false]
  · by_cases hw : widx.getD (b - tags.length) 0 = w
    · simp only [if_neg hb, hw, Function.update_self, and_true, if_pos (show tags.length ≤ (b : ℕ) by omega)]
      abel
    · simp only [if_neg hb, hw, and_false, if_false, Function.update_of_ne hw]

theorem concatInput_tag {T W : ℕ} (tags widx : List ℕ) (hT : tags.length = T)
    (wv dv : ℕ → E) (t : ℕ) (y : E) :
    (concatInput tags widx wv (Function.update dv t y) : Blocks E (T + W))
      = WithLp.toLp 2 fun b : Fin (T + W) => if (b : ℕ) < T ∧ tags.getD b 0 = t
          then (concatInput tags widx wv dv : Blocks E (T + W)) b + (y - dv t)
          else (concatInput tags widx wv dv : Blocks E (T + W)) b := by
  subst hT
  unfold concatInput
  ext b
  dsimp only
  by_cases hb : (b : ℕ) < tags.length
  · by_cases ht : tags.getD b 0 = t
    · simp only [if_pos hb, ht, Function.update_self, hb, true_and, if_true]
      abel
    · simp only [if_pos hb, ht, hb, true_and, if_false, Function.update_of_ne ht]
  · simp only [if_neg hb, hb, false_and, if_false]

theorem concat_fields {n : ℕ} (c : DConfig) (tagBlock : ℕ → ℕ) (s : DNet E (Blocks E n)) (word : ℕ)
    (widx tags : List ℕ) :
    let r := hidden c (concatInput tags widx s.wv s.dv) s word
    let s' := concatWord c tagBlock s word widx tags
    s'.dv = (if c.learnDoctags then spreadBlocks (lock c.doctagsLockf) tags tagBlock r.2 r.1.dv else r.1.dv) ∧
      s'.wv = (if c.learnWords then spreadBlocks (lock c.wordsLockf) widx (fun m => tags.length + m) r.2 r.1.wv
        else r.1.wv) ∧ s'.syn1 = r.1.syn1 ∧ s'.syn1neg = r.1.syn1neg ∧ s'.rand = r.1.rand := by
  unfold concatWord
  cases c.learnDoctags <;> cases c.learnWords <;> exact ⟨rfl, rfl, rfl, rfl, rfl⟩

/-- **C87.** DM with concatenation, with as many blocks as there are tags and words in the window: training on a
word is a step of gradient descent for the vectors of the tags, of the words of the window and for the output
rows. -/
theorem C87_concat [CompleteSpace E] (c : DConfig) (hS : c.S = exact) (tags widx : List ℕ)
    (s : DNet E (Blocks E (tags.length + widx.length))) (word : ℕ)
    (hreg : Regular c word s.rand (concatInput tags widx s.wv s.dv) s.syn1 s.syn1neg) :
    let s' := concatWord c id s word widx tags
    (∀ t, GradientStep (if c.learnDoctags then lock c.doctagsLockf t * c.alpha else 0)
        (fun y => wordLoss c word s.rand
          (concatInput tags widx s.wv (Function.update s.dv t y) : Blocks E (tags.length + widx.length)) s.syn1
          s.syn1neg) (s.dv t) (s'.dv t)) ∧
      (∀ w, GradientStep (if c.learnWords then lock c.wordsLockf w * c.alpha else 0)
        (fun y => wordLoss c word s.rand
          (concatInput tags widx (Function.update s.wv w y) s.dv : Blocks E (tags.length + widx.length)) s.syn1
          s.syn1neg) (s.wv w) (s'.wv w)) ∧
      (c.learnHidden = true → ∀ t,
        GradientStep c.alpha (fun y => wordLoss c word s.rand (concatInput tags widx s.wv s.dv)
          (Function.update s.syn1 t y) s.syn1neg) (s.syn1 t) (s'.syn1 t) ∧
        GradientStep c.alpha (fun y => wordLoss c word s.rand (concatInput tags widx s.wv s.dv)
          s.syn1 (Function.update s.syn1neg t y)) (s.syn1neg t) (s'.syn1neg t)) ∧
      (c.learnHidden = false → s'.syn1 = s.syn1 ∧ s'.syn1neg = s.syn1neg) := by
  obtain ⟨⟨G, a1, a1'⟩, a2, a3, a4, a5⟩ := hidden_gradient c hS (concatInput tags widx s.wv s.dv) s word hreg
  obtain ⟨e1, e2, e3, e4, _⟩ := concat_fields c id s word widx tags
  have hblk : ∀ b (hb : b < tags.length + widx.length), block (-(c.alpha • G)) b = -(c.alpha • G ⟨b, hb⟩) := by
    intro b hb
    unfold block
    rw [dif_pos hb]
    rfl
  refine ⟨?_, ?_, ?_, ?_⟩
  · intro t
    have hg := chain_blocks (fun x => wordLoss c word s.rand x s.syn1 s.syn1neg) G _ (s.dv t)
      (fun b : Fin (tags.length + widx.length) => (b : ℕ) < tags.length ∧ tags.getD b 0 = t) a1
    simp only [← concatInput_tag (W := widx.length) tags widx rfl] at hg
    refine ⟨_, hg, ?_⟩
    rw [e1, a5]
    cases c.learnDoctags
    · simp
    · simp only [if_true]
      rw [spreadBlocks_apply, a1', Finset.sum_filter, Fin.sum_univ_add, sub_eq_add_neg, mul_smul, ← smul_neg]
      congr 2
      rw [← smul_neg]
      have hz : ∑ i : Fin widx.length, (if ((Fin.natAdd tags.length i : Fin (tags.length + widx.length)) : ℕ)
          < tags.length ∧ tags.getD ((Fin.natAdd tags.length i : Fin (tags.length + widx.length)) : ℕ) 0 = t
          then G (Fin.natAdd tags.length i) else 0) = 0 :=
        Finset.sum_eq_zero fun i _ => if_neg fun h => absurd h.1 (by simp)
      rw [hz, add_zero, smul_neg]
      congr 1
      rw [Finset.smul_sum, ← Finset.sum_neg_distrib]
      apply Finset.sum_congr rfl
      intro m _
      have hm : (m : ℕ) < tags.length + widx.length := by omega
      have hget : tags.getD ((Fin.castAdd widx.length m : Fin (tags.length + widx.length)) : ℕ) 0 = tags[m] := by
        simp
      rw [hget]
      simp only [id, hblk _ hm, Fin.val_castAdd, m.2, true_and]
      split
      · rfl
      · simp
  · intro w
    have hg := chain_blocks (fun x => wordLoss c word s.rand x s.syn1 s.syn1neg) G _ (s.wv w)
      (fun b : Fin (tags.length + widx.length) => tags.length ≤ (b : ℕ) ∧ widx.getD (b - tags.length) 0 = w) a1
    simp only [← concatInput_word tags widx rfl rfl] at hg
    refine ⟨_, hg, ?_⟩
    rw [e2, a4]
    cases c.learnWords
    · simp
    · simp only [if_true]
      rw [spreadBlocks_apply, a1', Finset.sum_filter, Fin.sum_univ_add, sub_eq_add_neg, mul_smul, ← smul_neg]
      congr 2
      rw [← smul_neg]
      have hz : ∑ i : Fin tags.length, (if tags.length ≤ ((Fin.castAdd widx.length i :
          Fin (tags.length + widx.length)) : ℕ) ∧ widx.getD (((Fin.castAdd widx.length i :
          Fin (tags.length + widx.length)) : ℕ) - tags.length) 0 = w
          then G (Fin.castAdd widx.length i) else 0) = 0 :=
        Finset.sum_eq_zero fun i _ => if_neg fun h => absurd h.1 (by simp)
      rw [hz, zero_add, smul_neg]
      congr 1
      rw [Finset.smul_sum, ← Finset.sum_neg_distrib]
      apply Finset.sum_congr rfl
      intro m _
      have hm : tags.length + (m : ℕ) < tags.length + widx.length := by omega
      have hget : widx.getD (((Fin.natAdd tags.length m : Fin (tags.length + widx.length)) : ℕ) - tags.length) 0
          = widx[m] := by
        simp
      rw [hget]
      simp only [hblk _ hm, Fin.val_natAdd, Nat.le_add_right, true_and]
      split
      · rfl
      · simp
  · intro hl t
    rw [e3, e4]
    exact a2 hl t
  · intro hl
    rw [e3, e4]
    exact a3 hl

/-- **C87.** The window of DM with concatenation: the `window` words before and the `window` words after, the
null word where the document ends. -/
theorem C87_concat_window (window nullWord : ℕ) (indexes : List ℕ) (i : ℕ) :
    (concatWindow window nullWord indexes i).length = 2 * window ∧
      ∀ d, d < 2 * window → (concatWindow window nullWord indexes i)[d]?
        = some (let m : ℤ := if d < window then (i : ℤ) - window + d else (i : ℤ) - window + d + 1
            if 0 ≤ m ∧ m < indexes.length then indexes.getD m.toNat 0 else nullWord) := by
  have hfil : ((List.range (2 * window + 1)).filter fun d => decide (d ≠ window))
      = List.range window ++ List.range' (window + 1) window := by
    have h1 : List.range (2 * window + 1) = List.range window ++ (window :: List.range' (window + 1) window) := by
      rw [List.range_eq_range', List.range_eq_range', ← List.range'_succ, show 2 * window + 1 = window + (window + 1) by ring,
        ← List.range'_append]
      simp
    rw [h1, List.filter_append, List.filter_cons_of_neg (by simp)]
    congr 1
    · rw [List.filter_eq_self]
      intro a ha
      have := List.mem_range.1 ha
      simp
      omega
    · rw [List.filter_eq_self]
      intro a ha
      have := List.mem_range'_1.1 ha
      simp
      omega
  unfold concatWindow
  rw [hfil]
  refine ⟨by simp; omega, ?_⟩
  intro d hd
  rw [List.getElem?_map]
  by_cases hdw : d < window
  · rw [List.getElem?_append_left (by simpa using hdw), List.getElem?_range hdw]
    simp only [Option.map_some, if_pos hdw]
    congr 1
    by_cases hc : i + d < window ∨ i + d - window ≥ indexes.length
    · rw [if_pos hc, if_neg]
      omega
    · rw [if_neg hc, if_pos (by omega)]
      congr 1
      omega
  · rw [List.getElem?_append_right (by simpa using hdw), List.length_range, List.getElem?_range' (by omega)]
    simp only [Option.map_some, if_neg hdw]
    congr 1
    have he : i + (window + 1 + 1 * (d - window)) = i + d + 1 := by omega
    rw [he]
    by_cases hc : i + d + 1 < window ∨ i + d + 1 - window ≥ indexes.length
    · rw [if_pos hc, if_neg]
      omega
    · rw [if_neg hc, if_pos (by omega)]
      congr 1
      omega

/-- **C87.** Documents without the expected number of tags are skipped by DM with concatenation. -/
theorem C87_concat_skips {n : ℕ} (c : DConfig) (expected nullWord : ℕ) (indexes tags : List ℕ)
    (s : DNet E (Blocks E n)) (h : tags.length ≠ expected) :
    concatDocument c expected nullWord indexes tags s = s := if_pos h

/-! ## The words of a document -/

/-- **C87.** The words that are trained are the known words that pass the downsampling, up to the limit. -/
theorem C87_words (useSample : Bool) (sampleInts : ℕ → ℕ) (room : ℕ) (hroom : 0 < room) (words : List (Option ℕ))
    (r : ℕ) : (docIndexes useSample sampleInts room words r).1
      = (subsample useSample sampleInts (words.filterMap id) r).1.take room := by
  induction words generalizing room r with
  | nil => simp [docIndexes, subsample]
  | cons w words ih =>
    cases w with
    | none =>
      rw [docIndexes, ih room hroom, List.filterMap_cons_none rfl]
    | some w =>
      rw [docIndexes, List.filterMap_cons_some (by rfl : id (some w) = some w)]
      cases useSample with
      | false =>
        simp only [Bool.false_eq_true, if_false, false_and, subsample]
        by_cases h1 : room ≤ 1
        · rw [if_pos h1]
          have : room = 1 := by omega
          subst this
          simp
        · rw [if_neg h1]
          dsimp only
          rw [ih (room - 1) (by omega)]
          obtain ⟨k, rfl⟩ : ∃ k, room = k + 1 := ⟨room - 1, by omega⟩
          simp
      | true =>
        simp only [if_true, true_and, subsample]
        by_cases h2 : sampleInts w < randomInt32 r
        · rw [if_pos h2, if_pos h2, ih room hroom]
        · rw [if_neg h2, if_neg h2]
          by_cases h1 : room ≤ 1
          · rw [if_pos h1]
            have : room = 1 := by omega
            subst this
            simp
          · rw [if_neg h1]
            dsimp only
            rw [ih (room - 1) (by omega)]
            obtain ⟨k, rfl⟩ : ∃ k, room = k + 1 := ⟨room - 1, by omega⟩
            simp

end Verif.D2VStep

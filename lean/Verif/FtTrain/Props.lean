import Verif.FtTrain.Model
import Verif.W2V.StepProps
import Mathlib.Analysis.Complex.ExponentialBounds

/-!
# C108: a training step of fastText follows the gradient
-/

namespace Verif.FtTrain

open Verif.W2V Verif.W2V.Step
open scoped InnerProductSpace

variable {E : Type} [NormedAddCommGroup E] [InnerProductSpace ℝ E]

/-! ## Specification

`pairLoss`, `GradientStep`, `sigm` and `labels` are those of C82. -/

/-- The sum of the vectors in some rows. -/
noncomputable def rowSum (rows : List Row) (v : Row → E) : E := (rows.map v).sum

/-- The vector of a word as it is looked up after training: the average of its own row and those of its
n-grams (C64). -/
noncomputable def lookedUp (subwords : ℕ → List ℕ) (w : ℕ) (v : Row → E) : E :=
  (1 / ((subwords w).length + 1 : ℝ)) • rowSum (rowsOf subwords w) v

/-- The input of skip-gram: the sum of the rows of a word, divided by the number of its n-grams. -/
noncomputable def sgVec (subwords : ℕ → List ℕ) (w : ℕ) (v : Row → E) : E :=
  (1 / (max (1 : ℝ) (subwords w).length)) • rowSum (rowsOf subwords w) v

/-- The input of CBOW: the mean or the sum of all rows of all words of the context. -/
noncomputable def cbowVec (mean : Bool) (subwords : ℕ → List ℕ) (ctx : List ℕ) (v : Row → E) : E :=
  if mean then (1 / ((ctxRows subwords ctx).length : ℝ)) • rowSum (ctxRows subwords ctx) v
  else rowSum (ctxRows subwords ctx) v

/-- `x'` differs by at most `b` from `x` after a step of gradient descent on `F`. -/
def NearStep [CompleteSpace E] (b rate : ℝ) (F : E → ℝ) (x x' : E) : Prop :=
  ∃ x'', GradientStep rate F x x'' ∧ ‖x' - x''‖ ≤ b

/-! ## The loops -/

/-- All three loops: `co label score` is the multiplier. -/
noncomputable def gen (co : Bool → ℝ → ℝ) (alpha : ℝ) (h : E) (o : Out E) (tl : ℕ × Bool) : Out E :=
  push h o tl.1 (co tl.2 ⟪h, o.syn1 tl.1⟫_ℝ * alpha)

/-- The multiplier where saturated scores are skipped. -/
noncomputable def coSkip (sig : ℝ → ℝ) (l : Bool) (f : ℝ) : ℝ :=
  if f ≤ -8 ∨ 8 ≤ f then 0 else num l - sig f

/-- The multiplier where they are clipped. -/
noncomputable def coClip (sig : ℝ → ℝ) (l : Bool) (f : ℝ) : ℝ :=
  num l - (if f ≤ -8 then 0 else if 8 ≤ f then 1 else sig f)

theorem push_zero (h : E) (o : Out E) (row : ℕ) : push h o row 0 = o := by
  cases o
  simp [push]

theorem sgDraw_gen (sig : ℝ → ℝ) (alpha : ℝ) (h : E) (o : Out E) (tl : ℕ × Bool) :
    sgDraw sig alpha h o tl = gen (coSkip sig) alpha h o tl := by
  unfold sgDraw gen coSkip num
  dsimp only
  split
  · rw [zero_mul, push_zero]
  · rfl

theorem cbowDraw_gen (sig : ℝ → ℝ) (alpha : ℝ) (h : E) (o : Out E) (tl : ℕ × Bool) :
    cbowDraw sig alpha h o tl = gen (coClip sig) alpha h o tl := rfl

theorem hsBit_gen (sig : ℝ → ℝ) (alpha : ℝ) (h : E) (o : Out E) (pc : ℕ × Bool) :
    hsBit sig alpha h o pc = gen (coSkip sig) alpha h o (pc.1, !pc.2) := by
  unfold hsBit gen coSkip
  dsimp only
  split
  · rw [zero_mul, push_zero]
  · cases pc.2 <;> simp [num]

theorem foldl_sg (sig : ℝ → ℝ) (alpha : ℝ) (h : E) (ts : List (ℕ × Bool)) (o : Out E) :
    ts.foldl (sgDraw sig alpha h) o = ts.foldl (gen (coSkip sig) alpha h) o := by
  congr 1
  funext o tl
  exact sgDraw_gen sig alpha h o tl

theorem foldl_cbow (sig : ℝ → ℝ) (alpha : ℝ) (h : E) (ts : List (ℕ × Bool)) (o : Out E) :
    ts.foldl (cbowDraw sig alpha h) o = ts.foldl (gen (coClip sig) alpha h) o := rfl

theorem foldl_hs' (sig : ℝ → ℝ) (alpha : ℝ) (h : E) (ts : List (ℕ × Bool)) (o : Out E) :
    ts.foldl (hsBit sig alpha h) o = (labels ts).foldl (gen (coSkip sig) alpha h) o := by
  unfold labels
  rw [List.foldl_map]
  congr 1
  funext o tl
  exact hsBit_gen sig alpha h o tl

/-- The sum of the multipliers of a row. -/
noncomputable def rowCo (co : Bool → ℝ → ℝ) (h : E) (v : ℕ → E) (ts : List (ℕ × Bool)) (t : ℕ) : ℝ :=
  ((ts.filter fun tl => decide (tl.1 = t)).map fun tl => co tl.2 ⟪h, v tl.1⟫_ℝ).sum

theorem gen_foldl (co : Bool → ℝ → ℝ) (alpha : ℝ) (h : E) :
    ∀ (ts : List (ℕ × Bool)) (o : Out E), (ts.map Prod.fst).Nodup →
    (ts.foldl (gen co alpha h) o).work
        = o.work + (ts.map fun tl => (co tl.2 ⟪h, o.syn1 tl.1⟫_ℝ * alpha) • o.syn1 tl.1).sum ∧
      ∀ t, (ts.foldl (gen co alpha h) o).syn1 t
        = o.syn1 t + (alpha * rowCo co h o.syn1 ts t) • h := by
  intro ts
  induction ts with
  | nil => intro o _; simp [rowCo]
  | cons tl ts ih =>
    intro o hnd
    rw [List.map_cons, List.nodup_cons] at hnd
    obtain ⟨h1, h2⟩ := ih (gen co alpha h o tl) hnd.2
    have hsame : ∀ t ≠ tl.1, (gen co alpha h o tl).syn1 t = o.syn1 t := by
      intro t ht
      exact Function.update_of_ne ht _ _
    have hne : ∀ tl' ∈ ts, tl'.1 ≠ tl.1 := by
      intro tl' hm he
      exact hnd.1 (he ▸ List.mem_map.2 ⟨tl', hm, rfl⟩)
    refine ⟨?_, ?_⟩
    · rw [List.foldl_cons, h1, List.map_cons, List.sum_cons, ← add_assoc]
      congr 1
      congr 1
      apply List.map_congr_left
      intro tl' hm
      rw [hsame _ (hne tl' hm)]
    · intro t
      rw [List.foldl_cons, h2 t]
      have hmap : rowCo co h (gen co alpha h o tl).syn1 ts t = rowCo co h o.syn1 ts t := by
        unfold rowCo
        congr 1
        apply List.map_congr_left
        intro tl' hm
        rw [hsame _ (hne tl' (List.mem_filter.1 hm).1)]
      rw [hmap]
      by_cases ht : tl.1 = t
      · subst ht
        have hnil : (ts.filter fun tl' => decide (tl'.1 = tl.1)) = [] := by
          rw [List.filter_eq_nil_iff]
          intro tl' hm
          simpa using hne tl' hm
        unfold rowCo
        rw [List.filter_cons_of_pos (by simp), hnil]
        simp [gen, push, mul_comm]
      · unfold rowCo
        rw [List.filter_cons_of_neg (by simpa using ht), hsame t (fun h => ht h.symm)]

theorem co_sum_le (co : Bool → ℝ → ℝ) (e : ℝ) (he : 0 ≤ e) (h : E) (v : ℕ → E) (ts : List (ℕ × Bool))
    (hd : (ts.map Prod.fst).Nodup)
    (hc : ∀ tl ∈ ts, |co tl.2 ⟪h, v tl.1⟫_ℝ - (num tl.2 - sigm ⟪h, v tl.1⟫_ℝ)| ≤ e) (t : ℕ) :
    |rowCo co h v ts t - rowCo (fun l f => num l - sigm f) h v ts t| ≤ e := by
  unfold rowCo
  by_cases hex : ∃ tl ∈ ts, tl.1 = t
  · obtain ⟨tl, hm, rfl⟩ := hex
    rw [filter_unique ts hd tl hm]
    simpa using hc tl hm
  · have hnil : (ts.filter fun tl' => decide (tl'.1 = t)) = [] := by
      rw [List.filter_eq_nil_iff]
      intro x hx
      simpa using fun h => hex ⟨x, hx, h⟩
    rw [hnil]
    simpa using he

/-- The loop is nearly a gradient step for all output rows, and `work` nearly the step of the input. -/
theorem loop_near [CompleteSpace E] (co : Bool → ℝ → ℝ) (e alpha : ℝ) (ha : 0 ≤ alpha) (he : 0 ≤ e)
    (ts : List (ℕ × Bool)) (h : E) (v : ℕ → E) (hd : (ts.map Prod.fst).Nodup)
    (hc : ∀ tl ∈ ts, |co tl.2 ⟪h, v tl.1⟫_ℝ - (num tl.2 - sigm ⟪h, v tl.1⟫_ℝ)| ≤ e) :
    let o := ts.foldl (gen co alpha h) { syn1 := v, work := 0 }
    (∃ G, HasGradientAt (fun x => pairLoss ts x v) G h ∧
        ‖o.work + alpha • G‖ ≤ alpha * e * (ts.map fun tl => ‖v tl.1‖).sum) ∧
      ∀ t, NearStep (alpha * e * ‖h‖) alpha (fun y => pairLoss ts h (Function.update v t y)) (v t)
        (o.syn1 t) := by
  obtain ⟨h1, h2⟩ := gen_foldl co alpha h ts { syn1 := v, work := 0 } hd
  dsimp only at h1 h2 ⊢
  refine ⟨⟨_, hasGradientAt_iff_innerSL.2 (hasFDerivAt_loss_h ts h v), ?_⟩, ?_⟩
  · rw [h1, zero_add, smul_neg, ← sub_eq_add_neg, List.smul_sum, List.map_map]
    have := list_sum_norm_le ts (fun tl => (co tl.2 ⟪h, v tl.1⟫_ℝ * alpha) • v tl.1)
      ((fun x => alpha • x) ∘ fun tl => (num tl.2 - sigm ⟪h, v tl.1⟫_ℝ) • v tl.1)
      (fun tl => alpha * e * ‖v tl.1‖) (by
        intro tl hm
        rw [Function.comp_apply, smul_smul, ← sub_smul, norm_smul, mul_comm alpha, ← sub_mul, norm_mul,
          Real.norm_eq_abs, Real.norm_of_nonneg ha, mul_comm alpha]
        exact mul_le_mul_of_nonneg_right (mul_le_mul_of_nonneg_right (hc tl hm) ha) (norm_nonneg _))
    refine le_trans this (le_of_eq ?_)
    rw [List.sum_map_mul_left]
  · intro t
    refine ⟨_, ⟨_, hasGradientAt_iff_innerSL.2 (hasFDerivAt_loss_v ts h v t), rfl⟩, ?_⟩
    rw [h2 t, smul_neg, sub_neg_eq_add, add_sub_add_left_eq_sub, smul_smul, ← sub_smul, ← mul_sub,
      norm_smul, norm_mul, Real.norm_of_nonneg ha, Real.norm_eq_abs]
    exact mul_le_mul_of_nonneg_right (mul_le_mul_of_nonneg_left (co_sum_le co e he h v ts hd hc t) ha)
      (norm_nonneg _)

/-! ## Inputs -/

theorem foldl_rows (rows : List Row) (v : Row → E) (a : E) :
    rows.foldl (fun s r => s + v r) a = a + rowSum rows v := by
  unfold rowSum
  induction rows generalizing a with
  | nil => simp
  | cons w rows ih => rw [List.foldl_cons, ih, List.map_cons, List.sum_cons, add_assoc]

theorem rowSum_update (rows : List Row) (v : Row → E) (c : Row) (y : E) :
    rowSum rows (Function.update v c y) = (rows.count c : ℝ) • (y - v c) + rowSum rows v := by
  unfold rowSum
  induction rows with
  | nil => simp
  | cons w rows ih =>
    rw [List.map_cons, List.sum_cons, ih, List.map_cons, List.sum_cons]
    by_cases hw : w = c
    · subst hw
      rw [List.count_cons_self, Function.update_self]
      push_cast
      rw [add_smul, one_smul]
      abel
    · rw [List.count_cons_of_ne (fun h => hw h), Function.update_of_ne hw]
      abel

theorem spread_eq (l : Locks) (rows : List Row) (work : E) (syn0 : Row → E) (c : Row) :
    spread l rows work syn0 c = syn0 c + ((rows.count c : ℝ) * rowLock l c) • work := by
  unfold spread
  induction rows generalizing syn0 with
  | nil => simp
  | cons w rows ih =>
    rw [List.foldl_cons, ih]
    by_cases hw : w = c
    · subst hw
      rw [Function.update_self, List.count_cons_self]
      push_cast
      rw [add_mul, one_mul, add_smul]
      abel
    · rw [Function.update_of_ne (fun h => hw h.symm), List.count_cons_of_ne (fun h => hw h)]

theorem chain_rows [CompleteSpace E] (k : ℝ) (rows : List Row) (v : Row → E) (c : Row) (F : E → ℝ) (G : E)
    (hG : HasGradientAt F G (k • rowSum rows v)) :
    HasGradientAt (fun y => F (k • rowSum rows (Function.update v c y))) ((k * rows.count c) • G)
      (v c) := by
  rw [hasGradientAt_iff_innerSL] at hG ⊢
  have h1 : HasFDerivAt (fun y => k • rowSum rows (Function.update v c y))
      ((k * rows.count c : ℝ) • ContinuousLinearMap.id ℝ E) (v c) := by
    have he : (fun y => k • rowSum rows (Function.update v c y))
        = fun y => (k * rows.count c : ℝ) • (y - v c) + k • rowSum rows v := by
      funext y
      rw [rowSum_update, smul_add, smul_smul]
    rw [he]
    exact (((hasFDerivAt_id (v c)).sub_const (v c)).const_smul _).add_const _
  have h2 : HasFDerivAt F (innerSL ℝ G) (k • rowSum rows (Function.update v c (v c))) := by
    rw [Function.update_eq_self]
    exact hG
  have h3 := h2.comp (v c) h1
  refine h3.congr_fderiv ?_
  ext x
  simp [inner_smul_left]

/-- The input rows: the input is `k` times their sum and `work` is scaled by `d` before it is added. -/
theorem step_rows [CompleteSpace E] (k d alpha b : ℝ) (hk : k ≠ 0) (l : Locks) (rows : List Row)
    (v : Row → E) (F : E → ℝ) (work : E)
    (h : ∃ G, HasGradientAt F G (k • rowSum rows v) ∧ ‖work + alpha • G‖ ≤ b) (c : Row) :
    NearStep (rows.count c * |rowLock l c| * |d| * b) (rowLock l c * alpha * (d / k))
      (fun y => F (k • rowSum rows (Function.update v c y))) (v c) (spread l rows (d • work) v c) := by
  obtain ⟨G, h1, h2⟩ := h
  refine ⟨_, ⟨_, chain_rows k rows v c F G h1, rfl⟩, ?_⟩
  rw [spread_eq]
  have e : v c + ((rows.count c : ℝ) * rowLock l c) • d • work
      - (v c - (rowLock l c * alpha * (d / k)) • (k * (rows.count c : ℝ)) • G)
      = ((rows.count c : ℝ) * rowLock l c * d) • (work + alpha • G) := by
    rw [smul_add, smul_smul, smul_smul, smul_smul]
    have : rowLock l c * alpha * (d / k) * (k * (rows.count c : ℝ))
        = (rows.count c : ℝ) * rowLock l c * d * alpha := by
      field_simp
    rw [this]
    abel
  rw [e, norm_smul]
  simp only [norm_mul, Real.norm_eq_abs, Nat.abs_cast]
  apply mul_le_mul_of_nonneg_left h2
  positivity

theorem near_zero [CompleteSpace E] {b rate : ℝ} {F : E → ℝ} {x x' : E} (hb : b = 0)
    (h : NearStep b rate F x x') : GradientStep rate F x x' := by
  obtain ⟨x'', h1, h2⟩ := h
  rw [hb] at h2
  have := norm_le_zero_iff.1 h2
  rw [sub_eq_zero.1 this]
  exact h1

theorem NearStep.mono [CompleteSpace E] {b b' rate rate' : ℝ} {F F' : E → ℝ} {x x' : E}
    (h : NearStep b rate F x x') (hb : b ≤ b') (hr : rate = rate') (hF : F = F') :
    NearStep b' rate' F' x x' := by
  subst hr hF
  obtain ⟨x'', h1, h2⟩ := h
  exact ⟨x'', h1, h2.trans hb⟩

/-- **C108.** The input of skip-gram is the sum of the rows of the word divided by the number of its n-grams;
the input of CBOW is the mean or the sum of all rows of the context. -/
theorem C108_input (cbowMean : Bool) (subwords : ℕ → List ℕ) (w : ℕ) (ctx : List ℕ) (syn0 : Row → E) :
    sgInput subwords w syn0 = sgVec subwords w syn0 ∧
      (ctx ≠ [] → cbowInput cbowMean subwords ctx syn0 = cbowVec cbowMean subwords ctx syn0) := by
  constructor
  · unfold sgInput sgVec rowsOf rowSum
    dsimp only
    have hfold : ∀ (bs : List ℕ) (a : E), bs.foldl (fun s b => s + syn0 (.gram b)) a
        = a + (bs.map fun b => syn0 (.gram b)).sum := by
      intro bs
      induction bs with
      | nil => simp
      | cons b bs ih => intro a; rw [List.foldl_cons, ih, List.map_cons, List.sum_cons, add_assoc]
    split
    · rename_i h0
      rw [hfold, List.map_cons, List.sum_cons, List.map_map]
      have : (1 : ℝ) ≤ (subwords w).length := by
        exact_mod_cast Nat.one_le_iff_ne_zero.2 h0
      rw [max_eq_right this]
      rfl
    · rename_i h0
      have : subwords w = [] := List.length_eq_zero_iff.1 (not_not.1 h0)
      simp [this]
  · intro hne
    unfold cbowInput cbowVec invCount
    dsimp only
    have hlen : 1 ≤ (ctxRows subwords ctx).length := by
      obtain ⟨w, rest, rfl⟩ := List.exists_cons_of_ne_nil hne
      simp only [ctxRows, rowsOf, List.flatMap_cons, List.length_append, List.length_cons]
      omega
    have hlen' : (1 : ℝ) ≤ (ctxRows subwords ctx).length := by exact_mod_cast hlen
    have hbig : ((ctxRows subwords ctx).length : ℝ) > 0.5 := by norm_num; linarith
    rw [foldl_rows, zero_add, if_pos hbig]

/-- **C108.** Skip-gram trains with a longer vector than the one looked up afterwards: longer by the factor
(n+1)/n for a word with n n-grams. -/
theorem C108_looked_up (subwords : ℕ → List ℕ) (w : ℕ) (syn0 : Row → E) (hn : subwords w ≠ []) :
    sgInput subwords w syn0
      = (((subwords w).length + 1 : ℝ) / (subwords w).length) • lookedUp subwords w syn0 := by
  have h1 : (1 : ℝ) ≤ (subwords w).length := by
    exact_mod_cast List.length_pos_iff.2 hn
  rw [(C108_input true subwords w [] syn0).1]
  unfold sgVec lookedUp
  rw [smul_smul, max_eq_right h1]
  congr 1
  have : ((subwords w).length : ℝ) ≠ 0 := by linarith
  have : ((subwords w).length : ℝ) + 1 ≠ 0 := by linarith
  field_simp

theorem skip_exact (l : Bool) (f : ℝ) (hf : |f| < 8) : coSkip sigm l f = num l - sigm f := by
  have := abs_lt.1 hf
  unfold coSkip
  rw [if_neg (by rintro (h | h) <;> linarith)]

theorem clip_exact (sig : ℝ → ℝ) (l : Bool) (f : ℝ) (hf : |f| < 8) : coClip sig l f = num l - sig f := by
  have := abs_lt.1 hf
  unfold coClip
  rw [if_neg (by linarith), if_neg (by linarith)]

theorem skip_near (sig : ℝ → ℝ) (e : ℝ) (he : ∀ f, |f| < 8 → |sig f - sigm f| ≤ e) (l : Bool) (f : ℝ)
    (hf : |f| < 8) : |coSkip sig l f - (num l - sigm f)| ≤ e := by
  have h := abs_lt.1 hf
  unfold coSkip
  rw [if_neg (by rintro (h | h) <;> linarith), sub_sub_sub_cancel_left, abs_sub_comm]
  exact he f hf

theorem sigm_mono {x y : ℝ} (h : x ≤ y) : sigm x ≤ sigm y := by
  unfold sigm
  apply one_div_le_one_div_of_le (by positivity)
  have := Real.exp_le_exp.2 (neg_le_neg h)
  linarith

theorem sigm_tail : sigm (-8) ≤ 1 / 2000 := by
  unfold sigm
  rw [neg_neg]
  have h1 : (2.7 : ℝ) ≤ Real.exp 1 := by linarith [Real.exp_one_gt_d9]
  have h2 : Real.exp 8 = Real.exp 1 ^ 8 := by rw [← Real.exp_nat_mul]; norm_num
  have h3 : (2.7 : ℝ) ^ 8 ≤ Real.exp 1 ^ 8 := pow_le_pow_left₀ (by norm_num) h1 8
  rw [h2]
  apply one_div_le_one_div_of_le (by norm_num)
  norm_num at h3 ⊢
  linarith

theorem clip_near (sig : ℝ → ℝ) (e : ℝ) (h0 : 1 / 2000 ≤ e) (he : ∀ f, |f| < 8 → |sig f - sigm f| ≤ e)
    (l : Bool) (f : ℝ) : |coClip sig l f - (num l - sigm f)| ≤ e := by
  unfold coClip
  rw [sub_sub_sub_cancel_left]
  have hp := sigm_pos f
  have hq := sigm_lt_one f
  split
  · rename_i h
    have := sigm_mono h
    have := sigm_tail
    rw [sub_zero, abs_of_pos hp]
    linarith
  · rename_i h
    split
    · rename_i h'
      have h2 := sigm_mono (neg_le_neg h')
      rw [sigm_neg] at h2
      have := sigm_tail
      rw [abs_sub_comm, abs_of_nonneg (by linarith)]
      linarith
    · rename_i h'
      rw [abs_sub_comm]
      exact he f (abs_lt.2 ⟨by linarith, by linarith⟩)

/-- **C108.** The table is only read inside its bounds, and what is read differs from the sigmoid by at
most 1/128. -/
theorem C108_table (f : ℝ) (hf : |f| < 8) :
    ⌊(f + 8) * 32⌋₊ < 512 ∧ |table f - sigm f| ≤ 1 / 128 := by
  have hf' := abs_lt.1 hf
  have hpos : 0 ≤ (f + 8) * 32 := by linarith
  constructor
  · rw [Nat.floor_lt hpos]
    push_cast
    linarith
  · have hexp : ∀ i, expTable i = sigm (((i : ℝ) / 512 * 2 - 1) * 8) := by
      intro i
      unfold expTable sigm
      dsimp only
      rw [Real.exp_neg]
      have := Real.exp_pos (((i : ℝ) / 512 * 2 - 1) * 8)
      field_simp
    unfold table
    rw [hexp]
    refine le_trans (sigm_lipschitz _ _) ?_
    have h1 := Nat.floor_le hpos
    have h2 := Nat.lt_floor_add_one ((f + 8) * 32)
    have : |((⌊(f + 8) * 32⌋₊ : ℝ) / 512 * 2 - 1) * 8 - f| ≤ 1 / 32 := by
      rw [abs_le]
      constructor <;> linarith
    linarith

/-! ## Skip-gram -/

theorem sg_step [CompleteSpace E] (co : Bool → ℝ → ℝ) (e alpha : ℝ) (ha : 0 ≤ alpha) (he : 0 ≤ e)
    (l : Locks) (subwords : ℕ → List ℕ) (ts : List (ℕ × Bool)) (w : ℕ) (syn0 : Row → E) (v : ℕ → E)
    (hd : (ts.map Prod.fst).Nodup)
    (hc : ∀ tl ∈ ts, |co tl.2 ⟪sgVec subwords w syn0, v tl.1⟫_ℝ
      - (num tl.2 - sigm ⟪sgVec subwords w syn0, v tl.1⟫_ℝ)| ≤ e) :
    let o := ts.foldl (gen co alpha (sgVec subwords w syn0)) { syn1 := v, work := 0 }
    (∀ r, NearStep ((rowsOf subwords w).count r * |rowLock l r|
          * (alpha * e * (ts.map fun tl => ‖v tl.1‖).sum))
        (rowLock l r * alpha * max (1 : ℝ) (subwords w).length)
        (fun y => pairLoss ts (sgVec subwords w (Function.update syn0 r y)) v) (syn0 r)
        (spread l (rowsOf subwords w) o.work syn0 r)) ∧
      ∀ t, NearStep (alpha * e * ‖sgVec subwords w syn0‖) alpha
        (fun y => pairLoss ts (sgVec subwords w syn0) (Function.update v t y)) (v t) (o.syn1 t) := by
  obtain ⟨h1, h2⟩ := loop_near co e alpha ha he ts (sgVec subwords w syn0) v hd hc
  dsimp only at h1 h2 ⊢
  refine ⟨?_, h2⟩
  intro r
  have hm : (0 : ℝ) < max (1 : ℝ) (subwords w).length := lt_of_lt_of_le one_pos (le_max_left _ _)
  have := step_rows (1 / (max (1 : ℝ) (subwords w).length)) 1 alpha _ (by positivity) l
    (rowsOf subwords w) syn0 _ _ h1 r
  rw [one_smul] at this
  refine this.mono (le_of_eq (by simp)) (by simp) rfl

/-- **C108.** A skip-gram step with negative sampling, with distinct samples and without saturation, is a step
of gradient descent on the negative log-likelihood of the labels for all output vectors.  For the row of the
word and the rows of its n-grams it goes in the direction of the gradient too, but the step is too long by
the number of n-grams.  All other rows stay as they are. -/
theorem C108_sg_neg [CompleteSpace E] (alpha : ℝ) (ha : 0 ≤ alpha) (l : Locks) (subwords : ℕ → List ℕ)
    (targets : List (ℕ × Bool)) (w : ℕ) (syn0 : Row → E) (syn1neg : ℕ → E)
    (hd : (targets.map Prod.fst).Nodup)
    (hr : ∀ tl ∈ targets, |⟪sgVec subwords w syn0, syn1neg tl.1⟫_ℝ| < 8) :
    let s := sgNeg sigm alpha l subwords targets w syn0 syn1neg
    (∀ r, GradientStep (rowLock l r * alpha * max (1 : ℝ) (subwords w).length)
        (fun y => pairLoss targets (sgVec subwords w (Function.update syn0 r y)) syn1neg)
        (syn0 r) (s.1 r)) ∧
      (∀ r, r ∉ rowsOf subwords w → s.1 r = syn0 r) ∧
      ∀ t, GradientStep alpha
        (fun y => pairLoss targets (sgVec subwords w syn0) (Function.update syn1neg t y))
        (syn1neg t) (s.2 t) := by
  obtain ⟨h1, h2⟩ := sg_step (coSkip sigm) 0 alpha ha le_rfl l subwords targets w syn0 syn1neg hd (by
    intro tl hm
    rw [skip_exact _ _ (hr tl hm)]
    simp)
  unfold sgNeg
  dsimp only at h1 h2 ⊢
  rw [(C108_input true subwords w [] syn0).1, foldl_sg]
  refine ⟨fun r => near_zero (by ring) (h1 r), ?_, fun t => near_zero (by ring) (h2 t)⟩
  intro r hr
  rw [spread_eq, List.count_eq_zero.2 hr]
  simp

/-- **C108.** The same for hierarchical softmax. -/
theorem C108_sg_hs [CompleteSpace E] (alpha : ℝ) (ha : 0 ≤ alpha) (l : Locks) (subwords : ℕ → List ℕ)
    (path : List (ℕ × Bool)) (w : ℕ) (syn0 : Row → E) (syn1 : ℕ → E)
    (hd : (path.map Prod.fst).Nodup)
    (hr : ∀ pc ∈ path, |⟪sgVec subwords w syn0, syn1 pc.1⟫_ℝ| < 8) :
    let s := sgHs sigm alpha l subwords path w syn0 syn1
    (∀ r, GradientStep (rowLock l r * alpha * max (1 : ℝ) (subwords w).length)
        (fun y => pairLoss (labels path) (sgVec subwords w (Function.update syn0 r y)) syn1)
        (syn0 r) (s.1 r)) ∧
      (∀ r, r ∉ rowsOf subwords w → s.1 r = syn0 r) ∧
      ∀ t, GradientStep alpha
        (fun y => pairLoss (labels path) (sgVec subwords w syn0) (Function.update syn1 t y))
        (syn1 t) (s.2 t) := by
  obtain ⟨h1, h2⟩ := sg_step (coSkip sigm) 0 alpha ha le_rfl l subwords (labels path) w syn0 syn1
    (by rw [labels_fst]; exact hd) (by
      intro tl hm
      obtain ⟨pc, hpc, rfl⟩ := List.mem_map.1 hm
      rw [skip_exact _ _ (hr pc hpc)]
      simp)
  unfold sgHs
  dsimp only at h1 h2 ⊢
  rw [(C108_input true subwords w [] syn0).1, foldl_hs']
  refine ⟨fun r => near_zero (by ring) (h1 r), ?_, fun t => near_zero (by ring) (h2 t)⟩
  intro r hr
  rw [spread_eq, List.count_eq_zero.2 hr]
  simp

/-- **C108.** With the table instead of the sigmoid, the step differs from the one of `C108_sg_neg` by at
most alpha/128 times the norms of the vectors involved. -/
theorem C108_sg_neg_table [CompleteSpace E] (alpha : ℝ) (ha : 0 ≤ alpha) (l : Locks)
    (subwords : ℕ → List ℕ) (targets : List (ℕ × Bool)) (w : ℕ) (syn0 : Row → E) (syn1neg : ℕ → E)
    (hd : (targets.map Prod.fst).Nodup)
    (hr : ∀ tl ∈ targets, |⟪sgVec subwords w syn0, syn1neg tl.1⟫_ℝ| < 8) :
    let s := sgNeg table alpha l subwords targets w syn0 syn1neg
    (∀ r, NearStep ((rowsOf subwords w).count r * |rowLock l r|
          * (alpha * (1 / 128) * (targets.map fun tl => ‖syn1neg tl.1‖).sum))
        (rowLock l r * alpha * max (1 : ℝ) (subwords w).length)
        (fun y => pairLoss targets (sgVec subwords w (Function.update syn0 r y)) syn1neg)
        (syn0 r) (s.1 r)) ∧
      ∀ t, NearStep (alpha * (1 / 128) * ‖sgVec subwords w syn0‖) alpha
        (fun y => pairLoss targets (sgVec subwords w syn0) (Function.update syn1neg t y))
        (syn1neg t) (s.2 t) := by
  have h := sg_step (coSkip table) (1 / 128) alpha ha (by norm_num) l subwords targets w syn0 syn1neg hd
    (by
      intro tl hm
      exact skip_near table _ (fun f hf => (C108_table f hf).2) _ _ (hr tl hm))
  unfold sgNeg
  dsimp only at h ⊢
  rw [(C108_input true subwords w [] syn0).1, foldl_sg]
  exact h

/-- **C108.** In skip-gram and with hierarchical softmax, a sample whose score is beyond ±8 is skipped, right
or wrong: if all are, nothing is trained. -/
theorem C108_saturated_skipped (sig : ℝ → ℝ) (alpha : ℝ) (cbowMean : Bool) (l : Locks)
    (subwords : ℕ → List ℕ) (targets : List (ℕ × Bool)) (w : ℕ) (ctx : List ℕ) (syn0 : Row → E)
    (syn1 : ℕ → E) :
    ((∀ tl ∈ targets, 8 ≤ |⟪sgInput subwords w syn0, syn1 tl.1⟫_ℝ|) →
      sgNeg sig alpha l subwords targets w syn0 syn1 = (syn0, syn1) ∧
        sgHs sig alpha l subwords targets w syn0 syn1 = (syn0, syn1)) ∧
    ((∀ tl ∈ targets, 8 ≤ |⟪cbowInput cbowMean subwords ctx syn0, syn1 tl.1⟫_ℝ|) →
      cbowHs sig alpha cbowMean l subwords targets ctx syn0 syn1 = (syn0, syn1)) := by
  have hsat : ∀ f : ℝ, 8 ≤ |f| → f ≤ -8 ∨ 8 ≤ f := by
    intro f hf
    rcases le_abs.1 hf with h | h
    · exact .inr h
    · exact .inl (by linarith)
  have skip : ∀ (step : Out E → ℕ × Bool → Out E) (h : E),
      (∀ o tl, ⟪h, o.syn1 tl.1⟫_ℝ ≤ -8 ∨ 8 ≤ ⟪h, o.syn1 tl.1⟫_ℝ → step o tl = o) →
      ∀ (ts : List (ℕ × Bool)), (∀ tl ∈ ts, 8 ≤ |⟪h, syn1 tl.1⟫_ℝ|) →
      ts.foldl step { syn1 := syn1, work := 0 } = { syn1 := syn1, work := 0 } := by
    intro step h hstep ts
    induction ts with
    | nil => intro _; rfl
    | cons tl ts ih =>
      intro hts
      rw [List.foldl_cons, hstep _ _ (hsat _ (hts tl List.mem_cons_self))]
      exact ih fun x hx => hts x (List.mem_cons_of_mem _ hx)
  have hsp : ∀ rows, spread l rows (0 : E) syn0 = syn0 := by
    intro rows
    funext r
    rw [spread_eq]
    simp
  refine ⟨fun h => ⟨?_, ?_⟩, fun h => ?_⟩
  · unfold sgNeg
    dsimp only
    rw [skip _ _ (fun o tl hs => by unfold sgDraw; exact if_pos hs) _ h, hsp]
  · unfold sgHs
    dsimp only
    rw [skip _ _ (fun o tl hs => by unfold hsBit; exact if_pos hs) _ h, hsp]
  · unfold cbowHs cbowSpread
    dsimp only
    rw [skip _ _ (fun o tl hs => by unfold hsBit; exact if_pos hs) _ h]
    cases cbowMean <;> simp [hsp]

/-! ## CBOW -/

theorem cbow_step [CompleteSpace E] (co : Bool → ℝ → ℝ) (e alpha : ℝ) (ha : 0 ≤ alpha) (he : 0 ≤ e)
    (mean : Bool) (l : Locks) (subwords : ℕ → List ℕ) (ts : List (ℕ × Bool)) (ctx : List ℕ) (hne : ctx ≠ [])
    (syn0 : Row → E) (v : ℕ → E) (hd : (ts.map Prod.fst).Nodup)
    (hc : ∀ tl ∈ ts, |co tl.2 ⟪cbowVec mean subwords ctx syn0, v tl.1⟫_ℝ
      - (num tl.2 - sigm ⟪cbowVec mean subwords ctx syn0, v tl.1⟫_ℝ)| ≤ e) :
    let o := ts.foldl (gen co alpha (cbowVec mean subwords ctx syn0)) { syn1 := v, work := 0 }
    let n : ℝ := (ctxRows subwords ctx).length
    (∀ r, NearStep ((ctxRows subwords ctx).count r * |rowLock l r| * (if mean then 1 else 1 / n)
          * (alpha * e * (ts.map fun tl => ‖v tl.1‖).sum))
        (rowLock l r * alpha * (if mean then n else 1 / n))
        (fun y => pairLoss ts (cbowVec mean subwords ctx (Function.update syn0 r y)) v) (syn0 r)
        (cbowSpread mean l subwords ctx o.work syn0 r)) ∧
      ∀ t, NearStep (alpha * e * ‖cbowVec mean subwords ctx syn0‖) alpha
        (fun y => pairLoss ts (cbowVec mean subwords ctx syn0) (Function.update v t y)) (v t)
        (o.syn1 t) := by
  obtain ⟨h1, h2⟩ := loop_near co e alpha ha he ts (cbowVec mean subwords ctx syn0) v hd hc
  dsimp only at h1 h2 ⊢
  refine ⟨?_, h2⟩
  intro r
  have hlen : 1 ≤ (ctxRows subwords ctx).length := by
    obtain ⟨w, rest, rfl⟩ := List.exists_cons_of_ne_nil hne
    simp only [ctxRows, rowsOf, List.flatMap_cons, List.length_append, List.length_cons]
    omega
  have hlen' : (1 : ℝ) ≤ (ctxRows subwords ctx).length := by exact_mod_cast hlen
  have hpos : (0 : ℝ) < (ctxRows subwords ctx).length := by linarith
  have hinv : invCount (ctxRows subwords ctx) = 1 / ((ctxRows subwords ctx).length : ℝ) := by
    unfold invCount
    have hbig : ((ctxRows subwords ctx).length : ℝ) > 0.5 := by norm_num; linarith
    rw [if_pos hbig]
  unfold cbowSpread
  cases mean with
  | true =>
    simp only [if_true, cbowVec] at h1 ⊢
    have := step_rows (1 / ((ctxRows subwords ctx).length : ℝ)) 1 alpha _ (by positivity) l
      (ctxRows subwords ctx) syn0 _ _ h1 r
    rw [one_smul] at this
    exact this.mono (le_of_eq (by simp)) (by simp) rfl
  | false =>
    simp only [cbowVec, Bool.false_eq_true, if_false, hinv] at h1 ⊢
    have := step_rows 1 (1 / ((ctxRows subwords ctx).length : ℝ)) alpha _ one_ne_zero l
      (ctxRows subwords ctx) syn0 (fun x => pairLoss ts x v) _ (by rw [one_smul]; exact h1) r
    refine this.mono (le_of_eq ?_) (by simp) (by funext y; rw [one_smul])
    rw [abs_of_pos (one_div_pos.2 hpos)]

/-- **C108.** A CBOW step with negative sampling (distinct samples, no saturation) is a step of gradient
descent for all output vectors.  For a row of the context (of a word or of an n-gram) it goes in the
direction of the gradient, but the step is too long by the number of rows if their mean is used, and too short
by this number if their sum is used.  All other rows stay as they are. -/
theorem C108_cbow_neg [CompleteSpace E] (alpha : ℝ) (ha : 0 ≤ alpha) (cbowMean : Bool) (l : Locks)
    (subwords : ℕ → List ℕ) (targets : List (ℕ × Bool)) (ctx : List ℕ) (hne : ctx ≠ []) (syn0 : Row → E)
    (syn1neg : ℕ → E) (hd : (targets.map Prod.fst).Nodup)
    (hr : ∀ tl ∈ targets, |⟪cbowVec cbowMean subwords ctx syn0, syn1neg tl.1⟫_ℝ| < 8) :
    let s := cbowNeg sigm alpha cbowMean l subwords targets ctx syn0 syn1neg
    let n : ℝ := (ctxRows subwords ctx).length
    (∀ r, GradientStep (rowLock l r * alpha * (if cbowMean then n else 1 / n))
        (fun y => pairLoss targets (cbowVec cbowMean subwords ctx (Function.update syn0 r y)) syn1neg)
        (syn0 r) (s.1 r)) ∧
      (∀ r, r ∉ ctxRows subwords ctx → s.1 r = syn0 r) ∧
      ∀ t, GradientStep alpha
        (fun y => pairLoss targets (cbowVec cbowMean subwords ctx syn0) (Function.update syn1neg t y))
        (syn1neg t) (s.2 t) := by
  obtain ⟨h1, h2⟩ := cbow_step (coClip sigm) 0 alpha ha le_rfl cbowMean l subwords targets ctx hne syn0
    syn1neg hd (by
      intro tl hm
      rw [clip_exact _ _ _ (hr tl hm)]
      simp)
  unfold cbowNeg
  dsimp only at h1 h2 ⊢
  rw [(C108_input cbowMean subwords 0 ctx syn0).2 hne, foldl_cbow]
  refine ⟨fun r => near_zero (by ring) (h1 r), ?_, fun t => near_zero (by ring) (h2 t)⟩
  intro r hr
  unfold cbowSpread
  rw [spread_eq, List.count_eq_zero.2 hr]
  simp

/-- **C108.** The same for hierarchical softmax. -/
theorem C108_cbow_hs [CompleteSpace E] (alpha : ℝ) (ha : 0 ≤ alpha) (cbowMean : Bool) (l : Locks)
    (subwords : ℕ → List ℕ) (path : List (ℕ × Bool)) (ctx : List ℕ) (hne : ctx ≠ []) (syn0 : Row → E)
    (syn1 : ℕ → E) (hd : (path.map Prod.fst).Nodup)
    (hr : ∀ pc ∈ path, |⟪cbowVec cbowMean subwords ctx syn0, syn1 pc.1⟫_ℝ| < 8) :
    let s := cbowHs sigm alpha cbowMean l subwords path ctx syn0 syn1
    let n : ℝ := (ctxRows subwords ctx).length
    (∀ r, GradientStep (rowLock l r * alpha * (if cbowMean then n else 1 / n))
        (fun y => pairLoss (labels path) (cbowVec cbowMean subwords ctx (Function.update syn0 r y)) syn1)
        (syn0 r) (s.1 r)) ∧
      (∀ r, r ∉ ctxRows subwords ctx → s.1 r = syn0 r) ∧
      ∀ t, GradientStep alpha
        (fun y => pairLoss (labels path) (cbowVec cbowMean subwords ctx syn0) (Function.update syn1 t y))
        (syn1 t) (s.2 t) := by
  obtain ⟨h1, h2⟩ := cbow_step (coSkip sigm) 0 alpha ha le_rfl cbowMean l subwords (labels path) ctx hne
    syn0 syn1 (by rw [labels_fst]; exact hd) (by
      intro tl hm
      obtain ⟨pc, hpc, rfl⟩ := List.mem_map.1 hm
      rw [skip_exact _ _ (hr pc hpc)]
      simp)
  unfold cbowHs
  dsimp only at h1 h2 ⊢
  rw [(C108_input cbowMean subwords 0 ctx syn0).2 hne, foldl_hs']
  refine ⟨fun r => near_zero (by ring) (h1 r), ?_, fun t => near_zero (by ring) (h2 t)⟩
  intro r hr
  unfold cbowSpread
  rw [spread_eq, List.count_eq_zero.2 hr]
  simp

/-- **C108.** CBOW with negative sampling, alone among the four, trains on saturated samples too: whatever the
scores, the step computed with the table differs from the one of `C108_cbow_neg` by at most alpha/128 times the
norms of the vectors involved. -/
theorem C108_cbow_neg_table [CompleteSpace E] (alpha : ℝ) (ha : 0 ≤ alpha) (cbowMean : Bool) (l : Locks)
    (subwords : ℕ → List ℕ) (targets : List (ℕ × Bool)) (ctx : List ℕ) (hne : ctx ≠ []) (syn0 : Row → E)
    (syn1neg : ℕ → E) (hd : (targets.map Prod.fst).Nodup) :
    let s := cbowNeg table alpha cbowMean l subwords targets ctx syn0 syn1neg
    let n : ℝ := (ctxRows subwords ctx).length
    (∀ r, NearStep ((ctxRows subwords ctx).count r * |rowLock l r| * (if cbowMean then 1 else 1 / n)
          * (alpha * (1 / 128) * (targets.map fun tl => ‖syn1neg tl.1‖).sum))
        (rowLock l r * alpha * (if cbowMean then n else 1 / n))
        (fun y => pairLoss targets (cbowVec cbowMean subwords ctx (Function.update syn0 r y)) syn1neg)
        (syn0 r) (s.1 r)) ∧
      ∀ t, NearStep (alpha * (1 / 128) * ‖cbowVec cbowMean subwords ctx syn0‖) alpha
        (fun y => pairLoss targets (cbowVec cbowMean subwords ctx syn0) (Function.update syn1neg t y))
        (syn1neg t) (s.2 t) := by
  have h := cbow_step (coClip table) (1 / 128) alpha ha (by norm_num) cbowMean l subwords targets ctx hne
    syn0 syn1neg hd (by
      intro tl hm
      exact clip_near table _ (by norm_num) (fun f hf => (C108_table f hf).2) _ _)
  unfold cbowNeg
  dsimp only at h ⊢
  rw [(C108_input cbowMean subwords 0 ctx syn0).2 hne, foldl_cbow]
  exact h

/-- **C108.** A saturated sample in CBOW with negative sampling: if the prediction is right nothing changes; if
it is wrong the output vector makes a full step of alpha times the input. -/
theorem C108_cbow_saturated (sig : ℝ → ℝ) (alpha : ℝ) (h : E) (o : Out E) (t : ℕ) (label : Bool)
    (hs : 8 ≤ |⟪h, o.syn1 t⟫_ℝ|) :
    ((label = true ↔ 0 < ⟪h, o.syn1 t⟫_ℝ) → cbowDraw sig alpha h o (t, label) = o) ∧
      (¬ (label = true ↔ 0 < ⟪h, o.syn1 t⟫_ℝ) →
        (cbowDraw sig alpha h o (t, label)).syn1 t
          = o.syn1 t + (if label then alpha else -alpha) • h) := by
  have hsat : ⟪h, o.syn1 t⟫_ℝ ≤ -8 ∨ 8 ≤ ⟪h, o.syn1 t⟫_ℝ := by
    rcases le_abs.1 hs with h | h
    · exact .inr h
    · exact .inl (by linarith)
  rcases hsat with hf | hf
  · have hn : ¬ 0 < ⟪h, o.syn1 t⟫_ℝ := by linarith
    constructor
    · intro hl
      have : label = false := by
        cases label with
        | false => rfl
        | true => exact absurd (hl.1 rfl) hn
      subst this
      unfold cbowDraw
      simp only [if_pos hf, Bool.false_eq_true, if_false, sub_self, zero_mul, push_zero]
    · intro hl
      have : label = true := by
        cases label with
        | true => rfl
        | false => exact absurd ⟨fun h => absurd h (by simp), fun h => absurd h hn⟩ hl
      subst this
      unfold cbowDraw push
      simp only [if_pos hf, if_true, sub_zero, one_mul, Function.update_self]
  · have hn : ¬ ⟪h, o.syn1 t⟫_ℝ ≤ -8 := by linarith
    have hp : 0 < ⟪h, o.syn1 t⟫_ℝ := by linarith
    constructor
    · intro hl
      have : label = true := hl.2 hp
      subst this
      unfold cbowDraw
      simp only [if_neg hn, if_pos hf, if_true, sub_self, zero_mul, push_zero]
    · intro hl
      have : label = false := by
        cases label with
        | false => rfl
        | true => exact absurd ⟨fun _ => hp, fun _ => rfl⟩ hl
      subst this
      unfold cbowDraw push
      simp only [if_neg hn, if_pos hf, Bool.false_eq_true, if_false, zero_sub, neg_mul, one_mul,
        Function.update_self]

/-- **C108.** A word without context trains nothing in CBOW. -/
theorem C108_no_context (sig : ℝ → ℝ) (alpha : ℝ) (cbowMean : Bool) (l : Locks) (subwords : ℕ → List ℕ)
    (targets : List (ℕ × Bool)) (syn0 : Row → E) (syn1 : ℕ → E) :
    cbowNeg sig alpha cbowMean l subwords targets [] syn0 syn1 = (syn0, syn1) ∧
      cbowHs sig alpha cbowMean l subwords targets [] syn0 syn1 = (syn0, syn1) := by
  have hin : cbowInput cbowMean subwords [] syn0 = 0 := by
    cases cbowMean <;> simp [cbowInput, ctxRows]
  have hloop : ∀ (co : Bool → ℝ → ℝ) (ts : List (ℕ × Bool)) (o : Out E),
      (ts.foldl (gen co alpha (0 : E)) o).syn1 = o.syn1 := by
    intro co ts
    induction ts with
    | nil => intro o; rfl
    | cons tl ts ih =>
      intro o
      rw [List.foldl_cons, ih]
      simp [gen, push]
  constructor
  · unfold cbowNeg
    dsimp only
    rw [hin, foldl_cbow, hloop]
    rfl
  · unfold cbowHs
    dsimp only
    rw [hin, foldl_hs', hloop]
    rfl

/-! ## A batch -/

/-- **C108.** With negative sampling, skip-gram trains on a pair as `sgNeg` does, the word in the middle being
the input and the other one, with draws different from it, the target; the tree is left alone. -/
theorem C108_pair (c : Config) (s : Net E) (middle other : ℕ) :
    (c.hs = false → 0 < c.negative →
      ∃ draws : List ℕ, other ∉ draws ∧ draws.length ≤ c.negative ∧
        let r := sgNeg c.sig c.alpha c.locks (subwords c) ((other, true) :: draws.map fun t => (t, false))
          middle s.syn0 s.syn1neg
        sgPair c s (middle, other)
          = ⟨r.1, s.syn1, r.2, (negatives c.cumTable other c.negative s.rand).2⟩) ∧
    (c.hs = true → c.negative = 0 →
      let r := sgHs c.sig c.alpha c.locks (subwords c) (c.path other) middle s.syn0 s.syn1
      sgPair c s (middle, other) = ⟨r.1, r.2, s.syn1neg, s.rand⟩) ∧
    (c.hs = true → sgPair c s (middle, other)
      = sgPair { c with hs := false } (sgPair { c with negative := 0 } s (middle, other))
          (middle, other)) := by
  refine ⟨?_, ?_, ?_⟩
  · intro hh hn
    obtain ⟨draws, h1, h2, h3⟩ := C82_targets c.cumTable c.negative other s.rand
    refine ⟨draws, h2, h3, ?_⟩
    dsimp only
    unfold sgPair
    simp only [hh, Bool.false_eq_true, if_false, if_pos hn, h1]
  · intro hh hn
    unfold sgPair
    simp [hh, hn]
  · intro hh
    unfold sgPair
    simp [hh]
    rfl

/-- **C108.** CBOW trains on a word as `cbowNeg` and `cbowHs` do, the word in the middle being the target and
the others the input. -/
theorem C108_word (c : Config) (s : Net E) (middle : ℕ) (others : List ℕ) :
    (c.hs = false → 0 < c.negative →
      ∃ draws : List ℕ, middle ∉ draws ∧ draws.length ≤ c.negative ∧
        let r := cbowNeg c.sig c.alpha c.cbowMean c.locks (subwords c)
          ((middle, true) :: draws.map fun t => (t, false)) others s.syn0 s.syn1neg
        cbowWord c s (middle, others)
          = ⟨r.1, s.syn1, r.2, (negatives c.cumTable middle c.negative s.rand).2⟩) ∧
    (c.hs = true → c.negative = 0 →
      let r := cbowHs c.sig c.alpha c.cbowMean c.locks (subwords c) (c.path middle) others s.syn0 s.syn1
      cbowWord c s (middle, others) = ⟨r.1, r.2, s.syn1neg, s.rand⟩) ∧
    (c.hs = true → cbowWord c s (middle, others)
      = cbowWord { c with hs := false } (cbowWord { c with negative := 0 } s (middle, others))
          (middle, others)) := by
  refine ⟨?_, ?_, ?_⟩
  · intro hh hn
    obtain ⟨draws, h1, h2, h3⟩ := C82_targets c.cumTable c.negative middle s.rand
    refine ⟨draws, h2, h3, ?_⟩
    dsimp only
    unfold cbowWord
    simp only [hh, Bool.false_eq_true, if_false, if_pos hn, h1]
  · intro hh hn
    unfold cbowWord
    simp [hh, hn]
  · intro hh
    unfold cbowWord
    simp [hh]
    rfl

/-- The other positions of the reduced window of position `i` in the sentence from `a` to `b`. -/
def others (window : ℕ) (reduced : ℕ → ℕ) (a b i : ℕ) : List ℕ :=
  (List.range' a (b - a)).filter fun j =>
    decide (j ≠ i ∧ j + reduced i ≤ i + window ∧ i + reduced i ≤ j + window)

/-- **C108.** A batch trains, sentence after sentence and position after position, the word there with the
words of its reduced window inside the sentence. -/
theorem C108_batch (c : Config) (window : ℕ) (reduced : ℕ → ℕ) (indexes : List ℕ) (a b : ℕ) (rest : List ℕ)
    (s : Net E) :
    train c window reduced indexes (a :: b :: rest) s
      = train c window reduced indexes (b :: rest)
          ((List.range' a (b - a)).foldl (fun s i =>
            let ws := (others window reduced a b i).map fun j => indexes.getD j 0
            if c.sg then ws.foldl (fun s w => sgPair c s (indexes.getD i 0, w)) s
            else cbowWord c s (indexes.getD i 0, ws)) s) := by
  unfold train others
  simp only [List.length_cons, Nat.add_sub_cancel]
  rw [List.range_succ_eq_map, List.foldl_cons, List.foldl_map]
  simp only [context_filter]
  rfl

theorem sgPair_syn0 (c : Config) (s : Net E) (p : ℕ × ℕ) (r : Row)
    (h : r ∉ rowsOf (subwords c) p.1 ∨ rowLock c.locks r = 0) : (sgPair c s p).syn0 r = s.syn0 r := by
  have step : ∀ (work : E) (syn0 : Row → E), spread c.locks (rowsOf (subwords c) p.1) work syn0 r = syn0 r := by
    intro work syn0
    rw [spread_eq]
    rcases h with h | h
    · rw [List.count_eq_zero.2 h]; simp
    · rw [h]; simp
  unfold sgPair
  dsimp only
  by_cases hh : c.hs = true <;> by_cases hn : c.negative > 0 <;>
    simp only [hh, hn, if_true, if_false, sgHs, sgNeg, Bool.false_eq_true, step]

theorem cbowWord_syn0 (c : Config) (s : Net E) (p : ℕ × List ℕ) (r : Row)
    (h : r ∉ ctxRows (subwords c) p.2 ∨ rowLock c.locks r = 0) : (cbowWord c s p).syn0 r = s.syn0 r := by
  have step : ∀ (work : E) (syn0 : Row → E),
      cbowSpread c.cbowMean c.locks (subwords c) p.2 work syn0 r = syn0 r := by
    intro work syn0
    unfold cbowSpread
    rw [spread_eq]
    rcases h with h | h
    · rw [List.count_eq_zero.2 h]; simp
    · rw [h]; simp
  unfold cbowWord
  dsimp only
  by_cases hh : c.hs = true <;> by_cases hn : c.negative > 0 <;>
    simp only [hh, hn, if_true, if_false, cbowHs, cbowNeg, Bool.false_eq_true, step]

theorem foldl_keeps {α : Type} (f : Net E → α → Net E) (r : Row) :
    ∀ (xs : List α), (∀ x ∈ xs, ∀ s, (f s x).syn0 r = s.syn0 r) → ∀ s, (xs.foldl f s).syn0 r = s.syn0 r := by
  intro xs
  induction xs with
  | nil => intro _ s; rfl
  | cons x xs ih =>
    intro h s
    rw [List.foldl_cons, ih (fun y hy => h y (List.mem_cons_of_mem _ hy)), h x List.mem_cons_self]

/-- **C108.** Training on a batch never changes a locked row, and changes only the rows of the words of the
batch and of their n-grams; without buckets no n-gram row changes. -/
theorem C108_frame (c : Config) (window : ℕ) (reduced : ℕ → ℕ) (indexes sidx : List ℕ) (s : Net E)
    (hs : ∀ n, sidx.getD n 0 ≤ indexes.length) (r : Row)
    (h : (∀ w ∈ indexes, r ∉ rowsOf (subwords c) w) ∨ rowLock c.locks r = 0) :
    (train c window reduced indexes sidx s).syn0 r = s.syn0 r := by
  have hget : ∀ i, i < indexes.length → indexes.getD i 0 ∈ indexes := by
    intro i hi
    rw [List.getD_eq_getElem?_getD, List.getElem?_eq_getElem hi, Option.getD_some]
    exact List.getElem_mem hi
  have hrow : ∀ w ∈ indexes, r ∉ rowsOf (subwords c) w ∨ rowLock c.locks r = 0 := by
    intro w hw
    rcases h with h | h
    · exact .inl (h w hw)
    · exact .inr h
  unfold train
  apply foldl_keeps
  intro n hn s
  apply foldl_keeps
  intro i hi s
  have hi' : i < indexes.length := by
    have := List.mem_range'_1.1 hi
    have := hs (n + 1)
    omega
  dsimp only
  split
  · apply foldl_keeps
    intro w hw s
    exact sgPair_syn0 c s _ r (hrow _ (hget i hi'))
  · apply cbowWord_syn0
    dsimp only
    rcases h with h | h
    · left
      intro hm
      obtain ⟨w, hw, hr⟩ := List.mem_flatMap.1 hm
      obtain ⟨j, hj, rfl⟩ := List.mem_map.1 hw
      rw [context_filter] at hj
      have h1 := List.mem_range'_1.1 (List.mem_filter.1 hj).1
      have h2 := hs (n + 1)
      exact h _ (hget j (by omega)) hr
    · exact .inr h

/-- **C108.** The lock factor of a row is its own entry in the array of the words or of the n-grams, or the
only entry if the array has one, as it has by default; so a word or an n-gram whose entry is zero keeps its
row, whatever the other array holds. -/
theorem C108_locks (l : Locks) (i : ℕ) :
    (∀ h : i < l.vocab.length, rowLock l (.word i) = l.vocab[i]) ∧
      (∀ h : i < l.ngrams.length, rowLock l (.gram i) = l.ngrams[i]) ∧
      (∀ x, l.vocab = [x] → rowLock l (.word i) = x) ∧
      (∀ x, l.ngrams = [x] → rowLock l (.gram i) = x) := by
  refine ⟨?_, ?_, ?_, ?_⟩
  · intro h
    simp [rowLock, Nat.mod_eq_of_lt h, h]
  · intro h
    simp [rowLock, Nat.mod_eq_of_lt h, h]
  · intro x h
    simp [rowLock, h, Nat.mod_one]
  · intro x h
    simp [rowLock, h, Nat.mod_one]

/-- Two words and three n-grams with factors of their own, and default factors. -/
example : rowLock ⟨[0, 1], [1, 0, 1]⟩ (.gram 1) = 0 ∧ rowLock ⟨[0, 1], [1, 0, 1]⟩ (.word 1) = 1 ∧
    rowLock ⟨[1], [1]⟩ (.gram 7) = 1 := by simp [rowLock]

/-- **C108.** Without buckets a word has no n-grams: skip-gram trains with the vector that is looked up, CBOW
with the mean (or sum) of the words' own rows, and no n-gram row changes. -/
theorem C108_no_buckets (c : Config) (hb : c.bucket = 0) (w : ℕ) (ctx : List ℕ) (syn0 : Row → E) (b : ℕ) :
    sgInput (subwords c) w syn0 = syn0 (.word w) ∧ lookedUp (subwords c) w syn0 = syn0 (.word w) ∧
      ctxRows (subwords c) ctx = ctx.map .word ∧ Row.gram b ∉ rowsOf (subwords c) w := by
  have h : ∀ w, subwords c w = [] := by
    intro w
    unfold subwords
    rw [if_neg (by simpa using hb)]
  refine ⟨?_, ?_, ?_, ?_⟩
  · simp [sgInput, h]
  · simp [lookedUp, rowSum, rowsOf, h]
  · unfold ctxRows
    induction ctx with
    | nil => rfl
    | cons x xs ih => rw [List.flatMap_cons, ih, List.map_cons]; simp [rowsOf, h]
  · simp [rowsOf, h]

/-- A case: a word with two n-grams in the same bucket, one sample. -/
example : ∃ syn0 : Row → ℝ, ∃ syn1 : ℕ → ℝ,
    (∀ tl ∈ [(1, true), (2, false)], |⟪sgVec (fun _ => [5, 5]) 0 syn0, syn1 tl.1⟫_ℝ| < 8) ∧
      sgVec (fun _ => [5, 5]) 0 syn0 = 7 / 2 ∧ lookedUp (fun _ => [5, 5]) 0 syn0 = 7 / 3 := by
  refine ⟨fun r => match r with | .word _ => 1 | .gram _ => 3, fun _ => 1, ?_, ?_, ?_⟩
  · intro tl _
    norm_num [sgVec, rowSum, rowsOf, abs_lt]
  · norm_num [sgVec, rowSum, rowsOf]
  · norm_num [lookedUp, rowSum, rowsOf]

/-- The length of a step: with lock factor 1, the row of an n-gram occurring twice in a word with two n-grams
moves by 2·work where the gradient is work: twice too far. -/
example (work : ℝ) : spread ⟨[1], [1]⟩ (rowsOf (fun _ => [5, 5]) 0) work (fun _ => 0) (.gram 5)
    = 2 * work := by
  rw [spread_eq]
  simp [rowsOf, rowLock]

end Verif.FtTrain

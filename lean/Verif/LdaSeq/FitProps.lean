import Verif.LdaSeq.FitModel
import Verif.LdaSeq.Kalman
import Mathlib.Analysis.SpecialFunctions.ExpDeriv
import Mathlib.Analysis.Calculus.Deriv.Pow
import Mathlib.Algebra.BigOperators.Field

/-!
# C132: fitting, constructing and showing dynamic topic models
-/

namespace Verif.LdaSeq

open Finset

variable {k V : ℕ}

/-! ## Specification -/

/-- The negative of the part of the bound that depends on one word's path of means `m`: the random walk prior of the
path, and the expected log probability of the word's counts with the normaliser `log (sum of exp)` replaced by its
tangent at `zeta`; `v` are the variances. -/
noncomputable def objective (cv : ℝ) (T : ℕ) (counts totals zeta v m : ℕ → ℝ) : ℝ :=
  m 0 ^ 2 / (2 * (1000 * cv)) + ∑ t ∈ range T, (m (t + 1) - m t) ^ 2 / (2 * cv)
    - ∑ t ∈ range T, (counts t * m (t + 1) - totals t * (Real.exp (m (t + 1) + v (t + 1) / 2) / zeta t))

/-- the observations with the one of slice `t` replaced -/
def setObs (x : ℕ → ℝ) (t : ℕ) (z : ℝ) : ℕ → ℝ := fun s => if s = t then z else x s

/-- `md t u` is the derivative of the mean of slice `u` by the observation of slice `t` -/
def ExactMtx (f : Fit) (mtx : ℕ → ℕ → ℝ) : Prop :=
  ∀ x t u, t < f.T → u ≤ f.T → ∀ z, postMean f.ov f.cv (setObs x t z) f.T u =
    postMean f.ov f.cv x f.T u + (z - x t) * mtx t u

/-! ## Lemmas -/

theorem setObs_eq (x : ℕ → ℝ) (t : ℕ) (z : ℝ) : setObs x t z = Function.update x t (x t + (z - x t)) := by
  funext s
  by_cases h : s = t
  · subst h; simp [setObs]
  · simp [setObs, h]

theorem exact_forward (f : Fit) (hov : 0 < f.ov) (hcv : 0 < f.cv) :
    ExactMtx f (fun t u => derivWith f.ov f.cv (fwdVar f.ov f.cv) t f.T u) := by
  intro x t u _ hu z
  rw [setObs_eq]
  exact C99_derivative_with_forward_variances hov hcv x t f.T (z - x t) u hu

theorem exact_unique (f : Fit) (m m' : ℕ → ℕ → ℝ) (h : ExactMtx f m) (h' : ExactMtx f m') (t u : ℕ) (ht : t < f.T)
    (hu : u ≤ f.T) : m t u = m' t u := by
  have a := h (fun _ => 0) t u ht hu 1
  have b := h' (fun _ => 0) t u ht hu 1
  rw [a] at b
  linarith

theorem fObsLoop_eq (f : Fit) (mean variance : ℕ → ℝ) (l : List ℕ) (acc : ℝ × ℝ) :
    fObsLoop f mean variance l acc =
      (acc.1 + (l.map fun u => (mean (u + 1) - mean u) ^ 2).sum,
       acc.2 + (l.map fun u => f.counts u * mean (u + 1) -
         f.totals u * (Real.exp (mean (u + 1) + variance (u + 1) / 2) / f.zeta u)).sum) := by
  induction l generalizing acc with
  | nil => simp [fObsLoop]
  | cons u l ih =>
    rw [fObsLoop, ih]
    simp only [List.map_cons, List.sum_cons, mul_div_assoc]
    ext <;> simp <;> ring

theorem obsDerivLoop_eq (f : Fit) (mean variance md : ℕ → ℝ) (l : List ℕ) (acc : ℝ × ℝ) :
    obsDerivLoop f mean variance md l acc =
      (acc.1 + (l.map fun u => (mean (u + 1) - mean u) * (md (u + 1) - md u)).sum,
       acc.2 + (l.map fun u => (f.counts u -
         f.totals u * (Real.exp (mean (u + 1) + variance (u + 1) / 2) / f.zeta u)) * md (u + 1)).sum) := by
  induction l generalizing acc with
  | nil => simp [obsDerivLoop]
  | cons u l ih =>
    rw [obsDerivLoop, ih]
    simp only [List.map_cons, List.sum_cons, mul_div_assoc]
    ext <;> simp <;> ring

theorem sum_list_range (n : ℕ) (g : ℕ → ℝ) : ((List.range n).map g).sum = ∑ t ∈ range n, g t := by
  induction n with
  | zero => simp
  | succ n ih => rw [List.range_succ, List.map_append, List.sum_append, ih, sum_range_succ]; simp

theorem dfObs_eq (f : Fit) (hcv : 0 < f.cv) (mtx : ℕ → ℕ → ℝ) (x : ℕ → ℝ) (t : ℕ) :
    dfObs f mtx x t =
      postMean f.ov f.cv x f.T 0 * mtx t 0 / (1000 * f.cv)
      + ∑ u ∈ range f.T, (postMean f.ov f.cv x f.T (u + 1) - postMean f.ov f.cv x f.T u) * (mtx t (u + 1) - mtx t u) / f.cv
      - ∑ u ∈ range f.T, (f.counts u - f.totals u *
          (Real.exp (postMean f.ov f.cv x f.T (u + 1) + postVar f.ov f.cv f.T (u + 1) / 2) / f.zeta u)) * mtx t (u + 1) := by
  unfold dfObs
  simp only [obsDerivLoop_eq, zero_add, sum_list_range, hcv.ne', ne_eq, not_false_eq_true, if_true]
  rw [← sum_div]
  ring

/-- The means are an affine function of the observations. -/
theorem fwdMean_affine (ov cv : ℝ) (hov : 0 < ov) (x y : ℕ → ℝ) (T t : ℕ) (ht : t ≤ T) :
    fwdMean ov cv y t = fwdMean ov cv x t + ∑ s ∈ range T, (y s - x s) * fwdDeriv ov cv (fwdVar ov cv) s t := by
  induction t with
  | zero => simp [fwdMean, fwdDeriv]
  | succ t ih =>
    simp only [fwdMean, fwdDeriv, hov, if_true, ih (by omega), mul_add, sum_add_distrib]
    have e : ∑ s ∈ range T, (y s - x s) * (if s = t then 1 - ov / (fwdVar ov cv t + cv + ov) else 0) =
        (y t - x t) * (1 - ov / (fwdVar ov cv t + cv + ov)) := by
      rw [sum_eq_single t]
      · simp
      · intro s _ hs; simp [hs]
      · intro h; exact absurd (mem_range.2 (by omega)) h
    have e2 : ∑ s ∈ range T, (y s - x s) * (ov / (fwdVar ov cv t + cv + ov) * fwdDeriv ov cv (fwdVar ov cv) s t) =
        ov / (fwdVar ov cv t + cv + ov) * ∑ s ∈ range T, (y s - x s) * fwdDeriv ov cv (fwdVar ov cv) s t := by
      rw [mul_sum]
      exact sum_congr rfl fun s _ => by ring
    rw [e, e2]
    ring

theorem postMean_affine (ov cv : ℝ) (hov : 0 < ov) (hcv : 0 < cv) (x y : ℕ → ℝ) (T : ℕ) : ∀ t ≤ T,
    postMean ov cv y T t = postMean ov cv x T t + ∑ s ∈ range T, (y s - x s) * derivWith ov cv (fwdVar ov cv) s T t := by
  refine down_induction ?_ ?_
  · rw [postMean_last, postMean_last, fwdMean_affine ov cv hov x y T T (le_refl _)]
    congr 1
    exact sum_congr rfl fun s _ => by rw [derivWith, if_neg (lt_irrefl _)]
  · intro t ht ih
    rw [postMean_step hcv _ ht, postMean_step hcv _ ht, ih, fwdMean_affine ov cv hov x y T t ht.le]
    have e : ∑ s ∈ range T, (y s - x s) * derivWith ov cv (fwdVar ov cv) s T t =
        cv / (fwdVar ov cv t + cv) * ∑ s ∈ range T, (y s - x s) * fwdDeriv ov cv (fwdVar ov cv) s t +
        (1 - cv / (fwdVar ov cv t + cv)) * ∑ s ∈ range T, (y s - x s) * derivWith ov cv (fwdVar ov cv) s T (t + 1) := by
      rw [mul_sum, mul_sum, ← sum_add_distrib]
      refine sum_congr rfl fun s _ => ?_
      rw [derivWith, if_pos ht]
      simp only [hcv.ne', if_false]
      ring
    rw [e]
    ring

/-! ## The objective and its gradient -/

/-- **C132.** The function handed to the optimiser is the objective at the posterior means for the observations tried. -/
theorem C132_objective (f : Fit) (hcv : 0 < f.cv) (x : ℕ → ℝ) :
    fObs f x = objective f.cv f.T f.counts f.totals f.zeta (postVar f.ov f.cv f.T) (postMean f.ov f.cv x f.T) := by
  unfold fObs objective
  simp only [fObsLoop_eq, zero_add, sum_list_range, hcv, if_true]
  rw [← sum_div]
  ring

/-- **C132.** With the derivatives of the means, `df_obs` is the gradient of `f_obs`. -/
theorem C132_gradient (f : Fit) (hcv : 0 < f.cv) (mtx : ℕ → ℕ → ℝ) (hm : ExactMtx f mtx) (x : ℕ → ℝ) (t : ℕ)
    (ht : t < f.T) : HasDerivAt (fun z => fObs f (setObs x t z)) (dfObs f mtx x t) (x t) := by
  have hmean : ∀ u ≤ f.T, HasDerivAt (fun z => postMean f.ov f.cv (setObs x t z) f.T u) (mtx t u) (x t) := by
    intro u hu
    have e : (fun z => postMean f.ov f.cv (setObs x t z) f.T u) = fun z => postMean f.ov f.cv x f.T u + (z - x t) * mtx t u :=
      funext fun z => hm x t u ht hu z
    rw [e]
    have := (((hasDerivAt_id (x t)).sub_const (x t)).mul_const (mtx t u)).const_add (postMean f.ov f.cv x f.T u)
    simpa using this
  have hself : setObs x t (x t) = x := by
    funext s
    by_cases h : s = t
    · subst h; simp [setObs]
    · simp [setObs, h]
  have e : (fun z => fObs f (setObs x t z)) = fun z => objective f.cv f.T f.counts f.totals f.zeta (postVar f.ov f.cv f.T)
      (postMean f.ov f.cv (setObs x t z) f.T) := funext fun z => C132_objective f hcv _
  rw [e, dfObs_eq f hcv]
  unfold objective
  apply HasDerivAt.fun_sub
  · apply HasDerivAt.fun_add
    · have h := ((hmean 0 (Nat.zero_le _)).fun_pow 2).div_const (2 * (1000 * f.cv))
      refine h.congr_deriv ?_
      simp only [hself]
      field_simp
      ring
    · apply HasDerivAt.fun_sum
      intro u hu
      have hu' := mem_range.1 hu
      have h := (((hmean (u + 1) (by omega)).fun_sub (hmean u (by omega))).fun_pow 2).div_const (2 * f.cv)
      refine h.congr_deriv ?_
      simp only [hself]
      field_simp
      ring
  · apply HasDerivAt.fun_sum
    intro u hu
    have hu' := mem_range.1 hu
    have h1 := (hmean (u + 1) (by omega)).const_mul (f.counts u)
    have h2 := ((((hmean (u + 1) (by omega)).add_const (postVar f.ov f.cv f.T (u + 1) / 2)).exp).div_const (f.zeta u)).const_mul (f.totals u)
    refine (h1.fun_sub h2).congr_deriv ?_
    simp only [hself]
    ring

/-- **C132.** The objective is convex: it lies above each of its tangents, so observations at which the gradient
vanishes minimise it. -/
theorem C132_convex (f : Fit) (hov : 0 < f.ov) (hcv : 0 < f.cv) (hN : ∀ t, 0 ≤ f.totals t) (hz : ∀ t, 0 < f.zeta t)
    (mtx : ℕ → ℕ → ℝ) (hm : ExactMtx f mtx) (x y : ℕ → ℝ) :
    fObs f x + ∑ t ∈ range f.T, (y t - x t) * dfObs f mtx x t ≤ fObs f y ∧
    ((∀ t < f.T, dfObs f mtx x t = 0) → fObs f x ≤ fObs f y) := by
  have key : fObs f x + ∑ t ∈ range f.T, (y t - x t) * dfObs f mtx x t ≤ fObs f y := by
    set mx := postMean f.ov f.cv x f.T with hmx
    set my := postMean f.ov f.cv y f.T with hmy
    set v := postVar f.ov f.cv f.T with hv
    -- the difference of the means
    have hd : ∀ u ≤ f.T, ∑ t ∈ range f.T, (y t - x t) * mtx t u = my u - mx u := by
      intro u hu
      rw [hmy, postMean_affine f.ov f.cv hov hcv x y f.T u hu, ← hmx]
      rw [add_sub_cancel_left]
      refine sum_congr rfl fun t ht => ?_
      rw [exact_unique f _ _ hm (exact_forward f hov hcv) t u (mem_range.1 ht) hu]
    have e : ∑ t ∈ range f.T, (y t - x t) * dfObs f mtx x t =
        mx 0 * (my 0 - mx 0) / (1000 * f.cv)
        + ∑ u ∈ range f.T, (mx (u + 1) - mx u) * ((my (u + 1) - mx (u + 1)) - (my u - mx u)) / f.cv
        - ∑ u ∈ range f.T, (f.counts u - f.totals u * (Real.exp (mx (u + 1) + v (u + 1) / 2) / f.zeta u)) *
            (my (u + 1) - mx (u + 1)) := by
      have e1 : ∑ t ∈ range f.T, (y t - x t) * dfObs f mtx x t = ∑ t ∈ range f.T,
          ((y t - x t) * mtx t 0 * (mx 0 / (1000 * f.cv))
          + ∑ u ∈ range f.T, ((y t - x t) * mtx t (u + 1) - (y t - x t) * mtx t u) * ((mx (u + 1) - mx u) / f.cv)
          - ∑ u ∈ range f.T, (y t - x t) * mtx t (u + 1) *
              (f.counts u - f.totals u * (Real.exp (mx (u + 1) + v (u + 1) / 2) / f.zeta u))) := by
        refine sum_congr rfl fun t _ => ?_
        rw [dfObs_eq f hcv, ← hmx, ← hv, mul_sub, mul_add, mul_sum, mul_sum]
        congr 1
        · congr 1
          · ring
          · exact sum_congr rfl fun u _ => by ring
        · exact sum_congr rfl fun u _ => by ring
      rw [e1, sum_sub_distrib, sum_add_distrib, ← sum_mul, hd 0 (Nat.zero_le _)]
      congr 1
      · congr 1
        · ring
        · rw [sum_comm]
          refine sum_congr rfl fun u hu => ?_
          have hu' := mem_range.1 hu
          rw [← sum_mul, sum_sub_distrib, hd (u + 1) (by omega), hd u (by omega)]
          ring
      · rw [sum_comm]
        refine sum_congr rfl fun u hu => ?_
        have hu' := mem_range.1 hu
        rw [← sum_mul, hd (u + 1) (by omega)]
        ring
    rw [e, C132_objective f hcv, C132_objective f hcv, ← hmx, ← hmy, ← hv]
    unfold objective
    have h0 : mx 0 ^ 2 / (2 * (1000 * f.cv)) + mx 0 * (my 0 - mx 0) / (1000 * f.cv) ≤ my 0 ^ 2 / (2 * (1000 * f.cv)) := by
      have : my 0 ^ 2 / (2 * (1000 * f.cv)) - (mx 0 ^ 2 / (2 * (1000 * f.cv)) + mx 0 * (my 0 - mx 0) / (1000 * f.cv)) =
          (my 0 - mx 0) ^ 2 / (2 * (1000 * f.cv)) := by field_simp; ring
      have h2 : 0 ≤ (my 0 - mx 0) ^ 2 / (2 * (1000 * f.cv)) := by positivity
      linarith
    have h1 : ∑ u ∈ range f.T, (mx (u + 1) - mx u) ^ 2 / (2 * f.cv) +
        ∑ u ∈ range f.T, (mx (u + 1) - mx u) * ((my (u + 1) - mx (u + 1)) - (my u - mx u)) / f.cv ≤
        ∑ u ∈ range f.T, (my (u + 1) - my u) ^ 2 / (2 * f.cv) := by
      rw [← sum_add_distrib]
      refine sum_le_sum fun u _ => ?_
      have : (my (u + 1) - my u) ^ 2 / (2 * f.cv) - ((mx (u + 1) - mx u) ^ 2 / (2 * f.cv) +
          (mx (u + 1) - mx u) * ((my (u + 1) - mx (u + 1)) - (my u - mx u)) / f.cv) =
          ((my (u + 1) - my u) - (mx (u + 1) - mx u)) ^ 2 / (2 * f.cv) := by field_simp; ring
      have h2 : 0 ≤ ((my (u + 1) - my u) - (mx (u + 1) - mx u)) ^ 2 / (2 * f.cv) := by positivity
      linarith
    have h2 : ∑ u ∈ range f.T, (f.counts u * my (u + 1) - f.totals u * (Real.exp (my (u + 1) + v (u + 1) / 2) / f.zeta u)) ≤
        ∑ u ∈ range f.T, (f.counts u * mx (u + 1) - f.totals u * (Real.exp (mx (u + 1) + v (u + 1) / 2) / f.zeta u)) +
        ∑ u ∈ range f.T, (f.counts u - f.totals u * (Real.exp (mx (u + 1) + v (u + 1) / 2) / f.zeta u)) *
            (my (u + 1) - mx (u + 1)) := by
      rw [← sum_add_distrib]
      refine sum_le_sum fun u _ => ?_
      have hexp : Real.exp (mx (u + 1) + v (u + 1) / 2) * (my (u + 1) - mx (u + 1) + 1) ≤ Real.exp (my (u + 1) + v (u + 1) / 2) := by
        have e2 : my (u + 1) + v (u + 1) / 2 = (mx (u + 1) + v (u + 1) / 2) + (my (u + 1) - mx (u + 1)) := by ring
        rw [e2, Real.exp_add (mx (u + 1) + v (u + 1) / 2)]
        exact mul_le_mul_of_nonneg_left (Real.add_one_le_exp _) (Real.exp_pos _).le
      have h3 := mul_le_mul_of_nonneg_left (div_le_div_of_nonneg_right hexp (hz u).le) (hN u)
      have e3 : f.totals u * (Real.exp (mx (u + 1) + v (u + 1) / 2) * (my (u + 1) - mx (u + 1) + 1) / f.zeta u) =
          f.totals u * (Real.exp (mx (u + 1) + v (u + 1) / 2) / f.zeta u) * (my (u + 1) - mx (u + 1)) +
          f.totals u * (Real.exp (mx (u + 1) + v (u + 1) / 2) / f.zeta u) := by ring
      rw [e3] at h3
      nlinarith
    linarith
  refine ⟨key, fun h => ?_⟩
  have : ∑ t ∈ range f.T, (y t - x t) * dfObs f mtx x t = 0 :=
    sum_eq_zero fun t ht => by rw [h t (mem_range.1 ht), mul_zero]
  linarith

/-- **C132.** The derivatives of the means exist: they are the recursion of `compute_mean_deriv` with the forward
variances. -/
theorem C132_exact_derivatives (f : Fit) (hov : 0 < f.ov) (hcv : 0 < f.cv) : ∃ mtx, ExactMtx f mtx :=
  ⟨_, exact_forward f hov hcv⟩

/-- **C132 (finding).** The matrix the code uses is not that of the derivatives, so what it hands to the optimiser is
not the gradient: at any observations, of two values of the newest count at least one gives a wrong derivative by
the newest observation. -/
theorem C132_wrong_gradient (f : Fit) (hov : 0 < f.ov) (hcv : 0 < f.cv) (n : ℕ) (hT : f.T = n + 1) (x : ℕ → ℝ)
    (c c' : ℝ) (hc : c ≠ c') :
    ¬ (∀ b ∈ [c, c'], HasDerivAt (fun z => fObs { f with counts := setObs f.counts n b } (setObs x n z))
        (dfObs { f with counts := setObs f.counts n b } (codeMtx f) x n) (x n)) := by
  intro h
  set F : ℝ → Fit := fun b => { f with counts := setObs f.counts n b } with hF
  set ex : ℕ → ℕ → ℝ := fun t u => derivWith f.ov f.cv (fwdVar f.ov f.cv) t f.T u with hex
  have hexact : ∀ b, ExactMtx (F b) ex := fun b => exact_forward (F b) hov hcv
  have heq : ∀ b ∈ [c, c'], dfObs (F b) (codeMtx f) x n = dfObs (F b) ex x n := fun b hb =>
    (h b hb).unique (C132_gradient (F b) hcv ex (hexact b) x n (by show n < f.T; omega))
  have hdiff : ∀ mtx : ℕ → ℕ → ℝ, dfObs (F c) mtx x n - dfObs (F c') mtx x n = -(c - c') * mtx n f.T := by
    intro mtx
    rw [dfObs_eq (F c) hcv, dfObs_eq (F c') hcv]
    have e : ∀ b, ∑ u ∈ range f.T, (setObs f.counts n b u - f.totals u *
        (Real.exp (postMean f.ov f.cv x f.T (u + 1) + postVar f.ov f.cv f.T (u + 1) / 2) / f.zeta u)) * mtx n (u + 1) =
        ∑ u ∈ range n, (f.counts u - f.totals u *
        (Real.exp (postMean f.ov f.cv x f.T (u + 1) + postVar f.ov f.cv f.T (u + 1) / 2) / f.zeta u)) * mtx n (u + 1) +
        (b - f.totals n * (Real.exp (postMean f.ov f.cv x f.T (n + 1) + postVar f.ov f.cv f.T (n + 1) / 2) / f.zeta n)) *
          mtx n (n + 1) := by
      intro b
      rw [hT, sum_range_succ, ← hT]
      congr 1
      · refine sum_congr rfl fun u hu => ?_
        have := mem_range.1 hu
        have hun : u ≠ n := by omega
        simp only [setObs, if_neg hun]
      · simp [setObs]
    simp only [hF]
    rw [e c, e c', hT]
    ring
  have h1 := hdiff (codeMtx f)
  have h2 := hdiff ex
  rw [heq c (by simp), heq c' (by simp), h2] at h1
  have h3 : ex n f.T = codeMtx f n f.T := mul_left_cancel₀ (neg_ne_zero.2 (sub_ne_zero.2 hc)) h1
  have h4 := C99_derivative_is_wrong hov hcv x n 1 one_pos
  rw [C99_derivative_with_forward_variances hov hcv x n (n + 1) 1 (n + 1) (le_refl _)] at h4
  simp only [hex, codeMtx, hT] at h3
  rw [h3] at h4
  exact lt_irrefl _ h4

/-! ## The constructor -/

/-- **C132.** A model is made from a corpus or a mapping; it has as many words as the mapping, or up to the largest
word id of the corpus. -/
theorem C132_construct (a : Args) (m : Made) (h : construct a = .ok m) :
    (a.corpus ≠ none ∨ a.id2word ≠ none) ∧
    (∀ n, a.id2word = some n → m.vocabLen = n) ∧
    (∀ c, a.id2word = none → a.corpus = some c → (∀ d ∈ c, ∀ e ∈ d, e.1 < m.vocabLen) ∧
      (0 < m.vocabLen → ∃ d ∈ c, ∃ e ∈ d, e.1 + 1 = m.vocabLen)) ∧
    (∃ l, a.timeSlice = some l ∧ m.slices = l.length) ∧
    (m.trained.isSome ↔ a.corpus.isSome) ∧
    (∀ s n, m.trained = some (s, n) → s = a.how ∧ ∀ c, a.corpus = some c → (∀ d ∈ c, d.length ≤ n) ∧ ∃ d ∈ c, d.length = n) := by
  have hmaxD : ∀ l : List ℕ, (∀ x ∈ l, x ≤ l.foldr max 0) ∧ (l ≠ [] → l.foldr max 0 ∈ l) := by
    intro l
    induction l with
    | nil => simp
    | cons x l ih =>
      refine ⟨?_, fun _ => ?_⟩
      · intro y hy
        rcases List.mem_cons.1 hy with rfl | hy
        · simp
        · have := ih.1 y hy
          simp [this]
      · simp only [List.foldr_cons]
        by_cases hl : l = []
        · subst hl; simp
        · rcases max_choice x (l.foldr max 0) with h | h
          · rw [h]; simp
          · rw [h]; exact List.mem_cons_of_mem _ (ih.2 hl)
  have hnum : ∀ c : List (List (ℕ × ℕ)), (∀ d ∈ c, ∀ e ∈ d, e.1 < numTerms c) ∧
      (0 < numTerms c → ∃ d ∈ c, ∃ e ∈ d, e.1 + 1 = numTerms c) := by
    intro c
    induction c with
    | nil => simp [numTerms]
    | cons d c ih =>
      obtain ⟨m1, m2⟩ := hmaxD (d.map fun e => e.1 + 1)
      refine ⟨?_, ?_⟩
      · intro d' hd' e he
        rw [numTerms]
        rcases List.mem_cons.1 hd' with rfl | hd'
        · have := m1 (e.1 + 1) (List.mem_map.2 ⟨e, he, rfl⟩)
          omega
        · have := ih.1 d' hd' e he
          omega
      · rw [numTerms]
        intro hp
        rcases max_choice ((d.map fun e => e.1 + 1).foldr max 0) (numTerms c) with h | h
        · rw [h] at hp ⊢
          have hne : d.map (fun e => e.1 + 1) ≠ [] := by
            intro h0
            rw [h0] at hp
            simp at hp
          obtain ⟨e, he, he'⟩ := List.mem_map.1 (m2 hne)
          exact ⟨d, by simp, e, he, he'⟩
        · rw [h] at hp ⊢
          obtain ⟨d', hd', e, he, he'⟩ := ih.2 hp
          exact ⟨d', by simp [hd'], e, he, he'⟩
  obtain ⟨corpus, id2word, timeSlice, how, lda, sstats, nt⟩ := a
  cases timeSlice with
  | none =>
    exfalso
    revert h
    unfold construct
    by_cases h0 : corpus = none ∧ id2word = none
    · simp only [h0.1, h0.2, and_self, if_true]; intro h; cases h
    · simp only [h0, if_false]; intro h; cases h
  | some l =>
    cases corpus with
    | none =>
      cases id2word with
      | none => unfold construct at h; simp only [and_self, if_true] at h; cases h
      | some n =>
        have : m = ⟨n, l.length, none⟩ := by
          unfold construct at h
          simp only [reduceCtorEq, and_false, if_false] at h
          cases h; rfl
        subst this
        simp
    | some c =>
      have hc : ∃ v, m = ⟨v, l.length, some (how, (c.map List.length).foldr max 0)⟩ ∧ c ≠ [] ∧
          v = vocabOf id2word c := by
        unfold construct at h
        simp only [reduceCtorEq, false_and, if_false] at h
        by_cases hcn : c = []
        · subst hcn; cases h
        · refine ⟨_, ?_, hcn, rfl⟩
          simp only [hcn, if_false] at h
          cases how with
          | gensim => cases h; cases id2word <;> rfl
          | ldamodel =>
            cases lda with
            | true => cases h; cases id2word <;> rfl
            | false => cases h
          | own =>
            cases sstats with
            | true => cases h; cases id2word <;> rfl
            | false => cases h
          | other => cases h
      obtain ⟨v, rfl, hne, rfl⟩ := hc
      refine ⟨by simp, ?_, ?_, ⟨l, rfl, rfl⟩, by simp, ?_⟩
      · intro n hn
        simp only at hn
        subst hn
        rfl
      · intro c' hn hc'
        simp only at hn
        subst hn
        cases hc'
        exact hnum c
      · intro s n hs
        cases hs
        refine ⟨rfl, ?_⟩
        intro c' hc'
        cases hc'
        obtain ⟨m1, m2⟩ := hmaxD (c.map List.length)
        refine ⟨fun d hd => m1 _ (List.mem_map.2 ⟨d, hd, rfl⟩), ?_⟩
        obtain ⟨d, hd, hd'⟩ := List.mem_map.1 (m2 (by simpa using hne))
        exact ⟨d, hd, hd'⟩

/-- **C132 (finding).** `time_slice` has the default `None`, and the constructor looks whether it is given, but a call
without it never succeeds; nor does one with an unknown way to initialise, or without the model or the statistics it
needs. -/
theorem C132_construct_fails (a : Args) :
    (a.timeSlice = none → a.corpus ≠ none ∨ a.id2word ≠ none → construct a = .error .typeError) ∧
    (a.corpus = none → a.id2word = none → construct a = .error .valueError) ∧
    ∀ l c, a.timeSlice = some l → a.corpus = some c →
      (c = [] → construct a = .error .valueError) ∧
      (c ≠ [] → a.how = .other → construct a = .error .attributeError) ∧
      (c ≠ [] → a.how = .ldamodel → a.lda = false → construct a = .error .attributeError) ∧
      (c ≠ [] → a.how = .own → a.sstats = false → construct a = .error .typeError) := by
  obtain ⟨corpus, id2word, timeSlice, how, lda, sstats, nt⟩ := a
  refine ⟨?_, ?_, ?_⟩
  · rintro rfl h
    have h0 : ¬ (corpus = none ∧ id2word = none) := by
      rintro ⟨rfl, rfl⟩
      simp at h
    unfold construct
    simp only [h0, if_false]
    rfl
  · rintro rfl rfl
    rfl
  · intro l c hl hc
    simp only at hl hc
    subst hl hc
    refine ⟨?_, ?_, ?_, ?_⟩
    · rintro rfl
      unfold construct
      simp only [reduceCtorEq, false_and, if_false]
      rfl
    · rintro hne rfl
      unfold construct
      simp only [reduceCtorEq, false_and, if_false, hne]
      rfl
    · rintro hne rfl rfl
      unfold construct
      simp only [reduceCtorEq, false_and, if_false, hne]
      rfl
    · rintro hne rfl rfl
      unfold construct
      simp only [reduceCtorEq, false_and, if_false, hne]
      rfl

/-! ## Showing the model -/

/-- the count of a word in a document -/
def countIn (w : ℕ) (doc : List (ℕ × ℕ)) : ℕ := ((doc.filter fun e => e.1 == w).map Prod.snd).sum

theorem foldl_freq (doc : List (ℕ × ℕ)) (f : ℕ → ℕ) (w : ℕ) :
    (doc.foldl (fun f e => Function.update f e.1 (f e.1 + e.2)) f) w = f w + countIn w doc := by
  induction doc generalizing f with
  | nil => simp [countIn]
  | cons e doc ih =>
    rw [List.foldl_cons, ih]
    by_cases h : e.1 = w
    · subst h; simp [countIn]; omega
    · simp [countIn, h, Function.update_of_ne (fun e' => h e'.symm)]

theorem visLoop_eq (n : ℕ) (docs : List (List (ℕ × ℕ))) (h : ∀ d ∈ docs, ∀ e ∈ d, e.1 < n) (lens : List ℕ) (f : ℕ → ℕ) :
    visLoop n docs lens f = some (lens ++ docs.map List.length, fun w => f w + (docs.map (countIn w)).sum) := by
  induction docs generalizing lens f with
  | nil => simp [visLoop]
  | cons d docs ih =>
    have hd : d.all (fun e => decide (e.1 < n)) = true := by
      rw [List.all_eq_true]
      intro e he
      simpa using h d (by simp) e he
    rw [visLoop, if_pos hd, ih (fun d' hd' => h d' (by simp [hd']))]
    simp only [List.append_assoc, List.map_cons, List.singleton_append, List.sum_cons, Option.some.injEq, Prod.mk.injEq, true_and]
    funext w
    rw [foldl_freq]
    omega

/-- **C132.** For a corpus within the vocabulary `dtm_vis` gives the frequency of every term in the corpus. -/
theorem C132_vis (n : ℕ) (docs : List (List (ℕ × ℕ))) (h : ∀ d ∈ docs, ∀ e ∈ d, e.1 < n) :
    ∃ lens freq, dtmVis n docs = some (lens, freq) ∧ (∀ w, freq w = (docs.map (countIn w)).sum) ∧
      lens.length = docs.length := by
  refine ⟨_, _, visLoop_eq n docs h [] fun _ => 0, ?_, by simp⟩
  intro w
  simp

/-- **C132 (finding).** What it gives as the lengths of the documents are the numbers of their entries: for documents
with positive counts the right lengths exactly if no word occurs twice in a document. -/
theorem C132_vis_lengths (n : ℕ) (docs : List (List (ℕ × ℕ))) (h : ∀ d ∈ docs, ∀ e ∈ d, e.1 < n ∧ 1 ≤ e.2)
    (lens : List ℕ) (freq : ℕ → ℕ) (hv : dtmVis n docs = some (lens, freq)) :
    lens = docs.map (fun d => (d.map Prod.snd).sum) ↔ ∀ d ∈ docs, ∀ e ∈ d, e.2 = 1 := by
  have e := visLoop_eq n docs (fun d hd e he => (h d hd e he).1) [] fun _ => 0
  unfold dtmVis at hv
  rw [hv] at e
  simp only [List.nil_append, Option.some.injEq, Prod.mk.injEq] at e
  rw [e.1]
  have one : ∀ d : List (ℕ × ℕ), (∀ e ∈ d, 1 ≤ e.2) → d.length ≤ (d.map Prod.snd).sum ∧
      (d.length = (d.map Prod.snd).sum ↔ ∀ e ∈ d, e.2 = 1) := by
    intro d
    induction d with
    | nil => simp
    | cons x d ih =>
      intro hd
      have h1 := hd x (by simp)
      obtain ⟨h2, h3⟩ := ih fun e he => hd e (by simp [he])
      simp only [List.length_cons, List.map_cons, List.sum_cons, List.forall_mem_cons]
      refine ⟨by omega, ?_, ?_⟩
      · intro he
        exact ⟨by omega, h3.1 (by omega)⟩
      · rintro ⟨h4, h5⟩
        have := h3.2 h5
        omega
  rw [List.map_inj_left]
  exact forall_congr' fun d => ⟨fun hh hd => (one d fun e he => (h d hd e he).2).2.1 (hh hd),
    fun hh hd => (one d fun e he => (h d hd e he).2).2.2 (hh hd)⟩

/-- **C132.** `dtm_coherence` gives the words of every topic in the order of `print_topic`. -/
theorem C132_coherence (srt : List ℝ → List ℕ) (part : List ℝ → ℕ → List ℕ) (chains : List (Chain V)) (time : ℕ) :
    dtmCoherence srt part chains time = chains.map fun c => (printTopic srt part c time 20).map Prod.fst := by
  have h1 : ∀ (l : List (ℕ × ℝ)) (acc : List ℕ), l.foldl (fun ws e => ws ++ [e.1]) acc = acc ++ l.map Prod.fst := by
    intro l
    induction l with
    | nil => simp
    | cons x l ih => intro acc; rw [List.foldl_cons, ih]; simp
  have h2 : ∀ (l : List (List (ℕ × ℝ))) (acc : List (List ℕ)), l.foldl (fun acc topic =>
      acc ++ [topic.foldl (fun ws e => ws ++ [e.1]) []]) acc = acc ++ l.map fun t => t.map Prod.fst := by
    intro l
    induction l with
    | nil => simp
    | cons x l ih => intro acc; rw [List.foldl_cons, ih, h1]; simp
  unfold dtmCoherence
  rw [h2]
  simp [Function.comp_def]

/-! ## Cases -/

/-- a fit that meets the hypotheses: two slices -/
noncomputable def fitCase : Fit := ⟨1 / 2, 1 / 200, 2, fun t => t + 1, fun _ => 10, fun _ => 3⟩

example : 0 < fitCase.ov ∧ 0 < fitCase.cv ∧ (∀ t, 0 ≤ fitCase.totals t) ∧ (∀ t, 0 < fitCase.zeta t) ∧ fitCase.T = 1 + 1 := by
  refine ⟨?_, ?_, fun _ => ?_, fun _ => ?_, rfl⟩ <;> norm_num [fitCase]

example : construct ⟨some [[(0, 2), (3, 1)], [(1, 1)]], none, some [1, 1], .gensim, false, false, 2⟩ =
    .ok ⟨4, 2, some (.gensim, 2)⟩ := rfl

example : ∃ f, dtmVis 4 [[(0, 2), (3, 1)], [(1, 1)]] = some ([2, 1], f) ∧ f 0 = 2 := ⟨_, rfl, rfl⟩

end Verif.LdaSeq

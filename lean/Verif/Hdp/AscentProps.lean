import Verif.Hdp.Props
import Verif.Lda.EmProps

/-!
# C165: inference on a training document of an HDP model ascends
-/

namespace Verif.Hdp

open Verif.Dirichlet

variable {n m : ℕ} {N : ℕ}

/-! ## Specification -/

/-- the variational bound of a document with counts `c`: every occurrence of a word has its own topic assignment, so
the assignments' part is weighted by the counts, as the words' part is -/
noncomputable def bound (alpha : ℝ) (sticks1st : Fin (n + 1) → ℝ) (E : Fin (n + 1) → Fin N → ℝ) (c : Fin N → ℝ)
    (s : ES n m N) : ℝ :=
  (∑ k, ∑ t, s.varPhi k t * (sticks1st t - Real.log (s.varPhi k t)))
    + (m * Real.log alpha + ∑ k : Fin m, ((1 - s.v0 k) * (psi (s.v0 k) - psi (s.v0 k + s.v1 k))
      + (alpha - s.v1 k) * (psi (s.v1 k) - psi (s.v0 k + s.v1 k)) + logBeta (s.v0 k) (s.v1 k)))
    + ∑ i, c i * ∑ k, s.phi i k * (expectLogSticks psi s.v0 s.v1 k - Real.log (s.phi i k)
      + ∑ t, s.varPhi k t * E t i)

/-- the settings use the digamma and log-gamma functions, and a positive concentration -/
structure RealCfg (cfg : Cfg) : Prop where
  psi : cfg.psi = Dirichlet.psi
  gammaln : cfg.gammaln = fun x => Real.log (Real.Gamma x)
  alpha : 0 < cfg.alpha

/-- the variables of a document after a turn: distributions, their logarithms and the sticks that go with them -/
structure Turned (cfg : Cfg) (s : ES n m N) : Prop where
  varPhi : ∀ k t, s.varPhi k t = Real.exp (s.logVarPhi k t)
  varPhiSum : ∀ k, ∑ t, s.varPhi k t = 1
  phi : ∀ i k, s.phi i k = Real.exp (s.logPhi i k)
  phiSum : ∀ i, ∑ k, s.phi i k = 1
  v0 : ∀ k, 0 < s.v0 k
  v1 : ∀ k, 0 < s.v1 k
  sticks : s.sticks2 = expectLogSticks cfg.psi s.v0 s.v1

/-! ## Lemmas -/

theorem logNormalize_eq {k : ℕ} (v : Fin (k + 1) → ℝ) (i : Fin (k + 1)) :
    logNormalize v i = v i - Real.log (∑ j, Real.exp (v j)) := by
  unfold logNormalize
  generalize 100 - Real.log ((k + 1 : ℕ) + 1) - Finset.univ.sup' Finset.univ_nonempty v = shift
  have e : ∑ j, Real.exp (v j + shift) = (∑ j, Real.exp (v j)) * Real.exp shift := by
    rw [Finset.sum_mul]
    exact Finset.sum_congr rfl fun j _ => Real.exp_add _ _
  have hpos : 0 < ∑ j, Real.exp (v j) := Finset.sum_pos (fun j _ => Real.exp_pos _) Finset.univ_nonempty
  rw [e, Real.log_mul hpos.ne' (Real.exp_pos _).ne', Real.log_exp]
  ring

/-- no distribution does better than the normalised exponentials -/
theorem gibbs {k : ℕ} (v l : Fin (k + 1) → ℝ) (hl : ∑ i, Real.exp (l i) = 1) :
    ∑ i, Real.exp (l i) * (v i - l i) ≤
      ∑ i, Real.exp (logNormalize v i) * (v i - logNormalize v i) := by
  have h := LdaEm.log_sum_tangent (fun i => Real.exp (l i)) (fun i => v i - l i) (fun i => Real.exp_pos _) 0 le_rfl
  simp only [hl, add_zero, Real.log_one, zero_add, div_one] at h
  have e1 : ∀ i, Real.exp (l i) * Real.exp (v i - l i) = Real.exp (v i) := by
    intro i; rw [← Real.exp_add]; congr 1; ring
  simp only [e1] at h
  refine h.trans (le_of_eq ?_)
  have e2 : ∀ i, Real.exp (logNormalize v i) * (v i - logNormalize v i) =
      Real.exp (logNormalize v i) * Real.log (∑ j, Real.exp (v j)) := by
    intro i
    rw [logNormalize_eq]; ring
  simp only [e2]
  rw [← Finset.sum_mul, sum_exp_logNormalize, one_mul]

/-- expected log weights of sticks, weighted by `a`: stick by stick -/
theorem sum_sticks (f : ℝ → ℝ) (v0 v1 : Fin m → ℝ) (a : Fin (m + 1) → ℝ) :
    ∑ t, a t * expectLogSticks f v0 v1 t = ∑ k : Fin m, (a k.castSucc * (f (v0 k) - f (v0 k + v1 k))
      + (∑ j : Fin m, if k ≤ j then a j.succ else 0) * (f (v1 k) - f (v0 k + v1 k))) := by
  unfold expectLogSticks
  simp only [mul_add, Finset.sum_add_distrib]
  congr 1
  · rw [Fin.sum_univ_castSucc]
    simp
  · have : ∀ t : Fin (m + 1), a t * ∑ j : Fin m, (if j.val < t.val then f (v1 j) - f (v0 j + v1 j) else 0) =
        ∑ j : Fin m, (if j.val < t.val then a t else 0) * (f (v1 j) - f (v0 j + v1 j)) := by
      intro t
      rw [Finset.mul_sum]
      refine Finset.sum_congr rfl fun j _ => ?_
      split <;> ring
    simp only [this]
    rw [Finset.sum_comm]
    refine Finset.sum_congr rfl fun k _ => ?_
    rw [← Finset.sum_mul]
    congr 1
    rw [Fin.sum_univ_succ]
    simp only [Fin.val_zero, Nat.not_lt_zero, if_false, zero_add, Fin.val_succ]
    refine Finset.sum_congr rfl fun j _ => ?_
    simp only [Nat.lt_succ_iff, Fin.le_def]

theorem turned (cfg : Cfg) (hcfg : RealCfg cfg) (sticks1st : Fin (n + 1) → ℝ) (E : Fin (n + 1) → Fin N → ℝ)
    (c : Fin N → ℝ) (hc : ∀ i, 0 ≤ c i) (iter : ℕ) (s : ES n m N) : Turned cfg (eTurn cfg sticks1st E c iter s) := by
  refine ⟨fun _ _ => rfl, fun _ => sum_exp_logNormalize _, fun _ _ => rfl, fun _ => sum_exp_logNormalize _, ?_, ?_, rfl⟩
  · intro k
    exact add_pos_of_pos_of_nonneg one_pos (Finset.sum_nonneg fun i _ => mul_nonneg (Real.exp_pos _).le (hc i))
  · intro k
    refine add_pos_of_pos_of_nonneg hcfg.alpha (Finset.sum_nonneg fun j _ => ?_)
    split
    · exact Finset.sum_nonneg fun i _ => mul_nonneg (Real.exp_pos _).le (hc i)
    · exact le_rfl

/-- the parts of the bound that depend on the assignments of topics to the document's tables -/
theorem bound_tables (alpha : ℝ) (sticks1st : Fin (n + 1) → ℝ) (E : Fin (n + 1) → Fin N → ℝ) (c : Fin N → ℝ)
    (s : ES n m N) : bound alpha sticks1st E c s =
      (∑ k, ∑ t, s.varPhi k t * ((∑ i, s.phi i k * (E t i * c i)) + sticks1st t - Real.log (s.varPhi k t)))
      + (m * Real.log alpha + ∑ k : Fin m, ((1 - s.v0 k) * (psi (s.v0 k) - psi (s.v0 k + s.v1 k))
        + (alpha - s.v1 k) * (psi (s.v1 k) - psi (s.v0 k + s.v1 k)) + logBeta (s.v0 k) (s.v1 k)))
      + ∑ i, c i * ∑ k, s.phi i k * (expectLogSticks psi s.v0 s.v1 k - Real.log (s.phi i k)) := by
  unfold bound
  have e1 : ∑ i, c i * ∑ k, s.phi i k * (expectLogSticks psi s.v0 s.v1 k - Real.log (s.phi i k)
      + ∑ t, s.varPhi k t * E t i) =
      ∑ i, c i * ∑ k, s.phi i k * (expectLogSticks psi s.v0 s.v1 k - Real.log (s.phi i k))
      + ∑ i, c i * ∑ k, s.phi i k * ∑ t, s.varPhi k t * E t i := by
    simp only [mul_add, Finset.sum_add_distrib]
  have e2 : ∑ i, c i * ∑ k, s.phi i k * ∑ t, s.varPhi k t * E t i =
      ∑ k, ∑ t, s.varPhi k t * ∑ i, s.phi i k * (E t i * c i) := by
    simp only [Finset.mul_sum]
    rw [Finset.sum_comm]
    refine Finset.sum_congr rfl fun k _ => ?_
    rw [Finset.sum_comm]
    refine Finset.sum_congr rfl fun t _ => Finset.sum_congr rfl fun i _ => by ring
  have e3 : ∑ k, ∑ t, s.varPhi k t * ((∑ i, s.phi i k * (E t i * c i)) + sticks1st t - Real.log (s.varPhi k t)) =
      ∑ k, ∑ t, s.varPhi k t * (sticks1st t - Real.log (s.varPhi k t))
      + ∑ k, ∑ t, s.varPhi k t * ∑ i, s.phi i k * (E t i * c i) := by
    rw [← Finset.sum_add_distrib]
    refine Finset.sum_congr rfl fun k _ => ?_
    rw [← Finset.sum_add_distrib]
    exact Finset.sum_congr rfl fun t _ => by ring
  rw [e1, e2, e3]
  ring

/-- the parts of the bound that depend on the sticks -/
theorem bound_sticks (alpha : ℝ) (sticks1st : Fin (n + 1) → ℝ) (E : Fin (n + 1) → Fin N → ℝ) (c : Fin N → ℝ)
    (s : ES n m N) : bound alpha sticks1st E c s =
      (∑ k, ∑ t, s.varPhi k t * (sticks1st t - Real.log (s.varPhi k t))) + m * Real.log alpha
      + (∑ k : Fin m, ((1 + ∑ i, s.phi i k.castSucc * c i - s.v0 k) * (psi (s.v0 k) - psi (s.v0 k + s.v1 k))
        + (alpha + (∑ j : Fin m, if k ≤ j then ∑ i, s.phi i j.succ * c i else 0) - s.v1 k) *
          (psi (s.v1 k) - psi (s.v0 k + s.v1 k)) + logBeta (s.v0 k) (s.v1 k)))
      + ∑ i, c i * ∑ k, s.phi i k * (∑ t, s.varPhi k t * E t i - Real.log (s.phi i k)) := by
  unfold bound
  have e1 : ∑ i, c i * ∑ k, s.phi i k * (expectLogSticks psi s.v0 s.v1 k - Real.log (s.phi i k)
      + ∑ t, s.varPhi k t * E t i) =
      ∑ i, c i * ∑ k, s.phi i k * (∑ t, s.varPhi k t * E t i - Real.log (s.phi i k))
      + ∑ k, (∑ i, s.phi i k * c i) * expectLogSticks psi s.v0 s.v1 k := by
    have : ∑ k, (∑ i, s.phi i k * c i) * expectLogSticks psi s.v0 s.v1 k =
        ∑ i, c i * ∑ k, s.phi i k * expectLogSticks psi s.v0 s.v1 k := by
      simp only [Finset.sum_mul, Finset.mul_sum]
      rw [Finset.sum_comm]
      exact Finset.sum_congr rfl fun i _ => Finset.sum_congr rfl fun k _ => by ring
    rw [this, ← Finset.sum_add_distrib]
    refine Finset.sum_congr rfl fun i _ => ?_
    rw [← mul_add, ← Finset.sum_add_distrib]
    congr 1
    exact Finset.sum_congr rfl fun k _ => by ring
  rw [e1, sum_sticks]
  have e2 : ∀ (x y : Fin m → ℝ), ∑ k, x k + ∑ k, y k = ∑ k, (x k + y k) := fun x y => Finset.sum_add_distrib.symm
  have e3 : ∑ k : Fin m, ((1 - s.v0 k) * (psi (s.v0 k) - psi (s.v0 k + s.v1 k))
        + (alpha - s.v1 k) * (psi (s.v1 k) - psi (s.v0 k + s.v1 k)) + logBeta (s.v0 k) (s.v1 k))
      + ∑ k : Fin m, ((∑ i, s.phi i k.castSucc * c i) * (psi (s.v0 k) - psi (s.v0 k + s.v1 k))
        + (∑ j : Fin m, if k ≤ j then ∑ i, s.phi i j.succ * c i else 0) * (psi (s.v1 k) - psi (s.v0 k + s.v1 k)))
      = ∑ k : Fin m, ((1 + ∑ i, s.phi i k.castSucc * c i - s.v0 k) * (psi (s.v0 k) - psi (s.v0 k + s.v1 k))
        + (alpha + (∑ j : Fin m, if k ≤ j then ∑ i, s.phi i j.succ * c i else 0) - s.v1 k) *
          (psi (s.v1 k) - psi (s.v0 k + s.v1 k)) + logBeta (s.v0 k) (s.v1 k)) := by
    rw [e2]
    exact Finset.sum_congr rfl fun k _ => by ring
  rw [← e3]
  ring

/-! ## C165 -/

/-- **C165 (a turn ascends).** From its fourth turn on, inference on a training document never lowers the bound of the
document, whatever its counts, the topics and the top level sticks. -/
theorem C165_turn (cfg : Cfg) (hcfg : RealCfg cfg) (sticks1st : Fin (n + 1) → ℝ) (E : Fin (n + 1) → Fin N → ℝ)
    (c : Fin N → ℝ) (hc : ∀ i, 0 ≤ c i) (iter : ℕ) (hi : 3 ≤ iter) (s : ES n m N) (hs : Turned cfg s) :
    bound cfg.alpha sticks1st E c s ≤ bound cfg.alpha sticks1st E c (eTurn cfg sticks1st E c iter s) := by
  have hi' : ¬ iter < 3 := by omega
  set s' := eTurn cfg sticks1st E c iter s with hs'
  have ht := turned cfg hcfg sticks1st E c hc iter s
  rw [← hs'] at ht
  -- topics of tables
  let s1 : ES n m N := { s with varPhi := s'.varPhi }
  have b1 : bound cfg.alpha sticks1st E c s ≤ bound cfg.alpha sticks1st E c s1 := by
    rw [bound_tables, bound_tables]
    have : ∑ k, ∑ t, s.varPhi k t * ((∑ i, s.phi i k * (E t i * c i)) + sticks1st t - Real.log (s.varPhi k t)) ≤
        ∑ k, ∑ t, s1.varPhi k t * ((∑ i, s1.phi i k * (E t i * c i)) + sticks1st t - Real.log (s1.varPhi k t)) := by
      refine Finset.sum_le_sum fun k _ => ?_
      have h := gibbs (fun t => (∑ i, s.phi i k * (E t i * c i)) + sticks1st t) (s.logVarPhi k) (by
        simp only [← hs.varPhi]; exact hs.varPhiSum k)
      have e : s'.logVarPhi k = logNormalize fun t => (∑ i, s.phi i k * (E t i * c i)) + sticks1st t := by
        rw [hs']; simp only [eTurn, hi', if_false]
      rw [← e] at h
      simp only [s1, ht.varPhi, hs.varPhi, Real.log_exp]
      exact h
    have e0 : s1.v0 = s.v0 := rfl
    have e1 : s1.v1 = s.v1 := rfl
    have e2 : s1.phi = s.phi := rfl
    rw [e0, e1, e2] at *
    linarith
  -- tables of words
  let s2 : ES n m N := { s1 with phi := s'.phi }
  have b2 : bound cfg.alpha sticks1st E c s1 ≤ bound cfg.alpha sticks1st E c s2 := by
    unfold bound
    have : ∑ i, c i * ∑ k, s1.phi i k * (expectLogSticks psi s1.v0 s1.v1 k - Real.log (s1.phi i k)
        + ∑ t, s1.varPhi k t * E t i) ≤ ∑ i, c i * ∑ k, s2.phi i k * (expectLogSticks psi s2.v0 s2.v1 k
        - Real.log (s2.phi i k) + ∑ t, s2.varPhi k t * E t i) := by
      refine Finset.sum_le_sum fun i _ => mul_le_mul_of_nonneg_left ?_ (hc i)
      have h := gibbs (fun k => (∑ t, s'.varPhi k t * E t i) + s.sticks2 k) (s.logPhi i) (by
        simp only [← hs.phi]; exact hs.phiSum i)
      have e : s'.logPhi i = logNormalize fun k => (∑ t, s'.varPhi k t * E t i) + s.sticks2 k := by
        rw [hs']; simp only [eTurn, hi', if_false]
      rw [← e] at h
      have e2 : ∀ k, expectLogSticks psi s.v0 s.v1 k = s.sticks2 k := by
        intro k; rw [hs.sticks, hcfg.psi]
      simp only [s2, s1, ht.phi, hs.phi, Real.log_exp, e2]
      refine le_trans (le_of_eq ?_) (h.trans (le_of_eq ?_))
      · exact Finset.sum_congr rfl fun k _ => by ring
      · exact Finset.sum_congr rfl fun k _ => by ring
    linarith
  -- sticks
  have b3 : bound cfg.alpha sticks1st E c s2 ≤ bound cfg.alpha sticks1st E c s' := by
    rw [bound_sticks, bound_sticks]
    have : ∑ k : Fin m, ((1 + ∑ i, s2.phi i k.castSucc * c i - s2.v0 k) * (psi (s2.v0 k) - psi (s2.v0 k + s2.v1 k))
        + (cfg.alpha + (∑ j : Fin m, if k ≤ j then ∑ i, s2.phi i j.succ * c i else 0) - s2.v1 k) *
          (psi (s2.v1 k) - psi (s2.v0 k + s2.v1 k)) + logBeta (s2.v0 k) (s2.v1 k)) ≤
        ∑ k : Fin m, ((1 + ∑ i, s'.phi i k.castSucc * c i - s'.v0 k) * (psi (s'.v0 k) - psi (s'.v0 k + s'.v1 k))
        + (cfg.alpha + (∑ j : Fin m, if k ≤ j then ∑ i, s'.phi i j.succ * c i else 0) - s'.v1 k) *
          (psi (s'.v1 k) - psi (s'.v0 k + s'.v1 k)) + logBeta (s'.v0 k) (s'.v1 k)) := by
      refine Finset.sum_le_sum fun k _ => ?_
      have e1 : s'.v0 k = 1 + ∑ i, s'.phi i k.castSucc * c i := rfl
      have e2 : s'.v1 k = cfg.alpha + ∑ j : Fin m, if k ≤ j then ∑ i, s'.phi i j.succ * c i else 0 := rfl
      have h := logBeta_tangent (hs.v0 k) (hs.v1 k) (ht.v0 k) (ht.v1 k)
      have e3 : s2.phi = s'.phi := rfl
      have e4 : s2.v0 = s.v0 := rfl
      have e5 : s2.v1 = s.v1 := rfl
      rw [e3, e4, e5, ← e1, ← e2]
      linarith
    have e1 : s2.phi = s'.phi := rfl
    have e2 : s2.varPhi = s'.varPhi := rfl
    rw [e1, e2] at *
    linarith
  exact b1.trans (b2.trans b3)

/-- the likelihood of a turn, in terms of the bound -/
theorem C165_likelihood (cfg : Cfg) (hcfg : RealCfg cfg) (sticks1st : Fin (n + 1) → ℝ) (E : Fin (n + 1) → Fin N → ℝ)
    (c : Fin N → ℝ) (hc : ∀ i, 0 ≤ c i) (iter : ℕ) (s : ES n m N) :
    let s' := eTurn cfg sticks1st E c iter s
    s'.likelihood = bound cfg.alpha sticks1st E c s' +
      ∑ i, (1 - c i) * ∑ k, s'.phi i k * (expectLogSticks psi s'.v0 s'.v1 k - Real.log (s'.phi i k)) := by
  intro s'
  have ht : Turned cfg s' := turned cfg hcfg sticks1st E c hc iter s
  have e : s'.likelihood = likelihood cfg sticks1st E c s'.logVarPhi s'.varPhi s'.logPhi s'.phi s'.v0 s'.v1 s'.sticks2 := rfl
  rw [e, bound_tables]
  unfold likelihood
  rw [ht.sticks, hcfg.psi, hcfg.gammaln]
  have a1 : ∑ k, ∑ t, s'.varPhi k t * ((∑ i, s'.phi i k * (E t i * c i)) + sticks1st t - Real.log (s'.varPhi k t)) =
      ∑ k, ∑ t, (sticks1st t - s'.logVarPhi k t) * s'.varPhi k t
      + ∑ i, ∑ k, s'.phi i k * ∑ t, s'.varPhi k t * (E t i * c i) := by
    have : ∑ i, ∑ k, s'.phi i k * ∑ t, s'.varPhi k t * (E t i * c i) =
        ∑ k, ∑ t, s'.varPhi k t * ∑ i, s'.phi i k * (E t i * c i) := by
      simp only [Finset.mul_sum]
      rw [Finset.sum_comm]
      refine Finset.sum_congr rfl fun k _ => ?_
      rw [Finset.sum_comm]
      refine Finset.sum_congr rfl fun t _ => Finset.sum_congr rfl fun i _ => by ring
    rw [this, ← Finset.sum_add_distrib]
    refine Finset.sum_congr rfl fun k _ => ?_
    rw [← Finset.sum_add_distrib]
    refine Finset.sum_congr rfl fun t _ => ?_
    rw [ht.varPhi, Real.log_exp]
    ring
  have a2 : ∑ i, ∑ k, (expectLogSticks psi s'.v0 s'.v1 k - s'.logPhi i k) * s'.phi i k =
      ∑ i, c i * ∑ k, s'.phi i k * (expectLogSticks psi s'.v0 s'.v1 k - Real.log (s'.phi i k))
      + ∑ i, (1 - c i) * ∑ k, s'.phi i k * (expectLogSticks psi s'.v0 s'.v1 k - Real.log (s'.phi i k)) := by
    rw [← Finset.sum_add_distrib]
    refine Finset.sum_congr rfl fun i _ => ?_
    rw [← add_mul, add_sub_cancel, one_mul]
    refine Finset.sum_congr rfl fun k _ => ?_
    rw [ht.phi, Real.log_exp]
    ring
  rw [a1, a2]
  unfold logBeta
  simp only [Finset.sum_add_distrib, Finset.sum_sub_distrib]
  ring

/-- **C165 (documents without repeated words).** If every word of the document has count 1, the likelihood that
inference computes is the bound; so from the fifth turn on it never decreases, the warning "likelihood is decreasing!" does not appear
and the convergence rate is not negative. -/
theorem C165_no_warning (cfg : Cfg) (hcfg : RealCfg cfg) (sticks1st : Fin (n + 1) → ℝ) (E : Fin (n + 1) → Fin N → ℝ)
    (iter : ℕ) (hi : 3 ≤ iter) (iter0 : ℕ) (s0 : ES n m N) :
    let s := eTurn cfg sticks1st E (fun _ => 1) iter0 s0
    let s' := eTurn cfg sticks1st E (fun _ => 1) iter s
    s.likelihood = bound cfg.alpha sticks1st E (fun _ => 1) s ∧ s.likelihood ≤ s'.likelihood ∧ 0 ≤ s'.converge := by
  intro s s'
  have hc : ∀ i : Fin N, (0 : ℝ) ≤ (fun _ => 1 : Fin N → ℝ) i := fun _ => zero_le_one
  have h1 := C165_likelihood cfg hcfg sticks1st E (fun _ => 1) hc iter0 s0
  have h2 := C165_likelihood cfg hcfg sticks1st E (fun _ => 1) hc iter s
  simp only [sub_self, zero_mul, Finset.sum_const_zero, add_zero] at h1 h2
  have h3 := C165_turn cfg hcfg sticks1st E (fun _ => 1) hc iter hi s (turned cfg hcfg _ _ _ hc iter0 s0)
  have h4 : s.likelihood ≤ s'.likelihood := by
    rw [h1, h2]; exact h3
  refine ⟨h1, h4, ?_⟩
  show 0 ≤ (s'.likelihood - s.likelihood) / |s.likelihood|
  exact div_nonneg (sub_nonneg.2 h4) (abs_nonneg _)

/-- **C165 (all turns).** However many turns are left after the third, and wherever the loop stops, the bound of the result
is not below the bound that the first three turns left. -/
theorem C165_loop (cfg : Cfg) (hcfg : RealCfg cfg) (sticks1st : Fin (n + 1) → ℝ) (E : Fin (n + 1) → Fin N → ℝ)
    (c : Fin N → ℝ) (hc : ∀ i, 0 ≤ c i) (left iter : ℕ) (hi : 3 ≤ iter) (s : ES n m N) (hs : Turned cfg s) :
    Turned cfg (eLoop cfg sticks1st E c left iter s) ∧
    bound cfg.alpha sticks1st E c s ≤ bound cfg.alpha sticks1st E c (eLoop cfg sticks1st E c left iter s) := by
  induction left generalizing iter s with
  | zero => exact ⟨hs, le_rfl⟩
  | succ left ih =>
    unfold eLoop
    split
    · obtain ⟨h1, h2⟩ := ih (iter + 1) (by omega) _ (turned cfg hcfg sticks1st E c hc iter s)
      exact ⟨h1, (C165_turn cfg hcfg sticks1st E c hc iter hi s hs).trans h2⟩
    · exact ⟨hs, le_rfl⟩

theorem sticks_zero {k : ℕ} (f : ℝ → ℝ) (a b : Fin (k + 1) → ℝ) :
    expectLogSticks f a b 0 = f (a 0) - f (a 0 + b 0) := by
  simp [expectLogSticks]

theorem sticks_succ {k : ℕ} (f : ℝ → ℝ) (a b : Fin (k + 1) → ℝ) (t : Fin (k + 1)) :
    expectLogSticks f a b t.succ = (f (b 0) - f (a 0 + b 0)) +
      expectLogSticks f (fun j => a j.succ) (fun j => b j.succ) t := by
  unfold expectLogSticks
  rw [Fin.sum_univ_succ]
  simp only [Fin.val_succ, Fin.val_zero, Nat.zero_lt_succ, if_true, Nat.add_lt_add_iff_right]
  simp only [Fin.succ_mk]
  ring

theorem exp_psi_le {a b : ℝ} (ha : 0 < a) (hb : 0 < b) :
    Real.exp (psi a - psi (a + b)) ≤ a / (a + b) ∧ Real.exp (psi b - psi (a + b)) ≤ b / (a + b) := by
  have h := fun i => LdaBound.expElog_le (fun i : Fin 2 => if i = 0 then a else b)
    (by intro i; split <;> assumption) i
  have h0 := h 0
  have h1 := h 1
  simp at h0 h1
  exact ⟨h0, h1⟩

/-- the weights of the sticks add up to at most 1 -/
theorem sum_exp_sticks : ∀ {k : ℕ} (a b : Fin k → ℝ), (∀ j, 0 < a j) → (∀ j, 0 < b j) →
    ∑ t, Real.exp (expectLogSticks psi a b t) ≤ 1
  | 0, a, b, _, _ => by simp [expectLogSticks]
  | k + 1, a, b, ha, hb => by
    have ih := sum_exp_sticks (fun j => a j.succ) (fun j => b j.succ) (fun j => ha _) (fun j => hb _)
    rw [Fin.sum_univ_succ, sticks_zero]
    simp only [sticks_succ, Real.exp_add]
    rw [← Finset.mul_sum]
    obtain ⟨h1, h2⟩ := exp_psi_le (ha 0) (hb 0)
    have h3 : a 0 / (a 0 + b 0) + b 0 / (a 0 + b 0) = 1 := by
      rw [← add_div, div_self (add_pos (ha 0) (hb 0)).ne']
    have h4 := Real.exp_pos (psi (b 0) - psi (a 0 + b 0))
    nlinarith

/-- **C165 (documents with repeated words).** If every count is at least 1, the likelihood that inference computes is
never below the bound: the part of the assignments, which is not positive, is not weighted by the counts. -/
theorem C165_overstated (cfg : Cfg) (hcfg : RealCfg cfg) (sticks1st : Fin (n + 1) → ℝ) (E : Fin (n + 1) → Fin N → ℝ)
    (c : Fin N → ℝ) (hc : ∀ i, 1 ≤ c i) (iter : ℕ) (s : ES n m N) :
    bound cfg.alpha sticks1st E c (eTurn cfg sticks1st E c iter s) ≤ (eTurn cfg sticks1st E c iter s).likelihood := by
  have hc0 : ∀ i, 0 ≤ c i := fun i => zero_le_one.trans (hc i)
  have ht := turned cfg hcfg sticks1st E c hc0 iter s
  rw [C165_likelihood cfg hcfg sticks1st E c hc0 iter s]
  have : 0 ≤ ∑ i, (1 - c i) * ∑ k, (eTurn cfg sticks1st E c iter s).phi i k *
      (expectLogSticks psi (eTurn cfg sticks1st E c iter s).v0 (eTurn cfg sticks1st E c iter s).v1 k -
        Real.log ((eTurn cfg sticks1st E c iter s).phi i k)) := by
    refine Finset.sum_nonneg fun i _ => mul_nonneg_of_nonpos_of_nonpos (by linarith [hc i]) ?_
    generalize eTurn cfg sticks1st E c iter s = s' at ht
    have h := LdaEm.log_sum_tangent (fun k => s'.phi i k)
      (fun k => expectLogSticks psi s'.v0 s'.v1 k - Real.log (s'.phi i k))
      (fun k => by rw [ht.phi]; exact Real.exp_pos _) 0 le_rfl
    simp only [ht.phiSum i, add_zero, Real.log_one, zero_add, div_one] at h
    have e1 : ∀ k, s'.phi i k * Real.exp (expectLogSticks psi s'.v0 s'.v1 k - Real.log (s'.phi i k)) =
        Real.exp (expectLogSticks psi s'.v0 s'.v1 k) := by
      intro k
      rw [ht.phi, Real.log_exp, ← Real.exp_add]
      congr 1; ring
    simp only [e1] at h
    refine h.trans (Real.log_nonpos (Finset.sum_nonneg fun k _ => (Real.exp_pos _).le) ?_)
    exact sum_exp_sticks _ _ ht.v0 ht.v1
  linarith

/-! ## The topics -/

section topics

variable {W : Type} [Fintype W] [DecidableEq W]

/-- the part of the bound that depends on the topics, for word statistics `a`: the expected log likelihood of the words
minus the divergence of the topics from their prior -/
noncomputable def topicsPart (eta : ℝ) (a Lam : Fin (n + 1) → W → ℝ) : ℝ :=
  ∑ t, (∑ w, a t w * (psi (eta + Lam t w) - psi (∑ w, (eta + Lam t w)))
    - LdaBound.kl (fun w => eta + Lam t w) fun _ => eta)

/-- **C165 (an update of the topics ascends).** The update of the topics with a chunk never lowers the part of the
bound that depends on the topics, for the statistics of the chunk scaled up to the corpus, whatever the learning rate
between 0 and 1: the updated topics, in the order that the model gives them, against the old ones. -/
theorem C165_topics [Nonempty W] (cfg : Cfg) (he : 0 < cfg.eta)
    (order : (Fin (n + 1) → ℝ) → Equiv.Perm (Fin (n + 1))) (chunk : List (Doc W))
    (hd : ∀ doc ∈ chunk, ∀ p ∈ doc, 0 ≤ p.2) (f f' : Full n W) (hf : ∀ t w, 0 ≤ f.Lam t w)
    (hrho : rhot cfg f.count ≤ 1) (h : fullStep m cfg order chunk f = some f') :
    ∃ (ss : SS n) (idx : Equiv.Perm (Fin (n + 1))),
      chunkStats m cfg (fullElog cfg f.Lam) (expectLogSticks cfg.psi f.sticks0 f.sticks1) (wordList chunk) chunk
        ⟨fun _ => 0, fun _ _ => 0⟩ = some ss ∧
      topicsPart cfg.eta (fun t w => cfg.D * stat (wordList chunk) ss t w / chunk.length) f.Lam ≤
        topicsPart cfg.eta (fun t w => cfg.D * stat (wordList chunk) ss (idx t) w / chunk.length) f'.Lam := by
  unfold fullStep at h
  cases hss : chunkStats m cfg (fullElog cfg f.Lam) (expectLogSticks cfg.psi f.sticks0 f.sticks1) (wordList chunk) chunk
      ⟨fun _ => 0, fun _ _ => 0⟩ with
  | none => rw [hss] at h; cases h
  | some ss =>
    rw [hss] at h
    simp only [Option.some.injEq] at h
    obtain ⟨hn, hm⟩ := wordList_spec chunk
    have hnn := ((chunkStats_spec cfg _ _ (wordList chunk) chunk
      (fun doc hd p hp => (hm p.1).2 ⟨doc, hd, p, hp, rfl⟩) _ ss hss).2.2 hd (fun _ _ => le_rfl) fun _ => le_rfl).1
    have hstat : ∀ t w, 0 ≤ (cfg.D * stat (wordList chunk) ss t w / chunk.length : ℝ) := by
      intro t w
      refine div_nonneg (mul_nonneg (Nat.cast_nonneg _) ?_) (Nat.cast_nonneg _)
      unfold stat
      split
      · exact hnn _ _
      · exact le_rfl
    have hr0 := rhot_nonneg cfg f.count
    generalize hr : rhot cfg f.count = rho at *
    set a : Fin (n + 1) → W → ℝ := fun t w => cfg.D * stat (wordList chunk) ss t w / chunk.length with ha
    set L : Fin (n + 1) → W → ℝ := fun t w => (1 - rho) * f.Lam t w + rho * a t w with hL
    obtain ⟨idx, hidx⟩ : ∃ idx : Equiv.Perm (Fin (n + 1)), f'.Lam = fun t => L (idx t) :=
      ⟨order fun t => ∑ w, L t w, by rw [← h]⟩
    refine ⟨ss, idx, rfl, ?_⟩
    rw [hidx]
    have hstep : topicsPart cfg.eta a f.Lam ≤ topicsPart cfg.eta a L := by
      unfold topicsPart
      refine Finset.sum_le_sum fun t _ => ?_
      have hseg := LdaEm.segment (fun w => cfg.eta + f.Lam t w) (fun w => cfg.eta + a t w)
        (fun w => add_pos_of_pos_of_nonneg he (hf t w)) (fun w => add_pos_of_pos_of_nonneg he (hstat t w)) rho hr0 hrho
        (fun w => cfg.eta + L t w) (fun w => by simp only [hL]; ring)
      have key : ∀ v : W → ℝ, ∑ w, a t w * (psi (cfg.eta + v w) - psi (∑ w, (cfg.eta + v w)))
          - LdaBound.kl (fun w => cfg.eta + v w) (fun _ => cfg.eta) =
          ∑ w, ((cfg.eta + a t w) - (cfg.eta + v w)) * LdaInfer.dirichletExpectation (fun w => cfg.eta + v w) w
            + LdaBound.logNorm (fun w => cfg.eta + v w) - LdaBound.logNorm (fun _ : W => cfg.eta) := by
        intro v
        unfold LdaBound.kl LdaInfer.dirichletExpectation
        have : ∑ w, ((cfg.eta + a t w) - (cfg.eta + v w)) * (psi (cfg.eta + v w) - psi (∑ w, (cfg.eta + v w))) =
            ∑ w, a t w * (psi (cfg.eta + v w) - psi (∑ w, (cfg.eta + v w))) -
            ∑ w, (cfg.eta + v w - cfg.eta) * (psi (cfg.eta + v w) - psi (∑ w, (cfg.eta + v w))) := by
          rw [← Finset.sum_sub_distrib]
          exact Finset.sum_congr rfl fun w _ => by ring
        rw [this]
        ring
      rw [key, key]
      linarith
    have hperm : topicsPart cfg.eta (fun t => a (idx t)) (fun t => L (idx t)) = topicsPart cfg.eta a L := by
      unfold topicsPart
      exact Equiv.sum_comp idx (fun t => ∑ w, a t w * (psi (cfg.eta + L t w) - psi (∑ w, (cfg.eta + L t w)))
        - LdaBound.kl (fun w => cfg.eta + L t w) fun _ => cfg.eta)
    exact hstep.trans hperm.ge

end topics

/-- non-vacuity: the usual settings, from the fifth turn of a document of three words -/
noncomputable def exCfg : Cfg := ⟨psi, fun x => Real.log (Real.Gamma x), 1 / 100, 1, 1, 64, 1, 1, 1 / 10000, 10⟩

theorem exCfg_real : RealCfg exCfg := ⟨rfl, rfl, one_pos⟩

example (E : Fin 5 → Fin 3 → ℝ) (st : Fin 5 → ℝ) :
    let s := eTurn exCfg st E (fun _ => 1) 3 (eTurn (m := 2) exCfg st E (fun _ => 1) 2 (eInit 3 exCfg))
    s.likelihood ≤ (eTurn exCfg st E (fun _ => 1) 4 s).likelihood :=
  (C165_no_warning exCfg exCfg_real st E 4 (by norm_num) 3 _).2.1

example (order : (Fin 5 → ℝ) → Equiv.Perm (Fin 5)) (f : Full 4 (Fin 3)) :
    ∃ f', fullStep 2 exCfg order [[(0, 3), (2, 1)], [], [(1, 1)]] f = some f' := by
  have h : exCfg.varConverge < 1 := by norm_num [exCfg]
  simp [fullStep, chunkStats, docEStep, h]

example : rhot exCfg 0 ≤ 1 := by
  have : (64 + 1 + ((0 : ℕ) : ℝ)) ^ (-1 : ℝ) ≤ 1 := Real.rpow_le_one_of_one_le_of_nonpos (by norm_num) (by norm_num)
  simp only [rhot, exCfg, one_mul]
  exact max_le this zero_le_one

end Verif.Hdp

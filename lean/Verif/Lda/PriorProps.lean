import Verif.Lda.TrainProps

/-!
# C91: what a learnt prior climbs
-/

namespace Verif.LdaTrain

open Verif.Dirichlet Verif.LdaInfer

variable {I : Type} [Fintype I] [DecidableEq I]

/-! ### Specification -/

/-- The expected logarithm of the density of a Dirichlet distribution of parameters `a`, summed over documents whose
topic weights are distributed as the Dirichlet distributions `gs`: `E[log θⱼ] = ψ(gⱼ) - ψ(Σ g)`. -/
noncomputable def evidence (gs : List (I → ℝ)) (a : I → ℝ) : ℝ :=
  (gs.map fun g => Real.log (Real.Gamma (∑ j, a j)) - ∑ j, Real.log (Real.Gamma (a j))
    + ∑ j, (a j - 1) * (psi (g j) - psi (∑ l, g l))).sum

/-! ### Proofs -/

theorem one_term (g prior : I → ℝ) (hp : ∀ j, 0 < prior j) (i : I) :
    HasDerivAt (fun x => Real.log (Real.Gamma (∑ j, Function.update prior i x j))
        - ∑ j, Real.log (Real.Gamma (Function.update prior i x j))
        + ∑ j, (Function.update prior i x j - 1) * (psi (g j) - psi (∑ l, g l)))
      (psi (∑ j, prior j) - psi (prior i) + (psi (g i) - psi (∑ l, g l))) (prior i) := by
  have hu : ∀ j, HasDerivAt (fun x => Function.update prior i x j) (if j = i then 1 else 0) (prior i) := by
    intro j
    by_cases h : j = i
    · subst h
      simpa using hasDerivAt_id' (prior j)
    · simpa [h] using hasDerivAt_const (prior i) (prior j)
  have hself : ∀ j, Function.update prior i (prior i) j = prior j := by
    intro j
    rw [Function.update_eq_self]
  have hs : HasDerivAt (fun x => ∑ j, Function.update prior i x j) 1 (prior i) := by
    have := HasDerivAt.fun_sum (u := Finset.univ) fun j _ => hu j
    simpa using this
  have hpos : 0 < ∑ j, prior j := Finset.sum_pos (fun j _ => hp j) ⟨i, Finset.mem_univ i⟩
  have h1 : HasDerivAt (fun x => Real.log (Real.Gamma (∑ j, Function.update prior i x j))) (psi (∑ j, prior j))
      (prior i) := by
    have := HasDerivAt.comp_of_eq (prior i) (hasDerivAt_logGamma hpos) hs (by simp [hself])
    simpa [Function.comp_def] using this
  have h2 : HasDerivAt (fun x => ∑ j, Real.log (Real.Gamma (Function.update prior i x j))) (psi (prior i)) (prior i) := by
    have := HasDerivAt.fun_sum (u := Finset.univ) fun j _ =>
      HasDerivAt.comp_of_eq (prior i) (hasDerivAt_logGamma (hp j)) (hu j) (hself j).symm
    simpa [Function.comp_def] using this
  have h3 : HasDerivAt (fun x => ∑ j, (Function.update prior i x j - 1) * (psi (g j) - psi (∑ l, g l)))
      (psi (g i) - psi (∑ l, g l)) (prior i) := by
    have := HasDerivAt.fun_sum (u := Finset.univ) fun j _ => ((hu j).sub_const 1).mul_const (psi (g j) - psi (∑ l, g l))
    simpa using this
  exact (h1.sub h2).add h3

/-- **C91.** The right-hand side of the Newton step (`C91_prior_newton`) is the gradient of the expected logarithm of
the density of the documents (or topics) the prior is learnt from: with `N` their number and `logphat` as computed from
them, `N * (ψ(Σ prior) - ψ(priorᵢ) + logphatᵢ)` is the derivative of that density in the `i`-th parameter. -/
theorem C91_prior_gradient (gs : List (I → ℝ)) (prior : I → ℝ) (hp : ∀ j, 0 < prior j) (i : I) :
    HasDerivAt (fun x => evidence gs (Function.update prior i x))
      (gs.length * (psi (∑ j, prior j) - psi (prior i) + logphat gs i)) (prior i) := by
  have key : (gs.length : ℝ) * (psi (∑ j, prior j) - psi (prior i) + logphat gs i)
      = (gs.map fun g => psi (∑ j, prior j) - psi (prior i) + (psi (g i) - psi (∑ l, g l))).sum := by
    unfold logphat dirichletExpectation
    rcases Nat.eq_zero_or_pos gs.length with h0 | h0
    · rw [List.length_eq_zero_iff.1 h0]
      simp
    · have hne : (gs.length : ℝ) ≠ 0 := by exact_mod_cast h0.ne'
      rw [mul_add, mul_div_cancel₀ _ hne]
      clear hne h0
      induction gs with
      | nil => simp
      | cons g gs ih =>
        simp only [List.length_cons, List.map_cons, List.sum_cons, Nat.cast_add, Nat.cast_one]
        rw [← ih]
        ring
  rw [key]
  clear key
  unfold evidence
  induction gs with
  | nil => simpa using hasDerivAt_const (prior i) (0 : ℝ)
  | cons g gs ih =>
    simp only [List.map_cons, List.sum_cons]
    exact (one_term g prior hp i).add ih

/-- Two documents, and a prior of ones. -/
example : HasDerivAt (fun x => evidence [fun _ : Fin 2 => (2 : ℝ), fun _ => 3] (Function.update (fun _ => 1) 0 x))
    ((2 : ℕ) * (psi (∑ _j : Fin 2, (1 : ℝ)) - psi 1 + logphat [fun _ : Fin 2 => (2 : ℝ), fun _ => 3] 0)) 1 :=
  C91_prior_gradient [fun _ : Fin 2 => (2 : ℝ), fun _ => 3] (fun _ => 1) (fun _ => one_pos) 0

end Verif.LdaTrain

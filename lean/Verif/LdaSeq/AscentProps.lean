import Verif.LdaSeq.StopProps
import Verif.AuthorTopic.AscentProps

/-!
# C167: fitting a document of a dynamic topic model ascends
-/

namespace Verif.LdaSeq

open Verif.Dirichlet Verif.LdaInfer Verif.LdaBound

variable {k V : ℕ}

/-! ## Specification -/

/-- the digamma function and the logarithm of the gamma function -/
noncomputable def exact : Special := ⟨psi, fun x => Real.log (Real.Gamma x)⟩

/-- the variational bound of a document with topic weights `gamma`, where the occurrences of its `n`-th word belong to
the topics with probabilities `phi n` -/
noncomputable def elbo (alpha : Fin (k + 1) → ℝ) (topics : Fin V → Fin (k + 1) → ℝ) (doc : Doc V)
    (gamma : Fin (k + 1) → ℝ) (phi : Fin doc.length → Fin (k + 1) → ℝ) : ℝ :=
  ∑ n, doc[n].2 * ∑ j, phi n j * (psi (gamma j) - psi (∑ i, gamma i) + topics doc[n].1 j - Real.log (phi n j))
    - kl gamma alpha

/-- probabilities of the topics of every word -/
structure Probs {N : ℕ} (phi : Fin N → Fin (k + 1) → ℝ) : Prop where
  pos : ∀ n j, 0 < phi n j
  sum : ∀ n, ∑ j, phi n j = 1

/-! ## Lemmas -/

theorem lhood_eq (alpha : Fin (k + 1) → ℝ) (topics : Fin V → Fin (k + 1) → ℝ) (doc : Doc V)
    (gamma : Fin (k + 1) → ℝ) (phi logphi : Fin doc.length → Fin (k + 1) → ℝ) (hp : ∀ n j, 0 < phi n j) :
    lhood exact alpha topics doc gamma phi logphi
      = ∑ n, doc[n].2 * ∑ j, phi n j * (psi (gamma j) - psi (∑ i, gamma i) + topics doc[n].1 j - logphi n j)
        - kl gamma alpha := by
  unfold lhood
  simp only [hp, if_true, exact]
  rw [Finset.sum_add_distrib]
  have e1 : ∑ j, ∑ n, doc[n].2 * phi n j * (psi (gamma j) - psi (∑ i, gamma i) + topics doc[n].1 j - logphi n j)
      = ∑ n, doc[n].2 * ∑ j, phi n j * (psi (gamma j) - psi (∑ i, gamma i) + topics doc[n].1 j - logphi n j) := by
    rw [Finset.sum_comm]
    refine Finset.sum_congr rfl fun n _ => ?_
    rw [Finset.mul_sum]
    exact Finset.sum_congr rfl fun j _ => by ring
  rw [e1]
  unfold kl logNorm
  have e2 : ∑ j, ((alpha j - gamma j) * (psi (gamma j) - psi (∑ i, gamma i)) + Real.log (Real.Gamma (gamma j))
        - Real.log (Real.Gamma (alpha j)))
      = - ∑ j, (gamma j - alpha j) * (psi (gamma j) - psi (∑ i, gamma i)) + ∑ j, Real.log (Real.Gamma (gamma j))
        - ∑ j, Real.log (Real.Gamma (alpha j)) := by
    rw [← Finset.sum_neg_distrib, ← Finset.sum_add_distrib, ← Finset.sum_sub_distrib]
    exact Finset.sum_congr rfl fun j _ => by ring
  rw [e2]
  ring

theorem phi_best (u l : Fin (k + 1) → ℝ) (hl : ∀ j, 0 < l j) (hs : ∑ j, l j = 1) :
    ∑ j, l j * (u j - Real.log (l j)) ≤ Real.log (∑ j, Real.exp (u j)) := by
  have t := Verif.LdaEm.log_sum_tangent l (fun j => u j - Real.log (l j)) hl 0 le_rfl
  simp only [add_zero, hs, Real.log_one, zero_add, div_one] at t
  have e : ∀ j, l j * Real.exp (u j - Real.log (l j)) = Real.exp (u j) := by
    intro j
    rw [Real.exp_sub, Real.exp_log (hl j)]
    have := (hl j).ne'
    field_simp
  simpa only [e] using t

theorem round_probs (alpha : Fin (k + 1) → ℝ) (topics : Fin V → Fin (k + 1) → ℝ) (doc : Doc V)
    (phi : Fin doc.length → Fin (k + 1) → ℝ) : Probs (round exact alpha topics doc phi).phi :=
  ⟨fun _ _ => Real.exp_pos _, fun n => logPhi_row exact topics doc _ n⟩

theorem round_lhood (alpha : Fin (k + 1) → ℝ) (topics : Fin V → Fin (k + 1) → ℝ) (doc : Doc V)
    (phi : Fin doc.length → Fin (k + 1) → ℝ) :
    (round exact alpha topics doc phi).lhood =
      elbo alpha topics doc (round exact alpha topics doc phi).gamma (round exact alpha topics doc phi).phi := by
  have h := lhood_eq alpha topics doc (round exact alpha topics doc phi).gamma (round exact alpha topics doc phi).phi
    (round exact alpha topics doc phi).logphi fun _ _ => Real.exp_pos _
  refine Eq.trans h ?_
  unfold elbo
  congr 1
  refine Finset.sum_congr rfl fun n _ => ?_
  congr 1
  refine Finset.sum_congr rfl fun j _ => ?_
  congr 2
  exact (Real.log_exp _).symm

/-- the best topic probabilities for given weights -/
theorem elbo_phi (alpha : Fin (k + 1) → ℝ) (topics : Fin V → Fin (k + 1) → ℝ) (doc : Doc V) (hd : ∀ e ∈ doc, 0 ≤ e.2)
    (gamma : Fin (k + 1) → ℝ) (phi : Fin doc.length → Fin (k + 1) → ℝ) (hp : Probs phi) :
    elbo alpha topics doc gamma phi ≤
      elbo alpha topics doc gamma fun n j => Real.exp (logPhi exact topics doc gamma n j) := by
  unfold elbo
  refine sub_le_sub_right (Finset.sum_le_sum fun n _ => mul_le_mul_of_nonneg_left ?_ (hd _ (List.getElem_mem _))) _
  have hrow := logPhi_row exact topics doc gamma n
  have e : ∀ j, Real.exp (logPhi exact topics doc gamma n j) * (psi (gamma j) - psi (∑ i, gamma i) + topics doc[n].1 j
        - Real.log (Real.exp (logPhi exact topics doc gamma n j)))
      = Real.exp (logPhi exact topics doc gamma n j) *
        (Real.log (∑ i, Real.exp (psi (gamma i) + topics doc[n].1 i)) - psi (∑ i, gamma i)) := by
    intro j
    rw [Real.log_exp]
    congr 1
    simp only [logPhi, exact]
    ring
  rw [Finset.sum_congr rfl fun j _ => e j, ← Finset.sum_mul, hrow, one_mul]
  have h := phi_best (fun j => psi (gamma j) + topics doc[n].1 j) (phi n) (hp.pos n) (hp.sum n)
  have e2 : ∑ j, phi n j * (psi (gamma j) - psi (∑ i, gamma i) + topics doc[n].1 j - Real.log (phi n j))
      = ∑ j, phi n j * (psi (gamma j) + topics doc[n].1 j - Real.log (phi n j)) - psi (∑ i, gamma i) := by
    have : psi (∑ i, gamma i) = ∑ j, phi n j * psi (∑ i, gamma i) := by rw [← Finset.sum_mul, hp.sum, one_mul]
    conv_rhs => rw [this]
    rw [← Finset.sum_sub_distrib]
    exact Finset.sum_congr rfl fun j _ => by ring
  rw [e2]
  linarith

/-- the best weights for given topic probabilities -/
theorem elbo_gamma (alpha : Fin (k + 1) → ℝ) (topics : Fin V → Fin (k + 1) → ℝ) (doc : Doc V)
    (gamma : Fin (k + 1) → ℝ) (phi : Fin doc.length → Fin (k + 1) → ℝ) :
    elbo alpha topics doc gamma phi + kl gamma (updateGamma alpha doc phi)
      = elbo alpha topics doc (updateGamma alpha doc phi) phi := by
  have h := Verif.AuthorInfer.kl_gain gamma (updateGamma alpha doc phi) alpha (fun j => ∑ n, phi n j * doc[n].2) 1 one_pos
    fun j => by simp [updateGamma]
  simp only [div_one] at h
  have e : ∑ j, (∑ n, phi n j * doc[n].2) *
        (dirichletExpectation (updateGamma alpha doc phi) j - dirichletExpectation gamma j)
      = ∑ n, doc[n].2 * ∑ j, phi n j * (dirichletExpectation (updateGamma alpha doc phi) j + topics doc[n].1 j - Real.log (phi n j))
        - ∑ n, doc[n].2 * ∑ j, phi n j * (dirichletExpectation gamma j + topics doc[n].1 j - Real.log (phi n j)) := by
    simp only [Finset.sum_mul]
    rw [Finset.sum_comm, ← Finset.sum_sub_distrib]
    refine Finset.sum_congr rfl fun n _ => ?_
    rw [← mul_sub, ← Finset.sum_sub_distrib, Finset.mul_sum]
    exact Finset.sum_congr rfl fun j _ => by ring
  rw [e] at h
  unfold elbo
  unfold dirichletExpectation at h
  linarith

/-! ## C167 -/

/-- **C167** The likelihood reported after a round is the bound at the weights and probabilities the round leaves, and
no other weights and probabilities that the round could have started from have a larger one: it gains at least the
divergence of the weights before from the weights after. -/
theorem C167_round (alpha : Fin (k + 1) → ℝ) (topics : Fin V → Fin (k + 1) → ℝ) (doc : Doc V) (hd : ∀ e ∈ doc, 0 ≤ e.2)
    (gamma : Fin (k + 1) → ℝ) (phi : Fin doc.length → Fin (k + 1) → ℝ) (hp : Probs phi) :
    let q := round exact alpha topics doc phi
    q.lhood = elbo alpha topics doc q.gamma q.phi ∧ Probs q.phi ∧
    elbo alpha topics doc gamma phi + kl gamma q.gamma ≤ q.lhood := by
  intro q
  refine ⟨round_lhood alpha topics doc phi, round_probs alpha topics doc phi, ?_⟩
  rw [round_lhood]
  exact (elbo_gamma alpha topics doc gamma phi).le.trans (elbo_phi alpha topics doc hd _ phi hp)

theorem gamma_pos (alpha : Fin (k + 1) → ℝ) (ha : ∀ j, 0 < alpha j) (doc : Doc V) (hd : ∀ e ∈ doc, 0 ≤ e.2)
    (phi : Fin doc.length → Fin (k + 1) → ℝ) (hp : Probs phi) (j : Fin (k + 1)) : 0 < updateGamma alpha doc phi j := by
  unfold updateGamma
  have : 0 ≤ ∑ n, phi n j * doc[n].2 :=
    Finset.sum_nonneg fun n _ => mul_nonneg (hp.pos n j).le (hd _ (List.getElem_mem _))
  linarith [ha j]

theorem even_probs (N : ℕ) : Probs (fun (_ : Fin N) (_ : Fin (k + 1)) => ((k : ℝ) + 1)⁻¹) := by
  refine ⟨fun n j => by positivity, fun n => ?_⟩
  rw [Finset.sum_const, Finset.card_univ, Fintype.card_fin, nsmul_eq_mul]
  push_cast
  field_simp

/-- **C167** The likelihoods of the rounds of a document never decrease: a document fitted with more rounds allowed has
a bound at least as large, and never a smaller one than even probabilities of the topics with the weights the fit
begins with, or with any others. -/
theorem C167_fit (alpha : Fin (k + 1) → ℝ) (ha : ∀ j, 0 < alpha j) (topics : Fin V → Fin (k + 1) → ℝ) (doc : Doc V)
    (hd : ∀ e ∈ doc, 0 ≤ e.2) (stale : ℕ → Fin (k + 1) → ℝ) :
    let value := fun n => (fitDoc exact alpha topics doc stale n).lhood
    Monotone value ∧
    (∀ n, value n = elbo alpha topics doc (fitDoc exact alpha topics doc stale n).gamma
      (fitDoc exact alpha topics doc stale n).phi) ∧
    ∀ n, ∀ gamma : Fin (k + 1) → ℝ, (∀ j, 0 < gamma j) →
      elbo alpha topics doc gamma (fun _ _ => ((k : ℝ) + 1)⁻¹) ≤ value n := by
  set step := fun q : Post k doc.length => round exact alpha topics doc q.phi with hstep
  set even := fun (_ : Fin doc.length) (_ : Fin (k + 1)) => ((k : ℝ) + 1)⁻¹ with heven
  set first := round exact alpha topics doc even with hfirst
  have inv : ∀ r, ∃ phi, Probs phi ∧ step^[r] first = round exact alpha topics doc phi := by
    intro r
    induction r with
    | zero => exact ⟨even, even_probs _, rfl⟩
    | succ r ih =>
      obtain ⟨phi, _, e⟩ := ih
      rw [Function.iterate_succ_apply', e]
      exact ⟨_, round_probs alpha topics doc phi, rfl⟩
  have up : ∀ r, (step^[r] first).lhood ≤ (step^[r + 1] first).lhood := by
    intro r
    obtain ⟨phi, hphi, e⟩ := inv r
    rw [Function.iterate_succ_apply', e]
    have h := (C167_round alpha topics doc hd (round exact alpha topics doc phi).gamma _ (round_probs alpha topics doc phi)).2.2
    rw [← round_lhood] at h
    refine le_trans (le_add_of_nonneg_right ?_) h
    exact kl_nonneg _ _ (gamma_pos alpha ha doc hd phi hphi)
      (gamma_pos alpha ha doc hd _ (round_probs alpha topics doc phi))
  have mono : Monotone fun r => (step^[r] first).lhood := monotone_nat_of_le_succ up
  have runs : ∀ (n : ℕ) (c : ℝ) (p : Post k doc.length),
      (∃ r, r ≤ n ∧ fitLoop exact alpha topics doc (doc.map Prod.snd).sum n c p = step^[r] p ∧
        (fitLoop exact alpha topics doc (doc.map Prod.snd).sum (n + 1) c p = step^[r] p ∨
         fitLoop exact alpha topics doc (doc.map Prod.snd).sum (n + 1) c p = step^[r + 1] p)) := by
    intro n
    induction n with
    | zero =>
      intro c p
      refine ⟨0, le_rfl, rfl, ?_⟩
      simp only [fitLoop]
      split
      · exact .inr rfl
      · exact .inl rfl
    | succ n ih =>
      intro c p
      by_cases h : 1 / 10 ^ 8 < c
      · obtain ⟨r, hr, h1, h2⟩ := ih |(p.lhood - (round exact alpha topics doc p.phi).lhood) /
          (p.lhood * (doc.map Prod.snd).sum)| (round exact alpha topics doc p.phi)
        refine ⟨r + 1, by omega, ?_, ?_⟩
        · rw [Function.iterate_succ_apply, fitLoop, if_pos h]
          exact h1
        · rw [Function.iterate_succ_apply step (r + 1), Function.iterate_succ_apply step r, fitLoop, if_pos h]
          exact h2
      · refine ⟨0, by omega, ?_, .inl ?_⟩ <;> simp only [fitLoop, if_neg h, Function.iterate_zero, id]
  have fits : ∀ n, ∃ r, fitDoc exact alpha topics doc stale n = step^[r] first := by
    intro n
    obtain ⟨r, _, h, _⟩ := C99_stops exact alpha topics doc stale n
    exact ⟨r, h⟩
  refine ⟨monotone_nat_of_le_succ fun n => ?_, fun n => ?_, fun n gamma hg => ?_⟩
  · have he : (fun (_ : Fin doc.length) (_ : Fin (k + 1)) => 1 / ((k + 1 : ℕ) : ℝ)) = even := by
      funext _ _
      rw [one_div, Nat.cast_add, Nat.cast_one]
    unfold fitDoc
    simp only [he]
    obtain ⟨r, _, h1, h2⟩ := runs n _ first
    rw [h1]
    rcases h2 with h2 | h2
    · rw [h2]
    · rw [h2]; exact mono (Nat.le_succ r)
  · obtain ⟨r, h⟩ := fits n
    obtain ⟨phi, _, e⟩ := inv r
    simp only [h, e]
    exact round_lhood alpha topics doc phi
  · obtain ⟨r, h⟩ := fits n
    simp only [h]
    refine le_trans ?_ (mono (Nat.zero_le r))
    refine le_trans (le_add_of_nonneg_right (b := kl gamma first.gamma) ?_)
      (C167_round alpha topics doc hd gamma even (even_probs _)).2.2
    exact kl_nonneg _ _ hg (gamma_pos alpha ha doc hd even (even_probs _))

theorem elbo_at_most (alpha : Fin (k + 1) → ℝ) (ha : ∀ j, 0 < alpha j) (topics : Fin V → Fin (k + 1) → ℝ) (m : ℝ)
    (ht : ∀ w j, topics w j ≤ m) (doc : Doc V) (hd : ∀ e ∈ doc, 0 ≤ e.2) (gamma : Fin (k + 1) → ℝ)
    (hg : ∀ j, 0 < gamma j) (phi : Fin doc.length → Fin (k + 1) → ℝ) (hp : Probs phi) :
    elbo alpha topics doc gamma phi ≤ (doc.map Prod.snd).sum * m := by
  have hs : 0 < ∑ j, gamma j := Finset.sum_pos (fun j _ => hg j) Finset.univ_nonempty
  have hk := kl_nonneg gamma alpha hg ha
  unfold elbo
  have : ∑ i, doc[i].2 * ∑ j, phi i j * (psi (gamma j) - psi (∑ i, gamma i) + topics doc[i].1 j - Real.log (phi i j))
      ≤ ∑ i : Fin doc.length, doc[i].2 * m := by
    refine Finset.sum_le_sum fun i _ => mul_le_mul_of_nonneg_left ?_ (hd _ (List.getElem_mem _))
    refine (phi_best (fun j => psi (gamma j) - psi (∑ i, gamma i) + topics doc[i].1 j) (phi i) (hp.pos i) (hp.sum i)).trans ?_
    refine (Real.log_le_iff_le_exp (Finset.sum_pos (fun j _ => Real.exp_pos _) Finset.univ_nonempty)).2 ?_
    have h1 : ∀ j, Real.exp (psi (gamma j) - psi (∑ i, gamma i) + topics doc[i].1 j)
        ≤ gamma j / (∑ i, gamma i) * Real.exp m := by
      intro j
      rw [Real.exp_add]
      exact mul_le_mul (expElog_le gamma hg j) (Real.exp_le_exp.2 (ht _ _)) (Real.exp_pos _).le
        (div_nonneg (hg j).le hs.le)
    refine (Finset.sum_le_sum fun j _ => h1 j).trans ?_
    rw [← Finset.sum_mul, ← Finset.sum_div, div_self hs.ne', one_mul]
  rw [← Finset.sum_mul, sum_getElem doc Prod.snd] at this
  linarith

/-- **C167** The reported likelihood is at most what all tokens would have if every word had the largest probability of
all: with word probabilities of at most 1 it is never positive. -/
theorem C167_at_most (alpha : Fin (k + 1) → ℝ) (ha : ∀ j, 0 < alpha j) (topics : Fin V → Fin (k + 1) → ℝ) (m : ℝ)
    (ht : ∀ w j, topics w j ≤ m) (doc : Doc V) (hd : ∀ e ∈ doc, 0 ≤ e.2) (stale : ℕ → Fin (k + 1) → ℝ) (n : ℕ) :
    (fitDoc exact alpha topics doc stale n).lhood ≤ (doc.map Prod.snd).sum * m := by
  obtain ⟨hrow, hpos, _, hge⟩ := C99_document_weights exact alpha topics doc hd stale n
  have e := (C167_fit alpha ha topics doc hd stale).2.1 n
  dsimp only at e
  rw [e]
  exact elbo_at_most alpha ha topics m ht doc hd _ (fun j => lt_of_lt_of_le (ha j) (hge j)) _ ⟨hpos, hrow⟩

/-- **C167** The rounds of a document come to an end by themselves: from some number of allowed rounds on, allowing more
changes nothing. -/
theorem C167_ends (alpha : Fin (k + 1) → ℝ) (ha : ∀ j, 0 < alpha j) (topics : Fin V → Fin (k + 1) → ℝ)
    (ht : ∀ w j, topics w j < 0) (doc : Doc V) (hd : ∀ e ∈ doc, 0 ≤ e.2) (htot : 0 < (doc.map Prod.snd).sum)
    (stale : ℕ → Fin (k + 1) → ℝ) :
    ∃ N, ∀ n, N ≤ n → fitDoc exact alpha topics doc stale n = fitDoc exact alpha topics doc stale N := by
  obtain ⟨m, hm, hmt⟩ : ∃ m : ℝ, m < 0 ∧ ∀ w j, topics w j ≤ m := by
    haveI : Nonempty (Fin V) := by
      cases doc with
      | nil => simp at htot
      | cons e _ => exact ⟨e.1⟩
    obtain ⟨q, _, hq⟩ := Finset.exists_max_image (Finset.univ : Finset (Fin V × Fin (k + 1)))
      (fun q => topics q.1 q.2) Finset.univ_nonempty
    exact ⟨topics q.1 q.2, ht _ _, fun w j => hq (w, j) (Finset.mem_univ _)⟩
  set total := (doc.map Prod.snd).sum with htotal
  set step := fun q : Post k doc.length => round exact alpha topics doc q.phi with hstep
  set even := fun (_ : Fin doc.length) (_ : Fin (k + 1)) => ((k : ℝ) + 1)⁻¹ with heven
  set first := round exact alpha topics doc even with hfirst
  set a : ℕ → ℝ := fun r => (step^[r] first).lhood with hadef
  have inv : ∀ r, ∃ phi, Probs phi ∧ step^[r] first = round exact alpha topics doc phi := by
    intro r
    induction r with
    | zero => exact ⟨even, even_probs _, rfl⟩
    | succ r ih =>
      obtain ⟨phi, _, e⟩ := ih
      rw [Function.iterate_succ_apply', e]
      exact ⟨_, round_probs alpha topics doc phi, rfl⟩
  have up : ∀ r, a r ≤ a (r + 1) := by
    intro r
    obtain ⟨phi, hphi, e⟩ := inv r
    show (step^[r] first).lhood ≤ (step^[r + 1] first).lhood
    rw [Function.iterate_succ_apply', e]
    have h := (C167_round alpha topics doc hd (round exact alpha topics doc phi).gamma _ (round_probs alpha topics doc phi)).2.2
    rw [← round_lhood] at h
    refine le_trans (le_add_of_nonneg_right ?_) h
    exact kl_nonneg _ _ (gamma_pos alpha ha doc hd phi hphi)
      (gamma_pos alpha ha doc hd _ (round_probs alpha topics doc phi))
  have top : ∀ r, a r ≤ total * m := by
    intro r
    obtain ⟨phi, hphi, e⟩ := inv r
    show (step^[r] first).lhood ≤ _
    rw [e, round_lhood]
    exact elbo_at_most alpha ha topics m hmt doc hd _ (gamma_pos alpha ha doc hd phi hphi) _ (round_probs alpha topics doc phi)
  have hneg : total * m < 0 := mul_neg_of_pos_of_neg htot hm
  -- some round changes the bound by little
  obtain ⟨r0, hr0⟩ : ∃ r, relChange doc (a r) (a (r + 1)) ≤ 1 / 10 ^ 8 := by
    by_contra hno
    push Not at hno
    set δ : ℝ := 1 / 10 ^ 8 * (-(total * m) * total) with hδ
    have hδp : 0 < δ := by
      rw [hδ]
      exact mul_pos (by norm_num) (mul_pos (by linarith) htot)
    have grow : ∀ r, a r + δ ≤ a (r + 1) := by
      intro r
      have h1 := hno r
      have har := top r
      have hden : a r * total < 0 := mul_neg_of_neg_of_pos (by linarith) htot
      unfold relChange at h1
      rw [← htotal, abs_div, abs_of_neg hden, abs_of_nonpos (by linarith [up r]), lt_div_iff₀ (by linarith)] at h1
      have h2 : -(total * m) * total ≤ -(a r * total) := by nlinarith
      have h3 : δ ≤ 1 / 10 ^ 8 * -(a r * total) := by
        rw [hδ]; exact mul_le_mul_of_nonneg_left h2 (by norm_num)
      linarith
    have lin : ∀ r : ℕ, a 0 + r * δ ≤ a r := by
      intro r
      induction r with
      | zero => simp
      | succ r ih =>
        have := grow r
        push_cast
        linarith
    obtain ⟨r, hr⟩ := exists_nat_gt ((total * m - a 0) / δ)
    rw [div_lt_iff₀ hδp] at hr
    have := lin r
    have := top r
    linarith
  have run : ∀ n, r0 + 2 ≤ n → ∃ r, r < n ∧ fitDoc exact alpha topics doc stale n = step^[r] first ∧
      (0 < r → 1 / 10 ^ 8 < relChange doc
        (lhood exact alpha topics doc (fun _ => alpha 0 + total / ((k : ℝ) + 1)) even fun n j => stale n j) first.lhood) ∧
      (r = 0 → relChange doc
        (lhood exact alpha topics doc (fun _ => alpha 0 + total / ((k : ℝ) + 1)) even fun n j => stale n j) first.lhood
          ≤ 1 / 10 ^ 8) ∧
      (∀ s, r = s + 1 → relChange doc (a s) (a r) ≤ 1 / 10 ^ 8) ∧
      (∀ s, s + 1 < r → 1 / 10 ^ 8 < relChange doc (a s) (a (s + 1))) := by
    intro n hn
    obtain ⟨r, h1, h2, h3, h4, h5, h6⟩ := C99_stops exact alpha topics doc stale n
    have hle : r ≤ r0 + 1 := by
      by_contra hgt
      exact absurd (h6 r0 (by omega)) (not_lt.2 hr0)
    have hlt : r < n := by omega
    exact ⟨r, hlt, h2, h3, fun h0 => h4 hlt h0, fun s hs => h5 s hs hlt, h6⟩
  refine ⟨r0 + 2, fun n hn => ?_⟩
  obtain ⟨r, _, e, h3, h4, h5, h6⟩ := run n hn
  obtain ⟨r', _, e', h3', h4', h5', h6'⟩ := run (r0 + 2) le_rfl
  have : r = r' := by
    rcases lt_trichotomy r r' with h | h | h
    · rcases r with _ | s
      · exact absurd (h3' (by omega)) (not_lt.2 (h4 rfl))
      · exact absurd (h6' s h) (not_lt.2 (h5 s rfl))
    · exact h
    · rcases r' with _ | s
      · exact absurd (h3 (by omega)) (not_lt.2 (h4' rfl))
      · exact absurd (h6 s h) (not_lt.2 (h5' s rfl))
  rw [e, e', this]

/-- **C167** (finding) The likelihood that the first round is compared with is not the bound of even probabilities: the
logarithms of the previous document's probabilities are read instead of their own, which adds, for every word, its
count times the divergence of even probabilities from those of the word in the same position of the previous
document.  It is never negative, and for the first document, where the table has zeros, the likelihood is too low by
the logarithm of the number of topics for every token. -/
theorem C167_stale_start (alpha : Fin (k + 1) → ℝ) (topics : Fin V → Fin (k + 1) → ℝ) (doc : Doc V)
    (hd : ∀ e ∈ doc, 0 ≤ e.2) (gamma : Fin (k + 1) → ℝ) (stale : Fin doc.length → Fin (k + 1) → ℝ) :
    let even := fun (_ : Fin doc.length) (_ : Fin (k + 1)) => ((k : ℝ) + 1)⁻¹
    lhood exact alpha topics doc gamma even stale = elbo alpha topics doc gamma even
      + ∑ n, doc[n].2 * ∑ j, ((k : ℝ) + 1)⁻¹ * (Real.log ((k : ℝ) + 1)⁻¹ - stale n j) ∧
    ((∀ n, ∑ j, Real.exp (stale n j) = 1) →
      elbo alpha topics doc gamma even ≤ lhood exact alpha topics doc gamma even stale) ∧
    ((∀ n j, stale n j = 0) → lhood exact alpha topics doc gamma even stale =
      elbo alpha topics doc gamma even - (doc.map Prod.snd).sum * Real.log ((k : ℝ) + 1)) := by
  intro even
  have main : lhood exact alpha topics doc gamma even stale = elbo alpha topics doc gamma even
      + ∑ n, doc[n].2 * ∑ j, ((k : ℝ) + 1)⁻¹ * (Real.log ((k : ℝ) + 1)⁻¹ - stale n j) := by
    rw [lhood_eq alpha topics doc gamma even stale fun n j => (even_probs _).pos n j]
    unfold elbo
    rw [sub_add_eq_add_sub, ← Finset.sum_add_distrib]
    congr 1
    refine Finset.sum_congr rfl fun n _ => ?_
    rw [← mul_add, ← Finset.sum_add_distrib]
    congr 1
    exact Finset.sum_congr rfl fun j _ => by ring
  refine ⟨main, fun hs => ?_, fun hz => ?_⟩
  · rw [main]
    refine le_add_of_nonneg_right (Finset.sum_nonneg fun n _ => mul_nonneg (hd _ (List.getElem_mem _)) ?_)
    have h := phi_best (stale n) (even n) ((even_probs _).pos n) ((even_probs _).sum n)
    rw [hs n, Real.log_one] at h
    have e : ∑ j, ((k : ℝ) + 1)⁻¹ * (Real.log ((k : ℝ) + 1)⁻¹ - stale n j)
        = - ∑ j, even n j * (stale n j - Real.log (even n j)) := by
      rw [← Finset.sum_neg_distrib]
      exact Finset.sum_congr rfl fun j _ => by ring
    rw [e]
    linarith
  · rw [main]
    have e : ∀ n : Fin doc.length, ∑ j, ((k : ℝ) + 1)⁻¹ * (Real.log ((k : ℝ) + 1)⁻¹ - stale n j) = - Real.log ((k : ℝ) + 1) := by
      intro n
      simp only [hz, sub_zero]
      rw [← Finset.sum_mul, (even_probs (k := k) doc.length).sum n, one_mul, Real.log_inv]
    simp only [e]
    rw [← Finset.sum_mul, sum_getElem doc Prod.snd]
    ring

/-! ## The hypotheses are met -/

example : (∀ j : Fin 2, (0 : ℝ) < (fun _ => 1 / 2 : Fin 2 → ℝ) j) ∧
    (∀ (w : Fin 3) (j : Fin 2), (fun w j => if w.val = j.val then (-1 : ℝ) else -2 : Fin 3 → Fin 2 → ℝ) w j < 0) ∧
    (∀ e ∈ ([(0, 2), (2, 1)] : Doc 3), 0 ≤ e.2) ∧ 0 < (([(0, 2), (2, 1)] : Doc 3).map Prod.snd).sum ∧ Probs (fun (_ : Fin 2) (_ : Fin (1 + 1)) => (((1 : ℕ) : ℝ) + 1)⁻¹) :=
  ⟨fun _ => by norm_num, fun w j => by dsimp only; split <;> norm_num, by simp, by norm_num, even_probs 2⟩

end Verif.LdaSeq

import Verif.Lda.EmModel
import Verif.Lda.BoundProps
import Verif.Lda.UpdateProps
import Verif.Lda.TrainProps

/-!
# C164: an update of the topics of an LDA model never makes the bound of its documents worse
-/

namespace Verif.LdaEm

open Verif.LdaInfer Verif.LdaBound Verif.Lda Verif.Dirichlet

variable {T W : Type} [Fintype T] [Fintype W] [DecidableEq W]

/-! ## Specification -/

/-- the variational bound of documents with given gammas: the expected log likelihood of the words, weighted by
`ratio`, minus the divergences of the documents' and of the topics' distributions from their priors; `eps` is added
to the probability of every word -/
noncomputable def elbo (eps : ℝ) (alpha : T → ℝ) (eta : Eta T W) (lam : T → W → ℝ) (ratio : ℝ)
    (docs : List (List (W × ℝ) × (T → ℝ))) : ℝ :=
  (docs.map fun d => docBound alpha (expElogbeta lam) eps d.1 d.2).sum * ratio + topicScore eta lam

/-! ## Lemmas -/

theorem log_sum_tangent [Nonempty T] (a δ : T → ℝ) (ha : ∀ k, 0 < a k) (e : ℝ) (he : 0 ≤ e) :
    Real.log (∑ k, a k + e) + ∑ k, a k / (∑ k, a k + e) * δ k ≤ Real.log (∑ k, a k * Real.exp (δ k) + e) := by
  have hS : 0 < ∑ k, a k := Finset.sum_pos (fun k _ => ha k) Finset.univ_nonempty
  have hS' : 0 < ∑ k, a k * Real.exp (δ k) :=
    Finset.sum_pos (fun k _ => mul_pos (ha k) (Real.exp_pos _)) Finset.univ_nonempty
  set N := ∑ k, a k + e with hN
  have hNp : 0 < N := by rw [hN]; linarith
  set m := ∑ k, a k / N * δ k with hm
  have hmN : ∑ k, a k * δ k = m * N := by
    rw [hm, Finset.sum_mul]
    exact Finset.sum_congr rfl fun k _ => by field_simp
  have h1 : ∀ k, a k * (Real.exp m * (1 + δ k - m)) ≤ a k * Real.exp (δ k) := by
    intro k
    apply mul_le_mul_of_nonneg_left _ (ha k).le
    have h2 := Real.add_one_le_exp (δ k - m)
    have h3 : Real.exp (δ k) = Real.exp m * Real.exp (δ k - m) := by rw [← Real.exp_add]; congr 1; ring
    rw [h3]
    exact mul_le_mul_of_nonneg_left (by linarith) (Real.exp_pos m).le
  have h0 : e * (Real.exp m * (1 - m)) ≤ e := by
    have h2 := Real.add_one_le_exp (0 - m)
    have h3 : Real.exp m * Real.exp (0 - m) = 1 := by rw [← Real.exp_add]; simp
    have h4 : Real.exp m * (1 - m) ≤ 1 := by
      rw [← h3]
      exact mul_le_mul_of_nonneg_left (by linarith) (Real.exp_pos m).le
    nlinarith
  have hsum := Finset.sum_le_sum fun k (_ : k ∈ Finset.univ) => h1 k
  have e2 : ∑ k, a k * (Real.exp m * (1 + δ k - m)) = Real.exp m * ((1 - m) * ∑ k, a k + m * N) := by
    rw [← hmN, Finset.mul_sum, ← Finset.sum_add_distrib, Finset.mul_sum]
    exact Finset.sum_congr rfl fun k _ => by ring
  rw [e2] at hsum
  have h5 : N * Real.exp m ≤ ∑ k, a k * Real.exp (δ k) + e := by
    have : N * Real.exp m = Real.exp m * ((1 - m) * ∑ k, a k + m * N) + e * (Real.exp m * (1 - m)) := by
      rw [hN]; ring
    linarith
  have h6 : Real.log (N * Real.exp m) ≤ Real.log (∑ k, a k * Real.exp (δ k) + e) :=
    Real.log_le_log (mul_pos hNp (Real.exp_pos m)) h5
  rwa [Real.log_mul hNp.ne' (Real.exp_pos m).ne', Real.log_exp] at h6

/-- moving from `x` towards `h` never lowers `Σ (h - x) E(x) + N(x)` -/
theorem segment [Nonempty W] (x h : W → ℝ) (hx : ∀ w, 0 < x w) (hh : ∀ w, 0 < h w) (t : ℝ) (h0 : 0 ≤ t) (h1 : t ≤ 1)
    (y : W → ℝ) (hy : ∀ w, y w = x w + t * (h w - x w)) :
    ∑ w, (h w - x w) * dirichletExpectation x w + logNorm x ≤
      ∑ w, (h w - y w) * dirichletExpectation y w + logNorm y := by
  rcases h0.eq_or_lt with h0 | h0
  · have : y = x := by funext w; rw [hy, ← h0]; ring
    rw [this]
  · have hyp : ∀ w, 0 < y w := by
      intro w
      rw [hy]
      have := hx w
      have := hh w
      nlinarith
    have t1 := logNormOn_tangent Finset.univ Finset.univ_nonempty x y (fun k _ => hx k) fun k _ => hyp k
    have t2 := logNormOn_tangent Finset.univ Finset.univ_nonempty y x (fun k _ => hyp k) fun k _ => hx k
    have a1 : ∑ w, (y w - x w) * (psi (x w) - psi (∑ k, x k)) = t * ∑ w, (h w - x w) * dirichletExpectation x w := by
      rw [Finset.mul_sum]
      exact Finset.sum_congr rfl fun w _ => by rw [hy]; unfold dirichletExpectation; ring
    have a2 : ∑ w, (x w - y w) * (psi (y w) - psi (∑ k, y k)) = - (t * ∑ w, (h w - x w) * dirichletExpectation y w) := by
      rw [Finset.mul_sum, ← Finset.sum_neg_distrib]
      refine Finset.sum_congr rfl fun w _ => ?_
      have : x w - y w = - (t * (h w - x w)) := by rw [hy]; ring
      rw [this]; unfold dirichletExpectation; ring
    have a3 : ∑ w, (h w - y w) * dirichletExpectation y w = (1 - t) * ∑ w, (h w - x w) * dirichletExpectation y w := by
      rw [Finset.mul_sum]
      refine Finset.sum_congr rfl fun w _ => ?_
      have : h w - y w = (1 - t) * (h w - x w) := by rw [hy]; ring
      rw [this]; ring
    rw [a1] at t1
    rw [a2] at t2
    rw [a3]
    unfold logNormOn at t1 t2
    unfold logNorm
    set A := ∑ w, (h w - x w) * dirichletExpectation x w
    set B := ∑ w, (h w - x w) * dirichletExpectation y w
    have hAB : A ≤ B := by
      have : t * A ≤ t * B := by linarith
      exact le_of_mul_le_mul_left this h0
    nlinarith

theorem topicScore_eq (eta : Eta T W) (lam : T → W → ℝ) :
    topicScore eta lam = ∑ k, (∑ w, (eta.at k w - lam k w) * dirichletExpectation (lam k) w + logNorm (lam k))
      + ∑ k, (Real.log (Real.Gamma eta.sum) - ∑ w, Real.log (Real.Gamma (eta.at k w))) := by
  unfold topicScore logNorm
  simp only [Finset.sum_sub_distrib, Finset.sum_add_distrib]
  ring

/-- the documents: what the topics' responsibilities gain is a lower bound of the gain of the documents -/
theorem docs_gain [Nonempty T] (p : Params T W) (hp : p.Pos) (lam lam' : T → W → ℝ)
    (hb : p.beta = expElogbeta lam) (docs : List (List (W × ℝ) × (T → ℝ))) (hd : ∀ d ∈ docs, ∀ x ∈ d.1, 0 ≤ x.2) :
    (docs.map fun d => docBound p.alpha (expElogbeta lam) p.eps d.1 d.2).sum
      + ∑ k, ∑ w, (docs.map fun d => totalCount d.1 w * phi p d.2 k w).sum *
          (dirichletExpectation (lam' k) w - dirichletExpectation (lam k) w)
      ≤ (docs.map fun d => docBound p.alpha (expElogbeta lam') p.eps d.1 d.2).sum := by
  induction docs with
  | nil => simp
  | cons d docs ih =>
    have ih := ih fun d hd' => hd d (by simp [hd'])
    have h1 : docBound p.alpha (expElogbeta lam) p.eps d.1 d.2
        + ∑ k, ∑ w, totalCount d.1 w * phi p d.2 k w * (dirichletExpectation (lam' k) w - dirichletExpectation (lam k) w)
        ≤ docBound p.alpha (expElogbeta lam') p.eps d.1 d.2 := by
      have hw : (d.1.map fun x => x.2 * Real.log (∑ k, expElog d.2 k * expElogbeta lam k x.1 + p.eps)).sum
          + ∑ k, ∑ w, totalCount d.1 w * phi p d.2 k w * (dirichletExpectation (lam' k) w - dirichletExpectation (lam k) w)
          ≤ (d.1.map fun x => x.2 * Real.log (∑ k, expElog d.2 k * expElogbeta lam' k x.1 + p.eps)).sum := by
        have e1 : ∑ k, ∑ w, totalCount d.1 w * phi p d.2 k w * (dirichletExpectation (lam' k) w - dirichletExpectation (lam k) w)
            = (d.1.map fun x => x.2 * ∑ k, phi p d.2 k x.1 *
                (dirichletExpectation (lam' k) x.1 - dirichletExpectation (lam k) x.1)).sum := by
          rw [list_sum_words d.1 (fun w => ∑ k, phi p d.2 k w *
                (dirichletExpectation (lam' k) w - dirichletExpectation (lam k) w)) Finset.univ (fun _ _ => Finset.mem_univ _),
            Finset.sum_comm]
          refine Finset.sum_congr rfl fun w _ => ?_
          rw [Finset.mul_sum]
          exact Finset.sum_congr rfl fun k _ => by ring
        rw [e1, ← List.sum_map_add]
        apply List.sum_le_sum
        intro x hx
        have hj := log_sum_tangent (fun k => expElog d.2 k * expElogbeta lam k x.1)
          (fun k => dirichletExpectation (lam' k) x.1 - dirichletExpectation (lam k) x.1)
          (fun k => mul_pos (expElog_pos _ _) (Real.exp_pos _)) p.eps hp.eps
        have e2 : ∀ k, expElog d.2 k * expElogbeta lam k x.1 *
            Real.exp (dirichletExpectation (lam' k) x.1 - dirichletExpectation (lam k) x.1)
            = expElog d.2 k * expElogbeta lam' k x.1 := by
          intro k
          unfold expElogbeta
          rw [mul_assoc, ← Real.exp_add]
          congr 2
          ring
        simp only [e2] at hj
        have e3 : ∀ k, phi p d.2 k x.1 = expElog d.2 k * expElogbeta lam k x.1 /
            (∑ k, expElog d.2 k * expElogbeta lam k x.1 + p.eps) := by
          intro k; unfold phi; rw [hb]
        simp only [e3]
        have := mul_le_mul_of_nonneg_left hj (hd d (by simp) x hx)
        linarith
      unfold docBound
      linarith
    have e : ∑ k, ∑ w, ((d :: docs).map fun d => totalCount d.1 w * phi p d.2 k w).sum *
          (dirichletExpectation (lam' k) w - dirichletExpectation (lam k) w)
        = ∑ k, ∑ w, totalCount d.1 w * phi p d.2 k w * (dirichletExpectation (lam' k) w - dirichletExpectation (lam k) w)
        + ∑ k, ∑ w, (docs.map fun d => totalCount d.1 w * phi p d.2 k w).sum *
          (dirichletExpectation (lam' k) w - dirichletExpectation (lam k) w) := by
      simp only [List.map_cons, List.sum_cons, add_mul, Finset.sum_add_distrib]
    rw [e, List.map_cons, List.sum_cons, List.map_cons, List.sum_cons]
    linarith

/-- the gain of documents and topics together -/
theorem elbo_gain [Nonempty T] [Nonempty W] (p : Params T W) (hp : p.Pos) (eta : Eta T W) (lam lam' : T → W → ℝ)
    (hb : p.beta = expElogbeta lam) (docs : List (List (W × ℝ) × (T → ℝ))) (hd : ∀ d ∈ docs, ∀ x ∈ d.1, 0 ≤ x.2)
    (ratio : ℝ) (hr : 0 ≤ ratio) (rho : ℝ) (h0 : 0 ≤ rho) (h1 : rho ≤ 1) (he : ∀ k w, 0 < eta.at k w)
    (hl : ∀ k w, 0 < lam k w)
    (hl' : ∀ k w, lam' k w = (1 - rho) * lam k w + rho * (eta.at k w + ratio *
      (docs.map fun d => totalCount d.1 w * phi p d.2 k w).sum)) :
    elbo p.eps p.alpha eta lam ratio docs ≤ elbo p.eps p.alpha eta lam' ratio docs := by
  set s : T → W → ℝ := fun k w => (docs.map fun d => totalCount d.1 w * phi p d.2 k w).sum with hs
  have hs0 : ∀ k w, 0 ≤ s k w := by
    intro k w
    apply List.sum_nonneg
    intro v hv
    obtain ⟨d, hdm, rfl⟩ := List.mem_map.mp hv
    refine mul_nonneg ?_ (phi_nonneg hp _ _ _)
    apply List.sum_nonneg
    intro v hv
    obtain ⟨x, hx, rfl⟩ := List.mem_map.mp hv
    exact hd d hdm x (List.mem_filter.mp hx).1
  have hg := docs_gain p hp lam lam' hb docs hd
  have hk : ∀ k, ∑ w, (eta.at k w - lam k w) * dirichletExpectation (lam k) w + logNorm (lam k)
      - ratio * ∑ w, s k w * (dirichletExpectation (lam' k) w - dirichletExpectation (lam k) w)
      ≤ ∑ w, (eta.at k w - lam' k w) * dirichletExpectation (lam' k) w + logNorm (lam' k) := by
    intro k
    have hseg := segment (lam k) (fun w => eta.at k w + ratio * s k w) (hl k)
      (fun w => by have := he k w; have := mul_nonneg hr (hs0 k w); linarith) rho h0 h1 (lam' k)
      (fun w => by rw [hl']; ring)
    have a1 : ∀ v : W → ℝ, ∑ w, (eta.at k w + ratio * s k w - v w) * dirichletExpectation v w =
        ∑ w, (eta.at k w - v w) * dirichletExpectation v w + ratio * ∑ w, s k w * dirichletExpectation v w := by
      intro v
      rw [Finset.mul_sum, ← Finset.sum_add_distrib]
      exact Finset.sum_congr rfl fun w _ => by ring
    rw [a1, a1] at hseg
    simp only [mul_sub, Finset.sum_sub_distrib] at *
    linarith
  have hsum := Finset.sum_le_sum fun k (_ : k ∈ Finset.univ) => hk k
  rw [Finset.sum_sub_distrib, ← Finset.mul_sum] at hsum
  unfold elbo
  rw [topicScore_eq, topicScore_eq]
  have := mul_le_mul_of_nonneg_right hg hr
  linarith

/-! ## C164 -/

/-- a model that can be trained: positive priors, no negative statistics -/
structure Good (t : Tr T W) : Prop where
  alpha : ∀ k, 0 < t.alpha k
  eta : ∀ k w, 0 < t.eta.at k w
  sstats : ∀ j, 0 ≤ t.state.sstats j

/-- documents of a corpus: each word once, with a count that is not negative -/
def Fair (docs : List (List (W × ℝ) × (T → ℝ))) : Prop :=
  ∀ d ∈ docs, (d.1.map Prod.fst).Nodup ∧ ∀ x ∈ d.1, 0 ≤ x.2

/-- the documents with the gammas of inference in place of their initial ones -/
noncomputable def withGammas (p : Params T W) (docs : List (List (W × ℝ) × (T → ℝ))) : List (List (W × ℝ) × (T → ℝ)) :=
  docs.map fun d => (d.1, inferDoc p d.1 d.2)

theorem params_pos {c : Cfg} (hc : 0 ≤ c.eps) {t : Tr T W} (ht : Good t) : (params c t).Pos :=
  ⟨ht.alpha, fun _ _ => Real.exp_pos _, hc⟩

theorem lambda_pos {t : Tr T W} (ht : Good t) (k : T) (w : W) : 0 < getLambda t k w :=
  add_pos_of_pos_of_nonneg (ht.eta k w) (ht.sstats (k, w))

theorem inference_flatten (p : Params T W) (g : List (List (List (W × ℝ) × (T → ℝ)))) (k : T) (w : W) :
    (g.map fun c => (inference p c).2 k w).sum = (inference p g.flatten).2 k w := by
  induction g with
  | nil => simp [(C90_inference p []).2 k w]
  | cons c g ih => rw [List.map_cons, List.sum_cons, ih, List.flatten_cons, (C90_chunks_add p c _).2]

theorem emStep_eq (c : Cfg) (pass : ℕ) (t : Tr T W) (g : List (List (List (W × ℝ) × (T → ℝ)))) :
    (emStep c pass t g).alpha = t.alpha ∧ (emStep c pass t g).eta = t.eta ∧
    (emStep c pass t g).state.numdocs = t.state.numdocs ∧
    ∀ k w, (emStep c pass t g).state.sstats (k, w) =
      (1 - LdaTrain.rho c.offset c.decay c.chunksize pass t.numUpdates) * t.state.sstats (k, w) +
      LdaTrain.rho c.offset c.decay c.chunksize pass t.numUpdates *
        (scaleTo t.state.numdocs g.flatten.length * (inference (params c t) g.flatten).2 k w) := by
  obtain ⟨h1, -, h2⟩ := C46_group_statistics (numerics c) pass t g
  obtain ⟨h3, h4⟩ := h2 fun _ _ _ => rfl
  unfold emStep
  dsimp only
  generalize hr : g.foldl (estep (numerics c) pass) (t, State.zero) = r at *
  obtain ⟨r1, r2⟩ := r
  dsimp only at h1 h3 h4
  subst h3
  refine ⟨rfl, rfl, rfl, fun k w => ?_⟩
  simp only [mstep, State.blend, Option.getD_none]
  rw [h4 (k, w), h1, ← List.length_flatten]
  have : (g.map fun ch => ((numerics c).infer r1 ch).1 (k, w)).sum = (inference (params c r1) g.flatten).2 k w :=
    inference_flatten _ _ _ _
  rw [this]
  have e : (scaleTo r1.state.numdocs r1.state.numdocs : ℝ) = 1 := by simp [scaleTo]
  rw [e]
  show _ * ((1 - LdaTrain.rho c.offset c.decay c.chunksize pass r1.numUpdates) * 1) +
    LdaTrain.rho c.offset c.decay c.chunksize pass r1.numUpdates * _ * _ = _
  ring

theorem stats_nonneg {p : Params T W} (hp : p.Pos) (docs : List (List (W × ℝ) × (T → ℝ))) (hd : Fair docs) (k : T) (w : W) :
    0 ≤ (inference p docs).2 k w := by
  haveI : Nonempty T := ⟨k⟩
  rw [(C90_inference p docs).2]
  apply List.sum_nonneg
  intro v hv
  obtain ⟨d, hdm, rfl⟩ := List.mem_map.mp hv
  refine mul_nonneg ?_ (phi_nonneg hp _ _ _)
  rw [lastCount_eq_total _ (hd d hdm).1]
  apply List.sum_nonneg
  intro v hv
  obtain ⟨x, hx, rfl⟩ := List.mem_map.mp hv
  exact (hd d hdm).2 x (List.mem_filter.mp hx).1

/-- **C164 (the model stays trainable).** An update of the topics keeps the priors and the number of documents, and
leaves a model that can be trained further. -/
theorem C164_keeps (c : Cfg) (hc : 0 ≤ c.eps) (ho : 1 ≤ c.offset) (hdec : 0 ≤ c.decay) (pass : ℕ) (t : Tr T W)
    (ht : Good t) (g : List (List (List (W × ℝ) × (T → ℝ)))) (hd : Fair g.flatten) :
    (emStep c pass t g).alpha = t.alpha ∧ (emStep c pass t g).eta = t.eta ∧
    (emStep c pass t g).state.numdocs = t.state.numdocs ∧ Good (emStep c pass t g) := by
  obtain ⟨h1, h2, h3, h4⟩ := emStep_eq c pass t g
  obtain ⟨r0, r1, -⟩ := (LdaTrain.C91_rho c.offset c.decay c.chunksize).1 ho hdec pass t.numUpdates
  refine ⟨h1, h2, h3, ⟨by rw [h1]; exact ht.alpha, by rw [h2]; exact ht.eta, ?_⟩⟩
  rintro ⟨k, w⟩
  rw [h4]
  have a1 := ht.sstats (k, w)
  have a2 := stats_nonneg (params_pos hc ht) _ hd k w
  have a3 : (0 : ℝ) ≤ scaleTo t.state.numdocs g.flatten.length := scaleTo_nonneg _ _
  have := mul_nonneg (sub_nonneg.2 r1) a1
  have := mul_nonneg r0.le (mul_nonneg a3 a2)
  linarith

/-- **C164 (one update of the topics).** With an offset of at least 1, a decay that is not negative and priors that
are not learnt: the E steps never lower the bound of the documents below that of their initial gammas, and the M step
never lowers it further, whatever the learning rate.  The documents are weighted as `log_perplexity` does: by the number of
documents seen over the number of documents of the update. -/
theorem C164_update [Nonempty T] [Nonempty W] (c : Cfg) (hc : 0 ≤ c.eps) (ho : 1 ≤ c.offset) (hdec : 0 ≤ c.decay)
    (pass : ℕ) (t : Tr T W) (ht : Good t) (g : List (List (List (W × ℝ) × (T → ℝ)))) (hne : g.flatten ≠ [])
    (hd : Fair g.flatten) :
    let ratio : ℝ := t.state.numdocs / g.flatten.length
    ((∀ d ∈ g.flatten, ∀ k, 0 < d.2 k) → elbo c.eps t.alpha t.eta (getLambda t) ratio g.flatten ≤
      elbo c.eps t.alpha t.eta (getLambda t) ratio (withGammas (params c t) g.flatten)) ∧
    elbo c.eps t.alpha t.eta (getLambda t) ratio (withGammas (params c t) g.flatten) ≤
      elbo c.eps t.alpha t.eta (getLambda (emStep c pass t g)) ratio (withGammas (params c t) g.flatten) := by
  intro ratio
  have hp := params_pos hc ht
  have hratio : 0 ≤ ratio := div_nonneg (Nat.cast_nonneg _) (Nat.cast_nonneg _)
  constructor
  · intro hg
    unfold elbo withGammas
    rw [List.map_map]
    have : (g.flatten.map fun d => docBound t.alpha (expElogbeta (getLambda t)) c.eps d.1 d.2).sum ≤
        (g.flatten.map ((fun d => docBound t.alpha (expElogbeta (getLambda t)) c.eps d.1 d.2) ∘
          fun d => (d.1, inferDoc (params c t) d.1 d.2))).sum := by
      apply List.sum_le_sum
      intro d hdm
      exact (C90_bound_never_decreases (params c t) hp d.1 (hd d hdm).2 d.2 (hg d hdm)).1
    have := mul_le_mul_of_nonneg_right this hratio
    linarith
  · obtain ⟨h1, h2, h3, h4⟩ := emStep_eq c pass t g
    obtain ⟨r0, r1, -⟩ := (LdaTrain.C91_rho c.offset c.decay c.chunksize).1 ho hdec pass t.numUpdates
    have hlen : 0 < g.flatten.length := List.length_pos_iff.2 hne
    refine elbo_gain (params c t) hp t.eta (getLambda t) _ rfl _ ?_ ratio hratio
      (LdaTrain.rho c.offset c.decay c.chunksize pass t.numUpdates) r0.le r1 ht.eta (lambda_pos ht) ?_
    · intro d hdm x hx
      obtain ⟨d', hd', rfl⟩ := List.mem_map.mp hdm
      exact (hd d' hd').2 x hx
    · intro k w
      have e : ((withGammas (params c t) g.flatten).map fun d => totalCount d.1 w * phi (params c t) d.2 k w).sum =
          (inference (params c t) g.flatten).2 k w := by
        rw [(C90_inference _ _).2]
        unfold withGammas
        rw [List.map_map]
        congr 1
        apply List.map_congr_left
        intro d hdm
        rw [lastCount_eq_total _ (hd d hdm).1]
        rfl
      rw [e]
      unfold getLambda
      rw [h2, h4, scaleTo_eq _ _ hlen]
      ring

/-- **C164 (the bound that users see).** Without the constant that inference adds to probabilities, the values of the
method `bound` before and after the update, for the documents of the update, their gammas and the weight of
`log_perplexity`: the second is not below the first. -/
theorem C164_bound [Nonempty T] [Nonempty W] (c : Cfg) (hc : c.eps = 0) (ho : 1 ≤ c.offset) (hdec : 0 ≤ c.decay)
    (pass : ℕ) (t : Tr T W) (ht : Good t) (g : List (List (List (W × ℝ) × (T → ℝ)))) (hne : g.flatten ≠ [])
    (hd : Fair g.flatten) :
    ∃ a b, bound t.alpha t.eta (getLambda t) (t.state.numdocs / g.flatten.length) (inferred (params c t) g.flatten) = .ok a ∧
      bound (emStep c pass t g).alpha (emStep c pass t g).eta (getLambda (emStep c pass t g))
        (t.state.numdocs / g.flatten.length) (inferred (params c t) g.flatten) = .ok b ∧ a ≤ b := by
  have h := (C164_update c hc.ge ho hdec pass t ht g hne hd).2
  have key : ∀ lam : T → W → ℝ, bound t.alpha t.eta lam (t.state.numdocs / g.flatten.length) (inferred (params c t) g.flatten)
      = .ok (elbo c.eps t.alpha t.eta lam (t.state.numdocs / g.flatten.length) (withGammas (params c t) g.flatten)) := by
    intro lam
    have := C131_bound (params c t) t.eta lam (t.state.numdocs / g.flatten.length) g.flatten
    rw [show (params c t).alpha = t.alpha from rfl] at this
    rw [this]
    congr 1
    unfold elbo withGammas
    rw [List.map_map, hc]
    congr 3
    apply List.map_congr_left
    intro d _
    have e := docScore_mat t.alpha lam d.1 (inferDoc (params c t) d.1 d.2)
    unfold docScore at e
    rw [wordScore_mat] at e
    simp only [bind, Except.bind, pure, Except.pure, Gamma.val, Except.ok.injEq] at e
    rw [← e]
    simp only [Function.comp, docBound, expElog, expElogbeta, dirichletExpectation, add_zero]
  obtain ⟨h1, h2, -⟩ := emStep_eq c pass t g
  refine ⟨_, _, key _, ?_, h⟩
  rw [h1, h2]
  exact key _

/-- **C164 (a whole pass).** A pass of `update` is a sequence of such updates of the topics, one for each group of
chunks; every one of them, from the model that the previous ones left, does not lower the bound of its documents, and
the pass leaves a model that can be trained further: so this holds for every update of every pass, however the
initial gammas are drawn. -/
theorem C164_pass [Nonempty T] [Nonempty W] (c : Cfg) (hc : 0 ≤ c.eps) (ho : 1 ≤ c.offset) (hdec : 0 ≤ c.decay)
    (every chunksize : ℕ) (hcs : 0 < chunksize) (corpus : List (List (W × ℝ) × (T → ℝ))) (hd : Fair corpus) (t : Tr T W)
    (ht : Good t) (pass : ℕ) :
    Good (runPass (numerics c) every chunksize corpus t pass) ∧
    ∃ groups : List (List (List (List (W × ℝ) × (T → ℝ)))), groups.flatten.flatten = corpus ∧
      (every = 0 → groups.length ≤ 1) ∧
      runPass (numerics c) every chunksize corpus t pass = groups.foldl (emStep c pass) t ∧
      ∀ pre g post, groups = pre ++ g :: post →
        let t1 := pre.foldl (emStep c pass) t
        Good t1 ∧ t1.alpha = t.alpha ∧ t1.eta = t.eta ∧ t1.state.numdocs = t.state.numdocs ∧
        elbo c.eps t.alpha t.eta (getLambda t1) (t.state.numdocs / g.flatten.length) (withGammas (params c t1) g.flatten) ≤
          elbo c.eps t.alpha t.eta (getLambda (emStep c pass t1 g)) (t.state.numdocs / g.flatten.length)
            (withGammas (params c t1) g.flatten) := by
  obtain ⟨groups, e1, e2, -, -, e3, e4⟩ := C46_pass (numerics c) every chunksize corpus t pass
  have hflat : groups.flatten.flatten = corpus := by rw [e1]; exact Verif.Chunk.C15_concat hcs corpus
  have hfair : ∀ g ∈ groups, Fair g.flatten := by
    intro g hg d hdm
    apply hd
    rw [← hflat]
    obtain ⟨ch, hch, hdc⟩ := List.mem_flatten.mp hdm
    exact List.mem_flatten.mpr ⟨ch, List.mem_flatten.mpr ⟨g, hg, hch⟩, hdc⟩
  have hnonempty : ∀ g ∈ groups, g.flatten ≠ [] := by
    intro g hg hnil
    obtain ⟨ch, hch⟩ := List.exists_mem_of_ne_nil g (e2 g hg)
    have hch' : ch ∈ Verif.Chunk.chunks chunksize corpus := by
      rw [← e1]; exact List.mem_flatten.mpr ⟨g, hg, hch⟩
    have := ((Verif.Chunk.C15_sizes hcs corpus).1 ch hch').1
    rw [List.flatten_eq_nil_iff] at hnil
    rw [hnil ch hch] at this
    simp at this
  have hfold : ∀ (gs : List (List (List (List (W × ℝ) × (T → ℝ))))) (t1 : Tr T W), (∀ g ∈ gs, Fair g.flatten) → Good t1 →
      Good (gs.foldl (emStep c pass) t1) ∧ (gs.foldl (emStep c pass) t1).alpha = t1.alpha ∧
      (gs.foldl (emStep c pass) t1).eta = t1.eta ∧ (gs.foldl (emStep c pass) t1).state.numdocs = t1.state.numdocs := by
    intro gs
    induction gs with
    | nil => intro t1 _ h; exact ⟨h, rfl, rfl, rfl⟩
    | cons g gs ih =>
      intro t1 hf h
      obtain ⟨k1, k2, k3, k4⟩ := C164_keeps c hc ho hdec pass t1 h g (hf g (by simp))
      obtain ⟨i1, i2, i3, i4⟩ := ih (emStep c pass t1 g) (fun g' hg' => hf g' (by simp [hg'])) k4
      exact ⟨i1, i2.trans k1, i3.trans k2, i4.trans k3⟩
  have e4' : runPass (numerics c) every chunksize corpus t pass = groups.foldl (emStep c pass) t := e4
  refine ⟨by rw [e4']; exact (hfold groups t hfair ht).1, groups, hflat, e3, e4', ?_⟩
  intro pre g post hg t1
  have hmem : g ∈ groups := by rw [hg]; simp
  obtain ⟨i1, i2, i3, i4⟩ := hfold pre t (fun g' hg' => hfair g' (by rw [hg]; simp [hg'])) ht
  refine ⟨i1, i2, i3, i4, ?_⟩
  have := (C164_update c hc ho hdec pass t1 i1 g (hnonempty g hmem) (hfair g hmem)).2
  rw [i2, i3, i4] at this
  exact this

/-- **C164 (the topics of a step).** The topics after an update are the topics before, moved by the learning rate
towards the prior plus the weighted statistics of the documents; with a learning rate of 1 they are just those. -/
theorem C164_topics (c : Cfg) (pass : ℕ) (t : Tr T W) (g : List (List (List (W × ℝ) × (T → ℝ)))) (hne : g.flatten ≠ [])
    (k : T) (w : W) :
    getLambda (emStep c pass t g) k w =
      (1 - LdaTrain.rho c.offset c.decay c.chunksize pass t.numUpdates) * getLambda t k w +
      LdaTrain.rho c.offset c.decay c.chunksize pass t.numUpdates * (t.eta.at k w +
        t.state.numdocs / g.flatten.length * (g.flatten.map fun d =>
          lastCount d.1 w * phi (params c t) (inferDoc (params c t) d.1 d.2) k w).sum) := by
  obtain ⟨-, h2, -, h4⟩ := emStep_eq c pass t g
  unfold getLambda
  rw [h2, h4, scaleTo_eq _ _ (List.length_pos_iff.2 hne), (C90_inference _ _).2]
  ring

theorem workerState_eq (c : Cfg) (pass : ℕ) (t : Tr T W) (jobs : List (List (List (W × ℝ) × (T → ℝ)))) :
    workerState c pass t jobs =
      ⟨fun j => (jobs.map fun ch => (inference (params c t) ch).2 j.1 j.2).sum, (jobs.map List.length).sum⟩ := by
  obtain ⟨h1, -, h2⟩ := C46_group_statistics (numerics c) pass t jobs
  obtain ⟨-, h4⟩ := h2 fun _ _ _ => rfl
  unfold workerState
  generalize (jobs.foldl (estep (numerics c) pass) (t, State.zero)).2 = s at *
  obtain ⟨s1, s2⟩ := s
  dsimp only at h1 h4
  rw [h1]
  congr 1
  funext j
  exact h4 j

theorem emStep_worker (c : Cfg) (pass : ℕ) (t : Tr T W) (g : List (List (List (W × ℝ) × (T → ℝ)))) :
    emStep c pass t g = mstep (numerics c) pass t (workerState c pass t g) := by
  obtain ⟨-, -, h2⟩ := C46_group_statistics (numerics c) pass t g
  obtain ⟨h3, -⟩ := h2 fun _ _ _ => rfl
  unfold emStep workerState
  dsimp only
  rw [h3]

theorem merge_workers (c : Cfg) (pass : ℕ) (t : Tr T W) (jobs : List (List (List (List (W × ℝ) × (T → ℝ)))))
    (pre : List (List (List (W × ℝ) × (T → ℝ)))) :
    (jobs.map (workerState c pass t)).foldl State.merge (workerState c pass t pre) =
      workerState c pass t (pre ++ jobs.flatten) := by
  induction jobs generalizing pre with
  | nil => simp
  | cons j jobs ih =>
    rw [List.map_cons, List.foldl_cons]
    have : (workerState c pass t pre).merge (workerState c pass t j) = workerState c pass t (pre ++ j) := by
      rw [workerState_eq, workerState_eq, workerState_eq]
      simp [State.merge]
    rw [this, ih, List.flatten_cons, List.append_assoc]

/-- **C164 (distributed).** In distributed mode the update is the same, however the chunks were spread over the
workers and in whatever order they were processed: so it does not lower the bound either. -/
theorem C164_distributed (c : Cfg) (pass : ℕ) (t : Tr T W) (jobs : List (List (List (List (W × ℝ) × (T → ℝ)))))
    (hw : jobs ≠ []) (chunks : List (List (List (W × ℝ) × (T → ℝ)))) (hp : jobs.flatten.Perm chunks) :
    emStepDistributed c pass t jobs = emStep c pass t chunks := by
  obtain ⟨j, jobs, rfl⟩ := List.exists_cons_of_ne_nil hw
  unfold emStepDistributed
  rw [List.map_cons]
  simp only
  rw [merge_workers, emStep_worker, ← List.flatten_cons, workerState_eq, workerState_eq, (hp.map List.length).sum_eq]
  congr 2
  funext x
  exact (hp.map _).sum_eq

example (a b d : List (List (Fin 2 × ℝ) × (Fin 2 → ℝ))) (c : Cfg) (t : Tr (Fin 2) (Fin 2)) :
    emStepDistributed c 0 t [[d], [], [b, a]] = emStep c 0 t [a, b, d] :=
  C164_distributed c 0 t _ (by simp) _ (by
    simp only [List.flatten_cons, List.flatten_nil, List.append_nil, List.singleton_append]
    exact List.reverse_perm [a, b, d] |>.symm.symm)

/-- non-vacuity: two topics, two words, two documents in one chunk, the first update of batch training -/
noncomputable def exTr : Tr (Fin 2) (Fin 2) := ⟨⟨fun j => if j.1 = j.2 then 2 else 1, 2⟩, fun _ => 1 / 2, .scalar (1 / 2), 0⟩

theorem exTr_good : Good exTr :=
  ⟨fun _ => by simp [exTr], fun _ _ => by simp [exTr, Eta.at], fun j => by simp only [exTr]; split <;> norm_num⟩

example : ∃ a b, bound exTr.alpha exTr.eta (getLambda exTr) (2 / 2)
      (inferred (params ⟨0, 1 / 1000, 50, 1, 1 / 2, 2000⟩ exTr) [([(0, 3), (1, 1)], fun _ => 1), ([(1, 2)], fun _ => 1)]) = .ok a ∧
    bound exTr.alpha exTr.eta
      (getLambda (emStep ⟨0, 1 / 1000, 50, 1, 1 / 2, 2000⟩ 0 exTr [[([(0, 3), (1, 1)], fun _ => 1), ([(1, 2)], fun _ => 1)]])) (2 / 2)
      (inferred (params ⟨0, 1 / 1000, 50, 1, 1 / 2, 2000⟩ exTr) [([(0, 3), (1, 1)], fun _ => 1), ([(1, 2)], fun _ => 1)]) = .ok b ∧
    a ≤ b := by
  have h := C164_bound ⟨0, 1 / 1000, 50, 1, 1 / 2, 2000⟩ rfl (le_refl 1) (by norm_num) 0 exTr exTr_good
    [[([(0, 3), (1, 1)], fun _ => 1), ([(1, 2)], fun _ => 1)]] (by simp) (by simp [Fair])
  obtain ⟨h1, h2, -⟩ := emStep_eq ⟨0, 1 / 1000, 50, 1, 1 / 2, 2000⟩ 0 exTr [[([(0, 3), (1, 1)], fun _ => 1), ([(1, 2)], fun _ => 1)]]
  rw [h1, h2] at h
  simpa [exTr] using h

end Verif.LdaEm

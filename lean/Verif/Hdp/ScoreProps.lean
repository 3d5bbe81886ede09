import Verif.Hdp.ScoreModel
import Verif.Lda.InferProps
import Verif.Lda.BoundProps
import Verif.Hdp.QueryProps

/-!
# C163: inference of documents by an HDP model, and the likelihood of test documents
-/

namespace Verif.HdpScore

open Verif Verif.Dirichlet

variable {T W : Type} [Fintype T]

/-! ## Specification -/

/-- the settings of an `LdaModel` that infers as the HDP model does: the constants of `hdpmodel.py` -/
noncomputable def asLda (alpha : T → ℝ) (beta : T → W → ℝ) (maxIter : ℕ) : LdaInfer.Params T W :=
  ⟨alpha, beta, 1 / 10 ^ 100, 1 / 10 ^ 5, maxIter⟩

/-- the variational bound of a document: the expected log probability of its words (with the constant inside the
logarithm) minus the divergence of the posterior from the prior -/
noncomputable def elbo (alpha : T → ℝ) (beta : T → W → ℝ) (doc : List (W × ℝ)) (g : T → ℝ) : ℝ :=
  (doc.map fun x => x.2 * Real.log (∑ k, Real.exp (psi (g k) - psi (∑ j, g j)) * beta k x.1 + 1 / 10 ^ 100)).sum
    - LdaBound.kl g alpha

/-! ## Lemmas -/

variable [DecidableEq W]

/-- what holds of the variables at any time: `theta` belongs to `gamma` -/
def Good (s : Vars T) : Prop := s.theta = LdaInfer.expElog s.gamma

theorem good_start : Good (start : Vars T) := by
  funext k; rfl

theorem turn_gamma (alpha : T → ℝ) (beta : T → W → ℝ) (m : ℕ) (doc : List (W × ℝ)) {s : Vars T} (h : Good s) :
    (turn alpha beta doc s).gamma = LdaInfer.gammaStep (asLda alpha beta m) (LdaInfer.expElog s.gamma) doc := by
  unfold Good at h
  rw [← h]
  funext k
  rfl

theorem turn_good (alpha : T → ℝ) (beta : T → W → ℝ) (doc : List (W × ℝ)) (s : Vars T) :
    Good (turn alpha beta doc s) ∧
    (turn alpha beta doc s).elog = some (LdaInfer.dirichletExpectation (turn alpha beta doc s).gamma) := ⟨rfl, rfl⟩

theorem turns_gamma (alpha : T → ℝ) (beta : T → W → ℝ) (m : ℕ) (doc : List (W × ℝ)) :
    ∀ (n : ℕ) (s : Vars T), Good s →
      (turns alpha beta doc n s).gamma = LdaInfer.loop (asLda alpha beta m) doc n s.gamma
  | 0, _, _ => rfl
  | n + 1, s, h => by
    unfold turns LdaInfer.loop
    simp only
    rw [← turn_gamma alpha beta m doc h]
    have hc : ((∑ k, |(turn alpha beta doc s).gamma k - s.gamma k|) / (Fintype.card T : ℝ) < 1 / 100000) ↔
        LdaInfer.meanChange (turn alpha beta doc s).gamma s.gamma < (asLda alpha beta m).threshold := by
      unfold LdaInfer.meanChange asLda
      norm_num
    by_cases hs : LdaInfer.meanChange (turn alpha beta doc s).gamma s.gamma < (asLda alpha beta m).threshold
    · rw [if_pos (hc.2 hs), if_pos hs]
    · rw [if_neg (fun hh => hs (hc.1 hh)), if_neg hs]
      exact turns_gamma alpha beta m doc n _ (turn_good alpha beta doc s).1

theorem turns_good (alpha : T → ℝ) (beta : T → W → ℝ) (doc : List (W × ℝ)) :
    ∀ (n : ℕ) (s : Vars T), Good (turns alpha beta doc (n + 1) s) ∧
      (turns alpha beta doc (n + 1) s).elog =
        some (LdaInfer.dirichletExpectation (turns alpha beta doc (n + 1) s).gamma)
  | n, s => by
    unfold turns
    simp only
    split
    · exact turn_good alpha beta doc s
    · cases n with
      | zero => exact turn_good alpha beta doc s
      | succ n => exact turns_good alpha beta doc n _

theorem docBound_elbo (alpha : T → ℝ) (beta : T → W → ℝ) (doc : List (W × ℝ)) (g : T → ℝ) :
    LdaInfer.docBound alpha beta (1 / 10 ^ 100) doc g = elbo alpha beta doc g := by
  unfold LdaInfer.docBound elbo LdaBound.kl LdaBound.logNorm LdaInfer.dirichletExpectation LdaInfer.expElog
    LdaInfer.dirichletExpectation
  rw [Finset.sum_sub_distrib]
  have : ∑ k, (alpha k - g k) * (psi (g k) - psi (∑ j, g j)) = - ∑ k, (g k - alpha k) * (psi (g k) - psi (∑ j, g j)) := by
    rw [← Finset.sum_neg_distrib]
    exact Finset.sum_congr rfl fun k _ => by ring
  rw [this]
  ring

/-! ## C163 -/

/-- C163 (inference): `lda_e_step` gives the gammas an `LdaModel` with the same priors and topics infers (started at
1, with the constants of `hdpmodel.py`), together with the variational bound of the document at these gammas. -/
theorem C163_e_step (alpha : T → ℝ) (beta : T → W → ℝ) (n : ℕ) (doc : List (W × ℝ)) :
    let g := LdaInfer.inferDoc (asLda alpha beta (n + 1)) doc fun _ => 1
    eStep alpha beta (n + 1) doc = some (elbo alpha beta doc g, g) := by
  intro g
  have hg : (turns alpha beta doc (n + 1) start).gamma = g :=
    turns_gamma alpha beta (n + 1) doc (n + 1) start good_start
  obtain ⟨h1, h2⟩ := turns_good alpha beta doc n start
  unfold eStep
  simp only
  rw [h2, ← docBound_elbo, ← hg]
  unfold Good at h1
  simp only [Option.map_some, h1]
  rfl

/-- C163 (no turns): with `max_iter=0` the function raises. -/
theorem C163_no_turns (alpha : T → ℝ) (beta : T → W → ℝ) (doc : List (W × ℝ)) : eStep alpha beta 0 doc = none := rfl

/-- C163 (bound): the likelihood is at least the bound of the document under the uniform start, more turns never lower
it, and for topics that are distributions it is never above 10^-100 for every word of the document (the constant
added inside the logarithm). -/
theorem C163_likelihood [Nonempty T] (alpha : T → ℝ) (ha : ∀ k, 0 < alpha k) (beta : T → W → ℝ)
    (hb : ∀ k w, 0 < beta k w ∧ beta k w ≤ 1) (doc : List (W × ℝ)) (hd : ∀ x ∈ doc, 0 ≤ x.2) (n more : ℕ) :
    ∃ l g l' g', eStep alpha beta (n + 1) doc = some (l, g) ∧ eStep alpha beta (n + 1 + more) doc = some (l', g') ∧
      elbo alpha beta doc (fun _ => 1) ≤ l ∧ l ≤ l' ∧ l' ≤ (doc.map Prod.snd).sum / 10 ^ 100 := by
  have hp : ∀ m, (asLda alpha beta m).Pos := fun m => ⟨ha, fun k w => (hb k w).1, by unfold asLda; positivity⟩
  have hm := C163_e_step alpha beta (n + more) doc
  rw [show n + more + 1 = n + 1 + more by ring] at hm
  refine ⟨_, _, _, _, C163_e_step alpha beta n doc, hm, ?_, ?_, ?_⟩
  · rw [← docBound_elbo, ← docBound_elbo]
    exact (LdaInfer.C90_bound_never_decreases (asLda alpha beta (n + 1)) (hp _) doc hd _ fun _ => one_pos).1
  · rw [← docBound_elbo, ← docBound_elbo]
    exact (LdaInfer.C90_bound_never_decreases (asLda alpha beta (n + 1)) (hp _) doc hd _ fun _ => one_pos).2 more
  · have hg : ∀ k, 0 < LdaInfer.inferDoc (asLda alpha beta (n + 1 + more)) doc (fun _ => 1) k := fun k =>
      ((LdaInfer.C90_gamma (asLda alpha beta (n + 1 + more)) (hp _) doc hd (fun _ => 1)
        (by unfold asLda; simp)).1 k).2
    generalize LdaInfer.inferDoc (asLda alpha beta (n + 1 + more)) doc (fun _ => 1) = g at hg
    have hk := LdaBound.kl_nonneg g alpha hg ha
    have hs : 0 < ∑ j, g j := Finset.sum_pos (fun j _ => hg j) Finset.univ_nonempty
    have hw : ∀ w, Real.log (∑ k, Real.exp (psi (g k) - psi (∑ j, g j)) * beta k w + 1 / 10 ^ 100) ≤ 1 / 10 ^ 100 := by
      intro w
      have h0 : 0 ≤ ∑ k, Real.exp (psi (g k) - psi (∑ j, g j)) * beta k w :=
        Finset.sum_nonneg fun k _ => mul_nonneg (Real.exp_pos _).le (hb k w).1.le
      have h1 : ∑ k, Real.exp (psi (g k) - psi (∑ j, g j)) * beta k w ≤ 1 := by
        calc _ ≤ ∑ k, g k / ∑ j, g j := Finset.sum_le_sum fun k _ => by
              calc _ ≤ Real.exp (psi (g k) - psi (∑ j, g j)) * 1 :=
                    mul_le_mul_of_nonneg_left (hb k w).2 (Real.exp_pos _).le
                _ ≤ _ := by rw [mul_one]; exact LdaBound.expElog_le g hg k
          _ = 1 := by rw [← Finset.sum_div, div_self hs.ne']
      have h2 : (0 : ℝ) < 1 / 10 ^ 100 := by positivity
      refine le_trans (Real.log_le_sub_one_of_pos (by linarith)) ?_
      linarith
    have hsum : ∀ l : List (W × ℝ), (∀ x ∈ l, 0 ≤ x.2) →
        (l.map fun x => x.2 * Real.log (∑ k, Real.exp (psi (g k) - psi (∑ j, g j)) * beta k x.1 + 1 / 10 ^ 100)).sum
          ≤ (l.map Prod.snd).sum / 10 ^ 100 := by
      intro l
      induction l with
      | nil => intro _; simp
      | cons x l ih =>
        intro hl
        have h1 := ih fun y hy => hl y (by simp [hy])
        have h2 := mul_le_mul_of_nonneg_left (hw x.1) (hl x (by simp))
        simp only [List.map_cons, List.sum_cons, add_div]
        rw [mul_one_div] at h2
        exact add_le_add h2 h1
    unfold elbo
    have := hsum doc hd
    linarith

/-- C163 (gammas): the gammas are those `hdp[bow]` is computed from. -/
theorem C163_inference {n : ℕ} [Fintype W] (alpha : Fin (n + 1) → ℝ) (beta : Fin (n + 1) → W → ℝ) (doc : Hdp.Doc W)
    (hne : doc ≠ []) :
    ∃ l, eStep alpha beta 100 doc = some (l, Hdp.inferDoc psi alpha beta doc) := by
  have hsum : ∀ f : W × ℝ → ℝ, ∑ i : Fin doc.length, f doc[i] = (doc.map f).sum := by
    intro f
    rw [← List.sum_ofFn]
    congr 1
    exact List.ofFn_getElem_eq_map doc f
  have hturn : ∀ g : Fin (n + 1) → ℝ,
      Hdp.ldaTurn alpha (fun t (i : Fin doc.length) => beta t doc[i].1) (fun i => doc[i].2) (Hdp.expElog psi g) =
        LdaInfer.gammaStep (asLda alpha beta 100) (LdaInfer.expElog g) doc := by
    intro g
    funext t
    unfold Hdp.ldaTurn LdaInfer.gammaStep
    congr 1
    congr 1
    exact hsum fun x => x.2 / (∑ u, Hdp.expElog psi g u * beta u x.1 + 1 / 10 ^ 100) * beta t x.1
  have hloop : ∀ m g, Hdp.ldaLoop psi alpha (fun t (i : Fin doc.length) => beta t doc[i].1) (fun i => doc[i].2) m g =
      LdaInfer.loop (asLda alpha beta 100) doc m g := by
    intro m
    induction m with
    | zero => intro g; rfl
    | succ m ih =>
      intro g
      unfold Hdp.ldaLoop LdaInfer.loop
      simp only
      rw [hturn]
      have hc : ((∑ k, |LdaInfer.gammaStep (asLda alpha beta 100) (LdaInfer.expElog g) doc k - g k|) /
          ((n + 1 : ℕ) : ℝ) < 1 / 100000) ↔
          LdaInfer.meanChange (LdaInfer.gammaStep (asLda alpha beta 100) (LdaInfer.expElog g) doc) g <
            (asLda alpha beta 100).threshold := by
        unfold LdaInfer.meanChange
        rw [Fintype.card_fin]
        have : (asLda alpha beta 100).threshold = 1 / 100000 := by unfold asLda; norm_num
        rw [this]
      by_cases hs : LdaInfer.meanChange (LdaInfer.gammaStep (asLda alpha beta 100) (LdaInfer.expElog g) doc) g <
            (asLda alpha beta 100).threshold
      · rw [if_pos (hc.2 hs), if_pos hs]
      · rw [if_neg (fun hh => hs (hc.1 hh)), if_neg hs, ih]
  have hg : Hdp.inferDoc psi alpha beta doc = LdaInfer.inferDoc (asLda alpha beta 100) doc fun _ => 1 := by
    unfold Hdp.inferDoc
    rw [if_neg hne, hloop]
    rfl
  rw [hg]
  exact ⟨_, C163_e_step alpha beta 99 doc⟩

/-- C163 (test corpus): `evaluate_test_corpus` is the sum of the bounds of the documents that are not empty, at the
gammas an `LdaModel` infers; for topics that are distributions it is never above 10^-100 for every word, and without
a non-empty document it raises. -/
theorem C163_evaluate [Fintype W] [Nonempty T] (alpha : T → ℝ) (ha : ∀ k, 0 < alpha k) (beta : T → W → ℝ)
    (hb : ∀ k w, 0 < beta k w ∧ beta k w ≤ 1) (docs : List (List (W × ℝ))) (hd : ∀ d ∈ docs, ∀ x ∈ d, 0 ≤ x.2) :
    ((∃ d ∈ docs, d ≠ []) → ∃ v, evaluateTest alpha beta docs = .ok v ∧
      v = ((docs.filter fun d => !d.isEmpty).map fun d =>
        elbo alpha beta d (LdaInfer.inferDoc (asLda alpha beta 100) d fun _ => 1)).sum ∧
      v ≤ (docs.flatten.map Prod.snd).sum / 10 ^ 100) ∧
    ((∀ d ∈ docs, d = []) → evaluateTest alpha beta docs = .error .zeroDivision) := by
  have hl : ∀ doc : List (W × ℝ), ((eStep alpha beta 100 doc).map Prod.fst).getD 0 =
      elbo alpha beta doc (LdaInfer.inferDoc (asLda alpha beta 100) doc fun _ => 1) := by
    intro doc
    rw [C163_e_step alpha beta 99 doc]
    rfl
  refine ⟨fun h => ?_, fun h => LdaBound.C131_hdp_empty _ docs h⟩
  refine ⟨_, LdaBound.C131_hdp _ docs h, ?_, ?_⟩
  · exact congrArg List.sum (List.map_congr_left fun d _ => hl d)
  · clear h
    induction docs with
    | nil => simp
    | cons d docs ih =>
      have h1 := ih fun e he => hd e (by simp [he])
      obtain ⟨l, g, l', g', e1, -, -, e2, e3⟩ := C163_likelihood alpha ha beta hb d (hd d (by simp)) 99 0
      have h2 : ((eStep alpha beta 100 d).map Prod.fst).getD 0 ≤ (d.map Prod.snd).sum / 10 ^ 100 := by
        rw [show (100 : ℕ) = 99 + 1 from rfl, e1]
        exact e2.trans e3
      rw [List.flatten_cons, List.map_append, List.sum_append, add_div, List.filter_cons]
      cases d with
      | nil => simpa using h1
      | cons x d =>
        simp only [List.isEmpty_cons, Bool.not_false, if_true, List.map_cons, List.sum_cons]
        exact add_le_add (by simpa using h2) h1

/-- C163 (trained models): the priors and topics of every trained HDP model meet the hypotheses. -/
theorem C163_trained {n m : ℕ} [Fintype W] [Nonempty W] (cfg : Hdp.Cfg) (hcfg : Hdp.CfgOk cfg)
    (order : (Fin (n + 1) → ℝ) → Equiv.Perm (Fin (n + 1))) (s : Hdp.St n W) (docs : ℕ)
    (h : Hdp.Reach m cfg order s docs) (test : List (List (W × ℝ))) (hd : ∀ d ∈ test, ∀ x ∈ d, 0 ≤ x.2)
    (hne : ∃ d ∈ test, d ≠ []) :
    ∃ v, evaluateTest (Hdp.ldaAlpha cfg s) (Hdp.ldaBeta cfg s) test = .ok v ∧
      v ≤ (test.flatten.map Prod.snd).sum / 10 ^ 100 := by
  obtain ⟨h1, -, h3, h4, -⟩ := Hdp.C98_hdp_to_lda cfg hcfg order s docs h
  obtain ⟨v, hv, -, hv'⟩ := (C163_evaluate (Hdp.ldaAlpha cfg s) h1 (Hdp.ldaBeta cfg s)
    (fun t w => ⟨h3 t w, by
      rw [← h4 t]
      exact Finset.single_le_sum (f := fun w => Hdp.ldaBeta cfg s t w) (fun w _ => (h3 t w).le) (Finset.mem_univ w)⟩)
    test hd).1 hne
  exact ⟨v, hv, hv'⟩

/-- non-vacuity: two topics, two words, a document of five words -/
example : ∃ l g l' g', eStep (T := Fin 2) (W := Fin 2) (fun _ => 1 / 2) (fun _ _ => 1 / 2) 3 [(0, 3), (1, 2)] = some (l, g) ∧
    eStep (T := Fin 2) (W := Fin 2) (fun _ => 1 / 2) (fun _ _ => 1 / 2) 7 [(0, 3), (1, 2)] = some (l', g') ∧
    elbo (fun _ => 1 / 2) (fun (_ _ : Fin 2) => 1 / 2) [(0, 3), (1, 2)] (fun _ => 1) ≤ l ∧ l ≤ l' ∧
    l' ≤ (([(0, 3), (1, 2)] : List (Fin 2 × ℝ)).map Prod.snd).sum / 10 ^ 100 :=
  C163_likelihood (fun _ => 1 / 2) (fun _ => by norm_num) (fun _ _ => 1 / 2) (fun _ _ => by norm_num) [(0, 3), (1, 2)]
    (by simp) 2 4

end Verif.HdpScore

import Verif.Lda.BoundModel
import Verif.Lda.InferProps
import Mathlib.Analysis.SpecialFunctions.Pow.Real

/-!
# C131: the bound and the perplexity of topic models
-/

namespace Verif.LdaBound

open Verif.LdaInfer Verif.Dirichlet

variable {T W : Type} [Fintype T] [Fintype W] [DecidableEq W]

/-! ## Specification -/

/-- the logarithm of the normalising constant of a Dirichlet distribution -/
noncomputable def logNorm {I : Type} [Fintype I] (a : I → ℝ) : ℝ :=
  ∑ i, Real.log (Real.Gamma (a i)) - Real.log (Real.Gamma (∑ i, a i))

/-- the Kullback-Leibler divergence of the Dirichlet distribution `a` from the Dirichlet distribution `b` -/
noncomputable def kl {I : Type} [Fintype I] (a b : I → ℝ) : ℝ :=
  logNorm b - logNorm a + ∑ i, (a i - b i) * (psi (a i) - psi (∑ j, a j))

/-- the expected log likelihood of a document's words, plus minus the divergence of its posterior -/
noncomputable def docElbo (alpha : T → ℝ) (lam : T → W → ℝ) (doc : List (W × ℝ)) (g : T → ℝ) : ℝ :=
  (doc.map fun x => x.2 * Real.log (∑ k, Real.exp (psi (g k) - psi (∑ j, g j)) *
    Real.exp (psi (lam k x.1) - psi (∑ w, lam k w)))).sum - kl g alpha

/-! ## Lemmas -/

theorem list_sum_nonpos : ∀ (l : List ℝ), (∀ x ∈ l, x ≤ 0) → l.sum ≤ 0
  | [], _ => by simp
  | x :: l, h => by
    have h1 := h x (by simp)
    have h2 := list_sum_nonpos l fun y hy => h y (by simp [hy])
    rw [List.sum_cons]
    linarith

theorem kl_nonneg {I : Type} [Fintype I] [Nonempty I] (a b : I → ℝ) (ha : ∀ i, 0 < a i) (hb : ∀ i, 0 < b i) :
    0 ≤ kl a b := by
  classical
  have h := logNormOn_tangent Finset.univ Finset.univ_nonempty a b (fun k _ => ha k) (fun k _ => hb k)
  unfold logNormOn at h
  unfold kl logNorm
  have e : ∑ i, (b i - a i) * (psi (a i) - psi (∑ j, a j)) = - ∑ i, (a i - b i) * (psi (a i) - psi (∑ j, a j)) := by
    rw [← Finset.sum_neg_distrib]
    exact Finset.sum_congr rfl fun i _ => by ring
  rw [e] at h
  linarith

theorem kl_self {I : Type} [Fintype I] (a : I → ℝ) : kl a a = 0 := by simp [kl]

/-- the expectation of the logarithm is at most the logarithm of the expectation -/
theorem expElog_le {I : Type} [Fintype I] (a : I → ℝ) (ha : ∀ i, 0 < a i) (i : I) :
    Real.exp (psi (a i) - psi (∑ j, a j)) ≤ a i / ∑ j, a j := by
  classical
  have hne : (Finset.univ : Finset I).Nonempty := ⟨i, Finset.mem_univ i⟩
  have hs : 0 < ∑ j, a j := Finset.sum_pos (fun j _ => ha j) hne
  have hb : ∀ j, 0 < (Function.update a i (a i + 1)) j := by
    intro j
    by_cases hj : j = i
    · subst hj; simp; linarith [ha j]
    · simp [hj, ha j]
  have h := logNormOn_tangent Finset.univ hne a (Function.update a i (a i + 1)) (fun k _ => ha k) (fun k _ => hb k)
  unfold logNormOn at h
  have e1 : ∑ j, Function.update a i (a i + 1) j = ∑ j, a j + 1 := by
    rw [Finset.sum_update_of_mem (Finset.mem_univ i), ← Finset.sum_sdiff (Finset.subset_univ {i}) (f := a)]
    simp; ring
  have e2 : ∑ j, Real.log (Real.Gamma (Function.update a i (a i + 1) j)) =
      ∑ j, Real.log (Real.Gamma (a j)) + (Real.log (Real.Gamma (a i + 1)) - Real.log (Real.Gamma (a i))) := by
    have : (fun j => Real.log (Real.Gamma (Function.update a i (a i + 1) j))) =
        Function.update (fun j => Real.log (Real.Gamma (a j))) i (Real.log (Real.Gamma (a i + 1))) := by
      funext j
      by_cases hj : j = i
      · subst hj; simp
      · simp [hj]
    rw [this, Finset.sum_update_of_mem (Finset.mem_univ i),
      ← Finset.sum_sdiff (Finset.subset_univ {i}) (f := fun j => Real.log (Real.Gamma (a j)))]
    simp; ring
  have e3 : ∑ j, (Function.update a i (a i + 1) j - a j) * (psi (a j) - psi (∑ j, a j)) = psi (a i) - psi (∑ j, a j) := by
    rw [Finset.sum_eq_single i]
    · simp
    · intro j _ hj; simp [hj]
    · intro hj; exact absurd (Finset.mem_univ i) hj
  rw [e1, e2, e3, Real.Gamma_add_one (ha i).ne', Real.Gamma_add_one hs.ne',
    Real.log_mul (ha i).ne' (Real.Gamma_pos_of_pos (ha i)).ne',
    Real.log_mul hs.ne' (Real.Gamma_pos_of_pos hs).ne'] at h
  rw [← Real.le_log_iff_exp_le (div_pos (ha i) hs), Real.log_div (ha i).ne' hs.ne']
  linarith

theorem docElbo_nonpos [Nonempty T] (alpha : T → ℝ) (hα : ∀ k, 0 < alpha k) (lam : T → W → ℝ) (hl : ∀ k w, 0 < lam k w)
    (doc : List (W × ℝ)) (hd : ∀ x ∈ doc, 0 ≤ x.2) (g : T → ℝ) (hg : ∀ k, 0 < g k) :
    docElbo alpha lam doc g ≤ 0 := by
  have hk := kl_nonneg g alpha hg hα
  have hw : (doc.map fun x => x.2 * Real.log (∑ k, Real.exp (psi (g k) - psi (∑ j, g j)) *
      Real.exp (psi (lam k x.1) - psi (∑ w, lam k w)))).sum ≤ 0 := by
    apply list_sum_nonpos
    intro v hv
    obtain ⟨x, hx, rfl⟩ := List.mem_map.mp hv
    apply mul_nonpos_of_nonneg_of_nonpos (hd x hx)
    apply Real.log_nonpos
    · exact Finset.sum_nonneg fun k _ => mul_nonneg (Real.exp_pos _).le (Real.exp_pos _).le
    · have hs : 0 < ∑ j, g j := Finset.sum_pos (fun j _ => hg j) Finset.univ_nonempty
      have h1 : ∀ k, Real.exp (psi (g k) - psi (∑ j, g j)) * Real.exp (psi (lam k x.1) - psi (∑ w, lam k w)) ≤ g k / ∑ j, g j := by
        intro k
        have a1 := expElog_le g hg k
        have a2 := expElog_le (lam k) (hl k) x.1
        have a3 : lam k x.1 / ∑ w, lam k w ≤ 1 := by
          have hls : 0 < ∑ w, lam k w := Finset.sum_pos (fun j _ => hl k j) ⟨x.1, Finset.mem_univ _⟩
          rw [div_le_one hls]
          exact Finset.single_le_sum (f := fun w => lam k w) (fun w _ => (hl k w).le) (Finset.mem_univ _)
        calc _ ≤ Real.exp (psi (g k) - psi (∑ j, g j)) * 1 :=
              mul_le_mul_of_nonneg_left (a2.trans a3) (Real.exp_pos _).le
          _ ≤ _ := by rw [mul_one]; exact a1
      calc _ ≤ ∑ k, g k / ∑ j, g j := Finset.sum_le_sum fun k _ => h1 k
        _ = 1 := by rw [← Finset.sum_div, div_self hs.ne']
  unfold docElbo
  linarith

theorem wordScore_mat (lam : T → W → ℝ) (g : T → ℝ) (doc : List (W × ℝ)) :
    wordScore lam (.mat g) doc = .ok (doc.map fun x => x.2 * Real.log (∑ k, Real.exp (psi (g k) - psi (∑ j, g j)) *
      Real.exp (psi (lam k x.1) - psi (∑ w, lam k w)))).sum := by
  induction doc with
  | nil => rfl
  | cons x doc ih =>
    unfold wordScore
    rw [ih]
    simp only [logSumExp, bind, Except.bind, pure, Except.pure, List.map_cons, List.sum_cons, dirichletExpectation, Real.exp_add]

theorem docScore_mat (alpha : T → ℝ) (lam : T → W → ℝ) (doc : List (W × ℝ)) (g : T → ℝ) :
    docScore alpha lam doc (.mat g) = .ok (docElbo alpha lam doc g) := by
  unfold docScore
  rw [wordScore_mat]
  simp only [bind, Except.bind, pure, Except.pure, Gamma.val, docElbo, kl, logNorm, dirichletExpectation,
    Finset.sum_sub_distrib]
  congr 1
  have e : ∑ k, (alpha k - g k) * (psi (g k) - psi (∑ j, g j)) = - ∑ k, (g k - alpha k) * (psi (g k) - psi (∑ j, g j)) := by
    rw [← Finset.sum_neg_distrib]
    exact Finset.sum_congr rfl fun i _ => by ring
  rw [e]
  ring

theorem docsScore_mat (alpha : T → ℝ) (lam : T → W → ℝ) (docs : List (List (W × ℝ) × (T → ℝ))) (score : ℝ) :
    docsScore alpha lam (docs.map fun d => (d.1, .mat d.2)) score =
      .ok (score + (docs.map fun d => docElbo alpha lam d.1 d.2).sum) := by
  induction docs generalizing score with
  | nil => simp [docsScore]
  | cons d docs ih =>
    simp only [List.map_cons, docsScore, docScore_mat, bind, Except.bind, ih, List.sum_cons]
    congr 1
    ring

/-! ## The bound -/

/-- **C131.** With a scalar or vector prior `eta` the part of the topics is minus the sum over the topics of
the divergence of their distribution from the prior; it is never positive, and zero when the topics are as the
prior says. -/
theorem C131_topics [Nonempty W] (eta : W → ℝ) (he : ∀ w, 0 < eta w) (lam : T → W → ℝ) (hl : ∀ k w, 0 < lam k w) :
    topicScore (.vec eta) lam = - ∑ k, kl (lam k) eta ∧ topicScore (.vec eta) lam ≤ 0 ∧
    ((∀ k, lam k = eta) → topicScore (.vec eta) lam = 0) ∧
    ∀ e : ℝ, topicScore (.scalar e) lam = topicScore (.vec fun _ => e) lam := by
  have e : topicScore (.vec eta) lam = - ∑ k, kl (lam k) eta := by
    unfold topicScore
    rw [← Finset.sum_add_distrib, ← Finset.sum_add_distrib, ← Finset.sum_neg_distrib]
    apply Finset.sum_congr rfl
    intro k _
    simp only [Eta.at, Eta.sum, kl, logNorm, dirichletExpectation, Finset.sum_sub_distrib]
    have e : ∑ w, (eta w - lam k w) * (psi (lam k w) - psi (∑ j, lam k j)) =
        - ∑ w, (lam k w - eta w) * (psi (lam k w) - psi (∑ j, lam k j)) := by
      rw [← Finset.sum_neg_distrib]
      exact Finset.sum_congr rfl fun i _ => by ring
    rw [e]
    ring
  refine ⟨e, ?_, ?_, ?_⟩
  · rw [e, neg_nonpos]
    exact Finset.sum_nonneg fun k _ => kl_nonneg _ _ (hl k) he
  · intro h
    rw [e]
    simp [h, kl_self]
  · intro c
    simp [topicScore, Eta.at, Eta.sum, mul_comm]

/-- **C131.** `bound(corpus)` is the sum of the documents' bounds, scaled, plus the part of the topics. -/
theorem C131_bound (p : Params T W) (eta : Eta T W) (lam : T → W → ℝ) (ratio : ℝ)
    (docs : List (List (W × ℝ) × (T → ℝ))) :
    bound p.alpha eta lam ratio (inferred p docs) =
      .ok ((docs.map fun d => docElbo p.alpha lam d.1 (inferDoc p d.1 d.2)).sum * ratio + topicScore eta lam) := by
  have h := docsScore_mat p.alpha lam (docs.map fun d => (d.1, inferDoc p d.1 d.2)) 0
  simp only [List.map_map, Function.comp_def, zero_add] at h
  unfold bound inferred
  rw [h]
  rfl

/-- **C131.** The bound of a corpus does not depend on the order of its documents (with the same starts of the
inference), and is additive over its parts except for the part of the topics. -/
theorem C131_parts (p : Params T W) (eta : Eta T W) (lam : T → W → ℝ) (ratio : ℝ)
    (docs docs' : List (List (W × ℝ) × (T → ℝ))) :
    (docs.Perm docs' → bound p.alpha eta lam ratio (inferred p docs) = bound p.alpha eta lam ratio (inferred p docs')) ∧
    ∃ a b, bound p.alpha eta lam ratio (inferred p docs) = .ok a ∧ bound p.alpha eta lam ratio (inferred p docs') = .ok b ∧
      bound p.alpha eta lam ratio (inferred p (docs ++ docs')) = .ok (a + b - topicScore eta lam) := by
  constructor
  · intro h
    rw [C131_bound, C131_bound, (h.map fun d => docElbo p.alpha lam d.1 (inferDoc p d.1 d.2)).sum_eq]
  · refine ⟨_, _, C131_bound .., C131_bound .., ?_⟩
    rw [C131_bound, List.map_append, List.sum_append]
    congr 1
    ring

/-- the inferred `gammad` is positive -/
theorem inferDoc_pos [Nonempty T] (p : Params T W) (hp : p.Pos) (doc : List (W × ℝ)) (hd : ∀ x ∈ doc, 0 ≤ x.2)
    (g0 : T → ℝ) (hi : 0 < p.iterations) (k : T) : 0 < inferDoc p doc g0 k :=
  ((C90_gamma p hp doc hd g0 hi).1 k).2

/-- **C131.** The bound is never positive: a bound on the logarithm of a probability. -/
theorem C131_nonpositive [Nonempty T] [Nonempty W] (p : Params T W) (hp : p.Pos) (hi : 0 < p.iterations) (eta : W → ℝ)
    (he : ∀ w, 0 < eta w) (lam : T → W → ℝ) (hl : ∀ k w, 0 < lam k w) (ratio : ℝ) (hr : 0 ≤ ratio)
    (docs : List (List (W × ℝ) × (T → ℝ))) (hd : ∀ d ∈ docs, ∀ x ∈ d.1, 0 ≤ x.2) :
    ∃ b, bound p.alpha (.vec eta) lam ratio (inferred p docs) = .ok b ∧ b ≤ topicScore (.vec eta) lam ∧ b ≤ 0 := by
  refine ⟨_, C131_bound .., ?_⟩
  have h1 : (docs.map fun d => docElbo p.alpha lam d.1 (inferDoc p d.1 d.2)).sum ≤ 0 := by
    apply list_sum_nonpos
    intro v hv
    obtain ⟨d, hd', rfl⟩ := List.mem_map.mp hv
    exact docElbo_nonpos p.alpha hp.alpha lam hl d.1 (hd d hd') _ (inferDoc_pos p hp d.1 (hd d hd') d.2 hi)
  have h2 := mul_nonpos_of_nonpos_of_nonneg h1 hr
  have h3 := (C131_topics eta he lam hl).2.1
  exact ⟨by linarith, by linarith⟩

/-! ## The perplexity -/

/-- the words of a chunk -/
noncomputable def words (docs : List (List (W × ℝ) × (T → ℝ))) : ℝ := (docs.map fun d => (d.1.map Prod.snd).sum).sum

/-- **C131.** The per-word bound is the mean bound of the documents per word of the chunk, plus the part of
the topics spread over the words expected in `total_docs` documents. -/
theorem C131_per_word (p : Params T W) (eta : Eta T W) (lam : T → W → ℝ) (total : Option ℕ)
    (docs : List (List (W × ℝ) × (T → ℝ))) (hne : docs ≠ []) (ht : 0 < total.getD docs.length) :
    logPerplexity p.alpha eta lam total (inferred p docs) =
      .ok ((docs.map fun d => docElbo p.alpha lam d.1 (inferDoc p d.1 d.2)).sum / words docs +
        topicScore eta lam / ((total.getD docs.length : ℕ) * (words docs / docs.length))) := by
  have hlen : (inferred p docs).length = docs.length := by simp [inferred]
  have hw : ((inferred p docs).map fun d => (d.1.map Prod.snd).sum).sum = words docs := by
    simp [inferred, words, Function.comp_def]
  have hn : docs.length ≠ 0 := by simpa using hne
  unfold logPerplexity
  rw [hlen, hw, if_neg hn]
  simp only [C131_bound, bind, Except.bind, pure, Except.pure, one_mul]
  congr 1
  have hn' : (docs.length : ℝ) ≠ 0 := Nat.cast_ne_zero.mpr hn
  have ht' : ((total.getD docs.length : ℕ) : ℝ) ≠ 0 := Nat.cast_ne_zero.mpr (by omega)
  rw [add_div]
  congr 1
  · by_cases h0 : words docs = 0
    · simp [h0]
    · field_simp
  · congr 1
    ring

/-- **C131.** The per-word bound is never positive, so the perplexity `2 ** -bound` is at least one; and it does
not decrease when the same chunk is said to come from a larger corpus. -/
theorem C131_perplexity [Nonempty T] [Nonempty W] (p : Params T W) (hp : p.Pos) (hi : 0 < p.iterations) (eta : W → ℝ)
    (he : ∀ w, 0 < eta w) (lam : T → W → ℝ) (hl : ∀ k w, 0 < lam k w)
    (docs : List (List (W × ℝ) × (T → ℝ))) (hne : docs ≠ []) (hd : ∀ d ∈ docs, ∀ x ∈ d.1, 0 ≤ x.2)
    (t t' : ℕ) (ht : 0 < t) (htt : t ≤ t') :
    ∃ v v', logPerplexity p.alpha (.vec eta) lam (some t) (inferred p docs) = .ok v ∧
      logPerplexity p.alpha (.vec eta) lam (some t') (inferred p docs) = .ok v' ∧ v ≤ v' ∧ v' ≤ 0 ∧
      1 ≤ (2 : ℝ) ^ (-v) := by
  have e1 := C131_per_word p (.vec eta) lam (some t) docs hne ht
  have e2 := C131_per_word p (.vec eta) lam (some t') docs hne (by simp; omega)
  simp only [Option.getD_some] at e1 e2
  have hw : 0 ≤ words docs := by
    apply List.sum_nonneg
    intro v hv
    obtain ⟨d, hd', rfl⟩ := List.mem_map.mp hv
    apply List.sum_nonneg
    intro u hu
    obtain ⟨x, hx, rfl⟩ := List.mem_map.mp hu
    exact hd d hd' x hx
  have hn : (0 : ℝ) < docs.length := Nat.cast_pos.mpr (List.length_pos_of_ne_nil hne)
  have h1 : (docs.map fun d => docElbo p.alpha lam d.1 (inferDoc p d.1 d.2)).sum ≤ 0 := by
    apply list_sum_nonpos
    intro v hv
    obtain ⟨d, hd', rfl⟩ := List.mem_map.mp hv
    exact docElbo_nonpos p.alpha hp.alpha lam hl d.1 (hd d hd') _ (inferDoc_pos p hp d.1 (hd d hd') d.2 hi)
  have h3 := (C131_topics eta he lam hl).2.1
  have ht' : (0 : ℝ) < t := Nat.cast_pos.mpr ht
  have htt' : (t : ℝ) ≤ t' := Nat.cast_le.mpr htt
  have hle : topicScore (.vec eta) lam / ((t : ℝ) * (words docs / docs.length)) ≤
      topicScore (.vec eta) lam / ((t' : ℝ) * (words docs / docs.length)) := by
    rcases hw.eq_or_lt with h0 | h0
    · simp [← h0]
    · have ha : 0 < (t : ℝ) * (words docs / docs.length) := mul_pos ht' (div_pos h0 hn)
      have hb : (t : ℝ) * (words docs / docs.length) ≤ (t' : ℝ) * (words docs / docs.length) :=
        mul_le_mul_of_nonneg_right htt' (div_nonneg hw hn.le)
      have := div_le_div_of_nonneg_left (neg_nonneg.mpr h3) ha hb
      rw [neg_div, neg_div] at this
      linarith
  have hz1 := div_nonpos_of_nonpos_of_nonneg h1 hw
  have hz2 : topicScore (.vec eta) lam / ((t' : ℝ) * (words docs / docs.length)) ≤ 0 :=
    div_nonpos_of_nonpos_of_nonneg h3 (mul_nonneg (ht'.le.trans htt') (div_nonneg hw hn.le))
  refine ⟨_, _, e1, e2, by linarith, by linarith, ?_⟩
  apply Real.one_le_rpow (by norm_num)
  linarith

/-- **C131.** An empty chunk is an error. -/
theorem C131_empty (alpha : T → ℝ) (eta : Eta T W) (lam : T → W → ℝ) (total : Option ℕ) :
    logPerplexity alpha eta lam total [] = .error .zeroDivision := rfl

/-! ## Findings -/

theorem wordScore_row (lam : T → W → ℝ) (g : T → ℝ) (doc : List (W × ℝ)) (h : doc ≠ []) :
    wordScore lam (.row g) doc = .error .valueError := by
  cases doc with
  | nil => exact absurd rfl h
  | cons x doc => rfl

/-- **C131 (finding).** `bound(corpus, gamma=gamma)` raises as soon as a document has a word. -/
theorem C131_given_gamma (alpha : T → ℝ) (eta : Eta T W) (lam : T → W → ℝ) (ratio : ℝ)
    (docs : List (List (W × ℝ) × (T → ℝ))) (h : ∃ d ∈ docs, d.1 ≠ []) :
    bound alpha eta lam ratio (given docs) = .error .valueError := by
  have key : ∀ score, docsScore alpha lam (given docs) score = .error .valueError := by
    induction docs with
    | nil => obtain ⟨d, hd, -⟩ := h; cases hd
    | cons d docs ih =>
      intro score
      by_cases h1 : d.1 = []
      · have h' : ∃ d ∈ docs, d.1 ≠ [] := by
          obtain ⟨x, hx, hx'⟩ := h
          rcases List.mem_cons.mp hx with rfl | hx
          · exact absurd h1 hx'
          · exact ⟨x, hx, hx'⟩
        simp only [given, List.map_cons, docsScore, docScore, h1, wordScore, bind, Except.bind, pure, Except.pure]
        exact ih h' _
      · simp only [given, List.map_cons, docsScore, docScore, wordScore_row lam d.2 d.1 h1, bind, Except.bind]
  unfold bound
  rw [key]
  rfl

/-- **C131 (finding).** With a prior given as a matrix (one row per topic) the part of the topics is not minus
the divergences from the rows: the sum over the whole matrix is used where the sum of the topic's row belongs. -/
theorem C131_matrix_eta (eta : T → W → ℝ) (lam : T → W → ℝ) :
    topicScore (.mat eta) lam = - ∑ k, kl (lam k) (eta k) +
      ∑ k, (Real.log (Real.Gamma (∑ j, ∑ w, eta j w)) - Real.log (Real.Gamma (∑ w, eta k w))) := by
  unfold topicScore
  rw [← Finset.sum_add_distrib, ← Finset.sum_add_distrib, ← Finset.sum_neg_distrib, ← Finset.sum_add_distrib]
  apply Finset.sum_congr rfl
  intro k _
  simp only [Eta.at, Eta.sum, kl, logNorm, dirichletExpectation, Finset.sum_sub_distrib]
  have e : ∑ w, (eta k w - lam k w) * (psi (lam k w) - psi (∑ j, lam k j)) =
      - ∑ w, (lam k w - eta k w) * (psi (lam k w) - psi (∑ j, lam k j)) := by
    rw [← Finset.sum_neg_distrib]
    exact Finset.sum_congr rfl fun i _ => by ring
  rw [e]
  ring

/-- **C131 (finding).** With such a prior the "bound" can be positive: two topics over two words, as the prior
says, and no document. -/
theorem C131_matrix_eta_positive :
    ∃ b, bound (T := Fin 2) (W := Fin 2) (fun _ => 1) (.mat fun _ _ => 1) (fun _ _ => 1) 1 [] = .ok b ∧ 0 < b := by
  refine ⟨_, rfl, ?_⟩
  rw [C131_matrix_eta]
  have h4 : Real.Gamma 4 = 6 := by
    have := Real.Gamma_nat_eq_factorial 3
    norm_num [Nat.factorial] at this ⊢
    first | done | exact this
  have h2 : Real.Gamma 2 = 1 := Real.Gamma_two
  simp only [kl_self, Finset.sum_const_zero, Finset.sum_const, Finset.card_univ, Fintype.card_fin, nsmul_eq_mul, mul_one]
  norm_num [h4, h2]
  exact Real.log_pos (by norm_num)

/-! ## HdpModel -/

/-- **C131.** `evaluate_test_corpus` adds up the likelihoods of the documents that have words. -/
theorem C131_hdp (likelihood : List (W × ℝ) → ℝ) (docs : List (List (W × ℝ))) (h : ∃ d ∈ docs, d ≠ []) :
    evaluate likelihood docs = .ok (((docs.filter (fun d => !d.isEmpty)).map likelihood).sum) := by
  have key : ∀ (l : List (List (W × ℝ))) (score total : ℝ), (evalLoop likelihood l score total).1 =
      score + ((l.filter (fun d => !d.isEmpty)).map likelihood).sum := by
    intro l
    induction l with
    | nil => intro s t; simp [evalLoop]
    | cons d l ih =>
      intro s t
      cases d with
      | nil => simp [evalLoop, ih]
      | cons x d => simp [evalLoop, ih]; ring
  have hany : docs.any (fun d => decide (0 < d.length)) = true := by
    obtain ⟨d, hd, hne⟩ := h
    rw [List.any_eq_true]
    exact ⟨d, hd, by simpa using List.length_pos_of_ne_nil hne⟩
  unfold evaluate
  rw [if_pos hany, key, zero_add]

/-- **C131 (finding).** For a corpus without words it raises, where the sum would be zero. -/
theorem C131_hdp_empty (likelihood : List (W × ℝ) → ℝ) (docs : List (List (W × ℝ))) (h : ∀ d ∈ docs, d = []) :
    evaluate likelihood docs = .error .zeroDivision := by
  have hany : docs.any (fun d => decide (0 < d.length)) = false := by
    rw [List.any_eq_false]
    intro d hd
    simp [h d hd]
  unfold evaluate
  rw [hany]
  rfl

/-! ## Cases -/

/-- parameters that meet the hypotheses -/
example : (⟨fun _ => 1, fun _ _ => 1 / 2, 0, 0, 5⟩ : Params (Fin 2) (Fin 3)).Pos :=
  ⟨fun _ => by norm_num, fun _ _ => by norm_num, le_refl _⟩

example : ∃ d ∈ [(([] : List (Fin 3 × ℝ)), (fun _ : Fin 2 => (1 : ℝ))), ([(0, 2)], fun _ => 1)], d.1 ≠ [] :=
  ⟨([(0, 2)], fun _ => 1), by simp, by simp⟩

end Verif.LdaBound

import Verif.AuthorTopic.BoundModel
import Verif.AuthorTopic.InferProps
import Verif.Lda.BoundProps

/-!
# C161: the bound of the author-topic model
-/

namespace Verif.AuthorBound

open Verif.Dirichlet Verif.LdaInfer Verif.AuthorInfer Verif.LdaBound

variable {A T W : Type} [Fintype T] [Fintype W] [DecidableEq W]

/-! ## Specification -/

/-- The expected log likelihood of a document: for each occurrence of a word the logarithm of the mean over the authors of the
document of the (geometric) expectation of their probability of the word; `eps` guards the logarithm. -/
noncomputable def likelihood (m : Mod A T W) (d : List A × List (W × ℝ)) : ℝ :=
  (d.2.map fun x => x.2 * Real.log (((d.1.map fun a => ∑ k, Real.exp (psi (m.gamma a k) - psi (∑ j, m.gamma a j)) *
    Real.exp (psi (m.lam k x.1) - psi (∑ w, m.lam k w))).sum + m.eps) / d.1.length)).sum

/-- Documents have authors and their counts are natural numbers. -/
def Whole (chunk : List (List A × List (W × ℝ))) : Prop :=
  ∀ d ∈ chunk, d.1 ≠ [] ∧ ∀ x ∈ d.2, ∃ n : ℕ, x.2 = n

/-! ## Lemmas -/

theorem sum_map_sub' {I : Type} (l : List I) (f g : I → ℝ) :
    (l.map fun x => f x - g x).sum = (l.map f).sum - (l.map g).sum := by
  induction l with
  | nil => simp
  | cons a l ih => simp only [List.map_cons, List.sum_cons, ih]; ring

theorem trunc_nat (n : ℕ) : trunc (n : ℝ) = n := by
  unfold trunc
  rw [if_pos (Nat.cast_nonneg n)]
  simp

theorem counts_whole (doc : List (W × ℝ)) (h : ∀ x ∈ doc, ∃ n : ℕ, x.2 = n) : counts doc = doc := by
  unfold counts
  conv_rhs => rw [← List.map_id doc]
  refine List.map_congr_left fun x hx => ?_
  obtain ⟨n, hn⟩ := h x hx
  rw [hn, trunc_nat, ← hn]
  rfl

omit [DecidableEq W] in
theorem boundNorm_eq (m : Mod A T W) (authors : List A) (w : W) :
    boundNorm m authors w = (authors.map fun a => ∑ k, Real.exp (psi (m.gamma a k) - psi (∑ j, m.gamma a j)) *
      Real.exp (psi (m.lam k w) - psi (∑ v, m.lam k v))).sum + m.eps := by
  unfold boundNorm thetaSum expElog dirichletExpectation
  congr 1
  induction authors with
  | nil => simp
  | cons a l ih =>
    simp only [List.map_cons, List.sum_cons, add_mul, Finset.sum_add_distrib, ih]

omit [DecidableEq W] in
theorem boundNorm_pos (m : Mod A T W) (he : 0 < m.eps) (authors : List A) (w : W) : 0 < boundNorm m authors w := by
  rw [boundNorm_eq]
  have : 0 ≤ (authors.map fun a => ∑ k, Real.exp (psi (m.gamma a k) - psi (∑ j, m.gamma a j)) *
      Real.exp (psi (m.lam k w) - psi (∑ v, m.lam k v))).sum := List.sum_nonneg (by
    intro v hv
    obtain ⟨a, _, rfl⟩ := List.mem_map.1 hv
    exact Finset.sum_nonneg fun k _ => (mul_pos (Real.exp_pos _) (Real.exp_pos _)).le)
  linarith

theorem docScore_eq (m : Mod A T W) (he : 0 < m.eps) (d : List A × List (W × ℝ)) (hd : d.1 ≠ [])
    (hc : ∀ x ∈ d.2, ∃ n : ℕ, x.2 = n) : docScore m d = .ok (likelihood m d) := by
  unfold docScore
  have hl : d.1.length ≠ 0 := fun e => hd (List.length_eq_zero_iff.1 e)
  have hl' : (0 : ℝ) < d.1.length := by exact_mod_cast Nat.pos_of_ne_zero hl
  rw [if_neg hl, counts_whole _ hc]
  unfold likelihood
  congr 1
  generalize d.2 = doc
  induction doc with
  | nil => simp
  | cons x doc ih =>
    simp only [List.map_cons, List.sum_cons]
    rw [← ih, ← boundNorm_eq, Real.log_div (boundNorm_pos m he _ _).ne' hl'.ne', one_div, Real.log_inv]
    ring

theorem wordScore_eq (m : Mod A T W) (he : 0 < m.eps) (chunk : List (List A × List (W × ℝ))) (h : Whole chunk) (s : ℝ) :
    wordScore m chunk s = .ok (s + (chunk.map (likelihood m)).sum) := by
  induction chunk generalizing s with
  | nil => simp [wordScore]
  | cons d chunk ih =>
    obtain ⟨h1, h2⟩ := h d List.mem_cons_self
    rw [wordScore, docScore_eq m he d h1 h2]
    simp only [bind, Except.bind]
    rw [ih (fun x hx => h x (List.mem_cons_of_mem _ hx)), List.map_cons, List.sum_cons]
    congr 1
    ring

omit [DecidableEq W] [Fintype W] in
theorem authorScore_eq (m : Mod A T W) (a : A) : authorScore m a = - kl (m.gamma a) m.alpha := by
  unfold authorScore kl logNorm dirichletExpectation
  simp only [Finset.sum_sub_distrib]
  have : ∑ k, (m.alpha k - m.gamma a k) * (psi (m.gamma a k) - psi (∑ j, m.gamma a j))
      = - ∑ k, (m.gamma a k - m.alpha k) * (psi (m.gamma a k) - psi (∑ j, m.gamma a j)) := by
    rw [← Finset.sum_neg_distrib]
    exact Finset.sum_congr rfl fun k _ => by ring
  rw [this]
  ring

omit [DecidableEq W] [Fintype W] in
theorem authorScores_eq (m : Mod A T W) (keys : List A) (s : ℝ) :
    (keys.map (authorScore m)).foldl (fun s v => s + v) s = s - (keys.map fun a => kl (m.gamma a) m.alpha).sum := by
  induction keys generalizing s with
  | nil => simp
  | cons a l ih => rw [List.map_cons, List.foldl_cons, ih, authorScore_eq, List.map_cons, List.sum_cons]; ring

/-! ## C161 -/

/-- **C161.** The bound is the expected log likelihood of the documents times `subsample_ratio`, minus the divergences of the
authors' topic distributions from the prior, scaled to all authors, minus those of the topics. -/
theorem C161_bound (m : Mod A T W) (he : 0 < m.eps) (ratio : ℝ) (keys : List A) (hk : keys ≠ [])
    (chunk : List (List A × List (W × ℝ))) (h : Whole chunk) :
    bound m ratio keys chunk = .ok ((chunk.map (likelihood m)).sum * ratio
      - (keys.map fun a => kl (m.gamma a) m.alpha).sum * (m.numAuthors / keys.length) + topicScore m.eta m.lam) := by
  unfold bound
  rw [wordScore_eq m he chunk h, authorScores_eq]
  have hl : keys.length ≠ 0 := fun e => hk (List.length_eq_zero_iff.1 e)
  simp only [bind, Except.bind, pure, Except.pure, if_neg hl]
  congr 1
  ring

theorem likelihood_le [Nonempty T] (m : Mod A T W) (he : 0 < m.eps) (hl : ∀ k w, 0 < m.lam k w)
    (hg : ∀ a k, 0 < m.gamma a k) (d : List A × List (W × ℝ)) (hd : d.1 ≠ []) (hc : ∀ x ∈ d.2, ∃ n : ℕ, x.2 = n) :
    likelihood m d ≤ m.eps * (d.2.map Prod.snd).sum := by
  have hlen : (1 : ℝ) ≤ d.1.length := by
    exact_mod_cast Nat.one_le_iff_ne_zero.2 fun e => hd (List.length_eq_zero_iff.1 e)
  have one : ∀ a w, ∑ k, Real.exp (psi (m.gamma a k) - psi (∑ j, m.gamma a j)) *
      Real.exp (psi (m.lam k w) - psi (∑ v, m.lam k v)) ≤ 1 := by
    intro a w
    have hs : 0 < ∑ j, m.gamma a j := Finset.sum_pos (fun j _ => hg a j) Finset.univ_nonempty
    have h1 : ∀ k, Real.exp (psi (m.gamma a k) - psi (∑ j, m.gamma a j)) *
        Real.exp (psi (m.lam k w) - psi (∑ v, m.lam k v)) ≤ m.gamma a k / ∑ j, m.gamma a j := by
      intro k
      have a1 := expElog_le (m.gamma a) (hg a) k
      have a2 := expElog_le (m.lam k) (hl k) w
      have a3 : m.lam k w / ∑ v, m.lam k v ≤ 1 := by
        have hls : 0 < ∑ v, m.lam k v := Finset.sum_pos (fun j _ => hl k j) ⟨w, Finset.mem_univ _⟩
        rw [div_le_one hls]
        exact Finset.single_le_sum (f := fun v => m.lam k v) (fun v _ => (hl k v).le) (Finset.mem_univ _)
      calc _ ≤ Real.exp (psi (m.gamma a k) - psi (∑ j, m.gamma a j)) * 1 :=
            mul_le_mul_of_nonneg_left (a2.trans a3) (Real.exp_pos _).le
        _ ≤ _ := by rw [mul_one]; exact a1
    calc _ ≤ ∑ k, m.gamma a k / ∑ j, m.gamma a j := Finset.sum_le_sum fun k _ => h1 k
      _ = 1 := by rw [← Finset.sum_div, div_self hs.ne']
  have hlog : ∀ w, Real.log (boundNorm m d.1 w / d.1.length) ≤ m.eps := by
    intro w
    have hp := boundNorm_pos m he d.1 w
    have hle : boundNorm m d.1 w ≤ d.1.length + m.eps := by
      rw [boundNorm_eq]
      have := List.sum_le_card_nsmul (d.1.map fun a => ∑ k, Real.exp (psi (m.gamma a k) - psi (∑ j, m.gamma a j)) *
        Real.exp (psi (m.lam k w) - psi (∑ v, m.lam k v))) 1 (by
          intro v hv
          obtain ⟨a, _, rfl⟩ := List.mem_map.1 hv
          exact one a w)
      simp only [List.length_map, nsmul_eq_mul, mul_one] at this
      linarith
    have h0 : (0 : ℝ) < d.1.length := by linarith
    have h1 := Real.log_le_sub_one_of_pos (div_pos hp h0)
    have h2 : boundNorm m d.1 w / d.1.length ≤ 1 + m.eps := by
      rw [div_le_iff₀ h0]
      nlinarith
    linarith
  unfold likelihood
  simp only [← boundNorm_eq]
  revert hc
  generalize d.2 = doc
  intro hc
  induction doc with
  | nil => simp
  | cons x doc ih =>
    have h1 := ih fun y hy => hc y (List.mem_cons_of_mem _ hy)
    obtain ⟨n, hn⟩ := hc x List.mem_cons_self
    have h2 : 0 ≤ x.2 := by rw [hn]; positivity
    simp only [List.map_cons, List.sum_cons]
    have := mul_le_mul_of_nonneg_left (hlog x.1) h2
    linarith

theorem likelihoods_le [Nonempty T] (m : Mod A T W) (he : 0 < m.eps) (hl : ∀ k w, 0 < m.lam k w)
    (hg : ∀ a k, 0 < m.gamma a k) (chunk : List (List A × List (W × ℝ))) (h : Whole chunk) :
    (chunk.map (likelihood m)).sum ≤ m.eps * (chunk.map fun d => (d.2.map Prod.snd).sum).sum := by
  induction chunk with
  | nil => simp
  | cons d chunk ih =>
    have h1 := ih fun x hx => h x (List.mem_cons_of_mem _ hx)
    obtain ⟨h2, h3⟩ := h d List.mem_cons_self
    have h4 := likelihood_le m he hl hg d h2 h3
    simp only [List.map_cons, List.sum_cons, mul_add]
    linarith

/-- **C161.** The bound is never above `eps` (1e-100 in the code) for each word: a bound on the logarithm of a probability, up to
the guard of the logarithm. -/
theorem C161_nonpositive [Nonempty T] [Nonempty W] (m : Mod A T W) (he : 0 < m.eps) (eta : W → ℝ) (heta : m.eta = .vec eta)
    (hη : ∀ w, 0 < eta w) (hα : ∀ k, 0 < m.alpha k) (hl : ∀ k w, 0 < m.lam k w) (hg : ∀ a k, 0 < m.gamma a k)
    (ratio : ℝ) (hr : 0 ≤ ratio) (keys : List A) (hk : keys ≠ []) (chunk : List (List A × List (W × ℝ))) (h : Whole chunk) :
    ∃ b, bound m ratio keys chunk = .ok b ∧
      b ≤ m.eps * ratio * (chunk.map fun d => (d.2.map Prod.snd).sum).sum := by
  refine ⟨_, C161_bound m he ratio keys hk chunk h, ?_⟩
  have h1 := mul_le_mul_of_nonneg_right (likelihoods_le m he hl hg chunk h) hr
  have h2 : 0 ≤ (keys.map fun a => kl (m.gamma a) m.alpha).sum := List.sum_nonneg (by
    intro v hv
    obtain ⟨a, _, rfl⟩ := List.mem_map.1 hv
    exact kl_nonneg _ _ (hg a) hα)
  have h3 : 0 ≤ (keys.map fun a => kl (m.gamma a) m.alpha).sum * ((m.numAuthors : ℝ) / keys.length) :=
    mul_nonneg h2 (by positivity)
  have h4 : topicScore m.eta m.lam ≤ 0 := by rw [heta]; exact (C131_topics eta hη m.lam hl).2.1
  nlinarith

/-- **C161.** The order of the documents and of the authors does not matter, nor does the order of the authors of a document. -/
theorem C161_order (m : Mod A T W) (he : 0 < m.eps) (ratio : ℝ) (keys keys' : List A) (hk : keys ≠ []) (hkk : keys.Perm keys')
    (chunk chunk' : List (List A × List (W × ℝ))) (h : Whole chunk)
    (hp : List.Forall₂ (fun d d' => d.1.Perm d'.1 ∧ d.2.Perm d'.2) chunk chunk') (chunk'' : List (List A × List (W × ℝ)))
    (hpp : chunk'.Perm chunk'') :
    bound m ratio keys chunk = bound m ratio keys' chunk'' := by
  have hk' : keys' ≠ [] := fun e => hk (by rw [e] at hkk; exact List.perm_nil.1 hkk)
  have hw : Whole chunk' ∧ (chunk.map (likelihood m)).sum = (chunk'.map (likelihood m)).sum := by
    clear hpp
    induction hp with
    | nil => exact ⟨h, rfl⟩
    | @cons d d' c c' hd _ ih =>
      obtain ⟨i1, i2⟩ := ih fun x hx => h x (List.mem_cons_of_mem _ hx)
      obtain ⟨h1, h2⟩ := h d List.mem_cons_self
      refine ⟨fun x hx => ?_, ?_⟩
      · rcases List.mem_cons.1 hx with rfl | hx
        · exact ⟨fun e => h1 (by have := hd.1; rw [e] at this; exact List.perm_nil.1 this),
            fun y hy => h2 y (hd.2.mem_iff.2 hy)⟩
        · exact i1 x hx
      · rw [List.map_cons, List.map_cons, List.sum_cons, List.sum_cons, i2]
        congr 1
        unfold likelihood
        rw [hd.1.length_eq]
        have e : ∀ w, (d.1.map fun a => ∑ k, Real.exp (psi (m.gamma a k) - psi (∑ j, m.gamma a j)) *
            Real.exp (psi (m.lam k w) - psi (∑ v, m.lam k v))).sum = (d'.1.map fun a => ∑ k, Real.exp (psi (m.gamma a k) - psi (∑ j, m.gamma a j)) *
            Real.exp (psi (m.lam k w) - psi (∑ v, m.lam k v))).sum := fun w => (hd.1.map _).sum_eq
        simp only [e]
        exact (hd.2.map _).sum_eq
  have hw'' : Whole chunk'' := fun x hx => hw.1 x (hpp.mem_iff.2 hx)
  rw [C161_bound m he ratio keys hk chunk h, C161_bound m he ratio keys' hk' chunk'' hw'', hw.2, (hpp.map _).sum_eq,
    hkk.length_eq, (hkk.map _).sum_eq]

/-- **C161.** Where every document has an author of its own and all these are the authors, the bound is LDA's bound of the same
documents with the authors' rows as topic weights, except for `eps`. -/
theorem C161_lda (m : Mod A T W) (he : 0 < m.eps) (docs : List (A × List (W × ℝ))) (hne : docs ≠ [])
    (hc : ∀ d ∈ docs, ∀ x ∈ d.2, ∃ n : ℕ, x.2 = n) (hn : m.numAuthors = docs.length) :
    ∃ b b', bound m 1 (docs.map Prod.fst) (docs.map fun d => ([d.1], d.2)) = .ok b ∧
      LdaBound.bound m.alpha m.eta m.lam 1 (docs.map fun d => (d.2, .mat (m.gamma d.1))) = .ok b' ∧
      b - b' = (docs.map fun d => (d.2.map fun x => x.2 *
        (Real.log ((∑ k, Real.exp (psi (m.gamma d.1 k) - psi (∑ j, m.gamma d.1 j)) *
            Real.exp (psi (m.lam k x.1) - psi (∑ w, m.lam k w))) + m.eps) -
          Real.log (∑ k, Real.exp (psi (m.gamma d.1 k) - psi (∑ j, m.gamma d.1 j)) *
            Real.exp (psi (m.lam k x.1) - psi (∑ w, m.lam k w))))).sum).sum := by
  have hw : Whole (docs.map fun d => ([d.1], d.2)) := by
    intro d hd
    obtain ⟨x, hx, rfl⟩ := List.mem_map.1 hd
    exact ⟨by simp, hc x hx⟩
  have h2 := docsScore_mat m.alpha m.lam (docs.map fun d => (d.2, m.gamma d.1)) 0
  simp only [List.map_map, Function.comp_def, zero_add] at h2
  refine ⟨_, _, C161_bound m he 1 _ (by simpa using hne) _ hw, by
    unfold LdaBound.bound
    rw [h2]
    rfl, ?_⟩
  have hlen : (0 : ℝ) < docs.length := by
    exact_mod_cast Nat.pos_of_ne_zero fun e => hne (List.length_eq_zero_iff.1 e)
  rw [hn, List.length_map, div_self hlen.ne', mul_one, mul_one]
  clear h2 hw hn hlen hc hne
  simp only [List.map_map, Function.comp_def]
  have key : (docs.map fun d => likelihood m ([d.1], d.2)).sum - (docs.map fun d => kl (m.gamma d.1) m.alpha).sum
      - (docs.map fun d => docElbo m.alpha m.lam d.2 (m.gamma d.1)).sum = (docs.map fun d => (d.2.map fun x => x.2 *
        (Real.log ((∑ k, Real.exp (psi (m.gamma d.1 k) - psi (∑ j, m.gamma d.1 j)) *
            Real.exp (psi (m.lam k x.1) - psi (∑ w, m.lam k w))) + m.eps) -
          Real.log (∑ k, Real.exp (psi (m.gamma d.1 k) - psi (∑ j, m.gamma d.1 j)) *
            Real.exp (psi (m.lam k x.1) - psi (∑ w, m.lam k w))))).sum).sum := by
    induction docs with
    | nil => simp
    | cons d docs ih =>
      simp only [List.map_cons, List.sum_cons]
      rw [← ih]
      have one : likelihood m ([d.1], d.2) - kl (m.gamma d.1) m.alpha - docElbo m.alpha m.lam d.2 (m.gamma d.1)
          = (d.2.map fun x => x.2 * (Real.log ((∑ k, Real.exp (psi (m.gamma d.1 k) - psi (∑ j, m.gamma d.1 j)) *
            Real.exp (psi (m.lam k x.1) - psi (∑ w, m.lam k w))) + m.eps) -
          Real.log (∑ k, Real.exp (psi (m.gamma d.1 k) - psi (∑ j, m.gamma d.1 j)) *
            Real.exp (psi (m.lam k x.1) - psi (∑ w, m.lam k w))))).sum := by
        unfold likelihood docElbo
        simp only [List.map_cons, List.map_nil, List.sum_cons, List.sum_nil, add_zero, List.length_singleton, Nat.cast_one,
          div_one, mul_sub, sum_map_sub']
        ring
      rw [← one]
      ring
  linarith

/-- **C161.** Per word: the documents' likelihood per word, plus the parts of authors and topics spread over the words expected
in `total_docs` documents. -/
theorem C161_per_word (m : Mod A T W) (he : 0 < m.eps) (total : Option ℕ) (keys : List A) (hk : keys ≠ [])
    (chunk : List (List A × List (W × ℝ))) (hne : chunk ≠ []) (h : Whole chunk) (ht : 0 < total.getD chunk.length) :
    logPerplexity m total keys chunk = .ok ((chunk.map (likelihood m)).sum / (chunk.map fun d => (d.2.map Prod.snd).sum).sum +
      (topicScore m.eta m.lam - (keys.map fun a => kl (m.gamma a) m.alpha).sum * (m.numAuthors / keys.length)) /
        ((total.getD chunk.length : ℕ) * ((chunk.map fun d => (d.2.map Prod.snd).sum).sum / chunk.length))) := by
  unfold logPerplexity
  have hl : chunk.length ≠ 0 := fun e => hne (List.length_eq_zero_iff.1 e)
  simp only [bind, Except.bind, pure, Except.pure, if_neg hl, C161_bound m he _ keys hk chunk h]
  congr 1
  generalize (chunk.map fun d => (d.2.map Prod.snd).sum).sum = words
  have hl' : (chunk.length : ℝ) ≠ 0 := by exact_mod_cast hl
  have ht' : ((total.getD chunk.length : ℕ) : ℝ) ≠ 0 := by exact_mod_cast ht.ne'
  rcases eq_or_ne words 0 with hw | hw
  · rw [hw]; simp
  · field_simp
    ring

/-- **C161.** A document without authors, a chunk without documents and tables without authors raise. -/
theorem C161_refused (m : Mod A T W) (ratio : ℝ) (keys : List A) (chunk : List (List A × List (W × ℝ))) (total : Option ℕ) :
    ((∃ d ∈ chunk, d.1 = []) → bound m ratio keys chunk = .error .zeroDivision) ∧
    bound m ratio [] chunk = .error .zeroDivision ∧ logPerplexity m total keys [] = .error .zeroDivision := by
  have hword : ∀ s, (∃ d ∈ chunk, d.1 = []) → wordScore m chunk s = .error .zeroDivision := by
    induction chunk with
    | nil => rintro s ⟨d, hd, -⟩; cases hd
    | cons c chunk ih =>
      rintro s ⟨d, hd, hd0⟩
      rw [wordScore]
      by_cases hc : c.1 = []
      · have : docScore m c = .error .zeroDivision := by unfold docScore; rw [hc]; rfl
        rw [this]; rfl
      · have hl : c.1.length ≠ 0 := fun e => hc (List.length_eq_zero_iff.1 e)
        unfold docScore
        rw [if_neg hl]
        simp only [bind, Except.bind]
        refine ih _ ⟨d, ?_, hd0⟩
        rcases List.mem_cons.1 hd with rfl | hd
        · exact absurd hd0 hc
        · exact hd
  refine ⟨fun h => by unfold bound; rw [hword 0 h]; rfl, ?_, rfl⟩
  unfold bound
  by_cases h : ∃ d ∈ chunk, d.1 = []
  · rw [hword 0 h]; rfl
  · have : ∀ s, ∃ v, wordScore m chunk s = .ok v := by
      clear hword
      induction chunk with
      | nil => exact fun s => ⟨s, rfl⟩
      | cons c chunk ih =>
        intro s
        have hc : c.1.length ≠ 0 := fun e => h ⟨c, List.mem_cons_self, List.length_eq_zero_iff.1 e⟩
        rw [wordScore]
        unfold docScore
        rw [if_neg hc]
        simp only [bind, Except.bind]
        exact ih (fun ⟨d, hd, e⟩ => h ⟨d, List.mem_cons_of_mem _ hd, e⟩) _
    obtain ⟨v, hv⟩ := this 0
    rw [hv]
    rfl

/-- **C161.** Finding: counts lose their fractions. Documents with all counts between 0 and 1, as in a TF-IDF corpus, add
nothing to the bound, whatever their words and authors. -/
theorem C161_fractions (m : Mod A T W) (ratio : ℝ) (keys : List A) (chunk : List (List A × List (W × ℝ)))
    (ha : ∀ d ∈ chunk, d.1 ≠ []) (h : ∀ d ∈ chunk, ∀ x ∈ d.2, 0 ≤ x.2 ∧ x.2 < 1) :
    bound m ratio keys chunk = bound m ratio keys [] := by
  have key : ∀ s, wordScore m chunk s = .ok s := by
    induction chunk with
    | nil => exact fun s => rfl
    | cons d chunk ih =>
      intro s
      have hd : docScore m d = .ok 0 := by
        have hl : d.1.length ≠ 0 := fun e => ha d List.mem_cons_self (List.length_eq_zero_iff.1 e)
        have hz : ∀ x ∈ counts d.2, x.2 = 0 := by
          intro x hx
          obtain ⟨y, hy, rfl⟩ := List.mem_map.1 hx
          obtain ⟨h1, h2⟩ := h d List.mem_cons_self y hy
          show trunc y.2 = 0
          unfold trunc
          rw [if_pos h1, Int.floor_eq_zero_iff.2 ⟨h1, h2⟩]
          simp
        unfold docScore
        rw [if_neg hl]
        have e1 : ((counts d.2).map Prod.snd).sum = 0 := List.sum_eq_zero (by
          intro v hv
          obtain ⟨x, hx, rfl⟩ := List.mem_map.1 hv
          exact hz x hx)
        have e2 : ((counts d.2).map fun x => x.2 * Real.log (boundNorm m d.1 x.1)).sum = 0 := List.sum_eq_zero (by
          intro v hv
          obtain ⟨x, hx, rfl⟩ := List.mem_map.1 hv
          rw [hz x hx, zero_mul])
        rw [e1, e2]
        simp
      rw [wordScore, hd]
      simp only [bind, Except.bind, add_zero]
      exact ih (fun x hx => ha x (List.mem_cons_of_mem _ hx)) (fun x hx => h x (List.mem_cons_of_mem _ hx)) s
  unfold bound
  rw [key]
  rfl

/-! ## The hypotheses are met -/

/-- Two authors, two topics, two words. -/
noncomputable def sample : Mod (Fin 2) (Fin 2) (Fin 2) :=
  ⟨fun _ => 1 / 2, .vec fun _ => 1 / 2, fun _ _ => 3, fun _ _ => 1, 2, 1e-100⟩

example : ∃ b, bound sample 2 [0, 1] [([0, 1], [(0, 3)]), ([1], [(1, 1), (0, 2)])] = .ok b ∧
    b ≤ sample.eps * 2 * (List.map (fun d : List (Fin 2) × List (Fin 2 × ℝ) => (d.2.map Prod.snd).sum)
      [([0, 1], [(0, 3)]), ([1], [(1, 1), (0, 2)])]).sum := by
  refine C161_nonpositive sample (by unfold sample; norm_num) (fun _ => 1 / 2) rfl (fun _ => by norm_num)
    (fun _ => by unfold sample; norm_num) (fun _ _ => by unfold sample; norm_num) (fun _ _ => by unfold sample; norm_num) 2 (by norm_num)
    [0, 1] (by simp) _ ?_
  intro d hd
  simp only [List.mem_cons, List.not_mem_nil, or_false] at hd
  rcases hd with rfl | rfl
  · refine ⟨by simp, fun x hx => ?_⟩
    simp only [List.mem_cons, List.not_mem_nil, or_false] at hx
    subst hx; exact ⟨3, by norm_num⟩
  · refine ⟨by simp, fun x hx => ?_⟩
    simp only [List.mem_cons, List.not_mem_nil, or_false] at hx
    rcases hx with rfl | rfl
    · exact ⟨1, by norm_num⟩
    · exact ⟨2, by norm_num⟩

end Verif.AuthorBound

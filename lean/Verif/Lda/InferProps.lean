import Verif.Lda.InferModel

/-!
# C90: what LDA inference computes
-/

namespace Verif.LdaInfer

open Verif.Dirichlet

variable {T W : Type} [Fintype T] [DecidableEq W]

/-! ## Specification -/

/-- How often a document mentions `w`. -/
noncomputable def totalCount (doc : List (W × ℝ)) (w : W) : ℝ := ((doc.filter fun x => x.1 = w).map Prod.snd).sum

/-- The count in the last pair of `w`, 0 without one. -/
noncomputable def lastCount (doc : List (W × ℝ)) (w : W) : ℝ :=
  (((doc.filter fun x => x.1 = w).map Prod.snd).getLast?).getD 0

/-- The probability that an occurrence of `w` in a document with variational parameter `g` belongs to
    topic `k`: proportional to `exp E[log θ_k] · exp E[log β_kw]`. -/
noncomputable def phi (p : Params T W) (g : T → ℝ) (k : T) (w : W) : ℝ :=
  expElog g k * p.beta k w / (∑ j, expElog g j * p.beta j w + p.eps)

/-- Priors and topic weights are positive, epsilon is not negative. -/
structure Params.Pos (p : Params T W) : Prop where
  alpha : ∀ k, 0 < p.alpha k
  beta : ∀ k w, 0 < p.beta k w
  eps : 0 ≤ p.eps

/-! ## Basic facts -/

theorem expElog_pos (g : T → ℝ) (k : T) : 0 < expElog g k := Real.exp_pos _

theorem phinorm_pos [Nonempty T] {p : Params T W} (hp : p.Pos) (g : T → ℝ) (w : W) :
    0 < phinorm p (expElog g) w := by
  unfold phinorm
  have : 0 < ∑ k, expElog g k * p.beta k w :=
    Finset.sum_pos (fun k _ => mul_pos (expElog_pos g k) (hp.beta k w)) Finset.univ_nonempty
  linarith [hp.eps]

theorem phi_nonneg [Nonempty T] {p : Params T W} (hp : p.Pos) (g : T → ℝ) (k : T) (w : W) : 0 ≤ phi p g k w :=
  div_nonneg (mul_pos (expElog_pos g k) (hp.beta k w)).le (phinorm_pos hp g w).le

theorem sum_phi [Nonempty T] {p : Params T W} (hp : p.Pos) (g : T → ℝ) (w : W) :
    ∑ k, phi p g k w = 1 - p.eps / phinorm p (expElog g) w := by
  unfold phi
  rw [← Finset.sum_div]
  have h := (phinorm_pos hp g w).ne'
  unfold phinorm at *
  field_simp
  ring

theorem gammaStep_eq (p : Params T W) (g : T → ℝ) (doc : List (W × ℝ)) (k : T) :
    gammaStep p (expElog g) doc k = p.alpha k + (doc.map fun x => x.2 * phi p g k x.1).sum := by
  unfold gammaStep
  rw [← List.sum_map_mul_left]
  congr 3
  funext x
  unfold phi phinorm
  ring

theorem sum_map_nonneg {α : Type} (l : List α) (f : α → ℝ) (h : ∀ x ∈ l, 0 ≤ f x) : 0 ≤ (l.map f).sum := by
  apply List.sum_nonneg
  intro y hy
  obtain ⟨x, hx, rfl⟩ := List.mem_map.1 hy
  exact h x hx

theorem gammaStep_ge [Nonempty T] {p : Params T W} (hp : p.Pos) (g : T → ℝ) (doc : List (W × ℝ))
    (hd : ∀ x ∈ doc, 0 ≤ x.2) (k : T) : p.alpha k ≤ gammaStep p (expElog g) doc k := by
  rw [gammaStep_eq]
  have := sum_map_nonneg doc (fun x => x.2 * phi p g k x.1) fun x hx => mul_nonneg (hd x hx) (phi_nonneg hp g k x.1)
  linarith

theorem finset_list_sum_comm {α : Type} (l : List α) (f : T → α → ℝ) :
    ∑ k, (l.map (f k)).sum = (l.map fun x => ∑ k, f k x).sum := by
  induction l with
  | nil => simp
  | cons a l ih => simp [Finset.sum_add_distrib, ih]

/-- Every reachable `gammad` after at least one iteration is one update of an earlier one. -/
theorem loop_last (p : Params T W) (doc : List (W × ℝ)) (P : (T → ℝ) → Prop)
    (hP : ∀ g, P (gammaStep p (expElog g) doc)) : ∀ (n : ℕ) (g : T → ℝ), 0 < n → P (loop p doc n g) := by
  intro n
  induction n with
  | zero => intro g h; omega
  | succ n ih =>
    intro g _
    unfold loop
    dsimp only
    split
    · exact hP g
    · rcases Nat.eq_zero_or_pos n with h | h
      · subst h; exact hP g
      · exact ih _ h

/-! ## C90: gammas -/

/-- After inference every topic of a document weighs at least its prior, so it is positive, and the
    weights add up to the priors plus the words of the document, less at most the share of epsilon:
    exactly `Σ alpha + Σ counts` when epsilon is 0. -/
theorem C90_gamma [Nonempty T] (p : Params T W) (hp : p.Pos) (doc : List (W × ℝ)) (hd : ∀ x ∈ doc, 0 ≤ x.2)
    (g0 : T → ℝ) (hi : 0 < p.iterations) :
    (∀ k, p.alpha k ≤ inferDoc p doc g0 k ∧ 0 < inferDoc p doc g0 k) ∧
    ∑ k, inferDoc p doc g0 k ≤ ∑ k, p.alpha k + (doc.map Prod.snd).sum ∧
    (p.eps = 0 → ∑ k, inferDoc p doc g0 k = ∑ k, p.alpha k + (doc.map Prod.snd).sum) ∧
    (∃ g, ∀ k, inferDoc p doc g0 k = p.alpha k + (doc.map fun x => x.2 * phi p g k x.1).sum) := by
  have hsum : ∀ g, ∑ k, gammaStep p (expElog g) doc k
      = ∑ k, p.alpha k + (doc.map fun x => x.2 * (1 - p.eps / phinorm p (expElog g) x.1)).sum := by
    intro g
    simp only [gammaStep_eq, Finset.sum_add_distrib]
    rw [finset_list_sum_comm]
    congr 3
    funext x
    rw [← Finset.mul_sum, sum_phi hp]
  refine ⟨fun k => ?_, ?_, fun h0 => ?_, ?_⟩
  · have h : p.alpha k ≤ inferDoc p doc g0 k :=
      loop_last p doc (fun g => p.alpha k ≤ g k) (fun g => gammaStep_ge hp g doc hd k) _ g0 hi
    exact ⟨h, lt_of_lt_of_le (hp.alpha k) h⟩
  · refine loop_last p doc (fun g => ∑ k, g k ≤ ∑ k, p.alpha k + (doc.map Prod.snd).sum) (fun g => ?_) _ g0 hi
    rw [hsum g]
    have : (doc.map fun x => x.2 * (1 - p.eps / phinorm p (expElog g) x.1)).sum ≤ (doc.map Prod.snd).sum := by
      apply List.sum_le_sum
      intro x hx
      have h1 := div_nonneg hp.eps (phinorm_pos hp g x.1).le
      have h2 := mul_nonneg (hd x hx) h1
      nlinarith
    linarith
  · refine loop_last p doc (fun g => ∑ k, g k = ∑ k, p.alpha k + (doc.map Prod.snd).sum) (fun g => ?_) _ g0 hi
    rw [hsum g, h0]
    simp
  · exact loop_last p doc
      (fun g' => ∃ g, ∀ k, g' k = p.alpha k + (doc.map fun x => x.2 * phi p g k x.1).sum)
      (fun g => ⟨g, fun k => gammaStep_eq p g doc k⟩) _ g0 hi

/-- A topic's responsibilities for one word are probabilities: none negative, together at most 1, and
    exactly 1 when epsilon is 0. -/
theorem C90_phi [Nonempty T] (p : Params T W) (hp : p.Pos) (g : T → ℝ) (w : W) :
    (∀ k, 0 ≤ phi p g k w) ∧ ∑ k, phi p g k w ≤ 1 ∧ (p.eps = 0 → ∑ k, phi p g k w = 1) := by
  refine ⟨fun k => phi_nonneg hp g k w, ?_, fun h => ?_⟩
  · rw [sum_phi hp]
    have := div_nonneg hp.eps (phinorm_pos hp g w).le
    linarith
  · rw [sum_phi hp, h]; simp

theorem list_sum_words (doc : List (W × ℝ)) (f : W → ℝ) (S : Finset W) (hS : ∀ x ∈ doc, x.1 ∈ S) :
    (doc.map fun x => x.2 * f x.1).sum = ∑ w ∈ S, totalCount doc w * f w := by
  induction doc with
  | nil => simp [totalCount]
  | cons x doc ih =>
    have hx := hS x (by simp)
    rw [List.map_cons, List.sum_cons, ih fun y hy => hS y (by simp [hy])]
    have : ∀ w ∈ S, totalCount (x :: doc) w * f w = (if x.1 = w then x.2 * f w else 0) + totalCount doc w * f w := by
      intro w _
      unfold totalCount
      by_cases h : x.1 = w <;> simp [h, add_mul]
    rw [Finset.sum_congr rfl this, Finset.sum_add_distrib, Finset.sum_ite_eq]
    simp [hx]

theorem gammaStep_counts (p : Params T W) (g : T → ℝ) (doc doc' : List (W × ℝ))
    (h : ∀ w, totalCount doc w = totalCount doc' w) :
    gammaStep p (expElog g) doc = gammaStep p (expElog g) doc' := by
  funext k
  rw [gammaStep_eq, gammaStep_eq]
  let S := (doc.map Prod.fst).toFinset ∪ (doc'.map Prod.fst).toFinset
  rw [list_sum_words doc _ S, list_sum_words doc' _ S]
  · simp only [h]
  · intro x hx
    exact Finset.mem_union_right _ (List.mem_toFinset.2 (List.mem_map_of_mem hx))
  · intro x hx
    exact Finset.mem_union_left _ (List.mem_toFinset.2 (List.mem_map_of_mem hx))

/-- Gammas depend only on how often each word occurs: not on the order of the pairs, nor on whether
    the occurrences of a word are written as one pair or as several. -/
theorem C90_gamma_bag_of_words (p : Params T W) (doc doc' : List (W × ℝ)) (g0 : T → ℝ)
    (h : ∀ w, totalCount doc w = totalCount doc' w) : inferDoc p doc g0 = inferDoc p doc' g0 := by
  unfold inferDoc
  generalize p.iterations = n
  induction n generalizing g0 with
  | zero => rfl
  | succ n ih =>
    unfold loop
    rw [gammaStep_counts p g0 doc doc' h]
    dsimp only
    split
    · rfl
    · exact ih _

/-! ## C90: sufficient statistics -/

theorem scatter_foldl (l : List (W × ℕ)) (value : ℕ → ℝ) (row r : W → ℝ) (w : W) :
    l.foldl (fun r x => Function.update r x.1 (row x.1 + value x.2)) r w
      = match (l.filter fun x => x.1 = w).getLast? with
        | none => r w
        | some x => row w + value x.2 := by
  induction l generalizing r with
  | nil => rfl
  | cons x l ih =>
    rw [List.foldl_cons, ih]
    by_cases h : x.1 = w
    · subst h
      rw [List.filter_cons_of_pos (by simp)]
      cases hl : (l.filter fun y => y.1 = x.1).getLast? with
      | none =>
        rw [List.getLast?_eq_none_iff] at hl
        simp [hl]
      | some y =>
        rw [List.getLast?_cons]
        simp [hl]
    · rw [List.filter_cons_of_neg (by simpa using h)]
      split
      · simp [Function.update_of_ne (Ne.symm h)]
      · rfl

theorem addStats_eq (p : Params T W) (doc : List (W × ℝ)) (th : T → ℝ) (s : T → W → ℝ) (k : T) (w : W) :
    addStats p doc th s k w = s k w + lastCount doc w * (th k / phinorm p th w) := by
  unfold addStats scatterAdd
  refine (scatter_foldl _ (fun i => th k * ((doc.map fun x => x.2 / phinorm p th x.1).getD i 0)) (s k) (s k) w).trans ?_
  have key : ∀ (l : List (W × ℝ)) (n : ℕ) (full : List (W × ℝ)), l = full.drop n →
      (match ((l.map Prod.fst).zipIdx n |>.filter fun x => x.1 = w).getLast? with
        | none => s k w
        | some x => s k w + th k * ((full.map fun x => x.2 / phinorm p th x.1).getD x.2 0))
      = s k w + lastCount l w * (th k / phinorm p th w) := by
    intro l
    induction l with
    | nil => intro n full _; simp [lastCount]
    | cons x l ih =>
      intro n full hf
      have hl : l = full.drop (n + 1) := by rw [← List.drop_drop, ← hf]; rfl
      have hx : full[n]? = some x := by
        have : (full.drop n)[0]? = some x := by rw [← hf]; rfl
        simpa using this
      have ih' := ih (n + 1) full hl
      rw [List.map_cons, List.zipIdx_cons]
      by_cases h : x.1 = w
      · rw [List.filter_cons_of_pos (by simpa using h)]
        rw [List.getLast?_cons]
        have hfil : ((l.map Prod.fst).zipIdx (n + 1) |>.filter fun x => x.1 = w).getLast? = none ↔
            (l.filter fun x => x.1 = w) = [] := by
          rw [List.getLast?_eq_none_iff]
          simp only [List.filter_eq_nil_iff, decide_eq_true_eq]
          constructor
          · intro H y hy hw
            have : y.1 ∈ l.map Prod.fst := List.mem_map_of_mem hy
            obtain ⟨i, hi, hget⟩ := List.getElem_of_mem this
            refine H (y.1, n + 1 + i) ?_ hw
            rw [List.mem_zipIdx_iff_le_and_getElem?_sub]
            refine ⟨by simp, ?_⟩
            simp only [Nat.add_sub_cancel_left]
            rw [List.getElem?_eq_getElem hi, hget]
          · intro H y hy hw
            rw [List.mem_zipIdx_iff_le_and_getElem?_sub] at hy
            have := List.mem_of_getElem? hy.2
            obtain ⟨z, hz, hzy⟩ := List.mem_map.1 this
            exact H z hz (hzy.trans hw)
        cases hz : ((l.map Prod.fst).zipIdx (n + 1) |>.filter fun x => x.1 = w).getLast? with
        | none =>
          have h2 := hfil.1 hz
          simp [lastCount, h, h2, hx]
          ring
        | some y =>
          have h2 : (l.filter fun x => x.1 = w) ≠ [] := by
            intro h3
            rw [hfil.2 h3] at hz
            cases hz
          rw [hz] at ih'
          have h4 : lastCount (x :: l) w = lastCount l w := by
            unfold lastCount
            rw [List.filter_cons_of_pos (by simpa using h), List.map_cons, List.getLast?_cons]
            obtain ⟨v, hv⟩ : ∃ v, ((l.filter fun x => x.1 = w).map Prod.snd).getLast? = some v := by
              rw [← Option.ne_none_iff_exists']
              simp [List.getLast?_eq_none_iff] at h2 ⊢
              exact h2
            rw [hv]
            rfl
          rw [h4]
          simpa using ih'
      · rw [List.filter_cons_of_neg (by simpa using h)]
        have h4 : lastCount (x :: l) w = lastCount l w := by
          unfold lastCount
          rw [List.filter_cons_of_neg (by simpa using h)]
        rw [h4]
        exact ih'
  have := key doc 0 doc rfl
  simpa using this

theorem foldl_docBody (p : Params T W) (chunk : List (List (W × ℝ) × (T → ℝ))) (st : List (T → ℝ) × (T → W → ℝ)) :
    (chunk.foldl (docBody p) st).1 = st.1 ++ chunk.map (fun d => inferDoc p d.1 d.2) ∧
    ∀ k w, (chunk.foldl (docBody p) st).2 k w = st.2 k w + (chunk.map fun d => lastCount d.1 w *
      (expElog (inferDoc p d.1 d.2) k / phinorm p (expElog (inferDoc p d.1 d.2)) w)).sum := by
  induction chunk generalizing st with
  | nil => simp
  | cons d chunk ih =>
    rw [List.foldl_cons]
    obtain ⟨h1, h2⟩ := ih (docBody p st d)
    refine ⟨?_, fun k w => ?_⟩
    · rw [h1]; simp [docBody]
    · rw [h2, List.map_cons, List.sum_cons]
      simp only [docBody, addStats_eq]
      ring

/-- The result of inference: the gammas document by document, each as if it were alone, and the
    statistics: for a topic and a word the sum over the documents of a count of the word in the
    document times the topic's responsibility for it. The count is that of the word's last pair. -/
theorem C90_inference (p : Params T W) (chunk : List (List (W × ℝ) × (T → ℝ))) :
    (inference p chunk).1 = chunk.map (fun d => inferDoc p d.1 d.2) ∧
    ∀ k w, (inference p chunk).2 k w =
      (chunk.map fun d => lastCount d.1 w * phi p (inferDoc p d.1 d.2) k w).sum := by
  obtain ⟨h1, h2⟩ := foldl_docBody p chunk ([], fun _ _ => 0)
  refine ⟨by unfold inference; simpa using h1, fun k w => ?_⟩
  unfold inference
  dsimp only
  rw [h2, zero_add, ← List.sum_map_mul_right]
  congr 2
  funext d
  unfold phi phinorm
  ring

theorem lastCount_eq_total (doc : List (W × ℝ)) (hd : (doc.map Prod.fst).Nodup) (w : W) :
    lastCount doc w = totalCount doc w := by
  have h : (doc.filter fun x => x.1 = w).length ≤ 1 := by
    induction doc with
    | nil => simp
    | cons x doc ih =>
      rw [List.map_cons, List.nodup_cons] at hd
      by_cases hx : x.1 = w
      · rw [List.filter_cons_of_pos (by simpa using hx)]
        have : (doc.filter fun x => x.1 = w) = [] := by
          rw [List.filter_eq_nil_iff]
          intro y hy hyw
          apply hd.1
          rw [hx, ← of_decide_eq_true hyw]
          exact List.mem_map_of_mem hy
        simp [this]
      · rw [List.filter_cons_of_neg (by simpa using hx)]
        exact ih hd.2
  unfold lastCount totalCount
  generalize doc.filter (fun x => x.1 = w) = l at h
  rcases l with _ | ⟨x, _ | ⟨y, l⟩⟩
  · simp
  · simp
  · simp at h

/-- Statistics of documents without repeated ids are expected counts: for every word, the statistics
    of the topics add up to the occurrences of the word in the chunk (less the share of epsilon), and
    none is negative. -/
theorem C90_statistics_mass [Nonempty T] (p : Params T W) (hp : p.Pos) (chunk : List (List (W × ℝ) × (T → ℝ)))
    (hd : ∀ d ∈ chunk, ∀ x ∈ d.1, 0 ≤ x.2) (hn : ∀ d ∈ chunk, (d.1.map Prod.fst).Nodup) (w : W) :
    (∀ k, 0 ≤ (inference p chunk).2 k w) ∧
    ∑ k, (inference p chunk).2 k w ≤ (chunk.map fun d => totalCount d.1 w).sum ∧
    (p.eps = 0 → ∑ k, (inference p chunk).2 k w = (chunk.map fun d => totalCount d.1 w).sum) := by
  have htot : ∀ d ∈ chunk, 0 ≤ totalCount d.1 w := by
    intro d hdc
    unfold totalCount
    exact sum_map_nonneg _ _ fun x hx => hd d hdc x (List.mem_filter.1 hx).1
  have hsum : ∑ k, (inference p chunk).2 k w
      = (chunk.map fun d => totalCount d.1 w * (∑ k, phi p (inferDoc p d.1 d.2) k w)).sum := by
    simp only [(C90_inference p chunk).2]
    rw [finset_list_sum_comm]
    congr 1
    apply List.map_congr_left
    intro d hdc
    rw [← Finset.mul_sum, lastCount_eq_total d.1 (hn d hdc)]
  refine ⟨fun k => ?_, ?_, fun h0 => ?_⟩
  · rw [(C90_inference p chunk).2]
    refine sum_map_nonneg _ _ fun d hdc => mul_nonneg ?_ (phi_nonneg hp _ _ _)
    rw [lastCount_eq_total d.1 (hn d hdc)]
    exact htot d hdc
  · rw [hsum]
    apply List.sum_le_sum
    intro d hdc
    have := (C90_phi p hp (inferDoc p d.1 d.2) w).2.1
    have := htot d hdc
    nlinarith
  · rw [hsum]
    congr 1
    apply List.map_congr_left
    intro d _
    rw [(C90_phi p hp _ w).2.2 h0, mul_one]

/-- Splitting a list of documents into chunks changes nothing: gammas are concatenated and statistics
    added. -/
theorem C90_chunks_add (p : Params T W) (c₁ c₂ : List (List (W × ℝ) × (T → ℝ))) :
    (inference p (c₁ ++ c₂)).1 = (inference p c₁).1 ++ (inference p c₂).1 ∧
    ∀ k w, (inference p (c₁ ++ c₂)).2 k w = (inference p c₁).2 k w + (inference p c₂).2 k w := by
  refine ⟨?_, fun k w => ?_⟩
  · rw [(C90_inference p _).1, (C90_inference p _).1, (C90_inference p _).1, List.map_append]
  · rw [(C90_inference p _).2, (C90_inference p _).2, (C90_inference p _).2, List.map_append, List.sum_append]

/-! ## C90: the bound never decreases -/

theorem jensen_log [Nonempty T] {p : Params T W} (hp : p.Pos) (g g' : T → ℝ) (w : W) :
    Real.log (∑ k, expElog g k * p.beta k w + p.eps)
      + ∑ k, phi p g k w * (dirichletExpectation g' k - dirichletExpectation g k)
      ≤ Real.log (∑ k, expElog g' k * p.beta k w + p.eps) := by
  have hN := phinorm_pos hp g w
  have hN' := phinorm_pos hp g' w
  have hs := sum_phi hp g w
  unfold phinorm at hN hN' hs
  set N := ∑ k, expElog g k * p.beta k w + p.eps with hNdef
  set N' := ∑ k, expElog g' k * p.beta k w + p.eps with hNdef'
  set m := ∑ k, phi p g k w * (dirichletExpectation g' k - dirichletExpectation g k) with hm
  have h1 : ∀ k, phi p g k w * (Real.exp m * (1 + (dirichletExpectation g' k - dirichletExpectation g k) - m))
      ≤ expElog g' k * p.beta k w / N := by
    intro k
    have e1 : expElog g' k * p.beta k w / N
        = phi p g k w * Real.exp (dirichletExpectation g' k - dirichletExpectation g k) := by
      unfold phi
      rw [Real.exp_sub]
      change _ = expElog g k * p.beta k w / N * (expElog g' k / expElog g k)
      have := (expElog_pos g k).ne'
      field_simp
    rw [e1]
    apply mul_le_mul_of_nonneg_left _ (phi_nonneg hp g k w)
    have h2 := Real.add_one_le_exp ((dirichletExpectation g' k - dirichletExpectation g k) - m)
    have h3 : Real.exp (dirichletExpectation g' k - dirichletExpectation g k)
        = Real.exp m * Real.exp ((dirichletExpectation g' k - dirichletExpectation g k) - m) := by
      rw [← Real.exp_add]; congr 1; ring
    rw [h3]
    apply mul_le_mul_of_nonneg_left _ (Real.exp_pos m).le
    linarith
  have h0 : p.eps / N * (Real.exp m * (1 + 0 - m)) ≤ p.eps / N := by
    have h2 := Real.add_one_le_exp (0 - m)
    have h4 : Real.exp m * Real.exp (0 - m) = 1 := by rw [← Real.exp_add]; simp
    have h5 : Real.exp m * (1 + 0 - m) ≤ 1 := by
      rw [← h4]
      apply mul_le_mul_of_nonneg_left _ (Real.exp_pos m).le
      linarith
    have := div_nonneg hp.eps hN.le
    nlinarith
  have hsum := Finset.sum_le_sum fun k (_ : k ∈ Finset.univ) => h1 k
  have e2 : ∑ k, phi p g k w * (Real.exp m * (1 + (dirichletExpectation g' k - dirichletExpectation g k) - m))
      = Real.exp m * ((1 - m) * ∑ k, phi p g k w + m) := by
    rw [hm, Finset.mul_sum, ← Finset.sum_add_distrib, ← hm, Finset.mul_sum]
    apply Finset.sum_congr rfl
    intro k _
    ring
  rw [e2, hs, ← Finset.sum_div] at hsum
  have h6 : Real.exp m ≤ N' / N := by
    have e3 : N' / N = (∑ k, expElog g' k * p.beta k w) / N + p.eps / N := by rw [← add_div]
    rw [e3]
    have : Real.exp m * ((1 - m) * (1 - p.eps / N) + m) + p.eps / N * (Real.exp m * (1 + 0 - m)) = Real.exp m := by
      ring
    linarith
  have h7 : m ≤ Real.log (N' / N) := by
    rw [Real.le_log_iff_exp_le (div_pos hN' hN)]
    exact h6
  rw [Real.log_div hN'.ne' hN.ne'] at h7
  linarith

theorem bound_step [Nonempty T] {p : Params T W} (hp : p.Pos) (doc : List (W × ℝ)) (hd : ∀ x ∈ doc, 0 ≤ x.2)
    (g : T → ℝ) (hg : ∀ k, 0 < g k) :
    docBound p.alpha p.beta p.eps doc g
      ≤ docBound p.alpha p.beta p.eps doc (gammaStep p (expElog g) doc) := by
  classical
  set g' := gammaStep p (expElog g) doc with hg'
  have hpos' : ∀ k, 0 < g' k := fun k => lt_of_lt_of_le (hp.alpha k) (gammaStep_ge hp g doc hd k)
  have ht := logNormOn_tangent Finset.univ Finset.univ_nonempty g g' (fun k _ => hg k) fun k _ => hpos' k
  unfold logNormOn at ht
  have hw : (doc.map fun x => x.2 * Real.log (∑ k, expElog g k * p.beta k x.1 + p.eps)).sum
      + ∑ k, (g' k - p.alpha k) * (dirichletExpectation g' k - dirichletExpectation g k)
      ≤ (doc.map fun x => x.2 * Real.log (∑ k, expElog g' k * p.beta k x.1 + p.eps)).sum := by
    have e1 : ∑ k, (g' k - p.alpha k) * (dirichletExpectation g' k - dirichletExpectation g k)
        = (doc.map fun x => x.2 * ∑ k, phi p g k x.1 *
            (dirichletExpectation g' k - dirichletExpectation g k)).sum := by
      have : ∀ k, (g' k - p.alpha k) * (dirichletExpectation g' k - dirichletExpectation g k)
          = (doc.map fun x => x.2 * (phi p g k x.1 *
            (dirichletExpectation g' k - dirichletExpectation g k))).sum := by
        intro k
        rw [hg', gammaStep_eq, add_sub_cancel_left, ← List.sum_map_mul_right]
        congr 2
        funext x
        ring
      simp only [this]
      rw [finset_list_sum_comm]
      simp only [Finset.mul_sum]
    rw [e1, ← List.sum_map_add]
    apply List.sum_le_sum
    intro x hx
    have := mul_le_mul_of_nonneg_left (jensen_log hp g g' x.1) (hd x hx)
    linarith
  unfold docBound
  have e2 : ∑ k, (g' k - g k) * (psi (g k) - psi (∑ k, g k)) = ∑ k, (g' k - g k) * dirichletExpectation g k := rfl
  rw [e2] at ht
  have e3 : ∑ k, (p.alpha k - g' k) * dirichletExpectation g' k
      = ∑ k, (p.alpha k - g k) * dirichletExpectation g k
        - ∑ k, (g' k - p.alpha k) * (dirichletExpectation g' k - dirichletExpectation g k)
        - ∑ k, (g' k - g k) * dirichletExpectation g k := by
    rw [← Finset.sum_sub_distrib, ← Finset.sum_sub_distrib]
    apply Finset.sum_congr rfl
    intro k _
    ring
  rw [e3]
  simp only [Finset.sum_sub_distrib] at *
  linarith

theorem loop_bound [Nonempty T] {p : Params T W} (hp : p.Pos) (doc : List (W × ℝ)) (hd : ∀ x ∈ doc, 0 ≤ x.2)
    (n : ℕ) (g : T → ℝ) (hg : ∀ k, 0 < g k) :
    docBound p.alpha p.beta p.eps doc g ≤ docBound p.alpha p.beta p.eps doc (loop p doc n g) := by
  induction n generalizing g with
  | zero => exact le_rfl
  | succ n ih =>
    unfold loop
    dsimp only
    have h1 := bound_step hp doc hd g hg
    split
    · exact h1
    · exact h1.trans (ih _ fun k => lt_of_lt_of_le (hp.alpha k) (gammaStep_ge hp g doc hd k))

theorem loop_bound_mono [Nonempty T] {p : Params T W} (hp : p.Pos) (doc : List (W × ℝ)) (hd : ∀ x ∈ doc, 0 ≤ x.2)
    (n m : ℕ) (g : T → ℝ) (hg : ∀ k, 0 < g k) :
    docBound p.alpha p.beta p.eps doc (loop p doc n g) ≤ docBound p.alpha p.beta p.eps doc (loop p doc (n + m) g) := by
  induction n generalizing g with
  | zero => rw [Nat.zero_add]; exact loop_bound hp doc hd m g hg
  | succ n ih =>
    rw [Nat.succ_add]
    unfold loop
    dsimp only
    split
    · exact le_rfl
    · exact ih _ fun k => lt_of_lt_of_le (hp.alpha k) (gammaStep_ge hp g doc hd k)

/-- Inference never lowers the variational bound of a document, whatever the number of iterations,
    the threshold and the initial gamma, and allowing more iterations never gives a worse bound. (For
    epsilon 0 the bound is that of the `bound` method.) -/
theorem C90_bound_never_decreases [Nonempty T] (p : Params T W) (hp : p.Pos) (doc : List (W × ℝ))
    (hd : ∀ x ∈ doc, 0 ≤ x.2) (g0 : T → ℝ) (hg : ∀ k, 0 < g0 k) :
    docBound p.alpha p.beta p.eps doc g0 ≤ docBound p.alpha p.beta p.eps doc (inferDoc p doc g0) ∧
    ∀ more : ℕ, docBound p.alpha p.beta p.eps doc (inferDoc p doc g0)
      ≤ docBound p.alpha p.beta p.eps doc (inferDoc { p with iterations := p.iterations + more } doc g0) := by
  refine ⟨loop_bound hp doc hd _ g0 hg, fun more => ?_⟩
  have h := loop_bound_mono hp doc hd p.iterations more g0 hg
  have e : ∀ (n : ℕ) (g : T → ℝ),
      loop { p with iterations := p.iterations + more } doc n g = loop p doc n g := by
    intro n
    induction n with
    | zero => intro g; rfl
    | succ n ih =>
      intro g
      unfold loop
      dsimp only
      have e2 : gammaStep { p with iterations := p.iterations + more } (expElog g) doc
          = gammaStep p (expElog g) doc := rfl
      rw [e2]
      split
      · rfl
      · exact ih _
  unfold inferDoc
  rw [e]
  exact h

/-! ## C90: repeated ids -/

/-- Two topics, one word, no training yet. -/
noncomputable def pEx : Params (Fin 2) (Fin 1) := ⟨fun _ => 1, fun _ _ => 1, 0, 0, 1⟩

theorem pEx_pos : pEx.Pos := ⟨fun _ => one_pos, fun _ _ => one_pos, le_rfl⟩

/-- A document that lists a word twice is counted in full by its gamma, but only the last pair reaches
    the statistics that topics are estimated from. -/
theorem C90_repeated_id_lost (p : Params T W) [Nonempty T] (hp : p.Pos) (w : W) (a b : ℝ) (g0 : T → ℝ)
    (he : p.eps = 0) (hi : 0 < p.iterations) (ha : 0 ≤ a) (hb : 0 ≤ b) :
    ∑ k, inferDoc p [(w, a), (w, b)] g0 k = ∑ k, p.alpha k + (a + b) ∧
    ∑ k, (inference p [([(w, a), (w, b)], g0)]).2 k w = b ∧
    ∑ k, (inference p [([(w, a + b)], g0)]).2 k w = a + b := by
  refine ⟨?_, ?_, ?_⟩
  · rw [(C90_gamma p hp [(w, a), (w, b)] (by simp [ha, hb]) g0 hi).2.2.1 he]
    simp
  · simp only [(C90_inference p _).2, List.map_cons, List.map_nil, List.sum_cons, List.sum_nil, add_zero]
    rw [← Finset.mul_sum, (C90_phi p hp _ w).2.2 he]
    simp [lastCount]
  · simp only [(C90_inference p _).2, List.map_cons, List.map_nil, List.sum_cons, List.sum_nil, add_zero]
    rw [← Finset.mul_sum, (C90_phi p hp _ w).2.2 he]
    simp [lastCount]

example : ∑ k, (inference pEx [([(0, 3), (0, 5)], fun _ => 1)]).2 k 0 = 5 :=
  (C90_repeated_id_lost pEx pEx_pos 0 3 5 _ rfl (by decide) (by norm_num) (by norm_num)).2.1

example : docBound pEx.alpha pEx.beta pEx.eps [(0, 3)] (fun k => if k = 0 then 7 else 2)
    ≤ docBound pEx.alpha pEx.beta pEx.eps [(0, 3)] (inferDoc pEx [(0, 3)] (fun k => if k = 0 then 7 else 2)) :=
  (C90_bound_never_decreases pEx pEx_pos [(0, 3)] (by simp) _ (by intro k; split <;> norm_num)).1

end Verif.LdaInfer

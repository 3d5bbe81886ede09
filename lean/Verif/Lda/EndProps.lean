import Verif.AuthorTopic.AscentProps
import Verif.Lda.StopProps
import Verif.Matutils.PsiProps
import Mathlib.Algebra.Order.Chebyshev

/-!
# C168: inference on a document of an LDA model ends by itself
-/

namespace Verif.LdaInfer

open Verif.Dirichlet Verif.LdaBound

variable {T W : Type} [Fintype T] [DecidableEq W]

/-! ## Specification -/

/-- what the words of a document would be worth if every topic had all of the document -/
noncomputable def ceiling (beta : T → W → ℝ) (doc : List (W × ℝ)) : ℝ :=
  (doc.map fun x => x.2 * Real.log (∑ k, beta k x.1)).sum

/-! ## Lemmas -/

/-- the logarithm of the gamma function lies above its tangents -/
theorem logGamma_tangent {x y : ℝ} (hx : 0 < x) (hy : 0 < y) :
    Real.log (Real.Gamma x) + (y - x) * psi x ≤ Real.log (Real.Gamma y) := by
  have hc := Real.convexOn_log_Gamma
  have hd := hasDerivAt_logGamma hx
  rcases lt_trichotomy x y with h | h | h
  · have := hc.le_slope_of_hasDerivAt (Set.mem_Ioi.2 hx) (Set.mem_Ioi.2 hy) h hd
    rw [slope_def_field, le_div_iff₀ (by linarith)] at this
    simp only [Function.comp] at this
    linarith
  · subst h; simp
  · have := hc.slope_le_of_hasDerivAt (Set.mem_Ioi.2 hy) (Set.mem_Ioi.2 hx) h hd
    rw [slope_def_field, div_le_iff₀ (by linarith)] at this
    simp only [Function.comp] at this
    linarith

/-- ... by at least as much as minus the logarithm does -/
theorem logGamma_strong {x y : ℝ} (hx : 0 < x) (hy : 0 < y) :
    Real.log (Real.Gamma x) + (y - x) * psi x + (y / x - 1 - Real.log (y / x)) ≤ Real.log (Real.Gamma y) := by
  have h := logGamma_tangent (x := x + 1) (y := y + 1) (by linarith) (by linarith)
  rw [PsiNum.psi_add_one hx, Real.Gamma_add_one hx.ne', Real.Gamma_add_one hy.ne',
    Real.log_mul hx.ne' (Real.Gamma_pos_of_pos hx).ne', Real.log_mul hy.ne' (Real.Gamma_pos_of_pos hy).ne'] at h
  rw [Real.log_div hy.ne' hx.ne']
  have e : (y + 1 - (x + 1)) * (psi x + 1 / x) = (y - x) * psi x + (y / x - 1) := by
    field_simp; ring
  rw [e] at h
  linarith

theorem ratio_gap {x y S : ℝ} (hx : 0 < x) (hy : 0 < y) (hxS : x ≤ S) (hyS : y ≤ S) :
    (y - x) ^ 2 / (4 * S ^ 2) ≤ y / x - 1 - Real.log (y / x) := by
  set s := Real.sqrt x with hs
  set t := Real.sqrt y with ht
  have hsp : 0 < s := Real.sqrt_pos.2 hx
  have htp : 0 < t := Real.sqrt_pos.2 hy
  have hxs : x = s ^ 2 := (Real.sq_sqrt hx.le).symm
  have hyt : y = t ^ 2 := (Real.sq_sqrt hy.le).symm
  have hlog : Real.log (y / x) ≤ 2 * (t / s - 1) := by
    have : y / x = (t / s) ^ 2 := by rw [hxs, hyt, div_pow]
    rw [this, Real.log_pow]
    have := Real.log_le_sub_one_of_pos (div_pos htp hsp)
    push_cast
    linarith
  have h1 : (t / s - 1) ^ 2 ≤ y / x - 1 - Real.log (y / x) := by
    have : y / x = (t / s) ^ 2 := by rw [hxs, hyt, div_pow]
    nlinarith
  refine le_trans ?_ h1
  have hS : 0 < S := lt_of_lt_of_le hx hxS
  have e : (t / s - 1) ^ 2 = (t - s) ^ 2 / x := by rw [hxs]; field_simp
  rw [e, div_le_div_iff₀ (by positivity) hx]
  have hst : (s + t) ^ 2 ≤ 4 * S := by
    have : 0 ≤ (s - t) ^ 2 := sq_nonneg _
    nlinarith
  have hfac : (y - x) ^ 2 = (t - s) ^ 2 * (s + t) ^ 2 := by rw [hxs, hyt]; ring
  rw [hfac]
  have h2 : (s + t) ^ 2 * x ≤ 4 * S ^ 2 := by
    calc (s + t) ^ 2 * x ≤ 4 * S * S := mul_le_mul hst hxS hx.le (by positivity)
      _ = 4 * S ^ 2 := by ring
  calc (t - s) ^ 2 * (s + t) ^ 2 * x = (t - s) ^ 2 * ((s + t) ^ 2 * x) := by ring
    _ ≤ (t - s) ^ 2 * (4 * S ^ 2) := mul_le_mul_of_nonneg_left h2 (sq_nonneg _)

/-- the divergence of Dirichlet distributions with the same total is at least the squared distance -/
theorem kl_gap (a b : T → ℝ) (ha : ∀ k, 0 < a k) (hb : ∀ k, 0 < b k) (hs : ∑ k, a k = ∑ k, b k) :
    (∑ k, (b k - a k) ^ 2) / (4 * (∑ k, a k) ^ 2) ≤ kl a b := by
  have e : kl a b = ∑ k, (Real.log (Real.Gamma (b k)) - Real.log (Real.Gamma (a k)) - (b k - a k) * psi (a k)) := by
    unfold kl logNorm
    rw [← hs]
    have : ∑ i, (a i - b i) * (psi (a i) - psi (∑ j, a j)) = - ∑ i, (b i - a i) * psi (a i) := by
      have h1 : ∑ i, (a i - b i) * psi (∑ j, a j) = 0 := by
        rw [← Finset.sum_mul, Finset.sum_sub_distrib, hs, sub_self, zero_mul]
      simp only [mul_sub, Finset.sum_sub_distrib, h1, sub_zero]
      rw [← Finset.sum_neg_distrib]
      exact Finset.sum_congr rfl fun i _ => by ring
    rw [this]
    simp only [Finset.sum_sub_distrib]
    ring
  rw [e, Finset.sum_div]
  refine Finset.sum_le_sum fun k _ => ?_
  have h1 : a k ≤ ∑ j, a j := Finset.single_le_sum (fun j _ => (ha j).le) (Finset.mem_univ k)
  have h2 : b k ≤ ∑ j, a j := hs ▸ Finset.single_le_sum (fun j _ => (hb j).le) (Finset.mem_univ k)
  have h3 := ratio_gap (ha k) (hb k) h1 h2
  have h4 := logGamma_strong (ha k) (hb k)
  linarith

theorem docBound_eq_worth (p : Params T W) (doc : List (W × ℝ)) (g r : T → ℝ) :
    AuthorInfer.worth ⟨p, fun _ : Unit => 1⟩ 1 (fun _ => g) [()] doc [r] = docBound p.alpha p.beta p.eps doc r := by
  unfold AuthorInfer.worth AuthorInfer.words docBound AuthorInfer.blended kl logNorm
  simp only [List.map_cons, List.map_nil, List.sum_cons, List.sum_nil, add_zero, List.zip_cons_cons, List.zip_nil_right,
    sub_self, zero_mul, one_mul, zero_add, Nat.cast_one, div_one]
  have : ∑ k, (p.alpha k - r k) * dirichletExpectation r k = - ∑ i, (r i - p.alpha i) * (psi (r i) - psi (∑ j, r j)) := by
    rw [← Finset.sum_neg_distrib]
    exact Finset.sum_congr rfl fun i _ => by unfold dirichletExpectation; ring
  rw [this, Finset.sum_sub_distrib]
  unfold expElog dirichletExpectation
  ring

theorem bound_kl [Nonempty T] (p : Params T W) (hp : p.Pos) (doc : List (W × ℝ)) (hd : ∀ x ∈ doc, 0 ≤ x.2) (g : T → ℝ) :
    docBound p.alpha p.beta p.eps doc g + kl g (gammaStep p (expElog g) doc)
      ≤ docBound p.alpha p.beta p.eps doc (gammaStep p (expElog g) doc) := by
  have h := AuthorInfer.C166_round (⟨p, fun _ : Unit => 1⟩ : AuthorInfer.Par Unit T W) hp 1 one_pos (fun _ => g) [()] (by simp)
    (by simp) doc hd [g] rfl
  have e : AuthorInfer.round (⟨p, fun _ : Unit => 1⟩ : AuthorInfer.Par Unit T W) 1 doc ([()].map fun a => (a, g)) [g]
      = [gammaStep p (expElog g) doc] := by
    simp only [AuthorInfer.round, List.map_cons, List.map_nil, List.zipWith_cons_cons, List.zipWith_nil_right]
    congr 1
    funext k
    have ht : AuthorInfer.thetaSum [g] = expElog g := by
      funext j; simp [AuthorInfer.thetaSum]
    simp [AuthorInfer.newRow, AuthorInfer.authorNorm, ht, gammaStep]
  simp only [e] at h
  rw [docBound_eq_worth, docBound_eq_worth] at h
  simpa using h

theorem step_sum [Nonempty T] (p : Params T W) (hp : p.Pos) (he : p.eps = 0) (doc : List (W × ℝ)) (g : T → ℝ) :
    ∑ k, gammaStep p (expElog g) doc k = ∑ k, p.alpha k + (doc.map Prod.snd).sum := by
  simp only [gammaStep_eq, Finset.sum_add_distrib]
  rw [finset_list_sum_comm]
  congr 3
  funext x
  rw [← Finset.mul_sum, sum_phi hp, he]
  simp

theorem step_pos [Nonempty T] (p : Params T W) (hp : p.Pos) (doc : List (W × ℝ)) (hd : ∀ x ∈ doc, 0 ≤ x.2) (g : T → ℝ)
    (k : T) : 0 < gammaStep p (expElog g) doc k :=
  lt_of_lt_of_le (hp.alpha k) (gammaStep_ge hp g doc hd k)

theorem bound_le_ceiling [Nonempty T] (p : Params T W) (hp : p.Pos) (he : p.eps = 0) (doc : List (W × ℝ))
    (hd : ∀ x ∈ doc, 0 ≤ x.2) (g : T → ℝ) (hg : ∀ k, 0 < g k) :
    docBound p.alpha p.beta p.eps doc g ≤ ceiling p.beta doc := by
  have hk := kl_nonneg g p.alpha hg hp.alpha
  have hs : 0 < ∑ j, g j := Finset.sum_pos (fun j _ => hg j) Finset.univ_nonempty
  have e : docBound p.alpha p.beta p.eps doc g
      = (doc.map fun x => x.2 * Real.log (∑ k, expElog g k * p.beta k x.1 + p.eps)).sum - kl g p.alpha := by
    rw [← docBound_eq_worth p doc g g]
    unfold AuthorInfer.worth AuthorInfer.words AuthorInfer.blended
    simp [expElog, dirichletExpectation]
  rw [e]
  have : (doc.map fun x => x.2 * Real.log (∑ k, expElog g k * p.beta k x.1 + p.eps)).sum ≤ ceiling p.beta doc := by
    unfold ceiling
    apply List.sum_le_sum
    intro x hx
    refine mul_le_mul_of_nonneg_left ?_ (hd x hx)
    rw [he, add_zero]
    refine Real.log_le_log (Finset.sum_pos (fun k _ => mul_pos (expElog_pos g k) (hp.beta k _)) Finset.univ_nonempty) ?_
    refine Finset.sum_le_sum fun k _ => ?_
    have h1 : expElog g k ≤ 1 := by
      refine (expElog_le g hg k).trans ?_
      rw [div_le_one hs]
      exact Finset.single_le_sum (fun j _ => (hg j).le) (Finset.mem_univ k)
    have := (hp.beta k x.1).le
    nlinarith
  linarith

/-! ## C168 -/

/-- **C168** Every update of a document's gamma after the first raises the bound of the document by at least the squared
distance the gamma moves, divided by the square of twice its total. -/
theorem C168_gain [Nonempty T] (p : Params T W) (hp : p.Pos) (he : p.eps = 0) (doc : List (W × ℝ))
    (hd : ∀ x ∈ doc, 0 ≤ x.2) (g : T → ℝ) (hg : ∀ k, 0 < g k) (hs : ∑ k, g k = ∑ k, p.alpha k + (doc.map Prod.snd).sum) :
    let g' := gammaStep p (expElog g) doc
    docBound p.alpha p.beta 0 doc g + (∑ k, (g' k - g k) ^ 2) / (2 * ∑ k, g k) ^ 2 ≤ docBound p.alpha p.beta 0 doc g' := by
  intro g'
  have h1 := bound_kl p hp doc hd g
  have h2 := kl_gap g g' hg (step_pos p hp doc hd g) (hs.trans (step_sum p hp he doc g).symm)
  rw [he] at h1
  have : (2 * ∑ k, g k) ^ 2 = 4 * (∑ k, g k) ^ 2 := by ring
  rw [this]
  linarith

/-- **C168** The number of updates that move the gamma by at least the threshold is limited: each of them costs a fixed
amount of what the bound can still gain. -/
theorem C168_rounds [Nonempty T] (p : Params T W) (hp : p.Pos) (he : p.eps = 0) (ht : 0 ≤ p.threshold) (doc : List (W × ℝ))
    (hd : ∀ x ∈ doc, 0 ≤ x.2) (g0 : T → ℝ) (n : ℕ) :
    let G := fun r => (fun g => gammaStep p (expElog g) doc)^[r] g0
    let total := ∑ k, p.alpha k + (doc.map Prod.snd).sum
    (∀ r, 1 ≤ r → r ≤ n → p.threshold ≤ (∑ k, |G (r + 1) k - G r k|) / Fintype.card T) →
    n * (Fintype.card T * p.threshold ^ 2 / (2 * total) ^ 2) ≤ ceiling p.beta doc - docBound p.alpha p.beta 0 doc (G 1) := by
  intro G total hfar
  have hcard : (0 : ℝ) < Fintype.card T := by exact_mod_cast Fintype.card_pos
  have hG : ∀ r, G (r + 1) = gammaStep p (expElog (G r)) doc := fun r => Function.iterate_succ_apply' _ _ _
  have hpos : ∀ r, ∀ k, 0 < G (r + 1) k := fun r k => by rw [hG]; exact step_pos p hp doc hd _ k
  have hsum : ∀ r, ∑ k, G (r + 1) k = total := fun r => by rw [hG]; exact step_sum p hp he doc _
  have one : ∀ r, r < n → docBound p.alpha p.beta 0 doc (G (r + 1)) + Fintype.card T * p.threshold ^ 2 / (2 * total) ^ 2
      ≤ docBound p.alpha p.beta 0 doc (G (r + 2)) := by
    intro r hr
    have h := C168_gain p hp he doc hd (G (r + 1)) (hpos r) (hsum r)
    dsimp only at h
    rw [← hG, hsum] at h
    refine le_trans (add_le_add_right ?_ _) h
    refine div_le_div_of_nonneg_right ?_ (sq_nonneg _)
    have hf := hfar (r + 1) (by omega) (by omega)
    rw [le_div_iff₀ hcard] at hf
    have hcs : (∑ k, |G (r + 1 + 1) k - G (r + 1) k|) ^ 2 ≤ Fintype.card T * ∑ k, |G (r + 1 + 1) k - G (r + 1) k| ^ 2 :=
      sq_sum_le_card_mul_sum_sq (s := Finset.univ)
    simp only [sq_abs] at hcs
    have h3 : (p.threshold * Fintype.card T) ^ 2 ≤ Fintype.card T * ∑ k, (G (r + 1 + 1) k - G (r + 1) k) ^ 2 :=
      le_trans (pow_le_pow_left₀ (by positivity) hf 2) hcs
    have h4 : (Fintype.card T : ℝ) * (Fintype.card T * p.threshold ^ 2)
        ≤ Fintype.card T * ∑ k, (G (r + 1 + 1) k - G (r + 1) k) ^ 2 := by
      calc _ = (p.threshold * Fintype.card T) ^ 2 := by ring
        _ ≤ _ := h3
    exact le_of_mul_le_mul_left h4 hcard
  have lin : ∀ m, m ≤ n → docBound p.alpha p.beta 0 doc (G 1) + m * (Fintype.card T * p.threshold ^ 2 / (2 * total) ^ 2)
      ≤ docBound p.alpha p.beta 0 doc (G (m + 1)) := by
    intro m
    induction m with
    | zero => intro _; simp
    | succ m ih =>
      intro hm
      have h1 := ih (by omega)
      have h2 := one m (by omega)
      push_cast
      linarith
  have h1 := lin n le_rfl
  have h2 := bound_le_ceiling p hp he doc hd (G (n + 1)) (hpos n)
  rw [he] at h2
  linarith

/-- **C168** Inference on a document ends by itself: from some number of allowed iterations on, allowing more changes
nothing, and the last update moved the gamma by less than the threshold. -/
theorem C168_ends [Nonempty T] (p : Params T W) (hp : p.Pos) (he : p.eps = 0) (ht : 0 < p.threshold) (doc : List (W × ℝ))
    (hd : ∀ x ∈ doc, 0 ≤ x.2) (g0 : T → ℝ) :
    ∃ N, ∀ n, N ≤ n → inferDoc { p with iterations := n } doc g0 = inferDoc { p with iterations := N } doc g0 ∧
      ∃ g, inferDoc { p with iterations := n } doc g0 = gammaStep p (expElog g) doc ∧
        (∑ k, |inferDoc { p with iterations := n } doc g0 k - g k|) / Fintype.card T < p.threshold := by
  have hcard : (0 : ℝ) < Fintype.card T := by exact_mod_cast Fintype.card_pos
  set step := fun g => gammaStep p (expElog g) doc with hstep
  set total := ∑ k, p.alpha k + (doc.map Prod.snd).sum with htotal
  have htot : 0 < total := by
    have h1 : 0 < ∑ k, p.alpha k := Finset.sum_pos (fun k _ => hp.alpha k) Finset.univ_nonempty
    have h2 := sum_map_nonneg doc Prod.snd hd
    rw [htotal]; linarith
  set δ : ℝ := Fintype.card T * p.threshold ^ 2 / (2 * total) ^ 2 with hδ
  have hδp : 0 < δ := by positivity
  obtain ⟨M, hM⟩ := exists_nat_gt ((ceiling p.beta doc - docBound p.alpha p.beta 0 doc (step^[1] g0)) / δ)
  rw [div_lt_iff₀ hδp] at hM
  have hclose : ∃ r, gap (step^[r] g0) (step^[r + 1] g0) < p.threshold * Fintype.card T := by
    by_contra hno
    push Not at hno
    have := C168_rounds p hp he ht.le doc hd g0 M fun r _ _ => by
      rw [le_div_iff₀ hcard]; exact hno r
    linarith
  obtain ⟨r0, hr0⟩ := hclose
  have run : ∀ n, r0 + 2 ≤ n → ∃ s, inferDoc { p with iterations := n } doc g0 = step^[s + 1] g0 ∧
      gap (step^[s] g0) (step^[s + 1] g0) < p.threshold * Fintype.card T ∧
      ∀ t, t < s → p.threshold * Fintype.card T ≤ gap (step^[t] g0) (step^[t + 1] g0) := by
    intro n hn
    obtain ⟨r, h1, h2, h3, h4⟩ := C90_stops { p with iterations := n } doc g0
    dsimp only at h1
    have hle : r ≤ r0 + 1 := by
      by_contra hgt
      exact absurd (h4 r0 (by omega)) (not_le.2 hr0)
    obtain ⟨s, rfl, hs⟩ := h3 (show r < n by omega)
    exact ⟨s, h2, hs, fun t hts => h4 t (by omega)⟩
  refine ⟨r0 + 2, fun n hn => ?_⟩
  obtain ⟨s, e, hs, hs'⟩ := run n hn
  obtain ⟨t, e', ht1, ht'⟩ := run (r0 + 2) le_rfl
  have : s = t := by
    rcases lt_trichotomy s t with h | h | h
    · exact absurd (ht' s h) (not_le.2 hs)
    · exact h
    · exact absurd (hs' t h) (not_le.2 ht1)
  subst this
  refine ⟨by rw [e, e'], step^[s] g0, ?_, ?_⟩
  · rw [e, Function.iterate_succ_apply']
  · rw [div_lt_iff₀ hcard, e]
    exact hs

/-! ## The hypotheses are met -/

example : pEx.Pos ∧ pEx.eps = 0 ∧ 0 < ({ pEx with threshold := 1 / 1000 } : Params _ _).threshold :=
  ⟨pEx_pos, rfl, by norm_num⟩

end Verif.LdaInfer

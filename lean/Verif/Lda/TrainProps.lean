import Verif.Lda.TrainModel
import Verif.Lda.InferProps
import Verif.Lda.UpdateProps

/-!
# C91: LDA priors, topics and queries
-/

namespace Verif.LdaTrain

open Verif.Dirichlet Verif.LdaInfer Verif.Lda Verif.Chunk

variable {T W : Type} [Fintype T] [Fintype W] [DecidableEq W]

/-! ## C91: priors -/

/-- The named priors are positive, and those of the topics ('symmetric', 'asymmetric', 'auto') add up
    to 1. -/
theorem C91_initial_prior (n shape : ℕ) (hn : 0 < n) (hs : 0 < shape) :
    (∀ i, 0 < (initDirPrior n shape .symmetric).1 i ∧ 0 < (initDirPrior n shape .asymmetric).1 i ∧
      0 < (initDirPrior n shape .auto).1 i) ∧
    ∑ i ∈ Finset.range n, (initDirPrior n n .symmetric).1 i = 1 ∧
    ∑ i ∈ Finset.range n, (initDirPrior n n .auto).1 i = 1 ∧
    ∑ i ∈ Finset.range n, (initDirPrior n n .asymmetric).1 i = 1 ∧
    (∀ i, (initDirPrior n shape .asymmetric).1 (i + 1) < (initDirPrior n shape .asymmetric).1 i) := by
  have hn' : (0 : ℝ) < n := by exact_mod_cast hn
  have hterm : ∀ m : ℕ, 0 < m → ∀ i : ℕ, (0 : ℝ) < 1 / ((i : ℝ) + Real.sqrt m) := by
    intro m hm i
    have : (0 : ℝ) < Real.sqrt m := Real.sqrt_pos.2 (by exact_mod_cast hm)
    positivity
  have hsum : ∀ m : ℕ, 0 < m → (0 : ℝ) < ∑ j ∈ Finset.range m, 1 / ((j : ℝ) + Real.sqrt m) := by
    intro m hm
    exact Finset.sum_pos (fun i _ => hterm m hm i) (by simpa using hm.ne')
  refine ⟨fun i => ⟨by simpa [initDirPrior] using hn, div_pos (hterm shape hs i) (hsum shape hs),
    by simpa [initDirPrior] using hn⟩, ?_, ?_, ?_, fun i => ?_⟩
  · simp [initDirPrior]; field_simp
  · simp [initDirPrior]; field_simp
  · unfold initDirPrior
    dsimp only
    rw [← Finset.sum_div]
    exact div_self (hsum n hn).ne'
  · unfold initDirPrior
    dsimp only
    apply div_lt_div_of_pos_right _ (hsum shape hs)
    apply one_div_lt_one_div_of_lt
    · have : (0 : ℝ) < Real.sqrt shape := Real.sqrt_pos.2 (by exact_mod_cast hs)
      positivity
    · push_cast; linarith

section prior
variable {I : Type} [Fintype I]

/-- Learning a prior keeps it positive, whatever the statistics and the learning rate. -/
theorem C91_prior_stays_positive (prior : I → ℝ) (N : ℝ) (lp : I → ℝ) (r : ℝ) (h : ∀ i, 0 < prior i) :
    ∀ i, 0 < updateDirPrior prior N lp r i := by
  unfold updateDirPrior
  dsimp only
  split
  · assumption
  · exact h

/-- The change of a prior is Newton's step: it solves `H · dprior = -gradf`, where
    `H = diag(-N ψ'(prior)) + N ψ'(Σ prior)` is the matrix of second derivatives of the likelihood and
    `gradf` its gradient. A learning rate `rho` takes that fraction of the step, unless some entry
    would stop being positive: then the prior is left as it was. -/
theorem C91_prior_newton (prior : I → ℝ) (N : ℝ) (lp : I → ℝ) (hc : N * trigamma (∑ j, prior j) ≠ 0)
    (hq : ∀ i, N * trigamma (prior i) ≠ 0)
    (hb : 1 / (N * trigamma (∑ j, prior j)) + ∑ j, 1 / (-N * trigamma (prior j)) ≠ 0) :
    (∀ i, -N * trigamma (prior i) * dprior prior N lp i
        + N * trigamma (∑ j, prior j) * ∑ j, dprior prior N lp j
      = -(N * (psi (∑ j, prior j) - psi (prior i) + lp i))) ∧
    ∀ r, updateDirPrior prior N lp r = prior ∨
      ∀ i, updateDirPrior prior N lp r i = prior i + r * dprior prior N lp i := by
  constructor
  · intro i
    set c := N * trigamma (∑ j, prior j) with hcdef
    have hq' : ∀ i, -N * trigamma (prior i) ≠ 0 := by
      intro i h
      exact hq i (by linarith)
    set b := (∑ j, gradf prior N lp j / (-N * trigamma (prior j))) /
      (1 / c + ∑ j, 1 / (-N * trigamma (prior j))) with hbdef
    have hd : ∀ j, dprior prior N lp j = -(gradf prior N lp j - b) / (-N * trigamma (prior j)) := fun j => rfl
    have hS : ∑ j, dprior prior N lp j = -(b / c) := by
      have e1 : ∑ j, dprior prior N lp j
          = -∑ j, gradf prior N lp j / (-N * trigamma (prior j)) + b * ∑ j, 1 / (-N * trigamma (prior j)) := by
        rw [Finset.mul_sum, ← Finset.sum_neg_distrib, ← Finset.sum_add_distrib]
        apply Finset.sum_congr rfl
        intro j _
        rw [hd]
        ring
      have e2 : ∑ j, gradf prior N lp j / (-N * trigamma (prior j))
          = b * (1 / c + ∑ j, 1 / (-N * trigamma (prior j))) := by
        rw [hbdef, div_mul_cancel₀ _ hb]
      rw [e1, e2]
      ring
    rw [hS, hd, mul_div_cancel₀ _ (hq' i)]
    have : c * -(b / c) = -b := by field_simp
    rw [this]
    unfold gradf
    ring
  · intro r
    unfold updateDirPrior
    dsimp only
    split
    · right; intro i; ring
    · left; rfl

/-- A prior that already agrees with the documents (expected logarithms equal to the observed ones)
    is not changed. -/
theorem C91_prior_fixed (prior : I → ℝ) (N : ℝ) (lp : I → ℝ) (r : ℝ)
    (h : ∀ i, lp i = psi (prior i) - psi (∑ j, prior j)) : updateDirPrior prior N lp r = prior := by
  have hg : ∀ i, gradf prior N lp i = 0 := by
    intro i
    unfold gradf
    rw [h i]
    ring
  have hd : ∀ i, dprior prior N lp i = 0 := by
    intro i
    unfold dprior
    simp [hg]
  unfold updateDirPrior
  dsimp only
  simp [hd]

end prior

/-! ## C91: the learning rate -/

/-- With `offset ≥ 1` and `decay ≥ 0` the learning rate lies in (0, 1] and never grows, neither with
    the number of documents seen nor with the pass. With `offset` below 1 and `decay` positive the
    first update has a rate above 1. -/
theorem C91_rho (offset decay : ℝ) (cs : ℕ) :
    (1 ≤ offset → 0 ≤ decay → ∀ p u, 0 < rho offset decay cs p u ∧ rho offset decay cs p u ≤ 1 ∧
      ∀ p' u', p ≤ p' → u ≤ u' → rho offset decay cs p' u' ≤ rho offset decay cs p u) ∧
    (0 < offset → offset < 1 → 0 < decay → 1 < rho offset decay cs 0 0) := by
  constructor
  · intro ho hd p u
    have base : ∀ p u : ℕ, 1 ≤ offset + p + (u : ℝ) / cs := by
      intro p u
      have h1 : (0 : ℝ) ≤ p := Nat.cast_nonneg p
      have h2 : (0 : ℝ) ≤ (u : ℝ) / cs := div_nonneg (Nat.cast_nonneg u) (Nat.cast_nonneg cs)
      linarith
    refine ⟨Real.rpow_pos_of_pos (by linarith [base p u]) _, ?_, fun p' u' hp hu => ?_⟩
    · exact Real.rpow_le_one_of_one_le_of_nonpos (base p u) (by linarith)
    · unfold rho
      apply Real.rpow_le_rpow_of_nonpos (by linarith [base p u]) _ (by linarith)
      have h1 : (p : ℝ) ≤ p' := by exact_mod_cast hp
      have h2 : (u : ℝ) / cs ≤ (u' : ℝ) / cs :=
        div_le_div_of_nonneg_right (by exact_mod_cast hu) (Nat.cast_nonneg cs)
      linarith
  · intro h0 h1 hd
    unfold rho
    simp only [Nat.cast_zero, add_zero, zero_div]
    exact Real.one_lt_rpow_of_pos_of_lt_one_of_neg h0 h1 (by linarith)

/-! ## C91: training -/

theorem mem_chunks {α : Type} (k : ℕ) (l : List α) : ∀ c ∈ chunks k l, ∀ d ∈ c, d ∈ l := by
  induction l using chunks.induct k with
  | case1 l h =>
    intro c hc
    rw [chunks, dif_pos h] at hc
    simp at hc
  | case2 l h ih =>
    intro c hc d hd
    rw [chunks, dif_neg h, List.mem_cons] at hc
    rcases hc with rfl | hc
    · exact List.mem_of_mem_take hd
    · exact List.mem_of_mem_drop (ih c hc d hd)

section loop
variable {ι A H G D : Type}

/-- A relation kept by E and M steps is kept by training. -/
theorem update_rel {A' H' : Type} (nu : Numerics ι ℝ A H G D) (nu' : Numerics ι ℝ A' H' G D)
    (P : Trainer ι ℝ A H → Trainer ι ℝ A' H' → Prop) (Q : State ι ℝ → State ι ℝ → Prop) (R : D → Prop)
    (hz : Q State.zero State.zero)
    (he : ∀ pass t t' o o' chunk, P t t' → Q o o' → (∀ d ∈ chunk, R d) →
      P (estep nu pass (t, o) chunk).1 (estep nu' pass (t', o') chunk).1 ∧
      Q (estep nu pass (t, o) chunk).2 (estep nu' pass (t', o') chunk).2)
    (hm : ∀ pass t t' o o', P t t' → Q o o' → P (mstep nu pass t o) (mstep nu' pass t' o'))
    (hn : ∀ t t' n, P t t' → P { t with state := { t.state with numdocs := t.state.numdocs + n } }
      { t' with state := { t'.state with numdocs := t'.state.numdocs + n } })
    (every cs passes : ℕ) (corpus : List D) (hR : ∀ d ∈ corpus, R d) (t : Trainer ι ℝ A H)
    (t' : Trainer ι ℝ A' H') (ht : P t t') :
    P (update nu every cs passes corpus t) (update nu' every cs passes corpus t') := by
  have hloop : ∀ (pass : ℕ) (cl : List (List D)), (∀ c ∈ cl, ∀ d ∈ c, R d) →
      ∀ (l : Loop ι ℝ A H) (l' : Loop ι ℝ A' H'), P l.tr l'.tr → Q l.other l'.other → l.dirty = l'.dirty →
        l.chunkNo = l'.chunkNo →
        P (cl.foldl (chunkStep nu pass every) l).tr (cl.foldl (chunkStep nu' pass every) l').tr ∧
        Q (cl.foldl (chunkStep nu pass every) l).other (cl.foldl (chunkStep nu' pass every) l').other ∧
        (cl.foldl (chunkStep nu pass every) l).dirty = (cl.foldl (chunkStep nu' pass every) l').dirty := by
    intro pass cl
    induction cl with
    | nil => intro _ l l' h1 h2 h3 _; exact ⟨h1, h2, h3⟩
    | cons c cl ih =>
      intro hc l l' h1 h2 h3 h4
      rw [List.foldl_cons, List.foldl_cons]
      obtain ⟨e1, e2⟩ := he pass l.tr l'.tr l.other l'.other c h1 h2 (hc c (by simp))
      have hc' : ∀ c ∈ cl, ∀ d ∈ c, R d := fun c' h => hc c' (by simp [h])
      by_cases hcond : every ≠ 0 ∧ (l.chunkNo + 1) % every = 0
      · have hcond' : every ≠ 0 ∧ (l'.chunkNo + 1) % every = 0 := by rw [← h4]; exact hcond
        refine ih hc' _ _ ?_ ?_ ?_ ?_
        all_goals unfold chunkStep; rw [if_pos hcond, if_pos hcond']
        · exact hm pass _ _ _ _ e1 e2
        · exact hz
        · simp [h4]
      · have hcond' : ¬(every ≠ 0 ∧ (l'.chunkNo + 1) % every = 0) := by rw [← h4]; exact hcond
        refine ih hc' _ _ ?_ ?_ ?_ ?_
        all_goals unfold chunkStep; rw [if_neg hcond, if_neg hcond']
        · exact e1
        · exact e2
        · simp [h4]
  have hpass : ∀ (cs : ℕ) (pl : List ℕ) (t : Trainer ι ℝ A H) (t' : Trainer ι ℝ A' H'), P t t' →
      P (pl.foldl (runPass nu every cs corpus) t) (pl.foldl (runPass nu' every cs corpus) t') := by
    intro cs pl
    induction pl with
    | nil => intro t t' h; exact h
    | cons pass pl ih =>
      intro t t' h
      rw [List.foldl_cons, List.foldl_cons]
      apply ih
      obtain ⟨h1, h2, h3⟩ := hloop pass (chunks cs corpus)
        (fun c hc d hd => hR d (mem_chunks cs corpus c hc d hd)) ⟨t, State.zero, false, 0⟩
        ⟨t', State.zero, false, 0⟩ h hz rfl rfl
      unfold runPass
      dsimp only
      rw [h3]
      split
      · exact hm pass _ _ _ _ h1 h2
      · exact h1
  unfold update
  split
  · exact ht
  · exact hpass _ _ _ _ (hn _ _ _ ht)

end loop

/-- What a usable call looks like: counts are not negative, `offset ≥ 1`, `decay ≥ 0`. -/
structure Call.Ok (u : Call W) : Prop where
  counts : ∀ d ∈ u.corpus, ∀ x ∈ d, 0 ≤ x.2
  offset : 1 ≤ u.offset
  decay : 0 ≤ u.decay

theorem lastCount_nonneg (doc : List (W × ℝ)) (h : ∀ x ∈ doc, 0 ≤ x.2) (w : W) : 0 ≤ lastCount doc w := by
  unfold lastCount
  cases hl : ((doc.filter fun x => x.1 = w).map Prod.snd).getLast? with
  | none => simp
  | some v =>
    have := List.mem_of_getLast? hl
    obtain ⟨x, hx, rfl⟩ := List.mem_map.1 this
    simpa using h x (List.mem_filter.1 hx).1

theorem inference_nonneg [Nonempty T] (p : Params T W) (hp : p.Pos) (chunk : List (List (W × ℝ) × (T → ℝ)))
    (hd : ∀ d ∈ chunk, ∀ x ∈ d.1, 0 ≤ x.2) (k : T) (w : W) : 0 ≤ (inference p chunk).2 k w := by
  rw [(C90_inference p chunk).2]
  exact sum_map_nonneg _ _ fun d hdc => mul_nonneg (lastCount_nonneg d.1 (hd d hdc) w) (phi_nonneg hp _ _ _)

/-- What training keeps: statistics are not negative, alpha and `expElogbeta` positive. -/
structure Good (t : Trainer (T × W) ℝ (AlphaSt T) (BetaSt T W)) : Prop where
  stats : ∀ j, 0 ≤ t.state.sstats j
  alpha : ∀ k, 0 < t.alpha.alpha k
  eta : ∀ w, 0 < t.eta.eta w
  beta : ∀ k w, 0 < t.eta.expElogbeta k w

theorem trainCall_good [Nonempty T] (c : Config T W) (heps : 0 ≤ c.eps)
    (t : Trainer (T × W) ℝ (AlphaSt T) (BetaSt T W)) (ht : Good t) (u : Call W) (hu : u.Ok) :
    Good (trainCall c t u) := by
  unfold trainCall
  refine update_rel (numerics c u.offset u.decay u.chunksize) (numerics c u.offset u.decay u.chunksize)
    (fun t _ => Good t) (fun o _ => ∀ j, 0 ≤ o.sstats j) (fun d => ∀ x ∈ d, 0 ≤ x.2)
    (fun j => le_rfl) ?_ ?_ ?_ _ _ _ u.corpus hu.counts t t ht
  · intro pass t _ o _ chunk h1 h2 h3
    unfold estep
    dsimp only
    refine ⟨⟨h1.stats, fun k => ?_, h1.eta, h1.beta⟩, fun j => ?_⟩
    · simp only [numerics]
      split
      · exact C91_prior_stays_positive _ _ _ _ h1.alpha k
      · exact h1.alpha k
    · refine add_nonneg (h2 j) ?_
      simp only [numerics]
      refine inference_nonneg _ ⟨h1.alpha, h1.beta, heps⟩ _ (fun d hd => ?_) _ _
      obtain ⟨y, hy, rfl⟩ := List.mem_map.1 hd
      rw [List.mem_zipIdx_iff_getElem?] at hy
      exact h3 _ (List.mem_of_getElem? hy)
  · intro pass t _ o _ h1 h2
    have hr := (C91_rho u.offset u.decay u.chunksize).1 hu.offset hu.decay pass t.numUpdates
    unfold mstep
    dsimp only
    refine ⟨?_, h1.alpha, fun w => ?_, fun k w => ?_⟩
    · exact C45_blend_nonneg _ _ _ _ hr.1.le hr.2.1 h1.stats h2
    · simp only [numerics]
      split
      · exact C91_prior_stays_positive _ _ _ _ h1.eta w
      · exact h1.eta w
    · exact expElog_pos _ _
  · intro t _ n h
    exact ⟨h.stats, h.alpha, h.eta, h.beta⟩

/-- Whatever the history of updates, from a new model with positive priors: alpha and eta stay
    positive, the statistics are never negative, and every topic is a probability distribution that
    gives every word a positive probability. -/
theorem C91_topics_are_distributions [Nonempty T] [Nonempty W] (c : Config T W) (heps : 0 ≤ c.eps)
    (heta : ∀ k w, 0 < c.eta0 k w) (alpha : T → ℝ) (ha : ∀ k, 0 < alpha k) (eta : W → ℝ) (he : ∀ w, 0 < eta w)
    (s0 : T × W → ℝ) (hs : ∀ j, 0 ≤ s0 j) (calls : List (Call W)) (hc : ∀ u ∈ calls, u.Ok) :
    let t := train c (initModel alpha eta s0) calls
    (∀ k, 0 < t.alpha.alpha k) ∧ (∀ w, 0 < t.eta.eta w) ∧ (∀ j, 0 ≤ t.state.sstats j) ∧
    (∀ k w, 0 < getTopics c t.state k w) ∧ ∀ k, ∑ w, getTopics c t.state k w = 1 := by
  have hgood : ∀ t, Good t → Good (train c t calls) := by
    unfold train
    clear hs
    induction calls with
    | nil => intro t h; exact h
    | cons u calls ih =>
      intro t h
      rw [List.foldl_cons]
      exact ih (fun u' h' => hc u' (by simp [h'])) _ (trainCall_good c heps t h u (hc u (by simp)))
  have h := hgood (initModel alpha eta s0) ⟨hs, ha, he, fun k w => expElog_pos _ _⟩
  dsimp only
  have hl : ∀ k w, 0 < getLambda c (train c (initModel alpha eta s0) calls).state k w :=
    fun k w => add_pos_of_pos_of_nonneg (heta k w) (h.stats _)
  have hsum : ∀ k, 0 < ∑ w, getLambda c (train c (initModel alpha eta s0) calls).state k w :=
    fun k => Finset.sum_pos (fun w _ => hl k w) Finset.univ_nonempty
  refine ⟨h.alpha, h.eta, h.stats, fun k w => div_pos (hl k w) (hsum k), fun k => ?_⟩
  unfold getTopics
  rw [← Finset.sum_div]
  exact div_self (hsum k).ne'

/-- Learning eta (`eta='auto'`) has no effect on the model: state, alpha and `expElogbeta`, hence
    topics and inference, are the same after any history of updates as without learning it; topics
    are estimated with the initial eta. -/
theorem C91_learned_eta_ignored (c : Config T W) (t : Trainer (T × W) ℝ (AlphaSt T) (BetaSt T W))
    (calls : List (Call W)) :
    let a := train { c with optEta := true } t calls
    let b := train { c with optEta := false } t calls
    a.state = b.state ∧ a.alpha = b.alpha ∧ a.eta.expElogbeta = b.eta.expElogbeta ∧
    a.numUpdates = b.numUpdates ∧ b.eta.eta = t.eta.eta ∧
    getTopics { c with optEta := true } a.state = getTopics { c with optEta := false } b.state := by
  let P : Trainer (T × W) ℝ (AlphaSt T) (BetaSt T W) → Trainer (T × W) ℝ (AlphaSt T) (BetaSt T W) → Prop :=
    fun a b => a.state = b.state ∧ a.alpha = b.alpha ∧ a.eta.expElogbeta = b.eta.expElogbeta ∧
      a.numUpdates = b.numUpdates ∧ b.eta.eta = t.eta.eta
  have step : ∀ (u : Call W) (x y : Trainer (T × W) ℝ (AlphaSt T) (BetaSt T W)), P x y →
      P (trainCall { c with optEta := true } x u) (trainCall { c with optEta := false } y u) := by
    intro u x y hxy
    unfold trainCall
    refine update_rel _ _ P (fun o o' => o = o') (fun _ => True) rfl ?_ ?_ ?_ _ _ _ u.corpus
      (fun _ _ => trivial) x y hxy
    · rintro pass ⟨ts, ta, th, tn⟩ ⟨ts', ta', th', tn'⟩ o o' chunk ⟨h1, h2, h3, h4, h5⟩ ho _
      dsimp only at h1 h2 h3 h4 h5
      subst h1 h2 h4 ho
      unfold estep numerics
      dsimp only
      rw [h3]
      exact ⟨⟨rfl, rfl, h3, rfl, h5⟩, rfl⟩
    · rintro pass ⟨ts, ta, th, tn⟩ ⟨ts', ta', th', tn'⟩ o o' ⟨h1, h2, h3, h4, h5⟩ ho
      dsimp only at h1 h2 h3 h4 h5
      subst h1 h2 h4 ho
      unfold mstep numerics
      dsimp only
      exact ⟨rfl, rfl, rfl, rfl, h5⟩
    · rintro ⟨ts, ta, th, tn⟩ ⟨ts', ta', th', tn'⟩ n ⟨h1, h2, h3, h4, h5⟩
      dsimp only at h1 h2 h3 h4 h5
      subst h1 h2 h4
      exact ⟨rfl, rfl, h3, rfl, h5⟩
  have main : ∀ (calls : List (Call W)) (x y : Trainer (T × W) ℝ (AlphaSt T) (BetaSt T W)), P x y →
      P (train { c with optEta := true } x calls) (train { c with optEta := false } y calls) := by
    intro calls
    induction calls with
    | nil => intro x y h; exact h
    | cons u calls ih =>
      intro x y h
      unfold train at *
      rw [List.foldl_cons, List.foldl_cons]
      exact ih _ _ (step u x y h)
  obtain ⟨h1, h2, h3, h4, h5⟩ := main calls t t ⟨rfl, rfl, rfl, rfl, rfl⟩
  refine ⟨h1, h2, h3, h4, h5, ?_⟩
  rw [h1]
  rfl

/-- The arguments `iterations` and `gamma_threshold` of `update` have no effect. -/
theorem C91_update_arguments_ignored (c : Config T W) (t : Trainer (T × W) ℝ (AlphaSt T) (BetaSt T W)) (u : Call W)
    (i : Option ℕ) (g : Option ℝ) :
    trainCall c t { u with iterations := i, gammaThreshold := g } = trainCall c t u := rfl

/-- One update on a corpus of one document: every statistic is blended with that document's. -/
theorem one_document (c : Config T W) (t : Trainer (T × W) ℝ (AlphaSt T) (BetaSt T W)) (doc : List (W × ℝ))
    (offset decay : ℝ) (hn : t.state.numdocs = 0) (j : T × W) :
    (trainCall c t ⟨[doc], 1, decay, offset, 1, 1, none, none⟩).state.sstats j
      = (1 - rho offset decay 1 0 t.numUpdates) * t.state.sstats j + rho offset decay 1 0 t.numUpdates *
        (inference ⟨t.alpha.alpha, t.eta.expElogbeta, c.eps, c.threshold, c.iterations⟩
          [(doc, c.draws t.alpha.drawn)]).2 j.1 j.2 := by
  have hch : chunks 1 [doc] = [[doc]] := by
    rw [chunks, dif_neg (by simp)]
    simp [chunks]
  unfold trainCall update
  rw [if_neg (by simp)]
  simp only [List.length_singleton, min_self, List.range_one, List.foldl_cons, List.foldl_nil]
  unfold runPass
  simp only [hch, List.foldl_cons, List.foldl_nil]
  have hstep : ∀ (nu : Numerics (T × W) ℝ (AlphaSt T) (BetaSt T W) (List (T → ℝ)) (List (W × ℝ)))
      (l : Loop (T × W) ℝ (AlphaSt T) (BetaSt T W)) (ch : List (List (W × ℝ))), chunkStep nu 0 1 l ch
      = ⟨mstep nu 0 (estep nu 0 (l.tr, l.other) ch).1 (estep nu 0 (l.tr, l.other) ch).2, State.zero, false,
          l.chunkNo + 1⟩ := by
    intro nu l ch
    unfold chunkStep
    dsimp only
    rw [if_pos ⟨one_ne_zero, Nat.mod_one _⟩]
  rw [hstep]
  simp only [Bool.false_eq_true, if_false, mstep, estep, State.blend, scaleTo, hn, numerics, State.zero,
    Option.getD_none, List.length_singleton]
  simp
  ring

/-- With `offset < 1` and `decay > 0` a first update on a document without the word `w` makes the
    statistic of `w` negative, and if it was larger than eta by enough, its weight in the topic too:
    the topics stop being probability distributions. -/
theorem C91_small_offset_negative (c : Config T W) (alpha : T → ℝ) (eta : W → ℝ) (s0 : T × W → ℝ)
    (doc : List (W × ℝ)) (w : W) (hw : ∀ x ∈ doc, x.1 ≠ w) (k : T) (hk : 0 < s0 (k, w)) :
    (∀ offset decay, 0 < offset → offset < 1 → 0 < decay →
      (trainCall c (initModel alpha eta s0) ⟨[doc], 1, decay, offset, 1, 1, none, none⟩).state.sstats (k, w) < 0) ∧
    (c.eta0 k w < s0 (k, w) →
      getLambda c (trainCall c (initModel alpha eta s0) ⟨[doc], 1, 1 / 2, 1 / 4, 1, 1, none, none⟩).state k w < 0) := by
  have hz : ∀ (p : Params T W) (g0 : T → ℝ), (inference p [(doc, g0)]).2 k w = 0 := by
    intro p g0
    rw [(C90_inference p _).2]
    have : lastCount doc w = 0 := by
      unfold lastCount
      rw [List.filter_eq_nil_iff.2 fun x hx => by simpa using hw x hx]
      rfl
    simp [this]
  constructor
  · intro offset decay h0 h1 hd
    rw [one_document c _ doc offset decay rfl, hz, mul_zero, add_zero]
    have := (C91_rho offset decay 1).2 h0 h1 hd
    exact mul_neg_of_neg_of_pos (by simpa [initModel] using this) hk
  · intro he
    unfold getLambda
    rw [one_document c _ doc _ _ rfl, hz, mul_zero, add_zero]
    have hr : rho (1 / 4) (1 / 2) 1 0 (initModel alpha eta s0).numUpdates = 2 := by
      unfold rho initModel
      have e : (1 / 4 : ℝ) + (0 : ℕ) + ((0 : ℕ) : ℝ) / (1 : ℕ) = (1 / 2) ^ (2 : ℝ) := by norm_num
      rw [e, ← Real.rpow_mul (by norm_num)]
      norm_num
    rw [hr]
    change c.eta0 k w + (1 - 2) * s0 (k, w) < 0
    linarith

/-! ## C91: queries -/

/-- `get_document_topics` lists, in the order of the topics and each once, exactly the topics whose
    share of the document is at least `max(minimum_probability, 1e-8)`, with that share; the shares
    listed add up to at most 1, and what is missing is less than that threshold per omitted topic. -/
theorem C91_document_topics {n : ℕ} (gamma : Fin n → ℝ) (hg : ∀ k, 0 < gamma k) (hn : 0 < n) (m : ℝ) :
    (documentTopics gamma m).Pairwise (fun a b => a.1 < b.1) ∧
    (∀ k v, (k, v) ∈ documentTopics gamma m ↔ v = gamma k / ∑ j, gamma j ∧ max m (1 / 10 ^ 8) ≤ v) ∧
    ((documentTopics gamma m).map Prod.snd).sum ≤ 1 ∧
    1 - ((documentTopics gamma m).map Prod.snd).sum
      ≤ (n - (documentTopics gamma m).length : ℝ) * max m (1 / 10 ^ 8) := by
  have : Nonempty (Fin n) := ⟨⟨0, hn⟩⟩
  have hS : 0 < ∑ j, gamma j := Finset.sum_pos (fun k _ => hg k) Finset.univ_nonempty
  let l := (List.finRange n).map fun k => (k, gamma k / ∑ j, gamma j)
  have hl : (l.map Prod.snd).sum = 1 := by
    have : l.map Prod.snd = (List.finRange n).map fun k => gamma k / ∑ j, gamma j := by simp [l]
    rw [this, ← List.ofFn_eq_map, List.sum_ofFn, ← Finset.sum_div]
    exact div_self hS.ne'
  have hpos : ∀ x ∈ l, 0 ≤ x.2 := by
    intro x hx
    obtain ⟨k, _, rfl⟩ := List.mem_map.1 hx
    exact (div_pos (hg k) hS).le
  have hlen : l.length = n := by simp [l]
  have hdef : documentTopics gamma m = l.filter fun x => decide (floorProb m ≤ x.2) := rfl
  have key : ∀ (l : List (Fin n × ℝ)), (∀ x ∈ l, 0 ≤ x.2) →
      ((l.filter fun x => decide (floorProb m ≤ x.2)).map Prod.snd).sum ≤ (l.map Prod.snd).sum ∧
      (l.map Prod.snd).sum - ((l.filter fun x => decide (floorProb m ≤ x.2)).map Prod.snd).sum
        ≤ (l.length - (l.filter fun x => decide (floorProb m ≤ x.2)).length : ℝ) * floorProb m := by
    intro l
    induction l with
    | nil => simp
    | cons x l ih =>
      intro hx
      obtain ⟨i1, i2⟩ := ih fun y hy => hx y (by simp [hy])
      by_cases h : floorProb m ≤ x.2
      · rw [List.filter_cons_of_pos (by simpa using h)]
        simp only [List.map_cons, List.sum_cons, List.length_cons]
        push_cast
        exact ⟨by linarith, by linarith⟩
      · rw [List.filter_cons_of_neg (by simpa using h)]
        have := hx x (by simp)
        simp only [List.map_cons, List.sum_cons, List.length_cons]
        push_cast
        exact ⟨by linarith, by linarith⟩
  refine ⟨?_, fun k v => ?_, ?_, ?_⟩
  · rw [hdef]
    apply List.Pairwise.filter
    simp only [l]
    rw [List.pairwise_map]
    exact List.pairwise_lt_finRange n
  · rw [hdef, List.mem_filter]
    simp only [l, List.mem_map, List.mem_finRange, true_and, Prod.mk.injEq, decide_eq_true_eq, floorProb]
    constructor
    · rintro ⟨⟨k', rfl, rfl⟩, h⟩
      exact ⟨rfl, of_decide_eq_true h⟩
    · rintro ⟨rfl, h⟩
      exact ⟨⟨k, rfl, rfl⟩, decide_eq_true h⟩
  · rw [hdef, ← hl]
    exact (key l hpos).1
  · have := (key l hpos).2
    rw [hl, hlen] at this
    exact this

/-- `show_topics(n)`: for `0 < n < num_topics` exactly `n` different topics, all of them for `n < 0`
    and `n ≥ num_topics`; but `show_topics(0)` also shows every topic. -/
theorem C91_show_topics (num : ℕ) (sorted : List ℕ) (hs : sorted.Perm (List.range num)) (n : ℤ) :
    (0 < n → n < num → (chosenTopics num sorted n).length = n ∧ (chosenTopics num sorted n).Nodup ∧
      ∀ k ∈ chosenTopics num sorted n, k < num) ∧
    ((n ≤ 0 ∨ num ≤ n) → (chosenTopics num sorted n).Perm (List.range num)) := by
  have hlen : sorted.length = num := by simpa using hs.length_eq
  have hnd : sorted.Nodup := hs.nodup_iff.2 List.nodup_range
  constructor
  · intro h0 h1
    obtain ⟨m, rfl⟩ : ∃ m : ℕ, n = m := ⟨n.toNat, by omega⟩
    have hm : m ≠ 0 := by omega
    have hm' : m < num := by exact_mod_cast h1
    unfold chosenTopics
    rw [if_neg (by omega)]
    simp only [Int.toNat_natCast, if_neg hm]
    refine ⟨?_, ?_, ?_⟩
    · simp only [List.length_append, List.length_take, List.length_drop, hlen]
      push_cast
      omega
    · have hle : m / 2 ≤ sorted.length - (m + 1) / 2 := by omega
      have hsub : (sorted.take (m / 2) ++ sorted.drop (sorted.length - (m + 1) / 2)).Sublist sorted := by
        conv_rhs => rw [← List.take_append_drop (sorted.length - (m + 1) / 2) sorted]
        exact (List.take_sublist_take_left hle).append (List.Sublist.refl _)
      exact hnd.sublist hsub
    · intro k hk
      have : k ∈ sorted := by
        rcases List.mem_append.1 hk with h | h
        · exact List.mem_of_mem_take h
        · exact List.mem_of_mem_drop h
      exact List.mem_range.1 (hs.mem_iff.1 this)
  · intro h
    unfold chosenTopics
    split
    · exact List.Perm.refl _
    · next hc =>
      have : n = 0 := by omega
      subst this
      simpa using hs

theorem floorProb_idem (x : ℝ) : floorProb (floorProb x) = floorProb x := by
  unfold floorProb; simp

/-- `model[bow]` works with the model's own three settings, and `model[corpus]` leaves them as they
    are in effect. `get_document_topics(corpus, ...)` however stores its thresholds in the model:
    every later `model[bow]`, and every lazy result obtained before, works with them. And
    `get_document_topics(bow)` without `minimum_phi_value` uses `minimum_probability`, not the model's
    own `minimum_phi_value`. -/
theorem C91_settings (s : Settings) :
    getItem s = ⟨floorProb s.minProb, floorProb s.minPhi, s.perWord⟩ ∧
    getItem (getItemCorpus s) = getItem s ∧
    (∀ (m : ℝ) (f : Option ℝ) (w : Bool), (getItem (askCorpus s (some m) f w)).minProb = floorProb m ∧
      (getItem (askCorpus s (some m) f w)).perWord = w ∧
      (effective s (some m) none w).minPhi = floorProb s.minProb) ∧
    (∃ (s' : Settings) (m : ℝ), getItem (askCorpus s' (some m) none false) ≠ getItem s' ∧
      (effective s' none none true).minPhi ≠ floorProb s'.minPhi) := by
  refine ⟨rfl, ?_, fun m f w => ⟨?_, rfl, rfl⟩, ⟨⟨1 / 100, 1 / 10, true⟩, 1 / 2, ?_, ?_⟩⟩
  · unfold getItemCorpus askCorpus getItem effective
    simp [floorProb_idem]
  · unfold askCorpus getItem effective
    simp [floorProb_idem]
  · intro h
    have := congrArg Settings.perWord h
    simp [getItem, askCorpus, effective] at this
  · unfold effective floorProb
    simp only [Option.getD_none]
    rw [max_eq_left (by norm_num), max_eq_left (by norm_num)]
    norm_num

/-! ## The hypotheses can be met -/

/-- Two topics, two words. -/
noncomputable def cEx : Config (Fin 2) (Fin 2) := ⟨fun _ _ => 1 / 2, fun _ _ => 1, 0, 1 / 1000, 50, true, true⟩

example : ∀ k, ∑ w, getTopics cEx (train cEx (initModel (fun _ => 1 / 2) (fun _ => 1 / 2) fun _ => 1)
    [⟨[[(0, 3), (1, 2)], [(1, 4)]], 1, 1 / 2, 1, 5, 1, none, none⟩,
     ⟨[[(0, 1)]], 10, 7 / 10, 64, 2, 0, none, none⟩]).state k w = 1 :=
  (C91_topics_are_distributions cEx le_rfl (fun _ _ => by norm_num [cEx]) _ (fun _ => by norm_num) _
    (fun _ => by norm_num) _ (fun _ => by norm_num) _ (by
      intro u hu
      simp only [List.mem_cons, List.not_mem_nil, or_false] at hu
      rcases hu with rfl | rfl
      · exact ⟨by intro d hd x hx; simp at hd; rcases hd with rfl | rfl <;> simp at hx <;> rcases hx with rfl | rfl <;> norm_num, le_rfl, by norm_num⟩
      · exact ⟨by intro d hd x hx; simp at hd; subst hd; simp at hx; subst hx; norm_num, by norm_num, by norm_num⟩)).2.2.2.2

example : getLambda cEx (trainCall cEx (initModel (fun _ => 1 / 2) (fun _ => 1 / 2) fun _ => 1)
    ⟨[[(0, 3)]], 1, 1 / 2, 1 / 4, 1, 1, none, none⟩).state 0 1 < 0 :=
  (C91_small_offset_negative cEx _ _ (fun _ => 1) [(0, 3)] 1 (by simp) 0 one_pos).2 (by norm_num [cEx])

example : chosenTopics 5 [3, 1, 4, 0, 2] 3 = [3, 0, 2] ∧ chosenTopics 5 [3, 1, 4, 0, 2] 0 = [3, 1, 4, 0, 2] := by
  decide

end Verif.LdaTrain

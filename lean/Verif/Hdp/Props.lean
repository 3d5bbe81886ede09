import Mathlib.Tactic
import Mathlib.Data.List.FinRange
import Mathlib.Order.Fin.Basic
import Verif.Hdp.Model
import Verif.Utils.ChunkProps

/-!
# C98: training and queries of the hierarchical Dirichlet process model
-/

namespace Verif.Hdp

open Verif

variable {W : Type} [Fintype W] [DecidableEq W] {n m : ℕ}

/-! ## Specification: training that updates every column in every step -/

/-- The model without lazy updates. -/
structure Full (n : ℕ) (W : Type) where
  Lam : Fin (n + 1) → W → ℝ
  varphi : Fin (n + 1) → ℝ
  sticks0 : Fin n → ℝ
  sticks1 : Fin n → ℝ
  count : ℕ

/-- The expected logarithm of the word weights of a topic. -/
noncomputable def fullElog (cfg : Cfg) (Lam : Fin (n + 1) → W → ℝ) (t : Fin (n + 1)) (w : W) : ℝ :=
  cfg.psi (cfg.eta + Lam t w) - cfg.psi (∑ w, (cfg.eta + Lam t w))

/-- The statistics of a word in a chunk: zero if it does not occur. -/
def stat (wl : List W) (ss : SS n) (t : Fin (n + 1)) (w : W) : ℝ :=
  if w ∈ wl then ss.beta t (wl.idxOf w) else 0

/-- One training step: the weights of all words move towards the statistics of the chunk, scaled up to the
corpus; then the topics are ordered by weight. -/
noncomputable def fullStep (m : ℕ) (cfg : Cfg) (order : (Fin (n + 1) → ℝ) → Equiv.Perm (Fin (n + 1)))
    (chunk : List (Doc W)) (f : Full n W) : Option (Full n W) :=
  match chunkStats m cfg (fullElog cfg f.Lam) (expectLogSticks cfg.psi f.sticks0 f.sticks1)
      (wordList chunk) chunk ⟨fun _ => 0, fun _ _ => 0⟩ with
  | none => none
  | some ss =>
    let rho := rhot cfg f.count
    let Lam := fun t w => (1 - rho) * f.Lam t w + rho * (cfg.D * stat (wordList chunk) ss t w / chunk.length)
    let varphi := fun t => (1 - rho) * f.varphi t + rho * (cfg.D * ss.sticks t / chunk.length)
    let idx := order fun t => ∑ w, Lam t w
    some
      { Lam := fun t => Lam (idx t)
        varphi := fun t => varphi (idx t)
        sticks0 := fun i => 1 + varphi (idx i.castSucc)
        sticks1 := fun i => cfg.gamma + ∑ j : Fin (n + 1), if i.castSucc < j then varphi (idx j) else 0
        count := f.count + 1 }

/-- Training on some chunks, one after the other. -/
noncomputable def fullTrain (m : ℕ) (cfg : Cfg) (order : (Fin (n + 1) → ℝ) → Equiv.Perm (Fin (n + 1))) :
    List (List (Doc W)) → Full n W → Option (Full n W)
  | [], f => some f
  | ch :: chs, f =>
    match fullStep m cfg order ch f with
    | none => none
    | some f' => fullTrain m cfg order chs f'

/-- How often a word occurs in a document: the sum of its counts. -/
def docCount (doc : Doc W) (w : W) : ℝ := ((doc.filter fun p => p.1 = w).map Prod.snd).sum

/-- How often a word occurs in a chunk. -/
def chunkCount (chunk : List (Doc W)) (w : W) : ℝ := (chunk.map fun doc => docCount doc w).sum

/-- What `np.argsort` in descending order does: the values are in non-increasing order. -/
def OrderOk (order : (Fin (n + 1) → ℝ) → Equiv.Perm (Fin (n + 1))) : Prop :=
  ∀ x : Fin (n + 1) → ℝ, Antitone fun k => x (order x k)

theorem topSticks1_eq (cfg : Cfg) (v : Fin (n + 1) → ℝ) (i : Fin n) :
    topSticks1 cfg v i = cfg.gamma + ∑ j : Fin (n + 1), if i.castSucc < j then v j else 0 := by
  rw [topSticks1, Fin.sum_univ_succ, if_neg (Fin.not_lt_zero _), zero_add, add_comm]
  congr 1
  refine Finset.sum_congr rfl fun j _ => ?_
  have : i.castSucc < j.succ ↔ i ≤ j := Fin.castSucc_lt_succ_iff
  simp only [this]

/-! ## Documents -/

theorem sum_exp_logNormalize {k : ℕ} (v : Fin (k + 1) → ℝ) : ∑ i, Real.exp (logNormalize v i) = 1 := by
  unfold logNormalize
  set shift := 100 - Real.log ((k + 1 : ℕ) + 1) - Finset.univ.sup' Finset.univ_nonempty v with hshift
  set tot := ∑ i, Real.exp (v i + shift) with htot
  have hpos : 0 < tot := Finset.sum_pos (fun i _ => Real.exp_pos _) ⟨0, Finset.mem_univ 0⟩
  have h : ∀ i, Real.exp (v i - (Real.log tot - shift)) = Real.exp (v i + shift) / tot := by
    intro i
    rw [show v i - (Real.log tot - shift) = (v i + shift) - Real.log tot by ring, Real.exp_sub, Real.exp_log hpos]
  simp only [h]
  rw [← Finset.sum_div, ← htot, div_self hpos.ne']

/-- The responsibilities of a document are probability distributions. -/
def Good {N : ℕ} (res : ES n m N) : Prop :=
  (∀ k, ∑ t, res.varPhi k t = 1) ∧ (∀ i, ∑ k, res.phi i k = 1) ∧
    (∀ k t, 0 < res.varPhi k t) ∧ ∀ i k, 0 < res.phi i k

theorem eTurn_good {N : ℕ} (cfg : Cfg) (st : Fin (n + 1) → ℝ) (E : Fin (n + 1) → Fin N → ℝ) (c : Fin N → ℝ)
    (iter : ℕ) (s : ES n m N) : Good (eTurn cfg st E c iter s) :=
  ⟨fun _ => sum_exp_logNormalize _, fun _ => sum_exp_logNormalize _, fun _ _ => Real.exp_pos _,
    fun _ _ => Real.exp_pos _⟩

theorem eLoop_good {N : ℕ} (cfg : Cfg) (st : Fin (n + 1) → ℝ) (E : Fin (n + 1) → Fin N → ℝ) (c : Fin N → ℝ) :
    ∀ (left iter : ℕ) (s : ES n m N), Good s → Good (eLoop cfg st E c left iter s) := by
  intro left
  induction left with
  | zero => intro _ s h; exact h
  | succ left ih =>
    intro iter s h
    simp only [eLoop]
    split
    · exact ih _ _ (eTurn_good cfg st E c iter s)
    · exact h

theorem docEStep_good {N : ℕ} (cfg : Cfg) (st : Fin (n + 1) → ℝ) (E : Fin (n + 1) → Fin N → ℝ) (c : Fin N → ℝ)
    (res : ES n m N) (h : docEStep cfg st E c = some res) : Good res := by
  unfold docEStep at h
  split at h
  · rename_i hvc
    cases h
    rw [eLoop, if_pos (Or.inr (by simpa [eInit] using hvc))]
    exact eLoop_good cfg st E c _ _ _ (eTurn_good cfg st E c 0 _)
  · cases h

/-! ## The word list -/

theorem addWords_spec : ∀ (doc : Doc W) (ws : List W), ws.Nodup →
    (addWords ws doc).Nodup ∧ ∀ w, w ∈ addWords ws doc ↔ w ∈ ws ∨ ∃ p ∈ doc, p.1 = w := by
  intro doc
  induction doc with
  | nil => intro ws h; exact ⟨h, by simp [addWords]⟩
  | cons p doc ih =>
    intro ws h
    simp only [addWords]
    split
    · rename_i hp
      obtain ⟨h1, h2⟩ := ih ws h
      refine ⟨h1, fun w => ?_⟩
      rw [h2]
      constructor
      · rintro (h | ⟨q, hq, e⟩)
        · exact Or.inl h
        · exact Or.inr ⟨q, by simp [hq], e⟩
      · rintro (h | ⟨q, hq, e⟩)
        · exact Or.inl h
        · rcases List.mem_cons.1 hq with rfl | hq
          · exact Or.inl (e ▸ hp)
          · exact Or.inr ⟨q, hq, e⟩
    · rename_i hp
      obtain ⟨h1, h2⟩ := ih (ws ++ [p.1]) (by
        rw [List.nodup_append]
        refine ⟨h, by simp, ?_⟩
        intro a ha b hb e
        rw [List.mem_singleton] at hb
        exact hp (by rw [← hb, ← e]; exact ha))
      refine ⟨h1, fun w => ?_⟩
      rw [h2]
      simp only [List.mem_append, List.mem_singleton, List.mem_cons, List.not_mem_nil, or_false]
      constructor
      · rintro ((h | rfl) | ⟨q, hq, e⟩)
        · exact Or.inl h
        · exact Or.inr ⟨p, Or.inl rfl, rfl⟩
        · exact Or.inr ⟨q, Or.inr hq, e⟩
      · rintro (h | ⟨q, rfl | hq, e⟩)
        · exact Or.inl (Or.inl h)
        · exact Or.inl (Or.inr e.symm)
        · exact Or.inr ⟨q, hq, e⟩

theorem wordList_spec (chunk : List (Doc W)) :
    (wordList chunk).Nodup ∧ ∀ w, w ∈ wordList chunk ↔ ∃ doc ∈ chunk, ∃ p ∈ doc, p.1 = w := by
  have key : ∀ (chunk : List (Doc W)) (ws : List W), ws.Nodup →
      (chunk.foldl addWords ws).Nodup ∧
        ∀ w, w ∈ chunk.foldl addWords ws ↔ w ∈ ws ∨ ∃ doc ∈ chunk, ∃ p ∈ doc, p.1 = w := by
    intro chunk
    induction chunk with
    | nil => intro ws h; exact ⟨h, by simp⟩
    | cons doc chunk ih =>
      intro ws h
      obtain ⟨h1, h2⟩ := addWords_spec doc ws h
      obtain ⟨h3, h4⟩ := ih (addWords ws doc) h1
      refine ⟨h3, fun w => ?_⟩
      rw [List.foldl_cons, h4, h2]
      simp only [List.mem_cons, exists_eq_or_imp, or_assoc]
  obtain ⟨h1, h2⟩ := key chunk [] List.nodup_nil
  exact ⟨h1, fun w => by rw [wordList, h2]; simp⟩

/-! ## Statistics -/

/-- The last count of a word in a document. -/
def lastCount (doc : Doc W) (w : W) : ℝ :=
  match (doc.filter fun p => p.1 = w).getLast? with
  | none => 0
  | some p => p.2

theorem lastCount_eq (doc : Doc W) (w : W) (h : (doc.map Prod.fst).Nodup) : lastCount doc w = docCount doc w := by
  have hlen : (doc.filter fun p => p.1 = w).length ≤ 1 := by
    have h1 : ((doc.filter fun p => p.1 = w).map Prod.fst).Nodup := h.sublist (List.filter_sublist.map _)
    have h2 : ∀ x ∈ (doc.filter fun p => p.1 = w).map Prod.fst, x = w := by
      intro x hx
      obtain ⟨p, hp, rfl⟩ := List.mem_map.1 hx
      simpa using (List.mem_filter.1 hp).2
    rw [← List.length_map (f := Prod.fst)]
    match hl : (doc.filter fun p => p.1 = w).map Prod.fst with
    | [] => rw [hl]; simp
    | [x] => rw [hl]; simp
    | x :: y :: l =>
      rw [hl] at h1 h2
      have hx := h2 x (by simp)
      have hy := h2 y (by simp)
      rw [hx, hy] at h1
      exact absurd h1 (by simp)
  unfold lastCount docCount
  match hl : doc.filter fun p => p.1 = w with
  | [] => rw [hl]; simp
  | [p] => rw [hl]; simp
  | p :: q :: l => rw [hl] at hlen; simp at hlen

theorem filter_finRange_getLast (doc : Doc W) (q : W × ℝ → Bool) :
    (doc.filter q).getLast? = (((List.finRange doc.length).filter fun i => q doc[i]).getLast?).map fun i => doc[i] := by
  have h : doc = (List.finRange doc.length).map fun i => doc[i] := by
    apply List.ext_getElem
    · simp
    · intro i h1 h2; simp
  conv_lhs => rw [h]
  rw [List.filter_map, List.getLast?_map]
  rfl

theorem addDoc_beta (wl : List W) (doc : Doc W) (hdoc : ∀ p ∈ doc, p.1 ∈ wl) (res : ES n m doc.length)
    (hres : Good res) (ss : SS n) (w : W) (hw : w ∈ wl) :
    ∑ t, (addDoc wl doc res ss).beta t (wl.idxOf w) = ∑ t, ss.beta t (wl.idxOf w) + lastCount doc w := by
  have hfilter : ((List.finRange doc.length).filter fun i => wl.idxOf doc[i].1 = wl.idxOf w)
      = (List.finRange doc.length).filter fun i => (fun p : W × ℝ => decide (p.1 = w)) doc[i] := by
    apply List.filter_congr
    intro i _
    have hi : doc[i].1 ∈ wl := hdoc _ (List.getElem_mem _)
    simp only [decide_eq_decide]
    exact List.idxOf_inj hi
  unfold addDoc lastCount
  simp only
  rw [filter_finRange_getLast, hfilter]
  cases hl : ((List.finRange doc.length).filter fun i => (fun p : W × ℝ => decide (p.1 = w)) doc[i]).getLast? with
  | none => simp
  | some i =>
    simp only [Option.map_some]
    rw [Finset.sum_add_distrib, Finset.sum_comm]
    congr 1
    have : ∀ k, ∑ t, res.varPhi k t * (res.phi i k * doc[i].2) = res.phi i k * doc[i].2 := by
      intro k
      rw [← Finset.sum_mul, hres.1 k, one_mul]
    simp only [this]
    rw [← Finset.sum_mul, hres.2.1 i, one_mul]

theorem chunkStats_spec (cfg : Cfg) (E : Fin (n + 1) → W → ℝ) (st : Fin (n + 1) → ℝ) (wl : List W) :
    ∀ (docs : List (Doc W)), (∀ doc ∈ docs, ∀ p ∈ doc, p.1 ∈ wl) → ∀ ss ss',
      chunkStats m cfg E st wl docs ss = some ss' →
      (∀ w ∈ wl, ∑ t, ss'.beta t (wl.idxOf w)
        = ∑ t, ss.beta t (wl.idxOf w) + (docs.map fun doc => lastCount doc w).sum) ∧
      (∑ t, ss'.sticks t = ∑ t, ss.sticks t + (m + 1 : ℕ) * (docs.filter fun d => d ≠ []).length) ∧
      ((∀ doc ∈ docs, ∀ p ∈ doc, 0 ≤ p.2) → (∀ t p, 0 ≤ ss.beta t p) → (∀ t, 0 ≤ ss.sticks t) →
        (∀ t p, 0 ≤ ss'.beta t p) ∧ ∀ t, 0 ≤ ss'.sticks t) := by
  intro docs
  induction docs with
  | nil =>
    intro _ ss ss' h
    simp only [chunkStats] at h
    cases h
    refine ⟨by simp, by simp, fun _ h1 h2 => ⟨h1, h2⟩⟩
  | cons doc docs ih =>
    intro hd ss ss' h
    have hd' : ∀ d ∈ docs, ∀ p ∈ d, p.1 ∈ wl := fun d hdm => hd d (by simp [hdm])
    simp only [chunkStats] at h
    by_cases he : doc = []
    · rw [if_pos he] at h
      obtain ⟨h1, h2, h3⟩ := ih hd' ss ss' h
      refine ⟨?_, ?_, ?_⟩
      · intro w hw
        rw [h1 w hw, List.map_cons, List.sum_cons]
        rw [he]
        simp [lastCount]
      · rw [h2, he]; simp
      · intro hc; exact h3 fun d hdm => hc d (by simp [hdm])
    · rw [if_neg he] at h
      cases hs : docEStep (m := m) cfg st (fun t (i : Fin doc.length) => E t doc[i].1) fun i => doc[i].2 with
      | none => rw [hs] at h; cases h
      | some res =>
        rw [hs] at h
        have hg := docEStep_good cfg st _ _ res hs
        obtain ⟨h1, h2, h3⟩ := ih hd' _ ss' h
        refine ⟨?_, ?_, ?_⟩
        · intro w hw
          rw [h1 w hw, addDoc_beta wl doc (hd doc (by simp)) res hg ss w hw, List.map_cons, List.sum_cons]
          ring
        · rw [h2]
          have e : ∑ t, (addDoc wl doc res ss).sticks t = ∑ t, ss.sticks t + (m + 1 : ℕ) := by
            simp only [addDoc]
            rw [Finset.sum_add_distrib, Finset.sum_comm]
            simp [hg.1]
          rw [e]
          simp only [ne_eq, decide_not, List.filter_cons, he, decide_false, Bool.not_false, if_true,
            List.length_cons]
          push_cast
          ring
        · intro hc hb hst
          apply h3 (fun d hdm => hc d (by simp [hdm]))
          · intro t p
            simp only [addDoc]
            split
            · exact hb t p
            · rename_i i _
              refine add_nonneg (hb t p) (Finset.sum_nonneg fun k _ => mul_nonneg (hg.2.2.1 k t).le
                (mul_nonneg (hg.2.2.2 i k).le (hc doc (by simp) _ (List.getElem_mem _))))
          · intro t
            exact add_nonneg (hst t) (Finset.sum_nonneg fun k _ => (hg.2.2.1 k t).le)

theorem chunkStats_congr (cfg : Cfg) (E E' : Fin (n + 1) → W → ℝ) (st : Fin (n + 1) → ℝ) (wl : List W) :
    ∀ (docs : List (Doc W)), (∀ doc ∈ docs, ∀ p ∈ doc, ∀ t, E t p.1 = E' t p.1) → ∀ ss,
      chunkStats m cfg E st wl docs ss = chunkStats m cfg E' st wl docs ss := by
  intro docs
  induction docs with
  | nil => intro _ _; rfl
  | cons doc docs ih =>
    intro h ss
    have he : (fun t (i : Fin doc.length) => E t doc[i].1) = fun t (i : Fin doc.length) => E' t doc[i].1 := by
      funext t i
      exact h doc (by simp) _ (List.getElem_mem _) t
    simp only [chunkStats, he]
    by_cases hd : doc = []
    · rw [if_pos hd, if_pos hd]
      exact ih (fun d hd => h d (by simp [hd])) ss
    · rw [if_neg hd, if_neg hd]
      cases docEStep (m := m) cfg st (fun t (i : Fin doc.length) => E' t doc[i].1) fun i => doc[i].2 with
      | none => rfl
      | some res => exact ih (fun d hd => h d (by simp [hd])) _

theorem chunkStats_some (cfg : Cfg) (hvc : cfg.varConverge < 1) (E : Fin (n + 1) → W → ℝ) (st : Fin (n + 1) → ℝ)
    (wl : List W) : ∀ (docs : List (Doc W)) ss, ∃ ss', chunkStats m cfg E st wl docs ss = some ss' := by
  intro docs
  induction docs with
  | nil => intro ss; exact ⟨ss, rfl⟩
  | cons doc docs ih =>
    intro ss
    simp only [chunkStats, docEStep, if_pos hvc]
    split
    · exact ih ss
    · exact ih _

theorem sum_positions (wl : List W) (h : wl.Nodup) (f : ℕ → ℝ) :
    ∑ p ∈ Finset.range wl.length, f p = ∑ w, if w ∈ wl then f (wl.idxOf w) else 0 := by
  rw [← Finset.sum_filter]
  have : (Finset.univ.filter fun w => w ∈ wl) = wl.toFinset := by ext w; simp
  rw [this, List.sum_toFinset _ h]
  have e : wl.map (fun w => f (wl.idxOf w)) = (List.range wl.length).map f := by
    apply List.ext_getElem
    · simp
    · intro i h1 h2
      simp only [List.getElem_map, List.getElem_range]
      rw [List.Nodup.idxOf_getElem h]
  rw [e]
  rw [Finset.sum_range]
  rw [← List.sum_ofFn]
  congr 1
  apply List.ext_getElem
  · simp
  · intro i h1 h2; simp

/-- **C98.** What a chunk contributes: the statistics of a word, summed over the topics, are exactly its
number of occurrences in the chunk, if no document lists a word twice; each non-empty document contributes
`K` to the topic statistics. -/
theorem C98_statistics (cfg : Cfg) (E : Fin (n + 1) → W → ℝ) (st : Fin (n + 1) → ℝ) (chunk : List (Doc W))
    (hnd : ∀ doc ∈ chunk, (doc.map Prod.fst).Nodup) (ss : SS n)
    (h : chunkStats m cfg E st (wordList chunk) chunk ⟨fun _ => 0, fun _ _ => 0⟩ = some ss) :
    (∀ w, ∑ t, stat (wordList chunk) ss t w = chunkCount chunk w) ∧
    (∑ t, ∑ p ∈ Finset.range (wordList chunk).length, ss.beta t p = ∑ w, chunkCount chunk w) ∧
    ∑ t, ss.sticks t = (m + 1 : ℕ) * (chunk.filter fun d => d ≠ []).length := by
  obtain ⟨hn, hm⟩ := wordList_spec chunk
  obtain ⟨h1, h2, _⟩ := chunkStats_spec cfg E st (wordList chunk) chunk
    (fun doc hd p hp => (hm p.1).2 ⟨doc, hd, p, hp, rfl⟩) _ ss h
  have hcount : ∀ w, ∑ t, stat (wordList chunk) ss t w = chunkCount chunk w := by
    intro w
    unfold stat chunkCount
    by_cases hw : w ∈ wordList chunk
    · simp only [if_pos hw]
      rw [h1 w hw]
      simp only [Finset.sum_const_zero, zero_add]
      congr 1
      apply List.map_congr_left
      intro doc hd
      exact lastCount_eq doc w (hnd doc hd)
    · simp only [if_neg hw, Finset.sum_const_zero]
      symm
      apply List.sum_eq_zero
      intro x hx
      obtain ⟨doc, hd, rfl⟩ := List.mem_map.1 hx
      unfold docCount
      have : (doc.filter fun p => p.1 = w) = [] := by
        rw [List.filter_eq_nil_iff]
        intro p hp
        simp only [decide_eq_true_eq]
        intro e
        exact hw ((hm w).2 ⟨doc, hd, p, hp, e⟩)
      rw [this]; simp
  refine ⟨hcount, ?_, ?_⟩
  · simp only [sum_positions _ hn]
    rw [Finset.sum_comm]
    exact Finset.sum_congr rfl fun w _ => hcount w
  · rw [h2]; simp

/-- **C98 (finding).** A document that lists a word more than once contributes only the last of its counts. -/
theorem C98_repeated_word (cfg : Cfg) (E : Fin (n + 1) → W → ℝ) (st : Fin (n + 1) → ℝ) (w : W) (a b : ℝ)
    (ss : SS n)
    (h : chunkStats m cfg E st (wordList [[(w, a), (w, b)]]) [[(w, a), (w, b)]] ⟨fun _ => 0, fun _ _ => 0⟩ = some ss) :
    ∑ t, stat (wordList [[(w, a), (w, b)]]) ss t w = b ∧ chunkCount [[(w, a), (w, b)]] w = a + b := by
  obtain ⟨_, hm⟩ := wordList_spec [[(w, a), (w, b)]]
  have hw : w ∈ wordList [[(w, a), (w, b)]] := (hm w).2 ⟨[(w, a), (w, b)], by simp, (w, a), by simp, rfl⟩
  obtain ⟨h1, _⟩ := chunkStats_spec cfg E st (wordList [[(w, a), (w, b)]]) [[(w, a), (w, b)]]
    (fun doc hd p hp => (hm p.1).2 ⟨doc, hd, p, hp, rfl⟩) _ ss h
  constructor
  · unfold stat
    simp only [if_pos hw]
    rw [h1 w hw]
    simp [lastCount]
  · simp [chunkCount, docCount]

/-! ## The lazy updates -/

/-- What is still missing on the stored weights of a word. -/
noncomputable def decay (s : St n W) (w : W) : ℝ := Real.exp (s.r.getLastD 0 - s.r.getD (s.ts w) 0)

/-- A lazily updated model agrees with a fully updated one. -/
structure Agrees (s : St n W) (f : Full n W) : Prop where
  lam : ∀ t w, s.lam t w * decay s w = f.Lam t w
  sum : ∀ t, s.lamSum t = ∑ w, f.Lam t w
  varphi : s.varphi = f.varphi
  sticks0 : s.sticks0 = f.sticks0
  sticks1 : s.sticks1 = f.sticks1
  count : s.updatect = f.count
  rlen : s.r.length = s.updatect + 1
  ts : ∀ w, s.ts w ≤ s.updatect

/-- The fully updated model that corresponds to a new model. -/
noncomputable def fullOf (s : St n W) : Full n W :=
  ⟨s.lam, s.varphi, s.sticks0, s.sticks1, s.updatect⟩

theorem agrees_init (cfg : Cfg) (g : Fin (n + 1) → W → ℝ) : Agrees (init cfg g) (fullOf (init cfg g)) := by
  refine ⟨?_, fun _ => rfl, rfl, rfl, rfl, rfl, rfl, fun _ => le_refl _⟩
  intro t w
  simp [decay, init, fullOf]

theorem elog_eq (cfg : Cfg) (s : St n W) (f : Full n W) (h : Agrees s f) (t : Fin (n + 1)) (w : W) :
    cfg.psi (cfg.eta + s.lam t w * decay s w) - cfg.psi (Fintype.card W * cfg.eta + s.lamSum t)
      = fullElog cfg f.Lam t w := by
  unfold fullElog
  rw [h.lam, h.sum, Finset.sum_add_distrib, Finset.sum_const, Finset.card_univ, nsmul_eq_mul]

theorem agrees_expectations (cfg : Cfg) (s : St n W) (f : Full n W) (h : Agrees s f) :
    Agrees (updateExpectations cfg s) f ∧ (updateExpectations cfg s).lam = f.Lam ∧
      (updateExpectations cfg s).elogbeta = fullElog cfg f.Lam := by
  have hl : (updateExpectations cfg s).lam = f.Lam := by
    funext t w
    exact h.lam t w
  have hd : ∀ w, decay (updateExpectations cfg s) w = 1 := by
    intro w
    unfold decay updateExpectations
    simp only
    have hr := h.rlen
    have e : s.r.getD s.updatect 0 = s.r.getLastD 0 := by
      rw [List.getLastD_eq_getLast?, List.getLast?_eq_getElem?, hr, Nat.add_sub_cancel,
        List.getD_eq_getElem?_getD]
    rw [e, sub_self, Real.exp_zero]
  refine ⟨⟨?_, h.sum, h.varphi, h.sticks0, h.sticks1, h.count, h.rlen, fun _ => le_refl _⟩, hl, ?_⟩
  · intro t w
    rw [hl, hd, mul_one]
  · funext t w
    exact elog_eq cfg s f h t w

theorem rhot_nonneg (cfg : Cfg) (c : ℕ) : 0 ≤ rhot cfg c := le_max_right _ _

/-- The learning rate lies strictly between 0 and 1. -/
theorem rhot_lt_one (cfg : Cfg) (ht : 0 < cfg.tau) (hk : 0 < cfg.kappa) (hs : 0 < cfg.scale) (hs1 : cfg.scale ≤ 1)
    (c : ℕ) : 0 < rhot cfg c ∧ rhot cfg c < 1 := by
  have hb : 1 < cfg.tau + 1 + c := by
    have : (0 : ℝ) ≤ c := Nat.cast_nonneg c
    linarith
  have h1 : (cfg.tau + 1 + c) ^ (-cfg.kappa) < 1 := Real.rpow_lt_one_of_one_lt_of_neg hb (by linarith)
  have h0 : 0 < (cfg.tau + 1 + c) ^ (-cfg.kappa) := Real.rpow_pos_of_pos (by linarith) _
  unfold rhot
  have hp : 0 < cfg.scale * (cfg.tau + 1 + c) ^ (-cfg.kappa) := mul_pos hs h0
  rw [max_eq_left hp.le]
  refine ⟨hp, ?_⟩
  calc cfg.scale * (cfg.tau + 1 + c) ^ (-cfg.kappa) ≤ 1 * (cfg.tau + 1 + c) ^ (-cfg.kappa) := by gcongr
    _ < 1 := by linarith

theorem step_agrees (cfg : Cfg) (order : (Fin (n + 1) → ℝ) → Equiv.Perm (Fin (n + 1)))
    (hrho : ∀ c, rhot cfg c < 1) (chunk : List (Doc W)) (s s' : St n W) (f : Full n W) (h : Agrees s f)
    (hs : updateChunk m cfg order chunk true true s = some s') :
    ∃ f', fullStep m cfg order chunk f = some f' ∧ Agrees s' f' := by
  obtain ⟨hn, hm⟩ := wordList_spec chunk
  set wl := wordList chunk with hwl
  set s1 := catchUp cfg wl s with hs1
  have hE : ∀ ss, chunkStats m cfg s1.elogbeta (expectLogSticks cfg.psi s1.sticks0 s1.sticks1) wl chunk ss
      = chunkStats m cfg (fullElog cfg f.Lam) (expectLogSticks cfg.psi f.sticks0 f.sticks1) wl chunk ss := by
    intro ss
    rw [show s1.sticks0 = f.sticks0 from h.sticks0, show s1.sticks1 = f.sticks1 from h.sticks1]
    apply chunkStats_congr
    intro doc hd p hp t
    have hw : p.1 ∈ wl := (hm p.1).2 ⟨doc, hd, p, hp, rfl⟩
    simp only [hs1, catchUp, if_pos hw]
    exact elog_eq cfg s f h t p.1
  unfold updateChunk at hs
  simp only [← hwl, ← hs1] at hs
  rw [hE] at hs
  unfold fullStep
  rw [← hwl]
  cases hss : chunkStats m cfg (fullElog cfg f.Lam) (expectLogSticks cfg.psi f.sticks0 f.sticks1) wl chunk
      ⟨fun _ => 0, fun _ _ => 0⟩ with
  | none => rw [hss] at hs; cases hs
  | some ss =>
    rw [hss] at hs
    simp only [if_true, Option.some.injEq] at hs
    refine ⟨_, rfl, ?_⟩
    have hcnt : s1.updatect = f.count := h.count
    -- the state before ordering
    set rho := rhot cfg f.count with hrhodef
    have h1rho : 0 < 1 - rho := by have := hrho f.count; linarith
    set LamN : Fin (n + 1) → W → ℝ := fun t w =>
      (1 - rho) * f.Lam t w + rho * (cfg.D * stat wl ss t w / chunk.length) with hLamN
    have hsum : ∀ t, (1 - rho) * s1.lamSum t
        + rho * cfg.D * (∑ p ∈ Finset.range wl.length, ss.beta t p) / chunk.length = ∑ w, LamN t w := by
      intro t
      rw [hLamN]
      simp only
      rw [Finset.sum_add_distrib, ← Finset.mul_sum, ← Finset.mul_sum, ← Finset.sum_div, ← Finset.mul_sum,
        show s1.lamSum t = ∑ w, f.Lam t w from h.sum t, sum_positions wl hn]
      unfold stat
      ring
    have hlast : (s1.r ++ [s1.r.getLastD 0 + Real.log (1 - rho)]).getLastD 0
        = s.r.getLastD 0 + Real.log (1 - rho) := by
      rw [List.getLastD_eq_getLast?, List.getLast?_append]
      rfl
    have hlamN : ∀ t w,
        (if w ∈ wl then s1.lam t w * (1 - rho) + rho * cfg.D * ss.beta t (wl.idxOf w) / chunk.length
          else s1.lam t w) *
        Real.exp ((s1.r ++ [s1.r.getLastD 0 + Real.log (1 - rho)]).getLastD 0
          - (s1.r ++ [s1.r.getLastD 0 + Real.log (1 - rho)]).getD
            (if w ∈ wl then s1.updatect + 1 else s1.ts w) 0) = LamN t w := by
      intro t w
      rw [hlast]
      have hrl : s1.r.length = s1.updatect + 1 := h.rlen
      by_cases hw : w ∈ wl
      · simp only [if_pos hw]
        have e1 : (s1.r ++ [s1.r.getLastD 0 + Real.log (1 - rho)]).getD (s1.updatect + 1) 0
            = s.r.getLastD 0 + Real.log (1 - rho) := by
          rw [List.getD_eq_getElem?_getD, List.getElem?_append_right (by omega), hrl]
          simp
          rfl
        rw [e1, sub_self, Real.exp_zero, mul_one, hLamN]
        have e2 : s1.lam t w = f.Lam t w := by
          simp only [hs1, catchUp, if_pos hw]
          exact h.lam t w
        simp only [stat, if_pos hw, e2]
        ring
      · simp only [if_neg hw]
        have hts : s1.ts w < s1.r.length := by
          have : s.ts w ≤ s.updatect := h.ts w
          rw [hrl]
          exact Nat.lt_succ_of_le this
        have e1 : (s1.r ++ [s1.r.getLastD 0 + Real.log (1 - rho)]).getD (s1.ts w) 0 = s.r.getD (s.ts w) 0 := by
          rw [List.getD_eq_getElem?_getD, List.getElem?_append_left hts, ← List.getD_eq_getElem?_getD]
          rfl
        rw [e1]
        have e2 : s1.lam t w = s.lam t w := by simp only [hs1, catchUp, if_neg hw]
        rw [e2, hLamN]
        simp only [stat, if_neg hw]
        rw [show s.r.getLastD 0 + Real.log (1 - rho) - s.r.getD (s.ts w) 0
          = (s.r.getLastD 0 - s.r.getD (s.ts w) 0) + Real.log (1 - rho) by ring, Real.exp_add,
          Real.exp_log h1rho, ← mul_assoc]
        have := h.lam t w
        unfold decay at this
        rw [this]
        ring
    have hvar : ∀ t, (1 - rho) * s1.varphi t + rho * ss.sticks t * cfg.D / chunk.length
        = (1 - rho) * f.varphi t + rho * (cfg.D * ss.sticks t / chunk.length) := by
      intro t
      rw [show s1.varphi = f.varphi from h.varphi]
      ring
    have hord : (fun t => (1 - rho) * s1.lamSum t
        + rho * cfg.D * (∑ p ∈ Finset.range wl.length, ss.beta t p) / chunk.length) = fun t => ∑ w, LamN t w :=
      funext hsum
    have hvarf : (fun t => (1 - rho) * s1.varphi t + rho * ss.sticks t * cfg.D / chunk.length)
        = fun t => (1 - rho) * f.varphi t + rho * (cfg.D * ss.sticks t / chunk.length) := funext hvar
    rw [← hs]
    unfold updateLambda optimalOrdering
    simp only [if_true, hcnt, ← hrhodef]
    rw [hord]
    refine ⟨?_, ?_, ?_, ?_, ?_, rfl, ?_, ?_⟩
    · intro t w
      unfold decay
      simp only
      have := hlamN (order (fun t => ∑ w, LamN t w) t) w
      rw [hcnt] at this
      exact this
    · intro t
      exact congrFun hord _
    · funext t
      exact hvar _
    · funext i
      simp only [topSticks0, hvar]
      ring
    · funext i
      simp only [hvar]
      exact topSticks1_eq cfg _ i
    · simp only [List.length_append, List.length_singleton]
      rw [show s1.r.length = s1.updatect + 1 from h.rlen, hcnt]
    · intro w
      simp only
      split
      · exact le_refl _
      · have : s.ts w ≤ s.updatect := h.ts w
        have e : s1.ts w = s.ts w := rfl
        rw [e, ← hcnt]
        exact Nat.le_succ_of_le this

theorem fullTrain_append (cfg : Cfg) (order : (Fin (n + 1) → ℝ) → Equiv.Perm (Fin (n + 1))) :
    ∀ (a b : List (List (Doc W))) (f g : Full n W), fullTrain m cfg order a f = some g →
      fullTrain m cfg order (a ++ b) f = fullTrain m cfg order b g := by
  intro a
  induction a with
  | nil => intro b f g h; simp only [fullTrain] at h; cases h; rfl
  | cons ch a ih =>
    intro b f g h
    simp only [fullTrain] at h
    rw [List.cons_append]
    simp only [fullTrain]
    cases hs : fullStep m cfg order ch f with
    | none => rw [hs] at h; cases h
    | some f' => rw [hs] at h; exact ih b f' g h

theorem run_agrees (cfg : Cfg) (order : (Fin (n + 1) → ℝ) → Equiv.Perm (Fin (n + 1)))
    (hrho : ∀ c, rhot cfg c < 1) (maxChunks : ℕ) (maxTime : Bool) (late : ℕ → Bool) (saveFreq : ℕ)
    (chunks : List (List (Doc W))) (f0 : Full n W) :
    ∀ (fuel : ℕ) (rest : List (List (Doc W))) (p p' : Progress n W) (f : Full n W),
      fullTrain m cfg order p.done f0 = some f → Agrees p.model f →
      run m cfg order maxChunks maxTime late saveFreq chunks fuel rest p = .returned p' →
      ∃ f', fullTrain m cfg order p'.done f0 = some f' ∧ Agrees p'.model f' ∧ p'.model.lam = f'.Lam ∧
        p'.model.elogbeta = fullElog cfg f'.Lam ∧ p'.model.upToDate = true := by
  intro fuel
  induction fuel with
  | zero => intro _ _ _ _ _ _ h; cases h
  | succ fuel ih =>
    intro rest p p' f hf ha h
    cases rest with
    | nil => exact ih chunks p p' f hf ha h
    | cons ch rest =>
      simp only [run] at h
      cases hs : updateChunk m cfg order ch true true p.model with
      | none => rw [hs] at h; cases h
      | some s =>
        rw [hs] at h
        obtain ⟨f1, hf1, ha1⟩ := step_agrees cfg order hrho ch p.model s f ha hs
        have hf2 : fullTrain m cfg order (p.done ++ [ch]) f0 = some f1 := by
          rw [fullTrain_append cfg order p.done [ch] f0 f hf]
          simp only [fullTrain, hf1]
        obtain ⟨hx1, hx2, hx3⟩ := agrees_expectations cfg s f1 ha1
        simp only at h
        split at h
        · cases h
          exact ⟨f1, hf2, hx1, hx2, hx3, rfl⟩
        · refine ih rest _ p' f1 hf2 ?_ h
          simp only
          split
          · exact hx1
          · exact ha1

/-- **C98.** Lazy training is full training: after `update` the word weights, their expectations, the topic
weights and the sticks are those of a model that updated the weights of all words with every chunk, for
every corpus, chunk size, limits and history of the model. -/
theorem C98_lazy_updates (cfg : Cfg) (order : (Fin (n + 1) → ℝ) → Equiv.Perm (Fin (n + 1)))
    (hrho : ∀ c, rhot cfg c < 1) (maxChunks : ℕ) (maxTime : Bool) (late : ℕ → Bool) (chunksize : ℕ)
    (corpus : List (Doc W)) (fuel : ℕ) (s : St n W) (docs : ℕ) (p : Progress n W) (f : Full n W)
    (hs : Agrees s f)
    (h : update m cfg order maxChunks maxTime late chunksize corpus fuel s docs = .returned p) :
    ∃ f', fullTrain m cfg order p.done f = some f' ∧ Agrees p.model f' ∧ p.model.lam = f'.Lam ∧
      (∀ t, p.model.lamSum t = ∑ w, f'.Lam t w) ∧ p.model.elogbeta = fullElog cfg f'.Lam ∧
      p.model.varphi = f'.varphi ∧ p.model.sticks0 = f'.sticks0 ∧ p.model.sticks1 = f'.sticks1 ∧
      p.model.upToDate = true := by
  obtain ⟨f', h1, h2, h3, h4, h5⟩ := run_agrees cfg order hrho maxChunks maxTime late _ _ f fuel _ ⟨s, docs, []⟩ p f rfl
    hs h
  exact ⟨f', h1, h2, h3, h2.sum, h4, h2.varphi, h2.sticks0, h2.sticks1, h5⟩

end Verif.Hdp

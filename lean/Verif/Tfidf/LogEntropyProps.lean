import Verif.Tfidf.LogEntropyModel
import Verif.Matutils.NormProps
import Verif.Py.Count
import Mathlib.Tactic.FieldSimp

/-! # Property C66: the log-entropy model -/

namespace Verif.LogEntropy
open Verif PyDict Matutils

/-! ### Specification -/

/-- the frequencies of term `i` in the documents that have it -/
def freqs (corpus : List (List (Nat × ℝ))) (i : Nat) : List ℝ :=
  (corpus.flatten.filter fun p => decide (p.1 = i)).map Prod.snd

/-- minus the entropy of the distribution of a term over documents: the sum of `p log p` over its
shares `p` -/
noncomputable def negEntropy (fs : List ℝ) : ℝ :=
  (fs.map fun f => (f / fs.sum) * Real.log (f / fs.sum)).sum

/-! ### Lemmas -/

theorem getD_bumps (v : Nat × ℝ → ℝ) (es : List (Nat × ℝ)) (d : PyDict Nat ℝ) (i : Nat) :
    getD (es.foldl (fun d p => bump d p.1 (v p)) d) i 0 =
      getD d i 0 + ((es.filter fun p => decide (p.1 = i)).map v).sum := by
  induction es generalizing d with
  | nil => simp
  | cons p es ih =>
    rw [List.foldl_cons, ih, List.filter_cons]
    by_cases h : p.1 = i
    · subst h
      simp only [decide_true, if_true, List.map_cons, List.sum_cons]
      have : getD (bump d p.1 (v p)) p.1 0 = getD d p.1 0 + v p := by
        simp [bump, getD]
      rw [this]; ring
    · simp only [h, decide_false, Bool.false_eq_true, if_false]
      rw [bump, getD_set_ne _ h]

theorem keys_bumps (v : Nat × ℝ → ℝ) (es : List (Nat × ℝ)) (d : PyDict Nat ℝ) (i : Nat) :
    i ∈ keys (es.foldl (fun d p => bump d p.1 (v p)) d) ↔ i ∈ keys d ∨ i ∈ es.map Prod.fst := by
  induction es generalizing d with
  | nil => simp
  | cons p es ih =>
    rw [List.foldl_cons, ih, bump, mem_keys_set, List.map_cons, List.mem_cons]
    tauto

theorem flat_fold (v : Nat × ℝ → ℝ) (corpus : List (List (Nat × ℝ))) :
    corpus.foldl (fun d doc => doc.foldl (fun d p => bump d p.1 (v p)) d) [] =
      corpus.flatten.foldl (fun d p => bump d p.1 (v p)) [] := by
  rw [List.foldl_flatten]

theorem getD_globFreq (corpus : List (List (Nat × ℝ))) (i : Nat) :
    getD (globFreq corpus) i 0 = (freqs corpus i).sum := by
  unfold globFreq freqs
  rw [flat_fold Prod.snd, getD_bumps]
  simp [getD, get?]

theorem getD_sumShares (corpus : List (List (Nat × ℝ))) (i : Nat) :
    getD (sumShares (globFreq corpus) corpus) i 0 = negEntropy (freqs corpus i) := by
  unfold sumShares negEntropy
  rw [flat_fold, getD_bumps]
  have e0 : getD ([] : PyDict Nat ℝ) i 0 = 0 := rfl
  rw [e0, zero_add]
  unfold freqs
  rw [List.map_map]
  congr 1
  apply List.map_congr_left
  intro p hp
  have hpi : p.1 = i := by simpa using (List.mem_filter.1 hp).2
  simp only [share, Function.comp, hpi, getD_globFreq]
  rfl

theorem get?_map (d : PyDict Nat ℝ) (f : ℝ → ℝ) (i : Nat) :
    get? (d.map fun p => (p.1, f p.2)) i = (get? d i).map f := by
  induction d with
  | nil => rfl
  | cons p d ih =>
    obtain ⟨k, x⟩ := p
    simp only [List.map_cons]
    unfold get?
    by_cases h : k = i
    · simp [h]
    · simp only [h, if_false]; exact ih

theorem count_freqs (corpus : List (List (Nat × ℝ))) (i : Nat)
    (hn : ∀ doc ∈ corpus, (doc.map Prod.fst).Nodup) : (freqs corpus i).length ≤ corpus.length := by
  unfold freqs
  rw [List.length_map]
  induction corpus with
  | nil => simp
  | cons doc corpus ih =>
    rw [List.flatten_cons, List.filter_append, List.length_append, List.length_cons]
    have h1 := ih (fun d hd => hn d (List.mem_cons_of_mem _ hd))
    have h2 : (doc.filter fun p => decide (p.1 = i)).length ≤ 1 := by
      have := List.nodup_iff_count_le_one.1 (hn doc List.mem_cons_self) i
      rw [List.count_eq_countP, List.countP_map, List.countP_eq_length_filter] at this
      refine le_trans (le_of_eq ?_) this
      congr 1
    omega

theorem sum_pos_of_mem (fs : List ℝ) (hpos : ∀ f ∈ fs, 0 < f) (hne : fs ≠ []) : 0 < fs.sum := by
  cases fs with
  | nil => exact absurd rfl hne
  | cons f fs =>
    rw [List.sum_cons]
    have h1 := hpos f List.mem_cons_self
    have h2 : 0 ≤ fs.sum := List.sum_nonneg fun x hx => (hpos x (List.mem_cons_of_mem _ hx)).le
    linarith

theorem le_sum_of_mem (fs : List ℝ) (hpos : ∀ f ∈ fs, 0 < f) (f : ℝ) (hf : f ∈ fs) : f ≤ fs.sum := by
  induction fs with
  | nil => cases hf
  | cons a fs ih =>
    rw [List.sum_cons]
    have h2 : 0 ≤ fs.sum := List.sum_nonneg fun x hx => (hpos x (List.mem_cons_of_mem _ hx)).le
    rcases List.mem_cons.1 hf with rfl | h
    · linarith
    · have := ih (fun x hx => hpos x (List.mem_cons_of_mem _ hx)) h
      have := hpos a List.mem_cons_self
      linarith

theorem negEntropy_le_zero (fs : List ℝ) (hpos : ∀ f ∈ fs, 0 < f) : negEntropy fs ≤ 0 := by
  unfold negEntropy
  have : ∀ x ∈ fs.map (fun f => (f / fs.sum) * Real.log (f / fs.sum)), x ≤ 0 := by
    intro x hx
    obtain ⟨f, hf, rfl⟩ := List.mem_map.1 hx
    have hs : 0 < fs.sum := sum_pos_of_mem fs hpos (List.ne_nil_of_mem hf)
    have h1 : 0 < f / fs.sum := div_pos (hpos f hf) hs
    have h2 : f / fs.sum ≤ 1 := (div_le_one hs).2 (le_sum_of_mem fs hpos f hf)
    exact mul_nonpos_of_nonneg_of_nonpos h1.le (Real.log_nonpos h1.le h2)
  generalize fs.map (fun f => (f / fs.sum) * Real.log (f / fs.sum)) = l at this
  induction l with
  | nil => simp
  | cons x l ih =>
    rw [List.sum_cons]
    have h1 := this x List.mem_cons_self
    have h2 := ih fun y hy => this y (List.mem_cons_of_mem _ hy)
    linarith

theorem sum_map_sub_aux (fs : List ℝ) (g h : ℝ → ℝ) (hgh : ∀ f ∈ fs, g f ≤ h f) :
    (fs.map g).sum ≤ (fs.map h).sum := by
  induction fs with
  | nil => simp
  | cons f fs ih =>
    simp only [List.map_cons, List.sum_cons]
    have := ih fun x hx => hgh x (List.mem_cons_of_mem _ hx)
    have := hgh f List.mem_cons_self
    linarith

theorem sum_map_div (fs : List ℝ) (s : ℝ) : (fs.map fun f => f / s).sum = fs.sum / s := by
  induction fs with
  | nil => simp
  | cons f fs ih => simp only [List.map_cons, List.sum_cons, ih, add_div]

/-- the entropy of a distribution over `k` values is at most `log k` -/
theorem negEntropy_ge (fs : List ℝ) (hpos : ∀ f ∈ fs, 0 < f) (hne : fs ≠ []) :
    - Real.log (fs.length : ℝ) ≤ negEntropy fs := by
  have hs := sum_pos_of_mem fs hpos hne
  have hk : (0 : ℝ) < fs.length := by exact_mod_cast List.length_pos_iff.2 hne
  unfold negEntropy
  -- termwise: p (-log k) + (p - 1/k) ≤ p log p
  have h1 := sum_map_sub_aux fs
    (fun f => (f / fs.sum) * (1 - Real.log fs.length) + (-(1 / (fs.length : ℝ))))
    (fun f => (f / fs.sum) * Real.log (f / fs.sum)) (by
      intro f hf
      have hp : 0 < f / fs.sum := div_pos (hpos f hf) hs
      generalize f / fs.sum = p at hp ⊢
      have hl := Real.log_le_sub_one_of_pos (show 0 < 1 / (fs.length * p) by positivity)
      rw [Real.log_div one_ne_zero (by positivity), Real.log_one, zero_sub,
        Real.log_mul hk.ne' hp.ne'] at hl
      have h2 := mul_le_mul_of_nonneg_left hl hp.le
      have h3 : p * (1 / (fs.length * p) - 1) = 1 / (fs.length : ℝ) - p := by field_simp
      rw [h3] at h2
      linarith)
  refine le_trans (le_of_eq ?_) h1
  rw [List.sum_map_add, List.sum_map_mul_right, sum_map_div, div_self hs.ne', one_mul]
  simp only [List.map_const', List.sum_replicate, nsmul_eq_mul]
  field_simp
  ring

/-! ### Theorems -/

/-- **C66 (weights)**: on a corpus that can be iterated twice, whose documents have no repeated ids and
positive frequencies, the model has a weight for exactly the ids of the corpus: one minus the entropy of
the term's distribution over documents divided by `log (n + 1)` — greater than 0, at most 1. -/
theorem C66_weights (corpus : List (List (Nat × ℝ))) (hne : corpus ≠ [])
    (hn : ∀ doc ∈ corpus, (doc.map Prod.fst).Nodup) (hpos : ∀ doc ∈ corpus, ∀ p ∈ doc, 0 < p.2) :
    ∃ entr, train corpus corpus = some entr ∧
      ∀ i, get? entr i =
          (if freqs corpus i = [] then none
           else some (1 + negEntropy (freqs corpus i) / Real.log ((corpus.length : ℝ) + 1))) ∧
        ∀ w, get? entr i = some w → 0 < w ∧ w ≤ 1 := by
  have hlen : corpus.length ≠ 0 := fun h => hne (List.length_eq_zero_iff.1 h)
  unfold train
  dsimp only
  rw [if_neg hlen, if_neg (by simp)]
  refine ⟨_, rfl, ?_⟩
  intro i
  have hfpos : ∀ f ∈ freqs corpus i, 0 < f := by
    intro f hf
    unfold freqs at hf
    obtain ⟨p, hp, rfl⟩ := List.mem_map.1 hf
    obtain ⟨doc, hd, hpd⟩ := List.mem_flatten.1 (List.mem_filter.1 hp).1
    exact hpos doc hd p hpd
  have hk : i ∈ keys (sumShares (globFreq corpus) corpus) ↔ freqs corpus i ≠ [] := by
    unfold sumShares
    rw [flat_fold, keys_bumps]
    unfold freqs
    rw [Ne, List.map_eq_nil_iff, List.filter_eq_nil_iff]
    simp only [keys, List.map_nil, List.not_mem_nil, false_or, List.mem_map, decide_eq_true_eq]
    push Not
    constructor
    · rintro ⟨p, hp, rfl⟩; exact ⟨p, hp, rfl⟩
    · rintro ⟨p, hp, rfl⟩; exact ⟨p, hp, rfl⟩
  have e : get? ((sumShares (globFreq corpus) corpus).map
      fun p => (p.1, 1 + p.2 / Real.log ((corpus.length : ℝ) + 1))) i =
      if freqs corpus i = [] then none
           else some (1 + negEntropy (freqs corpus i) / Real.log ((corpus.length : ℝ) + 1)) := by
    rw [get?_map _ (fun x => 1 + x / Real.log ((corpus.length : ℝ) + 1))]
    by_cases h : freqs corpus i = []
    · rw [if_pos h, (get?_eq_none_iff _ _).2 (fun hm => (hk.1 hm) h)]; rfl
    · rw [if_neg h, get?_eq_getD_of_mem (hk.2 h) 0, getD_sumShares]; rfl
  refine ⟨e, ?_⟩
  intro w hw
  rw [e] at hw
  by_cases h : freqs corpus i = []
  · rw [if_pos h] at hw; cases hw
  · rw [if_neg h, Option.some.injEq] at hw
    subst hw
    have hnpos : (0 : ℝ) < corpus.length := by exact_mod_cast Nat.pos_of_ne_zero hlen
    have hL : 0 < Real.log ((corpus.length : ℝ) + 1) := Real.log_pos (by linarith)
    constructor
    · have h1 := negEntropy_ge _ hfpos h
      have hfl : (0 : ℝ) < (freqs corpus i).length := by exact_mod_cast List.length_pos_iff.2 h
      have hle : ((freqs corpus i).length : ℝ) ≤ corpus.length := by
        exact_mod_cast count_freqs corpus i hn
      have h2 : Real.log ((freqs corpus i).length : ℝ) < Real.log ((corpus.length : ℝ) + 1) :=
        Real.log_lt_log hfl (by linarith)
      have h3 : -1 < negEntropy (freqs corpus i) / Real.log ((corpus.length : ℝ) + 1) := by
        rw [lt_div_iff₀ hL]; linarith
      linarith
    · have := div_nonpos_of_nonpos_of_nonneg (negEntropy_le_zero _ hfpos) hL.le
      linarith

/-- **C66 (generators)**: training data that can be iterated only once is rejected, unless it has
exactly one document: then the model silently has no weights. -/
theorem C66_generators (corpus : List (List (Nat × ℝ))) :
    train corpus [] = if corpus.length = 1 then some [] else none := by
  unfold train
  simp only [List.length_nil, if_true]
  by_cases h : corpus.length = 1
  · rw [if_pos h, h]; simp [sumShares]
  · rw [if_neg h, if_pos (by omega)]

/-- **C66 (empty corpus)**: an empty corpus is rejected as if it were a generator. -/
theorem C66_empty_corpus_rejected : train [] [] = none := by
  rw [C66_generators]; rfl

/-- **C66 (vectors)**: the transformed vector has the known ids of the input in order, with weight
`log (tf + 1)` times the stored weight, divided by the Euclidean norm when normalising; a vector of
positive frequencies never raises. -/
theorem C66_transform (corpus : List (List (Nat × ℝ))) (hne : corpus ≠ [])
    (hn : ∀ doc ∈ corpus, (doc.map Prod.fst).Nodup) (hpos : ∀ doc ∈ corpus, ∀ p ∈ doc, 0 < p.2)
    (entr : PyDict Nat ℝ) (he : train corpus corpus = some entr) (bow : List (Nat × ℝ))
    (hb : ∀ p ∈ bow, 0 < p.2) :
    let known := bow.filter fun p => decide (freqs corpus p.1 ≠ [])
    let v := known.map fun p => (p.1, Real.log (p.2 + 1) * getD entr p.1 0)
    transform entr false bow = some v ∧
    (if known = [] then transform entr true bow = some []
     else ∃ c > 0, transform entr true bow = some (v.map fun p => (p.1, p.2 / c)) ∧
       normOf .l2 (v.map fun p => p.2 / c) = 1) := by
  intro known v
  obtain ⟨entr', h1, h2⟩ := C66_weights corpus hne hn hpos
  rw [he, Option.some.injEq] at h1
  subst h1
  have hf : (bow.filter fun p => contains entr p.1) = known := by
    apply List.filter_congr
    intro p _
    unfold contains
    rw [(h2 p.1).1]
    by_cases h : freqs corpus p.1 = [] <;> simp [h]
  have hv : ((bow.filter fun p => contains entr p.1).map
      fun p => (p.1, Real.log (p.2 + 1) * getD entr p.1 0)) = v := by rw [hf]
  constructor
  · unfold transform; dsimp only; rw [hv]; rfl
  · have ht : transform entr true bow = unitvecSparse .l2 v := by
      unfold transform; dsimp only; rw [hv]; rfl
    split
    · rename_i hk
      rw [ht]; show unitvecSparse .l2 (known.map _) = _; rw [hk]; rfl
    · rename_i hk
      obtain ⟨q, hq⟩ := List.exists_mem_of_ne_nil _ hk
      have hq' := List.mem_filter.1 hq
      have hfq : freqs corpus q.1 ≠ [] := by simpa using hq'.2
      have hlog : 0 < Real.log (q.2 + 1) := Real.log_pos (by have := hb q hq'.1; linarith)
      obtain ⟨hg, hbd⟩ := h2 q.1
      rw [if_neg hfq] at hg
      have hw := (hbd _ hg).1
      have hgd : getD entr q.1 0 ≠ 0 := by
        unfold getD; rw [hg]; exact hw.ne'
      obtain ⟨r, c, hr, hc, hrc, hnorm⟩ := C20_sparse_unit .l2 (by decide) v
        ⟨_, List.mem_map_of_mem hq, mul_ne_zero hlog.ne' hgd⟩
      refine ⟨c, hc, by rw [ht, hr, hrc], ?_⟩
      rw [hrc, List.map_map] at hnorm
      exact hnorm

/-- A concrete corpus: term 0 occurs in one document only, so its weight is 1. -/
example : ∃ entr, train [[(0, 2), (1, 1)], [(1, 1)]] [[(0, 2), (1, 1)], [(1, 1)]] = some entr ∧
    get? entr 0 = some 1 := by
  obtain ⟨entr, h1, h2⟩ := C66_weights [[(0, 2), (1, 1)], [(1, 1)]] (by simp) (by simp) (by
    simp only [List.mem_cons, List.not_mem_nil, or_false]
    rintro doc (rfl | rfl) p hp <;> simp at hp
    · rcases hp with rfl | rfl <;> norm_num
    · rw [hp]; norm_num)
  refine ⟨entr, h1, ?_⟩
  rw [(h2 0).1]
  simp [freqs, negEntropy, List.filter_cons]

end Verif.LogEntropy

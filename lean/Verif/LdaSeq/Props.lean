import Mathlib.Data.List.GetD
import Mathlib.Algebra.BigOperators.Field
import Mathlib.Algebra.Order.BigOperators.Group.Finset
import Mathlib.Tactic.Linarith
import Mathlib.Tactic.FieldSimp
import Mathlib.Tactic.Positivity
import Verif.LdaSeq.Model
import Verif.Utils.ChunkProps
import Verif.Matutils.ArgsortProps

/-!
# The dynamic topic model: documents, slices, training and queries (C99)
-/

namespace Verif.LdaSeq

open Verif

variable {k V : ℕ}

/-! ### Specification -/

/-- Document number `i` belongs to slice `t` when `time_slice` lists the sizes of the slices. -/
def InSlice (timeSlice : List ℕ) (i t : ℕ) : Prop :=
  (timeSlice.take t).sum ≤ i ∧ i < (timeSlice.take (t + 1)).sum

instance (timeSlice : List ℕ) (i t : ℕ) : Decidable (InSlice timeSlice i t) := instDecidableAnd

/-- How often a word occurs in a document. -/
def occurrences (doc : Doc V) (w : Fin V) : ℝ := (doc.map fun e => if e.1 = w then e.2 else 0).sum

/-- The number of tokens of a document. -/
def tokens (doc : Doc V) : ℝ := (doc.map Prod.snd).sum

/-! ### One document -/

theorem logPhi_row (sp : Special) (topics : Fin V → Fin (k + 1) → ℝ) (doc : Doc V) (gamma : Fin (k + 1) → ℝ)
    (n : Fin doc.length) : ∑ j, Real.exp (logPhi sp topics doc gamma n j) = 1 := by
  have hp : 0 < ∑ i, Real.exp (sp.digamma (gamma i) + topics doc[n].1 i) :=
    Finset.sum_pos (fun _ _ => Real.exp_pos _) Finset.univ_nonempty
  simp only [logPhi, Real.exp_sub, Real.exp_log hp]
  rw [← Finset.sum_div]
  exact div_self hp.ne'

/-- What every state of the inference on a document satisfies. -/
structure Fitted (alpha : Fin (k + 1) → ℝ) (doc : Doc V) (p : Post k doc.length) : Prop where
  row : ∀ n, ∑ j, p.phi n j = 1
  pos : ∀ n j, 0 < p.phi n j
  sum : ∑ j, p.gamma j = ∑ j, alpha j + tokens doc
  ge : (∀ e ∈ doc, 0 ≤ e.2) → ∀ j, alpha j ≤ p.gamma j

theorem sum_getElem {α : Type} (l : List α) (f : α → ℝ) : ∑ n : Fin l.length, f l[n] = (l.map f).sum := by
  rw [← Fin.sum_ofFn]
  congr 1
  apply List.ext_getElem
  · simp
  · intro i h1 h2; simp

theorem updateGamma_sum (alpha : Fin (k + 1) → ℝ) (doc : Doc V) (phi : Fin doc.length → Fin (k + 1) → ℝ)
    (h : ∀ n, ∑ j, phi n j = 1) : ∑ j, updateGamma alpha doc phi j = ∑ j, alpha j + tokens doc := by
  simp only [updateGamma, Finset.sum_add_distrib]
  rw [Finset.sum_comm]
  simp only [← Finset.sum_mul, h, one_mul]
  rw [sum_getElem doc Prod.snd, tokens]

theorem round_fitted (sp : Special) (alpha : Fin (k + 1) → ℝ) (topics : Fin V → Fin (k + 1) → ℝ) (doc : Doc V)
    (phi : Fin doc.length → Fin (k + 1) → ℝ) (h : ∀ n, ∑ j, phi n j = 1) (hp : ∀ n j, 0 < phi n j) :
    Fitted alpha doc (round sp alpha topics doc phi) := by
  refine ⟨fun n => logPhi_row sp topics doc _ n, fun n j => Real.exp_pos _, updateGamma_sum alpha doc phi h, ?_⟩
  intro hc j
  simp only [round, updateGamma]
  have : 0 ≤ ∑ n, phi n j * doc[n].2 :=
    Finset.sum_nonneg fun n _ => mul_nonneg (hp n j).le (hc _ (List.getElem_mem _))
  linarith

theorem fitLoop_fitted (sp : Special) (alpha : Fin (k + 1) → ℝ) (topics : Fin V → Fin (k + 1) → ℝ) (doc : Doc V)
    (total : ℝ) (left : ℕ) (c : ℝ) (p : Post k doc.length) (h : Fitted alpha doc p) :
    Fitted alpha doc (fitLoop sp alpha topics doc total left c p) := by
  induction left generalizing c p with
  | zero => exact h
  | succ left ih =>
    simp only [fitLoop]
    split
    · exact ih _ _ (round_fitted sp alpha topics doc _ h.row h.pos)
    · exact h

theorem fitDoc_fitted (sp : Special) (alpha : Fin (k + 1) → ℝ) (topics : Fin V → Fin (k + 1) → ℝ) (doc : Doc V)
    (stale : ℕ → Fin (k + 1) → ℝ) (maxIter : ℕ) : Fitted alpha doc (fitDoc sp alpha topics doc stale maxIter) := by
  apply fitLoop_fitted
  apply round_fitted
  · intro n
    rw [Finset.sum_const, Finset.card_univ, Fintype.card_fin, nsmul_eq_mul]
    field_simp
  · intro n j; positivity

/-- **C99**.  Fitting a document distributes its tokens over the topics: every word's weights are positive
and sum to one, the weights of the document sum to the prior plus the number of tokens, and no weight is
below its prior. -/
theorem C99_document_weights (sp : Special) (alpha : Fin (k + 1) → ℝ) (topics : Fin V → Fin (k + 1) → ℝ)
    (doc : Doc V) (hdoc : ∀ e ∈ doc, 0 ≤ e.2) (stale : ℕ → Fin (k + 1) → ℝ) (maxIter : ℕ) :
    let p := fitDoc sp alpha topics doc stale maxIter
    (∀ n, ∑ j, p.phi n j = 1) ∧ (∀ n j, 0 < p.phi n j) ∧
    ∑ j, p.gamma j = ∑ j, alpha j + (doc.map Prod.snd).sum ∧ ∀ j, alpha j ≤ p.gamma j := by
  obtain ⟨h1, h2, h3, h4⟩ := fitDoc_fitted sp alpha topics doc stale maxIter
  exact ⟨h1, h2, h3, h4 hdoc⟩

/-! ### Slices -/

theorem foldDocs_append {σ δ : Type} (f : σ → δ → Option σ) (s : σ) (a b : List δ) :
    foldDocs f s (a ++ b) = (foldDocs f s a).bind fun s' => foldDocs f s' b := by
  induction a generalizing s with
  | nil => rfl
  | cons d a ih =>
    simp only [List.cons_append, foldDocs]
    cases f s d with
    | none => rfl
    | some s' => exact ih s'

theorem foldDocs_flatten {σ δ : Type} (f : σ → δ → Option σ) (s : σ) (cs : List (List δ)) :
    foldDocs (fun s c => foldDocs f s c) s cs = foldDocs f s cs.flatten := by
  induction cs generalizing s with
  | nil => rfl
  | cons c cs ih =>
    rw [List.flatten_cons, foldDocs_append, foldDocs]
    cases foldDocs f s c with
    | none => rfl
    | some s' => exact ih s'

/-- **C99**.  The chunk size of the e-step changes nothing. -/
theorem C99_chunksize (sp : Special) (alpha : Fin (k + 1) → ℝ) (topicsAt : ℕ → Fin V → Fin (k + 1) → ℝ)
    (timeSlice : List ℕ) (maxIter : ℕ) (corpus : List (Doc V)) (c c' : ℕ) (hc : 0 < c) (hc' : 0 < c') :
    inferDTMseq sp alpha topicsAt timeSlice maxIter c corpus =
      inferDTMseq sp alpha topicsAt timeSlice maxIter c' corpus := by
  simp only [inferDTMseq, foldDocs_flatten, Chunk.C15_concat hc, Chunk.C15_concat hc']

theorem take_sum_mono (l : List ℕ) {a b : ℕ} (h : a ≤ b) : (l.take a).sum ≤ (l.take b).sum := by
  obtain ⟨d, rfl⟩ := Nat.exists_eq_add_of_le h
  rw [List.take_add, List.sum_append]
  omega

theorem inSlice_unique {l : List ℕ} {i t t' : ℕ} (h : InSlice l i t) (h' : InSlice l i t') : t = t' := by
  rcases lt_trichotomy t t' with c | c | c
  · have := take_sum_mono l (show t + 1 ≤ t' from c)
    have := h.2; have := h'.1; omega
  · exact c
  · have := take_sum_mono l (show t' + 1 ≤ t from c)
    have := h.1; have := h'.2; omega

theorem take_succ_sum (l : List ℕ) (t : ℕ) (h : t < l.length) :
    (l.take (t + 1)).sum = (l.take t).sum + l[t] := by
  rw [List.take_add_one, List.getElem?_eq_getElem h, List.sum_append]; simp

/-- What the e-step has after the documents `pre`. -/
structure Sofar (sp : Special) (alpha : Fin (k + 1) → ℝ) (topicsAt : ℕ → Fin V → Fin (k + 1) → ℝ)
    (ts : List ℕ) (maxIter : ℕ) (pre : List (Doc V)) (s : Infer k V) : Prop where
  index : s.docIndex = pre.length
  time : InSlice ts (pre.length - 2) s.time
  short : s.time < ts.length
  stats : ∀ w t, ∑ j, s.ss j w t =
    ∑ i : Fin pre.length, if InSlice ts (i - 1) t then occurrences pre[i] w else 0
  docs : s.gammas.length = pre.length ∧ ∀ i (h : i < pre.length), ∀ t, InSlice ts (i - 1) t →
    ∃ stale, s.gammas[i]? = some (fitDoc sp alpha (topicsAt t) pre[i] stale maxIter).gamma

theorem addStats_sum (time : ℕ) (doc : Doc V) (phi : Fin doc.length → Fin (k + 1) → ℝ)
    (h : ∀ n, ∑ j, phi n j = 1) (ss : Fin (k + 1) → Fin V → ℕ → ℝ) (w : Fin V) (t : ℕ) :
    ∑ j, addStats time doc phi ss j w t = ∑ j, ss j w t + if t = time then occurrences doc w else 0 := by
  by_cases e : t = time
  · simp only [addStats, e, if_true, Finset.sum_add_distrib]
    congr 1
    rw [Finset.sum_comm, occurrences, ← sum_getElem doc fun e => if e.1 = w then e.2 else 0]
    refine Finset.sum_congr rfl fun n _ => ?_
    by_cases c : doc[n].1 = w
    · simp only [c, if_true]
      rw [← Finset.mul_sum, h, mul_one]
    · simp only [c, if_false, Finset.sum_const_zero]
  · simp [addStats, e]

theorem sofar_step (sp : Special) (alpha : Fin (k + 1) → ℝ) (topicsAt : ℕ → Fin V → Fin (k + 1) → ℝ)
    (ts : List ℕ) (hts : ∀ n ∈ ts, 0 < n) (maxIter : ℕ) (pre : List (Doc V)) (s : Infer k V)
    (h : Sofar sp alpha topicsAt ts maxIter pre s) (doc : Doc V) :
    if pre.length ≤ ts.sum then
      ∃ s', inferDoc sp alpha topicsAt ts maxIter s doc = some s' ∧ Sofar sp alpha topicsAt ts maxIter (pre ++ [doc]) s'
    else inferDoc sp alpha topicsAt ts maxIter s doc = none := by
  obtain ⟨h1, h2, h3, h4, h5, h6⟩ := h
  have hpos : ∀ t (ht : t < ts.length), 0 < ts[t] := fun t ht => hts _ (List.getElem_mem ht)
  have hc : cumsum ts s.time = (ts.take (s.time + 1)).sum := rfl
  -- the slice of the document
  have key : ∀ time, time = (if cumsum ts s.time < s.docIndex then s.time + 1 else s.time) →
      (pre.length ≤ ts.sum → time < ts.length ∧ InSlice ts (pre.length - 1) time) ∧
      (¬ pre.length ≤ ts.sum → ¬ time < ts.length) := by
    rintro time rfl
    rw [hc, h1]
    have hu := h2.2
    have hl := h2.1
    by_cases c : (ts.take (s.time + 1)).sum < pre.length
    · rw [if_pos c]
      have e : pre.length - 1 = (ts.take (s.time + 1)).sum := by omega
      by_cases hlast : s.time + 1 < ts.length
      · refine ⟨fun _ => ⟨hlast, ?_⟩, fun hn => ?_⟩
        · have := take_succ_sum ts _ hlast
          have := hpos _ hlast
          exact ⟨by omega, by omega⟩
        · exfalso
          have := take_succ_sum ts _ hlast
          have := hpos _ hlast
          have := take_sum_mono ts (show s.time + 2 ≤ ts.length from hlast)
          rw [List.take_length] at this
          rw [show s.time + 2 = s.time + 1 + 1 from rfl] at this
          omega
      · have e2 : ts.take (s.time + 1) = ts := List.take_of_length_le (by omega)
        rw [e2] at c
        exact ⟨fun hn => by omega, fun _ => hlast⟩
    · rw [if_neg c]
      have := take_succ_sum ts _ h3
      have := hpos _ h3
      have ht := take_sum_mono ts (show s.time + 1 ≤ ts.length from h3)
      rw [List.take_length] at ht
      refine ⟨fun _ => ⟨h3, by omega, by omega⟩, fun hn => by omega⟩
  generalize htm : (if cumsum ts s.time < s.docIndex then s.time + 1 else s.time) = time at key
  obtain ⟨k1, k2⟩ := key time rfl
  split
  · rename_i hle
    obtain ⟨ht, hin⟩ := k1 hle
    refine ⟨_, by simp only [inferDoc, htm]; rw [if_pos ht], ?_⟩
    refine ⟨by simp [h1], by simpa using hin, ht, ?_, by simp [h5], ?_⟩
    · intro w t
      show ∑ j, addStats time doc _ s.ss j w t = _
      rw [addStats_sum _ _ _ (fitDoc_fitted ..).row, h4]
      have hf : ∀ (f : ℕ → Doc V → ℝ), ∑ i : Fin (pre ++ [doc]).length, f i (pre ++ [doc])[i] =
          ∑ i : Fin pre.length, f i pre[i] + f pre.length doc := by
        intro f
        rw [← Fin.sum_ofFn, ← Fin.sum_ofFn]
        have e : List.ofFn (fun i : Fin (pre ++ [doc]).length => f i (pre ++ [doc])[i]) =
            List.ofFn (fun i : Fin pre.length => f i pre[i]) ++ [f pre.length doc] := by
          apply List.ext_getElem
          · simp
          · intro i i1 i2
            simp only [List.getElem_ofFn]
            by_cases c : i < pre.length
            · rw [List.getElem_append_left (by simpa using c)]
              simp [List.getElem_append_left c]
            · have : i = pre.length := by simp at i1; omega
              subst this
              simp
        rw [e]; simp
      rw [hf fun i d => if InSlice ts (i - 1) t then occurrences d w else 0]
      congr 1
      by_cases c : t = time
      · subst c; rw [if_pos rfl, if_pos hin]
      · rw [if_neg c, if_neg fun h => c (inSlice_unique h hin)]
    · intro i hi t hit
      by_cases c : i < pre.length
      · obtain ⟨st, hst⟩ := h6 i c t hit
        refine ⟨st, ?_⟩
        have e : (pre ++ [doc])[i] = pre[i] := List.getElem_append_left c
        rw [e]
        rw [List.getElem?_append_left (by omega)]
        exact hst
      · have : i = pre.length := by simp at hi; omega
        subst this
        have := inSlice_unique hit hin
        subst this
        refine ⟨s.buffer, ?_⟩
        have e : (pre ++ [doc])[pre.length] = doc := by simp
        rw [e]
        rw [List.getElem?_append_right (by omega), h5]
        simp
  · rename_i hn
    simp only [inferDoc, htm]
    rw [if_neg (k2 hn)]

theorem sofar_run (sp : Special) (alpha : Fin (k + 1) → ℝ) (topicsAt : ℕ → Fin V → Fin (k + 1) → ℝ)
    (ts : List ℕ) (hne : ts ≠ []) (hts : ∀ n ∈ ts, 0 < n) (maxIter : ℕ) (corpus : List (Doc V)) :
    if corpus.length ≤ ts.sum + 1 then
      ∃ s, foldDocs (inferDoc sp alpha topicsAt ts maxIter) ⟨0, 0, fun _ _ _ => 0, [], 0, fun _ _ => 0⟩ corpus =
        some s ∧ Sofar sp alpha topicsAt ts maxIter corpus s
    else foldDocs (inferDoc sp alpha topicsAt ts maxIter) ⟨0, 0, fun _ _ _ => 0, [], 0, fun _ _ => 0⟩ corpus = none := by
  induction corpus using List.reverseRecOn with
  | nil =>
    rw [if_pos (by simp)]
    obtain ⟨a, l, rfl⟩ := List.exists_cons_of_ne_nil hne
    refine ⟨_, rfl, rfl, ⟨by simp, ?_⟩, by simp, by simp, by simp, by simp⟩
    have := hts a (by simp)
    simpa using this
  | append_singleton pre doc ih =>
    rw [foldDocs_append]
    have hlen : (pre ++ [doc]).length = pre.length + 1 := by simp
    by_cases c : pre.length ≤ ts.sum
    · rw [if_pos (by omega)] at ih
      obtain ⟨s, e1, e2⟩ := ih
      rw [if_pos (by omega), e1]
      have := sofar_step sp alpha topicsAt ts hts maxIter pre s e2 doc
      rw [if_pos c] at this
      obtain ⟨s', e3, e4⟩ := this
      exact ⟨s', by simp [foldDocs, e3], e4⟩
    · rw [if_neg (by omega)]
      by_cases c2 : pre.length ≤ ts.sum + 1
      · rw [if_pos c2] at ih
        obtain ⟨s, e1, e2⟩ := ih
        have := sofar_step sp alpha topicsAt ts hts maxIter pre s e2 doc
        rw [if_neg c] at this
        rw [e1]
        simp [foldDocs, this]
      · rw [if_neg c2] at ih
        rw [ih]; rfl

/-- **C99** (with a finding).  The e-step on a corpus with up to one document more than `time_slice` announces
counts every word of every document once, in one slice - but document `i` is counted in, and fitted to the topics of,
the slice of document `i - 1`. -/
theorem C99_slices (sp : Special) (alpha : Fin (k + 1) → ℝ) (topicsAt : ℕ → Fin V → Fin (k + 1) → ℝ)
    (ts : List ℕ) (hne : ts ≠ []) (hts : ∀ n ∈ ts, 0 < n) (maxIter c : ℕ) (hc : 0 < c) (corpus : List (Doc V))
    (hlen : corpus.length ≤ ts.sum + 1) :
    ∃ r, inferDTMseq sp alpha topicsAt ts maxIter c corpus = some r ∧
    (∀ w t, ∑ j, r.ss j w t =
      ∑ i : Fin corpus.length, if InSlice ts (i - 1) t then occurrences corpus[i] w else 0) ∧
    r.gammas.length = corpus.length ∧ ∀ i (h : i < corpus.length), ∀ t, InSlice ts (i - 1) t →
      ∃ stale, r.gammas[i]? = some (fitDoc sp alpha (topicsAt t) corpus[i] stale maxIter).gamma := by
  have := sofar_run sp alpha topicsAt ts hne hts maxIter corpus
  rw [if_pos hlen] at this
  obtain ⟨s, e, h⟩ := this
  refine ⟨s, ?_, h.stats, h.docs⟩
  simp only [inferDTMseq, foldDocs_flatten, Chunk.C15_concat hc]
  exact e

/-- **C99**.  With a single slice every document is where it belongs. -/
theorem C99_one_slice (sp : Special) (alpha : Fin (k + 1) → ℝ) (topicsAt : ℕ → Fin V → Fin (k + 1) → ℝ)
    (n : ℕ) (hn : 0 < n) (maxIter c : ℕ) (hc : 0 < c) (corpus : List (Doc V)) (hlen : corpus.length = n) :
    ∃ r, inferDTMseq sp alpha topicsAt [n] maxIter c corpus = some r ∧
      ∀ w, ∑ j, r.ss j w 0 = (corpus.map fun d => occurrences d w).sum := by
  obtain ⟨r, h1, h2, -⟩ := C99_slices sp alpha topicsAt [n] (by simp) (by simpa using hn) maxIter c hc corpus
    (by simp; omega)
  refine ⟨r, h1, fun w => ?_⟩
  rw [h2, ← sum_getElem corpus fun d => occurrences d w]
  refine Finset.sum_congr rfl fun i _ => ?_
  rw [if_pos]
  refine ⟨by simp, ?_⟩
  have := i.2
  simp; omega

/-- **C99** (finding).  The first document of every slice but the first is counted in the slice before. -/
theorem C99_first_document_of_a_slice (sp : Special) (alpha : Fin (k + 1) → ℝ)
    (topicsAt : ℕ → Fin V → Fin (k + 1) → ℝ) (ts : List ℕ) (hts : ∀ n ∈ ts, 0 < n) (t : ℕ) (ht : t + 1 < ts.length)
    (maxIter c : ℕ) (hc : 0 < c) (corpus : List (Doc V)) (hlen : corpus.length = ts.sum) (w : Fin V) (x : ℝ)
    (hw : ∀ i (h : i < corpus.length), occurrences corpus[i] w = if i = (ts.take (t + 1)).sum then x else 0) :
    InSlice ts (ts.take (t + 1)).sum (t + 1) ∧
    ∃ r, inferDTMseq sp alpha topicsAt ts maxIter c corpus = some r ∧
      ∑ j, r.ss j w t = x ∧ ∑ j, r.ss j w (t + 1) = 0 := by
  have hpos : ∀ t (ht : t < ts.length), 0 < ts[t] := fun t ht => hts _ (List.getElem_mem ht)
  have hi : InSlice ts (ts.take (t + 1)).sum (t + 1) := by
    have := take_succ_sum ts _ ht
    have := hpos _ ht
    exact ⟨le_refl _, by omega⟩
  refine ⟨hi, ?_⟩
  obtain ⟨r, h1, h2, -⟩ := C99_slices sp alpha topicsAt ts (by rintro rfl; simp at ht) hts maxIter c hc corpus
    (by omega)
  have a1 := take_succ_sum ts t (by omega)
  have a2 := hpos t (by omega)
  have hb : (ts.take (t + 1)).sum < corpus.length := by
    have := take_sum_mono ts (show t + 1 + 1 ≤ ts.length from ht)
    rw [List.take_length] at this
    have := hi.2
    omega
  have hin : InSlice ts ((ts.take (t + 1)).sum - 1) t := ⟨by omega, by omega⟩
  refine ⟨r, h1, ?_, ?_⟩
  · rw [h2, Finset.sum_eq_single ⟨_, hb⟩]
    · rw [if_pos hin]; exact (hw _ hb).trans (if_pos rfl)
    · intro i _ hne
      have := hw i i.2
      rw [if_neg fun e => hne (Fin.ext e)] at this
      have e : occurrences corpus[i] w = 0 := this
      rw [e]; simp
    · simp
  · rw [h2]
    refine Finset.sum_eq_zero fun i _ => ?_
    by_cases c : (i : ℕ) = (ts.take (t + 1)).sum
    · rw [if_neg]
      intro h
      rw [c] at h
      have := inSlice_unique h hin
      omega
    · have := hw i i.2
      rw [if_neg c] at this
      have e : occurrences corpus[i] w = 0 := this
      rw [e]; simp

/-- **C99** (finding).  `time_slice` is not checked against the corpus: one surplus document is accepted, two
make the e-step fail. -/
theorem C99_corpus_too_long (sp : Special) (alpha : Fin (k + 1) → ℝ) (topicsAt : ℕ → Fin V → Fin (k + 1) → ℝ)
    (ts : List ℕ) (hne : ts ≠ []) (hts : ∀ n ∈ ts, 0 < n) (maxIter c : ℕ) (hc : 0 < c) (corpus : List (Doc V)) :
    inferDTMseq sp alpha topicsAt ts maxIter c corpus = none ↔ ts.sum + 2 ≤ corpus.length := by
  have := sofar_run sp alpha topicsAt ts hne hts maxIter corpus
  simp only [inferDTMseq, foldDocs_flatten, Chunk.C15_concat hc]
  by_cases h : corpus.length ≤ ts.sum + 1
  · rw [if_pos h] at this
    obtain ⟨s, e, -⟩ := this
    rw [e]
    simp; omega
  · rw [if_neg h] at this
    simp only [this, true_iff]; omega

/-! ### Training -/

/-- **C99** (finding).  The bound of a topic loses one word with every slice: word `w` has a term in slice `t + 1`
only if `w + t` is a word. -/
theorem C99_bound_drops_words (V t w : ℕ) : w ∈ boundRange V t ↔ w + t < V := by
  have h : boundWords V t = V - t := by
    induction t with
    | zero => rfl
    | succ t ih => simp only [boundWords, ih]; omega
  rw [boundRange, List.mem_range, h]; omega

/-- **C99** (finding).  Training never stops because it has converged: it runs `em_max_iter + 1` iterations (or
`em_min_iter`, if that is more), however small the changes of the bound are. -/
theorem C99_training_never_converges (minIter maxIter : ℕ) (bound : ℕ → ℝ) (hb : ∀ i, bound i ≠ 0)
    (hc : ∀ i, |(bound (i + 1) - bound i) / bound i| ≠ 1 / 10 ^ 4) (fuel : ℕ) (hf : max minIter (maxIter + 1) < fuel) :
    emLoop minIter maxIter bound fuel 0 (some (1 / 10 ^ 4 + 1)) = max minIter (maxIter + 1) := by
  have main : ∀ fuel iter (c : Option ℝ), aboveThreshold c →
      iter ≤ max minIter (maxIter + 1) → max minIter (maxIter + 1) < fuel + iter →
      emLoop minIter maxIter bound fuel iter c = max minIter (maxIter + 1) := by
    intro fuel
    induction fuel with
    | zero => intro iter c _ h1 h2; omega
    | succ fuel ih =>
      intro iter c hcv h1 h2
      rw [emLoop]
      by_cases hlt : iter < max minIter (maxIter + 1)
      · rw [if_pos]
        · refine ih _ _ ?_ hlt (by omega)
          cases iter with
          | zero => simp [convergence, aboveThreshold]
          | succ i =>
            rw [if_neg (by omega), Nat.add_sub_cancel, convergence, if_neg (hb i)]
            split
            · simp only [aboveThreshold]; norm_num
            · rename_i hx
              exact lt_of_le_of_ne (not_lt.1 hx) (Ne.symm (hc i))
        · by_cases h : iter < minIter
          · exact Or.inl h
          · exact Or.inr ⟨hcv, by omega⟩
      · rw [if_neg]
        · omega
        · rintro (h | ⟨-, h⟩)
          · omega
          · omega
  exact main fuel 0 _ (by simp only [aboveThreshold]; norm_num) (by omega) (by omega)

/-- The length of a word's counts over the slices. -/
noncomputable def countsNorm (T : ℕ) (sstats : Fin V → ℕ → ℝ) (w : Fin V) : ℝ :=
  Real.sqrt (∑ i ∈ Finset.range T, sstats w i * sstats w i)

theorem updateObs_other (T : ℕ) (sstats : Fin V → ℕ → ℝ) (cg : Fin V → (ℕ → ℝ) → (ℕ → ℝ) → ℕ → ℝ)
    (ws : List (Fin V)) (cut : Bool) (obs : Fin V → ℕ → ℝ) (w : Fin V) (h : w ∉ ws) :
    updateObsLoop T sstats cg ws cut obs w = obs w := by
  induction ws generalizing cut obs with
  | nil => rfl
  | cons v ws ih =>
    simp only [List.mem_cons, not_or] at h
    simp only [updateObsLoop]
    split
    · exact ih _ _ h.2
    · rw [ih _ _ h.2, Function.update_of_ne h.1]

theorem updateObs_cons (T : ℕ) (sstats : Fin V → ℕ → ℝ) (cg : Fin V → (ℕ → ℝ) → (ℕ → ℝ) → ℕ → ℝ)
    (w : Fin V) (ws : List (Fin V)) (cut : Bool) (obs : Fin V → ℕ → ℝ) [Decidable (countsNorm T sstats w < 2)] :
    updateObsLoop T sstats cg (w :: ws) cut obs =
      if countsNorm T sstats w < 2 ∧ cut = true then updateObsLoop T sstats cg ws true obs
      else updateObsLoop T sstats cg ws (cut || decide (countsNorm T sstats w < 2))
        (Function.update obs w (cg w (if countsNorm T sstats w < 2 then fun _ => 0 else sstats w) (obs w))) := by
  simp only [updateObsLoop, countsNorm]
  congr

open Classical in
theorem updateObs_at (T : ℕ) (sstats : Fin V → ℕ → ℝ) (cg : Fin V → (ℕ → ℝ) → (ℕ → ℝ) → ℕ → ℝ)
    (a b : List (Fin V)) (cut : Bool) (obs : Fin V → ℕ → ℝ) (w : Fin V) (hn : (a ++ w :: b).Nodup) :
    updateObsLoop T sstats cg (a ++ w :: b) cut obs w =
      if countsNorm T sstats w < 2 ∧ (cut = true ∨ ∃ v ∈ a, countsNorm T sstats v < 2) then obs w
      else cg w (if countsNorm T sstats w < 2 then fun _ => 0 else sstats w) (obs w) := by
  induction a generalizing cut obs with
  | nil =>
    have hw : w ∉ b := by simp at hn; exact hn.1
    rw [List.nil_append, updateObs_cons]
    by_cases h : countsNorm T sstats w < 2 ∧ cut = true
    · rw [if_pos h, if_pos ⟨h.1, Or.inl h.2⟩, updateObs_other _ _ _ _ _ _ _ hw]
    · have h' : ¬ (countsNorm T sstats w < 2 ∧ (cut = true ∨ ∃ v ∈ ([] : List (Fin V)), countsNorm T sstats v < 2)) := by
        rintro ⟨h1, h2 | ⟨v, hv, -⟩⟩
        · exact h ⟨h1, h2⟩
        · simp at hv
      rw [if_neg h, if_neg h', updateObs_other _ _ _ _ _ _ _ hw, Function.update_self]
  | cons v a ih =>
    have hv : w ≠ v := by rintro rfl; simp at hn
    have hn' : (a ++ w :: b).Nodup := by simp only [List.cons_append, List.nodup_cons] at hn; exact hn.2
    rw [List.cons_append, updateObs_cons]
    by_cases h : countsNorm T sstats v < 2 ∧ cut = true
    · rw [if_pos h, ih _ _ hn']
      simp [h.2]
    · rw [if_neg h, ih _ _ hn', Function.update_of_ne hv]
      have e : ((cut || decide (countsNorm T sstats v < 2)) = true ∨ ∃ u ∈ a, countsNorm T sstats u < 2) ↔
          (cut = true ∨ ∃ u ∈ v :: a, countsNorm T sstats u < 2) := by
        simp [or_assoc]
      have e' : (countsNorm T sstats w < 2 ∧ ((cut || decide (countsNorm T sstats v < 2)) = true ∨
          ∃ u ∈ a, countsNorm T sstats u < 2)) ↔ (countsNorm T sstats w < 2 ∧ (cut = true ∨
          ∃ u ∈ v :: a, countsNorm T sstats u < 2)) := and_congr_right fun _ => e
      exact if_congr e' rfl rfl

/-- **C99** (with a finding).  A word whose counts have length 2 or more is fitted to its counts; the first
rare word is fitted to zero counts; every other rare word keeps the observations it had. -/
theorem C99_rare_words (T : ℕ) (sstats : Fin V → ℕ → ℝ) (cg : Fin V → (ℕ → ℝ) → (ℕ → ℝ) → ℕ → ℝ)
    (obs : Fin V → ℕ → ℝ) (w : Fin V) :
    (2 ≤ countsNorm T sstats w →
      updateObsLoop T sstats cg (List.finRange V) false obs w = cg w (sstats w) (obs w)) ∧
    (countsNorm T sstats w < 2 → (∀ v < w, 2 ≤ countsNorm T sstats v) →
      updateObsLoop T sstats cg (List.finRange V) false obs w = cg w (fun _ => 0) (obs w)) ∧
    (countsNorm T sstats w < 2 → (∃ v < w, countsNorm T sstats v < 2) →
      updateObsLoop T sstats cg (List.finRange V) false obs w = obs w) := by
  have hs : List.finRange V = (List.finRange V).take w ++ w :: (List.finRange V).drop (w + 1) := by
    conv_lhs => rw [← List.take_append_drop w (List.finRange V)]
    congr 1
    rw [List.drop_eq_getElem_cons (by simp)]
    simp
  have hm : ∀ v : Fin V, v ∈ (List.finRange V).take w ↔ v < w := by
    intro v
    rw [List.mem_take_iff_getElem]
    constructor
    · rintro ⟨i, hi, rfl⟩
      simp at hi
      simpa [Fin.lt_def] using hi
    · intro h
      exact ⟨v, by simpa using h, by simp⟩
  have hn : ((List.finRange V).take w ++ w :: (List.finRange V).drop (w + 1)).Nodup := by
    rw [← hs]; exact List.nodup_finRange V
  rw [hs, updateObs_at T sstats cg _ _ _ _ _ hn]
  simp only [hm]
  refine ⟨fun h => ?_, fun h h' => ?_, fun h h' => ?_⟩
  · rw [if_neg (by rintro ⟨a, -⟩; linarith), if_neg (by linarith)]
  · rw [if_neg, if_pos h]
    rintro ⟨-, a | ⟨v, hv, a⟩⟩
    · simp at a
    · have := h' v hv; linarith
  · rw [if_pos ⟨h, Or.inr h'⟩]

/-- **C99**.  After a topic chain has been fitted - whatever the optimiser returned - its means are the smoothed
observations, and its expected log probabilities are normalised: the expectation of the words'
weights sums to one in every slice. -/
theorem C99_fitted_chain (ov cv : ℝ) (T : ℕ) (sstats : Fin V → ℕ → ℝ) (cg : Fin V → (ℕ → ℝ) → (ℕ → ℝ) → ℕ → ℝ)
    (mess : Fin V → ℕ → ℝ) (rounds : ℕ) (c : Chain V) (hV : 0 < V) :
    let c' := fitSslm ov cv T sstats cg mess rounds c
    (∀ w t, c'.mean w t = postMean ov cv (c'.obs w) T t) ∧ (∀ w t, c'.variance w t = postVar ov cv T t) ∧
    (∀ t, ∑ w, Real.exp (c'.eLogProb w t + c'.variance w (t + 1) / 2) = 1) ∧
    (∀ t w, topicDist c' t w = Real.exp (c'.mean w (t + 1)) / ∑ v, Real.exp (c'.mean v (t + 1))) := by
  have inv : ∀ d : Chain V, (d.variance = fun _ => postVar ov cv T) → let e := refresh ov cv T d
      (∀ w, e.mean w = postMean ov cv (e.obs w) T) ∧ (e.variance = fun _ => postVar ov cv T) ∧
      ∀ t, e.zeta t = ∑ w, Real.exp (e.mean w (t + 1) + e.variance w (t + 1) / 2) := by
    intro d hd
    exact ⟨fun w => rfl, hd, fun t => rfl⟩
  have main : ∀ n, let e := (fitRound ov cv T sstats cg mess)^[n] (refresh ov cv T { c with variance := fun _ => postVar ov cv T })
      (∀ w, e.mean w = postMean ov cv (e.obs w) T) ∧ (e.variance = fun _ => postVar ov cv T) ∧
      ∀ t, e.zeta t = ∑ w, Real.exp (e.mean w (t + 1) + e.variance w (t + 1) / 2) := by
    intro n
    induction n with
    | zero => exact inv _ rfl
    | succ n ih =>
      simp only [Function.iterate_succ_apply']
      exact inv _ ih.2.1
  obtain ⟨h1, h2, h3⟩ := main rounds
  haveI : Nonempty (Fin V) := ⟨⟨0, hV⟩⟩
  simp only [fitSslm]
  generalize (fitRound ov cv T sstats cg mess)^[rounds]
    (refresh ov cv T { c with variance := fun _ => postVar ov cv T }) = e at h1 h2 h3
  have hz : ∀ t, 0 < e.zeta t := fun t => by
    rw [h3]; exact Finset.sum_pos (fun _ _ => Real.exp_pos _) Finset.univ_nonempty
  refine ⟨fun w t => by show e.mean w t = _; rw [h1]; rfl, fun w t => by show e.variance w t = _; rw [h2], ?_, ?_⟩
  · intro t
    show ∑ w, Real.exp (e.mean w (t + 1) - Real.log (e.zeta t) + e.variance w (t + 1) / 2) = 1
    have : ∀ w, Real.exp (e.mean w (t + 1) - Real.log (e.zeta t) + e.variance w (t + 1) / 2) =
        Real.exp (e.mean w (t + 1) + e.variance w (t + 1) / 2) / e.zeta t := by
      intro w
      rw [show e.mean w (t + 1) - Real.log (e.zeta t) + e.variance w (t + 1) / 2 =
        e.mean w (t + 1) + e.variance w (t + 1) / 2 - Real.log (e.zeta t) by ring, Real.exp_sub, Real.exp_log (hz t)]
    simp only [this, ← Finset.sum_div, ← h3]
    exact div_self (hz t).ne'
  · intro t w
    show Real.exp (e.mean w (t + 1) - Real.log (e.zeta t)) /
      ∑ v, Real.exp (e.mean v (t + 1) - Real.log (e.zeta t)) = Real.exp (e.mean w (t + 1)) / ∑ v, Real.exp (e.mean v (t + 1))
    simp only [Real.exp_sub, Real.exp_log (hz t), ← Finset.sum_div]
    rw [div_div_div_cancel_right₀ (hz t).ne']

/-- **C99**.  A chain starts from the topic of the static model, mixed half and half with the uniform distribution, the
same in every slice. -/
theorem C99_initial_chain (ov cv : ℝ) (T : ℕ) (sstats : Fin V → ℝ) (h0 : ∀ w, 0 ≤ sstats w)
    (hs : 0 < ∑ v, sstats v) :
    let c := countsInit ov cv T sstats
    ∀ t, (∀ w, Real.exp (c.obs w t) = (sstats w / ∑ v, sstats v) / 2 + (1 / V) / 2) ∧
      ∑ w, Real.exp (c.obs w t) = 1 := by
  have hV : (0 : ℝ) < V := by
    rcases Nat.eq_zero_or_pos V with rfl | h
    · simp at hs
    · exact_mod_cast h
  have hone : ∑ w, sstats w / ∑ v, sstats v = 1 := by rw [← Finset.sum_div]; exact div_self hs.ne'
  have hu : ∑ _w : Fin V, (1 : ℝ) / V = 1 := by
    rw [Finset.sum_const, Finset.card_univ, Fintype.card_fin, nsmul_eq_mul]; field_simp
  have htwo : ∑ w, (sstats w / (∑ v, sstats v) + 1 / (V : ℝ)) = 2 := by
    rw [Finset.sum_add_distrib, hone, hu]; norm_num
  have key : ∀ w t, Real.exp ((countsInit ov cv T sstats).obs w t) = (sstats w / ∑ v, sstats v) / 2 + (1 / V) / 2 := by
    intro w t
    show Real.exp (Real.log ((sstats w / (∑ v, sstats v) + 1 / (V : ℝ)) / ∑ v, (sstats v / (∑ u, sstats u) + 1 / (V : ℝ)))) = _
    rw [htwo, Real.exp_log]
    · ring
    · have := h0 w
      positivity
  intro c t
  refine ⟨fun w => key w t, ?_⟩
  simp only [c, key]
  rw [Finset.sum_add_distrib, ← Finset.sum_div (f := fun w => sstats w / ∑ v, sstats v),
    ← Finset.sum_div (f := fun _ : Fin V => (1 : ℝ) / V), hone, hu]
  norm_num

/-! ### Queries -/

/-- **C99**.  A topic in a slice is a distribution over the words, and `print_topic` shows its `top_terms` most probable
words, most probable first, each with its probability. -/
theorem C99_print_topic (srt : List ℝ → List ℕ) (part : List ℝ → ℕ → List ℕ) (hs : Matutils.SortOk srt)
    (hp : Matutils.PartOk part) (c : Chain V) (time topn : ℕ) (hV : 0 < V) :
    (∀ w, 0 < topicDist c time w) ∧ ∑ w, topicDist c time w = 1 ∧
    (∀ e ∈ printTopic srt part c time topn, ∃ w : Fin V, e = (w.val, topicDist c time w)) ∧
    (printTopic srt part c time topn).length = min topn V ∧
    ((printTopic srt part c time topn).map Prod.fst).Nodup ∧
    (printTopic srt part c time topn).Pairwise (fun a b => b.2 ≤ a.2) ∧
    ∀ w : Fin V, w.val ∉ (printTopic srt part c time topn).map Prod.fst →
      ∀ e ∈ printTopic srt part c time topn, topicDist c time w ≤ e.2 := by
  haveI : Nonempty (Fin V) := ⟨⟨0, hV⟩⟩
  have hpos : 0 < ∑ v, Real.exp (c.eLogProb v time) := Finset.sum_pos (fun _ _ => Real.exp_pos _) Finset.univ_nonempty
  have hx : ∀ w : Fin V, ((List.finRange V).map (topicDist c time)).getD w 0 = topicDist c time w := by
    intro w
    rw [List.getD_eq_getElem _ _ (by simp)]
    simp
  have h := Matutils.argsort_reverse srt part hs hp ((List.finRange V).map (topicDist c time)) topn
  simp only [List.length_map, List.length_finRange, Int.toNat_natCast] at h
  refine ⟨fun w => div_pos (Real.exp_pos _) hpos, ?_, ?_, ?_, ?_, ?_, ?_⟩
  · simp only [topicDist, ← Finset.sum_div]; exact div_self hpos.ne'
  · intro e he
    obtain ⟨i, hi, rfl⟩ := List.mem_map.1 he
    exact ⟨⟨i, h.valid i hi⟩, by rw [← hx]⟩
  · simp only [printTopic, List.length_map]; exact h.length
  · simp only [printTopic, List.map_map, Function.comp_def, List.map_id']; exact h.nodup
  · simp only [printTopic, List.pairwise_map]; exact h.sorted
  · intro w hw e he
    obtain ⟨i, hi, rfl⟩ := List.mem_map.1 he
    have := h.top i hi w w.2 (by
      intro hm
      apply hw
      simp only [printTopic, List.map_map, Function.comp_def, List.map_id']; exact hm)
    rw [hx] at this
    exact this

theorem getItemLoop_last (sp : Special) (alpha : Fin (k + 1) → ℝ) (topicsAt : ℕ → Fin V → Fin (k + 1) → ℝ)
    (doc : Doc V) (ts : List ℕ) (t : ℕ) (buffer : ℕ → Fin (k + 1) → ℝ) (g : Fin (k + 1) → ℝ) :
    ∃ stale, getItemLoop sp alpha topicsAt doc (ts ++ [t]) buffer g =
      (fitDoc sp alpha (topicsAt t) doc stale 25).gamma := by
  induction ts generalizing buffer g with
  | nil => exact ⟨buffer, rfl⟩
  | cons u ts ih => simp only [List.cons_append, getItemLoop]; exact ih _ _

theorem normalize_distribution (gamma : Fin (k + 1) → ℝ) (h : ∀ j, 0 < gamma j) :
    (∀ j, 0 < normalize gamma j) ∧ ∑ j, normalize gamma j = 1 := by
  have hp : 0 < ∑ i, gamma i := Finset.sum_pos (fun i _ => h i) Finset.univ_nonempty
  refine ⟨fun j => div_pos (h j) hp, ?_⟩
  simp only [normalize, ← Finset.sum_div]
  exact div_self hp.ne'

/-- **C99** (with a finding).  `model[doc]` is a distribution over the topics; it is the one of the last slice
alone: the fits to the other slices are thrown away. -/
theorem C99_new_document (sp : Special) (alpha : Fin (k + 1) → ℝ) (ha : ∀ j, 0 < alpha j)
    (topicsAt : ℕ → Fin V → Fin (k + 1) → ℝ) (T : ℕ) (doc : Doc V) (hdoc : ∀ e ∈ doc, 0 ≤ e.2) :
    let r := getItem sp alpha topicsAt (T + 1) doc
    (∀ j, 0 < r j) ∧ ∑ j, r j = 1 ∧ ∃ stale, ∀ j, r j =
      (fitDoc sp alpha (topicsAt T) doc stale 25).gamma j / (∑ i, alpha i + (doc.map Prod.snd).sum) := by
  have hr : List.range (T + 1) = List.range T ++ [T] := List.range_succ
  obtain ⟨st, hst⟩ := getItemLoop_last sp alpha topicsAt doc (List.range T) T (fun _ _ => 0) fun _ => 0
  have hf := fitDoc_fitted sp alpha (topicsAt T) doc st 25
  simp only [getItem, hr, hst]
  obtain ⟨h1, h2⟩ := normalize_distribution (fitDoc sp alpha (topicsAt T) doc st 25).gamma
    fun j => lt_of_lt_of_le (ha j) (hf.ge hdoc j)
  refine ⟨h1, h2, st, fun j => ?_⟩
  simp only [normalize, hf.sum, tokens]

/-- **C99**.  The topics of every training document (`doc_topics`) are a distribution. -/
theorem C99_training_documents (sp : Special) (alpha : Fin (k + 1) → ℝ) (ha : ∀ j, 0 < alpha j)
    (topicsAt : ℕ → Fin V → Fin (k + 1) → ℝ) (ts : List ℕ) (hne : ts ≠ []) (hts : ∀ n ∈ ts, 0 < n) (maxIter c : ℕ)
    (hc : 0 < c) (corpus : List (Doc V)) (hcorpus : ∀ d ∈ corpus, ∀ e ∈ d, 0 ≤ e.2) (r : Infer k V)
    (hr : inferDTMseq sp alpha topicsAt ts maxIter c corpus = some r) (i : ℕ) (hi : i < corpus.length) :
    ∃ gamma, r.gammas[i]? = some gamma ∧ (∀ j, 0 < normalize gamma j) ∧ ∑ j, normalize gamma j = 1 := by
  have hlen : corpus.length ≤ ts.sum + 1 := by
    by_contra h
    rw [(C99_corpus_too_long sp alpha topicsAt ts hne hts maxIter c hc corpus).2 (by omega)] at hr
    simp at hr
  obtain ⟨r', e, -, h1, h2⟩ := C99_slices sp alpha topicsAt ts hne hts maxIter c hc corpus hlen
  rw [hr] at e
  obtain rfl := Option.some.inj e
  have hcover : ∀ (l : List ℕ) (i : ℕ), i < l.sum → ∃ t, InSlice l i t := by
    intro l
    induction l with
    | nil => intro i h; simp at h
    | cons a l ih =>
      intro i h
      by_cases hi : i < a
      · exact ⟨0, by simp, by simpa using hi⟩
      · obtain ⟨t, h1, h2⟩ := ih (i - a) (by simp at h; omega)
        exact ⟨t + 1, by simp; omega, by simp only [List.take_succ_cons, List.sum_cons] at *; omega⟩
  obtain ⟨a, l, rfl⟩ := List.exists_cons_of_ne_nil hne
  have ha0 := hts a (by simp)
  obtain ⟨t, ht⟩ := hcover (a :: l) (i - 1) (by simp only [List.sum_cons] at *; omega)
  obtain ⟨st, hg⟩ := h2 i hi t ht
  refine ⟨_, hg, normalize_distribution _ fun j => lt_of_lt_of_le (ha j) ((fitDoc_fitted ..).ge ?_ j)⟩
  exact hcorpus _ (List.getElem_mem hi)

/-- Two slices of two documents each: the third document is counted in the first slice. -/
example : InSlice [2, 2] 2 1 ∧ InSlice [2, 2] (2 - 1) 0 ∧ InSlice [2, 2] (3 - 1) 1 := by decide

/-- A corpus to which `C99_first_document_of_a_slice` applies. -/
example (sp : Special) (topicsAt : ℕ → Fin 2 → Fin 2 → ℝ) :
    ∃ r, inferDTMseq sp (fun _ => 1 / 100) topicsAt [1, 1] 25 100 [[(0, 3)], [(1, 2)]] = some r ∧
      ∑ j, r.ss j 1 0 = 2 ∧ ∑ j, r.ss j 1 1 = 0 := by
  refine (C99_first_document_of_a_slice sp _ topicsAt [1, 1] (by simp) 0 (by simp) 25 100 (by norm_num) _
    (by simp) 1 2 ?_).2
  intro i h
  simp only [List.length_cons, List.length_nil] at h
  rcases i with _ | _ | i
  · simp [occurrences]
  · simp [occurrences]
  · omega

end Verif.LdaSeq

import Verif.AuthorTopic.InferProps
import Verif.Lda.EmProps

/-!
# C166: the rounds of author-topic inference ascend
-/

namespace Verif.AuthorInfer

open Verif.Dirichlet Verif.LdaInfer Verif.LdaBound

variable {A T W : Type} [DecidableEq A] [Fintype T] [DecidableEq W]

/-! ## Specification -/

/-- the prior of an author's row in a step of size `rho`: between the row `g` before the document and `alpha` -/
noncomputable def blended (alpha : T → ℝ) (rho : ℝ) (g : T → ℝ) (k : T) : ℝ := (1 - rho) * g k + rho * alpha k

/-- the expected log likelihood of the words of a document whose authors have the given rows, with the constant
`eps` added to the weight of every word -/
noncomputable def words (beta : T → W → ℝ) (eps : ℝ) (doc : List (W × ℝ)) (rows : List (T → ℝ)) : ℝ :=
  (doc.map fun x => x.2 * Real.log
    ((rows.map fun r => ∑ k, Real.exp (psi (r k) - psi (∑ j, r j)) * beta k x.1).sum + eps)).sum

/-- what a document is worth: the expected log likelihood of its words, minus the divergence of the row of each of
its authors from the author's prior, which counts less the more documents the author has and the longer the step -/
noncomputable def worth (p : Par A T W) (rho : ℝ) (gamma : A → T → ℝ) (authors : List A) (doc : List (W × ℝ))
    (rows : List (T → ℝ)) : ℝ :=
  words p.lda.beta p.lda.eps doc rows
    - ((authors.zip rows).map fun x => kl x.2 (blended p.lda.alpha rho (gamma x.1)) / (rho * p.docs x.1)).sum

/-! ## Lemmas -/

theorem sum_ofFn_eq {n : ℕ} (f : Fin n → ℝ) : (List.ofFn f).sum = ∑ i, f i := List.sum_ofFn

theorem share_fin {n : ℕ} (p : Par A T W) (r : Fin n → T → ℝ) (s : T → ℝ) (k : T) (w : W) :
    share p (List.ofFn r) s k w = expElog s k * p.lda.beta k w /
      (∑ q : Fin n × T, expElog (r q.1) q.2 * p.lda.beta q.2 w + p.lda.eps) := by
  unfold share
  congr 2
  rw [Fintype.sum_prod_type, Finset.sum_comm]
  refine Finset.sum_congr rfl fun j _ => ?_
  rw [List.map_ofFn, List.sum_ofFn, Finset.sum_mul]
  rfl

theorem words_fin {n : ℕ} (beta : T → W → ℝ) (eps : ℝ) (doc : List (W × ℝ)) (r : Fin n → T → ℝ) :
    words beta eps doc (List.ofFn r) =
      (doc.map fun x => x.2 * Real.log (∑ q : Fin n × T, expElog (r q.1) q.2 * beta q.2 x.1 + eps)).sum := by
  unfold words
  congr 2
  funext x
  rw [Fintype.sum_prod_type, List.map_ofFn, List.sum_ofFn]
  rfl

theorem words_gain [Nonempty T] {n : ℕ} [Nonempty (Fin n)] (p : Par A T W) (hp : p.lda.Pos) (doc : List (W × ℝ))
    (hd : ∀ x ∈ doc, 0 ≤ x.2) (r r' : Fin n → T → ℝ) :
    words p.lda.beta p.lda.eps doc (List.ofFn r)
      + ∑ i, ∑ k, (doc.map fun x => x.2 * share p (List.ofFn r) (r i) k x.1).sum *
          (dirichletExpectation (r' i) k - dirichletExpectation (r i) k)
      ≤ words p.lda.beta p.lda.eps doc (List.ofFn r') := by
  rw [words_fin, words_fin]
  induction doc with
  | nil => simp
  | cons x doc ih =>
    have ih := ih fun y hy => hd y (by simp [hy])
    have hx := hd x (by simp)
    simp only [List.map_cons, List.sum_cons, add_mul, Finset.sum_add_distrib]
    have t := Verif.LdaEm.log_sum_tangent (T := Fin n × T) (fun q => expElog (r q.1) q.2 * p.lda.beta q.2 x.1)
      (fun q => dirichletExpectation (r' q.1) q.2 - dirichletExpectation (r q.1) q.2)
      (fun q => mul_pos (expElog_pos _ _) (hp.beta _ _)) p.lda.eps hp.eps
    have e1 : ∀ q : Fin n × T, expElog (r q.1) q.2 * p.lda.beta q.2 x.1 *
        Real.exp (dirichletExpectation (r' q.1) q.2 - dirichletExpectation (r q.1) q.2)
        = expElog (r' q.1) q.2 * p.lda.beta q.2 x.1 := by
      intro q
      rw [Real.exp_sub]
      unfold expElog
      field_simp
    simp only [e1] at t
    have e2 : ∑ i, ∑ k, x.2 * share p (List.ofFn r) (r i) k x.1 *
          (dirichletExpectation (r' i) k - dirichletExpectation (r i) k)
        = x.2 * ∑ q : Fin n × T, expElog (r q.1) q.2 * p.lda.beta q.2 x.1 /
          (∑ q : Fin n × T, expElog (r q.1) q.2 * p.lda.beta q.2 x.1 + p.lda.eps) *
          (dirichletExpectation (r' q.1) q.2 - dirichletExpectation (r q.1) q.2) := by
      rw [Fintype.sum_prod_type, Finset.mul_sum]
      refine Finset.sum_congr rfl fun i _ => ?_
      rw [Finset.mul_sum]
      refine Finset.sum_congr rfl fun k _ => ?_
      rw [share_fin]; ring
    rw [e2]
    have := mul_le_mul_of_nonneg_left t hx
    rw [mul_add] at this
    linarith

/-- the divergences: what a full step to `b + c S` gains -/
theorem kl_gain (r r' b S : T → ℝ) (c : ℝ) (hc : 0 < c) (h : ∀ k, r' k = b k + c * S k) :
    kl r' b / c + kl r r' / c = kl r b / c + ∑ k, S k * (dirichletExpectation r' k - dirichletExpectation r k) := by
  have e : ∑ k, S k * (dirichletExpectation r' k - dirichletExpectation r k)
      = (∑ k, (r' k - b k) * (dirichletExpectation r' k - dirichletExpectation r k)) / c := by
    rw [Finset.sum_div]
    refine Finset.sum_congr rfl fun k _ => ?_
    rw [h]; field_simp; ring
  rw [e, ← add_div, ← add_div]
  congr 1
  unfold kl dirichletExpectation
  simp only [mul_sub, sub_mul, Finset.sum_sub_distrib]
  ring

theorem zip_sum_ofFn {n : ℕ} (a : Fin n → A) (r : Fin n → T → ℝ) (f : A → (T → ℝ) → ℝ) :
    (((List.ofFn a).zip (List.ofFn r)).map fun x => f x.1 x.2).sum = ∑ i, f (a i) (r i) := by
  rw [← sum_ofFn_eq]
  congr 1
  apply List.ext_getElem
  · simp
  · intro i h1 h2
    simp

theorem round_ofFn {n : ℕ} (p : Par A T W) (rho : ℝ) (doc : List (W × ℝ)) (gamma : A → T → ℝ) (a : Fin n → A)
    (r : Fin n → T → ℝ) :
    round p rho doc ((List.ofFn a).map fun a => (a, gamma a)) (List.ofFn r)
      = List.ofFn fun i => stepped p rho doc (List.ofFn r) (p.docs (a i)) (gamma (a i)) (r i) := by
  unfold round
  apply List.ext_getElem
  · simp
  · intro i h1 h2
    simp [newRow_eq]

theorem worth_fin {n : ℕ} (p : Par A T W) (rho : ℝ) (gamma : A → T → ℝ) (a : Fin n → A) (doc : List (W × ℝ))
    (r : Fin n → T → ℝ) :
    worth p rho gamma (List.ofFn a) doc (List.ofFn r) = words p.lda.beta p.lda.eps doc (List.ofFn r)
      - ∑ i, kl (r i) (blended p.lda.alpha rho (gamma (a i))) / (rho * p.docs (a i)) := by
  unfold worth
  rw [zip_sum_ofFn a r fun a r => kl r (blended p.lda.alpha rho (gamma a)) / (rho * p.docs a)]

/-! ## C166 -/

/-- Every round makes the document worth more, by at least the divergences of the rows before the round from the
rows after it. -/
theorem C166_round [Nonempty T] (p : Par A T W) (hp : p.lda.Pos) (rho : ℝ) (h0 : 0 < rho)
    (gamma : A → T → ℝ) (authors : List A) (hne : authors ≠ [])
    (hdocs : ∀ a ∈ authors, 0 < p.docs a) (doc : List (W × ℝ)) (hd : ∀ x ∈ doc, 0 ≤ x.2) (rows : List (T → ℝ))
    (hl : rows.length = authors.length) :
    let new := round p rho doc (authors.map fun a => (a, gamma a)) rows
    worth p rho gamma authors doc rows
      + ((authors.zip (rows.zip new)).map fun x => kl x.2.1 x.2.2 / (rho * p.docs x.1)).sum
      ≤ worth p rho gamma authors doc new := by
  obtain ⟨n, a, rfl⟩ : ∃ n, ∃ a : Fin n → A, authors = List.ofFn a :=
    ⟨authors.length, authors.get, (List.ofFn_get authors).symm⟩
  obtain ⟨r, rfl⟩ : ∃ r : Fin n → T → ℝ, rows = List.ofFn r := by
    rw [List.length_ofFn] at hl
    subst hl
    exact ⟨rows.get, (List.ofFn_get rows).symm⟩
  intro new
  haveI : Nonempty (Fin n) := by
    rcases n with _ | n
    · simp at hne
    · exact ⟨0⟩
  set r' : Fin n → T → ℝ := fun i => stepped p rho doc (List.ofFn r) (p.docs (a i)) (gamma (a i)) (r i) with hr'
  have hnew : new = List.ofFn r' := round_ofFn p rho doc gamma a r
  rw [hnew, worth_fin, worth_fin]
  have hz : (((List.ofFn a).zip ((List.ofFn r).zip (List.ofFn r'))).map fun x => kl x.2.1 x.2.2 / (rho * p.docs x.1)).sum
      = ∑ i, kl (r i) (r' i) / (rho * p.docs (a i)) := by
    rw [← sum_ofFn_eq]
    congr 1
    apply List.ext_getElem
    · simp
    · intro i h1 h2
      simp
  rw [hz]
  have g := words_gain p hp doc hd r r'
  have hk : ∀ i, kl (r' i) (blended p.lda.alpha rho (gamma (a i))) / (rho * p.docs (a i))
      + kl (r i) (r' i) / (rho * p.docs (a i))
      = kl (r i) (blended p.lda.alpha rho (gamma (a i))) / (rho * p.docs (a i))
        + ∑ k, (doc.map fun x => x.2 * share p (List.ofFn r) (r i) k x.1).sum *
          (dirichletExpectation (r' i) k - dirichletExpectation (r i) k) := by
    intro i
    refine kl_gain _ _ _ _ _ (mul_pos h0 (Nat.cast_pos.2 (hdocs _ (List.mem_ofFn.2 ⟨i, rfl⟩)))) fun k => ?_
    simp only [hr', stepped, blended]
    ring
  have hs := Finset.sum_congr (rfl : (Finset.univ : Finset (Fin n)) = Finset.univ) fun i _ => hk i
  rw [Finset.sum_add_distrib, Finset.sum_add_distrib] at hs
  linarith

theorem rounds_worth [Nonempty T] (p : Par A T W) (hp : p.lda.Pos) (rho : ℝ) (h0 : 0 < rho) (h1 : rho ≤ 1)
    (gamma : A → T → ℝ) (hg : ∀ a k, 0 < gamma a k) (authors : List A) (hne : authors ≠ [])
    (hdocs : ∀ a ∈ authors, 0 < p.docs a) (doc : List (W × ℝ)) (hd : ∀ x ∈ doc, 0 ≤ x.2) (n : ℕ) :
    ∀ rows : List (T → ℝ), rows.length = authors.length → (∀ r ∈ rows, ∀ k, 0 < r k) →
      worth p rho gamma authors doc rows ≤
        worth p rho gamma authors doc (rounds p rho doc (authors.map fun a => (a, gamma a)) n rows) := by
  have hb : ∀ x ∈ authors.map (fun a => (a, gamma a)), ∀ k, 0 < x.2 k := by
    intro x hx
    obtain ⟨a, _, rfl⟩ := List.mem_map.1 hx
    exact hg a
  have one : ∀ rows : List (T → ℝ), rows.length = authors.length → (∀ r ∈ rows, ∀ k, 0 < r k) →
      worth p rho gamma authors doc rows ≤
        worth p rho gamma authors doc (round p rho doc (authors.map fun a => (a, gamma a)) rows) := by
    intro rows hl hr
    refine le_trans (le_add_of_nonneg_right ?_) (C166_round p hp rho h0 gamma authors hne hdocs doc hd rows hl)
    refine List.sum_nonneg fun v hv => ?_
    obtain ⟨⟨a, s, t⟩, hx, rfl⟩ := List.mem_map.1 hv
    have hst := List.of_mem_zip (List.of_mem_zip hx).2
    exact div_nonneg (kl_nonneg _ _ (hr _ hst.1) (round_pos hp h0.le h1 hd hb rows _ hst.2))
      (mul_nonneg h0.le (Nat.cast_nonneg _))
  induction n with
  | zero => intro rows _ _; exact le_rfl
  | succ n ih =>
    intro rows hl hr
    have hl' := round_length p rho doc (authors.map fun a => (a, gamma a)) rows (by simpa using hl)
    unfold rounds
    dsimp only
    split
    · exact one rows hl hr
    · exact (one rows hl hr).trans (ih _ (by simpa using hl') (round_pos hp h0.le h1 hd hb rows))

/-- Inference of a document never leaves it worth less than the rows of its authors made it before. -/
theorem C166_document [Nonempty T] (p : Par A T W) (hp : p.lda.Pos) (rho : ℝ) (h0 : 0 < rho) (h1 : rho ≤ 1)
    (gamma : A → T → ℝ) (hg : ∀ a k, 0 < gamma a k) (authors : List A) (hn : authors.Nodup) (hne : authors ≠ [])
    (hdocs : ∀ a ∈ authors, 0 < p.docs a) (doc : List (W × ℝ)) (hd : ∀ x ∈ doc, 0 ≤ x.2) :
    worth p rho gamma authors (counts doc) (authors.map gamma) ≤
      worth p rho gamma authors (counts doc)
        (authors.map (authorInference p rho gamma [(authors, doc)]).gamma) := by
  have hc : ∀ x ∈ counts doc, 0 ≤ x.2 := by
    intro x hx
    obtain ⟨y, hy, rfl⟩ := List.mem_map.1 hx
    exact trunc_nonneg (hd y hy)
  have e : authors.map (authorInference p rho gamma [(authors, doc)]).gamma = docRows p rho gamma (authors, doc) :=
    store_zip gamma authors hn _ (docRows_length p rho gamma (authors, doc))
  rw [e]
  refine rounds_worth p hp rho h0 h1 gamma hg authors hne hdocs _ hc _ _ (by simp) fun r hr => ?_
  obtain ⟨a, _, rfl⟩ := List.mem_map.1 hr
  exact hg a

/-- A round that does not make the document worth more has not moved any author: the row before has divergence 0 from
the row after. -/
theorem C166_fixed [Nonempty T] (p : Par A T W) (hp : p.lda.Pos) (rho : ℝ) (h0 : 0 < rho) (h1 : rho ≤ 1)
    (gamma : A → T → ℝ) (hg : ∀ a k, 0 < gamma a k) (authors : List A) (hne : authors ≠ [])
    (hdocs : ∀ a ∈ authors, 0 < p.docs a) (doc : List (W × ℝ)) (hd : ∀ x ∈ doc, 0 ≤ x.2) (rows : List (T → ℝ))
    (hl : rows.length = authors.length) (hr : ∀ r ∈ rows, ∀ k, 0 < r k)
    (hw : worth p rho gamma authors doc (round p rho doc (authors.map fun a => (a, gamma a)) rows)
      ≤ worth p rho gamma authors doc rows) :
    ∀ x ∈ rows.zip (round p rho doc (authors.map fun a => (a, gamma a)) rows), kl x.1 x.2 = 0 := by
  have h := C166_round p hp rho h0 gamma authors hne hdocs doc hd rows hl
  dsimp only at h
  have hb : ∀ x ∈ authors.map (fun a => (a, gamma a)), ∀ k, 0 < x.2 k := by
    intro x hx
    obtain ⟨a, _, rfl⟩ := List.mem_map.1 hx
    exact hg a
  set new := round p rho doc (authors.map fun a => (a, gamma a)) rows with hnew
  have hpos : ∀ v ∈ (authors.zip (rows.zip new)).map fun x => kl x.2.1 x.2.2 / (rho * p.docs x.1), 0 ≤ v := by
    intro v hv
    obtain ⟨⟨a, s, t⟩, hx, rfl⟩ := List.mem_map.1 hv
    have hst := List.of_mem_zip (List.of_mem_zip hx).2
    exact div_nonneg (kl_nonneg _ _ (hr _ hst.1) (round_pos hp h0.le h1 hd hb rows _ hst.2))
      (mul_nonneg h0.le (Nat.cast_nonneg _))
  have hz : ((authors.zip (rows.zip new)).map fun x => kl x.2.1 x.2.2 / (rho * p.docs x.1)).sum = 0 :=
    le_antisymm (by linarith) (List.sum_nonneg hpos)
  have hln : new.length = authors.length := by
    rw [hnew, round_length _ _ _ _ _ (by simpa using hl), List.length_map]
  intro x hx
  obtain ⟨i, hi, rfl⟩ := List.mem_iff_getElem.1 hx
  have hia : i < authors.length := by
    rw [List.length_zip, hl, hln, min_self] at hi; exact hi
  have hmem : (authors[i], (rows.zip new)[i]) ∈ authors.zip (rows.zip new) := by
    refine List.mem_iff_getElem.2 ⟨i, ?_, ?_⟩
    · rw [List.length_zip]; exact lt_min hia hi
    · rw [List.getElem_zip]
  have hv : kl (rows.zip new)[i].1 (rows.zip new)[i].2 / (rho * p.docs authors[i]) = 0 := by
    have hm := List.mem_map_of_mem (f := fun x : A × (T → ℝ) × (T → ℝ) => kl x.2.1 x.2.2 / (rho * p.docs x.1)) hmem
    exact le_antisymm (hz ▸ List.single_le_sum hpos _ hm) (hpos _ hm)
  have hc : rho * (p.docs authors[i] : ℝ) ≠ 0 :=
    (mul_pos h0 (Nat.cast_pos.2 (hdocs _ (List.getElem_mem hia)))).ne'
  exact (div_eq_zero_iff.1 hv).resolve_right hc

/-- A full step of one author with one document makes the document worth what it is worth in LDA. -/
theorem C166_lda (p : Par A T W) (gamma : A → T → ℝ) (a : A) (ha : p.docs a = 1) (doc : List (W × ℝ)) (r : T → ℝ)
    (lam : T → W → ℝ) [Fintype W] (hb : ∀ k w, p.lda.beta k w = Real.exp (psi (lam k w) - psi (∑ v, lam k v)))
    (he : p.lda.eps = 0) :
    worth p 1 gamma [a] doc [r] = docElbo p.lda.alpha lam doc r := by
  unfold worth words docElbo blended
  simp [ha, he, hb]

/-! ## The hypotheses are met -/

example : sample.lda.Pos ∧ (0 : ℝ) < 1 / 2 ∧ ([0, 1] : List (Fin 3)).Nodup ∧ (∀ a ∈ ([0, 1] : List (Fin 3)), 0 < sample.docs a) ∧
    ∀ x ∈ ([(0, 3), (1, 2)] : List (ℕ × ℝ)), 0 ≤ x.2 :=
  ⟨sample_pos, by norm_num, by decide, by simp [sample], by simp⟩

end Verif.AuthorInfer

import Verif.AuthorTopic.InferModel
import Verif.Lda.InferProps
import Mathlib.Data.List.Induction

/-!
# C158: what inference of the author-topic model computes
-/

namespace Verif.AuthorInfer

open Verif.Dirichlet Verif.LdaInfer

variable {A T W : Type} [DecidableEq A] [Fintype T] [DecidableEq W]

/-! ## Specification -/

/-- The probability that an occurrence of `w` comes from the author with row `r` and from topic `k`, among
    the authors with the given rows: proportional to `exp E[log θ_rk] · exp E[log β_kw]`. -/
noncomputable def share (p : Par A T W) (rows : List (T → ℝ)) (r : T → ℝ) (k : T) (w : W) : ℝ :=
  expElog r k * p.lda.beta k w / (∑ j, (rows.map fun s => expElog s j).sum * p.lda.beta j w + p.lda.eps)

/-- The row of an author with `n` documents after a step of size `rho` from row `g` towards the row that
    takes the document for all documents of the author. -/
noncomputable def stepped (p : Par A T W) (rho : ℝ) (doc : List (W × ℝ)) (rows : List (T → ℝ)) (n : ℕ)
    (g r : T → ℝ) (k : T) : ℝ :=
  (1 - rho) * g k + rho * (p.lda.alpha k + n * (doc.map fun x => x.2 * share p rows r k x.1).sum)

/-- One round: every author of the document steps, with the shares of the rows of this moment. -/
noncomputable def specRound (p : Par A T W) (rho : ℝ) (gamma : A → T → ℝ) (authors : List A) (doc : List (W × ℝ))
    (rows : List (T → ℝ)) : List (T → ℝ) :=
  List.zipWith (fun a r => stepped p rho doc rows (p.docs a) (gamma a) r) authors rows

/-- The mean absolute difference over authors and topics. -/
noncomputable def specChange (new old : List (T → ℝ)) : ℝ :=
  ((new.zip old).map fun x => ∑ k, |x.1 k - x.2 k|).sum / (new.length * Fintype.card T)

/-- `y` is `x` without its fraction (for `x` that is not negative). -/
def Whole (x y : ℝ) : Prop := (∃ n : ℤ, y = n) ∧ y ≤ x ∧ x < y + 1

/-! ## Lemmas -/

theorem newRow_eq (p : Par A T W) (rho : ℝ) (doc : List (W × ℝ)) (rows : List (T → ℝ)) (a : A) (g t : T → ℝ) :
    newRow p rho doc rows a g t = stepped p rho doc rows (p.docs a) g t := by
  funext k
  unfold newRow stepped
  rw [mul_assoc (p.docs a : ℝ), ← List.sum_map_mul_left]
  congr 7
  funext x
  unfold share authorNorm phinorm thetaSum
  ring

theorem round_length (p : Par A T W) (rho : ℝ) (doc : List (W × ℝ)) (before : List (A × (T → ℝ)))
    (rows : List (T → ℝ)) (h : rows.length = before.length) :
    (round p rho doc before rows).length = before.length := by
  unfold round; rw [List.length_zipWith, h, Nat.min_self]

theorem rounds_length (p : Par A T W) (rho : ℝ) (doc : List (W × ℝ)) (before : List (A × (T → ℝ))) (n : ℕ)
    (rows : List (T → ℝ)) (h : rows.length = before.length) :
    (rounds p rho doc before n rows).length = before.length := by
  induction n generalizing rows with
  | zero => exact h
  | succ n ih =>
    unfold rounds
    dsimp only
    split
    · exact round_length p rho doc before rows h
    · exact ih _ (round_length p rho doc before rows h)

theorem rounds_succ (p : Par A T W) (rho : ℝ) (doc : List (W × ℝ)) (before : List (A × (T → ℝ))) (n : ℕ)
    (hn : 0 < n) (rows : List (T → ℝ)) (h : rows.length = before.length) :
    ∃ last : List (T → ℝ), last.length = before.length ∧
      rounds p rho doc before n rows = round p rho doc before last := by
  induction n generalizing rows with
  | zero => omega
  | succ n ih =>
    unfold rounds
    dsimp only
    split
    · exact ⟨rows, h, rfl⟩
    · rcases Nat.eq_zero_or_pos n with rfl | hn'
      · exact ⟨rows, h, rfl⟩
      · exact ih hn' _ (round_length p rho doc before rows h)

theorem docRows_length (p : Par A T W) (rho : ℝ) (gamma : A → T → ℝ) (d : List A × List (W × ℝ)) :
    (docRows p rho gamma d).length = d.1.length := by
  unfold docRows
  rw [rounds_length] <;> simp

theorem share_den_nonneg {p : Par A T W} (hp : p.lda.Pos) (rows : List (T → ℝ)) (w : W) :
    0 ≤ ∑ j, (rows.map fun s => expElog s j).sum * p.lda.beta j w := by
  refine Finset.sum_nonneg fun j _ => mul_nonneg (List.sum_nonneg ?_) (hp.beta j w).le
  intro x hx
  obtain ⟨s, _, rfl⟩ := List.mem_map.1 hx
  exact (expElog_pos s j).le

theorem share_den_pos [Nonempty T] {p : Par A T W} (hp : p.lda.Pos) (rows : List (T → ℝ)) (hr : rows ≠ []) (w : W) :
    0 < ∑ j, (rows.map fun s => expElog s j).sum * p.lda.beta j w := by
  refine Finset.sum_pos (fun j _ => mul_pos ?_ (hp.beta j w)) Finset.univ_nonempty
  refine List.sum_pos _ ?_ (by simpa using hr)
  intro x hx
  obtain ⟨s, _, rfl⟩ := List.mem_map.1 hx
  exact expElog_pos s j

theorem share_nonneg {p : Par A T W} (hp : p.lda.Pos) (rows : List (T → ℝ)) (r : T → ℝ) (k : T) (w : W) :
    0 ≤ share p rows r k w :=
  div_nonneg (mul_nonneg (expElog_pos r k).le (hp.beta k w).le)
    (add_nonneg (share_den_nonneg hp rows w) hp.eps)

theorem sum_share (p : Par A T W) (rows : List (T → ℝ)) (w : W) :
    ∑ k, (rows.map fun r => share p rows r k w).sum
      = (∑ j, (rows.map fun s => expElog s j).sum * p.lda.beta j w) /
        (∑ j, (rows.map fun s => expElog s j).sum * p.lda.beta j w + p.lda.eps) := by
  rw [Finset.sum_div]
  refine Finset.sum_congr rfl fun k _ => ?_
  simp only [share]
  rw [← List.sum_map_mul_right, div_eq_mul_inv, ← List.sum_map_mul_right]
  simp only [div_eq_mul_inv]

/-! ## C158 -/

/-- Every round splits every occurrence of every word among the authors and topics of the document: the
    shares are not negative and add up to 1 (up to the constant that keeps the divisor off 0). -/
theorem C158_shares [Nonempty T] (p : Par A T W) (hp : p.lda.Pos) (rows : List (T → ℝ)) (w : W) :
    (∀ r k, 0 ≤ share p rows r k w) ∧
    ∑ k, (rows.map fun r => share p rows r k w).sum ≤ 1 ∧
    (p.lda.eps = 0 → rows ≠ [] → ∑ k, (rows.map fun r => share p rows r k w).sum = 1) := by
  refine ⟨fun r k => share_nonneg hp rows r k w, ?_, fun he hr => ?_⟩
  · rw [sum_share]
    have := hp.eps
    exact div_le_one_of_le₀ (by linarith) (add_nonneg (share_den_nonneg hp rows w) this)
  · rw [sum_share, he, add_zero]
    exact div_self (share_den_pos hp rows hr w).ne'

theorem rows_after (p : Par A T W) (rho : ℝ) (gamma : A → T → ℝ) (authors : List A) (doc : List (W × ℝ))
    (hi : 0 < p.lda.iterations) :
    ∃ last : List (T → ℝ), last.length = authors.length ∧
      docRows p rho gamma (authors, doc) = List.zipWith
        (fun a r => stepped p rho (counts doc) last (p.docs a) (gamma a) r) authors last := by
  obtain ⟨last, hl, h⟩ := rounds_succ p rho (counts doc) (authors.map fun a => (a, gamma a)) p.lda.iterations hi
    (authors.map gamma) (by simp)
  refine ⟨last, by simpa using hl, ?_⟩
  unfold docRows
  rw [h]
  unfold round
  simp only [newRow_eq, List.zipWith_map_left]

theorem store_of_not_mem (gamma : A → T → ℝ) (rows : List (A × (T → ℝ))) (a : A)
    (h : a ∉ rows.map Prod.fst) : store gamma rows a = gamma a := by
  unfold store
  induction rows generalizing gamma with
  | nil => rfl
  | cons x xs ih =>
    rw [List.map_cons, List.mem_cons, not_or] at h
    rw [List.foldl_cons, ih _ h.2, Function.update_of_ne h.1]

theorem store_congr (gamma gamma' : A → T → ℝ) (rows : List (A × (T → ℝ))) (a : A)
    (h : a ∈ rows.map Prod.fst) : store gamma rows a = store gamma' rows a := by
  induction rows generalizing gamma gamma' with
  | nil => cases h
  | cons x xs ih =>
    by_cases hx : a ∈ xs.map Prod.fst
    · exact ih (Function.update gamma x.1 x.2) (Function.update gamma' x.1 x.2) hx
    · have e : a = x.1 := by
        rw [List.map_cons, List.mem_cons] at h
        exact h.resolve_right hx
      change store (Function.update gamma x.1 x.2) xs a = store (Function.update gamma' x.1 x.2) xs a
      rw [store_of_not_mem _ _ _ hx, store_of_not_mem _ _ _ hx, e]
      simp

theorem store_mem (gamma : A → T → ℝ) (rows : List (A × (T → ℝ))) (a : A)
    (h : a ∈ rows.map Prod.fst) : (a, store gamma rows a) ∈ rows := by
  induction rows generalizing gamma with
  | nil => cases h
  | cons x xs ih =>
    by_cases hx : a ∈ xs.map Prod.fst
    · exact List.mem_cons_of_mem _ (ih (Function.update gamma x.1 x.2) hx)
    · have e : a = x.1 := by
        rw [List.map_cons, List.mem_cons] at h
        exact h.resolve_right hx
      change (a, store (Function.update gamma x.1 x.2) xs a) ∈ x :: xs
      rw [store_of_not_mem _ _ _ hx, e, Function.update_self]
      exact List.mem_cons_self

theorem zip_keys (l : List A) (rows : List (T → ℝ)) (h : rows.length = l.length) :
    (l.zip rows).map Prod.fst = l := by
  rw [List.map_fst_zip]; omega

theorem trunc_nonneg {x : ℝ} (h : 0 ≤ x) : 0 ≤ trunc x := by
  unfold trunc
  rw [if_pos h]
  exact_mod_cast Int.floor_nonneg.2 h

theorem trunc_le {x : ℝ} (h : 0 ≤ x) : trunc x ≤ x := by
  unfold trunc
  rw [if_pos h]
  exact Int.floor_le x

/-- Counts are used without their fractions, in the order of the document. -/
theorem C158_counts (doc : List (W × ℝ)) (hd : ∀ x ∈ doc, 0 ≤ x.2) :
    List.Forall₂ (fun x y => x.1 = y.1 ∧ Whole x.2 y.2) doc (counts doc) := by
  unfold counts
  rw [List.forall₂_map_right_iff, List.forall₂_same]
  intro x hx
  refine ⟨rfl, ⟨⌊x.2⌋, ?_⟩, trunc_le (hd x hx), ?_⟩
  · simp [trunc, hd x hx]
  · simp only [trunc, if_pos (hd x hx)]
    exact Int.lt_floor_add_one x.2

theorem store_zip (gamma : A → T → ℝ) (l : List A) (hn : l.Nodup) (rows : List (T → ℝ)) (h : rows.length = l.length) :
    l.map (store gamma (l.zip rows)) = rows := by
  induction l generalizing gamma rows with
  | nil => cases rows with
    | nil => rfl
    | cons => cases h
  | cons a l ih =>
    cases rows with
    | nil => cases h
    | cons r rows =>
      rw [List.nodup_cons] at hn
      have h' : rows.length = l.length := by simpa using h
      rw [List.zip_cons_cons, List.map_cons]
      change store (Function.update gamma a r) (l.zip rows) a :: l.map (store (Function.update gamma a r) (l.zip rows)) = _
      rw [ih _ hn.2 _ h', store_of_not_mem _ _ _ (by rw [zip_keys _ _ h']; exact hn.1), Function.update_self]

theorem zipWith_sum (f : (T → ℝ) → (T → ℝ) → ℝ) (a b : List (T → ℝ)) :
    (List.zipWith f a b).sum = ((a.zip b).map fun x => f x.1 x.2).sum := by
  rw [← List.map_uncurry_zip_eq_zipWith]; rfl

/-- The rows of the authors of a document after it: rounds from the rows before, until the mean change is below
    the threshold or `iterations` rounds were made; and `gamma_chunk` has the same rows. -/
theorem C158_rows (p : Par A T W) (rho : ℝ) (gamma : A → T → ℝ) (authors : List A) (hn : authors.Nodup)
    (doc : List (W × ℝ)) :
    let R : ℕ → List (T → ℝ) := fun n => (specRound p rho gamma authors (counts doc))^[n] (authors.map gamma)
    ∃ n ≤ p.lda.iterations,
      authors.map (authorInference p rho gamma [(authors, doc)]).gamma = R n ∧
      (authorInference p rho gamma [(authors, doc)]).chunk = R n ∧
      (∀ m, m + 1 < n → p.lda.threshold ≤ specChange (R (m + 1)) (R m)) ∧
      (n < p.lda.iterations → 0 < n ∧ specChange (R n) (R (n - 1)) < p.lda.threshold) := by
  intro R
  have hround : ∀ rows, round p rho (counts doc) (authors.map fun a => (a, gamma a)) rows
      = specRound p rho gamma authors (counts doc) rows := by
    intro rows
    unfold round specRound
    simp only [newRow_eq, List.zipWith_map_left]
  have hch : ∀ a b : List (T → ℝ), rowsChange a b = specChange a b := by
    intro a b; unfold rowsChange specChange; rw [zipWith_sum]
  have main : ∀ (fuel start : ℕ), ∃ n ≤ fuel,
      rounds p rho (counts doc) (authors.map fun a => (a, gamma a)) fuel (R start) = R (start + n) ∧
      (∀ m, m + 1 < n → p.lda.threshold ≤ specChange (R (start + m + 1)) (R (start + m))) ∧
      (n < fuel → 0 < n ∧ specChange (R (start + n)) (R (start + n - 1)) < p.lda.threshold) := by
    intro fuel
    induction fuel with
    | zero => intro start; exact ⟨0, le_refl _, rfl, fun m hm => by omega, fun h => by omega⟩
    | succ fuel ih =>
      intro start
      have hstep : round p rho (counts doc) (authors.map fun a => (a, gamma a)) (R start) = R (start + 1) := by
        rw [hround]; exact (Function.iterate_succ_apply' _ _ _).symm
      unfold rounds
      simp only [hstep, hch]
      split
      · rename_i hlt
        exact ⟨1, by omega, rfl, fun m hm => by omega, fun _ => ⟨by omega, hlt⟩⟩
      · rename_i hge
        obtain ⟨n, hn1, hn2, hn3, hn4⟩ := ih (start + 1)
        refine ⟨n + 1, by omega, by rw [hn2]; congr 1; omega, fun m hm => ?_, fun hlt => ?_⟩
        · cases m with
          | zero => exact not_lt.1 hge
          | succ m =>
            have := hn3 m (by omega)
            rwa [show start + 1 + m + 1 = start + (m + 1) + 1 by omega,
              show start + 1 + m = start + (m + 1) by omega] at this
        · obtain ⟨h1, h2⟩ := hn4 (by omega)
          refine ⟨by omega, ?_⟩
          rwa [show start + 1 + n = start + (n + 1) by omega] at h2
  obtain ⟨n, h1, h2, h3, h4⟩ := main p.lda.iterations 0
  simp only [Nat.zero_add] at h2 h3 h4
  have hrows : docRows p rho gamma (authors, doc) = R n := h2
  refine ⟨n, h1, ?_, ?_, h3, h4⟩
  · rw [← hrows]
    exact store_zip gamma authors hn _ (docRows_length p rho gamma (authors, doc))
  · rw [← hrows]
    rfl

theorem fold_start (p : Par A T W) (rho : ℝ) (l : List (List A × List (W × ℝ))) (r : Run A T W) (g : A → T → ℝ)
    (hg : r.gamma = g) :
    (l.foldl (docBody p rho) r).gamma = (l.foldl (docBody p rho) ⟨g, [], fun _ _ => 0⟩).gamma ∧
    (l.foldl (docBody p rho) r).chunk = r.chunk ++ (l.foldl (docBody p rho) ⟨g, [], fun _ _ => 0⟩).chunk ∧
    ∀ k w, (l.foldl (docBody p rho) r).sstats k w
      = r.sstats k w + (l.foldl (docBody p rho) ⟨g, [], fun _ _ => 0⟩).sstats k w := by
  subst hg
  induction l using List.reverseRecOn with
  | nil => simp
  | append_singleton l d ih =>
    simp only [List.foldl_append, List.foldl_cons, List.foldl_nil]
    revert ih
    generalize l.foldl (docBody p rho) r = x
    generalize l.foldl (docBody p rho) ⟨r.gamma, [], fun _ _ => 0⟩ = y
    rintro ⟨i1, i2, i3⟩
    unfold docBody
    dsimp only
    rw [i1]
    refine ⟨rfl, by rw [i2, List.append_assoc], fun k w => ?_⟩
    simp only [addStats_eq, i3, add_assoc]

/-- Documents are handled one after the other: each starts from the gammas the earlier ones left, and
    statistics add up. -/
theorem C158_sequential (p : Par A T W) (rho : ℝ) (gamma : A → T → ℝ) (c₁ c₂ : List (List A × List (W × ℝ))) :
    (authorInference p rho gamma (c₁ ++ c₂)).gamma
      = (authorInference p rho (authorInference p rho gamma c₁).gamma c₂).gamma ∧
    (authorInference p rho gamma (c₁ ++ c₂)).chunk = (authorInference p rho gamma c₁).chunk
      ++ (authorInference p rho (authorInference p rho gamma c₁).gamma c₂).chunk ∧
    ∀ k w, (authorInference p rho gamma (c₁ ++ c₂)).sstats k w = (authorInference p rho gamma c₁).sstats k w
      + (authorInference p rho (authorInference p rho gamma c₁).gamma c₂).sstats k w := by
  obtain ⟨h1, h2, h3⟩ := fold_start p rho c₂ (c₁.foldl (docBody p rho) ⟨gamma, [], fun _ _ => 0⟩) _ rfl
  unfold authorInference
  simp only [List.foldl_append]
  exact ⟨h1, h2, fun k w => by rw [h3, add_mul]⟩

theorem round_pos [Nonempty T] {p : Par A T W} (hp : p.lda.Pos) {rho : ℝ} (h0 : 0 ≤ rho) (h1 : rho ≤ 1)
    {doc : List (W × ℝ)} (hd : ∀ x ∈ doc, 0 ≤ x.2) {before : List (A × (T → ℝ))}
    (hb : ∀ x ∈ before, ∀ k, 0 < x.2 k) (rows : List (T → ℝ)) :
    ∀ r ∈ round p rho doc before rows, ∀ k, 0 < r k := by
  intro r hr k
  unfold round at hr
  rw [← List.map_uncurry_zip_eq_zipWith] at hr
  obtain ⟨⟨x, t⟩, hx, rfl⟩ := List.mem_map.1 hr
  have hx' := (List.of_mem_zip hx).1
  simp only [Function.uncurry_apply_pair, newRow_eq]
  unfold stepped
  have hg := hb x hx' k
  have hs : 0 ≤ (doc.map fun y => y.2 * share p rows t k y.1).sum := by
    refine List.sum_nonneg fun v hv => ?_
    obtain ⟨y, hy, rfl⟩ := List.mem_map.1 hv
    exact mul_nonneg (hd y hy) (share_nonneg hp rows t k y.1)
  have hpos : 0 < p.lda.alpha k + p.docs x.1 * (doc.map fun y => y.2 * share p rows t k y.1).sum :=
    add_pos_of_pos_of_nonneg (hp.alpha k) (mul_nonneg (Nat.cast_nonneg _) hs)
  rcases eq_or_lt_of_le h1 with rfl | h1
  · simpa using hpos
  · exact add_pos_of_pos_of_nonneg (mul_pos (by linarith) hg) (mul_nonneg h0 hpos.le)

theorem docRows_pos [Nonempty T] {p : Par A T W} (hp : p.lda.Pos) {rho : ℝ} (h0 : 0 ≤ rho) (h1 : rho ≤ 1)
    {gamma : A → T → ℝ} (hg : ∀ a k, 0 < gamma a k) {d : List A × List (W × ℝ)} (hd : ∀ x ∈ d.2, 0 ≤ x.2) :
    ∀ r ∈ docRows p rho gamma d, ∀ k, 0 < r k := by
  have hc : ∀ x ∈ counts d.2, 0 ≤ x.2 := by
    intro x hx
    obtain ⟨y, hy, rfl⟩ := List.mem_map.1 hx
    exact trunc_nonneg (hd y hy)
  have hb : ∀ x ∈ d.1.map (fun a => (a, gamma a)), ∀ k, 0 < x.2 k := by
    intro x hx
    obtain ⟨a, _, rfl⟩ := List.mem_map.1 hx
    exact hg a
  rcases Nat.eq_zero_or_pos p.lda.iterations with h | h
  · unfold docRows
    rw [h]
    intro r hr
    obtain ⟨a, _, rfl⟩ := List.mem_map.1 hr
    exact hg a
  · unfold docRows
    obtain ⟨last, _, e⟩ := rounds_succ p rho (counts d.2) (d.1.map fun a => (a, gamma a)) p.lda.iterations h
      (d.1.map gamma) (by simp)
    rw [e]
    exact round_pos hp h0 h1 hc hb last

theorem fold_gamma [Nonempty T] {p : Par A T W} (hp : p.lda.Pos) {rho : ℝ} (h0 : 0 ≤ rho) (h1 : rho ≤ 1)
    (chunk : List (List A × List (W × ℝ))) (hd : ∀ d ∈ chunk, ∀ x ∈ d.2, 0 ≤ x.2)
    (r : Run A T W) (hg : ∀ a k, 0 < r.gamma a k) :
    ∀ a k, 0 < (chunk.foldl (docBody p rho) r).gamma a k := by
  induction chunk generalizing r with
  | nil => exact hg
  | cons d ds ih =>
    rw [List.foldl_cons]
    refine ih (fun d' h' => hd d' (List.mem_cons_of_mem _ h')) _ fun a k => ?_
    change 0 < store r.gamma (d.1.zip (docRows p rho r.gamma d)) a k
    by_cases ha : a ∈ (d.1.zip (docRows p rho r.gamma d)).map Prod.fst
    · have := store_mem r.gamma _ a ha
      exact docRows_pos hp h0 h1 hg (hd d List.mem_cons_self) _ (List.of_mem_zip this).2 k
    · rw [store_of_not_mem _ _ _ ha]
      exact hg a k

/-- Whatever the documents and their authors, the gammas stay positive, and authors of none of the documents
    keep theirs. -/
theorem C158_gamma [Nonempty T] (p : Par A T W) (hp : p.lda.Pos) (rho : ℝ) (h0 : 0 ≤ rho) (h1 : rho ≤ 1)
    (gamma : A → T → ℝ) (hg : ∀ a k, 0 < gamma a k) (chunk : List (List A × List (W × ℝ)))
    (hd : ∀ d ∈ chunk, ∀ x ∈ d.2, 0 ≤ x.2) :
    (∀ a k, 0 < (authorInference p rho gamma chunk).gamma a k) ∧
    (∀ a, (∀ d ∈ chunk, a ∉ d.1) → (authorInference p rho gamma chunk).gamma a = gamma a) := by
  refine ⟨fold_gamma hp h0 h1 chunk hd _ hg, fun a ha => ?_⟩
  change (chunk.foldl (docBody p rho) ⟨gamma, [], fun _ _ => 0⟩).gamma a = gamma a
  have : ∀ r : Run A T W, (chunk.foldl (docBody p rho) r).gamma a = r.gamma a := by
    clear hd
    induction chunk with
    | nil => intro r; rfl
    | cons d ds ih =>
      intro r
      rw [List.foldl_cons, ih (fun d' h' => ha d' (List.mem_cons_of_mem _ h'))]
      change store r.gamma (d.1.zip (docRows p rho r.gamma d)) a = r.gamma a
      refine store_of_not_mem _ _ _ ?_
      rw [zip_keys _ _ (docRows_length ..)]
      exact ha d List.mem_cons_self
  exact this _

/-! ## Statistics -/

theorem lastCount_nonneg {doc : List (W × ℝ)} (hd : ∀ x ∈ doc, 0 ≤ x.2) (w : W) : 0 ≤ lastCount doc w := by
  unfold lastCount
  cases h : ((doc.filter fun x => x.1 = w).map Prod.snd).getLast? with
  | none => exact le_refl _
  | some v =>
    obtain ⟨x, hx, rfl⟩ := List.mem_map.1 (List.mem_of_mem_getLast? h)
    exact hd x (List.mem_filter.1 hx).1

/-- The statistics of a document, per topic and word. -/
noncomputable def docStats (p : Par A T W) (rho : ℝ) (gamma : A → T → ℝ) (d : List A × List (W × ℝ)) (k : T) (w : W) : ℝ :=
  lastCount (counts d.2) w *
    ((docRows p rho gamma d).map fun r => share p (docRows p rho gamma d) r k w).sum

theorem docBody_stats (p : Par A T W) (rho : ℝ) (r : Run A T W) (d : List A × List (W × ℝ)) (k : T) (w : W) :
    (docBody p rho r d).sstats k w * p.lda.beta k w
      = r.sstats k w * p.lda.beta k w + docStats p rho r.gamma d k w := by
  unfold docBody docStats
  dsimp only
  rw [addStats_eq, add_mul, mul_assoc]
  congr 2
  unfold share thetaSum phinorm
  rw [div_mul_eq_mul_div, ← List.sum_map_mul_right, div_eq_mul_inv, ← List.sum_map_mul_right]
  simp only [div_eq_mul_inv]

/-- The statistics of a document: the count of the word times the shares of the topic among the final rows of
    the authors. -/
theorem C158_document_statistics (p : Par A T W) (rho : ℝ) (gamma : A → T → ℝ) (d : List A × List (W × ℝ))
    (k : T) (w : W) :
    (authorInference p rho gamma [d]).sstats k w = lastCount (counts d.2) w *
      ((authorInference p rho gamma [d]).chunk.map fun r =>
        share p (authorInference p rho gamma [d]).chunk r k w).sum := by
  change (docBody p rho ⟨gamma, [], fun _ _ => 0⟩ d).sstats k w * p.lda.beta k w = _
  rw [docBody_stats, zero_mul, zero_add]
  rfl

/-- The statistics of a word add up, over the topics, to at most the (whole) count of the word, and to
    exactly that if every document has an author and the constant in the divisor is 0; they are not
    negative. -/
theorem C158_statistics [Nonempty T] (p : Par A T W) (hp : p.lda.Pos) (rho : ℝ) (gamma : A → T → ℝ)
    (chunk : List (List A × List (W × ℝ))) (hd : ∀ d ∈ chunk, ∀ x ∈ d.2, 0 ≤ x.2) (w : W) :
    (∀ k, 0 ≤ (authorInference p rho gamma chunk).sstats k w) ∧
    ∑ k, (authorInference p rho gamma chunk).sstats k w ≤ (chunk.map fun d => lastCount (counts d.2) w).sum ∧
    (p.lda.eps = 0 → (∀ d ∈ chunk, d.1 ≠ []) →
      ∑ k, (authorInference p rho gamma chunk).sstats k w = (chunk.map fun d => lastCount (counts d.2) w).sum) := by
  have hc : ∀ d ∈ chunk, 0 ≤ lastCount (counts d.2) w := by
    intro d hdc
    refine lastCount_nonneg (fun x hx => ?_) w
    obtain ⟨y, hy, rfl⟩ := List.mem_map.1 hx
    exact trunc_nonneg (hd d hdc y hy)
  clear hd
  have main : ∀ r : Run A T W, (∀ k, 0 ≤ r.sstats k w * p.lda.beta k w) →
      (∀ k, 0 ≤ (chunk.foldl (docBody p rho) r).sstats k w * p.lda.beta k w) ∧
      ∑ k, (chunk.foldl (docBody p rho) r).sstats k w * p.lda.beta k w
        ≤ ∑ k, r.sstats k w * p.lda.beta k w + (chunk.map fun d => lastCount (counts d.2) w).sum ∧
      (p.lda.eps = 0 → (∀ d ∈ chunk, d.1 ≠ []) →
        ∑ k, (chunk.foldl (docBody p rho) r).sstats k w * p.lda.beta k w
          = ∑ k, r.sstats k w * p.lda.beta k w + (chunk.map fun d => lastCount (counts d.2) w).sum) := by
    induction chunk with
    | nil => intro r hr; simp [hr]
    | cons d ds ih =>
      intro r hr
      have hcd := hc d List.mem_cons_self
      obtain ⟨s1, s2, s3⟩ := C158_shares p hp (docRows p rho r.gamma d) w
      have hs : ∀ k, 0 ≤ docStats p rho r.gamma d k w := fun k => by
        refine mul_nonneg hcd (List.sum_nonneg fun x hx => ?_)
        obtain ⟨y, _, rfl⟩ := List.mem_map.1 hx
        exact s1 y k
      have hsum : ∑ k, docStats p rho r.gamma d k w = lastCount (counts d.2) w *
          ∑ k, ((docRows p rho r.gamma d).map fun x => share p (docRows p rho r.gamma d) x k w).sum := by
        unfold docStats; rw [Finset.mul_sum]
      obtain ⟨i1, i2, i3⟩ := ih (fun d' h' => hc d' (List.mem_cons_of_mem _ h')) (docBody p rho r d)
        (fun k => by rw [docBody_stats]; exact add_nonneg (hr k) (hs k))
      rw [List.foldl_cons]
      refine ⟨i1, ?_, fun he ha => ?_⟩
      · refine i2.trans ?_
        simp only [docBody_stats, Finset.sum_add_distrib, List.map_cons, List.sum_cons, hsum]
        have := mul_le_of_le_one_right hcd s2
        linarith
      · rw [i3 he (fun d' h' => ha d' (List.mem_cons_of_mem _ h'))]
        simp only [docBody_stats, Finset.sum_add_distrib, List.map_cons, List.sum_cons, hsum]
        have hne : docRows p rho r.gamma d ≠ [] := by
          intro h
          have := docRows_length p rho r.gamma d
          rw [h] at this
          exact ha d List.mem_cons_self (List.length_eq_zero_iff.1 this.symm)
        rw [s3 he hne]
        ring
  have := main ⟨gamma, [], fun _ _ => 0⟩ (fun k => by simp)
  simpa [authorInference] using this

/-! ## Documents without common authors -/

theorem docRows_congr (p : Par A T W) (rho : ℝ) (g g' : A → T → ℝ) (d : List A × List (W × ℝ))
    (h : ∀ a ∈ d.1, g a = g' a) : docRows p rho g d = docRows p rho g' d := by
  unfold docRows
  have h1 : d.1.map g = d.1.map g' := List.map_congr_left h
  have h2 : d.1.map (fun a => (a, g a)) = d.1.map (fun a => (a, g' a)) :=
    List.map_congr_left fun a ha => by rw [h a ha]
  rw [h1, h2]

/-- Same gammas and statistics, the rows in some other order. -/
def Same (r r' : Run A T W) : Prop := r.gamma = r'.gamma ∧ r.sstats = r'.sstats ∧ r.chunk.Perm r'.chunk

theorem Same.docBody {p : Par A T W} {rho : ℝ} {r r' : Run A T W} (h : Same r r') (d : List A × List (W × ℝ)) :
    Same (docBody p rho r d) (docBody p rho r' d) := by
  obtain ⟨h1, h2, h3⟩ := h
  unfold AuthorInfer.docBody
  refine ⟨?_, ?_, ?_⟩ <;> dsimp only <;> rw [h1]
  · rw [h2]
  · exact h3.append_right _

theorem Same.fold {p : Par A T W} {rho : ℝ} (l : List (List A × List (W × ℝ))) {r r' : Run A T W} (h : Same r r') :
    Same (l.foldl (AuthorInfer.docBody p rho) r) (l.foldl (AuthorInfer.docBody p rho) r') := by
  induction l generalizing r r' with
  | nil => exact h
  | cons d ds ih => exact ih (h.docBody d)

theorem swap_same (p : Par A T W) (rho : ℝ) (r : Run A T W) (d e : List A × List (W × ℝ))
    (h : ∀ a ∈ d.1, a ∉ e.1) :
    Same (docBody p rho (docBody p rho r d) e) (docBody p rho (docBody p rho r e) d) := by
  have hd : docRows p rho (docBody p rho r e).gamma d = docRows p rho r.gamma d := by
    refine docRows_congr _ _ _ _ _ fun a ha => ?_
    refine store_of_not_mem _ _ _ ?_
    rw [zip_keys _ _ (docRows_length ..)]
    exact h a ha
  have he : docRows p rho (docBody p rho r d).gamma e = docRows p rho r.gamma e := by
    refine docRows_congr _ _ _ _ _ fun a ha => ?_
    refine store_of_not_mem _ _ _ ?_
    rw [zip_keys _ _ (docRows_length ..)]
    exact fun h' => h a h' ha
  have kd := zip_keys d.1 _ (docRows_length p rho r.gamma d)
  have ke := zip_keys e.1 _ (docRows_length p rho r.gamma e)
  refine ⟨?_, ?_, ?_⟩
  · change store (docBody p rho r d).gamma (e.1.zip (docRows p rho (docBody p rho r d).gamma e))
      = store (docBody p rho r e).gamma (d.1.zip (docRows p rho (docBody p rho r e).gamma d))
    rw [hd, he]
    change store (store r.gamma (d.1.zip (docRows p rho r.gamma d))) (e.1.zip (docRows p rho r.gamma e))
      = store (store r.gamma (e.1.zip (docRows p rho r.gamma e))) (d.1.zip (docRows p rho r.gamma d))
    funext a
    by_cases h1 : a ∈ d.1
    · have h2 := h a h1
      rw [store_of_not_mem _ _ a (by rw [ke]; exact h2)]
      exact store_congr _ _ _ _ (by rw [kd]; exact h1)
    · rw [store_of_not_mem _ (d.1.zip _) a (by rw [kd]; exact h1)]
      by_cases h2 : a ∈ e.1
      · exact store_congr _ _ _ _ (by rw [ke]; exact h2)
      · rw [store_of_not_mem _ (e.1.zip _) a (by rw [ke]; exact h2), store_of_not_mem _ (e.1.zip _) a (by rw [ke]; exact h2),
          store_of_not_mem _ (d.1.zip _) a (by rw [kd]; exact h1)]
  · change addStats p.lda (counts e.2) (thetaSum (docRows p rho (docBody p rho r d).gamma e))
        (addStats p.lda (counts d.2) (thetaSum (docRows p rho r.gamma d)) r.sstats)
      = addStats p.lda (counts d.2) (thetaSum (docRows p rho (docBody p rho r e).gamma d))
        (addStats p.lda (counts e.2) (thetaSum (docRows p rho r.gamma e)) r.sstats)
    rw [hd, he]
    funext k w
    simp only [addStats_eq]
    ring
  · change (r.chunk ++ docRows p rho r.gamma d ++ docRows p rho (docBody p rho r d).gamma e).Perm
      (r.chunk ++ docRows p rho r.gamma e ++ docRows p rho (docBody p rho r e).gamma d)
    rw [hd, he, List.append_assoc, List.append_assoc]
    exact (List.perm_append_comm).append_left _

/-- Neighbouring documents without a common author can change places: gammas and statistics stay the same. -/
theorem C158_disjoint_documents (p : Par A T W) (rho : ℝ) (gamma : A → T → ℝ)
    (pre post : List (List A × List (W × ℝ))) (d e : List A × List (W × ℝ)) (h : ∀ a ∈ d.1, a ∉ e.1) :
    (authorInference p rho gamma (pre ++ d :: e :: post)).gamma
      = (authorInference p rho gamma (pre ++ e :: d :: post)).gamma ∧
    (authorInference p rho gamma (pre ++ d :: e :: post)).sstats
      = (authorInference p rho gamma (pre ++ e :: d :: post)).sstats := by
  have := (swap_same p rho (pre.foldl (docBody p rho) ⟨gamma, [], fun _ _ => 0⟩) d e h).fold
    (p := p) (rho := rho) post
  unfold authorInference
  simp only [List.foldl_append, List.foldl_cons]
  exact ⟨this.1, by rw [this.2.1]⟩

/-! ## LDA as a special case -/

theorem rounds_lda (p : Par A T W) (doc : List (W × ℝ)) (a : A) (g : T → ℝ) (hd : p.docs a = 1) (n : ℕ) (t : T → ℝ) :
    rounds p 1 doc [(a, g)] n [t] = [loop p.lda doc n t] := by
  have hround : ∀ t, round p 1 doc [(a, g)] [t] = [gammaStep p.lda (expElog t) doc] := by
    intro t
    simp only [round, List.zipWith_cons_cons, List.zipWith_nil_right, List.cons.injEq, and_true]
    funext k
    have hs : thetaSum [t] = expElog t := by funext j; simp [thetaSum]
    simp [newRow, gammaStep, authorNorm, hs, hd]
  have hch : ∀ x y : T → ℝ, rowsChange [x] [y] = meanChange x y := by
    intro x y; simp [rowsChange, meanChange]
  induction n generalizing t with
  | zero => rfl
  | succ n ih =>
    unfold rounds loop
    simp only [hround, hch]
    split
    · rfl
    · exact ih _

/-- Documents with one author each, who wrote nothing else, and a full step: inference is that of LDA,
    started at the rows of the authors; rows and statistics agree. -/
theorem C158_lda (p : Par A T W) (gamma : A → T → ℝ) (chunk : List (A × List (W × ℝ)))
    (h1 : ∀ d ∈ chunk, p.docs d.1 = 1) (hn : (chunk.map Prod.fst).Nodup) :
    (authorInference p 1 gamma (chunk.map fun d => ([d.1], d.2))).chunk
      = (inference p.lda (chunk.map fun d => (counts d.2, gamma d.1))).1 ∧
    (authorInference p 1 gamma (chunk.map fun d => ([d.1], d.2))).sstats
      = (inference p.lda (chunk.map fun d => (counts d.2, gamma d.1))).2 ∧
    ∀ d ∈ chunk, (authorInference p 1 gamma (chunk.map fun d => ([d.1], d.2))).gamma d.1
      = LdaInfer.inferDoc p.lda (counts d.2) (gamma d.1) := by
  have main : ∀ (r : Run A T W), (∀ d ∈ chunk, r.gamma d.1 = gamma d.1) →
      ((chunk.map fun d => ([d.1], d.2)).foldl (docBody p 1) r).chunk
        = ((chunk.map fun d => (counts d.2, gamma d.1)).foldl (LdaInfer.docBody p.lda) (r.chunk, r.sstats)).1 ∧
      ((chunk.map fun d => ([d.1], d.2)).foldl (docBody p 1) r).sstats
        = ((chunk.map fun d => (counts d.2, gamma d.1)).foldl (LdaInfer.docBody p.lda) (r.chunk, r.sstats)).2 ∧
      (∀ a, a ∉ chunk.map Prod.fst →
        ((chunk.map fun d => ([d.1], d.2)).foldl (docBody p 1) r).gamma a = r.gamma a) ∧
      ∀ d ∈ chunk, ((chunk.map fun d => ([d.1], d.2)).foldl (docBody p 1) r).gamma d.1
        = LdaInfer.inferDoc p.lda (counts d.2) (gamma d.1) := by
    induction chunk with
    | nil => intro r _; exact ⟨rfl, rfl, fun _ _ => rfl, fun _ h => by cases h⟩
    | cons d ds ih =>
      intro r hr
      rw [List.map_cons, List.nodup_cons] at hn
      have hg := hr d List.mem_cons_self
      have hrows : docRows p 1 r.gamma ([d.1], d.2) = [LdaInfer.inferDoc p.lda (counts d.2) (gamma d.1)] := by
        unfold docRows
        simp only [List.map_cons, List.map_nil, hg]
        exact rounds_lda p _ _ _ (h1 d List.mem_cons_self) _ _
      have hts : thetaSum [LdaInfer.inferDoc p.lda (counts d.2) (gamma d.1)]
          = expElog (LdaInfer.inferDoc p.lda (counts d.2) (gamma d.1)) := by funext j; simp [thetaSum]
      have hbody : docBody p 1 r ([d.1], d.2) =
          ⟨Function.update r.gamma d.1 (LdaInfer.inferDoc p.lda (counts d.2) (gamma d.1)),
           (LdaInfer.docBody p.lda (r.chunk, r.sstats) (counts d.2, gamma d.1)).1,
           (LdaInfer.docBody p.lda (r.chunk, r.sstats) (counts d.2, gamma d.1)).2⟩ := by
        unfold docBody LdaInfer.docBody
        simp only [hrows, hts]
        rfl
      obtain ⟨i1, i2, i3, i4⟩ := ih (fun e he => h1 e (List.mem_cons_of_mem _ he)) hn.2
        (docBody p 1 r ([d.1], d.2)) (fun e he => by
          rw [hbody]
          have : e.1 ≠ d.1 := fun h => hn.1 (h ▸ List.mem_map_of_mem he)
          simp only [Function.update_of_ne this]
          exact hr e (List.mem_cons_of_mem _ he))
      simp only [List.map_cons, List.foldl_cons]
      refine ⟨?_, ?_, ?_, ?_⟩
      · rw [i1, hbody]
      · rw [i2, hbody]
      · intro a ha
        rw [List.mem_cons, not_or] at ha
        rw [i3 a ha.2, hbody]
        simp only [Function.update_of_ne ha.1]
      · intro e he
        rcases List.mem_cons.1 he with rfl | he
        · rw [i3 _ hn.1, hbody]
          simp only [Function.update_self]
        · exact i4 e he
  obtain ⟨m1, m2, _, m4⟩ := main ⟨gamma, [], fun _ _ => 0⟩ (fun _ _ => rfl)
  refine ⟨m1, ?_, m4⟩
  unfold authorInference inference
  simp only [m2]

/-! ## Fractional counts -/

/-- Finding: counts lose their fractions, so a document of weights below 1 (TF-IDF, say) has no effect but to
    pull the rows of its authors towards the prior, whatever its words: it contributes no statistics. -/
theorem C158_fractions_dropped (p : Par A T W) (hi : 0 < p.lda.iterations) (rho : ℝ) (gamma : A → T → ℝ)
    (authors : List A) (doc : List (W × ℝ)) (hd : ∀ x ∈ doc, 0 ≤ x.2 ∧ x.2 < 1) :
    (∀ a ∈ authors, ∀ k, (authorInference p rho gamma [(authors, doc)]).gamma a k
      = (1 - rho) * gamma a k + rho * p.lda.alpha k) ∧
    ∀ k w, (authorInference p rho gamma [(authors, doc)]).sstats k w = 0 := by
  have hz : ∀ x ∈ counts doc, x.2 = 0 := by
    intro x hx
    obtain ⟨y, hy, rfl⟩ := List.mem_map.1 hx
    obtain ⟨h0, h1⟩ := hd y hy
    simp only [trunc, if_pos h0]
    rw [Int.floor_eq_zero_iff.2 ⟨h0, h1⟩]
    simp
  constructor
  · intro a ha k
    obtain ⟨last, hl, e⟩ := rows_after p rho gamma authors doc hi
    have hk := store_mem gamma (authors.zip (docRows p rho gamma (authors, doc))) a
      (by rw [zip_keys _ _ (docRows_length p rho gamma (authors, doc))]; exact ha)
    change store gamma (authors.zip (docRows p rho gamma (authors, doc))) a k = _
    generalize store gamma (authors.zip (docRows p rho gamma (authors, doc))) a = row at hk
    rw [e] at hk
    obtain ⟨i, hi', hrow⟩ := List.mem_iff_getElem.1 hk
    rw [List.getElem_zip] at hrow
    simp only [List.getElem_zipWith, Prod.mk.injEq] at hrow
    obtain ⟨ha', hr⟩ := hrow
    rw [← hr, ← ha']
    unfold stepped
    have : ∀ t : T → ℝ, ((counts doc).map fun x => x.2 * share p last t k x.1).sum = 0 := by
      intro t
      refine List.sum_eq_zero fun v hv => ?_
      obtain ⟨y, hy, rfl⟩ := List.mem_map.1 hv
      rw [hz y hy, zero_mul]
    rw [this]; ring
  · intro k w
    change (docBody p rho ⟨gamma, [], fun _ _ => 0⟩ (authors, doc)).sstats k w * p.lda.beta k w = 0
    rw [docBody_stats]
    have : lastCount (counts doc) w = 0 := by
      unfold lastCount
      cases h : ((counts doc).filter (fun x => x.1 = w) |>.map Prod.snd).getLast? with
      | none => rfl
      | some v =>
        obtain ⟨x, hx, rfl⟩ := List.mem_map.1 (List.mem_of_mem_getLast? h)
        exact hz x (List.mem_filter.1 hx).1
    simp [docStats, this]

/-! ## The hypotheses are met -/

/-- Three authors, two topics. -/
noncomputable def sample : Par (Fin 3) (Fin 2) ℕ :=
  ⟨⟨fun _ => 1 / 2, fun k w => if k.val = w then 2 else 1, 0, 1 / 1000, 50⟩, fun a => if a = 0 then 2 else 1⟩

theorem sample_pos : sample.lda.Pos :=
  ⟨fun _ => by norm_num [sample], fun k w => by unfold sample; dsimp only; split <;> norm_num, le_refl _⟩

example : sample.lda.Pos ∧ 0 < sample.lda.iterations ∧ sample.lda.eps = 0 ∧
    (∀ d ∈ ([([0, 1], [(0, 3)]), ([2], [(1, 2)])] : List (List (Fin 3) × List (ℕ × ℝ))), d.1 ≠ [] ∧ ∀ x ∈ d.2, 0 ≤ x.2) ∧
    (∀ a ∈ ([0, 1] : List (Fin 3)), a ∉ ([2] : List (Fin 3))) ∧ sample.docs 1 = 1 ∧ sample.docs 2 = 1 :=
  ⟨sample_pos, by norm_num [sample], rfl, by simp, by simp, by simp [sample], by simp [sample]⟩

example : ∀ x ∈ ([(0, 1 / 2), (1, 1 / 3)] : List (ℕ × ℝ)), 0 ≤ x.2 ∧ x.2 < 1 := by
  intro x hx
  simp only [List.mem_cons, List.not_mem_nil, or_false] at hx
  rcases hx with rfl | rfl <;> norm_num

end Verif.AuthorInfer

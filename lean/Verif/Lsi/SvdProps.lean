import Verif.Lsi.SvdModel
import Verif.Lsi.ProjProps
import Verif.Utils.ChunkProps

/-!
# C116: decomposing a corpus
-/

namespace Verif.Lsi
open Matrix

/-! ## Specification -/

/-- `A Aᵀ` for the term-document matrix `A` of some documents. -/
def docGram {m : ℕ} (docs : List (Fin m → ℝ)) : Matrix (Fin m) (Fin m) ℝ := colsM docs * (colsM docs)ᵀ

/-- The directions after `iters` power iterations, on the whole term-document matrix. -/
noncomputable def directions {m n : ℕ} (lib : Linalg) (a : Matrix (Fin m) (Fin n) ℝ) : ℕ → Cols m → Cols m
  | 0, q => q
  | iters + 1, q => directions lib a iters (orthonormal lib (a * aᵀ * q.q))

/-- The samples capture the documents: every document is a combination of the columns of `A O`. -/
def Captures {m S : ℕ} (docs : List (Fin m → ℝ)) (start : ℕ) (gauss : ℕ → Fin S → ℝ) : Prop :=
  ∃ M, colsM docs = colsM docs * draws gauss start docs.length * M

/-- What is left of `G` is small: it is never negative, never more than the least value kept in any direction, and if
fewer than `k` values are kept it is at most the fraction `eps` of the whole. -/
structure Remainder {m : ℕ} (p : Proj m) (k : ℕ) (eps : ℝ) (G E : Matrix (Fin m) (Fin m) ℝ) : Prop where
  eq : gram p + E = G
  nonneg : ∀ x, 0 ≤ x ⬝ᵥ E *ᵥ x
  least : ∀ x, ∀ i, x ⬝ᵥ E *ᵥ x ≤ p.s i ^ 2 * x ⬝ᵥ x
  few : p.n < k → E.trace ≤ eps * G.trace

/-! ## Chunks -/

theorem colsM_mul {m S : ℕ} (docs : List (Fin m → ℝ)) (o : Matrix (Fin docs.length) (Fin S) ℝ) (i : Fin m) (j : Fin S) :
    (colsM docs * o) i j = ∑ d, docs[d] i * o d j := by
  rw [mul_apply]
  rfl

theorem action_append {m S : ℕ} (gauss : ℕ → Fin S → ℝ) (a b : List (Fin m → ℝ)) (start : ℕ) :
    colsM (a ++ b) * draws gauss start (a ++ b).length
      = colsM a * draws gauss start a.length + colsM b * draws gauss (start + a.length) b.length := by
  ext i j
  rw [Matrix.add_apply, colsM_mul, colsM_mul, colsM_mul]
  have h : (a ++ b).length = a.length + b.length := List.length_append
  rw [← (finCongr h).symm.sum_comp, Fin.sum_univ_add]
  congr 1
  · apply Finset.sum_congr rfl
    intro x _
    have : (a ++ b)[(finCongr h).symm (Fin.castAdd b.length x)] = a[x] := List.getElem_append_left x.2
    rw [this]
    rfl
  · apply Finset.sum_congr rfl
    intro x _
    have : (a ++ b)[(finCongr h).symm (Fin.natAdd a.length x)] = b[x] := by
      refine (List.getElem_append_right (by simp)).trans ?_
      simp
    rw [this]
    congr 1
    simp [draws, add_assoc]

theorem docGram_append {m : ℕ} (a b : List (Fin m → ℝ)) : docGram (a ++ b) = docGram a + docGram b := by
  ext i j
  unfold docGram
  rw [Matrix.add_apply, mul_apply, mul_apply, mul_apply]
  have h : (a ++ b).length = a.length + b.length := List.length_append
  rw [← (finCongr h).symm.sum_comp, Fin.sum_univ_add]
  congr 1
  · apply Finset.sum_congr rfl
    intro x _
    have : (a ++ b)[(finCongr h).symm (Fin.castAdd b.length x)] = a[x] := List.getElem_append_left x.2
    simp only [colsM, of_apply, transpose_apply]
    rw [this]
  · apply Finset.sum_congr rfl
    intro x _
    have : (a ++ b)[(finCongr h).symm (Fin.natAdd a.length x)] = b[x] := by
      refine (List.getElem_append_right (by simp)).trans ?_
      simp
    simp only [colsM, of_apply, transpose_apply]
    rw [this]

theorem docGram_nil {m : ℕ} : docGram ([] : List (Fin m → ℝ)) = 0 := by
  ext i j
  simp [docGram, mul_apply]

theorem action_fold {m S : ℕ} (gauss : ℕ → Fin S → ℝ) (cs : List (List (Fin m → ℝ))) (st : ℕ × Matrix (Fin m) (Fin S) ℝ) :
    cs.foldl (actionStep gauss) st
      = (st.1 + cs.flatten.length, st.2 + colsM cs.flatten * draws gauss st.1 cs.flatten.length) := by
  induction cs generalizing st with
  | nil =>
    have : colsM ([] : List (Fin m → ℝ)) * draws gauss st.1 ([] : List (Fin m → ℝ)).length = 0 := by
      ext i j
      simp [mul_apply]
    simp only [List.foldl_nil, List.flatten_nil]
    rw [this]
    simp
  | cons c cs ih =>
    rw [List.foldl_cons, ih]
    simp only [actionStep, List.flatten_cons]
    rw [action_append, List.length_append, add_assoc, add_assoc]

theorem power_fold {m n : ℕ} (cs : List (List (Fin m → ℝ))) (y q : Matrix (Fin m) (Fin n) ℝ) :
    cs.foldl (fun q chunk => q + colsM chunk * ((colsM chunk)ᵀ * y)) q = q + docGram cs.flatten * y := by
  induction cs generalizing q with
  | nil => simp [docGram_nil]
  | cons c cs ih =>
    rw [List.foldl_cons, ih, List.flatten_cons, docGram_append, Matrix.add_mul, add_assoc, ← Matrix.mul_assoc]
    rfl

theorem covariance_fold {m n : ℕ} (cs : List (List (Fin m → ℝ))) (qt : Matrix (Fin n) (Fin m) ℝ)
    (x : Matrix (Fin n) (Fin n) ℝ) :
    cs.foldl (fun x chunk => x + (qt * colsM chunk) * (qt * colsM chunk)ᵀ) x = x + qt * docGram cs.flatten * qtᵀ := by
  induction cs generalizing x with
  | nil => simp [docGram_nil]
  | cons c cs ih =>
    rw [List.foldl_cons, ih, List.flatten_cons, docGram_append, Matrix.mul_add, Matrix.add_mul, add_assoc]
    congr 2
    rw [transpose_mul, docGram]
    simp only [Matrix.mul_assoc]

theorem powerIterations_eq {m : ℕ} (lib : Linalg) {size : ℕ} (hs : 0 < size) (docs : List (Fin m → ℝ)) (iters p : ℕ)
    (q : Cols m) : powerIterations lib size (fun _ => docs) iters p q = directions lib (colsM docs) iters q := by
  induction iters generalizing p q with
  | zero => rfl
  | succ k ih =>
    rw [powerIterations, directions, ih]
    congr 2
    unfold powerSum
    rw [power_fold, Chunk.C15_concat hs, zero_add]
    rfl

theorem sparsePower_eq {m n : ℕ} (lib : Linalg) (a : Matrix (Fin m) (Fin n) ℝ) (iters : ℕ)
    (q : Cols m) : sparsePower lib a iters q = directions lib a iters q := by
  induction iters generalizing q with
  | zero => rfl
  | succ k ih => rw [sparsePower, directions, ih, Matrix.mul_assoc]

/-- The directions for some documents. -/
noncomputable def dirs {m S : ℕ} (lib : Linalg) (iters : ℕ) (docs : List (Fin m → ℝ)) (start : ℕ)
    (gauss : ℕ → Fin S → ℝ) : Cols m :=
  directions lib (colsM docs) iters (orthonormal lib (colsM docs * draws gauss start docs.length))

/-- **C116.** The chunks are of no consequence: whatever their size, the result is that of the whole
term-document matrix. -/
theorem C116_chunks {m : ℕ} (lib : Linalg) (rank : ℕ) (extra : Option ℕ) (iters : ℕ) (eps : ℝ) (size : ℕ)
    (hs : 0 < size) (docs : List (Fin m → ℝ)) (gauss : ℕ → Fin (samples rank extra) → ℝ) :
    streamSvd lib rank extra iters eps size (fun _ => docs) gauss
      = (let q := dirs lib iters docs 0 gauss
         let e := lib.svd (q.qᵀ * (colsM docs * (colsM docs)ᵀ) * q.q)
         finish rank eps q.q e.u fun i => Real.sqrt (e.s i)) := by
  have hy : ((Chunk.chunks size docs).foldl (actionStep gauss) (0, 0)).2
      = colsM docs * draws gauss 0 docs.length := by
    rw [action_fold, Chunk.C15_concat hs]
    exact zero_add _
  have hx : ∀ {n : ℕ} (qt : Matrix (Fin n) (Fin m) ℝ), covariance (Chunk.chunks size docs) qt
      = qt * (colsM docs * (colsM docs)ᵀ) * qtᵀ := by
    intro n qt
    unfold covariance
    rw [covariance_fold, Chunk.C15_concat hs, zero_add]
    rfl
  unfold streamSvd dirs
  dsimp only
  rw [hy, powerIterations_eq lib hs, hx]
  rfl

/-! ## The decomposition of the covariance -/

theorem trace_mul_transpose_nonneg {ρ κ : Type} [Fintype ρ] [Fintype κ] (b : Matrix ρ κ ℝ) : 0 ≤ (b * bᵀ).trace := by
  simp only [trace, diag, mul_apply, transpose_apply]
  exact Finset.sum_nonneg fun i _ => Finset.sum_nonneg fun j _ => mul_self_nonneg _

theorem eq_zero_of_trace {ρ κ : Type} [Fintype ρ] [Fintype κ] (b : Matrix ρ κ ℝ) (h : (b * bᵀ).trace = 0) : b = 0 := by
  ext i j
  simp only [trace, diag, mul_apply, transpose_apply] at h
  have h1 := (Finset.sum_eq_zero_iff_of_nonneg fun i _ => Finset.sum_nonneg fun j _ => mul_self_nonneg (b i j)).1 h i
    (Finset.mem_univ _)
  have h2 := (Finset.sum_eq_zero_iff_of_nonneg fun j _ => mul_self_nonneg (b i j)).1 h1 j (Finset.mem_univ _)
  exact mul_self_eq_zero.1 h2

/-- Two matrices of the form `b bᵀ` with the same square are the same. -/
theorem root_unique {ρ κ μ : Type} [Fintype ρ] [Fintype κ] [Fintype μ] (b : Matrix ρ κ ℝ) (c : Matrix ρ μ ℝ)
    (h : b * bᵀ * (b * bᵀ) = c * cᵀ * (c * cᵀ)) : b * bᵀ = c * cᵀ := by
  set D := b * bᵀ - c * cᵀ with hD
  have hDt : Dᵀ = D := by simp [hD, transpose_sub, transpose_mul]
  have h1 : b * bᵀ * D + D * (c * cᵀ) = 0 := by
    rw [hD, Matrix.mul_sub, Matrix.sub_mul, h]
    abel
  have h2 : D * b * (D * b)ᵀ + D * c * (D * c)ᵀ = D * (b * bᵀ * D + D * (c * cᵀ)) + (D * c * cᵀ * D - D * D * (c * cᵀ)) := by
    rw [transpose_mul, transpose_mul, hDt, Matrix.mul_add]
    simp only [Matrix.mul_assoc]
    abel
  have h3 : (D * c * cᵀ * D - D * D * (c * cᵀ)).trace = 0 := by
    rw [trace_sub, trace_mul_comm (D * c * cᵀ) D]
    simp only [Matrix.mul_assoc]
    exact sub_self _
  have h4 : (D * b * (D * b)ᵀ).trace + (D * c * (D * c)ᵀ).trace = 0 := by
    rw [← trace_add, h2, h1, Matrix.mul_zero, zero_add, h3]
  have n1 := trace_mul_transpose_nonneg (D * b)
  have n2 := trace_mul_transpose_nonneg (D * c)
  have z1 := eq_zero_of_trace _ (le_antisymm (by linarith) n1)
  have z2 := eq_zero_of_trace _ (le_antisymm (by linarith) n2)
  have h5 : D * Dᵀ = 0 := by
    rw [hDt]
    conv_lhs => rhs; rw [hD]
    rw [Matrix.mul_sub, ← Matrix.mul_assoc, ← Matrix.mul_assoc, z1, z2]
    simp
  have h6 := eq_zero_of_trace D (by rw [h5, trace_zero])
  rw [hD] at h6
  exact sub_eq_zero.1 h6

theorem svd_gram {ρ κ : Type} [Fintype ρ] [Fintype κ] (b : Matrix ρ κ ℝ) (e : Svd ρ ρ) (h : SvdOk (b * bᵀ) e) :
    e.u * diagonal e.s * e.uᵀ = b * bᵀ := by
  have hc : e.u * diagonal (fun i => Real.sqrt (e.s i)) * (e.u * diagonal fun i => Real.sqrt (e.s i))ᵀ
      = e.u * diagonal e.s * e.uᵀ := by
    rw [transpose_mul, diagonal_transpose, Matrix.mul_assoc, ← Matrix.mul_assoc (diagonal _), diagonal_mul_diagonal]
    simp only [Real.mul_self_sqrt (h.nonneg _)]
    rw [Matrix.mul_assoc]
  rw [← hc]
  symm
  apply root_unique
  rw [hc]
  have hx : (b * bᵀ)ᵀ = b * bᵀ := by simp [transpose_mul]
  conv_lhs => rhs; rw [← hx]
  rw [← h.eq]
  simp only [transpose_mul, diagonal_transpose, Matrix.mul_assoc]
  rw [← Matrix.mul_assoc e.vt, h.right, Matrix.one_mul, ← Matrix.mul_assoc e.uᵀ e.u, h.left, Matrix.one_mul]

/-- What the end of the decomposition is given: orthonormal directions with descending values, which represent `G`. -/
structure Full {m n r : ℕ} (q : Matrix (Fin m) (Fin n) ℝ) (u : Matrix (Fin n) (Fin r) ℝ) (s : Fin r → ℝ)
    (G : Matrix (Fin m) (Fin m) ℝ) : Prop where
  orth : (q * u)ᵀ * (q * u) = 1
  nonneg : ∀ i, 0 ≤ s i
  sorted : Antitone s
  eq : q * u * diagonal (fun i => s i ^ 2) * (q * u)ᵀ = q * qᵀ * G * (q * qᵀ)
  val : (q * u)ᵀ * G * (q * u) = diagonal fun i => s i ^ 2

theorem finish_n {m n r : ℕ} (rank : ℕ) (eps : ℝ) (q : Matrix (Fin m) (Fin n) ℝ) (u : Matrix (Fin n) (Fin r) ℝ)
    (s : Fin r → ℝ) : (finish rank eps q u s).n ≤ r := min_le_right _ _

theorem finish_u {m n r : ℕ} (rank : ℕ) (eps : ℝ) (q : Matrix (Fin m) (Fin n) ℝ) (u : Matrix (Fin n) (Fin r) ℝ)
    (s : Fin r → ℝ) (i) (l : Fin (finish rank eps q u s).n) :
    (finish rank eps q u s).u i l = (q * u) i (Fin.castLE (finish_n rank eps q u s) l) := rfl

theorem finish_orth {m n r : ℕ} (rank : ℕ) (eps : ℝ) (q : Matrix (Fin m) (Fin n) ℝ) (u : Matrix (Fin n) (Fin r) ℝ)
    (s : Fin r → ℝ) (h : (q * u)ᵀ * (q * u) = 1) :
    (finish rank eps q u s).uᵀ * (finish rank eps q u s).u = 1 := by
  ext i j
  have := congrFun (congrFun h (Fin.castLE (finish_n rank eps q u s) i)) (Fin.castLE (finish_n rank eps q u s) j)
  rw [mul_apply, one_apply] at this ⊢
  simp only [transpose_apply, finish_u] at this ⊢
  rw [this]
  simp [Fin.castLE_inj]

theorem finish_val {m n r : ℕ} (rank : ℕ) (eps : ℝ) (q : Matrix (Fin m) (Fin n) ℝ) (u : Matrix (Fin n) (Fin r) ℝ)
    (s : Fin r → ℝ) (G : Matrix (Fin m) (Fin m) ℝ) (h : (q * u)ᵀ * G * (q * u) = diagonal fun i => s i ^ 2) :
    (finish rank eps q u s).uᵀ * G * (finish rank eps q u s).u
      = diagonal fun i => (finish rank eps q u s).s i ^ 2 := by
  have hu : (finish rank eps q u s).u = (q * u).submatrix id (Fin.castLE (finish_n rank eps q u s)) := by
    ext i j
    exact finish_u rank eps q u s i j
  ext i j
  have := congrFun (congrFun h (Fin.castLE (finish_n rank eps q u s) i)) (Fin.castLE (finish_n rank eps q u s) j)
  rw [hu]
  rw [diagonal_apply] at this ⊢
  refine Eq.trans ?_ (this.trans ?_)
  · simp only [mul_apply, transpose_apply, submatrix_apply, id]
  · simp only [Fin.castLE_inj]
    rfl

/-- The truncation. -/
theorem finish_spec {m n r : ℕ} (k : ℕ) (hk : 0 < k) (eps : ℝ) (he : 0 ≤ eps) (q : Matrix (Fin m) (Fin n) ℝ)
    (u : Matrix (Fin n) (Fin r) ℝ) (s : Fin r → ℝ) (G : Matrix (Fin m) (Fin m) ℝ) (h : Full q u s G)
    (hne : q * qᵀ * G * (q * qᵀ) ≠ 0) :
    let p := finish k eps q u s
    Good p ∧ ∃ E, Remainder p k eps (q * qᵀ * G * (q * qᵀ)) E := by
  set U := q * u with hU
  set T := q * qᵀ * G * (q * qᵀ) with hT
  have hEq : U * diagonal (fun i => s i ^ 2) * Uᵀ = T := h.eq
  have hsum : 0 < ∑ l, s l ^ 2 := by
    refine lt_of_le_of_ne (Finset.sum_nonneg fun l _ => sq_nonneg _) fun hz => hne ?_
    have hall := (Finset.sum_eq_zero_iff_of_nonneg fun l _ => sq_nonneg (s l)).1 hz.symm
    have : (fun i => s i ^ 2) = fun _ => 0 := funext fun i => hall i (Finset.mem_univ _)
    rw [← hEq, this]
    simp
  have hanti : Antitone fun i => s i ^ 2 := fun a b hab => pow_le_pow_left₀ (h.nonneg b) (h.sorted hab) 2
  obtain ⟨k1, k2, k3, k4⟩ := C86_clip (fun i => s i ^ 2) (fun i => sq_nonneg _) hanti hsum k hk eps he
  have hr : 0 < r := by
    by_contra hcon
    have hz : r = 0 := by omega
    subst hz
    simp at hsum
  have hu := finish_u k eps q u s
  have horth := finish_orth k eps q u s h.orth
  set keep := clipSpectrum (fun i => s i ^ 2) k eps with hkeep
  have hpos : ∀ i : Fin r, (i : ℕ) < keep → 0 < s i := by
    intro i hi
    have := k3 i hi
    exact lt_of_le_of_ne (h.nonneg i) fun h => by simp [← h] at this
  have hlt : ∀ l : Fin (min keep r), ((Fin.castLE (min_le_right keep r) l : Fin r) : ℕ) < keep :=
    fun l => lt_of_lt_of_le l.2 (min_le_left _ _)
  have hdiag : ∀ l, (Uᵀ * U) l l = 1 := fun l => by rw [h.orth]; simp
  refine ⟨⟨horth, fun i => hpos _ (hlt i), fun i j hij => h.sorted hij, ?_⟩,
    U * diagonal (fun l : Fin r => if (l : ℕ) < keep then 0 else s l ^ 2) * Uᵀ, ?_, ?_, ?_, ?_⟩
  · show 0 < min keep r
    omega
  · rw [← hEq]
    ext i j
    have e1 : gram (finish k eps q u s) i j
        = ∑ l ∈ Finset.univ.filter (fun l : Fin r => (l : ℕ) < keep), s l ^ 2 * U i l * U j l := by
      rw [gram_entry, ← sum_castLE (fun l => s l ^ 2 * U i l * U j l)]
      apply Finset.sum_congr rfl
      intro l _
      rw [hu, hu]
      rfl
    have entry : ∀ w : Fin r → ℝ, (U * diagonal w * Uᵀ) i j = ∑ l, w l * U i l * U j l := by
      intro w
      rw [mul_apply]
      apply Finset.sum_congr rfl
      intro l _
      rw [mul_diagonal, transpose_apply]
      ring
    rw [Matrix.add_apply, e1, entry, entry, Finset.sum_filter, ← Finset.sum_add_distrib]
    apply Finset.sum_congr rfl
    intro l _
    split <;> ring
  · intro x
    rw [quad_form]
    apply Finset.sum_nonneg
    intro l _
    split
    · simp
    · positivity
  · intro x i
    rw [quad_form]
    have hT := bessel U Finset.univ (by
      intro a _ b _
      rw [h.orth, one_apply]) x
    refine le_trans ?_ (mul_le_mul_of_nonneg_left hT (sq_nonneg ((finish k eps q u s).s i)))
    rw [Finset.mul_sum]
    apply Finset.sum_le_sum
    intro l _
    by_cases hl : (l : ℕ) < keep
    · rw [if_pos hl, zero_mul]
      positivity
    · rw [if_neg hl]
      apply mul_le_mul_of_nonneg_right _ (sq_nonneg _)
      apply pow_le_pow_left₀ (h.nonneg l)
      apply h.sorted
      rw [Fin.le_def]
      have := hlt i
      omega
  · intro hlt'
    have hlt' : min keep r < k := hlt'
    rw [← hEq, trace_form, trace_form]
    simp only [hdiag, mul_one]
    have t1 : ∑ l : Fin r, (if (l : ℕ) < keep then 0 else s l ^ 2)
        = ∑ l ∈ Finset.univ.filter (fun l : Fin r => ¬ (l : ℕ) < keep), s l ^ 2 := by
      rw [Finset.sum_filter]
      apply Finset.sum_congr rfl
      intro l _
      by_cases hl : (l : ℕ) < keep
      · rw [if_pos hl, if_neg (not_not.2 hl)]
      · rw [if_neg hl, if_pos hl]
    rw [t1]
    by_cases hkk : keep < k
    · exact k4 hkk
    · have : (Finset.univ.filter fun l : Fin r => ¬ (l : ℕ) < keep) = ∅ := by
        ext l
        simp only [Finset.mem_filter, Finset.mem_univ, true_and, Finset.notMem_empty, iff_false, not_not]
        have := l.2
        omega
      rw [this, Finset.sum_empty]
      exact mul_nonneg he hsum.le

/-! ## The directions -/

theorem dirs_orth {m S : ℕ} (lib : Linalg) (hl : LinalgOk lib) (iters : ℕ) (docs : List (Fin m → ℝ)) (start : ℕ)
    (gauss : ℕ → Fin S → ℝ) : (dirs lib iters docs start gauss).qᵀ * (dirs lib iters docs start gauss).q = 1 := by
  have : ∀ (iters : ℕ) (q : Cols m), q.qᵀ * q.q = 1 →
      (directions lib (colsM docs) iters q).qᵀ * (directions lib (colsM docs) iters q).q = 1 := by
    intro iters
    induction iters with
    | zero => exact fun q h => h
    | succ k ih => exact fun q _ => ih _ (hl.qr _).orth
  exact this _ _ (hl.qr _).orth

/-- If the samples capture the documents, so do the directions, after any number of power iterations. -/
theorem dirs_capture {m S : ℕ} (lib : Linalg) (hl : LinalgOk lib) (iters : ℕ) (docs : List (Fin m → ℝ)) (start : ℕ)
    (gauss : ℕ → Fin S → ℝ) (hc : Captures docs start gauss) :
    (dirs lib iters docs start gauss).q * (dirs lib iters docs start gauss).qᵀ * colsM docs = colsM docs := by
  set A := colsM docs with hA
  have base : ∀ {κ : Type} [Fintype κ] (y : Matrix (Fin m) κ ℝ),
      (orthonormal lib y).q * (orthonormal lib y).qᵀ * y = y := by
    intro κ _ y
    have h1 := (hl.qr y).eq
    have h2 := (hl.qr y).orth
    show (lib.qr y).q * (lib.qr y).qᵀ * y = y
    conv_lhs => rhs; rw [← h1]
    rw [Matrix.mul_assoc, ← Matrix.mul_assoc _ (lib.qr y).q, h2, Matrix.one_mul, h1]
  have step : ∀ (iters : ℕ) (q : Cols m), q.q * q.qᵀ * A = A →
      (directions lib A iters q).q * (directions lib A iters q).qᵀ * A = A := by
    intro iters
    induction iters with
    | zero => exact fun q h => h
    | succ k ih =>
      intro q h
      apply ih
      set q' := orthonormal lib (A * Aᵀ * q.q) with hq'
      have h1 : A * Aᵀ * q.q * q.qᵀ = A * Aᵀ := by
        have := congrArg transpose h
        rw [transpose_mul, transpose_mul, transpose_transpose] at this
        rw [Matrix.mul_assoc, Matrix.mul_assoc, this]
      have h2 : q'.q * q'.qᵀ * (A * Aᵀ) = A * Aᵀ := by
        rw [← h1, ← Matrix.mul_assoc, base]
      have h3 : (q'.q * q'.qᵀ * A - A) * (q'.q * q'.qᵀ * A - A)ᵀ = 0 := by
        rw [transpose_sub, Matrix.mul_sub, Matrix.sub_mul, Matrix.sub_mul, transpose_mul, Matrix.mul_assoc _ A,
          ← Matrix.mul_assoc A, ← Matrix.mul_assoc (q'.q * q'.qᵀ), h2, Matrix.mul_assoc _ A Aᵀ, h2]
        abel
      exact sub_eq_zero.1 (eq_zero_of_trace _ (by rw [h3, trace_zero]))
  obtain ⟨M, hM⟩ := hc
  refine step iters _ ?_
  rw [← hA] at hM
  conv_lhs => rhs; rw [hM]
  rw [← Matrix.mul_assoc, base]
  exact hM.symm

theorem full_of {m n r : ℕ} (q : Matrix (Fin m) (Fin n) ℝ) (u : Matrix (Fin n) (Fin r) ℝ) (s : Fin r → ℝ)
    (G : Matrix (Fin m) (Fin m) ℝ) (hq : qᵀ * q = 1) (hu : uᵀ * u = 1) (h0 : ∀ i, 0 ≤ s i) (hs : Antitone s)
    (he : u * diagonal (fun i => s i ^ 2) * uᵀ = qᵀ * G * q) : Full q u s G := by
  refine ⟨?_, h0, hs, ?_, ?_⟩
  · rw [transpose_mul, Matrix.mul_assoc, ← Matrix.mul_assoc qᵀ, hq, Matrix.one_mul, hu]
  · have : q * u * diagonal (fun i => s i ^ 2) * (q * u)ᵀ = q * (u * diagonal (fun i => s i ^ 2) * uᵀ) * qᵀ := by
      rw [transpose_mul]
      simp only [Matrix.mul_assoc]
    rw [this, he]
    simp only [Matrix.mul_assoc]
  · have : (q * u)ᵀ * G * (q * u) = uᵀ * (qᵀ * G * q) * u := by
      rw [transpose_mul]
      simp only [Matrix.mul_assoc]
    rw [this, ← he]
    simp only [Matrix.mul_assoc]
    rw [hu, Matrix.mul_one, ← Matrix.mul_assoc, hu, Matrix.one_mul]

/-- Both ways end with a full decomposition in the same directions. -/
theorem sparse_full {m : ℕ} (lib : Linalg) (hl : LinalgOk lib) (rank : ℕ) (extra : Option ℕ) (iters : ℕ) (eps : ℝ)
    (docs : List (Fin m → ℝ)) (start : ℕ) (gauss : ℕ → Fin (samples rank extra) → ℝ) :
    ∃ (r : ℕ) (u : Matrix _ (Fin r) ℝ) (s : Fin r → ℝ),
      sparseSvd lib rank extra iters eps docs start gauss = finish rank eps (dirs lib iters docs start gauss).q u s ∧
      Full (dirs lib iters docs start gauss).q u s (docGram docs) := by
  have he : sparseSvd lib rank extra iters eps docs start gauss
      = (let q := dirs lib iters docs start gauss
         let e := lib.svd (q.qᵀ * colsM docs)
         finish rank eps q.q e.u e.s) := by
    unfold sparseSvd dirs
    dsimp only
    rw [sparsePower_eq]
  refine ⟨_, _, _, he, ?_⟩
  have hs := hl.svd ((dirs lib iters docs start gauss).qᵀ * colsM docs)
  refine full_of _ _ _ _ (dirs_orth lib hl iters docs start gauss) hs.left hs.nonneg hs.sorted ?_
  set e := lib.svd ((dirs lib iters docs start gauss).qᵀ * colsM docs)
  have h1 : e.u * diagonal (fun i => e.s i ^ 2) * e.uᵀ = (e.u * diagonal e.s * e.vt) * (e.u * diagonal e.s * e.vt)ᵀ := by
    simp only [transpose_mul, diagonal_transpose, Matrix.mul_assoc]
    rw [← Matrix.mul_assoc e.vt, hs.right, Matrix.one_mul, ← Matrix.mul_assoc (diagonal e.s), diagonal_mul_diagonal]
    simp only [pow_two]
  rw [h1, hs.eq, transpose_mul, transpose_transpose]
  simp only [docGram, Matrix.mul_assoc]

theorem stream_full {m : ℕ} (lib : Linalg) (hl : LinalgOk lib) (rank : ℕ) (extra : Option ℕ) (iters : ℕ) (eps : ℝ)
    (size : ℕ) (hz : 0 < size) (docs : List (Fin m → ℝ)) (gauss : ℕ → Fin (samples rank extra) → ℝ) :
    ∃ (r : ℕ) (u : Matrix _ (Fin r) ℝ) (s : Fin r → ℝ),
      streamSvd lib rank extra iters eps size (fun _ => docs) gauss
        = finish rank eps (dirs lib iters docs 0 gauss).q u s ∧
      Full (dirs lib iters docs 0 gauss).q u s (docGram docs) := by
  refine ⟨_, _, _, C116_chunks lib rank extra iters eps size hz docs gauss, ?_⟩
  set q := dirs lib iters docs 0 gauss
  have hb : q.qᵀ * (colsM docs * (colsM docs)ᵀ) * q.q = (q.qᵀ * colsM docs) * (q.qᵀ * colsM docs)ᵀ := by
    rw [transpose_mul, transpose_transpose]
    simp only [Matrix.mul_assoc]
  have hs := hl.svd (q.qᵀ * (colsM docs * (colsM docs)ᵀ) * q.q)
  refine full_of _ _ _ _ (dirs_orth lib hl iters docs 0 gauss) hs.left (fun i => Real.sqrt_nonneg _)
    (fun i j hij => Real.sqrt_le_sqrt (hs.sorted hij)) ?_
  simp only [Real.sq_sqrt (hs.nonneg _)]
  rw [svd_gram (q.qᵀ * colsM docs) _ (hb ▸ hs), ← hb]
  rfl

/-! ## The theorems -/

/-- What every decomposition of documents satisfies: at most `rank` orthonormal topics, descending values, and along the
topics the documents are as the values say: those of different topics are orthogonal, and each value is the length. -/
structure Explains {m : ℕ} (p : Proj m) (rank : ℕ) (docs : List (Fin m → ℝ)) : Prop where
  few : p.n ≤ rank
  orth : p.uᵀ * p.u = 1
  nonneg : ∀ i, 0 ≤ p.s i
  sorted : Antitone p.s
  exact : (p.uᵀ * colsM docs) * (p.uᵀ * colsM docs)ᵀ = diagonal fun i => p.s i ^ 2

theorem finish_explains {m n r : ℕ} (rank : ℕ) (eps : ℝ) (q : Matrix (Fin m) (Fin n) ℝ) (u : Matrix (Fin n) (Fin r) ℝ)
    (s : Fin r → ℝ) (docs : List (Fin m → ℝ)) (h : Full q u s (docGram docs)) :
    Explains (finish rank eps q u s) rank docs := by
  refine ⟨?_, finish_orth rank eps q u s h.orth, fun i => h.nonneg _, fun i j hij => h.sorted hij, ?_⟩
  · exact (min_le_left _ _).trans (min_le_left _ _)
  · rw [← finish_val rank eps q u s _ h.val, transpose_mul, transpose_transpose]
    simp only [docGram, Matrix.mul_assoc]

/-- **C116.** Whatever is drawn, and whatever the number of power iterations, of samples and of documents in a chunk, a
corpus that can be read again and again is decomposed into at most `rank` orthonormal topics, along which the documents
are exactly as the values say. -/
theorem C116_values {m : ℕ} (lib : Linalg) (hl : LinalgOk lib) (rank : ℕ) (extra : Option ℕ) (iters : ℕ) (eps : ℝ)
    (size : ℕ) (hz : 0 < size) (docs : List (Fin m → ℝ)) (gauss : ℕ → Fin (samples rank extra) → ℝ) :
    Explains (streamSvd lib rank extra iters eps size (fun _ => docs) gauss) rank docs := by
  obtain ⟨r, u, s, h1, h2⟩ := stream_full lib hl rank extra iters eps size hz docs gauss
  rw [h1]
  exact finish_explains _ _ _ _ _ _ h2

/-- **C116.** The same for a sparse matrix, as of a chunk of the one-pass algorithm. -/
theorem C116_values_sparse {m : ℕ} (lib : Linalg) (hl : LinalgOk lib) (rank : ℕ) (extra : Option ℕ) (iters : ℕ)
    (eps : ℝ) (docs : List (Fin m → ℝ)) (start : ℕ) (gauss : ℕ → Fin (samples rank extra) → ℝ) :
    Explains (sparseSvd lib rank extra iters eps docs start gauss) rank docs := by
  obtain ⟨r, u, s, h1, h2⟩ := sparse_full lib hl rank extra iters eps docs start gauss
  rw [h1]
  exact finish_explains _ _ _ _ _ _ h2

/-- **C116.** So the squares of the values never add up to more than the squares of the weights of the documents, and
what is missing is what the topics do not explain. -/
theorem C116_energy {m : ℕ} (p : Proj m) (rank : ℕ) (docs : List (Fin m → ℝ)) (h : Explains p rank docs) :
    (∑ j, ∑ i, colsM docs i j ^ 2)
        = ∑ i, p.s i ^ 2 + ∑ j, ∑ i, (colsM docs - p.u * (p.uᵀ * colsM docs)) i j ^ 2 ∧
      ∑ i, p.s i ^ 2 ≤ ∑ j, ∑ i, colsM docs i j ^ 2 := by
  have frob : ∀ {n : ℕ} (b : Matrix (Fin m) (Fin n) ℝ), ∑ j, ∑ i, b i j ^ 2 = (b * bᵀ).trace := by
    intro n b
    simp only [trace, diag, mul_apply, transpose_apply, pow_two]
    exact Finset.sum_comm
  set A := colsM docs
  have hT : (p.u * (p.uᵀ * A) * Aᵀ).trace = ∑ i, p.s i ^ 2 := by
    have := congrArg trace h.exact
    rw [trace_diagonal] at this
    rw [← this, transpose_mul, transpose_transpose, Matrix.mul_assoc, trace_mul_comm]
    simp only [Matrix.mul_assoc]
    rfl
  have hT2 : (A * (p.u * (p.uᵀ * A))ᵀ).trace = ∑ i, p.s i ^ 2 := by
    rw [← hT, ← trace_transpose]
    simp only [transpose_mul, transpose_transpose]
  have hT3 : (p.u * (p.uᵀ * A) * (p.u * (p.uᵀ * A))ᵀ).trace = ∑ i, p.s i ^ 2 := by
    rw [← hT]
    simp only [transpose_mul, transpose_transpose, Matrix.mul_assoc]
    rw [trace_mul_comm]
    simp only [Matrix.mul_assoc]
    rw [h.orth, Matrix.mul_one, trace_mul_comm]
    simp only [Matrix.mul_assoc]
    rw [← Matrix.mul_assoc A, trace_mul_comm]
    simp only [Matrix.mul_assoc]
  have key : (A * Aᵀ).trace = ∑ i, p.s i ^ 2
      + ((A - p.u * (p.uᵀ * A)) * (A - p.u * (p.uᵀ * A))ᵀ).trace := by
    rw [transpose_sub, Matrix.mul_sub, Matrix.sub_mul, Matrix.sub_mul, trace_sub, trace_sub, trace_sub, hT, hT2, hT3]
    ring
  rw [frob, frob]
  refine ⟨key, ?_⟩
  rw [key]
  linarith [trace_mul_transpose_nonneg (A - p.u * (p.uᵀ * A))]

theorem finish_exact {m S : ℕ} (lib : Linalg) (hl : LinalgOk lib) (rank : ℕ) (hk : 0 < rank) (iters : ℕ) (eps : ℝ)
    (he : 0 ≤ eps) (docs : List (Fin m → ℝ)) (start : ℕ) (gauss : ℕ → Fin S → ℝ) (hc : Captures docs start gauss)
    (hne : docGram docs ≠ 0) {r : ℕ} (u : Matrix _ (Fin r) ℝ) (s : Fin r → ℝ)
    (h : Full (dirs lib iters docs start gauss).q u s (docGram docs)) :
    Good (finish rank eps (dirs lib iters docs start gauss).q u s) ∧
      ∃ E, Remainder (finish rank eps (dirs lib iters docs start gauss).q u s) rank eps (docGram docs) E := by
  have hA := dirs_capture lib hl iters docs start gauss hc
  generalize dirs lib iters docs start gauss = q at *
  have hG : q.q * q.qᵀ * docGram docs * (q.q * q.qᵀ) = docGram docs := by
    have h1 : q.q * q.qᵀ * docGram docs = docGram docs := by
      unfold docGram
      rw [← Matrix.mul_assoc, hA]
    have h2 := congrArg transpose hA
    rw [transpose_mul, transpose_mul, transpose_transpose] at h2
    rw [h1]
    unfold docGram
    rw [Matrix.mul_assoc, h2]
  have := finish_spec rank hk eps he q.q u s _ h (by rw [hG]; exact hne)
  rw [hG] at this
  exact this

/-- **C116.** If the samples capture the documents, the decomposition represents the term-document matrix, except for
what the truncation to `rank` values and the tolerance `eps` leave out. -/
theorem C116_exact {m : ℕ} (lib : Linalg) (hl : LinalgOk lib) (rank : ℕ) (hk : 0 < rank) (extra : Option ℕ) (iters : ℕ)
    (eps : ℝ) (he : 0 ≤ eps) (size : ℕ) (hz : 0 < size) (docs : List (Fin m → ℝ))
    (gauss : ℕ → Fin (samples rank extra) → ℝ) (hc : Captures docs 0 gauss)
    (hne : colsM docs * (colsM docs)ᵀ ≠ 0) :
    let p := streamSvd lib rank extra iters eps size (fun _ => docs) gauss
    Good p ∧ ∃ E, Remainder p rank eps (colsM docs * (colsM docs)ᵀ) E := by
  obtain ⟨r, u, s, h1, h2⟩ := stream_full lib hl rank extra iters eps size hz docs gauss
  dsimp only
  rw [h1]
  exact finish_exact lib hl rank hk iters eps he docs 0 gauss hc hne u s h2

/-- **C116.** The same for a sparse matrix. -/
theorem C116_exact_sparse {m : ℕ} (lib : Linalg) (hl : LinalgOk lib) (rank : ℕ) (hk : 0 < rank) (extra : Option ℕ)
    (iters : ℕ) (eps : ℝ) (he : 0 ≤ eps) (docs : List (Fin m → ℝ)) (start : ℕ)
    (gauss : ℕ → Fin (samples rank extra) → ℝ) (hc : Captures docs start gauss)
    (hne : colsM docs * (colsM docs)ᵀ ≠ 0) :
    let p := sparseSvd lib rank extra iters eps docs start gauss
    Good p ∧ ∃ E, Remainder p rank eps (colsM docs * (colsM docs)ᵀ) E := by
  obtain ⟨r, u, s, h1, h2⟩ := sparse_full lib hl rank extra iters eps docs start gauss
  dsimp only
  rw [h1]
  exact finish_exact lib hl rank hk iters eps he docs start gauss hc hne u s h2

/-- What a list of chunks of documents represents, each chunk giving weight `decay²` to what was there. -/
def weightedDocs {m : ℕ} (decay : ℝ) (chunks : List (List (Fin m → ℝ))) : Matrix (Fin m) (Fin m) ℝ :=
  chunks.foldl (fun G c => decay ^ 2 • G + colsM c * (colsM c)ᵀ) 0

theorem weightedDocs_one {m : ℕ} (chunks : List (List (Fin m → ℝ))) :
    weightedDocs 1 chunks = docGram chunks.flatten := by
  have : ∀ (cs : List (List (Fin m → ℝ))) G,
      cs.foldl (fun G c => (1 : ℝ) ^ 2 • G + colsM c * (colsM c)ᵀ) G = G + docGram cs.flatten := by
    intro cs
    induction cs with
    | nil => intro G; simp [docGram_nil]
    | cons c cs ih =>
      intro G
      rw [List.foldl_cons, ih, List.flatten_cons, docGram_append, one_pow, one_smul, add_assoc]
      rfl
  rw [weightedDocs, this, zero_add]

theorem onePass_fst {m : ℕ} (lib : Linalg) (k : ℕ) (extra : Option ℕ) (iters : ℕ) (decay : ℝ)
    (gauss : ℕ → Fin (samples k extra) → ℝ) (cs : List (List (Fin m → ℝ))) (st : ℕ × Option (Proj m)) :
    (cs.foldl (onePassStep lib k extra iters decay gauss) st).1 = st.1 + cs.flatten.length := by
  induction cs generalizing st with
  | nil => simp
  | cons c cs ih =>
    rw [List.foldl_cons, ih]
    simp only [onePassStep, List.flatten_cons, List.length_append]
    omega

theorem onePass_spec {m : ℕ} (lib : Linalg) (hl : LinalgOk lib) (k : ℕ) (hk : 0 < k) (extra : Option ℕ) (iters : ℕ)
    (decay : ℝ) (gauss : ℕ → Fin (samples k extra) → ℝ) (cs : List (List (Fin m → ℝ))) (hne : cs ≠ [])
    (hc : ∀ pre c post, cs = pre ++ c :: post →
      Captures c pre.flatten.length gauss ∧ colsM c * (colsM c)ᵀ ≠ 0) :
    ∃ p, (cs.foldl (onePassStep lib k extra iters decay gauss) (0, none)).2 = some p ∧ Good p ∧ p.n ≤ k ∧
      ∃ E, gram p + E = weightedDocs decay cs ∧ ∀ x, 0 ≤ x ⬝ᵥ E *ᵥ x := by
  induction cs using List.reverseRecOn with
  | nil => exact absurd rfl hne
  | append_singleton cs c ih =>
    obtain ⟨c1, c2⟩ := hc cs c [] (by simp)
    have hst : ((cs ++ [c]).foldl (onePassStep lib k extra iters decay gauss) ((0 : ℕ), (none : Option (Proj m)))).2
        = mergeInto lib k decay (cs.foldl (onePassStep lib k extra iters decay gauss) (0, none)).2
          (some (sparseSvd lib k extra iters defaultEps c cs.flatten.length gauss)) := by
      rw [List.foldl_append]
      simp only [List.foldl_cons, List.foldl_nil, onePassStep]
      rw [onePass_fst]
      simp
    obtain ⟨g1, E, g2⟩ := C116_exact_sparse lib hl k hk extra iters defaultEps (by norm_num [defaultEps]) c
      cs.flatten.length gauss c1 c2
    have g0 := (C116_values_sparse lib hl k extra iters defaultEps c cs.flatten.length gauss).few
    set u := sparseSvd lib k extra iters defaultEps c cs.flatten.length gauss
    have hw : weightedDocs decay (cs ++ [c]) = decay ^ 2 • weightedDocs decay cs + colsM c * (colsM c)ᵀ := by
      unfold weightedDocs
      rw [List.foldl_append]
      rfl
    rw [hst, hw]
    by_cases hcs : cs = []
    · subst hcs
      refine ⟨u, rfl, g1, g0, E, ?_, g2.nonneg⟩
      rw [g2.eq]
      simp [weightedDocs]
    · obtain ⟨p, p1, p2, _, F, f1, f2⟩ := ih hcs fun pre d post h => hc pre d (post ++ [c]) (by rw [h]; simp)
      obtain ⟨m1, m2, _, D, d1, d2, _⟩ := C86_merge lib hl k hk decay p u p2 g1
      rw [p1]
      refine ⟨_, rfl, m1, m2, D + decay ^ 2 • F + E, ?_, ?_⟩
      · rw [← g2.eq, ← f1, smul_add, ← add_assoc, ← add_assoc, d1]
        abel
      · intro x
        rw [add_mulVec, add_mulVec, smul_mulVec, dotProduct_add, dotProduct_add, dotProduct_smul, smul_eq_mul]
        exact add_nonneg (add_nonneg (d2 x) (mul_nonneg (sq_nonneg _) (f2 x))) (g2.nonneg x)

/-- **C116.** Training in one pass, from the documents to the model: if the samples capture the chunks and no chunk is
all zeros, the model has orthonormal topics with positive descending values, at most `num_topics` of them, and
represents the documents, a chunk having weight `decay²` for every chunk after it, minus a remainder that is never
negative.  Without decay that is the term-document matrix of the whole corpus. -/
theorem C116_onepass {m : ℕ} (lib : Linalg) (hl : LinalgOk lib) (k : ℕ) (hk : 0 < k) (extra : Option ℕ) (iters : ℕ)
    (decay : ℝ) (size : ℕ) (hz : 0 < size) (gauss : ℕ → Fin (samples k extra) → ℝ) (corpus : List (Fin m → ℝ))
    (hne : corpus ≠ [])
    (hc : ∀ pre c post, Chunk.chunks size corpus = pre ++ c :: post →
      Captures c pre.flatten.length gauss ∧ colsM c * (colsM c)ᵀ ≠ 0) :
    ∃ p, (addOnePass lib k extra iters decay size gauss ⟨none, 0⟩ corpus).projection = some p ∧ Good p ∧ p.n ≤ k ∧
      ∃ E, gram p + E = weightedDocs decay (Chunk.chunks size corpus) ∧ (∀ x, 0 ≤ x ⬝ᵥ E *ᵥ x) ∧
        (decay = 1 → gram p + E = colsM corpus * (colsM corpus)ᵀ) := by
  have hcs : Chunk.chunks size corpus ≠ [] := by
    intro h
    have := Chunk.C15_concat hz corpus
    rw [h] at this
    exact hne this.symm
  obtain ⟨p, p1, p2, p3, E, e1, e2⟩ := onePass_spec lib hl k hk extra iters decay gauss _ hcs hc
  refine ⟨p, p1, p2, p3, E, e1, e2, ?_⟩
  intro hd
  rw [e1, hd, weightedDocs_one, Chunk.C15_concat hz]
  rfl

/-- **C116.** The documents of one pass are counted.  Those of several passes are counted if the corpus says how many they
are; if it does not, none is. -/
theorem C116_docs_processed {m : ℕ} (lib : Linalg) (k : ℕ) (extra : Option ℕ) (iters : ℕ) (decay : ℝ) (size : ℕ)
    (gauss : ℕ → Fin (samples k extra) → ℝ) (st : LsiState m) (docs : List (Fin m → ℝ)) :
    (0 < size → (addOnePass lib k extra iters decay size gauss st docs).docsProcessed
      = st.docsProcessed + docs.length) ∧
    (addTwoPass lib k extra iters decay size gauss st (fun _ => docs) (some docs.length)).docsProcessed
      = st.docsProcessed + docs.length ∧
    (addTwoPass lib k extra iters decay size gauss st (fun _ => docs) none).docsProcessed = st.docsProcessed := by
  refine ⟨?_, rfl, rfl⟩
  intro hz
  simp only [addOnePass]
  rw [onePass_fst, Chunk.C15_concat hz, zero_add]

/-- **C116.** A corpus that can be read only once is exhausted when the values are computed: the model has at most one topic,
of value 0, whatever the documents, and there is no error. -/
theorem C116_once {m : ℕ} (lib : Linalg) (hl : LinalgOk lib) (rank : ℕ) (extra : Option ℕ) (iters : ℕ) (eps : ℝ)
    (size : ℕ) (docs : List (Fin m → ℝ)) (gauss : ℕ → Fin (samples rank extra) → ℝ) :
    let p := streamSvd lib rank extra iters eps size (fun pass => if pass = 0 then docs else []) gauss
    p.n ≤ 1 ∧ ∀ i, p.s i = 0 := by
  dsimp only
  unfold streamSvd
  dsimp only
  generalize hp : (if iters + 1 = 0 then docs else []) = last
  rw [if_neg (by omega)] at hp
  subst hp
  generalize powerIterations lib size _ iters 1 _ = q
  have hx : covariance (Chunk.chunks size ([] : List (Fin m → ℝ))) q.qᵀ = 0 := by
    rw [Chunk.chunks_nil]
    rfl
  rw [hx]
  have hs := hl.svd (0 : Matrix (Fin q.n) (Fin q.n) ℝ)
  set e := lib.svd (0 : Matrix (Fin q.n) (Fin q.n) ℝ)
  have hz : ∀ i, e.s i = 0 := by
    have h1 : diagonal e.s = e.uᵀ * (e.u * diagonal e.s * e.vt) * e.vtᵀ := by
      simp only [Matrix.mul_assoc]
      rw [hs.right, Matrix.mul_one, ← Matrix.mul_assoc, hs.left, Matrix.one_mul]
    rw [hs.eq, Matrix.mul_zero, Matrix.zero_mul] at h1
    intro i
    have := congrFun (congrFun h1 i) i
    simpa using this
  have hz' : (fun i => Real.sqrt (e.s i)) = fun _ => 0 := funext fun i => by rw [hz, Real.sqrt_zero]
  constructor
  · refine (min_le_left _ _).trans ((min_le_right _ _).trans ?_)
    simp only [hz, Real.sqrt_zero]
    simp
  · intro i
    show Real.sqrt (e.s _) = 0
    rw [hz, Real.sqrt_zero]

/-! ## Examples -/

/-- Documents are captured as soon as the rows drawn for them have a right inverse. -/
theorem captures_of_inverse {m S : ℕ} (docs : List (Fin m → ℝ)) (start : ℕ) (gauss : ℕ → Fin S → ℝ)
    (M : Matrix (Fin S) (Fin docs.length) ℝ) (h : draws gauss start docs.length * M = 1) :
    Captures docs start gauss := ⟨M, by rw [Matrix.mul_assoc, h, Matrix.mul_one]⟩

example : Captures [![1, 2, 0], ![0, 1, 1]] 0 (fun (d : ℕ) (j : Fin 10) => if d = j then (1 : ℝ) else 0) := by
  apply captures_of_inverse (M := Matrix.of fun j d => if (d : ℕ) = j then (1 : ℝ) else 0)
  ext i j
  simp only [draws, mul_apply, of_apply, zero_add, one_apply]
  have hi := i.2
  rw [Finset.sum_eq_single (⟨i, by simp at hi; omega⟩ : Fin 10)]
  · simp [Fin.ext_iff, eq_comm]
  · intro b _ hb
    rw [if_neg (fun h => hb (Fin.ext h.symm)), zero_mul]
  · simp

example : colsM [![1, 2, 0], ![0, 1, 1]] * (colsM [![1, 2, 0], ![0, 1, 1]])ᵀ ≠ (0 : Matrix (Fin 3) (Fin 3) ℝ) := by
  intro h
  have := congrFun (congrFun h 0) 0
  rw [mul_apply] at this
  simp [colsM, Fin.sum_univ_two] at this

end Verif.Lsi

import Verif.Lsi.ProjModel
import Mathlib.Data.Matrix.ColumnRowPartitioned
import Mathlib.Analysis.Matrix.Spectrum
import Mathlib.Analysis.Matrix.PosDef
import Mathlib.Tactic.Linarith
import Mathlib.Tactic.FieldSimp
import Mathlib.Tactic.Positivity

/-!
# C86: merging decompositions
-/

namespace Verif.Lsi
open Matrix

/-! ## Specification -/

/-- A QR decomposition of `x`. -/
structure QrOk {ρ κ : Type} [Fintype ρ] [Fintype κ] (x : Matrix ρ κ ℝ) (d : Qr ρ κ) : Prop where
  orth : d.qᵀ * d.q = 1
  eq : d.q * d.r = x

/-- A singular value decomposition of `x`. -/
structure SvdOk {ρ κ : Type} [Fintype ρ] [Fintype κ] (x : Matrix ρ κ ℝ) (d : Svd ρ κ) : Prop where
  left : d.uᵀ * d.u = 1
  right : d.vt * d.vtᵀ = 1
  eq : d.u * diagonal d.s * d.vt = x
  nonneg : ∀ i, 0 ≤ d.s i
  sorted : Antitone d.s

/-- The library does what it says. -/
structure LinalgOk (lib : Linalg) : Prop where
  qr : ∀ {ρ κ : Type} [Fintype ρ] [Fintype κ] (x : Matrix ρ κ ℝ), QrOk x (lib.qr x)
  svd : ∀ {ρ κ : Type} [Fintype ρ] [Fintype κ] (x : Matrix ρ κ ℝ), SvdOk x (lib.svd x)

/-- The matrix `u s² uᵀ` of a projection.  It is `A Aᵀ` for the projection of a term-document matrix `A`,
and it determines the singular values and the left singular vectors of `A` (up to the choice in equal
values). -/
def gram {m : ℕ} (p : Proj m) : Matrix (Fin m) (Fin m) ℝ := p.u * diagonal (fun i => p.s i ^ 2) * p.uᵀ

/-- A projection as it should be: orthonormal columns, positive values in descending order. -/
structure Good {m : ℕ} (p : Proj m) : Prop where
  orth : p.uᵀ * p.u = 1
  pos : ∀ i, 0 < p.s i
  sorted : Antitone p.s
  some : 0 < p.n

/-! ## The clipped spectrum -/

theorem downset_eq {n : ℕ} (S : Finset (Fin n)) (h : ∀ i ∈ S, ∀ j ≤ i, j ∈ S) (i : Fin n) :
    i ∈ S ↔ (i : ℕ) < S.card := by
  have hsub : S ⊆ Finset.univ.filter fun i : Fin n => (i : ℕ) < S.card := by
    intro i hi
    rw [Finset.mem_filter]
    refine ⟨Finset.mem_univ _, ?_⟩
    have : (Finset.univ.filter fun j : Fin n => j ≤ i) ⊆ S := by
      intro j hj
      exact h i hi j (Finset.mem_filter.1 hj).2
    have hc := Finset.card_le_card this
    have : (Finset.univ.filter fun j : Fin n => j ≤ i).card = (i : ℕ) + 1 := by
      have he : (Finset.univ.filter fun j : Fin n => j ≤ i) = Finset.Iic i := by ext j; simp
      rw [he, Fin.card_Iic]
    omega
  have hcard : (Finset.univ.filter fun i : Fin n => (i : ℕ) < S.card).card ≤ S.card := by
    rw [Fin.card_filter_val_lt]
    exact min_le_right _ _
  have := Finset.eq_of_subset_of_card_le hsub hcard
  constructor
  · intro hi
    rw [this, Finset.mem_filter] at hi
    exact hi.2
  · intro hi
    rw [this, Finset.mem_filter]
    exact ⟨Finset.mem_univ _, hi⟩

theorem relSpectrum_eq {n : ℕ} (s : Fin n → ℝ) (h0 : ∀ i, 0 ≤ s i) (ht : 0 < ∑ j, s j) (i : Fin n) :
    relSpectrum s i = (∑ j with ¬ j ≤ i, s j) / ∑ j, s j := by
  unfold relSpectrum
  have hsplit := Finset.sum_filter_add_sum_filter_not Finset.univ (fun j => j ≤ i) s
  have h1 : 1 - ∑ j with j ≤ i, s j / ∑ j, s j = (∑ j with ¬ j ≤ i, s j) / ∑ j, s j := by
    rw [← Finset.sum_div, eq_div_iff ht.ne', sub_mul, div_mul_cancel₀ _ ht.ne']
    linarith
  rw [h1, abs_of_nonneg]
  exact div_nonneg (Finset.sum_nonneg fun j _ => h0 j) ht.le

/-- **C86.** What `clip_spectrum` keeps: at least one and at most `k` values, all of them positive; if it
keeps fewer than `k` then at most the fraction `discard` of the spectrum is discarded. -/
theorem C86_clip {n : ℕ} (s : Fin n → ℝ) (h0 : ∀ i, 0 ≤ s i) (hs : Antitone s) (ht : 0 < ∑ j, s j)
    (k : ℕ) (hk : 0 < k) (discard : ℝ) (hd : 0 ≤ discard) :
    let keep := clipSpectrum s k discard
    1 ≤ keep ∧ keep ≤ k ∧ (∀ i : Fin n, (i : ℕ) < keep → 0 < s i) ∧
      (keep < k → ∑ j ∈ Finset.univ.filter (fun j : Fin n => ¬ (j : ℕ) < keep), s j ≤ discard * ∑ j, s j) := by
  have hk' : (0 : ℝ) < k := by exact_mod_cast hk
  have hthr : 0 ≤ min discard (1 / (k : ℝ)) := le_min hd (by positivity)
  have hdown : ∀ i ∈ (Finset.univ.filter fun i => relSpectrum s i > min discard (1 / (k : ℝ))),
      ∀ j ≤ i, j ∈ (Finset.univ.filter fun i => relSpectrum s i > min discard (1 / (k : ℝ))) := by
    intro i hi j hj
    rw [Finset.mem_filter] at hi ⊢
    refine ⟨Finset.mem_univ _, lt_of_lt_of_le hi.2 ?_⟩
    rw [relSpectrum_eq s h0 ht, relSpectrum_eq s h0 ht]
    apply div_le_div_of_nonneg_right _ ht.le
    apply Finset.sum_le_sum_of_subset_of_nonneg
    · intro x hx
      rw [Finset.mem_filter] at hx ⊢
      exact ⟨Finset.mem_univ _, fun hc => hx.2 (hc.trans hj)⟩
    · intro x _ _
      exact h0 x
  have hmem := downset_eq _ hdown
  have tail_pos : ∀ i : Fin n, 0 < ∑ j with i ≤ j, s j → 0 < s i := by
    intro i hsum
    by_contra hcon
    have hz : s i = 0 := le_antisymm (not_lt.1 hcon) (h0 i)
    have : ∑ j with i ≤ j, s j = 0 := by
      apply Finset.sum_eq_zero
      intro j hj
      rw [Finset.mem_filter] at hj
      exact le_antisymm (hz ▸ hs hj.2) (h0 j)
    linarith
  dsimp only
  unfold clipSpectrum
  rw [if_neg ht.ne']
  generalize hc : (Finset.univ.filter fun i => relSpectrum s i > min discard (1 / (k : ℝ))).card = c at hmem
  dsimp only
  refine ⟨by omega, min_le_left _ _, ?_, ?_⟩
  · intro i hi
    have hi1 : (i : ℕ) < 1 + c := lt_of_lt_of_le hi (min_le_right _ _)
    apply tail_pos
    by_cases hz : (i : ℕ) = 0
    · have : (Finset.univ.filter fun j : Fin n => i ≤ j) = Finset.univ := by
        ext j
        simp only [Finset.mem_filter, Finset.mem_univ, true_and, iff_true]
        rw [Fin.le_def]
        omega
      rw [this]
      exact ht
    · have hlt : (i : ℕ) - 1 < n := by omega
      have hm := (hmem ⟨(i : ℕ) - 1, hlt⟩).2 (by simp only; omega)
      rw [Finset.mem_filter, relSpectrum_eq s h0 ht] at hm
      have hpos := lt_of_le_of_lt hthr hm.2
      have hnum := (div_pos_iff_of_pos_right ht).1 hpos
      have : (Finset.univ.filter fun j : Fin n => ¬ j ≤ ⟨(i : ℕ) - 1, hlt⟩)
          = Finset.univ.filter fun j : Fin n => i ≤ j := by
        ext j
        simp only [Finset.mem_filter, Finset.mem_univ, true_and]
        rw [Fin.le_def, Fin.le_def]
        simp only
        omega
      rw [this] at hnum
      exact hnum
  · intro hlt
    have hkeep : min k (1 + c) = 1 + c := by omega
    rw [hkeep]
    by_cases hcn : c < n
    · have hm : ¬ (⟨c, hcn⟩ : Fin n) ∈
          (Finset.univ.filter fun i => relSpectrum s i > min discard (1 / (k : ℝ))) := by
        rw [hmem]
        simp
      rw [Finset.mem_filter, relSpectrum_eq s h0 ht] at hm
      have hle : (∑ j with ¬ j ≤ (⟨c, hcn⟩ : Fin n), s j) / ∑ j, s j ≤ discard := by
        by_contra hcon
        exact hm ⟨Finset.mem_univ _, lt_of_le_of_lt (min_le_left _ _) (not_le.1 hcon)⟩
      rw [div_le_iff₀ ht] at hle
      have : (Finset.univ.filter fun j : Fin n => ¬ j ≤ ⟨c, hcn⟩)
          = Finset.univ.filter fun j : Fin n => ¬ (j : ℕ) < 1 + c := by
        ext j
        simp only [Finset.mem_filter, Finset.mem_univ, true_and]
        rw [Fin.le_def]
        simp only
        omega
      rw [this] at hle
      exact hle
    · have : (Finset.univ.filter fun j : Fin n => ¬ (j : ℕ) < 1 + c) = ∅ := by
        ext j
        simp only [Finset.mem_filter, Finset.mem_univ, true_and, Finset.notMem_empty, iff_false, not_not]
        omega
      rw [this, Finset.sum_empty]
      exact mul_nonneg hd ht.le

/-! ## The merge -/

section
variable {m n1 n2 nq : ℕ}

/-- The two bases side by side. -/
def bases (u1 : Matrix (Fin m) (Fin n1) ℝ) (u2 : Matrix (Fin m) (Fin n2) ℝ) :
    Matrix (Fin m) (Fin n1 ⊕ Fin n2) ℝ := fromCols u1 u2

theorem innerMatrix_eq (decay : ℝ) (s1 : Fin n1 → ℝ) (s2 : Fin n2 → ℝ)
    (c : Matrix (Fin n1) (Fin n2) ℝ) (r : Matrix (Fin nq) (Fin n2) ℝ) :
    innerMatrix decay s1 s2 c r
      = fromBlocks 1 c 0 r * diagonal (Sum.elim (fun i => decay * s1 i) s2) := by
  ext i j
  rw [mul_diagonal]
  rcases i with i | i <;> rcases j with j | j
  · simp only [innerMatrix, fromBlocks_apply₁₁, Sum.elim_inl, diagonal_apply, one_apply]
    split <;> simp_all
  · simp [innerMatrix]
  · simp [innerMatrix]
  · simp [innerMatrix]

theorem bases_mul (u1 : Matrix (Fin m) (Fin n1) ℝ) (u2 : Matrix (Fin m) (Fin n2) ℝ)
    (q : Matrix (Fin m) (Fin nq) ℝ) (r : Matrix (Fin nq) (Fin n2) ℝ)
    (hq : q * r = u2 - u1 * (u1ᵀ * u2)) :
    bases u1 q * fromBlocks 1 (u1ᵀ * u2) 0 r = bases u1 u2 := by
  unfold bases
  rw [fromCols_mul_fromBlocks, hq]
  simp

theorem bases_gram (u1 : Matrix (Fin m) (Fin n1) ℝ) (u2 : Matrix (Fin m) (Fin n2) ℝ)
    (q : Matrix (Fin m) (Fin nq) ℝ) (r : Matrix (Fin nq) (Fin n2) ℝ)
    (hu : u1ᵀ * u1 = 1) (hqq : qᵀ * q = 1) (hq : q * r = u2 - u1 * (u1ᵀ * u2)) :
    (bases u1 u2)ᵀ * bases u1 u2
      = (fromBlocks 1 (u1ᵀ * u2) 0 r)ᵀ * fromBlocks 1 (u1ᵀ * u2) 0 r := by
  have hcross : u1ᵀ * (q * r) = 0 := by
    rw [hq, Matrix.mul_sub, ← Matrix.mul_assoc u1ᵀ u1, hu, Matrix.one_mul, sub_self]
  have hu2 : u2 = u1 * (u1ᵀ * u2) + q * r := by rw [hq]; abel
  have hrr : (q * r)ᵀ * (q * r) = rᵀ * r := by
    rw [transpose_mul, Matrix.mul_assoc, ← Matrix.mul_assoc qᵀ q, hqq, Matrix.one_mul]
  have hcc : (u1 * (u1ᵀ * u2))ᵀ * (u1 * (u1ᵀ * u2)) = (u1ᵀ * u2)ᵀ * (u1ᵀ * u2) := by
    rw [transpose_mul u1, Matrix.mul_assoc, ← Matrix.mul_assoc u1ᵀ u1, hu, Matrix.one_mul]
  have hx1 : (u1 * (u1ᵀ * u2))ᵀ * (q * r) = 0 := by
    rw [transpose_mul u1, Matrix.mul_assoc, hcross, Matrix.mul_zero]
  have hx2 : (q * r)ᵀ * (u1 * (u1ᵀ * u2)) = 0 := by
    have := congrArg transpose hx1
    rw [transpose_mul, transpose_transpose, transpose_zero] at this
    exact this
  have h22 : u2ᵀ * u2 = (u1ᵀ * u2)ᵀ * (u1ᵀ * u2) + rᵀ * r := by
    have e : u2ᵀ * u2 = (u1 * (u1ᵀ * u2) + q * r)ᵀ * (u1 * (u1ᵀ * u2) + q * r) := by
      rw [← hu2]
    rw [e, transpose_add, Matrix.add_mul, Matrix.mul_add, Matrix.mul_add, hcc, hx1, hx2, hrr]
    abel
  unfold bases
  rw [transpose_fromCols, fromRows_mul_fromCols, fromBlocks_transpose, fromBlocks_multiply, hu, h22]
  simp [transpose_mul]

theorem gram_entry {p : Proj m} (i j : Fin m) : gram p i j = ∑ l, p.s l ^ 2 * p.u i l * p.u j l := by
  unfold gram
  rw [mul_apply]
  apply Finset.sum_congr rfl
  intro l _
  rw [mul_diagonal, transpose_apply]
  ring

theorem canonical_eq {n : ℕ} (u : Matrix (Fin m) (Fin n) ℝ) :
    ∃ σ : Fin n → ℝ, (∀ j, σ j * σ j = 1) ∧ (∀ i j, canonical u i j = u i j * σ j) := by
  by_cases h : 0 < m
  · refine ⟨fun j => if u ⟨0, h⟩ j < 0 then -1 else 1, ?_, ?_⟩
    · intro j
      dsimp only
      split <;> norm_num
    · intro i j
      simp only [canonical, of_apply, dif_pos h]
      split <;> ring
  · refine ⟨fun _ => 1, by simp, ?_⟩
    intro i j
    simp [canonical, h]

end

theorem sum_castLE {n k : ℕ} (f : Fin n → ℝ) :
    ∑ l : Fin (min k n), f (Fin.castLE (min_le_right k n) l) = ∑ l ∈ Finset.univ.filter (fun l : Fin n => (l : ℕ) < k), f l := by
  refine Finset.sum_bij' (fun l _ => Fin.castLE (min_le_right k n) l)
    (fun l hl => ⟨(l : ℕ), lt_min (Finset.mem_filter.1 hl).2 l.2⟩) ?_ ?_ ?_ ?_ ?_
  · intro l _
    rw [Finset.mem_filter]
    exact ⟨Finset.mem_univ _, lt_of_lt_of_le l.2 (min_le_left _ _)⟩
  · intro l _
    exact Finset.mem_univ _
  · intro l _
    rfl
  · intro l _
    rfl
  · intro l _
    rfl

theorem quad_form {m n : ℕ} (U : Matrix (Fin m) (Fin n) ℝ) (w : Fin n → ℝ) (x : Fin m → ℝ) :
    x ⬝ᵥ (U * diagonal w * Uᵀ) *ᵥ x = ∑ l, w l * (∑ i, U i l * x i) ^ 2 := by
  have h1 : (U * diagonal w * Uᵀ) *ᵥ x = U *ᵥ (fun l => w l * ∑ i, U i l * x i) := by
    rw [← mulVec_mulVec, ← mulVec_mulVec]
    congr 1
    funext l
    rw [mulVec_diagonal]
    rfl
  rw [h1, dotProduct_mulVec]
  unfold dotProduct
  apply Finset.sum_congr rfl
  intro l _
  have : (x ᵥ* U) l = ∑ i, U i l * x i := by
    unfold vecMul dotProduct
    exact Finset.sum_congr rfl fun i _ => mul_comm _ _
  rw [this]
  ring

theorem trace_form {m n : ℕ} (U : Matrix (Fin m) (Fin n) ℝ) (w : Fin n → ℝ) :
    (U * diagonal w * Uᵀ).trace = ∑ l, w l * (Uᵀ * U) l l := by
  rw [trace_mul_comm, ← Matrix.mul_assoc]
  unfold trace
  apply Finset.sum_congr rfl
  intro l _
  rw [diag_apply, mul_diagonal, mul_comm]

theorem bessel {m n : ℕ} (U : Matrix (Fin m) (Fin n) ℝ) (T : Finset (Fin n))
    (hU : ∀ i ∈ T, ∀ j ∈ T, (Uᵀ * U) i j = if i = j then 1 else 0) (x : Fin m → ℝ) :
    ∑ l ∈ T, (∑ i, U i l * x i) ^ 2 ≤ x ⬝ᵥ x := by
  have ha : ∀ a : Fin n → ℝ, (∀ l, a l = ∑ i, U i l * x i) → ∑ l ∈ T, a l ^ 2 ≤ x ⬝ᵥ x := by
    intro a ha
    have hnn : 0 ≤ ∑ i, (x i - ∑ l ∈ T, a l * U i l) ^ 2 := Finset.sum_nonneg fun i _ => sq_nonneg _
    have h1 : ∑ i, x i * ∑ l ∈ T, a l * U i l = ∑ l ∈ T, a l ^ 2 := by
      simp only [Finset.mul_sum]
      rw [Finset.sum_comm]
      apply Finset.sum_congr rfl
      intro l _
      calc ∑ i, x i * (a l * U i l) = a l * ∑ i, U i l * x i := by
            rw [Finset.mul_sum]
            exact Finset.sum_congr rfl fun i _ => by ring
        _ = a l ^ 2 := by rw [← ha l, pow_two]
    have h2 : ∑ i, (∑ l ∈ T, a l * U i l) ^ 2 = ∑ l ∈ T, a l ^ 2 := by
      have : ∀ i, (∑ l ∈ T, a l * U i l) ^ 2 = ∑ l ∈ T, ∑ l' ∈ T, a l * a l' * (U i l * U i l') := by
        intro i
        rw [pow_two, Finset.sum_mul_sum]
        exact Finset.sum_congr rfl fun l _ => Finset.sum_congr rfl fun l' _ => by ring
      simp only [this]
      rw [Finset.sum_comm]
      apply Finset.sum_congr rfl
      intro l hl
      rw [Finset.sum_comm]
      have : ∀ l' ∈ T, ∑ i, a l * a l' * (U i l * U i l') = if l = l' then a l ^ 2 else 0 := by
        intro l' hl'
        rw [← Finset.mul_sum]
        have := hU l hl l' hl'
        rw [mul_apply] at this
        simp only [transpose_apply] at this
        rw [this]
        split
        · rename_i h
          subst h
          ring
        · ring
      rw [Finset.sum_congr rfl this, Finset.sum_ite_eq, if_pos hl]
    have h3 : ∑ i, (x i - ∑ l ∈ T, a l * U i l) ^ 2
        = x ⬝ᵥ x - 2 * ∑ i, x i * ∑ l ∈ T, a l * U i l + ∑ i, (∑ l ∈ T, a l * U i l) ^ 2 := by
      unfold dotProduct
      rw [Finset.mul_sum, ← Finset.sum_sub_distrib, ← Finset.sum_add_distrib]
      exact Finset.sum_congr rfl fun i _ => by ring
    rw [h3, h1, h2] at hnn
    linarith
  exact ha _ fun _ => rfl

section
variable {m n1 n2 nq : ℕ}

/-- The facts about all columns, before truncation. -/
theorem full_spec (decay : ℝ) (u1 : Matrix (Fin m) (Fin n1) ℝ) (u2 : Matrix (Fin m) (Fin n2) ℝ)
    (s1 : Fin n1 → ℝ) (s2 : Fin n2 → ℝ) (q : Matrix (Fin m) (Fin nq) ℝ) (r : Matrix (Fin nq) (Fin n2) ℝ)
    (hu : u1ᵀ * u1 = 1) (hqq : qᵀ * q = 1) (hq : q * r = u2 - u1 * (u1ᵀ * u2))
    (e : Svd (Fin n1 ⊕ Fin nq) (Fin n1 ⊕ Fin n2)) (he : SvdOk (innerMatrix decay s1 s2 (u1ᵀ * u2) r) e) :
    (∀ i j, e.s i * e.s j * ((bases u1 q * e.u)ᵀ * (bases u1 q * e.u)) i j
        = if i = j then e.s i ^ 2 else 0) ∧
      (bases u1 q * e.u) * diagonal (fun i => e.s i ^ 2) * (bases u1 q * e.u)ᵀ
        = decay ^ 2 • (u1 * diagonal (fun i => s1 i ^ 2) * u1ᵀ) + u2 * diagonal (fun i => s2 i ^ 2) * u2ᵀ := by
  set D := diagonal (Sum.elim (fun i => decay * s1 i) s2) with hD
  set L := fromBlocks (1 : Matrix (Fin n1) (Fin n1) ℝ) (u1ᵀ * u2) 0 r with hL
  set W := bases u1 q with hW
  set N := bases u1 u2 with hN
  have hK : innerMatrix decay s1 s2 (u1ᵀ * u2) r = L * D := innerMatrix_eq _ _ _ _ _
  have hWL : W * L = N := bases_mul u1 u2 q r hq
  have hNN : Nᵀ * N = Lᵀ * L := bases_gram u1 u2 q r hu hqq hq
  have hKv : L * D * e.vtᵀ = e.u * diagonal e.s := by
    rw [← hK, ← he.eq, Matrix.mul_assoc _ e.vt, he.right, Matrix.mul_one]
  have hUs : W * e.u * diagonal e.s = N * D * e.vtᵀ := by
    rw [Matrix.mul_assoc, ← hKv, ← hWL]
    simp only [Matrix.mul_assoc]
  have hb : diagonal e.s * ((W * e.u)ᵀ * (W * e.u)) * diagonal e.s = diagonal (fun i => e.s i * e.s i) := by
    have t1 : (W * e.u * diagonal e.s)ᵀ * (W * e.u * diagonal e.s)
        = diagonal e.s * ((W * e.u)ᵀ * (W * e.u)) * diagonal e.s := by
      rw [transpose_mul (W * e.u) (diagonal e.s), diagonal_transpose]
      simp only [Matrix.mul_assoc]
    have t2 : (N * D * e.vtᵀ)ᵀ * (N * D * e.vtᵀ) = (L * D * e.vtᵀ)ᵀ * (L * D * e.vtᵀ) := by
      have a1 : (N * D * e.vtᵀ)ᵀ * (N * D * e.vtᵀ) = (D * e.vtᵀ)ᵀ * (Nᵀ * N) * (D * e.vtᵀ) := by
        rw [Matrix.mul_assoc N, transpose_mul N]
        simp only [Matrix.mul_assoc]
      have a2 : (L * D * e.vtᵀ)ᵀ * (L * D * e.vtᵀ) = (D * e.vtᵀ)ᵀ * (Lᵀ * L) * (D * e.vtᵀ) := by
        rw [Matrix.mul_assoc L, transpose_mul L]
        simp only [Matrix.mul_assoc]
      rw [a1, a2, hNN]
    rw [← t1, hUs, t2, hKv, transpose_mul, diagonal_transpose, Matrix.mul_assoc, ← Matrix.mul_assoc e.uᵀ,
      he.left, Matrix.one_mul, diagonal_mul_diagonal]
  constructor
  · intro i j
    have := congrFun (congrFun hb i) j
    rw [mul_diagonal, diagonal_mul, diagonal_apply] at this
    rw [pow_two]
    rw [← this]
    ring
  · have hproj : N * D * e.vtᵀ * e.vt = N * D := by
      rw [← hWL, Matrix.mul_assoc W L D, Matrix.mul_assoc W, hKv, Matrix.mul_assoc, he.eq, hK]
    have c1 : (W * e.u) * diagonal (fun i => e.s i ^ 2) * (W * e.u)ᵀ
        = (W * e.u * diagonal e.s) * (W * e.u * diagonal e.s)ᵀ := by
      rw [transpose_mul (W * e.u) (diagonal e.s), diagonal_transpose, ← Matrix.mul_assoc,
        Matrix.mul_assoc (W * e.u) (diagonal e.s) (diagonal e.s), diagonal_mul_diagonal]
      simp only [pow_two]
    have c2 : (N * D * e.vtᵀ) * (N * D * e.vtᵀ)ᵀ = (N * D) * (N * D)ᵀ := by
      rw [transpose_mul (N * D) e.vtᵀ, transpose_transpose, ← Matrix.mul_assoc, hproj]
    have c3 : N * D = fromCols (u1 * diagonal fun i => decay * s1 i) (u2 * diagonal s2) := by
      ext i j
      rw [hD, mul_diagonal, hN]
      rcases j with j | j
      · simp [bases, fromCols_apply_inl]
      · simp [bases, fromCols_apply_inr]
    rw [c1, hUs, c2, c3, transpose_fromCols, fromCols_mul_fromRows]
    congr 1
    · rw [transpose_mul, diagonal_transpose, ← Matrix.mul_assoc, Matrix.mul_assoc u1, diagonal_mul_diagonal,
        ← Matrix.smul_mul, ← Matrix.mul_smul]
      congr 2
      ext a b
      simp only [diagonal_apply, Matrix.smul_apply, smul_eq_mul]
      split <;> ring
    · rw [transpose_mul, diagonal_transpose, ← Matrix.mul_assoc, Matrix.mul_assoc u2, diagonal_mul_diagonal]
      simp only [pow_two]

end

/-- The whole theorem about the merge, with the actual decompositions. -/
theorem merge_spec {m : ℕ} (lib : Linalg) (k : ℕ) (hk : 0 < k) (decay : ℝ) (p1 p2 : Proj m)
    (h1 : p1.uᵀ * p1.u = 1)
    (hq : QrOk (p2.u - p1.u * (p1.uᵀ * p2.u)) (lib.qr (p2.u - p1.u * (p1.uᵀ * p2.u))))
    (hs : SvdOk (innerMatrix decay p1.s p2.s (p1.uᵀ * p2.u) (lib.qr (p2.u - p1.u * (p1.uᵀ * p2.u))).r)
      (lib.svd (innerMatrix decay p1.s p2.s (p1.uᵀ * p2.u)
        (lib.qr (p2.u - p1.u * (p1.uᵀ * p2.u))).r)))
    (hne : decay ^ 2 • gram p1 + gram p2 ≠ 0) :
    let p := merge lib k decay p1 p2
    Good p ∧ p.n ≤ k ∧ (∀ (h : 0 < m) j, 0 ≤ p.u ⟨0, h⟩ j) ∧
      ∃ E : Matrix (Fin m) (Fin m) ℝ, gram p + E = decay ^ 2 • gram p1 + gram p2 ∧
        (∀ x, 0 ≤ x ⬝ᵥ E *ᵥ x) ∧
        (∀ x, ∀ i, x ⬝ᵥ E *ᵥ x ≤ p.s i ^ 2 * x ⬝ᵥ x) ∧
        (p.n < k → E.trace ≤ 1 / 1000 * (decay ^ 2 • gram p1 + gram p2).trace) := by
  obtain ⟨hb, hg⟩ := full_spec decay p1.u p2.u p1.s p2.s _ _ h1 hq.orth hq.eq _ hs
  set d := lib.qr (p2.u - p1.u * (p1.uᵀ * p2.u)) with hd
  set e := lib.svd (innerMatrix decay p1.s p2.s (p1.uᵀ * p2.u) d.r) with he
  set U := bases p1.u d.q * e.u with hU
  have hg' : U * diagonal (fun i => e.s i ^ 2) * Uᵀ = decay ^ 2 • gram p1 + gram p2 := hg
  have hsum : 0 < ∑ l, e.s l ^ 2 := by
    refine lt_of_le_of_ne (Finset.sum_nonneg fun l _ => sq_nonneg _) fun hz => hne ?_
    have hall := (Finset.sum_eq_zero_iff_of_nonneg fun l _ => sq_nonneg (e.s l)).1 hz.symm
    have : (fun i => e.s i ^ 2) = fun _ => 0 := funext fun i => hall i (Finset.mem_univ _)
    rw [← hg', this]
    simp
  have hanti : Antitone fun i => e.s i ^ 2 := fun a b hab =>
    pow_le_pow_left₀ (hs.nonneg b) (hs.sorted hab) 2
  obtain ⟨k1, k2, k3, k4⟩ := C86_clip (fun i => e.s i ^ 2) (fun i => sq_nonneg _) hanti hsum k hk (1 / 1000)
    (by norm_num)
  set keep := clipSpectrum (fun i => e.s i ^ 2) k (1 / 1000) with hkeep
  have hpos : ∀ i : Fin e.n, (i : ℕ) < keep → 0 < e.s i := by
    intro i hi
    have := k3 i hi
    exact lt_of_le_of_ne (hs.nonneg i) fun h => by simp [← h] at this
  have hen : 0 < e.n := by
    by_contra hcon
    have hz : e.n = 0 := by omega
    have : ∑ l, e.s l ^ 2 = 0 := by
      apply Finset.sum_eq_zero
      intro l _
      exact absurd l.2 (by omega)
    linarith
  obtain ⟨σ, hσ, hcan⟩ := canonical_eq (p1.u * (takeCols e.u keep).submatrix Sum.inl id
    + d.q * (takeCols e.u keep).submatrix Sum.inr id)
  have hcols : ∀ i (l : Fin (min keep e.n)), (p1.u * (takeCols e.u keep).submatrix Sum.inl id
      + d.q * (takeCols e.u keep).submatrix Sum.inr id) i l = U i (Fin.castLE (min_le_right keep e.n) l) := by
    intro i l
    rw [hU, Matrix.add_apply, mul_apply, mul_apply, mul_apply, Fintype.sum_sum_type]
    rfl
  set X := p1.u * (takeCols e.u keep).submatrix Sum.inl id
    + d.q * (takeCols e.u keep).submatrix Sum.inr id with hX
  have hu : ∀ i (l : Fin (min keep e.n)), canonical X i l
      = U i (Fin.castLE (min_le_right keep e.n) l) * σ l := by
    intro i l
    rw [← hcols]
    exact hcan i l
  have hn : (merge lib k decay p1 p2).n = min keep e.n := rfl
  have horth : ∀ i j : Fin e.n, 0 < e.s i → 0 < e.s j → (Uᵀ * U) i j = if i = j then 1 else 0 := by
    intro i j hi hj
    have := hb i j
    by_cases hij : i = j
    · subst hij
      rw [if_pos rfl] at this ⊢
      have h2 : e.s i * e.s i ≠ 0 := (mul_pos hi hi).ne'
      rw [pow_two] at this
      exact mul_left_cancel₀ h2 (by rw [this, mul_one])
    · rw [if_neg hij] at this ⊢
      rcases mul_eq_zero.1 this with h | h
      · exact absurd h (mul_pos hi hj).ne'
      · exact h
  have hlt : ∀ l : Fin (min keep e.n), ((Fin.castLE (min_le_right keep e.n) l : Fin e.n) : ℕ) < keep :=
    fun l => lt_of_lt_of_le l.2 (min_le_left _ _)
  have hVorth : (canonical X)ᵀ * canonical X = 1 := by
    ext i j
    have : ((canonical X)ᵀ * canonical X) i j
        = σ i * σ j * (Uᵀ * U) (Fin.castLE (min_le_right keep e.n) i) (Fin.castLE (min_le_right keep e.n) j) := by
      rw [mul_apply, mul_apply, Finset.mul_sum]
      apply Finset.sum_congr rfl
      intro a _
      rw [transpose_apply, transpose_apply, hu, hu]
      ring
    rw [this, horth _ _ (hpos _ (hlt i)) (hpos _ (hlt j)), one_apply]
    by_cases hij : i = j
    · subst hij
      rw [if_pos rfl, if_pos rfl, hσ, mul_one]
    · rw [if_neg hij, if_neg (fun h => hij (Fin.castLE_injective _ h)), mul_zero]
  have hfirst : ∀ (hm : 0 < m) (j : Fin (min keep e.n)), 0 ≤ canonical X ⟨0, hm⟩ j := by
    intro hm j
    simp only [canonical, of_apply, dif_pos hm]
    split
    · linarith
    · linarith
  have hVgram : ∀ i j, (canonical X * diagonal (fun l => e.s (Fin.castLE (min_le_right keep e.n) l) ^ 2)
      * (canonical X)ᵀ) i j
        = ∑ l ∈ Finset.univ.filter (fun l : Fin e.n => (l : ℕ) < keep), e.s l ^ 2 * U i l * U j l := by
    intro i j
    rw [mul_apply, ← sum_castLE (fun l => e.s l ^ 2 * U i l * U j l)]
    apply Finset.sum_congr rfl
    intro l _
    rw [mul_diagonal, transpose_apply, hu, hu]
    have := hσ l
    calc U i (Fin.castLE (min_le_right keep e.n) l) * σ l * e.s (Fin.castLE (min_le_right keep e.n) l) ^ 2
          * (U j (Fin.castLE (min_le_right keep e.n) l) * σ l)
        = e.s (Fin.castLE (min_le_right keep e.n) l) ^ 2 * U i (Fin.castLE (min_le_right keep e.n) l)
          * U j (Fin.castLE (min_le_right keep e.n) l) * (σ l * σ l) := by ring
      _ = _ := by rw [this, mul_one]
  refine ⟨⟨hVorth, ?_, ?_, ?_⟩, ?_, hfirst,
    U * diagonal (fun l : Fin e.n => if (l : ℕ) < keep then 0 else e.s l ^ 2) * Uᵀ, ?_, ?_, ?_, ?_⟩
  · intro i
    exact hpos _ (hlt i)
  · intro i j hij
    exact hs.sorted hij
  · rw [hn]
    omega
  · rw [hn]
    exact (min_le_left _ _).trans k2
  · rw [← hg']
    ext i j
    have e1 : gram (merge lib k decay p1 p2) i j
        = ∑ l ∈ Finset.univ.filter (fun l : Fin e.n => (l : ℕ) < keep), e.s l ^ 2 * U i l * U j l := hVgram i j
    have entry : ∀ w : Fin e.n → ℝ, (U * diagonal w * Uᵀ) i j = ∑ l, w l * U i l * U j l := by
      intro w
      rw [mul_apply]
      apply Finset.sum_congr rfl
      intro l _
      rw [mul_diagonal, transpose_apply]
      ring
    rw [Matrix.add_apply, e1, entry, entry, Finset.sum_filter, ← Finset.sum_add_distrib]
    apply Finset.sum_congr rfl
    intro l _
    split <;> ring
  · intro x
    rw [quad_form]
    apply Finset.sum_nonneg
    intro l _
    split
    · simp
    · positivity
  · intro x i
    rw [quad_form]
    have hT := bessel U (Finset.univ.filter fun l => 0 < e.s l) (by
      intro a ha b hb'
      exact horth a b (Finset.mem_filter.1 ha).2 (Finset.mem_filter.1 hb').2) x
    have hstep : ∑ l : Fin e.n, (if (l : ℕ) < keep then 0 else e.s l ^ 2) * (∑ i, U i l * x i) ^ 2
        ≤ ∑ l ∈ Finset.univ.filter (fun l => 0 < e.s l),
          (merge lib k decay p1 p2).s i ^ 2 * (∑ i, U i l * x i) ^ 2 := by
      rw [Finset.sum_filter]
      apply Finset.sum_le_sum
      intro l _
      by_cases hl : (l : ℕ) < keep
      · rw [if_pos hl, zero_mul]
        split
        · positivity
        · exact le_rfl
      · rw [if_neg hl]
        split
        · apply mul_le_mul_of_nonneg_right _ (sq_nonneg _)
          apply pow_le_pow_left₀ (hs.nonneg l)
          apply hs.sorted
          rw [Fin.le_def]
          have := hlt i
          omega
        · rename_i h0
          have : e.s l = 0 := le_antisymm (not_lt.1 h0) (hs.nonneg l)
          rw [this]
          simp
    refine hstep.trans ?_
    rw [← Finset.mul_sum]
    exact mul_le_mul_of_nonneg_left hT (sq_nonneg _)
  · intro hlt'
    rw [hn] at hlt'
    have hdiag : ∀ l, e.s l ^ 2 * (Uᵀ * U) l l = e.s l ^ 2 := by
      intro l
      have := hb l l
      rw [if_pos rfl] at this
      rw [pow_two] at this ⊢
      exact this
    rw [← hg', trace_form, trace_form]
    have t1 : ∑ l : Fin e.n, (if (l : ℕ) < keep then 0 else e.s l ^ 2) * (Uᵀ * U) l l
        = ∑ l ∈ Finset.univ.filter (fun l : Fin e.n => ¬ (l : ℕ) < keep), e.s l ^ 2 := by
      rw [Finset.sum_filter]
      apply Finset.sum_congr rfl
      intro l _
      by_cases hl : (l : ℕ) < keep
      · rw [if_pos hl, if_neg (not_not.2 hl), zero_mul]
      · rw [if_neg hl, if_pos hl, hdiag]
    rw [t1, Finset.sum_congr rfl fun l _ => hdiag l]
    by_cases hkk : keep < k
    · exact k4 hkk
    · have : (Finset.univ.filter fun l : Fin e.n => ¬ (l : ℕ) < keep) = ∅ := by
        ext l
        simp only [Finset.mem_filter, Finset.mem_univ, true_and, Finset.notMem_empty, iff_false, not_not]
        have := l.2
        omega
      rw [this, Finset.sum_empty]
      exact mul_nonneg (by norm_num) hsum.le

theorem gram_trace {m : ℕ} (p : Proj m) (h : Good p) : (gram p).trace = ∑ i, p.s i ^ 2 := by
  unfold gram
  rw [trace_form, h.orth]
  exact Finset.sum_congr rfl fun i _ => by simp

theorem gram_trace_pos {m : ℕ} (p : Proj m) (h : Good p) : 0 < (gram p).trace := by
  rw [gram_trace p h]
  exact Finset.sum_pos (fun i _ => pow_pos (h.pos i) 2) ⟨⟨0, h.some⟩, Finset.mem_univ _⟩

/-- **C86.** Merging two decompositions gives orthonormal columns with positive descending values, at most
`k` of them, starting with non-negative numbers.  It represents what the two represent (the old one with
weight `decay²`) up to a remainder, which in no direction is more than any of the kept values, and which is
at most a thousandth of the whole if fewer than `k` columns result. -/
theorem C86_merge {m : ℕ} (lib : Linalg) (hl : LinalgOk lib) (k : ℕ) (hk : 0 < k) (decay : ℝ)
    (p1 p2 : Proj m) (h1 : Good p1) (h2 : Good p2) :
    let p := merge lib k decay p1 p2
    Good p ∧ p.n ≤ k ∧ (∀ (h : 0 < m) j, 0 ≤ p.u ⟨0, h⟩ j) ∧
      ∃ E : Matrix (Fin m) (Fin m) ℝ, gram p + E = decay ^ 2 • gram p1 + gram p2 ∧
        (∀ x, 0 ≤ x ⬝ᵥ E *ᵥ x) ∧
        (∀ x, ∀ i, x ⬝ᵥ E *ᵥ x ≤ p.s i ^ 2 * x ⬝ᵥ x) ∧
        (p.n < k → E.trace ≤ 1 / 1000 * (decay ^ 2 • gram p1 + gram p2).trace) := by
  apply merge_spec lib k hk decay p1 p2 h1.orth (hl.qr _) (hl.svd _)
  intro hz
  have := congrArg trace hz
  rw [trace_add, trace_smul, trace_zero, smul_eq_mul] at this
  have a1 := gram_trace_pos p1 h1
  have a2 := gram_trace_pos p2 h2
  have := mul_nonneg (sq_nonneg decay) a1.le
  linarith

/-- What a list of chunks represents, each merge giving weight `decay²` to what was there. -/
def weighted {m : ℕ} (decay : ℝ) (updates : List (Proj m)) : Matrix (Fin m) (Fin m) ℝ :=
  updates.foldl (fun G p => decay ^ 2 • G + gram p) 0

theorem addDocuments_append {m : ℕ} (lib : Linalg) (k : ℕ) (decay : ℝ) (updates : List (Proj m))
    (u : Proj m) : addDocuments lib k decay none (updates ++ [u])
      = mergeInto lib k decay (addDocuments lib k decay none updates) (some u) := by
  unfold addDocuments
  rw [List.foldl_append]
  rfl

/-- **C86.** After any number of chunks the model represents their weighted sum, minus a remainder that is
never negative; while there are fewer than `k` columns, every merge loses at most a thousandth. -/
theorem C86_history {m : ℕ} (lib : Linalg) (hl : LinalgOk lib) (k : ℕ) (hk : 0 < k) (decay : ℝ)
    (updates : List (Proj m)) (hu : ∀ u ∈ updates, Good u) (hne : updates ≠ []) :
    ∃ p, addDocuments lib k decay none updates = some p ∧ Good p ∧
      ∃ E, gram p + E = weighted decay updates ∧ (∀ x, 0 ≤ x ⬝ᵥ E *ᵥ x) ∧
        ((∀ l, l <+: updates → ∀ q, addDocuments lib k decay none l = some q → q.n < k) →
          (999 / 1000 : ℝ) ^ (updates.length - 1) * (weighted decay updates).trace ≤ (gram p).trace) := by
  induction updates using List.reverseRecOn with
  | nil => exact absurd rfl hne
  | append_singleton us u ih =>
    have hgu := hu u (by simp)
    by_cases hus : us = []
    · subst hus
      refine ⟨u, rfl, hgu, 0, ?_, ?_, ?_⟩
      · simp [weighted]
      · simp
      · intro _
        simp [weighted]
    · obtain ⟨p, p1, p2, E, e1, e2, e3⟩ := ih (fun v hv => hu v (by simp [hv])) hus
      obtain ⟨g1, _, _, F, f1, f2, _, f4⟩ := C86_merge lib hl k hk decay p u p2 hgu
      have hw : weighted decay (us ++ [u]) = decay ^ 2 • weighted decay us + gram u := by
        unfold weighted
        rw [List.foldl_append]
        rfl
      have hadd : addDocuments lib k decay none (us ++ [u]) = some (merge lib k decay p u) := by
        rw [addDocuments_append, p1]
        rfl
      refine ⟨_, hadd, g1, F + decay ^ 2 • E, ?_, ?_, ?_⟩
      · rw [← add_assoc, f1, hw, ← e1, smul_add]
        abel
      · intro x
        rw [add_mulVec, smul_mulVec, dotProduct_add, dotProduct_smul, smul_eq_mul]
        exact add_nonneg (f2 x) (mul_nonneg (sq_nonneg _) (e2 x))
      · intro hpre
        have hlen : (us ++ [u]).length - 1 = (us.length - 1) + 1 := by
          have := List.length_pos_iff.2 hus
          simp only [List.length_append, List.length_singleton]
          omega
        have i1 := e3 fun l hlp q hq => hpre l (hlp.trans (List.prefix_append _ _)) q hq
        have i2 := f4 (hpre _ (List.prefix_refl _) _ hadd)
        have t1 : (gram (merge lib k decay p u)).trace + F.trace
            = (decay ^ 2 • gram p + gram u).trace := by rw [← trace_add, f1]
        rw [hlen, pow_succ, hw]
        rw [trace_add, trace_smul, smul_eq_mul] at i2 t1 ⊢
        have hpw : (999 / 1000 : ℝ) ^ (us.length - 1) ≤ 1 := pow_le_one₀ (by norm_num) (by norm_num)
        have hpn : (0 : ℝ) ≤ (999 / 1000 : ℝ) ^ (us.length - 1) := by positivity
        have hup := gram_trace_pos u hgu
        have hd := mul_le_mul_of_nonneg_left i1 (sq_nonneg decay)
        have hb := mul_le_mul_of_nonneg_right hpw hup.le
        nlinarith

/-- A schedule of merges with weight 1, as of workers that merge their chunks and a dispatcher that merges the
workers, some of which may have had none. -/
inductive Schedule (m : ℕ)
  | idle : Schedule m
  | chunk (p : Proj m) : Schedule m
  | merge (a b : Schedule m) : Schedule m

/-- The projection after a schedule. -/
noncomputable def Schedule.run {m : ℕ} (lib : Linalg) (k : ℕ) : Schedule m → Option (Proj m)
  | .idle => none
  | .chunk p => mergeInto lib k 1 none (some p)
  | .merge a b => mergeInto lib k 1 (a.run lib k) (b.run lib k)

/-- The chunks of a schedule. -/
def Schedule.chunks {m : ℕ} : Schedule m → List (Proj m)
  | .idle => []
  | .chunk p => [p]
  | .merge a b => a.chunks ++ b.chunks

/-- What a possibly empty projection represents. -/
noncomputable def gramO {m : ℕ} (p : Option (Proj m)) : Matrix (Fin m) (Fin m) ℝ := (p.map gram).getD 0

/-- **C86.** Whatever the schedule of merges, the result represents the sum of the chunks up to a remainder
that is never negative; it is empty exactly if there were no chunks. -/
theorem C86_schedule {m : ℕ} (lib : Linalg) (hl : LinalgOk lib) (k : ℕ) (hk : 0 < k) (t : Schedule m)
    (ht : ∀ p ∈ t.chunks, Good p) :
    (∀ p, t.run lib k = some p → Good p) ∧ (t.run lib k = none ↔ t.chunks = []) ∧
      ∃ E, gramO (t.run lib k) + E = (t.chunks.map gram).sum ∧ ∀ x, 0 ≤ x ⬝ᵥ E *ᵥ x := by
  induction t with
  | idle => exact ⟨fun p h => (nomatch h), ⟨fun _ => rfl, fun _ => rfl⟩, 0, by simp [gramO, Schedule.run, Schedule.chunks],
      by simp⟩
  | chunk p =>
    refine ⟨?_, by simp [Schedule.run, mergeInto, Schedule.chunks], 0,
      by simp [gramO, Schedule.run, mergeInto, Schedule.chunks], by simp⟩
    intro q hq
    have : p = q := Option.some.inj hq
    subst this
    exact ht _ (by simp [Schedule.chunks])
  | merge a b iha ihb =>
    obtain ⟨a1, a2, E, a3, a4⟩ := iha fun p hp => ht p (List.mem_append_left _ hp)
    obtain ⟨b1, b2, F, b3, b4⟩ := ihb fun p hp => ht p (List.mem_append_right _ hp)
    show (∀ p, mergeInto lib k 1 (a.run lib k) (b.run lib k) = some p → Good p) ∧
      (mergeInto lib k 1 (a.run lib k) (b.run lib k) = none ↔ a.chunks ++ b.chunks = []) ∧
      ∃ G, gramO (mergeInto lib k 1 (a.run lib k) (b.run lib k)) + G = ((a.chunks ++ b.chunks).map gram).sum ∧ _
    rw [List.map_append, List.sum_append, List.append_eq_nil_iff, ← a2, ← b2, ← a3, ← b3]
    have hEF : ∀ x, 0 ≤ x ⬝ᵥ (E + F) *ᵥ x := by
      intro x
      rw [add_mulVec, dotProduct_add]
      exact add_nonneg (a4 x) (b4 x)
    cases ha : a.run lib k with
    | none =>
      cases hb : b.run lib k with
      | none => exact ⟨fun p h => (nomatch h), by simp [mergeInto], E + F, by simp [gramO, mergeInto], hEF⟩
      | some q =>
        refine ⟨fun p h => b1 p (by rw [hb]; exact h), by simp [mergeInto], E + F, ?_, hEF⟩
        simp only [gramO, mergeInto, Option.map_some, Option.map_none, Option.getD_some, Option.getD_none]
        abel
    | some p =>
      cases hb : b.run lib k with
      | none =>
        refine ⟨fun q h => a1 q (by rw [ha]; exact h), by simp [mergeInto], E + F, ?_, hEF⟩
        simp only [gramO, mergeInto, Option.map_some, Option.map_none, Option.getD_some, Option.getD_none]
        abel
      | some q =>
        obtain ⟨g1, _, _, G, f1, f2, _⟩ := C86_merge lib hl k hk 1 p q (a1 p ha) (b1 q hb)
        refine ⟨?_, by simp [mergeInto], G + (E + F), ?_, ?_⟩
        · intro r hr
          have : merge lib k 1 p q = r := Option.some.inj hr
          subst this
          exact g1
        · simp only [gramO, mergeInto, Option.map_some, Option.getD_some]
          rw [← add_assoc, f1, one_pow, one_smul]
          abel
        · intro x
          rw [add_mulVec, dotProduct_add]
          exact add_nonneg (f2 x) (hEF x)

/-! ## The decompositions exist -/

theorem exists_svd {ρ κ : Type} [Fintype ρ] [Fintype κ] (x : Matrix ρ κ ℝ) :
    ∃ d : Svd ρ κ, SvdOk x d := by
  classical
  have hA : (xᵀ * x).IsHermitian := by
    have := isHermitian_conjTranspose_mul_self x
    rwa [conjTranspose_eq_transpose_of_trivial] at this
  let b : κ → κ → ℝ := fun c a => hA.eigenvectorBasis c a
  have hortho : ∀ c c', ∑ a, b c a * b c' a = if c = c' then 1 else 0 := by
    intro c c'
    have := hA.eigenvectorBasis.inner_eq_ite c c'
    rw [EuclideanSpace.inner_eq_star_dotProduct] at this
    rw [← this]
    unfold dotProduct
    exact Finset.sum_congr rfl fun a _ => by simp [b, mul_comm]
  have hcomplete : ∀ a a', ∑ c, b c a * b c a' = if a = a' then 1 else 0 := by
    have hm : (Matrix.of b) * (Matrix.of b)ᵀ = 1 := by
      ext c c'
      rw [mul_apply, one_apply]
      exact hortho c c'
    have hm' : (Matrix.of b)ᵀ * Matrix.of b = 1 := mul_eq_one_comm.1 hm
    intro a a'
    have := congrFun (congrFun hm' a) a'
    rw [mul_apply, one_apply] at this
    exact this
  have heig : ∀ c, (xᵀ * x) *ᵥ b c = hA.eigenvalues c • b c := fun c => hA.mulVec_eigenvectorBasis c
  have hdot : ∀ c c', (x *ᵥ b c) ⬝ᵥ (x *ᵥ b c') = if c = c' then hA.eigenvalues c' else 0 := by
    intro c c'
    have h1 : (x *ᵥ b c) ⬝ᵥ (x *ᵥ b c') = b c ⬝ᵥ ((xᵀ * x) *ᵥ b c') := by
      rw [← mulVec_mulVec, dotProduct_mulVec (b c), vecMul_transpose]
    rw [h1, heig, dotProduct_smul, smul_eq_mul]
    have := hortho c c'
    unfold dotProduct
    rw [this]
    split <;> simp
  have hnn : ∀ c, 0 ≤ hA.eigenvalues c := by
    intro c
    have := hdot c c
    rw [if_pos rfl] at this
    rw [← this]
    exact Finset.sum_nonneg fun i _ => mul_self_nonneg _
  have hzero : ∀ c, hA.eigenvalues c = 0 → x *ᵥ b c = 0 := by
    intro c hc
    have := hdot c c
    rw [if_pos rfl, hc] at this
    exact dotProduct_self_eq_zero.1 this
  let ev : Fin (Fintype.card κ) ≃ κ := Fintype.equivOfCardEq (Fintype.card_fin _)
  have hev : ∀ i, hA.eigenvalues (ev i) = hA.eigenvalues₀ i := by
    intro i
    unfold IsHermitian.eigenvalues
    rw [Equiv.symm_apply_apply]
  let S : Finset (Fin (Fintype.card κ)) := Finset.univ.filter fun i => 0 < hA.eigenvalues₀ i
  have hS : ∀ i, 0 < hA.eigenvalues₀ i ↔ (i : ℕ) < S.card := by
    intro i
    rw [← downset_eq S]
    · simp [S]
    · intro i hi j hj
      simp only [S, Finset.mem_filter, Finset.mem_univ, true_and] at hi ⊢
      exact lt_of_lt_of_le hi (hA.eigenvalues₀_antitone hj)
  have hcard : S.card ≤ Fintype.card κ := by
    have := Finset.card_le_univ S
    rwa [Fintype.card_fin] at this
  let g : Fin S.card → κ := fun l => ev (Fin.castLE hcard l)
  have hgi : Function.Injective g := fun l l' h => Fin.castLE_injective hcard (ev.injective h)
  have hgpos : ∀ l, 0 < hA.eigenvalues (g l) := fun l => by
    rw [hev, hS]
    exact l.2
  have hgsur : ∀ c, 0 < hA.eigenvalues c → ∃ l, g l = c := by
    intro c hc
    have h1 : 0 < hA.eigenvalues₀ (ev.symm c) := by rw [← hev, Equiv.apply_symm_apply]; exact hc
    refine ⟨⟨(ev.symm c : ℕ), (hS _).1 h1⟩, ?_⟩
    exact ev.apply_symm_apply c
  refine ⟨{ n := S.card, u := Matrix.of fun i l => (x *ᵥ b (g l)) i / √(hA.eigenvalues (g l)),
            s := fun l => √(hA.eigenvalues (g l)), vt := Matrix.of fun l a => b (g l) a }, ?_, ?_, ?_, ?_, ?_⟩
  · ext l l'
    rw [mul_apply, one_apply]
    have hp := Real.sqrt_pos.2 (hgpos l)
    have hp' := Real.sqrt_pos.2 (hgpos l')
    have h1 : ∑ i, (Matrix.of fun i l => (x *ᵥ b (g l)) i / √(hA.eigenvalues (g l)))ᵀ l i
        * (Matrix.of fun i l => (x *ᵥ b (g l)) i / √(hA.eigenvalues (g l))) i l'
        = ((x *ᵥ b (g l)) ⬝ᵥ (x *ᵥ b (g l'))) / (√(hA.eigenvalues (g l)) * √(hA.eigenvalues (g l'))) := by
      unfold dotProduct
      rw [Finset.sum_div]
      apply Finset.sum_congr rfl
      intro i _
      rw [transpose_apply, of_apply, of_apply, div_mul_div_comm]
    rw [h1, hdot]
    by_cases hll : l = l'
    · subst hll
      rw [if_pos rfl, if_pos rfl, Real.mul_self_sqrt (hgpos l).le, div_self (hgpos l).ne']
    · rw [if_neg hll, if_neg fun h => hll (hgi h), zero_div]
  · ext l l'
    rw [mul_apply, one_apply]
    simp only [of_apply, transpose_apply]
    rw [hortho]
    by_cases hll : l = l'
    · subst hll
      simp
    · rw [if_neg hll, if_neg fun h => hll (hgi h)]
  · ext i a
    rw [mul_apply]
    have h1 : ∀ l, ((Matrix.of fun i l => (x *ᵥ b (g l)) i / √(hA.eigenvalues (g l)))
        * diagonal fun l => √(hA.eigenvalues (g l))) i l * (Matrix.of fun l a => b (g l) a) l a
        = (x *ᵥ b (g l)) i * b (g l) a := by
      intro l
      rw [mul_diagonal, of_apply, of_apply, div_mul_cancel₀ _ (Real.sqrt_pos.2 (hgpos l)).ne']
    have h2 : ∑ l, (x *ᵥ b (g l)) i * b (g l) a = ∑ c, (x *ᵥ b c) i * b c a := by
      rw [← Finset.sum_image (s := Finset.univ) (g := g) (f := fun c => (x *ᵥ b c) i * b c a)
        fun l _ l' _ h => hgi h]
      apply Finset.sum_subset (Finset.subset_univ _)
      intro c _ hc
      have hz : hA.eigenvalues c = 0 := by
        by_contra hcon
        obtain ⟨l, hl⟩ := hgsur c (lt_of_le_of_ne (hnn c) (Ne.symm hcon))
        exact hc (Finset.mem_image.2 ⟨l, Finset.mem_univ _, hl⟩)
      rw [hzero c hz]
      simp
    have h3 : ∑ c, (x *ᵥ b c) i * b c a = x i a := by
      have : ∀ c, (x *ᵥ b c) i * b c a = ∑ a', x i a' * (b c a' * b c a) := by
        intro c
        unfold mulVec dotProduct
        rw [Finset.sum_mul]
        exact Finset.sum_congr rfl fun a' _ => by ring
      rw [Finset.sum_congr rfl fun c _ => this c, Finset.sum_comm]
      simp only [← Finset.mul_sum, hcomplete]
      simp
    exact (Finset.sum_congr rfl fun l _ => h1 l).trans (h2.trans h3)
  · intro l
    exact Real.sqrt_nonneg _
  · intro l l' hll
    apply Real.sqrt_le_sqrt
    rw [hev, hev]
    exact hA.eigenvalues₀_antitone hll

/-- **C86.** A library as assumed exists. -/
theorem C86_library : ∃ lib : Linalg, LinalgOk lib := by
  refine ⟨{ qr := fun x => ⟨(exists_svd x).choose.n, (exists_svd x).choose.u,
              diagonal (exists_svd x).choose.s * (exists_svd x).choose.vt⟩,
            svd := fun x => (exists_svd x).choose }, ?_, ?_⟩
  · intro ρ κ _ _ x
    have h := (exists_svd x).choose_spec
    exact ⟨h.left, by dsimp only; rw [← Matrix.mul_assoc]; exact h.eq⟩
  · intro ρ κ _ _ x
    exact (exists_svd x).choose_spec

/-! ## Transforming documents -/

/-- **C86.** The transformation of a document is linear, never longer than the document, and gives the
coordinates of documents that are combinations of the columns. -/
theorem C86_fold_in {m : ℕ} (p : Proj m) (h : Good p) :
    (∀ (a b : ℝ) (x y : Fin m → ℝ),
      foldIn p false (a • x + b • y) = a • foldIn p false x + b • foldIn p false y) ∧
    (∀ x, foldIn p false x ⬝ᵥ foldIn p false x ≤ x ⬝ᵥ x) ∧
    (∀ y, foldIn p false (p.u *ᵥ y) = y) ∧
    ∀ y, foldIn p true (p.u *ᵥ fun i => p.s i * y i) = y := by
  have h3 : ∀ y, p.uᵀ *ᵥ (p.u *ᵥ y) = y := by
    intro y
    rw [mulVec_mulVec, h.orth, one_mulVec]
  refine ⟨?_, ?_, ?_, ?_⟩
  · intro a b x y
    simp [foldIn, mulVec_add, mulVec_smul]
  · intro x
    have := bessel p.u Finset.univ (fun i _ j _ => by rw [h.orth, one_apply]) x
    refine le_trans (le_of_eq ?_) this
    unfold dotProduct
    apply Finset.sum_congr rfl
    intro l _
    have : foldIn p false x l = ∑ i, p.u i l * x i := rfl
    rw [this, pow_two]
  · intro y
    exact h3 y
  · intro y
    unfold foldIn
    rw [h3, if_pos rfl]
    funext i
    have := (h.pos i).ne'
    field_simp

/-- **C86.** But scaling is ignored when a corpus is transformed. -/
theorem C86_scaled_ignored {m : ℕ} (p : Proj m) (h : Good p) (hs : p.s ⟨0, h.some⟩ ≠ 1) :
    ∃ x, foldInCorpus p true [x] ≠ [foldIn p true x] := by
  obtain ⟨_, _, h3, _⟩ := C86_fold_in p h
  refine ⟨p.u *ᵥ fun _ => 1, ?_⟩
  intro hcon
  have h1 : foldIn p false (p.u *ᵥ fun _ => 1) = foldIn p true (p.u *ᵥ fun _ => 1) := List.singleton_inj.1 hcon
  have h2 : foldIn p true (p.u *ᵥ fun _ => 1)
      = fun i => 1 / p.s i * foldIn p false (p.u *ᵥ fun _ => 1) i := rfl
  rw [h2, h3] at h1
  have := congrFun h1 ⟨0, h.some⟩
  have hp := (h.pos ⟨0, h.some⟩).ne'
  rw [mul_one, eq_div_iff hp, one_mul] at this
  exact hs this

/-- A good projection of two terms. -/
example : Good (⟨1, !![3 / 5; 4 / 5], fun _ => 2⟩ : Proj 2) := by
  refine ⟨?_, fun _ => by norm_num, fun _ _ _ => le_rfl, by norm_num⟩
  ext i j
  fin_cases i
  fin_cases j
  simp [mul_apply, Fin.sum_univ_two]
  norm_num

end Verif.Lsi

import Verif.Termsim.SoftModel
import Verif.Termsim.Props
import Mathlib.Algebra.Order.BigOperators.Ring.Finset
import Mathlib.Algebra.BigOperators.Ring.Finset
import Mathlib.Algebra.BigOperators.Field
import Mathlib.Tactic.Ring
import Mathlib.Tactic.Linarith
import Mathlib.Tactic.FieldSimp
import Mathlib.Tactic.NormNum
import Mathlib.Tactic.Positivity

/-!
# C69: soft cosine similarity
-/

namespace Verif.Termsim
open Verif

/-! ## Specification -/

/-- A matrix on the ids `0 … n-1` as `SparseTermSimilarityMatrix(..., symmetric=True, dominant=True)`
builds it (`C56_constraints`). -/
structure SoftMatrix (S : Nat → Nat → ℝ) (n : Nat) : Prop where
  diagonal : ∀ i < n, S i i = 1
  symmetric : ∀ r c, S r c = S c r
  dominant : ∀ c < n, ∑ r ∈ (Finset.range n).erase c, |S r c| < 1

/-- A non-empty document over the ids `0 … n-1` in bag-of-words format: different ids, no zero
weights. -/
structure Doc (n : Nat) (X : List (Nat × ℝ)) : Prop where
  nonempty : X ≠ []
  ids : ∀ p ∈ X, p.1 < n
  nodup : (X.map (·.1)).Nodup
  nonzero : ∀ p ∈ X, p.2 ≠ 0

/-- `xᵀ S y` over all ids. -/
noncomputable def softDot (S : Nat → Nat → ℝ) (n : Nat) (X Y : List (Nat × ℝ)) : ℝ :=
  ∑ r ∈ Finset.range n, ∑ c ∈ Finset.range n, weight X r * S r c * weight Y c

/-- Soft cosine similarity: the soft inner product divided by the soft norms. -/
noncomputable def softCosine (S : Nat → Nat → ℝ) (n : Nat) (X Y : List (Nat × ℝ)) : ℝ :=
  softDot S n X Y / (√(softDot S n X X) * √(softDot S n Y Y))

/-! ## The quadratic form is positive definite -/

theorem bil_comm {S : Nat → Nat → ℝ} (hs : ∀ r c, S r c = S c r) (idx : Finset Nat)
    (x y : Nat → ℝ) : bil S idx x y = bil S idx y x := by
  unfold bil
  rw [Finset.sum_comm]
  apply Finset.sum_congr rfl
  intro c _
  apply Finset.sum_congr rfl
  intro r _
  rw [hs r c]
  ring

theorem bil_lin (S : Nat → Nat → ℝ) (idx : Finset Nat) (x y z : Nat → ℝ) (a b : ℝ) :
    bil S idx (fun i => a * x i + b * y i) z = a * bil S idx x z + b * bil S idx y z := by
  unfold bil
  rw [Finset.mul_sum, Finset.mul_sum, ← Finset.sum_add_distrib]
  apply Finset.sum_congr rfl
  intro r _
  rw [Finset.mul_sum, Finset.mul_sum, ← Finset.sum_add_distrib]
  apply Finset.sum_congr rfl
  intro c _
  ring

theorem bil_scale (S : Nat → Nat → ℝ) (idx : Finset Nat) (x y : Nat → ℝ) (a b : ℝ) :
    bil S idx (fun i => a * x i) (fun i => b * y i) = a * b * bil S idx x y := by
  unfold bil
  rw [Finset.mul_sum]
  apply Finset.sum_congr rfl
  intro r _
  rw [Finset.mul_sum]
  apply Finset.sum_congr rfl
  intro c _
  ring

theorem dominant_sub {S : Nat → Nat → ℝ} {n : Nat} (h : SoftMatrix S n) {idx : Finset Nat}
    (hi : idx ⊆ Finset.range n) (c : Nat) (hc : c ∈ idx) : ∑ r ∈ idx.erase c, |S r c| < 1 := by
  refine lt_of_le_of_lt ?_ (h.dominant c (Finset.mem_range.1 (hi hc)))
  apply Finset.sum_le_sum_of_subset_of_nonneg
  · exact Finset.erase_subset_erase c hi
  · intro i _ _
    exact abs_nonneg _

/-- A lower bound of the quadratic form by the slack of the columns. -/
theorem bil_lower {S : Nat → Nat → ℝ} {n : Nat} (h : SoftMatrix S n) {idx : Finset Nat}
    (hi : idx ⊆ Finset.range n) (x : Nat → ℝ) :
    ∑ c ∈ idx, x c ^ 2 * (1 - ∑ r ∈ idx.erase c, |S r c|) ≤ bil S idx x x := by
  have hoff : ∀ r c, x r * S r c * x c ≥ -(|S r c| * (x r ^ 2 + x c ^ 2) / 2) := by
    intro r c
    have h1 : |x r * S r c * x c| = |S r c| * (|x r| * |x c|) := by
      rw [abs_mul, abs_mul]
      ring
    have h2 : |x r| * |x c| ≤ (x r ^ 2 + x c ^ 2) / 2 := by
      have := sq_nonneg (|x r| - |x c|)
      have e1 := sq_abs (x r)
      have e2 := sq_abs (x c)
      nlinarith
    have h3 := neg_abs_le (x r * S r c * x c)
    have h4 : |S r c| * (|x r| * |x c|) ≤ |S r c| * ((x r ^ 2 + x c ^ 2) / 2) :=
      mul_le_mul_of_nonneg_left h2 (abs_nonneg _)
    rw [h1] at h3
    have h5 : |S r c| * ((x r ^ 2 + x c ^ 2) / 2) = |S r c| * (x r ^ 2 + x c ^ 2) / 2 := by ring
    rw [h5] at h4
    linarith
  -- split off the diagonal
  have hsplit : bil S idx x x
      = ∑ r ∈ idx, (x r ^ 2 + ∑ c ∈ idx.erase r, x r * S r c * x c) := by
    unfold bil
    apply Finset.sum_congr rfl
    intro r hr
    rw [← Finset.add_sum_erase _ _ hr, h.diagonal r (Finset.mem_range.1 (hi hr))]
    ring
  have hlow : ∑ r ∈ idx, (x r ^ 2 - ∑ c ∈ idx.erase r, |S r c| * (x r ^ 2 + x c ^ 2) / 2)
      ≤ bil S idx x x := by
    rw [hsplit]
    apply Finset.sum_le_sum
    intro r _
    rw [sub_eq_add_neg, ← Finset.sum_neg_distrib]
    exact add_le_add le_rfl (Finset.sum_le_sum fun c _ => hoff r c)
  refine le_trans (le_of_eq ?_) hlow
  -- the double sum of |S r c| (x r² + x c²)/2 is the double sum of |S r c| x c²
  have hdouble : ∑ r ∈ idx, ∑ c ∈ idx.erase r, |S r c| * (x r ^ 2 + x c ^ 2) / 2
      = ∑ c ∈ idx, x c ^ 2 * ∑ r ∈ idx.erase c, |S r c| := by
    have e1 : ∑ r ∈ idx, ∑ c ∈ idx.erase r, |S r c| * x c ^ 2
        = ∑ c ∈ idx, ∑ r ∈ idx.erase c, |S r c| * x c ^ 2 := by
      apply Finset.sum_comm'
      intro r c
      simp only [Finset.mem_erase]
      tauto
    have e2 : ∑ r ∈ idx, ∑ c ∈ idx.erase r, |S r c| * x r ^ 2
        = ∑ c ∈ idx, ∑ r ∈ idx.erase c, |S r c| * x c ^ 2 := by
      apply Finset.sum_congr rfl
      intro r _
      apply Finset.sum_congr rfl
      intro c _
      rw [h.symmetric r c]
    have e3 : ∑ r ∈ idx, ∑ c ∈ idx.erase r, |S r c| * (x r ^ 2 + x c ^ 2) / 2
        = (∑ r ∈ idx, ∑ c ∈ idx.erase r, |S r c| * x r ^ 2
          + ∑ r ∈ idx, ∑ c ∈ idx.erase r, |S r c| * x c ^ 2) / 2 := by
      rw [← Finset.sum_add_distrib, Finset.sum_div]
      apply Finset.sum_congr rfl
      intro r _
      rw [← Finset.sum_add_distrib, Finset.sum_div]
      apply Finset.sum_congr rfl
      intro c _
      ring
    rw [e3, e1, e2]
    have : ∀ a : ℝ, (a + a) / 2 = a := fun a => by ring
    rw [this]
    apply Finset.sum_congr rfl
    intro c _
    rw [Finset.mul_sum]
    apply Finset.sum_congr rfl
    intro r _
    ring
  rw [Finset.sum_sub_distrib, hdouble, ← Finset.sum_sub_distrib]
  apply Finset.sum_congr rfl
  intro c _
  ring

theorem bil_nonneg {S : Nat → Nat → ℝ} {n : Nat} (h : SoftMatrix S n) {idx : Finset Nat}
    (hi : idx ⊆ Finset.range n) (x : Nat → ℝ) : 0 ≤ bil S idx x x := by
  refine le_trans ?_ (bil_lower h hi x)
  apply Finset.sum_nonneg
  intro c hc
  have := dominant_sub h hi c hc
  exact mul_nonneg (sq_nonneg _) (by linarith)

theorem bil_pos {S : Nat → Nat → ℝ} {n : Nat} (h : SoftMatrix S n) {idx : Finset Nat}
    (hi : idx ⊆ Finset.range n) (x : Nat → ℝ) (i : Nat) (hm : i ∈ idx) (hx : x i ≠ 0) :
    0 < bil S idx x x := by
  refine lt_of_lt_of_le ?_ (bil_lower h hi x)
  apply Finset.sum_pos'
  · intro c hc
    have := dominant_sub h hi c hc
    exact mul_nonneg (sq_nonneg _) (by linarith)
  · refine ⟨i, hm, ?_⟩
    have := dominant_sub h hi i hm
    exact mul_pos (by positivity) (by linarith)

theorem bil_cauchy {S : Nat → Nat → ℝ} {n : Nat} (h : SoftMatrix S n) {idx : Finset Nat}
    (hi : idx ⊆ Finset.range n) (x y : Nat → ℝ) (hy : 0 < bil S idx y y) :
    bil S idx x y ^ 2 ≤ bil S idx x x * bil S idx y y := by
  have h0 := bil_nonneg h hi (fun i => bil S idx y y * x i + (-bil S idx x y) * y i)
  have e : bil S idx (fun i => bil S idx y y * x i + (-bil S idx x y) * y i)
      (fun i => bil S idx y y * x i + (-bil S idx x y) * y i)
      = bil S idx y y * (bil S idx x x * bil S idx y y - bil S idx x y ^ 2) := by
    have hr : ∀ z : Nat → ℝ, bil S idx z (fun i => bil S idx y y * x i + (-bil S idx x y) * y i)
        = bil S idx y y * bil S idx x z + (-bil S idx x y) * bil S idx y z := by
      intro z
      rw [bil_comm h.symmetric idx z, bil_lin]
    rw [bil_lin, hr, hr, bil_comm h.symmetric idx y x]
    ring
  rw [e] at h0
  have := nonneg_of_mul_nonneg_right h0 hy
  linarith

/-- **C69.** For a matrix built with `symmetric=True, dominant=True`, the soft norm of every vector
with a non-zero weight is positive, so the assertion on negative norms never fires. -/
theorem C69_positive_definite (cfg : Cfg ℝ) (index : Nat → Nat → List (Nat × ℝ)) (h : Fits cfg index)
    (hs : cfg.symmetric = true) (hd : cfg.dominant = true) :
    ∃ E, createSource cfg index = some E ∧ ∀ x : Nat → ℝ,
      (∃ i < cfg.ids.length, x i ≠ 0) →
      0 < ∑ r ∈ Finset.range cfg.ids.length, ∑ c ∈ Finset.range cfg.ids.length,
        x r * cellVal E r c * x c := by
  obtain ⟨E, e, h1, h2, _, h4⟩ := C56_constraints cfg index h
  refine ⟨E, e, ?_⟩
  rintro x ⟨i, hi, hx⟩
  have hS : SoftMatrix (cellVal E) cfg.ids.length := by
    refine ⟨h1, h2 hs, ?_⟩
    intro c hc
    have := h4 hd c hc
    rwa [h1 c hc, abs_one] at this
  exact bil_pos hS (Finset.Subset.refl _) x i (Finset.mem_range.2 hi) hx

/-! ## Restriction to some ids -/

theorem weight_of_not_mem {X : List (Nat × ℝ)} {i : Nat} (h : i ∉ words X) : weight X i = 0 := by
  unfold weight words at *
  rw [List.mem_toFinset] at h
  induction X with
  | nil => rfl
  | cons p X ih =>
    rw [List.map_cons, List.mem_cons, not_or] at h
    rw [List.lookup_cons]
    have : (i == p.1) = false := by simpa using h.1
    rw [this]
    exact ih h.2

theorem weight_mem {X : List (Nat × ℝ)} (hn : (X.map (·.1)).Nodup) {p : Nat × ℝ} (hp : p ∈ X) :
    weight X p.1 = p.2 := by
  unfold weight
  induction X with
  | nil => simp at hp
  | cons q X ih =>
    rw [List.map_cons, List.nodup_cons] at hn
    rw [List.lookup_cons]
    rcases List.mem_cons.1 hp with rfl | hp
    · simp
    · have : (p.1 == q.1) = false := by
        simp only [beq_eq_false_iff_ne, ne_eq]
        intro hh
        exact hn.1 (hh ▸ List.mem_map.2 ⟨p, hp, rfl⟩)
      rw [this]
      exact ih hn.2 hp

theorem bil_restrict {S : Nat → Nat → ℝ} {idx J : Finset Nat} (hsub : idx ⊆ J) {x y : Nat → ℝ}
    (hx : ∀ i ∈ J, i ∉ idx → x i = 0) (hy : ∀ i ∈ J, i ∉ idx → y i = 0) :
    bil S J x y = bil S idx x y := by
  unfold bil
  symm
  have h1 : ∑ r ∈ idx, ∑ c ∈ idx, x r * S r c * y c = ∑ r ∈ idx, ∑ c ∈ J, x r * S r c * y c := by
    apply Finset.sum_congr rfl
    intro r _
    apply Finset.sum_subset hsub
    intro c hc hci
    rw [hy c hc hci, mul_zero]
  rw [h1]
  apply Finset.sum_subset hsub
  intro r hr hri
  apply Finset.sum_eq_zero
  intro c _
  rw [hx r hr hri, zero_mul, zero_mul]

theorem doc_words {n : Nat} {X : List (Nat × ℝ)} (h : Doc n X) : words X ⊆ Finset.range n := by
  intro i hi
  rw [words, List.mem_toFinset] at hi
  obtain ⟨p, hp, rfl⟩ := List.mem_map.1 hi
  exact Finset.mem_range.2 (h.ids p hp)

theorem doc_witness {n : Nat} {X : List (Nat × ℝ)} (h : Doc n X) : ∃ i ∈ words X, weight X i ≠ 0 := by
  obtain ⟨p, hp⟩ := List.exists_mem_of_ne_nil X h.nonempty
  refine ⟨p.1, ?_, ?_⟩
  · rw [words, List.mem_toFinset]
    exact List.mem_map.2 ⟨p, hp, rfl⟩
  · rw [weight_mem h.nodup hp]
    exact h.nonzero p hp

theorem softDot_pos {S : Nat → Nat → ℝ} {n : Nat} (hS : SoftMatrix S n) {X : List (Nat × ℝ)}
    (h : Doc n X) : 0 < softDot S n X X := by
  obtain ⟨i, hi, hw⟩ := doc_witness h
  exact bil_pos hS (Finset.Subset.refl _) (weight X) i (doc_words h hi) hw

/-- **C69.** Soft cosine similarity lies between -1 and 1, is symmetric, and is 1 for a document with
itself. -/
theorem C69_cosine (S : Nat → Nat → ℝ) (n : Nat) (hS : SoftMatrix S n) (X Y : List (Nat × ℝ))
    (hX : Doc n X) (hY : Doc n Y) :
    |softCosine S n X Y| ≤ 1 ∧ softCosine S n X Y = softCosine S n Y X ∧ softCosine S n X X = 1 := by
  have px := softDot_pos hS hX
  have py := softDot_pos hS hY
  have sx := Real.sqrt_pos.2 px
  have sy := Real.sqrt_pos.2 py
  refine ⟨?_, ?_, ?_⟩
  · unfold softCosine
    rw [abs_div, abs_of_pos (mul_pos sx sy), div_le_one (mul_pos sx sy)]
    rw [← Real.sqrt_mul px.le, ← Real.sqrt_sq_eq_abs]
    exact Real.sqrt_le_sqrt (bil_cauchy hS (Finset.Subset.refl _) (weight X) (weight Y) py)
  · unfold softCosine
    rw [mul_comm (√(softDot S n Y Y))]
    congr 1
    exact bil_comm hS.symmetric _ _ _
  · unfold softCosine
    rw [Real.mul_self_sqrt px.le, div_self px.ne']

theorem clip_of_abs_le {v : ℝ} (h : |v| ≤ 1) : clip .yes .yes v = v := by
  unfold clip
  rw [abs_le] at h
  rw [if_pos ⟨rfl, rfl⟩, min_eq_right h.2, max_eq_right h.1]

theorem yes_factor {S : Nat → Nat → ℝ} {idx : Finset Nat} {x : Nat → ℝ} (h : 0 < bil S idx x x) :
    vectorFactor S idx .yes x = some (1 / √(bil S idx x x)) ∧
      corpusFactor S idx .yes x = some (1 / √(bil S idx x x)) := by
  unfold vectorFactor corpusFactor
  refine ⟨?_, ?_⟩
  · dsimp only
    rw [if_neg (not_lt.2 h.le), if_pos (Real.sqrt_pos.2 h)]
  · dsimp only
    rw [if_neg (not_lt.2 h.le)]

theorem scaled_cosine {S : Nat → Nat → ℝ} {idx : Finset Nat} (x y : Nat → ℝ) :
    bil S idx (fun i => 1 / √(bil S idx x x) * x i) (fun i => 1 / √(bil S idx y y) * y i)
      = bil S idx x y / (√(bil S idx x x) * √(bil S idx y y)) := by
  rw [bil_scale]
  by_cases h1 : √(bil S idx x x) = 0
  · rw [h1]; simp
  · by_cases h2 : √(bil S idx y y) = 0
    · rw [h2]; simp
    · field_simp

/-- **C69.** The inner product of two documents is the soft inner product, and normalised it is the
soft cosine similarity; clipping changes nothing. -/
theorem C69_documents (S : Nat → Nat → ℝ) (n : Nat) (hS : SoftMatrix S n) (X Y : List (Nat × ℝ))
    (hX : Doc n X) (hY : Doc n Y) :
    innerVV S X Y .no .no = some (softDot S n X Y) ∧
      innerVV S X Y .yes .yes = some (softCosine S n X Y) := by
  have hsub : words X ∪ words Y ⊆ Finset.range n :=
    Finset.union_subset (doc_words hX) (doc_words hY)
  have zx : ∀ i ∈ Finset.range n, i ∉ words X ∪ words Y → weight X i = 0 := by
    intro i _ hi
    exact weight_of_not_mem fun h => hi (Finset.mem_union_left _ h)
  have zy : ∀ i ∈ Finset.range n, i ∉ words X ∪ words Y → weight Y i = 0 := by
    intro i _ hi
    exact weight_of_not_mem fun h => hi (Finset.mem_union_right _ h)
  have exy : bil S (words X ∪ words Y) (weight X) (weight Y) = softDot S n X Y :=
    (bil_restrict hsub zx zy).symm
  have exx : bil S (words X ∪ words Y) (weight X) (weight X) = softDot S n X X :=
    (bil_restrict hsub zx zx).symm
  have eyy : bil S (words X ∪ words Y) (weight Y) (weight Y) = softDot S n Y Y :=
    (bil_restrict hsub zy zy).symm
  have hne : ¬ (X = [] ∨ Y = []) := by
    rintro (h | h)
    · exact hX.nonempty h
    · exact hY.nonempty h
  refine ⟨?_, ?_⟩
  · unfold innerVV
    rw [if_neg hne]
    simp only [vectorFactor, one_mul, clip, reduceCtorEq, and_self, if_false]
    rw [exy]
  · unfold innerVV
    rw [if_neg hne]
    dsimp only
    rw [(yes_factor (by rw [exx]; exact softDot_pos hS hX)).1,
      (yes_factor (by rw [eyy]; exact softDot_pos hS hY)).1]
    dsimp only
    rw [scaled_cosine, exy, exx, eyy]
    rw [clip_of_abs_le]
    · rfl
    · exact (C69_cosine S n hS X Y hX hY).1

/-- **C69.** The entries of the inner product of two corpora are the inner products of the documents
(the same values `inner_product` gives for two documents). -/
theorem C69_corpora (S : Nat → Nat → ℝ) (n : Nat) (hS : SoftMatrix S n) (X Y : List (Nat × ℝ))
    (hX : Doc n X) (hY : Doc n Y) :
    innerCC S n X Y .no .no = innerVV S X Y .no .no ∧
      innerCC S n X Y .yes .yes = innerVV S X Y .yes .yes := by
  obtain ⟨h1, h2⟩ := C69_documents S n hS X Y hX hY
  rw [h1, h2]
  refine ⟨?_, ?_⟩
  · unfold innerCC
    simp only [corpusFactor, one_mul, clip, reduceCtorEq, and_self, if_false]
    rfl
  · unfold innerCC
    dsimp only
    rw [(yes_factor (softDot_pos hS hX)).2, (yes_factor (softDot_pos hS hY)).2]
    dsimp only
    rw [scaled_cosine, clip_of_abs_le]
    · rfl
    · exact (C69_cosine S n hS X Y hX hY).1

/-! ## A document against a corpus -/

/-- The part of a document with ids in `idx`. -/
noncomputable def restrict (idx : Finset Nat) (Y : List (Nat × ℝ)) : List (Nat × ℝ) :=
  Y.filter fun p => decide (p.1 ∈ idx)

theorem weight_restrict (idx : Finset Nat) (Y : List (Nat × ℝ)) (i : Nat) :
    weight (restrict idx Y) i = if i ∈ idx then weight Y i else 0 := by
  unfold weight restrict
  induction Y with
  | nil => simp
  | cons p Y ih =>
    rw [List.filter_cons]
    by_cases hp : p.1 ∈ idx
    · rw [if_pos (decide_eq_true hp), List.lookup_cons, List.lookup_cons]
      by_cases hip : i = p.1
      · subst hip
        simp [hp]
      · have hb : (i == p.1) = false := by simpa using hip
        rw [hb]
        exact ih
    · rw [if_neg (by simpa using hp), ih, List.lookup_cons]
      by_cases hip : i = p.1
      · subst hip
        rw [if_neg hp, if_neg hp]
      · have hb : (i == p.1) = false := by simpa using hip
        rw [hb]

theorem related_sub (S : Nat → Nat → ℝ) (n : Nat) (X : List (Nat × ℝ)) :
    related S n X ⊆ Finset.range n := Finset.filter_subset _ _

theorem bil_related {S : Nat → Nat → ℝ} {n : Nat} {X : List (Nat × ℝ)} (hw : words X ⊆ related S n X)
    (y : Nat → ℝ) : bil S (related S n X) (weight X) y = bil S (Finset.range n) (weight X) y := by
  unfold bil
  have h1 : ∑ r ∈ related S n X, ∑ c ∈ related S n X, weight X r * S r c * y c
      = ∑ r ∈ Finset.range n, ∑ c ∈ related S n X, weight X r * S r c * y c := by
    apply Finset.sum_subset (related_sub S n X)
    intro r _ hr
    apply Finset.sum_eq_zero
    intro c _
    rw [weight_of_not_mem fun h => hr (hw h), zero_mul, zero_mul]
  rw [h1, Finset.sum_comm]
  conv_rhs => rw [Finset.sum_comm]
  apply Finset.sum_subset (related_sub S n X)
  intro c hc hcr
  rw [← Finset.sum_mul]
  have : ∑ r ∈ Finset.range n, weight X r * S r c = 0 := by
    by_contra hne
    exact hcr (Finset.mem_filter.2 ⟨hc, hne⟩)
  rw [this, zero_mul]

/-- **C69.** For matrices and queries without negative values, every word of the query is related to
the query, as the next theorems need. -/
theorem C69_related (S : Nat → Nat → ℝ) (n : Nat) (hS : SoftMatrix S n) (X : List (Nat × ℝ))
    (hX : Doc n X) (hpos : ∀ p ∈ X, 0 < p.2) (hSpos : ∀ r c, 0 ≤ S r c) :
    words X ⊆ related S n X := by
  intro i hi
  have hin := doc_words hX hi
  refine Finset.mem_filter.2 ⟨hin, ?_⟩
  have hwpos : ∀ j, 0 ≤ weight X j := by
    intro j
    by_cases hj : j ∈ words X
    · rw [words, List.mem_toFinset] at hj
      obtain ⟨p, hp, rfl⟩ := List.mem_map.1 hj
      rw [weight_mem hX.nodup hp]
      exact (hpos p hp).le
    · rw [weight_of_not_mem hj]
  apply ne_of_gt
  apply Finset.sum_pos'
  · intro r _
    exact mul_nonneg (hwpos r) (hSpos r i)
  · refine ⟨i, hin, ?_⟩
    rw [hS.diagonal i (Finset.mem_range.1 hin), mul_one]
    rw [words, List.mem_toFinset] at hi
    obtain ⟨p, hp, rfl⟩ := List.mem_map.1 hi
    rw [weight_mem hX.nodup hp]
    exact hpos p hp

/-- **C69.** The unnormalised inner product of a document with a document of a corpus is the soft
inner product. -/
theorem C69_mixed_unnormalized (S : Nat → Nat → ℝ) (n : Nat) (X Y : List (Nat × ℝ))
    (hw : words X ⊆ related S n X) : innerVC S n X Y .no .no = some (softDot S n X Y) := by
  unfold innerVC
  simp only [vectorFactor, corpusFactor, one_mul, clip, reduceCtorEq, and_self, if_false]
  rw [bil_related hw]
  rfl

/-- **C69.** What the normalised inner product of a document `X` with a document `Y` of a corpus
really is: the soft cosine similarity of `X` with the part of `Y` made of words related to `X`. -/
theorem C69_mixed_normalized (S : Nat → Nat → ℝ) (n : Nat) (hS : SoftMatrix S n)
    (X Y : List (Nat × ℝ)) (hX : Doc n X) (hY : Doc n Y) (hw : words X ⊆ related S n X)
    (hne : restrict (related S n X) Y ≠ []) :
    innerVC S n X Y .yes .yes = some (softCosine S n X (restrict (related S n X) Y)) := by
  have hYr : Doc n (restrict (related S n X) Y) :=
    ⟨hne, fun p hp => hY.ids p (List.mem_of_mem_filter hp),
      hY.nodup.sublist (List.filter_sublist.map _), fun p hp => hY.nonzero p (List.mem_of_mem_filter hp)⟩
  have exx : bil S (related S n X) (weight X) (weight X) = softDot S n X X := by
    rw [bil_related hw]
    rfl
  have hcongr : ∀ x : Nat → ℝ, bil S (related S n X) x (weight Y)
      = bil S (related S n X) x (weight (restrict (related S n X) Y)) := by
    intro x
    unfold bil
    apply Finset.sum_congr rfl
    intro r _
    apply Finset.sum_congr rfl
    intro c hc
    rw [weight_restrict, if_pos hc]
  have eyy : bil S (related S n X) (weight Y) (weight Y)
      = softDot S n (restrict (related S n X) Y) (restrict (related S n X) Y) := by
    rw [hcongr, bil_comm hS.symmetric, hcongr]
    symm
    apply bil_restrict (related_sub S n X)
    · intro i _ hi
      rw [weight_restrict, if_neg hi]
    · intro i _ hi
      rw [weight_restrict, if_neg hi]
  have exy : bil S (related S n X) (weight X) (weight Y)
      = softDot S n X (restrict (related S n X) Y) := by
    rw [hcongr, bil_related hw]
    rfl
  unfold innerVC
  dsimp only
  rw [(yes_factor (by rw [exx]; exact softDot_pos hS hX)).1,
    (yes_factor (by rw [eyy]; exact softDot_pos hS hYr)).2]
  dsimp only
  rw [scaled_cosine, exy, exx, eyy, clip_of_abs_le]
  · rfl
  · exact (C69_cosine S n hS X _ hX hYr).1

/-- **C69.** So a document against a corpus gets the soft cosine similarity if all words of the corpus
document are related to the query. -/
theorem C69_mixed_all_related (S : Nat → Nat → ℝ) (n : Nat) (hS : SoftMatrix S n)
    (X Y : List (Nat × ℝ)) (hX : Doc n X) (hY : Doc n Y) (hw : words X ⊆ related S n X)
    (hyw : words Y ⊆ related S n X) :
    innerVC S n X Y .yes .yes = innerVV S X Y .yes .yes := by
  have hr : restrict (related S n X) Y = Y := by
    unfold restrict
    rw [List.filter_eq_self]
    intro p hp
    apply decide_eq_true
    apply hyw
    rw [words, List.mem_toFinset]
    exact List.mem_map.2 ⟨p, hp, rfl⟩
  rw [C69_mixed_normalized S n hS X Y hX hY hw (by rw [hr]; exact hY.nonempty), hr,
    (C69_documents S n hS X Y hX hY).2]

/-- The identity matrix. -/
def idMatrix (r c : Nat) : ℝ := if r = c then 1 else 0

theorem idMatrix_soft (n : Nat) : SoftMatrix idMatrix n := by
  refine ⟨by simp [idMatrix], ?_, ?_⟩
  · intro r c
    unfold idMatrix
    by_cases h : r = c
    · rw [if_pos h, if_pos h.symm]
    · rw [if_neg h, if_neg (Ne.symm h)]
  · intro c hc
    rw [Finset.sum_eq_zero]
    · exact zero_lt_one
    · intro r hr
      rw [idMatrix, if_neg (Finset.ne_of_mem_erase hr), abs_zero]

theorem exDocX : Doc 2 [(0, 1)] := ⟨by simp, by simp, by simp, by simp⟩
theorem exDocY : Doc 2 [(0, 1), (1, 1)] := ⟨by simp, by simp, by simp, by simp⟩

/-- **C69 (failure).** A document against a corpus gets a wrong soft cosine similarity if the corpus
document has words unrelated to the query: with the identity matrix (plain cosine similarity), the
one-word query against a document of two words gives 1 instead of 1/√2, while two documents, and two
corpora, give 1/√2. -/
theorem C69_mixed_wrong :
    innerVC idMatrix 2 [(0, 1)] [(0, 1), (1, 1)] .yes .yes = some 1 ∧
      innerVV idMatrix [(0, 1)] [(0, 1), (1, 1)] .yes .yes = some (1 / √2) ∧
      innerCC idMatrix 2 [(0, 1)] [(0, 1), (1, 1)] .yes .yes = some (1 / √2) ∧
      (1 : ℝ) / √2 ≠ 1 := by
  have hrel : related idMatrix 2 [(0, 1)] = {0} := by
    ext c
    simp only [related, Finset.mem_filter, Finset.mem_range, Finset.mem_singleton,
      Finset.sum_range_succ, Finset.sum_range_zero, weight, idMatrix, List.lookup]
    constructor
    · rintro ⟨h1, h2⟩
      by_contra hc
      have : c = 1 := by omega
      subst this
      simp at h2
    · rintro rfl
      simp
  have hw : words [(0, (1 : ℝ))] ⊆ related idMatrix 2 [(0, 1)] := by
    rw [hrel]
    simp [words]
  have hr : restrict (related idMatrix 2 [(0, 1)]) [(0, (1 : ℝ)), (1, 1)] = [(0, 1)] := by
    rw [hrel]
    simp [restrict]
  have hcos : softCosine idMatrix 2 [(0, 1)] [(0, 1), (1, 1)] = 1 / √2 := by
    unfold softCosine softDot
    simp [Finset.sum_range_succ, weight, idMatrix, List.lookup]
    norm_num
  have hvv := (C69_documents idMatrix 2 (idMatrix_soft 2) _ _ exDocX exDocY).2
  refine ⟨?_, ?_, ?_, ?_⟩
  · rw [C69_mixed_normalized idMatrix 2 (idMatrix_soft 2) _ _ exDocX exDocY hw
      (by rw [hr]; simp), hr]
    rw [(C69_cosine idMatrix 2 (idMatrix_soft 2) _ _ exDocX exDocX).2.2]
  · rw [hvv, hcos]
  · rw [(C69_corpora idMatrix 2 (idMatrix_soft 2) _ _ exDocX exDocY).2, hvv, hcos]
  · intro h
    have h2 : √2 = (1 : ℝ) := by
      have hp : (0 : ℝ) < √2 := by positivity
      field_simp at h
      exact h.symm
    have := Real.sq_sqrt (show (0 : ℝ) ≤ 2 by norm_num)
    rw [h2] at this
    norm_num at this

end Verif.Termsim

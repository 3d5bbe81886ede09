import Verif.Termsim.SoftProps

/-!
# C69: the three kinds of normalisation, and matrices that are not positive
-/

namespace Verif.Termsim
open Verif

/-- the length of a document as a plain vector -/
noncomputable def length2 (X : List (Nat × ℝ)) : ℝ := √((X.map fun p => p.2 * p.2).sum)

/-- what a document is multiplied with: nothing; its soft length becomes 1; its soft length becomes its plain length -/
noncomputable def scaling (S : Nat → Nat → ℝ) (n : Nat) (X : List (Nat × ℝ)) : Norm → ℝ
  | .no => 1
  | .yes => 1 / √(softDot S n X X)
  | .maintain => length2 X / √(softDot S n X X)

theorem sum_weight_sq {X : List (Nat × ℝ)} (hd : (X.map (·.1)).Nodup) : ∀ {idx : Finset Nat}, words X ⊆ idx →
    ∑ i ∈ idx, weight X i * weight X i = (X.map fun p => p.2 * p.2).sum := by
  induction X with
  | nil => intro idx _; simp [weight, List.lookup]
  | cons p X ih =>
    intro idx hsub
    simp only [List.map_cons, List.nodup_cons] at hd
    obtain ⟨h1, h2⟩ := hd
    have hp : p.1 ∈ idx := hsub (by simp [words])
    have hX : words X ⊆ idx.erase p.1 := by
      intro i hi
      rw [Finset.mem_erase]
      refine ⟨?_, hsub ?_⟩
      · rintro rfl
        rw [words, List.mem_toFinset] at hi
        exact h1 hi
      · rw [words, List.mem_toFinset] at hi ⊢
        exact List.mem_cons_of_mem _ hi
    rw [← Finset.add_sum_erase idx _ hp, List.map_cons, List.sum_cons, ← ih h2 hX]
    have e1 : weight (p :: X) p.1 = p.2 := by simp [weight, List.lookup]
    rw [e1]
    congr 1
    apply Finset.sum_congr rfl
    intro i hi
    have hne : i ≠ p.1 := (Finset.mem_erase.1 hi).1
    have : weight (p :: X) i = weight X i := by
      unfold weight
      rw [List.lookup_cons]
      have : (i == p.1) = false := by simpa using hne
      rw [this]
    rw [this]

theorem length2_pos {n : Nat} {X : List (Nat × ℝ)} (h : Doc n X) : 0 < (X.map fun p => p.2 * p.2).sum := by
  obtain ⟨h1, _, _, h4⟩ := h
  cases X with
  | nil => exact absurd rfl h1
  | cons p X =>
    have hp : p.2 ≠ 0 := h4 p (List.mem_cons_self ..)
    have hs : 0 ≤ (X.map fun p => p.2 * p.2).sum := by
      apply List.sum_nonneg
      intro x hx
      obtain ⟨q, _, rfl⟩ := List.mem_map.1 hx
      exact mul_self_nonneg _
    have := mul_self_pos.2 hp
    simp only [List.map_cons, List.sum_cons]
    linarith

theorem factors {S : Nat → Nat → ℝ} {n : Nat} (hS : SoftMatrix S n) {X : List (Nat × ℝ)} (hX : Doc n X) {idx : Finset Nat}
    (hw : words X ⊆ idx) (hb : bil S idx (weight X) (weight X) = softDot S n X X) (m : Norm) :
    vectorFactor S idx m (weight X) = some (scaling S n X m) ∧ corpusFactor S idx m (weight X) = some (scaling S n X m) := by
  have hp := softDot_pos hS hX
  have hl := length2_pos hX
  have hq : ∑ i ∈ idx, weight X i * weight X i = (X.map fun p => p.2 * p.2).sum := sum_weight_sq hX.nodup hw
  cases m with
  | no => exact ⟨rfl, rfl⟩
  | yes =>
    have := yes_factor (S := S) (idx := idx) (x := weight X) (by rw [hb]; exact hp)
    rw [hb] at this
    exact this
  | maintain =>
    have hv : √(softDot S n X X / (X.map fun p => p.2 * p.2).sum) = √(softDot S n X X) / length2 X := by
      rw [Real.sqrt_div hp.le]; rfl
    have hpos : 0 < √(softDot S n X X / (X.map fun p => p.2 * p.2).sum) := Real.sqrt_pos.2 (div_pos hp hl)
    have e : 1 / (√(softDot S n X X) / length2 X) = length2 X / √(softDot S n X X) := by rw [one_div_div]
    unfold vectorFactor corpusFactor scaling
    dsimp only
    rw [hb, hq, if_neg (not_lt.2 hp.le), if_pos hp, if_pos hpos, hv, e]
    refine ⟨rfl, ?_⟩
    rw [if_neg (not_lt.2 hp.le)]

/-- **C69** For each of the nine combinations of normalisations, the inner product of two documents (or of the members of
two corpora) is the soft inner product of the two scaled documents; clipping changes nothing. -/
theorem C69_normalizations (S : Nat → Nat → ℝ) (n : Nat) (hS : SoftMatrix S n) (X Y : List (Nat × ℝ))
    (hX : Doc n X) (hY : Doc n Y) (mx my : Norm) :
    innerVV S X Y mx my = some (scaling S n X mx * scaling S n Y my * softDot S n X Y) ∧
      innerCC S n X Y mx my = some (scaling S n X mx * scaling S n Y my * softDot S n X Y) := by
  have hsub : words X ∪ words Y ⊆ Finset.range n := Finset.union_subset (doc_words hX) (doc_words hY)
  have zx : ∀ i ∈ Finset.range n, i ∉ words X ∪ words Y → weight X i = 0 :=
    fun i _ hi => weight_of_not_mem fun h => hi (Finset.mem_union_left _ h)
  have zy : ∀ i ∈ Finset.range n, i ∉ words X ∪ words Y → weight Y i = 0 :=
    fun i _ hi => weight_of_not_mem fun h => hi (Finset.mem_union_right _ h)
  have exy : bil S (words X ∪ words Y) (weight X) (weight Y) = softDot S n X Y := (bil_restrict hsub zx zy).symm
  have exx : bil S (words X ∪ words Y) (weight X) (weight X) = softDot S n X X := (bil_restrict hsub zx zx).symm
  have eyy : bil S (words X ∪ words Y) (weight Y) (weight Y) = softDot S n Y Y := (bil_restrict hsub zy zy).symm
  have hne : ¬ (X = [] ∨ Y = []) := by
    rintro (h | h)
    · exact hX.nonempty h
    · exact hY.nonempty h
  have hclip : clip mx my (scaling S n X mx * scaling S n Y my * softDot S n X Y) =
      scaling S n X mx * scaling S n Y my * softDot S n X Y := by
    by_cases hm : mx = .yes ∧ my = .yes
    · obtain ⟨rfl, rfl⟩ := hm
      apply clip_of_abs_le
      have := (C69_cosine S n hS X Y hX hY).1
      unfold softCosine at this
      have e : scaling S n X .yes * scaling S n Y .yes * softDot S n X Y =
          softDot S n X Y / (√(softDot S n X X) * √(softDot S n Y Y)) := by
        unfold scaling
        rw [div_mul_div_comm, one_mul, one_div, div_eq_mul_inv, mul_comm]
      rw [e]; exact this
    · unfold clip
      rw [if_neg hm]
  constructor
  · unfold innerVV
    rw [if_neg hne]
    dsimp only
    rw [(factors hS hX Finset.subset_union_left exx mx).1, (factors hS hY Finset.subset_union_right eyy my).1]
    dsimp only
    rw [bil_scale, exy, hclip]
  · unfold innerCC
    dsimp only
    rw [(factors hS hX (doc_words hX) rfl mx).2, (factors hS hY (doc_words hY) rfl my).2]
    dsimp only
    rw [bil_scale]
    exact congrArg some hclip

/-- **C69** With `maintain` documents keep their lengths: the product of a document with itself is its plain squared
length. -/
theorem C69_maintain (S : Nat → Nat → ℝ) (n : Nat) (hS : SoftMatrix S n) (X : List (Nat × ℝ)) (hX : Doc n X) :
    innerVV S X X .maintain .maintain = some (X.map fun p => p.2 * p.2).sum := by
  rw [(C69_normalizations S n hS X X hX hX .maintain .maintain).1]
  have hp := softDot_pos hS hX
  have h1 : √(softDot S n X X) * √(softDot S n X X) = softDot S n X X := Real.mul_self_sqrt hp.le
  have h2 : length2 X * length2 X = (X.map fun p => p.2 * p.2).sum := Real.mul_self_sqrt (length2_pos hX).le
  have h3 : √(softDot S n X X) ≠ 0 := (Real.sqrt_pos.2 hp).ne'
  unfold scaling
  congr 1
  rw [div_mul_div_comm, h1, h2, div_mul_cancel₀]
  exact hp.ne'

/-- **C69** For any matrix: an inner product raises exactly if a document that is to be normalised has a negative soft
norm. -/
theorem C69_negative_norm (S : Nat → Nat → ℝ) (n : Nat) (X Y : List (Nat × ℝ)) (hX : Doc n X) (hY : Doc n Y) (mx my : Norm) :
    (innerVV S X Y mx my = none ↔ (mx ≠ .no ∧ softDot S n X X < 0) ∨ (my ≠ .no ∧ softDot S n Y Y < 0)) ∧
    (innerCC S n X Y mx my = none ↔ (mx ≠ .no ∧ softDot S n X X < 0) ∨ (my ≠ .no ∧ softDot S n Y Y < 0)) := by
  have hsub : words X ∪ words Y ⊆ Finset.range n := Finset.union_subset (doc_words hX) (doc_words hY)
  have zx : ∀ i ∈ Finset.range n, i ∉ words X ∪ words Y → weight X i = 0 :=
    fun i _ hi => weight_of_not_mem fun h => hi (Finset.mem_union_left _ h)
  have zy : ∀ i ∈ Finset.range n, i ∉ words X ∪ words Y → weight Y i = 0 :=
    fun i _ hi => weight_of_not_mem fun h => hi (Finset.mem_union_right _ h)
  have exx : bil S (words X ∪ words Y) (weight X) (weight X) = softDot S n X X := (bil_restrict hsub zx zx).symm
  have eyy : bil S (words X ∪ words Y) (weight Y) (weight Y) = softDot S n Y Y := (bil_restrict hsub zy zy).symm
  have hne : ¬ (X = [] ∨ Y = []) := by
    rintro (h | h)
    · exact hX.nonempty h
    · exact hY.nonempty h
  have hsome : ∀ (c : Prop) [Decidable c] (a b : ℝ), (if c then some a else some b) ≠ none := by
    intro c _ a b
    split <;> simp
  have hv : ∀ (idx : Finset Nat) (m : Norm) (x : Nat → ℝ), vectorFactor S idx m x = none ↔ m ≠ .no ∧ bil S idx x x < 0 := by
    intro idx m x
    cases m <;> simp only [vectorFactor]
    · simp
    · by_cases h : bil S idx x x < 0
      · simp [h]
      · rw [if_neg h]; split <;> simp [h]
    · by_cases h : bil S idx x x < 0
      · simp [h]
      · rw [if_neg h]
        simp only [h, and_false, iff_false]
        exact hsome _ _ _
  have hc : ∀ (idx : Finset Nat) (m : Norm) (x : Nat → ℝ), corpusFactor S idx m x = none ↔ m ≠ .no ∧ bil S idx x x < 0 := by
    intro idx m x
    cases m <;> simp only [corpusFactor]
    · simp
    · by_cases h : bil S idx x x < 0 <;> simp [h]
    · by_cases h : bil S idx x x < 0 <;> simp [h]
  constructor
  · unfold innerVV
    rw [if_neg hne]
    dsimp only
    rw [← exx, ← eyy, ← hv, ← hv]
    cases vectorFactor S (words X ∪ words Y) mx (weight X) <;> cases vectorFactor S (words X ∪ words Y) my (weight Y) <;> simp
  · unfold innerCC
    dsimp only
    rw [show softDot S n X X = bil S (Finset.range n) (weight X) (weight X) from rfl,
      show softDot S n Y Y = bil S (Finset.range n) (weight Y) (weight Y) from rfl, ← hc, ← hc]
    cases corpusFactor S (Finset.range n) mx (weight X) <;> cases corpusFactor S (Finset.range n) my (weight Y) <;> simp

/-- the hypotheses hold for the documents of the finding above -/
example : innerVV idMatrix [(0, 1)] [(0, 1)] .maintain .maintain = some 1 := by
  rw [C69_maintain idMatrix 2 (idMatrix_soft 2) _ exDocX]
  simp

/-- a matrix that is not positive: two terms that are each other's opposites twice over -/
example : innerVV (fun r c => if r = c then 1 else -2) [(0, 1), (1, 1)] [(0, 1)] .yes .no = none := by
  rw [(C69_negative_norm _ 2 _ _ exDocY exDocX .yes .no).1]
  left
  refine ⟨by decide, ?_⟩
  unfold softDot
  simp [Finset.sum_range_succ, weight, List.lookup]
  norm_num

end Verif.Termsim

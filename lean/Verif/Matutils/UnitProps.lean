import Verif.Matutils.UnitModel
import Verif.MatSim.Props

/-!
# C20: `unitvec` on scipy matrices, returned lengths, and the agreement of the three formats
-/

namespace Verif.Matutils
open Verif

/-! ## Specification -/

/-- the number at position `t` of a sparse vector -/
noncomputable def at' (d : List (Nat × ℝ)) (t : Nat) : ℝ := ((d.filter fun p => p.1 = t).map (·.2)).sum

/-- the dense vector of `n` numbers with the given entries -/
noncomputable def denseOf (n : Nat) (d : List (Nat × ℝ)) : List ℝ := (List.range n).map (at' d)

/-- the length of a list of numbers in one of the three norms: the sum of absolute values, the Euclidean length, the
number of numbers that are not zero -/
noncomputable def lengthOf : Norm → List ℝ → ℝ
  | .l1, xs => (xs.map fun x => |x|).sum
  | .l2, xs => √((xs.map fun x => x ^ 2).sum)
  | .unique, xs => (xs.countP fun x => x ≠ 0 : ℕ)

/-! ## Lemmas -/

theorem at'_eq (d : List (Nat × ℝ)) (t : Nat) : at' d t = MatSim.weight d t := rfl

theorem at'_map_div (d : List (Nat × ℝ)) (c : ℝ) (t : Nat) :
    at' (d.map fun p => (p.1, p.2 / c)) t = at' d t / c := MatSim.weight_map_div d c t

theorem sum_at' {n : Nat} (f : ℝ → ℝ) (hf : f 0 = 0) :
    ∀ (d : List (Nat × ℝ)), (d.map (·.1)).Nodup → (∀ p ∈ d, p.1 < n) →
    ∑ t ∈ Finset.range n, f (at' d t) = (d.map fun p => f p.2).sum
  | [], _, _ => by simp [at', hf]
  | p :: d, h1, h2 => by
    simp only [List.map_cons, List.nodup_cons] at h1
    rw [List.map_cons, List.sum_cons, ← sum_at' f hf d h1.2 fun q hq => h2 q (by simp [hq])]
    have : ∀ t ∈ Finset.range n, f (at' (p :: d) t) = (if p.1 = t then f p.2 else 0) + f (at' d t) := by
      intro t _
      rw [at'_eq, at'_eq, MatSim.weight_cons]
      by_cases hk : p.1 = t
      · subst hk
        rw [MatSim.weight_of_not_mem h1.1]; simp [hf]
      · simp [hk]
    rw [Finset.sum_congr rfl this, Finset.sum_add_distrib]
    congr 1
    rw [Finset.sum_ite_eq, if_pos (Finset.mem_range.2 (h2 p (by simp)))]

theorem countP_sum (xs : List ℝ) : ((xs.countP fun x => x ≠ 0 : ℕ) : ℝ) = (xs.map fun x => if x = 0 then (0 : ℝ) else 1).sum := by
  induction xs with
  | nil => simp
  | cons x xs ih =>
    rw [List.countP_cons, List.map_cons, List.sum_cons, ← ih]
    by_cases h : x = 0 <;> simp [h, add_comm]

theorem sum_denseOf {n : Nat} (f : ℝ → ℝ) (hf : f 0 = 0) {d : List (Nat × ℝ)} (h1 : (d.map (·.1)).Nodup)
    (h2 : ∀ p ∈ d, p.1 < n) : ((denseOf n d).map f).sum = ((d.map (·.2)).map f).sum := by
  unfold denseOf
  rw [List.map_map, List.map_map]
  have := sum_at' f hf d h1 h2
  rw [show ((fun p : Nat × ℝ => f p.2)) = f ∘ (fun p : Nat × ℝ => p.2) from rfl] at this
  rw [← this, MatSim.sum_range_map]
  rfl

/-- a sparse vector and its dense form have the same length -/
theorem lengthOf_denseOf (norm : Norm) {n : Nat} {d : List (Nat × ℝ)} (h1 : (d.map (·.1)).Nodup)
    (h2 : ∀ p ∈ d, p.1 < n) : lengthOf norm (denseOf n d) = lengthOf norm (d.map (·.2)) := by
  cases norm with
  | l1 => exact sum_denseOf _ (by simp) h1 h2
  | l2 => exact congrArg Real.sqrt (sum_denseOf (fun x => x ^ 2) (by simp) h1 h2)
  | unique =>
    simp only [lengthOf]
    rw [countP_sum, countP_sum]
    exact sum_denseOf _ (by simp) h1 h2

theorem denseLen_lengthOf (norm : Norm) (xs : List ℝ) : denseLen norm xs = lengthOf norm xs := by
  cases norm with
  | l1 => simp [denseLen, lengthOf, pySum_eq]
  | l2 =>
    by_cases h : xs.length = 0
    · have : xs = [] := List.length_eq_zero_iff.1 h
      subst this
      simp [denseLen, lengthOf]
    · simp [denseLen, lengthOf, pySum_eq, h]
  | unique => simp [denseLen, lengthOf, List.countP_eq_length_filter]

theorem lengthOf_nonneg (norm : Norm) (xs : List ℝ) : 0 ≤ lengthOf norm xs := by
  cases norm with
  | l1 => exact List.sum_nonneg (by simp only [List.mem_map]; rintro _ ⟨x, _, rfl⟩; exact abs_nonneg x)
  | l2 => exact Real.sqrt_nonneg _
  | unique => exact Nat.cast_nonneg _

theorem stored_lengthOf (norm : Norm) {d : List (Nat × ℝ)} (hz : ∀ p ∈ d, p.2 ≠ 0 ∨ norm ≠ .unique) :
    storedLen norm d = lengthOf norm (d.map (·.2)) := by
  cases norm with
  | l1 => simp [storedLen, lengthOf, pySum_eq, Function.comp_def]
  | l2 => simp [storedLen, lengthOf, pySum_eq, Function.comp_def]
  | unique =>
    simp only [storedLen, lengthOf]
    congr 1
    rw [eq_comm, List.countP_eq_length.2, List.length_map]
    intro x hx
    obtain ⟨p, hp, rfl⟩ := List.mem_map.1 hx
    simpa using hz p hp

/-! ## C20 -/

/-- C20 (scipy matrices): the returned matrix has the same positions, every number divided by the length of the
vector, which is also the length returned; the result is in the CSR format and not of integers. A matrix without a
number other than zero comes back as it is, with the length 1. -/
theorem C20_scipy_unit (norm : Norm) (v : Sp) (hz : ∀ p ∈ v.entries, p.2 ≠ 0 ∨ norm ≠ .unique) :
    let c := lengthOf norm (v.entries.map (·.2))
    (0 < c → (unitvecScipy norm v).out = ⟨true, false, v.entries.map fun p => (p.1, p.2 / c)⟩ ∧
      (unitvecScipy norm v).length = c ∧
      (norm ≠ .unique → lengthOf norm ((unitvecScipy norm v).out.entries.map (·.2)) = 1)) ∧
    (c = 0 → (unitvecScipy norm v).out = ⟨true, v.integer, v.entries⟩ ∧ (unitvecScipy norm v).length = 1 ∧
      (unitvecScipy norm v).arg = v) := by
  intro c
  have hc := stored_lengthOf norm hz
  refine ⟨fun h => ?_, fun h => ?_⟩
  · have h1 : (unitvecScipy norm v).out = ⟨true, false, v.entries.map fun p => (p.1, p.2 / c)⟩ := by
      unfold unitvecScipy
      simp only [hc]
      rw [if_pos h]
      simp only [mul_one_div]
      rfl
    refine ⟨h1, ?_, fun hn => ?_⟩
    · unfold unitvecScipy
      simp only [hc]
      rw [if_pos h]
    · rw [h1]
      simp only [List.map_map]
      have hmap : (v.entries.map ((fun x : Nat × ℝ => x.2) ∘ fun p : Nat × ℝ => (p.1, p.2 / c))) =
          (v.entries.map (·.2)).map fun x => x / c := by simp [Function.comp_def]
      rw [hmap]
      have h0 : c ≠ 0 := h.ne'
      have hcd : c = lengthOf norm (v.entries.map (·.2)) := rfl
      generalize v.entries.map (·.2) = xs at hcd
      clear_value c
      cases norm with
      | l1 =>
        simp only [lengthOf, List.map_map] at hcd ⊢
        rw [show ((fun x : ℝ => |x|) ∘ fun x => x / c) = fun x => |x| / c from by
          funext x; simp [abs_div, abs_of_pos h]]
        rw [show (fun x : ℝ => |x| / c) = fun x => |x| * c⁻¹ from by funext x; rw [div_eq_mul_inv]]
        rw [List.sum_map_mul_right, ← hcd, mul_inv_cancel₀ h0]
      | l2 =>
        simp only [lengthOf, List.map_map] at hcd ⊢
        rw [show ((fun x : ℝ => x ^ 2) ∘ fun x => x / c) = fun x => x ^ 2 * (c ^ 2)⁻¹ from by
          funext x; simp [div_eq_mul_inv, mul_pow]]
        rw [List.sum_map_mul_right, Real.sqrt_mul' _ (by positivity), ← hcd, Real.sqrt_inv,
          Real.sqrt_sq h.le, mul_inv_cancel₀ h0]
      | unique => exact absurd rfl hn
  · have hlen : ¬ 0 < lengthOf norm (v.entries.map (·.2)) := not_lt.2 h.le
    unfold unitvecScipy
    simp only [hc]
    rw [if_neg hlen]
    exact ⟨rfl, rfl, rfl⟩

/-- C20 (the argument, a finding): a CSR matrix of numbers that are not integers is itself changed: after the call it
is the returned matrix. Every other matrix (another format, integers, or nothing but zeros) is left as it was. -/
theorem C20_scipy_argument (norm : Norm) (v : Sp) :
    (v.csr = true → v.integer = false → (unitvecScipy norm v).arg = (unitvecScipy norm v).out) ∧
    (v.csr = false ∨ v.integer = true → (unitvecScipy norm v).arg = v) := by
  unfold unitvecScipy
  simp only []
  refine ⟨fun h1 h2 => ?_, fun h => ?_⟩
  · split
    · simp [h1, h2]
    · obtain ⟨c, i, es⟩ := v
      simp only at h1
      subst h1; rfl
  · split
    · rcases h with h | h <;> simp [h]
    · rfl

/-- C20 (the number of entries): with `norm='unique'` a scipy matrix is divided by the number of its stored
entries, stored zeros included; a dense vector by the number of its entries that are not zero. -/
theorem C20_scipy_unique (v : Sp) (hne : v.entries ≠ []) :
    (unitvecScipy .unique v).out.entries = v.entries.map (fun p => (p.1, p.2 / (v.entries.length : ℝ))) ∧
    (unitvecScipy .unique v).length = v.entries.length := by
  have h : (0 : ℝ) < v.entries.length := by exact_mod_cast List.length_pos_iff.2 hne
  have hs : storedLen .unique v.entries = v.entries.length := rfl
  unfold unitvecScipy
  simp only [hs]
  rw [if_pos h]
  simp only [mul_one_div]
  exact ⟨trivial, trivial⟩

/-- C20 (formats): for a vector without explicitly stored zeros, the three formats give the same vector and the same
length, whatever the norm. -/
theorem C20_formats_agree (norm : Norm) (n : Nat) (d : List (Nat × ℝ)) (h1 : (d.map (·.1)).Nodup)
    (h2 : ∀ p ∈ d, p.1 < n) (h3 : ∀ p ∈ d, p.2 ≠ 0) (csr : Bool) :
    ∃ r c, unitvecSparseLen norm d = some (r, c) ∧ unitvecSparse norm d = some r ∧
      (unitvecScipy norm ⟨csr, false, d⟩).out.entries = r ∧ (unitvecScipy norm ⟨csr, false, d⟩).length = c ∧
      unitvecDenseLen norm (denseOf n d) = (denseOf n r, c) ∧ unitvecDense norm (denseOf n d) = denseOf n r ∧
      (d ≠ [] → c = lengthOf norm (denseOf n d)) ∧ (d = [] → c = 1) := by
  have hc := stored_lengthOf (d := d) norm fun p hp => .inl (h3 p hp)
  have hs : sparseLen norm d = lengthOf norm (d.map (·.2)) := by rw [← hc]; cases norm <;> rfl
  have hd : denseLen norm (denseOf n d) = lengthOf norm (d.map (·.2)) := by
    rw [denseLen_lengthOf, lengthOf_denseOf norm h1 h2]
  have key : (0 < lengthOf norm (d.map (·.2))) ↔ d ≠ [] := by
    constructor
    · rintro h rfl
      cases norm <;> simp [lengthOf] at h
    · intro h
      refine lt_of_le_of_ne (lengthOf_nonneg _ _) fun he => ?_
      obtain ⟨p, hp⟩ := List.exists_mem_of_ne_nil d h
      by_cases hu : norm = .unique
      · subst hu
        rw [← hc] at he
        have he' : (d.length : ℝ) = 0 := he.symm
        have : d.length = 0 := by exact_mod_cast he'
        exact h (List.length_eq_zero_iff.1 this)
      · have hno : normOf norm (d.map (·.2)) = 0 := by
          rw [he]; cases norm <;> first | rfl | exact absurd rfl hu
        exact h3 p hp ((normOf_eq_zero norm hu _).1 hno p.2 (List.mem_map_of_mem hp))
  by_cases hne : d = []
  · subst hne
    have hl : ¬ 0 < lengthOf norm (([] : List (Nat × ℝ)).map (·.2)) := fun h => key.1 h rfl
    refine ⟨[], 1, rfl, rfl, ?_, ?_, ?_, ?_, fun h => absurd rfl h, fun _ => rfl⟩
    · unfold unitvecScipy; simp only [hc]; rw [if_neg hl]
    · unfold unitvecScipy; simp only [hc]; rw [if_neg hl]
    · unfold unitvecDenseLen; simp only [hd]; rw [if_neg hl]
    · unfold unitvecDense; simp only [hd]; rw [if_neg hl]
  · have hl := key.2 hne
    set c := lengthOf norm (d.map (·.2)) with hcd
    have hr : retNormalized d c = d.map fun p => (p.1, p.2 / c) := by
      unfold retNormalized
      split
      · rfl
      · next h =>
        rw [show c = 1 from not_not.1 h]
        simp
    have hdense : (denseOf n d).map (fun x => 1 / c * x) = denseOf n (d.map fun p => (p.1, p.2 / c)) := by
      unfold denseOf
      rw [List.map_map]
      refine List.map_congr_left fun t _ => ?_
      rw [at'_map_div]
      simp [div_eq_inv_mul]
    refine ⟨d.map fun p => (p.1, p.2 / c), c, ?_, ?_, ?_, ?_, ?_, ?_, fun _ => ?_, fun h => absurd h hne⟩
    · cases d with
      | nil => exact absurd rfl hne
      | cons p d => simp only [unitvecSparseLen]; rw [hs, if_pos hl, hr]
    · cases d with
      | nil => exact absurd rfl hne
      | cons p d => simp only [unitvecSparse]; rw [hs, if_pos hl, hr]
    · unfold unitvecScipy; simp only [hc]; rw [if_pos hl]; simp only [mul_one_div]
    · unfold unitvecScipy; simp only [hc]; rw [if_pos hl]
    · unfold unitvecDenseLen; simp only [hd]; rw [if_pos hl, hdense]
    · unfold unitvecDense; simp only [hd]; rw [if_pos hl, hdense]
    · rw [hcd, lengthOf_denseOf norm h1 h2]

/-- non-vacuity, and what goes differently with stored zeros: the same two-entry vector with one stored zero is
halved as a scipy matrix and left alone as a dense vector, with `norm='unique'`. -/
theorem C20_stored_zeros :
    (unitvecScipy .unique ⟨true, false, [(0, 4), (1, 0)]⟩).out.entries = [(0, 2), (1, 0)] ∧
    unitvecDense .unique (denseOf 2 [(0, 4), (1, 0)]) = [4, 0] := by
  constructor
  · rw [(C20_scipy_unique _ (by simp)).1]
    simp; norm_num
  · have hd : denseOf 2 [(0, 4), (1, 0)] = [4, 0] := by
      simp [denseOf, List.range_succ, at'_eq, MatSim.weight_cons, MatSim.weight_nil]
    rw [hd]
    simp [unitvecDense, denseLen]

/-- the argument really changes: the vector (3, 5) in the CSR format is (3/8, 5/8) after `unitvec` with the norm `l1` -/
example : (unitvecScipy .l1 ⟨true, false, [(0, 3), (1, 5)]⟩).arg.entries = [(0, 3 / 8), (1, 5 / 8)] := by
  rw [(C20_scipy_argument .l1 _).1 rfl rfl]
  have hl : lengthOf .l1 ([3, 5] : List ℝ) = 8 := by simp [lengthOf]; norm_num
  have h := (C20_scipy_unit .l1 ⟨true, false, [(0, 3), (1, 5)]⟩ (by simp)).1
  simp only [List.map_cons, List.map_nil, hl] at h
  rw [(h (by norm_num)).1]

end Verif.Matutils

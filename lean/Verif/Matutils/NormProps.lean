import Verif.Matutils.NormModel
import Mathlib.Algebra.Order.BigOperators.Ring.Finset
import Mathlib.Tactic.Linarith
import Mathlib.Tactic.Ring
import Mathlib.Tactic.NormNum
import Mathlib.Tactic.Positivity
import Mathlib.Tactic.FieldSimp

/-!
# C20, C21: `unitvec`, `cossim`, `hellinger`, `jaccard`
-/

namespace Verif.Matutils
open Verif PyDict

/-! ## Sums -/

theorem pySum_eq (l : List ℝ) : pySum l = l.sum := by
  have : ∀ (l : List ℝ) (a : ℝ), l.foldl (· + ·) a = a + l.sum := by
    intro l
    induction l with
    | nil => intro a; simp
    | cons x l ih => intro a; rw [List.foldl_cons, ih, List.sum_cons]; ring
  rw [pySum, this]; simp

theorem sum_map_mul {α : Type} (c : ℝ) (f : α → ℝ) (l : List α) :
    (l.map (fun a => f a * c)).sum = (l.map f).sum * c := by
  induction l with
  | nil => simp
  | cons a l ih => simp only [List.map_cons, List.sum_cons, ih]; ring

theorem sum_map_congr {α : Type} {f g : α → ℝ} {l : List α} (h : ∀ a ∈ l, f a = g a) :
    (l.map f).sum = (l.map g).sum := by
  rw [List.map_congr_left h]

theorem sum_map_nonneg {α : Type} {f : α → ℝ} {l : List α} (h : ∀ a ∈ l, 0 ≤ f a) :
    0 ≤ (l.map f).sum := by
  induction l with
  | nil => simp
  | cons a l ih =>
    simp only [List.map_cons, List.sum_cons]
    have := h a (by simp)
    have := ih (fun b hb => h b (by simp [hb]))
    linarith

theorem sum_map_eq_zero {α : Type} {f : α → ℝ} {l : List α} (h : ∀ a ∈ l, 0 ≤ f a)
    (hs : (l.map f).sum = 0) : ∀ a ∈ l, f a = 0 := by
  induction l with
  | nil => simp
  | cons a l ih =>
    simp only [List.map_cons, List.sum_cons] at hs
    have h1 := h a (by simp)
    have h2 := sum_map_nonneg (fun b hb => h b (List.mem_cons_of_mem a hb))
    intro b hb
    rcases List.mem_cons.1 hb with rfl | hb
    · linarith
    · exact ih (fun b hb => h b (by simp [hb])) (by linarith) b hb

/-! ## C20 -/

/-- specification: the l1 or l2 norm of a list of numbers -/
noncomputable def normOf : Norm → List ℝ → ℝ
  | .l1, xs => (xs.map (fun x => |x|)).sum
  | .l2, xs => √((xs.map (fun x => x ^ 2)).sum)
  | .unique, xs => xs.length

theorem sparseLen_eq (norm : Norm) (vec : List (Nat × ℝ)) :
    sparseLen norm vec = normOf norm (vec.map (·.2)) := by
  cases norm <;> simp [sparseLen, normOf, pySum_eq, Function.comp_def]

theorem normOf_nonneg (norm : Norm) (xs : List ℝ) : 0 ≤ normOf norm xs := by
  cases norm
  · exact sum_map_nonneg (fun x _ => abs_nonneg x)
  · exact Real.sqrt_nonneg _
  · simp [normOf]

theorem normOf_div (norm : Norm) (hn : norm ≠ .unique) (xs : List ℝ) (c : ℝ) (hc : 0 < c) :
    normOf norm (xs.map (fun x => x / c)) = normOf norm xs / c := by
  cases norm with
  | l1 =>
    simp only [normOf, List.map_map]
    rw [div_eq_mul_inv, ← sum_map_mul]
    apply sum_map_congr
    intro x _
    simp [abs_div, abs_of_pos hc, div_eq_mul_inv]
  | l2 =>
    simp only [normOf, List.map_map]
    have : (xs.map ((fun x => x ^ 2) ∘ fun x => x / c)).sum = (xs.map (fun x => x ^ 2)).sum * (c ^ 2)⁻¹ := by
      rw [← sum_map_mul]
      apply sum_map_congr
      intro x _
      simp only [Function.comp, div_eq_mul_inv, mul_pow, inv_pow]
    rw [this, Real.sqrt_mul (sum_map_nonneg (fun x _ => by positivity)), Real.sqrt_inv,
      Real.sqrt_sq hc.le, div_eq_mul_inv]
  | unique => exact absurd rfl hn

theorem normOf_eq_zero (norm : Norm) (hn : norm ≠ .unique) (xs : List ℝ) :
    normOf norm xs = 0 ↔ ∀ x ∈ xs, x = 0 := by
  constructor
  · intro h
    cases norm with
    | l1 => intro x hx; simpa using sum_map_eq_zero (fun x _ => abs_nonneg x) h x hx
    | l2 =>
      intro x hx
      have h' := (Real.sqrt_eq_zero (sum_map_nonneg (fun x _ => by positivity))).1 h
      simpa using sum_map_eq_zero (f := fun x : ℝ => x ^ 2) (fun x _ => by positivity) h' x hx
    | unique => exact absurd rfl hn
  · intro h
    have hx : xs.map (fun x => |x|) = xs.map (fun _ => 0) := List.map_congr_left (fun x hx => by simp [h x hx])
    have hy : xs.map (fun x => x ^ 2) = xs.map (fun _ => 0) := List.map_congr_left (fun x hx => by simp [h x hx])
    cases norm with
    | l1 => simp [normOf, hx]
    | l2 => simp [normOf, hy]
    | unique => exact absurd rfl hn

theorem retNormalized_eq (vec : List (Nat × ℝ)) (len : ℝ) :
    retNormalized vec len = vec.map (fun p => (p.1, p.2 / len)) := by
  unfold retNormalized
  split
  · rfl
  · rename_i h
    have : len = 1 := by simpa using h
    subst this; simp

/-- C20: on a sparse vector with a non-zero entry, `unitvec` for the l1 and l2 norms returns the same
ids in the same order, every weight divided by the same positive number, with norm 1 -/
theorem C20_sparse_unit (norm : Norm) (hn : norm ≠ .unique) (vec : List (Nat × ℝ))
    (hv : ∃ p ∈ vec, p.2 ≠ 0) :
    ∃ r c, unitvecSparse norm vec = some r ∧ 0 < c ∧ r = vec.map (fun p => (p.1, p.2 / c)) ∧
      normOf norm (r.map (·.2)) = 1 := by
  have hpos : 0 < sparseLen norm vec := by
    rw [sparseLen_eq]
    refine lt_of_le_of_ne (normOf_nonneg _ _) (fun h => ?_)
    obtain ⟨p, hp, hp0⟩ := hv
    exact hp0 ((normOf_eq_zero norm hn _).1 h.symm p.2 (List.mem_map_of_mem hp))
  refine ⟨vec.map (fun p => (p.1, p.2 / sparseLen norm vec)), sparseLen norm vec, ?_, hpos, rfl, ?_⟩
  · cases vec with
    | nil => obtain ⟨p, hp, _⟩ := hv; simp at hp
    | cons q vec => simp only [unitvecSparse, hpos, if_true, retNormalized_eq]
  · have : (vec.map (fun p => (p.1, p.2 / sparseLen norm vec))).map (·.2) =
        (vec.map (·.2)).map (fun x => x / sparseLen norm vec) := by simp
    rw [this, normOf_div norm hn _ _ hpos, ← sparseLen_eq, div_self hpos.ne']

/-- C20: normalising twice is normalising once -/
theorem C20_sparse_idempotent (norm : Norm) (hn : norm ≠ .unique) (vec r : List (Nat × ℝ))
    (h : unitvecSparse norm vec = some r) : unitvecSparse norm r = some r := by
  by_cases hv : ∃ p ∈ vec, p.2 ≠ 0
  · obtain ⟨r', c, h1, h2, h3, h4⟩ := C20_sparse_unit norm hn vec hv
    rw [h, Option.some.injEq] at h1
    subst h1
    have hl : sparseLen norm r = 1 := by rw [sparseLen_eq, h4]
    have hne : r ≠ [] := by
      obtain ⟨p, hp, _⟩ := hv
      rw [h3]; intro h'; simp at h'; subst h'; simp at hp
    cases r with
    | nil => exact absurd rfl hne
    | cons q r => simp only [unitvecSparse, hl, retNormalized_eq]; norm_num
  · have hz : ∀ p ∈ vec, p.2 = 0 := by
      intro p hp; by_contra h'; exact hv ⟨p, hp, h'⟩
    cases vec with
    | nil => simp only [unitvecSparse, Option.some.injEq] at h; subst h; rfl
    | cons q vec =>
      have : sparseLen norm (q :: vec) = 0 := by
        rw [sparseLen_eq]
        refine (normOf_eq_zero norm hn _).2 ?_
        intro x hx
        obtain ⟨p, hp, rfl⟩ := List.mem_map.1 hx
        exact hz p hp
      simp [unitvecSparse, this] at h

/-- C20: the empty vector is returned as it is; a non-empty one with only zeros raises -/
theorem C20_sparse_zero (norm : Norm) (hn : norm ≠ .unique) (vec : List (Nat × ℝ))
    (hz : ∀ p ∈ vec, p.2 = 0) :
    unitvecSparse norm vec = if vec = [] then some [] else none := by
  cases vec with
  | nil => rfl
  | cons q vec =>
    have : sparseLen norm (q :: vec) = 0 := by
      rw [sparseLen_eq]
      refine (normOf_eq_zero norm hn _).2 ?_
      intro x hx
      obtain ⟨p, hp, rfl⟩ := List.mem_map.1 hx
      exact hz p hp
    simp [unitvecSparse, this]

/-- C20, the norm 'unique': every weight is divided by the number of entries, every time; so the
second application changes the vector again -/
theorem C20_unique (vec : List (Nat × ℝ)) :
    unitvecSparse .unique vec = some (vec.map (fun p => (p.1, p.2 / (vec.length : ℝ)))) ∧
    (unitvecSparse .unique vec).bind (unitvecSparse .unique) =
      some (vec.map (fun p => (p.1, p.2 / (vec.length : ℝ) ^ 2))) := by
  have key : ∀ vec : List (Nat × ℝ), unitvecSparse .unique vec =
      some (vec.map (fun p => (p.1, p.2 / (vec.length : ℝ)))) := by
    intro vec
    cases vec with
    | nil => rfl
    | cons q vec =>
      have hpos : 0 < sparseLen .unique (q :: vec) := by
        simp only [sparseLen, List.length_cons]; positivity
      simp only [unitvecSparse, hpos, if_true, retNormalized_eq]
      rfl
  refine ⟨key vec, ?_⟩
  rw [key vec, Option.bind_some, key]
  simp only [List.map_map, List.length_map, Function.comp_def, div_div, sq]

example : unitvecSparse .l2 [(3, 3), (7, -4)] = some [(3, 3 / 5), (7, -4 / 5)] := by
  have : (√(pySum ([(3, 3), (7, -4)].map (fun p : Nat × ℝ => p.2 ^ 2))) : ℝ) = 5 := by
    rw [pySum_eq]
    norm_num
    rw [show (25 : ℝ) = 5 ^ 2 by norm_num]
    exact Real.sqrt_sq (by norm_num)
  simp only [unitvecSparse, sparseLen, this, retNormalized_eq]
  norm_num

theorem denseLen_eq (norm : Norm) (hn : norm ≠ .unique) (vec : List ℝ) :
    denseLen norm vec = normOf norm vec := by
  cases norm with
  | l1 => simp [denseLen, normOf, pySum_eq]
  | l2 =>
    simp only [denseLen, normOf, pySum_eq]
    split
    · rename_i h
      have : vec = [] := List.length_eq_zero_iff.1 h
      simp [this]
    · rfl
  | unique => exact absurd rfl hn

/-- C20: on a dense vector `unitvec` for the l1 and l2 norms returns a positive multiple of norm 1, or
the vector itself if it is zero; a second application changes nothing -/
theorem C20_dense_unit (norm : Norm) (hn : norm ≠ .unique) (vec : List ℝ) :
    ((∀ x ∈ vec, x = 0) → unitvecDense norm vec = vec) ∧
    ((∃ x ∈ vec, x ≠ 0) → normOf norm (unitvecDense norm vec) = 1 ∧
      ∃ c > 0, unitvecDense norm vec = vec.map (fun x => c * x)) ∧
    unitvecDense norm (unitvecDense norm vec) = unitvecDense norm vec := by
  have hz : (∀ x ∈ vec, x = 0) → unitvecDense norm vec = vec := by
    intro h
    have : denseLen norm vec = 0 := by rw [denseLen_eq norm hn, normOf_eq_zero norm hn]; exact h
    simp [unitvecDense, this]
  have hnz : (∃ x ∈ vec, x ≠ 0) → normOf norm (unitvecDense norm vec) = 1 ∧
      ∃ c > 0, unitvecDense norm vec = vec.map (fun x => c * x) := by
    rintro ⟨x, hx, hx0⟩
    have hpos : 0 < denseLen norm vec := by
      rw [denseLen_eq norm hn]
      refine lt_of_le_of_ne (normOf_nonneg _ _) (fun h => ?_)
      exact hx0 ((normOf_eq_zero norm hn _).1 h.symm x hx)
    have he : unitvecDense norm vec = vec.map (fun x => x / denseLen norm vec) := by
      simp only [unitvecDense, hpos, if_true]
      apply List.map_congr_left
      intro x _; ring
    refine ⟨?_, 1 / denseLen norm vec, by positivity, by simp only [unitvecDense, hpos, if_true]⟩
    rw [he, normOf_div norm hn _ _ hpos, ← denseLen_eq norm hn, div_self hpos.ne']
  refine ⟨hz, hnz, ?_⟩
  by_cases h : ∃ x ∈ vec, x ≠ 0
  · obtain ⟨h1, -⟩ := hnz h
    generalize unitvecDense norm vec = u at h1 ⊢
    have : denseLen norm u = 1 := by rw [denseLen_eq norm hn, h1]
    simp [unitvecDense, this]
  · have h' : ∀ x ∈ vec, x = 0 := by intro x hx; by_contra h''; exact h ⟨x, hx, h''⟩
    rw [hz h', hz h']

/-! ## C21: `cossim` -/

/-- summing over the items of a dictionary -/
theorem sum_items (d : PyDict Nat ℝ) (hd : WF d) (f : Nat → ℝ → ℝ) (S : Finset Nat)
    (hS : ∀ k ∈ keys d, k ∈ S) (hf : ∀ k ∈ S, k ∉ keys d → f k 0 = 0) :
    (d.map (fun p => f p.1 p.2)).sum = ∑ k ∈ S, f k (getD d k 0) := by
  have h1 : (d.map (fun p => f p.1 p.2)) = (keys d).map (fun k => f k (getD d k 0)) := by
    simp only [keys, List.map_map]
    apply List.map_congr_left
    intro p hp
    simp [getD, get?_of_mem hd hp]
  rw [h1, ← List.sum_toFinset _ hd]
  apply Finset.sum_subset
  · intro k hk; exact hS k (List.mem_toFinset.1 hk)
  · intro k hk hnk
    have hnk' : k ∉ keys d := fun h => hnk (List.mem_toFinset.2 h)
    simp only [getD, (get?_eq_none_iff d k).2 hnk', Option.getD_none]
    exact hf k hk hnk'

/-- the inner product of two dictionaries over all ids of either -/
noncomputable def dot (v1 v2 : PyDict Nat ℝ) : ℝ :=
  ∑ k ∈ (keys v1 ++ keys v2).toFinset, getD v1 k 0 * getD v2 k 0

theorem dot_comm (v1 v2 : PyDict Nat ℝ) : dot v1 v2 = dot v2 v1 := by
  unfold dot
  have : (keys v1 ++ keys v2).toFinset = (keys v2 ++ keys v1).toFinset := by
    ext k; simp [or_comm]
  rw [this]
  exact Finset.sum_congr rfl (fun k _ => mul_comm _ _)

theorem getD_of_not_key {d : PyDict Nat ℝ} {k : Nat} (h : k ∉ keys d) : getD d k 0 = 0 := by
  simp [getD, (get?_eq_none_iff d k).2 h]

theorem dot_eq_left (v1 v2 : PyDict Nat ℝ) (h1 : WF v1) :
    (v1.map (fun p => p.2 * getD v2 p.1 0)).sum = dot v1 v2 :=
  sum_items v1 h1 (fun k x => x * getD v2 k 0) _ (fun k hk => by simp [hk]) (by simp)

theorem sq_sum (v : PyDict Nat ℝ) (hv : WF v) (S : Finset Nat) (hS : ∀ k ∈ keys v, k ∈ S) :
    ((values v).map (fun x => x * x)).sum = ∑ k ∈ S, getD v k 0 ^ 2 := by
  have := sum_items v hv (fun _ x => x * x) S hS (by simp)
  simp only [values, List.map_map, Function.comp_def]
  rw [this]
  exact Finset.sum_congr rfl (fun k _ => (sq _).symm)

/-- the result of `cossim` on two non-empty vectors with non-zero norms -/
theorem cossim_eq (vec1 vec2 : List (Nat × ℝ)) (x : ℝ) (h : cossim vec1 vec2 = some x) :
    x = 0 ∧ (vec1 = [] ∨ vec2 = []) ∨
    (0 < √(pySum ((values (ofPairs vec1)).map (fun x => x * x))) ∧
     0 < √(pySum ((values (ofPairs vec2)).map (fun x => x * x))) ∧
     x = dot (ofPairs vec1) (ofPairs vec2) / (√(pySum ((values (ofPairs vec1)).map (fun x => x * x))) *
      √(pySum ((values (ofPairs vec2)).map (fun x => x * x))))) := by
  have hnil : ∀ v : List (Nat × ℝ), (ofPairs v : PyDict Nat ℝ) = [] → v = [] := by
    intro v hv
    cases v with
    | nil => rfl
    | cons p v =>
      exfalso
      have : ∀ (l : List (Nat × ℝ)) (d : PyDict Nat ℝ), d ≠ [] →
          l.foldl (fun d p => PyDict.set d p.1 p.2) d ≠ [] := by
        intro l
        induction l with
        | nil => intro d hd; exact hd
        | cons q l ih =>
          intro d hd
          rw [List.foldl_cons]
          apply ih
          intro h
          have := (mem_keys_set d q.1 q.1 q.2).2 (Or.inl rfl)
          rw [h] at this; simp at this
      refine this v (PyDict.set [] p.1 p.2) (by simp [PyDict.set]) ?_
      simpa [ofPairs] using hv
  simp only [cossim] at h
  split at h
  · rename_i hc
    left
    simp only [Option.some.injEq] at h
    exact ⟨h.symm, hc.imp (hnil _) (hnil _)⟩
  · split at h
    · rename_i hpos
      right
      refine ⟨hpos.1, hpos.2, ?_⟩
      simp only [Option.some.injEq] at h
      rw [← h, pySum_eq]
      congr 1
      split
      · rw [dot_eq_left _ _ (WF_ofPairs vec2), dot_comm]
      · rw [dot_eq_left _ _ (WF_ofPairs vec1)]
    · simp at h

/-- C21: `cossim` is symmetric (also in when it raises) -/
theorem C21_cossim_symm (vec1 vec2 : List (Nat × ℝ)) : cossim vec1 vec2 = cossim vec2 vec1 := by
  have hdef : ∀ a b : List (Nat × ℝ), cossim a b = none → cossim b a = none := by
    intro a b h
    simp only [cossim] at h ⊢
    split at h
    · simp at h
    · rename_i hc
      rw [if_neg (fun h => hc h.symm)]
      split at h
      · simp at h
      · rename_i hp; rw [if_neg (fun h => hp h.symm)]
  cases h1 : cossim vec1 vec2 with
  | none => exact (hdef _ _ h1).symm
  | some x =>
    cases h2 : cossim vec2 vec1 with
    | none => rw [hdef _ _ h2] at h1; simp at h1
    | some y =>
      congr 1
      rcases cossim_eq _ _ _ h1 with ⟨e1, e2⟩ | ⟨p1, p2, e⟩
      · rcases cossim_eq _ _ _ h2 with ⟨f1, _⟩ | ⟨q1, q2, f⟩
        · rw [e1, f1]
        · exfalso
          rcases e2 with rfl | rfl
          · simp [ofPairs, values, pySum] at q2
          · simp [ofPairs, values, pySum] at q1
      · rcases cossim_eq _ _ _ h2 with ⟨f1, f2⟩ | ⟨q1, q2, f⟩
        · exfalso
          rcases f2 with rfl | rfl
          · simp [ofPairs, values, pySum] at p2
          · simp [ofPairs, values, pySum] at p1
        · rw [e, f, dot_comm, mul_comm (√_) (√_)]

/-- C21: `cossim` is within [-1, 1] -/
theorem C21_cossim_bounded (vec1 vec2 : List (Nat × ℝ)) (x : ℝ) (h : cossim vec1 vec2 = some x) :
    -1 ≤ x ∧ x ≤ 1 := by
  rcases cossim_eq _ _ _ h with ⟨rfl, _⟩ | ⟨p1, p2, rfl⟩
  · norm_num
  · rw [← abs_le, abs_div, abs_of_pos (mul_pos p1 p2), div_le_one (mul_pos p1 p2)]
    rw [pySum_eq, pySum_eq]
    rw [sq_sum _ (WF_ofPairs vec1) (keys (ofPairs vec1) ++ keys (ofPairs vec2)).toFinset
        (fun k hk => by simp [hk]),
      sq_sum _ (WF_ofPairs vec2) (keys (ofPairs vec1) ++ keys (ofPairs vec2)).toFinset
        (fun k hk => by simp [hk])]
    rw [← Real.sqrt_mul (Finset.sum_nonneg (fun _ _ => sq_nonneg _))]
    apply Real.abs_le_sqrt
    exact Finset.sum_mul_sq_le_sq_mul_sq _ _ _

/-- C21: `cossim` of a vector with itself is 1, unless it is empty (then 0) or it raises -/
theorem C21_cossim_self (vec : List (Nat × ℝ)) (x : ℝ) (h : cossim vec vec = some x) :
    (vec ≠ [] → x = 1) ∧ (vec = [] → x = 0) := by
  rcases cossim_eq _ _ _ h with ⟨rfl, e⟩ | ⟨p1, p2, e⟩
  · have : vec = [] := by simpa using e
    exact ⟨fun h => absurd this h, fun _ => rfl⟩
  · refine ⟨fun _ => ?_, fun hv => ?_⟩
    · have hd : dot (ofPairs vec) (ofPairs vec) = pySum ((values (ofPairs vec)).map (fun x => x * x)) := by
        rw [pySum_eq, sq_sum _ (WF_ofPairs vec) (keys (ofPairs vec) ++ keys (ofPairs vec)).toFinset
          (fun k hk => by simp [hk])]
        exact Finset.sum_congr rfl (fun k _ => (sq _).symm)
      have hn : 0 ≤ pySum ((values (ofPairs vec)).map (fun x => x * x)) := by
        rw [pySum_eq]; exact sum_map_nonneg (fun x _ => mul_self_nonneg x)
      rw [e, hd, Real.mul_self_sqrt hn]
      apply div_self
      intro h0; rw [h0] at p1; simp at p1
    · subst hv; simp [ofPairs, values, pySum] at p1

/-- `cossim` raises only on a non-empty vector without non-zero weight -/
theorem C21_cossim_defined (vec1 vec2 : List (Nat × ℝ)) (h1 : ∀ p ∈ vec1, p.2 ≠ 0)
    (h2 : ∀ p ∈ vec2, p.2 ≠ 0) : ∃ x, cossim vec1 vec2 = some x := by
  have hmem : ∀ (l : List (Nat × ℝ)) (d : PyDict Nat ℝ) (p : Nat × ℝ),
      p ∈ l.foldl (fun d p => PyDict.set d p.1 p.2) d → p ∈ d ∨ p ∈ l := by
    intro l
    induction l with
    | nil => intro d p hp; exact Or.inl hp
    | cons q l ih =>
      intro d p hp
      rcases ih _ _ hp with h | h
      · have : ∀ (d : PyDict Nat ℝ) (p : Nat × ℝ), p ∈ PyDict.set d q.1 q.2 → p ∈ d ∨ p = q := by
          intro d
          induction d with
          | nil => intro p hp; simp only [PyDict.set, List.mem_singleton] at hp; exact Or.inr hp
          | cons r d ihd =>
            obtain ⟨k, v⟩ := r
            intro p hp
            simp only [PyDict.set] at hp
            split at hp
            · rename_i hk
              rcases List.mem_cons.1 hp with h | h
              · right; rw [h, hk]
              · exact Or.inl (by simp [h])
            · rcases List.mem_cons.1 hp with h | h
              · exact Or.inl (by simp [h])
              · rcases ihd p h with h | h
                · exact Or.inl (by simp [h])
                · exact Or.inr h
        rcases this d p h with h | h
        · exact Or.inl h
        · right; simp [h]
      · right; simp [h]
  have hpos : ∀ vec : List (Nat × ℝ), (∀ p ∈ vec, p.2 ≠ 0) → (ofPairs vec : PyDict Nat ℝ) ≠ [] →
      0 < √(pySum ((values (ofPairs vec)).map (fun x => x * x))) := by
    intro vec hv hne
    rw [pySum_eq]
    apply Real.sqrt_pos.2
    refine lt_of_le_of_ne (sum_map_nonneg (fun x _ => mul_self_nonneg x)) (fun h => ?_)
    have hz := sum_map_eq_zero (f := fun x : ℝ => x * x) (fun x _ => mul_self_nonneg x) h.symm
    cases hd : (ofPairs vec : PyDict Nat ℝ) with
    | nil => exact hne hd
    | cons p d =>
      have hp : p ∈ (ofPairs vec : PyDict Nat ℝ) := by rw [hd]; simp
      have hpv : p ∈ vec := by
        rcases hmem vec [] p hp with h | h
        · simp at h
        · exact h
      have := hz p.2 (by rw [hd]; simp [values])
      exact hv p hpv (by simpa using this)
  simp only [cossim]
  split
  · exact ⟨_, rfl⟩
  · rename_i hc
    rw [not_or] at hc
    rw [if_pos ⟨hpos vec1 h1 hc.1, hpos vec2 h2 hc.2⟩]
    exact ⟨_, rfl⟩

/-! ## C21: `hellinger` -/

/-- C21: `hellinger` on bags of words is symmetric -/
theorem C21_hellinger_symm (vec1 vec2 : List (Nat × ℝ)) :
    hellingerBow vec1 vec2 = hellingerBow vec2 vec1 := by
  simp only [hellingerBow]
  have : (keys (ofPairs vec1 : PyDict Nat ℝ) ++ keys (ofPairs vec2 : PyDict Nat ℝ)).toFinset =
      (keys (ofPairs vec2 : PyDict Nat ℝ) ++ keys (ofPairs vec1 : PyDict Nat ℝ)).toFinset := by
    ext k; simp [or_comm]
  rw [this]
  congr 2
  exact Finset.sum_congr rfl (fun k _ => by ring)

/-- C21: `hellinger` of non-negative bags of words (without repeated ids) is 0 exactly if they give
every id the same weight -/
theorem C21_hellinger_zero (vec1 vec2 : PyDict Nat ℝ) (h1 : WF vec1) (h2 : WF vec2)
    (p1 : ∀ p ∈ vec1, 0 ≤ p.2) (p2 : ∀ p ∈ vec2, 0 ≤ p.2) :
    hellingerBow vec1 vec2 = 0 ↔ ∀ i, getD vec1 i 0 = getD vec2 i 0 := by
  have hnn : ∀ (v : PyDict Nat ℝ), (∀ p ∈ v, 0 ≤ p.2) → ∀ i, 0 ≤ getD v i 0 := by
    intro v hv i
    simp only [getD]
    cases hg : get? v i with
    | none => simp
    | some x => exact hv _ (mem_of_get? hg)
  simp only [hellingerBow, ofPairs_of_WF h1, ofPairs_of_WF h2]
  rw [Real.sqrt_eq_zero (by
    apply mul_nonneg (by norm_num)
    exact Finset.sum_nonneg (fun _ _ => sq_nonneg _))]
  rw [mul_eq_zero, Finset.sum_eq_zero_iff_of_nonneg (fun _ _ => sq_nonneg _)]
  constructor
  · rintro (h | h)
    · norm_num at h
    · intro i
      by_cases hi : i ∈ (keys vec1 ++ keys vec2).toFinset
      · have := h i hi
        have h' : √(getD vec1 i 0) = √(getD vec2 i 0) := by
          have := pow_eq_zero_iff (two_ne_zero) |>.1 this
          linarith
        exact (Real.sqrt_inj (hnn _ p1 i) (hnn _ p2 i)).1 h'
      · simp only [List.toFinset_append, Finset.mem_union, List.mem_toFinset, not_or] at hi
        rw [getD_of_not_key hi.1, getD_of_not_key hi.2]
  · intro h
    right
    intro i _
    rw [h i]; ring

/-- C21: `hellinger` of two probability vectors is at most 1 -/
theorem C21_hellinger_le_one (vec1 vec2 : PyDict Nat ℝ) (h1 : WF vec1) (h2 : WF vec2)
    (p1 : ∀ p ∈ vec1, 0 ≤ p.2) (p2 : ∀ p ∈ vec2, 0 ≤ p.2)
    (s1 : (vec1.map (·.2)).sum = 1) (s2 : (vec2.map (·.2)).sum = 1) :
    0 ≤ hellingerBow vec1 vec2 ∧ hellingerBow vec1 vec2 ≤ 1 := by
  have hnn : ∀ (v : PyDict Nat ℝ), (∀ p ∈ v, 0 ≤ p.2) → ∀ i, 0 ≤ getD v i 0 := by
    intro v hv i
    simp only [getD]
    cases hg : get? v i with
    | none => simp
    | some x => exact hv _ (mem_of_get? hg)
  simp only [hellingerBow, ofPairs_of_WF h1, ofPairs_of_WF h2]
  refine ⟨Real.sqrt_nonneg _, ?_⟩
  rw [Real.sqrt_le_left (by norm_num : (0 : ℝ) ≤ 1)]
  generalize hS : (keys vec1 ++ keys vec2).toFinset = S
  have e1 := sum_items vec1 h1 (fun _ x => x) S (fun k hk => by simp [← hS, hk]) (by simp)
  have e2 := sum_items vec2 h2 (fun _ x => x) S (fun k hk => by simp [← hS, hk]) (by simp)
  rw [s1] at e1
  rw [s2] at e2
  have hle : ∑ i ∈ S, (√(getD vec1 i 0) - √(getD vec2 i 0)) ^ 2 ≤
      ∑ i ∈ S, (getD vec1 i 0 + getD vec2 i 0) := by
    apply Finset.sum_le_sum
    intro i _
    have a := Real.sq_sqrt (hnn _ p1 i)
    have b := Real.sq_sqrt (hnn _ p2 i)
    have c := mul_nonneg (Real.sqrt_nonneg (getD vec1 i 0)) (Real.sqrt_nonneg (getD vec2 i 0))
    nlinarith
  rw [Finset.sum_add_distrib, ← e1, ← e2] at hle
  linarith

example : WF ([(0, 1 / 4), (5, 3 / 4)] : PyDict Nat ℝ) ∧
    (([(0, 1 / 4), (5, 3 / 4)] : PyDict Nat ℝ).map (·.2)).sum = 1 := by
  constructor
  · simp [WF, keys]
  · norm_num

/-! ## C21: `jaccard` -/

/-- C21: `jaccard` of a bag of words (positive total weight, no repeated id) with itself is one half -/
theorem C21_jaccard_bow_self (vec : PyDict Nat ℝ) (h : WF vec) (hs : 0 < (vec.map (·.2)).sum) :
    jaccardBow vec vec = some (1 / 2) := by
  simp only [jaccardBow, pySum_eq, ofPairs_of_WF h]
  have hi : (vec.map (fun p => min p.2 (getD vec p.1 0))).sum = (vec.map (·.2)).sum := by
    apply sum_map_congr
    intro p hp
    simp [getD, get?_of_mem h hp]
  rw [hi, if_neg (by linarith)]
  congr 1
  field_simp
  norm_num

/-- C21: `jaccard` on bags of words without repeated ids is symmetric -/
theorem C21_jaccard_bow_symm (vec1 vec2 : PyDict Nat ℝ) (h1 : WF vec1) (h2 : WF vec2)
    (p1 : ∀ p ∈ vec1, 0 ≤ p.2) (p2 : ∀ p ∈ vec2, 0 ≤ p.2) :
    jaccardBow vec1 vec2 = jaccardBow vec2 vec1 := by
  have hnn : ∀ (v : PyDict Nat ℝ), (∀ p ∈ v, 0 ≤ p.2) → ∀ i, 0 ≤ getD v i 0 := by
    intro v hv i
    simp only [getD]
    cases hg : get? v i with
    | none => simp
    | some x => exact hv _ (mem_of_get? hg)
  have hinter : ∀ (a b : PyDict Nat ℝ), WF a → (∀ i, 0 ≤ getD b i 0) →
      (a.map (fun p => min p.2 (getD b p.1 0))).sum =
      ∑ k ∈ (keys a ++ keys b).toFinset, min (getD a k 0) (getD b k 0) := by
    intro a b ha hb
    exact sum_items a ha (fun k x => min x (getD b k 0)) _ (fun k hk => by simp [hk])
      (fun k _ _ => min_eq_left (hb k))
  have hc : (keys vec1 ++ keys vec2).toFinset = (keys vec2 ++ keys vec1).toFinset := by
    ext k; simp [or_comm]
  simp only [jaccardBow, pySum_eq, ofPairs_of_WF h1, ofPairs_of_WF h2]
  rw [hinter vec1 vec2 h1 (hnn _ p2), hinter vec2 vec1 h2 (hnn _ p1), hc, add_comm]
  have : ∑ k ∈ (keys vec2 ++ keys vec1).toFinset, min (getD vec1 k 0) (getD vec2 k 0) =
      ∑ k ∈ (keys vec2 ++ keys vec1).toFinset, min (getD vec2 k 0) (getD vec1 k 0) :=
    Finset.sum_congr rfl (fun k _ => min_comm _ _)
  rw [this]

/-- C21: `jaccard_distance` is symmetric, within [0, 1], and 0 exactly for equal non-empty sets -/
theorem C21_jaccard_distance {α : Type} [DecidableEq α] (s t : Finset α) :
    jaccardDistance s t = jaccardDistance t s ∧ 0 ≤ jaccardDistance s t ∧ jaccardDistance s t ≤ 1 ∧
    (jaccardDistance s t = 0 ↔ s = t ∧ s ≠ ∅) := by
  refine ⟨?_, ?_⟩
  · simp only [jaccardDistance, Finset.union_comm s t, Finset.inter_comm s t]
  · simp only [jaccardDistance]
    split
    · rename_i h
      rw [Finset.card_eq_zero, Finset.union_eq_empty] at h
      refine ⟨by norm_num, le_refl _, by norm_num, fun h' => absurd h.1 h'.2⟩
    · rename_i h
      have hpos : (0 : ℝ) < (s ∪ t).card := by exact_mod_cast Nat.pos_of_ne_zero h
      have hle : (s ∩ t).card ≤ (s ∪ t).card := Finset.card_le_card (Finset.inter_subset_union)
      have hle' : ((s ∩ t).card : ℝ) ≤ (s ∪ t).card := by exact_mod_cast hle
      have h1 : ((s ∩ t).card : ℝ) / (s ∪ t).card ≤ 1 := (div_le_one hpos).2 hle'
      have h2 : 0 ≤ ((s ∩ t).card : ℝ) / (s ∪ t).card := by positivity
      refine ⟨by linarith, by linarith, ?_, ?_⟩
      · intro h0
        have : ((s ∩ t).card : ℝ) / (s ∪ t).card = 1 := by linarith
        rw [div_eq_one_iff_eq hpos.ne'] at this
        have hc : (s ∩ t).card = (s ∪ t).card := by exact_mod_cast this
        have he := Finset.eq_of_subset_of_card_le Finset.inter_subset_union hc.ge
        have hst : s = t := by
          apply Finset.Subset.antisymm
          · intro x hx
            have : x ∈ s ∩ t := he ▸ Finset.mem_union_left t hx
            exact (Finset.mem_inter.1 this).2
          · intro x hx
            have : x ∈ s ∩ t := he ▸ Finset.mem_union_right s hx
            exact (Finset.mem_inter.1 this).1
        refine ⟨hst, ?_⟩
        rintro rfl
        subst hst; simp at h
      · rintro ⟨rfl, hne⟩
        simp only [Finset.union_self, Finset.inter_self] at hpos ⊢
        rw [div_self hpos.ne']; ring

/-- C21: on two collections of items `jaccard` is `jaccard_distance`, except that it raises if both
are empty -/
theorem C21_jaccard_sets {α : Type} [DecidableEq α] (s t : Finset α) :
    jaccardSets s t = if s = ∅ ∧ t = ∅ then none else some (jaccardDistance s t) := by
  simp only [jaccardSets, jaccardDistance, Finset.card_eq_zero, Finset.union_eq_empty]
  split <;> rfl

end Verif.Matutils

import Mathlib.Algebra.BigOperators.Field
import Mathlib.Algebra.BigOperators.Ring.Finset
import Mathlib.Algebra.Order.BigOperators.Ring.Finset
import Mathlib.Data.Fintype.Pi
import Mathlib.Data.Fintype.BigOperators
import Mathlib.Logic.Equiv.Fin.Basic
import Mathlib.Tactic.Linarith
import Mathlib.Tactic.NormNum
import Mathlib.Tactic.FieldSimp
import Mathlib.Tactic.Positivity
import Verif.Matutils.NormProps
import Verif.Rp.Model

/-!
# C104: random projections and the normalisation model
-/

namespace Verif.Rp

open Verif Verif.Matutils

/-! ## Specification -/

/-- The squared length of a vector. -/
def sqNorm {n : Nat} (x : Fin n → ℝ) : ℝ := ∑ i, x i ^ 2

/-- The inner product. -/
def inner {n : Nat} (x y : Fin n → ℝ) : ℝ := ∑ i, x i * y i

/-- The weight of an id in a document: the last one given, 0 if there is none. -/
def weight (doc : List (Nat × ℝ)) (i : Nat) : ℝ := ((doc.filter fun p => p.1 = i).map (·.2)).getLastD 0

/-- The signs of a projection to `k` topics from `n` terms. -/
abbrev Signs (k n : Nat) := Fin k → Fin n → Bool

/-! ## Moments of a row of signs -/

/-- The sum with signs. -/
def lin {n : Nat} (x : Fin n → ℝ) (r : Fin n → Bool) : ℝ := ∑ i, sgn (r i) * x i

theorem sum_bool (f : Bool → ℝ) : ∑ b : Bool, f b = f true + f false := by
  rw [Fintype.sum_bool]

theorem sum_cons {n : Nat} {α : Type} [Fintype α] (f : (Fin (n + 1) → α) → ℝ) :
    ∑ r, f r = ∑ b, ∑ r : Fin n → α, f (Fin.cons b r) := by
  rw [← Fintype.sum_prod_type' (f := fun b (r : Fin n → α) => f (Fin.cons b r))]
  exact (Fintype.sum_equiv (Fin.consEquiv fun _ => α) _ _ fun p => rfl).symm

theorem lin_cons {n : Nat} (x : Fin (n + 1) → ℝ) (b : Bool) (r : Fin n → Bool) :
    lin x (Fin.cons b r) = sgn b * x 0 + lin (fun i => x i.succ) r := by
  unfold lin
  rw [Fin.sum_univ_succ]
  rfl

theorem sqNorm_succ {n : Nat} (x : Fin (n + 1) → ℝ) : sqNorm x = x 0 ^ 2 + sqNorm fun i => x i.succ := by
  unfold sqNorm; rw [Fin.sum_univ_succ]

theorem sqNorm_nonneg {n : Nat} (x : Fin n → ℝ) : 0 ≤ sqNorm x := Finset.sum_nonneg fun _ _ => sq_nonneg _

theorem second_moment {n : Nat} (x : Fin n → ℝ) : ∑ r, lin x r ^ 2 = 2 ^ n * sqNorm x := by
  induction n with
  | zero => simp [lin, sqNorm]
  | succ n ih =>
    rw [sum_cons, sum_bool, ← Finset.sum_add_distrib]
    have h : ∀ r : Fin n → Bool, lin x (Fin.cons true r) ^ 2 + lin x (Fin.cons false r) ^ 2 =
        2 * x 0 ^ 2 + 2 * lin (fun i => x i.succ) r ^ 2 := by
      intro r; rw [lin_cons, lin_cons]; simp only [sgn]; simp; ring
    have hc : ∑ _r : Fin n → Bool, 2 * x 0 ^ 2 = 2 ^ n * (2 * x 0 ^ 2) := by simp
    rw [Finset.sum_congr rfl fun r _ => h r, Finset.sum_add_distrib, hc, ← Finset.mul_sum, ih, sqNorm_succ]
    ring

theorem fourth_moment {n : Nat} (x : Fin n → ℝ) : ∑ r, lin x r ^ 4 ≤ 2 ^ n * (3 * sqNorm x ^ 2) := by
  induction n with
  | zero => simp [lin, sqNorm]
  | succ n ih =>
    rw [sum_cons, sum_bool, ← Finset.sum_add_distrib]
    have h : ∀ r : Fin n → Bool, lin x (Fin.cons true r) ^ 4 + lin x (Fin.cons false r) ^ 4 =
        2 * x 0 ^ 4 + 12 * x 0 ^ 2 * lin (fun i => x i.succ) r ^ 2 + 2 * lin (fun i => x i.succ) r ^ 4 := by
      intro r; rw [lin_cons, lin_cons]; simp only [sgn]; simp; ring
    have hc : ∑ _r : Fin n → Bool, 2 * x 0 ^ 4 = 2 ^ n * (2 * x 0 ^ 4) := by simp
    rw [Finset.sum_congr rfl fun r _ => h r, Finset.sum_add_distrib, Finset.sum_add_distrib, hc, ← Finset.mul_sum,
      ← Finset.mul_sum, second_moment, sqNorm_succ]
    have := ih fun i => x i.succ
    set N := sqNorm fun i => x i.succ
    have h4 : (0 : ℝ) ≤ 2 ^ n * x 0 ^ 4 := by positivity
    have e : (2 : ℝ) ^ (n + 1) * (3 * (x 0 ^ 2 + N) ^ 2) =
        2 ^ n * (6 * x 0 ^ 4) + 2 ^ n * (12 * x 0 ^ 2 * N) + 2 * (2 ^ n * (3 * N ^ 2)) := by ring
    rw [e]
    nlinarith

/-! ## Independent rows -/

theorem sum_marginal {α : Type} [Fintype α] {k : Nat} (a : α → ℝ) (t : Fin (k + 1)) :
    ∑ M : Fin (k + 1) → α, a (M t) = (Fintype.card α : ℝ) ^ k * ∑ r, a r := by
  have : ∑ M : Fin (k + 1) → α, a (M t) = ∑ p : α × (Fin k → α), a p.1 := by
    refine (Fintype.sum_equiv (Fin.insertNthEquiv (fun _ => α) t) _ _ fun p => ?_).symm
    simp [Fin.insertNthEquiv]
  rw [this, Fintype.sum_prod_type, Finset.mul_sum]
  refine Finset.sum_congr rfl fun r _ => ?_
  simp [Fintype.card_pi]

theorem sum_independent {α : Type} [Fintype α] {k : Nat} (a b : α → ℝ) (ha : ∑ r, a r = 0) (t u : Fin (k + 1))
    (h : u ≠ t) : ∑ M : Fin (k + 1) → α, a (M t) * b (M u) = 0 := by
  obtain ⟨v, rfl⟩ := Fin.exists_succAbove_eq h
  have : ∑ M : Fin (k + 1) → α, a (M t) * b (M (t.succAbove v)) = ∑ p : α × (Fin k → α), a p.1 * b (p.2 v) := by
    refine (Fintype.sum_equiv (Fin.insertNthEquiv (fun _ => α) t) _ _ fun p => ?_).symm
    simp [Fin.insertNthEquiv]
  rw [this, Fintype.sum_prod_type]
  simp only [← Finset.mul_sum]
  rw [← Finset.sum_mul, ha, zero_mul]

/-- The sum of squares of a sum of independent centred terms. -/
theorem sum_sq_rows {α : Type} [Fintype α] {k : Nat} (c : α → ℝ) (hc : ∑ r, c r = 0) :
    ∑ M : Fin (k + 1) → α, (∑ t, c (M t)) ^ 2 = (k + 1) * ((Fintype.card α : ℝ) ^ k * ∑ r, c r ^ 2) := by
  have h : ∀ M : Fin (k + 1) → α, (∑ t, c (M t)) ^ 2 = ∑ t, ∑ u, c (M t) * c (M u) := by
    intro M; rw [pow_two, Finset.sum_mul_sum]
  rw [Finset.sum_congr rfl fun M _ => h M, Finset.sum_comm]
  have : ∀ t : Fin (k + 1), ∑ M : Fin (k + 1) → α, ∑ u, c (M t) * c (M u) =
      (Fintype.card α : ℝ) ^ k * ∑ r, c r ^ 2 := by
    intro t
    rw [Finset.sum_comm, Finset.sum_eq_single t]
    · rw [← sum_marginal (fun r => c r ^ 2) t]
      exact Finset.sum_congr rfl fun M _ => (pow_two _).symm
    · intro u _ hu
      exact sum_independent c c hc t u hu
    · intro h; exact absurd (Finset.mem_univ _) h
  rw [Finset.sum_congr rfl fun t _ => this t]
  simp

/-! ## Projections -/

theorem project_eq {k n : Nat} (signs : Signs k n) (x : Fin n → ℝ) (t : Fin k) :
    project signs x t = lin x (signs t) / Real.sqrt k := by
  unfold project lin
  rw [Finset.sum_div]
  exact Finset.sum_congr rfl fun i _ => by rw [mul_div_assoc]

theorem sqNorm_project {k n : Nat} (signs : Signs k n) (x : Fin n → ℝ) :
    sqNorm (project signs x) = (∑ t, lin x (signs t) ^ 2) / k := by
  unfold sqNorm
  rw [Finset.sum_div]
  refine Finset.sum_congr rfl fun t _ => ?_
  rw [project_eq, div_pow, Real.sq_sqrt (Nat.cast_nonneg k)]

theorem card_row (n : Nat) : (Fintype.card (Fin n → Bool) : ℝ) = 2 ^ n := by simp

theorem card_signs (k n : Nat) : (Fintype.card (Signs k n) : ℝ) = (2 ^ n) ^ k := by simp

/-- The projection is linear. -/
theorem C104_linear {k n : Nat} (signs : Signs k n) (a b : ℝ) (x y : Fin n → ℝ) (t : Fin k) :
    project signs (fun i => a * x i + b * y i) t = a * project signs x t + b * project signs y t := by
  rw [project_eq, project_eq, project_eq]
  unfold lin
  rw [← mul_div_assoc, ← mul_div_assoc, ← add_div, Finset.mul_sum, Finset.mul_sum, ← Finset.sum_add_distrib]
  congr 1
  exact Finset.sum_congr rfl fun i _ => by ring

theorem mean_sqNorm {k n : Nat} (hk : 0 < k) (x : Fin n → ℝ) :
    ∑ signs : Signs k n, sqNorm (project signs x) = Fintype.card (Signs k n) * sqNorm x := by
  obtain ⟨k, rfl⟩ : ∃ j, k = j + 1 := ⟨k - 1, by omega⟩
  have hk' : ((k + 1 : Nat) : ℝ) ≠ 0 := by positivity
  simp only [sqNorm_project]
  rw [← Finset.sum_div, Finset.sum_comm, Finset.sum_congr rfl fun t _ => sum_marginal (fun r => lin x r ^ 2) t,
    second_moment, card_row, card_signs]
  simp only [Finset.sum_const, Finset.card_univ, Fintype.card_fin, nsmul_eq_mul]
  rw [mul_div_cancel_left₀ _ hk']
  ring

/-- On average over all sign matrices, that is for fair coins, the projection keeps squared lengths and inner products. -/
theorem C104_expectation {k n : Nat} (hk : 0 < k) (x y : Fin n → ℝ) :
    (∑ signs : Signs k n, sqNorm (project signs x)) / Fintype.card (Signs k n) = sqNorm x ∧
    (∑ signs : Signs k n, inner (project signs x) (project signs y)) / Fintype.card (Signs k n) = inner x y := by
  have hc : (Fintype.card (Signs k n) : ℝ) ≠ 0 := by rw [card_signs]; positivity
  refine ⟨by rw [mean_sqNorm hk, mul_div_cancel_left₀ _ hc], ?_⟩
  have pol : ∀ {m : Nat} (u v : Fin m → ℝ), inner u v = (sqNorm (fun i => 1 * u i + 1 * v i) - sqNorm fun i => 1 * u i + (-1) * v i) / 4 := by
    intro m u v
    unfold inner sqNorm
    rw [← Finset.sum_sub_distrib, Finset.sum_div]
    exact Finset.sum_congr rfl fun i _ => by ring
  have h : ∀ signs : Signs k n, inner (project signs x) (project signs y) =
      (sqNorm (project signs fun i => 1 * x i + 1 * y i) - sqNorm (project signs fun i => 1 * x i + (-1) * y i)) / 4 := by
    intro signs
    rw [pol]
    have e1 : (fun i => 1 * project signs x i + 1 * project signs y i) = project signs fun i => 1 * x i + 1 * y i :=
      funext fun t => (C104_linear signs 1 1 x y t).symm
    have e2 : (fun i => 1 * project signs x i + (-1) * project signs y i) = project signs fun i => 1 * x i + (-1) * y i :=
      funext fun t => (C104_linear signs 1 (-1) x y t).symm
    rw [e1, e2]
  rw [Finset.sum_congr rfl fun s _ => h s, ← Finset.sum_div, Finset.sum_sub_distrib, mean_sqNorm hk, mean_sqNorm hk, pol x y]
  field_simp

/-- The mean squared error of the squared length is at most `2/k` of the squared length, squared. -/
theorem C104_variance {k n : Nat} (hk : 0 < k) (x : Fin n → ℝ) :
    (∑ signs : Signs k n, (sqNorm (project signs x) - sqNorm x) ^ 2) / Fintype.card (Signs k n) ≤ 2 * sqNorm x ^ 2 / k := by
  obtain ⟨k, rfl⟩ : ∃ j, k = j + 1 := ⟨k - 1, by omega⟩
  have hk' : (0 : ℝ) < ((k + 1 : Nat) : ℝ) := by positivity
  set N := sqNorm x
  set c : (Fin n → Bool) → ℝ := fun r => lin x r ^ 2 - N with hcdef
  have hc0 : ∑ r, c r = 0 := by
    rw [hcdef, Finset.sum_sub_distrib, second_moment]; simp [N]
  have hc2 : ∑ r, c r ^ 2 ≤ 2 ^ n * (2 * N ^ 2) := by
    have e : ∀ r, c r ^ 2 = lin x r ^ 4 - 2 * N * lin x r ^ 2 + N ^ 2 := fun r => by rw [hcdef]; ring
    rw [Finset.sum_congr rfl fun r _ => e r, Finset.sum_add_distrib, Finset.sum_sub_distrib, ← Finset.mul_sum, second_moment]
    have h4 := fourth_moment x
    have hcn : ∑ _r : Fin n → Bool, N ^ 2 = 2 ^ n * N ^ 2 := by simp
    rw [hcn]
    have : 2 * N * (2 ^ n * sqNorm x) = 2 ^ n * (2 * N ^ 2) := by show 2 * N * (2 ^ n * N) = _; ring
    rw [this]
    have h4' : ∑ r, lin x r ^ 4 ≤ 2 ^ n * (3 * N ^ 2) := h4
    linarith
  have h : ∀ signs : Signs (k + 1) n, (sqNorm (project signs x) - N) ^ 2 = (∑ t, c (signs t)) ^ 2 / ((k + 1 : Nat) : ℝ) ^ 2 := by
    intro signs
    rw [sqNorm_project, ← div_pow]
    congr 1
    rw [hcdef]
    simp only [Finset.sum_sub_distrib, Finset.sum_const, Finset.card_univ, Fintype.card_fin, nsmul_eq_mul]
    field_simp
  rw [Finset.sum_congr rfl fun s _ => h s, ← Finset.sum_div, sum_sq_rows c hc0, card_row, card_signs, div_div,
    div_le_div_iff₀ (by positivity) hk']
  have hp : (0 : ℝ) ≤ (2 ^ n) ^ k := by positivity
  have := mul_le_mul_of_nonneg_left hc2 hp
  have hcast : ((k + 1 : Nat) : ℝ) = (k : ℝ) + 1 := by push_cast; ring
  rw [hcast]
  have hk1 : (0 : ℝ) < (k : ℝ) + 1 := by positivity
  calc ((k : ℝ) + 1) * ((2 ^ n) ^ k * ∑ r, c r ^ 2) * (k + 1)
      ≤ ((k : ℝ) + 1) * ((2 ^ n) ^ k * (2 ^ n * (2 * N ^ 2))) * (k + 1) := by gcongr
    _ = 2 * N ^ 2 * (((k : ℝ) + 1) ^ 2 * (2 ^ n) ^ (k + 1)) := by ring

/-- Distances are kept: for two documents and `eps > 0`, the proportion of sign matrices for which the squared distance of the
projections is off by the factor `eps` or more is at most `2 / (k eps^2)`. -/
theorem C104_distances {k n : Nat} (hk : 0 < k) (x y : Fin n → ℝ) (hxy : x ≠ y) (eps : ℝ) (he : 0 < eps) :
    ((Finset.univ.filter fun signs : Signs k n => open Classical in
      eps * sqNorm (fun i => x i - y i) ≤
        |sqNorm (fun t => project signs x t - project signs y t) - sqNorm fun i => x i - y i|).card : ℝ) /
      Fintype.card (Signs k n) ≤ 2 / (k * eps ^ 2) := by
  classical
  set z : Fin n → ℝ := fun i => x i - y i with hz
  have hN : 0 < sqNorm z := by
    obtain ⟨i, hi⟩ := Function.ne_iff.1 hxy
    refine Finset.sum_pos' (fun _ _ => sq_nonneg _) ⟨i, Finset.mem_univ _, ?_⟩
    have : z i ≠ 0 := sub_ne_zero.2 hi
    positivity
  have hp : ∀ signs : Signs k n, (fun t => project signs x t - project signs y t) = project signs z := by
    intro signs
    funext t
    have := C104_linear signs 1 (-1) x y t
    have e : (fun i => 1 * x i + -1 * y i) = z := by funext i; rw [hz]; ring
    rw [e] at this
    rw [this]; ring
  simp only [hp]
  have hv := C104_variance hk z
  have hcard : (0 : ℝ) < Fintype.card (Signs k n) := by rw [card_signs]; positivity
  rw [div_le_iff₀ hcard] at hv ⊢
  set S := Finset.univ.filter fun signs : Signs k n => eps * sqNorm z ≤ |sqNorm (project signs z) - sqNorm z|
  have h1 : (S.card : ℝ) * (eps * sqNorm z) ^ 2 ≤ ∑ signs : Signs k n, (sqNorm (project signs z) - sqNorm z) ^ 2 := by
    calc (S.card : ℝ) * (eps * sqNorm z) ^ 2 = ∑ _s ∈ S, (eps * sqNorm z) ^ 2 := by simp
      _ ≤ ∑ s ∈ S, (sqNorm (project s z) - sqNorm z) ^ 2 := by
        refine Finset.sum_le_sum fun s hs => ?_
        have := (Finset.mem_filter.1 hs).2
        rw [← sq_abs (sqNorm (project s z) - sqNorm z)]
        exact pow_le_pow_left₀ (by positivity) this 2
      _ ≤ _ := Finset.sum_le_univ_sum_of_nonneg fun s => sq_nonneg _
  have h2 := h1.trans hv
  have hk' : (0 : ℝ) < k := by exact_mod_cast hk
  have hpos : 0 < (eps * sqNorm z) ^ 2 := by positivity
  have h3 : (S.card : ℝ) ≤ 2 * sqNorm z ^ 2 / k * Fintype.card (Signs k n) / (eps * sqNorm z) ^ 2 := by
    rw [le_div_iff₀ hpos]; exact h2
  refine h3.trans (le_of_eq ?_)
  field_simp

/-! ## Queries -/

theorem foldl_set_getD (doc : List (Nat × ℝ)) (d : PyDict Nat ℝ) (i : Nat) :
    PyDict.getD (doc.foldl (fun d p => PyDict.set d p.1 p.2) d) i 0 =
      ((doc.filter fun p => p.1 = i).map (·.2)).getLastD (PyDict.getD d i 0) := by
  induction doc generalizing d with
  | nil => rfl
  | cons p t ih =>
    rw [List.foldl_cons, ih]
    by_cases h : p.1 = i
    · rw [List.filter_cons_of_pos (by simpa using h), List.map_cons, List.getLastD_cons]
      congr 1
      unfold PyDict.getD
      rw [PyDict.get?_set]
      simp [h]
    · rw [List.filter_cons_of_neg (by simpa using h)]
      congr 1
      unfold PyDict.getD
      rw [PyDict.get?_set]
      simp [Ne.symm h, h]

theorem ofPairs_weight (doc : List (Nat × ℝ)) (i : Nat) : PyDict.getD (PyDict.ofPairs doc) i 0 = weight doc i :=
  foldl_set_getD doc [] i

theorem keys_ofPairs_iff (doc : List (Nat × ℝ)) (i : Nat) :
    i ∈ PyDict.keys (PyDict.ofPairs doc) ↔ i ∈ doc.map (·.1) := by
  have h : ∀ (l : List (Nat × ℝ)) (d : PyDict Nat ℝ), i ∈ PyDict.keys (l.foldl (fun d p => PyDict.set d p.1 p.2) d) ↔
      i ∈ PyDict.keys d ∨ i ∈ l.map (·.1) := by
    intro l
    induction l with
    | nil => intro d; simp
    | cons p t ih =>
      intro d
      rw [List.foldl_cons, ih, PyDict.mem_keys_set, List.map_cons, List.mem_cons]
      tauto
  have := h doc []
  rw [show PyDict.keys ([] : PyDict Nat ℝ) = [] from rfl] at this
  simp only [List.not_mem_nil, false_or] at this
  exact this

theorem sparse2full_some (doc : List (Nat × ℝ)) (n : Nat) (h : ∀ p ∈ doc, p.1 < n) :
    sparse2full doc n = some ((List.range n).map fun i => weight doc i) := by
  unfold sparse2full
  rw [if_pos]
  · simp only [ofPairs_weight]
  · rw [List.all_eq_true]
    intro i hi
    obtain ⟨p, hp, rfl⟩ := List.mem_map.1 ((keys_ofPairs_iff doc i).1 hi)
    simpa using h p hp

theorem sparse2full_none (doc : List (Nat × ℝ)) (n : Nat) (p : Nat × ℝ) (hp : p ∈ doc) (h : n ≤ p.1) :
    sparse2full doc n = none := by
  unfold sparse2full
  rw [if_neg]
  intro hc
  rw [List.all_eq_true] at hc
  have := hc p.1 ((keys_ofPairs_iff doc p.1).2 (List.mem_map.2 ⟨p, hp, rfl⟩))
  simp at this
  omega

/-- A model made with a corpus has `num_terms` one above the highest id of the given mapping, or of the corpus if no mapping is
given; every drawn bit is used, as a sign. -/
theorem C104_construct (corpus : List (List (Nat × ℝ))) (ids : Option (List Nat)) (k : Nat)
    (bits : (n : Nat) → Fin k → Fin n → Bool) :
    ∃ (n : Nat) (w : Option Id2Word), construct (some corpus) ids k bits = .ok ⟨w, k, some ⟨n, fun t i => !bits n t i⟩⟩ ∧
      (ids = none → (∀ doc ∈ corpus, ∀ p ∈ doc, p.1 < n) ∧ (n ≠ 0 → ∃ doc ∈ corpus, ∃ p ∈ doc, p.1 + 1 = n)) ∧
      (∀ l, ids = some l → (∀ i ∈ l, i < n) ∧ (n ≠ 0 → n - 1 ∈ l)) ∧
      (getitem ⟨ids.map .user, k, none⟩ = fun _ => .error .attribute) := by
  cases ids with
  | none =>
    refine ⟨_, _, rfl, fun _ => ?_, fun l h => (by cases h), rfl⟩
    have inner : ∀ (doc : List (Nat × ℝ)) (m : Nat),
        m ≤ doc.foldl (fun m p => max m (p.1 + 1)) m ∧ (∀ p ∈ doc, p.1 < doc.foldl (fun m p => max m (p.1 + 1)) m) ∧
        (doc.foldl (fun m p => max m (p.1 + 1)) m = m ∨ ∃ p ∈ doc, p.1 + 1 = doc.foldl (fun m p => max m (p.1 + 1)) m) := by
      intro doc
      induction doc with
      | nil => intro m; exact ⟨le_rfl, by simp, Or.inl rfl⟩
      | cons p t ih =>
        intro m
        obtain ⟨h1, h2, h3⟩ := ih (max m (p.1 + 1))
        rw [List.foldl_cons]
        refine ⟨(le_max_left _ _).trans h1, ?_, ?_⟩
        · intro q hq
          rcases List.mem_cons.1 hq with rfl | hq
          · have := (le_max_right m (q.1 + 1)).trans h1; omega
          · exact h2 q hq
        · rcases h3 with h3 | ⟨q, hq, he⟩
          · rw [h3]
            rcases le_total m (p.1 + 1) with h | h
            · right; exact ⟨p, List.mem_cons_self, (max_eq_right h).symm⟩
            · left; exact max_eq_left h
          · right; exact ⟨q, List.mem_cons_of_mem _ hq, he⟩
    have outer : ∀ (c : List (List (Nat × ℝ))) (m : Nat),
        let r := c.foldl (fun m doc => doc.foldl (fun m p => max m (p.1 + 1)) m) m
        m ≤ r ∧ (∀ doc ∈ c, ∀ p ∈ doc, p.1 < r) ∧ (r = m ∨ ∃ doc ∈ c, ∃ p ∈ doc, p.1 + 1 = r) := by
      intro c
      induction c with
      | nil => intro m; exact ⟨le_rfl, by simp, Or.inl rfl⟩
      | cons d t ih =>
        intro m
        obtain ⟨i1, i2, i3⟩ := inner d m
        obtain ⟨h1, h2, h3⟩ := ih (d.foldl (fun m p => max m (p.1 + 1)) m)
        simp only [List.foldl_cons]
        refine ⟨i1.trans h1, ?_, ?_⟩
        · intro doc hdoc p hp
          rcases List.mem_cons.1 hdoc with rfl | hdoc
          · exact lt_of_lt_of_le (i2 p hp) h1
          · exact h2 doc hdoc p hp
        · rcases h3 with h3 | ⟨doc, hdoc, p, hp, he⟩
          · rw [h3]
            rcases i3 with i3 | ⟨p, hp, he⟩
            · left; exact i3
            · right; exact ⟨d, List.mem_cons_self, p, hp, he⟩
          · right; exact ⟨doc, List.mem_cons_of_mem _ hdoc, p, hp, he⟩
    obtain ⟨-, h2, h3⟩ := outer corpus 0
    exact ⟨h2, fun hn => h3.resolve_left hn⟩
  | some l =>
    refine ⟨_, _, rfl, fun h => (by cases h), fun l' hl' => ?_, rfl⟩
    cases hl'
    have inner : ∀ (l : List Nat) (m : Nat), m ≤ l.foldl max m ∧ (∀ i ∈ l, i ≤ l.foldl max m) ∧
        (l.foldl max m = m ∨ l.foldl max m ∈ l) := by
      intro l
      induction l with
      | nil => intro m; exact ⟨le_rfl, by simp, Or.inl rfl⟩
      | cons a t ih =>
        intro m
        obtain ⟨h1, h2, h3⟩ := ih (max m a)
        rw [List.foldl_cons]
        refine ⟨(le_max_left _ _).trans h1, ?_, ?_⟩
        · intro i hi
          rcases List.mem_cons.1 hi with rfl | hi
          · exact (le_max_right _ _).trans h1
          · exact h2 i hi
        · rcases h3 with h3 | h3
          · rw [h3]
            rcases le_total m a with h | h
            · right; rw [max_eq_right h]; exact List.mem_cons_self
            · left; exact max_eq_left h
          · right; exact List.mem_cons_of_mem _ h3
    obtain ⟨-, h2, h3⟩ := inner l 0
    by_cases hl : l = []
    · subst hl; simp
    · rw [if_neg hl]
      refine ⟨fun i hi => by have := h2 i hi; omega, fun _ => ?_⟩
      rw [Nat.add_sub_cancel_left]
      rcases h3 with h3 | h3
      · obtain ⟨a, ha⟩ := List.exists_mem_of_ne_nil l hl
        have := h2 a ha
        rw [h3] at this ⊢
        have : a = 0 := by omega
        exact this ▸ ha
      · exact h3

/-- The answer for a document lists, in the order of the topics, the coordinates of the projection of its weights that exceed
`1e-8`; an id beyond the terms of the model is an error. -/
theorem C104_getitem (w : Option Id2Word) (k n : Nat) (signs : Signs k n) (doc : List (Nat × ℝ)) :
    ((∀ p ∈ doc, p.1 < n) → ∃ l, getitem ⟨w, k, some ⟨n, signs⟩⟩ doc = .ok l ∧
      (∀ (t : Fin k) (v : ℝ), (t.val, v) ∈ l ↔
        v = (∑ i : Fin n, (if signs t i then 1 else -1) * weight doc i) / Real.sqrt k ∧ 1 / 100000000 < |v|) ∧
      (∀ p ∈ l, p.1 < k) ∧ (l.map (·.1)).Pairwise (· < ·)) ∧
    (∀ p ∈ doc, n ≤ p.1 → getitem ⟨w, k, some ⟨n, signs⟩⟩ doc = .error .index) := by
  classical
  constructor
  · intro h
    refine ⟨_, by unfold getitem; simp only [sparse2full_some doc n h]; rfl, ?_, ?_, ?_⟩
    · intro t v
      have hval : (project signs fun i => ((List.range n).map fun i => weight doc i).getD i 0) t =
          (∑ i : Fin n, (if signs t i then 1 else -1) * weight doc i) / Real.sqrt k := by
        rw [project_eq]
        unfold lin sgn
        congr 1
        refine Finset.sum_congr rfl fun i _ => ?_
        congr 1
        simp
      rw [List.mem_filterMap]
      constructor
      · rintro ⟨t', -, he⟩
        split at he
        · rename_i hc
          simp only [Option.some.injEq, Prod.mk.injEq] at he
          obtain ⟨ht, hv⟩ := he
          have : t' = t := Fin.ext ht
          subst this
          refine ⟨by rw [← hv, hval], ?_⟩
          rw [← hv]
          exact not_le.1 hc
        · cases he
      · rintro ⟨hv, hc⟩
        refine ⟨t, List.mem_finRange t, ?_⟩
        rw [hval, ← hv, if_pos (not_le.2 hc)]
    · intro p hp
      obtain ⟨t, -, he⟩ := List.mem_filterMap.1 hp
      split at he
      · cases he; exact t.isLt
      · cases he
    · have hs : (((List.finRange k).map fun t : Fin k => t.val)).Pairwise (· < ·) := by
        rw [List.pairwise_map]
        exact (List.pairwise_lt_finRange k).imp fun h => h
      refine hs.sublist ?_
      generalize List.finRange k = ts
      induction ts with
      | nil => exact .slnil
      | cons t ts ih =>
        rw [List.filterMap_cons]
        split
        · rename_i hn
          exact (ih.trans (List.sublist_cons_self _ _))
        · rename_i p hs
          split at hs
          · cases hs
            exact ih.cons₂ _
          · cases hs
  · intro p hp hn
    unfold getitem
    simp only [sparse2full_none doc n p hp hn]

/-- What a query leaves out is at most `1e-8` in every coordinate. -/
theorem C104_dropped (w : Option Id2Word) (k n : Nat) (signs : Signs k n) (doc l : List (Nat × ℝ))
    (h : getitem ⟨w, k, some ⟨n, signs⟩⟩ doc = .ok l) (t : Fin k) (hd : ∀ p ∈ doc, p.1 < n) :
    |weight l t - project signs (fun i => weight doc i) t| ≤ 1 / 100000000 := by
  classical
  obtain ⟨⟨l', hl', hmem, -, hs⟩, -⟩ := And.imp_left (fun f => f hd) (C104_getitem w k n signs doc)
  rw [h] at hl'
  cases hl'
  have hv : project signs (fun i => weight doc i) t = (∑ i : Fin n, (if signs t i then 1 else -1) * weight doc i) / Real.sqrt k := by
    rw [project_eq]; rfl
  by_cases hc : 1 / 100000000 < |project signs (fun i => weight doc i) t|
  · have hin : (t.val, project signs (fun i => weight doc i) t) ∈ l := (hmem t _).2 ⟨hv, hc⟩
    have : weight l t = project signs (fun i => weight doc i) t := by
      unfold weight
      have huniq : ∀ p ∈ l.filter (fun p => p.1 = t.val), p = (t.val, project signs (fun i => weight doc i) t) := by
        intro p hp
        obtain ⟨hp1, hp2⟩ := List.mem_filter.1 hp
        have hp2 : p.1 = t.val := by simpa using hp2
        have := ((hmem t p.2).1 (by rw [← hp2]; exact hp1)).1
        exact Prod.ext hp2 (this.trans hv.symm)
      have hne : (l.filter fun p => p.1 = t.val) ≠ [] :=
        List.ne_nil_of_mem (List.mem_filter.2 ⟨hin, by simp⟩)
      have hne' : ((l.filter fun p => p.1 = t.val).map (·.2)) ≠ [] := by simpa using hne
      rw [List.getLastD_eq_getLast?, List.getLast?_eq_some_getLast hne', Option.getD_some]
      have hm := List.getLast_mem hne'
      obtain ⟨p, hp, he⟩ := List.mem_map.1 hm
      rw [← he, huniq p hp]
      rfl
    rw [this, sub_self, abs_zero]
    norm_num
  · have : weight l t = 0 := by
      unfold weight
      have : (l.filter fun p => p.1 = t.val) = [] := by
        rw [List.filter_eq_nil_iff]
        intro p hp hp2
        have hp2 : p.1 = t.val := by simpa using hp2
        obtain ⟨h1, h2⟩ := (hmem t p.2).1 (by rw [← hp2]; exact hp)
        rw [h1, ← hv] at h2
        exact hc h2
      rw [this]; rfl
    rw [this, zero_sub, abs_neg]
    exact not_lt.1 hc

/-- Finding: a model that made its own mapping from a corpus with terms cannot be initialised again; one with a mapping given
can. -/
theorem C104_initialize_again (corpus corpus' : List (List (Nat × ℝ))) (k : Nat) (bits : (n : Nat) → Fin k → Fin n → Bool)
    (doc : List (Nat × ℝ)) (hd : doc ∈ corpus) (hne : doc ≠ []) (m : Model)
    (hm : construct (some corpus) none k bits = .ok m) (bits' : (n : Nat) → Fin m.numTopics → Fin n → Bool) :
    initModel m corpus' bits' = .error .value ∧
    ∀ (m' : Model) (l : List Nat), m'.id2word = some (.user l) → ∀ bits'', ∃ r, initModel m' corpus' bits'' = .ok r := by
  constructor
  · obtain ⟨n, w, hn, hc, -, -⟩ := C104_construct corpus none k bits
    have hpos : numTermsOf corpus ≠ 0 := by
      have h1 : construct (some corpus) none k bits = .ok ⟨some (.fake (numTermsOf corpus)), k,
        some ⟨numTermsOf corpus, fun t i => !bits (numTermsOf corpus) t i⟩⟩ := rfl
      rw [h1] at hn
      simp only [Except.ok.injEq, Model.mk.injEq, heq_eq_eq, true_and, Option.some.injEq] at hn
      have hnn : numTermsOf corpus = n := congrArg Sigma.fst hn.2
      obtain ⟨p, hp⟩ := List.exists_mem_of_ne_nil doc hne
      have := (hc rfl).1 doc hd p hp
      omega
    have h1 : construct (some corpus) none k bits = .ok ⟨some (.fake (numTermsOf corpus)), k,
        some ⟨numTermsOf corpus, fun t i => !bits (numTermsOf corpus) t i⟩⟩ := rfl
    rw [h1] at hm
    cases hm
    unfold initModel
    exact if_neg hpos
  · intro m' l hl bits''
    unfold initModel
    rw [hl]
    exact ⟨_, rfl⟩

/-! ## `NormModel` -/

/-- Normalising a document of non-zero weights divides all weights by its norm, keeps the ids and their order, and gives a document
of norm 1; normalising again changes nothing. -/
theorem C104_norm_document (m : NormModel) (nm : Norm) (hm : m.norm = some nm) (hn : nm ≠ .unique) (bow : List (Nat × ℝ))
    (hne : bow ≠ []) (hz : ∃ p ∈ bow, p.2 ≠ 0) :
    ∃ r, normGetitem m bow = .ok r ∧ r = bow.map (fun p => (p.1, p.2 / normOf nm (bow.map (·.2)))) ∧
      normOf nm (r.map (·.2)) = 1 ∧ normGetitem m r = .ok r := by
  have hpos : 0 < normOf nm (bow.map (·.2)) := by
    refine lt_of_le_of_ne (normOf_nonneg nm _) fun e => ?_
    obtain ⟨p, hp, h⟩ := hz
    exact h ((normOf_eq_zero nm hn _).1 e.symm _ (List.mem_map.2 ⟨p, hp, rfl⟩))
  have hlen : ∀ b : List (Nat × ℝ), b ≠ [] → 0 < normOf nm (b.map (·.2)) →
      unitvecSparse nm b = some (b.map fun p => (p.1, p.2 / normOf nm (b.map (·.2)))) := by
    intro b hb hp
    cases b with
    | nil => exact absurd rfl hb
    | cons q t =>
      unfold unitvecSparse
      dsimp only
      rw [sparseLen_eq, if_pos hp]
      congr 1
      unfold retNormalized
      split
      · rfl
      · rename_i h1
        have h1 := not_not.1 h1
        rw [h1]
        simp
  have hr : normOf nm ((bow.map (fun p => (p.1, p.2 / normOf nm (bow.map (·.2))))).map (·.2)) = 1 := by
    have := normOf_div nm hn (bow.map (·.2)) _ hpos
    rw [List.map_map] at this ⊢
    have e : ((fun p : Nat × ℝ => p.2) ∘ fun p : Nat × ℝ => (p.1, p.2 / normOf nm (bow.map (·.2)))) =
        ((fun x => x / normOf nm (bow.map (·.2))) ∘ fun p : Nat × ℝ => p.2) := rfl
    rw [e]
    exact this.trans (div_self hpos.ne')
  refine ⟨_, ?_, rfl, hr, ?_⟩
  · unfold normGetitem normalize
    rw [hm]
    simp only [hlen bow hne hpos]
  · unfold normGetitem normalize
    rw [hm]
    simp only
    rw [hlen _ (by simpa using hne) (by rw [hr]; norm_num), hr]
    simp

/-- An unknown norm is refused when used, and so is a document of zero weights; an empty document stays empty. -/
theorem C104_norm_errors (m : NormModel) (bow : List (Nat × ℝ)) :
    (m.norm = none → normGetitem m bow = .error .value) ∧
    (∀ nm, m.norm = some nm → normGetitem m [] = .ok []) ∧
    (∀ nm, m.norm = some nm → nm ≠ .unique → bow ≠ [] → (∀ p ∈ bow, p.2 = 0) → normGetitem m bow = .error .assertion) := by
  refine ⟨?_, ?_, ?_⟩
  · intro h; unfold normGetitem normalize; rw [h]
  · intro nm h; unfold normGetitem normalize; rw [h]; rfl
  · intro nm h hn hne hz
    have h0 : normOf nm (bow.map (·.2)) = 0 := by
      rw [normOf_eq_zero nm hn]
      intro x hx
      obtain ⟨p, hp, rfl⟩ := List.mem_map.1 hx
      exact hz p hp
    unfold normGetitem normalize
    rw [h]
    cases bow with
    | nil => exact absurd rfl hne
    | cons q t =>
      have : unitvecSparse nm (q :: t) = none := by
        unfold unitvecSparse
        dsimp only
        rw [sparseLen_eq, h0, if_neg (lt_irrefl _)]
      simp only [this]

/-- A model made with a corpus counts its documents and entries. Finding: printing a model made without one fails. -/
theorem C104_norm_statistics (corpus : List (List (Nat × ℝ))) (norm : Option Norm) :
    (∀ m, normConstruct (some corpus) norm = .ok m → normStr m = .ok (corpus.length, (corpus.map List.length).sum) ∧ m.norm = norm) ∧
    (∃ m, normConstruct none norm = .ok m ∧ normStr m = .error .attribute) := by
  constructor
  · intro m hm
    unfold normConstruct at hm
    dsimp only at hm
    cases hc : corpus.mapM (normalize norm) with
    | error e => rw [hc] at hm; cases hm
    | ok ns => rw [hc] at hm; cases hm; exact ⟨rfl, rfl⟩
  · exact ⟨_, rfl, rfl⟩

/-- Finding: unlike the other transformations, the model cannot be applied to a corpus. -/
theorem C104_norm_corpus (corpus : List (List (Nat × ℝ))) (h : corpus ≠ []) :
    normGetitemCorpus corpus = .error .type ∨ normGetitemCorpus corpus = .error .value := by
  cases corpus with
  | nil => exact absurd rfl h
  | cons d t =>
    unfold normGetitemCorpus
    dsimp only
    split
    · exact Or.inl rfl
    · exact Or.inr rfl

/-! ## The hypotheses can be met -/

/-- With 20000 topics at most one matrix in a hundred distorts the squared distance by a tenth or more. -/
example (n : Nat) (x y : Fin n → ℝ) (h : x ≠ y) :
    ((Finset.univ.filter fun signs : Signs 20000 n => open Classical in
      1 / 10 * sqNorm (fun i => x i - y i) ≤
        |sqNorm (fun t => project signs x t - project signs y t) - sqNorm fun i => x i - y i|).card : ℝ) /
      Fintype.card (Signs 20000 n) ≤ 1 / 100 :=
  (C104_distances (by norm_num) x y h (1 / 10) (by norm_num)).trans (by norm_num)

example : ∃ l, getitem ⟨none, 1, some ⟨2, fun _ i => i = 0⟩⟩ [(0, 3), (1, 1)] = .ok l ∧ (0, (2 : ℝ)) ∈ l := by
  obtain ⟨l, h, hm, -⟩ := (C104_getitem none 1 2 (fun _ i => i = 0) [(0, 3), (1, 1)]).1 (by simp)
  refine ⟨l, h, (hm 0 2).2 ⟨?_, by norm_num⟩⟩
  rw [Fin.sum_univ_two]
  simp [weight]
  norm_num

end Verif.Rp

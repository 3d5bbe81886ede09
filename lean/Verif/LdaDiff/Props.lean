import Mathlib.Analysis.SpecialFunctions.Log.Deriv
import Mathlib.Analysis.SpecialFunctions.Sqrt
import Mathlib.Algebra.BigOperators.Field
import Mathlib.Algebra.Order.BigOperators.Group.Finset
import Mathlib.Data.List.GetD
import Mathlib.Tactic.Linarith
import Mathlib.Algebra.Order.BigOperators.Group.List
import Mathlib.Tactic.FieldSimp
import Mathlib.Tactic.Positivity
import Mathlib.Tactic.NormNum
import Mathlib.Tactic.Ring
import Verif.LdaDiff.Model

/-!
# C105: comparing distributions, and comparing two LDA models topic by topic
-/

namespace Verif.LdaDiff

open Verif Verif.Matutils

/-! ### Specification -/

/-- Non-negative weights that are not all zero. -/
def Weights {n : Nat} (v : Vec n) : Prop := (∀ i, 0 ≤ v i) ∧ 0 < ∑ i, v i

/-- A probability distribution. -/
def Distribution {n : Nat} (v : Vec n) : Prop := (∀ i, 0 ≤ v i) ∧ ∑ i, v i = 1

theorem Distribution.weights {n : Nat} {v : Vec n} (h : Distribution v) : Weights v := ⟨h.1, by rw [h.2]; norm_num⟩

/-! ### The Kullback-Leibler divergence -/

/-- The finite term of the divergence. -/
noncomputable def term (x y : ℝ) : ℝ := open Classical in if 0 < x then x * Real.log (x / y) else 0

theorem relEntr_coe {x y : ℝ} (h : 0 < x → 0 < y) : relEntr x y = ((term x y : ℝ) : WithTop ℝ) := by
  unfold relEntr term
  by_cases hx : 0 < x
  · rw [if_pos hx, if_pos (h hx), if_pos hx]
  · rw [if_neg hx, if_neg hx]; rfl

theorem relEntr_top {x y : ℝ} (hx : 0 < x) (hy : ¬ 0 < y) : relEntr x y = ⊤ := by
  unfold relEntr
  rw [if_pos hx, if_neg hy]

theorem term_ge {x y : ℝ} (hx : 0 ≤ x) (hy : 0 ≤ y) (h : 0 < x → 0 < y) : x - y ≤ term x y := by
  unfold term
  by_cases hp : 0 < x
  · rw [if_pos hp]
    have hq := h hp
    have h1 := Real.log_le_sub_one_of_pos (div_pos hq hp)
    have h2 : Real.log (x / y) = - Real.log (y / x) := by rw [← Real.log_inv, inv_div]
    rw [h2]
    have h3 := mul_le_mul_of_nonneg_left h1 hx
    have h4 : x * (y / x - 1) = y - x := by field_simp
    rw [h4] at h3
    linarith
  · rw [if_neg hp]
    linarith [le_antisymm (not_lt.1 hp) hx]

theorem term_eq {x y : ℝ} (hx : 0 ≤ x) (hy : 0 ≤ y) (h : 0 < x → 0 < y) (he : x - y = term x y) : x = y := by
  unfold term at he
  by_cases hp : 0 < x
  · rw [if_pos hp] at he
    have hq := h hp
    by_contra hne
    have h1 := Real.log_lt_sub_one_of_pos (div_pos hq hp) (fun hh => hne (by
      rw [div_eq_one_iff_eq hp.ne'] at hh; exact hh.symm))
    have h2 : Real.log (x / y) = - Real.log (y / x) := by rw [← Real.log_inv, inv_div]
    rw [h2] at he
    have h3 := mul_lt_mul_of_pos_left h1 hp
    have h4 : x * (y / x - 1) = y - x := by field_simp
    rw [h4] at h3
    linarith
  · rw [if_neg hp] at he
    linarith

theorem term_self (x : ℝ) : term x x = 0 := by
  unfold term
  split
  · rename_i h
    rw [div_self h.ne', Real.log_one, mul_zero]
  · rfl

variable {n : Nat}

/-- The divergence where it is finite. -/
theorem entropy_coe {p q : Vec n} (hp : Weights p) (hq : Weights q) (h : ∀ i, 0 < p i → 0 < q i) :
    entropy p q = ((∑ i, term (p i / ∑ j, p j) (q i / ∑ j, q j) : ℝ) : WithTop ℝ) := by
  unfold entropy
  rw [WithTop.coe_sum]
  refine Finset.sum_congr rfl fun i _ => relEntr_coe fun hi => ?_
  have : 0 < p i := by
    by_contra hc
    have h0 : p i = 0 := le_antisymm (not_lt.1 hc) (hp.1 i)
    rw [h0, zero_div] at hi
    exact lt_irrefl _ hi
  exact div_pos (h i this) hq.2

theorem entropy_top {p q : Vec n} (hp : Weights p) (hq : Weights q) {i : Fin n} (h1 : 0 < p i) (h2 : ¬ 0 < q i) :
    entropy p q = ⊤ := by
  unfold entropy
  rw [WithTop.sum_eq_top]
  refine ⟨i, Finset.mem_univ _, relEntr_top (div_pos h1 hp.2) ?_⟩
  have h0 : q i = 0 := le_antisymm (not_lt.1 h2) (hq.1 i)
  rw [h0, zero_div]
  exact lt_irrefl _

theorem sum_normalised {v : Vec n} (h : Weights v) : ∑ i, v i / ∑ j, v j = 1 := by
  rw [← Finset.sum_div, div_self h.2.ne']

theorem real_kl {p q : Vec n} (hp : Weights p) (hq : Weights q) (h : ∀ i, 0 < p i → 0 < q i) :
    0 ≤ ∑ i, term (p i / ∑ j, p j) (q i / ∑ j, q j) ∧
      (∑ i, term (p i / ∑ j, p j) (q i / ∑ j, q j) = 0 ↔ ∀ i, p i / ∑ j, p j = q i / ∑ j, q j) := by
  have hpos : ∀ i, 0 < p i / ∑ j, p j → 0 < q i / ∑ j, q j := by
    intro i hi
    have : 0 < p i := by
      by_contra hc
      have h0 : p i = 0 := le_antisymm (not_lt.1 hc) (hp.1 i)
      rw [h0, zero_div] at hi
      exact lt_irrefl _ hi
    exact div_pos (h i this) hq.2
  have hge : ∀ i ∈ Finset.univ, p i / (∑ j, p j) - q i / ∑ j, q j ≤ term (p i / ∑ j, p j) (q i / ∑ j, q j) := fun i _ =>
    term_ge (div_nonneg (hp.1 i) hp.2.le) (div_nonneg (hq.1 i) hq.2.le) (hpos i)
  have hsum : ∑ i, (p i / (∑ j, p j) - q i / ∑ j, q j) = 0 := by
    rw [Finset.sum_sub_distrib, sum_normalised hp, sum_normalised hq, sub_self]
  have hle := Finset.sum_le_sum hge
  rw [hsum] at hle
  refine ⟨hle, fun h0 i => ?_, fun he => ?_⟩
  · have := (Finset.sum_eq_sum_iff_of_le hge).1 (by rw [hsum, h0])
    exact term_eq (div_nonneg (hp.1 i) hp.2.le) (div_nonneg (hq.1 i) hq.2.le) (hpos i) (this i (Finset.mem_univ _))
  · refine Finset.sum_eq_zero fun i _ => ?_
    rw [he i, term_self]

/-- The divergence is never negative, and is zero exactly when the two vectors are proportional. -/
theorem C105_kl_nonneg {p q : Vec n} (hp : Weights p) (hq : Weights q) :
    0 ≤ kullbackLeibler p q ∧ (kullbackLeibler p q = 0 ↔ ∀ i, p i / ∑ j, p j = q i / ∑ j, q j) := by
  unfold kullbackLeibler
  by_cases h : ∀ i, 0 < p i → 0 < q i
  · rw [entropy_coe hp hq h]
    obtain ⟨h1, h2⟩ := real_kl hp hq h
    refine ⟨WithTop.coe_nonneg.2 h1, ?_⟩
    rw [← h2, WithTop.coe_eq_zero]
  · push Not at h
    obtain ⟨i, h1, h2⟩ := h
    rw [entropy_top hp hq h1 (not_lt.2 h2)]
    refine ⟨le_top, fun hh => absurd hh WithTop.top_ne_zero, fun hh => ?_⟩
    have h0 : q i = 0 := le_antisymm h2 (hq.1 i)
    have h3 := hh i
    rw [h0, zero_div] at h3
    exact absurd h3 (div_pos h1 hp.2).ne'

/-- It is infinite exactly when the first vector gives weight to an item to which the second gives none. -/
theorem C105_kl_infinite {p q : Vec n} (hp : Weights p) (hq : Weights q) :
    kullbackLeibler p q = ⊤ ↔ ∃ i, 0 < p i ∧ q i = 0 := by
  unfold kullbackLeibler
  constructor
  · intro h
    by_contra hc
    push Not at hc
    rw [entropy_coe hp hq (fun i hi => lt_of_le_of_ne (hq.1 i) (Ne.symm (hc i hi)))] at h
    exact WithTop.coe_ne_top h
  · rintro ⟨i, h1, h2⟩
    exact entropy_top hp hq h1 (by rw [h2]; exact lt_irrefl _)

/-- For positive distributions it is the sum of `p log (p / q)`. -/
theorem C105_kl_value {p q : Vec n} (hp : Distribution p) (hq : Distribution q) (hp' : ∀ i, 0 < p i) (hq' : ∀ i, 0 < q i) :
    kullbackLeibler p q = ((∑ i, p i * Real.log (p i / q i) : ℝ) : WithTop ℝ) := by
  unfold kullbackLeibler
  rw [entropy_coe hp.weights hq.weights (fun i _ => hq' i)]
  congr 1
  refine Finset.sum_congr rfl fun i _ => ?_
  rw [hp.2, hq.2, div_one, div_one]
  exact if_pos (hp' i)

theorem sum_scale (c : ℝ) (v : Vec n) : ∑ i, c * v i = c * ∑ i, v i := (Finset.mul_sum _ _ _).symm

/-- Only the proportions count: scaling either vector changes nothing. -/
theorem C105_kl_scale {p q : Vec n} {c d : ℝ} (hc : 0 < c) (hd : 0 < d) :
    kullbackLeibler (fun i => c * p i) (fun i => d * q i) = kullbackLeibler p q := by
  unfold kullbackLeibler entropy
  refine Finset.sum_congr rfl fun i _ => ?_
  rw [sum_scale, sum_scale, mul_div_mul_left _ _ hc.ne', mul_div_mul_left _ _ hd.ne']

/-- Two distributions on two items, for the examples. -/
noncomputable def exEven : Vec 2 := ![1 / 2, 1 / 2]

noncomputable def exFirst : Vec 2 := ![1, 0]

theorem exEven_dist : Distribution exEven := by
  refine ⟨fun i => ?_, ?_⟩
  · fin_cases i <;> norm_num [exEven]
  · rw [Fin.sum_univ_two]; norm_num [exEven]

theorem exFirst_dist : Distribution exFirst := by
  refine ⟨fun i => ?_, ?_⟩
  · fin_cases i <;> norm_num [exFirst]
  · rw [Fin.sum_univ_two]; norm_num [exFirst]

/-- Finding: the divergence is not symmetric; one direction can be infinite and the other not. -/
theorem C105_kl_asymmetric :
    kullbackLeibler exEven exFirst = ⊤ ∧ kullbackLeibler exFirst exEven = ((Real.log 2 : ℝ) : WithTop ℝ) := by
  refine ⟨(C105_kl_infinite exEven_dist.weights exFirst_dist.weights).2 ⟨1, by norm_num [exEven], by norm_num [exFirst]⟩, ?_⟩
  unfold kullbackLeibler
  rw [entropy_coe exFirst_dist.weights exEven_dist.weights (fun i _ => by fin_cases i <;> norm_num [exEven])]
  congr 1
  rw [exFirst_dist.2, exEven_dist.2, Fin.sum_univ_two]
  norm_num [exEven, exFirst, term]

/-! ### The Jensen-Shannon divergence -/

theorem weights_avg {p q : Vec n} (hp : Weights p) (hq : Weights q) : Weights fun i => (p i + q i) / 2 := by
  refine ⟨fun i => by have := hp.1 i; have := hq.1 i; positivity, ?_⟩
  rw [← Finset.sum_div, Finset.sum_add_distrib]
  have := hp.2
  have := hq.2
  positivity

/-- It does not depend on the order. -/
theorem C105_js_symm (p q : Vec n) : jensenShannon p q = jensenShannon q p := by
  unfold jensenShannon
  have : (fun i => (p i + q i) / 2) = fun i => (q i + p i) / 2 := by
    funext i; rw [add_comm]
  simp only [this]
  rw [add_comm]

theorem js_coe {p q : Vec n} (hp : Distribution p) (hq : Distribution q) :
    jensenShannon p q = (((∑ i, term (p i) ((p i + q i) / 2) + ∑ i, term (q i) ((p i + q i) / 2)) / 2 : ℝ) : WithTop ℝ) := by
  unfold jensenShannon
  have hw := weights_avg hp.weights hq.weights
  have hs : ∑ i, (p i + q i) / 2 = 1 := by
    rw [← Finset.sum_div, Finset.sum_add_distrib, hp.2, hq.2]; norm_num
  simp only
  rw [entropy_coe hp.weights hw (fun i hi => by have := hq.1 i; positivity),
    entropy_coe hq.weights hw (fun i hi => by have := hp.1 i; positivity), ← WithTop.coe_add]
  simp only [hs, hp.2, hq.2, div_one]
  rfl

theorem term_le_log_two {x y : ℝ} (hx : 0 ≤ x) (hy : 0 ≤ y) : term x ((x + y) / 2) ≤ x * Real.log 2 := by
  unfold term
  by_cases h : 0 < x
  · rw [if_pos h]
    refine mul_le_mul_of_nonneg_left (Real.log_le_log (by positivity) ?_) hx
    rw [div_le_iff₀ (by positivity)]
    linarith
  · rw [if_neg h]
    exact mul_nonneg hx (Real.log_nonneg (by norm_num))

/-- For two distributions it is a number between 0 and the logarithm of 2, and 0 exactly when they are equal. -/
theorem C105_js_range {p q : Vec n} (hp : Distribution p) (hq : Distribution q) :
    ∃ r : ℝ, jensenShannon p q = (r : WithTop ℝ) ∧ 0 ≤ r ∧ r ≤ Real.log 2 ∧ (r = 0 ↔ p = q) := by
  refine ⟨_, js_coe hp hq, ?_⟩
  have hw := weights_avg hp.weights hq.weights
  have hs : ∑ i, (p i + q i) / 2 = 1 := by
    rw [← Finset.sum_div, Finset.sum_add_distrib, hp.2, hq.2]; norm_num
  obtain ⟨a1, a2⟩ := real_kl hp.weights hw (fun i hi => by have := hq.1 i; positivity)
  obtain ⟨b1, b2⟩ := real_kl hq.weights hw (fun i hi => by have := hp.1 i; positivity)
  simp only [hs, hp.2, hq.2, div_one] at a1 a2 b1 b2
  have c1 : ∑ i, term (p i) ((p i + q i) / 2) ≤ Real.log 2 := by
    calc _ ≤ ∑ i, p i * Real.log 2 := Finset.sum_le_sum fun i _ => term_le_log_two (hp.1 i) (hq.1 i)
      _ = Real.log 2 := by rw [← Finset.sum_mul, hp.2, one_mul]
  have c2 : ∑ i, term (q i) ((p i + q i) / 2) ≤ Real.log 2 := by
    calc _ ≤ ∑ i, q i * Real.log 2 := Finset.sum_le_sum fun i _ => by
          rw [add_comm]; exact term_le_log_two (hq.1 i) (hp.1 i)
      _ = Real.log 2 := by rw [← Finset.sum_mul, hq.2, one_mul]
  refine ⟨by linarith, by linarith, fun h => ?_, fun h => ?_⟩
  · have h0 : ∑ i, term (p i) ((p i + q i) / 2) = 0 := by linarith
    funext i
    have := a2.1 h0 i
    linarith
  · subst h
    have h0 := a2.2 (fun i => by ring)
    rw [h0]
    norm_num

/-- The bound is reached by distributions without a common item. -/
theorem C105_js_disjoint {p q : Vec n} (hp : Distribution p) (hq : Distribution q) (h : ∀ i, p i = 0 ∨ q i = 0) :
    jensenShannon p q = ((Real.log 2 : ℝ) : WithTop ℝ) := by
  rw [js_coe hp hq]
  have key : ∀ x y : ℝ, 0 ≤ x → (x = 0 ∨ y = 0) → term x ((x + y) / 2) = x * Real.log 2 := by
    intro x y hx hxy
    unfold term
    by_cases h0 : 0 < x
    · have hy : y = 0 := by
        rcases hxy with hh | hh
        · exact absurd hh h0.ne'
        · exact hh
      rw [if_pos h0, hy, add_zero]
      congr 2
      field_simp
    · rw [if_neg h0, le_antisymm (not_lt.1 h0) hx, zero_mul]
  have e1 : ∑ i, term (p i) ((p i + q i) / 2) = Real.log 2 := by
    rw [Finset.sum_congr rfl fun i _ => key _ _ (hp.1 i) (h i), ← Finset.sum_mul, hp.2, one_mul]
  have e2 : ∑ i, term (q i) ((p i + q i) / 2) = Real.log 2 := by
    have hk : ∀ i ∈ Finset.univ, term (q i) ((p i + q i) / 2) = q i * Real.log 2 := fun i _ => by
      rw [add_comm]; exact key _ _ (hq.1 i) (h i).symm
    rw [Finset.sum_congr rfl hk, ← Finset.sum_mul, hq.2, one_mul]
  rw [e1, e2]
  congr 1
  ring

/-! ### The Hellinger distance of dense vectors -/

/-- It is symmetric and never negative; it vanishes exactly on equal vectors; for two distributions it is at most 1. -/
theorem C105_hellinger {p q : Vec n} (hp : ∀ i, 0 ≤ p i) (hq : ∀ i, 0 ≤ q i) :
    hellinger p q = hellinger q p ∧ 0 ≤ hellinger p q ∧ (hellinger p q = 0 ↔ p = q) ∧
      (∑ i, p i = 1 → ∑ i, q i = 1 → hellinger p q ≤ 1) := by
  have hnn : (0 : ℝ) ≤ ∑ i, (Real.sqrt (p i) - Real.sqrt (q i)) ^ 2 := Finset.sum_nonneg fun i _ => sq_nonneg _
  refine ⟨?_, Real.sqrt_nonneg _, ⟨fun h => ?_, fun h => ?_⟩, fun h1 h2 => ?_⟩
  · unfold hellinger
    congr 2
    refine Finset.sum_congr rfl fun i _ => by ring
  · unfold hellinger at h
    rw [Real.sqrt_eq_zero (by positivity)] at h
    have h0 : ∑ i, (Real.sqrt (p i) - Real.sqrt (q i)) ^ 2 = 0 := by linarith
    funext i
    have := (Finset.sum_eq_zero_iff_of_nonneg (fun i _ => sq_nonneg _)).1 h0 i (Finset.mem_univ _)
    have h3 : Real.sqrt (p i) = Real.sqrt (q i) := by
      have := pow_eq_zero_iff (two_ne_zero) |>.1 this
      linarith
    rwa [Real.sqrt_inj (hp i) (hq i)] at h3
  · subst h
    unfold hellinger
    simp
  · unfold hellinger
    rw [Real.sqrt_le_left (by norm_num)]
    have : ∑ i, (Real.sqrt (p i) - Real.sqrt (q i)) ^ 2 ≤ ∑ i, (p i + q i) := by
      refine Finset.sum_le_sum fun i _ => ?_
      have e1 := Real.sq_sqrt (hp i)
      have e2 := Real.sq_sqrt (hq i)
      have e3 := mul_nonneg (Real.sqrt_nonneg (p i)) (Real.sqrt_nonneg (q i))
      nlinarith
    rw [Finset.sum_add_distrib, h1, h2] at this
    linarith

/-! ### Bags of words -/

/-- The dense vector of a bag of words without repeated identifiers. -/
noncomputable def dense (n : Nat) (doc : List (Nat × ℝ)) : Vec n := fun i => PyDict.getD doc i.val 0

theorem sparse2full_ok {doc : List (Nat × ℝ)} (hd : PyDict.WF doc) {n : Nat} (h : ∀ e ∈ doc, e.1 < n) :
    ∃ l, sparse2full doc n = some l ∧ ofList n l = dense n doc := by
  refine ⟨(List.range n).map fun i => PyDict.getD doc i 0, ?_, ?_⟩
  · unfold sparse2full
    simp only [PyDict.ofPairs_of_WF hd]
    rw [if_pos]
    rw [List.all_eq_true]
    intro i hi
    obtain ⟨e, he, rfl⟩ := List.mem_map.1 hi
    exact decide_eq_true (h e he)
  · funext i
    unfold ofList dense
    rw [List.getD_eq_getElem _ _ (by simp)]
    simp

theorem sparse2full_err {doc : List (Nat × ℝ)} (hd : PyDict.WF doc) {n : Nat} (h : ¬ ∀ e ∈ doc, e.1 < n) :
    sparse2full doc n = none := by
  unfold sparse2full
  simp only [PyDict.ofPairs_of_WF hd]
  rw [if_neg]
  rw [List.all_eq_true]
  intro hh
  exact h fun e he => of_decide_eq_true (hh e.1 (List.mem_map_of_mem he))

/-- With a number of features above every identifier, the distances of bags of words are those of their dense vectors. -/
theorem C105_bow_features {d1 d2 : List (Nat × ℝ)} (h1 : (d1.map (·.1)).Nodup) (h2 : (d2.map (·.1)).Nodup) {m : Nat}
    (k1 : ∀ e ∈ d1, e.1 < m) (k2 : ∀ e ∈ d2, e.1 < m) :
    kullbackLeiblerBow d1 d2 (some m) = .ok (kullbackLeibler (dense m d1) (dense m d2)) ∧
      jensenShannonBow d1 d2 (some m) = .ok (jensenShannon (dense m d1) (dense m d2)) := by
  obtain ⟨l1, a1, b1⟩ := sparse2full_ok h1 k1
  obtain ⟨l2, a2, b2⟩ := sparse2full_ok h2 k2
  have : convertBow d1 d2 (some m) = .ok ⟨m, dense m d1, dense m d2⟩ := by
    unfold convertBow
    simp only [a1, a2, b1, b2]
  constructor
  · unfold kullbackLeiblerBow; simp only [this]
  · unfold jensenShannonBow; simp only [this]

/-- The entries of the dense vector are those of the bag of words, and 0 elsewhere. -/
theorem C105_bow_dense {doc : List (Nat × ℝ)} (hd : (doc.map (·.1)).Nodup) {m : Nat} (i : Fin m) :
    (∀ v, (i.val, v) ∈ doc → dense m doc i = v) ∧ (i.val ∉ doc.map (·.1) → dense m doc i = 0) := by
  unfold dense PyDict.getD
  refine ⟨fun v hv => ?_, fun h => ?_⟩
  · rw [PyDict.get?_of_mem (d := doc) hd hv]; rfl
  · rw [(PyDict.get?_eq_none_iff doc _).2 h]; rfl

/-- Finding: without a number of features the dimension is the number of entries of the longer bag, not its largest
identifier; a bag with an identifier from there on is refused with an IndexError. -/
theorem C105_bow_no_features {d1 d2 : List (Nat × ℝ)} (h1 : (d1.map (·.1)).Nodup) (h2 : (d2.map (·.1)).Nodup) :
    (kullbackLeiblerBow d1 d2 none = .error .index ↔ ∃ e, (e ∈ d1 ∨ e ∈ d2) ∧ max d1.length d2.length ≤ e.1) ∧
      (jensenShannonBow d1 d2 none = .error .index ↔ ∃ e, (e ∈ d1 ∨ e ∈ d2) ∧ max d1.length d2.length ≤ e.1) := by
  have key : (∃ x, convertBow d1 d2 none = .ok x ∧ ∀ e, (e ∈ d1 ∨ e ∈ d2) → e.1 < max d1.length d2.length) ∨
      (convertBow d1 d2 none = .error .index ∧ ∃ e, (e ∈ d1 ∨ e ∈ d2) ∧ max d1.length d2.length ≤ e.1) := by
    by_cases k1 : ∀ e ∈ d1, e.1 < max d1.length d2.length
    · by_cases k2 : ∀ e ∈ d2, e.1 < max d1.length d2.length
      · left
        obtain ⟨l1, a1, b1⟩ := sparse2full_ok h1 k1
        obtain ⟨l2, a2, b2⟩ := sparse2full_ok h2 k2
        refine ⟨⟨max d1.length d2.length, dense _ d1, dense _ d2⟩, ?_, fun e he => he.elim (k1 e) (k2 e)⟩
        unfold convertBow
        simp only [a1, a2, b1, b2]
      · right
        refine ⟨?_, ?_⟩
        · unfold convertBow
          simp only [sparse2full_err h2 k2]
          cases sparse2full d1 (max d1.length d2.length) <;> rfl
        · push Not at k2
          obtain ⟨e, he, hl⟩ := k2
          exact ⟨e, Or.inr he, hl⟩
    · right
      refine ⟨?_, ?_⟩
      · unfold convertBow
        simp only [sparse2full_err h1 k1]
      · push Not at k1
        obtain ⟨e, he, hl⟩ := k1
        exact ⟨e, Or.inl he, hl⟩
  rcases key with ⟨x, hx, hall⟩ | ⟨hx, hex⟩
  · have hno : ¬ ∃ e, (e ∈ d1 ∨ e ∈ d2) ∧ max d1.length d2.length ≤ e.1 := by
      rintro ⟨e, he, hl⟩
      exact absurd (hall e he) (not_lt.2 hl)
    constructor
    · unfold kullbackLeiblerBow
      simp only [hx]
      exact ⟨fun h => by simp at h, fun h => absurd h hno⟩
    · unfold jensenShannonBow
      simp only [hx]
      exact ⟨fun h => by simp at h, fun h => absurd h hno⟩
  · constructor
    · unfold kullbackLeiblerBow
      rw [hx]
      exact ⟨fun _ => hex, fun _ => rfl⟩
    · unfold jensenShannonBow
      rw [hx]
      exact ⟨fun _ => hex, fun _ => rfl⟩

/-- For instance the distance of a document holding the single word 5 to itself. -/
example : kullbackLeiblerBow [(5, 1)] [(5, 1)] none = .error .index :=
  (C105_bow_no_features (by simp) (by simp)).1.2 ⟨(5, 1), Or.inl (by simp), by decide⟩

/-! ### Comparing two models -/

variable {W : Type} [DecidableEq W]

/-- A model whose topics are distributions in which every word has some weight. -/
def Trained (m : Lda W n) : Prop := ∀ i, Distribution (m.topics i) ∧ ∀ w, 0 < m.topics i w

/-- The cell of a matrix. -/
def cellAt {α : Type} (z : List (List α)) (i j : Nat) : Option α := z[i]?.bind (·[j]?)

theorem parse_names : parseDistance "kullback_leibler" = some .kullbackLeibler ∧ parseDistance "hellinger" = some .hellinger ∧
    parseDistance "jaccard" = some .jaccard ∧ parseDistance "jensen_shannon" = some .jensenShannon := by decide

/-- When it is refused: an unknown distance with a ValueError; a model of another class with an AttributeError, raised while the
message of the intended ValueError is put together (finding); a diagonal of models with different numbers of topics with an
AssertionError. Otherwise there is a result. -/
theorem C105_diff_errors (pick : Finset W → List W) (a b : Lda W n) (name : String) (nw k : Nat) (diag ann normed : Bool) :
    let r := diff pick a b name nw k diag ann normed
    let known := name = "kullback_leibler" ∨ name = "hellinger" ∨ name = "jaccard" ∨ name = "jensen_shannon"
    let inst := a.cls = b.cls ∨ a.cls ∈ b.bases
    (¬ known → r = .error .value) ∧
      (known → ¬ inst → r = .error .attribute) ∧
      (known → inst → diag = true → a.numTopics ≠ b.numTopics → r = .error .assertion) ∧
      (known → inst → (diag = true → a.numTopics = b.numTopics) → ∃ res, r = .ok res ∧ (res.annotation.isSome ↔ ann = true)) := by
  intro r known inst
  have hk : known → ∃ d, parseDistance name = some d := by
    obtain ⟨p1, p2, p3, p4⟩ := parse_names
    rintro (h | h | h | h) <;> subst h
    · exact ⟨_, p1⟩
    · exact ⟨_, p2⟩
    · exact ⟨_, p3⟩
    · exact ⟨_, p4⟩
  have hi : inst ↔ a.cls ∈ b.cls :: b.bases := by rw [List.mem_cons]
  refine ⟨fun h => ?_, fun h h' => ?_, fun h h' h2 h3 => ?_, fun h h' h2 => ?_⟩
  · have : parseDistance name = none := by
      unfold parseDistance
      rw [if_neg (fun hh => h (Or.inl hh)), if_neg (fun hh => h (Or.inr (Or.inl hh))),
        if_neg (fun hh => h (Or.inr (Or.inr (Or.inl hh)))), if_neg (fun hh => h (Or.inr (Or.inr (Or.inr hh))))]
    simp only [r, diff, this]
  · obtain ⟨d, hd⟩ := hk h
    simp only [r, diff, hd]
    rw [if_pos (fun hh => h' (hi.2 hh))]
  · obtain ⟨d, hd⟩ := hk h
    simp only [r, diff, hd]
    rw [if_neg (not_not.2 (hi.1 h')), if_pos h2, dif_neg h3]
  · obtain ⟨d, hd⟩ := hk h
    simp only [r, diff, hd]
    rw [if_neg (not_not.2 (hi.1 h'))]
    by_cases h3 : diag = true
    · rw [if_pos h3, dif_pos (h2 h3)]
      refine ⟨_, rfl, ?_⟩
      cases ann <;> simp
    · rw [if_neg h3]
      refine ⟨_, rfl, ?_⟩
      cases ann <;> simp

/-- What a name of a distance stands for. -/
def IsDistance (name : String) (nw : Nat) (a b : Lda W n) (i : Fin a.numTopics) (j : Fin b.numTopics) (x : ℝ) : Prop :=
  (name = "kullback_leibler" → (x : WithTop ℝ) = kullbackLeibler (a.topics i) (b.topics j)) ∧
    (name = "hellinger" → x = hellinger (a.topics i) (b.topics j)) ∧
    (name = "jaccard" → x = jaccardDistance (a.words i nw) (b.words j nw)) ∧
    (name = "jensen_shannon" → (x : WithTop ℝ) = jensenShannon (a.topics i) (b.topics j))

theorem kl_untop {p q : Vec n} (hp : Weights p) (hq : Weights q) (h : ∀ i, 0 < q i) :
    (((kullbackLeibler p q).untopD 0 : ℝ) : WithTop ℝ) = kullbackLeibler p q := by
  unfold kullbackLeibler
  rw [entropy_coe hp hq (fun i _ => h i)]
  rfl

theorem topicDistance_is {a b : Lda W n} (ha : Trained a) (hb : Trained b) {name : String} {d : Distance}
    (hd : parseDistance name = some d) (nw : Nat) (i : Fin a.numTopics) (j : Fin b.numTopics) :
    IsDistance name nw a b i j (topicDistance d nw a b i j) := by
  obtain ⟨p1, p2, p3, p4⟩ := parse_names
  refine ⟨fun h => ?_, fun h => ?_, fun h => ?_, fun h => ?_⟩
  · subst h; rw [p1] at hd; cases hd
    exact kl_untop (ha i).1.weights (hb j).1.weights (hb j).2
  · subst h; rw [p2] at hd; cases hd; rfl
  · subst h; rw [p3] at hd; cases hd; rfl
  · subst h; rw [p4] at hd; cases hd
    obtain ⟨r, hr, -⟩ := C105_js_range (ha i).1 (hb j).1
    show (((jensenShannon _ _).untopD 0 : ℝ) : WithTop ℝ) = _
    rw [hr]; rfl

theorem diff_full_ok {pick : Finset W → List W} {a b : Lda W n} {name : String} {nw k : Nat} {ann normed : Bool} {res : Diff W}
    (h : diff pick a b name nw k false ann normed = .ok res) :
    ∃ d, parseDistance name = some d ∧
      (res.z = ((List.finRange a.numTopics).map fun i => (List.finRange b.numTopics).map fun j =>
        topicDistance d nw a b i j / (if normed then norming ((List.finRange a.numTopics).map fun i =>
          (List.finRange b.numTopics).map fun j => topicDistance d nw a b i j).flatten else 1))) ∧
      res.annotation = if ann then some ((List.finRange a.numTopics).map fun i => (List.finRange b.numTopics).map fun j =>
        ((pick (a.words i nw ∩ b.words j nw)).take k, (pick (symmDiff (a.words i nw) (b.words j nw))).take k)) else none := by
  unfold diff at h
  cases hd : parseDistance name with
  | none => simp [hd] at h
  | some d =>
    simp only [hd] at h
    split at h
    · cases h
    · rw [if_neg (by simp)] at h
      cases h
      refine ⟨d, rfl, ?_, ?_⟩
      · simp [List.map_map, Function.comp_def]
      · simp [List.map_map, Function.comp_def]

theorem diff_diag_ok {pick : Finset W → List W} {a b : Lda W n} {name : String} {nw k : Nat} {ann normed : Bool} {res : Diff W}
    (h : diff pick a b name nw k true ann normed = .ok res) :
    ∃ (d : Distance) (he : a.numTopics = b.numTopics), parseDistance name = some d ∧
      (res.z = [(List.finRange a.numTopics).map fun i =>
        topicDistance d nw a b i (i.cast he) / (if normed then norming ((List.finRange a.numTopics).map fun i =>
          topicDistance d nw a b i (i.cast he)) else 1)]) ∧
      res.annotation = if ann then some [(List.finRange a.numTopics).map fun i =>
        ((pick (a.words i nw ∩ b.words (i.cast he) nw)).take k,
          (pick (symmDiff (a.words i nw) (b.words (i.cast he) nw))).take k)] else none := by
  unfold diff at h
  cases hd : parseDistance name with
  | none => simp [hd] at h
  | some d =>
    simp only [hd] at h
    split at h
    · cases h
    · rw [if_pos trivial] at h
      split at h
      · rename_i he
        cases h
        refine ⟨d, he, rfl, ?_, ?_⟩
        · simp [List.map_map, Function.comp_def]
        · simp [List.map_map, Function.comp_def]
      · cases h

theorem cellAt_map {α : Type} {s t : Nat} (f : Fin s → Fin t → α) (i : Fin s) (j : Fin t) :
    cellAt ((List.finRange s).map fun i => (List.finRange t).map fun j => f i j) i j = some (f i j) := by
  unfold cellAt
  simp

/-- Without norming, cell `(i, j)` is the distance of topic `i` of the first model and topic `j` of the second. -/
theorem C105_diff_cells {pick : Finset W → List W} {a b : Lda W n} (ha : Trained a) (hb : Trained b) {name : String} {nw k : Nat}
    {ann : Bool} {res : Diff W} (h : diff pick a b name nw k false ann false = .ok res) :
    res.z.length = a.numTopics ∧ (∀ row ∈ res.z, row.length = b.numTopics) ∧
      ∀ (i : Fin a.numTopics) (j : Fin b.numTopics), ∃ x, cellAt res.z i j = some x ∧ IsDistance name nw a b i j x := by
  obtain ⟨d, hd, hz, -⟩ := diff_full_ok h
  simp only [Bool.false_eq_true, if_false, div_one] at hz
  refine ⟨by rw [hz]; simp, fun row hr => ?_, fun i j => ⟨topicDistance d nw a b i j, ?_, topicDistance_is ha hb hd nw i j⟩⟩
  · rw [hz] at hr
    obtain ⟨i, -, rfl⟩ := List.mem_map.1 hr
    simp
  · rw [hz]; exact cellAt_map _ i j

/-- The diagonal result is the diagonal of the full one. -/
theorem C105_diff_diagonal {pick : Finset W → List W} {a b : Lda W n} {name : String} {nw k : Nat} {ann : Bool} {res full : Diff W}
    (h : diff pick a b name nw k true ann false = .ok res) (hf : diff pick a b name nw k false ann false = .ok full) :
    ∃ row, res.z = [row] ∧ row.length = a.numTopics ∧ ∀ i, i < a.numTopics → row[i]? = cellAt full.z i i := by
  obtain ⟨d, he, hd, hz, -⟩ := diff_diag_ok h
  obtain ⟨d', hd', hz', -⟩ := diff_full_ok hf
  rw [hd] at hd'
  cases hd'
  simp only [Bool.false_eq_true, if_false, div_one] at hz hz'
  refine ⟨_, hz, by simp, fun i hi => ?_⟩
  rw [hz', cellAt_map (fun i j => topicDistance d nw a b i j) ⟨i, hi⟩ ⟨i, he ▸ hi⟩]
  simp [hi]

/-! #### Norming -/

theorem foldl_max (l : List ℝ) (x : ℝ) : x ≤ l.foldl max x ∧ (∀ y ∈ l, y ≤ l.foldl max x) ∧ (l.foldl max x = x ∨ l.foldl max x ∈ l) := by
  induction l generalizing x with
  | nil => simp
  | cons y l ih =>
    obtain ⟨h1, h2, h3⟩ := ih (max x y)
    rw [List.foldl_cons]
    refine ⟨(le_max_left _ _).trans h1, fun z hz => ?_, ?_⟩
    · rcases List.mem_cons.1 hz with rfl | hz
      · exact (le_max_right _ _).trans h1
      · exact h2 z hz
    · rcases h3 with h3 | h3
      · rcases max_choice x y with hc | hc
        · left; rw [h3, hc]
        · right; rw [h3, hc]; exact List.mem_cons_self
      · right; exact List.mem_cons_of_mem _ h3

theorem maxOf_greatest {l : List ℝ} {M : ℝ} (h : IsGreatest {x | x ∈ l} M) : maxOf l = M := by
  cases l with
  | nil => exact absurd h.1 (by simp)
  | cons x l =>
    obtain ⟨h1, h2, h3⟩ := foldl_max l x
    unfold maxOf
    simp only [List.tail_cons, List.headD_cons]
    refine le_antisymm (h.2 ?_) ?_
    · rcases h3 with h3 | h3
      · rw [h3]; exact List.mem_cons_self
      · exact List.mem_cons_of_mem _ h3
    · rcases List.mem_cons.1 h.1 with hm | hm
      · rw [hm]; exact h1
      · exact h2 M hm

theorem norming_eq {l : List ℝ} {M : ℝ} (h : IsGreatest {x | x ∈ l} M) :
    (1 / 100000000 < |M| → norming l = M) ∧ (|M| ≤ 1 / 100000000 → norming l = 1) := by
  unfold norming
  rw [maxOf_greatest h]
  exact ⟨fun hh => if_pos hh, fun hh => if_neg (not_lt.2 hh)⟩

/-- Norming divides every cell by the largest one, unless that is no larger than 10⁻⁸. -/
theorem C105_diff_normed {pick : Finset W → List W} {a b : Lda W n} {name : String} {nw k : Nat} {diag ann : Bool} {res raw : Diff W}
    (hr : diff pick a b name nw k diag ann false = .ok raw) (h : diff pick a b name nw k diag ann true = .ok res) {M : ℝ}
    (hM : IsGreatest {x | x ∈ raw.z.flatten} M) :
    (1 / 100000000 < |M| → res.z = raw.z.map fun row => row.map (· / M)) ∧ (|M| ≤ 1 / 100000000 → res.z = raw.z) ∧
      res.annotation = raw.annotation := by
  cases diag with
  | false =>
    obtain ⟨d, hd, hz, ha⟩ := diff_full_ok hr
    obtain ⟨d', hd', hz', ha'⟩ := diff_full_ok h
    rw [hd] at hd'
    cases hd'
    simp only [Bool.false_eq_true, if_false, div_one] at hz
    simp only [if_true] at hz'
    rw [← hz] at hz'
    obtain ⟨n1, n2⟩ := norming_eq hM
    refine ⟨fun hh => ?_, fun hh => ?_, by rw [ha, ha']⟩
    · rw [hz', n1 hh, hz]
      simp [List.map_map, Function.comp_def]
    · rw [hz', n2 hh, hz]
      simp
  | true =>
    obtain ⟨d, he, hd, hz, ha⟩ := diff_diag_ok hr
    obtain ⟨d', he', hd', hz', ha'⟩ := diff_diag_ok h
    rw [hd] at hd'
    cases hd'
    simp only [Bool.false_eq_true, if_false, div_one] at hz
    simp only [if_true] at hz'
    rw [hz] at hM
    rw [List.flatten_cons, List.flatten_nil, List.append_nil] at hM
    obtain ⟨n1, n2⟩ := norming_eq hM
    refine ⟨fun hh => ?_, fun hh => ?_, by rw [ha, ha']⟩
    · rw [hz', n1 hh, hz]
      simp [List.map_map, Function.comp_def]
    · rw [hz', n2 hh, hz]
      simp

/-- Finding: however close the two models are, as soon as one distance is above 10⁻⁸ the normed result has a cell equal to 1;
so normed results say nothing about how far two models are apart. -/
theorem C105_diff_normed_one {pick : Finset W → List W} {a b : Lda W n} {name : String} {nw k : Nat} {diag ann : Bool}
    {res raw : Diff W} (hr : diff pick a b name nw k diag ann false = .ok raw)
    (h : diff pick a b name nw k diag ann true = .ok res) {x : ℝ} (hx : x ∈ raw.z.flatten) (hpos : 1 / 100000000 < x) :
    IsGreatest {y | y ∈ res.z.flatten} 1 := by
  have hM : IsGreatest {y | y ∈ raw.z.flatten} (maxOf raw.z.flatten) := by
    cases hl : raw.z.flatten with
    | nil => rw [hl] at hx; simp at hx
    | cons w l =>
      obtain ⟨h1, h2, h3⟩ := foldl_max l w
      unfold maxOf
      simp only [List.tail_cons, List.headD_cons]
      refine ⟨?_, fun y hy => ?_⟩
      · rcases h3 with h3 | h3
        · rw [h3]; exact List.mem_cons_self
        · exact List.mem_cons_of_mem _ h3
      · rcases List.mem_cons.1 hy with rfl | hy
        · exact h1
        · exact h2 y hy
  have hxM : x ≤ maxOf raw.z.flatten := hM.2 hx
  have hMp : 0 < maxOf raw.z.flatten := by
    have : (0 : ℝ) < 1 / 100000000 := by norm_num
    linarith
  have := (C105_diff_normed hr h hM).1 (by rw [abs_of_pos hMp]; linarith)
  have hfl : res.z.flatten = raw.z.flatten.map (· / maxOf raw.z.flatten) := by
    conv_lhs => rw [this]
    rw [List.map_flatten]
  rw [hfl]
  refine ⟨List.mem_map.2 ⟨_, hM.1, div_self hMp.ne'⟩, fun y hy => ?_⟩
  obtain ⟨z, hz, rfl⟩ := List.mem_map.1 hy
  rw [div_le_one hMp]
  exact hM.2 hz

/-! #### Comparing a model with itself, and the other way round -/

theorem jaccard_self_zero {s : Finset W} (h : s.Nonempty) : jaccardDistance s s = 0 := by
  unfold jaccardDistance
  rw [Finset.union_self, Finset.inter_self, if_neg (Finset.card_ne_zero.2 h), div_self (by
    exact_mod_cast Finset.card_ne_zero.2 h), sub_self]

/-- A model compared with itself has zeroes on the diagonal, for every distance; the sets of words must not be empty. -/
theorem C105_diff_self {pick : Finset W → List W} {a : Lda W n} (ha : Trained a) {name : String} {nw k : Nat} {ann normed : Bool}
    {res : Diff W} (h : diff pick a a name nw k true ann normed = .ok res) (hw : name = "jaccard" → ∀ i, (a.words i nw).Nonempty) :
    ∀ x ∈ res.z.flatten, x = 0 := by
  obtain ⟨d, he, hd, hz, -⟩ := diff_diag_ok h
  intro x hx
  rw [hz, List.flatten_cons, List.flatten_nil, List.append_nil] at hx
  obtain ⟨i, -, rfl⟩ := List.mem_map.1 hx
  have hi := topicDistance_is ha ha hd nw i (i.cast he)
  have hc : i.cast he = i := rfl
  rw [hc] at hi ⊢
  have h0 : topicDistance d nw a a i i = 0 := by
    obtain ⟨p1, p2, p3, p4⟩ := parse_names
    have hname : name = "kullback_leibler" ∨ name = "hellinger" ∨ name = "jaccard" ∨ name = "jensen_shannon" := by
      by_contra hn
      have := (C105_diff_errors pick a a name nw k true ann normed).1 hn
      rw [h] at this
      cases this
    rcases hname with hn | hn | hn | hn
    · have := hi.1 hn
      rw [((C105_kl_nonneg (ha i).1.weights (ha i).1.weights).2).2 (fun _ => rfl)] at this
      exact WithTop.coe_eq_zero.1 this
    · rw [hi.2.1 hn]
      exact ((C105_hellinger (ha i).1.1 (ha i).1.1).2.2.1).2 rfl
    · rw [hi.2.2.1 hn]
      exact jaccard_self_zero (hw hn i)
    · have := hi.2.2.2 hn
      obtain ⟨r, hr, -, -, h0⟩ := C105_js_range (ha i).1 (ha i).1
      rw [hr, h0.2 rfl] at this
      exact WithTop.coe_eq_zero.1 this
  rw [h0, zero_div]

/-- Finding: asked for no words, the set distance of a model to itself is 1 everywhere. -/
theorem C105_diff_no_words {pick : Finset W → List W} {a b : Lda W n} {nw k : Nat} {ann : Bool} {res : Diff W}
    (h : diff pick a b "jaccard" nw k false ann false = .ok res) (ha : ∀ i, a.words i nw = ∅) (hb : ∀ j, b.words j nw = ∅) :
    ∀ x ∈ res.z.flatten, x = 1 := by
  obtain ⟨d, hd, hz, -⟩ := diff_full_ok h
  rw [parse_names.2.2.1] at hd
  cases hd
  simp only [Bool.false_eq_true, if_false, div_one] at hz
  intro x hx
  rw [hz] at hx
  obtain ⟨row, hrow, hx⟩ := List.mem_flatten.1 hx
  obtain ⟨i, -, rfl⟩ := List.mem_map.1 hrow
  obtain ⟨j, -, rfl⟩ := List.mem_map.1 hx
  simp [topicDistance, jaccardDistance, ha, hb]

/-- The other way round, the symmetric distances give the transposed result. -/
theorem C105_diff_transpose {pick : Finset W → List W} {a b : Lda W n} (ha : Trained a) (hb : Trained b) {name : String} {nw k : Nat}
    {ann : Bool} {ab ba : Diff W} (hn : name ≠ "kullback_leibler")
    (h1 : diff pick a b name nw k false ann false = .ok ab) (h2 : diff pick b a name nw k false ann false = .ok ba)
    (i : Fin a.numTopics) (j : Fin b.numTopics) : cellAt ab.z i j = cellAt ba.z j i := by
  obtain ⟨-, -, c1⟩ := C105_diff_cells ha hb h1
  obtain ⟨-, -, c2⟩ := C105_diff_cells hb ha h2
  obtain ⟨x, e1, x1⟩ := c1 i j
  obtain ⟨y, e2, y1⟩ := c2 j i
  rw [e1, e2]
  congr 1
  have hname : name = "kullback_leibler" ∨ name = "hellinger" ∨ name = "jaccard" ∨ name = "jensen_shannon" := by
    by_contra hn
    have := (C105_diff_errors pick a b name nw k false ann false).1 hn
    rw [h1] at this
    cases this
  rcases hname with hh | hh | hh | hh
  · exact absurd hh hn
  · rw [x1.2.1 hh, y1.2.1 hh]
    exact (C105_hellinger (ha i).1.1 (hb j).1.1).1
  · rw [x1.2.2.1 hh, y1.2.2.1 hh]
    unfold jaccardDistance
    rw [Finset.union_comm, Finset.inter_comm]
  · have e := C105_js_symm (a.topics i) (b.topics j)
    rw [← x1.2.2.2 hh, ← y1.2.2.2 hh] at e
    exact WithTop.coe_inj.1 e

/-! #### The annotation -/

/-- A cell of the annotation lists words both topics show, and words exactly one of them shows, each at most the number asked
for and all of them if there are fewer. `pick` lists the elements of a set once each, in any order. -/
theorem C105_annotation {pick : Finset W → List W} (hp : ∀ s, (pick s).Nodup ∧ (pick s).toFinset = s) {a b : Lda W n}
    {name : String} {nw k : Nat} {normed : Bool} {res : Diff W} (h : diff pick a b name nw k false true normed = .ok res)
    (i : Fin a.numTopics) (j : Fin b.numTopics) :
    ∃ ann common only, res.annotation = some ann ∧ cellAt ann i j = some (common, only) ∧ common.Nodup ∧ only.Nodup ∧
      (∀ w ∈ common, w ∈ a.words i nw ∧ w ∈ b.words j nw) ∧
      (∀ w ∈ only, (w ∈ a.words i nw ∧ w ∉ b.words j nw) ∨ (w ∈ b.words j nw ∧ w ∉ a.words i nw)) ∧
      common.length = min k (a.words i nw ∩ b.words j nw).card ∧
      only.length = min k (symmDiff (a.words i nw) (b.words j nw)).card := by
  obtain ⟨d, -, -, ha⟩ := diff_full_ok h
  rw [if_pos rfl] at ha
  have hlen : ∀ s, (pick s).length = s.card := by
    intro s
    rw [← List.toFinset_card_of_nodup (hp s).1, (hp s).2]
  have hmem : ∀ s w, w ∈ pick s → w ∈ s := by
    intro s w hw
    rw [← (hp s).2]
    exact List.mem_toFinset.2 hw
  refine ⟨_, _, _, ha, cellAt_map _ i j, (List.take_sublist _ _).nodup (hp _).1, (List.take_sublist _ _).nodup (hp _).1,
    fun w hw => ?_, fun w hw => ?_, ?_, ?_⟩
  · exact Finset.mem_inter.1 (hmem _ _ (List.mem_of_mem_take hw))
  · exact Finset.mem_symmDiff.1 (hmem _ _ (List.mem_of_mem_take hw))
  · rw [List.length_take, hlen]
  · rw [List.length_take, hlen]

/-! #### The convergence metric -/

theorem topicDistance_nonneg {a b : Lda W n} (ha : Trained a) (hb : Trained b) (d : Distance) (nw : Nat) (i : Fin a.numTopics)
    (j : Fin b.numTopics) : 0 ≤ topicDistance d nw a b i j := by
  cases d with
  | kullbackLeibler =>
    have h := (C105_kl_nonneg (ha i).1.weights (hb j).1.weights).1
    rw [← kl_untop (ha i).1.weights (hb j).1.weights (hb j).2] at h
    exact WithTop.coe_nonneg.1 h
  | hellinger => exact Real.sqrt_nonneg _
  | jaccard =>
    show 0 ≤ jaccardDistance _ _
    unfold jaccardDistance
    split_ifs with h
    · norm_num
    · rw [sub_nonneg, div_le_one (by exact_mod_cast Nat.pos_of_ne_zero h)]
      exact_mod_cast Finset.card_le_card (Finset.inter_subset_left.trans Finset.subset_union_left)
  | jensenShannon =>
    obtain ⟨r, hr, h0, -⟩ := C105_js_range (ha i).1 (hb j).1
    show 0 ≤ (jensenShannon _ _).untopD 0
    rw [hr]
    exact h0

theorem raw_nonneg {pick : Finset W → List W} {a b : Lda W n} (ha : Trained a) (hb : Trained b) {name : String} {nw k : Nat}
    {diag ann : Bool} {raw : Diff W} (hr : diff pick a b name nw k diag ann false = .ok raw) : ∀ x ∈ raw.z.flatten, 0 ≤ x := by
  intro x hx
  cases diag with
  | false =>
    obtain ⟨d, hd, hz, -⟩ := diff_full_ok hr
    simp only [Bool.false_eq_true, if_false, div_one] at hz
    rw [hz] at hx
    obtain ⟨row, hrow, hx⟩ := List.mem_flatten.1 hx
    obtain ⟨i, -, rfl⟩ := List.mem_map.1 hrow
    obtain ⟨j, -, rfl⟩ := List.mem_map.1 hx
    exact topicDistance_nonneg ha hb d nw i j
  | true =>
    obtain ⟨d, he, hd, hz, -⟩ := diff_diag_ok hr
    simp only [Bool.false_eq_true, if_false, div_one] at hz
    rw [hz, List.flatten_cons, List.flatten_nil, List.append_nil] at hx
    obtain ⟨i, -, rfl⟩ := List.mem_map.1 hx
    exact topicDistance_nonneg ha hb d nw i _

/-- Without norming the metric is never negative, and it is 0 exactly when every distance is. -/
theorem C105_convergence {pick : Finset W → List W} {a b : Lda W n} (ha : Trained a) (hb : Trained b) {name : String} {nw k : Nat}
    {diag ann : Bool} {raw : Diff W} (hr : diff pick a b name nw k diag ann false = .ok raw) :
    ∃ x, convergence pick a b name nw k diag ann false = .ok x ∧ 0 ≤ x ∧ (x = 0 ↔ ∀ y ∈ raw.z.flatten, y = 0) := by
  have hn := raw_nonneg ha hb hr
  refine ⟨raw.z.flatten.sum, by unfold convergence; rw [hr]; rfl, List.sum_nonneg hn, ?_⟩
  generalize raw.z.flatten = l at hn
  induction l with
  | nil => simp
  | cons y l ih =>
    have hy := hn y List.mem_cons_self
    have hl : 0 ≤ l.sum := List.sum_nonneg fun z hz => hn z (List.mem_cons_of_mem _ hz)
    have := ih fun z hz => hn z (List.mem_cons_of_mem _ hz)
    rw [List.sum_cons, List.forall_mem_cons, ← this]
    constructor
    · intro h; exact ⟨by linarith, by linarith⟩
    · rintro ⟨h1, h2⟩; linarith

/-- Finding: with norming, its default, the metric is at least 1 as long as one distance exceeds 10⁻⁸, so it does not go to 0
while training converges. -/
theorem C105_convergence_normed {pick : Finset W → List W} {a b : Lda W n} (ha : Trained a) (hb : Trained b) {name : String}
    {nw k : Nat} {diag ann : Bool} {res raw : Diff W} (hr : diff pick a b name nw k diag ann false = .ok raw)
    (h : diff pick a b name nw k diag ann true = .ok res) {y : ℝ} (hy : y ∈ raw.z.flatten) (hpos : 1 / 100000000 < y) :
    ∃ x, convergence pick a b name nw k diag ann true = .ok x ∧ 1 ≤ x := by
  have hn := raw_nonneg ha hb hr
  refine ⟨res.z.flatten.sum, by unfold convergence; rw [h]; rfl, ?_⟩
  have h1 := (C105_diff_normed_one hr h hy hpos).1
  refine List.single_le_sum (fun z hz => ?_) 1 h1
  have hM : ∃ M, IsGreatest {x | x ∈ raw.z.flatten} M := by
    have hne : (raw.z.flatten.toFinset).Nonempty := ⟨y, List.mem_toFinset.2 hy⟩
    refine ⟨raw.z.flatten.toFinset.max' hne, List.mem_toFinset.1 (Finset.max'_mem _ hne), fun x hx => ?_⟩
    exact Finset.le_max' _ _ (List.mem_toFinset.2 hx)
  obtain ⟨M, hM⟩ := hM
  have hyM : y ≤ M := hM.2 hy
  have hMp : 0 < M := by
    have : (0 : ℝ) < 1 / 100000000 := by norm_num
    linarith
  have hz' := (C105_diff_normed hr h hM).1 (by rw [abs_of_pos hMp]; linarith)
  rw [hz'] at hz
  rw [← List.map_flatten] at hz
  obtain ⟨w, hw, rfl⟩ := List.mem_map.1 hz
  exact div_nonneg (hn w hw) hMp.le

/-! ### Instances -/

/-- A model with two topics over two words. -/
noncomputable def exLda : Lda Nat 2 where
  cls := "LdaModel"
  bases := []
  numTopics := 2
  topics := ![![1 / 4, 3 / 4], ![1 / 2, 1 / 2]]
  words := fun i k => if k = 0 then ∅ else if i = 0 then {0} else {0, 1}

theorem exTopics (i : Fin 2) : Distribution ((![![1 / 4, 3 / 4], ![1 / 2, 1 / 2]] : Fin 2 → Vec 2) i) ∧
    ∀ w, 0 < (![![1 / 4, 3 / 4], ![1 / 2, 1 / 2]] : Fin 2 → Vec 2) i w := by
  refine ⟨⟨fun w => ?_, ?_⟩, fun w => ?_⟩
  · fin_cases i <;> fin_cases w <;> norm_num
  · rw [Fin.sum_univ_two]; fin_cases i <;> norm_num
  · fin_cases i <;> fin_cases w <;> norm_num

example : Trained exLda := exTopics

example : ∃ res, diff (fun s : Finset Nat => s.sort) exLda exLda "hellinger" 1 10 false true false = .ok res :=
  ((C105_diff_errors _ exLda exLda "hellinger" 1 10 false true false).2.2.2 (by simp) (Or.inl rfl) (by simp)).imp fun _ h => h.1

end Verif.LdaDiff

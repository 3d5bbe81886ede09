import Mathlib.Tactic
import Mathlib.Algebra.Order.BigOperators.Ring.Finset
import Mathlib.Data.List.Sort
import Verif.KeyedVectors.GeomModel
import Verif.Matutils.ArgsortProps

/-!
# C97: similarity values agree with each other and with the geometry
-/

namespace Verif.KvGeom

open Verif

variable {κ : Type} [DecidableEq κ] {n : ℕ}

/-! ### Vectors -/

theorem dot_comm (a b : Vec n) : dot a b = dot b a := by
  unfold dot
  exact Finset.sum_congr rfl fun i _ => mul_comm _ _

theorem dot_smul_left (c : ℝ) (a b : Vec n) : dot (c • a) b = c * dot a b := by
  unfold dot
  rw [Finset.mul_sum]
  exact Finset.sum_congr rfl fun i _ => by simp [mul_assoc]

theorem dot_smul_right (c : ℝ) (a b : Vec n) : dot a (c • b) = c * dot a b := by
  rw [dot_comm, dot_smul_left, dot_comm]

theorem dot_add_right (a b c : Vec n) : dot a (b + c) = dot a b + dot a c := by
  unfold dot
  rw [← Finset.sum_add_distrib]
  exact Finset.sum_congr rfl fun i _ => by simp [mul_add]

theorem dot_self_nonneg (a : Vec n) : 0 ≤ dot a a :=
  Finset.sum_nonneg fun i _ => mul_self_nonneg (a i)

theorem norm_nonneg (a : Vec n) : 0 ≤ norm a := Real.sqrt_nonneg _

theorem norm_mul_self (a : Vec n) : norm a * norm a = dot a a :=
  Real.mul_self_sqrt (dot_self_nonneg a)

theorem norm_eq_zero_iff (a : Vec n) : norm a = 0 ↔ a = 0 := by
  unfold norm
  rw [Real.sqrt_eq_zero (dot_self_nonneg a)]
  constructor
  · intro h
    funext i
    have := (Finset.sum_eq_zero_iff_of_nonneg (fun i _ => mul_self_nonneg (a i))).1 h i (Finset.mem_univ i)
    simpa using this
  · rintro rfl
    simp [dot]

theorem norm_pos {a : Vec n} (h : a ≠ 0) : 0 < norm a :=
  lt_of_le_of_ne (norm_nonneg a) fun e => h ((norm_eq_zero_iff a).1 e.symm)

theorem norm_smul (c : ℝ) (a : Vec n) : norm (c • a) = |c| * norm a := by
  unfold norm
  rw [dot_smul_left, dot_smul_right, ← mul_assoc, Real.sqrt_mul (mul_self_nonneg c), Real.sqrt_mul_self_eq_abs]

theorem abs_dot_le (a b : Vec n) : |dot a b| ≤ norm a * norm b := by
  have h : dot a b ^ 2 ≤ dot a a * dot b b := by
    have := Finset.sum_mul_sq_le_sq_mul_sq Finset.univ a b
    simpa [dot, pow_two] using this
  have h2 : dot a b ^ 2 ≤ (norm a * norm b) ^ 2 := by
    calc dot a b ^ 2 ≤ dot a a * dot b b := h
      _ = (norm a * norm b) ^ 2 := by rw [← norm_mul_self a, ← norm_mul_self b]; ring
  exact abs_le_of_sq_le_sq h2 (mul_nonneg (norm_nonneg a) (norm_nonneg b))

theorem unitvec_eq (a : Vec n) : unitvec a = (1 / norm a) • a := by
  unfold unitvec
  split
  · rfl
  · rename_i h
    have h0 : norm a = 0 := le_antisymm (not_lt.1 h) (norm_nonneg a)
    rw [(norm_eq_zero_iff a).1 h0]
    simp

/-- The cosine of the angle between two vectors. -/
noncomputable def cosine (a b : Vec n) : ℝ := dot a b / (norm a * norm b)

theorem sim_eq (a b : Vec n) : sim a b = cosine a b := by
  unfold sim cosine
  rw [unitvec_eq, unitvec_eq, dot_smul_left, dot_smul_right, div_eq_mul_inv (dot a b), mul_inv]
  ring

theorem abs_cosine_le (a b : Vec n) : |cosine a b| ≤ 1 := by
  unfold cosine
  rw [abs_div, abs_of_nonneg (mul_nonneg (norm_nonneg a) (norm_nonneg b))]
  exact div_le_one_of_le₀ (abs_dot_le a b) (mul_nonneg (norm_nonneg a) (norm_nonneg b))

theorem cosine_comm (a b : Vec n) : cosine a b = cosine b a := by
  unfold cosine; rw [dot_comm, mul_comm (norm a)]

theorem cosine_smul (c : ℝ) (hc : 0 < c) (a b : Vec n) : cosine (c • a) b = cosine a b := by
  unfold cosine
  rw [dot_smul_left, norm_smul, abs_of_pos hc, mul_assoc, mul_div_mul_left _ _ hc.ne']

theorem cosine_self {a : Vec n} (h : a ≠ 0) : cosine a a = 1 := by
  unfold cosine
  rw [norm_mul_self]
  have : dot a a ≠ 0 := by
    rw [← norm_mul_self]
    exact mul_ne_zero (norm_pos h).ne' (norm_pos h).ne'
  exact div_self this

/-- **C97.** `similarity` of two stored words is the cosine of the angle between their vectors: symmetric,
between `-1` and `1`, `1` for a word with itself unless its vector is zero, the same for vectors of any
length; `distance` is one minus that. -/
theorem C97_similarity (kv : PyDict κ (Vec n)) (w1 w2 : κ) (a b : Vec n)
    (h1 : PyDict.get? kv w1 = some a) (h2 : PyDict.get? kv w2 = some b) :
    similarity kv w1 w2 = .ok (cosine a b) ∧ distance kv w1 w2 = .ok (1 - cosine a b) ∧
    similarity kv w2 w1 = similarity kv w1 w2 ∧ |cosine a b| ≤ 1 ∧
    (a ≠ 0 → similarity kv w1 w1 = .ok 1) ∧
    (∀ c : ℝ, 0 < c → cosine (c • a) b = cosine a b) := by
  have e : similarity kv w1 w2 = .ok (cosine a b) := by
    simp only [similarity, row, h1, h2, sim_eq]
  refine ⟨e, ?_, ?_, abs_cosine_le a b, ?_, fun c hc => cosine_smul c hc a b⟩
  · simp only [distance, e]
  · rw [e]
    simp only [similarity, row, h1, h2, sim_eq]
    rw [cosine_comm]
  · intro ha
    simp only [similarity, row, h1, sim_eq]
    rw [cosine_self ha]

theorem rows_ok (kv : PyDict κ (Vec n)) (vec : κ → Vec n) : ∀ ks : List κ,
    (∀ k ∈ ks, PyDict.get? kv k = some (vec k)) → rows kv ks = .ok (ks.map vec) := by
  intro ks
  induction ks with
  | nil => intro _; rfl
  | cons k ks ih =>
    intro h
    simp only [rows, row, h k (by simp), ih (fun x hx => h x (by simp [hx])), List.map_cons]

/-- **C97.** `distances(word, others)` gives the `distance` of the word to each of the others, in order,
although it is computed in another way.  (Findings.)  Without others it gives the distances to all words,
also when an empty list is passed; and a zero vector makes it undefined where `distance` says `1`. -/
theorem C97_distances (kv : PyDict κ (Vec n)) (word : κ) (v : Vec n)
    (hv : PyDict.get? kv word = some v) (vec : κ → Vec n) (others : List κ)
    (ho : ∀ k ∈ others, PyDict.get? kv k = some (vec k)) (hne : others ≠ []) (hv0 : v ≠ 0)
    (ho0 : ∀ k ∈ others, vec k ≠ 0) :
    (∃ ds : List ℝ, distances kv word others = .ok (ds.map some) ∧
      ds.length = others.length ∧
      ∀ (i : ℕ) k, others[i]? = some k → ∃ d, ds[i]? = some d ∧ distance kv word k = .ok d) ∧
    (distances kv word [] = .ok ((PyDict.values kv).map fun w =>
      if norm v * norm w = 0 then none else some (1 - cosine v w))) ∧
    (∀ z, PyDict.get? kv z = some 0 → distances kv word [z] = .ok [none] ∧ distance kv word z = .ok 1) := by
  refine ⟨⟨others.map fun k => 1 - cosine v (vec k), ?_, by simp, ?_⟩, ?_, ?_⟩
  · unfold distances
    simp only [row, hv, if_neg hne, rows_ok kv vec others ho]
    unfold cosineSimilarities
    simp only [List.map_map]
    congr 1
    apply List.map_congr_left
    intro k hk
    have : norm v * norm (vec k) ≠ 0 := mul_ne_zero (norm_pos hv0).ne' (norm_pos (ho0 k hk)).ne'
    simp only [Function.comp_apply, if_neg this, Option.map_some]
    rw [cosine, dot_comm]
  · intro i k hi
    have hk : k ∈ others := List.mem_of_getElem? hi
    exact ⟨_, by rw [List.getElem?_map, hi]; rfl, (C97_similarity kv word k v (vec k) hv (ho k hk)).2.1⟩
  · unfold distances cosineSimilarities
    simp only [row, hv, if_true, List.map_map]
    congr 1
    apply List.map_congr_left
    intro w _
    simp only [Function.comp_apply]
    by_cases h : norm v * norm w = 0
    · rw [if_pos h, if_pos h]; rfl
    · rw [if_neg h, if_neg h, Option.map_some, cosine, dot_comm]
  · intro z hz
    constructor
    · unfold distances cosineSimilarities
      have h0 : norm (0 : Vec n) = 0 := (norm_eq_zero_iff 0).2 rfl
      simp [row, hv, rows, hz, h0]
    · rw [(C97_similarity kv word z v 0 hv hz).2.1]
      have h0 : norm (0 : Vec n) = 0 := (norm_eq_zero_iff 0).2 rfl
      unfold cosine
      rw [h0]
      simp

/-! ### The scores of `most_similar` -/

/-- **C97.** The score `most_similar` reports for a word is the cosine between its vector and the weighted
mean of the inputs; so it lies between `-1` and `1`; for a single input word it is `similarity`. (Finding.)
If the inputs cancel out, every word has score `0`. -/
theorem C97_most_similar_scores (terms : List (ℝ × Vec n)) (v : Vec n) :
    score terms v = cosine v (mean (terms.map fun t => t.1 • t.2)) ∧ |score terms v| ≤ 1 ∧
    (∀ w : Vec n, w ≠ 0 → score [(1, normed w)] v = sim w v) ∧
    (∀ w : Vec n, score [(1, normed w), (-1, normed w)] v = 0) := by
  have key : ∀ t : List (ℝ × Vec n),
      score t v = cosine v (mean (t.map fun t => t.1 • t.2)) := by
    intro t
    unfold score target cosine
    simp only [unitvec_eq, dot_smul_right, div_eq_mul_inv, mul_inv]
    ring
  refine ⟨key terms, by rw [key]; exact abs_cosine_le _ _, ?_, ?_⟩
  · intro w hw
    rw [key, sim_eq, cosine_comm]
    have : mean ([((1 : ℝ), normed w)].map fun t => t.1 • t.2) = (1 / norm w) • w := by
      simp [mean, normed]
    rw [this]
    exact cosine_smul _ (one_div_pos.2 (norm_pos hw)) w v
  · intro w
    rw [key]
    have : mean ([((1 : ℝ), normed w), (-1, normed w)].map fun t => t.1 • t.2) = 0 := by
      simp [mean]
    rw [this]
    simp [cosine, dot]

/-! ### `most_similar_cosmul` -/

theorem norm_normed {w : Vec n} (h : w ≠ 0) : norm (normed w) = 1 := by
  unfold normed
  rw [norm_smul, abs_of_pos (one_div_pos.2 (norm_pos h)), one_div, inv_mul_cancel₀ (norm_pos h).ne']

theorem factor_eq {v w : Vec n} (hw : w ≠ 0) : factor v (normed w) = (1 + cosine w v) / 2 := by
  unfold factor normed
  rw [dot_smul_right, cosine_comm, cosine, one_div, mul_comm, ← div_eq_mul_inv, div_div, mul_comm (norm w)]

theorem factor_bounds {v w : Vec n} (hw : w ≠ 0) :
    0 ≤ factor v (normed w) ∧ factor v (normed w) ≤ 1 := by
  rw [factor_eq hw]
  have := abs_le.1 (abs_cosine_le w v)
  constructor <;> linarith [this.1, this.2]

theorem prod_map_nonneg {α : Type} (f : α → ℝ) : ∀ l : List α, (∀ x ∈ l, 0 ≤ f x) → 0 ≤ (l.map f).prod := by
  intro l
  induction l with
  | nil => intro _; simp
  | cons x l ih =>
    intro h
    rw [List.map_cons, List.prod_cons]
    exact mul_nonneg (h x (by simp)) (ih fun y hy => h y (by simp [hy]))

theorem prod_map_mono {α : Type} (f g : α → ℝ) : ∀ l : List α, (∀ x ∈ l, 0 ≤ f x ∧ f x ≤ g x) →
    (l.map f).prod ≤ (l.map g).prod := by
  intro l
  induction l with
  | nil => intro _; simp
  | cons x l ih =>
    intro h
    rw [List.map_cons, List.prod_cons, List.map_cons, List.prod_cons]
    have hx := h x (by simp)
    exact mul_le_mul hx.2 (ih fun y hy => h y (by simp [hy]))
      (prod_map_nonneg f l fun y hy => (h y (by simp [hy])).1) (hx.1.trans hx.2)

theorem prod_map_one {α : Type} : ∀ l : List α, (l.map fun _ => (1 : ℝ)).prod = 1 := by
  intro l; simp

/-- **C97.** For input words, the score of `most_similar_cosmul` is never negative and at most a million,
and a word that is at least as similar to every positive word and at most as similar to every negative word
never scores lower. -/
theorem C97_cosmul (pos neg : List (Vec n)) (hp : ∀ t ∈ pos, t ≠ 0) (hn : ∀ t ∈ neg, t ≠ 0)
    (v w : Vec n) :
    (0 ≤ cosmulScore (pos.map normed) (neg.map normed) v ∧
      cosmulScore (pos.map normed) (neg.map normed) v ≤ 1000000) ∧
    ((∀ t ∈ pos, sim t w ≤ sim t v) → (∀ t ∈ neg, sim t v ≤ sim t w) →
      cosmulScore (pos.map normed) (neg.map normed) w ≤ cosmulScore (pos.map normed) (neg.map normed) v) := by
  have hP : ∀ x : Vec n, 0 ≤ ((pos.map normed).map (factor x)).prod := by
    intro x
    rw [List.map_map]
    exact prod_map_nonneg _ pos fun t ht => (factor_bounds (hp t ht)).1
  have hP1 : ∀ x : Vec n, ((pos.map normed).map (factor x)).prod ≤ 1 := by
    intro x
    rw [List.map_map, ← prod_map_one pos]
    exact prod_map_mono _ _ pos fun t ht => factor_bounds (hp t ht)
  have hN : ∀ x : Vec n, 0 ≤ ((neg.map normed).map (factor x)).prod := by
    intro x
    rw [List.map_map]
    exact prod_map_nonneg _ neg fun t ht => (factor_bounds (hn t ht)).1
  unfold cosmulScore
  refine ⟨⟨div_nonneg (hP v) (by linarith [hN v]), ?_⟩, ?_⟩
  · rw [div_le_iff₀ (by linarith [hN v])]
    have := hN v
    have := hP1 v
    linarith
  · intro h1 h2
    apply div_le_div₀ (hP v)
    · rw [List.map_map, List.map_map]
      refine prod_map_mono _ _ pos fun t ht => ⟨(factor_bounds (hp t ht)).1, ?_⟩
      simp only [Function.comp_apply, factor_eq (hp t ht)]
      have := h1 t ht
      rw [sim_eq, sim_eq] at this
      linarith
    · linarith [hN v]
    · have : ((neg.map normed).map (factor v)).prod ≤ ((neg.map normed).map (factor w)).prod := by
        rw [List.map_map, List.map_map]
        refine prod_map_mono _ _ neg fun t ht => ⟨(factor_bounds (hn t ht)).1, ?_⟩
        simp only [Function.comp_apply, factor_eq (hn t ht)]
        have := h2 t ht
        rw [sim_eq, sim_eq] at this
        linarith
      linarith

theorem dot_one (a b : ℝ) : dot (fun _ : Fin 1 => a) (fun _ => b) = a * b := by simp [dot]

theorem norm_one (a : ℝ) : norm (fun _ : Fin 1 => a) = |a| := by
  unfold norm
  rw [dot_one, Real.sqrt_mul_self_eq_abs]

/-- **C97 (finding).** Vectors passed to `most_similar_cosmul` in place of words are not normalised: with
two copies of a vector of length three, the word opposite to it scores as high as one would for a word
orthogonal to it at least, and above `0`; the more opposite word beats a neutral one. -/
theorem C97_cosmul_vectors :
    let t : Vec 1 := fun _ => 5
    let opposite : Vec 1 := fun _ => -1
    cosine t opposite = -1 ∧ cosmulScore [t, t] [] opposite = 4 * (1000000 / 1000001) ∧
    ∀ neutral : Vec 1, dot neutral t = 0 → cosmulScore [t, t] [] neutral < cosmulScore [t, t] [] opposite := by
  intro t opposite
  have h1 : cosine t opposite = -1 := by
    simp only [cosine, t, opposite, dot_one, norm_one]; norm_num
  have h2 : cosmulScore [t, t] [] opposite = 4 * (1000000 / 1000001) := by
    simp only [cosmulScore, factor, t, opposite, dot_one, norm_one, List.map_cons, List.map_nil,
      List.prod_cons, List.prod_nil]
    norm_num
  refine ⟨h1, h2, ?_⟩
  intro x hx
  rw [h2]
  simp only [cosmulScore, factor, hx, List.map_cons, List.map_nil, List.prod_cons, List.prod_nil]
  norm_num

/-! ### `n_similarity` -/

theorem rows_perm (kv : PyDict κ (Vec n)) {a b : List κ} (h : a.Perm b) (va : List (Vec n))
    (ha : rows kv a = .ok va) : ∃ vb, rows kv b = .ok vb ∧ va.Perm vb := by
  have hk : ∀ (l : List κ) (vs : List (Vec n)), rows kv l = .ok vs →
      ∀ k ∈ l, ∃ v, PyDict.get? kv k = some v := by
    intro l
    induction l with
    | nil => simp
    | cons x l ih =>
      intro vs h k hk
      simp only [rows, row] at h
      cases hg : PyDict.get? kv x with
      | none => rw [hg] at h; cases h
      | some v =>
        rw [hg] at h
        simp only at h
        cases hr : rows kv l with
        | error e => rw [hr] at h; cases h
        | ok ws =>
          rcases List.mem_cons.1 hk with rfl | hk
          · exact ⟨v, hg⟩
          · exact ih ws hr k hk
  have hall := hk a va ha
  let vec : κ → Vec n := fun k => (PyDict.get? kv k).getD 0
  have hvec : ∀ k ∈ a, PyDict.get? kv k = some (vec k) := by
    intro k hk
    obtain ⟨v, hv⟩ := hall k hk
    simp [vec, hv]
  have e1 := rows_ok kv vec a hvec
  have e2 := rows_ok kv vec b (fun k hk => hvec k (h.mem_iff.2 hk))
  rw [e1] at ha
  cases ha
  exact ⟨b.map vec, e2, h.map vec⟩

theorem mean_perm {a b : List (Vec n)} (h : a.Perm b) : mean a = mean b := by
  unfold mean
  rw [h.length_eq, h.sum_eq]

/-- **C97.** `n_similarity` of two lists of stored words is the cosine between their mean vectors: symmetric,
between `-1` and `1`, independent of the order of the words, and `similarity` for single words; an empty list
is a `ZeroDivisionError`, an unknown word a `KeyError`. -/
theorem C97_n_similarity (kv : PyDict κ (Vec n)) (vec : κ → Vec n) (ws1 ws2 : List κ)
    (h1 : ∀ k ∈ ws1, PyDict.get? kv k = some (vec k)) (h2 : ∀ k ∈ ws2, PyDict.get? kv k = some (vec k))
    (hn1 : ws1 ≠ []) (hn2 : ws2 ≠ []) :
    let c := cosine (mean (ws1.map vec)) (mean (ws2.map vec))
    nSimilarity kv ws1 ws2 = .ok c ∧ nSimilarity kv ws2 ws1 = .ok c ∧ |c| ≤ 1 ∧
    (∀ a b, a.Perm ws1 → b.Perm ws2 → nSimilarity kv a b = .ok c) ∧
    (∀ a b, ws1 = [a] → ws2 = [b] → nSimilarity kv [a] [b] = similarity kv a b) ∧
    (∀ ws, nSimilarity kv [] ws = .error .zeroDiv ∧ nSimilarity kv ws [] = .error .zeroDiv) ∧
    (∀ u rest, PyDict.get? kv u = none → nSimilarity kv (u :: rest) ws2 = .error .key) := by
  intro c
  have key : ∀ a b : List κ, (∀ k ∈ a, PyDict.get? kv k = some (vec k)) →
      (∀ k ∈ b, PyDict.get? kv k = some (vec k)) → a ≠ [] → b ≠ [] →
      nSimilarity kv a b = .ok (cosine (mean (a.map vec)) (mean (b.map vec))) := by
    intro a b ha hb hna hnb
    unfold nSimilarity
    rw [if_neg (by push Not; exact ⟨hna, hnb⟩), rows_ok kv vec a ha, rows_ok kv vec b hb]
    simp only [← sim_eq]
    rfl
  refine ⟨key _ _ h1 h2 hn1 hn2, ?_, abs_cosine_le _ _, ?_, ?_, ?_, ?_⟩
  · rw [key _ _ h2 h1 hn2 hn1, cosine_comm]
  · intro a b ha hb
    rw [key a b (fun k hk => h1 k (ha.mem_iff.1 hk)) (fun k hk => h2 k (hb.mem_iff.1 hk))
      (fun e => hn1 (by rw [e] at ha; exact ha.symm.eq_nil)) (fun e => hn2 (by rw [e] at hb; exact hb.symm.eq_nil)),
      mean_perm (ha.map vec), mean_perm (hb.map vec)]
  · rintro a b rfl rfl
    rw [key [a] [b] h1 h2 (by simp) (by simp),
      (C97_similarity kv a b (vec a) (vec b) (h1 a (by simp)) (h2 b (by simp))).1]
    simp [mean]
  · intro ws
    exact ⟨by simp [nSimilarity], by simp [nSimilarity]⟩
  · intro u rest hu
    simp [nSimilarity, hn2, rows, row, hu]

/-! ### `most_similar_to_given` -/

theorem argmax_spec : ∀ l : List ℝ, l ≠ [] →
    argmax l < l.length ∧ (∀ i < l.length, l.getD i 0 ≤ l.getD (argmax l) 0) ∧
      ∀ i < argmax l, l.getD i 0 < l.getD (argmax l) 0 := by
  intro l
  induction l with
  | nil => intro h; exact absurd rfl h
  | cons x l ih =>
    intro _
    cases l with
    | nil =>
      refine ⟨by simp [argmax], ?_, by simp [argmax]⟩
      intro i hi
      have : i = 0 := by simpa using hi
      subst this
      simp [argmax]
    | cons y l =>
      obtain ⟨h1, h2, h3⟩ := ih (by simp)
      simp only [argmax]
      split
      · rename_i hle
        refine ⟨by simp, ?_, by simp⟩
        intro i hi
        cases i with
        | zero => simp
        | succ i =>
          have := h2 i (by simpa using hi)
          simp only [List.getD_cons_succ, List.getD_cons_zero] at this ⊢
          exact this.trans hle
      · rename_i hgt
        refine ⟨by simpa using h1, ?_, ?_⟩
        · intro i hi
          cases i with
          | zero => simp only [List.getD_cons_succ, List.getD_cons_zero]; exact (not_le.1 hgt).le
          | succ i =>
            simp only [List.getD_cons_succ]
            exact h2 i (by simpa using hi)
        · intro i hi
          cases i with
          | zero => simp only [List.getD_cons_succ, List.getD_cons_zero]; exact not_le.1 hgt
          | succ i =>
            simp only [List.getD_cons_succ]
            exact h3 i (by omega)

theorem similarities_ok (kv : PyDict κ (Vec n)) (w : κ) (v : Vec n) (hv : PyDict.get? kv w = some v)
    (vec : κ → Vec n) : ∀ ks : List κ, (∀ k ∈ ks, PyDict.get? kv k = some (vec k)) →
    similarities kv w ks = .ok (ks.map fun k => cosine v (vec k)) := by
  intro ks
  induction ks with
  | nil => intro _; rfl
  | cons k ks ih =>
    intro h
    have hs := (C97_similarity kv w k v (vec k) hv (h k (by simp))).1
    simp only [similarities, hs, ih (fun x hx => h x (by simp [hx])), List.map_cons]

/-- **C97.** `most_similar_to_given(key, keys)` returns the first of the keys with the highest `similarity`;
an empty list is an error. -/
theorem C97_most_similar_to_given (kv : PyDict κ (Vec n)) (w : κ) (v : Vec n)
    (hv : PyDict.get? kv w = some v) (vec : κ → Vec n) (ks : List κ)
    (hk : ∀ k ∈ ks, PyDict.get? kv k = some (vec k)) (hne : ks ≠ []) :
    (∃ i k, ks[i]? = some k ∧ mostSimilarToGiven kv w ks = .ok k ∧
      (∀ x ∈ ks, cosine v (vec x) ≤ cosine v (vec k)) ∧
      ∀ (j : ℕ) x, j < i → ks[j]? = some x → cosine v (vec x) < cosine v (vec k)) ∧
    mostSimilarToGiven kv w [] = .error .value := by
  refine ⟨?_, by simp [mostSimilarToGiven, similarities]⟩
  have hs := similarities_ok kv w v hv vec ks hk
  obtain ⟨h1, h2, h3⟩ := argmax_spec (ks.map fun k => cosine v (vec k)) (by simpa using hne)
  set i := argmax (ks.map fun k => cosine v (vec k)) with hi
  have hlt : i < ks.length := by simpa using h1
  have hget : ∀ (j : ℕ) (hj : j < ks.length),
      (ks.map fun k => cosine v (vec k)).getD j 0 = cosine v (vec ks[j]) := by
    intro j hj
    rw [List.getD_eq_getElem?_getD, List.getElem?_map, List.getElem?_eq_getElem hj]
    rfl
  refine ⟨i, ks[i], List.getElem?_eq_getElem hlt, ?_, ?_, ?_⟩
  · unfold mostSimilarToGiven
    rw [hs]
    simp only [← hi, List.getElem?_eq_getElem hlt]
  · intro x hx
    obtain ⟨j, hj, rfl⟩ := List.getElem_of_mem hx
    have := h2 j (by simpa using hj)
    rw [hget j hj, hget i hlt] at this
    exact this
  · intro j x hj hx
    obtain ⟨hj', rfl⟩ := List.getElem?_eq_some_iff.1 hx
    have := h3 j hj
    rw [hget j hj', hget i hlt] at this
    exact this

/-! ### `rank_by_centrality` and `doesnt_match` -/

section Central

variable [LinearOrder κ]

theorem before_total (a b : ℝ × κ) : before a b = true ∨ before b a = true := by
  unfold before
  rcases lt_trichotomy a.1 b.1 with h | h | h
  · right; simp [h]
  · rcases le_total a.2 b.2 with h' | h'
    · right; simp [h, h']
    · left; simp [h, h']
  · left; simp [h]

theorem before_trans (a b c : ℝ × κ) (h1 : before a b = true) (h2 : before b c = true) :
    before a c = true := by
  unfold before at *
  simp only [decide_eq_true_eq] at *
  rcases h1 with h1 | ⟨h1, h1'⟩ <;> rcases h2 with h2 | ⟨h2, h2'⟩
  · exact Or.inl (h2.trans h1)
  · exact Or.inl (h2 ▸ h1)
  · exact Or.inl (h1 ▸ h2)
  · exact Or.inr ⟨h2.trans h1, h2'.trans h1'⟩

theorem before_antisymm (a b : ℝ × κ) (h1 : before a b = true) (h2 : before b a = true) : a = b := by
  unfold before at *
  simp only [decide_eq_true_eq] at *
  rcases h1 with h1 | ⟨h1, h1'⟩ <;> rcases h2 with h2 | ⟨h2, h2'⟩
  · exact absurd h1 (lt_asymm h2)
  · exact absurd h1 (by rw [h2]; exact lt_irrefl _)
  · exact absurd h2 (by rw [h1]; exact lt_irrefl _)
  · exact Prod.ext h2 (le_antisymm h2' h1')

/-- The centre of some words: the normalised mean of their vectors. -/
noncomputable def centre (useNorm : Bool) (vec : κ → Vec n) (words : List κ) : Vec n :=
  unitvec (mean (words.map fun w => vectorFor useNorm (vec w)))

/-- How central a word is: the product of its vector and the centre. -/
noncomputable def centrality (useNorm : Bool) (vec : κ → Vec n) (words : List κ) (w : κ) : ℝ :=
  dot (vectorFor useNorm (vec w)) (centre useNorm vec words)

theorem rank_eq (kv : PyDict κ (Vec n)) (vec : κ → Vec n) (words : List κ) (useNorm : Bool)
    (hvec : ∀ w v, PyDict.get? kv w = some v → vec w = v) :
    rankByCentrality kv words useNorm =
      if (words.filter fun w => kv.contains w) = [] then .error .value
      else .ok (pySort before ((words.filter fun w => kv.contains w).map fun w =>
        (centrality useNorm vec (words.filter fun w => kv.contains w) w, w))) := by
  unfold rankByCentrality
  simp only
  split
  · rfl
  · set used := words.filter fun w => kv.contains w with hused
    have hk : ∀ k ∈ used, PyDict.get? kv k = some (vec k) := by
      intro k hk
      rw [hused, List.mem_filter] at hk
      have := (PyDict.contains_iff _ _).1 hk.2
      obtain ⟨v, hv⟩ := Option.isSome_iff_exists.1 ((PyDict.get?_isSome_iff _ _).2 this)
      rw [hvec k v hv]
      exact hv
    rw [rows_ok kv vec used hk]
    simp only [List.map_map]
    congr 2
    have hzip : ∀ (f : κ → ℝ) (l : List κ), (l.map f).zip l = l.map fun w => (f w, w) := by
      intro f l
      induction l with
      | nil => rfl
      | cons x l ih => simp [ih]
    exact hzip _ used

/-- **C97.** `rank_by_centrality(words)` lists exactly the known words, as often as they were given, each
with the product of its vector and the normalised mean of all of them, from the most to the least central
(ties by word, descending); without any known word it is a `ValueError`. -/
theorem C97_rank_by_centrality (kv : PyDict κ (Vec n)) (vec : κ → Vec n) (words : List κ)
    (useNorm : Bool) (hvec : ∀ w v, PyDict.get? kv w = some v → vec w = v) :
    let known := words.filter fun w => kv.contains w
    (known = [] → rankByCentrality kv words useNorm = .error .value) ∧
    (known ≠ [] → ∃ l, rankByCentrality kv words useNorm = .ok l ∧
      l.Perm (known.map fun w => (centrality useNorm vec known w, w)) ∧
      l.Pairwise fun a b => b.1 < a.1 ∨ (b.1 = a.1 ∧ b.2 ≤ a.2)) := by
  intro known
  have h := rank_eq kv vec words useNorm hvec
  constructor
  · intro hk
    rw [h, if_pos hk]
  · intro hk
    rw [if_neg hk] at h
    refine ⟨_, h, pySort_perm _ _, ?_⟩
    have := pySort_sorted (le := before) before_total before_trans
      (known.map fun w => (centrality useNorm vec known w, w))
    refine this.imp ?_
    intro a b hab
    simpa [before] using hab

/-- **C97.** `doesnt_match(words)` returns one of the known words, the least central one (the smallest of
these if there are several), and its answer does not depend on the order of the words. -/
theorem C97_doesnt_match (kv : PyDict κ (Vec n)) (vec : κ → Vec n) (words : List κ)
    (hvec : ∀ w v, PyDict.get? kv w = some v → vec w = v)
    (hne : (words.filter fun w => kv.contains w) ≠ []) :
    (∃ w, doesntMatch kv words = .ok w ∧ w ∈ words ∧ kv.contains w = true ∧
      ∀ x ∈ words, kv.contains x = true →
        centrality true vec (words.filter fun w => kv.contains w) w
          < centrality true vec (words.filter fun w => kv.contains w) x ∨
        (centrality true vec (words.filter fun w => kv.contains w) w
          = centrality true vec (words.filter fun w => kv.contains w) x ∧ w ≤ x)) ∧
    ∀ words', words'.Perm words → doesntMatch kv words' = doesntMatch kv words := by
  obtain ⟨l, hl, hperm, hsort⟩ := (C97_rank_by_centrality kv vec words true hvec).2 hne
  set known := words.filter fun w => kv.contains w with hknown
  have hl0 : l ≠ [] := by
    intro e
    rw [e] at hperm
    have := hperm.symm.eq_nil
    rw [List.map_eq_nil_iff] at this
    exact hne this
  constructor
  · have hlast : l.getLast? = some (l.getLast hl0) := List.getLast?_eq_getLast_of_ne_nil hl0
    have hmem := hperm.mem_iff.1 (List.getLast_mem hl0)
    obtain ⟨w, hw, ew⟩ := List.mem_map.1 hmem
    rw [hknown, List.mem_filter] at hw
    refine ⟨w, ?_, hw.1, hw.2, ?_⟩
    · unfold doesntMatch
      rw [hl]
      simp only [hlast]
      rw [← ew]
    · intro x hx hxk
      have hxm : (centrality true vec known x, x) ∈ l := by
        refine hperm.mem_iff.2 (List.mem_map.2 ⟨x, ?_, rfl⟩)
        rw [hknown, List.mem_filter]
        exact ⟨hx, hxk⟩
      have hrel : ∀ a ∈ l, a = l.getLast hl0 ∨
          ((l.getLast hl0).1 < a.1 ∨ ((l.getLast hl0).1 = a.1 ∧ (l.getLast hl0).2 ≤ a.2)) := by
        intro a ha
        have hdec := List.dropLast_append_getLast hl0
        rw [← hdec] at hsort ha
        rcases List.mem_append.1 ha with h | h
        · right
          exact (List.pairwise_append.1 hsort).2.2 a h _ (by simp)
        · left
          simpa using h
      rcases hrel _ hxm with h | h
      · rw [← ew] at h
        have : x = w := congrArg Prod.snd h
        right
        rw [this]
        exact ⟨rfl, le_refl _⟩
      · rw [← ew] at h
        exact h
  · intro words' hp
    have hk' : (words'.filter fun w => kv.contains w).Perm known := hp.filter _
    have hne' : (words'.filter fun w => kv.contains w) ≠ [] := by
      intro e
      rw [e] at hk'
      exact hne hk'.symm.eq_nil
    have hc : ∀ w, centrality true vec (words'.filter fun w => kv.contains w) w
        = centrality true vec known w := by
      intro w
      unfold centrality centre
      rw [mean_perm (hk'.map _)]
    obtain ⟨l', hl', hperm', hsort'⟩ := (C97_rank_by_centrality kv vec words' true hvec).2 hne'
    have hll : l' = l := by
      have hp2 : l'.Perm l := by
        refine hperm'.trans (((hk'.map _).trans ?_).trans hperm.symm)
        simp only [hc]
        exact List.Perm.refl _
      refine List.Perm.eq_of_pairwise (le := fun a b => before a b = true) ?_ ?_ ?_ hp2
      · intro a b _ _ h1 h2
        exact before_antisymm a b h1 h2
      · exact hsort'.imp fun h => by simpa [before] using h
      · exact hsort.imp fun h => by simpa [before] using h
    unfold doesntMatch
    rw [hl', hl, hll]

/-- **C97 (finding).** Of two words with different vectors, neither is closer to their mean: whatever the
vectors, `doesnt_match` returns the one that comes first in the alphabet. -/
theorem C97_doesnt_match_two (kv : PyDict κ (Vec n)) (a b : κ) (va vb : Vec n)
    (ha : PyDict.get? kv a = some va) (hb : PyDict.get? kv b = some vb) (h1 : va ≠ 0) (h2 : vb ≠ 0) :
    doesntMatch kv [a, b] = .ok (min a b) := by
  let vec : κ → Vec n := fun k => (PyDict.get? kv k).getD 0
  have hvec : ∀ w v, PyDict.get? kv w = some v → vec w = v := by
    intro w v h; simp [vec, h]
  have hca : kv.contains a = true := (PyDict.contains_iff _ _).2 ((PyDict.get?_isSome_iff _ _).1 (by rw [ha]; rfl))
  have hcb : kv.contains b = true := (PyDict.contains_iff _ _).2 ((PyDict.get?_isSome_iff _ _).1 (by rw [hb]; rfl))
  have hk : ([a, b].filter fun w => kv.contains w) = [a, b] := by simp [hca, hcb]
  obtain ⟨⟨w, hw, hmem, _, hmin⟩, _⟩ := C97_doesnt_match kv vec [a, b] hvec (by rw [hk]; simp)
  rw [hk] at hmin
  have heq : centrality true vec [a, b] a = centrality true vec [a, b] b := by
    have hu : ∀ v : Vec n, v ≠ 0 → dot (normed v) (normed v) = 1 := by
      intro v hv
      rw [← norm_mul_self, norm_normed hv, mul_one]
    unfold centrality centre
    rw [unitvec_eq, dot_smul_right, dot_smul_right]
    congr 1
    unfold mean
    rw [dot_smul_right, dot_smul_right]
    congr 1
    simp only [List.map_cons, List.map_nil, List.sum_cons, List.sum_nil, add_zero, vectorFor, if_true,
      hvec a va ha, hvec b vb hb]
    rw [dot_add_right, dot_add_right, hu va h1, hu vb h2, dot_comm (normed vb) (normed va)]
    ring
  rw [hw]
  congr 1
  rcases List.mem_cons.1 hmem with rfl | hmem
  · rcases hmin b (by simp) hcb with h | ⟨_, h⟩
    · exact absurd h (by rw [heq]; exact lt_irrefl _)
    · exact (min_eq_left h).symm
  · have : w = b := by simpa using hmem
    subst this
    rcases hmin a (by simp) hca with h | ⟨_, h⟩
    · exact absurd h (by rw [heq]; exact lt_irrefl _)
    · exact (min_eq_right h).symm

end Central

/-! ### `relative_cosine_similarity` -/

/-- **C97.** With the scores of `similar_by_word` (which are `similarity` values, C97_most_similar_scores)
the relative cosine similarities of a word to its `topn` most similar words add up to `1`. (Findings.)  A
word without any other word in the vocabulary is an `AssertionError`; similarities that cancel out are a
`ZeroDivisionError`. -/
theorem C97_relative_cosine (kv : PyDict κ (Vec n)) (wa : κ) (sims : List (κ × ℝ))
    (hs : ∀ p ∈ sims, similarity kv wa p.1 = .ok p.2) :
    ((sims.map Prod.snd).sum ≠ 0 →
      ∃ r : κ → ℝ, (∀ p ∈ sims, relativeCosine kv wa p.1 sims = .ok (r p.1)) ∧
        (sims.map fun p => r p.1).sum = 1) ∧
    (∀ wb, relativeCosine kv wa wb [] = .error .assertion) ∧
    (sims ≠ [] → (sims.map Prod.snd).sum = 0 →
      ∀ p ∈ sims, relativeCosine kv wa p.1 sims = .error .zeroDiv) := by
  refine ⟨?_, fun wb => by simp [relativeCosine], ?_⟩
  · intro hsum
    have hne : sims ≠ [] := by rintro rfl; simp at hsum
    let r : κ → ℝ := fun k => match similarity kv wa k with
      | .ok s => s / (sims.map Prod.snd).sum
      | .error _ => 0
    have hr : ∀ p ∈ sims, r p.1 = p.2 / (sims.map Prod.snd).sum := by
      intro p hp
      simp only [r, hs p hp]
    refine ⟨r, ?_, ?_⟩
    · intro p hp
      unfold relativeCosine
      simp only [if_neg hne, hs p hp, if_neg hsum, hr p hp]
    · rw [List.map_congr_left hr]
      have : (sims.map fun p => p.2 / (sims.map Prod.snd).sum)
          = (sims.map Prod.snd).map fun x => x / (sims.map Prod.snd).sum := by
        rw [List.map_map]; rfl
      rw [this]
      have hdiv : ∀ (c : ℝ) (l : List ℝ), (l.map fun x => x / c).sum = l.sum / c := by
        intro c l
        induction l with
        | nil => simp
        | cons x l ih => simp [ih, add_div]
      rw [hdiv, div_self hsum]
  · intro hne hsum p hp
    unfold relativeCosine
    simp only [if_neg hne, hs p hp, if_pos hsum]

/-! ### `predict_output_word` -/

/-- **C97.** `predict_output_word` answers with a probability distribution over the whole vocabulary (all
values positive, sum one), of which it returns the `topn` most probable words, most probable first; unknown
context words are ignored, the order of the context does not matter, and without any known word the answer
is `None`. -/
theorem C97_predict_output_word (srt : List ℝ → List ℕ) (part : List ℝ → ℕ → List ℕ)
    (hs : Matutils.SortOk srt) (hp : Matutils.PartOk part) (kv : PyDict κ (Vec n)) (outs : List (Vec n))
    (hlen : outs.length = (PyDict.keys kv).length) (cbowMean : Bool) (context : List κ) (topn : ℕ) :
    ((∀ w ∈ context, PyDict.get? kv w = none) →
      predictOutputWord srt part kv outs cbowMean context topn = none) ∧
    ((∃ w ∈ context, PyDict.get? kv w ≠ none) →
      ∃ (l1 : Vec n) (rows : List ℕ),
        let vs := (context.filter fun w => (PyDict.get? kv w).isSome).filterMap (PyDict.get? kv)
        l1 = (if cbowMean then (1 / (vs.length : ℝ)) • vs.sum else vs.sum) ∧
        (∀ p ∈ probabilities l1 outs, 0 < p) ∧ (probabilities l1 outs).sum = 1 ∧
        Matutils.TopPositions (fun i => (probabilities l1 outs).getD i 0) (PyDict.keys kv).length topn rows ∧
        predictOutputWord srt part kv outs cbowMean context topn
          = some (rows.map fun i => ((PyDict.keys kv)[i]?, (probabilities l1 outs).getD i 0))) ∧
    (∀ context', context'.Perm context → predictOutputWord srt part kv outs cbowMean context' topn
      = predictOutputWord srt part kv outs cbowMean context topn) := by
  refine ⟨?_, ?_, ?_⟩
  · intro h
    have : context.filterMap (fun w => PyDict.get? kv w) = [] := by
      rw [List.filterMap_eq_nil_iff]; exact h
    simp [predictOutputWord, hidden, this]
  · rintro ⟨w, hw, hsome⟩
    have hne : context.filterMap (fun w => PyDict.get? kv w) ≠ [] := by
      intro h
      rw [List.filterMap_eq_nil_iff] at h
      exact hsome (h w hw)
    have hvs : (context.filter fun w => (PyDict.get? kv w).isSome).filterMap (PyDict.get? kv)
        = context.filterMap fun w => PyDict.get? kv w := by
      rw [List.filterMap_filter]
      apply List.filterMap_congr
      intro x _
      cases PyDict.get? kv x <;> simp
    have houts : outs ≠ [] := by
      obtain ⟨v, hv⟩ := Option.ne_none_iff_exists'.1 hsome
      have hk : w ∈ PyDict.keys kv := (PyDict.get?_isSome_iff _ _).1 (by rw [hv]; rfl)
      intro e
      rw [e] at hlen
      have := List.length_pos_of_mem hk
      simp only [List.length_nil] at hlen
      omega
    set vs := context.filterMap fun w => PyDict.get? kv w with hvsdef
    set l1 : Vec n := if cbowMean then (1 / (vs.length : ℝ)) • vs.sum else vs.sum with hl1
    have hpos : 0 < (outs.map fun o => Real.exp (dot l1 o)).sum := by
      apply List.sum_pos
      · intro x hx
        obtain ⟨o, _, rfl⟩ := List.mem_map.1 hx
        exact Real.exp_pos _
      · simpa using houts
    have hpl : (probabilities l1 outs).length = (PyDict.keys kv).length := by
      simp [probabilities, hlen]
    refine ⟨l1, Matutils.argsort srt part (probabilities l1 outs) topn true, ?_, ?_, ?_, ?_, ?_⟩
    · rw [hvs]
    · intro p hp'
      unfold probabilities at hp'
      obtain ⟨x, hx, rfl⟩ := List.mem_map.1 hp'
      obtain ⟨o, _, rfl⟩ := List.mem_map.1 hx
      exact div_pos (Real.exp_pos _) hpos
    · unfold probabilities
      have hdiv : ∀ (c : ℝ) (l : List ℝ), (l.map fun x => x / c).sum = l.sum / c := by
        intro c l
        induction l with
        | nil => simp
        | cons x l ih => simp [ih, add_div]
      simp only [hdiv]
      exact div_self hpos.ne'
    · have := Matutils.argsort_reverse srt part hs hp (probabilities l1 outs) (topn : ℤ)
      rw [hpl, Int.toNat_natCast] at this
      exact this
    · unfold predictOutputWord hidden
      simp only [← hvsdef, if_neg hne, ← hl1]
  · intro context' hperm
    have hv : (context'.filterMap fun w => PyDict.get? kv w).Perm
        (context.filterMap fun w => PyDict.get? kv w) := hperm.filterMap _
    have hh : hidden kv cbowMean context' = hidden kv cbowMean context := by
      unfold hidden
      simp only [hv.length_eq, hv.sum_eq]
      by_cases he : (context.filterMap fun w => PyDict.get? kv w) = []
      · have he' : (context'.filterMap fun w => PyDict.get? kv w) = [] := by
          rw [he] at hv; exact hv.eq_nil
        rw [if_pos he, if_pos he']
      · have he' : ¬ (context'.filterMap fun w => PyDict.get? kv w) = [] := by
          intro e; rw [e] at hv; exact he hv.symm.eq_nil
        rw [if_neg he, if_neg he']
    unfold predictOutputWord
    rw [hh]

/-! ### Examples -/

/-- Two words on a line. -/
noncomputable def exampleKv : PyDict ℕ (Vec 1) := [(0, fun _ => 2), (1, fun _ => -3)]

example : PyDict.get? exampleKv 0 = some (fun _ => 2) ∧ PyDict.get? exampleKv 1 = some (fun _ => -3) ∧
    (fun _ => 2 : Vec 1) ≠ 0 ∧ (fun _ => -3 : Vec 1) ≠ 0 := by
  refine ⟨by simp [exampleKv, PyDict.get?], by simp [exampleKv, PyDict.get?], ?_, ?_⟩
  · intro h; have := congrFun h 0; norm_num at this
  · intro h; have := congrFun h 0; norm_num at this

example : similarity exampleKv 0 1 = .ok (-1) := by
  have h := (C97_similarity exampleKv 0 1 (fun _ => 2) (fun _ => -3) (by simp [exampleKv, PyDict.get?])
    (by simp [exampleKv, PyDict.get?])).1
  rw [h]
  simp only [cosine, dot_one, norm_one]
  norm_num

end Verif.KvGeom

import Verif.MatSim.Props

/-!
# C109: queries that are matrices
-/

namespace Verif.MatSim
open Verif Matutils

variable (srt : List ℝ → List Nat) (part : List ℝ → Nat → List Nat)

/-- the rows of a matrix, written out -/
noncomputable def full (n : Nat) (d : Doc) : List ℝ := (List.range n).map (weight d)

/-- **C109** A dense index asked with a scipy matrix or with a two-dimensional array answers every row by the cosines
multiplied with the length of the row: matrices are not normalised, even if the index normalises its queries. -/
theorem C109_matrix {n : Nat} (hn : 0 < n) {docs : List Doc} (hd : ∀ d ∈ docs, Clean n d)
    (numBest : Option Int) (qs : List Doc) :
    matQuery srt part (some n) docs numBest (.csr qs) =
      .ok (replies srt part numBest (qs.map fun q => docs.map fun d => len n q * cosine n q d)) ∧
    matQuery srt part (some n) docs numBest (.rows (qs.map (full n))) =
      .ok (replies srt part numBest (qs.map fun q => docs.map fun d => len n q * cosine n q d)) := by
  have hcos : ∀ q d, ∑ t ∈ Finset.range n, weight d t / len n d * weight q t = len n q * cosine n q d := by
    intro q d
    by_cases h0 : len n q = 0
    · rw [h0, zero_mul]
      exact Finset.sum_eq_zero fun t ht => by rw [weight_of_len h0 (Finset.mem_range.1 ht), mul_zero]
    · rw [← inner_unit, Finset.mul_sum]
      refine Finset.sum_congr rfl fun t _ => ?_
      field_simp
  unfold matQuery
  rw [matBuild_eq hn hd]
  constructor
  · simp only [getitem, normQuery, asPython, matSims, if_true, List.map_map]
    rw [clip_mat]
    congr 3
    funext q
    apply List.map_congr_left
    intro d _
    simp only [Function.comp, denseUnit]
    rw [show ((List.range n).map fun t => ((q.filter fun p => decide (p.1 = t)).map fun x => x.2).sum) =
      (List.range n).map (weight q) from rfl, dot_range]
    exact hcos q d
  · simp only [getitem, normQuery, asPython, matSims, if_true]
    rw [if_pos (by simp [full])]
    simp only [List.map_map]
    rw [clip_mat]
    congr 3
    funext q
    apply List.map_congr_left
    intro d _
    simp only [Function.comp, denseUnit, full]
    rw [dot_range]
    exact hcos q d

/-- **C109** A two-dimensional array of the wrong width is refused. -/
theorem C109_matrix_width {n : Nat} (hn : 0 < n) {docs : List Doc} (hd : ∀ d ∈ docs, Clean n d) (numBest : Option Int)
    (m : List (List ℝ)) (hm : ∃ r ∈ m, r.length ≠ n) :
    matQuery srt part (some n) docs numBest (.rows m) = .error .value := by
  unfold matQuery
  rw [matBuild_eq hn hd]
  simp only [getitem, normQuery, asPython, matSims, if_true]
  rw [if_neg]
  obtain ⟨r, hr, hne⟩ := hm
  intro h
  rw [List.all_eq_true] at h
  exact hne (by simpa using h r hr)

end Verif.MatSim

import Verif.Matutils.SparseModel
import Mathlib.Data.List.Perm.Basic
import Mathlib.Data.List.Nodup
import Mathlib.Data.List.Range
import Mathlib.Data.List.Perm.Subperm
import Mathlib.Tactic.Linarith

/-!
# What `matutils.argsort` returns, for every behaviour of `np.argsort` and `np.argpartition`
-/

namespace Verif.Matutils
open Verif

variable {K : Type} [Field K] [LinearOrder K] [IsStrictOrderedRing K]

/-- the contract of `np.argsort`: a permutation of the positions, in non-decreasing order of value -/
def SortOk (srt : List K → List Nat) : Prop :=
  ∀ x, (srt x).Perm (List.range x.length) ∧ (srt x).Pairwise (fun i j => x.getD i 0 ≤ x.getD j 0)

/-- the contract of `np.argpartition(x, k)`: a permutation of the positions, the first `k` of which
have values no greater than the others -/
def PartOk (part : List K → Nat → List Nat) : Prop :=
  ∀ x k, k < x.length → (part x k).Perm (List.range x.length) ∧
    ∀ i ∈ (part x k).take k, ∀ j ∈ (part x k).drop k, x.getD i 0 ≤ x.getD j 0

/-- specification: `r` are the positions of the `n` largest values, in non-increasing order -/
structure TopPositions (val : Nat → K) (size n : Nat) (r : List Nat) : Prop where
  nodup : r.Nodup
  valid : ∀ i ∈ r, i < size
  length : r.length = min n size
  sorted : r.Pairwise (fun i j => val j ≤ val i)
  top : ∀ i ∈ r, ∀ j < size, j ∉ r → val j ≤ val i

theorem getD_neg (x : List K) (i : Nat) : (x.map (fun a => -a)).getD i 0 = - x.getD i 0 := by
  simp only [List.getD_eq_getElem?_getD, List.getElem?_map]
  cases x[i]? <;> simp

/-- the smallest-first case, for a fixed list -/
theorem argsort_aux (srt : List K → List Nat) (part : List K → Nat → List Nat) (hs : SortOk srt)
    (hp : PartOk part) (x : List K) (n : Nat) (r : List Nat)
    (hr : r = if x.length ≤ n then (srt x).take n
      else
        let extreme := (part x n).take n
        (srt (extreme.map (fun i => x.getD i 0))).map (fun j => extreme.getD j 0)) :
    TopPositions (fun i => - x.getD i 0) x.length n r := by
  by_cases hn : x.length ≤ n
  · simp only [hn, if_true] at hr
    obtain ⟨p1, p2⟩ := hs x
    have hl : (srt x).length = x.length := by simpa using p1.length_eq
    have hr' : r = srt x := by rw [hr, List.take_of_length_le (by omega)]
    clear hr
    subst hr'
    refine ⟨p1.nodup_iff.2 List.nodup_range, fun i hi => by simpa using p1.mem_iff.1 hi,
      by omega, p2.imp (by intro a b h; simpa using h), fun i hi j hj hjr => ?_⟩
    exact absurd (p1.mem_iff.2 (by simpa using hj)) hjr
  · simp only [hn, if_false] at hr
    obtain ⟨q1, q2⟩ := hp x n (by omega)
    generalize hE : (part x n).take n = E at hr q2
    have hpl : (part x n).length = x.length := by simpa using q1.length_eq
    have hEl : E.length = n := by rw [← hE, List.length_take]; omega
    have hEn : E.Nodup := by
      rw [← hE]; exact (q1.nodup_iff.2 List.nodup_range).sublist (List.take_sublist _ _)
    obtain ⟨p1, p2⟩ := hs (E.map (fun i => x.getD i 0))
    rw [List.length_map] at p1
    have hmap : (List.range E.length).map (fun j => E.getD j 0) = E := by
      apply List.ext_getElem
      · simp
      · intro i h1 h2; simp at h1; simp [h1]
    have hrE : r.Perm E := by
      rw [hr]; exact (p1.map _).trans (by rw [hmap])
    refine ⟨hrE.nodup_iff.2 hEn, fun i hi => ?_, ?_, ?_, fun i hi j hj hjr => ?_⟩
    · have : i ∈ part x n := List.mem_of_mem_take (hE ▸ hrE.mem_iff.1 hi)
      simpa using q1.mem_iff.1 this
    · rw [hrE.length_eq, hEl]; omega
    · rw [hr, List.pairwise_map]
      refine List.Pairwise.imp_of_mem ?_ p2
      intro a b ha hb h
      have ha' : a < E.length := by simpa using p1.mem_iff.1 ha
      have hb' : b < E.length := by simpa using p1.mem_iff.1 hb
      simp only [List.getD_eq_getElem?_getD, List.getElem?_map, List.getElem?_eq_getElem ha',
        List.getElem?_eq_getElem hb', Option.map_some, Option.getD_some] at h ⊢
      linarith
    · have hi' : i ∈ E := hrE.mem_iff.1 hi
      have hj' : j ∈ (part x n).drop n := by
        have : j ∈ part x n := q1.mem_iff.2 (by simpa using hj)
        rw [← List.take_append_drop n (part x n), List.mem_append] at this
        rcases this with h | h
        · exact absurd (hrE.mem_iff.2 (hE ▸ h)) hjr
        · exact h
      have := q2 i hi' j hj'
      linarith

/-- `argsort(x, topn, reverse=True)` returns the positions of the `topn` largest values, largest
first, for every way numpy may order ties -/
theorem argsort_reverse (srt : List K → List Nat) (part : List K → Nat → List Nat) (hs : SortOk srt)
    (hp : PartOk part) (x : List K) (topn : Int) :
    TopPositions (fun i => x.getD i 0) x.length topn.toNat (argsort srt part x topn true) := by
  by_cases h0 : topn ≤ 0
  · have : topn.toNat = 0 := by omega
    rw [this]
    simp only [argsort, h0, if_true]
    exact ⟨by simp, by simp, by simp, by simp, by simp⟩
  · have := argsort_aux srt part hs hp (x.map (fun a => -a)) topn.toNat (argsort srt part x topn true)
      (by simp only [argsort, h0, if_false, if_true])
    simp only [getD_neg, neg_neg, List.length_map] at this
    exact this

theorem argsort_forward (srt : List K → List Nat) (part : List K → Nat → List Nat) (hs : SortOk srt)
    (hp : PartOk part) (x : List K) (topn : Int) :
    TopPositions (fun i => - x.getD i 0) x.length topn.toNat (argsort srt part x topn false) := by
  by_cases h0 : topn ≤ 0
  · have : topn.toNat = 0 := by omega
    rw [this]
    simp only [argsort, h0, if_true]
    exact ⟨by simp, by simp, by simp, by simp, by simp⟩
  · exact argsort_aux srt part hs hp x topn.toNat (argsort srt part x topn false)
      (by simp only [argsort, h0, if_false]; rfl)

/-! ## The contracts can be met -/

/-- insertion of a position into a list of positions ordered by value -/
def insPos (x : List K) (i : Nat) : List Nat → List Nat
  | [] => [i]
  | j :: js => if x.getD i 0 ≤ x.getD j 0 then i :: j :: js else j :: insPos x i js

/-- a particular `np.argsort` -/
def exSort (x : List K) : List Nat := (List.range x.length).foldr (insPos x) []

theorem insPos_perm (x : List K) (i : Nat) (l : List Nat) : (insPos x i l).Perm (i :: l) := by
  induction l with
  | nil => simp [insPos]
  | cons j l ih =>
    simp only [insPos]
    split
    · exact List.Perm.refl _
    · exact (ih.cons j).trans (List.Perm.swap i j l)

theorem insPos_sorted (x : List K) (i : Nat) (l : List Nat)
    (h : l.Pairwise (fun i j => x.getD i 0 ≤ x.getD j 0)) :
    (insPos x i l).Pairwise (fun i j => x.getD i 0 ≤ x.getD j 0) := by
  induction l with
  | nil => simp [insPos]
  | cons j l ih =>
    simp only [insPos]
    split
    · rename_i hle
      refine List.pairwise_cons.2 ⟨fun k hk => ?_, h⟩
      rcases List.mem_cons.1 hk with rfl | hk
      · exact hle
      · exact le_trans hle ((List.pairwise_cons.1 h).1 k hk)
    · rename_i hle
      refine List.pairwise_cons.2 ⟨fun k hk => ?_, ih (List.pairwise_cons.1 h).2⟩
      rcases List.mem_cons.1 ((insPos_perm x i l).mem_iff.1 hk) with rfl | hk
      · exact le_of_lt (lt_of_not_ge hle)
      · exact (List.pairwise_cons.1 h).1 k hk

theorem exSort_ok : SortOk (exSort (K := K)) := by
  intro x
  have : ∀ l : List Nat, (l.foldr (insPos x) []).Perm l ∧
      (l.foldr (insPos x) []).Pairwise (fun i j => x.getD i 0 ≤ x.getD j 0) := by
    intro l
    induction l with
    | nil => simp
    | cons i l ih => exact ⟨(insPos_perm x i _).trans (ih.1.cons i), insPos_sorted x i _ ih.2⟩
  exact this _

/-- sorting is a way of partitioning -/
theorem exPart_ok : PartOk (fun (x : List K) (_ : Nat) => exSort x) := by
  intro x k _
  obtain ⟨h1, h2⟩ := exSort_ok x
  refine ⟨h1, fun i hi j hj => ?_⟩
  rw [← List.take_append_drop k (exSort x), List.pairwise_append] at h2
  exact h2.2.2 i hi j hj

example : argsort exSort (fun x _ => exSort x) [3, 1, 2, 3, (-1 : ℚ)] 3 true = [0, 3, 2] := by
  decide +kernel

end Verif.Matutils

import Verif.Matutils.PsiModel

/-!
# `ret_log_normalize_vec`

Real numbers instead of floats.
-/

namespace Verif.PsiNum

open Real

/-- An array with one or two dimensions. -/
inductive Arr
  | vec (v : List ℝ)
  | mat (r c : ℕ) (a : Fin r → Fin c → ℝ)

/-- What a call gives: the array and the norms it returns, and the argument as it is after the call. -/
structure LogNorm where
  out : Arr
  norms : List ℝ
  argument : Arr

/-- `log_shift` (gensim/matutils.py:665-666, 672-673), for the numbers `x :: xs`. -/
noncomputable def logShift (x : ℝ) (xs : List ℝ) : ℝ :=
  100 - log (((x :: xs).length : ℝ) + 1) - maxOf x xs

/-- `tot` (gensim/matutils.py:667, 674). -/
noncomputable def shifted (x : ℝ) (xs : List ℝ) : List ℝ := (x :: xs).map fun a => a + logShift x xs

/-- `log_norm` (gensim/matutils.py:665-668, 672-675); `np.max` raises `ValueError` for no numbers. -/
noncomputable def logNorm : List ℝ → Option ℝ
  | [] => none
  | x :: xs => some (log ((shifted x xs).map exp).sum - logShift x xs)

/-- The norms of the rows of a matrix, gensim/matutils.py:672-675. `np.max` over the rows raises when they are empty,
    unless there is no row. -/
noncomputable def rowNorms (r c : ℕ) (a : Fin r → Fin c → ℝ) : Option (Fin r → ℝ) :=
  if r ≠ 0 ∧ c = 0 then none else some fun i => (logNorm (List.ofFn (a i))).getD 0

/-- `ret_log_normalize_vec(vec, axis)` (gensim/matutils.py:662-682); `none`: `ValueError`. A vector is changed in place. -/
noncomputable def retLogNormalize (arg : Arr) (axis : ℤ) : Option LogNorm :=
  match arg with
  | .vec v => (logNorm v).map fun n => ⟨.vec (v.map fun a => a - n), [n], .vec (v.map fun a => a - n)⟩
  | .mat r c a =>
    if axis = 1 then
      (rowNorms r c a).map fun n => ⟨.mat r c fun i j => a i j - n i, List.ofFn n, .mat r c a⟩
    else if axis = 0 then
      (rowNorms c r fun j i => a i j).map fun n => ⟨.mat r c fun i j => a i j - n j, List.ofFn n, .mat r c a⟩
    else none

end Verif.PsiNum

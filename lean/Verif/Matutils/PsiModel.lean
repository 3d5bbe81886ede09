import Mathlib.Analysis.SpecialFunctions.Log.Basic

/-!
# The numeric kernels of `gensim/_matutils.pyx`: `logsumexp`, `digamma`, `dirichlet_expectation`

Real numbers instead of floats: what is modelled is the algorithm, not its rounding.
-/

namespace Verif.PsiNum

open Real

/-- Models the search of the maximum in `_logsumexp_2d`, gensim/_matutils.pyx 120-131. -/
noncomputable def maxOf (first : ℝ) (l : List ℝ) : ℝ := l.foldl (fun m x => if x > m then x else m) first

/-- Models `_logsumexp_2d`, gensim/_matutils.pyx 120-139, on the entries of the matrix row by row (one entry at least:
the code reads `data[0, 0]`). -/
noncomputable def logsumexp (first : ℝ) (rest : List ℝ) : ℝ :=
  let m := maxOf first (first :: rest)
  log ((first :: rest).foldl (fun r x => r + exp (x - m)) 0) + m

/-- Models the loop `while x2 < c` of `_digamma`, gensim/_matutils.pyx 337-341: value and `x2`. The fuel is 9 rounds, which
is enough for a positive number (`C128_loop`). -/
noncomputable def reduce : Nat → ℝ → ℝ → ℝ × ℝ
  | 0, value, x2 => (value, x2)
  | n + 1, value, x2 => if x2 < 8.5 then reduce n (value - 1 / x2) (x2 + 1) else (value, x2)

/-- Models `_digamma`, gensim/_matutils.pyx 325-357. -/
noncomputable def digamma (x : ℝ) : ℝ :=
  if x ≤ 0.000001 then -0.57721566490153286060 - 1 / x + 1.6449340668482264365 * x
  else
    let v := reduce 9 0 x
    let r := 1 / v.2
    let value := v.1 + log v.2 - 0.5 * r
    let r := r * r
    value - r * (1 / 12 - r * (1 / 120 - r * (1 / 252 - r * (1 / 240 - r * (1 / 132)))))

/-- Models `_dirichlet_expectation_1d`, gensim/_matutils.pyx 236-248. -/
noncomputable def dirichletExpectation1 (alpha : List ℝ) : List ℝ :=
  let s := alpha.foldl (fun s a => s + a) 0
  let p := digamma s
  alpha.map fun a => digamma a - p

/-- Models `_dirichlet_expectation_2d`, gensim/_matutils.pyx 264-279. -/
noncomputable def dirichletExpectation2 (alpha : List (List ℝ)) : List (List ℝ) :=
  alpha.map fun row =>
    let s := row.foldl (fun s a => s + a) 0
    let p := digamma s
    row.map fun a => digamma a - p

end Verif.PsiNum

import Verif.Nmf.Model

/-!
# The stopping rules of NMF

`Verif.Nmf.Model` leaves open how often the two inner loops of training run; here are the rules of
gensim/models/nmf.py and gensim/models/nmf_pgd.pyx, and the norm that training logs.
-/

namespace Verif.Nmf

variable {I K : Type} [Fintype I] [Fintype K] [DecidableEq K] [DecidableEq I]

open Classical in
/-- The share of one sample and one component in `violation` (nmf_pgd.pyx:44-58), `none` for NaN.  For a zero `hessian`
    the gradient is NaN, and `fmin(0, NaN)` is 0. -/
noncomputable def coordErr (G : K → K → ℝ) (b : K → ℝ) (kappa : ℝ) (h : K → ℝ) (k : K) : Option ℝ :=
  if G k k = 0 then (if h k = 0 then some 0 else none)
  else
    let grad := (-b k + ∑ l, G k l * h l) * kappa / G k k
    let projected := if h k = 0 then min 0 grad else grad
    some (projected * projected)

/-- Adding floats: NaN if one of them is. -/
def addNan (x y : Option ℝ) : Option ℝ :=
  match x, y with
  | some a, some b => some (a + b)
  | _, _ => none

/-- The share of one sample in `violation` (nmf_pgd.pyx:43-60). -/
noncomputable def sweepErr (G : K → K → ℝ) (b : K → ℝ) (kappa : ℝ) : (K → ℝ) → List K → Option ℝ
  | _, [] => some 0
  | h, k :: ks => addNan (coordErr G b kappa h k) (sweepErr G b kappa (coord G b kappa h k) ks)

/-- What `solve_h` returns (nmf_pgd.pyx:42-62), for the columns `bs` of `Wtv` and `hs` of `h`. -/
noncomputable def solveErr (G : K → K → ℝ) (kappa : ℝ) (bs hs : List (K → ℝ)) (perm : List K) : Option ℝ :=
  ((List.zipWith (fun b h => sweepErr G b kappa h perm) bs hs).foldr addNan (some 0)).map Real.sqrt

/-- What `solve_h` makes of `h` (nmf_pgd.pyx:42-60). -/
noncomputable def solveH (G : K → K → ℝ) (kappa : ℝ) (bs hs : List (K → ℝ)) (perm : List K) : List (K → ℝ) :=
  List.zipWith (fun b h => sweep G b kappa h perm) bs hs

/-- `h_error and np.abs(h_error - error_) < self._h_stop_condition` (nmf.py:766): `None` and 0.0 are false, and no
    comparison with NaN is true. -/
def hHalts (stop : ℝ) : Option (Option ℝ) → Option ℝ → Prop
  | some (some x), some y => x ≠ 0 ∧ |x - y| < stop
  | _, _ => False

open Classical in
/-- The loop of `_solveproj` (nmf.py:755-769) for all documents of a chunk; `m` is the number of words, and there is one
    permutation for each of the `_h_max_iter` iterations. -/
noncomputable def hLoop (G : K → K → ℝ) (kappa stop m : ℝ) (bs : List (K → ℝ)) :
    List (List K) → Option (Option ℝ) → List (K → ℝ) → List (K → ℝ)
  | [], _, hs => hs
  | perm :: perms, last, hs =>
    let error := (solveErr G kappa bs hs perm).map fun x => x / m
    let hs := solveH G kappa bs hs perm
    if hHalts stop last error then hs else hLoop G kappa stop m bs perms (some error) hs

/-- `self._w_error < np.inf and np.abs((error_ - self._w_error) / self._w_error) < self._w_stop_condition`
    (nmf.py:677-680): `none` is infinity; dividing by 0 gives an infinity or NaN. -/
def wHalts (stop : ℝ) (last : Option ℝ) (error : ℝ) : Prop :=
  match last with
  | some x => x ≠ 0 ∧ |(error - x) / x| < stop
  | none => False

open Classical in
/-- The loop of `_solve_w` (nmf.py:670-686) with at most `n` iterations: `_w_error` and `_W`. -/
noncomputable def wLoop (kappa stop : ℝ) (vMax : WithTop ℝ) (A : K → K → ℝ) (B : I → K → ℝ) :
    ℕ → Option ℝ × (I → K → ℝ) → Option ℝ × (I → K → ℝ)
  | 0, s => s
  | n + 1, s =>
    let error := wError A B s.2
    if wHalts stop s.1 error then s else wLoop kappa stop vMax A B n (some error, wStep kappa vMax A B s.2)

/-- `l2_norm(v)` (nmf.py:533-541). -/
noncomputable def l2Norm (W : I → K → ℝ) (docs : List (I → ℝ)) (hs : List (K → ℝ)) : ℝ :=
  Real.sqrt (List.zipWith (fun v h => ∑ i, (v i - ∑ k, h k * W i k) ^ 2) docs hs).sum

end Verif.Nmf

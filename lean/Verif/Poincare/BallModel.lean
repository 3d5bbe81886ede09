import Mathlib.Analysis.InnerProductSpace.PiL2
import Mathlib.Analysis.SpecialFunctions.Arcosh
import Mathlib.Analysis.SpecialFunctions.Log.Basic

/-!
# Distances and gradients in the Poincaré ball (gensim/models/poincare.py)

Vectors have real components.  The batch dimension of the arrays in `PoincareBatch` is element-wise, so
one column of a batch is modelled: a vector `u` and the vectors `v 0` (the positive relation) and
`v 1, …, v m` (the negatives).
-/

namespace Verif.Poincare

/-- A vector with `n` components, with the norm of `np.linalg.norm`. -/
abbrev Vec (n : ℕ) := EuclideanSpace ℝ (Fin n)

variable {n m : ℕ}

/-- Models `vector_distance` and one entry of `vector_distance_batch`, gensim/models/poincare.py
890-933. -/
noncomputable def vectorDistance (u v : Vec n) : ℝ :=
  Real.arcosh (1 + 2 * (‖u - v‖ ^ 2 / ((1 - ‖u‖ ^ 2) * (1 - ‖v‖ ^ 2))))

/-- Models `similarity`, gensim/models/poincare.py 1108. -/
noncomputable def similarity (u v : Vec n) : ℝ := 1 / (1 + vectorDistance u v)

/-- Models `alpha` and `beta`, gensim/models/poincare.py 769-770. -/
noncomputable def conf (u : Vec n) : ℝ := 1 - ‖u‖ ^ 2

/-- Models `gamma`, gensim/models/poincare.py 771-773. -/
noncomputable def gamma (u v : Vec n) : ℝ := 1 + 2 * (‖u - v‖ ^ 2 / (conf u * conf v))

/-- Models `poincare_dists` and `exp_negative_distances`, gensim/models/poincare.py 774-775. -/
noncomputable def expNeg (u v : Vec n) : ℝ := Real.exp (-Real.arcosh (gamma u v))

/-- Models `Z`, gensim/models/poincare.py 776. -/
noncomputable def total (u : Vec n) (v : Fin (m + 1) → Vec n) : ℝ := ∑ j, expNeg u (v j)

/-- Models `c_`, gensim/models/poincare.py 825. -/
noncomputable def coeff (u v : Vec n) : ℝ := 4 / (conf u * conf v * √(gamma u v ^ 2 - 1))

/-- Models `distance_gradients_u`, gensim/models/poincare.py 827-834. -/
noncomputable def distGradU (u v : Vec n) : Vec n :=
  if gamma u v = 1 then 0
  else coeff u v • (((‖u - v‖ ^ 2 + conf u) / conf u) • u - v)

/-- Models `distance_gradients_v`, gensim/models/poincare.py 837-843. -/
noncomputable def distGradV (u v : Vec n) : Vec n :=
  if gamma u v = 1 then 0
  else coeff u v • (((‖u - v‖ ^ 2 + conf v) / conf v) • v - u)

/-- Models `gradients_u`, gensim/models/poincare.py 804-808. -/
noncomputable def gradU (u : Vec n) (v : Fin (m + 1) → Vec n) : Vec n :=
  (∑ j, (1 / total u v) • (-expNeg u (v j)) • distGradU u (v j)) + distGradU u (v 0)

/-- Models `gradients_v`, gensim/models/poincare.py 798-802. -/
noncomputable def gradV (reg : ℝ) (u : Vec n) (v : Fin (m + 1) → Vec n) (j : Fin (m + 1)) : Vec n :=
  let g := (1 / total u v) • (-expNeg u (v j)) • distGradV u (v j)
  if j = 0 then g + distGradV u (v 0) + (reg * 2) • v 0 else g

/-- Models `_loss_fn`, gensim/models/poincare.py 317-350, the loss the gradients are checked against. -/
noncomputable def lossFn (reg : ℝ) (u : Vec n) (v : Fin (m + 1) → Vec n) : ℝ :=
  -Real.log (Real.exp (-vectorDistance u (v 0)) / ∑ j, Real.exp (-vectorDistance u (v j)))
    + reg * ‖v 0‖ ^ 2

end Verif.Poincare

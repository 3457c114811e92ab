import Mathlib.Analysis.SpecialFunctions.Trigonometric.Arctan
import Mathlib.Analysis.SpecialFunctions.Artanh

/-!
# The curvature-dependent tangent, exactly

The textbook functions of the `κ`-stereographic model, with no branch for small curvatures.
-/

namespace Geoopt.SpecNearFlat

/-- `tan(√k t)/√k`, `tanh(√(-k) t)/√(-k)`, or `t`. -/
noncomputable def exactTan (k t : ℝ) : ℝ :=
  if 0 < k then Real.tan (√k * t) / √k
  else if k < 0 then Real.tanh (√(-k) * t) / √(-k)
  else t

/-- The inverse function: `arctan(√k r)/√k`, `artanh(√(-k) r)/√(-k)`, or `r`. -/
noncomputable def exactArtan (k r : ℝ) : ℝ :=
  if 0 < k then Real.arctan (√k * r) / √k
  else if k < 0 then Real.artanh (√(-k) * r) / √(-k)
  else r

end Geoopt.SpecNearFlat

import Verif.Model.Vec

/-!
# `geoopt/utils.py`: the numeric helpers
-/

namespace Geoopt

/-- `torch.sign` on a real number. -/
noncomputable def tsign (x : ℝ) : ℝ := if 0 < x then 1 else if x < 0 then -1 else 0

/-- `geoopt/utils.py:50-52` `sign(x) = torch.sign(x.sign() + 0.5)`. -/
noncomputable def usign (x : ℝ) : ℝ := tsign (tsign x + 0.5)

/-- `geoopt/utils.py:55-57` `sabs(x, eps) = |x| + eps`. -/
noncomputable def sabs (eps x : ℝ) : ℝ := |x| + eps

/-- `geoopt/utils.py:60-63` `clamp_abs(x, eps) = sign(x) * sabs(x, eps)`. -/
noncomputable def clampAbs (eps x : ℝ) : ℝ := usign x * sabs eps x

/-- `x.clamp(lo, hi)` of torch. -/
noncomputable def clamp (lo hi x : ℝ) : ℝ := min (max x lo) hi

end Geoopt

import Verif.Model.StereoAxis
import Verif.Model.StereoManifold

/-!
# Model of `geoopt/layers/stereographic.py`

The input has `m + 1` axes, `c` is the channel axis: the layer's `ndim` is the number of axes after
it (`c = -ndim - 1` in Python).
-/

namespace Geoopt.Layer
open Geoopt Axis Axis.Tensor
variable {m : ℕ}

/-- `stereographic.py:68-69`: `points.permute(1, 0)`, viewed with `ndim` trailing axes of size one
and broadcast with leading axes of size one.  `points` is `num_planes × plane_shape`. -/
def planes (c : Fin (m + 1)) (points : Tensor 2) : Tensor (m + 2) :=
  ⟨fun k => if k = c.castSucc then points.shape 1 else if k = c.succ then points.shape 0 else 1,
   fun i => points.val ![i c.succ, i c.castSucc]⟩

/-- `torch.sign`. -/
noncomputable def tsign (x : ℝ) : ℝ := if 0 < x then 1 else if x < 0 then -1 else 0

/-- `stereographic.py:66-79` `Distance2StereographicHyperplanes.forward`; `dim = -ndim - 2` of the
unsqueezed input is its channel axis `c.castSucc`. -/
noncomputable def forward (c : Fin (m + 1)) (η k : ℝ) (points : Tensor 2) (signed squared : Bool)
    (input : Tensor (m + 1)) : Tensor (m + 1) :=
  let x := unsqueeze c.succ input
  let p := planes c points
  let distance := StereoAxis.dist2plane c.castSucc η k x p p signed false
  if squared && signed then distance.map (· ^ 2) * distance.map tsign
  else if squared then distance.map (· ^ 2)
  else distance

/-- `stereographic.py:60-64`, `:88-90`: the parameter that the constructor leaves, filled by
`reset_parameters`: `ball.random_normal(num_planes, plane_shape, std=init_std)`; `noise` is the draw
of `torch.randn`. -/
noncomputable def resetParameters (η : ℝ) (dt : DType) (k initStd : ℝ) (numPlanes planeShape : ℕ)
    (noise : ℕ → Vec planeShape) : Tensor 2 :=
  ⟨![numPlanes, planeShape], fun i =>
    if h : i 1 < planeShape then Stereo.M.randomNormal η dt k 0 initStd (noise (i 0)) ⟨i 1, h⟩ else 0⟩

end Geoopt.Layer

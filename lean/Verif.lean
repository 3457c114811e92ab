import Verif.Lemmas.Autograd
import Verif.Lemmas.Axis
import Verif.Lemmas.AxisFib
import Verif.Lemmas.AxisFibStereo
import Verif.Lemmas.AxisFibT
import Verif.Lemmas.AxisSimp
import Verif.Lemmas.Ball
import Verif.Lemmas.Extension
import Verif.Lemmas.Flag
import Verif.Lemmas.FlagVec
import Verif.Lemmas.Gauss
import Verif.Lemmas.Gradient
import Verif.Lemmas.Gyro
import Verif.Lemmas.Lorentz
import Verif.Lemmas.Mobius
import Verif.Lemmas.NearFlat
import Verif.Lemmas.Optim
import Verif.Lemmas.OptimNoerr
import Verif.Lemmas.OptimSim
import Verif.Lemmas.OptimStep
import Verif.Lemmas.Origin
import Verif.Lemmas.Product
import Verif.Lemmas.Scaled
import Verif.Lemmas.Siegel
import Verif.Lemmas.SiegelDist
import Verif.Lemmas.SiegelTri
import Verif.Lemmas.Spectral
import Verif.Lemmas.Stiefel
import Verif.Lemmas.Takagi
import Verif.Lemmas.TanK
import Verif.Lemmas.Target
import Verif.Lemmas.Vec
import Verif.Model.Autograd
import Verif.Model.AutogradMatrix
import Verif.Model.Axis
import Verif.Model.Base
import Verif.Model.Birkhoff
import Verif.Model.Buffer
import Verif.Model.Checkpoint
import Verif.Model.Curvature
import Verif.Model.Dataset
import Verif.Model.Euclidean
import Verif.Model.Fused
import Verif.Model.Groups
import Verif.Model.Interface
import Verif.Model.Layer
import Verif.Model.Linalg
import Verif.Model.LineSearch
import Verif.Model.LineSearchCrash
import Verif.Model.Lorentz
import Verif.Model.LorentzAxis
import Verif.Model.ManifoldTensor
import Verif.Model.Optim
import Verif.Model.OptimBirkhoff
import Verif.Model.OptimManifolds
import Verif.Model.OptimProduct
import Verif.Model.OptimSparse
import Verif.Model.Origin
import Verif.Model.Product
import Verif.Model.ProductInner
import Verif.Model.SPD
import Verif.Model.Samplers
import Verif.Model.Scaled
import Verif.Model.ScalingStorage
import Verif.Model.Shapes
import Verif.Model.Siegel
import Verif.Model.Sphere
import Verif.Model.Stereo
import Verif.Model.StereoAxis
import Verif.Model.StereoAxisT
import Verif.Model.StereoManifold
import Verif.Model.StereoProduct
import Verif.Model.Stiefel
import Verif.Model.Tape
import Verif.Model.TensorMethods
import Verif.Model.Utils
import Verif.Model.Vec
import Verif.Props.C01
import Verif.Props.C03
import Verif.Props.C05
import Verif.Props.C06
import Verif.Props.C09
import Verif.Props.C100
import Verif.Props.C100Cx
import Verif.Props.C101
import Verif.Props.C102
import Verif.Props.C103
import Verif.Props.C103Manifolds
import Verif.Props.C104
import Verif.Props.C105
import Verif.Props.C106
import Verif.Props.C106Sphere
import Verif.Props.C107
import Verif.Props.C108
import Verif.Props.C109
import Verif.Props.C110
import Verif.Props.C111
import Verif.Props.C112
import Verif.Props.C112SPD
import Verif.Props.C113
import Verif.Props.C113Ball
import Verif.Props.C113SPD
import Verif.Props.C114
import Verif.Props.C115
import Verif.Props.C116
import Verif.Props.C117
import Verif.Props.C118
import Verif.Props.C119
import Verif.Props.C120
import Verif.Props.C121
import Verif.Props.C122
import Verif.Props.C123
import Verif.Props.C124
import Verif.Props.C124LineSearch
import Verif.Props.C125
import Verif.Props.C126
import Verif.Props.C127
import Verif.Props.C128
import Verif.Props.C129
import Verif.Props.C129Mat
import Verif.Props.C129Midpoint
import Verif.Props.C129Siegel
import Verif.Props.C129SiegelDist
import Verif.Props.C13
import Verif.Props.C130
import Verif.Props.C131
import Verif.Props.C131Matrix
import Verif.Props.C132
import Verif.Props.C133
import Verif.Props.C134
import Verif.Props.C135
import Verif.Props.C136
import Verif.Props.C136Birkhoff
import Verif.Props.C136LineSearch
import Verif.Props.C136Product
import Verif.Props.C136Samplers
import Verif.Props.C136Siegel
import Verif.Props.C137
import Verif.Props.C137Samplers
import Verif.Props.C138
import Verif.Props.C138Hyperbolic
import Verif.Props.C138Log
import Verif.Props.C138Transport
import Verif.Props.C139
import Verif.Props.C15
import Verif.Props.C15Inv
import Verif.Props.C16
import Verif.Props.C16Sphere
import Verif.Props.C16Two
import Verif.Props.C17
import Verif.Props.C17Sphere
import Verif.Props.C18
import Verif.Props.C20
import Verif.Props.C24
import Verif.Props.C28
import Verif.Props.C31Aim
import Verif.Props.C33
import Verif.Props.C35
import Verif.Props.C39
import Verif.Props.C40
import Verif.Props.C41
import Verif.Props.C42
import Verif.Props.C45
import Verif.Props.C46
import Verif.Props.C49
import Verif.Props.C52
import Verif.Props.C54
import Verif.Props.C55
import Verif.Props.C55Manifolds
import Verif.Props.C57
import Verif.Props.C58
import Verif.Props.C59
import Verif.Props.C60
import Verif.Props.C63
import Verif.Props.C63Cx
import Verif.Props.C63Manifolds
import Verif.Props.C65
import Verif.Props.C66
import Verif.Props.C68
import Verif.Props.C69
import Verif.Props.C70
import Verif.Props.C71
import Verif.Props.C72
import Verif.Props.C73
import Verif.Props.C74
import Verif.Props.C76
import Verif.Props.C77
import Verif.Props.C78
import Verif.Props.C78Mid
import Verif.Props.C79
import Verif.Props.C80
import Verif.Props.C80Exact
import Verif.Props.C81
import Verif.Props.C82
import Verif.Props.C83
import Verif.Props.C84
import Verif.Props.C85
import Verif.Props.C85Cx
import Verif.Props.C86
import Verif.Props.C87
import Verif.Props.C88
import Verif.Props.C89
import Verif.Props.C90
import Verif.Props.C91
import Verif.Props.C91Birkhoff
import Verif.Props.C91Product
import Verif.Props.C92
import Verif.Props.C93
import Verif.Props.C94
import Verif.Props.C94Stiefel
import Verif.Props.C95
import Verif.Props.C96
import Verif.Props.C97
import Verif.Props.C97Inner
import Verif.Props.C98
import Verif.Props.C99
import Verif.Props.C99Cx
import Verif.Props.C99Manifolds
import Verif.Spec.Axis
import Verif.Spec.Batch
import Verif.Spec.BatchK
import Verif.Spec.Birkhoff
import Verif.Spec.Convergence
import Verif.Spec.Dataset
import Verif.Spec.Decay
import Verif.Spec.Euclidean
import Verif.Spec.Extension
import Verif.Spec.Flow
import Verif.Spec.Frame
import Verif.Spec.Frozen
import Verif.Spec.Fused
import Verif.Spec.Gradient
import Verif.Spec.Interface
import Verif.Spec.Invariant
import Verif.Spec.Isometry
import Verif.Spec.Langevin
import Verif.Spec.LineSearch
import Verif.Spec.LineSearchConv
import Verif.Spec.Lorentz
import Verif.Spec.Midpoint
import Verif.Spec.NearFlat
import Verif.Spec.Nearest
import Verif.Spec.Optim
import Verif.Spec.Origin
import Verif.Spec.Raises
import Verif.Spec.Random
import Verif.Spec.Regroup
import Verif.Spec.Retraction
import Verif.Spec.Reversible
import Verif.Spec.Rotation
import Verif.Spec.SPD
import Verif.Spec.Samplers
import Verif.Spec.ScalingStorage
import Verif.Spec.Shapes
import Verif.Spec.Siegel
import Verif.Spec.Sphere
import Verif.Spec.Steps
import Verif.Spec.Stereo
import Verif.Spec.Stiefel
import Verif.Spec.Target
import Verif.Spec.Training

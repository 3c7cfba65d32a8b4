import Verif.Lemmas.Adaptive
import Verif.Lemmas.Affine
import Verif.Lemmas.Archive
import Verif.Lemmas.Bench
import Verif.Lemmas.BenchVal
import Verif.Lemmas.BlackBox
import Verif.Lemmas.Categorical
import Verif.Lemmas.Columns
import Verif.Lemmas.ConvBox
import Verif.Lemmas.ConvLearn
import Verif.Lemmas.ConvRun
import Verif.Lemmas.Core
import Verif.Lemmas.CostMap
import Verif.Lemmas.Custom
import Verif.Lemmas.Drift
import Verif.Lemmas.Elite
import Verif.Lemmas.Embed
import Verif.Lemmas.EmnaLeave
import Verif.Lemmas.EmnaSpread
import Verif.Lemmas.Equivariance
import Verif.Lemmas.Flip
import Verif.Lemmas.Float64
import Verif.Lemmas.Fresh
import Verif.Lemmas.Gauss
import Verif.Lemmas.Gaussian
import Verif.Lemmas.GenPos
import Verif.Lemmas.HeadTail
import Verif.Lemmas.Kde
import Verif.Lemmas.KdeSpread
import Verif.Lemmas.KedaRun
import Verif.Lemmas.Law
import Verif.Lemmas.LawSim
import Verif.Lemmas.ListMeas
import Verif.Lemmas.Loop
import Verif.Lemmas.Mirror
import Verif.Lemmas.Moments
import Verif.Lemmas.MultiGauss
import Verif.Lemmas.Net
import Verif.Lemmas.NetDensity
import Verif.Lemmas.NetInfer
import Verif.Lemmas.NetMoments
import Verif.Lemmas.NetPost
import Verif.Lemmas.Neutral
import Verif.Lemmas.NeutralGauss
import Verif.Lemmas.NeutralGaussRun
import Verif.Lemmas.NeutralRun
import Verif.Lemmas.NoFreeLunch
import Verif.Lemmas.Numeric
import Verif.Lemmas.Order
import Verif.Lemmas.Parallel
import Verif.Lemmas.Py
import Verif.Lemmas.Raise
import Verif.Lemmas.Rename
import Verif.Lemmas.RenameLaw
import Verif.Lemmas.Reuse
import Verif.Lemmas.Rotation
import Verif.Lemmas.Round
import Verif.Lemmas.RoundCat
import Verif.Lemmas.Run
import Verif.Lemmas.Schwefel
import Verif.Lemmas.Sim
import Verif.Lemmas.Slln
import Verif.Lemmas.Slope
import Verif.Lemmas.SlopeGen
import Verif.Lemmas.SlopePick
import Verif.Lemmas.SlopeRun
import Verif.Lemmas.Structure
import Verif.Lemmas.Tolerance
import Verif.Lemmas.Tools
import Verif.Lemmas.UniBin
import Verif.Model.Archive
import Verif.Model.Base
import Verif.Model.Bench
import Verif.Model.Bn
import Verif.Model.Categorical
import Verif.Model.Core
import Verif.Model.Costs
import Verif.Model.Custom
import Verif.Model.Examples
import Verif.Model.Float64
import Verif.Model.Gauss
import Verif.Model.Heap
import Verif.Model.Lhs
import Verif.Model.MultiGauss
import Verif.Model.Mutate
import Verif.Model.Net
import Verif.Model.Output
import Verif.Model.Plot
import Verif.Model.PySet
import Verif.Model.Raise
import Verif.Model.Round
import Verif.Model.RoundCat
import Verif.Model.Settings
import Verif.Model.Structure
import Verif.Model.Tools
import Verif.Model.UniBin
import Verif.Props.Archive
import Verif.Props.Bench
import Verif.Props.BenchDim
import Verif.Props.Binary
import Verif.Props.BlackBox
import Verif.Props.Bounds
import Verif.Props.Calls
import Verif.Props.Categorical
import Verif.Props.Cec
import Verif.Props.Columns
import Verif.Props.Consistent
import Verif.Props.Continuous
import Verif.Props.Converge
import Verif.Props.Custom
import Verif.Props.CustomRun
import Verif.Props.Drift
import Verif.Props.Elite
import Verif.Props.EmnaLeave
import Verif.Props.EmnaLine
import Verif.Props.EmnaSpread
import Verif.Props.EmnaWidth
import Verif.Props.Equivariance
import Verif.Props.Extra
import Verif.Props.Flip
import Verif.Props.Float
import Verif.Props.Forget
import Verif.Props.Forms
import Verif.Props.Gauss
import Verif.Props.Heap
import Verif.Props.Hit
import Verif.Props.HitSlow
import Verif.Props.HitTime
import Verif.Props.Kde
import Verif.Props.KedaAffine
import Verif.Props.KedaForms
import Verif.Props.KedaQuadratic
import Verif.Props.KedaReach
import Verif.Props.KedaSpread
import Verif.Props.Law
import Verif.Props.Leave
import Verif.Props.Lhs
import Verif.Props.Longer
import Verif.Props.Loop
import Verif.Props.Meta
import Verif.Props.Mirror
import Verif.Props.Moments
import Verif.Props.MultiGauss
import Verif.Props.Mutate
import Verif.Props.Net
import Verif.Props.NetEvidence
import Verif.Props.NetMode
import Verif.Props.Neutral
import Verif.Props.NeutralGauss
import Verif.Props.Noise
import Verif.Props.Objects
import Verif.Props.Order
import Verif.Props.Output
import Verif.Props.Parallel
import Verif.Props.PbilQuadratic
import Verif.Props.Plot
import Verif.Props.Progress
import Verif.Props.Quadratic
import Verif.Props.Raise
import Verif.Props.Rename
import Verif.Props.Round
import Verif.Props.RoundCat
import Verif.Props.Settings
import Verif.Props.Setup
import Verif.Props.Slope
import Verif.Props.Structure
import Verif.Props.Stuck
import Verif.Props.Tolerance
import Verif.Props.Tools
import Verif.Py
import Verif.Spec.Affine
import Verif.Spec.Archive
import Verif.Spec.Bench
import Verif.Spec.BlackBox
import Verif.Spec.Categorical
import Verif.Spec.Cec
import Verif.Spec.Columns
import Verif.Spec.Consistent
import Verif.Spec.Core
import Verif.Spec.Custom
import Verif.Spec.CustomRun
import Verif.Spec.Equivariance
import Verif.Spec.Flip
import Verif.Spec.Heap
import Verif.Spec.Kde
import Verif.Spec.Law
import Verif.Spec.Lhs
import Verif.Spec.Meta
import Verif.Spec.Mirror
import Verif.Spec.Moments
import Verif.Spec.Mutate
import Verif.Spec.Net
import Verif.Spec.NetDensity
import Verif.Spec.Neutral
import Verif.Spec.Output
import Verif.Spec.Raise
import Verif.Spec.Rename
import Verif.Spec.Settings
import Verif.Spec.Stats
import Verif.Spec.Structure

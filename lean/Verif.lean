import Verif.Props.Transform
import Verif.Props.NpAdjust
import Verif.Props.Observable
import Verif.Props.Loop
import Verif.Props.Cost
import Verif.Props.Noise
import Verif.Props.Positivity
import Verif.Props.Proximity
import Verif.Props.Convolve
import Verif.Props.Linear
import Verif.Props.Types
import Verif.Props.Fista
import Verif.Props.ForwardBackward
import Verif.Props.GenForwardBackward
import Verif.Props.Pogm
import Verif.Props.PrimalDual
import Verif.Props.Admm
import Verif.Props.GradDescent
import Verif.Props.Reweight
import Verif.Props.GramSchmidt
import Verif.Props.Rotate
import Verif.Props.PowerMethod
import Verif.Props.Stats
import Verif.Props.Metrics
import Verif.Props.Filter
import Verif.Props.Validation
import Verif.Props.WaveletTools
import Verif.Props.Log
import Verif.Props.Interface
import Verif.Props.Backend
import Verif.Props.Svd
import Verif.Props.LowRank
import Verif.Props.SvdFast
import Verif.Props.SvdCoef
import Verif.Props.FindNPc
import Verif.Props.Owl
import Verif.Props.KSupport
import Verif.Props.WaveletTransform
import Verif.Props.Restart
import Verif.Props.Crash
import Verif.Props.Session
import Verif.Props.SessionAlgs
import Verif.Props.SessionStop
import Verif.Props.Objects
import Verif.Props.Errors
import Verif.Lemmas.Fejer
import Verif.Lemmas.ChambolleDossal
import Verif.Props.Convergence
import Verif.Spec.Alias
import Verif.Lemmas.Alias
import Verif.Props.Alias
import Verif.Model.DType
import Verif.Props.DType
import Verif.Props.Stopping
import Verif.Spec.Strong
import Verif.Lemmas.Stability
import Verif.Props.Stability
import Verif.Spec.Arrays
import Verif.Props.Pipeline
import Verif.Props.StepSize
import Verif.Core.Rounding
import Verif.Model.FloatOps
import Verif.Props.FloatOps
import Verif.Lemmas.FloatNorm
import Verif.Props.FloatRun
import Verif.Lemmas.AdaGrad
import Verif.Props.AdaGrad
import Verif.Props.FloatMatrix
import Verif.Lemmas.Duality
import Verif.Props.Duality
import Verif.Props.PipelineDual
import Verif.Spec.Shapes
import Verif.Model.Broadcast
import Verif.Lemmas.Shapes
import Verif.Props.Shapes
import Verif.Spec.ComplexArrays
import Verif.Model.ComplexArrays
import Verif.Lemmas.ComplexArrays
import Verif.Props.ComplexArrays
import Verif.Props.ComplexSymmetry
import Verif.Spec.Equivariance
import Verif.Lemmas.Equivariance
import Verif.Props.Equivariance
import Verif.Props.Units
import Verif.Lemmas.Inertial
import Verif.Props.Relaxation
import Verif.Lemmas.Momentum
import Verif.Props.Momentum
import Verif.Props.ShapesAgree
import Verif.Props.Times
import Verif.Model.NonFinite
import Verif.Lemmas.NonFinite
import Verif.Props.NonFinite
import Verif.Model.NonFiniteAlgs
import Verif.Props.NonFiniteAlgs
import Verif.Props.Reorder
import Verif.Model.BroadcastMore
import Verif.Props.ShapesMore
import Verif.Spec.LogSum
import Verif.Props.ReweightScheme
import Verif.Spec.Ergodic
import Verif.Props.CondatRate
import Verif.Model.ReweightedCondat
import Verif.Props.ReweightedCondat
import Verif.Props.Watching
import Verif.Props.SuccessiveChange
import Verif.Props.Support
import Verif.Props.ActiveSet
import Verif.Props.Agreement
import Verif.Props.LargeWeights
import Verif.Props.Predictions
import Verif.Props.Path
import Verif.Props.AdmmLimit
import Verif.Props.PredictionsDual
import Verif.Props.LargeWeightsMore
import Verif.Props.ShapesPogm

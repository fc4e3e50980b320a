import Verif.Prelude
import Verif.Tensor
import Verif.Model.Lagrange
import Verif.Model.Utils
import Verif.Model.Piecewise
import Verif.Lemmas.Structural
import Verif.Spec.Poly
import Verif.Lemmas.LagrangeReal
import Verif.Lemmas.PiecewiseReal
import Verif.Lemmas.Periodic
import Verif.Spec.Layer
import Verif.Props.Basis
import Verif.Lemmas.Layers
import Verif.Props.Forward
import Verif.Props.Periodic
import Verif.Model.Refine
import Verif.Lemmas.Refine
import Verif.Lemmas.RefineReal
import Verif.Props.Refinement
import Verif.Lemmas.Smooth
import Verif.Props.Smoothing
import Verif.Props.RefinementLimits
import Verif.Lemmas.Length
import Verif.Props.Length
import Verif.Lemmas.LowMLP
import Verif.Props.LowOrder
import Verif.Model.Transform
import Verif.Props.Transform
import Verif.Model.Product
import Verif.Spec.Product
import Verif.Props.Product
import Verif.Model.Norm
import Verif.Lemmas.Norm
import Verif.Props.Norm
import Verif.Model.SparseLion
import Verif.Spec.Lion
import Verif.Lemmas.SparseLion
import Verif.Props.SparseLion
import Verif.Spec.Fourier
import Verif.Props.Fourier
import Verif.Model.Embedding
import Verif.Props.Embedding
import Verif.Model.Rotation
import Verif.Lemmas.Rotation
import Verif.Props.Rotation
import Verif.Model.ND
import Verif.Spec.ND
import Verif.Lemmas.ND
import Verif.Props.ND
import Verif.Model.Network
import Verif.Spec.Network
import Verif.Spec.Refinement
import Verif.Lemmas.Heap
import Verif.Lemmas.MLP
import Verif.Lemmas.Layout
import Verif.Lemmas.Reach
import Verif.Lemmas.Transfer
import Verif.Lemmas.PwNet
import Verif.Lemmas.NetRefine
import Verif.Lemmas.Shapes
import Verif.Lemmas.Net
import Verif.Props.NetworkRefinement
import Verif.Props.Network
import Verif.Props.Trainable
import Verif.Props.NetworkOptions
import Verif.Props.NetworkInit
import Verif.Props.NetworkContinuity
import Verif.Props.NetworkExamples
import Verif.Props.NetworkRefinementLimits
import Verif.Model.Conv
import Verif.Spec.Conv
import Verif.Lemmas.Fourier
import Verif.Lemmas.Expand
import Verif.Lemmas.ConvReal
import Verif.Props.Expansion
import Verif.Props.Conv
import Verif.Props.Factories
import Verif.Props.ConvContinuity
import Verif.Model.ConvNet
import Verif.Lemmas.ConvNet
import Verif.Lemmas.TailFocus
import Verif.Props.ConvNet
import Verif.Props.Deconv
import Verif.Props.TailFocus
import Verif.Model.TensorOps
import Verif.Model.Autoencoder
import Verif.Lemmas.TensorOps
import Verif.Lemmas.Gaussian
import Verif.Props.Autoencoder
import Verif.Spec.Attention
import Verif.Model.Attention
import Verif.Lemmas.Attention
import Verif.Props.Attention
import Verif.Model.Modules
import Verif.Spec.Modules
import Verif.Lemmas.Modules
import Verif.Props.Modules
import Verif.Props.BatchNorm
import Verif.Props.ConvInit
import Verif.Props.ConvModel
import Verif.Model.NormLayers
import Verif.Props.LayerNorm
import Verif.Model.Classification
import Verif.Props.Classification
import Verif.Model.Gradient
import Verif.Lemmas.Gradient
import Verif.Props.Gradient
import Verif.Lemmas.Approx
import Verif.Props.Approx
import Verif.Props.Linear
import Verif.Spec.Rounding
import Verif.Lemmas.Rounding
import Verif.Lemmas.RoundingFl
import Verif.Lemmas.RoundingLayer
import Verif.Lemmas.RoundingStack
import Verif.Props.Rounding
import Verif.Lemmas.Universal
import Verif.Props.Universal
import Verif.Lemmas.RoundTrip
import Verif.Props.RoundTrip
import Verif.Props.Identifiability
import Verif.Props.Stability
import Verif.Model.InputGradient
import Verif.Lemmas.InputGradient
import Verif.Props.InputGradient
import Verif.Model.Backward
import Verif.Lemmas.Backward
import Verif.Props.Backward
import Verif.Props.BackwardNetwork
import Verif.Props.Convex
import Verif.Props.Capacity
import Verif.Model.ConvOptions
import Verif.Lemmas.ConvOptions
import Verif.Props.ConvGroups
import Verif.Props.ConvPadding
import Verif.Spec.Pieces
import Verif.Lemmas.Pieces
import Verif.Props.Pieces
import Verif.Spec.Samples
import Verif.Model.ImageExamples
import Verif.Lemmas.Samples
import Verif.Lemmas.ImageExamples
import Verif.Props.ImageExamples
import Verif.Model.BlockExample
import Verif.Props.BlockExample
import Verif.Lemmas.Width
import Verif.Props.Width
import Verif.Lemmas.NormRange
import Verif.Props.NormRange
import Verif.Props.RefineExample
import Verif.Props.XorExample
import Verif.Props.Extrapolation
import Verif.Props.GradientDescent
import Verif.Props.BatchNormPooling
import Verif.Props.VaeExample
import Verif.Props.Sensitivity
import Verif.Props.FunctionExample
import Verif.Props.LionGrid
import Verif.Props.ParamCount
import Verif.Props.DataSplit
import Verif.Props.ImageInputs
import Verif.Props.Accumulation
import Verif.Props.StateDict
import Verif.Props.RefineSizes
import Verif.Props.ConvSamples
import Verif.Props.ConvGradient
import Verif.Props.NormGradient
import Verif.Props.SharedGradient
import Verif.Props.SharedNetwork
import Verif.Props.AttentionWidths
import Verif.Props.StepLoss
import Verif.Props.StepNetwork
import Verif.Props.NetworkDepth
import Verif.Props.NetworkDepthExamples
import Verif.Props.WeightDrift
import Verif.Props.PeriodicNetwork
import Verif.Props.Receptive
import Verif.Spec.LionStep
import Verif.Model.LionNetwork
import Verif.Props.LionNetwork
import Verif.Props.LionTraining
import Verif.Props.EmbeddingDistinct
import Verif.Model.StepStages
import Verif.Spec.StepStages
import Verif.Lemmas.StageLines
import Verif.Props.StepStages
import Verif.Props.StepConvNet
import Verif.Spec.Renumber
import Verif.Lemmas.Renumber
import Verif.Props.Renumber
import Verif.Spec.RenumberTraining
import Verif.Lemmas.RenumberGradients
import Verif.Model.Training
import Verif.Model.LionTraining
import Verif.Props.RenumberTraining
import Verif.Props.RenumberLion
import Verif.Props.RenumberTrainingNetwork
import Verif.Spec.LinkLevels
import Verif.Props.LinkLevels
import Verif.Props.LinkLevelsNetwork
import Verif.Spec.TapLevels
import Verif.Model.StageTraining
import Verif.Props.TapLevels
import Verif.Props.StageRuns
import Verif.Props.TapLevelsNetwork
import Verif.Props.TapLifts
import Verif.Spec.Signs
import Verif.Lemmas.Signs
import Verif.Lemmas.SignLayers
import Verif.Props.Signs
import Verif.Props.SignsNetwork
import Verif.Spec.SignTraining
import Verif.Lemmas.SignGradients
import Verif.Props.SignTraining
import Verif.Props.SignLion
import Verif.Props.SignTrainingLimits
import Verif.Spec.SampleOrder
import Verif.Lemmas.SampleOrder
import Verif.Props.SampleOrder
import Verif.Props.AlikeUnits
import Verif.Props.SampleOrderNetwork
import Verif.Props.SignTrainingNetwork
import Verif.Spec.SampleCopies
import Verif.Lemmas.SampleCopies
import Verif.Props.SampleCopies
import Verif.Props.SampleCopiesNetwork
import Verif.Spec.LossScale
import Verif.Lemmas.LossScale
import Verif.Props.LossScale
import Verif.Props.LossScaleNetwork
import Verif.Props.PerfectFit

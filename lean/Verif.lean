import Verif.Model.Tree
import Verif.Model.BartModel
import Verif.Proofs.ModelInv
import Verif.Props.DataProps
import Verif.Props.SplitValueProb
import Verif.Props.TreeProps
import Verif.Props.PredictProps
import Verif.Props.ModelProps
import Verif.Proofs.ModelTrees
import Verif.Proofs.RealLemmas
import Verif.Props.ProposerProps
import Verif.Props.RatioProps
import Verif.Props.AcceptProps
import Verif.Props.PosteriorProps
import Verif.Proofs.InvGamma
import Verif.Proofs.SweepExists
import Verif.Props.SigmaProps
import Verif.Props.ScalarProps
import Verif.Props.ScheduleProps
import Verif.Props.StoredProps
import Verif.Props.SamplesProps
import Verif.Props.SklearnProps
import Verif.Props.FitProps
import Verif.Props.RunnerProps
import Verif.Props.FeatureProps
import Verif.Props.SelectionProps
import Verif.Props.InitializerProps
import Verif.Props.ObliviousProps
import Verif.Props.ObliviousRatioProps
import Verif.Props.ExtensionProps
import Verif.Proofs.Transport
import Verif.Proofs.TransportSampler
import Verif.Proofs.TransportModel
import Verif.Props.InvarianceProps
import Verif.Model.Params
import Verif.Props.ParamProps
import Verif.Model.Generator
import Verif.Props.GeneratorProps
import Verif.Proofs.Sim
import Verif.Proofs.SimSampler
import Verif.Proofs.SimModel
import Verif.Proofs.SimRun
import Verif.Spec.Storing
import Verif.Props.StoringProps
import Verif.Spec.DecisionTree
import Verif.Props.ForestProps
import Verif.Model.Diagnostics
import Verif.Model.Tables
import Verif.Model.GlobalThresholds
import Verif.Props.DiagnosticsProps
import Verif.Props.TablesProps
import Verif.Model.FeaturePlots
import Verif.Props.FeaturePlotProps
import Verif.Model.SklearnInit
import Verif.Props.InitFitProps
import Verif.Props.StuckProps
import Verif.Spec.Reference
import Verif.Proofs.RefLook
import Verif.Proofs.RefPropose
import Verif.Proofs.RefStep
import Verif.Proofs.RefSweep
import Verif.Props.ReferenceProps
import Verif.Spec.Order
import Verif.Proofs.Translate
import Verif.Proofs.RefPerm
import Verif.Props.OrderProps
import Verif.Spec.Recur
import Verif.Proofs.NoReturn
import Verif.Props.RecurProps
import Verif.Props.SizeProps
import Verif.Props.DomainProps
import Verif.Spec.RunLength
import Verif.Props.RunLengthProps
import Verif.Spec.Draws
import Verif.Proofs.Draws
import Verif.Props.ProposalProps
import Verif.Spec.Equilibrium
import Verif.Props.EquilibriumProps
import Verif.Model.AnyTarget
import Verif.Spec.AnyTarget
import Verif.Proofs.AnyTargetLemmas
import Verif.Proofs.AnyTargetDraws
import Verif.Proofs.AnyTargetFinite
import Verif.Props.AnyTargetProps
import Verif.Spec.Mirror
import Verif.Proofs.RefMirror
import Verif.Props.MirrorProps
import Verif.Model.Arrays
import Verif.Proofs.RefSound
import Verif.Proofs.ArraysLemmas
import Verif.Proofs.ArraysRun
import Verif.Props.ArraysProps
import Verif.Proofs.Streams
import Verif.Spec.Turn
import Verif.Proofs.RefTurn
import Verif.Proofs.RefTurnTree
import Verif.Proofs.RefTurnStep
import Verif.Props.TurnProps
import Verif.Props.MissingProps
import Verif.Props.DoubleProps
import Verif.Props.RoundingProps
import Verif.Spec.Returns
import Verif.Proofs.Returns
import Verif.Proofs.AlmostSure
import Verif.Props.ReturnsProps
import Verif.Model.Recursion
import Verif.Proofs.Recursion
import Verif.Props.RecursionProps
import Verif.Model.Scaling
import Verif.Props.ScalingProps
import Verif.Spec.Readings
import Verif.Proofs.Averages
import Verif.Proofs.FiniteRange
import Verif.Props.MoreChainsProps
import Verif.Spec.StoredTrees
import Verif.Proofs.RefStored
import Verif.Props.StoredTreesProps
import Verif.Props.MoreChainsFeatureProps
import Verif.Model.ObliviousFit
import Verif.Proofs.ObliviousShape
import Verif.Proofs.ObliviousStep
import Verif.Proofs.ObliviousTree
import Verif.Proofs.ObliviousPredict
import Verif.Proofs.ObliviousFit
import Verif.Props.ObliviousFitProps
import Verif.Props.ObliviousRealProps
import Verif.Spec.Layers
import Verif.Proofs.LayerView
import Verif.Proofs.LayerPropose
import Verif.Proofs.LayerRatio
import Verif.Proofs.LayerStep
import Verif.Proofs.LayerSweep
import Verif.Proofs.LayerSamples
import Verif.Props.ObliviousReferenceProps
import Verif.Props.ObliviousUnitsProps
import Verif.Model.Lengths
import Verif.Props.LengthProps
import Verif.Spec.LayerNodes
import Verif.Proofs.LayerNodes
import Verif.Props.ObliviousFeatureProps
import Verif.Proofs.LayerRecode
import Verif.Proofs.LayerMirror
import Verif.Props.ObliviousSymmetryProps
import Verif.Proofs.LayerPerm
import Verif.Props.ObliviousOrderProps
import Verif.Proofs.LayerReturns
import Verif.Props.ObliviousReturnsProps
import Verif.Spec.ObliviousRecur
import Verif.Proofs.LayerRecur
import Verif.Proofs.LayerTower
import Verif.Props.ObliviousRecurProps
import Verif.Props.ObliviousTowerProps
import Verif.Spec.ObliviousDraws
import Verif.Proofs.LayerDraws
import Verif.Proofs.LayerProposal
import Verif.Props.ObliviousProposalProps
import Verif.Spec.ObliviousEquilibrium
import Verif.Props.ObliviousEquilibriumProps
import Verif.Proofs.LayerFinite
import Verif.Props.ObliviousMoreChainsProps
import Verif.Props.ObliviousMoreChainsFeatureProps
import Verif.Proofs.LayerForest
import Verif.Props.ObliviousForestProps
import Verif.Props.ObliviousRunLengthProps
import Verif.Spec.Selection
import Verif.Proofs.SelectorRuns
import Verif.Proofs.SelectorReturns
import Verif.Props.SelectionRateProps
import Verif.Spec.Copies
import Verif.Proofs.RefCopy
import Verif.Proofs.RefCopySweep
import Verif.Props.CopyProps
import Verif.Proofs.LayerCopy
import Verif.Props.ObliviousCopyProps
import Verif.Spec.CopyShares
import Verif.Props.CopyShareProps
import Verif.Props.ObliviousCopyShareProps
import Verif.Props.ShareInvarianceProps
import Verif.Proofs.RefRecode
import Verif.Props.ShareColumnsProps
import Verif.Props.ShareTurnProps
import Verif.Props.ExtensionUnitProps
import Verif.Props.ShareRowsProps
import Verif.Props.ExtensionOrderProps
import Verif.Props.GlobalThresholdProps
import Verif.Props.StricterProps

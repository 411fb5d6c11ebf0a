import Verif.Props.HealthNames
import Verif.Props.HealthUpdate
import Verif.Props.Dimensions
import Verif.Props.Expand
import Verif.Props.ExpandRefused
import Verif.Props.Container
import Verif.Props.EcmBatch
import Verif.Props.EcmReturns
import Verif.Props.EcmBounds
import Verif.Props.UkfOrder
import Verif.Props.EcmInterp
import Verif.Props.EcmCache
import Verif.Props.EcmTemperature
import Verif.Props.EcmEnergy
import Verif.Props.EcmTemplate
import Verif.Props.EcmSharing
import Verif.Props.EcmExact
import Verif.Props.Simulator
import Verif.Props.SimulatorIsolation
import Verif.Props.SimulatorFrame
import Verif.Props.Thevenin
import Verif.Props.Distributions
import Verif.Props.Ukf
import Verif.Props.Wrappers
import Verif.Model.Estimators
import Verif.Proofs.RestCell
import Verif.Props.UkfScale
import Verif.Props.Estimators
import Verif.Props.EstimatorsDual
import Verif.Props.StateNames
import Verif.Props.DualRuns
import Verif.Props.DualSubset
import Verif.Model.Interface
import Verif.Props.Hdf5
import Verif.Props.Hdf5Life
import Verif.Props.Hdf5Keys
import Verif.Props.Interface
import Verif.Props.JointRuns
import Verif.Props.InterfaceRuns
import Verif.Props.Offline
import Verif.Props.Extractors
import Verif.Model.DistributionChecks
import Verif.Props.DistributionChecks
import Verif.Props.FreshEstimator
import Verif.Props.FreshControls
import Verif.Props.WrapperSteps
import Verif.Props.TheveninFresh
import Verif.Props.Json
import Verif.Props.EcmRest
import Verif.Props.EcmInvariance
import Verif.Props.EcmEstimator
import Verif.Props.EcmDual
import Verif.Props.EcmDualRuns
import Verif.Props.EcmPipeline
import Verif.Props.Temperature
import Verif.Props.ControlNames
import Verif.Props.HealthMarks
import Verif.Props.RampedPipeline
import Verif.Props.RampedRuns
import Verif.Props.EcmSimulate
import Verif.Props.UkfSigma
import Verif.Props.SimulatorColumns
import Verif.Props.EcmDefaults
import Verif.Props.NamesMarked
import Verif.Props.UkfDecay
import Verif.Props.EcmForget
import Verif.Props.EcmPack
import Verif.Props.EcmDataset
import Verif.Props.UkfLeast
import Verif.Props.UkfResidual
import Verif.Props.TimeOrigin
import Verif.Props.EcmOrder
import Verif.Props.Columns
import Verif.Props.Normalize
import Verif.Props.Regression
import Verif.Props.Coupled
import Verif.Props.JointKalman
import Verif.Props.JointTruth
import Verif.Props.HealthCompose
import Verif.Props.JointForget
import Verif.Props.OfflineCircuit
import Verif.Props.FileRuns
import Verif.Props.Interrupted
import Verif.Props.EstimatorLive
import Verif.Props.StatisticsPossible
import Verif.Props.CalibratedPossible
import Verif.Props.Bayes
import Verif.Props.Quadratic
import Verif.Props.OcvFit
import Verif.Props.MoreCurrent
import Verif.Props.SlowCell
import Verif.Props.CircuitDimensions
import Verif.Props.TheveninOde
import Verif.Props.TheveninRest
import Verif.Props.TheveninForget
import Verif.Props.TheveninPack
import Verif.Props.TwoModels
import Verif.Props.TheveninClock
import Verif.Props.TheveninOrder
import Verif.Props.Pulse
import Verif.Props.Superpose

import Verif.Lemmas.Block
import Verif.Lemmas.BlockSum
import Verif.Lemmas.BoundaryGrid
import Verif.Lemmas.Bundle
import Verif.Lemmas.Calls
import Verif.Lemmas.Cfl
import Verif.Lemmas.ConnectorEnergy
import Verif.Lemmas.Construct
import Verif.Lemmas.Converge
import Verif.Lemmas.Courant
import Verif.Lemmas.Decay
import Verif.Lemmas.Dieout
import Verif.Lemmas.Energy
import Verif.Lemmas.Equations
import Verif.Lemmas.ErrorEnergy
import Verif.Lemmas.Field
import Verif.Lemmas.Fields
import Verif.Lemmas.Fortran
import Verif.Lemmas.Fourier
import Verif.Lemmas.GridLimit
import Verif.Lemmas.Grounding
import Verif.Lemmas.Manager
import Verif.Lemmas.ManagerCircuit
import Verif.Lemmas.ManagerComb
import Verif.Lemmas.ManagerDriven
import Verif.Lemmas.ManagerEnergy
import Verif.Lemmas.ManagerGrowth
import Verif.Lemmas.ManagerPerm
import Verif.Lemmas.ManagerPulse
import Verif.Lemmas.ManagerReciprocity
import Verif.Lemmas.ManagerRedriven
import Verif.Lemmas.ManagerRelax
import Verif.Lemmas.ManagerRemade
import Verif.Lemmas.ManagerRun
import Verif.Lemmas.ManagerSolve
import Verif.Lemmas.ManagerTones
import Verif.Lemmas.ManagerWave
import Verif.Lemmas.Mean
import Verif.Lemmas.Mesh
import Verif.Lemmas.Mirror
import Verif.Lemmas.Network
import Verif.Lemmas.NetworkLayout
import Verif.Lemmas.Parser
import Verif.Lemmas.Periodic
import Verif.Lemmas.Phasor
import Verif.Lemmas.Physical
import Verif.Lemmas.PlainAccept
import Verif.Lemmas.PlainBundles
import Verif.Lemmas.PlainFile
import Verif.Lemmas.PlainLines
import Verif.Lemmas.PlainNetworks
import Verif.Lemmas.Probes
import Verif.Lemmas.ProgramBuild
import Verif.Lemmas.Reciprocity
import Verif.Lemmas.Relational
import Verif.Lemmas.Relax
import Verif.Lemmas.Renumber
import Verif.Lemmas.Run
import Verif.Lemmas.Shield
import Verif.Lemmas.Single
import Verif.Lemmas.Spectrum
import Verif.Lemmas.Stability
import Verif.Lemmas.Straight
import Verif.Lemmas.Sub
import Verif.Lemmas.Taylor
import Verif.Lemmas.TelegraphLimit
import Verif.Lemmas.Timestep
import Verif.Lemmas.Twin
import Verif.Model.Broadcast
import Verif.Model.Bundle
import Verif.Model.Construct
import Verif.Model.Dispersive
import Verif.Model.Field
import Verif.Model.Fortran
import Verif.Model.Line
import Verif.Model.LineApi
import Verif.Model.Manager
import Verif.Model.Network
import Verif.Model.Parser
import Verif.Model.Port
import Verif.Model.Probe
import Verif.Model.Py
import Verif.Model.Scripts
import Verif.Model.StateVars
import Verif.Model.Text
import Verif.Model.Transfer
import Verif.Model.Utils
import Verif.Model.Vec
import Verif.Model.VectorFit
import Verif.Model.Waveforms
import Verif.Props.Attenuation
import Verif.Props.Broadcast
import Verif.Props.BuildErrors
import Verif.Props.Bundle
import Verif.Props.BundleRegion
import Verif.Props.BundleStep
import Verif.Props.Circuit
import Verif.Props.CleanCopy
import Verif.Props.ConnectorEnergy
import Verif.Props.ConnectorLoop
import Verif.Props.ConnectorTransfer
import Verif.Props.Construct
import Verif.Props.Converge
import Verif.Props.ConvergeBuilt
import Verif.Props.ConvergeMax
import Verif.Props.Demo
import Verif.Props.DispersionRelation
import Verif.Props.Dispersive
import Verif.Props.EndToEnd
import Verif.Props.EndToEndExact
import Verif.Props.EpsMedium
import Verif.Props.Equations
import Verif.Props.Exact
import Verif.Props.ExternalField
import Verif.Props.FieldApi
import Verif.Props.FieldErrors
import Verif.Props.FileEnds
import Verif.Props.Fortran
import Verif.Props.FortranGrowth
import Verif.Props.FortranRuns
import Verif.Props.FortranSaved
import Verif.Props.FortranSettle
import Verif.Props.FortranShipped
import Verif.Props.FrequencyPower
import Verif.Props.FrequencyResponse
import Verif.Props.GeneralEnds
import Verif.Props.GeneralLimit
import Verif.Props.Geometry
import Verif.Props.Homogeneous
import Verif.Props.Impedance
import Verif.Props.ImpedanceFit
import Verif.Props.JointGroups
import Verif.Props.LightCone
import Verif.Props.LineApi
import Verif.Props.LineRegion
import Verif.Props.Linear
import Verif.Props.Localized
import Verif.Props.LocalizedCells
import Verif.Props.LookupErrors
import Verif.Props.Manager
import Verif.Props.ManagerAC
import Verif.Props.ManagerCircuit
import Verif.Props.ManagerDemo
import Verif.Props.ManagerEnergy
import Verif.Props.ManagerFFT
import Verif.Props.ManagerFFTCurrent
import Verif.Props.ManagerGrowth
import Verif.Props.ManagerLinear
import Verif.Props.ManagerOrder
import Verif.Props.ManagerPeriodic
import Verif.Props.ManagerPower
import Verif.Props.ManagerReciprocity
import Verif.Props.ManagerRelax
import Verif.Props.ManagerSinus
import Verif.Props.ManagerSpectrum
import Verif.Props.ManagerSplit
import Verif.Props.ManagerSteady
import Verif.Props.ManagerTotal
import Verif.Props.MatchedPulse
import Verif.Props.Modes
import Verif.Props.ModesLimit
import Verif.Props.Network
import Verif.Props.NetworkBuild
import Verif.Props.NetworkErrors
import Verif.Props.ParserCoupling
import Verif.Props.ParserErrors
import Verif.Props.ParserFile
import Verif.Props.ParserGraph
import Verif.Props.ParserJoint
import Verif.Props.ParserJunction
import Verif.Props.ParserLine
import Verif.Props.ParserLookup
import Verif.Props.ParserRead
import Verif.Props.ParserRepeat
import Verif.Props.ParserRun
import Verif.Props.ParserSource
import Verif.Props.ParserTermination
import Verif.Props.Periodic
import Verif.Props.PlainAccept
import Verif.Props.PlainFile
import Verif.Props.PlaneWave
import Verif.Props.Port
import Verif.Props.ProbeApi
import Verif.Props.ProbeSeen
import Verif.Props.Program
import Verif.Props.ProgramAccept
import Verif.Props.ProgramSources
import Verif.Props.PulseFFT
import Verif.Props.PulseFFTCurrent
import Verif.Props.PulseLimit
import Verif.Props.PulseTransfer
import Verif.Props.Reciprocity
import Verif.Props.Reflection
import Verif.Props.Region
import Verif.Props.Registration
import Verif.Props.Relax
import Verif.Props.Runs
import Verif.Props.Scripts
import Verif.Props.Separate
import Verif.Props.Shield
import Verif.Props.ShieldBuild
import Verif.Props.SmallPrint
import Verif.Props.Smooth
import Verif.Props.Spectrum
import Verif.Props.Stability
import Verif.Props.StateVars
import Verif.Props.Steady
import Verif.Props.Symmetry
import Verif.Props.Tank
import Verif.Props.TankGrowth
import Verif.Props.Telegraph
import Verif.Props.Terminations
import Verif.Props.Text
import Verif.Props.TextErrors
import Verif.Props.Transfer
import Verif.Props.TransferImpedance
import Verif.Props.Twin
import Verif.Props.Units
import Verif.Props.UnitsApi
import Verif.Props.VectorFit
import Verif.Props.Waveforms
import Verif.Spec.Bundle
import Verif.Spec.ConnectorEnergy
import Verif.Spec.Construct
import Verif.Spec.Converge
import Verif.Spec.Energy
import Verif.Spec.Equations
import Verif.Spec.Impedance
import Verif.Spec.Manager
import Verif.Spec.ManagerAC
import Verif.Spec.ManagerCircuit
import Verif.Spec.ManagerEnergy
import Verif.Spec.ManagerPower
import Verif.Spec.ManagerReciprocity
import Verif.Spec.ManagerRelax
import Verif.Spec.ManagerSteady
import Verif.Spec.Network
import Verif.Spec.NetworkBuild
import Verif.Spec.PlainFile
import Verif.Spec.Program
import Verif.Spec.Relations
import Verif.Spec.Run
import Verif.Spec.Shield
import Verif.Spec.Symmetry
import Verif.Spec.Text
import Verif.Spec.TransferImpedance

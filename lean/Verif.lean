import Verif.Props.Balance
import Verif.Props.BasisIO
import Verif.Props.Bias
import Verif.Props.Centroid
import Verif.Props.ClassNames
import Verif.Props.ClusterIO
import Verif.Props.Composition
import Verif.Props.CompositionSetup
import Verif.Props.ConstraintString
import Verif.Props.Container
import Verif.Props.Convergence
import Verif.Props.Decomposition
import Verif.Props.Diagnostics
import Verif.Props.Distance
import Verif.Props.Energy
import Verif.Props.Ensemble
import Verif.Props.Ergodic
import Verif.Props.Expansion
import Verif.Props.ExpansionState
import Verif.Props.FlipTable
import Verif.Props.FromExpansion
import Verif.Props.GroundSolver
import Verif.Props.GroundTerms
import Verif.Props.GroundVars
import Verif.Props.Hierarchy
import Verif.Props.HullWeights
import Verif.Props.IntLinAlg
import Verif.Props.LegacyContainer
import Verif.Props.MultiThermal
import Verif.Props.Multicell
import Verif.Props.NatSolutions
import Verif.Props.OccuUtils
import Verif.Props.Orbit
import Verif.Props.OrbitGen
import Verif.Props.OrbitIndices
import Verif.Props.OrbitRotation
import Verif.Props.OrbitSpace
import Verif.Props.Potts
import Verif.Props.ProcObjects
import Verif.Props.Processor
import Verif.Props.RandomOccu
import Verif.Props.Reaction
import Verif.Props.Records
import Verif.Props.SampleStats
import Verif.Props.Sampler
import Verif.Props.SectionChoice
import Verif.Props.Seed
import Verif.Props.Select
import Verif.Props.Serialize
import Verif.Props.Session
import Verif.Props.SiteBasis
import Verif.Props.SiteSpace
import Verif.Props.SplitRun
import Verif.Props.Sqs
import Verif.Props.SqsGen
import Verif.Props.SubOrbit
import Verif.Props.Sublattice
import Verif.Props.SubspaceSelect
import Verif.Props.SubspaceState
import Verif.Props.Supercell
import Verif.Props.SupercellIndex
import Verif.Props.Thermo
import Verif.Props.ThreadSettings
import Verif.Props.Threads
import Verif.Props.TraceRun
import Verif.Props.TraceStats
import Verif.Props.Usher
import Verif.Props.UsherConfig
import Verif.Props.Variance
import Verif.Props.WLChain
import Verif.Props.WalkerStart
import Verif.Props.WangLandau
import Verif.Props.Wrangle
import Verif.Props.WranglerObjects
import Verif.Props.WranglerState
import Verif.Audit

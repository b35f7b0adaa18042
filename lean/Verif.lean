import Verif.Model.Py
import Verif.Model.HullCount
import Verif.Model.Hull
import Verif.Spec.Hull
import Verif.Lemmas.HullCount
import Verif.Lemmas.HullTree
import Verif.Lemmas.Combinations
import Verif.Lemmas.HullEnergy
import Verif.Lemmas.HullGeom
import Verif.Lemmas.HullRange
import Verif.Lemmas.HullRec
import Verif.Lemmas.HullMisc
import Verif.Lemmas.HullExample
import Verif.Props.Hull
import Verif.Lemmas.HullConvex
import Verif.Props.HullConvex
import Verif.Props.HullScore
import Verif.Model.Utils
import Verif.Lemmas.Utils
import Verif.Props.Utils
import Verif.Model.Pareto
import Verif.Spec.Pareto
import Verif.Lemmas.Pareto
import Verif.Props.Pareto
import Verif.Model.PyData
import Verif.Model.Chem
import Verif.Model.Reaction
import Verif.Spec.Reaction
import Verif.Lemmas.Dict
import Verif.Lemmas.Reaction
import Verif.Props.Reaction
import Verif.Props.ReactionNorm
import Verif.Props.ReactionFrac
import Verif.Props.ReactionEq
import Verif.Props.ReactionEnergy
import Verif.Model.Balance
import Verif.Props.Balance
import Verif.Props.BalanceLinear
import Verif.Props.BalanceBest
import Verif.Lemmas.Except
import Verif.Model.RxnSet
import Verif.Spec.RxnSet
import Verif.Lemmas.RxnSet
import Verif.Props.RxnSet
import Verif.Lemmas.RxnFilter
import Verif.Props.RxnFilter
import Verif.Model.Enum
import Verif.Props.Enum
import Verif.Props.EnumGroup
import Verif.Model.Entries
import Verif.Props.EntrySet
import Verif.Props.EntryTemp
import Verif.Props.EntryTable
import Verif.Model.Thermo
import Verif.Props.Thermo
import Verif.Model.EntryFlow
import Verif.Props.EntryFlow
import Verif.Props.EntrySets
import Verif.Props.LargeSets
import Verif.Props.EntryDb
import Verif.Props.Minimize
import Verif.Model.Network
import Verif.Spec.Network
import Verif.Lemmas.Network
import Verif.Props.Network
import Verif.Lemmas.NetworkState
import Verif.Props.NetworkState
import Verif.Props.NetworkDict
import Verif.Spec.Paths
import Verif.Lemmas.Paths
import Verif.Lemmas.Yen
import Verif.Props.Yen
import Verif.Spec.Pathfinding
import Verif.Props.Pathfinding
import Verif.Model.Pathway
import Verif.Spec.Pathway
import Verif.Props.Pathway
import Verif.Model.Solver
import Verif.Spec.Solver
import Verif.Lemmas.Solver
import Verif.Props.Solver
import Verif.Model.Costs
import Verif.Spec.Costs
import Verif.Props.Costs
import Verif.Model.Jobs
import Verif.Spec.Jobs
import Verif.Props.Jobs
import Verif.Model.Parser
import Verif.Spec.Parser
import Verif.Lemmas.Parser
import Verif.Lemmas.Decimal
import Verif.Props.Parser
import Verif.Model.HullInit
import Verif.Props.HullInit
import Verif.Model.Chempot
import Verif.Props.Chempot
import Verif.Model.Gibbs
import Verif.Props.Gibbs
import Verif.Model.Uncertainty
import Verif.Props.Uncertainty
import Verif.Model.Alias
import Verif.Props.Alias
import Verif.Props.Identity
import Verif.Spec.Table
import Verif.Model.Table
import Verif.Props.Table
import Verif.Props.RxnSetTemps
import Verif.Model.Symbols
import Verif.Spec.Symbols
import Verif.Props.Symbols
import Verif.Model.DfTools
import Verif.Props.DfTools
import Verif.Model.NetEntry
import Verif.Props.NetEntry
import Verif.Props.RxnSetChempot
import Verif.Model.NetDict
import Verif.Props.NetDict
import Verif.Model.Intermediates
import Verif.Props.Intermediates
import Verif.Model.SynthJob
import Verif.Props.SynthJob
import Verif.Model.NetJob
import Verif.Props.NetJob
import Verif.Model.Flow
import Verif.Props.Flow
import Verif.Model.MpDb
import Verif.Props.MpDb
import Verif.Model.Criteria
import Verif.Props.Criteria
import Verif.Model.GibbsDict
import Verif.Props.GibbsDict
import Verif.Model.Cascade
import Verif.Props.Cascade
import Verif.Model.SolverJob
import Verif.Props.SolverJob
import Verif.Model.ExperData
import Verif.Props.ExperData
import Verif.Model.PathMatrix
import Verif.Props.PathMatrix
import Verif.Model.JobStore
import Verif.Props.JobStore
import Verif.Model.Cluster
import Verif.Props.Cluster
import Verif.Model.Indices
import Verif.Props.Indices
import Verif.Model.PathEnergy
import Verif.Props.PathEnergy
import Verif.Props.EnumComplete
import Verif.Props.PathRank
import Verif.Model.SetDict
import Verif.Props.SetDict
import Verif.Props.PathHash
import Verif.Props.HullMirror
import Verif.Props.Written
import Verif.Model.SetOps
import Verif.Props.SetOps
import Verif.Props.SolverChunks
import Verif.Model.RxnTemp
import Verif.Props.RxnTemp
import Verif.Props.EnumExact
import Verif.Props.EndToEnd
import Verif.Props.EnumOpenExact
import Verif.Model.HullPlot
import Verif.Props.HullPlot
import Verif.Props.GroundState
import Verif.Spec.Carry
import Verif.Props.Carry
import Verif.Model.StabilityFilter
import Verif.Props.StabilityFilter
import Verif.Props.YenLayered
import Verif.Props.GroundStateOpen
import Verif.Props.MinHull
import Verif.Props.Reference
import Verif.Props.HullGrow
import Verif.Props.Search
import Verif.Props.HullUnit
import Verif.Props.PathHull
import Verif.Props.DomainDistance
import Verif.Props.Coexist
import Verif.Props.Residual
import Verif.Props.StableDomains
import Verif.Model.Minimize
import Verif.Model.MetaDomains
import Verif.Props.MetaDomains
import Verif.Props.ResidualAny
import Verif.Props.ParetoLaws
import Verif.Model.NetPlot
import Verif.Props.NetPlot
import Verif.Props.HullUnitRec
import Verif.Props.DomainShift
import Verif.Props.HullTol
import Verif.Props.SolverGrow
import Verif.Props.CoexistMany
import Verif.Props.SolverEnum
import Verif.Props.EnumTemp
import Verif.Props.PathHullOpen
import Verif.Props.SetAlgebra
import Verif.Props.OpenWindow
import Verif.Props.EnergyError
import Verif.Props.StabilityError
import Verif.Props.CostError
import Verif.Props.DomainGrow
import Verif.Props.TempLine
import Verif.Props.CostChoice
import Verif.Props.StabilityTemp
import Verif.Props.ScoreTemp
import Verif.Props.OpenScore
import Verif.Props.CostBetween
import Verif.Props.TempAny
import Verif.Props.TempPoly

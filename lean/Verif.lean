import Verif.Lemmas.AdaptiveQueue
import Verif.Lemmas.AstarHeuristic
import Verif.Lemmas.AxiomLayers
import Verif.Lemmas.AxiomNeeded
import Verif.Lemmas.AxiomOut
import Verif.Lemmas.AxiomSimplify
import Verif.Lemmas.AxiomTask
import Verif.Lemmas.Axioms
import Verif.Lemmas.AxiomsLoop
import Verif.Lemmas.Bitset
import Verif.Lemmas.BuildFire
import Verif.Lemmas.BuildLoop
import Verif.Lemmas.BuildRules
import Verif.Lemmas.BuildUnify
import Verif.Lemmas.BuildValid
import Verif.Lemmas.Canonical
import Verif.Lemmas.CartBasic
import Verif.Lemmas.CartDist
import Verif.Lemmas.CartExact
import Verif.Lemmas.CartInv
import Verif.Lemmas.CartRewire
import Verif.Lemmas.CartSubtask
import Verif.Lemmas.CegarFlaw
import Verif.Lemmas.CegarPb
import Verif.Lemmas.CegarRun
import Verif.Lemmas.CegarSearch
import Verif.Lemmas.Cliques
import Verif.Lemmas.CostPartition
import Verif.Lemmas.CountingObject
import Verif.Lemmas.DefaultAxioms
import Verif.Lemmas.DefaultReach
import Verif.Lemmas.DeleteRelaxationIF
import Verif.Lemmas.DeleteRelaxationRR
import Verif.Lemmas.Dijkstra
import Verif.Lemmas.DomAbs
import Verif.Lemmas.DomAbsTask
import Verif.Lemmas.Dominance
import Verif.Lemmas.EagerAbstract
import Verif.Lemmas.EagerInv
import Verif.Lemmas.EagerProbe
import Verif.Lemmas.EagerResults
import Verif.Lemmas.EhcSearch
import Verif.Lemmas.EquivRel
import Verif.Lemmas.Evaluator
import Verif.Lemmas.FactGroups
import Verif.Lemmas.FactGroupsOut
import Verif.Lemmas.FactInstances
import Verif.Lemmas.FourierMotzkin
import Verif.Lemmas.HittingSets
import Verif.Lemmas.HmExact
import Verif.Lemmas.HmLoop
import Verif.Lemmas.HmTuples
import Verif.Lemmas.InstantiateAction
import Verif.Lemmas.InstantiateModel
import Verif.Lemmas.InstantiatePlans
import Verif.Lemmas.IntHashSet
import Verif.Lemmas.IntPacker
import Verif.Lemmas.InvariantBalance
import Verif.Lemmas.InvariantCandidates
import Verif.Lemmas.InvariantReach
import Verif.Lemmas.InvariantSystem
import Verif.Lemmas.IteratedSearch
import Verif.Lemmas.LandmarkAchievers
import Verif.Lemmas.LandmarkCostPart
import Verif.Lemmas.LandmarkCycles
import Verif.Lemmas.LandmarkFactories
import Verif.Lemmas.LandmarkGraphs
import Verif.Lemmas.LandmarkHeuristics
import Verif.Lemmas.LandmarkInv
import Verif.Lemmas.LandmarkLabels
import Verif.Lemmas.LandmarkLp
import Verif.Lemmas.LandmarkMerge
import Verif.Lemmas.LandmarkPasses
import Verif.Lemmas.LandmarkReach
import Verif.Lemmas.LandmarkRuns
import Verif.Lemmas.LandmarkStatus
import Verif.Lemmas.Landmarks
import Verif.Lemmas.LazyProbe
import Verif.Lemmas.LazyResults
import Verif.Lemmas.LazySearch
import Verif.Lemmas.Lexer
import Verif.Lemmas.LexerOrder
import Verif.Lemmas.LexerPrint
import Verif.Lemmas.LexerSplit
import Verif.Lemmas.LmCutExplore
import Verif.Lemmas.LmCutIncr
import Verif.Lemmas.LmCutRounds
import Verif.Lemmas.LmCutSecond
import Verif.Lemmas.LmCutTask
import Verif.Lemmas.MasAbstract
import Verif.Lemmas.MasAlgorithm
import Verif.Lemmas.MasAtomic
import Verif.Lemmas.MasBasic
import Verif.Lemmas.MasCombine
import Verif.Lemmas.MasDistances
import Verif.Lemmas.MasExact
import Verif.Lemmas.MasFactor
import Verif.Lemmas.MasInvariant
import Verif.Lemmas.MasJoint
import Verif.Lemmas.MasLabelMapping
import Verif.Lemmas.MasMerge
import Verif.Lemmas.MasPerfect
import Verif.Lemmas.MasReduce
import Verif.Lemmas.MasRepr
import Verif.Lemmas.MasSize
import Verif.Lemmas.MasSorted
import Verif.Lemmas.MaxCliques
import Verif.Lemmas.MaxDag
import Verif.Lemmas.MergeSccs
import Verif.Lemmas.MergeSelector
import Verif.Lemmas.MergeTotalOrder
import Verif.Lemmas.MergeViews
import Verif.Lemmas.MixedRadix
import Verif.Lemmas.Nnf
import Verif.Lemmas.NormalizeDnf
import Verif.Lemmas.NormalizeFinish
import Verif.Lemmas.NormalizeMove
import Verif.Lemmas.NormalizeOk
import Verif.Lemmas.NormalizePlans
import Verif.Lemmas.NormalizeRel
import Verif.Lemmas.NormalizeRemove
import Verif.Lemmas.NormalizeRun
import Verif.Lemmas.NormalizeSimplify
import Verif.Lemmas.NormalizeTask
import Verif.Lemmas.OpenList
import Verif.Lemmas.OpenListBF
import Verif.Lemmas.OpenListEps
import Verif.Lemmas.OpenListPareto
import Verif.Lemmas.OpenListSpec
import Verif.Lemmas.OperatorCounting
import Verif.Lemmas.Parser
import Verif.Lemmas.ParserComplete
import Verif.Lemmas.PdbOps
import Verif.Lemmas.PdbProj
import Verif.Lemmas.PdbStep
import Verif.Lemmas.PdbTask
import Verif.Lemmas.PdbTree
import Verif.Lemmas.PddlCond
import Verif.Lemmas.PerState
import Verif.Lemmas.PotentialFunctions
import Verif.Lemmas.PotentialObjective
import Verif.Lemmas.Potentials
import Verif.Lemmas.ProgramFold
import Verif.Lemmas.ProgramJoin
import Verif.Lemmas.ProgramNormalize
import Verif.Lemmas.ProgramSplit
import Verif.Lemmas.ProjectTask
import Verif.Lemmas.PySccs
import Verif.Lemmas.QueueOps
import Verif.Lemmas.Registry
import Verif.Lemmas.RegistryOps
import Verif.Lemmas.RelaxExplore
import Verif.Lemmas.RelaxMarks
import Verif.Lemmas.RelaxResults
import Verif.Lemmas.RelaxTask
import Verif.Lemmas.SasCheck
import Verif.Lemmas.SasRoundTrip
import Verif.Lemmas.SasStable
import Verif.Lemmas.SasTruncated
import Verif.Lemmas.Saturation
import Verif.Lemmas.SaturationRun
import Verif.Lemmas.Sccs
import Verif.Lemmas.SearchCausalGraph
import Verif.Lemmas.SearchSpace
import Verif.Lemmas.SegmentedVector
import Verif.Lemmas.ShrinkBisimulation
import Verif.Lemmas.ShrinkBuckets
import Verif.Lemmas.ShrinkClasses
import Verif.Lemmas.ShrinkCombine
import Verif.Lemmas.ShrinkPass
import Verif.Lemmas.ShrinkSplit
import Verif.Lemmas.SimpleSucc
import Verif.Lemmas.SimpleTask
import Verif.Lemmas.SimplifyOperators
import Verif.Lemmas.SimplifyReach
import Verif.Lemmas.SimplifyRenaming
import Verif.Lemmas.SimplifySim
import Verif.Lemmas.SimplifyTask
import Verif.Lemmas.SimplifyValid
import Verif.Lemmas.StateEquation
import Verif.Lemmas.StripsBuild
import Verif.Lemmas.StripsConds
import Verif.Lemmas.StripsOperator
import Verif.Lemmas.StripsPlans
import Verif.Lemmas.StripsRename
import Verif.Lemmas.StripsStable
import Verif.Lemmas.StripsSteps
import Verif.Lemmas.StripsTask
import Verif.Lemmas.StripsValid
import Verif.Lemmas.StubbornAC
import Verif.Lemmas.StubbornBasic
import Verif.Lemmas.StubbornCore
import Verif.Lemmas.StubbornEC
import Verif.Lemmas.StubbornSearch
import Verif.Lemmas.StubbornSimple
import Verif.Lemmas.SuccGen
import Verif.Lemmas.TaskEmbedding
import Verif.Lemmas.TaskReader
import Verif.Lemmas.TaskSearch
import Verif.Lemmas.TaskWorld
import Verif.Lemmas.UniquifyCond
import Verif.Lemmas.UniquifyTask
import Verif.Lemmas.VariableOrder
import Verif.Lemmas.VariableOrderFinder
import Verif.Lemmas.VariableOrderTask
import Verif.Lemmas.VertexElimination
import Verif.Lemmas.ZeroOne
import Verif.Model.AdaptiveQueue
import Verif.Model.AxiomRules
import Verif.Model.Axioms
import Verif.Model.Bitset
import Verif.Model.BuildModel
import Verif.Model.Cartesian
import Verif.Model.Cegar
import Verif.Model.CostSaturation
import Verif.Model.DefaultAxioms
import Verif.Model.DeleteRelaxationIF
import Verif.Model.DeleteRelaxationRR
import Verif.Model.Dijkstra
import Verif.Model.DomainAbstraction
import Verif.Model.EagerSearch
import Verif.Model.EhcSearch
import Verif.Model.EquivRel
import Verif.Model.Evaluator
import Verif.Model.ExitCodes
import Verif.Model.FactGroups
import Verif.Model.Hm
import Verif.Model.Instantiate
import Verif.Model.IntHashSet
import Verif.Model.IntPacker
import Verif.Model.Invariants
import Verif.Model.IteratedSearch
import Verif.Model.LandmarkExploration
import Verif.Model.LandmarkFactories
import Verif.Model.LandmarkHeuristics
import Verif.Model.Landmarks
import Verif.Model.LazySearch
import Verif.Model.Lexer
import Verif.Model.Lisp
import Verif.Model.LmCut
import Verif.Model.MasAlgorithm
import Verif.Model.MasDistances
import Verif.Model.MasFts
import Verif.Model.MasTransition
import Verif.Model.MaxCliques
import Verif.Model.MergeStrategies
import Verif.Model.Normalize
import Verif.Model.OpenList
import Verif.Model.OpenListLeaf
import Verif.Model.OperatorCost
import Verif.Model.OperatorCounting
import Verif.Model.OrderedSet
import Verif.Model.Parser
import Verif.Model.Pdb
import Verif.Model.PdbCollections
import Verif.Model.PddlEffects
import Verif.Model.PerState
import Verif.Model.PerTask
import Verif.Model.PlanFiles
import Verif.Model.Potentials
import Verif.Model.Products
import Verif.Model.PrologProgram
import Verif.Model.PySccs
import Verif.Model.Registry
import Verif.Model.Relaxation
import Verif.Model.Sampling
import Verif.Model.SasWriter
import Verif.Model.Sccs
import Verif.Model.SearchSpace
import Verif.Model.SegmentedVector
import Verif.Model.ShrinkBisimulation
import Verif.Model.ShrinkBuckets
import Verif.Model.SimpleHeuristics
import Verif.Model.Simplify
import Verif.Model.StripsToSas
import Verif.Model.StubbornSets
import Verif.Model.Subtasks
import Verif.Model.SuccGen
import Verif.Model.TaskReader
import Verif.Model.TaskWorld
import Verif.Model.TranslateGroups
import Verif.Model.TypeHierarchy
import Verif.Model.TypedList
import Verif.Model.Uniquify
import Verif.Model.VariableOrder
import Verif.Model.VariableOrderFinder
import Verif.Props.AdaptiveQueue
import Verif.Props.AstarHmax
import Verif.Props.AstarLmCut
import Verif.Props.AxiomRules
import Verif.Props.Axioms
import Verif.Props.Bitset
import Verif.Props.BuildModel
import Verif.Props.CanonicalPdbs
import Verif.Props.Cartesian
import Verif.Props.Cegar
import Verif.Props.CountingExamples
import Verif.Props.DefaultAxioms
import Verif.Props.DeleteRelaxationIF
import Verif.Props.DeleteRelaxationIFExamples
import Verif.Props.DeleteRelaxationRR
import Verif.Props.DeleteRelaxationRRValue
import Verif.Props.DomainAbstraction
import Verif.Props.EagerSearch
import Verif.Props.EhcSearch
import Verif.Props.EquivRel
import Verif.Props.Evaluator
import Verif.Props.ExitCodes
import Verif.Props.FactGroups
import Verif.Props.Hm
import Verif.Props.Instantiate
import Verif.Props.IntHashSet
import Verif.Props.IntPacker
import Verif.Props.Invariants
import Verif.Props.IteratedSearch
import Verif.Props.LandmarkFactories
import Verif.Props.LandmarkMerge
import Verif.Props.Landmarks
import Verif.Props.LazySearch
import Verif.Props.Lisp
import Verif.Props.LmCut
import Verif.Props.Mas
import Verif.Props.MasDistances
import Verif.Props.MasExamples
import Verif.Props.MasPerfect
import Verif.Props.MasSizes
import Verif.Props.MaxCliques
import Verif.Props.MergeStrategies
import Verif.Props.Normalize
import Verif.Props.OpenList
import Verif.Props.OperatorCost
import Verif.Props.OperatorCounting
import Verif.Props.OrderedSet
import Verif.Props.Parser
import Verif.Props.PatternNormalize
import Verif.Props.Pdb
import Verif.Props.PddlEffects
import Verif.Props.PerState
import Verif.Props.PerTask
import Verif.Props.PlanFiles
import Verif.Props.PotentialExamples
import Verif.Props.Potentials
import Verif.Props.Products
import Verif.Props.PrologProgram
import Verif.Props.PySccs
import Verif.Props.Registry
import Verif.Props.Relaxation
import Verif.Props.Sampling
import Verif.Props.Saturation
import Verif.Props.Sccs
import Verif.Props.SegmentedVector
import Verif.Props.ShrinkBisimulation
import Verif.Props.ShrinkBuckets
import Verif.Props.SimpleHeuristics
import Verif.Props.Simplify
import Verif.Props.StripsToSas
import Verif.Props.StubbornSets
import Verif.Props.SuccGen
import Verif.Props.TaskReader
import Verif.Props.TranslateFile
import Verif.Props.TranslateTask
import Verif.Props.TypeHierarchy
import Verif.Props.TypedList
import Verif.Props.Uniquify
import Verif.Props.VariableOrder
import Verif.Props.VariableOrderFinder
import Verif.Props.ZeroOnePdbs
import Verif.Spec.AxiomRules
import Verif.Spec.Axioms
import Verif.Spec.Bisimulation
import Verif.Spec.Cartesian
import Verif.Spec.CausalGraph
import Verif.Spec.Datalog
import Verif.Spec.DefaultAxioms
import Verif.Spec.DomainAbstraction
import Verif.Spec.EagerSearch
import Verif.Spec.EhcSearch
import Verif.Spec.Evaluator
import Verif.Spec.FactGroups
import Verif.Spec.Formula
import Verif.Spec.Hm
import Verif.Spec.Hplus
import Verif.Spec.Invariant
import Verif.Spec.IteratedSearch
import Verif.Spec.LandmarkFactory
import Verif.Spec.LandmarkGraph
import Verif.Spec.LandmarkMerge
import Verif.Spec.Landmarks
import Verif.Spec.LazySearch
import Verif.Spec.Lexer
import Verif.Spec.Lifted
import Verif.Spec.LinearProgram
import Verif.Spec.Lisp
import Verif.Spec.LmCut
import Verif.Spec.Mas
import Verif.Spec.MergeStrategies
import Verif.Spec.OpenList
import Verif.Spec.OperatorCounting
import Verif.Spec.Parser
import Verif.Spec.Pdb
import Verif.Spec.PdbCollections
import Verif.Spec.Pddl
import Verif.Spec.PddlEffects
import Verif.Spec.PerState
import Verif.Spec.PerTask
import Verif.Spec.Plan
import Verif.Spec.PlanFiles
import Verif.Spec.Potentials
import Verif.Spec.PriorityQueue
import Verif.Spec.Program
import Verif.Spec.RankoohRintanen
import Verif.Spec.Relaxation
import Verif.Spec.Sampling
import Verif.Spec.SasFile
import Verif.Spec.SasPlans
import Verif.Spec.Search
import Verif.Spec.SearchCausalGraph
import Verif.Spec.Shrinking
import Verif.Spec.Strips
import Verif.Spec.StubbornSets
import Verif.Spec.Subtasks
import Verif.Spec.Succ
import Verif.Spec.Task
import Verif.Spec.TypedList
import Verif.Spec.VariableOrders

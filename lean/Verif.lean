import Verif.Spec
import Verif.SpecLectic
import Verif.SpecContext
import Verif.Model.Py
import Verif.Model.Implication
import Verif.Model.DG
import Verif.Model.Context
import Verif.Model.DGContext
import Verif.Lemmas.Closure
import Verif.Lemmas.LinClosure
import Verif.Lemmas.Lectic
import Verif.Lemmas.DGStep
import Verif.Lemmas.DG
import Verif.Lemmas.DGCorrect
import Verif.Lemmas.Context
import Verif.Lemmas.DGContext
import Verif.Props.Closures
import Verif.Props.LinExact
import Verif.Props.ReduceExact
import Verif.Props.DG
import Verif.SpecHistory
import Verif.Model.ContextOps
import Verif.Model.ContextObject
import Verif.Model.ReduceMachine
import Verif.Model.Indices
import Verif.Lemmas.Rename
import Verif.Lemmas.ContextOps
import Verif.Lemmas.Derived
import Verif.Lemmas.Reduce
import Verif.Model.ImpText
import Verif.Lemmas.Derived2
import Verif.Props.Context
import Verif.Props.Derived
import Verif.Props.Reduce
import Verif.Props.Equality
import Verif.Props.ImpText
import Verif.Model.ImpKinds
import Verif.Props.ImpKinds
import Verif.SpecLattice
import Verif.Model.Lattice
import Verif.Lemmas.Norris
import Verif.Lemmas.Lattice
import Verif.Props.Lattice
import Verif.SpecStability
import Verif.Model.Stability
import Verif.Lemmas.Stability
import Verif.Props.Stability
import Verif.SpecProbability
import Verif.Model.Probability
import Verif.Lemmas.Probability
import Verif.Props.Probability
import Verif.SpecFactors
import Verif.Model.Factors
import Verif.Lemmas.Factors
import Verif.Props.Factors
import Verif.Props.FactorsCond
import Verif.Model.Covers
import Verif.Lemmas.Covers
import Verif.Props.Covers
import Verif.Props.AIBasis
import Verif.Props.BasicExploration
import Verif.Props.ExplorationDB
import Verif.Props.Exploration2
import Verif.Model.Numbers
import Verif.Props.Numbers
import Verif.Props.Patterns
import Verif.Props.ContextState
import Verif.Props.Scaling
import Verif.Props.ReadWrite
import Verif.Props.PartialContext
import Verif.Lemmas.DGCond
import Verif.Props.DGCond
import Verif.Model.BiUnars
import Verif.Props.BiUnars
import Verif.Props.OrbitExploration
import Verif.Model.MvContext
import Verif.Props.MvContext
import Verif.Model.CsvFiles
import Verif.Props.CsvFiles
import Verif.Model.CsvReader
import Verif.Props.CsvReader
import Verif.Model.Xml
import Verif.Props.Xml
import Verif.Model.DotText
import Verif.Props.DotText
import Verif.Props.Diagram
import Verif.Model.Containers
import Verif.Props.Containers
import Verif.Model.Random
import Verif.Props.Random
import Verif.Model.DGLive
import Verif.Lemmas.DGLive
import Verif.Props.DGLive
import Verif.Props.FactorsWeighted
import Verif.Props.CoverSteps
import Verif.Model.PartialText
import Verif.Props.PartialText
import Verif.Props.DeleteMany
import Verif.Props.ObjState
import Verif.Props.Indices
import Verif.Props.ReduceMachine
import Verif.Lemmas.AIBasis
import Verif.Lemmas.BasicExploration
import Verif.Lemmas.DGEmpty
import Verif.Lemmas.ExplorationDB
import Verif.Model.AIBasis
import Verif.Model.BasicExploration
import Verif.Model.ContextState
import Verif.Model.NestedBasis
import Verif.Model.Exploration2
import Verif.Model.ExplorationDB
import Verif.Model.PartialContext
import Verif.Model.Patterns
import Verif.Model.ReadWrite
import Verif.Model.Scaling
import Verif.Props.NamesExact
import Verif.Props.CxtFiles
import Verif.Model.NorrisLive
import Verif.Lemmas.NorrisLive
import Verif.Props.NorrisLive
import Verif.Model.ContextAlias
import Verif.Props.ContextAlias
import Verif.Conformance
import Verif.Props.FactorTests
import Verif.Props.AIBasisTests
import Verif.Model.MixedNames
import Verif.Lemmas.MixedNames
import Verif.Props.MixedNames
import Verif.Model.TextNames
import Verif.Props.TextNames
import Verif.Model.DGTrace
import Verif.Props.DGTrace
import Verif.Props.ConceptCount
import Verif.Props.CoverCanonical
import Verif.Props.CxtExact
import Verif.Props.BasisIntents
import Verif.Props.StabilitySum
import Verif.Props.BasicTheorem
import Verif.Props.FactorsBound
import Verif.Lemmas.ExploreOrder
import Verif.Props.ExploreBasis
import Verif.Props.StandardContext
import Verif.Props.Product
import Verif.Props.ExploreCount
import Verif.Model.ClassEq
import Verif.Props.ClassEq
import Verif.Props.ScaledConcepts
import Verif.Props.BasisChange
import Verif.Props.TruthfulExploration
import Verif.Props.Messages
import Verif.Props.Duality
import Verif.Props.DerivedBasis
import Verif.Props.CoverObjects
import Verif.Props.AIObjects
import Verif.Props.Filtering
import Verif.Props.Work
import Verif.Props.Renaming
import Verif.Props.PatternSession
import Verif.Props.PartialRounds
import Verif.Props.DGRepeated
import Verif.Props.ExplorationRepeated
import Verif.Model.SharedDB
import Verif.Props.SharedDB
import Verif.Model.ExplorationIndices
import Verif.Props.ExplorationIndices
import Verif.Model.Exploration2World
import Verif.Props.Exploration2World
import Verif.Model.DGObjects
import Verif.Props.DGObjects
import Verif.Model.ContextWorld
import Verif.Props.ContextWorld
import Verif.Props.Rounding
import Verif.Props.RoundingIndices
import Verif.Model.PatternsLive
import Verif.Props.PatternsLive
import Verif.Model.ConceptObjects
import Verif.Props.ConceptObjects
import Verif.Model.BaseObjects
import Verif.Props.ExplorationBase
import Verif.Model.ProbabilityFloat
import Verif.Lemmas.ProbabilityFloat
import Verif.Props.ProbabilityFloat
import Verif.Lemmas.ProbabilityRange
import Verif.Props.ProbabilityRange
import Verif.Props.NestedBasis
import Verif.Props.CoverExact
import Verif.Props.HashOrder
import Verif.Model.ExplorationCalls
import Verif.Props.TotalExamples
import Verif.Props.ExplorationOrder
import Verif.Model.Output
import Verif.Props.Output
import Verif.Props.ContextLaws
import Verif.Props.IntentsOnly
import Verif.Props.ExplorationTests
import Verif.Props.CanonicalMethod
import Verif.Props.CopyEffects
import Verif.Props.IntentArgs
import Verif.Props.TupleNames
import Verif.Props.KindText
import Verif.Props.HashOrderAll
import Verif.Props.BasisSize
import Verif.Props.Realise
import Verif.Props.ExamplesNeeded
import Verif.Props.ConceptsAndBasis

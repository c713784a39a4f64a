import Verif.Audit
import Verif.Prelude
import Verif.Spec.AGRemoved
import Verif.Spec.AGViews
import Verif.Spec.AdditiveBasis
import Verif.Spec.Augment
import Verif.Spec.Bayes
import Verif.Spec.Calls
import Verif.Spec.Chickering
import Verif.Spec.Chordal
import Verif.Spec.Classifier
import Verif.Spec.CliqueTree
import Verif.Spec.Compelled
import Verif.Spec.Covered
import Verif.Spec.CyclicViews
import Verif.Spec.DAGValues
import Verif.Spec.Density
import Verif.Spec.Design
import Verif.Spec.Digraph
import Verif.Spec.Discrete
import Verif.Spec.DiscreteInherited
import Verif.Spec.DiscreteSample
import Verif.Spec.DiscreteValues
import Verif.Spec.Equivalence
import Verif.Spec.Essential
import Verif.Spec.Experiments
import Verif.Spec.Extension
import Verif.Spec.GGM
import Verif.Spec.GGMValues
import Verif.Spec.GaussCacheValues
import Verif.Spec.GaussExperiments
import Verif.Spec.GaussFamily
import Verif.Spec.GaussImap
import Verif.Spec.GaussValues
import Verif.Spec.Gaussian
import Verif.Spec.Given
import Verif.Spec.Hidden
import Verif.Spec.HiddenTables
import Verif.Spec.Imap
import Verif.Spec.Influence
import Verif.Spec.InterventionLaw
import Verif.Spec.Likelihood
import Verif.Spec.Linear
import Verif.Spec.MarkChange
import Verif.Spec.Markov
import Verif.Spec.Metric
import Verif.Spec.Mixed
import Verif.Spec.Mixture
import Verif.Spec.NormalRows
import Verif.Spec.Numbered
import Verif.Spec.PDAGRest
import Verif.Spec.PViews
import Verif.Spec.Pgm
import Verif.Spec.RandomGraph
import Verif.Spec.RandomMax
import Verif.Spec.SemiMarkovian
import Verif.Spec.Separate
import Verif.Spec.Structural
import Verif.Spec.Summary
import Verif.Spec.Triples
import Verif.Spec.UGValues
import Verif.Spec.UViews
import Verif.Spec.Undirected
import Verif.Spec.Views
import Verif.Model.AG
import Verif.Model.AGBlanket
import Verif.Model.AGDistance
import Verif.Model.AGEquiv
import Verif.Model.AGImap
import Verif.Model.AGImap2
import Verif.Model.AGKeys
import Verif.Model.AGMarks
import Verif.Model.AGQueries
import Verif.Model.AGTriples
import Verif.Model.AdditiveBasis
import Verif.Model.AllDags
import Verif.Model.Amat
import Verif.Model.Base
import Verif.Model.Between
import Verif.Model.CamMean
import Verif.Model.Chickering
import Verif.Model.CliqueDesign
import Verif.Model.CliqueTree
import Verif.Model.Complete
import Verif.Model.Components
import Verif.Model.Confusion
import Verif.Model.CoreUtils
import Verif.Model.Covered
import Verif.Model.Cyclic
import Verif.Model.DAG
import Verif.Model.DAGHeap
import Verif.Model.DAGKeys
import Verif.Model.DAGSimple
import Verif.Model.DSep
import Verif.Model.Design
import Verif.Model.DirectEffect
import Verif.Model.Discrete
import Verif.Model.DiscreteFit
import Verif.Model.DiscreteHeap
import Verif.Model.DiscreteInherited
import Verif.Model.DiscreteLearn
import Verif.Model.DiscreteMarginalDag
import Verif.Model.DiscretePgmpy
import Verif.Model.DiscreteSample
import Verif.Model.DiscreteTorch
import Verif.Model.ExtendedCov
import Verif.Model.GGM
import Verif.Model.GGMHeap
import Verif.Model.GGMToDag
import Verif.Model.Gauss
import Verif.Model.GaussArcs
import Verif.Model.GaussCache
import Verif.Model.GaussFactor
import Verif.Model.GaussFit
import Verif.Model.GaussHeap
import Verif.Model.GaussIv
import Verif.Model.GaussMisc
import Verif.Model.GaussMoments
import Verif.Model.GaussPdf
import Verif.Model.GaussSetters
import Verif.Model.History
import Verif.Model.IMap
import Verif.Model.Importance
import Verif.Model.Imset
import Verif.Model.Influence
import Verif.Model.Interventions
import Verif.Model.Marginal
import Verif.Model.Maximal
import Verif.Model.MecSize
import Verif.Model.PAG
import Verif.Model.PDAG
import Verif.Model.PDAGCompare
import Verif.Model.PDAGMore
import Verif.Model.PDAGRest
import Verif.Model.Pgm
import Verif.Model.Queries
import Verif.Model.Rand
import Verif.Model.RandDiscrete
import Verif.Model.RandGauss
import Verif.Model.RandomMax
import Verif.Model.Sampling
import Verif.Model.SemiMarkovian
import Verif.Model.ToDag
import Verif.Model.UGConvert
import Verif.Model.UGHeap
import Verif.Model.Undirected
import Verif.Proof.AG
import Verif.Proof.AGBlanket
import Verif.Proof.AGDisc
import Verif.Proof.AGDiscSpec
import Verif.Proof.AGEquiv
import Verif.Proof.AGImap
import Verif.Proof.AGImap2
import Verif.Proof.AGKeys
import Verif.Proof.AGMarkov
import Verif.Proof.AGMarks
import Verif.Proof.AGMec
import Verif.Proof.AGNew
import Verif.Proof.AGQueries
import Verif.Proof.AGSort
import Verif.Proof.AGTriples
import Verif.Proof.AdditiveBasis
import Verif.Proof.Adjust
import Verif.Proof.AllDags
import Verif.Proof.AllDagsForest
import Verif.Proof.AllDagsRun
import Verif.Proof.Amat
import Verif.Proof.Ball
import Verif.Proof.Between
import Verif.Proof.CPDAG
import Verif.Proof.CamMean
import Verif.Proof.ChickGraph
import Verif.Proof.ChickSeq
import Verif.Proof.ChickStep
import Verif.Proof.Chickering
import Verif.Proof.Chordal
import Verif.Proof.CliqueDesign
import Verif.Proof.CliqueRun
import Verif.Proof.CliqueStar
import Verif.Proof.CliqueTree
import Verif.Proof.CommonPath
import Verif.Proof.Complete
import Verif.Proof.Components
import Verif.Proof.Confusion
import Verif.Proof.CoreUtils
import Verif.Proof.Cover
import Verif.Proof.Covered
import Verif.Proof.Cyclic
import Verif.Proof.DAGHeap
import Verif.Proof.DAGKeys
import Verif.Proof.DAGSimple
import Verif.Proof.DSep
import Verif.Proof.DSepFromGiven
import Verif.Proof.Design
import Verif.Proof.Discrete
import Verif.Proof.DiscreteBackdoor
import Verif.Proof.DiscreteCond
import Verif.Proof.DiscreteFaithful
import Verif.Proof.DiscreteFit
import Verif.Proof.DiscreteHeap
import Verif.Proof.DiscreteImap
import Verif.Proof.DiscreteInherited
import Verif.Proof.DiscreteInvariant
import Verif.Proof.DiscreteIv
import Verif.Proof.DiscreteLearn
import Verif.Proof.DiscreteMarginalDag
import Verif.Proof.DiscreteMarginalLoop
import Verif.Proof.DiscreteMarginals
import Verif.Proof.DiscreteMarkov
import Verif.Proof.DiscreteNew
import Verif.Proof.DiscretePgmpy
import Verif.Proof.DiscreteSample
import Verif.Proof.DiscreteTorch
import Verif.Proof.DiscreteVariation
import Verif.Proof.Districts
import Verif.Proof.Equiv
import Verif.Proof.EquivIff
import Verif.Proof.EquivStatus
import Verif.Proof.EquivWalk
import Verif.Proof.Experiments
import Verif.Proof.Faithful
import Verif.Proof.Flags
import Verif.Proof.FormulaProduct
import Verif.Proof.GGM
import Verif.Proof.GGMHeap
import Verif.Proof.GGMToDag
import Verif.Proof.Gauss
import Verif.Proof.GaussArcs
import Verif.Proof.GaussCache
import Verif.Proof.GaussDensity
import Verif.Proof.GaussEffects
import Verif.Proof.GaussEigh
import Verif.Proof.GaussExperiments
import Verif.Proof.GaussFactor
import Verif.Proof.GaussFit
import Verif.Proof.GaussFitLimit
import Verif.Proof.GaussHeap
import Verif.Proof.GaussImap
import Verif.Proof.GaussIv
import Verif.Proof.GaussMarkov
import Verif.Proof.GaussMisc
import Verif.Proof.GaussMoments
import Verif.Proof.GaussPdf
import Verif.Proof.GaussSample
import Verif.Proof.GaussSet
import Verif.Proof.Graphoid
import Verif.Proof.Greedy
import Verif.Proof.Hidden
import Verif.Proof.HiddenTables
import Verif.Proof.IMap
import Verif.Proof.Importance
import Verif.Proof.ImportanceRun
import Verif.Proof.Inducing
import Verif.Proof.InducingAdd
import Verif.Proof.Influence
import Verif.Proof.InvArc
import Verif.Proof.InvArrow
import Verif.Proof.InvConn
import Verif.Proof.InvPath
import Verif.Proof.Invariant
import Verif.Proof.LeastSquaresLimit
import Verif.Proof.LocalParents
import Verif.Proof.Loops
import Verif.Proof.MSep
import Verif.Proof.Marg
import Verif.Proof.MargRelabel
import Verif.Proof.Marginal
import Verif.Proof.MarkChange
import Verif.Proof.MarkMax
import Verif.Proof.Maximal
import Verif.Proof.MecCount
import Verif.Proof.Meek
import Verif.Proof.Metric
import Verif.Proof.MinimalSub
import Verif.Proof.Mixture
import Verif.Proof.Moral
import Verif.Proof.Mutators
import Verif.Proof.NormalRows
import Verif.Proof.Orders
import Verif.Proof.Orient
import Verif.Proof.PAG
import Verif.Proof.PDAG
import Verif.Proof.PDAGMore
import Verif.Proof.PDAGRest
import Verif.Proof.PairwiseGlobal
import Verif.Proof.PerfectExperiments
import Verif.Proof.Pgm
import Verif.Proof.PossibleEffects
import Verif.Proof.Queries
import Verif.Proof.Rand
import Verif.Proof.RandDiscrete
import Verif.Proof.RandGauss
import Verif.Proof.RandomGraph
import Verif.Proof.RandomMax
import Verif.Proof.Reach
import Verif.Proof.RemoveEdge
import Verif.Proof.Rename
import Verif.Proof.Residuals
import Verif.Proof.Reversals
import Verif.Proof.Sampling
import Verif.Proof.Segments
import Verif.Proof.SemiMarkovian
import Verif.Proof.Separation
import Verif.Proof.Slln
import Verif.Proof.SortTotal
import Verif.Proof.SumOut
import Verif.Proof.Tangent
import Verif.Proof.ToDag
import Verif.Proof.ToDagEvery
import Verif.Proof.TopoSort
import Verif.Proof.Triples
import Verif.Proof.UG
import Verif.Proof.UGConvert
import Verif.Proof.UGHeap
import Verif.Proof.UnionFind
import Verif.Proof.Verification
import Verif.Proof.Walks
import Verif.Props.AG
import Verif.Props.AGBlanket
import Verif.Props.AGDistance
import Verif.Props.AGEquiv
import Verif.Props.AGImap
import Verif.Props.AGImap2
import Verif.Props.AGKeys
import Verif.Props.AGMarks
import Verif.Props.AGQueries
import Verif.Props.AGTriples
import Verif.Props.AdditiveBasis
import Verif.Props.Adjust
import Verif.Props.AllDags
import Verif.Props.AllDagsAll
import Verif.Props.Amat
import Verif.Props.Between
import Verif.Props.CPDAG
import Verif.Props.CamMean
import Verif.Props.Chickering
import Verif.Props.CliqueDesign
import Verif.Props.CliqueTree
import Verif.Props.Complete
import Verif.Props.Components
import Verif.Props.Confusion
import Verif.Props.CoreUtils
import Verif.Props.Covered
import Verif.Props.Cyclic
import Verif.Props.DAGHeap
import Verif.Props.DAGKeys
import Verif.Props.DAGSimple
import Verif.Props.DSep
import Verif.Props.Design
import Verif.Props.DirectEffect
import Verif.Props.Discrete
import Verif.Props.DiscreteBackdoor
import Verif.Props.DiscreteDraws
import Verif.Props.DiscreteFaithful
import Verif.Props.DiscreteFit
import Verif.Props.DiscreteHeap
import Verif.Props.DiscreteInherited
import Verif.Props.DiscreteInvariant
import Verif.Props.DiscreteLearn
import Verif.Props.DiscreteMarginalDag
import Verif.Props.DiscreteMarkov
import Verif.Props.DiscretePgmpy
import Verif.Props.DiscreteSample
import Verif.Props.DiscreteTorch
import Verif.Props.DiscreteVariation
import Verif.Props.Experiments
import Verif.Props.ExtendedCov
import Verif.Props.FitConsistent
import Verif.Props.GGM
import Verif.Props.GGMHeap
import Verif.Props.GGMToDag
import Verif.Props.Gauss
import Verif.Props.GaussArcs
import Verif.Props.GaussCache
import Verif.Props.GaussExperiments
import Verif.Props.GaussFactor
import Verif.Props.GaussFit
import Verif.Props.GaussFitLimit
import Verif.Props.GaussHeap
import Verif.Props.GaussImap
import Verif.Props.GaussIv
import Verif.Props.GaussMisc
import Verif.Props.GaussMoments
import Verif.Props.GaussMore
import Verif.Props.GaussPdf
import Verif.Props.GaussSetters
import Verif.Props.HiddenTables
import Verif.Props.IMap
import Verif.Props.Identified
import Verif.Props.Importance
import Verif.Props.Imset
import Verif.Props.Influence
import Verif.Props.Interventions
import Verif.Props.MSep
import Verif.Props.Marginal
import Verif.Props.Maximal
import Verif.Props.MecFormula
import Verif.Props.MecSize
import Verif.Props.Metric
import Verif.Props.Moral
import Verif.Props.Mutators
import Verif.Props.Orders
import Verif.Props.PAG
import Verif.Props.PDAGMore
import Verif.Props.PDAGRest
import Verif.Props.Pgm
import Verif.Props.PossibleEffects
import Verif.Props.Rand
import Verif.Props.RandDiscrete
import Verif.Props.RandGauss
import Verif.Props.RandomGraph
import Verif.Props.RandomMax
import Verif.Props.Reach
import Verif.Props.Rename
import Verif.Props.Sample
import Verif.Props.SampleMoments
import Verif.Props.Sampling
import Verif.Props.SemiMarkovian
import Verif.Props.SortTotal
import Verif.Props.ToDag
import Verif.Props.ToDagEvery
import Verif.Props.Topo
import Verif.Props.UG
import Verif.Props.UGConvert
import Verif.Props.UGHeap

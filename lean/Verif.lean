import Verif.Props.Core
import Verif.Props.Primality
import Verif.Props.Factorization
import Verif.Props.ArithFunctions
import Verif.Props.ZnArithmetic
import Verif.Props.SquareRoots
import Verif.Props.Sieves
import Verif.Props.SieveCosts
import Verif.Props.PrimeRange
import Verif.Props.Tables
import Verif.Props.Sums
import Verif.Props.RootCosts
import Verif.Props.CliqueCosts
import Verif.Props.SteinerCosts
import Verif.Props.LoopCosts
import Verif.Props.ChartresCosts
import Verif.Props.IteratorEdits
import Verif.Props.Recursion
import Verif.Props.SumCosts
import Verif.Props.PrimeCounting
import Verif.Props.UnionFind
import Verif.Props.UnionFindCosts
import Verif.Props.LeftistHeap
import Verif.Props.PairingHeap
import Verif.Props.BitSieve
import Verif.Props.Polynomials
import Verif.Props.Eta
import Verif.Props.Generation
import Verif.Props.Partitions
import Verif.Props.Enumeration
import Verif.Props.Tilings
import Verif.Props.Knapsack
import Verif.Model.KnapsackFloat
import Verif.Props.KnapsackFloat
import Verif.Model.EuclidCosts
import Verif.Props.EuclidCosts
import Verif.Model.MulCosts
import Verif.Props.MulCosts
import Verif.Model.FactoringCosts
import Verif.Props.FactoringCosts
import Verif.Props.ExactCover
import Verif.Props.Graph
import Verif.Props.Traversal
import Verif.Props.Paths
import Verif.Props.DijkstraVariants
import Verif.Props.InverseFunctions
import Verif.Props.NtMisc
import Verif.Props.Progressions
import Verif.Props.Alphametics
import Verif.Props.DegreeSequences
import Verif.Props.Matrices
import Verif.Props.SpanningTrees
import Verif.Props.SearchCosts
import Verif.Props.Coloring
import Verif.Props.Cliques
import Verif.Props.MaxCliques
import Verif.Props.HamiltonianPaths
import Verif.Props.Tsp
import Verif.Props.ContinuedFractions
import Verif.Props.QuadraticCF
import Verif.Props.Pell
import Verif.Props.MeisselLehmer
import Verif.Props.Lehmer
import Verif.Props.SteinerTrees
import Verif.Props.CheritonTarjan
import Verif.Props.Korman
import Verif.Props.Maxis
import Verif.Props.GraphMatrices
import Verif.Props.Sudoku
import Verif.Model.Farey
import Verif.Model.PellSmall
import Verif.Props.Farey
import Verif.Props.PellSmall
import Verif.Props.LatinSquares
import Verif.Model.PolyGcd
import Verif.Lemmas.PolyGcd
import Verif.Props.PolyGcd
import Verif.Model.LmoBit
import Verif.Props.LmoBit
import Verif.Model.Cfrac
import Verif.Props.Cfrac
import Verif.Model.Misc
import Verif.Props.Misc
import Verif.Model.GeneticTsp
import Verif.Lemmas.GeneticTsp
import Verif.Props.GeneticTsp
import Verif.Model.Heapq
import Verif.Model.Gabow
import Verif.Lemmas.Heapq
import Verif.Lemmas.TreeExchange
import Verif.Lemmas.GabowExchange
import Verif.Lemmas.GabowTree
import Verif.Lemmas.GabowLoop
import Verif.Props.Gabow
import Verif.Model.Dispatch
import Verif.Props.Dispatch
import Verif.Props.Fermat
import Verif.Props.Rho
import Verif.Model.Pollard
import Verif.Props.Pollard
import Verif.Model.IntegerCalls
import Verif.Props.IntegerCalls
import Verif.Model.Floats
import Verif.Lemmas.Floats
import Verif.Props.Floats
import Verif.Model.MatrixObjects
import Verif.Lemmas.MatrixObjects
import Verif.Props.MatrixObjects
import Verif.Model.HeapNodes
import Verif.Lemmas.HeapNodes
import Verif.Props.HeapNodes
import Verif.Model.RatPolys
import Verif.Lemmas.RatPolys
import Verif.Props.RatPolys
import Verif.Model.RatMatrices
import Verif.Lemmas.RatMatrices
import Verif.Props.RatMatrices
import Verif.Model.Printing
import Verif.Spec.Reading
import Verif.Lemmas.Printing
import Verif.Props.ModularCalls
import Verif.Props.Printing
import Verif.Props.RandomFactor
import Verif.Props.RandomTests
import Verif.Props.RandomPrime
import Verif.Props.RandomGraph
import Verif.Props.GreedyRatio
import Verif.Props.CliqueCounts
import Verif.Props.LeftistCalls
import Verif.Model.PolyObjects
import Verif.Props.PolyObjects
import Verif.Props.Renaming
import Verif.Props.FloatPaths
import Verif.Props.FloatPathsViolations
import Verif.Lemmas.WeightOrder
import Verif.Props.FloatSpanningTrees
import Verif.Props.FloatTreesViolations
import Verif.Props.FloatFloydWarshall
import Verif.Props.ShortestMetric
import Verif.Props.TreeAgreement
import Verif.Props.ColoringBounds
import Verif.Props.ArithIdentities
import Verif.Props.PrimeAgreement
import Verif.Lemmas.SteinerPruneCosts
import Verif.Props.SteinerPruneCosts
import Verif.Model.CheritonCosts
import Verif.Lemmas.CheritonCosts
import Verif.Props.CheritonCosts
import Verif.Model.TonelliCosts
import Verif.Props.TonelliCosts
import Verif.Props.ResidueAgreement
import Verif.Props.CountAgreement
import Verif.Props.FloatBidirectional
import Verif.Props.SmallChanges
import Verif.Props.PellAgreement
import Verif.Props.OptimaChanges
import Verif.Props.FactoringAgreement
import Verif.Props.SeriesAgreement
import Verif.Props.CoverChanges
import Verif.Props.HeapAgreement
import Verif.Props.ListArithmetic
import Verif.Props.MatrixLaws
import Verif.Props.GraphOperations
import Verif.Props.StirlingTable
import Verif.Props.MatrixShapes
import Verif.Props.SteinerAgreement
import Verif.Props.SteinerOrder
import Verif.Props.TreesTours

import Verif.Props.Containers
import Verif.Props.PdaBuild
import Verif.Props.PreStar
import Verif.Props.Automata
import Verif.Props.PostStar
import Verif.Props.TraceBack
import Verif.Props.Nfa
import Verif.Props.Regex
import Verif.Props.FromNfa
import Verif.Props.Product
import Verif.Props.Reducer
import Verif.Props.Solver
import Verif.Props.Weight
import Verif.Props.WeightModel
import Verif.Props.Utils
import Verif.Props.Bytes
import Verif.Props.Cegar
import Verif.Props.Factory
import Verif.Spec.Paths
import Verif.Model.FixedPoint
import Verif.Proofs.FixedPoint
import Verif.Proofs.FixedPointFinal
import Verif.Props.FixedPoint
import Verif.Spec.Weighted
import Verif.Spec.ShortestPath
import Verif.Model.FixedSat
import Verif.Proofs.FixedSat
import Verif.Proofs.FixedPre
import Verif.Proofs.FixedPreFinal
import Verif.Proofs.FixedFrame
import Verif.Proofs.FixedLeast
import Verif.Proofs.FixedPost
import Verif.Proofs.FixedPostInv
import Verif.Proofs.FixedPostFinal
import Verif.Props.FixedSat
import Verif.Model.ShortestPost
import Verif.Model.ShortestPath
import Verif.Proofs.ShortestPost
import Verif.Proofs.ShortestPostStep
import Verif.Proofs.ShortestPostFinal
import Verif.Proofs.ShortestPath
import Verif.Proofs.ShortestAccept
import Verif.Proofs.ShortestFind
import Verif.Props.ShortestPost
import Verif.Props.ShortestPath
import Verif.Spec.Moves
import Verif.Model.Json
import Verif.Proofs.Json
import Verif.Proofs.JsonRun
import Verif.Proofs.JsonState
import Verif.Proofs.JsonDoc
import Verif.Proofs.JsonMoves
import Verif.Props.Json
import Verif.Model.ProductTrace
import Verif.Proofs.ProductTrace
import Verif.Props.ProductTrace
import Verif.Model.ShortestPre
import Verif.Model.ShortestProduct
import Verif.Model.ShortestRuleTrace
import Verif.Props.ShortestAnswers
import Verif.Proofs.ShortestProductEdges
import Verif.Proofs.ShortestProduct
import Verif.Proofs.ShortestProductLoop
import Verif.Proofs.ShortestAnswer
import Verif.Proofs.ShortestPostSearch
import Verif.Props.ShortestProduct
import Verif.Proofs.ShortestPre
import Verif.Proofs.ShortestPreFinal
import Verif.Proofs.ShortestPreOne
import Verif.Proofs.ShortestPreTrace
import Verif.Props.ShortestPre
import Verif.Proofs.ShortestPreSearch
import Verif.Proofs.ShortestPreSearchEnd
import Verif.Proofs.ShortestDual
import Verif.Proofs.ShortestDualSteps
import Verif.Proofs.ShortestDualEnd
import Verif.Props.ShortestPreProduct
import Verif.Props.ShortestDualProduct
import Verif.Spec.CostTrace
import Verif.Proofs.BuiltW
import Verif.Proofs.WeightedTraceBack
import Verif.Proofs.ShortestTrace
import Verif.Props.ShortestTrace
import Verif.Proofs.ShortestBack
import Verif.Proofs.ShortestPostTrace
import Verif.Proofs.ShortestRuleTrace
import Verif.Props.ShortestProductTrace
import Verif.Model.FixedProduct
import Verif.Proofs.FixedProduct
import Verif.Proofs.FixedSearch
import Verif.Props.FixedProduct
import Verif.Proofs.FixedFinalize
import Verif.Proofs.FixedRun
import Verif.Props.FixedRun
import Verif.Proofs.FixedHistory
import Verif.Proofs.FixedPreRounds
import Verif.Proofs.FixedPostRounds
import Verif.Proofs.FixedLoop
import Verif.Props.FixedLoop
import Verif.Props.FixedAny
import Verif.Spec.Pump
import Verif.Proofs.FixedNoPump
import Verif.Props.FixedBounded
import Verif.Proofs.FixedTrace
import Verif.Proofs.FixedPreTrace
import Verif.Proofs.FixedPostTrace
import Verif.Props.FixedTrace
import Verif.Model.Cegar
import Verif.Spec.Headers
import Verif.Spec.Search
import Verif.Proofs.CegarHeader
import Verif.Proofs.CegarFinal
import Verif.Proofs.CegarSearch
import Verif.Props.CegarHeader
import Verif.Props.CegarSearch
import Verif.Model.CegarLoop
import Verif.Spec.Abstraction
import Verif.Proofs.CegarAbs
import Verif.Proofs.CegarInst
import Verif.Props.CegarLoop
import Verif.Proofs.CegarYes
import Verif.Props.CegarYes
import Verif.Proofs.CegarProgress
import Verif.Props.CegarProgress
import Verif.Proofs.ShortestPreSearchTrace
import Verif.Proofs.ShortestDualTrace
import Verif.Props.ShortestSearchTrace
import Verif.Props.ShortestRuleTrace
import Verif.Model.PAutParser
import Verif.Spec.PExpr
import Verif.Proofs.PAutParser
import Verif.Props.PAutParser
import Verif.Model.Verifier
import Verif.Spec.Named
import Verif.Props.Verifier
import Verif.Model.PAutJson
import Verif.Model.JsonInstance
import Verif.Spec.AutDoc
import Verif.Proofs.PAutJson
import Verif.Proofs.PAutMixed
import Verif.Props.PAutJson
import Verif.Props.JsonReport
import Verif.Model.VerifierWeighted
import Verif.Props.WeightedReport
import Verif.Props.WeightedProgram
import Verif.Props.WeightedCases
import Verif.Model.InstanceJson
import Verif.Spec.JsonText
import Verif.Spec.InstDoc
import Verif.Proofs.InstanceJson
import Verif.Proofs.JsonWF
import Verif.Props.InstanceJson
import Verif.Proofs.JsonWeights
import Verif.Props.InstancePrint
import Verif.Model.Peg
import Verif.Model.RegexText
import Verif.Model.PAutText
import Verif.Model.RunText
import Verif.Spec.RegexText
import Verif.Spec.PAutText
import Verif.Proofs.Peg
import Verif.Proofs.RegexText
import Verif.Proofs.RegexTree
import Verif.Proofs.RegexSound
import Verif.Proofs.RegexRun
import Verif.Proofs.PAutText
import Verif.Proofs.PAutTextRun
import Verif.Proofs.RegexUnique
import Verif.Props.RegexText
import Verif.Props.PAutText
import Verif.Proofs.InstanceType
import Verif.Props.InstanceType
import Verif.Model.Files
import Verif.Spec.Files
import Verif.Props.Files
import Verif.Model.FilesWeighted
import Verif.Props.FilesWeighted
import Verif.Model.Main
import Verif.Props.Main
import Verif.Props.MainJson
import Verif.Props.MainWeighted
import Verif.Props.MainErrors
import Verif.Model.JsonStream
import Verif.Spec.JsonStream
import Verif.Props.JsonStream
import Verif.Model.Dot
import Verif.Spec.Dot
import Verif.Proofs.Dot
import Verif.Props.Dot

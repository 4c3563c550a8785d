import Verif.Props.CobwebTree
import Verif.Props.Score
import Verif.Props.Utils
import Verif.Props.Predict
import Verif.Props.Continuous
import Verif.Props.Cobweb3
import Verif.Props.Cobweb3Predict
import Verif.Props.Invariance
import Verif.Props.Cobweb3Invariance
import Verif.Props.Heap
import Verif.Props.HeapFail
import Verif.Props.Cobweb3Likelihood
import Verif.Props.ClusterDemo
import Verif.Props.Preprocess
import Verif.Props.Standardize
import Verif.Props.Tuplizer
import Verif.Props.Convert
import Verif.Props.Sanitizer
import Verif.Props.Scripts
import Verif.Props.Variablize
import Verif.Props.Lists
import Verif.Props.StructureMapper
import Verif.Proofs.HeapKeeps
import Verif.Props.Trestle
import Verif.Props.Dummy
import Verif.Props.Evaluation
import Verif.Props.Visualize
import Verif.Props.Datasets
import Verif.Props.Contained
import Verif.Props.Size
import Verif.Props.Match
import Verif.Model.MappingCost
import Verif.Props.MappingCost
import Verif.Props.Munkres
import Verif.Props.Raises
import Verif.Props.Fit
import Verif.Props.Quadruped
import Verif.Props.Print
import Verif.Props.Json3
import Verif.Props.TrestleFlat
import Verif.Props.Cobweb3Score
import Verif.Props.Infer3
import Verif.Props.Cobweb3CU
import Verif.Props.NegativeCU
import Verif.Props.Sampled3
import Verif.Props.TrestleInfer
import Verif.Props.TrestleX
import Verif.Props.PySort
import Verif.Props.VerifyCounts
import Verif.Props.Examples
import Verif.Props.LiBiswas
import Verif.Props.LiBiswasData
import Verif.Props.CompareEcg
import Verif.Props.FloatCV
import Verif.Props.OpTies
import Verif.Props.FloatError
import Verif.Props.AnyArith
import Verif.Props.Float3
import Verif.Props.HeapScores
import Verif.Props.FloatLikelihood
import Verif.Props.RawTables
import Verif.Props.LogZero3
import Verif.Model.ExtFloat
import Verif.Model.Ext3
import Verif.Spec.Ext3
import Verif.Proofs.ExtFloat
import Verif.Proofs.Ext3
import Verif.Props.Ext3
import Verif.Model.Numbers3
import Verif.Spec.Numbers3
import Verif.Proofs.Numbers3
import Verif.Props.Numbers3
import Verif.Model.FloatPredict
import Verif.Props.FloatChoice
import Verif.Props.FloatPredict
import Verif.Props.FloatProb
import Verif.Props.FloatInfer
import Verif.Model.RawRead
import Verif.Spec.RawRead
import Verif.Proofs.RawRead
import Verif.Props.RawRead
import Verif.Props.RawOutput
import Verif.Props.ExtBlind
import Verif.Spec.TrestleFail
import Verif.Props.TrestleFail
import Verif.Spec.Textbook
import Verif.Proofs.Textbook
import Verif.Proofs.TextbookRun
import Verif.Props.Textbook
import Verif.Props.ExtScore
import Verif.Props.TextbookPlace
import Verif.Model.Outcomes
import Verif.Proofs.Outcomes
import Verif.Proofs.Recognise
import Verif.Props.Recognise
import Verif.Props.Recognise3
import Verif.Props.RecogniseTrestle
import Verif.Props.TextbookTrestle
import Verif.Model.Trace
import Verif.Proofs.Trace
import Verif.Proofs.TraceCost
import Verif.Proofs.TraceSees
import Verif.Proofs.TraceHonest
import Verif.Props.Cost
import Verif.Model.VizFiles
import Verif.Props.VizFiles
import Verif.Proofs.AddOne
import Verif.Props.SearchSpace
import Verif.Props.SearchStuck
import Verif.Model.GenExample
import Verif.Props.GenExample
import Verif.Props.HeapConverse
import Verif.Model.NodeWalk
import Verif.Props.NodeWalk
import Verif.Model.Loaders
import Verif.Props.Loaders
import Verif.Props.OneConcept
import Verif.Props.OneConceptFloat
import Verif.Model.Hashing
import Verif.Props.Hashing
import Verif.Model.PredictX
import Verif.Props.PredictX
import Verif.Props.PredictXOk
import Verif.Props.PredictXMost

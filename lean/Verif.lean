import Verif.Base
import Verif.Gen.AstBlock
import Verif.Gen.AstClean
import Verif.Gen.AstInit
import Verif.Gen.AstMerge
import Verif.Gen.AstModel
import Verif.Gen.AstOrder
import Verif.Gen.AstProps
import Verif.Gen.AstRegion
import Verif.Gen.AstSpec
import Verif.Gen.AstTarget
import Verif.Gen.AstVisit
import Verif.Gen.BinarizeLemmas
import Verif.Gen.CallModel
import Verif.Gen.CallProps
import Verif.Gen.CompoundModel
import Verif.Gen.CompoundProps
import Verif.Gen.ConsumerLemmas
import Verif.Gen.ConsumerModel
import Verif.Gen.ConsumerProps
import Verif.Gen.CountLemmas
import Verif.Gen.CountModel
import Verif.Gen.CountProps
import Verif.Gen.CountSpec
import Verif.Gen.DescribeModel
import Verif.Gen.DescribeProps
import Verif.Gen.FactorizeLemmas
import Verif.Gen.FactorizeLemmas2
import Verif.Gen.FactorizeModel
import Verif.Gen.FactorizeProps
import Verif.Gen.FactorizeSpec
import Verif.Gen.FlowBranch
import Verif.Gen.FlowConvert
import Verif.Gen.FlowCopies
import Verif.Gen.FlowDrain
import Verif.Gen.FlowExec
import Verif.Gen.FlowInv
import Verif.Gen.FlowLast
import Verif.Gen.FlowLazy
import Verif.Gen.FlowLive
import Verif.Gen.FlowMake
import Verif.Gen.FlowModel
import Verif.Gen.FlowOnly
import Verif.Gen.FlowOutputs
import Verif.Gen.FlowProcess
import Verif.Gen.FlowProps
import Verif.Gen.FlowRegion
import Verif.Gen.FlowScope
import Verif.Gen.FlowSpec
import Verif.Gen.FlowStep
import Verif.Gen.FlowValue
import Verif.Gen.GraphLemmas
import Verif.Gen.GraphModel
import Verif.Gen.GraphProps
import Verif.Gen.GraphSpec
import Verif.Gen.HookModel
import Verif.Gen.HookProps
import Verif.Gen.NameKeys
import Verif.Gen.NameLemmas
import Verif.Gen.NameModel
import Verif.Gen.NameProps
import Verif.Gen.NameSim
import Verif.Gen.NameSpec
import Verif.Gen.PartialSpec
import Verif.Gen.PassLemmas
import Verif.Gen.PassLemmas2
import Verif.Gen.RunBody
import Verif.Gen.RunCpp
import Verif.Gen.RunExpr
import Verif.Gen.RunForm
import Verif.Gen.RunProps
import Verif.Gen.RunPython
import Verif.Gen.RunRel
import Verif.Gen.RunRust
import Verif.Gen.RunSpec
import Verif.Gen.RunStep
import Verif.Gen.RunTrack
import Verif.Gen.ShapeLemmas
import Verif.Gen.SigBodyProps
import Verif.Gen.SigLemmas
import Verif.Gen.SigModel
import Verif.Gen.SigProps
import Verif.Gen.SigSpec
import Verif.Gen.StmtTextCpp
import Verif.Gen.StmtTextLayout
import Verif.Gen.StmtTextModel
import Verif.Gen.StmtTextProps
import Verif.Gen.StmtTextPython
import Verif.Gen.StmtTextRust
import Verif.Gen.StmtTextSpec
import Verif.Gen.StmtTextUnique
import Verif.Gen.StructModel
import Verif.Gen.StructProps
import Verif.Gen.TextCpp
import Verif.Gen.TextLemmas
import Verif.Gen.TextModel
import Verif.Gen.TextProps
import Verif.Gen.TextPython
import Verif.Gen.TextRust
import Verif.Gen.TextSpec
import Verif.Gen.TextUnique
import Verif.Gen.TypesModel
import Verif.Gen.TypesProps
import Verif.Gen.TypesSpec
import Verif.Geo.AxisAngleLemmas
import Verif.Geo.QuatCalculus
import Verif.Geo.QuaternionModel
import Verif.Geo.QuaternionProps
import Verif.Geo.RotationLemmas
import Verif.Mat.HomLemmas
import Verif.Mat.LuLemmas
import Verif.Mat.LuLemmas2
import Verif.Mat.LuModel
import Verif.Mat.LuProps
import Verif.Mat.MatrixLemmas
import Verif.Mat.MatrixModel
import Verif.Mat.MatrixProps
import Verif.Mat.PyMatModel
import Verif.Mat.PyMatProps
import Verif.Num.CheckedIntLemmas
import Verif.Num.CheckedIntModel
import Verif.Num.CheckedIntProps
import Verif.Num.FloatLemmas
import Verif.Num.FloatModel
import Verif.Num.FloatProps
import Verif.Num.IntegerUtilsLemmas
import Verif.Num.IntegerUtilsModel
import Verif.Num.IntegerUtilsProps
import Verif.Num.LargePrime
import Verif.Num.PowerLemmas
import Verif.Num.PowerModel
import Verif.Num.PowerProps
import Verif.Num.RationalLemmas
import Verif.Num.RationalModel
import Verif.Num.RationalProps
import Verif.Ord.OrderingLemmas
import Verif.Ord.OrderingModel
import Verif.Ord.OrderingProps
import Verif.Run.AllocatorModel
import Verif.Run.AllocatorProps
import Verif.Run.BitsetModel
import Verif.Run.BitsetProps
import Verif.Run.SpanModel
import Verif.Run.SpanProps
import Verif.Sym.ArgsLemmas
import Verif.Sym.ArgsProps
import Verif.Sym.CallLemmas
import Verif.Sym.CallMachine
import Verif.Sym.CallProps
import Verif.Sym.CallSpec
import Verif.Sym.ChainLemmas
import Verif.Sym.ChainModel
import Verif.Sym.ChainProps
import Verif.Sym.ChainSpec
import Verif.Sym.ChainWitness
import Verif.Sym.ClosureLemmas
import Verif.Sym.CseLemmas
import Verif.Sym.CseModel
import Verif.Sym.CseProps
import Verif.Sym.CtorModel
import Verif.Sym.DeclareModel
import Verif.Sym.DeclareProps
import Verif.Sym.DeferredModel
import Verif.Sym.DeferredProps
import Verif.Sym.DerivativeCalculus
import Verif.Sym.DerivativeCorrect
import Verif.Sym.DerivativeLemmas
import Verif.Sym.DerivativeModel
import Verif.Sym.DerivativeProps
import Verif.Sym.DerivativeSound
import Verif.Sym.DerivativeSpec
import Verif.Sym.DistributeLemmas
import Verif.Sym.DistributeModel
import Verif.Sym.DistributeProps
import Verif.Sym.EvalLemmas
import Verif.Sym.EvalSpec
import Verif.Sym.EvaluateLemmas
import Verif.Sym.EvaluateModel
import Verif.Sym.EvaluateProps
import Verif.Sym.EvaluateSpec
import Verif.Sym.ExampleTools
import Verif.Sym.ExponentDiff
import Verif.Sym.ExponentFns
import Verif.Sym.ExponentLemmas
import Verif.Sym.ExponentLower
import Verif.Sym.ExponentProps
import Verif.Sym.ExponentRebuild
import Verif.Sym.ExponentSpec
import Verif.Sym.ExprModel
import Verif.Sym.FormatLemmas
import Verif.Sym.FormatModel
import Verif.Sym.FormatProps
import Verif.Sym.FormatSpec
import Verif.Sym.FormatUnique
import Verif.Sym.FromIrDefs
import Verif.Sym.FromIrLemmas
import Verif.Sym.FromIrModel
import Verif.Sym.FromIrProps
import Verif.Sym.FunctionIdentities
import Verif.Sym.FunctionLemmas
import Verif.Sym.FunctionModel
import Verif.Sym.FunctionProps
import Verif.Sym.FunctionSpec
import Verif.Sym.IntFloat
import Verif.Sym.LawfulSpec
import Verif.Sym.LowerLeaves
import Verif.Sym.LowerLemmas
import Verif.Sym.LowerModel
import Verif.Sym.LowerOutput
import Verif.Sym.LowerProps
import Verif.Sym.LowerShape
import Verif.Sym.LowerSound
import Verif.Sym.LowerSpec
import Verif.Sym.MatDiffModel
import Verif.Sym.MatDiffProps
import Verif.Sym.MatExprLemmas
import Verif.Sym.MatExprModel
import Verif.Sym.MatExprProps
import Verif.Sym.MatExprSpec
import Verif.Sym.NumberSetLemmas
import Verif.Sym.NumberSetModel
import Verif.Sym.NumberSetProps
import Verif.Sym.NumberSetSpec
import Verif.Sym.OnceLemmas
import Verif.Sym.OnceModel
import Verif.Sym.OnceProps
import Verif.Sym.OnceSpec
import Verif.Sym.OrderLemmas
import Verif.Sym.OrderLemmas2
import Verif.Sym.OrderProps
import Verif.Sym.OrderSpec
import Verif.Sym.PermuteLemmas
import Verif.Sym.PermuteProps
import Verif.Sym.PermuteSpec
import Verif.Sym.PipelineModel
import Verif.Sym.PipelineProps
import Verif.Sym.PipelineSpec
import Verif.Sym.PowLemmas
import Verif.Sym.ProductLemmas
import Verif.Sym.QuatDerivLemmas
import Verif.Sym.QuatDerivProps
import Verif.Sym.QuatLemmas
import Verif.Sym.QuatModel
import Verif.Sym.QuatProps
import Verif.Sym.QuatReal
import Verif.Sym.QuatSpec
import Verif.Sym.QuatStoreModel
import Verif.Sym.QuatStoreProps
import Verif.Sym.RealFloat
import Verif.Sym.RebuildLemmas
import Verif.Sym.RebuildModel
import Verif.Sym.RelationLemmas
import Verif.Sym.SingleLemmas
import Verif.Sym.SingleProduct
import Verif.Sym.SingleProps
import Verif.Sym.SortModel
import Verif.Sym.SortProps
import Verif.Sym.StackDistLemmas
import Verif.Sym.StackDistProps
import Verif.Sym.StackFnLemmas
import Verif.Sym.StackFnProps
import Verif.Sym.StackLemmas
import Verif.Sym.StackProps
import Verif.Sym.StackQuatLemmas
import Verif.Sym.StackQuatProps
import Verif.Sym.StackSubsLemmas
import Verif.Sym.SubstituteLemmas
import Verif.Sym.SubstituteModel
import Verif.Sym.SubstituteProps
import Verif.Sym.SumLemmas
import Verif.Sym.SymbolsModel
import Verif.Sym.SymbolsProps
import Verif.Sym.SympyFromLemmas
import Verif.Sym.SympyModel
import Verif.Sym.SympyProps
import Verif.Sym.SympySpec
import Verif.Sym.SympyToLemmas
import Verif.Sym.TreeModel
import Verif.Sym.TreeProps
import Verif.Sym.TruthModel
import Verif.Sym.TruthProps
import Verif.Sym.ValueProps
import Verif.Sym.VariablesLemmas
import Verif.Sym.VariablesModel
import Verif.Sym.VariablesProps
import Verif.Sym.VariablesSpec
import Verif.Sym.WholeCallProps
import Verif.Sym.WholeCallSpec
import Verif.Sym.ZeroLemmas

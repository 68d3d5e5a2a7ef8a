import Verif.Bits.Props
import Verif.Sort.Props
import Verif.Perm.NextProps
import Verif.Perm.ParityProps
import Verif.Perm.CycleProps
import Verif.Wick.Props
import Verif.Wick.ContractionProps
import Verif.Wick.NormalizeProps
import Verif.Wick.ConnectProps
import Verif.Expression.BuildProps
import Verif.Expression.ExpandProps
import Verif.Expression.FlattenProps
import Verif.Expression.SimplifyProps
import Verif.Expression.AccumProps
import Verif.Expression.AdjointProps
import Verif.Wick.AdjointProps
import Verif.Wick.CommuteProps
import Verif.Space.BaseProps
import Verif.Index.OrderProps
import Verif.Index.TransformProps
import Verif.Index.GenProps
import Verif.Tree.VisitProps
import Verif.Tree.CopyProps
import Verif.Eval.CacheProps
import Verif.Eval.EvalProps
import Verif.Eval.AliasProps
import Verif.Optimize.CostOrder
import Verif.Optimize.OptProps
import Verif.Optimize.ParetoProps
import Verif.Optimize.PeakProps
import Verif.Optimize.UniqueProps
import Verif.Optimize.CseProps
import Verif.Export.GenProps
import Verif.Optimize.FusionProps
import Verif.Optimize.SumProps
import Verif.Math.FactProps
import Verif.Math.RationalProps
import Verif.Mbpt.QnsProps
import Verif.Context.ScopeProps
import Verif.Mbpt.AntisymmProps
import Verif.Tensor.CanonModel
import Verif.Tensor.CanonProps
import Verif.Serial.Model
import Verif.Serial.Spec
import Verif.Serial.Lemmas
import Verif.Serial.Power
import Verif.Serial.RoundTrip
import Verif.Serial.Props
import Verif.Serial.Witness
import Verif.Spin.Model
import Verif.Spin.Lemmas
import Verif.Spin.Spec
import Verif.Spin.AntisymmProps
import Verif.Spin.AntisymmInst
import Verif.Spin.OpLemmas
import Verif.Spin.OpProps
import Verif.Spin.TraceModel
import Verif.Spin.TraceSpec
import Verif.Spin.ClosedProps
import Verif.Spin.TraceCases
import Verif.Spin.TraceProps
import Verif.Spin.TraceInst
import Verif.Expression.AtomProps
import Verif.Binarize.Props
import Verif.Binarize.CompareExamples
import Verif.Vertex.OpProps
import Verif.Rules.CsvProps
import Verif.Lst.Examples
import Verif.Rules.PopProps
import Verif.Network.Props
import Verif.Reduce.Props
import Verif.Codegen.Props
import Verif.Cse.StructureProps
import Verif.Cse.ExtractProps
import Verif.Cse.SumProps
import Verif.Batch.Tiles
import Verif.Batch.Examples
import Verif.Batch.AxisProps
import Verif.Symm.Examples
import Verif.Biorth.Examples
import Verif.Memo.Props
import Verif.Dense.Results
import Verif.Dense.Handles
import Verif.Scalar.Props
import Verif.Scalar.Hash
import Verif.Layout.Fastest
import Verif.Rdm.Instances
import Verif.Itf.Integrals
import Verif.Itf.Names
import Verif.Itf.LoopProps
import Verif.Einsum.Props
import Verif.Einsum.Names
import Verif.Topology.Sign
import Verif.Topology.Examples
import Verif.Topology.Extract
import Verif.Painter.Props
import Verif.Registry.Props
import Verif.VacAv.Props
import Verif.Uncontr.Examples
import Verif.Named.Props
import Verif.Named.Counts
import Verif.Maker.Quantum
import Verif.Linked.Examples
import Verif.Cc.Props
import Verif.Cc.Truncate
import Verif.Maker.Depend
import Verif.Latex.Props
import Verif.Latex.AlignProps
import Verif.OpenShell.Props
import Verif.Partners.Props
import Verif.Replace.Props
import Verif.Cc.Response
import Verif.Valid.Props
import Verif.Orders.Props
import Verif.Wk.Props
import Verif.Conv.Known
import Verif.Conv.Sizes
import Verif.Diff.Index
import Verif.Julia.Kit
import Verif.Strs.Props
import Verif.Conc.Props

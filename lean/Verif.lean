import Verif.Fbuf.VarintModel
import Verif.Fbuf.VarintProps
import Verif.Fbuf.AdlerModel
import Verif.Fbuf.AdlerProps
import Verif.Fastlz.Model
import Verif.Fastlz.Lemmas
import Verif.Fastlz.Comp
import Verif.Fastlz.Props
import Verif.Fbuf.FileModel
import Verif.Fbuf.FileLemmas
import Verif.Fbuf.FileProps
import Verif.Heap.Model
import Verif.Heap.Lemmas
import Verif.Heap.Props
import Verif.Mask.Model
import Verif.Mask.Lemmas
import Verif.Mask.Lemmas2
import Verif.Mask.Refine
import Verif.Mask.Props
import Verif.Util.Model
import Verif.Util.Props
import Verif.Hash.Model
import Verif.Hash.Lemmas
import Verif.Hash.Rehash
import Verif.Hash.Rehash2
import Verif.Hash.Props
import Verif.Hash.Ghash
import Verif.Hash.GhashProps
import Verif.Loc.Model
import Verif.Loc.Props
import Verif.Ident.IOModel
import Verif.Ident.IOProps
import Verif.Ident.TableModel
import Verif.Ident.TableLemmas
import Verif.Ident.TableProps
import Verif.Ident.StrModel
import Verif.Ident.StrProps
import Verif.Jit.PackModel
import Verif.Jit.PackProps
import Verif.Numeric.Model
import Verif.Numeric.Lemmas
import Verif.Numeric.AddLemmas
import Verif.Numeric.ArithLemmas
import Verif.Numeric.Props
import Verif.Numeric.LogicModel
import Verif.Numeric.LogicProps
import Verif.Bounds.CaseModel
import Verif.Bounds.CaseProps
import Verif.Thread.Count
import Verif.Thread.LockModel
import Verif.Thread.LockLemmas
import Verif.Thread.LockProps
import Verif.Thread.BarrierModel
import Verif.Thread.BarrierProps
import Verif.Thread.DequeModel
import Verif.Thread.DequeLemmas
import Verif.Thread.DequeProps
import Verif.Thread.GlobalqModel
import Verif.Thread.GlobalqProps
import Verif.Thread.WorkqModel
import Verif.Thread.WorkqInv
import Verif.Thread.WorkqSteps
import Verif.Thread.WorkqProps
import Verif.Thread.WorkqProgress
import Verif.Sim.DriverModel
import Verif.Sim.DriverLemmas
import Verif.Sim.DriverProps
import Verif.Sim.CycleOnce
import Verif.Sim.CycleProps
import Verif.Sim.PendingProps
import Verif.Sim.NexusProps
import Verif.Sim.CopyProps
import Verif.Sim.DrivingProps
import Verif.Jit.ArithProps
import Verif.Jit.CpropProps
import Verif.Jit.NopsProps
import Verif.Jit.CfgProps
import Verif.Jit.LivenessProps
import Verif.Jit.LscanCode
import Verif.Jit.LvnBugs
import Verif.Jit.LvnArith
import Verif.Jit.LvnTable
import Verif.Jit.LvnOps
import Verif.Jit.LvnSim
import Verif.Jit.LvnSim2
import Verif.Jit.LvnLoop
import Verif.Jit.LvnProps
import Verif.Jit.LvnEnv
import Verif.Jit.LvnCheck
import Verif.Jit.Mem2regModel
import Verif.Jit.Mem2regProps
import Verif.Jit.Mem2regFrame
import Verif.Jit.Mem2regBugs
import Verif.Mir.StampModel
import Verif.Mir.StampProps
import Verif.Mir.FoldModel
import Verif.Mir.FoldSpec
import Verif.Mir.FoldProps
import Verif.Mir.FoldBugs
import Verif.Mir.DomModel
import Verif.Mir.DomProps
import Verif.Sim.TimeText
import Verif.Sim.TimeTextProps
import Verif.Vcode.EmitModel
import Verif.Vcode.EmitSpec
import Verif.Vcode.EmitInv
import Verif.Vcode.EmitProps
import Verif.Vcode.EmitCorrect
import Verif.Vcode.EmitBugs
import Verif.Gc.Model
import Verif.Gc.Lemmas
import Verif.Gc.Props
import Verif.Vlog.Number
import Verif.Vlog.NumberLemmas
import Verif.Vlog.NumberProps
import Verif.Psl.Guard
import Verif.Psl.GuardSpec
import Verif.Psl.GuardProps
import Verif.Psl.Simplify
import Verif.Psl.SimplifySpec
import Verif.Psl.SimplifyLemmas
import Verif.Psl.SimplifyLoop
import Verif.Psl.SimplifyProps
import Verif.Psl.Build
import Verif.Psl.BuildSpec
import Verif.Psl.Path
import Verif.Psl.BuildLemmas
import Verif.Psl.BuildParts
import Verif.Psl.BuildRepeat
import Verif.Psl.BuildWait
import Verif.Psl.BuildSeq
import Verif.Psl.BuildProps
import Verif.Psl.BuildCounter
import Verif.Jit.LayoutModel
import Verif.Jit.LayoutSpec
import Verif.Jit.LayoutLemmas
import Verif.Jit.LayoutLeaf
import Verif.Jit.LayoutAgree
import Verif.Jit.LayoutTerms
import Verif.Jit.LayoutProps
import Verif.Jit.LayoutCounter
import Verif.Jit.FillModel
import Verif.Jit.FillLemmas
import Verif.Jit.FillProgress
import Verif.Jit.FillProps
import Verif.Jit.CodeModel
import Verif.Jit.CodeSpec
import Verif.Jit.CodeBlob
import Verif.Jit.CodeOps
import Verif.Jit.CodeInv
import Verif.Jit.CodeProps
import Verif.Jit.LlvmModel
import Verif.Jit.LlvmArith
import Verif.Jit.LlvmOps
import Verif.Jit.LlvmInstr
import Verif.Jit.LlvmEdges
import Verif.Jit.LlvmSim
import Verif.Jit.LlvmStep
import Verif.Jit.LlvmTerm
import Verif.Jit.LlvmProps
import Verif.Jit.LlvmRuntime
import Verif.Jit.LlvmBugs
import Verif.Net.WsModel
import Verif.Net.WsSpec
import Verif.Net.WsSend
import Verif.Net.WsRecv
import Verif.Net.WsStream
import Verif.Net.WsSafe
import Verif.Net.WsProps
import Verif.Net.CxModel
import Verif.Net.CxProps
import Verif.Net.TextModel
import Verif.Net.TextProps
import Verif.Lex.BitstrModel
import Verif.Lex.BitstrSpec
import Verif.Lex.BitstrLex
import Verif.Lex.BitstrBased
import Verif.Lex.BitstrDec
import Verif.Lex.BitstrProps
import Verif.Lex.NumModel
import Verif.Lex.NumSpec
import Verif.Lex.NumLemmas
import Verif.Lex.NumProps
import Verif.Obj.MarkModel
import Verif.Obj.MarkProps
import Verif.Obj.Model
import Verif.Obj.Lemmas
import Verif.Obj.GcProps
import Verif.Obj.IoSpec
import Verif.Obj.IoProps
import Verif.Obj.IoProps2
import Verif.Obj.IoProps3
import Verif.Obj.Tables
import Verif.Obj.KindModel
import Verif.Obj.KindProps
import Verif.Obj.CopyModel
import Verif.Obj.CopyProps
import Verif.Obj.CopyProps2
import Verif.Hash.ChashModel
import Verif.Hash.ChashInv
import Verif.Hash.ChashSteps
import Verif.Hash.ChashSpec
import Verif.Hash.ChashTrace
import Verif.Hash.ChashProps
import Verif.Handle.Model
import Verif.Handle.Lemmas
import Verif.Handle.FileProps
import Verif.Handle.ObjProps
import Verif.Udp.Spec
import Verif.Udp.Model
import Verif.Udp.Props
import Verif.Pp.Spec
import Verif.Pp.Model
import Verif.Pp.Props
import Verif.Cov.Spec
import Verif.Cov.Model
import Verif.Cov.MergeLemmas
import Verif.Cov.MergeProps
import Verif.Cov.FileModel
import Verif.Cov.FileProps
import Verif.Cov.CountSpec
import Verif.Cov.CountModel
import Verif.Cov.CountProps
import Verif.Case.Spec
import Verif.Case.Model
import Verif.Case.Lemmas
import Verif.Case.ScalarLemmas
import Verif.Case.ScalarProps
import Verif.Case.EncProps
import Verif.Case.ArrayLemmas
import Verif.Case.ArrayProps
import Verif.Case.CharProps
import Verif.Case.BranchProps
import Verif.Predef.Spec
import Verif.Predef.Model
import Verif.Predef.Lemmas
import Verif.Predef.CmpProps
import Verif.Predef.ShiftProps
import Verif.Predef.LogicProps
import Verif.Predef.MatchProps
import Verif.Seq.Spec
import Verif.Seq.Model
import Verif.Seq.Lemmas
import Verif.Seq.Growth
import Verif.Seq.Lower
import Verif.Seq.Run
import Verif.Seq.Sim
import Verif.Seq.SimAll
import Verif.Seq.Whole
import Verif.Seq.Total
import Verif.Seq.Props
import Verif.Expr.VlogSpec
import Verif.Expr.VlogModel
import Verif.Expr.VlogProps
import Verif.Expr.VhdlSpec
import Verif.Expr.VhdlModel
import Verif.Expr.VhdlProps
import Verif.FourState.Spec
import Verif.FourState.Model
import Verif.FourState.Props
import Verif.FourState.Arith
import Verif.FourState.Conv
import Verif.Textio.Spec
import Verif.Textio.Model
import Verif.Textio.Props
import Verif.Textio.Ints
import Verif.Textio.Digits
import Verif.Textio.Times
import Verif.Textio.Round
import Verif.Mangle.Spec
import Verif.Mangle.Model
import Verif.Mangle.Props
import Verif.Mangle.Paths
import Verif.Mangle.Uses
import Verif.ParseValue.Spec
import Verif.ParseValue.Model
import Verif.ParseValue.Props
import Verif.ParseValue.Scalars
import Verif.StdEnv.Spec
import Verif.StdEnv.Model
import Verif.StdEnv.Calendar
import Verif.StdEnv.Times
import Verif.StdEnv.Arith
import Verif.StdEnv.Text
import Verif.Drivers.Spec
import Verif.Drivers.Model
import Verif.Drivers.Names
import Verif.Drivers.Sets
import Verif.Drivers.Unique
import Verif.Wave.Spec
import Verif.Wave.Model
import Verif.Wave.Values
import Verif.Wave.Files
import Verif.Random.Spec
import Verif.Random.Model
import Verif.Random.Twister
import Verif.Printer.Spec
import Verif.Printer.Model
import Verif.Printer.Values
import Verif.Printer.Cache
import Verif.Assert.Spec
import Verif.Assert.Model
import Verif.Assert.Formats
import Verif.Assert.Counts
import Verif.CovEx.Props
import Verif.CovEx.SpecFile
import Verif.CovEx.FoldTree
import Verif.Cobertura.Props
import Verif.Cobertura.Walk
import Verif.CovRep.Props
import Verif.CovRep.Files
import Verif.CovRep.Tree
import Verif.ToString.Props

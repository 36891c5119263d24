import Verif.Model.Py
import Verif.Model.Tree
import Verif.Model.Evaluate
import Verif.Model.Expr
import Verif.Model.Sym
import Verif.Model.Functions
import Verif.Model.Diff
import Verif.Spec.Tree
import Verif.Spec.Graph
import Verif.Spec.Eval
import Verif.Spec.Log
import Verif.Spec.Transform
import Verif.Spec.Rules
import Verif.Spec.Arith
import Verif.Spec.Operators
import Verif.Spec.Diff
import Verif.Lemmas.Topo
import Verif.Lemmas.TopoOrder
import Verif.Lemmas.Dict
import Verif.Lemmas.Graph
import Verif.Lemmas.Subs
import Verif.Lemmas.Eval
import Verif.Lemmas.Log
import Verif.Lemmas.Rules
import Verif.Lemmas.Diff
import Verif.Props.Samples
import Verif.Props.Topo
import Verif.Props.Subs
import Verif.Props.Eval
import Verif.Props.Rules
import Verif.Props.Arith
import Verif.Props.Operators
import Verif.Props.Diff
import Verif.Props.DiffRules
import Verif.Spec.Real
import Verif.Spec.RealOperators
import Verif.Lemmas.F64
import Verif.Lemmas.RealDiff
import Verif.Props.RealDiff
import Verif.Props.RealValues
import Verif.Model.Matrix
import Verif.Spec.Matrix
import Verif.Lemmas.Matrix
import Verif.Props.Matrix
import Verif.Model.Store
import Verif.Spec.Store
import Verif.Lemmas.Store
import Verif.Props.Store
import Verif.Model.LLVM
import Verif.Spec.Double
import Verif.Lemmas.Double
import Verif.Props.Double
import Verif.Spec.LLVM
import Verif.Lemmas.LLVM
import Verif.Props.LLVM
import Verif.Props.LLVMMatrix
import Verif.Props.LLVMErrors
import Verif.Props.Lambdify
import Verif.Props.LambdifyMatrix
import Verif.Spec.Print
import Verif.Props.Print
import Verif.Props.PrintUnique
import Verif.Model.SymPy
import Verif.Spec.SymPy
import Verif.Lemmas.SymPy
import Verif.Props.SymPy
import Verif.Spec.EvalValues
import Verif.Props.Substitution
import Verif.Spec.Rename
import Verif.Lemmas.Rename
import Verif.Props.Rename
import Verif.Model.MatrixHeap
import Verif.Spec.MatrixHeap
import Verif.Lemmas.MatrixHeap
import Verif.Props.MatrixHeap
import Verif.Model.MatrixThreads
import Verif.Spec.MatrixThreads
import Verif.Lemmas.MatrixThreads
import Verif.Props.MatrixThreads
import Verif.Spec.LLVMText
import Verif.Lemmas.LLVMText
import Verif.Props.LLVMText
import Verif.Spec.Float
import Verif.Props.Float
import Verif.Spec.DiffTable
import Verif.Props.DiffExact
import Verif.Spec.RealRules
import Verif.Props.RealRules
import Verif.Model.Repr
import Verif.Spec.PyRead
import Verif.Lemmas.Repr
import Verif.Props.Repr
import Verif.Props.MatrixRepr
import Verif.Spec.EvalTable
import Verif.Props.EvalTable
import Verif.Spec.Size
import Verif.Lemmas.Size
import Verif.Props.Size
import Verif.Spec.DiffSubs
import Verif.Props.DiffSubs
import Verif.Lemmas.Mixed
import Verif.Props.Mixed
import Verif.Props.Compile
import Verif.Props.Compiled
import Verif.Props.CompiledDiff
import Verif.Model.Compile
import Verif.Spec.Compile
import Verif.Spec.Replace
import Verif.Spec.EvalRules
import Verif.Spec.DiffHistory
import Verif.Spec.LLVMReal
import Verif.Spec.Rounding
import Verif.Spec.Binary64
import Verif.Lemmas.Nearest
import Verif.Props.Rounding
import Verif.Props.Binary64
import Verif.Props.LatexUnique
import Verif.Props.CompiledNth
import Verif.Props.MatrixNth
import Verif.Lemmas.Chain
import Verif.Props.Chain
import Verif.Props.CompiledError
import Verif.Props.CompiledPoles
import Verif.Props.CompileThreads
import Verif.Spec.Overflow
import Verif.Props.Overflow
import Verif.Model.Containers
import Verif.Spec.Containers
import Verif.Lemmas.Containers
import Verif.Lemmas.ContainersDiff
import Verif.Lemmas.ContainersEval
import Verif.Lemmas.ContainersHistory
import Verif.Props.Containers
import Verif.Model.Time
import Verif.Model.TimeLLVM
import Verif.Spec.Time
import Verif.Lemmas.Time
import Verif.Props.Time
import Verif.Props.TimeLLVM
import Verif.Model.Client
import Verif.Model.ClientTree
import Verif.Model.ClientEval
import Verif.Model.ClientExpr
import Verif.Spec.Client
import Verif.Spec.ClientEval
import Verif.Spec.ClientExpr
import Verif.Spec.ClientScript
import Verif.Lemmas.Client
import Verif.Lemmas.ClientLogic
import Verif.Lemmas.ClientTree
import Verif.Lemmas.ClientDiff
import Verif.Lemmas.ClientEval
import Verif.Lemmas.ClientRead
import Verif.Lemmas.ClientExpr
import Verif.Lemmas.ClientScript
import Verif.Lemmas.ClientBuild
import Verif.Props.Client
import Verif.Props.ClientExpr
import Verif.Model.ClientRules
import Verif.Model.ClientMatrix
import Verif.Spec.ClientUser
import Verif.Lemmas.ClientRules
import Verif.Lemmas.ClientMatrix
import Verif.Lemmas.ClientUser
import Verif.Props.ClientUser
import Verif.Spec.Progress
import Verif.Lemmas.Progress
import Verif.Props.Progress
import Verif.Model.Frames
import Verif.Spec.Frames
import Verif.Lemmas.Frames
import Verif.Lemmas.FramesOps
import Verif.Lemmas.FramesPrint
import Verif.Lemmas.FramesRules
import Verif.Lemmas.FramesLimit
import Verif.Props.Frames
import Verif.Model.FramesMatrix
import Verif.Lemmas.FramesMatrix
import Verif.Props.FramesMatrix
import Verif.Spec.Memory
import Verif.Props.Memory
import Verif.Spec.LLVMWork
import Verif.Props.LLVMWork
import Verif.Spec.AtomValue
import Verif.Props.AtomValue
import Verif.Spec.Interrupt
import Verif.Props.Interrupt
import Verif.Spec.Symbols
import Verif.Props.Symbols
import Verif.Props.Gradient
import Verif.Props.Copy
import Verif.Props.Calculus

import Verif.Lru.Props
import Verif.Memory.Align
import Verif.Memory.ArenaProps
import Verif.Memory.LevelDb
import Verif.Pool.Plan
import Verif.Pool.Barrier
import Verif.Pool.Nested
import Verif.Ctx.CleanupList
import Verif.Ctx.Context
import Verif.Func.CallConv
import Verif.Func.Registry
import Verif.Simd.Reduce
import Verif.Simd.Bits
import Verif.Simd.StrProps
import Verif.Simd.Gather
import Verif.Simd.Filter
import Verif.Simd.Match
import Verif.Types.StringView
import Verif.Types.BitVector
import Verif.Types.Vector
import Verif.Types.DType
import Verif.Types.DTypeOrder
import Verif.Types.GetDType
import Verif.Types.Names
import Verif.Types.Convert
import Verif.Types.DynObject
import Verif.Types.Params
import Verif.Types.Schemas
import Verif.Tbl.Rows
import Verif.Tbl.Group
import Verif.Tbl.AddRows
import Verif.Tbl.Foreach
import Verif.Tbl.Columns
import Verif.Tbl.Order
import Verif.Tbl.Schema
import Verif.Tbl.Cells
import Verif.Exec.EvalCache
import Verif.Ast.LexerProps
import Verif.Ast.Total
import Verif.Ast.Sound
import Verif.Ast.Stmts
import Verif.Ast.Lines
import Verif.Ast.Validate
import Verif.Ast.Symbols
import Verif.Ast.SymbolsRace
import Verif.Ast.Literal
import Verif.Ast.Rpn
import Verif.Gen.CfgProps
import Verif.Gen.ScalarProps
import Verif.Gen.ScalarAssign
import Verif.Gen.IntOps
import Verif.Gen.VecProps
import Verif.Gen.VecBits
import Verif.Comp.SessionProps
import Verif.Comp.Access
import Verif.Comp.Members
import Verif.Func.Stl
import Verif.Func.Pb
import Verif.Func.Wrapped
import Verif.Simd.Split
import Verif.Simd.StrCmp
import Verif.Memory.Threads
import Verif.Gen.FloatOps
import Verif.Gen.MathFns
import Verif.Simd.Transform
import Verif.Func.Json
import Verif.Comp.Pipeline
import Verif.Comp.FunctionProps
import Verif.Comp.StrLit
import Verif.Comp.VecPipeProps
import Verif.Comp.VarsProps
import Verif.Comp.AcceptProps
import Verif.Comp.ScriptText
import Verif.Comp.RealProps
import Verif.Comp.VecFnText
import Verif.Simd.Distance
import Verif.Ast.Pool
import Verif.Func.OpNames
import Verif.Comp.Holder
import Verif.Comp.TableFnText
import Verif.Comp.VecWords
import Verif.Comp.RealFnProps
import Verif.Comp.WordsProps
import Verif.Comp.WordsFnProps
import Verif.Simd.Sort
import Verif.Comp.FieldsFn
import Verif.Comp.DynFn
import Verif.Comp.FieldsFrame
import Verif.Ctx.NewVector
import Verif.Memory.ArenaString
import Verif.Tbl.Indices
import Verif.Exec.EvalText
import Verif.Tbl.History
import Verif.Types.ParamTree
import Verif.Tbl.Lifetime
import Verif.Ctx.ResetOrder
import Verif.Tbl.KeyBytes
import Verif.Tbl.Typed
import Verif.Ctx.Random
import Verif.Memory.Destroy
import Verif.Gen.MulAdd
import Verif.Types.TypeIds
import Verif.Log.EveryN
import Verif.Types.Descriptors
import Verif.Pool.Global
import Verif.Log.Logger
import Verif.Comp.VecMistake

import Verif.Lib.Qsort.Theorems
import Verif.Util.Wrap
import Verif.Util.Leb128
import Verif.Util.Escape
import Verif.Util.Vec
import Verif.Util.Path
import Verif.Lib.MemFuncs
import Verif.Lib.Str
import Verif.Lib.Strtol
import Verif.Lib.Rand48
import Verif.Lib.Atexit
import Verif.Lib.Malloc
import Verif.Util.Table
import Verif.Util.Names
import Verif.Lib.FileOut
import Verif.Lib.FileIn
import Verif.Lib.Printf
import Verif.Backend.Cond
import Verif.Backend.BbClean
import Verif.Backend.PhiMoves
import Verif.Backend.ResolvePhis
import Verif.Backend.Optimize
import Verif.Util.Align
import Verif.Backend.Frame
import Verif.Backend.CallConv
import Verif.Backend.CopyLoop
import Verif.Backend.LinearScan
import Verif.Backend.Intervals
import Verif.Backend.RegFlow
import Verif.Backend.AllocSim
import Verif.Backend.Spill
import Verif.Util.Field
import Verif.As.RvIsa
import Verif.As.RvAsm
import Verif.As.Expr
import Verif.As.Relax
import Verif.Ld.Symbols
import Verif.Ld.Layout
import Verif.Ld.Reloc
import Verif.Front.Struct
import Verif.Front.Bitfield
import Verif.Front.LexOp
import Verif.Front.Literal
import Verif.Front.Fold
import Verif.Front.Scope
import Verif.Front.Init
import Verif.Cpp.IfExpr
import Verif.Cpp.Cond
import Verif.Cpp.Macro
import Verif.Backend.Switch
import Verif.Front.StaticInit
import Verif.Backend.StmtGen
import Verif.Backend.IrFold
import Verif.Backend.Ir
import Verif.Backend.Dce
import Verif.Backend.Edges
import Verif.Backend.Peephole
import Verif.Backend.Ssa
import Verif.Backend.CopyProp
import Verif.Backend.SsaStrict
import Verif.Backend.X64Isa
import Verif.Backend.X64Sel
import Verif.Backend.X64Legal
import Verif.As.X64Dec
import Verif.As.X64Enc
import Verif.As.X64Code
import Verif.Front.CExpr
import Verif.Front.Elab
import Verif.Front.ElabOps
import Verif.Front.ElabCorrect
import Verif.Backend.ExprGen
import Verif.Backend.ExprGenCorrect
import Verif.Wasm.Isa
import Verif.Wasm.Gen
import Verif.Wasm.GenOps
import Verif.Wasm.GenCorrect
import Verif.Wasm.GenProps
import Verif.Wasm.Stmt
import Verif.Wasm.StmtSegs
import Verif.Wasm.StmtCorrect
import Verif.Wasm.StmtOk
import Verif.Wasm.StmtSwitch
import Verif.Wasm.StmtProps
import Verif.Wasm.Alloc
import Verif.Wasm.Func
import Verif.Wasm.FuncCorrect
import Verif.Wasm.FuncProps
import Verif.Front.Reach
import Verif.As.X64Text
import Verif.As.X64TextRead
import Verif.As.X64TextCode
import Verif.Front.ExprParse
import Verif.Front.Declarator
import Verif.Front.Spec
import Verif.Wasm.Link
import Verif.As.Elf
import Verif.Front.StmtParse
import Verif.Front.Inline
import Verif.Front.CallArgs
import Verif.Util.Driver
import Verif.Util.DriverInv
import Verif.Util.DriverStep
import Verif.Util.DriverRun
import Verif.Util.DriverProps
import Verif.Util.DriverMain
import Verif.Ld.ArFile
import Verif.Front.TypeCheck
import Verif.Front.StrLit
import Verif.Lib.Fp
import Verif.Lib.FpModf
import Verif.Lib.MemStream
import Verif.Util.Lines
import Verif.Util.Opt
import Verif.Lib.Misc
import Verif.Lib.Realloc
import Verif.Lib.Mkstemp
import Verif.Util.ErrorLine

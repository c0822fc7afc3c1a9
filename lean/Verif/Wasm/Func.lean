import Verif.Wasm.StmtProps
import Verif.Wasm.Alloc
/-!
# Functions compiled to WebAssembly (C74): model and specification

Model of `gen_defun` (src/wcc/gen_wasm.c:1642-1768) for functions without variadic arguments, struct parameters or struct results, and
without a local copy of the stack pointer (`lspname`).
-/
namespace Verif.WasmGen
open Verif.Util Verif.CExpr Verif.Wasm Verif.WasmAlloc
open Verif.Fold hiding Op Res

/-- A function.  `data`: addresses of static and global variables; `sp`: the number of the global that is the stack pointer. -/
structure Func where
  v : Vars
  ty : Nat → T
  data : Nat → Option Nat
  n0 : Nat
  sp : Nat
  rt : T
  body : L

/-- Where `allocate_local_variables` puts a variable. -/
def placeOf (v : Vars) (x : Option Nat) : Option Place := ((alloc v).find? fun q => q.1.id = x).map (·.2)

/-- The variables of the function as the code of expressions sees them (`varinfo->local.vreg`, gen_wasm.c:1602-1632).  Numbers that
belong to no variable are given locals beyond the last one. -/
def fnOf (F : Func) : Fn where
  ty := F.ty
  loc x :=
    match F.data x with
    | some a => .data a
    | none =>
      match placeOf F.v (some x) with
      | some (.frame o) => .frame o
      | some (.sparam o) => .frame o
      | _ => .reg
  ix x :=
    match placeOf F.v (some x) with
    | some (.reg i) => i
    | _ => base F.v 4 + 1 + x
  bpx :=
    match placeOf F.v none with
    | some (.reg i) => i
    | _ => base F.v 4
  n0 := F.n0

/-- gen_wasm.c:1706-1718: parameters whose address is taken are stored in the frame. -/
def storeParam (F : Func) (q : Decl × Place) : List Tok :=
  match q.1.id, q.1.par, q.2 with
  | some x, some k, .frame o =>
    if q.1.refTaken && !q.1.agg then
      bpofs (fnOf F) o ++ [.op (.lget ((if F.v.retParam then 1 else 0) + k))] ++ genStore (F.ty x)
    else []
  | _, _, _ => []

/-- gen_wasm.c:1678-1718. -/
def prologue (F : Func) : List Tok :=
  (if hasBp F.v then
    [.op (.gget F.sp), .op (.lset (fnOf F).bpx)] ++
      (if 0 < frameSize F.v then
        [.op (.lget (fnOf F).bpx)] ++ genLit .szt (frameSize F.v) ++ [.op (.bin .i32 .sub), .op (.gset F.sp)]
      else [])
  else []) ++ (alloc F.v).flatMap (storeParam F)

/-- `get_func_ret_wtype`: the type of the block of the body. -/
def T.res (t : T) : Option VT := if t = .void then none else some t.w

/-- gen_wasm.c:1726-1738: the body, and what ends a function whose end is not to be reached. -/
def bodyCode (F : Func) : List Tok :=
  let d := if hasBp F.v then 1 else 0
  let b := (travS (fnOf F) (.block F.body) F.n0).1
  (genS (fnOf F) ⟨hasBp F.v, F.rt⟩ true false d 0 0 b).1 ++
    (match b with
      | .block (.cons _ _) => if F.rt ≠ .void ∧ funcend b = false then [.op .unreachable] else []
      | _ => [])

/-- gen_wasm.c:1642-1768 `gen_defun`; the final `end` is left out. -/
def genFn (F : Func) : List Tok :=
  prologue F ++
    (if hasBp F.v then .block F.rt.res :: bodyCode F ++ [.end_] ++ [.op (.lget (fnOf F).bpx), .op (.gset F.sp)] else bodyCode F)

/-! ## Specification -/

/-- WebAssembly 4.4.10: the locals of a call; those that are not parameters are zero. -/
def entryLoc (F : Func) (args : List V) (i : Nat) : V :=
  match args[i]? with
  | some a => a
  | none => ⟨if (declared F.v)[i - firstLocal F.v]? = some 1 then .i64 else .i32, 0⟩

/-- What a function gets: a value for each parameter. -/
def ArgsOk (F : Func) (vals : List Int) (args : List V) : Prop :=
  args.length = pparams (F.v.top ++ F.v.rest) ∧
  ∀ d ∈ F.v.top ++ F.v.rest, ∀ x k, d.id = some x → d.par = some k →
    ∃ a, vals[k]? = some a ∧ args[k]? = some (rep (F.ty x) a) ∧ InR (F.ty x) a

/-- The state in which the body begins: the parameters have their values, memory outside the frame is as it was. -/
structure Entry (F : Func) (c : Ctx) (vals : List Int) (mem : Nat → Nat) (σ : State) : Prop where
  par : ∀ d ∈ F.v.top ++ F.v.rest, ∀ x k, d.id = some x → d.par = some k →
    ∃ a, vals[k]? = some a ∧ getO c (F.ty x) (place c x) σ = .val a σ
  mem : ∀ a, a + frameSize F.v < c.bp ∨ c.bp ≤ a → σ.mem a = mem a

/-- A call: the function's result and memory as C has them, the stack pointer as before. -/
def Returns (F : Func) (ρ : St) (o : Fl) (r : Res) : Prop :=
  match o with
  | .ret v σ => ∃ ρ', r = .ok (if F.rt = .void then [] else [rep F.rt v]) ρ' ∧ ρ'.mem = σ.mem ∧ ρ'.glb = ρ.glb ∧
      (F.rt ≠ .void → InR F.rt v)
  | .go σ => if F.rt = .void then ∃ ρ', r = .ok [] ρ' ∧ ρ'.mem = σ.mem ∧ ρ'.glb = ρ.glb else r = .trap
  | .stop => r = .stop
  | .time => r = .time
  | .ub => True
  | .brk _ => False
  | .cont _ => False

/-! ## Which functions -/

structure FuncOk (F : Func) : Prop where
  wf : Wf F.v
  ids : (F.v.top ++ F.v.rest).Pairwise fun d e => d.id ≠ e.id
  some : ∀ d ∈ F.v.top ++ F.v.rest, d.id ≠ none
  prim : ∀ d ∈ F.v.top ++ F.v.rest, d.par ≠ none → d.agg = false
  order : ((F.v.top ++ F.v.rest).filter (fun d => d.par.isSome)).map (·.par) = (List.range (pparams (F.v.top ++ F.v.rest))).map Option.some
  plain : F.v.retParam = false ∧ F.v.variadic = false
  tmps : ∀ d ∈ F.v.top ++ F.v.rest, ∀ x, d.id = Option.some x → F.n0 ≤ x → d.agg = false ∧ d.refTaken = false
  tmps' : ∀ x, F.n0 ≤ x → F.data x = none
  known : ∀ x, x < F.n0 → F.data x ≠ none ∨ ∃ d ∈ F.v.top ++ F.v.rest, d.id = Option.some x
  locals : ∀ d ∈ F.v.top ++ F.v.rest, ∀ x, d.id = Option.some x → F.data x = none
  types : ∀ d ∈ F.v.top ++ F.v.rest, ∀ x, d.id = Option.some x → d.agg = false →
    (F.ty x).scalar = true ∧ d.wt = (if (F.ty x).w = .i32 then 0 else 1) ∧ d.size = (F.ty x).size
  small : frameSize F.v < 2 ^ 31
  addr : ∀ x a, F.data x = Option.some a → a < 2 ^ 31
  res : F.rt = .void ∨ F.rt.scalar = true

end Verif.WasmGen

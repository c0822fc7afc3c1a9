import Verif.Wasm.Isa
import Verif.Front.Elab
import Verif.Util.Leb128
/-
Model of the WebAssembly compiler's expressions: the rewriting of trees (src/wcc/traverse.c) and the code for them
(src/wcc/gen_wasm.c), for integers and pointers; and, separately, what the trees mean in ISO C.

Not modelled: floating point, structs, bit-fields, arrays as values, inlined functions, statement expressions, compound
literals, built-in functions, calls through pointers, variadic arguments, `reduce_refer` in `gen_lval` (it merges constant
offsets of an address; C68 has it).  `sizeof(long)` is 4, pointers have 4 bytes (src/wcc/wcc.c:110-115).
-/
namespace Verif.WasmGen
open Verif.Util Verif.CExpr Verif.Wasm
open Verif.Fold hiding Op Res

/-- Types: integers, pointers to things of `n` bytes, `void`. -/
inductive T where
  | fx (t : Ty)
  | ptr (n : Nat)
  | void
deriving DecidableEq, Repr

/-- `type_size` (src/cc/frontend/type.c). -/
def T.size : T → Nat
  | .fx t => Fold.size 4 t
  | .ptr _ => 4
  | .void => 1

/-- gen_wasm.c:78, :163-164, :1040: not a signed integer. -/
def T.uns : T → Bool
  | .fx t => t.uns
  | _ => true

/-- wcc_util.c `to_wtype`; gen_wasm.c:129. -/
def T.w (t : T) : VT := if t.size ≤ 4 then .i32 else .i64

def T.int : T := .fx ⟨2, false⟩
def T.bool : T := .fx ⟨6, false⟩
/-- `tySize`: unsigned long. -/
def T.szt : T := .fx ⟨3, true⟩

mutual
/-- Trees (src/cc/frontend/ast.h), after the front end.  `call t f as` calls the function number `f`. -/
inductive X where
  | lit (t : T) (v : Int)
  | var (t : T) (x : Nat)
  | cast (t : T) (e : X)
  | bin (o : Ar) (t : T) (a b : X)
  | rel (k : Rel) (a b : X)
  | land (a b : X)
  | lor (a b : X)
  | pos (t : T) (e : X)
  | neg (t : T) (e : X)
  | bnot (t : T) (e : X)
  | comma (a b : X)
  | tern (t : T) (c a b : X)
  | asg (l r : X)
  | inc (post dec : Bool) (l : X)
  | deref (t : T) (e : X)
  | ref (e : X)
  | call (t : T) (f : Nat) (as : A)
inductive A where
  | nil
  | cons (e : X) (as : A)
end

/-- `expr->type`. -/
def X.ty : X → T
  | .lit t _ => t
  | .var t _ => t
  | .cast t _ => t
  | .bin _ t _ _ => t
  | .rel .. => .bool
  | .land .. => .bool
  | .lor .. => .bool
  | .pos t _ => t
  | .neg t _ => t
  | .bnot t _ => t
  | .comma _ b => b.ty
  | .tern t _ _ _ => t
  | .asg l _ => l.ty
  | .inc _ _ l => l.ty
  | .deref t _ => t
  | .ref e => .ptr e.ty.size
  | .call t _ _ => t

def A.length : A → Nat
  | .nil => 0
  | .cons _ as => as.length + 1

/-- Where a variable lives (gen_wasm.c:1506-1640): in a local of WebAssembly, at an offset from the base pointer, at an
address of the data section. -/
inductive Loc where
  | reg
  | frame (o : Int)
  | data (a : Nat)
deriving DecidableEq, Repr

/-- The variables of a function; those from `n0` on are temporaries of traverse.c.  `ix` is `prim.local_index`, `bpx` that of
the base pointer. -/
structure Fn where
  ty : Nat → T
  loc : Nat → Loc
  ix : Nat → Nat
  bpx : Nat
  n0 : Nat

/-- traverse.c:400-404: the variable lives in a local of WebAssembly. -/
def X.isReg (Γ : Fn) : X → Bool
  | .var _ x => Γ.loc x = .reg
  | _ => false

/-! ## traverse.c -/

/-- What `++` adds: traverse.c:420-424, gen_wasm.c:753. -/
def stepOf : T → Nat
  | .ptr n => n
  | _ => 1

/-- traverse.c:414 `make_refer` (fe_misc.c:545-557), without `reduce_refer`. -/
def mkRefer : X → X
  | .deref _ e => e
  | e => .ref e

/-- traverse.c:351: `make_cast` of the right operand `b` of a shift, where `b'` is `b` traversed. -/
def shiftArg (t : T) (b b' : X) : X :=
  if t = b.ty then b'
  else
    match b with
    | .lit _ v => .lit t (wrapValue v t.size t.uns)
    | _ => .cast t b'

def X.simple : X → Bool
  | .lit .. => true
  | .var .. => true
  | _ => false

def X.isVar : X → Bool
  | .var .. => true
  | _ => false

/-- traverse.c:420-424: the operand that stands for one. -/
def oneOf : T → X
  | .ptr n => .lit .szt n
  | t => .lit t 1

/-- traverse.c:394-435 `te_incdec`, from :410 on; `p`, `q` are the temporaries. -/
def incMem (post dec : Bool) (l : X) (p q : Nat) : X :=
  let t := l.ty
  let pt := T.ptr t.size
  let op := if dec then Ar.sub else Ar.add
  let dp := X.deref t (.var pt p)
  let tmp := X.var t q
  let one := oneOf t
  .comma (.asg (.var pt p) (mkRefer l))
    (.comma (.asg tmp (if post then dp else .bin op t dp one))
      (.comma (.asg dp (if post then .bin op t tmp one else tmp)) tmp))

mutual
/-- traverse.c:471-496 `traverse_expr`; the second component counts the temporaries (`alloc_tmp_var`). -/
def trav (Γ : Fn) (need : Bool) : X → Nat → X × Nat
  | .lit t v, n => (.lit t v, n)
  | .var t x, n => (.var t x, n)
  -- :389-392 `te_cast`, :384-387 `te_unary`
  | .cast t e, n => let r := trav Γ need e n; (.cast t r.1, r.2)
  | .pos t e, n => let r := trav Γ need e n; (.pos t r.1, r.2)
  | .neg t e, n => let r := trav Γ need e n; (.neg t r.1, r.2)
  | .bnot t e, n => let r := trav Γ need e n; (.bnot t r.1, r.2)
  | .deref t e, n => let r := trav Γ need e n; (.deref t r.1, r.2)
  | .ref e, n => let r := trav Γ need e n; (.ref r.1, r.2)
  -- :336-340 `te_bop`, :348-354 `te_shift`
  | .bin o t a b, n =>
    let r := trav Γ need a n
    let q := trav Γ need b r.2
    (.bin o t r.1 (if o = .shl ∨ o = .shr then shiftArg a.ty b q.1 else q.1), q.2)
  | .rel k a b, n =>
    let r := trav Γ need a n
    let q := trav Γ need b r.2
    (.rel k r.1 q.1, q.2)
  -- :342-346 `te_logical`
  | .land a b, n =>
    let r := trav Γ true a n
    let q := trav Γ need b r.2
    (.land r.1 q.1, q.2)
  | .lor a b, n =>
    let r := trav Γ true a n
    let q := trav Γ need b r.2
    (.lor r.1 q.1, q.2)
  -- :356-360 `te_comma`
  | .comma a b, n =>
    let r := trav Γ false a n
    let q := trav Γ need b r.2
    (.comma r.1 q.1, q.2)
  -- :437-442 `te_ternary`
  | .tern t c a b, n =>
    let r := trav Γ true c n
    let q := trav Γ need a r.2
    let p := trav Γ need b q.2
    (.tern t r.1 q.1 p.1, p.2)
  -- :362-382 `te_assign`, :183-193 `assign_to_tmp`
  | .asg l r, n =>
    let l' := trav Γ false l n
    let r' := trav Γ true r l'.2
    if need then
      if r'.1.simple then (.comma (.asg l'.1 r'.1) r'.1, r'.2)
      else if l'.1.isVar then (.comma (.asg l'.1 r'.1) l'.1, r'.2)
      else
        let tmp := X.var l'.1.ty r'.2
        (.comma (.comma (.asg tmp r'.1) (.asg l'.1 tmp)) tmp, r'.2 + 1)
    else (.asg l'.1 r'.1, r'.2)
  -- :394-435 `te_incdec`
  | .inc post dec l, n =>
    let l' := trav Γ need l n
    if l'.1.isReg Γ then (.inc post dec l'.1, l'.2)
    else (incMem post dec l'.1 l'.2 (l'.2 + 1), l'.2 + 2)
  -- :247-318 `te_funcall`
  | .call t f as, n => let r := travA Γ as n; (.call t f r.1, r.2)
def travA (Γ : Fn) : A → Nat → A × Nat
  | .nil, n => (.nil, n)
  | .cons e as, n =>
    let r := trav Γ true e n
    let q := travA Γ as r.2
    (.cons r.1 q.1, q.2)
end

/-! ## gen_wasm.c -/

/-- gen_wasm.c:74-97 `gen_load`. -/
def genLoad (t : T) : List Tok :=
  match t with
  | .void => [.bad]
  | t => [.op (.load t.w t.size (t.size < 4 && !t.uns))]

/-- gen_wasm.c:99-119 `gen_store`. -/
def genStore (t : T) : List Tok :=
  match t with
  | .void => [.bad]
  | t => [.op (.store t.w t.size)]

/-- gen_wasm.c:124: pointers count as signed. -/
def T.sgn : T → Bool
  | .fx t => !t.uns
  | _ => true

/-- gen_wasm.c:121-150 `gen_arith`. -/
def arOp (o : Ar) (t : T) : Bin :=
  let s := t.sgn
  match o with
  | .add => .add
  | .sub => .sub
  | .shl => .shl
  | .shr => .shr s
  | .op .mul => .mul
  | .op .div => .div s
  | .op .mod => .rem s
  | .op .band => .and
  | .op .bor => .or
  | .op .bxor => .xor

def genArith (o : Ar) (t : T) : List Tok := [.op (.bin t.w (arOp o t))]

/-- gen_wasm.c:174-176, :186-188. -/
def maskTo (d : Nat) : List Tok := [.op (.const .i32 (2 ^ (8 * d) - 1)), .op (.bin .i32 .and)]

/-- gen_wasm.c:179, :193: `OP_I32_EXTEND8_S + most_significant_bit(d)`. -/
def extFrom (d : Nat) : List Tok := [.op (if d = 1 then .ext8 else .ext16)]

/-- gen_wasm.c:152-200 `gen_cast_to`. -/
def castTo (dst src : T) : List Tok :=
  if dst = .void then [.op .drop]
  else
    let d := dst.size
    let s := src.size
    (if d > 4 then if s > 4 then [] else [.op (if src.uns then .extU else .extS)]
      else if s > 4 then [.op .wrap] else []) ++
    (if d < s then
      if d < 4 then if dst.uns then maskTo d else extFrom d else []
    else if dst.uns ≠ src.uns then
      if dst.uns then if d < 4 ∧ s < 4 then maskTo d else []
      else if d < 4 then extFrom d else []
    else [])

/-- gen_wasm.c:423-439 `gen_bpofs`. -/
def bpofs (Γ : Fn) (o : Int) : List Tok :=
  [.op (.lget Γ.bpx)] ++ if o ≠ 0 then [.op (.const .i32 o), .op (.bin .i32 .add)] else []

/-- gen_wasm.c:457-499 `gen_ref_sub` of a variable; the linker has put in the address. -/
def addrVar (Γ : Fn) (x : Nat) : List Tok :=
  match Γ.loc x with
  | .reg => [.bad]
  | .frame o => bpofs Γ o
  | .data a => [.op (.const .i32 a)]

/-- gen_wasm.c:631-642 `gen_fixnum`. -/
def genLit (t : T) (v : Int) : List Tok := [.op (.const t.w (if t.size ≤ 4 then toS 32 v else v))]

/-- gen_wasm.c:1038-1052: the comparison. -/
def cmpOf (k : Rel) (t : T) : Cmp :=
  match k with
  | .eq => .eq
  | .ne => .ne
  | .lt => .lt !t.uns
  | .le => .le !t.uns
  | .ge => .ge !t.uns
  | .gt => .gt !t.uns

def cmpTok (k : Rel) (t : T) : Tok := .op (.cmp t.w (cmpOf k t))

/-- gen_wasm.c:1028: `rhs` is the integer zero. -/
def X.zero : X → Bool
  | .lit (.fx _) v => v = 0
  | _ => false

/-- gen_wasm.c:1023-1054 `gen_compare_expr`; `a`, `b` are the code of the operands, `t` the type of the left one. -/
def cmpCode (k : Rel) (t : T) (a b : List Tok) (zero need : Bool) : List Tok :=
  a ++ if need && zero && k == .eq then [.op (.eqz t.w)] else b ++ if need then [cmpTok k t] else []

/-- gen_wasm.c:1070-1075. -/
def negRel : Rel → Rel
  | .eq => .ne
  | .ne => .eq
  | .lt => .ge
  | .ge => .lt
  | .le => .gt
  | .gt => .le

/-- gen_wasm.c:1078-1091; `a`, `b` are the code of the operands. -/
def logCode (land tf need : Bool) (a b : List Tok) : List Tok :=
  a ++ .if_ (if need then some .i32 else none) :: b ++
    (if need then [.else_, .op (.const .i32 (if tf ^^ land then 1 else 0))] else []) ++ [.end_]

/-- An unsigned LEB128 number, read as a signed one. -/
def imm (n : Nat) : Int :=
  match Verif.Util.decodeS (Verif.Util.ulebBytes n) with
  | some (v, _) => v
  | none => 0

/-- gen_wasm.c:730-813 `gen_incdec` of a variable in a local.  :764 `ADD_ULEB128(addend)`. -/
def incCode (Γ : Fn) (need post dec : Bool) (t : T) (x : Nat) : List Tok :=
  [.op (.lget (Γ.ix x))] ++ (if post && need then [.op (.lget (Γ.ix x))] else []) ++
    [.op (.const t.w (imm (stepOf t))), .op (.bin t.w (if dec then .sub else .add))] ++
    (if t.size < 4 then castTo t .int else []) ++
    [.op (if need && !post then .ltee (Γ.ix x) else .lset (Γ.ix x))]

/-- gen_wasm.c:537-549 `gen_var`. -/
def genVar (Γ : Fn) (t : T) (x : Nat) : List Tok :=
  if Γ.loc x = .reg then [.op (.lget (Γ.ix x))] else addrVar Γ x ++ genLoad t

mutual
/-- gen_wasm.c:997-1021 `gen_expr`.  Cast to `_Bool` (:869) is done by the front end: `make_cast`, fe_misc.c. -/
def gen (Γ : Fn) (need : Bool) : X → List Tok
  | .lit t v => if need then genLit t v else []
  | .var t x => if need then genVar Γ t x else []
  -- :865-876 `gen_cast`
  | .cast t e => if t = .bool then [.bad] else gen Γ need e ++ if need then castTo t e.ty else []
  -- :670-675 `gen_bop`
  | .bin o t a b => gen Γ need a ++ gen Γ need b ++ if need then genArith o t else []
  -- :677-679 `gen_relation`
  | .rel k a b => cmpCode k a.ty (gen Γ need a) (gen Γ need b) b.zero need
  | .land a b => logCode true true need (genCond Γ true true a) (genCond Γ true need b)
  | .lor a b => logCode false true need (genCond Γ false true a) (genCond Γ true need b)
  -- :681-728
  | .pos _ e => gen Γ need e
  | .neg t e => if need then .op (.const t.w 0) :: gen Γ true e ++ genArith .sub t else gen Γ false e
  | .bnot t e => gen Γ need e ++ if need then .op (.const t.w (-1)) :: genArith (.op .bxor) t else []
  -- :860-863 `gen_comma`
  | .comma a b => gen Γ false a ++ gen Γ need b
  -- :250-264 `gen_ternary`
  | .tern t c a b =>
    let wt := if need && t ≠ .void then some t.w else none
    genCond Γ true true c ++ .if_ wt :: gen Γ wt.isSome a ++ .else_ :: gen Γ wt.isSome b ++ [.end_]
  -- :815-858 `gen_assign`, `gen_assign_sub`
  | .asg l r =>
    match l with
    | .var t x =>
      if Γ.loc x = .reg then gen Γ true r ++ [.op (.lset (Γ.ix x))] else addrVar Γ x ++ gen Γ true r ++ genStore t
    | .deref t e => gen Γ true e ++ gen Γ true r ++ genStore t
    | _ => [.bad]
  -- :730-813 `gen_incdec`
  | .inc post dec l =>
    match l with
    | .var t x => if Γ.loc x = .reg then incCode Γ need post dec t x else [.bad]
    | _ => [.bad]
  -- :886-905 `gen_deref`
  | .deref t e => gen Γ need e ++ if need then genLoad t else []
  -- :878-884 `gen_ref`, :455-525 `gen_ref_sub`
  | .ref l =>
    match l with
    | .var _ x => if need then addrVar Γ x else []
    | .deref _ e => gen Γ need e
    | _ => [.bad]
  -- :929-933 `gen_funcall_expr`, :282-421 `gen_funcall`
  | .call t f as => genArgs Γ as ++ .op (.call f) :: if !need && t ≠ .void then [.op .drop] else []
/-- gen_wasm.c:1056-1101 `gen_cond`. -/
def genCond (Γ : Fn) (tf need : Bool) : X → List Tok
  | .lit t v =>
    cmpCode (if tf then .ne else .eq) t (if need then genLit t v else []) (if need then genLit .int 0 else []) true need
  | .rel k a b => cmpCode (if tf then k else negRel k) a.ty (gen Γ need a) (gen Γ need b) b.zero need
  | .land a b => logCode true tf need (genCond Γ true true a) (genCond Γ tf need b)
  | .lor a b => logCode false tf need (genCond Γ false true a) (genCond Γ tf need b)
  | .comma a b => gen Γ false a ++ genCond Γ tf need b
  | _ => [.bad]
def genArgs (Γ : Fn) : A → List Tok
  | .nil => []
  | .cons e as => gen Γ true e ++ genArgs Γ as
end

/-! ## Specification: what the trees mean -/

/-- Variables in locals have values, the rest is memory. -/
structure State where
  env : Nat → Int
  mem : Nat → Nat

/-- A value (and the state after it), a call that does not return, or undefined behaviour. -/
inductive Ou (α : Type) where
  | val (a : α) (σ : State)
  | stop
  | ub

def Ou.bind {α β : Type} (o : Ou α) (f : α → State → Ou β) : Ou β :=
  match o with
  | .val a σ => f a σ
  | .stop => .stop
  | .ub => .ub

def Ou.ofOpt {α : Type} (o : Option α) (σ : State) : Ou α :=
  match o with
  | some a => .val a σ
  | none => .ub

/-- An object: a variable in a local, or an address. -/
inductive Obj where
  | reg (x : Nat)
  | addr (a : Nat)
deriving DecidableEq, Repr

/-- The variables, the base pointer, the machine (its calls and the size of its memory). -/
structure Ctx where
  Γ : Fn
  bp : Nat
  E : Env

def place (c : Ctx) (x : Nat) : Obj :=
  match c.Γ.loc x with
  | .reg => .reg x
  | .frame o => .addr (pat 32 (c.bp + o))
  | .data a => .addr a

/-- Access outside memory is undefined. -/
def getO (c : Ctx) (t : T) (l : Obj) (σ : State) : Ou Int :=
  match l with
  | .reg x => .val (σ.env x) σ
  | .addr a => if a + t.size ≤ c.E.size then .val (conv t.size t.uns (rdB σ.mem a t.size)) σ else .ub

def putO (c : Ctx) (t : T) (l : Obj) (v : Int) (σ : State) : Ou Unit :=
  match l with
  | .reg x => .val () { σ with env := fun y => if y = x then v else σ.env y }
  | .addr a => if a + t.size ≤ c.E.size then .val () { σ with mem := wrB σ.mem a t.size (pat (8 * t.size) v) } else .ub

/-- How WebAssembly holds the value `a` of type `t`: narrow types as 32-bit numbers with the same value. -/
def rep (t : T) (a : Int) : V := ⟨t.w, pat t.w.bits a⟩

/-- The results of a call, by the convention that they are values of the type. -/
def retVal (t : T) (vs : List V) : Option Int :=
  match t, vs with
  | .void, [] => some 0
  | .void, _ => none
  | t, [v] => if v = rep t (conv t.size t.uns v.n) then some (conv t.size t.uns v.n) else none
  | _, _ => none

def relV (k : Rel) (a b : Int) : Int := if holds k a b then 1 else 0

mutual
/-- The value of a tree; `need`: the value is used.  ISO C leaves the order of an assignment's operands open: its left side
comes first, except that it comes second if the value is used, unless the right side is a constant or a variable or the
left side is a variable.  Operations wrap around.  The value of an assignment from a variable whose bytes it overwrites in
part is undefined. -/
def ev (c : Ctx) (need : Bool) : X → State → Ou Int
  | .lit t v, σ => .val (conv t.size t.uns v) σ
  | .var t x, σ => getO c t (place c x) σ
  | .cast t e, σ => (ev c need e σ).bind fun a σ => .val (if t = .void then 0 else conv t.size t.uns a) σ
  | .bin o t a b, σ => (ev c need a σ).bind fun x σ => (ev c need b σ).bind fun y σ => .ofOpt (Elab.opT o t.size t.uns x y) σ
  | .rel k a b, σ => (ev c need a σ).bind fun x σ => (ev c need b σ).bind fun y σ => .val (relV k x y) σ
  | .land a b, σ => (ev c true a σ).bind fun x σ => if x = 0 then .val 0 σ else (ev c need b σ).bind fun y σ => .val (relV .ne y 0) σ
  | .lor a b, σ => (ev c true a σ).bind fun x σ => if x ≠ 0 then .val 1 σ else (ev c need b σ).bind fun y σ => .val (relV .ne y 0) σ
  | .pos t e, σ => (ev c need e σ).bind fun a σ => .val (conv t.size t.uns a) σ
  | .neg t e, σ => (ev c need e σ).bind fun a σ => .val (conv t.size t.uns (-a)) σ
  | .bnot t e, σ => (ev c need e σ).bind fun a σ => .val (conv t.size t.uns (-a - 1)) σ
  | .comma a b, σ => (ev c false a σ).bind fun _ σ => ev c need b σ
  | .tern t x a b, σ =>
    (ev c true x σ).bind fun x σ => (if x ≠ 0 then ev c (need && t ≠ .void) a σ else ev c (need && t ≠ .void) b σ)
  | .asg l r, σ =>
    if need && !r.simple && !l.isVar then
      (ev c true r σ).bind fun v σ => (lv c l σ).bind fun o σ => (putO c l.ty o v σ).bind fun _ σ => .val v σ
    else
      (lv c l σ).bind fun o σ => (ev c true r σ).bind fun v σ => (putO c l.ty o v σ).bind fun _ σ =>
        if need && r.isVar then (ev c true r σ).bind fun v' σ => if v' = v then .val v σ else .ub else .val v σ
  | .inc post dec l, σ =>
    (lv c l σ).bind fun o σ => (getO c l.ty o σ).bind fun x σ =>
      let y := conv l.ty.size l.ty.uns (if dec then x - stepOf l.ty else x + stepOf l.ty)
      (putO c l.ty o y σ).bind fun _ σ => .val (if post then x else y) σ
  | .deref t e, σ => (ev c need e σ).bind fun a σ => getO c t (.addr a.toNat) σ
  | .ref l, σ =>
    match l with
    | .var _ x =>
      match place c x with
      | .addr a => .val a σ
      | .reg _ => .ub
    | .deref _ e => ev c need e σ
    | _ => .ub
  | .call t f as, σ =>
    (evA c as σ).bind fun vs σ =>
      match c.E.call f vs σ.mem with
      | none => .stop
      | some (rs, m) => .ofOpt (retVal t rs) { σ with mem := m }
/-- The object an lvalue denotes. -/
def lv (c : Ctx) : X → State → Ou Obj
  | .var _ x, σ => .val (place c x) σ
  | .deref _ e, σ => (ev c true e σ).bind fun a σ => .val (.addr a.toNat) σ
  | _, _ => .ub
/-- Arguments, in order, as they are passed. -/
def evA (c : Ctx) : A → State → Ou (List V)
  | .nil, σ => .val [] σ
  | .cons e as, σ => (ev c true e σ).bind fun v σ => (evA c as σ).bind fun vs σ => .val (rep e.ty v :: vs) σ
end

/-! ## Which trees -/

/-- Types that are held alike. -/
def like (t u : T) : Bool := t.size = u.size && t.uns = u.uns

/-- An integer or pointer type. -/
def T.scalar : T → Bool
  | .fx t => t.kind ≤ 6 && (t.kind < 5 || !t.uns)
  | .ptr _ => true
  | .void => false

instance (s : Nat) (u : Bool) (v : Int) : Decidable (InRange s u v) := by unfold InRange; infer_instance

/-- No assignment gives the value of the tree or a part of it: traverse.c rewrites it alike whether its value is used or not. -/
def plain : X → Bool
  | .lit .. => true
  | .var .. => true
  | .cast _ e => plain e
  | .bin _ _ a b => plain a && plain b
  | .rel _ a b => plain a && plain b
  | .land _ b => plain b
  | .lor _ b => plain b
  | .pos _ e => plain e
  | .neg _ e => plain e
  | .bnot _ e => plain e
  | .comma _ b => plain b
  | .tern _ _ a b => plain a && plain b
  | .asg .. => false
  | .inc _ _ l => plain l
  | .deref _ e => plain e
  | .ref e => plain e
  | .call .. => true

/-- Conditions, as `make_cond` (fe_misc.c) leaves them. -/
def isCond : X → Bool
  | .lit t _ => t.size ≤ 4
  | .rel .. => true
  | .land .. => true
  | .lor .. => true
  | .comma _ b => isCond b
  | _ => false

/-- `++` is right: not on `_Bool`; on narrow objects in memory `++x` only if its value is not used; in a local a pointer to
things whose size reads the same as a signed number. -/
def incOk (Γ : Fn) (need post : Bool) (l : X) : Bool :=
  l.ty ≠ .bool && (if l.isReg Γ then imm (stepOf l.ty) = stepOf l.ty && stepOf l.ty < 2 ^ 31
    else stepOf l.ty < 2 ^ 31 && (4 ≤ l.ty.size || post || !need))

def X.isCall : X → Bool
  | .call .. => true
  | _ => false

def T.isFx : T → Bool
  | .fx _ => true
  | _ => false

/-- A constant lies in its type. -/
def X.fits : X → Bool
  | .lit t v => InRange t.size t.uns v
  | _ => true

mutual
/-- The trees the theorem is about: what the front end builds (types agree, narrow operands are promoted), minus the cases
the code gets wrong: `plain`, `incOk`, narrow shifts. -/
def wt (c : Ctx) (need : Bool) : X → Bool
  | .lit t v => t.scalar && (-2 ^ 63 ≤ v && v < 2 ^ 63) && (4 ≤ t.size || InRange t.size t.uns v)
  | .var t x => x < c.Γ.n0 && t = c.Γ.ty x && t.scalar
  | .cast t e => t ≠ .bool && wt c need e && (if t = .void then !need || e.ty.scalar else t.scalar && e.ty.scalar)
  | .bin o t a b => t.scalar && 4 ≤ t.size && wt c need a && wt c need b && a.ty.scalar && b.ty.scalar &&
    (match o with
      | .add => a.ty.w = t.w && b.ty.w = t.w
      | .sub => a.ty.w = t.w && b.ty.w = t.w
      | .shl => a.ty = t && t ≠ .bool && t.isFx && b.fits
      | .shr => a.ty = t && t ≠ .bool && t.isFx && b.fits
      | _ => like a.ty t && like b.ty t && t.isFx)
  | .rel _ a b => wt c need a && wt c need b && like a.ty b.ty && a.ty.scalar && b.ty.scalar
  | .land a b => wt c true a && wt c need b && isCond a && isCond b
  | .lor a b => wt c true a && wt c need b && isCond a && isCond b
  | .pos t e => wt c need e && t.scalar && e.ty.scalar && like t e.ty
  | .neg t e => wt c need e && t.scalar && e.ty.scalar && 4 ≤ t.size && e.ty.w = t.w
  | .bnot t e => wt c need e && t.scalar && e.ty.scalar && 4 ≤ t.size && e.ty.w = t.w
  | .comma a b => wt c false a && wt c need b
  | .tern t x a b => wt c true x && isCond x && wt c (need && t ≠ .void) a && wt c (need && t ≠ .void) b &&
    (if need then
      if t = .void then a.isCall && b.isCall else t.scalar && like a.ty t && like b.ty t && a.ty.scalar && b.ty.scalar
    else true)
  | .asg l r => wtL c l && wt c true r && like l.ty r.ty && l.ty.scalar && r.ty.scalar
  | .inc post _ l => wtL c l && l.ty.scalar && incOk c.Γ need post l
  | .deref t e => wt c need e && e.ty.scalar && e.ty.w = .i32 && e.ty.uns && t.scalar
  | .ref l =>
    match l with
    | .var t x => x < c.Γ.n0 && t = c.Γ.ty x && c.Γ.loc x ≠ .reg
    | .deref _ e => wt c need e && e.ty.scalar && e.ty.w = .i32 && e.ty.uns && e.ty.size = 4
    | _ => false
  | .call t f as => wtA c as && as.length = c.E.params f && (t.scalar || t = .void)
def wtL (c : Ctx) : X → Bool
  | .var t x => x < c.Γ.n0 && t = c.Γ.ty x && t.scalar
  | .deref t e => wt c true e && plain e && e.ty.scalar && e.ty.w = .i32 && e.ty.uns && t.scalar
  | _ => false
def wtA (c : Ctx) : A → Bool
  | .nil => true
  | .cons e as => wt c true e && e.ty.scalar && wtA c as
end

end Verif.WasmGen

import Verif.Front.Fold
import Verif.Backend.X64Isa
/-
The meaning of C expressions on integers and pointers (ISO C11 6.3, 6.5).  This file is specification: it does not model
code of /repo.  What the parser builds (Elab) and what the code generator makes of it are measured against it.

`long` has 8 bytes.  An object lives in memory or, if its address is never taken, on its own (`reg`).  `none` is undefined
behaviour or an expression that is not well typed.  Where C leaves the order of evaluation open, the order here is the
one the compiler uses: left to right, but the right side of an assignment first, and in
`i + p` the pointer first.  Conversions to signed types reduce
modulo 2^n, right shifts of negative numbers are arithmetic (both implementation-defined).  Address arithmetic is modulo
2^64 and any address may be used, which defines more than C does.
-/
namespace Verif.CExpr
open Verif.Util Verif.Fold

/-- Integers (with the kinds of `Fold.Ty`) and pointers. -/
inductive T where
  | fx (t : Ty)
  | ptr (e : T)
deriving DecidableEq, Repr

def T.size : T → Nat
  | .fx t => Fold.size 8 t
  | .ptr _ => 8

def T.uns : T → Bool
  | .fx t => t.uns
  | .ptr _ => true

/-- The kinds and signs there are (enumerations and `_Bool` count as signed). -/
def T.ok : T → Bool
  | .fx t => decide (t.kind ≤ 6) && (decide (t.kind < 5) || !t.uns)
  | .ptr e => e.ok

abbrev T.bool : T := .fx ⟨6, false⟩

inductive Un where
  | pos | neg | bnot
deriving DecidableEq, Repr

/-- Binary operators; `op` is `*`, `/`, `%`, `&`, `|`, `^`. -/
inductive Ar where
  | add | sub | shl | shr
  | op (o : Op)
deriving DecidableEq, Repr

/-- Expressions.  `a[i]` is `*(a + i)`.  `inc post dec l` is `++l`, `--l`, `l++`, `l--`. -/
inductive S where
  | lit (t : Ty) (a : Int)
  | var (x : Nat)
  | un (o : Un) (e : S)
  | lnot (e : S)
  | bin (o : Ar) (a b : S)
  | rel (k : Rel) (a b : S)
  | land (a b : S)
  | lor (a b : S)
  | tern (c a b : S)
  | comma (a b : S)
  | cast (t : T) (e : S)
  | sizeof (e : S)
  | deref (e : S)
  | addr (e : S)
  | asg (l r : S)
  | opasg (o : Ar) (l r : S)
  | inc (post dec : Bool) (l : S)
deriving DecidableEq, Repr

/-- An object: its declared type, and its address if it has one. -/
structure Obj where
  ty : T
  loc : Option Nat

abbrev Ctx := Nat → Obj

/-- The bytes of the objects without address, and memory. -/
structure State where
  env : Nat → Nat
  mem : Nat → Nat

inductive Loc where
  | reg (x : Nat)
  | at (a : Nat)
deriving DecidableEq, Repr

def place (Γ : Ctx) (x : Nat) : Loc :=
  match (Γ x).loc with
  | none => .reg x
  | some a => .at a

/-- The value a type gives to a bit pattern, and back. -/
def val (t : T) (n : Nat) : Int := conv t.size t.uns n
def bits (t : T) (a : Int) : Nat := (toU (8 * t.size) a).toNat

def raw (σ : State) (t : T) : Loc → Int
  | .reg x => val t (σ.env x)
  | .at a => val t (X64.rdM σ.mem a t.size)

/-- Reading an object.  A `_Bool` that holds neither 0 nor 1 has no value. -/
def get (σ : State) (t : T) (l : Loc) : Option Int :=
  if t = .bool ∧ raw σ t l ≠ 0 ∧ raw σ t l ≠ 1 then none else some (raw σ t l)

def put (σ : State) (t : T) (l : Loc) (a : Int) : State :=
  match l with
  | .reg x => { σ with env := fun y => if y = x then bits t a else σ.env y }
  | .at p => { σ with mem := X64.wrM σ.mem p t.size (bits t a) }

/-- Conversion to a type (6.3.1.2, 6.3.1.3, 6.3.2.3). -/
def cvt (t : T) (a : Int) : Int :=
  if t = .bool then if a = 0 then 0 else 1 else conv t.size t.uns a

/-- The type of a binary operation (6.5.5-6.5.12). -/
def arTy (o : Ar) (l r : T) : Option T :=
  match o, l, r with
  | .shl, .fx l, .fx _ => some (.fx (isoPromote l))
  | .shr, .fx l, .fx _ => some (.fx (isoPromote l))
  | _, .fx l, .fx r => some (.fx (isoCommon 8 l r))
  | .add, .ptr e, .fx _ => some (.ptr e)
  | .add, .fx _, .ptr e => some (.ptr e)
  | .sub, .ptr e, .fx _ => some (.ptr e)
  | .sub, .ptr e, .ptr e' => if e = e' then some (.fx ⟨3, false⟩) else none
  | _, _, _ => none

/-- The value of a binary operation on values of the types `l` and `r`. -/
def arVal (o : Ar) (l r : T) (a b : Int) : Option Int :=
  match o, l, r with
  | .shl, .fx l, .fx _ =>
    let p := isoPromote l
    if 0 ≤ b ∧ b < 8 * Fold.size 8 p then arith (Fold.size 8 p) p.uns (a * 2 ^ b.toNat) else none
  | .shr, .fx l, .fx _ => if 0 ≤ b ∧ b < 8 * Fold.size 8 (isoPromote l) then some (a / 2 ^ b.toNat) else none
  | .add, .fx l, .fx r =>
    let t := isoCommon 8 l r
    arith (Fold.size 8 t) t.uns (conv (Fold.size 8 t) t.uns a + conv (Fold.size 8 t) t.uns b)
  | .sub, .fx l, .fx r =>
    let t := isoCommon 8 l r
    arith (Fold.size 8 t) t.uns (conv (Fold.size 8 t) t.uns a - conv (Fold.size 8 t) t.uns b)
  | .op o, .fx l, .fx r =>
    let t := isoCommon 8 l r
    isoOp o (Fold.size 8 t) t.uns (conv (Fold.size 8 t) t.uns a) (conv (Fold.size 8 t) t.uns b)
  | .add, .ptr e, .fx _ => some ((a + b * e.size) % 2 ^ 64)
  | .add, .fx _, .ptr e => some ((b + a * e.size) % 2 ^ 64)
  | .sub, .ptr e, .fx _ => some ((a - b * e.size) % 2 ^ 64)
  | .sub, .ptr e, .ptr e' =>
    if e = e' ∧ (a - b) % e.size = 0 ∧ -2 ^ 63 ≤ a - b ∧ a - b < 2 ^ 63 then some ((a - b) / e.size) else none
  | _, _, _ => none

def holds (k : Rel) (a b : Int) : Prop :=
  match k with
  | .eq => a = b
  | .ne => a ≠ b
  | .lt => a < b
  | .le => a ≤ b
  | .ge => b ≤ a
  | .gt => b < a

instance (k : Rel) (a b : Int) : Decidable (holds k a b) := by unfold holds; cases k <;> infer_instance

/-- A null pointer constant. -/
def isNull : S → Bool
  | .lit _ a => a = 0
  | _ => false

/-- The value of a comparison; `na`, `nb`: the operand is a null pointer constant. -/
def relVal (k : Rel) (l r : T) (na nb : Bool) (a b : Int) : Option Int :=
  match l, r with
  | .fx l, .fx r =>
    let t := isoCommon 8 l r
    some (if holds k (conv (Fold.size 8 t) t.uns a) (conv (Fold.size 8 t) t.uns b) then 1 else 0)
  | .ptr _, .ptr _ => some (if holds k a b then 1 else 0)
  | .ptr _, .fx _ => if nb ∧ (k = .eq ∨ k = .ne) then some (if holds k a b then 1 else 0) else none
  | .fx _, .ptr _ => if na ∧ (k = .eq ∨ k = .ne) then some (if holds k a b then 1 else 0) else none

/-- The type of a conditional expression (6.5.15). -/
def ternTy (l r : T) (na nb : Bool) : Option T :=
  match l, r with
  | .fx l, .fx r => some (.fx (isoCommon 8 l r))
  | .ptr e, .ptr e' => if e = e' then some (.ptr e) else none
  | .ptr e, .fx _ => if nb then some (.ptr e) else none
  | .fx _, .ptr e => if na then some (.ptr e) else none

/-- Variables and dereferenced pointers designate objects. -/
def isLval : S → Bool
  | .var _ => true
  | .deref _ => true
  | _ => false

/-- The literal is of a type literals have, and fits it. -/
def litOk (t : Ty) (a : Int) : Bool :=
  decide (t.kind ≤ 4) && if t.uns then decide (0 ≤ a ∧ a < 2 ^ (8 * Fold.size 8 t))
    else decide (-2 ^ (8 * Fold.size 8 t - 1) ≤ a ∧ a < 2 ^ (8 * Fold.size 8 t - 1))

/-- Compound assignment: the result must be assignable to the left side. -/
def opasgTy (o : Ar) (l r : T) : Option T :=
  match l, arTy o l r with
  | .fx _, some (.fx _) => some l
  | .ptr _, some (.ptr _) => some l
  | _, _ => none

/-- The type of an expression. -/
def ty (Γ : Ctx) : S → Option T
  | .lit t a => if litOk t a then some (.fx t) else none
  | .var x => some (Γ x).ty
  | .un _ e =>
    match ty Γ e with
    | some (.fx t) => some (.fx (isoPromote t))
    | _ => none
  | .lnot e => (ty Γ e).map fun _ => .fx tyInt
  | .bin o a b => (ty Γ a).bind fun l => (ty Γ b).bind fun r => arTy o l r
  | .rel _ a b => (ty Γ a).bind fun _ => (ty Γ b).map fun _ => .fx tyInt
  | .land a b => (ty Γ a).bind fun _ => (ty Γ b).map fun _ => .fx tyInt
  | .lor a b => (ty Γ a).bind fun _ => (ty Γ b).map fun _ => .fx tyInt
  | .tern c a b =>
    (ty Γ c).bind fun _ => (ty Γ a).bind fun l => (ty Γ b).bind fun r => ternTy l r (isNull a) (isNull b)
  | .comma a b => (ty Γ a).bind fun _ => ty Γ b
  | .cast t e => (ty Γ e).bind fun _ => if t.ok then some t else none
  | .sizeof e => (ty Γ e).map fun _ => .fx ⟨3, true⟩
  | .deref e =>
    match ty Γ e with
    | some (.ptr t) => some t
    | _ => none
  | .addr e => if isLval e then (ty Γ e).map .ptr else none
  | .asg l r => if isLval l then (ty Γ r).bind fun _ => ty Γ l else none
  | .opasg o l r => if isLval l then (ty Γ l).bind fun tl => (ty Γ r).bind fun tr => opasgTy o tl tr else none
  | .inc _ _ l => if isLval l then ty Γ l else none

/-- Adding a pointer to an integer: the pointer is evaluated first. -/
def swaps (o : Ar) (l r : T) : Bool :=
  match o, l, r with
  | .add, .fx _, .ptr _ => true
  | _, _, _ => false

mutual

/-- The value of an expression and the state after it. -/
def ev (Γ : Ctx) : S → State → Option (Int × State)
  | .lit _ a, σ => some (a, σ)
  | .var x, σ => (get σ (Γ x).ty (place Γ x)).map fun a => (a, σ)
  | .un o e, σ =>
    match ty Γ e, ev Γ e σ with
    | some (.fx t), some (a, σ) =>
      let p := isoPromote t
      match o with
      | .pos => some (a, σ)
      | .neg => (arith (Fold.size 8 p) p.uns (-a)).map fun b => (b, σ)
      | .bnot => some (conv (Fold.size 8 p) p.uns (-a - 1), σ)
    | _, _ => none
  | .lnot e, σ => (ev Γ e σ).map fun r => (if r.1 = 0 then 1 else 0, r.2)
  | .bin o a b, σ =>
    match ty Γ a, ty Γ b with
    | some l, some r =>
      if swaps o l r then
        match ev Γ b σ with
        | some (y, σ) =>
          match ev Γ a σ with
          | some (x, σ) => (arVal o l r x y).map fun z => (z, σ)
          | none => none
        | none => none
      else
        match ev Γ a σ with
        | some (x, σ) =>
          match ev Γ b σ with
          | some (y, σ) => (arVal o l r x y).map fun z => (z, σ)
          | none => none
        | none => none
    | _, _ => none
  | .rel k a b, σ =>
    match ty Γ a, ty Γ b, ev Γ a σ with
    | some l, some r, some (x, σ) =>
      match ev Γ b σ with
      | some (y, σ) => (relVal k l r (isNull a) (isNull b) x y).map fun z => (z, σ)
      | none => none
    | _, _, _ => none
  | .land a b, σ =>
    match ev Γ a σ with
    | some (x, σ) => if x = 0 then some (0, σ) else (ev Γ b σ).map fun r => (if r.1 = 0 then 0 else 1, r.2)
    | none => none
  | .lor a b, σ =>
    match ev Γ a σ with
    | some (x, σ) => if x = 0 then (ev Γ b σ).map fun r => (if r.1 = 0 then 0 else 1, r.2) else some (1, σ)
    | none => none
  | .tern c a b, σ =>
    match ty Γ (.tern c a b), ev Γ c σ with
    | some t, some (x, σ) =>
      if x = 0 then (ev Γ b σ).map fun r => (cvt t r.1, r.2) else (ev Γ a σ).map fun r => (cvt t r.1, r.2)
    | _, _ => none
  | .comma a b, σ =>
    match ev Γ a σ with
    | some (_, σ) => ev Γ b σ
    | none => none
  | .cast t e, σ => (ev Γ e σ).map fun r => (cvt t r.1, r.2)
  | .sizeof e, σ => (ty Γ e).map fun t => ((t.size : Int), σ)
  | .deref e, σ =>
    match ty Γ e, ev Γ e σ with
    | some (.ptr t), some (p, σ) => (get σ t (.at p.toNat)).map fun a => (a, σ)
    | _, _ => none
  | .addr e, σ =>
    match lv Γ e σ with
    | some (.at a, σ) => some (((a % 2 ^ 64 : Nat) : Int), σ)
    | _ => none
  | .asg l r, σ =>
    match ty Γ l, ev Γ r σ with
    | some t, some (a, σ) =>
      match lv Γ l σ with
      | some (p, σ) => some (cvt t a, put σ t p (cvt t a))
      | none => none
    | _, _ => none
  | .opasg o l r, σ =>
    match ty Γ l, ty Γ r, lv Γ l σ with
    | some t, some t', some (p, σ) =>
      match get σ t p, ev Γ r σ with
      | some x, some (y, σ') =>
        match arVal o t t' x y with
        | some z => some (cvt t z, put σ' t p (cvt t z))
        | none => none
      | _, _ => none
    | _, _, _ => none
  | .inc post dec l, σ =>
    match ty Γ l, lv Γ l σ with
    | some t, some (p, σ) =>
      match get σ t p with
      | some x =>
        match arVal (if dec then .sub else .add) t (.fx tyInt) x 1 with
        | some z => some (if post then x else cvt t z, put σ t p (cvt t z))
        | none => none
      | none => none
    | _, _ => none

/-- The object an lvalue designates. -/
def lv (Γ : Ctx) : S → State → Option (Loc × State)
  | .var x, σ => some (place Γ x, σ)
  | .deref e, σ =>
    match ty Γ e, ev Γ e σ with
    | some (.ptr _), some (p, σ) => some (.at p.toNat, σ)
    | _, _ => none
  | _, _ => none

end

end Verif.CExpr

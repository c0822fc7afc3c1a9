import Verif.Front.CExpr
import Mathlib.Tactic.Linarith
/-!
# From C expressions to typed syntax trees (C68)

Model of what parsing an expression builds (src/cc/frontend/parser_expr.c, fe_misc.c): every implicit conversion made
explicit, constants folded, conditions normalised, compound assignments rewritten with temporaries.  Integers and pointers
to such; no floating point, arrays, structures, bit-fields, function calls, strings.  `long` has 8 bytes.
Diagnostics are not modelled: `none` is an error, or undefined behaviour inside the compiler itself.
-/
namespace Verif.Elab
open Verif.Util Verif.Fold Verif.CExpr

/-! ## Model -/

/-- type.c:18 `tySize`. -/
abbrev tySize : T := .fx ⟨3, true⟩
/-- type.c:19 `tySSize`. -/
abbrev tySSize : T := .fx ⟨3, false⟩

/-- ast.h:31-118 `Expr`: the kinds modelled.  Comparisons, `&&` and `||` always have type `_Bool` (fe_misc.c:1397,
parser_expr.c:472).  `lit` holds the 64-bit cell of EX_FIXNUM. -/
inductive X where
  | lit (t : T) (v : Int)
  | var (t : T) (x : Nat)
  | cast (t : T) (e : X)
  | bin (o : Ar) (t : T) (a b : X)
  | rel (k : Rel) (a b : X)
  | land (a b : X)
  | lor (a b : X)
  | pos (t : T) (e : X)
  | neg (t : T) (e : X)
  | bnot (t : T) (e : X)
  | comma (t : T) (a b : X)
  | tern (t : T) (c a b : X)
  | asg (t : T) (l r : X)
  | inc (post dec : Bool) (t : T) (l : X)
  | deref (t : T) (e : X)
  | ref (t : T) (e : X)
deriving DecidableEq, Repr

/-- `expr->type`. -/
def X.ty : X → T
  | .lit t _ => t
  | .var t _ => t
  | .cast t _ => t
  | .bin _ t _ _ => t
  | .rel _ _ _ => .bool
  | .land _ _ => .bool
  | .lor _ _ => .bool
  | .pos t _ => t
  | .neg t _ => t
  | .bnot t _ => t
  | .comma t _ _ => t
  | .tern t _ _ _ => t
  | .asg t _ _ => t
  | .inc _ _ t _ => t
  | .deref t _ => t
  | .ref t _ => t

/-- fe_misc.c:346-414 `make_cast` to a type that is not `_Bool`.  `wrap_value` ignores the sign for 8 bytes, so it does
not matter what `type->fixnum.is_unsigned` reads for a pointer type. -/
def mkCastN (t : T) (x : X) : X :=
  if t = x.ty then x
  else
    match x with
    | .lit _ v => .lit t (wrapValue v t.size t.uns)
    | x => .cast t x

/-- fe_misc.c:441-493 `cast_numbers`.  The target types are never `_Bool`. -/
def castNum (makeInt : Bool) (x y : X) : X × X :=
  match x.ty, y.ty with
  | .fx l, .fx r =>
    let ts := castNumbers 8 makeInt l r
    (mkCastN (.fx ts.1) x, mkCastN (.fx ts.2) y)
  | _, _ => (x, y)

/-- fe_misc.c:1200-1203. -/
def promote1 (x : X) : X :=
  match x.ty with
  | .fx t => if t.kind < 2 then mkCastN (.fx (promote t)) x else x
  | .ptr _ => x

/-- fe_misc.c:1197-1208: bringing the operands of a comparison to one type. -/
def cmpAdjust (x y : X) : X × X :=
  match x.ty, y.ty with
  | .fx _, .fx _ => castNum false (promote1 x) (promote1 y)
  | _, _ => (x, y)

/-- fe_misc.c:1210-1241: comparing two constants, after `cmpAdjust`.  `none`: the order of pointers is decided with
`type->fixnum.is_unsigned` of a pointer type, which is not a member of it. -/
def cmpLit (k : Rel) (t : T) (v : Int) (t' : T) (v' : Int) : Option Bool :=
  match t, t' with
  | .fx t, .fx t' => some (if t.uns || t'.uns then judge k (toU 64 v) (toU 64 v') else judge k v v')
  | _, _ => if k = .eq ∨ k = .ne then some (judge k v v') else none

/-- ast.c:76-80 `strip_cast`. -/
def stripCast : X → X
  | .cast _ e => stripCast e
  | x => x

/-- A constant of type `_Bool`. -/
def litB (b : Bool) : X := .lit .bool (if b then 1 else 0)

/-- fe_misc.c:1440-1456 `make_not_expr` through `new_expr_cmp`; `r` is what :1333-1352 makes of `x`.  The conversions of
a constant keep whether it is zero. -/
def notWith (x : X) (r : Option X) : X :=
  match x with
  | .lit _ v => litB (v = 0)
  | x =>
    match r with
    | some r => r
    | none => let p := cmpAdjust x (.lit x.ty 0); .rel .eq p.1 p.2

/-- fe_misc.c:1325, 1333-1352: the negation of a condition (a comparison, `&&` or `||` under any number of casts), and
`none` if it is not one.  The code changes the operator in place. -/
def notCore : X → Option X
  | .cast _ e => notCore e
  | .rel k a b => some (.rel (negRel k) a b)
  | .land a b => some (.lor (notWith a (notCore a)) (notWith b (notCore b)))
  | .lor a b => some (.land (notWith a (notCore a)) (notWith b (notCore b)))
  | _ => none

/-- fe_misc.c:1290-1365: `v == c` or `v != c` for a constant `c` and a condition `v`. -/
def cmpCond (k : Rel) (v : X) (c : Int) : Option X :=
  match notCore v with
  | none => none
  | some r =>
    if c = 0 ∨ c = 1 then
      let isEq := if c = 1 then k = .ne else k = .eq
      some (if isEq then r else stripCast v)
    else some (.comma .bool v (litB (k ≠ .eq)))

/-- fe_misc.c:1368-1397: the comparison itself. -/
def mkRel (k : Rel) (x y : X) : X :=
  match x.ty, y.ty with
  | .ptr e, .fx _ => .rel k x (mkCastN (.ptr e) y)
  | .fx _, .ptr e => .rel k (mkCastN (.ptr e) x) y
  | _, _ => .rel k x y

/-- fe_misc.c:1290-1397: a comparison, after `cmpAdjust`, whose operands are not both constants. -/
def mkCmpV (k : Rel) (x y : X) : X :=
  let r := match x, y with
    | .lit _ c, v => if k = .eq ∨ k = .ne then cmpCond k v c else none
    | v, .lit _ c => if k = .eq ∨ k = .ne then cmpCond k v c else none
    | _, _ => none
  match r with
  | some r => r
  | none => mkRel k x y

/-- fe_misc.c:1190-1398 `new_expr_cmp`. -/
def mkCmp (k : Rel) (x y : X) : Option X :=
  let p := cmpAdjust x y
  match p.1, p.2 with
  | .lit t v, .lit t' v' => (cmpLit k t v t' v').map litB
  | x, y => some (mkCmpV k x y)

/-- fe_misc.c:1401-1438 `make_cond`; the argument of the last case is not a constant. -/
def mkCond : X → X
  | .lit _ v => litB (v ≠ 0)
  | .rel k a b => .rel k a b
  | .land a b => .land a b
  | .lor a b => .lor a b
  | .comma t a b => .comma t a (mkCond b)
  | x => let p := cmpAdjust x (.lit x.ty 0); mkCmpV .ne p.1 p.2

/-- fe_misc.c:346-415 `make_cast`. -/
def mkCast (t : T) (x : X) : X :=
  if t = .bool then
    if x.ty = .bool then x
    else
      match x with
      | .lit _ v => litB (v ≠ 0)
      | x => mkCond x
  else mkCastN t x

/-- fe_misc.c:740-746 `promote_to_int`. -/
def promoteX (x : X) : X :=
  match x.ty with
  | .fx t => mkCastN (.fx (promote t)) x
  | .ptr _ => x

/-- fe_misc.c:1440-1456 `make_not_expr`. -/
def mkNot (x : X) : X := notWith x (notCore x)

/-- fe_misc.c:748-905 `new_expr_num_bop`.  With a constant on the left only, :875 reads `rhs->fixnum` of a node that is
not a constant; the bytes there are those of a pointer, so no simplification happens. -/
def mkNum (o : Op) (x y : X) : Option X :=
  match x.ty, y.ty with
  | .fx l, .fx r =>
    let p := castNum true x y
    match x, y with
    | .lit _ v, .lit _ w =>
      match numBop 8 o l v r w with
      | .const t c => some (.lit (.fx t) c)
      | .keep => some (.bin (.op o) p.1.ty p.1 p.2)
      | .trap => none
    | _, _ =>
      match p.2 with
      | .lit _ w =>
        match simplify o w with
        | some .zero => some (.comma p.2.ty p.1 p.2)
        | some .negate => some (.neg p.1.ty p.1)
        | some .same => some p.1
        | none => some (.bin (.op o) p.1.ty p.1 p.2)
      | _ => some (.bin (.op o) p.1.ty p.1 p.2)
  | _, _ => none

/-- EX_ADD, EX_SUB. -/
def arOf (sub : Bool) : Ar := if sub then .sub else .add

/-- fe_misc.c:1036-1049: the sum of a pointer and a number of bytes. -/
def ptrAdd (sub : Bool) (t : T) (x r : X) : X :=
  match x, r with
  | .lit _ v, .lit _ w => .lit t (toS 64 (if sub then v - w else v + w))
  | x, r => .bin (arOf sub) t x r

/-- fe_misc.c:923-1050 `new_expr_addsub`.  `type_size` is unsigned, so that constant pointers are subtracted (:1014) with
an unsigned division. -/
def mkAddsub (sub : Bool) (x y : X) : Option X :=
  match x.ty, y.ty with
  | .fx l, .fx r =>
    match x, y with
    | .lit _ v, .lit _ w =>
      match addsub 8 sub l v r w with
      | .const t c => some (.lit (.fx t) c)
      | _ => none
    | x, y => let p := castNum true x y; some (.bin (arOf sub) p.1.ty p.1 p.2)
  | .ptr e, .fx _ => (mkNum .mul (mkCast tySize y) (.lit tySize e.size)).map (ptrAdd sub (.ptr e) x)
  | .fx _, .ptr e =>
    if sub then none else (mkNum .mul (mkCast tySize x) (.lit tySize e.size)).map (ptrAdd false (.ptr e) y)
  | .ptr e, .ptr e' =>
    if sub ∧ e = e' then
      match x, y with
      | .lit _ v, .lit _ w => some (.lit tySize (toS 64 (toU 64 (v - w) / e.size)))
      | x, y => some (.bin (.op .div) tySSize (mkCastN tySSize (.bin .sub tySize x y)) (.lit tySSize e.size))
    else none

/-- parser_expr.c:437-463. -/
def mkShift (left : Bool) (x y : X) : Option X :=
  match x.ty, y.ty with
  | .fx l, .fx _ =>
    match x, y with
    | .lit _ v, .lit _ w =>
      match shift 8 left l v w with
      | .const t c => some (.lit (.fx t) c)
      | _ => none
    | x, y => let x := promoteX x; some (.bin (if left then .shl else .shr) x.ty x y)
  | _, _ => none

/-- parser_expr.c:429-465 `binary`, the arithmetic operators. -/
def mkBin (o : Ar) (x y : X) : Option X :=
  match o with
  | .add => mkAddsub false x y
  | .sub => mkAddsub true x y
  | .shl => mkShift true x y
  | .shr => mkShift false x y
  | .op o => mkNum o x y

/-- parser_expr.c:353-372 (`+`, `-`), :383-395 (`~`). -/
def mkUn (o : Un) (x : X) : Option X :=
  match x.ty with
  | .ptr _ => none
  | .fx t =>
    match o, promoteX x with
    | .pos, .lit t v => some (.lit t v)
    | .neg, .lit (.fx p) v => some (.lit (.fx p) (wrapValue (toS 64 (-v)) (Fold.size 8 p) p.uns))
    | .bnot, .lit (.fx p) v => some (.lit (.fx p) (wrapValue (-v - 1) (Fold.size 8 p) p.uns))
    | .pos, x => some (.pos (.fx (promote t)) x)
    | .neg, x => some (.neg (.fx (promote t)) x)
    | .bnot, x => some (.bnot (.fx (promote t)) x)

/-- parser_expr.c:466-473: `&&` (`isAnd`) and `||`. -/
def mkLog (isAnd : Bool) (x y : X) : X :=
  match mkCond x with
  | .lit t v => if (if isAnd then v = 0 else v ≠ 0) then .lit t v else mkCond y
  | c => if isAnd then .land c (mkCond y) else .lor c (mkCond y)

/-- parser_expr.c:474-477. -/
def mkComma (x y : X) : X :=
  match x with
  | .lit _ _ => y
  | x => .comma y.ty x y

/-- ast.c:72-74 `is_zero`. -/
def isZero : X → Bool
  | .lit _ v => v = 0
  | _ => false

/-- fe_misc.c:1541-1592 `choose_ternary_result_type`, parser_expr.c:507-508. -/
def ternT (x y : X) : Option T :=
  match x.ty, y.ty with
  | .fx l, .fx r => some (.fx (ternaryType l r))
  | .ptr e, .ptr e' => if e = e' then some (.ptr e) else none
  | .ptr e, .fx _ => if isZero y then some (.ptr e) else none
  | .fx _, .ptr e => if isZero x then some (.ptr e) else none

/-- parser_expr.c:484-521 `ternary`. -/
def mkTern (c x y : X) : Option X :=
  match ternT x y with
  | none => none
  | some t =>
    match mkCond c with
    | .lit _ v => some (if v ≠ 0 then mkCast t x else mkCast t y)
    | c => some (.tern t c (mkCast t x) (mkCast t y))

/-- fe_misc.c:611-621 `check_lval`. -/
def isLvX : X → Bool
  | .var _ _ => true
  | .deref _ _ => true
  | _ => false

def isLit : X → Bool
  | .lit _ _ => true
  | _ => false

/-- fe_misc.c:629-646 `reduce_refer_deref_add`.  The compiler's addition is taken to wrap. -/
def derefAdd (t ts : T) (l : X) (w : Int) : Option X :=
  match l with
  | .lit _ v => some (.deref t (.lit ts (toS 64 (v + w))))
  | .deref _ (.lit t' v) => some (.deref t (.lit t' (toS 64 (v + w))))
  | .bin .add _ p (.lit t' v) => some (.deref t (.bin .add ts p (.lit t' (toS 64 (v + w)))))
  | _ => none

/-- fe_misc.c:648-713 `reduce_refer` without members.  The code compares nodes, the model trees. -/
def reduceRefer : X → X
  | .deref t (.bin .add ts a b) =>
    let l := if isLit a then b else a
    let r := if isLit a then a else b
    let l2 := if isLit a then reduceRefer b else reduceRefer a
    let other := if l2 = l then .deref t (.bin .add ts a b) else .deref t (.bin .add ts l2 r)
    match r with
    | .lit _ w => (derefAdd t ts l2 w).getD other
    | _ => other
  | x => x

/-- fe_misc.c:715-738 `make_refer`. -/
def mkRefer (x : X) : Option X :=
  if isLvX x then
    match reduceRefer x with
    | .deref _ e => some e
    | x => some (.ref (.ptr x.ty) x)
  else none

/-- fe_misc.c:1595-1617 `calc_assign_with`: a shift is done in the type of the left side. -/
def calcWith (o : Ar) (x y : X) : Option X :=
  match o with
  | .add => mkAddsub false x y
  | .sub => mkAddsub true x y
  | .op o => mkNum o x y
  | o =>
    match x.ty, y.ty with
    | .fx _, .fx _ => some (.bin o x.ty x y)
    | _, _ => none

/-- fe_misc.c:1647-1680 `transform_assign_with`; the temporary is variable `n`. -/
def mkAsgWith (o : Ar) (x y : X) (n : Nat) : Option (X × Nat) :=
  match x with
  | .var t v => (calcWith o (.var t v) y).map fun b => (.asg t (.var t v) (mkCast t b), n)
  | x =>
    (mkRefer x).bind fun r =>
      let p := .var (.ptr x.ty) n
      let l := .deref x.ty p
      (calcWith o l y).map fun b =>
        (.comma x.ty (.asg (.ptr x.ty) p r) (.asg x.ty l (mkCast x.ty b)), n + 1)

/-- The cell of a literal. -/
def cell (t : Ty) (a : Int) : Int := if t.uns ∧ Fold.size 8 t = 8 then toS 64 a else a

/-- parser_expr.c: what is built for an expression.  `n` is the first variable not in use; the result has the next one.
Literals and variables :266-345, unary :346-421, binary :423-482, `?:` :484-521, assignment :523-563, `++`, `--`
:353, :565-577 with fe_misc.c:1178-1188, casts and `sizeof` (lparen, :619-700). -/
def build (Γ : Ctx) : S → Nat → Option (X × Nat)
  | .lit t a, n => some (.lit (.fx t) (cell t a), n)
  | .var x, n => some (.var (Γ x).ty x, n)
  | .un o e, n => (build Γ e n).bind fun r => (mkUn o r.1).map fun x => (x, r.2)
  | .lnot e, n => (build Γ e n).map fun r => (mkNot r.1, r.2)
  | .bin o a b, n =>
    (build Γ a n).bind fun r => (build Γ b r.2).bind fun s => (mkBin o r.1 s.1).map fun x => (x, s.2)
  | .rel k a b, n =>
    (build Γ a n).bind fun r => (build Γ b r.2).bind fun s => (mkCmp k r.1 s.1).map fun x => (x, s.2)
  | .land a b, n => (build Γ a n).bind fun r => (build Γ b r.2).map fun s => (mkLog true r.1 s.1, s.2)
  | .lor a b, n => (build Γ a n).bind fun r => (build Γ b r.2).map fun s => (mkLog false r.1 s.1, s.2)
  | .tern c a b, n =>
    (build Γ c n).bind fun q => (build Γ a q.2).bind fun r => (build Γ b r.2).bind fun s =>
      (mkTern q.1 r.1 s.1).map fun x => (x, s.2)
  | .comma a b, n => (build Γ a n).bind fun r => (build Γ b r.2).map fun s => (mkComma r.1 s.1, s.2)
  | .cast t e, n => (build Γ e n).map fun r => (mkCast t r.1, r.2)
  | .sizeof e, n => (build Γ e n).map fun r => (.lit tySize r.1.ty.size, r.2)
  | .deref e, n =>
    (build Γ e n).bind fun r =>
      match r.1.ty with
      | .ptr t => some (.deref t r.1, r.2)
      | .fx _ => none
  | .addr e, n => (build Γ e n).bind fun r => (mkRefer r.1).map fun x => (x, r.2)
  | .asg l r, n =>
    (build Γ l n).bind fun p => (build Γ r p.2).bind fun q =>
      if isLvX p.1 then some (.asg p.1.ty p.1 (mkCast p.1.ty q.1), q.2) else none
  | .opasg o l r, n =>
    (build Γ l n).bind fun p => (build Γ r p.2).bind fun q =>
      if isLvX p.1 then mkAsgWith o p.1 q.1 q.2 else none
  | .inc post dec l, n =>
    (build Γ l n).bind fun p => if isLvX p.1 then some (.inc post dec p.1.ty p.1, p.2) else none

/-! ## The meaning of trees -/

/-- An operator on values of a type of `s` bytes: machine arithmetic, wrapping.  The processor takes shift counts below 32
also for narrow operands. -/
def opT (o : Ar) (s : Nat) (u : Bool) (a b : Int) : Option Int :=
  match o with
  | .add => some (conv s u (a + b))
  | .sub => some (conv s u (a - b))
  | .shl => if 0 ≤ b ∧ b < 8 * max s 4 then some (conv s u (a * 2 ^ b.toNat)) else none
  | .shr => if 0 ≤ b ∧ b < 8 * max s 4 then some (a / 2 ^ b.toNat) else none
  | .op .mul => some (conv s u (a * b))
  | .op o => isoOp o s u a b

/-- What `++` adds. -/
def stepOf : T → Int
  | .ptr e => e.size
  | .fx _ => 1

mutual

/-- The value of a tree and the state after it; every operation is done in the type its node says. -/
def evT (Γ : Ctx) : X → State → Option (Int × State)
  | .lit t v, τ => some (conv t.size t.uns v, τ)
  | .var t x, τ => (get τ t (place Γ x)).map fun a => (a, τ)
  | .cast t e, τ => (evT Γ e τ).map fun r => (conv t.size t.uns r.1, r.2)
  | .bin o t a b, τ =>
    match evT Γ a τ with
    | some (x, τ) =>
      match evT Γ b τ with
      | some (y, τ) => (opT o t.size t.uns x y).map fun z => (z, τ)
      | none => none
    | none => none
  | .rel k a b, τ =>
    match evT Γ a τ with
    | some (x, τ) =>
      match evT Γ b τ with
      | some (y, τ) => some (if holds k x y then 1 else 0, τ)
      | none => none
    | none => none
  | .land a b, τ =>
    match evT Γ a τ with
    | some (x, τ) => if x = 0 then some (0, τ) else (evT Γ b τ).map fun r => (if r.1 = 0 then 0 else 1, r.2)
    | none => none
  | .lor a b, τ =>
    match evT Γ a τ with
    | some (x, τ) => if x = 0 then (evT Γ b τ).map fun r => (if r.1 = 0 then 0 else 1, r.2) else some (1, τ)
    | none => none
  | .pos _ e, τ => evT Γ e τ
  | .neg t e, τ => (evT Γ e τ).map fun r => (conv t.size t.uns (-r.1), r.2)
  | .bnot t e, τ => (evT Γ e τ).map fun r => (conv t.size t.uns (-r.1 - 1), r.2)
  | .comma _ a b, τ =>
    match evT Γ a τ with
    | some (_, τ) => evT Γ b τ
    | none => none
  | .tern _ c a b, τ =>
    match evT Γ c τ with
    | some (x, τ) => if x = 0 then evT Γ b τ else evT Γ a τ
    | none => none
  | .asg t l r, τ =>
    match evT Γ r τ with
    | some (a, τ) =>
      match lvT Γ l τ with
      | some (p, τ) => some (a, put τ t p a)
      | none => none
    | none => none
  | .inc post dec t l, τ =>
    match lvT Γ l τ with
    | some (p, τ) =>
      match get τ t p with
      | some x =>
        let z := conv t.size t.uns (if dec then x - stepOf t else x + stepOf t)
        some (if post then x else z, put τ t p z)
      | none => none
    | none => none
  | .deref t e, τ =>
    match evT Γ e τ with
    | some (p, τ) => (get τ t (.at p.toNat)).map fun a => (a, τ)
    | none => none
  | .ref _ e, τ =>
    match lvT Γ e τ with
    | some (.at a, τ) => some (((a % 2 ^ 64 : Nat) : Int), τ)
    | _ => none

/-- The object a tree designates. -/
def lvT (Γ : Ctx) : X → State → Option (Loc × State)
  | .var _ x, τ => some (place Γ x, τ)
  | .deref _ e, τ => (evT Γ e τ).map fun r => (.at r.1.toNat, r.2)
  | _, _ => none

end

/-! ## Lemmas: trees that are well formed -/

/-- Same size and sign. -/
def SU (t t' : T) : Prop := t.size = t'.size ∧ t.uns = t'.uns

/-- The value can only be 0 or 1. -/
def Cnd : X → Prop
  | .lit _ v => v = 0 ∨ v = 1
  | .rel _ _ _ => True
  | .land _ _ => True
  | .lor _ _ => True
  | .comma _ _ b => Cnd b
  | _ => False

/-- The types of the operands fit the type of the node, and constants are in the form the compiler keeps them. -/
def WX : X → Prop
  | .lit t v => t.ok = true ∧ Rep t.size t.uns (conv t.size t.uns v) v ∧ (t = .bool → v = 0 ∨ v = 1)
  | .var t _ => t.ok = true
  | .cast t e => WX e ∧ t.ok = true ∧ t ≠ .bool
  | .bin o t a b => WX a ∧ WX b ∧ t.ok = true ∧ t ≠ .bool ∧ SU a.ty t ∧ (o ≠ .shl → o ≠ .shr → SU b.ty t)
  | .rel _ a b => WX a ∧ WX b
  | .land a b => WX a ∧ WX b
  | .lor a b => WX a ∧ WX b
  | .pos t e => WX e ∧ t = e.ty ∧ t ≠ .bool
  | .neg t e => WX e ∧ t.ok = true ∧ t ≠ .bool
  | .bnot t e => WX e ∧ t.ok = true ∧ t ≠ .bool
  | .comma t a b => WX a ∧ WX b ∧ t.ok = true ∧ (t = b.ty ∨ Cnd b)
  | .tern t c a b => WX c ∧ WX a ∧ WX b ∧ t.ok = true ∧ (t = a.ty ∨ Cnd a) ∧ (t = b.ty ∨ Cnd b)
  | .asg t l r => WX l ∧ WX r ∧ t = l.ty ∧ (t = r.ty ∨ Cnd r)
  | .inc _ _ t l => WX l ∧ t = l.ty ∧ t ≠ .bool
  | .deref t e => WX e ∧ e.ty = .ptr t
  | .ref t e => WX e ∧ t = .ptr e.ty

/-- A value of the type. -/
def Vok (t : T) (a : Int) : Prop := InRange t.size t.uns a ∧ (t = .bool → a = 0 ∨ a = 1)

theorem tsz (t : T) : Sz t.size := by
  cases t with
  | fx t => exact size_Sz (Or.inr rfl) t
  | ptr e => exact Or.inr (Or.inr (Or.inr rfl))

theorem ok_wf {t : Ty} : (T.fx t).ok = true ↔ t.WF := by
  obtain ⟨k, u⟩ := t
  unfold T.ok Ty.WF
  cases u
  · simp
  · simp

theorem wx_ok {x : X} (h : WX x) : x.ty.ok = true := by
  induction x with
  | lit t v => exact h.1
  | var t x => exact h
  | cast t e ih => exact h.2.1
  | bin o t a b _ _ => exact h.2.2.1
  | rel k a b _ _ => rfl
  | land a b _ _ => rfl
  | lor a b _ _ => rfl
  | pos t e ih => obtain ⟨h1, rfl, _⟩ := h; exact ih h1
  | neg t e ih => exact h.2.1
  | bnot t e ih => exact h.2.1
  | comma t a b _ _ => exact h.2.2.1
  | tern t c a b _ _ _ => exact h.2.2.2.1
  | asg t l r ih _ => obtain ⟨h1, _, rfl, _⟩ := h; exact ih h1
  | inc p d t l ih => obtain ⟨h1, rfl, _⟩ := h; exact ih h1
  | deref t e ih => have := ih h.1; rw [h.2] at this; exact this
  | ref t e ih => obtain ⟨h1, rfl⟩ := h; exact ih h1

theorem vok01 (t : T) {a : Int} (h : a = 0 ∨ a = 1) : Vok t a := by
  refine ⟨?_, fun _ => h⟩
  rcases tsz t with e | e | e | e <;> rw [e] <;> unfold InRange <;> split <;> rcases h with rfl | rfl <;> decide

theorem vok_conv {t : T} (h : t ≠ .bool) (a : Int) : Vok t (conv t.size t.uns a) :=
  ⟨conv_range (tsz t) _ _, fun e => absurd e h⟩

theorem get_vok {τ : State} {t : T} {l : Loc} {a : Int} (h : get τ t l = some a) : Vok t a := by
  unfold CExpr.get at h
  split at h
  · cases h
  · rename_i hh
    injection h with h
    subst h
    refine ⟨?_, fun e => by tauto⟩
    cases l <;> exact conv_range (tsz t) _ _

theorem arith_range {s : Nat} (hs : Sz s) {u : Bool} {x a : Int} (h : arith s u x = some a) : InRange s u a := by
  unfold arith at h
  unfold InRange
  cases u
  · simp only [Bool.false_eq_true, if_false] at h ⊢
    split at h
    · injection h with h; subst h; assumption
    · cases h
  · simp only [if_true] at h ⊢
    injection h with h
    subst h
    exact ⟨Int.emod_nonneg _ (by have : (0 : Int) < 2 ^ (8 * s) := by positivity
                                 omega), Int.emod_lt_of_pos _ (by positivity)⟩

theorem shr_range {s : Nat} {u : Bool} {a : Int} (n : Nat) (h : InRange s u a) : InRange s u (a / 2 ^ n) := by
  have hp : (0 : Int) < 2 ^ n := by positivity
  have h1 : (1 : Int) ≤ 2 ^ n := by omega
  unfold InRange at h ⊢
  by_cases h0 : 0 ≤ a
  · have q0 : 0 ≤ a / 2 ^ n := Int.ediv_nonneg h0 (by omega)
    have q1 : a / 2 ^ n ≤ a := Int.ediv_le_self _ h0
    split at h <;> split <;> first | omega | (rename_i e1 e2; exact absurd e1 e2) | (rename_i e1 e2; exact absurd e2 e1)
  · have q0 : a / 2 ^ n < 0 := Int.ediv_neg_of_neg_of_pos (by omega) hp
    have q1 : a ≤ a / 2 ^ n := by
      rw [Int.le_ediv_iff_mul_le hp]
      nlinarith
    split at h
    · omega
    · rename_i e1
      rw [if_neg e1]
      omega

theorem tmod_nat (n : Nat) (b : Int) : (n : Int).tmod b = ((n % b.natAbs : Nat) : Int) := by
  obtain ⟨m, rfl | rfl⟩ := Int.eq_nat_or_neg b
  · rfl
  · rw [Int.tmod_neg, Int.natAbs_neg]; rfl

theorem tmod_range {s : Nat} {u : Bool} {a b : Int} (ha : InRange s u a) : InRange s u (a.tmod b) := by
  have : a.tmod b = a - b * a.tdiv b := Int.tmod_def a b
  by_cases h0 : 0 ≤ a
  · have l1 : 0 ≤ a.tmod b := Int.tmod_nonneg _ h0
    have l2 : a.tmod b ≤ a := by
      obtain ⟨n, rfl⟩ := Int.eq_ofNat_of_zero_le h0
      have e : (Int.tmod (n : Int) b) = ((n % b.natAbs : Nat) : Int) := by
        exact tmod_nat n b
      rw [e]
      exact_mod_cast Nat.mod_le _ _
    unfold InRange at ha ⊢
    split at ha <;> split <;> first | omega | (rename_i e1 e2; exact absurd e1 e2) | (rename_i e1 e2; exact absurd e2 e1)
  · obtain ⟨n, rfl⟩ : ∃ n : Nat, a = -(n : Int) := ⟨a.natAbs, by omega⟩
    have e : (Int.tmod (-(n : Int)) b) = -((n % b.natAbs : Nat) : Int) := by
      rw [Int.neg_tmod]
      congr 1
      exact tmod_nat n b
    have l2 : (n % b.natAbs : Nat) ≤ n := Nat.mod_le _ _
    rw [e]
    unfold InRange at ha ⊢
    split at ha
    · omega
    · rename_i e1
      rw [if_neg e1]
      omega

theorem isoOp_range {o : Op} {s : Nat} (hs : Sz s) {u : Bool} {a b c : Int} (ha : InRange s u a) (h : isoOp o s u a b = some c) :
    InRange s u c := by
  cases o <;> simp only [isoOp] at h
  · exact arith_range hs h
  · split at h
    · cases h
    · exact arith_range hs h
  · split at h
    · cases h
    · split at h
      · cases h
      · injection h with h; subst h; exact tmod_range ha
  all_goals
    injection h with h
    subst h
    exact conv_range hs _ _

theorem opT_range {o : Ar} {s : Nat} (hs : Sz s) {u : Bool} {a b c : Int} (ha : InRange s u a) (h : opT o s u a b = some c) :
    InRange s u c := by
  unfold opT at h
  split at h
  · injection h with h; subst h; exact conv_range hs _ _
  · injection h with h; subst h; exact conv_range hs _ _
  · split at h
    · injection h with h; subst h; exact conv_range hs _ _
    · cases h
  · split at h
    · injection h with h; subst h; exact shr_range _ ha
    · cases h
  · injection h with h; subst h; exact conv_range hs _ _
  · exact isoOp_range hs ha h

theorem cnd_val {Γ : Ctx} {x : X} (hx : WX x) (h : Cnd x) {τ τ' : State} {a : Int} (e : evT Γ x τ = some (a, τ')) : a = 0 ∨ a = 1 := by
  induction x generalizing τ τ' a with
  | lit t v =>
    simp only [evT, Option.some.injEq, Prod.mk.injEq] at e
    obtain ⟨rfl, -⟩ := e
    have := conv_id (tsz t) t.uns (vok01 t h).1
    rw [this]; exact h
  | rel k a b _ _ =>
    simp only [evT] at e
    split at e
    · split at e
      · simp only [Option.some.injEq, Prod.mk.injEq] at e
        obtain ⟨rfl, -⟩ := e
        split <;> simp
      · cases e
    · cases e
  | land a b _ _ =>
    simp only [evT] at e
    split at e
    · split at e
      · simp only [Option.some.injEq, Prod.mk.injEq] at e; left; exact e.1.symm
      · rw [Option.map_eq_some_iff] at e
        obtain ⟨r, -, e⟩ := e
        simp only [Prod.mk.injEq] at e
        obtain ⟨rfl, -⟩ := e
        split <;> simp
    · cases e
  | lor a b _ _ =>
    simp only [evT] at e
    split at e
    · split at e
      · rw [Option.map_eq_some_iff] at e
        obtain ⟨r, -, e⟩ := e
        simp only [Prod.mk.injEq] at e
        obtain ⟨rfl, -⟩ := e
        split <;> simp
      · simp only [Option.some.injEq, Prod.mk.injEq] at e; right; exact e.1.symm
    · cases e
  | comma t a b _ ih =>
    simp only [evT] at e
    split at e
    · exact ih hx.2.1 h e
    · cases e
  | _ => exact absurd h (by simp [Cnd])

/-- The value of a tree is a value of its type. -/
theorem ev_vok {Γ : Ctx} {x : X} (hx : WX x) {τ τ' : State} {a : Int} (e : evT Γ x τ = some (a, τ')) : Vok x.ty a := by
  induction x generalizing τ τ' a with
  | lit t v =>
    simp only [evT, Option.some.injEq, Prod.mk.injEq] at e
    obtain ⟨rfl, -⟩ := e
    refine ⟨conv_range (tsz t) _ _, fun hb => ?_⟩
    have := hx.2.2 hb
    rw [conv_id (tsz t) t.uns (vok01 t this).1]; exact this
  | var t x =>
    simp only [evT, Option.map_eq_some_iff] at e
    obtain ⟨b, hb, e⟩ := e
    simp only [Prod.mk.injEq] at e
    obtain ⟨rfl, -⟩ := e
    exact get_vok hb
  | cast t e' ih =>
    simp only [evT, Option.map_eq_some_iff] at e
    obtain ⟨b, hb, e⟩ := e
    simp only [Prod.mk.injEq] at e
    obtain ⟨rfl, -⟩ := e
    exact vok_conv hx.2.2 _
  | bin o t p q ih1 ih2 =>
    simp only [evT] at e
    split at e
    · rename_i u v hu
      split at e
      · rw [Option.map_eq_some_iff] at e
        obtain ⟨z, hz, e⟩ := e
        simp only [Prod.mk.injEq] at e
        obtain ⟨rfl, -⟩ := e
        have := (ih1 hx.1 hu).1
        rw [hx.2.2.2.2.1.1, hx.2.2.2.2.1.2] at this
        exact ⟨opT_range (tsz t) this hz, fun hb => absurd hb hx.2.2.2.1⟩
      · cases e
    · cases e
  | rel k p q _ _ => exact vok01 _ (cnd_val (x := .rel k p q) hx trivial e)
  | land p q _ _ => exact vok01 _ (cnd_val (x := .land p q) hx trivial e)
  | lor p q _ _ => exact vok01 _ (cnd_val (x := .lor p q) hx trivial e)
  | pos t e' ih => simp only [evT] at e; obtain ⟨h1, rfl, _⟩ := hx; exact ih h1 e
  | neg t e' ih =>
    simp only [evT, Option.map_eq_some_iff] at e
    obtain ⟨b, hb, e⟩ := e
    simp only [Prod.mk.injEq] at e
    obtain ⟨rfl, -⟩ := e
    exact vok_conv hx.2.2 _
  | bnot t e' ih =>
    simp only [evT, Option.map_eq_some_iff] at e
    obtain ⟨b, hb, e⟩ := e
    simp only [Prod.mk.injEq] at e
    obtain ⟨rfl, -⟩ := e
    exact vok_conv hx.2.2 _
  | comma t p q _ ih =>
    simp only [evT] at e
    split at e
    · rcases hx.2.2.2 with h | h
      · have := ih hx.2.1 e
        rw [← h] at this; exact this
      · exact vok01 _ (cnd_val hx.2.1 h e)
    · cases e
  | tern t c p q _ ih1 ih2 =>
    obtain ⟨_, hp, hq, _, h1, h2⟩ := hx
    simp only [evT] at e
    split at e
    · split at e
      · rcases h2 with h | h
        · have := ih2 hq e
          rw [← h] at this; exact this
        · exact vok01 _ (cnd_val hq h e)
      · rcases h1 with h | h
        · have := ih1 hp e
          rw [← h] at this; exact this
        · exact vok01 _ (cnd_val hp h e)
    · cases e
  | asg t l r _ ih =>
    simp only [evT] at e
    split at e
    · rename_i b σ hb
      split at e
      · simp only [Option.some.injEq, Prod.mk.injEq] at e
        obtain ⟨rfl, -⟩ := e
        rcases hx.2.2.2 with h | h
        · have := ih hx.2.1 hb
          rw [← h] at this; exact this
        · exact vok01 _ (cnd_val hx.2.1 h hb)
      · cases e
    · cases e
  | inc p d t l _ =>
    simp only [evT] at e
    split at e
    · split at e
      · rename_i y hy
        simp only [Option.some.injEq, Prod.mk.injEq] at e
        obtain ⟨rfl, -⟩ := e
        cases p
        · exact vok_conv hx.2.2 _
        · exact get_vok hy
      · cases e
    · cases e
  | deref t e' _ =>
    simp only [evT] at e
    split at e
    · rw [Option.map_eq_some_iff] at e
      obtain ⟨z, hz, e⟩ := e
      simp only [Prod.mk.injEq] at e
      obtain ⟨rfl, -⟩ := e
      exact get_vok hz
    · cases e
  | ref t e' _ =>
    obtain ⟨_, rfl⟩ := hx
    simp only [evT] at e
    split at e
    · simp only [Option.some.injEq, Prod.mk.injEq] at e
      obtain ⟨rfl, -⟩ := e
      refine ⟨?_, fun hb => nomatch hb⟩
      show InRange 8 true _
      unfold InRange
      simp only [if_true]
      omega
    · cases e

/-! ## Lemmas: conversions -/

theorem rep_conv {s : Nat} (hs : Sz s) {u : Bool} {a v : Int} (h : Rep s u a v) : conv s u v = a := by
  obtain ⟨h1, h2⟩ := h
  rcases hs with rfl | rfl | rfl | rfl <;> cases u <;>
    simp [InRange, conv, toS] at h1 h2 ⊢ <;> (repeat' split at h2) <;> (repeat' split) <;> omega

theorem rep01 (t : T) {v : Int} (h : v = 0 ∨ v = 1) : Rep t.size t.uns (conv t.size t.uns v) v := by
  rw [conv_id (tsz t) _ (vok01 t h).1]
  refine ⟨(vok01 t h).1, ?_⟩
  rcases h with rfl | rfl <;> split <;> rfl

theorem conv01 (t : T) {v : Int} (h : v = 0 ∨ v = 1) : conv t.size t.uns v = v := conv_id (tsz t) _ (vok01 t h).1

/-- A constant is 0, or 1, only if its cell is. -/
theorem rep_small {s : Nat} (hs : Sz s) {u : Bool} {a v : Int} (h : Rep s u a v) : (a = 0 ↔ v = 0) ∧ (a = 1 ↔ v = 1) := by
  obtain ⟨h1, h2⟩ := h
  rcases hs with rfl | rfl | rfl | rfl <;> cases u <;>
    simp [InRange, toS] at h1 h2 <;> (repeat' split at h2) <;> omega

theorem wx_litB (b : Bool) : WX (litB b) := by
  have h : (if b then (1 : Int) else 0) = 0 ∨ (if b then (1 : Int) else 0) = 1 := by cases b <;> simp
  exact ⟨rfl, rep01 _ h, fun _ => h⟩

theorem cnd_litB (b : Bool) : Cnd (litB b) := by
  show (if b then (1 : Int) else 0) = 0 ∨ (if b then (1 : Int) else 0) = 1
  cases b <;> simp

theorem ev_litB (Γ : Ctx) (b : Bool) (τ : State) : evT Γ (litB b) τ = some (if b then 1 else 0, τ) := by
  have h : (if b then (1 : Int) else 0) = 0 ∨ (if b then (1 : Int) else 0) = 1 := by cases b <;> simp
  show some (conv _ _ _, τ) = _
  rw [conv01 .bool h]

theorem wx_lit0 {t : T} (h : t.ok = true) : WX (.lit t 0) := ⟨h, rep01 t (Or.inl rfl), fun _ => Or.inl rfl⟩

theorem mkCastN_ty (t : T) (x : X) : (mkCastN t x).ty = t := by
  unfold mkCastN
  split
  · rename_i h; exact h.symm
  · cases x <;> rfl

theorem mkCastN_wx {t : T} {x : X} (hx : WX x) (ht : t.ok = true) (hb : t ≠ .bool) : WX (mkCastN t x) := by
  unfold mkCastN
  split
  · exact hx
  · cases x with
    | lit t' v =>
      have r := rep_cast (tsz t') (tsz t) t.uns hx.2.1
      have e := rep_conv (tsz t) r
      refine ⟨ht, ?_, fun e => absurd e hb⟩
      rw [e]; exact r
    | _ => exact ⟨hx, ht, hb⟩

theorem mkCastN_ev {Γ : Ctx} (t : T) {x : X} (hx : WX x) {τ τ' : State} {a : Int} (e : evT Γ x τ = some (a, τ')) :
    evT Γ (mkCastN t x) τ = some (conv t.size t.uns a, τ') := by
  unfold mkCastN
  split
  · rename_i h
    rw [e, h, conv_id (tsz _) _ (ev_vok hx e).1]
  · cases x with
    | lit t' v =>
      have r := rep_cast (tsz t') (tsz t) t.uns hx.2.1
      have e' := rep_conv (tsz t) r
      simp only [evT, Option.some.injEq, Prod.mk.injEq] at e ⊢
      obtain ⟨rfl, rfl⟩ := e
      exact ⟨e', rfl⟩
    | _ => simp only [evT] at e ⊢; rw [e]; rfl

theorem mkCastN_lit (t : T) (x : X) : isLit (mkCastN t x) = isLit x := by
  unfold mkCastN
  split
  · rfl
  · cases x <;> rfl

theorem mkCastN_notCore (t : T) (x : X) : notCore (mkCastN t x) = notCore x := by
  unfold mkCastN
  split
  · rfl
  · cases x <;> rfl

theorem mkCastN_cmp {t : T} {x : X} (h : isLit x = false) : stripCast (mkCastN t x) = stripCast x := by
  unfold mkCastN
  split
  · rfl
  · cases x <;> first | rfl | cases h

/-! ## Lemmas: common types -/

/-- The size and sign of an integer type after promotion, and of two after the usual arithmetic conversions. -/
def proS (s : Nat) (u : Bool) : Nat × Bool := if s < 4 then (4, false) else (s, u)
def comS (a b : Nat × Bool) : Nat × Bool := if a.1 = b.1 then (a.1, a.2 || b.2) else if a.1 < b.1 then b else a

instance (t : Ty) : Decidable t.WF := by unfold Ty.WF; infer_instance

theorem iso_pro (t : Ty) (h : t.WF) : (Fold.size 8 (isoPromote t), (isoPromote t).uns) = proS (Fold.size 8 t) t.uns := by
  refine ty_cases (P := fun t => t.WF → (Fold.size 8 (isoPromote t), (isoPromote t).uns) = proS (Fold.size 8 t) t.uns) ?_ t h h
  decide +kernel

theorem iso_com (l r : Ty) (hl : l.WF) (hr : r.WF) :
    (Fold.size 8 (isoCommon 8 l r), (isoCommon 8 l r).uns) = comS (proS (Fold.size 8 l) l.uns) (proS (Fold.size 8 r) r.uns) := by
  refine ty_cases (P := fun l => l.WF → (Fold.size 8 (isoCommon 8 l r), (isoCommon 8 l r).uns) =
    comS (proS (Fold.size 8 l) l.uns) (proS (Fold.size 8 r) r.uns)) ?_ l hl hl
  intro k u
  refine ty_cases (P := fun r => r.WF → Ty.WF ⟨k, u⟩ → (Fold.size 8 (isoCommon 8 ⟨k, u⟩ r), (isoCommon 8 ⟨k, u⟩ r).uns) =
    comS (proS (Fold.size 8 ⟨k, u⟩) u) (proS (Fold.size 8 r) r.uns)) ?_ r hr hr
  revert k u
  decide +kernel

theorem cast_types (l r : Ty) (hl : l.WF) (hr : r.WF) :
    ∃ t : Ty, castNumbers 8 true l r = (t, t) ∧ t.WF ∧ 2 ≤ t.kind ∧ t.kind ≤ 4 ∧ (T.fx t).ok = true ∧ T.fx t ≠ .bool ∧
      Fold.size 8 t = Fold.size 8 (isoCommon 8 l r) ∧ t.uns = (isoCommon 8 l r).uns := by
  have h := common_size_sign 8 (Or.inr rfl) l r hl hr
  have hk : (castNumbers 8 true l r).1.WF ∧ 2 ≤ (castNumbers 8 true l r).1.kind ∧ (castNumbers 8 true l r).1.kind ≤ 4 := by
    refine ty_cases (P := fun l => (castNumbers 8 true l r).1.WF ∧ 2 ≤ (castNumbers 8 true l r).1.kind ∧ (castNumbers 8 true l r).1.kind ≤ 4) ?_ l hl
    intro k u
    refine ty_cases (P := fun r => (castNumbers 8 true ⟨k, u⟩ r).1.WF ∧ 2 ≤ (castNumbers 8 true ⟨k, u⟩ r).1.kind ∧ (castNumbers 8 true ⟨k, u⟩ r).1.kind ≤ 4) ?_ r hr
    revert k u
    decide +kernel
  obtain ⟨h1, h2, h3⟩ := h
  refine ⟨(castNumbers 8 true l r).1, ?_, hk.1, hk.2.1, hk.2.2, ok_wf.mpr hk.1, ?_, h2, h3⟩
  · exact Prod.ext rfl h1.symm
  · intro e
    injection e with e
    rw [e] at hk
    exact absurd hk.2.2 (by decide)

theorem cmp_types (l r : Ty) (hl : l.WF) (hr : r.WF) :
    ∃ t : Ty, cmpTypes 8 l r = (t, t) ∧ (T.fx t).ok = true ∧ T.fx t ≠ .bool ∧
      Fold.size 8 t = Fold.size 8 (isoCommon 8 l r) ∧ t.uns = (isoCommon 8 l r).uns := by
  have h := cmp_size_sign 8 (Or.inr rfl) l r hl hr
  have hk : (cmpTypes 8 l r).1.WF ∧ (cmpTypes 8 l r).1.kind ≠ 6 := by
    refine ty_cases (P := fun l => (cmpTypes 8 l r).1.WF ∧ (cmpTypes 8 l r).1.kind ≠ 6) ?_ l hl
    intro k u
    refine ty_cases (P := fun r => (cmpTypes 8 ⟨k, u⟩ r).1.WF ∧ (cmpTypes 8 ⟨k, u⟩ r).1.kind ≠ 6) ?_ r hr
    revert k u
    decide +kernel
  obtain ⟨h1, h2, h3⟩ := h
  refine ⟨(cmpTypes 8 l r).1, Prod.ext rfl h1.symm, ok_wf.mpr hk.1, ?_, h2, h3⟩
  intro e
  injection e with e
  rw [e] at hk
  exact hk.2 rfl

theorem castNum_fx {mi : Bool} {x y : X} {l r : Ty} (hx : x.ty = .fx l) (hy : y.ty = .fx r) :
    castNum mi x y = (mkCastN (.fx (castNumbers 8 mi l r).1) x, mkCastN (.fx (castNumbers 8 mi l r).2) y) := by
  unfold castNum
  rw [hx, hy]

/-- What bringing two operands to one type amounts to. -/
structure Common (Γ : Ctx) (l r : Ty) (x y x' y' : X) (t : Ty) : Prop where
  tx : x'.ty = .fx t
  ty : y'.ty = .fx t
  ok : (T.fx t).ok = true
  nb : T.fx t ≠ .bool
  sz : Fold.size 8 t = Fold.size 8 (isoCommon 8 l r)
  un : t.uns = (isoCommon 8 l r).uns
  wx : WX x'
  wy : WX y'
  ex : ∀ {τ τ' : State} {a : Int}, evT Γ x τ = some (a, τ') → evT Γ x' τ = some (conv (Fold.size 8 t) t.uns a, τ')
  ey : ∀ {τ τ' : State} {a : Int}, evT Γ y τ = some (a, τ') → evT Γ y' τ = some (conv (Fold.size 8 t) t.uns a, τ')
  lx : isLit x' = isLit x
  ly : isLit y' = isLit y
  nx : notCore x' = notCore x
  ny : notCore y' = notCore y

theorem castNum_common (Γ : Ctx) {x y : X} {l r : Ty} (hx : x.ty = .fx l) (hy : y.ty = .fx r) (wx : WX x) (wy : WX y) :
    ∃ t, castNumbers 8 true l r = (t, t) ∧ 2 ≤ t.kind ∧ t.kind ≤ 4 ∧
      Common Γ l r x y (castNum true x y).1 (castNum true x y).2 t := by
  have ol := wx_ok wx
  have or' := wx_ok wy
  rw [hx, ok_wf] at ol
  rw [hy, ok_wf] at or'
  obtain ⟨t, ht, _, h2, h4, hok, hb, hs, hu⟩ := cast_types l r ol or'
  refine ⟨t, ht, h2, h4, ?_⟩
  rw [castNum_fx hx hy, ht]
  exact ⟨mkCastN_ty _ _, mkCastN_ty _ _, hok, hb, hs, hu, mkCastN_wx wx hok hb, mkCastN_wx wy hok hb,
    fun e => mkCastN_ev _ wx e, fun e => mkCastN_ev _ wy e, mkCastN_lit _ _, mkCastN_lit _ _, mkCastN_notCore _ _,
    mkCastN_notCore _ _⟩

theorem narrow_int {t : Ty} (ht : t.WF) (hk : ¬ (2 ≤ t.kind ∧ t.kind ≤ 4)) {a : Int} (h : InRange (Fold.size 8 t) t.uns a) :
    InRange 4 false a := by
  obtain ⟨k, u⟩ := t
  obtain ⟨w1, w2⟩ := ht
  simp only at hk w1 w2 h
  have : k = 0 ∨ k = 1 ∨ k = 5 ∨ k = 6 := by omega
  rcases this with rfl | rfl | rfl | rfl <;> cases u <;> simp [InRange, size, Struct.fxSize] at h w2 ⊢ <;> omega

/-- Promotion keeps the value. -/
theorem promote_conv {t : Ty} (ht : t.WF) {a : Int} (h : InRange (Fold.size 8 t) t.uns a) :
    conv (Fold.size 8 (promote t)) (promote t).uns a = a := by
  unfold promote
  split
  · exact conv_id (size_Sz (Or.inr rfl) t) _ h
  · rename_i hk
    exact conv_id (s := 4) (by unfold Sz; omega) false (narrow_int ht (by simpa using hk) h)

theorem promote_ok (t : Ty) (h : t.WF) : (T.fx (promote t)).ok = true ∧ T.fx (promote t) ≠ .bool ∧ 2 ≤ (promote t).kind ∧
    (promote t).kind ≤ 4 := by
  rw [ok_wf]
  unfold promote
  split
  · rename_i hk
    simp only [Bool.and_eq_true, decide_eq_true_eq] at hk
    refine ⟨h, fun e => ?_, hk.1, hk.2⟩
    injection e with e
    rw [e] at hk
    exact absurd hk.2 (by decide)
  · decide

theorem promoteX_fx {x : X} {t : Ty} (h : x.ty = .fx t) : promoteX x = mkCastN (.fx (promote t)) x := by
  unfold promoteX
  rw [h]

theorem promoteX_ev {Γ : Ctx} {x : X} {t : Ty} (h : x.ty = .fx t) (hx : WX x) {τ τ' : State} {a : Int}
    (e : evT Γ x τ = some (a, τ')) : evT Γ (promoteX x) τ = some (a, τ') := by
  rw [promoteX_fx h, mkCastN_ev _ hx e]
  have o := wx_ok hx
  have v := (ev_vok hx e).1
  rw [h] at o v
  have := promote_conv (ok_wf.mp o) v
  show some (conv (Fold.size 8 (promote t)) (promote t).uns a, τ') = _
  rw [this]

theorem promote1_facts {x : X} {t : Ty} (h : x.ty = .fx t) (hx : WX x) :
    WX (promote1 x) ∧ (promote1 x).ty = .fx (if t.kind < 2 then promote t else t) ∧ isLit (promote1 x) = isLit x ∧
      notCore (promote1 x) = notCore x ∧
      ∀ {Γ : Ctx} {τ τ' : State} {a : Int}, evT Γ x τ = some (a, τ') → evT Γ (promote1 x) τ = some (a, τ') := by
  have o := wx_ok hx
  rw [h] at o
  have hp := promote_ok t (ok_wf.mp o)
  have e1 : promote1 x = if t.kind < 2 then mkCastN (.fx (promote t)) x else x := by unfold promote1; rw [h]
  rw [e1]
  split
  · exact ⟨mkCastN_wx hx hp.1 hp.2.1, mkCastN_ty _ _, mkCastN_lit _ _, mkCastN_notCore _ _,
      fun e => by rw [← promoteX_fx h]; exact promoteX_ev h hx e⟩
  · exact ⟨hx, h, rfl, rfl, fun e => e⟩

theorem cmpAdjust_common (Γ : Ctx) {x y : X} {l r : Ty} (hx : x.ty = .fx l) (hy : y.ty = .fx r) (wx : WX x) (wy : WX y) :
    ∃ t, Common Γ l r x y (cmpAdjust x y).1 (cmpAdjust x y).2 t := by
  have ol := wx_ok wx
  have or' := wx_ok wy
  rw [hx, ok_wf] at ol
  rw [hy, ok_wf] at or'
  obtain ⟨t, ht, hok, hb, hs, hu⟩ := cmp_types l r ol or'
  obtain ⟨x1, x2, x3, x4, x5⟩ := promote1_facts hx wx
  obtain ⟨y1, y2, y3, y4, y5⟩ := promote1_facts hy wy
  refine ⟨t, ?_⟩
  have e : cmpAdjust x y = (mkCastN (.fx t) (promote1 x), mkCastN (.fx t) (promote1 y)) := by
    unfold cmpAdjust
    rw [hx, hy]
    dsimp only
    rw [castNum_fx x2 y2]
    unfold cmpTypes at ht
    rw [ht]
  rw [e]
  exact ⟨mkCastN_ty _ _, mkCastN_ty _ _, hok, hb, hs, hu, mkCastN_wx x1 hok hb, mkCastN_wx y1 hok hb,
    fun e => mkCastN_ev _ x1 (x5 e), fun e => mkCastN_ev _ y1 (y5 e), (mkCastN_lit _ _).trans x3, (mkCastN_lit _ _).trans y3,
    (mkCastN_notCore _ _).trans x4, (mkCastN_notCore _ _).trans y4⟩

theorem cmpAdjust_ptr {x y : X} (h : ¬ ∃ l r, x.ty = .fx l ∧ y.ty = .fx r) : cmpAdjust x y = (x, y) := by
  unfold cmpAdjust
  split
  · rename_i l r h1 h2; exact absurd ⟨l, r, h1, h2⟩ h
  · rfl

/-- Converting to the common type with itself keeps a value. -/
theorem common_self {l : Ty} (hl : l.WF) {s : Nat} {u : Bool} (hs : s = Fold.size 8 (isoCommon 8 l l))
    (hu : u = (isoCommon 8 l l).uns) {a : Int} (h : InRange (Fold.size 8 l) l.uns a) : conv s u a = a := by
  have e : isoCommon 8 l l = isoPromote l := by unfold isoCommon; simp
  subst hs hu
  rw [e]
  by_cases hk : 2 ≤ l.kind ∧ l.kind ≤ 4
  · have : isoPromote l = l := by
      unfold isoPromote
      rw [if_pos (by omega)]
    rw [this]
    exact conv_id (size_Sz (Or.inr rfl) l) _ h
  · have : isoPromote l = tyInt := by
      unfold isoPromote
      rw [if_neg (by omega)]
    rw [this]
    exact conv_id (s := 4) (by unfold Sz; omega) false (narrow_int hl hk h)

/-! ## Lemmas: conditions -/

/-- `r` is a condition that has the truth value `f a` where `x` has the value `a`. -/
structure Truth (Γ : Ctx) (r x : X) (f : Int → Int) : Prop where
  wx : WX r
  ty : r.ty = .bool
  cnd : Cnd r
  ev : ∀ {τ τ' : State} {a : Int}, evT Γ x τ = some (a, τ') → evT Γ r τ = some (f a, τ')

theorem notWith_truth {Γ : Ctx} {x : X} {o : Option X} (hx : WX x)
    (ho : ∀ r, o = some r → Truth Γ r x fun a => if a = 0 then 1 else 0) :
    Truth Γ (notWith x o) x fun a => if a = 0 then 1 else 0 := by
  have hlit : ∀ t v, x = .lit t v → Truth Γ (litB (v = 0)) x fun a => if a = 0 then 1 else 0 := by
    rintro t v rfl
    refine ⟨wx_litB _, rfl, cnd_litB _, fun e => ?_⟩
    simp only [evT, Option.some.injEq, Prod.mk.injEq] at e
    obtain ⟨rfl, rfl⟩ := e
    have := (rep_small (tsz t) hx.2.1).1
    rw [ev_litB]
    by_cases h : v = 0
    · rw [if_pos (this.mpr h)]; simp [h]
    · rw [if_neg (fun q => h (this.mp q))]; simp [h]
  have hnon : Truth Γ (.rel .eq (cmpAdjust x (.lit x.ty 0)).1 (cmpAdjust x (.lit x.ty 0)).2) x fun a => if a = 0 then 1 else 0 := by
    have w0 := wx_lit0 (wx_ok hx)
    have e0 : ∀ τ, evT Γ (.lit x.ty 0) τ = some (0, τ) := by
      intro τ; simp only [evT]; rw [conv01 _ (Or.inl rfl)]
    cases ht : x.ty with
    | fx l =>
      rw [ht] at w0 e0
      obtain ⟨t, c⟩ := cmpAdjust_common Γ ht (y := .lit (.fx l) 0) rfl hx w0
      refine ⟨⟨c.wx, c.wy⟩, rfl, trivial, fun {τ τ' a} e => ?_⟩
      have ol := wx_ok hx
      have v := (ev_vok hx e).1
      rw [ht] at ol v
      have v' := common_self (ok_wf.mp ol) c.sz c.un v
      have z := conv01 (.fx t) (Or.inl rfl : (0 : Int) = 0 ∨ (0 : Int) = 1)
      simp only [evT]
      rw [c.ex e]
      dsimp only
      rw [c.ey (e0 τ'), v']
      dsimp only
      rw [show conv (Fold.size 8 t) t.uns 0 = 0 from z]
      simp [holds]
    | ptr p =>
      rw [ht] at w0 e0
      rw [cmpAdjust_ptr (by rintro ⟨l, r, h1, _⟩; rw [ht] at h1; cases h1)]
      refine ⟨⟨hx, w0⟩, rfl, trivial, fun {τ τ' a} e => ?_⟩
      simp only [evT]
      rw [e]
      have z := conv01 (.ptr p) (Or.inl rfl : (0 : Int) = 0 ∨ (0 : Int) = 1)
      dsimp only
      rw [z]
      simp [holds]
  unfold notWith
  split
  · rename_i t v; exact hlit t v rfl
  · split
    · exact ho _ rfl
    · exact hnon

theorem holds_neg (k : Rel) (a b : Int) : holds (negRel k) a b ↔ ¬ holds k a b := by
  cases k <;> simp [negRel, holds]

/-- A condition under casts has the value 0 or 1; its negation and its core. -/
theorem notCore_truth {Γ : Ctx} {x : X} (hx : WX x) : ∀ r, notCore x = some r →
    Truth Γ r x (fun a => if a = 0 then 1 else 0) ∧ Truth Γ (stripCast x) x (fun a => if a = 0 then 0 else 1) ∧
      ∀ {τ τ' : State} {a : Int}, evT Γ x τ = some (a, τ') → a = 0 ∨ a = 1 := by
  have self : ∀ {x : X}, WX x → x.ty = .bool → Cnd x → Truth Γ x x (fun a => if a = 0 then 0 else 1) := by
    intro x h1 h2 h3
    refine ⟨h1, h2, h3, fun {τ τ' a} e => ?_⟩
    rw [e]
    rcases cnd_val h1 h3 e with rfl | rfl <;> rfl
  induction x with
  | cast t e ih =>
    intro r hr
    obtain ⟨h1, h2, h3⟩ := ih hx.1 r hr
    have key : ∀ {τ τ' : State} {a : Int}, evT Γ (.cast t e) τ = some (a, τ') → evT Γ e τ = some (a, τ') ∧ (a = 0 ∨ a = 1) := by
      intro τ τ' a q
      simp only [evT, Option.map_eq_some_iff] at q
      obtain ⟨⟨b, σ⟩, hb, q⟩ := q
      simp only [Prod.mk.injEq] at q
      obtain ⟨rfl, rfl⟩ := q
      have := h3 hb
      rw [conv01 t this]
      exact ⟨hb, this⟩
    exact ⟨⟨h1.wx, h1.ty, h1.cnd, fun q => h1.ev (key q).1⟩, ⟨h2.wx, h2.ty, h2.cnd, fun q => h2.ev (key q).1⟩,
      fun q => (key q).2⟩
  | rel k a b _ _ =>
    rintro r hr
    simp only [notCore, Option.some.injEq] at hr
    subst hr
    refine ⟨⟨hx, rfl, trivial, fun {τ τ' v} e => ?_⟩, self hx rfl trivial, fun e => cnd_val (x := .rel k a b) hx trivial e⟩
    simp only [evT] at e ⊢
    split at e
    · rename_i va σ ha
      split at e
      · rename_i vb σ' hb
        simp only [Option.some.injEq, Prod.mk.injEq] at e
        obtain ⟨rfl, rfl⟩ := e
        simp only [Option.some.injEq, Prod.mk.injEq, and_true]
        have := holds_neg k va vb
        by_cases h : holds k va vb
        · rw [if_neg (by rw [this]; exact fun q => q h), if_pos h]; rfl
        · rw [if_pos (this.mpr h), if_neg h]; rfl
      · cases e
    · cases e
  | land a b iha ihb =>
    rintro r hr
    simp only [notCore, Option.some.injEq] at hr
    subst hr
    have ta := notWith_truth (o := notCore a) hx.1 (fun r h => (iha hx.1 r h).1)
    have tb := notWith_truth (o := notCore b) hx.2 (fun r h => (ihb hx.2 r h).1)
    refine ⟨⟨⟨ta.wx, tb.wx⟩, rfl, trivial, fun {τ τ' v} e => ?_⟩, self hx rfl trivial, fun e => cnd_val (x := .land a b) hx trivial e⟩
    simp only [evT] at e ⊢
    split at e
    · rename_i va σ ha
      rw [ta.ev ha]
      dsimp only
      by_cases h0 : va = 0
      · rw [if_pos h0] at e
        simp only [Option.some.injEq, Prod.mk.injEq] at e
        obtain ⟨rfl, rfl⟩ := e
        simp [h0]
      · rw [if_neg h0, Option.map_eq_some_iff] at e
        obtain ⟨⟨vb, σ'⟩, hb, e⟩ := e
        simp only [Prod.mk.injEq] at e
        obtain ⟨rfl, rfl⟩ := e
        rw [if_neg h0, if_pos rfl, tb.ev hb]
        by_cases h1 : vb = 0 <;> simp [h1]
    · cases e
  | lor a b iha ihb =>
    rintro r hr
    simp only [notCore, Option.some.injEq] at hr
    subst hr
    have ta := notWith_truth (o := notCore a) hx.1 (fun r h => (iha hx.1 r h).1)
    have tb := notWith_truth (o := notCore b) hx.2 (fun r h => (ihb hx.2 r h).1)
    refine ⟨⟨⟨ta.wx, tb.wx⟩, rfl, trivial, fun {τ τ' v} e => ?_⟩, self hx rfl trivial, fun e => cnd_val (x := .lor a b) hx trivial e⟩
    simp only [evT] at e ⊢
    split at e
    · rename_i va σ ha
      rw [ta.ev ha]
      dsimp only
      by_cases h0 : va = 0
      · rw [if_pos h0, Option.map_eq_some_iff] at e
        obtain ⟨⟨vb, σ'⟩, hb, e⟩ := e
        simp only [Prod.mk.injEq] at e
        obtain ⟨rfl, rfl⟩ := e
        rw [if_pos h0, if_neg (by decide), tb.ev hb]
        by_cases h1 : vb = 0 <;> simp [h1]
      · rw [if_neg h0] at e
        simp only [Option.some.injEq, Prod.mk.injEq] at e
        obtain ⟨rfl, rfl⟩ := e
        simp [h0]
    · cases e
  | _ => rintro r hr; simp [notCore] at hr

theorem mkNot_truth {Γ : Ctx} {x : X} (hx : WX x) : Truth Γ (mkNot x) x fun a => if a = 0 then 1 else 0 :=
  notWith_truth hx fun r h => (notCore_truth hx r h).1

/-- `v == c`, `v != c` for a condition `v`. -/
theorem cmpCond_truth {Γ : Ctx} {k : Rel} (hk : k = .eq ∨ k = .ne) {v : X} (hv : WX v) {t : T} {c : Int} (hc : WX (.lit t c)) {r : X}
    (h : cmpCond k v c = some r) : Truth Γ r v fun a => if holds k a (conv t.size t.uns c) then 1 else 0 := by
  unfold cmpCond at h
  split at h
  · cases h
  · rename_i n hn
    obtain ⟨h1, h2, h3⟩ := notCore_truth (Γ := Γ) hv n hn
    have hs := rep_small (tsz t) hc.2.1
    split at h
    · rename_i hc01
      have cc : conv t.size t.uns c = c := conv01 t hc01
      rw [cc]
      injection h with h
      subst h
      rcases hk with rfl | rfl <;> rcases hc01 with rfl | rfl
      · refine ⟨h1.wx, h1.ty, h1.cnd, fun e => ?_⟩
        have := h3 e
        have q := h1.ev e
        rcases this with rfl | rfl <;> simpa [holds] using q
      · refine ⟨h2.wx, h2.ty, h2.cnd, fun e => ?_⟩
        have := h3 e
        have q := h2.ev e
        rcases this with rfl | rfl <;> simpa [holds] using q
      · refine ⟨h2.wx, h2.ty, h2.cnd, fun e => ?_⟩
        have := h3 e
        have q := h2.ev e
        rcases this with rfl | rfl <;> simpa [holds] using q
      · refine ⟨h1.wx, h1.ty, h1.cnd, fun e => ?_⟩
        have := h3 e
        have q := h1.ev e
        rcases this with rfl | rfl <;> simpa [holds] using q
    · rename_i hc01
      injection h with h
      subst h
      refine ⟨⟨hv, wx_litB _, rfl, Or.inl rfl⟩, rfl, cnd_litB _, fun {τ τ' a} e => ?_⟩
      simp only [evT]
      rw [e]
      dsimp only
      rw [ev_litB]
      have a01 := h3 e
      have n0 : conv t.size t.uns c ≠ 0 := fun q => hc01 (Or.inl (hs.1.mp q))
      have n1 : conv t.size t.uns c ≠ 1 := fun q => hc01 (Or.inr (hs.2.mp q))
      rcases hk with rfl | rfl <;> rcases a01 with rfl | rfl <;> simp [holds, Ne.symm n0, Ne.symm n1]

/-- What can be compared once the operands are adjusted. -/
def CmpPre (k : Rel) (x y : X) : Prop :=
  (∃ t, x.ty = .fx t ∧ y.ty = .fx t) ∨ (∃ e e', x.ty = .ptr e ∧ y.ty = .ptr e') ∨
    ((k = .eq ∨ k = .ne) ∧ ((∃ e t, x.ty = .ptr e ∧ y = .lit (.fx t) 0) ∨ (∃ e t, y.ty = .ptr e ∧ x = .lit (.fx t) 0)))

/-- `r` is the comparison of `x` and `y`. -/
structure Compares (Γ : Ctx) (k : Rel) (x y r : X) : Prop where
  wx : WX r
  ty : r.ty = .bool
  cnd : Cnd r
  ev : ∀ {τ τ1 τ2 : State} {a b : Int}, evT Γ x τ = some (a, τ1) → evT Γ y τ1 = some (b, τ2) →
    evT Γ r τ = some (if holds k a b then 1 else 0, τ2)

theorem rel_compares {Γ : Ctx} {k : Rel} {x y : X} (hx : WX x) (hy : WX y) : Compares Γ k x y (.rel k x y) :=
  ⟨⟨hx, hy⟩, rfl, trivial, fun e1 e2 => by simp only [evT]; rw [e1]; dsimp only; rw [e2]⟩

theorem mkRel_compares {Γ : Ctx} {k : Rel} {x y : X} (hx : WX x) (hy : WX y) (h : CmpPre k x y) :
    Compares Γ k x y (mkRel k x y) := by
  unfold mkRel
  rcases h with ⟨t, h1, h2⟩ | ⟨e, e', h1, h2⟩ | ⟨hk, ⟨e, t, h1, rfl⟩ | ⟨e, t, h1, rfl⟩⟩
  · rw [h1, h2]; exact rel_compares hx hy
  · rw [h1, h2]; exact rel_compares hx hy
  · rw [h1]
    have ok := wx_ok hx
    rw [h1] at ok
    have w := mkCastN_wx hy (t := .ptr e) ok (fun q => nomatch q)
    refine ⟨⟨hx, w⟩, rfl, trivial, fun {τ τ1 τ2 a b} e1 e2 => ?_⟩
    have v := mkCastN_ev (.ptr e) hy e2
    simp only [evT, Option.some.injEq, Prod.mk.injEq] at e2
    obtain ⟨rfl, rfl⟩ := e2
    show evT Γ (.rel k x (mkCastN (.ptr e) (.lit (.fx t) 0))) τ = _
    simp only [evT]
    rw [e1]
    dsimp only
    rw [v]
    rw [conv01 (.fx t) (Or.inl rfl), conv01 (.ptr e) (Or.inl rfl)]
  · rw [h1]
    have ok := wx_ok hy
    rw [h1] at ok
    have w := mkCastN_wx hx (t := .ptr e) ok (fun q => nomatch q)
    refine ⟨⟨w, hy⟩, rfl, trivial, fun {τ τ1 τ2 a b} e1 e2 => ?_⟩
    have v := mkCastN_ev (.ptr e) hx e1
    simp only [evT, Option.some.injEq, Prod.mk.injEq] at e1
    obtain ⟨rfl, rfl⟩ := e1
    show evT Γ (.rel k (mkCastN (.ptr e) (.lit (.fx t) 0)) y) τ = _
    simp only [evT]
    rw [v]
    dsimp only
    rw [e2]
    rw [conv01 (.fx t) (Or.inl rfl), conv01 (.ptr e) (Or.inl rfl)]

theorem holds_comm {k : Rel} (hk : k = .eq ∨ k = .ne) (a b : Int) : holds k a b ↔ holds k b a := by
  rcases hk with rfl | rfl <;> simp only [holds] <;> constructor <;> intro h <;> first | exact h.symm | exact Ne.symm h

theorem lit_ev {Γ : Ctx} {t : T} {c : Int} {τ τ' : State} {a : Int} (e : evT Γ (.lit t c) τ = some (a, τ')) :
    a = conv t.size t.uns c ∧ τ = τ' := by
  simp only [evT, Option.some.injEq, Prod.mk.injEq] at e
  exact ⟨e.1.symm, e.2⟩

theorem mkCmpV_compares {Γ : Ctx} {k : Rel} {x y : X} (hx : WX x) (hy : WX y) (h : CmpPre k x y) :
    Compares Γ k x y (mkCmpV k x y) := by
  have hr := mkRel_compares (Γ := Γ) hx hy h
  unfold mkCmpV
  dsimp only
  split
  · rename_i r hr'
    split at hr'
    · rename_i t c
      split at hr'
      · rename_i hk
        have q := cmpCond_truth (Γ := Γ) hk hy hx hr'
        refine ⟨q.wx, q.ty, q.cnd, fun {τ τ1 τ2 a b} e1 e2 => ?_⟩
        obtain ⟨rfl, rfl⟩ := lit_ev e1
        rw [q.ev e2]
        simp only [holds_comm hk b]
      · cases hr'
    · rename_i t c
      split at hr'
      · rename_i hk
        have q := cmpCond_truth (Γ := Γ) hk hx hy hr'
        refine ⟨q.wx, q.ty, q.cnd, fun {τ τ1 τ2 a b} e1 e2 => ?_⟩
        obtain ⟨rfl, rfl⟩ := lit_ev e2
        rw [q.ev e1]
      · cases hr'
    · cases hr'
  · exact hr

theorem judge_holds (k : Rel) (a b : Int) : judge k a b = true ↔ holds k a b := by
  cases k <;> simp [judge, holds]

theorem rep_inj {s : Nat} (hs : Sz s) {u u' : Bool} {a a' v v' : Int} (h : Rep s u a v) (h' : Rep s u' a' v') (hu : u = u') :
    (v = v' ↔ a = a') := by
  subst hu
  constructor
  · rintro rfl; rw [← rep_conv hs h, rep_conv hs h']
  · rintro rfl; rw [h.2, h'.2]

/-- Comparing constants. -/
theorem cmpLit_ok {k : Rel} {t t' : T} {v v' : Int} (h1 : WX (.lit t v)) (h2 : WX (.lit t' v')) (h : CmpPre k (.lit t v) (.lit t' v'))
    {b : Bool} (hb : cmpLit k t v t' v' = some b) : b = true ↔ holds k (conv t.size t.uns v) (conv t'.size t'.uns v') := by
  have ptrs : ∀ {e : T} {q q' : Int}, Rep 8 true (conv 8 true q) q → Rep 8 true (conv 8 true q') q' → (k = .eq ∨ k = .ne) →
      (judge k q q' = true ↔ holds k (conv 8 true q) (conv 8 true q')) := by
    intro _ q q' r r' hk
    have := rep_inj (by unfold Sz; omega) r r' rfl
    rw [judge_holds]
    rcases hk with rfl | rfl <;> simp only [holds, this, ne_eq]
  rcases h with ⟨t, e1, e2⟩ | ⟨e, e', e1, e2⟩ | ⟨hk, ⟨e, t0, e1, e2⟩ | ⟨e, t0, e1, e2⟩⟩
  · simp only [X.ty] at e1 e2
    subst e1 e2
    simp only [cmpLit, Bool.or_self, Option.some.injEq] at hb
    subst hb
    have r1 := h1.2.1
    have r2 := h2.2.1
    show (if t.uns then _ else _) = true ↔ _
    simp only [T.uns, T.size] at r1 r2 ⊢
    cases hu : t.uns with
    | true =>
      rw [hu] at r1 r2
      rw [if_pos rfl, judge_holds, rep_uns (tsz (.fx t)) r1, rep_uns (tsz (.fx t)) r2]
    | false =>
      rw [hu] at r1 r2
      rw [if_neg (by decide), judge_holds, ← rep_sgn r1, ← rep_sgn r2]
  · simp only [X.ty] at e1 e2
    subst e1 e2
    simp only [cmpLit] at hb
    split at hb
    · rename_i hk
      injection hb with hb
      subst hb
      exact ptrs (e := e) h1.2.1 h2.2.1 hk
    · cases hb
  · simp only [X.ty] at e1
    injection e2 with e2 e3
    subst e1 e2 e3
    simp only [cmpLit, hk, if_true, Option.some.injEq] at hb
    subst hb
    rw [conv01 (.fx t0) (Or.inl rfl), ← conv01 (.ptr e) (Or.inl rfl)]
    exact ptrs (e := e) h1.2.1 (rep01 (.ptr e) (Or.inl rfl)) hk
  · simp only [X.ty] at e1
    injection e2 with e2 e3
    subst e1 e2 e3
    simp only [cmpLit, hk, if_true, Option.some.injEq] at hb
    subst hb
    rw [conv01 (.fx t0) (Or.inl rfl), ← conv01 (.ptr e) (Or.inl rfl)]
    exact ptrs (e := e) (rep01 (.ptr e) (Or.inl rfl)) h2.2.1 hk

/-- The comparison two operands of types `l` and `r` get: integers of the common type, pointers, a pointer and a null
pointer constant. -/
theorem mkCmp_ok {Γ : Ctx} {k : Rel} {x y z : X} (hx : WX x) (hy : WX y) (h : mkCmp k x y = some z) :
    (∀ na nb : Bool, (na = true → ∃ t, x = .lit t 0) → (nb = true → ∃ t, y = .lit t 0) →
      ∀ {τ τ1 τ2 : State} {a b c : Int}, evT Γ x τ = some (a, τ1) → evT Γ y τ1 = some (b, τ2) → relVal k x.ty y.ty na nb a b = some c →
        evT Γ z τ = some (c, τ2)) := by
  intro na nb hna hnb τ τ1 τ2 a b c e1 e2 hc
  -- the adjusted operands
  have key : ∀ {x' y' : X} {a' b' : Int}, WX x' → WX y' → CmpPre k x' y' → evT Γ x' τ = some (a', τ1) → evT Γ y' τ1 = some (b', τ2) →
      (match x', y' with
        | .lit t v, .lit t' v' => (cmpLit k t v t' v').map litB
        | x, y => some (mkCmpV k x y)) = some z → evT Γ z τ = some (if holds k a' b' then 1 else 0, τ2) := by
    intro x' y' a' b' w1 w2 pre q1 q2 hz
    split at hz
    · rename_i t v t' v'
      rw [Option.map_eq_some_iff] at hz
      obtain ⟨bb, hbb, rfl⟩ := hz
      have := cmpLit_ok w1 w2 pre hbb
      obtain ⟨rfl, rfl⟩ := lit_ev q1
      obtain ⟨rfl, rfl⟩ := lit_ev q2
      rw [ev_litB]
      by_cases hh : bb = true
      · rw [if_pos hh, if_pos (this.mp hh)]
      · rw [if_neg hh, if_neg (fun q => hh (this.mpr q))]
    · injection hz with hz
      subst hz
      exact (mkCmpV_compares w1 w2 pre).ev q1 q2
  unfold mkCmp at h
  dsimp only at h
  cases tx : x.ty with
  | fx l =>
    cases ty' : y.ty with
    | fx r =>
      obtain ⟨t, cm⟩ := cmpAdjust_common Γ tx ty' hx hy
      have := key cm.wx cm.wy (Or.inl ⟨t, cm.tx, cm.ty⟩) (cm.ex e1) (cm.ey e2) h
      rw [this]
      rw [tx, ty'] at hc
      simp only [relVal, Option.some.injEq] at hc
      rw [← hc, ← cm.sz, ← cm.un]
    | ptr e =>
      rw [cmpAdjust_ptr (by rintro ⟨l, r, _, h1⟩; rw [ty'] at h1; cases h1)] at h
      rw [tx, ty'] at hc
      simp only [relVal] at hc
      split at hc
      · rename_i hk
        injection hc with hc
        subst hc
        obtain ⟨t, rfl⟩ := hna hk.1
        simp only [X.ty] at tx
        subst tx
        exact key hx hy (Or.inr (Or.inr ⟨hk.2, Or.inr ⟨e, l, ty', rfl⟩⟩)) e1 e2 h
      · cases hc
  | ptr e =>
    rw [cmpAdjust_ptr (by rintro ⟨l, r, h1, _⟩; rw [tx] at h1; cases h1)] at h
    cases ty' : y.ty with
    | fx r =>
      rw [tx, ty'] at hc
      simp only [relVal] at hc
      split at hc
      · rename_i hk
        injection hc with hc
        subst hc
        obtain ⟨t, rfl⟩ := hnb hk.1
        simp only [X.ty] at ty'
        subst ty'
        exact key hx hy (Or.inr (Or.inr ⟨hk.2, Or.inl ⟨e, r, tx, rfl⟩⟩)) e1 e2 h
      · cases hc
    | ptr e' =>
      rw [tx, ty'] at hc
      simp only [relVal, Option.some.injEq] at hc
      subst hc
      exact key hx hy (Or.inr (Or.inl ⟨e, e', tx, ty'⟩)) e1 e2 h

theorem mkRel_wx {k : Rel} {x y : X} (hx : WX x) (hy : WX y) : WX (mkRel k x y) ∧ (mkRel k x y).ty = .bool := by
  unfold mkRel
  split
  · rename_i e _ h1 _
    have ok := wx_ok hx
    rw [h1] at ok
    exact ⟨⟨hx, mkCastN_wx hy ok (fun q => nomatch q)⟩, rfl⟩
  · rename_i e h1
    have ok := wx_ok hy
    rw [h1] at ok
    exact ⟨⟨mkCastN_wx hx ok (fun q => nomatch q), hy⟩, rfl⟩
  · exact ⟨⟨hx, hy⟩, rfl⟩

theorem mkCmpV_wx {k : Rel} {x y : X} (hx : WX x) (hy : WX y) : WX (mkCmpV k x y) ∧ (mkCmpV k x y).ty = .bool ∧ Cnd (mkCmpV k x y) := by
  unfold mkCmpV
  dsimp only
  split
  · rename_i r hr'
    split at hr'
    · split at hr'
      · rename_i hk
        have q := cmpCond_truth (Γ := fun _ => ⟨.bool, none⟩) hk hy hx hr'
        exact ⟨q.wx, q.ty, q.cnd⟩
      · cases hr'
    · split at hr'
      · rename_i hk
        have q := cmpCond_truth (Γ := fun _ => ⟨.bool, none⟩) hk hx hy hr'
        exact ⟨q.wx, q.ty, q.cnd⟩
      · cases hr'
    · cases hr'
  · refine ⟨(mkRel_wx hx hy).1, (mkRel_wx hx hy).2, ?_⟩
    unfold mkRel
    split <;> trivial

theorem cmpAdjust_wx {x y : X} (hx : WX x) (hy : WX y) : WX (cmpAdjust x y).1 ∧ WX (cmpAdjust x y).2 := by
  by_cases h : ∃ l r, x.ty = .fx l ∧ y.ty = .fx r
  · obtain ⟨l, r, h1, h2⟩ := h
    obtain ⟨t, c⟩ := cmpAdjust_common (fun _ => ⟨.bool, none⟩) h1 h2 hx hy
    exact ⟨c.wx, c.wy⟩
  · rw [cmpAdjust_ptr h]; exact ⟨hx, hy⟩

theorem mkCmp_wx {k : Rel} {x y z : X} (hx : WX x) (hy : WX y) (h : mkCmp k x y = some z) : WX z ∧ z.ty = .bool := by
  have w := cmpAdjust_wx hx hy
  unfold mkCmp at h
  dsimp only at h
  split at h
  · rw [Option.map_eq_some_iff] at h
    obtain ⟨b, -, rfl⟩ := h
    exact ⟨wx_litB b, rfl⟩
  · injection h with h
    subst h
    exact ⟨(mkCmpV_wx w.1 w.2).1, (mkCmpV_wx w.1 w.2).2.1⟩

/-- The last case of `make_cond`. -/
theorem cond_other {Γ : Ctx} {x : X} (hx : WX x) : WX (mkCmpV .ne (cmpAdjust x (.lit x.ty 0)).1 (cmpAdjust x (.lit x.ty 0)).2) ∧
    Cnd (mkCmpV .ne (cmpAdjust x (.lit x.ty 0)).1 (cmpAdjust x (.lit x.ty 0)).2) ∧
    ((mkCmpV .ne (cmpAdjust x (.lit x.ty 0)).1 (cmpAdjust x (.lit x.ty 0)).2).ty = .bool ∨
      ∃ t a b, x = .comma t a b ∧ (mkCmpV .ne (cmpAdjust x (.lit x.ty 0)).1 (cmpAdjust x (.lit x.ty 0)).2).ty = t) ∧
    ∀ {τ τ' : State} {a : Int}, evT Γ x τ = some (a, τ') →
      evT Γ (mkCmpV .ne (cmpAdjust x (.lit x.ty 0)).1 (cmpAdjust x (.lit x.ty 0)).2) τ = some (if a = 0 then 0 else 1, τ') := by
  have w0 := wx_lit0 (wx_ok hx)
  have e0 : ∀ τ, evT Γ (.lit x.ty 0) τ = some (0, τ) := by
    intro τ; simp only [evT]; rw [conv01 _ (Or.inl rfl)]
  cases ht : x.ty with
  | fx l =>
    rw [ht] at w0 e0
    obtain ⟨t, c⟩ := cmpAdjust_common Γ ht (y := .lit (.fx l) 0) rfl hx w0
    have m := mkCmpV_compares (Γ := Γ) (k := .ne) c.wx c.wy (Or.inl ⟨t, c.tx, c.ty⟩)
    refine ⟨m.wx, m.cnd, Or.inl m.ty, fun {τ τ' a} e => ?_⟩
    have ol := wx_ok hx
    have v := (ev_vok hx e).1
    rw [ht] at ol v
    have v' := common_self (ok_wf.mp ol) c.sz c.un v
    have z := conv01 (.fx t) (Or.inl rfl : (0 : Int) = 0 ∨ (0 : Int) = 1)
    rw [m.ev (c.ex e) (c.ey (e0 τ')), v', show conv (Fold.size 8 t) t.uns 0 = 0 from z]
    simp [holds]
  | ptr p =>
    rw [ht] at w0 e0
    rw [cmpAdjust_ptr (by rintro ⟨l, r, h1, _⟩; rw [ht] at h1; cases h1)]
    have m := mkCmpV_compares (Γ := Γ) (k := .ne) hx w0 (Or.inr (Or.inl ⟨p, p, ht, rfl⟩))
    refine ⟨m.wx, m.cnd, Or.inl m.ty, fun {τ τ' a} e => ?_⟩
    rw [m.ev e (e0 τ')]
    simp [holds]

/-- `make_cond` gives the truth value; its type is `_Bool`, unless it is a comma expression. -/
theorem mkCond_ok {Γ : Ctx} {x : X} (hx : WX x) : WX (mkCond x) ∧ Cnd (mkCond x) ∧
    ((mkCond x).ty = .bool ∨ ∃ t a b, x = .comma t a b ∧ (mkCond x).ty = t) ∧
    ∀ {τ τ' : State} {a : Int}, evT Γ x τ = some (a, τ') → evT Γ (mkCond x) τ = some (if a = 0 then 0 else 1, τ') := by
  have self : ∀ {x : X}, WX x → x.ty = .bool → Cnd x → WX x ∧ Cnd x ∧ (x.ty = .bool ∨ ∃ t a b, x = .comma t a b ∧ x.ty = t) ∧
      ∀ {τ τ' : State} {a : Int}, evT Γ x τ = some (a, τ') → evT Γ x τ = some (if a = 0 then 0 else 1, τ') := by
    intro x h1 h2 h3
    refine ⟨h1, h3, Or.inl h2, fun {τ τ' a} e => ?_⟩
    rw [e]
    rcases cnd_val h1 h3 e with rfl | rfl <;> rfl
  induction x with
  | lit t v =>
    refine ⟨wx_litB _, cnd_litB _, Or.inl rfl, fun e => ?_⟩
    obtain ⟨rfl, rfl⟩ := lit_ev e
    have := (rep_small (tsz t) hx.2.1).1
    simp only [mkCond]
    rw [ev_litB]
    by_cases h : v = 0
    · rw [if_pos (this.mpr h)]; simp [h]
    · rw [if_neg (fun q => h (this.mp q))]; simp [h]
  | rel k a b _ _ => exact self hx rfl trivial
  | land a b _ _ => exact self hx rfl trivial
  | lor a b _ _ => exact self hx rfl trivial
  | comma t a b _ ih =>
    have hb : WX b := hx.2.1
    have ihb : WX (mkCond b) ∧ Cnd (mkCond b) ∧ ((mkCond b).ty = .bool ∨ ∃ t a b', b = .comma t a b' ∧ (mkCond b).ty = t) ∧
      ∀ {τ τ' : State} {a : Int}, evT Γ b τ = some (a, τ') → evT Γ (mkCond b) τ = some (if a = 0 then 0 else 1, τ') := by
      exact ih hb
    refine ⟨⟨hx.1, ihb.1, hx.2.2.1, Or.inr ihb.2.1⟩, ihb.2.1, Or.inr ⟨t, a, b, rfl, rfl⟩, fun {τ τ' v} e => ?_⟩
    simp only [mkCond, evT] at e ⊢
    split at e
    · exact ihb.2.2.2 e
    · cases e
  | _ => exact cond_other hx

/-! ## Lemmas: arithmetic -/

/-- Same size and sign, and pointers to the same type. -/
def Sim (t t' : T) : Prop :=
  SU t t' ∧
    match t, t' with
    | .fx _, .fx _ => True
    | .ptr a, .ptr b => a = b
    | _, _ => False

theorem sim_refl (t : T) : Sim t t := by
  refine ⟨⟨rfl, rfl⟩, ?_⟩
  cases t <;> trivial

theorem sim_fx {t t' : Ty} (h1 : Fold.size 8 t = Fold.size 8 t') (h2 : t.uns = t'.uns) : Sim (.fx t) (.fx t') := ⟨⟨h1, h2⟩, trivial⟩

theorem cvt_conv {t : T} (h : t ≠ .bool) (a : Int) : cvt t a = conv t.size t.uns a := by
  unfold cvt
  rw [if_neg h]

/-- Not a comma expression, or one whose type has the size and sign of `int`. -/
def condOk : X → Bool
  | .comma (.fx t) _ _ => Fold.size 8 t == 4 && !t.uns
  | .comma (.ptr _) _ _ => false
  | _ => true

theorem mkCond_sim {x : X} (hx : WX x) (h : condOk x = true) : Sim (.fx tyInt) (mkCond x).ty := by
  rcases (mkCond_ok (Γ := fun _ => ⟨.bool, none⟩) hx).2.2.1 with e | ⟨t, a, b, rfl, e⟩
  · rw [e]; exact sim_fx rfl rfl
  · rw [e]
    cases t with
    | fx t =>
      simp only [condOk, Bool.and_eq_true, beq_iff_eq, Bool.not_eq_true'] at h
      exact sim_fx h.1.symm h.2.symm
    | ptr p => cases h

theorem sim_of {t t' : Ty} {z : T} (h : Sim (.fx t) z) (h1 : Fold.size 8 t = Fold.size 8 t') (h2 : t.uns = t'.uns) : Sim (.fx t') z := by
  obtain ⟨⟨a, b⟩, c⟩ := h
  exact ⟨⟨h1.symm.trans a, h2.symm.trans b⟩, by cases z <;> trivial⟩

theorem lit_or_cond (x : X) : (match x with | .lit _ v => litB (decide (v ≠ 0)) | x => mkCond x) = mkCond x := by
  cases x <;> rfl

theorem mkCast_ok {Γ : Ctx} {t : T} {x : X} (hx : WX x) (ht : t.ok = true) :
    WX (mkCast t x) ∧ (t = (mkCast t x).ty ∨ Cnd (mkCast t x)) ∧ ((t = .bool → condOk x = true) → Sim t (mkCast t x).ty) ∧
    ∀ {τ τ' : State} {a : Int}, evT Γ x τ = some (a, τ') → evT Γ (mkCast t x) τ = some (cvt t a, τ') := by
  unfold mkCast
  split
  · rename_i hb
    subst hb
    split
    · rename_i h
      refine ⟨hx, Or.inl h.symm, fun _ => by rw [h]; exact sim_refl _, fun {τ τ' a} e => ?_⟩
      rw [e]
      have := (ev_vok hx e).2 h
      rcases this with rfl | rfl <;> rfl
    · have hc := mkCond_ok (Γ := Γ) hx
      have hsim : condOk x = true → Sim .bool (mkCond x).ty := fun h => sim_of (mkCond_sim hx h) rfl rfl
      rw [lit_or_cond]
      exact ⟨hc.1, Or.inr hc.2.1, fun h => hsim (h rfl), fun e => by rw [hc.2.2.2 e]; rfl⟩
  · rename_i hb
    refine ⟨mkCastN_wx hx ht hb, Or.inl (mkCastN_ty t x).symm, fun _ => by rw [mkCastN_ty]; exact sim_refl _, fun e => ?_⟩
    rw [mkCastN_ev t hx e, cvt_conv hb]

theorem arith_conv {s : Nat} (hs : Sz s) {u : Bool} {x c : Int} (h : arith s u x = some c) : c = conv s u x := by
  unfold arith at h
  cases u
  · simp only [Bool.false_eq_true, if_false] at h
    split at h
    · injection h with h
      subst h
      refine (conv_id hs false ?_).symm
      unfold InRange
      simpa using ‹_›
    · cases h
  · simp only [if_true] at h
    injection h with h
    subst h
    unfold conv
    simp

theorem opT_iso {o : Op} {s : Nat} (hs : Sz s) {u : Bool} {a b c : Int} (h : isoOp o s u a b = some c) :
    opT (.op o) s u a b = some c := by
  cases o <;> first | exact h | skip
  have h' : arith s u (a * b) = some c := h
  rw [arith_conv hs h']
  rfl

theorem tdiv_i64 {l r : Int} (hl : IsI64 l) (h : ¬ (l = -2 ^ 63 ∧ r = -1)) : IsI64 (l.tdiv r) := by
  unfold IsI64 at *
  have e : (l.tdiv r).natAbs = l.natAbs / r.natAbs := Int.natAbs_tdiv l r
  by_cases h1 : r = -1
  · subst h1
    rw [Int.tdiv_neg, Int.tdiv_one]
    omega
  · by_cases h2 : r = 1
    · subst h2; rw [Int.tdiv_one]; exact hl
    · by_cases h3 : r = 0
      · subst h3; rw [Int.tdiv_zero]; omega
      · have h4 : 2 ≤ r.natAbs := by omega
        have h5 : l.natAbs / r.natAbs ≤ l.natAbs / 2 := Nat.div_le_div_left h4 (by omega)
        omega

theorem i64_range (v : Int) : IsI64 v ↔ InRange 8 false v := by
  unfold IsI64 InRange
  simp

theorem calcOp_i64 {o : Op} {u : Bool} {l r v : Int} (hl : IsI64 l) (h : calcOp o u l r = some v) : IsI64 v := by
  cases o <;> simp only [calcOp] at h
  · injection h with h; subst h; split <;> exact toS64_i64 _
  · split at h
    · injection h with h; subst h; exact toS64_i64 _
    · split at h
      · cases h
      · injection h with h; subst h; exact tdiv_i64 hl ‹_›
  · split at h
    · injection h with h; subst h; exact toS64_i64 _
    · split at h
      · cases h
      · injection h with h; subst h
        rw [i64_range] at hl ⊢
        exact tmod_range hl
  all_goals
    injection h with h
    subst h
    exact toS64_i64 _

theorem wx_wrap {t : Ty} (ht : t.WF) (hb : T.fx t ≠ .bool) {w : Int} (hw : IsI64 w) :
    WX (.lit (.fx t) (wrapValue w (Fold.size 8 t) t.uns)) := by
  have r : Rep (Fold.size 8 t) t.uns (conv (Fold.size 8 t) t.uns w) (wrapValue w (Fold.size 8 t) t.uns) :=
    rep_wrap (size_Sz (Or.inr rfl) t) t.uns hw (by simp)
  refine ⟨ok_wf.mpr ht, ?_, fun e => absurd e hb⟩
  show Rep (Fold.size 8 t) t.uns (conv (Fold.size 8 t) t.uns _) _
  rw [rep_conv (size_Sz (Or.inr rfl) t) r]
  exact r

theorem wx_i64 {t : T} {v : Int} (h : WX (.lit t v)) : IsI64 v := rep_i64 (tsz t) h.2.1

theorem wx_wf {x : X} {t : Ty} (hx : WX x) (h : x.ty = .fx t) : t.WF := by
  have := wx_ok hx
  rw [h] at this
  exact ok_wf.mp this

/-- What a binary operator builds. -/
structure BinOk (Γ : Ctx) (o : Ar) (x y z : X) : Prop where
  wx : WX z
  sim : ∃ t, arTy o x.ty y.ty = some t ∧ Sim t z.ty
  ev : ∀ {τ τ1 τ2 : State} {a b c : Int}, swaps o x.ty y.ty = false → evT Γ x τ = some (a, τ1) → evT Γ y τ1 = some (b, τ2) →
    arVal o x.ty y.ty a b = some c → evT Γ z τ = some (c, τ2)
  ev' : ∀ {τ τ1 τ2 : State} {a b c : Int}, swaps o x.ty y.ty = true → evT Γ y τ = some (b, τ1) → evT Γ x τ1 = some (a, τ2) →
    arVal o x.ty y.ty a b = some c → evT Γ z τ = some (c, τ2)

theorem arTy_op {o : Op} {l r : Ty} : arTy (.op o) (.fx l) (.fx r) = some (.fx (isoCommon 8 l r)) := rfl

theorem mkNum_ok {Γ : Ctx} {o : Op} {x y z : X} (hx : WX x) (hy : WX y) (h : mkNum o x y = some z) : BinOk Γ (.op o) x y z := by
  unfold mkNum at h
  split at h
  · rename_i l r tx ty'
    obtain ⟨t, ht, hk2, hk4, cm⟩ := castNum_common Γ tx ty' hx hy
    have wl := wx_wf hx tx
    have wr := wx_wf hy ty'
    have hsz := size_Sz (Or.inr rfl : 8 = 4 ∨ 8 = 8) t
    have simt : Sim (.fx (isoCommon 8 l r)) (.fx t) := sim_fx cm.sz.symm cm.un.symm
    have nosw : swaps (.op o) x.ty y.ty = true → False := by rw [tx, ty']; exact fun q => nomatch q
    -- the value of the operands
    have val : ∀ {a b c : Int}, arVal (.op o) x.ty y.ty a b = some c →
        isoOp o (Fold.size 8 t) t.uns (conv (Fold.size 8 t) t.uns a) (conv (Fold.size 8 t) t.uns b) = some c := by
      intro a b c hc
      rw [tx, ty'] at hc
      simp only [arVal] at hc
      rw [cm.sz, cm.un]; exact hc
    -- the plain node
    have plain : BinOk Γ (.op o) x y (.bin (.op o) (castNum true x y).1.ty (castNum true x y).1 (castNum true x y).2) := by
      rw [cm.tx]
      refine ⟨⟨cm.wx, cm.wy, cm.ok, cm.nb, ?_, fun _ _ => ?_⟩, ⟨_, by rw [tx, ty', arTy_op], simt⟩, ?_, fun q => (nosw q).elim⟩
      · rw [cm.tx]; exact ⟨rfl, rfl⟩
      · rw [cm.ty]; exact ⟨rfl, rfl⟩
      · intro τ τ1 τ2 a b c _ e1 e2 hc
        simp only [evT]
        rw [cm.ex e1]
        dsimp only
        rw [cm.ey e2]
        dsimp only
        rw [show opT (.op o) (T.fx t).size (T.fx t).uns _ _ = some c from opT_iso hsz (val hc)]
        rfl
    dsimp only at h
    split at h
    · rename_i tv v tw w
      simp only [X.ty] at tx ty'
      subst tx ty'
      split at h
      · rename_i t' c hc
        injection h with h
        subst h
        have hnum : numBop 8 o l v r w = .const t' c := hc
        have hw : WX (.lit (.fx t') c) ∧ t' = t := by
          unfold numBop at hc
          rw [ht] at hc
          dsimp only at hc
          have i64 : IsI64 (if t = l then v else castConst 8 t v) := by
            split
            · exact wx_i64 hx
            · exact rep_i64 hsz (rep_cast (size_Sz (Or.inr rfl) l) hsz t.uns hx.2.1)
          generalize (if t = l then v else castConst 8 t v) = lc at hc i64
          generalize (if t = r then w else castConst 8 t w) = rc at hc
          split at hc
          · cases hc
          · split at hc
            · cases hc
            · rename_i q hq
              have := calcOp_i64 i64 hq
              simp only [ge_iff_le, le_refl, if_true] at hc
              rw [if_neg (by omega)] at hc
              injection hc with h1 h2
              subst h1 h2
              exact ⟨wx_wrap (ok_wf.mp cm.ok) cm.nb this, rfl⟩
        obtain ⟨hw, rfl⟩ := hw
        refine ⟨hw, ⟨_, arTy_op, simt⟩, ?_, fun q => (nosw q).elim⟩
        intro τ τ1 τ2 a b d _ e1 e2 hd
        obtain ⟨rfl, rfl⟩ := lit_ev e1
        obtain ⟨rfl, rfl⟩ := lit_ev e2
        obtain ⟨t2, v2, q1, q2, q3, q4⟩ := numBop_correct 8 (Or.inr rfl) o l r wl wr _ _ v w d hx.2.1 hy.2.1 hd
        rw [hnum] at q1
        injection q1 with q1 q1'
        subst q1 q1'
        simp only [evT]
        rw [show conv (T.fx t').size (T.fx t').uns c = d from rep_conv hsz q4]
      · injection h with h
        subst h
        exact plain
      · cases h
    · split at h
      · rename_i tw w hw
        have wy' := cm.wy
        have ty'' := cm.ty
        have ey' := @cm.ey
        rw [hw] at wy' ty'' ey'
        simp only [X.ty] at ty''
        subst ty''
        split at h
        · rename_i hs
          injection h with h
          subst h
          rw [hw]
          refine ⟨⟨cm.wx, wy', cm.ok, Or.inl rfl⟩, ⟨_, by rw [tx, ty', arTy_op], simt⟩, ?_, fun q => (nosw q).elim⟩
          intro τ τ1 τ2 a b c _ e1 e2 hc
          simp only [evT]
          rw [cm.ex e1]
          have e2' := ey' e2
          obtain ⟨v1, rfl⟩ := lit_ev e2'
          have := simplify_correct hsz t.uns o _ _ w c (conv_range hsz _ a) wy'.2.1 (by
            have := val hc
            rw [v1] at this
            exact this) _ hs
          simp only at this
          rw [this]
        · rename_i hs
          injection h with h
          subst h
          rw [cm.tx]
          refine ⟨⟨cm.wx, cm.ok, cm.nb⟩, ⟨_, by rw [tx, ty', arTy_op], simt⟩, ?_, fun q => (nosw q).elim⟩
          intro τ τ1 τ2 a b c _ e1 e2 hc
          simp only [evT]
          rw [cm.ex e1]
          have e2' := ey' e2
          obtain ⟨v1, rfl⟩ := lit_ev e2'
          have := simplify_correct hsz t.uns o _ _ w c (conv_range hsz _ a) wy'.2.1 (by
            have := val hc
            rw [v1] at this
            exact this) _ hs
          simp only at this
          rw [arith_conv hsz this]
          rfl
        · rename_i hs
          injection h with h
          subst h
          refine ⟨cm.wx, ⟨_, by rw [tx, ty', arTy_op], by rw [cm.tx]; exact simt⟩, ?_, fun q => (nosw q).elim⟩
          intro τ τ1 τ2 a b c _ e1 e2 hc
          rw [cm.ex e1]
          have e2' := ey' e2
          obtain ⟨v1, rfl⟩ := lit_ev e2'
          have := simplify_correct hsz t.uns o _ _ w c (conv_range hsz _ a) wy'.2.1 (by
            have := val hc
            rw [v1] at this
            exact this) _ hs
          simp only at this
          rw [this]
        · injection h with h
          subst h
          exact plain
      · injection h with h
        subst h
        exact plain
  · cases h

end Verif.Elab

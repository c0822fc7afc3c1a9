import Verif.Util.Wrap

/-
C37, C42: constant expressions and data directives of the assembler.

Model of `unary`, `parse_mul`, `parse_add` (src/as/parse_asm.c:451-557), `calc_expr` (1079-1142) and of
the `.byte/.short/.long/.quad` directives (parse_asm.c:928-953). The input is the token list
(`fetch_token` is not modelled); floating-point literals are left out. Signed overflow and division by
zero, which are undefined in C, are the outcome `none` of the parser.
-/

namespace Verif.AsmExpr

open Verif.Util

/-- parse_asm.c:270-280 `enum TokenKind` (end of input is the end of the list). -/
inductive Tok
  | label (l : Nat)
  | num (v : Int)
  | add
  | sub
  | mul
  | div
deriving DecidableEq, Repr

/-- parse_asm.h `enum ExprKind`, `struct Expr`. -/
inductive Expr
  | label (l : Nat)
  | fixnum (v : Int)
  | pos (e : Expr)
  | neg (e : Expr)
  | add (a b : Expr)
  | sub (a b : Expr)
  | mul (a b : Expr)
  | div (a b : Expr)
deriving DecidableEq, Repr

/-- An `int64_t` result, or undefined behaviour. -/
def chk (v : Int) : Option Int := if -(2 ^ 63) ≤ v ∧ v < 2 ^ 63 then some v else none

/-- parse_asm.c:433-449 `prim`: the expression (`none`: NULL) and the remaining tokens. -/
def prim : List Tok → Option Expr × List Tok
  | .label l :: ts => (some (.label l), ts)
  | .num v :: ts => (some (.fixnum v), ts)
  | ts => (none, ts)

/-- parse_asm.c:451-491 `unary`. -/
def unary : List Tok → Option (Option Expr × List Tok)
  | .add :: ts => do
    let (e, ts) ← unary ts
    match e with
    | none => some (none, ts)
    | some (.fixnum v) => some (some (.fixnum v), ts)
    | some e => some (some (.pos e), ts)
  | .sub :: ts => do
    let (e, ts) ← unary ts
    match e with
    | none => some (none, ts)
    | some (.fixnum v) => do
      let v ← chk (-v)
      some (some (.fixnum v), ts)
    | some e => some (some (.neg e), ts)
  | ts => some (prim ts)

/-- The four operators. -/
inductive Op
  | add
  | sub
  | mul
  | div
deriving DecidableEq, Repr

/-- Node for an operator (parse_asm.c:516-519, 546-550). -/
def Op.node : Op → Expr → Expr → Expr
  | .add => .add
  | .sub => .sub
  | .mul => .mul
  | .div => .div

/-- parse_asm.c:509-520 and 539-551: one step of the loops. The `switch` adds for TK_DIV (line 512)
and for TK_SUB (line 542), as the code does. -/
def combine (op : Op) (lhs rhs : Expr) : Option Expr :=
  match lhs, rhs with
  | .fixnum a, .fixnum b =>
    match op with
    | .mul => (chk (a * b)).map .fixnum
    | .div => (chk (a + b)).map .fixnum
    | .add => (chk (a + b)).map .fixnum
    | .sub => (chk (a + b)).map .fixnum
  | _, _ => some (op.node lhs rhs)

/-- `match` of TK_MUL or TK_DIV. -/
def mulOp : List Tok → Option (Op × List Tok)
  | .mul :: ts => some (.mul, ts)
  | .div :: ts => some (.div, ts)
  | _ => none

/-- `match` of TK_ADD or TK_SUB. -/
def addOp : List Tok → Option (Op × List Tok)
  | .add :: ts => some (.add, ts)
  | .sub :: ts => some (.sub, ts)
  | _ => none

/-- The loop shared by `parse_mul` (498-521) and `parse_add` (529-552): `match` an operator, read an
operand, combine. `none` in the first component of the result stands for the "expression error". -/
def loop (opf : List Tok → Option (Op × List Tok)) (operand : List Tok → Option (Option Expr × List Tok)) :
    Nat → Expr → List Tok → Option (Option Expr × List Tok)
  | 0, _, _ => none
  | fuel + 1, lhs, ts =>
    match opf ts with
    | none => some (some lhs, ts)
    | some (op, ts) => do
      let (rhs, ts) ← operand ts
      match rhs with
      | none => some (none, ts)
      | some rhs => do
        let e ← combine op lhs rhs
        loop opf operand fuel e ts

/-- parse_asm.c:493-522 `parse_mul`. -/
def parseMul (ts : List Tok) : Option (Option Expr × List Tok) := do
  let (e, ts) ← unary ts
  match e with
  | none => some (none, ts)
  | some e => loop mulOp unary (ts.length + 1) e ts

/-- parse_asm.c:524-553 `parse_add`. -/
def parseAdd (ts : List Tok) : Option (Option Expr × List Tok) := do
  let (e, ts) ← parseMul ts
  match e with
  | none => some (none, ts)
  | some e => loop addOp parseMul (ts.length + 1) e ts

/-- parse_asm.h `Value`. -/
structure Value where
  label : Option Nat
  offset : Int
deriving DecidableEq, Repr

/-- parse_asm.c:1079-1142 `calc_expr`. `addr` is the label table (`none`: not in the table). The
outcome `none` is a call of `error` or undefined behaviour. -/
def calcExpr (addr : Nat → Option Int) : Expr → Option Value
  | .label l => some ⟨some l, 0⟩
  | .fixnum v => some ⟨none, v⟩
  | .pos e => do
    let v ← calcExpr addr e
    match v.label with
    | some _ => none
    | none => some v
  | .neg e => do
    let v ← calcExpr addr e
    match v.label with
    | some _ => none
    | none => do
      let o ← chk (-v.offset)
      some ⟨none, o⟩
  | .add a b => do
    let x ← calcExpr addr a
    let y ← calcExpr addr b
    match x.label, y.label with
    | some _, some _ => none
    | none, some l => do
      let o ← chk (x.offset + y.offset)
      some ⟨some l, o⟩
    | some l, none => do
      let o ← chk (x.offset + y.offset)
      some ⟨some l, o⟩
    | none, none => do
      let o ← chk (x.offset + y.offset)
      some ⟨none, o⟩
  | .sub a b => do
    let x ← calcExpr addr a
    let y ← calcExpr addr b
    match x.label, y.label with
    | some l, some m => do
      let p ← addr l
      let q ← addr m
      some ⟨none, p - q⟩
    | none, some _ => none
    | some _, none => none
    | none, none => do
      let o ← chk (x.offset - y.offset)
      some ⟨none, o⟩
  | .mul a b => do
    let x ← calcExpr addr a
    let y ← calcExpr addr b
    match x.label, y.label with
    | none, none => do
      let o ← chk (x.offset * y.offset)
      some ⟨none, o⟩
    | _, _ => none
  | .div a b => do
    let x ← calcExpr addr a
    let y ← calcExpr addr b
    match x.label, y.label with
    | none, none =>
      if y.offset = 0 then none
      else do
        let o ← chk (x.offset.tdiv y.offset)
        some ⟨none, o⟩
    | _, _ => none

/-! ### Specification: a grammar and its value -/

/-- Abstract syntax of assembler expressions. -/
inductive E
  | label (l : Nat)
  | num (v : Int)
  | pos (e : E)
  | neg (e : E)
  | bin (op : Op) (a b : E)

/-- Token of an operator. -/
def Op.tok : Op → Tok
  | .add => .add
  | .sub => .sub
  | .mul => .mul
  | .div => .div

/-- Multiplicative operator? -/
def Op.isMul : Op → Bool
  | .mul => true
  | .div => true
  | _ => false

/-- unary ::= label | number | '+' unary | '-' unary -/
inductive DUnary : List Tok → E → Prop
  | label (l : Nat) : DUnary [.label l] (.label l)
  | num (v : Int) : DUnary [.num v] (.num v)
  | pos {ts : List Tok} {e : E} : DUnary ts e → DUnary (.add :: ts) (.pos e)
  | neg {ts : List Tok} {e : E} : DUnary ts e → DUnary (.sub :: ts) (.neg e)

/-- mul ::= unary | mul ('*' | '/') unary   (left associative) -/
inductive DMul : List Tok → E → Prop
  | one {ts : List Tok} {e : E} : DUnary ts e → DMul ts e
  | op {ts us : List Tok} {a b : E} (o : Op) (h : o.isMul = true) : DMul ts a → DUnary us b →
      DMul (ts ++ o.tok :: us) (.bin o a b)

/-- add ::= mul | add ('+' | '-') mul   (left associative) -/
inductive DAdd : List Tok → E → Prop
  | one {ts : List Tok} {e : E} : DMul ts e → DAdd ts e
  | op {ts us : List Tok} {a b : E} (o : Op) (h : o.isMul = false) : DAdd ts a → DMul us b →
      DAdd (ts ++ o.tok :: us) (.bin o a b)

/-- Ordinary arithmetic. `none`: division by zero or an intermediate result outside of `int64_t`. -/
def E.eval (env : Nat → Int) : E → Option Int
  | .label l => some (env l)
  | .num v => some v
  | .pos e => e.eval env
  | .neg e => do
    let v ← e.eval env
    chk (-v)
  | .bin op a b => do
    let x ← a.eval env
    let y ← b.eval env
    match op with
    | .add => chk (x + y)
    | .sub => chk (x - y)
    | .mul => chk (x * y)
    | .div => if y = 0 then none else chk (x.tdiv y)

/-- No label occurs. -/
def E.const : E → Bool
  | .label _ => false
  | .num _ => true
  | .pos e => e.const
  | .neg e => e.const
  | .bin _ a b => a.const && b.const

/-- The value of a label is an address; the value of a `Value` is that of its label plus the
offset. -/
def Value.denote (env : Nat → Int) (v : Value) : Int :=
  (match v.label with
    | some l => env l
    | none => 0) + v.offset

/-- A label, possibly nothing else. -/
def E.isLabel : E → Bool
  | .label _ => true
  | _ => false

/-- The expressions the assembler gets right: no subtraction or division of two constants, and the
operands of a difference of labels are plain labels. -/
def E.Good : E → Prop
  | .label _ => True
  | .num _ => True
  | .pos e => e.Good
  | .neg e => e.Good
  | .bin op a b => a.Good ∧ b.Good ∧
      (op = .sub ∨ op = .div → ¬ (a.const = true ∧ b.const = true)) ∧
      (op = .sub → b.const = true ∨ (a.isLabel = true ∧ b.isLabel = true))

/-! ### Proofs -/

/-- What the parser builds for an expression. -/
def E.elab : E → Option Expr
  | .label l => some (.label l)
  | .num v => some (.fixnum v)
  | .pos e => do
    match (← e.elab) with
    | .fixnum v => some (.fixnum v)
    | x => some (.pos x)
  | .neg e => do
    match (← e.elab) with
    | .fixnum v => do
      let v ← chk (-v)
      some (.fixnum v)
    | x => some (.neg x)
  | .bin op a b => do
    let x ← a.elab
    let y ← b.elab
    combine op x y

theorem unary_elab {ts : List Tok} {e : E} (h : DUnary ts e) : ∀ {x : Expr}, e.elab = some x →
    ∀ rest, unary (ts ++ rest) = some (some x, rest) := by
  induction h with
  | label l => intro x hx rest; cases hx; rfl
  | num v => intro x hx rest; cases hx; rfl
  | pos _ ih =>
    rename_i ts e _
    intro x hx rest
    simp only [E.elab, Option.bind_eq_bind] at hx
    cases he : e.elab with
    | none => rw [he] at hx; cases hx
    | some y =>
      rw [he] at hx
      simp only [Option.bind_some] at hx
      simp only [List.cons_append, unary, ih he rest, Option.bind_eq_bind, Option.bind_some]
      cases y <;> simp only [Option.some.injEq] at hx <;> subst hx <;> rfl
  | neg _ ih =>
    rename_i ts e _
    intro x hx rest
    simp only [E.elab, Option.bind_eq_bind] at hx
    cases he : e.elab with
    | none => rw [he] at hx; cases hx
    | some y =>
      rw [he] at hx
      simp only [Option.bind_some] at hx
      simp only [List.cons_append, unary, ih he rest, Option.bind_eq_bind, Option.bind_some]
      cases y with
      | fixnum v =>
        simp only at hx ⊢
        cases hc : chk (-v) with
        | none => rw [hc] at hx; cases hx
        | some w =>
          rw [hc] at hx
          simp only [Option.bind_some, Option.some.injEq] at hx ⊢
          subst hx; rfl
      | _ => simp only [Option.some.injEq] at hx; subst hx; rfl

theorem prim_len (ts : List Tok) : (prim ts).2.length ≤ ts.length := by
  unfold prim
  split <;> simp

theorem unary_len {ts : List Tok} : ∀ {e : Option Expr} {r : List Tok}, unary ts = some (e, r) →
    r.length ≤ ts.length := by
  induction ts with
  | nil =>
    intro e r h
    simp only [unary, prim, Option.some.injEq, Prod.mk.injEq] at h
    rw [← h.2]; simp
  | cons t ts ih =>
    intro e r h
    have hprim : ∀ u : List Tok, some (prim u) = some (e, r) → r.length ≤ u.length := by
      intro u hu
      have := prim_len u
      rw [Option.some.inj hu] at this; exact this
    cases t with
    | add =>
      simp only [unary, Option.bind_eq_bind] at h
      cases hu : unary ts with
      | none => rw [hu] at h; cases h
      | some q =>
        obtain ⟨e', r'⟩ := q
        have := ih hu
        rw [hu] at h
        simp only [Option.bind_some] at h
        split at h <;> simp only [Option.some.injEq, Prod.mk.injEq] at h <;> (rw [← h.2]; simp; omega)
    | sub =>
      simp only [unary, Option.bind_eq_bind] at h
      cases hu : unary ts with
      | none => rw [hu] at h; cases h
      | some q =>
        obtain ⟨e', r'⟩ := q
        have := ih hu
        rw [hu] at h
        simp only [Option.bind_some] at h
        split at h
        · simp only [Option.some.injEq, Prod.mk.injEq] at h; rw [← h.2]; simp; omega
        · rename_i v
          cases hc : chk (-v) with
          | none => rw [hc] at h; cases h
          | some w =>
            rw [hc] at h
            simp only [Option.bind_some, Option.some.injEq, Prod.mk.injEq] at h
            rw [← h.2]; simp; omega
        · simp only [Option.some.injEq, Prod.mk.injEq] at h; rw [← h.2]; simp; omega
    | label l => exact hprim _ h
    | num v => exact hprim _ h
    | mul => exact hprim _ h
    | div => exact hprim _ h

/-- An operator test takes one token, an operand does not add tokens. -/
def Consumes (opf : List Tok → Option (Op × List Tok))
    (operand : List Tok → Option (Option Expr × List Tok)) : Prop :=
  (∀ ts op r, opf ts = some (op, r) → r.length < ts.length) ∧
  (∀ ts e r, operand ts = some (e, r) → r.length ≤ ts.length)

theorem loop_fuel {opf : List Tok → Option (Op × List Tok)}
    {operand : List Tok → Option (Option Expr × List Tok)} (hc : Consumes opf operand) :
    ∀ (n m : Nat) (x : Expr) (ts : List Tok), ts.length < n → ts.length < m →
      loop opf operand n x ts = loop opf operand m x ts := by
  intro n
  induction n with
  | zero => intro m x ts h; omega
  | succ n ih =>
    intro m x ts h1 h2
    obtain ⟨m, rfl⟩ : ∃ k, m = k + 1 := ⟨m - 1, by omega⟩
    simp only [loop]
    cases ho : opf ts with
    | none => rfl
    | some q =>
      obtain ⟨op, r⟩ := q
      have hl := hc.1 ts op r ho
      simp only
      cases hx : operand r with
      | none => rfl
      | some q =>
        obtain ⟨e, r'⟩ := q
        have hl' := hc.2 r e r' hx
        simp only [Option.bind_eq_bind, Option.bind_some]
        cases e with
        | none => rfl
        | some e =>
          simp only
          cases combine op x e with
          | none => rfl
          | some y =>
            simp only [Option.bind_some]
            exact ih m y r' (by omega) (by omega)

theorem loop_len {opf : List Tok → Option (Op × List Tok)}
    {operand : List Tok → Option (Option Expr × List Tok)} (hc : Consumes opf operand) :
    ∀ (n : Nat) (x : Expr) (ts : List Tok) (e : Option Expr) (r : List Tok),
      loop opf operand n x ts = some (e, r) → r.length ≤ ts.length := by
  intro n
  induction n with
  | zero => intro x ts e r h; cases h
  | succ n ih =>
    intro x ts e r h
    simp only [loop] at h
    cases ho : opf ts with
    | none =>
      rw [ho] at h
      simp only [Option.some.injEq, Prod.mk.injEq] at h
      rw [← h.2]; simp
    | some q =>
      obtain ⟨op, r1⟩ := q
      have hl := hc.1 ts op r1 ho
      rw [ho] at h
      simp only at h
      cases hx : operand r1 with
      | none => rw [hx] at h; cases h
      | some q =>
        obtain ⟨e2, r2⟩ := q
        have hl' := hc.2 r1 e2 r2 hx
        rw [hx] at h
        simp only [Option.bind_eq_bind, Option.bind_some] at h
        cases e2 with
        | none =>
          simp only [Option.some.injEq, Prod.mk.injEq] at h
          rw [← h.2]; omega
        | some e2 =>
          simp only at h
          cases hcb : combine op x e2 with
          | none => rw [hcb] at h; cases h
          | some y =>
            rw [hcb] at h
            have := ih y r2 e r h
            omega

theorem mul_consumes : Consumes mulOp unary := by
  refine ⟨fun ts op r h => ?_, fun ts e r h => unary_len h⟩
  unfold mulOp at h
  split at h <;> simp only [Option.some.injEq, Prod.mk.injEq, reduceCtorEq] at h
  all_goals (rw [← h.2]; simp)

theorem add_consumes : Consumes addOp parseMul := by
  refine ⟨fun ts op r h => ?_, fun ts e r h => ?_⟩
  · unfold addOp at h
    split at h <;> simp only [Option.some.injEq, Prod.mk.injEq, reduceCtorEq] at h
    all_goals (rw [← h.2]; simp)
  · unfold parseMul at h
    simp only [Option.bind_eq_bind] at h
    cases hu : unary ts with
    | none => rw [hu] at h; cases h
    | some q =>
      obtain ⟨e1, r1⟩ := q
      have hl := unary_len hu
      rw [hu] at h
      simp only [Option.bind_some] at h
      cases e1 with
      | none =>
        simp only [Option.some.injEq, Prod.mk.injEq] at h
        rw [← h.2]; exact hl
      | some e1 =>
        have := loop_len mul_consumes _ _ _ _ _ h
        omega

theorem elab_bin {op : Op} {a b : E} {x : Expr} (h : (E.bin op a b).elab = some x) :
    ∃ y z, a.elab = some y ∧ b.elab = some z ∧ combine op y z = some x := by
  simp only [E.elab, Option.bind_eq_bind] at h
  cases ha : a.elab with
  | none => rw [ha] at h; cases h
  | some y =>
    cases hb : b.elab with
    | none => rw [ha, hb] at h; cases h
    | some z =>
      rw [ha, hb] at h
      exact ⟨y, z, rfl, rfl, h⟩

theorem parseMul_elab {ts : List Tok} {e : E} (h : DMul ts e) : ∀ {x : Expr}, e.elab = some x →
    ∀ rest, parseMul (ts ++ rest) = loop mulOp unary (rest.length + 1) x rest := by
  induction h with
  | one hu =>
    intro x hx rest
    unfold parseMul
    rw [unary_elab hu hx rest]
    rfl
  | op o ho _ hub ih =>
    rename_i ts us a b _
    intro x hx rest
    obtain ⟨y, z, h1, h2, h3⟩ := elab_bin hx
    rw [List.append_assoc, ih h1, List.cons_append]
    have hop : mulOp (o.tok :: (us ++ rest)) = some (o, us ++ rest) := by
      cases o <;> first | rfl | cases ho
    rw [loop, hop]
    simp only
    rw [unary_elab hub h2 rest]
    simp only [Option.bind_eq_bind, Option.bind_some, h3]
    exact loop_fuel mul_consumes _ _ _ _ (by simp; omega) (by omega)

/-- No operator follows. -/
def Stop (rest : List Tok) : Prop := mulOp rest = none ∧ addOp rest = none

theorem parseAdd_elab {ts : List Tok} {e : E} (h : DAdd ts e) : ∀ {x : Expr}, e.elab = some x →
    ∀ rest, mulOp rest = none → parseAdd (ts ++ rest) = loop addOp parseMul (rest.length + 1) x rest := by
  have hmul : ∀ {ts : List Tok} {e : E}, DMul ts e → ∀ {x : Expr}, e.elab = some x → ∀ rest,
      mulOp rest = none → parseMul (ts ++ rest) = some (some x, rest) := by
    intro ts e hm x hx rest hr
    rw [parseMul_elab hm hx rest, loop, hr]
  induction h with
  | one hm =>
    intro x hx rest hr
    unfold parseAdd
    rw [hmul hm hx rest hr]
    rfl
  | op o ho _ hmb ih =>
    rename_i ts us a b _
    intro x hx rest hr
    obtain ⟨y, z, h1, h2, h3⟩ := elab_bin hx
    have hno : mulOp ((o.tok :: us) ++ rest) = none := by
      cases o <;> first | rfl | cases ho
    rw [List.append_assoc, ih h1 _ hno, List.cons_append]
    have hop : addOp (o.tok :: (us ++ rest)) = some (o, us ++ rest) := by
      cases o <;> first | rfl | cases ho
    rw [loop, hop]
    simp only
    rw [hmul hmb h2 rest hr]
    simp only [Option.bind_eq_bind, Option.bind_some, h3]
    exact loop_fuel add_consumes _ _ _ _ (by simp; omega) (by omega)

theorem chk_eq {a b : Int} (h : chk a = some b) : b = a := by
  unfold chk at h
  split at h
  · exact (Option.some.inj h).symm
  · cases h

/-- Is the expression a number? -/
def Expr.isFix : Expr → Bool
  | .fixnum _ => true
  | _ => false

theorem combine_node {op : Op} {x y : Expr} (h : ¬ (x.isFix = true ∧ y.isFix = true)) :
    combine op x y = some (op.node x y) := by
  unfold combine
  split
  · exact absurd ⟨rfl, rfl⟩ h
  · rfl

theorem node_notFix (op : Op) (x y : Expr) : (op.node x y).isFix = false := by
  cases op <;> rfl

/-- What is kept of the value of a sub-expression. -/
structure Sound (addr : Nat → Option Int) (env : Nat → Int) (e : E) (x : Expr) (v : Int) : Prop where
  cst : e.const = true → x = .fixnum v
  ncst : e.const = false → x.isFix = false
  val : ∀ w, calcExpr addr x = some w → w.denote env = v

theorem elab_sound {addr : Nat → Option Int} {env : Nat → Int}
    (haddr : ∀ l p, addr l = some p → p = env l) (e : E) : e.Good → ∀ v, e.eval env = some v →
      ∃ x, e.elab = some x ∧ Sound addr env e x v := by
  induction e with
  | label l =>
    intro _ v h
    cases h
    refine ⟨_, rfl, ⟨(fun h => by cases h), fun _ => rfl, fun w hw => ?_⟩⟩
    cases hw; simp [Value.denote]
  | num n =>
    intro _ v h
    cases h
    refine ⟨_, rfl, ⟨fun _ => rfl, (fun h => by cases h), fun w hw => ?_⟩⟩
    cases hw; simp [Value.denote]
  | pos e ih =>
    intro hg v h
    obtain ⟨x, h1, h2⟩ := ih hg v h
    cases hc : e.const with
    | true =>
      have hx := h2.cst hc
      subst hx
      refine ⟨.fixnum v, (by simp [E.elab, h1]), ⟨fun _ => rfl, fun h => ?_, h2.val⟩⟩
      simp only [E.const] at h; rw [hc] at h; cases h
    | false =>
      have hx := h2.ncst hc
      refine ⟨.pos x, (by cases x <;> first | (exact Bool.noConfusion hx) | simp [E.elab, h1]), ⟨fun h => ?_, fun _ => rfl, ?_⟩⟩
      · simp only [E.const] at h; rw [hc] at h; cases h
      · intro w hw
        simp only [calcExpr, Option.bind_eq_bind] at hw
        cases hcx : calcExpr addr x with
        | none => rw [hcx] at hw; cases hw
        | some u =>
          rw [hcx] at hw
          simp only [Option.bind_some] at hw
          split at hw
          · cases hw
          · cases hw; exact h2.val _ hcx
  | neg e ih =>
    intro hg v h
    simp only [E.eval, Option.bind_eq_bind] at h
    cases he : e.eval env with
    | none => rw [he] at h; cases h
    | some u =>
      rw [he] at h
      simp only [Option.bind_some] at h
      have hv := chk_eq h
      obtain ⟨x, h1, h2⟩ := ih hg u he
      cases hc : e.const with
      | true =>
        have hx := h2.cst hc
        subst hx
        refine ⟨.fixnum v, (by simp [E.elab, h1, h]), ⟨fun _ => rfl, fun h => ?_, fun w hw => ?_⟩⟩
        · simp only [E.const] at h; rw [hc] at h; cases h
        · cases hw; simp [Value.denote]
      | false =>
        have hx := h2.ncst hc
        refine ⟨.neg x, (by cases x <;> first | (exact Bool.noConfusion hx) | simp [E.elab, h1]), ⟨fun h => ?_, fun _ => rfl, ?_⟩⟩
        · simp only [E.const] at h; rw [hc] at h; cases h
        · intro w hw
          simp only [calcExpr, Option.bind_eq_bind] at hw
          cases hcx : calcExpr addr x with
          | none => rw [hcx] at hw; cases hw
          | some u' =>
            rw [hcx] at hw
            simp only [Option.bind_some] at hw
            split at hw
            · cases hw
            · rename_i hl
              cases ho : chk (-u'.offset) with
              | none => rw [ho] at hw; cases hw
              | some o =>
                rw [ho] at hw
                cases hw
                have h3 := h2.val u' hcx
                have h4 := chk_eq ho
                simp only [Value.denote, hl] at h3 ⊢
                omega
  | bin op a b iha ihb =>
    intro hg v h
    obtain ⟨ga, gb, g1, g2⟩ := hg
    simp only [E.eval, Option.bind_eq_bind] at h
    cases hea : a.eval env with
    | none => rw [hea] at h; cases h
    | some va =>
      cases heb : b.eval env with
      | none => rw [hea, heb] at h; cases h
      | some vb =>
        rw [hea, heb] at h
        simp only [Option.bind_some] at h
        obtain ⟨x, hx1, hx2⟩ := iha ga va hea
        obtain ⟨y, hy1, hy2⟩ := ihb gb vb heb
        by_cases hcc : a.const = true ∧ b.const = true
        · have hxe := hx2.cst hcc.1
          have hye := hy2.cst hcc.2
          subst hxe hye
          refine ⟨.fixnum v, ?_, ⟨fun _ => rfl, fun h => ?_, fun w hw => ?_⟩⟩
          · simp only [E.elab, hx1, hy1, Option.bind_eq_bind, Option.bind_some]
            cases op with
            | add => simp only at h; simp [combine, h]
            | sub => exact absurd hcc (g1 (.inl rfl))
            | mul => simp only at h; simp [combine, h]
            | div => exact absurd hcc (g1 (.inr rfl))
          · simp only [E.const] at h; rw [hcc.1, hcc.2] at h; cases h
          · cases hw; simp [Value.denote]
        · have hnf : ¬ (x.isFix = true ∧ y.isFix = true) := by
            rintro ⟨h1, h2⟩
            refine hcc ⟨?_, ?_⟩
            · cases hc : a.const with
              | true => rfl
              | false => rw [hx2.ncst hc] at h1; cases h1
            · cases hc : b.const with
              | true => rfl
              | false => rw [hy2.ncst hc] at h2; cases h2
          refine ⟨op.node x y, ?_, ⟨fun h => ?_, fun _ => node_notFix _ _ _, ?_⟩⟩
          · simp only [E.elab, hx1, hy1, Option.bind_eq_bind, Option.bind_some]
            exact combine_node hnf
          · simp only [E.const, Bool.and_eq_true] at h; exact absurd h hcc
          · intro w hw
            -- the two values
            have hcalc : ∃ p q, calcExpr addr x = some p ∧ calcExpr addr y = some q := by
              cases hp : calcExpr addr x with
              | none => cases op <;> (simp only [Op.node, calcExpr, hp, Option.bind_eq_bind] at hw; cases hw)
              | some p =>
                cases hq : calcExpr addr y with
                | none => cases op <;> (simp only [Op.node, calcExpr, hp, hq, Option.bind_eq_bind] at hw; cases hw)
                | some q => exact ⟨p, q, rfl, rfl⟩
            obtain ⟨p, q, hp, hq⟩ := hcalc
            have hpv := hx2.val p hp
            have hqv := hy2.val q hq
            obtain ⟨pl, po⟩ := p
            obtain ⟨ql, qo⟩ := q
            have hone : ∀ {l : Option Nat} {z : Int} {w : Value},
                ((chk z).bind fun o => some (⟨l, o⟩ : Value)) = some w → w = ⟨l, z⟩ := by
              intro l z w hz
              cases ho : chk z with
              | none => rw [ho] at hz; cases hz
              | some o =>
                rw [ho] at hz
                have := chk_eq ho
                subst this
                exact (Option.some.inj hz).symm
            cases op with
            | add =>
              have hv := chk_eq h
              simp only [Op.node, calcExpr, hp, hq, Option.bind_eq_bind, Option.bind_some] at hw
              cases pl <;> cases ql <;> simp only [reduceCtorEq] at hw
              all_goals
                have := hone hw
                subst this
                simp only [Value.denote] at hpv hqv ⊢
                omega
            | sub =>
              have hv := chk_eq h
              simp only [Op.node, calcExpr, hp, hq, Option.bind_eq_bind, Option.bind_some] at hw
              rcases g2 rfl with hbc | ⟨hal, hbl⟩
              · have hye := hy2.cst hbc
                rw [hye] at hq
                cases hq
                cases pl <;> simp only [reduceCtorEq] at hw
                have := hone hw
                subst this
                simp only [Value.denote] at hpv hqv ⊢
                omega
              · cases a <;> simp only [E.isLabel, Bool.false_eq_true] at hal
                cases b <;> simp only [E.isLabel, Bool.false_eq_true] at hbl
                rename_i l m
                cases hx1
                cases hy1
                cases hp
                cases hq
                cases hea
                cases heb
                simp only at hw
                cases h1 : addr l with
                | none => rw [h1] at hw; cases hw
                | some p1 =>
                  cases h2 : addr m with
                  | none => rw [h1, h2] at hw; cases hw
                  | some p2 =>
                    rw [h1, h2] at hw
                    cases hw
                    have := haddr l p1 h1
                    have := haddr m p2 h2
                    simp only [Value.denote]
                    omega
            | mul =>
              have hv := chk_eq h
              simp only [Op.node, calcExpr, hp, hq, Option.bind_eq_bind, Option.bind_some] at hw
              cases pl <;> cases ql <;> simp only [reduceCtorEq] at hw
              have := hone hw
              subst this
              simp only [Value.denote, Int.zero_add] at hpv hqv ⊢
              rw [hv, ← hpv, ← hqv]
            | div =>
              simp only [Op.node, calcExpr, hp, hq, Option.bind_eq_bind, Option.bind_some] at hw
              cases pl <;> cases ql <;> simp only [reduceCtorEq] at hw
              simp only [Value.denote, Int.zero_add] at hpv hqv
              subst hpv hqv
              split at hw
              · cases hw
              · rename_i hne
                have := hone hw
                subst this
                simp only [hne, if_false] at h
                have hv := chk_eq h
                simp only [Value.denote, Int.zero_add]
                exact hv.symm

/-- **C37**: an expression of the grammar (with `*` and `/` binding tighter, all operators left
associative) is parsed, up to the first token that cannot continue it; a constant one is folded to
its value; for one with labels the value computed from the label table is right whenever the
assembler accepts it. Missing for the full claim: differences and quotients of two constants and
differences of labels with offsets, on which the code is wrong (see the findings below). -/
theorem expr_correct_partial {addr : Nat → Option Int} {env : Nat → Int}
    (haddr : ∀ l p, addr l = some p → p = env l) {ts rest : List Tok} {e : E} (hd : DAdd ts e)
    (hgood : e.Good) {v : Int} (hv : e.eval env = some v) (hstop : Stop rest) :
    ∃ x, parseAdd (ts ++ rest) = some (some x, rest) ∧ (e.const = true → x = .fixnum v) ∧
      ∀ w, calcExpr addr x = some w → w.denote env = v := by
  obtain ⟨x, h1, h2⟩ := elab_sound haddr e hgood v hv
  refine ⟨x, ?_, h2.cst, h2.val⟩
  rw [parseAdd_elab hd h1 rest hstop.1, loop, hstop.2]

/-- Concrete case: `2*3+tbl`. -/
example : ∃ e, DAdd [.num 2, .mul, .num 3, .add, .label 0] e ∧ e.Good ∧
    e.eval (fun _ => 100) = some 106 :=
  ⟨.bin .add (.bin .mul (.num 2) (.num 3)) (.label 0),
    .op (ts := [.num 2, .mul, .num 3]) (us := [.label 0]) .add rfl
      (.one (.op (ts := [.num 2]) (us := [.num 3]) .mul rfl (.one (.num 2)) (.num 3)))
      (.one (.label 0)),
    by simp [E.Good, E.const, E.isLabel], by decide⟩

/-- Forms the compiler emits are accepted: `label`, `label + n`, `n + label`. -/
theorem label_plus_accepted (addr : Nat → Option Int) (l : Nat) (n : Int) (hn : chk n = some n) :
    (parseAdd [.label l]).bind (fun p => p.1.bind (calcExpr addr)) = some ⟨some l, 0⟩ ∧
    (parseAdd [.label l, .add, .num n]).bind (fun p => p.1.bind (calcExpr addr)) = some ⟨some l, n⟩ ∧
    (parseAdd [.num n, .add, .label l]).bind (fun p => p.1.bind (calcExpr addr)) = some ⟨some l, n⟩ := by
  have h0 : chk (0 + n) = some n := by rw [Int.zero_add]; exact hn
  have h1 : chk (n + 0) = some n := by rw [Int.add_zero]; exact hn
  refine ⟨rfl, ?_, ?_⟩
  · simp [parseAdd, parseMul, unary, prim, loop, mulOp, addOp, combine, Op.node, calcExpr, hn]
  · simp [parseAdd, parseMul, unary, prim, loop, mulOp, addOp, combine, Op.node, calcExpr, hn]

/-- **Finding**: `5-3` is 8. -/
theorem sub_wrong : parseAdd [.num 5, .sub, .num 3] = some (some (.fixnum 8), []) := by decide

/-- **Finding**: `8/2` is 10. -/
theorem div_wrong : parseAdd [.num 8, .div, .num 2] = some (some (.fixnum 10), []) := by decide

/-- **Finding**: `a+4-b` is `a-b`. -/
theorem label_difference_drops_offset (addr : Nat → Option Int) (p q : Int) (hp : addr 0 = some p)
    (hq : addr 1 = some q) :
    (parseAdd [.label 0, .add, .num 4, .sub, .label 1]).bind (fun r => r.1.bind (calcExpr addr)) =
      some ⟨none, p - q⟩ := by
  have : parseAdd [.label 0, .add, .num 4, .sub, .label 1] =
      some (some (.sub (.add (.label 0) (.fixnum 4)) (.label 1)), []) := by decide
  have h4 : chk (0 + 4) = some 4 := by decide
  rw [this]
  simp only [Option.bind_some, calcExpr, Option.bind_eq_bind, h4, hp, hq]

/-! ### Data directives -/

/-- parse_asm.c:928-950: the bytes of `.byte`, `.short`, `.long`, `.quad` (`dir` = 0, 1, 2, 3) with a
constant: `buf[i] = value >> (8 * i)`. -/
def dataBytes (dir : Nat) (value : Int) : List Nat :=
  (List.range (1 <<< dir)).map (fun i => ((value >>> (8 * i)) % 256).toNat)

/-- Value of bytes in little-endian order. -/
def leValue : List Nat → Int
  | [] => 0
  | b :: bs => b + 256 * leValue bs

theorem leBytes_value (n : Nat) (v : Int) :
    leValue ((List.range n).map (fun i => ((v >>> (8 * i)) % 256).toNat)) = v % 256 ^ n := by
  induction n generalizing v with
  | zero => simp [leValue, Int.emod_one]
  | succ n ih =>
    rw [List.range_succ_eq_map, List.map_cons, List.map_map, leValue]
    have hshift : ((fun i => ((v >>> (8 * i)) % 256).toNat) ∘ Nat.succ) =
        (fun i => (((v / 256) >>> (8 * i)) % 256).toNat) := by
      funext i
      have hp : (2 : Nat) ^ (8 * Nat.succ i) = 256 * 2 ^ (8 * i) := by
        rw [Nat.succ_eq_add_one, Nat.mul_add, Nat.pow_add, Nat.mul_comm]
      simp only [Function.comp, Int.shiftRight_eq_div_pow, hp]
      rw [Int.natCast_mul, ← Int.ediv_ediv_of_nonneg (by decide)]
      rfl
    rw [hshift, ih]
    have h0 : ((v >>> (8 * 0)) % 256).toNat = (v % 256).toNat := by simp
    rw [h0]
    have h1 : ((v % 256).toNat : Int) = v % 256 := by omega
    rw [h1, Int.pow_succ, Int.mul_comm (256 ^ n) 256]
    have hpos : (0 : Int) < 256 ^ n := Int.pow_pos (by decide)
    have h2 : v = 256 * (v / 256) + v % 256 := by omega
    have h3 := Int.mul_ediv_add_emod (v / 256) (256 ^ n)
    have h4 := Int.emod_nonneg (v / 256) (Int.ne_of_gt hpos)
    have h5 := Int.emod_lt_of_pos (v / 256) hpos
    have h6 : v = (v % 256 + 256 * (v / 256 % 256 ^ n)) + 256 * 256 ^ n * (v / 256 / 256 ^ n) := by
      rw [Int.mul_assoc]; omega
    have h7 : v % (256 * 256 ^ n) =
        (v % 256 + 256 * (v / 256 % 256 ^ n)) % (256 * 256 ^ n) := by
      conv => lhs; rw [h6]
      rw [Int.add_mul_emod_self_left]
    rw [h7]
    exact (Int.emod_eq_of_lt (by omega) (by omega)).symm

/-- **C42**: a data directive with a constant emits exactly 1, 2, 4, 8 bytes, whose little-endian value
is the constant modulo 2^8, 2^16, 2^32, 2^64. -/
theorem dataBytes_correct (dir : Nat) (v : Int) :
    (dataBytes dir v).length = 2 ^ dir ∧ (∀ b ∈ dataBytes dir v, b < 256) ∧
    leValue (dataBytes dir v) = v % 2 ^ (8 * 2 ^ dir) := by
  have hs : 1 <<< dir = 2 ^ dir := by rw [Nat.shiftLeft_eq, Nat.one_mul]
  refine ⟨by simp [dataBytes, hs], ?_, ?_⟩
  · intro b hb
    simp only [dataBytes, List.mem_map] at hb
    obtain ⟨i, _, rfl⟩ := hb
    omega
  · unfold dataBytes
    rw [leBytes_value, hs, Int.pow_mul]
    rfl

example : dataBytes 2 (-2) = [254, 255, 255, 255] := by decide

end Verif.AsmExpr

/-
Code generation for statements and conditions (C55).

Models /repo/src/cc/backend/codegen.c:25-60, 304-385, 499-664, 878-931 (`set_curbb`, `gen_stmt` and the
functions for each statement, `gen_defun`), /repo/src/cc/backend/codegen_expr.c:57-171, 308-335, 609-660,
662-705, 721-752 (`gen_compare_expr`, `gen_cond_jmp`, `gen_ternary`, `gen_assign_sub`, `gen_expr_incdec`,
`gen_relation`, `gen_expr_logandor`), and what the parser does to conditions: `make_cond`, `make_not_expr`
(/repo/src/cc/frontend/fe_misc.c:1292-1358, 1402-1459), /repo/src/cc/frontend/parser_expr.c:470-485, 515-520.

The blocks of a function, in the order of `set_curbb`, are one list of instructions in which a block
begins with its label; falling off a block's end is going on in the list.

Simplifications: values, memory and the operations on them (arithmetic, loads, stores, calls, parameter
passing) are arbitrary functions; operations are not folded (see `Verif.Fold`); the dispatch of a
`switch` is one instruction (see `Verif.Switch`); comparisons are those of integers and pointers;
statement expressions, inlined functions and inline assembler are left out; the operand of a condition is
not an array or function.
-/
import Mathlib.Data.List.Nodup
import Mathlib.Data.List.Basic

namespace Verif.StmtGen

/-! ### Values and operations -/

/-- The machine: values `V`, the rest of the world `W` (memory, output), operations `F` and
relations `R`. -/
structure Mach where
  V : Type
  W : Type
  F : Type
  R : Type
  un : F → V → W → V × W
  bin : F → V → V → W → V × W
  rel : R → V → V → Bool
  swap : R → R
  inv : R → R
  eq : R
  ne : R
  zero : V
  ofBool : Bool → V

/-- The laws of comparisons. -/
structure Mach.Ok (M : Mach) : Prop where
  swap : ∀ r a b, M.rel (M.swap r) b a = M.rel r a b
  inv : ∀ r a b, M.rel (M.inv r) a b = !M.rel r a b
  eq : ∀ a b, M.rel M.eq a b = !M.rel M.ne a b
  bool : ∀ b, M.rel M.ne (M.ofBool b) M.zero = b

variable {M : Mach}

/-- Is the value not 0? -/
def Mach.truth (M : Mach) (v : M.V) : Bool := M.rel M.ne v M.zero

/-- Expressions.  Variables are the local ones that live in a virtual register; `inc` is `++`/`--` of
one of them, after or before which it gives its value. -/
inductive Ex (M : Mach) where
  | const (v : M.V)
  | var (x : Nat)
  | un (f : M.F) (a : Ex M)
  | bin (f : M.F) (a b : Ex M)
  | assign (x : Nat) (a : Ex M)
  | inc (post : Bool) (f : M.F) (x : Nat)
  | rel (r : M.R) (a b : Ex M)
  | not (a : Ex M)
  | and (a b : Ex M)
  | or (a b : Ex M)
  | tern (c a b : Ex M)
  | comma (a b : Ex M)

/-- Labels of blocks: of the program, of a `case` (`case_.bb`), made by the generator, or the end of the
function (`ret_bb`). -/
inductive Lb where
  | user (l : Nat)
  | case (i : Nat)
  | tmp (n : Nat)
  | ret
deriving DecidableEq

/-- Statements.  The `case` statements of a function have different numbers (they are different
objects). -/
inductive St (M : Mach) where
  | skip
  | expr (e : Ex M)
  | seq (a b : St M)
  | ite (c : Ex M) (a : St M)
  | itee (c : Ex M) (a b : St M)
  | while (c : Ex M) (a : St M)
  | doWhile (a : St M) (c : Ex M)
  | for (pre c post : Option (Ex M)) (a : St M)
  | break
  | continue
  | ret (e : Option (Ex M))
  | goto (l : Nat)
  | label (l : Nat) (a : St M)
  | switch (e : Ex M) (a : St M)
  | case (i : Nat) (v : Option M.V) (a : St M)

/-! ### Model: the parser's treatment of conditions -/

/-- `make_cond`, fe_misc.c:1402-1442. -/
def mkCond : Ex M → Ex M
  | .const v => .const (M.ofBool (M.truth v))
  | .rel r a b => .rel r a b
  | .and a b => .and a b
  | .or a b => .or a b
  | .comma a b => .comma a (mkCond b)
  | e => .rel M.ne e (.const M.zero)

/-- `make_not_expr`, fe_misc.c:1444-1459, with the part of `new_expr_cmp` for a comparison with 0,
:1292-1354: comparisons are inverted, `&&` and `||` exchanged. -/
def mkNot : Ex M → Ex M
  | .const v => .const (M.ofBool (!M.truth v))
  | .rel r a b => .rel (M.inv r) a b
  | .and a b => .or (mkNot a) (mkNot b)
  | .or a b => .and (mkNot a) (mkNot b)
  | e => .rel M.eq e (.const M.zero)

/-- parser_expr.c:470-477. -/
def mkAnd (a b : Ex M) : Ex M :=
  match a with
  | .const v => if M.truth v then b else .const v
  | a => .and a b
def mkOr (a b : Ex M) : Ex M :=
  match a with
  | .const v => if M.truth v then .const v else b
  | a => .or a b
/-- parser_expr.c:515-519. -/
def mkTern (c a b : Ex M) : Ex M :=
  match c with
  | .const v => if M.truth v then a else b
  | c => .tern c a b
/-- parser_expr.c:478-481. -/
def mkComma (a b : Ex M) : Ex M :=
  match a with
  | .const _ => b
  | a => .comma a b

/-- The expression the parser makes. -/
def parse : Ex M → Ex M
  | .const v => .const v
  | .var x => .var x
  | .un f a => .un f (parse a)
  | .bin f a b => .bin f (parse a) (parse b)
  | .assign x a => .assign x (parse a)
  | .inc p f x => .inc p f x
  | .rel r a b => .rel r (parse a) (parse b)
  | .not a => mkNot (parse a)
  | .and a b => mkAnd (mkCond (parse a)) (mkCond (parse b))
  | .or a b => mkOr (mkCond (parse a)) (mkCond (parse b))
  | .tern c a b => mkTern (mkCond (parse c)) (parse a) (parse b)
  | .comma a b => mkComma (parse a) (parse b)

/-! ### Model: the generated code -/

inductive Opr (M : Mach) where
  | imm (v : M.V)
  | reg (r : Nat)

/-- Instructions; `lab` begins a block, `fail` is a failed assertion of the generator. -/
inductive Ins (M : Mach) where
  | lab (b : Lb)
  | jmp (b : Lb)
  | cjmp (r : M.R) (a b : Opr M) (t : Lb)
  | mov (d : Nat) (a : Opr M)
  | un (f : M.F) (d : Nat) (a : Opr M)
  | bin (f : M.F) (d : Nat) (a b : Opr M)
  | cond (r : M.R) (d : Nat) (a b : Opr M)
  | result (a : Opr M)
  | sw (a : Opr M) (tbl : List (M.V × Lb)) (d : Lb)
  | fail

/-- The next block and the next register. -/
structure Fresh where
  n : Nat
  m : Nat

/-- What generating an expression gives. -/
structure OutE (M : Mach) where
  code : List (Ins M)
  opr : Opr M
  s : Fresh

/-- What generating a statement or a condition gives. -/
structure Out (M : Mach) where
  code : List (Ins M)
  s : Fresh

/-- The operands of a comparison, `gen_compare_expr` (codegen_expr.c:60-128): known, or with a constant
on the right. -/
inductive Cmp (M : Mach) where
  | known (b : Bool)
  | ask (r : M.R) (a b : Opr M)

def mkCmp (r : M.R) : Opr M → Opr M → Cmp M
  | .imm v, .imm w => .known (M.rel r v w)
  | .imm v, .reg x => .ask (M.swap r) (.reg x) (.imm v)
  | a, b => .ask r a b

/-- The conditional jump, codegen_expr.c:143-146 and ir.c `new_ir_cjmp`. -/
def Cmp.jmp : Cmp M → Lb → List (Ins M)
  | .known true, t => [.jmp t]
  | .known false, _ => []
  | .ask r a b, t => [.cjmp r a b t]

mutual
/-- `gen_expr`: `gen_ternary` (codegen_expr.c:308-335), `gen_comma` (:609-612), `gen_assign_sub`
(:614-624), `gen_expr_incdec` (:662-705), `gen_relation` (:721-730), `gen_expr_logandor` (:732-746). -/
def genE : Ex M → Fresh → OutE M
  | .const v, s => ⟨[], .imm v, s⟩
  | .var x, s => ⟨[], .reg x, s⟩
  | .un f a, s =>
    let o := genE a s
    ⟨o.code ++ [.un f o.s.m o.opr], .reg o.s.m, ⟨o.s.n, o.s.m + 1⟩⟩
  | .bin f a b, s =>
    let o1 := genE a s
    let o2 := genE b o1.s
    ⟨o1.code ++ o2.code ++ [.bin f o2.s.m o1.opr o2.opr], .reg o2.s.m, ⟨o2.s.n, o2.s.m + 1⟩⟩
  | .assign x a, s =>
    let o := genE a s
    ⟨o.code ++ [.mov x o.opr], o.opr, o.s⟩
  | .inc post f x, s =>
    if post then
      ⟨[.mov s.m (.reg x), .un f (s.m + 1) (.reg x), .mov x (.reg (s.m + 1))], .reg s.m, ⟨s.n, s.m + 2⟩⟩
    else ⟨[.un f s.m (.reg x), .mov x (.reg s.m)], .reg s.m, ⟨s.n, s.m + 1⟩⟩
  | .rel r a b, s =>
    let o1 := genE a s
    let o2 := genE b o1.s
    match mkCmp r o1.opr o2.opr with
    | .known v => ⟨o1.code ++ o2.code, .imm (M.ofBool v), o2.s⟩
    | .ask r x y => ⟨o1.code ++ o2.code ++ [.cond r o2.s.m x y], .reg o2.s.m, ⟨o2.s.n, o2.s.m + 1⟩⟩
  | .not _, s => ⟨[.fail], .imm M.zero, s⟩
  | .and a b, s =>
    let o1 := genC a (.tmp (s.n + 3)) (.tmp (s.n + 1)) ⟨s.n + 4, s.m⟩
    let o2 := genC b (.tmp s.n) (.tmp (s.n + 1)) o1.s
    ⟨o1.code ++ [.lab (.tmp (s.n + 3))] ++ o2.code ++ [.lab (.tmp s.n), .mov o2.s.m (.imm (M.ofBool true)),
      .jmp (.tmp (s.n + 2)), .lab (.tmp (s.n + 1)), .mov o2.s.m (.imm (M.ofBool false)),
      .lab (.tmp (s.n + 2))], .reg o2.s.m, ⟨o2.s.n, o2.s.m + 1⟩⟩
  | .or a b, s =>
    let o1 := genC a (.tmp s.n) (.tmp (s.n + 3)) ⟨s.n + 4, s.m⟩
    let o2 := genC b (.tmp s.n) (.tmp (s.n + 1)) o1.s
    ⟨o1.code ++ [.lab (.tmp (s.n + 3))] ++ o2.code ++ [.lab (.tmp s.n), .mov o2.s.m (.imm (M.ofBool true)),
      .jmp (.tmp (s.n + 2)), .lab (.tmp (s.n + 1)), .mov o2.s.m (.imm (M.ofBool false)),
      .lab (.tmp (s.n + 2))], .reg o2.s.m, ⟨o2.s.n, o2.s.m + 1⟩⟩
  | .tern c a b, s =>
    let o0 := genC c (.tmp s.n) (.tmp (s.n + 1)) ⟨s.n + 3, s.m + 1⟩
    let o1 := genE a o0.s
    let o2 := genE b o1.s
    ⟨o0.code ++ [.lab (.tmp s.n)] ++ o1.code ++ [.mov s.m o1.opr, .jmp (.tmp (s.n + 2)), .lab (.tmp (s.n + 1))] ++
      o2.code ++ [.mov s.m o2.opr, .lab (.tmp (s.n + 2))], .reg s.m, o2.s⟩
  | .comma a b, s =>
    let o1 := genE a s
    let o2 := genE b o1.s
    ⟨o1.code ++ o2.code, o2.opr, o2.s⟩
/-- `gen_cond_jmp`, codegen_expr.c:130-171. -/
def genC : Ex M → Lb → Lb → Fresh → Out M
  | .const v, t, f, s => ⟨[.jmp (if M.truth v then t else f)], s⟩
  | .rel r a b, t, f, s =>
    let o1 := genE a s
    let o2 := genE b o1.s
    ⟨o1.code ++ o2.code ++ (mkCmp r o1.opr o2.opr).jmp t ++ [.lab (.tmp o2.s.n), .jmp f], ⟨o2.s.n + 1, o2.s.m⟩⟩
  | .and a b, t, f, s =>
    let o1 := genC a (.tmp s.n) f ⟨s.n + 1, s.m⟩
    let o2 := genC b t f o1.s
    ⟨o1.code ++ [.lab (.tmp s.n)] ++ o2.code, o2.s⟩
  | .or a b, t, f, s =>
    let o1 := genC a t (.tmp s.n) ⟨s.n + 1, s.m⟩
    let o2 := genC b t f o1.s
    ⟨o1.code ++ [.lab (.tmp s.n)] ++ o2.code, o2.s⟩
  | .comma a b, t, f, s =>
    let o1 := genE a s
    let o2 := genC b t f o1.s
    ⟨o1.code ++ o2.code, o2.s⟩
  | _, _, _, s => ⟨[.fail], s⟩
end

/-- `s_break_bb`, `s_continue_bb`. -/
structure Ctx where
  brk : Option Lb
  cont : Option Lb

/-- The cases of a `switch` in the order of `switch_.cases` (parser.c:395-397), not those of one
inside. -/
def cases : St M → List (Option M.V × Nat)
  | .seq a b => cases a ++ cases b
  | .ite _ a => cases a
  | .itee _ a b => cases a ++ cases b
  | .while _ a => cases a
  | .doWhile a _ => cases a
  | .for _ _ _ a => cases a
  | .label _ a => cases a
  | .case i v a => (v, i) :: cases a
  | _ => []

/-- The cases with a value. -/
def table (cs : List (Option M.V × Nat)) : List (M.V × Lb) :=
  cs.filterMap fun c => c.1.map fun v => (v, Lb.case c.2)

/-- The `default` label (parser.c:398-399: the last one; there is at most one). -/
def dflt (cs : List (Option M.V × Nat)) (brk : Lb) : Lb :=
  match cs.find? fun c => c.1.isNone with
  | some c => .case c.2
  | none => brk

/-- A jump out, and a block for what follows, codegen.c:592-612. -/
def leave (b : Option Lb) (s : Fresh) : Out M :=
  match b with
  | some b => ⟨[.jmp b, .lab (.tmp s.n)], ⟨s.n + 1, s.m⟩⟩
  | none => ⟨[.fail], s⟩

/-- An optional expression. -/
def genO : Option (Ex M) → Fresh → Out M
  | some e, s => let o := genE (parse e) s; ⟨o.code, o.s⟩
  | none, s => ⟨[], s⟩

/-- The condition of a loop, codegen.c:581-584. -/
def genT : Option (Ex M) → Lb → Lb → Fresh → Out M
  | some c, t, f, s => genC (mkCond (parse c)) t f s
  | none, t, _, s => ⟨[.jmp t], s⟩

/-- `gen_stmt`, codegen.c:304-385 and 499-664.  The conditions are those of `parse_if` ...,
parser.c:339, 413, 441, 473. -/
def genS (k : Ctx) : St M → Fresh → Out M
  | .skip, s => ⟨[], s⟩
  | .expr e, s => let o := genE (parse e) s; ⟨o.code, o.s⟩
  | .seq a b, s =>
    let o1 := genS k a s
    let o2 := genS k b o1.s
    ⟨o1.code ++ o2.code, o2.s⟩
  | .ite c a, s =>
    let o0 := genC (mkCond (parse c)) (.tmp s.n) (.tmp (s.n + 1)) ⟨s.n + 2, s.m⟩
    let o1 := genS k a o0.s
    ⟨o0.code ++ [.lab (.tmp s.n)] ++ o1.code ++ [.lab (.tmp (s.n + 1))], o1.s⟩
  | .itee c a b, s =>
    let o0 := genC (mkCond (parse c)) (.tmp s.n) (.tmp (s.n + 1)) ⟨s.n + 2, s.m⟩
    let o1 := genS k a o0.s
    let o2 := genS k b ⟨o1.s.n + 1, o1.s.m⟩
    ⟨o0.code ++ [.lab (.tmp s.n)] ++ o1.code ++ [.jmp (.tmp o1.s.n), .lab (.tmp (s.n + 1))] ++ o2.code ++
      [.lab (.tmp o1.s.n)], o2.s⟩
  | .while c a, s =>
    let o1 := genS ⟨some (.tmp (s.n + 2)), some (.tmp (s.n + 1))⟩ a ⟨s.n + 3, s.m⟩
    let o2 := genC (mkCond (parse c)) (.tmp s.n) (.tmp (s.n + 2)) o1.s
    ⟨[.jmp (.tmp (s.n + 1)), .lab (.tmp s.n)] ++ o1.code ++ [.lab (.tmp (s.n + 1))] ++ o2.code ++
      [.lab (.tmp (s.n + 2))], o2.s⟩
  | .doWhile a c, s =>
    let o1 := genS ⟨some (.tmp (s.n + 2)), some (.tmp (s.n + 1))⟩ a ⟨s.n + 3, s.m⟩
    let o2 := genC (mkCond (parse c)) (.tmp s.n) (.tmp (s.n + 2)) o1.s
    ⟨[.lab (.tmp s.n)] ++ o1.code ++ [.lab (.tmp (s.n + 1))] ++ o2.code ++ [.lab (.tmp (s.n + 2))], o2.s⟩
  | .for pre c post a, s =>
    let o0 := genO pre ⟨s.n + 4, s.m⟩
    let o1 := genS ⟨some (.tmp (s.n + 3)), some (.tmp (s.n + 1))⟩ a o0.s
    let o2 := genO post o1.s
    let o3 := genT c (.tmp s.n) (.tmp (s.n + 3)) o2.s
    ⟨o0.code ++ [.jmp (.tmp (s.n + 2)), .lab (.tmp s.n)] ++ o1.code ++ [.lab (.tmp (s.n + 1))] ++ o2.code ++
      [.lab (.tmp (s.n + 2))] ++ o3.code ++ [.lab (.tmp (s.n + 3))], o3.s⟩
  | .break, s => leave k.brk s
  | .continue, s => leave k.cont s
  | .ret none, s => leave (some .ret) s
  | .ret (some e), s =>
    let o := genE (parse e) ⟨s.n + 1, s.m⟩
    ⟨o.code ++ [.result o.opr, .jmp .ret, .lab (.tmp s.n)], o.s⟩
  | .goto l, s => leave (some (.user l)) s
  | .label l a, s =>
    let o := genS k a s
    ⟨[.lab (.user l)] ++ o.code, o.s⟩
  | .switch e a, s =>
    let o0 := genE (parse e) ⟨s.n + 1, s.m⟩
    let o1 := genS ⟨some (.tmp s.n), k.cont⟩ a ⟨o0.s.n + 1, o0.s.m⟩
    ⟨o0.code ++ [.sw o0.opr (table (cases a)) (dflt (cases a) (.tmp s.n)), .lab (.tmp o0.s.n)] ++ o1.code ++
      [.lab (.tmp s.n)], o1.s⟩
  | .case i _ a, s =>
    let o := genS k a s
    ⟨[.lab (.case i)] ++ o.code, o.s⟩

/-- `gen_defun`, codegen.c:878-931: registers below `nv` belong to variables. -/
def genF (nv : Nat) (a : St M) : List (Ins M) := (genS ⟨none, none⟩ a ⟨0, nv⟩).code ++ [.lab .ret]

/-! ### Execution of the generated code -/

abbrev Env (M : Mach) := Nat → M.V

def set (r : Env M) (x : Nat) (v : M.V) : Env M := fun y => if y = x then v else r y

def Opr.val (r : Env M) : Opr M → M.V
  | .imm v => v
  | .reg x => r x

/-- Is it the beginning of the block? -/
def isLab (b : Lb) : Ins M → Bool
  | .lab c => c = b
  | _ => false

/-- Where a block begins. -/
def find (C : List (Ins M)) (b : Lb) : Option Nat := C.findIdx? (isLab b)

/-- The machine between two instructions; `res` is the result of the function. -/
structure Conf (M : Mach) where
  pc : Nat
  r : Env M
  w : M.W
  res : Option M.V

/-- The label a `switch` goes to. -/
def pick (M : Mach) (v : M.V) (tbl : List (M.V × Lb)) (d : Lb) : Lb :=
  match tbl.find? fun c => M.rel M.eq v c.1 with
  | some c => c.2
  | none => d

/-- One instruction; `none` at the end, or at a missing label or failed assertion. -/
def exec (C : List (Ins M)) (t : Conf M) : Option (Conf M) :=
  match C[t.pc]? with
  | none => none
  | some i =>
    match i with
    | .lab _ => some { t with pc := t.pc + 1 }
    | .jmp b => (find C b).map fun p => { t with pc := p }
    | .cjmp r a b l =>
      if M.rel r (a.val t.r) (b.val t.r) then (find C l).map fun p => { t with pc := p }
      else some { t with pc := t.pc + 1 }
    | .mov d a => some { t with pc := t.pc + 1, r := set t.r d (a.val t.r) }
    | .un f d a =>
      let x := M.un f (a.val t.r) t.w
      some { t with pc := t.pc + 1, r := set t.r d x.1, w := x.2 }
    | .bin f d a b =>
      let x := M.bin f (a.val t.r) (b.val t.r) t.w
      some { t with pc := t.pc + 1, r := set t.r d x.1, w := x.2 }
    | .cond r d a b =>
      some { t with pc := t.pc + 1, r := set t.r d (M.ofBool (M.rel r (a.val t.r) (b.val t.r))) }
    | .result a => some { t with pc := t.pc + 1, res := some (a.val t.r) }
    | .sw a tbl d => (find C (pick M (a.val t.r) tbl d)).map fun p => { t with pc := p }
    | .fail => none

/-! ### Specification: the meaning of expressions and statements (6.5, 6.8) -/

/-- The value of an expression and its effects on the local variables and the world. -/
def eval : Ex M → Env M → M.W → M.V × Env M × M.W
  | .const v, ρ, w => (v, ρ, w)
  | .var x, ρ, w => (ρ x, ρ, w)
  | .un f a, ρ, w =>
    let x := eval a ρ w
    let y := M.un f x.1 x.2.2
    (y.1, x.2.1, y.2)
  | .bin f a b, ρ, w =>
    let x := eval a ρ w
    let y := eval b x.2.1 x.2.2
    let z := M.bin f x.1 y.1 y.2.2
    (z.1, y.2.1, z.2)
  | .assign x a, ρ, w =>
    let y := eval a ρ w
    (y.1, set y.2.1 x y.1, y.2.2)
  | .inc post f x, ρ, w =>
    let y := M.un f (ρ x) w
    (if post then ρ x else y.1, set ρ x y.1, y.2)
  | .rel r a b, ρ, w =>
    let x := eval a ρ w
    let y := eval b x.2.1 x.2.2
    (M.ofBool (M.rel r x.1 y.1), y.2)
  | .not a, ρ, w =>
    let x := eval a ρ w
    (M.ofBool (!M.truth x.1), x.2)
  | .and a b, ρ, w =>
    let x := eval a ρ w
    if M.truth x.1 then
      let y := eval b x.2.1 x.2.2
      (M.ofBool (M.truth y.1), y.2)
    else (M.ofBool false, x.2)
  | .or a b, ρ, w =>
    let x := eval a ρ w
    if M.truth x.1 then (M.ofBool true, x.2)
    else
      let y := eval b x.2.1 x.2.2
      (M.ofBool (M.truth y.1), y.2)
  | .tern c a b, ρ, w =>
    let x := eval c ρ w
    if M.truth x.1 then eval a x.2.1 x.2.2 else eval b x.2.1 x.2.2
  | .comma a b, ρ, w =>
    let x := eval a ρ w
    eval b x.2.1 x.2.2

/-- What remains to be done after a statement. -/
inductive Cont (M : Mach) where
  | stop
  | seq (a : St M) (k : Cont M)
  | while (c : Ex M) (a : St M) (k : Cont M)
  | doWhile (a : St M) (c : Ex M) (k : Cont M)
  | for (c post : Option (Ex M)) (a : St M) (k : Cont M)
  | switch (k : Cont M)

inductive State (M : Mach) where
  | run (a : St M) (k : Cont M) (ρ : Env M) (w : M.W)
  | done (v : Option M.V) (w : M.W)

/-- What follows the innermost loop or `switch`. -/
def Cont.out : Cont M → Option (Cont M)
  | .stop => none
  | .seq _ k => k.out
  | .while _ _ k => some k
  | .doWhile _ _ k => some k
  | .for _ _ _ k => some k
  | .switch k => some k

/-- The end of the body of the innermost loop. -/
def Cont.next : Cont M → Option (Cont M)
  | .stop => none
  | .seq _ k => k.next
  | .switch k => k.next
  | k => some k

/-- The statement a label is put on, and what follows it. -/
def St.at (b : Lb) : St M → Cont M → Option (St M × Cont M)
  | .seq a c, k => (a.at b (.seq c k)).or (c.at b k)
  | .ite _ a, k => a.at b k
  | .itee _ a c, k => (a.at b k).or (c.at b k)
  | .while c a, k => a.at b (.while c a k)
  | .doWhile a c, k => a.at b (.doWhile a c k)
  | .for _ c post a, k => a.at b (.for c post a k)
  | .label l a, k => if b = .user l then some (a, k) else a.at b k
  | .case i _ a, k => if b = .case i then some (a, k) else a.at b k
  | .switch _ a, k => a.at b (.switch k)
  | _, _ => none

/-- An optional expression, evaluated for its effects. -/
def evalO : Option (Ex M) → Env M → M.W → Env M × M.W
  | some e, ρ, w => (eval e ρ w).2
  | none, ρ, w => (ρ, w)

/-- A condition; true if there is none. -/
def testO : Option (Ex M) → Env M → M.W → Bool × Env M × M.W
  | some e, ρ, w => let x := eval e ρ w; (M.truth x.1, x.2)
  | none, ρ, w => (true, ρ, w)

/-- The label of the case for a value: 6.8.4.2p5. -/
def choose (M : Mach) (v : M.V) (cs : List (Option M.V × Nat)) : Option Nat :=
  match cs.find? fun c => match c.1 with
      | some x => M.rel M.eq v x
      | none => false with
  | some c => some c.2
  | none => (cs.find? fun c => c.1.isNone).map fun c => c.2

/-- One step of a program whose body is `f`. -/
def step (f : St M) : State M → Option (State M)
  | .done _ _ => none
  | .run a k ρ w =>
    match a with
    | .skip =>
      match k with
      | .stop => some (.done none w)
      | .seq a k => some (.run a k ρ w)
      | .while c a k =>
        let x := testO (some c) ρ w
        some (if x.1 then .run a (.while c a k) x.2.1 x.2.2 else .run .skip k x.2.1 x.2.2)
      | .doWhile a c k =>
        let x := testO (some c) ρ w
        some (if x.1 then .run a (.doWhile a c k) x.2.1 x.2.2 else .run .skip k x.2.1 x.2.2)
      | .for c post a k =>
        let y := evalO post ρ w
        let x := testO c y.1 y.2
        some (if x.1 then .run a (.for c post a k) x.2.1 x.2.2 else .run .skip k x.2.1 x.2.2)
      | .switch k => some (.run .skip k ρ w)
    | .expr e => let x := eval e ρ w; some (.run .skip k x.2.1 x.2.2)
    | .seq a b => some (.run a (.seq b k) ρ w)
    | .ite c a =>
      let x := testO (some c) ρ w
      some (if x.1 then .run a k x.2.1 x.2.2 else .run .skip k x.2.1 x.2.2)
    | .itee c a b =>
      let x := testO (some c) ρ w
      some (if x.1 then .run a k x.2.1 x.2.2 else .run b k x.2.1 x.2.2)
    | .while c a =>
      let x := testO (some c) ρ w
      some (if x.1 then .run a (.while c a k) x.2.1 x.2.2 else .run .skip k x.2.1 x.2.2)
    | .doWhile a c => some (.run a (.doWhile a c k) ρ w)
    | .for pre c post a =>
      let y := evalO pre ρ w
      let x := testO c y.1 y.2
      some (if x.1 then .run a (.for c post a k) x.2.1 x.2.2 else .run .skip k x.2.1 x.2.2)
    | .break => k.out.map fun k => .run .skip k ρ w
    | .continue => k.next.map fun k => .run .skip k ρ w
    | .ret none => some (.done none w)
    | .ret (some e) => let x := eval e ρ w; some (.done (some x.1) x.2.2)
    | .goto l => (f.at (.user l) .stop).map fun x => .run x.1 x.2 ρ w
    | .label _ a => some (.run a k ρ w)
    | .case _ _ a => some (.run a k ρ w)
    | .switch e a =>
      let x := eval e ρ w
      match choose M x.1 (cases a) with
      | some i => (a.at (.case i) (.switch k)).map fun y => .run y.1 y.2 x.2.1 x.2.2
      | none => some (.run .skip k x.2.1 x.2.2)

/-! ### Specification: well-formed programs -/

/-- Variables an expression reads, and those it assigns. -/
def Ex.reads : Ex M → Nat → Prop
  | .const _, _ => False
  | .var x, y => x = y
  | .un _ a, y => a.reads y
  | .bin _ a b, y => a.reads y ∨ b.reads y
  | .assign _ a, y => a.reads y
  | .inc _ _ x, y => x = y
  | .rel _ a b, y => a.reads y ∨ b.reads y
  | .not a, y => a.reads y
  | .and a b, y => a.reads y ∨ b.reads y
  | .or a b, y => a.reads y ∨ b.reads y
  | .tern c a b, y => c.reads y ∨ a.reads y ∨ b.reads y
  | .comma a b, y => a.reads y ∨ b.reads y

def Ex.sets : Ex M → Nat → Prop
  | .const _, _ => False
  | .var _, _ => False
  | .un _ a, y => a.sets y
  | .bin _ a b, y => a.sets y ∨ b.sets y
  | .assign x a, y => x = y ∨ a.sets y
  | .inc _ _ x, y => x = y
  | .rel _ a b, y => a.sets y ∨ b.sets y
  | .not a, y => a.sets y
  | .and a b, y => a.sets y ∨ b.sets y
  | .or a b, y => a.sets y ∨ b.sets y
  | .tern c a b, y => c.sets y ∨ a.sets y ∨ b.sets y
  | .comma a b, y => a.sets y ∨ b.sets y

/-- Neither operand assigns a variable the other one uses (6.5p2: undefined otherwise). -/
def Apart (a b : Ex M) : Prop :=
  ∀ x, (a.sets x → ¬ b.reads x ∧ ¬ b.sets x) ∧ (b.sets x → ¬ a.reads x ∧ ¬ a.sets x)

/-- The variables are below `nv`, and operands without a sequence point between them do not
interfere. -/
def Ex.Ok (nv : Nat) : Ex M → Prop
  | .const _ => True
  | .var x => x < nv
  | .un _ a => a.Ok nv
  | .bin _ a b => a.Ok nv ∧ b.Ok nv ∧ Apart a b
  | .assign x a => x < nv ∧ a.Ok nv
  | .inc _ _ x => x < nv
  | .rel _ a b => a.Ok nv ∧ b.Ok nv ∧ Apart a b
  | .not a => a.Ok nv
  | .and a b => a.Ok nv ∧ b.Ok nv
  | .or a b => a.Ok nv ∧ b.Ok nv
  | .tern c a b => c.Ok nv ∧ a.Ok nv ∧ b.Ok nv
  | .comma a b => a.Ok nv ∧ b.Ok nv

def okO (nv : Nat) : Option (Ex M) → Prop
  | some e => e.Ok nv
  | none => True

/-- `break` (`continue`) occurs only where there is something to leave (`b`, `c`), `goto` only to the
labels `L`. -/
def St.Ok (nv : Nat) (L : List Lb) : Bool → Bool → St M → Prop
  | _, _, .skip => True
  | _, _, .expr e => e.Ok nv
  | b, c, .seq a d => a.Ok nv L b c ∧ d.Ok nv L b c
  | b, c, .ite e a => e.Ok nv ∧ a.Ok nv L b c
  | b, c, .itee e a d => e.Ok nv ∧ a.Ok nv L b c ∧ d.Ok nv L b c
  | _, _, .while e a => e.Ok nv ∧ a.Ok nv L true true
  | _, _, .doWhile a e => e.Ok nv ∧ a.Ok nv L true true
  | _, _, .for pre e post a => okO nv pre ∧ okO nv e ∧ okO nv post ∧ a.Ok nv L true true
  | b, _, .break => b = true
  | _, c, .continue => c = true
  | _, _, .ret e => okO nv e
  | _, _, .goto l => Lb.user l ∈ L
  | b, c, .label _ a => a.Ok nv L b c
  | _, c, .switch e a => e.Ok nv ∧ a.Ok nv L true c
  | b, c, .case _ _ a => a.Ok nv L b c

/-- The labels of a statement, in the order of the text. -/
def St.labels : St M → List Lb
  | .seq a b => a.labels ++ b.labels
  | .ite _ a => a.labels
  | .itee _ a b => a.labels ++ b.labels
  | .while _ a => a.labels
  | .doWhile a _ => a.labels
  | .for _ _ _ a => a.labels
  | .label l a => .user l :: a.labels
  | .switch _ a => a.labels
  | .case i _ a => .case i :: a.labels
  | _ => []

/-- A function body that the parser accepts and whose expressions are not undefined. -/
structure Wf (nv : Nat) (f : St M) : Prop where
  ok : f.Ok nv f.labels false false
  labels : f.labels.Nodup

/-- `n` steps. -/
def iter {α : Type} (f : α → Option α) : Nat → α → Option α
  | 0, a => some a
  | n + 1, a => (f a).bind fun b => iter f n b

/-! ### The parser keeps the meaning -/

theorem eval_mkCond (hM : M.Ok) (e : Ex M) (ρ : Env M) (w : M.W) :
    eval (mkCond e) ρ w = (M.ofBool (M.truth (eval e ρ w).1), (eval e ρ w).2) := by
  have hb : ∀ b, M.truth (M.ofBool b) = b := hM.bool
  induction e generalizing ρ w with
  | comma a b _ ihb => simp [mkCond, eval, ihb]
  | and a b _ _ => simp only [mkCond, eval]; split <;> simp [hb]
  | or a b _ _ => simp only [mkCond, eval]; split <;> simp [hb]
  | rel r a b _ _ => simp [mkCond, eval, hb]
  | _ => simp [mkCond, eval, Mach.truth]

theorem eval_mkNot (hM : M.Ok) (e : Ex M) (ρ : Env M) (w : M.W) :
    eval (mkNot e) ρ w = (M.ofBool (!M.truth (eval e ρ w).1), (eval e ρ w).2) := by
  have hb : ∀ b, M.truth (M.ofBool b) = b := hM.bool
  induction e generalizing ρ w with
  | rel r a b _ _ => simp [mkNot, eval, hb, hM.inv]
  | and a b iha ihb =>
    simp only [mkNot, eval, iha, ihb, hb]
    cases M.truth (eval a ρ w).1 <;> simp [hb]
  | or a b iha ihb =>
    simp only [mkNot, eval, iha, ihb, hb]
    cases M.truth (eval a ρ w).1 <;> simp [hb]
  | _ => simp [mkNot, eval, Mach.truth, hM.eq]

theorem eval_parse (hM : M.Ok) (e : Ex M) (ρ : Env M) (w : M.W) : eval (parse e) ρ w = eval e ρ w := by
  have hb : ∀ b, M.truth (M.ofBool b) = b := hM.bool
  induction e generalizing ρ w with
  | const v => rfl
  | var x => rfl
  | un f a ih => simp [parse, eval, ih]
  | bin f a b iha ihb => simp [parse, eval, iha, ihb]
  | assign x a ih => simp [parse, eval, ih]
  | inc p f x => rfl
  | rel r a b iha ihb => simp [parse, eval, iha, ihb]
  | not a ih => simp [parse, eval, eval_mkNot hM, ih]
  | and a b iha ihb =>
    have h : eval (.and (mkCond (parse a)) (mkCond (parse b))) ρ w = eval (.and a b) ρ w := by
      simp [eval, eval_mkCond hM, iha, ihb, hb]
    rw [← h, parse]; unfold mkAnd
    split
    · rename_i v hv
      have hv' := eval_mkCond hM (parse a) ρ w
      rw [hv] at hv' ⊢
      simp only [eval, Prod.mk.injEq] at hv' ⊢
      split
      · rename_i hf; simp [eval_mkCond hM, hb, hf]
      · rename_i hf
        simp only [eval]
        rw [hv'.1] at hf ⊢
        rw [hb] at hf
        simp [hf, hb]
    · rfl
  | or a b iha ihb =>
    have h : eval (.or (mkCond (parse a)) (mkCond (parse b))) ρ w = eval (.or a b) ρ w := by
      simp [eval, eval_mkCond hM, iha, ihb, hb]
    rw [← h, parse]; unfold mkOr
    split
    · rename_i v hv
      have hv' := eval_mkCond hM (parse a) ρ w
      rw [hv] at hv' ⊢
      simp only [eval, Prod.mk.injEq] at hv' ⊢
      split
      · rename_i hf
        simp only [eval]
        rw [hv'.1] at hf ⊢
        rw [hb] at hf
        simp [hf, hb]
      · rename_i hf; simp [eval_mkCond hM, hb, hf]
    · rfl
  | tern c a b ihc iha ihb =>
    have h : eval (.tern (mkCond (parse c)) (parse a) (parse b)) ρ w = eval (.tern c a b) ρ w := by
      simp [eval, eval_mkCond hM, ihc, iha, ihb, hb]
    rw [← h, parse]; unfold mkTern
    split
    · rename_i v hv
      rw [hv]
      simp only [eval]
      split <;> (rename_i hf; simp [hf])
    · rfl
  | comma a b iha ihb =>
    have h : eval (.comma (parse a) (parse b)) ρ w = eval (.comma a b) ρ w := by
      simp [eval, iha, ihb]
    rw [← h, parse]; unfold mkComma
    split
    · rename_i v hv; rw [hv]; rfl
    · rfl

/-- What the generator's condition jumps accept. -/
def isC : Ex M → Prop
  | .const _ => True
  | .rel _ _ _ => True
  | .and _ _ => True
  | .or _ _ => True
  | .comma _ b => isC b
  | _ => False

/-- What the generator accepts. -/
def Good : Ex M → Prop
  | .const _ => True
  | .var _ => True
  | .un _ a => Good a
  | .bin _ a b => Good a ∧ Good b
  | .assign _ a => Good a
  | .inc _ _ _ => True
  | .rel _ a b => Good a ∧ Good b
  | .not _ => False
  | .and a b => (Good a ∧ isC a) ∧ Good b ∧ isC b
  | .or a b => (Good a ∧ isC a) ∧ Good b ∧ isC b
  | .tern c a b => (Good c ∧ isC c) ∧ Good a ∧ Good b
  | .comma a b => Good a ∧ Good b

theorem good_mkCond {e : Ex M} (h : Good e) : Good (mkCond e) ∧ isC (mkCond e) := by
  induction e with
  | comma a b _ ihb => exact ⟨⟨h.1, (ihb h.2).1⟩, (ihb h.2).2⟩
  | not a _ => exact h.elim
  | and a b _ _ => exact ⟨h, trivial⟩
  | or a b _ _ => exact ⟨h, trivial⟩
  | rel r a b _ _ => exact ⟨h, trivial⟩
  | const v => exact ⟨trivial, trivial⟩
  | _ => exact ⟨⟨h, trivial⟩, trivial⟩

theorem good_mkNot {e : Ex M} (h : Good e) : Good (mkNot e) ∧ isC (mkNot e) := by
  induction e with
  | not a _ => exact h.elim
  | and a b iha ihb => exact ⟨⟨iha h.1.1, ihb h.2.1⟩, trivial⟩
  | or a b iha ihb => exact ⟨⟨iha h.1.1, ihb h.2.1⟩, trivial⟩
  | rel r a b _ _ => exact ⟨h, trivial⟩
  | const v => exact ⟨trivial, trivial⟩
  | _ => exact ⟨⟨h, trivial⟩, trivial⟩

theorem good_parse (e : Ex M) : Good (parse e) := by
  induction e with
  | const v => trivial
  | var x => trivial
  | un f a ih => exact ih
  | bin f a b iha ihb => exact ⟨iha, ihb⟩
  | assign x a ih => exact ih
  | inc p f x => trivial
  | rel r a b iha ihb => exact ⟨iha, ihb⟩
  | not a ih => exact (good_mkNot ih).1
  | and a b iha ihb =>
    rw [parse]; unfold mkAnd
    split
    · split
      · exact (good_mkCond ihb).1
      · trivial
    · exact ⟨good_mkCond iha, good_mkCond ihb⟩
  | or a b iha ihb =>
    rw [parse]; unfold mkOr
    split
    · split
      · trivial
      · exact (good_mkCond ihb).1
    · exact ⟨good_mkCond iha, good_mkCond ihb⟩
  | tern c a b ihc iha ihb =>
    rw [parse]; unfold mkTern
    split
    · split
      · exact iha
      · exact ihb
    · exact ⟨good_mkCond ihc, iha, ihb⟩
  | comma a b iha ihb =>
    rw [parse]; unfold mkComma
    split
    · exact ihb
    · exact ⟨iha, ihb⟩

theorem sets_mkCond {e : Ex M} {x : Nat} : (mkCond e).sets x ↔ e.sets x := by
  induction e with
  | comma a b _ ihb => simp [mkCond, Ex.sets, ihb]
  | _ => simp [mkCond, Ex.sets]
theorem reads_mkCond {e : Ex M} {x : Nat} : (mkCond e).reads x ↔ e.reads x := by
  induction e with
  | comma a b _ ihb => simp [mkCond, Ex.reads, ihb]
  | _ => simp [mkCond, Ex.reads]
theorem sets_mkNot {e : Ex M} {x : Nat} : (mkNot e).sets x ↔ e.sets x := by
  induction e with
  | and a b iha ihb => simp [mkNot, Ex.sets, iha, ihb]
  | or a b iha ihb => simp [mkNot, Ex.sets, iha, ihb]
  | _ => simp [mkNot, Ex.sets]
theorem reads_mkNot {e : Ex M} {x : Nat} : (mkNot e).reads x ↔ e.reads x := by
  induction e with
  | and a b iha ihb => simp [mkNot, Ex.reads, iha, ihb]
  | or a b iha ihb => simp [mkNot, Ex.reads, iha, ihb]
  | _ => simp [mkNot, Ex.reads]

theorem sets_parse {e : Ex M} {x : Nat} (h : (parse e).sets x) : e.sets x := by
  induction e with
  | const v => exact h
  | var x => exact h
  | un f a ih => exact ih h
  | bin f a b iha ihb => exact h.imp iha ihb
  | assign y a ih => exact h.imp id ih
  | inc p f x => exact h
  | rel r a b iha ihb => exact h.imp iha ihb
  | not a ih => exact ih (sets_mkNot.1 h)
  | and a b iha ihb =>
    rw [parse] at h; unfold mkAnd at h
    split at h
    · split at h
      · exact .inr (ihb (sets_mkCond.1 h))
      · exact h.elim
    · exact h.imp (fun h => iha (sets_mkCond.1 h)) (fun h => ihb (sets_mkCond.1 h))
  | or a b iha ihb =>
    rw [parse] at h; unfold mkOr at h
    split at h
    · split at h
      · exact h.elim
      · exact .inr (ihb (sets_mkCond.1 h))
    · exact h.imp (fun h => iha (sets_mkCond.1 h)) (fun h => ihb (sets_mkCond.1 h))
  | tern c a b ihc iha ihb =>
    rw [parse] at h; unfold mkTern at h
    split at h
    · split at h
      · exact .inr (.inl (iha h))
      · exact .inr (.inr (ihb h))
    · exact h.imp (fun h => ihc (sets_mkCond.1 h)) (fun h => h.imp iha ihb)
  | comma a b iha ihb =>
    rw [parse] at h; unfold mkComma at h
    split at h
    · exact .inr (ihb h)
    · exact h.imp iha ihb

theorem reads_parse {e : Ex M} {x : Nat} (h : (parse e).reads x) : e.reads x := by
  induction e with
  | const v => exact h
  | var x => exact h
  | un f a ih => exact ih h
  | bin f a b iha ihb => exact h.imp iha ihb
  | assign y a ih => exact ih h
  | inc p f x => exact h
  | rel r a b iha ihb => exact h.imp iha ihb
  | not a ih => exact ih (reads_mkNot.1 h)
  | and a b iha ihb =>
    rw [parse] at h; unfold mkAnd at h
    split at h
    · split at h
      · exact .inr (ihb (reads_mkCond.1 h))
      · exact h.elim
    · exact h.imp (fun h => iha (reads_mkCond.1 h)) (fun h => ihb (reads_mkCond.1 h))
  | or a b iha ihb =>
    rw [parse] at h; unfold mkOr at h
    split at h
    · split at h
      · exact h.elim
      · exact .inr (ihb (reads_mkCond.1 h))
    · exact h.imp (fun h => iha (reads_mkCond.1 h)) (fun h => ihb (reads_mkCond.1 h))
  | tern c a b ihc iha ihb =>
    rw [parse] at h; unfold mkTern at h
    split at h
    · split at h
      · exact .inr (.inl (iha h))
      · exact .inr (.inr (ihb h))
    · exact h.imp (fun h => ihc (reads_mkCond.1 h)) (fun h => h.imp iha ihb)
  | comma a b iha ihb =>
    rw [parse] at h; unfold mkComma at h
    split at h
    · exact .inr (ihb h)
    · exact h.imp iha ihb

theorem apart_const (a : Ex M) (v : M.V) : Apart a (.const v) :=
  fun _ => ⟨fun _ => ⟨id, id⟩, fun h => h.elim⟩

theorem ok_mkCond {nv : Nat} {e : Ex M} (h : e.Ok nv) : (mkCond e).Ok nv := by
  induction e with
  | comma a b _ ihb => exact ⟨h.1, ihb h.2⟩
  | and a b _ _ => exact h
  | or a b _ _ => exact h
  | rel r a b _ _ => exact h
  | const v => exact h
  | _ => exact ⟨h, trivial, apart_const _ _⟩

theorem ok_mkNot {nv : Nat} {e : Ex M} (h : e.Ok nv) : (mkNot e).Ok nv := by
  induction e with
  | and a b iha ihb => exact ⟨iha h.1, ihb h.2⟩
  | or a b iha ihb => exact ⟨iha h.1, ihb h.2⟩
  | rel r a b _ _ => exact h
  | const v => exact h
  | _ => exact ⟨h, trivial, apart_const _ _⟩

theorem apart_parse {a b : Ex M} (h : Apart a b) : Apart (parse a) (parse b) := fun x =>
  ⟨fun hs => ⟨fun hr => ((h x).1 (sets_parse hs)).1 (reads_parse hr), fun hr => ((h x).1 (sets_parse hs)).2 (sets_parse hr)⟩,
   fun hs => ⟨fun hr => ((h x).2 (sets_parse hs)).1 (reads_parse hr), fun hr => ((h x).2 (sets_parse hs)).2 (sets_parse hr)⟩⟩

theorem ok_parse {nv : Nat} {e : Ex M} (h : e.Ok nv) : (parse e).Ok nv := by
  induction e with
  | const v => exact h
  | var x => exact h
  | un f a ih => exact ih h
  | bin f a b iha ihb => exact ⟨iha h.1, ihb h.2.1, apart_parse h.2.2⟩
  | assign x a ih => exact ⟨h.1, ih h.2⟩
  | inc p f x => exact h
  | rel r a b iha ihb => exact ⟨iha h.1, ihb h.2.1, apart_parse h.2.2⟩
  | not a ih => exact ok_mkNot (ih h)
  | and a b iha ihb =>
    rw [parse]; unfold mkAnd
    split
    · split
      · exact ok_mkCond (ihb h.2)
      · trivial
    · exact ⟨ok_mkCond (iha h.1), ok_mkCond (ihb h.2)⟩
  | or a b iha ihb =>
    rw [parse]; unfold mkOr
    split
    · split
      · trivial
      · exact ok_mkCond (ihb h.2)
    · exact ⟨ok_mkCond (iha h.1), ok_mkCond (ihb h.2)⟩
  | tern c a b ihc iha ihb =>
    rw [parse]; unfold mkTern
    split
    · split
      · exact iha h.2.1
      · exact ihb h.2.2
    · exact ⟨ok_mkCond (ihc h.1), iha h.2.1, ihb h.2.2⟩
  | comma a b iha ihb =>
    rw [parse]; unfold mkComma
    split
    · exact ihb h.2
    · exact ⟨iha h.1, ihb h.2⟩

/-! ### Running code -/

theorem iter_add {α : Type} (f : α → Option α) : ∀ (n m : Nat) (a b : α), iter f n a = some b →
    iter f (n + m) a = iter f m b
  | 0, m, a, b, h => by simp only [iter, Option.some.injEq] at h; simp [h]
  | n + 1, m, a, b, h => by
    rw [Nat.add_right_comm, iter]
    simp only [iter] at h
    cases hf : f a with
    | none => simp [hf] at h
    | some c =>
      rw [hf] at h
      simp only [Option.bind_some] at h ⊢
      exact iter_add f n m c b h

/-- At least `k` steps lead from one configuration to another. -/
def Go (C : List (Ins M)) (k : Nat) (t u : Conf M) : Prop :=
  ∃ n, k ≤ n ∧ iter (exec C) n t = some u

variable {C : List (Ins M)}

theorem Go.refl (t : Conf M) : Go C 0 t t := ⟨0, Nat.le_refl _, rfl⟩

theorem Go.trans {k l : Nat} {t u v : Conf M} : Go C k t u → Go C l u v → Go C (k + l) t v := by
  rintro ⟨n, hn, h⟩ ⟨m, hm, h'⟩
  exact ⟨n + m, by omega, by rw [iter_add _ _ _ _ _ h, h']⟩

theorem Go.weak {k l : Nat} {t u : Conf M} (h : Go C k t u) (hl : l ≤ k) : Go C l t u := by
  obtain ⟨n, hn, h⟩ := h; exact ⟨n, by omega, h⟩

theorem Go.one {t u : Conf M} (h : exec C t = some u) : Go C 1 t u :=
  ⟨1, Nat.le_refl _, by simp [iter, h]⟩

/-- The code `c` is at position `pc`. -/
def At (C : List (Ins M)) : Nat → List (Ins M) → Prop
  | _, [] => True
  | pc, i :: c => C[pc]? = some i ∧ At C (pc + 1) c

theorem at_append : ∀ (a b : List (Ins M)) (pc : Nat),
    At C pc (a ++ b) ↔ At C pc a ∧ At C (pc + a.length) b
  | [], b, pc => by simp [At]
  | i :: a, b, pc => by
    simp only [List.cons_append, At, at_append a b, List.length_cons]
    rw [show pc + 1 + a.length = pc + (a.length + 1) by omega, and_assoc]

/-- Labels begin one block each. -/
def Uniq (C : List (Ins M)) : Prop :=
  ∀ i b, C[i]? = some (.lab b) → find C b = some i

theorem go_lab {pc : Nat} {b : Lb} {r : Env M} {w : M.W} {res : Option M.V} (h : C[pc]? = some (.lab b)) :
    Go C 1 ⟨pc, r, w, res⟩ ⟨pc + 1, r, w, res⟩ := Go.one (by simp [exec, h])

theorem go_jmp {pc p : Nat} {b : Lb} {r : Env M} {w : M.W} {res : Option M.V} (h : C[pc]? = some (.jmp b))
    (hb : find C b = some p) : Go C 1 ⟨pc, r, w, res⟩ ⟨p, r, w, res⟩ := Go.one (by simp [exec, h, hb])

theorem go_mov {pc d : Nat} {a : Opr M} {r : Env M} {w : M.W} {res : Option M.V}
    (h : C[pc]? = some (.mov d a)) :
    Go C 1 ⟨pc, r, w, res⟩ ⟨pc + 1, set r d (a.val r), w, res⟩ := Go.one (by simp [exec, h])

theorem go_un {pc d : Nat} {f : M.F} {a : Opr M} {r : Env M} {w : M.W} {res : Option M.V}
    (h : C[pc]? = some (.un f d a)) :
    Go C 1 ⟨pc, r, w, res⟩ ⟨pc + 1, set r d (M.un f (a.val r) w).1, (M.un f (a.val r) w).2, res⟩ :=
  Go.one (by simp [exec, h])

theorem go_bin {pc d : Nat} {f : M.F} {a b : Opr M} {r : Env M} {w : M.W} {res : Option M.V}
    (h : C[pc]? = some (.bin f d a b)) :
    Go C 1 ⟨pc, r, w, res⟩
      ⟨pc + 1, set r d (M.bin f (a.val r) (b.val r) w).1, (M.bin f (a.val r) (b.val r) w).2, res⟩ :=
  Go.one (by simp [exec, h])

theorem go_cond {pc d : Nat} {f : M.R} {a b : Opr M} {r : Env M} {w : M.W} {res : Option M.V}
    (h : C[pc]? = some (.cond f d a b)) :
    Go C 1 ⟨pc, r, w, res⟩ ⟨pc + 1, set r d (M.ofBool (M.rel f (a.val r) (b.val r))), w, res⟩ :=
  Go.one (by simp [exec, h])

@[simp] theorem set_self (r : Env M) (x : Nat) (v : M.V) : set r x v x = v := by simp [set]
theorem set_ne {r : Env M} {x y : Nat} {v : M.V} (h : y ≠ x) : set r x v y = r y := by simp [set, h]

/-! ### Expressions -/

/-- Counters only grow. -/
theorem gen_mono (e : Ex M) :
    (∀ s, s.n ≤ (genE e s).s.n ∧ s.m ≤ (genE e s).s.m) ∧
    (∀ t f s, s.n ≤ (genC e t f s).s.n ∧ s.m ≤ (genC e t f s).s.m) := by
  induction e with
  | const v => exact ⟨fun s => by simp [genE], fun t f s => by simp [genC]⟩
  | var x => exact ⟨fun s => by simp [genE], fun t f s => by simp [genC]⟩
  | un g a ih =>
    refine ⟨fun s => ?_, fun t f s => by simp [genC]⟩
    have := ih.1 s
    simp only [genE]; omega
  | bin g a b iha ihb =>
    refine ⟨fun s => ?_, fun t f s => by simp [genC]⟩
    have h1 := iha.1 s
    have h2 := ihb.1 (genE a s).s
    simp only [genE]; omega
  | assign x a ih =>
    refine ⟨fun s => ?_, fun t f s => by simp [genC]⟩
    exact ih.1 s
  | inc p g x =>
    refine ⟨fun s => ?_, fun t f s => by simp [genC]⟩
    simp only [genE]; split <;> simp
  | rel r a b iha ihb =>
    refine ⟨fun s => ?_, fun t f s => ?_⟩
    all_goals
      have h1 := iha.1 s
      have h2 := ihb.1 (genE a s).s
    · simp only [genE]; split <;> simp only <;> omega
    · simp only [genC]; omega
  | not a ih => exact ⟨fun s => by simp [genE], fun t f s => by simp [genC]⟩
  | and a b iha ihb =>
    refine ⟨fun s => ?_, fun t f s => ?_⟩
    · have h1 := iha.2 (.tmp (s.n + 3)) (.tmp (s.n + 1)) ⟨s.n + 4, s.m⟩
      have h2 := ihb.2 (.tmp s.n) (.tmp (s.n + 1)) (genC a (.tmp (s.n + 3)) (.tmp (s.n + 1)) ⟨s.n + 4, s.m⟩).s
      simp only [genE] at *; omega
    · have h1 := iha.2 (.tmp s.n) f ⟨s.n + 1, s.m⟩
      have h2 := ihb.2 t f (genC a (.tmp s.n) f ⟨s.n + 1, s.m⟩).s
      simp only [genC] at *; omega
  | or a b iha ihb =>
    refine ⟨fun s => ?_, fun t f s => ?_⟩
    · have h1 := iha.2 (.tmp s.n) (.tmp (s.n + 3)) ⟨s.n + 4, s.m⟩
      have h2 := ihb.2 (.tmp s.n) (.tmp (s.n + 1)) (genC a (.tmp s.n) (.tmp (s.n + 3)) ⟨s.n + 4, s.m⟩).s
      simp only [genE] at *; omega
    · have h1 := iha.2 t (.tmp s.n) ⟨s.n + 1, s.m⟩
      have h2 := ihb.2 t f (genC a t (.tmp s.n) ⟨s.n + 1, s.m⟩).s
      simp only [genC] at *; omega
  | tern c a b ihc iha ihb =>
    refine ⟨fun s => ?_, fun t f s => by simp [genC]⟩
    have h0 := ihc.2 (.tmp s.n) (.tmp (s.n + 1)) ⟨s.n + 3, s.m + 1⟩
    have h1 := iha.1 (genC c (.tmp s.n) (.tmp (s.n + 1)) ⟨s.n + 3, s.m + 1⟩).s
    have h2 := ihb.1 (genE a (genC c (.tmp s.n) (.tmp (s.n + 1)) ⟨s.n + 3, s.m + 1⟩).s).s
    simp only [genE] at *; omega
  | comma a b iha ihb =>
    refine ⟨fun s => ?_, fun t f s => ?_⟩
    · have h1 := iha.1 s
      have h2 := ihb.1 (genE a s).s
      simp only [genE]; omega
    · have h1 := iha.1 s
      have h2 := ihb.2 t f (genE a s).s
      simp only [genC]; omega

/-- The register of the value is a variable that the expression reads, or a new one. -/
theorem gen_opr {nv : Nat} (e : Ex M) : ∀ (s : Fresh) (t : Nat), e.Ok nv → (genE e s).opr = .reg t →
    (t < nv ∧ e.reads t) ∨ (s.m ≤ t ∧ t < (genE e s).s.m) := by
  induction e with
  | const v => intro s t _ h; simp [genE] at h
  | var x => intro s t hok h; simp only [genE, Opr.reg.injEq] at h; subst h; exact .inl ⟨hok, rfl⟩
  | un g a ih =>
    intro s t _ h
    have := (gen_mono a).1 s
    simp only [genE, Opr.reg.injEq] at *; omega
  | bin g a b iha ihb =>
    intro s t _ h
    have h1 := (gen_mono a).1 s
    have h2 := (gen_mono b).1 (genE a s).s
    simp only [genE, Opr.reg.injEq] at *; omega
  | assign x a ih => intro s t hok h; exact ih s t hok.2 h
  | inc p g x =>
    intro s t _ h
    simp only [genE] at *
    split at h <;> simp only [Opr.reg.injEq] at h <;> subst h <;> right <;> simp [*]
  | rel r a b iha ihb =>
    intro s t _ h
    have h1 := (gen_mono a).1 s
    have h2 := (gen_mono b).1 (genE a s).s
    simp only [genE] at *
    split at h
    · simp at h
    · simp only [Opr.reg.injEq] at h
      right
      rename_i heq
      simp only [heq]; omega
  | not a ih => intro s t _ h; simp [genE] at h
  | and a b iha ihb =>
    intro s t _ h
    have h1 := (gen_mono a).2 (.tmp (s.n + 3)) (.tmp (s.n + 1)) ⟨s.n + 4, s.m⟩
    have h2 := (gen_mono b).2 (.tmp s.n) (.tmp (s.n + 1)) (genC a (.tmp (s.n + 3)) (.tmp (s.n + 1)) ⟨s.n + 4, s.m⟩).s
    simp only [genE, Opr.reg.injEq] at *; omega
  | or a b iha ihb =>
    intro s t _ h
    have h1 := (gen_mono a).2 (.tmp s.n) (.tmp (s.n + 3)) ⟨s.n + 4, s.m⟩
    have h2 := (gen_mono b).2 (.tmp s.n) (.tmp (s.n + 1)) (genC a (.tmp s.n) (.tmp (s.n + 3)) ⟨s.n + 4, s.m⟩).s
    simp only [genE, Opr.reg.injEq] at *; omega
  | tern c a b ihc iha ihb =>
    intro s t _ h
    have h0 := (gen_mono c).2 (.tmp s.n) (.tmp (s.n + 1)) ⟨s.n + 3, s.m + 1⟩
    have h1 := (gen_mono a).1 (genC c (.tmp s.n) (.tmp (s.n + 1)) ⟨s.n + 3, s.m + 1⟩).s
    have h2 := (gen_mono b).1 (genE a (genC c (.tmp s.n) (.tmp (s.n + 1)) ⟨s.n + 3, s.m + 1⟩).s).s
    simp only [genE, Opr.reg.injEq] at *; omega
  | comma a b iha ihb =>
    intro s t hok h
    have h1 := (gen_mono a).1 s
    simp only [genE] at *
    rcases ihb _ t hok.2 h with h | h
    · exact .inl ⟨h.1, .inr h.2⟩
    · right; omega

/-- Variables that an expression does not assign keep their values. -/
theorem eval_frame {x : Nat} (e : Ex M) : ∀ (ρ : Env M) (w : M.W), ¬ e.sets x →
    (eval e ρ w).2.1 x = ρ x := by
  induction e with
  | const v => intros; rfl
  | var y => intros; rfl
  | un g a ih => intro ρ w h; exact ih ρ w h
  | bin g a b iha ihb =>
    intro ρ w h
    simp only [Ex.sets, not_or] at h
    simp only [eval]; rw [ihb _ _ h.2, iha _ _ h.1]
  | assign y a ih =>
    intro ρ w h
    simp only [Ex.sets, not_or] at h
    simp only [eval]; rw [set_ne (Ne.symm h.1), ih _ _ h.2]
  | inc p g y =>
    intro ρ w h
    simp only [Ex.sets] at h
    simp only [eval]; rw [set_ne (Ne.symm h)]
  | rel r a b iha ihb =>
    intro ρ w h
    simp only [Ex.sets, not_or] at h
    simp only [eval]; rw [ihb _ _ h.2, iha _ _ h.1]
  | not a ih => intro ρ w h; exact ih ρ w h
  | and a b iha ihb =>
    intro ρ w h
    simp only [Ex.sets, not_or] at h
    simp only [eval]
    split
    · rw [ihb _ _ h.2, iha _ _ h.1]
    · exact iha _ _ h.1
  | or a b iha ihb =>
    intro ρ w h
    simp only [Ex.sets, not_or] at h
    simp only [eval]
    split
    · exact iha _ _ h.1
    · rw [ihb _ _ h.2, iha _ _ h.1]
  | tern c a b ihc iha ihb =>
    intro ρ w h
    simp only [Ex.sets, not_or] at h
    simp only [eval]
    split
    · rw [iha _ _ h.2.1, ihc _ _ h.1]
    · rw [ihb _ _ h.2.2, ihc _ _ h.1]
  | comma a b iha ihb =>
    intro ρ w h
    simp only [Ex.sets, not_or] at h
    simp only [eval]; rw [ihb _ _ h.2, iha _ _ h.1]

/-- The variables have the values of `ρ`. -/
def Agree (nv : Nat) (r ρ : Env M) : Prop := ∀ x, x < nv → r x = ρ x

/-- The temporaries below `m` are the same. -/
def Keep (nv m : Nat) (r r' : Env M) : Prop := ∀ t, nv ≤ t → t < m → r' t = r t

theorem Keep.trans {nv m m' : Nat} {r1 r2 r3 : Env M} (h1 : Keep nv m r1 r2) (h2 : Keep nv m' r2 r3)
    (h : m ≤ m') : Keep nv m r1 r3 := fun t ht hm => by rw [h2 t ht (by omega), h1 t ht hm]

/-- The first operand's value is still there after the second one's code. -/
theorem keep_opr {nv : Nat} {a b : Ex M} {s : Fresh} {r1 r2 ρ1 ρ2 : Env M} (ha : a.Ok nv)
    (hap : Apart a b) (hs : nv ≤ s.m) (h1 : Agree nv r1 ρ1) (h2 : Agree nv r2 ρ2)
    (hf : ∀ x, ¬ b.sets x → ρ2 x = ρ1 x) (hk : Keep nv (genE a s).s.m r1 r2) :
    (genE a s).opr.val r2 = (genE a s).opr.val r1 := by
  cases ho : (genE a s).opr with
  | imm v => rfl
  | reg t =>
    simp only [Opr.val]
    rcases gen_opr a s t ha ho with ⟨ht, hr⟩ | ⟨ht, ht'⟩
    · rw [h2 t ht, h1 t ht]
      exact hf t fun hb => ((hap t).2 hb).1 hr
    · exact hk t (by omega) ht'

theorem mkCmp_known (hM : M.Ok) {r : M.R} {a b : Opr M} {v : Bool} (ρ : Env M)
    (h : mkCmp r a b = .known v) : v = M.rel r (a.val ρ) (b.val ρ) := by
  cases a <;> cases b <;> simp_all [mkCmp, Opr.val]

theorem mkCmp_ask (hM : M.Ok) {r r' : M.R} {a b a' b' : Opr M} (ρ : Env M)
    (h : mkCmp r a b = .ask r' a' b') :
    M.rel r' (a'.val ρ) (b'.val ρ) = M.rel r (a.val ρ) (b.val ρ) := by
  cases a <;> cases b <;> simp only [mkCmp, Cmp.ask.injEq, reduceCtorEq] at h
  all_goals
    obtain ⟨rfl, rfl, rfl⟩ := h
    simp [Opr.val, hM.swap]

theorem gen_ok (hM : M.Ok) (hu : Uniq C) (nv : Nat) (e : Ex M) :
    (∀ s pc r ρ w res, At C pc (genE e s).code → Good e → e.Ok nv → nv ≤ s.m → Agree nv r ρ →
      ∃ r', Go C 0 ⟨pc, r, w, res⟩ ⟨pc + (genE e s).code.length, r', (eval e ρ w).2.2, res⟩ ∧
        Agree nv r' (eval e ρ w).2.1 ∧ Keep nv s.m r r' ∧ (genE e s).opr.val r' = (eval e ρ w).1) ∧
    (∀ t f pt pf s pc r ρ w res, At C pc (genC e t f s).code → find C t = some pt → find C f = some pf →
      Good e → isC e → e.Ok nv → nv ≤ s.m → Agree nv r ρ →
      ∃ r', Go C 1 ⟨pc, r, w, res⟩ ⟨if M.truth (eval e ρ w).1 then pt else pf, r', (eval e ρ w).2.2, res⟩ ∧
        Agree nv r' (eval e ρ w).2.1 ∧ Keep nv s.m r r') := by
  have hb : ∀ b, M.truth (M.ofBool b) = b := hM.bool
  induction e with
  | const v =>
    refine ⟨fun s pc r ρ w res hat _ _ hs hr => ⟨r, Go.refl _, hr, fun _ _ _ => rfl, rfl⟩, ?_⟩
    intro t f pt pf s pc r ρ w res hat ht hf _ _ _ _ hr
    refine ⟨r, ?_, hr, fun _ _ _ => rfl⟩
    simp only [genC, At] at hat
    refine go_jmp hat.1 ?_
    simp only [eval]
    split <;> (rename_i h; simp [ht, hf, h])
  | var x =>
    refine ⟨fun s pc r ρ w res hat _ hok hs hr => ⟨r, Go.refl _, hr, fun _ _ _ => rfl, hr x hok⟩, ?_⟩
    intro t f pt pf s pc r ρ w res hat ht hf _ hc
    exact hc.elim
  | un g a ih =>
    refine ⟨fun s pc r ρ w res hat hg hok hs hr => ?_, fun t f pt pf s pc r ρ w res hat ht hf _ hc => hc.elim⟩
    have hm := (gen_mono a).1 s
    simp only [genE, at_append, At] at hat
    obtain ⟨r1, g1, a1, k1, v1⟩ := ih.1 s pc r ρ w res hat.1 hg hok hs hr
    refine ⟨set r1 (genE a s).s.m (M.un g (eval a ρ w).1 (eval a ρ w).2.2).1, ?_, ?_, ?_, ?_⟩
    · have := g1.trans (go_un hat.2.1)
      simpa only [genE, eval, List.length_append, List.length_singleton, v1, Nat.add_assoc] using this.weak (Nat.zero_le _)
    · intro x hx
      rw [set_ne (by omega)]
      exact a1 x hx
    · intro t ht htm
      rw [set_ne (by omega)]
      exact k1 t ht htm
    · simp [genE, Opr.val, eval]
  | bin g a b iha ihb =>
    refine ⟨fun s pc r ρ w res hat hg hok hs hr => ?_, fun t f pt pf s pc r ρ w res hat ht hf _ hc => hc.elim⟩
    have hm := (gen_mono a).1 s
    have hm2 := (gen_mono b).1 (genE a s).s
    simp only [genE, at_append, At] at hat
    obtain ⟨r1, g1, a1, k1, v1⟩ := iha.1 s pc r ρ w res hat.1.1 hg.1 hok.1 hs hr
    obtain ⟨r2, g2, a2, k2, v2⟩ := ihb.1 _ _ r1 _ (eval a ρ w).2.2 res hat.1.2 hg.2 hok.2.1 (by omega) a1
    have hv := keep_opr hok.1 hok.2.2 hs a1 a2 (fun x hx => eval_frame b _ _ hx) k2
    refine ⟨set r2 (genE b (genE a s).s).s.m (M.bin g (eval a ρ w).1 (eval b (eval a ρ w).2.1 (eval a ρ w).2.2).1 (eval b (eval a ρ w).2.1 (eval a ρ w).2.2).2.2).1, ?_, ?_, ?_, ?_⟩
    · have hpc : pc + (genE (.bin g a b) s).code.length =
          pc + (genE a s).code.length + (genE b (genE a s).s).code.length + 1 := by
        simp [genE, Nat.add_assoc]
      rw [hpc]
      have h3 := hat.2.1
      rw [List.length_append, ← Nat.add_assoc] at h3
      have := (g1.trans g2).trans (go_bin h3)
      rw [hv, v1, v2] at this
      simpa only [eval] using this.weak (Nat.zero_le _)
    · intro x hx
      rw [set_ne (by omega)]
      exact a2 x hx
    · intro t ht htm
      rw [set_ne (by omega), k2 t ht (by omega), k1 t ht htm]
    · simp [genE, Opr.val, eval]
  | assign x a ih =>
    refine ⟨fun s pc r ρ w res hat hg hok hs hr => ?_, fun t f pt pf s pc r ρ w res hat ht hf _ hc => hc.elim⟩
    simp only [genE, at_append, At] at hat
    obtain ⟨r1, g1, a1, k1, v1⟩ := ih.1 s pc r ρ w res hat.1 hg hok.2 hs hr
    refine ⟨set r1 x (eval a ρ w).1, ?_, ?_, ?_, ?_⟩
    · have := g1.trans (go_mov hat.2.1)
      simpa only [genE, eval, List.length_append, List.length_singleton, v1, Nat.add_assoc] using this.weak (Nat.zero_le _)
    · intro y hy
      simp only [eval, set]
      split
      · rfl
      · exact a1 y hy
    · intro t ht htm
      have := hok.1
      rw [set_ne (by omega)]
      exact k1 t ht htm
    · simp only [genE, eval]
      rw [← v1]
      cases ho : (genE a s).opr with
      | imm v => rfl
      | reg t =>
        simp only [Opr.val, set]
        rw [ho] at v1
        simp only [Opr.val] at v1
        split <;> rfl
  | inc p g x =>
    refine ⟨fun s pc r ρ w res hat hg hok hs hr => ?_, fun t f pt pf s pc r ρ w res hat ht hf _ hc => hc.elim⟩
    have hx : x < nv := hok
    cases p with
    | true =>
      simp only [genE, if_true, At] at hat
      have h := ((go_mov (r := r) (w := w) (res := res) hat.1).trans
        ((go_un hat.2.1).trans (go_mov hat.2.2.1))).weak (Nat.zero_le _)
      refine ⟨set (set (set r s.m (ρ x)) (s.m + 1) (M.un g (ρ x) w).1) x (M.un g (ρ x) w).1, ?_, ?_, ?_, ?_⟩
      · have e1 : ∀ v, set r s.m v x = r x := fun v => set_ne (by omega)
        simpa only [genE, if_true, eval, Opr.val, set_self, e1, hr x hx, List.length_cons, List.length_nil, Nat.zero_add, Nat.add_assoc] using h
      · intro y hy
        simp only [eval, set]
        have e1 : ¬ y = s.m + 1 := by omega
        have e2 : ¬ y = s.m := by omega
        simp only [e1, e2, if_false, hr y hy]
      · intro t ht htm
        rw [set_ne (by omega), set_ne (by omega), set_ne (by omega)]
      · simp only [genE, if_true, eval, Opr.val]
        rw [set_ne (by omega), set_ne (by omega), set_self]
    | false =>
      simp only [genE, Bool.false_eq_true, if_false, At] at hat
      have h := ((go_un (r := r) (w := w) (res := res) hat.1).trans (go_mov hat.2.1)).weak (Nat.zero_le _)
      refine ⟨set (set r s.m (M.un g (ρ x) w).1) x (M.un g (ρ x) w).1, ?_, ?_, ?_, ?_⟩
      · simpa only [genE, Bool.false_eq_true, if_false, eval, Opr.val, set_self, hr x hx, List.length_cons, List.length_nil, Nat.zero_add, Nat.add_assoc] using h
      · intro y hy
        simp only [eval, set]
        have e2 : ¬ y = s.m := by omega
        simp only [e2, if_false, hr y hy]
      · intro t ht htm
        rw [set_ne (by omega), set_ne (by omega)]
      · simp only [genE, Bool.false_eq_true, if_false, eval, Opr.val]
        rw [set_ne (by omega), set_self]
  | rel q a b iha ihb =>
    constructor
    · intro s pc r ρ w res hat hg hok hs hr
      have hm := (gen_mono a).1 s
      have hm2 := (gen_mono b).1 (genE a s).s
      have hat' : At C pc ((genE a s).code ++ (genE b (genE a s).s).code) := by
        simp only [genE] at hat
        split at hat
        · exact hat
        · exact ((at_append _ _ _).1 hat).1
      rw [at_append] at hat'
      obtain ⟨r1, g1, a1, k1, v1⟩ := iha.1 s pc r ρ w res hat'.1 hg.1 hok.1 hs hr
      obtain ⟨r2, g2, a2, k2, v2⟩ := ihb.1 _ _ r1 _ (eval a ρ w).2.2 res hat'.2 hg.2 hok.2.1 (by omega) a1
      have hv := keep_opr hok.1 hok.2.2 hs a1 a2 (fun x hx => eval_frame b _ _ hx) k2
      rw [v1] at hv
      simp only [genE] at hat ⊢
      cases hc : mkCmp q (genE a s).opr (genE b (genE a s).s).opr with
      | known v =>
        simp only [hc] at hat ⊢
        refine ⟨r2, ?_, a2, k1.trans k2 hm.2, ?_⟩
        · rw [List.length_append, ← Nat.add_assoc]
          exact g1.trans g2
        · simp only [Opr.val, eval]
          rw [mkCmp_known hM r2 hc, hv, v2]
      | ask q' x y =>
        simp only [hc, at_append, At] at hat ⊢
        have h3 := hat.2.1
        rw [List.length_append, ← Nat.add_assoc] at h3
        refine ⟨set r2 (genE b (genE a s).s).s.m (M.ofBool (M.rel q (eval a ρ w).1 (eval b (eval a ρ w).2.1 (eval a ρ w).2.2).1)), ?_, ?_, ?_, ?_⟩
        · have := (g1.trans g2).trans (go_cond h3)
          rw [mkCmp_ask hM r2 hc, hv, v2] at this
          simpa only [eval, List.length_append, List.length_singleton, Nat.add_assoc] using this.weak (Nat.zero_le _)
        · intro x hx
          rw [set_ne (by omega)]
          exact a2 x hx
        · intro t ht htm
          rw [set_ne (by omega), k2 t ht (by omega), k1 t ht htm]
        · simp [Opr.val, eval]
    · intro t f pt pf s pc r ρ w res hat ht hf hg hc hok hs hr
      have hm := (gen_mono a).1 s
      have hm2 := (gen_mono b).1 (genE a s).s
      simp only [genC, at_append] at hat
      obtain ⟨r1, g1, a1, k1, v1⟩ := iha.1 s pc r ρ w res hat.1.1.1 hg.1 hok.1 hs hr
      obtain ⟨r2, g2, a2, k2, v2⟩ := ihb.1 _ _ r1 _ (eval a ρ w).2.2 res hat.1.1.2 hg.2 hok.2.1 (by omega) a1
      have hv := keep_opr hok.1 hok.2.2 hs a1 a2 (fun x hx => eval_frame b _ _ hx) k2
      rw [v1] at hv
      refine ⟨r2, ?_, a2, k1.trans k2 hm.2⟩
      have g := g1.trans g2
      simp only [eval, hb]
      have h2 := hat.1.2
      have h3 := hat.2
      simp only [List.length_append, ← Nat.add_assoc] at h2 h3
      cases hc : mkCmp q (genE a s).opr (genE b (genE a s).s).opr with
      | known v =>
        have hk := mkCmp_known hM r2 hc
        rw [hv, v2] at hk
        rw [← hk]
        cases v with
        | true =>
          simp only [hc, Cmp.jmp, At] at h2
          exact g.trans (go_jmp h2.1 ht)
        | false =>
          simp only [hc, Cmp.jmp, At, List.length_nil, Nat.add_zero] at h3
          exact (g.trans ((go_lab h3.1).trans (go_jmp h3.2.1 hf))).weak (by omega)
      | ask q' x y =>
        have hk := mkCmp_ask hM r2 hc
        rw [hv, v2] at hk
        rw [← hk]
        simp only [hc, Cmp.jmp, At, List.length_singleton] at h2 h3
        by_cases hr : M.rel q' (x.val r2) (y.val r2) = true
        · rw [if_pos hr]
          exact g.trans (Go.one (by simp [exec, h2.1, hr, ht]))
        · rw [if_neg hr]
          exact (g.trans ((Go.one (by simp only [exec, h2.1, hr]; rfl)).trans
            ((go_lab h3.1).trans (go_jmp h3.2.1 hf)))).weak (by omega)
  | not a ih =>
    exact ⟨fun s pc r ρ w res hat hg => hg.elim, fun t f pt pf s pc r ρ w res hat ht hf hg => hg.elim⟩
  | and a b iha ihb =>
    have key : ∀ t f l pt pf pl s s' pc r ρ w res, At C pc ((genC a l f s).code ++ [.lab l] ++ (genC b t f s').code) →
        s' = (genC a l f s).s → find C t = some pt → find C f = some pf → find C l = some pl →
        Good (.and a b) → (Ex.and a b).Ok nv → nv ≤ s.m → Agree nv r ρ →
        ∃ r', Go C 1 ⟨pc, r, w, res⟩ ⟨if M.truth (eval (.and a b) ρ w).1 then pt else pf, r', (eval (.and a b) ρ w).2.2, res⟩ ∧
          Agree nv r' (eval (.and a b) ρ w).2.1 ∧ Keep nv s.m r r' := by
      intro t f l pt pf pl s s' pc r ρ w res hat hs' ht hf hl hg hok hs hr
      subst hs'
      have hm := (gen_mono a).2 l f s
      simp only [at_append, At] at hat
      have hpl := hu _ _ hat.1.2.1
      rw [hl] at hpl
      obtain ⟨r1, g1, a1, k1⟩ := iha.2 l f pl pf s pc r ρ w res hat.1.1 hl hf hg.1.1 hg.1.2 hok.1 hs hr
      by_cases hv : M.truth (eval a ρ w).1 = true
      · rw [if_pos hv] at g1
        have hat2 := hat.2
        rw [List.length_append, List.length_singleton, ← Nat.add_assoc] at hat2
        simp only [Option.some.injEq] at hpl
        obtain ⟨r2, g2, a2, k2⟩ := ihb.2 t f pt pf _ _ r1 _ (eval a ρ w).2.2 res hat2 ht hf hg.2.1 hg.2.2 hok.2 (by omega) a1
        refine ⟨r2, ?_, ?_, k1.trans k2 hm.2⟩
        · simp only [eval, hv, if_true, hb]
          rw [hpl] at g1
          exact (g1.trans ((go_lab hat.1.2.1).trans g2)).weak (by omega)
        · simpa only [eval, hv, if_true] using a2
      · rw [if_neg hv] at g1
        refine ⟨r1, ?_, ?_, k1⟩
        · simpa only [eval, hv, hb, Bool.false_eq_true, if_false] using g1
        · simpa only [eval, hv, Bool.false_eq_true, if_false] using a1
    constructor
    · intro s pc r ρ w res hat hg hok hs hr
      have hm := (gen_mono a).2 (.tmp (s.n + 3)) (.tmp (s.n + 1)) ⟨s.n + 4, s.m⟩
      have hm2 := (gen_mono b).2 (.tmp s.n) (.tmp (s.n + 1)) (genC a (.tmp (s.n + 3)) (.tmp (s.n + 1)) ⟨s.n + 4, s.m⟩).s
      simp only at hm
      simp only [genE] at hat
      have h1 := (at_append _ _ _).1 hat
      have h2 := (at_append _ _ _).1 ((at_append _ _ _).1 h1.1).1
      have h3 := h1.2
      simp only [At] at h2 h3
      obtain ⟨r1, g1, a1, k1⟩ := key _ _ _ _ _ _ _ _ pc r ρ w res h1.1 rfl (hu _ _ h3.1) (hu _ _ h3.2.2.2.1) (hu _ _ h2.2.1)
        hg hok hs hr
      have hlen : pc + (genE (.and a b) s).code.length = pc + ((genC a (.tmp (s.n + 3)) (.tmp (s.n + 1)) ⟨s.n + 4, s.m⟩).code ++
        [Ins.lab (.tmp (s.n + 3))] ++ (genC b (.tmp s.n) (.tmp (s.n + 1))
          (genC a (.tmp (s.n + 3)) (.tmp (s.n + 1)) ⟨s.n + 4, s.m⟩).s).code).length + 1 + 1 + 1 + 1 + 1 + 1 := by
        simp [genE]; omega
      rw [hlen]
      by_cases hv : M.truth (eval (.and a b) ρ w).1 = true
      · rw [if_pos hv] at g1
        refine ⟨_, ((g1.trans ((go_lab h3.1).trans ((go_mov h3.2.1).trans ((go_jmp h3.2.2.1 (hu _ _ h3.2.2.2.2.2.1)).trans
          (go_lab h3.2.2.2.2.2.1)))))).weak (Nat.zero_le _), ?_, ?_, ?_⟩
        · intro x hx
          rw [set_ne (by omega)]
          exact a1 x hx
        · intro t ht htm
          rw [set_ne (by omega), k1 t ht (by simpa using htm)]
        · simp only [genE, Opr.val, set_self]
          simp only [eval] at hv ⊢
          split at hv <;> rename_i hq
          · rw [hb] at hv; simp [hq, hv]
          · rw [hb] at hv; simp at hv
      · rw [if_neg hv] at g1
        refine ⟨_, ((g1.trans ((go_lab h3.2.2.2.1).trans ((go_mov h3.2.2.2.2.1).trans (go_lab h3.2.2.2.2.2.1))))).weak
          (Nat.zero_le _), ?_, ?_, ?_⟩
        · intro x hx
          rw [set_ne (by omega)]
          exact a1 x hx
        · intro t ht htm
          rw [set_ne (by omega), k1 t ht (by simpa using htm)]
        · simp only [genE, Opr.val, set_self]
          simp only [eval] at hv ⊢
          split at hv <;> rename_i hq
          · rw [hb] at hv; simp only [Bool.not_eq_true] at hv; simp [hq, hv]
          · simp [hq]
    · intro t f pt pf s pc r ρ w res hat ht hf hg hc hok hs hr
      simp only [genC] at hat
      have h1 := (at_append _ _ _).1 ((at_append _ _ _).1 hat).1
      simp only [At] at h1
      exact key t f _ pt pf _ ⟨s.n + 1, s.m⟩ _ pc r ρ w res hat rfl ht hf (hu _ _ h1.2.1) hg hok hs hr
  | or a b iha ihb =>
    have key : ∀ t f l pt pf pl s s' pc r ρ w res, At C pc ((genC a t l s).code ++ [.lab l] ++ (genC b t f s').code) →
        s' = (genC a t l s).s → find C t = some pt → find C f = some pf → find C l = some pl →
        Good (.or a b) → (Ex.or a b).Ok nv → nv ≤ s.m → Agree nv r ρ →
        ∃ r', Go C 1 ⟨pc, r, w, res⟩ ⟨if M.truth (eval (.or a b) ρ w).1 then pt else pf, r', (eval (.or a b) ρ w).2.2, res⟩ ∧
          Agree nv r' (eval (.or a b) ρ w).2.1 ∧ Keep nv s.m r r' := by
      intro t f l pt pf pl s s' pc r ρ w res hat hs' ht hf hl hg hok hs hr
      subst hs'
      have hm := (gen_mono a).2 t l s
      simp only [at_append, At] at hat
      have hpl := hu _ _ hat.1.2.1
      rw [hl] at hpl
      obtain ⟨r1, g1, a1, k1⟩ := iha.2 t l pt pl s pc r ρ w res hat.1.1 ht hl hg.1.1 hg.1.2 hok.1 hs hr
      by_cases hv : M.truth (eval a ρ w).1 = true
      · rw [if_pos hv] at g1
        refine ⟨r1, ?_, ?_, k1⟩
        · simpa only [eval, hv, hb, if_true] using g1
        · simpa only [eval, hv, if_true] using a1
      · rw [if_neg hv] at g1
        have hat2 := hat.2
        rw [List.length_append, List.length_singleton, ← Nat.add_assoc] at hat2
        simp only [Option.some.injEq] at hpl
        obtain ⟨r2, g2, a2, k2⟩ := ihb.2 t f pt pf _ _ r1 _ (eval a ρ w).2.2 res hat2 ht hf hg.2.1 hg.2.2 hok.2 (by omega) a1
        refine ⟨r2, ?_, ?_, k1.trans k2 hm.2⟩
        · simp only [eval, hv, Bool.false_eq_true, if_false, hb]
          rw [hpl] at g1
          exact (g1.trans ((go_lab hat.1.2.1).trans g2)).weak (by omega)
        · simpa only [eval, hv, Bool.false_eq_true, if_false] using a2
    constructor
    · intro s pc r ρ w res hat hg hok hs hr
      have hm := (gen_mono a).2 (.tmp s.n) (.tmp (s.n + 3)) ⟨s.n + 4, s.m⟩
      have hm2 := (gen_mono b).2 (.tmp s.n) (.tmp (s.n + 1)) (genC a (.tmp s.n) (.tmp (s.n + 3)) ⟨s.n + 4, s.m⟩).s
      simp only at hm
      simp only [genE] at hat
      have h1 := (at_append _ _ _).1 hat
      have h2 := (at_append _ _ _).1 ((at_append _ _ _).1 h1.1).1
      have h3 := h1.2
      simp only [At] at h2 h3
      obtain ⟨r1, g1, a1, k1⟩ := key _ _ _ _ _ _ _ _ pc r ρ w res h1.1 rfl (hu _ _ h3.1) (hu _ _ h3.2.2.2.1) (hu _ _ h2.2.1)
        hg hok hs hr
      have hlen : pc + (genE (.or a b) s).code.length = pc + ((genC a (.tmp s.n) (.tmp (s.n + 3)) ⟨s.n + 4, s.m⟩).code ++
        [Ins.lab (.tmp (s.n + 3))] ++ (genC b (.tmp s.n) (.tmp (s.n + 1))
          (genC a (.tmp s.n) (.tmp (s.n + 3)) ⟨s.n + 4, s.m⟩).s).code).length + 1 + 1 + 1 + 1 + 1 + 1 := by
        simp [genE]; omega
      rw [hlen]
      by_cases hv : M.truth (eval (.or a b) ρ w).1 = true
      · rw [if_pos hv] at g1
        refine ⟨_, ((g1.trans ((go_lab h3.1).trans ((go_mov h3.2.1).trans ((go_jmp h3.2.2.1 (hu _ _ h3.2.2.2.2.2.1)).trans
          (go_lab h3.2.2.2.2.2.1)))))).weak (Nat.zero_le _), ?_, ?_, ?_⟩
        · intro x hx
          rw [set_ne (by omega)]
          exact a1 x hx
        · intro t ht htm
          rw [set_ne (by omega), k1 t ht (by simpa using htm)]
        · simp only [genE, Opr.val, set_self]
          simp only [eval] at hv ⊢
          split at hv <;> rename_i hq
          · simp [hq]
          · rw [hb] at hv; simp [hq, hv]
      · rw [if_neg hv] at g1
        refine ⟨_, ((g1.trans ((go_lab h3.2.2.2.1).trans ((go_mov h3.2.2.2.2.1).trans (go_lab h3.2.2.2.2.2.1))))).weak
          (Nat.zero_le _), ?_, ?_, ?_⟩
        · intro x hx
          rw [set_ne (by omega)]
          exact a1 x hx
        · intro t ht htm
          rw [set_ne (by omega), k1 t ht (by simpa using htm)]
        · simp only [genE, Opr.val, set_self]
          simp only [eval] at hv ⊢
          split at hv <;> rename_i hq
          · rw [hb] at hv; simp at hv
          · rw [hb] at hv; simp only [Bool.not_eq_true] at hv; simp [hq, hv]
    · intro t f pt pf s pc r ρ w res hat ht hf hg hc hok hs hr
      simp only [genC] at hat
      have h1 := (at_append _ _ _).1 ((at_append _ _ _).1 hat).1
      simp only [At] at h1
      exact key t f _ pt pf _ ⟨s.n + 1, s.m⟩ _ pc r ρ w res hat rfl ht hf (hu _ _ h1.2.1) hg hok hs hr
  | tern c a b ihc iha ihb =>
    refine ⟨fun s pc r ρ w res hat hg hok hs hr => ?_, fun t f pt pf s pc r ρ w res hat ht hf _ hc => hc.elim⟩
    have hm := (gen_mono c).2 (.tmp s.n) (.tmp (s.n + 1)) ⟨s.n + 3, s.m + 1⟩
    simp only at hm
    simp only [genE] at hat
    generalize ho0 : genC c (.tmp s.n) (.tmp (s.n + 1)) ⟨s.n + 3, s.m + 1⟩ = o0 at hat hm
    generalize ho1 : genE a o0.s = o1 at hat
    generalize ho2 : genE b o1.s = o2 at hat
    have hm1 := (gen_mono a).1 o0.s
    have hm2 := (gen_mono b).1 o1.s
    rw [ho1] at hm1
    rw [ho2] at hm2
    simp only [at_append, At, List.length_append, List.length_cons, List.length_nil] at hat
    obtain ⟨⟨⟨⟨⟨hc0, hl0, -⟩, hc1⟩, hj⟩, hc2⟩, hlast⟩ := hat
    have e : genE (.tern c a b) s = ⟨o0.code ++ [.lab (.tmp s.n)] ++ o1.code ++ [.mov s.m o1.opr, .jmp (.tmp (s.n + 2)), .lab (.tmp (s.n + 1))] ++
      o2.code ++ [.mov s.m o2.opr, .lab (.tmp (s.n + 2))], .reg s.m, o2.s⟩ := by
      simp only [genE, ho0, ho1, ho2]
    have hlen : pc + (genE (.tern c a b) s).code.length = pc + (o0.code.length + (0 + 1) + o1.code.length + (0 + 1 + 1 + 1) + o2.code.length) + 1 + 1 := by
      rw [e]; simp; omega
    rw [hlen]
    rw [← ho0] at hc0
    obtain ⟨r1, g1, a1, k1⟩ := ihc.2 _ _ _ _ _ pc r ρ w res hc0 (hu _ _ hl0) (hu _ _ hj.2.2.1) hg.1.1 hg.1.2 hok.1 (by simp; omega) hr
    have ev : eval (.tern c a b) ρ w = if M.truth (eval c ρ w).1 then eval a (eval c ρ w).2.1 (eval c ρ w).2.2
        else eval b (eval c ρ w).2.1 (eval c ρ w).2.2 := rfl
    by_cases hv : M.truth (eval c ρ w).1 = true
    · rw [if_pos hv] at g1
      rw [ev, if_pos hv]
      rw [← ho1] at hc1
      obtain ⟨r2, g2, a2, k2, v2⟩ := iha.1 _ _ r1 _ (eval c ρ w).2.2 res hc1 hg.2.1 hok.2.1 (by omega) a1
      rw [ho1] at g2 v2
      refine ⟨set r2 s.m (o1.opr.val r2), ?_, ?_, ?_, ?_⟩
      · have q1 := go_lab (r := r1) (w := (eval c ρ w).2.2) (res := res) hl0
        have q2 := go_mov (r := r2) (w := (eval a (eval c ρ w).2.1 (eval c ρ w).2.2).2.2) (res := res) hj.1
        have q3 := go_jmp (r := set r2 s.m (o1.opr.val r2)) (w := (eval a (eval c ρ w).2.1 (eval c ρ w).2.2).2.2) (res := res) hj.2.1 (hu _ _ hlast.2.1)
        have q4 := go_lab (r := set r2 s.m (o1.opr.val r2)) (w := (eval a (eval c ρ w).2.1 (eval c ρ w).2.2).2.2) (res := res) hlast.2.1
        rw [show pc + (o0.code.length + (0 + 1)) = pc + o0.code.length + 1 by omega] at g2
        rw [show pc + (o0.code.length + (0 + 1) + o1.code.length) = pc + o0.code.length + 1 + o1.code.length by omega] at q2 q3
        exact (g1.trans (q1.trans (g2.trans (q2.trans (q3.trans q4))))).weak (Nat.zero_le _)
      · intro x hx
        rw [set_ne (by omega)]
        exact a2 x hx
      · intro t ht htm
        rw [set_ne (by omega), k2 t ht (by omega), k1 t ht (by simp; omega)]
      · rw [e]; exact (set_self _ _ _).trans v2
    · rw [if_neg hv] at g1
      rw [ev, if_neg hv]
      rw [← ho2] at hc2
      obtain ⟨r2, g2, a2, k2, v2⟩ := ihb.1 _ _ r1 _ (eval c ρ w).2.2 res hc2 hg.2.2 hok.2.2 (by omega) a1
      rw [ho2] at g2 v2
      refine ⟨set r2 s.m (o2.opr.val r2), ?_, ?_, ?_, ?_⟩
      · have q1 := go_lab (r := r1) (w := (eval c ρ w).2.2) (res := res) hj.2.2.1
        have q2 := go_mov (r := r2) (w := (eval b (eval c ρ w).2.1 (eval c ρ w).2.2).2.2) (res := res) hlast.1
        have q4 := go_lab (r := set r2 s.m (o2.opr.val r2)) (w := (eval b (eval c ρ w).2.1 (eval c ρ w).2.2).2.2) (res := res) hlast.2.1
        rw [show pc + (o0.code.length + (0 + 1) + o1.code.length + (0 + 1 + 1 + 1)) = pc + (o0.code.length + (0 + 1) + o1.code.length) + 1 + 1 + 1 by omega] at g2
        rw [show pc + (o0.code.length + (0 + 1) + o1.code.length + (0 + 1 + 1 + 1) + o2.code.length) =
          pc + (o0.code.length + (0 + 1) + o1.code.length) + 1 + 1 + 1 + o2.code.length by omega] at q2 q4 ⊢
        exact (g1.trans (q1.trans (g2.trans (q2.trans q4)))).weak (Nat.zero_le _)
      · intro x hx
        rw [set_ne (by omega)]
        exact a2 x hx
      · intro t ht htm
        rw [set_ne (by omega), k2 t ht (by omega), k1 t ht (by simp; omega)]
      · rw [e]; exact (set_self _ _ _).trans v2
  | comma a b iha ihb =>
    constructor
    · intro s pc r ρ w res hat hg hok hs hr
      have hm := (gen_mono a).1 s
      simp only [genE, at_append] at hat
      obtain ⟨r1, g1, a1, k1, v1⟩ := iha.1 s pc r ρ w res hat.1 hg.1 hok.1 hs hr
      obtain ⟨r2, g2, a2, k2, v2⟩ := ihb.1 _ _ r1 _ (eval a ρ w).2.2 res hat.2 hg.2 hok.2 (by omega) a1
      refine ⟨r2, ?_, a2, k1.trans k2 hm.2, v2⟩
      have := g1.trans g2
      simpa only [genE, eval, List.length_append, Nat.add_assoc] using this
    · intro t f pt pf s pc r ρ w res hat ht hf hg hc hok hs hr
      have hm := (gen_mono a).1 s
      simp only [genC, at_append] at hat
      obtain ⟨r1, g1, a1, k1, v1⟩ := iha.1 s pc r ρ w res hat.1 hg.1 hok.1 hs hr
      obtain ⟨r2, g2, a2, k2⟩ := ihb.2 t f pt pf _ _ r1 _ (eval a ρ w).2.2 res hat.2 ht hf hg.2 hc hok.2 (by omega) a1
      refine ⟨r2, ?_, a2, k1.trans k2 hm.2⟩
      exact (g1.trans g2).weak (by omega)

/-! ### Every label is emitted once -/

theorem findIdx_of_count {α : Type} (p : α → Bool) : ∀ (l : List α) (i : Nat) (x : α),
    l.countP p ≤ 1 → l[i]? = some x → p x = true → l.findIdx? p = some i
  | [], i, x, _, h, _ => by simp at h
  | a :: l, 0, x, _, h, hx => by
    simp only [List.getElem?_cons_zero, Option.some.injEq] at h
    subst h
    simp [List.findIdx?_cons, hx]
  | a :: l, i + 1, x, hc, h, hx => by
    simp only [List.getElem?_cons_succ] at h
    have hpos : 0 < l.countP p := List.countP_pos_iff.2 ⟨x, List.mem_of_getElem? h, hx⟩
    rw [List.countP_cons] at hc
    have ha : p a = false := by
      cases hp : p a
      · rfl
      · simp only [hp, if_true] at hc; omega
    rw [List.findIdx?_cons, ha]
    simp only [Bool.false_eq_true, if_false]
    rw [findIdx_of_count p l i x (by omega) h hx]
    rfl

theorem uniq_of_count (h : ∀ b, C.countP (isLab b) ≤ 1) : Uniq C := fun i b hb =>
  findIdx_of_count _ _ _ _ (h b) hb (by simp [isLab])

/-- Only new labels, each at most once. -/
def Cnt (c : List (Ins M)) (n n' : Nat) : Prop :=
  (∀ k, c.countP (isLab (.tmp k)) ≤ 1 ∧ (k < n → c.countP (isLab (.tmp k)) = 0) ∧
    (n' ≤ k → c.countP (isLab (.tmp k)) = 0)) ∧
  (∀ b, (∀ k, b ≠ .tmp k) → c.countP (isLab b) = 0)

theorem cnt_nil (n : Nat) : Cnt ([] : List (Ins M)) n n := ⟨fun k => by simp, fun b _ => by simp⟩

@[simp] theorem isLab_tmp (b c : Lb) : isLab b (.lab c : Ins M) = decide (c = b) := rfl

theorem cmp_jmp_cnt (c : Cmp M) (t b : Lb) : (c.jmp t).countP (isLab b) = 0 := by
  cases c with
  | known v => cases v <;> simp [Cmp.jmp, isLab]
  | ask r x y => simp [Cmp.jmp, isLab]

theorem gen_cnt (e : Ex M) :
    (∀ s, Cnt (genE e s).code s.n (genE e s).s.n) ∧
    (∀ t f s, Cnt (genC e t f s).code s.n (genC e t f s).s.n) := by
  induction e with
  | const v => exact ⟨fun s => cnt_nil _, fun t f s => ⟨fun k => by simp [genC, isLab], fun b _ => by simp [genC, isLab]⟩⟩
  | var x => exact ⟨fun s => cnt_nil _, fun t f s => ⟨fun k => by simp [genC, isLab], fun b _ => by simp [genC, isLab]⟩⟩
  | un g a ih =>
    refine ⟨fun s => ⟨fun k => ?_, fun b hb => ?_⟩, fun t f s => ⟨fun k => by simp [genC, isLab], fun b _ => by simp [genC, isLab]⟩⟩
    · have := (ih.1 s).1 k
      simpa [genE, isLab] using this
    · have := (ih.1 s).2 b hb
      simpa [genE, isLab] using this
  | bin g a b iha ihb =>
    refine ⟨fun s => ⟨fun k => ?_, fun b' hb => ?_⟩, fun t f s => ⟨fun k => by simp [genC, isLab], fun b _ => by simp [genC, isLab]⟩⟩
    · have h1 := (iha.1 s).1 k
      have h2 := (ihb.1 (genE a s).s).1 k
      have m1 := (gen_mono a).1 s
      have m2 := (gen_mono b).1 (genE a s).s
      simp only [genE, List.countP_append, List.countP_cons, List.countP_nil, isLab, Bool.false_eq_true, if_false]
      omega
    · have h1 := (iha.1 s).2 b' hb
      have h2 := (ihb.1 (genE a s).s).2 b' hb
      simp only [genE, List.countP_append, List.countP_cons, List.countP_nil, isLab, Bool.false_eq_true, if_false]
      omega
  | assign x a ih =>
    refine ⟨fun s => ⟨fun k => ?_, fun b hb => ?_⟩, fun t f s => ⟨fun k => by simp [genC, isLab], fun b _ => by simp [genC, isLab]⟩⟩
    · have := (ih.1 s).1 k
      simpa [genE, isLab] using this
    · have := (ih.1 s).2 b hb
      simpa [genE, isLab] using this
  | inc p g x =>
    refine ⟨fun s => ⟨fun k => ?_, fun b hb => ?_⟩, fun t f s => ⟨fun k => by simp [genC, isLab], fun b _ => by simp [genC, isLab]⟩⟩
    · simp only [genE]; split <;> simp [isLab]
    · simp only [genE]; split <;> simp [isLab]
  | rel r a b iha ihb =>
    refine ⟨fun s => ⟨fun k => ?_, fun b' hb => ?_⟩, fun t f s => ⟨fun k => ?_, fun b' hb => ?_⟩⟩
    · have h1 := (iha.1 s).1 k
      have h2 := (ihb.1 (genE a s).s).1 k
      have m1 := (gen_mono a).1 s
      have m2 := (gen_mono b).1 (genE a s).s
      simp only [genE]
      split <;> simp only [List.countP_append, List.countP_cons, List.countP_nil, isLab, Bool.false_eq_true, if_false] <;> omega
    · have h1 := (iha.1 s).2 b' hb
      have h2 := (ihb.1 (genE a s).s).2 b' hb
      simp only [genE]
      split <;> simp only [List.countP_append, List.countP_cons, List.countP_nil, isLab, Bool.false_eq_true, if_false] <;> omega
    · have h1 := (iha.1 s).1 k
      have h2 := (ihb.1 (genE a s).s).1 k
      have m1 := (gen_mono a).1 s
      have m2 := (gen_mono b).1 (genE a s).s
      simp only [genC, List.countP_append, List.countP_cons, List.countP_nil, isLab, cmp_jmp_cnt, Bool.false_eq_true, if_false, Lb.tmp.injEq,
        decide_eq_true_eq]
      split_ifs <;> omega
    · have h1 := (iha.1 s).2 b' hb
      have h2 := (ihb.1 (genE a s).s).2 b' hb
      have h3 := fun k => Ne.symm (hb k)
      simp only [genC, List.countP_append, List.countP_cons, List.countP_nil, isLab, cmp_jmp_cnt, Bool.false_eq_true, if_false, h3, decide_false]
      omega
  | not a ih =>
    exact ⟨fun s => ⟨fun k => by simp [genE, isLab], fun b _ => by simp [genE, isLab]⟩,
      fun t f s => ⟨fun k => by simp [genC, isLab], fun b _ => by simp [genC, isLab]⟩⟩
  | and a b iha ihb =>
    refine ⟨fun s => ?_, fun t f s => ?_⟩
    · have m1 := (gen_mono a).2 (.tmp (s.n + 3)) (.tmp (s.n + 1)) ⟨s.n + 4, s.m⟩
      have m2 := (gen_mono b).2 (.tmp s.n) (.tmp (s.n + 1)) (genC a (.tmp (s.n + 3)) (.tmp (s.n + 1)) ⟨s.n + 4, s.m⟩).s
      have c1 := iha.2 (.tmp (s.n + 3)) (.tmp (s.n + 1)) ⟨s.n + 4, s.m⟩
      have c2 := ihb.2 (.tmp s.n) (.tmp (s.n + 1)) (genC a (.tmp (s.n + 3)) (.tmp (s.n + 1)) ⟨s.n + 4, s.m⟩).s
      refine ⟨fun k => ?_, fun b' hb => ?_⟩
      · have h1 := c1.1 k
        have h2 := c2.1 k
        simp only [genE, List.countP_append, List.countP_cons, List.countP_nil, isLab, Bool.false_eq_true, if_false, Lb.tmp.injEq,
          decide_eq_true_eq] at *
        split_ifs <;> omega
      · have h1 := c1.2 b' hb
        have h2 := c2.2 b' hb
        have h3 := fun k => Ne.symm (hb k)
        simp only [genE, List.countP_append, List.countP_cons, List.countP_nil, isLab, Bool.false_eq_true, if_false, h3, decide_false]
        omega
    · have m1 := (gen_mono a).2 (.tmp s.n) f ⟨s.n + 1, s.m⟩
      have m2 := (gen_mono b).2 t f (genC a (.tmp s.n) f ⟨s.n + 1, s.m⟩).s
      have c1 := iha.2 (.tmp s.n) f ⟨s.n + 1, s.m⟩
      have c2 := ihb.2 t f (genC a (.tmp s.n) f ⟨s.n + 1, s.m⟩).s
      refine ⟨fun k => ?_, fun b' hb => ?_⟩
      · have h1 := c1.1 k
        have h2 := c2.1 k
        simp only [genC, List.countP_append, List.countP_cons, List.countP_nil, isLab, Bool.false_eq_true, if_false, Lb.tmp.injEq,
          decide_eq_true_eq] at *
        split_ifs <;> omega
      · have h1 := c1.2 b' hb
        have h2 := c2.2 b' hb
        have h3 := fun k => Ne.symm (hb k)
        simp only [genC, List.countP_append, List.countP_cons, List.countP_nil, isLab, Bool.false_eq_true, if_false, h3, decide_false]
        omega
  | or a b iha ihb =>
    refine ⟨fun s => ?_, fun t f s => ?_⟩
    · have m1 := (gen_mono a).2 (.tmp s.n) (.tmp (s.n + 3)) ⟨s.n + 4, s.m⟩
      have m2 := (gen_mono b).2 (.tmp s.n) (.tmp (s.n + 1)) (genC a (.tmp s.n) (.tmp (s.n + 3)) ⟨s.n + 4, s.m⟩).s
      have c1 := iha.2 (.tmp s.n) (.tmp (s.n + 3)) ⟨s.n + 4, s.m⟩
      have c2 := ihb.2 (.tmp s.n) (.tmp (s.n + 1)) (genC a (.tmp s.n) (.tmp (s.n + 3)) ⟨s.n + 4, s.m⟩).s
      refine ⟨fun k => ?_, fun b' hb => ?_⟩
      · have h1 := c1.1 k
        have h2 := c2.1 k
        simp only [genE, List.countP_append, List.countP_cons, List.countP_nil, isLab, Bool.false_eq_true, if_false, Lb.tmp.injEq,
          decide_eq_true_eq] at *
        split_ifs <;> omega
      · have h1 := c1.2 b' hb
        have h2 := c2.2 b' hb
        have h3 := fun k => Ne.symm (hb k)
        simp only [genE, List.countP_append, List.countP_cons, List.countP_nil, isLab, Bool.false_eq_true, if_false, h3, decide_false]
        omega
    · have m1 := (gen_mono a).2 t (.tmp s.n) ⟨s.n + 1, s.m⟩
      have m2 := (gen_mono b).2 t f (genC a t (.tmp s.n) ⟨s.n + 1, s.m⟩).s
      have c1 := iha.2 t (.tmp s.n) ⟨s.n + 1, s.m⟩
      have c2 := ihb.2 t f (genC a t (.tmp s.n) ⟨s.n + 1, s.m⟩).s
      refine ⟨fun k => ?_, fun b' hb => ?_⟩
      · have h1 := c1.1 k
        have h2 := c2.1 k
        simp only [genC, List.countP_append, List.countP_cons, List.countP_nil, isLab, Bool.false_eq_true, if_false, Lb.tmp.injEq,
          decide_eq_true_eq] at *
        split_ifs <;> omega
      · have h1 := c1.2 b' hb
        have h2 := c2.2 b' hb
        have h3 := fun k => Ne.symm (hb k)
        simp only [genC, List.countP_append, List.countP_cons, List.countP_nil, isLab, Bool.false_eq_true, if_false, h3, decide_false]
        omega
  | tern c a b ihc iha ihb =>
    refine ⟨fun s => ?_, fun t f s => ⟨fun k => by simp [genC, isLab], fun b _ => by simp [genC, isLab]⟩⟩
    have m0 := (gen_mono c).2 (.tmp s.n) (.tmp (s.n + 1)) ⟨s.n + 3, s.m + 1⟩
    have c0 := ihc.2 (.tmp s.n) (.tmp (s.n + 1)) ⟨s.n + 3, s.m + 1⟩
    simp only [genE]
    generalize genC c (.tmp s.n) (.tmp (s.n + 1)) ⟨s.n + 3, s.m + 1⟩ = o0 at *
    have m1 := (gen_mono a).1 o0.s
    have c1 := iha.1 o0.s
    have m2 := (gen_mono b).1 (genE a o0.s).s
    have c2 := ihb.1 (genE a o0.s).s
    refine ⟨fun k => ?_, fun b' hb => ?_⟩
    · have h0 := c0.1 k
      have h1 := c1.1 k
      have h2 := c2.1 k
      simp only [List.countP_append, List.countP_cons, List.countP_nil, isLab, Bool.false_eq_true, if_false, Lb.tmp.injEq,
        decide_eq_true_eq] at *
      split_ifs <;> omega
    · have h0 := c0.2 b' hb
      have h1 := c1.2 b' hb
      have h2 := c2.2 b' hb
      have h3 := fun k => Ne.symm (hb k)
      simp only [List.countP_append, List.countP_cons, List.countP_nil, isLab, Bool.false_eq_true, if_false, h3, decide_false]
      omega
  | comma a b iha ihb =>
    refine ⟨fun s => ⟨fun k => ?_, fun b' hb => ?_⟩, fun t f s => ⟨fun k => ?_, fun b' hb => ?_⟩⟩
    · have h1 := (iha.1 s).1 k
      have h2 := (ihb.1 (genE a s).s).1 k
      have m1 := (gen_mono a).1 s
      have m2 := (gen_mono b).1 (genE a s).s
      simp only [genE, List.countP_append]
      omega
    · have h1 := (iha.1 s).2 b' hb
      have h2 := (ihb.1 (genE a s).s).2 b' hb
      simp only [genE, List.countP_append]
      omega
    · have h1 := (iha.1 s).1 k
      have h2 := (ihb.2 t f (genE a s).s).1 k
      have m1 := (gen_mono a).1 s
      have m2 := (gen_mono b).2 t f (genE a s).s
      simp only [genC, List.countP_append]
      omega
    · have h1 := (iha.1 s).2 b' hb
      have h2 := (ihb.2 t f (genE a s).s).2 b' hb
      simp only [genC, List.countP_append]
      omega

theorem genO_mono (e : Option (Ex M)) (s : Fresh) : s.n ≤ (genO e s).s.n ∧ s.m ≤ (genO e s).s.m := by
  cases e with
  | none => simp [genO]
  | some e => exact (gen_mono (parse e)).1 s

theorem genT_mono (e : Option (Ex M)) (t f : Lb) (s : Fresh) :
    s.n ≤ (genT e t f s).s.n ∧ s.m ≤ (genT e t f s).s.m := by
  cases e with
  | none => simp [genT]
  | some e => exact (gen_mono _).2 t f s

theorem genO_cnt (e : Option (Ex M)) (s : Fresh) : Cnt (genO e s).code s.n (genO e s).s.n := by
  cases e with
  | none => exact cnt_nil _
  | some e => exact (gen_cnt (parse e)).1 s

theorem genT_cnt (e : Option (Ex M)) (t f : Lb) (s : Fresh) :
    Cnt (genT e t f s).code s.n (genT e t f s).s.n := by
  cases e with
  | none => exact ⟨fun k => by simp [genT, isLab], fun b _ => by simp [genT, isLab]⟩
  | some e => exact (gen_cnt _).2 t f s

theorem leave_mono (b : Option Lb) (s : Fresh) :
    s.n ≤ (leave (M := M) b s).s.n ∧ s.m ≤ (leave (M := M) b s).s.m := by
  cases b <;> simp [leave]

theorem genS_mono (a : St M) : ∀ (x : Ctx) (s : Fresh), s.n ≤ (genS x a s).s.n ∧ s.m ≤ (genS x a s).s.m := by
  induction a with
  | skip => intro x s; simp [genS]
  | expr e => intro x s; exact (gen_mono (parse e)).1 s
  | seq a b iha ihb =>
    intro x s
    have h1 := iha x s
    have h2 := ihb x (genS x a s).s
    simp only [genS]; omega
  | ite c a ih =>
    intro x s
    simp only [genS]
    have h0 := (gen_mono (mkCond (parse c))).2 (.tmp s.n) (.tmp (s.n + 1)) ⟨s.n + 2, s.m⟩
    have h1 := ih x (genC (mkCond (parse c)) (.tmp s.n) (.tmp (s.n + 1)) ⟨s.n + 2, s.m⟩).s
    simp only at h0
    omega
  | itee c a b iha ihb =>
    intro x s
    simp only [genS]
    have h0 := (gen_mono (mkCond (parse c))).2 (.tmp s.n) (.tmp (s.n + 1)) ⟨s.n + 2, s.m⟩
    generalize (genC (mkCond (parse c)) (.tmp s.n) (.tmp (s.n + 1)) ⟨s.n + 2, s.m⟩) = o0 at *
    have h1 := iha x o0.s
    have h2 := ihb x ⟨(genS x a o0.s).s.n + 1, (genS x a o0.s).s.m⟩
    simp only at h0 h2
    omega
  | «while» c a ih =>
    intro x s
    simp only [genS]
    have h1 := ih ⟨some (.tmp (s.n + 2)), some (.tmp (s.n + 1))⟩ ⟨s.n + 3, s.m⟩
    generalize (genS ⟨some (.tmp (s.n + 2)), some (.tmp (s.n + 1))⟩ a ⟨s.n + 3, s.m⟩) = o1 at *
    have h0 := (gen_mono (mkCond (parse c))).2 (.tmp s.n) (.tmp (s.n + 2)) o1.s
    simp only at h1
    omega
  | doWhile a c ih =>
    intro x s
    simp only [genS]
    have h1 := ih ⟨some (.tmp (s.n + 2)), some (.tmp (s.n + 1))⟩ ⟨s.n + 3, s.m⟩
    generalize (genS ⟨some (.tmp (s.n + 2)), some (.tmp (s.n + 1))⟩ a ⟨s.n + 3, s.m⟩) = o1 at *
    have h0 := (gen_mono (mkCond (parse c))).2 (.tmp s.n) (.tmp (s.n + 2)) o1.s
    simp only at h1
    omega
  | «for» pre c post a ih =>
    intro x s
    simp only [genS]
    have h0 := genO_mono pre ⟨s.n + 4, s.m⟩
    generalize genO pre ⟨s.n + 4, s.m⟩ = o0 at *
    have h1 := ih ⟨some (.tmp (s.n + 3)), some (.tmp (s.n + 1))⟩ o0.s
    generalize (genS ⟨some (.tmp (s.n + 3)), some (.tmp (s.n + 1))⟩ a o0.s) = o1 at *
    have h2 := genO_mono post o1.s
    have h3 := genT_mono c (.tmp s.n) (.tmp (s.n + 3)) (genO post o1.s).s
    simp only at h0
    omega
  | «break» => intro x s; exact leave_mono _ s
  | «continue» => intro x s; exact leave_mono _ s
  | ret e =>
    intro x s
    cases e with
    | none => exact leave_mono _ s
    | some e =>
      have h := (gen_mono (parse e)).1 ⟨s.n + 1, s.m⟩
      simp only [genS] at *; omega
  | goto l => intro x s; exact leave_mono _ s
  | label l a ih => intro x s; exact ih x s
  | switch e a ih =>
    intro x s
    simp only [genS]
    have h0 := (gen_mono (parse e)).1 ⟨s.n + 1, s.m⟩
    generalize genE (parse e) ⟨s.n + 1, s.m⟩ = o0 at *
    have h1 := ih ⟨some (.tmp s.n), x.cont⟩ ⟨o0.s.n + 1, o0.s.m⟩
    simp only at h0 h1
    omega
  | case i v a ih => intro x s; exact ih x s

/-- New labels at most once each, the program's labels as often as in the statement. -/
def CntS (c : List (Ins M)) (L : List Lb) (n n' : Nat) : Prop :=
  (∀ k, c.countP (isLab (.tmp k)) ≤ 1 ∧ (k < n → c.countP (isLab (.tmp k)) = 0) ∧
    (n' ≤ k → c.countP (isLab (.tmp k)) = 0)) ∧
  (∀ b, (∀ k, b ≠ .tmp k) → c.countP (isLab b) = L.count b)

theorem leave_cnt (b : Option Lb) (s : Fresh) :
    CntS (leave (M := M) b s).code [] s.n (leave (M := M) b s).s.n := by
  cases b with
  | none => exact ⟨fun k => by simp [leave, isLab], fun b _ => by simp [leave, isLab]⟩
  | some b =>
    refine ⟨fun k => ?_, fun b hb => ?_⟩
    · simp only [leave, List.countP_cons, List.countP_nil, isLab, Bool.false_eq_true, if_false, Lb.tmp.injEq, decide_eq_true_eq]
      split_ifs <;> omega
    · have h3 := fun k => Ne.symm (hb k)
      simp [leave, isLab, h3]

theorem genS_cnt (a : St M) : ∀ (x : Ctx) (s : Fresh), CntS (genS x a s).code a.labels s.n (genS x a s).s.n := by
  induction a with
  | skip => intro x s; exact ⟨fun k => by simp [genS], fun b _ => by simp [genS, St.labels]⟩
  | expr e => intro x s; exact (gen_cnt (parse e)).1 s
  | seq a b iha ihb =>
    intro x s
    have m1 := genS_mono a x s
    have m2 := genS_mono b x (genS x a s).s
    refine ⟨fun k => ?_, fun b' hb => ?_⟩
    · have h1 := (iha x s).1 k
      have h2 := (ihb x (genS x a s).s).1 k
      simp only [genS, List.countP_append]; omega
    · have h1 := (iha x s).2 b' hb
      have h2 := (ihb x (genS x a s).s).2 b' hb
      simp only [genS, St.labels, List.countP_append, List.count_append]; omega
  | ite c a ih =>
    intro x s
    simp only [genS, St.labels]
    have m0 := (gen_mono (mkCond (parse c))).2 (.tmp s.n) (.tmp (s.n + 1)) ⟨s.n + 2, s.m⟩
    have c0 := (gen_cnt (mkCond (parse c))).2 (.tmp s.n) (.tmp (s.n + 1)) ⟨s.n + 2, s.m⟩
    generalize (genC (mkCond (parse c)) (.tmp s.n) (.tmp (s.n + 1)) ⟨s.n + 2, s.m⟩) = o0 at *
    have m1 := genS_mono a x o0.s
    have c1 := ih x o0.s
    refine ⟨fun k => ?_, fun b' hb => ?_⟩
    · have h0 := c0.1 k
      have h1 := c1.1 k
      simp only [List.countP_append, List.countP_cons, List.countP_nil, isLab, Bool.false_eq_true, if_false, Lb.tmp.injEq, decide_eq_true_eq] at *
      split_ifs <;> omega
    · have h0 := c0.2 b' hb
      have h1 := c1.2 b' hb
      have h3 := fun k => Ne.symm (hb k)
      simp only [List.countP_append, List.countP_cons, List.countP_nil, isLab, Bool.false_eq_true, if_false, h3, decide_false]
      omega
  | itee c a b iha ihb =>
    intro x s
    simp only [genS, St.labels]
    have m0 := (gen_mono (mkCond (parse c))).2 (.tmp s.n) (.tmp (s.n + 1)) ⟨s.n + 2, s.m⟩
    have c0 := (gen_cnt (mkCond (parse c))).2 (.tmp s.n) (.tmp (s.n + 1)) ⟨s.n + 2, s.m⟩
    generalize (genC (mkCond (parse c)) (.tmp s.n) (.tmp (s.n + 1)) ⟨s.n + 2, s.m⟩) = o0 at *
    have m1 := genS_mono a x o0.s
    have c1 := iha x o0.s
    generalize genS x a o0.s = o1 at *
    have m2 := genS_mono b x ⟨o1.s.n + 1, o1.s.m⟩
    have c2 := ihb x ⟨o1.s.n + 1, o1.s.m⟩
    refine ⟨fun k => ?_, fun b' hb => ?_⟩
    · have h0 := c0.1 k
      have h1 := c1.1 k
      have h2 := c2.1 k
      simp only [List.countP_append, List.countP_cons, List.countP_nil, isLab, Bool.false_eq_true, if_false, Lb.tmp.injEq, decide_eq_true_eq] at *
      split_ifs <;> omega
    · have h0 := c0.2 b' hb
      have h1 := c1.2 b' hb
      have h2 := c2.2 b' hb
      have h3 := fun k => Ne.symm (hb k)
      simp only [List.countP_append, List.countP_cons, List.countP_nil, isLab, Bool.false_eq_true, if_false, h3, decide_false, List.count_append]
      omega
  | «while» c a ih =>
    intro x s
    simp only [genS, St.labels]
    have m1 := genS_mono a ⟨some (.tmp (s.n + 2)), some (.tmp (s.n + 1))⟩ ⟨s.n + 3, s.m⟩
    have c1 := ih ⟨some (.tmp (s.n + 2)), some (.tmp (s.n + 1))⟩ ⟨s.n + 3, s.m⟩
    generalize (genS ⟨some (.tmp (s.n + 2)), some (.tmp (s.n + 1))⟩ a ⟨s.n + 3, s.m⟩) = o1 at *
    have m0 := (gen_mono (mkCond (parse c))).2 (.tmp s.n) (.tmp (s.n + 2)) o1.s
    have c0 := (gen_cnt (mkCond (parse c))).2 (.tmp s.n) (.tmp (s.n + 2)) o1.s
    refine ⟨fun k => ?_, fun b' hb => ?_⟩
    · have h0 := c0.1 k
      have h1 := c1.1 k
      simp only [List.countP_append, List.countP_cons, List.countP_nil, isLab, Bool.false_eq_true, if_false, Lb.tmp.injEq, decide_eq_true_eq] at *
      split_ifs <;> omega
    · have h0 := c0.2 b' hb
      have h1 := c1.2 b' hb
      have h3 := fun k => Ne.symm (hb k)
      simp only [List.countP_append, List.countP_cons, List.countP_nil, isLab, Bool.false_eq_true, if_false, h3, decide_false]
      omega
  | doWhile a c ih =>
    intro x s
    simp only [genS, St.labels]
    have m1 := genS_mono a ⟨some (.tmp (s.n + 2)), some (.tmp (s.n + 1))⟩ ⟨s.n + 3, s.m⟩
    have c1 := ih ⟨some (.tmp (s.n + 2)), some (.tmp (s.n + 1))⟩ ⟨s.n + 3, s.m⟩
    generalize (genS ⟨some (.tmp (s.n + 2)), some (.tmp (s.n + 1))⟩ a ⟨s.n + 3, s.m⟩) = o1 at *
    have m0 := (gen_mono (mkCond (parse c))).2 (.tmp s.n) (.tmp (s.n + 2)) o1.s
    have c0 := (gen_cnt (mkCond (parse c))).2 (.tmp s.n) (.tmp (s.n + 2)) o1.s
    refine ⟨fun k => ?_, fun b' hb => ?_⟩
    · have h0 := c0.1 k
      have h1 := c1.1 k
      simp only [List.countP_append, List.countP_cons, List.countP_nil, isLab, Bool.false_eq_true, if_false, Lb.tmp.injEq, decide_eq_true_eq] at *
      split_ifs <;> omega
    · have h0 := c0.2 b' hb
      have h1 := c1.2 b' hb
      have h3 := fun k => Ne.symm (hb k)
      simp only [List.countP_append, List.countP_cons, List.countP_nil, isLab, Bool.false_eq_true, if_false, h3, decide_false]
      omega
  | «for» pre c post a ih =>
    intro x s
    simp only [genS, St.labels]
    have m0 := genO_mono pre ⟨s.n + 4, s.m⟩
    have c0 := genO_cnt pre ⟨s.n + 4, s.m⟩
    generalize genO pre ⟨s.n + 4, s.m⟩ = o0 at *
    have m1 := genS_mono a ⟨some (.tmp (s.n + 3)), some (.tmp (s.n + 1))⟩ o0.s
    have c1 := ih ⟨some (.tmp (s.n + 3)), some (.tmp (s.n + 1))⟩ o0.s
    generalize (genS ⟨some (.tmp (s.n + 3)), some (.tmp (s.n + 1))⟩ a o0.s) = o1 at *
    have m2 := genO_mono post o1.s
    have c2 := genO_cnt post o1.s
    generalize genO post o1.s = o2 at *
    have m3 := genT_mono c (.tmp s.n) (.tmp (s.n + 3)) o2.s
    have c3 := genT_cnt c (.tmp s.n) (.tmp (s.n + 3)) o2.s
    refine ⟨fun k => ?_, fun b' hb => ?_⟩
    · have h0 := c0.1 k
      have h1 := c1.1 k
      have h2 := c2.1 k
      have h3 := c3.1 k
      simp only [List.countP_append, List.countP_cons, List.countP_nil, isLab, Bool.false_eq_true, if_false, Lb.tmp.injEq, decide_eq_true_eq] at *
      split_ifs <;> omega
    · have h0 := c0.2 b' hb
      have h1 := c1.2 b' hb
      have h2 := c2.2 b' hb
      have h4 := c3.2 b' hb
      have h3 := fun k => Ne.symm (hb k)
      simp only [List.countP_append, List.countP_cons, List.countP_nil, isLab, Bool.false_eq_true, if_false, h3, decide_false]
      omega
  | «break» => intro x s; exact leave_cnt _ s
  | «continue» => intro x s; exact leave_cnt _ s
  | ret e =>
    intro x s
    cases e with
    | none => exact leave_cnt _ s
    | some e =>
      simp only [genS, St.labels]
      have m0 := (gen_mono (parse e)).1 ⟨s.n + 1, s.m⟩
      have c0 := (gen_cnt (parse e)).1 ⟨s.n + 1, s.m⟩
      refine ⟨fun k => ?_, fun b' hb => ?_⟩
      · have h0 := c0.1 k
        simp only [List.countP_append, List.countP_cons, List.countP_nil, isLab, Bool.false_eq_true, if_false, Lb.tmp.injEq, decide_eq_true_eq] at *
        split_ifs <;> omega
      · have h0 := c0.2 b' hb
        have h3 := fun k => Ne.symm (hb k)
        simp only [List.countP_append, List.countP_cons, List.countP_nil, isLab, Bool.false_eq_true, if_false, h3, decide_false, List.count_nil]
        omega
  | goto l => intro x s; exact leave_cnt _ s
  | label l a ih =>
    intro x s
    simp only [genS, St.labels]
    refine ⟨fun k => ?_, fun b' hb => ?_⟩
    · have := (ih x s).1 k
      simpa [isLab] using this
    · have := (ih x s).2 b' hb
      simp only [List.countP_append, List.countP_cons, List.countP_nil, isLab, List.count_cons, this, decide_eq_true_eq, beq_iff_eq]
      omega
  | switch e a ih =>
    intro x s
    simp only [genS, St.labels]
    have m0 := (gen_mono (parse e)).1 ⟨s.n + 1, s.m⟩
    have c0 := (gen_cnt (parse e)).1 ⟨s.n + 1, s.m⟩
    generalize genE (parse e) ⟨s.n + 1, s.m⟩ = o0 at *
    have m1 := genS_mono a ⟨some (.tmp s.n), x.cont⟩ ⟨o0.s.n + 1, o0.s.m⟩
    have c1 := ih ⟨some (.tmp s.n), x.cont⟩ ⟨o0.s.n + 1, o0.s.m⟩
    refine ⟨fun k => ?_, fun b' hb => ?_⟩
    · have h0 := c0.1 k
      have h1 := c1.1 k
      simp only [List.countP_append, List.countP_cons, List.countP_nil, isLab, Bool.false_eq_true, if_false, Lb.tmp.injEq, decide_eq_true_eq] at *
      split_ifs <;> omega
    · have h0 := c0.2 b' hb
      have h1 := c1.2 b' hb
      have h3 := fun k => Ne.symm (hb k)
      simp only [List.countP_append, List.countP_cons, List.countP_nil, isLab, Bool.false_eq_true, if_false, h3, decide_false]
      omega
  | case i v a ih =>
    intro x s
    simp only [genS, St.labels]
    refine ⟨fun k => ?_, fun b' hb => ?_⟩
    · have := (ih x s).1 k
      simpa [isLab] using this
    · have := (ih x s).2 b' hb
      simp only [List.countP_append, List.countP_cons, List.countP_nil, isLab, List.count_cons, this, decide_eq_true_eq, beq_iff_eq]
      omega

theorem no_ret (a : St M) : Lb.ret ∉ a.labels := by
  induction a <;> simp_all [St.labels]

theorem genF_uniq {nv : Nat} {f : St M} (h : f.labels.Nodup) : Uniq (genF nv f) := by
  refine uniq_of_count fun b => ?_
  have hc := genS_cnt f ⟨none, none⟩ ⟨0, nv⟩
  rw [genF, List.countP_append]
  cases b with
  | tmp k => have := (hc.1 k).1; simpa [isLab] using this
  | ret =>
    rw [hc.2 .ret (by simp), List.count_eq_zero.2 (no_ret f)]
    simp [isLab]
  | user l =>
    rw [hc.2 _ (by simp)]
    have := List.nodup_iff_count_le_one.1 h (.user l)
    simpa [isLab] using this
  | case i =>
    rw [hc.2 _ (by simp)]
    have := List.nodup_iff_count_le_one.1 h (.case i)
    simpa [isLab] using this

/-! ### Statements -/

theorem genO_ok (hM : M.Ok) (hu : Uniq C) {nv : Nat} {e : Option (Ex M)} {s : Fresh} {pc : Nat} {r ρ : Env M}
    {w : M.W} {res : Option M.V} (hat : At C pc (genO e s).code) (hok : okO nv e) (hs : nv ≤ s.m)
    (hr : Agree nv r ρ) : ∃ r', Go C 0 ⟨pc, r, w, res⟩ ⟨pc + (genO e s).code.length, r', (evalO e ρ w).2, res⟩ ∧
      Agree nv r' (evalO e ρ w).1 := by
  cases e with
  | none => exact ⟨r, Go.refl _, hr⟩
  | some e =>
    obtain ⟨r', g, a, -, -⟩ := (gen_ok hM hu nv (parse e)).1 s pc r ρ w res hat (good_parse e) (ok_parse hok) hs hr
    rw [eval_parse hM] at g a
    exact ⟨r', g, a⟩

theorem genT_ok (hM : M.Ok) (hu : Uniq C) {nv : Nat} {e : Option (Ex M)} {t f : Lb} {pt pf : Nat} {s : Fresh} {pc : Nat}
    {r ρ : Env M} {w : M.W} {res : Option M.V} (hat : At C pc (genT e t f s).code) (ht : find C t = some pt)
    (hf : find C f = some pf) (hok : okO nv e) (hs : nv ≤ s.m) (hr : Agree nv r ρ) :
    ∃ r', Go C 1 ⟨pc, r, w, res⟩ ⟨if (testO e ρ w).1 then pt else pf, r', (testO e ρ w).2.2, res⟩ ∧
      Agree nv r' (testO e ρ w).2.1 := by
  cases e with
  | none => exact ⟨r, go_jmp hat.1 ht, hr⟩
  | some e =>
    have hb : ∀ b, M.truth (M.ofBool b) = b := hM.bool
    have hg := good_mkCond (good_parse e)
    obtain ⟨r', g, a, -⟩ := (gen_ok hM hu nv (mkCond (parse e))).2 t f pt pf s pc r ρ w res hat ht hf hg.1 hg.2
      (ok_mkCond (ok_parse hok)) hs hr
    rw [eval_mkCond hM, eval_parse hM] at g a
    simp only [hb] at g
    exact ⟨r', g, a⟩

/-- Going on from `p` is going on from `q`. -/
def Fall (C : List (Ins M)) (p q : Nat) : Prop := ∀ r w res, Go C 0 ⟨p, r, w, res⟩ ⟨q, r, w, res⟩

theorem Fall.refl (p : Nat) : Fall C p p := fun _ _ _ => Go.refl _
theorem Fall.trans {p q t : Nat} (h : Fall C p q) (h' : Fall C q t) : Fall C p t := fun r w res =>
  (h r w res).trans (h' r w res)
theorem fall_lab {p : Nat} {b : Lb} (h : C[p]? = some (.lab b)) : Fall C p (p + 1) := fun _ _ _ =>
  (go_lab h).weak (Nat.zero_le _)
theorem fall_jmp {p q : Nat} {b : Lb} (h : C[p]? = some (.jmp b)) (hb : find C b = some q) : Fall C p q :=
  fun _ _ _ => (go_jmp h hb).weak (Nat.zero_le _)

/-- The code at `pc` does what the continuation says. -/
inductive MK (C : List (Ins M)) (nv : Nat) (L : List Lb) : Cont M → Nat → Ctx → Prop
  | stop {p pc : Nat} : Fall C p pc → C[pc]? = some (.lab .ret) → pc + 1 = C.length → MK C nv L .stop p ⟨none, none⟩
  | seq {p pc : Nat} {a : St M} {k : Cont M} {x : Ctx} {s : Fresh} : Fall C p pc → At C pc (genS x a s).code →
      nv ≤ s.m → a.Ok nv L x.brk.isSome x.cont.isSome → MK C nv L k (pc + (genS x a s).code.length) x →
      MK C nv L (.seq a k) p x
  | while {p pc pb pl : Nat} {c : Ex M} {a : St M} {k : Cont M} {x : Ctx} {s s' : Fresh} {lp nx cd : Lb} :
      Fall C p pc → C[pl]? = some (.lab lp) → pl + 1 = pb → At C pb (genS ⟨some nx, some cd⟩ a s).code → nv ≤ s.m →
      a.Ok nv L true true →
      pb + (genS ⟨some nx, some cd⟩ a s).code.length = pc → C[pc]? = some (.lab cd) →
      At C (pc + 1) (genT (some c) lp nx s').code → nv ≤ s'.m → c.Ok nv →
      C[pc + 1 + (genT (some c) lp nx s').code.length]? = some (.lab nx) →
      MK C nv L k (pc + 1 + (genT (some c) lp nx s').code.length + 1) x →
      MK C nv L (.while c a k) p ⟨some nx, some cd⟩
  | doWhile {p pc pb pl : Nat} {c : Ex M} {a : St M} {k : Cont M} {x : Ctx} {s s' : Fresh} {lp nx cd : Lb} :
      Fall C p pc → C[pl]? = some (.lab lp) → pl + 1 = pb → At C pb (genS ⟨some nx, some cd⟩ a s).code → nv ≤ s.m →
      a.Ok nv L true true →
      pb + (genS ⟨some nx, some cd⟩ a s).code.length = pc → C[pc]? = some (.lab cd) →
      At C (pc + 1) (genT (some c) lp nx s').code → nv ≤ s'.m → c.Ok nv →
      C[pc + 1 + (genT (some c) lp nx s').code.length]? = some (.lab nx) →
      MK C nv L k (pc + 1 + (genT (some c) lp nx s').code.length + 1) x →
      MK C nv L (.doWhile a c k) p ⟨some nx, some cd⟩
  | for {p pc pb pl pd : Nat} {c post : Option (Ex M)} {a : St M} {k : Cont M} {x : Ctx} {s s' s'' : Fresh} {lp nx ct cd : Lb} :
      Fall C p pc → C[pl]? = some (.lab lp) → pl + 1 = pb → At C pb (genS ⟨some nx, some ct⟩ a s).code → nv ≤ s.m →
      a.Ok nv L true true →
      pb + (genS ⟨some nx, some ct⟩ a s).code.length = pc → C[pc]? = some (.lab ct) →
      At C (pc + 1) (genO post s').code → nv ≤ s'.m → okO nv post →
      pc + 1 + (genO post s').code.length = pd → C[pd]? = some (.lab cd) →
      At C (pd + 1) (genT c lp nx s'').code → nv ≤ s''.m → okO nv c →
      C[pd + 1 + (genT c lp nx s'').code.length]? = some (.lab nx) →
      MK C nv L k (pd + 1 + (genT c lp nx s'').code.length + 1) x →
      MK C nv L (.for c post a k) p ⟨some nx, some ct⟩
  | switch {p pc : Nat} {k : Cont M} {x : Ctx} {nx : Lb} : Fall C p pc → C[pc]? = some (.lab nx) →
      MK C nv L k (pc + 1) x → MK C nv L (.switch k) p ⟨some nx, x.cont⟩

variable {nv : Nat} {L : List Lb}

theorem MK.fall {k : Cont M} {p q : Nat} {x : Ctx} (h : Fall C p q) (hk : MK C nv L k q x) : MK C nv L k p x := by
  cases hk with
  | stop f a b => exact .stop (h.trans f) a b
  | seq f a b c d => exact .seq (h.trans f) a b c d
  | «while» f a b c d e g i j l m n o => exact .while (h.trans f) a b c d e g i j l m n o
  | doWhile f a b c d e g i j l m n o => exact .doWhile (h.trans f) a b c d e g i j l m n o
  | «for» f a b c d e g i j l m n o q r t u v => exact .for (h.trans f) a b c d e g i j l m n o q r t u v
  | switch f a b => exact .switch (h.trans f) a b

/-- The code of the statement is at `pc`, and what follows it does the continuation. -/
def Placed (C : List (Ins M)) (nv : Nat) (L : List Lb) (a : St M) (k : Cont M) (pc : Nat) : Prop :=
  ∃ x s, At C pc (genS x a s).code ∧ nv ≤ s.m ∧ a.Ok nv L x.brk.isSome x.cont.isSome ∧
    MK C nv L k (pc + (genS x a s).code.length) x

theorem placed_skip {k : Cont M} {p : Nat} {x : Ctx} (h : MK C nv L k p x) : Placed C nv L .skip k p :=
  ⟨x, ⟨0, nv⟩, trivial, Nat.le_refl _, trivial, h⟩

theorem placed_seq {a b : St M} {k : Cont M} {p : Nat} (h : Placed C nv L (.seq a b) k p) :
    Placed C nv L a (.seq b k) p ∧ ∃ q, Placed C nv L b k q := by
  obtain ⟨x, s, hat, hs, hok, hk⟩ := h
  have m1 := genS_mono a x s
  simp only [genS, at_append] at hat
  simp only [genS, List.length_append] at hk
  rw [← Nat.add_assoc] at hk
  exact ⟨⟨x, s, hat.1, hs, hok.1, .seq (.refl _) hat.2 (by omega) hok.2 hk⟩, _, x, _, hat.2, by omega, hok.2, hk⟩

theorem placed_ite {c : Ex M} {a : St M} {k : Cont M} {p : Nat} (h : Placed C nv L (.ite c a) k p) :
    ∃ s t f pt pf x, At C p (genT (some c) t f s).code ∧ nv ≤ s.m ∧ c.Ok nv ∧ C[pt]? = some (.lab t) ∧
      C[pf]? = some (.lab f) ∧ Placed C nv L a k (pt + 1) ∧ MK C nv L k (pf + 1) x := by
  obtain ⟨x, s, hat, hs, hok, hk⟩ := h
  have m0 := (gen_mono (mkCond (parse c))).2 (.tmp s.n) (.tmp (s.n + 1)) ⟨s.n + 2, s.m⟩
  simp only [genS] at hat hk
  generalize ho : (genC (mkCond (parse c)) (.tmp s.n) (.tmp (s.n + 1)) ⟨s.n + 2, s.m⟩) = o0 at *
  simp only [at_append, At] at hat
  simp only [List.length_append, List.length_singleton, ← Nat.add_assoc] at hat hk
  obtain ⟨⟨⟨h0, hl, -⟩, h1⟩, hl', -⟩ := hat
  refine ⟨⟨s.n + 2, s.m⟩, .tmp s.n, .tmp (s.n + 1), _, _, x, ?_, hs, hok.1, hl, hl', ?_, hk⟩
  · rw [← ho] at h0; exact h0
  · exact ⟨x, o0.s, h1, by simp only at m0; omega, hok.2, (hk).fall (fall_lab hl')⟩

theorem placed_itee (hu : Uniq C) {c : Ex M} {a b : St M} {k : Cont M} {p : Nat} (h : Placed C nv L (.itee c a b) k p) :
    ∃ s t f pt pf, At C p (genT (some c) t f s).code ∧ nv ≤ s.m ∧ c.Ok nv ∧ C[pt]? = some (.lab t) ∧
      C[pf]? = some (.lab f) ∧ Placed C nv L a k (pt + 1) ∧ Placed C nv L b k (pf + 1) := by
  obtain ⟨x, s, hat, hs, hok, hk⟩ := h
  have m0 := (gen_mono (mkCond (parse c))).2 (.tmp s.n) (.tmp (s.n + 1)) ⟨s.n + 2, s.m⟩
  simp only [genS] at hat hk
  generalize ho : (genC (mkCond (parse c)) (.tmp s.n) (.tmp (s.n + 1)) ⟨s.n + 2, s.m⟩) = o0 at *
  have m1 := genS_mono a x o0.s
  simp only [at_append, At] at hat
  simp only [List.length_append, List.length_cons, List.length_nil, Nat.zero_add, ← Nat.add_assoc] at hat hk
  obtain ⟨⟨⟨⟨⟨h0, hl, -⟩, h1⟩, hj, hl', -⟩, h2⟩, hn, -⟩ := hat
  refine ⟨⟨s.n + 2, s.m⟩, .tmp s.n, .tmp (s.n + 1), _, _, ?_, hs, hok.1, hl, hl', ?_, ?_⟩
  · rw [← ho] at h0; exact h0
  · exact ⟨x, o0.s, h1, by simp only at m0; omega, hok.2.1, hk.fall ((fall_jmp hj (hu _ _ hn)).trans (fall_lab hn))⟩
  · exact ⟨x, _, h2, by simp only at m0 ⊢; omega, hok.2.2, hk.fall (fall_lab hn)⟩

theorem placed_while (hu : Uniq C) {c : Ex M} {a : St M} {k : Cont M} {p : Nat} (h : Placed C nv L (.while c a) k p) :
    ∃ q b, C[p]? = some (.jmp b) ∧ find C b = some q ∧ Placed C nv L a (.while c a k) (p + 2) ∧
      ∃ x, MK C nv L (.while c a k) q x := by
  obtain ⟨x, s, hat, hs, hok, hk⟩ := h
  simp only [genS] at hat hk
  have m1 := genS_mono a ⟨some (.tmp (s.n + 2)), some (.tmp (s.n + 1))⟩ ⟨s.n + 3, s.m⟩
  generalize ho : (genS ⟨some (.tmp (s.n + 2)), some (.tmp (s.n + 1))⟩ a ⟨s.n + 3, s.m⟩) = o1 at *
  simp only [at_append, At] at hat
  simp only [List.length_append, List.length_cons, List.length_nil, Nat.zero_add, ← Nat.add_assoc] at hat hk
  obtain ⟨⟨⟨⟨⟨hj, hl, -⟩, h1⟩, hc, -⟩, h2⟩, hn, -⟩ := hat
  have hmk : MK C nv L (.while c a k) (p + 1 + 1 + o1.code.length) ⟨some (.tmp (s.n + 2)), some (.tmp (s.n + 1))⟩ := by
    refine .while (s := ⟨s.n + 3, s.m⟩) (s' := o1.s) (lp := .tmp s.n) (.refl _) hl rfl ?_ hs hok.2 ?_ hc h2 (by simp only at m1; omega) hok.1 hn hk
    · rw [ho]; exact h1
    · rw [ho]
  refine ⟨_, _, hj, hu _ _ hc, ⟨⟨some (.tmp (s.n + 2)), some (.tmp (s.n + 1))⟩, ⟨s.n + 3, s.m⟩, ?_, hs, hok.2, ?_⟩, _, hmk⟩
  · rw [ho]; exact h1
  · rw [ho]; exact hmk

theorem placed_doWhile {c : Ex M} {a : St M} {k : Cont M} {p : Nat} (h : Placed C nv L (.doWhile a c) k p) :
    ∃ b, C[p]? = some (.lab b) ∧ Placed C nv L a (.doWhile a c k) (p + 1) := by
  obtain ⟨x, s, hat, hs, hok, hk⟩ := h
  simp only [genS] at hat hk
  have m1 := genS_mono a ⟨some (.tmp (s.n + 2)), some (.tmp (s.n + 1))⟩ ⟨s.n + 3, s.m⟩
  generalize ho : (genS ⟨some (.tmp (s.n + 2)), some (.tmp (s.n + 1))⟩ a ⟨s.n + 3, s.m⟩) = o1 at *
  simp only [at_append, At] at hat
  simp only [List.length_append, List.length_cons, List.length_nil, Nat.zero_add, ← Nat.add_assoc] at hat hk
  obtain ⟨⟨⟨⟨⟨hl, -⟩, h1⟩, hc, -⟩, h2⟩, hn, -⟩ := hat
  have hmk : MK C nv L (.doWhile a c k) (p + 1 + o1.code.length) ⟨some (.tmp (s.n + 2)), some (.tmp (s.n + 1))⟩ := by
    refine .doWhile (s := ⟨s.n + 3, s.m⟩) (s' := o1.s) (lp := .tmp s.n) (.refl _) hl rfl ?_ hs hok.2 ?_ hc h2 (by simp only at m1; omega) hok.1 hn hk
    · rw [ho]; exact h1
    · rw [ho]
  refine ⟨_, hl, ⟨⟨some (.tmp (s.n + 2)), some (.tmp (s.n + 1))⟩, ⟨s.n + 3, s.m⟩, ?_, hs, hok.2, ?_⟩⟩
  · rw [ho]; exact h1
  · rw [ho]; exact hmk

theorem placed_for (hu : Uniq C) {pre c post : Option (Ex M)} {a : St M} {k : Cont M} {p : Nat}
    (h : Placed C nv L (.for pre c post a) k p) :
    ∃ s0 s lp nx pb pd pn b x, At C p (genO pre s0).code ∧ nv ≤ s0.m ∧ okO nv pre ∧
      C[p + (genO pre s0).code.length]? = some (.jmp b) ∧ find C b = some pd ∧ C[pd]? = some (.lab b) ∧
      At C (pd + 1) (genT c lp nx s).code ∧ nv ≤ s.m ∧ okO nv c ∧ C[pb]? = some (.lab lp) ∧ C[pn]? = some (.lab nx) ∧
      Placed C nv L a (.for c post a k) (pb + 1) ∧ MK C nv L k (pn + 1) x := by
  obtain ⟨x, s, hat, hs, hok, hk⟩ := h
  simp only [genS] at hat hk
  have m0 := genO_mono pre ⟨s.n + 4, s.m⟩
  generalize ho0 : genO pre ⟨s.n + 4, s.m⟩ = o0 at *
  have m1 := genS_mono a ⟨some (.tmp (s.n + 3)), some (.tmp (s.n + 1))⟩ o0.s
  generalize ho : (genS ⟨some (.tmp (s.n + 3)), some (.tmp (s.n + 1))⟩ a o0.s) = o1 at *
  have m2 := genO_mono post o1.s
  generalize ho2 : genO post o1.s = o2 at *
  have m3 := genT_mono c (.tmp s.n) (.tmp (s.n + 3)) o2.s
  simp only [at_append, At] at hat
  simp only [List.length_append, List.length_cons, List.length_nil, Nat.zero_add, ← Nat.add_assoc] at hat hk
  obtain ⟨⟨⟨⟨⟨⟨⟨h0, hj, hl, -⟩, h1⟩, hc, -⟩, h2⟩, hd, -⟩, h3⟩, hn, -⟩ := hat
  simp only at m0
  have hmk : MK C nv L (.for c post a k) (p + o0.code.length + 1 + 1 + o1.code.length) ⟨some (.tmp (s.n + 3)), some (.tmp (s.n + 1))⟩ := by
    refine .for (s := o0.s) (s' := o1.s) (s'' := o2.s) (lp := .tmp s.n) (cd := .tmp (s.n + 2)) (x := x) (.refl _) hl rfl ?_ (by omega) hok.2.2.2 ?_ hc ?_ (by omega) hok.2.2.1 rfl
      ?_ ?_ (by omega) hok.2.1 ?_ ?_
    · rw [ho]; exact h1
    · rw [ho]
    · rw [ho2]; exact h2
    · rw [ho2]; exact hd
    · rw [ho2]; exact h3
    · rw [ho2]; exact hn
    · rw [ho2]; exact hk
  refine ⟨⟨s.n + 4, s.m⟩, o2.s, .tmp s.n, .tmp (s.n + 3), _, _, _, .tmp (s.n + 2), x, ?_, hs, hok.1, ?_, hu _ _ hd, hd, h3, by omega, hok.2.1, hl, hn, ?_, hk⟩
  · rw [ho0]; exact h0
  · rw [ho0]; exact hj
  · exact ⟨⟨some (.tmp (s.n + 3)), some (.tmp (s.n + 1))⟩, o0.s, by rw [ho]; exact h1, by omega, hok.2.2.2, by rw [ho]; exact hmk⟩

theorem placed_switch {e : Ex M} {a : St M} {k : Cont M} {p : Nat} (h : Placed C nv L (.switch e a) k p) :
    ∃ s nx pn pb x, At C p (genE (parse e) s).code ∧ nv ≤ s.m ∧ e.Ok nv ∧
      C[p + (genE (parse e) s).code.length]? = some (.sw (genE (parse e) s).opr (table (cases a)) (dflt (cases a) nx)) ∧
      C[pn]? = some (.lab nx) ∧ Placed C nv L a (.switch k) pb ∧ MK C nv L k (pn + 1) x := by
  obtain ⟨x, s, hat, hs, hok, hk⟩ := h
  simp only [genS] at hat hk
  have m0 := (gen_mono (parse e)).1 ⟨s.n + 1, s.m⟩
  generalize ho0 : genE (parse e) ⟨s.n + 1, s.m⟩ = o0 at *
  have m1 := genS_mono a ⟨some (.tmp s.n), x.cont⟩ ⟨o0.s.n + 1, o0.s.m⟩
  generalize ho : genS ⟨some (.tmp s.n), x.cont⟩ a ⟨o0.s.n + 1, o0.s.m⟩ = o1 at *
  simp only [at_append, At] at hat
  simp only [List.length_append, List.length_cons, List.length_nil, Nat.zero_add, ← Nat.add_assoc] at hat hk
  obtain ⟨⟨⟨h0, hw, hl, -⟩, h1⟩, hn, -⟩ := hat
  simp only at m0
  refine ⟨⟨s.n + 1, s.m⟩, .tmp s.n, _, p + o0.code.length + 1 + 1, x, ?_, hs, hok.1, ?_, hn, ?_, hk⟩
  · rw [ho0]; exact h0
  · rw [ho0]; exact hw
  · exact ⟨⟨some (.tmp s.n), x.cont⟩, _, by rw [ho]; exact h1, by simp only; omega, hok.2, by rw [ho]; exact .switch (.refl _) hn hk⟩

theorem placed_label {l : Nat} {a : St M} {k : Cont M} {p : Nat} (h : Placed C nv L (.label l a) k p) :
    C[p]? = some (.lab (.user l)) ∧ Placed C nv L a k (p + 1) := by
  obtain ⟨x, s, hat, hs, hok, hk⟩ := h
  simp only [genS, at_append, At] at hat hk
  simp only [List.length_append, List.length_singleton, ← Nat.add_assoc] at hat hk
  exact ⟨hat.1.1, x, s, hat.2, hs, hok, hk⟩

theorem placed_case {i : Nat} {v : Option M.V} {a : St M} {k : Cont M} {p : Nat} (h : Placed C nv L (.case i v a) k p) :
    C[p]? = some (.lab (.case i)) ∧ Placed C nv L a k (p + 1) := by
  obtain ⟨x, s, hat, hs, hok, hk⟩ := h
  simp only [genS, at_append, At] at hat hk
  simp only [List.length_append, List.length_singleton, ← Nat.add_assoc] at hat hk
  exact ⟨hat.1.1, x, s, hat.2, hs, hok, hk⟩

/-- A label is where its statement is. -/
theorem placed_at (hu : Uniq C) (b : Lb) (a : St M) : ∀ (k : Cont M) (p : Nat) (a' : St M) (k' : Cont M),
    Placed C nv L a k p → a.at b k = some (a', k') →
    ∃ q, C[q]? = some (.lab b) ∧ Placed C nv L a' k' (q + 1) := by
  induction a with
  | seq a c iha ihc =>
    intro k p a' k' h hat
    obtain ⟨h1, q, h2⟩ := placed_seq h
    simp only [St.at, Option.or_eq_some_iff] at hat
    rcases hat with hat | ⟨-, hat⟩
    · exact iha _ _ _ _ h1 hat
    · exact ihc _ _ _ _ h2 hat
  | ite c a ih =>
    intro k p a' k' h hat
    obtain ⟨_, _, _, _, _, _, _, _, _, _, _, h1, _⟩ := placed_ite h
    exact ih _ _ _ _ h1 hat
  | itee c a d iha ihd =>
    intro k p a' k' h hat
    obtain ⟨_, _, _, _, _, _, _, _, _, _, h1, h2⟩ := placed_itee hu h
    simp only [St.at, Option.or_eq_some_iff] at hat
    rcases hat with hat | ⟨-, hat⟩
    · exact iha _ _ _ _ h1 hat
    · exact ihd _ _ _ _ h2 hat
  | «while» c a ih =>
    intro k p a' k' h hat
    obtain ⟨_, _, _, _, h1, _⟩ := placed_while hu h
    exact ih _ _ _ _ h1 hat
  | doWhile a c ih =>
    intro k p a' k' h hat
    obtain ⟨_, _, h1⟩ := placed_doWhile h
    exact ih _ _ _ _ h1 hat
  | «for» pre c post a ih =>
    intro k p a' k' h hat
    obtain ⟨_, _, _, _, _, _, _, _, _, _, _, _, _, _, _, _, _, _, _, _, h1, _⟩ := placed_for hu h
    exact ih _ _ _ _ h1 hat
  | label l a ih =>
    intro k p a' k' h hat
    obtain ⟨h1, h2⟩ := placed_label h
    simp only [St.at] at hat
    split at hat
    · rename_i hb
      simp only [Option.some.injEq, Prod.mk.injEq] at hat
      obtain ⟨rfl, rfl⟩ := hat
      exact ⟨p, by rw [hb]; exact h1, h2⟩
    · exact ih _ _ _ _ h2 hat
  | switch e a ih =>
    intro k p a' k' h hat
    obtain ⟨_, _, _, _, _, _, _, _, _, _, h1, _⟩ := placed_switch h
    exact ih _ _ _ _ h1 hat
  | case i v a ih =>
    intro k p a' k' h hat
    obtain ⟨h1, h2⟩ := placed_case h
    simp only [St.at] at hat
    split at hat
    · rename_i hb
      simp only [Option.some.injEq, Prod.mk.injEq] at hat
      obtain ⟨rfl, rfl⟩ := hat
      exact ⟨p, by rw [hb]; exact h1, h2⟩
    · exact ih _ _ _ _ h2 hat
  | _ => intro k p a' k' h hat; simp [St.at] at hat

theorem at_isSome (b : Lb) (a : St M) : ∀ k : Cont M, b ∈ a.labels → (a.at b k).isSome = true := by
  induction a with
  | seq a c iha ihc =>
    intro k h
    simp only [St.labels, List.mem_append] at h
    simp only [St.at, Option.isSome_or, Bool.or_eq_true]
    exact h.imp (iha _) (ihc _)
  | ite c a ih => intro k h; exact ih _ h
  | itee c a d iha ihd =>
    intro k h
    simp only [St.labels, List.mem_append] at h
    simp only [St.at, Option.isSome_or, Bool.or_eq_true]
    exact h.imp (iha _) (ihd _)
  | «while» c a ih => intro k h; exact ih _ h
  | doWhile a c ih => intro k h; exact ih _ h
  | «for» pre c post a ih => intro k h; exact ih _ h
  | label l a ih =>
    intro k h
    simp only [St.labels, List.mem_cons] at h
    simp only [St.at]
    split
    · rfl
    · rename_i hb; exact ih _ (h.resolve_left hb)
  | switch e a ih => intro k h; exact ih _ h
  | case i v a ih =>
    intro k h
    simp only [St.labels, List.mem_cons] at h
    simp only [St.at]
    split
    · rfl
    · rename_i hb; exact ih _ (h.resolve_left hb)
  | _ => intro k h; simp [St.labels] at h

theorem cases_labels (a : St M) : ∀ c ∈ cases a, Lb.case c.2 ∈ a.labels := by
  induction a with
  | seq a b iha ihb =>
    intro c h
    simp only [cases, List.mem_append] at h
    simp only [St.labels, List.mem_append]
    exact h.imp (iha c) (ihb c)
  | ite e a ih => exact ih
  | itee e a b iha ihb =>
    intro c h
    simp only [cases, List.mem_append] at h
    simp only [St.labels, List.mem_append]
    exact h.imp (iha c) (ihb c)
  | «while» e a ih => exact ih
  | doWhile a e ih => exact ih
  | «for» _ _ _ a ih => exact ih
  | label l a ih => intro c h; exact List.mem_cons_of_mem _ (ih c h)
  | case i v a ih =>
    intro c h
    simp only [cases, List.mem_cons] at h
    simp only [St.labels, List.mem_cons]
    rcases h with rfl | h
    · exact .inl rfl
    · exact .inr (ih c h)
  | _ => intro c h; simp [cases] at h

/-- The dispatch goes to the case that C says. -/
theorem pick_choose (v : M.V) (cs : List (Option M.V × Nat)) (nx : Lb) :
    pick M v (table cs) (dflt cs nx) = match choose M v cs with
      | some i => .case i
      | none => nx := by
  have key : (table cs).find? (fun c => M.rel M.eq v c.1) =
      (cs.find? fun c => match c.1 with
        | some x => M.rel M.eq v x
        | none => false).bind fun c => c.1.map fun v => (v, Lb.case c.2) := by
    induction cs with
    | nil => rfl
    | cons c cs ih =>
      obtain ⟨o, i⟩ := c
      cases o with
      | none => simpa [table] using ih
      | some x =>
        simp only [table, List.filterMap_cons, Option.map_some, List.find?_cons]
        split
        · rfl
        · exact ih
  unfold pick choose
  rw [key]
  cases hf : cs.find? (fun c => match c.1 with
        | some x => M.rel M.eq v x
        | none => false) with
  | none =>
    simp only [Option.bind_none, dflt]
    cases cs.find? fun c => c.1.isNone <;> rfl
  | some c =>
    have := List.find?_some hf
    obtain ⟨o, i⟩ := c
    cases o with
    | none => simp at this
    | some x => rfl

theorem choose_mem {v : M.V} {cs : List (Option M.V × Nat)} {i : Nat} (h : choose M v cs = some i) :
    ∃ c ∈ cs, c.2 = i := by
  unfold choose at h
  split at h
  · rename_i c hf
    simp only [Option.some.injEq] at h
    exact ⟨c, List.mem_of_find?_eq_some hf, h⟩
  · simp only [Option.map_eq_some_iff] at h
    obtain ⟨c, hf, h⟩ := h
    exact ⟨c, List.mem_of_find?_eq_some hf, h⟩

theorem mk_out {k : Cont M} {p : Nat} {x : Ctx} (h : MK C nv L k p x) :
    (x.brk = none → k.out = none) ∧ (∀ b, x.brk = some b → ∃ k' q x', k.out = some k' ∧ C[q]? = some (.lab b) ∧ MK C nv L k' (q + 1) x') := by
  induction h with
  | stop => exact ⟨fun _ => rfl, fun b hb => by simp at hb⟩
  | seq f a b c d ih => exact ih
  | «while» f a b c d e g i j l m n o =>
    refine ⟨fun h => by simp at h, fun b hb => ?_⟩
    simp only [Option.some.injEq] at hb
    subst hb
    exact ⟨_, _, _, rfl, n, o⟩
  | doWhile f a b c d e g i j l m n o =>
    refine ⟨fun h => by simp at h, fun b hb => ?_⟩
    simp only [Option.some.injEq] at hb
    subst hb
    exact ⟨_, _, _, rfl, n, o⟩
  | «for» f a b c d e g i j l m n o q r t u v =>
    refine ⟨fun h => by simp at h, fun b hb => ?_⟩
    simp only [Option.some.injEq] at hb
    subst hb
    exact ⟨_, _, _, rfl, u, v⟩
  | switch f a b =>
    refine ⟨fun h => by simp at h, fun b' hb => ?_⟩
    simp only [Option.some.injEq] at hb
    subst hb
    exact ⟨_, _, _, rfl, a, b⟩

theorem mk_next {k : Cont M} {p : Nat} {x : Ctx} (h : MK C nv L k p x) :
    (x.cont = none → k.next = none) ∧ (∀ b, x.cont = some b → ∃ k' q x', k.next = some k' ∧ C[q]? = some (.lab b) ∧ MK C nv L k' q x') := by
  induction h with
  | stop => exact ⟨fun _ => rfl, fun b hb => by simp at hb⟩
  | seq f a b c d ih => exact ih
  | «while» f a b c d e g i j l m n o =>
    refine ⟨fun h => by simp at h, fun b' hb => ?_⟩
    simp only [Option.some.injEq] at hb
    subst hb
    exact ⟨_, _, _, rfl, i, .while (.refl _) a b c d e g i j l m n o⟩
  | doWhile f a b c d e g i j l m n o =>
    refine ⟨fun h => by simp at h, fun b' hb => ?_⟩
    simp only [Option.some.injEq] at hb
    subst hb
    exact ⟨_, _, _, rfl, i, .doWhile (.refl _) a b c d e g i j l m n o⟩
  | «for» f a b c d e g i j l m n o q r t u v =>
    refine ⟨fun h => by simp at h, fun b' hb => ?_⟩
    simp only [Option.some.injEq] at hb
    subst hb
    exact ⟨_, _, _, rfl, i, .for (.refl _) a b c d e g i j l m n o q r t u v⟩
  | switch f a b ih => exact ih

/-- A state of the program and a configuration of the machine that agree. -/
inductive MSt (C : List (Ins M)) (nv : Nat) (L : List Lb) : State M → Conf M → Prop
  | run {a : St M} {k : Cont M} {ρ r : Env M} {w : M.W} {pc : Nat} : Placed C nv L a k pc → Agree nv r ρ →
      MSt C nv L (.run a k ρ w) ⟨pc, r, w, none⟩
  | done {v : Option M.V} {w : M.W} {r : Env M} : MSt C nv L (.done v w) ⟨C.length, r, w, v⟩

/-- A measure that falls when the program steps and the machine does not. -/
def St.size : St M → Nat
  | .skip => 1
  | .seq a b => a.size + b.size + 2
  | _ => 2
def Cont.size : Cont M → Nat
  | .seq a k => a.size + 1 + k.size
  | _ => 0
def State.size : State M → Nat
  | .run a k _ _ => a.size + k.size
  | .done _ _ => 0

/-- Each step of the program is done by the machine. -/
theorem sim (hM : M.Ok) (hu : Uniq C) {f : St M} (hL : L = f.labels) (hf : Placed C nv L f .stop 0)
    {S S' : State M} {t : Conf M} (hS : MSt C nv L S t) (hstep : step f S = some S') :
    ∃ t', MSt C nv L S' t' ∧ (Go C 1 t t' ∨ Go C 0 t t' ∧ S'.size < S.size) := by
  cases hS with
  | done => simp [step] at hstep
  | @run a k ρ r w pc hp hr =>
    cases a with
    | skip =>
      obtain ⟨x, s, -, -, -, hk⟩ := hp
      simp only [genS, List.length_nil, Nat.add_zero] at hk
      cases hk with
      | stop fa hl he =>
        simp only [step, Option.some.injEq] at hstep
        subst hstep
        refine ⟨_, .done (r := r), .inl ?_⟩
        rw [← he]
        exact ((fa _ _ _).trans (go_lab hl)).weak (by omega)
      | seq fa hat hs hok hk =>
        simp only [step, Option.some.injEq] at hstep
        subst hstep
        refine ⟨_, .run ⟨_, _, hat, hs, hok, hk⟩ hr, .inr ⟨fa _ _ _, ?_⟩⟩
        simp only [State.size, St.size, Cont.size]; omega
      | @«while» _ pc' pb pl c a k x' s1 s2 lp nx cd fa hl hpl hat hs hok hpc hc hat2 hs2 hok2 hn hk =>
        simp only [step, Option.some.injEq] at hstep
        obtain ⟨r1, g1, a1⟩ := genT_ok hM hu (w := w) (res := none) hat2 (hu _ _ hl) (hu _ _ hn) hok2 hs2 hr
        have g := (fa r w none).trans ((go_lab hc).trans g1)
        by_cases hv : (testO (some c) ρ w).1 = true
        · rw [if_pos hv] at hstep g
          subst hstep
          refine ⟨_, .run ⟨⟨some nx, some cd⟩, s1, hat, hs, hok, ?_⟩ a1, .inl ?_⟩
          · rw [hpc]
            exact .while (.refl _) hl hpl hat hs hok hpc hc hat2 hs2 hok2 hn hk
          · rw [← hpl]
            exact (g.trans (go_lab hl)).weak (by omega)
        · rw [if_neg hv] at hstep g
          subst hstep
          exact ⟨_, .run (placed_skip hk) a1, .inl ((g.trans (go_lab hn)).weak (by omega))⟩
      | @doWhile _ pc' pb pl c a k x' s1 s2 lp nx cd fa hl hpl hat hs hok hpc hc hat2 hs2 hok2 hn hk =>
        simp only [step, Option.some.injEq] at hstep
        obtain ⟨r1, g1, a1⟩ := genT_ok hM hu (w := w) (res := none) hat2 (hu _ _ hl) (hu _ _ hn) hok2 hs2 hr
        have g := (fa r w none).trans ((go_lab hc).trans g1)
        by_cases hv : (testO (some c) ρ w).1 = true
        · rw [if_pos hv] at hstep g
          subst hstep
          refine ⟨_, .run ⟨⟨some nx, some cd⟩, s1, hat, hs, hok, ?_⟩ a1, .inl ?_⟩
          · rw [hpc]
            exact .doWhile (.refl _) hl hpl hat hs hok hpc hc hat2 hs2 hok2 hn hk
          · rw [← hpl]
            exact (g.trans (go_lab hl)).weak (by omega)
        · rw [if_neg hv] at hstep g
          subst hstep
          exact ⟨_, .run (placed_skip hk) a1, .inl ((g.trans (go_lab hn)).weak (by omega))⟩
      | @«for» _ pc' pb pl pd c post a k x' s1 s2 s3 lp nx ct cd fa hl hpl hat hs hok hpc hc hat2 hs2 hok2 hpd hd hat3 hs3 hok3 hn hk =>
        simp only [step, Option.some.injEq] at hstep
        obtain ⟨r1, g1, a1⟩ := genO_ok hM hu (w := w) (res := none) hat2 hok2 hs2 hr
        obtain ⟨r2, g2, a2⟩ := genT_ok hM hu (w := (evalO post ρ w).2) (res := none) hat3 (hu _ _ hl) (hu _ _ hn) hok3 hs3 a1
        rw [hpd] at g1
        have g := (fa r w none).trans ((go_lab hc).trans (g1.trans ((go_lab hd).trans g2)))
        by_cases hv : (testO c (evalO post ρ w).1 (evalO post ρ w).2).1 = true
        · rw [if_pos hv] at hstep g
          subst hstep
          refine ⟨_, .run ⟨⟨some nx, some ct⟩, s1, hat, hs, hok, ?_⟩ a2, .inl ?_⟩
          · rw [hpc]
            exact .for (.refl _) hl hpl hat hs hok hpc hc hat2 hs2 hok2 hpd hd hat3 hs3 hok3 hn hk
          · rw [← hpl]
            exact (g.trans (go_lab hl)).weak (by omega)
        · rw [if_neg hv] at hstep g
          subst hstep
          exact ⟨_, .run (placed_skip hk) a2, .inl ((g.trans (go_lab hn)).weak (by omega))⟩
      | switch fa hl hk =>
        simp only [step, Option.some.injEq] at hstep
        subst hstep
        exact ⟨_, .run (placed_skip hk) hr, .inl (((fa r w none).trans (go_lab hl)).weak (by omega))⟩
    | expr e =>
      obtain ⟨x, s, hat, hs, hok, hk⟩ := hp
      simp only [step, Option.some.injEq] at hstep
      subst hstep
      obtain ⟨r', g, a, -, -⟩ := (gen_ok hM hu nv (parse e)).1 s pc r ρ w none hat (good_parse e) (ok_parse hok) hs hr
      rw [eval_parse hM] at g a
      refine ⟨_, .run (placed_skip hk) a, .inr ⟨g, ?_⟩⟩
      simp only [State.size, St.size]; omega
    | seq a b =>
      simp only [step, Option.some.injEq] at hstep
      subst hstep
      refine ⟨_, .run (placed_seq hp).1 hr, .inr ⟨Go.refl _, ?_⟩⟩
      simp only [State.size, St.size, Cont.size]; omega
    | ite c a =>
      obtain ⟨s, lt, lf, pt, pf, x, hat, hs, hok, ht, hfl, hpa, hk⟩ := placed_ite hp
      simp only [step, Option.some.injEq] at hstep
      obtain ⟨r1, g, a1⟩ := genT_ok hM hu (w := w) (res := none) hat (hu _ _ ht) (hu _ _ hfl) hok hs hr
      by_cases hv : (testO (some c) ρ w).1 = true
      · rw [if_pos hv] at hstep g
        subst hstep
        exact ⟨_, .run hpa a1, .inl ((g.trans (go_lab ht)).weak (by omega))⟩
      · rw [if_neg hv] at hstep g
        subst hstep
        exact ⟨_, .run (placed_skip hk) a1, .inl ((g.trans (go_lab hfl)).weak (by omega))⟩
    | itee c a b =>
      obtain ⟨s, lt, lf, pt, pf, hat, hs, hok, ht, hfl, hpa, hpb⟩ := placed_itee hu hp
      simp only [step, Option.some.injEq] at hstep
      obtain ⟨r1, g, a1⟩ := genT_ok hM hu (w := w) (res := none) hat (hu _ _ ht) (hu _ _ hfl) hok hs hr
      by_cases hv : (testO (some c) ρ w).1 = true
      · rw [if_pos hv] at hstep g
        subst hstep
        exact ⟨_, .run hpa a1, .inl ((g.trans (go_lab ht)).weak (by omega))⟩
      · rw [if_neg hv] at hstep g
        subst hstep
        exact ⟨_, .run hpb a1, .inl ((g.trans (go_lab hfl)).weak (by omega))⟩
    | «while» c a =>
      obtain ⟨q, b, hj, hq, -, x, hk⟩ := placed_while hu hp
      have g0 := go_jmp (r := r) (w := w) (res := none) hj hq
      cases hk with
      | @«while» _ pc' pb pl c a k x' s1 s2 lp nx cd fa hl hpl hat hs hok hpc hc hat2 hs2 hok2 hn hk =>
        simp only [step, Option.some.injEq] at hstep
        obtain ⟨r1, g1, a1⟩ := genT_ok hM hu (w := w) (res := none) hat2 (hu _ _ hl) (hu _ _ hn) hok2 hs2 hr
        have g := g0.trans ((fa r w none).trans ((go_lab hc).trans g1))
        by_cases hv : (testO (some c) ρ w).1 = true
        · rw [if_pos hv] at hstep g
          subst hstep
          refine ⟨_, .run ⟨⟨some nx, some cd⟩, s1, hat, hs, hok, ?_⟩ a1, .inl ?_⟩
          · rw [hpc]
            exact .while (.refl _) hl hpl hat hs hok hpc hc hat2 hs2 hok2 hn hk
          · rw [← hpl]
            exact (g.trans (go_lab hl)).weak (by omega)
        · rw [if_neg hv] at hstep g
          subst hstep
          exact ⟨_, .run (placed_skip hk) a1, .inl ((g.trans (go_lab hn)).weak (by omega))⟩
    | doWhile a c =>
      obtain ⟨b, hl, hpa⟩ := placed_doWhile hp
      simp only [step, Option.some.injEq] at hstep
      subst hstep
      exact ⟨_, .run hpa hr, .inl (go_lab hl)⟩
    | «for» pre c post a =>
      obtain ⟨s0, s, lp, nx, pb, pd, pn, b, x, hat0, hs0, hok0, hj, hfd, hd, hat, hs, hok, hl, hn, hpa, hk⟩ := placed_for hu hp
      simp only [step, Option.some.injEq] at hstep
      obtain ⟨r1, g1, a1⟩ := genO_ok hM hu (w := w) (res := none) hat0 hok0 hs0 hr
      obtain ⟨r2, g2, a2⟩ := genT_ok hM hu (w := (evalO pre ρ w).2) (res := none) hat (hu _ _ hl) (hu _ _ hn) hok hs a1
      have g := g1.trans ((go_jmp hj hfd).trans ((go_lab hd).trans g2))
      by_cases hv : (testO c (evalO pre ρ w).1 (evalO pre ρ w).2).1 = true
      · rw [if_pos hv] at hstep g
        subst hstep
        exact ⟨_, .run hpa a2, .inl ((g.trans (go_lab hl)).weak (by omega))⟩
      · rw [if_neg hv] at hstep g
        subst hstep
        exact ⟨_, .run (placed_skip hk) a2, .inl ((g.trans (go_lab hn)).weak (by omega))⟩
    | «break» =>
      obtain ⟨x, s, hat, hs, hok, hk⟩ := hp
      simp only [step, Option.map_eq_some_iff] at hstep
      obtain ⟨k1, hk1, rfl⟩ := hstep
      cases hb : x.brk with
      | none => rw [(mk_out hk).1 hb] at hk1; simp at hk1
      | some b =>
        obtain ⟨k', q, x', ho, hq, hk'⟩ := (mk_out hk).2 b hb
        rw [hk1] at ho
        simp only [Option.some.injEq] at ho
        subst ho
        simp only [genS, hb, leave, At] at hat
        exact ⟨_, .run (placed_skip hk') hr, .inl (((go_jmp hat.1 (hu _ _ hq)).trans (go_lab hq)).weak (by omega))⟩
    | «continue» =>
      obtain ⟨x, s, hat, hs, hok, hk⟩ := hp
      simp only [step, Option.map_eq_some_iff] at hstep
      obtain ⟨k1, hk1, rfl⟩ := hstep
      cases hb : x.cont with
      | none => rw [(mk_next hk).1 hb] at hk1; simp at hk1
      | some b =>
        obtain ⟨k', q, x', ho, hq, hk'⟩ := (mk_next hk).2 b hb
        rw [hk1] at ho
        simp only [Option.some.injEq] at ho
        subst ho
        simp only [genS, hb, leave, At] at hat
        exact ⟨_, .run (placed_skip hk') hr, .inl (go_jmp hat.1 (hu _ _ hq))⟩
    | ret e =>
      obtain ⟨x0, s0, hat0, _, _, hk0⟩ := hf
      have hret : ∃ q, C[q]? = some (.lab .ret) ∧ q + 1 = C.length := by
        cases hk0 with
        | stop _ hl he => exact ⟨_, hl, he⟩
      obtain ⟨q, hq, hlen⟩ := hret
      obtain ⟨x, s, hat, hs, hok, hk⟩ := hp
      cases e with
      | none =>
        simp only [step, Option.some.injEq] at hstep
        subst hstep
        simp only [genS, leave, At] at hat
        refine ⟨_, .done (r := r), .inl ?_⟩
        rw [← hlen]
        exact ((go_jmp hat.1 (hu _ _ hq)).trans (go_lab hq)).weak (by omega)
      | some e =>
        simp only [step, Option.some.injEq] at hstep
        subst hstep
        simp only [genS, at_append, At] at hat
        obtain ⟨r', g, a, -, v⟩ := (gen_ok hM hu nv (parse e)).1 ⟨s.n + 1, s.m⟩ pc r ρ w none hat.1 (good_parse e) (ok_parse hok) hs hr
        rw [eval_parse hM] at g a v
        refine ⟨_, .done (r := r'), .inl ?_⟩
        rw [← hlen, ← v]
        have g1 : Go C 1 ⟨pc + (genE (parse e) ⟨s.n + 1, s.m⟩).code.length, r', (eval e ρ w).2.2, none⟩
            ⟨pc + (genE (parse e) ⟨s.n + 1, s.m⟩).code.length + 1, r', (eval e ρ w).2.2,
              some ((genE (parse e) ⟨s.n + 1, s.m⟩).opr.val r')⟩ := Go.one (by simp [exec, hat.2.1])
        exact (g.trans (g1.trans ((go_jmp hat.2.2.1 (hu _ _ hq)).trans (go_lab hq)))).weak (by omega)
    | goto l =>
      obtain ⟨x, s, hat, hs, hok, hk⟩ := hp
      simp only [step, Option.map_eq_some_iff] at hstep
      obtain ⟨⟨a', k'⟩, ha, rfl⟩ := hstep
      obtain ⟨q, hq, hpa⟩ := placed_at hu _ _ _ _ _ _ hf ha
      simp only [genS, leave, At] at hat
      exact ⟨_, .run hpa hr, .inl (((go_jmp hat.1 (hu _ _ hq)).trans (go_lab hq)).weak (by omega))⟩
    | label l a =>
      obtain ⟨hl, hpa⟩ := placed_label hp
      simp only [step, Option.some.injEq] at hstep
      subst hstep
      exact ⟨_, .run hpa hr, .inl (go_lab hl)⟩
    | case i v a =>
      obtain ⟨hl, hpa⟩ := placed_case hp
      simp only [step, Option.some.injEq] at hstep
      subst hstep
      exact ⟨_, .run hpa hr, .inl (go_lab hl)⟩
    | switch e a =>
      obtain ⟨s, nx, pn, pb, x, hat, hs, hok, hw, hn, hpa, hk⟩ := placed_switch hp
      obtain ⟨r', g, a1, -, v⟩ := (gen_ok hM hu nv (parse e)).1 s pc r ρ w none hat (good_parse e) (ok_parse hok) hs hr
      rw [eval_parse hM] at g a1 v
      have hpick := pick_choose (eval e ρ w).1 (cases a) nx
      simp only [step] at hstep
      cases hc : choose M (eval e ρ w).1 (cases a) with
      | none =>
        simp only [hc, Option.some.injEq] at hstep hpick
        subst hstep
        refine ⟨_, .run (placed_skip hk) a1, .inl ?_⟩
        have g1 : Go C 1 ⟨pc + (genE (parse e) s).code.length, r', (eval e ρ w).2.2, none⟩ ⟨pn, r', (eval e ρ w).2.2, none⟩ :=
          Go.one (by simp [exec, hw, v, hpick, hu _ _ hn])
        exact (g.trans (g1.trans (go_lab hn))).weak (by omega)
      | some i =>
        simp only [hc, Option.map_eq_some_iff] at hstep hpick
        obtain ⟨⟨a', k'⟩, ha, rfl⟩ := hstep
        obtain ⟨q, hq, hpa'⟩ := placed_at hu _ _ _ _ _ _ hpa ha
        refine ⟨_, .run hpa' a1, .inl ?_⟩
        have g1 : Go C 1 ⟨pc + (genE (parse e) s).code.length, r', (eval e ρ w).2.2, none⟩ ⟨q, r', (eval e ρ w).2.2, none⟩ :=
          Go.one (by simp [exec, hw, v, hpick, hu _ _ hq])
        exact (g.trans (g1.trans (go_lab hq))).weak (by omega)

/-- A running program does not get stuck. -/
theorem progress {f : St M} (hL : L = f.labels) {a : St M} {k : Cont M} {ρ : Env M} {w : M.W} {t : Conf M}
    (hS : MSt C nv L (.run a k ρ w) t) : (step f (.run a k ρ w)).isSome = true := by
  cases hS with
  | run hp hr =>
    obtain ⟨x, s, hat, hs, hok, hk⟩ := hp
    cases a with
    | «break» =>
      have hb : x.brk.isSome = true := hok
      obtain ⟨b, hb⟩ := Option.isSome_iff_exists.1 hb
      obtain ⟨k', _, _, ho, -⟩ := (mk_out hk).2 b hb
      simp [step, ho]
    | «continue» =>
      have hb : x.cont.isSome = true := hok
      obtain ⟨b, hb⟩ := Option.isSome_iff_exists.1 hb
      obtain ⟨k', _, _, ho, -⟩ := (mk_next hk).2 b hb
      simp [step, ho]
    | goto l =>
      have := at_isSome (.user l) f .stop (by rw [← hL]; exact hok)
      simpa [step] using this
    | switch e a =>
      simp only [step]
      split
      · rename_i i hc
        obtain ⟨c, hm, rfl⟩ := choose_mem hc
        have := at_isSome (.case c.2) a (.switch k) (cases_labels a c hm)
        simpa using this
      · rfl
    | skip => cases k <;> rfl
    | ret e => cases e <;> rfl
    | _ => rfl

theorem genF_placed {f : St M} (h : Wf nv f) : Placed (genF nv f) nv f.labels f .stop 0 := by
  have hat : ∀ (p c q : List (Ins M)), At (p ++ c ++ q) p.length c := by
    intro p c
    induction c generalizing p with
    | nil => intro q; trivial
    | cons i c ih =>
      intro q
      refine ⟨by simp, ?_⟩
      have := ih (p ++ [i]) q
      simpa using this
  refine ⟨⟨none, none⟩, ⟨0, nv⟩, ?_, Nat.le_refl _, h.ok, .stop (.refl _) ?_ ?_⟩
  · exact hat [] _ _
  · simp [genF]
  · simp [genF]

/-- The program either ends or the machine makes any number of steps. -/
theorem ends_or_goes (hM : M.Ok) (hu : Uniq C) {f : St M} (hL : L = f.labels) (hf : Placed C nv L f .stop 0) (N : Nat) :
    ∀ (z : Nat) (S : State M) (t : Conf M), S.size ≤ z → MSt C nv L S t →
      (∃ n v w, iter (step f) n S = some (.done v w)) ∨ ∃ t', Go C N t t' := by
  induction N with
  | zero => intro z S t _ _; exact .inr ⟨t, Go.refl _⟩
  | succ N ihN =>
    intro z
    induction z with
    | zero =>
      intro S t hz hS
      cases S with
      | done v w => exact .inl ⟨0, v, w, rfl⟩
      | run a k ρ w =>
        obtain ⟨S', hs⟩ := Option.isSome_iff_exists.1 (progress hL hS)
        obtain ⟨t', hS', hg | ⟨_, hlt⟩⟩ := sim hM hu hL hf hS hs
        · rcases ihN _ S' t' (Nat.le_refl _) hS' with ⟨n, v, w, h⟩ | ⟨t2, h⟩
          · exact .inl ⟨n + 1, v, w, by simp [iter, hs, h]⟩
          · exact .inr ⟨t2, (hg.trans h).weak (by omega)⟩
        · omega
    | succ z ihz =>
      intro S t hz hS
      cases S with
      | done v w => exact .inl ⟨0, v, w, rfl⟩
      | run a k ρ w =>
        obtain ⟨S', hs⟩ := Option.isSome_iff_exists.1 (progress hL hS)
        obtain ⟨t', hS', hg | ⟨hg, hlt⟩⟩ := sim hM hu hL hf hS hs
        · rcases ihN _ S' t' (Nat.le_refl _) hS' with ⟨n, v, w, h⟩ | ⟨t2, h⟩
          · exact .inl ⟨n + 1, v, w, by simp [iter, hs, h]⟩
          · exact .inr ⟨t2, (hg.trans h).weak (by omega)⟩
        · rcases ihz S' t' (by omega) hS' with ⟨n, v, w, h⟩ | ⟨t2, h⟩
          · exact .inl ⟨n + 1, v, w, by simp [iter, hs, h]⟩
          · exact .inr ⟨t2, (hg.trans h).weak (by omega)⟩

theorem sim_iter (hM : M.Ok) (hu : Uniq C) {f : St M} (hL : L = f.labels) (hf : Placed C nv L f .stop 0) :
    ∀ (n : Nat) (S S' : State M) (t : Conf M), MSt C nv L S t → iter (step f) n S = some S' →
      ∃ t', MSt C nv L S' t' ∧ Go C 0 t t'
  | 0, S, S', t, hS, h => by
    simp only [iter, Option.some.injEq] at h
    subst h
    exact ⟨t, hS, Go.refl _⟩
  | n + 1, S, S', t, hS, h => by
    simp only [iter] at h
    cases hs : step f S with
    | none => simp [hs] at h
    | some S1 =>
      rw [hs] at h
      obtain ⟨t1, h1, hg⟩ := sim hM hu hL hf hS hs
      obtain ⟨t2, h2, hg2⟩ := sim_iter hM hu hL hf n S1 S' t1 h1 h
      have hg' : Go C 0 t t1 := by
        rcases hg with hg | hg
        · exact hg.weak (Nat.zero_le _)
        · exact hg.1
      exact ⟨t2, h2, hg'.trans hg2⟩

/-! ### C55: the generated code does what the statements say -/

/-- Memory and output of a state. -/
def State.world : State M → M.W
  | .run _ _ _ w => w
  | .done _ w => w

/-- A function ends with a result and a world exactly when its generated code does. -/
theorem compiled_result (hM : M.Ok) {f : St M} (h : Wf nv f) {ρ r : Env M} (hr : Agree nv r ρ) (w w' : M.W)
    (v : Option M.V) :
    (∃ n, iter (step f) n (.run f .stop ρ w) = some (.done v w')) ↔
      ∃ m r', iter (exec (genF nv f)) m ⟨0, r, w, none⟩ = some ⟨(genF nv f).length, r', w', v⟩ := by
  have hu := genF_uniq (nv := nv) h.labels
  have hf := genF_placed h
  have h0 : MSt (genF nv f) nv f.labels (.run f .stop ρ w) ⟨0, r, w, none⟩ := .run hf hr
  have fwd : ∀ n v w', iter (step f) n (.run f .stop ρ w) = some (.done v w') →
      ∃ m r', iter (exec (genF nv f)) m ⟨0, r, w, none⟩ = some ⟨(genF nv f).length, r', w', v⟩ := by
    intro n v w' hn
    obtain ⟨t, ht, m, -, hm⟩ := sim_iter hM hu rfl hf n _ _ _ h0 hn
    cases ht with
    | done => exact ⟨m, _, hm⟩
  have stuck : ∀ (r : Env M) w v, exec (genF nv f) ⟨(genF nv f).length, r, w, v⟩ = none := by
    intro r w v; simp [exec]
  have ends : ∀ (k : Nat) (t : Conf M), exec (genF nv f) t = none → ∀ u, iter (exec (genF nv f)) k t = some u → k = 0 := by
    intro k t ht u hk
    cases k with
    | zero => rfl
    | succ k => simp [iter, ht] at hk
  constructor
  · rintro ⟨n, hn⟩; exact fwd n v w' hn
  · rintro ⟨m, r', hm⟩
    rcases ends_or_goes hM hu rfl hf (m + 1) _ _ _ (Nat.le_refl _) h0 with ⟨n, v2, w2, hn⟩ | ⟨t, n, hn, ht⟩
    · obtain ⟨m2, r2, hm2⟩ := fwd n v2 w2 hn
      rcases Nat.le_total m m2 with hle | hle
      · obtain ⟨d, rfl⟩ := Nat.exists_eq_add_of_le hle
        rw [iter_add _ _ _ _ _ hm] at hm2
        have := ends d _ (stuck _ _ _) _ hm2
        subst this
        simp only [iter, Option.some.injEq, Conf.mk.injEq] at hm2
        obtain ⟨-, -, rfl, rfl⟩ := hm2
        exact ⟨n, hn⟩
      · obtain ⟨d, rfl⟩ := Nat.exists_eq_add_of_le hle
        rw [iter_add _ _ _ _ _ hm2] at hm
        have := ends d _ (stuck _ _ _) _ hm
        subst this
        simp only [iter, Option.some.injEq, Conf.mk.injEq] at hm
        obtain ⟨-, -, rfl, rfl⟩ := hm
        exact ⟨n, hn⟩
    · obtain ⟨d, rfl⟩ := Nat.exists_eq_add_of_le (show m ≤ n by omega)
      rw [iter_add _ _ _ _ _ hm] at ht
      have := ends d _ (stuck _ _ _) _ ht
      omega

/-- The generated code stops nowhere but at its end: it runs on for ever when the program does. -/
theorem compiled_stops (hM : M.Ok) {f : St M} (h : Wf nv f) {ρ r : Env M} (hr : Agree nv r ρ) (w : M.W)
    {m : Nat} {t : Conf M} (ht : iter (exec (genF nv f)) m ⟨0, r, w, none⟩ = some t)
    (hstop : exec (genF nv f) t = none) :
    t.pc = (genF nv f).length ∧ ∃ n, iter (step f) n (.run f .stop ρ w) = some (.done t.res t.w) := by
  have hu := genF_uniq (nv := nv) h.labels
  have hf := genF_placed h
  have h0 : MSt (genF nv f) nv f.labels (.run f .stop ρ w) ⟨0, r, w, none⟩ := .run hf hr
  rcases ends_or_goes hM hu rfl hf (m + 1) _ _ _ (Nat.le_refl _) h0 with ⟨n, v2, w2, hn⟩ | ⟨t', n, hn, ht'⟩
  · obtain ⟨m2, r2, hm2⟩ := (compiled_result hM h hr w w2 v2).1 ⟨n, hn⟩
    have hend : t = ⟨(genF nv f).length, r2, w2, v2⟩ := by
      rcases Nat.le_total m m2 with hle | hle
      · obtain ⟨d, rfl⟩ := Nat.exists_eq_add_of_le hle
        rw [iter_add _ _ _ _ _ ht] at hm2
        cases d with
        | zero => simpa [iter] using hm2
        | succ d => simp [iter, hstop] at hm2
      · obtain ⟨d, rfl⟩ := Nat.exists_eq_add_of_le hle
        rw [iter_add _ _ _ _ _ hm2] at ht
        cases d with
        | zero => exact (by simpa [iter] using ht.symm)
        | succ d => simp [iter, exec] at ht
    subst hend
    exact ⟨rfl, n, hn⟩
  · obtain ⟨d, rfl⟩ := Nat.exists_eq_add_of_le (show m + 1 ≤ n by omega)
    rw [show m + 1 + d = m + (1 + d) by omega, iter_add _ _ _ _ _ ht, Nat.add_comm 1 d] at ht'
    simp [iter, hstop] at ht'

/-- Whatever the program has done to memory and output at some point, the code does, too (also when
neither ends). -/
theorem compiled_effects (hM : M.Ok) {f : St M} (h : Wf nv f) {ρ r : Env M} (hr : Agree nv r ρ) (w : M.W)
    {n : Nat} {S : State M} (hn : iter (step f) n (.run f .stop ρ w) = some S) :
    ∃ m t, iter (exec (genF nv f)) m ⟨0, r, w, none⟩ = some t ∧ t.w = S.world := by
  have hu := genF_uniq (nv := nv) h.labels
  have hf := genF_placed h
  have h0 : MSt (genF nv f) nv f.labels (.run f .stop ρ w) ⟨0, r, w, none⟩ := .run hf hr
  obtain ⟨t, ht, m, -, hm⟩ := sim_iter hM hu rfl hf n _ _ _ h0 hn
  refine ⟨m, t, hm, ?_⟩
  cases ht <;> rfl

/-! ### The blocks are well-formed -/

/-- Is it a jump? -/
def Ins.jumps : Ins M → Bool
  | .jmp _ => true
  | .cjmp _ _ _ _ => true
  | .sw _ _ _ => true
  | _ => false

def startsLab : List (Ins M) → Bool
  | .lab _ :: _ => true
  | _ => false

/-- A jump is the last instruction of its block: the next one begins another. -/
def Blk : List (Ins M) → Prop
  | [] => True
  | i :: c => (i.jumps = true → startsLab c = true) ∧ Blk c

/-- The instruction is no failed assertion and jumps only to labels in `D`. -/
def Tgt (D : Lb → Prop) : Ins M → Prop
  | .jmp b => D b
  | .cjmp _ _ _ b => D b
  | .sw _ tbl d => D d ∧ ∀ c ∈ tbl, D c.2
  | .fail => False
  | _ => True

theorem blk_cmp (c : Cmp M) (t b : Lb) (d : List (Ins M)) (h : Blk d) : Blk (c.jmp t ++ .lab b :: d) := by
  cases c with
  | known v => cases v <;> simp [Cmp.jmp, Blk, Ins.jumps, startsLab, h]
  | ask r x y => simp [Cmp.jmp, Blk, Ins.jumps, startsLab, h]

theorem gen_blk (e : Ex M) :
    (∀ s d, Blk d → Blk ((genE e s).code ++ d)) ∧
    (∀ t f s b d, Blk d → Blk ((genC e t f s).code ++ .lab b :: d)) := by
  induction e with
  | rel r a b iha ihb =>
    refine ⟨fun s d hd => ?_, fun t f s l d hd => ?_⟩
    · simp only [genE]
      split
      · simp only [List.append_assoc]
        exact iha.1 _ _ (ihb.1 _ _ hd)
      · simp only [List.append_assoc]
        exact iha.1 _ _ (ihb.1 _ _ (by simp [Blk, Ins.jumps, hd]))
    · simp only [genC, List.append_assoc]
      refine iha.1 _ _ (ihb.1 _ _ (blk_cmp _ _ _ _ ?_))
      simp [Blk, Ins.jumps, startsLab, hd]
  | inc p g x =>
    refine ⟨fun s d hd => ?_, fun t f s l d hd => ?_⟩
    · simp only [genE]; split <;> simp [Blk, Ins.jumps, hd]
    · simp [genC, Blk, Ins.jumps, hd]
  | un g a ih =>
    refine ⟨fun s d hd => ?_, fun t f s l d hd => by simp [genC, Blk, Ins.jumps, hd]⟩
    simp only [genE, List.append_assoc]
    exact ih.1 _ _ (by simp [Blk, Ins.jumps, hd])
  | assign x a ih =>
    refine ⟨fun s d hd => ?_, fun t f s l d hd => by simp [genC, Blk, Ins.jumps, hd]⟩
    simp only [genE, List.append_assoc]
    exact ih.1 _ _ (by simp [Blk, Ins.jumps, hd])
  | bin g a b iha ihb =>
    refine ⟨fun s d hd => ?_, fun t f s l d hd => by simp [genC, Blk, Ins.jumps, hd]⟩
    simp only [genE, List.append_assoc]
    exact iha.1 _ _ (ihb.1 _ _ (by simp [Blk, Ins.jumps, hd]))
  | and a b iha ihb =>
    refine ⟨fun s d hd => ?_, fun t f s l d hd => ?_⟩
    · simp only [genE, List.append_assoc, List.cons_append, List.nil_append]
      refine iha.2 _ _ _ _ _ (ihb.2 _ _ _ _ _ ?_)
      simp [Blk, Ins.jumps, startsLab, hd]
    · simp only [genC, List.append_assoc, List.cons_append, List.nil_append]
      exact iha.2 _ _ _ _ _ (ihb.2 _ _ _ _ _ hd)
  | or a b iha ihb =>
    refine ⟨fun s d hd => ?_, fun t f s l d hd => ?_⟩
    · simp only [genE, List.append_assoc, List.cons_append, List.nil_append]
      refine iha.2 _ _ _ _ _ (ihb.2 _ _ _ _ _ ?_)
      simp [Blk, Ins.jumps, startsLab, hd]
    · simp only [genC, List.append_assoc, List.cons_append, List.nil_append]
      exact iha.2 _ _ _ _ _ (ihb.2 _ _ _ _ _ hd)
  | tern c a b ihc iha ihb =>
    refine ⟨fun s d hd => ?_, fun t f s l d hd => by simp [genC, Blk, Ins.jumps, hd]⟩
    simp only [genE, List.append_assoc, List.cons_append, List.nil_append]
    refine ihc.2 _ _ _ _ _ (iha.1 _ _ ?_)
    have := ihb.1 (genE a (genC c (.tmp s.n) (.tmp (s.n + 1)) ⟨s.n + 3, s.m + 1⟩).s).s
      (.mov s.m (genE b (genE a (genC c (.tmp s.n) (.tmp (s.n + 1)) ⟨s.n + 3, s.m + 1⟩).s).s).opr ::
        .lab (.tmp (s.n + 2)) :: d) (by simp [Blk, Ins.jumps, hd])
    simp [Blk, Ins.jumps, startsLab, this]
  | comma a b iha ihb =>
    refine ⟨fun s d hd => ?_, fun t f s l d hd => ?_⟩
    · simp only [genE, List.append_assoc]
      exact iha.1 _ _ (ihb.1 _ _ hd)
    · simp only [genC, List.append_assoc]
      exact iha.1 _ _ (ihb.2 _ _ _ _ _ hd)
  | _ =>
    refine ⟨fun s d hd => ?_, fun t f s l d hd => ?_⟩
    · simp [genE, Blk, Ins.jumps, hd]
    · simp [genC, Blk, Ins.jumps, startsLab, hd]

theorem genO_blk (e : Option (Ex M)) (s : Fresh) (d : List (Ins M)) (hd : Blk d) : Blk ((genO e s).code ++ d) := by
  cases e with
  | none => exact hd
  | some e => exact (gen_blk (parse e)).1 _ _ hd

theorem genT_blk (e : Option (Ex M)) (t f b : Lb) (s : Fresh) (d : List (Ins M)) (hd : Blk d) :
    Blk ((genT e t f s).code ++ .lab b :: d) := by
  cases e with
  | none => simp [genT, Blk, Ins.jumps, startsLab, hd]
  | some e => exact (gen_blk _).2 _ _ _ _ _ hd

theorem leave_blk (b : Option Lb) (s : Fresh) (d : List (Ins M)) (hd : Blk d) : Blk ((leave b s).code ++ d) := by
  cases b <;> simp [leave, Blk, Ins.jumps, startsLab, hd]

theorem genS_blk (a : St M) : ∀ (x : Ctx) (s : Fresh) (d : List (Ins M)), Blk d → Blk ((genS x a s).code ++ d) := by
  induction a with
  | skip => intro x s d hd; exact hd
  | expr e => intro x s d hd; exact (gen_blk (parse e)).1 _ _ hd
  | seq a b iha ihb =>
    intro x s d hd
    simp only [genS, List.append_assoc]
    exact iha _ _ _ (ihb _ _ _ hd)
  | ite c a ih =>
    intro x s d hd
    simp only [genS, List.append_assoc, List.cons_append, List.nil_append]
    exact (gen_blk _).2 _ _ _ _ _ (ih _ _ _ (by simp [Blk, Ins.jumps, hd]))
  | itee c a b iha ihb =>
    intro x s d hd
    simp only [genS, List.append_assoc, List.cons_append, List.nil_append]
    refine (gen_blk _).2 _ _ _ _ _ (iha _ _ _ ⟨fun _ => rfl, by simp [Ins.jumps], ihb _ _ _ ?_⟩)
    simp [Blk, Ins.jumps, hd]
  | «while» c a ih =>
    intro x s d hd
    simp only [genS, List.append_assoc, List.cons_append, List.nil_append]
    exact ⟨fun _ => rfl, by simp [Ins.jumps], ih _ _ _ ⟨by simp [Ins.jumps], (gen_blk _).2 _ _ _ _ _ hd⟩⟩
  | doWhile a c ih =>
    intro x s d hd
    simp only [genS, List.append_assoc, List.cons_append, List.nil_append]
    exact ⟨by simp [Ins.jumps], ih _ _ _ ⟨by simp [Ins.jumps], (gen_blk _).2 _ _ _ _ _ hd⟩⟩
  | «for» pre c post a ih =>
    intro x s d hd
    simp only [genS, List.append_assoc, List.cons_append, List.nil_append]
    exact genO_blk _ _ _ ⟨fun _ => rfl, by simp [Ins.jumps], ih _ _ _ ⟨by simp [Ins.jumps],
      genO_blk _ _ _ ⟨by simp [Ins.jumps], genT_blk _ _ _ _ _ _ hd⟩⟩⟩
  | «break» => intro x s d hd; exact leave_blk _ _ _ hd
  | «continue» => intro x s d hd; exact leave_blk _ _ _ hd
  | ret e =>
    intro x s d hd
    cases e with
    | none => exact leave_blk _ _ _ hd
    | some e =>
      simp only [genS, List.append_assoc]
      exact (gen_blk _).1 _ _ (by simp [Blk, Ins.jumps, startsLab, hd])
  | goto l => intro x s d hd; exact leave_blk _ _ _ hd
  | label l a ih => intro x s d hd; exact ⟨by simp [Ins.jumps], ih _ _ _ hd⟩
  | switch e a ih =>
    intro x s d hd
    simp only [genS, List.append_assoc, List.cons_append, List.nil_append]
    exact (gen_blk _).1 _ _ ⟨fun _ => rfl, by simp [Ins.jumps], ih _ _ _ (by simp [Blk, Ins.jumps, hd])⟩
  | case i v a ih => intro x s d hd; exact ⟨by simp [Ins.jumps], ih _ _ _ hd⟩

theorem gen_tgt (D : Lb → Prop) (e : Ex M) (hg : Good e) :
    (∀ s, (∀ b, Ins.lab b ∈ (genE e s).code → D b) → ∀ i ∈ (genE e s).code, Tgt D i) ∧
    (isC e → ∀ t f s, D t → D f → (∀ b, Ins.lab b ∈ (genC e t f s).code → D b) → ∀ i ∈ (genC e t f s).code, Tgt D i) := by
  induction e with
  | const v =>
    refine ⟨fun s _ i hi => by simp [genE] at hi, fun _ t f s ht hf _ i hi => ?_⟩
    simp only [genC, List.mem_singleton] at hi
    subst hi
    simp only [Tgt]
    split <;> assumption
  | var x => exact ⟨fun s _ i hi => by simp [genE] at hi, fun h => h.elim⟩
  | un g a ih =>
    refine ⟨fun s hl i hi => ?_, fun h => h.elim⟩
    simp only [genE, List.mem_append, List.mem_singleton] at hi hl
    rcases hi with hi | rfl
    · exact (ih hg).1 s (fun b hb => hl b (.inl hb)) i hi
    · trivial
  | bin g a b iha ihb =>
    refine ⟨fun s hl i hi => ?_, fun h => h.elim⟩
    simp only [genE, List.mem_append, List.mem_singleton] at hi hl
    rcases hi with (hi | hi) | rfl
    · exact (iha hg.1).1 _ (fun b hb => hl b (.inl (.inl hb))) i hi
    · exact (ihb hg.2).1 _ (fun b hb => hl b (.inl (.inr hb))) i hi
    · trivial
  | assign x a ih =>
    refine ⟨fun s hl i hi => ?_, fun h => h.elim⟩
    simp only [genE, List.mem_append, List.mem_singleton] at hi hl
    rcases hi with hi | rfl
    · exact (ih hg).1 s (fun b hb => hl b (.inl hb)) i hi
    · trivial
  | inc p g x =>
    refine ⟨fun s hl i hi => ?_, fun h => h.elim⟩
    simp only [genE] at hi
    split at hi <;> simp at hi <;> rcases hi with rfl | hi <;> try trivial
    · rcases hi with rfl | rfl <;> trivial
    · rw [hi]; trivial
  | rel r a b iha ihb =>
    have key : ∀ s, (∀ b', Ins.lab b' ∈ (genE a s).code ++ (genE b (genE a s).s).code → D b') →
        ∀ i ∈ (genE a s).code ++ (genE b (genE a s).s).code, Tgt D i := by
      intro s hl i hi
      simp only [List.mem_append] at hi hl
      rcases hi with hi | hi
      · exact (iha hg.1).1 _ (fun b hb => hl b (.inl hb)) i hi
      · exact (ihb hg.2).1 _ (fun b hb => hl b (.inr hb)) i hi
    refine ⟨fun s hl i hi => ?_, fun _ t f s ht hf hl i hi => ?_⟩
    · simp only [genE] at hi hl
      cases hc : mkCmp r (genE a s).opr (genE b (genE a s).s).opr with
      | known v => simp only [hc] at hi hl; exact key s hl i hi
      | ask r x y =>
        simp only [hc] at hi hl
        rw [List.mem_append] at hi
        rcases hi with hi | hi
        · exact key s (fun b hb => hl b (List.mem_append_left _ hb)) i hi
        · simp only [List.mem_singleton] at hi; subst hi; trivial
    · simp only [genC] at hi hl
      rw [List.mem_append, List.mem_append] at hi
      rcases hi with (hi | hi) | hi
      · exact key s (fun b hb => hl b (List.mem_append_left _ (List.mem_append_left _ hb))) i hi
      · cases hc : mkCmp r (genE a s).opr (genE b (genE a s).s).opr with
        | known v => cases v <;> simp [hc, Cmp.jmp] at hi; subst hi; exact ht
        | ask r x y => simp [hc, Cmp.jmp] at hi; subst hi; exact ht
      · simp at hi
        rcases hi with rfl | rfl
        · trivial
        · exact hf
  | not a ih => exact hg.elim
  | and a b iha ihb =>
    refine ⟨fun s hl i hi => ?_, fun _ t f s ht hf hl i hi => ?_⟩
    · simp only [genE, List.mem_append, List.mem_cons, List.not_mem_nil, or_false] at hi hl
      rcases hi with ((hi | rfl) | hi) | hi
      · exact (iha hg.1.1).2 hg.1.2 _ _ _ (hl _ (by simp)) (hl _ (by simp)) (fun b hb => hl b (by simp [hb])) i hi
      · trivial
      · exact (ihb hg.2.1).2 hg.2.2 _ _ _ (hl _ (by simp)) (hl _ (by simp)) (fun b hb => hl b (by simp [hb])) i hi
      · rcases hi with rfl | rfl | rfl | rfl | rfl | rfl <;> try trivial
        exact hl _ (by simp)
    · simp only [genC, List.mem_append, List.mem_cons, List.not_mem_nil, or_false] at hi hl
      rcases hi with (hi | rfl) | hi
      · exact (iha hg.1.1).2 hg.1.2 _ _ _ (hl _ (by simp)) hf (fun b hb => hl b (by simp [hb])) i hi
      · trivial
      · exact (ihb hg.2.1).2 hg.2.2 _ _ _ ht hf (fun b hb => hl b (by simp [hb])) i hi
  | or a b iha ihb =>
    refine ⟨fun s hl i hi => ?_, fun _ t f s ht hf hl i hi => ?_⟩
    · simp only [genE, List.mem_append, List.mem_cons, List.not_mem_nil, or_false] at hi hl
      rcases hi with ((hi | rfl) | hi) | hi
      · exact (iha hg.1.1).2 hg.1.2 _ _ _ (hl _ (by simp)) (hl _ (by simp)) (fun b hb => hl b (by simp [hb])) i hi
      · trivial
      · exact (ihb hg.2.1).2 hg.2.2 _ _ _ (hl _ (by simp)) (hl _ (by simp)) (fun b hb => hl b (by simp [hb])) i hi
      · rcases hi with rfl | rfl | rfl | rfl | rfl | rfl <;> try trivial
        exact hl _ (by simp)
    · simp only [genC, List.mem_append, List.mem_cons, List.not_mem_nil, or_false] at hi hl
      rcases hi with (hi | rfl) | hi
      · exact (iha hg.1.1).2 hg.1.2 _ _ _ ht (hl _ (by simp)) (fun b hb => hl b (by simp [hb])) i hi
      · trivial
      · exact (ihb hg.2.1).2 hg.2.2 _ _ _ ht hf (fun b hb => hl b (by simp [hb])) i hi
  | tern c a b ihc iha ihb =>
    refine ⟨fun s hl i hi => ?_, fun h => h.elim⟩
    simp only [genE, List.mem_append, List.mem_cons, List.not_mem_nil, or_false] at hi hl
    rcases hi with ((((hi | rfl) | hi) | hi) | hi) | hi
    · exact (ihc hg.1.1).2 hg.1.2 _ _ _ (hl _ (by simp)) (hl _ (by simp)) (fun b hb => hl b (by simp [hb])) i hi
    · trivial
    · exact (iha hg.2.1).1 _ (fun b hb => hl b (by simp [hb])) i hi
    · rcases hi with rfl | rfl | rfl <;> try trivial
      exact hl _ (by simp)
    · exact (ihb hg.2.2).1 _ (fun b hb => hl b (by simp [hb])) i hi
    · rcases hi with rfl | rfl <;> trivial
  | comma a b iha ihb =>
    refine ⟨fun s hl i hi => ?_, fun hc t f s ht hf hl i hi => ?_⟩
    · simp only [genE, List.mem_append] at hi hl
      rcases hi with hi | hi
      · exact (iha hg.1).1 _ (fun b hb => hl b (.inl hb)) i hi
      · exact (ihb hg.2).1 _ (fun b hb => hl b (.inr hb)) i hi
    · simp only [genC, List.mem_append] at hi hl
      rcases hi with hi | hi
      · exact (iha hg.1).1 _ (fun b hb => hl b (.inl hb)) i hi
      · exact (ihb hg.2).2 hc _ _ _ ht hf (fun b hb => hl b (.inr hb)) i hi

theorem genO_tgt (D : Lb → Prop) (e : Option (Ex M)) (s : Fresh) (hl : ∀ b, Ins.lab b ∈ (genO e s).code → D b) :
    ∀ i ∈ (genO e s).code, Tgt D i := by
  cases e with
  | none => intro i hi; simp [genO] at hi
  | some e => exact (gen_tgt D (parse e) (good_parse e)).1 s hl

theorem genT_tgt (D : Lb → Prop) (e : Option (Ex M)) (t f : Lb) (s : Fresh) (ht : D t) (hf : D f)
    (hl : ∀ b, Ins.lab b ∈ (genT e t f s).code → D b) : ∀ i ∈ (genT e t f s).code, Tgt D i := by
  cases e with
  | none => intro i hi; simp [genT] at hi; subst hi; exact ht
  | some e =>
    have hg := good_mkCond (good_parse e)
    exact (gen_tgt D _ hg.1).2 hg.2 t f s ht hf hl

theorem label_emitted (a : St M) (x : Ctx) (s : Fresh) (b : Lb) (h : b ∈ a.labels) (hb : ∀ k, b ≠ .tmp k) :
    Ins.lab b ∈ (genS x a s).code := by
  have := (genS_cnt a x s).2 b hb
  have hpos : 0 < (genS x a s).code.countP (isLab b) := by rw [this]; exact List.count_pos_iff.2 h
  obtain ⟨i, hi, hp⟩ := List.countP_pos_iff.1 hpos
  cases i <;> simp only [isLab, decide_eq_true_eq, Bool.false_eq_true] at hp
  subst hp
  exact hi

theorem leave_tgt (D : Lb → Prop) {b : Option Lb} {s : Fresh} (hb : ∃ l, b = some l ∧ D l) :
    ∀ i ∈ (leave (M := M) b s).code, Tgt D i := by
  obtain ⟨l, rfl, hl⟩ := hb
  intro i hi
  simp only [leave, List.mem_cons, List.not_mem_nil, or_false] at hi
  rcases hi with rfl | rfl
  · exact hl
  · trivial

theorem genS_tgt (D : Lb → Prop) (hret : D .ret) (hL : ∀ b ∈ L, D b) (a : St M) : ∀ (x : Ctx) (s : Fresh),
    a.Ok nv L x.brk.isSome x.cont.isSome → (∀ b, x.brk = some b → D b) → (∀ b, x.cont = some b → D b) →
    (∀ b, Ins.lab b ∈ (genS x a s).code → D b) → ∀ i ∈ (genS x a s).code, Tgt D i := by
  induction a with
  | skip => intro x s _ _ _ _ i hi; simp [genS] at hi
  | expr e => intro x s _ _ _ hl; exact (gen_tgt D (parse e) (good_parse e)).1 s hl
  | seq a b iha ihb =>
    intro x s hok hb hc hl i hi
    simp only [genS, List.mem_append] at hi hl
    rcases hi with hi | hi
    · exact iha x s hok.1 hb hc (fun b hb => hl b (.inl hb)) i hi
    · exact ihb x _ hok.2 hb hc (fun b hb => hl b (.inr hb)) i hi
  | ite c a ih =>
    intro x s hok hb hc hl i hi
    simp only [genS, List.mem_append, List.mem_cons, List.not_mem_nil, or_false] at hi hl
    have hg := good_mkCond (good_parse c)
    rcases hi with ((hi | rfl) | hi) | rfl
    · exact (gen_tgt D _ hg.1).2 hg.2 _ _ _ (hl _ (by simp)) (hl _ (by simp)) (fun b hb => hl b (by simp [hb])) i hi
    · trivial
    · exact ih x _ hok.2 hb hc (fun b hb => hl b (by simp [hb])) i hi
    · trivial
  | itee c a b iha ihb =>
    intro x s hok hb hc hl i hi
    simp only [genS, List.mem_append, List.mem_cons, List.not_mem_nil, or_false] at hi hl
    have hg := good_mkCond (good_parse c)
    rcases hi with ((((hi | rfl) | hi) | hi) | hi) | rfl
    · exact (gen_tgt D _ hg.1).2 hg.2 _ _ _ (hl _ (by simp)) (hl _ (by simp)) (fun b hb => hl b (by simp [hb])) i hi
    · trivial
    · exact iha x _ hok.2.1 hb hc (fun b hb => hl b (by simp [hb])) i hi
    · rcases hi with rfl | rfl
      · exact hl _ (by simp)
      · trivial
    · exact ihb x _ hok.2.2 hb hc (fun b hb => hl b (by simp [hb])) i hi
    · trivial
  | «while» c a ih =>
    intro x s hok hb hc hl i hi
    simp only [genS, List.mem_append, List.mem_cons, List.not_mem_nil, or_false] at hi hl
    have hg := good_mkCond (good_parse c)
    rcases hi with ((((rfl | rfl) | hi) | rfl) | hi) | rfl
    · exact hl _ (by simp)
    · trivial
    · refine ih ⟨some _, some _⟩ _ hok.2 ?_ ?_ (fun b hb => hl b (by simp [hb])) i hi
      · intro b hb; simp only [Option.some.injEq] at hb; subst hb; exact hl _ (by simp)
      · intro b hb; simp only [Option.some.injEq] at hb; subst hb; exact hl _ (by simp)
    · trivial
    · exact (gen_tgt D _ hg.1).2 hg.2 _ _ _ (hl _ (by simp)) (hl _ (by simp)) (fun b hb => hl b (by simp [hb])) i hi
    · trivial
  | doWhile a c ih =>
    intro x s hok hb hc hl i hi
    simp only [genS, List.mem_append, List.mem_cons, List.not_mem_nil, or_false] at hi hl
    have hg := good_mkCond (good_parse c)
    rcases hi with (((rfl | hi) | rfl) | hi) | rfl
    · trivial
    · refine ih ⟨some _, some _⟩ _ hok.2 ?_ ?_ (fun b hb => hl b (by simp [hb])) i hi
      · intro b hb; simp only [Option.some.injEq] at hb; subst hb; exact hl _ (by simp)
      · intro b hb; simp only [Option.some.injEq] at hb; subst hb; exact hl _ (by simp)
    · trivial
    · exact (gen_tgt D _ hg.1).2 hg.2 _ _ _ (hl _ (by simp)) (hl _ (by simp)) (fun b hb => hl b (by simp [hb])) i hi
    · trivial
  | «for» pre c post a ih =>
    intro x s hok hb hc hl i hi
    simp only [genS, List.mem_append, List.mem_cons, List.not_mem_nil, or_false] at hi hl
    rcases hi with ((((((hi | hi) | hi) | rfl) | hi) | rfl) | hi) | rfl
    · exact genO_tgt D _ _ (fun b hb => hl b (by simp [hb])) i hi
    · rcases hi with rfl | rfl
      · exact hl _ (by simp)
      · trivial
    · refine ih ⟨some _, some _⟩ _ hok.2.2.2 ?_ ?_ (fun b hb => hl b (by simp [hb])) i hi
      · intro b hb; simp only [Option.some.injEq] at hb; subst hb; exact hl _ (by simp)
      · intro b hb; simp only [Option.some.injEq] at hb; subst hb; exact hl _ (by simp)
    · trivial
    · exact genO_tgt D _ _ (fun b hb => hl b (by simp [hb])) i hi
    · trivial
    · exact genT_tgt D _ _ _ _ (hl _ (by simp)) (hl _ (by simp)) (fun b hb => hl b (by simp [hb])) i hi
    · trivial
  | «break» =>
    intro x s hok hb hc hl
    obtain ⟨b, hb'⟩ := Option.isSome_iff_exists.1 (show x.brk.isSome = true from hok)
    exact leave_tgt D ⟨b, hb', hb b hb'⟩
  | «continue» =>
    intro x s hok hb hc hl
    obtain ⟨b, hb'⟩ := Option.isSome_iff_exists.1 (show x.cont.isSome = true from hok)
    exact leave_tgt D ⟨b, hb', hc b hb'⟩
  | ret e =>
    intro x s hok hb hc hl i hi
    cases e with
    | none => exact leave_tgt D ⟨_, rfl, hret⟩ i hi
    | some e =>
      simp only [genS, List.mem_append, List.mem_cons, List.not_mem_nil, or_false] at hi hl
      rcases hi with hi | hi
      · exact (gen_tgt D (parse e) (good_parse e)).1 _ (fun b hb => hl b (by simp [hb])) i hi
      · rcases hi with rfl | rfl | rfl <;> trivial
  | goto l => intro x s hok hb hc hl; exact leave_tgt D ⟨_, rfl, hL _ hok⟩
  | label l a ih =>
    intro x s hok hb hc hl i hi
    simp only [genS, List.mem_append, List.mem_cons, List.not_mem_nil, or_false] at hi hl
    rcases hi with rfl | hi
    · trivial
    · exact ih x s hok hb hc (fun b hb => hl b (.inr hb)) i hi
  | switch e a ih =>
    intro x s hok hb hc hl i hi
    simp only [genS, List.mem_append, List.mem_cons, List.not_mem_nil, or_false] at hi hl
    rcases hi with ((hi | hi) | hi) | rfl
    · exact (gen_tgt D (parse e) (good_parse e)).1 _ (fun b hb => hl b (by simp [hb])) i hi
    · rcases hi with rfl | rfl
      · have hcase : ∀ c ∈ cases a, D (.case c.2) := fun c hc =>
          hl _ (.inl (.inr (label_emitted a _ _ _ (cases_labels a c hc) (by simp))))
        refine ⟨?_, ?_⟩
        · unfold dflt
          split
          · rename_i c hf; exact hcase c (List.mem_of_find?_eq_some hf)
          · exact hl _ (by simp)
        · intro c hcm
          simp only [table, List.mem_filterMap, Option.map_eq_some_iff] at hcm
          obtain ⟨d, hd, v, -, rfl⟩ := hcm
          exact hcase d hd
      · trivial
    · refine ih ⟨some _, x.cont⟩ _ hok.2 ?_ hc (fun b hb => hl b (by simp [hb])) i hi
      intro b hb; simp only [Option.some.injEq] at hb; subst hb; exact hl _ (by simp)
    · trivial
  | case j v a ih =>
    intro x s hok hb hc hl i hi
    simp only [genS, List.mem_append, List.mem_cons, List.not_mem_nil, or_false] at hi hl
    rcases hi with rfl | hi
    · trivial
    · exact ih x s hok hb hc (fun b hb => hl b (.inr hb)) i hi

/-- The generator's assertions hold; every jump is the last instruction of its block and goes to a
block that exists; no block is emitted twice. -/
theorem blocks_well_formed {f : St M} (h : Wf nv f) :
    (∀ i ∈ genF nv f, Tgt (fun b => Ins.lab b ∈ genF nv f) i) ∧ Blk (genF nv f) ∧
      ∀ b, (genF nv f).countP (isLab b) ≤ 1 := by
  refine ⟨fun i hi => ?_, ?_, fun b => ?_⟩
  · rw [genF, List.mem_append] at hi
    rcases hi with hi | hi
    · refine genS_tgt (nv := nv) (L := f.labels) _ ?_ ?_ f ⟨none, none⟩ ⟨0, nv⟩ h.ok (by simp) (by simp) ?_ i hi
      · simp [genF]
      · intro b hb
        refine List.mem_append_left _ (label_emitted f _ _ b hb ?_)
        rintro k rfl
        have : ∀ a : St M, Lb.tmp k ∉ a.labels := by intro a; induction a <;> simp_all [St.labels]
        exact this f hb
      · intro b hb
        exact List.mem_append_left _ hb
    · simp only [List.mem_singleton] at hi; subst hi; trivial
  · exact genS_blk f _ _ _ (by simp [Blk, Ins.jumps])
  · by_cases hm : ∃ (i : Nat) (x : Ins M), (genF nv f)[i]? = some x ∧ isLab b x = true
    · have hc := genS_cnt f ⟨none, none⟩ ⟨0, nv⟩
      rw [genF, List.countP_append]
      cases b with
      | tmp k => have := (hc.1 k).1; simpa [isLab] using this
      | ret =>
        rw [hc.2 .ret (by simp), List.count_eq_zero.2 (no_ret f)]
        simp [isLab]
      | user l =>
        rw [hc.2 _ (by simp)]
        have := List.nodup_iff_count_le_one.1 h.labels (.user l)
        simpa [isLab] using this
      | case i =>
        rw [hc.2 _ (by simp)]
        have := List.nodup_iff_count_le_one.1 h.labels (.case i)
        simpa [isLab] using this
    · have : (genF nv f).countP (isLab b) = 0 := by
        rw [List.countP_eq_zero]
        intro x hx hp
        obtain ⟨i, hi, hx⟩ := List.getElem_of_mem hx
        exact hm ⟨i, x, by rw [List.getElem?_eq_getElem hi, hx], hp⟩
      omega

/-! ### A program that meets the hypotheses -/

inductive ExR where
  | eq | ne | lt | ge | gt | le

def ExR.holds : ExR → Int → Int → Bool
  | .eq, a, b => decide (a = b)
  | .ne, a, b => !decide (a = b)
  | .lt, a, b => decide (a < b)
  | .ge, a, b => !decide (a < b)
  | .gt, a, b => decide (b < a)
  | .le, a, b => !decide (b < a)

def ExR.swap : ExR → ExR
  | .eq => .eq
  | .ne => .ne
  | .lt => .gt
  | .ge => .le
  | .gt => .lt
  | .le => .ge

def ExR.inv : ExR → ExR
  | .eq => .ne
  | .ne => .eq
  | .lt => .ge
  | .ge => .lt
  | .gt => .le
  | .le => .gt

/-- Integers; the world is what has been printed. -/
def exM : Mach where
  V := Int
  W := List Int
  F := Nat
  R := ExR
  un f a w := if f = 0 then (a + 1, w) else (a, w ++ [a])
  bin _ a b w := (a + b, w)
  rel := ExR.holds
  swap := ExR.swap
  inv := ExR.inv
  eq := .eq
  ne := .ne
  zero := (0 : Int)
  ofBool b := if b then (1 : Int) else 0

theorem exM_ok : exM.Ok where
  swap r a b := by
    change ExR.holds (ExR.swap r) b a = ExR.holds r a b
    have h (a b : Int) : ExR.holds (ExR.swap r) b a = ExR.holds r a b := by
      cases r <;> simp [ExR.holds, ExR.swap, eq_comm]
    exact h a b
  inv r a b := by
    change ExR.holds (ExR.inv r) a b = !ExR.holds r a b
    cases r <;> simp [ExR.holds, ExR.inv]
  eq a b := by
    change ExR.holds .eq a b = !ExR.holds .ne a b
    simp [ExR.holds]
  bool b := by
    change ExR.holds .ne (if b then 1 else 0) 0 = b
    cases b <;> decide

/-- `for (x = 0; ; x++) { switch (x) { case 1: case 3: continue; default: print(x); break; case 5: goto l0; } if (x == 4 && !(y = x, 0)) break; }
l0: return x + y;` -/
def exF : St exM :=
  .seq
    (.for (some (.assign 0 (.const (0 : Int)))) none (some (.inc true (0 : Nat) 0))
      (.seq
        (.switch (.var 0)
          (.seq (.case 0 (some (1 : Int)) (.case 1 (some (3 : Int)) .continue))
            (.seq (.case 2 none (.expr (.un (1 : Nat) (.var 0))))
              (.seq .break (.case 3 (some (5 : Int)) (.goto 0))))))
        (.ite (.and (.rel ExR.eq (.var 0) (.const (4 : Int))) (.not (.comma (.assign 1 (.var 0)) (.const (0 : Int))))) .break)))
    (.label 0 (.ret (some (.bin (0 : Nat) (.var 0) (.var 1)))))

theorem exF_wf : Wf 2 exF := by
  constructor
  · simp [exF, St.Ok, St.labels, Ex.Ok, okO, Apart, Ex.sets, Ex.reads]
  · decide

/-- It ends, so `compiled_result` says that the code ends with the same. -/
example : (iter (step exF) 41 (.run exF .stop (fun _ => (0 : Int)) ([] : List Int))).map
    (fun S => match S with | .done v w => (some (v : Option Int), (w : List Int)) | .run _ _ _ w => (none, w)) =
      some (some (some (8 : Int)), [0, 2, 4]) := by
  decide +kernel

example (r : Env exM) (w' : List Int) (v : Option Int) :
    (∃ n, iter (step exF) n (.run exF .stop r ([] : List Int)) = some (.done v w')) ↔
      ∃ m r', iter (exec (genF 2 exF)) m ⟨0, r, ([] : List Int), none⟩ = some ⟨(genF 2 exF).length, r', w', v⟩ :=
  compiled_result exM_ok exF_wf (fun _ _ => rfl) _ _ _

example : Blk (genF 2 exF) := (blocks_well_formed exF_wf).2.1

end Verif.StmtGen

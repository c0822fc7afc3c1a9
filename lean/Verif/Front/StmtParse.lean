/-!
# C82: how the parser groups statements

Model of the statement parser of `xcc` (`/repo/src/cc/frontend/parser.c`): which tokens become which
statement, which loop or `switch` a `break`, a `continue`, a `case` or a `default` belongs to, and the
checks on case labels, labels and `goto`.

Simplifications common to the whole file:
* an expression is one token (how expressions are grouped is C77), and so is a declaration without its `;`
  (C78 and C79); `__asm` statements and statement expressions are left out;
* every `parse_error` ends the parse (`Out.err`): the errors that do not end it count as errors, and a
  compilation with errors produces nothing (cc/cc1.c:173), so a text is accepted exactly when there is no first error;
* the types of the values are given by a function `cv`: `cv e v` is `v` converted to the type of `e`.
-/
namespace Verif.StmtParse

/-- Tokens, with a whole expression or a whole declaration as one token (cc/frontend/ast.h:47-150).
`num` is an integer constant expression. The end of the file is the end of the list. -/
inductive Tok where
  | kif | kelse | kswitch | kwhile | kdo | kfor | kbreak | kcontinue | kgoto | kreturn | kcase | kdefault
  | lpar | rpar | lbrace | rbrace | semi | colon
  | ident (n : Nat) | num (v : Int) | expr (n : Nat) | decl (n : Nat)
  deriving DecidableEq, Repr

/-- Expressions: a name alone, an integer constant expression, anything else. -/
inductive E where
  | var (n : Nat) | num (v : Int) | other (n : Nat)
  deriving DecidableEq, Repr

/-- The first clause of `for`. -/
inductive Init where
  | none | expr (e : E) | decl (n : Nat)
  deriving DecidableEq, Repr

/-- Two kinds of trees: a statement, and the items of a block. -/
inductive K where
  | st | items
  deriving DecidableEq, Repr

/-- Statements as the parser builds them (cc/frontend/ast.h:385-450). `switch` and the loops carry a number
that stands for the address of the statement; `break`, `continue`, `case` and `default` carry the number of
the statement they point to. `missing` is the null pointer. `case` keeps the value as written beside the
converted one. Simplification: the block around a `for` with a declaration is the `Init` of the `for`. -/
inductive S : K → Type where
  | missing : S .st
  | expr (e : E) : S .st
  | empty : S .st
  | block (b : S .items) : S .st
  | ifs (e : E) (t : S .st) : S .st
  | ife (e : E) (t f : S .st) : S .st
  | switch (id : Nat) (e : E) (b : S .st) : S .st
  | while (id : Nat) (e : E) (b : S .st) : S .st
  | doWhile (id : Nat) (b : S .st) (e : E) : S .st
  | for (id : Nat) (i : Init) (c p : Option E) (b : S .st) : S .st
  | brk (parent : Nat) : S .st
  | cont (parent : Nat) : S .st
  | goto (n : Nat) : S .st
  | ret (e : Option E) : S .st
  | case (sw : Nat) (written v : Int) (s : S .st) : S .st
  | default (sw : Nat) (s : S .st) : S .st
  | label (n : Nat) (s : S .st) : S .st
  | nil : S .items
  | dcl (n : Nat) (r : S .items) : S .items
  | cons (s : S .st) (r : S .items) : S .items
  deriving Repr

/-- `LoopScope` (fe_misc.h:47-56), with the expression of the `switch` beside its number. -/
structure LoopScope where
  brk : Option Nat := none
  cont : Option Nat := none
  sw : Option (Nat × E) := none
  deriving DecidableEq, Repr

/-- What the parser changes: the number of the next statement, `loop_scope`, the vectors `cases` of all
switches (as one list of pairs of the number of the switch and the label, `none` for `default`), and the
labels and the `goto`s of the function. -/
structure St where
  next : Nat := 0
  scope : LoopScope := {}
  cases : List (Nat × Option Int) := []
  labels : List Nat := []
  gotos : List Nat := []
  deriving DecidableEq, Repr

/-- Result of a parse: `fuel` is not in the code, and does not happen (`parse_total`). -/
inductive Out (α : Type) where
  | ok (a : α) | err | fuel
  deriving DecidableEq, Repr

/-- Sequencing: the first error ends the parse. -/
def Out.bind {α β : Type} : Out α → (α → Out β) → Out β
  | .ok a, f => f a
  | .err, _ => .err
  | .fuel, _ => .fuel

/-- `consume` (parser.c:22-27). -/
def expect (t : Tok) : List Tok → Out (List Tok)
  | [] => .err
  | u :: ts => if u = t then .ok ts else .err

/-- `parse_expr` (parser_expr.c), an expression being one token. -/
def pexpr : List Tok → Out (E × List Tok)
  | .ident n :: ts => .ok (.var n, ts)
  | .num v :: ts => .ok (.num v, ts)
  | .expr n :: ts => .ok (.other n, ts)
  | _ => .err

/-- `(`, `parse_expr`, `)` as in parser.c:330-333, 343-347, 412-415, 438-442. -/
def paren (ts : List Tok) : Out (E × List Tok) :=
  (expect .lpar ts).bind fun ts => (pexpr ts).bind fun (e, ts) => (expect .rpar ts).bind fun ts => .ok (e, ts)

/-- The first clause of `for` (parser.c:452-467). -/
def forInit : List Tok → Out (Init × List Tok)
  | .semi :: ts => .ok (.none, ts)
  | .decl n :: ts => (expect .semi ts).bind fun ts => .ok (.decl n, ts)
  | ts => (pexpr ts).bind fun (e, ts) => (expect .semi ts).bind fun ts => .ok (.expr e, ts)

/-- An expression that may be left out before a closing token (parser.c:471-481, 546-550). -/
def optExpr (close : Tok) (ts : List Tok) : Out (Option E × List Tok) :=
  match ts with
  | [] => .err
  | t :: r =>
    if t = close then .ok (none, r)
    else (pexpr ts).bind fun (e, ts) => (expect close ts).bind fun ts => .ok (some e, ts)

/-- The head of `for` (parser.c:448-481). -/
def forHead (ts : List Tok) : Out (Init × Option E × Option E × List Tok) :=
  (expect .lpar ts).bind fun ts => (forInit ts).bind fun (i, ts) =>
  (optExpr .semi ts).bind fun (c, ts) => (optExpr .rpar ts).bind fun (p, ts) => .ok (i, c, p, ts)

/-- `SAVE_LOOP_SCOPE` (fe_misc.h:53): sets what is not null. -/
def setLoop (sc : LoopScope) (b c : Option Nat) : LoopScope :=
  { sc with brk := if b.isSome then b else sc.brk, cont := if c.isSome then c else sc.cont }

/-- `find_case` (parser.c:360-370) over the labels of switch `i`. -/
def findCase (cases : List (Nat × Option Int)) (i : Nat) (v : Int) : Bool :=
  cases.any fun x => x.1 = i && x.2 = some v

/-- Whether the null pointer was returned. -/
def S.isMissing {k : K} : S k → Bool
  | .missing => true
  | _ => false

/-- An expression statement (parser.c:678-683). -/
def exprStmt (st : St) (ts : List Tok) : Out (S .st × St × List Tok) :=
  (pexpr ts).bind fun (e, ts) => (expect .semi ts).bind fun ts => .ok (.expr e, st, ts)

/-- The part of `parse_case` before the statement that follows (parser.c:372-400), for `case`. -/
def addCase (cv : E → Int → Int) (st : St) (v : Int) : Out (Nat × Int × St) :=
  match st.scope.sw with
  | none => .err
  | some (i, e) =>
    if findCase st.cases i v then .err
    else .ok (i, cv e v, { st with cases := st.cases ++ [(i, some (cv e v))] })

/-- The part of `parse_case` before the statement that follows (parser.c:372-400), for `default`. -/
def addDefault (st : St) : Out (Nat × St) :=
  match st.scope.sw with
  | none => .err
  | some (i, _) =>
    if st.cases.any (fun x => x.1 = i && x.2 = none) then .err
    else .ok (i, { st with cases := st.cases ++ [(i, none)] })

/-- `parse_const_fixnum` and the `:` (parser.c:373-376). -/
def caseHead : List Tok → Out (Int × List Tok)
  | .num v :: ts => (expect .colon ts).bind fun ts => .ok (v, ts)
  | _ => .err

/-- `parse_break_continue` (parser.c:510-521). -/
def breakContinue (isBreak : Bool) (st : St) (ts : List Tok) : Out (S .st × St × List Tok) :=
  (expect .semi ts).bind fun ts =>
  match (if isBreak then st.scope.brk else st.scope.cont) with
  | none => .err
  | some i => .ok (if isBreak then .brk i else .cont i, st, ts)

/-- `parse_goto` (parser.c:523-531). -/
def gotoStmt (st : St) : List Tok → Out (S .st × St × List Tok)
  | .ident n :: ts => (expect .semi ts).bind fun ts => .ok (.goto n, { st with gotos := st.gotos ++ [n] }, ts)
  | _ => .err

/-- The end of `parse_label` (parser.c:533-542) with `add_func_label` (parser.c:29-37). -/
def addLabel (n : Nat) (s : S .st) (st : St) (ts : List Tok) : Out (S .st × St × List Tok) :=
  if s.isMissing then .err
  else if n ∈ st.labels then .err
  else .ok (.label n s, { st with labels := st.labels ++ [n] }, ts)

mutual
/-- `parse_stmt` (parser.c:634-684) with `parse_if` (329-340), `parse_switch` (342-358), `parse_case`
(372-409), `parse_while` (411-426), `parse_do_while` (428-445), `parse_for` (447-508), `parse_label`
(533-542) and `parse_return` (544-550; the checks of the type are left out). -/
def parseStmt (cv : E → Int → Int) : Nat → St → List Tok → Out (S .st × St × List Tok)
  | 0, _, _ => .fuel
  | _ + 1, st, [] => .ok (.missing, st, [])
  | f + 1, st, t :: ts =>
    match t with
    | .rbrace => .ok (.missing, st, t :: ts)
    | .ident n =>
      match ts with
      | .colon :: us => (parseStmt cv f st us).bind fun (s, st, ts) => addLabel n s st ts
      | _ => exprStmt st (t :: ts)
    | .kcase =>
      (caseHead ts).bind fun (v, ts) => (addCase cv st v).bind fun (i, w, st) =>
      (parseStmt cv f st ts).bind fun (s, st, ts) =>
      if s.isMissing then .err else .ok (.case i v w s, st, ts)
    | .kdefault =>
      (expect .colon ts).bind fun ts => (addDefault st).bind fun (i, st) =>
      (parseStmt cv f st ts).bind fun (s, st, ts) =>
      if s.isMissing then .err else .ok (.default i s, st, ts)
    | .semi => .ok (.empty, st, ts)
    | .lbrace => (parseStmts cv f st ts).bind fun (b, st, ts) => .ok (.block b, st, ts)
    | .kif =>
      (paren ts).bind fun (e, ts) => (parseStmt cv f st ts).bind fun (x, st, ts) =>
      match ts with
      | .kelse :: ts => (parseStmt cv f st ts).bind fun (y, st, ts) => .ok (.ife e x y, st, ts)
      | _ => .ok (.ifs e x, st, ts)
    | .kswitch =>
      (paren ts).bind fun (e, ts) =>
      let id := st.next
      let save := st.scope
      let sc := { setLoop save (some id) none with sw := some (id, e) }
      (parseStmt cv f { st with next := id + 1, scope := sc } ts).bind fun (b, st, ts) =>
      .ok (.switch id e b, { st with scope := save }, ts)
    | .kwhile =>
      (paren ts).bind fun (e, ts) =>
      let id := st.next
      let save := st.scope
      (parseStmt cv f { st with next := id + 1, scope := setLoop save (some id) (some id) } ts).bind fun (b, st, ts) =>
      .ok (.while id e b, { st with scope := save }, ts)
    | .kdo =>
      let id := st.next
      let save := st.scope
      (parseStmt cv f { st with next := id + 1, scope := setLoop save (some id) (some id) } ts).bind fun (b, st, ts) =>
      (expect .kwhile ts).bind fun ts => (paren ts).bind fun (e, ts) => (expect .semi ts).bind fun ts =>
      .ok (.doWhile id b e, { st with scope := save }, ts)
    | .kfor =>
      (forHead ts).bind fun (i, c, p, ts) =>
      let id := st.next
      let save := st.scope
      (parseStmt cv f { st with next := id + 1, scope := setLoop save (some id) (some id) } ts).bind fun (b, st, ts) =>
      .ok (.for id i c p b, { st with scope := save }, ts)
    | .kbreak => breakContinue true st ts
    | .kcontinue => breakContinue false st ts
    | .kgoto => gotoStmt st ts
    | .kreturn => (optExpr .semi ts).bind fun (e, ts) => .ok (.ret e, st, ts)
    | _ => exprStmt st (t :: ts)
/-- `parse_stmts` (parser.c:603-622) with `parse_vardecl` (296-327): the items up to the closing brace. -/
def parseStmts (cv : E → Int → Int) : Nat → St → List Tok → Out (S .items × St × List Tok)
  | 0, _, _ => .fuel
  | f + 1, st, ts =>
    match ts with
    | .decl n :: us =>
      (expect .semi us).bind fun us => (parseStmts cv f st us).bind fun (r, st, us) => .ok (.dcl n r, st, us)
    | _ =>
      (parseStmt cv f st ts).bind fun (s, st, ts) =>
      if s.isMissing then (expect .rbrace ts).bind fun ts => .ok (.nil, st, ts)
      else (parseStmts cv f st ts).bind fun (r, st, ts) => .ok (.cons s r, st, ts)
end

/-- `check_goto_labels` (parser.c:46-73): every `goto` names a label of the function. Labels that are not
used only give a warning. -/
def checkGotos (st : St) : Bool := st.gotos.all (fun n => st.labels.contains n)

/-- The body of a function after its `{` (parser.c:870-889): `parse_block` (624-632) and `check_goto_labels`,
with nothing around it. -/
def parseBody (cv : E → Int → Int) (ts : List Tok) : Out (S .items × St × List Tok) :=
  (parseStmts cv (2 * ts.length + 2) {} ts).bind fun (b, st, r) =>
  if checkGotos st then .ok (b, st, r) else .err

/-! ## Specification: the statements of C -/

/-- Statements of C. `missing` is not C: it stands for a body that is not there. -/
inductive C : K → Type where
  | missing : C .st
  | expr (e : E) : C .st
  | empty : C .st
  | block (b : C .items) : C .st
  | ifs (e : E) (t : C .st) : C .st
  | ife (e : E) (t f : C .st) : C .st
  | switch (e : E) (b : C .st) : C .st
  | while (e : E) (b : C .st) : C .st
  | doWhile (b : C .st) (e : E) : C .st
  | for (i : Init) (c p : Option E) (b : C .st) : C .st
  | brk : C .st
  | cont : C .st
  | goto (n : Nat) : C .st
  | ret (e : Option E) : C .st
  | case (v : Int) (s : C .st) : C .st
  | default (s : C .st) : C .st
  | label (n : Nat) (s : C .st) : C .st
  | nil : C .items
  | dcl (n : Nat) (r : C .items) : C .items
  | cons (s : C .st) (r : C .items) : C .items
  deriving Repr, DecidableEq

/-- The token of an expression. -/
def E.tok : E → Tok
  | .var n => .ident n
  | .num v => .num v
  | .other n => .expr n

/-- The text of an optional expression. -/
def optText : Option E → List Tok
  | none => []
  | some e => [e.tok]

/-- The text of the first clause of `for`. -/
def Init.text : Init → List Tok
  | .none => []
  | .expr e => [e.tok]
  | .decl n => [.decl n]

/-- The text of a statement: the productions of C11 6.8. The items of a block include the closing brace. -/
def C.text : {k : K} → C k → List Tok
  | _, .missing => []
  | _, .expr e => [e.tok, .semi]
  | _, .empty => [.semi]
  | _, .block b => .lbrace :: b.text
  | _, .ifs e t => .kif :: .lpar :: e.tok :: .rpar :: t.text
  | _, .ife e t f => .kif :: .lpar :: e.tok :: .rpar :: (t.text ++ .kelse :: f.text)
  | _, .switch e b => .kswitch :: .lpar :: e.tok :: .rpar :: b.text
  | _, .while e b => .kwhile :: .lpar :: e.tok :: .rpar :: b.text
  | _, .doWhile b e => .kdo :: (b.text ++ [.kwhile, .lpar, e.tok, .rpar, .semi])
  | _, .for i c p b => .kfor :: .lpar :: (i.text ++ .semi :: (optText c ++ .semi :: (optText p ++ .rpar :: b.text)))
  | _, .brk => [.kbreak, .semi]
  | _, .cont => [.kcontinue, .semi]
  | _, .goto n => [.kgoto, .ident n, .semi]
  | _, .ret e => .kreturn :: (optText e ++ [.semi])
  | _, .case v s => .kcase :: .num v :: .colon :: s.text
  | _, .default s => .kdefault :: .colon :: s.text
  | _, .label n s => .ident n :: .colon :: s.text
  | _, .nil => [.rbrace]
  | _, .dcl n r => .decl n :: .semi :: r.text
  | _, .cons s r => s.text ++ r.text

/-- No body is missing. -/
def C.Full : {k : K} → C k → Prop
  | _, .missing => False
  | _, .block b => b.Full
  | _, .ifs _ t => t.Full
  | _, .ife _ t f => t.Full ∧ f.Full
  | _, .switch _ b => b.Full
  | _, .while _ b => b.Full
  | _, .doWhile b _ => b.Full
  | _, .for _ _ _ b => b.Full
  | _, .case _ s => s.Full
  | _, .default s => s.Full
  | _, .label _ s => s.Full
  | _, .dcl _ r => r.Full
  | _, .cons s r => s.Full ∧ r.Full
  | _, _ => True

/-- The statement ends with an `if` without `else`: an `else` after it would belong to that `if`. -/
def C.openIf : {k : K} → C k → Bool
  | _, .ifs _ _ => true
  | _, .ife _ _ f => f.openIf
  | _, .switch _ b => b.openIf
  | _, .while _ b => b.openIf
  | _, .for _ _ _ b => b.openIf
  | _, .case _ s => s.openIf
  | _, .default s => s.openIf
  | _, .label _ s => s.openIf
  | _, _ => false

/-- The statement ends with a body that is not there. -/
def C.openEnd : {k : K} → C k → Bool
  | _, .missing => true
  | _, .ifs _ t => t.openEnd
  | _, .ife _ _ f => f.openEnd
  | _, .switch _ b => b.openEnd
  | _, .while _ b => b.openEnd
  | _, .for _ _ _ b => b.openEnd
  | _, .case _ s => s.openEnd
  | _, .default s => s.openEnd
  | _, .label _ s => s.openEnd
  | _, _ => false

/-- The labels that belong to the `switch` right around the statement, in the order of the text: those of
an inner `switch` are its own. -/
def C.own : {k : K} → C k → List (Option Int)
  | _, .block b => b.own
  | _, .ifs _ t => t.own
  | _, .ife _ t f => t.own ++ f.own
  | _, .while _ b => b.own
  | _, .doWhile b _ => b.own
  | _, .for _ _ _ b => b.own
  | _, .case v s => some v :: s.own
  | _, .default s => none :: s.own
  | _, .label _ s => s.own
  | _, .dcl _ r => r.own
  | _, .cons s r => s.own ++ r.own
  | _, _ => []

/-- The labels for `goto`. -/
def C.labels : {k : K} → C k → List Nat
  | _, .block b => b.labels
  | _, .ifs _ t => t.labels
  | _, .ife _ t f => t.labels ++ f.labels
  | _, .switch _ b => b.labels
  | _, .while _ b => b.labels
  | _, .doWhile b _ => b.labels
  | _, .for _ _ _ b => b.labels
  | _, .case _ s => s.labels
  | _, .default s => s.labels
  | _, .label n s => s.labels ++ [n]
  | _, .dcl _ r => r.labels
  | _, .cons s r => s.labels ++ r.labels
  | _, _ => []

/-- The targets of the `goto`s. -/
def C.gotos : {k : K} → C k → List Nat
  | _, .block b => b.gotos
  | _, .ifs _ t => t.gotos
  | _, .ife _ t f => t.gotos ++ f.gotos
  | _, .switch _ b => b.gotos
  | _, .while _ b => b.gotos
  | _, .doWhile b _ => b.gotos
  | _, .for _ _ _ b => b.gotos
  | _, .case _ s => s.gotos
  | _, .default s => s.gotos
  | _, .label _ s => s.gotos
  | _, .dcl _ r => r.gotos
  | _, .cons s r => s.gotos ++ r.gotos
  | _, .goto n => [n]
  | _, _ => []

/-- What the parser asks of two labels of one `switch`, the first one written before the second: the
earlier value *after conversion* differs from the later one *as written*. -/
def Distinct (conv : Int → Int) : Option Int → Option Int → Prop
  | some x, some y => conv x ≠ y
  | none, none => False
  | _, _ => True

/-- The constraints of C11 6.8: `else` belongs to the nearest `if` (6.8.4.1), `continue` is in a loop
(6.8.6.2), `break` in a loop or a `switch` (6.8.6.3), `case` and `default` in a `switch` (6.8.1), the labels
of one `switch` are distinct in the sense of `D` (6.8.4.2). `lp`, `br` and `sw` say what is around. -/
def C.Legal (D : E → Option Int → Option Int → Prop) : {k : K} → (lp br sw : Bool) → C k → Prop
  | _, lp, br, sw, .block b => b.Legal D lp br sw
  | _, lp, br, sw, .ifs _ t => t.Legal D lp br sw
  | _, lp, br, sw, .ife _ t f => t.Legal D lp br sw ∧ f.Legal D lp br sw ∧ t.openIf = false
  | _, lp, _, _, .switch e b => b.Legal D lp true true ∧ b.own.Pairwise (D e)
  | _, _, _, sw, .while _ b => b.Legal D true true sw
  | _, _, _, sw, .doWhile b _ => b.Legal D true true sw
  | _, _, _, sw, .for _ _ _ b => b.Legal D true true sw
  | _, _, br, _, .brk => br = true
  | _, lp, _, _, .cont => lp = true
  | _, lp, br, sw, .case _ s => sw = true ∧ s.Legal D lp br sw
  | _, lp, br, sw, .default s => sw = true ∧ s.Legal D lp br sw
  | _, lp, br, sw, .label _ s => s.Legal D lp br sw
  | _, lp, br, sw, .dcl _ r => r.Legal D lp br sw
  | _, lp, br, sw, .cons s r => s.Legal D lp br sw ∧ r.Legal D lp br sw
  | _, _, _, _, _ => True

/-- A body that is missing is missing right before a closing brace: what follows the statement it ends is
the end of the block. -/
def C.MissEnd : {k : K} → C k → Prop
  | _, .block b => b.MissEnd
  | _, .ifs _ t => t.MissEnd
  | _, .ife _ t f => t.MissEnd ∧ f.MissEnd ∧ t.openEnd = false
  | _, .switch _ b => b.MissEnd
  | _, .while _ b => b.MissEnd
  | _, .doWhile b _ => b.MissEnd ∧ b.openEnd = false
  | _, .for _ _ _ b => b.MissEnd
  | _, .case _ s => s.MissEnd ∧ s ≠ .missing
  | _, .default s => s.MissEnd ∧ s ≠ .missing
  | _, .label _ s => s.MissEnd ∧ s ≠ .missing
  | _, .dcl _ r => r.MissEnd
  | _, .cons s r => s.MissEnd ∧ r.MissEnd ∧ s ≠ .missing ∧ (s.openEnd = true → r = .nil)
  | _, _ => True

/-- The statement of C that a statement of the parser stands for: numbers and pointers dropped. -/
def S.shape : {k : K} → S k → C k
  | _, .missing => .missing
  | _, .expr e => .expr e
  | _, .empty => .empty
  | _, .block b => .block b.shape
  | _, .ifs e t => .ifs e t.shape
  | _, .ife e t f => .ife e t.shape f.shape
  | _, .switch _ e b => .switch e b.shape
  | _, .while _ e b => .while e b.shape
  | _, .doWhile _ b e => .doWhile b.shape e
  | _, .for _ i c p b => .for i c p b.shape
  | _, .brk _ => .brk
  | _, .cont _ => .cont
  | _, .goto n => .goto n
  | _, .ret e => .ret e
  | _, .case _ v _ s => .case v s.shape
  | _, .default _ s => .default s.shape
  | _, .label n s => .label n s.shape
  | _, .nil => .nil
  | _, .dcl n r => .dcl n r.shape
  | _, .cons s r => .cons s.shape r.shape

/-- The numbers of the loops and switches of a statement, in the order of the text. -/
def S.ids : {k : K} → S k → List Nat
  | _, .block b => b.ids
  | _, .ifs _ t => t.ids
  | _, .ife _ t f => t.ids ++ f.ids
  | _, .switch i _ b => i :: b.ids
  | _, .while i _ b => i :: b.ids
  | _, .doWhile i b _ => i :: b.ids
  | _, .for i _ _ _ b => i :: b.ids
  | _, .case _ _ _ s => s.ids
  | _, .default _ s => s.ids
  | _, .label _ s => s.ids
  | _, .dcl _ r => r.ids
  | _, .cons s r => s.ids ++ r.ids
  | _, _ => []

/-- What is around a statement. -/
inductive Enc where
  | loop (id : Nat) | switch (id : Nat) (e : E)
  deriving DecidableEq, Repr

/-- Its number. -/
def Enc.id : Enc → Nat
  | .loop i => i
  | .switch i _ => i

/-- The number of a loop. -/
def Enc.loop? : Enc → Option Nat
  | .loop i => some i
  | .switch _ _ => none

/-- The number and the expression of a `switch`. -/
def Enc.switch? : Enc → Option (Nat × E)
  | .loop _ => none
  | .switch i e => some (i, e)

/-- Every `break` points to the innermost loop or `switch` around it, every `continue` to the innermost
loop, every `case` and `default` to the innermost `switch`, and the value of a `case` is the one written,
converted to the type of the expression of that `switch`. `enc` lists what is around, innermost first. -/
def S.Attached (cv : E → Int → Int) : {k : K} → List Enc → S k → Prop
  | _, enc, .block b => b.Attached cv enc
  | _, enc, .ifs _ t => t.Attached cv enc
  | _, enc, .ife _ t f => t.Attached cv enc ∧ f.Attached cv enc
  | _, enc, .switch i e b => b.Attached cv (.switch i e :: enc)
  | _, enc, .while i _ b => b.Attached cv (.loop i :: enc)
  | _, enc, .doWhile i b _ => b.Attached cv (.loop i :: enc)
  | _, enc, .for i _ _ _ b => b.Attached cv (.loop i :: enc)
  | _, enc, .brk i => (enc.map Enc.id).head? = some i
  | _, enc, .cont i => (enc.filterMap Enc.loop?).head? = some i
  | _, enc, .case i v w s => (∃ e, (enc.filterMap Enc.switch?).head? = some (i, e) ∧ w = cv e v) ∧ s.Attached cv enc
  | _, enc, .default i s => (∃ e, (enc.filterMap Enc.switch?).head? = some (i, e)) ∧ s.Attached cv enc
  | _, enc, .label _ s => s.Attached cv enc
  | _, enc, .dcl _ r => r.Attached cv enc
  | _, enc, .cons s r => s.Attached cv enc ∧ r.Attached cv enc
  | _, _, _ => True

/-- The labels recorded for switch `i`. -/
def casesOf (log : List (Nat × Option Int)) (i : Nat) : List (Option Int) :=
  log.filterMap fun x => if x.1 = i then some x.2 else none

/-- For every `switch`, the labels recorded are those that belong to it, in the order of the text,
converted to the type of its expression. -/
def S.CasesOk (cv : E → Int → Int) (log : List (Nat × Option Int)) : {k : K} → S k → Prop
  | _, .block b => b.CasesOk cv log
  | _, .ifs _ t => t.CasesOk cv log
  | _, .ife _ t f => t.CasesOk cv log ∧ f.CasesOk cv log
  | _, .switch i e b => casesOf log i = b.shape.own.map (Option.map (cv e)) ∧ b.CasesOk cv log
  | _, .while _ _ b => b.CasesOk cv log
  | _, .doWhile _ b _ => b.CasesOk cv log
  | _, .for _ _ _ _ b => b.CasesOk cv log
  | _, .case _ _ _ s => s.CasesOk cv log
  | _, .default _ s => s.CasesOk cv log
  | _, .label _ s => s.CasesOk cv log
  | _, .dcl _ r => r.CasesOk cv log
  | _, .cons s r => s.CasesOk cv log ∧ r.CasesOk cv log
  | _, _ => True

/-! ## The tokens consumed -/

theorem bind_ok {α β : Type} {x : Out α} {f : α → Out β} {b : β} (h : x.bind f = .ok b) : ∃ a, x = .ok a ∧ f a = .ok b := by
  cases x with
  | ok a => exact ⟨a, rfl, h⟩
  | err => exact absurd h (by simp [Out.bind])
  | fuel => exact absurd h (by simp [Out.bind])

theorem expect_ok {t : Tok} {ts r : List Tok} : expect t ts = .ok r ↔ ts = t :: r := by
  cases ts with
  | nil => simp [expect]
  | cons u us =>
    simp only [expect, List.cons.injEq]
    split <;> rename_i h
    · simp [h]
    · simp [h]

theorem expect_cons (t : Tok) (ts : List Tok) : expect t (t :: ts) = .ok ts := by simp [expect]

theorem pexpr_tok (e : E) (r : List Tok) : pexpr (e.tok :: r) = .ok (e, r) := by cases e <;> rfl

theorem pexpr_ok {ts r : List Tok} {e : E} (h : pexpr ts = .ok (e, r)) : ts = e.tok :: r := by
  match ts, h with
  | .ident n :: ts, h => cases h; rfl
  | .num n :: ts, h => cases h; rfl
  | .expr n :: ts, h => cases h; rfl

theorem paren_text (e : E) (r : List Tok) : paren (.lpar :: e.tok :: .rpar :: r) = .ok (e, r) := by
  simp [paren, expect_cons, Out.bind, pexpr_tok]

theorem paren_ok {ts r : List Tok} {e : E} (h : paren ts = .ok (e, r)) : ts = .lpar :: e.tok :: .rpar :: r := by
  obtain ⟨t1, h1, h⟩ := bind_ok h
  obtain ⟨⟨e', t2⟩, h2, h⟩ := bind_ok h
  obtain ⟨t3, h3, h⟩ := bind_ok h
  cases h
  rw [expect_ok.1 h1, pexpr_ok h2, expect_ok.1 h3]

theorem tok_ne_semi (e : E) : e.tok ≠ .semi := by cases e <;> simp [E.tok]
theorem tok_ne_rpar (e : E) : e.tok ≠ .rpar := by cases e <;> simp [E.tok]

theorem optExpr_ok {c : Tok} {ts r : List Tok} {e : Option E} (h : optExpr c ts = .ok (e, r)) : ts = optText e ++ c :: r := by
  cases ts with
  | nil => exact absurd h (by simp [optExpr])
  | cons t us =>
    simp only [optExpr] at h
    split at h
    · rename_i ht
      cases h
      simp [optText, ht]
    · obtain ⟨⟨e', t2⟩, h2, h⟩ := bind_ok h
      obtain ⟨t3, h3, h⟩ := bind_ok h
      have h3' : t2 = c :: t3 := expect_ok.1 h3
      cases h
      rw [pexpr_ok h2, h3']
      rfl

theorem optExpr_text {c : Tok} (hc : ∀ e : E, e.tok ≠ c) (e : Option E) (r : List Tok) : optExpr c (optText e ++ c :: r) = .ok (e, r) := by
  cases e with
  | none => simp [optText, optExpr]
  | some e => simp [optText, optExpr, hc, pexpr_tok, Out.bind, expect_cons]

theorem forInit_ok {ts r : List Tok} {i : Init} (h : forInit ts = .ok (i, r)) : ts = i.text ++ .semi :: r := by
  unfold forInit at h
  split at h
  · cases h; rfl
  · obtain ⟨t3, h3, h⟩ := bind_ok h
    cases h
    rw [expect_ok.1 h3]; rfl
  · obtain ⟨⟨e', t2⟩, h2, h⟩ := bind_ok h
    obtain ⟨t3, h3, h⟩ := bind_ok h
    cases h
    rw [pexpr_ok h2, expect_ok.1 h3]; rfl

theorem forInit_text (i : Init) (r : List Tok) : forInit (i.text ++ .semi :: r) = .ok (i, r) := by
  cases i with
  | none => rfl
  | expr e => cases e <;> simp [Init.text, E.tok, forInit, pexpr, Out.bind, expect_cons]
  | decl n => simp [Init.text, forInit, Out.bind, expect_cons]

theorem forHead_ok {ts r : List Tok} {i : Init} {c p : Option E} (h : forHead ts = .ok (i, c, p, r)) :
    ts = .lpar :: (i.text ++ .semi :: (optText c ++ .semi :: (optText p ++ .rpar :: r))) := by
  obtain ⟨t1, h1, h⟩ := bind_ok h
  obtain ⟨⟨_, t2⟩, h2, h⟩ := bind_ok h
  obtain ⟨⟨_, t3⟩, h3, h⟩ := bind_ok h
  obtain ⟨⟨_, t4⟩, h4, h⟩ := bind_ok h
  cases h
  rw [expect_ok.1 h1, forInit_ok h2, optExpr_ok h3, optExpr_ok h4]

theorem forHead_text (i : Init) (c p : Option E) (r : List Tok) :
    forHead (.lpar :: (i.text ++ .semi :: (optText c ++ .semi :: (optText p ++ .rpar :: r)))) = .ok (i, c, p, r) := by
  simp only [forHead, expect_cons, Out.bind, forInit_text, optExpr_text tok_ne_semi, optExpr_text tok_ne_rpar]

theorem caseHead_ok {ts r : List Tok} {v : Int} (h : caseHead ts = .ok (v, r)) : ts = .num v :: .colon :: r := by
  unfold caseHead at h
  split at h
  · obtain ⟨t3, h3, h⟩ := bind_ok h
    cases h
    rw [expect_ok.1 h3]
  · cases h

/-! ## What holds of every parse -/

/-- `loop_scope` agrees with what is around. -/
def Agrees (sc : LoopScope) (enc : List Enc) : Prop :=
  sc.brk = (enc.map Enc.id).head? ∧ sc.cont = (enc.filterMap Enc.loop?).head? ∧ sc.sw = (enc.filterMap Enc.switch?).head?

/-- Numbers in use are below the next one. -/
structure WF (st : St) : Prop where
  cases : ∀ x ∈ st.cases, x.1 < st.next
  sw : ∀ i e, st.scope.sw = some (i, e) → i < st.next

/-- `Distinct` for the conversion to the type of `e`. -/
abbrev D (cv : E → Int → Int) (e : E) : Option Int → Option Int → Prop := Distinct (cv e)

/-- What a successful parse of a statement or of items does. -/
structure Inv (cv : E → Int → Int) (st : St) (toks : List Tok) {k : K} (s : S k) (st' : St) (rest : List Tok) : Prop where
  text : toks = s.shape.text ++ rest
  scope : st'.scope = st.scope
  next : st.next ≤ st'.next
  ids : ∀ i ∈ s.ids, st.next ≤ i ∧ i < st'.next
  nodup : s.ids.Nodup
  att : ∀ enc, Agrees st.scope enc → s.Attached cv enc
  legal : s.shape.Legal (D cv) st.scope.cont.isSome st.scope.brk.isSome st.scope.sw.isSome
  openIf : s.shape.openIf = true → rest.head? ≠ some .kelse
  openEnd : s.shape.openEnd = true → rest.head? = none ∨ rest.head? = some .rbrace
  miss : s.shape.MissEnd
  labels : st'.labels = st.labels ++ s.shape.labels
  labelsNodup : st.labels.Nodup → st'.labels.Nodup
  gotos : st'.gotos = st.gotos ++ s.shape.gotos
  log : ∀ i e, st.scope.sw = some (i, e) → casesOf st'.cases i = casesOf st.cases i ++ s.shape.own.map (Option.map (cv e))
  other : ∀ i, i < st.next → (∀ e, st.scope.sw ≠ some (i, e)) → casesOf st'.cases i = casesOf st.cases i
  noSw : st.scope.sw = none → s.shape.own = []
  pw : ∀ i e P, st.scope.sw = some (i, e) → casesOf st.cases i = P.map (Option.map (cv e)) → P.Pairwise (D cv e) →
    (P ++ s.shape.own).Pairwise (D cv e)
  casesOk : s.CasesOk cv st'.cases
  wf : WF st'

theorem casesOf_append (a b : List (Nat × Option Int)) (i : Nat) : casesOf (a ++ b) i = casesOf a i ++ casesOf b i := by
  simp [casesOf, List.filterMap_append]

theorem casesOf_one (i j : Nat) (v : Option Int) : casesOf [(i, v)] j = if i = j then [v] else [] := by
  simp only [casesOf, List.filterMap_cons, List.filterMap_nil]
  split <;> rename_i h <;> split at h <;> simp_all

theorem casesOf_fresh {log : List (Nat × Option Int)} {i : Nat} (h : ∀ x ∈ log, x.1 < i) : casesOf log i = [] := by
  simp only [casesOf, List.filterMap_eq_nil_iff]
  intro x hx
  have := h x hx
  rw [if_neg (by omega)]

theorem casesOk_mono (cv : E → Int → Int) {log log' : List (Nat × Option Int)} {k : K} (s : S k)
    (h : s.CasesOk cv log) (hm : ∀ i ∈ s.ids, casesOf log' i = casesOf log i) : s.CasesOk cv log' := by
  induction s with
  | block b ih => exact ih h hm
  | ifs e t ih => exact ih h hm
  | ife e t f iht ihf =>
    exact ⟨iht h.1 (fun i hi => hm i (List.mem_append_left _ hi)), ihf h.2 (fun i hi => hm i (List.mem_append_right _ hi))⟩
  | switch i e b ih =>
    exact ⟨(hm i (List.mem_cons_self ..)).trans h.1, ih h.2 (fun j hj => hm j (List.mem_cons_of_mem _ hj))⟩
  | «while» i e b ih => exact ih h (fun j hj => hm j (List.mem_cons_of_mem _ hj))
  | doWhile i b e ih => exact ih h (fun j hj => hm j (List.mem_cons_of_mem _ hj))
  | «for» i n c p b ih => exact ih h (fun j hj => hm j (List.mem_cons_of_mem _ hj))
  | case i v w s ih => exact ih h hm
  | default i s ih => exact ih h hm
  | label n s ih => exact ih h hm
  | dcl n r ih => exact ih h hm
  | cons s r ihs ihr =>
    exact ⟨ihs h.1 (fun i hi => hm i (List.mem_append_left _ hi)), ihr h.2 (fun i hi => hm i (List.mem_append_right _ hi))⟩
  | _ => trivial

/-- A statement that changes nothing but the tokens. -/
theorem inv_leaf (cv : E → Int → Int) {st : St} (hw : WF st) {toks rest : List Tok} {k : K} {s : S k} (ht : toks = s.shape.text ++ rest)
    (hids : s.ids = []) (hatt : ∀ enc, Agrees st.scope enc → s.Attached cv enc)
    (hleg : s.shape.Legal (D cv) st.scope.cont.isSome st.scope.brk.isSome st.scope.sw.isSome)
    (hif : s.shape.openIf = false) (hend : s.shape.openEnd = true → rest.head? = none ∨ rest.head? = some .rbrace)
    (hmiss : s.shape.MissEnd) (hlab : s.shape.labels = []) (hgoto : s.shape.gotos = []) (hown : s.shape.own = [])
    (hco : ∀ log, s.CasesOk cv log) : Inv cv st toks s st rest where
  text := ht
  scope := rfl
  next := Nat.le_refl _
  ids := by simp [hids]
  nodup := by simp [hids]
  att := hatt
  legal := hleg
  openIf := by simp [hif]
  openEnd := hend
  miss := hmiss
  labels := by simp [hlab]
  labelsNodup := id
  gotos := by simp [hgoto]
  log := by simp [hown]
  other := fun _ _ _ => rfl
  noSw := fun _ => hown
  pw := by intro i e P _ _ h; simpa [hown] using h
  casesOk := hco _
  wf := hw

/-- Two parts one after the other. -/
theorem later_cases {cv : E → Int → Int} {st st1 st2 : St} {t1 t2 r1 r2 : List Tok} {k1 k2 : K} {a : S k1} {b : S k2}
    (hw : WF st) (ha : Inv cv st t1 a st1 r1) (hb : Inv cv st1 t2 b st2 r2) : a.CasesOk cv st2.cases := by
  apply casesOk_mono cv a ha.casesOk
  intro i hi
  have h1 := ha.ids i hi
  apply hb.other i h1.2
  intro e he
  rw [ha.scope] at he
  have := hw.sw i e he
  omega

/-- The scope while the body of a loop is parsed. -/
theorem agrees_loop {sc : LoopScope} {enc : List Enc} (h : Agrees sc enc) (i : Nat) :
    Agrees (setLoop sc (some i) (some i)) (.loop i :: enc) := by
  obtain ⟨_, _, h3⟩ := h
  exact ⟨rfl, rfl, h3⟩

/-- The scope while the body of a `switch` is parsed. -/
theorem agrees_switch {sc : LoopScope} {enc : List Enc} (h : Agrees sc enc) (i : Nat) (e : E) :
    Agrees { setLoop sc (some i) none with sw := some (i, e) } (.switch i e :: enc) := by
  obtain ⟨_, h2, _⟩ := h
  exact ⟨rfl, h2, rfl⟩

/-- The state while the body of a loop is parsed. -/
def loopSt (st : St) : St := { st with next := st.next + 1, scope := setLoop st.scope (some st.next) (some st.next) }

theorem wf_loop {st : St} (hw : WF st) : WF (loopSt st) where
  cases := fun x hx => Nat.lt_succ_of_lt (hw.cases x hx)
  sw := fun i e h => Nat.lt_succ_of_lt (hw.sw i e h)

/-- The state while the body of a `switch` is parsed. -/
def switchSt (st : St) (e : E) : St :=
  { st with next := st.next + 1, scope := { setLoop st.scope (some st.next) none with sw := some (st.next, e) } }

theorem wf_switch {st : St} (hw : WF st) (e : E) : WF (switchSt st e) where
  cases := fun x hx => Nat.lt_succ_of_lt (hw.cases x hx)
  sw := fun i e' h => by
    have : (st.next, e) = (i, e') := Option.some.inj h
    injection this with h1 h2
    show i < st.next + 1
    omega

/-- A loop, from its body. `tb` are the tokens of the body and what follows it in the loop. -/
theorem inv_loop {cv : E → Int → Int} {st st1 : St} {toks tb rb rest : List Tok} {b s : S .st} (hw : WF st)
    (hb : Inv cv (loopSt st) tb b st1 rb)
    (ht : toks = s.shape.text ++ rest) (hids : s.ids = st.next :: b.ids)
    (hatt : ∀ enc, s.Attached cv enc ↔ b.Attached cv (.loop st.next :: enc))
    (hleg : ∀ lp br sw, s.shape.Legal (D cv) lp br sw ↔ b.shape.Legal (D cv) true true sw)
    (hif : s.shape.openIf = true → rest.head? ≠ some .kelse)
    (hend : s.shape.openEnd = true → rest.head? = none ∨ rest.head? = some .rbrace)
    (hmiss : s.shape.MissEnd) (hlab : s.shape.labels = b.shape.labels) (hgoto : s.shape.gotos = b.shape.gotos)
    (hown : s.shape.own = b.shape.own) (hco : ∀ log, s.CasesOk cv log ↔ b.CasesOk cv log) :
    Inv cv st toks s { st1 with scope := st.scope } rest where
  text := ht
  scope := rfl
  next := Nat.le_trans (Nat.le_succ _) hb.next
  ids := by
    intro i hi
    rw [hids] at hi
    have hn : st.next + 1 ≤ st1.next := hb.next
    rcases List.mem_cons.1 hi with h | h
    · subst h; exact ⟨Nat.le_refl _, hn⟩
    · have := hb.ids i h
      have h1 : st.next + 1 ≤ i := this.1
      exact ⟨by omega, this.2⟩
  nodup := by
    rw [hids]
    refine List.nodup_cons.2 ⟨?_, hb.nodup⟩
    intro h
    have h1 : st.next + 1 ≤ st.next := (hb.ids _ h).1
    omega
  att := fun enc h => (hatt enc).2 (hb.att _ (agrees_loop h _))
  legal := (hleg _ _ _).2 hb.legal
  openIf := hif
  openEnd := hend
  miss := hmiss
  labels := by rw [hlab]; exact hb.labels
  labelsNodup := hb.labelsNodup
  gotos := by rw [hgoto]; exact hb.gotos
  log := by rw [hown]; exact fun i e h => hb.log i e h
  other := fun i hi h => hb.other i (Nat.lt_succ_of_lt hi) h
  noSw := by rw [hown]; exact fun h => hb.noSw h
  pw := by rw [hown]; exact fun i e P h => hb.pw i e P h
  casesOk := (hco _).2 hb.casesOk
  wf := ⟨hb.wf.cases, fun i e h => by
    have h1 : st.next + 1 ≤ st1.next := hb.next
    have := hw.sw i e h
    show i < st1.next
    omega⟩

theorem inv_switch {cv : E → Int → Int} {st st1 : St} {tb rest : List Tok} {b : S .st} (hw : WF st) (e : E)
    (hb : Inv cv (switchSt st e) tb b st1 rest) :
    Inv cv st (.kswitch :: .lpar :: e.tok :: .rpar :: tb) (.switch st.next e b) { st1 with scope := st.scope } rest where
  text := by rw [hb.text]; rfl
  scope := rfl
  next := Nat.le_trans (Nat.le_succ _) hb.next
  ids := by
    intro i hi
    have hn : st.next + 1 ≤ st1.next := hb.next
    rcases List.mem_cons.1 hi with h | h
    · subst h; exact ⟨Nat.le_refl _, hn⟩
    · have := hb.ids i h
      have h1 : st.next + 1 ≤ i := this.1
      exact ⟨by omega, this.2⟩
  nodup := by
    refine List.nodup_cons.2 ⟨?_, hb.nodup⟩
    intro h
    have h1 : st.next + 1 ≤ st.next := (hb.ids _ h).1
    omega
  att := fun enc h => hb.att _ (agrees_switch h _ _)
  legal := by
    refine ⟨hb.legal, ?_⟩
    have := hb.pw st.next e [] rfl (by rw [casesOf_fresh (log := (switchSt st e).cases) hw.cases]; rfl) List.Pairwise.nil
    simpa using this
  openIf := hb.openIf
  openEnd := hb.openEnd
  miss := hb.miss
  labels := hb.labels
  labelsNodup := hb.labelsNodup
  gotos := hb.gotos
  log := by
    intro i e' h
    have hlt := hw.sw i e' h
    show casesOf st1.cases i = casesOf st.cases i ++ []
    rw [List.append_nil]
    refine hb.other i (Nat.lt_succ_of_lt hlt) ?_
    intro e'' h'
    have : (st.next, e) = (i, e'') := Option.some.inj h'
    injection this with h1 h2
    omega
  other := by
    intro i hi _
    refine hb.other i (Nat.lt_succ_of_lt hi) ?_
    intro e'' h'
    have : (st.next, e) = (i, e'') := Option.some.inj h'
    injection this with h1 h2
    omega
  noSw := fun _ => rfl
  pw := by intro i e P _ _ h; simpa [S.shape, C.own] using h
  casesOk := by
    refine ⟨?_, hb.casesOk⟩
    have := hb.log st.next e rfl
    rw [casesOf_fresh (log := (switchSt st e).cases) hw.cases] at this
    simpa using this
  wf := ⟨hb.wf.cases, fun i e h => by
    have h1 : st.next + 1 ≤ st1.next := hb.next
    have := hw.sw i e h
    show i < st1.next
    omega⟩

/-- Composition of two parts, `s` being made of them: `if … else …` and an item with those after it. -/
theorem inv_seq {cv : E → Int → Int} {st st1 st2 : St} {toks ta ra tb rest : List Tok} {k1 k2 k : K} {a : S k1} {b : S k2} {s : S k} (hw : WF st)
    (ha : Inv cv st ta a st1 ra) (hb : Inv cv st1 tb b st2 rest)
    (ht : toks = s.shape.text ++ rest) (hids : s.ids = a.ids ++ b.ids)
    (hatt : ∀ enc, a.Attached cv enc → b.Attached cv enc → s.Attached cv enc)
    (hleg : ∀ lp br sw, a.shape.Legal (D cv) lp br sw → b.shape.Legal (D cv) lp br sw → s.shape.Legal (D cv) lp br sw)
    (hif : s.shape.openIf = true → rest.head? ≠ some .kelse)
    (hend : s.shape.openEnd = true → rest.head? = none ∨ rest.head? = some .rbrace)
    (hmiss : s.shape.MissEnd) (hlab : s.shape.labels = a.shape.labels ++ b.shape.labels)
    (hgoto : s.shape.gotos = a.shape.gotos ++ b.shape.gotos)
    (hown : s.shape.own = a.shape.own ++ b.shape.own) (hco : ∀ log, a.CasesOk cv log → b.CasesOk cv log → s.CasesOk cv log) :
    Inv cv st toks s st2 rest where
  text := ht
  scope := hb.scope.trans ha.scope
  next := Nat.le_trans ha.next hb.next
  ids := by
    intro i hi
    rw [hids] at hi
    have h1 := ha.next
    have h2 := hb.next
    rcases List.mem_append.1 hi with h | h
    · have := ha.ids i h; exact ⟨this.1, by omega⟩
    · have := hb.ids i h; exact ⟨by omega, this.2⟩
  nodup := by
    rw [hids]
    refine List.nodup_append.2 ⟨ha.nodup, hb.nodup, ?_⟩
    intro x hx y hy hxy
    have := ha.ids x hx
    have := hb.ids y hy
    omega
  att := fun enc h => hatt enc (ha.att enc h) (hb.att enc (by rw [ha.scope]; exact h))
  legal := by
    refine hleg _ _ _ ha.legal ?_
    have := hb.legal
    rwa [ha.scope] at this
  openIf := hif
  openEnd := hend
  miss := hmiss
  labels := by rw [hb.labels, ha.labels, hlab, List.append_assoc]
  labelsNodup := fun h => hb.labelsNodup (ha.labelsNodup h)
  gotos := by rw [hb.gotos, ha.gotos, hgoto, List.append_assoc]
  log := by
    intro i e h
    rw [hb.log i e (by rw [ha.scope]; exact h), ha.log i e h, hown, List.map_append, List.append_assoc]
  other := by
    intro i hi h
    have h1 := ha.next
    rw [hb.other i (by omega) (by rw [ha.scope]; exact h), ha.other i hi h]
  noSw := by
    intro h
    rw [hown, ha.noSw h, hb.noSw (by rw [ha.scope]; exact h)]
    rfl
  pw := by
    intro i e P h hP hp
    have h1 := ha.pw i e P h hP hp
    have h2 := hb.pw i e (P ++ a.shape.own) (by rw [ha.scope]; exact h) (by rw [ha.log i e h, hP, List.map_append]) h1
    rwa [hown, ← List.append_assoc]
  casesOk := hco _ (later_cases hw ha hb) hb.casesOk
  wf := hb.wf

/-- A statement around another one that adds nothing of its own: a block, `if` without `else`, a declaration
before items. -/
theorem inv_around {cv : E → Int → Int} {st st1 : St} {toks ta ra rest : List Tok} {k1 k : K} {a : S k1} {s : S k}
    (ha : Inv cv st ta a st1 ra)
    (ht : toks = s.shape.text ++ rest) (hids : s.ids = a.ids)
    (hatt : ∀ enc, a.Attached cv enc → s.Attached cv enc)
    (hleg : ∀ lp br sw, a.shape.Legal (D cv) lp br sw → s.shape.Legal (D cv) lp br sw)
    (hif : s.shape.openIf = true → rest.head? ≠ some .kelse)
    (hend : s.shape.openEnd = true → rest.head? = none ∨ rest.head? = some .rbrace)
    (hmiss : s.shape.MissEnd) (hlab : s.shape.labels = a.shape.labels)
    (hgoto : s.shape.gotos = a.shape.gotos)
    (hown : s.shape.own = a.shape.own) (hco : ∀ log, a.CasesOk cv log → s.CasesOk cv log) :
    Inv cv st toks s st1 rest where
  text := ht
  scope := ha.scope
  next := ha.next
  ids := by rw [hids]; exact ha.ids
  nodup := by rw [hids]; exact ha.nodup
  att := fun enc h => hatt enc (ha.att enc h)
  legal := hleg _ _ _ ha.legal
  openIf := hif
  openEnd := hend
  miss := hmiss
  labels := by rw [hlab]; exact ha.labels
  labelsNodup := ha.labelsNodup
  gotos := by rw [hgoto]; exact ha.gotos
  log := by rw [hown]; exact ha.log
  other := ha.other
  noSw := by rw [hown]; exact ha.noSw
  pw := by rw [hown]; exact ha.pw
  casesOk := hco _ ha.casesOk
  wf := ha.wf

/-- A label of a `switch`: `x` is the label as written. -/
theorem inv_caseLabel {cv : E → Int → Int} {st st2 : St} {toks ta rest : List Tok} {a s : S .st} (hw : WF st) {i : Nat} {e : E} {x : Option Int}
    (hsw : st.scope.sw = some (i, e))
    (hnew : ∀ P : List (Option Int), casesOf st.cases i = P.map (Option.map (cv e)) → ∀ y ∈ P, D cv e y x)
    (ha : Inv cv { st with cases := st.cases ++ [(i, x.map (cv e))] } ta a st2 rest)
    (ht : toks = s.shape.text ++ rest) (hids : s.ids = a.ids)
    (hatt : ∀ enc, Agrees st.scope enc → a.Attached cv enc → s.Attached cv enc)
    (hleg : ∀ lp br, a.shape.Legal (D cv) lp br true → s.shape.Legal (D cv) lp br true)
    (hif : s.shape.openIf = a.shape.openIf) (hend : s.shape.openEnd = a.shape.openEnd)
    (hmiss : s.shape.MissEnd) (hlab : s.shape.labels = a.shape.labels) (hgoto : s.shape.gotos = a.shape.gotos)
    (hown : s.shape.own = x :: a.shape.own) (hco : ∀ log, a.CasesOk cv log → s.CasesOk cv log) :
    Inv cv st toks s st2 rest where
  text := ht
  scope := ha.scope
  next := ha.next
  ids := by rw [hids]; exact ha.ids
  nodup := by rw [hids]; exact ha.nodup
  att := fun enc h => hatt enc h (ha.att enc h)
  legal := by
    have := ha.legal
    simp only [hsw, Option.isSome_some] at this ⊢
    exact hleg _ _ this
  openIf := by rw [hif]; exact ha.openIf
  openEnd := by rw [hend]; exact ha.openEnd
  miss := hmiss
  labels := by rw [hlab]; exact ha.labels
  labelsNodup := ha.labelsNodup
  gotos := by rw [hgoto]; exact ha.gotos
  log := by
    intro j e' h
    have hj : (i, e) = (j, e') := Option.some.inj (hsw.symm.trans h)
    injection hj with h1 h2
    subst h1 h2
    have := ha.log i e hsw
    rw [this, casesOf_append, casesOf_one, if_pos rfl, hown]
    simp
  other := by
    intro j hj h
    rw [ha.other j hj h]
    show casesOf (st.cases ++ _) j = _
    rw [casesOf_append, casesOf_one, if_neg (fun hij => h e (by rw [← hij]; exact hsw)), List.append_nil]
  noSw := by intro h; rw [hsw] at h; cases h
  pw := by
    intro j e' P h hP hp
    have hj : (i, e) = (j, e') := Option.some.inj (hsw.symm.trans h)
    injection hj with h1 h2
    subst h1 h2
    have h3 : (P ++ [x]).Pairwise (D cv e) := by
      refine List.pairwise_append.2 ⟨hp, List.pairwise_singleton .., ?_⟩
      intro y hy z hz
      rw [List.mem_singleton.1 hz]
      exact hnew P hP y hy
    have := ha.pw i e (P ++ [x]) hsw (by
      show casesOf (st.cases ++ _) i = _
      rw [casesOf_append, casesOf_one, if_pos rfl, hP]; simp) h3
    rw [hown]
    simpa using this
  casesOk := hco _ ha.casesOk
  wf := ha.wf

theorem wf_addCase {st : St} (hw : WF st) {i : Nat} {e : E} (hsw : st.scope.sw = some (i, e)) (v : Option Int) :
    WF { st with cases := st.cases ++ [(i, v)] } where
  cases := by
    intro x hx
    rcases List.mem_append.1 hx with h | h
    · exact hw.cases x h
    · rw [List.mem_singleton.1 h]; exact hw.sw i e hsw
  sw := hw.sw

theorem mem_casesOf {log : List (Nat × Option Int)} {i : Nat} {v : Option Int} : v ∈ casesOf log i ↔ (i, v) ∈ log := by
  simp only [casesOf, List.mem_filterMap]
  constructor
  · rintro ⟨⟨a, b⟩, hx, h⟩
    split at h
    · rename_i hi
      cases h; cases hi; exact hx
    · cases h
  · intro h
    exact ⟨(i, v), h, by simp⟩

theorem findCase_false {log : List (Nat × Option Int)} {i : Nat} {v : Int} : findCase log i v = false ↔ some v ∉ casesOf log i := by
  rw [mem_casesOf]
  constructor
  · intro h hm
    have : findCase log i v = true := List.any_eq_true.2 ⟨(i, some v), hm, by simp⟩
    rw [h] at this; cases this
  · intro h
    cases hf : findCase log i v with
    | false => rfl
    | true =>
      obtain ⟨x, hx, hp⟩ := List.any_eq_true.1 hf
      simp at hp
      exact absurd (by rw [← hp.1, ← hp.2]; exact hx) h

theorem findDefault_false {log : List (Nat × Option Int)} {i : Nat} :
    log.any (fun x => x.1 = i && x.2 = none) = false ↔ (none : Option Int) ∉ casesOf log i := by
  rw [mem_casesOf]
  constructor
  · intro h hm
    have : log.any (fun x => x.1 = i && x.2 = none) = true := List.any_eq_true.2 ⟨(i, none), hm, by simp⟩
    rw [h] at this; cases this
  · intro h
    cases hf : log.any (fun x => x.1 = i && x.2 = none) with
    | false => rfl
    | true =>
      obtain ⟨x, hx, hp⟩ := List.any_eq_true.1 hf
      simp at hp
      exact absurd (by rw [← hp.1, ← hp.2]; exact hx) h

theorem addCase_ok {cv : E → Int → Int} {st st1 : St} {v w : Int} {i : Nat} (h : addCase cv st v = .ok (i, w, st1)) :
    ∃ e, st.scope.sw = some (i, e) ∧ w = cv e v ∧ st1 = { st with cases := st.cases ++ [(i, some (cv e v))] } ∧
      some v ∉ casesOf st.cases i := by
  unfold addCase at h
  split at h
  · cases h
  · rename_i j e hsw
    split at h
    · cases h
    · rename_i hf
      cases h
      exact ⟨e, hsw, rfl, rfl, findCase_false.1 (by simpa only [Bool.not_eq_true] using hf)⟩

theorem addDefault_ok {st st1 : St} {i : Nat} (h : addDefault st = .ok (i, st1)) :
    ∃ e, st.scope.sw = some (i, e) ∧ st1 = { st with cases := st.cases ++ [(i, none)] } ∧ none ∉ casesOf st.cases i := by
  unfold addDefault at h
  split at h
  · cases h
  · rename_i j e hsw
    split at h
    · cases h
    · rename_i hf
      cases h
      exact ⟨e, hsw, rfl, findDefault_false.1 (by simpa only [Bool.not_eq_true] using hf)⟩

theorem shape_missing {s : S .st} (h : s.shape = .missing) : s.isMissing = true := by
  cases s <;> first | rfl | cases h

theorem not_missing {s : S .st} (h : ¬ s.isMissing = true) : s.shape ≠ .missing := fun h' => h (shape_missing h')

theorem isMissing_eq {s : S .st} (h : s.isMissing = true) : s = .missing := by
  cases s <;> first | rfl | cases h

theorem exprStmt_inv (cv : E → Int → Int) {st st' : St} (hw : WF st) {toks rest : List Tok} {s : S .st} (h : exprStmt st toks = .ok (s, st', rest)) :
    Inv cv st toks s st' rest := by
  obtain ⟨⟨e, t1⟩, h1, h⟩ := bind_ok h
  obtain ⟨t2, h2, h⟩ := bind_ok h
  have h2' : t1 = .semi :: t2 := expect_ok.1 h2
  cases h
  exact inv_leaf cv hw (by rw [pexpr_ok h1, h2']; rfl) rfl (fun _ _ => trivial) trivial rfl (fun h => by cases h) trivial rfl rfl rfl
    (fun _ => trivial)

theorem sound_aux (cv : E → Int → Int) (f : Nat) :
    (∀ st toks s st' rest, WF st → parseStmt cv f st toks = .ok (s, st', rest) → Inv cv st toks s st' rest) ∧
    (∀ st toks s st' rest, WF st → parseStmts cv f st toks = .ok (s, st', rest) → Inv cv st toks s st' rest) := by
  induction f with
  | zero => exact ⟨fun st toks s st' rest _ h => (by cases h), fun st toks s st' rest _ h => (by cases h)⟩
  | succ f ih =>
    obtain ⟨ih1, ih2⟩ := ih
    constructor
    · intro st toks s st' rest hw h
      cases toks with
      | nil =>
        cases h
        exact inv_leaf cv hw rfl rfl (fun _ _ => trivial) trivial rfl (fun _ => .inl rfl) trivial rfl rfl rfl (fun _ => trivial)
      | cons t ts =>
        cases t with
        | rbrace =>
          cases h
          exact inv_leaf cv hw rfl rfl (fun _ _ => trivial) trivial rfl (fun _ => .inr rfl) trivial rfl rfl rfl (fun _ => trivial)
        | ident n =>
          simp only [parseStmt] at h
          split at h
          · obtain ⟨⟨a, st1, t1⟩, h1, h⟩ := bind_ok h
            have ha := ih1 _ _ _ _ _ hw h1
            simp only [addLabel] at h
            split at h
            · cases h
            · rename_i hm
              split at h
              · cases h
              · rename_i hn
                cases h
                refine { ha with
                  text := by rw [ha.text]; rfl
                  miss := ⟨ha.miss, not_missing hm⟩
                  labels := by show st1.labels ++ [n] = _; rw [ha.labels]; simp [S.shape, C.labels]
                  labelsNodup := ?_
                  wf := ⟨ha.wf.cases, ha.wf.sw⟩ }
                intro hd
                exact List.nodup_append.2 ⟨ha.labelsNodup hd, by simp, fun x hx y hy hxy => hn (by rw [← List.mem_singleton.1 hy, ← hxy]; exact hx)⟩
          · exact exprStmt_inv cv hw h
        | kcase =>
          simp only [parseStmt] at h
          obtain ⟨⟨v, t1⟩, h1, h⟩ := bind_ok h
          obtain ⟨⟨i, w, st1⟩, h2, h⟩ := bind_ok h
          obtain ⟨⟨a, st2, t2⟩, h3, h⟩ := bind_ok h
          obtain ⟨e, hsw, he, hst, hnot⟩ := addCase_ok h2
          subst hst
          have ha := ih1 _ _ _ _ _ (wf_addCase hw hsw _) h3
          simp only at ha
          simp only at h
          split at h
          · cases h
          · rename_i hm
            cases h
            have hc := caseHead_ok h1
            refine inv_caseLabel (x := some v) hw hsw ?_ ha (by rw [hc, ha.text]; rfl) rfl ?_ ?_ rfl rfl ⟨ha.miss, not_missing hm⟩ rfl rfl rfl
              (fun _ h => h)
            · intro P hP y hy
              cases y with
              | none => trivial
              | some y =>
                intro hyv
                apply hnot
                rw [hP]
                exact List.mem_map.2 ⟨some y, hy, by rw [Option.map_some, hyv]⟩
            · intro enc hag hat
              exact ⟨⟨e, hag.2.2.symm.trans hsw, he⟩, hat⟩
            · intro lp br hl
              exact ⟨rfl, hl⟩
        | kdefault =>
          simp only [parseStmt] at h
          obtain ⟨t1, h1, h⟩ := bind_ok h
          obtain ⟨⟨i, st1⟩, h2, h⟩ := bind_ok h
          obtain ⟨⟨a, st2, t2⟩, h3, h⟩ := bind_ok h
          obtain ⟨e, hsw, hst, hnot⟩ := addDefault_ok h2
          subst hst
          have ha := ih1 _ _ _ _ _ (wf_addCase hw hsw _) h3
          simp only at h
          split at h
          · cases h
          · rename_i hm
            cases h
            have hc := expect_ok.1 h1
            refine inv_caseLabel (x := none) hw hsw ?_ ha (by rw [hc, ha.text]; rfl) rfl ?_ ?_ rfl rfl ⟨ha.miss, not_missing hm⟩ rfl rfl rfl
              (fun _ h => h)
            · intro P hP y hy
              cases y with
              | some y => trivial
              | none =>
                apply hnot
                rw [hP]
                exact List.mem_map.2 ⟨none, hy, rfl⟩
            · intro enc hag hat
              exact ⟨⟨e, hag.2.2.symm.trans hsw⟩, hat⟩
            · intro lp br hl
              exact ⟨rfl, hl⟩
        | semi =>
          cases h
          exact inv_leaf cv hw rfl rfl (fun _ _ => trivial) trivial rfl (fun h => by cases h) trivial rfl rfl rfl (fun _ => trivial)
        | lbrace =>
          simp only [parseStmt] at h
          obtain ⟨⟨b, st1, t1⟩, h1, h⟩ := bind_ok h
          have hb := ih2 _ _ _ _ _ hw h1
          cases h
          exact inv_around hb (by rw [hb.text]; rfl) rfl (fun _ h => h) (fun _ _ _ h => h) (fun h => by cases h) (fun h => by cases h)
            hb.miss rfl rfl rfl (fun _ h => h)
        | kif =>
          simp only [parseStmt] at h
          obtain ⟨⟨e, t1⟩, h1, h⟩ := bind_ok h
          obtain ⟨⟨x, st1, t2⟩, h2, h⟩ := bind_ok h
          have hp := paren_ok h1
          have hx := ih1 _ _ _ _ _ hw h2
          simp only at h hp hx
          split at h
          · rename_i t3
            obtain ⟨⟨y, st2, t4⟩, h3, h⟩ := bind_ok h
            have hy := ih1 _ _ _ _ _ hx.wf h3
            cases h
            have hnif : x.shape.openIf = false := by
              cases hq : x.shape.openIf with
              | false => rfl
              | true => exact absurd rfl (hx.openIf hq)
            have hnend : x.shape.openEnd = false := by
              cases hq : x.shape.openEnd with
              | false => rfl
              | true => rcases hx.openEnd hq with h | h <;> cases h
            exact inv_seq hw hx hy (by rw [hp, hx.text, hy.text]; simp [S.shape, C.text]) rfl (fun _ h1 h2 => ⟨h1, h2⟩)
              (fun _ _ _ h1 h2 => ⟨h1, h2, hnif⟩) hy.openIf hy.openEnd ⟨hx.miss, hy.miss, hnend⟩ rfl rfl rfl (fun _ h1 h2 => ⟨h1, h2⟩)
          · rename_i hne
            cases h
            refine inv_around hx (by rw [hp, hx.text]; rfl) rfl (fun _ h => h) (fun _ _ _ h => h) ?_ hx.openEnd
              hx.miss rfl rfl rfl (fun _ h => h)
            intro _ hh
            cases rest with
            | nil => cases hh
            | cons u us =>
              simp only [List.head?_cons, Option.some.injEq] at hh
              exact hne us (by rw [hh])
        | kswitch =>
          simp only [parseStmt] at h
          obtain ⟨⟨e, t1⟩, h1, h⟩ := bind_ok h
          obtain ⟨⟨b, st1, t2⟩, h2, h⟩ := bind_ok h
          have hp := paren_ok h1
          have hb := ih1 _ _ _ _ _ (wf_switch hw e) h2
          cases h
          rw [hp]
          exact inv_switch hw e hb
        | kwhile =>
          simp only [parseStmt] at h
          obtain ⟨⟨e, t1⟩, h1, h⟩ := bind_ok h
          obtain ⟨⟨b, st1, t2⟩, h2, h⟩ := bind_ok h
          have hp := paren_ok h1
          have hb := ih1 _ _ _ _ _ (wf_loop hw) h2
          simp only at hb
          cases h
          exact inv_loop hw hb (by rw [hp, hb.text]; rfl) rfl (fun _ => Iff.rfl) (fun _ _ _ => Iff.rfl) hb.openIf hb.openEnd hb.miss rfl rfl rfl
            (fun _ => Iff.rfl)
        | kdo =>
          simp only [parseStmt] at h
          obtain ⟨⟨b, st1, t2⟩, h2, h⟩ := bind_ok h
          obtain ⟨t3, h3, h⟩ := bind_ok h
          obtain ⟨⟨e, t4⟩, h4, h⟩ := bind_ok h
          obtain ⟨t5, h5, h⟩ := bind_ok h
          have hb := ih1 _ _ _ _ _ (wf_loop hw) h2
          have h3' : t2 = .kwhile :: t3 := expect_ok.1 h3
          have h4' := paren_ok h4
          have h5' : t4 = .semi :: t5 := expect_ok.1 h5
          cases h
          have hnend : b.shape.openEnd = false := by
            cases hq : b.shape.openEnd with
            | false => rfl
            | true => rw [h3'] at hb; rcases hb.openEnd hq with h | h <;> cases h
          exact inv_loop hw hb (by rw [hb.text, h3', h4', h5']; simp [S.shape, C.text]) rfl (fun _ => Iff.rfl) (fun _ _ _ => Iff.rfl)
            (fun h => by cases h) (fun h => by cases h) ⟨hb.miss, hnend⟩ rfl rfl rfl (fun _ => Iff.rfl)
        | kfor =>
          simp only [parseStmt] at h
          obtain ⟨⟨i, c, p, t1⟩, h1, h⟩ := bind_ok h
          obtain ⟨⟨b, st1, t2⟩, h2, h⟩ := bind_ok h
          have hp := forHead_ok h1
          have hb := ih1 _ _ _ _ _ (wf_loop hw) h2
          simp only at hb
          cases h
          exact inv_loop hw hb (by rw [hp, hb.text]; simp [S.shape, C.text]) rfl (fun _ => Iff.rfl) (fun _ _ _ => Iff.rfl) hb.openIf hb.openEnd hb.miss
            rfl rfl rfl (fun _ => Iff.rfl)
        | kbreak =>
          simp only [parseStmt, breakContinue] at h
          obtain ⟨t1, h1, h⟩ := bind_ok h
          simp only [if_true] at h
          split at h
          · cases h
          · rename_i i hi
            cases h
            refine inv_leaf cv hw (by rw [expect_ok.1 h1]; rfl) rfl (fun enc h => h.1.symm.trans hi) ?_ rfl (fun h => by cases h) trivial rfl rfl rfl
              (fun _ => trivial)
            show st.scope.brk.isSome = true
            rw [hi]; rfl
        | kcontinue =>
          simp only [parseStmt, breakContinue] at h
          obtain ⟨t1, h1, h⟩ := bind_ok h
          simp only [Bool.false_eq_true, if_false] at h
          split at h
          · cases h
          · rename_i i hi
            cases h
            refine inv_leaf cv hw (by rw [expect_ok.1 h1]; rfl) rfl (fun enc h => h.2.1.symm.trans hi) ?_ rfl (fun h => by cases h) trivial rfl rfl rfl
              (fun _ => trivial)
            show st.scope.cont.isSome = true
            rw [hi]; rfl
        | kgoto =>
          simp only [parseStmt] at h
          unfold gotoStmt at h
          split at h
          · obtain ⟨t1, h1, h⟩ := bind_ok h
            rename_i n us
            cases h
            have := inv_leaf (k := .st) (s := .empty) cv hw (toks := .semi :: rest) (rest := rest) rfl rfl (fun _ _ => trivial) trivial rfl
              (fun h => by cases h) trivial rfl rfl rfl (fun _ => trivial)
            exact { this with
              text := by rw [expect_ok.1 h1]; rfl
              att := fun _ _ => trivial
              gotos := rfl
              wf := ⟨hw.cases, hw.sw⟩ }
          · cases h
        | kreturn =>
          simp only [parseStmt] at h
          obtain ⟨⟨e, t1⟩, h1, h⟩ := bind_ok h
          have h1' := optExpr_ok h1
          cases h
          exact inv_leaf cv hw (by rw [h1']; simp [S.shape, C.text]) rfl (fun _ _ => trivial) trivial rfl (fun h => by cases h) trivial rfl rfl rfl
            (fun _ => trivial)
        | _ => exact exprStmt_inv cv hw h
    · intro st toks s st' rest hw h
      simp only [parseStmts] at h
      split at h
      · obtain ⟨t1, h1, h⟩ := bind_ok h
        obtain ⟨⟨r, st1, t2⟩, h2, h⟩ := bind_ok h
        have hr := ih2 _ _ _ _ _ hw h2
        cases h
        exact inv_around hr (by rw [expect_ok.1 h1, hr.text]; rfl) rfl (fun _ h => h) (fun _ _ _ h => h) (fun h => by cases h) (fun h => by cases h)
          hr.miss rfl rfl rfl (fun _ h => h)
      · obtain ⟨⟨a, st1, t1⟩, h1, h⟩ := bind_ok h
        have ha := ih1 _ _ _ _ _ hw h1
        simp only at h
        split at h
        · rename_i hm
          obtain ⟨t2, h2, h⟩ := bind_ok h
          have h2' : t1 = .rbrace :: t2 := expect_ok.1 h2
          cases h
          have := isMissing_eq hm
          subst this
          exact inv_around ha (by rw [ha.text, h2']; rfl) rfl (fun _ h => h) (fun _ _ _ h => h) (fun h => by cases h) (fun h => by cases h)
            trivial rfl rfl rfl (fun _ h => h)
        · rename_i hm
          obtain ⟨⟨r, st2, t2⟩, h2, h⟩ := bind_ok h
          have hr := ih2 _ _ _ _ _ ha.wf h2
          cases h
          refine inv_seq hw ha hr (by rw [ha.text, hr.text]; simp [S.shape, C.text]) rfl (fun _ h1 h2 => ⟨h1, h2⟩)
              (fun _ _ _ h1 h2 => ⟨h1, h2⟩) (fun h => by cases h) (fun h => by cases h)
              ⟨ha.miss, hr.miss, not_missing hm, ?_⟩ rfl rfl rfl (fun _ h1 h2 => ⟨h1, h2⟩)
          intro hend
          rcases ha.openEnd hend with hh | hh
          · -- nothing left: the items would have no closing brace
            have ht1 : t1 = [] := by cases t1 with
              | nil => rfl
              | cons _ _ => cases hh
            rw [ht1] at h2
            cases f with
            | zero => cases h2
            | succ f =>
              simp only [parseStmts] at h2
              obtain ⟨⟨q, st3, t3⟩, h3, h2⟩ := bind_ok h2
              cases f with
              | zero => cases h3
              | succ f =>
                cases h3
                simp only [S.isMissing, if_true] at h2
                cases h2
          · cases t1 with
            | nil => cases hh
            | cons u us =>
              simp only [List.head?_cons, Option.some.injEq] at hh
              subst hh
              cases f with
              | zero => cases h2
              | succ f =>
                simp only [parseStmts] at h2
                obtain ⟨⟨q, st3, t3⟩, h3, h2⟩ := bind_ok h2
                cases f with
                | zero => cases h3
                | succ f =>
                  cases h3
                  simp only [S.isMissing, if_true, expect_cons] at h2
                  cases h2
                  rfl

/-! ## The parse always comes to an end -/

theorem bind_fuel {α β : Type} {x : Out α} {f : α → Out β} (hx : x ≠ .fuel) (hf : ∀ a, x = .ok a → f a ≠ .fuel) : x.bind f ≠ .fuel := by
  cases x with
  | ok a => exact hf a rfl
  | err => simp [Out.bind]
  | fuel => exact absurd rfl hx

theorem expect_fuel (t : Tok) (ts : List Tok) : expect t ts ≠ .fuel := by
  cases ts with
  | nil => simp [expect]
  | cons u us => simp only [expect]; split <;> simp

theorem pexpr_fuel (ts : List Tok) : pexpr ts ≠ .fuel := by
  unfold pexpr; split <;> simp

theorem paren_fuel (ts : List Tok) : paren ts ≠ .fuel :=
  bind_fuel (expect_fuel _ _) fun _ _ => bind_fuel (pexpr_fuel _) fun _ _ => bind_fuel (expect_fuel _ _) fun _ _ => by simp

theorem optExpr_fuel (c : Tok) (ts : List Tok) : optExpr c ts ≠ .fuel := by
  unfold optExpr
  split
  · simp
  · split
    · simp
    · exact bind_fuel (pexpr_fuel _) fun _ _ => bind_fuel (expect_fuel _ _) fun _ _ => by simp

theorem forInit_fuel (ts : List Tok) : forInit ts ≠ .fuel := by
  unfold forInit
  split
  · simp
  · exact bind_fuel (expect_fuel _ _) fun _ _ => by simp
  · exact bind_fuel (pexpr_fuel _) fun _ _ => bind_fuel (expect_fuel _ _) fun _ _ => by simp

theorem forHead_fuel (ts : List Tok) : forHead ts ≠ .fuel :=
  bind_fuel (expect_fuel _ _) fun _ _ => bind_fuel (forInit_fuel _) fun _ _ => bind_fuel (optExpr_fuel _ _) fun _ _ =>
    bind_fuel (optExpr_fuel _ _) fun _ _ => by simp

theorem exprStmt_fuel (st : St) (ts : List Tok) : exprStmt st ts ≠ .fuel :=
  bind_fuel (pexpr_fuel _) fun _ _ => bind_fuel (expect_fuel _ _) fun _ _ => by simp

theorem caseHead_fuel (ts : List Tok) : caseHead ts ≠ .fuel := by
  unfold caseHead
  split
  · exact bind_fuel (expect_fuel _ _) fun _ _ => by simp
  · simp

theorem addCase_fuel (cv : E → Int → Int) (st : St) (v : Int) : addCase cv st v ≠ .fuel := by
  unfold addCase
  split
  · simp
  · split <;> simp

theorem addDefault_fuel (st : St) : addDefault st ≠ .fuel := by
  unfold addDefault
  split
  · simp
  · split <;> simp

theorem breakContinue_fuel (b : Bool) (st : St) (ts : List Tok) : breakContinue b st ts ≠ .fuel := by
  refine bind_fuel (expect_fuel _ _) fun _ _ => ?_
  split <;> simp

theorem gotoStmt_fuel (st : St) (ts : List Tok) : gotoStmt st ts ≠ .fuel := by
  unfold gotoStmt
  split
  · exact bind_fuel (expect_fuel _ _) fun _ _ => by simp
  · simp

theorem addLabel_fuel (n : Nat) (s : S .st) (st : St) (ts : List Tok) : addLabel n s st ts ≠ .fuel := by
  unfold addLabel
  split
  · simp
  · split <;> simp

theorem text_pos {c : C .st} (h : c ≠ .missing) : 0 < c.text.length := by
  cases c <;> first | exact absurd rfl h | simp [C.text]

theorem total_aux (cv : E → Int → Int) (f : Nat) :
    (∀ st toks, WF st → 2 * toks.length + 1 ≤ f → parseStmt cv f st toks ≠ .fuel) ∧
    (∀ st toks, WF st → 2 * toks.length + 2 ≤ f → parseStmts cv f st toks ≠ .fuel) := by
  induction f with
  | zero => exact ⟨fun st toks _ h => by omega, fun st toks _ h => by omega⟩
  | succ f ih =>
    obtain ⟨ih1, ih2⟩ := ih
    constructor
    · intro st toks hw hl
      cases toks with
      | nil => simp [parseStmt]
      | cons t ts =>
        simp only [List.length_cons] at hl
        cases t with
        | rbrace => simp [parseStmt]
        | ident n =>
          simp only [parseStmt]
          split
          · rename_i us
            simp only [List.length_cons] at hl
            exact bind_fuel (ih1 _ _ hw (by omega)) fun _ _ => addLabel_fuel _ _ _ _
          · exact exprStmt_fuel _ _
        | kcase =>
          simp only [parseStmt]
          refine bind_fuel (caseHead_fuel _) fun ⟨v, t1⟩ h1 => bind_fuel (addCase_fuel _ _ _) fun ⟨i, w, st1⟩ h2 =>
            bind_fuel ?_ fun _ _ => ?_
          · obtain ⟨e, hsw, he, hst, hnot⟩ := addCase_ok h2
            subst hst
            have := caseHead_ok h1
            subst this
            simp only [List.length_cons] at hl
            refine ih1 _ _ (wf_addCase hw hsw _) ?_
            simp only
            omega
          · split <;> simp
        | kdefault =>
          simp only [parseStmt]
          refine bind_fuel (expect_fuel _ _) fun t1 h1 => bind_fuel (addDefault_fuel _) fun ⟨i, st1⟩ h2 =>
            bind_fuel ?_ fun _ _ => ?_
          · obtain ⟨e, hsw, hst, hnot⟩ := addDefault_ok h2
            subst hst
            have := expect_ok.1 h1
            subst this
            simp only [List.length_cons] at hl
            exact ih1 _ _ (wf_addCase hw hsw _) (by omega)
          · split <;> simp
        | semi => simp [parseStmt]
        | lbrace =>
          simp only [parseStmt]
          exact bind_fuel (ih2 _ _ hw (by omega)) fun _ _ => by simp
        | kif =>
          simp only [parseStmt]
          refine bind_fuel (paren_fuel _) fun ⟨e, t1⟩ h1 => ?_
          have := paren_ok h1
          subst this
          simp only [List.length_cons] at hl
          refine bind_fuel (ih1 _ _ hw (by simp only; omega)) fun ⟨x, st1, t2⟩ h2 => ?_
          have hx := (sound_aux cv f).1 _ _ _ _ _ hw h2
          have hlen := congrArg List.length hx.text
          simp only [List.length_append] at hlen
          simp only
          split
          · simp only [List.length_cons] at hlen
            exact bind_fuel (ih1 _ _ hx.wf (by omega)) fun _ _ => by simp
          · simp
        | kswitch =>
          simp only [parseStmt]
          refine bind_fuel (paren_fuel _) fun ⟨e, t1⟩ h1 => ?_
          have := paren_ok h1
          subst this
          simp only [List.length_cons] at hl
          exact bind_fuel (ih1 _ _ (wf_switch hw e) (by simp only; omega)) fun _ _ => by simp
        | kwhile =>
          simp only [parseStmt]
          refine bind_fuel (paren_fuel _) fun ⟨e, t1⟩ h1 => ?_
          have := paren_ok h1
          subst this
          simp only [List.length_cons] at hl
          exact bind_fuel (ih1 _ _ (wf_loop hw) (by simp only; omega)) fun _ _ => by simp
        | kdo =>
          simp only [parseStmt]
          exact bind_fuel (ih1 _ _ (wf_loop hw) (by omega)) fun _ _ =>
            bind_fuel (expect_fuel _ _) fun _ _ => bind_fuel (paren_fuel _) fun _ _ => bind_fuel (expect_fuel _ _) fun _ _ => by simp
        | kfor =>
          simp only [parseStmt]
          refine bind_fuel (forHead_fuel _) fun ⟨i, c, p, t1⟩ h1 => ?_
          have := forHead_ok h1
          subst this
          simp only [List.length_cons, List.length_append] at hl
          exact bind_fuel (ih1 _ _ (wf_loop hw) (by simp only; omega)) fun _ _ => by simp
        | kbreak => exact breakContinue_fuel _ _ _
        | kcontinue => exact breakContinue_fuel _ _ _
        | kgoto => exact gotoStmt_fuel _ _
        | kreturn => exact bind_fuel (optExpr_fuel _ _) fun _ _ => by simp
        | _ => exact exprStmt_fuel _ _
    · intro st toks hw hl
      simp only [parseStmts]
      split
      · rename_i n us
        simp only [List.length_cons] at hl
        refine bind_fuel (expect_fuel _ _) fun t1 h1 => ?_
        have := expect_ok.1 h1
        subst this
        simp only [List.length_cons] at hl
        exact bind_fuel (ih2 _ _ hw (by omega)) fun _ _ => by simp
      · refine bind_fuel (ih1 _ _ hw (by omega)) fun ⟨a, st1, t1⟩ h1 => ?_
        have ha := (sound_aux cv f).1 _ _ _ _ _ hw h1
        simp only
        split
        · exact bind_fuel (expect_fuel _ _) fun _ _ => by simp
        · rename_i hm
          have hlen := congrArg List.length ha.text
          simp only [List.length_append] at hlen
          have := text_pos (not_missing hm)
          exact bind_fuel (ih2 _ _ ha.wf (by omega)) fun _ _ => by simp

/-! ## Every statement of C is read -/

/-- The parser of either kind of tree. -/
def parseK (cv : E → Int → Int) : (k : K) → Nat → St → List Tok → Out (S k × St × List Tok)
  | .st => parseStmt cv
  | .items => parseStmts cv

theorem sound_k (cv : E → Int → Int) {k : K} {f : Nat} {st : St} {toks : List Tok} {s : S k} {st' : St} {rest : List Tok} (hw : WF st)
    (h : parseK cv k f st toks = .ok (s, st', rest)) : Inv cv st toks s st' rest := by
  cases k with
  | st => exact (sound_aux cv f).1 _ _ _ _ _ hw h
  | items => exact (sound_aux cv f).2 _ _ _ _ _ hw h

theorem text_head {k : K} (c : C k) (h : c.Full) : ∃ t ts, c.text = t :: ts ∧ t ≠ .kelse ∧ (k = .st → t ≠ .rbrace ∧ ∀ n, t ≠ .decl n) := by
  cases c with
  | missing => exact absurd h id
  | expr e => cases e <;> exact ⟨_, _, rfl, by simp [E.tok], fun _ => ⟨by simp [E.tok], by simp [E.tok]⟩⟩
  | cons s r =>
    have h1 : s.Full := h.1
    have hs : ∃ t ts, s.text = t :: ts ∧ t ≠ .kelse := by
      cases s with
      | missing => exact absurd h1 id
      | expr e => cases e <;> exact ⟨_, _, rfl, by simp [E.tok]⟩
      | _ => exact ⟨_, _, rfl, by simp⟩
    obtain ⟨t, ts, ht, hne⟩ := hs
    exact ⟨t, ts ++ r.text, by simp [C.text, ht], hne, fun h => by cases h⟩
  | nil => exact ⟨_, _, rfl, by simp, fun h => by cases h⟩
  | dcl n r => exact ⟨_, _, rfl, by simp, fun h => by cases h⟩
  | _ => exact ⟨_, _, rfl, by simp, fun _ => ⟨by simp, by simp⟩⟩

theorem full_not_missing {c : C .st} (h : c.Full) : c ≠ .missing := by
  intro h'
  rw [h'] at h
  exact h

/-- What the state has to allow for `c` to be read. -/
structure Fits (cv : E → Int → Int) (st : St) {k : K} (c : C k) : Prop where
  legal : c.Legal (D cv) st.scope.cont.isSome st.scope.brk.isSome st.scope.sw.isSome
  labels : (st.labels ++ c.labels).Nodup
  cases : ∀ i e, st.scope.sw = some (i, e) →
    ∃ P, casesOf st.cases i = P.map (Option.map (cv e)) ∧ (P ++ c.own).Pairwise (D cv e)

theorem fits_next {cv : E → Int → Int} {st st1 : St} {k1 k2 : K} {a : S k1} {b : C k2} {t r : List Tok} (hi : Inv cv st t a st1 r)
    (hleg : b.Legal (D cv) st.scope.cont.isSome st.scope.brk.isSome st.scope.sw.isSome)
    (hlab : (st.labels ++ (a.shape.labels ++ b.labels)).Nodup)
    (hc : ∀ i e, st.scope.sw = some (i, e) →
      ∃ P, casesOf st.cases i = P.map (Option.map (cv e)) ∧ (P ++ (a.shape.own ++ b.own)).Pairwise (D cv e)) :
    Fits cv st1 b where
  legal := by rw [hi.scope]; exact hleg
  labels := by rw [hi.labels, List.append_assoc]; exact hlab
  cases := by
    intro i e h
    rw [hi.scope] at h
    obtain ⟨P, hP, hp⟩ := hc i e h
    refine ⟨P ++ a.shape.own, ?_, by rw [List.append_assoc]; exact hp⟩
    rw [hi.log i e h, hP, List.map_append]

theorem complete_aux (cv : E → Int → Int) {k : K} (c : C k) : ∀ (f : Nat) (st : St) (rest : List Tok), WF st → c.Full → Fits cv st c →
    2 * c.text.length + 2 ≤ f → (c.openIf = true → rest.head? ≠ some .kelse) →
    ∃ s st', parseK cv k f st (c.text ++ rest) = .ok (s, st', rest) ∧ s.shape = c := by
  induction c with
  | missing => intro f st rest _ h; exact absurd h id
  | expr e =>
    intro f st rest hw _ _ hf _
    obtain ⟨f, rfl⟩ : ∃ g, f = g + 1 := ⟨f - 1, by simp [C.text] at hf; omega⟩
    refine ⟨.expr e, st, ?_, rfl⟩
    cases e <;> simp [parseK, C.text, E.tok, parseStmt, exprStmt, pexpr, Out.bind, expect_cons]
  | empty =>
    intro f st rest hw _ _ hf _
    obtain ⟨f, rfl⟩ : ∃ g, f = g + 1 := ⟨f - 1, by simp [C.text] at hf; omega⟩
    exact ⟨.empty, st, rfl, rfl⟩
  | block b ih =>
    intro f st rest hw hfull hfit hf _
    simp only [C.text, List.length_cons] at hf
    obtain ⟨f, rfl⟩ : ∃ g, f = g + 1 := ⟨f - 1, by omega⟩
    obtain ⟨s, st', h, hs⟩ := ih f st rest hw hfull ⟨hfit.legal, hfit.labels, hfit.cases⟩ (by omega) (fun h => by
      cases b <;> cases h)
    refine ⟨.block s, st', ?_, by simp only [S.shape, hs]⟩
    have h' : parseStmts cv f st (b.text ++ rest) = .ok (s, st', rest) := h
    simp only [parseK, C.text, List.cons_append, parseStmt, h', Out.bind]
  | ifs e t ih =>
    intro f st rest hw hfull hfit hf hif
    simp only [C.text, List.length_cons] at hf
    obtain ⟨f, rfl⟩ : ∃ g, f = g + 1 := ⟨f - 1, by omega⟩
    obtain ⟨s, st', h, hs⟩ := ih f st rest hw hfull ⟨hfit.legal, hfit.labels, hfit.cases⟩ (by omega) (fun _ => hif rfl)
    refine ⟨.ifs e s, st', ?_, by simp only [S.shape, hs]⟩
    have h' : parseStmt cv f st (t.text ++ rest) = .ok (s, st', rest) := h
    simp only [parseK, C.text, List.cons_append, parseStmt, paren_text, h', Out.bind]
    cases rest with
    | nil => rfl
    | cons u us =>
      have : u ≠ .kelse := fun hu => hif rfl (by rw [hu]; rfl)
      cases u <;> first | rfl | exact absurd rfl this
  | ife e t x iht ihx =>
    intro f st rest hw hfull hfit hf hif
    simp only [C.text, List.length_cons, List.length_append] at hf
    obtain ⟨f, rfl⟩ : ∃ g, f = g + 1 := ⟨f - 1, by omega⟩
    have hleg := hfit.legal
    have hlab := hfit.labels
    have hca := hfit.cases
    simp only [C.Legal, C.labels, C.own] at hleg hlab hca
    obtain ⟨s, st1, h, hs⟩ := iht f st (.kelse :: (x.text ++ rest)) hw hfull.1 ⟨hleg.1, by
        rw [← List.append_assoc] at hlab
        exact (List.nodup_append.1 hlab).1, fun i e h => by
        obtain ⟨P, hP, hp⟩ := hca i e h
        rw [← List.append_assoc] at hp
        exact ⟨P, hP, (List.pairwise_append.1 hp).1⟩⟩ (by omega) (fun h => by rw [hleg.2.2] at h; cases h)
    have hi := sound_k cv hw h
    obtain ⟨y, st2, h2, hy⟩ := ihx f st1 rest hi.wf hfull.2 (fits_next hi hleg.2.1 (by rw [hs]; exact hlab) (by rw [hs]; exact hca)) (by omega) hif
    refine ⟨.ife e s y, st2, ?_, by simp only [S.shape, hs, hy]⟩
    have h' : parseStmt cv f st (t.text ++ .kelse :: (x.text ++ rest)) = .ok (s, st1, .kelse :: (x.text ++ rest)) := h
    have h2' : parseStmt cv f st1 (x.text ++ rest) = .ok (y, st2, rest) := h2
    simp only [parseK, C.text, List.cons_append, List.append_assoc, parseStmt, paren_text, h', h2', Out.bind]
  | switch e b ih =>
    intro f st rest hw hfull hfit hf hif
    simp only [C.text, List.length_cons] at hf
    obtain ⟨f, rfl⟩ : ∃ g, f = g + 1 := ⟨f - 1, by omega⟩
    have hleg := hfit.legal
    simp only [C.Legal] at hleg
    obtain ⟨s, st', h, hs⟩ := ih f (switchSt st e) rest (wf_switch hw e) hfull ⟨hleg.1, hfit.labels, fun i e' h => by
      have : (st.next, e) = (i, e') := Option.some.inj h
      injection this with h1 h2
      subst h1 h2
      exact ⟨[], casesOf_fresh (log := (switchSt st e).cases) hw.cases, hleg.2⟩⟩ (by omega) hif
    refine ⟨.switch st.next e s, { st' with scope := st.scope }, ?_, by simp only [S.shape, hs]⟩
    have h' : parseStmt cv f (switchSt st e) (b.text ++ rest) = .ok (s, st', rest) := h
    simp only [switchSt] at h'
    simp only [parseK, C.text, List.cons_append, parseStmt, paren_text, h', Out.bind]
  | «while» e b ih =>
    intro f st rest hw hfull hfit hf hif
    simp only [C.text, List.length_cons] at hf
    obtain ⟨f, rfl⟩ : ∃ g, f = g + 1 := ⟨f - 1, by omega⟩
    obtain ⟨s, st', h, hs⟩ := ih f (loopSt st) rest (wf_loop hw) hfull ⟨hfit.legal, hfit.labels, hfit.cases⟩ (by omega) hif
    refine ⟨.while st.next e s, { st' with scope := st.scope }, ?_, by simp only [S.shape, hs]⟩
    have h' : parseStmt cv f (loopSt st) (b.text ++ rest) = .ok (s, st', rest) := h
    simp only [loopSt] at h'
    simp only [parseK, C.text, List.cons_append, parseStmt, paren_text, h', Out.bind]
  | doWhile b e ih =>
    intro f st rest hw hfull hfit hf hif
    simp only [C.text, List.length_cons, List.length_append] at hf
    obtain ⟨f, rfl⟩ : ∃ g, f = g + 1 := ⟨f - 1, by omega⟩
    obtain ⟨s, st', h, hs⟩ := ih f (loopSt st) ([.kwhile, .lpar, e.tok, .rpar, .semi] ++ rest) (wf_loop hw) hfull
      ⟨hfit.legal, hfit.labels, hfit.cases⟩ (by omega) (fun _ h => by cases h)
    refine ⟨.doWhile st.next s e, { st' with scope := st.scope }, ?_, by simp only [S.shape, hs]⟩
    have h' : parseStmt cv f (loopSt st) (b.text ++ ([.kwhile, .lpar, e.tok, .rpar, .semi] ++ rest)) =
      .ok (s, st', [.kwhile, .lpar, e.tok, .rpar, .semi] ++ rest) := h
    simp only [loopSt, List.cons_append, List.nil_append] at h'
    simp only [parseK, C.text, List.cons_append, List.nil_append, List.append_assoc, parseStmt, paren_text, expect_cons, h', Out.bind]
  | «for» i c p b ih =>
    intro f st rest hw hfull hfit hf hif
    simp only [C.text, List.length_cons, List.length_append] at hf
    obtain ⟨f, rfl⟩ : ∃ g, f = g + 1 := ⟨f - 1, by omega⟩
    obtain ⟨s, st', h, hs⟩ := ih f (loopSt st) rest (wf_loop hw) hfull ⟨hfit.legal, hfit.labels, hfit.cases⟩ (by omega) hif
    refine ⟨.for st.next i c p s, { st' with scope := st.scope }, ?_, by simp only [S.shape, hs]⟩
    have h' : parseStmt cv f (loopSt st) (b.text ++ rest) = .ok (s, st', rest) := h
    simp only [loopSt] at h'
    simp only [parseK, C.text, List.cons_append, List.append_assoc, parseStmt, forHead_text, h', Out.bind]
  | brk =>
    intro f st rest hw _ hfit hf _
    obtain ⟨f, rfl⟩ : ∃ g, f = g + 1 := ⟨f - 1, by simp [C.text] at hf; omega⟩
    obtain ⟨i, hi⟩ := Option.isSome_iff_exists.1 hfit.legal
    refine ⟨.brk i, st, ?_, rfl⟩
    simp [parseK, C.text, parseStmt, breakContinue, expect_cons, Out.bind, hi]
  | cont =>
    intro f st rest hw _ hfit hf _
    obtain ⟨f, rfl⟩ : ∃ g, f = g + 1 := ⟨f - 1, by simp [C.text] at hf; omega⟩
    obtain ⟨i, hi⟩ := Option.isSome_iff_exists.1 hfit.legal
    refine ⟨.cont i, st, ?_, rfl⟩
    simp [parseK, C.text, parseStmt, breakContinue, expect_cons, Out.bind, hi]
  | goto n =>
    intro f st rest hw _ hfit hf _
    obtain ⟨f, rfl⟩ : ∃ g, f = g + 1 := ⟨f - 1, by simp [C.text] at hf; omega⟩
    exact ⟨.goto n, _, rfl, rfl⟩
  | ret e =>
    intro f st rest hw _ hfit hf _
    obtain ⟨f, rfl⟩ : ∃ g, f = g + 1 := ⟨f - 1, by simp [C.text] at hf; omega⟩
    refine ⟨.ret e, st, ?_, rfl⟩
    simp [parseK, C.text, parseStmt, optExpr_text tok_ne_semi, Out.bind]
  | case v b ih =>
    intro f st rest hw hfull hfit hf hif
    simp only [C.text, List.length_cons] at hf
    obtain ⟨f, rfl⟩ : ∃ g, f = g + 1 := ⟨f - 1, by omega⟩
    have hleg := hfit.legal
    simp only [C.Legal] at hleg
    obtain ⟨⟨i, e⟩, hsw⟩ := Option.isSome_iff_exists.1 hleg.1
    obtain ⟨P, hP, hp⟩ := hfit.cases i e hsw
    have hnot : some v ∉ casesOf st.cases i := by
      rw [hP]
      intro hm
      obtain ⟨y, hy, hyv⟩ := List.mem_map.1 hm
      have := (List.pairwise_append.1 hp).2.2 y hy (some v) (by simp [C.own])
      cases y with
      | none => cases hyv
      | some y => exact this (Option.some.inj hyv)
    obtain ⟨s, st', h, hs⟩ := ih f { st with cases := st.cases ++ [(i, some (cv e v))] } rest (wf_addCase hw hsw _) hfull
      ⟨hleg.2, hfit.labels, fun j e' h => by
        have hj : (i, e) = (j, e') := Option.some.inj (hsw.symm.trans h)
        injection hj with h1 h2
        subst h1 h2
        refine ⟨P ++ [some v], ?_, by simpa [C.own] using hp⟩
        show casesOf (st.cases ++ _) i = _
        rw [casesOf_append, casesOf_one, if_pos rfl, hP]; simp⟩ (by omega) hif
    refine ⟨.case i v (cv e v) s, st', ?_, by simp only [S.shape, hs]⟩
    have h' : parseStmt cv f { st with cases := st.cases ++ [(i, some (cv e v))] } (b.text ++ rest) = .ok (s, st', rest) := h
    have hm : s.isMissing = false := by
      cases hm : s.isMissing with
      | false => rfl
      | true =>
        have := isMissing_eq hm
        rw [this] at hs
        exact absurd hs.symm (full_not_missing hfull)
    have hadd : addCase cv st v = .ok (i, cv e v, { st with cases := st.cases ++ [(i, some (cv e v))] }) := by
      simp only [addCase, hsw, findCase_false.2 hnot, Bool.false_eq_true, if_false]
    simp only [parseK, C.text, List.cons_append, parseStmt, caseHead, expect_cons, hadd, h', hm, Out.bind, Bool.false_eq_true, if_false]
  | default b ih =>
    intro f st rest hw hfull hfit hf hif
    simp only [C.text, List.length_cons] at hf
    obtain ⟨f, rfl⟩ : ∃ g, f = g + 1 := ⟨f - 1, by omega⟩
    have hleg := hfit.legal
    simp only [C.Legal] at hleg
    obtain ⟨⟨i, e⟩, hsw⟩ := Option.isSome_iff_exists.1 hleg.1
    obtain ⟨P, hP, hp⟩ := hfit.cases i e hsw
    have hnot : none ∉ casesOf st.cases i := by
      rw [hP]
      intro hm
      obtain ⟨y, hy, hyv⟩ := List.mem_map.1 hm
      have := (List.pairwise_append.1 hp).2.2 y hy none (by simp [C.own])
      cases y with
      | none => exact this
      | some y => cases hyv
    obtain ⟨s, st', h, hs⟩ := ih f { st with cases := st.cases ++ [(i, none)] } rest (wf_addCase hw hsw _) hfull
      ⟨hleg.2, hfit.labels, fun j e' h => by
        have hj : (i, e) = (j, e') := Option.some.inj (hsw.symm.trans h)
        injection hj with h1 h2
        subst h1 h2
        refine ⟨P ++ [none], ?_, by simpa [C.own] using hp⟩
        show casesOf (st.cases ++ _) i = _
        rw [casesOf_append, casesOf_one, if_pos rfl, hP]; simp⟩ (by omega) hif
    refine ⟨.default i s, st', ?_, by simp only [S.shape, hs]⟩
    have h' : parseStmt cv f { st with cases := st.cases ++ [(i, none)] } (b.text ++ rest) = .ok (s, st', rest) := h
    have hm : s.isMissing = false := by
      cases hm : s.isMissing with
      | false => rfl
      | true =>
        have := isMissing_eq hm
        rw [this] at hs
        exact absurd hs.symm (full_not_missing hfull)
    have hadd : addDefault st = .ok (i, { st with cases := st.cases ++ [(i, none)] }) := by
      simp only [addDefault, hsw]
      rw [findDefault_false.2 hnot]
      rfl
    simp only [parseK, C.text, List.cons_append, parseStmt, expect_cons, hadd, h', hm, Out.bind, Bool.false_eq_true, if_false]
  | label n b ih =>
    intro f st rest hw hfull hfit hf hif
    simp only [C.text, List.length_cons] at hf
    obtain ⟨f, rfl⟩ : ∃ g, f = g + 1 := ⟨f - 1, by omega⟩
    have hlab := hfit.labels
    simp only [C.labels] at hlab
    rw [← List.append_assoc] at hlab
    obtain ⟨s, st', h, hs⟩ := ih f st rest hw hfull ⟨hfit.legal, (List.nodup_append.1 hlab).1, hfit.cases⟩ (by omega) hif
    have hi := sound_k cv hw h
    have hn : n ∉ st'.labels := by
      rw [hi.labels, hs]
      intro hm
      exact (List.nodup_append.1 hlab).2.2 n hm n (by simp) rfl
    have hm : s.isMissing = false := by
      cases hm : s.isMissing with
      | false => rfl
      | true =>
        have := isMissing_eq hm
        rw [this] at hs
        exact absurd hs.symm (full_not_missing hfull)
    refine ⟨.label n s, { st' with labels := st'.labels ++ [n] }, ?_, by simp only [S.shape, hs]⟩
    have h' : parseStmt cv f st (b.text ++ rest) = .ok (s, st', rest) := h
    simp only [parseK, C.text, List.cons_append, parseStmt, h', addLabel, hm, hn, Out.bind, Bool.false_eq_true, if_false]
  | nil =>
    intro f st rest hw _ _ hf _
    simp only [C.text, List.length_cons] at hf
    obtain ⟨f, rfl⟩ : ∃ g, f = g + 2 := ⟨f - 2, by omega⟩
    exact ⟨.nil, st, by simp [parseK, C.text, parseStmts, parseStmt, Out.bind, S.isMissing, expect_cons], rfl⟩
  | dcl n r ih =>
    intro f st rest hw hfull hfit hf _
    simp only [C.text, List.length_cons] at hf
    obtain ⟨f, rfl⟩ : ∃ g, f = g + 1 := ⟨f - 1, by omega⟩
    obtain ⟨s, st', h, hs⟩ := ih f st rest hw hfull ⟨hfit.legal, hfit.labels, hfit.cases⟩ (by omega) (fun h => by
      cases r <;> cases h)
    refine ⟨.dcl n s, st', ?_, by simp only [S.shape, hs]⟩
    have h' : parseStmts cv f st (r.text ++ rest) = .ok (s, st', rest) := h
    simp only [parseK, C.text, List.cons_append, parseStmts, expect_cons, h', Out.bind]
  | cons a r iha ihr =>
    intro f st rest hw hfull hfit hf _
    have hne := text_pos (full_not_missing hfull.1)
    have hrne : 0 < r.text.length := by
      obtain ⟨t, ts, ht, _⟩ := text_head r hfull.2
      rw [ht]; simp
    simp only [C.text, List.length_append] at hf
    obtain ⟨f, rfl⟩ : ∃ g, f = g + 1 := ⟨f - 1, by omega⟩
    have hleg := hfit.legal
    have hlab := hfit.labels
    have hca := hfit.cases
    simp only [C.Legal, C.labels, C.own] at hleg hlab hca
    obtain ⟨s, st1, h, hs⟩ := iha f st (r.text ++ rest) hw hfull.1 ⟨hleg.1, by
        rw [← List.append_assoc] at hlab
        exact (List.nodup_append.1 hlab).1, fun i e h => by
        obtain ⟨P, hP, hp⟩ := hca i e h
        rw [← List.append_assoc] at hp
        exact ⟨P, hP, (List.pairwise_append.1 hp).1⟩⟩ (by omega) (fun _ hh => by
        obtain ⟨t, ts, ht, hte, _⟩ := text_head r hfull.2
        rw [ht] at hh
        simp only [List.cons_append, List.head?_cons, Option.some.injEq] at hh
        exact hte hh)
    have hi := sound_k cv hw h
    obtain ⟨y, st2, h2, hy⟩ := ihr f st1 rest hi.wf hfull.2 (fits_next hi hleg.2 (by rw [hs]; exact hlab) (by rw [hs]; exact hca)) (by omega) (fun h => by
      cases r <;> cases h)
    refine ⟨.cons s y, st2, ?_, by simp only [S.shape, hs, hy]⟩
    have h' : parseStmt cv f st (a.text ++ (r.text ++ rest)) = .ok (s, st1, r.text ++ rest) := h
    have h2' : parseStmts cv f st1 (r.text ++ rest) = .ok (y, st2, rest) := h2
    have hm : s.isMissing = false := by
      cases hm : s.isMissing with
      | false => rfl
      | true =>
        have := isMissing_eq hm
        rw [this] at hs
        exact absurd hs.symm (full_not_missing hfull.1)
    obtain ⟨t, ts, ht, _, hd⟩ := text_head a hfull.1
    have hnd := (hd rfl).2
    simp only [parseK, C.text, List.append_assoc]
    rw [ht] at h' ⊢
    rw [List.cons_append] at h' ⊢
    rw [parseStmts]
    · simp only [h', hm, h2', Out.bind, Bool.false_eq_true, if_false]
    · intro n us hh
      injection hh with h1 _
      exact hnd n h1

/-! ## The body of a function -/

/-- A body of a function as C has it: no statement missing, the constraints met, labels distinct, every
`goto` with its label. `D` says when two labels of one `switch` may stand together. -/
structure BodyOk (D : E → Option Int → Option Int → Prop) (c : C .items) : Prop where
  full : c.Full
  legal : c.Legal D false false false
  labels : c.labels.Nodup
  gotos : ∀ n ∈ c.gotos, n ∈ c.labels

theorem wf_empty : WF {} := ⟨fun _ h => (by cases h), fun _ _ h => (by cases h)⟩

theorem body_inv {cv : E → Int → Int} {ts rest : List Tok} {s : S .items} {st : St} (h : parseBody cv ts = .ok (s, st, rest)) :
    Inv cv {} ts s st rest ∧ checkGotos st = true := by
  obtain ⟨⟨b, st1, r⟩, h1, h⟩ := bind_ok h
  have hi := (sound_aux cv _).2 _ _ _ _ _ wf_empty h1
  simp only at h
  split at h
  · rename_i hc
    cases h
    exact ⟨hi, hc⟩
  · cases h

theorem checkGotos_iff {cv : E → Int → Int} {ts rest : List Tok} {s : S .items} {st : St} (hi : Inv cv {} ts s st rest) :
    checkGotos st = true ↔ ∀ n ∈ s.shape.gotos, n ∈ s.shape.labels := by
  have hg : st.gotos = s.shape.gotos := hi.gotos
  have hl : st.labels = s.shape.labels := hi.labels
  simp [checkGotos, hg, hl]

/-- **The parse of a body always ends**, with a tree or with an error. -/
theorem parse_total (cv : E → Int → Int) (ts : List Tok) : parseBody cv ts ≠ .fuel := by
  refine bind_fuel ((total_aux cv _).2 _ _ wf_empty (Nat.le_refl _)) fun ⟨b, st, r⟩ _ => ?_
  simp only
  split <;> simp

/-- **Every body of C is read as it is written**: the parser accepts the text of every body that meets the
constraints, whatever follows it, and builds that very tree. -/
theorem body_complete (cv : E → Int → Int) (c : C .items) (h : BodyOk (D cv) c) (rest : List Tok) :
    ∃ s st, parseBody cv (c.text ++ rest) = .ok (s, st, rest) ∧ s.shape = c := by
  obtain ⟨s, st, hp, hs⟩ := complete_aux cv c (2 * (c.text ++ rest).length + 2) {} rest wf_empty h.full
    ⟨h.legal, by simpa using h.labels, fun i e h => by cases h⟩ (by simp only [List.length_append]; omega)
    (fun h => by cases c <;> cases h)
  refine ⟨s, st, ?_, hs⟩
  have hp' : parseStmts cv (2 * (c.text ++ rest).length + 2) {} (c.text ++ rest) = .ok (s, st, rest) := hp
  have hi := sound_k cv wf_empty hp
  have hc : checkGotos st = true := (checkGotos_iff hi).2 (by rw [hs]; exact h.gotos)
  simp only [parseBody, hp', Out.bind, hc, if_true]

/-- **What is accepted is C, but for bodies that are missing.** The tokens consumed are the text of the tree;
`else` belongs to the nearest `if`; `break`, `continue`, `case` and `default` are where C allows them;
labels are distinct and every `goto` has its label. A body may be missing, but only right before a closing brace. -/
theorem body_sound_partial (cv : E → Int → Int) (ts rest : List Tok) (s : S .items) (st : St)
    (h : parseBody cv ts = .ok (s, st, rest)) :
    ts = s.shape.text ++ rest ∧ s.shape.Legal (D cv) false false false ∧ s.shape.MissEnd ∧ s.shape.labels.Nodup ∧
      ∀ n ∈ s.shape.gotos, n ∈ s.shape.labels := by
  obtain ⟨hi, hc⟩ := body_inv h
  refine ⟨hi.text, hi.legal, hi.miss, ?_, (checkGotos_iff hi).1 hc⟩
  have := hi.labelsNodup (by simp)
  have hl : st.labels = s.shape.labels := hi.labels
  rwa [hl] at this

/-- **One reading**: a text is the text of at most one body of C. -/
theorem one_reading (cv : E → Int → Int) (c c' : C .items) (h : BodyOk (D cv) c) (h' : BodyOk (D cv) c') (rest rest' : List Tok)
    (ht : c.text ++ rest = c'.text ++ rest') : c = c' ∧ rest = rest' := by
  obtain ⟨s, st, hp, hs⟩ := body_complete cv c h rest
  obtain ⟨s', st', hp', hs'⟩ := body_complete cv c' h' rest'
  rw [ht, hp'] at hp
  cases hp
  exact ⟨hs.symm.trans hs', rfl⟩

/-- **Jumps go where C sends them**: every `break` points to the innermost loop or `switch` around it, every
`continue` to the innermost loop, every label of a `switch` to the innermost `switch`; and no two loops or
switches are taken for one another. -/
theorem jumps_attached (cv : E → Int → Int) (ts rest : List Tok) (s : S .items) (st : St)
    (h : parseBody cv ts = .ok (s, st, rest)) : s.Attached cv [] ∧ s.ids.Nodup :=
  ⟨(body_inv h).1.att [] ⟨rfl, rfl, rfl⟩, (body_inv h).1.nodup⟩

/-- **Every `switch` knows its labels**: those in its body and not in an inner `switch`, in the order of
the text, converted to the type of its expression. -/
theorem cases_recorded (cv : E → Int → Int) (ts rest : List Tok) (s : S .items) (st : St)
    (h : parseBody cv ts = .ok (s, st, rest)) : s.CasesOk cv st.cases := (body_inv h).1.casesOk

/-- Every label of every `switch` has a value of the type of the expression. -/
def C.InType (cv : E → Int → Int) : {k : K} → C k → Prop
  | _, .block b => b.InType cv
  | _, .ifs _ t => t.InType cv
  | _, .ife _ t f => t.InType cv ∧ f.InType cv
  | _, .switch e b => (∀ v, some v ∈ b.own → cv e v = v) ∧ b.InType cv
  | _, .while _ b => b.InType cv
  | _, .doWhile b _ => b.InType cv
  | _, .for _ _ _ b => b.InType cv
  | _, .case _ s => s.InType cv
  | _, .default s => s.InType cv
  | _, .label _ s => s.InType cv
  | _, .dcl _ r => r.InType cv
  | _, .cons s r => s.InType cv ∧ r.InType cv
  | _, _ => True

/-- The labels of one `switch` as C wants them: different values, one `default`. -/
def Different (_ : E) : Option Int → Option Int → Prop := fun a b => a ≠ b

theorem pairwise_congr {R Q : Option Int → Option Int → Prop} {l : List (Option Int)} (h : ∀ a ∈ l, ∀ b ∈ l, R a b ↔ Q a b) :
    l.Pairwise R ↔ l.Pairwise Q := by
  induction l with
  | nil => simp
  | cons a l ih =>
    rw [List.pairwise_cons, List.pairwise_cons, ih (fun x hx y hy => h x (List.mem_cons_of_mem _ hx) y (List.mem_cons_of_mem _ hy))]
    constructor
    · rintro ⟨h1, h2⟩
      exact ⟨fun b hb => (h a (List.mem_cons_self ..) b (List.mem_cons_of_mem _ hb)).1 (h1 b hb), h2⟩
    · rintro ⟨h1, h2⟩
      exact ⟨fun b hb => (h a (List.mem_cons_self ..) b (List.mem_cons_of_mem _ hb)).2 (h1 b hb), h2⟩

theorem legal_std (cv : E → Int → Int) {k : K} (c : C k) : ∀ lp br sw, c.InType cv →
    (c.Legal (D cv) lp br sw ↔ c.Legal Different lp br sw) := by
  induction c with
  | block b ih => exact fun _ _ _ h => ih _ _ _ h
  | ifs e t ih => exact fun _ _ _ h => ih _ _ _ h
  | ife e t f iht ihf =>
    intro lp br sw h
    simp only [C.Legal]
    rw [iht _ _ _ h.1, ihf _ _ _ h.2]
  | switch e b ih =>
    intro lp br sw h
    simp only [C.Legal]
    rw [ih _ _ _ h.2]
    refine and_congr Iff.rfl (pairwise_congr ?_)
    intro x hx y hy
    cases x with
    | none => cases y <;> simp [D, Distinct, Different]
    | some x => cases y <;> simp [D, Distinct, Different, h.1 x hx]
  | «while» e b ih => exact fun _ _ _ h => ih _ _ _ h
  | doWhile b e ih => exact fun _ _ _ h => ih _ _ _ h
  | «for» i c p b ih => exact fun _ _ _ h => ih _ _ _ h
  | case v s ih => exact fun _ _ _ h => and_congr Iff.rfl (ih _ _ _ h)
  | default s ih => exact fun _ _ _ h => and_congr Iff.rfl (ih _ _ _ h)
  | label n s ih => exact fun _ _ _ h => ih _ _ _ h
  | dcl n r ih => exact fun _ _ _ h => ih _ _ _ h
  | cons s r ihs ihr =>
    intro lp br sw h
    simp only [C.Legal]
    rw [ihs _ _ _ h.1, ihr _ _ _ h.2]
  | _ => exact fun _ _ _ _ => Iff.rfl

/-- **The parser accepts the bodies of C and nothing else**, when no body is missing and the labels of every
`switch` have values of the type of its expression: then "distinct" is what C says. Both provisos are needed:
see `missing_body_accepted`, `converted_duplicate_accepted` and `different_labels_refused`. -/
theorem accept_iff_partial (cv : E → Int → Int) (c : C .items) (hf : c.Full) (ht : c.InType cv) (rest : List Tok) :
    (∃ s st, parseBody cv (c.text ++ rest) = .ok (s, st, rest) ∧ s.shape = c) ↔ BodyOk Different c := by
  constructor
  · rintro ⟨s, st, hp, hs⟩
    obtain ⟨_, h2, _, h4, h5⟩ := body_sound_partial cv _ _ _ _ hp
    rw [hs] at h2 h4 h5
    exact ⟨hf, (legal_std cv c _ _ _ ht).1 h2, h4, h5⟩
  · intro h
    exact body_complete cv c ⟨h.full, (legal_std cv c _ _ _ ht).2 h.legal, h.labels, h.gotos⟩ rest

/-- The labels of an accepted `switch` are all different and there is one `default`, when they have values of
its type. -/
theorem labels_different_partial (cv : E → Int → Int) (ts rest : List Tok) (s : S .items) (st : St)
    (h : parseBody cv ts = .ok (s, st, rest)) (ht : s.shape.InType cv) : s.shape.Legal Different false false false :=
  (legal_std cv _ _ _ _ ht).1 (body_inv h).1.legal

/-! ## A body with everything in it -/

/-- `int i; for (d; e; ) { if (x) if (y) break; else continue; switch (z) { case 1: do continue; while (w);
case 2: switch (z) { case 1: break; } default: goto l; } } l: return 0; }` -/
def sample : C .items :=
  .dcl 0 (.cons (.for (.decl 1) (some (.other 0)) none (.block
    (.cons (.ifs (.var 1) (.ife (.var 2) .brk .cont))
    (.cons (.switch (.var 3) (.block
      (.cons (.case 1 (.doWhile .cont (.other 4)))
      (.cons (.case 2 (.switch (.var 3) (.block (.cons (.case 1 .brk) .nil))))
      (.cons (.default (.goto 7)) .nil))))) .nil))))
  (.cons (.label 7 (.ret (some (.num 0)))) .nil))

theorem sample_ok : BodyOk Different sample where
  full := by simp [sample, C.Full]
  legal := by simp [sample, C.Legal, C.own, Different, C.openIf]
  labels := by simp [sample, C.labels]
  gotos := by simp [sample, C.labels, C.gotos]

example : sample.InType (fun _ v => v) := by simp [sample, C.InType]

example : ∃ s st, parseBody (fun _ v => v) (sample.text ++ [.decl 9]) = .ok (s, st, [.decl 9]) ∧ s.shape = sample :=
  (accept_iff_partial (fun _ v => v) sample sample_ok.full (by simp [sample, C.InType]) [.decl 9]).2 sample_ok

example : BodyOk (D fun _ v => v) sample :=
  ⟨sample_ok.full, (legal_std _ sample _ _ _ (by simp [sample, C.InType])).2 sample_ok.legal, sample_ok.labels, sample_ok.gotos⟩

/-- The tree of the parser: `break` of the inner `if` belongs to the `for` (0), the `continue` of `do` to the
`do` (2), the label of the inner `switch` (3) to it. -/
example : parseBody (fun _ v => v) sample.text = .ok
    (.dcl 0 (.cons (.for 0 (.decl 1) (some (.other 0)) none (.block
      (.cons (.ifs (.var 1) (.ife (.var 2) (.brk 0) (.cont 0)))
      (.cons (.switch 1 (.var 3) (.block
        (.cons (.case 1 1 1 (.doWhile 2 (.cont 2) (.other 4)))
        (.cons (.case 1 2 2 (.switch 3 (.var 3) (.block (.cons (.case 3 1 1 (.brk 3)) .nil))))
        (.cons (.default 1 (.goto 7)) .nil))))) .nil))))
    (.cons (.label 7 (.ret (some (.num 0)))) .nil)),
    ⟨4, {}, [(1, some 1), (1, some 2), (3, some 1), (1, none)], [7], [7]⟩, []) := by rfl

/-- `if (x) if (y) ; else ;` is read with the `else` at the inner `if`. -/
example : ∃ st, parseBody (fun _ v => v) [.kif, .lpar, .ident 0, .rpar, .kif, .lpar, .ident 0, .rpar, .semi, .kelse, .semi, .rbrace] =
    .ok (.cons (.ifs (.var 0) (.ife (.var 0) .empty .empty)) .nil, st, []) := ⟨{}, rfl⟩

/-! ## Where the parser departs from C -/

/-- **A body may be missing**: `while (1) }` is accepted, although it is not the text of a body of C. -/
theorem missing_body_accepted (cv : E → Int → Int) :
    parseBody cv [.kwhile, .lpar, .num 1, .rpar, .rbrace] = .ok (.cons (.while 0 (.num 1) .missing) .nil, { next := 1 }, []) ∧
      ¬ ∃ c rest, BodyOk (D cv) c ∧ c.text ++ rest = [.kwhile, .lpar, .num 1, .rpar, .rbrace] := by
  refine ⟨rfl, ?_⟩
  rintro ⟨c, rest, h, ht⟩
  obtain ⟨s, st, hp, hs⟩ := body_complete cv c h rest
  rw [ht] at hp
  have h1 : parseBody cv [.kwhile, .lpar, .num 1, .rpar, .rbrace] = .ok (.cons (.while 0 (.num 1) .missing) .nil, { next := 1 }, []) := rfl
  rw [h1] at hp
  cases hp
  have := h.full
  rw [← hs] at this
  exact this.1

/-- Conversion to `signed char`. -/
def toChar (v : Int) : Int := (v + 128) % 256 - 128

/-- **Labels that become equal are accepted**: `switch (c) { case 0: ; case 256: ; }` with `char c` gives the
`switch` the label 0 twice. (In C the value is promoted to `int`, and 256 is never met.) -/
theorem converted_duplicate_accepted :
    ∃ s st, parseBody (fun _ => toChar) [.kswitch, .lpar, .ident 0, .rpar, .lbrace, .kcase, .num 0, .colon, .semi,
      .kcase, .num 256, .colon, .semi, .rbrace, .rbrace] = .ok (s, st, []) ∧ casesOf st.cases 0 = [some 0, some 0] :=
  ⟨_, _, rfl, rfl⟩

/-- **Different labels are refused** in the other order: `case 256: ; case 0: ;`. -/
theorem different_labels_refused :
    parseBody (fun _ => toChar) [.kswitch, .lpar, .ident 0, .rpar, .lbrace, .kcase, .num 256, .colon, .semi,
      .kcase, .num 0, .colon, .semi, .rbrace, .rbrace] = .err ∧
    BodyOk Different (.cons (.switch (.var 0) (.block (.cons (.case 256 .empty) (.cons (.case 0 .empty) .nil)))) .nil) :=
  ⟨rfl, ⟨by simp [C.Full], by simp [C.Legal, C.own, Different], by simp [C.labels], by simp [C.gotos]⟩⟩

end Verif.StmtParse

/-!
# C77: expressions are grouped the way C's grammar prescribes

`src/cc/frontend/parser_expr.c` reads expressions with an operator-precedence ("Pratt") parser:
`parse_precedence` (:237-259), the prefix and infix routines it dispatches to (:261-740) and the
table `get_rule` (:742-813).  The C standard defines which operand belongs to which operator by a
stratified grammar (C11 6.5.1-6.5.17), that never mentions precedences.

The theorem: on *every* token list, the parser returns the tree `t` with `rest` left over exactly when
the grammar derives the consumed tokens as `t` at the level asked for and the next token cannot continue
the expression (`parse_iff`).  Unambiguity of the grammar is a corollary (`grammar_unambiguous`).

Simplifications, all of them about what a token is:
* a literal (number or string) is one token `lit`, an identifier that names no type one token `id`, a type name with its
  abstract declarator one token `ty` (`parse_var_def(NULL, ..)` :112-127, its text is read by `parser_type.c`),
  a brace-enclosed initializer or block one token `braced` (`parse_initializer`, `parse_block`);
* the tree is what the semantic actions are applied to, in the grouping in which they are applied: type
  checking, conversions and folding (`ElabCorrect.lean`, `Fold.lean`) happen in the actions;
* every diagnostic of the parser (`parse_error(PE_NOFATAL, ..)` carries on but the compilation fails in the end) is `none`.
-/

namespace Verif.ExprParse

/-- Binary operators (token kinds of `binary`, parser_expr.c:436-481, `TK_COMMA` included). -/
inductive Op
  | mul | div | mod | add | sub | shl | shr | lt | le | ge | gt | eq | ne | band | bxor | bor | land | lor | comma
deriving DecidableEq, Repr

/-- Compound assignment operators: `TK_ASSIGN` is `none` (parser_expr.c:783-793). -/
inductive AOp | add | sub | mul | div | mod | band | bor | bxor | shl | shr
deriving DecidableEq, Repr

/-- Prefix operators handled by `unary` (parser_expr.c:341-425) besides `++` and `--`. -/
inductive UOp | pos | neg | not | bitnot | deref | ref
deriving DecidableEq, Repr

/-- Tokens (lexer.h `TokenKind`), simplified as described above. -/
inductive Tok
  | lit (n : Nat) | id (n : Nat) | ty (n : Nat) | braced (n : Nat)
  | lpar | rpar | lbr | rbr | dot | arrow | inc | dec
  | bin (o : Op) | quest | colon | asg (o : Option AOp) | not | tilda
  | sizeof | alignof | generic | default | semi
deriving DecidableEq, Repr

/-- Trees: which operator is applied to which operands. -/
inductive T
  | lit (n : Nat) | var (n : Nat)
  | un (o : UOp) (t : T)
  | preinc (t : T) | predec (t : T) | postinc (t : T) | postdec (t : T)
  | bin (o : Op) (a b : T)
  | cond (c a b : T)
  | asg (o : Option AOp) (l r : T)
  | mem (t : T) (m : Nat) | pmem (t : T) (m : Nat)
  | idx (a i : T)
  | call (f : T) (as : List T)
  | cast (y : Nat) (t : T)
  | complit (y : Nat) (b : Nat)
  | block (b : Nat)
  | sizeofT (y : Nat) | sizeofE (t : T) | alignofT (y : Nat) | alignofE (t : T)
  | generic (t : T) (as : List (Option Nat × T))

/-! ## The parser -/

/-- `Precedence` (parser_expr.c:208-224) of the infix role of a binary operator token, from `get_rule`
(:752-779, :795): COMMA 1, ASSIGN 2, TERNARY 3, LOGIOR 4, LOGAND 5, BITOR 6, BITXOR 7, BITAND 8, EQ 9,
CMP 10, SHIFT 11, TERM 12, FACTOR 13, POSTFIX 14. -/
def bprec : Op → Nat
  | .mul | .div | .mod => 13
  | .add | .sub => 12
  | .shl | .shr => 11
  | .lt | .le | .ge | .gt => 10
  | .eq | .ne => 9
  | .band => 8
  | .bxor => 7
  | .bor => 6
  | .land => 5
  | .lor => 4
  | .comma => 1

/-- `get_rule(kind)->precedence` (parser_expr.c:742-813); tokens without infix role have `PREC_NONE` = 0. -/
def tprec : Tok → Nat
  | .lpar | .inc | .dec | .dot | .arrow | .lbr => 14
  | .bin o => bprec o
  | .quest => 3
  | .asg _ => 2
  | _ => 0

/-- The precedence of the token `fetch_token` shows (parser_expr.c:248-251); the end of input is `TK_EOF`. -/
def rp : List Tok → Nat
  | [] => 0
  | k :: _ => tprec k

/-- `consume(kind, ..)` (parser.c / lexer.c): the next token must be `k`. -/
def expect (k : Tok) : List Tok → Option (List Tok)
  | [] => none
  | x :: ts => if x = k then some ts else none

mutual
/-- `parse_precedence(p)` (parser_expr.c:237-259).  `n` bounds the depth of recursion; `parse` below shows
that a bound proportional to the number of tokens is never reached. -/
def prec : Nat → Nat → List Tok → Option (T × List Tok)
  | 0, _, _ => none
  | _ + 1, _, [] => none
  | n + 1, p, k :: ts => (pre n k ts).bind fun r => loop n p r.1 r.2

/-- `prefixRule(previous)` (parser_expr.c:239-246): `literal` :261, `variable` :320, `unary` :341, `lparen` :605,
`size_align_of` :685, `generic` :737. -/
def pre : Nat → Tok → List Tok → Option (T × List Tok)
  | 0, _, _ => none
  | _ + 1, .lit v, ts => some (.lit v, ts)
  | _ + 1, .id v, ts => some (.var v, ts)
  | n + 1, .lpar, ts => lparen n ts
  | n + 1, .inc, ts => (prec n 14 ts).map fun r => (.preinc r.1, r.2)
  | n + 1, .dec, ts => (prec n 14 ts).map fun r => (.predec r.1, r.2)
  | n + 1, .bin .mul, ts => (prec n 14 ts).map fun r => (.un .deref r.1, r.2)
  | n + 1, .bin .add, ts => (prec n 14 ts).map fun r => (.un .pos r.1, r.2)
  | n + 1, .bin .sub, ts => (prec n 14 ts).map fun r => (.un .neg r.1, r.2)
  | n + 1, .bin .band, ts => (prec n 14 ts).map fun r => (.un .ref r.1, r.2)
  | n + 1, .not, ts => (prec n 14 ts).map fun r => (.un .not r.1, r.2)
  | n + 1, .tilda, ts => (prec n 14 ts).map fun r => (.un .bitnot r.1, r.2)
  | n + 1, .sizeof, ts => sizeAlign n .sizeofT .sizeofE ts
  | n + 1, .alignof, ts => sizeAlign n .alignofT .alignofE ts
  | n + 1, .generic, ts => generic n ts
  | _ + 1, _, _ => none

/-- `lparen` (parser_expr.c:605-650): statement expression, compound literal, cast or `grouping` (:599-603). -/
def lparen : Nat → List Tok → Option (T × List Tok)
  | 0, _ => none
  | n + 1, .ty y :: ts =>
    (expect .rpar ts).bind fun ts =>
      match ts with
      | .braced b :: ts => some (.complit y b, ts)
      | ts => (prec n 14 ts).map fun r => (.cast y r.1, r.2)
  | _ + 1, .braced b :: ts => (expect .rpar ts).map fun ts => (.block b, ts)
  | n + 1, ts => (prec n 1 ts).bind fun r => (expect .rpar r.2).map fun ts => (r.1, ts)

/-- `size_align_of` (parser_expr.c:685-735): a parenthesised type name ends the operand; otherwise the `(` is put back. -/
def sizeAlign : Nat → (Nat → T) → (T → T) → List Tok → Option (T × List Tok)
  | 0, _, _, _ => none
  | _ + 1, ft, _, .lpar :: .ty y :: ts => (expect .rpar ts).map fun ts => (ft y, ts)
  | n + 1, _, fe, ts => (prec n 14 ts).map fun r => (fe r.1, r.2)

/-- `parse_generic` (parser_expr.c:152-204), its tree keeps all associations (the choice is by type). -/
def generic : Nat → List Tok → Option (T × List Tok)
  | 0, _ => none
  | n + 1, ts =>
    (expect .lpar ts).bind fun ts => (prec n 2 ts).bind fun r => (expect (.bin .comma) r.2).bind fun ts =>
      (assocs n ts).map fun q => (.generic r.1 q.1, q.2)

/-- The `do .. while (match(TK_COMMA))` of `parse_generic` and the closing parenthesis (parser_expr.c:160-189). -/
def assocs : Nat → List Tok → Option (List (Option Nat × T) × List Tok)
  | 0, _ => none
  | n + 1, .default :: ts => (expect .colon ts).bind fun ts => (prec n 2 ts).bind fun r => assocsTl n none r.1 r.2
  | n + 1, .ty y :: ts => (expect .colon ts).bind fun ts => (prec n 2 ts).bind fun r => assocsTl n (some y) r.1 r.2
  | _ + 1, _ => none

/-- After one association: another one or the end. -/
def assocsTl : Nat → Option Nat → T → List Tok → Option (List (Option Nat × T) × List Tok)
  | 0, _, _, _ => none
  | n + 1, y, t, .bin .comma :: ts => (assocs n ts).map fun q => ((y, t) :: q.1, q.2)
  | _ + 1, y, t, .rpar :: ts => some ([(y, t)], ts)
  | _ + 1, _, _, _ => none

/-- The `for (;;)` of `parse_precedence` (parser_expr.c:248-257). -/
def loop : Nat → Nat → T → List Tok → Option (T × List Tok)
  | 0, _, _, _ => none
  | n + 1, p, t, ts =>
    if rp ts < p then some (t, ts)
    else match ts with
      | [] => none
      | k :: ts => (inf n t k ts).bind fun r => loop n p r.1 r.2

/-- `infixRule(expr, match(-1))`: `binary` :427 (right operand one precedence higher), `ternary` :486 (`parse_expr` in the middle,
own precedence at the right), `assign` :522 (own precedence at the right), `postfix` :562, `array_index` :575, `funcall` :652. -/
def inf : Nat → T → Tok → List Tok → Option (T × List Tok)
  | 0, _, _, _ => none
  | n + 1, t, .lpar, ts => (args n ts).map fun r => (.call t r.1, r.2)
  | _ + 1, t, .inc, ts => some (.postinc t, ts)
  | _ + 1, t, .dec, ts => some (.postdec t, ts)
  | _ + 1, t, .dot, .id m :: ts => some (.mem t m, ts)
  | _ + 1, t, .arrow, .id m :: ts => some (.pmem t m, ts)
  | n + 1, t, .lbr, ts => (prec n 1 ts).bind fun r => (expect .rbr r.2).map fun ts => (.idx t r.1, ts)
  | n + 1, t, .bin o, ts => (prec n (bprec o + 1) ts).map fun r => (.bin o t r.1, r.2)
  | n + 1, t, .quest, ts =>
    (prec n 1 ts).bind fun r => (expect .colon r.2).bind fun ts => (prec n 3 ts).map fun q => (.cond t r.1 q.1, q.2)
  | n + 1, t, .asg o, ts => (prec n 2 ts).map fun r => (.asg o t r.1, r.2)
  | _ + 1, _, _, _ => none

/-- `parse_args` (parser_expr.c:25-41), after the opening parenthesis. -/
def args : Nat → List Tok → Option (List T × List Tok)
  | 0, _ => none
  | _ + 1, .rpar :: ts => some ([], ts)
  | n + 1, ts => argsL n ts

/-- One argument and the `,` or `)` after it (parser_expr.c:29-36). -/
def argsL : Nat → List Tok → Option (List T × List Tok)
  | 0, _ => none
  | n + 1, ts => (prec n 2 ts).bind fun r => argsTl n r.1 r.2

/-- After one argument. -/
def argsTl : Nat → T → List Tok → Option (List T × List Tok)
  | 0, _, _ => none
  | _ + 1, t, .rpar :: ts => some ([t], ts)
  | n + 1, t, .bin .comma :: ts => (argsL n ts).map fun r => (t :: r.1, r.2)
  | _ + 1, _, _ => none
end

/-- `parse_precedence(p)` with a recursion bound that is never reached (`parse_iff`). -/
def parse (p : Nat) (ts : List Tok) : Option (T × List Tok) := prec (6 * ts.length) p ts

/-- `parse_expr` (parser_expr.c:815-818). -/
def parseExpr (ts : List Tok) : Option (T × List Tok) := parse 1 ts
/-- `parse_assign` (parser_expr.c:820-823). -/
def parseAssign (ts : List Tok) : Option (T × List Tok) := parse 2 ts
/-- The syntax `parse_const_fixnum` accepts (parser_expr.c:825-827). -/
def parseConst (ts : List Tok) : Option (T × List Tok) := parse 4 ts

/-! ## The specification: the grammar of C11 6.5

Nonterminals: 1 expression, 2 assignment-expression, 3 conditional-expression, 4 logical-OR-, 5 logical-AND-,
6 inclusive-OR-, 7 exclusive-OR-, 8 AND-, 9 equality-, 10 relational-, 11 shift-, 12 additive-,
13 multiplicative-, 14 cast-, 15 unary-, 16 postfix-, 17 primary-expression. -/

/-- C11 6.5.5-6.5.14: the nonterminal at which a binary operator is introduced. -/
def level : Op → Nat
  | .mul | .div | .mod => 13 | .add | .sub => 12 | .shl | .shr => 11
  | .lt | .gt | .le | .ge => 10 | .eq | .ne => 9 | .band => 8 | .bxor => 7 | .bor => 6
  | .land => 5 | .lor => 4 | .comma => 1

/-- C11 6.5.3: spelling of the unary operators. -/
def utok : UOp → Tok
  | .ref => .bin .band | .deref => .bin .mul | .pos => .bin .add | .neg => .bin .sub
  | .bitnot => .tilda | .not => .not

/-- Comma-separated list. -/
def commas : List (List Tok) → List Tok
  | [] => []
  | [a] => a
  | a :: as => a ++ .bin .comma :: commas as

/-- C11 6.5.1.1: generic-association. -/
def assocToks : Option Nat × List Tok → List Tok
  | (some y, ts) => .ty y :: .colon :: ts
  | (none, ts) => .default :: .colon :: ts

/-- Does the token list begin with a parenthesised type name? -/
def startsTy : List Tok → Bool
  | .lpar :: .ty _ :: _ => true
  | _ => false

/-- The grammar.  With `x = false, c = true` it is C11 6.5 (over these tokens).  `x` adds what xcc accepts
besides: a statement expression (GNU), `alignof` of an expression (GNU), `++`/`--` before a cast and an assignment whose left side is
a conditional-expression (both are refused later for not being lvalues), and `sizeof(type)` as a primary expression (`sizeof(int)[p]`).  `c = false` takes away
`sizeof` of an expression that begins with a compound literal. -/
inductive G (x c : Bool) : Nat → List Tok → T → Prop
  | up {k ts t} : 1 ≤ k → k ≤ 16 → G x c (k + 1) ts t → G x c k ts t
  -- 6.5.1
  | lit (n) : G x c 17 [.lit n] (.lit n)
  | id (n) : G x c 17 [.id n] (.var n)
  | paren {ts t} : G x c 1 ts t → G x c 17 (.lpar :: ts ++ [.rpar]) t
  | generic {ts t} {as : List (Option Nat × List Tok × T)} : G x c 2 ts t → as ≠ [] →
      (∀ a ∈ as, G x c 2 a.2.1 a.2.2) →
      G x c 17 (.generic :: .lpar :: ts ++ .bin .comma :: commas (as.map fun a => assocToks (a.1, a.2.1)) ++ [.rpar])
        (.generic t (as.map fun a => (a.1, a.2.2)))
  | block (b) : x = true → G x c 17 [.lpar, .braced b, .rpar] (.block b)
  -- 6.5.2
  | idx {a i s t} : G x c 16 a s → G x c 1 i t → G x c 16 (a ++ .lbr :: i ++ [.rbr]) (.idx s t)
  | call {f t} {as : List (List Tok × T)} : G x c 16 f t → (∀ a ∈ as, G x c 2 a.1 a.2) →
      G x c 16 (f ++ .lpar :: commas (as.map (·.1)) ++ [.rpar]) (.call t (as.map (·.2)))
  | mem {a t} (m) : G x c 16 a t → G x c 16 (a ++ [.dot, .id m]) (.mem t m)
  | pmem {a t} (m) : G x c 16 a t → G x c 16 (a ++ [.arrow, .id m]) (.pmem t m)
  | postinc {a t} : G x c 16 a t → G x c 16 (a ++ [.inc]) (.postinc t)
  | postdec {a t} : G x c 16 a t → G x c 16 (a ++ [.dec]) (.postdec t)
  | complit (y b) : G x c 16 [.lpar, .ty y, .rpar, .braced b] (.complit y b)
  -- 6.5.3
  | preinc {a t} : G x c (if x then 14 else 15) a t → G x c 15 (.inc :: a) (.preinc t)
  | predec {a t} : G x c (if x then 14 else 15) a t → G x c 15 (.dec :: a) (.predec t)
  | un {a t} (o) : G x c 14 a t → G x c 15 (utok o :: a) (.un o t)
  | sizeofE {a t} : G x c 15 a t → (c = true ∨ startsTy a = false) → G x c 15 (.sizeof :: a) (.sizeofE t)
  | sizeofT (y) : G x c (if x then 17 else 15) [.sizeof, .lpar, .ty y, .rpar] (.sizeofT y)
  | alignofT (y) : G x c (if x then 17 else 15) [.alignof, .lpar, .ty y, .rpar] (.alignofT y)
  | alignofE {a t} : x = true → G x c 15 a t → (c = true ∨ startsTy a = false) → G x c 15 (.alignof :: a) (.alignofE t)
  -- 6.5.4
  | cast {a t} (y) : G x c 14 a t → G x c 14 (.lpar :: .ty y :: .rpar :: a) (.cast y t)
  -- 6.5.5 - 6.5.14 and 6.5.17
  | bin {a b s t} (o) : G x c (level o) a s → G x c (level o + 1) b t → G x c (level o) (a ++ .bin o :: b) (.bin o s t)
  -- 6.5.15
  | cond {a b d s t u} : G x c 4 a s → G x c 1 b t → G x c 3 d u → G x c 3 (a ++ .quest :: b ++ .colon :: d) (.cond s t u)
  -- 6.5.16
  | asg {a b s t} (o) : G x c (if x then 3 else 15) a s → G x c 2 b t → G x c 2 (a ++ .asg o :: b) (.asg o s t)

/-! ## Helper lemmas -/

/-- Highest precedence of a token that may follow a derivation at level `k` without being swallowed by its last operand. -/
def lim (k : Nat) : Nat := if 16 ≤ k then 14 else if 14 ≤ k then 13 else if 4 ≤ k then k else if k = 3 then 2 else 1

theorem tprec_le (k : Tok) : tprec k ≤ 14 := by
  cases k <;> simp [tprec]
  rename_i o; cases o <;> simp [bprec]

theorem rp_le (ts : List Tok) : rp ts ≤ 14 := by
  cases ts with
  | nil => simp [rp]
  | cons k ts => exact tprec_le k

theorem lim_mono {k} (h1 : 1 ≤ k) (h : k ≤ 16) : lim k ≤ lim (k + 1) := by
  unfold lim; repeat' split
  all_goals omega

theorem level_eq (o : Op) : level o = bprec o := by cases o <;> rfl

theorem lim_level (o : Op) : lim (level o) = level o := by cases o <;> rfl
theorem lim_level1 (o : Op) : level o ≤ lim (level o + 1) := by cases o <;> decide
theorem level_le (o : Op) : level o ≤ 13 := by cases o <;> decide
theorem level_pos (o : Op) : 1 ≤ level o := by cases o <;> decide

/-- First tokens of expressions. -/
def starts : List Tok → Prop
  | [] => False
  | .ty _ :: _ => False
  | .braced _ :: _ => False
  | .rpar :: _ => False
  | _ => True

theorem starts_append {a b : List Tok} (h : starts a) : starts (a ++ b) := by
  cases a with
  | nil => exact h.elim
  | cons k a => cases k <;> simp_all [starts]

theorem starts_of {x c k ts t} (h : G x c k ts t) : starts ts := by
  induction h with
  | un o _ _ => cases o <;> trivial
  | idx _ _ ih _ => simpa using starts_append ih
  | call _ _ ih _ => simpa using starts_append ih
  | mem _ _ ih | pmem _ _ ih | postinc _ ih | postdec _ ih | bin _ _ _ ih _ | asg _ _ _ ih _ => exact starts_append ih
  | cond _ _ _ ih _ _ => simpa using starts_append ih
  | up _ _ _ ih => exact ih
  | _ => trivial

theorem ne_nil_of {x c k ts t} (h : G x c k ts t) : ts ≠ [] := by
  intro e; subst e; exact starts_of h

/-! ### Every derivation is found -/

/-- `prec` returns `r` with any sufficient bound. -/
def P (p : Nat) (ts : List Tok) (r : T × List Tok) : Prop := ∀ m, 6 * ts.length ≤ m → prec m p ts = some r
/-- `loop` returns `r` with any sufficient bound. -/
def L (p : Nat) (t : T) (ts : List Tok) (r : T × List Tok) : Prop := ∀ m, 6 * ts.length + 4 ≤ m → loop m p t ts = some r

theorem L_stop {p t ts} (h : rp ts < p) : L p t ts (t, ts) := by
  intro m hm
  obtain ⟨m, rfl⟩ : ∃ k, m = k + 1 := ⟨m - 1, by omega⟩
  simp [loop, h]

theorem P_of {p k ts r t ts'} (hl : ts'.length ≤ ts.length)
    (h : ∀ m, 6 * ts.length + 5 ≤ m → pre m k ts = some (t, ts')) (hL : L p t ts' r) : P p (k :: ts) r := by
  intro m hm
  rw [List.length_cons] at hm
  obtain ⟨m, rfl⟩ : ∃ k, m = k + 1 := ⟨m - 1, by omega⟩
  rw [prec, h m (by omega), Option.bind_some]
  exact hL m (by omega)

theorem L_of {p k ts r s t ts'} (hp : p ≤ tprec k) (hl : ts'.length ≤ ts.length)
    (h : ∀ m, 6 * ts.length + 9 ≤ m → inf m s k ts = some (t, ts')) (hL : L p t ts' r) : L p s (k :: ts) r := by
  intro m hm
  rw [List.length_cons] at hm
  obtain ⟨m, rfl⟩ : ∃ k, m = k + 1 := ⟨m - 1, by omega⟩
  rw [loop, if_neg (show ¬ rp (k :: ts) < p by simp [rp]; omega)]
  rw [h m (by omega), Option.bind_some]
  exact hL m (by omega)

/-- The induction hypothesis of completeness. -/
def Found (k : Nat) (ts : List Tok) (t : T) : Prop :=
  ∀ p rest r, 1 ≤ p → p ≤ k → p ≤ 14 → rp rest ≤ lim k → L p t rest r → P p (ts ++ rest) r

/-- `Found` closed off by a token that stops the loop. -/
theorem Found.stop {k ts t} (h : Found k ts t) {p rest} (h1 : 1 ≤ p) (h2 : p ≤ k) (h3 : p ≤ 14)
    (h4 : rp rest ≤ lim k) (h5 : rp rest < p) : P p (ts ++ rest) (t, rest) :=
  h p rest _ h1 h2 h3 h4 (L_stop h5)

theorem args_found : ∀ (as : List (List Tok × T)), as ≠ [] → (∀ a ∈ as, Found 2 a.1 a.2) → ∀ rest m,
    6 * (commas (as.map (·.1)) ++ .rpar :: rest).length + 1 ≤ m →
    argsL m (commas (as.map (·.1)) ++ .rpar :: rest) = some (as.map (·.2), rest)
  | [], h, _, _, _, _ => absurd rfl h
  | [a], _, hf, rest, m, hm => by
    obtain ⟨m, rfl⟩ : ∃ k, m = k + 2 := ⟨m - 2, by simp at hm; omega⟩
    have := (hf a (by simp)).stop (p := 2) (rest := .rpar :: rest) (by omega) (by omega) (by omega) (by simp [rp, tprec]) (by simp [rp, tprec])
    simp only [List.map_cons, List.map_nil, commas] at hm ⊢
    rw [argsL, this (m + 1) (by omega), Option.bind_some]
    simp [argsTl]
  | a :: b :: as, _, hf, rest, m, hm => by
    obtain ⟨m, rfl⟩ : ∃ k, m = k + 2 := ⟨m - 2, by simp at hm; omega⟩
    have ih := args_found (b :: as) (by simp) (fun q hq => hf q (by simp_all)) rest
    have := (hf a (by simp)).stop (p := 2) (rest := .bin .comma :: (commas ((b :: as).map (·.1)) ++ .rpar :: rest))
      (by omega) (by omega) (by omega) (by simp [rp, tprec, bprec, lim]) (by simp [rp, tprec, bprec])
    simp only [List.map_cons, commas, List.append_assoc, List.cons_append] at hm ⊢ this ih
    rw [argsL, this (m + 1) (by omega), Option.bind_some]
    simp only [argsTl]
    rw [ih m (by simp at hm ⊢; omega)]
    rfl

theorem assocToks_some (y ts) : assocToks (some y, ts) = .ty y :: .colon :: ts := rfl
theorem assocToks_none (ts) : assocToks (none, ts) = .default :: .colon :: ts := rfl

theorem assocs_found : ∀ (as : List (Option Nat × List Tok × T)), as ≠ [] → (∀ a ∈ as, Found 2 a.2.1 a.2.2) → ∀ rest m,
    6 * (commas (as.map fun a => assocToks (a.1, a.2.1)) ++ .rpar :: rest).length + 1 ≤ m →
    assocs m (commas (as.map fun a => assocToks (a.1, a.2.1)) ++ .rpar :: rest) = some (as.map fun a => (a.1, a.2.2), rest)
  | [], h, _, _, _, _ => absurd rfl h
  | [a], _, hf, rest, m, hm => by
    obtain ⟨m, rfl⟩ : ∃ k, m = k + 2 := ⟨m - 2, by simp at hm; omega⟩
    have := (hf a (by simp)).stop (p := 2) (rest := .rpar :: rest) (by omega) (by omega) (by omega) (by simp [rp, tprec]) (by simp [rp, tprec])
    obtain ⟨y, ts, t⟩ := a
    cases y <;> simp only [List.map_cons, List.map_nil, commas, assocToks, List.cons_append] at hm ⊢ this <;> simp only [assocs, expect, ↓reduceIte, Option.bind_some] <;>
      rw [this (m + 1) (by simp at hm ⊢; omega), Option.bind_some] <;> simp [assocsTl]
  | a :: b :: as, _, hf, rest, m, hm => by
    obtain ⟨m, rfl⟩ : ∃ k, m = k + 2 := ⟨m - 2, by simp at hm; omega⟩
    have ih := assocs_found (b :: as) (by simp) (fun q hq => hf q (by simp_all)) rest
    have := (hf a (by simp)).stop (p := 2)
      (rest := .bin .comma :: (commas ((b :: as).map fun a => assocToks (a.1, a.2.1)) ++ .rpar :: rest))
      (by omega) (by omega) (by omega) (by simp [rp, tprec, bprec, lim]) (by simp [rp, tprec, bprec])
    obtain ⟨y, ts, t⟩ := a
    simp only [List.map_cons, commas, List.append_assoc, List.cons_append] at hm ⊢ this ih
    cases y <;> simp only [assocToks_none, assocToks_some, List.cons_append] at hm ⊢
    all_goals
      have i2 := ih m (by simp at hm ⊢; omega)
      simp only [assocs, expect, ↓reduceIte, Option.bind_some]
      rw [this (m + 1) (by simp at hm ⊢; omega), Option.bind_some]
      simp only [assocsTl]
      rw [i2]
      rfl

theorem sizeAlign_expr {n ft fe ts} (h : startsTy ts = false) :
    sizeAlign (n + 1) ft fe ts = (prec n 14 ts).map fun r => (fe r.1, r.2) := by
  rw [sizeAlign]
  intro y q e
  rw [e] at h
  simp [startsTy] at h

theorem not_lpar {x c k ts t} (h : G x c k ts t) : ts ≠ [.lpar] := by
  induction h with
  | up _ _ _ ih => exact ih
  | un o _ _ => cases o <;> simp [utok]
  | idx hg _ _ _ | call hg _ _ _ | mem _ hg _ | pmem _ hg _ | postinc hg _ | postdec hg _ | bin _ hg _ _ _ | asg _ hg _ _ _ | cond hg _ _ _ _ _ =>
    intro e
    have := ne_nil_of hg
    have hl := congrArg List.length e
    have h0 := List.length_pos_iff.mpr this
    simp only [List.length_append, List.length_cons, List.length_nil] at hl
    omega
  | _ => simp

/-- An expression that does not begin with `( ty` still does not when more tokens follow: a lone `(` is none. -/
theorem startsTy_append {k a b t} (h : startsTy a = false) (hg : G true false k a t) : startsTy (a ++ b) = false := by
  have hs := starts_of hg
  have hn := not_lpar hg
  match a, h, hs, hn with
  | [], _, hs, _ => exact hs.elim
  | [k], _, _, hn => cases k <;> first | rfl | exact absurd rfl hn
  | k :: l :: a, h, _, _ => cases k <;> first | rfl | (cases l <;> first | rfl | exact absurd h (by simp [startsTy]))

theorem found_of {k ts t} (h : G true false k ts t) : Found k ts t := by
  induction h with
  | @up k ts t h1 h2 _ ih =>
    intro p rest r q1 q2 q3 q4 hL
    exact ih p rest r q1 (by omega) q3 (Nat.le_trans q4 (lim_mono h1 h2)) hL
  | lit n =>
    intro p rest r q1 q2 q3 q4 hL
    refine P_of (Nat.le_refl _) (fun m hm => ?_) hL
    obtain ⟨m, rfl⟩ : ∃ k, m = k + 1 := ⟨m - 1, by omega⟩
    rfl
  | id n =>
    intro p rest r q1 q2 q3 q4 hL
    refine P_of (Nat.le_refl _) (fun m hm => ?_) hL
    obtain ⟨m, rfl⟩ : ∃ k, m = k + 1 := ⟨m - 1, by omega⟩
    rfl
  | @paren ts t hg ih =>
    intro p rest r q1 q2 q3 q4 hL
    have h1 := ih.stop (p := 1) (rest := .rpar :: rest) (by omega) (by omega) (by omega) (by simp [rp, tprec]) (by simp [rp, tprec])
    have hs := starts_append (b := .rpar :: rest) (starts_of hg)
    simp only [List.cons_append, List.append_assoc, List.nil_append]
    refine P_of (by simp; omega) (fun m hm => ?_) hL
    obtain ⟨m, rfl⟩ : ∃ k, m = k + 2 := ⟨m - 2, by omega⟩
    rw [pre]
    have : lparen (m + 1) (ts ++ .rpar :: rest) = (prec m 1 (ts ++ .rpar :: rest)).bind fun r => (expect .rpar r.2).map fun ts => (r.1, ts) := by
      rw [lparen]
      · intro y q e; rw [e] at hs; exact hs
      · intro y q e; rw [e] at hs; exact hs
    rw [this, h1 m (by omega)]
    simp [expect]
  | @generic ts t as hg hne ha ih iha =>
    intro p rest r q1 q2 q3 q4 hL
    have h1 := ih.stop (p := 2) (rest := .bin .comma :: (commas (as.map fun a => assocToks (a.1, a.2.1)) ++ .rpar :: rest))
      (by omega) (by omega) (by omega) (by simp [rp, tprec, bprec, lim]) (by simp [rp, tprec, bprec])
    have h2 := assocs_found as hne iha rest
    simp only [List.cons_append, List.append_assoc, List.nil_append] at h1 ⊢
    refine P_of (by simp; omega) (fun m hm => ?_) hL
    obtain ⟨m, rfl⟩ : ∃ k, m = k + 2 := ⟨m - 2, by omega⟩
    rw [pre, generic]
    simp only [expect, ↓reduceIte, Option.bind_some]
    rw [h1 m (by simp at hm ⊢; omega)]
    simp only [Option.bind_some, expect, ↓reduceIte]
    rw [h2 m (by simp at hm ⊢; omega)]
    rfl
  | block b _ =>
    intro p rest r q1 q2 q3 q4 hL
    refine P_of (by simp; omega) (fun m hm => ?_) hL
    obtain ⟨m, rfl⟩ : ∃ k, m = k + 2 := ⟨m - 2, by omega⟩
    simp [pre, lparen, expect]
  | @idx a i s t _ _ ih1 ih2 =>
    intro p rest r q1 q2 q3 q4 hL
    have h1 := ih2.stop (p := 1) (rest := .rbr :: rest) (by omega) (by omega) (by omega) (by simp [rp, tprec]) (by simp [rp, tprec])
    simp only [List.cons_append, List.append_assoc, List.nil_append]
    refine ih1 p _ r q1 q2 q3 (rp_le _) (L_of q3 (by simp; omega) (fun m hm => ?_) hL)
    obtain ⟨m, rfl⟩ : ∃ k, m = k + 1 := ⟨m - 1, by omega⟩
    rw [inf, h1 m (by omega)]
    simp [expect]
  | @call f t as _ _ ih iha =>
    intro p rest r q1 q2 q3 q4 hL
    simp only [List.cons_append, List.append_assoc, List.nil_append]
    refine ih p _ r q1 q2 q3 (rp_le _) (L_of (ts' := rest) q3 (by simp; omega) (fun m hm => ?_) hL)
    obtain ⟨m, rfl⟩ : ∃ k, m = k + 2 := ⟨m - 2, by omega⟩
    rw [inf]
    cases as with
    | nil => simp [commas, args]
    | cons a as =>
      have h2 := args_found (a :: as) (by simp) iha rest
      have : args (m + 1) (commas ((a :: as).map (·.1)) ++ .rpar :: rest) = argsL m (commas ((a :: as).map (·.1)) ++ .rpar :: rest) := by
        rw [args]
        intro q e
        have hs : starts (commas ((a :: as).map (·.1)) ++ .rpar :: rest) := by
          have := starts_of (‹∀ a ∈ _, G true false 2 a.1 a.2› a (by simp))
          cases as with
          | nil => exact starts_append this
          | cons b as => simp only [List.map_cons, commas, List.append_assoc]; exact starts_append this
        rw [e] at hs; exact hs
      rw [this, h2 m (by omega)]
      rfl
  | mem m _ ih | pmem m _ ih =>
    intro p rest r q1 q2 q3 q4 hL
    simp only [List.cons_append, List.append_assoc, List.nil_append]
    refine ih p _ r q1 q2 q3 (rp_le _) (L_of (ts' := rest) q3 (by simp) (fun m hm => ?_) hL)
    obtain ⟨m, rfl⟩ : ∃ k, m = k + 1 := ⟨m - 1, by omega⟩
    rfl
  | postinc _ ih | postdec _ ih =>
    intro p rest r q1 q2 q3 q4 hL
    simp only [List.cons_append, List.append_assoc, List.nil_append]
    refine ih p _ r q1 q2 q3 (rp_le _) (L_of (ts' := rest) q3 (by simp) (fun m hm => ?_) hL)
    obtain ⟨m, rfl⟩ : ∃ k, m = k + 1 := ⟨m - 1, by omega⟩
    rfl
  | complit y b =>
    intro p rest r q1 q2 q3 q4 hL
    refine P_of (by simp; omega) (fun m hm => ?_) hL
    obtain ⟨m, rfl⟩ : ∃ k, m = k + 2 := ⟨m - 2, by omega⟩
    simp [pre, lparen, expect]
  | preinc _ ih | predec _ ih =>
    intro p rest r q1 q2 q3 q4 hL
    have h1 := ih.stop (p := 14) (rest := rest) (by omega) (by simp) (by omega) q4 (by simp [lim] at q4; omega)
    rw [List.cons_append]
    refine P_of (ts' := rest) (by simp) (fun m hm => ?_) hL
    obtain ⟨m, rfl⟩ : ∃ k, m = k + 1 := ⟨m - 1, by omega⟩
    rw [pre, h1 m (by omega)]
    rfl
  | un o _ ih =>
    intro p rest r q1 q2 q3 q4 hL
    have h1 := ih.stop (p := 14) (rest := rest) (by omega) (by simp) (by omega) q4 (by simp [lim] at q4; omega)
    rw [List.cons_append]
    refine P_of (ts' := rest) (by simp) (fun m hm => ?_) hL
    obtain ⟨m, rfl⟩ : ∃ k, m = k + 1 := ⟨m - 1, by omega⟩
    cases o <;> simp only [utok, pre] <;> rw [h1 m (by omega)] <;> rfl
  | @sizeofE a t hg hc ih =>
    intro p rest r q1 q2 q3 q4 hL
    have h1 := ih.stop (p := 14) (rest := rest) (by omega) (by simp) (by omega) q4 (by simp [lim] at q4; omega)
    rw [List.cons_append]
    refine P_of (ts' := rest) (by simp) (fun m hm => ?_) hL
    obtain ⟨m, rfl⟩ : ∃ k, m = k + 2 := ⟨m - 2, by omega⟩
    rw [pre, sizeAlign_expr (startsTy_append (by simpa using hc) hg), h1 m (by omega)]
    rfl
  | sizeofT y | alignofT y =>
    intro p rest r q1 q2 q3 q4 hL
    refine P_of (by simp; omega) (fun m hm => ?_) hL
    obtain ⟨m, rfl⟩ : ∃ k, m = k + 2 := ⟨m - 2, by omega⟩
    simp [pre, sizeAlign, expect]
  | @alignofE a t _ hg hc ih =>
    intro p rest r q1 q2 q3 q4 hL
    have h1 := ih.stop (p := 14) (rest := rest) (by omega) (by simp) (by omega) q4 (by simp [lim] at q4; omega)
    rw [List.cons_append]
    refine P_of (ts' := rest) (by simp) (fun m hm => ?_) hL
    obtain ⟨m, rfl⟩ : ∃ k, m = k + 2 := ⟨m - 2, by omega⟩
    rw [pre, sizeAlign_expr (startsTy_append (by simpa using hc) hg), h1 m (by omega)]
    rfl
  | @cast a t y hg ih =>
    intro p rest r q1 q2 q3 q4 hL
    have h1 := ih.stop (p := 14) (rest := rest) (by omega) (by simp) (by omega) q4 (by simp [lim] at q4; omega)
    have hs := starts_append (b := rest) (starts_of hg)
    simp only [List.cons_append]
    refine P_of (ts' := rest) (by simp; omega) (fun m hm => ?_) hL
    obtain ⟨m, rfl⟩ : ∃ k, m = k + 2 := ⟨m - 2, by omega⟩
    rw [pre, lparen]
    simp only [expect, ↓reduceIte, Option.bind_some]
    split
    · rename_i b q e; rw [e] at hs; exact hs.elim
    · rw [h1 m (by simp at hm; simp; omega)]; rfl
  | @bin a b s t o _ _ ih1 ih2 =>
    intro p rest r q1 q2 q3 q4 hL
    rw [lim_level] at q4
    have hp := level_le o
    have hq := level_pos o
    have h1 := ih2.stop (p := level o + 1) (rest := rest) (by omega) (by omega) (by omega)
      (Nat.le_trans q4 (lim_level1 o)) (by omega)
    simp only [List.cons_append, List.append_assoc]
    refine ih1 p _ r q1 q2 q3 (by rw [lim_level, level_eq]; exact Nat.le_refl _)
      (L_of (ts' := rest) (by rw [level_eq] at q2; exact q2) (by simp) (fun m hm => ?_) hL)
    obtain ⟨m, rfl⟩ : ∃ k, m = k + 1 := ⟨m - 1, by omega⟩
    rw [inf, ← level_eq, h1 m (by omega)]
    rfl
  | @cond a b d s t u _ _ _ ih1 ih2 ih3 =>
    intro p rest r q1 q2 q3 q4 hL
    have h1 := ih2.stop (p := 1) (rest := .colon :: (d ++ rest)) (by omega) (by omega) (by omega) (by simp [rp, tprec]) (by simp [rp, tprec])
    have h2 := ih3.stop (p := 3) (rest := rest) (by omega) (by omega) (by omega) q4 (by simp [lim] at q4; omega)
    simp only [List.cons_append, List.append_assoc]
    refine ih1 p _ r q1 (by omega) q3 (by simp [rp, tprec, lim])
      (L_of (ts' := rest) q2 (by simp; omega) (fun m hm => ?_) hL)
    obtain ⟨m, rfl⟩ : ∃ k, m = k + 1 := ⟨m - 1, by omega⟩
    rw [inf, h1 m (by omega)]
    simp only [Option.bind_some, expect, ↓reduceIte]
    rw [h2 m (by simp at hm ⊢; omega)]
    rfl
  | @asg a b s t o _ _ ih1 ih2 =>
    intro p rest r q1 q2 q3 q4 hL
    have h1 := ih2.stop (p := 2) (rest := rest) (by omega) (by omega) (by omega) q4 (by simp [lim] at q4; omega)
    simp only [List.cons_append, List.append_assoc]
    refine ih1 p _ r q1 (by simp; omega) q3 (by simp [rp, tprec, lim])
      (L_of (ts' := rest) q2 (by simp) (fun m hm => ?_) hL)
    obtain ⟨m, rfl⟩ : ∃ k, m = k + 1 := ⟨m - 1, by omega⟩
    rw [inf, h1 m (by omega)]
    rfl

/-! ### Everything found is a derivation -/

theorem down {x c k ts t} (h : G x c k ts t) : ∀ {j}, 1 ≤ j → j ≤ k → k ≤ 17 → G x c j ts t := by
  intro j h1 h2 h3
  induction hd : k - j generalizing j with
  | zero =>
    have : j = k := by omega
    subst this; exact h
  | succ d ih => exact .up h1 (by omega) (ih (by omega) (by omega) (by omega))

theorem expect_some {k ts r} (h : expect k ts = some r) : ts = k :: r := by
  cases ts with
  | nil => simp [expect] at h
  | cons x ts =>
    by_cases e : x = k
    · simp [expect, e] at h; rw [e, h]
    · simp [expect, e] at h

/-- A cast-expression is a unary-expression unless it begins with a type name in parentheses. -/
theorem unary_of {x c ts t} (h : G x c 14 ts t) (hs : startsTy ts = false) : G x c 15 ts t := by
  generalize hk : 14 = k at h
  cases h with
  | up _ _ h => rw [← hk] at h; exact h
  | bin o => have := level_le o; omega
  | cast => simp [startsTy] at hs
  | sizeofT | alignofT => split at hk <;> omega
  | _ => omega

/-- What is claimed of the parts of the parser. -/
structure Sound (n : Nat) : Prop where
  prec : ∀ p ts t rest, 1 ≤ p → p ≤ 14 → prec n p ts = some (t, rest) →
    ∃ cs, ts = cs ++ rest ∧ G true false p cs t ∧ rp rest < p
  pre : ∀ k ts t rest, pre n k ts = some (t, rest) →
    ∃ cs lv, ts = cs ++ rest ∧ 14 ≤ lv ∧ lv ≤ 17 ∧ G true false lv (k :: cs) t ∧ rp rest ≤ lim lv
  lparen : ∀ ts t rest, lparen n ts = some (t, rest) →
    ∃ cs lv, ts = cs ++ rest ∧ 14 ≤ lv ∧ lv ≤ 17 ∧ G true false lv (.lpar :: cs) t ∧ rp rest ≤ lim lv
  sizeof : ∀ ts t rest, sizeAlign n .sizeofT .sizeofE ts = some (t, rest) →
    ∃ cs lv, ts = cs ++ rest ∧ 14 ≤ lv ∧ lv ≤ 17 ∧ G true false lv (.sizeof :: cs) t ∧ rp rest ≤ lim lv
  alignof : ∀ ts t rest, sizeAlign n .alignofT .alignofE ts = some (t, rest) →
    ∃ cs lv, ts = cs ++ rest ∧ 14 ≤ lv ∧ lv ≤ 17 ∧ G true false lv (.alignof :: cs) t ∧ rp rest ≤ lim lv
  generic : ∀ ts t rest, generic n ts = some (t, rest) →
    ∃ cs, ts = cs ++ rest ∧ G true false 17 (.generic :: cs) t
  assocs : ∀ ts as rest, assocs n ts = some (as, rest) → ∃ bs : List (Option Nat × List Tok × T), bs ≠ [] ∧
    as = bs.map (fun a => (a.1, a.2.2)) ∧ ts = commas (bs.map fun a => assocToks (a.1, a.2.1)) ++ .rpar :: rest ∧
    ∀ b ∈ bs, G true false 2 b.2.1 b.2.2
  assocsTl : ∀ y t ts as rest, assocsTl n y t ts = some (as, rest) → ∃ bs : List (Option Nat × List Tok × T),
    as = (y, t) :: bs.map (fun a => (a.1, a.2.2)) ∧
    (∀ x, x ++ ts = commas (x :: bs.map fun a => assocToks (a.1, a.2.1)) ++ .rpar :: rest) ∧
    ∀ b ∈ bs, G true false 2 b.2.1 b.2.2
  loop : ∀ p s ts t rest cs0 k, 1 ≤ p → p ≤ 14 → p ≤ k → k ≤ 17 → G true false k cs0 s → rp ts ≤ lim k →
    loop n p s ts = some (t, rest) → ∃ cs, ts = cs ++ rest ∧ G true false p (cs0 ++ cs) t ∧ rp rest < p
  inf : ∀ s k ts t rest lv cs0, 1 ≤ lv → lv ≤ 17 → G true false lv cs0 s → tprec k ≤ lim lv → 1 ≤ tprec k →
    inf n s k ts = some (t, rest) → ∃ cs lv', ts = cs ++ rest ∧ G true false lv' (cs0 ++ k :: cs) t ∧
      tprec k ≤ lv' ∧ lv' ≤ 17 ∧ rp rest ≤ lim lv'
  args : ∀ ts as rest, args n ts = some (as, rest) → ∃ bs : List (List Tok × T),
    as = bs.map (·.2) ∧ ts = commas (bs.map (·.1)) ++ .rpar :: rest ∧ ∀ b ∈ bs, G true false 2 b.1 b.2
  argsL : ∀ ts as rest, argsL n ts = some (as, rest) → ∃ bs : List (List Tok × T), bs ≠ [] ∧
    as = bs.map (·.2) ∧ ts = commas (bs.map (·.1)) ++ .rpar :: rest ∧ ∀ b ∈ bs, G true false 2 b.1 b.2
  argsTl : ∀ t ts as rest, argsTl n t ts = some (as, rest) → ∃ bs : List (List Tok × T),
    as = t :: bs.map (·.2) ∧ (∀ x, x ++ ts = commas (x :: bs.map (·.1)) ++ .rpar :: rest) ∧
    ∀ b ∈ bs, G true false 2 b.1 b.2

theorem lim_ge {lv r} (h : r ≤ lim lv) (h1 : 1 ≤ lv) (hr : 1 ≤ r) (h14 : r ≤ 14) :
    r ≤ lv ∧ (r = 14 → 16 ≤ lv) ∧ (r = 3 → 4 ≤ lv) ∧ (r = 2 → 3 ≤ lv) := by
  unfold lim at h
  repeat' split at h
  all_goals omega

theorem sound (n : Nat) : Sound n := by
  induction n with
  | zero => constructor <;> intros <;> simp_all [prec, pre, lparen, sizeAlign, generic, assocs, assocsTl, loop, inf, args, argsL, argsTl]
  | succ n ih =>
    constructor
    · -- prec
      intro p ts t rest h1 h2 h
      cases ts with
      | nil => simp [prec] at h
      | cons k ts =>
        simp only [prec, Option.bind_eq_some_iff] at h
        obtain ⟨⟨s, ts1⟩, hp, hl⟩ := h
        obtain ⟨cs, lv, rfl, l1, l2, hg, hr⟩ := ih.pre _ _ _ _ hp
        obtain ⟨cs2, rfl, hg2, hr2⟩ := ih.loop p s ts1 t rest _ lv h1 h2 (by omega) l2 hg hr hl
        exact ⟨k :: cs ++ cs2, by simp, hg2, hr2⟩
    · -- pre
      intro k ts t rest h
      have un : ∀ (o : UOp) (f : T → T), f = T.un o → (prec n 14 ts).map (fun r => (f r.1, r.2)) = some (t, rest) →
          ∃ cs lv, ts = cs ++ rest ∧ 14 ≤ lv ∧ lv ≤ 17 ∧ G true false lv (utok o :: cs) t ∧ rp rest ≤ lim lv := by
        intro o f hf h
        subst hf
        simp only [Option.map_eq_some_iff, Prod.mk.injEq] at h
        obtain ⟨⟨s, r⟩, hq, rfl, rfl⟩ := h
        obtain ⟨cs, rfl, hg, hr⟩ := ih.prec _ _ _ _ (by omega) (by omega) hq
        exact ⟨cs, 15, rfl, by omega, by omega, .un o hg, by simp [lim]; omega⟩
      have rpl := rp_le rest
      cases k with
      | lit v => simp [pre] at h; exact ⟨[], 17, by simp [h.2], by omega, by omega, by rw [← h.1]; exact .lit v, by simp [lim, rpl]⟩
      | id v => simp [pre] at h; exact ⟨[], 17, by simp [h.2], by omega, by omega, by rw [← h.1]; exact .id v, by simp [lim, rpl]⟩
      | lpar => simp only [pre] at h; exact ih.lparen _ _ _ h
      | inc =>
        simp only [pre, Option.map_eq_some_iff, Prod.mk.injEq] at h
        obtain ⟨⟨s, r⟩, h, rfl, rfl⟩ := h
        obtain ⟨cs, rfl, hg, hr⟩ := ih.prec _ _ _ _ (by omega) (by omega) h
        exact ⟨cs, 15, rfl, by omega, by omega, .preinc hg, by simp [lim]; omega⟩
      | dec =>
        simp only [pre, Option.map_eq_some_iff, Prod.mk.injEq] at h
        obtain ⟨⟨s, r⟩, h, rfl, rfl⟩ := h
        obtain ⟨cs, rfl, hg, hr⟩ := ih.prec _ _ _ _ (by omega) (by omega) h
        exact ⟨cs, 15, rfl, by omega, by omega, .predec hg, by simp [lim]; omega⟩
      | bin o =>
        cases o <;> simp only [pre] at h
        case mul => exact un .deref _ rfl h
        case add => exact un .pos _ rfl h
        case sub => exact un .neg _ rfl h
        case band => exact un .ref _ rfl h
        all_goals cases h
      | not => simp only [pre] at h; exact un .not _ rfl h
      | tilda => simp only [pre] at h; exact un .bitnot _ rfl h
      | sizeof => simp only [pre] at h; exact ih.sizeof _ _ _ h
      | alignof => simp only [pre] at h; exact ih.alignof _ _ _ h
      | generic =>
        simp only [pre] at h
        obtain ⟨cs, rfl, hg⟩ := ih.generic _ _ _ h
        exact ⟨cs, 17, rfl, by omega, by omega, hg, by simp [lim, rpl]⟩
      | _ => simp [pre] at h
    · -- lparen
      intro ts t rest h
      have rpl := rp_le rest
      unfold ExprParse.lparen at h
      split at h
      · rename_i h0; omega
      · rename_i n' y ts' h0
        cases h0
        simp only [Option.bind_eq_some_iff] at h
        obtain ⟨ts2, he, h⟩ := h
        have := expect_some he
        subst this
        split at h
        · simp at h
          obtain ⟨rfl, rfl⟩ := h
          exact ⟨[.ty y, .rpar, .braced _], 16, by simp, by omega, by omega, .complit y _, by simp [lim, rpl]⟩
        · simp only [Option.map_eq_some_iff, Prod.mk.injEq] at h
          obtain ⟨⟨s, r⟩, h, rfl, rfl⟩ := h
          obtain ⟨cs, e, hg, hr⟩ := ih.prec _ _ _ _ (by omega) (by omega) h
          exact ⟨.ty y :: .rpar :: cs, 14, by simp [e], by omega, by omega, .cast y hg, by simp [lim]; omega⟩
      · rename_i n' b ts' h0
        cases h0
        simp only [Option.map_eq_some_iff, Prod.mk.injEq] at h
        obtain ⟨ts2, he, rfl, rfl⟩ := h
        have := expect_some he
        subst this
        exact ⟨[.braced b, .rpar], 17, by simp, by omega, by omega, .block b rfl, by simp [lim, rpl]⟩
      · rename_i n' h0 _ _
        cases h0
        simp only [Option.bind_eq_some_iff, Option.map_eq_some_iff, Prod.mk.injEq] at h
        obtain ⟨⟨s, r⟩, h, ts2, he, rfl, rfl⟩ := h
        have := expect_some he
        simp only at this
        subst this
        obtain ⟨cs, rfl, hg, hr⟩ := ih.prec _ _ _ _ (by omega) (by omega) h
        exact ⟨cs ++ [.rpar], 17, by simp, by omega, by omega, by simpa using G.paren hg, by simp [lim, rpl]⟩
    · -- sizeof
      intro ts t rest h
      have rpl := rp_le rest
      unfold ExprParse.sizeAlign at h
      split at h
      · rename_i h0; omega
      · rename_i n' y ts' h0
        cases h0
        simp only [Option.map_eq_some_iff, Prod.mk.injEq] at h
        obtain ⟨ts2, he, rfl, rfl⟩ := h
        have := expect_some he
        subst this
        exact ⟨[.lpar, .ty y, .rpar], 17, by simp, by omega, by omega, .sizeofT y, by simp [lim, rpl]⟩
      · rename_i n' h0 hn
        cases h0
        simp only [Option.map_eq_some_iff, Prod.mk.injEq] at h
        obtain ⟨⟨s, r⟩, h, rfl, rfl⟩ := h
        obtain ⟨cs, rfl, hg, hr⟩ := ih.prec _ _ _ _ (by omega) (by omega) h
        have hs : startsTy cs = false := by
          cases e : startsTy cs with
          | false => rfl
          | true =>
            unfold startsTy at e
            split at e
            · exact (hn _ _ (List.cons_append ..)).elim
            · cases e
        exact ⟨cs, 15, rfl, by omega, by omega, .sizeofE (unary_of hg hs) (.inr hs), by simp [lim]; omega⟩
    · -- alignof
      intro ts t rest h
      have rpl := rp_le rest
      unfold ExprParse.sizeAlign at h
      split at h
      · rename_i h0; omega
      · rename_i n' y ts' h0
        cases h0
        simp only [Option.map_eq_some_iff, Prod.mk.injEq] at h
        obtain ⟨ts2, he, rfl, rfl⟩ := h
        have := expect_some he
        subst this
        exact ⟨[.lpar, .ty y, .rpar], 17, by simp, by omega, by omega, .alignofT y, by simp [lim, rpl]⟩
      · rename_i n' h0 hn
        cases h0
        simp only [Option.map_eq_some_iff, Prod.mk.injEq] at h
        obtain ⟨⟨s, r⟩, h, rfl, rfl⟩ := h
        obtain ⟨cs, rfl, hg, hr⟩ := ih.prec _ _ _ _ (by omega) (by omega) h
        have hs : startsTy cs = false := by
          cases e : startsTy cs with
          | false => rfl
          | true =>
            unfold startsTy at e
            split at e
            · exact (hn _ _ (List.cons_append ..)).elim
            · cases e
        exact ⟨cs, 15, rfl, by omega, by omega, .alignofE rfl (unary_of hg hs) (.inr hs), by simp [lim]; omega⟩
    · -- generic
      intro ts t rest h
      simp only [ExprParse.generic, Option.bind_eq_some_iff, Option.map_eq_some_iff, Prod.mk.injEq] at h
      obtain ⟨ts1, h1, ⟨s, ts2⟩, h2, ts3, h3, ⟨as, r⟩, h4, rfl, rfl⟩ := h
      have e1 := expect_some h1
      have e3 := expect_some h3
      subst e1
      simp only at e3
      subst e3
      obtain ⟨cs, rfl, hg, hr⟩ := ih.prec _ _ _ _ (by omega) (by omega) h2
      obtain ⟨bs, hb, rfl, rfl, hbs⟩ := ih.assocs _ _ _ h4
      exact ⟨.lpar :: cs ++ .bin .comma :: commas (bs.map fun a => assocToks (a.1, a.2.1)) ++ [.rpar], by simp, by simpa using G.generic hg hb hbs⟩
    · -- assocs
      intro ts as rest h
      unfold ExprParse.assocs at h
      split at h
      · rename_i h0; omega
      · rename_i n' ts' h0
        cases h0
        simp only [Option.bind_eq_some_iff] at h
        obtain ⟨ts1, h1, ⟨s, ts2⟩, h2, h3⟩ := h
        have e1 := expect_some h1
        subst e1
        obtain ⟨cs, rfl, hg, hr⟩ := ih.prec _ _ _ _ (by omega) (by omega) h2
        obtain ⟨bs, rfl, hx, hbs⟩ := ih.assocsTl _ _ _ _ _ h3
        refine ⟨(none, cs, s) :: bs, by simp, rfl, ?_, ?_⟩
        · exact hx (.default :: .colon :: cs)
        · intro b hb
          rcases List.mem_cons.mp hb with rfl | hb
          · exact hg
          · exact hbs b hb
      · rename_i n' y ts' h0
        cases h0
        simp only [Option.bind_eq_some_iff] at h
        obtain ⟨ts1, h1, ⟨s, ts2⟩, h2, h3⟩ := h
        have e1 := expect_some h1
        subst e1
        obtain ⟨cs, rfl, hg, hr⟩ := ih.prec _ _ _ _ (by omega) (by omega) h2
        obtain ⟨bs, rfl, hx, hbs⟩ := ih.assocsTl _ _ _ _ _ h3
        refine ⟨(some y, cs, s) :: bs, by simp, rfl, ?_, ?_⟩
        · exact hx (.ty y :: .colon :: cs)
        · intro b hb
          rcases List.mem_cons.mp hb with rfl | hb
          · exact hg
          · exact hbs b hb
      · cases h
    · -- assocsTl
      intro y t ts as rest h
      unfold ExprParse.assocsTl at h
      split at h
      · rename_i h0; omega
      · rename_i n' ts' h0
        cases h0
        simp only [Option.map_eq_some_iff, Prod.mk.injEq] at h
        obtain ⟨⟨as, r⟩, h, rfl, rfl⟩ := h
        obtain ⟨bs, hb, rfl, rfl, hbs⟩ := ih.assocs _ _ _ h
        refine ⟨bs, rfl, fun x => ?_, hbs⟩
        cases bs with
        | nil => exact absurd rfl hb
        | cons b bs => simp [commas]
      · simp only [Option.some.injEq, Prod.mk.injEq] at h
        obtain ⟨rfl, rfl⟩ := h
        exact ⟨[], rfl, fun x => by simp [commas], by simp⟩
      · cases h
    · -- loop
      intro p s ts t rest cs0 k h1 h2 h3 h4 hg hr h
      simp only [ExprParse.loop] at h
      split at h
      · simp only [Option.some.injEq, Prod.mk.injEq] at h
        obtain ⟨rfl, rfl⟩ := h
        exact ⟨[], rfl, by simpa using down hg h1 h3 h4, by assumption⟩
      · rename_i hlt
        cases ts with
        | nil => cases h
        | cons tk ts =>
          simp only [Option.bind_eq_some_iff] at h
          obtain ⟨⟨s2, ts2⟩, hi, hl⟩ := h
          simp only [rp] at hlt hr
          obtain ⟨cs, lv, rfl, hg2, l1, l2, hr2⟩ := ih.inf _ _ _ _ _ k cs0 (by omega) h4 hg hr (by omega) hi
          obtain ⟨cs2, rfl, hg3, hr3⟩ := ih.loop p s2 ts2 t rest _ lv h1 h2 (by omega) l2 hg2 hr2 hl
          exact ⟨tk :: cs ++ cs2, by simp, by simpa using hg3, hr3⟩
    · -- inf
      intro s k ts t rest lv cs0 h1 h2 hg hk hk1 h
      have rpl := rp_le rest
      obtain ⟨g1, g2, g3, g4⟩ := lim_ge hk h1 hk1 (tprec_le k)
      cases k with
      | lpar =>
        simp only [ExprParse.inf, Option.map_eq_some_iff, Prod.mk.injEq] at h
        obtain ⟨⟨as, r⟩, h, rfl, rfl⟩ := h
        obtain ⟨bs, rfl, rfl, hbs⟩ := ih.args _ _ _ h
        exact ⟨commas (bs.map (·.1)) ++ [.rpar], 16, by simp, by simpa using G.call (down hg (by omega) (g2 rfl) h2) hbs,
          by simp [tprec], by omega, by simp [lim, rpl]⟩
      | inc =>
        simp only [ExprParse.inf, Option.some.injEq, Prod.mk.injEq] at h
        obtain ⟨rfl, rfl⟩ := h
        exact ⟨[], 16, rfl, .postinc (down hg (by omega) (g2 rfl) h2), by simp [tprec], by omega, by simp [lim, rpl]⟩
      | dec =>
        simp only [ExprParse.inf, Option.some.injEq, Prod.mk.injEq] at h
        obtain ⟨rfl, rfl⟩ := h
        exact ⟨[], 16, rfl, .postdec (down hg (by omega) (g2 rfl) h2), by simp [tprec], by omega, by simp [lim, rpl]⟩
      | dot =>
        cases ts with
        | nil => simp [ExprParse.inf] at h
        | cons q ts =>
          cases q <;> simp only [ExprParse.inf, Option.some.injEq, Prod.mk.injEq, reduceCtorEq] at h
          obtain ⟨rfl, rfl⟩ := h
          exact ⟨[.id _], 16, rfl, .mem _ (down hg (by omega) (g2 rfl) h2), by simp [tprec], by omega, by simp [lim, rpl]⟩
      | arrow =>
        cases ts with
        | nil => simp [ExprParse.inf] at h
        | cons q ts =>
          cases q <;> simp only [ExprParse.inf, Option.some.injEq, Prod.mk.injEq, reduceCtorEq] at h
          obtain ⟨rfl, rfl⟩ := h
          exact ⟨[.id _], 16, rfl, .pmem _ (down hg (by omega) (g2 rfl) h2), by simp [tprec], by omega, by simp [lim, rpl]⟩
      | lbr =>
        simp only [ExprParse.inf, Option.bind_eq_some_iff, Option.map_eq_some_iff, Prod.mk.injEq] at h
        obtain ⟨⟨i, r⟩, h, r2, he, rfl, rfl⟩ := h
        have e := expect_some he
        simp only at e
        subst e
        obtain ⟨cs, rfl, hg2, hr⟩ := ih.prec _ _ _ _ (by omega) (by omega) h
        exact ⟨cs ++ [.rbr], 16, by simp, by simpa using G.idx (down hg (by omega) (g2 rfl) h2) hg2,
          by simp [tprec], by omega, by simp [lim, rpl]⟩
      | bin o =>
        simp only [ExprParse.inf, Option.map_eq_some_iff, Prod.mk.injEq] at h
        obtain ⟨⟨i, r⟩, h, rfl, rfl⟩ := h
        have l1 := level_le o
        have l2 := level_pos o
        simp only [tprec] at g1
        rw [← level_eq] at h g1
        obtain ⟨cs, rfl, hg2, hr⟩ := ih.prec _ _ _ _ (by omega) (by omega) h
        exact ⟨cs, level o, rfl, .bin o (down hg l2 g1 h2) hg2, by simp [tprec, level_eq], by omega, by rw [lim_level]; simp only; omega⟩
      | quest =>
        simp only [ExprParse.inf, Option.bind_eq_some_iff, Option.map_eq_some_iff, Prod.mk.injEq] at h
        obtain ⟨⟨i, r⟩, h, r2, he, ⟨j, r3⟩, h3, rfl, rfl⟩ := h
        have e := expect_some he
        simp only at e
        subst e
        obtain ⟨cs, rfl, hg2, hr⟩ := ih.prec _ _ _ _ (by omega) (by omega) h
        obtain ⟨cs2, rfl, hg3, hr3⟩ := ih.prec _ _ _ _ (by omega) (by omega) h3
        exact ⟨cs ++ .colon :: cs2, 3, by simp, by simpa using G.cond (down hg (by omega) (g3 rfl) h2) hg2 hg3,
          by simp [tprec], by omega, by simp [lim]; omega⟩
      | asg o =>
        simp only [ExprParse.inf, Option.map_eq_some_iff, Prod.mk.injEq] at h
        obtain ⟨⟨i, r⟩, h, rfl, rfl⟩ := h
        obtain ⟨cs, rfl, hg2, hr⟩ := ih.prec _ _ _ _ (by omega) (by omega) h
        exact ⟨cs, 2, rfl, .asg o (down hg (by simp) (g4 rfl) h2) hg2, by simp [tprec], by omega, by simp [lim]; omega⟩
      | _ => simp [tprec] at hk1
    · -- args
      intro ts as rest h
      unfold ExprParse.args at h
      split at h
      · rename_i h0; omega
      · simp only [Option.some.injEq, Prod.mk.injEq] at h
        obtain ⟨rfl, rfl⟩ := h
        exact ⟨[], rfl, rfl, by simp⟩
      · rename_i n' h0 _
        cases h0
        obtain ⟨bs, _, hb⟩ := ih.argsL _ _ _ h
        exact ⟨bs, hb⟩
    · -- argsL
      intro ts as rest h
      simp only [ExprParse.argsL, Option.bind_eq_some_iff] at h
      obtain ⟨⟨s, r⟩, h, h2⟩ := h
      obtain ⟨cs, rfl, hg, hr⟩ := ih.prec _ _ _ _ (by omega) (by omega) h
      obtain ⟨bs, rfl, hx, hbs⟩ := ih.argsTl _ _ _ _ h2
      refine ⟨(cs, s) :: bs, by simp, rfl, hx cs, ?_⟩
      intro b hb
      rcases List.mem_cons.mp hb with rfl | hb
      · exact hg
      · exact hbs b hb
    · -- argsTl
      intro t ts as rest h
      unfold ExprParse.argsTl at h
      split at h
      · rename_i h0; omega
      · simp only [Option.some.injEq, Prod.mk.injEq] at h
        obtain ⟨rfl, rfl⟩ := h
        exact ⟨[], rfl, fun x => by simp [commas], by simp⟩
      · rename_i n' ts' h0
        cases h0
        simp only [Option.map_eq_some_iff, Prod.mk.injEq] at h
        obtain ⟨⟨as, r⟩, h, rfl, rfl⟩ := h
        obtain ⟨bs, hb, rfl, rfl, hbs⟩ := ih.argsL _ _ _ h
        refine ⟨bs, rfl, fun x => ?_, hbs⟩
        cases bs with
        | nil => exact absurd rfl hb
        | cons b bs => simp [commas]
      · cases h

/-! ## The property -/

/-- **The parser and the grammar agree on every token list.**  Reading `ts` at precedence `p` succeeds with the tree `t` and
the remaining tokens `rest` if and only if the consumed tokens derive `t` at the nonterminal `p` and the next token cannot
continue an expression of that level. -/
theorem parse_iff {p ts t rest} (h1 : 1 ≤ p) (h14 : p ≤ 14) :
    parse p ts = some (t, rest) ↔ ∃ cs, ts = cs ++ rest ∧ G true false p cs t ∧ rp rest < p := by
  constructor
  · exact (sound _).prec _ _ _ _ h1 h14
  · rintro ⟨cs, rfl, hg, hr⟩
    refine (found_of hg).stop h1 (Nat.le_refl _) h14 ?_ hr _ (Nat.le_refl _)
    unfold lim
    repeat' split
    all_goals omega

/-- What C11 derives is derived with xcc's extensions too. -/
theorem ext_of {c k ts t} (h : G false c k ts t) : G true c k ts t := by
  induction h with
  | up h1 h2 _ ih => exact .up h1 h2 ih
  | lit n => exact .lit n
  | id n => exact .id n
  | paren _ ih => exact .paren ih
  | generic _ hn _ ih iha => exact .generic ih hn iha
  | block b h => cases h
  | idx _ _ ih1 ih2 => exact .idx ih1 ih2
  | call _ _ ih iha => exact .call ih iha
  | mem m _ ih => exact .mem m ih
  | pmem m _ ih => exact .pmem m ih
  | postinc _ ih => exact .postinc ih
  | postdec _ ih => exact .postdec ih
  | complit y b => exact .complit y b
  | preinc _ ih => exact .preinc (down (j := 14) ih (by omega) (by simp) (by simp))
  | predec _ ih => exact .predec (down (j := 14) ih (by omega) (by simp) (by simp))
  | un o _ ih => exact .un o ih
  | sizeofE _ hc ih => exact .sizeofE ih hc
  | sizeofT y => exact down (k := 17) (.sizeofT y) (by simp) (by simp) (by simp)
  | alignofT y => exact down (k := 17) (.alignofT y) (by simp) (by simp) (by simp)
  | alignofE h => cases h
  | cast y _ ih => exact .cast y ih
  | bin o _ _ ih1 ih2 => exact .bin o ih1 ih2
  | cond _ _ _ ih1 ih2 ih3 => exact .cond ih1 ih2 ih3
  | asg o _ _ ih1 ih2 => exact .asg o (down (j := 3) ih1 (by omega) (by simp) (by simp)) ih2

/-- **Every C11 expression is grouped as C11 says** (nonterminals 1 to 14), when what follows cannot continue it.
Partial: `sizeof` of an expression that begins with a compound literal is excluded (`sizeof_complit_wrong`). -/
theorem c11_partial {p cs t rest} (h1 : 1 ≤ p) (h14 : p ≤ 14) (h : G false false p cs t) (hr : rp rest < p) :
    parse p (cs ++ rest) = some (t, rest) :=
  (parse_iff h1 h14).mpr ⟨cs, rfl, ext_of h, hr⟩

/-- The grammar assigns one tree to a token list: expressions are not ambiguous. -/
theorem grammar_unambiguous {p ts t u} (h1 : 1 ≤ p) (h14 : p ≤ 14) (h : G true false p ts t) (h' : G true false p ts u) : t = u := by
  have a := (parse_iff (ts := ts) (rest := []) h1 h14).mpr ⟨ts, by simp, h, h1⟩
  have b := (parse_iff (ts := ts) (rest := []) h1 h14).mpr ⟨ts, by simp, h', h1⟩
  rw [a] at b
  simpa using b

/-- `f(a, -b[1])++ ? *p = c : d , e` at the nonterminal expression, and how it is grouped. -/
example : parse 1 [.id 0, .lpar, .id 1, .bin .comma, .bin .sub, .id 2, .lbr, .lit 1, .rbr, .rpar, .inc, .quest,
      .bin .mul, .id 3, .asg none, .id 4, .colon, .id 5, .bin .comma, .id 6, .semi]
    = some (.bin .comma (.cond (.postinc (.call (.var 0) [.var 1, .un .neg (.idx (.var 2) (.lit 1))]))
        (.asg none (.un .deref (.var 3)) (.var 4)) (.var 5)) (.var 6), [.semi]) := by rfl

/-- The hypotheses of `c11_partial` are met: `a = b * -c` followed by a semicolon. -/
example : G false false 2 [.id 0, .asg none, .id 1, .bin .mul, .bin .sub, .id 2]
      (.asg none (.var 0) (.bin .mul (.var 1) (.un .neg (.var 2)))) ∧ rp [.semi] < 2 :=
  ⟨.asg none (down (.id 0) (by simp) (by simp) (by omega))
    (down (k := 13) (.bin .mul (down (.id 1) (by decide) (by decide) (by omega))
      (down (k := 15) (.un .neg (down (.id 2) (by omega) (by omega) (by omega))) (by decide) (by decide) (by omega)))
      (by omega) (by omega) (by omega)), by decide⟩

/-- Two binary operators in a row, for *all* pairs: the one that binds tighter takes the operand in the middle, equal ones group
to the left.  (The classes of C11 6.5.5-6.5.14, 6.5.17, from tight to loose.) -/
theorem two_operators (a b d : Nat) (o q : Op) {rest : List Tok} (hr : rp rest = 0) :
    parse 1 (.id a :: .bin o :: .id b :: .bin q :: .id d :: rest) =
      some (if level q ≤ level o then .bin q (.bin o (.var a) (.var b)) (.var d)
            else .bin o (.var a) (.bin q (.var b) (.var d)), rest) := by
  have lo := level_le o
  have lq := level_le q
  have po := level_pos o
  have pq := level_pos q
  have i : ∀ n j, 1 ≤ j → j ≤ 17 → G true false j [.id n] (.var n) := fun n j h1 h2 => down (.id n) h1 h2 (by omega)
  refine (parse_iff (by omega) (by omega)).mpr ⟨[.id a, .bin o, .id b, .bin q, .id d], rfl, ?_, by omega⟩
  split
  · exact down (G.bin (a := [.id a, .bin o, .id b]) q
      (down (G.bin (a := [.id a]) o (i a _ po (by omega)) (i b _ (by omega) (by omega))) pq ‹_› (by omega))
      (i d _ (by omega) (by omega))) (by omega) pq (by omega)
  · exact down (G.bin (a := [.id a]) o (i a _ po (by omega))
      (down (G.bin (a := [.id b]) q (i b _ pq (by omega)) (i d _ (by omega) (by omega))) (by omega) (by omega) (by omega)))
      (by omega) po (by omega)

/-- A prefix operator or cast applies to the operand with all its postfix operators, and to nothing of a binary operator after it. -/
theorem prefix_operand (a b i : Nat) (o : Op) (u : UOp) {rest : List Tok} (hr : rp rest = 0) :
    parse 1 (utok u :: .id a :: .lbr :: .id i :: .rbr :: .bin o :: .id b :: rest) =
      some (.bin o (.un u (.idx (.var a) (.var i))) (.var b), rest) := by
  have lo := level_le o
  have po := level_pos o
  have g : ∀ n j, 1 ≤ j → j ≤ 17 → G true false j [.id n] (.var n) := fun n j h1 h2 => down (.id n) h1 h2 (by omega)
  refine (parse_iff (by omega) (by omega)).mpr ⟨[utok u, .id a, .lbr, .id i, .rbr, .bin o, .id b], rfl, ?_, by omega⟩
  refine down (G.bin (a := [utok u, .id a, .lbr, .id i, .rbr]) o (down (k := 15) ?_ po (by omega) (by omega)) (g b _ (by omega) (by omega)))
    (by omega) po (by omega)
  exact .un u (down (k := 16) (G.idx (a := [.id a]) (i := [.id i]) (g a _ (by omega) (by omega)) (g i _ (by omega) (by omega)))
    (by omega) (by omega) (by omega))

/-- Assignments and conditionals group to the right. -/
theorem right_operators (a b d e f : Nat) (o q : Option AOp) {rest : List Tok} (hr : rp rest = 0) :
    parse 1 (.id a :: .asg o :: .id b :: .asg q :: .id d :: rest) = some (.asg o (.var a) (.asg q (.var b) (.var d)), rest) ∧
    parse 1 (.id a :: .quest :: .id b :: .colon :: .id d :: .quest :: .id e :: .colon :: .id f :: rest) =
      some (.cond (.var a) (.var b) (.cond (.var d) (.var e) (.var f)), rest) := by
  have g : ∀ n j, 1 ≤ j → j ≤ 17 → G true false j [.id n] (.var n) := fun n j h1 h2 => down (.id n) h1 h2 (by omega)
  constructor
  · refine (parse_iff (by omega) (by omega)).mpr ⟨[.id a, .asg o, .id b, .asg q, .id d], rfl, ?_, by omega⟩
    exact down (k := 2) (G.asg (a := [.id a]) o (g a _ (by simp) (by simp))
      (G.asg (a := [.id b]) q (g b _ (by simp) (by simp)) (g d _ (by omega) (by omega)))) (by omega) (by omega) (by omega)
  · refine (parse_iff (by omega) (by omega)).mpr
      ⟨[.id a, .quest, .id b, .colon, .id d, .quest, .id e, .colon, .id f], rfl, ?_, by omega⟩
    exact down (k := 3) (G.cond (a := [.id a]) (b := [.id b]) (g a _ (by omega) (by omega)) (g b _ (by omega) (by omega))
      (G.cond (a := [.id d]) (b := [.id e]) (g d _ (by omega) (by omega)) (g e _ (by omega) (by omega)) (g f _ (by omega) (by omega))))
      (by omega) (by omega) (by omega)

/-! ## Findings -/

/-- **Finding.** C11 reads `sizeof (T){ .. }` as the size of the compound literal; xcc stops after `sizeof (T)` and reports the
brace (parser_expr.c:688-696): `sizeof (int[]){1, 2, 3}` cannot be written. -/
theorem sizeof_complit_wrong :
    G false true 1 [.sizeof, .lpar, .ty 0, .rpar, .braced 1] (.sizeofE (.complit 0 1)) ∧
    parse 1 [.sizeof, .lpar, .ty 0, .rpar, .braced 1, .semi] = some (.sizeofT 0, [.braced 1, .semi]) :=
  ⟨down (k := 15) (.sizeofE (down (k := 16) (.complit 0 1) (by omega) (by omega) (by omega)) (.inl rfl)) (by omega) (by omega) (by omega), rfl⟩

/-- **Finding.** A constant-expression of C11 6.6 is a conditional-expression; `parse_const_fixnum` (parser_expr.c:825-827) asks for
`PREC_LOGIOR`, so that `case` labels, enumerators, bit-field widths and designator indices stop before a `?`:
`enum { A = 1 ? 2 : 3 };` is refused. -/
theorem const_cond_wrong :
    G false false 3 [.lit 1, .quest, .lit 2, .colon, .lit 3] (.cond (.lit 1) (.lit 2) (.lit 3)) ∧
    parseConst [.lit 1, .quest, .lit 2, .colon, .lit 3, .semi] = some (.lit 1, [.quest, .lit 2, .colon, .lit 3, .semi]) :=
  ⟨G.cond (a := [.lit 1]) (b := [.lit 2]) (down (.lit 1) (by omega) (by omega) (by omega)) (down (.lit 2) (by omega) (by omega) (by omega))
    (down (.lit 3) (by omega) (by omega) (by omega)), rfl⟩

/-- The constant-expressions that are read: those without a conditional operator at the top.
Partial: see `const_cond_wrong`. -/
theorem const_partial {cs t rest} (h : G false false 4 cs t) (hr : rp rest < 4) : parseConst (cs ++ rest) = some (t, rest) :=
  c11_partial (by omega) (by omega) h hr

/-- **Finding.** No derivation of C11 yields a subscripted `sizeof(type)`, xcc reads `sizeof(int)[p]` as `(sizeof(int))[p]`. -/
theorem sizeof_index_wrong :
    parse 1 [.sizeof, .lpar, .ty 0, .rpar, .lbr, .id 1, .rbr, .semi] = some (.idx (.sizeofT 0) (.var 1), [.semi]) := rfl

/-- **Finding.** An assignment to a conditional-expression is read as if its left side were parenthesised (C11: a syntax error);
the check for an lvalue (fe_misc.c:611) comes after the condition was folded away (parser_expr.c:514-516): `1 ? a : b = c`
assigns to `a`. -/
theorem asg_cond_wrong :
    parse 1 [.lit 1, .quest, .id 0, .colon, .id 1, .asg none, .id 2, .semi]
      = some (.asg none (.cond (.lit 1) (.var 0) (.var 1)) (.var 2), [.semi]) := rfl

/-! ## Every tree can be written

The grammar above is not vacuous in any part: each tree, of whatever shape, has a spelling that is read back as that tree. -/

mutual
/-- A spelling of a tree with parentheses around every operand. -/
def spell : T → List Tok
  | .lit n => [.lit n]
  | .var n => [.id n]
  | .un o t => utok o :: .lpar :: spell t ++ [.rpar]
  | .preinc t => .inc :: .lpar :: spell t ++ [.rpar]
  | .predec t => .dec :: .lpar :: spell t ++ [.rpar]
  | .postinc t => .lpar :: spell t ++ [.rpar] ++ [.inc]
  | .postdec t => .lpar :: spell t ++ [.rpar] ++ [.dec]
  | .bin o a b => .lpar :: spell a ++ [.rpar] ++ .bin o :: (.lpar :: spell b ++ [.rpar])
  | .cond a b d => .lpar :: spell a ++ [.rpar] ++ .quest :: (.lpar :: spell b ++ [.rpar]) ++ .colon :: (.lpar :: spell d ++ [.rpar])
  | .asg o a b => .lpar :: spell a ++ [.rpar] ++ .asg o :: (.lpar :: spell b ++ [.rpar])
  | .mem t m => .lpar :: spell t ++ [.rpar] ++ [.dot, .id m]
  | .pmem t m => .lpar :: spell t ++ [.rpar] ++ [.arrow, .id m]
  | .idx a i => .lpar :: spell a ++ [.rpar] ++ .lbr :: (.lpar :: spell i ++ [.rpar]) ++ [.rbr]
  | .call f as => .lpar :: spell f ++ [.rpar] ++ .lpar :: commas (spells as) ++ [.rpar]
  | .cast y t => .lpar :: .ty y :: .rpar :: (.lpar :: spell t ++ [.rpar])
  | .complit y b => [.lpar, .ty y, .rpar, .braced b]
  | .block b => [.lpar, .braced b, .rpar]
  | .sizeofT y => [.sizeof, .lpar, .ty y, .rpar]
  | .sizeofE t => .sizeof :: .lpar :: spell t ++ [.rpar]
  | .alignofT y => [.alignof, .lpar, .ty y, .rpar]
  | .alignofE t => .alignof :: .lpar :: spell t ++ [.rpar]
  | .generic t as => .generic :: .lpar :: (.lpar :: spell t ++ [.rpar]) ++ .bin .comma :: commas (spellAs as) ++ [.rpar]
/-- Arguments. -/
def spells : List T → List (List Tok)
  | [] => []
  | t :: ts => (.lpar :: spell t ++ [.rpar]) :: spells ts
/-- Generic associations. -/
def spellAs : List (Option Nat × T) → List (List Tok)
  | [] => []
  | (y, t) :: ts => assocToks (y, .lpar :: spell t ++ [.rpar]) :: spellAs ts
end

mutual
/-- A generic selection has at least one association. -/
def wf : T → Bool
  | .lit _ | .var _ | .complit .. | .block _ | .sizeofT _ | .alignofT _ => true
  | .un _ t | .preinc t | .predec t | .postinc t | .postdec t | .mem t _ | .pmem t _ | .cast _ t | .sizeofE t | .alignofE t => wf t
  | .bin _ a b | .asg _ a b | .idx a b => wf a && wf b
  | .cond a b d => wf a && wf b && wf d
  | .call f as => wf f && wfs as
  | .generic t as => wf t && !as.isEmpty && wfAs as
/-- All of a list. -/
def wfs : List T → Bool
  | [] => true
  | t :: ts => wf t && wfs ts
/-- All of a list. -/
def wfAs : List (Option Nat × T) → Bool
  | [] => true
  | (_, t) :: ts => wf t && wfAs ts
end

theorem par {x c ts t} (h : G x c 1 ts t) {j} (h1 : 1 ≤ j) (h2 : j ≤ 17) : G x c j (.lpar :: ts ++ [.rpar]) t :=
  down (.paren h) h1 h2 (by omega)

theorem par_not_ty {ts : List Tok} (h : starts ts) : startsTy (.lpar :: ts ++ [.rpar]) = false := by
  cases ts with
  | nil => exact h.elim
  | cons k ts => cases k <;> first | rfl | exact h.elim

mutual
theorem spell_G : ∀ t, wf t = true → G true false 1 (spell t) t
  | .lit n, _ => down (.lit n) (by omega) (by omega) (by omega)
  | .var n, _ => down (.id n) (by omega) (by omega) (by omega)
  | .un o t, h => down (k := 15) (.un o (par (spell_G t h) (by omega) (by omega))) (by omega) (by omega) (by omega)
  | .preinc t, h => down (k := 15) (.preinc (par (spell_G t h) (by simp) (by simp))) (by omega) (by omega) (by omega)
  | .predec t, h => down (k := 15) (.predec (par (spell_G t h) (by simp) (by simp))) (by omega) (by omega) (by omega)
  | .postinc t, h => down (k := 16) (.postinc (par (spell_G t h) (by omega) (by omega))) (by omega) (by omega) (by omega)
  | .postdec t, h => down (k := 16) (.postdec (par (spell_G t h) (by omega) (by omega))) (by omega) (by omega) (by omega)
  | .bin o a b, h => by
    simp only [wf, Bool.and_eq_true] at h
    have := level_le o
    have := level_pos o
    exact down (G.bin o (par (spell_G a h.1) (by omega) (by omega)) (par (spell_G b h.2) (by omega) (by omega))) (by omega) (by omega) (by omega)
  | .cond a b d, h => by
    simp only [wf, Bool.and_eq_true] at h
    exact down (k := 3) (G.cond (par (spell_G a h.1.1) (by omega) (by omega)) (par (spell_G b h.1.2) (by omega) (by omega))
      (par (spell_G d h.2) (by omega) (by omega))) (by omega) (by omega) (by omega)
  | .asg o a b, h => by
    simp only [wf, Bool.and_eq_true] at h
    exact down (k := 2) (G.asg o (par (spell_G a h.1) (by simp) (by simp)) (par (spell_G b h.2) (by omega) (by omega))) (by omega) (by omega) (by omega)
  | .mem t m, h => down (k := 16) (.mem m (par (spell_G t h) (by omega) (by omega))) (by omega) (by omega) (by omega)
  | .pmem t m, h => down (k := 16) (.pmem m (par (spell_G t h) (by omega) (by omega))) (by omega) (by omega) (by omega)
  | .idx a b, h => by
    simp only [wf, Bool.and_eq_true] at h
    exact down (k := 16) (G.idx (par (spell_G a h.1) (by omega) (by omega)) (par (spell_G b h.2) (by omega) (by omega))) (by omega) (by omega) (by omega)
  | .call f as, h => by
    simp only [wf, Bool.and_eq_true] at h
    obtain ⟨bs, e1, e2, hb⟩ := spells_G as h.2
    have := G.call (par (spell_G f h.1) (j := 16) (by omega) (by omega)) hb
    rw [← e1, ← e2] at this
    exact down this (by omega) (by omega) (by omega)
  | .cast y t, h => down (k := 14) (.cast y (par (spell_G t h) (by omega) (by omega))) (by omega) (by omega) (by omega)
  | .complit y b, _ => down (.complit y b) (by omega) (by omega) (by omega)
  | .block b, _ => down (.block b rfl) (by omega) (by omega) (by omega)
  | .sizeofT y, _ => down (.sizeofT y) (by omega) (by simp) (by simp)
  | .sizeofE t, h => down (k := 15) (.sizeofE (par (spell_G t h) (by omega) (by omega)) (.inr (par_not_ty (starts_of (spell_G t h)))))
      (by omega) (by omega) (by omega)
  | .alignofT y, _ => down (.alignofT y) (by omega) (by simp) (by simp)
  | .alignofE t, h => down (k := 15) (.alignofE rfl (par (spell_G t h) (by omega) (by omega)) (.inr (par_not_ty (starts_of (spell_G t h)))))
      (by omega) (by omega) (by omega)
  | .generic t as, h => by
    simp only [wf, Bool.and_eq_true] at h
    obtain ⟨bs, e1, e2, hb⟩ := spellAs_G as h.2
    have hn : bs ≠ [] := by rintro rfl; rw [e1] at h; simp at h
    have := G.generic (par (spell_G t h.1.1) (j := 2) (by omega) (by omega)) hn hb
    rw [← e1, ← e2] at this
    exact down this (by omega) (by omega) (by omega)
theorem spells_G : ∀ as, wfs as = true → ∃ bs : List (List Tok × T), as = bs.map (·.2) ∧ spells as = bs.map (·.1) ∧
    ∀ b ∈ bs, G true false 2 b.1 b.2
  | [], _ => ⟨[], rfl, rfl, by simp⟩
  | t :: ts, h => by
    simp only [wfs, Bool.and_eq_true] at h
    obtain ⟨bs, e1, e2, hb⟩ := spells_G ts h.2
    refine ⟨(.lpar :: spell t ++ [.rpar], t) :: bs, by simp [e1], by simp [spells, e2], ?_⟩
    intro b h'
    rcases List.mem_cons.mp h' with rfl | h'
    · exact par (spell_G t h.1) (by omega) (by omega)
    · exact hb b h'
theorem spellAs_G : ∀ as, wfAs as = true → ∃ bs : List (Option Nat × List Tok × T), as = bs.map (fun a => (a.1, a.2.2)) ∧
    spellAs as = bs.map (fun a => assocToks (a.1, a.2.1)) ∧ ∀ b ∈ bs, G true false 2 b.2.1 b.2.2
  | [], _ => ⟨[], rfl, rfl, by simp⟩
  | (y, t) :: ts, h => by
    simp only [wfAs, Bool.and_eq_true] at h
    obtain ⟨bs, e1, e2, hb⟩ := spellAs_G ts h.2
    refine ⟨(y, .lpar :: spell t ++ [.rpar], t) :: bs, by simp [← e1], by simp [spellAs, e2], ?_⟩
    intro b h'
    rcases List.mem_cons.mp h' with rfl | h'
    · exact par (spell_G t h.1) (by omega) (by omega)
    · exact hb b h'
end

/-- **Every tree has a spelling that is read back as that tree**, whatever follows that cannot continue an expression. -/
theorem spell_parse {t rest} (h : wf t = true) (hr : rp rest = 0) : parse 1 (spell t ++ rest) = some (t, rest) :=
  (parse_iff (by omega) (by omega)).mpr ⟨spell t, rfl, spell_G t h, by omega⟩

example : wf (.call (.var 0) [.asg none (.un .deref (.var 1)) (.cond (.lit 1) (.lit 2) (.generic (.var 3) [(none, .lit 4), (some 7, .lit 5)]))]) = true ∧
    rp [.semi] = 0 := by decide

end Verif.ExprParse

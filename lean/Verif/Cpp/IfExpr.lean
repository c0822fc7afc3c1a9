/-
`#if` expressions (C21).

Models /repo/src/cpp/pp_parser.c:231-444, the Pratt parser that evaluates the expression of
`#if` and `#elif` while it reads it, and the end of `handle_if`,
/repo/src/cpp/preprocessor.c:633-660.

The input is the list of tokens of the (macro-expanded) line; reading tokens from text is
modelled in `Verif.LexOp` and `Verif.Literal`.  `int64_t` arithmetic of the host wraps (a
simplification where C leaves overflow undefined), a shift by an amount outside 0..63 gives
an arbitrary value `ub`, and dividing the least value by -1 kills the preprocessor.
-/
import Verif.Util.Wrap
import Mathlib.Tactic.Linarith

namespace Verif.IfExpr

open Verif.Util

/-! ### Model -/

/-- Binary operators of the rule table, pp_parser.c:393-424. -/
inductive Op where
  | mul | div | mod | add | sub | shl | shr | lt | le | ge | gt | eq | ne
  | and | xor | or | land | lor | comma
deriving DecidableEq, Repr

/-- Tokens.  An integer literal carries its 64-bit pattern as `int64_t` and whether its type
is unsigned.  `defined` is the identifier of that name (pp_parser.c:312); identifiers are
numbers.  `other` is every token kind without a rule. -/
inductive Tok where
  | int (v : Int) (uns : Bool)
  | ident (n : Nat)
  | defined
  | lpar | rpar | question | colon | not | tilda
  | op (o : Op)
  | other
deriving DecidableEq, Repr

/-- Precedence column of `kRules`, pp_parser.c:390-438, for binary operators
(`Precedence`, pp_parser.c:233-249). -/
def opPrec : Op → Nat
  | .mul | .div | .mod => 13
  | .add | .sub => 12
  | .shl | .shr => 11
  | .lt | .le | .ge | .gt => 10
  | .eq | .ne => 9
  | .and => 8
  | .xor => 7
  | .or => 6
  | .land => 5
  | .lor => 4
  | .comma => 1

/-- Precedence column of `kRules`, pp_parser.c:390-438; 0 (`PREC_NONE`) without an infix
rule. -/
def prec : Tok → Nat
  | .op o => opPrec o
  | .question => 3
  | _ => 0

/-- Precedence of the next token; the end of input has the rule of `TK_EOF`. -/
def precHead : List Tok → Nat
  | [] => 0
  | t :: _ => prec t

/-- C's truth values. -/
def b2i (b : Bool) : Int := if b then 1 else 0

/-- The bit operations on `int64_t`. -/
def bits (f : BitVec 64 → BitVec 64 → BitVec 64) (a b : Int) : Int :=
  (f (BitVec.ofInt 64 a) (BitVec.ofInt 64 b)).toInt

/-- The arithmetic of `binary`, pp_parser.c:336-371; `none` is the hardware trap. -/
def binop (ub : Int → Int → Int) (o : Op) (a b : Int) : Option Int :=
  match o with
  | .add => some (toS 64 (a + b))
  | .sub => some (toS 64 (a - b))
  | .mul => some (toS 64 (a * b))
  | .div =>
    if b ≠ 0 then (if a = -2 ^ 63 ∧ b = -1 then none else some (a.tdiv b)) else some a
  | .mod =>
    if b ≠ 0 then (if a = -2 ^ 63 ∧ b = -1 then none else some (a.tmod b)) else some a
  | .shl => some (if 0 ≤ b ∧ b < 64 then toS 64 (a * 2 ^ b.toNat) else ub a b)
  | .shr => some (if 0 ≤ b ∧ b < 64 then a / 2 ^ b.toNat else ub a b)
  | .and => some (bits (· &&& ·) a b)
  | .or => some (bits (· ||| ·) a b)
  | .xor => some (bits (· ^^^ ·) a b)
  | .eq => some (b2i (a = b))
  | .ne => some (b2i (a ≠ b))
  | .lt => some (b2i (a < b))
  | .le => some (b2i (a ≤ b))
  | .ge => some (b2i (a ≥ b))
  | .gt => some (b2i (a > b))
  | .land => some (b2i (a ≠ 0 ∧ b ≠ 0))
  | .lor => some (b2i (a ≠ 0 ∨ b ≠ 0))
  | .comma => some b

/-- Unary operators. -/
inductive Un where
  | pos | neg | lnot | bnot
deriving DecidableEq, Repr

/-- The prefix operators of the rule table that do not abort, pp_parser.c:318-328. -/
def unTok : Tok → Option Un
  | .op .add => some .pos
  | .op .sub => some .neg
  | .not => some .lnot
  | .tilda => some .bnot
  | _ => none

/-- The arithmetic of `unary`, pp_parser.c:322-327. -/
def unop (u : Un) (a : Int) : Int :=
  match u with
  | .pos => a
  | .neg => toS 64 (-a)
  | .lnot => b2i (a = 0)
  | .bnot => -a - 1

/-- Outcome of a parsing function: a value and the remaining tokens, a reported error (the
process exits or an assertion fails), a trap, or fuel used up (see `fuel_enough`). -/
inductive R where
  | ok (v : Int) (rest : List Tok)
  | err
  | trap
  | fuel
deriving DecidableEq, Repr

/-- Sequencing. -/
def R.bind (r : R) (k : Int → List Tok → R) : R :=
  match r with
  | .ok v ts => k v ts
  | .err => .err
  | .trap => .trap
  | .fuel => .fuel

/-- `parse_defined`, pp_parser.c:140-155, with `macro_get` as `isDef`. -/
def parseDefined (isDef : Nat → Bool) : List Tok → R
  | .lpar :: .ident n :: .rpar :: ts => .ok (b2i (isDef n)) ts
  | .ident n :: ts => .ok (b2i (isDef n)) ts
  | _ => .err

/-- The prefix column of `kRules`, pp_parser.c:390-438, with `literal`, `variable`, `unary`
and `grouping`, pp_parser.c:287-330, 382-387; `rec` is `parse_precedence`.  `*` and `&` have
`unary` there, which ends in its assertion; a string ends in that of `literal`.
Simplification: floating literals, which the code accepts, are left out. -/
def prefixRule (isDef : Nat → Bool) (rec : Nat → List Tok → R) : List Tok → R
  | .int v _ :: ts => .ok v ts
  | .defined :: ts => parseDefined isDef ts
  | .ident _ :: ts => .ok 0 ts
  | .lpar :: ts =>
    (rec 1 ts).bind fun v rest =>
      match rest with
      | .rpar :: rest => .ok v rest
      | _ => .err
  | t :: ts =>
    match unTok t with
    | some u => (rec 14 ts).bind fun v rest => .ok (unop u v) rest
    | none => .err
  | [] => .err

/-- The infix column of `kRules`: `binary`, pp_parser.c:332-371, and `ternary`,
pp_parser.c:373-380; `rec` is `parse_precedence`. -/
def infixRule (ub : Int → Int → Int) (rec : Nat → List Tok → R) (v : Int) : List Tok → R
  | .op o :: ts =>
    (rec (opPrec o + 1) ts).bind fun b rest =>
      match binop ub o v b with
      | some c => .ok c rest
      | none => .trap
  | .question :: ts =>
    (rec 1 ts).bind fun a rest =>
      match rest with
      | .colon :: rest => (rec 3 rest).bind fun b rest => .ok (if v ≠ 0 then a else b) rest
      | _ => .err
  | _ => .err

/-- `parse_precedence`, pp_parser.c:263-285.  `inl p` is the whole function, `inr (p, v)` is
its loop with `expr = v`.  The first number bounds the recursion. -/
def parse (isDef : Nat → Bool) (ub : Int → Int → Int) :
    Nat → (Nat ⊕ (Nat × Int)) → List Tok → R
  | 0, _, _ => .fuel
  | f + 1, .inl p, ts =>
    (prefixRule isDef (fun q us => parse isDef ub f (.inl q) us) ts).bind fun v rest =>
      parse isDef ub f (.inr (p, v)) rest
  | f + 1, .inr (p, v), ts =>
    if p > precHead ts then .ok v ts
    else
      (infixRule ub (fun q us => parse isDef ub f (.inl q) us) v ts).bind fun v rest =>
        parse isDef ub f (.inr (p, v)) rest

/-- `pp_expr`, pp_parser.c:442-444, called by an enabled `handle_if`: tokens left over are
an error (preprocessor.c:651-653).  `none`: an error or a trap. -/
def ifValue (isDef : Nat → Bool) (ub : Int → Int → Int) (ts : List Tok) : Option Int :=
  match parse isDef ub (2 * ts.length + 2) (.inl 1) ts with
  | .ok v [] => some v
  | _ => none

/-! ### Specification -/

/-- Expression trees. -/
inductive Expr where
  | num (v : Int) (uns : Bool)
  | ident (n : Nat)
  | defined (n : Nat)
  | un (u : Un) (a : Expr)
  | bin (o : Op) (a b : Expr)
  | cond (c a b : Expr)
deriving Repr

/-- The token of a unary operator. -/
def tokOf : Un → Tok
  | .pos => .op .add
  | .neg => .op .sub
  | .lnot => .not
  | .bnot => .tilda

/-- The levels of the C grammar, ISO 6.5: the operators of each level, loosest first.  Level
1 is the comma expression, level 3 the conditional expression, levels 4 to 13 the
left-associative binary operators, level 14 the unary expression. -/
def level : Op → Nat := fun o =>
  let levels : List (Nat × List Op) :=
    [(1, [.comma]), (4, [.lor]), (5, [.land]), (6, [.or]), (7, [.xor]), (8, [.and]),
     (9, [.eq, .ne]), (10, [.lt, .le, .ge, .gt]), (11, [.shl, .shr]), (12, [.add, .sub]),
     (13, [.mul, .div, .mod])]
  ((levels.find? fun l => o ∈ l.2).map (·.1)).getD 0

/-- The C grammar of expressions, as a relation between a level, a token list and a tree. -/
inductive G : Nat → List Tok → Expr → Prop where
  | num (v u) : G 14 [.int v u] (.num v u)
  | ident (n) : G 14 [.ident n] (.ident n)
  | def1 (n) : G 14 [.defined, .ident n] (.defined n)
  | def2 (n) : G 14 [.defined, .lpar, .ident n, .rpar] (.defined n)
  | paren {ts e} : G 1 ts e → G 14 (.lpar :: ts ++ [.rpar]) e
  | un {ts e} (u) : G 14 ts e → G 14 (tokOf u :: ts) (.un u e)
  | bin {l r a b} (o) : G (level o) l a → G (level o + 1) r b →
      G (level o) (l ++ .op o :: r) (.bin o a b)
  | cond {c t f ec et ef} : G 4 c ec → G 1 t et → G 3 f ef →
      G 3 (c ++ .question :: t ++ .colon :: f) (.cond ec et ef)
  | up {k ts e} : G (k + 1) ts e → G k ts e

/-- The type of an expression is unsigned, ISO 6.10.1p4 and 6.3.1.8. -/
def unsignedTy : Expr → Bool
  | .num _ u => u
  | .ident _ => false
  | .defined _ => false
  | .un .lnot _ => false
  | .un _ a => unsignedTy a
  | .bin .comma _ b => unsignedTy b
  | .bin .shl a _ => unsignedTy a
  | .bin .shr a _ => unsignedTy a
  | .bin o a b =>
    if o ∈ [.land, .lor, .lt, .le, .ge, .gt, .eq, .ne] then false
    else unsignedTy a || unsignedTy b
  | .cond _ a b => unsignedTy a || unsignedTy b

/-- Value in ISO 6.10.1: `intmax_t` or `uintmax_t` arithmetic (the flag says unsigned), with
the operands that are not evaluated ignored; `none` where ISO leaves it undefined. -/
def iso (isDef : Nat → Bool) : Expr → Option (Int × Bool)
  | .num v u => some (if u then v % 2 ^ 64 else v, u)
  | .ident _ => some (0, false)
  | .defined n => some (if isDef n then 1 else 0, false)
  | .un u a =>
    match iso isDef a with
    | none => none
    | some (x, us) =>
      let fit (y : Int) : Option (Int × Bool) :=
        if us then some (y % 2 ^ 64, true)
        else if -2 ^ 63 ≤ y ∧ y < 2 ^ 63 then some (y, false) else none
      match u with
      | .pos => some (x, us)
      | .neg => fit (-x)
      | .bnot => fit (-1 - x)
      | .lnot => some (if x = 0 then 1 else 0, false)
  | .bin .land a b =>
    match iso isDef a with
    | none => none
    | some (x, _) =>
      if x = 0 then some (0, false)
      else (iso isDef b).map fun y => (if y.1 = 0 then 0 else 1, false)
  | .bin .lor a b =>
    match iso isDef a with
    | none => none
    | some (x, _) =>
      if x ≠ 0 then some (1, false)
      else (iso isDef b).map fun y => (if y.1 = 0 then 0 else 1, false)
  | .bin .comma a b => if (iso isDef a).isSome then iso isDef b else none
  | .bin o a b =>
    match iso isDef a, iso isDef b with
    | some (x, ux), some (y, uy) =>
      let us := ux || uy
      let x' := if us then x % 2 ^ 64 else x
      let y' := if us then y % 2 ^ 64 else y
      let fit (z : Int) : Option (Int × Bool) :=
        if us then some (z % 2 ^ 64, true)
        else if -2 ^ 63 ≤ z ∧ z < 2 ^ 63 then some (z, false) else none
      let truth (c : Bool) : Option (Int × Bool) := some (if c then 1 else 0, false)
      let pattern (f : BitVec 64 → BitVec 64 → BitVec 64) : Option (Int × Bool) :=
        let r := f (BitVec.ofInt 64 x) (BitVec.ofInt 64 y)
        some (if us then (r.toNat : Int) else r.toInt, us)
      match o with
      | .add => fit (x' + y')
      | .sub => fit (x' - y')
      | .mul => fit (x' * y')
      | .div => if y' = 0 then none else fit (x'.tdiv y')
      | .mod => if y' = 0 then none else (fit (x'.tdiv y')).bind fun _ => fit (x'.tmod y')
      | .shl =>
        if 0 ≤ y ∧ y < 64 then
          if ux then some (x * 2 ^ y.toNat % 2 ^ 64, true)
          else if 0 ≤ x ∧ x * 2 ^ y.toNat < 2 ^ 63 then some (x * 2 ^ y.toNat, false)
          else none
        else none
      | .shr => if 0 ≤ y ∧ y < 64 then some (x / 2 ^ y.toNat, ux) else none
      | .lt => truth (x' < y')
      | .le => truth (x' ≤ y')
      | .ge => truth (x' ≥ y')
      | .gt => truth (x' > y')
      | .eq => truth (x' = y')
      | .ne => truth (x' ≠ y')
      | .and => pattern (· &&& ·)
      | .or => pattern (· ||| ·)
      | .xor => pattern (· ^^^ ·)
      | _ => none
    | _, _ => none
  | .cond c a b =>
    match iso isDef c with
    | none => none
    | some (x, _) =>
      (if x ≠ 0 then iso isDef a else iso isDef b).map fun y =>
        if unsignedTy a || unsignedTy b then (y.1 % 2 ^ 64, true) else (y.1, false)

/-- No literal has an unsigned type, and every literal is an `intmax_t` value. -/
def Signed : Expr → Prop
  | .num v u => u = false ∧ IsI64 v
  | .ident _ => True
  | .defined _ => True
  | .un _ a => Signed a
  | .bin _ a b => Signed a ∧ Signed b
  | .cond c a b => Signed c ∧ Signed a ∧ Signed b

/-- Evaluation of a tree by the arithmetic of the code, all operands evaluated. -/
def eager (isDef : Nat → Bool) (ub : Int → Int → Int) : Expr → Option Int
  | .num v _ => some v
  | .ident _ => some 0
  | .defined n => some (b2i (isDef n))
  | .un u a => (eager isDef ub a).map (unop u)
  | .bin o a b =>
    (eager isDef ub a).bind fun x => (eager isDef ub b).bind fun y => binop ub o x y
  | .cond c a b =>
    (eager isDef ub c).bind fun x => (eager isDef ub a).bind fun y =>
      (eager isDef ub b).bind fun z => some (if x ≠ 0 then y else z)

/-- No operand, evaluated or not, divides the least value by -1. -/
def NoTrap (isDef : Nat → Bool) (ub : Int → Int → Int) (e : Expr) : Prop :=
  eager isDef ub e ≠ none

/-! ### Lemmas: fuel -/

section
variable {isDef : Nat → Bool} {ub : Int → Int → Int}

theorem R.bind_ok {r : R} {k : Int → List Tok → R} {v : Int} {rest : List Tok}
    (h : r.bind k = .ok v rest) : ∃ w us, r = .ok w us ∧ k w us = .ok v rest := by
  cases r with
  | ok w us => exact ⟨w, us, rfl, h⟩
  | err => simp [R.bind] at h
  | trap => simp [R.bind] at h
  | fuel => simp [R.bind] at h

theorem parseDefined_len {ts rest : List Tok} {v : Int} (h : parseDefined isDef ts = .ok v rest) :
    rest.length < ts.length := by
  unfold parseDefined at h
  split at h
  · cases h; simp; omega
  · cases h; simp
  · simp at h

theorem prefix_len {rec : Nat → List Tok → R} {ts rest : List Tok} {v : Int}
    (hr : ∀ p us w vs, rec p us = .ok w vs → vs.length < us.length)
    (h : prefixRule isDef rec ts = .ok v rest) : rest.length < ts.length := by
  unfold prefixRule at h
  split at h
  · cases h; simp
  · have := parseDefined_len h; simp; omega
  · cases h; simp
  · obtain ⟨w, us, h1, h2⟩ := R.bind_ok h
    have := hr _ _ _ _ h1
    split at h2
    · cases h2; simp at this ⊢; omega
    · simp at h2
  · split at h
    · obtain ⟨w, us, h1, h2⟩ := R.bind_ok h
      have := hr _ _ _ _ h1
      cases h2; simp; omega
    · simp at h
  · simp at h

theorem infix_len {rec : Nat → List Tok → R} {ts rest : List Tok} {v0 v : Int}
    (hr : ∀ p us w vs, rec p us = .ok w vs → vs.length < us.length)
    (h : infixRule ub rec v0 ts = .ok v rest) : rest.length < ts.length := by
  unfold infixRule at h
  split at h
  · obtain ⟨w, us, h1, h2⟩ := R.bind_ok h
    have := hr _ _ _ _ h1
    split at h2
    · cases h2; simp; omega
    · simp at h2
  · obtain ⟨w, us, h1, h2⟩ := R.bind_ok h
    have h3 := hr _ _ _ _ h1
    split at h2
    · obtain ⟨w', us', h4, h5⟩ := R.bind_ok h2
      have h6 := hr _ _ _ _ h4
      cases h5
      simp at h3 h6 ⊢; omega
    · simp at h2
  · simp at h

theorem parse_len : ∀ f, (∀ p ts v rest, parse isDef ub f (.inl p) ts = .ok v rest →
      rest.length < ts.length) ∧
    (∀ p w ts v rest, parse isDef ub f (.inr (p, w)) ts = .ok v rest → rest.length ≤ ts.length)
  | 0 => by constructor <;> · intros; rename_i h; simp [parse] at h
  | f + 1 => by
    obtain ⟨h1, h2⟩ := parse_len f
    constructor
    · intro p ts v rest h
      simp only [parse] at h
      obtain ⟨w, us, h3, h4⟩ := R.bind_ok h
      have := prefix_len h1 h3
      have := h2 _ _ _ _ _ h4
      omega
    · intro p w ts v rest h
      simp only [parse] at h
      split at h
      · cases h; omega
      · obtain ⟨w, us, h3, h4⟩ := R.bind_ok h
        have := infix_len h1 h3
        have := h2 _ _ _ _ _ h4
        omega

theorem prefix_congr {rec rec' : Nat → List Tok → R} {ts : List Tok}
    (h : ∀ p us, us.length < ts.length → rec p us = rec' p us) :
    prefixRule isDef rec ts = prefixRule isDef rec' ts := by
  unfold prefixRule
  split
  · rfl
  · rfl
  · rfl
  · rw [h _ _ (by simp)]
  · split
    · rw [h _ _ (by simp)]
    · rfl
  · rfl

theorem infix_congr {rec rec' : Nat → List Tok → R} {ts : List Tok} {v : Int}
    (hr : ∀ p us w vs, rec' p us = .ok w vs → vs.length < us.length)
    (h : ∀ p us, us.length < ts.length → rec p us = rec' p us) :
    infixRule ub rec v ts = infixRule ub rec' v ts := by
  unfold infixRule
  split
  · rw [h _ _ (by simp)]
  · rename_i us
    rw [h _ _ (by simp)]
    cases h1 : rec' 1 us with
    | ok w vs =>
      have := hr _ _ _ _ h1
      simp only [R.bind]
      split
      · rename_i rest
        simp only [List.length_cons] at this
        rw [h 3 rest (by simp; omega)]
      · rfl
    | err => rfl
    | trap => rfl
    | fuel => rfl
  · rfl

theorem bind_congr {r r' : R} {k k' : Int → List Tok → R} (h : r = r')
    (hk : ∀ v rest, r' = .ok v rest → k v rest = k' v rest) : r.bind k = r'.bind k' := by
  subst h
  cases r with
  | ok v rest => exact hk v rest rfl
  | err => rfl
  | trap => rfl
  | fuel => rfl

/-- Two sufficient amounts of fuel give the same result. -/
theorem parse_agree : ∀ f f',
    (∀ p ts, 2 * ts.length + 2 ≤ f → 2 * ts.length + 2 ≤ f' →
      parse isDef ub f (.inl p) ts = parse isDef ub f' (.inl p) ts) ∧
    (∀ p v ts, 2 * ts.length + 1 ≤ f → 2 * ts.length + 1 ≤ f' →
      parse isDef ub f (.inr (p, v)) ts = parse isDef ub f' (.inr (p, v)) ts)
  | 0, f' => ⟨fun _ _ h => absurd h (by omega), fun _ _ _ h => absurd h (by omega)⟩
  | f + 1, 0 => ⟨fun _ _ _ h => absurd h (by omega), fun _ _ _ _ h => absurd h (by omega)⟩
  | f + 1, f' + 1 => by
    obtain ⟨h1, h2⟩ := parse_agree f f'
    constructor
    · intro p ts hf hf'
      simp only [parse]
      refine bind_congr (prefix_congr ?_) ?_
      · intro q us hu
        exact h1 q us (by omega) (by omega)
      · intro v rest h
        have := prefix_len (parse_len f').1 h
        exact h2 _ _ _ (by omega) (by omega)
    · intro p v ts hf hf'
      simp only [parse]
      split
      · rfl
      · refine bind_congr (infix_congr (parse_len f').1 ?_) ?_
        · intro q us hu
          exact h1 q us (by omega) (by omega)
        · intro v rest h
          have := infix_len (parse_len f').1 h
          exact h2 _ _ _ (by omega) (by omega)

end

/-- The parser with enough fuel. -/
def pr (isDef : Nat → Bool) (ub : Int → Int → Int) (p : Nat) (ts : List Tok) : R :=
  parse isDef ub (2 * ts.length + 2) (.inl p) ts

/-- Its loop with enough fuel. -/
def lp (isDef : Nat → Bool) (ub : Int → Int → Int) (p : Nat) (v : Int) (ts : List Tok) : R :=
  parse isDef ub (2 * ts.length + 1) (.inr (p, v)) ts

section
variable {isDef : Nat → Bool} {ub : Int → Int → Int}

theorem pr_len (p : Nat) (ts : List Tok) (v : Int) (rest : List Tok)
    (h : pr isDef ub p ts = .ok v rest) : rest.length < ts.length := (parse_len _).1 _ _ _ _ h

theorem pr_eq (p : Nat) (ts : List Tok) :
    pr isDef ub p ts = (prefixRule isDef (pr isDef ub) ts).bind (lp isDef ub p) := by
  change (prefixRule isDef (fun q us => parse isDef ub (2 * ts.length + 1) (.inl q) us) ts).bind
    (fun v rest => parse isDef ub (2 * ts.length + 1) (.inr (p, v)) rest) = _
  refine bind_congr (prefix_congr fun q us hu => ?_) fun v rest h => ?_
  · apply (parse_agree _ _).1 q us <;> omega
  · have := prefix_len (pr_len (ub := ub)) h
    apply (parse_agree _ _).2 <;> omega

theorem lp_eq (p : Nat) (v : Int) (ts : List Tok) :
    lp isDef ub p v ts =
      if p > precHead ts then .ok v ts
      else (infixRule ub (pr isDef ub) v ts).bind (lp isDef ub p) := by
  change (if p > precHead ts then .ok v ts
    else (infixRule ub (fun q us => parse isDef ub (2 * ts.length) (.inl q) us) v ts).bind
      fun v rest => parse isDef ub (2 * ts.length) (.inr (p, v)) rest) = _
  split
  · rfl
  · refine bind_congr (infix_congr pr_len fun q us hu => ?_) fun v rest h => ?_
    · apply (parse_agree _ _).1 q us <;> omega
    · have := infix_len pr_len h
      apply (parse_agree _ _).2 <;> omega

/-- Sufficient fuel is never used up: the parser stops on every input. -/
theorem fuel_enough : ∀ (n p : Nat) (ts : List Tok), ts.length ≤ n →
    pr isDef ub p ts ≠ .fuel ∧ ∀ v, lp isDef ub p v ts ≠ .fuel := by
  intro n
  induction n with
  | zero =>
    intro p ts hn
    have : ts = [] := by cases ts <;> simp_all
    subst this
    constructor
    · rw [pr_eq]; simp [prefixRule, R.bind]
    · intro v; rw [lp_eq]; split
      · simp
      · simp [infixRule, R.bind]
  | succ n ih =>
    intro p ts hn
    have hb : ∀ {r : R} {k : Int → List Tok → R}, r ≠ .fuel →
        (∀ v rest, r = .ok v rest → k v rest ≠ .fuel) → r.bind k ≠ .fuel := by
      intro r k h1 h2
      cases r with
      | ok v rest => exact h2 v rest rfl
      | err => simp [R.bind]
      | trap => simp [R.bind]
      | fuel => exact absurd rfl h1
    constructor
    · rw [pr_eq]
      refine hb ?_ fun v rest h => ?_
      · unfold prefixRule
        split
        · simp
        · unfold parseDefined; split <;> simp
        · simp
        · refine hb (ih _ _ (by simp at hn; omega)).1 fun v rest h => ?_
          split <;> simp
        · split
          · exact hb (ih _ _ (by simp at hn; omega)).1 fun v rest h => by simp
          · simp
        · simp
      · have := prefix_len (pr_len (ub := ub)) h
        exact (ih _ _ (by omega)).2 v
    · intro v
      rw [lp_eq]
      split
      · simp
      · refine hb ?_ fun v rest h => ?_
        · unfold infixRule
          split
          · refine hb (ih _ _ (by simp at hn; omega)).1 fun v rest h => ?_
            split <;> simp
          · refine hb (ih _ _ (by simp at hn; omega)).1 fun v rest h => ?_
            split
            · have := pr_len _ _ _ _ h
              simp at hn this
              exact hb (ih _ _ (by omega)).1 fun v rest h => by simp
            · simp
          · simp
        · have := infix_len pr_len h
          exact (ih _ _ (by omega)).2 v

/-! ### Lemmas: the grammar -/

theorem level_eq (o : Op) : level o = opPrec o := by cases o <;> rfl

theorem unTok_tokOf (u : Un) : unTok (tokOf u) = some u := by cases u <;> rfl

theorem tokOf_of {t : Tok} {u : Un} (h : unTok t = some u) : t = tokOf u := by
  unfold unTok at h
  split at h <;> first | (cases h; rfl) | simp at h

theorem opPrec_pos (o : Op) : 1 ≤ opPrec o := by cases o <;> decide

theorem opPrec_low (o : Op) (h : opPrec o ≤ 3) : opPrec o = 1 := by
  cases o <;> revert h <;> decide

theorem prec_le (t : Tok) : prec t ≤ 13 := by
  cases t with
  | op o => cases o <;> decide
  | _ => simp [prec]

theorem precHead_le (ts : List Tok) : precHead ts ≤ 13 := by
  cases ts with
  | nil => decide
  | cons t ts => exact prec_le t

/-- What may follow an expression of level `k` without becoming part of it, other than as the
left operand of an operator of the same level. -/
def Fol (k : Nat) (ts : List Tok) : Prop := precHead ts ≤ k ∧ (k ≤ 3 → precHead ts < 3)

theorem lp_stop {p : Nat} {v : Int} {ts : List Tok} (h : precHead ts < p) :
    lp isDef ub p v ts = .ok v ts := by
  rw [lp_eq, if_pos h]

theorem prefix_un (u : Un) (ts : List Tok) (rec : Nat → List Tok → R) :
    prefixRule isDef rec (tokOf u :: ts) =
      (rec 14 ts).bind fun v rest => .ok (unop u v) rest := by
  cases u <;> rfl

/-- Completeness. -/
theorem complete {k : Nat} {ts : List Tok} {e : Expr} (hg : G k ts e) :
    ∀ {v : Int}, eager isDef ub e = some v → ∀ (p : Nat) (rest : List Tok), p ≤ k →
      Fol k rest → pr isDef ub p (ts ++ rest) = lp isDef ub p v rest := by
  induction hg with
  | num w u =>
    intro v hv p rest _ _
    rw [pr_eq]
    cases hv
    rfl
  | ident n =>
    intro v hv p rest _ _
    rw [pr_eq]
    cases hv
    rfl
  | def1 n =>
    intro v hv p rest _ _
    rw [pr_eq]
    cases hv
    rfl
  | def2 n =>
    intro v hv p rest _ _
    rw [pr_eq]
    cases hv
    rfl
  | @paren ts e _ ih =>
    intro v hv p rest _ _
    rw [pr_eq]
    have := ih hv 1 (.rpar :: rest) (Nat.le_refl _) ⟨by simp [precHead, prec], by simp [precHead, prec]⟩
    rw [lp_stop (by simp [precHead, prec])] at this
    simp only [List.cons_append, List.append_assoc, List.nil_append, prefixRule, this, R.bind]
  | @un ts e u _ ih =>
    intro v hv p rest _ _
    simp only [eager] at hv
    cases he : eager isDef ub e with
    | none => rw [he] at hv; simp at hv
    | some w =>
      rw [he] at hv
      simp only [Option.map_some, Option.some.injEq] at hv
      subst hv
      have h13 := precHead_le rest
      have := ih he 14 rest (Nat.le_refl _) ⟨by omega, by omega⟩
      rw [lp_stop (by omega)] at this
      rw [pr_eq, List.cons_append, prefix_un, this]
      rfl
  | @bin l r a b o _ _ iha ihb =>
    intro v hv p rest hp hf
    simp only [eager] at hv
    rw [level_eq] at iha ihb hp hf
    cases ha : eager isDef ub a with
    | none => rw [ha] at hv; simp at hv
    | some x =>
      cases hb : eager isDef ub b with
      | none => rw [ha, hb] at hv; simp at hv
      | some y =>
        rw [ha, hb] at hv
        simp only [Option.bind_some] at hv
        have h1 := iha ha p (.op o :: (r ++ rest)) hp
          ⟨Nat.le_refl _, fun h => by simp only [precHead, prec]; have := opPrec_low o h; omega⟩
        have h2 := ihb hb (opPrec o + 1) rest (Nat.le_refl _)
          ⟨by have := hf.1; omega, fun h => hf.2 (by omega)⟩
        rw [lp_stop (by have := hf.1; omega)] at h2
        rw [List.append_assoc, List.cons_append, h1, lp_eq, if_neg]
        · simp only [infixRule, h2, R.bind, hv]
        · simp only [precHead, prec]
          omega
  | @cond c t f ec et ef _ _ _ ihc iht ihf =>
    intro v hv p rest hp hf
    simp only [eager] at hv
    cases hc : eager isDef ub ec with
    | none => rw [hc] at hv; simp at hv
    | some x =>
      cases ht : eager isDef ub et with
      | none => rw [hc, ht] at hv; simp at hv
      | some y =>
        cases he : eager isDef ub ef with
        | none => rw [hc, ht, he] at hv; simp at hv
        | some z =>
          rw [hc, ht, he] at hv
          simp only [Option.bind_some, Option.some.injEq] at hv
          have h1 := ihc hc p (.question :: (t ++ .colon :: (f ++ rest))) (by omega)
            ⟨by simp [precHead, prec], by simp [precHead, prec]⟩
          have h2 := iht ht 1 (.colon :: (f ++ rest)) (Nat.le_refl _) ⟨by simp [precHead, prec], by simp [precHead, prec]⟩
          rw [lp_stop (by simp [precHead, prec])] at h2
          have h3 := ihf he 3 rest (Nat.le_refl _) hf
          rw [lp_stop (hf.2 (Nat.le_refl _))] at h3
          have e1 : c ++ .question :: t ++ .colon :: f ++ rest =
              c ++ .question :: (t ++ .colon :: (f ++ rest)) := by simp
          rw [e1, h1, lp_eq, if_neg]
          · simp only [infixRule, h2, h3, R.bind, hv]
          · simp only [precHead, prec]
            omega
  | @up k ts e _ ih =>
    intro v hv p rest hp hf
    exact ih hv p rest (by omega) ⟨by have := hf.1; omega, fun h => hf.2 (by omega)⟩

theorem G_down {k : Nat} {ts : List Tok} {e : Expr} (h : G k ts e) : ∀ j, j ≤ k → G j ts e := by
  intro j hj
  obtain ⟨d, rfl⟩ := Nat.exists_eq_add_of_le hj
  induction d with
  | zero => exact h
  | succ d ih => exact ih (by rw [← Nat.add_assoc] at h; exact .up h) (by omega)

/-- Soundness. -/
theorem sound : ∀ n,
    (∀ (p : Nat) (ts : List Tok) (v : Int) (rest : List Tok), ts.length ≤ n → 1 ≤ p → p ≤ 14 →
      pr isDef ub p ts = .ok v rest → ∃ us e, ts = us ++ rest ∧ G p us e ∧
        eager isDef ub e = some v ∧ precHead rest < p) ∧
    (∀ (p k : Nat) (ts : List Tok) (v w : Int) (rest us : List Tok) (e : Expr), ts.length ≤ n →
      1 ≤ p → p ≤ k → G k us e → eager isDef ub e = some w → Fol k ts →
      lp isDef ub p w ts = .ok v rest → ∃ us' e', us ++ ts = us' ++ rest ∧ G p us' e' ∧
        eager isDef ub e' = some v ∧ precHead rest < p) := by
  intro n
  induction n with
  | zero =>
    constructor
    · intro p ts v rest hn _ _ h
      have : ts = [] := by cases ts <;> simp_all
      subst this
      rw [pr_eq] at h
      simp [prefixRule, R.bind] at h
    · intro p k ts v w rest us e hn hp hk hg he hf h
      have : ts = [] := by cases ts <;> simp_all
      subst this
      rw [lp_stop (by simp [precHead]; omega)] at h
      cases h
      exact ⟨us, e, rfl, G_down hg p hk, he, by simp [precHead]; omega⟩
  | succ n ih =>
    obtain ⟨ihp, ihl⟩ := ih
    constructor
    · intro p ts v rest hn hp hp' h
      rw [pr_eq] at h
      obtain ⟨w, vs, h1, h2⟩ := R.bind_ok h
      -- the prefix
      have hpre : ∃ us e, ts = us ++ vs ∧ G 14 us e ∧ eager isDef ub e = some w := by
        unfold prefixRule at h1
        split at h1
        · cases h1
          exact ⟨[_], _, rfl, .num _ _, rfl⟩
        · unfold parseDefined at h1
          split at h1
          · cases h1
            exact ⟨[_, _, _, _], _, rfl, .def2 _, rfl⟩
          · cases h1
            exact ⟨[_, _], _, rfl, .def1 _, rfl⟩
          · simp at h1
        · cases h1
          exact ⟨[_], _, rfl, .ident _, rfl⟩
        · obtain ⟨x, xs, h3, h4⟩ := R.bind_ok h1
          obtain ⟨us, e, h5, h6, h7, _⟩ := ihp 1 _ _ _ (by simp at hn; omega) (by omega) (by omega) h3
          split at h4
          · cases h4
            refine ⟨_, e, ?_, .paren h6, h7⟩
            rw [h5]; simp
          · simp at h4
        · split at h1
          · rename_i u hu
            obtain ⟨x, xs, h3, h4⟩ := R.bind_ok h1
            obtain ⟨us, e, h5, h6, h7, _⟩ :=
              ihp 14 _ _ _ (by simp at hn; omega) (by omega) (by omega) h3
            cases h4
            refine ⟨_, .un u e, ?_, .un u h6, ?_⟩
            · rw [h5, tokOf_of hu]; rfl
            · simp [eager, h7]
          · simp at h1
        · simp at h1
      obtain ⟨us, e, rfl, hg, he⟩ := hpre
      have hlen := prefix_len (pr_len (ub := ub)) h1
      have h13 := precHead_le vs
      exact ihl p 14 vs v w rest us e (by omega) hp hp' hg he ⟨by omega, by omega⟩ h2
    · intro p k ts v w rest us e hn hp hk hg he hf h
      rw [lp_eq] at h
      split at h
      · cases h
        exact ⟨us, e, rfl, G_down hg p hk, he, by assumption⟩
      · rename_i hstop
        obtain ⟨x, xs, h1, h2⟩ := R.bind_ok h
        have hlen := infix_len pr_len h1
        unfold infixRule at h1
        split at h1
        · rename_i o tl
          simp only [precHead, prec] at hstop
          obtain ⟨y, ys, h3, h4⟩ := R.bind_ok h1
          have ho : opPrec o + 1 ≤ 14 := by have := prec_le (.op o); simpa [prec] using this
          obtain ⟨us2, e2, h5, h6, h7, h8⟩ :=
            ihp _ _ _ _ (by simp at hn; omega) (by omega) ho h3
          split at h4
          · rename_i c hc
            cases h4
            have hk' : opPrec o ≤ k := hf.1
            have hg2 : G (level o) (us ++ .op o :: us2) (.bin o e e2) :=
              .bin o (by rw [level_eq]; exact G_down hg _ hk') (by rw [level_eq]; exact h6)
            rw [level_eq] at hg2
            have hev : eager isDef ub (.bin o e e2) = some x := by
              simp only [eager, he, h7, Option.bind_some, hc]
            have hfol : Fol (opPrec o) xs := by
              refine ⟨by omega, fun h => ?_⟩
              have := opPrec_low o h
              omega
            obtain ⟨us', e', h9, h10⟩ := ihl p (opPrec o) xs v x rest _ _
              (by simp at hn hlen; omega) hp (by omega) hg2 hev hfol h2
            exact ⟨us', e', by rw [← h9, h5]; simp, h10⟩
          · simp at h4
        · rename_i tl
          simp only [precHead, prec] at hstop
          have hk4 : 4 ≤ k := by
            have h1 := hf.1
            have h2 := hf.2
            simp only [precHead, prec] at h1 h2
            omega
          obtain ⟨y, ys, h3, h4⟩ := R.bind_ok h1
          obtain ⟨us2, e2, h5, h6, h7, h8⟩ :=
            ihp _ _ _ _ (by simp at hn; omega) (by omega) (by omega) h3
          split at h4
          · rename_i tl2
            obtain ⟨z, zs, h9, h10⟩ := R.bind_ok h4
            have := pr_len _ _ _ _ h3
            obtain ⟨us3, e3, h11, h12, h13, h14⟩ :=
              ihp _ _ _ _ (by simp at hn this; omega) (by omega) (by omega) h9
            cases h10
            have hg2 : G 3 (us ++ .question :: us2 ++ .colon :: us3) (.cond e e2 e3) :=
              .cond (G_down hg 4 hk4) h6 h12
            have hev : eager isDef ub (.cond e e2 e3) = some (if w ≠ 0 then y else z) := by
              simp only [eager, he, h7, h13, Option.bind_some]
            have hfol : Fol 3 xs := ⟨by omega, fun _ => h14⟩
            obtain ⟨us', e', h15, h16⟩ := ihl p 3 xs v _ rest _ _
              (by simp at hn hlen; omega) hp (by omega) hg2 hev hfol h2
            exact ⟨us', e', by rw [← h15, h5, h11]; simp, h16⟩
          · simp at h4
        · simp at h1

end

/-! ### Lemmas: arithmetic -/

theorem toS_of {v : Int} (h : IsI64 v) : toS 64 v = v := by
  unfold IsI64 at h
  unfold toS
  simp only
  split <;> omega

theorem signed_ty : ∀ {e : Expr}, Signed e → unsignedTy e = false
  | .num _ _, h => h.1
  | .ident _, _ => rfl
  | .defined _, _ => rfl
  | .un u a, h => by
    have := signed_ty (e := a) h
    cases u <;> simp [unsignedTy, this]
  | .bin o a b, h => by
    have h1 := signed_ty (e := a) h.1
    have h2 := signed_ty (e := b) h.2
    cases o <;> simp [unsignedTy, h1, h2]
  | .cond c a b, h => by
    simp [unsignedTy, signed_ty (e := a) h.2.1, signed_ty (e := b) h.2.2]

theorem b2i_range (b : Bool) : IsI64 (b2i b) := by
  cases b <;> simp [b2i, IsI64]

theorem bits_range (f : BitVec 64 → BitVec 64 → BitVec 64) (a b : Int) : IsI64 (bits f a b) := by
  unfold bits IsI64
  have h1 := BitVec.toInt_lt (x := f (BitVec.ofInt 64 a) (BitVec.ofInt 64 b))
  have h2 := BitVec.le_toInt (x := f (BitVec.ofInt 64 a) (BitVec.ofInt 64 b))
  simp at h1 h2
  omega

theorem fit_of {z : Int} {r : Int × Bool}
    (h : (if -2 ^ 63 ≤ z ∧ z < 2 ^ 63 then some (z, false) else none) = some r) :
    r = (z, false) ∧ IsI64 z := by
  split at h
  · rename_i hz
    cases h
    exact ⟨rfl, hz⟩
  · simp at h

theorem shr_range {x : Int} (h : IsI64 x) (n : Nat) : IsI64 (x / 2 ^ n) := by
  have hp : (0 : Int) < 2 ^ n := Int.pow_pos (by decide)
  unfold IsI64 at *
  constructor
  · rw [Int.le_ediv_iff_mul_le hp]
    have : (1 : Int) ≤ 2 ^ n := hp
    nlinarith
  · rw [Int.ediv_lt_iff_lt_mul hp]
    have : (1 : Int) ≤ 2 ^ n := hp
    nlinarith

/-- On signed expressions the eager 64-bit evaluation has ISO's value. -/
theorem eager_iso (isDef : Nat → Bool) (ub : Int → Int → Int) : ∀ {e : Expr}, Signed e →
    ∀ {x : Int} {u : Bool}, iso isDef e = some (x, u) → ∀ {v : Int},
      eager isDef ub e = some v → v = x ∧ u = false ∧ IsI64 x
  | .num w us, hs, x, u, h, v, he => by
    obtain ⟨rfl, hr⟩ := hs
    cases h
    cases he
    exact ⟨rfl, rfl, hr⟩
  | .ident _, _, x, u, h, v, he => by
    cases h
    cases he
    exact ⟨rfl, rfl, by simp [IsI64]⟩
  | .defined n, _, x, u, h, v, he => by
    cases h
    cases he
    exact ⟨rfl, rfl, b2i_range (isDef n)⟩
  | .un o a, hs, x, u, h, v, he => by
    simp only [iso, eager] at h he
    cases ha : iso isDef a with
    | none => rw [ha] at h; simp at h
    | some r =>
      cases hb : eager isDef ub a with
      | none => rw [hb] at he; simp at he
      | some w =>
        obtain ⟨y, us⟩ := r
        obtain ⟨rfl, rfl, hr⟩ := eager_iso isDef ub (e := a) hs ha hb
        rw [ha] at h
        rw [hb] at he
        simp only [Option.map_some, Option.some.injEq] at he
        subst he
        cases o with
        | pos => cases h; exact ⟨rfl, rfl, hr⟩
        | neg =>
          obtain ⟨h1, h2⟩ := fit_of h
          cases h1
          exact ⟨toS_of h2, rfl, h2⟩
        | bnot =>
          obtain ⟨h1, h2⟩ := fit_of h
          cases h1
          exact ⟨by simp only [unop]; omega, rfl, h2⟩
        | lnot =>
          simp only [Option.some.injEq, Prod.mk.injEq] at h
          obtain ⟨rfl, rfl⟩ := h
          refine ⟨by simp [unop, b2i], rfl, ?_⟩
          split <;> simp [IsI64]
  | .cond c a b, hs, x, u, h, v, he => by
    simp only [iso, eager, signed_ty hs.2.1, signed_ty hs.2.2] at h he
    cases hc : iso isDef c with
    | none => rw [hc] at h; simp at h
    | some r =>
      obtain ⟨xc, uc⟩ := r
      cases hc' : eager isDef ub c with
      | none => rw [hc'] at he; simp at he
      | some wc =>
        cases ha' : eager isDef ub a with
        | none => rw [hc', ha'] at he; simp at he
        | some wa =>
          cases hb' : eager isDef ub b with
          | none => rw [hc', ha', hb'] at he; simp at he
          | some wb =>
            rw [hc', ha', hb'] at he
            simp only [Option.bind_some, Option.some.injEq] at he
            obtain ⟨rfl, _, _⟩ := eager_iso isDef ub (e := c) hs.1 hc hc'
            rw [hc] at h
            simp only [Bool.or_self, Bool.false_eq_true, if_false] at h
            split at h
            · rename_i hne
              rw [if_pos hne] at he
              subst he
              cases ha : iso isDef a with
              | none => rw [ha] at h; simp at h
              | some r =>
                obtain ⟨xa, ua⟩ := r
                rw [ha] at h
                obtain ⟨rfl, _, hr⟩ := eager_iso isDef ub (e := a) hs.2.1 ha ha'
                simp at h
                obtain ⟨rfl, rfl⟩ := h
                exact ⟨rfl, rfl, hr⟩
            · rename_i hne
              rw [if_neg hne] at he
              subst he
              cases hb : iso isDef b with
              | none => rw [hb] at h; simp at h
              | some r =>
                obtain ⟨xb, ub'⟩ := r
                rw [hb] at h
                obtain ⟨rfl, _, hr⟩ := eager_iso isDef ub (e := b) hs.2.2 hb hb'
                simp at h
                obtain ⟨rfl, rfl⟩ := h
                exact ⟨rfl, rfl, hr⟩
  | .bin o a b, hs, x, u, h, v, he => by
    simp only [eager] at he
    cases ha' : eager isDef ub a with
    | none => rw [ha'] at he; simp at he
    | some wa =>
      cases hb' : eager isDef ub b with
      | none => rw [ha', hb'] at he; simp at he
      | some wb =>
        rw [ha', hb'] at he
        simp only [Option.bind_some] at he
        cases ha : iso isDef a with
        | none => cases o <;> simp [iso, ha] at h
        | some r =>
          obtain ⟨xa, ua⟩ := r
          obtain ⟨rfl, rfl, hra⟩ := eager_iso isDef ub (e := a) hs.1 ha ha'
          by_cases hl : o = .land ∧ wa = 0
          · obtain ⟨rfl, rfl⟩ := hl
            simp [iso, ha] at h
            obtain ⟨rfl, rfl⟩ := h
            simp [binop, b2i] at he
            subst he
            exact ⟨rfl, rfl, by simp [IsI64]⟩
          by_cases hl' : o = .lor ∧ wa ≠ 0
          · obtain ⟨rfl, h0⟩ := hl'
            simp [iso, ha, h0] at h
            obtain ⟨rfl, rfl⟩ := h
            simp [binop, b2i, h0] at he
            subst he
            exact ⟨rfl, rfl, by simp [IsI64]⟩
          cases hb : iso isDef b with
          | none => cases o <;> simp_all [iso]
          | some r =>
            obtain ⟨xb, ub'⟩ := r
            obtain ⟨rfl, rfl, hrb⟩ := eager_iso isDef ub (e := b) hs.2 hb hb'
            have ht : ∀ c : Bool, (if c then (1 : Int) else 0) = b2i c := fun _ => rfl
            cases o with
            | land =>
              have h0 : wa ≠ 0 := fun h => hl ⟨rfl, h⟩
              simp [iso, ha, hb, h0] at h
              obtain ⟨rfl, rfl⟩ := h
              simp [binop, b2i, h0] at he
              subst he
              refine ⟨?_, rfl, ?_⟩
              · by_cases hw : wb = 0 <;> simp [hw]
              · split <;> simp [IsI64]
            | lor =>
              have h0 : wa = 0 := Decidable.not_not.1 fun h => hl' ⟨rfl, h⟩
              simp [iso, ha, hb, h0] at h
              obtain ⟨rfl, rfl⟩ := h
              simp [binop, b2i, h0] at he
              subst he
              refine ⟨?_, rfl, ?_⟩
              · by_cases hw : wb = 0 <;> simp [hw]
              · split <;> simp [IsI64]
            | comma =>
              simp [iso, ha, hb] at h
              obtain ⟨rfl, rfl⟩ := h
              cases he
              exact ⟨rfl, rfl, hrb⟩
            | add =>
              simp only [iso, ha, hb] at h
              obtain ⟨h1, h2⟩ := fit_of h
              cases h1
              cases he
              exact ⟨toS_of h2, rfl, h2⟩
            | sub =>
              simp only [iso, ha, hb] at h
              obtain ⟨h1, h2⟩ := fit_of h
              cases h1
              cases he
              exact ⟨toS_of h2, rfl, h2⟩
            | mul =>
              simp only [iso, ha, hb] at h
              obtain ⟨h1, h2⟩ := fit_of h
              cases h1
              cases he
              exact ⟨toS_of h2, rfl, h2⟩
            | div =>
              simp only [iso, ha, hb, Bool.or_self, Bool.false_eq_true, if_false] at h
              split at h
              · simp at h
              · rename_i h0
                obtain ⟨h1, h2⟩ := fit_of h
                cases h1
                simp only [binop] at he
                rw [if_pos h0] at he
                split at he
                · simp at he
                · cases he
                  exact ⟨rfl, rfl, h2⟩
            | mod =>
              simp only [iso, ha, hb, Bool.or_self, Bool.false_eq_true, if_false] at h
              split at h
              · simp at h
              · rename_i h0
                split at h
                · rename_i hq
                  simp only [Option.bind_some] at h
                  obtain ⟨h1, h2⟩ := fit_of h
                  cases h1
                  simp only [binop] at he
                  rw [if_pos h0] at he
                  split at he
                  · simp at he
                  · cases he
                    exact ⟨rfl, rfl, h2⟩
                · simp at h
            | shl =>
              simp only [iso, ha, hb, Bool.or_self, Bool.false_eq_true, if_false] at h
              split at h
              · rename_i hsh
                split at h
                · rename_i hr
                  cases h
                  have : IsI64 (wa * 2 ^ wb.toNat) := by
                    refine ⟨?_, hr.2⟩
                    have : 0 ≤ wa * 2 ^ wb.toNat :=
                      Int.mul_nonneg hr.1 (Int.pow_nonneg (by decide))
                    omega
                  simp only [binop, if_pos hsh] at he
                  cases he
                  exact ⟨toS_of this, rfl, this⟩
                · simp at h
              · simp at h
            | shr =>
              simp only [iso, ha, hb, Bool.or_self, Bool.false_eq_true, if_false] at h
              split at h
              · rename_i hsh
                cases h
                simp only [binop, if_pos hsh] at he
                cases he
                exact ⟨rfl, rfl, shr_range hra _⟩
              · simp at h
            | and =>
              simp only [iso, ha, hb, Bool.or_self, Bool.false_eq_true, if_false,
                Option.some.injEq, Prod.mk.injEq] at h
              obtain ⟨rfl, rfl⟩ := h
              simp only [binop, Option.some.injEq] at he
              subst he
              exact ⟨by simp only [bits], rfl, by
                have := bits_range (· &&& ·) wa wb
                simpa only [bits] using this⟩
            | or =>
              simp only [iso, ha, hb, Bool.or_self, Bool.false_eq_true, if_false,
                Option.some.injEq, Prod.mk.injEq] at h
              obtain ⟨rfl, rfl⟩ := h
              simp only [binop, Option.some.injEq] at he
              subst he
              exact ⟨by simp only [bits], rfl, by
                have := bits_range (· ||| ·) wa wb
                simpa only [bits] using this⟩
            | xor =>
              simp only [iso, ha, hb, Bool.or_self, Bool.false_eq_true, if_false,
                Option.some.injEq, Prod.mk.injEq] at h
              obtain ⟨rfl, rfl⟩ := h
              simp only [binop, Option.some.injEq] at he
              subst he
              exact ⟨by simp only [bits], rfl, by
                have := bits_range (· ^^^ ·) wa wb
                simpa only [bits] using this⟩
            | _ =>
              simp only [iso, ha, hb, Bool.or_self, Bool.false_eq_true, if_false,
                Option.some.injEq, Prod.mk.injEq] at h
              obtain ⟨rfl, rfl⟩ := h
              cases he
              exact ⟨rfl, rfl, b2i_range _⟩

/-! ### Theorems -/

/-- C21: an `#if` line is accepted with a value exactly when its tokens are a C expression and
the value is that of the tree, all operands evaluated. -/
theorem if_accepts_iff (isDef : Nat → Bool) (ub : Int → Int → Int) (ts : List Tok) (v : Int) :
    ifValue isDef ub ts = some v ↔ ∃ e, G 1 ts e ∧ eager isDef ub e = some v := by
  have : ifValue isDef ub ts = some v ↔ pr isDef ub 1 ts = .ok v [] := by
    unfold ifValue
    change (match pr isDef ub 1 ts with
      | .ok v [] => some v
      | _ => none) = _ ↔ _
    split
    · simp_all
    · rename_i hne
      constructor
      · intro h; simp at h
      · intro h; exact absurd h (hne v)
  rw [this]
  constructor
  · intro h
    obtain ⟨us, e, h1, h2, h3, _⟩ :=
      (sound ts.length).1 1 ts v [] (Nat.le_refl _) (by omega) (by omega) h
    rw [List.append_nil] at h1
    exact ⟨e, h1 ▸ h2, h3⟩
  · rintro ⟨e, hg, he⟩
    have := complete hg he 1 [] (Nat.le_refl _) ⟨by simp [precHead, prec], by simp [precHead, prec]⟩
    rw [List.append_nil] at this
    rw [this, lp_stop (by simp [precHead, prec])]

/-- The model's bound on the recursion is never reached. -/
theorem if_terminates (isDef : Nat → Bool) (ub : Int → Int → Int) (ts : List Tok) :
    parse isDef ub (2 * ts.length + 2) (.inl 1) ts ≠ .fuel :=
  (fuel_enough ts.length 1 ts (Nat.le_refl _)).1

/-- C21: the tokens of a C expression, of any size and nesting, evaluate in `#if` to the value
ISO gives its tree.  Partial: expressions without unsigned literals (`unsigned_compare` shows
the difference) in which no operand, not even an unevaluated one, divides the least value by
-1 (`trap_unevaluated`). -/
theorem if_value_partial (isDef : Nat → Bool) (ub : Int → Int → Int) {ts : List Tok} {e : Expr}
    (hg : G 1 ts e) (hs : Signed e) (ht : NoTrap isDef ub e) {x : Int} {u : Bool}
    (hi : iso isDef e = some (x, u)) : ifValue isDef ub ts = some x := by
  cases he : eager isDef ub e with
  | none => exact absurd he ht
  | some v =>
    rw [if_accepts_iff]
    exact ⟨e, hg, by rw [he, (eager_iso isDef ub hs hi he).1]⟩

/-- C21: what is not a C expression is rejected. -/
theorem if_rejects (isDef : Nat → Bool) (ub : Int → Int → Int) (ts : List Tok)
    (h : ∀ e, ¬ G 1 ts e) : ifValue isDef ub ts = none := by
  cases hv : ifValue isDef ub ts with
  | none => rfl
  | some v =>
    obtain ⟨e, hg, _⟩ := (if_accepts_iff isDef ub ts v).1 hv
    exact absurd hg (h e)

/-- The grammar is unambiguous as far as values go: all trees of a token list have the same
value. -/
theorem value_unique (isDef : Nat → Bool) (ub : Int → Int → Int) {ts : List Tok} {e e' : Expr}
    (hg : G 1 ts e) (hg' : G 1 ts e') {v v' : Int} (h : eager isDef ub e = some v)
    (h' : eager isDef ub e' = some v') : v = v' := by
  have h1 := (if_accepts_iff isDef ub ts v).2 ⟨e, hg, h⟩
  have h2 := (if_accepts_iff isDef ub ts v').2 ⟨e', hg', h'⟩
  rw [h1] at h2
  exact Option.some.inj h2

/-! ### Non-vacuity and findings -/

/-- `1 - 2 - 3 ? !defined X : 4 << 1 | 1`. -/
def sampleToks : List Tok :=
  [.int 1 false, .op .sub, .int 2 false, .op .sub, .int 3 false, .question, .not, .defined,
   .ident 7, .colon, .int 4 false, .op .shl, .int 1 false, .op .or, .int 1 false]

def sampleExpr : Expr :=
  .cond (.bin .sub (.bin .sub (.num 1 false) (.num 2 false)) (.num 3 false))
    (.un .lnot (.defined 7)) (.bin .or (.bin .shl (.num 4 false) (.num 1 false)) (.num 1 false))

theorem sample_derives : G 1 sampleToks sampleExpr := by
  have n : ∀ v, ∀ j, j ≤ 14 → G j [.int v false] (.num v false) := fun v j hj =>
    G_down (.num v false) j hj
  have hsub : G 12 [.int 1 false, .op .sub, .int 2 false, .op .sub, .int 3 false]
      (.bin .sub (.bin .sub (.num 1 false) (.num 2 false)) (.num 3 false)) :=
    .bin (l := [.int 1 false, .op .sub, .int 2 false]) (r := [.int 3 false]) .sub
      (.bin (l := [.int 1 false]) (r := [.int 2 false]) .sub (n 1 _ (by decide)) (n 2 _ (by decide)))
      (n 3 _ (by decide))
  have hor : G 6 [.int 4 false, .op .shl, .int 1 false, .op .or, .int 1 false]
      (.bin .or (.bin .shl (.num 4 false) (.num 1 false)) (.num 1 false)) :=
    .bin (l := [.int 4 false, .op .shl, .int 1 false]) (r := [.int 1 false]) .or
      (G_down (.bin (l := [.int 4 false]) (r := [.int 1 false]) .shl (n 4 _ (by decide))
        (n 1 _ (by decide))) _ (by decide))
      (n 1 _ (by decide))
  exact G_down (.cond (G_down hsub 4 (by decide))
    (G_down (.un .lnot (.def1 7)) 1 (by decide)) (G_down hor 3 (by decide))) 1 (by decide)

example : Signed sampleExpr ∧ NoTrap (fun _ => false) (fun _ _ => 0) sampleExpr ∧
    iso (fun _ => false) sampleExpr = some (1, false) := by
  refine ⟨?_, ?_, ?_⟩
  · simp [Signed, sampleExpr, IsI64]
  · unfold NoTrap; decide
  · decide

example : ∀ e, ¬ G 1 [] e := by
  intro e h
  have : ∀ {k ts e}, G k ts e → ts ≠ [] := by
    intro k ts e h
    induction h <;> simp_all
  exact this h rfl

/-- Finding: there is no unsigned arithmetic.  ISO: `-1 > 0u` is true; here it is false. -/
theorem unsigned_compare (isDef : Nat → Bool) (ub : Int → Int → Int) :
    G 1 [.op .sub, .int 1 false, .op .gt, .int 0 true]
      (.bin .gt (.un .neg (.num 1 false)) (.num 0 true)) ∧
    iso isDef (.bin .gt (.un .neg (.num 1 false)) (.num 0 true)) = some (1, false) ∧
    ifValue isDef ub [.op .sub, .int 1 false, .op .gt, .int 0 true] = some 0 := by
  refine ⟨?_, by rfl, by rfl⟩
  exact G_down (.bin (l := [.op .sub, .int 1 false]) (r := [.int 0 true]) .gt
    (G_down (.un .neg (.num 1 false)) _ (by decide)) (G_down (.num 0 true) _ (by decide))) 1
    (by decide)

/-- Finding: every operand is evaluated, so an unevaluated `INT64_MIN / -1` kills the
preprocessor: `0 && (-9223372036854775807 - 1) / -1`. -/
theorem trap_unevaluated (isDef : Nat → Bool) (ub : Int → Int → Int) :
    parse isDef ub 100 (.inl 1)
      [.int 0 false, .op .land, .lpar, .op .sub, .int 9223372036854775807 false, .op .sub,
       .int 1 false, .rpar, .op .div, .op .sub, .int 1 false] = .trap := by rfl

/-- Finding: a division by zero, an error in ISO, is accepted and gives the dividend; for
every dividend. -/
theorem division_by_zero (isDef : Nat → Bool) (ub : Int → Int → Int) (v : Int) :
    iso isDef (.bin .div (.num v false) (.num 0 false)) = none ∧
    ifValue isDef ub [.int v false, .op .div, .int 0 false] = some v := by
  refine ⟨by rfl, ?_⟩
  rw [if_accepts_iff]
  refine ⟨.bin .div (.num v false) (.num 0 false), ?_, by rfl⟩
  exact G_down (.bin (l := [.int v false]) (r := [.int 0 false]) .div
    (G_down (.num v false) _ (by decide)) (G_down (.num 0 false) _ (by decide))) 1 (by decide)

end Verif.IfExpr

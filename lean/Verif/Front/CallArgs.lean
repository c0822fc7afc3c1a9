/-!
# C84: preparing the arguments of a call keeps an evaluation C allows

Model of `simplify_funcall` (`/repo/src/cc/frontend/fe_misc.c:1676-1802`), which takes every call, conditional,
comma and (on x64) multiplication, division and shift out of the arguments of a call and evaluates it into a
temporary before the call, of `transform_assign_with` (fe_misc.c:1648-1674), which does the same with the address
of the left side of `op=`, and of the order in which the parser applies them (`funcall`, parser_expr.c:653-683,
`assign`, parser_expr.c:558-559).

Simplifications common to the whole file:
* values are integers without types; operators, called functions and statement expressions are arbitrary
  functions (the latter two of the whole memory);
* an expression is evaluated to a sequence of accesses and calls; every order C leaves open is allowed, both
  for the source and for the prepared expression, so the theorem does not depend on the order the code
  generator picks (`gen_funcall`, codegen_expr.c:436, goes from the last argument to the first);
* temporaries live apart from the memory: `alloc_tmp_var` (fe_misc.c:179-185) makes a new variable whose address
  nobody takes;
* structures, compound literals and bit-fields are left out.
-/
namespace Verif.CallArgs

/-- Expressions (cc/frontend/ast.h:200-300) and lists of arguments (`nil`, `cons`). `heavy` marks `*`, `/`, `%`,
`<<` and `>>`. `tmp` is a temporary and `tset` an assignment to one. `blk` is a statement expression or an inlined
call (`EX_BLOCK`, `EX_INLINED`). `opasg` is `l op= r`, which exists in the source only. -/
inductive E where
  | num (v : Int)
  | var (x : Nat)
  | tmp (t : Nat)
  | tset (t : Nat) (e : E)
  | un (op : Nat) (e : E)
  | bin (heavy : Bool) (op : Nat) (a b : E)
  | asg (l r : E)
  | opasg (heavy : Bool) (op : Nat) (l r : E)
  | inc (post : Bool) (d : Int) (l : E)
  | ref (l : E)
  | deref (e : E)
  | member (l : E) (k : Int)
  | tern (c a b : E)
  | land (a b : E)
  | lor (a b : E)
  | comma (a b : E)
  | blk (k : Nat)
  | call (f as : E)
  | nil
  | cons (a as : E)
  deriving DecidableEq, Repr

/-! ## The compiler -/

/-- `simplify_funarg_recur` (fe_misc.c:1687-1773) on one argument; on a list it is the loop of
`simplify_funcall` (fe_misc.c:1783-1786). `n` is the next temporary. The result is the argument that is left, the
next temporary and what is pushed to `unnested`. `unnest_arg` (fe_misc.c:1676-1684) is the case with a new
temporary. Simplified: an assignment of a structure, which is unnested too, is left out. -/
def simplify (x64 : Bool) : E → Nat → E × Nat × List E
  | .tern c a b, n => (.tmp n, n + 1, [.tset n (.tern c a b)])
  | .call f as, n => (.tmp n, n + 1, [.tset n (.call f as)])
  | .blk k, n => (.tmp n, n + 1, [.tset n (.blk k)])
  | .land a b, n => (.tmp n, n + 1, [.tset n (.land a b)])
  | .lor a b, n => (.tmp n, n + 1, [.tset n (.lor a b)])
  | .comma a b, n =>
    let (b', n1, us) := simplify x64 b n
    (b', n1, a :: us)
  | .bin heavy op a b, n =>
    if heavy && x64 then (.tmp n, n + 1, [.tset n (.bin heavy op a b)])
    else
      let (a', n1, us) := simplify x64 a n
      let (b', n2, vs) := simplify x64 b n1
      (.bin heavy op a' b', n2, us ++ vs)
  | .asg l r, n =>
    let (l', n1, us) := simplify x64 l n
    let (r', n2, vs) := simplify x64 r n1
    (.asg l' r', n2, us ++ vs)
  | .tset t e, n =>
    let (e', n1, us) := simplify x64 e n
    (.tset t e', n1, us)
  | .un op e, n =>
    let (e', n1, us) := simplify x64 e n
    (.un op e', n1, us)
  | .inc post d l, n =>
    let (l', n1, us) := simplify x64 l n
    (.inc post d l', n1, us)
  | .ref l, n =>
    let (l', n1, us) := simplify x64 l n
    (.ref l', n1, us)
  | .deref e, n =>
    let (e', n1, us) := simplify x64 e n
    (.deref e', n1, us)
  | .member l k, n =>
    let (l', n1, us) := simplify x64 l n
    (.member l' k, n1, us)
  | .cons a as, n =>
    let (a', n1, us) := simplify x64 a n
    let (as', n2, vs) := simplify x64 as n1
    (.cons a' as', n2, us ++ vs)
  | e, n => (e, n, [])

/-- The commas built from `unnested` (fe_misc.c:1789-1795). -/
def chain (u : E) (us : List E) : E := us.foldl .comma u

/-- `simplify_funcall` (fe_misc.c:1775-1800): the arguments from left to right, then the callee, then the commas. -/
def simplifyCall (x64 : Bool) (f as : E) (n : Nat) : E × Nat :=
  let (as', n1, us) := simplify x64 as n
  let (f', n2, vs) := simplify x64 f n1
  match us ++ vs with
  | [] => (.call f' as', n2)
  | w :: ws => (.comma (chain w ws) (.call f' as'), n2)

/-- `make_refer` (fe_misc.c:715-737): `&*e` is `e`. -/
def mkRef : E → E
  | .deref e => e
  | l => .ref l

/-- `transform_assign_with` (fe_misc.c:1648-1674): `l = l op r` for a variable, `(p = &l, *p = *p op r)`
otherwise. Simplified: no bit-fields, no cast of the result. -/
def assignWith (heavy : Bool) (op : Nat) (l r : E) (n : Nat) : E × Nat :=
  match l with
  | .var x => (.asg (.var x) (.bin heavy op (.var x) r), n)
  | l =>
    (.comma (.tset n (mkRef l)) (.asg (.deref (.tmp n)) (.bin heavy op (.deref (.tmp n)) r)), n + 1)

/-- What the parser makes of an expression: operands first, then `simplify_funcall` for a call
(`funcall`, parser_expr.c:653-683) and `transform_assign_with` for `op=` (`assign`, parser_expr.c:558-559).
Arguments are parsed from left to right after the callee (`parse_args`, parser_expr.c:25-41). Simplified: every
other operator keeps its form. -/
def parsed (x64 : Bool) : E → Nat → E × Nat
  | .num v, n => (.num v, n)
  | .var x, n => (.var x, n)
  | .tmp t, n => (.tmp t, n)
  | .blk k, n => (.blk k, n)
  | .nil, n => (.nil, n)
  | .tset t e, n => let (e', n1) := parsed x64 e n; (.tset t e', n1)
  | .un op e, n => let (e', n1) := parsed x64 e n; (.un op e', n1)
  | .inc p d e, n => let (e', n1) := parsed x64 e n; (.inc p d e', n1)
  | .ref e, n => let (e', n1) := parsed x64 e n; (.ref e', n1)
  | .deref e, n => let (e', n1) := parsed x64 e n; (.deref e', n1)
  | .member e k, n => let (e', n1) := parsed x64 e n; (.member e' k, n1)
  | .bin h op a b, n =>
    let (a', n1) := parsed x64 a n; let (b', n2) := parsed x64 b n1; (.bin h op a' b', n2)
  | .asg a b, n => let (a', n1) := parsed x64 a n; let (b', n2) := parsed x64 b n1; (.asg a' b', n2)
  | .land a b, n => let (a', n1) := parsed x64 a n; let (b', n2) := parsed x64 b n1; (.land a' b', n2)
  | .lor a b, n => let (a', n1) := parsed x64 a n; let (b', n2) := parsed x64 b n1; (.lor a' b', n2)
  | .comma a b, n => let (a', n1) := parsed x64 a n; let (b', n2) := parsed x64 b n1; (.comma a' b', n2)
  | .cons a b, n => let (a', n1) := parsed x64 a n; let (b', n2) := parsed x64 b n1; (.cons a' b', n2)
  | .tern c a b, n =>
    let (c', n1) := parsed x64 c n; let (a', n2) := parsed x64 a n1; let (b', n3) := parsed x64 b n2
    (.tern c' a' b', n3)
  | .opasg h op l r, n =>
    let (l', n1) := parsed x64 l n; let (r', n2) := parsed x64 r n1
    assignWith h op l' r' n2
  | .call f as, n =>
    let (f', n1) := parsed x64 f n; let (as', n2) := parsed x64 as n1
    simplifyCall x64 f' as' n2

/-! ## What C allows -/

/-- What an evaluation does to the outside: read and write an address, call a function and get a result, run a
statement expression, and (prepared expressions only) read and write a temporary. -/
inductive Act where
  | rd (a v : Int)
  | wr (a v : Int)
  | call (f : Int) (vs : List Int) (r : Int)
  | blk (k : Nat) (r : Int)
  | tr (t : Nat) (v : Int)
  | tw (t : Nat) (v : Int)
  deriving DecidableEq, Repr

/-- The meaning of operators, variables, functions and statement expressions. -/
structure World where
  un : Nat → Int → Int
  bin : Nat → Int → Int → Int
  addr : Nat → Int
  ext : Int → List Int → (Int → Int) → Int × (Int → Int)
  blk : Nat → (Int → Int) → Int × (Int → Int)

/-- `Shuf a b c`: `c` interleaves `a` and `b`. -/
inductive Shuf {α : Type} : List α → List α → List α → Prop
  | nil : Shuf [] [] []
  | left {x a b c} : Shuf a b c → Shuf (x :: a) b (x :: c)
  | right {x a b c} : Shuf a b c → Shuf a (x :: b) (x :: c)

/-- Evaluation for the value, for the place, of arguments. -/
inductive Mode where
  | val | lv | args
  deriving DecidableEq, Repr

/-- Which accesses to temporaries are shown: all (`none`), or none, the temporary being known to hold what the
valuation says (`some ρ`). -/
abbrev See := Option (Nat → Int)

/-- The temporary holds `v`. -/
def See.holds (o : See) (t : Nat) (v : Int) : Prop := ∀ ρ, o = some ρ → v = ρ t

/-- The trace of a read of a temporary. -/
def See.rd (o : See) (t : Nat) (v : Int) : List Act := if o.isSome then [] else [.tr t v]

/-- The trace of a write of a temporary. -/
def See.wr (o : See) (t : Nat) (v : Int) : List Act := if o.isSome then [] else [.tw t v]

/-- Evaluation as C 6.5 prescribes: `Ev o m e T w` says that evaluating `e` may do `T`, in this order, and give
`w`. Operands of an operator and arguments of a call interleave in any way; the operands of `,`, `?:`, `&&` and `||`
are in sequence, and only the operands asked for are evaluated; an assignment stores after both operands are
evaluated, `l op= r` reads `l` at any time after its place is known; a call happens after its arguments and the
callee are evaluated. A comma has a place where a member of a structure is read (`(f(), s).x`). -/
inductive Ev (W : World) (o : See) : Mode → E → List Act → List Int → Prop
  | num {v} : Ev W o .val (.num v) [] [v]
  | tmp {t v} : o.holds t v → Ev W o .val (.tmp t) (o.rd t v) [v]
  | tset {t e T v} : Ev W o .val e T [v] → o.holds t v → Ev W o .val (.tset t e) (T ++ o.wr t v) [v]
  | un {op e T v} : Ev W o .val e T [v] → Ev W o .val (.un op e) T [W.un op v]
  | bin {h op a b T1 T2 T x y} : Ev W o .val a T1 [x] → Ev W o .val b T2 [y] → Shuf T1 T2 T →
      Ev W o .val (.bin h op a b) T [W.bin op x y]
  | lvar {x} : Ev W o .lv (.var x) [] [W.addr x]
  | lderef {e T a} : Ev W o .val e T [a] → Ev W o .lv (.deref e) T [a]
  | lmember {l k T a} : Ev W o .lv l T [a] → Ev W o .lv (.member l k) T [a + k]
  | lcomma {a b T1 T2 x p} : Ev W o .val a T1 [x] → Ev W o .lv b T2 [p] → Ev W o .lv (.comma a b) (T1 ++ T2) [p]
  | var {x v} : Ev W o .val (.var x) [.rd (W.addr x) v] [v]
  | deref {e T a v} : Ev W o .val e T [a] → Ev W o .val (.deref e) (T ++ [.rd a v]) [v]
  | member {l k T a v} : Ev W o .lv l T [a] → Ev W o .val (.member l k) (T ++ [.rd (a + k) v]) [v]
  | asg {l r T1 T2 T a v} : Ev W o .lv l T1 [a] → Ev W o .val r T2 [v] → Shuf T1 T2 T →
      Ev W o .val (.asg l r) (T ++ [.wr a v]) [v]
  | opasg {h op l r T1 T2 T a x y} : Ev W o .lv l T1 [a] → Ev W o .val r T2 [y] →
      Shuf (T1 ++ [.rd a x]) T2 T → Ev W o .val (.opasg h op l r) (T ++ [.wr a (W.bin op x y)]) [W.bin op x y]
  | inc {post d l T a v} : Ev W o .lv l T [a] →
      Ev W o .val (.inc post d l) (T ++ [.rd a v, .wr a (v + d)]) [if post then v else v + d]
  | ref {l T a} : Ev W o .lv l T [a] → Ev W o .val (.ref l) T [a]
  | ternT {c a b T1 T2 x v} : Ev W o .val c T1 [x] → x ≠ 0 → Ev W o .val a T2 [v] →
      Ev W o .val (.tern c a b) (T1 ++ T2) [v]
  | ternF {c a b T1 T2 v} : Ev W o .val c T1 [0] → Ev W o .val b T2 [v] →
      Ev W o .val (.tern c a b) (T1 ++ T2) [v]
  | landF {a b T} : Ev W o .val a T [0] → Ev W o .val (.land a b) T [0]
  | landT {a b T1 T2 x y} : Ev W o .val a T1 [x] → x ≠ 0 → Ev W o .val b T2 [y] →
      Ev W o .val (.land a b) (T1 ++ T2) [if y = 0 then 0 else 1]
  | lorT {a b T x} : Ev W o .val a T [x] → x ≠ 0 → Ev W o .val (.lor a b) T [1]
  | lorF {a b T1 T2 y} : Ev W o .val a T1 [0] → Ev W o .val b T2 [y] →
      Ev W o .val (.lor a b) (T1 ++ T2) [if y = 0 then 0 else 1]
  | comma {a b T1 T2 x v} : Ev W o .val a T1 [x] → Ev W o .val b T2 [v] →
      Ev W o .val (.comma a b) (T1 ++ T2) [v]
  | blk {k r} : Ev W o .val (.blk k) [.blk k r] [r]
  | call {f as T1 T2 T g vs r} : Ev W o .args as T1 vs → Ev W o .val f T2 [g] → Shuf T1 T2 T →
      Ev W o .val (.call f as) (T ++ [.call g vs r]) [r]
  | nil : Ev W o .args .nil [] []
  | cons {a as T1 T2 T v vs} : Ev W o .val a T1 [v] → Ev W o .args as T2 vs → Shuf T1 T2 T →
      Ev W o .args (.cons a as) T (v :: vs)

/-- Memory and temporaries. -/
abbrev St := (Int → Int) × (Nat → Int)

/-- Change a function at one point. -/
def upd {α : Type} [DecidableEq α] (m : α → Int) (a : α) (v : Int) : α → Int := fun b => if b = a then v else m b

/-- The trace happens: what is read is what is there, calls give what the function gives. -/
def Runs (W : World) : St → List Act → St → Prop
  | s, [], s' => s' = s
  | s, .rd a v :: T, s' => s.1 a = v ∧ Runs W s T s'
  | s, .wr a v :: T, s' => Runs W (upd s.1 a v, s.2) T s'
  | s, .call f vs r :: T, s' => (W.ext f vs s.1).1 = r ∧ Runs W ((W.ext f vs s.1).2, s.2) T s'
  | s, .blk k r :: T, s' => (W.blk k s.1).1 = r ∧ Runs W ((W.blk k s.1).2, s.2) T s'
  | s, .tr t v :: T, s' => s.2 t = v ∧ Runs W s T s'
  | s, .tw t v :: T, s' => Runs W (s.1, upd s.2 t v) T s'

/-- Running `e` from memory `m` may do `T` and end with the value `v` and the memory `m'`. -/
def Outcome (W : World) (e : E) (m : Int → Int) (T : List Act) (v : Int) (m' : Int → Int) : Prop :=
  Ev W none .val e T [v] ∧ ∃ s s', Runs W (m, s) T (m', s')

/-- A list of arguments. -/
def isList : E → Bool
  | .nil => true
  | .cons _ as => isList as
  | _ => false

/-- An expression of the source: no temporaries, and what is in parentheses after a callee is a list. -/
def Source : E → Prop
  | .tmp _ | .tset _ _ => False
  | .num _ | .var _ | .blk _ | .nil => True
  | .un _ e | .inc _ _ e | .ref e | .deref e | .member e _ => Source e
  | .bin _ _ a b | .asg a b | .land a b | .lor a b | .comma a b | .cons a b | .opasg _ _ a b =>
    Source a ∧ Source b
  | .call f as => Source f ∧ Source as ∧ isList as = true
  | .tern c a b => Source c ∧ Source a ∧ Source b

/-- An access to a temporary. -/
def Act.isTmp : Act → Bool
  | .tr _ _ | .tw _ _ => true
  | _ => false

/-- The trace without accesses to temporaries. -/
def seen (T : List Act) : List Act := T.filter (fun x => !x.isTmp)

/-! ## Interleavings -/

theorem Shuf.refl_left {α : Type} : (a : List α) → Shuf a [] a
  | [] => .nil
  | _ :: a => .left (refl_left a)

theorem Shuf.refl_right {α : Type} : (a : List α) → Shuf [] a a
  | [] => .nil
  | _ :: a => .right (refl_right a)

theorem Shuf.pre_left {α : Type} {a b c : List α} (h : Shuf a b c) : (p : List α) → Shuf (p ++ a) b (p ++ c)
  | [] => h
  | _ :: p => .left (pre_left h p)

theorem Shuf.pre_right {α : Type} {a b c : List α} (h : Shuf a b c) : (p : List α) → Shuf a (p ++ b) (p ++ c)
  | [] => h
  | _ :: p => .right (pre_right h p)

/-- Two pairs of stages: the first stages one after the other, then the second stages in any way. -/
theorem Shuf.stages {α : Type} {a b c : List α} (h : Shuf a b c) (p q : List α) :
    Shuf (p ++ a) (q ++ b) (p ++ q ++ c) := by
  rw [List.append_assoc]; exact (h.pre_right q).pre_left p

theorem Shuf.filter {α : Type} (f : α → Bool) {a b c : List α} (h : Shuf a b c) :
    Shuf (a.filter f) (b.filter f) (c.filter f) := by
  induction h with
  | nil => exact .nil
  | @left x a b c _ ih => by_cases hx : f x <;> simp [List.filter, hx] <;> first | exact .left ih | exact ih
  | @right x a b c _ ih => by_cases hx : f x <;> simp [List.filter, hx] <;> first | exact .right ih | exact ih

theorem Shuf.mem {α : Type} {a b c : List α} (h : Shuf a b c) : ∀ x, x ∈ c ↔ x ∈ a ∨ x ∈ b := by
  induction h with
  | nil => simp
  | left _ ih => intro x; simp [ih, or_assoc]
  | right _ ih => intro x; simp [ih]; constructor <;> (rintro (h | h | h) <;> simp [h])

/-! ## Leaving out the temporaries -/

theorem seen_append (a b : List Act) : seen (a ++ b) = seen a ++ seen b := by simp [seen]

/-- The temporaries in a trace hold what the valuation says. -/
def Agree (ρ : Nat → Int) (T : List Act) : Prop := ∀ t v, .tr t v ∈ T ∨ .tw t v ∈ T → v = ρ t

theorem Agree.left {ρ : Nat → Int} {a b : List Act} (h : Agree ρ (a ++ b)) : Agree ρ a :=
  fun t v hm => h t v (by rcases hm with hm | hm <;> simp [hm])

theorem Agree.right {ρ : Nat → Int} {a b : List Act} (h : Agree ρ (a ++ b)) : Agree ρ b :=
  fun t v hm => h t v (by rcases hm with hm | hm <;> simp [hm])

theorem Agree.shufL {ρ : Nat → Int} {a b c : List Act} (h : Agree ρ c) (hs : Shuf a b c) : Agree ρ a :=
  fun t v hm => h t v (by rcases hm with hm | hm <;> simp [hs.mem, hm])

theorem Agree.shufR {ρ : Nat → Int} {a b c : List Act} (h : Agree ρ c) (hs : Shuf a b c) : Agree ρ b :=
  fun t v hm => h t v (by rcases hm with hm | hm <;> simp [hs.mem, hm])

/-- A trace whose temporaries agree with a valuation, with the temporaries left out. -/
theorem Ev.hide {W : World} {ρ : Nat → Int} {m : Mode} {e : E} {T : List Act} {w : List Int}
    (h : Ev W none m e T w) : Agree ρ T → Ev W (some ρ) m e (seen T) w := by
  induction h with
  | num => intro _; exact .num
  | @tmp t v hv =>
    intro ha
    have := ha t v (by simp [See.rd])
    simpa [See.rd, seen, Act.isTmp] using Ev.tmp (W := W) (o := some ρ) (t := t) (v := v)
      (by intro ρ' h; cases h; exact this)
  | @tset t e T v _ hv ih =>
    intro ha
    have := ha t v (by simp [See.wr])
    have := Ev.tset (W := W) (o := some ρ) (t := t) (ih ha.left) (by intro ρ' h; cases h; exact this)
    simpa [See.wr, seen, Act.isTmp] using this
  | un _ ih => intro ha; exact .un (ih ha)
  | bin _ _ hs ih1 ih2 => intro ha; exact .bin (ih1 (ha.shufL hs)) (ih2 (ha.shufR hs)) (hs.filter _)
  | lvar => intro _; exact .lvar
  | lderef _ ih => intro ha; exact .lderef (ih ha)
  | lmember _ ih => intro ha; exact .lmember (ih ha)
  | var => intro _; exact .var
  | deref _ ih => intro ha; rw [seen_append]; exact .deref (ih ha.left)
  | member _ ih => intro ha; rw [seen_append]; exact .member (ih ha.left)
  | asg _ _ hs ih1 ih2 =>
    intro ha; rw [seen_append]
    exact .asg (ih1 (ha.left.shufL hs)) (ih2 (ha.left.shufR hs)) (hs.filter _)
  | opasg _ _ hs ih1 ih2 =>
    intro ha; rw [seen_append]
    refine .opasg (ih1 (ha.left.shufL hs).left) (ih2 (ha.left.shufR hs)) ?_
    have := hs.filter (fun x => !x.isTmp)
    rw [List.filter_append] at this
    exact this
  | inc _ ih => intro ha; rw [seen_append]; exact .inc (ih ha.left)
  | ref _ ih => intro ha; exact .ref (ih ha)
  | ternT _ hx _ ih1 ih2 => intro ha; rw [seen_append]; exact .ternT (ih1 ha.left) hx (ih2 ha.right)
  | ternF _ _ ih1 ih2 => intro ha; rw [seen_append]; exact .ternF (ih1 ha.left) (ih2 ha.right)
  | landF _ ih => intro ha; exact .landF (ih ha)
  | landT _ hx _ ih1 ih2 => intro ha; rw [seen_append]; exact .landT (ih1 ha.left) hx (ih2 ha.right)
  | lorT _ hx ih => intro ha; exact .lorT (ih ha) hx
  | lorF _ _ ih1 ih2 => intro ha; rw [seen_append]; exact .lorF (ih1 ha.left) (ih2 ha.right)
  | comma _ _ ih1 ih2 => intro ha; rw [seen_append]; exact .comma (ih1 ha.left) (ih2 ha.right)
  | lcomma _ _ ih1 ih2 => intro ha; rw [seen_append]; exact .lcomma (ih1 ha.left) (ih2 ha.right)
  | blk => intro _; exact .blk
  | call _ _ hs ih1 ih2 =>
    intro ha; rw [seen_append]
    exact .call (ih1 (ha.left.shufL hs)) (ih2 (ha.left.shufR hs)) (hs.filter _)
  | nil => intro _; exact .nil
  | cons _ _ hs ih1 ih2 => intro ha; exact .cons (ih1 (ha.shufL hs)) (ih2 (ha.shufR hs)) (hs.filter _)

/-- On an expression of the source it does not matter whether temporaries are shown. -/
theorem Ev.source {W : World} {o o' : See} {m : Mode} {e : E} {T : List Act} {w : List Int}
    (h : Ev W o m e T w) : Source e → Ev W o' m e T w := by
  induction h with
  | num => intro _; exact .num
  | tmp _ => intro h; exact h.elim
  | tset _ _ _ => intro h; exact h.elim
  | un _ ih => intro ha; exact .un (ih ha)
  | bin _ _ hs ih1 ih2 => intro ha; exact .bin (ih1 ha.1) (ih2 ha.2) hs
  | lvar => intro _; exact .lvar
  | lderef _ ih => intro ha; exact .lderef (ih ha)
  | lmember _ ih => intro ha; exact .lmember (ih ha)
  | var => intro _; exact .var
  | deref _ ih => intro ha; exact .deref (ih ha)
  | member _ ih => intro ha; exact .member (ih ha)
  | asg _ _ hs ih1 ih2 => intro ha; exact .asg (ih1 ha.1) (ih2 ha.2) hs
  | opasg _ _ hs ih1 ih2 => intro ha; exact .opasg (ih1 ha.1) (ih2 ha.2) hs
  | inc _ ih => intro ha; exact .inc (ih ha)
  | ref _ ih => intro ha; exact .ref (ih ha)
  | ternT _ hx _ ih1 ih2 => intro ha; exact .ternT (ih1 ha.1) hx (ih2 ha.2.1)
  | ternF _ _ ih1 ih2 => intro ha; exact .ternF (ih1 ha.1) (ih2 ha.2.2)
  | landF _ ih => intro ha; exact .landF (ih ha.1)
  | landT _ hx _ ih1 ih2 => intro ha; exact .landT (ih1 ha.1) hx (ih2 ha.2)
  | lorT _ hx ih => intro ha; exact .lorT (ih ha.1) hx
  | lorF _ _ ih1 ih2 => intro ha; exact .lorF (ih1 ha.1) (ih2 ha.2)
  | comma _ _ ih1 ih2 => intro ha; exact .comma (ih1 ha.1) (ih2 ha.2)
  | lcomma _ _ ih1 ih2 => intro ha; exact .lcomma (ih1 ha.1) (ih2 ha.2)
  | blk => intro _; exact .blk
  | call _ _ hs ih1 ih2 => intro ha; exact .call (ih1 ha.2.1) (ih2 ha.1) hs
  | nil => intro _; exact .nil
  | cons _ _ hs ih1 ih2 => intro ha; exact .cons (ih1 ha.1) (ih2 ha.2) hs

/-! ## One argument -/

/-- What was pushed to `unnested`, evaluated in sequence. -/
inductive Seq (W : World) (o : See) : List E → List Act → Prop
  | nil : Seq W o [] []
  | cons {u us T1 T2 x} : Ev W o .val u T1 [x] → Seq W o us T2 → Seq W o (u :: us) (T1 ++ T2)

theorem Seq.split {W : World} {o : See} : {us vs : List E} → {T : List Act} → Seq W o (us ++ vs) T →
    ∃ T1 T2, T = T1 ++ T2 ∧ Seq W o us T1 ∧ Seq W o vs T2
  | [], _, T, h => ⟨[], T, rfl, .nil, h⟩
  | _ :: _, _, _, h => by
    cases h with
    | cons h1 h2 =>
      obtain ⟨T1, T2, rfl, h3, h4⟩ := h2.split
      exact ⟨_, T2, (List.append_assoc _ _ _).symm, .cons h1 h3, h4⟩

theorem Seq.nil_inv {W : World} {o : See} {T : List Act} (h : Seq W o [] T) : T = [] := by cases h; rfl

/-- Taking `e` out into a temporary. -/
theorem unnest_ok {W : World} {ρ : Nat → Int} {m : Mode} {e : E} {n : Nat} {T1 T2 : List Act} {w : List Int}
    (h1 : Seq W (some ρ) [.tset n e] T1) (h2 : Ev W (some ρ) m (.tmp n) T2 w) :
    Ev W (some ρ) m e (T1 ++ T2) w := by
  cases h2 with
  | tmp hv =>
    cases h1 with
    | cons h1 hn =>
      cases hn
      cases h1 with
      | tset he hv' =>
        have e1 := hv ρ rfl
        have e2 := hv' ρ rfl
        subst e1
        subst e2
        simpa [See.rd, See.wr] using he

theorem Ev.one {W : World} {o : See} {m : Mode} {e : E} {T : List Act} {w : List Int} (h : Ev W o m e T w)
    (hm : m ≠ .args) : ∃ v, w = [v] := by
  cases h <;> first | exact ⟨_, rfl⟩ | exact absurd rfl hm

/-- What `simplify` leaves, after what it took out, is an evaluation of the argument. -/
theorem simplify_ok {W : World} {ρ : Nat → Int} (x64 : Bool) :
    (e : E) → (n : Nat) → (m : Mode) → (T1 T2 : List Act) → (w : List Int) →
    (m = .args → isList e = true) → Seq W (some ρ) (simplify x64 e n).2.2 T1 → Ev W (some ρ) m (simplify x64 e n).1 T2 w →
    Ev W (some ρ) m e (T1 ++ T2) w
  | .tern _ _ _, _, _, _, _, _, hl, h1, h2 => unnest_ok h1 h2
  | .call _ _, _, _, _, _, _, hl, h1, h2 => unnest_ok h1 h2
  | .blk _, _, _, _, _, _, hl, h1, h2 => unnest_ok h1 h2
  | .land _ _, _, _, _, _, _, hl, h1, h2 => unnest_ok h1 h2
  | .lor _ _, _, _, _, _, _, hl, h1, h2 => unnest_ok h1 h2
  | .comma a b, n, m, T1, T2, w, hl, h1, h2 => by
    simp only [simplify] at h1 h2
    cases h1 with
    | cons ha hb =>
      rw [List.append_assoc]
      cases m with
      | val =>
        obtain ⟨v, rfl⟩ := h2.one (by decide)
        exact .comma ha (simplify_ok x64 b n _ _ _ _ (by simp) hb h2)
      | lv =>
        obtain ⟨v, rfl⟩ := h2.one (by decide)
        exact .lcomma ha (simplify_ok x64 b n _ _ _ _ (by simp) hb h2)
      | args => exact absurd (hl rfl) (by simp [isList])
  | .bin heavy op a b, n, m, T1, T2, w, hl, h1, h2 => by
    by_cases hh : (heavy && x64) = true
    · simp only [simplify, hh, if_true] at h1 h2
      exact unnest_ok h1 h2
    · simp only [simplify, hh] at h1 h2
      obtain ⟨U1, U2, rfl, h3, h4⟩ := Seq.split h1
      cases h2 with
      | bin ha hb hs =>
        exact .bin (simplify_ok x64 a n _ _ _ _ (by simp) h3 ha) (simplify_ok x64 b _ _ _ _ _ (by simp) h4 hb) (hs.stages U1 U2)
  | .asg l r, n, m, T1, T2, w, hl, h1, h2 => by
    simp only [simplify] at h1 h2
    obtain ⟨U1, U2, rfl, h3, h4⟩ := Seq.split h1
    cases h2 with
    | asg ha hb hs =>
      rw [← List.append_assoc]
      exact .asg (simplify_ok x64 l n _ _ _ _ (by simp) h3 ha) (simplify_ok x64 r _ _ _ _ _ (by simp) h4 hb) (hs.stages U1 U2)
  | .cons a as, n, m, T1, T2, w, hl, h1, h2 => by
    simp only [simplify] at h1 h2
    obtain ⟨U1, U2, rfl, h3, h4⟩ := Seq.split h1
    cases h2 with
    | cons ha hb hs =>
      exact .cons (simplify_ok x64 a n _ _ _ _ (by simp) h3 ha) (simplify_ok x64 as _ _ _ _ _ (fun _ => hl rfl) h4 hb) (hs.stages U1 U2)
  | .un op e, n, m, T1, T2, w, hl, h1, h2 => by
    simp only [simplify] at h1 h2
    cases h2 with
    | un h => exact .un (simplify_ok x64 e n _ _ _ _ (by simp) h1 h)
  | .inc post d l, n, m, T1, T2, w, hl, h1, h2 => by
    simp only [simplify] at h1 h2
    cases h2 with
    | inc h => rw [← List.append_assoc]; exact .inc (simplify_ok x64 l n _ _ _ _ (by simp) h1 h)
  | .ref l, n, m, T1, T2, w, hl, h1, h2 => by
    simp only [simplify] at h1 h2
    cases h2 with
    | ref h => exact .ref (simplify_ok x64 l n _ _ _ _ (by simp) h1 h)
  | .deref e, n, m, T1, T2, w, hl, h1, h2 => by
    simp only [simplify] at h1 h2
    cases h2 with
    | deref h => rw [← List.append_assoc]; exact .deref (simplify_ok x64 e n _ _ _ _ (by simp) h1 h)
    | lderef h => exact .lderef (simplify_ok x64 e n _ _ _ _ (by simp) h1 h)
  | .member l k, n, m, T1, T2, w, hl, h1, h2 => by
    simp only [simplify] at h1 h2
    cases h2 with
    | member h => rw [← List.append_assoc]; exact .member (simplify_ok x64 l n _ _ _ _ (by simp) h1 h)
    | lmember h => exact .lmember (simplify_ok x64 l n _ _ _ _ (by simp) h1 h)
  | .num _, _, _, _, _, _, hl, h1, h2 => by cases Seq.nil_inv h1; exact h2
  | .var _, _, _, _, _, _, hl, h1, h2 => by cases Seq.nil_inv h1; exact h2
  | .tmp _, _, _, _, _, _, hl, h1, h2 => by cases Seq.nil_inv h1; exact h2
  | .tset t e, n, m, T1, T2, w, hl, h1, h2 => by
    simp only [simplify] at h1 h2
    cases h2 with
    | tset h hv => rw [← List.append_assoc]; exact .tset (simplify_ok x64 e n _ _ _ _ (by simp) h1 h) hv
  | .opasg _ _ _ _, _, _, _, _, _, hl, h1, h2 => by cases Seq.nil_inv h1; exact h2
  | .nil, _, _, _, _, _, hl, h1, h2 => by cases Seq.nil_inv h1; exact h2

/-! ## The whole expression -/

theorem chain_ok {W : World} {o : See} : (us : List E) → (u : E) → (T : List Act) → (x : Int) →
    Ev W o .val (chain u us) T [x] → Seq W o (u :: us) T
  | [], u, T, x, h => by
    have := Seq.cons (u := u) (T2 := []) h .nil
    simpa using this
  | v :: us, u, T, x, h => by
    have h' : Ev W o .val (chain (.comma u v) us) T [x] := h
    have := chain_ok us (.comma u v) T x h'
    cases this with
    | cons h1 h2 =>
      cases h1 with
      | comma ha hb => rw [List.append_assoc]; exact .cons ha (.cons hb h2)

theorem simplifyCall_ok {W : World} {ρ : Nat → Int} {x64 : Bool} {f as : E} {n : Nat} {m : Mode} {T : List Act}
    {w : List Int} (hl : isList as = true) (h : Ev W (some ρ) m (simplifyCall x64 f as n).1 T w) :
    Ev W (some ρ) m (.call f as) T w := by
  have key : ∀ us T1 T2 w', us = (simplify x64 as n).2.2 ++ (simplify x64 f (simplify x64 as n).2.1).2.2 →
      Seq W (some ρ) us T1 →
      Ev W (some ρ) .val (.call (simplify x64 f (simplify x64 as n).2.1).1 (simplify x64 as n).1) T2 w' →
      Ev W (some ρ) .val (.call f as) (T1 ++ T2) w' := by
    intro us T1 T2 w' hu h1 h2
    subst hu
    obtain ⟨U1, U2, rfl, h3, h4⟩ := Seq.split h1
    cases h2 with
    | call ha hf hs =>
      rw [← List.append_assoc]
      exact .call (simplify_ok x64 as n _ _ _ _ (fun _ => hl) h3 ha) (simplify_ok x64 f _ _ _ _ _ (by simp) h4 hf)
        (hs.stages U1 U2)
  simp only [simplifyCall] at h
  split at h
  · rename_i hu
    cases h with
    | call ha hf hs => exact key [] [] _ _ hu.symm .nil (.call ha hf hs)
  · rename_i u us hu
    cases h with
    | comma h1 h2 => exact key (u :: us) _ _ _ hu.symm (chain_ok us u _ _ h1) h2
    | lcomma h1 h2 => cases h2

theorem mkRef_ok {W : World} {o : See} {l : E} {T : List Act} {p : Int} (h : Ev W o .val (mkRef l) T [p]) :
    Ev W o .lv l T [p] := by
  cases l <;> simp only [mkRef] at h <;> first | exact .lderef h | (cases h; assumption)

theorem Shuf.of_nil {α : Type} {a b : List α} (h : Shuf [] a b) : b = a := by
  generalize hc : ([] : List α) = c at h
  induction h with
  | nil => rfl
  | left _ _ => cases hc
  | right _ ih => rw [ih hc]

theorem assignWith_ok {W : World} {ρ : Nat → Int} {hv : Bool} {op n : Nat} {l r : E} {m : Mode} {T : List Act}
    {w : List Int} (h : Ev W (some ρ) m (assignWith hv op l r n).1 T w) :
    Ev W (some ρ) m (.opasg hv op l r) T w := by
  unfold assignWith at h
  split at h
  · cases h with
    | asg hl hb hs =>
      cases hl
      cases hb with
      | bin ha hr hs' =>
        cases ha
        rw [hs.of_nil]
        exact .opasg .lvar hr hs'
  · cases h with
    | lcomma h1 h2 => cases h2
    | comma h1 h2 =>
      cases h1 with
      | tset h1 hp =>
        cases h2 with
        | asg hl hb hs =>
          cases hl with
          | lderef hl =>
            cases hl with
            | tmp ht =>
              cases hb with
              | bin ha hr hs' =>
                cases ha with
                | deref ha =>
                  cases ha with
                  | tmp ht' =>
                    have e1 := hp ρ rfl
                    have e2 := ht ρ rfl
                    have e3 := ht' ρ rfl
                    subst e1 e2 e3
                    simp only [See.rd, See.wr, Option.isSome_some, if_true, List.append_nil, List.nil_append] at hs hs' ⊢
                    rw [hs.of_nil, ← List.append_assoc]
                    exact .opasg (mkRef_ok h1) hr (hs'.pre_left _)

theorem parsed_isList (x64 : Bool) : (e : E) → (n : Nat) → isList e = true → isList (parsed x64 e n).1 = true
  | .nil, _, _ => rfl
  | .cons _ b, _, h => by simp only [parsed, isList] at h ⊢; exact parsed_isList x64 b _ h
  | .num _, _, h | .var _, _, h | .tmp _, _, h | .tset _ _, _, h | .un _ _, _, h | .bin _ _ _ _, _, h | .asg _ _, _, h
  | .opasg _ _ _ _, _, h | .inc _ _ _, _, h | .ref _, _, h | .deref _, _, h | .member _ _, _, h | .tern _ _ _, _, h
  | .land _ _, _, h | .lor _ _, _, h | .comma _ _, _, h | .blk _, _, h | .call _ _, _, h => by simp [isList] at h

/-- What the parser makes of an expression evaluates as the expression may. -/
theorem parsed_ok {W : World} {ρ : Nat → Int} (x64 : Bool) :
    (e : E) → (n : Nat) → (m : Mode) → (T : List Act) → (w : List Int) → Source e →
    Ev W (some ρ) m (parsed x64 e n).1 T w → Ev W (some ρ) m e T w
  | .num _, _, _, _, _, _, h => h
  | .var _, _, _, _, _, _, h => h
  | .tmp _, _, _, _, _, hs, _ => hs.elim
  | .blk _, _, _, _, _, _, h => h
  | .nil, _, _, _, _, _, h => h
  | .tset _ _, _, _, _, _, hs, _ => hs.elim
  | .un _ e, n, _, _, _, hs, h => by
    simp only [parsed] at h
    cases h with
    | un h => exact .un (parsed_ok x64 e n _ _ _ hs h)
  | .inc _ _ e, n, _, _, _, hs, h => by
    simp only [parsed] at h
    cases h with
    | inc h => exact .inc (parsed_ok x64 e n _ _ _ hs h)
  | .ref e, n, _, _, _, hs, h => by
    simp only [parsed] at h
    cases h with
    | ref h => exact .ref (parsed_ok x64 e n _ _ _ hs h)
  | .deref e, n, _, _, _, hs, h => by
    simp only [parsed] at h
    cases h with
    | deref h => exact .deref (parsed_ok x64 e n _ _ _ hs h)
    | lderef h => exact .lderef (parsed_ok x64 e n _ _ _ hs h)
  | .member e _, n, _, _, _, hs, h => by
    simp only [parsed] at h
    cases h with
    | member h => exact .member (parsed_ok x64 e n _ _ _ hs h)
    | lmember h => exact .lmember (parsed_ok x64 e n _ _ _ hs h)
  | .bin _ _ a b, n, _, _, _, hs, h => by
    simp only [parsed] at h
    cases h with
    | bin h1 h2 h3 => exact .bin (parsed_ok x64 a n _ _ _ hs.1 h1) (parsed_ok x64 b _ _ _ _ hs.2 h2) h3
  | .asg a b, n, _, _, _, hs, h => by
    simp only [parsed] at h
    cases h with
    | asg h1 h2 h3 => exact .asg (parsed_ok x64 a n _ _ _ hs.1 h1) (parsed_ok x64 b _ _ _ _ hs.2 h2) h3
  | .land a b, n, _, _, _, hs, h => by
    simp only [parsed] at h
    cases h with
    | landF h1 => exact .landF (parsed_ok x64 a n _ _ _ hs.1 h1)
    | landT h1 hx h2 => exact .landT (parsed_ok x64 a n _ _ _ hs.1 h1) hx (parsed_ok x64 b _ _ _ _ hs.2 h2)
  | .lor a b, n, _, _, _, hs, h => by
    simp only [parsed] at h
    cases h with
    | lorT h1 hx => exact .lorT (parsed_ok x64 a n _ _ _ hs.1 h1) hx
    | lorF h1 h2 => exact .lorF (parsed_ok x64 a n _ _ _ hs.1 h1) (parsed_ok x64 b _ _ _ _ hs.2 h2)
  | .comma a b, n, _, _, _, hs, h => by
    simp only [parsed] at h
    cases h with
    | comma h1 h2 => exact .comma (parsed_ok x64 a n _ _ _ hs.1 h1) (parsed_ok x64 b _ _ _ _ hs.2 h2)
    | lcomma h1 h2 => exact .lcomma (parsed_ok x64 a n _ _ _ hs.1 h1) (parsed_ok x64 b _ _ _ _ hs.2 h2)
  | .cons a b, n, _, _, _, hs, h => by
    simp only [parsed] at h
    cases h with
    | cons h1 h2 h3 => exact .cons (parsed_ok x64 a n _ _ _ hs.1 h1) (parsed_ok x64 b _ _ _ _ hs.2 h2) h3
  | .tern c a b, n, _, _, _, hs, h => by
    simp only [parsed] at h
    cases h with
    | ternT h1 hx h2 => exact .ternT (parsed_ok x64 c n _ _ _ hs.1 h1) hx (parsed_ok x64 a _ _ _ _ hs.2.1 h2)
    | ternF h1 h2 => exact .ternF (parsed_ok x64 c n _ _ _ hs.1 h1) (parsed_ok x64 b _ _ _ _ hs.2.2 h2)
  | .opasg _ _ l r, n, _, _, _, hs, h => by
    simp only [parsed] at h
    cases assignWith_ok h with
    | opasg h1 h2 h3 => exact .opasg (parsed_ok x64 l n _ _ _ hs.1 h1) (parsed_ok x64 r _ _ _ _ hs.2 h2) h3
  | .call f as, n, _, _, _, hs, h => by
    simp only [parsed] at h
    cases simplifyCall_ok (parsed_isList x64 as _ hs.2.2) h with
    | call h1 h2 h3 => exact .call (parsed_ok x64 as _ _ _ _ hs.2.1 h1) (parsed_ok x64 f n _ _ _ hs.1 h2) h3

/-! ## Temporaries are written once, before they are read -/

/-- The temporaries a trace writes. -/
def written : List Act → List Nat
  | [] => []
  | .tw t _ :: T => t :: written T
  | _ :: T => written T

/-- `S` being written already, every temporary is read after it is written and written once. -/
def Ok : List Nat → List Act → Prop
  | _, [] => True
  | S, .tr t _ :: T => t ∈ S ∧ Ok S T
  | S, .tw t _ :: T => t ∉ S ∧ Ok (t :: S) T
  | S, _ :: T => Ok S T

theorem mem_written {t : Nat} : {T : List Act} → (t ∈ written T ↔ ∃ v, .tw t v ∈ T)
  | [] => by simp [written]
  | x :: T => by
    have ih := mem_written (t := t) (T := T)
    cases x with
    | tw t' v' =>
      simp only [written, List.mem_cons, ih, Act.tw.injEq]
      constructor
      · rintro (rfl | ⟨v, h⟩)
        · exact ⟨v', .inl ⟨rfl, rfl⟩⟩
        · exact ⟨v, .inr h⟩
      · rintro ⟨v, ⟨rfl, rfl⟩ | h⟩
        · exact .inl rfl
        · exact .inr ⟨v, h⟩
    | _ => simp [written, ih]

theorem written_append (a b : List Act) : ∀ t, t ∈ written (a ++ b) ↔ t ∈ written a ∨ t ∈ written b := by
  intro t; simp only [mem_written, List.mem_append, exists_or]

theorem Shuf.written {a b c : List Act} (h : Shuf a b c) (t : Nat) :
    t ∈ written c ↔ t ∈ CallArgs.written a ∨ t ∈ CallArgs.written b := by
  simp only [mem_written, h.mem, exists_or]

theorem Ok.not_written {t : Nat} : {T : List Act} → {S : List Nat} → Ok S T → t ∈ S → t ∉ written T
  | [], _, _, _ => by simp [written]
  | y :: T, S, h, hm => by
    cases y with
    | tw t' v' =>
      simp only [written, List.mem_cons, not_or]
      exact ⟨fun e => h.1 (e ▸ hm), Ok.not_written h.2 (List.mem_cons_of_mem _ hm)⟩
    | tr t' v' => exact Ok.not_written (T := T) h.2 hm
    | rd _ _ => exact Ok.not_written (T := T) (S := S) h hm
    | wr _ _ => exact Ok.not_written (T := T) (S := S) h hm
    | call _ _ _ => exact Ok.not_written (T := T) (S := S) h hm
    | blk _ _ => exact Ok.not_written (T := T) (S := S) h hm

theorem Ok.weaken : {T : List Act} → {S S' : List Nat} → Ok S T → (∀ t ∈ S, t ∈ S') →
    (∀ t ∈ written T, t ∉ S') → Ok S' T
  | [], _, _, _, _, _ => trivial
  | x :: T, S, S', h, hs, hd => by
    cases x with
    | tr t v => exact ⟨hs _ h.1, Ok.weaken h.2 hs hd⟩
    | tw t v =>
      refine ⟨hd t (by simp [written]), ?_⟩
      by_cases hm : t ∈ written T
      · exact absurd hm (h.2.not_written (List.mem_cons_self ..))
      · refine Ok.weaken h.2 (fun x hx => ?_) (fun x hx => ?_)
        · rcases List.mem_cons.1 hx with rfl | hx
          · exact List.mem_cons_self ..
          · exact List.mem_cons_of_mem _ (hs x hx)
        · simp only [List.mem_cons, not_or]
          exact ⟨fun e => hm (e ▸ hx), hd x (by simp [written, hx])⟩
    | rd _ _ => exact Ok.weaken (T := T) (S := S) h hs hd
    | wr _ _ => exact Ok.weaken (T := T) (S := S) h hs hd
    | call _ _ _ => exact Ok.weaken (T := T) (S := S) h hs hd
    | blk _ _ => exact Ok.weaken (T := T) (S := S) h hs hd

theorem Ok.append : {T1 T2 : List Act} → {S : List Nat} → Ok S T1 →
    (∀ S', (∀ t, t ∈ S' ↔ t ∈ written T1 ∨ t ∈ S) → Ok S' T2) → Ok S (T1 ++ T2)
  | [], _, S, _, h => h S (by simp [written])
  | x :: T, T2, S, h1, h => by
    cases x with
    | tr t v => exact ⟨h1.1, Ok.append h1.2 h⟩
    | tw t v =>
      refine ⟨h1.1, Ok.append h1.2 fun S' hS => h S' fun t' => ?_⟩
      rw [hS]; simp only [List.mem_cons, written]
      rw [or_assoc]; exact or_left_comm
    | rd _ _ => exact Ok.append (T1 := T) (S := S) h1 h
    | wr _ _ => exact Ok.append (T1 := T) (S := S) h1 h
    | call _ _ _ => exact Ok.append (T1 := T) (S := S) h1 h
    | blk _ _ => exact Ok.append (T1 := T) (S := S) h1 h

theorem Ok.shuf {a b c : List Act} (h : Shuf a b c) : {S : List Nat} → Ok S a → Ok S b →
    (∀ t ∈ written a, t ∉ written b) → Ok S c := by
  induction h with
  | nil => intro S _ _ _; trivial
  | @left x a b c hs ih =>
    intro S h1 h2 hd
    cases x with
    | tr t v => exact ⟨h1.1, ih h1.2 h2 hd⟩
    | tw t v =>
      refine ⟨h1.1, ih h1.2 (h2.weaken (fun _ h => List.mem_cons_of_mem _ h) fun x hx => ?_)
        fun x hx => hd x (by simp [written, hx])⟩
      simp only [List.mem_cons, not_or]
      exact ⟨fun e => hd t (by simp [written]) (e ▸ hx), fun hS => h2.not_written hS hx⟩
    | rd _ _ => exact ih (S := S) h1 h2 hd
    | wr _ _ => exact ih (S := S) h1 h2 hd
    | call _ _ _ => exact ih (S := S) h1 h2 hd
    | blk _ _ => exact ih (S := S) h1 h2 hd
  | @right x a b c hs ih =>
    intro S h1 h2 hd
    cases x with
    | tr t v => exact ⟨h2.1, ih h1 h2.2 hd⟩
    | tw t v =>
      refine ⟨h2.1, ih (h1.weaken (fun _ h => List.mem_cons_of_mem _ h) fun x hx => ?_) h2.2
        fun x hx hx' => hd x hx (by simp [written, hx'])⟩
      simp only [List.mem_cons, not_or]
      exact ⟨fun e => hd x hx (by simp [written, e]), fun hS => h1.not_written hS hx⟩
    | rd _ _ => exact ih (S := S) h1 h2 hd
    | wr _ _ => exact ih (S := S) h1 h2 hd
    | call _ _ _ => exact ih (S := S) h1 h2 hd
    | blk _ _ => exact ih (S := S) h1 h2 hd

/-- The temporaries an expression sets. -/
def sets : E → List Nat
  | .num _ | .var _ | .blk _ | .nil | .tmp _ => []
  | .tset t e => t :: sets e
  | .un _ e | .inc _ _ e | .ref e | .deref e | .member e _ => sets e
  | .bin _ _ a b | .asg a b | .land a b | .lor a b | .comma a b | .cons a b | .opasg _ _ a b | .call a b =>
    sets a ++ sets b
  | .tern c a b => sets c ++ (sets a ++ sets b)

/-- The temporaries that are set whenever the expression is evaluated and that a following operand may read. -/
def sure : E → List Nat
  | .tset t _ => [t]
  | .comma a b => sure a ++ sure b
  | _ => []

/-- No temporary is in both. -/
def Disj (a b : List Nat) : Prop := ∀ t ∈ a, t ∉ b

/-- Every temporary is read where it is surely set (`S` at the start), and no two operands set the same. -/
def Sc : List Nat → E → Prop
  | _, .num _ | _, .var _ | _, .blk _ | _, .nil => True
  | S, .tmp t => t ∈ S
  | S, .tset t e => Sc S e ∧ t ∉ sets e
  | S, .un _ e | S, .inc _ _ e | S, .ref e | S, .deref e | S, .member e _ => Sc S e
  | S, .bin _ _ a b | S, .asg a b | S, .land a b | S, .lor a b | S, .cons a b | S, .opasg _ _ a b | S, .call a b =>
    Sc S a ∧ Sc S b ∧ Disj (sets a) (sets b)
  | S, .comma a b => Sc S a ∧ Sc (sure a ++ S) b ∧ Disj (sets a) (sets b)
  | S, .tern c a b => Sc S c ∧ Sc S a ∧ Sc S b ∧ Disj (sets c) (sets a ++ sets b) ∧ Disj (sets a) (sets b)

theorem sure_sets : (e : E) → ∀ t ∈ sure e, t ∈ sets e
  | .tset t e, x, h => by simp only [sure, List.mem_singleton] at h; simp [sets, h]
  | .comma a b, x, h => by
    simp only [sure, List.mem_append] at h
    simp only [sets, List.mem_append]
    exact h.imp (sure_sets a x) (sure_sets b x)
  | .num _, _, h | .var _, _, h | .tmp _, _, h | .un _ _, _, h | .bin _ _ _ _, _, h | .asg _ _, _, h
  | .opasg _ _ _ _, _, h | .inc _ _ _, _, h | .ref _, _, h | .deref _, _, h | .member _ _, _, h | .tern _ _ _, _, h
  | .land _ _, _, h | .lor _ _, _, h | .blk _, _, h | .call _ _, _, h | .nil, _, h | .cons _ _, _, h => by
    simp [sure] at h

theorem Sc.mono : {e : E} → {S S' : List Nat} → Sc S e → (∀ t ∈ S, t ∈ S') → Sc S' e
  | .num _, _, _, _, _ | .var _, _, _, _, _ | .blk _, _, _, _, _ | .nil, _, _, _, _ => trivial
  | .tmp _, _, _, h, hs => hs _ h
  | .tset _ e, _, _, h, hs => ⟨Sc.mono (e := e) h.1 hs, h.2⟩
  | .un _ e, _, _, h, hs => Sc.mono (e := e) h hs
  | .inc _ _ e, _, _, h, hs => Sc.mono (e := e) h hs
  | .ref e, _, _, h, hs => Sc.mono (e := e) h hs
  | .deref e, _, _, h, hs => Sc.mono (e := e) h hs
  | .member e _, _, _, h, hs => Sc.mono (e := e) h hs
  | .bin _ _ a b, _, _, h, hs => ⟨Sc.mono (e := a) h.1 hs, Sc.mono (e := b) h.2.1 hs, h.2.2⟩
  | .asg a b, _, _, h, hs => ⟨Sc.mono (e := a) h.1 hs, Sc.mono (e := b) h.2.1 hs, h.2.2⟩
  | .land a b, _, _, h, hs => ⟨Sc.mono (e := a) h.1 hs, Sc.mono (e := b) h.2.1 hs, h.2.2⟩
  | .lor a b, _, _, h, hs => ⟨Sc.mono (e := a) h.1 hs, Sc.mono (e := b) h.2.1 hs, h.2.2⟩
  | .cons a b, _, _, h, hs => ⟨Sc.mono (e := a) h.1 hs, Sc.mono (e := b) h.2.1 hs, h.2.2⟩
  | .opasg _ _ a b, _, _, h, hs => ⟨Sc.mono (e := a) h.1 hs, Sc.mono (e := b) h.2.1 hs, h.2.2⟩
  | .call a b, _, _, h, hs => ⟨Sc.mono (e := a) h.1 hs, Sc.mono (e := b) h.2.1 hs, h.2.2⟩
  | .comma a b, _, _, h, hs =>
    ⟨Sc.mono (e := a) h.1 hs, Sc.mono (e := b) h.2.1 (fun t ht => by
      rcases List.mem_append.1 ht with h | h
      · exact List.mem_append_left _ h
      · exact List.mem_append_right _ (hs t h)), h.2.2⟩
  | .tern c a b, _, _, h, hs =>
    ⟨Sc.mono (e := c) h.1 hs, Sc.mono (e := a) h.2.1 hs, Sc.mono (e := b) h.2.2.1 hs, h.2.2.2⟩

/-- A trace writes temporaries its expression sets, among them those it surely sets. -/
theorem Ev.writes {W : World} {m : Mode} {e : E} {T : List Act} {w : List Int} (h : Ev W none m e T w) :
    (∀ t ∈ written T, t ∈ sets e) ∧ (m ≠ .args → ∀ t ∈ sure e, t ∈ written T) := by
  induction h with
  | num | lvar | var | blk | nil => exact ⟨by simp [written], by intro _ t ht; simp [sure] at ht⟩
  | tmp _ => exact ⟨by simp [written, See.rd], by simp [sure]⟩
  | tset _ _ ih =>
    refine ⟨fun t ht => ?_, fun _ t ht => ?_⟩
    · rw [written_append] at ht
      rcases ht with ht | ht
      · exact List.mem_cons_of_mem _ (ih.1 t ht)
      · simp only [See.wr, written, Option.isSome_none, Bool.false_eq_true, if_false, List.mem_singleton] at ht
        simp [sets, ht]
    · simp only [sure, List.mem_singleton] at ht
      rw [written_append]; right; simp [See.wr, written, ht]
  | un _ ih | lderef _ ih | lmember _ ih | ref _ ih => exact ⟨ih.1, by simp [sure]⟩
  | deref _ ih | member _ ih | inc _ ih =>
    refine ⟨fun t ht => ?_, by simp [sure]⟩
    rw [written_append] at ht
    rcases ht with ht | ht
    · exact ih.1 t ht
    · simp [written] at ht
  | bin _ _ hs ih1 ih2 | cons _ _ hs ih1 ih2 =>
    refine ⟨fun t ht => ?_, by simp [sure]⟩
    rw [hs.written] at ht
    exact List.mem_append.2 (ht.imp (ih1.1 t) (ih2.1 t))
  | asg _ _ hs ih1 ih2 =>
    refine ⟨fun t ht => ?_, by simp [sure]⟩
    rw [written_append, hs.written] at ht
    rcases ht with ht | ht
    · exact List.mem_append.2 (ht.imp (ih1.1 t) (ih2.1 t))
    · simp [written] at ht
  | call _ _ hs ih1 ih2 =>
    refine ⟨fun t ht => ?_, by simp [sure]⟩
    rw [written_append, hs.written] at ht
    rcases ht with ht | ht
    · exact List.mem_append.2 (ht.symm.imp (ih2.1 t) (ih1.1 t))
    · simp [written] at ht
  | opasg _ _ hs ih1 ih2 =>
    refine ⟨fun t ht => ?_, by simp [sure]⟩
    rw [written_append, hs.written, written_append] at ht
    rcases ht with (ht | ht) | ht
    · rcases ht with ht | ht
      · exact List.mem_append_left _ (ih1.1 t ht)
      · simp [written] at ht
    · exact List.mem_append_right _ (ih2.1 t ht)
    · simp [written] at ht
  | landF _ ih | lorT _ _ ih =>
    exact ⟨fun t ht => List.mem_append_left _ (ih.1 t ht), by simp [sure]⟩
  | landT _ _ _ ih1 ih2 | lorF _ _ ih1 ih2 =>
    refine ⟨fun t ht => ?_, by simp [sure]⟩
    rw [written_append] at ht
    exact List.mem_append.2 (ht.imp (ih1.1 t) (ih2.1 t))
  | ternT _ _ _ ih1 ih2 =>
    refine ⟨fun t ht => ?_, by simp [sure]⟩
    rw [written_append] at ht
    exact List.mem_append.2 (ht.imp (ih1.1 t) (fun h => List.mem_append_left _ (ih2.1 t h)))
  | ternF _ _ ih1 ih2 =>
    refine ⟨fun t ht => ?_, by simp [sure]⟩
    rw [written_append] at ht
    exact List.mem_append.2 (ht.imp (ih1.1 t) (fun h => List.mem_append_right _ (ih2.1 t h)))
  | comma _ _ ih1 ih2 | lcomma _ _ ih1 ih2 =>
    refine ⟨fun t ht => ?_, fun _ t ht => ?_⟩
    · rw [written_append] at ht
      exact List.mem_append.2 (ht.imp (ih1.1 t) (ih2.1 t))
    · rw [written_append]
      exact (List.mem_append.1 ht).imp (ih1.2 (by decide) t) (ih2.2 (by decide) t)

theorem Ok.quiet : {T : List Act} → {S : List Nat} → (∀ x ∈ T, x.isTmp = false) → Ok S T
  | [], _, _ => trivial
  | x :: T, S, h => by
    have h1 := h x (List.mem_cons_self ..)
    have h2 : Ok S T := Ok.quiet fun y hy => h y (List.mem_cons_of_mem _ hy)
    cases x <;> first | exact h2 | cases h1

/-- The trace of an expression in which temporaries are read where they are set. -/
theorem Ev.ordered {W : World} {m : Mode} {e : E} {T : List Act} {w : List Int} (h : Ev W none m e T w) :
    ∀ {S : List Nat}, Sc S e → Disj (sets e) S → Ok S T := by
  have dl : ∀ {a b S : List Nat}, Disj (a ++ b) S → Disj a S := fun h t ht => h t (List.mem_append_left _ ht)
  have dr : ∀ {a b S : List Nat}, Disj (a ++ b) S → Disj b S := fun h t ht => h t (List.mem_append_right _ ht)
  induction h with
  | num | lvar | var | blk | nil => intro S _ _; trivial
  | tmp _ => intro S hs _; exact ⟨hs, trivial⟩
  | @tset t e T v he _ ih =>
    intro S hs hd
    refine (ih hs.1 fun t ht => hd t (List.mem_cons_of_mem _ ht)).append fun S' hS => ⟨?_, trivial⟩
    rw [hS]
    rintro (h | h)
    · exact hs.2 (he.writes.1 _ h)
    · exact hd t (List.mem_cons_self ..) h
  | un _ ih | lderef _ ih | lmember _ ih | ref _ ih => intro S hs hd; exact ih hs hd
  | deref _ ih | member _ ih | inc _ ih =>
    intro S hs hd
    exact (ih hs hd).append fun _ _ => Ok.quiet (by simp [Act.isTmp])
  | bin h1 h2 hsh ih1 ih2 | cons h1 h2 hsh ih1 ih2 =>
    intro S hs hd
    exact Ok.shuf hsh (ih1 hs.1 (dl hd)) (ih2 hs.2.1 (dr hd)) fun t ha hb =>
      hs.2.2 t (h1.writes.1 t ha) (h2.writes.1 t hb)
  | asg h1 h2 hsh ih1 ih2 =>
    intro S hs hd
    exact (Ok.shuf hsh (ih1 hs.1 (dl hd)) (ih2 hs.2.1 (dr hd)) fun t ha hb =>
      hs.2.2 t (h1.writes.1 t ha) (h2.writes.1 t hb)).append fun _ _ => Ok.quiet (by simp [Act.isTmp])
  | opasg h1 h2 hsh ih1 ih2 =>
    intro S hs hd
    refine (Ok.shuf hsh ((ih1 hs.1 (dl hd)).append fun _ _ => Ok.quiet (by simp [Act.isTmp]))
      (ih2 hs.2.1 (dr hd)) fun t ha hb => ?_).append fun _ _ => Ok.quiet (by simp [Act.isTmp])
    rw [written_append] at ha
    rcases ha with ha | ha
    · exact hs.2.2 t (h1.writes.1 t ha) (h2.writes.1 t hb)
    · simp [written] at ha
  | call h1 h2 hsh ih1 ih2 =>
    intro S hs hd
    exact (Ok.shuf hsh (ih1 hs.2.1 (dr hd)) (ih2 hs.1 (dl hd)) fun t ha hb =>
      hs.2.2 t (h2.writes.1 t hb) (h1.writes.1 t ha)).append fun _ _ => Ok.quiet (by simp [Act.isTmp])
  | landF _ ih | lorT _ _ ih => intro S hs hd; exact ih hs.1 (dl hd)
  | landT h1 _ h2 ih1 ih2 | lorF h1 h2 ih1 ih2 =>
    intro S hs hd
    refine (ih1 hs.1 (dl hd)).append fun S' hS => (ih2 hs.2.1 (dr hd)).weaken (fun t ht => (hS t).2 (.inr ht)) ?_
    intro t ht hS'
    rcases (hS t).1 hS' with h | h
    · exact hs.2.2 t (h1.writes.1 t h) (h2.writes.1 t ht)
    · exact dr hd t (h2.writes.1 t ht) h
  | ternT h1 _ h2 ih1 ih2 =>
    intro S hs hd
    refine (ih1 hs.1 (dl hd)).append fun S' hS =>
      (ih2 hs.2.1 (dl (dr hd))).weaken (fun t ht => (hS t).2 (.inr ht)) ?_
    intro t ht hS'
    rcases (hS t).1 hS' with h | h
    · exact hs.2.2.2.1 t (h1.writes.1 t h) (List.mem_append_left _ (h2.writes.1 t ht))
    · exact dl (dr hd) t (h2.writes.1 t ht) h
  | ternF h1 h2 ih1 ih2 =>
    intro S hs hd
    refine (ih1 hs.1 (dl hd)).append fun S' hS =>
      (ih2 hs.2.2.1 (dr (dr hd))).weaken (fun t ht => (hS t).2 (.inr ht)) ?_
    intro t ht hS'
    rcases (hS t).1 hS' with h | h
    · exact hs.2.2.2.1 t (h1.writes.1 t h) (List.mem_append_right _ (h2.writes.1 t ht))
    · exact dr (dr hd) t (h2.writes.1 t ht) h
  | comma h1 h2 ih1 ih2 | lcomma h1 h2 ih1 ih2 =>
    intro S hs hd
    refine (ih1 hs.1 (dl hd)).append fun S' hS => (ih2 hs.2.1 fun t ht hm => ?_).weaken (fun t ht => ?_) ?_
    · rcases List.mem_append.1 hm with hm | hm
      · exact hs.2.2 t (sure_sets _ t hm) ht
      · exact dr hd t ht hm
    · rcases List.mem_append.1 ht with ht | ht
      · exact (hS t).2 (.inl (h1.writes.2 (by decide) t ht))
      · exact (hS t).2 (.inr ht)
    · intro t ht hS'
      rcases (hS t).1 hS' with h | h
      · exact hs.2.2 t (h1.writes.1 t h) (h2.writes.1 t ht)
      · exact dr hd t (h2.writes.1 t ht) h

/-- The temporaries set in a sequence. -/
def setsL (us : List E) : List Nat := us.flatMap sets

/-- The temporaries surely set by a sequence. -/
def sureL (us : List E) : List Nat := us.flatMap sure

/-- `Sc` for a sequence. -/
def SeqSc : List Nat → List E → Prop
  | _, [] => True
  | S, u :: us => Sc S u ∧ SeqSc (sure u ++ S) us ∧ Disj (sets u) (setsL us)

theorem SeqSc.mono : {us : List E} → {S S' : List Nat} → SeqSc S us → (∀ t ∈ S, t ∈ S') → SeqSc S' us
  | [], _, _, _, _ => trivial
  | u :: us, _, _, h, hs =>
    ⟨h.1.mono hs, SeqSc.mono h.2.1 (fun t ht => by
      rcases List.mem_append.1 ht with h | h
      · exact List.mem_append_left _ h
      · exact List.mem_append_right _ (hs t h)), h.2.2⟩

theorem SeqSc.append : {us vs : List E} → {S : List Nat} → SeqSc S us → SeqSc S vs → Disj (setsL us) (setsL vs) →
    SeqSc S (us ++ vs)
  | [], _, _, _, h, _ => h
  | u :: us, vs, S, h1, h2, hd => by
    refine ⟨h1.1, SeqSc.append h1.2.1 (h2.mono fun t ht => List.mem_append_right _ ht) fun t ht =>
      hd t (by simp only [setsL, List.flatMap_cons] at ht ⊢; exact List.mem_append_right _ ht), ?_⟩
    intro t ht hm
    have e : setsL (us ++ vs) = setsL us ++ setsL vs := by simp [setsL]
    rw [show us.append vs = us ++ vs from rfl, e] at hm
    rcases List.mem_append.1 hm with hm | hm
    · exact h1.2.2 t ht hm
    · exact hd t (by simp only [setsL, List.flatMap_cons]; exact List.mem_append_left _ ht) hm

/-- What `simplify` gives for `e`: the sequence and the rest read temporaries where they are set. -/
structure Fit (S : List Nat) (n : Nat) (e : E) (r : E × Nat × List E) : Prop where
  le : n ≤ r.2.1
  seq : SeqSc S r.2.2
  rest : Sc (sureL r.2.2 ++ S) r.1
  range : ∀ t, t ∈ setsL r.2.2 ∨ t ∈ sets r.1 → t ∈ sets e ∨ (n ≤ t ∧ t < r.2.1)
  disj : Disj (setsL r.2.2) (sets r.1)

/-- Two operands after each other. -/
structure Fit2 (S : List Nat) (n : Nat) (a b : E) (a' b' : E) (n' : Nat) (us : List E) : Prop where
  le : n ≤ n'
  seq : SeqSc S us
  restA : Sc (sureL us ++ S) a'
  restB : Sc (sureL us ++ S) b'
  range : ∀ t, t ∈ setsL us ∨ t ∈ sets a' ∨ t ∈ sets b' → (t ∈ sets a ∨ t ∈ sets b) ∨ (n ≤ t ∧ t < n')
  disjA : Disj (setsL us) (sets a')
  disjB : Disj (setsL us) (sets b')
  disj : Disj (sets a') (sets b')

theorem Fit.two {S : List Nat} {n : Nat} {a b : E} {r q : E × Nat × List E} (h1 : Fit S n a r)
    (h2 : Fit S r.2.1 b q) (ha : ∀ t ∈ sets a, t < n) (hb : ∀ t ∈ sets b, t < n) (hd : Disj (sets a) (sets b)) :
    Fit2 S n a b r.1 q.1 q.2.1 (r.2.2 ++ q.2.2) := by
  have key : ∀ t, (t ∈ setsL r.2.2 ∨ t ∈ sets r.1) → (t ∈ setsL q.2.2 ∨ t ∈ sets q.1) → False := by
    intro t x y
    have l1 := h1.le
    rcases h1.range t x with x | x <;> rcases h2.range t y with y | y
    · exact hd t x y
    · have := ha t x; omega
    · have := hb t y; omega
    · omega
  have hsu : sureL (r.2.2 ++ q.2.2) = sureL r.2.2 ++ sureL q.2.2 := by simp [sureL]
  have hse : setsL (r.2.2 ++ q.2.2) = setsL r.2.2 ++ setsL q.2.2 := by simp [setsL]
  refine ⟨Nat.le_trans h1.le h2.le, h1.seq.append h2.seq fun t x y => key t (.inl x) (.inl y), ?_, ?_, ?_, ?_, ?_,
    fun t x y => key t (.inr x) (.inr y)⟩
  · rw [hsu]
    refine h1.rest.mono fun t ht => ?_
    rcases List.mem_append.1 ht with h | h <;> simp [h]
  · rw [hsu]
    refine h2.rest.mono fun t ht => ?_
    rcases List.mem_append.1 ht with h | h <;> simp [h]
  · rw [hse]
    intro t ht
    have l1 := h1.le
    have l2 := h2.le
    have c1 : t ∈ setsL r.2.2 ∨ t ∈ sets r.1 → (t ∈ sets a ∨ t ∈ sets b) ∨ (n ≤ t ∧ t < q.2.1) := fun h => by
      rcases h1.range t h with h | h
      · exact .inl (.inl h)
      · exact .inr ⟨h.1, by omega⟩
    have c2 : t ∈ setsL q.2.2 ∨ t ∈ sets q.1 → (t ∈ sets a ∨ t ∈ sets b) ∨ (n ≤ t ∧ t < q.2.1) := fun h => by
      rcases h2.range t h with h | h
      · exact .inl (.inr h)
      · exact .inr ⟨by omega, h.2⟩
    rcases ht with ht | ht | ht
    · rcases List.mem_append.1 ht with ht | ht
      · exact c1 (.inl ht)
      · exact c2 (.inl ht)
    · exact c1 (.inr ht)
    · exact c2 (.inr ht)
  · rw [hse]
    intro t ht hm
    rcases List.mem_append.1 ht with ht | ht
    · exact h1.disj t ht hm
    · exact key t (.inr hm) (.inl ht)
  · rw [hse]
    intro t ht hm
    rcases List.mem_append.1 ht with ht | ht
    · exact key t (.inl ht) (.inr hm)
    · exact h2.disj t ht hm

theorem Fit.unnest {S : List Nat} {n : Nat} {e : E} (h : Sc S e) (hb : ∀ t ∈ sets e, t < n) :
    Fit S n e (.tmp n, n + 1, [.tset n e]) := by
  refine ⟨Nat.le_succ n, ⟨⟨h, fun hm => Nat.lt_irrefl _ (hb n hm)⟩, trivial, fun _ _ h => by simp [setsL] at h⟩, ?_, ?_, ?_⟩
  · simp [Sc, sureL, sure]
  · intro t ht
    simp only [setsL, sets, List.flatMap_cons, List.flatMap_nil, List.append_nil, List.not_mem_nil, or_false,
      List.mem_cons] at ht
    rcases ht with rfl | h
    · exact .inr ⟨Nat.le_refl _, Nat.lt_succ_self _⟩
    · exact .inl h
  · intro _ _ h; simp [sets] at h

theorem Fit.none {S : List Nat} {n : Nat} {e : E} (h : Sc S e) : Fit S n e (e, n, []) :=
  ⟨Nat.le_refl n, trivial, by simpa [sureL] using h, by simp [setsL]; exact fun t h => .inl h,
    fun _ h => by simp [setsL] at h⟩

theorem simplify_fit (x64 : Bool) : (e : E) → (S : List Nat) → (n : Nat) → Sc S e → (∀ t ∈ sets e, t < n) →
    Fit S n e (simplify x64 e n)
  | .tern _ _ _, _, _, h, hb => Fit.unnest h hb
  | .call _ _, _, _, h, hb => Fit.unnest h hb
  | .blk _, _, _, h, hb => Fit.unnest h hb
  | .land _ _, _, _, h, hb => Fit.unnest h hb
  | .lor _ _, _, _, h, hb => Fit.unnest h hb
  | .comma a b, S, n, h, hb => by
    have ih := simplify_fit x64 b (sure a ++ S) n h.2.1 fun t ht => hb t (List.mem_append_right _ ht)
    simp only [simplify]
    have dj : ∀ t, t ∈ sets a → (t ∈ setsL (simplify x64 b n).2.2 ∨ t ∈ sets (simplify x64 b n).1) → False := by
      intro t ha hm
      rcases ih.range t hm with hm | hm
      · exact h.2.2 t ha hm
      · have := hb t (List.mem_append_left _ ha); omega
    refine ⟨ih.le, ⟨h.1, ih.seq, fun t ha hm => dj t ha (.inl hm)⟩, ih.rest.mono fun t ht => ?_, ?_, ?_⟩
    · simp only [sureL, List.flatMap_cons, List.mem_append] at ht ⊢
      rcases ht with h | h | h <;> simp [h]
    · intro t ht
      simp only [setsL, List.flatMap_cons, List.mem_append] at ht
      simp only [sets, List.mem_append]
      rcases ht with (ht | ht) | ht
      · exact .inl (.inl ht)
      · exact (ih.range t (.inl ht)).imp .inr id
      · exact (ih.range t (.inr ht)).imp .inr id
    · intro t ht hm
      simp only [setsL, List.flatMap_cons, List.mem_append] at ht
      rcases ht with ht | ht
      · exact dj t ht (.inr hm)
      · exact ih.disj t ht hm
  | .bin heavy op a b, S, n, h, hb => by
    by_cases hh : (heavy && x64) = true
    · simp only [simplify, hh, if_true]
      exact Fit.unnest h hb
    · simp only [simplify, hh, Bool.false_eq_true, if_false]
      have hb1 : ∀ t ∈ sets a, t < n := fun t ht => hb t (List.mem_append_left _ ht)
      have hb2 : ∀ t ∈ sets b, t < n := fun t ht => hb t (List.mem_append_right _ ht)
      have ih1 := simplify_fit x64 a S n h.1 hb1
      have ih2 := simplify_fit x64 b S (simplify x64 a n).2.1 h.2.1 fun t ht => Nat.lt_of_lt_of_le (hb2 t ht) ih1.le
      have f := ih1.two ih2 hb1 hb2 h.2.2
      exact ⟨f.le, f.seq, ⟨f.restA, f.restB, f.disj⟩, fun t ht => by
        simp only [sets, List.mem_append] at ht ⊢; exact f.range t ht, fun t ht hm => by
        rcases List.mem_append.1 hm with hm | hm
        · exact f.disjA t ht hm
        · exact f.disjB t ht hm⟩
  | .asg a b, S, n, h, hb => by
    simp only [simplify]
    have hb1 : ∀ t ∈ sets a, t < n := fun t ht => hb t (List.mem_append_left _ ht)
    have hb2 : ∀ t ∈ sets b, t < n := fun t ht => hb t (List.mem_append_right _ ht)
    have ih1 := simplify_fit x64 a S n h.1 hb1
    have ih2 := simplify_fit x64 b S (simplify x64 a n).2.1 h.2.1 fun t ht => Nat.lt_of_lt_of_le (hb2 t ht) ih1.le
    have f := ih1.two ih2 hb1 hb2 h.2.2
    exact ⟨f.le, f.seq, ⟨f.restA, f.restB, f.disj⟩, fun t ht => by
      simp only [sets, List.mem_append] at ht ⊢; exact f.range t ht, fun t ht hm => by
      rcases List.mem_append.1 hm with hm | hm
      · exact f.disjA t ht hm
      · exact f.disjB t ht hm⟩
  | .cons a b, S, n, h, hb => by
    simp only [simplify]
    have hb1 : ∀ t ∈ sets a, t < n := fun t ht => hb t (List.mem_append_left _ ht)
    have hb2 : ∀ t ∈ sets b, t < n := fun t ht => hb t (List.mem_append_right _ ht)
    have ih1 := simplify_fit x64 a S n h.1 hb1
    have ih2 := simplify_fit x64 b S (simplify x64 a n).2.1 h.2.1 fun t ht => Nat.lt_of_lt_of_le (hb2 t ht) ih1.le
    have f := ih1.two ih2 hb1 hb2 h.2.2
    exact ⟨f.le, f.seq, ⟨f.restA, f.restB, f.disj⟩, fun t ht => by
      simp only [sets, List.mem_append] at ht ⊢; exact f.range t ht, fun t ht hm => by
      rcases List.mem_append.1 hm with hm | hm
      · exact f.disjA t ht hm
      · exact f.disjB t ht hm⟩
  | .tset t e, S, n, h, hb => by
    have ih := simplify_fit x64 e S n h.1 fun t ht => hb t (List.mem_cons_of_mem _ ht)
    have ht : t < n := hb t (List.mem_cons_self ..)
    have fr : t ∈ setsL (simplify x64 e n).2.2 ∨ t ∈ sets (simplify x64 e n).1 → False := fun hm => by
      rcases ih.range t hm with hm | hm
      · exact h.2 hm
      · omega
    refine ⟨ih.le, ih.seq, ⟨ih.rest, fun hm => fr (.inr hm)⟩, fun t' hm => ?_, fun t' ha hm => ?_⟩
    · rcases hm with hm | hm
      · exact (ih.range t' (.inl hm)).imp (List.mem_cons_of_mem _) id
      · rcases List.mem_cons.1 hm with rfl | hm
        · exact .inl (List.mem_cons_self ..)
        · exact (ih.range t' (.inr hm)).imp (List.mem_cons_of_mem _) id
    · rcases List.mem_cons.1 hm with rfl | hm
      · exact fr (.inl ha)
      · exact ih.disj t' ha hm
  | .un _ e, S, n, h, hb => by
    have ih := simplify_fit x64 e S n h hb
    exact ⟨ih.le, ih.seq, ih.rest, ih.range, ih.disj⟩
  | .inc _ _ e, S, n, h, hb => by
    have ih := simplify_fit x64 e S n h hb
    exact ⟨ih.le, ih.seq, ih.rest, ih.range, ih.disj⟩
  | .ref e, S, n, h, hb => by
    have ih := simplify_fit x64 e S n h hb
    exact ⟨ih.le, ih.seq, ih.rest, ih.range, ih.disj⟩
  | .deref e, S, n, h, hb => by
    have ih := simplify_fit x64 e S n h hb
    exact ⟨ih.le, ih.seq, ih.rest, ih.range, ih.disj⟩
  | .member e _, S, n, h, hb => by
    have ih := simplify_fit x64 e S n h hb
    exact ⟨ih.le, ih.seq, ih.rest, ih.range, ih.disj⟩
  | .num _, _, _, h, _ | .var _, _, _, h, _ | .tmp _, _, _, h, _ | .opasg _ _ _ _, _, _, h, _
  | .nil, _, _, h, _ => Fit.none h

theorem chain_sets : (us : List E) → (u : E) → ∀ t, t ∈ sets (chain u us) ↔ t ∈ setsL (u :: us)
  | [], u, t => by simp [chain, setsL]
  | v :: us, u, t => by
    have := chain_sets us (.comma u v) t
    simp only [setsL, List.flatMap_cons, sets, List.mem_append] at this ⊢
    exact this.trans or_assoc

theorem chain_sure : (us : List E) → (u : E) → ∀ t, t ∈ sure (chain u us) ↔ t ∈ sureL (u :: us)
  | [], u, t => by simp [chain, sureL]
  | v :: us, u, t => by
    have := chain_sure us (.comma u v) t
    simp only [sureL, List.flatMap_cons, sure, List.mem_append] at this ⊢
    exact this.trans or_assoc

theorem chain_sc : (us : List E) → (u : E) → (S : List Nat) → SeqSc S (u :: us) → Sc S (chain u us)
  | [], _, _, h => h.1
  | v :: us, u, S, h => by
    refine chain_sc us (.comma u v) S ⟨⟨h.1, h.2.1.1, fun t ht hm => h.2.2 t ht ?_⟩, ?_, ?_⟩
    · simp only [setsL, List.flatMap_cons]; exact List.mem_append_left _ hm
    · exact h.2.1.2.1.mono fun t ht => by
        simp only [sure, List.mem_append] at ht ⊢
        rcases ht with h | h | h <;> simp [h]
    · intro t ht hm
      rcases List.mem_append.1 ht with ht | ht
      · exact h.2.2 t ht (by simp only [setsL, List.flatMap_cons]; exact List.mem_append_right _ hm)
      · exact h.2.1.2.2 t ht hm

theorem sets_mkRef (l : E) : sets (mkRef l) = sets l := by cases l <;> rfl
theorem sc_mkRef (S : List Nat) (l : E) : Sc S (mkRef l) ↔ Sc S l := by cases l <;> rfl

/-- What the parser gives reads temporaries where they are set, and sets temporaries made meanwhile. -/
structure Done (n : Nat) (r : E × Nat) : Prop where
  le : n ≤ r.2
  sc : Sc [] r.1
  range : ∀ t ∈ sets r.1, n ≤ t ∧ t < r.2

theorem Done.disj {n : Nat} {r q : E × Nat} (h1 : Done n r) (h2 : Done r.2 q) : Disj (sets r.1) (sets q.1) := by
  intro t a b
  have := h1.range t a
  have := h2.range t b
  omega

theorem Done.both {n : Nat} {r q : E × Nat} (h1 : Done n r) (h2 : Done r.2 q) :
    ∀ t ∈ sets r.1 ++ sets q.1, n ≤ t ∧ t < q.2 := by
  intro t ht
  have l1 := h1.le
  have l2 := h2.le
  rcases List.mem_append.1 ht with ht | ht
  · have := h1.range t ht; omega
  · have := h2.range t ht; omega

theorem simplifyCall_done {x64 : Bool} {n : Nat} {r q : E × Nat} (h1 : Done n r) (h2 : Done r.2 q) :
    Done n (simplifyCall x64 r.1 q.1 q.2) := by
  have hb := h1.both h2
  have b1 : ∀ t ∈ sets r.1, t < q.2 := fun t ht => (hb t (List.mem_append_left _ ht)).2
  have b2 : ∀ t ∈ sets q.1, t < q.2 := fun t ht => (hb t (List.mem_append_right _ ht)).2
  have f1 := simplify_fit x64 q.1 [] q.2 h2.sc b2
  have f2 := simplify_fit x64 r.1 [] (simplify x64 q.1 q.2).2.1 h1.sc
    fun t ht => Nat.lt_of_lt_of_le (b1 t ht) f1.le
  have f := f1.two f2 b2 b1 fun t a b => h1.disj h2 t b a
  have l1 := h1.le
  have l2 := h2.le
  have rg : ∀ t, t ∈ setsL ((simplify x64 q.1 q.2).2.2 ++ (simplify x64 r.1 (simplify x64 q.1 q.2).2.1).2.2) ∨
      t ∈ sets (simplify x64 q.1 q.2).1 ∨ t ∈ sets (simplify x64 r.1 (simplify x64 q.1 q.2).2.1).1 →
      n ≤ t ∧ t < (simplify x64 r.1 (simplify x64 q.1 q.2).2.1).2.1 := by
    intro t ht
    have l3 := f.le
    rcases f.range t ht with (h | h) | h
    · have := h2.range t h; omega
    · have := h1.range t h; omega
    · omega
  simp only [simplifyCall]
  split
  · rename_i hu
    refine ⟨Nat.le_trans (Nat.le_trans l1 l2) f.le, ⟨?_, ?_, fun t a b => f.disj t b a⟩, fun t ht => rg t (.inr ?_)⟩
    · have := f.restB; rw [hu] at this; simpa [sureL] using this
    · have := f.restA; rw [hu] at this; simpa [sureL] using this
    · exact (List.mem_append.1 ht).symm
  · rename_i u us hu
    rw [hu] at f rg
    refine ⟨Nat.le_trans (Nat.le_trans l1 l2) f.le, ⟨chain_sc us u [] f.seq, ⟨?_, ?_, fun t a b => f.disj t b a⟩, ?_⟩, ?_⟩
    · exact f.restB.mono fun t ht => by simpa [chain_sure] using ht
    · exact f.restA.mono fun t ht => by simpa [chain_sure] using ht
    · intro t ht hm
      rw [chain_sets] at ht
      rcases List.mem_append.1 hm with hm | hm
      · exact f.disjB t ht hm
      · exact f.disjA t ht hm
    · intro t ht
      rcases List.mem_append.1 ht with ht | ht
      · rw [chain_sets] at ht; exact rg t (.inl ht)
      · exact rg t (.inr (List.mem_append.1 ht).symm)

theorem assignWith_done {hv : Bool} {op n : Nat} {r q : E × Nat} (h1 : Done n r) (h2 : Done r.2 q) :
    Done n (assignWith hv op r.1 q.1 q.2) := by
  have hb := h1.both h2
  have l1 := h1.le
  have l2 := h2.le
  unfold assignWith
  split
  · refine ⟨by simp only; omega, ⟨trivial, ⟨trivial, h2.sc, fun _ h => by simp [sets] at h⟩, fun _ h => by simp [sets] at h⟩, ?_⟩
    intro t ht
    simp only [sets, List.nil_append] at ht
    exact hb t (List.mem_append_right _ ht)
  · have fr : q.2 ∉ sets r.1 := fun h => by have := hb _ (List.mem_append_left _ h); omega
    have fr' : q.2 ∉ sets q.1 := fun h => by have := hb _ (List.mem_append_right _ h); omega
    refine ⟨by simp only; omega, ⟨⟨(sc_mkRef _ _).2 h1.sc, by rw [sets_mkRef]; exact fr⟩,
      ⟨by simp [Sc, sure], ⟨by simp [Sc, sure], h2.sc.mono (by simp), fun _ h => by simp [sets] at h⟩,
        fun _ h => by simp [sets] at h⟩, ?_⟩, ?_⟩
    · intro t ht hm
      simp only [sets, List.nil_append, sets_mkRef, List.mem_cons] at ht hm
      rcases ht with rfl | ht
      · exact fr' hm
      · exact h1.disj h2 t ht hm
    · intro t ht
      simp only [sets, List.nil_append, sets_mkRef, List.mem_append, List.mem_cons] at ht
      rcases ht with (rfl | ht) | ht
      · simp only; omega
      · have := hb t (List.mem_append_left _ ht); simp only; omega
      · have := hb t (List.mem_append_right _ ht); simp only; omega

theorem parsed_done (x64 : Bool) : (e : E) → (n : Nat) → Source e → Done n (parsed x64 e n)
  | .num _, n, _ | .var _, n, _ | .blk _, n, _ | .nil, n, _ =>
    ⟨Nat.le_refl n, trivial, fun _ h => by simp [parsed, sets] at h⟩
  | .tmp _, _, h => h.elim
  | .tset _ _, _, h => h.elim
  | .un _ e, n, h => by have ih := parsed_done x64 e n h; exact ⟨ih.le, ih.sc, ih.range⟩
  | .inc _ _ e, n, h => by have ih := parsed_done x64 e n h; exact ⟨ih.le, ih.sc, ih.range⟩
  | .ref e, n, h => by have ih := parsed_done x64 e n h; exact ⟨ih.le, ih.sc, ih.range⟩
  | .deref e, n, h => by have ih := parsed_done x64 e n h; exact ⟨ih.le, ih.sc, ih.range⟩
  | .member e _, n, h => by have ih := parsed_done x64 e n h; exact ⟨ih.le, ih.sc, ih.range⟩
  | .bin _ _ a b, n, h => by
    have i1 := parsed_done x64 a n h.1
    have i2 := parsed_done x64 b (parsed x64 a n).2 h.2
    exact ⟨Nat.le_trans i1.le i2.le, ⟨i1.sc, i2.sc, i1.disj i2⟩, i1.both i2⟩
  | .asg a b, n, h => by
    have i1 := parsed_done x64 a n h.1
    have i2 := parsed_done x64 b (parsed x64 a n).2 h.2
    exact ⟨Nat.le_trans i1.le i2.le, ⟨i1.sc, i2.sc, i1.disj i2⟩, i1.both i2⟩
  | .land a b, n, h => by
    have i1 := parsed_done x64 a n h.1
    have i2 := parsed_done x64 b (parsed x64 a n).2 h.2
    exact ⟨Nat.le_trans i1.le i2.le, ⟨i1.sc, i2.sc, i1.disj i2⟩, i1.both i2⟩
  | .lor a b, n, h => by
    have i1 := parsed_done x64 a n h.1
    have i2 := parsed_done x64 b (parsed x64 a n).2 h.2
    exact ⟨Nat.le_trans i1.le i2.le, ⟨i1.sc, i2.sc, i1.disj i2⟩, i1.both i2⟩
  | .cons a b, n, h => by
    have i1 := parsed_done x64 a n h.1
    have i2 := parsed_done x64 b (parsed x64 a n).2 h.2
    exact ⟨Nat.le_trans i1.le i2.le, ⟨i1.sc, i2.sc, i1.disj i2⟩, i1.both i2⟩
  | .comma a b, n, h => by
    have i1 := parsed_done x64 a n h.1
    have i2 := parsed_done x64 b (parsed x64 a n).2 h.2
    exact ⟨Nat.le_trans i1.le i2.le, ⟨i1.sc, i2.sc.mono (by simp), i1.disj i2⟩, i1.both i2⟩
  | .tern c a b, n, h => by
    have i1 := parsed_done x64 c n h.1
    have i2 := parsed_done x64 a (parsed x64 c n).2 h.2.1
    have i3 := parsed_done x64 b (parsed x64 a (parsed x64 c n).2).2 h.2.2
    have l1 := i1.le
    have l2 := i2.le
    have l3 := i3.le
    have both := i2.both i3
    refine ⟨by simp only [parsed]; omega, ⟨i1.sc, i2.sc, i3.sc, fun t x y => ?_, i2.disj i3⟩, ?_⟩
    · have := i1.range t x; have := both t y; omega
    · intro t ht
      rcases List.mem_append.1 ht with ht | ht
      · have := i1.range t ht; simp only [parsed]; omega
      · have := both t ht; simp only [parsed]; omega
  | .opasg _ _ l r, n, h => assignWith_done (parsed_done x64 l n h.1) (parsed_done x64 r (parsed x64 l n).2 h.2)
  | .call f as, n, h => simplifyCall_done (parsed_done x64 f n h.1) (parsed_done x64 as (parsed x64 f n).2 h.2.1)

/-! ## Main theorem -/

/-- In a trace that happens, a temporary written once and read later holds what it ends with. -/
theorem Runs.agree {W : World} : {T : List Act} → {S : List Nat} → {s s' : St} → Ok S T → Runs W s T s' →
    Agree s'.2 T ∧ ∀ t ∈ S, s'.2 t = s.2 t
  | [], S, s, s', _, h => by
    cases h
    exact ⟨fun t v hm => by simp at hm, fun _ _ => rfl⟩
  | x :: T, S, s, s', hk, h => by
    have quiet : ∀ {s1 : St}, x.isTmp = false → s1.2 = s.2 → (Agree s'.2 T ∧ ∀ t ∈ S, s'.2 t = s1.2 t) →
        Agree s'.2 (x :: T) ∧ ∀ t ∈ S, s'.2 t = s.2 t := by
      intro s1 hx e ⟨h1, h2⟩
      refine ⟨fun t v hm => h1 t v ?_, fun t ht => e ▸ h2 t ht⟩
      rcases hm with hm | hm <;> rcases List.mem_cons.1 hm with e | hm
      · subst e; cases hx
      · exact .inl hm
      · subst e; cases hx
      · exact .inr hm
    cases x with
    | rd a v => exact quiet rfl rfl (Runs.agree (T := T) (S := S) hk h.2)
    | wr a v => exact quiet (s1 := (upd s.1 a v, s.2)) rfl rfl (Runs.agree (T := T) (S := S) hk h)
    | call f vs r => exact quiet (s1 := ((W.ext f vs s.1).2, s.2)) rfl rfl (Runs.agree (T := T) (S := S) hk h.2)
    | blk k r => exact quiet (s1 := ((W.blk k s.1).2, s.2)) rfl rfl (Runs.agree (T := T) (S := S) hk h.2)
    | tr t v =>
      have ih := Runs.agree hk.2 h.2
      refine ⟨fun t' v' hm => ?_, ih.2⟩
      rcases hm with hm | hm <;> rcases List.mem_cons.1 hm with e | hm
      · cases e; rw [ih.2 t hk.1, h.1]
      · exact ih.1 t' v' (.inl hm)
      · cases e
      · exact ih.1 t' v' (.inr hm)
    | tw t v =>
      have ih := Runs.agree hk.2 h
      refine ⟨fun t' v' hm => ?_, fun t' ht => ?_⟩
      · rcases hm with hm | hm <;> rcases List.mem_cons.1 hm with e | hm
        · cases e
        · exact ih.1 t' v' (.inl hm)
        · cases e; rw [ih.2 t (List.mem_cons_self ..)]; simp [upd]
        · exact ih.1 t' v' (.inr hm)
      · rw [ih.2 t' (List.mem_cons_of_mem _ ht)]
        have : t' ≠ t := fun e => hk.1 (e ▸ ht)
        simp [upd, this]

theorem Runs.seen {W : World} : {T : List Act} → {s s' : St} → (s0 : Nat → Int) → Runs W s T s' →
    Runs W (s.1, s0) (seen T) (s'.1, s0)
  | [], s, s', s0, h => by cases h; rfl
  | x :: T, s, s', s0, h => by
    cases x with
    | rd a v => exact ⟨h.1, Runs.seen s0 h.2⟩
    | wr a v => exact Runs.seen (T := T) (s := (upd s.1 a v, s.2)) s0 h
    | call f vs r => exact ⟨h.1, Runs.seen (s := ((W.ext f vs s.1).2, s.2)) s0 h.2⟩
    | blk k r => exact ⟨h.1, Runs.seen (s := ((W.blk k s.1).2, s.2)) s0 h.2⟩
    | tr t v => exact Runs.seen (T := T) s0 h.2
    | tw t v => exact Runs.seen (T := T) (s := (s.1, upd s.2 t v)) s0 h

/-- **C84.** Whatever order its operands are evaluated in, what the compiler makes of an expression (calls with
prepared arguments, `op=` through a pointer) has the value, the accesses, the calls and the final memory of an
evaluation of the expression that C allows; on the way every temporary is written before it is read, and once. -/
theorem prepared_as_written_partial (W : World) (x64 : Bool) (e : E) (hs : Source e) (n : Nat) (m m' : Int → Int)
    (T : List Act) (v : Int) (h : Outcome W (parsed x64 e n).1 m T v m') :
    Outcome W e m (seen T) v m' ∧ Ok [] T := by
  obtain ⟨hev, s, s', hr⟩ := h
  have d := parsed_done x64 e n hs
  have ok := hev.ordered d.sc (S := []) fun _ _ h => by simp at h
  exact ⟨⟨(parsed_ok x64 e n _ _ _ hs (hev.hide (hr.agree ok).1)).source hs, s, s, hr.seen s⟩, ok⟩

/-! ## An evaluation exists -/

/-- Operands are where they can be evaluated: places on the left of assignments, lists after callees. -/
def Fine : Mode → E → Prop
  | .val, .num _ | .val, .var _ | .val, .tmp _ | .val, .blk _ => True
  | .val, .tset _ e | .val, .un _ e | .val, .deref e => Fine .val e
  | .val, .inc _ _ e | .val, .ref e | .val, .member e _ => Fine .lv e
  | .val, .bin _ _ a b | .val, .land a b | .val, .lor a b | .val, .comma a b => Fine .val a ∧ Fine .val b
  | .val, .asg l r | .val, .opasg _ _ l r => Fine .lv l ∧ Fine .val r
  | .val, .tern c a b => Fine .val c ∧ Fine .val a ∧ Fine .val b
  | .val, .call f as => Fine .val f ∧ Fine .args as
  | .lv, .var _ => True
  | .lv, .deref e => Fine .val e
  | .lv, .member l _ => Fine .lv l
  | .lv, .comma a b => Fine .val a ∧ Fine .lv b
  | .args, .nil => True
  | .args, .cons a as => Fine .val a ∧ Fine .args as
  | _, _ => False

theorem Runs.append {W : World} : {T1 T2 : List Act} → {s s1 s2 : St} → Runs W s T1 s1 → Runs W s1 T2 s2 →
    Runs W s (T1 ++ T2) s2
  | [], _, _, _, _, h1, h2 => by cases h1; exact h2
  | x :: T1, T2, s, s1, s2, h1, h2 => by
    cases x with
    | rd a v => exact ⟨h1.1, Runs.append h1.2 h2⟩
    | wr a v => exact Runs.append (T1 := T1) (s := (upd s.1 a v, s.2)) h1 h2
    | call f vs r => exact ⟨h1.1, Runs.append (s := ((W.ext f vs s.1).2, s.2)) h1.2 h2⟩
    | blk k r => exact ⟨h1.1, Runs.append (s := ((W.blk k s.1).2, s.2)) h1.2 h2⟩
    | tr t v => exact ⟨h1.1, Runs.append h1.2 h2⟩
    | tw t v => exact Runs.append (T1 := T1) (s := (s.1, upd s.2 t v)) h1 h2

theorem Shuf.app {α : Type} (a b : List α) : Shuf a b (a ++ b) := by
  have := (Shuf.refl_right b).pre_left a
  simpa using this

/-- Whatever the memory, there is an evaluation from left to right. -/
theorem Ev.exists {W : World} : (e : E) → (m : Mode) → Fine m e → (s : St) →
    ∃ T w s', Ev W none m e T w ∧ Runs W s T s'
  | .num v, .val, _, s => ⟨_, _, s, .num, rfl⟩
  | .var x, .val, _, s => ⟨_, _, s, .var (v := s.1 (W.addr x)), ⟨rfl, rfl⟩⟩
  | .var x, .lv, _, s => ⟨_, _, s, .lvar, rfl⟩
  | .tmp t, .val, _, s => ⟨_, _, s, .tmp (v := s.2 t) (by intro _ h; cases h), ⟨rfl, rfl⟩⟩
  | .blk k, .val, _, s => ⟨_, _, _, .blk (r := (W.blk k s.1).1), ⟨rfl, rfl⟩⟩
  | .nil, .args, _, s => ⟨_, _, s, .nil, rfl⟩
  | .tset t e, .val, h, s => by
    obtain ⟨T, w, s1, h1, r1⟩ := Ev.exists e .val h s
    obtain ⟨v, rfl⟩ := h1.one (by decide)
    exact ⟨_, _, (s1.1, upd s1.2 t v), .tset h1 (by intro _ h; cases h), r1.append rfl⟩
  | .un _ e, .val, h, s => by
    obtain ⟨T, w, s1, h1, r1⟩ := Ev.exists e .val h s
    obtain ⟨v, rfl⟩ := h1.one (by decide)
    exact ⟨_, _, s1, .un h1, r1⟩
  | .deref e, .val, h, s => by
    obtain ⟨T, w, s1, h1, r1⟩ := Ev.exists e .val h s
    obtain ⟨v, rfl⟩ := h1.one (by decide)
    exact ⟨_, _, s1, .deref (v := s1.1 v) h1, r1.append ⟨rfl, rfl⟩⟩
  | .deref e, .lv, h, s => by
    obtain ⟨T, w, s1, h1, r1⟩ := Ev.exists e .val h s
    obtain ⟨v, rfl⟩ := h1.one (by decide)
    exact ⟨_, _, s1, .lderef h1, r1⟩
  | .member e k, .val, h, s => by
    obtain ⟨T, w, s1, h1, r1⟩ := Ev.exists e .lv h s
    obtain ⟨v, rfl⟩ := h1.one (by decide)
    exact ⟨_, _, s1, .member (v := s1.1 (v + k)) h1, r1.append ⟨rfl, rfl⟩⟩
  | .member e k, .lv, h, s => by
    obtain ⟨T, w, s1, h1, r1⟩ := Ev.exists e .lv h s
    obtain ⟨v, rfl⟩ := h1.one (by decide)
    exact ⟨_, _, s1, .lmember h1, r1⟩
  | .inc p d e, .val, h, s => by
    obtain ⟨T, w, s1, h1, r1⟩ := Ev.exists e .lv h s
    obtain ⟨v, rfl⟩ := h1.one (by decide)
    exact ⟨_, _, (upd s1.1 v (s1.1 v + d), s1.2), .inc (v := s1.1 v) h1, r1.append ⟨rfl, rfl⟩⟩
  | .ref e, .val, h, s => by
    obtain ⟨T, w, s1, h1, r1⟩ := Ev.exists e .lv h s
    obtain ⟨v, rfl⟩ := h1.one (by decide)
    exact ⟨_, _, s1, .ref h1, r1⟩
  | .bin _ _ a b, .val, h, s => by
    obtain ⟨T, w, s1, h1, r1⟩ := Ev.exists a .val h.1 s
    obtain ⟨v, rfl⟩ := h1.one (by decide)
    obtain ⟨T', w, s2, h2, r2⟩ := Ev.exists b .val h.2 s1
    obtain ⟨v', rfl⟩ := h2.one (by decide)
    exact ⟨_, _, s2, .bin h1 h2 (Shuf.app _ _), r1.append r2⟩
  | .asg a b, .val, h, s => by
    obtain ⟨T, w, s1, h1, r1⟩ := Ev.exists a .lv h.1 s
    obtain ⟨v, rfl⟩ := h1.one (by decide)
    obtain ⟨T', w, s2, h2, r2⟩ := Ev.exists b .val h.2 s1
    obtain ⟨v', rfl⟩ := h2.one (by decide)
    exact ⟨_, _, (upd s2.1 v v', s2.2), .asg h1 h2 (Shuf.app _ _), (r1.append r2).append rfl⟩
  | .opasg _ op a b, .val, h, s => by
    obtain ⟨T, w, s1, h1, r1⟩ := Ev.exists a .lv h.1 s
    obtain ⟨v, rfl⟩ := h1.one (by decide)
    obtain ⟨T', w, s2, h2, r2⟩ := Ev.exists b .val h.2 s1
    obtain ⟨v', rfl⟩ := h2.one (by decide)
    exact ⟨_, _, (upd s2.1 v (W.bin op (s1.1 v) v'), s2.2), .opasg (x := s1.1 v) h1 h2 (Shuf.app _ _),
      ((r1.append (show Runs W s1 [.rd v (s1.1 v)] s1 from ⟨rfl, rfl⟩)).append r2).append rfl⟩
  | .land a b, .val, h, s => by
    obtain ⟨T, w, s1, h1, r1⟩ := Ev.exists a .val h.1 s
    obtain ⟨v, rfl⟩ := h1.one (by decide)
    by_cases hv : v = 0
    · subst hv; exact ⟨_, _, s1, .landF h1, r1⟩
    · obtain ⟨T', w, s2, h2, r2⟩ := Ev.exists b .val h.2 s1
      obtain ⟨v', rfl⟩ := h2.one (by decide)
      exact ⟨_, _, s2, .landT h1 hv h2, r1.append r2⟩
  | .lor a b, .val, h, s => by
    obtain ⟨T, w, s1, h1, r1⟩ := Ev.exists a .val h.1 s
    obtain ⟨v, rfl⟩ := h1.one (by decide)
    by_cases hv : v = 0
    · subst hv
      obtain ⟨T', w, s2, h2, r2⟩ := Ev.exists b .val h.2 s1
      obtain ⟨v', rfl⟩ := h2.one (by decide)
      exact ⟨_, _, s2, .lorF h1 h2, r1.append r2⟩
    · exact ⟨_, _, s1, .lorT h1 hv, r1⟩
  | .comma a b, .val, h, s => by
    obtain ⟨T, w, s1, h1, r1⟩ := Ev.exists a .val h.1 s
    obtain ⟨v, rfl⟩ := h1.one (by decide)
    obtain ⟨T', w, s2, h2, r2⟩ := Ev.exists b .val h.2 s1
    obtain ⟨v', rfl⟩ := h2.one (by decide)
    exact ⟨_, _, s2, .comma h1 h2, r1.append r2⟩
  | .comma a b, .lv, h, s => by
    obtain ⟨T, w, s1, h1, r1⟩ := Ev.exists a .val h.1 s
    obtain ⟨v, rfl⟩ := h1.one (by decide)
    obtain ⟨T', w, s2, h2, r2⟩ := Ev.exists b .lv h.2 s1
    obtain ⟨v', rfl⟩ := h2.one (by decide)
    exact ⟨_, _, s2, .lcomma h1 h2, r1.append r2⟩
  | .tern c a b, .val, h, s => by
    obtain ⟨T, w, s1, h1, r1⟩ := Ev.exists c .val h.1 s
    obtain ⟨v, rfl⟩ := h1.one (by decide)
    by_cases hv : v = 0
    · subst hv
      obtain ⟨T', w, s2, h2, r2⟩ := Ev.exists b .val h.2.2 s1
      obtain ⟨v', rfl⟩ := h2.one (by decide)
      exact ⟨_, _, s2, .ternF h1 h2, r1.append r2⟩
    · obtain ⟨T', w, s2, h2, r2⟩ := Ev.exists a .val h.2.1 s1
      obtain ⟨v', rfl⟩ := h2.one (by decide)
      exact ⟨_, _, s2, .ternT h1 hv h2, r1.append r2⟩
  | .call f as, .val, h, s => by
    obtain ⟨T, vs, s1, h1, r1⟩ := Ev.exists as .args h.2 s
    obtain ⟨T', w, s2, h2, r2⟩ := Ev.exists f .val h.1 s1
    obtain ⟨g, rfl⟩ := h2.one (by decide)
    exact ⟨_, _, _, .call (r := (W.ext g vs s2.1).1) h1 h2 (Shuf.app _ _), (r1.append r2).append ⟨rfl, rfl⟩⟩
  | .cons a as, .args, h, s => by
    obtain ⟨T, w, s1, h1, r1⟩ := Ev.exists a .val h.1 s
    obtain ⟨v, rfl⟩ := h1.one (by decide)
    obtain ⟨T', vs, s2, h2, r2⟩ := Ev.exists as .args h.2 s1
    exact ⟨_, _, s2, .cons h1 h2 (Shuf.app _ _), r1.append r2⟩

theorem simplify_fine (x64 : Bool) : (e : E) → (m : Mode) → (n : Nat) → Fine m e →
    Fine m (simplify x64 e n).1 ∧ ∀ u ∈ (simplify x64 e n).2.2, Fine .val u
  | .tern _ _ _, .val, n, h => ⟨trivial, fun u hu => by cases List.mem_singleton.1 hu; exact h⟩
  | .call _ _, .val, n, h => ⟨trivial, fun u hu => by cases List.mem_singleton.1 hu; exact h⟩
  | .blk _, .val, n, h => ⟨trivial, fun u hu => by cases List.mem_singleton.1 hu; exact h⟩
  | .land _ _, .val, n, h => ⟨trivial, fun u hu => by cases List.mem_singleton.1 hu; exact h⟩
  | .lor _ _, .val, n, h => ⟨trivial, fun u hu => by cases List.mem_singleton.1 hu; exact h⟩
  | .comma a b, .val, n, h => by
    have ih := simplify_fine x64 b .val n h.2
    refine ⟨ih.1, fun u hu => ?_⟩
    rcases List.mem_cons.1 hu with rfl | hu
    · exact h.1
    · exact ih.2 u hu
  | .comma a b, .lv, n, h => by
    have ih := simplify_fine x64 b .lv n h.2
    refine ⟨ih.1, fun u hu => ?_⟩
    rcases List.mem_cons.1 hu with rfl | hu
    · exact h.1
    · exact ih.2 u hu
  | .bin hv op a b, .val, n, h => by
    by_cases hh : (hv && x64) = true
    · simp only [simplify, hh, if_true]
      exact ⟨trivial, fun u hu => by cases List.mem_singleton.1 hu; exact h⟩
    · simp only [simplify, hh, Bool.false_eq_true, if_false]
      have i1 := simplify_fine x64 a .val n h.1
      have i2 := simplify_fine x64 b .val (simplify x64 a n).2.1 h.2
      exact ⟨⟨i1.1, i2.1⟩, fun u hu => (List.mem_append.1 hu).elim (i1.2 u) (i2.2 u)⟩
  | .asg a b, .val, n, h => by
    have i1 := simplify_fine x64 a .lv n h.1
    have i2 := simplify_fine x64 b .val (simplify x64 a n).2.1 h.2
    exact ⟨⟨i1.1, i2.1⟩, fun u hu => (List.mem_append.1 hu).elim (i1.2 u) (i2.2 u)⟩
  | .cons a b, .args, n, h => by
    have i1 := simplify_fine x64 a .val n h.1
    have i2 := simplify_fine x64 b .args (simplify x64 a n).2.1 h.2
    exact ⟨⟨i1.1, i2.1⟩, fun u hu => (List.mem_append.1 hu).elim (i1.2 u) (i2.2 u)⟩
  | .un _ e, .val, n, h => simplify_fine x64 e .val n h
  | .tset _ e, .val, n, h => simplify_fine x64 e .val n h
  | .inc _ _ e, .val, n, h => simplify_fine x64 e .lv n h
  | .ref e, .val, n, h => simplify_fine x64 e .lv n h
  | .deref e, .val, n, h => simplify_fine x64 e .val n h
  | .deref e, .lv, n, h => simplify_fine x64 e .val n h
  | .member e _, .val, n, h => simplify_fine x64 e .lv n h
  | .member e _, .lv, n, h => simplify_fine x64 e .lv n h
  | .num _, .val, _, h => ⟨h, by simp [simplify]⟩
  | .var _, .val, _, h => ⟨h, by simp [simplify]⟩
  | .var _, .lv, _, h => ⟨h, by simp [simplify]⟩
  | .tmp _, .val, _, h => ⟨h, by simp [simplify]⟩
  | .opasg _ _ _ _, .val, _, h => ⟨h, by simp [simplify]⟩
  | .nil, .args, _, h => ⟨h, by simp [simplify]⟩

theorem chain_fine : (us : List E) → (u : E) → (∀ x ∈ u :: us, Fine .val x) → Fine .val (chain u us)
  | [], _, h => h _ (List.mem_cons_self ..)
  | v :: us, u, h => by
    refine chain_fine us (.comma u v) fun x hx => ?_
    rcases List.mem_cons.1 hx with rfl | hx
    · exact ⟨h u (by simp), h v (by simp)⟩
    · exact h x (by simp [hx])

theorem simplifyCall_fine {x64 : Bool} {f as : E} {n : Nat} (hf : Fine .val f) (ha : Fine .args as) :
    Fine .val (simplifyCall x64 f as n).1 := by
  have i1 := simplify_fine x64 as .args n ha
  have i2 := simplify_fine x64 f .val (simplify x64 as n).2.1 hf
  have hu : ∀ u ∈ (simplify x64 as n).2.2 ++ (simplify x64 f (simplify x64 as n).2.1).2.2, Fine .val u :=
    fun u hu => (List.mem_append.1 hu).elim (i1.2 u) (i2.2 u)
  simp only [simplifyCall]
  split
  · exact ⟨i2.1, i1.1⟩
  · rename_i w ws he
    rw [he] at hu
    exact ⟨chain_fine ws w hu, i2.1, i1.1⟩

theorem mkRef_fine {l : E} (h : Fine .lv l) : Fine .val (mkRef l) := by
  cases l <;> first | exact h | exact h.elim

theorem assignWith_fine {hv : Bool} {op n : Nat} {l r : E} (hl : Fine .lv l) (hr : Fine .val r) :
    Fine .val (assignWith hv op l r n).1 := by
  unfold assignWith
  split
  · exact ⟨trivial, trivial, hr⟩
  · exact ⟨mkRef_fine hl, trivial, trivial, hr⟩

theorem parsed_fine (x64 : Bool) : (e : E) → (m : Mode) → (n : Nat) → Fine m e → Fine m (parsed x64 e n).1
  | .num _, .val, _, _ | .var _, .val, _, _ | .var _, .lv, _, _ | .tmp _, .val, _, _ | .blk _, .val, _, _
  | .nil, .args, _, _ => trivial
  | .tset _ e, .val, n, h => parsed_fine x64 e .val n h
  | .un _ e, .val, n, h => parsed_fine x64 e .val n h
  | .inc _ _ e, .val, n, h => parsed_fine x64 e .lv n h
  | .ref e, .val, n, h => parsed_fine x64 e .lv n h
  | .deref e, .val, n, h => parsed_fine x64 e .val n h
  | .deref e, .lv, n, h => parsed_fine x64 e .val n h
  | .member e _, .val, n, h => parsed_fine x64 e .lv n h
  | .member e _, .lv, n, h => parsed_fine x64 e .lv n h
  | .bin _ _ a b, .val, n, h => ⟨parsed_fine x64 a .val n h.1, parsed_fine x64 b .val _ h.2⟩
  | .asg a b, .val, n, h => ⟨parsed_fine x64 a .lv n h.1, parsed_fine x64 b .val _ h.2⟩
  | .land a b, .val, n, h => ⟨parsed_fine x64 a .val n h.1, parsed_fine x64 b .val _ h.2⟩
  | .lor a b, .val, n, h => ⟨parsed_fine x64 a .val n h.1, parsed_fine x64 b .val _ h.2⟩
  | .comma a b, .val, n, h => ⟨parsed_fine x64 a .val n h.1, parsed_fine x64 b .val _ h.2⟩
  | .comma a b, .lv, n, h => ⟨parsed_fine x64 a .val n h.1, parsed_fine x64 b .lv _ h.2⟩
  | .cons a b, .args, n, h => ⟨parsed_fine x64 a .val n h.1, parsed_fine x64 b .args _ h.2⟩
  | .tern c a b, .val, n, h =>
    ⟨parsed_fine x64 c .val n h.1, parsed_fine x64 a .val _ h.2.1, parsed_fine x64 b .val _ h.2.2⟩
  | .opasg _ _ l r, .val, n, h => assignWith_fine (parsed_fine x64 l .lv n h.1) (parsed_fine x64 r .val _ h.2)
  | .call f as, .val, n, h => simplifyCall_fine (parsed_fine x64 f .val n h.1) (parsed_fine x64 as .args _ h.2)

/-- **C84.** What the compiler makes of an expression always has an evaluation, from every memory. -/
theorem prepared_evaluates (W : World) (x64 : Bool) (e : E) (hf : Fine .val e) (n : Nat) (m : Int → Int) :
    ∃ T v m', Outcome W (parsed x64 e n).1 m T v m' := by
  obtain ⟨T, w, s', h, r⟩ := Ev.exists (W := W) (parsed x64 e n).1 .val (parsed_fine x64 e .val n hf) (m, fun _ => 0)
  obtain ⟨v, rfl⟩ := h.one (by decide)
  exact ⟨T, v, s'.1, h, _, s'.2, r⟩

/-! ## Arguments left in a call are simple -/

/-- Evaluated without a call, a branch or (on x64) an instruction with fixed registers. -/
def Plain (x64 : Bool) : E → Prop
  | .num _ | .var _ | .tmp _ | .nil => True
  | .tern _ _ _ | .call _ _ | .blk _ | .land _ _ | .lor _ _ | .comma _ _ | .opasg _ _ _ _ => False
  | .bin hv _ a b => (hv && x64) = false ∧ Plain x64 a ∧ Plain x64 b
  | .asg a b | .cons a b => Plain x64 a ∧ Plain x64 b
  | .tset _ e | .un _ e | .inc _ _ e | .ref e | .deref e | .member e _ => Plain x64 e

/-- Every call has plain arguments and a plain callee. -/
def Ready (x64 : Bool) : E → Prop
  | .num _ | .var _ | .tmp _ | .nil | .blk _ => True
  | .opasg _ _ _ _ => False
  | .call f as => Plain x64 f ∧ Plain x64 as
  | .tern c a b => Ready x64 c ∧ Ready x64 a ∧ Ready x64 b
  | .bin _ _ a b | .asg a b | .cons a b | .land a b | .lor a b | .comma a b => Ready x64 a ∧ Ready x64 b
  | .tset _ e | .un _ e | .inc _ _ e | .ref e | .deref e | .member e _ => Ready x64 e

theorem simplify_plain (x64 : Bool) : (e : E) → (n : Nat) → Ready x64 e →
    Plain x64 (simplify x64 e n).1 ∧ ∀ u ∈ (simplify x64 e n).2.2, Ready x64 u
  | .tern _ _ _, n, h => ⟨trivial, fun u hu => by cases List.mem_singleton.1 hu; exact h⟩
  | .call _ _, n, h => ⟨trivial, fun u hu => by cases List.mem_singleton.1 hu; exact h⟩
  | .blk _, n, h => ⟨trivial, fun u hu => by cases List.mem_singleton.1 hu; exact h⟩
  | .land _ _, n, h => ⟨trivial, fun u hu => by cases List.mem_singleton.1 hu; exact h⟩
  | .lor _ _, n, h => ⟨trivial, fun u hu => by cases List.mem_singleton.1 hu; exact h⟩
  | .comma a b, n, h => by
    have ih := simplify_plain x64 b n h.2
    refine ⟨ih.1, fun u hu => ?_⟩
    rcases List.mem_cons.1 hu with rfl | hu
    · exact h.1
    · exact ih.2 u hu
  | .bin hv op a b, n, h => by
    by_cases hh : (hv && x64) = true
    · simp only [simplify, hh, if_true]
      exact ⟨trivial, fun u hu => by cases List.mem_singleton.1 hu; exact h⟩
    · simp only [simplify, hh, Bool.false_eq_true, if_false]
      have i1 := simplify_plain x64 a n h.1
      have i2 := simplify_plain x64 b (simplify x64 a n).2.1 h.2
      exact ⟨⟨by simpa using hh, i1.1, i2.1⟩, fun u hu => (List.mem_append.1 hu).elim (i1.2 u) (i2.2 u)⟩
  | .asg a b, n, h => by
    have i1 := simplify_plain x64 a n h.1
    have i2 := simplify_plain x64 b (simplify x64 a n).2.1 h.2
    exact ⟨⟨i1.1, i2.1⟩, fun u hu => (List.mem_append.1 hu).elim (i1.2 u) (i2.2 u)⟩
  | .cons a b, n, h => by
    have i1 := simplify_plain x64 a n h.1
    have i2 := simplify_plain x64 b (simplify x64 a n).2.1 h.2
    exact ⟨⟨i1.1, i2.1⟩, fun u hu => (List.mem_append.1 hu).elim (i1.2 u) (i2.2 u)⟩
  | .un _ e, n, h => simplify_plain x64 e n h
  | .tset _ e, n, h => simplify_plain x64 e n h
  | .inc _ _ e, n, h => simplify_plain x64 e n h
  | .ref e, n, h => simplify_plain x64 e n h
  | .deref e, n, h => simplify_plain x64 e n h
  | .member e _, n, h => simplify_plain x64 e n h
  | .num _, _, _ => ⟨trivial, by simp [simplify]⟩
  | .var _, _, _ => ⟨trivial, by simp [simplify]⟩
  | .tmp _, _, _ => ⟨trivial, by simp [simplify]⟩
  | .nil, _, _ => ⟨trivial, by simp [simplify]⟩
  | .opasg _ _ _ _, _, h => h.elim

theorem chain_ready {x64 : Bool} : (us : List E) → (u : E) → (∀ x ∈ u :: us, Ready x64 x) → Ready x64 (chain u us)
  | [], _, h => h _ (List.mem_cons_self ..)
  | v :: us, u, h => by
    refine chain_ready us (.comma u v) fun x hx => ?_
    rcases List.mem_cons.1 hx with rfl | hx
    · exact ⟨h u (by simp), h v (by simp)⟩
    · exact h x (by simp [hx])

theorem simplifyCall_ready {x64 : Bool} {f as : E} {n : Nat} (hf : Ready x64 f) (ha : Ready x64 as) :
    Ready x64 (simplifyCall x64 f as n).1 := by
  have i1 := simplify_plain x64 as n ha
  have i2 := simplify_plain x64 f (simplify x64 as n).2.1 hf
  have hu : ∀ u ∈ (simplify x64 as n).2.2 ++ (simplify x64 f (simplify x64 as n).2.1).2.2, Ready x64 u :=
    fun u hu => (List.mem_append.1 hu).elim (i1.2 u) (i2.2 u)
  simp only [simplifyCall]
  split
  · exact ⟨i2.1, i1.1⟩
  · rename_i w ws he
    rw [he] at hu
    exact ⟨chain_ready ws w hu, i2.1, i1.1⟩

theorem mkRef_ready {x64 : Bool} {l : E} (h : Ready x64 l) : Ready x64 (mkRef l) := by
  cases l <;> exact h

theorem assignWith_ready {x64 : Bool} {hv : Bool} {op n : Nat} {l r : E} (hl : Ready x64 l) (hr : Ready x64 r) :
    Ready x64 (assignWith hv op l r n).1 := by
  unfold assignWith
  split
  · exact ⟨trivial, trivial, hr⟩
  · exact ⟨mkRef_ready hl, trivial, trivial, hr⟩

/-- **C84.** In what the compiler makes of an expression every call has arguments that are evaluated without a
call, a branch or (on x64) a multiplication, division or shift: while arguments are loaded into registers nothing
runs that uses these registers for itself. -/
theorem prepared_calls_plain (x64 : Bool) : (e : E) → (n : Nat) → Source e → Ready x64 (parsed x64 e n).1
  | .num _, _, _ | .var _, _, _ | .blk _, _, _ | .nil, _, _ => trivial
  | .tmp _, _, h => h.elim
  | .tset _ _, _, h => h.elim
  | .un _ e, n, h => prepared_calls_plain x64 e n h
  | .inc _ _ e, n, h => prepared_calls_plain x64 e n h
  | .ref e, n, h => prepared_calls_plain x64 e n h
  | .deref e, n, h => prepared_calls_plain x64 e n h
  | .member e _, n, h => prepared_calls_plain x64 e n h
  | .bin _ _ a b, n, h => ⟨prepared_calls_plain x64 a n h.1, prepared_calls_plain x64 b _ h.2⟩
  | .asg a b, n, h => ⟨prepared_calls_plain x64 a n h.1, prepared_calls_plain x64 b _ h.2⟩
  | .land a b, n, h => ⟨prepared_calls_plain x64 a n h.1, prepared_calls_plain x64 b _ h.2⟩
  | .lor a b, n, h => ⟨prepared_calls_plain x64 a n h.1, prepared_calls_plain x64 b _ h.2⟩
  | .comma a b, n, h => ⟨prepared_calls_plain x64 a n h.1, prepared_calls_plain x64 b _ h.2⟩
  | .cons a b, n, h => ⟨prepared_calls_plain x64 a n h.1, prepared_calls_plain x64 b _ h.2⟩
  | .tern c a b, n, h =>
    ⟨prepared_calls_plain x64 c n h.1, prepared_calls_plain x64 a _ h.2.1, prepared_calls_plain x64 b _ h.2.2⟩
  | .opasg _ _ l r, n, h =>
    assignWith_ready (prepared_calls_plain x64 l n h.1) (prepared_calls_plain x64 r _ h.2)
  | .call f as, n, h =>
    simplifyCall_ready (prepared_calls_plain x64 f n h.1) (prepared_calls_plain x64 as _ h.2.1)

/-! ## Non-vacuity -/

/-- Words of the example: variable `x` at address `x`, operator 0 adds, operator 1 multiplies, function `f` returns
the sum of its arguments plus `f` and counts its calls at address 100. -/
def exWorld : World where
  un _ v := v
  bin op x y := if op = 0 then x + y else x * y
  addr x := x
  ext f vs m := (vs.foldl (· + ·) f, upd m 100 (m 100 + 1))
  blk k m := (k, m)

/-- `f(g(1) + x, a += 2 * h(), c ? x : 5)`, with `a` reached through a pointer. -/
def exExpr : E :=
  .call (.num 7) (.cons (.bin false 0 (.call (.num 8) (.cons (.num 1) .nil)) (.var 1))
    (.cons (.opasg false 0 (.deref (.num 50)) (.bin true 1 (.num 2) (.call (.num 9) .nil)))
      (.cons (.tern (.var 2) (.var 1) (.num 5)) .nil)))

example : (parsed true exExpr 0).1 =
    .comma (.comma (.comma (.comma (.tset 1 (.call (.num 8) (.cons (.num 1) .nil))) (.tset 0 (.num 50)))
        (.tset 2 (.bin true 1 (.num 2) (.call (.num 9) .nil)))) (.tset 3 (.tern (.var 2) (.var 1) (.num 5))))
      (.call (.num 7) (.cons (.bin false 0 (.tmp 1) (.var 1))
        (.cons (.asg (.deref (.tmp 0)) (.bin false 0 (.deref (.tmp 0)) (.tmp 2))) (.cons (.tmp 3) .nil)))) := by
  decide +kernel

theorem exSource : Source exExpr := by simp [exExpr, Source, isList]
theorem exFine : Fine .val exExpr := by simp [exExpr, Fine]

example : ∃ T v m', Outcome exWorld (parsed true exExpr 0).1 (fun _ => 3) T v m' ∧
    Outcome exWorld exExpr (fun _ => 3) (seen T) v m' := by
  obtain ⟨T, v, m', h⟩ := prepared_evaluates exWorld true exExpr exFine 0 (fun _ => 3)
  exact ⟨T, v, m', h, (prepared_as_written_partial exWorld true exExpr exSource 0 _ m' T v h).1⟩

example : Ready true (parsed true exExpr 0).1 := prepared_calls_plain true exExpr 0 exSource

/-! ## Two transformations that are not C -/

/-- `make_cast` on x64 from a floating to an unsigned 64-bit type, when a value is converted by assignment, by
passing it or by returning it (fe_misc.c:395-414): `(uint64_t)((e <= M) ? (int64_t)e : ((int64_t)(e - M1) ^ H))`. An
explicit cast does not come here (parser_expr.c:642-648). -/
def castU64 (opU opLe opI opXor opSub : Nat) (M M1 H : Int) (e : E) : E :=
  .un opU (.tern (.bin false opLe e (.num M)) (.un opI e)
    (.bin false opXor (.un opI (.bin false opSub e (.num M1))) (.num H)))

/-- **C84, finding.** On x64 a floating value converted implicitly to an unsigned 64-bit type is computed twice:
`unsigned long u = g();` calls `g` twice, whatever the operators and the memory, where C calls it once. -/
theorem implicit_u64_conversion_calls_twice (W : World) (u le i x s : Nat) (M M1 H : Int) (g : Int) :
    (∀ T v, Ev W none .val (castU64 u le i x s M M1 H (.call (.num g) .nil)) T [v] →
      ∃ r r', T = [.call g [] r, .call g [] r']) ∧
    (∀ T v, Ev W none .val (.un u (.call (.num g) .nil)) T [v] → ∃ r, T = [.call g [] r]) := by
  have one : ∀ T v, Ev W none .val (.call (.num g) .nil) T [v] → T = [.call g [] v] := by
    intro T v h
    cases h with
    | call ha hf hs => cases ha; cases hf; cases hs; rfl
  have right : ∀ {α : Type} {a b : List α}, Shuf a [] b → b = a := by
    intro α a b h
    generalize hc : ([] : List α) = c at h
    induction h with
    | nil => rfl
    | left _ ih => rw [ih hc]
    | right _ _ => cases hc
  have bin : ∀ op k T v, Ev W none .val (.bin false op (.call (.num g) .nil) (.num k)) T [v] →
      ∃ r, T = [.call g [] r] := by
    intro op k T v h
    cases h with
    | bin h1 h2 hs => cases h2; rw [right hs]; exact ⟨_, one _ _ h1⟩
  constructor
  · intro T v h
    cases h with
    | un h =>
      cases h with
      | ternT hc _ ha =>
        obtain ⟨r, rfl⟩ := bin _ _ _ _ hc
        cases ha with
        | un ha => rw [one _ _ ha]; exact ⟨_, _, rfl⟩
      | ternF hc hb =>
        obtain ⟨r, rfl⟩ := bin _ _ _ _ hc
        cases hb with
        | bin h1 h2 hs =>
          cases h2
          rw [right hs]
          cases h1 with
          | un h1 => obtain ⟨r', rfl⟩ := bin _ _ _ _ h1; exact ⟨_, _, rfl⟩
  · intro T v h
    cases h with
    | un h => exact ⟨_, one _ _ h⟩

example : ∃ T v, Ev exWorld none .val (castU64 0 0 0 0 0 0 0 0 (.call (.num 7) .nil)) T [v] := by
  obtain ⟨T, w, s', h, _⟩ := Ev.exists (W := exWorld) (castU64 0 0 0 0 0 0 0 0 (.call (.num 7) .nil)) .val
    (by simp [castU64, Fine]) (fun _ => 0, fun _ => 0)
  obtain ⟨v, rfl⟩ := h.one (by decide)
  exact ⟨T, v, h⟩

/-- `transform_assign_with_bitfield` (fe_misc.c:1619-1645): `(p = &l, (s = *p, *p = ins(s, ext(s) op r)), ext(*p))`,
`s` being the whole storage unit, `ext` taking the field out and `ins` replacing it. -/
def bitfieldAssignWith (ext ins op : Nat) (l r : E) (n : Nat) : E :=
  .comma (.comma (.tset n (mkRef l)) (.comma (.tset (n + 1) (.deref (.tmp n)))
    (.asg (.deref (.tmp n)) (.bin false ins (.tmp (n + 1)) (.bin false op (.un ext (.tmp (n + 1))) r)))))
    (.un ext (.deref (.tmp n)))

/-- **C84, finding.** `s.a += f()` for a bit-field `a` stores the storage unit as it was before the call: whatever `f`
does to the unit is lost, for the other fields as well, although C lets the assignment change `a` only. -/
theorem bitfield_opassign_undoes_call (W : World) (ext ins op n x : Nat) (g : Int) (m m' : Int → Int)
    (T : List Act) (v : Int) (h : Outcome W (bitfieldAssignWith ext ins op (.var x) (.call (.num g) .nil) n) m T v m') :
    (∃ r, .call g [] r ∈ T) ∧ ∃ y, m' (W.addr x) = W.bin ins (m (W.addr x)) y := by
  obtain ⟨hev, s, s', hr⟩ := h
  have sc : Sc [] (bitfieldAssignWith ext ins op (.var x) (.call (.num g) .nil) n) := by
    simp [bitfieldAssignWith, Sc, sure, sets, mkRef, Disj]
  have ok := hev.ordered sc (S := []) fun _ _ h => by simp at h
  have h2 := hev.hide (hr.agree ok).1
  have r2 := hr.seen s
  have left : ∀ {α : Type} {a b : List α}, Shuf [] a b → b = a := fun h => h.of_nil
  generalize hT : CallArgs.seen T = U at h2 r2
  cases h2 with
  | comma h1 h2 =>
    cases h2 with
    | un h2 =>
      cases h2 with
      | deref h2 =>
        cases h2
        cases h1 with
        | comma ha hb =>
          cases ha with
          | tset ha hp =>
            cases ha with
            | ref ha =>
              cases ha
              cases hb with
              | comma hb hc =>
                cases hb with
                | tset hb hq =>
                  cases hb with
                  | deref hb =>
                    cases hb with
                    | tmp hb' =>
                      cases hc with
                      | asg hl hv hs =>
                        cases hl with
                        | lderef hl =>
                          cases hl with
                          | tmp hl' =>
                            cases hv with
                            | bin h3 h4 hs2 =>
                              cases h3 with
                              | tmp h3' =>
                                cases h4 with
                                | bin h5 h6 hs3 =>
                                  cases h5 with
                                  | un h5 =>
                                    cases h5 with
                                    | tmp h5' =>
                                      cases h6 with
                                      | call h7 h8 hs4 =>
                                        cases h7
                                        cases h8
                                        cases hs4
                                        simp only [See.rd, See.wr, Option.isSome_some, if_true, List.append_nil,
                                          List.nil_append] at hT hs hs2 hs3
                                        have e1 := hp _ rfl
                                        have e2 := hb' _ rfl
                                        have e3 := hl' _ rfl
                                        have e4 := hq _ rfl
                                        have e5 := h3' _ rfl
                                        rw [left hs3] at hs2
                                        rw [left hs2] at hs
                                        rw [left hs] at hT r2
                                        have r3 := hT ▸ hr.seen s
                                        rename_i y u
                                        obtain ⟨q1, q2, q3, q4⟩ := r3
                                        have q5 := congrArg Prod.fst (show ((m', s) : St) = _ from q4)
                                        simp only at q1 q5
                                        refine ⟨⟨y, (List.mem_filter.1 (show Act.call g [] y ∈ CallArgs.seen T by
                                          rw [hT]; simp)).1⟩, W.bin op (W.un ext u) y, ?_⟩
                                        rw [q5, e3, ← e1, e5, ← e4, ← q1, e2, ← e1]
                                        simp only [upd, if_true]

/-- Two fields of four bits in the unit at address 0; function `f` adds 1 to the upper one and returns 2. -/
def bfWorld : World where
  un _ u := u % 16
  bin op x y := if op = 0 then x + y else x / 16 * 16 + y % 16
  addr x := x
  ext _ _ m := (2, upd m 0 (m 0 + 16))
  blk k m := (k, m)

/-- The upper field was 3, the call makes it 4, and afterwards it is 3 again. -/
example : (∃ T v m', Outcome bfWorld (bitfieldAssignWith 0 1 0 (.var 0) (.call (.num 7) .nil) 0) (fun _ => 53) T v m') ∧
    ∀ T v m', Outcome bfWorld (bitfieldAssignWith 0 1 0 (.var 0) (.call (.num 7) .nil) 0) (fun _ => 53) T v m' →
      m' 0 / 16 = 3 ∧ (bfWorld.ext 7 [] (fun _ => 53)).2 0 / 16 = 4 := by
  constructor
  · obtain ⟨T, w, s', h, r⟩ := Ev.exists (W := bfWorld)
      (bitfieldAssignWith 0 1 0 (.var 0) (.call (.num 7) .nil) 0) .val (by simp [bitfieldAssignWith, Fine, mkRef])
      (fun _ => 53, fun _ => 0)
    obtain ⟨v, rfl⟩ := h.one (by decide)
    exact ⟨T, v, s'.1, h, _, s'.2, r⟩
  · intro T v m' h
    obtain ⟨_, y, hy⟩ := bitfield_opassign_undoes_call bfWorld 0 1 0 0 0 7 _ m' T v h
    have e : m' 0 = (53 : Int) / 16 * 16 + y % 16 := hy
    constructor
    · omega
    · decide

end Verif.CallArgs

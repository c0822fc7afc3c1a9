/-!
# C83: an inlined call does what the call does

Model of how `xcc` embeds the body of an `inline` function at a call: `duplicate_inline_function_expr` and
`duplicate_inline_function_stmt` (`/repo/src/cc/frontend/fe_misc.c:2085-2399`), and of how the code of the
embedded body passes the arguments (`gen_inlined`, `/repo/src/cc/backend/codegen_expr.c:763-815`).

Simplifications common to the whole file:
* values are integers, operators and functions that are not inlined are arbitrary functions (of the arguments
  and of all static and global variables); locals are reached by name only, not through pointers;
* `switch`, statement expressions, compound literals and members are left out; `goto` and labels cannot occur
  (`satisfy_inline_criteria`, fe_misc.c:2070-2082);
* a variable is found in the scope its expression points to: the parser stores the scope in which it found the
  name (`variable`, parser_expr.c:320-341).
-/
namespace Verif.Inline

/-- Kinds of trees: expressions, arguments, statements, the statements of a block. -/
inductive K where
  | ex | args | st | sts
  deriving DecidableEq, Repr

/-- Expressions and statements (cc/frontend/ast.h:200-300, 355-450). A variable is a scope and a name.
`inl f as b` is `EX_INLINED`: the function, the arguments, the embedded body. -/
inductive T : K → Type where
  | num (v : Int) : T .ex
  | var (sc name : Nat) : T .ex
  | asg (sc name : Nat) (e : T .ex) : T .ex
  | bin (op : Nat) (a b : T .ex) : T .ex
  | tern (c a b : T .ex) : T .ex
  | call (f : Nat) (as : T .args) : T .ex
  | inl (f : Nat) (as : T .args) (b : T .st) : T .ex
  | anil : T .args
  | acons (e : T .ex) (as : T .args) : T .args
  | empty : T .st
  | expr (e : T .ex) : T .st
  | block (sc : Option Nat) (b : T .sts) : T .st
  | ifs (c : T .ex) (t f : T .st) : T .st
  | while (c : T .ex) (b : T .st) : T .st
  | doWhile (b : T .st) (c : T .ex) : T .st
  | for (pre c post : T .ex) (b : T .st) : T .st
  | brk : T .st
  | cont : T .st
  | ret (e : T .ex) : T .st
  | ret0 : T .st
  | decl (name : Nat) (init : T .st) : T .st
  | snil : T .sts
  | scons (s : T .st) (r : T .sts) : T .sts
  deriving Repr

/-- `storage` of a variable as far as it matters here (ast.h, `VS_…`): `static_.svar` with `VS_STATIC`,
`VS_EXTERN` and `VS_ENUM_MEMBER` together. -/
inductive Kind where
  | param | auto | static (sv : Nat) | extern
  deriving DecidableEq, Repr

/-- `VarInfo` (ast.h). -/
structure Var where
  name : Nat
  kind : Kind
  deriving DecidableEq, Repr

/-- `Scope` (ast.h). Scopes are numbered in the order in which they are entered; 0 is the global scope, and is its own parent. -/
structure Scope where
  parent : Nat
  vars : List Var
  deriving DecidableEq, Repr

/-- The place of a variable. -/
inductive Loc where
  | auto (sc i : Nat) | stat (sv : Nat) | glob (name : Nat)
  deriving DecidableEq, Repr

/-- The position of a name in a scope (`var_find`, cc/frontend/var.c). -/
def position (vars : List Var) (name : Nat) : Option Nat := vars.findIdx? fun v => v.name == name

/-- `scope_find` (cc/frontend/var.c), for a variable that is in the scope; what it denotes. -/
def resolve (A : List Scope) (sc name : Nat) : Option Loc :=
  if sc = 0 then some (.glob name)
  else do
    let s ← A[sc]?
    let i ← position s.vars name
    let v ← s.vars[i]?
    match v.kind with
    | .static sv => some (.stat sv)
    | .extern => some (.glob name)
    | _ => some (.auto sc i)

/-! ## Duplication -/

/-- The inline functions: the body and the scope of the parameters (`scopes->data[0]`) of each. -/
structure Prog where
  body : Nat → T .st
  top : Nat → Nat

/-- What duplication changes: the scopes, the next name of `alloc_dummy_ident`, `curscope`. -/
structure St where
  arena : List Scope
  fresh : Nat
  cur : Nat
  deriving DecidableEq, Repr

/-- The parent of a scope. -/
def parentOf (A : List Scope) (sc : Nat) : Nat := (A[sc]?.map (·.parent)).getD 0

/-- "Detect relative scope" (fe_misc.c:2105-2109): up from `target` to the scope of the variable, and as many
steps up from `cur`. The first argument bounds the number of steps. -/
def relative (A : List Scope) : Nat → (sc target cur : Nat) → Nat
  | 0, _, _, cur => cur
  | n + 1, sc, target, cur =>
    if target = 0 then cur
    else if sc = target then cur
    else relative A n sc (parentOf A target) (parentOf A cur)

/-- `EX_VAR` (fe_misc.c:2091-2125): `top` is the first scope of the function that is duplicated. -/
def dupVar (A : List Scope) (top target cur sc name : Nat) : Nat × Nat :=
  if sc = 0 then (sc, name)
  else
    match A[sc]?.bind fun s => (position s.vars name).bind fun i => s.vars[i]? with
    | none => (sc, name)
    | some v =>
      if v.kind = .extern then (sc, name)
      else
        let sc' := relative A A.length sc target cur
        if v.kind = .param then
          match A[top]?.bind (fun s => s.vars.findIdx? (· == v)), A[sc']? with
          | some i, some s' => (sc', ((s'.vars[i]?).map (·.name)).getD name)
          | _, _ => (sc', name)
        else (sc', name)

/-- The variables of the new scope (fe_misc.c:2228-2247): parameters get new names and are no parameters any
more. Gives the next new name as well. -/
def copyVars : Nat → List Var → List Var × Nat
  | n, [] => ([], n)
  | n, v :: vs =>
    if v.kind = .param then
      let r := copyVars (n + 1) vs
      (⟨n, .auto⟩ :: r.1, r.2)
    else
      let r := copyVars n vs
      (v :: r.1, r.2)

/-- Whether the variable of a declaration is static (fe_misc.c:2383-2384), searched from the scope on. -/
def isStatic (A : List Scope) (sc name : Nat) : Bool :=
  match resolve A sc name with
  | some (.stat _) => true
  | _ => false

/-- `duplicate_inline_function_expr` and `duplicate_inline_function_stmt`. `embed` is `embed_inline_funcall`
(fe_misc.c:2395-2399) for the functions that may be inlined in this one. -/
def dup (embed : Nat → St → T .st × St) (top : Nat) : {k : K} → (target : Nat) → T k → St → T k × St
  | _, _, .num v, st => (.num v, st)
  | _, tg, .var sc n, st => let r := dupVar st.arena top tg st.cur sc n; (.var r.1 r.2, st)
  | _, tg, .asg sc n e, st =>
    let r := dupVar st.arena top tg st.cur sc n
    let a := dup embed top tg e st
    (.asg r.1 r.2 a.1, a.2)
  | _, tg, .bin op a b, st =>
    let x := dup embed top tg a st
    let y := dup embed top tg b x.2
    (.bin op x.1 y.1, y.2)
  | _, tg, .tern c a b, st =>
    let z := dup embed top tg c st
    let x := dup embed top tg a z.2
    let y := dup embed top tg b x.2
    (.tern z.1 x.1 y.1, y.2)
  | _, tg, .call f as, st =>
    let a := dup embed top tg as st
    (.call f a.1, a.2)
  | _, tg, .inl f as _, st =>
    let a := dup embed top tg as st
    let b := embed f a.2
    (.inl f a.1 b.1, b.2)
  | _, _, .anil, st => (.anil, st)
  | _, tg, .acons e as, st =>
    let x := dup embed top tg e st
    let y := dup embed top tg as x.2
    (.acons x.1 y.1, y.2)
  | _, _, .empty, st => (.empty, st)
  | _, tg, .expr e, st =>
    let a := dup embed top tg e st
    (.expr a.1, a.2)
  | _, tg, .block none b, st =>
    let a := dup embed top tg b st
    (.block (some st.cur) a.1, a.2)
  | _, _, .block (some sc) b, st =>
    let vs := copyVars st.fresh ((st.arena[sc]?.map (·.vars)).getD [])
    let a := dup embed top sc b ⟨st.arena ++ [⟨st.cur, vs.1⟩], vs.2, st.arena.length⟩
    (.block (some st.arena.length) a.1, { a.2 with cur := st.cur })
  | _, tg, .ifs c t f, st =>
    let z := dup embed top tg c st
    let x := dup embed top tg t z.2
    let y := dup embed top tg f x.2
    (.ifs z.1 x.1 y.1, y.2)
  | _, tg, .while c b, st =>
    let x := dup embed top tg c st
    let y := dup embed top tg b x.2
    (.while x.1 y.1, y.2)
  | _, tg, .doWhile b c, st =>
    let x := dup embed top tg b st
    let y := dup embed top tg c x.2
    (.doWhile x.1 y.1, y.2)
  | _, tg, .for p c q b, st =>
    let x := dup embed top tg p st
    let y := dup embed top tg c x.2
    let z := dup embed top tg q y.2
    let w := dup embed top tg b z.2
    (.for x.1 y.1 z.1 w.1, w.2)
  | _, _, .brk, st => (.brk, st)
  | _, _, .cont, st => (.cont, st)
  | _, tg, .ret e, st =>
    let a := dup embed top tg e st
    (.ret a.1, a.2)
  | _, _, .ret0, st => (.ret0, st)
  | _, tg, .decl n init, st =>
    if isStatic st.arena tg n then (.empty, st)
    else
      let a := dup embed top tg init st
      (.decl n a.1, a.2)
  | _, _, .snil, st => (.snil, st)
  | _, tg, .scons s r, st =>
    let x := dup embed top tg s st
    let y := dup embed top tg r x.2
    (.scons x.1 y.1, y.2)

/-- `embed_inline_funcall` (fe_misc.c:2395-2399). A function can be inlined only in functions defined after
it (fe_misc.c:2075-2077), so `n`, above all functions involved, bounds the depth. -/
def embed (X : Prog) : Nat → Nat → St → T .st × St
  | 0, _, st => (.empty, st)
  | n + 1, f, st => dup (embed X n) (X.top f) 0 (X.body f) st

/-! ## What the code does -/

/-- Static variables, global variables, and all else. -/
structure Shared where
  stat : Nat → Int
  glob : Nat → Int
  other : Nat

/-- The locals of one activation, by scope and position, and what is shared. -/
structure Mem where
  loc : Nat → Nat → Int
  sh : Shared

/-- Operators, and functions that are not inlined. -/
structure Env where
  op : Nat → Int → Int → Int
  ext : Nat → List Int → Shared → Int × Shared

/-- Reading a variable. -/
def Mem.read (σ : Mem) : Loc → Int
  | .auto s i => σ.loc s i
  | .stat v => σ.sh.stat v
  | .glob n => σ.sh.glob n

/-- Writing a local. -/
def setLoc (φ : Nat → Nat → Int) (s i : Nat) (v : Int) : Nat → Nat → Int :=
  fun a b => if a = s ∧ b = i then v else φ a b

/-- Writing a variable. -/
def Mem.write (σ : Mem) (l : Loc) (v : Int) : Mem :=
  match l with
  | .auto s i => { σ with loc := setLoc σ.loc s i v }
  | .stat n => { σ with sh := { σ.sh with stat := fun a => if a = n then v else σ.sh.stat a } }
  | .glob n => { σ with sh := { σ.sh with glob := fun a => if a = n then v else σ.sh.glob a } }

/-- How a statement ends. -/
inductive Out where
  | norm | brk | cont | ret (v : Int)
  deriving DecidableEq, Repr

/-- What a tree gives: a value, or how the statement ends. -/
abbrev R : K → Type
  | .ex => Int
  | .args => Unit
  | .st => Out
  | .sts => Out

/-- Arguments one after the other, with `ev` for each. -/
def evalArgs (ev : T .ex → Mem → Option (Int × Mem)) : {k : K} → T k → Mem → Option (List Int × Mem)
  | _, .acons e as, σ => (ev e σ).bind fun (v, σ) => (evalArgs ev as σ).bind fun (vs, σ) => some (v :: vs, σ)
  | _, _, σ => some ([], σ)

/-- "Assign arguments to variables" (codegen_expr.c:775-786): each argument is computed and assigned to the
variable at its position in the first scope of the embedded body, before the next one is computed. -/
def bindArgs (ev : T .ex → Mem → Option (Int × Mem)) (top : Nat) : {k : K} → Nat → T k → Mem → Option Mem
  | _, i, .acons e as, σ => (ev e σ).bind fun (v, σ) => bindArgs ev top (i + 1) as (σ.write (.auto top i) v)
  | _, _, _, σ => some σ

/-- The first scope of the embedded body (codegen_expr.c:769-773). -/
def topOf : T .st → Option Nat
  | .block sc _ => sc
  | _ => none

/-- No statement (`init_stmt == NULL` of a declaration without initializer). -/
def isEmpty : T .st → Bool
  | .empty => true
  | _ => false

/-- The value of a call from the way the body ends. Simplification: 0 if it ends without `return`. -/
def finish : Out → Option Int
  | .ret v => some v
  | .norm => some 0
  | _ => none

/-- The code of a function, with embedded bodies (`gen_inlined`, codegen_expr.c:763-815, and the codegen of
statements, which is C55): the embedded body runs on the locals of the function around it; `return` jumps to
its end. The first argument bounds the number of steps; `none` if it does not suffice. -/
def mach (V : Env) (A : List Scope) : Nat → {k : K} → T k → Mem → Option (R k × Mem)
  | 0, _, _, _ => none
  | _ + 1, _, .num v, σ => some (v, σ)
  | _ + 1, _, .var sc n, σ => (resolve A sc n).bind fun l => some (σ.read l, σ)
  | k + 1, _, .asg sc n e, σ => (mach V A k e σ).bind fun (v, σ) => (resolve A sc n).bind fun l => some (v, σ.write l v)
  | k + 1, _, .bin o a b, σ =>
    (mach V A k a σ).bind fun (x, σ) => (mach V A k b σ).bind fun (y, σ) => some (V.op o x y, σ)
  | k + 1, _, .tern c a b, σ => (mach V A k c σ).bind fun (x, σ) => if x ≠ 0 then mach V A k a σ else mach V A k b σ
  | k + 1, _, .call f as, σ =>
    (evalArgs (fun e σ => mach V A k e σ) as σ).bind fun (vs, σ) => some ((V.ext f vs σ.sh).1, { σ with sh := (V.ext f vs σ.sh).2 })
  | k + 1, _, .inl _ as b, σ =>
    (topOf b).bind fun top => (bindArgs (fun e σ => mach V A k e σ) top 0 as σ).bind fun σ =>
    (mach V A k b σ).bind fun (o, σ) => (finish o).bind fun v => some (v, σ)
  | _ + 1, _, .anil, σ => some ((), σ)
  | _ + 1, _, .acons _ _, σ => some ((), σ)
  | _ + 1, _, .empty, σ => some (.norm, σ)
  | k + 1, _, .expr e, σ => (mach V A k e σ).bind fun (_, σ) => some (.norm, σ)
  | k + 1, _, .block _ b, σ => mach V A k (k := .sts) b σ
  | k + 1, _, .ifs c t f, σ => (mach V A k c σ).bind fun (x, σ) => if x ≠ 0 then mach V A k t σ else mach V A k f σ
  | k + 1, _, .while c b, σ =>
    (mach V A k c σ).bind fun (x, σ) =>
    if x = 0 then some (.norm, σ)
    else (mach V A k b σ).bind fun (o, σ) =>
      match o with
      | .brk => some (.norm, σ)
      | .ret v => some (.ret v, σ)
      | _ => mach V A k (.while c b) σ
  | k + 1, _, .doWhile b c, σ =>
    (mach V A k b σ).bind fun (o, σ) =>
    match o with
    | .brk => some (.norm, σ)
    | .ret v => some (.ret v, σ)
    | _ => (mach V A k c σ).bind fun (x, σ) => if x = 0 then some (.norm, σ) else mach V A k (.doWhile b c) σ
  | k + 1, _, .for p c q b, σ =>
    (mach V A k p σ).bind fun (_, σ) => (mach V A k c σ).bind fun (x, σ) =>
    if x = 0 then some (.norm, σ)
    else (mach V A k b σ).bind fun (o, σ) =>
      match o with
      | .brk => some (.norm, σ)
      | .ret v => some (.ret v, σ)
      | _ => (mach V A k q σ).bind fun (_, σ) => mach V A k (.for (.num 0) c q b) σ
  | _ + 1, _, .brk, σ => some (.brk, σ)
  | _ + 1, _, .cont, σ => some (.cont, σ)
  | k + 1, _, .ret e, σ => (mach V A k e σ).bind fun (v, σ) => some (.ret v, σ)
  | _ + 1, _, .ret0, σ => some (.ret 0, σ)
  | k + 1, _, .decl _ i, σ => if isEmpty i then some (.norm, σ) else mach V A k i σ
  | _ + 1, _, .snil, σ => some (.norm, σ)
  | k + 1, _, .scons s r, σ => (mach V A k s σ).bind fun (o, σ) => if o = .norm then mach V A k r σ else some (o, σ)

/-! ## Specification: what C says -/

/-- Sequencing of computations with several possible results; `none` for "does not end within the steps". -/
def sbind {α β : Type} (P : Option α → Prop) (f : α → Option β → Prop) : Option β → Prop :=
  fun r => (P none ∧ r = none) ∨ ∃ a, P (some a) ∧ f a r

/-- Arguments one after the other. -/
def specArgs (ev : T .ex → Mem → Option (Int × Mem) → Prop) : T .args → Mem → Option (List Int × Mem) → Prop
  | .anil, σ => fun r => r = some ([], σ)
  | .acons e as, σ => sbind (ev e σ) fun (v, σ) => sbind (specArgs ev as σ) fun (vs, σ) r => r = some (v :: vs, σ)

/-- The possible results of a tree in which `inl` is a *call*: the arguments are computed; the function gets
locals of its own, with the parameters holding the arguments and all others holding anything; it runs on
them; the locals of the caller are as they were. -/
def spec (X : Prog) (V : Env) (A : List Scope) : Nat → {k : K} → T k → Mem → Option (R k × Mem) → Prop
  | 0, _, _, _ => fun r => r = none
  | _ + 1, _, .num v, σ => fun r => r = some (v, σ)
  | _ + 1, _, .var sc n, σ => fun r => r = (resolve A sc n).bind fun l => some (σ.read l, σ)
  | k + 1, _, .asg sc n e, σ =>
    sbind (spec X V A k e σ) fun (v, σ) r => r = (resolve A sc n).bind fun l => some (v, σ.write l v)
  | k + 1, _, .bin o a b, σ =>
    sbind (spec X V A k a σ) fun (x, σ) => sbind (spec X V A k b σ) fun (y, σ) r => r = some (V.op o x y, σ)
  | k + 1, _, .tern c a b, σ => sbind (spec X V A k c σ) fun (x, σ) => if x ≠ 0 then spec X V A k a σ else spec X V A k b σ
  | k + 1, _, .call f as, σ =>
    sbind (specArgs (fun e σ => spec X V A k e σ) as σ) fun (vs, σ) r =>
      r = some ((V.ext f vs σ.sh).1, { σ with sh := (V.ext f vs σ.sh).2 })
  | k + 1, _, .inl f as _, σ =>
    sbind (specArgs (fun e σ => spec X V A k e σ) as σ) fun (vs, σ) r =>
      ∃ φ : Nat → Nat → Int, (∀ i v, vs[i]? = some v → φ (X.top f) i = v) ∧
        sbind (spec X V A k (X.body f) ⟨φ, σ.sh⟩)
          (fun (o, τ) r => r = (finish o).bind fun v => some (v, ⟨σ.loc, τ.sh⟩)) r
  | _ + 1, _, .anil, σ => fun r => r = some ((), σ)
  | _ + 1, _, .acons _ _, σ => fun r => r = some ((), σ)
  | _ + 1, _, .empty, σ => fun r => r = some (.norm, σ)
  | k + 1, _, .expr e, σ => sbind (spec X V A k e σ) fun (_, σ) r => r = some (.norm, σ)
  | k + 1, _, .block _ b, σ => spec X V A k (k := .sts) b σ
  | k + 1, _, .ifs c t f, σ => sbind (spec X V A k c σ) fun (x, σ) => if x ≠ 0 then spec X V A k t σ else spec X V A k f σ
  | k + 1, _, .while c b, σ =>
    sbind (spec X V A k c σ) fun (x, σ) =>
    if x = 0 then fun r => r = some (.norm, σ)
    else sbind (spec X V A k b σ) fun (o, σ) =>
      match o with
      | .brk => fun r => r = some (.norm, σ)
      | .ret v => fun r => r = some (.ret v, σ)
      | _ => spec X V A k (.while c b) σ
  | k + 1, _, .doWhile b c, σ =>
    sbind (spec X V A k b σ) fun (o, σ) =>
    match o with
    | .brk => fun r => r = some (.norm, σ)
    | .ret v => fun r => r = some (.ret v, σ)
    | _ => sbind (spec X V A k c σ) fun (x, σ) => if x = 0 then fun r => r = some (.norm, σ) else spec X V A k (.doWhile b c) σ
  | k + 1, _, .for p c q b, σ =>
    sbind (spec X V A k p σ) fun (_, σ) => sbind (spec X V A k c σ) fun (x, σ) =>
    if x = 0 then fun r => r = some (.norm, σ)
    else sbind (spec X V A k b σ) fun (o, σ) =>
      match o with
      | .brk => fun r => r = some (.norm, σ)
      | .ret v => fun r => r = some (.ret v, σ)
      | _ => sbind (spec X V A k q σ) fun (_, σ) => spec X V A k (.for (.num 0) c q b) σ
  | _ + 1, _, .brk, σ => fun r => r = some (.brk, σ)
  | _ + 1, _, .cont, σ => fun r => r = some (.cont, σ)
  | k + 1, _, .ret e, σ => sbind (spec X V A k e σ) fun (v, σ) r => r = some (.ret v, σ)
  | _ + 1, _, .ret0, σ => fun r => r = some (.ret 0, σ)
  | k + 1, _, .decl _ i, σ => if isEmpty i then fun r => r = some (.norm, σ) else spec X V A k i σ
  | _ + 1, _, .snil, σ => fun r => r = some (.norm, σ)
  | k + 1, _, .scons s r, σ => sbind (spec X V A k s σ) fun (o, σ) => if o = .norm then spec X V A k r σ else fun q => q = some (o, σ)

/-! ## Copies of trees -/

/-- Two variables are the same up to the map `m` of scopes. -/
def Same (A : List Scope) (m : Nat → Nat) (dom : List Nat) (sc n sc' n' : Nat) : Prop :=
  ∃ l l', resolve A sc n = some l ∧ resolve A sc' n' = some l' ∧
    match l with
    | .auto s i => s ∈ dom ∧ l' = .auto (m s) i
    | _ => l' = l

/-- `m` maps different scopes to different ones. -/
def Inj (m : Nat → Nat) (dom : List Nat) : Prop := ∀ s ∈ dom, ∀ t ∈ dom, m s = m t → s = t

/-- The second tree is a copy of the first one up to `m`; embedded bodies are copies of the bodies of the
functions up to maps of their own, into ranges of scopes that nothing else uses. -/
inductive Copy (X : Prog) (A : List Scope) : (Nat → Prop) → (Nat → Nat) → List Nat → {k : K} → T k → T k → Prop where
  | num {G m d} (v : Int) : Copy X A G m d (.num v) (.num v)
  | var {G m d sc n sc' n'} (h : Same A m d sc n sc' n') : Copy X A G m d (.var sc n) (.var sc' n')
  | asg {G m d sc n sc' n' e e'} (h : Same A m d sc n sc' n') (he : Copy X A G m d e e') : Copy X A G m d (.asg sc n e) (.asg sc' n' e')
  | bin {G m d a a' b b'} (o : Nat) (ha : Copy X A G m d a a') (hb : Copy X A G m d b b') : Copy X A G m d (.bin o a b) (.bin o a' b')
  | tern {G m d c c' a a' b b'} (hc : Copy X A G m d c c') (ha : Copy X A G m d a a') (hb : Copy X A G m d b b') :
    Copy X A G m d (.tern c a b) (.tern c' a' b')
  | call {G m d as as'} (f : Nat) (ha : Copy X A G m d as as') : Copy X A G m d (.call f as) (.call f as')
  | inl {G : Nat → Prop} {m d as as'} (f : Nat) (b : T .st) {b' : T .st} (lo hi : Nat) (m' : Nat → Nat) (d' : List Nat)
    (ha : Copy X A (fun x => G x ∧ ¬ (lo ≤ x ∧ x < hi)) m d as as') (hG : ∀ x, lo ≤ x → x < hi → G x)
    (hm : ∀ s ∈ d, ¬ (lo ≤ m s ∧ m s < hi)) (hb : Copy X A (fun x => lo ≤ x ∧ x < hi) m' d' (X.body f) b')
    (hi' : Inj m' d') (hr : ∀ s ∈ d', lo ≤ m' s ∧ m' s < hi) (ht : X.top f ∈ d') (htop : topOf b' = some (m' (X.top f))) :
    Copy X A G m d (.inl f as b) (.inl f as' b')
  | anil {G m d} : Copy X A G m d .anil .anil
  | acons {G m d e e' as as'} (he : Copy X A G m d e e') (ha : Copy X A G m d as as') : Copy X A G m d (.acons e as) (.acons e' as')
  | empty {G m d} : Copy X A G m d .empty .empty
  | expr {G m d e e'} (he : Copy X A G m d e e') : Copy X A G m d (.expr e) (.expr e')
  | block {G m d b b'} (s s' : Option Nat) (hb : Copy X A G m d b b') : Copy X A G m d (.block s b) (.block s' b')
  | ifs {G m d c c' t t' f f'} (hc : Copy X A G m d c c') (ht : Copy X A G m d t t') (hf : Copy X A G m d f f') :
    Copy X A G m d (.ifs c t f) (.ifs c' t' f')
  | while {G m d c c' b b'} (hc : Copy X A G m d c c') (hb : Copy X A G m d b b') : Copy X A G m d (.while c b) (.while c' b')
  | doWhile {G m d c c' b b'} (hb : Copy X A G m d b b') (hc : Copy X A G m d c c') : Copy X A G m d (.doWhile b c) (.doWhile b' c')
  | for {G m d p p' c c' q q' b b'} (hp : Copy X A G m d p p') (hc : Copy X A G m d c c') (hq : Copy X A G m d q q')
    (hb : Copy X A G m d b b') : Copy X A G m d (.for p c q b) (.for p' c' q' b')
  | brk {G m d} : Copy X A G m d .brk .brk
  | cont {G m d} : Copy X A G m d .cont .cont
  | ret {G m d e e'} (he : Copy X A G m d e e') : Copy X A G m d (.ret e) (.ret e')
  | ret0 {G m d} : Copy X A G m d .ret0 .ret0
  | decl {G m d i i'} (n : Nat) (h : Copy X A G m d i i') (he : isEmpty i = isEmpty i') : Copy X A G m d (.decl n i) (.decl n i')
  | declStatic {G m d} (n : Nat) : Copy X A G m d (.decl n .empty) .empty
  | snil {G m d} : Copy X A G m d .snil .snil
  | scons {G m d s s' r r'} (hs : Copy X A G m d s s') (hr : Copy X A G m d r r') : Copy X A G m d (.scons s r) (.scons s' r')

/-! ## Copies behave alike -/

/-- The memory of the function and the one of its copy agree. -/
structure Rel (m : Nat → Nat) (d : List Nat) (σ σ' : Mem) : Prop where
  sh : σ.sh = σ'.sh
  loc : ∀ s ∈ d, ∀ i, σ.loc s i = σ'.loc (m s) i

/-- Nothing changed outside `G`. -/
def Keeps (G : Nat → Prop) (σ τ : Mem) : Prop := ∀ x, ¬ G x → ∀ i, τ.loc x i = σ.loc x i

/-- What the copy gives, the original may give. -/
def Sim (G : Nat → Prop) (m : Nat → Nat) (d : List Nat) {α : Type} (P : Option (α × Mem) → Prop) (σ₀ : Mem) :
    Option (α × Mem) → Prop
  | none => P none
  | some (v, σ') => ∃ σ, P (some (v, σ)) ∧ Rel m d σ σ' ∧ Keeps G σ₀ σ'

theorem Keeps.refl (G : Nat → Prop) (σ : Mem) : Keeps G σ σ := fun _ _ _ => rfl

theorem Keeps.trans {G : Nat → Prop} {a b c : Mem} (h : Keeps G a b) (h' : Keeps G b c) : Keeps G a c :=
  fun x hx i => (h' x hx i).trans (h x hx i)

theorem Sim.bind {G : Nat → Prop} {m : Nat → Nat} {d : List Nat} {α β : Type} {P : Option (α × Mem) → Prop} {σ₀ : Mem}
    {B : Option (α × Mem)} {f : α × Mem → Option (β × Mem) → Prop} {g : α × Mem → Option (β × Mem)}
    (h : Sim G m d P σ₀ B) (hf : ∀ v σ σ', Rel m d σ σ' → Sim G m d (f (v, σ)) σ' (g (v, σ'))) :
    Sim G m d (sbind P f) σ₀ (B.bind g) := by
  cases B with
  | none => exact .inl ⟨h, rfl⟩
  | some p =>
    obtain ⟨v, σ'⟩ := p
    obtain ⟨σ, h1, h2, h3⟩ := h
    have h4 := hf v σ σ' h2
    simp only [Option.bind_some]
    cases hg : g (v, σ') with
    | none =>
      rw [hg] at h4
      exact .inr ⟨_, h1, h4⟩
    | some q =>
      obtain ⟨w, τ'⟩ := q
      rw [hg] at h4
      obtain ⟨τ, k1, k2, k3⟩ := h4
      exact ⟨τ, .inr ⟨_, h1, k1⟩, k2, h3.trans k3⟩

theorem Sim.pure {G : Nat → Prop} {m : Nat → Nat} {d : List Nat} {α : Type} {σ σ' : Mem} (v : α) (h : Rel m d σ σ') :
    Sim G m d (fun r => r = some (v, σ)) σ' (some (v, σ')) := ⟨σ, rfl, h, Keeps.refl _ _⟩

theorem Sim.weaken {G G' : Nat → Prop} {m : Nat → Nat} {d : List Nat} {α : Type} {P : Option (α × Mem) → Prop} {σ₀ : Mem}
    {B : Option (α × Mem)} (h : Sim G m d P σ₀ B) (hG : ∀ x, G x → G' x) : Sim G' m d P σ₀ B := by
  cases B with
  | none => exact h
  | some p =>
    obtain ⟨σ, h1, h2, h3⟩ := h
    exact ⟨σ, h1, h2, fun x hx i => h3 x (fun g => hx (hG x g)) i⟩

theorem Rel.read {A : List Scope} {m : Nat → Nat} {d : List Nat} {σ σ' : Mem} {sc n sc' n' : Nat} (h : Rel m d σ σ')
    (hs : Same A m d sc n sc' n') : ∃ l l', resolve A sc n = some l ∧ resolve A sc' n' = some l' ∧ σ.read l = σ'.read l' := by
  obtain ⟨l, l', h1, h2, h3⟩ := hs
  refine ⟨l, l', h1, h2, ?_⟩
  cases l with
  | auto s i => obtain ⟨a, rfl⟩ := h3; exact h.loc s a i
  | stat v => cases h3; simp only [Mem.read, h.sh]
  | glob v => cases h3; simp only [Mem.read, h.sh]

theorem Rel.write {A : List Scope} {G : Nat → Prop} {m : Nat → Nat} {d : List Nat} {σ σ' : Mem} {sc n sc' n' : Nat}
    (h : Rel m d σ σ') (hi : Inj m d) (hG : ∀ s ∈ d, G (m s)) (hs : Same A m d sc n sc' n') (v : Int) :
    ∃ l l', resolve A sc n = some l ∧ resolve A sc' n' = some l' ∧ Rel m d (σ.write l v) (σ'.write l' v) ∧
      Keeps G σ' (σ'.write l' v) := by
  obtain ⟨l, l', h1, h2, h3⟩ := hs
  refine ⟨l, l', h1, h2, ?_⟩
  cases l with
  | auto s i =>
    obtain ⟨a, rfl⟩ := h3
    refine ⟨⟨h.sh, fun t ht j => ?_⟩, fun x hx j => ?_⟩
    · simp only [Mem.write, setLoc]
      by_cases e : t = s ∧ j = i
      · rw [if_pos e, if_pos ⟨by rw [e.1], e.2⟩]
      · rw [if_neg e, if_neg (fun e' => e ⟨hi t ht s a e'.1, e'.2⟩), h.loc t ht j]
    · simp only [Mem.write, setLoc]
      rw [if_neg]
      intro e
      exact hx (e.1 ▸ hG s a)
  | stat w => cases h3; exact ⟨⟨by simp only [Mem.write, h.sh], h.loc⟩, Keeps.refl _ _⟩
  | glob w => cases h3; exact ⟨⟨by simp only [Mem.write, h.sh], h.loc⟩, Keeps.refl _ _⟩

theorem sim_args {G : Nat → Prop} {m : Nat → Nat} {d : List Nat} {X : Prog} {A : List Scope} {P : T .ex → Mem → Option (Int × Mem) → Prop}
    {ev : T .ex → Mem → Option (Int × Mem)}
    (hev : ∀ e e' σ σ', Copy X A G m d e e' → Rel m d σ σ' → Sim G m d (P e σ) σ' (ev e' σ')) :
    ∀ (as' as : T .args) (σ σ' : Mem), Copy X A G m d as as' → Rel m d σ σ' → Sim G m d (specArgs P as σ) σ' (evalArgs ev as' σ')
  | .anil, _, σ, σ', h, r => by cases h; simp only [specArgs, evalArgs]; exact Sim.pure _ r
  | .acons e' as', _, σ, σ', h, r => by
    cases h with
    | acons he ha =>
      simp only [specArgs, evalArgs]
      refine Sim.bind (hev _ _ _ _ he r) fun v τ τ' r' => ?_
      exact Sim.bind (sim_args hev as' _ _ _ ha r') fun vs τ τ' r' => Sim.pure _ r'

theorem sim_bindArgs {G : Nat → Prop} {m : Nat → Nat} {d : List Nat} {X : Prog} {A : List Scope} {P : T .ex → Mem → Option (Int × Mem) → Prop}
    {ev : T .ex → Mem → Option (Int × Mem)} {top : Nat} (hG : ¬ G top) (hm : ∀ s ∈ d, m s ≠ top)
    (hev : ∀ e e' σ σ', Copy X A G m d e e' → Rel m d σ σ' → Sim G m d (P e σ) σ' (ev e' σ')) :
    ∀ (as' as : T .args) (i : Nat) (σ σ' : Mem), Copy X A G m d as as' → Rel m d σ σ' →
      match bindArgs ev top i as' σ' with
      | none => specArgs P as σ none
      | some τ' => ∃ vs τ, specArgs P as σ (some (vs, τ)) ∧ Rel m d τ τ' ∧ Keeps (fun x => G x ∨ x = top) σ' τ' ∧
          (∀ j, j < i → τ'.loc top j = σ'.loc top j) ∧ ∀ j v, vs[j]? = some v → τ'.loc top (i + j) = v
  | .anil, _, i, σ, σ', h, r => by
    cases h
    simp only [specArgs, bindArgs]
    exact ⟨[], σ, rfl, r, Keeps.refl _ _, fun _ _ => by trivial, fun j v hv => by simp at hv⟩
  | .acons e' as', _, i, σ, σ', h, r => by
    cases h with
    | @acons _ _ _ e _ as _ he ha =>
      have h1 := hev _ _ _ _ he r
      simp only [bindArgs, specArgs]
      cases h2 : ev e' σ' with
      | none =>
        rw [h2] at h1
        exact .inl ⟨h1, rfl⟩
      | some p =>
        obtain ⟨v, σ1'⟩ := p
        rw [h2] at h1
        obtain ⟨σ1, k1, k2, k3⟩ := h1
        simp only [Option.bind_some]
        have r2 : Rel m d σ1 (σ1'.write (.auto top i) v) := by
          refine ⟨k2.sh, fun s hs j => ?_⟩
          simp only [Mem.write, setLoc]
          rw [if_neg (fun e => hm s hs e.1)]
          exact k2.loc s hs j
        have h3 := sim_bindArgs hG hm hev as' as (i + 1) σ1 (σ1'.write (.auto top i) v) ha r2
        cases h4 : bindArgs ev top (i + 1) as' (σ1'.write (.auto top i) v) with
        | none =>
          rw [h4] at h3
          exact .inr ⟨_, k1, .inl ⟨h3, rfl⟩⟩
        | some τ' =>
          rw [h4] at h3
          obtain ⟨vs, τ, q1, q2, q3, q4, q5⟩ := h3
          refine ⟨v :: vs, τ, .inr ⟨_, k1, .inr ⟨_, q1, rfl⟩⟩, q2, ?_, ?_, ?_⟩
          · intro x hx j
            rw [q3 x hx j]
            simp only [Mem.write, setLoc]
            rw [if_neg (fun e => hx (.inr e.1)), k3 x (fun g => hx (.inl g)) j]
          · intro j hj
            rw [q4 j (by omega)]
            simp only [Mem.write, setLoc]
            rw [if_neg (fun e => by omega), k3 top hG j]
          · intro j w hw
            cases j with
            | zero =>
              rw [Nat.add_zero, q4 i (by omega)]
              simp only [Mem.write, setLoc]
              simp at hw
              simp [hw]
            | succ j =>
              have := q5 j w (by simpa using hw)
              rw [← this]
              congr 1
              omega

/-- A copy does what the original may do, and changes nothing else. -/
theorem sim (X : Prog) (V : Env) (A : List Scope) :
    ∀ (n : Nat) {k : K} (t t' : T k) (G : Nat → Prop) (m : Nat → Nat) (d : List Nat) (σ σ' : Mem), Copy X A G m d t t' → Inj m d →
      (∀ s ∈ d, G (m s)) → Rel m d σ σ' → Sim G m d (spec X V A n t σ) σ' (mach V A n t' σ')
  | 0, _, t, t', G, m, d, σ, σ', h, hi, hG, r => by simp only [mach, spec, Sim]
  | n + 1, _, t, t', G, m, d, σ, σ', h, hi, hG, r => by
    have IH := fun {k : K} (t t' : T k) (σ σ' : Mem) (h : Copy X A G m d t t') (r : Rel m d σ σ') => sim X V A n t t' G m d σ σ' h hi hG r
    cases h with
    | num v => exact Sim.pure _ r
    | var hs =>
      obtain ⟨l, l', h1, h2, h3⟩ := r.read hs
      simp only [mach, spec, h1, h2, Option.bind_some, h3]
      exact Sim.pure _ r
    | asg hs he =>
      simp only [mach, spec]
      refine Sim.bind (IH _ _ _ _ he r) fun v τ τ' r' => ?_
      obtain ⟨l, l', h1, h2, h3, h4⟩ := r'.write hi hG hs v
      simp only [h1, h2, Option.bind_some]
      exact ⟨_, rfl, h3, h4⟩
    | bin o ha hb =>
      simp only [mach, spec]
      refine Sim.bind (IH _ _ _ _ ha r) fun v τ τ' r' => ?_
      exact Sim.bind (IH _ _ _ _ hb r') fun v τ τ' r' => Sim.pure _ r'
    | tern hc ha hb =>
      simp only [mach, spec]
      refine Sim.bind (IH _ _ _ _ hc r) fun v τ τ' r' => ?_
      by_cases hv : v ≠ 0
      · simp only [if_pos hv]; exact IH _ _ _ _ ha r'
      · simp only [if_neg hv]; exact IH _ _ _ _ hb r'
    | call f ha =>
      simp only [mach, spec]
      refine Sim.bind (sim_args (fun e e' σ σ' h r => IH e e' σ σ' h r) _ _ _ _ ha r) fun vs τ τ' r' => ?_
      exact ⟨⟨τ.loc, (V.ext f vs τ'.sh).2⟩, by simp only [r'.sh], ⟨rfl, r'.loc⟩, Keeps.refl _ _⟩
    | @inl _ _ _ as as' f b b' lo hi' m' d' ha hG' hm hb hinj hr ht htop =>
      simp only [mach, spec, htop, Option.bind_some]
      have hG2 : ∀ s ∈ d, G (m s) ∧ ¬ (lo ≤ m s ∧ m s < hi') := fun s hs => ⟨hG s hs, hm s hs⟩
      have h1 := sim_bindArgs (G := fun x => G x ∧ ¬ (lo ≤ x ∧ x < hi')) (m := m) (d := d) (X := X) (A := A)
        (P := fun e σ => spec X V A n e σ) (ev := fun e σ => mach V A n e σ) (top := m' (X.top f))
        (fun g => g.2 (hr _ ht)) (fun s hs e => hm s hs (e ▸ hr _ ht))
        (fun e e' σ σ' h r => sim X V A n e e' _ m d σ σ' h hi hG2 r) as' as 0 σ σ' ha r
      cases h2 : bindArgs (fun e σ => mach V A n e σ) (m' (X.top f)) 0 as' σ' with
      | none =>
        rw [h2] at h1
        exact .inl ⟨h1, rfl⟩
      | some τ' =>
        rw [h2] at h1
        obtain ⟨vs, τ, q1, q2, q3, q4, q5⟩ := h1
        simp only [Option.bind_some]
        have h3 := sim X V A n (X.body f) b' _ m' d' ⟨fun s i => τ'.loc (m' s) i, τ.sh⟩ τ' hb hinj hr
          ⟨q2.sh, fun s _ i => rfl⟩
        have hpar : ∀ i v, vs[i]? = some v → (fun s i => τ'.loc (m' s) i) (X.top f) i = v := by
          intro i v hv
          have := q5 i v hv
          rwa [Nat.zero_add] at this
        cases h4 : mach V A n b' τ' with
        | none =>
          rw [h4] at h3
          exact .inr ⟨_, q1, _, hpar, .inl ⟨h3, rfl⟩⟩
        | some p =>
          obtain ⟨o, ρ'⟩ := p
          rw [h4] at h3
          obtain ⟨ρ, k1, k2, k3⟩ := h3
          simp only [Option.bind_some]
          cases h5 : finish o with
          | none =>
            refine .inr ⟨_, q1, _, hpar, .inr ⟨_, k1, ?_⟩⟩
            simp only [h5, Option.bind_none]
          | some v =>
            refine ⟨⟨τ.loc, ρ.sh⟩, .inr ⟨_, q1, _, hpar, .inr ⟨_, k1, ?_⟩⟩, ⟨k2.sh, ?_⟩, ?_⟩
            · simp only [h5, Option.bind_some]
            · intro s hs i
              rw [k3 _ (hm s hs) i]
              exact q2.loc s hs i
            · intro x hx i
              rw [k3 x (fun e => hx (hG' x e.1 e.2)) i, q3 x _ i]
              rintro (e | e)
              · exact hx e.1
              · exact hx (e ▸ hG' _ (hr _ ht).1 (hr _ ht).2)
    | anil => exact Sim.pure _ r
    | acons => exact Sim.pure _ r
    | empty => exact Sim.pure _ r
    | expr he =>
      simp only [mach, spec]
      exact Sim.bind (IH _ _ _ _ he r) fun v τ τ' r' => Sim.pure _ r'
    | block s s' hb =>
      simp only [mach, spec]
      exact IH _ _ _ _ hb r
    | ifs hc ha hb =>
      simp only [mach, spec]
      refine Sim.bind (IH _ _ _ _ hc r) fun v τ τ' r' => ?_
      by_cases hv : v ≠ 0
      · simp only [if_pos hv]; exact IH _ _ _ _ ha r'
      · simp only [if_neg hv]; exact IH _ _ _ _ hb r'
    | «while» hc hb =>
      simp only [mach, spec]
      refine Sim.bind (IH _ _ _ _ hc r) fun v τ τ' r' => ?_
      by_cases hv : v = 0
      · simp only [if_pos hv]; exact Sim.pure _ r'
      · simp only [if_neg hv]
        refine Sim.bind (IH _ _ _ _ hb r') fun o τ τ' r' => ?_
        cases o with
        | brk => exact Sim.pure _ r'
        | ret v => exact Sim.pure _ r'
        | norm => exact IH _ _ _ _ (.while hc hb) r'
        | cont => exact IH _ _ _ _ (.while hc hb) r'
    | doWhile hb hc =>
      rename_i c c' b b'
      simp only [mach, spec]
      refine Sim.bind (IH _ _ _ _ hb r) fun o τ τ' r' => ?_
      have next : Sim G m d (sbind (spec X V A n c τ) fun (x, σ) => if x = 0 then fun r => r = some (Out.norm, σ) else spec X V A n (.doWhile b c) σ) τ'
          ((mach V A n c' τ').bind fun (x, σ) => if x = 0 then some (Out.norm, σ) else mach V A n (.doWhile b' c') σ) := by
        refine Sim.bind (IH _ _ _ _ hc r') fun v τ τ' r' => ?_
        by_cases hv : v = 0
        · simp only [if_pos hv]; exact Sim.pure _ r'
        · simp only [if_neg hv]; exact IH _ _ _ _ (.doWhile hb hc) r'
      cases o with
      | brk => exact Sim.pure _ r'
      | ret v => exact Sim.pure _ r'
      | norm => exact next
      | cont => exact next
    | «for» hp hc hq hb =>
      rename_i p p' c c' q q' b b'
      simp only [mach, spec]
      refine Sim.bind (IH _ _ _ _ hp r) fun v τ τ' r' => ?_
      refine Sim.bind (IH _ _ _ _ hc r') fun v τ τ' r' => ?_
      by_cases hv : v = 0
      · simp only [if_pos hv]; exact Sim.pure _ r'
      · simp only [if_neg hv]
        refine Sim.bind (IH _ _ _ _ hb r') fun o τ τ' r' => ?_
        have next : Sim G m d (sbind (spec X V A n q τ) fun (_, σ) => spec X V A n (.for (.num 0) c q b) σ) τ'
            ((mach V A n q' τ').bind fun (_, σ) => mach V A n (.for (.num 0) c' q' b') σ) :=
          Sim.bind (IH _ _ _ _ hq r') fun v τ τ' r' => IH _ _ _ _ (.for (.num 0) hc hq hb) r'
        cases o with
        | brk => exact Sim.pure _ r'
        | ret v => exact Sim.pure _ r'
        | norm => exact next
        | cont => exact next
    | brk => exact Sim.pure _ r
    | cont => exact Sim.pure _ r
    | ret he =>
      simp only [mach, spec]
      exact Sim.bind (IH _ _ _ _ he r) fun v τ τ' r' => Sim.pure _ r'
    | ret0 => exact Sim.pure _ r
    | @decl _ _ _ i i' x h he =>
      simp only [mach, spec, he]
      by_cases hv : Inline.isEmpty i' = true
      · simp only [if_pos hv]; exact Sim.pure _ r
      · simp only [if_neg hv]; exact IH _ _ _ _ h r
    | declStatic x =>
      simp only [mach, spec, isEmpty, if_true]
      exact Sim.pure _ r
    | snil => exact Sim.pure _ r
    | scons hs hr =>
      simp only [mach, spec]
      refine Sim.bind (IH _ _ _ _ hs r) fun o τ τ' r' => ?_
      by_cases hv : o = .norm
      · simp only [if_pos hv]; exact IH _ _ _ _ hr r'
      · simp only [if_neg hv]; exact Sim.pure _ r'

/-! ## Programs as the parser leaves them -/

/-- A variable of a function body, in a place inside the scopes `chain` (innermost first, the last one is
that of the parameters): global, or declared `extern`, or in one of these scopes. -/
def Known (A : List Scope) (chain : List Nat) (sc n : Nat) : Prop :=
  sc = 0 ∨ ∃ s i v, A[sc]? = some s ∧ position s.vars n = some i ∧ s.vars[i]? = some v ∧
    (v.kind = .extern ∨ (sc ∈ chain ∧ (v.kind = .param → chain.getLast? = some sc)))

/-- No declaration. -/
def notDecl : T .st → Prop
  | .decl _ _ => False
  | _ => True

/-- The body of an inline function as the parser leaves it: variables are known; a block has a scope of its
own inside the one around it; a static variable has no initializing statement (its initializer is evaluated
at compile time); only functions below `n` are inlined in it. -/
def WF (A : List Scope) (n : Nat) : {k : K} → List Nat → T k → Prop
  | _, _, .num _ => True
  | _, ch, .var sc x => Known A ch sc x
  | _, ch, .asg sc x e => Known A ch sc x ∧ WF A n ch e
  | _, ch, .bin _ a b => WF A n ch a ∧ WF A n ch b
  | _, ch, .tern c a b => WF A n ch c ∧ WF A n ch a ∧ WF A n ch b
  | _, ch, .call _ as => WF A n ch as
  | _, ch, .inl f as _ => f < n ∧ WF A n ch as
  | _, _, .anil => True
  | _, ch, .acons e as => WF A n ch e ∧ WF A n ch as
  | _, _, .empty => True
  | _, ch, .expr e => WF A n ch e
  | _, ch, .block none b => WF A n ch b
  | _, ch, .block (some sc) b => sc < A.length ∧ ch.headD 0 < sc ∧ parentOf A sc = ch.headD 0 ∧ WF A n (sc :: ch) b
  | _, ch, .ifs c t f => WF A n ch c ∧ WF A n ch t ∧ WF A n ch f
  | _, ch, .while c b => WF A n ch c ∧ WF A n ch b
  | _, ch, .doWhile b c => WF A n ch b ∧ WF A n ch c
  | _, ch, .for p c q b => WF A n ch p ∧ WF A n ch c ∧ WF A n ch q ∧ WF A n ch b
  | _, _, .brk => True
  | _, _, .cont => True
  | _, ch, .ret e => WF A n ch e
  | _, _, .ret0 => True
  | _, ch, .decl x i => (isStatic A (ch.headD 0) x = true → i = .empty) ∧ notDecl i ∧ WF A n ch i
  | _, _, .snil => True
  | _, ch, .scons s r => WF A n ch s ∧ WF A n ch r

/-- The scopes of the blocks of a tree, without those of embedded bodies. -/
def scopes : {k : K} → T k → List Nat
  | _, .asg _ _ e => scopes e
  | _, .bin _ a b => scopes a ++ scopes b
  | _, .tern c a b => scopes c ++ (scopes a ++ scopes b)
  | _, .call _ as => scopes as
  | _, .inl _ as _ => scopes as
  | _, .acons e as => scopes e ++ scopes as
  | _, .expr e => scopes e
  | _, .block none b => scopes b
  | _, .block (some sc) b => sc :: scopes b
  | _, .ifs c t f => scopes c ++ (scopes t ++ scopes f)
  | _, .while c b => scopes c ++ scopes b
  | _, .doWhile b c => scopes b ++ scopes c
  | _, .for p c q b => scopes p ++ (scopes c ++ (scopes q ++ scopes b))
  | _, .ret e => scopes e
  | _, .decl _ i => scopes i
  | _, .scons s r => scopes s ++ scopes r
  | _, _ => []

/-- The inline functions below `n` are as the parser leaves them: the body is a block with the scope of the
parameters, each block has its own scope, and only functions defined before are inlined. -/
def Program (X : Prog) (A : List Scope) (n : Nat) : Prop :=
  ∀ f < n, (∃ b, X.body f = .block (some (X.top f)) b) ∧ WF A f [] (X.body f) ∧ (scopes (X.body f)).Nodup

/-- The names of all variables are below the names `alloc_dummy_ident` gives out. -/
def NamesBelow (A : List Scope) (n : Nat) : Prop := ∀ s ∈ A, ∀ v ∈ s.vars, v.name < n

/-! ### Names -/

theorem position_cons (v : Var) (vs : List Var) (name : Nat) :
    position (v :: vs) name = if v.name = name then some 0 else (position vs name).map (· + 1) := by
  simp only [position, List.findIdx?_cons]
  by_cases h : v.name = name
  · simp [h]
  · simp [h]

theorem copyVars_le (vs : List Var) : ∀ n, n ≤ (copyVars n vs).2 := by
  induction vs with
  | nil => intro n; exact Nat.le_refl _
  | cons v vs ih =>
    intro n
    simp only [copyVars]
    split
    · exact Nat.le_trans (Nat.le_succ n) (ih (n + 1))
    · exact ih n

theorem copy_other (vs : List Var) : ∀ (n name i : Nat) (v : Var), (∀ w ∈ vs, w.name < n) → name < n →
    position vs name = some i → vs[i]? = some v → v.kind ≠ .param →
    position (copyVars n vs).1 name = some i ∧ (copyVars n vs).1[i]? = some v := by
  induction vs with
  | nil => intro n name i v _ _ h; simp [position] at h
  | cons w ws ih =>
    intro n name i v hw hn hp hi hk
    rw [position_cons] at hp
    by_cases e : w.name = name
    · rw [if_pos e] at hp
      cases hp
      simp at hi
      subst hi
      simp only [copyVars, if_neg hk]
      exact ⟨by rw [position_cons, if_pos e], rfl⟩
    · rw [if_neg e] at hp
      cases hq : position ws name with
      | none => rw [hq] at hp; cases hp
      | some j =>
        rw [hq] at hp
        cases hp
        have hi' : ws[j]? = some v := by simpa using hi
        simp only [copyVars]
        split
        · obtain ⟨a, b⟩ := ih (n + 1) name j v (fun x hx => Nat.lt_succ_of_lt (hw x (.tail _ hx))) (by omega) hq hi' hk
          exact ⟨by rw [position_cons, if_neg (by simp only; omega), a]; rfl, by simpa using b⟩
        · obtain ⟨a, b⟩ := ih n name j v (fun x hx => hw x (.tail _ hx)) hn hq hi' hk
          exact ⟨by rw [position_cons, if_neg e, a]; rfl, by simpa using b⟩

theorem copy_param (vs : List Var) : ∀ (n i : Nat) (v : Var), (∀ w ∈ vs, w.name < n) → vs[i]? = some v → v.kind = .param →
    ∃ x, n ≤ x ∧ position (copyVars n vs).1 x = some i ∧ (copyVars n vs).1[i]? = some ⟨x, .auto⟩ := by
  induction vs with
  | nil => intro n i v _ h; simp at h
  | cons w ws ih =>
    intro n i v hw hi hk
    simp only [copyVars]
    cases i with
    | zero =>
      simp at hi
      subst hi
      rw [if_pos hk]
      exact ⟨n, Nat.le_refl _, by rw [position_cons, if_pos rfl], rfl⟩
    | succ j =>
      have hi' : ws[j]? = some v := by simpa using hi
      split
      · obtain ⟨x, h0, a, b⟩ := ih (n + 1) j v (fun x hx => Nat.lt_succ_of_lt (hw x (.tail _ hx))) hi' hk
        exact ⟨x, by omega, by rw [position_cons, if_neg (by simp only; omega), a]; rfl, by simpa using b⟩
      · obtain ⟨x, h0, a, b⟩ := ih n j v (fun x hx => hw x (.tail _ hx)) hi' hk
        have := hw w (.head _)
        exact ⟨x, h0, by rw [position_cons, if_neg (by omega), a]; rfl, by simpa using b⟩

theorem findIdx_of_position (vs : List Var) : ∀ (name i : Nat) (v : Var), position vs name = some i → vs[i]? = some v →
    v.name = name ∧ vs.findIdx? (· == v) = some i := by
  induction vs with
  | nil => intro name i v h; simp [position] at h
  | cons w ws ih =>
    intro name i v hp hi
    rw [position_cons] at hp
    by_cases e : w.name = name
    · rw [if_pos e] at hp
      cases hp
      simp at hi
      subst hi
      exact ⟨e, by simp [List.findIdx?_cons]⟩
    · rw [if_neg e] at hp
      cases hq : position ws name with
      | none => rw [hq] at hp; cases hp
      | some j =>
        rw [hq] at hp
        cases hp
        obtain ⟨a, b⟩ := ih name j v hq (by simpa using hi)
        refine ⟨a, ?_⟩
        have : ¬ w = v := fun h => e (h ▸ a)
        simp [List.findIdx?_cons, this, b]

/-! ### Scopes -/

/-- `A` is an initial part of `B`. -/
def Ext (A B : List Scope) : Prop := ∃ e, B = A ++ e

theorem Ext.refl (A : List Scope) : Ext A A := ⟨[], by simp⟩

theorem Ext.trans {A B C : List Scope} (h : Ext A B) (h' : Ext B C) : Ext A C := by
  obtain ⟨e, rfl⟩ := h
  obtain ⟨e', rfl⟩ := h'
  exact ⟨e ++ e', by simp⟩

theorem Ext.get {A B : List Scope} (h : Ext A B) {i : Nat} {s : Scope} (hi : A[i]? = some s) : B[i]? = some s := by
  obtain ⟨e, rfl⟩ := h
  rw [List.getElem?_append_left]
  · exact hi
  · exact (List.getElem?_eq_some_iff.mp hi).1

theorem Ext.len {A B : List Scope} (h : Ext A B) : A.length ≤ B.length := by
  obtain ⟨e, rfl⟩ := h
  simp

theorem Ext.parent {A B : List Scope} (h : Ext A B) {i : Nat} (hi : i < A.length) : parentOf B i = parentOf A i := by
  have : A[i]? = some A[i] := List.getElem?_eq_getElem hi
  simp only [parentOf, this, h.get this]

theorem resolve_of {A : List Scope} {sc n i : Nat} {s : Scope} {v : Var} (h0 : sc ≠ 0) (hs : A[sc]? = some s)
    (hp : position s.vars n = some i) (hv : s.vars[i]? = some v) :
    resolve A sc n = match v.kind with
      | .static sv => some (.stat sv)
      | .extern => some (.glob n)
      | _ => some (.auto sc i) := by
  simp only [resolve, if_neg h0, hs, hp, hv, Option.bind_eq_bind, Option.bind_some]

/-- The new scope of `s` is `c`. -/
def CopyScope (A B : List Scope) (s c : Nat) : Prop :=
  c ≠ 0 ∧ ∃ so sn n, A[s]? = some so ∧ B[c]? = some sn ∧ sn.vars = (copyVars n so.vars).1 ∧ ∀ w ∈ so.vars, w.name < n

/-- One scope inside the other, for the function and for its copy. -/
def Linked (A B : List Scope) (m : Nat → Nat) : List Nat → Prop
  | [] => True
  | s :: r => 0 < s ∧ s < A.length ∧ CopyScope A B s (m s) ∧ parentOf A s = r.headD 0 ∧ r.headD 0 < s ∧
      (∀ t ∈ r.head?, parentOf B (m s) = m t) ∧ Linked A B m r

theorem Linked.mem {A B : List Scope} {m : Nat → Nat} : ∀ {ch : List Nat}, Linked A B m ch → ∀ s ∈ ch, 0 < s ∧ s < A.length ∧ CopyScope A B s (m s)
  | t :: r, h, s, hs => by
    rcases List.mem_cons.mp hs with rfl | hs
    · exact ⟨h.1, h.2.1, h.2.2.1⟩
    · exact h.2.2.2.2.2.2.mem s hs

theorem Linked.lt {A B : List Scope} {m : Nat → Nat} : ∀ {ch : List Nat}, Linked A B m ch → ∀ s ∈ ch, s ≤ ch.headD 0
  | t :: r, h, s, hs => by
    rcases List.mem_cons.mp hs with rfl | hs
    · exact Nat.le_refl _
    · have := h.2.2.2.2.2.2.lt s hs
      have := h.2.2.2.2.1
      simp only [List.headD_cons]
      omega

theorem Linked.length {A B : List Scope} {m : Nat → Nat} : ∀ {ch : List Nat}, Linked A B m ch → ch.length ≤ ch.headD 0
  | [], _ => Nat.le_refl _
  | t :: r, h => by
    have := h.2.2.2.2.2.2.length
    have := h.2.2.2.2.1
    simp only [List.headD_cons, List.length_cons]
    omega

theorem Linked.ext {A B C : List Scope} {m : Nat → Nat} (hE : Ext B C) : ∀ {ch : List Nat}, Linked A B m ch → Linked A C m ch
  | [], _ => trivial
  | t :: r, ⟨a, b, ⟨c0, so, sn, n, c1, c2, c3, c4⟩, d, e, f, g⟩ =>
    ⟨a, b, ⟨c0, so, sn, n, c1, hE.get c2, c3, c4⟩, d, e, fun u hu => by
      rw [hE.parent (List.getElem?_eq_some_iff.mp c2).1]; exact f u hu, g.ext hE⟩

theorem Linked.congr {A B : List Scope} {m m' : Nat → Nat} : ∀ {ch : List Nat}, (∀ s ∈ ch, m s = m' s) → Linked A B m ch → Linked A B m' ch
  | [], _, _ => trivial
  | t :: r, h, ⟨a, b, c, d, e, f, g⟩ =>
    ⟨a, b, h t (.head _) ▸ c, d, e, fun u hu => by
      have : u ∈ r := by cases r with
        | nil => cases hu
        | cons x y => cases hu; exact .head _
      rw [← h t (.head _), ← h u (.tail _ this)]; exact f u hu, g.congr fun s hs => h s (.tail _ hs)⟩

theorem relative_ok {A B : List Scope} {m : Nat → Nat} (hE : Ext A B) (sc : Nat) : ∀ (ch : List Nat) (n cur : Nat), Linked A B m ch →
    ch.length ≤ n → (∀ s ∈ ch.head?, cur = m s) → sc ∈ ch → relative B n sc (ch.headD 0) cur = m sc
  | t :: r, n + 1, cur, h, hn, hc, hs => by
    obtain rfl : cur = m t := hc t rfl
    have e0 : (t :: r).headD 0 = t := rfl
    rw [e0, relative, if_neg (by have := h.1; omega)]
    by_cases e : sc = t
    · rw [if_pos e, e]
    · rw [if_neg e, hE.parent h.2.1, h.2.2.2.1]
      have hs' : sc ∈ r := by
        rcases List.mem_cons.mp hs with h | h
        · exact absurd h e
        · exact h
      refine relative_ok hE sc r n _ h.2.2.2.2.2.2 (by simp only [List.length_cons] at hn; omega) (fun s hs => h.2.2.2.2.2.1 s hs) hs'

/-! ### Duplication makes copies -/

/-- The state while the body of a function is duplicated, inside the scopes `ch`. -/
structure Good (A : List Scope) (m : Nat → Nat) (ch : List Nat) (st : St) : Prop where
  ext : Ext A st.arena
  pos : 0 < A.length
  names : NamesBelow A st.fresh
  linked : Linked A st.arena m ch
  cur : ∀ s ∈ ch.head?, st.cur = m s

/-- What a step of duplication achieves: `S` are the scopes that it duplicates, `C` is what holds of the
result for every map of scopes that maps them to the new ones. -/
def Res (m0 : Nat → Nat) (ch : List Nat) (st : St) (S : List Nat) (st' : St)
    (C : List Scope → (Nat → Prop) → (Nat → Nat) → List Nat → Prop) : Prop :=
  st'.cur = st.cur ∧ Ext st.arena st'.arena ∧ st.fresh ≤ st'.fresh ∧ ∃ L : List (Nat × Nat), L.map Prod.fst = S ∧
    (∀ p ∈ L, st.arena.length ≤ p.2 ∧ p.2 < st'.arena.length) ∧ (L.map Prod.snd).Nodup ∧
    ∀ m d, (∀ s ∈ ch, m s = m0 s) → (∀ p ∈ L, m p.1 = p.2) → (∀ s ∈ ch, s ∈ d) → (∀ s ∈ S, s ∈ d) →
      (∀ s ∈ d, s ∉ S → ¬ (st.arena.length ≤ m s ∧ m s < st'.arena.length)) → ∀ B, Ext st'.arena B →
      ∀ G : Nat → Prop, (∀ x, st.arena.length ≤ x → x < st'.arena.length → G x) → C B G m d

theorem Res.mono {m0 : Nat → Nat} {ch : List Nat} {st : St} {S : List Nat} {st' : St}
    {C D : List Scope → (Nat → Prop) → (Nat → Nat) → List Nat → Prop} (h : Res m0 ch st S st' C)
    (hC : ∀ B G m d, C B G m d → D B G m d) : Res m0 ch st S st' D := by
  obtain ⟨a, b, c, L, h1, h2, h3, h4⟩ := h
  exact ⟨a, b, c, L, h1, h2, h3, fun m d k1 k2 k3 k4 k5 B k6 G k7 => hC _ _ _ _ (h4 m d k1 k2 k3 k4 k5 B k6 G k7)⟩

theorem Res.pure {m0 : Nat → Nat} {ch : List Nat} {st : St} {C : List Scope → (Nat → Prop) → (Nat → Nat) → List Nat → Prop}
    (h : ∀ m d B G, (∀ s ∈ ch, m s = m0 s) → (∀ s ∈ ch, s ∈ d) → Ext st.arena B → C B G m d) : Res m0 ch st [] st C :=
  ⟨rfl, Ext.refl _, Nat.le_refl _, [], rfl, by simp, by simp, fun m d k1 _ k3 _ _ B k6 G _ => h m d B G k1 k3 k6⟩

theorem Res.seq {m0 : Nat → Nat} {ch : List Nat} {st st1 st2 : St} {S1 S2 : List Nat}
    {C1 C2 : List Scope → (Nat → Prop) → (Nat → Nat) → List Nat → Prop} (h1 : Res m0 ch st S1 st1 C1)
    (h2 : Res m0 ch st1 S2 st2 C2) : Res m0 ch st (S1 ++ S2) st2 (fun B G m d => C1 B G m d ∧ C2 B G m d) := by
  obtain ⟨a1, b1, c1, L1, d1, e1, f1, g1⟩ := h1
  obtain ⟨a2, b2, c2, L2, d2, e2, f2, g2⟩ := h2
  have l1 := b1.len
  have l2 := b2.len
  refine ⟨a2.trans a1, b1.trans b2, Nat.le_trans c1 c2, L1 ++ L2, by simp [d1, d2], ?_, ?_, ?_⟩
  · intro p hp
    rcases List.mem_append.mp hp with h | h
    · have := e1 p h; omega
    · have := e2 p h; omega
  · rw [List.map_append, List.nodup_append]
    refine ⟨f1, f2, ?_⟩
    intro x hx y hy
    obtain ⟨p, hp, rfl⟩ := List.mem_map.mp hx
    obtain ⟨q, hq, rfl⟩ := List.mem_map.mp hy
    have := e1 p hp
    have := e2 q hq
    omega
  · intro m d k1 k2 k3 k4 k5 B k6 G k7
    have m1 : ∀ s ∈ S1, st.arena.length ≤ m s ∧ m s < st1.arena.length := by
      intro s hs
      rw [← d1] at hs
      obtain ⟨p, hp, rfl⟩ := List.mem_map.mp hs
      rw [k2 p (List.mem_append_left _ hp)]
      exact e1 p hp
    have m2 : ∀ s ∈ S2, st1.arena.length ≤ m s ∧ m s < st2.arena.length := by
      intro s hs
      rw [← d2] at hs
      obtain ⟨p, hp, rfl⟩ := List.mem_map.mp hs
      rw [k2 p (List.mem_append_right _ hp)]
      exact e2 p hp
    refine ⟨g1 m d k1 (fun p hp => k2 p (List.mem_append_left _ hp)) k3 (fun s hs => k4 s (List.mem_append_left _ hs)) ?_ B
      (b2.trans k6) G (fun x hx hx' => k7 x hx (by omega)),
      g2 m d k1 (fun p hp => k2 p (List.mem_append_right _ hp)) k3 (fun s hs => k4 s (List.mem_append_right _ hs)) ?_ B
      k6 G (fun x hx hx' => k7 x (by omega) hx')⟩
    · intro s hs hn
      by_cases h : s ∈ S2
      · have := m2 s h; omega
      · have := k5 s hs (by simp [hn, h]); omega
    · intro s hs hn
      by_cases h : s ∈ S1
      · have := m1 s h; omega
      · have := k5 s hs (by simp [hn, h]); omega

theorem Res.good {A : List Scope} {m0 : Nat → Nat} {ch : List Nat} {st st' : St} {S : List Nat}
    {C : List Scope → (Nat → Prop) → (Nat → Nat) → List Nat → Prop} (h : Res m0 ch st S st' C) (hg : Good A m0 ch st) :
    Good A m0 ch st' :=
  ⟨hg.ext.trans h.2.1, hg.pos, fun s hs v hv => Nat.lt_of_lt_of_le (hg.names s hs v hv) h.2.2.1, hg.linked.ext h.2.1,
    fun s hs => h.1.trans (hg.cur s hs)⟩

theorem dupVar_ok {A : List Scope} {m0 : Nat → Nat} {ch : List Nat} {st : St} {top sc n : Nat} (hg : Good A m0 ch st)
    (htop : ∀ t ∈ ch.getLast?, t = top) (hk : Known A ch sc n) {m : Nat → Nat} {d : List Nat} {B : List Scope}
    (hm : ∀ s ∈ ch, m s = m0 s) (hd : ∀ s ∈ ch, s ∈ d) (hB : Ext st.arena B) :
    Same B m d sc n (dupVar st.arena top (ch.headD 0) st.cur sc n).1 (dupVar st.arena top (ch.headD 0) st.cur sc n).2 := by
  by_cases h0 : sc = 0
  · subst h0
    simp only [dupVar, if_true]
    exact ⟨.glob n, .glob n, rfl, rfl, rfl⟩
  · rcases hk with hk | ⟨s, i, v, h1, h2, h3, h4⟩
    · exact absurd hk h0
    · have h1' := hg.ext.get h1
      have hr := resolve_of h0 (hB.get h1') h2 h3
      have hlook : (st.arena[sc]?.bind fun s => (position s.vars n).bind fun i => s.vars[i]?) = some v := by
        simp only [h1', Option.bind_some, h2, h3]
      simp only [dupVar, if_neg h0, hlook]
      by_cases he : v.kind = .extern
      · rw [if_pos he]
        rw [he] at hr
        exact ⟨_, _, hr, hr, rfl⟩
      · rw [if_neg he]
        obtain ⟨hmem, hlast⟩ : sc ∈ ch ∧ (v.kind = .param → ch.getLast? = some sc) := by
          rcases h4 with h | h
          · exact absurd h he
          · exact h
        have hlen : ch.length ≤ st.arena.length := by
          have a := hg.linked.length
          cases ch with
          | nil => cases hmem
          | cons t r =>
            have b := hg.linked.2.1
            have c := hg.ext.len
            simp only [List.headD_cons] at a
            omega
        have hrel := relative_ok hg.ext sc ch st.arena.length st.cur hg.linked hlen hg.cur hmem
        rw [hrel]
        obtain ⟨_, _, c0, so, sn, nn, c1, c2, c3, c4⟩ := hg.linked.mem sc hmem
        have : so = s := by rw [h1] at c1; cases c1; rfl
        subst this
        by_cases hp : v.kind = .param
        · rw [if_pos hp]
          obtain rfl : sc = top := htop sc (hlast hp)
          obtain ⟨hname, hidx⟩ := findIdx_of_position _ _ _ _ h2 h3
          obtain ⟨x, _, x1, x2⟩ := copy_param so.vars nn i v c4 h3 hp
          rw [← c3] at x1 x2
          have hr' := resolve_of c0 (hB.get c2) x1 x2
          simp only [h1', Option.bind_some, hidx, c2, x2, Option.map_some, Option.getD_some]
          rw [hp] at hr
          refine ⟨_, _, hr, hr', hd sc hmem, ?_⟩
          rw [hm sc hmem]
        · rw [if_neg hp]
          have hname := (findIdx_of_position _ _ _ _ h2 h3).1
          have hlt : n < nn := by
            rw [← hname]
            exact c4 v (List.mem_of_getElem? h3)
          obtain ⟨x1, x2⟩ := copy_other so.vars nn n i v c4 hlt h2 h3 hp
          rw [← c3] at x1 x2
          have hr' := resolve_of c0 (hB.get c2) x1 x2
          cases hk : v.kind with
          | param => exact absurd hk hp
          | extern => exact absurd hk he
          | static sv =>
            rw [hk] at hr hr'
            exact ⟨_, _, hr, hr', rfl⟩
          | auto =>
            rw [hk] at hr hr'
            refine ⟨_, _, hr, hr', hd sc hmem, ?_⟩
            rw [hm sc hmem]

/-- What `embed` has to achieve. -/
def EmbOk (X : Prog) (A : List Scope) (emb : Nat → St → T .st × St) (n : Nat) : Prop :=
  ∀ f < n, ∀ st, Ext A st.arena → 0 < A.length → NamesBelow A st.fresh →
    (emb f st).2.cur = st.cur ∧ Ext st.arena (emb f st).2.arena ∧ st.fresh ≤ (emb f st).2.fresh ∧
    ∀ B, Ext (emb f st).2.arena B → ∃ m d,
      Copy X B (fun x => st.arena.length ≤ x ∧ x < (emb f st).2.arena.length) m d (X.body f) (emb f st).1 ∧ Inj m d ∧
      (∀ s ∈ d, st.arena.length ≤ m s ∧ m s < (emb f st).2.arena.length) ∧ X.top f ∈ d ∧
      topOf (emb f st).1 = some (m (X.top f))

theorem dup_isEmpty (emb : Nat → St → T .st × St) (top tg : Nat) (i : T .st) (st : St) (h : notDecl i) :
    isEmpty i = isEmpty (dup emb top tg i st).1 := by
  cases i <;> first | (simp only [dup, isEmpty]; done) | exact absurd h id | skip
  rename_i sc b
  cases sc <;> simp only [dup, isEmpty]

theorem resolve_ext {A B : List Scope} (h : Ext A B) {sc n : Nat} (hs : sc < A.length) : resolve B sc n = resolve A sc n := by
  have : A[sc]? = some A[sc] := List.getElem?_eq_getElem hs
  simp only [resolve, this, h.get this]

/-- The step for a block with a scope. -/
theorem block_step {X : Prog} {A : List Scope} {n : Nat} {emb : Nat → St → T .st × St} {top : Nat} {m0 : Nat → Nat} {ch : List Nat}
    {st : St} {sc : Nat} {b : T .sts} (hw : WF A n ch (.block (some sc) b)) (hg : Good A m0 ch st)
    (ih : ∀ m0 st, Good A m0 (sc :: ch) st → Res m0 (sc :: ch) st (scopes b) (dup emb top sc b st).2
      (fun B G m d => Copy X B G m d b (dup emb top sc b st).1)) :
    Res m0 ch st (scopes (.block (some sc) b)) (dup emb top (ch.headD 0) (.block (some sc) b) st).2
      (fun B G m d => m sc = st.arena.length ∧
        Copy X B G m d (.block (some sc) b) (dup emb top (ch.headD 0) (.block (some sc) b) st).1) := by
  simp only [dup, scopes]
  simp only [WF] at hw
  obtain ⟨w1, w2, w3, w4⟩ := hw
  have hA : A[sc]? = some A[sc] := List.getElem?_eq_getElem w1
  have hA' := hg.ext.get hA
  have hlen := hg.ext.len
  have hnm : ∀ w ∈ A[sc].vars, w.name < st.fresh := fun w hw' => hg.names _ (List.getElem_mem w1) w hw'
  rw [hA']
  simp only [Option.map_some, Option.getD_some]
  have hne : ∀ s ∈ ch, s ≠ sc := by
    intro s hs e
    have := hg.linked.lt s hs
    omega
  generalize hst : (⟨st.arena ++ [⟨st.cur, (copyVars st.fresh A[sc].vars).1⟩], (copyVars st.fresh A[sc].vars).2, st.arena.length⟩ : St) = st1
  have hf1 : st1.fresh = (copyVars st.fresh A[sc].vars).2 := by rw [← hst]
  let m1 : Nat → Nat := fun s => if s = sc then st.arena.length else m0 s
  have hE1 : Ext st.arena st1.arena := by rw [← hst]; exact ⟨_, rfl⟩
  have hnew : st1.arena[st.arena.length]? = some ⟨st.cur, (copyVars st.fresh A[sc].vars).1⟩ := by
    rw [← hst]
    simp
  have hm1 : ∀ s ∈ ch, m0 s = m1 s := fun s hs => (if_neg (hne s hs)).symm
  have hg1 : Good A m1 (sc :: ch) st1 := by
    refine ⟨hg.ext.trans hE1, hg.pos, fun s hs v hv => Nat.lt_of_lt_of_le (hg.names s hs v hv) (hf1 ▸ copyVars_le _ _), ?_, ?_⟩
    · refine ⟨by omega, w1, ⟨?_, A[sc], ⟨st.cur, (copyVars st.fresh A[sc].vars).1⟩, st.fresh, hA, ?_, rfl, hnm⟩, w3, w2, ?_, (hg.linked.congr hm1).ext hE1⟩
      · simp only [m1, if_pos]
        have := hg.pos
        omega
      · simp only [m1, if_pos]
        exact hnew
      · intro t ht
        simp only [m1, if_pos]
        have ht' : t ∈ ch := by
          cases ch with
          | nil => cases ht
          | cons x y => cases ht; exact .head _
        rw [if_neg (hne t ht')]
        simp only [parentOf, hnew, Option.map_some, Option.getD_some]
        exact hg.cur t ht
    · intro s hs
      cases hs
      simp only [m1, if_pos, ← hst]
  obtain ⟨a, b', c, L, h1, h2, h3, h4⟩ := ih m1 st1 hg1
  have hst1 : st1.arena.length = st.arena.length + 1 := by rw [← hst]; simp
  have hl := b'.len
  refine ⟨rfl, hE1.trans b', Nat.le_trans (hf1 ▸ copyVars_le _ _) c, (sc, st.arena.length) :: L, by simp [h1], ?_, ?_, ?_⟩
  · intro p hp
    rcases List.mem_cons.mp hp with rfl | hp
    · dsimp only; omega
    · have := h2 p hp
      dsimp only
      omega
  · rw [List.map_cons, List.nodup_cons]
    refine ⟨?_, h3⟩
    intro hx
    obtain ⟨p, hp, e⟩ := List.mem_map.mp hx
    have := h2 p hp
    simp only at e
    omega
  · intro m d k1 k2 k3 k4 k5 B k6 G k7
    have hsc : m sc = st.arena.length := k2 _ (.head _)
    refine ⟨hsc, .block _ _ (h4 m d ?_ (fun p hp => k2 p (.tail _ hp)) ?_ (fun s hs => k4 s (.tail _ hs)) ?_ B k6 G
      (fun x hx hx' => k7 x (by omega) hx'))⟩
    · intro s hs
      rcases List.mem_cons.mp hs with rfl | hs
      · simp only [m1, if_pos]; exact hsc
      · rw [k1 s hs, hm1 s hs]
    · intro s hs
      rcases List.mem_cons.mp hs with rfl | hs
      · exact k4 _ (.head _)
      · exact k3 s hs
    · intro s hs hn
      by_cases e : s = sc
      · subst e
        omega
      · have := k5 s hs (by simp [e, hn])
        dsimp only at this
        omega

theorem dup_ok {X : Prog} {A : List Scope} {n : Nat} {emb : Nat → St → T .st × St} (hE : EmbOk X A emb n) (top : Nat) {k : K} (t : T k) :
    ∀ (m0 : Nat → Nat) (ch : List Nat) (st : St), WF A n ch t → Good A m0 ch st → ch.getLast? = some top →
      Res m0 ch st (scopes t) (dup emb top (ch.headD 0) t st).2
        (fun B G m d => Copy X B G m d t (dup emb top (ch.headD 0) t st).1) := by
  induction t with
  | num v => intro m0 ch st hw hg ht; exact Res.pure fun m d B G _ _ _ => .num v
  | var sc x =>
    intro m0 ch st hw hg ht
    exact Res.pure fun m d B G k1 k2 k3 => .var (dupVar_ok hg (fun u hu => by rw [ht] at hu; cases hu; rfl) hw k1 k2 k3)
  | asg sc x e ih =>
    intro m0 ch st hw hg ht
    have hv : Res m0 ch st [] st (fun B _ m d => Same B m d sc x (dupVar st.arena top (ch.headD 0) st.cur sc x).1
        (dupVar st.arena top (ch.headD 0) st.cur sc x).2) :=
      Res.pure fun m d B G k1 k2 k3 => dupVar_ok hg (fun u hu => by rw [ht] at hu; cases hu; rfl) hw.1 k1 k2 k3
    exact (hv.seq (ih m0 ch st hw.2 hg ht)).mono fun B G m d h => .asg h.1 h.2
  | bin o a b iha ihb =>
    intro m0 ch st hw hg ht
    have r1 := iha m0 ch st hw.1 hg ht
    exact (r1.seq (ihb m0 ch _ hw.2 (r1.good hg) ht)).mono fun B G m d h => .bin o h.1 h.2
  | tern c a b ihc iha ihb =>
    intro m0 ch st hw hg ht
    have r1 := ihc m0 ch st hw.1 hg ht
    have r2 := iha m0 ch _ hw.2.1 (r1.good hg) ht
    exact (r1.seq (r2.seq (ihb m0 ch _ hw.2.2 (r2.good (r1.good hg)) ht))).mono fun B G m d h => .tern h.1 h.2.1 h.2.2
  | call f as ih =>
    intro m0 ch st hw hg ht
    exact (ih m0 ch st hw hg ht).mono fun B G m d h => .call f h
  | inl f as b iha ihb =>
    intro m0 ch st hw hg ht
    have r1 := iha m0 ch st hw.2 hg ht
    have hg1 := r1.good hg
    obtain ⟨a, b', c, L, h1, h2, h3, h4⟩ := r1
    obtain ⟨e1, e2, e3, e4⟩ := hE f hw.1 _ hg1.ext hg1.pos hg1.names
    have l1 := b'.len
    have l2 := e2.len
    simp only [dup, scopes]
    refine ⟨e1.trans a, b'.trans e2, Nat.le_trans c e3, L, h1, fun p hp => by have := h2 p hp; omega, h3, ?_⟩
    intro m d k1 k2 k3 k4 k5 B k6 G k7
    obtain ⟨m', d', q1, q2, q3, q4, q5⟩ := e4 B k6
    have ms : ∀ s ∈ scopes as, st.arena.length ≤ m s ∧ m s < (dup emb top (ch.headD 0) as st).2.arena.length := by
      intro s hs
      rw [← h1] at hs
      obtain ⟨p, hp, rfl⟩ := List.mem_map.mp hs
      rw [k2 p hp]
      exact h2 p hp
    refine .inl f b _ _ m' d' (h4 m d k1 k2 k3 k4 ?_ B (e2.trans k6) _ ?_) (fun x hx hx' => k7 x (by omega) hx') ?_ q1 q2 q3 q4 q5
    · intro s hs hn
      have := k5 s hs hn
      omega
    · intro x hx hx'
      exact ⟨k7 x hx (by omega), by omega⟩
    · intro s hs
      by_cases hn : s ∈ scopes as
      · have := ms s hn; omega
      · have := k5 s hs hn; omega
  | anil => intro m0 ch st hw hg ht; exact Res.pure fun m d B G _ _ _ => .anil
  | acons e as ihe iha =>
    intro m0 ch st hw hg ht
    have r1 := ihe m0 ch st hw.1 hg ht
    exact (r1.seq (iha m0 ch _ hw.2 (r1.good hg) ht)).mono fun B G m d h => .acons h.1 h.2
  | empty => intro m0 ch st hw hg ht; exact Res.pure fun m d B G _ _ _ => .empty
  | expr e ih =>
    intro m0 ch st hw hg ht
    exact (ih m0 ch st hw hg ht).mono fun B G m d h => .expr h
  | block sc b ih =>
    intro m0 ch st hw hg ht
    cases sc with
    | none => exact (ih m0 ch st hw hg ht).mono fun B G m d h => .block _ _ h
    | some sc =>
      refine (block_step hw hg (fun m0 st hg => ih m0 (sc :: ch) st hw.2.2.2 hg ?_)).mono fun B G m d h => h.2
      cases ch with
      | nil => cases ht
      | cons x y => rw [List.getLast?_cons_cons]; exact ht
  | ifs c a b ihc iha ihb =>
    intro m0 ch st hw hg ht
    have r1 := ihc m0 ch st hw.1 hg ht
    have r2 := iha m0 ch _ hw.2.1 (r1.good hg) ht
    exact (r1.seq (r2.seq (ihb m0 ch _ hw.2.2 (r2.good (r1.good hg)) ht))).mono fun B G m d h => .ifs h.1 h.2.1 h.2.2
  | «while» c b ihc ihb =>
    intro m0 ch st hw hg ht
    have r1 := ihc m0 ch st hw.1 hg ht
    exact (r1.seq (ihb m0 ch _ hw.2 (r1.good hg) ht)).mono fun B G m d h => .while h.1 h.2
  | doWhile b c ihb ihc =>
    intro m0 ch st hw hg ht
    have r1 := ihb m0 ch st hw.1 hg ht
    exact (r1.seq (ihc m0 ch _ hw.2 (r1.good hg) ht)).mono fun B G m d h => .doWhile h.1 h.2
  | «for» p c q b ihp ihc ihq ihb =>
    intro m0 ch st hw hg ht
    have r1 := ihp m0 ch st hw.1 hg ht
    have r2 := ihc m0 ch _ hw.2.1 (r1.good hg) ht
    have r3 := ihq m0 ch _ hw.2.2.1 (r2.good (r1.good hg)) ht
    exact (r1.seq (r2.seq (r3.seq (ihb m0 ch _ hw.2.2.2 (r3.good (r2.good (r1.good hg))) ht)))).mono
      fun B G m d h => .for h.1 h.2.1 h.2.2.1 h.2.2.2
  | brk => intro m0 ch st hw hg ht; exact Res.pure fun m d B G _ _ _ => .brk
  | cont => intro m0 ch st hw hg ht; exact Res.pure fun m d B G _ _ _ => .cont
  | ret e ih =>
    intro m0 ch st hw hg ht
    exact (ih m0 ch st hw hg ht).mono fun B G m d h => .ret h
  | ret0 => intro m0 ch st hw hg ht; exact Res.pure fun m d B G _ _ _ => .ret0
  | decl x i ih =>
    intro m0 ch st hw hg ht
    have hlt : ch.headD 0 < A.length := by
      cases ch with
      | nil => exact hg.pos
      | cons a b => exact hg.linked.2.1
    have hs : isStatic st.arena (ch.headD 0) x = isStatic A (ch.headD 0) x := by
      simp only [isStatic, resolve_ext hg.ext hlt]
    simp only [dup, scopes, hs]
    by_cases h : isStatic A (ch.headD 0) x = true
    · simp only [if_pos h]
      rw [hw.1 h]
      exact Res.pure fun m d B G _ _ _ => .declStatic x
    · simp only [if_neg h]
      exact (ih m0 ch st hw.2.2 hg ht).mono fun B G m d h => .decl x h (dup_isEmpty _ _ _ _ _ hw.2.1)
  | snil => intro m0 ch st hw hg ht; exact Res.pure fun m d B G _ _ _ => .snil
  | scons s r ihs ihr =>
    intro m0 ch st hw hg ht
    have r1 := ihs m0 ch st hw.1 hg ht
    exact (r1.seq (ihr m0 ch _ hw.2 (r1.good hg) ht)).mono fun B G m d h => .scons h.1 h.2

/-- The map given by a list of pairs with different first components. -/
theorem map_of_pairs : ∀ (L : List (Nat × Nat)), (L.map Prod.fst).Nodup → ∃ m : Nat → Nat, ∀ p ∈ L, m p.1 = p.2
  | [], _ => ⟨id, by simp⟩
  | (a, b) :: L, h => by
    rw [List.map_cons, List.nodup_cons] at h
    obtain ⟨m, hm⟩ := map_of_pairs L h.2
    refine ⟨fun s => if s = a then b else m s, fun p hp => ?_⟩
    rcases List.mem_cons.mp hp with rfl | hp
    · simp
    · have : p.1 ≠ a := fun e => h.1 (e ▸ List.mem_map.mpr ⟨p, hp, rfl⟩)
      simp only [if_neg this]
      exact hm p hp

theorem inj_of_pairs {L : List (Nat × Nat)} {m : Nat → Nat} (h : (L.map Prod.snd).Nodup) (hm : ∀ p ∈ L, m p.1 = p.2) :
    Inj m (L.map Prod.fst) := by
  induction L with
  | nil => intro s hs; cases hs
  | cons p L ih =>
    rw [List.map_cons, List.nodup_cons] at h
    have ih' := ih h.2 (fun q hq => hm q (.tail _ hq))
    have key : ∀ q ∈ L, m q.1 ≠ m p.1 := by
      intro q hq e
      rw [hm q (.tail _ hq), hm p (.head _)] at e
      exact h.1 (e ▸ List.mem_map.mpr ⟨q, hq, rfl⟩)
    intro s hs t ht e
    rw [List.map_cons] at hs ht
    rcases List.mem_cons.mp hs with rfl | hs <;> rcases List.mem_cons.mp ht with rfl | ht
    · rfl
    · obtain ⟨q, hq, rfl⟩ := List.mem_map.mp ht
      exact absurd e.symm (key q hq)
    · obtain ⟨q, hq, rfl⟩ := List.mem_map.mp hs
      exact absurd e (key q hq)
    · exact ih' s hs t ht e

theorem WF.mono {A : List Scope} {n n' : Nat} (hn : n ≤ n') {k : K} (t : T k) : ∀ ch, WF A n ch t → WF A n' ch t := by
  induction t with
  | block sc b ih =>
    intro ch h
    cases sc with
    | none => exact ih _ h
    | some sc => exact ⟨h.1, h.2.1, h.2.2.1, ih _ h.2.2.2⟩
  | num v => exact fun _ h => h
  | var => exact fun _ h => h
  | asg _ _ _ ih => exact fun _ h => ⟨h.1, ih _ h.2⟩
  | bin _ _ _ a b => exact fun _ h => ⟨a _ h.1, b _ h.2⟩
  | tern _ _ _ a b c => exact fun _ h => ⟨a _ h.1, b _ h.2.1, c _ h.2.2⟩
  | call _ _ a => exact fun _ h => a _ h
  | inl _ _ _ a => exact fun _ h => ⟨Nat.lt_of_lt_of_le h.1 hn, a _ h.2⟩
  | anil => exact fun _ h => h
  | acons _ _ a b => exact fun _ h => ⟨a _ h.1, b _ h.2⟩
  | empty => exact fun _ h => h
  | expr _ a => exact fun _ h => a _ h
  | ifs _ _ _ a b c => exact fun _ h => ⟨a _ h.1, b _ h.2.1, c _ h.2.2⟩
  | «while» _ _ a b => exact fun _ h => ⟨a _ h.1, b _ h.2⟩
  | doWhile _ _ a b => exact fun _ h => ⟨a _ h.1, b _ h.2⟩
  | «for» _ _ _ _ a b c d => exact fun _ h => ⟨a _ h.1, b _ h.2.1, c _ h.2.2.1, d _ h.2.2.2⟩
  | brk => exact fun _ h => h
  | cont => exact fun _ h => h
  | ret _ a => exact fun _ h => a _ h
  | ret0 => exact fun _ h => h
  | decl _ _ a => exact fun _ h => ⟨h.1, h.2.1, a _ h.2.2⟩
  | snil => exact fun _ h => h
  | scons _ _ a b => exact fun _ h => ⟨a _ h.1, b _ h.2⟩

theorem embed_ok {X : Prog} {A : List Scope} : ∀ (n : Nat), Program X A n → EmbOk X A (embed X n) n
  | 0, _ => fun f hf => absurd hf (Nat.not_lt_zero f)
  | n + 1, hP => by
    intro f hf st hx hpos hnm
    have ih := embed_ok n fun f hf => hP f (by omega)
    obtain ⟨⟨b, hb⟩, hw, hnd⟩ := hP f hf
    have hw' := WF.mono (show f ≤ n by omega) _ _ hw
    simp only [embed]
    rw [hb] at hw' hnd ⊢
    have hr := block_step (X := X) (emb := embed X n) (top := X.top f) (m0 := id) (ch := []) (st := st) hw' ⟨hx, hpos, hnm, trivial, by simp⟩
      (fun m0 st hg => dup_ok ih (X.top f) b m0 [X.top f] st hw'.2.2.2 hg rfl)
    obtain ⟨a, b', c, L, h1, h2, h3, h4⟩ := hr
    refine ⟨a, b', c, fun B hB => ?_⟩
    obtain ⟨m, hm⟩ := map_of_pairs L (by rw [h1]; exact hnd)
    have hr : ∀ s ∈ scopes (T.block (some (X.top f)) b), st.arena.length ≤ m s ∧ m s < (dup (embed X n) (X.top f) 0 (.block (some (X.top f)) b) st).2.arena.length := by
      intro s hs
      rw [← h1] at hs
      obtain ⟨p, hp, rfl⟩ := List.mem_map.mp hs
      rw [hm p hp]
      exact h2 p hp
    obtain ⟨q1, q2⟩ := h4 m (scopes (T.block (some (X.top f)) b)) (by simp) hm (by simp) (fun s hs => hs) (fun s hs hn => absurd hs hn) B hB
      (fun x => st.arena.length ≤ x ∧ x < (dup (embed X n) (X.top f) 0 (.block (some (X.top f)) b) st).2.arena.length) (fun x h h' => ⟨h, h'⟩)
    refine ⟨m, _, q2, ?_, hr, .head _, ?_⟩
    · rw [← h1]
      exact inj_of_pairs h3 hm
    · rw [q1]
      simp only [dup, topOf]

/-! ## The function in which calls are inlined -/

/-- A variable of the function being parsed, inside the scopes `ch`. -/
def Seen (A : List Scope) (ch : List Nat) (sc x : Nat) : Prop :=
  sc = 0 ∨ ∃ s i v, A[sc]? = some s ∧ position s.vars x = some i ∧ s.vars[i]? = some v ∧ (v.kind = .extern ∨ sc ∈ ch)

/-- The parser builds a tree, inside the scopes `ch`, from the state `st` to the state `st'`: a block gets a
new scope (parser.c:455-475, 626), a call of an inline function gets an embedded body after its arguments
(`funcall`, parser_expr.c:652-680). Simplification: a scope has all its variables when it is entered. -/
inductive Built (X : Prog) (n : Nat) : {k : K} → List Nat → St → T k → St → Prop where
  | num {ch st} (v : Int) : Built X n ch st (.num v) st
  | var {ch st sc x} (h : Seen st.arena ch sc x) : Built X n ch st (.var sc x) st
  | asg {ch st st' sc x e} (h : Seen st.arena ch sc x) (he : Built X n ch st e st') : Built X n ch st (.asg sc x e) st'
  | bin {ch st st1 st2 a b} (o : Nat) (ha : Built X n ch st a st1) (hb : Built X n ch st1 b st2) : Built X n ch st (.bin o a b) st2
  | tern {ch st st1 st2 st3 c a b} (hc : Built X n ch st c st1) (ha : Built X n ch st1 a st2) (hb : Built X n ch st2 b st3) :
    Built X n ch st (.tern c a b) st3
  | call {ch st st' as} (f : Nat) (ha : Built X n ch st as st') : Built X n ch st (.call f as) st'
  | inl {ch st st' as} (f : Nat) (hf : f < n) (ha : Built X n ch st as st') :
    Built X n ch st (.inl f as (embed X n f st').1) (embed X n f st').2
  | anil {ch st} : Built X n ch st .anil st
  | acons {ch st st1 st2 e as} (he : Built X n ch st e st1) (ha : Built X n ch st1 as st2) : Built X n ch st (.acons e as) st2
  | empty {ch st} : Built X n ch st .empty st
  | expr {ch st st' e} (he : Built X n ch st e st') : Built X n ch st (.expr e) st'
  | block {ch st st' b} (vs : List Var) (fr : Nat) (hfr : st.fresh ≤ fr)
    (hb : Built X n (st.arena.length :: ch) ⟨st.arena ++ [⟨st.cur, vs⟩], fr, st.arena.length⟩ b st') :
    Built X n ch st (.block (some st.arena.length) b) { st' with cur := st.cur }
  | ifs {ch st st1 st2 st3 c a b} (hc : Built X n ch st c st1) (ha : Built X n ch st1 a st2) (hb : Built X n ch st2 b st3) :
    Built X n ch st (.ifs c a b) st3
  | while {ch st st1 st2 c b} (hc : Built X n ch st c st1) (hb : Built X n ch st1 b st2) : Built X n ch st (.while c b) st2
  | doWhile {ch st st1 st2 b c} (hb : Built X n ch st b st1) (hc : Built X n ch st1 c st2) : Built X n ch st (.doWhile b c) st2
  | for {ch st st1 st2 st3 st4 p c q b} (hp : Built X n ch st p st1) (hc : Built X n ch st1 c st2) (hq : Built X n ch st2 q st3)
    (hb : Built X n ch st3 b st4) : Built X n ch st (.for p c q b) st4
  | brk {ch st} : Built X n ch st .brk st
  | cont {ch st} : Built X n ch st .cont st
  | ret {ch st st' e} (he : Built X n ch st e st') : Built X n ch st (.ret e) st'
  | ret0 {ch st} : Built X n ch st .ret0 st
  | decl {ch st st' i} (x : Nat) (hi : Built X n ch st i st') : Built X n ch st (.decl x i) st'
  | snil {ch st} : Built X n ch st .snil st
  | scons {ch st st1 st2 s r} (hs : Built X n ch st s st1) (hr : Built X n ch st1 r st2) : Built X n ch st (.scons s r) st2

/-- As `Res`, for the function itself. -/
def Own (ch : List Nat) (st : St) (S : List Nat) (st' : St) (C : List Scope → (Nat → Prop) → List Nat → Prop) : Prop :=
  st'.cur = st.cur ∧ Ext st.arena st'.arena ∧ st.fresh ≤ st'.fresh ∧
    (∀ s ∈ S, st.arena.length ≤ s ∧ s < st'.arena.length) ∧
    ∀ d : List Nat, (∀ s ∈ ch, s ∈ d) → (∀ s ∈ S, s ∈ d) →
      (∀ s ∈ d, s ∉ S → ¬ (st.arena.length ≤ s ∧ s < st'.arena.length)) → ∀ B, Ext st'.arena B →
      ∀ G : Nat → Prop, (∀ x, st.arena.length ≤ x → x < st'.arena.length → G x) → C B G d

theorem Own.mono {ch : List Nat} {st : St} {S : List Nat} {st' : St}
    {C D : List Scope → (Nat → Prop) → List Nat → Prop} (h : Own ch st S st' C)
    (hC : ∀ B G d, C B G d → D B G d) : Own ch st S st' D := by
  obtain ⟨a, b, c, h1, h4⟩ := h
  exact ⟨a, b, c, h1, fun d k3 k4 k5 B k6 G k7 => hC _ _ _ (h4 d k3 k4 k5 B k6 G k7)⟩

theorem Own.pure {ch : List Nat} {st : St} {C : List Scope → (Nat → Prop) → List Nat → Prop}
    (h : ∀ d B G, (∀ s ∈ ch, s ∈ d) → Ext st.arena B → C B G d) : Own ch st [] st C :=
  ⟨rfl, Ext.refl _, Nat.le_refl _, by simp, fun d k3 _ _ B k6 G _ => h d B G k3 k6⟩

theorem Own.seq {ch : List Nat} {st st1 st2 : St} {S1 S2 : List Nat}
    {C1 C2 : List Scope → (Nat → Prop) → List Nat → Prop} (h1 : Own ch st S1 st1 C1)
    (h2 : Own ch st1 S2 st2 C2) : Own ch st (S1 ++ S2) st2 (fun B G d => C1 B G d ∧ C2 B G d) := by
  obtain ⟨a1, b1, c1, e1, g1⟩ := h1
  obtain ⟨a2, b2, c2, e2, g2⟩ := h2
  have l1 := b1.len
  have l2 := b2.len
  refine ⟨a2.trans a1, b1.trans b2, Nat.le_trans c1 c2, ?_, ?_⟩
  · intro p hp
    rcases List.mem_append.mp hp with h | h
    · have := e1 p h; omega
    · have := e2 p h; omega
  · intro d k3 k4 k5 B k6 G k7
    refine ⟨g1 d k3 (fun s hs => k4 s (List.mem_append_left _ hs)) ?_ B (b2.trans k6) G (fun x hx hx' => k7 x hx (by omega)),
      g2 d k3 (fun s hs => k4 s (List.mem_append_right _ hs)) ?_ B k6 G (fun x hx hx' => k7 x (by omega) hx')⟩
    · intro s hs hn
      by_cases h : s ∈ S2
      · have := e2 s h; omega
      · have := k5 s hs (by simp [hn, h]); omega
    · intro s hs hn
      by_cases h : s ∈ S1
      · have := e1 s h; omega
      · have := k5 s hs (by simp [hn, h]); omega

theorem seen_same {A : List Scope} {ch : List Nat} {sc x : Nat} (h : Seen A ch sc x) {B : List Scope} {d : List Nat}
    (hB : Ext A B) (hd : ∀ s ∈ ch, s ∈ d) : Same B id d sc x sc x := by
  by_cases h0 : sc = 0
  · subst h0; exact ⟨.glob x, .glob x, rfl, rfl, rfl⟩
  · rcases h with h | ⟨s, i, v, h1, h2, h3, h4⟩
    · exact absurd h h0
    · have hr := resolve_of h0 (hB.get h1) h2 h3
      cases hk : v.kind with
      | extern => rw [hk] at hr; exact ⟨_, _, hr, hr, rfl⟩
      | static sv => rw [hk] at hr; exact ⟨_, _, hr, hr, rfl⟩
      | param =>
        rw [hk] at hr
        rcases h4 with h | h
        · rw [hk] at h; cases h
        · exact ⟨_, _, hr, hr, hd sc h, rfl⟩
      | auto =>
        rw [hk] at hr
        rcases h4 with h | h
        · rw [hk] at h; cases h
        · exact ⟨_, _, hr, hr, hd sc h, rfl⟩

/-- Scopes and names of the inline functions are those they had when they were parsed. -/
def Base (A : List Scope) (st : St) : Prop := Ext A st.arena ∧ 0 < A.length ∧ NamesBelow A st.fresh

theorem Base.step {A : List Scope} {st st' : St} (h : Base A st) (he : Ext st.arena st'.arena) (hf : st.fresh ≤ st'.fresh) : Base A st' :=
  ⟨h.1.trans he, h.2.1, fun s hs v hv => Nat.lt_of_lt_of_le (h.2.2 s hs v hv) hf⟩

theorem built_copy {X : Prog} {A : List Scope} {n : Nat} (hP : Program X A n) {k : K} {ch : List Nat} {st st' : St} {t : T k}
    (h : Built X n ch st t st') : Base A st → Own ch st (scopes t) st' (fun B G d => Copy X B G id d t t) := by
  induction h with
  | num v => intro _; exact Own.pure fun _ _ _ _ _ => .num v
  | var h => intro _; exact Own.pure fun _ _ _ k1 k2 => .var (seen_same h k2 k1)
  | @asg ch st st' sc x e h _ ih =>
    intro hb
    have hv : Own ch st [] st (fun B _ d => Same B id d sc x sc x) := Own.pure fun _ _ _ k1 k2 => seen_same h k2 k1
    exact (hv.seq (ih hb)).mono fun _ _ _ h => .asg h.1 h.2
  | bin o _ _ iha ihb =>
    intro hb
    have r := iha hb
    exact (r.seq (ihb (hb.step r.2.1 r.2.2.1))).mono fun _ _ _ h => .bin o h.1 h.2
  | tern _ _ _ ihc iha ihb =>
    intro hb
    have r := ihc hb
    have hb1 := hb.step r.2.1 r.2.2.1
    have r2 := iha hb1
    exact (r.seq (r2.seq (ihb (hb1.step r2.2.1 r2.2.2.1)))).mono fun _ _ _ h => .tern h.1 h.2.1 h.2.2
  | call f _ ih => intro hb; exact (ih hb).mono fun _ _ _ h => .call f h
  | @inl ch st st1 as f hf _ ih =>
    intro hb
    have r := ih hb
    have hb1 := hb.step r.2.1 r.2.2.1
    obtain ⟨e1, e2, e3, e4⟩ := embed_ok n hP f hf st1 hb1.1 hb1.2.1 hb1.2.2
    obtain ⟨a, b, c, h1, h2⟩ := r
    have l1 := b.len
    have l2 := e2.len
    refine ⟨e1.trans a, b.trans e2, Nat.le_trans c e3, fun s hs => by have := h1 s hs; omega, ?_⟩
    intro d k3 k4 k5 B k6 G k7
    obtain ⟨m', d', q1, q2, q3, q4, q5⟩ := e4 B k6
    refine .inl f _ _ _ m' d' (h2 d k3 k4 ?_ B (e2.trans k6) _ ?_) (fun x hx hx' => k7 x (by omega) hx') ?_ q1 q2 q3 q4 q5
    · intro s hs hn
      have := k5 s hs hn
      omega
    · intro x hx hx'
      exact ⟨k7 x hx (by omega), by omega⟩
    · intro s hs
      by_cases hn : s ∈ scopes as
      · have := h1 s hn; simp only [id]; omega
      · have := k5 s hs hn; simp only [id]; omega
  | anil => intro _; exact Own.pure fun _ _ _ _ _ => .anil
  | acons _ _ iha ihb =>
    intro hb
    have r := iha hb
    exact (r.seq (ihb (hb.step r.2.1 r.2.2.1))).mono fun _ _ _ h => .acons h.1 h.2
  | empty => intro _; exact Own.pure fun _ _ _ _ _ => .empty
  | expr _ ih => intro hb; exact (ih hb).mono fun _ _ _ h => .expr h
  | @block ch st st' b vs fr hfr _ ih =>
    intro hb
    have hE : Ext st.arena (st.arena ++ [⟨st.cur, vs⟩]) := ⟨_, rfl⟩
    obtain ⟨_, b', c, h1, h2⟩ := ih (hb.step hE hfr)
    have hl := b'.len
    simp only [List.length_append, List.length_singleton] at h1 h2 hl
    simp only [scopes]
    refine ⟨rfl, hE.trans b', Nat.le_trans hfr c, ?_, ?_⟩
    · intro s hs
      rcases List.mem_cons.mp hs with rfl | hs
      · dsimp only; omega
      · have := h1 s hs
        dsimp only
        omega
    · intro d k3 k4 k5 B k6 G k7
      refine .block _ _ (h2 d ?_ (fun s hs => k4 s (.tail _ hs)) ?_ B k6 G (fun x hx hx' => k7 x (by omega) hx'))
      · intro s hs
        rcases List.mem_cons.mp hs with rfl | hs
        · exact k4 _ (.head _)
        · exact k3 s hs
      · intro s hs hn
        by_cases e : s = st.arena.length
        · omega
        · have := k5 s hs (by simp [e, hn])
          dsimp only at this
          omega
  | ifs _ _ _ ihc iha ihb =>
    intro hb
    have r := ihc hb
    have hb1 := hb.step r.2.1 r.2.2.1
    have r2 := iha hb1
    exact (r.seq (r2.seq (ihb (hb1.step r2.2.1 r2.2.2.1)))).mono fun _ _ _ h => .ifs h.1 h.2.1 h.2.2
  | «while» _ _ iha ihb =>
    intro hb
    have r := iha hb
    exact (r.seq (ihb (hb.step r.2.1 r.2.2.1))).mono fun _ _ _ h => .while h.1 h.2
  | doWhile _ _ iha ihb =>
    intro hb
    have r := iha hb
    exact (r.seq (ihb (hb.step r.2.1 r.2.2.1))).mono fun _ _ _ h => .doWhile h.1 h.2
  | «for» _ _ _ _ ihp ihc ihq ihb =>
    intro hb
    have r := ihp hb
    have hb1 := hb.step r.2.1 r.2.2.1
    have r2 := ihc hb1
    have hb2 := hb1.step r2.2.1 r2.2.2.1
    have r3 := ihq hb2
    exact (r.seq (r2.seq (r3.seq (ihb (hb2.step r3.2.1 r3.2.2.1))))).mono fun _ _ _ h => .for h.1 h.2.1 h.2.2.1 h.2.2.2
  | brk => intro _; exact Own.pure fun _ _ _ _ _ => .brk
  | cont => intro _; exact Own.pure fun _ _ _ _ _ => .cont
  | ret _ ih => intro hb; exact (ih hb).mono fun _ _ _ h => .ret h
  | ret0 => intro _; exact Own.pure fun _ _ _ _ _ => .ret0
  | decl x _ ih => intro hb; exact (ih hb).mono fun _ _ _ h => .decl x h rfl
  | snil => intro _; exact Own.pure fun _ _ _ _ _ => .snil
  | scons _ _ iha ihb =>
    intro hb
    have r := iha hb
    exact (r.seq (ihb (hb.step r.2.1 r.2.2.1))).mono fun _ _ _ h => .scons h.1 h.2

/-! ## Theorems -/

/-- **Inlining is calling.** Let the inline functions be as the parser leaves them, and let `t` be what the
parser builds of another function, calls of inline functions replaced by embedded bodies (to any depth, in
loops, in arguments of each other, any number of times). Whatever the code of `t` does, within any number of
steps, on any locals and any globals — value or way of ending, static and global variables, locals — it is
what a function may do that *calls* the inline functions, each call with locals of its own. And if the code
does not end within the steps, neither need the calls.

Partial: locals are reached by name only, not through pointers, and `switch`, statement expressions, compound
literals and variable-length arrays are not modelled. -/
theorem inlined_as_called_partial {X : Prog} {A : List Scope} {n : Nat} (hP : Program X A n) {st st' : St} (hb : Base A st)
    {k : K} {t : T k} (h : Built X n [] st t st') (V : Env) (steps : Nat) (σ : Mem) :
    match mach V st'.arena steps t σ with
    | none => spec X V st'.arena steps t σ none
    | some (v, τ') => ∃ τ, spec X V st'.arena steps t σ (some (v, τ)) ∧ τ.sh = τ'.sh ∧
        ∀ s ∈ scopes t, ∀ i, τ.loc s i = τ'.loc s i := by
  have hc := (built_copy hP h hb).2.2.2.2 (scopes t) (by simp) (fun s hs => hs) (fun s hs hn => absurd hs hn) st'.arena (Ext.refl _)
    (fun _ => True) (fun _ _ _ => trivial)
  have hs := sim X V st'.arena steps t t _ id (scopes t) σ σ hc (fun _ _ _ _ e => e) (fun _ _ => trivial) ⟨rfl, fun _ _ _ => rfl⟩
  cases hm : mach V st'.arena steps t σ with
  | none => rw [hm] at hs; exact hs
  | some p =>
    rw [hm] at hs
    obtain ⟨τ, k1, k2, _⟩ := hs
    exact ⟨τ, k1, k2.sh, k2.loc⟩

/-- **Embedded bodies have locals of their own.** A body is embedded into scopes that did not exist before: its
code changes no local of any scope outside, wherever it runs. -/
theorem embedded_locals_own {X : Prog} {A : List Scope} {n f : Nat} (hP : Program X A n) (hf : f < n) {st : St} (hb : Base A st)
    {B : List Scope} (hB : Ext (embed X n f st).2.arena B) (V : Env) (steps : Nat) (σ τ : Mem) (o : Out)
    (h : mach V B steps (embed X n f st).1 σ = some (o, τ)) (s : Nat)
    (hs : s < st.arena.length ∨ (embed X n f st).2.arena.length ≤ s) (i : Nat) : τ.loc s i = σ.loc s i := by
  obtain ⟨_, _, _, e4⟩ := embed_ok n hP f hf st hb.1 hb.2.1 hb.2.2
  obtain ⟨m, d, q1, q2, q3, q4, q5⟩ := e4 B hB
  have hsim := sim X V B steps _ _ _ m d ⟨fun s i => σ.loc (m s) i, σ.sh⟩ σ q1 q2 q3 ⟨rfl, fun _ _ _ => rfl⟩
  rw [h] at hsim
  obtain ⟨_, _, _, k3⟩ := hsim
  exact k3 s (by omega) i

/-! ### Examples -/

/-- `0`: `inline int acc(int p) { static int s; int r; s = s + p; r = s; return r; }`;
`1`: `inline int twice(int p) { int r = acc(p); { int p = acc(r); r = r + p; } return r; }`. Names: `p` 1, `s` 2, `r` 3. -/
def exProg : Prog where
  body f :=
    if f = 0 then
      .block (some 1) (.scons (.decl 2 .empty) (.scons (.decl 3 .empty)
        (.scons (.expr (.asg 1 2 (.bin 0 (.var 1 2) (.var 1 1)))) (.scons (.expr (.asg 1 3 (.var 1 2))) (.scons (.ret (.var 1 3)) .snil)))))
    else
      .block (some 2) (.scons (.decl 3 (.expr (.asg 2 3 (.inl 0 (.acons (.var 2 1) .anil) .empty))))
        (.scons (.block (some 3) (.scons (.decl 1 (.expr (.asg 3 1 (.inl 0 (.acons (.var 2 3) .anil) .empty))))
          (.scons (.expr (.asg 2 3 (.bin 0 (.var 2 3) (.var 3 1)))) .snil)))
        (.scons (.ret (.var 2 3)) .snil)))
  top f := f + 1

/-- The scopes of the program. -/
def exArena : List Scope :=
  [⟨0, []⟩, ⟨0, [⟨1, .param⟩, ⟨2, .static 7⟩, ⟨3, .auto⟩]⟩, ⟨0, [⟨1, .param⟩, ⟨3, .auto⟩]⟩, ⟨2, [⟨1, .auto⟩]⟩]

/-- `p = 5; r = twice(acc(p)) + acc(p); return r;` with locals of the same names, and its states. -/
def exSt : St := ⟨exArena, 10, 0⟩
/-- After the block is entered. -/
def exSt1 : St := ⟨exArena ++ [⟨0, [⟨1, .auto⟩, ⟨3, .auto⟩]⟩], 10, 4⟩
/-- After `acc(p)`. -/
def exSt2 : St := (embed exProg 2 0 exSt1).2
/-- After `twice(acc(p))`. -/
def exSt3 : St := (embed exProg 2 1 exSt2).2
/-- After the second `acc(p)`. -/
def exSt4 : St := (embed exProg 2 0 exSt3).2

/-- The tree of that function. -/
def exTree : T .st :=
  .block (some 4) (.scons (.expr (.asg 4 1 (.num 5)))
    (.scons (.expr (.asg 4 3 (.bin 0
      (.inl 1 (.acons (.inl 0 (.acons (.var 4 1) .anil) (embed exProg 2 0 exSt1).1) .anil) (embed exProg 2 1 exSt2).1)
      (.inl 0 (.acons (.var 4 1) .anil) (embed exProg 2 0 exSt3).1))))
    (.scons (.ret (.var 4 3)) .snil)))

/-- The state at the end of that function. -/
def exEnd : St := { exSt4 with cur := 0 }

/-- Addition is operator 0; other functions give 0. -/
def exEnv : Env := ⟨fun _ a b => a + b, fun _ _ s => (0, s)⟩

/-- All variables 0. -/
def exMem : Mem := ⟨fun _ _ => 0, ⟨fun _ => 0, fun _ => 0, 0⟩⟩

theorem exSeen1 : Seen exSt1.arena [4] 4 1 := .inr ⟨_, 0, _, rfl, rfl, rfl, .inr (.head _)⟩

theorem exKnown {ch : List Nat} {sc x : Nat} (s : Scope) (i : Nat) (v : Var) (h1 : exArena[sc]? = some s) (h2 : position s.vars x = some i)
    (h3 : s.vars[i]? = some v) (h4 : sc ∈ ch) (h5 : v.kind = .param → ch.getLast? = some sc) : Known exArena ch sc x :=
  .inr ⟨s, i, v, h1, h2, h3, .inr ⟨h4, h5⟩⟩

/-- The program is one as the parser leaves it. -/
theorem exProgram : Program exProg exArena 2 := by
  intro f hf
  have : f = 0 ∨ f = 1 := by omega
  rcases this with rfl | rfl
  · refine ⟨⟨_, rfl⟩, ?_, by decide⟩
    have kp : Known exArena [1] 1 1 := exKnown _ 0 _ rfl rfl rfl (by simp) (by simp)
    have ks : Known exArena [1] 1 2 := exKnown _ 1 _ rfl rfl rfl (by simp) (by simp)
    have kr : Known exArena [1] 1 3 := exKnown _ 2 _ rfl rfl rfl (by simp) (by simp)
    exact ⟨by decide, by decide, rfl, ⟨fun _ => rfl, trivial, trivial⟩, ⟨fun _ => rfl, trivial, trivial⟩, ⟨ks, ks, kp⟩, ⟨kr, ks⟩, kr, trivial⟩
  · refine ⟨⟨_, rfl⟩, ?_, by decide⟩
    have kp : Known exArena [2] 2 1 := exKnown _ 0 _ rfl rfl rfl (by simp) (by simp)
    have kr : Known exArena [2] 2 3 := exKnown _ 1 _ rfl rfl rfl (by simp) (by simp)
    have kr' : Known exArena [3, 2] 2 3 := exKnown _ 1 _ rfl rfl rfl (by simp) (by simp)
    have kq : Known exArena [3, 2] 3 1 := exKnown _ 0 _ rfl rfl rfl (by simp) (by simp)
    exact ⟨by decide, by decide, rfl, ⟨fun h => absurd h (by decide), trivial, kr, by decide, kp, trivial⟩,
      ⟨by decide, by decide, rfl, ⟨fun h => absurd h (by decide), trivial, kq, by decide, kr', trivial⟩, ⟨kr', kr', kq⟩, trivial⟩, kr, trivial⟩

theorem exBase : Base exArena exSt := ⟨Ext.refl _, by decide, by unfold NamesBelow; decide⟩

/-- The tree is one the parser builds. -/
theorem exBuilt : Built exProg 2 [] exSt exTree exEnd := by
  have seen2 : Seen exSt3.arena [4] 4 1 := .inr ⟨⟨0, [⟨1, .auto⟩, ⟨3, .auto⟩]⟩, 0, ⟨1, .auto⟩, by decide +kernel, rfl, rfl, .inr (.head _)⟩
  have seen3 : Seen exSt1.arena [4] 4 3 := .inr ⟨_, 1, _, rfl, rfl, rfl, .inr (.head _)⟩
  have seen4 : Seen exSt4.arena [4] 4 3 := .inr ⟨⟨0, [⟨1, .auto⟩, ⟨3, .auto⟩]⟩, 1, ⟨3, .auto⟩, by decide +kernel, rfl, rfl, .inr (.head _)⟩
  have e1 : Built exProg 2 [4] exSt1 (.inl 0 (.acons (.var 4 1) .anil) (embed exProg 2 0 exSt1).1) exSt2 :=
    .inl 0 (by decide) (.acons (.var exSeen1) .anil)
  have e2 : Built exProg 2 [4] exSt1 (.inl 1 (.acons (.inl 0 (.acons (.var 4 1) .anil) (embed exProg 2 0 exSt1).1) .anil)
      (embed exProg 2 1 exSt2).1) exSt3 := .inl 1 (by decide) (.acons e1 .anil)
  have e3 : Built exProg 2 [4] exSt3 (.inl 0 (.acons (.var 4 1) .anil) (embed exProg 2 0 exSt3).1) exSt4 :=
    .inl 0 (by decide) (.acons (.var seen2) .anil)
  exact .block (st := exSt) (st' := exSt4) [⟨1, .auto⟩, ⟨3, .auto⟩] 10 (Nat.le_refl _)
    (.scons (.expr (.asg exSeen1 (.num 5))) (.scons (.expr (.asg seen3 (.bin 0 e2 e3))) (.scons (.ret (.var seen4)) .snil)))

/-- The code of that function gives 55, leaves 25 in the static variable, and the locals are 5 and 55. -/
example : (mach exEnv exEnd.arena 30 exTree exMem).map (fun p => (p.1, p.2.sh.stat 7, p.2.loc 4 0, p.2.loc 4 1)) =
    some (Out.ret 55, 25, 5, 55) := by decide +kernel

/-- Case of `inlined_as_called_partial`. -/
example (σ : Mem) := inlined_as_called_partial exProgram exBase exBuilt exEnv 30 σ

/-- Case of `embedded_locals_own`: `acc` embedded runs to its end. -/
example : (mach exEnv exSt2.arena 30 (embed exProg 2 0 exSt1).1 exMem).map (fun p => p.1) = some (Out.ret 0) := by decide +kernel

end Verif.Inline

import Verif.Wasm.GenProps
/-!
# Statements compiled to WebAssembly (C73): model and specification

Model of the statements of src/wcc/traverse.c and src/wcc/gen_wasm.c, and, separately, what the statements mean in ISO C.
Not modelled: `asm`, `goto` (the compiler rejects it), labels, scopes (variables are numbered), clearing of arrays and structs;
initialisers of variables are expression statements.  Statements that are null pointers count as empty ones.
-/
namespace Verif.WasmGen
open Verif.Util Verif.CExpr Verif.Wasm
open Verif.Fold hiding Op Res

mutual
/-- src/cc/frontend/ast.h `Stmt`.  `when` is an `if` without `else`; `case none` is `default`. -/
inductive S where
  | skip
  | expr (e : X)
  | ret (e : Option X)
  | block (l : L)
  | when (c : X) (a : S)
  | ite (c : X) (a b : S)
  | switch (e : X) (b : S)
  | case (v : Option Int) (s : S)
  | while_ (c : X) (b : S)
  | doWhile (b : S) (c : X)
  | for_ (pre cond post : Option X) (b : S)
  | brk
  | cont
inductive L where
  | nil
  | cons (s : S) (l : L)
end

/-! ## traverse.c -/

/-- traverse.c:471-473: no expression, nothing to do. -/
def travO (Γ : Fn) (need : Bool) (e : Option X) (n : Nat) : Option X × Nat :=
  match e with
  | some e => let r := trav Γ need e n; (some r.1, r.2)
  | none => (none, n)

mutual
/-- traverse.c:622-668 `traverse_stmt` and the functions it calls (:528-589). -/
def travS (Γ : Fn) : S → Nat → S × Nat
  | .skip, n => (.skip, n)
  | .expr e, n => let r := trav Γ false e n; (.expr r.1, r.2)
  | .ret e, n => let r := travO Γ true e n; (.ret r.1, r.2)
  | .block l, n => let r := travL Γ l n; (.block r.1, r.2)
  | .when c a, n => let r := trav Γ true c n; let q := travS Γ a r.2; (.when r.1 q.1, q.2)
  | .ite c a b, n => let r := trav Γ true c n; let q := travS Γ a r.2; let p := travS Γ b q.2; (.ite r.1 q.1 p.1, p.2)
  | .switch e b, n =>
    let r := trav Γ true e n
    let q := travS Γ b r.2
    if r.1.simple then (.switch r.1 q.1, q.2)
    else
      let tmp := X.var r.1.ty q.2
      (.switch (.comma (.asg tmp r.1) tmp) q.1, q.2 + 1)
  | .case v s, n => let q := travS Γ s n; (.case v q.1, q.2)
  | .while_ c b, n => let r := trav Γ true c n; let q := travS Γ b r.2; (.while_ r.1 q.1, q.2)
  | .doWhile b c, n => let q := travS Γ b n; let r := trav Γ true c q.2; (.doWhile q.1 r.1, r.2)
  | .for_ pre cond post b, n =>
    let r1 := travO Γ false pre n
    let r2 := travO Γ true cond r1.2
    let r3 := travO Γ false post r2.2
    let q := travS Γ b r3.2
    (.for_ r1.1 r2.1 r3.1 q.1, q.2)
  | .brk, n => (.brk, n)
  | .cont, n => (.cont, n)
def travL (Γ : Fn) : L → Nat → L × Nat
  | .nil, n => (.nil, n)
  | .cons s l, n => let r := travS Γ s n; let q := travL Γ l r.2; (.cons r.1 q.1, q.2)
end

/-! ## gen_wasm.c -/

/-- Returns leave by a branch out of the block of the whole body if the function has a frame (gen_wasm.c:1406); `rt` is the
type of the result. -/
structure Kind where
  fr : Bool
  rt : T

/-- gen_wasm.c:1417 `is_const`. -/
def constOf : X → Option Int
  | .lit _ v => some v
  | _ => none

mutual
/-- fe_misc.c:2031-2056 `check_funcend_return`. -/
def funcend : S → Bool
  | .ret _ => true
  | .when _ a => funcend a
  | .ite _ a b => funcend a && funcend b
  | .block l => funcendL l
  | _ => false
def funcendL : L → Bool
  | .nil => false
  | .cons s .nil => funcend s
  | .cons _ (.cons s l) => funcendL (.cons s l)
end

mutual
/-- `switch_.cases`, in the order of the text, each with gen_wasm.c:1149-1163 `squash_cases`: whether it opens a block
(`sub`: the statement is that of another label). -/
def cases (sub : Bool) : S → List (Option Int × Bool)
  | .case v s => (v, !sub) :: cases true s
  | .block l => casesL l
  | _ => []
def casesL : L → List (Option Int × Bool)
  | .nil => []
  | .cons s l => cases false s ++ casesL l
end

/-- gen_wasm.c:1155-1161: `block_index` plus one. -/
def segNo (k : Nat) : List (Option Int × Bool) → List (Option Int × Nat)
  | [] => []
  | (v, true) :: r => (v, k + 1) :: segNo (k + 1) r
  | (v, false) :: r => (v, k) :: segNo k r

/-- gen_wasm.c:1173-1181: the number of blocks. -/
def leads (l : List (Option Int × Bool)) : Nat := (l.filter (·.2)).length

/-- gen_wasm.c:1192-1203: where `default` is. -/
def dfltIx (cs : List (Option Int × Nat)) (blocks : Nat) : Nat :=
  cs.foldl (fun d p => match p.1 with | none => p.2 - 1 | some _ => d) blocks

/-- The labels and their blocks. -/
def labels (cs : List (Option Int × Nat)) : List (Int × Nat) := cs.filterMap fun p => p.1.map fun v => (v, p.2 - 1)

/-- gen_wasm.c:1193-1209. -/
def minL (ls : List (Int × Nat)) : Int := ls.foldl (fun m p => if p.1 < m then p.1 else m) (2 ^ 63 - 1)
def maxL (ls : List (Int × Nat)) : Int := ls.foldl (fun m p => if m < p.1 then p.1 else m) (-2 ^ 63)

/-- gen_wasm.c:1211: is there a table?  `max - min` does not overflow in the trees considered. -/
def useTable (cs : List (Option Int × Nat)) : Bool :=
  4 ≤ cs.length && (maxL (labels cs) - minL (labels cs)).tdiv 2 ≤ cs.length

/-- gen_wasm.c:1109-1146 `gen_switch_table_jump`; `val` is the code of the value. -/
def tableJump (t : T) (val : List Tok) (cs : List (Option Int × Nat)) (dflt : Nat) : List Tok :=
  let ls := labels cs
  let mn := minL ls
  let tbl := (List.range (maxL ls - mn + 1).toNat).map fun (i : Nat) => ls.foldl (fun d p => if p.1 - mn = (i : Int) then p.2 else d) dflt
  val ++ (if mn ≠ 0 then [.op (.const t.w mn), .op (.bin t.w .sub)] else []) ++
    (if t.size > 4 then [.op .wrap] else []) ++ [.op (.brTable tbl dflt)]

/-- gen_wasm.c:1211-1232. -/
def dispatch (t : T) (val : List Tok) (cs : List (Option Int × Nat)) (blocks : Nat) : List Tok :=
  let dflt := dfltIx cs blocks
  if useTable cs then tableJump t val cs dflt
  else
    (labels cs).flatMap (fun p => val ++ [.op (.const t.w p.1), .op (.cmp t.w .eq), .op (.brIf p.2)]) ++ [.op (.br dflt)]

/-- gen_wasm.c:1183-1190. -/
def switchVal (Γ : Fn) : X → List Tok × X
  | .comma a b => (gen Γ false (.comma a b), b)
  | e => ([], e)

mutual
/-- gen_wasm.c:1472-1494 `gen_stmt`.  `last` is `is_last`; `d`, `b`, `k` are `cur_depth`, `break_depth`, `continue_depth`; the
second component is `cur_depth` afterwards. -/
def genS (Γ : Fn) (K : Kind) (last sub : Bool) (d b k : Nat) : S → List Tok × Nat
  | .skip => ([], d)
  | .expr e => (gen Γ false e, d)
  -- :1376-1414 `gen_return`
  | .ret e =>
    ((match e with | some e => gen Γ true e | none => []) ++
      (if last then [] else if K.fr then [.op (.br (d - 1))] else [.op .ret]), d)
  | .block l => genL Γ K last d b k l
  -- :1416-1440 `gen_if`
  | .when c a =>
    match constOf c with
    | some v => if v ≠ 0 then genS Γ K last false d b k a else ([], d)
    | none =>
      let r := genS Γ K last false (d + 1) b k a
      (genCond Γ true true c ++ .if_ (if last && funcend a && K.rt ≠ .void then some K.rt.w else none) :: r.1 ++ [.end_], r.2 - 1)
  | .ite c a₁ a₂ =>
    match constOf c with
    | some v => if v ≠ 0 then genS Γ K last false d b k a₁ else genS Γ K last false d b k a₂
    | none =>
      let r := genS Γ K last false (d + 1) b k a₁
      let q := genS Γ K last false r.2 b k a₂
      (genCond Γ true true c ++ .if_ (if last && (funcend a₁ && funcend a₂) && K.rt ≠ .void then some K.rt.w else none) :: r.1 ++
        .else_ :: q.1 ++ [.end_], q.2 - 1)
  -- :1165-1241 `gen_switch`
  | .switch e s =>
    let cs := cases false s
    let n := leads cs
    let v := switchVal Γ e
    let r := genS Γ K false false (d + n + 1) d k s
    if v.2.simple ∧ r.2 = d + 1 then
      (List.replicate (n + 1) (.block none) ++ (v.1 ++ dispatch v.2.ty (gen Γ true v.2) (segNo 0 cs) n ++ r.1 ++ [.end_]), d)
    else ([.bad], d)
  -- :1243-1250 `gen_case`
  | .case _ s =>
    let d' := if sub then d else d - 1
    let r := genS Γ K last true d' b k s
    ((if sub then [] else [.end_]) ++ r.1, r.2)
  -- :1252-1278 `gen_while`
  | .while_ c s =>
    match constOf c with
    | some v =>
      if v = 0 then ([], d)
      else ((.block none) :: (.loop :: ((genS Γ K false false (d + 2) d (d + 1) s).1 ++ [.op (.br 0)]) ++ [.end_]) ++ [.end_], d)
    | none =>
      ((.block none) :: (.loop :: (genCond Γ false true c ++ [.op (.brIf 1)] ++ (genS Γ K false false (d + 2) d (d + 1) s).1 ++
        [.op (.br 0)]) ++ [.end_]) ++ [.end_], d)
  -- :1280-1313 `gen_do_while`
  | .doWhile s c =>
    ((.block none) :: (.loop :: (.block none :: (genS Γ K false false (d + 3) d (d + 2) s).1 ++ [.end_] ++
      (match constOf c with
        | some v => if v = 0 then [.op (.br 1)] else [.op (.br 0)]
        | none => genCond Γ true true c ++ [.op (.brIf 0)])) ++ [.end_]) ++ [.end_], d)
  -- :1315-1351 `gen_for`
  | .for_ pre cond post s =>
    let p := match pre with | some e => gen Γ false e | none => []
    let q := match post with | some e => gen Γ false e | none => []
    let body (cc : List Tok) : List Tok :=
      (.block none) :: (.loop :: (.block none :: (cc ++ (genS Γ K false false (d + 3) d (d + 2) s).1) ++ [.end_] ++ (q ++ [.op (.br 0)])) ++ [.end_]) ++ [.end_]
    match cond with
    | none => (p ++ body [], d)
    | some c =>
      match constOf c with
      | some v => if v = 0 then (p, d) else (p ++ body [], d)
      | none => (p ++ body (genCond Γ false true c ++ [.op (.brIf 2)]), d)
  -- :1353-1363
  | .brk => (if b < d then [.op (.br (d - b - 1))] else [.bad], d)
  | .cont => (if k < d then [.op (.br (d - k - 1))] else [.bad], d)
/-- gen_wasm.c:1496-1504 `gen_stmts`. -/
def genL (Γ : Fn) (K : Kind) (last : Bool) (d b k : Nat) : L → List Tok × Nat
  | .nil => ([], d)
  | .cons s .nil => genS Γ K last false d b k s
  | .cons s (.cons s' l) =>
    let r := genS Γ K false false d b k s
    let q := genL Γ K last r.2 b k (.cons s' l)
    (r.1 ++ q.1, q.2)
end

/-! ## Specification: what statements mean -/

/-- How a statement ends: it is left at its end, by `break`, by `continue`, by `return`; a call does not return; undefined
behaviour; a loop goes beyond the limit of iterations. -/
inductive Fl where
  | go (σ : State)
  | brk (σ : State)
  | cont (σ : State)
  | ret (v : Int) (σ : State)
  | stop
  | ub
  | time

def Fl.bind (o : Fl) (f : State → Fl) : Fl :=
  match o with
  | .go σ => f σ
  | r => r

def Ou.fl {α : Type} (o : Ou α) (f : α → State → Fl) : Fl :=
  match o with
  | .val a σ => f a σ
  | .stop => .stop
  | .ub => .ub

/-- Iterations: `cont` begins the next one. -/
def loopF (f : State → Fl) : Nat → State → Fl
  | 0, _ => .time
  | n + 1, σ =>
    match f σ with
    | .cont σ => loopF f n σ
    | r => r

/-- `break` ends the loop or the switch. -/
def Fl.out : Fl → Fl
  | .brk σ => .go σ
  | r => r

/-- `continue` in the body of a loop goes on behind the body. -/
def Fl.body (o : Fl) (f : State → Fl) : Fl :=
  match o with
  | .go σ => f σ
  | .cont σ => f σ
  | r => r

/-- The body of a switch: labels, and what stands between them. -/
inductive It where
  | lab (v : Option Int)
  | act (f : State → Fl)

def run : List It → State → Fl
  | [], σ => .go σ
  | .lab _ :: r, σ => run r σ
  | .act f :: r, σ => (f σ).bind (run r)

/-- What follows each label. -/
def sufs : List It → List (Option Int × List It)
  | [] => []
  | .lab v :: r => (v, r) :: sufs r
  | .act _ :: r => sufs r

/-- The label is converted to the promoted type of the value. -/
def hits (t : T) (x : Int) (v : Option Int) : Bool :=
  match v with
  | some v => x = conv (if t.size < 4 then 4 else t.size) (if t.size < 4 then false else t.uns) v
  | none => false

/-- The label that is jumped to: the one with the value, else `default`. -/
def pick {β : Type} (t : T) (x : Int) (l : List (Option Int × β)) : Option β :=
  match l.find? fun p => hits t x p.1 with
  | some p => some p.2
  | none => (l.find? fun p => p.1 = none).map (·.2)

def evO (c : Ctx) (need : Bool) (e : Option X) (σ : State) (f : Int → State → Fl) : Fl :=
  match e with
  | some e => (ev c need e σ).fl f
  | none => f 1 σ

mutual
/-- What a statement does, with at most `n` iterations of each loop, in the parts that labels of the switch around it can
separate. -/
def acts (c : Ctx) (n : Nat) : S → List It
  | .case v s => .lab v :: acts c n s
  | .block l => actsL c n l
  | .skip => []
  | .expr e => [.act fun σ => (ev c false e σ).fl fun _ σ => .go σ]
  | .ret e =>
    [.act fun σ =>
      match e with
      | some e => (ev c true e σ).fl fun v σ => .ret v σ
      | none => .ret 0 σ]
  | .when x a => [.act fun σ => (ev c true x σ).fl fun v σ => if v ≠ 0 then run (acts c n a) σ else .go σ]
  | .ite x a b => [.act fun σ => (ev c true x σ).fl fun v σ => if v ≠ 0 then run (acts c n a) σ else run (acts c n b) σ]
  | .switch e s =>
    [.act fun σ => (ev c true e σ).fl fun v σ =>
      match pick e.ty v (sufs (acts c n s)) with
      | some r => (run r σ).out
      | none => .go σ]
  | .while_ x s =>
    [.act fun σ => (loopF (fun σ => (ev c true x σ).fl fun v σ => if v ≠ 0 then (run (acts c n s) σ).body .cont else .brk σ) n σ).out]
  | .doWhile s x =>
    [.act fun σ => (loopF (fun σ => (run (acts c n s) σ).body fun σ =>
      (ev c true x σ).fl fun v σ => if v ≠ 0 then .cont σ else .brk σ) n σ).out]
  | .for_ pre cond post s =>
    [.act fun σ => evO c false pre σ fun _ σ =>
      (loopF (fun σ => evO c true cond σ fun v σ =>
        if v ≠ 0 then (run (acts c n s) σ).body fun σ => evO c false post σ fun _ σ => .cont σ else .brk σ) n σ).out]
  | .brk => [.act .brk]
  | .cont => [.act .cont]
def actsL (c : Ctx) (n : Nat) : L → List It
  | .nil => []
  | .cons s l => acts c n s ++ actsL c n l
end

/-- Execution, with at most `n` iterations of each loop. -/
def exS (c : Ctx) (n : Nat) (s : S) (σ : State) : Fl := run (acts c n s) σ

/-! ## Which statements -/

mutual
/-- No `return` stands where the code of the function ends. -/
def noLR : S → Bool
  | .ret _ => false
  | .block l => noLRL l
  | .when _ a => noLR a
  | .ite _ a b => noLR a && noLR b
  | .case _ s => noLR s
  | _ => true
def noLRL : L → Bool
  | .nil => true
  | .cons s .nil => noLR s
  | .cons _ (.cons s l) => noLRL (.cons s l)
end

/-- A condition: constants are in their type. -/
def wtC (c : Ctx) (e : X) : Bool := wt c true e && isCond e && e.fits

def wtO (p : X → Bool) : Option X → Bool
  | some e => p e
  | none => true

/-- The labels can be written as constants, are distinct, and `default` stands once; a table is not used for 64 bits. -/
def labsOk (t : T) (cs : List (Option Int × Bool)) : Bool :=
  cs.all (fun p => match p.1 with | some v => InRange (if t.size ≤ 4 then 4 else 8) false v | none => true) &&
  decide ((labels (segNo 0 cs)).map (fun p => conv (if t.size < 4 then 4 else t.size) (if t.size < 4 then false else t.uns) p.1)).Nodup &&
  decide ((cs.filter (·.1 = none)).length ≤ 1) && (t.size ≤ 4 || !useTable (segNo 0 cs))

mutual
/-- The statements the theorem is about: what the front end lets pass, minus what the code gets wrong.  `iB`, `iC`, `iS`: inside
something `break`, `continue`, `case` belong to. -/
def wtS (c : Ctx) (K : Kind) (last iB iC iS : Bool) : S → Bool
  | .skip => true
  | .expr e => wt c false e
  | .ret e =>
    match e with
    | some e => wt c true e && (if K.rt = .void then e.ty = .void else e.ty.scalar && K.rt.scalar && like e.ty K.rt)
    | none => K.rt = .void
  | .block l => wtL' c K last iB iC iS l
  | .when x a => wtC c x && wtS c K last iB iC false a &&
    (!last || K.rt = .void || noLR a || (constOf x).any (· ≠ 0))
  | .ite x a b => wtC c x && wtS c K last iB iC false a && wtS c K last iB iC false b &&
    (!last || K.rt = .void || constOf x ≠ none || (funcend a && funcend b) || (noLR a && noLR b))
  | .switch e s => wt c true e && e.ty.scalar && e.ty.isFx && wtS c K false true iC true s && labsOk e.ty (cases false s)
  | .case _ s => iS && wtS c K last iB iC iS s
  | .while_ x s => wtC c x && wtS c K false true true false s
  | .doWhile s x => wtC c x && wtS c K false true true false s
  | .for_ p x q s => wtO (wt c false) p && wtO (wtC c) x && wtO (wt c false) q && wtS c K false true true false s
  | .brk => iB
  | .cont => iC
def wtL' (c : Ctx) (K : Kind) (last iB iC iS : Bool) : L → Bool
  | .nil => true
  | .cons s .nil => wtS c K last iB iC iS s
  | .cons s (.cons s' l) => wtS c K false iB iC iS s && wtL' c K last iB iC iS (.cons s' l)
end

end Verif.WasmGen

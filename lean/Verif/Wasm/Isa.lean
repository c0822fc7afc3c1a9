import Verif.Util.Wrap
import Mathlib.Tactic.Common
/-
WebAssembly, as far as wcc uses it for integers: instructions, their nesting, their meaning (WebAssembly Core
Specification 4.3, 4.4, 5.4).  This file is specification: it does not model code of /repo.

A value is a type and a number below 2^32 or 2^64.  Memory has a fixed size.  What the called functions do is a parameter.
`stuck` is the outcome of code that breaks the rules of validation (operands missing or of the wrong type).
-/
namespace Verif.Wasm
open Verif.Util

inductive VT where
  | i32 | i64
deriving DecidableEq, Repr

def VT.bits : VT → Nat
  | .i32 => 32
  | .i64 => 64

structure V where
  ty : VT
  n : Nat
deriving DecidableEq, Repr

/-- The pattern of `v` in `b` bits. -/
def pat (b : Nat) (v : Int) : Nat := (toU b v).toNat

inductive Bin where
  | add | sub | mul
  | div (s : Bool)
  | rem (s : Bool)
  | and | or | xor | shl
  | shr (s : Bool)
deriving DecidableEq, Repr

inductive Cmp where
  | eq | ne
  | lt (s : Bool)
  | le (s : Bool)
  | ge (s : Bool)
  | gt (s : Bool)
deriving DecidableEq, Repr

/-- The number of a pattern. -/
def num (b : Nat) (s : Bool) (n : Nat) : Int := if s then toS b n else n

/-- 4.3.2: `none` is a trap. -/
def binOp (b : Nat) (o : Bin) (x y : Nat) : Option Nat :=
  match o with
  | .add => some ((x + y) % 2 ^ b)
  | .sub => some (pat b ((x : Int) - y))
  | .mul => some (x * y % 2 ^ b)
  | .div s =>
    if y = 0 then none
    else
      let q := (num b s x).tdiv (num b s y)
      if s ∧ q = 2 ^ (b - 1) then none else some (pat b q)
  | .rem s => if y = 0 then none else some (pat b ((num b s x).tmod (num b s y)))
  | .and => some (x &&& y)
  | .or => some (x ||| y)
  | .xor => some (x ^^^ y)
  | .shl => some (x * 2 ^ (y % b) % 2 ^ b)
  | .shr s => some (pat b (num b s x / 2 ^ (y % b)))

def cmpOp (b : Nat) (o : Cmp) (x y : Nat) : Bool :=
  match o with
  | .eq => x = y
  | .ne => x ≠ y
  | .lt s => num b s x < num b s y
  | .le s => num b s x ≤ num b s y
  | .ge s => num b s y ≤ num b s x
  | .gt s => num b s y < num b s x

/-- Instructions without nesting.  `ext8`, `ext16` are i32.extend8_s, i32.extend16_s; `load w k s` reads `k` bytes and
extends them, with the sign if `s`. -/
inductive Op where
  | const (w : VT) (v : Int)
  | bin (w : VT) (o : Bin)
  | cmp (w : VT) (o : Cmp)
  | eqz (w : VT)
  | wrap | extS | extU | ext8 | ext16
  | lget (x : Nat)
  | lset (x : Nat)
  | ltee (x : Nat)
  | gget (x : Nat)
  | gset (x : Nat)
  | load (w : VT) (k : Nat) (s : Bool)
  | store (w : VT) (k : Nat)
  | drop
  | call (f : Nat)
  | br (n : Nat)
  | brIf (n : Nat)
  | brTable (l : List Nat) (d : Nat)
  | ret
  | unreachable
deriving DecidableEq, Repr

/-- What the binary format is made of. `bad` stands for a failed assertion of the compiler. -/
inductive Tok where
  | op (o : Op)
  | block (t : Option VT)
  | loop
  | if_ (t : Option VT)
  | else_
  | end_
  | bad
deriving DecidableEq, Repr

/-- Nested code: an instruction and what follows it. -/
inductive Code where
  | done
  | op (o : Op) (k : Code)
  | block (t : Option VT) (b k : Code)
  | loop (b k : Code)
  | ite (t : Option VT) (a b k : Code)
deriving DecidableEq, Repr

/-- Constants are signed numbers of their width (5.4.7). -/
def Op.wf : Op → Bool
  | .const w v => decide (-2 ^ (w.bits - 1) ≤ v ∧ v < 2 ^ (w.bits - 1))
  | _ => true

/-- 5.4: the nesting, read from the end.  The result lists what is open: the code up to the next `end`, and what follows
its `else`. -/
def nest : List Tok → Option (List (Code × Option Code))
  | [] => some [(.done, none)]
  | .op o :: ts =>
    match nest ts with
    | some ((c, e) :: s) => if o.wf then some ((.op o c, e) :: s) else none
    | _ => none
  | .end_ :: ts =>
    match nest ts with
    | some s => some ((.done, none) :: s)
    | none => none
  | .else_ :: ts =>
    match nest ts with
    | some ((c, none) :: s) => some ((.done, some c) :: s)
    | _ => none
  | .block t :: ts =>
    match nest ts with
    | some ((c, none) :: (k, e) :: s) => some ((.block t c k, e) :: s)
    | _ => none
  | .loop :: ts =>
    match nest ts with
    | some ((c, none) :: (k, e) :: s) => some ((.loop c k, e) :: s)
    | _ => none
  | .if_ t :: ts =>
    match nest ts with
    | some ((c, some d) :: (k, e) :: s) => some ((.ite t c d k, e) :: s)
    | some ((c, none) :: (k, e) :: s) => if t = none then some ((.ite t c .done k, e) :: s) else none
    | _ => none
  | .bad :: _ => none

/-- Code that follows code. -/
def Code.app : Code → Code → Code
  | .done, d => d
  | .op o k, d => .op o (k.app d)
  | .block t b k, d => .block t b (k.app d)
  | .loop b k, d => .loop b (k.app d)
  | .ite t a b k, d => .ite t a b (k.app d)

/-! ## Meaning -/

/-- `k` bytes at `a`, and storing them. -/
def rdB (mem : Nat → Nat) (a : Nat) : Nat → Nat
  | 0 => 0
  | k + 1 => mem a % 256 + 256 * rdB mem (a + 1) k

def wrB (mem : Nat → Nat) (a : Nat) : Nat → Nat → (Nat → Nat)
  | 0, _ => mem
  | k + 1, v => wrB (fun x => if x = a then v % 256 else mem x) (a + 1) k (v / 256)

/-- Size of memory; parameters of functions; what a call does with memory (`none`: it does not return). -/
structure Env where
  size : Nat
  params : Nat → Nat
  call : Nat → List V → (Nat → Nat) → Option (List V × (Nat → Nat))

structure St where
  loc : Nat → V
  glb : Nat → V
  mem : Nat → Nat

/-- Outcome: the end is reached, a branch to the `n`-th enclosing label, a return (with the operands); a trap; a call
that does not return; invalid code; the limit of iterations. -/
inductive Res where
  | ok (s : List V) (ρ : St)
  | br (n : Nat) (s : List V) (ρ : St)
  | ret (s : List V) (ρ : St)
  | trap
  | stop
  | stuck
  | time

/-- 4.4.1-4.4.8 without nesting. -/
def step (E : Env) (o : Op) (s : List V) (ρ : St) : Res :=
  match o, s with
  | .const w v, s => .ok (⟨w, pat w.bits v⟩ :: s) ρ
  | .bin w o, y :: x :: s =>
    if x.ty = w ∧ y.ty = w then
      match binOp w.bits o x.n y.n with
      | some n => .ok (⟨w, n⟩ :: s) ρ
      | none => .trap
    else .stuck
  | .cmp w o, y :: x :: s =>
    if x.ty = w ∧ y.ty = w then .ok (⟨.i32, if cmpOp w.bits o x.n y.n then 1 else 0⟩ :: s) ρ else .stuck
  | .eqz w, x :: s => if x.ty = w then .ok (⟨.i32, if x.n = 0 then 1 else 0⟩ :: s) ρ else .stuck
  | .wrap, x :: s => if x.ty = .i64 then .ok (⟨.i32, x.n % 2 ^ 32⟩ :: s) ρ else .stuck
  | .extS, x :: s => if x.ty = .i32 then .ok (⟨.i64, pat 64 (toS 32 x.n)⟩ :: s) ρ else .stuck
  | .extU, x :: s => if x.ty = .i32 then .ok (⟨.i64, x.n⟩ :: s) ρ else .stuck
  | .ext8, x :: s => if x.ty = .i32 then .ok (⟨.i32, pat 32 (toS 8 x.n)⟩ :: s) ρ else .stuck
  | .ext16, x :: s => if x.ty = .i32 then .ok (⟨.i32, pat 32 (toS 16 x.n)⟩ :: s) ρ else .stuck
  | .lget x, s => .ok (ρ.loc x :: s) ρ
  | .lset x, v :: s => .ok s { ρ with loc := fun y => if y = x then v else ρ.loc y }
  | .ltee x, v :: s => .ok (v :: s) { ρ with loc := fun y => if y = x then v else ρ.loc y }
  | .gget x, s => .ok (ρ.glb x :: s) ρ
  | .gset x, v :: s => .ok s { ρ with glb := fun y => if y = x then v else ρ.glb y }
  | .load w k sg, a :: s =>
    if a.ty = .i32 then
      if a.n + k ≤ E.size then
        let n := rdB ρ.mem a.n k
        .ok (⟨w, if sg then pat w.bits (toS (8 * k) n) else n⟩ :: s) ρ
      else .trap
    else .stuck
  | .store w k, v :: a :: s =>
    if a.ty = .i32 ∧ v.ty = w then
      if a.n + k ≤ E.size then .ok s { ρ with mem := wrB ρ.mem a.n k v.n } else .trap
    else .stuck
  | .drop, _ :: s => .ok s ρ
  | .call f, s =>
    if E.params f ≤ s.length then
      match E.call f (s.take (E.params f)).reverse ρ.mem with
      | some (vs, m) => .ok (vs ++ s.drop (E.params f)) { ρ with mem := m }
      | none => .stop
    else .stuck
  | .br n, s => .br n s ρ
  | .brIf n, c :: s => if c.ty = .i32 then if c.n = 0 then .ok s ρ else .br n s ρ else .stuck
  | .brTable l d, i :: s => if i.ty = .i32 then .br (l.getD i.n d) s ρ else .stuck
  | .ret, s => .ret s ρ
  | .unreachable, _ => .trap
  | _, _ => .stuck

/-- The end of a block is reached with operands `s'`: those above must be the result. -/
def fall (t : Option VT) (s s' : List V) (ρ : St) (k : List V → St → Res) : Res :=
  if s'.map V.ty = t.toList then k (s' ++ s) ρ else .stuck

/-- Leaving a block: by reaching its end, by a branch to it, or by a branch further out. -/
def leave (t : Option VT) (s : List V) (k : List V → St → Res) : Res → Res
  | .ok s' ρ => fall t s s' ρ k
  | .br 0 s' ρ => fall t s (s'.take t.toList.length) ρ k
  | .br (n + 1) s' ρ => .br n s' ρ
  | r => r

/-- The iterations of a loop: a branch to its label begins it anew, at most `n` times. -/
def iter (f : St → Res) : Nat → St → Res
  | 0, _ => .time
  | n + 1, ρ =>
    match f ρ with
    | .br 0 _ ρ => iter f n ρ
    | r => r

/-- Leaving a loop. -/
def leaveL (s : List V) (k : List V → St → Res) : Res → Res
  | .ok s' ρ => fall none s s' ρ k
  | .br (n + 1) s' ρ => .br n s' ρ
  | .br 0 _ _ => .time
  | r => r

/-- Execution, with at most `n` iterations of each loop. A block starts with no operands. -/
def exec (E : Env) (n : Nat) : Code → List V → St → Res
  | .done, s, ρ => .ok s ρ
  | .op o k, s, ρ =>
    match step E o s ρ with
    | .ok s ρ => exec E n k s ρ
    | r => r
  | .block t b k, s, ρ => leave t s (exec E n k) (exec E n b [] ρ)
  | .loop b k, s, ρ => leaveL s (exec E n k) (iter (exec E n b []) n ρ)
  | .ite t a b k, c :: s, ρ =>
    if c.ty = .i32 then leave t s (exec E n k) (if c.n = 0 then exec E n b [] ρ else exec E n a [] ρ)
    else .stuck
  | .ite .., [], _ => .stuck

/-- A function body: its result, and what is left. -/
def runBody (E : Env) (n : Nat) (t : Option VT) (c : Code) (ρ : St) : Res :=
  match exec E n c [] ρ with
  | .ok s ρ => if s.map V.ty = t.toList then .ok s ρ else .stuck
  | .br 0 s ρ => if (s.take t.toList.length).map V.ty = t.toList then .ok (s.take t.toList.length) ρ else .stuck
  | .ret s ρ => if (s.take t.toList.length).map V.ty = t.toList then .ok (s.take t.toList.length) ρ else .stuck
  | .br (_ + 1) _ _ => .stuck
  | r => r

/-! ## Composition -/

theorem Code.app_done (c : Code) : c.app .done = c := by
  induction c <;> simp_all [Code.app]

theorem Code.app_assoc (a b c : Code) : (a.app b).app c = a.app (b.app c) := by
  induction a <;> simp_all [Code.app]

/-- What follows. -/
def Res.bind (r : Res) (f : List V → St → Res) : Res :=
  match r with
  | .ok s ρ => f s ρ
  | r => r

theorem fall_bind (t : Option VT) (s s' : List V) (ρ : St) (k : List V → St → Res) (f : List V → St → Res) :
    fall t s s' ρ (fun s ρ => (k s ρ).bind f) = (fall t s s' ρ k).bind f := by
  unfold fall; split <;> rfl

theorem leave_bind (t : Option VT) (s : List V) (k : List V → St → Res) (f : List V → St → Res) (r : Res) :
    leave t s (fun s ρ => (k s ρ).bind f) r = (leave t s k r).bind f := by
  cases r with
  | ok s' ρ => exact fall_bind ..
  | br n s' ρ =>
    cases n with
    | zero => exact fall_bind ..
    | succ n => rfl
  | _ => rfl

theorem leaveL_bind (s : List V) (k : List V → St → Res) (f : List V → St → Res) (r : Res) :
    leaveL s (fun s ρ => (k s ρ).bind f) r = (leaveL s k r).bind f := by
  cases r with
  | ok s' ρ => exact fall_bind ..
  | br n s' ρ => cases n <;> rfl
  | _ => rfl

/-- Running code that follows code. -/
theorem exec_app (E : Env) (n : Nat) (c d : Code) :
    ∀ s ρ, exec E n (c.app d) s ρ = (exec E n c s ρ).bind (exec E n d) := by
  induction c with
  | done => intro s ρ; rfl
  | op o k ih =>
    intro s ρ
    simp only [Code.app, exec]
    cases step E o s ρ <;> first | exact ih _ _ | rfl
  | block t b k _ ih =>
    intro s ρ
    simp only [Code.app, exec]
    rw [show exec E n (k.app d) = _ from funext fun s => funext fun ρ => ih s ρ]
    exact leave_bind ..
  | loop b k _ ih =>
    intro s ρ
    simp only [Code.app, exec]
    rw [show exec E n (k.app d) = _ from funext fun s => funext fun ρ => ih s ρ]
    exact leaveL_bind ..
  | ite t a b k _ _ ih =>
    intro s ρ
    simp only [Code.app]
    cases s with
    | nil => rfl
    | cons c s =>
      simp only [exec]
      rw [show exec E n (k.app d) = _ from funext fun s => funext fun ρ => ih s ρ]
      split
      · exact leave_bind ..
      · rfl

/-- `ts` is complete code: wherever it stands it nests as `C`. -/
def Frag (ts : List Tok) (C : Code) : Prop :=
  ∀ rest c e s, nest rest = some ((c, e) :: s) → nest (ts ++ rest) = some ((C.app c, e) :: s)

theorem Frag.nil : Frag [] .done := by
  intro rest c e s h
  simpa [Code.app] using h

theorem Frag.append {a b : List Tok} {A B : Code} (ha : Frag a A) (hb : Frag b B) : Frag (a ++ b) (A.app B) := by
  intro rest c e s h
  rw [List.append_assoc, Code.app_assoc]
  exact ha _ _ _ _ (hb _ _ _ _ h)

theorem Frag.op {o : Op} (h : o.wf = true) : Frag [.op o] (.op o .done) := by
  intro rest c e s hr
  simp [nest, hr, h, Code.app]

theorem Frag.block {t : Option VT} {b : List Tok} {B : Code} (hb : Frag b B) :
    Frag (.block t :: b ++ [.end_]) (.block t B .done) := by
  intro rest c e s hr
  have h1 : nest (.end_ :: rest) = some ((.done, none) :: (c, e) :: s) := by simp [nest, hr]
  have h2 := hb _ _ _ _ h1
  rw [Code.app_done] at h2
  simp only [List.cons_append, List.append_assoc, List.singleton_append, List.nil_append, nest, h2, Code.app]

theorem Frag.loop {b : List Tok} {B : Code} (hb : Frag b B) : Frag (.loop :: b ++ [.end_]) (.loop B .done) := by
  intro rest c e s hr
  have h1 : nest (.end_ :: rest) = some ((.done, none) :: (c, e) :: s) := by simp [nest, hr]
  have h2 := hb _ _ _ _ h1
  rw [Code.app_done] at h2
  simp only [List.cons_append, List.append_assoc, List.singleton_append, List.nil_append, nest, h2, Code.app]

theorem Frag.when {b : List Tok} {B : Code} (hb : Frag b B) :
    Frag (.if_ none :: b ++ [.end_]) (.ite none B .done .done) := by
  intro rest c e s hr
  have h1 : nest (.end_ :: rest) = some ((.done, none) :: (c, e) :: s) := by simp [nest, hr]
  have h2 := hb _ _ _ _ h1
  rw [Code.app_done] at h2
  simp only [List.cons_append, List.append_assoc, List.singleton_append, List.nil_append, nest, h2, Code.app, if_true]

theorem Frag.ite {t : Option VT} {a b : List Tok} {A B : Code} (ha : Frag a A) (hb : Frag b B) :
    Frag (.if_ t :: a ++ .else_ :: b ++ [.end_]) (.ite t A B .done) := by
  intro rest c e s hr
  have h1 : nest (.end_ :: rest) = some ((.done, none) :: (c, e) :: s) := by simp [nest, hr]
  have h2 := hb _ _ _ _ h1
  rw [Code.app_done] at h2
  have h3 : nest (.else_ :: (b ++ .end_ :: rest)) = some ((.done, some B) :: (c, e) :: s) := by simp only [nest, h2]
  have h4 := ha _ _ _ _ h3
  rw [Code.app_done] at h4
  simp only [List.cons_append, List.append_assoc, List.singleton_append, nest, h4, Code.app, List.nil_append]

/-- A body is complete code. -/
theorem Frag.body {ts : List Tok} {C : Code} (h : Frag ts C) : nest ts = some [(C, none)] := by
  have h := h [] _ _ _ rfl
  rwa [List.append_nil, Code.app_done] at h

end Verif.Wasm

import Verif.Wasm.FuncCorrect
/-!
# Functions compiled to WebAssembly (C74)

The claims of C74 (those on allocation are in Verif.Wasm.Alloc), functions they apply to, and the functions the compiler gets wrong.
-/
namespace Verif.WasmGen
open Verif.Util Verif.CExpr Verif.Wasm Verif.WasmAlloc
open Verif.Fold hiding Op Res

/-- C74: the code of a function is complete WebAssembly.  Called with values for its parameters it begins in a state where the
parameters have these values and memory outside its frame is unchanged; if C defines what the body then does, the call
returns the value C gives, with memory as C has it and the stack pointer as it was before the call. -/
theorem func_code_partial {F : Func} (hF : FuncOk F) {c : Ctx} (hΓ : c.Γ = fnOf F) (hlo : frameSize F.v ≤ c.bp) (hhi : c.bp ≤ c.E.size)
    (hlt : c.bp < 2 ^ 32) (hw : wtS c (kindOf F) true false false false (.block F.body) = true) (he : EndOk F) :
    ∃ C, nest (genFn F) = some [(C, none)] ∧ ∀ m ρ vals args, 0 < m → CallOk F c ρ vals args →
      ∃ σ, Entry F c vals ρ.mem σ ∧ Returns F ρ (exS c m (.block F.body) σ) (runBody c.E m F.rt.res C ρ) := by
  obtain ⟨C, fC, -⟩ := func_run hF hΓ hlo hhi hlt hw he (m := 1) (by omega) []
  refine ⟨C, fC.body, fun m ρ vals args hm hC => ?_⟩
  obtain ⟨C', fC', h⟩ := func_run hF hΓ hlo hhi hlt hw he hm vals
  obtain rfl := Frag.unique fC fC'
  exact ⟨_, entry_ok hF hC, h ρ args hC⟩

/-! ## A function

`int f(int n, char a, long long w) { int s, i, t[3]; char *p; s = 0; p = &a; *p = *p + 1; for (i = 0; i < n; i++) s = s + a;
if (w > 5) return s; else return a; }`; `s` has its address taken. -/

def exVars : Vars where
  top := [⟨some 0, 0, false, false, 4, 4, some 0⟩, ⟨some 1, 0, false, true, 1, 1, some 1⟩, ⟨some 2, 1, false, false, 8, 8, some 2⟩]
  rest := [⟨some 3, 0, false, true, 4, 4, none⟩, ⟨some 4, 0, false, false, 4, 4, none⟩, ⟨some 5, 0, true, false, 12, 4, none⟩,
    ⟨some 6, 0, false, false, 4, 4, none⟩, ⟨some 7, 1, false, false, 8, 8, none⟩]
  retParam := false
  variadic := false
  modified := false

/-- The parameter whose address is taken, `s` and `t` are in the frame of 24 bytes; the base pointer is in local 3. -/
example : (alloc exVars).map (·.2) =
    [.reg 0, .frame (-24), .reg 2, .reg 3, .frame (-20), .reg 4, .frame (-16), .reg 5, .reg 6] ∧ frameSize exVars = 24 ∧
    declared exVars = [0, 0, 0, 1] ∧ firstLocal exVars = 3 := by decide +kernel

theorem exVars_wf : Wf exVars := by
  refine ⟨by decide +kernel, by decide +kernel, by decide +kernel⟩

/-- `struct R g(struct S s, double a, int b, ...)` with locals `long double *q` and `struct S u`; the address of `b` is taken. -/
def exVars2 : Vars where
  top := [⟨some 0, 0, true, false, 24, 8, some 0⟩, ⟨some 1, 3, false, false, 8, 8, some 1⟩, ⟨some 2, 0, false, true, 4, 4, some 2⟩]
  rest := [⟨some 3, 0, false, false, 4, 4, none⟩, ⟨some 4, 0, true, false, 24, 8, none⟩]
  retParam := true
  variadic := true
  modified := true

example : Wf exVars2 := ⟨by decide +kernel, by decide +kernel, by decide +kernel⟩

/-- The structure parameter is the caller's copy; the structure to return and the variable arguments take locals 0 and 3. -/
example : (alloc exVars2).map (·.2) = [.sparam 0, .reg 1, .frame (-32), .reg 4, .reg 5, .frame (-24)] ∧ frameSize exVars2 = 32 := by decide +kernel

def exTy (x : Nat) : T :=
  match x with
  | 1 => .fx ⟨0, false⟩ | 2 => .fx ⟨4, false⟩ | 6 => .ptr 1 | 7 => .fx ⟨4, false⟩ | _ => .int

def fN : X := .var .int 0
def fA : X := .var (.fx ⟨0, false⟩) 1
def fW : X := .var (.fx ⟨4, false⟩) 2
def fS : X := .var .int 3
def fI : X := .var .int 4
def fP : X := .var (.ptr 1) 6

def exF : Func where
  v := exVars
  ty := exTy
  data _ := none
  n0 := 7
  sp := 0
  rt := .int
  body := L.of [
    .expr (.asg fS (lI 0)),
    .expr (.asg fP (.ref fA)),
    .expr (.asg (.deref (.fx ⟨0, false⟩) fP)
      (.cast (.fx ⟨0, false⟩) (.bin .add .int (.cast .int (.deref (.fx ⟨0, false⟩) fP)) (lI 1)))),
    .for_ (some (.asg fI (lI 0))) (some (.rel .lt fI fN)) (some (.inc false false fI))
      (.expr (.asg fS (.bin .add .int fS (.cast .int fA)))),
    .ite (.rel .gt fW (.lit (.fx ⟨4, false⟩) 5)) (.ret (some fS)) (.ret (some (.cast .int fA)))]

def exFC : Ctx := ⟨fnOf exF, 4096, ⟨65536, fun _ => 0, fun _ _ m => some ([], m)⟩⟩

theorem exF_ok : FuncOk exF := by
  refine ⟨exVars_wf, by decide +kernel, by decide +kernel, by decide +kernel, by decide +kernel, by decide, ?_, fun _ _ => rfl, ?_,
    fun _ _ _ _ => rfl, ?_, by decide +kernel, (fun x a h => nomatch h), by decide⟩
  · intro d hd x hx hn
    simp only [exF, exVars, List.cons_append, List.nil_append, List.mem_cons, List.not_mem_nil, or_false] at hd
    rcases hd with rfl | rfl | rfl | rfl | rfl | rfl | rfl | rfl <;> cases hx <;> simp [exF] at hn ⊢
  · intro x hx
    refine .inr ?_
    have hx : x < 7 := hx
    interval_cases x <;> decide +kernel
  · intro d hd x hx ha
    simp only [exF, exVars, List.cons_append, List.nil_append, List.mem_cons, List.not_mem_nil, or_false] at hd
    rcases hd with rfl | rfl | rfl | rfl | rfl | rfl | rfl | rfl <;> cases hx <;> first | decide | cases ha

example : wtS exFC (kindOf exF) true false false false (.block exF.body) = true := by decide +kernel
example : EndOk exF := .inr (.inl (by decide))

def exArgs : List V := [⟨.i32, 3⟩, ⟨.i32, 4294967291⟩, ⟨.i64, 10⟩]
def exCall : St := ⟨entryLoc exF exArgs, fun _ => ⟨.i32, 4096⟩, fun _ => 7⟩

example : CallOk exF exFC exCall [3, -5, 10] exArgs := by
  refine ⟨rfl, fun _ => rfl, (fun q => by revert q; decide +kernel), by decide +kernel, by decide, by decide, by decide, rfl, rfl, ?_⟩
  intro d hd x k hx hk
  simp only [exF, exVars, List.cons_append, List.nil_append, List.mem_cons, List.not_mem_nil, or_false] at hd
  rcases hd with rfl | rfl | rfl | rfl | rfl | rfl | rfl | rfl <;> cases hx <;> cases hk
  · exact ⟨3, rfl, by decide, by unfold InR; decide⟩
  · exact ⟨-5, rfl, by decide, by unfold InR; decide⟩
  · exact ⟨10, rfl, by decide, by unfold InR; decide⟩

/-- Runs the code of a function. -/
def runF (F : Func) (E : Env) (m : Nat) (ρ : St) : Option Res :=
  match nest (genFn F) with
  | some [(C, none)] => some (runBody E m F.rt.res C ρ)
  | _ => none

/-- `f(3, -5, 10)` is -12. -/
example : (runF exF exFC.E 10 exCall).map stackAfter = some (some [⟨.i32, 4294967284⟩]) := by decide +kernel

/-! ## What the compiler gets wrong -/

/-- A function `int f(int n)` without other variables. -/
def intF (body : L) : Func where
  v := ⟨[⟨some 0, 0, false, false, 4, 4, some 0⟩], [], false, false, false⟩
  ty _ := .int
  data _ := none
  n0 := 1
  sp := 0
  rt := .int
  body := body

def callF (F : Func) (args : List V) : Option Res := runF F exFC.E 10 ⟨entryLoc F args, fun _ => ⟨.i32, 4096⟩, fun _ => 0⟩

def isTrap : Res → Bool
  | .trap => true
  | _ => false

/-- gen_wasm.c:1399-1409, :1729-1736: `int f(int n) { if (1) return 1; else n = 0; }`.  The value is left for the end of the
function, where the compiler puts `unreachable`: the call traps, though C returns 1. -/
theorem wasm_const_if_traps :
    let body := L.of [.ite (.lit .int 1) (.ret (some (lI 1))) (.expr (.asg fN (lI 0)))]
    (callF (intF body) [⟨.i32, 5⟩]).map isTrap = some true ∧
      (match exS ⟨fnOf (intF body), 0, exFC.E⟩ 10 (.block body) ⟨fun _ => 5, fun _ => 0⟩ with | .ret v _ => some v | _ => none) = some 1 := by
  decide +kernel

/-- gen_wasm.c:1416-1440: `int f(int n) { if (n) return 1; else for (;;) ; }` is not valid: the value is left in an `if` that
has no result. -/
theorem wasm_if_loop_invalid :
    (callF (intF (L.of [.ite (.rel .ne fN (lI 0)) (.ret (some (lI 1))) (.for_ none none none .skip)])) [⟨.i32, 5⟩]).map isStuck = some true := by
  decide +kernel

/-- gen_wasm.c:1427-1437, fe_misc.c:2031-2056: `int f(int n) { if (n) return 1; }` is not well-formed: an `if` with a result
has no `else`. -/
theorem wasm_if_without_else_malformed :
    (callF (intF (L.of [.when (.rel .ne fN (lI 0)) (.ret (some (lI 1)))])) [⟨.i32, 5⟩]).isNone = true := by
  decide +kernel

/-- gen_wasm.c:1419-1424: `int f(int n) { if (0) return 1; }` is not valid: there is neither a value nor `unreachable` at the end. -/
theorem wasm_if_zero_invalid :
    (callF (intF (L.of [.when (.lit .int 0) (.ret (some (lI 1)))])) [⟨.i32, 5⟩]).map isStuck = some true := by
  decide +kernel

/-- `int f(struct S s, int a) { int *p = &a; return *p; }`: the second parameter is the only one in a local. -/
def structF : Func where
  v := ⟨[⟨some 0, 0, true, false, 8, 4, some 0⟩, ⟨some 1, 0, false, true, 4, 4, some 1⟩], [⟨some 2, 0, false, false, 4, 4, none⟩], false, false, false⟩
  ty x := match x with | 2 => .ptr 4 | _ => .int
  data _ := none
  n0 := 3
  sp := 0
  rt := .int
  body := L.of [.expr (.asg (.var (.ptr 4) 2) (.ref (.var .int 1))), .ret (some (.deref .int (.var (.ptr 4) 2)))]

/-- gen_wasm.c:1610, :1715: it is stored from local 1 (its number among all parameters), not from local 0 where it is passed.  Called
with 42 the function returns what is in local 1: the base pointer. -/
theorem wasm_ref_param_after_struct_wrong :
    (callF structF [⟨.i32, 42⟩]).map stackAfter = some (some [⟨.i32, 4096⟩]) := by
  decide +kernel

/-- gen_wasm.c:1561: the frame is rounded up to eight, so an object aligned to 16 need not be at a multiple of 16 below the base pointer. -/
theorem wasm_frame_align16_wrong :
    let v : Vars := ⟨[⟨some 0, 0, true, false, 16, 16, none⟩, ⟨some 1, 0, true, false, 4, 4, none⟩], [], false, false, false⟩
    (alloc v).map (·.2) = [.frame (-24), .frame (-8), .reg 0] := by
  decide +kernel

end Verif.WasmGen

import Verif.Wasm.GenCorrect
/-!
# Expressions compiled to WebAssembly (C72)

The claims of C72, a function they apply to, and the expressions the compiler gets wrong.
-/
namespace Verif.WasmGen
open Verif.Util Verif.CExpr Verif.Wasm
open Verif.Fold hiding Op Res

/-- C72: the code of an expression is complete WebAssembly; if the expression has a value in C, the code ends with that
value (and nothing else) added to the operands, with the variables and memory as C has them; it does not return if a
called function does not return. -/
theorem expr_code_partial {c : Ctx} (hc : FnOk c) {need : Bool} {e : X} (hw : wt c need e = true) :
    ∃ C, nest (gen c.Γ need (trav c.Γ need e c.Γ.n0).1) = some [(C, none)] ∧
      ∀ m s σ ρ, Sim c σ ρ →
        (∀ v σ', ev c need e σ = .val v σ' → ∃ ρ', exec c.E m C s ρ = .ok (if need && e.ty ≠ .void then rep e.ty v :: s else s) ρ' ∧
          Sim c σ' ρ' ∧ ρ'.glb = ρ.glb) ∧
        (ev c need e σ = .stop → exec c.E m C s ρ = .stop) := by
  obtain ⟨C, fC, hC⟩ := (okX hc e).1 need c.Γ.n0 hw (le_refl _)
  refine ⟨C, fC.body, fun m s σ ρ hs => ?_⟩
  have h := hC m s σ ρ hs
  constructor
  · intro v σ' e'
    rw [e'] at h
    obtain ⟨_, ρ', e1, s1, k1⟩ := h
    exact ⟨ρ', e1, s1, k1.glb⟩
  · intro e'
    rw [e'] at h
    exact h

/-- C72: the code of a condition (of `if`, `while`, …) leaves one if the condition holds and zero if not; with `tf = false`
the other way round. -/
theorem cond_code_partial {c : Ctx} (hc : FnOk c) (tf : Bool) {e : X} (hw : wt c true e = true) (hi : isCond e = true) :
    ∃ C, nest (genCond c.Γ tf true (trav c.Γ true e c.Γ.n0).1) = some [(C, none)] ∧
      ∀ m s σ ρ, Sim c σ ρ →
        (∀ v σ', ev c true e σ = .val v σ' → ∃ ρ', exec c.E m C s ρ = .ok (⟨.i32, if decide (v ≠ 0) = tf then 1 else 0⟩ :: s) ρ' ∧
          Sim c σ' ρ' ∧ ρ'.glb = ρ.glb) ∧
        (ev c true e σ = .stop → exec c.E m C s ρ = .stop) := by
  obtain ⟨C, fC, hC⟩ := (okX hc e).2 tf true c.Γ.n0 hw hi (le_refl _)
  refine ⟨C, fC.body, fun m s σ ρ hs => ?_⟩
  have h := hC m s σ ρ hs
  dsimp only at h
  constructor
  · intro v σ' e'
    rw [e'] at h
    obtain ⟨_, ρ', e1, s1, k1⟩ := h
    refine ⟨ρ', ?_, s1, k1.glb⟩
    rw [e1]
    dsimp only
    rw [stk_true int_scalar, tv, rep_bool]
  · intro e'
    rw [e'] at h
    exact h

/-- What is left of a name's value in a local. -/
def localAfter (r : Res) (x : Nat) : Option V :=
  match r with
  | .ok _ ρ => some (ρ.loc x)
  | _ => none

/-- The operands after code. -/
def stackAfter : Res → Option (List V)
  | .ok s _ => some s
  | _ => none

def isStuck : Res → Bool
  | .stuck => true
  | _ => false

/-- Runs the code of an expression. -/
def runX (c : Ctx) (need : Bool) (e : X) (ρ : St) : Option Res :=
  match nest (gen c.Γ need (trav c.Γ need e c.Γ.n0).1) with
  | some [(C, none)] => some (exec c.E 10 C [] ρ)
  | _ => none

/-! ## A function

`unsigned char k; int i; int *p; long long w; struct S *q;` in locals 0..4 (`q` points to 64 bytes), the base pointer in
local 5; `int a` at the base pointer, `char b` at 4 from it; `char g` at 1024; `int *r` in local 6. Temporaries follow. -/

def exFn : Fn where
  ty x := match x with
    | 0 => .fx ⟨0, true⟩ | 1 => .int | 2 => .ptr 4 | 3 => .fx ⟨4, false⟩ | 4 => .ptr 64
    | 5 => .int | 6 => .fx ⟨0, false⟩ | 7 => .fx ⟨0, false⟩ | 8 => .ptr 4 | _ => .int
  loc x := match x with
    | 5 => .frame 0 | 6 => .frame 4 | 7 => .data 1024 | _ => .reg
  ix x := if x < 5 then x else x + 1
  bpx := 5
  n0 := 9

def exCtx : Ctx where
  Γ := exFn
  bp := 512
  E := ⟨4096, fun _ => 1, fun _ vs m => some (vs, m)⟩

def exSt (v : Nat → V) (m : Nat → Nat) : St := ⟨fun x => if x = 5 then ⟨.i32, 512⟩ else v x, fun _ => ⟨.i32, 512⟩, m⟩

theorem exFn_ok : FnOk exCtx := by
  refine ⟨?_, ?_, ?_, ?_, ?_, by decide⟩
  · intro x y _ _ h
    simp only [exCtx, exFn] at h
    split at h <;> split at h <;> omega
  · intro x hx h
    simp only [exCtx, exFn] at h hx
    split at h <;> omega
  · intro x hx
    have hx : 9 ≤ x := hx
    simp only [exCtx, exFn]
    split <;> first | omega | rfl
  · intro x o h
    simp only [exCtx, exFn] at h
    split at h <;> simp_all <;> omega
  · intro x o h
    simp only [exCtx, exFn] at h
    split at h <;> simp_all <;> omega

/-- `i = (*p++ += 5) < w ? f(a) : (char)(g << 2)`, where `+=` has been rewritten by the front end:
`(r = p++, *r = *r + 5)`. -/
def exTree : X :=
  .asg (.var .int 1)
    (.tern .int
      (.rel .lt
        (.cast (.fx ⟨4, false⟩)
          (.comma (.asg (.var (.ptr 4) 8) (.inc true false (.var (.ptr 4) 2)))
            (.asg (.deref .int (.var (.ptr 4) 8)) (.bin .add .int (.deref .int (.var (.ptr 4) 8)) (.lit .int 5)))))
        (.var (.fx ⟨4, false⟩) 3))
      (.call .int 0 (.cons (.var .int 5) .nil))
      (.cast .int (.cast (.fx ⟨0, false⟩) (.bin .shl .int (.cast .int (.var (.fx ⟨0, false⟩) 7)) (.lit .int 2)))))

example : wt exCtx false exTree = true := by decide +kernel

def exState : State where
  env x := match x with | 0 => 200 | 1 => -1 | 2 => 516 | 3 => 4000000000 | 4 => 1024 | 8 => 0 | _ => 0
  mem a := match a with | 512 => 77 | 516 => 9 | 1024 => 100 | _ => 0

def exMach : St where
  loc i := if i = 5 then ⟨.i32, 512⟩ else
    let x := if i < 5 then i else i - 1
    rep (exFn.ty x) (exState.env x)
  glb _ := ⟨.i32, 512⟩
  mem := exState.mem

theorem exSim : Sim exCtx exState exMach := by
  refine ⟨fun x hx _ => ?_, rfl, rfl⟩
  have hx : x < 9 := hx
  unfold InR
  interval_cases x <;> decide

/-- Value, `i`, `p`, and the int at 516. -/
def seen : Ou Int → Option (Int × Int × Int × Nat)
  | .val v σ => some (v, σ.env 1, σ.env 2, rdB σ.mem 516 4)
  | _ => none

/-- The tree has a meaning: 9 + 5 < 4000000000, so `i` becomes what `f` makes of `a`; `p` moves on, `*p` is 14. -/
example : seen (ev exCtx false exTree exState) = some (77, 77, 520, 14) := by decide +kernel

example : (runX exCtx false exTree exMach).map (fun r => (stackAfter r, localAfter r 1, localAfter r 2)) =
    some (some [], some ⟨.i32, 77⟩, some ⟨.i32, 520⟩) := by decide +kernel

/-- A condition: `(i = f(a), p != 0) && (k < 10 || !(w <= 5))`. -/
def exCond : X :=
  .land (.comma (.asg (.var .int 1) (.call .int 0 (.cons (.var .int 5) .nil))) (.rel .ne (.var (.ptr 4) 2) (.lit (.ptr 0) 0)))
    (.lor (.rel .lt (.cast .int (.var (.fx ⟨0, true⟩) 0)) (.lit .int 10)) (.rel .gt (.var (.fx ⟨4, false⟩) 3) (.lit (.fx ⟨4, false⟩) 5)))

example : wt exCtx true exCond = true ∧ isCond exCond = true := by decide +kernel
example : seen (ev exCtx true exCond exState) = some (1, 77, 516, 9) := by decide +kernel

/-! ## What the compiler gets wrong -/

/-- gen_wasm.c:764: the step of `q++` is written as an unsigned number and read as a signed one.  A pointer to 64 bytes moves
backwards: 1024 becomes 960, not 1088. -/
theorem wasm_ptr_inc_backwards :
    (runX exCtx false (.inc true false (.var (.ptr 64) 4)) exMach).map (localAfter · 4) = some (some ⟨.i32, 960⟩) ∧
      (ev exCtx false (.inc true false (.var (.ptr 64) 4)) exState |> fun o => match o with | .val _ σ => some (σ.env 4) | _ => none) = some 1088 := by
  decide +kernel

/-- All steps from 64 to 127 are read wrong. -/
theorem wasm_imm_wrong : ∀ n, n < 64 → imm (64 + n) = (64 + n : Int) - 128 := by
  decide +kernel

/-- traverse.c:420-433: `++b`, `b` a `char` in memory that holds 127, has the value 128 (in `b` -128 is stored). -/
theorem wasm_char_preinc_wide :
    (runX exCtx true (.inc false false (.var (.fx ⟨0, false⟩) 6)) { exMach with mem := fun a => if a = 516 then 127 else 0 }).map stackAfter =
      some (some [⟨.i32, 128⟩]) := by
  decide +kernel

/-- traverse.c:420-433: `++b`, `b` a `_Bool` in memory that holds one, has the value 2 (and stores it), not one. -/
theorem wasm_bool_preinc_two :
    (runX { exCtx with Γ := { exFn with ty := fun x => if x = 6 then .bool else exFn.ty x } } true (.inc false false (.var .bool 6))
      { exMach with mem := fun a => if a = 516 then 1 else 0 }).map stackAfter = some (some [⟨.i32, 2⟩]) := by
  decide +kernel

/-- fe_misc.c:1594-1612, gen_wasm.c:670-675: `k <<= 1`, `k` an `unsigned char` in a local with the value 200, leaves 400 in `k`. -/
theorem wasm_narrow_shift_wide :
    (runX exCtx false (.asg (.var (.fx ⟨0, true⟩) 0) (.bin .shl (.fx ⟨0, true⟩) (.var (.fx ⟨0, true⟩) 0) (.lit .int 1))) exMach).map
      (localAfter · 0) = some (some ⟨.i32, 400⟩) := by
  decide +kernel

/-- traverse.c:363-364: the left side of an assignment is rewritten as if its value were not used.  `*(p = r) = 1;` is not
valid WebAssembly: the address is missing. -/
theorem wasm_assign_through_assignment_invalid :
    (runX exCtx false (.asg (.deref .int (.asg (.var (.ptr 4) 2) (.var (.ptr 4) 8))) (.lit .int 1)) exMach).map isStuck = some true := by
  decide +kernel

/-- traverse.c:396, :384-387: so is `(*(p = r))++;`. -/
theorem wasm_inc_through_assignment_invalid :
    (runX exCtx false (.inc true false (.deref .int (.asg (.var (.ptr 4) 2) (.var (.ptr 4) 8)))) exMach).map isStuck = some true := by
  decide +kernel

end Verif.WasmGen

import Verif.Wasm.StmtSwitch
/-!
# Statements compiled to WebAssembly (C73)

The claims of C73, a statement they apply to, and the statements the compiler gets wrong.
-/
namespace Verif.WasmGen
open Verif.Util Verif.CExpr Verif.Wasm
open Verif.Fold hiding Op Res

/-- The code did what the statement does: it is left at its end with no operands, or by a return with the value (the
branch out of the block of the body, `d` blocks out, or the instruction). -/
def Meets (c : Ctx) (K : Kind) (d : Nat) (ρ : St) (o : Fl) (r : Res) : Prop :=
  match o with
  | .go σ => ∃ ρ', r = .ok [] ρ' ∧ Sim c σ ρ' ∧ ρ'.glb = ρ.glb
  | .ret v σ => ∃ ρ', Sim c σ ρ' ∧ ρ'.glb = ρ.glb ∧ (K.rt ≠ .void → K.rt.scalar = true → InR K.rt v) ∧
      let vs := if K.rt = .void then [] else [rep K.rt v]
      r = if K.fr then .br (d - 1) vs ρ' else .ret vs ρ'
  | .stop => r = .stop
  | .time => r = .time
  | .ub => True
  | .brk _ => False
  | .cont _ => False

/-- C73: the code of a statement is complete WebAssembly; wherever C defines what the statement does, the code does it: the
same variables and memory, the same way out, the same value returned, and no result where the statement has none. -/
theorem stmt_code_partial {c : Ctx} (hc : FnOk c) {K : Kind} {d : Nat} (hd : K.fr = true → 1 ≤ d) {s : S}
    (hw : wtS c K false false false false s = true) :
    ∃ C, nest (genS c.Γ K false false d 0 0 (travS c.Γ s c.Γ.n0).1).1 = some [(C, none)] ∧
      (genS c.Γ K false false d 0 0 (travS c.Γ s c.Γ.n0).1).2 = d ∧
      ∀ m σ ρ, 0 < m → Sim c σ ρ → Meets c K d ρ (exS c m s σ) (exec c.E m C [] ρ) := by
  have hV : Lv.Ok ⟨K, false, false, false, d, 0, 0⟩ := ⟨(fun q => nomatch q), (fun q => nomatch q), hd⟩
  obtain ⟨C, fC, -, hD⟩ := (okS hc (m := 1) (by omega) s).code _ hV hw (le_refl _)
  refine ⟨C, fC.body, hD, fun m σ ρ hm hs => ?_⟩
  obtain ⟨C', fC', hC, -⟩ := (okS hc hm s).code _ hV hw (le_refl _)
  have e : C' = C := by
    have := fC.body.symm.trans fC'.body
    simp at this
    exact this.symm
  subst e
  have h := hC σ ρ hs
  unfold exS
  cases ho : run (acts c m s) σ with
  | go σ' =>
    rw [ho] at h
    obtain ⟨ρ', h1, h2, h3⟩ := h
    exact ⟨ρ', h1, h2, h3.glb⟩
  | brk σ' =>
    rw [ho] at h
    obtain ⟨ρ', h1, -⟩ := h
    exact absurd h1.1 (by simp)
  | cont σ' =>
    rw [ho] at h
    obtain ⟨ρ', h1, -⟩ := h
    exact absurd h1.1 (by simp)
  | ret v σ' =>
    rw [ho] at h
    obtain ⟨ρ', ⟨h0, h1⟩, h2, h3⟩ := h
    refine ⟨ρ', h2, h3.glb, fun _ q => h0 q, ?_⟩
    rcases h1 with h1 | h1
    · exact absurd h1.1 (by simp)
    · rw [h1]
      cases hv : K.rt <;> simp [retAt, stk, hv]
  | stop => rw [ho] at h; exact h
  | ub => trivial
  | time => rw [ho] at h; exact h

/-! ## A statement

`for (i = 0; i < 10; i++) { if (i == 3) continue; switch (i) { case 1: case 2: a = a + 1; break; default: if (a > 80) return a;
while (1) { k++; break; } case 7: a = a + 10; } }`, `a` in memory. -/

def vI : X := .var .int 1
def vA : X := .var .int 5
def vK : X := .var (.fx ⟨0, true⟩) 0
def lI (v : Int) : X := .lit .int v
def L.of : List S → L
  | [] => .nil
  | s :: l => .cons s (L.of l)

def exStmt : S :=
  .for_ (some (.asg vI (lI 0))) (some (.rel .lt vI (lI 10))) (some (.inc false false vI))
    (.block (L.of [
      .when (.rel .eq vI (lI 3)) .cont,
      .switch vI (.block (L.of [
        .case (some 1) (.case (some 2) (.expr (.asg vA (.bin .add .int vA (lI 1))))),
        .brk,
        .case none (.when (.rel .gt vA (lI 80)) (.ret (some vA))),
        .while_ (.lit .int 1) (.block (L.of [.expr (.inc true false vK), .brk])),
        .case (some 7) (.expr (.asg vA (.bin .add .int vA (lI 10))))]))]))

example : wtS exCtx ⟨true, .int⟩ false false false false exStmt = true := by decide +kernel

/-- What a statement returns, `k`, and `a`. -/
def seenS : Fl → Option (Int × Int × Nat)
  | .ret v σ => some (v, σ.env 0, rdB σ.mem 512 4)
  | .go σ => some (0, σ.env 0, rdB σ.mem 512 4)
  | _ => none

/-- `a` is 77: at 0 it becomes 87 and `k` 201, at 1 and 2 it becomes 88 and 89, 3 does nothing, at 4 it is returned. -/
example : seenS (exS exCtx 20 exStmt exState) = some (89, 201, 89) := by decide +kernel

/-- The operands a return or branch takes along. -/
def outOf : Res → Option (Nat × List V)
  | .br n s _ => some (n, s)
  | .ok s _ => some (0, s)
  | _ => none

/-- Runs the code of a statement. -/
def runS (c : Ctx) (K : Kind) (last : Bool) (s : S) (ρ : St) : Option Res :=
  match nest (genS c.Γ K last false 1 0 0 (travS c.Γ s c.Γ.n0).1).1 with
  | some [(C, none)] => some (exec c.E 20 C [] ρ)
  | _ => none

example : ((runS exCtx ⟨true, .int⟩ false exStmt exMach).map outOf) = some (some (0, [⟨.i32, 89⟩])) := by decide +kernel

/-! ## What the compiler gets wrong -/

def vW : X := .var (.fx ⟨4, false⟩) 3

def exSwitch64 : S :=
  .switch vW (.block (L.of [
    .case (some 0) (.expr (.asg vI (lI 100))), .brk,
    .case (some 1) (.expr (.asg vI (lI 101))), .brk,
    .case (some 2) (.expr (.asg vI (lI 102))), .brk,
    .case (some 3) (.expr (.asg vI (lI 103)))]))

/-- gen_wasm.c:1134-1142: a table of 64-bit labels is indexed by the lower half of the value.  4294967297 takes `case 1`,
though there is no label for it. -/
theorem wasm_switch64_wraps :
    ((runS exCtx ⟨true, .int⟩ false exSwitch64 { exMach with loc := fun i => if i = 3 then ⟨.i64, 4294967297⟩ else exMach.loc i }).map
        fun r => localAfter r 1) = some (some ⟨.i32, 101⟩) ∧
      (match exS exCtx 20 exSwitch64 { exState with env := fun x => if x = 3 then 4294967297 else exState.env x } with
        | .go σ => some (σ.env 1) | _ => none) = some (-1) := by
  decide +kernel

/-- gen_wasm.c:1220-1222: the label `0xFFFFFFFFu` is not written as a signed number of 32 bits: the code is malformed. -/
theorem wasm_switch_unsigned_label_malformed :
    (runS { exCtx with Γ := { exFn with ty := fun x => if x = 1 then .fx ⟨2, true⟩ else exFn.ty x } } ⟨true, .int⟩ false
      (.switch (.var (.fx ⟨2, true⟩) 1) (.case (some 4294967295) (.expr (.asg vK (.lit (.fx ⟨0, true⟩) 1))))) exMach).isNone = true := by
  decide +kernel

end Verif.WasmGen

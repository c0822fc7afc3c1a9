import Verif.Util.Align

/-!
# Parameter passing: caller and callee (C48), variadic arguments (C49)

`src/cc/backend/codegen_expr.c:347-477` (`gen_funcall`), `src/cc/backend/codegen.c:78-188`
(`alloc_variable_registers`, `enumerate_register_params`), `codegen.c:775-822`, `src/cc/builtin.c:137-285`
(`gen_builtin_va_start`), `include/stdarg.h`, `src/cc/arch/x64/emit_x64.c:129-140`,
`src/cc/arch/riscv64/emit_riscv64.c:36-64`.
-/
namespace Verif.CallConv
open Verif.Align

inductive Kind | int | flo | struct
deriving DecidableEq, Repr

/-- A parameter (or argument) type as far as it matters here. -/
structure Param where
  kind : Kind
  size : Nat
  align : Nat
deriving DecidableEq, Repr

/-- `MAX_REG_ARGS`, `MAX_FREG_ARGS` (arch_config.h), `VAARG_FP_AS_GP`, `VAARG_ON_STACK` (config.h:54-61). -/
structure Cfg where
  maxI : Nat
  maxF : Nat
  fpAsGp : Bool
  onStack : Bool

def x64 : Cfg := ⟨6, 8, false, false⟩
def aarch64 : Cfg := ⟨8, 8, false, false⟩
def aarch64Apple : Cfg := ⟨8, 8, false, true⟩
def riscv64 : Cfg := ⟨8, 8, true, false⟩

/-- Where a value is passed: integer register, floating point register, or offset in the argument area. -/
inductive Loc | ireg (n : Nat) | freg (n : Nat) | stack (off : Nat)
deriving DecidableEq, Repr

/-- codegen_expr.c:386-430: classification of the arguments, from the first to the last.  The flag tells whether the
argument belongs to the variable part.  (`offset` is an `int`; overflow is not modelled.) -/
def caller (c : Cfg) : List (Param × Bool) → Nat → Nat → Nat → List Loc × Nat
  | [], _, _, off => ([], off)
  | (p, ex) :: rest, i, f, off =>
    let isFlo := p.kind == .flo && !(c.fpAsGp && ex)
    let stackArg := p.kind == .struct || (c.onStack && ex)
    if stackArg || (if isFlo then decide (f ≥ c.maxF) else decide (i ≥ c.maxI)) then
      let off := alignUp off p.align
      let r := caller c rest i f (off + alignUp p.size 8)
      (.stack off :: r.1, r.2)
    else if isFlo then
      let r := caller c rest i (f + 1) off
      (.freg f :: r.1, r.2)
    else
      let r := caller c rest (i + 1) f off
      (.ireg i :: r.1, r.2)

/-- codegen_expr.c:384: `arg_start`. -/
def argStart (retStruct : Bool) : Nat := if retStruct then 1 else 0

/-- The call: locations of the arguments and `stack_args_size`. -/
def callArgs (c : Cfg) (retStruct : Bool) (named extra : List Param) : List Loc × Nat :=
  caller c (named.map (·, false) ++ extra.map (·, true)) (argStart retStruct) 0 0

def isIreg : Loc → Bool | .ireg _ => true | _ => false
def isFreg : Loc → Bool | .freg _ => true | _ => false

/-- codegen_expr.c:434-473: the arguments are evaluated from the last to the first; the register is recomputed from
the counts `nf`, `ni` of register arguments.  Result: where each value really goes, `fregarg`, `iregarg`. -/
def push (ni nf start : Nat) : List Loc → List Loc × Nat × Nat
  | [] => ([], 0, 0)
  | l :: ls =>
    let r := push ni nf start ls
    match l with
    | .freg _ => (.freg (nf - (r.2.1 + 1)) :: r.1, r.2.1 + 1, r.2.2)
    | .ireg _ => (.ireg (ni - (r.2.2 + 1) + start) :: r.1, r.2.1, r.2.2 + 1)
    | .stack o => (.stack o :: r.1, r.2.1, r.2.2)

/-- codegen_expr.c:386-473 together. -/
def pushed (c : Cfg) (retStruct : Bool) (named extra : List Param) : List Loc :=
  let locs := (callArgs c retStruct named extra).1
  (push (locs.countP isIreg) (locs.countP isFreg) (argStart retStruct) locs).1

/-- codegen.c:125-144: register number of each parameter; `none` = `VRF_STACK_PARAM` or a struct. -/
def allocRegs (c : Cfg) : List Param → Nat → Nat → List (Option Loc)
  | [], _, _ => []
  | p :: ps, i, f =>
    match p.kind with
    | .struct => none :: allocRegs c ps i f
    | .flo => if f < c.maxF then some (.freg f) :: allocRegs c ps i (f + 1) else none :: allocRegs c ps i f
    | .int => if i < c.maxI then some (.ireg i) :: allocRegs c ps (i + 1) f else none :: allocRegs c ps i f

/-- codegen.c:147-188: the register parameters found by `enumerate_register_params` (used by the prologue). -/
def enumRegs (c : Cfg) : List Param → Nat → Nat → List (Option Loc) × Nat × Nat
  | [], i, f => ([], i, f)
  | p :: ps, i, f =>
    if p.kind = .struct then
      let r := enumRegs c ps i f
      (none :: r.1, r.2)
    else if p.kind = .flo then
      if f < c.maxF then
        let r := enumRegs c ps i (f + 1)
        (some (.freg f) :: r.1, r.2)
      else
        let r := enumRegs c ps i f
        (none :: r.1, r.2)
    else if i < c.maxI then
      let r := enumRegs c ps (i + 1) f
      (some (.ireg i) :: r.1, r.2)
    else
      let r := enumRegs c ps i f
      (none :: r.1, r.2)

/-- codegen.c:806-822: frame offsets of the parameters that are not in registers. -/
def allocOffsets : List (Param × Option Loc) → Nat → List Loc
  | [], _ => []
  | (p, r) :: ps, po =>
    match p.kind, r with
    | .struct, _ =>
      let po := alignUp po p.align
      .stack po :: allocOffsets ps (po + alignUp p.size 8)
    | _, some l => l :: allocOffsets ps po
    | _, none =>
      let po := alignUp po 8
      .stack po :: allocOffsets ps (po + 8)

/-- Where the callee looks for its parameters; `base` is `calculate_func_param_bottom`, the frame offset at which it
believes the argument area to begin. -/
def calleeParams (c : Cfg) (retStruct : Bool) (base : Nat) (named : List Param) : List Loc :=
  allocOffsets (named.zip (allocRegs c named (argStart retStruct) 0)) base

/-! ## Specification -/

/-- The type sizes that exist (type.c:47-51, 186-210): scalars of 1, 2, 4 or 8 bytes, aggregates with alignment at
most 8. -/
def Param.WF (p : Param) : Prop :=
  p.align ∣ 8 ∧ (p.kind ≠ .struct → 1 ≤ p.size ∧ p.size ≤ 8)

/-- The argument area as seen from the callee. -/
def shift (base : Nat) : Loc → Loc
  | .stack o => .stack (base + o)
  | l => l

/-! ## Caller and callee -/

theorem alignUp_size (p : Param) (hp : p.WF) (h : p.kind ≠ .struct) : alignUp p.size 8 = 8 := by
  have := hp.2 h
  unfold alignUp
  omega

theorem align_pos (p : Param) (hp : p.WF) : 0 < p.align := Nat.pos_of_ne_zero fun h => by
  have := hp.1
  rw [h] at this
  exact absurd (Nat.eq_zero_of_zero_dvd this) (by omega)

theorem alignUp_8 (p : Param) (hp : p.WF) (off : Nat) (h : 8 ∣ off) : alignUp off p.align = off :=
  alignUp_of_dvd _ _ (align_pos p hp) (Nat.dvd_trans hp.1 h)

theorem dvd8_next (p : Param) (off : Nat) (h : 8 ∣ off) : 8 ∣ off + alignUp p.size 8 :=
  Nat.dvd_add h (dvd_alignUp _ _)

theorem agree_go (c : Cfg) (base : Nat) (hb : 8 ∣ base) (tail : List (Param × Bool)) (named : List Param) :
    ∀ (i f off : Nat), (∀ p ∈ named, p.WF) → 8 ∣ off →
      allocOffsets (named.zip (allocRegs c named i f)) (base + off) =
        ((caller c (named.map (·, false) ++ tail) i f off).1.take named.length).map (shift base) := by
  induction named with
  | nil => intro i f off _ _; rfl
  | cons p ps ih =>
    intro i f off hw ho
    have hp := hw p (by simp)
    have hw' : ∀ q ∈ ps, q.WF := fun q hq => hw q (by simp [hq])
    have hbo : 8 ∣ base + off := Nat.dvd_add hb ho
    have e1 := alignUp_8 p hp off ho
    have e2 := alignUp_8 p hp (base + off) hbo
    have e3 : alignUp (base + off) 8 = base + off := alignUp_of_dvd _ _ (by omega) hbo
    cases hk : p.kind with
    | struct =>
      have ih' := ih i f (off + alignUp p.size 8) hw' (dvd8_next p off ho)
      rw [← Nat.add_assoc] at ih'
      simp only [List.map_cons, List.cons_append, caller, allocRegs, hk, List.zip_cons_cons, allocOffsets, beq_self_eq_true,
        Bool.true_or, if_true, List.length_cons, List.take_succ_cons, e1, e2, shift, ih']
    | flo =>
      have e4 := alignUp_size p hp (by rw [hk]; decide)
      have hbeq : (Kind.flo == Kind.struct) = false := rfl
      by_cases hf : f < c.maxF
      · have ih' := ih i (f + 1) off hw' ho
        have : ¬ f ≥ c.maxF := by omega
        simp only [List.map_cons, List.cons_append, caller, allocRegs, hk, hf, List.zip_cons_cons, allocOffsets,
          beq_self_eq_true, Bool.and_false, Bool.not_false, Bool.and_true, Bool.or_false, hbeq, Bool.false_or, if_true, this,
          decide_false, Bool.false_eq_true, if_false, List.length_cons, List.take_succ_cons, shift, ih']
      · have ih' := ih i f (off + 8) hw' (Nat.dvd_add ho (Nat.dvd_refl 8))
        rw [← Nat.add_assoc] at ih'
        have : f ≥ c.maxF := by omega
        simp only [List.map_cons, List.cons_append, caller, allocRegs, hk, hf, List.zip_cons_cons, allocOffsets,
          beq_self_eq_true, Bool.and_false, Bool.not_false, Bool.and_true, Bool.or_false, hbeq, Bool.false_or, if_true, this,
          decide_true, if_false, List.length_cons, List.take_succ_cons, shift, e1, e3, e4, ih']
    | int =>
      have e4 := alignUp_size p hp (by rw [hk]; decide)
      have hbeq : (Kind.int == Kind.struct) = false := rfl
      have hbeq2 : (Kind.int == Kind.flo) = false := rfl
      by_cases hf : i < c.maxI
      · have ih' := ih (i + 1) f off hw' ho
        have : ¬ i ≥ c.maxI := by omega
        simp only [List.map_cons, List.cons_append, caller, allocRegs, hk, hf, List.zip_cons_cons, allocOffsets,
          Bool.and_false, hbeq2, Bool.false_and, Bool.or_false, hbeq, Bool.false_or, if_true, this,
          decide_false, Bool.false_eq_true, if_false, List.length_cons, List.take_succ_cons, List.map_cons, shift, ih']
      · have ih' := ih i f (off + 8) hw' (Nat.dvd_add ho (Nat.dvd_refl 8))
        rw [← Nat.add_assoc] at ih'
        have : i ≥ c.maxI := by omega
        simp only [List.map_cons, List.cons_append, caller, allocRegs, hk, hf, List.zip_cons_cons, allocOffsets,
          Bool.and_false, hbeq2, Bool.false_and, Bool.or_false, hbeq, Bool.false_or, if_true, this,
          decide_true, Bool.false_eq_true, if_false, List.length_cons, List.take_succ_cons, shift, e1, e3, e4, ih']

/-- **C48.** For every signature and every argument list, on every target: the callee looks for each named parameter
exactly where the caller has put it. -/
theorem caller_callee_agree (c : Cfg) (retStruct : Bool) (base : Nat) (named extra : List Param)
    (hb : 8 ∣ base) (hw : ∀ p ∈ named, p.WF) :
    calleeParams c retStruct base named =
      ((callArgs c retStruct named extra).1.take named.length).map (shift base) :=
  agree_go c base hb _ named (argStart retStruct) 0 0 hw ⟨0, rfl⟩

/-- Register numbers are handed out consecutively. -/
def Consec : Nat → Nat → List Loc → Prop
  | _, _, [] => True
  | i, f, .ireg n :: ls => n = i ∧ Consec (i + 1) f ls
  | i, f, .freg n :: ls => n = f ∧ Consec i (f + 1) ls
  | i, f, .stack _ :: ls => Consec i f ls

theorem caller_cases (c : Cfg) (p : Param) (ex : Bool) (rest : List (Param × Bool)) (i f off : Nat) :
    (caller c ((p, ex) :: rest) i f off =
        (.stack (alignUp off p.align) :: (caller c rest i f (alignUp off p.align + alignUp p.size 8)).1,
          (caller c rest i f (alignUp off p.align + alignUp p.size 8)).2)) ∨
      (caller c ((p, ex) :: rest) i f off = (.freg f :: (caller c rest i (f + 1) off).1, (caller c rest i (f + 1) off).2)) ∨
      (caller c ((p, ex) :: rest) i f off = (.ireg i :: (caller c rest (i + 1) f off).1, (caller c rest (i + 1) f off).2)) := by
  rw [caller]
  dsimp only
  generalize (p.kind == Kind.struct || c.onStack && ex ||
    if (p.kind == Kind.flo && !(c.fpAsGp && ex)) = true then decide (f ≥ c.maxF) else decide (i ≥ c.maxI)) = b
  generalize (p.kind == Kind.flo && !(c.fpAsGp && ex)) = d
  cases b <;> cases d <;> simp

theorem caller_consec (c : Cfg) (args : List (Param × Bool)) : ∀ i f off, Consec i f (caller c args i f off).1 := by
  induction args with
  | nil => intro i f off; trivial
  | cons a args ih =>
    obtain ⟨p, ex⟩ := a
    intro i f off
    rcases caller_cases c p ex args i f off with h | h | h <;> rw [h]
    · exact ih _ _ _
    · exact ⟨rfl, ih _ _ _⟩
    · exact ⟨rfl, ih _ _ _⟩

theorem push_eq (ni nf start : Nat) (ls : List Loc) : ∀ i f, Consec i f ls → start ≤ i →
    ni = (i - start) + ls.countP isIreg → nf = f + ls.countP isFreg →
    push ni nf start ls = (ls, ls.countP isFreg, ls.countP isIreg) := by
  induction ls with
  | nil => intro i f _ _ _ _; rfl
  | cons l ls ih =>
    intro i f hc hs hi hf
    cases l with
    | ireg n =>
      obtain ⟨rfl, hc⟩ := hc
      have e1 : (Loc.ireg n :: ls).countP isIreg = ls.countP isIreg + 1 := by simp [List.countP_cons, isIreg]
      have e2 : (Loc.ireg n :: ls).countP isFreg = ls.countP isFreg := by simp [List.countP_cons, isFreg]
      rw [e1] at hi ⊢
      rw [e2] at hf ⊢
      rw [push, ih (n + 1) f hc (by omega) (by omega) hf]
      dsimp only
      rw [show ni - (ls.countP isIreg + 1) + start = n by omega]
    | freg n =>
      obtain ⟨rfl, hc⟩ := hc
      have e1 : (Loc.freg n :: ls).countP isIreg = ls.countP isIreg := by simp [List.countP_cons, isIreg]
      have e2 : (Loc.freg n :: ls).countP isFreg = ls.countP isFreg + 1 := by simp [List.countP_cons, isFreg]
      rw [e1] at hi ⊢
      rw [e2] at hf ⊢
      rw [push, ih i (n + 1) hc hs hi (by omega)]
      dsimp only
      rw [show nf - (ls.countP isFreg + 1) = n by omega]
    | stack o =>
      have e1 : (Loc.stack o :: ls).countP isIreg = ls.countP isIreg := by simp [List.countP_cons, isIreg]
      have e2 : (Loc.stack o :: ls).countP isFreg = ls.countP isFreg := by simp [List.countP_cons, isFreg]
      rw [e1] at hi ⊢
      rw [e2] at hf ⊢
      rw [push, ih i f hc hs hi hf]

/-- **C48.** The backward evaluation recomputes the same registers as the forward classification. -/
theorem pushed_eq (c : Cfg) (retStruct : Bool) (named extra : List Param) :
    pushed c retStruct named extra = (callArgs c retStruct named extra).1 := by
  unfold pushed callArgs
  dsimp only
  rw [push_eq _ _ _ _ (argStart retStruct) 0 (caller_consec c _ _ _ _) (Nat.le_refl _) (by omega) (by omega)]

/-- **C48.** The prologue moves the same registers that register allocation has assigned. -/
theorem enum_eq_alloc (c : Cfg) (ps : List Param) : ∀ i f, (enumRegs c ps i f).1 = allocRegs c ps i f := by
  induction ps with
  | nil => intro i f; rfl
  | cons p ps ih =>
    intro i f
    rw [enumRegs, allocRegs]
    cases hk : p.kind with
    | struct => simp [ih]
    | flo =>
      by_cases hf : f < c.maxF
      · simp [hf, ih]
      · simp [hf, ih]
    | int =>
      by_cases hf : i < c.maxI
      · simp [hf, ih]
      · simp [hf, ih]

/-- Byte range of an argument passed in the argument area. -/
def InArea (args : List (Param × Bool)) (locs : List Loc) (k o s : Nat) : Prop :=
  locs[k]? = some (.stack o) ∧ (args[k]?).map (·.1.size) = some s

theorem caller_area (c : Cfg) (args : List (Param × Bool)) : ∀ i f off, (∀ a ∈ args, a.1.WF) →
    off ≤ (caller c args i f off).2 ∧
    ∀ k o s, InArea args (caller c args i f off).1 k o s → off ≤ o ∧ o + s ≤ (caller c args i f off).2 := by
  induction args with
  | nil => intro i f off _; exact ⟨Nat.le_refl _, fun k o s h => by simp [InArea] at h⟩
  | cons a args ih =>
    obtain ⟨p, ex⟩ := a
    intro i f off hw
    have hw' : ∀ b ∈ args, b.1.WF := fun b hb => hw b (by simp [hb])
    have hp := align_pos p (hw (p, ex) (by simp))
    have h1 := le_alignUp off p.align hp
    have h2 := le_alignUp p.size 8 (by omega)
    rcases caller_cases c p ex args i f off with h | h | h <;> rw [h] <;> dsimp only
    · obtain ⟨a1, a2⟩ := ih i f (alignUp off p.align + alignUp p.size 8) hw'
      refine ⟨by omega, ?_⟩
      intro k o s hk
      cases k with
      | zero =>
        obtain ⟨b1, b2⟩ := hk
        simp only [List.getElem?_cons_zero, Option.some.injEq, Loc.stack.injEq, Option.map_some] at b1 b2
        subst b1 b2
        omega
      | succ k =>
        have := a2 k o s (by simpa [InArea] using hk)
        omega
    · obtain ⟨a1, a2⟩ := ih i (f + 1) off hw'
      refine ⟨a1, ?_⟩
      intro k o s hk
      cases k with
      | zero => simp [InArea] at hk
      | succ k => exact a2 k o s (by simpa [InArea] using hk)
    · obtain ⟨a1, a2⟩ := ih (i + 1) f off hw'
      refine ⟨a1, ?_⟩
      intro k o s hk
      cases k with
      | zero => simp [InArea] at hk
      | succ k => exact a2 k o s (by simpa [InArea] using hk)

/-- **C48.** Arguments passed in memory do not overlap and stay inside the area reserved for the call. -/
theorem stack_args_disjoint (c : Cfg) (args : List (Param × Bool)) : ∀ i f off, (∀ a ∈ args, a.1.WF) →
    ∀ j k o s o' s', j < k → InArea args (caller c args i f off).1 j o s → InArea args (caller c args i f off).1 k o' s' →
      o + s ≤ o' ∧ o' + s' ≤ (caller c args i f off).2 := by
  induction args with
  | nil => intro i f off _ j k o s o' s' _ h; simp [InArea] at h
  | cons a args ih =>
    obtain ⟨p, ex⟩ := a
    intro i f off hw j k o s o' s' hjk hj hk
    have hw' : ∀ b ∈ args, b.1.WF := fun b hb => hw b (by simp [hb])
    have h2 := le_alignUp p.size 8 (by omega)
    cases k with
    | zero => omega
    | succ k =>
      rcases caller_cases c p ex args i f off with h | h | h <;> rw [h] at hj hk ⊢ <;> dsimp only at hj hk ⊢
      · have hk' : InArea args (caller c args i f (alignUp off p.align + alignUp p.size 8)).1 k o' s' := by
          simpa [InArea] using hk
        cases j with
        | zero =>
          obtain ⟨b1, b2⟩ := hj
          simp only [List.getElem?_cons_zero, Option.some.injEq, Loc.stack.injEq, Option.map_some] at b1 b2
          subst b1 b2
          have := (caller_area c args i f _ hw').2 k o' s' hk'
          omega
        | succ j => exact ih _ _ _ hw' j k o s o' s' (by omega) (by simpa [InArea] using hj) hk'
      · cases j with
        | zero => simp [InArea] at hj
        | succ j => exact ih _ _ _ hw' j k o s o' s' (by omega) (by simpa [InArea] using hj) (by simpa [InArea] using hk)
      · cases j with
        | zero => simp [InArea] at hj
        | succ j => exact ih _ _ _ hw' j k o s o' s' (by omega) (by simpa [InArea] using hj) (by simpa [InArea] using hk)

def pInt : Param := ⟨.int, 4, 4⟩
def pDbl : Param := ⟨.flo, 8, 8⟩
def pStruct : Param := ⟨.struct, 12, 4⟩

example : (∀ p ∈ [pInt, pStruct, pDbl], p.WF) ∧
    (callArgs x64 true [pInt, pStruct, pDbl, pInt, pInt, pInt, pInt, pInt, pStruct] []).1 =
      [.ireg 1, .stack 0, .freg 0, .ireg 2, .ireg 3, .ireg 4, .ireg 5, .stack 16, .stack 24] := by
  refine ⟨?_, by decide⟩
  simp only [List.mem_cons, List.not_mem_nil, or_false, forall_eq_or_imp, forall_eq, Param.WF]
  decide

/-! ## Variadic functions: x86-64 and AArch64 (`struct __va_elem`) -/

structure VaList where
  gp : Nat
  fp : Nat
  /-- overflow_arg_area relative to `vaarg_frame_info`, i.e. the beginning of the argument area -/
  ov : Nat

/-- builtin.c:229-284 `gen_builtin_va_start`. -/
def vaStart (c : Cfg) (named : List Param) : VaList :=
  let gn := named.countP (fun p => p.kind == .int)
  let fn := named.countP (fun p => p.kind == .flo)
  ⟨min gn c.maxI * 8, (c.maxI + min fn c.maxF) * 8, ((gn - c.maxI) + (fn - c.maxF)) * 8⟩

/-- An address produced by `va_arg`: offset in the register save area or in the argument area. -/
inductive Addr | save (off : Nat) | area (off : Nat)
deriving DecidableEq, Repr

/-- stdarg.h:60-74 `__va_arg_mem`, `__va_arg_gp`, `__va_arg_fp` and 83-90; alignments above 8 do not occur. -/
def vaArg (c : Cfg) (ap : VaList) (p : Param) : Addr × VaList :=
  let mem := (Addr.area ap.ov, { ap with ov := alignUp (ap.ov + p.size) 8 })
  match p.kind with
  | .flo => if ap.fp < c.maxI * 8 + c.maxF * 8 then (.save ap.fp, { ap with fp := ap.fp + 8 }) else mem
  | .int => if ap.gp < c.maxI * 8 then (.save ap.gp, { ap with gp := ap.gp + 8 }) else mem
  | .struct => mem

def vaArgs (c : Cfg) : VaList → List Param → List Addr
  | _, [] => []
  | ap, p :: ps => (vaArg c ap p).1 :: vaArgs c (vaArg c ap p).2 ps

/-- emit_x64.c:129-140: what the prologue has stored in the register save area; only registers from `ip` and `fp` on
are stored.  `none`: that slot is never written. -/
def saveArea (c : Cfg) (ip fp off : Nat) : Option Loc :=
  if off % 8 ≠ 0 then none
  else if off / 8 < c.maxI then (if ip ≤ off / 8 then some (.ireg (off / 8)) else none)
  else if off / 8 < c.maxI + c.maxF then (if fp ≤ off / 8 - c.maxI then some (.freg (off / 8 - c.maxI)) else none)
  else none

/-- The value found at an address: the register saved there or the place in the argument area. -/
def fetch (c : Cfg) (ip fp : Nat) : Addr → Option Loc
  | .save o => saveArea c ip fp o
  | .area o => some (.stack o)

/-- What a sequence of `va_arg` in a function with the given named parameters reads. -/
def vaRead (c : Cfg) (retStruct : Bool) (named extra : List Param) : List (Option Loc) :=
  let e := enumRegs c named (argStart retStruct) 0
  (vaArgs c (vaStart c named) extra).map (fetch c e.2.1 e.2.2)

theorem enum_counts (c : Cfg) (ps : List Param) : ∀ i f, i ≤ c.maxI → f ≤ c.maxF →
    (enumRegs c ps i f).2 = (min (i + ps.countP (fun p => p.kind == .int)) c.maxI,
      min (f + ps.countP (fun p => p.kind == .flo)) c.maxF) := by
  induction ps with
  | nil =>
    intro i f h1 h2
    show (i, f) = (min (i + 0) c.maxI, min (f + 0) c.maxF)
    rw [Nat.add_zero, Nat.add_zero, Nat.min_eq_left h1, Nat.min_eq_left h2]
  | cons p ps ih =>
    intro i f h1 h2
    rw [enumRegs]
    cases hk : p.kind with
    | struct =>
      have e1 : (p :: ps).countP (fun p => p.kind == .int) = ps.countP (fun p => p.kind == .int) := by
        rw [List.countP_cons, hk]; rfl
      have e2 : (p :: ps).countP (fun p => p.kind == .flo) = ps.countP (fun p => p.kind == .flo) := by
        rw [List.countP_cons, hk]; rfl
      rw [e1, e2]
      exact ih i f h1 h2
    | flo =>
      have e1 : (p :: ps).countP (fun p => p.kind == .int) = ps.countP (fun p => p.kind == .int) := by
        rw [List.countP_cons, hk]; rfl
      have e2 : (p :: ps).countP (fun p => p.kind == .flo) = ps.countP (fun p => p.kind == .flo) + 1 := by
        rw [List.countP_cons, hk]; rfl
      rw [e1, e2]
      by_cases hf : f < c.maxF
      · simp only [reduceCtorEq, if_false, if_true, hf]
        rw [ih i (f + 1) h1 (by omega)]
        congr 2; omega
      · simp only [reduceCtorEq, if_false, if_true, hf]
        rw [ih i f h1 h2]
        congr 1; omega
    | int =>
      have e1 : (p :: ps).countP (fun p => p.kind == .int) = ps.countP (fun p => p.kind == .int) + 1 := by
        rw [List.countP_cons, hk]; rfl
      have e2 : (p :: ps).countP (fun p => p.kind == .flo) = ps.countP (fun p => p.kind == .flo) := by
        rw [List.countP_cons, hk]; rfl
      rw [e1, e2]
      by_cases hf : i < c.maxI
      · simp only [reduceCtorEq, if_false, if_true, hf]
        rw [ih (i + 1) f (by omega) h2]
        congr 1; omega
      · simp only [reduceCtorEq, if_false, hf]
        rw [ih i f h1 h2]
        congr 1; omega

/-- The state of the caller's classification after the named parameters, when none of them is a struct. -/
theorem caller_append (c : Cfg) (tail : List (Param × Bool)) (named : List Param) : ∀ (i f off : Nat),
    (∀ p ∈ named, p.WF ∧ p.kind ≠ .struct) → i ≤ c.maxI → f ≤ c.maxF → 8 ∣ off →
    ((caller c (named.map (·, false) ++ tail) i f off).1.drop named.length) =
      (caller c tail (min (i + named.countP (fun p => p.kind == .int)) c.maxI)
        (min (f + named.countP (fun p => p.kind == .flo)) c.maxF)
        (off + ((i + named.countP (fun p => p.kind == .int) - c.maxI) +
          (f + named.countP (fun p => p.kind == .flo) - c.maxF)) * 8)).1 := by
  induction named with
  | nil =>
    intro i f off _ h1 h2 _
    simp only [List.map_nil, List.nil_append, List.length_nil, List.drop_zero, List.countP_nil, Nat.add_zero]
    rw [Nat.min_eq_left h1, Nat.min_eq_left h2, Nat.sub_eq_zero_of_le h1, Nat.sub_eq_zero_of_le h2, Nat.zero_mul, Nat.add_zero]
  | cons p ps ih =>
    intro i f off hw h1 h2 ho
    have hp := hw p (by simp)
    have hw' : ∀ q ∈ ps, q.WF ∧ q.kind ≠ .struct := fun q hq => hw q (by simp [hq])
    have e4 := alignUp_size p hp.1 hp.2
    have e0 := alignUp_8 p hp.1 off ho
    cases hk : p.kind with
    | struct => exact absurd hk hp.2
    | flo =>
      have e1 : (p :: ps).countP (fun p => p.kind == .int) = ps.countP (fun p => p.kind == .int) := by
        rw [List.countP_cons, hk]; rfl
      have e2 : (p :: ps).countP (fun p => p.kind == .flo) = ps.countP (fun p => p.kind == .flo) + 1 := by
        rw [List.countP_cons, hk]; rfl
      rw [e1, e2]
      have hbeq : (Kind.flo == Kind.struct) = false := rfl
      by_cases hf : f < c.maxF
      · have : ¬ f ≥ c.maxF := by omega
        simp only [List.map_cons, List.cons_append, caller, hk, 
          beq_self_eq_true, Bool.and_false, Bool.not_false, Bool.and_true, Bool.or_false, hbeq, Bool.false_or, if_true, this,
          decide_false, Bool.false_eq_true, if_false, List.length_cons, List.drop_succ_cons]
        rw [ih i (f + 1) off hw' h1 (by omega) ho]
        congr 2 <;> omega
      · have : f ≥ c.maxF := by omega
        simp only [List.map_cons, List.cons_append, caller, hk, 
          beq_self_eq_true, Bool.and_false, Bool.not_false, Bool.and_true, Bool.or_false, hbeq, Bool.false_or, if_true, this,
          decide_true, List.length_cons, List.drop_succ_cons, e0, e4]
        rw [ih i f (off + 8) hw' h1 h2 (Nat.dvd_add ho (Nat.dvd_refl 8))]
        congr 2 <;> omega
    | int =>
      have e1 : (p :: ps).countP (fun p => p.kind == .int) = ps.countP (fun p => p.kind == .int) + 1 := by
        rw [List.countP_cons, hk]; rfl
      have e2 : (p :: ps).countP (fun p => p.kind == .flo) = ps.countP (fun p => p.kind == .flo) := by
        rw [List.countP_cons, hk]; rfl
      rw [e1, e2]
      have hbeq : (Kind.int == Kind.struct) = false := rfl
      have hbeq2 : (Kind.int == Kind.flo) = false := rfl
      by_cases hf : i < c.maxI
      · have : ¬ i ≥ c.maxI := by omega
        simp only [List.map_cons, List.cons_append, caller, hk, hbeq2, Bool.false_and,
          Bool.and_false, Bool.or_false, hbeq, this,
          decide_false, Bool.false_eq_true, if_false, List.length_cons, List.drop_succ_cons]
        rw [ih (i + 1) f off hw' (by omega) h2 ho]
        congr 2 <;> omega
      · have : i ≥ c.maxI := by omega
        simp only [List.map_cons, List.cons_append, caller, hk, hbeq2, Bool.false_and,
          Bool.and_false, Bool.or_false, hbeq, this, Bool.false_or, if_true, Bool.false_eq_true, if_false,
          decide_true, List.length_cons, List.drop_succ_cons, e0, e4]
        rw [ih i f (off + 8) hw' h1 h2 (Nat.dvd_add ho (Nat.dvd_refl 8))]
        congr 2 <;> omega

theorem saveArea_i (c : Cfg) (ip fp i : Nat) (h1 : i < c.maxI) (h2 : ip ≤ i) : saveArea c ip fp (i * 8) = some (.ireg i) := by
  unfold saveArea
  rw [if_neg (by omega), Nat.mul_div_cancel _ (by omega), if_pos h1, if_pos h2]

theorem saveArea_f (c : Cfg) (ip fp f : Nat) (h1 : f < c.maxF) (h2 : fp ≤ f) :
    saveArea c ip fp ((c.maxI + f) * 8) = some (.freg f) := by
  unfold saveArea
  rw [if_neg (by omega), Nat.mul_div_cancel _ (by omega), if_neg (by omega), if_pos (by omega), Nat.add_sub_cancel_left,
    if_pos h2]

theorem va_go (c : Cfg) (hg : c.fpAsGp = false) (hs : c.onStack = false) (ip fp : Nat) (extra : List Param) :
    ∀ i f off, (∀ p ∈ extra, p.WF) → ip ≤ i → fp ≤ f → i ≤ c.maxI → f ≤ c.maxF → 8 ∣ off →
      (vaArgs c ⟨i * 8, (c.maxI + f) * 8, off⟩ extra).map (fetch c ip fp) =
        (caller c (extra.map (·, true)) i f off).1.map some := by
  induction extra with
  | nil => intro i f off _ _ _ _ _ _; rfl
  | cons p ps ih =>
    intro i f off hw h1 h2 h3 h4 ho
    have hp := hw p (by simp)
    have hw' : ∀ q ∈ ps, q.WF := fun q hq => hw q (by simp [hq])
    have e0 := alignUp_8 p hp off ho
    have eadd : alignUp (off + p.size) 8 = off + alignUp p.size 8 := by
      rw [Nat.add_comm, alignUp_add _ _ _ (by omega) ho, Nat.add_comm]
    have hn := dvd8_next p off ho
    rw [vaArgs, List.map_cons]
    cases hk : p.kind with
    | struct =>
      simp only [vaArg, hk, List.map_cons, fetch, caller, beq_self_eq_true, Bool.true_or, if_true, e0, eadd]
      rw [ih i f _ hw' h1 h2 h3 h4 hn]
    | flo =>
      have hbeq : (Kind.flo == Kind.struct) = false := rfl
      by_cases hf : f < c.maxF
      · have h5 : (c.maxI + f) * 8 < c.maxI * 8 + c.maxF * 8 := by omega
        have h6 : ¬ f ≥ c.maxF := by omega
        simp only [vaArg, hk, List.map_cons, caller, beq_self_eq_true, Bool.and_true, hg, hs, Bool.not_false, hbeq,
          Bool.or_false, Bool.false_or, if_true, if_false, h5, h6, decide_false, Bool.false_eq_true, fetch]
        rw [saveArea_f c ip fp f hf h2, show (c.maxI + f) * 8 + 8 = (c.maxI + (f + 1)) * 8 by omega,
          ih i (f + 1) off hw' h1 (by omega) h3 (by omega) ho]
      · have h5 : ¬ (c.maxI + f) * 8 < c.maxI * 8 + c.maxF * 8 := by omega
        have h6 : f ≥ c.maxF := by omega
        simp only [vaArg, hk, List.map_cons, caller, beq_self_eq_true, Bool.and_true, hg, hs, Bool.not_false, hbeq,
          Bool.or_false, Bool.false_or, if_true, if_false, h5, h6, decide_true, fetch, e0, eadd]
        rw [ih i f _ hw' h1 h2 h3 h4 hn]
    | int =>
      have hbeq : (Kind.int == Kind.struct) = false := rfl
      have hbeq2 : (Kind.int == Kind.flo) = false := rfl
      by_cases hf : i < c.maxI
      · have h5 : i * 8 < c.maxI * 8 := by omega
        have h6 : ¬ i ≥ c.maxI := by omega
        simp only [vaArg, hk, List.map_cons, caller, Bool.and_true, hs, hbeq, hbeq2, Bool.false_and,
          Bool.or_false, if_true, if_false, h5, h6, decide_false, Bool.false_eq_true, fetch]
        rw [saveArea_i c ip fp i hf h1, show i * 8 + 8 = (i + 1) * 8 by omega,
          ih (i + 1) f off hw' (by omega) h2 (by omega) h4 ho]
      · have h5 : ¬ i * 8 < c.maxI * 8 := by omega
        have h6 : i ≥ c.maxI := by omega
        simp only [vaArg, hk, List.map_cons, caller, Bool.and_true, hs, hbeq, hbeq2, Bool.false_and,
          Bool.or_false, Bool.or_true, List.map_cons, if_true, if_false, h5, h6, decide_true, Bool.false_eq_true, fetch, e0, eadd]
        rw [ih i f _ hw' h1 h2 h3 h4 hn]

/-- **C49**, partial.  On x86-64 and AArch64 (not Apple): in a variadic function that does not return a struct and has
no struct among its named parameters, the successive `va_arg` read exactly the arguments the caller passed, whatever
the numbers and types of the arguments are.  Missing: functions returning a struct and struct named parameters; there
the claim is false (`va_struct_return_wrong`, `va_struct_param_wrong`). -/
theorem va_args_partial (c : Cfg) (hg : c.fpAsGp = false) (hs : c.onStack = false) (named extra : List Param)
    (hn : ∀ p ∈ named, p.WF ∧ p.kind ≠ .struct) (he : ∀ p ∈ extra, p.WF) :
    vaRead c false named extra = ((callArgs c false named extra).1.drop named.length).map some := by
  unfold vaRead callArgs
  dsimp only
  rw [enum_counts c named (argStart false) 0 (Nat.zero_le _) (Nat.zero_le _),
    caller_append c _ named (argStart false) 0 0 hn (Nat.zero_le _) (Nat.zero_le _) ⟨0, rfl⟩]
  have e : argStart false = 0 := rfl
  simp only [e, Nat.zero_add]
  exact va_go c hg hs _ _ extra _ _ _ he (Nat.le_refl _) (Nat.le_refl _) (Nat.min_le_right _ _) (Nat.min_le_right _ _)
    ⟨_, Nat.mul_comm _ _⟩

example : vaRead x64 false [pInt, pDbl] [pInt, pDbl, pStruct, pInt, pInt, pInt, pInt, pInt] =
    [.ireg 1, .freg 1, .stack 0, .ireg 2, .ireg 3, .ireg 4, .ireg 5, .stack 16].map some := by decide

/-- `struct S f(int n, ...)`: the hidden return pointer is not counted by `va_start`; the first `va_arg` reads a slot
that is never written. -/
theorem va_struct_return_wrong :
    (callArgs x64 true [pInt] [pInt]).1.drop 1 = [.ireg 2] ∧ vaRead x64 true [pInt] [pInt] = [none] := by decide

/-- `f(struct S s, int n, ...)`: `va_start` does not skip the struct in the argument area. -/
theorem va_struct_param_wrong :
    (callArgs x64 false [pStruct, pInt] (List.replicate 6 pInt)).1.drop 2 =
      [.ireg 1, .ireg 2, .ireg 3, .ireg 4, .ireg 5, .stack 16] ∧
    vaRead x64 false [pStruct, pInt] (List.replicate 6 pInt) =
      [.ireg 1, .ireg 2, .ireg 3, .ireg 4, .ireg 5, .stack 0].map some := by decide

/-! ## Variadic functions: RISC-V (`void **`) -/

/-- emit_riscv64.c:41-61: the registers from `ip` on are stored directly below the argument area (after padding);
`slot k` is the 8-byte word number `k` counted from the first saved register. -/
def rvSlot (c : Cfg) (ip k : Nat) : Loc :=
  if k < c.maxI - ip then .ireg (ip + k) else .stack ((k - (c.maxI - ip)) * 8)

/-- builtin.c:161-202: the slot number `va_start` points at.  (`vaarg_frame_info.offset` is the bottom of the saved
area; the padding is skipped.) -/
def rvStart (c : Cfg) (named : List Param) : Nat :=
  let gn := named.countP (fun p => p.kind == .int)
  if gn ≥ c.maxI then gn - c.maxI else 0

/-- stdarg.h:22 `(*(type*)(ap)++)`: every `va_arg` advances by one word. -/
def rvRead (c : Cfg) (retStruct : Bool) (named extra : List Param) : List Loc :=
  let e := enumRegs c named (argStart retStruct) 0
  (List.range extra.length).map fun k => rvSlot c e.2.1 (rvStart c named + k)

theorem rv_go (c : Cfg) (hg : c.fpAsGp = true) (hs : c.onStack = false) (ip : Nat) (hip : ip ≤ c.maxI) (extra : List Param) :
    ∀ (i f off k : Nat), (∀ p ∈ extra, p.WF ∧ p.kind ≠ .struct) → i ≤ c.maxI →
      (i < c.maxI → off = 0 ∧ i = ip + k) → (i = c.maxI → off = (k - (c.maxI - ip)) * 8 ∧ c.maxI - ip ≤ k) →
      (List.range' k extra.length).map (rvSlot c ip) = (caller c (extra.map (·, true)) i f off).1 := by
  induction extra with
  | nil => intro i f off k _ _ _ _; rfl
  | cons p ps ih =>
    intro i f off k hw hi h1 h2
    have hp := hw p (by simp)
    have hw' : ∀ q ∈ ps, q.WF ∧ q.kind ≠ .struct := fun q hq => hw q (by simp [hq])
    have e4 := alignUp_size p hp.1 hp.2
    have hst : (p.kind == Kind.struct) = false := by simpa using hp.2
    rw [List.length_cons, List.range'_succ, List.map_cons, List.map_cons, caller]
    simp only [hg, hs, Bool.and_true, Bool.not_true, Bool.and_false, hst, Bool.or_false, Bool.false_or,
      Bool.false_eq_true, if_false]
    by_cases hlt : i < c.maxI
    · obtain ⟨ho, hik⟩ := h1 hlt
      rw [if_neg (by simpa using hlt)]
      have : rvSlot c ip k = .ireg i := by
        unfold rvSlot
        rw [if_pos (by omega), hik]
      dsimp only
      rw [this, ih (i + 1) f off (k + 1) hw' (by omega) (fun h => ⟨ho, by omega⟩) (fun h => ⟨by omega, by omega⟩)]
    · obtain ⟨ho, hik⟩ := h2 (by omega)
      rw [if_pos (by simp; omega)]
      have h8 : 8 ∣ off := by rw [ho]; exact ⟨_, Nat.mul_comm _ _⟩
      have e0 := alignUp_8 p hp.1 off h8
      have : rvSlot c ip k = .stack off := by
        unfold rvSlot
        rw [if_neg (by omega), ho]
      dsimp only
      rw [this, e0, e4, ih i f (off + 8) (k + 1) hw' hi (fun h => absurd h hlt) (fun h => ⟨by omega, by omega⟩)]

/-- **C49**, partial, RISC-V.  In a variadic function that does not return a struct, without structs among the named
parameters and with at most eight floating point named parameters, `va_arg` reads the variable arguments the caller
passed, provided none of these is a struct.  Missing: the remaining signatures; the claim is false there
(`rv_struct_arg_wrong`, `rv_flo_param_wrong`, `rv_struct_param_base_wrong`). -/
theorem rv_args_partial (c : Cfg) (hg : c.fpAsGp = true) (hs : c.onStack = false) (named extra : List Param)
    (hn : ∀ p ∈ named, p.WF ∧ p.kind ≠ .struct) (hf : named.countP (fun p => p.kind == .flo) ≤ c.maxF)
    (he : ∀ p ∈ extra, p.WF ∧ p.kind ≠ .struct) :
    rvRead c false named extra = (callArgs c false named extra).1.drop named.length := by
  unfold rvRead callArgs
  dsimp only
  rw [enum_counts c named (argStart false) 0 (Nat.zero_le _) (Nat.zero_le _),
    caller_append c _ named (argStart false) 0 0 hn (Nat.zero_le _) (Nat.zero_le _) ⟨0, rfl⟩]
  have e : argStart false = 0 := rfl
  simp only [e, Nat.zero_add]
  rw [← rv_go c hg hs (min (named.countP (fun p => p.kind == .int)) c.maxI) (Nat.min_le_right _ _) extra _ _ _
    (rvStart c named) he (Nat.min_le_right _ _) ?_ ?_]
  · apply List.ext_getElem
    · simp
    · intro n h1 h2
      simp
  · intro h
    unfold rvStart
    dsimp only
    rw [if_neg (by omega)]
    omega
  · intro h
    unfold rvStart
    dsimp only
    rw [if_pos (by omega)]
    omega

example : rvRead riscv64 false [pInt, pDbl] [pDbl, pInt, pInt, pInt, pInt, pInt, pInt, pInt, pDbl] =
    [.ireg 1, .ireg 2, .ireg 3, .ireg 4, .ireg 5, .ireg 6, .ireg 7, .stack 0, .stack 8] := by decide

/-- A struct in the variable part is passed in memory but read from the next word. -/
theorem rv_struct_arg_wrong :
    (callArgs riscv64 false [pInt] [pStruct]).1.drop 1 = [.stack 0] ∧ rvRead riscv64 false [pInt] [pStruct] = [.ireg 1] := by
  decide

/-- A ninth floating point named parameter is passed in memory; with all integer registers used by named parameters
`va_start` does not skip it. -/
theorem rv_flo_param_wrong :
    (callArgs riscv64 false (List.replicate 8 pInt ++ List.replicate 9 pDbl) [pInt]).1.drop 17 = [.stack 8] ∧
      rvRead riscv64 false (List.replicate 8 pInt ++ List.replicate 9 pDbl) [pInt] = [.stack 0] := by decide

/-- emit_riscv64.c:205-235, ir_riscv64.c:127-138: distance from the frame pointer to the argument area in a variadic
function: the saved registers are in between, but `calculate_func_param_bottom` ignores them. -/
def rvAreaFromFp (bottom maxI ip : Nat) : Nat := bottom + alignUp (maxI - ip) 2 * 8

/-- A struct named parameter of a variadic function is looked for among the saved registers. -/
theorem rv_struct_param_base_wrong :
    calleeParams riscv64 false 16 [pStruct, pInt] = [.stack 16, .ireg 0] ∧
      (callArgs riscv64 false [pStruct, pInt] []).1.map (shift (rvAreaFromFp 16 8 1)) = [.stack 80, .ireg 0] := by decide

end Verif.CallConv

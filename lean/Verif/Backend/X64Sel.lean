import Verif.Backend.X64Isa
/-
Instruction selection for x86-64 (C65): what the integer `ei_*` functions of /repo/src/cc/arch/x64/ir_x64.c emit
calculates what the IR instruction means.

Simplifications: floating-point registers, calls, jump tables, labels and inline assembly are left out.  The text
`mov %eax, %ecx` is the instruction `.mov`; that the assembler turns it into the right bytes is X64Enc.
-/
namespace Verif.X64Sel
open Verif.Util Verif.X64

/-! ## The IR instructions after register allocation -/

/-- `VReg` with the fields used here: `phys` and `vsize` (src/cc/backend/ir.h:56-76). -/
structure V where
  p : Nat
  z : Sz
deriving DecidableEq, Repr

/-- An operand: a register, or `VRF_CONST` with `fixnum`. -/
inductive Opr where
  | reg (v : V)
  | const (c : Int) (z : Sz)
deriving DecidableEq, Repr

def Opr.z : Opr → Sz
  | .reg v => v.z
  | .const _ z => z

inductive Bop where
  | add | sub | mul | div | mod | and | or | xor | shl | shr
deriving DecidableEq, Repr

/-- `enum IrKind` (src/cc/backend/ir.h:20-60), the instructions on integers.  `u` is `IRF_UNSIGNED`.  `loads` and
`stores` are `IR_LOAD_S` and `IR_STORE_S`, with the frame offset of the spilled register. -/
inductive Ir where
  | bop (o : Bop) (u : Bool) (dst : V) (o1 o2 : Opr)
  | neg (dst : V) (o1 : V)
  | bitnot (dst : V) (o1 : V)
  | cast (u : Bool) (dst : V) (o1 : V)
  | mov (dst : V) (o1 : Opr)
  | cond (c : Nat) (dst : V) (o1 : V) (o2 : Opr)
  | bofs (dst : V) (ofs : Int)
  | sofs (dst : V) (ofs : Int)
  | load (dst : V) (a : Opr)
  | loads (dst : V) (ofs : Int)
  | store (v : Opr) (a : Opr)
  | stores (v : Opr) (ofs : Int)
  | result (v : Opr)
  | keep
deriving DecidableEq, Repr

/-! ## The code -/

/-- `kRegSizeTable`, src/cc/arch/x64/ir_x64.c:17-22, as hardware numbers. -/
def hw (p : Nat) : Nat := [0, 7, 6, 2, 1, 8, 9, 3, 12, 13, 14, 15, 5, 10, 11].getD p 0

/-- `kRegSizeTable[z][p]`. -/
def rg (z : Sz) (p : Nat) : Rg := { z := z, n := hw p }

def spReg : Nat := 4
def bpReg : Nat := 5

/-- `OFFSET_INDIRECT(ofs, base, NULL, 1)`. -/
def atReg (n : Nat) (ofs : Int) : Mem := { base := some n, disp := ofs }
/-- A constant address. -/
def atAbs (c : Int) : Mem := { base := none, disp := c }

/-- The common shape of `ei_bitand`, `ei_bitor`, `ei_bitxor` and of the last lines of `ei_add`, `ei_sub`. -/
def emitAlu (o : Alu) (d : V) : Opr → Ins
  | .const c _ => .aluI o c (rg d.z d.p)
  | .reg v => .alu o (rg d.z v.p) (rg d.z d.p)

/-- `ei_add`, src/cc/arch/x64/ir_x64.c:313-344. -/
def emitAdd (d : V) (o2 : Opr) : List Ins :=
  match o2 with
  | .const c _ =>
    if c = 0 then [] else if c = 1 then [.un .inc (rg d.z d.p)] else if c = -1 then [.un .dec (rg d.z d.p)]
    else [emitAlu .add d o2]
  | .reg _ => [emitAlu .add d o2]

/-- `ei_sub`, src/cc/arch/x64/ir_x64.c:346-377. -/
def emitSub (d : V) (o2 : Opr) : List Ins :=
  match o2 with
  | .const c _ =>
    if c = 0 then [] else if c = 1 then [.un .dec (rg d.z d.p)] else if c = -1 then [.un .inc (rg d.z d.p)]
    else [emitAlu .sub d o2]
  | .reg _ => [emitAlu .sub d o2]

/-- `if (a != b) MOV(regs[a], regs[b]);` -/
def movIf (z : Sz) (a b : Nat) : List Ins := if a ≠ b then [.mov (rg z a) (rg z b)] else []

/-- `GET_AREG_INDEX`, `GET_CREG_INDEX`, `GET_DREG_INDEX`, src/cc/arch/x64/ir_x64.c:26-28. -/
def aI : Nat := 0
def cI : Nat := 4
def dI : Nat := 3

/-- `ei_mul`, src/cc/arch/x64/ir_x64.c:379-402. -/
def emitMul (d : V) (o2 : V) : Option (List Ins) :=
  if o2.p = aI then none
  else some (movIf d.z d.p aI ++ [.md .mul (rg d.z o2.p)] ++ movIf d.z aI d.p)

/-- The sign or zero extension in front of a division: `none` is the failed assertion. -/
def extend (u : Bool) (z : Sz) : Option (List Ins) :=
  match z, u with
  | .b, _ => none
  | .w, false => some [.cwtl]
  | .l, false => some [.cltd]
  | .q, false => some [.cqto]
  | .w, true => some [.alu .xor (rg .w dI) (rg .w dI)]
  | .l, true => some [.alu .xor (rg .l dI) (rg .l dI)]
  | .q, true => some [.alu .xor (rg .l dI) (rg .l dI)]

def divIns (u : Bool) : MulDiv := if u then .div else .idiv

/-- The 8-bit path of `ei_div` and `ei_mod`: `%ax` is set only when the operand is not in `%al` already. -/
def emitDiv8 (u : Bool) (d o2 : V) : List Ins :=
  (if d.p ≠ aI then [Ins.movx (!u) (rg .b d.p) (rg .w aI)] else []) ++ [.md (divIns u) (rg .b o2.p)]

/-- `ei_div`, src/cc/arch/x64/ir_x64.c:404-462. -/
def emitDiv (u : Bool) (d o2 : V) : Option (List Ins) :=
  if o2.p = aI then none
  else if d.z = .b then some (emitDiv8 u d o2 ++ movIf .b aI d.p)
  else (extend u d.z).map fun e => movIf d.z d.p aI ++ e ++ [.md (divIns u) (rg d.z o2.p)] ++ movIf d.z aI d.p

/-- `ei_mod`, src/cc/arch/x64/ir_x64.c:464-517.  The 8-bit path is guarded by `vsize == 1`, which is a 16-bit
operand. -/
def emitMod (u : Bool) (d o2 : V) : Option (List Ins) :=
  if o2.p = aI then none
  else if d.z = .w then some (emitDiv8 u d o2 ++ [.mov rah (rg .b aI)] ++ movIf .b aI d.p)
  else (extend u d.z).map fun e => movIf d.z d.p aI ++ e ++ [.md (divIns u) (rg d.z o2.p)] ++ movIf d.z dI d.p

/-- `ei_lshift`, `ei_rshift`, src/cc/arch/x64/ir_x64.c:555-594. -/
def emitShift (o : Sh) (d : V) : Opr → Option (List Ins)
  | .const c _ => some [.shI o (c % 256).toNat (rg d.z d.p)]
  | .reg v =>
    if v.p = cI ∨ d.p = cI then none
    else some [.mov (rg .b v.p) (rg .b cI), .sh o (rg d.z d.p)]

/-- The integer binary operators; `none` is a failed assertion (the first operand is a constant or another register
than the destination, the second operand of `ei_mul`, `ei_div`, `ei_mod` is a constant). -/
def emitBop (o : Bop) (u : Bool) (d : V) (o1 o2 : Opr) : Option (List Ins) :=
  match o1 with
  | .const _ _ => none
  | .reg v1 =>
    if d.p ≠ v1.p then none
    else
      match o, o2 with
      | .add, _ => some (emitAdd d o2)
      | .sub, _ => some (emitSub d o2)
      | .and, _ => some [emitAlu .and d o2]
      | .or, _ => some [emitAlu .or d o2]
      | .xor, _ => some [emitAlu .xor d o2]
      | .shl, _ => emitShift .shl d o2
      | .shr, _ => emitShift (if u then .shr else .sar) d o2
      | .mul, .reg v2 => emitMul d v2
      | .div, .reg v2 => emitDiv u d v2
      | .mod, .reg v2 => emitMod u d v2
      | _, _ => none

/-- The integer part of `ei_cast`, src/cc/arch/x64/ir_x64.c:714-743. -/
def emitCast (u : Bool) (d o1 : V) : Option (List Ins) :=
  if d.z = o1.z then none
  else if d.z.bits < o1.z.bits then some (movIf d.z o1.p d.p)
  else if u then
    if o1.z = .l then some [.mov (rg o1.z o1.p) (rg o1.z d.p)] else some [.movx false (rg o1.z o1.p) (rg d.z d.p)]
  else some [.movx true (rg o1.z o1.p) (rg d.z d.p)]

/-- `emit_mov`, src/cc/arch/x64/ir_x64.c:747-768. -/
def emitMov (dp : Nat) : Opr → List Ins
  | .const c z => [.movI c (rg z dp)]
  | .reg v => movIf v.z v.p dp

/-- The integer part of `cmp_vregs`, src/cc/arch/x64/ir_x64.c:216-230. -/
def emitCmp (o1 : V) : Opr → Ins
  | .const c _ => if c = 0 then .test (rg o1.z o1.p) (rg o1.z o1.p) else .aluI .cmp c (rg o1.z o1.p)
  | .reg v => .alu .cmp (rg o1.z v.p) (rg o1.z o1.p)

/-- The condition number of SETcc (`SETE` ...) for a condition of the IR: the switch of `ei_cond`,
src/cc/arch/x64/ir_x64.c:829-846. -/
def ccOf (cond : Nat) : Option Nat :=
  if cond = 2 + 8 ∨ cond = 2 then some 4
  else if cond = 3 + 8 ∨ cond = 3 then some 5
  else if cond = 4 then some 12
  else if cond = 7 then some 15
  else if cond = 5 then some 14
  else if cond = 6 then some 13
  else if cond = 4 + 8 then some 2
  else if cond = 7 + 8 then some 7
  else if cond = 5 + 8 then some 6
  else if cond = 6 + 8 then some 3
  else none

/-- The integer part of `ei_cond`, src/cc/arch/x64/ir_x64.c:789-849. -/
def emitCond (c : Nat) (d o1 : V) (o2 : Opr) : Option (List Ins) :=
  (ccOf c).map fun cc => [emitCmp o1 o2, .set cc (rg .b d.p), .movx true (rg .b d.p) (rg .l d.p)]

/-- The address operand of `ei_load` and `ei_store`. -/
def addrOf : Opr → Mem
  | .const c _ => atAbs c
  | .reg v => atReg (hw v.p) 0

/-- The value operand of `ei_store`. -/
def emitStore (v : Opr) (m : Mem) : Ins :=
  match v with
  | .const c z => .storeI z c m
  | .reg x => .store (rg x.z x.p) m

/-- `kEmitIrFuncTable`, src/cc/arch/x64/ir_x64.c:1046-1063; `ei_bofs` :233-236, `ei_sofs` :250-253, `ei_load`
:256-283, `ei_store` :286-311, `ei_neg` :634-639, `ei_bitnot` :643-650, `ei_mov` :770-772, `ei_result` :774-777. -/
def emit : Ir → Option (List Ins)
  | .bop o u d o1 o2 => emitBop o u d o1 o2
  | .neg d o1 => if d.p = o1.p then some [.un .neg (rg d.z d.p)] else none
  | .bitnot d o1 => if d.p = o1.p then some [.un .not (rg d.z d.p)] else none
  | .cast u d o1 => emitCast u d o1
  | .mov d o1 => some (emitMov d.p o1)
  | .cond c d o1 o2 => emitCond c d o1 o2
  | .bofs d ofs => some [.lea (atReg bpReg ofs) (rg .q d.p)]
  | .sofs d ofs => some [.lea (atReg spReg ofs) (rg .q d.p)]
  | .load d a => some [.load (addrOf a) (rg d.z d.p)]
  | .loads d ofs => some [.load (atReg bpReg ofs) (rg d.z d.p)]
  | .store v a => some [emitStore v (addrOf a)]
  | .stores v ofs => some [emitStore v (atReg bpReg ofs)]
  | .result v => some (emitMov aI v)
  | .keep => some []

/-- `detect_extra_occupied`, src/cc/arch/x64/ir_x64.c:54-79: the registers an instruction may change besides its
destination.  `IR_RESULT` is not mentioned there; it leaves its value in `%rax`. -/
def clobbers : Ir → Nat → Bool
  | .bop o _ _ _ o2, p =>
    match o with
    | .mul | .div | .mod => p == dI || p == aI
    | .shl | .shr => (match o2 with | .reg _ => p == cI | .const _ _ => false)
    | _ => false
  | .result _, p => p == aI
  | _, _ => false

/-! ## Specification: the meaning of IR instructions -/

/-- Registers hold values of a size, or something unknown. -/
abbrev Env := Nat → Option (Sz × Nat)

def Env.set (ρ : Env) (d : V) (v : Nat) : Env := fun p => if p = d.p then some (d.z, v) else ρ p

/-- `sp` and `bp` are the addresses the frame is reached by. -/
structure Mach where
  ρ : Env
  sp : Nat
  bp : Nat
  mem : Nat → Nat
  res : Option (Sz × Nat)

def val (ρ : Env) : Opr → Option Nat
  | .const c z => some (imm z c)
  | .reg v => match ρ v.p with
    | some (z, x) => if z = v.z then some x else none
    | none => none

/-- The C operators on `w`-bit operands; `none` is undefined behaviour.  C shifts `char` and `short` after promotion, so
counts below 32 are always defined. -/
def opSem (o : Bop) (u : Bool) (w : Nat) (a b : Nat) : Option Nat :=
  match o with
  | .add => some ((toU w ((a : Int) + b)).toNat)
  | .sub => some ((toU w ((a : Int) - b)).toNat)
  | .mul => some ((toU w ((a : Int) * b)).toNat)
  | .and => some (a &&& b)
  | .or => some (a ||| b)
  | .xor => some (a ^^^ b)
  | .shl => if b < max w 32 then some ((toU w ((a : Int) * 2 ^ b)).toNat) else none
  | .shr => if b < max w 32 then some (if u then a / 2 ^ b else (toU w (toS w a / 2 ^ b)).toNat) else none
  | .div =>
    if b = 0 then none
    else if u then some (a / b)
    else if toS w a = -2 ^ (w - 1) ∧ toS w b = -1 then none
    else some (toU w ((toS w a).tdiv (toS w b))).toNat
  | .mod =>
    if b = 0 then none
    else if u then some (a % b)
    else if toS w a = -2 ^ (w - 1) ∧ toS w b = -1 then none
    else some (toU w ((toS w a).tmod (toS w b))).toNat

/-- Forget the registers an instruction may change. -/
def Env.forget (ρ : Env) (f : Nat → Bool) : Env := fun p => if f p then none else ρ p

/-- The result register keeps the result only as long as no other register is written. -/
def Mach.put (m : Mach) (f : Nat → Bool) (d : V) (v : Nat) : Mach :=
  { m with ρ := (m.ρ.forget f).set d v, res := none }

/-- One instruction; `none` is undefined behaviour (or an ill-typed instruction). -/
def step (f : Nat → Bool) (i : Ir) (m : Mach) : Option Mach :=
  match i with
  | .bop o u d o1 o2 =>
    match val m.ρ o1, val m.ρ o2 with
    | some a, some b =>
      if o1.z = d.z ∧ (o = .shl ∨ o = .shr ∨ o2.z = d.z) then (opSem o u d.z.bits a b).map (m.put f d) else none
    | _, _ => none
  | .neg d o1 =>
    match val m.ρ (.reg o1) with
    | some a => if o1.z = d.z then some (m.put f d (toU d.z.bits (-a)).toNat) else none
    | none => none
  | .bitnot d o1 =>
    match val m.ρ (.reg o1) with
    | some a => if o1.z = d.z then some (m.put f d (2 ^ d.z.bits - 1 - a)) else none
    | none => none
  | .cast u d o1 =>
    (val m.ρ (.reg o1)).map fun a => m.put f d (toU d.z.bits (if u then (a : Int) else toS o1.z.bits a)).toNat
  | .mov d o1 =>
    match val m.ρ o1 with
    | some a => if o1.z = d.z then some (m.put f d a) else none
    | none => none
  | .cond c d o1 o2 =>
    match val m.ρ (.reg o1), val m.ρ o2 with
    | some a, some b =>
      if o2.z = o1.z ∧ d.z = .l then
        some (m.put f d (if Cond.holds c (Cond.cmpW o1.z.bits c a b) then 1 else 0))
      else none
    | _, _ => none
  | .bofs d ofs => if d.z = .q then some (m.put f d (toU 64 (m.bp + ofs)).toNat) else none
  | .sofs d ofs => if d.z = .q then some (m.put f d (toU 64 (m.sp + ofs)).toNat) else none
  | .load d a =>
    match val m.ρ a with
    | some x => if a.z = .q then some (m.put f d (rdM m.mem x d.z.bytes)) else none
    | none => none
  | .loads d ofs => some (m.put f d (rdM m.mem (toU 64 (m.bp + ofs)).toNat d.z.bytes))
  | .store v a =>
    match val m.ρ v, val m.ρ a with
    | some y, some x => if a.z = .q then some { m with mem := wrM m.mem x v.z.bytes y } else none
    | _, _ => none
  | .stores v ofs =>
    (val m.ρ v).map fun y => { m with mem := wrM m.mem (toU 64 (m.bp + ofs)).toNat v.z.bytes y }
  | .result v => (val m.ρ v).map fun y => { m with ρ := m.ρ.forget f, res := some (v.z, y) }
  | .keep => some m

/-! ## Correctness -/

/-- The machine holds what the registers of the IR hold.  `frame` is `RAF_STACK_FRAME`: `%rbp` is the frame pointer
and no register is assigned to it. -/
structure Rel (frame : Bool) (m : Mach) (s : St) : Prop where
  regs : ∀ (p : Nat) (z : Sz) (v : Nat), p < 15 → m.ρ p = some (z, v) → rdR (rg z p) s = v
  sp : s.r spReg = m.sp
  bp : frame = true → s.r bpReg = m.bp
  mem : s.mem = m.mem
  res : ∀ (z : Sz) (v : Nat), m.res = some (z, v) → rdR (rg z aI) s = v

def Opr.lt : Opr → Prop
  | .reg v => v.p < 15
  | .const _ _ => True

/-- A register that may be written. -/
def DstOk (frame : Bool) (d : V) : Prop := d.p < 15 ∧ (frame = true → d.p ≠ 12)

/-- What register allocation guarantees: registers exist, the frame pointer is not assigned, and the second operand
of a division, which is alive together with the registers `detect_extra_occupied` reserves, is not in `%rdx`.
Divisions are 32 or 64 bits wide; C promotes smaller operands. -/
def Ok (frame : Bool) : Ir → Prop
  | .bop o _ d o1 o2 => DstOk frame d ∧ o1.lt ∧ o2.lt ∧
      ((o = .div ∨ o = .mod) → (∀ v, o2 = .reg v → v.p ≠ dI) ∧ (d.z = .l ∨ d.z = .q))
  | .neg d o1 => DstOk frame d ∧ o1.p < 15
  | .bitnot d o1 => DstOk frame d ∧ o1.p < 15
  | .cast _ d o1 => DstOk frame d ∧ o1.p < 15
  | .mov d o1 => DstOk frame d ∧ o1.lt
  | .cond _ d o1 o2 => DstOk frame d ∧ o1.p < 15 ∧ o2.lt
  | .bofs d _ => DstOk frame d ∧ frame = true
  | .sofs d _ => DstOk frame d
  | .load d a => DstOk frame d ∧ a.lt
  | .loads d _ => DstOk frame d ∧ frame = true
  | .store v a => v.lt ∧ a.lt
  | .stores v _ => v.lt ∧ frame = true
  | .result v => v.lt
  | .keep => True

theorem hw_inj : ∀ p, p < 15 → ∀ q, q < 15 → hw p = hw q → p = q := by decide

theorem hw_ne_sp : ∀ p, p < 15 → hw p ≠ 4 := by decide

theorem hw_bp : ∀ p, p < 15 → hw p = 5 → p = 12 := by decide

theorem hw_ne {p q : Nat} (hp : p < 15) (hq : q < 15) (h : p ≠ q) : hw p ≠ hw q := fun e => h (hw_inj p hp q hq e)

theorem rd_wr_same (z : Sz) (n v : Nat) (s : St) : rdR { z := z, n := n } (wrR { z := z, n := n } v s) = v % 2 ^ z.bits := by
  cases z <;> simp only [rdR, wrR, merge, Sz.bits, Bool.false_eq_true, if_false, if_true] <;> omega

theorem rd_wr_ne (g h : Rg) (v : Nat) (s : St) (hn : g.n ≠ h.n) : rdR g (wrR h v s) = rdR g s := by
  simp only [rdR, wrR, if_neg hn]

theorem wr_ne (h : Rg) (v : Nat) (s : St) (n : Nat) (hn : n ≠ h.n) : (wrR h v s).r n = s.r n := by
  simp only [wrR, if_neg hn]

theorem rd_congr {g : Rg} {s t : St} (h : t.r g.n = s.r g.n) : rdR g t = rdR g s := by
  simp only [rdR, h]

theorem rd_lt (z : Sz) (n : Nat) (s : St) : rdR { z := z, n := n } s < 2 ^ z.bits := by
  simp only [rdR, Bool.false_eq_true, if_false]
  exact Nat.mod_lt _ (by cases z <;> decide)

theorem Rel.val {frame : Bool} {m : Mach} {s : St} (h : Rel frame m s) {v : V} {x : Nat} (hv : v.p < 15)
    (e : val m.ρ (.reg v) = some x) : rdR (rg v.z v.p) s = x := by
  simp only [X64Sel.val] at e
  split at e
  · rename_i z y hy
    split at e
    · rename_i hz
      injection e with e
      subst e; subst hz
      exact h.regs _ _ _ hv hy
    · cases e
  · cases e

/-- The state after an instruction that writes its destination. -/
theorem Rel.put {frame : Bool} {m : Mach} {s s' : St} {f : Nat → Bool} {d : V} {v : Nat} (h : Rel frame m s)
    (hd : DstOk frame d)
    (hr : ∀ n, n ≠ hw d.p → (∀ p, p < 15 → f p = true → n ≠ hw p) → s'.r n = s.r n)
    (hf : ∀ p, f p = true → p < 15 ∧ p ≠ 12)
    (hv : rdR (rg d.z d.p) s' = v) (hm : s'.mem = s.mem) : Rel frame (m.put f d v) s' := by
  refine ⟨?_, ?_, ?_, ?_, ?_⟩
  · intro p z x hp hx
    simp only [Mach.put, Env.set, Env.forget] at hx
    split at hx
    · rename_i e
      injection hx with hx
      injection hx with e1 e2
      subst e; subst e1; rw [← e2]; exact hv
    · rename_i hne
      split at hx
      · cases hx
      · rename_i hfp
        rw [← h.regs p z x hp hx]
        apply rd_congr
        exact hr _ (hw_ne hp hd.1 hne) (fun q hq hfq => hw_ne hp hq (fun e => hfp (e ▸ hfq)))
  · show s'.r spReg = m.sp
    rw [← h.sp]
    exact hr _ (fun e => hw_ne_sp _ hd.1 e.symm) (fun p hp _ e => hw_ne_sp _ hp e.symm)
  · intro hfr
    show s'.r bpReg = m.bp
    rw [← h.bp hfr]
    exact hr _ (fun e => hd.2 hfr (hw_bp _ hd.1 e.symm)) (fun p hp hfp e => (hf p hfp).2 (hw_bp _ hp e.symm))
  · rw [hm]; exact h.mem
  · intro z x e; cases e

/-- The code leaves `v` in the destination and changes no other register but those in `f`. -/
def Gives (code : List Ins) (s : St) (d : V) (f : Nat → Bool) (v : Nat) : Prop :=
  ∃ s', execs code s = some s' ∧
    (∀ n, n ≠ hw d.p → (∀ p, p < 15 → f p = true → n ≠ hw p) → s'.r n = s.r n) ∧
    rdR (rg d.z d.p) s' = v ∧ s'.mem = s.mem

theorem Gives.rel {code : List Ins} {frame : Bool} {m : Mach} {s : St} {f : Nat → Bool} {d : V} {v : Nat}
    (h : Rel frame m s) (hd : DstOk frame d) (hf : ∀ p, f p = true → p < 15 ∧ p ≠ 12) (g : Gives code s d f v) :
    ∃ s', execs code s = some s' ∧ Rel frame (m.put f d v) s' := by
  obtain ⟨s', h1, h2, h3, h4⟩ := g
  exact ⟨s', h1, h.put hd h2 hf h3 h4⟩

theorem gives_one {i : Ins} {s s' : St} {d : V} {f : Nat → Bool} (v : Nat) (he : exec i s = some s')
    (hr : s'.r = (wrR (rg d.z d.p) v s).r) (hm : s'.mem = s.mem) : Gives [i] s d f (v % 2 ^ d.z.bits) := by
  refine ⟨s', by simp only [execs, he, Option.bind_some], ?_, ?_, hm⟩
  · intro n hn _
    rw [hr]; exact wr_ne _ _ _ _ hn
  · rw [← rd_wr_same d.z (hw d.p) v s]
    apply rd_congr
    rw [hr]; rfl

theorem gives_lt {i : Ins} {s s' : St} {d : V} {f : Nat → Bool} {v : Nat} (hv : v < 2 ^ d.z.bits)
    (he : exec i s = some s') (hr : s'.r = (wrR (rg d.z d.p) v s).r) (hm : s'.mem = s.mem) : Gives [i] s d f v := by
  have := gives_one (d := d) (f := f) v he hr hm
  rwa [Nat.mod_eq_of_lt hv] at this

theorem gives_nil (s : St) (d : V) (f : Nat → Bool) : Gives [] s d f (rdR (rg d.z d.p) s) :=
  ⟨s, rfl, fun _ _ _ => rfl, rfl, rfl⟩

theorem two_pow_pos (z : Sz) : 0 < 2 ^ z.bits := by cases z <;> decide

theorem imm_lt (z : Sz) (c : Int) : imm z c < 2 ^ z.bits := by
  cases z <;> simp only [imm, toU, Sz.bits] <;> omega

theorem toU_nat (w x : Nat) : (toU w (x : Int)).toNat = x % 2 ^ w := by
  have : ((x : Int) % (2 ^ w : Int)) = ((x % 2 ^ w : Nat) : Int) := by push_cast; rfl
  simp only [toU, this, Int.toNat_natCast]

theorem gives_alu (o : Alu) (b : Nat) (i : Ins) (s : St) (d : V) (f : Nat → Bool) (v : Nat)
    (hi : exec i s = some (execAlu o d.z b (rg d.z d.p) s)) (hv : aluRes o d.z.bits b (rdR (rg d.z d.p) s) = some v)
    (hlt : v < 2 ^ d.z.bits) : Gives [i] s d f v := by
  have := gives_one (d := d) (f := f) (i := i) (s := s) v (s' := execAlu o d.z b (rg d.z d.p) s) hi
    (by simp only [execAlu, hv]) (by simp only [execAlu, hv]; rfl)
  rwa [Nat.mod_eq_of_lt hlt] at this

/-- The value of the second operand. -/
def oval (z : Sz) (s : St) : Opr → Nat
  | .const c _ => imm z c
  | .reg v => rdR (rg z v.p) s

theorem oval_lt (z : Sz) (s : St) (o : Opr) : oval z s o < 2 ^ z.bits := by
  cases o
  · exact rd_lt _ _ _
  · exact imm_lt _ _

theorem exec_emitAlu (o : Alu) (d : V) (o2 : Opr) (s : St) :
    exec (emitAlu o d o2) s = some (execAlu o d.z (oval d.z s o2) (rg d.z d.p) s) := by
  cases o2 <;> rfl

theorem and_lt (z : Sz) (a b : Nat) (ha : a < 2 ^ z.bits) : a &&& b < 2 ^ z.bits :=
  Nat.lt_of_le_of_lt Nat.and_le_left ha

theorem add_gives (d : V) (o2 : Opr) (s : St) (f : Nat → Bool) :
    Gives (emitAdd d o2) s d f ((rdR (rg d.z d.p) s + oval d.z s o2) % 2 ^ d.z.bits) := by
  have hlt := Nat.mod_lt (rdR (rg d.z d.p) s + oval d.z s o2) (two_pow_pos d.z)
  have ha := rd_lt d.z (hw d.p) s
  have gen : Gives [emitAlu .add d o2] s d f ((rdR (rg d.z d.p) s + oval d.z s o2) % 2 ^ d.z.bits) :=
    gives_alu .add _ _ s d f _ (exec_emitAlu _ _ _ _) rfl hlt
  cases o2 with
  | reg v => exact gen
  | const c z =>
    unfold emitAdd; dsimp only
    split
    · rename_i h
      subst h
      have := gives_nil s d f
      rw [show (rdR (rg d.z d.p) s + oval d.z s (.const 0 z)) % 2 ^ d.z.bits = rdR (rg d.z d.p) s from by
        rw [show oval d.z s (.const 0 z) = 0 from by simp [oval, imm, toU]]; exact Nat.mod_eq_of_lt ha]
      exact this
    · split
      · rename_i h
        subst h
        have := gives_lt (d := d) (f := f) (i := .un .inc (rg d.z d.p)) (s := s) (Nat.mod_lt _ (two_pow_pos d.z)) rfl rfl rfl
        rw [show oval d.z s (.const 1 z) = 1 from by cases d.z <;> rfl]
        exact this
      · split
        · rename_i h
          subst h
          have := gives_lt (d := d) (f := f) (i := .un .dec (rg d.z d.p)) (s := s) (Nat.mod_lt _ (two_pow_pos d.z)) rfl rfl rfl
          rw [show oval d.z s (.const (-1) z) = 2 ^ d.z.bits - 1 from by cases d.z <;> rfl]
          rw [← Nat.add_sub_assoc (two_pow_pos d.z)]
          exact this
        · exact gen

theorem sub_gives (d : V) (o2 : Opr) (s : St) (f : Nat → Bool) :
    Gives (emitSub d o2) s d f ((rdR (rg d.z d.p) s + 2 ^ d.z.bits - oval d.z s o2) % 2 ^ d.z.bits) := by
  have hlt := Nat.mod_lt (rdR (rg d.z d.p) s + 2 ^ d.z.bits - oval d.z s o2) (two_pow_pos d.z)
  have ha := rd_lt d.z (hw d.p) s
  have gen : Gives [emitAlu .sub d o2] s d f ((rdR (rg d.z d.p) s + 2 ^ d.z.bits - oval d.z s o2) % 2 ^ d.z.bits) :=
    gives_alu .sub _ _ s d f _ (exec_emitAlu _ _ _ _) rfl hlt
  cases o2 with
  | reg v => exact gen
  | const c z =>
    unfold emitSub; dsimp only
    split
    · rename_i h
      subst h
      have := gives_nil s d f
      rw [show (rdR (rg d.z d.p) s + 2 ^ d.z.bits - oval d.z s (.const 0 z)) % 2 ^ d.z.bits = rdR (rg d.z d.p) s from by
        rw [show oval d.z s (.const 0 z) = 0 from by simp [oval, imm, toU], Nat.sub_zero, Nat.add_mod_right]
        exact Nat.mod_eq_of_lt ha]
      exact this
    · split
      · rename_i h
        subst h
        have := gives_lt (d := d) (f := f) (i := .un .dec (rg d.z d.p)) (s := s) (Nat.mod_lt _ (two_pow_pos d.z)) rfl rfl rfl
        rw [show oval d.z s (.const 1 z) = 1 from by cases d.z <;> rfl]
        exact this
      · split
        · rename_i h
          subst h
          have := gives_lt (d := d) (f := f) (i := .un .inc (rg d.z d.p)) (s := s) (Nat.mod_lt _ (two_pow_pos d.z)) rfl rfl rfl
          rw [show oval d.z s (.const (-1) z) = 2 ^ d.z.bits - 1 from by cases d.z <;> rfl]
          rw [show rdR (rg d.z d.p) s + 2 ^ d.z.bits - (2 ^ d.z.bits - 1) = rdR (rg d.z d.p) s + 1 from by
            have := two_pow_pos d.z; omega]
          exact this
        · exact gen

theorem execs_append (a b : List Ins) (s : St) : execs (a ++ b) s = (execs a s).bind (execs b) := by
  induction a generalizing s with
  | nil => rfl
  | cons i a ih =>
    simp only [List.cons_append, execs]
    cases exec i s with
    | none => rfl
    | some t => exact ih t

theorem movIf_run (z : Sz) (a b : Nat) (s : St) :
    ∃ s1, execs (movIf z a b) s = some s1 ∧ (∀ n, n ≠ hw b → s1.r n = s.r n) ∧
      rdR (rg z b) s1 = rdR (rg z a) s ∧ s1.mem = s.mem := by
  unfold movIf
  split
  · refine ⟨_, rfl, fun n hn => wr_ne _ _ _ _ hn, ?_, rfl⟩
    rw [show rdR (rg z b) (wrR (rg z b) (rdR (rg z a) s) s) = _ from rd_wr_same z (hw b) _ s]
    exact Nat.mod_eq_of_lt (rd_lt _ _ _)
  · rename_i h
    have h : a = b := Classical.not_not.mp h
    subst h
    exact ⟨s, rfl, fun _ _ => rfl, rfl, rfl⟩

/-- The shape of multiplication and division: the operand goes to `%rax`, the result comes from `%rax` or `%rdx`. -/
theorem sandwich (d : V) (r : Nat) (mid : List Ins) (s : St) (f : Nat → Bool) (v : Nat) (hr : r = aI ∨ r = dI)
    (hfa : f aI = true) (hfd : f dI = true)
    (hmid : ∀ s1 : St, (∀ n, n ≠ 0 → s1.r n = s.r n) → rdR (ra d.z) s1 = rdR (rg d.z d.p) s → s1.mem = s.mem →
      ∃ s2, execs mid s1 = some s2 ∧ (∀ n, n ≠ 0 → n ≠ 2 → s2.r n = s1.r n) ∧ rdR (rg d.z r) s2 = v ∧
        s2.mem = s1.mem) :
    Gives (movIf d.z d.p aI ++ mid ++ movIf d.z r d.p) s d f v := by
  obtain ⟨s1, e1, r1, v1, m1⟩ := movIf_run d.z d.p aI s
  obtain ⟨s2, e2, r2, v2, m2⟩ := hmid s1 r1 v1 m1
  obtain ⟨s3, e3, r3, v3, m3⟩ := movIf_run d.z r d.p s2
  refine ⟨s3, ?_, ?_, by rw [v3, v2], by rw [m3, m2, m1]⟩
  · rw [execs_append, execs_append, e1, Option.bind_some, e2, Option.bind_some, e3]
  · intro n hn hp
    have ha := hp aI (by decide) hfa
    have hd := hp dI (by decide) hfd
    rw [r3 n hn, r2 n ha hd, r1 n ha]

/-- What MUL, DIV and IDIV leave behind. -/
theorem md_two (z : Sz) (x y : Nat) (s1 : St) :
    (∀ n, n ≠ 0 → n ≠ 2 → ({ wrR (rd z) y (wrR (ra z) x s1) with fl := none } : St).r n = s1.r n) ∧
    rdR (rg z aI) { wrR (rd z) y (wrR (ra z) x s1) with fl := none } = x % 2 ^ z.bits ∧
    rdR (rg z dI) { wrR (rd z) y (wrR (ra z) x s1) with fl := none } = y % 2 ^ z.bits := by
  refine ⟨?_, ?_, ?_⟩
  · intro n h0 h2
    show (wrR (rd z) _ (wrR (ra z) _ s1)).r n = s1.r n
    rw [wr_ne _ _ _ _ h2, wr_ne _ _ _ _ h0]
  · refine (rd_congr (s := wrR (rd z) y (wrR (ra z) x s1)) rfl).trans ?_
    rw [rd_wr_ne _ _ _ _ (by show hw aI ≠ 2; decide)]
    exact rd_wr_same _ 0 _ s1
  · refine (rd_congr (s := wrR (rd z) y (wrR (ra z) x s1)) rfl).trans ?_
    exact rd_wr_same _ 2 _ _

theorem mul_gives (d o2 : V) (s : St) (f : Nat → Bool) (code : List Ins) (hfa : f aI = true) (hfd : f dI = true)
    (hp : o2.p < 15) (he : emitMul d o2 = some code) :
    Gives code s d f (rdR (rg d.z d.p) s * rdR (rg d.z o2.p) s % 2 ^ d.z.bits) := by
  unfold emitMul at he
  split at he
  · cases he
  · rename_i h2
    injection he with he
    subst he
    apply sandwich d aI _ s f _ (Or.inl rfl) hfa hfd
    intro s1 r1 v1 m1
    have hb : rdR (rg d.z o2.p) s1 = rdR (rg d.z o2.p) s := rd_congr (r1 _ (hw_ne hp (by decide) h2))
    generalize hz : d.z = z at *
    rw [← v1, ← hb]
    cases z
    · refine ⟨_, rfl, ?_, ?_, rfl⟩
      · intro n h0 _; exact wr_ne _ _ _ _ h0
      · have h1 := rd_lt .b 0 s1
        show rdR (ra .b) (wrR (ra .w) (rdR (ra .b) s1 * rdR (rg .b o2.p) s1) s1) = _
        simp only [rdR, wrR, ra, merge, Sz.bits, Bool.false_eq_true, if_false, if_true]
        generalize s1.r 0 % 2 ^ 8 * (s1.r (rg Sz.b o2.p).n % 2 ^ 8) = x
        omega
    all_goals
      refine ⟨_, rfl, (md_two _ _ _ s1).1, ?_, rfl⟩
      exact (md_two _ _ _ s1).2.1.trans (Nat.mod_mod _ _)

/-- The quotient fits unless it is `INT_MIN / -1`. -/
theorem tdiv_fits (h : Int) (a b : Int) (ha : -h ≤ a) (ha' : a < h) (hb : b ≠ 0) (hn : ¬ (a = -h ∧ b = -1)) :
    -h ≤ a.tdiv b ∧ a.tdiv b < h := by
  have e : (a.tdiv b).natAbs = a.natAbs / b.natAbs := Int.natAbs_tdiv a b
  have le : a.natAbs / b.natAbs ≤ a.natAbs := Nat.div_le_self _ _
  refine ⟨by omega, ?_⟩
  apply Classical.byContradiction; intro hc
  have h1 : a.natAbs / b.natAbs = a.natAbs := by omega
  have h2 : a = -h := by omega
  have h3 : b.natAbs = 1 := by
    apply Classical.byContradiction; intro hb1
    have hb2 : 2 ≤ b.natAbs := by omega
    have : a.natAbs / b.natAbs ≤ a.natAbs / 2 := Nat.div_le_div_left hb2 (by omega)
    omega
  have h4 : b = 1 := by
    have : b = 1 ∨ b = -1 := by omega
    rcases this with h | h
    · exact h
    · exact absurd ⟨h2, h⟩ hn
  rw [h4, Int.tdiv_one] at hc
  omega

theorem toS_range (z : Sz) (a : Nat) (ha : a < 2 ^ z.bits) :
    -2 ^ (z.bits - 1) ≤ toS z.bits a ∧ toS z.bits a < 2 ^ (z.bits - 1) ∧ (toS z.bits a = 0 ↔ a = 0) := by
  cases z <;> simp only [Sz.bits, toS] at * <;> simp <;> omega

theorem imm_mod (z : Sz) (v : Int) : imm z v % 2 ^ z.bits = imm z v := Nat.mod_eq_of_lt (imm_lt z v)

theorem ite_mod (c : Prop) [Decidable c] (w : Nat) : (if c then 2 ^ w - 1 else 0) % 2 ^ w = if c then 2 ^ w - 1 else 0 := by
  have := Nat.two_pow_pos w
  by_cases h : c
  · rw [if_pos h, Nat.mod_eq_of_lt (by omega)]
  · rw [if_neg h, Nat.zero_mod]

theorem rd_rd (z : Sz) (v : Nat) (s : St) : rdR (rd z) (wrR (rd z) v s) = v % 2 ^ z.bits := rd_wr_same z 2 v s

theorem rd_signFill (z : Sz) (s : St) :
    rdR (rd z) (signFill z s) = if toS z.bits (rdR (ra z) s) < 0 then 2 ^ z.bits - 1 else 0 := by
  unfold signFill
  rw [rd_rd]
  exact ite_mod _ _

/-- CLTD, CQTO and the XOR leave the sign in `%rdx`. -/
theorem ext_run (u : Bool) (z : Sz) (hz : z = .l ∨ z = .q) (e : List Ins) (he : extend u z = some e) (s1 : St) :
    ∃ t, execs e s1 = some t ∧ (∀ n, n ≠ 2 → t.r n = s1.r n) ∧ t.mem = s1.mem ∧
      rdR (rd z) t = if u then 0 else if toS z.bits (rdR (ra z) s1) < 0 then 2 ^ z.bits - 1 else 0 := by
  cases u with
  | false =>
    refine ⟨signFill z s1, ?_, fun n hn => wr_ne _ _ _ _ hn, rfl, rd_signFill z s1⟩
    rcases hz with hz | hz <;> subst hz <;> simp only [extend] at he <;> injection he with he <;> subst he <;> rfl
  | true =>
    rcases hz with hz | hz <;> subst hz <;> simp only [extend] at he <;> injection he with he <;> subst he
    · refine ⟨_, rfl, fun n hn => wr_ne (rg .l dI) _ _ _ hn, rfl, ?_⟩
      refine (rd_congr (s := wrR (rg .l dI) (rdR (rg .l dI) s1 ^^^ rdR (rg .l dI) s1) s1) rfl).trans ?_
      rw [Nat.xor_self]
      exact rd_wr_same .l 2 _ s1
    · refine ⟨_, rfl, fun n hn => wr_ne (rg .l dI) _ _ _ hn, rfl, ?_⟩
      refine (rd_congr (s := wrR (rg .l dI) (rdR (rg .l dI) s1 ^^^ rdR (rg .l dI) s1) s1) rfl).trans ?_
      rw [Nat.xor_self]
      simp [rdR, wrR, rd, rg, dI, hw, merge]

/-- A sign-extended number read with twice the width. -/
theorem toS_double (z : Sz) (hz : z = .l ∨ z = .q) (a : Nat) (ha : a < 2 ^ z.bits) :
    toS (2 * z.bits) (((if toS z.bits a < 0 then 2 ^ z.bits - 1 else 0 : Nat) : Int) * 2 ^ z.bits + (a : Int)) = toS z.bits a := by
  by_cases hn : toS z.bits a < 0
  · rw [if_pos hn]
    rcases hz with h | h <;> subst h <;> simp only [Sz.bits, toS] at * <;> simp at hn ⊢ <;> omega
  · rw [if_neg hn]
    rcases hz with h | h <;> subst h <;> simp only [Sz.bits, toS] at * <;> simp at hn ⊢ <;> omega

/-- What the division instruction does when the dividend was extended. -/
theorem div_run (u : Bool) (z : Sz) (hz : z = .l ∨ z = .q) (e : List Ins) (he : extend u z = some e) (s1 : St) (n2 : Nat)
    (h20 : n2 ≠ 0) (h22 : n2 ≠ 2) (q r : Nat)
    (hq : opSem .div u z.bits (rdR (ra z) s1) (rdR { z := z, n := n2 } s1) = some q)
    (hr : opSem .mod u z.bits (rdR (ra z) s1) (rdR { z := z, n := n2 } s1) = some r) :
    ∃ s2, execs (e ++ [.md (divIns u) { z := z, n := n2 }]) s1 = some s2 ∧
      (∀ n, n ≠ 0 → n ≠ 2 → s2.r n = s1.r n) ∧ rdR (rg z aI) s2 = q ∧ rdR (rg z dI) s2 = r ∧ s2.mem = s1.mem := by
  have ha := rd_lt z 0 s1
  have hb := rd_lt z n2 s1
  have sa := toS_range z _ ha
  have sb := toS_range z _ hb
  obtain ⟨t, et, rt, mt, dt⟩ := ext_run u z hz e he s1
  have hat : rdR (ra z) t = rdR (ra z) s1 := rd_congr (rt 0 (by decide))
  have hbt : rdR { z := z, n := n2 } t = rdR { z := z, n := n2 } s1 := rd_congr (rt n2 h22)
  change rdR (ra z) s1 < 2 ^ z.bits at ha
  rw [execs_append, et, Option.bind_some]
  have fin : ∀ x y, execMd (divIns u) z (rdR { z := z, n := n2 } t) t
        = some { wrR (rd z) y (wrR (ra z) x t) with fl := none } → x % 2 ^ z.bits = q → y % 2 ^ z.bits = r →
      ∃ s2, execs [.md (divIns u) { z := z, n := n2 }] t = some s2 ∧
        (∀ n, n ≠ 0 → n ≠ 2 → s2.r n = s1.r n) ∧ rdR (rg z aI) s2 = q ∧ rdR (rg z dI) s2 = r ∧ s2.mem = s1.mem := by
    intro x y hx h1 h2
    refine ⟨{ wrR (rd z) y (wrR (ra z) x t) with fl := none }, ?_, ?_, ?_, ?_, mt⟩
    · simp only [execs, exec]
      rw [hx]; rfl
    · intro n a b; rw [(md_two z x y t).1 n a b, rt n b]
    · rw [(md_two z x y t).2.1, h1]
    · rw [(md_two z x y t).2.2, h2]
  have e1 : ∀ s' : St, execMd .div z (rdR { z := z, n := n2 } t) s' =
      (let w := z.bits
       let n := rdR (rd z) s' * 2 ^ w + rdR (ra z) s'
       let v := rdR { z := z, n := n2 } t
       if v = 0 ∨ n / v ≥ 2 ^ w then none
       else some { wrR (rd z) (n % v) (wrR (ra z) (n / v) s') with fl := none }) := by
    intro s'; rcases hz with h | h <;> subst h <;> rfl
  have e2 : ∀ s' : St, execMd .idiv z (rdR { z := z, n := n2 } t) s' =
      (let w := z.bits
       let n := toS (2 * w) ((rdR (rd z) s' : Nat) * 2 ^ w + (rdR (ra z) s' : Nat))
       let d := toS w (rdR { z := z, n := n2 } t)
       if d = 0 ∨ n.tdiv d < -2 ^ (w - 1) ∨ n.tdiv d ≥ 2 ^ (w - 1) then none
       else some { wrR (rd z) (imm z (n.tmod d)) (wrR (ra z) (imm z (n.tdiv d)) s') with fl := none }) := by
    intro s'; rcases hz with h | h <;> subst h <;> rfl
  cases u with
  | true =>
    simp only [opSem] at hq hr
    split at hq
    · cases hq
    · rename_i h0
      rw [if_neg h0] at hr
      injection hq with hq
      injection hr with hr
      simp only [if_true] at hq hr dt
      apply fin
      · show execMd .div z _ t = _
        rw [e1]
        dsimp only
        rw [dt, hat, hbt, Nat.zero_mul, Nat.zero_add, if_neg]
        rintro (h | h)
        · exact h0 h
        · have := Nat.div_le_self (rdR (ra z) s1) (rdR { z := z, n := n2 } s1)
          omega
      · have := Nat.div_le_self (rdR (ra z) s1) (rdR { z := z, n := n2 } s1)
        rw [Nat.mod_eq_of_lt (by omega)]; exact hq
      · have := Nat.mod_le (rdR (ra z) s1) (rdR { z := z, n := n2 } s1)
        rw [Nat.mod_eq_of_lt (by omega)]; exact hr
  | false =>
    simp only [opSem] at hq hr
    split at hq
    · cases hq
    · rename_i h0
      rw [if_neg h0] at hr
      simp only [Bool.false_eq_true, if_false] at hq hr dt
      split at hq
      · cases hq
      · rename_i h1
        rw [if_neg h1] at hr
        injection hq with hq
        injection hr with hr
        have fit := tdiv_fits (2 ^ (z.bits - 1)) _ _ sa.1 sa.2.1 (fun h => h0 (sb.2.2.mp h)) h1
        apply fin
        · show execMd .idiv z _ t = _
          rw [e2]
          dsimp only
          rw [dt, hat, hbt, toS_double z hz _ ha, if_neg]
          rintro (h | h | h)
          · exact h0 (sb.2.2.mp h)
          · exact (Int.not_lt.mpr fit.1) h
          · exact (Int.not_le.mpr fit.2) h
        · rw [imm_mod]; exact hq
        · rw [imm_mod]; exact hr

theorem opSem_divmod (u : Bool) (w a b : Nat) :
    (opSem .div u w a b = none ↔ opSem .mod u w a b = none) := by
  simp only [opSem]
  split
  · simp
  · split
    · simp
    · split <;> simp

theorem div_gives (u : Bool) (d o2 : V) (s : St) (f : Nat → Bool) (code : List Ins) (v : Nat) (hfa : f aI = true)
    (hfd : f dI = true) (hp : o2.p < 15) (hz : d.z = .l ∨ d.z = .q) (h2 : o2.p ≠ dI) (he : emitDiv u d o2 = some code)
    (hv : opSem .div u d.z.bits (rdR (rg d.z d.p) s) (rdR (rg d.z o2.p) s) = some v) : Gives code s d f v := by
  unfold emitDiv at he
  split at he
  · cases he
  · rename_i ha
    rw [if_neg (by rcases hz with h | h <;> rw [h] <;> decide)] at he
    cases hx : extend u d.z with
    | none => rw [hx] at he; cases he
    | some e =>
      rw [hx] at he
      injection he with he
      subst he
      dsimp only
      rw [List.append_assoc (movIf d.z d.p aI)]
      apply sandwich d aI _ s f _ (Or.inl rfl) hfa hfd
      intro s1 r1 v1 m1
      have hb : rdR (rg d.z o2.p) s1 = rdR (rg d.z o2.p) s := rd_congr (r1 _ (hw_ne hp (by decide) ha))
      cases hm : opSem .mod u d.z.bits (rdR (rg d.z d.p) s) (rdR (rg d.z o2.p) s) with
      | none => rw [(opSem_divmod u _ _ _).mpr hm] at hv; cases hv
      | some r =>
        rw [← v1, ← hb] at hv hm
        obtain ⟨s2, x1, x2, x3, x4, x5⟩ := div_run u d.z hz e hx s1 (hw o2.p) (hw_ne hp (by decide) ha)
          (hw_ne hp (by decide) h2) v r hv hm
        exact ⟨s2, x1, x2, x3, x5⟩

theorem mod_gives (u : Bool) (d o2 : V) (s : St) (f : Nat → Bool) (code : List Ins) (v : Nat) (hfa : f aI = true)
    (hfd : f dI = true) (hp : o2.p < 15) (hz : d.z = .l ∨ d.z = .q) (h2 : o2.p ≠ dI) (he : emitMod u d o2 = some code)
    (hv : opSem .mod u d.z.bits (rdR (rg d.z d.p) s) (rdR (rg d.z o2.p) s) = some v) : Gives code s d f v := by
  unfold emitMod at he
  split at he
  · cases he
  · rename_i ha
    rw [if_neg (by rcases hz with h | h <;> rw [h] <;> decide)] at he
    cases hx : extend u d.z with
    | none => rw [hx] at he; cases he
    | some e =>
      rw [hx] at he
      injection he with he
      subst he
      dsimp only
      rw [List.append_assoc (movIf d.z d.p aI)]
      apply sandwich d dI _ s f _ (Or.inr rfl) hfa hfd
      intro s1 r1 v1 m1
      have hb : rdR (rg d.z o2.p) s1 = rdR (rg d.z o2.p) s := rd_congr (r1 _ (hw_ne hp (by decide) ha))
      cases hm : opSem .div u d.z.bits (rdR (rg d.z d.p) s) (rdR (rg d.z o2.p) s) with
      | none => rw [(opSem_divmod u _ _ _).mp hm] at hv; cases hv
      | some r =>
        rw [← v1, ← hb] at hv hm
        obtain ⟨s2, x1, x2, x3, x4, x5⟩ := div_run u d.z hz e hx s1 (hw o2.p) (hw_ne hp (by decide) ha)
          (hw_ne hp (by decide) h2) r v hm hv
        exact ⟨s2, x1, x2, x4, x5⟩

theorem rd_byte (z : Sz) (n : Nat) (s : St) : rdR { z := .b, n := n } s = rdR { z := z, n := n } s % 256 := by
  cases z <;> simp only [rdR, Sz.bits, Bool.false_eq_true, if_false] <;> omega

/-- A shift count in range is not changed by the masking. -/
theorem count_mask (z : Sz) (b : Nat) (hb : b < max z.bits 32) : b % (if z = .q then 64 else 32) = b := by
  cases z <;> simp only [Sz.bits] at hb <;> simp <;> omega

theorem bits_le (z : Sz) : z.bits ≤ 64 := by cases z <;> decide

theorem shift_gives (o : Sh) (d : V) (o2 : Opr) (s : St) (f : Nat → Bool) (code : List Ins) (b : Nat) (hd : d.p < 15)
    (hf : ∀ v, o2 = .reg v → f cI = true) (he : emitShift o d o2 = some code) (hb : oval o2.z s o2 = b)
    (hlt : b < max d.z.bits 32) : Gives code s d f (shRes o d.z b (rdR (rg d.z d.p) s) % 2 ^ d.z.bits) := by
  have hb64 := bits_le d.z
  cases o2 with
  | const c z =>
    injection he with he
    subst he
    have e : (c % 256).toNat = b := by
      subst hb
      simp only [oval, imm, Opr.z, toU] at hlt ⊢
      generalize d.z.bits = w at *
      cases z <;> simp only [Sz.bits] at * <;> omega
    rw [e]
    exact gives_one _ rfl rfl rfl
  | reg v =>
    simp only [emitShift] at he
    split at he
    · cases he
    · rename_i hne
      injection he with he
      subst he
      have hdc : d.p ≠ cI := fun e => hne (Or.inr e)
      have hcd : hw d.p ≠ 1 := hw_ne hd (by decide : cI < 15) hdc
      let s1 := wrR (rg .b cI) (rdR (rg .b v.p) s) s
      have hc1 : rdR rcl s1 = b := by
        have h1 : rdR rcl s1 = rdR (rg .b v.p) s % 2 ^ Sz.b.bits := rd_wr_same .b 1 _ s
        have h2 : rdR (rg .b v.p) s = rdR (rg v.z v.p) s % 256 := rd_byte v.z (hw v.p) s
        have h3 : rdR (rg v.z v.p) s = b := hb
        rw [h1, h2, h3]
        simp only [Sz.bits]
        omega
      have hd1 : rdR (rg d.z d.p) s1 = rdR (rg d.z d.p) s := rd_wr_ne _ _ _ _ hcd
      refine ⟨{ wrR (rg d.z d.p) (shRes o d.z (rdR rcl s1) (rdR (rg d.z d.p) s1)) s1 with fl := none }, rfl, ?_, ?_, rfl⟩
      · intro n hn hp
        show (wrR (rg d.z d.p) _ s1).r n = s.r n
        rw [wr_ne _ _ _ _ hn]
        exact wr_ne (rg .b cI) _ s n (hp cI (by decide) (hf v rfl))
      · refine (rd_congr (s := wrR (rg d.z d.p) (shRes o d.z (rdR rcl s1) (rdR (rg d.z d.p) s1)) s1) rfl).trans ?_
        rw [hc1, hd1]
        exact rd_wr_same _ _ _ _

theorem shl_res (z : Sz) (a b : Nat) (hb : b < max z.bits 32) :
    shRes .shl z b a % 2 ^ z.bits = (toU z.bits ((a : Int) * 2 ^ b)).toNat := by
  simp only [shRes, count_mask z b hb, Nat.mod_mod]
  rw [← toU_nat]
  push_cast
  rfl

theorem shr_res (z : Sz) (a b : Nat) (ha : a < 2 ^ z.bits) (hb : b < max z.bits 32) :
    shRes .shr z b a % 2 ^ z.bits = a / 2 ^ b := by
  simp only [shRes, count_mask z b hb]
  exact Nat.mod_eq_of_lt (Nat.lt_of_le_of_lt (Nat.div_le_self _ _) ha)

theorem sar_res (z : Sz) (a b : Nat) (hb : b < max z.bits 32) :
    shRes .sar z b a % 2 ^ z.bits = (toU z.bits (toS z.bits a / 2 ^ b)).toNat := by
  simp only [shRes, count_mask z b hb, imm_mod]
  simp only [imm]
  push_cast
  rfl

/-- The integer binary operators. -/
theorem bop_gives (o : Bop) (u : Bool) (d v1 : V) (o2 : Opr) (s : St) (code : List Ins) (v : Nat) (frame : Bool)
    (hok : Ok frame (.bop o u d (.reg v1) o2)) (he : emitBop o u d (.reg v1) o2 = some code)
    (hz : o = .shl ∨ o = .shr ∨ o2.z = d.z)
    (hv : opSem o u d.z.bits (rdR (rg d.z d.p) s) (oval o2.z s o2) = some v) :
    Gives code s d (clobbers (.bop o u d (.reg v1) o2)) v := by
  obtain ⟨⟨hd, _⟩, _, hl2, hdm⟩ := hok
  unfold emitBop at he
  dsimp only at he
  split at he
  · cases he
  have ha := rd_lt d.z (hw d.p) s
  have hb : o2.z = d.z → oval o2.z s o2 = oval d.z s o2 := fun e => by rw [e]
  have hbl := oval_lt d.z s o2
  change rdR (rg d.z d.p) s < 2 ^ d.z.bits at ha
  cases o with
  | add =>
    have hz : o2.z = d.z := by rcases hz with h | h | h <;> first | cases h | exact h
    rw [hb hz] at hv
    injection he with he
    injection hv with hv
    subst he; subst hv
    have := add_gives d o2 s (clobbers (.bop .add u d (.reg v1) o2))
    rw [← toU_nat] at this
    push_cast at this
    exact this
  | sub =>
    have hz : o2.z = d.z := by rcases hz with h | h | h <;> first | cases h | exact h
    rw [hb hz] at hv
    injection he with he
    injection hv with hv
    subst he; subst hv
    have := sub_gives d o2 s (clobbers (.bop .sub u d (.reg v1) o2))
    rw [← toU_nat] at this
    have e : (((rdR (rg d.z d.p) s + 2 ^ d.z.bits - oval d.z s o2 : Nat)) : Int)
        = (rdR (rg d.z d.p) s : Int) - oval d.z s o2 + 2 ^ d.z.bits := by
      have : ((2 ^ d.z.bits : Nat) : Int) = 2 ^ d.z.bits := by push_cast; rfl
      omega
    rw [e] at this
    simp only [toU, Int.add_emod_right] at this ⊢
    exact this
  | and =>
    have hz : o2.z = d.z := by rcases hz with h | h | h <;> first | cases h | exact h
    rw [hb hz] at hv
    injection he with he
    injection hv with hv
    subst he; subst hv
    exact gives_alu .and _ _ s d _ _ (exec_emitAlu _ _ _ _) rfl (Nat.lt_of_le_of_lt Nat.and_le_left ha)
  | or =>
    have hz : o2.z = d.z := by rcases hz with h | h | h <;> first | cases h | exact h
    rw [hb hz] at hv
    injection he with he
    injection hv with hv
    subst he; subst hv
    exact gives_alu .or _ _ s d _ _ (exec_emitAlu _ _ _ _) rfl (Nat.or_lt_two_pow ha hbl)
  | xor =>
    have hz : o2.z = d.z := by rcases hz with h | h | h <;> first | cases h | exact h
    rw [hb hz] at hv
    injection he with he
    injection hv with hv
    subst he; subst hv
    exact gives_alu .xor _ _ s d _ _ (exec_emitAlu _ _ _ _) rfl (Nat.xor_lt_two_pow ha hbl)
  | shl =>
    simp only [opSem] at hv
    split at hv
    · rename_i hlt
      injection hv with hv
      subst hv
      have := shift_gives .shl d o2 s (clobbers (.bop .shl u d (.reg v1) o2)) code _ hd
        (by intro v e; subst e; rfl) he rfl hlt
      rwa [shl_res _ _ _ hlt] at this
    · cases hv
  | shr =>
    simp only [opSem] at hv
    split at hv
    · rename_i hlt
      injection hv with hv
      subst hv
      have := shift_gives _ d o2 s (clobbers (.bop .shr u d (.reg v1) o2)) code _ hd
        (by intro v e; subst e; rfl) he rfl hlt
      cases u with
      | true =>
        simp only [if_true] at this ⊢
        rwa [shr_res _ _ _ ha hlt] at this
      | false =>
        simp only [Bool.false_eq_true, if_false] at this ⊢
        rwa [sar_res _ _ _ hlt] at this
    · cases hv
  | mul =>
    have hz : o2.z = d.z := by rcases hz with h | h | h <;> first | cases h | exact h
    rw [hb hz] at hv
    cases o2 with
    | const c z => cases he
    | reg v2 =>
      injection hv with hv
      subst hv
      have := mul_gives d v2 s (clobbers (.bop .mul u d (.reg v1) (.reg v2))) code rfl rfl hl2 he
      rw [← toU_nat] at this
      push_cast at this
      exact this
  | div =>
    have hz : o2.z = d.z := by rcases hz with h | h | h <;> first | cases h | exact h
    rw [hb hz] at hv
    cases o2 with
    | const c z => cases he
    | reg v2 =>
      exact div_gives u d v2 s (clobbers (.bop .div u d (.reg v1) (.reg v2))) code v rfl rfl hl2 (hdm (Or.inl rfl)).2
        ((hdm (Or.inl rfl)).1 v2 rfl) he hv
  | mod =>
    have hz : o2.z = d.z := by rcases hz with h | h | h <;> first | cases h | exact h
    rw [hb hz] at hv
    cases o2 with
    | const c z => cases he
    | reg v2 =>
      exact mod_gives u d v2 s (clobbers (.bop .mod u d (.reg v1) (.reg v2))) code v rfl rfl hl2 (hdm (Or.inr rfl)).2
        ((hdm (Or.inr rfl)).1 v2 rfl) he hv

/-- Conversions between integers of different sizes. -/
theorem cast_gives (u : Bool) (d o1 : V) (s : St) (f : Nat → Bool) (code : List Ins) (he : emitCast u d o1 = some code) :
    Gives code s d f (toU d.z.bits (if u then ((rdR (rg o1.z o1.p) s : Nat) : Int) else toS o1.z.bits (rdR (rg o1.z o1.p) s : Nat))).toNat := by
  unfold emitCast at he
  split at he
  · cases he
  rename_i hzz
  have hlt := rd_lt o1.z (hw o1.p) s
  change rdR (rg o1.z o1.p) s < _ at hlt
  split at he
  · rename_i hn
    injection he with he
    subst he
    obtain ⟨s1, e1, r1, v1, m1⟩ := movIf_run d.z o1.p d.p s
    refine ⟨s1, e1, fun n hn _ => r1 n hn, ?_, m1⟩
    rw [v1]
    have h1 : rdR (rg d.z o1.p) s = rdR (rg o1.z o1.p) s % 2 ^ d.z.bits := by
      simp only [rdR, rg, Bool.false_eq_true, if_false]
      generalize s.r (hw o1.p) = x
      revert hn
      cases d.z <;> cases o1.z <;> simp only [Sz.bits] <;> omega
    rw [h1]
    generalize rdR (rg o1.z o1.p) s = x at *
    revert hn
    cases u <;> cases d.z <;> cases o1.z <;> simp only [Sz.bits] <;> intro hn <;>
      first | (exact absurd hn (by decide)) | (simp [toU, toS] <;> omega)
  · rename_i hn
    split at he
    · rename_i hu
      subst hu
      have fits : rdR (rg o1.z o1.p) s < 2 ^ d.z.bits := by
        revert hn hlt
        cases d.z <;> cases o1.z <;> simp only [Sz.bits] <;> omega
      simp only [if_true]
      rw [toU_nat, Nat.mod_eq_of_lt fits]
      split at he
      · rename_i hl
        injection he with he
        subst he
        have hdq : d.z = .q := by
          revert hn hzz
          rw [hl]
          cases d.z <;> simp [Sz.bits]
        rw [hl] at hlt ⊢
        refine ⟨_, rfl, fun n hn _ => wr_ne (rg .l d.p) _ _ _ hn, ?_, rfl⟩
        rw [hdq]
        simp only [rg, rdR, wrR, merge, Sz.bits, Bool.false_eq_true, if_false, if_true]
        omega
      · injection he with he
        subst he
        exact gives_lt fits rfl rfl rfl
    · rename_i hu
      injection he with he
      subst he
      have hu : u = false := by cases u <;> simp_all
      subst hu
      simp only [Bool.false_eq_true, if_false]
      exact gives_lt (imm_lt d.z _) rfl rfl rfl

def jccNum : Cond.Jcc → Nat
  | .e => 4 | .ne => 5 | .l => 12 | .g => 15 | .le => 14 | .ge => 13 | .b => 2 | .a => 7 | .be => 6 | .ae => 3 | .p => 10

theorem ccOf_jcc (c : Nat) : ccOf c = (Cond.x64jcc c).map jccNum := by
  unfold ccOf Cond.x64jcc
  repeat' split
  all_goals rfl

theorem ccTaken_jcc (j : Cond.Jcc) (f : Cond.Flags) : ccTaken (jccNum j) f = j.taken f := by
  obtain ⟨z, c, sf, o, p⟩ := f
  cases j <;> cases z <;> cases c <;> cases sf <;> cases o <;> cases p <;> rfl

/-- The flags after `cmp_vregs` answer the condition. -/
theorem cmp_run (c : Nat) (cc : Nat) (hcc : ccOf c = some cc) (o1 : V) (o2 : Opr) (s : St) :
    ∃ f, exec (emitCmp o1 o2) s = some { s with fl := some f } ∧
      ccTaken cc f = Cond.holds c (Cond.cmpW o1.z.bits c (rdR (rg o1.z o1.p) s) (oval o1.z s o2)) := by
  have hj : ∃ j, Cond.x64jcc c = some j ∧ cc = jccNum j := by
    rw [ccOf_jcc] at hcc
    cases hx : Cond.x64jcc c with
    | none => rw [hx] at hcc; cases hcc
    | some j => rw [hx] at hcc; injection hcc with h; exact ⟨j, rfl, h.symm⟩
  obtain ⟨j, hj, rfl⟩ := hj
  have hc : 2 ≤ c % 8 ∧ c < 16 := by
    unfold ccOf at hcc
    split at hcc
    · omega
    · split at hcc
      · omega
      · apply Classical.byContradiction
        intro hn
        repeat' split at hcc
        all_goals first | omega | cases hcc
  have key : ∀ zero : Bool, (zero = true → oval o1.z s o2 = 0) →
      ccTaken (jccNum j) (if zero then Cond.x64test o1.z.bits (rdR (rg o1.z o1.p) s)
          else Cond.x64cmp o1.z.bits (rdR (rg o1.z o1.p) s) (oval o1.z s o2))
        = Cond.holds c (Cond.cmpW o1.z.bits c (rdR (rg o1.z o1.p) s) (oval o1.z s o2)) := by
    intro zero hz
    have := Cond.x64_int_branch o1.z.bits (by cases o1.z <;> decide) c hc.1 hc.2 zero _ _ (rd_lt o1.z (hw o1.p) s)
      (oval_lt o1.z s o2) hz
    simp only [Cond.x64jmp, hj, Option.map_some] at this
    injection this with this
    rw [ccTaken_jcc]
    exact this
  cases o2 with
  | reg v => exact ⟨_, rfl, key false (by intro h; cases h)⟩
  | const k z =>
    by_cases h0 : k = 0
    · subst h0
      refine ⟨Cond.x64test o1.z.bits (rdR (rg o1.z o1.p) s), ?_, key true (fun _ => by simp [oval, imm, toU])⟩
      simp only [emitCmp, if_true, exec]
      rfl
    · exact ⟨_, by simp only [emitCmp, if_neg h0]; rfl, key false (by intro h; cases h)⟩

theorem cond_gives (c : Nat) (d o1 : V) (o2 : Opr) (s : St) (f : Nat → Bool) (code : List Ins) (hz : d.z = .l)
    (he : emitCond c d o1 o2 = some code) :
    Gives code s d f (if Cond.holds c (Cond.cmpW o1.z.bits c (rdR (rg o1.z o1.p) s) (oval o1.z s o2)) then 1 else 0) := by
  unfold emitCond at he
  cases hcc : ccOf c with
  | none => rw [hcc] at he; cases he
  | some cc =>
    rw [hcc] at he
    injection he with he
    subst he
    obtain ⟨fl, e1, e2⟩ := cmp_run c cc hcc o1 o2 s
    rw [← e2]
    generalize hb : ccTaken cc fl = b
    let s1 : St := { s with fl := some fl }
    let s2 := wrR (rg .b d.p) (if b then 1 else 0) s1
    let s3 := wrR (rg .l d.p) (imm .l (toS Sz.b.bits (rdR (rg .b d.p) s2))) s2
    refine ⟨s3, ?_, ?_, ?_, rfl⟩
    · simp only [execs]
      rw [e1, Option.bind_some]
      show Option.bind ((some fl).map fun f => wrR (rg .b d.p) (if ccTaken cc f then 1 else 0) s1) _ = some s3
      rw [Option.map_some, hb, Option.bind_some]
      show Option.bind (exec (.movx true (rg .b d.p) (rg .l d.p)) s2) _ = some s3
      rw [show exec (.movx true (rg .b d.p) (rg .l d.p)) s2 = some s3 from by simp only [exec, if_true]; rfl]
      rfl
    · intro n hn _
      show (wrR (rg .l d.p) _ (wrR (rg .b d.p) _ s1)).r n = s.r n
      rw [wr_ne _ _ _ _ hn, wr_ne _ _ _ _ hn]
    · rw [hz]
      have h2 : rdR (rg .b d.p) s2 = (if b then 1 else 0) % 2 ^ Sz.b.bits := rd_wr_same .b _ _ s1
      have h3 : rdR (rg .l d.p) s3 = imm .l (toS Sz.b.bits (rdR (rg .b d.p) s2)) % 2 ^ Sz.l.bits := rd_wr_same .l _ _ s2
      rw [h3, h2, imm_mod]
      cases b <;> decide

/-- The value of an operand in the machine. -/
theorem oval_val {frame : Bool} {m : Mach} {s : St} (h : Rel frame m s) (o : Opr) (x : Nat) (ho : o.lt)
    (e : val m.ρ o = some x) : oval o.z s o = x := by
  cases o with
  | reg v => exact h.val ho e
  | const c z => injection e

theorem mov_gives (d : V) (o1 : Opr) (s : St) (f : Nat → Bool) (hz : o1.z = d.z) :
    Gives (emitMov d.p o1) s d f (oval o1.z s o1) := by
  cases o1 with
  | const c z =>
    have hz : z = d.z := hz
    subst hz
    exact gives_lt (imm_lt _ _) rfl rfl rfl
  | reg v =>
    have hz : v.z = d.z := hz
    obtain ⟨s1, e1, r1, v1, m1⟩ := movIf_run v.z v.p d.p s
    refine ⟨s1, e1, fun n hn _ => r1 n hn, ?_, m1⟩
    rw [← hz]; exact v1

theorem clobbers_ok (i : Ir) (p : Nat) (h : clobbers i p = true) : p < 15 ∧ p ≠ 12 := by
  cases i with
  | bop o u d o1 o2 =>
    cases o <;> cases o2 <;> simp [clobbers, aI, cI, dI] at h <;> omega
  | result v => simp [clobbers, aI] at h; omega
  | _ => cases h

theorem rdM_lt (mem : Nat → Nat) : ∀ k a, rdM mem a k < 256 ^ k := by
  intro k
  induction k with
  | zero => intro a; exact Nat.zero_lt_one
  | succ k ih =>
    intro a
    have := ih (a + 1)
    have h2 : mem (a % 2 ^ 64) % 256 < 256 := Nat.mod_lt _ (by decide)
    simp only [rdM, Nat.pow_succ]
    omega

theorem rdM_bits (mem : Nat → Nat) (z : Sz) (a : Nat) : rdM mem a z.bytes < 2 ^ z.bits := by
  have := rdM_lt mem z.bytes a
  cases z <;> exact this

/-- The address operand is the value of the address. -/
theorem addr_val (s : St) (a : Opr) (hz : a.z = .q) : (addrOf a).addr s = oval a.z s a := by
  cases a with
  | const c z =>
    have hz : z = .q := hz
    subst hz
    simp [addrOf, atAbs, Mem.addr, oval, Opr.z, imm, Sz.bits]
  | reg v =>
    have hz : v.z = .q := hz
    simp only [addrOf, atReg, Mem.addr, oval, Opr.z, hz, rdR, rg, Bool.false_eq_true, if_false, Int.add_zero]
    rw [show ((0 : Nat) : Int) = 0 from rfl, Int.add_zero, toU_nat]
    rfl

theorem frame_addr (s : St) (n : Nat) (ofs : Int) : (atReg n ofs).addr s = (toU 64 ((s.r n : Int) + ofs)).toNat := by
  simp [atReg, Mem.addr]

theorem emitStore_run (v : Opr) (mm : Mem) (s : St) :
    exec (emitStore v mm) s = some { s with mem := wrM s.mem (mm.addr s) v.z.bytes (oval v.z s v) } := by
  cases v <;> rfl

/-- **C65.**  The instructions emitted for an IR instruction calculate what it means: the destination, the memory and
every register that the register allocator does not reserve for the instruction. -/
theorem emit_correct (frame : Bool) (i : Ir) (code : List Ins) (m m' : Mach) (s : St) (hok : Ok frame i)
    (he : emit i = some code) (hr : Rel frame m s) (hs : step (clobbers i) i m = some m') :
    ∃ s', execs code s = some s' ∧ Rel frame m' s' := by
  have hcl := clobbers_ok i
  cases i with
  | bop o u d o1 o2 =>
    cases o1 with
    | const c z => cases he
    | reg v1 =>
      simp only [step] at hs
      cases h1 : val m.ρ (.reg v1) with
      | none => rw [h1] at hs; cases hs
      | some a =>
        cases h2 : val m.ρ o2 with
        | none => rw [h1, h2] at hs; cases hs
        | some b =>
          rw [h1, h2] at hs
          dsimp only at hs
          split at hs
          · rename_i hz
            cases hv : opSem o u d.z.bits a b with
            | none => rw [hv] at hs; cases hs
            | some v =>
              rw [hv] at hs
              injection hs with hs
              subst hs
              have e1 := hr.val hok.2.1 h1
              have e2 := oval_val hr o2 b hok.2.2.1 h2
              have hp : d.p = v1.p := by
                apply Classical.byContradiction
                intro hne
                simp only [emit, emitBop, if_pos hne] at he
                cases he
              have hz1 : v1.z = d.z := hz.1
              rw [hz1, ← hp] at e1
              rw [← e1, ← e2] at hv
              exact (bop_gives o u d v1 o2 s code v frame hok he hz.2 hv).rel hr hok.1 hcl
          · cases hs
  | neg d o1 =>
    simp only [step] at hs
    cases h1 : val m.ρ (.reg o1) with
    | none => rw [h1] at hs; cases hs
    | some a =>
      rw [h1] at hs
      dsimp only at hs
      split at hs
      · rename_i hz
        injection hs with hs
        subst hs
        simp only [emit] at he
        split at he
        · rename_i hp
          injection he with he
          subst he
          have e1 := hr.val hok.2 h1
          rw [hz, ← hp] at e1
          have ha := rd_lt d.z (hw d.p) s
          change rdR (rg d.z d.p) s < _ at ha
          have e : ((2 ^ d.z.bits - a) % 2 ^ d.z.bits) = (toU d.z.bits (-(a : Int))).toNat := by
            rw [e1] at ha
            rw [← toU_nat]
            have : (((2 ^ d.z.bits - a : Nat)) : Int) = -(a : Int) + 2 ^ d.z.bits := by
              have : ((2 ^ d.z.bits : Nat) : Int) = 2 ^ d.z.bits := by push_cast; rfl
              omega
            rw [this]
            simp only [toU, Int.add_emod_right]
          rw [← e, ← e1]
          have g : Gives [.un .neg (rg d.z d.p)] s d (clobbers (.neg d o1)) _ :=
            gives_lt (Nat.mod_lt (2 ^ d.z.bits - rdR (rg d.z d.p) s) (two_pow_pos d.z)) (i := .un .neg (rg d.z d.p)) rfl rfl rfl
          exact g.rel hr hok.1 hcl
        · cases he
      · cases hs
  | bitnot d o1 =>
    simp only [step] at hs
    cases h1 : val m.ρ (.reg o1) with
    | none => rw [h1] at hs; cases hs
    | some a =>
      rw [h1] at hs
      dsimp only at hs
      split at hs
      · rename_i hz
        injection hs with hs
        subst hs
        simp only [emit] at he
        split at he
        · rename_i hp
          injection he with he
          subst he
          have e1 := hr.val hok.2 h1
          rw [hz, ← hp] at e1
          rw [← e1]
          have := two_pow_pos d.z
          exact (gives_lt (by omega) rfl rfl rfl : Gives _ s d _ _).rel hr hok.1 hcl
        · cases he
      · cases hs
  | cast u d o1 =>
    simp only [step] at hs
    cases h1 : val m.ρ (.reg o1) with
    | none => rw [h1] at hs; cases hs
    | some a =>
      rw [h1] at hs
      injection hs with hs
      subst hs
      rw [← hr.val hok.2 h1]
      exact (cast_gives u d o1 s _ code he).rel hr hok.1 hcl
  | mov d o1 =>
    simp only [step] at hs
    cases h1 : val m.ρ o1 with
    | none => rw [h1] at hs; cases hs
    | some a =>
      rw [h1] at hs
      dsimp only at hs
      split at hs
      · rename_i hz
        injection hs with hs
        subst hs
        injection he with he
        subst he
        rw [← oval_val hr o1 a hok.2 h1]
        exact (mov_gives d o1 s _ hz).rel hr hok.1 hcl
      · cases hs
  | cond c d o1 o2 =>
    simp only [step] at hs
    cases h1 : val m.ρ (.reg o1) with
    | none => rw [h1] at hs; cases hs
    | some a =>
      cases h2 : val m.ρ o2 with
      | none => rw [h1, h2] at hs; cases hs
      | some b =>
        rw [h1, h2] at hs
        dsimp only at hs
        split at hs
        · rename_i hz
          injection hs with hs
          subst hs
          have e2 := oval_val hr o2 b hok.2.2 h2
          rw [hz.1] at e2
          rw [← hr.val hok.2.1 h1, ← e2]
          exact (cond_gives c d o1 o2 s _ code hz.2 he).rel hr hok.1 hcl
        · cases hs
  | bofs d ofs =>
    simp only [step] at hs
    split at hs
    · rename_i hz
      injection hs with hs
      subst hs
      injection he with he
      subst he
      rw [← hr.bp hok.2, ← frame_addr]
      have hlt : (atReg bpReg ofs).addr s < 2 ^ d.z.bits := by rw [frame_addr, hz]; exact imm_lt .q _
      have g : Gives [.lea (atReg bpReg ofs) (rg .q d.p)] s d (clobbers (.bofs d ofs)) ((atReg bpReg ofs).addr s) :=
        gives_lt hlt rfl (by rw [hz]) rfl
      exact g.rel hr hok.1 hcl
    · cases hs
  | sofs d ofs =>
    simp only [step] at hs
    split at hs
    · rename_i hz
      injection hs with hs
      subst hs
      injection he with he
      subst he
      rw [← hr.sp, ← frame_addr]
      have hlt : (atReg spReg ofs).addr s < 2 ^ d.z.bits := by rw [frame_addr, hz]; exact imm_lt .q _
      have g : Gives [.lea (atReg spReg ofs) (rg .q d.p)] s d (clobbers (.sofs d ofs)) ((atReg spReg ofs).addr s) :=
        gives_lt hlt rfl (by rw [hz]) rfl
      exact g.rel hr hok hcl
    · cases hs
  | load d a =>
    simp only [step] at hs
    cases h1 : val m.ρ a with
    | none => rw [h1] at hs; cases hs
    | some x =>
      rw [h1] at hs
      dsimp only at hs
      split at hs
      · rename_i hz
        injection hs with hs
        subst hs
        injection he with he
        subst he
        rw [← oval_val hr a x hok.2 h1, ← addr_val s a hz, ← hr.mem]
        exact (gives_lt (rdM_bits _ _ _) rfl rfl rfl : Gives _ s d _ _).rel hr hok.1 hcl
      · cases hs
  | loads d ofs =>
    injection hs with hs
    subst hs
    injection he with he
    subst he
    rw [← hr.bp hok.2, ← frame_addr, ← hr.mem]
    exact (gives_lt (rdM_bits _ _ _) rfl rfl rfl : Gives _ s d _ _).rel hr hok.1 hcl
  | store v a =>
    simp only [step] at hs
    cases h1 : val m.ρ v with
    | none => rw [h1] at hs; cases hs
    | some y =>
      cases h2 : val m.ρ a with
      | none => rw [h1, h2] at hs; cases hs
      | some x =>
        rw [h1, h2] at hs
        dsimp only at hs
        split at hs
        · rename_i hz
          injection hs with hs
          subst hs
          injection he with he
          subst he
          refine ⟨{ s with mem := wrM s.mem ((addrOf a).addr s) v.z.bytes (oval v.z s v) },
            by simp only [execs, emitStore_run, Option.bind_some], ⟨hr.regs, hr.sp, hr.bp, ?_, hr.res⟩⟩
          show wrM s.mem _ _ _ = wrM m.mem _ _ _
          rw [addr_val s a hz, oval_val hr v y hok.1 h1, oval_val hr a x hok.2 h2, hr.mem]
        · cases hs
  | stores v ofs =>
    simp only [step] at hs
    cases h1 : val m.ρ v with
    | none => rw [h1] at hs; cases hs
    | some y =>
      rw [h1] at hs
      injection hs with hs
      subst hs
      injection he with he
      subst he
      refine ⟨{ s with mem := wrM s.mem ((atReg bpReg ofs).addr s) v.z.bytes (oval v.z s v) },
            by simp only [execs, emitStore_run, Option.bind_some], ⟨hr.regs, hr.sp, hr.bp, ?_, hr.res⟩⟩
      show wrM s.mem _ _ _ = wrM m.mem _ _ _
      rw [frame_addr, hr.bp hok.2, oval_val hr v y hok.1 h1, hr.mem]
  | result v =>
    simp only [step] at hs
    cases h1 : val m.ρ v with
    | none => rw [h1] at hs; cases hs
    | some y =>
      rw [h1] at hs
      injection hs with hs
      subst hs
      injection he with he
      subst he
      obtain ⟨s1, e1, r1, v1, m1⟩ := mov_gives { p := aI, z := v.z } v s (clobbers (.result v)) rfl
      have put := hr.put (f := clobbers (.result v)) (d := { p := aI, z := v.z }) ⟨(by decide : aI < 15), fun _ => (by decide : aI ≠ 12)⟩ r1 hcl v1 m1
      refine ⟨s1, e1, ⟨?_, put.sp, put.bp, put.mem, ?_⟩⟩
      · intro p z x hp hx
        apply put.regs p z x hp
        simp only [Mach.put, Env.set]
        by_cases h : p = aI
        · subst h; cases hx
        · rw [if_neg h]; exact hx
      · intro z x hx
        injection hx with hx
        injection hx with hz hx
        subst hz; subst hx
        rw [← oval_val hr v y hok h1]
        exact v1
  | keep =>
    injection hs with hs
    subst hs
    injection he with he
    subst he
    exact ⟨s, rfl, hr⟩

/-! ## Sequences and jumps -/

/-- `emit_bb_irs`, src/cc/arch/x64/ir_x64.c and src/cc/backend/emit_code.c: one instruction after the other. -/
def emitAll : List Ir → Option (List Ins)
  | [] => some []
  | i :: is => (emit i).bind fun a => (emitAll is).map (a ++ ·)

/-- The meaning of a straight-line piece of code. -/
def stepAll : List Ir → Mach → Option Mach
  | [], m => some m
  | i :: is, m => (step (clobbers i) i m).bind (stepAll is)

/-- **C65.**  A basic block without its jump. -/
theorem emitAll_correct (frame : Bool) : ∀ (is : List Ir) (code : List Ins) (m m' : Mach) (s : St),
    (∀ i ∈ is, Ok frame i) → emitAll is = some code → Rel frame m s → stepAll is m = some m' →
    ∃ s', execs code s = some s' ∧ Rel frame m' s' := by
  intro is
  induction is with
  | nil =>
    intro code m m' s _ he hr hs
    injection he with he
    injection hs with hs
    subst he; subst hs
    exact ⟨s, rfl, hr⟩
  | cons i is ih =>
    intro code m m' s hok he hr hs
    simp only [emitAll] at he
    simp only [stepAll] at hs
    cases h1 : emit i with
    | none => rw [h1] at he; cases he
    | some a =>
      cases h2 : emitAll is with
      | none => rw [h1, h2] at he; cases he
      | some b =>
        rw [h1, h2] at he
        injection he with he
        subst he
        cases h3 : step (clobbers i) i m with
        | none => rw [h3] at hs; cases hs
        | some m1 =>
          rw [h3] at hs
          obtain ⟨s1, e1, r1⟩ := emit_correct frame i a m m1 s (hok i (by simp)) h1 hr h3
          obtain ⟨s2, e2, r2⟩ := ih b m1 m' s1 (fun j hj => hok j (by simp [hj])) h2 r1 hs
          exact ⟨s2, by rw [execs_append, e1, Option.bind_some, e2], r2⟩

/-- The integer part of `ei_jmp`, src/cc/arch/x64/ir_x64.c:851-918: the comparison and the number of Jcc. -/
def emitJmp (c : Nat) (o1 : V) (o2 : Opr) : Option (Ins × Nat) := (ccOf c).map fun cc => (emitCmp o1 o2, cc)

/-- **C65.**  A conditional jump is taken exactly when its condition holds, and changes no register. -/
theorem jmp_correct (frame : Bool) (c : Nat) (o1 : V) (o2 : Opr) (i : Ins) (cc : Nat) (m : Mach) (s : St) (a b : Nat)
    (h1 : o1.p < 15) (h2 : o2.lt) (hz : o2.z = o1.z) (he : emitJmp c o1 o2 = some (i, cc)) (hr : Rel frame m s)
    (ha : val m.ρ (.reg o1) = some a) (hb : val m.ρ o2 = some b) :
    ∃ s' f, exec i s = some s' ∧ Rel frame m s' ∧ s'.fl = some f ∧
      ccTaken cc f = Cond.holds c (Cond.cmpW o1.z.bits c a b) := by
  unfold emitJmp at he
  cases hcc : ccOf c with
  | none => rw [hcc] at he; cases he
  | some k =>
    rw [hcc] at he
    injection he with he
    injection he with e1 e2
    subst e1; subst e2
    obtain ⟨f, x1, x2⟩ := cmp_run c k hcc o1 o2 s
    refine ⟨_, f, x1, ⟨hr.regs, hr.sp, hr.bp, hr.mem, hr.res⟩, rfl, ?_⟩
    have e2 := oval_val hr o2 b h2 hb
    rw [hz] at e2
    rw [x2, hr.val h1 ha, e2]

end Verif.X64Sel

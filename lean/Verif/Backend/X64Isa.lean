import Verif.Backend.Cond
/-
The part of the x86-64 instruction set the compiler and the assembler use for integers (Intel SDM vol. 2).  This file
is specification: it does not model code of /repo.  Instruction selection (X64Sel) and encoding (X64Enc) are measured
against it.

Values are natural numbers below `2 ^ bits`.  Flags are `none` where the architecture, or this file, does not say
what they are: code that depends on them is stuck.  Memory accesses never fault; an address is taken modulo 2^64.
-/
namespace Verif.X64
open Verif.Util

/-- Operand sizes. -/
inductive Sz where
  | b | w | l | q
deriving DecidableEq, Repr

def Sz.bits : Sz → Nat
  | .b => 8
  | .w => 16
  | .l => 32
  | .q => 64

def Sz.bytes : Sz → Nat
  | .b => 1
  | .w => 2
  | .l => 4
  | .q => 8

def Sz.all : List Sz := [.b, .w, .l, .q]

/-- A register operand: the hardware number 0-15 of the 64-bit register it is a part of; `hi`: %ah, %ch, %dh, %bh. -/
structure Rg where
  z : Sz
  n : Nat
  hi : Bool := false
deriving DecidableEq, Repr

structure St where
  r : Nat → Nat
  fl : Option Cond.Flags
  mem : Nat → Nat

/-- The value of a register operand. -/
def rdR (g : Rg) (s : St) : Nat := if g.hi then s.r g.n / 256 % 256 else s.r g.n % 2 ^ g.z.bits

/-- The whole register after `v` was written to a part of it: 32-bit writes clear the upper half, 16-bit and 8-bit
writes keep the rest. -/
def merge (z : Sz) (hi : Bool) (old v : Nat) : Nat :=
  match z with
  | .q => v % 2 ^ 64
  | .l => v % 2 ^ 32
  | .w => old / 65536 * 65536 + v % 65536
  | .b => if hi then old / 65536 * 65536 + v % 256 * 256 + old % 256 else old / 256 * 256 + v % 256

def wrR (g : Rg) (v : Nat) (s : St) : St :=
  { s with r := fun m => if m = g.n then merge g.z g.hi (s.r g.n) v else s.r m }

/-- `k` bytes at an address, the lowest first. -/
def rdM (mem : Nat → Nat) (a : Nat) : Nat → Nat
  | 0 => 0
  | k + 1 => mem (a % 2 ^ 64) % 256 + 256 * rdM mem (a + 1) k

def wrM (mem : Nat → Nat) (a : Nat) : Nat → Nat → (Nat → Nat)
  | 0, _ => mem
  | k + 1, v => wrM (fun x => if x = a % 2 ^ 64 then v % 256 else mem x) (a + 1) k (v / 256)

/-- A memory operand `disp(base, index, 2^scale)`. -/
structure Mem where
  base : Option Nat
  index : Option (Nat × Nat) := none
  disp : Int
deriving DecidableEq, Repr

def Mem.addr (m : Mem) (s : St) : Nat :=
  (toU 64 (((match m.base with | some b => s.r b | none => 0 : Nat) : Int)
    + ((match m.index with | some (i, k) => s.r i * 2 ^ k | none => 0 : Nat) : Int) + m.disp)).toNat

inductive Alu where
  | add | or | and | sub | xor | cmp
deriving DecidableEq, Repr

inductive Un where
  | not | neg | inc | dec
deriving DecidableEq, Repr

inductive MulDiv where
  | mul | div | idiv
deriving DecidableEq, Repr

inductive Sh where
  | shl | shr | sar
deriving DecidableEq, Repr

/-- Instructions, operands in the order source, destination.  `cc` is the condition number 0-15 of the encoding. -/
inductive Ins where
  | mov (s d : Rg)
  | movI (v : Int) (d : Rg)
  | movx (sx : Bool) (s d : Rg)
  | alu (o : Alu) (s d : Rg)
  | aluI (o : Alu) (v : Int) (d : Rg)
  | test (s d : Rg)
  | un (o : Un) (d : Rg)
  | md (o : MulDiv) (s : Rg)
  | sh (o : Sh) (d : Rg)
  | shI (o : Sh) (c : Nat) (d : Rg)
  | cwtl | cltd | cqto
  | set (cc : Nat) (d : Rg)
  | lea (m : Mem) (d : Rg)
  | load (m : Mem) (d : Rg)
  | store (s : Rg) (m : Mem)
  | storeI (z : Sz) (v : Int) (m : Mem)
deriving DecidableEq, Repr

/-- The conditions of Jcc and SETcc; the odd numbers negate the even ones. -/
def ccTaken (cc : Nat) (f : Cond.Flags) : Bool :=
  (match cc / 2 with
    | 0 => f.of
    | 1 => f.cf
    | 2 => f.zf
    | 3 => f.cf || f.zf
    | 4 => f.sf
    | 5 => f.pf
    | 6 => f.sf != f.of
    | _ => f.zf || f.sf != f.of) != decide (cc % 2 = 1)

def imm (z : Sz) (v : Int) : Nat := (toU z.bits v).toNat

/-- The result of an arithmetic instruction; CMP has none. -/
def aluRes (o : Alu) (w : Nat) (src dst : Nat) : Option Nat :=
  match o with
  | .add => some ((dst + src) % 2 ^ w)
  | .or => some (dst ||| src)
  | .and => some (dst &&& src)
  | .sub => some ((dst + 2 ^ w - src) % 2 ^ w)
  | .xor => some (dst ^^^ src)
  | .cmp => none

def execAlu (o : Alu) (z : Sz) (src : Nat) (d : Rg) (s : St) : St :=
  match aluRes o z.bits src (rdR d s) with
  | some v => { wrR d v s with fl := none }
  | none => { s with fl := some (Cond.x64cmp z.bits (rdR d s) src) }

/-- `%rax` and `%rdx` of a size. -/
def ra (z : Sz) : Rg := { z := z, n := 0 }
def rd (z : Sz) : Rg := { z := z, n := 2 }
def rah : Rg := { z := .b, n := 0, hi := true }
def rcl : Rg := { z := .b, n := 1 }

/-- MUL, DIV, IDIV; `none` is the divide error. -/
def execMd (o : MulDiv) (z : Sz) (v : Nat) (s : St) : Option St :=
  let w := z.bits
  match o, z with
  | .mul, .b => some { wrR (ra .w) (rdR (ra .b) s * v) s with fl := none }
  | .mul, _ =>
    let p := rdR (ra z) s * v
    some { wrR (rd z) (p / 2 ^ w) (wrR (ra z) (p % 2 ^ w) s) with fl := none }
  | .div, .b =>
    let n := rdR (ra .w) s
    if v = 0 ∨ n / v ≥ 2 ^ w then none
    else some { wrR rah (n % v) (wrR (ra .b) (n / v) s) with fl := none }
  | .div, _ =>
    let n := rdR (rd z) s * 2 ^ w + rdR (ra z) s
    if v = 0 ∨ n / v ≥ 2 ^ w then none
    else some { wrR (rd z) (n % v) (wrR (ra z) (n / v) s) with fl := none }
  | .idiv, .b =>
    let n := toS 16 (rdR (ra .w) s)
    let d := toS w v
    if d = 0 ∨ n.tdiv d < -2 ^ (w - 1) ∨ n.tdiv d ≥ 2 ^ (w - 1) then none
    else some { wrR rah (imm .b (n.tmod d)) (wrR (ra .b) (imm .b (n.tdiv d)) s) with fl := none }
  | .idiv, _ =>
    let n := toS (2 * w) ((rdR (rd z) s : Nat) * 2 ^ w + (rdR (ra z) s : Nat))
    let d := toS w v
    if d = 0 ∨ n.tdiv d < -2 ^ (w - 1) ∨ n.tdiv d ≥ 2 ^ (w - 1) then none
    else some { wrR (rd z) (imm z (n.tmod d)) (wrR (ra z) (imm z (n.tdiv d)) s) with fl := none }

/-- Shifts; the count is taken modulo 64 for 64-bit operands, modulo 32 otherwise. -/
def shRes (o : Sh) (z : Sz) (cnt v : Nat) : Nat :=
  let c := cnt % (if z = .q then 64 else 32)
  match o with
  | .shl => v * 2 ^ c % 2 ^ z.bits
  | .shr => v / 2 ^ c
  | .sar => imm z (toS z.bits v / (2 ^ c : Nat))

/-- CDQ and CQO: the sign of `%rax` in all bits of `%rdx`. -/
def signFill (z : Sz) (s : St) : St := wrR (rd z) (if toS z.bits (rdR (ra z) s) < 0 then 2 ^ z.bits - 1 else 0) s

def exec (i : Ins) (s : St) : Option St :=
  match i with
  | .mov a d => some (wrR d (rdR a s) s)
  | .movI v d => some (wrR d (imm d.z v) s)
  | .movx sx a d => some (wrR d (if sx then imm d.z (toS a.z.bits (rdR a s)) else rdR a s) s)
  | .alu o a d => some (execAlu o d.z (rdR a s) d s)
  | .aluI o v d => some (execAlu o d.z (imm d.z v) d s)
  | .test a d => some { s with fl := if a = d then some (Cond.x64test d.z.bits (rdR d s)) else none }
  | .un .not d => some (wrR d (2 ^ d.z.bits - 1 - rdR d s) s)
  | .un .neg d => some { wrR d ((2 ^ d.z.bits - rdR d s) % 2 ^ d.z.bits) s with fl := none }
  | .un .inc d => some { wrR d ((rdR d s + 1) % 2 ^ d.z.bits) s with fl := none }
  | .un .dec d => some { wrR d ((rdR d s + 2 ^ d.z.bits - 1) % 2 ^ d.z.bits) s with fl := none }
  | .md o a => execMd o a.z (rdR a s) s
  | .sh o d => some { wrR d (shRes o d.z (rdR rcl s) (rdR d s)) s with fl := none }
  | .shI o c d => some { wrR d (shRes o d.z c (rdR d s)) s with fl := none }
  | .cwtl => some (wrR (ra .l) (imm .l (toS 16 (rdR (ra .w) s))) s)
  | .cltd => some (signFill .l s)
  | .cqto => some (signFill .q s)
  | .set cc d => s.fl.map fun f => wrR d (if ccTaken cc f then 1 else 0) s
  | .lea m d => some (wrR d (m.addr s) s)
  | .load m d => some (wrR d (rdM s.mem (m.addr s) d.z.bytes) s)
  | .store a m => some { s with mem := wrM s.mem (m.addr s) a.z.bytes (rdR a s) }
  | .storeI z v m => some { s with mem := wrM s.mem (m.addr s) z.bytes (imm z v) }

def execs : List Ins → St → Option St
  | [], s => some s
  | i :: is, s => (exec i s).bind (execs is)

end Verif.X64

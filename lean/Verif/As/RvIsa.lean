import Verif.Util.Field
/-!
# Specification: the RV64GC instruction set

Decoder and register semantics written from the RISC-V unprivileged manual (base I, M, F, D and C chapters), with nothing
taken from the assembler. It is the specification the encoder model (`RvAsm`) and the relocation model (`Ld.Reloc`) are
judged against. Instructions outside what the assembler can name decode to `none`.
-/
namespace Verif.RvIsa
open Verif.Field

/-- Register-register integer instructions (OP and OP-32). -/
inductive AluOp
  | add | sub | sll | slt | sltu | xor | srl | sra | or | and
  | mul | div | divu | rem | remu
  | addw | subw | sllw | srlw | sraw
  | mulw | divw | divuw | remw | remuw
  deriving DecidableEq, Repr

/-- Register-immediate integer instructions (OP-IMM and OP-IMM-32). -/
inductive ImmOp
  | addi | slti | sltiu | xori | ori | andi | slli | srli | srai
  | addiw | slliw | srliw | sraiw
  deriving DecidableEq, Repr

inductive LoadOp | lb | lh | lw | ld | lbu | lhu | lwu
  deriving DecidableEq, Repr
inductive StoreOp | sb | sh | sw | sd
  deriving DecidableEq, Repr
inductive BrOp | beq | bne | blt | bge | bltu | bgeu
  deriving DecidableEq, Repr

/-- Floating-point instructions with two floating sources and a floating result. -/
inductive FpOp | fadd | fsub | fmul | fdiv | fsgnj | fsgnjn | fsgnjx
  deriving DecidableEq, Repr
inductive FcmpOp | feq | flt | fle
  deriving DecidableEq, Repr
/-- Integer formats of conversions. -/
inductive IntFmt | w | wu | l | lu
  deriving DecidableEq, Repr

/-- Decoded instructions. `dbl` selects double precision. -/
inductive RV
  | op (f : AluOp) (rd rs1 rs2 : Nat)
  | opImm (f : ImmOp) (rd rs1 : Nat) (imm : Int)
  | lui (rd : Nat) (imm : Int)
  | auipc (rd : Nat) (imm : Int)
  | load (f : LoadOp) (rd rs1 : Nat) (ofs : Int)
  | store (f : StoreOp) (rs2 rs1 : Nat) (ofs : Int)
  | fload (dbl : Bool) (rd rs1 : Nat) (ofs : Int)
  | fstore (dbl : Bool) (rs2 rs1 : Nat) (ofs : Int)
  | jal (rd : Nat) (ofs : Int)
  | jalr (rd rs1 : Nat) (ofs : Int)
  | branch (f : BrOp) (rs1 rs2 : Nat) (ofs : Int)
  | ecall
  | ebreak
  | fp (f : FpOp) (dbl : Bool) (rd rs1 rs2 rm : Nat)
  | fsqrt (dbl : Bool) (rd rs1 rm : Nat)
  | fcmp (f : FcmpOp) (dbl : Bool) (rd rs1 rs2 : Nat)
  /-- integer register to floating register -/
  | fcvtFI (dbl : Bool) (src : IntFmt) (rd rs1 rm : Nat)
  /-- floating register to integer register -/
  | fcvtIF (dst : IntFmt) (dbl : Bool) (rd rs1 rm : Nat)
  | fcvtDS (rd rs1 rm : Nat)
  | fcvtSD (rd rs1 rm : Nat)
  | fmvX (dbl : Bool) (rd rs1 : Nat)
  deriving DecidableEq, Repr

/-- OP (0110011) by `funct7`, `funct3`. -/
def decOp (f7 f3 : Nat) : Option AluOp :=
  match f7, f3 with
  | 0b0000000, 0b000 => some .add  | 0b0100000, 0b000 => some .sub
  | 0b0000000, 0b001 => some .sll  | 0b0000000, 0b010 => some .slt
  | 0b0000000, 0b011 => some .sltu | 0b0000000, 0b100 => some .xor
  | 0b0000000, 0b101 => some .srl  | 0b0100000, 0b101 => some .sra
  | 0b0000000, 0b110 => some .or   | 0b0000000, 0b111 => some .and
  | 0b0000001, 0b000 => some .mul  | 0b0000001, 0b100 => some .div
  | 0b0000001, 0b101 => some .divu | 0b0000001, 0b110 => some .rem
  | 0b0000001, 0b111 => some .remu
  | _, _ => none

/-- OP-32 (0111011) by `funct7`, `funct3`. -/
def decOp32 (f7 f3 : Nat) : Option AluOp :=
  match f7, f3 with
  | 0b0000000, 0b000 => some .addw  | 0b0100000, 0b000 => some .subw
  | 0b0000000, 0b001 => some .sllw  | 0b0000000, 0b101 => some .srlw
  | 0b0100000, 0b101 => some .sraw
  | 0b0000001, 0b000 => some .mulw  | 0b0000001, 0b100 => some .divw
  | 0b0000001, 0b101 => some .divuw | 0b0000001, 0b110 => some .remw
  | 0b0000001, 0b111 => some .remuw
  | _, _ => none

def decLoad : Nat → Option LoadOp
  | 0 => some .lb | 1 => some .lh | 2 => some .lw | 3 => some .ld
  | 4 => some .lbu | 5 => some .lhu | 6 => some .lwu | _ => none
def decStore : Nat → Option StoreOp
  | 0 => some .sb | 1 => some .sh | 2 => some .sw | 3 => some .sd | _ => none
def decBr : Nat → Option BrOp
  | 0 => some .beq | 1 => some .bne | 4 => some .blt | 5 => some .bge
  | 6 => some .bltu | 7 => some .bgeu | _ => none
def decInt : Nat → Option IntFmt
  | 0 => some .w | 1 => some .wu | 2 => some .l | 3 => some .lu | _ => none

/-- OP-IMM (0010011): 12-bit immediate `i`; shifts use a 6-bit amount and `funct6`. -/
def decImm (f3 i rd rs1 : Nat) : Option RV :=
  match f3 with
  | 0b000 => some (.opImm .addi rd rs1 (sext 12 i))
  | 0b010 => some (.opImm .slti rd rs1 (sext 12 i))
  | 0b011 => some (.opImm .sltiu rd rs1 (sext 12 i))
  | 0b100 => some (.opImm .xori rd rs1 (sext 12 i))
  | 0b110 => some (.opImm .ori rd rs1 (sext 12 i))
  | 0b111 => some (.opImm .andi rd rs1 (sext 12 i))
  | 0b001 => if i / 64 = 0 then some (.opImm .slli rd rs1 (i % 64 : Nat)) else none
  | 0b101 => if i / 64 = 0 then some (.opImm .srli rd rs1 (i % 64 : Nat))
             else if i / 64 = 0b010000 then some (.opImm .srai rd rs1 (i % 64 : Nat)) else none
  | _ => none

/-- OP-IMM-32 (0011011): shifts use a 5-bit amount and `funct7`. -/
def decImm32 (f3 i rd rs1 : Nat) : Option RV :=
  match f3 with
  | 0b000 => some (.opImm .addiw rd rs1 (sext 12 i))
  | 0b001 => if i / 32 = 0 then some (.opImm .slliw rd rs1 (i % 32 : Nat)) else none
  | 0b101 => if i / 32 = 0 then some (.opImm .srliw rd rs1 (i % 32 : Nat))
             else if i / 32 = 0b0100000 then some (.opImm .sraiw rd rs1 (i % 32 : Nat)) else none
  | _ => none

/-- OP-FP (1010011): `f7 = funct5 ++ fmt` with `fmt` 0 single, 1 double. -/
def decFp (f7 rs2 rs1 f3 rd : Nat) : Option RV :=
  if f7 % 4 < 2 then
    let dbl := f7 % 4 == 1
    match f7 / 4 with
    | 0b00000 => some (.fp .fadd dbl rd rs1 rs2 f3)
    | 0b00001 => some (.fp .fsub dbl rd rs1 rs2 f3)
    | 0b00010 => some (.fp .fmul dbl rd rs1 rs2 f3)
    | 0b00011 => some (.fp .fdiv dbl rd rs1 rs2 f3)
    | 0b01011 => if rs2 = 0 then some (.fsqrt dbl rd rs1 f3) else none
    | 0b00100 => match f3 with
      | 0 => some (.fp .fsgnj dbl rd rs1 rs2 0)
      | 1 => some (.fp .fsgnjn dbl rd rs1 rs2 0)
      | 2 => some (.fp .fsgnjx dbl rd rs1 rs2 0)
      | _ => none
    | 0b10100 => match f3 with
      | 0 => some (.fcmp .fle dbl rd rs1 rs2)
      | 1 => some (.fcmp .flt dbl rd rs1 rs2)
      | 2 => some (.fcmp .feq dbl rd rs1 rs2)
      | _ => none
    | 0b11010 => (decInt rs2).map (fun s => .fcvtFI dbl s rd rs1 f3)
    | 0b11000 => (decInt rs2).map (fun s => .fcvtIF s dbl rd rs1 f3)
    | 0b01000 =>
      if dbl = true ∧ rs2 = 0 then some (.fcvtDS rd rs1 f3)
      else if dbl = false ∧ rs2 = 1 then some (.fcvtSD rd rs1 f3) else none
    | 0b11100 => if rs2 = 0 ∧ f3 = 0 then some (.fmvX dbl rd rs1) else none
    | _ => none
  else none

/-- The branch offset of a B-type word. -/
def bImm (w : Nat) : Int :=
  sext 13 (field w 31 31 * 2 ^ 12 + field w 7 7 * 2 ^ 11 + field w 30 25 * 2 ^ 5 + field w 11 8 * 2)

/-- The jump offset of a J-type word. -/
def jImm (w : Nat) : Int :=
  sext 21 (field w 31 31 * 2 ^ 20 + field w 19 12 * 2 ^ 12 + field w 20 20 * 2 ^ 11 + field w 30 21 * 2)

/-- 32-bit instructions. -/
def decode32 (w : Nat) : Option RV :=
  let rd := field w 11 7
  let f3 := field w 14 12
  let rs1 := field w 19 15
  let rs2 := field w 24 20
  let f7 := field w 31 25
  let i := field w 31 20
  match field w 6 0 with
  | 0b0110011 => (decOp f7 f3).map (fun f => .op f rd rs1 rs2)
  | 0b0111011 => (decOp32 f7 f3).map (fun f => .op f rd rs1 rs2)
  | 0b0010011 => decImm f3 i rd rs1
  | 0b0011011 => decImm32 f3 i rd rs1
  | 0b0110111 => some (.lui rd (sext 20 (field w 31 12) * 4096))
  | 0b0010111 => some (.auipc rd (sext 20 (field w 31 12) * 4096))
  | 0b0000011 => (decLoad f3).map (fun f => .load f rd rs1 (sext 12 i))
  | 0b0100011 => (decStore f3).map (fun f => .store f rs2 rs1 (sext 12 (f7 * 32 + rd)))
  | 0b1101111 => some (.jal rd (jImm w))
  | 0b1100111 => if f3 = 0 then some (.jalr rd rs1 (sext 12 i)) else none
  | 0b1100011 => (decBr f3).map (fun f => .branch f rs1 rs2 (bImm w))
  | 0b1110011 => if w = 0b1110011 then some .ecall else if w = 2 ^ 20 + 0b1110011 then some .ebreak else none
  | 0b0000111 => if f3 = 3 then some (.fload true rd rs1 (sext 12 i))
                 else if f3 = 2 then some (.fload false rd rs1 (sext 12 i)) else none
  | 0b0100111 => if f3 = 3 then some (.fstore true rs2 rs1 (sext 12 (f7 * 32 + rd)))
                 else if f3 = 2 then some (.fstore false rs2 rs1 (sext 12 (f7 * 32 + rd))) else none
  | 0b1010011 => decFp f7 rs2 rs1 f3 rd
  | _ => none

/-- The offset of `c.j`: `offset[11|4|9:8|10|6|7|3:1|5]` in bits 12–2. -/
def cjImm (w : Nat) : Int :=
  sext 12 (field w 12 12 * 2 ^ 11 + field w 8 8 * 2 ^ 10 + field w 10 9 * 2 ^ 8 + field w 6 6 * 2 ^ 7
    + field w 7 7 * 2 ^ 6 + field w 2 2 * 2 ^ 5 + field w 11 11 * 2 ^ 4 + field w 5 3 * 2)

/-- The offset of `c.beqz`, `c.bnez`: `offset[8|4:3]` in bits 12–10, `offset[7:6|2:1|5]` in bits 6–2. -/
def cbImm (w : Nat) : Int :=
  sext 9 (field w 12 12 * 2 ^ 8 + field w 6 5 * 2 ^ 6 + field w 2 2 * 2 ^ 5 + field w 11 10 * 2 ^ 3 + field w 4 3 * 2)

/-- Quadrant 0. -/
def decC0 (w : Nat) : Option RV :=
  let r := 8 + field w 4 2
  let b := 8 + field w 9 7
  let ofsD : Int := ((field w 6 5 * 2 ^ 6 + field w 12 10 * 2 ^ 3 : Nat) : Int)
  let ofsW : Int := ((field w 5 5 * 2 ^ 6 + field w 12 10 * 2 ^ 3 + field w 6 6 * 2 ^ 2 : Nat) : Int)
  match field w 15 13 with
  | 0b001 => some (.fload true r b ofsD)
  | 0b010 => some (.load .lw r b ofsW)
  | 0b011 => some (.load .ld r b ofsD)
  | 0b101 => some (.fstore true r b ofsD)
  | 0b110 => some (.store .sw r b ofsW)
  | 0b111 => some (.store .sd r b ofsD)
  | _ => none

/-- Quadrant 1, `funct3 = 100`: arithmetic on `x8`–`x15`. -/
def decC1Alu (w : Nat) : Option RV :=
  let d := 8 + field w 9 7
  let s := 8 + field w 4 2
  let sh : Int := ((field w 12 12 * 32 + field w 6 2 : Nat) : Int)
  match field w 11 10 with
  | 0 => some (.opImm .srli d d sh)
  | 1 => some (.opImm .srai d d sh)
  | 2 => some (.opImm .andi d d (sext 6 (field w 12 12 * 32 + field w 6 2)))
  | _ => match field w 12 12, field w 6 5 with
    | 0, 0 => some (.op .sub d d s)
    | 0, 1 => some (.op .xor d d s)
    | 0, 2 => some (.op .or d d s)
    | 0, 3 => some (.op .and d d s)
    | 1, 0 => some (.op .subw d d s)
    | 1, 1 => some (.op .addw d d s)
    | _, _ => none

/-- Quadrant 1. `c.addiw` with `rd = x0` and zero immediates of `c.lui`, `c.addi16sp` are reserved. -/
def decC1 (w : Nat) : Option RV :=
  let rd := field w 11 7
  let i6 := sext 6 (field w 12 12 * 32 + field w 6 2)
  match field w 15 13 with
  | 0b000 => some (.opImm .addi rd rd i6)
  | 0b001 => if rd = 0 then none else some (.opImm .addiw rd rd i6)
  | 0b010 => some (.opImm .addi rd 0 i6)
  | 0b011 =>
    if rd = 2 then
      let n := sext 10 (field w 12 12 * 2 ^ 9 + field w 4 3 * 2 ^ 7 + field w 5 5 * 2 ^ 6 + field w 2 2 * 2 ^ 5
        + field w 6 6 * 2 ^ 4)
      if n = 0 then none else some (.opImm .addi 2 2 n)
    else if i6 = 0 then none else some (.lui rd (i6 * 4096))
  | 0b100 => decC1Alu w
  | 0b101 => some (.jal 0 (cjImm w))
  | 0b110 => some (.branch .beq (8 + field w 9 7) 0 (cbImm w))
  | _ => some (.branch .bne (8 + field w 9 7) 0 (cbImm w))

/-- Quadrant 2. `c.ldsp` with `rd = x0` and `c.jr x0` are reserved. -/
def decC2 (w : Nat) : Option RV :=
  let rd := field w 11 7
  let rs2 := field w 6 2
  let ofsLd : Int := ((field w 4 2 * 2 ^ 6 + field w 12 12 * 2 ^ 5 + field w 6 5 * 2 ^ 3 : Nat) : Int)
  let ofsSd : Int := ((field w 9 7 * 2 ^ 6 + field w 12 10 * 2 ^ 3 : Nat) : Int)
  match field w 15 13 with
  | 0b000 => some (.opImm .slli rd rd ((field w 12 12 * 32 + field w 6 2 : Nat) : Int))
  | 0b001 => some (.fload true rd 2 ofsLd)
  | 0b011 => if rd = 0 then none else some (.load .ld rd 2 ofsLd)
  | 0b100 =>
    if field w 12 12 = 0 then
      if rs2 = 0 then (if rd = 0 then none else some (.jalr 0 rd 0)) else some (.op .add rd 0 rs2)
    else
      if rs2 = 0 then (if rd = 0 then some .ebreak else some (.jalr 1 rd 0)) else some (.op .add rd rd rs2)
  | 0b101 => some (.fstore true rs2 2 ofsSd)
  | 0b111 => some (.store .sd rs2 2 ofsSd)
  | _ => none

/-- 16-bit instructions, expanded to the base instruction they stand for. -/
def decode16 (w : Nat) : Option RV :=
  match w % 4 with
  | 0 => decC0 w
  | 1 => decC1 w
  | 2 => decC2 w
  | _ => none

/-- Little-endian instruction fetch and decode of a whole code buffer; a parcel whose low two bits are 11 is a 32-bit
instruction. -/
def decodeAll : List Nat → Option (List RV)
  | [] => some []
  | a :: b :: c :: d :: rest =>
    if a % 4 = 3 then
      match decode32 (a + 2 ^ 8 * b + 2 ^ 16 * c + 2 ^ 24 * d), decodeAll rest with
      | some i, some is => some (i :: is)
      | _, _ => none
    else
      match decode16 (a + 2 ^ 8 * b), decodeAll (c :: d :: rest) with
      | some i, some is => some (i :: is)
      | _, _ => none
  | a :: b :: rest =>
    match decode16 (a + 2 ^ 8 * b), decodeAll rest with
    | some i, some is => some (i :: is)
    | _, _ => none
  | _ => none

/-! ## Register semantics -/

abbrev Regs := Nat → BitVec 64

/-- `x0` reads as zero. -/
def rget (s : Regs) (r : Nat) : BitVec 64 := if r = 0 then 0 else s r

/-- Writes to `x0` are discarded. -/
def rset (s : Regs) (r : Nat) (v : BitVec 64) : Regs := fun x => if x = r ∧ r ≠ 0 then v else s x

/-- Result of a 32-bit operation, sign-extended. -/
def sx32 (x : BitVec 32) : BitVec 64 := x.signExtend 64

def lo32 (x : BitVec 64) : BitVec 32 := x.setWidth 32

/-- Division conventions of the M extension. -/
def divS {n : Nat} (x y : BitVec n) : BitVec n := if y = 0 then -1 else x.sdiv y
def divU {n : Nat} (x y : BitVec n) : BitVec n := if y = 0 then -1 else x.udiv y
def remS {n : Nat} (x y : BitVec n) : BitVec n := if y = 0 then x else x.srem y
def remU {n : Nat} (x y : BitVec n) : BitVec n := if y = 0 then x else x.umod y

def b2v (b : Bool) : BitVec 64 := if b then 1 else 0

def aluSem (f : AluOp) (x y : BitVec 64) : BitVec 64 :=
  match f with
  | .add => x + y | .sub => x - y
  | .sll => x <<< (y.toNat % 64) | .srl => x >>> (y.toNat % 64) | .sra => x.sshiftRight (y.toNat % 64)
  | .slt => b2v (x.slt y) | .sltu => b2v (x.ult y)
  | .xor => x ^^^ y | .or => x ||| y | .and => x &&& y
  | .mul => x * y | .div => divS x y | .divu => divU x y | .rem => remS x y | .remu => remU x y
  | .addw => sx32 (lo32 x + lo32 y) | .subw => sx32 (lo32 x - lo32 y)
  | .sllw => sx32 (lo32 x <<< (y.toNat % 32)) | .srlw => sx32 (lo32 x >>> (y.toNat % 32))
  | .sraw => sx32 ((lo32 x).sshiftRight (y.toNat % 32))
  | .mulw => sx32 (lo32 x * lo32 y) | .divw => sx32 (divS (lo32 x) (lo32 y))
  | .divuw => sx32 (divU (lo32 x) (lo32 y)) | .remw => sx32 (remS (lo32 x) (lo32 y))
  | .remuw => sx32 (remU (lo32 x) (lo32 y))

def immSem (f : ImmOp) (x : BitVec 64) (i : Int) : BitVec 64 :=
  let y := BitVec.ofInt 64 i
  match f with
  | .addi => x + y | .slti => b2v (x.slt y) | .sltiu => b2v (x.ult y)
  | .xori => x ^^^ y | .ori => x ||| y | .andi => x &&& y
  | .slli => x <<< i.toNat | .srli => x >>> i.toNat | .srai => x.sshiftRight i.toNat
  | .addiw => sx32 (lo32 (x + y))
  | .slliw => sx32 (lo32 x <<< i.toNat) | .srliw => sx32 (lo32 x >>> i.toNat)
  | .sraiw => sx32 ((lo32 x).sshiftRight i.toNat)

/-- One integer computational instruction; the others are not register-to-register. -/
def step (r : RV) (s : Regs) : Option Regs :=
  match r with
  | .op f rd rs1 rs2 => some (rset s rd (aluSem f (rget s rs1) (rget s rs2)))
  | .opImm f rd rs1 i => some (rset s rd (immSem f (rget s rs1) i))
  | .lui rd i => some (rset s rd (BitVec.ofInt 64 i))
  | _ => none

def run : List RV → Regs → Option Regs
  | [], s => some s
  | r :: rs, s => (step r s).bind (run rs)

end Verif.RvIsa

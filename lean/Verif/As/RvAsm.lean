import Verif.As.RvIsa
import Verif.Util.Wrap
/-!
# C38, C52 The RISC-V assembler encodes every instruction faithfully

Model of `src/as/arch/riscv64/riscv64_code.h` and of the encoding functions of `src/as/arch/riscv64/asm_code.c`: every
instruction of the assembler is turned into the bytes of its code buffer. The specification is the decoder and register
semantics of `RvIsa`, and a table of what each assembler mnemonic means (`effect`).

Numbers: registers are `Nat` (`reg.no`, 0 to 31), immediates `Int` (`int64_t`), instruction words `Nat`. The macros compute
in `int`/`int64_t`; the words are reduced modulo 2^16 / 2^32 when stored (`code16`, `code32`), which is what
`MAKE_CODE16`/`MAKE_CODE32` do with their `unsigned short` / `unsigned int` arrays. Simplification: `reg << k` overflowing
a signed `int` (UB in ISO C for `RTYPE(0x71, …)`) is taken to wrap.
-/
namespace Verif.RvAsm
open Verif.Field Verif.RvIsa Verif.Util

/-! ## Model: word layout -/

/-- riscv64_code.h:9 `IMM(imm, t, b)`. -/
def imm (x : Int) (t b : Nat) : Nat := (x / 2 ^ b % 2 ^ (t + 1 - b)).toNat

/-- riscv64_code.h:12 `RTYPE`. -/
def rtype (f7 rs2 rs1 f3 rd op : Nat) : Nat :=
  f7 <<< 25 ||| rs2 <<< 20 ||| rs1 <<< 15 ||| f3 <<< 12 ||| rd <<< 7 ||| op
/-- riscv64_code.h:13 `ITYPE`. -/
def itype (i : Int) (rs1 f3 rd op : Nat) : Nat :=
  imm i 11 0 <<< 20 ||| rs1 <<< 15 ||| f3 <<< 12 ||| rd <<< 7 ||| op
/-- riscv64_code.h:14 `STYPE`. -/
def stype (i : Int) (rs2 rs1 f3 op : Nat) : Nat :=
  imm i 11 5 <<< 25 ||| rs2 <<< 20 ||| rs1 <<< 15 ||| f3 <<< 12 ||| imm i 4 0 <<< 7 ||| op
/-- riscv64_code.h:16 `UTYPE`. -/
def utype (i : Int) (rd op : Nat) : Nat := imm i 31 12 <<< 12 ||| rd <<< 7 ||| op

/-- riscv64_code.h:195 `is_rvc_reg`. -/
def isRvc (r : Nat) : Bool := decide (8 ≤ r) && decide (r ≤ 15)
/-- riscv64_code.h:196 `to_rvc_reg`; only called on registers `is_rvc_reg` accepts. -/
def rvc (r : Nat) : Nat := r - 8

/-- asm_code.c:14-19 `make_code16` with asm_code.h `MAKE_CODE16`: two bytes, little endian. -/
def code16 (w : Nat) : List Nat := [w % 256, w / 2 ^ 8 % 256]
/-- asm_code.c:21-26 `make_code32` with asm_code.h `MAKE_CODE32`: four bytes, little endian. -/
def code32 (w : Nat) : List Nat := [w % 256, w / 2 ^ 8 % 256, w / 2 ^ 16 % 256, w / 2 ^ 24 % 256]

/-! ## Model: compressed instructions, riscv64_code.h:128-160 -/

/-- riscv64_code.h:129, 133, 134, 142: `C_LI`, `C_ADDI`, `C_ADDIW`, `C_SLLI` differ in the constant only. -/
def ci (base rd : Nat) (i : Int) : Nat := base ||| imm i 5 5 <<< 12 ||| rd <<< 7 ||| imm i 4 0 <<< 2
/-- riscv64_code.h:139, 143, 144: `C_ANDI`, `C_SRLI`, `C_SRAI`. -/
def cb (base rd : Nat) (i : Int) : Nat := base ||| imm i 5 5 <<< 12 ||| rvc rd <<< 7 ||| imm i 4 0 <<< 2
/-- riscv64_code.h:132, 136-138, 140, 141: `C_ADDW`, `C_SUB`, `C_SUBW`, `C_AND`, `C_OR`, `C_XOR`. -/
def ca (base rd rs : Nat) : Nat := base ||| rvc rd <<< 7 ||| rvc rs <<< 2
/-- riscv64_code.h:128, 131: `C_MV`, `C_ADD`. -/
def cr (base rd rs : Nat) : Nat := base ||| rd <<< 7 ||| rs <<< 2
/-- riscv64_code.h:129 `C_LI`. -/
def C_LI (rd : Nat) (i : Int) : Nat := ci 0x4001 rd i
/-- riscv64_code.h:130 `C_LUI`. -/
def C_LUI (rd : Nat) (i : Int) : Nat := 0x6001 ||| imm i 17 17 <<< 12 ||| rd <<< 7 ||| imm i 16 12 <<< 2
/-- riscv64_code.h:128 `C_MV`. -/
def C_MV (rd rs : Nat) : Nat := cr 0x8002 rd rs
/-- riscv64_code.h:131 `C_ADD`. -/
def C_ADD (rd rs : Nat) : Nat := cr 0x9002 rd rs
/-- riscv64_code.h:132 `C_ADDW`. -/
def C_ADDW (rd rs : Nat) : Nat := ca 0x9c21 rd rs
/-- riscv64_code.h:133 `C_ADDI`. -/
def C_ADDI (rd : Nat) (i : Int) : Nat := ci 0x0001 rd i
/-- riscv64_code.h:134 `C_ADDIW`. -/
def C_ADDIW (rd : Nat) (i : Int) : Nat := ci 0x2001 rd i
/-- riscv64_code.h:135 `C_ADDI16SP`. -/
def C_ADDI16SP (i : Int) : Nat :=
  0x6101 ||| imm i 9 9 <<< 12 ||| imm i 4 4 <<< 6 ||| imm i 6 6 <<< 5 ||| imm i 8 7 <<< 3 ||| imm i 5 5 <<< 2
/-- riscv64_code.h:136 `C_SUB`. -/
def C_SUB (rd rs : Nat) : Nat := ca 0x8c01 rd rs
/-- riscv64_code.h:137 `C_SUBW`. -/
def C_SUBW (rd rs : Nat) : Nat := ca 0x9c01 rd rs
/-- riscv64_code.h:138 `C_AND`. -/
def C_AND (rd rs : Nat) : Nat := ca 0x8c61 rd rs
/-- riscv64_code.h:139 `C_ANDI`. -/
def C_ANDI (rd : Nat) (i : Int) : Nat := cb 0x8801 rd i
/-- riscv64_code.h:140 `C_OR`. -/
def C_OR (rd rs : Nat) : Nat := ca 0x8c41 rd rs
/-- riscv64_code.h:141 `C_XOR`. -/
def C_XOR (rd rs : Nat) : Nat := ca 0x8c21 rd rs
/-- riscv64_code.h:142 `C_SLLI`. -/
def C_SLLI (rd : Nat) (i : Int) : Nat := ci 0x0002 rd i
/-- riscv64_code.h:143 `C_SRLI`. -/
def C_SRLI (rd : Nat) (i : Int) : Nat := cb 0x8001 rd i
/-- riscv64_code.h:144 `C_SRAI`. -/
def C_SRAI (rd : Nat) (i : Int) : Nat := cb 0x8401 rd i
/-- riscv64_code.h:145 `C_LW`. -/
def C_LW (rd : Nat) (i : Int) (rs : Nat) : Nat :=
  0x4000 ||| imm i 5 3 <<< 10 ||| rvc rs <<< 7 ||| imm i 2 2 <<< 6 ||| imm i 6 6 <<< 5 ||| rvc rd <<< 2
/-- riscv64_code.h:146-148, 157, 158: `C_LD`, `C_SW`, `C_SD`, `C_FLD`, `C_FSD` differ in the constant only. -/
def cld (base r : Nat) (i : Int) (b : Nat) : Nat :=
  base ||| imm i 5 3 <<< 10 ||| rvc b <<< 7 ||| imm i 7 6 <<< 5 ||| rvc r <<< 2
/-- riscv64_code.h:146 `C_LD`. -/
def C_LD (rd : Nat) (i : Int) (rs : Nat) : Nat := cld 0x6000 rd i rs
/-- riscv64_code.h:147 `C_SW`; the offset is spread as for doublewords, unlike `C_LW`. -/
def C_SW (rs2 : Nat) (i : Int) (rs1 : Nat) : Nat := cld 0xc000 rs2 i rs1
/-- riscv64_code.h:148 `C_SD`. -/
def C_SD (rs2 : Nat) (i : Int) (rs1 : Nat) : Nat := cld 0xe000 rs2 i rs1
/-- riscv64_code.h:157 `C_FLD`. -/
def C_FLD (rd : Nat) (i : Int) (rs : Nat) : Nat := cld 0x2000 rd i rs
/-- riscv64_code.h:158 `C_FSD`. -/
def C_FSD (rs2 : Nat) (i : Int) (rs1 : Nat) : Nat := cld 0xa000 rs2 i rs1
/-- riscv64_code.h:149, 159 `C_LDSP`, `C_FLDSP`. -/
def cldsp (base rd : Nat) (i : Int) : Nat :=
  base ||| imm i 5 5 <<< 12 ||| rd <<< 7 ||| imm i 4 3 <<< 5 ||| imm i 8 6 <<< 2
/-- riscv64_code.h:149 `C_LDSP`. -/
def C_LDSP (rd : Nat) (i : Int) : Nat := cldsp 0x6002 rd i
/-- riscv64_code.h:159 `C_FLDSP`. -/
def C_FLDSP (rd : Nat) (i : Int) : Nat := cldsp 0x2002 rd i
/-- riscv64_code.h:150, 160 `C_SDSP`, `C_FSDSP`. -/
def csdsp (base rs : Nat) (i : Int) : Nat := base ||| imm i 5 3 <<< 10 ||| imm i 8 6 <<< 7 ||| rs <<< 2
/-- riscv64_code.h:150 `C_SDSP`. -/
def C_SDSP (rs : Nat) (i : Int) : Nat := csdsp 0xe002 rs i
/-- riscv64_code.h:160 `C_FSDSP`. -/
def C_FSDSP (rs : Nat) (i : Int) : Nat := csdsp 0xa002 rs i
/-- riscv64_code.h:151 `C_J`. -/
def C_J : Nat := 0xa001
/-- riscv64_code.h:152 `C_JR`. -/
def C_JR (rs : Nat) : Nat := 0x8002 ||| rs <<< 7
/-- riscv64_code.h:153 `C_JALR`. -/
def C_JALR (rs : Nat) : Nat := 0x9002 ||| rs <<< 7
/-- riscv64_code.h:154 `C_BEQZ`. -/
def C_BEQZ (rs : Nat) : Nat := 0xc001 ||| rvc rs <<< 7
/-- riscv64_code.h:155 `C_BNEZ`. -/
def C_BNEZ (rs : Nat) : Nat := 0xe001 ||| rvc rs <<< 7

/-! ## Model: 32-bit instructions, riscv64_code.h:20-125 -/

/-- riscv64_code.h:20, 21, 24-36, 38, 40, 42, 43, 46, 47, 50, 51, 54, 55: the register-register `W_*` macros. -/
def wAlu (f : AluOp) (rd rs1 rs2 : Nat) : Nat :=
  match f with
  | .add => rtype 0x00 rs2 rs1 0x00 rd 0x33
  | .addw => rtype 0x00 rs2 rs1 0x00 rd 0x3b
  | .sub => rtype 0x20 rs2 rs1 0x00 rd 0x33
  | .subw => rtype 0x20 rs2 rs1 0x00 rd 0x3b
  | .mul => rtype 0x01 rs2 rs1 0x00 rd 0x33
  | .mulw => rtype 0x01 rs2 rs1 0x00 rd 0x3b
  | .div => rtype 0x01 rs2 rs1 0x04 rd 0x33
  | .divu => rtype 0x01 rs2 rs1 0x05 rd 0x33
  | .divw => rtype 0x01 rs2 rs1 0x04 rd 0x3b
  | .divuw => rtype 0x01 rs2 rs1 0x05 rd 0x3b
  | .rem => rtype 0x01 rs2 rs1 0x06 rd 0x33
  | .remu => rtype 0x01 rs2 rs1 0x07 rd 0x33
  | .remw => rtype 0x01 rs2 rs1 0x06 rd 0x3b
  | .remuw => rtype 0x01 rs2 rs1 0x07 rd 0x3b
  | .and => rtype 0x00 rs2 rs1 0x07 rd 0x33
  | .or => rtype 0x00 rs2 rs1 0x06 rd 0x33
  | .xor => rtype 0x00 rs2 rs1 0x04 rd 0x33
  | .sll => rtype 0x00 rs2 rs1 0x01 rd 0x33
  | .sllw => rtype 0x00 rs2 rs1 0x01 rd 0x3b
  | .srl => rtype 0x00 rs2 rs1 0x05 rd 0x33
  | .srlw => rtype 0x00 rs2 rs1 0x05 rd 0x3b
  | .sra => rtype 0x20 rs2 rs1 0x05 rd 0x33
  | .sraw => rtype 0x20 rs2 rs1 0x05 rd 0x3b
  | .slt => rtype 0x00 rs2 rs1 0x02 rd 0x33
  | .sltu => rtype 0x00 rs2 rs1 0x03 rd 0x33

/-- riscv64_code.h:22, 23, 37, 39, 41, 44, 45, 48, 49, 52, 53, 56, 57: the register-immediate `W_*` macros.
`0x400 | (imm & 63)` is written as a sum of disjoint bits. -/
def wImm (f : ImmOp) (rd rs : Nat) (i : Int) : Nat :=
  match f with
  | .addi => itype i rs 0x00 rd 0x13
  | .addiw => itype i rs 0x00 rd 0x1b
  | .andi => itype i rs 0x07 rd 0x13
  | .ori => itype i rs 0x06 rd 0x13
  | .xori => itype i rs 0x04 rd 0x13
  | .slli => itype (i % 64) rs 0x01 rd 0x13
  | .slliw => itype (i % 32) rs 0x01 rd 0x1b
  | .srli => itype (i % 64) rs 0x05 rd 0x13
  | .srliw => itype (i % 64) rs 0x05 rd 0x1b
  | .srai => itype (0x400 + i % 64) rs 0x05 rd 0x13
  | .sraiw => itype (0x400 + i % 64) rs 0x05 rd 0x1b
  | .slti => itype i rs 0x02 rd 0x13
  | .sltiu => itype i rs 0x03 rd 0x13

/-- riscv64_code.h:58-64 `W_LB` … `W_LWU`. -/
def wLoad (f : LoadOp) (rd : Nat) (ofs : Int) (rs : Nat) : Nat :=
  match f with
  | .lb => itype ofs rs 0x00 rd 0x03
  | .lh => itype ofs rs 0x01 rd 0x03
  | .lw => itype ofs rs 0x02 rd 0x03
  | .ld => itype ofs rs 0x03 rd 0x03
  | .lbu => itype ofs rs 0x04 rd 0x03
  | .lhu => itype ofs rs 0x05 rd 0x03
  | .lwu => itype ofs rs 0x06 rd 0x03
/-- riscv64_code.h:65-68 `W_SB` … `W_SD`. -/
def wStore (f : StoreOp) (rs2 : Nat) (ofs : Int) (rs1 : Nat) : Nat :=
  match f with
  | .sb => stype ofs rs2 rs1 0x00 0x23
  | .sh => stype ofs rs2 rs1 0x01 0x23
  | .sw => stype ofs rs2 rs1 0x02 0x23
  | .sd => stype ofs rs2 rs1 0x03 0x23
/-- riscv64_code.h:69 `W_LUI`. -/
def W_LUI (rd : Nat) (i : Int) : Nat := utype i rd 0x37
/-- riscv64_code.h:70 `W_AUIPC`. -/
def W_AUIPC (rd : Nat) (i : Int) : Nat := utype i rd 0x17
/-- riscv64_code.h:72 `W_JALR`. -/
def W_JALR (rd rs : Nat) (i : Int) : Nat := itype i rs 0x00 rd 0x67
/-- riscv64_code.h:73 `W_BXX` with offset 0 (asm_code.c:421). -/
def W_BXX0 (xx rs1 rs2 : Nat) : Nat := stype 0 rs2 rs1 xx 0x63
/-- riscv64_code.h:74 `W_ECALL`. -/
def W_ECALL : Nat := utype 0 0 0x73
/-- riscv64_code.h:76-83, 96-101: `W_FADD_D` … `W_FSGNJX_S`. -/
def wFp (f : FpOp) (dbl : Bool) (rd rs1 rs2 : Nat) : Nat :=
  match f, dbl with
  | .fadd, true => rtype 0x01 rs2 rs1 0x07 rd 0x53
  | .fsub, true => rtype 0x05 rs2 rs1 0x07 rd 0x53
  | .fmul, true => rtype 0x09 rs2 rs1 0x07 rd 0x53
  | .fdiv, true => rtype 0x0d rs2 rs1 0x07 rd 0x53
  | .fadd, false => rtype 0x00 rs2 rs1 0x07 rd 0x53
  | .fsub, false => rtype 0x04 rs2 rs1 0x07 rd 0x53
  | .fmul, false => rtype 0x08 rs2 rs1 0x07 rd 0x53
  | .fdiv, false => rtype 0x0c rs2 rs1 0x07 rd 0x53
  | .fsgnj, true => rtype 0x11 rs2 rs1 0x00 rd 0x53
  | .fsgnj, false => rtype 0x10 rs2 rs1 0x00 rd 0x53
  | .fsgnjn, true => rtype 0x11 rs2 rs1 0x01 rd 0x53
  | .fsgnjn, false => rtype 0x10 rs2 rs1 0x01 rd 0x53
  | .fsgnjx, true => rtype 0x11 rs2 rs1 0x02 rd 0x53
  | .fsgnjx, false => rtype 0x10 rs2 rs1 0x02 rd 0x53
/-- riscv64_code.h:84, 85 `W_FSQRT_D`, `W_FSQRT_S`. -/
def wFsqrt (dbl : Bool) (rd rs : Nat) : Nat :=
  if dbl then rtype 0x2d 0 rs 0x07 rd 0x53 else rtype 0x2c 0 rs 0x07 rd 0x53
/-- riscv64_code.h:86-91 `W_FEQ_D` … `W_FLE_S`. -/
def wFcmp (f : FcmpOp) (dbl : Bool) (rd rs1 rs2 : Nat) : Nat :=
  match f, dbl with
  | .feq, true => rtype 0x51 rs2 rs1 0x02 rd 0x53
  | .flt, true => rtype 0x51 rs2 rs1 0x01 rd 0x53
  | .fle, true => rtype 0x51 rs2 rs1 0x00 rd 0x53
  | .feq, false => rtype 0x50 rs2 rs1 0x02 rd 0x53
  | .flt, false => rtype 0x50 rs2 rs1 0x01 rd 0x53
  | .fle, false => rtype 0x50 rs2 rs1 0x00 rd 0x53
/-- riscv64_code.h:92, 93 `W_FLD`, `W_FLW`. -/
def wFld (dbl : Bool) (rd : Nat) (ofs : Int) (rs : Nat) : Nat :=
  if dbl then itype ofs rs 0x03 rd 0x07 else itype ofs rs 0x02 rd 0x07
/-- riscv64_code.h:94, 95 `W_FSD`, `W_FSW`. -/
def wFsd (dbl : Bool) (rs2 : Nat) (ofs : Int) (rs1 : Nat) : Nat :=
  if dbl then stype ofs rs2 rs1 0x03 0x27 else stype ofs rs2 rs1 0x02 0x27
/-- riscv64_code.h:103-110 `W_FCVT_D_W` … `W_FCVT_S_LU`. -/
def wFcvtFI (dbl : Bool) (f : IntFmt) (rd rs : Nat) : Nat :=
  match dbl, f with
  | true, .w => rtype 0x69 0 rs 0x00 rd 0x53
  | true, .wu => rtype 0x69 1 rs 0x00 rd 0x53
  | true, .l => rtype 0x69 2 rs 0x07 rd 0x53
  | true, .lu => rtype 0x69 3 rs 0x07 rd 0x53
  | false, .w => rtype 0x68 0 rs 0x07 rd 0x53
  | false, .wu => rtype 0x68 1 rs 0x07 rd 0x53
  | false, .l => rtype 0x68 2 rs 0x07 rd 0x53
  | false, .lu => rtype 0x68 3 rs 0x07 rd 0x53
/-- riscv64_code.h:112-119 `W_FCVT_W_D` … `W_FCVT_LU_S`. -/
def wFcvtIF (f : IntFmt) (dbl : Bool) (rd rs rm : Nat) : Nat :=
  match dbl, f with
  | true, .w => rtype 0x61 0 rs rm rd 0x53
  | true, .wu => rtype 0x61 1 rs rm rd 0x53
  | true, .l => rtype 0x61 2 rs rm rd 0x53
  | true, .lu => rtype 0x61 3 rs rm rd 0x53
  | false, .w => rtype 0x60 0 rs rm rd 0x53
  | false, .wu => rtype 0x60 1 rs rm rd 0x53
  | false, .l => rtype 0x60 2 rs rm rd 0x53
  | false, .lu => rtype 0x60 3 rs rm rd 0x53
/-- riscv64_code.h:121 `W_FCVT_D_S`. -/
def wFcvtDS (rd rs : Nat) : Nat := rtype 0x21 0 rs 0x00 rd 0x53
/-- riscv64_code.h:122 `W_FCVT_S_D`. -/
def wFcvtSD (rd rs : Nat) : Nat := rtype 0x20 1 rs 0x07 rd 0x53
/-- riscv64_code.h:124, 125 `W_FMV_X_D`, `W_FMV_X_W`. -/
def wFmvX (dbl : Bool) (rd rs : Nat) : Nat :=
  if dbl then rtype 0x71 0 rs 0x00 rd 0x53 else rtype 0x70 0 rs 0x00 rd 0x53

/-! ## Model: asm_code.c -/

/-- asm_code.c:28-30 `is_im6`. -/
def isIm6 (x : Int) : Bool := decide (x ≤ 2 ^ 5 - 1) && decide (x ≥ -2 ^ 5)
/-- asm_code.c:32-34 `is_uim6`: the argument is converted to `uint64_t`, so negative values are large. -/
def isUim6 (x : Int) : Bool := decide (0 ≤ x) && decide (x ≤ 2 ^ 6 - 1)
/-- asm_code.c:36-38 `is_im12`. -/
def isIm12 (x : Int) : Bool := decide (x ≤ 2 ^ 11 - 1) && decide (x ≥ -2 ^ 11)

/-- asm_code.c:55-67: compressed forms of `op rd, rd, rs2` on `x8`–`x15`. -/
def cSame (f : AluOp) (rd rs2 : Nat) : Option Nat :=
  match f with
  | .add => some (C_ADD rd rs2)
  | .addw => some (C_ADDW rd rs2)
  | .sub => some (C_SUB rd rs2)
  | .subw => some (C_SUBW rd rs2)
  | .and => some (C_AND rd rs2)
  | .or => some (C_OR rd rs2)
  | .xor => some (C_XOR rd rs2)
  | _ => none
/-- asm_code.c:68-79: compressed forms of `op rd, rs1, rd` on `x8`–`x15`. -/
def cSwap (f : AluOp) (rd rs1 : Nat) : Option Nat :=
  match f with
  | .add => some (C_ADD rd rs1)
  | .addw => some (C_ADDW rd rs1)
  | .and => some (C_AND rd rs1)
  | .or => some (C_OR rd rs1)
  | .xor => some (C_XOR rd rs1)
  | _ => none
/-- asm_code.c:81-116: the general switch of `asm_3r`. -/
def asm3rGen (f : AluOp) (rd rs1 rs2 : Nat) : List Nat :=
  match f with
  | .add =>
    if rd = rs1 then code16 (C_ADD rd rs2)
    else if rd = rs2 then code16 (C_ADD rd rs1)
    else code32 (wAlu .add rd rs1 rs2)
  | f => code32 (wAlu f rd rs1 rs2)
/-- asm_code.c:55-79: which compressed form applies. -/
def cPick (f : AluOp) (rd rs1 rs2 : Nat) : Option Nat :=
  if rd = rs1 then (if isRvc rd && isRvc rs2 then cSame f rd rs2 else none)
  else if rd = rs2 then (if isRvc rd && isRvc rs1 then cSwap f rd rs1 else none)
  else none
/-- asm_code.c:47-117 `asm_3r`. -/
def asm3r (f : AluOp) (rd rs1 rs2 : Nat) : List Nat :=
  match cPick f rd rs1 rs2 with
  | some w => code16 w
  | none => asm3rGen f rd rs1 rs2

/-- asm_code.c:231-239 `asm_mv`. -/
def asmMv (rd rs : Nat) : List Nat := if rs ≠ 0 then code16 (C_MV rd rs) else code16 (C_LI rd 0)

/-- asm_code.c:133-155: which compressed form `asm_2ri` picks (`rd == rs`). -/
def cImmPick (f : ImmOp) (rd rs : Nat) (i : Int) : Option Nat :=
  if rd = rs then
    match f with
    | .addi =>
      if isIm6 i && decide (i ≠ 0) then some (C_ADDI rd i)
      else if rd = 2 ∧ isIm6 (i / 16) = true ∧ i % 16 = 0 ∧ i ≠ 0 then some (C_ADDI16SP i)
      else none
    | .addiw => if isIm6 i then some (C_ADDIW rd i) else none
    | .andi => if isIm6 i && isRvc rd then some (C_ANDI rd i) else none
    | .slli => if isUim6 i && (decide (rd ≠ 0) && decide (i ≠ 0)) then some (C_SLLI rd i) else none
    | .srli => if isUim6 i && isRvc rd then some (C_SRLI rd i) else none
    | .srai => if isUim6 i && isRvc rd then some (C_SRAI rd i) else none
    | _ => none
  else none

/-- asm_code.c:156-199: the operand check before the 32-bit form is emitted. -/
def immOk (f : ImmOp) (i : Int) : Bool :=
  match f with
  | .addi | .addiw | .andi | .ori | .xori | .slti | .sltiu => !(decide (i ≥ 2048) || decide (i < -2048))
  | .slliw => !(decide (i ≥ 64) || decide (i ≥ 32) || decide (i < 0))
  | .slli | .srli | .srliw | .srai | .sraiw => !(decide (i ≥ 64) || decide (i < 0))

/-- asm_code.c:119-200 `asm_2ri`; `none` is the `NULL` that `assemble_inst` reports as "Illegal operand". -/
def asm2ri (f : ImmOp) (rd rs : Nat) (i : Int) : Option (List Nat) :=
  if f = .addi ∧ i = 0 then (if rd ≠ rs then some (asmMv rd rs) else some [])
  else match cImmPick f rd rs i with
    | some w => some (code16 w)
    | none => if immOk f i then some (code32 (wImm f rd rs i)) else none

/-- Two-operand mnemonics, inst.h:26-27, 30-35. -/
inductive UnOp
  | neg | not | sextB | sextH | sextW | zextB | zextH | zextW | seqz | snez | sltz | sgtz
  deriving DecidableEq, Repr

/-- riscv64_code.h:167, 168: `P_SEXT_B`, `P_SEXT_H` (`slli` then `srai`). -/
def pSext (rd rs : Nat) (k : Int) : List Nat :=
  (if rd = rs then code16 (C_SLLI rd k) else code32 (wImm .slli rd rs k))
    ++ (if isRvc rd then code16 (C_SRAI rd k) else code32 (wImm .srai rd rd k))
/-- riscv64_code.h:171, 172: `P_ZEXT_H`, `P_ZEXT_W` (`slli` then `srli`). -/
def pZext (rd rs : Nat) (k : Int) : List Nat :=
  (if rd = rs then code16 (C_SLLI rd k) else code32 (wImm .slli rd rs k))
    ++ (if isRvc rd then code16 (C_SRLI rd k) else code32 (wImm .srli rd rd k))

/-- asm_code.c:202-223 `asm_2r` with the macros of riscv64_code.h:165-176. -/
def asm2r (f : UnOp) (rd rs : Nat) : List Nat :=
  match f with
  | .neg => code32 (wAlu .sub rd 0 rs)
  | .not => code32 (wImm .xori rd rs (-1))
  | .sextB => pSext rd rs 56
  | .sextH => pSext rd rs 48
  | .sextW => if rd = rs then code16 (C_ADDIW rd 0) else code32 (wImm .addiw rd rs 0)
  | .zextB => code32 (wImm .andi rd rs 0xff)
  | .zextH => pZext rd rs 48
  | .zextW => pZext rd rs 32
  | .seqz => code32 (wImm .sltiu rd rs 1)
  | .snez => code32 (wAlu .sltu rd 0 rs)
  | .sltz => code32 (wAlu .slt rd rs 0)
  | .sgtz => code32 (wAlu .slt rd 0 rs)

/-- asm_code.c:247-260: `lui` and `addiw` of `li_sub` for a 32-bit constant. -/
def li32 (rd : Nat) (i : Int) : List Nat :=
  let l := if i % 4096 ≥ 0x800 then i % 4096 - 0x1000 else i % 4096
  let h := if i % 4096 ≥ 0x800 then i + 4096 else i
  (if isIm6 (h / 4096) then code16 (C_LUI rd h) else code32 (W_LUI rd h))
    ++ (if isIm6 l then code16 (C_ADDIW rd l) else code32 (wImm .addiw rd rd l))

/-- asm_code.c:241-275 `li_sub`. `fuel` bounds the recursion on `imm >> 12`; `liSub_total` shows that 4 is enough for every
64-bit constant. -/
def liSub : Nat → Nat → Int → Option (List Nat)
  | 0, _, _ => none
  | fuel + 1, rd, i =>
    if isIm6 i then some (code16 (C_LI rd i))
    else if isIm12 i then some (code32 (wImm .addi rd 0 i))
    else if isIm32 i then some (li32 rd i)
    else
      let l := if i % 4096 ≥ 2048 then i % 4096 - 4096 else i % 4096
      let h := if i % 4096 ≥ 2048 then i / 4096 + 1 else i / 4096
      match liSub fuel rd h with
      | some c =>
        some (c ++ code16 (C_SLLI rd 12) ++ (if isIm6 l then code16 (C_ADDI rd l) else code32 (wImm .addi rd rd l)))
      | none => none

/-- asm_code.c:277-280 `asm_li`. -/
def asmLi (rd : Nat) (i : Int) : Option (List Nat) := liSub 4 rd i

/-- asm_code.c:282-287 `asm_la` before the relocation is applied. -/
def asmLa (rd : Nat) : List Nat := code32 (W_AUIPC rd 0) ++ code32 (wImm .addi rd rd 0)

/-- asm_code.c:289-340 `asm_ld` with a literal (or absent, 0) offset. -/
def asmLd (f : LoadOp) (rd : Nat) (ofs : Int) (rs : Nat) : List Nat :=
  match f with
  | .lw =>
    if ofs ≥ 0 ∧ ofs < 2 ^ 7 ∧ ofs % 4 = 0 ∧ isRvc rd = true ∧ isRvc rs = true then code16 (C_LW rd ofs rs)
    else code32 (wLoad .lw rd ofs rs)
  | .ld =>
    if ofs ≥ 0 ∧ ofs < 2 ^ 9 ∧ ofs % 8 = 0 ∧ rs = 2 then code16 (C_LDSP rd ofs)
    else if ofs ≥ 0 ∧ ofs < 2 ^ 8 ∧ ofs % 8 = 0 ∧ isRvc rd = true ∧ isRvc rs = true then code16 (C_LD rd ofs rs)
    else code32 (wLoad .ld rd ofs rs)
  | f => code32 (wLoad f rd ofs rs)

/-- asm_code.c:342-381 `asm_sd` with a literal (or absent, 0) offset. -/
def asmSd (f : StoreOp) (rs2 : Nat) (ofs : Int) (rs1 : Nat) : List Nat :=
  match f with
  | .sw =>
    if ofs ≥ 0 ∧ ofs < 2 ^ 7 ∧ ofs % 4 = 0 ∧ isRvc rs1 = true ∧ isRvc rs2 = true then code16 (C_SW rs2 ofs rs1)
    else code32 (wStore .sw rs2 ofs rs1)
  | .sd =>
    if ofs ≥ 0 ∧ ofs < 2 ^ 9 ∧ ofs % 8 = 0 ∧ rs1 = 2 then code16 (C_SDSP rs2 ofs)
    else if ofs ≥ 0 ∧ ofs < 2 ^ 8 ∧ ofs % 8 = 0 ∧ isRvc rs1 = true ∧ isRvc rs2 = true then code16 (C_SD rs2 ofs rs1)
    else code32 (wStore .sd rs2 ofs rs1)
  | f => code32 (wStore f rs2 ofs rs1)

/-- asm_code.c:401-406, 419: `kFunct3Table`. -/
def funct3 : BrOp → Nat
  | .beq => 0x0 | .bne => 0x1 | .blt => 0x4 | .bge => 0x5 | .bltu => 0x6 | .bgeu => 0x7

/-- asm_code.c:408-423 `asm_bxx` before the offset is filled in. -/
def asmBxx (f : BrOp) (rs1 rs2 : Nat) : List Nat :=
  if rs2 = 0 ∧ isRvc rs1 = true ∧ f = .beq then code16 (C_BEQZ rs1)
  else if rs2 = 0 ∧ isRvc rs1 = true ∧ f = .bne then code16 (C_BNEZ rs1)
  else code32 (W_BXX0 (funct3 f) rs1 rs2)

/-- asm_code.c:425-429 `asm_call_d` before the relocation is applied. -/
def asmCall : List Nat := code32 (W_AUIPC 1 0) ++ code32 (W_JALR 1 1 0)

/-- asm_code.c:508-533 `asm_fld`. -/
def asmFld (dbl : Bool) (rd : Nat) (ofs : Int) (rs : Nat) : List Nat :=
  if dbl = true ∧ ofs ≥ 0 ∧ ofs < 2 ^ 9 ∧ ofs % 8 = 0 ∧ rs = 2 then code16 (C_FLDSP rd ofs)
  else if dbl = true ∧ ofs ≥ 0 ∧ ofs < 2 ^ 8 ∧ ofs % 8 = 0 ∧ isRvc rd = true ∧ isRvc rs = true then code16 (C_FLD rd ofs rs)
  else code32 (wFld dbl rd ofs rs)

/-- asm_code.c:535-560 `asm_fsd`. -/
def asmFsd (dbl : Bool) (rs2 : Nat) (ofs : Int) (rs1 : Nat) : List Nat :=
  if dbl = true ∧ ofs ≥ 0 ∧ ofs < 2 ^ 9 ∧ ofs % 8 = 0 ∧ rs1 = 2 then code16 (C_FSDSP rs2 ofs)
  else if dbl = true ∧ ofs ≥ 0 ∧ ofs < 2 ^ 8 ∧ ofs % 8 = 0 ∧ isRvc rs1 = true ∧ isRvc rs2 = true then
    code16 (C_FSD rs2 ofs rs1)
  else code32 (wFsd dbl rs2 ofs rs1)

/-- Instructions of the assembler, inst.h:10-61, with their operands. Simplification: offsets of loads and stores are
literals (a symbolic offset is rejected by `asm_ld`/`asm_sd`); labels of `la`, `j`, branches and `call` are filled in by the
later passes (`Ld.Reloc`). -/
inductive Inst
  | noop
  | mv (rd rs : Nat)
  | li (rd : Nat) (i : Int)
  | la (rd : Nat)
  | alu (f : AluOp) (rd rs1 rs2 : Nat)
  | alui (f : ImmOp) (rd rs : Nat) (i : Int)
  | un (f : UnOp) (rd rs : Nat)
  | load (f : LoadOp) (rd : Nat) (ofs : Int) (rs : Nat)
  | store (f : StoreOp) (rs2 : Nat) (ofs : Int) (rs1 : Nat)
  | j
  | jr (rs : Nat)
  | jalr (rs : Nat)
  | br (f : BrOp) (rs1 rs2 : Nat)
  | call
  | ret
  | ecall
  | fp (f : FpOp) (dbl : Bool) (rd rs1 rs2 : Nat)
  | fsqrt (dbl : Bool) (rd rs : Nat)
  | fmv (dbl : Bool) (rd rs : Nat)
  | fneg (dbl : Bool) (rd rs : Nat)
  | fcmp (f : FcmpOp) (dbl : Bool) (rd rs1 rs2 : Nat)
  | fld (dbl : Bool) (rd : Nat) (ofs : Int) (rs : Nat)
  | fsd (dbl : Bool) (rs2 : Nat) (ofs : Int) (rs1 : Nat)
  | fcvtFI (dbl : Bool) (src : IntFmt) (rd rs : Nat)
  | fcvtIF (dst : IntFmt) (dbl : Bool) (rd rs : Nat) (rm : Option Nat)
  | fcvtDS (rd rs : Nat)
  | fcvtSD (rd rs : Nat)
  | fmvX (dbl : Bool) (rd rs : Nat)
  deriving DecidableEq, Repr

/-- asm_code.c:607-687 `table` and `assemble_inst`; `none` is "Illegal operand". `asm_2fr` (469-487), `asm_3fr` (441-467),
`asm_fcmp` (489-506), `asm_fi` (562-579), `asm_if` (581-601), `asm_j`, `asm_jr`, `asm_jalr`, `asm_ret`, `asm_ecall`
(383-399, 431-439) are one macro each. -/
def assemble : Inst → Option (List Nat)
  | .noop => some []
  | .mv rd rs => some (asmMv rd rs)
  | .li rd i => asmLi rd i
  | .la rd => some (asmLa rd)
  | .alu f rd rs1 rs2 => some (asm3r f rd rs1 rs2)
  | .alui f rd rs i => asm2ri f rd rs i
  | .un f rd rs => some (asm2r f rd rs)
  | .load f rd ofs rs => some (asmLd f rd ofs rs)
  | .store f rs2 ofs rs1 => some (asmSd f rs2 ofs rs1)
  | .j => some (code16 C_J)
  | .jr rs => some (code16 (C_JR rs))
  | .jalr rs => some (code16 (C_JALR rs))
  | .br f rs1 rs2 => some (asmBxx f rs1 rs2)
  | .call => some asmCall
  | .ret => some (code16 (C_JR 1))
  | .ecall => some (code32 W_ECALL)
  | .fp f dbl rd rs1 rs2 => some (code32 (wFp f dbl rd rs1 rs2))
  | .fsqrt dbl rd rs => some (code32 (wFsqrt dbl rd rs))
  | .fmv dbl rd rs => some (code32 (wFp .fsgnj dbl rd rs rs))
  | .fneg dbl rd rs => some (code32 (wFp .fsgnjn dbl rd rs rs))
  | .fcmp f dbl rd rs1 rs2 => some (code32 (wFcmp f dbl rd rs1 rs2))
  | .fld dbl rd ofs rs => some (asmFld dbl rd ofs rs)
  | .fsd dbl rs2 ofs rs1 => some (asmFsd dbl rs2 ofs rs1)
  | .fcvtFI dbl src rd rs => some (code32 (wFcvtFI dbl src rd rs))
  | .fcvtIF dst dbl rd rs rm => some (code32 (wFcvtIF dst dbl rd rs (rm.getD 0)))
  | .fcvtDS rd rs => some (code32 (wFcvtDS rd rs))
  | .fcvtSD rd rs => some (code32 (wFcvtSD rd rs))
  | .fmvX dbl rd rs => some (code32 (wFmvX dbl rd rs))

/-! ## Specification: what the mnemonics mean -/

/-- Effect of an assembler instruction: a register gets a value computed from the registers before, or exactly the named
machine instructions. -/
inductive Effect
  | none
  | reg (rd : Nat) (v : Regs → BitVec 64)
  | instrs (rs : List RV)

def unSem (f : UnOp) (x : BitVec 64) : BitVec 64 :=
  match f with
  | .neg => -x
  | .not => ~~~x
  | .sextB => (x.setWidth 8).signExtend 64
  | .sextH => (x.setWidth 16).signExtend 64
  | .sextW => (x.setWidth 32).signExtend 64
  | .zextB => (x.setWidth 8).setWidth 64
  | .zextH => (x.setWidth 16).setWidth 64
  | .zextW => (x.setWidth 32).setWidth 64
  | .seqz => b2v (x == 0)
  | .snez => b2v (x != 0)
  | .sltz => b2v (decide (x.toInt < 0))
  | .sgtz => b2v (decide (0 < x.toInt))

def effect : Inst → Effect
  | .noop => .none
  | .mv rd rs => .reg rd (fun s => rget s rs)
  | .li rd i => .reg rd (fun _ => BitVec.ofInt 64 i)
  | .la rd => .instrs [.auipc rd 0, .opImm .addi rd rd 0]
  | .alu f rd rs1 rs2 => .reg rd (fun s => aluSem f (rget s rs1) (rget s rs2))
  | .alui f rd rs i => .reg rd (fun s => immSem f (rget s rs) i)
  | .un f rd rs => .reg rd (fun s => unSem f (rget s rs))
  | .load f rd ofs rs => .instrs [.load f rd rs ofs]
  | .store f rs2 ofs rs1 => .instrs [.store f rs2 rs1 ofs]
  | .j => .instrs [.jal 0 0]
  | .jr rs => .instrs [.jalr 0 rs 0]
  | .jalr rs => .instrs [.jalr 1 rs 0]
  | .br f rs1 rs2 => .instrs [.branch f rs1 rs2 0]
  | .call => .instrs [.auipc 1 0, .jalr 1 1 0]
  | .ret => .instrs [.jalr 0 1 0]
  | .ecall => .instrs [.ecall]
  | .fp .fadd dbl rd rs1 rs2 => .instrs [.fp .fadd dbl rd rs1 rs2 7]
  | .fp .fsub dbl rd rs1 rs2 => .instrs [.fp .fsub dbl rd rs1 rs2 7]
  | .fp .fmul dbl rd rs1 rs2 => .instrs [.fp .fmul dbl rd rs1 rs2 7]
  | .fp .fdiv dbl rd rs1 rs2 => .instrs [.fp .fdiv dbl rd rs1 rs2 7]
  | .fp f dbl rd rs1 rs2 => .instrs [.fp f dbl rd rs1 rs2 0]
  | .fsqrt dbl rd rs => .instrs [.fsqrt dbl rd rs 7]
  | .fmv dbl rd rs => .instrs [.fp .fsgnj dbl rd rs rs 0]
  | .fneg dbl rd rs => .instrs [.fp .fsgnjn dbl rd rs rs 0]
  | .fcmp f dbl rd rs1 rs2 => .instrs [.fcmp f dbl rd rs1 rs2]
  | .fld dbl rd ofs rs => .instrs [.fload dbl rd rs ofs]
  | .fsd dbl rs2 ofs rs1 => .instrs [.fstore dbl rs2 rs1 ofs]
  -- a 32-bit integer is exact in double precision, the rounding mode field is then 0 by convention
  | .fcvtFI true .w rd rs => .instrs [.fcvtFI true .w rd rs 0]
  | .fcvtFI true .wu rd rs => .instrs [.fcvtFI true .wu rd rs 0]
  | .fcvtFI dbl src rd rs => .instrs [.fcvtFI dbl src rd rs 7]
  -- without an operand the mode is round-to-nearest-even
  | .fcvtIF dst dbl rd rs rm => .instrs [.fcvtIF dst dbl rd rs (rm.getD 0)]
  | .fcvtDS rd rs => .instrs [.fcvtDS rd rs 0]
  | .fcvtSD rd rs => .instrs [.fcvtSD rd rs 7]
  | .fmvX dbl rd rs => .instrs [.fmvX dbl rd rs]

/-- The bytes do what the effect says. -/
def Implements (bytes : List Nat) : Effect → Prop
  | .none => bytes = []
  | .reg rd v => ∃ rvs, decodeAll bytes = some rvs ∧ ∀ s, run rvs s = some (rset s rd (v s))
  | .instrs rs => decodeAll bytes = some rs

/-- Operands the architecture can encode. -/
def OfsOk (ofs : Int) : Prop := -2048 ≤ ofs ∧ ofs < 2048

def immRange : ImmOp → Int → Prop
  | .slli, i | .srli, i | .srai, i => 0 ≤ i ∧ i < 64
  | .slliw, i | .srliw, i | .sraiw, i => 0 ≤ i ∧ i < 32
  | _, i => -2048 ≤ i ∧ i < 2048

def Ok : Inst → Prop
  | .noop | .j | .call | .ret | .ecall => True
  | .mv rd rs => 0 < rd ∧ rd < 32 ∧ rs < 32
  | .li rd i => 0 < rd ∧ rd < 32 ∧ IsI64 i
  | .la rd => rd < 32
  | .alu _ rd rs1 rs2 => 0 < rd ∧ rd < 32 ∧ rs1 < 32 ∧ rs2 < 32
  | .alui f rd rs i => 0 < rd ∧ rd < 32 ∧ rs < 32 ∧ immRange f i
  | .un _ rd rs => 0 < rd ∧ rd < 32 ∧ rs < 32
  | .load _ rd ofs rs => 0 < rd ∧ rd < 32 ∧ rs < 32 ∧ OfsOk ofs
  | .store _ rs2 ofs rs1 => rs2 < 32 ∧ rs1 < 32 ∧ OfsOk ofs
  | .jr rs | .jalr rs => 0 < rs ∧ rs < 32
  | .br _ rs1 rs2 => rs1 < 32 ∧ rs2 < 32
  | .fp _ _ rd rs1 rs2 | .fcmp _ _ rd rs1 rs2 => rd < 32 ∧ rs1 < 32 ∧ rs2 < 32
  | .fsqrt _ rd rs | .fmv _ rd rs | .fneg _ rd rs | .fcvtFI _ _ rd rs | .fcvtDS rd rs | .fcvtSD rd rs
  | .fmvX _ rd rs => rd < 32 ∧ rs < 32
  | .fld _ rd ofs rs | .fsd _ rd ofs rs => rd < 32 ∧ rs < 32 ∧ OfsOk ofs
  | .fcvtIF _ _ rd rs rm => rd < 32 ∧ rs < 32 ∧ rm.getD 0 < 8

/-- Encodable operands the correctness theorem leaves out because the assembler gets them wrong (findings below): `add` of
the destination and `zero`, constants in `sp` (wrong when the compressed `lui` is picked), and compressed 32-bit stores
whose offset is not a multiple of 8. -/
def Broken : Inst → Prop
  | .alu .add rd rs1 rs2 => (rd = rs1 ∧ rs2 = 0) ∨ (rd = rs2 ∧ rs1 = 0)
  | .li rd i => rd = 2 ∧ ¬ (-2048 ≤ i ∧ i < 2048)
  | .store .sw rs2 ofs rs1 =>
      0 ≤ ofs ∧ ofs < 128 ∧ ofs % 4 = 0 ∧ (8 ≤ rs1 ∧ rs1 ≤ 15) ∧ (8 ≤ rs2 ∧ rs2 ≤ 15) ∧ ofs % 8 ≠ 0
  | _ => False

/-! ## Lemmas: fetch -/

theorem byte16 (w : Nat) (h : w < 2 ^ 16) : w % 256 + 2 ^ 8 * (w / 2 ^ 8 % 256) = w := by omega
theorem byte32 (w : Nat) (h : w < 2 ^ 32) :
    w % 256 + 2 ^ 8 * (w / 2 ^ 8 % 256) + 2 ^ 16 * (w / 2 ^ 16 % 256) + 2 ^ 24 * (w / 2 ^ 24 % 256) = w := by omega

theorem decodeAll_16 (w : Nat) (rest : List Nat) (r : RV) (rs : List RV) (hw : w < 2 ^ 16) (hd : decode16 w = some r)
    (hr : decodeAll rest = some rs) : decodeAll (code16 w ++ rest) = some (r :: rs) := by
  have h4 : ¬ (w % 256 % 4 = 3) := by
    intro h
    have : w % 4 = 3 := by omega
    simp [decode16, this] at hd
  match rest, hr with
  | [], hr => simp only [code16, List.cons_append, List.nil_append, decodeAll, byte16 w hw, hd]; simp [decodeAll] at hr; simp [hr]
  | [_], hr => simp [decodeAll] at hr
  | c :: d :: rest', hr =>
    simp only [code16, List.cons_append, List.nil_append]
    rw [decodeAll]
    simp only [h4, if_false, byte16 w hw, hd, hr]

theorem decodeAll_32 (w : Nat) (rest : List Nat) (r : RV) (rs : List RV) (hw : w < 2 ^ 32) (h3 : w % 4 = 3)
    (hd : decode32 w = some r) (hr : decodeAll rest = some rs) : decodeAll (code32 w ++ rest) = some (r :: rs) := by
  have h4 : w % 256 % 4 = 3 := by omega
  simp only [code32, List.cons_append, List.nil_append]
  rw [decodeAll]
  simp only [h4, if_true, byte32 w hw, hd, hr]

/-- A 16-bit instruction word and what it decodes to. -/
def Is16 (w : Nat) (r : RV) : Prop := w < 2 ^ 16 ∧ decode16 w = some r
/-- A 32-bit instruction word and what it decodes to. -/
def Is32 (w : Nat) (r : RV) : Prop := w < 2 ^ 32 ∧ w % 4 = 3 ∧ decode32 w = some r

instance (w : Nat) (r : RV) : Decidable (Is16 w r) := by unfold Is16; infer_instance

theorem dec16 {w : Nat} {r : RV} (h : Is16 w r) : decodeAll (code16 w) = some [r] := by
  have := decodeAll_16 w [] r [] h.1 h.2 rfl
  simpa using this
theorem dec32 {w : Nat} {r : RV} (h : Is32 w r) : decodeAll (code32 w) = some [r] := by
  have := decodeAll_32 w [] r [] h.1 h.2.1 h.2.2 rfl
  simpa using this

/-- Fetching two pieces of code. -/
theorem decodeAll_append (c1 c2 : List Nat) (r1 r2 : List RV) (h1 : decodeAll c1 = some r1) (h2 : decodeAll c2 = some r2) :
    decodeAll (c1 ++ c2) = some (r1 ++ r2) := by
  induction hn : c1.length using Nat.strongRecOn generalizing c1 r1 with
  | ind n ih =>
    match c1, h1, hn with
    | [], h1, _ => simp [decodeAll] at h1; subst h1; simpa using h2
    | [_], h1, _ => simp [decodeAll] at h1
    | [a, b], h1, _ =>
      simp only [decodeAll] at h1
      cases hd : decode16 (a + 2 ^ 8 * b) with
      | none => simp [hd] at h1
      | some i =>
        simp [hd] at h1; subst h1
        have ha : ¬ (a % 4 = 3) := by
          intro h
          have : (a + 2 ^ 8 * b) % 4 = 3 := by omega
          simp [decode16, this] at hd
        match c2, h2 with
        | [], h2 => simp only [List.append_nil, decodeAll, hd]; simp [decodeAll] at h2; simp [h2]
        | [_], h2 => simp [decodeAll] at h2
        | c :: d :: rest, h2 =>
          simp only [List.cons_append, List.nil_append]
          rw [decodeAll]
          simp only [ha, if_false, hd, h2]
    | [_, _, _], h1, _ => simp [decodeAll] at h1
    | a :: b :: c :: d :: rest, h1, hn =>
      rw [decodeAll] at h1
      simp only [List.cons_append]
      rw [decodeAll]
      simp only [List.length_cons] at hn
      by_cases h4 : a % 4 = 3
      · simp only [h4, if_true] at h1 ⊢
        cases hd : decode32 (a + 2 ^ 8 * b + 2 ^ 16 * c + 2 ^ 24 * d) with
        | none => simp [hd] at h1
        | some i =>
          cases hr : decodeAll rest with
          | none => simp [hr] at h1
          | some is =>
            simp [hd, hr] at h1; subst h1
            rw [ih rest.length (by omega) rest is hr rfl]
            rfl
      · simp only [h4, if_false] at h1 ⊢
        cases hd : decode16 (a + 2 ^ 8 * b) with
        | none => simp [hd] at h1
        | some i =>
          cases hr : decodeAll (c :: d :: rest) with
          | none => simp [hr] at h1
          | some is =>
            simp [hd, hr] at h1; subst h1
            have := ih (c :: d :: rest).length (by simp; omega) (c :: d :: rest) is hr rfl
            simp only [List.cons_append] at this
            rw [this]
            rfl

/-! ## Lemmas: compressed words -/

theorem imm_lt (i : Int) (t b : Nat) : imm i t b < 2 ^ (t + 1 - b) := by
  unfold imm
  have h := Int.emod_lt_of_pos (i / 2 ^ b) (b := 2 ^ (t + 1 - b)) (Int.pow_pos (by decide))
  have h0 := Int.emod_nonneg (i / 2 ^ b) (b := 2 ^ (t + 1 - b)) (Int.ne_of_gt (Int.pow_pos (by decide)))
  have : ((i / 2 ^ b % 2 ^ (t + 1 - b)).toNat : Int) < ((2 ^ (t + 1 - b) : Nat) : Int) := by
    rw [Int.toNat_of_nonneg h0]; push_cast; exact h
  exact_mod_cast this

theorem isIm6_iff (i : Int) : isIm6 i = true ↔ -32 ≤ i ∧ i ≤ 31 := by simp [isIm6]; omega
theorem isUim6_iff (i : Int) : isUim6 i = true ↔ 0 ≤ i ∧ i ≤ 63 := by simp [isUim6]
theorem isRvc_iff (r : Nat) : isRvc r = true ↔ 8 ≤ r ∧ r ≤ 15 := by simp [isRvc]

theorem ci_sum (t q a rd b : Nat) (hq : q < 4) (ha : a < 2) (hrd : rd < 32) (hb : b < 32) :
    (t * 8192 + q ||| a <<< 12 ||| rd <<< 7 ||| b <<< 2) = t * 8192 + a * 4096 + rd * 128 + b * 4 + q := by
  rw [Nat.or_assoc, Nat.or_assoc, or_q _ _ _ hq, ← Nat.or_assoc, ← Nat.or_assoc]
  simp only [Nat.shiftLeft_eq]
  exact or5 13 12 7 2 (by omega) (by omega) (by omega) (by omega) (by omega) (by omega) (by omega) (by omega)

/-- Fields of the CI format. -/
theorem ci_fields (t q a rd b : Nat) (hq : q < 4) (ha : a < 2) (hrd : rd < 32) (hb : b < 32) (ht : t < 8) (w : Nat)
    (hw : w = (t * 8192 + q ||| a <<< 12 ||| rd <<< 7 ||| b <<< 2)) :
    w < 2 ^ 16 ∧ w % 4 = q ∧ field w 15 13 = t ∧ field w 12 12 = a ∧ field w 11 7 = rd ∧ field w 6 2 = b
    ∧ field w 9 7 = rd % 8 ∧ field w 11 10 = rd / 8 ∧ field w 4 2 = b % 8 ∧ field w 6 5 = b / 8 := by
  rw [ci_sum t q a rd b hq ha hrd hb] at hw
  subst hw
  simp only [field]
  omega

theorem sext_val (v : Nat) (i : Int) : ((v : Int) = i % 64 → -32 ≤ i ∧ i ≤ 31 → sext 6 v = i)
    ∧ ((v : Int) = i % 4096 → -2048 ≤ i ∧ i < 2048 → sext 12 v = i) := by
  constructor <;> intro hv hi <;> unfold sext <;> split <;> omega

theorem sext6 (i : Int) (h : -32 ≤ i ∧ i ≤ 31) : sext 6 (imm i 5 5 * 32 + imm i 4 0) = i :=
  (sext_val _ i).1 (by simp only [imm]; omega) h

theorem is_C_LI (rd : Nat) (i : Int) (hrd : rd < 32) (hi : isIm6 i = true) : Is16 (C_LI rd i) (.opImm .addi rd 0 i) := by
  obtain ⟨h1, h2, h3, h4, h5, h6, -⟩ := ci_fields 2 1 (imm i 5 5) rd (imm i 4 0) (by omega) (imm_lt i 5 5) hrd (imm_lt i 4 0)
    (by omega) (C_LI rd i) rfl
  refine ⟨h1, ?_⟩
  simp only [decode16, h2, decC1, h3, h4, h5, h6, sext6 i ((isIm6_iff i).1 hi)]

theorem is_C_ADDI (rd : Nat) (i : Int) (hrd : rd < 32) (hi : isIm6 i = true) : Is16 (C_ADDI rd i) (.opImm .addi rd rd i) := by
  obtain ⟨h1, h2, h3, h4, h5, h6, -⟩ := ci_fields 0 1 (imm i 5 5) rd (imm i 4 0) (by omega) (imm_lt i 5 5) hrd (imm_lt i 4 0)
    (by omega) (C_ADDI rd i) rfl
  refine ⟨h1, ?_⟩
  simp only [decode16, h2, decC1, h3, h4, h5, h6, sext6 i ((isIm6_iff i).1 hi)]

theorem is_C_ADDIW (rd : Nat) (i : Int) (h0 : 0 < rd) (hrd : rd < 32) (hi : isIm6 i = true) :
    Is16 (C_ADDIW rd i) (.opImm .addiw rd rd i) := by
  obtain ⟨h1, h2, h3, h4, h5, h6, -⟩ := ci_fields 1 1 (imm i 5 5) rd (imm i 4 0) (by omega) (imm_lt i 5 5) hrd (imm_lt i 4 0)
    (by omega) (C_ADDIW rd i) rfl
  refine ⟨h1, ?_⟩
  have hn : rd ≠ 0 := by omega
  simp only [decode16, h2, decC1, h3, h4, h5, h6, sext6 i ((isIm6_iff i).1 hi), hn, if_false]

theorem usext6 (i : Int) (h : 0 ≤ i ∧ i ≤ 63) : ((imm i 5 5 * 32 + imm i 4 0 : Nat) : Int) = i := by
  simp only [imm]; omega

theorem is_C_SLLI (rd : Nat) (i : Int) (hrd : rd < 32) (hi : 0 ≤ i ∧ i ≤ 63) : Is16 (C_SLLI rd i) (.opImm .slli rd rd i) := by
  obtain ⟨h1, h2, h3, h4, h5, h6, -⟩ := ci_fields 0 2 (imm i 5 5) rd (imm i 4 0) (by omega) (imm_lt i 5 5) hrd (imm_lt i 4 0)
    (by omega) (C_SLLI rd i) rfl
  refine ⟨h1, ?_⟩
  simp only [decode16, h2, decC2, h3, h4, h5, h6, usext6 i hi]

theorem is_C_LUI (rd : Nat) (i : Int) (hrd : rd < 32) (h2' : rd ≠ 2) (hi : isIm6 (i / 4096) = true) (hn : i / 4096 ≠ 0) :
    Is16 (C_LUI rd i) (.lui rd (i / 4096 * 4096)) := by
  obtain ⟨h1, h2, h3, h4, h5, h6, -⟩ := ci_fields 3 1 (imm i 17 17) rd (imm i 16 12) (by omega) (imm_lt i 17 17) hrd
    (imm_lt i 16 12) (by omega) (C_LUI rd i) rfl
  refine ⟨h1, ?_⟩
  rw [isIm6_iff] at hi
  have hs : sext 6 (imm i 17 17 * 32 + imm i 16 12) = i / 4096 :=
    (sext_val _ (i / 4096)).1 (by simp only [imm]; omega) hi
  simp only [decode16, h2, decC1, h3, h4, h5, h6, h2', if_false, hs, hn]

theorem cr_fields (t q a rd b : Nat) (hq : q < 4) (ha : a < 2) (hrd : rd < 32) (hb : b < 32) (ht : t < 8) (w : Nat)
    (hw : w = (t * 8192 + a * 4096 + q ||| rd <<< 7 ||| b <<< 2)) :
    w < 2 ^ 16 ∧ w % 4 = q ∧ field w 15 13 = t ∧ field w 12 12 = a ∧ field w 11 7 = rd ∧ field w 6 2 = b := by
  have h : (t * 8192 + a * 4096 + q ||| rd <<< 7 ||| b <<< 2) = (t * 8192 + q ||| a <<< 12 ||| rd <<< 7 ||| b <<< 2) := by
    have e : t * 8192 + a * 4096 + q = (t * 8192 + q ||| a <<< 12) := by
      rw [or_q _ _ _ hq, Nat.shiftLeft_eq a, or3 13 2 (by omega) (by omega) (by omega) (by omega)]
    rw [e]
  obtain ⟨h1, h2, h3, h4, h5, h6, -⟩ := ci_fields t q a rd b hq ha hrd hb ht w (hw.trans h)
  exact ⟨h1, h2, h3, h4, h5, h6⟩

theorem is_C_MV (rd rs : Nat) (hrd : rd < 32) (hrs : rs < 32) (h0 : rs ≠ 0) : Is16 (C_MV rd rs) (.op .add rd 0 rs) := by
  obtain ⟨h1, h2, h3, h4, h5, h6⟩ := cr_fields 4 2 0 rd rs (by omega) (by omega) hrd hrs (by omega) (C_MV rd rs) rfl
  refine ⟨h1, ?_⟩
  simp only [decode16, h2, decC2, h3, h4, h5, h6, h0, if_true, if_false]

theorem is_C_ADD (rd rs : Nat) (hrd : rd < 32) (hrs : rs < 32) (h0 : rs ≠ 0) : Is16 (C_ADD rd rs) (.op .add rd rd rs) := by
  obtain ⟨h1, h2, h3, h4, h5, h6⟩ := cr_fields 4 2 1 rd rs (by omega) (by omega) hrd hrs (by omega) (C_ADD rd rs) rfl
  refine ⟨h1, ?_⟩
  simp [decode16, h2, decC2, h3, h4, h5, h6, h0]

theorem is_C_JR (rs : Nat) (hrs : rs < 32) (h0 : rs ≠ 0) : Is16 (C_JR rs) (.jalr 0 rs 0) := by
  obtain ⟨h1, h2, h3, h4, h5, h6⟩ := cr_fields 4 2 0 rs 0 (by omega) (by omega) hrs (by omega) (by omega) (C_JR rs)
    (by simp [C_JR])
  refine ⟨h1, ?_⟩
  simp [decode16, h2, decC2, h3, h4, h5, h6, h0]

theorem is_C_JALR (rs : Nat) (hrs : rs < 32) (h0 : rs ≠ 0) : Is16 (C_JALR rs) (.jalr 1 rs 0) := by
  obtain ⟨h1, h2, h3, h4, h5, h6⟩ := cr_fields 4 2 1 rs 0 (by omega) (by omega) hrs (by omega) (by omega) (C_JALR rs)
    (by simp [C_JALR])
  refine ⟨h1, ?_⟩
  simp [decode16, h2, decC2, h3, h4, h5, h6, h0]

/-- Arithmetic on `x8`–`x15`: all 64 register pairs. -/
theorem tab_ca : ∀ d < 8, ∀ r < 8,
    Is16 (C_ADDW (8 + d) (8 + r)) (.op .addw (8 + d) (8 + d) (8 + r))
    ∧ Is16 (C_SUB (8 + d) (8 + r)) (.op .sub (8 + d) (8 + d) (8 + r))
    ∧ Is16 (C_SUBW (8 + d) (8 + r)) (.op .subw (8 + d) (8 + d) (8 + r))
    ∧ Is16 (C_AND (8 + d) (8 + r)) (.op .and (8 + d) (8 + d) (8 + r))
    ∧ Is16 (C_OR (8 + d) (8 + r)) (.op .or (8 + d) (8 + d) (8 + r))
    ∧ Is16 (C_XOR (8 + d) (8 + r)) (.op .xor (8 + d) (8 + d) (8 + r)) := by
  decide +kernel

theorem rvcEx (r : Nat) (h : isRvc r = true) : ∃ d, d < 8 ∧ r = 8 + d := by
  rw [isRvc_iff] at h; exact ⟨r - 8, by omega, by omega⟩

/-- `C_ANDI`, `C_SRLI`, `C_SRAI`: the two bits above the register select the operation. -/
theorem cb_fields (k rd : Nat) (i : Int) (hk : k < 4) (hrd : isRvc rd = true) (w : Nat)
    (hw : w = (4 * 8192 + k * 1024 + 1 ||| imm i 5 5 <<< 12 ||| rvc rd <<< 7 ||| imm i 4 0 <<< 2)) :
    w < 2 ^ 16 ∧ w % 4 = 1 ∧ field w 15 13 = 4 ∧ field w 12 12 = imm i 5 5 ∧ field w 9 7 = rd - 8 ∧ field w 11 10 = k
    ∧ field w 6 2 = imm i 4 0 := by
  rw [isRvc_iff] at hrd
  have ha := imm_lt i 5 5
  have hb := imm_lt i 4 0
  have h : (4 * 8192 + k * 1024 + 1 ||| imm i 5 5 <<< 12 ||| rvc rd <<< 7 ||| imm i 4 0 <<< 2)
      = (4 * 8192 + 1 ||| imm i 5 5 <<< 12 ||| (k * 8 + (rd - 8)) <<< 7 ||| imm i 4 0 <<< 2) := by
    have e1 : 4 * 8192 + k * 1024 + 1 = (4 * 8192 ||| k * 1024 ||| 1) :=
      (or3 13 10 (by omega) (by omega) (by omega) (by omega)).symm
    have e2 : (k * 8 + (rd - 8)) <<< 7 = (k * 1024 ||| rvc rd <<< 7) := by
      rw [Nat.shiftLeft_eq, Nat.shiftLeft_eq, or2 10 (by omega) (by unfold rvc; omega)]; unfold rvc; omega
    have e3 : 4 * 8192 + 1 = (4 * 8192 ||| 1) := (or2 13 (by omega) (by omega)).symm
    have ac : ∀ A B C D E F : Nat, (E ||| D ||| F ||| A ||| B ||| C) = (E ||| F ||| A ||| (D ||| B) ||| C) := by
      intros; ac_rfl
    rw [e1, e2, ac, ← e3]
  obtain ⟨h1, h2, h3, h4, h5, h6, h7, h8, -⟩ := ci_fields 4 1 (imm i 5 5) (k * 8 + (rd - 8)) (imm i 4 0) (by omega) (by omega)
    (by omega) (by omega) (by omega) w (hw.trans h)
  exact ⟨h1, h2, h3, h4, by omega, by omega, h6⟩

theorem is_C_ANDI (rd : Nat) (i : Int) (hrd : isRvc rd = true) (hi : isIm6 i = true) :
    Is16 (C_ANDI rd i) (.opImm .andi rd rd i) := by
  obtain ⟨h1, h2, h3, h4, h5, h6, h7⟩ := cb_fields 2 rd i (by omega) hrd (C_ANDI rd i) rfl
  have e : 8 + (rd - 8) = rd := by rw [isRvc_iff] at hrd; omega
  refine ⟨h1, ?_⟩
  simp only [decode16, h2, decC1, h3, decC1Alu, h4, h5, h6, h7, e, sext6 i ((isIm6_iff i).1 hi)]

theorem is_C_SRLI (rd : Nat) (i : Int) (hrd : isRvc rd = true) (hi : 0 ≤ i ∧ i ≤ 63) :
    Is16 (C_SRLI rd i) (.opImm .srli rd rd i) := by
  obtain ⟨h1, h2, h3, h4, h5, h6, h7⟩ := cb_fields 0 rd i (by omega) hrd (C_SRLI rd i) rfl
  have e : 8 + (rd - 8) = rd := by rw [isRvc_iff] at hrd; omega
  refine ⟨h1, ?_⟩
  simp only [decode16, h2, decC1, h3, decC1Alu, h4, h5, h6, h7, e, usext6 i hi]

theorem is_C_SRAI (rd : Nat) (i : Int) (hrd : isRvc rd = true) (hi : 0 ≤ i ∧ i ≤ 63) :
    Is16 (C_SRAI rd i) (.opImm .srai rd rd i) := by
  obtain ⟨h1, h2, h3, h4, h5, h6, h7⟩ := cb_fields 1 rd i (by omega) hrd (C_SRAI rd i) rfl
  have e : 8 + (rd - 8) = rd := by rw [isRvc_iff] at hrd; omega
  refine ⟨h1, ?_⟩
  simp only [decode16, h2, decC1, h3, decC1Alu, h4, h5, h6, h7, e, usext6 i hi]

/-- Fields of the CL and CS formats. -/
theorem cld_fields (t x b y r : Nat) (hx : x < 8) (hb : b < 8) (hy : y < 4) (hr : r < 8) (ht : t < 8) (w : Nat)
    (hw : w = (t * 8192 ||| x <<< 10 ||| b <<< 7 ||| y <<< 5 ||| r <<< 2)) :
    w < 2 ^ 16 ∧ w % 4 = 0 ∧ field w 15 13 = t ∧ field w 12 10 = x ∧ field w 9 7 = b ∧ field w 6 5 = y ∧ field w 4 2 = r
    ∧ field w 6 6 = y / 2 ∧ field w 5 5 = y % 2 := by
  simp only [Nat.shiftLeft_eq] at hw
  rw [or5 13 10 7 5 (by omega) (by omega) (by omega) (by omega) (by omega) (by omega) (by omega) (by omega)] at hw
  subst hw
  simp only [field]
  omega

theorem cld_D (t r b : Nat) (i : Int) (hr : isRvc r = true) (hb : isRvc b = true) (hi : 0 ≤ i ∧ i < 256 ∧ i % 8 = 0)
    (ht : t < 8) (w : Nat) (hw : w = cld (t * 8192) r i b) :
    w < 2 ^ 16 ∧ w % 4 = 0 ∧ field w 15 13 = t ∧ 8 + field w 9 7 = b ∧ 8 + field w 4 2 = r
    ∧ ((field w 6 5 * 2 ^ 6 + field w 12 10 * 2 ^ 3 : Nat) : Int) = i := by
  rw [isRvc_iff] at hr hb
  obtain ⟨h1, h2, h3, h4, h5, h6, h7, -⟩ := cld_fields t (imm i 5 3) (rvc b) (imm i 7 6) (rvc r) (imm_lt i 5 3)
    (by unfold rvc; omega) (imm_lt i 7 6) (by unfold rvc; omega) ht w hw
  refine ⟨h1, h2, h3, ?_, ?_, ?_⟩
  · rw [h5]; unfold rvc; omega
  · rw [h7]; unfold rvc; omega
  · rw [h6, h4]; simp only [imm]; omega

theorem is_C_LD (r : Nat) (i : Int) (b : Nat) (hr : isRvc r = true) (hb : isRvc b = true)
    (hi : 0 ≤ i ∧ i < 256 ∧ i % 8 = 0) : Is16 (C_LD r i b) (.load .ld r b i) := by
  obtain ⟨h1, h2, h3, h4, h5, h6⟩ := cld_D 3 r b i hr hb hi (by omega) (C_LD r i b) rfl
  refine ⟨h1, ?_⟩
  simp only [decode16, h2, decC0, h3, h4, h5, h6]
theorem is_C_SD (r : Nat) (i : Int) (b : Nat) (hr : isRvc r = true) (hb : isRvc b = true)
    (hi : 0 ≤ i ∧ i < 256 ∧ i % 8 = 0) : Is16 (C_SD r i b) (.store .sd r b i) := by
  obtain ⟨h1, h2, h3, h4, h5, h6⟩ := cld_D 7 r b i hr hb hi (by omega) (C_SD r i b) rfl
  refine ⟨h1, ?_⟩
  simp only [decode16, h2, decC0, h3, h4, h5, h6]
theorem is_C_FLD (r : Nat) (i : Int) (b : Nat) (hr : isRvc r = true) (hb : isRvc b = true)
    (hi : 0 ≤ i ∧ i < 256 ∧ i % 8 = 0) : Is16 (C_FLD r i b) (.fload true r b i) := by
  obtain ⟨h1, h2, h3, h4, h5, h6⟩ := cld_D 1 r b i hr hb hi (by omega) (C_FLD r i b) rfl
  refine ⟨h1, ?_⟩
  simp only [decode16, h2, decC0, h3, h4, h5, h6]
theorem is_C_FSD (r : Nat) (i : Int) (b : Nat) (hr : isRvc r = true) (hb : isRvc b = true)
    (hi : 0 ≤ i ∧ i < 256 ∧ i % 8 = 0) : Is16 (C_FSD r i b) (.fstore true r b i) := by
  obtain ⟨h1, h2, h3, h4, h5, h6⟩ := cld_D 5 r b i hr hb hi (by omega) (C_FSD r i b) rfl
  refine ⟨h1, ?_⟩
  simp only [decode16, h2, decC0, h3, h4, h5, h6]
theorem is_C_SW (r : Nat) (i : Int) (b : Nat) (hr : isRvc r = true) (hb : isRvc b = true)
    (hi : 0 ≤ i ∧ i < 128 ∧ i % 8 = 0) : Is16 (C_SW r i b) (.store .sw r b i) := by
  rw [isRvc_iff] at hr hb
  obtain ⟨h1, h2, h3, h4, h5, h6, h7, h8, h9⟩ := cld_fields 6 (imm i 5 3) (rvc b) (imm i 7 6) (rvc r) (imm_lt i 5 3)
    (by unfold rvc; omega) (imm_lt i 7 6) (by unfold rvc; omega) (by omega) (C_SW r i b) rfl
  have e1 : 8 + rvc b = b := by unfold rvc; omega
  have e2 : 8 + rvc r = r := by unfold rvc; omega
  have e3 : ((imm i 7 6 % 2 * 2 ^ 6 + imm i 5 3 * 2 ^ 3 + imm i 7 6 / 2 * 2 ^ 2 : Nat) : Int) = i := by
    simp only [imm]; omega
  refine ⟨h1, ?_⟩
  simp only [decode16, h2, decC0, h3, h4, h5, h7, h8, h9, e1, e2, e3]

theorem is_C_LW (r : Nat) (i : Int) (b : Nat) (hr : isRvc r = true) (hb : isRvc b = true)
    (hi : 0 ≤ i ∧ i < 128 ∧ i % 4 = 0) : Is16 (C_LW r i b) (.load .lw r b i) := by
  rw [isRvc_iff] at hr hb
  have hx := imm_lt i 5 3
  have hy := imm_lt i 2 2
  have hz := imm_lt i 6 6
  have hw : C_LW r i b = (2 * 8192 ||| imm i 5 3 <<< 10 ||| rvc b <<< 7 ||| (imm i 2 2 * 2 + imm i 6 6) <<< 5 ||| rvc r <<< 2) := by
    have e : (imm i 2 2 * 2 + imm i 6 6) <<< 5 = (imm i 2 2 <<< 6 ||| imm i 6 6 <<< 5) := by
      simp only [Nat.shiftLeft_eq]; rw [or2 6 (by omega) (by omega)]; omega
    rw [e]
    show (0x4000 ||| _ ||| _ ||| _ ||| _ ||| _) = _
    generalize imm i 5 3 <<< 10 = A
    generalize rvc b <<< 7 = B
    generalize imm i 2 2 <<< 6 = C
    generalize imm i 6 6 <<< 5 = D
    generalize rvc r <<< 2 = E
    show (0x4000 ||| A ||| B ||| C ||| D ||| E) = (0x4000 ||| A ||| B ||| (C ||| D) ||| E)
    ac_rfl
  obtain ⟨h1, h2, h3, h4, h5, h6, h7, h8, h9⟩ := cld_fields 2 (imm i 5 3) (rvc b) (imm i 2 2 * 2 + imm i 6 6) (rvc r) hx
    (by unfold rvc; omega) (by omega) (by unfold rvc; omega) (by omega) (C_LW r i b) hw
  have e1 : 8 + rvc b = b := by unfold rvc; omega
  have e2 : 8 + rvc r = r := by unfold rvc; omega
  have e3 : (((imm i 2 2 * 2 + imm i 6 6) % 2 * 2 ^ 6 + imm i 5 3 * 2 ^ 3 + (imm i 2 2 * 2 + imm i 6 6) / 2 * 2 ^ 2 : Nat) : Int)
      = i := by
    simp only [imm]; omega
  refine ⟨h1, ?_⟩
  simp only [decode16, h2, decC0, h3, h4, h5, h7, h8, h9, e1, e2, e3]

theorem cldsp_fields (t a rd x y : Nat) (ha : a < 2) (hrd : rd < 32) (hx : x < 4) (hy : y < 8) (ht : t < 8) (w : Nat)
    (hw : w = (t * 8192 + 2 ||| a <<< 12 ||| rd <<< 7 ||| x <<< 5 ||| y <<< 2)) :
    w < 2 ^ 16 ∧ w % 4 = 2 ∧ field w 15 13 = t ∧ field w 12 12 = a ∧ field w 11 7 = rd ∧ field w 6 5 = x ∧ field w 4 2 = y := by
  have h : (t * 8192 + 2 ||| a <<< 12 ||| rd <<< 7 ||| x <<< 5 ||| y <<< 2)
      = (t * 8192 + 2 ||| a <<< 12 ||| rd <<< 7 ||| (x * 8 + y) <<< 2) := by
    have e : (x * 8 + y) <<< 2 = (x <<< 5 ||| y <<< 2) := by
      simp only [Nat.shiftLeft_eq]; rw [or2 5 (by omega) (by omega)]; omega
    rw [e]; simp only [Nat.or_assoc]
  obtain ⟨h1, h2, h3, h4, h5, h6, h7, h8, h9, h10⟩ := ci_fields t 2 a rd (x * 8 + y) (by omega) ha hrd (by omega) ht w (hw.trans h)
  exact ⟨h1, h2, h3, h4, h5, by omega, by omega⟩

theorem ldspOfs (i : Int) (hi : 0 ≤ i ∧ i < 512 ∧ i % 8 = 0) :
    ((imm i 8 6 * 2 ^ 6 + imm i 5 5 * 2 ^ 5 + imm i 4 3 * 2 ^ 3 : Nat) : Int) = i := by
  simp only [imm]; omega

theorem is_C_LDSP (rd : Nat) (i : Int) (h0 : 0 < rd) (hrd : rd < 32) (hi : 0 ≤ i ∧ i < 512 ∧ i % 8 = 0) :
    Is16 (C_LDSP rd i) (.load .ld rd 2 i) := by
  obtain ⟨h1, h2, h3, h4, h5, h6, h7⟩ := cldsp_fields 3 (imm i 5 5) rd (imm i 4 3) (imm i 8 6) (imm_lt i 5 5) hrd (imm_lt i 4 3)
    (imm_lt i 8 6) (by omega) (C_LDSP rd i) rfl
  refine ⟨h1, ?_⟩
  have hn : rd ≠ 0 := by omega
  simp only [decode16, h2, decC2, h3, h4, h5, h6, h7, hn, if_false, ldspOfs i hi]

theorem is_C_FLDSP (rd : Nat) (i : Int) (hrd : rd < 32) (hi : 0 ≤ i ∧ i < 512 ∧ i % 8 = 0) :
    Is16 (C_FLDSP rd i) (.fload true rd 2 i) := by
  obtain ⟨h1, h2, h3, h4, h5, h6, h7⟩ := cldsp_fields 1 (imm i 5 5) rd (imm i 4 3) (imm i 8 6) (imm_lt i 5 5) hrd (imm_lt i 4 3)
    (imm_lt i 8 6) (by omega) (C_FLDSP rd i) rfl
  refine ⟨h1, ?_⟩
  simp only [decode16, h2, decC2, h3, h4, h5, h6, h7, ldspOfs i hi]

theorem csdsp_fields (t x y rs : Nat) (hx : x < 8) (hy : y < 8) (hrs : rs < 32) (ht : t < 8) (w : Nat)
    (hw : w = (t * 8192 + 2 ||| x <<< 10 ||| y <<< 7 ||| rs <<< 2)) :
    w < 2 ^ 16 ∧ w % 4 = 2 ∧ field w 15 13 = t ∧ field w 12 10 = x ∧ field w 9 7 = y ∧ field w 6 2 = rs := by
  rw [Nat.or_assoc, Nat.or_assoc, or_q _ _ _ (by omega), ← Nat.or_assoc, ← Nat.or_assoc] at hw
  simp only [Nat.shiftLeft_eq] at hw
  rw [or5 13 10 7 2 (by omega) (by omega) (by omega) (by omega) (by omega) (by omega) (by omega) (by omega)] at hw
  subst hw
  simp only [field]
  omega

theorem is_C_SDSP (rs : Nat) (i : Int) (hrs : rs < 32) (hi : 0 ≤ i ∧ i < 512 ∧ i % 8 = 0) :
    Is16 (C_SDSP rs i) (.store .sd rs 2 i) := by
  obtain ⟨h1, h2, h3, h4, h5, h6⟩ := csdsp_fields 7 (imm i 5 3) (imm i 8 6) rs (imm_lt i 5 3) (imm_lt i 8 6) hrs (by omega)
    (C_SDSP rs i) rfl
  refine ⟨h1, ?_⟩
  have e : ((imm i 8 6 * 2 ^ 6 + imm i 5 3 * 2 ^ 3 : Nat) : Int) = i := by simp only [imm]; omega
  simp only [decode16, h2, decC2, h3, h4, h5, h6, e]

theorem is_C_FSDSP (rs : Nat) (i : Int) (hrs : rs < 32) (hi : 0 ≤ i ∧ i < 512 ∧ i % 8 = 0) :
    Is16 (C_FSDSP rs i) (.fstore true rs 2 i) := by
  obtain ⟨h1, h2, h3, h4, h5, h6⟩ := csdsp_fields 5 (imm i 5 3) (imm i 8 6) rs (imm_lt i 5 3) (imm_lt i 8 6) hrs (by omega)
    (C_FSDSP rs i) rfl
  refine ⟨h1, ?_⟩
  have e : ((imm i 8 6 * 2 ^ 6 + imm i 5 3 * 2 ^ 3 : Nat) : Int) = i := by simp only [imm]; omega
  simp only [decode16, h2, decC2, h3, h4, h5, h6, e]

theorem tab_16sp : ∀ u < 64, u ≠ 0 →
    Is16 (C_ADDI16SP ((16 * u : Nat) : Int)) (.opImm .addi 2 2 (sext 6 u * 16)) := by
  decide +kernel

theorem is_C_ADDI16SP (i : Int) (h6 : isIm6 (i / 16) = true) (h16 : i % 16 = 0) (h0 : i ≠ 0) :
    Is16 (C_ADDI16SP i) (.opImm .addi 2 2 i) := by
  rw [isIm6_iff] at h6
  have h := tab_16sp (i / 16 % 64).toNat (by omega) (by omega)
  have e1 : sext 6 (i / 16 % 64).toNat * 16 = i := by simp only [sext]; split <;> omega
  rw [e1] at h
  have e2 : C_ADDI16SP ((16 * (i / 16 % 64).toNat : Nat) : Int) = C_ADDI16SP i := by
    have e : ∀ t b : Nat, (t, b) ∈ [(9, 9), (4, 4), (6, 6), (8, 7), (5, 5)] →
        imm ((16 * (i / 16 % 64).toNat : Nat) : Int) t b = imm i t b := by
      intro t b hm
      simp only [List.mem_cons, Prod.mk.injEq, List.not_mem_nil, or_false] at hm
      rcases hm with ⟨rfl, rfl⟩ | ⟨rfl, rfl⟩ | ⟨rfl, rfl⟩ | ⟨rfl, rfl⟩ | ⟨rfl, rfl⟩ <;> simp only [imm] <;> omega
    unfold C_ADDI16SP
    rw [e 9 9 (by simp), e 4 4 (by simp), e 6 6 (by simp), e 8 7 (by simp), e 5 5 (by simp)]
  rwa [e2] at h

theorem tab_cbr : ∀ r < 8,
    Is16 (C_BEQZ (8 + r)) (.branch .beq (8 + r) 0 0) ∧ Is16 (C_BNEZ (8 + r)) (.branch .bne (8 + r) 0 0) := by
  decide +kernel

/-! ## Lemmas: 32-bit words -/

theorem rtype_fields (f7 rs2 rs1 f3 rd op : Nat) (h7 : f7 < 128) (h2 : rs2 < 32) (h1 : rs1 < 32) (h3 : f3 < 8) (hd : rd < 32)
    (ho : op < 128) (w : Nat) (hw : w = rtype f7 rs2 rs1 f3 rd op) :
    w < 2 ^ 32 ∧ w % 4 = op % 4 ∧ field w 6 0 = op ∧ field w 11 7 = rd ∧ field w 14 12 = f3 ∧ field w 19 15 = rs1
    ∧ field w 24 20 = rs2 ∧ field w 31 25 = f7 := by
  unfold rtype at hw
  simp only [Nat.shiftLeft_eq] at hw
  rw [or6 25 20 15 12 7 (by omega) (by omega) (by omega) (by omega) (by omega) (by omega) (by omega) (by omega) (by omega)
    (by omega)] at hw
  subst hw
  simp only [field]
  omega

theorem itype_fields (i : Int) (rs1 f3 rd op : Nat) (h1 : rs1 < 32) (h3 : f3 < 8) (hd : rd < 32) (ho : op < 128) (w : Nat)
    (hw : w = itype i rs1 f3 rd op) :
    w < 2 ^ 32 ∧ w % 4 = op % 4 ∧ field w 6 0 = op ∧ field w 11 7 = rd ∧ field w 14 12 = f3 ∧ field w 19 15 = rs1
    ∧ field w 31 20 = imm i 11 0 := by
  have hi := imm_lt i 11 0
  unfold itype at hw
  simp only [Nat.shiftLeft_eq] at hw
  rw [or5 20 15 12 7 (by omega) (by omega) (by omega) (by omega) (by omega) (by omega) (by omega) (by omega)] at hw
  subst hw
  simp only [field]
  omega

theorem stype_fields (i : Int) (rs2 rs1 f3 op : Nat) (h2 : rs2 < 32) (h1 : rs1 < 32) (h3 : f3 < 8) (ho : op < 128) (w : Nat)
    (hw : w = stype i rs2 rs1 f3 op) :
    w < 2 ^ 32 ∧ w % 4 = op % 4 ∧ field w 6 0 = op ∧ field w 11 7 = imm i 4 0 ∧ field w 14 12 = f3 ∧ field w 19 15 = rs1
    ∧ field w 24 20 = rs2 ∧ field w 31 25 = imm i 11 5 := by
  have hi := imm_lt i 11 5
  have hj := imm_lt i 4 0
  unfold stype at hw
  simp only [Nat.shiftLeft_eq] at hw
  rw [or6 25 20 15 12 7 (by omega) (by omega) (by omega) (by omega) (by omega) (by omega) (by omega) (by omega) (by omega)
    (by omega)] at hw
  subst hw
  simp only [field]
  omega

theorem utype_fields (i : Int) (rd op : Nat) (hd : rd < 32) (ho : op < 128) (w : Nat) (hw : w = utype i rd op) :
    w < 2 ^ 32 ∧ w % 4 = op % 4 ∧ field w 6 0 = op ∧ field w 11 7 = rd ∧ field w 31 12 = imm i 31 12 := by
  have hi := imm_lt i 31 12
  unfold utype at hw
  simp only [Nat.shiftLeft_eq] at hw
  rw [or3 12 7 (by omega) (by omega) (by omega) (by omega)] at hw
  subst hw
  simp only [field]
  omega

theorem sext12 (i : Int) (h : -2048 ≤ i ∧ i < 2048) : sext 12 (imm i 11 0) = i :=
  (sext_val _ i).2 (by simp only [imm]; omega) h
theorem sext12s (i : Int) (h : -2048 ≤ i ∧ i < 2048) : sext 12 (imm i 11 5 * 32 + imm i 4 0) = i :=
  (sext_val _ i).2 (by simp only [imm]; omega) h

theorem is_wAlu (f : AluOp) (rd rs1 rs2 : Nat) (hd : rd < 32) (h1 : rs1 < 32) (h2 : rs2 < 32) :
    Is32 (wAlu f rd rs1 rs2) (.op f rd rs1 rs2) := by
  have key : ∀ (f7 f3 op : Nat), f7 < 128 → f3 < 8 → (op = 0x33 ∧ decOp f7 f3 = some f ∨ op = 0x3b ∧ decOp32 f7 f3 = some f) →
      Is32 (rtype f7 rs2 rs1 f3 rd op) (.op f rd rs1 rs2) := by
    intro f7 f3 op h7 h3 ho
    have ho' : op < 128 := by rcases ho with h | h <;> omega
    obtain ⟨a1, a2, a3, a4, a5, a6, a7, a8⟩ := rtype_fields f7 rs2 rs1 f3 rd op h7 h2 h1 h3 hd ho' _ rfl
    refine ⟨a1, by rcases ho with h | h <;> omega, ?_⟩
    rcases ho with ⟨rfl, h⟩ | ⟨rfl, h⟩ <;> simp only [decode32, a3, a4, a5, a6, a7, a8, h, Option.map_some]
  cases f <;> exact key _ _ _ (by decide) (by decide) (by decide)

theorem is_wImm (f : ImmOp) (rd rs : Nat) (i : Int) (hd : rd < 32) (hs : rs < 32) (hi : immRange f i) :
    Is32 (wImm f rd rs i) (.opImm f rd rs i) := by
  have key : ∀ (j : Int) (f3 op : Nat), f3 < 8 → (op = 0x13 ∧ decImm f3 (imm j 11 0) rd rs = some (.opImm f rd rs i)
        ∨ op = 0x1b ∧ decImm32 f3 (imm j 11 0) rd rs = some (.opImm f rd rs i)) →
      Is32 (itype j rs f3 rd op) (.opImm f rd rs i) := by
    intro j f3 op h3 ho
    have ho' : op < 128 := by rcases ho with h | h <;> omega
    obtain ⟨a1, a2, a3, a4, a5, a6, a7⟩ := itype_fields j rs f3 rd op hs h3 hd ho' _ rfl
    refine ⟨a1, by rcases ho with h | h <;> omega, ?_⟩
    rcases ho with ⟨rfl, h⟩ | ⟨rfl, h⟩ <;> simp only [decode32, a3, a4, a5, a6, a7, h]
  have sh64 : 0 ≤ i ∧ i < 64 → imm (i % 64) 11 0 / 64 = 0 ∧ ((imm (i % 64) 11 0 % 64 : Nat) : Int) = i
      ∧ imm (0x400 + i % 64) 11 0 / 64 = 16 ∧ ((imm (0x400 + i % 64) 11 0 % 64 : Nat) : Int) = i := by
    intro h; simp only [imm]; omega
  have sh32 : 0 ≤ i ∧ i < 32 → imm (i % 64) 11 0 / 32 = 0 ∧ ((imm (i % 64) 11 0 % 32 : Nat) : Int) = i
      ∧ imm (i % 32) 11 0 / 32 = 0 ∧ ((imm (i % 32) 11 0 % 32 : Nat) : Int) = i
      ∧ imm (0x400 + i % 64) 11 0 / 32 = 32 ∧ ((imm (0x400 + i % 64) 11 0 % 32 : Nat) : Int) = i := by
    intro h; simp only [imm]; omega
  cases f <;> simp only [immRange] at hi
  case addi => exact key _ _ _ (by decide) (.inl ⟨rfl, by simp only [decImm, sext12 i hi]⟩)
  case slti => exact key _ _ _ (by decide) (.inl ⟨rfl, by simp only [decImm, sext12 i hi]⟩)
  case sltiu => exact key _ _ _ (by decide) (.inl ⟨rfl, by simp only [decImm, sext12 i hi]⟩)
  case xori => exact key _ _ _ (by decide) (.inl ⟨rfl, by simp only [decImm, sext12 i hi]⟩)
  case ori => exact key _ _ _ (by decide) (.inl ⟨rfl, by simp only [decImm, sext12 i hi]⟩)
  case andi => exact key _ _ _ (by decide) (.inl ⟨rfl, by simp only [decImm, sext12 i hi]⟩)
  case slli => obtain ⟨a, b, c, d⟩ := sh64 hi; exact key _ _ _ (by decide) (.inl ⟨rfl, by simp only [decImm, a, b, if_true]⟩)
  case srli => obtain ⟨a, b, c, d⟩ := sh64 hi; exact key _ _ _ (by decide) (.inl ⟨rfl, by simp only [decImm, a, b, if_true]⟩)
  case srai => obtain ⟨a, b, c, d⟩ := sh64 hi; exact key _ _ _ (by decide) (.inl ⟨rfl, by simp [decImm, c, d]⟩)
  case addiw => exact key _ _ _ (by decide) (.inr ⟨rfl, by simp only [decImm32, sext12 i hi]⟩)
  case slliw => obtain ⟨a, b, c, d, e, g⟩ := sh32 hi; exact key _ _ _ (by decide) (.inr ⟨rfl, by simp only [decImm32, c, d, if_true]⟩)
  case srliw => obtain ⟨a, b, c, d, e, g⟩ := sh32 hi; exact key _ _ _ (by decide) (.inr ⟨rfl, by simp only [decImm32, a, b, if_true]⟩)
  case sraiw => obtain ⟨a, b, c, d, e, g⟩ := sh32 hi; exact key _ _ _ (by decide) (.inr ⟨rfl, by simp [decImm32, e, g]⟩)

theorem is_wLoad (f : LoadOp) (rd : Nat) (i : Int) (rs : Nat) (hd : rd < 32) (hs : rs < 32) (hi : OfsOk i) :
    Is32 (wLoad f rd i rs) (.load f rd rs i) := by
  have key : ∀ f3 : Nat, f3 < 8 → decLoad f3 = some f → Is32 (itype i rs f3 rd 0x03) (.load f rd rs i) := by
    intro f3 h3 h
    obtain ⟨a1, a2, a3, a4, a5, a6, a7⟩ := itype_fields i rs f3 rd 3 hs h3 hd (by omega) _ rfl
    refine ⟨a1, a2, ?_⟩
    simp only [decode32, a3, a4, a5, a6, a7, h, Option.map_some, sext12 i hi]
  cases f <;> exact key _ (by decide) rfl

theorem is_wStore (f : StoreOp) (rs2 : Nat) (i : Int) (rs1 : Nat) (h2 : rs2 < 32) (h1 : rs1 < 32) (hi : OfsOk i) :
    Is32 (wStore f rs2 i rs1) (.store f rs2 rs1 i) := by
  have key : ∀ f3 : Nat, f3 < 8 → decStore f3 = some f → Is32 (stype i rs2 rs1 f3 0x23) (.store f rs2 rs1 i) := by
    intro f3 h3 h
    obtain ⟨a1, a2, a3, a4, a5, a6, a7, a8⟩ := stype_fields i rs2 rs1 f3 0x23 h2 h1 h3 (by omega) _ rfl
    refine ⟨a1, a2, ?_⟩
    simp only [decode32, a3, a4, a5, a6, a7, a8, h, Option.map_some, sext12s i hi]
  cases f <;> exact key _ (by decide) rfl

theorem is_wFld (dbl : Bool) (rd : Nat) (i : Int) (rs : Nat) (hd : rd < 32) (hs : rs < 32) (hi : OfsOk i) :
    Is32 (wFld dbl rd i rs) (.fload dbl rd rs i) := by
  cases dbl
  · obtain ⟨a1, a2, a3, a4, a5, a6, a7⟩ := itype_fields i rs 2 rd 7 hs (by omega) hd (by omega) _ rfl
    refine ⟨a1, a2, ?_⟩
    simp [wFld, decode32, a3, a4, a5, a6, a7, sext12 i hi]
  · obtain ⟨a1, a2, a3, a4, a5, a6, a7⟩ := itype_fields i rs 3 rd 7 hs (by omega) hd (by omega) _ rfl
    refine ⟨a1, a2, ?_⟩
    simp [wFld, decode32, a3, a4, a5, a6, a7, sext12 i hi]

theorem is_wFsd (dbl : Bool) (rs2 : Nat) (i : Int) (rs1 : Nat) (h2 : rs2 < 32) (h1 : rs1 < 32) (hi : OfsOk i) :
    Is32 (wFsd dbl rs2 i rs1) (.fstore dbl rs2 rs1 i) := by
  cases dbl
  · obtain ⟨a1, a2, a3, a4, a5, a6, a7, a8⟩ := stype_fields i rs2 rs1 2 0x27 h2 h1 (by omega) (by omega) _ rfl
    refine ⟨a1, a2, ?_⟩
    simp [wFsd, decode32, a3, a4, a5, a6, a7, a8, sext12s i hi]
  · obtain ⟨a1, a2, a3, a4, a5, a6, a7, a8⟩ := stype_fields i rs2 rs1 3 0x27 h2 h1 (by omega) (by omega) _ rfl
    refine ⟨a1, a2, ?_⟩
    simp [wFsd, decode32, a3, a4, a5, a6, a7, a8, sext12s i hi]

theorem is_rFp (f7 rs2 rs1 f3 rd : Nat) (r : RV) (h7 : f7 < 128) (h2 : rs2 < 32) (h1 : rs1 < 32) (h3 : f3 < 8) (hd : rd < 32)
    (h : decFp f7 rs2 rs1 f3 rd = some r) : Is32 (rtype f7 rs2 rs1 f3 rd 0x53) r := by
  obtain ⟨a1, a2, a3, a4, a5, a6, a7, a8⟩ := rtype_fields f7 rs2 rs1 f3 rd 0x53 h7 h2 h1 h3 hd (by omega) _ rfl
  refine ⟨a1, a2, ?_⟩
  simp only [decode32, a3, a4, a5, a6, a7, a8, h]

theorem is_W_LUI (rd : Nat) (i : Int) (hd : rd < 32) : Is32 (W_LUI rd i) (.lui rd (sext 20 (imm i 31 12) * 4096)) := by
  obtain ⟨a1, a2, a3, a4, a5⟩ := utype_fields i rd 0x37 hd (by omega) _ rfl
  exact ⟨a1, a2, by simp only [W_LUI, decode32, a3, a4, a5]⟩

theorem is_W_AUIPC0 (rd : Nat) (hd : rd < 32) : Is32 (W_AUIPC rd 0) (.auipc rd 0) := by
  obtain ⟨a1, a2, a3, a4, a5⟩ := utype_fields 0 rd 0x17 hd (by omega) _ rfl
  exact ⟨a1, a2, by simp only [W_AUIPC, decode32, a3, a4, a5]; rfl⟩

theorem is_W_JALR (rd rs : Nat) (i : Int) (hd : rd < 32) (hs : rs < 32) (hi : OfsOk i) :
    Is32 (W_JALR rd rs i) (.jalr rd rs i) := by
  obtain ⟨a1, a2, a3, a4, a5, a6, a7⟩ := itype_fields i rs 0 rd 0x67 hs (by omega) hd (by omega) _ rfl
  exact ⟨a1, a2, by simp [W_JALR, decode32, a3, a4, a5, a6, a7, sext12 i hi]⟩

theorem is_W_BXX0 (f : BrOp) (rs1 rs2 : Nat) (h1 : rs1 < 32) (h2 : rs2 < 32) :
    Is32 (W_BXX0 (funct3 f) rs1 rs2) (.branch f rs1 rs2 0) := by
  have h3 : funct3 f < 8 := by cases f <;> decide
  have hd : decBr (funct3 f) = some f := by cases f <;> rfl
  obtain ⟨a1, a2, a3, a4, a5, a6, a7, a8⟩ := stype_fields 0 rs2 rs1 (funct3 f) 0x63 h2 h1 h3 (by omega) _ rfl
  refine ⟨a1, a2, ?_⟩
  have b1 : field (stype 0 rs2 rs1 (funct3 f) 99) 31 31 = 0 := by
    have : imm 0 11 5 = 0 := rfl
    rw [this] at a8; simp only [field] at *; omega
  have b2 : field (stype 0 rs2 rs1 (funct3 f) 99) 30 25 = 0 := by
    have : imm 0 11 5 = 0 := rfl
    rw [this] at a8; simp only [field] at *; omega
  have b3 : field (stype 0 rs2 rs1 (funct3 f) 99) 7 7 = 0 := by
    have : imm 0 4 0 = 0 := rfl
    rw [this] at a4; simp only [field] at *; omega
  have b4 : field (stype 0 rs2 rs1 (funct3 f) 99) 11 8 = 0 := by
    have : imm 0 4 0 = 0 := rfl
    rw [this] at a4; simp only [field] at *; omega
  simp only [W_BXX0, decode32, a3, a5, a6, a7, hd, Option.map_some, bImm, b1, b2, b3, b4]
  rfl

/-! ## Lemmas: registers and values -/

theorem rget_rset_same (s : Regs) (r : Nat) (v : BitVec 64) (h : r ≠ 0) : rget (rset s r v) r = v := by
  simp [rget, rset, h]

theorem rset_rset (s : Regs) (r : Nat) (v w : BitVec 64) : rset (rset s r v) r w = rset s r w := by
  funext x; simp only [rset]; split <;> rfl

theorem run_append (a b : List RV) (s : Regs) : run (a ++ b) s = (run a s).bind (run b) := by
  induction a generalizing s with
  | nil => rfl
  | cons r a ih =>
    simp only [List.cons_append, run]
    cases step r s with
    | none => rfl
    | some s' => simpa using ih s'

theorem rget_zero (s : Regs) : rget s 0 = 0 := rfl

theorem sx32_ofInt (a i : Int) (hi : -2 ^ 31 ≤ i ∧ i < 2 ^ 31) (h : a % 2 ^ 32 = i % 2 ^ 32) :
    sx32 (lo32 (BitVec.ofInt 64 a)) = BitVec.ofInt 64 i := by
  have e : lo32 (BitVec.ofInt 64 a) = BitVec.ofInt 32 i := by
    apply BitVec.eq_of_toNat_eq
    simp only [lo32, BitVec.toNat_setWidth, BitVec.toNat_ofInt]
    omega
  rw [e]
  apply BitVec.eq_of_toInt_eq
  simp only [sx32]
  rw [BitVec.toInt_signExtend_of_le (by omega), BitVec.toInt_ofInt, BitVec.toInt_ofInt]
  simp only [Int.bmod_def]
  omega

theorem shl12_add (h l : Int) : (BitVec.ofInt 64 h <<< (12 : Int).toNat) + BitVec.ofInt 64 l = BitVec.ofInt 64 (h * 4096 + l) := by
  rw [BitVec.ofInt_add]
  congr 1
  apply BitVec.eq_of_toNat_eq
  have : ((12 : Int).toNat) = 12 := rfl
  rw [this]
  simp only [BitVec.toNat_shiftLeft, BitVec.toNat_ofInt, Nat.shiftLeft_eq]
  omega

/-! ## `li` -/

theorem isIm12_iff (i : Int) : isIm12 i = true ↔ -2048 ≤ i ∧ i < 2048 := by simp [isIm12]; omega
theorem isIm32_rng (i : Int) : isIm32 i = true ↔ -2 ^ 31 ≤ i ∧ i < 2 ^ 31 := by simp [isIm32]; omega

theorem li32_ok (rd : Nat) (i : Int) (h0 : 0 < rd) (hd : rd < 32) (hsp : rd ≠ 2) (h12 : isIm12 i = false)
    (h32 : isIm32 i = true) :
    ∃ rvs, decodeAll (li32 rd i) = some rvs ∧ ∀ s, run rvs s = some (rset s rd (BitVec.ofInt 64 i)) := by
  rw [isIm32_rng] at h32
  have h12' : ¬ (-2048 ≤ i ∧ i < 2048) := by rw [← isIm12_iff, h12]; simp
  unfold li32
  generalize hl : (if i % 4096 ≥ 0x800 then i % 4096 - 0x1000 else i % 4096) = l
  generalize hh : (if i % 4096 ≥ 0x800 then i + 4096 else i) = h
  have hlr : -2048 ≤ l ∧ l < 2048 ∧ (h / 4096 * 4096 + l = i) ∧ h / 4096 ≠ 0 := by
    split at hl <;> split at hh <;> omega
  have rnz : rd ≠ 0 := by omega
  -- the high part
  have hi : ∃ a, decodeAll (if isIm6 (h / 4096) then code16 (C_LUI rd h) else code32 (W_LUI rd h)) = some [.lui rd a]
      ∧ a % 2 ^ 32 = (h / 4096 * 4096) % 2 ^ 32 := by
    by_cases h6 : isIm6 (h / 4096) = true
    · rw [if_pos h6]
      exact ⟨_, dec16 (is_C_LUI rd h hd hsp h6 hlr.2.2.2), rfl⟩
    · rw [if_neg h6]
      refine ⟨_, dec32 (is_W_LUI rd h hd), ?_⟩
      have : ((imm h 31 12 : Nat) : Int) = h / 4096 % 2 ^ 20 := by simp only [imm]; omega
      unfold sext
      split <;> omega
  -- the low part
  have lo : decodeAll (if isIm6 l then code16 (C_ADDIW rd l) else code32 (wImm .addiw rd rd l)) = some [.opImm .addiw rd rd l] := by
    by_cases h6 : isIm6 l = true
    · rw [if_pos h6]; exact dec16 (is_C_ADDIW rd l h0 hd h6)
    · rw [if_neg h6]; exact dec32 (is_wImm .addiw rd rd l hd hd ⟨hlr.1, hlr.2.1⟩)
  obtain ⟨a, hi1, hi2⟩ := hi
  refine ⟨_, decodeAll_append _ _ _ _ hi1 lo, fun s => ?_⟩
  simp only [List.cons_append, List.nil_append, run, step, Option.bind_some, immSem, rget_rset_same _ _ _ rnz, rset_rset]
  rw [← BitVec.ofInt_add, sx32_ofInt (a + l) i h32 (by omega)]

theorem length_ite16 (b : Bool) (x y : Nat) : (if b = true then code16 x else code32 y).length ≤ 4 := by
  split <;> simp [code16, code32]

/-- The cases of `li` without recursion. -/
theorem liSub_base (fuel rd : Nat) (i : Int) (h0 : 0 < rd) (hd : rd < 32) (hsp : rd ≠ 2 ∨ (-2048 ≤ i ∧ i < 2048))
    (h32 : isIm32 i = true) : ∃ c, liSub (fuel + 1) rd i = some c ∧ c.length ≤ 8
      ∧ ∃ rvs, decodeAll c = some rvs ∧ ∀ s, run rvs s = some (rset s rd (BitVec.ofInt 64 i)) := by
  rw [liSub]
  by_cases h6 : isIm6 i = true
  · simp only [h6, if_true]
    refine ⟨_, rfl, by simp [code16], _, dec16 (is_C_LI rd i hd h6), fun s => ?_⟩
    simp only [run, step, Option.bind_some, immSem, rget_zero]
    simp
  · simp only [h6]
    by_cases h12 : isIm12 i = true
    · simp only [h12, if_true]
      refine ⟨_, rfl, by simp [code32], _, dec32 (is_wImm .addi rd 0 i hd (by omega) ((isIm12_iff i).1 h12)), fun s => ?_⟩
      simp only [run, step, Option.bind_some, immSem, rget_zero]
      simp
    · simp only [h12, h32, if_true]
      have hsp' : rd ≠ 2 := by
        rcases hsp with h | h
        · exact h
        · exact absurd ((isIm12_iff i).2 h) h12
      refine ⟨_, rfl, ?_, li32_ok rd i h0 hd hsp' (by simpa using h12) h32⟩
      unfold li32
      simp only [List.length_append]
      exact Nat.add_le_add (length_ite16 _ _ _) (length_ite16 _ _ _)

/-- `k` extra steps of the recursion are enough for constants of `32 + 11 k` bits. -/
theorem liSub_ok (k rd : Nat) (i : Int) (h0 : 0 < rd) (hd : rd < 32) (hsp : rd ≠ 2 ∨ (-2048 ≤ i ∧ i < 2048))
    (hi : -2 ^ (31 + 11 * k) ≤ i ∧ i < 2 ^ (31 + 11 * k)) :
    ∃ c, liSub (k + 1) rd i = some c ∧ c.length ≤ 8 + 6 * k
      ∧ ∃ rvs, decodeAll c = some rvs ∧ ∀ s, run rvs s = some (rset s rd (BitVec.ofInt 64 i)) := by
  have rnz : rd ≠ 0 := by omega
  induction k generalizing i with
  | zero => exact liSub_base 0 rd i h0 hd hsp ((isIm32_rng i).2 hi)
  | succ k ih =>
    by_cases h32 : isIm32 i = true
    · obtain ⟨c, h1, h2, h3⟩ := liSub_base (k + 1) rd i h0 hd hsp h32
      exact ⟨c, h1, by omega, h3⟩
    · have h32' := h32
      rw [isIm32_rng] at h32'
      have hN : (2 : Int) ^ (31 + 11 * (k + 1)) = 2 ^ (31 + 11 * k) * 2048 := by
        rw [show 31 + 11 * (k + 1) = (31 + 11 * k) + 11 by omega, Int.pow_add]; rfl
      have hN1 : (0 : Int) < 2 ^ (31 + 11 * k) := Int.pow_pos (by decide)
      have hsp' : rd ≠ 2 := by
        rcases hsp with h | h
        · exact h
        · omega
      have h6 : isIm6 i = false := by
        cases h : isIm6 i with
        | false => rfl
        | true => rw [isIm6_iff] at h; omega
      have h12 : isIm12 i = false := by
        cases h : isIm12 i with
        | false => rfl
        | true => rw [isIm12_iff] at h; omega
      rw [liSub]
      simp only [h6, h12, h32, Bool.false_eq_true, if_false]
      generalize hl : (if i % 4096 ≥ 2048 then i % 4096 - 4096 else i % 4096) = l
      generalize hh : (if i % 4096 ≥ 2048 then i / 4096 + 1 else i / 4096) = h
      have hlr : -2048 ≤ l ∧ l < 2048 ∧ h * 4096 + l = i := by
        split at hl <;> split at hh <;> omega
      obtain ⟨c, c1, c2, rvs, c3, c4⟩ := ih h (.inl hsp') (by omega)
      simp only [c1]
      have lo : decodeAll (if isIm6 l then code16 (C_ADDI rd l) else code32 (wImm .addi rd rd l)) = some [.opImm .addi rd rd l] := by
        by_cases h6 : isIm6 l = true
        · rw [if_pos h6]; exact dec16 (is_C_ADDI rd l hd h6)
        · rw [if_neg h6]; exact dec32 (is_wImm .addi rd rd l hd hd ⟨hlr.1, hlr.2.1⟩)
      refine ⟨_, rfl, ?_, _, decodeAll_append _ _ _ _ (decodeAll_append _ _ _ _ c3
        (dec16 (is_C_SLLI rd 12 hd (by omega)))) lo, fun s => ?_⟩
      · simp only [List.length_append]
        have := length_ite16 (isIm6 l) (C_ADDI rd l) (wImm .addi rd rd l)
        have : (code16 (C_SLLI rd 12)).length = 2 := rfl
        omega
      · rw [run_append, run_append, c4 s]
        simp only [Option.bind_some, run, step, immSem, rget_rset_same _ _ _ rnz, rset_rset]
        rw [shl12_add, hlr.2.2]

/-! ## Pseudo instructions -/

theorem shl_sshr (x : BitVec 64) (k n : Nat) (h : n + k = 64) (hn : 0 < n) :
    (x <<< k).sshiftRight k = (x.setWidth n).signExtend 64 := by
  apply BitVec.eq_of_getLsbD_eq
  intro i hi
  rw [BitVec.getLsbD_sshiftRight, BitVec.getLsbD_signExtend, BitVec.getLsbD_shiftLeft, BitVec.getLsbD_setWidth,
    BitVec.msb_eq_getLsbD_last, BitVec.msb_eq_getLsbD_last, BitVec.getLsbD_shiftLeft, BitVec.getLsbD_setWidth]
  have e1 : ¬ (64 ≤ i) := by omega
  by_cases h1 : k + i < 64
  · have e2 : i < n := by omega
    have e3 : ¬ (k + i < k) := by omega
    have e4 : k + i - k = i := by omega
    simp [e1, h1, e2, e3, e4, hi]
  · have e2 : ¬ (i < n) := by omega
    have e3 : ¬ (64 - 1 < k) := by omega
    have e4 : 64 - 1 - k = n - 1 := by omega
    have e5 : n - 1 < n := by omega
    have e6 : ¬ (63 < k) := by omega
    have e7 : 63 - k = n - 1 := by omega
    simp [e1, h1, e2, e3, e4, hi, e5, e6, e7, hn]

theorem shl_ushr (x : BitVec 64) (k n : Nat) (h : n + k = 64) : (x <<< k) >>> k = (x.setWidth n).setWidth 64 := by
  apply BitVec.eq_of_getLsbD_eq
  intro i hi
  rw [BitVec.getLsbD_ushiftRight, BitVec.getLsbD_shiftLeft, BitVec.getLsbD_setWidth, BitVec.getLsbD_setWidth]
  have e3 : ¬ (k + i < k) := by omega
  have e4 : k + i - k = i := by omega
  by_cases h1 : k + i < 64
  · have e2 : i < n := by omega
    simp [h1, e2, hi]
  · have e2 : ¬ (i < n) := by omega
    simp [h1, e2]

theorem and255 (x : BitVec 64) : x &&& BitVec.ofInt 64 255 = (x.setWidth 8).setWidth 64 := by
  apply BitVec.eq_of_toNat_eq
  rw [BitVec.toNat_and, BitVec.toNat_setWidth, BitVec.toNat_setWidth]
  have : (BitVec.ofInt 64 255).toNat = 2 ^ 8 - 1 := rfl
  rw [this, Nat.and_two_pow_sub_one_eq_mod]
  omega

/-- Implemented by one instruction. -/
theorem impl1 {c : List Nat} {r : RV} {rd : Nat} {v : Regs → BitVec 64} (h : decodeAll c = some [r])
    (hs : ∀ s, step r s = some (rset s rd (v s))) : Implements c (.reg rd v) :=
  ⟨[r], h, fun s => by simp [run, hs s]⟩

theorem impl2 {c1 c2 : List Nat} {r1 r2 : RV} {rd : Nat} {v : Regs → BitVec 64} (h1 : decodeAll c1 = some [r1])
    (h2 : decodeAll c2 = some [r2]) (hs : ∀ s, (step r1 s).bind (step r2) = some (rset s rd (v s))) :
    Implements (c1 ++ c2) (.reg rd v) :=
  ⟨[r1, r2], decodeAll_append _ _ _ _ h1 h2, fun s => by
    have := hs s
    simp only [run]
    cases h : step r1 s with
    | none => rw [h] at this; simp at this
    | some s' => rw [h] at this; simpa using this⟩

theorem un_ok (f : UnOp) (rd rs : Nat) (h0 : 0 < rd) (hd : rd < 32) (hs : rs < 32) :
    Implements (asm2r f rd rs) (.reg rd (fun s => unSem f (rget s rs))) := by
  have rnz : rd ≠ 0 := by omega
  -- the first instruction of the shifting pairs
  have sl : ∀ k : Int, 0 ≤ k ∧ k < 64 →
      decodeAll (if rd = rs then code16 (C_SLLI rd k) else code32 (wImm .slli rd rs k)) = some [.opImm .slli rd rs k] := by
    intro k hk
    split
    · rename_i h; subst h; exact dec16 (is_C_SLLI rd k hd (by omega))
    · exact dec32 (is_wImm .slli rd rs k hd hs hk)
  have sx : ∀ k : Int, 0 ≤ k ∧ k < 64 →
      decodeAll (if isRvc rd then code16 (C_SRAI rd k) else code32 (wImm .srai rd rd k)) = some [.opImm .srai rd rd k] := by
    intro k hk
    split
    · rename_i h; exact dec16 (is_C_SRAI rd k h (by omega))
    · exact dec32 (is_wImm .srai rd rd k hd hd hk)
  have zx : ∀ k : Int, 0 ≤ k ∧ k < 64 →
      decodeAll (if isRvc rd then code16 (C_SRLI rd k) else code32 (wImm .srli rd rd k)) = some [.opImm .srli rd rd k] := by
    intro k hk
    split
    · rename_i h; exact dec16 (is_C_SRLI rd k h (by omega))
    · exact dec32 (is_wImm .srli rd rd k hd hd hk)
  cases f <;> simp only [asm2r]
  case neg => exact impl1 (dec32 (is_wAlu .sub rd 0 rs hd (by omega) hs)) (fun s => by simp [step, aluSem, unSem, rget_zero])
  case not =>
    refine impl1 (dec32 (is_wImm .xori rd rs (-1) hd hs (by simp [immRange]))) (fun s => ?_)
    have : BitVec.ofInt 64 (-1) = BitVec.allOnes 64 := by decide
    simp only [step, immSem, unSem, this, BitVec.xor_allOnes]
  case sextB =>
    refine impl2 (sl 56 (by omega)) (sx 56 (by omega)) (fun s => ?_)
    simp only [step, immSem, Option.bind_some, rget_rset_same _ _ _ rnz, rset_rset, unSem]
    rw [show (56 : Int).toNat = 56 from rfl, shl_sshr _ 56 8 (by omega) (by omega)]
  case sextH =>
    refine impl2 (sl 48 (by omega)) (sx 48 (by omega)) (fun s => ?_)
    simp only [step, immSem, Option.bind_some, rget_rset_same _ _ _ rnz, rset_rset, unSem]
    rw [show (48 : Int).toNat = 48 from rfl, shl_sshr _ 48 16 (by omega) (by omega)]
  case sextW =>
    have : decodeAll (if rd = rs then code16 (C_ADDIW rd 0) else code32 (wImm .addiw rd rs 0)) = some [.opImm .addiw rd rs 0] := by
      split
      · rename_i h; subst h; exact dec16 (is_C_ADDIW rd 0 h0 hd rfl)
      · exact dec32 (is_wImm .addiw rd rs 0 hd hs (by simp [immRange]))
    exact impl1 this (fun s => by simp [step, immSem, unSem, sx32, lo32])
  case zextB =>
    exact impl1 (dec32 (is_wImm .andi rd rs 0xff hd hs (by simp [immRange])))
      (fun s => by simp only [step, immSem, unSem, and255])
  case zextH =>
    refine impl2 (sl 48 (by omega)) (zx 48 (by omega)) (fun s => ?_)
    simp only [step, immSem, Option.bind_some, rget_rset_same _ _ _ rnz, rset_rset, unSem]
    rw [show (48 : Int).toNat = 48 from rfl, shl_ushr _ 48 16 (by omega)]
  case zextW =>
    refine impl2 (sl 32 (by omega)) (zx 32 (by omega)) (fun s => ?_)
    simp only [step, immSem, Option.bind_some, rget_rset_same _ _ _ rnz, rset_rset, unSem]
    rw [show (32 : Int).toNat = 32 from rfl, shl_ushr _ 32 32 (by omega)]
  case seqz =>
    refine impl1 (dec32 (is_wImm .sltiu rd rs 1 hd hs (by simp [immRange]))) (fun s => ?_)
    have : (rget s rs).ult (BitVec.ofInt 64 1) = (rget s rs == 0) := by
      generalize rget s rs = x
      rw [Bool.eq_iff_iff, BitVec.ult_iff_lt, BitVec.lt_def, beq_iff_eq, ← BitVec.toNat_inj]
      show x.toNat < 1 ↔ x.toNat = 0
      omega
    simp only [step, immSem, unSem, this]
  case snez =>
    refine impl1 (dec32 (is_wAlu .sltu rd 0 rs hd (by omega) hs)) (fun s => ?_)
    have : (0 : BitVec 64).ult (rget s rs) = (rget s rs != 0) := by
      generalize rget s rs = x
      rw [Bool.eq_iff_iff, BitVec.ult_iff_lt, BitVec.lt_def, bne_iff_ne, ne_eq, ← BitVec.toNat_inj]
      show 0 < x.toNat ↔ ¬ x.toNat = 0
      omega
    simp only [step, aluSem, unSem, rget_zero, this]
  case sltz =>
    refine impl1 (dec32 (is_wAlu .slt rd rs 0 hd hs (by omega))) (fun s => ?_)
    simp only [step, aluSem, unSem, rget_zero, BitVec.slt]
    rfl
  case sgtz =>
    refine impl1 (dec32 (is_wAlu .slt rd 0 rs hd (by omega) hs)) (fun s => ?_)
    simp only [step, aluSem, unSem, rget_zero, BitVec.slt]
    rfl

/-! ## Register-register and register-immediate instructions -/

theorem is_ca (d r : Nat) (hd : isRvc d = true) (hr : isRvc r = true) :
    Is16 (C_ADDW d r) (.op .addw d d r) ∧ Is16 (C_SUB d r) (.op .sub d d r) ∧ Is16 (C_SUBW d r) (.op .subw d d r)
    ∧ Is16 (C_AND d r) (.op .and d d r) ∧ Is16 (C_OR d r) (.op .or d d r) ∧ Is16 (C_XOR d r) (.op .xor d d r) := by
  obtain ⟨a, ha, rfl⟩ := rvcEx d hd
  obtain ⟨b, hb, rfl⟩ := rvcEx r hr
  exact tab_ca a ha b hb

theorem cSame_ok (f : AluOp) (rd rs2 w : Nat) (hd : isRvc rd = true) (hr : isRvc rs2 = true) (h : cSame f rd rs2 = some w) :
    Is16 w (.op f rd rd rs2) := by
  obtain ⟨h1, h2, h3, h4, h5, h6⟩ := is_ca rd rs2 hd hr
  have hd' := (isRvc_iff rd).1 hd
  have hr' := (isRvc_iff rs2).1 hr
  have h0 := is_C_ADD rd rs2 (by omega) (by omega) (by omega)
  cases f <;> simp only [cSame, Option.some.injEq, reduceCtorEq] at h <;> subst h <;> assumption

theorem cSwap_ok (f : AluOp) (rd rs1 w : Nat) (hd : isRvc rd = true) (hr : isRvc rs1 = true) (h : cSwap f rd rs1 = some w) :
    Is16 w (.op f rd rd rs1) ∧ ∀ x y, aluSem f x y = aluSem f y x := by
  obtain ⟨h1, h2, h3, h4, h5, h6⟩ := is_ca rd rs1 hd hr
  have hd' := (isRvc_iff rd).1 hd
  have hr' := (isRvc_iff rs1).1 hr
  have h0 := is_C_ADD rd rs1 (by omega) (by omega) (by omega)
  cases f <;> simp only [cSwap, Option.some.injEq, reduceCtorEq] at h <;> subst h <;> refine ⟨by assumption, fun x y => ?_⟩ <;>
    simp only [aluSem]
  · exact BitVec.add_comm x y
  · exact BitVec.xor_comm x y
  · exact BitVec.or_comm x y
  · exact BitVec.and_comm x y
  · rw [BitVec.add_comm]

theorem alu_ok (f : AluOp) (rd rs1 rs2 : Nat) (hd : rd < 32) (h1 : rs1 < 32) (h2 : rs2 < 32)
    (hb : ¬ Broken (.alu f rd rs1 rs2)) :
    Implements (asm3r f rd rs1 rs2) (.reg rd (fun s => aluSem f (rget s rs1) (rget s rs2))) := by
  unfold asm3r
  cases hp : cPick f rd rs1 rs2 with
  | some w =>
    unfold cPick at hp
    by_cases e1 : rd = rs1
    · rw [if_pos e1] at hp
      subst e1
      split at hp
      · rename_i hr
        simp only [Bool.and_eq_true] at hr
        exact impl1 (dec16 (cSame_ok f rd rs2 w hr.1 hr.2 hp)) (fun s => rfl)
      · cases hp
    · rw [if_neg e1] at hp
      by_cases e2 : rd = rs2
      · rw [if_pos e2] at hp
        subst e2
        split at hp
        · rename_i hr
          simp only [Bool.and_eq_true] at hr
          obtain ⟨a, b⟩ := cSwap_ok f rd rs1 w hr.1 hr.2 hp
          exact impl1 (dec16 a) (fun s => by simp only [step, b (rget s rd)])
        · cases hp
      · rw [if_neg e2] at hp; cases hp
  | none =>
    have gen : Implements (code32 (wAlu f rd rs1 rs2)) (.reg rd (fun s => aluSem f (rget s rs1) (rget s rs2))) :=
      impl1 (dec32 (is_wAlu f rd rs1 rs2 hd h1 h2)) (fun s => rfl)
    cases f <;> try exact gen
    simp only [Broken, not_or, not_and] at hb
    simp only [asm3rGen]
    by_cases e1 : rd = rs1
    · rw [if_pos e1]
      subst e1
      exact impl1 (dec16 (is_C_ADD rd rs2 hd h2 (hb.1 rfl))) (fun s => rfl)
    · rw [if_neg e1]
      by_cases e2 : rd = rs2
      · rw [if_pos e2]
        subst e2
        exact impl1 (dec16 (is_C_ADD rd rs1 hd h1 (hb.2 rfl))) (fun s => by simp only [step, aluSem, BitVec.add_comm])
      · rw [if_neg e2]; exact gen

theorem mv_ok (rd rs : Nat) (hd : rd < 32) (hs : rs < 32) : Implements (asmMv rd rs) (.reg rd (fun s => rget s rs)) := by
  unfold asmMv
  by_cases h : rs = 0
  · subst h
    rw [if_neg (by simp)]
    exact impl1 (dec16 (is_C_LI rd 0 hd rfl)) (fun s => by simp [step, immSem, rget_zero])
  · rw [if_pos h]
    exact impl1 (dec16 (is_C_MV rd rs hd hs h)) (fun s => by simp [step, aluSem, rget_zero])

theorem rset_self (s : Regs) (r : Nat) : rset s r (rget s r) = s := by
  funext x
  simp only [rset, rget]
  by_cases h : r = 0
  · simp [h]
  · by_cases hx : x = r
    · subst hx; simp [h]
    · simp [hx]

theorem cImmPick_ok (f : ImmOp) (rd rs : Nat) (i : Int) (w : Nat) (h0 : 0 < rd) (hd : rd < 32)
    (h : cImmPick f rd rs i = some w) : Is16 w (.opImm f rd rs i) := by
  unfold cImmPick at h
  split at h
  · rename_i e
    subst e
    cases f <;> simp only [reduceCtorEq] at h
    case addi =>
      split at h
      · rename_i c; simp at h; subst h; simp only [Bool.and_eq_true] at c; exact is_C_ADDI rd i hd c.1
      · split at h
        · rename_i c; simp at h; subst h; obtain ⟨rfl, c1, c2, c3⟩ := c; exact is_C_ADDI16SP i c1 c2 c3
        · cases h
    case andi =>
      split at h
      · rename_i c; simp at h; subst h; simp only [Bool.and_eq_true] at c; exact is_C_ANDI rd i c.2 c.1
      · cases h
    case slli =>
      split at h
      · rename_i c; simp at h; subst h; simp only [Bool.and_eq_true] at c; exact is_C_SLLI rd i hd ((isUim6_iff i).1 c.1)
      · cases h
    case srli =>
      split at h
      · rename_i c; simp at h; subst h; simp only [Bool.and_eq_true] at c; exact is_C_SRLI rd i c.2 ((isUim6_iff i).1 c.1)
      · cases h
    case srai =>
      split at h
      · rename_i c; simp at h; subst h; simp only [Bool.and_eq_true] at c; exact is_C_SRAI rd i c.2 ((isUim6_iff i).1 c.1)
      · cases h
    case addiw =>
      split at h
      · rename_i c; simp at h; subst h; exact is_C_ADDIW rd i h0 hd c
      · cases h
  · cases h

theorem immOk_of_range (f : ImmOp) (i : Int) (h : immRange f i) : immOk f i = true := by
  cases f <;> simp [immRange, immOk] at * <;> omega

theorem alui_ok (f : ImmOp) (rd rs : Nat) (i : Int) (h0 : 0 < rd) (hd : rd < 32) (hs : rs < 32) (hi : immRange f i) :
    ∃ c, asm2ri f rd rs i = some c ∧ (c.length ≤ 4) ∧
      (∃ rvs, decodeAll c = some rvs ∧ ∀ s, run rvs s = some (rset s rd (immSem f (rget s rs) i))) := by
  unfold asm2ri
  by_cases hz : f = .addi ∧ i = 0
  · rw [if_pos hz]
    obtain ⟨rfl, rfl⟩ := hz
    have e : ∀ s, immSem .addi (rget s rs) 0 = rget s rs := fun s => by simp [immSem]
    by_cases hr : rd = rs
    · subst hr
      rw [if_neg (by simp)]
      refine ⟨_, rfl, by simp, [], rfl, fun s => ?_⟩
      rw [e, rset_self]; rfl
    · rw [if_pos hr]
      obtain ⟨rvs, m1, m2⟩ := mv_ok rd rs hd hs
      refine ⟨_, rfl, ?_, rvs, m1, fun s => by rw [e]; exact m2 s⟩
      unfold asmMv; split <;> simp [code16]
  · rw [if_neg hz]
    cases hp : cImmPick f rd rs i with
    | some w =>
      exact ⟨_, rfl, by simp [code16], impl1 (dec16 (cImmPick_ok f rd rs i w h0 hd hp)) (fun s => rfl)⟩
    | none =>
      simp only [immOk_of_range f i hi, if_true]
      exact ⟨_, rfl, by simp [code32], impl1 (dec32 (is_wImm f rd rs i hd hs hi)) (fun s => rfl)⟩

/-! ## Loads and stores -/

theorem load_ok (f : LoadOp) (rd : Nat) (i : Int) (rs : Nat) (h0 : 0 < rd) (hd : rd < 32) (hs : rs < 32) (hi : OfsOk i) :
    decodeAll (asmLd f rd i rs) = some [.load f rd rs i] := by
  have gen : decodeAll (code32 (wLoad f rd i rs)) = some [.load f rd rs i] := dec32 (is_wLoad f rd i rs hd hs hi)
  cases f <;> try exact gen
  · simp only [asmLd]
    split
    · rename_i c; exact dec16 (is_C_LW rd i rs c.2.2.2.1 c.2.2.2.2 ⟨c.1, by omega, c.2.2.1⟩)
    · exact gen
  · simp only [asmLd]
    split
    · rename_i c; obtain ⟨c1, c2, c3, rfl⟩ := c; exact dec16 (is_C_LDSP rd i h0 hd ⟨c1, by omega, c3⟩)
    · split
      · rename_i c; exact dec16 (is_C_LD rd i rs c.2.2.2.1 c.2.2.2.2 ⟨c.1, by omega, c.2.2.1⟩)
      · exact gen

theorem store_ok (f : StoreOp) (rs2 : Nat) (i : Int) (rs1 : Nat) (h2 : rs2 < 32) (h1 : rs1 < 32) (hi : OfsOk i)
    (hb : ¬ Broken (.store f rs2 i rs1)) : decodeAll (asmSd f rs2 i rs1) = some [.store f rs2 rs1 i] := by
  have gen : decodeAll (code32 (wStore f rs2 i rs1)) = some [.store f rs2 rs1 i] := dec32 (is_wStore f rs2 i rs1 h2 h1 hi)
  cases f <;> try exact gen
  · simp only [asmSd]
    split
    · rename_i c
      obtain ⟨c1, c2, c3, c4, c5⟩ := c
      refine dec16 (is_C_SW rs2 i rs1 c5 c4 ⟨c1, by omega, ?_⟩)
      simp only [Broken] at hb
      rw [isRvc_iff] at c4 c5
      by_cases h : i % 8 = 0
      · exact h
      · exact absurd ⟨c1, by omega, c3, c4, c5, h⟩ hb
    · exact gen
  · simp only [asmSd]
    split
    · rename_i c; obtain ⟨c1, c2, c3, rfl⟩ := c; exact dec16 (is_C_SDSP rs2 i h2 ⟨c1, by omega, c3⟩)
    · split
      · rename_i c; exact dec16 (is_C_SD rs2 i rs1 c.2.2.2.2 c.2.2.2.1 ⟨c.1, by omega, c.2.2.1⟩)
      · exact gen

theorem fld_ok (dbl : Bool) (rd : Nat) (i : Int) (rs : Nat) (hd : rd < 32) (hs : rs < 32) (hi : OfsOk i) :
    decodeAll (asmFld dbl rd i rs) = some [.fload dbl rd rs i] := by
  unfold asmFld
  split
  · rename_i c; obtain ⟨rfl, c1, c2, c3, rfl⟩ := c; exact dec16 (is_C_FLDSP rd i hd ⟨c1, by omega, c3⟩)
  · split
    · rename_i c; obtain ⟨rfl, c1, c2, c3, c4, c5⟩ := c; exact dec16 (is_C_FLD rd i rs c4 c5 ⟨c1, by omega, c3⟩)
    · exact dec32 (is_wFld dbl rd i rs hd hs hi)

theorem fsd_ok (dbl : Bool) (rs2 : Nat) (i : Int) (rs1 : Nat) (h2 : rs2 < 32) (h1 : rs1 < 32) (hi : OfsOk i) :
    decodeAll (asmFsd dbl rs2 i rs1) = some [.fstore dbl rs2 rs1 i] := by
  unfold asmFsd
  split
  · rename_i c; obtain ⟨rfl, c1, c2, c3, rfl⟩ := c; exact dec16 (is_C_FSDSP rs2 i h2 ⟨c1, by omega, c3⟩)
  · split
    · rename_i c; obtain ⟨rfl, c1, c2, c3, c4, c5⟩ := c; exact dec16 (is_C_FSD rs2 i rs1 c5 c4 ⟨c1, by omega, c3⟩)
    · exact dec32 (is_wFsd dbl rs2 i rs1 h2 h1 hi)

theorem br_ok (f : BrOp) (rs1 rs2 : Nat) (h1 : rs1 < 32) (h2 : rs2 < 32) :
    decodeAll (asmBxx f rs1 rs2) = some [.branch f rs1 rs2 0] := by
  unfold asmBxx
  split
  · rename_i c; obtain ⟨rfl, c1, rfl⟩ := c
    obtain ⟨a, ha, rfl⟩ := rvcEx rs1 c1
    exact dec16 (tab_cbr a ha).1
  · split
    · rename_i c; obtain ⟨rfl, c1, rfl⟩ := c
      obtain ⟨a, ha, rfl⟩ := rvcEx rs1 c1
      exact dec16 (tab_cbr a ha).2
    · exact dec32 (is_W_BXX0 f rs1 rs2 h1 h2)

/-! ## Theorems -/

/-- **C52.** `li` loads every 64-bit constant: the code is produced, fits the code buffer (26 bytes, asm_code.h), touches
only the destination and leaves the constant there. `zero` and `sp` as destination are excluded (`li_sp_wrong`). -/
theorem li_correct (rd : Nat) (i : Int) (h0 : 0 < rd) (hd : rd < 32) (hsp : rd ≠ 2) (hi : IsI64 i) :
    ∃ c, assemble (.li rd i) = some c ∧ c.length ≤ 26 ∧ Implements c (.reg rd (fun _ => BitVec.ofInt 64 i)) := by
  obtain ⟨c, h1, h2, h3⟩ := liSub_ok 3 rd i h0 hd (.inl hsp) (by
    unfold IsI64 at hi
    have : (2 : Int) ^ (31 + 11 * 3) = 18446744073709551616 := by decide
    omega)
  exact ⟨c, h1, h2, h3⟩


/-- **C38** (all encodable operands except the `Broken` ones). Every instruction is accepted, its code fits the buffer, and
the bytes, fetched and decoded as the RISC-V manual prescribes, do what the mnemonic means. -/
theorem assemble_correct_partial (i : Inst) (ok : Ok i) (hb : ¬ Broken i) :
    ∃ c, assemble i = some c ∧ c.length ≤ 26 ∧ Implements c (effect i) := by
  cases i with
  | noop => exact ⟨[], rfl, by simp, rfl⟩
  | mv rd rs =>
    refine ⟨_, rfl, ?_, mv_ok rd rs ok.2.1 ok.2.2⟩
    unfold asmMv; split <;> simp [code16]
  | li rd i =>
    obtain ⟨h0, hd, hi⟩ := ok
    have hsp : rd ≠ 2 ∨ (-2048 ≤ i ∧ i < 2048) := by
      simp only [Broken] at hb
      by_cases h : rd = 2
      · by_cases h' : -2048 ≤ i ∧ i < 2048
        · exact .inr h'
        · exact absurd ⟨h, h'⟩ hb
      · exact .inl h
    exact liSub_ok 3 rd i h0 hd hsp (by
      unfold IsI64 at hi
      have : (2 : Int) ^ (31 + 11 * 3) = 18446744073709551616 := by decide
      omega)
  | la rd =>
    exact ⟨_, rfl, by simp [asmLa, code32], decodeAll_append _ _ _ _ (dec32 (is_W_AUIPC0 rd ok))
      (dec32 (is_wImm .addi rd rd 0 ok ok (by simp [immRange])))⟩
  | alu f rd rs1 rs2 =>
    refine ⟨_, rfl, ?_, alu_ok f rd rs1 rs2 ok.2.1 ok.2.2.1 ok.2.2.2 hb⟩
    unfold asm3r
    split
    · simp [code16]
    · unfold asm3rGen; split
      · split
        · simp [code16]
        · split <;> simp [code16, code32]
      · simp [code32]
  | alui f rd rs i =>
    obtain ⟨c, h1, h2, h3⟩ := alui_ok f rd rs i ok.1 ok.2.1 ok.2.2.1 ok.2.2.2
    exact ⟨c, h1, by omega, h3⟩
  | un f rd rs =>
    refine ⟨_, rfl, ?_, un_ok f rd rs ok.1 ok.2.1 ok.2.2⟩
    have l1 : ∀ (p : Prop) [Decidable p] (x y : Nat), (if p then code16 x else code32 y).length ≤ 4 := by
      intro p _ x y; split <;> simp [code16, code32]
    have l2 : ∀ x, (code32 x).length ≤ 4 := by intro x; simp [code32]
    cases f <;> simp only [asm2r, pSext, pZext, List.length_append]
    case sextB => exact Nat.le_trans (Nat.add_le_add (l1 _ _ _) (l1 _ _ _)) (by omega)
    case sextH => exact Nat.le_trans (Nat.add_le_add (l1 _ _ _) (l1 _ _ _)) (by omega)
    case zextH => exact Nat.le_trans (Nat.add_le_add (l1 _ _ _) (l1 _ _ _)) (by omega)
    case zextW => exact Nat.le_trans (Nat.add_le_add (l1 _ _ _) (l1 _ _ _)) (by omega)
    case sextW => exact Nat.le_trans (l1 _ _ _) (by omega)
    all_goals exact Nat.le_trans (l2 _) (by omega)
  | load f rd ofs rs =>
    refine ⟨_, rfl, ?_, load_ok f rd ofs rs ok.1 ok.2.1 ok.2.2.1 ok.2.2.2⟩
    unfold asmLd
    repeat' split
    all_goals simp [code16, code32]
  | store f rs2 ofs rs1 =>
    refine ⟨_, rfl, ?_, store_ok f rs2 ofs rs1 ok.1 ok.2.1 ok.2.2 hb⟩
    unfold asmSd
    repeat' split
    all_goals simp [code16, code32]
  | j => exact ⟨_, rfl, by simp [code16], by show decodeAll (code16 C_J) = _; decide⟩
  | jr rs => exact ⟨_, rfl, by simp [code16], dec16 (is_C_JR rs ok.2 (by have := ok.1; omega))⟩
  | jalr rs => exact ⟨_, rfl, by simp [code16], dec16 (is_C_JALR rs ok.2 (by have := ok.1; omega))⟩
  | br f rs1 rs2 =>
    refine ⟨_, rfl, ?_, br_ok f rs1 rs2 ok.1 ok.2⟩
    unfold asmBxx
    repeat' split
    all_goals simp [code16, code32]
  | call =>
    exact ⟨_, rfl, by simp [asmCall, code32], decodeAll_append _ _ _ _ (dec32 (is_W_AUIPC0 1 (by omega)))
      (dec32 (is_W_JALR 1 1 0 (by omega) (by omega) (by simp [OfsOk])))⟩
  | ret => exact ⟨_, rfl, by simp [code16], by show decodeAll (code16 (C_JR 1)) = _; decide⟩
  | ecall => exact ⟨_, rfl, by simp [code32], by show decodeAll (code32 W_ECALL) = _; decide⟩
  | fp f dbl rd rs1 rs2 =>
    obtain ⟨hd, h1, h2⟩ := ok
    refine ⟨_, rfl, by simp [code32], ?_⟩
    cases f <;> cases dbl <;> exact dec32 (is_rFp _ rs2 rs1 _ rd _ (by decide) h2 h1 (by decide) hd rfl)
  | fsqrt dbl rd rs =>
    refine ⟨_, rfl, by simp [code32], ?_⟩
    cases dbl <;> exact dec32 (is_rFp _ 0 rs _ rd _ (by decide) (by decide) ok.2 (by decide) ok.1 rfl)
  | fmv dbl rd rs =>
    refine ⟨_, rfl, by simp [code32], ?_⟩
    cases dbl <;> exact dec32 (is_rFp _ rs rs _ rd _ (by decide) ok.2 ok.2 (by decide) ok.1 rfl)
  | fneg dbl rd rs =>
    refine ⟨_, rfl, by simp [code32], ?_⟩
    cases dbl <;> exact dec32 (is_rFp _ rs rs _ rd _ (by decide) ok.2 ok.2 (by decide) ok.1 rfl)
  | fcmp f dbl rd rs1 rs2 =>
    obtain ⟨hd, h1, h2⟩ := ok
    refine ⟨_, rfl, by simp [code32], ?_⟩
    cases f <;> cases dbl <;> exact dec32 (is_rFp _ rs2 rs1 _ rd _ (by decide) h2 h1 (by decide) hd rfl)
  | fld dbl rd ofs rs =>
    refine ⟨_, rfl, ?_, fld_ok dbl rd ofs rs ok.1 ok.2.1 ok.2.2⟩
    unfold asmFld
    repeat' split
    all_goals simp [code16, code32]
  | fsd dbl rs2 ofs rs1 =>
    refine ⟨_, rfl, ?_, fsd_ok dbl rs2 ofs rs1 ok.1 ok.2.1 ok.2.2⟩
    unfold asmFsd
    repeat' split
    all_goals simp [code16, code32]
  | fcvtFI dbl src rd rs =>
    refine ⟨_, rfl, by simp [code32], ?_⟩
    cases dbl <;> cases src <;> exact dec32 (is_rFp _ _ rs _ rd _ (by decide) (by decide) ok.2 (by decide) ok.1 rfl)
  | fcvtIF dst dbl rd rs rm =>
    refine ⟨_, rfl, by simp [code32], ?_⟩
    cases dbl <;> cases dst <;> exact dec32 (is_rFp _ _ rs _ rd _ (by decide) (by decide) ok.2.1 ok.2.2 ok.1 rfl)
  | fcvtDS rd rs =>
    exact ⟨_, rfl, by simp [code32], dec32 (is_rFp _ _ rs _ rd _ (by decide) (by decide) ok.2 (by decide) ok.1 rfl)⟩
  | fcvtSD rd rs =>
    exact ⟨_, rfl, by simp [code32], dec32 (is_rFp _ _ rs _ rd _ (by decide) (by decide) ok.2 (by decide) ok.1 rfl)⟩
  | fmvX dbl rd rs =>
    refine ⟨_, rfl, by simp [code32], ?_⟩
    cases dbl <;> exact dec32 (is_rFp _ _ rs _ rd _ (by decide) (by decide) ok.2 (by decide) ok.1 rfl)

/-- The hypotheses hold for ordinary instructions; a constant that takes all four rounds of the recursion fills the buffer. -/
example : assemble (.li 10 0x123456789abcdef0)
    = some [55, 69, 35, 1, 27, 5, 133, 86, 50, 5, 19, 5, 181, 137, 50, 5, 19, 5, 229, 188, 50, 5, 19, 5, 5, 239] := by decide
example : Ok (.store .sw 10 8 11) ∧ ¬ Broken (.store .sw 10 8 11) ∧ assemble (.store .sw 10 8 11) = some [136, 197] := by
  refine ⟨by simp [Ok, OfsOk], by simp [Broken], by decide⟩
example : Ok (.alui .addi 2 2 (-496)) ∧ ¬ Broken (.alui .addi 2 2 (-496))
    ∧ assemble (.alui .addi 2 2 (-496)) = some [65, 113] := by
  refine ⟨by simp [Ok, immRange], by simp [Broken], by decide⟩

/-- **C38.** Immediates the architecture cannot encode are rejected. Missing: `srliw`/`sraiw` (see `srliw_reserved`). -/
theorem alui_rejects (f : ImmOp) (rd rs : Nat) (i : Int) (hf : f ≠ .srliw ∧ f ≠ .sraiw) (h : ¬ immRange f i) :
    assemble (.alui f rd rs i) = none := by
  simp only [assemble, asm2ri]
  have hz : ¬ (f = .addi ∧ i = 0) := by
    rintro ⟨rfl, rfl⟩
    exact h (by simp [immRange])
  rw [if_neg hz]
  have hp : cImmPick f rd rs i = none := by
    unfold cImmPick
    split
    · cases f <;> simp only [immRange] at h <;> try rfl
      case addi =>
        have h6 : isIm6 i = false := by
          cases e : isIm6 i with
          | false => rfl
          | true => rw [isIm6_iff] at e; omega
        rw [h6]
        rw [if_neg (by simp), if_neg]
        rintro ⟨-, c1, c2, c3⟩
        rw [isIm6_iff] at c1
        omega
      case addiw => refine if_neg ?_; rw [isIm6_iff]; omega
      case andi => refine if_neg ?_; rw [Bool.and_eq_true, isIm6_iff]; omega
      case slli => refine if_neg ?_; rw [Bool.and_eq_true, isUim6_iff]; omega
      case srli => refine if_neg ?_; rw [Bool.and_eq_true, isUim6_iff]; omega
      case srai => refine if_neg ?_; rw [Bool.and_eq_true, isUim6_iff]; omega
    · rfl
  have ho : immOk f i = false := by
    cases f <;> simp [immRange, immOk] at * <;> omega
  simp [hp, ho]

example : ¬ immRange .addi 2048 := by simp [immRange]

/-! ## Findings: what the assembler gets wrong -/

/-- Every compressed `sw` whose offset is not a multiple of 8 stores 4 bytes too low (riscv64_code.h:147 spreads the offset
as for doublewords): `sw a0, 4(a1)` writes to `0(a1)`. -/
theorem sw_wrong_offset (rs2 : Nat) (i : Int) (rs1 : Nat) (h : Broken (.store .sw rs2 i rs1)) :
    (assemble (.store .sw rs2 i rs1)).map decodeAll = some (some [.store .sw rs2 rs1 (i - 4)]) := by
  obtain ⟨c1, c2, c3, c4, c5, c6⟩ := h
  have r1 := (isRvc_iff rs1).2 c4
  have r2 := (isRvc_iff rs2).2 c5
  simp only [assemble, asmSd, Option.map_some, Option.some.injEq]
  rw [if_pos ⟨c1, by omega, c3, r1, r2⟩]
  apply dec16
  obtain ⟨h1, h2, h3, h4, h5, h6, h7, h8, h9⟩ := cld_fields 6 (imm i 5 3) (rvc rs1) (imm i 7 6) (rvc rs2) (imm_lt i 5 3)
    (by unfold rvc; omega) (imm_lt i 7 6) (by unfold rvc; omega) (by omega) (C_SW rs2 i rs1) rfl
  have e1 : 8 + rvc rs1 = rs1 := by unfold rvc; omega
  have e2 : 8 + rvc rs2 = rs2 := by unfold rvc; omega
  have e3 : ((imm i 7 6 % 2 * 2 ^ 6 + imm i 5 3 * 2 ^ 3 + imm i 7 6 / 2 * 2 ^ 2 : Nat) : Int) = i - 4 := by
    simp only [imm]; omega
  refine ⟨h1, ?_⟩
  simp only [decode16, h2, decC0, h3, h4, h5, h7, h8, h9, e1, e2, e3]

example : Broken (.store .sw 10 4 11) := by simp [Broken]

/-- `add rd, rd, zero` and `add rd, zero, rd` become a call through `rd`. -/
theorem add_zero_wrong (rd : Nat) (h0 : 0 < rd) (hd : rd < 32) :
    (assemble (.alu .add rd rd 0)).map decodeAll = some (some [.jalr 1 rd 0])
    ∧ (assemble (.alu .add rd 0 rd)).map decodeAll = some (some [.jalr 1 rd 0]) := by
  have hn : rd ≠ 0 := by omega
  have e : C_ADD rd 0 = C_JALR rd := by simp [C_ADD, cr, C_JALR]
  have r0 : isRvc 0 = false := rfl
  constructor
  · simp [assemble, asm3r, cPick, r0, asm3rGen, e, dec16 (is_C_JALR rd hd hn)]
  · simp [assemble, asm3r, cPick, r0, asm3rGen, e, hn, dec16 (is_C_JALR rd hd hn)]

/-- `li sp, 65536` adds 16 to `sp` (and truncates it to 32 bits): the compressed `lui` with `sp` is `addi16sp`. -/
theorem li_sp_wrong : (assemble (.li 2 65536)).map decodeAll
    = some (some [.opImm .addi 2 2 16, .opImm .addiw 2 2 0]) := by decide

/-- `srliw`/`sraiw` by 32 to 63 are accepted and give a reserved encoding. -/
theorem srliw_reserved : (assemble (.alui .srliw 5 5 40)).map decodeAll = some none
    ∧ (assemble (.alui .sraiw 5 5 40)).map decodeAll = some none := by decide

/-- Offsets of loads and stores beyond 12 bits are truncated silently. -/
theorem offset_truncated : (assemble (.load .lw 5 4096 10)).map decodeAll = some (some [.load .lw 5 10 0])
    ∧ (assemble (.store .sd 5 2048 10)).map decodeAll = some (some [.store .sd 5 10 (-2048)]) := by decide

end Verif.RvAsm

import Verif.As.X64Dec
/-
The x86-64 encoder of the assembler (C66): /repo/src/as/arch/x64/asm_code.c.

A function that returns NULL ("Illegal operand") or whose assertion fails is `none`.  Bit patterns that are joined by
`|` and have no bit in common are joined by `+` here.  Operands are what the parser makes of the text: labels are
resolved, so that the `rip` operands and jump targets are the numbers that ir_asm_x64.c or the linker puts in the place
of the zeros.  Left out: the segment register operand (`asm_mov_sr`).
-/
namespace Verif.X64Enc
open Verif.Util Verif.X64

/-! ## The code -/

/-- `is_im8`, `is_im32`, src/util/util.c:301-311. -/
def im8 (v : Int) : Prop := -128 ≤ v ∧ v ≤ 127
def im32 (v : Int) : Prop := -2147483648 ≤ v ∧ v ≤ 2147483647

instance (v : Int) : Decidable (im8 v) := by unfold im8; infer_instance
instance (v : Int) : Decidable (im32 v) := by unfold im32; infer_instance

/-- `opr_regno`, src/as/arch/x64/asm_code.c:33-35, of the `Reg` the parser makes (src/as/arch/x64/parse_x64.c:237-260):
`no` is bits 0-2, `x` the rest; %spl, %bpl, %sil, %dil have `x = 2`. -/
def regno (g : Rg) : Nat :=
  if g.z = .b then if g.hi then g.n + 4 else if 4 ≤ g.n ∧ g.n < 8 then g.n + 16 else g.n else g.n

/-- `IM8`, `IM16`, `IM32`, `MAKE_IM`, src/as/asm_code.h:37-39, src/as/arch/x64/asm_code.c:90-98. -/
def le : Nat → Int → List Nat
  | 0, _ => []
  | k + 1, v => (v % 256).toNat :: le k (v / 256)

/-- `(no & 8)` shifted to bit 0. -/
def bit3 (n : Nat) : Nat := n / 8 % 2

def pre66 (z : Sz) : List Nat := if z = .w then [0x66] else []
def rexB : Option Nat → List Nat
  | none => []
  | some r => [0x40 + r]

/-- The condition and the bits of the REX prefix of `put_rex0`. -/
def rex0 (z : Sz) (sno dno : Nat) : Option Nat :=
  if sno ≥ 8 ∨ dno ≥ 8 ∨ z = .q then some (bit3 dno + 4 * bit3 sno + if z = .q then 8 else 0) else none

/-- `put_rex0`, src/as/arch/x64/asm_code.c:47-55. -/
def putRex0 (z : Sz) (sno dno op : Nat) : List Nat := pre66 z ++ rexB (rex0 z sno dno) ++ [op]

/-- The REX prefix of the macro `MAKE_REX0`. -/
def rexM (z : Sz) (sno dno : Nat) : Option Nat :=
  if sno ≥ 8 ∨ dno ≥ 8 ∨ (z = .b ∧ (sno ≥ 4 ∨ dno ≥ 4)) ∨ z = .q then
    some (bit3 dno + 4 * bit3 sno + if z = .q then 8 else 0) else none

/-- `MAKE_REX0`, src/as/arch/x64/asm_code.c:57-63. -/
def makeRex0 (z : Sz) (sno dno op : Nat) : List Nat := pre66 z ++ rexB (rexM z sno dno) ++ [op]

/-- `put_rex1`, src/as/arch/x64/asm_code.c:65-70; `rex_prefix` has no bit below 8. -/
def putRex1 (z : Sz) (pre dno op : Nat) : List Nat := putRex0 z 0 dno op ++ [pre + dno % 8]

/-- `put_rex2`, src/as/arch/x64/asm_code.c:72-77. -/
def putRex2 (z : Sz) (sno dno op : Nat) : List Nat := putRex0 z sno dno op ++ [0xc0 + sno % 8 * 8 + dno % 8]

/-- `MAKE_REX_INDIRECT`, src/as/arch/x64/asm_code.c:79-83. -/
def makeRexInd (z : Sz) (r b op op2 : Nat) (ofs : Int) : List Nat :=
  makeRex0 z r b (if z = .b then op else op + 1)
    ++ [(if ofs = 0 ∧ b ≠ 5 then op2 else if im8 ofs then 0x40 else 0x80) ||| (b % 8) ||| (r % 8 * 8)]
    ++ (if b = 4 then [0x24] else [])

/-- `MAKE_OFFSET(offset, no != RBP - RAX)`, src/as/arch/x64/asm_code.c:85-89: `no` is `reg.no`. -/
def makeOffset (ofs : Int) (no : Nat) : List Nat :=
  if ofs = 0 ∧ no ≠ 5 then [] else if im8 ofs then le 1 ofs else le 4 ofs

/-- The operand `ofs(base)` in `asm_mov_ir`, `asm_mov_ri`, `asm_movbwlq_imi`, `asm_addq_imi`, `asm_movsds_ix`,
`asm_movsds_xi`: ModRM, SIB. -/
def memOp (r b : Nat) (ofs : Int) : List Nat :=
  [(if ofs = 0 ∧ b % 8 ≠ 5 then 0 else if im8 ofs then 0x40 else 0x80) + r % 8 * 8 + b % 8]
    ++ (if b % 8 = 4 then [0x24] else [])

/-- The displacement behind it. -/
def memDisp (b : Nat) (ofs : Int) : List Nat :=
  if ofs = 0 ∧ b % 8 ≠ 5 then [] else if im8 ofs then le 1 ofs else le 4 ofs

/-- The displacement in `asm_movbwlq_imi`, `asm_addq_imi`, `asm_subq_imi`: nothing for an offset of more than 32 bits. -/
def memDispI (b : Nat) (ofs : Int) : List Nat :=
  if ofs = 0 ∧ b % 8 ≠ 5 then [] else if im8 ofs then le 1 ofs else if im32 ofs then le 4 ofs else []

/-- `asm_mov_imr`, src/as/arch/x64/asm_code.c:114-132. -/
def movImr (v : Int) (d : Rg) : List Nat :=
  if d.z = .q ∧ im32 v then [if regno d / 8 = 0 then 0x48 else 0x49, 0xc7, 0xc0 + regno d % 8] ++ le 4 v
  else makeRex0 d.z 0 (regno d) (0xb0 + (if d.z = .b then 0 else 8) + regno d % 8) ++ le d.z.bytes v

/-- `asm_mov_ir`, src/as/arch/x64/asm_code.c:134-168. -/
def movIr (b : Nat) (ofs : Int) (d : Rg) : List Nat :=
  pre66 d.z ++ rexB (rex0 d.z (regno d) b) ++ [0x8a + if d.z = .b then 0 else 1]
    ++ memOp (regno d) b ofs ++ memDisp b ofs

/-- `asm_mov_ri`, src/as/arch/x64/asm_code.c:170-200. -/
def movRi (s : Rg) (b : Nat) (ofs : Int) : List Nat :=
  pre66 s.z ++ rexB (rex0 s.z (regno s) b) ++ [0x88 + if s.z = .b then 0 else 1]
    ++ memOp (regno s) b ofs ++ memDisp b ofs

/-- `asm_mov_iir`, src/as/arch/x64/asm_code.c:202-242. -/
def movIir (b i k : Nat) (ofs : Int) (d : Rg) : Option (List Nat) :=
  if im32 ofs ∧ k < 4 then
    let x := bit3 b + 2 * bit3 i + 4 * bit3 (regno d)
    some ((if d.z = .w then [0x66] else if d.z = .q ∨ x ≠ 0 then [0x48 + x] else [])
      ++ [if d.z = .b then 0x8a else 0x8b,
          regno d % 8 * 8 + (if ofs = 0 then 0x04 else if im8 ofs then 0x44 else 0x84),
          k * 64 + i % 8 * 8 + b % 8]
      ++ (if ofs = 0 then [] else if im8 ofs then le 1 ofs else le 4 ofs))
  else none

/-- `asm_mov_dr`, src/as/arch/x64/asm_code.c:244-261: the address is not written, and no other place writes it. -/
def movDr (_ofs : Int) (d : Rg) : List Nat :=
  (if d.z = .w then [0x66] else if d.z = .q then [0x48] else [])
    ++ [if d.z = .b then 0x8a else 0x8b, regno d % 8 * 8 + 0x04, 0x25] ++ le 4 0

/-- `asm_mov_rd`, src/as/arch/x64/asm_code.c:263-280. -/
def movRd (s : Rg) (_ofs : Int) : List Nat :=
  (if s.z = .w then [0x66] else if s.z = .q then [0x48] else [])
    ++ [if s.z = .b then 0x88 else 0x89, regno s % 8 * 8 + 0x04, 0x25] ++ le 4 0

/-- The immediate operand of `asm_movbwlq_imi` and `asm_movbwlq_imd`. -/
def immOf (z : Sz) (v : Int) : List Nat :=
  match z with
  | .b => le 1 v
  | .w => le 2 v
  | .l | .q => le 4 v

/-- `asm_movbwlq_imi`, src/as/arch/x64/asm_code.c:300-334. -/
def movImi (z : Sz) (v : Int) (b : Nat) (ofs : Int) : List Nat :=
  pre66 z ++ rexB (rex0 z 0 b) ++ [0xc6 + if z = .b then 0 else 1] ++ memOp 0 b ofs ++ memDispI b ofs ++ immOf z v

/-- `asm_movbwlq_imd`, src/as/arch/x64/asm_code.c:336-364. -/
def movImd (z : Sz) (v : Int) (ofs : Int) : Option (List Nat) :=
  if im32 ofs then
    some (pre66 z ++ (if z = .q then [0x48] else []) ++ [0xc6 + if z = .b then 0 else 1, 0x04, 0x25] ++ le 4 ofs
      ++ immOf z v)
  else none

/-- `asm_movszx_rr`, src/as/arch/x64/asm_code.c:366-430. -/
def movszx (sx : Bool) (s d : Rg) : Option (List Nat) :=
  let op := if sx then 0xbe else 0xb6
  let sx' := regno s / 8
  let dx := regno d / 8
  let m := 0xc0 + regno s % 8 + regno d % 8 * 8
  let pre8 (c : Nat) := c + (if sx' % 2 = 0 then 0 else 1) + (if dx = 0 then 0 else 4)
  let pre (c : Nat) := c + (if sx' = 0 then 0 else 1) + (if dx = 0 then 0 else 4)
  match s.z, d.z with
  | .b, .w => some (if regno s < 4 ∧ dx = 0 then [0x66, 0x0f, op, m] else [0x66, pre8 0x40, 0x0f, op, m])
  | .b, .l => some (if regno s < 4 ∧ dx = 0 then [0x0f, op, m] else [pre8 0x40, 0x0f, op, m])
  | .b, .q => some [pre8 0x48, 0x0f, op, m]
  | .w, .l => some (if sx' = 0 ∧ dx = 0 then [0x0f, op + 1, m] else [pre 0x40, 0x0f, op + 1, m])
  | .w, .q => some [pre 0x48, 0x0f, op + 1, m]
  | .l, .q => if sx then some [pre 0x48, 0x63, m] else none
  | _, _ => none

/-- `asm_lea_ir`, src/as/arch/x64/asm_code.c:682-699. -/
def leaIr (b : Nat) (ofs : Int) (d : Rg) : List Nat :=
  makeRexInd d.z (regno d) b 0x8c 0x00 ofs ++ makeOffset ofs (b % 8)

/-- `asm_lea_ir` and `asm_mov_ir` with %rip, src/as/arch/x64/asm_code.c:700-707, :158-166, and the displacement
written behind the first three bytes (src/as/arch/x64/ir_asm_x64.c:135-173). -/
def ripOp (op : Nat) (rel : Int) (d : Rg) : List Nat :=
  [if regno d / 8 = 0 then 0x48 else 0x4c, op, 0x05 + regno d % 8 * 8] ++ le 4 rel

/-- `asm_lea_iir`, src/as/arch/x64/asm_code.c:723-761; `scale` is a power of two up to 8. -/
def leaIir (b i k : Nat) (ofs : Int) (d : Rg) : Option (List Nat) :=
  if im32 ofs ∧ k < 4 then
    let noofs := ofs = 0 ∧ b ≠ 5
    some ([0x48 + bit3 b + 2 * bit3 i + 4 * bit3 (regno d), 0x8d,
        (if noofs then 0x00 else if im8 ofs then 0x40 else 0x80) + regno d % 8 * 8 + 0x04,
        b % 8 + i % 8 * 8 + k * 64]
      ++ (if b = 4 then [0x24] else [])
      ++ (if noofs then [] else if im8 ofs then le 1 ofs else le 4 ofs))
  else none

/-- The opcode of the form `reg, r/m8`: `asm_add_rr` :763-769, `asm_or_rr` :1129-1135, `asm_and_rr` :1083-1089,
`asm_sub_rr` :877-883, `asm_xor_rr` :1175-1181, `asm_cmp_rr` :1302-1308 of src/as/arch/x64/asm_code.c. -/
def aluOp : Alu → Nat
  | .add => 0x00
  | .or => 0x08
  | .and => 0x20
  | .sub => 0x28
  | .xor => 0x30
  | .cmp => 0x38

/-- The immediate operand of the arithmetic instructions. -/
def immZ (z : Sz) (v : Int) : List Nat :=
  match z with
  | .b => le 1 v
  | .w => le 2 v
  | .l | .q => le 4 v

/-- `asm_add_imr`, src/as/arch/x64/asm_code.c:771-799, and `asm_sub_imr`, :885-913: `acc` is 04 or 2C, `ext` C0 or
E8. -/
def addImr (acc ext : Nat) (v : Int) (d : Rg) : Option (List Nat) :=
  if im32 v then
    let i8 := im8 v ∨ d.z = .b
    some ((if regno d = 0 ∧ (d.z = .b ∨ ¬i8) then putRex0 d.z 0 (regno d) (if i8 then acc else acc + 1)
        else putRex1 d.z ext (regno d) (if d.z = .b then 0x80 else if i8 then 0x83 else 0x81))
      ++ (if i8 then le 1 v else immZ d.z v))
  else none

/-- `asm_and_imr`, src/as/arch/x64/asm_code.c:1091-1127, `asm_or_imr`, :1137-1173, `asm_xor_imr`, :1183-1218. -/
def logImr (acc ext : Nat) (v : Int) (d : Rg) : Option (List Nat) :=
  if im8 v ∧ (d.z ≠ .b ∨ regno d ≠ 0) then
    some (putRex1 d.z ext (regno d) (if d.z = .b then 0x80 else 0x83) ++ le 1 v)
  else if d.z ≠ .q ∨ im32 v then
    some ((if regno d = 0 then putRex0 d.z 0 (regno d) (if d.z = .b then acc else acc + 1)
        else putRex1 d.z ext (regno d) (if d.z = .b then 0x80 else 0x81))
      ++ immZ d.z v)
  else none

/-- `asm_cmp_imr`, src/as/arch/x64/asm_code.c:1310-1337; `signed_immediate` :667-677. -/
def cmpImr (v : Int) (d : Rg) : Option (List Nat) :=
  let v := toS d.z.bits v
  if im32 v ∨ d.z ≠ .q then
    let i8 := im8 v
    some ((if regno d = 0 ∧ (d.z = .b ∨ ¬i8) then putRex0 d.z 0 (regno d) (if d.z = .b then 0x3c else 0x3d)
        else putRex1 d.z 0xf8 (regno d) (0x80 + if d.z = .b then 0 else if i8 then 3 else 1))
      ++ (if i8 then le 1 v else immZ d.z v))
  else none

def aluImr (o : Alu) (v : Int) (d : Rg) : Option (List Nat) :=
  match o with
  | .add => addImr 0x04 0xc0 v d
  | .sub => addImr 0x2c 0xe8 v d
  | .and => logImr 0x24 0xe0 v d
  | .or => logImr 0x0c 0xc8 v d
  | .xor => logImr 0x34 0xf0 v d
  | .cmp => cmpImr v d

/-- `asm_neg_r`, `asm_not_r`, `asm_inc_r`, `asm_dec_r`, src/as/arch/x64/asm_code.c:1004-1066. -/
def unR (o : Un) (d : Rg) : List Nat :=
  match o with
  | .neg => putRex1 d.z 0xd8 (regno d) 0xf7
  | .not => putRex1 d.z 0xd0 (regno d) 0xf7
  | .inc => putRex1 d.z 0xc0 (regno d) (if d.z = .b then 0xfe else 0xff)
  | .dec => putRex1 d.z 0xc8 (regno d) (if d.z = .b then 0xfe else 0xff)

def mdExt : MulDiv → Nat
  | .mul => 0xe0
  | .div => 0xf0
  | .idiv => 0xf8

/-- `asm_mul_r`, `asm_div_r`, `asm_idiv_r`, src/as/arch/x64/asm_code.c:959-1002. -/
def mdR (o : MulDiv) (s : Rg) : List Nat :=
  makeRex0 s.z 0 (regno s) (0xf6 + if s.z = .b then 0 else 1) ++ [mdExt o + regno s % 8]

def shExt : Sh → Nat
  | .shl => 0xe0
  | .shr => 0xe8
  | .sar => 0xf8

/-- `asm_shl_rr`, `asm_shr_rr`, `asm_sar_rr`, src/as/arch/x64/asm_code.c:1220-1234, :1253-1259, :1278-1284.  The
other operand is %cl. -/
def shR (o : Sh) (d : Rg) : List Nat := putRex1 d.z (shExt o) (regno d) (if d.z = .b then 0xd2 else 0xd3)

/-- `asm_shl_imr`, `asm_shr_imr`, `asm_sar_imr`, src/as/arch/x64/asm_code.c:1236-1300. -/
def shImr (o : Sh) (c : Nat) (d : Rg) : Option (List Nat) :=
  if c ≥ 256 then none
  else if c = 1 then some (putRex1 d.z (shExt o) (regno d) (if d.z = .b then 0xd0 else 0xd1))
  else some (putRex1 d.z (shExt o) (regno d) (if d.z = .b then 0xc0 else 0xc1) ++ le 1 c)

/-- `asm_set_r`, src/as/arch/x64/asm_code.c:1360-1370. -/
def setR (cc : Nat) (d : Rg) : List Nat := makeRex0 .b 0 (regno d) 0x0f ++ [0x90 + cc, 0xc0 + regno d % 8]

/-- `asm_add_iir`, src/as/arch/x64/asm_code.c:820-845, `asm_sub_iir`, :934-959.  `IS_POWER_OF_2(scale)` is asked of
the exponent, so that a scale of 8 is refused; `k = 0` stands for an operand without a scale (a written 1 is
refused). -/
def addIir (op : Nat) (b i k : Nat) (ofs : Int) (d : Rg) : Option (List Nat) :=
  if ofs = 0 ∧ k < 3 then
    some [0x48 + b / 8 + i / 8 * 2 + regno d / 8 * 4, op, 0x04 + regno d % 8 * 8, b % 8 + i % 8 * 8 + k * 64]
  else none

/-- `asm_addq_imi`, src/as/arch/x64/asm_code.c:847-875. -/
def addqImi (v : Int) (b : Nat) (ofs : Int) : Option (List Nat) :=
  if im32 v then
    some ([0x48 + bit3 b, if im8 v then 0x83 else 0x81] ++ memOp 0 b ofs ++ memDispI b ofs
      ++ (if im8 v then le 1 v else le 4 v))
  else none

/-- `asm_subq_imi`, src/as/arch/x64/asm_code.c:961-989: 28 is part of `op` only without displacement. -/
def subqImi (v : Int) (b : Nat) (ofs : Int) : Option (List Nat) :=
  if im32 v then
    some ([0x48 + bit3 b, if im8 v then 0x83 else 0x81,
        (if ofs = 0 ∧ b % 8 ≠ 5 then 0x28 else if im8 ofs then 0x40 else 0x80) + b % 8]
      ++ (if b % 8 = 4 then [0x24] else []) ++ memDispI b ofs
      ++ (if im8 v then le 1 v else le 4 v))
  else none

/-- `asm_jmp_dei`, src/as/arch/x64/asm_code.c:1425-1450. -/
def jmpDei (b : Nat) (ofs : Int) : Option (List Nat) :=
  if im32 ofs then
    some ((if b / 8 ≠ 0 then [0x41] else [])
      ++ [0xff, (if ofs = 0 then 0x20 else if im8 ofs then 0x60 else 0xa0) + b % 8]
      ++ (if ofs = 0 then [] else if im8 ofs then le 1 ofs else le 4 ofs))
  else none

/-- `asm_jmp_deii`, src/as/arch/x64/asm_code.c:1452-1488. -/
def jmpDeii (b i k : Nat) (ofs : Int) : Option (List Nat) :=
  if im32 ofs ∧ k < 4 then
    let pre := b / 8 + i / 8 * 2
    some ((if pre ≠ 0 then [0x40 + pre] else [])
      ++ [0xff, (if ofs = 0 ∧ b % 8 ≠ 5 then 0x20 else if im8 ofs then 0x60 else 0xa0) + 0x04,
          k * 64 + i % 8 * 8 + b % 8]
      ++ (if ofs = 0 ∧ b % 8 ≠ 5 then [] else if im8 ofs then le 1 ofs else le 4 ofs))
  else none

/-- The prefix F2 or F3. -/
def scPre (single : Bool) : Nat := if single then 0xf3 else 0xf2
/-- The REX prefix of the SSE instructions: `s` is the ModRM operand. -/
def rexX (w : Bool) (s d : Nat) : Option Nat :=
  if s ≥ 8 ∨ d ≥ 8 ∨ w then some (bit3 s + 4 * bit3 d + if w then 8 else 0) else none

/-- `asm_movsds_xx` :432-448, `assemble_bop_sd` :527-545, `assemble_cvtsd2ss` :633-648, `asm_sqrtsd_xx` :651-664,
`assemble_cvtsi2sd` :597-611, `assemble_cvttsd2si` :615-629 of src/as/arch/x64/asm_code.c. -/
def scRR (single : Bool) (op : Nat) (w : Bool) (s d : Nat) : List Nat :=
  [scPre single] ++ rexB (rexX w s d) ++ [0x0f, op, 0xc0 + d % 8 * 8 + s % 8]

/-- `assemble_xorpd_xx`, `assemble_ucomisd`, src/as/arch/x64/asm_code.c:559-595. -/
def pkRR (single : Bool) (op : Nat) (s d : Nat) : List Nat :=
  (if single then [] else [0x66]) ++ rexB (rexX false s d) ++ [0x0f, op, 0xc0 + d % 8 * 8 + s % 8]

def sseRR (o : Sse) (single : Bool) (s d : Nat) : Option (List Nat) :=
  match o with
  | .mov => some (scRR single 0x10 false s d)
  | .add => some (scRR single 0x58 false s d)
  | .mul => some (scRR single 0x59 false s d)
  | .sub => some (scRR single 0x5c false s d)
  | .div => some (scRR single 0x5e false s d)
  | .cvt => some (scRR single 0x5a false s d)
  | .sqrt => if single then none else some (scRR false 0x51 false s d)
  | .xor => some (pkRR single 0x57 s d)
  | .ucomi => some (pkRR single 0x2e s d)
  | .comi => some (pkRR single 0x2f s d)

/-- `asm_movsds_ix`, `asm_movsds_xi`, src/as/arch/x64/asm_code.c:452-524: `x` is the SSE register. -/
def sseMem (single : Bool) (op : Nat) (x b : Nat) (ofs : Int) : Option (List Nat) :=
  if im32 ofs then
    some ([scPre single] ++ rexB (rexX false b x) ++ [0x0f, op] ++ memOp x b ofs ++ memDisp b ofs)
  else none

/-- The instructions of the ISA model: the functions in `table` for `MOV_RR` to `SETG`,
src/as/arch/x64/asm_code.c:1528-1597.  The size is that of the first or of the second operand; the parser
(src/as/arch/x64/parse_x64.c) has checked that they are the same. -/
def encIns (x : Ins) : Option (List Nat) :=
  match x with
  | .mov s d => some (putRex2 s.z (regno s) (regno d) (if s.z = .b then 0x88 else 0x89))
  | .movI v d => some (movImr v d)
  | .movx sx s d => movszx sx s d
  | .alu o s d => some (putRex2 d.z (regno s) (regno d) (aluOp o + if d.z = .b then 0 else 1))
  | .aluI o v d => aluImr o v d
  | .test s d => some (putRex2 s.z (regno s) (regno d) (if s.z = .b then 0x84 else 0x85))
  | .un o d => some (unR o d)
  | .md o s => some (mdR o s)
  | .sh o d => some (shR o d)
  | .shI o c d => shImr o c d
  | .cwtl => some [0x98]
  | .cltd => some [0x99]
  | .cqto => some [0x48, 0x99]
  | .set cc d => some (setR cc d)
  | .lea m d => match m.base, m.index with
    | some b, none => some (leaIr b m.disp d)
    | some b, some (i, k) => leaIir b i k m.disp d
    | none, _ => none
  | .load m d => match m.base, m.index with
    | some b, none => some (movIr b m.disp d)
    | some b, some (i, k) => movIir b i k m.disp d
    | none, none => some (movDr m.disp d)
    | none, some _ => none
  | .store s m => match m.base, m.index with
    | some b, none => some (movRi s b m.disp)
    | none, none => some (movRd s m.disp)
    | _, some _ => none
  | .storeI z v m => match m.base, m.index with
    | some b, none => some (movImi z v b m.disp)
    | none, none => movImd z v m.disp
    | _, some _ => none

/-- `assemble_inst`, src/as/arch/x64/asm_code.c:1630-1657, with `table`, :1526-1628. -/
def enc (a : AI) : Option (List Nat) :=
  match a with
  | .i x => encIns x
  | .aluM .add m d => match m.base, m.index with
    | some b, none => some (makeRexInd d.z (regno d) b 0x02 0x00 m.disp ++ makeOffset m.disp (b % 8))
    | some b, some (i, k) => addIir 0x03 b i k m.disp d
    | none, _ => none
  | .aluM .sub m d => match m.base, m.index with
    | some b, none => some (makeRexInd d.z (regno d) b 0x2a 0x00 m.disp ++ makeOffset m.disp (b % 8))
    | some b, some (i, k) => addIir 0x2b b i k m.disp d
    | none, _ => none
  | .aluMI .add .q v m => match m.base, m.index with
    | some b, none => addqImi v b m.disp
    | _, _ => none
  | .aluMI .sub .q v m => match m.base, m.index with
    | some b, none => subqImi v b m.disp
    | _, _ => none
  | .unM .inc z m => match m.base, m.index with
    | some b, none => some (makeRexInd z 0 b 0xfe 0x00 m.disp ++ makeOffset m.disp (b % 8))
    | _, _ => none
  | .unM .dec z m => match m.base, m.index with
    | some b, none => some (makeRexInd z 1 b 0xfe 0x08 m.disp ++ makeOffset m.disp (b % 8))
    | _, _ => none
  | .push n => some (makeRex0 .l 0 n (0x50 + n % 8))
  | .pop n => some (makeRex0 .l 0 n (0x58 + n % 8))
  | .pushI v => if im8 v then some (0x6a :: le 1 v) else if im32 v then some (0x68 :: le 4 v) else none
  | .call rel => some (0xe8 :: le 4 rel)
  | .jmpR n => some ((if n / 8 ≠ 0 then [0x41] else []) ++ [0xff, 0xe0 + n % 8])
  | .jmpM m => match m.base, m.index with
    | some b, none => jmpDei b m.disp
    | some b, some (i, k) => jmpDeii b i k m.disp
    | none, _ => none
  | .callR n => some ((if n / 8 ≠ 0 then [0x41] else []) ++ [0xff, 0xd0 + n % 8])
  | .ret => some [0xc3]
  | .int v => some (0xcd :: le 1 v)
  | .syscall => some [0x0f, 0x05]
  | .endbr => some [0xf3, 0x0f, 0x1e, 0xfa]
  | .leaRip rel d => some (ripOp 0x8d rel d)
  | .loadRip rel d => some (ripOp 0x8b rel d)
  | .sse o s a d => sseRR o s a d
  | .sseLoad s m d => match m.base, m.index with
    | some b, none => sseMem s 0x10 d b m.disp
    | _, _ => none
  | .sseStore s a m => match m.base, m.index with
    | some b, none => sseMem s 0x11 a b m.disp
    | _, _ => none
  | .cvtI2F s a d => some (scRR s 0x2a (decide (a.z = .q)) (regno a) d)
  | .cvtF2I s a d => some (scRR s 0x2c (decide (d.z = .q)) a (regno d))
  | _ => none

/-- `jmp` and `jcc` to a label: `asm_jmp_d`, `asm_jxx_d`, src/as/arch/x64/asm_code.c:1409-1412, :1490-1493, and with a
32-bit displacement `make_jmp_long`, src/as/arch/x64/ir_asm_x64.c:104-117; the displacement is written by
`resolve_relative_address`, :201-215. -/
def encJmp (long : Bool) (rel : Int) : List Nat := if long then 0xe9 :: le 4 rel else 0xeb :: le 1 rel
def encJcc (long : Bool) (cc : Nat) (rel : Int) : List Nat :=
  if long then [0x0f, 0x80 + cc] ++ le 4 rel else (0x70 + cc) :: le 1 rel

/-! ## Specification -/

/-- Register operands that exist. -/
def Wf (g : Rg) : Prop := g.n < 16 ∧ (g.hi = true → g.z = .b ∧ g.n < 4)

/-- Two register operands: %ah, %ch, %dh, %bh do not go with registers that need a REX prefix. -/
def Pair (s d : Rg) : Prop :=
  Wf s ∧ Wf d ∧ s.z = d.z ∧ (s.hi = true → regno d < 8) ∧ (d.hi = true → regno s < 8)

/-- The memory operands `asm_lea_ir`, `asm_add_ir` ... handle: not %r12, and %r13 only with an offset. -/
def IndOk (m : Mem) (b : Nat) : Prop := b < 16 ∧ b ≠ 12 ∧ (b = 13 → m.disp ≠ 0) ∧ im32 m.disp

def OkIns : Ins → Prop
  | .mov s d | .alu _ s d | .test s d => Pair s d
  | .movI _ d => Wf d ∧ d.hi = false
  | .movx _ s d => Wf s ∧ Wf d ∧ s.hi = false
  | .aluI _ _ d | .sh _ d | .shI _ _ d => Wf d
  | .un o d => Wf d ∧ (o = .neg ∨ o = .not → d.z ≠ .b)
  | .md _ s => Wf s ∧ s.hi = false
  | .cwtl | .cltd | .cqto => True
  | .set cc d => cc < 16 ∧ Wf d ∧ d.z = .b ∧ d.hi = false
  | .lea m d => Wf d ∧ match m.base, m.index with
    | some b, none => IndOk m b ∧ d.z ≠ .b
    | some b, some (i, _) => b < 16 ∧ i < 16 ∧ i ≠ 4 ∧ b ≠ 4 ∧ (b = 13 → m.disp ≠ 0) ∧ d.z = .q
    | none, _ => False
  | .load m d => Wf d ∧ match m.base, m.index with
    | some b, none => b < 16 ∧ im32 m.disp ∧ (d.hi = true → b < 8)
    | some b, some (i, _) => b < 16 ∧ i < 16 ∧ i ≠ 4 ∧ (b % 8 = 5 → m.disp ≠ 0)
      ∧ (d.z = .q ∨ (b < 8 ∧ i < 8 ∧ regno d < 8))
    | none, none => m.disp = 0 ∧ regno d < 8
    | none, some _ => False
  | .store s m => Wf s ∧ match m.base, m.index with
    | some b, none => b < 16 ∧ im32 m.disp ∧ (s.hi = true → b < 8)
    | none, none => m.disp = 0 ∧ regno s < 8
    | _, some _ => False
  | .storeI z v m => (z = .q → im32 v) ∧ match m.base, m.index with
    | some b, none => b < 16 ∧ im32 m.disp
    | none, none => True
    | _, some _ => False

/-- The operands for which the encoder is right. -/
def Ok : AI → Prop
  | .i x => OkIns x
  | .aluM _ m d => Wf d ∧ d.hi = false ∧ match m.base, m.index with
    | some b, none => IndOk m b
    | some b, some (i, _) => b < 16 ∧ i < 16 ∧ i ≠ 4 ∧ b % 8 ≠ 5 ∧ d.z = .q
    | none, _ => False
  | .aluMI o _ _ m => match m.base, m.index with
    | some b, none => b < 16 ∧ im32 m.disp ∧ (o = .sub → m.disp = 0 ∧ b % 8 ≠ 5)
    | _, _ => False
  | .unM _ _ m => match m.base, m.index with
    | some b, none => IndOk m b
    | _, _ => False
  | .push n | .pop n | .jmpR n | .callR n => n < 16
  | .jmpM m => match m.base, m.index with
    | some b, none => b < 16 ∧ b % 8 ≠ 4 ∧ (b % 8 = 5 → m.disp ≠ 0)
    | some b, some (i, _) => b < 16 ∧ i < 16 ∧ i ≠ 4
    | none, _ => False
  | .call rel => im32 rel
  | .int v => v < 256
  | .leaRip rel d | .loadRip rel d => im32 rel ∧ Wf d ∧ d.z = .q
  | .sse _ _ s d => s < 16 ∧ d < 16
  | .sseLoad _ m d | .sseStore _ d m => d < 16 ∧ match m.base with
    | some b => b < 16
    | none => True
  | .cvtI2F _ s d => Wf s ∧ (s.z = .l ∨ s.z = .q) ∧ d < 16
  | .cvtF2I _ s d => Wf d ∧ (d.z = .l ∨ d.z = .q) ∧ s < 16
  | _ => True

/-- The same instruction, immediate operands reduced to the operand size. -/
def norm : AI → AI
  | .i (.movI v d) => .i (.movI (toS d.z.bits v) d)
  | .i (.aluI o v d) => .i (.aluI o (toS d.z.bits v) d)
  | .i (.storeI z v m) => .i (.storeI z (toS z.bits v) m)
  | a => a

/-! ## Proofs -/

theorem toS_toNat (k : Nat) (v : Int) : toS k ((v % 2 ^ k).toNat : Int) = toS k v := by
  have h2 : (0 : Int) < 2 ^ k := Int.pow_pos (by decide)
  have h : (0 : Int) ≤ v % 2 ^ k := Int.emod_nonneg v (by omega)
  unfold toS
  rw [Int.toNat_of_nonneg h, Int.emod_emod_of_dvd _ (Int.dvd_refl _)]

theorem takeU_le : ∀ (k : Nat) (v : Int) (t : List Nat),
    takeU k (le k v ++ t) = some ((v % 2 ^ (8 * k)).toNat, t) := by
  intro k
  induction k with
  | zero => intro v t; simp [takeU, le, Int.emod_one]
  | succ k ih =>
    intro v t
    simp only [le, List.cons_append, takeU, ih, Option.map_some]
    congr 2
    have hp : (0 : Int) < 2 ^ (8 * k) := Int.pow_pos (by decide)
    have he : (2 : Int) ^ (8 * (k + 1)) = 256 * 2 ^ (8 * k) := by
      rw [Nat.mul_add, Int.pow_add]; omega
    have h3 := Int.emod_nonneg v (b := 256) (by decide)
    have h4 := Int.emod_nonneg (v / 256) (b := 2 ^ (8 * k)) (by omega)
    have h5 := Int.emod_lt_of_pos (v / 256) hp
    have h1 : v % (256 * 2 ^ (8 * k)) = v % 256 + 256 * (v / 256 % 2 ^ (8 * k)) := by
      have e : v = v % 256 + 256 * (v / 256 % 2 ^ (8 * k)) + 256 * 2 ^ (8 * k) * (v / 256 / 2 ^ (8 * k)) := by
        have a := Int.emod_add_mul_ediv (v / 256) (2 ^ (8 * k))
        have b := Int.emod_add_mul_ediv v 256
        rw [Int.mul_assoc]
        omega
      rw [e, Int.add_mul_emod_self_left, ← e]
      exact Int.emod_eq_of_lt (by omega) (by omega)
    rw [he, h1]
    omega

theorem takeS_le (k : Nat) (v : Int) (t : List Nat) : takeS k (le k v ++ t) = some (toS (8 * k) v, t) := by
  simp only [takeS, takeU_le, Option.map_some, toS_toNat]

theorem toS8 {v : Int} (h : im8 v) : toS 8 v = v := by unfold im8 at h; unfold toS; simp only; omega
theorem toS32 {v : Int} (h : im32 v) : toS 32 v = v := by unfold im32 at h; unfold toS; simp only; omega
theorem im8_32 {v : Int} (h : im8 v) : im32 v := by unfold im8 at h; unfold im32; omega

/-- The prefix byte of an operand size. -/
def leg (z : Sz) : Nat := if z = .w then 0x66 else 0

theorem decode1 (z : Sz) (r : Option Nat) (op : Nat) (t : List Nat) (hr : ∀ v, r = some v → v < 16)
    (h1 : op ≠ 0x66 ∧ op ≠ 0xf2 ∧ op ≠ 0xf3 ∧ op / 16 ≠ 4) (h2 : op ≠ 0x0f) :
    decode (pre66 z ++ rexB r ++ op :: t) = dec1 ⟨leg z, r⟩ op t := by
  obtain ⟨a, b, c, d⟩ := h1
  cases r with
  | none => cases z <;> simp [pre66, rexB, leg, decode, takeLeg, takeRex, a, b, c, d, h2]
  | some v =>
    have hv := hr v rfl
    have e1 : 0x40 + v ≠ 0x66 := by omega
    have e2 : 0x40 + v ≠ 0xf2 := by omega
    have e3 : 0x40 + v ≠ 0xf3 := by omega
    have e4 : (0x40 + v) / 16 = 4 := by omega
    have e5 : (0x40 + v) % 16 = v := by omega
    cases z <;> simp [pre66, rexB, leg, decode, takeLeg, takeRex, e1, e2, e3, e4, e5, h2]

theorem decode2 (z : Sz) (r : Option Nat) (op : Nat) (t : List Nat) (hr : ∀ v, r = some v → v < 16) :
    decode (pre66 z ++ rexB r ++ 0x0f :: op :: t) = dec0f ⟨leg z, r⟩ op t := by
  cases r with
  | none => cases z <;> simp [pre66, rexB, leg, decode, takeLeg, takeRex]
  | some v =>
    have hv := hr v rfl
    have e1 : 0x40 + v ≠ 0x66 := by omega
    have e2 : 0x40 + v ≠ 0xf2 := by omega
    have e3 : 0x40 + v ≠ 0xf3 := by omega
    have e4 : (0x40 + v) / 16 = 4 := by omega
    have e5 : (0x40 + v) % 16 = v := by omega
    cases z <;> simp [pre66, rexB, leg, decode, takeLeg, takeRex, e1, e2, e3, e4, e5]

theorem decodeF (single : Bool) (r : Option Nat) (op : Nat) (t : List Nat) (hr : ∀ v, r = some v → v < 16) :
    decode (scPre single :: (rexB r ++ 0x0f :: op :: t)) = dec0f ⟨scPre single, r⟩ op t := by
  cases r with
  | none => cases single <;> simp [scPre, rexB, decode, takeLeg, takeRex]
  | some v =>
    have hv := hr v rfl
    have e4 : (0x40 + v) / 16 = 4 := by omega
    have e5 : (0x40 + v) % 16 = v := by omega
    cases single <;> simp [scPre, rexB, decode, takeLeg, takeRex, e4, e5]

/-- What a REX prefix says. -/
structure RexIs (p : Pf) (w : Bool) (r x b : Nat) : Prop where
  W : p.W = w
  R : p.R = r
  X : p.X = x
  B : p.B = b

theorem bit3_lt (n : Nat) : bit3 n < 2 := Nat.mod_lt _ (by decide)
theorem bit3_small {n : Nat} (h : n < 8) : bit3 n = 0 := by unfold bit3; omega
theorem bit3_16 {n : Nat} (h : n < 16) : n % 8 + 8 * bit3 n = n := by unfold bit3; omega

theorem rexIs_some (l : Nat) (w : Bool) (r x b v : Nat) (hr : r < 2) (hx : x < 2) (hb : b < 2)
    (hv : v = b + 2 * x + 4 * r + if w then 8 else 0) : RexIs ⟨l, some v⟩ w r x b := by
  cases w <;> simp at hv <;> constructor <;> simp [Pf.W, Pf.R, Pf.X, Pf.B] <;> omega

theorem rexIs_none (l : Nat) : RexIs ⟨l, none⟩ false 0 0 0 := by constructor <;> simp [Pf.W, Pf.R, Pf.X, Pf.B]

theorem rex0_is (l : Nat) (z : Sz) (s d : Nat) : RexIs ⟨l, rex0 z s d⟩ (decide (z = .q)) (bit3 s) 0 (bit3 d) := by
  unfold rex0
  split
  · exact rexIs_some _ _ _ _ _ _ (bit3_lt _) (by decide) (bit3_lt _) (by by_cases h : z = .q <;> simp [h])
  · rename_i h
    rw [bit3_small (by omega), bit3_small (n := d) (by omega), decide_eq_false (fun e => h (by simp [e]))]
    exact rexIs_none _

theorem rexM_is (l : Nat) (z : Sz) (s d : Nat) : RexIs ⟨l, rexM z s d⟩ (decide (z = .q)) (bit3 s) 0 (bit3 d) := by
  unfold rexM
  split
  · exact rexIs_some _ _ _ _ _ _ (bit3_lt _) (by decide) (bit3_lt _) (by by_cases h : z = .q <;> simp [h])
  · rename_i h
    rw [bit3_small (by omega), bit3_small (n := d) (by omega), decide_eq_false (fun e => h (by simp [e]))]
    exact rexIs_none _

theorem rex0_lt (z : Sz) (s d v : Nat) (h : rex0 z s d = some v) : v < 16 := by
  unfold rex0 at h
  have := bit3_lt s
  have := bit3_lt d
  split at h
  · injection h with h
    subst h
    split <;> omega
  · cases h

theorem rexM_lt (z : Sz) (s d v : Nat) (h : rexM z s d = some v) : v < 16 := by
  unfold rexM at h
  have := bit3_lt s
  have := bit3_lt d
  split at h
  · injection h with h
    subst h
    split <;> omega
  · cases h

theorem osz_of {p : Pf} {r x b : Nat} (z : Sz) (hz : z ≠ .b) (hl : p.leg = leg z)
    (h : RexIs p (decide (z = .q)) r x b) : p.osz = z := by
  unfold Pf.osz
  rw [h.W, hl]
  cases z <;> simp_all [leg]

/-- A register operand is found again. -/
theorem greg_of {p : Pf} {g : Rg} (hw : Wf g) (hhi : g.hi = true → p.rex = none)
    (hlo : g.z = .b → g.hi = false → 4 ≤ g.n → p.rex ≠ none) :
    p.greg g.z (regno g % 8 + 8 * bit3 (regno g)) = g := by
  obtain ⟨z, n, hi⟩ := g
  obtain ⟨hn, hh⟩ := hw
  simp only at hn hh hhi hlo
  unfold Pf.greg regno bit3
  cases hi with
  | true =>
    obtain ⟨rfl, h4⟩ := hh rfl
    have e : (n + 4) % 8 + 8 * ((n + 4) / 8 % 2) = n + 4 := by omega
    simp [hhi rfl, e]
  | false =>
    by_cases hz : z = .b
    · subst hz
      by_cases h4 : 4 ≤ n
      · have hr := hlo rfl rfl h4
        simp only [hr, false_and, and_false, if_false, if_true]
        by_cases h8 : n < 8
        · have e : (n + 16) % 8 + 8 * ((n + 16) / 8 % 2) = n := by omega
          simp [h4, h8, e]
        · have e : n % 8 + 8 * (n / 8 % 2) = n := by omega
          simp [h8, e]
      · have e : n % 8 + 8 * (n / 8 % 2) = n := by omega
        simp [h4, e]
    · have e : n % 8 + 8 * (n / 8 % 2) = n := by omega
      simp [hz, e]

theorem mr_reg (p : Pf) (r m : Nat) (t : List Nat) (hr : r < 8) (hm : m < 8) :
    modrm p ((0xc0 + r * 8 + m) :: t) = some (r + 8 * p.R, .reg (m + 8 * p.B), t) := by
  have e1 : (0xc0 + r * 8 + m) / 64 = 3 := by omega
  have e2 : (0xc0 + r * 8 + m) / 8 % 8 = r := by omega
  have e3 : (0xc0 + r * 8 + m) % 8 = m := by omega
  simp [modrm, e1, e2, e3]

/-- `ofs(base)`. -/
theorem mr_mem (p : Pf) (r b : Nat) (ofs : Int) (t : List Nat) (hb : b < 16) (ho : im32 ofs)
    (hB : p.B = bit3 b) (hX : p.X = 0) :
    modrm p (memOp r b ofs ++ (memDisp b ofs ++ t))
      = some (r % 8 + 8 * p.R, .mem { base := some b, disp := ofs }, t) := by
  have hbb := bit3_16 hb
  generalize hm : (if ofs = 0 ∧ b % 8 ≠ 5 then 0 else if im8 ofs then 0x40 else 0x80 : Nat) = m
  have hm' : m = 0 ∨ m = 64 ∨ m = 128 := by
    subst hm; split
    · simp
    · split <;> simp
  have hd : takeDisp (m / 64) (memDisp b ofs ++ t) = some (ofs, t) := by
    unfold memDisp takeDisp
    by_cases h0 : ofs = 0 ∧ b % 8 ≠ 5
    · rw [if_pos h0] at hm
      subst hm
      simp [h0.1, h0.2]
    · rw [if_neg h0] at hm
      rw [if_neg h0]
      by_cases h8 : im8 ofs
      · rw [if_pos h8] at hm
        subst hm
        simp [h8, takeS_le, toS8]
      · rw [if_neg h8] at hm
        subst hm
        simp [h8, takeS_le, toS32 ho]
  have h5 : b % 8 = 5 → m ≠ 0 := by
    intro h e
    subst hm
    simp [h] at e
    split at e <;> simp at e
  have e1 : (m + r % 8 * 8 + b % 8) / 64 = m / 64 := by omega
  have e2 : (m + r % 8 * 8 + b % 8) / 8 % 8 = r % 8 := by omega
  have e3 : (m + r % 8 * 8 + b % 8) % 8 = b % 8 := by omega
  have n3 : m / 64 ≠ 3 := by omega
  unfold memOp
  rw [hm]
  generalize m + r % 8 * 8 + b % 8 = w at e1 e2 e3
  by_cases h4 : b % 8 = 4
  · have hb4 : 4 + 8 * bit3 b = b := by omega
    simp [modrm, e1, e2, e3, n3, h4, hX, hd, hB, hb4]
  · by_cases hf : b % 8 = 5
    · have := h5 hf
      have hm0 : m / 64 ≠ 0 := by omega
      have hm1 : ¬ m < 64 := by omega
      have hb5 : 5 + 8 * bit3 b = b := by omega
      simp [modrm, e1, e2, e3, n3, hf, hd, hB, hm1, hb5]
    · simp [modrm, e1, e2, e3, n3, h4, hf, hd, hB, hbb]

/-- `ofs(base, index, 2^k)`. -/
theorem mr_sib (p : Pf) (r b i k mo : Nat) (ofs : Int) (ds t : List Nat) (hb : b < 16) (hi : i < 16) (hi4 : i ≠ 4)
    (hm : mo = 0 ∨ mo = 64 ∨ mo = 128) (h5 : b % 8 = 5 → mo ≠ 0)
    (hB : p.B = bit3 b) (hX : p.X = bit3 i) (hd : takeDisp (mo / 64) (ds ++ t) = some (ofs, t)) :
    modrm p ((mo + r % 8 * 8 + 4) :: (k * 64 + i % 8 * 8 + b % 8) :: (ds ++ t))
      = some (r % 8 + 8 * p.R, .mem { base := some b, index := some (i, k), disp := ofs }, t) := by
  have hbb := bit3_16 hb
  have hii := bit3_16 hi
  have e1 : (mo + r % 8 * 8 + 4) / 64 = mo / 64 := by omega
  have e2 : (mo + r % 8 * 8 + 4) / 8 % 8 = r % 8 := by omega
  have e3 : (mo + r % 8 * 8 + 4) % 8 = 4 := by omega
  have n3 : mo / 64 ≠ 3 := by omega
  have s1 : (k * 64 + i % 8 * 8 + b % 8) / 8 % 8 = i % 8 := by omega
  have s2 : (k * 64 + i % 8 * 8 + b % 8) / 64 = k := by omega
  have s3 : (k * 64 + i % 8 * 8 + b % 8) % 8 = b % 8 := by omega
  have h5' : ¬ (b % 8 = 5 ∧ mo / 64 = 0) := by
    intro ⟨x, y⟩
    have := h5 x
    omega
  simp only [modrm, e1, e2, e3, n3, s1, s2, s3, if_false, if_true, hX, hii, hi4, hB, hbb, h5', hd, Option.map_some]

theorem disp_of (b : Bool) (ofs : Int) (t : List Nat) (ho : im32 ofs) (c : Prop) [Decidable c] (hc : c → ofs = 0) :
    takeDisp ((if c then 0 else if im8 ofs then 0x40 else 0x80) / 64)
      ((if c then [] else if im8 ofs then le 1 ofs else le 4 ofs) ++ t) = some (ofs, t) := by
  unfold takeDisp
  by_cases h : c
  · simp [h, hc h]
  · by_cases h8 : im8 ofs
    · simp [h, h8, takeS_le, toS8]
    · simp [h, h8, takeS_le, toS32 ho]

def opOk (op : Nat) : Bool := op != 0x66 && op != 0xf2 && op != 0xf3 && op / 16 != 4 && op != 0x0f

theorem opOk_spec {op : Nat} (h : opOk op = true) : (op ≠ 0x66 ∧ op ≠ 0xf2 ∧ op ≠ 0xf3 ∧ op / 16 ≠ 4) ∧ op ≠ 0x0f := by
  simp [opOk] at h
  omega

/-- No F2 or F3 prefix. -/
def NoRep (p : Pf) : Prop := ¬ (p.leg = 0xf2 ∨ p.leg = 0xf3)

theorem noRep_leg (z : Sz) (r : Option Nat) : NoRep ⟨leg z, r⟩ := by cases z <;> simp [NoRep, leg]

theorem rex0_none {z : Sz} {s d : Nat} (hz : z ≠ .q) (hs : s < 8) (hd : d < 8) : rex0 z s d = none := by
  unfold rex0
  rw [if_neg]
  simp [hz]
  omega

theorem rex0_some {z : Sz} {s d : Nat} (h : 8 ≤ s ∨ 8 ≤ d) : rex0 z s d ≠ none := by
  unfold rex0
  rw [if_pos (by omega)]
  simp

theorem regno_hi {g : Rg} (hw : Wf g) (hh : g.hi = true) : g.z = .b ∧ regno g < 8 := by
  obtain ⟨a, b⟩ := hw.2 hh
  simp [regno, a, hh]
  omega

theorem regno_lo {g : Rg} (hz : g.z = .b) (hh : g.hi = false) (h4 : 4 ≤ g.n) : 8 ≤ regno g := by
  simp [regno, hz, hh, h4]
  split <;> omega

/-- Two register operands behind `put_rex0`. -/
theorem rr_start {s d : Rg} (hp : Pair s d) (op : Nat) (ho : opOk op = true) (t : List Nat) :
    ∃ p r m x, decode (putRex2 s.z (regno s) (regno d) op ++ t) = dec1 p op (x :: t) ∧ NoRep p
      ∧ (s.z ≠ .b → p.osz = s.z) ∧ modrm p (x :: t) = some (r, .reg m, t)
      ∧ p.greg s.z r = s ∧ p.greg s.z m = d := by
  obtain ⟨ws, wd, hz, hs, hd⟩ := hp
  obtain ⟨o1, o2⟩ := opOk_spec ho
  have hR := rex0_is (leg s.z) s.z (regno s) (regno d)
  refine ⟨⟨leg s.z, rex0 s.z (regno s) (regno d)⟩, _, _, _, ?_, noRep_leg _ _, fun h => osz_of s.z h rfl hR,
    mr_reg _ (regno s % 8) (regno d % 8) _ (Nat.mod_lt _ (by decide)) (Nat.mod_lt _ (by decide)), ?_, ?_⟩
  · simp only [putRex2, putRex0, List.append_assoc, List.cons_append, List.nil_append]
    rw [← List.append_assoc]
    exact decode1 _ _ _ _ (fun v h => rex0_lt _ _ _ _ h) o1 o2
  · rw [hR.R]
    refine greg_of ws (fun h => ?_) (fun h1 h2 h3 => rex0_some (.inl (regno_lo h1 h2 h3)))
    have := regno_hi ws h
    exact rex0_none (by simp [this.1]) this.2 (hs h)
  · rw [hR.B, hz]
    refine greg_of wd (fun h => ?_) (fun h1 h2 h3 => ?_)
    · have := regno_hi wd h
      simp only [hz]
      exact rex0_none (by simp [this.1]) (hd h) this.2
    · exact rex0_some (.inr (regno_lo h1 h2 h3))

/-- One register operand behind `put_rex0`; `e` is the opcode extension. -/
theorem r_start {d : Rg} (wd : Wf d) (op e : Nat) (ho : opOk op = true) (he : e < 8) (t : List Nat) :
    ∃ p m x, decode (putRex1 d.z (0xc0 + e * 8) (regno d) op ++ t) = dec1 p op (x :: t) ∧ NoRep p
      ∧ (d.z ≠ .b → p.osz = d.z) ∧ modrm p (x :: t) = some (e, .reg m, t) ∧ p.greg d.z m = d := by
  obtain ⟨o1, o2⟩ := opOk_spec ho
  have hR := rex0_is (leg d.z) d.z 0 (regno d)
  have hr0 : e = e + 8 * Pf.R ⟨leg d.z, rex0 d.z 0 (regno d)⟩ := by rw [hR.R]; rfl
  refine ⟨⟨leg d.z, rex0 d.z 0 (regno d)⟩, _, _, ?_, noRep_leg _ _, fun h => osz_of d.z h rfl hR,
    (mr_reg _ e (regno d % 8) _ he (Nat.mod_lt _ (by decide))).trans (by rw [← hr0]), ?_⟩
  · simp only [putRex1, putRex0, List.append_assoc, List.cons_append, List.nil_append]
    rw [← List.append_assoc]
    exact decode1 _ _ _ _ (fun v h => rex0_lt _ _ _ _ h) o1 o2
  · rw [hR.B]
    refine greg_of wd (fun h => ?_) (fun h1 h2 h3 => rex0_some (.inr (regno_lo h1 h2 h3)))
    have := regno_hi wd h
    exact rex0_none (by simp [this.1]) (by decide) this.2

theorem rexM_some {s d : Nat} (h : 4 ≤ s ∨ 4 ≤ d) : rexM .b s d ≠ none := by
  unfold rexM
  rw [if_pos (by simp; omega)]
  simp

theorem rexM_some' {z : Sz} {s d : Nat} (h : 8 ≤ s ∨ 8 ≤ d) : rexM z s d ≠ none := by
  unfold rexM
  rw [if_pos (by omega)]
  simp

/-- One register operand behind `MAKE_REX0`. -/
theorem rM_start {d : Rg} (wd : Wf d) (hh : d.hi = false) (op e : Nat) (ho : opOk op = true) (he : e < 8) (t : List Nat) :
    ∃ p m x, decode (makeRex0 d.z 0 (regno d) op ++ ([0xc0 + e * 8 + regno d % 8] ++ t)) = dec1 p op (x :: t) ∧ NoRep p
      ∧ (d.z ≠ .b → p.osz = d.z) ∧ modrm p (x :: t) = some (e, .reg m, t) ∧ p.greg d.z m = d := by
  obtain ⟨o1, o2⟩ := opOk_spec ho
  have hR := rexM_is (leg d.z) d.z 0 (regno d)
  have hr0 : e = e + 8 * Pf.R ⟨leg d.z, rexM d.z 0 (regno d)⟩ := by rw [hR.R]; rfl
  refine ⟨⟨leg d.z, rexM d.z 0 (regno d)⟩, _, _, ?_, noRep_leg _ _, fun h => osz_of d.z h rfl hR,
    (mr_reg _ e (regno d % 8) _ he (Nat.mod_lt _ (by decide))).trans (by rw [← hr0]), ?_⟩
  · simp only [makeRex0, List.append_assoc, List.cons_append, List.nil_append]
    rw [← List.append_assoc]
    exact decode1 _ _ _ _ (fun v h => rexM_lt _ _ _ _ h) o1 o2
  · rw [hR.B]
    refine greg_of wd (fun h => by simp [hh] at h) (fun h1 h2 h3 => rexM_some' (.inr (regno_lo h1 h2 h3)))

/-- A register operand and `ofs(base)`. -/
theorem rm_start {d : Rg} (wd : Wf d) (b : Nat) (ofs : Int) (op : Nat) (ho : opOk op = true) (hb : b < 16)
    (h32 : im32 ofs) (hhi : d.hi = true → b < 8) (t : List Nat) :
    ∃ p r l, decode (pre66 d.z ++ rexB (rex0 d.z (regno d) b) ++ [op] ++ memOp (regno d) b ofs ++ memDisp b ofs ++ t)
        = dec1 p op l ∧ NoRep p
      ∧ (d.z ≠ .b → p.osz = d.z) ∧ modrm p l = some (r, .mem { base := some b, disp := ofs }, t) ∧ p.greg d.z r = d := by
  obtain ⟨o1, o2⟩ := opOk_spec ho
  have hR := rex0_is (leg d.z) d.z (regno d) b
  refine ⟨⟨leg d.z, rex0 d.z (regno d) b⟩, _, _, ?_, noRep_leg _ _, fun h => osz_of d.z h rfl hR,
    mr_mem _ (regno d) b ofs t hb h32 hR.B hR.X, ?_⟩
  · simp only [List.append_assoc, List.cons_append, List.nil_append]
    rw [← List.append_assoc]
    exact decode1 _ _ _ _ (fun v h => rex0_lt _ _ _ _ h) o1 o2
  · rw [hR.R]
    refine greg_of wd (fun h => ?_) (fun h1 h2 h3 => rex0_some (.inl (regno_lo h1 h2 h3)))
    have := regno_hi wd h
    exact rex0_none (by simp [this.1]) this.2 (hhi h)

/-- An opcode extension and `ofs(base)`. -/
theorem m_start (z : Sz) (b : Nat) (ofs : Int) (op : Nat) (ho : opOk op = true) (hb : b < 16)
    (h32 : im32 ofs) (t : List Nat) :
    ∃ p l, decode (pre66 z ++ rexB (rex0 z 0 b) ++ [op] ++ memOp 0 b ofs ++ memDisp b ofs ++ t) = dec1 p op l ∧ NoRep p
      ∧ (z ≠ .b → p.osz = z) ∧ modrm p l = some (0, .mem { base := some b, disp := ofs }, t) := by
  obtain ⟨o1, o2⟩ := opOk_spec ho
  have hR := rex0_is (leg z) z 0 b
  have hr0 : 0 = 0 % 8 + 8 * Pf.R ⟨leg z, rex0 z 0 b⟩ := by rw [hR.R]; rfl
  refine ⟨⟨leg z, rex0 z 0 b⟩, _, ?_, noRep_leg _ _, fun h => osz_of z h rfl hR,
    (mr_mem _ 0 b ofs t hb h32 hR.B hR.X).trans (by rw [← hr0])⟩
  simp only [List.append_assoc, List.cons_append, List.nil_append]
  rw [← List.append_assoc]
  exact decode1 _ _ _ _ (fun v h => rex0_lt _ _ _ _ h) o1 o2

/-- Operands the parser accepts, and what `MAKE_REX_INDIRECT` and `MAKE_OFFSET` make of them. -/
theorem ind_eq (z : Sz) (r b op op2 : Nat) (ofs : Int) (hb : b < 16) (h12 : b ≠ 12) (h13 : b = 13 → ofs ≠ 0)
    (h2 : op2 = 0 ∨ op2 = r % 8 * 8) :
    makeRexInd z r b op op2 ofs ++ makeOffset ofs (b % 8)
      = makeRex0 z r b (if z = .b then op else op + 1) ++ (memOp r b ofs ++ memDisp b ofs) := by
  have key : ∀ r', r' < 8 → ∀ b', b' < 8 → (0 ||| b' ||| r' * 8) = 0 + r' * 8 + b' ∧ (r' * 8 ||| b' ||| r' * 8) = 0 + r' * 8 + b'
      ∧ (0x40 ||| b' ||| r' * 8) = 0x40 + r' * 8 + b' ∧ (0x80 ||| b' ||| r' * 8) = 0x80 + r' * 8 + b' := by decide
  obtain ⟨k1, k2, k3, k4⟩ := key (r % 8) (Nat.mod_lt _ (by decide)) (b % 8) (Nat.mod_lt _ (by decide))
  have c4 : b = 4 ↔ b % 8 = 4 := by omega
  have c5 : ofs = 0 ∧ b ≠ 5 ↔ ofs = 0 ∧ b % 8 ≠ 5 := by
    constructor
    · intro ⟨a, h⟩
      exact ⟨a, fun h' => h13 (by omega) a⟩
    · intro ⟨a, h⟩
      exact ⟨a, by omega⟩
  unfold makeRexInd makeOffset memOp memDisp
  simp only [c4, c5, List.append_assoc]
  congr 2
  by_cases h0 : ofs = 0 ∧ b % 8 ≠ 5
  · simp only [if_pos h0]
    rcases h2 with rfl | rfl
    · rw [k1]
    · rw [k2]
  · simp only [if_neg h0]
    by_cases h8 : im8 ofs
    · simp only [if_pos h8, k3]
    · simp only [if_neg h8, k4]

/-- A register operand and `ofs(base)` behind `MAKE_REX0`. -/
theorem rmM_start {d : Rg} (wd : Wf d) (hh : d.hi = false) (b : Nat) (ofs : Int) (op : Nat) (ho : opOk op = true)
    (hb : b < 16) (h32 : im32 ofs) (t : List Nat) :
    ∃ p r l, decode (makeRex0 d.z (regno d) b op ++ (memOp (regno d) b ofs ++ (memDisp b ofs ++ t))) = dec1 p op l
      ∧ NoRep p ∧ (d.z ≠ .b → p.osz = d.z) ∧ modrm p l = some (r, .mem { base := some b, disp := ofs }, t)
      ∧ p.greg d.z r = d := by
  obtain ⟨o1, o2⟩ := opOk_spec ho
  have hR := rexM_is (leg d.z) d.z (regno d) b
  refine ⟨⟨leg d.z, rexM d.z (regno d) b⟩, _, _, ?_, noRep_leg _ _, fun h => osz_of d.z h rfl hR,
    mr_mem _ (regno d) b ofs t hb h32 hR.B hR.X, ?_⟩
  · simp only [makeRex0, List.append_assoc, List.cons_append, List.nil_append]
    rw [← List.append_assoc]
    exact decode1 _ _ _ _ (fun v h => rexM_lt _ _ _ _ h) o1 o2
  · rw [hR.R]
    refine greg_of wd (fun h => by simp [hh] at h) (fun h1 h2 h3 => rexM_some' (.inl (regno_lo h1 h2 h3)))

/-- An opcode extension and `ofs(base)` behind `MAKE_REX0`. -/
theorem mM_start (z : Sz) (e b : Nat) (ofs : Int) (op : Nat) (ho : opOk op = true) (he : e < 8)
    (hb : b < 16) (h32 : im32 ofs) (t : List Nat) :
    ∃ p l, decode (makeRex0 z e b op ++ (memOp e b ofs ++ (memDisp b ofs ++ t))) = dec1 p op l
      ∧ NoRep p ∧ (z ≠ .b → p.osz = z) ∧ modrm p l = some (e, .mem { base := some b, disp := ofs }, t) := by
  obtain ⟨o1, o2⟩ := opOk_spec ho
  have hR := rexM_is (leg z) z e b
  have hr0 : e % 8 + 8 * Pf.R ⟨leg z, rexM z e b⟩ = e := by rw [hR.R]; unfold bit3; omega
  refine ⟨⟨leg z, rexM z e b⟩, _, ?_, noRep_leg _ _, fun h => osz_of z h rfl hR,
    (mr_mem _ e b ofs t hb h32 hR.B hR.X).trans (by rw [hr0])⟩
  simp only [makeRex0, List.append_assoc, List.cons_append, List.nil_append]
  rw [← List.append_assoc]
  exact decode1 _ _ _ _ (fun v h => rexM_lt _ _ _ _ h) o1 o2

theorem imm8_nat (c : Nat) (hc : c < 256) : (toU 8 (toS (8 * 1) c)).toNat = c := by
  unfold toU toS
  simp only
  omega

theorem dec_mov {s d : Rg} (ok : Pair s d) (t : List Nat) :
    decode (putRex2 s.z (regno s) (regno d) (if s.z = .b then 0x88 else 0x89) ++ t) = some (.i (.mov s d), t) := by
  by_cases hz : s.z = .b
  · obtain ⟨p, r, m, x, e, hp, ho, hm, g1, g2⟩ := rr_start ok 0x88 (by decide) t
    unfold NoRep at hp
    rw [if_pos hz, e]
    rw [hz] at g1 g2
    simp [dec1, hp, movSt, withRM, hm, g1, g2]
  · obtain ⟨p, r, m, x, e, hp, ho, hm, g1, g2⟩ := rr_start ok 0x89 (by decide) t
    unfold NoRep at hp
    rw [if_neg hz, e]
    simp [dec1, hp, movSt, withRM, hm, g1, g2, ho hz]

theorem dec_test {s d : Rg} (ok : Pair s d) (t : List Nat) :
    decode (putRex2 s.z (regno s) (regno d) (if s.z = .b then 0x84 else 0x85) ++ t) = some (.i (.test s d), t) := by
  by_cases hz : s.z = .b
  · obtain ⟨p, r, m, x, e, hp, ho, hm, g1, g2⟩ := rr_start ok 0x84 (by decide) t
    unfold NoRep at hp
    rw [if_pos hz, e]
    rw [hz] at g1 g2
    simp [dec1, hp, withRM, hm, g1, g2]
  · obtain ⟨p, r, m, x, e, hp, ho, hm, g1, g2⟩ := rr_start ok 0x85 (by decide) t
    unfold NoRep at hp
    rw [if_neg hz, e]
    simp [dec1, hp, withRM, hm, g1, g2, ho hz]

theorem dec_alu (o : Alu) {s d : Rg} (ok : Pair s d) (t : List Nat) :
    decode (putRex2 d.z (regno s) (regno d) (aluOp o + if d.z = .b then 0 else 1) ++ t) = some (.i (.alu o s d), t) := by
  rw [← ok.2.2.1]
  by_cases hz : s.z = .b
  · obtain ⟨p, r, m, x, e, hp, ho, hm, g1, g2⟩ := rr_start ok (aluOp o) (by cases o <;> decide) t
    unfold NoRep at hp
    rw [if_pos hz, Nat.add_zero, e]
    rw [hz] at g1 g2
    cases o <;> simp [dec1, aluOp, aluOf, decAlu, hp, withRM, hm, g1, g2]
  · obtain ⟨p, r, m, x, e, hp, ho, hm, g1, g2⟩ := rr_start ok (aluOp o + 1) (by cases o <;> decide) t
    unfold NoRep at hp
    rw [if_neg hz, e]
    cases o <;> simp [dec1, aluOp, aluOf, decAlu, hp, withRM, hm, g1, g2, ho hz]

theorem dec_un (o : Un) {d : Rg} (wd : Wf d) (hb : o = .neg ∨ o = .not → d.z ≠ .b) (t : List Nat) :
    decode (unR o d ++ t) = some (.i (.un o d), t) := by
  by_cases hz : d.z = .b
  · cases o
    · exact absurd hz (hb (.inr rfl))
    · exact absurd hz (hb (.inl rfl))
    · obtain ⟨p, m, x, e, hp, ho, hm, g⟩ := r_start wd 0xfe 0 (by decide) (by decide) t
      unfold NoRep at hp
      simp only [unR, if_pos hz]
      rw [show 0xc0 = 0xc0 + 0 * 8 from rfl, e]
      rw [hz] at g
      simp [dec1, hp, grp45, withRM, hm, g]
    · obtain ⟨p, m, x, e, hp, ho, hm, g⟩ := r_start wd 0xfe 1 (by decide) (by decide) t
      unfold NoRep at hp
      simp only [unR, if_pos hz]
      rw [show 0xc8 = 0xc0 + 1 * 8 from rfl, e]
      rw [hz] at g
      simp [dec1, hp, grp45, withRM, hm, g]
  · cases o
    · obtain ⟨p, m, x, e, hp, ho, hm, g⟩ := r_start wd 0xf7 2 (by decide) (by decide) t
      unfold NoRep at hp
      simp only [unR]
      rw [show 0xd0 = 0xc0 + 2 * 8 from rfl, e]
      simp [dec1, hp, grp3, withRM, hm, g, ho hz]
    · obtain ⟨p, m, x, e, hp, ho, hm, g⟩ := r_start wd 0xf7 3 (by decide) (by decide) t
      unfold NoRep at hp
      simp only [unR]
      rw [show 0xd8 = 0xc0 + 3 * 8 from rfl, e]
      simp [dec1, hp, grp3, withRM, hm, g, ho hz]
    · obtain ⟨p, m, x, e, hp, ho, hm, g⟩ := r_start wd 0xff 0 (by decide) (by decide) t
      unfold NoRep at hp
      simp only [unR, if_neg hz]
      rw [show 0xc0 = 0xc0 + 0 * 8 from rfl, e]
      simp [dec1, hp, grp45, withRM, hm, g, ho hz]
    · obtain ⟨p, m, x, e, hp, ho, hm, g⟩ := r_start wd 0xff 1 (by decide) (by decide) t
      unfold NoRep at hp
      simp only [unR, if_neg hz]
      rw [show 0xc8 = 0xc0 + 1 * 8 from rfl, e]
      simp [dec1, hp, grp45, withRM, hm, g, ho hz]

def mdE : MulDiv → Nat
  | .mul => 4
  | .div => 6
  | .idiv => 7

theorem dec_md (o : MulDiv) {s : Rg} (ws : Wf s) (hh : s.hi = false) (t : List Nat) :
    decode (mdR o s ++ t) = some (.i (.md o s), t) := by
  have he : mdExt o = 0xc0 + mdE o * 8 := by cases o <;> rfl
  by_cases hz : s.z = .b
  · obtain ⟨p, m, x, e, hp, ho, hm, g⟩ := rM_start ws hh 0xf6 (mdE o) (by decide) (by cases o <;> decide) t
    unfold NoRep at hp
    simp only [mdR, if_pos hz, Nat.add_zero, List.append_assoc, he]
    rw [e]
    rw [hz] at g
    cases o <;> simp [mdE] at hm <;> simp [dec1, hp, grp3, withRM, hm, g]
  · obtain ⟨p, m, x, e, hp, ho, hm, g⟩ := rM_start ws hh 0xf7 (mdE o) (by decide) (by cases o <;> decide) t
    unfold NoRep at hp
    simp only [mdR, if_neg hz, List.append_assoc, he]
    rw [e]
    cases o <;> simp [mdE] at hm <;> simp [dec1, hp, grp3, withRM, hm, g, ho hz]

def shE : Sh → Nat
  | .shl => 4
  | .shr => 5
  | .sar => 7

theorem dec_sh (o : Sh) {d : Rg} (wd : Wf d) (t : List Nat) : decode (shR o d ++ t) = some (.i (.sh o d), t) := by
  have he : shExt o = 0xc0 + shE o * 8 := by cases o <;> rfl
  by_cases hz : d.z = .b
  · obtain ⟨p, m, x, e, hp, ho, hm, g⟩ := r_start wd 0xd2 (shE o) (by decide) (by cases o <;> decide) t
    unfold NoRep at hp
    simp only [shR, if_pos hz, he]
    rw [e]
    rw [hz] at g
    cases o <;> simp [shE] at hm <;> simp [dec1, hp, grp2, shOf, withRM, hm, g]
  · obtain ⟨p, m, x, e, hp, ho, hm, g⟩ := r_start wd 0xd3 (shE o) (by decide) (by cases o <;> decide) t
    unfold NoRep at hp
    simp only [shR, if_neg hz, he]
    rw [e]
    cases o <;> simp [shE] at hm <;> simp [dec1, hp, grp2, shOf, withRM, hm, g, ho hz]

theorem dec_shI (o : Sh) (c : Nat) {d : Rg} (wd : Wf d) {bs : List Nat} (h : shImr o c d = some bs) (t : List Nat) :
    decode (bs ++ t) = some (.i (.shI o c d), t) := by
  have he : shExt o = 0xc0 + shE o * 8 := by cases o <;> rfl
  unfold shImr at h
  split at h
  · cases h
  · rename_i hc
    split at h
    · rename_i h1
      subst h1
      injection h with h
      subst h
      by_cases hz : d.z = .b
      · obtain ⟨p, m, x, e, hp, ho, hm, g⟩ := r_start wd 0xd0 (shE o) (by decide) (by cases o <;> decide) t
        unfold NoRep at hp
        simp only [if_pos hz, he]
        rw [e]
        rw [hz] at g
        cases o <;> simp [shE] at hm <;> simp [dec1, hp, grp2, shOf, withRM, hm, g]
      · obtain ⟨p, m, x, e, hp, ho, hm, g⟩ := r_start wd 0xd1 (shE o) (by decide) (by cases o <;> decide) t
        unfold NoRep at hp
        simp only [if_neg hz, he]
        rw [e]
        cases o <;> simp [shE] at hm <;> simp [dec1, hp, grp2, shOf, withRM, hm, g, ho hz]
    · injection h with h
      subst h
      rw [List.append_assoc]
      have hi := imm8_nat c (by omega)
      by_cases hz : d.z = .b
      · obtain ⟨p, m, x, e, hp, ho, hm, g⟩ := r_start wd 0xc0 (shE o) (by decide) (by cases o <;> decide) (le 1 c ++ t)
        unfold NoRep at hp
        simp only [if_pos hz, he]
        rw [e]
        rw [hz] at g
        cases o <;> simp [shE] at hm <;> simp [dec1, hp, grp2I, shOf, withRMI, hm, g, takeS_le] <;> exact hi
      · obtain ⟨p, m, x, e, hp, ho, hm, g⟩ := r_start wd 0xc1 (shE o) (by decide) (by cases o <;> decide) (le 1 c ++ t)
        unfold NoRep at hp
        simp only [if_neg hz, he]
        rw [e]
        cases o <;> simp [shE] at hm <;> simp [dec1, hp, grp2I, shOf, withRMI, hm, g, ho hz, takeS_le] <;> exact hi

def aluE : Alu → Nat
  | .add => 0
  | .or => 1
  | .and => 4
  | .sub => 5
  | .xor => 6
  | .cmp => 7

theorem toS_fit {k : Nat} {v : Int} (hk : 0 < k) (h : -2 ^ (k - 1) ≤ v ∧ v < 2 ^ (k - 1)) : toS k v = v := by
  have e : (2 : Int) ^ k = 2 * 2 ^ (k - 1) := by
    conv => lhs; rw [show k = k - 1 + 1 by omega, Int.pow_succ]
    omega
  unfold toS
  simp only
  rw [e]
  generalize (2 : Int) ^ (k - 1) = P at *
  by_cases h0 : 0 ≤ v
  · rw [Int.emod_eq_of_lt h0 (by omega), if_pos h.2]
  · have : v % (2 * P) = v + 2 * P := by
      rw [← Int.add_emod_right]
      exact Int.emod_eq_of_lt (by omega) (by omega)
    rw [this, if_neg (by omega)]
    omega

theorem toS_z8 (z : Sz) {v : Int} (h : im8 v) : toS z.bits v = v := by
  unfold im8 at h
  refine toS_fit (by cases z <;> decide) ?_
  cases z <;> simp [Sz.bits] <;> omega

theorem toS_z32 {z : Sz} (hz : z = .l ∨ z = .q) {v : Int} (h : im32 v) : toS z.bits v = v := by
  unfold im32 at h
  refine toS_fit (by cases z <;> decide) ?_
  rcases hz with rfl | rfl <;> simp [Sz.bits] <;> omega

theorem toS_toS (k : Nat) (hk : 0 < k) (v : Int) : toS k (toS k v) = toS k v := by
  have h2 : (0 : Int) < 2 ^ k := Int.pow_pos (by decide)
  have e : (2 : Int) ^ k = 2 * 2 ^ (k - 1) := by
    conv => lhs; rw [show k = k - 1 + 1 by omega, Int.pow_succ]
    omega
  refine toS_fit hk ?_
  have h := Int.emod_nonneg v (b := 2 ^ k) (by omega)
  have h' := Int.emod_lt_of_pos v h2
  unfold toS
  simp only
  split <;> omega

theorem immZ_eq (z : Sz) (v : Int) : immZ z v = le (immBytes z) v := by cases z <;> rfl

/-- Group 1 with a register. -/
theorem dec_g1 (o : Alu) {d : Rg} (wd : Wf d) (v : Int) (t : List Nat) :
    (d.z = .b → decode (putRex1 d.z (0xc0 + aluE o * 8) (regno d) 0x80 ++ (le 1 v ++ t))
      = some (.i (.aluI o (toS 8 v) d), t))
    ∧ (d.z ≠ .b → decode (putRex1 d.z (0xc0 + aluE o * 8) (regno d) 0x83 ++ (le 1 v ++ t))
      = some (.i (.aluI o (toS 8 v) d), t))
    ∧ (d.z ≠ .b → decode (putRex1 d.z (0xc0 + aluE o * 8) (regno d) 0x81 ++ (le (immBytes d.z) v ++ t))
      = some (.i (.aluI o (toS (8 * immBytes d.z) v) d), t)) := by
  have h8 : aluE o < 8 := by cases o <;> decide
  refine ⟨fun hz => ?_, fun hz => ?_, fun hz => ?_⟩
  · obtain ⟨p, m, x, e, hp, ho, hm, g⟩ := r_start wd 0x80 (aluE o) (by decide) h8 (le 1 v ++ t)
    unfold NoRep at hp
    rw [e]
    rw [hz] at g
    cases o <;> simp [aluE] at hm <;> simp [dec1, hp, grp1, aluOf, withRMI, hm, g, takeS_le]
  · obtain ⟨p, m, x, e, hp, ho, hm, g⟩ := r_start wd 0x83 (aluE o) (by decide) h8 (le 1 v ++ t)
    unfold NoRep at hp
    rw [e]
    cases o <;> simp [aluE] at hm <;> simp [dec1, hp, grp1, aluOf, withRMI, hm, g, ho hz, takeS_le]
  · obtain ⟨p, m, x, e, hp, ho, hm, g⟩ := r_start wd 0x81 (aluE o) (by decide) h8 (le (immBytes d.z) v ++ t)
    unfold NoRep at hp
    rw [e]
    cases o <;> simp [aluE] at hm <;> simp [dec1, hp, grp1, aluOf, withRMI, hm, g, ho hz, takeS_le]

theorem regno_zero {d : Rg} (wd : Wf d) (h : regno d = 0) : d = ra d.z := by
  obtain ⟨z, n, hi⟩ := d
  obtain ⟨hn, hh⟩ := wd
  simp only at hn hh
  unfold regno at h
  unfold ra
  simp only [Rg.mk.injEq, true_and]
  cases hi with
  | true =>
    obtain ⟨rfl, _⟩ := hh rfl
    simp at h
  | false =>
    by_cases hz : z = .b
    · simp [hz] at h
      split at h
      · omega
      · exact ⟨h, rfl⟩
    · simp [hz] at h
      exact ⟨h, rfl⟩

/-- The short forms with the accumulator. -/
theorem dec_acc (o : Alu) {d : Rg} (wd : Wf d) (h0 : regno d = 0) (v : Int) (t : List Nat) :
    (d.z = .b → decode (putRex0 d.z 0 (regno d) (aluOp o + 4) ++ (le 1 v ++ t)) = some (.i (.aluI o (toS 8 v) d), t))
    ∧ (d.z ≠ .b → decode (putRex0 d.z 0 (regno d) (aluOp o + 5) ++ (le (immBytes d.z) v ++ t))
      = some (.i (.aluI o (toS (8 * immBytes d.z) v) d), t)) := by
  have hd := regno_zero wd h0
  have hR := rex0_is (leg d.z) d.z 0 (regno d)
  have hp := noRep_leg d.z (rex0 d.z 0 (regno d))
  have hd1 : ∀ op l, opOk op = true → decode (putRex0 d.z 0 (regno d) op ++ l)
      = dec1 ⟨leg d.z, rex0 d.z 0 (regno d)⟩ op l := by
    intro op l ho
    obtain ⟨o1, o2⟩ := opOk_spec ho
    simp only [putRex0, List.append_assoc, List.cons_append, List.nil_append]
    rw [← List.append_assoc]
    exact decode1 _ _ _ _ (fun v h => rex0_lt _ _ _ _ h) o1 o2
  constructor
  · intro hz
    rw [hd1 _ _ (by cases o <;> decide)]
    have hb : d = ra .b := by rw [← hz]; exact hd
    unfold NoRep at hp
    cases o <;> simp [aluOp, dec1, hp, aluOf, decAlu, withI, takeS_le, ← hb]
  · intro hz
    rw [hd1 _ _ (by cases o <;> decide)]
    have ho := osz_of d.z hz rfl hR
    unfold NoRep at hp
    cases o <;> simp [aluOp, dec1, hp, aluOf, decAlu, withI, takeS_le, ho, ← hd]

theorem imm_bits {z : Sz} (v : Int) (h : z = .q → im32 v) : toS (8 * immBytes z) v = toS z.bits v := by
  cases z
  · rfl
  · rfl
  · rfl
  · exact (toS32 (h rfl)).trans (toS_z32 (.inr rfl) (h rfl)).symm

theorem dec_aluI (o : Alu) {d : Rg} (wd : Wf d) (v : Int) {bs : List Nat} (h : aluImr o v d = some bs) (t : List Nat) :
    decode (bs ++ t) = some (.i (.aluI o (toS d.z.bits v) d), t) := by
  have hadd : ∀ o, o = .add ∨ o = .sub → addImr (aluOp o + 4) (0xc0 + aluE o * 8) v d = some bs →
      decode (bs ++ t) = some (.i (.aluI o (toS d.z.bits v) d), t) := by
    intro o _ h
    unfold addImr at h
    split at h
    · rename_i h32
      injection h with h
      subst h
      rw [List.append_assoc]
      obtain ⟨g1, g2, g3⟩ := dec_g1 o wd v t
      by_cases hz : d.z = .b
      · have hb : toS d.z.bits v = toS 8 v := by rw [hz]; rfl
        simp only [hz, or_true, true_or, and_true, if_true, not_true_eq_false, or_false]
        rw [← hz, hb]
        by_cases h0 : regno d = 0
        · rw [if_pos h0]
          exact (dec_acc o wd h0 v t).1 hz
        · rw [if_neg h0]
          exact g1 hz
      · simp only [hz, or_false, false_or, if_false]
        by_cases h8 : im8 v
        · simp only [h8, not_true_eq_false, and_false, if_false, if_true]
          rw [g2 hz, toS8 h8, toS_z8 _ h8]
        · simp only [h8, not_false_eq_true, and_true, if_false, immZ_eq]
          rw [← imm_bits v (fun _ => h32)]
          by_cases h0 : regno d = 0
          · rw [if_pos h0]
            exact (dec_acc o wd h0 v t).2 hz
          · rw [if_neg h0]
            exact g3 hz
    · cases h
  have hlog : ∀ o, logImr (aluOp o + 4) (0xc0 + aluE o * 8) v d = some bs →
      decode (bs ++ t) = some (.i (.aluI o (toS d.z.bits v) d), t) := by
    intro o h
    unfold logImr at h
    obtain ⟨g1, g2, g3⟩ := dec_g1 o wd v t
    split at h
    · rename_i h8
      injection h with h
      subst h
      rw [List.append_assoc]
      rw [toS8 h8.1] at g1 g2
      rw [toS_z8 _ h8.1]
      by_cases hz : d.z = .b
      · rw [if_pos hz]
        exact g1 hz
      · rw [if_neg hz]
        exact g2 hz
    · split at h
      · rename_i hq
        injection h with h
        subst h
        rw [List.append_assoc]
        by_cases hz : d.z = .b
        · have hb : toS d.z.bits v = toS 8 v := by rw [hz]; rfl
          have hi : immZ d.z v = le 1 v := by rw [hz]; rfl
          rw [if_pos hz, if_pos hz, hb, hi]
          by_cases h0 : regno d = 0
          · rw [if_pos h0]
            exact (dec_acc o wd h0 v t).1 hz
          · rw [if_neg h0]
            exact g1 hz
        · rw [if_neg hz, if_neg hz, immZ_eq, ← imm_bits v (fun e => hq.resolve_left (fun f => f e))]
          by_cases h0 : regno d = 0
          · rw [if_pos h0]
            exact (dec_acc o wd h0 v t).2 hz
          · rw [if_neg h0]
            exact g3 hz
      · cases h
  cases o with
  | add => exact hadd .add (.inl rfl) h
  | sub => exact hadd .sub (.inr rfl) h
  | and => exact hlog .and h
  | or => exact hlog .or h
  | xor => exact hlog .xor h
  | cmp =>
    simp only [aluImr, cmpImr] at h
    have hn : toS d.z.bits v = toS d.z.bits (toS d.z.bits v) := (toS_toS _ (by cases d.z <;> decide) v).symm
    rw [hn]
    generalize toS d.z.bits v = w at h hn
    obtain ⟨g1, g2, g3⟩ := dec_g1 .cmp wd w t
    split at h
    · rename_i hq
      injection h with h
      subst h
      rw [List.append_assoc]
      by_cases hz : d.z = .b
      · have hb : toS d.z.bits w = toS 8 w := by rw [hz]; rfl
        have hi : (if im8 w then le 1 w else immZ d.z w) = le 1 w := by rw [hz]; split <;> rfl
        rw [hi, hb]
        simp only [hz, true_or, and_true, if_true]
        rw [← hz]
        by_cases h0 : regno d = 0
        · rw [if_pos h0]
          exact (dec_acc .cmp wd h0 w t).1 hz
        · rw [if_neg h0]
          exact g1 hz
      · simp only [hz, false_or, if_false]
        by_cases h8 : im8 w
        · simp only [h8, not_true_eq_false, and_false, if_false, if_true]
          rw [toS_z8 _ h8, ← toS8 h8]
          have := g2 hz
          rw [toS8 h8] at this
          rw [toS8 h8]
          exact this
        · simp only [h8, not_false_eq_true, and_true, if_false, immZ_eq]
          rw [← imm_bits w (fun e => hq.resolve_right (fun f => f e))]
          by_cases h0 : regno d = 0
          · rw [if_pos h0]
            exact (dec_acc .cmp wd h0 w t).2 hz
          · rw [if_neg h0]
            exact g3 hz
    · cases h

theorem regno_wide {d : Rg} (hz : d.z ≠ .b) : regno d = d.n := by simp [regno, hz]

theorem regno_zq {d : Rg} (hz : d.z = .q) : regno d = d.n := regno_wide (by simp [hz])

theorem dec_movI {d : Rg} (wd : Wf d) (hh : d.hi = false) (v : Int) (t : List Nat) :
    decode (movImr v d ++ t) = some (.i (.movI (toS d.z.bits v) d), t) := by
  unfold movImr
  split
  · rename_i hq
    obtain ⟨hz, h32⟩ := hq
    have hn := wd.1
    have hrn := regno_zq hz
    have hx : d.n / 8 = 0 ∨ d.n / 8 = 1 := by omega
    have e : (if regno d / 8 = 0 then 0x48 else 0x49 : Nat) = 0x40 + (8 + bit3 (regno d)) := by
      rw [hrn]
      unfold bit3
      rcases hx with h | h <;> simp [h]
    have hR : RexIs ⟨leg .q, some (8 + bit3 (regno d))⟩ true 0 0 (bit3 (regno d)) :=
      rexIs_some _ _ _ _ _ _ (by decide) (by decide) (bit3_lt _) (by simp; omega)
    have hd := decode1 .q (some (8 + bit3 (regno d))) 0xc7 ((0xc0 + 0 * 8 + regno d % 8) :: (le 4 v ++ t))
      (fun w h => by injection h with h; have := bit3_lt (regno d); omega) (by decide) (by decide)
    have hm := mr_reg ⟨leg .q, some (8 + bit3 (regno d))⟩ 0 (regno d % 8) (le 4 v ++ t) (by decide)
      (Nat.mod_lt _ (by decide))
    rw [hR.R, hR.B] at hm
    have ho := osz_of (p := ⟨leg .q, some (8 + bit3 (regno d))⟩) .q (by decide) rfl hR
    have hg : Pf.greg ⟨leg .q, some (8 + bit3 (regno d))⟩ .q (regno d % 8 + 8 * bit3 (regno d)) = d := by
      rw [← hz]
      exact greg_of wd (fun h => by simp [hh] at h) (fun h => by simp [hz] at h)
    rw [e]
    simp only [List.cons_append, List.nil_append]
    refine hd.trans ?_
    have hb : toS d.z.bits v = toS (8 * 4) v := by rw [toS_z32 (.inr hz) h32]; exact (toS32 h32).symm
    rw [hb]
    simp [dec1, leg] at hm ho hg ⊢
    simp [movImm, withRMI, hm, ho, hg, immBytes, takeS_le]
  · have hR := rexM_is (leg d.z) d.z 0 (regno d)
    have hp := noRep_leg d.z (rexM d.z 0 (regno d))
    unfold NoRep at hp
    have hg : Pf.greg ⟨leg d.z, rexM d.z 0 (regno d)⟩ d.z (regno d % 8 + 8 * bit3 (regno d)) = d :=
      greg_of wd (fun h => by simp [hh] at h) (fun h1 h2 h3 => rexM_some' (.inr (regno_lo h1 h2 h3)))
    have hno : regno d % 8 < 8 := Nat.mod_lt _ (by decide)
    simp only [makeRex0, List.append_assoc, List.cons_append, List.nil_append]
    rw [← List.append_assoc, decode1 _ _ _ _ (fun v h => rexM_lt _ _ _ _ h) (by split <;> omega) (by split <;> omega)]
    unfold dec1
    rw [if_neg hp]
    by_cases hz : d.z = .b
    · rw [if_pos hz]
      rw [if_neg (by omega), if_neg (by omega), if_neg (by omega), if_neg (by omega), if_pos (by omega)]
      have e : (0xb0 + 0 + regno d % 8) % 8 = regno d % 8 := by omega
      have hby : d.z.bytes = 1 := by rw [hz]; rfl
      have hbi : d.z.bits = 8 * 1 := by rw [hz]; rfl
      rw [e, hR.B, hby, hbi]
      rw [hz] at hg
      simp only [withI, takeS_le, Option.map_some]
      rw [hz, hg]
    · rw [if_neg hz]
      rw [if_neg (by omega), if_neg (by omega), if_neg (by omega), if_neg (by omega), if_neg (by omega),
        if_pos (by omega)]
      have e : (0xb0 + 8 + regno d % 8) % 8 = regno d % 8 := by omega
      have ho := osz_of (p := ⟨leg d.z, rexM d.z 0 (regno d)⟩) d.z hz rfl hR
      have hbi : 8 * d.z.bytes = d.z.bits := by cases d.z <;> rfl
      rw [e, hR.B, ho, hg]
      simp only [withI, takeS_le, Option.map_some, hbi]

theorem movx_core (sx : Bool) {s d : Rg} (ws : Wf s) (wd : Wf d) (hs : s.hi = false) (hd : d.z ≠ .b) (r : Option Nat)
    (hR : RexIs ⟨leg d.z, r⟩ (decide (d.z = .q)) (bit3 (regno d)) 0 (bit3 (regno s)))
    (hr : s.z = .b → 4 ≤ s.n → r ≠ none) (t : List Nat) :
    movx ⟨leg d.z, r⟩ sx s.z d.z ((0xc0 + regno s % 8 + regno d % 8 * 8) :: t) = some (.i (.movx sx s d), t) := by
  have hdh : d.hi = false := by
    cases h : d.hi with
    | false => rfl
    | true => exact absurd (wd.2 h).1 hd
  have hm := mr_reg ⟨leg d.z, r⟩ (regno d % 8) (regno s % 8) t (Nat.mod_lt _ (by decide)) (Nat.mod_lt _ (by decide))
  rw [hR.R, hR.B] at hm
  have g1 : Pf.greg ⟨leg d.z, r⟩ s.z (regno s % 8 + 8 * bit3 (regno s)) = s :=
    greg_of ws (fun h => by simp [hs] at h) (fun h1 _ h3 => hr h1 h3)
  have g2 : Pf.greg ⟨leg d.z, r⟩ d.z (regno d % 8 + 8 * bit3 (regno d)) = d :=
    greg_of wd (fun h => by simp [hdh] at h) (fun h1 => absurd h1 hd)
  have e : 0xc0 + regno s % 8 + regno d % 8 * 8 = 0xc0 + regno d % 8 * 8 + regno s % 8 := by omega
  simp [movx, withRM, e, hm, g1, g2]

theorem dec_movx (sx : Bool) {s d : Rg} (ws : Wf s) (wd : Wf d) (hs : s.hi = false) {bs : List Nat}
    (h : movszx sx s d = some bs) (t : List Nat) : decode (bs ++ t) = some (.i (.movx sx s d), t) := by
  have hds : d.z ≠ .b → regno d / 8 = bit3 (regno d) := by
    intro hz
    have := wd.1
    rw [regno_wide hz]
    unfold bit3
    omega
  have hss : s.z ≠ .b → regno s / 8 = bit3 (regno s) := by
    intro hz
    have := ws.1
    rw [regno_wide hz]
    unfold bit3
    omega
  have b1 := bit3_lt (regno s)
  have b2 := bit3_lt (regno d)
  have hlow : s.z = .b → regno s < 4 → ¬ 4 ≤ s.n := by
    intro h1 h2 h3
    have := regno_lo h1 hs h3
    omega
  have p8 : d.z ≠ .b → ∀ c, c + (if regno s / 8 % 2 = 0 then 0 else 1) + (if regno d / 8 = 0 then 0 else 4)
      = c + (bit3 (regno s) + 4 * bit3 (regno d)) := by
    intro hz c
    rw [hds hz]
    show c + (if bit3 (regno s) = 0 then 0 else 1) + _ = _
    split <;> split <;> omega
  have p16 : d.z ≠ .b → s.z ≠ .b → ∀ c, c + (if regno s / 8 = 0 then 0 else 1) + (if regno d / 8 = 0 then 0 else 4)
      = c + (bit3 (regno s) + 4 * bit3 (regno d)) := by
    intro hz hz' c
    rw [hds hz, hss hz']
    split <;> split <;> omega
  have r8 : ∀ l (w : Bool), RexIs ⟨l, some (bit3 (regno s) + 4 * bit3 (regno d) + if w then 8 else 0)⟩ w
      (bit3 (regno d)) 0 (bit3 (regno s)) := fun l w =>
    rexIs_some _ _ _ _ _ _ b2 (by decide) b1 (by simp)
  have rn : ∀ l, regno s < 8 → regno d < 8 → RexIs ⟨l, none⟩ false (bit3 (regno d)) 0 (bit3 (regno s)) := by
    intro l h1 h2
    rw [bit3_small h1, bit3_small h2]
    exact rexIs_none l
  have d2 : ∀ z (w : Bool) op l, decode (pre66 z ++ rexB (some (bit3 (regno s) + 4 * bit3 (regno d) + if w then 8 else 0))
      ++ 0x0f :: op :: l) = dec0f ⟨leg z, some (bit3 (regno s) + 4 * bit3 (regno d) + if w then 8 else 0)⟩ op l := by
    intro z w op l
    exact decode2 z _ op l (fun v h => by injection h with h; subst h; split <;> omega)
  have d2n : ∀ z op l, decode (pre66 z ++ rexB none ++ 0x0f :: op :: l) = dec0f ⟨leg z, none⟩ op l :=
    fun z op l => decode2 z none op l (fun v h => by cases h)
  simp only [movszx] at h
  generalize hop : (if sx = true then 0xbe else 0xb6 : Nat) = op at h
  split at h
  all_goals first | (cases h; done) | rename_i hsz hdz
  all_goals subst hop
  · -- b, w
    have hdb : d.z ≠ .b := by simp [hdz]
    injection h with h
    split at h
    · rename_i hc
      subst h
      have hR := rn (leg d.z) (by omega) (by omega)
      have hc' := movx_core sx ws wd hs hdb none (by simpa [hdz] using hR) (fun h1 h2 => absurd h2 (hlow h1 hc.1)) t
      have e := d2n .w (if sx then 0xbe else 0xb6) ((0xc0 + regno s % 8 + regno d % 8 * 8) :: t)
      refine e.trans ?_
      rw [hsz, hdz] at hc'
      cases sx <;> simpa [dec0f, leg, noRep, Pf.osz, Pf.W] using hc'
    · subst h
      have hR := r8 (leg d.z) false
      have hc' := movx_core sx ws wd hs hdb _ (by simpa [hdz] using hR) (fun _ _ => by simp) t
      have e := d2 .w false (if sx then 0xbe else 0xb6) ((0xc0 + regno s % 8 + regno d % 8 * 8) :: t)
      rw [p8 hdb]
      refine e.trans ?_
      rw [hsz, hdz] at hc'
      have ho := osz_of (p := ⟨leg .w, some (bit3 (regno s) + 4 * bit3 (regno d) + if false then 8 else 0)⟩) .w (by decide)
        rfl (r8 (leg .w) false)
      simp [leg] at ho
      cases sx <;> simpa [dec0f, leg, noRep, ho] using hc'
  · -- b, l
    have hdb : d.z ≠ .b := by simp [hdz]
    injection h with h
    split at h
    · rename_i hc
      subst h
      have hR := rn (leg d.z) (by omega) (by omega)
      have hc' := movx_core sx ws wd hs hdb none (by simpa [hdz] using hR) (fun h1 h2 => absurd h2 (hlow h1 hc.1)) t
      have e := d2n .l (if sx then 0xbe else 0xb6) ((0xc0 + regno s % 8 + regno d % 8 * 8) :: t)
      refine e.trans ?_
      rw [hsz, hdz] at hc'
      cases sx <;> simpa [dec0f, leg, noRep, Pf.osz, Pf.W] using hc'
    · subst h
      have hR := r8 (leg d.z) false
      have hc' := movx_core sx ws wd hs hdb _ (by simpa [hdz] using hR) (fun _ _ => by simp) t
      have e := d2 .l false (if sx then 0xbe else 0xb6) ((0xc0 + regno s % 8 + regno d % 8 * 8) :: t)
      rw [p8 hdb]
      refine e.trans ?_
      rw [hsz, hdz] at hc'
      have ho := osz_of (p := ⟨leg .l, some (bit3 (regno s) + 4 * bit3 (regno d) + if false then 8 else 0)⟩) .l (by decide)
        rfl (r8 (leg .l) false)
      simp [leg] at ho
      cases sx <;> simpa [dec0f, leg, noRep, ho] using hc'
  · -- b, q
    have hdb : d.z ≠ .b := by simp [hdz]
    injection h with h
    subst h
    have hR := r8 (leg d.z) true
    have hc' := movx_core sx ws wd hs hdb _ (by simpa [hdz] using hR) (fun _ _ => by simp) t
    have e := d2 .q true (if sx then 0xbe else 0xb6) ((0xc0 + regno s % 8 + regno d % 8 * 8) :: t)
    rw [p8 hdb]
    refine Eq.trans ?_ (e.trans ?_)
    · congr 1
      simp [pre66, rexB]
      omega
    rw [hsz, hdz] at hc'
    have ho := osz_of (p := ⟨leg .q, some (bit3 (regno s) + 4 * bit3 (regno d) + if true then 8 else 0)⟩) .q (by decide)
      rfl (r8 (leg .q) true)
    simp [leg] at ho
    cases sx <;> simpa [dec0f, leg, noRep, ho] using hc'
  · -- w, l
    have hdb : d.z ≠ .b := by simp [hdz]
    have hsb : s.z ≠ .b := by simp [hsz]
    injection h with h
    split at h
    · rename_i hc
      subst h
      have hR := rn (leg d.z) (by omega) (by omega)
      have hc' := movx_core sx ws wd hs hdb none (by simpa [hdz] using hR) (fun h1 => absurd h1 hsb) t
      have e := d2n .l ((if sx then 0xbe else 0xb6) + 1) ((0xc0 + regno s % 8 + regno d % 8 * 8) :: t)
      refine e.trans ?_
      rw [hsz, hdz] at hc'
      cases sx <;> simpa [dec0f, leg, noRep, Pf.osz, Pf.W] using hc'
    · subst h
      have hR := r8 (leg d.z) false
      have hc' := movx_core sx ws wd hs hdb _ (by simpa [hdz] using hR) (fun _ _ => by simp) t
      have e := d2 .l false ((if sx then 0xbe else 0xb6) + 1) ((0xc0 + regno s % 8 + regno d % 8 * 8) :: t)
      rw [p16 hdb hsb]
      refine e.trans ?_
      rw [hsz, hdz] at hc'
      have ho := osz_of (p := ⟨leg .l, some (bit3 (regno s) + 4 * bit3 (regno d) + if false then 8 else 0)⟩) .l (by decide)
        rfl (r8 (leg .l) false)
      simp [leg] at ho
      cases sx <;> simpa [dec0f, leg, noRep, ho] using hc'
  · -- w, q
    have hdb : d.z ≠ .b := by simp [hdz]
    have hsb : s.z ≠ .b := by simp [hsz]
    injection h with h
    subst h
    have hR := r8 (leg d.z) true
    have hc' := movx_core sx ws wd hs hdb _ (by simpa [hdz] using hR) (fun _ _ => by simp) t
    have e := d2 .q true ((if sx then 0xbe else 0xb6) + 1) ((0xc0 + regno s % 8 + regno d % 8 * 8) :: t)
    rw [p16 hdb hsb]
    refine Eq.trans ?_ (e.trans ?_)
    · congr 1
      simp [pre66, rexB]
      omega
    rw [hsz, hdz] at hc'
    have ho := osz_of (p := ⟨leg .q, some (bit3 (regno s) + 4 * bit3 (regno d) + if true then 8 else 0)⟩) .q (by decide)
      rfl (r8 (leg .q) true)
    simp [leg] at ho
    cases sx <;> simpa [dec0f, leg, noRep, ho] using hc'
  · -- l, q
    have hdb : d.z ≠ .b := by simp [hdz]
    have hsb : s.z ≠ .b := by simp [hsz]
    split at h
    · rename_i hsx
      injection h with h
      subst h
      have hR := r8 (leg d.z) true
      have hc' := movx_core sx ws wd hs hdb _ (by simpa [hdz] using hR) (fun _ _ => by simp) t
      have e := decode1 .q (some (bit3 (regno s) + 4 * bit3 (regno d) + if true then 8 else 0)) 0x63
        ((0xc0 + regno s % 8 + regno d % 8 * 8) :: t)
        (fun v h => by injection h with h; subst h; split <;> omega) (by decide) (by decide)
      rw [p16 hdb hsb]
      refine Eq.trans ?_ (e.trans ?_)
      · congr 1
        simp [pre66, rexB]
        omega
      rw [hsz, hdz, hsx] at hc'
      have hW := (r8 (leg .q) true).W
      simp [leg] at hW hc'
      simp [dec1, leg, hW, hc', hsx]
    · cases h

theorem dec_set (cc : Nat) (hcc : cc < 16) {d : Rg} (wd : Wf d) (hz : d.z = .b) (hh : d.hi = false) (t : List Nat) :
    decode (setR cc d ++ t) = some (.i (.set cc d), t) := by
  have hR := rexM_is (leg .b) .b 0 (regno d)
  have hm := mr_reg ⟨leg .b, rexM .b 0 (regno d)⟩ 0 (regno d % 8) t (by decide) (Nat.mod_lt _ (by decide))
  rw [hR.R, hR.B] at hm
  have hg : Pf.greg ⟨leg .b, rexM .b 0 (regno d)⟩ .b (regno d % 8 + 8 * bit3 (regno d)) = d := by
    rw [← hz]
    exact greg_of wd (fun h => by simp [hh] at h) (fun h1 h2 h3 => rexM_some' (.inr (regno_lo h1 h2 h3)))
  simp only [setR, makeRex0, List.append_assoc, List.cons_append, List.nil_append]
  rw [← List.append_assoc, decode2 _ _ _ _ (fun v h => rexM_lt _ _ _ _ h)]
  unfold dec0f
  rw [if_neg (by omega), if_pos (by omega)]
  have e : (0x90 + cc) % 16 = cc := by omega
  simp [leg] at hm hg
  simp [noRep, leg, withRM, hm, hg, e]

theorem dec_load {d : Rg} (wd : Wf d) (b : Nat) (ofs : Int) (hb : b < 16) (h32 : im32 ofs) (hhi : d.hi = true → b < 8)
    (t : List Nat) : decode (movIr b ofs d ++ t) = some (.i (.load { base := some b, disp := ofs } d), t) := by
  by_cases hz : d.z = .b
  · obtain ⟨p, r, l, e, hp, ho, hm, g⟩ := rm_start wd b ofs 0x8a (by decide) hb h32 hhi t
    unfold NoRep at hp
    simp only [movIr, if_pos hz]
    rw [e]
    rw [hz] at g
    simp [dec1, hp, movLd, withRM, hm, g]
  · obtain ⟨p, r, l, e, hp, ho, hm, g⟩ := rm_start wd b ofs 0x8b (by decide) hb h32 hhi t
    unfold NoRep at hp
    simp only [movIr, if_neg hz]
    rw [e]
    simp [dec1, hp, movLd, withRM, hm, g, ho hz]

theorem dec_store {s : Rg} (ws : Wf s) (b : Nat) (ofs : Int) (hb : b < 16) (h32 : im32 ofs) (hhi : s.hi = true → b < 8)
    (t : List Nat) : decode (movRi s b ofs ++ t) = some (.i (.store s { base := some b, disp := ofs }), t) := by
  by_cases hz : s.z = .b
  · obtain ⟨p, r, l, e, hp, ho, hm, g⟩ := rm_start ws b ofs 0x88 (by decide) hb h32 hhi t
    unfold NoRep at hp
    simp only [movRi, if_pos hz]
    rw [e]
    rw [hz] at g
    simp [dec1, hp, movSt, withRM, hm, g]
  · obtain ⟨p, r, l, e, hp, ho, hm, g⟩ := rm_start ws b ofs 0x89 (by decide) hb h32 hhi t
    unfold NoRep at hp
    simp only [movRi, if_neg hz]
    rw [e]
    simp [dec1, hp, movSt, withRM, hm, g, ho hz]

theorem memDispI_eq (b : Nat) {ofs : Int} (h : im32 ofs) : memDispI b ofs = memDisp b ofs := by
  simp [memDispI, memDisp, h]

theorem immOf_eq (z : Sz) (v : Int) : immOf z v = le (immBytes z) v := by cases z <;> rfl

theorem dec_storeI (z : Sz) (v : Int) (hv : z = .q → im32 v) (b : Nat) (ofs : Int) (hb : b < 16) (h32 : im32 ofs)
    (t : List Nat) :
    decode (movImi z v b ofs ++ t) = some (.i (.storeI z (toS z.bits v) { base := some b, disp := ofs }), t) := by
  rw [← imm_bits v hv]
  by_cases hz : z = .b
  · obtain ⟨p, l, e, hp, ho, hm⟩ := m_start z b ofs 0xc6 (by decide) hb h32 (le (immBytes z) v ++ t)
    unfold NoRep at hp
    simp only [movImi, if_pos hz, memDispI_eq b h32, immOf_eq]
    rw [List.append_assoc, e]
    rw [hz] at hm ⊢
    simp [dec1, hp, movImm, withRMI, hm, takeS_le]
  · obtain ⟨p, l, e, hp, ho, hm⟩ := m_start z b ofs 0xc7 (by decide) hb h32 (le (immBytes z) v ++ t)
    unfold NoRep at hp
    simp only [movImi, if_neg hz, memDispI_eq b h32, immOf_eq]
    rw [List.append_assoc, e]
    simp [dec1, hp, movImm, withRMI, hm, takeS_le, ho hz]

/-- `ofs` without base. -/
theorem mr_abs (p : Pf) (r : Nat) (ofs : Int) (h32 : im32 ofs) (hr : r < 8) (hX : p.X = 0) (t : List Nat) :
    modrm p ((r * 8 + 4) :: 0x25 :: (le 4 ofs ++ t)) = some (r + 8 * p.R, .mem { base := none, disp := ofs }, t) := by
  have e1 : (r * 8 + 4) / 64 = 0 := by omega
  have e2 : (r * 8 + 4) / 8 % 8 = r := by omega
  have e3 : (r * 8 + 4) % 8 = 4 := by omega
  simp [modrm, e1, e2, e3, hX, takeS_le, toS32 h32]

theorem dec_storeA (z : Sz) (v : Int) (hv : z = .q → im32 v) (ofs : Int) {bs : List Nat} (h : movImd z v ofs = some bs)
    (t : List Nat) : decode (bs ++ t) = some (.i (.storeI z (toS z.bits v) { base := none, disp := ofs }), t) := by
  unfold movImd at h
  split at h
  · rename_i h32
    injection h with h
    subst h
    rw [← imm_bits v hv, immOf_eq]
    generalize hrx : (if z = .q then some 8 else none : Option Nat) = rx
    have hb : (if z = .q then [0x48] else [] : List Nat) = rexB rx := by
      subst hrx
      by_cases hq : z = .q <;> simp [hq, rexB]
    have hR : RexIs ⟨leg z, rx⟩ (decide (z = .q)) 0 0 0 := by
      subst hrx
      by_cases hq : z = .q
      · simp only [hq, if_true, decide_true]
        exact rexIs_some _ _ _ _ _ _ (by decide) (by decide) (by decide) rfl
      · simp only [hq, if_false, decide_false]
        exact rexIs_none _
    have hr : ∀ w, rx = some w → w < 16 := by
      subst hrx
      intro w h
      split at h
      · injection h with h; omega
      · cases h
    rw [hb]
    have hm := mr_abs ⟨leg z, rx⟩ 0 ofs h32 (by decide) hR.X (le (immBytes z) v ++ t)
    rw [hR.R] at hm
    have hp := noRep_leg z rx
    unfold NoRep at hp
    by_cases hz : z = .b
    · have e := decode1 z rx 0xc6 (0x04 :: 0x25 :: (le 4 ofs ++ (le (immBytes z) v ++ t))) hr (by decide) (by decide)
      simp only [if_pos hz, List.append_assoc, List.cons_append, List.nil_append] at e ⊢
      refine e.trans ?_
      subst hz
      simp [dec1, movImm, withRMI] at hp hm ⊢
      simp [hp, hm, takeS_le]
    · have e := decode1 z rx 0xc7 (0x04 :: 0x25 :: (le 4 ofs ++ (le (immBytes z) v ++ t))) hr (by decide) (by decide)
      simp only [if_neg hz, List.append_assoc, List.cons_append, List.nil_append] at e ⊢
      refine e.trans ?_
      have ho := osz_of z hz rfl hR
      simp [dec1, movImm, withRMI] at hp hm ⊢
      simp [hp, hm, takeS_le, ho]
  · cases h

theorem abs_start {d : Rg} (wd : Wf d) (h8 : regno d < 8) (op : Nat) (ho : opOk op = true) (t : List Nat) :
    ∃ p r l, decode ((if d.z = .w then [0x66] else if d.z = .q then [0x48] else []) ++ [op, regno d % 8 * 8 + 0x04, 0x25]
        ++ le 4 0 ++ t) = dec1 p op l ∧ NoRep p
      ∧ (d.z ≠ .b → p.osz = d.z) ∧ modrm p l = some (r, .mem { base := none, disp := 0 }, t) ∧ p.greg d.z r = d := by
  obtain ⟨o1, o2⟩ := opOk_spec ho
  generalize hrx : (if d.z = .q then some 8 else none : Option Nat) = rx
  have hb : (if d.z = .w then [0x66] else if d.z = .q then [0x48] else [] : List Nat) = pre66 d.z ++ rexB rx := by
    subst hrx
    cases d.z <;> rfl
  have hR : RexIs ⟨leg d.z, rx⟩ (decide (d.z = .q)) 0 0 0 := by
    subst hrx
    by_cases hq : d.z = .q
    · simp only [hq, if_true, decide_true]
      exact rexIs_some _ _ _ _ _ _ (by decide) (by decide) (by decide) rfl
    · simp only [hq, if_false, decide_false]
      exact rexIs_none _
  have hr : ∀ w, rx = some w → w < 16 := by
    subst hrx
    intro w h
    split at h
    · injection h with h; omega
    · cases h
  refine ⟨⟨leg d.z, rx⟩, _, (regno d % 8 * 8 + 4) :: 0x25 :: (le 4 0 ++ t), ?_, noRep_leg _ _,
    fun h => osz_of d.z h rfl hR, mr_abs _ (regno d % 8) 0 (by decide) (Nat.mod_lt _ (by decide)) hR.X t, ?_⟩
  · rw [hb]
    simp only [List.append_assoc, List.cons_append, List.nil_append]
    rw [← List.append_assoc]
    exact decode1 _ _ _ _ hr o1 o2
  · rw [hR.R]
    have hz0 : 0 = bit3 (regno d) := (bit3_small h8).symm
    rw [hz0]
    refine greg_of wd (fun h => ?_) (fun h1 h2 h3 => ?_)
    · subst hrx
      simp [(regno_hi wd h).1]
    · have := regno_lo h1 h2 h3
      omega

theorem dec_loadA {d : Rg} (wd : Wf d) (h8 : regno d < 8) (ofs : Int) (h0 : ofs = 0) (t : List Nat) :
    decode (movDr ofs d ++ t) = some (.i (.load { base := none, disp := ofs } d), t) := by
  subst h0
  by_cases hz : d.z = .b
  · obtain ⟨p, r, l, e, hp, ho, hm, g⟩ := abs_start wd h8 0x8a (by decide) t
    unfold NoRep at hp
    simp only [movDr, if_pos hz] at e ⊢
    rw [e]
    rw [hz] at g
    simp [dec1, hp, movLd, withRM, hm, g]
  · obtain ⟨p, r, l, e, hp, ho, hm, g⟩ := abs_start wd h8 0x8b (by decide) t
    unfold NoRep at hp
    simp only [movDr, if_neg hz] at e ⊢
    rw [e]
    simp [dec1, hp, movLd, withRM, hm, g, ho hz]

theorem dec_storeRA {d : Rg} (wd : Wf d) (h8 : regno d < 8) (ofs : Int) (h0 : ofs = 0) (t : List Nat) :
    decode (movRd d ofs ++ t) = some (.i (.store d { base := none, disp := ofs }), t) := by
  subst h0
  by_cases hz : d.z = .b
  · obtain ⟨p, r, l, e, hp, ho, hm, g⟩ := abs_start wd h8 0x88 (by decide) t
    unfold NoRep at hp
    simp only [movRd, if_pos hz] at e ⊢
    rw [e]
    rw [hz] at g
    simp [dec1, hp, movSt, withRM, hm, g]
  · obtain ⟨p, r, l, e, hp, ho, hm, g⟩ := abs_start wd h8 0x89 (by decide) t
    unfold NoRep at hp
    simp only [movRd, if_neg hz] at e ⊢
    rw [e]
    simp [dec1, hp, movSt, withRM, hm, g, ho hz]

theorem dec_lea {d : Rg} (wd : Wf d) (hz : d.z ≠ .b) (b : Nat) (ofs : Int) (hb : b < 16) (h12 : b ≠ 12)
    (h13 : b = 13 → ofs ≠ 0) (h32 : im32 ofs) (t : List Nat) :
    decode (leaIr b ofs d ++ t) = some (.i (.lea { base := some b, disp := ofs } d), t) := by
  have hdh : d.hi = false := by
    cases h : d.hi with
    | false => rfl
    | true => exact absurd (wd.2 h).1 hz
  obtain ⟨p, r, l, e, hp, ho, hm, g⟩ := rmM_start wd hdh b ofs 0x8d (by decide) hb h32 t
  unfold NoRep at hp
  unfold leaIr
  rw [ind_eq _ _ _ _ _ _ hb h12 h13 (.inl rfl), if_neg hz, List.append_assoc, List.append_assoc]
  rw [e]
  simp [dec1, hp, withRM, hm, g, ho hz]

/-- The REX prefix with an index register. -/
theorem sib_rex (w : Bool) (b i r : Nat) (l : Nat) :
    RexIs ⟨l, some (bit3 b + 2 * bit3 i + 4 * bit3 r + if w then 8 else 0)⟩ w (bit3 r) (bit3 i) (bit3 b) :=
  rexIs_some _ _ _ _ _ _ (bit3_lt _) (bit3_lt _) (bit3_lt _) rfl

theorem sib_lt (w : Bool) (b i r v : Nat) (h : some (bit3 b + 2 * bit3 i + 4 * bit3 r + if w then 8 else 0) = some v) :
    v < 16 := by
  injection h with h
  have := bit3_lt b
  have := bit3_lt i
  have := bit3_lt r
  subst h
  split <;> omega

theorem dec_leaX {d : Rg} (wd : Wf d) (hz : d.z = .q) (b i k : Nat) (ofs : Int) (hb : b < 16) (hi : i < 16) (hi4 : i ≠ 4)
    (hb4 : b ≠ 4) (h13 : b = 13 → ofs ≠ 0) {bs : List Nat} (h : leaIir b i k ofs d = some bs) (t : List Nat) :
    decode (bs ++ t) = some (.i (.lea { base := some b, index := some (i, k), disp := ofs } d), t) := by
  have hdh : d.hi = false := by
    cases h : d.hi with
    | false => rfl
    | true => exact absurd (wd.2 h).1 (by simp [hz])
  unfold leaIir at h
  split at h
  · rename_i hc
    injection h with h
    subst h
    have hR := sib_rex true b i (regno d) (leg .q)
    have hd := disp_of true ofs t hc.1 (ofs = 0 ∧ b ≠ 5) (fun h => h.1)
    generalize hmo : (if ofs = 0 ∧ b ≠ 5 then 0 else if im8 ofs then 0x40 else 0x80 : Nat) = mo at hd
    have hm3 : mo = 0 ∨ mo = 64 ∨ mo = 128 := by
      subst hmo
      split
      · simp
      · split <;> simp
    have h5 : b % 8 = 5 → mo ≠ 0 := by
      intro h5 hm
      subst hmo
      split at hm
      · rename_i hc
        have : b = 13 := by omega
        exact h13 this hc.1
      · split at hm <;> simp at hm
    have hm := mr_sib _ (regno d) b i k mo ofs _ t hb hi hi4 hm3 h5 hR.B hR.X hd
    have ho := osz_of .q (by decide) rfl hR
    have hg : Pf.greg ⟨leg .q, some (bit3 b + 2 * bit3 i + 4 * bit3 (regno d) + if true then 8 else 0)⟩ .q
        (regno d % 8 + 8 * bit3 (regno d)) = d := by
      rw [← hz]
      exact greg_of wd (fun h => by simp [hdh] at h) (fun h => by simp [hz] at h)
    rw [hR.R] at hm
    have e := decode1 .q _ 0x8d ((mo + regno d % 8 * 8 + 4) :: (k * 64 + i % 8 * 8 + b % 8)
      :: ((if ofs = 0 ∧ b ≠ 5 then [] else if im8 ofs then le 1 ofs else le 4 ofs) ++ t))
      (sib_lt true b i (regno d)) (by decide) (by decide)
    simp only [hmo, if_neg hb4, List.append_assoc, List.cons_append, List.nil_append]
    refine Eq.trans ?_ (e.trans ?_)
    · congr 1
      simp only [pre66, rexB, if_true, List.cons_append, List.nil_append]
      congr 1
      · omega
      · congr 2
        congr 1
        omega
    · simp only [dec1]
      simp [leg] at hm ho hg ⊢
      simp [withRM, hm, ho, hg]
  · cases h

theorem dec_loadX {d : Rg} (wd : Wf d) (b i k : Nat) (ofs : Int) (hb : b < 16) (hi : i < 16) (hi4 : i ≠ 4)
    (h5 : b % 8 = 5 → ofs ≠ 0) (hq : d.z = .q ∨ (b < 8 ∧ i < 8 ∧ regno d < 8)) {bs : List Nat}
    (h : movIir b i k ofs d = some bs) (t : List Nat) :
    decode (bs ++ t) = some (.i (.load { base := some b, index := some (i, k), disp := ofs } d), t) := by
  unfold movIir at h
  split at h
  · rename_i hc
    injection h with h
    subst h
    generalize hrx : (if d.z = .q then some (bit3 b + 2 * bit3 i + 4 * bit3 (regno d) + if true then 8 else 0) else none
      : Option Nat) = rx
    have hpre : (if d.z = .w then [0x66] else if d.z = .q ∨ bit3 b + 2 * bit3 i + 4 * bit3 (regno d) ≠ 0 then
        [0x48 + (bit3 b + 2 * bit3 i + 4 * bit3 (regno d))] else [] : List Nat) = pre66 d.z ++ rexB rx := by
      subst hrx
      rcases hq with hq | ⟨h1, h2, h3⟩
      · simp [hq, pre66, rexB]
        omega
      · by_cases hz : d.z = .q
        · simp [hz, pre66, rexB]
          omega
        · simp only [hz, bit3_small h1, bit3_small h2, bit3_small h3]
          cases d.z <;> simp [pre66, rexB]
    have hR : RexIs ⟨leg d.z, rx⟩ (decide (d.z = .q)) (bit3 (regno d)) (bit3 i) (bit3 b) := by
      subst hrx
      by_cases hz : d.z = .q
      · simp only [hz, if_true, decide_true]
        exact sib_rex true b i (regno d) (leg .q)
      · obtain ⟨h1, h2, h3⟩ := hq.resolve_left hz
        simp only [hz, bit3_small h1, bit3_small h2, bit3_small h3, if_false, decide_false]
        exact rexIs_none _
    have hr : ∀ v, rx = some v → v < 16 := by
      subst hrx
      intro v h
      split at h
      · exact sib_lt true b i (regno d) v h
      · cases h
    have hd := disp_of true ofs t hc.1 (ofs = 0) id
    generalize hmo : (if ofs = 0 then 0 else if im8 ofs then 0x40 else 0x80 : Nat) = mo at hd
    have hm3 : mo = 0 ∨ mo = 64 ∨ mo = 128 := by
      subst hmo
      split
      · simp
      · split <;> simp
    have h5' : b % 8 = 5 → mo ≠ 0 := by
      intro h hm
      subst hmo
      rw [if_neg (h5 h)] at hm
      split at hm <;> simp at hm
    have hm := mr_sib _ (regno d) b i k mo ofs _ t hb hi hi4 hm3 h5' hR.B hR.X hd
    have hby : regno d % 8 * 8 + (if ofs = 0 then 0x04 else if im8 ofs then 0x44 else 0x84)
        = mo + regno d % 8 * 8 + 4 := by
      subst hmo
      split
      · omega
      · split <;> omega
    have hp := noRep_leg d.z rx
    unfold NoRep at hp
    have hg : Pf.greg ⟨leg d.z, rx⟩ d.z (regno d % 8 + 8 * bit3 (regno d)) = d := by
      refine greg_of wd (fun h => ?_) (fun h1 h2 h3 => ?_)
      · subst hrx
        simp [(regno_hi wd h).1]
      · have := regno_lo h1 h2 h3
        rcases hq with hq | hq
        · simp [hq] at h1
        · omega
    rw [hR.R] at hm
    simp only [hpre, hby, List.append_assoc, List.cons_append, List.nil_append]
    rw [← List.append_assoc]
    by_cases hz : d.z = .b
    · rw [if_pos hz, decode1 _ _ _ _ hr (by decide) (by decide)]
      rw [hz] at hg hm hp ⊢
      simp [dec1] at hp ⊢
      simp [hp, movLd, withRM, hm, hg]
    · rw [if_neg hz, decode1 _ _ _ _ hr (by decide) (by decide)]
      have ho := osz_of d.z hz rfl hR
      simp [dec1] at hp ⊢
      simp [hp, movLd, withRM, hm, hg, ho]
  · cases h

theorem dec_ins {x : Ins} {bs : List Nat} (h : encIns x = some bs) (ok : OkIns x) (t : List Nat) :
    decode (bs ++ t) = some (norm (.i x), t) := by
  cases x with
  | mov s d =>
    injection h with h
    subst h
    exact dec_mov ok t
  | movI v d =>
    injection h with h
    subst h
    exact dec_movI ok.1 ok.2 v t
  | movx sx s d => exact dec_movx sx ok.1 ok.2.1 ok.2.2 h t
  | alu o s d =>
    injection h with h
    subst h
    exact dec_alu o ok t
  | aluI o v d => exact dec_aluI o ok v h t
  | test s d =>
    injection h with h
    subst h
    exact dec_test ok t
  | un o d =>
    injection h with h
    subst h
    exact dec_un o ok.1 ok.2 t
  | md o s =>
    injection h with h
    subst h
    exact dec_md o ok.1 ok.2 t
  | sh o d =>
    injection h with h
    subst h
    exact dec_sh o ok t
  | shI o c d => exact dec_shI o c ok h t
  | cwtl => injection h with h; subst h; rfl
  | cltd => injection h with h; subst h; rfl
  | cqto => injection h with h; subst h; rfl
  | set cc d =>
    injection h with h
    subst h
    exact dec_set cc ok.1 ok.2.1 ok.2.2.1 ok.2.2.2 t
  | lea m d =>
    obtain ⟨base, index, disp⟩ := m
    obtain ⟨wd, ok⟩ := ok
    cases base with
    | none => exact ok.elim
    | some b =>
      cases index with
      | none =>
        injection h with h
        subst h
        exact dec_lea wd ok.2 b disp ok.1.1 ok.1.2.1 ok.1.2.2.1 ok.1.2.2.2 t
      | some ik =>
        obtain ⟨i, k⟩ := ik
        obtain ⟨h1, h2, h3, h4, h5, h6⟩ := ok
        exact dec_leaX wd h6 b i k disp h1 h2 h3 h4 h5 h t
  | load m d =>
    obtain ⟨base, index, disp⟩ := m
    obtain ⟨wd, ok⟩ := ok
    cases base with
    | none =>
      cases index with
      | none =>
        injection h with h
        subst h
        exact dec_loadA wd ok.2 disp ok.1 t
      | some _ => exact ok.elim
    | some b =>
      cases index with
      | none =>
        injection h with h
        subst h
        exact dec_load wd b disp ok.1 ok.2.1 ok.2.2 t
      | some ik =>
        obtain ⟨i, k⟩ := ik
        obtain ⟨h1, h2, h3, h4, h5⟩ := ok
        exact dec_loadX wd b i k disp h1 h2 h3 h4 h5 h t
  | store s m =>
    obtain ⟨base, index, disp⟩ := m
    obtain ⟨ws, ok⟩ := ok
    cases base with
    | none =>
      cases index with
      | none =>
        injection h with h
        subst h
        exact dec_storeRA ws ok.2 disp ok.1 t
      | some _ => exact ok.elim
    | some b =>
      cases index with
      | none =>
        injection h with h
        subst h
        exact dec_store ws b disp ok.1 ok.2.1 ok.2.2 t
      | some ik => exact ok.elim
  | storeI z v m =>
    obtain ⟨base, index, disp⟩ := m
    obtain ⟨hv, ok⟩ := ok
    cases base with
    | none =>
      cases index with
      | none => exact dec_storeA z v hv disp h t
      | some _ => exact ok.elim
    | some b =>
      cases index with
      | none =>
        injection h with h
        subst h
        exact dec_storeI z v hv b disp ok.1 ok.2 t
      | some ik => exact ok.elim

theorem dec_aluM (o : Alu) (op : Nat) (ho : o = .add ∧ op = 2 ∨ o = .sub ∧ op = 0x2a) {d : Rg} (wd : Wf d) (hh : d.hi = false)
    (b : Nat) (ofs : Int) (hb : b < 16) (h12 : b ≠ 12) (h13 : b = 13 → ofs ≠ 0) (h32 : im32 ofs) (t : List Nat) :
    decode (makeRexInd d.z (regno d) b op 0x00 ofs ++ makeOffset ofs (b % 8) ++ t)
      = some (.aluM o { base := some b, disp := ofs } d, t) := by
  rw [ind_eq _ _ _ _ _ _ hb h12 h13 (.inl rfl), List.append_assoc, List.append_assoc]
  by_cases hz : d.z = .b
  · have hop : opOk op = true := by rcases ho with ⟨_, rfl⟩ | ⟨_, rfl⟩ <;> decide
    obtain ⟨p, r, l, e, hp, _, hm, g⟩ := rmM_start wd hh b ofs op hop hb h32 t
    unfold NoRep at hp
    rw [if_pos hz, e]
    rw [hz] at g
    rcases ho with ⟨rfl, rfl⟩ | ⟨rfl, rfl⟩ <;> simp [dec1, hp, aluOf, decAlu, withRM, hm, g]
  · have hop : opOk (op + 1) = true := by rcases ho with ⟨_, rfl⟩ | ⟨_, rfl⟩ <;> decide
    obtain ⟨p, r, l, e, hp, hs, hm, g⟩ := rmM_start wd hh b ofs (op + 1) hop hb h32 t
    unfold NoRep at hp
    rw [if_neg hz, e]
    rcases ho with ⟨rfl, rfl⟩ | ⟨rfl, rfl⟩ <;> simp [dec1, hp, aluOf, decAlu, withRM, hm, g, hs hz]

theorem dec_aluX (o : Alu) (op : Nat) (ho : o = .add ∧ op = 3 ∨ o = .sub ∧ op = 0x2b) {d : Rg} (wd : Wf d) (hz : d.z = .q)
    (b i k : Nat) (ofs : Int) (hb : b < 16) (hi : i < 16) (hi4 : i ≠ 4) (h5 : b % 8 ≠ 5) {bs : List Nat}
    (h : addIir op b i k ofs d = some bs) (t : List Nat) :
    decode (bs ++ t) = some (.aluM o { base := some b, index := some (i, k), disp := ofs } d, t) := by
  have hdh : d.hi = false := by
    cases h : d.hi with
    | false => rfl
    | true => exact absurd (wd.2 h).1 (by simp [hz])
  unfold addIir at h
  split at h
  · rename_i hc
    obtain ⟨rfl, hk⟩ := hc
    injection h with h
    subst h
    have hn := wd.1
    have hR := sib_rex true b i (regno d) (leg .q)
    have hm := mr_sib _ (regno d) b i k 0 0 [] t hb hi hi4 (.inl rfl) (fun h => absurd h h5) hR.B hR.X rfl
    have hos := osz_of .q (by decide) rfl hR
    have hg : Pf.greg ⟨leg .q, some (bit3 b + 2 * bit3 i + 4 * bit3 (regno d) + if true then 8 else 0)⟩ .q
        (regno d % 8 + 8 * bit3 (regno d)) = d := by
      rw [← hz]
      exact greg_of wd (fun h => by simp [hdh] at h) (fun h => by simp [hz] at h)
    rw [hR.R] at hm
    have hop : opOk op = true := by rcases ho with ⟨_, rfl⟩ | ⟨_, rfl⟩ <;> decide
    obtain ⟨o1, o2⟩ := opOk_spec hop
    have e := decode1 .q _ op ((0 + regno d % 8 * 8 + 4) :: (k * 64 + i % 8 * 8 + b % 8) :: ([] ++ t))
      (sib_lt true b i (regno d)) o1 o2
    simp only [List.cons_append, List.nil_append]
    refine Eq.trans ?_ (e.trans ?_)
    · congr 1
      rw [regno_zq hz]
      simp only [pre66, rexB, if_true, List.cons_append, List.nil_append, bit3]
      congr 1
      · have : b / 8 % 2 = b / 8 := by omega
        have : i / 8 % 2 = i / 8 := by omega
        have : d.n / 8 % 2 = d.n / 8 := by omega
        omega
      · congr 2
        · omega
        · congr 1
          omega
    · rcases ho with ⟨rfl, rfl⟩ | ⟨rfl, rfl⟩ <;>
      · simp only [dec1]
        simp [leg] at hm hos hg ⊢
        simp [withRM, aluOf, decAlu, hm, hos, hg]
  · cases h

theorem rex_q (b : Nat) : pre66 .q ++ rexB (rex0 .q 0 b) = [0x48 + bit3 b] := by
  have : bit3 b < 2 := bit3_lt b
  simp only [pre66, rex0, rexB]
  simp [bit3]
  omega

theorem dec_addI (v : Int) (b : Nat) (ofs : Int) (hb : b < 16) (h32 : im32 ofs) {bs : List Nat}
    (h : addqImi v b ofs = some bs) (t : List Nat) :
    decode (bs ++ t) = some (.aluMI .add .q v { base := some b, disp := ofs }, t) := by
  unfold addqImi at h
  split at h
  · rename_i hv
    injection h with h
    subst h
    have hr := rex_q b
    by_cases h8 : im8 v
    · obtain ⟨p, l, e, hp, ho, hm⟩ := m_start .q b ofs 0x83 (by decide) hb h32 (le 1 v ++ t)
      unfold NoRep at hp
      rw [hr] at e
      simp only [if_pos h8, memDispI_eq b h32]
      have e' : decode ([0x48 + bit3 b, 0x83] ++ memOp 0 b ofs ++ memDisp b ofs ++ le 1 v ++ t) = dec1 p 0x83 l := by
        rw [← e]
        simp only [List.append_assoc, List.cons_append, List.nil_append]
      rw [e']
      simp [dec1, hp, grp1, withRMI, hm, takeS_le, toS8 h8, aluOf, ho]
    · obtain ⟨p, l, e, hp, ho, hm⟩ := m_start .q b ofs 0x81 (by decide) hb h32 (le 4 v ++ t)
      unfold NoRep at hp
      rw [hr] at e
      simp only [if_neg h8, memDispI_eq b h32]
      have e' : decode ([0x48 + bit3 b, 0x81] ++ memOp 0 b ofs ++ memDisp b ofs ++ le 4 v ++ t) = dec1 p 0x81 l := by
        rw [← e]
        simp only [List.append_assoc, List.cons_append, List.nil_append]
      rw [e']
      simp [dec1, hp, grp1, withRMI, hm, takeS_le, toS32 hv, aluOf, ho, immBytes]
  · cases h

theorem dec_subI (v : Int) (b : Nat) (hb : b < 16) (h5 : b % 8 ≠ 5) {bs : List Nat}
    (h : subqImi v b 0 = some bs) (t : List Nat) :
    decode (bs ++ t) = some (.aluMI .sub .q v { base := some b, disp := 0 }, t) := by
  unfold subqImi at h
  split at h
  · rename_i hv
    injection h with h
    subst h
    have hR : RexIs ⟨leg .q, some (8 + bit3 b)⟩ true 0 0 (bit3 b) :=
      rexIs_some _ _ _ _ _ _ (by decide) (by decide) (bit3_lt _) (by simp; omega)
    have hl : ∀ w, some (8 + bit3 b) = some w → w < 16 := by
      intro w h
      injection h with h
      have := bit3_lt b
      omega
    have hm : ∀ u, modrm ⟨leg .q, some (8 + bit3 b)⟩ (((0x28 + b % 8) :: (if b % 8 = 4 then [0x24] else [])) ++ u)
        = some (5, .mem { base := some b, disp := 0 }, u) := by
      intro u
      have h := mr_mem ⟨leg .q, some (8 + bit3 b)⟩ 5 b 0 u hb (by decide) hR.B hR.X
      rw [hR.R] at h
      have e : memOp 5 b 0 ++ (memDisp b 0 ++ u) = ((0x28 + b % 8) :: (if b % 8 = 4 then [0x24] else [])) ++ u := by
        simp [memOp, memDisp, h5]
      rw [← e]
      exact h
    have ho := osz_of .q (by decide) rfl hR
    have e0 : memDispI b 0 = [] := by simp [memDispI, h5]
    have c0 : ((0 : Int) = 0 ∧ b % 8 ≠ 5) := ⟨rfl, h5⟩
    simp only [e0, if_pos c0, List.append_nil]
    have hx : 0x48 + bit3 b = 0x40 + (8 + bit3 b) := by omega
    by_cases h8 : im8 v
    · have e := decode1 .q _ 0x83 (((0x28 + b % 8) :: (if b % 8 = 4 then [0x24] else [])) ++ (le 1 v ++ t))
        hl (by decide) (by decide)
      simp only [if_pos h8]
      refine Eq.trans ?_ (e.trans ?_)
      · simp [pre66, rexB, hx, h5]
      · have hm := hm (le 1 v ++ t)
        generalize ((0x28 + b % 8) :: (if b % 8 = 4 then [0x24] else [])) ++ (le 1 v ++ t) = l at hm
        simp [leg] at hm ho
        simp [leg, dec1, grp1, withRMI, hm, ho, takeS_le, toS8 h8, aluOf]
    · have e := decode1 .q _ 0x81 (((0x28 + b % 8) :: (if b % 8 = 4 then [0x24] else [])) ++ (le 4 v ++ t))
        hl (by decide) (by decide)
      simp only [if_neg h8]
      refine Eq.trans ?_ (e.trans ?_)
      · simp [pre66, rexB, hx, h5]
      · have hm := hm (le 4 v ++ t)
        generalize ((0x28 + b % 8) :: (if b % 8 = 4 then [0x24] else [])) ++ (le 4 v ++ t) = l at hm
        simp [leg] at hm ho
        simp [leg, dec1, grp1, withRMI, hm, ho, takeS_le, toS32 hv, aluOf, immBytes]
  · cases h

theorem dec_unM (o : Un) (e op2 : Nat) (he : o = .inc ∧ e = 0 ∧ op2 = 0 ∨ o = .dec ∧ e = 1 ∧ op2 = 8) (z : Sz) (b : Nat)
    (ofs : Int) (hb : b < 16) (h12 : b ≠ 12) (h13 : b = 13 → ofs ≠ 0) (h32 : im32 ofs) (t : List Nat) :
    decode (makeRexInd z e b 0xfe op2 ofs ++ makeOffset ofs (b % 8) ++ t)
      = some (.unM o z { base := some b, disp := ofs }, t) := by
  have h2 : op2 = 0 ∨ op2 = e % 8 * 8 := by rcases he with ⟨_, rfl, rfl⟩ | ⟨_, rfl, rfl⟩ <;> simp
  have h8 : e < 8 := by rcases he with ⟨_, rfl, rfl⟩ | ⟨_, rfl, rfl⟩ <;> decide
  rw [ind_eq _ _ _ _ _ _ hb h12 h13 h2, List.append_assoc, List.append_assoc]
  by_cases hz : z = .b
  · obtain ⟨p, l, q, hp, _, hm⟩ := mM_start z e b ofs 0xfe (by decide) h8 hb h32 t
    unfold NoRep at hp
    rw [if_pos hz, q]
    subst hz
    rcases he with ⟨rfl, rfl, rfl⟩ | ⟨rfl, rfl, rfl⟩ <;> simp [dec1, hp, grp45, withRM, hm]
  · obtain ⟨p, l, q, hp, hs, hm⟩ := mM_start z e b ofs 0xff (by decide) h8 hb h32 t
    unfold NoRep at hp
    rw [if_neg hz, q]
    rcases he with ⟨rfl, rfl, rfl⟩ | ⟨rfl, rfl, rfl⟩ <;> simp [dec1, hp, grp45, withRM, hm, hs hz]

theorem dec_push {n : Nat} (hn : n < 16) (t : List Nat) :
    decode (makeRex0 .l 0 n (0x50 + n % 8) ++ t) = some (.push n, t) := by
  have : n = 0 ∨ n = 1 ∨ n = 2 ∨ n = 3 ∨ n = 4 ∨ n = 5 ∨ n = 6 ∨ n = 7 ∨ n = 8 ∨ n = 9 ∨ n = 10 ∨ n = 11 ∨ n = 12 ∨ n = 13
    ∨ n = 14 ∨ n = 15 := by omega
  rcases this with rfl | rfl | rfl | rfl | rfl | rfl | rfl | rfl | rfl | rfl | rfl | rfl | rfl | rfl | rfl | rfl <;> rfl

theorem dec_pop {n : Nat} (hn : n < 16) (t : List Nat) :
    decode (makeRex0 .l 0 n (0x58 + n % 8) ++ t) = some (.pop n, t) := by
  have : n = 0 ∨ n = 1 ∨ n = 2 ∨ n = 3 ∨ n = 4 ∨ n = 5 ∨ n = 6 ∨ n = 7 ∨ n = 8 ∨ n = 9 ∨ n = 10 ∨ n = 11 ∨ n = 12 ∨ n = 13
    ∨ n = 14 ∨ n = 15 := by omega
  rcases this with rfl | rfl | rfl | rfl | rfl | rfl | rfl | rfl | rfl | rfl | rfl | rfl | rfl | rfl | rfl | rfl <;> rfl

theorem dec_jmpR {n : Nat} (hn : n < 16) (t : List Nat) :
    decode ((if n / 8 ≠ 0 then [0x41] else []) ++ [0xff, 0xe0 + n % 8] ++ t) = some (.jmpR n, t) := by
  have : n = 0 ∨ n = 1 ∨ n = 2 ∨ n = 3 ∨ n = 4 ∨ n = 5 ∨ n = 6 ∨ n = 7 ∨ n = 8 ∨ n = 9 ∨ n = 10 ∨ n = 11 ∨ n = 12 ∨ n = 13
    ∨ n = 14 ∨ n = 15 := by omega
  rcases this with rfl | rfl | rfl | rfl | rfl | rfl | rfl | rfl | rfl | rfl | rfl | rfl | rfl | rfl | rfl | rfl <;> rfl

theorem dec_callR {n : Nat} (hn : n < 16) (t : List Nat) :
    decode ((if n / 8 ≠ 0 then [0x41] else []) ++ [0xff, 0xd0 + n % 8] ++ t) = some (.callR n, t) := by
  have : n = 0 ∨ n = 1 ∨ n = 2 ∨ n = 3 ∨ n = 4 ∨ n = 5 ∨ n = 6 ∨ n = 7 ∨ n = 8 ∨ n = 9 ∨ n = 10 ∨ n = 11 ∨ n = 12 ∨ n = 13
    ∨ n = 14 ∨ n = 15 := by omega
  rcases this with rfl | rfl | rfl | rfl | rfl | rfl | rfl | rfl | rfl | rfl | rfl | rfl | rfl | rfl | rfl | rfl <;> rfl

theorem dec_pushI (v : Int) {bs : List Nat}
    (h : (if im8 v then some (0x6a :: le 1 v) else if im32 v then some (0x68 :: le 4 v) else none) = some bs)
    (t : List Nat) : decode (bs ++ t) = some (.pushI v, t) := by
  split at h
  · rename_i h8
    injection h with h
    subst h
    have e := decode1 .l none 0x6a (le 1 v ++ t) (by simp) (by decide) (by decide)
    refine e.trans ?_
    simp [dec1, leg, withI, takeS_le, toS8 h8]
  · split at h
    · rename_i h32
      injection h with h
      subst h
      have e := decode1 .l none 0x68 (le 4 v ++ t) (by simp) (by decide) (by decide)
      refine e.trans ?_
      simp [dec1, leg, withI, takeS_le, toS32 h32]
    · cases h

theorem dec_call {v : Int} (h32 : im32 v) (t : List Nat) : decode (0xe8 :: (le 4 v ++ t)) = some (.call v, t) := by
  have e := decode1 .l none 0xe8 (le 4 v ++ t) (by simp) (by decide) (by decide)
  refine e.trans ?_
  simp [dec1, leg, withI, takeS_le, toS32 h32]

theorem dec_int {v : Nat} (h : v < 256) (t : List Nat) : decode (0xcd :: (le 1 v ++ t)) = some (.int v, t) := by
  have e := decode1 .l none 0xcd (le 1 v ++ t) (by simp) (by decide) (by decide)
  refine e.trans ?_
  have := imm8_nat v h
  simp at this
  simp [dec1, leg, withI, takeS_le, this]

/-- A jump to an address in memory. -/
theorem dec_jmpM (b : Nat) (ofs : Int) (hb : b < 16) (h4 : b % 8 ≠ 4) (h5 : b % 8 = 5 → ofs ≠ 0) {bs : List Nat}
    (h : jmpDei b ofs = some bs) (t : List Nat) :
    decode (bs ++ t) = some (.jmpM { base := some b, disp := ofs }, t) := by
  unfold jmpDei at h
  split at h
  · rename_i h32
    injection h with h
    subst h
    generalize hrx : (if b / 8 ≠ 0 then some 1 else none : Option Nat) = rx
    have hpre : (if b / 8 ≠ 0 then [0x41] else [] : List Nat) = rexB rx := by
      subst hrx
      by_cases h : b / 8 ≠ 0 <;> simp [h, rexB]
    have hR : RexIs ⟨leg .l, rx⟩ false 0 0 (bit3 b) := by
      subst hrx
      by_cases h : b / 8 ≠ 0
      · rw [if_pos h]
        have : bit3 b = 1 := by unfold bit3; omega
        rw [this]
        exact rexIs_some _ _ _ _ _ _ (by decide) (by decide) (by decide) rfl
      · rw [if_neg h, bit3_small (by omega)]
        exact rexIs_none _
    have hr : ∀ w, rx = some w → w < 16 := by
      subst hrx
      intro w h
      split at h
      · injection h with h; omega
      · cases h
    have hm := mr_mem ⟨leg .l, rx⟩ 4 b ofs t hb h32 hR.B hR.X
    have c : ofs = 0 ∧ b % 8 ≠ 5 ↔ ofs = 0 := ⟨fun h => h.1, fun h => ⟨h, fun h' => h5 h' h⟩⟩
    have e1 : memOp 4 b ofs = [(if ofs = 0 then 0x20 else if im8 ofs then 0x60 else 0xa0) + b % 8] := by
      unfold memOp
      simp only [c, h4, if_false, List.append_nil]
      congr 1
      split
      · omega
      · split <;> omega
    have e2 : memDisp b ofs = (if ofs = 0 then [] else if im8 ofs then le 1 ofs else le 4 ofs) := by
      unfold memDisp
      simp only [c]
    rw [e1, e2, hR.R] at hm
    simp only [hpre, List.append_assoc, List.cons_append, List.nil_append] at hm ⊢
    refine (decode1 .l rx 0xff _ hr (by decide) (by decide)).trans ?_
    have hos := osz_of .l (by decide) rfl hR
    generalize ((if ofs = 0 then 0x20 else if im8 ofs then 0x60 else 0xa0) + b % 8) = byte at hm
    simp [leg] at hm hos
    simp [leg, dec1, grp45, withRM, hm, hos]
  · cases h

theorem dec_jmpX (b i k : Nat) (ofs : Int) (hb : b < 16) (hi : i < 16) (hi4 : i ≠ 4) {bs : List Nat}
    (h : jmpDeii b i k ofs = some bs) (t : List Nat) :
    decode (bs ++ t) = some (.jmpM { base := some b, index := some (i, k), disp := ofs }, t) := by
  unfold jmpDeii at h
  split at h
  · rename_i hc
    injection h with h
    subst h
    generalize hrx : (if b / 8 + i / 8 * 2 ≠ 0 then some (b / 8 + i / 8 * 2) else none : Option Nat) = rx
    have hpre : (if b / 8 + i / 8 * 2 ≠ 0 then [0x40 + (b / 8 + i / 8 * 2)] else [] : List Nat) = rexB rx := by
      subst hrx
      by_cases h : b / 8 + i / 8 * 2 ≠ 0
      · simp only [if_pos h, rexB]
      · simp only [if_neg h, rexB]
    have hR : RexIs ⟨leg .l, rx⟩ false 0 (bit3 i) (bit3 b) := by
      have eb : bit3 b = b / 8 := by unfold bit3; omega
      have ei : bit3 i = i / 8 := by unfold bit3; omega
      subst hrx
      by_cases h : b / 8 + i / 8 * 2 ≠ 0
      · rw [if_pos h]
        exact rexIs_some _ _ _ _ _ _ (by decide) (bit3_lt _) (bit3_lt _) (by rw [eb, ei]; simp; omega)
      · rw [if_neg h, bit3_small (by omega), bit3_small (by omega)]
        exact rexIs_none _
    have hr : ∀ w, rx = some w → w < 16 := by
      subst hrx
      intro w h
      split at h
      · injection h with h; omega
      · cases h
    have hd := disp_of true ofs t hc.1 (ofs = 0 ∧ b % 8 ≠ 5) (fun h => h.1)
    generalize hmo : (if ofs = 0 ∧ b % 8 ≠ 5 then 0 else if im8 ofs then 0x40 else 0x80 : Nat) = mo at hd
    have hm3 : mo = 0 ∨ mo = 64 ∨ mo = 128 := by
      subst hmo
      split
      · simp
      · split <;> simp
    have h5 : b % 8 = 5 → mo ≠ 0 := by
      intro h5 hm
      subst hmo
      rw [if_neg (fun h => h.2 h5)] at hm
      split at hm <;> simp at hm
    have hm := mr_sib _ 4 b i k mo ofs _ t hb hi hi4 hm3 h5 hR.B hR.X hd
    have hby : (if ofs = 0 ∧ b % 8 ≠ 5 then 0x20 else if im8 ofs then 0x60 else 0xa0) + 4 = mo + 4 % 8 * 8 + 4 := by
      subst hmo
      split
      · omega
      · split <;> omega
    rw [hR.R] at hm
    simp only [hpre, hby, List.append_assoc, List.cons_append, List.nil_append] at hm ⊢
    refine (decode1 .l rx 0xff _ hr (by decide) (by decide)).trans ?_
    have hos := osz_of .l (by decide) rfl hR
    simp [leg] at hm hos
    simp [leg, dec1, grp45, withRM, hm, hos]
  · cases h

theorem dec_rip (op : Nat) (hop : op = 0x8d ∨ op = 0x8b) {d : Rg} (wd : Wf d) (hz : d.z = .q) {rel : Int} (h32 : im32 rel)
    (t : List Nat) :
    decode (ripOp op rel d ++ t) = some (if op = 0x8d then .leaRip rel d else .loadRip rel d, t) := by
  have hn := wd.1
  have hdh : d.hi = false := by
    cases h : d.hi with
    | false => rfl
    | true => exact absurd (wd.2 h).1 (by simp [hz])
  have hR : RexIs ⟨leg .q, some (8 + 4 * bit3 (regno d))⟩ true (bit3 (regno d)) 0 0 :=
    rexIs_some _ _ _ _ _ _ (bit3_lt _) (by decide) (by decide) (by simp; omega)
  have hl : ∀ w, some (8 + 4 * bit3 (regno d)) = some w → w < 16 := by
    intro w h
    injection h with h
    have := bit3_lt (regno d)
    omega
  have hx : (if regno d / 8 = 0 then 0x48 else 0x4c) = 0x40 + (8 + 4 * bit3 (regno d)) := by
    rw [regno_zq hz]
    unfold bit3
    split <;> omega
  have hos := osz_of .q (by decide) rfl hR
  have hg : Pf.greg ⟨leg .q, some (8 + 4 * bit3 (regno d))⟩ .q (regno d % 8 + 8 * bit3 (regno d)) = d := by
    rw [← hz]
    exact greg_of wd (fun h => by simp [hdh] at h) (fun h => by simp [hz] at h)
  have hm : modrm ⟨leg .q, some (8 + 4 * bit3 (regno d))⟩ ((0x05 + regno d % 8 * 8) :: (le 4 rel ++ t))
      = some (regno d % 8 + 8 * bit3 (regno d), .rip rel, t) := by
    have e1 : (0x05 + regno d % 8 * 8) / 64 = 0 := by omega
    have e2 : (0x05 + regno d % 8 * 8) / 8 % 8 = regno d % 8 := by omega
    have e3 : (0x05 + regno d % 8 * 8) % 8 = 5 := by omega
    simp [modrm, e1, e2, e3, takeS_le, toS32 h32, hR.R]
  have ho : opOk op = true := by rcases hop with rfl | rfl <;> decide
  obtain ⟨o1, o2⟩ := opOk_spec ho
  have e := decode1 .q _ op ((0x05 + regno d % 8 * 8) :: (le 4 rel ++ t)) hl o1 o2
  unfold ripOp
  rw [hx]
  refine Eq.trans ?_ (e.trans ?_)
  · simp [pre66, rexB]
  · generalize 0x05 + regno d % 8 * 8 = byte at hm
    simp [leg] at hm hos hg
    rcases hop with rfl | rfl <;> simp [leg, dec1, withRM, movLd, hm, hos, hg]

/-! ### SSE -/

theorem rexX_is (l : Nat) (w : Bool) (s d : Nat) (hs : s < 16) (hd : d < 16) :
    RexIs ⟨l, rexX w s d⟩ w (bit3 d) 0 (bit3 s) := by
  unfold rexX
  by_cases h : s ≥ 8 ∨ d ≥ 8 ∨ w = true
  · rw [if_pos h]
    exact rexIs_some _ _ _ _ _ _ (bit3_lt _) (by decide) (bit3_lt _) (by omega)
  · rw [if_neg h]
    have hw : w = false := by
      cases w with
      | false => rfl
      | true => exact absurd (.inr (.inr rfl)) h
    rw [hw, bit3_small (n := d) (by omega), bit3_small (n := s) (by omega)]
    exact rexIs_none _

theorem rexX_lt (w : Bool) (s d v : Nat) (h : rexX w s d = some v) : v < 16 := by
  unfold rexX at h
  have := bit3_lt s
  have := bit3_lt d
  split at h
  · injection h with h
    subst h
    split <;> omega
  · cases h

theorem scRR_start (single : Bool) (op : Nat) (w : Bool) {s d : Nat} (hs : s < 16) (hd : d < 16) (t : List Nat) :
    ∃ p l, decode (scRR single op w s d ++ t) = dec0f p op l ∧ p.leg = scPre single ∧ p.W = w
      ∧ (w = true → p.rex ≠ none) ∧ modrm p l = some (d, .reg s, t) := by
  have hR := rexX_is (scPre single) w s d hs hd
  refine ⟨⟨scPre single, rexX w s d⟩, (0xc0 + d % 8 * 8 + s % 8) :: t, ?_, rfl, hR.W, ?_, ?_⟩
  · unfold scRR
    simp only [List.append_assoc, List.cons_append, List.nil_append]
    exact decodeF single _ op _ (fun v h => rexX_lt _ _ _ _ h)
  · intro h
    simp [rexX, h]
  · rw [mr_reg _ (d % 8) (s % 8) t (Nat.mod_lt _ (by decide)) (Nat.mod_lt _ (by decide)), hR.R, hR.B, bit3_16 hs, bit3_16 hd]

theorem pkRR_start (single : Bool) (op : Nat) {s d : Nat} (hs : s < 16) (hd : d < 16) (t : List Nat) :
    ∃ p l, decode (pkRR single op s d ++ t) = dec0f p op l ∧ p.leg = (if single then 0 else 0x66)
      ∧ modrm p l = some (d, .reg s, t) := by
  have hR := rexX_is (if single then 0 else 0x66) false s d hs hd
  refine ⟨⟨if single then 0 else 0x66, rexX false s d⟩, (0xc0 + d % 8 * 8 + s % 8) :: t, ?_, rfl, ?_⟩
  · unfold pkRR
    simp only [List.append_assoc, List.cons_append, List.nil_append]
    cases single with
    | true =>
      exact decode2 .l _ op ((0xc0 + d % 8 * 8 + s % 8) :: t) (fun v h => rexX_lt _ _ _ _ h)
    | false =>
      exact decode2 .w _ op ((0xc0 + d % 8 * 8 + s % 8) :: t) (fun v h => rexX_lt _ _ _ _ h)
  · rw [mr_reg _ (d % 8) (s % 8) t (Nat.mod_lt _ (by decide)) (Nat.mod_lt _ (by decide)), hR.R, hR.B, bit3_16 hs, bit3_16 hd]

theorem dec_sse (o : Sse) (single : Bool) {s d : Nat} (hs : s < 16) (hd : d < 16) {bs : List Nat}
    (h : sseRR o single s d = some bs) (t : List Nat) : decode (bs ++ t) = some (.sse o single s d, t) := by
  cases o with
  | mov =>
    obtain ⟨p, l, e, h1, -, -, hm⟩ := scRR_start single 0x10 false hs hd t
    injection h with h
    rw [← h, e]
    cases single <;> simp [scPre] at h1 <;> simp [dec0f, scalar, h1, withRM, hm]
  | add =>
    obtain ⟨p, l, e, h1, -, -, hm⟩ := scRR_start single 0x58 false hs hd t
    injection h with h
    rw [← h, e]
    cases single <;> simp [scPre] at h1 <;> simp [dec0f, scalar, h1, withRM, X64.sseRR, hm]
  | mul =>
    obtain ⟨p, l, e, h1, -, -, hm⟩ := scRR_start single 0x59 false hs hd t
    injection h with h
    rw [← h, e]
    cases single <;> simp [scPre] at h1 <;> simp [dec0f, scalar, h1, withRM, X64.sseRR, hm]
  | sub =>
    obtain ⟨p, l, e, h1, -, -, hm⟩ := scRR_start single 0x5c false hs hd t
    injection h with h
    rw [← h, e]
    cases single <;> simp [scPre] at h1 <;> simp [dec0f, scalar, h1, withRM, X64.sseRR, hm]
  | div =>
    obtain ⟨p, l, e, h1, -, -, hm⟩ := scRR_start single 0x5e false hs hd t
    injection h with h
    rw [← h, e]
    cases single <;> simp [scPre] at h1 <;> simp [dec0f, scalar, h1, withRM, X64.sseRR, hm]
  | cvt =>
    obtain ⟨p, l, e, h1, -, -, hm⟩ := scRR_start single 0x5a false hs hd t
    injection h with h
    rw [← h, e]
    cases single <;> simp [scPre] at h1 <;> simp [dec0f, scalar, h1, withRM, X64.sseRR, hm]
  | sqrt =>
    cases single with
    | true => cases h
    | false =>
      obtain ⟨p, l, e, h1, -, -, hm⟩ := scRR_start false 0x51 false hs hd t
      injection h with h
      rw [← h, e]
      simp [scPre] at h1
      simp [dec0f, scalar, h1, withRM, X64.sseRR, hm]
  | xor =>
    obtain ⟨p, l, e, h1, hm⟩ := pkRR_start single 0x57 hs hd t
    injection h with h
    rw [← h, e]
    cases single <;> simp at h1 <;> simp [dec0f, packed, h1, withRM, X64.sseRR, hm]
  | ucomi =>
    obtain ⟨p, l, e, h1, hm⟩ := pkRR_start single 0x2e hs hd t
    injection h with h
    rw [← h, e]
    cases single <;> simp at h1 <;> simp [dec0f, packed, h1, withRM, X64.sseRR, hm]
  | comi =>
    obtain ⟨p, l, e, h1, hm⟩ := pkRR_start single 0x2f hs hd t
    injection h with h
    rw [← h, e]
    cases single <;> simp at h1 <;> simp [dec0f, packed, h1, withRM, X64.sseRR, hm]

theorem sseMem_start (single : Bool) (op : Nat) {x b : Nat} (hx : x < 16) (hb : b < 16) {ofs : Int} {bs : List Nat}
    (h : sseMem single op x b ofs = some bs) (t : List Nat) :
    ∃ p l, decode (bs ++ t) = dec0f p op l ∧ p.leg = scPre single
      ∧ modrm p l = some (x, .mem { base := some b, disp := ofs }, t) := by
  unfold sseMem at h
  split at h
  · rename_i h32
    injection h with h
    subst h
    have hR := rexX_is (scPre single) false b x hb hx
    refine ⟨⟨scPre single, rexX false b x⟩, memOp x b ofs ++ (memDisp b ofs ++ t), ?_, rfl, ?_⟩
    · simp only [List.append_assoc, List.cons_append, List.nil_append]
      exact decodeF single _ op _ (fun v h => rexX_lt _ _ _ _ h)
    · rw [mr_mem _ x b ofs t hb h32 hR.B hR.X, hR.R, bit3_16 hx]
  · cases h

theorem dec_sseLoad (single : Bool) {x b : Nat} (hx : x < 16) (hb : b < 16) {ofs : Int} {bs : List Nat}
    (h : sseMem single 0x10 x b ofs = some bs) (t : List Nat) :
    decode (bs ++ t) = some (.sseLoad single { base := some b, disp := ofs } x, t) := by
  obtain ⟨p, l, e, h1, hm⟩ := sseMem_start single 0x10 hx hb h t
  rw [e]
  cases single <;> simp [scPre] at h1 <;> simp [dec0f, scalar, h1, withRM, hm]

theorem dec_sseStore (single : Bool) {x b : Nat} (hx : x < 16) (hb : b < 16) {ofs : Int} {bs : List Nat}
    (h : sseMem single 0x11 x b ofs = some bs) (t : List Nat) :
    decode (bs ++ t) = some (.sseStore single x { base := some b, disp := ofs }, t) := by
  obtain ⟨p, l, e, h1, hm⟩ := sseMem_start single 0x11 hx hb h t
  rw [e]
  cases single <;> simp [scPre] at h1 <;> simp [dec0f, scalar, h1, withRM, hm]

theorem greg_lq {p : Pf} {g : Rg} (wg : Wf g) (hz : g.z = .l ∨ g.z = .q) :
    p.greg (if decide (g.z = .q) = true then .q else .l) (regno g) = g := by
  obtain ⟨z, n, hi⟩ := g
  cases hi with
  | true => simp [Wf] at wg; simp [wg] at hz
  | false => rcases hz with h | h <;> simp at h <;> subst h <;> simp [Pf.greg, regno]

theorem dec_cvtI2F (single : Bool) {g : Rg} (wg : Wf g) (hz : g.z = .l ∨ g.z = .q) {d : Nat} (hd : d < 16) (t : List Nat) :
    decode (scRR single 0x2a (decide (g.z = .q)) (regno g) d ++ t) = some (.cvtI2F single g d, t) := by
  have hn : regno g < 16 := by
    rw [regno_wide (by rcases hz with h | h <;> simp [h])]
    exact wg.1
  obtain ⟨p, l, e, h1, hw, -, hm⟩ := scRR_start single 0x2a (decide (g.z = .q)) hn hd t
  have hg := greg_lq (p := p) wg hz
  rw [e]
  rw [← hw] at hg
  cases single <;> simp [scPre] at h1 <;> simp [dec0f, scalar, h1, withRM, hm, hg]

theorem dec_cvtF2I (single : Bool) {g : Rg} (wg : Wf g) (hz : g.z = .l ∨ g.z = .q) {s : Nat} (hs : s < 16) (t : List Nat) :
    decode (scRR single 0x2c (decide (g.z = .q)) s (regno g) ++ t) = some (.cvtF2I single s g, t) := by
  have hn : regno g < 16 := by
    rw [regno_wide (by rcases hz with h | h <;> simp [h])]
    exact wg.1
  obtain ⟨p, l, e, h1, hw, -, hm⟩ := scRR_start single 0x2c (decide (g.z = .q)) hs hn t
  have hg := greg_lq (p := p) wg hz
  rw [e]
  rw [← hw] at hg
  cases single <;> simp [scPre] at h1 <;> simp [dec0f, scalar, h1, withRM, hm, hg]

/-! ## Theorems -/

/-- An instruction that the encoder accepts and whose operands are among the supported ones is decoded by the processor
as that instruction, whatever bytes follow. -/
theorem enc_decode_partial {a : AI} {bs : List Nat} (h : enc a = some bs) (ok : Ok a) (t : List Nat) :
    decode (bs ++ t) = some (norm a, t) := by
  cases a with
  | i x => exact dec_ins h ok t
  | aluM o m d =>
    obtain ⟨base, index, disp⟩ := m
    obtain ⟨wd, hh, ok⟩ := ok
    cases base with
    | none => exact ok.elim
    | some b =>
      cases index with
      | none =>
        cases o with
        | add => injection h with h; subst h
                 exact dec_aluM .add 2 (.inl ⟨rfl, rfl⟩) wd hh b disp ok.1 ok.2.1 ok.2.2.1 ok.2.2.2 t
        | sub => injection h with h; subst h
                 exact dec_aluM .sub 0x2a (.inr ⟨rfl, rfl⟩) wd hh b disp ok.1 ok.2.1 ok.2.2.1 ok.2.2.2 t
        | _ => cases h
      | some ik =>
        obtain ⟨i, k⟩ := ik
        cases o with
        | add => exact dec_aluX .add 3 (.inl ⟨rfl, rfl⟩) wd ok.2.2.2.2 b i k disp ok.1 ok.2.1 ok.2.2.1 ok.2.2.2.1 h t
        | sub => exact dec_aluX .sub 0x2b (.inr ⟨rfl, rfl⟩) wd ok.2.2.2.2 b i k disp ok.1 ok.2.1 ok.2.2.1 ok.2.2.2.1 h t
        | _ => cases h
  | aluMI o z v m =>
    obtain ⟨base, index, disp⟩ := m
    cases base with
    | none => exact ok.elim
    | some b =>
      cases index with
      | some _ => exact ok.elim
      | none =>
        obtain ⟨hb, h32, hs⟩ := ok
        cases o <;> cases z <;> try cases h
        · exact dec_addI v b disp hb h32 h t
        · obtain ⟨h0, h5⟩ := hs rfl
          simp only at h0
          subst h0
          exact dec_subI v b hb h5 h t
  | unM o z m =>
    obtain ⟨base, index, disp⟩ := m
    cases base with
    | none => exact ok.elim
    | some b =>
      cases index with
      | some _ => exact ok.elim
      | none =>
        cases o with
        | inc => injection h with h; subst h
                 exact dec_unM .inc 0 0 (.inl ⟨rfl, rfl, rfl⟩) z b disp ok.1 ok.2.1 ok.2.2.1 ok.2.2.2 t
        | dec => injection h with h; subst h
                 exact dec_unM .dec 1 8 (.inr ⟨rfl, rfl, rfl⟩) z b disp ok.1 ok.2.1 ok.2.2.1 ok.2.2.2 t
        | _ => cases h
  | push n => injection h with h; subst h; exact dec_push ok t
  | pop n => injection h with h; subst h; exact dec_pop ok t
  | pushI v => exact dec_pushI v h t
  | jmp _ => cases h
  | jcc _ _ => cases h
  | call rel => injection h with h; subst h; exact dec_call ok t
  | jmpR n => injection h with h; subst h; exact dec_jmpR ok t
  | callR n => injection h with h; subst h; exact dec_callR ok t
  | jmpM m =>
    obtain ⟨base, index, disp⟩ := m
    cases base with
    | none => exact ok.elim
    | some b =>
      cases index with
      | none => exact dec_jmpM b disp ok.1 ok.2.1 ok.2.2 h t
      | some ik => exact dec_jmpX b ik.1 ik.2 disp ok.1 ok.2.1 ok.2.2 h t
  | ret => injection h with h; subst h; rfl
  | int v => injection h with h; subst h; exact dec_int ok t
  | syscall => injection h with h; subst h; rfl
  | endbr => injection h with h; subst h; rfl
  | leaRip rel d => injection h with h; subst h; exact dec_rip 0x8d (.inl rfl) ok.2.1 ok.2.2 ok.1 t
  | loadRip rel d => injection h with h; subst h; exact dec_rip 0x8b (.inr rfl) ok.2.1 ok.2.2 ok.1 t
  | sse o s a d => exact dec_sse o s ok.1 ok.2 h t
  | sseLoad s m d =>
    obtain ⟨base, index, disp⟩ := m
    cases base with
    | none => cases h
    | some b =>
      cases index with
      | some _ => cases h
      | none => exact dec_sseLoad s ok.1 ok.2 h t
  | sseStore s d m =>
    obtain ⟨base, index, disp⟩ := m
    cases base with
    | none => cases h
    | some b =>
      cases index with
      | some _ => cases h
      | none => exact dec_sseStore s ok.1 ok.2 h t
  | cvtI2F s g d => injection h with h; subst h; exact dec_cvtI2F s ok.1 ok.2.1 ok.2.2 t
  | cvtF2I s d g => injection h with h; subst h; exact dec_cvtF2I s ok.1 ok.2.1 ok.2.2 t

theorem imm_norm (z : Sz) (v : Int) : imm z (toS z.bits v) = imm z v := by
  cases z <;> (simp only [imm, toU, toS, Sz.bits]; omega)

/-- Reducing the immediate operand does not change what the instruction does. -/
theorem norm_exec (x : Ins) : ∃ y, norm (.i x) = .i y ∧ ∀ s, exec y s = exec x s := by
  cases x with
  | movI v d => exact ⟨_, rfl, fun s => by simp [exec, imm_norm]⟩
  | aluI o v d => exact ⟨_, rfl, fun s => by simp [exec, imm_norm]⟩
  | storeI z v m => exact ⟨_, rfl, fun s => by simp [exec, imm_norm]⟩
  | _ => exact ⟨_, rfl, fun s => rfl⟩

/-- Jumps with a displacement that fits. -/
theorem jmp_decode (long : Bool) (rel : Int) (h : if long then im32 rel else im8 rel) (t : List Nat) :
    decode (encJmp long rel ++ t) = some (.jmp rel, t) := by
  unfold encJmp
  cases long with
  | true =>
    have e := decode1 .l none 0xe9 (le 4 rel ++ t) (by simp) (by decide) (by decide)
    refine e.trans ?_
    simp at h
    simp [dec1, leg, withI, takeS_le, toS32 h]
  | false =>
    have e := decode1 .l none 0xeb (le 1 rel ++ t) (by simp) (by decide) (by decide)
    refine e.trans ?_
    simp at h
    simp [dec1, leg, withI, takeS_le, toS8 h]

theorem jcc_decode (long : Bool) (cc : Nat) (hc : cc < 16) (rel : Int) (h : if long then im32 rel else im8 rel) (t : List Nat) :
    decode (encJcc long cc rel ++ t) = some (.jcc cc rel, t) := by
  unfold encJcc
  cases long with
  | true =>
    have e := decode2 .l none (0x80 + cc) (le 4 rel ++ t) (by simp)
    refine e.trans ?_
    simp at h
    have h1 : 0x80 + cc < 0x90 := by omega
    have h2 : (0x80 + cc) % 16 = cc := by omega
    simp [dec0f, leg, withI, takeS_le, toS32 h, h1, h2]
  | false =>
    have e := decode1 .l none (0x70 + cc) (le 1 rel ++ t) (by simp) (by omega) (by omega)
    refine e.trans ?_
    simp at h
    have h1 : ¬ 0x70 + cc < 0x40 := by omega
    have h2 : ¬ 0x70 + cc < 0x58 := by omega
    have h3 : ¬ 0x70 + cc < 0x60 := by omega
    have h4 : 0x70 + cc < 0x80 := by omega
    have h5 : (0x70 + cc) % 16 = cc := by omega
    simp [dec1, leg, withI, takeS_le, toS8 h, h1, h2, h3, h4, h5]

/-- All instructions of a byte string; `n` bounds their number. -/
def decodeAll : Nat → List Nat → Option (List AI)
  | _, [] => some []
  | 0, _ => none
  | n + 1, bs => (decode bs).bind fun (a, t) => (decodeAll n t).map (a :: ·)

/-- The bytes of a section. -/
def encAll : List AI → Option (List Nat)
  | [] => some []
  | a :: as => (enc a).bind fun x => (encAll as).map (x ++ ·)

theorem enc_ne_nil {a : AI} {bs : List Nat} (h : enc a = some bs) (ok : Ok a) : bs ≠ [] := by
  intro h0
  have := enc_decode_partial h ok []
  rw [h0] at this
  simp [decode, takeLeg, takeRex] at this

/-- A program of supported instructions is read back by the processor instruction by instruction. -/
theorem encAll_decode_partial : ∀ {as : List AI} {bs : List Nat}, encAll as = some bs → (∀ a ∈ as, Ok a) →
    ∀ n, as.length ≤ n → decodeAll n bs = some (as.map norm)
  | [], bs, h, _, n, _ => by
    injection h with h
    subst h
    cases n <;> rfl
  | a :: as, bs, h, ok, n, hn => by
    unfold encAll at h
    cases ha : enc a with
    | none => simp [ha] at h
    | some x =>
      cases hr : encAll as with
      | none => simp [ha, hr] at h
      | some y =>
        simp [ha, hr] at h
        subst h
        have oka := ok a (by simp)
        have hd := enc_decode_partial ha oka y
        have hne := enc_ne_nil ha oka
        cases n with
        | zero => simp at hn
        | succ n =>
          have ih := encAll_decode_partial hr (fun a h => ok a (by simp [h])) n (by simp at hn; omega)
          cases hx : x ++ y with
          | nil => simp at hx; exact absurd hx.1 hne
          | cons c cs =>
            rw [hx] at hd
            simp [decodeAll, hd, ih]

/-- What the processor does with a byte string of instructions of the ISA model. -/
def run : Nat → List Nat → St → Option St
  | _, [], s => some s
  | 0, _, _ => none
  | n + 1, bs, s => match decode bs with
    | some (.i x, t) => (exec x s).bind (run n t)
    | _ => none

/-- The machine code of straight-line code of supported instructions does what the instructions say. -/
theorem run_enc_partial : ∀ {is : List Ins} {bs : List Nat}, encAll (is.map .i) = some bs → (∀ x ∈ is, OkIns x) →
    ∀ n, is.length ≤ n → ∀ s, run n bs s = execs is s
  | [], bs, h, _, n, _, s => by
    injection h with h
    subst h
    cases n <;> rfl
  | x :: is, bs, h, ok, n, hn, s => by
    simp only [List.map_cons] at h
    unfold encAll at h
    cases ha : enc (.i x) with
    | none => simp [ha] at h
    | some c =>
      cases hr : encAll (is.map .i) with
      | none => simp [ha, hr] at h
      | some y =>
        simp [ha, hr] at h
        subst h
        have oka : Ok (.i x) := ok x (by simp)
        have hd := enc_decode_partial ha oka y
        have hne := enc_ne_nil ha oka
        obtain ⟨x', he, hx'⟩ := norm_exec x
        rw [he] at hd
        cases n with
        | zero => simp at hn
        | succ n =>
          have ih := run_enc_partial hr (fun a h => ok a (by simp [h])) n (by simp at hn; omega)
          cases hx : c ++ y with
          | nil => simp at hx; exact absurd hx.1 hne
          | cons b cs =>
            rw [hx] at hd
            simp only [run, hd, execs, hx']
            congr 1
            funext s
            exact ih s

/-! ## The bytes -/

/-- At most `n` values, each a byte. -/
def Fits (n : Nat) (bs : List Nat) : Prop := bs.length ≤ n ∧ ∀ b ∈ bs, b < 256

theorem Fits.app {m n : Nat} {x y : List Nat} (hx : Fits m x) (hy : Fits n y) : Fits (m + n) (x ++ y) := by
  refine ⟨?_, fun b hb => ?_⟩
  · rw [List.length_append]
    exact Nat.add_le_add hx.1 hy.1
  · rcases List.mem_append.1 hb with h | h
    · exact hx.2 b h
    · exact hy.2 b h

theorem Fits.mono {m n : Nat} {x : List Nat} (hx : Fits m x) (h : m ≤ n) : Fits n x := ⟨Nat.le_trans hx.1 h, hx.2⟩

theorem fits_nil (n : Nat) : Fits n [] := ⟨Nat.zero_le _, fun _ h => nomatch h⟩

theorem fits_cons {n b : Nat} {l : List Nat} (hb : b < 256) (h : Fits n l) : Fits (n + 1) (b :: l) := by
  refine ⟨?_, fun c hc => ?_⟩
  · simp only [List.length_cons]
    exact Nat.succ_le_succ h.1
  · rcases List.mem_cons.1 hc with rfl | hc
    · exact hb
    · exact h.2 c hc

theorem fits_le : ∀ (k : Nat) (v : Int), Fits k (le k v)
  | 0, _ => fits_nil 0
  | k + 1, v => fits_cons (by omega) (fits_le k (v / 256))

theorem fits_ite {n : Nat} {c : Prop} [Decidable c] {x y : List Nat} (hx : Fits n x) (hy : Fits n y) :
    Fits n (if c then x else y) := by split <;> assumption

theorem fits_pre66 (z : Sz) : Fits 1 (pre66 z) := by
  unfold pre66
  exact fits_ite (fits_cons (by decide) (fits_nil 0)) (fits_nil 1)

theorem fits_rexB {r : Option Nat} (h : ∀ v, r = some v → v < 16) : Fits 1 (rexB r) := by
  cases r with
  | none => exact fits_nil 1
  | some v =>
    have := h v rfl
    exact fits_cons (by omega) (fits_nil 0)

theorem fits_putRex0 (z : Sz) (s d : Nat) {op : Nat} (h : op < 256) : Fits 3 (putRex0 z s d op) :=
  ((fits_pre66 z).app (fits_rexB fun v h => rex0_lt _ _ _ _ h)).app (fits_cons h (fits_nil 0))

theorem fits_makeRex0 (z : Sz) (s d : Nat) {op : Nat} (h : op < 256) : Fits 3 (makeRex0 z s d op) :=
  ((fits_pre66 z).app (fits_rexB fun v h => rexM_lt _ _ _ _ h)).app (fits_cons h (fits_nil 0))

theorem fits_putRex1 (z : Sz) {pre : Nat} (d : Nat) {op : Nat} (h : op < 256) (hp : pre ≤ 248) :
    Fits 4 (putRex1 z pre d op) :=
  (fits_putRex0 z 0 d h).app (fits_cons (by omega) (fits_nil 0))

theorem fits_putRex2 (z : Sz) (s d : Nat) {op : Nat} (h : op < 256) : Fits 4 (putRex2 z s d op) :=
  (fits_putRex0 z s d h).app (fits_cons (by omega) (fits_nil 0))

theorem fits_memOp (r b : Nat) (ofs : Int) : Fits 2 (memOp r b ofs) := by
  unfold memOp
  exact Fits.app (m := 1) (fits_cons (by split <;> (try split) <;> omega) (fits_nil 0))
    (fits_ite (fits_cons (by decide) (fits_nil 0)) (fits_nil 1))

theorem fits_disp (c : Prop) [Decidable c] (ofs : Int) :
    Fits 4 (if c then [] else if im8 ofs then le 1 ofs else le 4 ofs) :=
  fits_ite (fits_nil 4) (fits_ite ((fits_le 1 ofs).mono (by decide)) (fits_le 4 ofs))

theorem fits_memDisp (b : Nat) (ofs : Int) : Fits 4 (memDisp b ofs) := fits_disp _ ofs

theorem fits_memDispI (b : Nat) (ofs : Int) : Fits 4 (memDispI b ofs) := by
  unfold memDispI
  exact fits_ite (fits_nil 4) (fits_ite ((fits_le 1 ofs).mono (by decide)) (fits_ite (fits_le 4 ofs) (fits_nil 4)))

theorem fits_immOf (z : Sz) (v : Int) : Fits 4 (immOf z v) := by
  cases z
  · exact (fits_le 1 v).mono (by decide)
  · exact (fits_le 2 v).mono (by decide)
  · exact fits_le 4 v
  · exact fits_le 4 v

theorem fits_immZ (z : Sz) (v : Int) : Fits 4 (immZ z v) := by
  cases z
  · exact (fits_le 1 v).mono (by decide)
  · exact (fits_le 2 v).mono (by decide)
  · exact fits_le 4 v
  · exact fits_le 4 v

theorem fits_ind (z : Sz) (r b op op2 : Nat) (ofs : Int) (ho : op < 255) (hb : b < 16) (h12 : b ≠ 12)
    (h13 : b = 13 → ofs ≠ 0) (h2 : op2 = 0 ∨ op2 = r % 8 * 8) :
    Fits 9 (makeRexInd z r b op op2 ofs ++ makeOffset ofs (b % 8)) := by
  rw [ind_eq _ _ _ _ _ _ hb h12 h13 h2]
  exact (fits_makeRex0 z r b (by split <;> omega)).app ((fits_memOp _ _ _).app (fits_memDisp _ _))

theorem fits_addImr {acc ext : Nat} (ha : acc < 255) (he : ext ≤ 248) {v : Int} {d : Rg} {bs : List Nat}
    (h : addImr acc ext v d = some bs) : Fits 8 bs := by
  unfold addImr at h
  split at h
  · injection h with h
    subst h
    refine Fits.app (m := 4) (n := 4) (fits_ite ?_ ?_) (fits_ite ?_ ?_)
    · exact (fits_putRex0 _ _ _ (by split <;> omega)).mono (by decide)
    · exact fits_putRex1 _ _ (by split <;> (try split) <;> omega) he
    · exact (fits_le 1 v).mono (by decide)
    · exact fits_immZ _ _
  · cases h

theorem fits_logImr {acc ext : Nat} (ha : acc < 255) (he : ext ≤ 248) {v : Int} {d : Rg} {bs : List Nat}
    (h : logImr acc ext v d = some bs) : Fits 8 bs := by
  unfold logImr at h
  split at h
  · injection h with h
    subst h
    exact Fits.app (m := 4) (n := 4) (fits_putRex1 _ _ (by split <;> omega) he) ((fits_le 1 v).mono (by decide))
  · split at h
    · injection h with h
      subst h
      refine Fits.app (m := 4) (n := 4) (fits_ite ?_ ?_) (fits_immZ _ _)
      · exact (fits_putRex0 _ _ _ (by split <;> omega)).mono (by decide)
      · exact fits_putRex1 _ _ (by split <;> omega) he
    · cases h

theorem fits_cmpImr {v : Int} {d : Rg} {bs : List Nat} (h : cmpImr v d = some bs) : Fits 8 bs := by
  unfold cmpImr at h
  simp only at h
  split at h
  · injection h with h
    subst h
    refine Fits.app (m := 4) (n := 4) (fits_ite ?_ ?_) (fits_ite ?_ ?_)
    · exact (fits_putRex0 _ _ _ (by split <;> omega)).mono (by decide)
    · exact fits_putRex1 _ _ (by split <;> (try split) <;> omega) (by decide)
    · exact (fits_le 1 _).mono (by decide)
    · exact fits_immZ _ _
  · cases h

theorem fits1 {b : Nat} (h : b < 256) : Fits 1 [b] := fits_cons h (fits_nil 0)

theorem fits_ins {x : Ins} {bs : List Nat} (h : encIns x = some bs) (ok : OkIns x) : Fits 14 bs := by
  cases x with
  | mov s d =>
    injection h with h
    subst h
    exact (fits_putRex2 _ _ _ (by split <;> decide)).mono (by decide)
  | movI v d =>
    injection h with h
    subst h
    unfold movImr
    refine fits_ite ?_ ?_
    · exact Fits.mono (m := 7) (Fits.app (m := 3) (fits_cons (by split <;> decide) (fits_cons (by decide) (fits1 (by omega))))
        (fits_le 4 v)) (by decide)
    · refine Fits.mono (m := 11) (Fits.app (m := 3) (n := 8) (fits_makeRex0 _ _ _ ?_) ((fits_le _ v).mono ?_)) (by decide)
      · split <;> omega
      · cases d.z <;> decide
  | movx sx s d =>
    have hs : regno s < 24 := by
      have := ok.1.1
      unfold regno
      split <;> (try split) <;> (try split) <;> omega
    simp only [encIns, movszx] at h
    split at h <;> (try split at h) <;> (try cases h) <;> (try (injection h with h; subst h)) <;>
      cases sx <;> simp only [Fits, List.length_cons, List.length_nil, List.mem_cons, List.not_mem_nil, or_false, if_true,
        if_false, forall_eq_or_imp, forall_eq, Bool.false_eq_true] <;>
      (refine ⟨by omega, ?_⟩) <;> (repeat' apply And.intro) <;> (try split) <;> (try split) <;> (try omega)
  | alu o s d =>
    injection h with h
    subst h
    exact (fits_putRex2 _ _ _ (by cases o <;> simp only [aluOp] <;> split <;> decide)).mono (by decide)
  | aluI o v d =>
    cases o
    · exact (fits_addImr (by decide) (by decide) h).mono (by decide)
    · exact (fits_logImr (by decide) (by decide) h).mono (by decide)
    · exact (fits_logImr (by decide) (by decide) h).mono (by decide)
    · exact (fits_addImr (by decide) (by decide) h).mono (by decide)
    · exact (fits_logImr (by decide) (by decide) h).mono (by decide)
    · exact (fits_cmpImr h).mono (by decide)
  | test s d =>
    injection h with h
    subst h
    exact (fits_putRex2 _ _ _ (by split <;> decide)).mono (by decide)
  | un o d =>
    injection h with h
    subst h
    cases o
    · exact (fits_putRex1 _ _ (by decide) (by decide)).mono (by decide)
    · exact (fits_putRex1 _ _ (by decide) (by decide)).mono (by decide)
    · exact (fits_putRex1 _ _ (by split <;> decide) (by decide)).mono (by decide)
    · exact (fits_putRex1 _ _ (by split <;> decide) (by decide)).mono (by decide)
  | md o s =>
    injection h with h
    subst h
    exact Fits.mono (m := 4) (Fits.app (m := 3) (fits_makeRex0 _ _ _ (by split <;> decide))
      (fits1 (by cases o <;> simp only [mdExt] <;> omega))) (by decide)
  | sh o d =>
    injection h with h
    subst h
    exact (fits_putRex1 _ _ (by split <;> decide) (by cases o <;> decide)).mono (by decide)
  | shI o c d =>
    simp only [encIns, shImr] at h
    split at h
    · cases h
    · split at h
      · injection h with h
        subst h
        exact (fits_putRex1 _ _ (by split <;> decide) (by cases o <;> decide)).mono (by decide)
      · injection h with h
        subst h
        exact Fits.mono (m := 5) (Fits.app (m := 4) (fits_putRex1 _ _ (by split <;> decide) (by cases o <;> decide))
          (fits_le 1 _)) (by decide)
  | cwtl => injection h with h; subst h; exact ⟨by decide, by decide⟩
  | cltd => injection h with h; subst h; exact ⟨by decide, by decide⟩
  | cqto => injection h with h; subst h; exact ⟨by decide, by decide⟩
  | set cc d =>
    injection h with h
    subst h
    have := ok.1
    exact Fits.mono (m := 5) (Fits.app (m := 3) (n := 2) (fits_makeRex0 _ _ _ (by decide))
      (fits_cons (by omega) (fits1 (by omega)))) (by decide)
  | lea m d =>
    obtain ⟨base, index, disp⟩ := m
    obtain ⟨wd, ok⟩ := ok
    cases base with
    | none => exact ok.elim
    | some b =>
      cases index with
      | none =>
        injection h with h
        subst h
        exact (fits_ind _ _ _ _ _ _ (by decide) ok.1.1 ok.1.2.1 ok.1.2.2.1 (.inl rfl)).mono (by decide)
      | some ik =>
        obtain ⟨i, k⟩ := ik
        simp only [encIns, leaIir] at h
        split at h
        · rename_i hc
          injection h with h
          subst h
          have := bit3_lt b
          have := bit3_lt i
          have := bit3_lt (regno d)
          refine Fits.mono (m := 9) (Fits.app (m := 5) (Fits.app (m := 4) (n := 1) (fits_cons (by omega) (fits_cons (by decide)
            (fits_cons (by split <;> (try split) <;> omega) (fits1 (by omega)))))
            (fits_ite (fits1 (by decide)) (fits_nil 1))) (fits_disp _ _)) (by decide)
        · cases h
  | load m d =>
    obtain ⟨base, index, disp⟩ := m
    obtain ⟨wd, ok⟩ := ok
    cases base with
    | none =>
      cases index with
      | none =>
        injection h with h
        subst h
        refine Fits.mono (m := 8) (Fits.app (m := 4) (Fits.app (m := 1) (n := 3) (fits_ite (fits1 (by decide))
          (fits_ite (fits1 (by decide)) (fits_nil 1))) (fits_cons (by split <;> decide) (fits_cons (by omega)
          (fits1 (by decide))))) (fits_le 4 0)) (by decide)
      | some _ => exact ok.elim
    | some b =>
      cases index with
      | none =>
        injection h with h
        subst h
        exact Fits.mono (m := 9) (((fits_putRex0 d.z (regno d) b (by split <;> decide)).app (fits_memOp _ _ _)).app
          (fits_memDisp _ _)) (by decide)
      | some ik =>
        obtain ⟨i, k⟩ := ik
        simp only [encIns, movIir] at h
        split at h
        · rename_i hc
          injection h with h
          subst h
          have := bit3_lt b
          have := bit3_lt i
          have := bit3_lt (regno d)
          refine Fits.mono (m := 8) (Fits.app (m := 4) (Fits.app (m := 1) (n := 3) (fits_ite (fits1 (by decide))
            (fits_ite (fits1 (by omega)) (fits_nil 1))) (fits_cons (by split <;> decide)
            (fits_cons (by split <;> (try split) <;> omega) (fits1 (by omega))))) (fits_disp _ _)) (by decide)
        · cases h
  | store s m =>
    obtain ⟨base, index, disp⟩ := m
    obtain ⟨ws, ok⟩ := ok
    cases base with
    | none =>
      cases index with
      | none =>
        injection h with h
        subst h
        refine Fits.mono (m := 8) (Fits.app (m := 4) (Fits.app (m := 1) (n := 3) (fits_ite (fits1 (by decide))
          (fits_ite (fits1 (by decide)) (fits_nil 1))) (fits_cons (by split <;> decide) (fits_cons (by omega)
          (fits1 (by decide))))) (fits_le 4 0)) (by decide)
      | some _ => exact ok.elim
    | some b =>
      cases index with
      | none =>
        injection h with h
        subst h
        exact Fits.mono (m := 9) (((fits_putRex0 s.z (regno s) b (by split <;> decide)).app (fits_memOp _ _ _)).app
          (fits_memDisp _ _)) (by decide)
      | some ik => exact ok.elim
  | storeI z v m =>
    obtain ⟨base, index, disp⟩ := m
    obtain ⟨hv, ok⟩ := ok
    cases base with
    | none =>
      cases index with
      | none =>
        simp only [encIns, movImd] at h
        split at h
        · injection h with h
          subst h
          refine Fits.mono (m := 12) (Fits.app (m := 8) (Fits.app (m := 4) ?_ (fits_le 4 _)) (fits_immOf _ _)) (by decide)
          rw [List.append_assoc]
          cases z <;> exact ⟨by decide, by decide⟩
        · cases h
      | some _ => exact ok.elim
    | some b =>
      cases index with
      | none =>
        injection h with h
        subst h
        exact Fits.mono (m := 13) ((((fits_putRex0 z 0 b (by split <;> decide)).app (fits_memOp _ _ _)).app
          (fits_memDispI _ _)).app (fits_immOf _ _)) (by decide)
      | some ik => exact ok.elim

/-- The code of a supported instruction fits the 14 bytes of `Code.buf` (src/as/asm_code.h:14-20), and nothing is lost
by storing it in bytes. -/
theorem enc_fits {a : AI} {bs : List Nat} (h : enc a = some bs) (ok : Ok a) :
    bs.length ≤ 14 ∧ ∀ b ∈ bs, b < 256 := by
  show Fits 14 bs
  cases a with
  | i x => exact fits_ins h ok
  | aluM o m d =>
    obtain ⟨base, index, disp⟩ := m
    obtain ⟨wd, hh, ok⟩ := ok
    cases base with
    | none => exact ok.elim
    | some b =>
      cases index with
      | none =>
        cases o with
        | add => injection h with h; subst h
                 exact (fits_ind _ _ _ _ _ _ (by decide) ok.1 ok.2.1 ok.2.2.1 (.inl rfl)).mono (by decide)
        | sub => injection h with h; subst h
                 exact (fits_ind _ _ _ _ _ _ (by decide) ok.1 ok.2.1 ok.2.2.1 (.inl rfl)).mono (by decide)
        | _ => cases h
      | some ik =>
        obtain ⟨i, k⟩ := ik
        have h1 := ok.1
        have h2 := ok.2.1
        have h3 := wd.1
        rw [← regno_zq ok.2.2.2.2] at h3
        cases o with
        | add =>
          simp only [enc, addIir] at h
          split at h
          · injection h with h; subst h
            exact Fits.mono (m := 4) (fits_cons (by omega) (fits_cons (by decide) (fits_cons (by omega) (fits1 (by omega)))))
              (by decide)
          · cases h
        | sub =>
          simp only [enc, addIir] at h
          split at h
          · injection h with h; subst h
            exact Fits.mono (m := 4) (fits_cons (by omega) (fits_cons (by decide) (fits_cons (by omega) (fits1 (by omega)))))
              (by decide)
          · cases h
        | _ => cases h
  | aluMI o z v m =>
    obtain ⟨base, index, disp⟩ := m
    cases base with
    | none => exact ok.elim
    | some b =>
      cases index with
      | some _ => exact ok.elim
      | none =>
        have hb := bit3_lt b
        cases o <;> cases z <;> try cases h
        · simp only [enc, addqImi] at h
          split at h
          · injection h with h; subst h
            exact Fits.mono (m := 12) (Fits.app (m := 8) (Fits.app (m := 4) (Fits.app (m := 2) (fits_cons (by omega)
              (fits1 (by split <;> decide))) (fits_memOp _ _ _)) (fits_memDispI _ _))
              (fits_ite ((fits_le 1 v).mono (by decide)) (fits_le 4 v))) (by decide)
          · cases h
        · simp only [enc, subqImi] at h
          split at h
          · injection h with h; subst h
            exact Fits.mono (m := 12) (Fits.app (m := 8) (Fits.app (m := 4) (Fits.app (m := 3) (n := 1) (fits_cons (by omega)
              (fits_cons (by split <;> decide) (fits1 (by split <;> (try split) <;> omega))))
              (fits_ite (fits1 (by decide)) (fits_nil 1))) (fits_memDispI _ _))
              (fits_ite ((fits_le 1 v).mono (by decide)) (fits_le 4 v))) (by decide)
          · cases h
  | unM o z m =>
    obtain ⟨base, index, disp⟩ := m
    cases base with
    | none => exact ok.elim
    | some b =>
      cases index with
      | some _ => exact ok.elim
      | none =>
        cases o with
        | inc => injection h with h; subst h
                 exact (fits_ind _ _ _ _ _ _ (by decide) ok.1 ok.2.1 ok.2.2.1 (.inl rfl)).mono (by decide)
        | dec => injection h with h; subst h
                 exact (fits_ind _ _ _ _ _ _ (by decide) ok.1 ok.2.1 ok.2.2.1 (.inr rfl)).mono (by decide)
        | _ => cases h
  | push n => injection h with h; subst h; exact (fits_makeRex0 _ _ _ (by omega)).mono (by decide)
  | pop n => injection h with h; subst h; exact (fits_makeRex0 _ _ _ (by omega)).mono (by decide)
  | pushI v =>
    simp only [enc] at h
    split at h
    · injection h with h; subst h; exact (fits_cons (by decide) (fits_le 1 v)).mono (by decide)
    · split at h
      · injection h with h; subst h; exact (fits_cons (by decide) (fits_le 4 v)).mono (by decide)
      · cases h
  | jmp _ => cases h
  | jcc _ _ => cases h
  | call rel => injection h with h; subst h; exact (fits_cons (by decide) (fits_le 4 rel)).mono (by decide)
  | jmpR n =>
    injection h with h; subst h
    exact Fits.mono (m := 3) (Fits.app (m := 1) (n := 2) (fits_ite (fits1 (by decide)) (fits_nil 1))
      (fits_cons (by decide) (fits1 (by omega)))) (by decide)
  | callR n =>
    injection h with h; subst h
    exact Fits.mono (m := 3) (Fits.app (m := 1) (n := 2) (fits_ite (fits1 (by decide)) (fits_nil 1))
      (fits_cons (by decide) (fits1 (by omega)))) (by decide)
  | jmpM m =>
    obtain ⟨base, index, disp⟩ := m
    cases base with
    | none => exact ok.elim
    | some b =>
      cases index with
      | none =>
        simp only [enc, jmpDei] at h
        split at h
        · injection h with h; subst h
          exact Fits.mono (m := 7) (Fits.app (m := 3) (Fits.app (m := 1) (n := 2) (fits_ite (fits1 (by decide)) (fits_nil 1))
            (fits_cons (by decide) (fits1 (by split <;> (try split) <;> omega)))) (fits_disp _ _)) (by decide)
        · cases h
      | some ik =>
        obtain ⟨i, k⟩ := ik
        have h1 := ok.1
        have h2 := ok.2.1
        simp only [enc, jmpDeii] at h
        split at h
        · injection h with h; subst h
          exact Fits.mono (m := 8) (Fits.app (m := 4) (Fits.app (m := 1) (n := 3) (fits_ite (fits1 (by omega)) (fits_nil 1))
            (fits_cons (by decide) (fits_cons (by split <;> (try split) <;> omega) (fits1 (by omega)))))
            (fits_disp _ _)) (by decide)
        · cases h
  | ret => injection h with h; subst h; exact ⟨by decide, by decide⟩
  | int v => injection h with h; subst h; exact (fits_cons (by decide) (fits_le 1 _)).mono (by decide)
  | syscall => injection h with h; subst h; exact ⟨by decide, by decide⟩
  | endbr => injection h with h; subst h; exact ⟨by decide, by decide⟩
  | leaRip rel d =>
    injection h with h; subst h
    exact Fits.mono (m := 7) (Fits.app (m := 3) (fits_cons (by split <;> decide) (fits_cons (by decide) (fits1 (by omega))))
      (fits_le 4 rel)) (by decide)
  | loadRip rel d =>
    injection h with h; subst h
    exact Fits.mono (m := 7) (Fits.app (m := 3) (fits_cons (by split <;> decide) (fits_cons (by decide) (fits1 (by omega))))
      (fits_le 4 rel)) (by decide)
  | sse o s a d =>
    have hs : ∀ single op w x y, op < 256 → Fits 14 (scRR single op w x y) := fun single op w x y ho =>
      Fits.mono (m := 5) (Fits.app (m := 2) (n := 3) (Fits.app (m := 1) (fits1 (by cases single <;> decide))
        (fits_rexB fun v h => rexX_lt _ _ _ _ h)) (fits_cons (by decide) (fits_cons ho (fits1 (by omega))))) (by decide)
    have hp : ∀ single op x y, op < 256 → Fits 14 (pkRR single op x y) := fun single op x y ho =>
      Fits.mono (m := 5) (Fits.app (m := 2) (n := 3) (Fits.app (m := 1) (fits_ite (fits_nil 1) (fits1 (by decide)))
        (fits_rexB fun v h => rexX_lt _ _ _ _ h)) (fits_cons (by decide) (fits_cons ho (fits1 (by omega))))) (by decide)
    cases o
    case sqrt =>
      simp only [enc, sseRR] at h
      split at h
      · cases h
      · injection h with h; subst h; exact hs _ _ _ _ _ (by decide)
    all_goals (injection h with h; subst h)
    all_goals first | exact hs _ _ _ _ _ (by decide) | exact hp _ _ _ _ (by decide)
  | sseLoad s m d =>
    obtain ⟨base, index, disp⟩ := m
    cases base with
    | none => cases h
    | some b =>
      cases index with
      | some _ => cases h
      | none =>
        simp only [enc, sseMem] at h
        split at h
        · injection h with h; subst h
          exact Fits.mono (m := 10) (Fits.app (m := 6) (Fits.app (m := 4) (Fits.app (m := 2) (n := 2) (Fits.app (m := 1)
            (fits1 (by cases s <;> decide)) (fits_rexB fun v h => rexX_lt _ _ _ _ h)) (fits_cons (by decide)
            (fits1 (by decide)))) (fits_memOp _ _ _)) (fits_memDisp _ _)) (by decide)
        · cases h
  | sseStore s d m =>
    obtain ⟨base, index, disp⟩ := m
    cases base with
    | none => cases h
    | some b =>
      cases index with
      | some _ => cases h
      | none =>
        simp only [enc, sseMem] at h
        split at h
        · injection h with h; subst h
          exact Fits.mono (m := 10) (Fits.app (m := 6) (Fits.app (m := 4) (Fits.app (m := 2) (n := 2) (Fits.app (m := 1)
            (fits1 (by cases s <;> decide)) (fits_rexB fun v h => rexX_lt _ _ _ _ h)) (fits_cons (by decide)
            (fits1 (by decide)))) (fits_memOp _ _ _)) (fits_memDisp _ _)) (by decide)
        · cases h
  | cvtI2F s g d =>
    injection h with h; subst h
    exact Fits.mono (m := 5) (Fits.app (m := 2) (n := 3) (Fits.app (m := 1) (fits1 (by cases s <;> decide))
      (fits_rexB fun v h => rexX_lt _ _ _ _ h)) (fits_cons (by decide) (fits_cons (by decide) (fits1 (by omega))))) (by decide)
  | cvtF2I s d g =>
    injection h with h; subst h
    exact Fits.mono (m := 5) (Fits.app (m := 2) (n := 3) (Fits.app (m := 1) (fits1 (by cases s <;> decide))
      (fits_rexB fun v h => rexX_lt _ _ _ _ h)) (fits_cons (by decide) (fits_cons (by decide) (fits1 (by omega))))) (by decide)

/-! ## Concrete cases, and operands for which the encoder is wrong -/

/-- `addq $-1, %r12`; `movzbw %r9b, %ax`; `leaq -8(%rbp,%r9,4), %r13`; `movb %ah, 300(%rsp)`. -/
example : enc (.i (.aluI .add (-1) { z := .q, n := 12 })) = some [0x49, 0x83, 0xc4, 0xff]
    ∧ enc (.i (.movx false { z := .b, n := 9 } (ra .w))) = some [0x66, 0x41, 0x0f, 0xb6, 0xc1]
    ∧ enc (.i (.lea { base := some 5, index := some (9, 2), disp := -8 } { z := .q, n := 13 }))
      = some [0x4e, 0x8d, 0x6c, 0x8d, 0xf8]
    ∧ enc (.i (.store rah { base := some 4, disp := 300 })) = some [0x88, 0xa4, 0x24, 0x2c, 0x01, 0, 0] := by
  decide
example : Ok (.i (.lea { base := some 5, index := some (9, 2), disp := -8 } { z := .q, n := 13 }))
    ∧ Ok (.i (.store rah { base := some 4, disp := 300 })) := by
  refine ⟨⟨⟨by decide, by decide⟩, ?_⟩, ⟨by decide, by decide⟩, ?_⟩ <;> decide
example : decode ([0x4e, 0x8d, 0x6c, 0x8d, 0xf8] ++ [0xc3])
    = some (.i (.lea { base := some 5, index := some (9, 2), disp := -8 } { z := .q, n := 13 }), [0xc3]) := by decide
example : encAll [.i (.movI 7 (ra .l)), .i (.sh .shl (ra .l)), .ret]
    = some [0xb8, 7, 0, 0, 0, 0xd3, 0xe0, 0xc3] := by decide
example : encJcc true 4 (-200) = [0x0f, 0x84, 0x38, 0xff, 0xff, 0xff] ∧ encJmp false (-2) = [0xeb, 0xfe] := by decide

/-- What the processor reads. -/
def readBack (a : AI) : Option AI := (enc a).bind fun bs => (decode bs).map (·.1)

/-- The full statement: whatever the encoder accepts is read as what was written. -/
def RightFor (a : AI) : Prop := enc a = none ∨ readBack a = some (norm a)

/-- `mov 0x1234, %eax` reads address 0, `mov %eax, 0x1234` writes it: the address is never stored in the code. -/
theorem abs_wrong :
    readBack (.i (.load { base := none, disp := 0x1234 } (ra .l))) = some (.i (.load { base := none, disp := 0 } (ra .l)))
    ∧ readBack (.i (.store (ra .l) { base := none, disp := 0x1234 }))
      = some (.i (.store (ra .l) { base := none, disp := 0 })) := by decide

/-- The same with %r9: another register. -/
theorem abs_reg_wrong :
    readBack (.i (.load { base := none, disp := 0 } { z := .l, n := 9 }))
      = some (.i (.load { base := none, disp := 0 } { z := .l, n := 1 })) := by decide

/-- `subq $16, 8(%rax)` adds. -/
theorem subq_wrong :
    readBack (.aluMI .sub .q 16 { base := some 0, disp := 8 }) = some (.aluMI .add .q 16 { base := some 0, disp := 8 }) := by
  decide

/-- `leaq 8(%r12), %rax`: a SIB byte is missing, the displacement is taken for it. -/
theorem lea_r12_wrong : ¬ RightFor (.i (.lea { base := some 12, disp := 8 } (ra .q))) := by
  unfold RightFor; decide

/-- `leaq (%r13), %rax`: encoded as an address relative to %rip. -/
theorem lea_r13_wrong : ¬ RightFor (.i (.lea { base := some 13, disp := 0 } (ra .q))) := by
  unfold RightFor; decide

/-- `add (%r12), %eax`, `inc (%r12)`. -/
theorem mem_r12_wrong : ¬ RightFor (.aluM .add { base := some 12, disp := 8 } (ra .l))
    ∧ ¬ RightFor (.unM .inc .l { base := some 12, disp := 8 }) := by
  unfold RightFor; decide

/-- `leaq (%rsp,%rax), %rcx` has a byte too many: the next instruction starts with 24. -/
theorem lea_rsp_index_wrong :
    (enc (.i (.lea { base := some 4, index := some (0, 0), disp := 0 } { z := .q, n := 1 }))).bind decode
      = some (.i (.lea { base := some 4, index := some (0, 0), disp := 0 } { z := .q, n := 1 }), [0x24]) := by decide

/-- `movl (%r8,%rcx,4), %eax` loads 64 bits; `movw (%r8,%rcx,2), %ax` uses %rax for %r8. -/
theorem load_index_wrong :
    readBack (.i (.load { base := some 8, index := some (1, 2), disp := 0 } (ra .l)))
      = some (.i (.load { base := some 8, index := some (1, 2), disp := 0 } (ra .q)))
    ∧ readBack (.i (.load { base := some 8, index := some (1, 1), disp := 0 } (ra .w)))
      = some (.i (.load { base := some 0, index := some (1, 1), disp := 0 } (ra .w))) := by decide

/-- `neg %al` and `not %al` change all of %eax. -/
theorem neg8_wrong :
    readBack (.i (.un .neg (ra .b))) = some (.i (.un .neg (ra .l)))
    ∧ readBack (.i (.un .not (ra .b))) = some (.i (.un .not (ra .l))) := by decide

/-- `mov $1, %ah`, `mul %ah`, `sete %ah`, `movzx %ah, %eax` use %spl. -/
theorem ah_wrong :
    readBack (.i (.movI 1 rah)) = some (.i (.movI 1 { z := .b, n := 4 }))
    ∧ readBack (.i (.md .mul rah)) = some (.i (.md .mul { z := .b, n := 4 }))
    ∧ readBack (.i (.set 4 rah)) = some (.i (.set 4 { z := .b, n := 4 }))
    ∧ readBack (.i (.movx false rah (ra .l))) = some (.i (.movx false { z := .b, n := 4 } (ra .l))) := by decide

/-- `mov %ah, %r8b` cannot be encoded; the assembler writes `mov %spl, %r8b` without a message. -/
theorem ah_r8_wrong : readBack (.i (.mov rah { z := .b, n := 8 })) = some (.i (.mov { z := .b, n := 4 } { z := .b, n := 8 })) := by
  decide

/-- `addl (%rax,%rcx,4), %edx` adds 64 bits. -/
theorem add_index_wrong :
    readBack (.aluM .add { base := some 0, index := some (1, 2), disp := 0 } (rd .l))
      = some (.aluM .add { base := some 0, index := some (1, 2), disp := 0 } (rd .q)) := by decide

/-- `jmp *(%rsp)`: the SIB byte is missing. -/
theorem jmp_rsp_wrong : ¬ RightFor (.jmpM { base := some 4, disp := 8 }) := by unfold RightFor; decide

/-- Offsets of more than 32 bits are cut, or left out. -/
theorem offset_wrong :
    readBack (.i (.load { base := some 0, disp := 2 ^ 32 + 1000 } (ra .l)))
      = some (.i (.load { base := some 0, disp := 1000 } (ra .l)))
    ∧ ¬ RightFor (.i (.storeI .l 1 { base := some 0, disp := 2 ^ 32 + 1000 })) := by
  unfold RightFor; decide

/-- `movq $0x80000000, (%rax)` stores 0xffffffff80000000. -/
theorem movq_imm_wrong :
    readBack (.i (.storeI .q 0x80000000 { base := some 0, disp := 0 }))
      = some (.i (.storeI .q (-0x80000000) { base := some 0, disp := 0 })) := by decide

/-- `movl x(%rip), %eax` loads 64 bits. -/
theorem load_rip_wrong : readBack (.loadRip 100 (ra .l)) = some (.loadRip 100 (ra .q)) := by decide

end Verif.X64Enc

import Verif.Backend.X64Isa
/-
The machine code of x86-64 (Intel SDM vol. 2, chapter 2 and appendix A), as far as the assembler produces it.  This file
is specification: it does not model code of /repo.

At most one of the prefixes 66, F2, F3, then at most one REX prefix, then the opcode.  Byte strings that are other
instructions decode to `none`.
-/
namespace Verif.X64
open Verif.Util

/-- SSE instructions with two registers. -/
inductive Sse where
  | mov | add | mul | sub | div | sqrt | cvt | xor | ucomi | comi
deriving DecidableEq, Repr

/-- What the assembler can express: the instructions of the ISA model, and further ones whose meaning is not
modelled.  Jump and call targets are relative to the end of the instruction, like the `rip` operands. -/
inductive AI where
  | i (x : Ins)
  | aluM (o : Alu) (m : Mem) (d : Rg)
  | aluMI (o : Alu) (z : Sz) (v : Int) (m : Mem)
  | unM (o : Un) (z : Sz) (m : Mem)
  | push (n : Nat) | pop (n : Nat) | pushI (v : Int)
  | jmp (rel : Int) | jcc (cc : Nat) (rel : Int) | call (rel : Int)
  | jmpR (n : Nat) | jmpM (m : Mem) | callR (n : Nat)
  | ret | int (v : Nat) | syscall | endbr
  | leaRip (rel : Int) (d : Rg) | loadRip (rel : Int) (d : Rg)
  | sse (o : Sse) (single : Bool) (s d : Nat)
  | sseLoad (single : Bool) (m : Mem) (d : Nat)
  | sseStore (single : Bool) (s : Nat) (m : Mem)
  | cvtI2F (single : Bool) (s : Rg) (d : Nat)
  | cvtF2I (single : Bool) (s : Nat) (d : Rg)
deriving DecidableEq, Repr

/-- Prefixes: 66, F2, F3 or 0 for none; the low four bits (W, R, X, B) of the REX prefix. -/
structure Pf where
  leg : Nat
  rex : Option Nat
deriving DecidableEq, Repr

def Pf.W (p : Pf) : Bool := p.rex.getD 0 / 8 % 2 = 1
def Pf.R (p : Pf) : Nat := p.rex.getD 0 / 4 % 2
def Pf.X (p : Pf) : Nat := p.rex.getD 0 / 2 % 2
def Pf.B (p : Pf) : Nat := p.rex.getD 0 % 2

/-- The operand size. -/
def Pf.osz (p : Pf) : Sz := if p.W then .q else if p.leg = 0x66 then .w else .l

/-- A register operand: without REX the 8-bit registers 4 to 7 are %ah, %ch, %dh, %bh. -/
def Pf.greg (p : Pf) (z : Sz) (n : Nat) : Rg :=
  if z = .b ∧ p.rex = none ∧ 4 ≤ n then { z := .b, n := n - 4, hi := true } else { z := z, n := n }

/-- `k` bytes, the lowest first. -/
def takeU : Nat → List Nat → Option (Nat × List Nat)
  | 0, t => some (0, t)
  | _ + 1, [] => none
  | k + 1, b :: t => (takeU k t).map fun (v, t) => (b + 256 * v, t)

/-- `k` bytes as a signed number. -/
def takeS (k : Nat) (t : List Nat) : Option (Int × List Nat) := (takeU k t).map fun (v, t) => (toS (8 * k) v, t)

inductive RM where
  | reg (n : Nat)
  | mem (m : Mem)
  | rip (rel : Int)
deriving DecidableEq, Repr

/-- The displacement of `mod` 0, 1, 2. -/
def takeDisp (mod : Nat) (t : List Nat) : Option (Int × List Nat) :=
  if mod = 0 then some (0, t) else if mod = 1 then takeS 1 t else takeS 4 t

/-- ModRM, SIB and displacement: the register operand and the other one. -/
def modrm (p : Pf) : List Nat → Option (Nat × RM × List Nat)
  | [] => none
  | b :: t =>
    let mod := b / 64
    let reg := b / 8 % 8 + 8 * p.R
    let rm := b % 8
    if mod = 3 then some (reg, .reg (rm + 8 * p.B), t)
    else if rm = 4 then
      match t with
      | [] => none
      | s :: t =>
        let idx := s / 8 % 8 + 8 * p.X
        let index := if idx = 4 then none else some (idx, s / 64)
        if s % 8 = 5 ∧ mod = 0 then
          (takeS 4 t).map fun (d, t) => (reg, .mem { base := none, index := index, disp := d }, t)
        else
          (takeDisp mod t).map fun (d, t) =>
            (reg, .mem { base := some (s % 8 + 8 * p.B), index := index, disp := d }, t)
    else if rm = 5 ∧ mod = 0 then (takeS 4 t).map fun (d, t) => (reg, .rip d, t)
    else (takeDisp mod t).map fun (d, t) => (reg, .mem { base := some (rm + 8 * p.B), disp := d }, t)

def aluOf : Nat → Option Alu
  | 0 => some .add
  | 1 => some .or
  | 4 => some .and
  | 5 => some .sub
  | 6 => some .xor
  | 7 => some .cmp
  | _ => none

/-- The number of bytes of an immediate operand: at most four. -/
def immBytes (z : Sz) : Nat := if z = .q then 4 else z.bytes

/-- An instruction with a register operand and a register or memory operand. -/
def withRM (p : Pf) (t : List Nat) (f : Nat → RM → Option AI) : Option (AI × List Nat) :=
  (modrm p t).bind fun (r, m, t) => (f r m).map fun a => (a, t)

/-- The same followed by an immediate operand of `k` bytes. -/
def withRMI (p : Pf) (k : Nat) (t : List Nat) (f : Nat → RM → Int → Option AI) : Option (AI × List Nat) :=
  (modrm p t).bind fun (r, m, t) => (takeS k t).bind fun (v, t) => (f r m v).map fun a => (a, t)

/-- An instruction with only an immediate operand of `k` bytes. -/
def withI (k : Nat) (t : List Nat) (f : Int → AI) : Option (AI × List Nat) := (takeS k t).map fun (v, t) => (f v, t)

/-- Opcodes 00-3F: bits 3-5 are the operation, bits 0-2 the operands. -/
def decAlu (p : Pf) (o : Alu) (form : Nat) (t : List Nat) : Option (AI × List Nat) :=
  let st (z : Sz) := withRM p t fun r m => match m with
    | .reg n => some (.i (.alu o (p.greg z r) (p.greg z n)))
    | _ => none
  let ld (z : Sz) := withRM p t fun r m => match m with
    | .reg n => some (.i (.alu o (p.greg z n) (p.greg z r)))
    | .mem m => some (.aluM o m (p.greg z r))
    | .rip _ => none
  match form with
  | 0 => st .b
  | 1 => st p.osz
  | 2 => ld .b
  | 3 => ld p.osz
  | 4 => withI 1 t fun v => .i (.aluI o v (ra .b))
  | 5 => withI (immBytes p.osz) t fun v => .i (.aluI o v (ra p.osz))
  | _ => none

/-- Group 1 (80, 81, 83). -/
def grp1 (p : Pf) (z : Sz) (k : Nat) (t : List Nat) : Option (AI × List Nat) :=
  withRMI p k t fun r m v => (aluOf (r % 8)).bind fun o => match m with
    | .reg n => some (.i (.aluI o v (p.greg z n)))
    | .mem m => some (.aluMI o z v m)
    | .rip _ => none

def shOf : Nat → Option Sh
  | 4 => some .shl
  | 5 => some .shr
  | 7 => some .sar
  | _ => none

/-- Group 2 with the count 1 (D0, D1), in %cl (D2, D3). -/
def grp2 (p : Pf) (z : Sz) (cl : Bool) (t : List Nat) : Option (AI × List Nat) :=
  withRM p t fun r m => (shOf (r % 8)).bind fun o => match m with
    | .reg n => some (.i (if cl then .sh o (p.greg z n) else .shI o 1 (p.greg z n)))
    | _ => none

/-- Group 2 with an immediate count (C0, C1). -/
def grp2I (p : Pf) (z : Sz) (t : List Nat) : Option (AI × List Nat) :=
  withRMI p 1 t fun r m v => (shOf (r % 8)).bind fun o => match m with
    | .reg n => some (.i (.shI o (toU 8 v).toNat (p.greg z n)))
    | _ => none

/-- Group 3 (F6, F7). -/
def grp3 (p : Pf) (z : Sz) (t : List Nat) : Option (AI × List Nat) :=
  withRM p t fun r m => match r % 8, m with
    | 2, .reg n => some (.i (.un .not (p.greg z n)))
    | 3, .reg n => some (.i (.un .neg (p.greg z n)))
    | 4, .reg n => some (.i (.md .mul (p.greg z n)))
    | 6, .reg n => some (.i (.md .div (p.greg z n)))
    | 7, .reg n => some (.i (.md .idiv (p.greg z n)))
    | _, _ => none

/-- Groups 4 and 5 (FE, FF); near calls and jumps only with FF. -/
def grp45 (p : Pf) (z : Sz) (t : List Nat) : Option (AI × List Nat) :=
  withRM p t fun r m => match r % 8, m with
    | 0, .reg n => some (.i (.un .inc (p.greg z n)))
    | 1, .reg n => some (.i (.un .dec (p.greg z n)))
    | 0, .mem m => some (.unM .inc z m)
    | 1, .mem m => some (.unM .dec z m)
    | 2, .reg n => if z = .b then none else some (.callR n)
    | 4, .reg n => if z = .b then none else some (.jmpR n)
    | 4, .mem m => if z = .b then none else some (.jmpM m)
    | _, _ => none

/-- 88, 89: to the ModRM operand. -/
def movSt (p : Pf) (z : Sz) (t : List Nat) : Option (AI × List Nat) :=
  withRM p t fun r m => match m with
    | .reg n => some (.i (.mov (p.greg z r) (p.greg z n)))
    | .mem m => some (.i (.store (p.greg z r) m))
    | .rip _ => none

/-- 8A, 8B: from the ModRM operand. -/
def movLd (p : Pf) (z : Sz) (t : List Nat) : Option (AI × List Nat) :=
  withRM p t fun r m => match m with
    | .reg n => some (.i (.mov (p.greg z n) (p.greg z r)))
    | .mem m => some (.i (.load m (p.greg z r)))
    | .rip d => some (.loadRip d (p.greg z r))

/-- C6, C7. -/
def movImm (p : Pf) (z : Sz) (t : List Nat) : Option (AI × List Nat) :=
  withRMI p (immBytes z) t fun r m v => if r % 8 ≠ 0 then none else match m with
    | .reg n => some (.i (.movI v (p.greg z n)))
    | .mem m => some (.i (.storeI z v m))
    | .rip _ => none

def movx (p : Pf) (sx : Bool) (sz dz : Sz) (t : List Nat) : Option (AI × List Nat) :=
  withRM p t fun r m => match m with
    | .reg n => some (.i (.movx sx (p.greg sz n) (p.greg dz r)))
    | _ => none

/-- One-byte opcodes. -/
def dec1 (p : Pf) (op : Nat) (t : List Nat) : Option (AI × List Nat) :=
  if p.leg = 0xf2 ∨ p.leg = 0xf3 then none
  else if op < 0x40 then (aluOf (op / 8)).bind fun o => decAlu p o (op % 8) t
  else if 0x50 ≤ op ∧ op < 0x58 then if p.leg = 0 then some (.push (op % 8 + 8 * p.B), t) else none
  else if 0x58 ≤ op ∧ op < 0x60 then if p.leg = 0 then some (.pop (op % 8 + 8 * p.B), t) else none
  else if 0x70 ≤ op ∧ op < 0x80 then if p.leg = 0 then withI 1 t (.jcc (op % 16)) else none
  else if 0xb0 ≤ op ∧ op < 0xb8 then
    withI 1 t fun v => .i (.movI v (p.greg .b (op % 8 + 8 * p.B)))
  else if 0xb8 ≤ op ∧ op < 0xc0 then
    withI p.osz.bytes t fun v => .i (.movI v (p.greg p.osz (op % 8 + 8 * p.B)))
  else match op with
  | 0x63 => if p.W then movx p true .l .q t else none
  | 0x68 => if p.leg = 0 then withI 4 t .pushI else none
  | 0x6a => if p.leg = 0 then withI 1 t .pushI else none
  | 0x80 => grp1 p .b 1 t
  | 0x81 => grp1 p p.osz (immBytes p.osz) t
  | 0x83 => grp1 p p.osz 1 t
  | 0x84 => withRM p t fun r m => match m with
    | .reg n => some (.i (.test (p.greg .b r) (p.greg .b n)))
    | _ => none
  | 0x85 => withRM p t fun r m => match m with
    | .reg n => some (.i (.test (p.greg p.osz r) (p.greg p.osz n)))
    | _ => none
  | 0x88 => movSt p .b t
  | 0x89 => movSt p p.osz t
  | 0x8a => movLd p .b t
  | 0x8b => movLd p p.osz t
  | 0x8d => withRM p t fun r m => match m with
    | .reg _ => none
    | .mem m => some (.i (.lea m (p.greg p.osz r)))
    | .rip d => some (.leaRip d (p.greg p.osz r))
  | 0x98 => if p.osz = .l then some (.i .cwtl, t) else none
  | 0x99 => if p.osz = .l then some (.i .cltd, t) else if p.osz = .q then some (.i .cqto, t) else none
  | 0xc0 => grp2I p .b t
  | 0xc1 => grp2I p p.osz t
  | 0xc3 => if p.leg = 0 then some (.ret, t) else none
  | 0xc6 => movImm p .b t
  | 0xc7 => movImm p p.osz t
  | 0xcd => withI 1 t fun v => .int (toU 8 v).toNat
  | 0xd0 => grp2 p .b false t
  | 0xd1 => grp2 p p.osz false t
  | 0xd2 => grp2 p .b true t
  | 0xd3 => grp2 p p.osz true t
  | 0xe8 => if p.leg = 0 then withI 4 t .call else none
  | 0xe9 => if p.leg = 0 then withI 4 t .jmp else none
  | 0xeb => if p.leg = 0 then withI 1 t .jmp else none
  | 0xf6 => grp3 p .b t
  | 0xf7 => grp3 p p.osz t
  | 0xfe => grp45 p .b t
  | 0xff => grp45 p p.osz t
  | _ => none

/-- An SSE instruction on two registers. -/
def sseRR (p : Pf) (o : Sse) (single : Bool) (t : List Nat) : Option (AI × List Nat) :=
  withRM p t fun r m => match m with
    | .reg n => some (.sse o single n r)
    | _ => none

/-- F3: single, F2: double. -/
def scalar (p : Pf) (f : Bool → Option (AI × List Nat)) : Option (AI × List Nat) :=
  if p.leg = 0xf3 then f true else if p.leg = 0xf2 then f false else none

/-- No prefix: single, 66: double. -/
def packed (p : Pf) (f : Bool → Option (AI × List Nat)) : Option (AI × List Nat) :=
  if p.leg = 0 then f true else if p.leg = 0x66 then f false else none

/-- The integer instructions do not take the prefixes F2 and F3. -/
def noRep (p : Pf) (x : Option (AI × List Nat)) : Option (AI × List Nat) :=
  if p.leg = 0xf2 ∨ p.leg = 0xf3 then none else x

/-- Opcodes behind 0F. -/
def dec0f (p : Pf) (op : Nat) (t : List Nat) : Option (AI × List Nat) :=
  if 0x80 ≤ op ∧ op < 0x90 then if p.leg = 0 then withI 4 t (.jcc (op % 16)) else none
  else if 0x90 ≤ op ∧ op < 0xa0 then
    noRep p (withRM p t fun _ m => match m with
      | .reg n => some (.i (.set (op % 16) (p.greg .b n)))
      | _ => none)
  else match op with
  | 0x05 => if p.leg = 0 then some (.syscall, t) else none
  | 0x1e => match t with
    | 0xfa :: t => if p.leg = 0xf3 then some (.endbr, t) else none
    | _ => none
  | 0x10 => scalar p fun s => withRM p t fun r m => match m with
    | .reg n => some (.sse .mov s n r)
    | .mem m => some (.sseLoad s m r)
    | .rip _ => none
  | 0x11 => scalar p fun s => withRM p t fun r m => match m with
    | .reg n => some (.sse .mov s r n)
    | .mem m => some (.sseStore s r m)
    | .rip _ => none
  | 0x2a => scalar p fun s => withRM p t fun r m => match m with
    | .reg n => some (.cvtI2F s (p.greg (if p.W then .q else .l) n) r)
    | _ => none
  | 0x2c => scalar p fun s => withRM p t fun r m => match m with
    | .reg n => some (.cvtF2I s n (p.greg (if p.W then .q else .l) r))
    | _ => none
  | 0x2e => packed p fun s => sseRR p .ucomi s t
  | 0x2f => packed p fun s => sseRR p .comi s t
  | 0x51 => scalar p fun s => sseRR p .sqrt s t
  | 0x57 => packed p fun s => sseRR p .xor s t
  | 0x58 => scalar p fun s => sseRR p .add s t
  | 0x59 => scalar p fun s => sseRR p .mul s t
  | 0x5a => scalar p fun s => sseRR p .cvt s t
  | 0x5c => scalar p fun s => sseRR p .sub s t
  | 0x5e => scalar p fun s => sseRR p .div s t
  | 0xb6 => noRep p (movx p false .b p.osz t)
  | 0xb7 => noRep p (movx p false .w p.osz t)
  | 0xbe => noRep p (movx p true .b p.osz t)
  | 0xbf => noRep p (movx p true .w p.osz t)
  | _ => none

def takeLeg : List Nat → Nat × List Nat
  | [] => (0, [])
  | b :: t => if b = 0x66 ∨ b = 0xf2 ∨ b = 0xf3 then (b, t) else (0, b :: t)

def takeRex : List Nat → Option Nat × List Nat
  | [] => (none, [])
  | b :: t => if b / 16 = 4 then (some (b % 16), t) else (none, b :: t)

/-- The first instruction of a byte string, and the rest. -/
def decode (bs : List Nat) : Option (AI × List Nat) :=
  let (leg, bs) := takeLeg bs
  let (rex, bs) := takeRex bs
  match bs with
  | [] => none
  | op :: t =>
    if op = 0x0f then
      match t with
      | [] => none
      | op :: t => dec0f ⟨leg, rex⟩ op t
    else dec1 ⟨leg, rex⟩ op t

-- mov %eax, %ecx; addq $-1, %r8; mov 8(%rsp,%r9,4), %sil; movabs
example : decode [0x89, 0xc1] = some (.i (.mov ⟨.l, 0, false⟩ ⟨.l, 1, false⟩), []) := by decide +kernel
example : decode [0x49, 0x83, 0xc0, 0xff, 0xc3] = some (.i (.aluI .add (-1) ⟨.q, 8, false⟩), [0xc3]) := by
  decide +kernel
example : decode [0x42, 0x8a, 0x74, 0x8c, 0x08]
    = some (.i (.load { base := some 4, index := some (9, 2), disp := 8 } ⟨.b, 6, false⟩), []) := by decide +kernel
example : decode [0x48, 0x8d, 0x05, 0, 1, 0, 0] = some (.leaRip 256 ⟨.q, 0, false⟩, []) := by decide +kernel
example : decode [0xf2, 0x45, 0x0f, 0x58, 0xc1] = some (.sse .add false 9 8, []) := by decide +kernel

end Verif.X64

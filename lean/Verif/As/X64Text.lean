import Verif.As.X64Enc
import Verif.As.Expr
/-
The text between the compiler and the assembler (C76), x86-64: the instruction lines the compiler writes
(src/cc/arch/x64/emit_x64.c, x64.h, src/cc/backend/emit_code.c) and the parser of the assembler (src/as/parse_asm.c,
src/as/arch/x64/parse_x64.c).

Text is a list of bytes; the end of the list is the terminating NUL.  The outcome `none` of the reader is an error that
is reported; it also stands for what is not modelled: floating-point literals, quoted labels, UTF-8 labels, and signed
overflow in constant expressions.
-/
namespace Verif.X64Text
open Verif.Util Verif.X64
open Verif.AsmExpr (chk)

/-- The bytes of a string literal. -/
macro "c!" s:str : term => do
  let ns := s.getString.toList.map fun c => Lean.Syntax.mkNumLit (toString c.toNat)
  `([$(ns.toArray),*])

abbrev Str := List Nat

/-! ## Characters: <ctype.h>, strncasecmp, strtoul -/

def isSpace (c : Nat) : Bool := c == 32 || (9 ≤ c && c ≤ 13)
def isDigit (c : Nat) : Bool := 48 ≤ c && c ≤ 57
def isAlpha (c : Nat) : Bool := (65 ≤ c && c ≤ 90) || (97 ≤ c && c ≤ 122)
def isAlnum (c : Nat) : Bool := isAlpha c || isDigit c
/-- `tolower`. -/
def low (c : Nat) : Nat := if 65 ≤ c && c ≤ 90 then c + 32 else c

/-- `is_label_first_chr`, src/as/parse_asm.c:187-189. -/
def isLabel1 (c : Nat) : Bool := isAlpha c || c == 95 || c == 46
/-- `is_label_chr`, src/as/parse_asm.c:191-193. -/
def isLabelC (c : Nat) : Bool := isLabel1 c || isDigit c

/-- The character at the pointer, 0 at the end. -/
def hd (p : Str) : Nat := p.headD 0

/-- `skip_whitespaces`, src/util/util.c:313-317. -/
def skipWs (p : Str) : Str := p.dropWhile isSpace

/-- `strncasecmp(p, name, strlen(name)) == 0`: the text behind the name. -/
def ciPrefix : Str → Str → Option Str
  | [], p => some p
  | _ :: _, [] => none
  | a :: n, c :: p => if low c = low a then ciPrefix n p else none

/-- The value of a digit, 99 for other characters. -/
def digitVal (c : Nat) : Nat :=
  if isDigit c then c - 48 else if isAlpha c then low c - 87 else 99

def isXdigit (c : Nat) : Bool := digitVal c < 16

/-- The value of a string of digits. -/
def valOf (base : Nat) (ds : Str) : Nat := ds.foldl (fun a c => a * base + digitVal c) 0

/-- `strtoul`, `strtoull` (C11 7.22.1.4): blanks, a sign, `0x` for base 16, digits; too large a number gives ULONG_MAX.
`none`: there is no number. -/
def strtoul (base : Nat) (p : Str) : Option (Nat × Str) :=
  let p := skipWs p
  let neg := hd p == 45
  let p := if hd p = 45 ∨ hd p = 43 then p.tail else p
  let p := if base = 16 ∧ hd p = 48 ∧ low (hd p.tail) = 120 ∧ isXdigit (hd p.tail.tail) then p.drop 2 else p
  let ds := p.takeWhile (fun c => digitVal c < base)
  if ds = [] then none
  else
    let v := valOf base ds
    let v := if v ≥ 2 ^ 64 then 2 ^ 64 - 1 else if neg then (2 ^ 64 - v) % 2 ^ 64 else v
    some (v, p.dropWhile (fun c => digitVal c < base))

/-! ## Operands and opcodes of the assembler -/

/-- `enum ExprKind`, `struct Expr`, src/as/parse_asm.h, without floating-point numbers. -/
inductive Ex where
  | label (l : Str)
  | fix (v : Int)
  | pos (e : Ex)
  | neg (e : Ex)
  | bop (o : AsmExpr.Op) (a b : Ex)
deriving DecidableEq, Repr

/-- `enum RegType`, src/as/arch/x64/inst.h:63-101. -/
inductive RegT where
  | g (r : Rg)
  | rip
  | seg (n : Nat)
deriving DecidableEq, Repr

/-- `Operand`, src/as/arch/x64/inst.h:118-165.  The base of `ind` is `none` for %rip. -/
inductive Opd where
  | reg (g : Rg)
  | xmm (n : Nat)
  | imm (v : Int)
  | dir (e : Ex)
  | ind (b : Option Nat) (e : Ex)
  | iind (b i : Nat) (scale : Option Int) (e : Ex)
  | dreg (n : Nat)
  | dind (b : Nat) (e : Option Ex)
  | diind (b i : Nat) (scale : Option Int) (e : Option Ex)
  | seg (n : Nat) (e : Option Ex)
deriving DecidableEq, Repr

/-- `enum Opcode`, src/as/arch/x64/inst.h:10-61, without `NOOP`; opcodes that differ in a number only have a parameter:
`MOVB_IMI` is `movImI .b`, `SETO` is `set 0`, `ADDQ` is `aluQ .add`, `ADDSD` is `sse .add false`, `CVTSS2SD` is
`sse .cvt true`. -/
inductive Op where
  | movRR | movImR | movIR | movRI | movIIR | movDR | movRD | movSR
  | movImI (z : Sz) | movImD (z : Sz)
  | movx (sx : Bool)
  | leaIR | leaIIR
  | aluRR (o : Alu) | aluImR (o : Alu) | aluIR (o : Alu) | aluIIR (o : Alu) | aluQ (o : Alu)
  | md (o : MulDiv) | un (o : Un) | unM (o : Un) (z : Sz)
  | shR (o : Sh) | shImR (o : Sh)
  | test | cwtl | cltd | cqto
  | set (cc : Nat)
  | jmpD | jmpDer | jmpDei | jmpDeii | jcc (cc : Nat)
  | callD | callDer | ret | pushR | pushIm | pop | int | syscall
  | sse (o : Sse) (single : Bool) | sseIX (single : Bool) | sseXI (single : Bool)
  | cvtI2F (single : Bool) | cvtF2I (single : Bool)
  | endbr
deriving DecidableEq, Repr

/-! ## The tables of parse_x64.c -/

/-- src/as/arch/x64/parse_x64.c:155-168. -/
def R8 : Nat := 1
def R16 : Nat := 2
def R32 : Nat := 4
def R64 : Nat := 8
def R8CL : Nat := 16
def IMM : Nat := 32
def EXP : Nat := 64
def IND : Nat := 128
def IIND : Nat := 256
def DER : Nat := 512
def DEI : Nat := 1024
def DEII : Nat := 2048
def XMM : Nat := 4096
def SEG : Nat := 8192
/-- `R8 | R16 | R32 | R64`. -/
def ANY : Nat := 15

/-- `(a & b) != 0`. -/
def hit (a b : Nat) : Bool := (a &&& b) != 0

abbrev Cand := Op × List Nat

def rr (o : Op) : List Cand := [(o, [R8, R8]), (o, [R16, R16]), (o, [R32, R32]), (o, [R64, R64])]
def extT (sx : Bool) : List Cand :=
  [(.movx sx, [R8, R16]), (.movx sx, [R8, R32]), (.movx sx, [R8, R64]), (.movx sx, [R16, R32]), (.movx sx, [R16, R64]),
   (.movx sx, [R32, R64])]
def storeT (z : Sz) : List Cand := [(.movImI z, [IMM, IND]), (.movImD z, [IMM, EXP])]
def addT (o : Alu) : List Cand :=
  rr (.aluRR o) ++ [(.aluImR o, [IMM, ANY]), (.aluIR o, [IND, ANY]), (.aluIIR o, [IIND, ANY])]
def logT (o : Alu) : List Cand := rr (.aluRR o) ++ [(.aluImR o, [IMM, ANY])]
def shT (o : Sh) : List Cand := [(.shR o, [R8CL, ANY]), (.shImR o, [IMM, ANY])]
def movsT (s : Bool) : List Cand := [(.sse .mov s, [XMM, XMM]), (.sseIX s, [IND, XMM]), (.sseXI s, [XMM, IND])]
def sseT (o : Sse) (s : Bool) : List Cand := [(.sse o s, [XMM, XMM])]

/-- `kRawOpTable` with `kParseInstTable`, src/as/arch/x64/parse_x64.c:57-97, :480-700. -/
def instTable : List (Str × List Cand) := [
  (c!"mov", rr .movRR ++ [(.movImR, [IMM, ANY]), (.movIR, [IND, ANY]), (.movRI, [ANY, IND]), (.movIIR, [IIND, ANY]),
    (.movDR, [EXP, ANY]), (.movRD, [ANY, EXP]), (.movSR, [SEG, R64])]),
  (c!"movb", storeT .b), (c!"movw", storeT .w), (c!"movl", storeT .l), (c!"movq", storeT .q),
  (c!"movsx", extT true), (c!"movzx", extT false),
  (c!"lea", [(.leaIR, [IND, R64]), (.leaIIR, [IIND, R64])]),
  (c!"add", addT .add), (c!"addq", [(.aluQ .add, [IMM, IND])]),
  (c!"sub", addT .sub), (c!"subq", [(.aluQ .sub, [IMM, IND])]),
  (c!"mul", [(.md .mul, [ANY])]), (c!"div", [(.md .div, [ANY])]), (c!"idiv", [(.md .idiv, [ANY])]),
  (c!"neg", [(.un .neg, [ANY])]), (c!"not", [(.un .not, [ANY])]),
  (c!"inc", [(.un .inc, [ANY])]), (c!"incb", [(.unM .inc .b, [IND])]), (c!"incw", [(.unM .inc .w, [IND])]),
  (c!"incl", [(.unM .inc .l, [IND])]), (c!"incq", [(.unM .inc .q, [IND])]),
  (c!"dec", [(.un .dec, [ANY])]), (c!"decb", [(.unM .dec .b, [IND])]), (c!"decw", [(.unM .dec .w, [IND])]),
  (c!"decl", [(.unM .dec .l, [IND])]), (c!"decq", [(.unM .dec .q, [IND])]),
  (c!"and", logT .and), (c!"or", logT .or), (c!"xor", logT .xor),
  (c!"shl", shT .shl), (c!"shr", shT .shr), (c!"sar", shT .sar),
  (c!"cmp", logT .cmp),
  (c!"test", rr .test),
  (c!"cwtl", [(.cwtl, [])]), (c!"cltd", [(.cltd, [])]), (c!"cqto", [(.cqto, [])]),
  (c!"seto", [(.set 0, [R8])]), (c!"setno", [(.set 1, [R8])]), (c!"setb", [(.set 2, [R8])]),
  (c!"setae", [(.set 3, [R8])]), (c!"sete", [(.set 4, [R8])]), (c!"setne", [(.set 5, [R8])]),
  (c!"setbe", [(.set 6, [R8])]), (c!"seta", [(.set 7, [R8])]), (c!"sets", [(.set 8, [R8])]),
  (c!"setns", [(.set 9, [R8])]), (c!"setp", [(.set 10, [R8])]), (c!"setnp", [(.set 11, [R8])]),
  (c!"setl", [(.set 12, [R8])]), (c!"setge", [(.set 13, [R8])]), (c!"setle", [(.set 14, [R8])]),
  (c!"setg", [(.set 15, [R8])]),
  (c!"jmp", [(.jmpD, [EXP]), (.jmpDer, [DER]), (.jmpDei, [DEI]), (.jmpDeii, [DEII])]),
  (c!"jo", [(.jcc 0, [EXP])]), (c!"jno", [(.jcc 1, [EXP])]), (c!"jb", [(.jcc 2, [EXP])]),
  (c!"jae", [(.jcc 3, [EXP])]), (c!"je", [(.jcc 4, [EXP])]), (c!"jne", [(.jcc 5, [EXP])]),
  (c!"jbe", [(.jcc 6, [EXP])]), (c!"ja", [(.jcc 7, [EXP])]), (c!"js", [(.jcc 8, [EXP])]),
  (c!"jns", [(.jcc 9, [EXP])]), (c!"jp", [(.jcc 10, [EXP])]), (c!"jnp", [(.jcc 11, [EXP])]),
  (c!"jl", [(.jcc 12, [EXP])]), (c!"jge", [(.jcc 13, [EXP])]), (c!"jle", [(.jcc 14, [EXP])]),
  (c!"jg", [(.jcc 15, [EXP])]),
  (c!"call", [(.callD, [EXP]), (.callDer, [DER])]), (c!"ret", [(.ret, [])]),
  (c!"push", [(.pushR, [R64]), (.pushIm, [IMM])]), (c!"pop", [(.pop, [R64])]),
  (c!"int", [(.int, [IMM])]), (c!"syscall", [(.syscall, [])]),
  (c!"movsd", movsT false), (c!"addsd", sseT .add false), (c!"subsd", sseT .sub false), (c!"mulsd", sseT .mul false),
  (c!"divsd", sseT .div false), (c!"xorpd", sseT .xor false), (c!"comisd", sseT .comi false),
  (c!"ucomisd", sseT .ucomi false), (c!"cvtsi2sd", [(.cvtI2F false, [R32 ||| R64, XMM])]),
  (c!"cvttsd2si", [(.cvtF2I false, [XMM, R32 ||| R64])]), (c!"sqrtsd", sseT .sqrt false),
  (c!"movss", movsT true), (c!"addss", sseT .add true), (c!"subss", sseT .sub true), (c!"mulss", sseT .mul true),
  (c!"divss", sseT .div true), (c!"xorps", sseT .xor true), (c!"comiss", sseT .comi true),
  (c!"ucomiss", sseT .ucomi true), (c!"cvtsi2ss", [(.cvtI2F true, [R32 ||| R64, XMM])]),
  (c!"cvttss2si", [(.cvtF2I true, [XMM, R32 ||| R64])]), (c!"cvtsd2ss", sseT .cvt false),
  (c!"cvtss2sd", sseT .cvt true), (c!"endbr64", [(.endbr, [])])]

def lo (z : Sz) (n : Nat) : RegT := .g { z := z, n := n }

/-- `kRegisters`, src/as/arch/x64/parse_x64.c:99-131, with the numbers `parse_direct_register` (:236-260) gives. -/
def regTable : List (Str × RegT) := [
  (c!"al", lo .b 0), (c!"cl", lo .b 1), (c!"dl", lo .b 2), (c!"bl", lo .b 3),
  (c!"ah", .g ⟨.b, 0, true⟩), (c!"ch", .g ⟨.b, 1, true⟩), (c!"dh", .g ⟨.b, 2, true⟩), (c!"bh", .g ⟨.b, 3, true⟩),
  (c!"r8b", lo .b 8), (c!"r9b", lo .b 9), (c!"r10b", lo .b 10), (c!"r11b", lo .b 11),
  (c!"r12b", lo .b 12), (c!"r13b", lo .b 13), (c!"r14b", lo .b 14), (c!"r15b", lo .b 15),
  (c!"spl", lo .b 4), (c!"bpl", lo .b 5), (c!"sil", lo .b 6), (c!"dil", lo .b 7),
  (c!"ax", lo .w 0), (c!"cx", lo .w 1), (c!"dx", lo .w 2), (c!"bx", lo .w 3),
  (c!"sp", lo .w 4), (c!"bp", lo .w 5), (c!"si", lo .w 6), (c!"di", lo .w 7),
  (c!"r8w", lo .w 8), (c!"r9w", lo .w 9), (c!"r10w", lo .w 10), (c!"r11w", lo .w 11),
  (c!"r12w", lo .w 12), (c!"r13w", lo .w 13), (c!"r14w", lo .w 14), (c!"r15w", lo .w 15),
  (c!"eax", lo .l 0), (c!"ecx", lo .l 1), (c!"edx", lo .l 2), (c!"ebx", lo .l 3),
  (c!"esp", lo .l 4), (c!"ebp", lo .l 5), (c!"esi", lo .l 6), (c!"edi", lo .l 7),
  (c!"r8d", lo .l 8), (c!"r9d", lo .l 9), (c!"r10d", lo .l 10), (c!"r11d", lo .l 11),
  (c!"r12d", lo .l 12), (c!"r13d", lo .l 13), (c!"r14d", lo .l 14), (c!"r15d", lo .l 15),
  (c!"rax", lo .q 0), (c!"rcx", lo .q 1), (c!"rdx", lo .q 2), (c!"rbx", lo .q 3),
  (c!"rsp", lo .q 4), (c!"rbp", lo .q 5), (c!"rsi", lo .q 6), (c!"rdi", lo .q 7),
  (c!"r8", lo .q 8), (c!"r9", lo .q 9), (c!"r10", lo .q 10), (c!"r11", lo .q 11),
  (c!"r12", lo .q 12), (c!"r13", lo .q 13), (c!"r14", lo .q 14), (c!"r15", lo .q 15),
  (c!"rip", .rip),
  (c!"cs", .seg 0), (c!"ds", .seg 1), (c!"es", .seg 2), (c!"fs", .seg 3), (c!"gs", .seg 4), (c!"ss", .seg 5)]

/-- `kXmmRegisters`, src/as/arch/x64/parse_x64.c:133-136. -/
def xmmTable : List Str := [
  c!"xmm0", c!"xmm1", c!"xmm2", c!"xmm3", c!"xmm4", c!"xmm5", c!"xmm6", c!"xmm7",
  c!"xmm8", c!"xmm9", c!"xmm10", c!"xmm11", c!"xmm12", c!"xmm13", c!"xmm14", c!"xmm15"]

/-! ## The parser -/

/-- `find_register`, src/as/arch/x64/parse_x64.c:170-181. -/
def findReg (p : Str) : Option (RegT × Str) :=
  regTable.findSome? fun (n, r) =>
    match ciPrefix n p with
    | some q => if isLabelC (hd q) then none else some (r, q)
    | none => none

/-- `find_xmm_register`, src/as/arch/x64/parse_x64.c:183-200. -/
def findXmm (p : Str) : Option (Nat × Str) :=
  let w := p.takeWhile isAlnum
  (xmmTable.findIdx? fun n => w.map low == n.map low).map fun i => (i, p.dropWhile isAlnum)

/-- `immediate`, src/as/parse_asm.c:153-185, behind the sign. -/
def immNat (p : Str) : Option (Nat × Str) :=
  if hd p = 48 then
    if low (hd p.tail) = 120 then (if isXdigit (low (hd (p.drop 2))) then strtoul 16 (p.drop 2) else none)
    else if isDigit (low (hd p.tail)) then (if low (hd p.tail) ≥ 56 then none else strtoul 8 p)
    else strtoul 10 p
  else strtoul 10 p

/-- `immediate`, src/as/parse_asm.c:153-185.  `none`: false. -/
def immediate (p : Str) : Option (Int × Str) :=
  if hd p = 45 then (immNat p.tail).map fun (v, q) => (toS 64 (-(v : Int)), q)
  else (immNat p).map fun (v, q) => (toS 64 v, q)

/-- `enum TokenKind`, `Token`, src/as/parse_asm.c:270-294. -/
inductive Tok where
  | eof | unknown
  | label (l : Str)
  | fix (v : Int)
  | add | sub | mul | div
deriving DecidableEq, Repr

/-- `fetch_token`, src/as/parse_asm.c:329-413: the token and the position.  `none`: floating-point literals and quoted
labels. -/
def fetchTok (p0 : Str) : Option (Tok × Str) :=
  let p := skipWs p0
  let c := hd p
  if p = [] then some (.eof, p0)
  else if isDigit c then
    let r := if c = 48 ∧ low (hd p.tail) = 120 ∧ isXdigit (hd (p.drop 2)) then strtoul 16 (p.drop 2) else strtoul 10 p
    match r with
    | none => none
    | some (v, q) => if hd q = 46 ∨ low (hd q) = 101 then none else some (.fix (toS 64 v), q)
  else if c = 34 then none
  else if c = 43 then some (.add, p.tail)
  else if c = 45 then some (.sub, p.tail)
  else if c = 42 then some (.mul, p.tail)
  else if c = 47 then some (.div, p.tail)
  else if c = 46 ∧ isDigit (hd p.tail) then none
  else if isLabel1 c then some (.label (c :: p.tail.takeWhile isLabelC), p.tail.dropWhile isLabelC)
  else some (.unknown, p0)

/-- `info->p` and `info->prefetched`. -/
structure PS where
  p : Str
  pre : Option Tok := none
deriving DecidableEq, Repr

/-- The first half of `match`, src/as/parse_asm.c:415-426: the next token is looked at and kept.  A successful `match`
then clears `pre`. -/
def peek (s : PS) : Option (Tok × PS) :=
  match s.pre with
  | some t => some (t, s)
  | none => (fetchTok s.p).map fun (t, p) => (t, ⟨p, some t⟩)

def PS.eat (s : PS) : PS := { s with pre := none }

/-- `unary` with `prim`, src/as/parse_asm.c:434-491; the expression `none` is NULL.  The number bounds the nesting. -/
def unary : Nat → PS → Option (Option Ex × PS)
  | 0, _ => none
  | n + 1, s => do
    let (t, s) ← peek s
    match t with
    | .add => do
      let (e, s) ← unary n s.eat
      match e with
      | none => some (none, s)
      | some (.fix v) => some (some (.fix v), s)
      | some e => some (some (.pos e), s)
    | .sub => do
      let (e, s) ← unary n s.eat
      match e with
      | none => some (none, s)
      | some (.fix v) => do
        let v ← chk (-v)
        some (some (.fix v), s)
      | some e => some (some (.neg e), s)
    | .label l => some (some (.label l), s.eat)
    | .fix v => some (some (.fix v), s.eat)
    | _ => some (none, s)

/-- One step of the loops of `parse_mul` and `parse_add`, src/as/parse_asm.c:509-520, :539-551: constants are combined at
once (by `+` also for `/` and `-`). -/
def combine (o : AsmExpr.Op) (l r : Ex) : Option Ex :=
  match l, r with
  | .fix a, .fix b => (match o with
    | .mul => chk (a * b)
    | _ => chk (a + b)).map .fix
  | _, _ => some (.bop o l r)

def mulOp : Tok → Option AsmExpr.Op
  | .mul => some .mul
  | .div => some .div
  | _ => none

def addOp : Tok → Option AsmExpr.Op
  | .add => some .add
  | .sub => some .sub
  | _ => none

/-- The loops of `parse_mul` and `parse_add`; "expression error" is reported. -/
def opLoop (opf : Tok → Option AsmExpr.Op) (operand : PS → Option (Option Ex × PS)) : Nat → Ex → PS → Option (Option Ex × PS)
  | 0, _, _ => none
  | n + 1, e, s => do
    let (t, s) ← peek s
    match opf t with
    | none => some (some e, s)
    | some o => do
      let (r, s) ← operand s.eat
      match r with
      | none => none
      | some r => do
        let e ← combine o e r
        opLoop opf operand n e s

/-- `parse_mul`, src/as/parse_asm.c:493-522. -/
def parseMul (n : Nat) (s : PS) : Option (Option Ex × PS) := do
  let (e, s) ← unary n s
  match e with
  | none => some (none, s)
  | some e => opLoop mulOp (unary n) n e s

/-- `parse_add`, src/as/parse_asm.c:524-553. -/
def parseAdd (n : Nat) (s : PS) : Option (Option Ex × PS) := do
  let (e, s) ← parseMul n s
  match e with
  | none => some (none, s)
  | some e => opLoop addOp (parseMul n) n e s

/-- `parse_expr`, src/as/parse_asm.c:555-558: a token that was looked at is lost afterwards. -/
def parseExpr (p : Str) : Option (Option Ex × Str) :=
  (parseAdd (p.length + 2) ⟨p, none⟩).map fun (e, s) => (e, s.p)

/-- `is_reg64`. -/
def reg64? : RegT → Option Nat
  | .g r => if r.z = .q then some r.n else none
  | _ => none

/-- src/as/arch/x64/parse_x64.c:301-323, :381-403: what follows the base register up to `)`.  A missing scale (NULL) is
dereferenced by the code. -/
def parseIndex (p : Str) : Option (Option (Nat × Option Int) × Str) := do
  let p := skipWs p
  let (ix, p) ←
    if hd p = 44 then do
      let p := skipWs p.tail
      if hd p ≠ 37 then none
      let (r, p) ← findReg p.tail
      let i ← reg64? r
      let p := skipWs p
      if hd p = 44 then do
        let (e, p) ← parseExpr (skipWs p.tail)
        match e with
        | some (.fix v) => some (some (i, some v), skipWs p)
        | _ => none
      else some (some (i, none), p)
    else some (none, p)
  if hd p ≠ 41 then none
  some (ix, p.tail)

/-- `parse_indirect_register`, src/as/arch/x64/parse_x64.c:294-352. -/
def parseInd (e : Ex) (p : Str) : Option (Opd × Nat × Str) := do
  let (r, p) ← findReg p
  let (ix, p) ← parseIndex p
  match ix with
  | none => match r with
    | .rip => some (.ind none e, IND, p)
    | _ => do
      let b ← reg64? r
      some (.ind (some b) e, IND, p)
  | some (i, k) => do
    let b ← reg64? r
    some (.iind b i k e, IIND, p)

/-- `parse_deref_indirect`, src/as/arch/x64/parse_x64.c:368-436. -/
def parseDind (p : Str) : Option (Opd × Nat × Str) := do
  let (e, p) ← parseExpr p
  let p := skipWs p
  if hd p ≠ 40 ∨ hd p.tail ≠ 37 then none
  let (r, p) ← findReg (p.drop 2)
  let (ix, p) ← parseIndex p
  let b ← reg64? r
  match ix with
  | none => some (.dind b e, DEI, p)
  | some (i, k) => some (.diind b i k e, DEII, p)

/-- The flag of a register operand, src/as/arch/x64/parse_x64.c:262. -/
def regFlag (g : Rg) : Nat :=
  match g.z with
  | .b => if g.n = 1 ∧ g.hi = false then R8 ||| R8CL else R8
  | .w => R16
  | .l => R32
  | .q => R64

/-- `parse_direct_register`, src/as/arch/x64/parse_x64.c:202-263. -/
def parseReg (p : Str) : Option (Opd × Nat × Str) :=
  match findXmm p with
  | some (n, p) => some (.xmm n, XMM, p)
  | none => do
    let (r, p) ← findReg p
    match r with
    | .seg n =>
      if hd p = 58 then do
        let (e, p) ← parseExpr p.tail
        some (.seg n e, SEG, p)
      else some (.seg n none, SEG, p)
    | .g g => some (.reg g, regFlag g, p)
    | .rip => none

/-- `parse_operand`, src/as/arch/x64/parse_x64.c:438-498.  `some none`: 0, without a message. -/
def parseOperand (fl : Nat) (p : Str) : Option (Option (Opd × Nat × Str)) :=
  if hit fl (ANY ||| R8CL ||| XMM) ∧ hd p = 37 then (parseReg p.tail).map some
  else if hit fl DER ∧ hd p = 42 ∧ hd p.tail = 37 then do
    let (r, q) ← findReg (p.drop 2)
    let n ← reg64? r
    some (some (.dreg n, DER, q))
  else if hit fl DEI ∧ hd p = 42 then (parseDind p.tail).map some
  else if hit fl IMM ∧ hd p = 36 then (immediate p.tail).map fun (v, q) => some (.imm v, IMM, q)
  else do
    let (e, p) ← parseExpr p
    let p := skipWs p
    if hd p ≠ 40 then
      match e with
      | none => some none
      | some (.label l) => some (some (.dir (.label l), EXP, p))
      | some (.fix v) => some (some (.dir (.fix v), EXP, p))
      | some _ => none
    else if hd p.tail = 37 then (parseInd (e.getD (.fix 0)) (p.drop 2)).map some
    else some none

/-- `find_raw_opcode`, src/as/parse_asm.c:580-600, and the candidates of the opcode. -/
def findOp (p : Str) : Option (List Cand × Str) :=
  let al := fun c => isAlnum c || c == 46
  let w := p.takeWhile al
  let q := p.dropWhile al
  if q = [] ∨ isSpace (hd q) then
    (instTable.find? fun e => w.map low == e.1.map low).map fun e => (e.2, skipWs q)
  else none

/-- The union of the operand flags of the candidates. -/
def union (i : Nat) (cs : List Cand) : Nat := cs.foldl (fun a c => a ||| c.2.getD i 0) 0

/-- The loop of `parse_inst`, src/as/parse_asm.c:620-655, from operand `i` on; at most `n` operands.  `some (none, p)`:
no instruction (`NOOP`). -/
def opnds : Nat → Nat → List Cand → List Opd → Str → Option (Option (Op × List Opd) × Str)
  | 0, _, cs, acc, p => some (cs.head?.map fun c => (c.1, acc), p)
  | n + 1, i, cs, acc, p =>
    let fl := union i cs
    if fl = 0 then some (cs.head?.map fun c => (c.1, acc), p)
    else if i > 0 ∧ hd p ≠ 44 then
      (if (cs.head?.map fun c => c.2.getD i 0) = some 0 then some (cs.head?.map fun c => (c.1, acc), p) else some (none, p))
    else do
      let p := if i > 0 then skipWs p.tail else p
      match ← parseOperand fl p with
      | none => some (none, p)
      | some (o, r, q) => opnds n (i + 1) (cs.filter fun c => hit (c.2.getD i 0) r) (acc ++ [o]) (skipWs q)

/-- `parse_inst`, src/as/parse_asm.c:602-657: `none` in the first component is `NOOP`. -/
def parseInst (p : Str) : Option (Option (Op × List Opd) × Str) :=
  match findOp p with
  | none => some (none, p)
  | some (cs, p) => opnds 2 0 cs [] p

/-- `block_comment_end`, src/util/util.c:324-332. -/
def commentEnd : Str → Option Str
  | [] => none
  | 42 :: 47 :: t => some t
  | _ :: t => commentEnd t

/-- The loop of `check_line_end`, src/as/parse_asm.c:560-576: whether there is no message. -/
def lineEnd : Nat → Str → Bool
  | 0, _ => false
  | n + 1, p =>
    match skipWs p with
    | [] => true
    | 47 :: 47 :: _ => true
    | 47 :: 42 :: t => match commentEnd (42 :: t) with
      | none => false
      | some q => lineEnd n q
    | _ => false

/-- `Line`, src/as/parse_asm.h: a label (what follows it on the line is not read), a directive with its operands, an
instruction, or nothing. -/
inductive Line where
  | label (l : Str)
  | dir (name rest : Str)
  | inst (o : Op) (os : List Opd)
  | nothing
deriving DecidableEq, Repr

/-- `parse_line`, src/as/parse_asm.c:659-698, with `get_label_end`, :195-234.  The first character is not looked at by
`get_label_end`; `find_directive` is not modelled. -/
def readLine (raw : Str) : Option Line :=
  let p := skipWs raw
  if p = [] then some .nothing
  else if hd p = 34 then none
  else
    let l := hd p :: p.tail.takeWhile isLabelC
    let q := p.tail.dropWhile isLabelC
    let r := skipWs q
    if hd q ≥ 128 then none
    else if hd r = 58 then some (.label l)
    else if hd p = 46 then some (.dir l r)
    else do
      let (i, p) ← parseInst p
      if lineEnd (p.length + 1) p then
        some (match i with
          | some (o, os) => .inst o os
          | none => .nothing)
      else none

/-! ## From the parsed line to the encoder -/

/-- An instruction: the encoder's (X64Enc), or one with a label. -/
inductive LI where
  | a (x : AI)
  | jmp (l : Str) | jcc (cc : Nat) (l : Str) | call (l : Str)
  | lea (l : Str) (ofs : Int) (d : Rg)
  | load (l : Str) (ofs : Int) (d : Rg)
deriving DecidableEq, Repr

/-- The exponent of a scale, as computed in src/as/arch/x64/asm_code.c (`most_significant_bit`). -/
def expOf : Option Int → Option Nat
  | none => some 0
  | some 1 => some 0
  | some 2 => some 1
  | some 4 => some 2
  | some 8 => some 3
  | _ => none

/-- A memory operand with a constant offset. -/
def memOf : Opd → Option Mem
  | .ind (some b) (.fix v) => some { base := some b, disp := v }
  | .iind b i k (.fix v) => (expOf k).map fun k => { base := some b, index := some (i, k), disp := v }
  | .dir (.fix v) => some { base := none, disp := v }
  | .dind b e => (match e with
    | none => some (0 : Int)
    | some (.fix v) => some v
    | _ => none).map fun v => { base := some b, disp := v }
  | .diind b i k e => (match e with
    | none => some (0 : Int)
    | some (.fix v) => some v
    | _ => none).bind fun v => (expOf k).map fun k => { base := some b, index := some (i, k), disp := v }
  | _ => none

/-- A %rip operand: `calc_expr` (src/as/parse_asm.c:1079-1142) takes a label and a label plus a number; label minus
number is an "Illegal expression". -/
def ripOf : Opd → Option (Str × Int)
  | .ind none (.label l) => some (l, 0)
  | .ind none (.bop .add (.label l) (.fix v)) => some (l, v)
  | _ => none

/-- The operands as the functions of src/as/arch/x64/asm_code.c (:106-1523) take them. -/
def instOf : Op → List Opd → Option LI
  | .movRR, [.reg s, .reg d] => some (.a (.i (.mov s d)))
  | .movImR, [.imm v, .reg d] => some (.a (.i (.movI v d)))
  | .movIR, [m, .reg d] => match memOf m, ripOf m with
    | some m, _ => some (.a (.i (.load m d)))
    | none, some (l, v) => some (.load l v d)
    | none, none => none
  | .movIIR, [m, .reg d] | .movDR, [m, .reg d] => (memOf m).map fun m => .a (.i (.load m d))
  | .movRI, [.reg s, m] | .movRD, [.reg s, m] => (memOf m).map fun m => .a (.i (.store s m))
  | .movImI z, [.imm v, m] | .movImD z, [.imm v, m] => (memOf m).map fun m => .a (.i (.storeI z v m))
  | .movx sx, [.reg s, .reg d] => some (.a (.i (.movx sx s d)))
  | .leaIR, [m, .reg d] => match memOf m, ripOf m with
    | some m, _ => some (.a (.i (.lea m d)))
    | none, some (l, v) => some (.lea l v d)
    | none, none => none
  | .leaIIR, [m, .reg d] => (memOf m).map fun m => .a (.i (.lea m d))
  | .aluRR o, [.reg s, .reg d] => some (.a (.i (.alu o s d)))
  | .aluImR o, [.imm v, .reg d] => some (.a (.i (.aluI o v d)))
  | .aluIR o, [m, .reg d] | .aluIIR o, [m, .reg d] => (memOf m).map fun m => .a (.aluM o m d)
  | .aluQ o, [.imm v, m] => (memOf m).map fun m => .a (.aluMI o .q v m)
  | .md o, [.reg s] => some (.a (.i (.md o s)))
  | .un o, [.reg d] => some (.a (.i (.un o d)))
  | .unM o z, [m] => (memOf m).map fun m => .a (.unM o z m)
  | .shR o, [.reg _, .reg d] => some (.a (.i (.sh o d)))
  | .shImR o, [.imm v, .reg d] => if 0 ≤ v then some (.a (.i (.shI o v.toNat d))) else none
  | .test, [.reg s, .reg d] => some (.a (.i (.test s d)))
  | .cwtl, [] => some (.a (.i .cwtl))
  | .cltd, [] => some (.a (.i .cltd))
  | .cqto, [] => some (.a (.i .cqto))
  | .set cc, [.reg d] => some (.a (.i (.set cc d)))
  | .jmpD, [.dir (.label l)] => some (.jmp l)
  | .jcc cc, [.dir (.label l)] => some (.jcc cc l)
  | .callD, [.dir (.label l)] => some (.call l)
  | .jmpDer, [.dreg n] => some (.a (.jmpR n))
  | .jmpDei, [m] | .jmpDeii, [m] => (memOf m).map fun m => .a (.jmpM m)
  | .callDer, [.dreg n] => some (.a (.callR n))
  | .ret, [] => some (.a .ret)
  | .pushR, [.reg g] => some (.a (.push g.n))
  | .pushIm, [.imm v] => some (.a (.pushI v))
  | .pop, [.reg g] => some (.a (.pop g.n))
  | .int, [.imm v] => if 0 ≤ v then some (.a (.int v.toNat)) else none
  | .syscall, [] => some (.a .syscall)
  | .endbr, [] => some (.a .endbr)
  | .sse o s, [.xmm a, .xmm d] => some (.a (.sse o s a d))
  | .sseIX s, [m, .xmm d] => (memOf m).map fun m => .a (.sseLoad s m d)
  | .sseXI s, [.xmm a, m] => (memOf m).map fun m => .a (.sseStore s a m)
  | .cvtI2F s, [.reg a, .xmm d] => some (.a (.cvtI2F s a d))
  | .cvtF2I s, [.xmm a, .reg d] => some (.a (.cvtF2I s a d))
  | _, _ => none

/-- The instruction of a line. -/
def readIns (raw : Str) : Option LI :=
  match readLine raw with
  | some (.inst o os) => instOf o os
  | _ => none

/-! ## What the compiler writes -/

/-- A digit as printf writes it. -/
def digit (d : Nat) : Nat := if d < 10 then d + 48 else d + 87

/-- printf's digits, the last one first; 64-bit numbers have at most 20. -/
def digits (base : Nat) : Nat → Nat → Str → Str
  | 0, _, acc => acc
  | f + 1, n, acc => if n / base = 0 then digit (n % base) :: acc else digits base f (n / base) (digit (n % base) :: acc)

/-- `%d`, `%ld`. -/
def showInt (v : Int) : Str := if v < 0 then 45 :: digits 10 20 (-v).toNat [] else digits 10 20 v.toNat []
/-- `%x`: the argument is passed as a 64-bit number, the low 32 bits are printed. -/
def showHex (v : Int) : Str := c!"0x" ++ digits 16 20 (v % 2 ^ 32).toNat []

/-- The register names, src/cc/arch/x64/x64.h:18-110, by hardware number. -/
def regName (g : Rg) : Str :=
  match g.z, g.hi with
  | .b, true => [c!"ah", c!"ch", c!"dh", c!"bh"].getD g.n []
  | .b, false => [c!"al", c!"cl", c!"dl", c!"bl", c!"spl", c!"bpl", c!"sil", c!"dil", c!"r8b", c!"r9b", c!"r10b", c!"r11b",
    c!"r12b", c!"r13b", c!"r14b", c!"r15b"].getD g.n []
  | .w, _ => [c!"ax", c!"cx", c!"dx", c!"bx", c!"sp", c!"bp", c!"si", c!"di", c!"r8w", c!"r9w", c!"r10w", c!"r11w",
    c!"r12w", c!"r13w", c!"r14w", c!"r15w"].getD g.n []
  | .l, _ => [c!"eax", c!"ecx", c!"edx", c!"ebx", c!"esp", c!"ebp", c!"esi", c!"edi", c!"r8d", c!"r9d", c!"r10d", c!"r11d",
    c!"r12d", c!"r13d", c!"r14d", c!"r15d"].getD g.n []
  | .q, _ => [c!"rax", c!"rcx", c!"rdx", c!"rbx", c!"rsp", c!"rbp", c!"rsi", c!"rdi", c!"r8", c!"r9", c!"r10", c!"r11",
    c!"r12", c!"r13", c!"r14", c!"r15"].getD g.n []

def xmmName (n : Nat) : Str := c!"xmm" ++ digits 10 20 n []
/-- A 64-bit register. -/
def q64 (n : Nat) : Rg := { z := .q, n := n }

/-- Operands the compiler writes. -/
inductive WO where
  | reg (g : Rg)
  | xmm (n : Nat)
  | im (v : Int)
  | ofs (v : Int) (b : Nat)
  | idx (v : Int) (b i k : Nat)
  | abs (v : Int)
  | rip (l : Str) (v : Int)
  | lab (l : Str)
  | star (w : WO)
deriving DecidableEq, Repr

/-- `indirect`, `offset_indirect`, src/cc/arch/x64/emit_x64.c:26-49: the part in parentheses. -/
def indirect (b : Nat) : Option (Nat × Nat) → Str
  | none => c!"(%" ++ regName (q64 b) ++ c!")"
  | some (i, k) => c!"(%" ++ regName (q64 b) ++ c!",%" ++ regName (q64 i)
      ++ (if k = 0 then [] else c!"," ++ showInt (2 ^ k)) ++ c!")"

/-- `offset_indirect`, src/cc/arch/x64/emit_x64.c:38-49. -/
def offsetIndirect (v : Int) (b : Nat) (ix : Option (Nat × Nat)) : Str :=
  if v = 0 then indirect b ix else showInt v ++ indirect b ix

/-- `label_indirect`, src/cc/arch/x64/emit_x64.c:51-58. -/
def labelIndirect (l : Str) (v : Int) : Str :=
  (if v > 0 then l ++ c!"+" ++ showInt v else if v < 0 then l ++ c!"-" ++ showInt (-v) else l) ++ c!"(%rip)"

/-- The text of an operand: `im` :22-24; the constant addresses of `ei_load` and `ei_store`,
src/cc/arch/x64/ir_x64.c:260, :290; `*` in `ei_tjmp` and `ei_call`, :938, :1001. -/
def showO : WO → Str
  | .reg g => c!"%" ++ regName g
  | .xmm n => c!"%" ++ xmmName n
  | .im v => c!"$" ++ showInt v
  | .ofs v b => offsetIndirect v b none
  | .idx v b i k => offsetIndirect v b (some (i, k))
  | .abs v => showHex v
  | .rip l v => labelIndirect l v
  | .lab l => l
  | .star w => c!"*" ++ showO w

/-- `emit_asm0`, `emit_asm1`, `emit_asm2`, src/cc/backend/emit_code.c:93-103, without the newline, which
`getline_chomp` (src/util/util.c:105-116) removes. -/
def emitAsm (op : Str) : List WO → Str
  | [] => c!"\t" ++ op
  | [a] => c!"\t" ++ op ++ c!" " ++ showO a
  | a :: b :: _ => c!"\t" ++ op ++ c!" " ++ showO a ++ c!", " ++ showO b

def memW (m : Mem) : WO :=
  match m.base, m.index with
  | some b, none => .ofs m.disp b
  | some b, some (i, k) => .idx m.disp b i k
  | none, _ => .abs m.disp

def aluName : Alu → Str
  | .add => c!"add"
  | .or => c!"or"
  | .and => c!"and"
  | .sub => c!"sub"
  | .xor => c!"xor"
  | .cmp => c!"cmp"

def unName : Un → Str
  | .not => c!"not"
  | .neg => c!"neg"
  | .inc => c!"inc"
  | .dec => c!"dec"

def mdName : MulDiv → Str
  | .mul => c!"mul"
  | .div => c!"div"
  | .idiv => c!"idiv"

def shName : Sh → Str
  | .shl => c!"shl"
  | .shr => c!"shr"
  | .sar => c!"sar"

/-- The suffix of a condition, by number. -/
def ccName (cc : Nat) : Str :=
  [c!"o", c!"no", c!"b", c!"ae", c!"e", c!"ne", c!"be", c!"a", c!"s", c!"ns", c!"p", c!"np", c!"l", c!"ge", c!"le",
   c!"g"].getD cc []

def szName : Sz → Str
  | .b => c!"b"
  | .w => c!"w"
  | .l => c!"l"
  | .q => c!"q"

def sd (single : Bool) : Str := if single then c!"ss" else c!"sd"

def sseName (o : Sse) (single : Bool) : Str :=
  match o with
  | .mov => c!"mov" ++ sd single
  | .add => c!"add" ++ sd single
  | .mul => c!"mul" ++ sd single
  | .sub => c!"sub" ++ sd single
  | .div => c!"div" ++ sd single
  | .sqrt => c!"sqrt" ++ sd single
  | .cvt => if single then c!"cvtss2sd" else c!"cvtsd2ss"
  | .xor => if single then c!"xorps" else c!"xorpd"
  | .ucomi => c!"ucomi" ++ sd single
  | .comi => c!"comi" ++ sd single

/-- The mnemonic and the operands: the macros of src/cc/arch/x64/x64.h:112-206. -/
def form : LI → Option (Str × List WO)
  | .a (.i x) => match x with
    | .mov s d => some (c!"mov", [.reg s, .reg d])
    | .movI v d => some (c!"mov", [.im v, .reg d])
    | .movx sx s d => some (if sx then c!"movsx" else c!"movzx", [.reg s, .reg d])
    | .alu o s d => some (aluName o, [.reg s, .reg d])
    | .aluI o v d => some (aluName o, [.im v, .reg d])
    | .test s d => some (c!"test", [.reg s, .reg d])
    | .un o d => some (unName o, [.reg d])
    | .md o s => some (mdName o, [.reg s])
    | .sh o d => some (shName o, [.reg ⟨.b, 1, false⟩, .reg d])
    | .shI o c d => some (shName o, [.im c, .reg d])
    | .cwtl => some (c!"cwtl", [])
    | .cltd => some (c!"cltd", [])
    | .cqto => some (c!"cqto", [])
    | .set cc d => some (c!"set" ++ ccName cc, [.reg d])
    | .lea m d => some (c!"lea", [memW m, .reg d])
    | .load m d => some (c!"mov", [memW m, .reg d])
    | .store s m => some (c!"mov", [.reg s, memW m])
    | .storeI z v m => some (c!"mov" ++ szName z, [.im v, memW m])
  | .a (.aluM o m d) => some (aluName o, [memW m, .reg d])
  | .a (.aluMI o _ v m) => some (aluName o ++ c!"q", [.im v, memW m])
  | .a (.unM o z m) => some (unName o ++ szName z, [memW m])
  | .a (.push n) => some (c!"push", [.reg (q64 n)])
  | .a (.pop n) => some (c!"pop", [.reg (q64 n)])
  | .a (.pushI v) => some (c!"push", [.im v])
  | .a (.jmpR n) => some (c!"jmp", [.star (.reg (q64 n))])
  | .a (.jmpM m) => some (c!"jmp", [.star (memW m)])
  | .a (.callR n) => some (c!"call", [.star (.reg (q64 n))])
  | .a .ret => some (c!"ret", [])
  | .a (.int v) => some (c!"int", [.im v])
  | .a .syscall => some (c!"syscall", [])
  | .a .endbr => some (c!"endbr64", [])
  | .a (.sse o s a d) => some (sseName o s, [.xmm a, .xmm d])
  | .a (.sseLoad s m d) => some (c!"mov" ++ sd s, [memW m, .xmm d])
  | .a (.sseStore s a m) => some (c!"mov" ++ sd s, [.xmm a, memW m])
  | .a (.cvtI2F s a d) => some (c!"cvtsi2" ++ sd s, [.reg a, .xmm d])
  | .a (.cvtF2I s a d) => some (if s then c!"cvttss2si" else c!"cvttsd2si", [.xmm a, .reg d])
  | .a _ => none
  | .jmp l => some (c!"jmp", [.lab l])
  | .jcc cc l => some (c!"j" ++ ccName cc, [.lab l])
  | .call l => some (c!"call", [.lab l])
  | .lea l v d => some (c!"lea", [.rip l v, .reg d])
  | .load l v d => some (c!"mov", [.rip l v, .reg d])

/-- The line the compiler writes for an instruction. -/
def write (x : LI) : Option Str := (form x).map fun (op, ws) => emitAsm op ws

end Verif.X64Text

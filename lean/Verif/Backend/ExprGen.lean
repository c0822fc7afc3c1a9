import Verif.Backend.X64Legal
import Verif.Backend.IrFold
import Verif.Backend.Cond
import Verif.Front.ElabOps
import Mathlib.Data.Int.ModEq
/-!
# From expression trees to intermediate code (C69)

Model of `gen_expr`, `gen_cond_jmp` and what they call (src/cc/backend/codegen_expr.c) for the trees of Elab.lean: integers and
pointers; variables are registers, or static objects with an address.  The code is a list of instructions in which a block
begins with its label (as in StmtGen.lean); the instructions are those of X64Sel.lean, whose meaning is the specification here.

Simplifications: no floating point, calls, members, bit-fields, `volatile`, statement expressions, inlined functions; local
variables whose address is taken (`VRF_REF`), which register allocation turns into loads and stores, are left out; the
omission of stores to static variables that are never read (codegen_expr.c:629-632) is left out.
-/
namespace Verif.ExprGen
open Verif.Util Verif.Fold Verif.CExpr Verif.Elab
open Verif.X64 (rdM wrM imm)
open Verif.X64Sel (V Opr Ir Mach stepV opSem)

/-! ## Model -/

/-- `to_vsize`, codegen_expr.c:21-28. -/
def szOf : Nat → X64.Sz
  | 1 => .b
  | 2 => .w
  | 4 => .l
  | _ => .q

def szT (t : T) : X64.Sz := szOf t.size

/-- `enum VRegSize`. -/
def idx : X64.Sz → Nat
  | .b => 0
  | .w => 1
  | .l => 2
  | .q => 3

/-- Intermediate code: an instruction on registers, `IR_IOFS` (the address of a static object), the beginning of a block,
`IR_JMP` without and with condition; `fail` is a failed assertion, or undefined behaviour, of the compiler. -/
inductive In where
  | ir (i : Ir)
  | iofs (d : V) (x : Nat)
  | lab (l : Nat)
  | jmp (l : Nat)
  | cjmp (c : Nat) (a : V) (b : Opr) (l : Nat)
  | fail
deriving DecidableEq, Repr

/-- The next register and the next block. -/
structure Fr where
  k : Nat
  l : Nat
deriving DecidableEq, Repr

/-- What `gen_expr` emits and returns. -/
structure OutE where
  code : List In
  opr : Opr
  s : Fr
deriving DecidableEq, Repr

/-- What `gen_cond_jmp` emits. -/
structure Out where
  code : List In
  s : Fr
deriving DecidableEq, Repr

/-- The operand as IrFold.lean has it, and back. -/
def fo : Opr → IrFold.Opr
  | .const c _ => .const c
  | .reg v => .reg v.p

def back (z : X64.Sz) : IrFold.Opr → Opr
  | .const c => .const c z
  | .reg r => .reg ⟨r, z⟩

/-- `kind + (IR_ADD - EX_ADD)`, codegen_expr.c:523-527. -/
def irB : Ar → X64Sel.Bop
  | .add => .add
  | .sub => .sub
  | .shl => .shl
  | .shr => .shr
  | .op .mul => .mul
  | .op .div => .div
  | .op .mod => .mod
  | .op .band => .and
  | .op .bor => .or
  | .op .bxor => .xor

def foB : Ar → IrFold.Bop
  | .add => .add
  | .sub => .sub
  | .shl => .shl
  | .shr => .shr
  | .op .mul => .mul
  | .op .div => .div
  | .op .mod => .mod
  | .op .band => .and
  | .op .bor => .or
  | .op .bxor => .xor

/-- `new_ir_bop`, ir.c:79-215. -/
def genBop (o : Ar) (u : Bool) (z : X64.Sz) (a b : Opr) (s : Fr) : OutE :=
  match IrFold.bop (foB o) u (idx z) (fo a) (fo b) with
  | .opr r => ⟨[], back z r, s⟩
  | .neg (.reg r) => ⟨[.ir (.neg ⟨s.k, z⟩ ⟨r, z⟩)], .reg ⟨s.k, z⟩, ⟨s.k + 1, s.l⟩⟩
  | .emit => ⟨[.ir (.bop (irB o) u ⟨s.k, z⟩ a b)], .reg ⟨s.k, z⟩, ⟨s.k + 1, s.l⟩⟩
  | _ => ⟨[.fail], .const 0 z, s⟩

/-- `new_ir_unary`, ir.c:217-234, for IR_NEG and IR_BITNOT. -/
def genUn (k : IrFold.Uop) (u : Bool) (z : X64.Sz) (a : Opr) (s : Fr) : OutE :=
  match a with
  | .const c _ => ⟨[], .const (IrFold.unary k u (idx z) c) z, s⟩
  | .reg v => ⟨[.ir (match k with | .neg => .neg ⟨s.k, z⟩ v | .not => .bitnot ⟨s.k, z⟩ v)], .reg ⟨s.k, z⟩, ⟨s.k + 1, s.l⟩⟩

/-- `gen_cast`, codegen_expr.c:173-218, to a type that is not `_Bool`; `us`: the source is unsigned. -/
def genCast (t : T) (us : Bool) (a : Opr) (s : Fr) : OutE :=
  match a with
  | .const c z => ⟨[], .const (IrFold.genCast t.uns (idx z) (idx (szT t)) c) (szT t), s⟩
  | .reg v =>
    if v.z = szT t then ⟨[], .reg v, s⟩
    else ⟨[.ir (.cast us ⟨s.k, szT t⟩ v)], .reg ⟨s.k, szT t⟩, ⟨s.k + 1, s.l⟩⟩

/-- `kind + (COND_EQ - EX_EQ)` and the flags, codegen_expr.c:63-73. -/
def condOf : Rel → Nat
  | .eq => 2
  | .ne => 3
  | .lt => 4
  | .le => 5
  | .ge => 6
  | .gt => 7

def uflag (u : Bool) : Nat := if u then 8 else 0

/-- What `gen_compare_expr` returns. -/
inductive Cmp where
  | known (b : Bool)
  | ask (c : Nat) (a : V) (b : Opr)
  | bad

/-- `gen_compare_expr`, codegen_expr.c:56-133, after its operands; `u`: they are unsigned or pointers. -/
def genCmp (k : Rel) (u : Bool) : Opr → Opr → Cmp
  | .const a _, .const b _ =>
    match Cond.calcConstCond (condOf k + uflag u) a b with
    | some r => .known r
    | none => .bad
  | .const a z, .reg v =>
    match Cond.swapCond (condOf k) with
    | some c => .ask (c + uflag u) v (.const a z)
    | none => .bad
  | .reg v, b => .ask (condOf k + uflag u) v b

/-- `gen_relation`, codegen_expr.c:721-730. -/
def genRel (c : Cmp) (s : Fr) : OutE :=
  match c with
  | .known b => ⟨[], .const (if b then 1 else 0) .l, s⟩
  | .ask c a b => ⟨[.ir (.cond c ⟨s.k, .l⟩ a b)], .reg ⟨s.k, .l⟩, ⟨s.k + 1, s.l⟩⟩
  | .bad => ⟨[.fail], .const 0 .l, s⟩

/-- `new_ir_cjmp`, ir.c:277-286. -/
def cjmp (c : Cmp) (t : Nat) : List In :=
  match c with
  | .known true => [.jmp t]
  | .known false => []
  | .ask c a b => [.cjmp c a b t]
  | .bad => [.fail]

/-- The addend of `gen_expr_incdec`, codegen_expr.c:691-696. -/
def genInc (dec : Bool) (t : T) (a : Opr) (s : Fr) : OutE := genBop (arOf dec) t.uns (szT t) a (.const (stepOf t) (szT t)) s

mutual
/-- `gen_expr`, codegen_expr.c:816-841, with `gen_fixnum` :533-541, `gen_variable` :279-306, `gen_ternary` :308-335, `gen_comma`
:609-612, `gen_assign_sub` :614-656, `gen_expr_incdec` :663-705, `gen_pos`, `gen_neg`, `gen_bitnot` :707-719, `gen_expr_logandor`
:732-747, `gen_expr_bop` :749-753, `gen_ref` :568-570, `gen_deref` :572-580.  The targets of assignments have been through
`reduce_refer` (see `prep`). -/
def genE (Γ : Ctx) : X → Fr → OutE
  | .lit t v, s => ⟨[], .const v (szT t), s⟩
  | .var t x, s =>
    match (Γ x).loc with
    | none => ⟨[], .reg ⟨x, szT t⟩, s⟩
    | some _ => ⟨[.iofs ⟨s.k, .q⟩ x, .ir (.load ⟨s.k + 1, szT t⟩ (.reg ⟨s.k, .q⟩))], .reg ⟨s.k + 1, szT t⟩, ⟨s.k + 2, s.l⟩⟩
  | .cast t e, s =>
    let o := genE Γ e s
    let c := genCast t e.ty.uns o.opr o.s
    ⟨o.code ++ c.code, c.opr, c.s⟩
  | .bin o t a b, s =>
    let p := genE Γ a s
    let q := genE Γ b p.s
    let r := genBop o t.uns (szT t) p.opr q.opr q.s
    ⟨p.code ++ (q.code ++ r.code), r.opr, r.s⟩
  | .rel k a b, s =>
    let p := genE Γ a s
    let q := genE Γ b p.s
    let r := genRel (genCmp k a.ty.uns p.opr q.opr) q.s
    ⟨p.code ++ (q.code ++ r.code), r.opr, r.s⟩
  | .land a b, s =>
    let p := genC Γ a (s.l + 3) (s.l + 1) ⟨s.k, s.l + 4⟩
    let q := genC Γ b s.l (s.l + 1) p.s
    ⟨p.code ++ ([.lab (s.l + 3)] ++ (q.code ++ [.lab s.l, .ir (.mov ⟨q.s.k, .l⟩ (.const 1 .l)), .jmp (s.l + 2),
      .lab (s.l + 1), .ir (.mov ⟨q.s.k, .l⟩ (.const 0 .l)), .lab (s.l + 2)])), .reg ⟨q.s.k, .l⟩, ⟨q.s.k + 1, q.s.l⟩⟩
  | .lor a b, s =>
    let p := genC Γ a s.l (s.l + 3) ⟨s.k, s.l + 4⟩
    let q := genC Γ b s.l (s.l + 1) p.s
    ⟨p.code ++ ([.lab (s.l + 3)] ++ (q.code ++ [.lab s.l, .ir (.mov ⟨q.s.k, .l⟩ (.const 1 .l)), .jmp (s.l + 2),
      .lab (s.l + 1), .ir (.mov ⟨q.s.k, .l⟩ (.const 0 .l)), .lab (s.l + 2)])), .reg ⟨q.s.k, .l⟩, ⟨q.s.k + 1, q.s.l⟩⟩
  | .pos _ e, s => genE Γ e s
  | .neg t e, s =>
    let o := genE Γ e s
    let c := genUn .neg t.uns (szT t) o.opr o.s
    ⟨o.code ++ c.code, c.opr, c.s⟩
  | .bnot t e, s =>
    let o := genE Γ e s
    let c := genUn .not t.uns (szT t) o.opr o.s
    ⟨o.code ++ c.code, c.opr, c.s⟩
  | .comma _ a b, s =>
    let p := genE Γ a s
    let q := genE Γ b p.s
    ⟨p.code ++ q.code, q.opr, q.s⟩
  | .tern t c a b, s =>
    let o := genC Γ c s.l (s.l + 1) ⟨s.k + 1, s.l + 3⟩
    let p := genE Γ a o.s
    let q := genE Γ b p.s
    ⟨o.code ++ ([.lab s.l] ++ (p.code ++ ([.ir (.mov ⟨s.k, szT t⟩ p.opr), .jmp (s.l + 2), .lab (s.l + 1)] ++
      (q.code ++ [.ir (.mov ⟨s.k, szT t⟩ q.opr), .lab (s.l + 2)])))), .reg ⟨s.k, szT t⟩, q.s⟩
  | .asg _ l r, s =>
    let o := genE Γ r s
    match l with
    | .var t x =>
      match (Γ x).loc with
      | none => ⟨o.code ++ [.ir (.mov ⟨x, szT t⟩ o.opr)], o.opr, o.s⟩
      | some _ => ⟨o.code ++ [.iofs ⟨o.s.k, .q⟩ x, .ir (.store o.opr (.reg ⟨o.s.k, .q⟩))], o.opr, ⟨o.s.k + 1, o.s.l⟩⟩
    | .deref _ e =>
      let p := genE Γ e o.s
      ⟨o.code ++ (p.code ++ [.ir (.store o.opr p.opr)]), o.opr, p.s⟩
    | _ => ⟨[.fail], .const 0 .q, s⟩
  | .inc post dec t l, s =>
    match l with
    | .var _ x =>
      match (Γ x).loc with
      | none =>
        let s' : Fr := if post then ⟨s.k + 1, s.l⟩ else s
        let r := genInc dec t (.reg ⟨x, szT t⟩) s'
        ⟨(if post then [.ir (.mov ⟨s.k, szT t⟩ (.reg ⟨x, szT t⟩))] else []) ++ (r.code ++ [.ir (.mov ⟨x, szT t⟩ r.opr)]),
          if post then .reg ⟨s.k, szT t⟩ else r.opr, r.s⟩
      | some _ =>
        let r := genInc dec t (.reg ⟨s.k + 1, szT t⟩) ⟨s.k + 2, s.l⟩
        ⟨[.iofs ⟨s.k, .q⟩ x, .ir (.load ⟨s.k + 1, szT t⟩ (.reg ⟨s.k, .q⟩))] ++ (r.code ++ [.ir (.store r.opr (.reg ⟨s.k, .q⟩))]),
          if post then .reg ⟨s.k + 1, szT t⟩ else r.opr, r.s⟩
    | .deref _ e =>
      let p := genE Γ e s
      let r := genInc dec t (.reg ⟨p.s.k, szT t⟩) ⟨p.s.k + 1, p.s.l⟩
      ⟨p.code ++ ([.ir (.load ⟨p.s.k, szT t⟩ p.opr)] ++ (r.code ++ [.ir (.store r.opr p.opr)])),
        if post then .reg ⟨p.s.k, szT t⟩ else r.opr, r.s⟩
    | _ => ⟨[.fail], .const 0 .q, s⟩
  | .deref t e, s =>
    let p := genE Γ e s
    ⟨p.code ++ [.ir (.load ⟨p.s.k, szT t⟩ p.opr)], .reg ⟨p.s.k, szT t⟩, ⟨p.s.k + 1, p.s.l⟩⟩
  | .ref _ e, s =>
    match e with
    | .var _ x => ⟨[.iofs ⟨s.k, .q⟩ x], .reg ⟨s.k, .q⟩, ⟨s.k + 1, s.l⟩⟩
    | .deref _ e => genE Γ e s
    | _ => ⟨[.fail], .const 0 .q, s⟩
/-- `gen_cond_jmp`, codegen_expr.c:135-171. -/
def genC (Γ : Ctx) : X → Nat → Nat → Fr → Out
  | .lit _ v, t, f, s => ⟨[.jmp (if v ≠ 0 then t else f)], s⟩
  | .rel k a b, t, f, s =>
    let p := genE Γ a s
    let q := genE Γ b p.s
    ⟨p.code ++ (q.code ++ (cjmp (genCmp k a.ty.uns p.opr q.opr) t ++ [.lab q.s.l, .jmp f])), ⟨q.s.k, q.s.l + 1⟩⟩
  | .land a b, t, f, s =>
    let p := genC Γ a s.l f ⟨s.k, s.l + 1⟩
    let q := genC Γ b t f p.s
    ⟨p.code ++ ([.lab s.l] ++ q.code), q.s⟩
  | .lor a b, t, f, s =>
    let p := genC Γ a t s.l ⟨s.k, s.l + 1⟩
    let q := genC Γ b t f p.s
    ⟨p.code ++ ([.lab s.l] ++ q.code), q.s⟩
  | .comma _ a b, t, f, s =>
    let p := genE Γ a s
    let q := genC Γ b t f p.s
    ⟨p.code ++ q.code, q.s⟩
  | _, _, _, s => ⟨[.fail], s⟩
end

/-- `gen_lval`, codegen_expr.c:275-277: the targets of assignments go through `reduce_refer`.  The model does this first, inside
out; `reduce_refer` does not look inside the assignments it meets. -/
def prep : X → X
  | .lit t v => .lit t v
  | .var t x => .var t x
  | .cast t e => .cast t (prep e)
  | .bin o t a b => .bin o t (prep a) (prep b)
  | .rel k a b => .rel k (prep a) (prep b)
  | .land a b => .land (prep a) (prep b)
  | .lor a b => .lor (prep a) (prep b)
  | .pos t e => .pos t (prep e)
  | .neg t e => .neg t (prep e)
  | .bnot t e => .bnot t (prep e)
  | .comma t a b => .comma t (prep a) (prep b)
  | .tern t c a b => .tern t (prep c) (prep a) (prep b)
  | .asg t l r => .asg t (reduceRefer (prep l)) (prep r)
  | .inc p d t l => .inc p d t (reduceRefer (prep l))
  | .deref t e => .deref t (prep e)
  | .ref t e => .ref t (prep e)

/-! ## The meaning of the code -/

def isLab (l : Nat) : In → Bool
  | .lab k => k == l
  | _ => false

def find (C : List In) (l : Nat) : Option Nat := C.findIdx? (isLab l)

/-- One instruction; `none` is undefined behaviour, or the end. -/
def exec (Γ : Ctx) (C : List In) (t : Nat × Mach) : Option (Nat × Mach) :=
  match C[t.1]? with
  | none => none
  | some i =>
    match i with
    | .ir i => (stepV i t.2).map fun m => (t.1 + 1, m)
    | .iofs d x => (Γ x).loc.map fun a => (t.1 + 1, t.2.put (fun _ => false) d (a % 2 ^ 64))
    | .lab _ => some (t.1 + 1, t.2)
    | .jmp l => (find C l).map fun p => (p, t.2)
    | .cjmp c a b l =>
      match X64Sel.val t.2.ρ (.reg a), X64Sel.val t.2.ρ b with
      | some x, some y =>
        if b.z = a.z then
          if Cond.holds c (Cond.cmpW a.z.bits c x y) then (find C l).map fun p => (p, t.2) else some (t.1 + 1, t.2)
        else none
      | _, _ => none
    | .fail => none

def run (Γ : Ctx) (C : List In) : Nat → Nat × Mach → Option (Nat × Mach)
  | 0, t => some t
  | n + 1, t => (exec Γ C t).bind (run Γ C n)

/-! ## Lemmas: values -/

theorem szT_bits (t : T) : (szT t).bits = 8 * t.size := by
  unfold szT
  rcases tsz t with h | h | h | h <;> rw [h] <;> rfl

theorem szT_bytes (t : T) : (szT t).bytes = t.size := by
  unfold szT
  rcases tsz t with h | h | h | h <;> rw [h] <;> rfl

theorem szT_idx (t : T) : 2 ^ idx (szT t) = t.size := by
  unfold szT
  rcases tsz t with h | h | h | h <;> rw [h] <;> rfl

theorem su_szT {t t' : T} (h : SU t t') : szT t = szT t' := by unfold ExprGen.szT; rw [h.1]

theorem bits_su {t t' : T} (h : SU t t') (a : Int) : bits t a = bits t' a := by unfold bits; rw [h.1]

theorem bits_lt (t : T) (a : Int) : bits t a < 2 ^ (8 * t.size) := by
  unfold bits toU
  have : (0 : Int) < 2 ^ (8 * t.size) := by positivity
  have h1 := Int.emod_nonneg a (ne_of_gt this)
  have h2 := Int.emod_lt_of_pos a this
  zify
  rw [Int.toNat_of_nonneg h1]
  exact h2

theorem bits_int (t : T) (a : Int) : (bits t a : Int) = a % 2 ^ (8 * t.size) := by
  unfold bits toU
  exact Int.toNat_of_nonneg (Int.emod_nonneg a (by positivity))

theorem bits_congr' (t : T) {a b : Int} (h : (a - b) % 2 ^ (8 * t.size) = 0) : bits t a = bits t b := by
  unfold bits toU
  congr 1
  exact (Int.emod_eq_emod_iff_emod_sub_eq_zero).2 h

theorem bits_conv (t : T) (a : Int) : bits t (conv t.size t.uns a) = bits t a := bits_congr' t (conv_congr (tsz t) _ a)

/-- An unsigned value is its bits. -/
theorem bits_uns {t : T} {a : Int} (hu : t.uns = true) (h : InRange t.size t.uns a) : (bits t a : Int) = a := by
  rw [bits_int]
  simp only [InRange, hu, if_true] at h
  exact Int.emod_eq_of_lt h.1 h.2

theorem toS_bits {t : T} {a : Int} (hu : t.uns = false) (h : InRange t.size t.uns a) : toS (8 * t.size) (bits t a) = a := by
  rw [bits_int]
  simp only [InRange, hu, Bool.false_eq_true, if_false] at h
  unfold toS
  rcases tsz t with e | e | e | e <;> rw [e] at h ⊢ <;> dsimp only <;> split <;> omega

/-- The bits of a value and the value of bits. -/
theorem val_bits {t : T} {a : Int} (h : InRange t.size t.uns a) : conv t.size t.uns (bits t a) = a := by
  unfold conv
  split
  · rename_i hu
    rw [bits_uns hu h]
    simp only [InRange, hu, if_true] at h
    exact Int.emod_eq_of_lt h.1 h.2
  · rename_i hu
    exact toS_bits (by simpa using hu) h

theorem bits_val {t : T} {n : Nat} (h : n < 2 ^ (8 * t.size)) : bits t (val t n) = n := by
  unfold val
  rw [bits_conv]
  unfold bits toU
  have : (n : Int) % 2 ^ (8 * t.size) = n := Int.emod_eq_of_lt (by omega) (by exact_mod_cast h)
  rw [this]
  rfl

theorem rep_imm {t : T} {a c : Int} (h : Rep t.size t.uns a c) : imm (szT t) c = bits t a := by
  unfold imm
  rw [szT_bits]
  exact bits_congr' t (down (tsz t) (rep_congr (tsz t) h))

theorem bits_modEq (t : T) {a b : Int} (h : a ≡ b [ZMOD 2 ^ (8 * t.size)]) : bits t a = bits t b := by
  unfold bits toU
  rw [h]

theorem bits_mod (t : T) (a : Int) : ((bits t a : Nat) : Int) ≡ a [ZMOD 2 ^ (8 * t.size)] := by
  rw [bits_int]
  exact Int.mod_modEq _ _

theorem bits_nat (t : T) {n : Nat} (h : n < 2 ^ (8 * t.size)) : bits t (n : Int) = n := by
  unfold bits toU
  rw [Int.emod_eq_of_lt (by omega) (by exact_mod_cast h)]
  rfl

theorem max8 (s : Nat) : max (8 * s) 32 = 8 * max s 4 := by omega

theorem opSem_shl {t : T} {a b c : Int} (h : opT .shl t.size t.uns a b = some c) :
    opSem .shl t.uns (8 * t.size) (bits t a) b.toNat = some (bits t c) := by
  simp only [opT] at h
  split at h
  · rename_i hb
    injection h with h
    subst h
    have hl : b.toNat < max (8 * t.size) 32 := by rw [max8]; omega
    simp only [opSem, if_pos hl]
    congr 1
    rw [bits_conv]
    exact bits_modEq t ((bits_mod t a).mul_right _)
  · cases h

theorem opSem_shr {t : T} {a b c : Int} (ha : InRange t.size t.uns a) (h : opT .shr t.size t.uns a b = some c) :
    opSem .shr t.uns (8 * t.size) (bits t a) b.toNat = some (bits t c) := by
  simp only [opT] at h
  split at h
  · rename_i hb
    injection h with h
    subst h
    have hl : b.toNat < max (8 * t.size) 32 := by rw [max8]; omega
    simp only [opSem, if_pos hl]
    congr 1
    split
    · rename_i hu
      have e := bits_uns hu ha
      have hlt := bits_lt t a
      generalize bits t a = n at *
      subst e
      have : ((n : Int) / 2 ^ b.toNat) = ((n / 2 ^ b.toNat : Nat) : Int) := by push_cast; rfl
      rw [this, bits_nat t (lt_of_le_of_lt (Nat.div_le_self _ _) hlt)]
    · rename_i hu
      rw [toS_bits (by simpa using hu) ha]
      rfl
  · cases h

theorem opSem_bit (f : Nat → Nat → Nat) (hf : ∀ x y n, x < 2 ^ n → y < 2 ^ n → f x y < 2 ^ n) {t : T} {a b c : Int}
    (h : some (conv t.size t.uns ((f (a % 2 ^ (8 * t.size)).toNat (b % 2 ^ (8 * t.size)).toNat : Nat) : Int)) = some c) :
    f (bits t a) (bits t b) = bits t c := by
  injection h with h
  subst h
  rw [bits_conv]
  exact (bits_nat t (hf _ _ _ (bits_lt t a) (bits_lt t b))).symm

theorem arith_false {s : Nat} {x c : Int} (h : arith s false x = some c) : c = x ∧ -2 ^ (8 * s - 1) ≤ x ∧ x < 2 ^ (8 * s - 1) := by
  simp only [arith, Bool.false_eq_true, if_false] at h
  split at h
  · injection h with h
    exact ⟨h.symm, by assumption⟩
  · cases h

theorem opSem_div {t : T} {a b c : Int} (ha : InRange t.size t.uns a) (hb : InRange t.size t.uns b) (h : isoOp .div t.size t.uns a b = some c) :
    opSem .div t.uns (8 * t.size) (bits t a) (bits t b) = some (bits t c) := by
  simp only [isoOp] at h
  split at h
  · cases h
  rename_i hz
  by_cases hu : t.uns = true
  · have ea := bits_uns hu ha
    have eb := bits_uns hu hb
    have hla := bits_lt t a
    simp only [opSem, hu, if_true]
    simp only [arith, hu, if_true, Option.some.injEq] at h
    generalize bits t a = m at *
    generalize bits t b = n at *
    subst ea eb
    rw [if_neg (by exact_mod_cast hz)]
    congr 1
    have e : (Int.tdiv (m : Int) n) = ((m / n : Nat) : Int) := rfl
    have hl : m / n < 2 ^ (8 * t.size) := lt_of_le_of_lt (Nat.div_le_self _ _) hla
    rw [e, Int.emod_eq_of_lt (Int.natCast_nonneg _) (by exact_mod_cast hl)] at h
    rw [← h, bits_nat t hl]
  · have hu : t.uns = false := by simpa using hu
    have ea := toS_bits hu ha
    have eb := toS_bits hu hb
    rw [hu] at h
    obtain ⟨rfl, h1, h2⟩ := arith_false h
    have nz : bits t b ≠ 0 := fun e => by
      rw [e] at eb
      apply hz
      rw [← eb]
      rcases tsz t with q | q | q | q <;> rw [q] <;> decide
    have nm : ¬(a = -2 ^ (8 * t.size - 1) ∧ b = -1) := by
      rintro ⟨rfl, rfl⟩
      simp at h2
    simp only [opSem, hu, Bool.false_eq_true, if_false, if_neg nz, ea, eb, if_neg nm]
    rfl

theorem opSem_mod {t : T} {a b c : Int} (ha : InRange t.size t.uns a) (hb : InRange t.size t.uns b) (h : isoOp .mod t.size t.uns a b = some c) :
    opSem .mod t.uns (8 * t.size) (bits t a) (bits t b) = some (bits t c) := by
  simp only [isoOp] at h
  split at h
  · cases h
  rename_i hz
  split at h
  · cases h
  rename_i hn
  injection h with h
  subst h
  by_cases hu : t.uns = true
  · have ea := bits_uns hu ha
    have eb := bits_uns hu hb
    have hla := bits_lt t a
    simp only [opSem, hu, if_true]
    generalize bits t a = m at *
    generalize bits t b = n at *
    subst ea eb
    rw [if_neg (by exact_mod_cast hz)]
    congr 1
    have e : (Int.tmod (m : Int) n) = ((m % n : Nat) : Int) := rfl
    have hl : m % n < 2 ^ (8 * t.size) := lt_of_le_of_lt (Nat.mod_le _ _) hla
    rw [e, bits_nat t hl]
  · have hu : t.uns = false := by simpa using hu
    have ea := toS_bits hu ha
    have eb := toS_bits hu hb
    have nz : bits t b ≠ 0 := fun e => by
      rw [e] at eb
      apply hz
      rw [← eb]
      rcases tsz t with q | q | q | q <;> rw [q] <;> decide
    have nm : ¬(a = -2 ^ (8 * t.size - 1) ∧ b = -1) := by
      rintro ⟨rfl, rfl⟩
      apply hn
      simp [arith, hu]
    simp only [opSem, hu, Bool.false_eq_true, if_false, if_neg nz, ea, eb, if_neg nm]
    rfl

/-- An operator on the bits is the operator on the values. -/
theorem opSem_ok {o : Ar} {t : T} {a b c : Int} (ho : o ≠ .shl ∧ o ≠ .shr) (ha : InRange t.size t.uns a) (hb : InRange t.size t.uns b)
    (h : opT o t.size t.uns a b = some c) : opSem (irB o) t.uns (8 * t.size) (bits t a) (bits t b) = some (bits t c) := by
  cases o with
  | shl => exact absurd rfl ho.1
  | shr => exact absurd rfl ho.2
  | add =>
    simp only [opT, Option.some.injEq] at h
    subst h
    rw [bits_conv]
    exact congrArg some (bits_modEq t ((bits_mod t a).add (bits_mod t b)))
  | sub =>
    simp only [opT, Option.some.injEq] at h
    subst h
    rw [bits_conv]
    exact congrArg some (bits_modEq t ((bits_mod t a).sub (bits_mod t b)))
  | op k =>
    cases k with
    | mul =>
      simp only [opT, Option.some.injEq] at h
      subst h
      rw [bits_conv]
      exact congrArg some (bits_modEq t ((bits_mod t a).mul (bits_mod t b)))
    | div => exact opSem_div ha hb h
    | mod => exact opSem_mod ha hb h
    | band => exact congrArg some (opSem_bit (· &&& ·) (fun _ _ _ h _ => lt_of_le_of_lt Nat.and_le_left h) h)
    | bor => exact congrArg some (opSem_bit (· ||| ·) (fun _ _ _ h h' => Nat.or_lt_two_pow h h') h)
    | bxor => exact congrArg some (opSem_bit (· ^^^ ·) (fun _ _ _ h h' => Nat.xor_lt_two_pow h h') h)

/-! ## Lemmas: folding -/

theorem toNat_ofInt64 (a : Int) : (BitVec.ofInt 64 a).toNat = (toU 64 a).toNat := by
  rw [BitVec.toNat_ofInt]
  rfl

theorem toInt_toS (x : BitVec 64) : x.toInt = toS 64 (x.toNat : Int) := by
  rw [BitVec.toInt_eq_toNat_cond]
  have := x.isLt
  unfold toS
  dsimp only
  split <;> split <;> omega

theorem bit64_and (a b : Int) : IrFold.bit64 (· &&& ·) a b = bits64 (· &&& ·) a b := by
  unfold IrFold.bit64 bits64
  rw [toInt_toS, BitVec.toNat_and, toNat_ofInt64, toNat_ofInt64]

theorem bit64_or (a b : Int) : IrFold.bit64 (· ||| ·) a b = bits64 (· ||| ·) a b := by
  unfold IrFold.bit64 bits64
  rw [toInt_toS, BitVec.toNat_or, toNat_ofInt64, toNat_ofInt64]

theorem bit64_xor (a b : Int) : IrFold.bit64 (· ^^^ ·) a b = bits64 (· ^^^ ·) a b := by
  unfold IrFold.bit64 bits64
  rw [toInt_toS, BitVec.toNat_xor, toNat_ofInt64, toNat_ofInt64]

theorem rep_modEq {t : T} {a l : Int} (h : Rep t.size t.uns a l) : l ≡ a [ZMOD 2 ^ (8 * t.size)] := by
  have := down (tsz t) (rep_congr (tsz t) h)
  exact Int.emod_eq_emod_iff_emod_sub_eq_zero.2 this

theorem i64_modEq (t : T) (v : Int) : toS 64 v ≡ v [ZMOD 2 ^ (8 * t.size)] := by
  have := down (tsz t) (toS64_congr v)
  exact Int.emod_eq_emod_iff_emod_sub_eq_zero.2 this

theorem wrap_modEq {t : T} {v x : Int} (hI : IsI64 v) (h : v ≡ x [ZMOD 2 ^ (8 * t.size)]) :
    Rep t.size t.uns (conv t.size t.uns x) (wrapValue v t.size t.uns) :=
  rep_wrap (tsz t) t.uns hI (Int.emod_eq_emod_iff_emod_sub_eq_zero.1 h)

/-- A value in its own cell. -/
theorem wrap_own {t : T} {a v : Int} (hI : IsI64 v) (ha : InRange t.size t.uns a) (h : v ≡ a [ZMOD 2 ^ (8 * t.size)]) :
    Rep t.size t.uns a (wrapValue v t.size t.uns) := by
  have := wrap_modEq hI h
  rwa [conv_id (tsz t) _ ha] at this

theorem i64_div {l : Int} (n : Nat) (h : IsI64 l) : IsI64 (l / 2 ^ n) := i64_ediv n h

/-- Calculating with constants. -/
theorem fold_ok {o : Ar} {t tb : T} {a b c l r : Int} (ha : Rep t.size t.uns a l) (hb : Rep tb.size tb.uns b r)
    (hs : o ≠ .shl → o ≠ .shr → SU tb t) (h : opT o t.size t.uns a b = some c) :
    ∃ v, IrFold.fold (foB o) t.uns l r = some v ∧ Rep t.size t.uns c (wrapValue v t.size t.uns) := by
  have hl := rep_i64 (tsz t) ha
  cases o with
  | add =>
    have hs := hs (fun q => nomatch q) (fun q => nomatch q)
    rw [hs.1, hs.2] at hb
    simp only [opT, Option.some.injEq] at h
    subst h
    exact ⟨_, rfl, wrap_modEq (toS64_i64 _) ((i64_modEq t _).trans ((rep_modEq ha).add (rep_modEq hb)))⟩
  | sub =>
    have hs := hs (fun q => nomatch q) (fun q => nomatch q)
    rw [hs.1, hs.2] at hb
    simp only [opT, Option.some.injEq] at h
    subst h
    exact ⟨_, rfl, wrap_modEq (toS64_i64 _) ((i64_modEq t _).trans ((rep_modEq ha).sub (rep_modEq hb)))⟩
  | shl =>
    simp only [opT] at h
    split at h
    · rename_i hc
      injection h with h
      subst h
      have h64 : b < 64 := by have := hc.2; rcases tsz t with q | q | q | q <;> rw [q] at this <;> simp at this <;> omega
      have e := rep_nat (tsz tb) hb hc.1 h64
      subst e
      refine ⟨_, if_pos ⟨hc.1, h64⟩, ?_⟩
      exact wrap_modEq (toS64_i64 _) ((i64_modEq t _).trans ((rep_modEq ha).mul_right _))
    · cases h
  | shr =>
    have hrg := opT_range (tsz t) ha.1 h
    simp only [opT] at h
    split at h
    · rename_i hc
      injection h with h
      subst h
      have h64 : b < 64 := by have := hc.2; rcases tsz t with q | q | q | q <;> rw [q] at this <;> simp at this <;> omega
      have e := rep_nat (tsz tb) hb hc.1 h64
      subst e
      refine ⟨_, if_pos ⟨hc.1, h64⟩, ?_⟩
      split
      · rename_i hu
        rw [hu] at ha
        rw [rep_uns (tsz t) ha]
        exact wrap_own (t := t) (toS64_i64 (a / 2 ^ r.toNat)) hrg (i64_modEq t _)
      · rename_i hu
        have hu : t.uns = false := by simpa using hu
        rw [hu] at ha
        have e := rep_sgn ha
        subst e
        exact wrap_own (i64_div _ hl) hrg (Int.ModEq.refl _)
    · cases h
  | op k =>
    have hs := hs (fun q => nomatch q) (fun q => nomatch q)
    rw [hs.1, hs.2] at hb
    cases k with
    | mul =>
      simp only [opT, Option.some.injEq] at h
      subst h
      exact ⟨_, rfl, wrap_modEq (toS64_i64 _) ((i64_modEq t _).trans ((rep_modEq ha).mul (rep_modEq hb)))⟩
    | div =>
      have hz : b ≠ 0 := fun e => by subst e; simp [opT, isoOp] at h
      exact calc_correct (tsz t) .div ha hb h fun _ => hz
    | mod =>
      have hz : b ≠ 0 := fun e => by subst e; simp [opT, isoOp] at h
      exact calc_correct (tsz t) .mod ha hb h fun _ => hz
    | band =>
      obtain ⟨v, e, q⟩ := calc_correct (tsz t) .band ha hb h (by simp)
      exact ⟨v, by rw [← e]; exact congrArg some (bit64_and _ _), q⟩
    | bor =>
      obtain ⟨v, e, q⟩ := calc_correct (tsz t) .bor ha hb h (by simp)
      exact ⟨v, by rw [← e]; exact congrArg some (bit64_or _ _), q⟩
    | bxor =>
      obtain ⟨v, e, q⟩ := calc_correct (tsz t) .bxor ha hb h (by simp)
      exact ⟨v, by rw [← e]; exact congrArg some (bit64_xor _ _), q⟩

/-! ## Lemmas: operands -/

/-- The operand holds the value `a` of type `t`. -/
def Holds (m : Mach) (o : Opr) (t : T) (a : Int) : Prop :=
  match o with
  | .const c z => z = szT t ∧ Rep t.size t.uns a c
  | .reg v => v.z = szT t ∧ m.ρ v.p = some (v.z, bits t a)

theorem Holds.z {m : Mach} {o : Opr} {t : T} {a : Int} (h : Holds m o t a) : o.z = szT t := by
  cases o <;> exact h.1

theorem Holds.val {m : Mach} {o : Opr} {t : T} {a : Int} (h : Holds m o t a) : X64Sel.val m.ρ o = some (bits t a) := by
  cases o with
  | const c z =>
    obtain ⟨rfl, h⟩ := h
    exact congrArg some (rep_imm h)
  | reg v => simp [X64Sel.val, h.2]

theorem Holds.su {m : Mach} {o : Opr} {t t' : T} {a : Int} (hs : SU t t') (h : Holds m o t a) : Holds m o t' a := by
  cases o with
  | const c z => exact ⟨h.1.trans (su_szT hs), by rw [← hs.1, ← hs.2]; exact h.2⟩
  | reg v => exact ⟨h.1.trans (su_szT hs), by rw [← bits_su hs]; exact h.2⟩

/-- The registers below `k` and memory are unchanged. -/
def Keep (k : Nat) (m m' : Mach) : Prop := m'.mem = m.mem ∧ ∀ q, q < k → m'.ρ q = m.ρ q

theorem Keep.refl (k : Nat) (m : Mach) : Keep k m m := ⟨rfl, fun _ _ => rfl⟩

theorem keep_put (m : Mach) (k : Nat) (z : X64.Sz) (v : Nat) : Keep k m (m.put (fun _ => false) ⟨k, z⟩ v) := by
  refine ⟨rfl, fun q hq => ?_⟩
  have : q ≠ k := by omega
  simp [Mach.put, X64Sel.Env.set, X64Sel.Env.forget, this]

theorem put_self (m : Mach) (d : V) (v : Nat) : (m.put (fun _ => false) d v).ρ d.p = some (d.z, v) := by
  simp [Mach.put, X64Sel.Env.set]

theorem put_ne (m : Mach) {d : V} {q : Nat} (v : Nat) (h : q ≠ d.p) : (m.put (fun _ => false) d v).ρ q = m.ρ q := by
  simp [Mach.put, X64Sel.Env.set, X64Sel.Env.forget, h]

theorem rep_cell {t : T} {a l : Int} (h : Rep t.size t.uns a l) (hl : l = 0 ∨ l = 1) : a = l := by
  have h1 := rep_congr (tsz t) h
  have h2 := h.1
  unfold InRange at h2
  rcases tsz t with q | q | q | q <;> rw [q] at h2 <;> split at h2 <;> rcases hl with rfl | rfl <;> simp at h2 h1 <;> omega

theorem rep01 (t : T) {a : Int} (h : a = 0 ∨ a = 1) : Rep t.size t.uns a a := by
  refine ⟨(vok01 t h).1, ?_⟩
  split
  · rcases h with rfl | rfl <;> decide
  · rfl

/-- What `new_ir_bop` gives. -/
def ResOk (m : Mach) (t : T) (c : Int) : IrFold.Res → Prop
  | .opr x => Holds m (back (szT t) x) t c
  | .neg x => ∃ v y, x = .reg v ∧ Holds m (.reg ⟨v, szT t⟩) t y ∧ c = conv t.size t.uns (-y)
  | .emit => True
  | .trap => False

theorem holds_back {m : Mach} {t t' : T} {v : V} {a : Int} (h : Holds m (.reg v) t' a) (hs : SU t' t) : Holds m (back (szT t) (.reg v.p)) t a := by
  have h := h.su hs
  exact ⟨rfl, by rw [h.2, h.1]⟩

theorem conv_self {t : T} {a : Int} (h : InRange t.size t.uns a) : conv t.size t.uns a = a := conv_id (tsz t) _ h

theorem arith_self {t : T} {x a c : Int} (h : arith t.size t.uns x = some c) (e : x = a) (ha : InRange t.size t.uns a) : c = a := by
  subst e
  unfold arith at h
  unfold InRange at ha
  by_cases hu : t.uns = true
  · simp only [hu, if_true] at h ha
    injection h with h
    rw [← h]
    exact Int.emod_eq_of_lt ha.1 ha.2
  · rw [if_neg hu] at h
    split at h
    · injection h with h
      exact h.symm
    · cases h

theorem range0 (t : T) : InRange t.size t.uns 0 := (vok01 t (Or.inl rfl)).1

theorem and_zero' (t : T) (a : Int) {c : Int} (h : isoOp .band t.size t.uns a 0 = some c) : c = 0 := by
  simp only [isoOp, Option.some.injEq] at h
  rw [← h]
  simpa using conv_self (range0 t)

theorem zero_and' (t : T) (a : Int) {c : Int} (h : isoOp .band t.size t.uns 0 a = some c) : c = 0 := by
  simp only [isoOp, Option.some.injEq] at h
  rw [← h]
  simpa using conv_self (range0 t)

theorem toNat_mod {t : T} (b : Int) : (((b % 2 ^ (8 * t.size)).toNat : Nat) : Int) = b % 2 ^ (8 * t.size) :=
  Int.toNat_of_nonneg (Int.emod_nonneg _ (by positivity))

theorem conv_mod {t : T} {b : Int} (hb : InRange t.size t.uns b) : conv t.size t.uns (((b % 2 ^ (8 * t.size)).toNat : Nat) : Int) = b := val_bits hb

theorem or_zero' {t : T} {a c : Int} (ha : InRange t.size t.uns a) (h : isoOp .bor t.size t.uns a 0 = some c) : c = a := by
  simp only [isoOp, Option.some.injEq] at h
  rw [← h]
  simpa using conv_mod ha

theorem zero_or' {t : T} {a c : Int} (ha : InRange t.size t.uns a) (h : isoOp .bor t.size t.uns 0 a = some c) : c = a := by
  simp only [isoOp, Option.some.injEq] at h
  rw [← h]
  simpa using conv_mod ha

theorem xor_zero' {t : T} {a c : Int} (ha : InRange t.size t.uns a) (h : isoOp .bxor t.size t.uns a 0 = some c) : c = a := by
  simp only [isoOp, Option.some.injEq] at h
  rw [← h]
  simpa using conv_mod ha

theorem zero_xor' {t : T} {a c : Int} (ha : InRange t.size t.uns a) (h : isoOp .bxor t.size t.uns 0 a = some c) : c = a := by
  simp only [isoOp, Option.some.injEq] at h
  rw [← h]
  simpa using conv_mod ha

/-- A constant on the left. -/
theorem bop_left {m : Mach} {o : Ar} {t tb : T} {a b c l : Int} {z : X64.Sz} {v : V} (ha : Holds m (.const l z) t a) (hb : Holds m (.reg v) tb b)
    (hs : o ≠ .shl → o ≠ .shr → SU tb t) (rb : InRange tb.size tb.uns b) (h : opT o t.size t.uns a b = some c) :
    ResOk m t c (IrFold.bop (foB o) t.uns (idx (szT t)) (.const l) (.reg v.p)) := by
  have hr := ha.2
  have c0 : ResOk m t 0 (.opr (.const 0)) := ⟨rfl, rep01 t (Or.inl rfl)⟩
  cases o with
  | add =>
    have hs := hs (fun q => nomatch q) (fun q => nomatch q)
    simp only [IrFold.bop, foB, reduceCtorEq, false_and, if_false]
    split
    · rename_i e
      subst e
      have := rep_cell hr (Or.inl rfl)
      subst this
      simp only [opT, Int.zero_add, Option.some.injEq] at h
      rw [hs.1, hs.2] at rb
      rw [conv_self rb] at h
      subst h
      exact holds_back hb hs
    · trivial
  | sub =>
    have hs := hs (fun q => nomatch q) (fun q => nomatch q)
    simp only [IrFold.bop, foB, reduceCtorEq, false_and, if_false]
    split
    · rename_i e
      subst e
      have := rep_cell hr (Or.inl rfl)
      subst this
      simp only [opT, Int.zero_sub, Option.some.injEq] at h
      exact ⟨v.p, b, rfl, holds_back hb hs, h.symm⟩
    · trivial
  | shl =>
    simp only [IrFold.bop, foB, reduceCtorEq, false_and, if_false]
    split
    · rename_i e
      subst e
      have := rep_cell hr (Or.inl rfl)
      subst this
      simp only [opT, Int.zero_mul] at h
      split at h
      · injection h with h
        rw [conv_self (range0 t)] at h
        subst h
        exact c0
      · cases h
    · trivial
  | shr =>
    simp only [IrFold.bop, foB, reduceCtorEq, false_and, if_false]
    split
    · rename_i e
      subst e
      have := rep_cell hr (Or.inl rfl)
      subst this
      simp only [opT, Int.zero_ediv] at h
      split at h
      · injection h with h
        subst h
        exact c0
      · cases h
    · trivial
  | op k =>
    have hk := hs (fun q => nomatch q) (fun q => nomatch q)
    have rb' := rb
    rw [hk.1, hk.2] at rb'
    cases k with
    | mul =>
      simp only [IrFold.bop, foB, reduceCtorEq, false_and, if_false]
      simp only [opT, Option.some.injEq] at h
      split
      · rename_i e
        subst e
        have := rep_cell hr (Or.inr rfl)
        subst this
        rw [Int.one_mul, conv_self rb'] at h
        subst h
        exact holds_back hb hk
      · split
        · rename_i e
          subst e
          have := rep_cell hr (Or.inl rfl)
          subst this
          rw [Int.zero_mul, conv_self (range0 t)] at h
          subst h
          exact c0
        · split
          · rename_i e
            obtain ⟨rfl, hu⟩ := e
            rw [hu] at hr
            have := rep_sgn hr
            subst this
            exact ⟨v.p, b, rfl, holds_back hb hk, by rw [← h]; congr 1; omega⟩
          · trivial
    | div =>
      simp only [IrFold.bop, foB, reduceCtorEq, false_and, if_false]
      split
      · rename_i e
        subst e
        have := rep_cell hr (Or.inl rfl)
        subst this
        simp only [opT, isoOp, Int.zero_tdiv] at h
        split at h
        · cases h
        · have := arith_self h rfl (range0 t)
          subst this
          exact c0
      · trivial
    | mod =>
      simp only [IrFold.bop, foB, reduceCtorEq, false_and, if_false]
      split
      · rename_i e
        subst e
        have := rep_cell hr (Or.inl rfl)
        subst this
        simp only [opT, isoOp, Int.zero_tmod] at h
        split at h
        · cases h
        · split at h
          · cases h
          · injection h with h
            subst h
            exact c0
      · trivial
    | band =>
      simp only [IrFold.bop, foB, reduceCtorEq, false_and, if_false]
      split
      · rename_i e
        subst e
        have := rep_cell hr (Or.inl rfl)
        subst this
        have := zero_and' t b h
        subst this
        exact c0
      · trivial
    | bor =>
      simp only [IrFold.bop, foB, reduceCtorEq, false_and, if_false]
      split
      · rename_i e
        subst e
        have := rep_cell hr (Or.inl rfl)
        subst this
        have := zero_or' rb' h
        subst this
        exact holds_back hb hk
      · trivial
    | bxor =>
      simp only [IrFold.bop, foB, reduceCtorEq, false_and, if_false]
      split
      · rename_i e
        subst e
        have := rep_cell hr (Or.inl rfl)
        subst this
        have := zero_xor' rb' h
        subst this
        exact holds_back hb hk
      · trivial

/-- A constant on the right. -/
theorem bop_right {m : Mach} {o : Ar} {t ta tb : T} {a b c r : Int} {z : X64.Sz} {v : V} (ha : Holds m (.reg v) ta a) (sa : SU ta t)
    (hb : Holds m (.const r z) tb b) (hs : o ≠ .shl → o ≠ .shr → SU tb t) (ra : InRange t.size t.uns a)
    (h : opT o t.size t.uns a b = some c) :
    ResOk m t c (IrFold.bop (foB o) t.uns (idx (szT t)) (.reg v.p) (.const r)) := by
  have hr := hb.2
  have c0 : ResOk m t 0 (.opr (.const 0)) := ⟨rfl, rep01 t (Or.inl rfl)⟩
  have hv : ResOk m t a (.opr (.reg v.p)) := holds_back ha sa
  cases o with
  | add =>
    simp only [IrFold.bop, foB, reduceCtorEq, or_self, and_false, if_false]
    split
    · rename_i e
      subst e
      have := rep_cell hr (Or.inl rfl)
      subst this
      simp only [opT, Int.add_zero, Option.some.injEq] at h
      rw [conv_self ra] at h
      subst h
      exact hv
    · trivial
  | sub =>
    simp only [IrFold.bop, foB, reduceCtorEq, or_self, and_false, if_false]
    split
    · rename_i e
      subst e
      have := rep_cell hr (Or.inl rfl)
      subst this
      simp only [opT, Int.sub_zero, Option.some.injEq] at h
      rw [conv_self ra] at h
      subst h
      exact hv
    · trivial
  | shl =>
    simp only [IrFold.bop, foB, reduceCtorEq, or_self, and_false, if_false]
    split
    · rename_i e
      subst e
      have := rep_cell hr (Or.inl rfl)
      subst this
      simp only [opT, Int.toNat_zero, pow_zero, Int.mul_one] at h
      split at h
      · injection h with h
        rw [conv_self ra] at h
        subst h
        exact hv
      · cases h
    · trivial
  | shr =>
    simp only [IrFold.bop, foB, reduceCtorEq, or_self, and_false, if_false]
    split
    · rename_i e
      subst e
      have := rep_cell hr (Or.inl rfl)
      subst this
      simp only [opT, Int.toNat_zero, pow_zero, Int.ediv_one] at h
      split at h
      · injection h with h
        subst h
        exact hv
      · cases h
    · trivial
  | op k =>
    have hk := hs (fun q => nomatch q) (fun q => nomatch q)
    rw [hk.1, hk.2] at hr
    cases k with
    | mul =>
      simp only [IrFold.bop, foB, reduceCtorEq, or_self, and_false, if_false]
      simp only [opT, Option.some.injEq] at h
      split
      · rename_i e
        subst e
        have := rep_cell hr (Or.inr rfl)
        subst this
        rw [Int.mul_one, conv_self ra] at h
        subst h
        exact hv
      · split
        · rename_i e
          subst e
          have := rep_cell hr (Or.inl rfl)
          subst this
          rw [Int.mul_zero, conv_self (range0 t)] at h
          subst h
          exact c0
        · split
          · rename_i e
            obtain ⟨rfl, hu⟩ := e
            rw [hu] at hr
            have := rep_sgn hr
            subst this
            exact ⟨v.p, a, rfl, holds_back ha sa, by rw [← h]; congr 1; omega⟩
          · trivial
    | div =>
      have hz : r ≠ 0 := fun e => by
        subst e
        have := rep_cell hr (Or.inl rfl)
        subst this
        simp [opT, isoOp] at h
      have hb0 : b ≠ 0 := fun e => by subst e; simp [opT, isoOp] at h
      simp only [opT, isoOp, if_neg hb0] at h
      simp only [IrFold.bop, foB, IrFold.Opr.const.injEq, hz, false_and, if_false]
      split
      · rename_i e
        subst e
        have := rep_cell hr (Or.inr rfl)
        subst this
        have := arith_self h (Int.tdiv_one a) ra
        subst this
        exact hv
      · split
        · rename_i e
          obtain ⟨rfl, hu⟩ := e
          rw [hu] at hr
          have := rep_sgn hr
          subst this
          rw [hu] at h
          obtain ⟨e, h1, h2⟩ := arith_false h
          rw [Int.tdiv_neg, Int.tdiv_one] at e h1 h2
          refine ⟨v.p, a, rfl, holds_back ha sa, ?_⟩
          rw [e]
          refine (conv_self ?_).symm
          simp only [InRange, hu, Bool.false_eq_true, if_false]
          exact ⟨h1, h2⟩
        · trivial
    | mod =>
      simp only [IrFold.bop, foB]
      split <;> trivial
    | band =>
      simp only [IrFold.bop, foB, reduceCtorEq, or_self, and_false, if_false]
      split
      · rename_i e
        subst e
        have := rep_cell hr (Or.inl rfl)
        subst this
        have := and_zero' t a h
        subst this
        exact c0
      · trivial
    | bor =>
      simp only [IrFold.bop, foB, reduceCtorEq, or_self, and_false, if_false]
      split
      · rename_i e
        subst e
        have := rep_cell hr (Or.inl rfl)
        subst this
        have := or_zero' ra h
        subst this
        exact hv
      · trivial
    | bxor =>
      simp only [IrFold.bop, foB, reduceCtorEq, or_self, and_false, if_false]
      split
      · rename_i e
        subst e
        have := rep_cell hr (Or.inl rfl)
        subst this
        have := xor_zero' ra h
        subst this
        exact hv
      · trivial

theorem bop_ok {m : Mach} {o : Ar} {t ta tb : T} {a b c : Int} {x y : Opr} (ha : Holds m x ta a) (sa : SU ta t) (hb : Holds m y tb b)
    (hs : o ≠ .shl → o ≠ .shr → SU tb t) (ra : InRange ta.size ta.uns a) (rb : InRange tb.size tb.uns b)
    (h : opT o t.size t.uns a b = some c) : ResOk m t c (IrFold.bop (foB o) t.uns (idx (szT t)) (fo x) (fo y)) := by
  cases x with
  | const l z =>
    cases y with
    | const r z' =>
      obtain ⟨v, e, hv⟩ := fold_ok (ha.su sa).2 hb.2 hs h
      simp only [fo, IrFold.bop, e]
      split
      · trivial
      · rw [szT_idx]
        exact ⟨rfl, hv⟩
    | reg v => exact bop_left (ha.su sa) hb hs rb h
  | reg v =>
    cases y with
    | const r z' => exact bop_right ha sa hb hs (by rw [← sa.1, ← sa.2]; exact ra) h
    | reg v' =>
      simp only [fo, IrFold.bop, reduceCtorEq, false_and, if_false]
      trivial

/-! ## Lemmas: execution -/

/-- The code stands at `p`. -/
def At (C : List In) (p : Nat) (code : List In) : Prop := ∃ a b, C = a ++ code ++ b ∧ a.length = p

theorem At.left {C : List In} {p : Nat} {x y : List In} (h : At C p (x ++ y)) : At C p x := by
  obtain ⟨a, b, rfl, h⟩ := h
  exact ⟨a, y ++ b, by simp, h⟩

theorem At.right {C : List In} {p : Nat} {x y : List In} (h : At C p (x ++ y)) : At C (p + x.length) y := by
  obtain ⟨a, b, rfl, h⟩ := h
  exact ⟨a ++ x, b, by simp, by simp [h]⟩

theorem At.head {C : List In} {p : Nat} {i : In} {y : List In} (h : At C p (i :: y)) : C[p]? = some i := by
  obtain ⟨a, b, rfl, rfl⟩ := h
  simp

theorem At.tail {C : List In} {p : Nat} {i : In} {y : List In} (h : At C p (i :: y)) : At C (p + 1) y :=
  At.right (x := [i]) h

inductive Go (Γ : Ctx) (C : List In) : Nat × Mach → Nat × Mach → Prop where
  | refl (t : Nat × Mach) : Go Γ C t t
  | step {t u v : Nat × Mach} (h : exec Γ C t = some u) (g : Go Γ C u v) : Go Γ C t v

theorem Go.trans {Γ : Ctx} {C : List In} {t u v : Nat × Mach} (g : Go Γ C t u) (g' : Go Γ C u v) : Go Γ C t v := by
  induction g with
  | refl _ => exact g'
  | step h _ ih => exact .step h (ih g')

theorem Go.one {Γ : Ctx} {C : List In} {t u : Nat × Mach} (h : exec Γ C t = some u) : Go Γ C t u := .step h (.refl _)

theorem Go.len {Γ : Ctx} {C : List In} {t : Nat × Mach} {q q' : Nat} {m : Mach} (g : Go Γ C t (q, m)) (h : q = q') : Go Γ C t (q', m) := h ▸ g

theorem go_run {Γ : Ctx} {C : List In} {t u : Nat × Mach} (g : Go Γ C t u) : ∃ n, run Γ C n t = some u := by
  induction g with
  | refl _ => exact ⟨0, rfl⟩
  | step h _ ih =>
    obtain ⟨n, hn⟩ := ih
    exact ⟨n + 1, by simp only [run, h, Option.bind_some]; exact hn⟩

theorem exec_ir {Γ : Ctx} {C : List In} {p : Nat} {i : Ir} {m m' : Mach} (h : C[p]? = some (.ir i)) (hs : stepV i m = some m') :
    exec Γ C (p, m) = some (p + 1, m') := by
  simp only [exec, h, hs, Option.map_some]

theorem exec_lab {Γ : Ctx} {C : List In} {p l : Nat} {m : Mach} (h : C[p]? = some (.lab l)) : exec Γ C (p, m) = some (p + 1, m) := by
  simp only [exec, h]

theorem exec_jmp {Γ : Ctx} {C : List In} {p l q : Nat} {m : Mach} (h : C[p]? = some (.jmp l)) (hf : find C l = some q) :
    exec Γ C (p, m) = some (q, m) := by
  simp only [exec, h, hf, Option.map_some]

theorem exec_iofs {Γ : Ctx} {C : List In} {p x a : Nat} {d : V} {m : Mach} (h : C[p]? = some (.iofs d x)) (hl : (Γ x).loc = some a) :
    exec Γ C (p, m) = some (p + 1, m.put (fun _ => false) d (a % 2 ^ 64)) := by
  simp only [exec, h, hl, Option.map_some]

theorem genBop_ok {Γ : Ctx} {C : List In} {p : Nat} {m : Mach} {o : Ar} {t ta tb : T} {a b c : Int} {x y : Opr} {s : Fr}
    (ha : Holds m x ta a) (sa : SU ta t) (hb : Holds m y tb b)
    (hs : o ≠ .shl → o ≠ .shr → SU tb t) (ra : InRange ta.size ta.uns a) (rb : InRange tb.size tb.uns b)
    (h : opT o t.size t.uns a b = some c) (hC : At C p (genBop o t.uns (szT t) x y s).code) :
    ∃ m', Go Γ C (p, m) (p + (genBop o t.uns (szT t) x y s).code.length, m') ∧ Keep s.k m m' ∧
      Holds m' (genBop o t.uns (szT t) x y s).opr t c := by
  have hbp := bop_ok ha sa hb hs ra rb h
  unfold genBop at hC ⊢
  generalize IrFold.bop (foB o) t.uns (idx (szT t)) (fo x) (fo y) = res at hC hbp ⊢
  cases res with
  | opr r => exact ⟨m, .refl _, Keep.refl _ _, hbp⟩
  | trap => exact hbp.elim
  | neg r =>
    obtain ⟨v, w, rfl, hv, rfl⟩ := hbp
    refine ⟨_, .one (exec_ir hC.head ?_), keep_put _ _ _ _, rfl, put_self _ _ _⟩
    simp only [stepV, X64Sel.step, hv.val, if_true]
    rw [szT_bits]
    congr 2
    rw [bits_conv]
    exact bits_modEq t (bits_mod t w).neg
  | emit =>
    refine ⟨_, .one (exec_ir hC.head ?_), keep_put _ _ _ _, rfl, put_self _ _ _⟩
    have ha := ha.su sa
    have ra' := ra
    rw [sa.1, sa.2] at ra'
    have hz : x.z = (⟨s.k, szT t⟩ : V).z ∧ (irB o = .shl ∨ irB o = .shr ∨ y.z = (⟨s.k, szT t⟩ : V).z) := by
      refine ⟨ha.z, ?_⟩
      by_cases h1 : o = .shl
      · exact Or.inl (by rw [h1]; rfl)
      · by_cases h2 : o = .shr
        · exact Or.inr (Or.inl (by rw [h2]; rfl))
        · exact Or.inr (Or.inr (hb.su (hs h1 h2)).z)
    simp only [stepV, X64Sel.step, ha.val, hb.val, if_pos hz]
    rw [szT_bits]
    suffices opSem (irB o) t.uns (8 * t.size) (bits t a) (bits tb b) = some (bits t c) by rw [this]; rfl
    by_cases h1 : o = .shl
    · subst h1
      have hc : 0 ≤ b ∧ b < 8 * (max t.size 4 : Nat) := by
        simp only [opT] at h
        split at h
        · assumption
        · cases h
      have : bits tb b = b.toNat := by
        obtain ⟨n, rfl⟩ := Int.eq_ofNat_of_zero_le hc.1
        refine (bits_nat tb ?_).trans rfl
        have := hc.2
        rcases tsz t with q | q | q | q <;> rcases tsz tb with q' | q' | q' | q' <;> rw [q] at this <;> rw [q'] <;> simp at this ⊢ <;> omega
      rw [this]
      exact opSem_shl h
    · by_cases h2 : o = .shr
      · subst h2
        have hc : 0 ≤ b ∧ b < 8 * (max t.size 4 : Nat) := by
          simp only [opT] at h
          split at h
          · assumption
          · cases h
        have : bits tb b = b.toNat := by
          obtain ⟨n, rfl⟩ := Int.eq_ofNat_of_zero_le hc.1
          refine (bits_nat tb ?_).trans rfl
          have := hc.2
          rcases tsz t with q | q | q | q <;> rcases tsz tb with q' | q' | q' | q' <;> rw [q] at this <;> rw [q'] <;> simp at this ⊢ <;> omega
        rw [this]
        exact opSem_shr ra' h
      · have hs := hs h1 h2
        rw [hs.1, hs.2] at rb
        rw [bits_su hs]
        exact opSem_ok ⟨h1, h2⟩ ra' rb h

def unV (k : IrFold.Uop) (a : Int) : Int :=
  match k with
  | .neg => -a
  | .not => -a - 1

theorem genUn_ok {Γ : Ctx} {C : List In} {p : Nat} {m : Mach} {k : IrFold.Uop} {t te : T} {a : Int} {x : Opr} {s : Fr}
    (ha : Holds m x te a) (sa : SU te t) (hC : At C p (genUn k t.uns (szT t) x s).code) :
    ∃ m', Go Γ C (p, m) (p + (genUn k t.uns (szT t) x s).code.length, m') ∧ Keep s.k m m' ∧
      Holds m' (genUn k t.uns (szT t) x s).opr t (conv t.size t.uns (unV k a)) := by
  have ha := ha.su sa
  cases x with
  | const c z =>
    refine ⟨m, .refl _, Keep.refl _ _, rfl, ?_⟩
    have hc := ha.2
    have hI := rep_i64 (tsz t) hc
    unfold IrFold.unary
    rw [szT_idx]
    cases k with
    | neg => exact wrap_modEq (toS64_i64 _) ((i64_modEq t _).trans (rep_modEq hc).neg)
    | not =>
      have hn : IsI64 (-c - 1) := by
        unfold IsI64 at hI ⊢
        omega
      exact wrap_modEq hn ((rep_modEq hc).neg.sub_right _)
  | reg v =>
    have hv := ha.val
    have hlt := bits_lt t a
    refine ⟨_, .one (exec_ir hC.head (m' := m.put (fun _ => false) ⟨s.k, szT t⟩ (bits t (conv t.size t.uns (unV k a)))) ?_),
      keep_put _ _ _ _, rfl, put_self _ _ _⟩
    cases k with
    | neg =>
      simp only [stepV, X64Sel.step, hv, ha.1, if_true]
      rw [szT_bits]
      congr 2
      rw [bits_conv]
      exact bits_modEq t (bits_mod t a).neg
    | not =>
      simp only [stepV, X64Sel.step, hv, ha.1, if_true]
      rw [szT_bits]
      congr 2
      rw [bits_conv]
      have hp : 2 ^ (8 * t.size) - 1 - bits t a < 2 ^ (8 * t.size) := by omega
      rw [← bits_nat t hp]
      apply bits_modEq
      have e : ((2 ^ (8 * t.size) - 1 - bits t a : Nat) : Int) = 2 ^ (8 * t.size) + (-(bits t a : Int) - 1) := by
        have : bits t a ≤ 2 ^ (8 * t.size) - 1 := by omega
        have h1 : 1 ≤ 2 ^ (8 * t.size) := by omega
        push_cast [Nat.cast_sub this, Nat.cast_sub h1]
        ring
      rw [e]
      have h0 : (2 : Int) ^ (8 * t.size) ≡ 0 [ZMOD 2 ^ (8 * t.size)] := by
        exact Int.emod_self.trans (Int.zero_emod _).symm
      have := h0.add ((bits_mod t a).neg.sub_right 1)
      rwa [Int.zero_add] at this

/-- A constant cast without wrapping stays in the form the compiler expects. -/
def castSafe (te t : T) : Bool :=
  decide (t.size < te.size) || (te.uns && decide (te.size < t.size)) || decide (t.size = 8) || (te.uns == t.uns)

theorem szT_inj {t t' : T} (h : szT t = szT t') : t.size = t'.size := by rw [← szT_bytes, h, szT_bytes]

theorem idx_lt (t t' : T) : idx (szT t) < idx (szT t') ↔ t.size < t'.size := by
  unfold szT
  rcases tsz t with h | h | h | h <;> rcases tsz t' with h' | h' | h' | h' <;> rw [h, h'] <;> decide

theorem rep_conv01 {te t : T} {a c : Int} (h : Rep te.size te.uns a c) (hc : c = 0 ∨ c = 1) : Rep t.size t.uns (conv t.size t.uns a) c := by
  have e := rep_cell h hc
  subst e
  have := rep01 t hc
  rwa [conv_self this.1]

theorem cast_const {te t : T} {a c : Int} (h : Rep te.size te.uns a c) (hc : castSafe te t = true ∨ c = 0 ∨ c = 1) :
    Rep t.size t.uns (conv t.size t.uns a) (IrFold.genCast t.uns (idx (szT te)) (idx (szT t)) c) := by
  unfold IrFold.genCast
  simp only [szT_idx, idx_lt]
  split
  · exact rep_cast (tsz te) (tsz t) _ h
  · rename_i hn
    rcases hc with hc | hc
    · have hI := rep_i64 (tsz te) h
      have hcg := rep_congr (tsz te) h
      obtain ⟨h1, h2⟩ := h
      have hs : ¬ t.size < te.size := fun q => hn ⟨q, by rcases tsz te with e | e | e | e <;> rcases tsz t with e' | e' | e' | e' <;> omega⟩
      unfold castSafe at hc
      unfold Rep InRange conv toS at *
      generalize t.uns = u at *
      generalize te.uns = ue at *
      rcases tsz te with e | e | e | e <;> rcases tsz t with e' | e' | e' | e' <;> rw [e] at h1 h2 hc hs <;> rw [e'] at hc hs ⊢ <;>
        revert h1 h2 hc hs <;> cases u <;> cases ue <;> simp [IsI64] at * <;> (try split) <;> (try split) <;> omega
    · exact rep_conv01 h hc

theorem genCast_ok {Γ : Ctx} {C : List In} {p : Nat} {m : Mach} {t te : T} {a : Int} {x : Opr} {s : Fr}
    (ha : Holds m x te a) (ra : InRange te.size te.uns a) (hc : ∀ c z, x = .const c z → castSafe te t = true ∨ c = 0 ∨ c = 1)
    (hC : At C p (genCast t te.uns x s).code) :
    ∃ m', Go Γ C (p, m) (p + (genCast t te.uns x s).code.length, m') ∧ Keep s.k m m' ∧
      Holds m' (genCast t te.uns x s).opr t (conv t.size t.uns a) := by
  cases x with
  | const c z =>
    obtain ⟨rfl, h⟩ := ha
    exact ⟨m, .refl _, Keep.refl _ _, rfl, cast_const h (hc _ _ rfl)⟩
  | reg v =>
    simp only [genCast] at hC ⊢
    split
    · rename_i hz
      refine ⟨m, .refl _, Keep.refl _ _, hz, ?_⟩
      have hs := szT_inj (ha.1.symm.trans hz)
      rw [ha.2, bits_conv]
      congr 2
      unfold bits
      rw [hs]
    · rename_i hz
      rw [if_neg hz] at hC
      refine ⟨_, .one (exec_ir hC.head (m' := m.put (fun _ => false) ⟨s.k, szT t⟩ (bits t (conv t.size t.uns a))) ?_), keep_put _ _ _ _, rfl, put_self _ _ _⟩
      simp only [stepV, X64Sel.step, ha.val]
      show some (m.put _ _ (toU (szT t).bits (if te.uns then ((bits te a : Nat) : Int) else toS v.z.bits ((bits te a : Nat) : Int))).toNat) = _
      congr 2
      rw [ha.1, szT_bits, szT_bits, bits_conv]
      split
      · rename_i hu
        rw [bits_uns hu ra]
        rfl
      · rename_i hu
        rw [toS_bits (by simpa using hu) ra]
        rfl

/-! ## Lemmas: comparisons -/

theorem holds_condOf (k : Rel) (u : Bool) (a b : Int) : Cond.holds (condOf k + uflag u) (Cond.cmpInt a b) = decide (holds k a b) := by
  rw [Bool.eq_iff_iff, decide_eq_true_iff]
  unfold Cond.cmpInt
  by_cases h1 : a < b
  · cases k <;> cases u <;> simp [h1, condOf, uflag, Cond.holds, holds] <;> omega
  · by_cases h2 : a = b
    · subst h2
      cases k <;> cases u <;> simp [condOf, uflag, Cond.holds, holds]
    · cases k <;> cases u <;> simp [h1, h2, condOf, uflag, Cond.holds, holds] <;> omega

theorem cmpW_ok {t : T} {k : Nat} {a b : Int} (hk : k < 8) (ha : InRange t.size t.uns a) (hb : InRange t.size t.uns b) :
    Cond.cmpW (szT t).bits (k + uflag t.uns) (bits t a) (bits t b) = Cond.cmpInt a b := by
  unfold Cond.cmpW
  rw [szT_bits]
  by_cases hu : t.uns = true
  · rw [if_pos (by simp [hu, uflag]; omega), bits_uns hu ha, bits_uns hu hb]
  · have hu : t.uns = false := by simpa using hu
    rw [if_neg (by simp [hu, uflag]; omega), toS_bits hu ha, toS_bits hu hb]

theorem condOf_lt (k : Rel) : condOf k < 8 := by cases k <;> decide

/-- What a comparison amounts to. -/
def CmpOk (m : Mach) (r : Bool) : Cmp → Prop
  | .known b => b = r
  | .ask c x y => ∃ A B, X64Sel.val m.ρ (.reg x) = some A ∧ X64Sel.val m.ρ y = some B ∧ y.z = x.z ∧ Cond.holds c (Cond.cmpW x.z.bits c A B) = r
  | .bad => False

theorem genCmp_ok {m : Mach} {k : Rel} {ta tb : T} {a b : Int} {x y : Opr} (ha : Holds m x ta a) (hb : Holds m y tb b) (hs : SU tb ta)
    (ra : InRange ta.size ta.uns a) (rb : InRange tb.size tb.uns b) : CmpOk m (decide (holds k a b)) (genCmp k ta.uns x y) := by
  have hb := hb.su hs
  rw [hs.1, hs.2] at rb
  cases x with
  | const l z =>
    cases y with
    | const r z' =>
      have e := Cond.calcConstCond_correct (condOf k + uflag ta.uns) (by cases k <;> cases ta.uns <;> decide)
        (by cases k <;> cases ta.uns <;> decide) l r (rep_i64 (tsz ta) ha.2) (rep_i64 (tsz ta) hb.2)
      have e2 : Cond.cmp64 (condOf k + uflag ta.uns) l r = Cond.cmpInt a b := by
        unfold Cond.cmp64
        by_cases hu : ta.uns = true
        · have h1 := ha.2
          have h2 := hb.2
          rw [hu] at h1 h2
          rw [if_pos (by have := condOf_lt k; simp [hu, uflag]; omega), rep_uns (tsz ta) h1, rep_uns (tsz ta) h2]
        · have hu : ta.uns = false := by simpa using hu
          have h1 := ha.2
          have h2 := hb.2
          rw [hu] at h1 h2
          rw [if_neg (by have := condOf_lt k; simp [hu, uflag]; omega), rep_sgn h1, rep_sgn h2]
      rw [e2, holds_condOf] at e
      simp only [genCmp, e]
      rfl
    | reg v =>
      obtain ⟨c', e, hlt, hsw⟩ := Cond.swap_correct (condOf k) (condOf_lt k)
      simp only [genCmp, e]
      refine ⟨_, _, hb.val, ha.val, ?_, ?_⟩
      · exact ha.1.trans hb.1.symm
      · rw [hb.1, cmpW_ok hlt rb ra, Cond.cmpInt_swap a b]
        have e1 : ∀ o, Cond.holds (c' + uflag ta.uns) o = Cond.holds c' o := by
          intro o
          have : (c' + uflag ta.uns) % 8 = c' % 8 := by unfold uflag; split <;> omega
          unfold Cond.holds
          rw [this]
        rw [e1, hsw]
        have := holds_condOf k false a b
        exact this
  | reg v =>
    simp only [genCmp]
    refine ⟨_, _, ha.val, hb.val, ?_, ?_⟩
    · exact hb.z.trans ha.1.symm
    · rw [ha.1, cmpW_ok (condOf_lt k) ra rb, holds_condOf]

/-! ## Which registers an expression's value may be read from, and which it writes -/

/-- The variables that may themselves be the result: they are read only when the result is used. -/
def tails : X → List Nat
  | .var _ x => [x]
  | .cast _ e => tails e
  | .bin _ _ a b => tails a ++ tails b
  | .pos _ e => tails e
  | .comma _ _ b => tails b
  | .asg _ _ r => tails r
  | .ref _ e =>
    match e with
    | .deref _ e => tails e
    | _ => []
  | _ => []

def target : X → List Nat
  | .var _ x => [x]
  | _ => []

/-- The variables assigned to. -/
def sets : X → List Nat
  | .lit _ _ => []
  | .var _ _ => []
  | .cast _ e => sets e
  | .bin _ _ a b => sets a ++ sets b
  | .rel _ a b => sets a ++ sets b
  | .land a b => sets a ++ sets b
  | .lor a b => sets a ++ sets b
  | .pos _ e => sets e
  | .neg _ e => sets e
  | .bnot _ e => sets e
  | .comma _ a b => sets a ++ sets b
  | .tern _ c a b => sets c ++ (sets a ++ sets b)
  | .asg _ l r => sets r ++ (sets l ++ target l)
  | .inc _ _ _ l => sets l ++ target l
  | .deref _ e => sets e
  | .ref _ e => sets e

/-- The second expression does not change what the first one's value may be read from. -/
def apart (a b : X) : Bool := (tails a).all fun x => !(sets b).contains x

/-- The result may be a constant. -/
def cst : X → Bool
  | .lit _ _ => true
  | .cast _ e => cst e
  | .bin _ _ a b => cst a || cst b
  | .rel _ a b => cst a && cst b
  | .pos _ e => cst e
  | .neg _ e => cst e
  | .bnot _ e => cst e
  | .comma _ _ b => cst b
  | .asg _ _ r => cst r
  | .ref _ e =>
    match e with
    | .deref _ e => cst e
    | _ => false
  | _ => false

/-- The result may be a constant other than 0 and 1. -/
def big : X → Bool
  | .lit _ v => !(decide (v = 0) || decide (v = 1))
  | .cast _ e => cst e
  | .bin _ _ a b => cst a && cst b
  | .pos _ e => big e
  | .neg _ e => cst e
  | .bnot _ e => cst e
  | .comma _ _ b => big b
  | .asg _ _ r => big r
  | .ref _ e =>
    match e with
    | .deref _ e => big e
    | _ => false
  | _ => false

instance (t t' : T) : Decidable (SU t t') := by unfold SU; infer_instance

/-- The trees for which the code is right: the types of operands fit, variables are below `K` and registers have their size
(`R`), constants are cast in a way the compiler gets right, and values are not read after they have changed.
`c`: the tree is a condition. -/
def good (Γ : Ctx) (R : Nat → X64.Sz) (K : Nat) : Bool → X → Bool
  | _, .lit _ _ => true
  | c, .var t x => !c && decide (x < K) && ((Γ x).loc.isSome || decide (R x = szT t))
  | c, .cast t e => !c && good Γ R K false e && (castSafe e.ty t || !big e)
  | c, .bin _ _ a b => !c && good Γ R K false a && good Γ R K false b && apart a b
  | _, .rel _ a b => good Γ R K false a && good Γ R K false b && decide (SU b.ty a.ty) && apart a b
  | _, .land a b => good Γ R K true a && good Γ R K true b
  | _, .lor a b => good Γ R K true a && good Γ R K true b
  | c, .pos _ e => !c && good Γ R K false e
  | c, .neg t e => !c && good Γ R K false e && decide (SU e.ty t)
  | c, .bnot t e => !c && good Γ R K false e && decide (SU e.ty t)
  | c, .comma t a b => good Γ R K false a && good Γ R K c b && (c || decide (SU b.ty t))
  | c, .tern t d a b =>
    !c && good Γ R K true d && good Γ R K false a && good Γ R K false b && decide (SU a.ty t) && decide (SU b.ty t)
  | c, .asg t l r => !c && isLvX l && good Γ R K false l && good Γ R K false r && decide (SU r.ty t) && apart r l
  | c, .inc _ _ _ l => !c && isLvX l && good Γ R K false l
  | c, .deref _ e => !c && good Γ R K false e
  | c, .ref _ e => !c && isLvX e && good Γ R K false e

/-! ## Lemmas: what the code looks like -/

/-- Induction in which the pointer of a target is a part of the assignment. -/
theorem ind {P : X → Prop} (lit : ∀ t v, P (.lit t v)) (var : ∀ t x, P (.var t x)) (cast : ∀ t e, P e → P (.cast t e))
    (bin : ∀ o t a b, P a → P b → P (.bin o t a b)) (rel : ∀ k a b, P a → P b → P (.rel k a b)) (land : ∀ a b, P a → P b → P (.land a b))
    (lor : ∀ a b, P a → P b → P (.lor a b)) (pos : ∀ t e, P e → P (.pos t e)) (neg : ∀ t e, P e → P (.neg t e))
    (bnot : ∀ t e, P e → P (.bnot t e)) (comma : ∀ t a b, P a → P b → P (.comma t a b)) (tern : ∀ t c a b, P c → P a → P b → P (.tern t c a b))
    (asg : ∀ t l r, (∀ t' e, l = .deref t' e → P e) → P r → P (.asg t l r)) (inc : ∀ p d t l, (∀ t' e, l = .deref t' e → P e) → P (.inc p d t l))
    (deref : ∀ t e, P e → P (.deref t e)) (ref : ∀ t e, (∀ t' e', e = .deref t' e' → P e') → P (.ref t e)) (x : X) : P x := by
  have : P x ∧ ∀ t e, x = .deref t e → P e := by
    induction x with
    | lit t v => exact ⟨lit t v, fun _ _ h => nomatch h⟩
    | var t x => exact ⟨var t x, fun _ _ h => nomatch h⟩
    | cast t e ih => exact ⟨cast t e ih.1, fun _ _ h => nomatch h⟩
    | bin o t a b iha ihb => exact ⟨bin o t a b iha.1 ihb.1, fun _ _ h => nomatch h⟩
    | rel k a b iha ihb => exact ⟨rel k a b iha.1 ihb.1, fun _ _ h => nomatch h⟩
    | land a b iha ihb => exact ⟨land a b iha.1 ihb.1, fun _ _ h => nomatch h⟩
    | lor a b iha ihb => exact ⟨lor a b iha.1 ihb.1, fun _ _ h => nomatch h⟩
    | pos t e ih => exact ⟨pos t e ih.1, fun _ _ h => nomatch h⟩
    | neg t e ih => exact ⟨neg t e ih.1, fun _ _ h => nomatch h⟩
    | bnot t e ih => exact ⟨bnot t e ih.1, fun _ _ h => nomatch h⟩
    | comma t a b iha ihb => exact ⟨comma t a b iha.1 ihb.1, fun _ _ h => nomatch h⟩
    | tern t c a b ihc iha ihb => exact ⟨tern t c a b ihc.1 iha.1 ihb.1, fun _ _ h => nomatch h⟩
    | asg t l r ihl ihr => exact ⟨asg t l r ihl.2 ihr.1, fun _ _ h => nomatch h⟩
    | inc p d t l ih => exact ⟨inc p d t l ih.2, fun _ _ h => nomatch h⟩
    | deref t e ih => exact ⟨deref t e ih.1, fun _ _ h => by injection h with _ h; subst h; exact ih.1⟩
    | ref t e ih => exact ⟨ref t e ih.2, fun _ _ h => nomatch h⟩
  exact this.1

/-- Counters grow. -/
def Fr.le (s s' : Fr) : Prop := s.k ≤ s'.k ∧ s.l ≤ s'.l

theorem Fr.le.refl (s : Fr) : s.le s := ⟨Nat.le_refl _, Nat.le_refl _⟩

theorem Fr.le.trans {s s' s'' : Fr} (h : s.le s') (h' : s'.le s'') : s.le s'' := ⟨h.1.trans h'.1, h.2.trans h'.2⟩

def Opr.isC : Opr → Bool
  | .const _ _ => true
  | .reg _ => false

theorem bop_reg {k : IrFold.Bop} {u : Bool} {n : Nat} {x y : IrFold.Opr} {r : Nat} (h : IrFold.bop k u n x y = .opr (.reg r)) :
    x = .reg r ∨ y = .reg r := by
  cases x <;> cases y <;> cases k <;> simp only [IrFold.bop, IrFold.negOpr] at h <;> (repeat' split at h) <;> simp_all

theorem bop_const {k : IrFold.Bop} {u : Bool} {n : Nat} {x y : IrFold.Opr} {c : Int} (h : IrFold.bop k u n x y = .opr (.const c)) :
    (∃ l r, x = .const l ∧ y = .const r) ∨ (c = 0 ∧ ((∃ l, x = .const l) ∨ ∃ r, y = .const r)) := by
  cases x <;> cases y <;> cases k <;> simp only [IrFold.bop, IrFold.negOpr] at h <;> (repeat' split at h) <;> simp_all

theorem bop_fail {k : IrFold.Bop} {u : Bool} {n : Nat} {x y : IrFold.Opr} (h : IrFold.bop k u n x y = .trap) :
    ∃ l r, x = .const l ∧ y = .const r := by
  cases x <;> cases y <;> cases k <;> simp only [IrFold.bop, IrFold.negOpr] at h <;> (repeat' split at h) <;> simp_all

theorem bop_neg {k : IrFold.Bop} {u : Bool} {n : Nat} {x y : IrFold.Opr} {c : Int} (h : IrFold.bop k u n x y = .neg (.const c)) : False := by
  cases x <;> cases y <;> cases k <;> simp only [IrFold.bop, IrFold.negOpr] at h <;> (repeat' split at h) <;> simp_all

/-- What is known about the operand made of others. -/
structure OprOk (s : Fr) (r : OutE) (regs : Nat → Prop) (c b : Prop) : Prop where
  le : s.le r.s
  reg : ∀ v, r.opr = .reg v → regs v.p ∨ (s.k ≤ v.p ∧ v.p < r.s.k)
  con : ∀ k z, r.opr = .const k z → c ∧ (b ∨ k = 0 ∨ k = 1)

def regOf (o : Opr) (n : Nat) : Prop := ∃ v, o = .reg v ∧ v.p = n

theorem fo_reg {x : Opr} {n : Nat} (h : fo x = .reg n) : regOf x n := by
  cases x with
  | const c z => cases h
  | reg v => injection h with h; exact ⟨v, rfl, h⟩

theorem fo_const {x : Opr} {l : Int} (h : fo x = .const l) : ∃ z, x = .const l z := by
  cases x with
  | const c z => injection h with h; subst h; exact ⟨z, rfl⟩
  | reg v => cases h

def isC (o : Opr) : Prop := ∃ c z, o = .const c z

theorem genBop_st (o : Ar) (u : Bool) (z : X64.Sz) (x y : Opr) (s : Fr) :
    OprOk s (genBop o u z x y s) (fun n => regOf x n ∨ regOf y n) (isC x ∨ isC y) (isC x ∧ isC y) := by
  unfold genBop
  split
  · rename_i r e
    refine ⟨Fr.le.refl _, fun v h => ?_, fun k z' h => ?_⟩
    · cases r with
      | const c => cases h
      | reg n =>
        injection h with h
        subst h
        exact Or.inl ((bop_reg e).imp fo_reg fo_reg)
    · cases r with
      | reg n => cases h
      | const c =>
        injection h with h h'
        subst h
        rcases bop_const e with ⟨l, r, h1, h2⟩ | ⟨h1, h2 | h2⟩
        · obtain ⟨z1, h1⟩ := fo_const h1
          obtain ⟨z2, h2⟩ := fo_const h2
          exact ⟨Or.inl ⟨_, _, h1⟩, Or.inl ⟨⟨_, _, h1⟩, ⟨_, _, h2⟩⟩⟩
        · obtain ⟨l, h2⟩ := h2
          obtain ⟨z1, h2⟩ := fo_const h2
          exact ⟨Or.inl ⟨_, _, h2⟩, Or.inr (Or.inl h1)⟩
        · obtain ⟨l, h2⟩ := h2
          obtain ⟨z1, h2⟩ := fo_const h2
          exact ⟨Or.inr ⟨_, _, h2⟩, Or.inr (Or.inl h1)⟩
  · refine ⟨⟨Nat.le_succ _, Nat.le_refl _⟩, fun v h => ?_, fun k z' h => (by cases h)⟩
    injection h with h
    subst h
    exact Or.inr ⟨Nat.le_refl _, Nat.lt_succ_self _⟩
  · refine ⟨⟨Nat.le_succ _, Nat.le_refl _⟩, fun v h => ?_, fun k z' h => (by cases h)⟩
    injection h with h
    subst h
    exact Or.inr ⟨Nat.le_refl _, Nat.lt_succ_self _⟩
  · rename_i h1 h2 h3
    refine ⟨Fr.le.refl _, fun v h => (by cases h), fun k z' h => ?_⟩
    injection h with h h'
    subst h
    cases e : IrFold.bop (foB o) u (idx z) (fo x) (fo y) with
    | opr r => exact absurd e (h1 r)
    | emit => exact absurd e h3
    | neg r =>
      cases r with
      | reg n => exact absurd e (h2 n)
      | const c => exact (bop_neg e).elim
    | trap =>
      obtain ⟨l, r, h1, h2⟩ := bop_fail e
      obtain ⟨z1, h1⟩ := fo_const h1
      obtain ⟨z2, h2⟩ := fo_const h2
      exact ⟨Or.inl ⟨_, _, h1⟩, Or.inl ⟨⟨_, _, h1⟩, ⟨_, _, h2⟩⟩⟩

theorem genUn_st (k : IrFold.Uop) (u : Bool) (z : X64.Sz) (x : Opr) (s : Fr) :
    OprOk s (genUn k u z x s) (fun _ => False) (isC x) (isC x) := by
  cases x with
  | const c z' => exact ⟨Fr.le.refl _, fun v h => (by cases h), fun _ _ _ => ⟨⟨_, _, rfl⟩, Or.inl ⟨_, _, rfl⟩⟩⟩
  | reg v =>
    refine ⟨⟨Nat.le_succ _, Nat.le_refl _⟩, fun v h => ?_, fun k z' h => (by cases h)⟩
    injection h with h
    subst h
    exact Or.inr ⟨Nat.le_refl _, Nat.lt_succ_self _⟩

theorem genCast_st (t : T) (u : Bool) (x : Opr) (s : Fr) : OprOk s (genCast t u x s) (regOf x) (isC x) (isC x) := by
  cases x with
  | const c z' => exact ⟨Fr.le.refl _, fun v h => (by cases h), fun _ _ _ => ⟨⟨_, _, rfl⟩, Or.inl ⟨_, _, rfl⟩⟩⟩
  | reg w =>
    simp only [genCast]
    split
    · exact ⟨Fr.le.refl _, fun v h => Or.inl (by injection h with h; subst h; exact ⟨w, rfl, rfl⟩), fun k z' h => (by cases h)⟩
    · refine ⟨⟨Nat.le_succ _, Nat.le_refl _⟩, fun v h => ?_, fun k z' h => (by cases h)⟩
      injection h with h
      subst h
      exact Or.inr ⟨Nat.le_refl _, Nat.lt_succ_self _⟩

theorem genRel_st (k : Rel) (u : Bool) (x y : Opr) (s : Fr) :
    OprOk s (genRel (genCmp k u x y) s) (fun _ => False) (isC x ∧ isC y) False := by
  have fresh : ∀ c (v : V) (o : Opr), OprOk s (genRel (.ask c v o) s) (fun _ => False) (isC x ∧ isC y) False := by
    intro c v o
    refine ⟨⟨Nat.le_succ _, Nat.le_refl _⟩, fun v h => ?_, fun k z' h => (by cases h)⟩
    injection h with h
    subst h
    exact Or.inr ⟨Nat.le_refl _, Nat.lt_succ_self _⟩
  cases x with
  | const l z =>
    cases y with
    | const r z' =>
      have hc : isC (.const l z) ∧ isC (.const r z') := ⟨⟨_, _, rfl⟩, ⟨_, _, rfl⟩⟩
      simp only [genCmp]
      split
      · rename_i b _
        refine ⟨Fr.le.refl _, fun v h => (by cases h), fun k z' h => ⟨hc, Or.inr ?_⟩⟩
        injection h with h _
        subst h
        cases b <;> simp
      · refine ⟨Fr.le.refl _, fun v h => (by cases h), fun k z' h => ⟨hc, Or.inr ?_⟩⟩
        injection h with h _
        exact Or.inl h.symm
    | reg v =>
      obtain ⟨c', e, _⟩ := Cond.swap_correct (condOf k) (condOf_lt k)
      simp only [genCmp, e]
      exact fresh _ _ _
  | reg v => exact fresh _ _ _

theorem genInc_eq (dec : Bool) (t : T) (v : V) (s : Fr) : genInc dec t (.reg v) s =
    ⟨[.ir (.bop (irB (arOf dec)) t.uns ⟨s.k, szT t⟩ (.reg v) (.const (stepOf t) (szT t)))], .reg ⟨s.k, szT t⟩, ⟨s.k + 1, s.l⟩⟩ := by
  have hs : stepOf t ≠ 0 := by
    cases t with
    | fx t => exact one_ne_zero
    | ptr e =>
      simp only [stepOf]
      rcases tsz e with q | q | q | q <;> rw [q] <;> decide
  cases dec <;> simp [genInc, genBop, arOf, foB, fo, IrFold.bop, hs]

theorem OprOk.weak {s s' : Fr} {r : OutE} {P P' : Nat → Prop} {c c' b b' : Prop} (h : OprOk s' r P c b) (hl : s.le s')
    (hP : ∀ n, P n → P' n ∨ (s.k ≤ n ∧ n < s'.k)) (hc : c → c') (hb : c → b → b' ∨ ∀ k z, r.opr = .const k z → k = 0 ∨ k = 1) : OprOk s r P' c' b' := by
  refine ⟨hl.trans h.le, fun v e => ?_, fun k z e => ?_⟩
  · rcases h.reg v e with q | q
    · rcases hP _ q with q | q
      · exact Or.inl q
      · exact Or.inr ⟨q.1, lt_of_lt_of_le q.2 h.le.1⟩
    · exact Or.inr ⟨hl.1.trans q.1, q.2⟩
  · obtain ⟨h1, h2⟩ := h.con k z e
    refine ⟨hc h1, ?_⟩
    rcases h2 with h2 | h2
    · rcases hb h1 h2 with q | q
      · exact Or.inl q
      · exact Or.inr (q k z e)
    · exact Or.inr h2

theorem oprOk_fresh {s s' : Fr} {code : List In} {n : Nat} {z : X64.Sz} {P : Nat → Prop} {c b : Prop} (hl : s.le s') (h1 : s.k ≤ n) (h2 : n < s'.k) :
    OprOk s ⟨code, .reg ⟨n, z⟩, s'⟩ P c b :=
  ⟨hl, fun v h => by injection h with h; subst h; exact Or.inr ⟨h1, h2⟩, fun k z' h => by cases h⟩

theorem oprOk_code {s : Fr} {code code' : List In} {o : Opr} {s' : Fr} {P : Nat → Prop} {c b : Prop} (h : OprOk s ⟨code, o, s'⟩ P c b) :
    OprOk s ⟨code', o, s'⟩ P c b := ⟨h.le, h.reg, h.con⟩

/-- What is known about the code before it runs. -/
theorem static (Γ : Ctx) (R : Nat → X64.Sz) (K : Nat) (x : X) : (∀ s, good Γ R K false x = true → OprOk s (genE Γ x s) (fun n => n ∈ tails x) (cst x = true) (big x = true)) ∧
    ∀ t f (s : Fr), good Γ R K true x = true → s.le (genC Γ x t f s).s := by
  induction x using ind with
  | lit t v =>
    refine ⟨fun s _ => ⟨Fr.le.refl _, fun v h => (by cases h), fun k z h => ⟨rfl, ?_⟩⟩, fun _ _ s _ => Fr.le.refl _⟩
    injection h with h _
    subst h
    simp only [big]
    by_cases h0 : v = 0
    · exact Or.inr (Or.inl h0)
    · by_cases h1 : v = 1
      · exact Or.inr (Or.inr h1)
      · simp [h0, h1]
  | var t x =>
    refine ⟨fun s _ => ?_, fun _ _ s h => by simp [good] at h⟩
    simp only [genE]
    split
    · exact ⟨Fr.le.refl _, fun v h => by injection h with h; subst h; exact Or.inl (List.mem_singleton.2 rfl), fun k z h => by cases h⟩
    · exact oprOk_fresh ⟨by simp, by simp⟩ (by simp) (by simp)
  | cast t e ih =>
    refine ⟨fun s h => ?_, fun _ _ s h => by simp [good] at h⟩
    simp only [good, Bool.and_eq_true, Bool.not_false, true_and] at h
    have he := ih.1 s h.1
    simp only [genE]
    have hc := genCast_st t e.ty.uns (genE Γ e s).opr (genE Γ e s).s
    refine oprOk_code (hc.weak he.le (fun n ⟨v, h1, h2⟩ => ?_) (fun ⟨c, z, h1⟩ => (he.con c z h1).1) fun ⟨c, z, h1⟩ _ => Or.inl (he.con c z h1).1)
    subst h2
    exact he.reg v h1
  | bin o t a b iha ihb =>
    refine ⟨fun s h => ?_, fun _ _ s h => by simp [good] at h⟩
    simp only [good, Bool.and_eq_true, Bool.not_false, true_and] at h
    have ha := iha.1 s h.1.1
    have hb := ihb.1 (genE Γ a s).s h.1.2
    simp only [genE]
    have hc := genBop_st o t.uns (szT t) (genE Γ a s).opr (genE Γ b (genE Γ a s).s).opr (genE Γ b (genE Γ a s).s).s
    refine oprOk_code (hc.weak (ha.le.trans hb.le) (fun n hn => ?_) ?_ ?_)
    · rcases hn with ⟨v, h1, h2⟩ | ⟨v, h1, h2⟩
      · subst h2
        rcases ha.reg v h1 with q | q
        · exact Or.inl (List.mem_append_left _ q)
        · exact Or.inr ⟨q.1, lt_of_lt_of_le q.2 hb.le.1⟩
      · subst h2
        rcases hb.reg v h1 with q | q
        · exact Or.inl (List.mem_append_right _ q)
        · exact Or.inr ⟨ha.le.1.trans q.1, q.2⟩
    · rintro (⟨c, z, h1⟩ | ⟨c, z, h1⟩)
      · simp [cst, (ha.con c z h1).1]
      · simp [cst, (hb.con c z h1).1]
    · rintro - ⟨⟨c, z, h1⟩, ⟨c', z', h2⟩⟩
      left
      simp [big, (ha.con c z h1).1, (hb.con c' z' h2).1]
  | rel k a b iha ihb =>
    have key : ∀ s : Fr, good Γ R K false a = true → good Γ R K false b = true → s.le (genE Γ b (genE Γ a s).s).s :=
      fun s h1 h2 => (iha.1 s h1).le.trans (ihb.1 _ h2).le
    refine ⟨fun s h => ?_, fun _ _ s h => ?_⟩
    · simp only [good, Bool.and_eq_true] at h
      have ha := iha.1 s h.1.1.1
      have hb := ihb.1 (genE Γ a s).s h.1.1.2
      simp only [genE]
      have hc := genRel_st k a.ty.uns (genE Γ a s).opr (genE Γ b (genE Γ a s).s).opr (genE Γ b (genE Γ a s).s).s
      refine oprOk_code (hc.weak (ha.le.trans hb.le) (fun n hn => hn.elim) ?_ (fun _ h => h.elim))
      rintro ⟨⟨c, z, h1⟩, ⟨c', z', h2⟩⟩
      simp [cst, (ha.con c z h1).1, (hb.con c' z' h2).1]
    · simp only [good, Bool.and_eq_true] at h
      simp only [genC]
      exact (key s h.1.1.1 h.1.1.2).trans (s'' := ⟨_, _⟩) ⟨Nat.le_refl _, Nat.le_succ _⟩
  | land a b iha ihb =>
    refine ⟨fun s h => ?_, fun _ _ s h => ?_⟩
    · simp only [good, Bool.and_eq_true] at h
      simp only [genE]
      have ha := iha.2 (s.l + 3) (s.l + 1) ⟨s.k, s.l + 4⟩ h.1
      have hb := ihb.2 s.l (s.l + 1) (genC Γ a (s.l + 3) (s.l + 1) ⟨s.k, s.l + 4⟩).s h.2
      have := ha.trans hb
      exact oprOk_fresh ⟨this.1.trans (Nat.le_succ _), (Nat.le_add_right _ 4).trans this.2⟩ this.1 (Nat.lt_succ_self _)
    · simp only [good, Bool.and_eq_true] at h
      simp only [genC]
      exact Fr.le.trans (s' := ⟨s.k, s.l + 1⟩) ⟨Nat.le_refl _, Nat.le_succ _⟩ ((iha.2 _ _ _ h.1).trans (ihb.2 _ _ _ h.2))
  | lor a b iha ihb =>
    refine ⟨fun s h => ?_, fun _ _ s h => ?_⟩
    · simp only [good, Bool.and_eq_true] at h
      simp only [genE]
      have ha := iha.2 s.l (s.l + 3) ⟨s.k, s.l + 4⟩ h.1
      have hb := ihb.2 s.l (s.l + 1) (genC Γ a s.l (s.l + 3) ⟨s.k, s.l + 4⟩).s h.2
      have := ha.trans hb
      exact oprOk_fresh ⟨this.1.trans (Nat.le_succ _), (Nat.le_add_right _ 4).trans this.2⟩ this.1 (Nat.lt_succ_self _)
    · simp only [good, Bool.and_eq_true] at h
      simp only [genC]
      exact Fr.le.trans (s' := ⟨s.k, s.l + 1⟩) ⟨Nat.le_refl _, Nat.le_succ _⟩ ((iha.2 _ _ _ h.1).trans (ihb.2 _ _ _ h.2))
  | pos t e ih =>
    refine ⟨fun s h => ?_, fun _ _ s h => by simp [good] at h⟩
    simp only [good, Bool.and_eq_true, Bool.not_false, true_and] at h
    simp only [genE]
    exact ih.1 s h
  | neg t e ih =>
    refine ⟨fun s h => ?_, fun _ _ s h => by simp [good] at h⟩
    simp only [good, Bool.and_eq_true, Bool.not_false, true_and] at h
    have he := ih.1 s h.1
    simp only [genE]
    exact oprOk_code ((genUn_st _ _ _ _ _).weak he.le (fun n hn => hn.elim) (fun ⟨c, z, h1⟩ => (he.con c z h1).1) fun ⟨c, z, h1⟩ _ => Or.inl (he.con c z h1).1)
  | bnot t e ih =>
    refine ⟨fun s h => ?_, fun _ _ s h => by simp [good] at h⟩
    simp only [good, Bool.and_eq_true, Bool.not_false, true_and] at h
    have he := ih.1 s h.1
    simp only [genE]
    exact oprOk_code ((genUn_st _ _ _ _ _).weak he.le (fun n hn => hn.elim) (fun ⟨c, z, h1⟩ => (he.con c z h1).1) fun ⟨c, z, h1⟩ _ => Or.inl (he.con c z h1).1)
  | comma t a b iha ihb =>
    refine ⟨fun s h => ?_, fun _ _ s h => ?_⟩
    · simp only [good, Bool.and_eq_true] at h
      have ha := iha.1 s h.1.1
      have hb := ihb.1 (genE Γ a s).s h.1.2
      simp only [genE]
      exact oprOk_code (hb.weak ha.le (fun n hn => Or.inl hn) id fun _ h => Or.inl h)
    · simp only [good, Bool.and_eq_true] at h
      simp only [genC]
      exact (iha.1 s h.1.1).le.trans (ihb.2 _ _ _ h.1.2)
  | tern t c a b ihc iha ihb =>
    refine ⟨fun s h => ?_, fun _ _ s h => by simp [good] at h⟩
    simp only [good, Bool.and_eq_true, Bool.not_false, true_and] at h
    simp only [genE]
    have hc := ihc.2 s.l (s.l + 1) ⟨s.k + 1, s.l + 3⟩ h.1.1.1.1
    have ha := iha.1 (genC Γ c s.l (s.l + 1) ⟨s.k + 1, s.l + 3⟩).s h.1.1.1.2
    have hb := ihb.1 (genE Γ a (genC Γ c s.l (s.l + 1) ⟨s.k + 1, s.l + 3⟩).s).s h.1.1.2
    have := (hc.trans ha.le).trans hb.le
    exact oprOk_fresh ⟨(Nat.le_succ _).trans this.1, (Nat.le_add_right _ 3).trans this.2⟩ (Nat.le_refl _) this.1
  | asg t l r ihl ihr =>
    refine ⟨fun s h => ?_, fun _ _ s h => by simp [good] at h⟩
    simp only [good, Bool.and_eq_true, Bool.not_false, true_and] at h
    obtain ⟨⟨⟨⟨hl, gl⟩, gr⟩, -⟩, -⟩ := h
    have hr := ihr.1 s gr
    cases l with
    | var t' x =>
      simp only [genE]
      split
      · exact oprOk_code hr
      · exact ⟨hr.le.trans ⟨Nat.le_succ _, Nat.le_refl _⟩, fun v e => (hr.reg v e).imp id fun q => ⟨q.1, lt_of_lt_of_le q.2 (Nat.le_succ _)⟩, hr.con⟩
    | deref t' e =>
      simp only [good, Bool.not_false, Bool.true_and] at gl
      have he := (ihl _ _ rfl).1 (genE Γ r s).s gl
      simp only [genE]
      exact ⟨hr.le.trans he.le, fun v e => (hr.reg v e).imp id fun q => ⟨q.1, lt_of_lt_of_le q.2 he.le.1⟩, hr.con⟩
    | _ => cases hl
  | inc p d t l ih =>
    refine ⟨fun s h => ?_, fun _ _ s h => by simp [good] at h⟩
    simp only [good, Bool.and_eq_true, Bool.not_false, true_and] at h
    obtain ⟨hl, gl⟩ := h
    cases l with
    | var t' x =>
      simp only [genE, genInc_eq]
      split
      · cases p <;> simp only [Bool.false_eq_true, if_false, if_true] <;>
          exact oprOk_fresh ⟨by dsimp only; omega, by dsimp only; omega⟩ (by omega) (by dsimp only; omega)
      · cases p <;> simp only [Bool.false_eq_true, if_false, if_true] <;>
          exact oprOk_fresh ⟨by dsimp only; omega, by dsimp only; omega⟩ (by omega) (by dsimp only; omega)
    | deref t' e =>
      simp only [good, Bool.not_false, Bool.true_and] at gl
      have he := ((ih _ _ rfl).1 s gl).le
      simp only [genE, genInc_eq]
      have h1 := he.1
      have h2 := he.2
      cases p <;> simp only [Bool.false_eq_true, if_false, if_true] <;>
        exact oprOk_fresh ⟨by dsimp only; omega, by dsimp only; omega⟩ (by omega) (by dsimp only; omega)
    | _ => cases hl
  | deref t e ih =>
    refine ⟨fun s h => ?_, fun _ _ s h => by simp [good] at h⟩
    simp only [good, Bool.and_eq_true, Bool.not_false, true_and] at h
    have he := (ih.1 s h).le
    simp only [genE]
    exact oprOk_fresh (he.trans ⟨Nat.le_succ _, Nat.le_refl _⟩) he.1 (Nat.lt_succ_self _)
  | ref t e ih =>
    refine ⟨fun s h => ?_, fun _ _ s h => by simp [good] at h⟩
    simp only [good, Bool.and_eq_true, Bool.not_false, true_and] at h
    obtain ⟨hl, gl⟩ := h
    cases e with
    | var t' x =>
      simp only [genE]
      exact oprOk_fresh ⟨by simp, by simp⟩ (by simp) (by simp)
    | deref t' e =>
      simp only [good, Bool.not_false, Bool.true_and] at gl
      simp only [genE]
      exact (ih _ _ rfl).1 s gl
    | _ => cases hl

theorem sets_lt {Γ : Ctx} {R : Nat → X64.Sz} {K : Nat} (x : X) : ∀ c, good Γ R K c x = true → ∀ y ∈ sets x, y < K := by
  induction x with
  | lit t v => intro c h y hy; cases hy
  | var t x => intro c h y hy; cases hy
  | cast t e ih => intro c h y hy; simp only [good, Bool.and_eq_true] at h; exact ih _ h.1.2 y hy
  | bin o t a b iha ihb =>
    intro c h y hy
    simp only [good, Bool.and_eq_true] at h
    exact (List.mem_append.1 hy).elim (iha _ h.1.1.2 y) (ihb _ h.1.2 y)
  | rel k a b iha ihb =>
    intro c h y hy
    simp only [good, Bool.and_eq_true] at h
    exact (List.mem_append.1 hy).elim (iha _ h.1.1.1 y) (ihb _ h.1.1.2 y)
  | land a b iha ihb =>
    intro c h y hy
    simp only [good, Bool.and_eq_true] at h
    exact (List.mem_append.1 hy).elim (iha _ h.1 y) (ihb _ h.2 y)
  | lor a b iha ihb =>
    intro c h y hy
    simp only [good, Bool.and_eq_true] at h
    exact (List.mem_append.1 hy).elim (iha _ h.1 y) (ihb _ h.2 y)
  | pos t e ih => intro c h y hy; simp only [good, Bool.and_eq_true] at h; exact ih _ h.2 y hy
  | neg t e ih => intro c h y hy; simp only [good, Bool.and_eq_true] at h; exact ih _ h.1.2 y hy
  | bnot t e ih => intro c h y hy; simp only [good, Bool.and_eq_true] at h; exact ih _ h.1.2 y hy
  | comma t a b iha ihb =>
    intro c h y hy
    simp only [good, Bool.and_eq_true] at h
    exact (List.mem_append.1 hy).elim (iha _ h.1.1 y) (ihb _ h.1.2 y)
  | tern t d a b ihd iha ihb =>
    intro c h y hy
    simp only [good, Bool.and_eq_true] at h
    exact (List.mem_append.1 hy).elim (ihd _ h.1.1.1.1.2 y) fun hy => (List.mem_append.1 hy).elim (iha _ h.1.1.1.2 y) (ihb _ h.1.1.2 y)
  | asg t l r ihl ihr =>
    intro c h y hy
    simp only [good, Bool.and_eq_true] at h
    refine (List.mem_append.1 hy).elim (ihr _ h.1.1.2 y) fun hy => (List.mem_append.1 hy).elim (ihl _ h.1.1.1.2 y) fun hy => ?_
    cases l with
    | var t x =>
      have := List.mem_singleton.1 hy
      subst this
      have := h.1.1.1.2
      simp only [good, Bool.and_eq_true, decide_eq_true_eq] at this
      exact this.1.2
    | _ => cases hy
  | inc p d t l ih =>
    intro c h y hy
    simp only [good, Bool.and_eq_true] at h
    refine (List.mem_append.1 hy).elim (ih _ h.2 y) fun hy => ?_
    cases l with
    | var t x =>
      have := List.mem_singleton.1 hy
      subst this
      have := h.2
      simp only [good, Bool.and_eq_true, decide_eq_true_eq] at this
      exact this.1.2
    | _ => cases hy
  | deref t e ih => intro c h y hy; simp only [good, Bool.and_eq_true] at h; exact ih _ h.2 y hy
  | ref t e ih => intro c h y hy; simp only [good, Bool.and_eq_true] at h; exact ih _ h.2 y hy

theorem tails_lt {Γ : Ctx} {R : Nat → X64.Sz} {K : Nat} (x : X) : good Γ R K false x = true → ∀ y ∈ tails x, y < K := by
  induction x using ind with
  | lit t v => intro h y hy; cases hy
  | var t x =>
    intro h y hy
    simp only [good, Bool.and_eq_true, decide_eq_true_eq] at h
    have := List.mem_singleton.1 hy
    subst this
    exact h.1.2
  | cast t e ih => intro h y hy; simp only [good, Bool.and_eq_true] at h; exact ih h.1.2 y hy
  | bin o t a b iha ihb =>
    intro h y hy
    simp only [good, Bool.and_eq_true] at h
    exact (List.mem_append.1 hy).elim (iha h.1.1.2 y) (ihb h.1.2 y)
  | rel k a b iha ihb => intro h y hy; cases hy
  | land a b iha ihb => intro h y hy; cases hy
  | lor a b iha ihb => intro h y hy; cases hy
  | pos t e ih => intro h y hy; simp only [good, Bool.and_eq_true] at h; exact ih h.2 y hy
  | neg t e ih => intro h y hy; cases hy
  | bnot t e ih => intro h y hy; cases hy
  | comma t a b iha ihb => intro h y hy; simp only [good, Bool.and_eq_true] at h; exact ihb h.1.2 y hy
  | tern t d a b ihd iha ihb => intro h y hy; cases hy
  | asg t l r ihl ihr => intro h y hy; simp only [good, Bool.and_eq_true] at h; exact ihr h.1.1.2 y hy
  | inc p d t l ih => intro h y hy; cases hy
  | deref t e ih => intro h y hy; cases hy
  | ref t e ih =>
    intro h y hy
    simp only [good, Bool.and_eq_true] at h
    cases e with
    | deref t' e =>
      have := h.2
      simp only [good, Bool.not_false, Bool.true_and] at this
      exact ih _ _ rfl this y hy
    | _ => cases hy

/-! ## Lemmas: running the code -/

theorem rdM_mod (mem : Nat → Nat) : ∀ (n a b : Nat), a % 2 ^ 64 = b % 2 ^ 64 → rdM mem a n = rdM mem b n
  | 0, _, _, _ => rfl
  | n + 1, a, b, h => by
    simp only [rdM, h]
    rw [rdM_mod mem n (a + 1) (b + 1) (by omega)]

theorem wrM_mod : ∀ (n a b v : Nat) (mem : Nat → Nat), a % 2 ^ 64 = b % 2 ^ 64 → wrM mem a n v = wrM mem b n v
  | 0, _, _, _, _, _ => rfl
  | n + 1, a, b, v, mem, h => by
    simp only [wrM, h]
    exact wrM_mod n (a + 1) (b + 1) _ _ (by omega)

theorem rdM_lt (mem : Nat → Nat) : ∀ (n a : Nat), rdM mem a n < 2 ^ (8 * n)
  | 0, _ => by simp [rdM]
  | n + 1, a => by
    have := rdM_lt mem n (a + 1)
    have h2 : 2 ^ (8 * (n + 1)) = 256 * 2 ^ (8 * n) := by rw [Nat.mul_succ, pow_add]; ring
    simp only [rdM]
    rw [h2]
    have := Nat.mod_lt (mem (a % 2 ^ 64)) (show 0 < 256 by decide)
    omega

/-- The machine holds the state of the specification: register variables in their registers. -/
structure Sim (Γ : Ctx) (R : Nat → X64.Sz) (K : Nat) (τ : State) (m : Mach) : Prop where
  reg : ∀ x, x < K → (Γ x).loc = none → m.ρ x = some (R x, τ.env x) ∧ τ.env x < 2 ^ (R x).bits
  mem : m.mem = τ.mem

/-- The registers below `k` are unchanged but for those in the list. -/
def Frame (k : Nat) (l : List Nat) (m m' : Mach) : Prop := ∀ q, q < k → q ∉ l → m'.ρ q = m.ρ q

theorem Keep.sim {Γ : Ctx} {R : Nat → X64.Sz} {K k : Nat} {τ : State} {m m' : Mach} (h : Keep k m m') (hk : K ≤ k) (hs : Sim Γ R K τ m) : Sim Γ R K τ m' :=
  ⟨fun x hx hl => by rw [h.2 x (lt_of_lt_of_le hx hk)]; exact hs.reg x hx hl, h.1.trans hs.mem⟩

theorem Keep.frame {k : Nat} {m m' : Mach} (h : Keep k m m') (l : List Nat) : Frame k l m m' := fun q hq _ => h.2 q hq

theorem Frame.trans {k k' : Nat} {l l' l'' : List Nat} {m m' m'' : Mach} (h : Frame k l m m') (h' : Frame k' l' m' m'') (hk : k ≤ k')
    (h1 : ∀ q ∈ l, q ∈ l'') (h2 : ∀ q ∈ l', q ∈ l'') : Frame k l'' m m'' :=
  fun q hq hl => (h' q (lt_of_lt_of_le hq hk) (fun q' => hl (h2 _ q'))).trans (h q hq fun q' => hl (h1 _ q'))

theorem Frame.mono {k k' : Nat} {l l' : List Nat} {m m' : Mach} (h : Frame k' l m m') (hk : k ≤ k') (h1 : ∀ q ∈ l, q ∈ l') : Frame k l' m m' :=
  fun q hq hl => h q (lt_of_lt_of_le hq hk) fun q' => hl (h1 _ q')

/-- An operand keeps its value while its register is unchanged. -/
theorem Holds.keep {m m' : Mach} {o : Opr} {t : T} {a : Int} (h : Holds m o t a) (hk : ∀ v, o = .reg v → m'.ρ v.p = m.ρ v.p) : Holds m' o t a := by
  cases o with
  | const c z => exact h
  | reg v => exact ⟨h.1, by rw [hk v rfl]; exact h.2⟩

/-- The code of an expression computes its value. -/
def VE (Γ : Ctx) (R : Nat → X64.Sz) (K : Nat) (C : List In) (x : X) : Prop :=
  ∀ ⦃s : Fr⦄ ⦃τ τ' : State⦄ ⦃a : Int⦄ ⦃m : Mach⦄ ⦃p : Nat⦄, K ≤ s.k → evT Γ x τ = some (a, τ') → Sim Γ R K τ m → At C p (genE Γ x s).code →
    ∃ m', Go Γ C (p, m) (p + (genE Γ x s).code.length, m') ∧ Sim Γ R K τ' m' ∧ Frame s.k (sets x) m m' ∧ Holds m' (genE Γ x s).opr x.ty a

/-- The code of a condition goes to one of two places. -/
def VC (Γ : Ctx) (R : Nat → X64.Sz) (K : Nat) (C : List In) (x : X) : Prop :=
  ∀ ⦃s : Fr⦄ ⦃τ τ' : State⦄ ⦃a : Int⦄ ⦃m : Mach⦄ ⦃p t f pt pf : Nat⦄, K ≤ s.k → evT Γ x τ = some (a, τ') → Sim Γ R K τ m →
    At C p (genC Γ x t f s).code → find C t = some pt → find C f = some pf →
    ∃ m', Go Γ C (p, m) (if a = 0 then pf else pt, m') ∧ Sim Γ R K τ' m' ∧ Frame s.k (sets x) m m'

/-- Every label stands once. -/
def Uniq (C : List In) : Prop := ∀ i l, C[i]? = some (.lab l) → find C l = some i

/-- Two operands, one after the other. -/
theorem pair_ok {Γ : Ctx} {R : Nat → X64.Sz} {K : Nat} {C : List In} {a b : X} (ga : good Γ R K false a = true) (gb : good Γ R K false b = true)
    (hap : apart a b = true) (va : VE Γ R K C a) (vb : VE Γ R K C b) {s : Fr} {τ τ1 τ2 : State} {x y : Int} {m : Mach} {p : Nat} {rest : List In}
    (hK : K ≤ s.k) (ea : evT Γ a τ = some (x, τ1)) (eb : evT Γ b τ1 = some (y, τ2)) (hm : Sim Γ R K τ m)
    (hC : At C p ((genE Γ a s).code ++ ((genE Γ b (genE Γ a s).s).code ++ rest))) :
    ∃ m', Go Γ C (p, m) (p + (genE Γ a s).code.length + (genE Γ b (genE Γ a s).s).code.length, m') ∧ Sim Γ R K τ2 m' ∧
      Frame s.k (sets a ++ sets b) m m' ∧ Holds m' (genE Γ a s).opr a.ty x ∧ Holds m' (genE Γ b (genE Γ a s).s).opr b.ty y ∧
      At C (p + (genE Γ a s).code.length + (genE Γ b (genE Γ a s).s).code.length) rest := by
  have sa := (static Γ R K a).1 s ga
  obtain ⟨m1, g1, s1, f1, h1⟩ := va hK ea hm hC.left
  obtain ⟨m2, g2, s2, f2, h2⟩ := vb (hK.trans sa.le.1) eb s1 hC.right.left
  refine ⟨m2, g1.trans g2, s2, f1.trans f2 sa.le.1 (fun q h => List.mem_append_left _ h) (fun q h => List.mem_append_right _ h),
    h1.keep (fun v e => f2 _ ?_ ?_), h2, hC.right.right⟩
  · rcases sa.reg v e with q | q
    · exact lt_of_lt_of_le (tails_lt a ga _ q) (hK.trans sa.le.1)
    · exact q.2
  · rcases sa.reg v e with q | q
    · have := List.all_eq_true.1 hap _ q
      simpa using this
    · exact fun h => absurd (sets_lt b _ gb _ h) (by omega)

section
variable {Γ : Ctx} {R : Nat → X64.Sz} {K : Nat} {C : List In}

theorem ve_lit (t : T) (v : Int) (hw : WX (.lit t v)) : VE Γ R K C (.lit t v) := by
  intro s τ τ' a m p hK he hm hC
  simp only [evT, Option.some.injEq, Prod.mk.injEq] at he
  obtain ⟨rfl, rfl⟩ := he
  exact ⟨m, .refl _, hm, fun q _ _ => rfl, rfl, hw.2.1⟩

/-- A register variable is its own operand. -/
theorem reg_holds {τ : State} {m : Mach} (hm : Sim Γ R K τ m) {t : T} {x : Nat} {a : Int} (hx : x < K) (hl : (Γ x).loc = none) (hR : R x = szT t)
    (hg : get τ t (.reg x) = some a) : Holds m (.reg ⟨x, szT t⟩) t a := by
  obtain ⟨h1, h2⟩ := hm.reg x hx hl
  unfold CExpr.get at hg
  split at hg
  · cases hg
  · injection hg with hg
    rw [hR, szT_bits] at h2
    subst hg
    refine ⟨rfl, ?_⟩
    simp only [raw]
    rw [bits_val h2, h1, hR]

/-- What is read from memory. -/
theorem at_bits {τ : State} {t : T} {q : Nat} {a : Int} (hg : get τ t (.at q) = some a) : bits t a = rdM τ.mem q t.size := by
  unfold CExpr.get at hg
  split at hg
  · cases hg
  · injection hg with hg
    subst hg
    exact bits_val (rdM_lt _ _ _)

theorem load_ok {τ : State} {m : Mach} (hm : Sim Γ R K τ m) {t : T} {p q k : Nat} {a : Int} {o : Opr}
    (hv : X64Sel.val m.ρ o = some (q % 2 ^ 64)) (hz : o.z = .q) (hg : get τ t (.at q) = some a) (hC : C[p]? = some (.ir (.load ⟨k, szT t⟩ o))) :
    Go Γ C (p, m) (p + 1, m.put (fun _ => false) ⟨k, szT t⟩ (bits t a)) := by
  refine .one (exec_ir hC ?_)
  simp only [stepV, X64Sel.step, hv, hz, if_true]
  rw [szT_bytes, at_bits hg, hm.mem, rdM_mod _ _ (q % 2 ^ 64) q (Nat.mod_mod _ _)]

theorem at_addr {x : Nat} {a : Nat} (hl : (Γ x).loc = some a) : place Γ x = .at a := by simp [place, hl]

theorem at_reg {x : Nat} (hl : (Γ x).loc = none) : place Γ x = .reg x := by simp [place, hl]

theorem ve_var (t : T) (x : Nat) (hg : good Γ R K false (.var t x) = true) : VE Γ R K C (.var t x) := by
  intro s τ τ' a m p hK he hm hC
  simp only [evT, Option.map_eq_some_iff, Prod.mk.injEq] at he
  obtain ⟨b, hb, rfl, rfl⟩ := he
  simp only [good, Bool.and_eq_true, decide_eq_true_eq, Bool.or_eq_true] at hg
  obtain ⟨⟨-, hx⟩, hR⟩ := hg
  cases hl : (Γ x).loc with
  | none =>
    rw [hl] at hR
    simp only [Option.isSome_none, Bool.false_eq_true, false_or] at hR
    rw [at_reg hl] at hb
    simp only [genE, hl] at hC ⊢
    exact ⟨m, .refl _, hm, fun q _ _ => rfl, reg_holds hm hx hl hR hb⟩
  | some q =>
    rw [at_addr hl] at hb
    simp only [genE, hl] at hC ⊢
    have g1 : Go Γ C (p, m) (p + 1, _) := .one (exec_iofs hC.head hl)
    have k1 := keep_put m s.k .q (q % 2 ^ 64)
    have hv := put_self m ⟨s.k, .q⟩ (q % 2 ^ 64)
    generalize m.put (fun _ => false) ⟨s.k, .q⟩ (q % 2 ^ 64) = m1 at *
    have s1 := k1.sim hK hm
    have g2 := load_ok s1 (o := .reg ⟨s.k, .q⟩) (by simp [X64Sel.val, hv]) rfl hb hC.tail.head
    have k2 := keep_put m1 (s.k + 1) (szT t) (bits t b)
    have hv2 := put_self m1 ⟨s.k + 1, szT t⟩ (bits t b)
    exact ⟨_, g1.trans g2, k2.sim (hK.trans (Nat.le_succ _)) s1, (k1.frame []).trans (k2.frame []) (Nat.le_succ _) (fun _ h => h) (fun _ h => h), rfl, hv2⟩

theorem ve_cast (t : T) (e : X) (hw : WX (.cast t e)) (hg : good Γ R K false (.cast t e) = true) (ih : VE Γ R K C e) : VE Γ R K C (.cast t e) := by
  intro s τ τ' a m p hK he hm hC
  simp only [evT, Option.map_eq_some_iff, Prod.mk.injEq] at he
  obtain ⟨⟨b, τ1⟩, hb, rfl, rfl⟩ := he
  simp only [good, Bool.and_eq_true, Bool.not_false, true_and, Bool.or_eq_true, Bool.not_eq_true'] at hg
  simp only [genE] at hC ⊢
  have st := (static Γ R K e).1 s hg.1
  obtain ⟨m1, g1, s1, f1, h1⟩ := ih hK hb hm hC.left
  have hcc : ∀ c z, (genE Γ e s).opr = .const c z → castSafe e.ty t = true ∨ c = 0 ∨ c = 1 := fun c z e => by
    rcases hg.2 with q | q
    · exact Or.inl q
    · rcases (st.con c z e).2 with q' | q'
      · rw [q] at q'; cases q'
      · exact Or.inr q'
  obtain ⟨m2, g2, k2, h2⟩ := genCast_ok (Γ := Γ) (t := t) h1 (ev_vok hw.1 hb).1 hcc hC.right
  exact ⟨m2, (g1.trans g2).len (by simp [Nat.add_assoc]), k2.sim (hK.trans st.le.1) s1, f1.trans (k2.frame []) st.le.1 (fun _ h => h) (fun _ h => nomatch h), h2⟩

theorem ve_bin (o : Ar) (t : T) (a b : X) (hw : WX (.bin o t a b)) (hg : good Γ R K false (.bin o t a b) = true) (iha : VE Γ R K C a) (ihb : VE Γ R K C b) :
    VE Γ R K C (.bin o t a b) := by
  intro s τ τ' v m p hK he hm hC
  simp only [evT] at he
  split at he
  · rename_i x τ1 ea
    split at he
    · rename_i y τ2 eb
      simp only [Option.map_eq_some_iff, Prod.mk.injEq] at he
      obtain ⟨c, hc, rfl, rfl⟩ := he
      simp only [good, Bool.and_eq_true, Bool.not_false, true_and] at hg
      obtain ⟨⟨ga, gb⟩, hap⟩ := hg
      simp only [genE] at hC ⊢
      have sa := (static Γ R K a).1 s ga
      have sb := (static Γ R K b).1 (genE Γ a s).s gb
      obtain ⟨m2, g, s2, f2, h1, h2, hC'⟩ := pair_ok ga gb hap iha ihb hK ea eb hm hC
      obtain ⟨m3, g3, k3, h3⟩ := genBop_ok (Γ := Γ) h1 hw.2.2.2.2.1 h2 hw.2.2.2.2.2 (ev_vok hw.1 ea).1 (ev_vok hw.2.1 eb).1 hc hC'
      exact ⟨m3, (g.trans g3).len (by simp [Nat.add_assoc]), k3.sim (hK.trans (sa.le.trans sb.le).1) s2,
        f2.trans (k3.frame []) (sa.le.trans sb.le).1 (fun _ h => h) (fun _ h => nomatch h), h3⟩
    · cases he
  · cases he

theorem ve_rel (k : Rel) (a b : X) (hw : WX (.rel k a b)) (hg : good Γ R K false (.rel k a b) = true) (iha : VE Γ R K C a) (ihb : VE Γ R K C b) :
    VE Γ R K C (.rel k a b) := by
  intro s τ τ' v m p hK he hm hC
  simp only [evT] at he
  split at he
  · rename_i x τ1 ea
    split at he
    · rename_i y τ2 eb
      simp only [Option.some.injEq, Prod.mk.injEq] at he
      obtain ⟨rfl, rfl⟩ := he
      simp only [good, Bool.and_eq_true, decide_eq_true_eq] at hg
      obtain ⟨⟨⟨ga, gb⟩, hsu⟩, hap⟩ := hg
      simp only [genE] at hC ⊢
      have sa := (static Γ R K a).1 s ga
      have sb := (static Γ R K b).1 (genE Γ a s).s gb
      obtain ⟨m2, g, s2, f2, h1, h2, hC'⟩ := pair_ok ga gb hap iha ihb hK ea eb hm hC
      have hc := genCmp_ok (k := k) h1 h2 hsu (ev_vok hw.1 ea).1 (ev_vok hw.2 eb).1
      generalize genCmp k a.ty.uns (genE Γ a s).opr (genE Γ b (genE Γ a s).s).opr = cmp at hc hC' ⊢
      cases cmp with
      | bad => exact hc.elim
      | known r =>
        refine ⟨m2, ?_, s2, f2, rfl, ?_⟩
        · simp only [genRel, List.append_nil, List.length_append]
          rwa [← Nat.add_assoc]
        · have hc : r = decide (holds k x y) := hc
          subst hc
          by_cases hh : holds k x y
          · simp only [hh, decide_true, if_true]; exact rep01 T.bool (Or.inr rfl)
          · simp only [hh, decide_false, if_false, Bool.false_eq_true]; exact rep01 T.bool (Or.inl rfl)
      | ask c v o =>
        obtain ⟨A, B, e1, e2, e3, e4⟩ := hc
        have k3 := keep_put m2 (genE Γ b (genE Γ a s).s).s.k .l (bits .bool (if holds k x y then 1 else 0))
        have g3 : Go Γ C (p + (genE Γ a s).code.length + (genE Γ b (genE Γ a s).s).code.length, m2)
            (p + (genE Γ a s).code.length + (genE Γ b (genE Γ a s).s).code.length + 1, m2.put (fun _ => false)
            ⟨(genE Γ b (genE Γ a s).s).s.k, .l⟩ (bits .bool (if holds k x y then 1 else 0))) := by
          refine .one (exec_ir hC'.head ?_)
          simp only [stepV, X64Sel.step, e1, e2, e3, true_and, if_true, e4]
          by_cases hh : holds k x y
          · simp only [hh, decide_true, if_true]; rfl
          · simp only [hh, decide_false, if_false, Bool.false_eq_true]; rfl
        exact ⟨_, (g.trans g3).len (by simp [Nat.add_assoc, genRel]), k3.sim (hK.trans (sa.le.trans sb.le).1) s2,
          f2.trans (k3.frame []) (sa.le.trans sb.le).1 (fun _ h => h) (fun _ h => nomatch h), rfl, put_self _ _ _⟩
    · cases he
  · cases he

theorem vc_lit (t : T) (v : Int) (hw : WX (.lit t v)) : VC Γ R K C (.lit t v) := by
  intro s τ τ' a m p t' f pt pf hK he hm hC ht hf
  simp only [evT, Option.some.injEq, Prod.mk.injEq] at he
  obtain ⟨rfl, rfl⟩ := he
  refine ⟨m, .one ?_, hm, fun q _ _ => rfl⟩
  simp only [genC] at hC
  have hz : conv t.size t.uns v = 0 ↔ v = 0 := by
    constructor
    · intro h
      have hr := hw.2.1
      rw [h] at hr
      rw [hr.2]
      split <;> rfl
    · rintro rfl
      exact conv_self (range0 t)
  by_cases h0 : v = 0
  · rw [if_pos (hz.2 h0)]
    simp only [h0, ne_eq, not_true_eq_false, if_false] at hC
    exact exec_jmp hC.head hf
  · rw [if_neg (fun h => h0 (hz.1 h))]
    simp only [h0, ne_eq, not_false_eq_true, if_true] at hC
    exact exec_jmp hC.head ht

theorem exec_cjmp {p q l : Nat} {m : Mach} {c : Nat} {x : V} {y : Opr} {A B : Nat} (h : C[p]? = some (.cjmp c x y l)) (e1 : X64Sel.val m.ρ (.reg x) = some A)
    (e2 : X64Sel.val m.ρ y = some B) (e3 : y.z = x.z) (hf : find C l = some q) :
    exec Γ C (p, m) = some (if Cond.holds c (Cond.cmpW x.z.bits c A B) then q else p + 1, m) := by
  simp only [exec, h, e1, e2, e3, if_true, hf, Option.map_some]
  split <;> rfl

theorem vc_rel (hU : Uniq C) (k : Rel) (a b : X) (hw : WX (.rel k a b)) (hg : good Γ R K true (.rel k a b) = true) (iha : VE Γ R K C a) (ihb : VE Γ R K C b) :
    VC Γ R K C (.rel k a b) := by
  intro s τ τ' v m p t f pt pf hK he hm hC ht hf
  simp only [evT] at he
  split at he
  · rename_i x τ1 ea
    split at he
    · rename_i y τ2 eb
      simp only [Option.some.injEq, Prod.mk.injEq] at he
      obtain ⟨rfl, rfl⟩ := he
      simp only [good, Bool.and_eq_true, decide_eq_true_eq] at hg
      obtain ⟨⟨⟨ga, gb⟩, hsu⟩, hap⟩ := hg
      simp only [genC] at hC
      obtain ⟨m2, g, s2, f2, h1, h2, hC'⟩ := pair_ok ga gb hap iha ihb hK ea eb hm hC
      have hc := genCmp_ok (k := k) h1 h2 hsu (ev_vok hw.1 ea).1 (ev_vok hw.2 eb).1
      refine ⟨m2, g.trans ?_, s2, f2⟩
      clear hC g
      generalize p + (genE Γ a s).code.length + (genE Γ b (genE Γ a s).s).code.length = q at hC' ⊢
      generalize genCmp k a.ty.uns (genE Γ a s).opr (genE Γ b (genE Γ a s).s).opr = cmp at hc hC' ⊢
      have hz : ((if holds k x y then (1 : Int) else 0) = 0) ↔ ¬ holds k x y := by by_cases hh : holds k x y <;> simp [hh]
      cases cmp with
      | bad => exact hc.elim
      | known r =>
        have hc : r = decide (holds k x y) := hc
        subst hc
        by_cases hh : holds k x y
        · rw [if_neg (fun h => hz.1 h hh)]
          simp only [hh, decide_true, cjmp] at hC'
          exact .one (exec_jmp hC'.head ht)
        · rw [if_pos (hz.2 hh)]
          simp only [hh, decide_false, cjmp, List.nil_append] at hC'
          exact .step (exec_lab hC'.head) (.one (exec_jmp hC'.tail.head hf))
      | ask c v o =>
        obtain ⟨A, B, e1, e2, e3, e4⟩ := hc
        have st := exec_cjmp (Γ := Γ) hC'.head e1 e2 e3 ht
        rw [e4] at st
        by_cases hh : holds k x y
        · rw [if_neg (fun h => hz.1 h hh)]
          simp only [hh, decide_true, if_true] at st
          exact .one st
        · rw [if_pos (hz.2 hh)]
          simp only [hh, decide_false, if_false, Bool.false_eq_true] at st
          exact .step st (.step (exec_lab hC'.tail.head) (.one (exec_jmp hC'.tail.tail.head hf)))
    · cases he
  · cases he

theorem vc_land (hU : Uniq C) (a b : X) (hg : good Γ R K true (.land a b) = true) (iha : VC Γ R K C a) (ihb : VC Γ R K C b) : VC Γ R K C (.land a b) := by
  intro s τ τ' v m p t f pt pf hK he hm hC ht hf
  simp only [good, Bool.and_eq_true] at hg
  simp only [genC] at hC
  have hl := hU _ _ hC.right.head
  have sa := (static Γ R K a).2 s.l f ⟨s.k, s.l + 1⟩ hg.1
  simp only [evT] at he
  split at he
  · rename_i x τ1 ea
    obtain ⟨m1, g1, s1, f1⟩ := iha (s := ⟨s.k, s.l + 1⟩) hK ea hm hC.left hl hf
    split at he
    · rename_i hx
      simp only [Option.some.injEq, Prod.mk.injEq] at he
      obtain ⟨rfl, rfl⟩ := he
      rw [if_pos hx] at g1
      exact ⟨m1, by rw [if_pos rfl]; exact g1, s1, f1.mono (Nat.le_refl _) fun _ h => List.mem_append_left _ h⟩
    · rename_i hx
      rw [if_neg hx] at g1
      simp only [Option.map_eq_some_iff, Prod.mk.injEq] at he
      obtain ⟨⟨y, τ2⟩, eb, rfl, rfl⟩ := he
      obtain ⟨m2, g2, s2, f2⟩ := ihb (hK.trans sa.1) eb s1 hC.right.right ht hf
      refine ⟨m2, g1.trans (.step (exec_lab hC.right.head) ?_), s2, f1.trans f2 sa.1 (fun _ h => List.mem_append_left _ h) (fun _ h => List.mem_append_right _ h)⟩
      by_cases hy : y = 0
      · simpa [hy] using g2
      · simpa [hy] using g2
  · cases he

theorem vc_lor (hU : Uniq C) (a b : X) (hg : good Γ R K true (.lor a b) = true) (iha : VC Γ R K C a) (ihb : VC Γ R K C b) : VC Γ R K C (.lor a b) := by
  intro s τ τ' v m p t f pt pf hK he hm hC ht hf
  simp only [good, Bool.and_eq_true] at hg
  simp only [genC] at hC
  have hl := hU _ _ hC.right.head
  have sa := (static Γ R K a).2 t s.l ⟨s.k, s.l + 1⟩ hg.1
  simp only [evT] at he
  split at he
  · rename_i x τ1 ea
    obtain ⟨m1, g1, s1, f1⟩ := iha (s := ⟨s.k, s.l + 1⟩) hK ea hm hC.left ht hl
    split at he
    · rename_i hx
      rw [if_pos hx] at g1
      simp only [Option.map_eq_some_iff, Prod.mk.injEq] at he
      obtain ⟨⟨y, τ2⟩, eb, rfl, rfl⟩ := he
      obtain ⟨m2, g2, s2, f2⟩ := ihb (hK.trans sa.1) eb s1 hC.right.right ht hf
      refine ⟨m2, g1.trans (.step (exec_lab hC.right.head) ?_), s2, f1.trans f2 sa.1 (fun _ h => List.mem_append_left _ h) (fun _ h => List.mem_append_right _ h)⟩
      by_cases hy : y = 0
      · simpa [hy] using g2
      · simpa [hy] using g2
    · rename_i hx
      simp only [Option.some.injEq, Prod.mk.injEq] at he
      obtain ⟨rfl, rfl⟩ := he
      rw [if_neg hx] at g1
      exact ⟨m1, by rw [if_neg one_ne_zero]; exact g1, s1, f1.mono (Nat.le_refl _) fun _ h => List.mem_append_left _ h⟩
  · cases he

theorem vc_comma (t : T) (a b : X) (hg : good Γ R K true (.comma t a b) = true) (iha : VE Γ R K C a) (ihb : VC Γ R K C b) : VC Γ R K C (.comma t a b) := by
  intro s τ τ' v m p t f pt pf hK he hm hC ht hf
  simp only [good, Bool.and_eq_true] at hg
  simp only [genC] at hC
  have sa := (static Γ R K a).1 s hg.1.1
  simp only [evT] at he
  split at he
  · rename_i x τ1 ea
    obtain ⟨m1, g1, s1, f1, -⟩ := iha hK ea hm hC.left
    obtain ⟨m2, g2, s2, f2⟩ := ihb (hK.trans sa.le.1) he s1 hC.right ht hf
    exact ⟨m2, g1.trans g2, s2, f1.trans f2 sa.le.1 (fun _ h => List.mem_append_left _ h) (fun _ h => List.mem_append_right _ h)⟩
  · cases he

/-- The end of `&&` and `||`. -/
theorem bool_tail (hU : Uniq C) {E k l0 l1 l2 : Nat} {m : Mach}
    (hC : At C E [.lab l0, .ir (.mov ⟨k, .l⟩ (.const 1 .l)), .jmp l2, .lab l1, .ir (.mov ⟨k, .l⟩ (.const 0 .l)), .lab l2]) :
    find C l0 = some E ∧ find C l1 = some (E + 3) ∧ Go Γ C (E, m) (E + 6, m.put (fun _ => false) ⟨k, .l⟩ 1) ∧
      Go Γ C (E + 3, m) (E + 6, m.put (fun _ => false) ⟨k, .l⟩ 0) := by
  have h2 := hU _ _ hC.tail.tail.tail.tail.tail.head
  refine ⟨hU _ _ hC.head, hU _ _ hC.tail.tail.tail.head, ?_, ?_⟩
  · refine .step (exec_lab hC.head) (.step (exec_ir hC.tail.head (m' := m.put (fun _ => false) ⟨k, .l⟩ 1) ?_) (.step (exec_jmp hC.tail.tail.head h2)
      (.one (exec_lab hC.tail.tail.tail.tail.tail.head))))
    rfl
  · refine .step (exec_lab hC.tail.tail.tail.head) (.step (exec_ir hC.tail.tail.tail.tail.head (m' := m.put (fun _ => false) ⟨k, .l⟩ 0) ?_)
      (.one (exec_lab hC.tail.tail.tail.tail.tail.head)))
    rfl

theorem bool_end (hU : Uniq C) {E k : Nat} {l0 l1 l2 : Nat} {m : Mach} {s : Fr} {τ : State} {l : List Nat} {m0 : Mach} {v : Int} (hK : K ≤ s.k)
    (hk : s.k ≤ k) (hs : Sim Γ R K τ m) (hf : Frame s.k l m0 m)
    (hC : At C E [.lab l0, .ir (.mov ⟨k, .l⟩ (.const 1 .l)), .jmp l2, .lab l1, .ir (.mov ⟨k, .l⟩ (.const 0 .l)), .lab l2]) (hv : v = 0 ∨ v = 1) :
    ∃ m', Go Γ C (if v = 0 then E + 3 else E, m) (E + 6, m') ∧ Sim Γ R K τ m' ∧ Frame s.k l m0 m' ∧ Holds m' (.reg ⟨k, .l⟩) .bool v := by
  obtain ⟨-, -, g1, g2⟩ := bool_tail (Γ := Γ) hU (m := m) hC
  rcases hv with rfl | rfl
  · have kp := keep_put m k .l 0
    exact ⟨_, g2, kp.sim (hK.trans hk) hs, hf.trans (kp.frame []) hk (fun _ h => h) (fun _ h => nomatch h), rfl, put_self _ _ _⟩
  · have kp := keep_put m k .l 1
    exact ⟨_, g1, kp.sim (hK.trans hk) hs, hf.trans (kp.frame []) hk (fun _ h => h) (fun _ h => nomatch h), rfl, put_self _ _ _⟩

theorem ve_land (hU : Uniq C) (a b : X) (hg : good Γ R K false (.land a b) = true) (iha : VC Γ R K C a) (ihb : VC Γ R K C b) : VE Γ R K C (.land a b) := by
  intro s τ τ' v m p hK he hm hC
  simp only [good, Bool.and_eq_true] at hg
  simp only [genE] at hC ⊢
  have sa := (static Γ R K a).2 (s.l + 3) (s.l + 1) ⟨s.k, s.l + 4⟩ hg.1
  have sb := (static Γ R K b).2 s.l (s.l + 1) (genC Γ a (s.l + 3) (s.l + 1) ⟨s.k, s.l + 4⟩).s hg.2
  have h3 := hU _ _ hC.right.head
  have hT := hC.right.right.right
  obtain ⟨h0, h1, -, -⟩ := bool_tail (Γ := Γ) hU (m := m) hT
  simp only [evT] at he
  split at he
  · rename_i x τ1 ea
    obtain ⟨m1, g1, s1, f1⟩ := iha (s := ⟨s.k, s.l + 4⟩) hK ea hm hC.left h3 h1
    split at he
    · rename_i hx
      simp only [Option.some.injEq, Prod.mk.injEq] at he
      obtain ⟨rfl, rfl⟩ := he
      rw [if_pos hx] at g1
      obtain ⟨m', g', s', f', h'⟩ := bool_end hU (v := 0) hK (sa.1.trans sb.1) s1 (f1.mono (Nat.le_refl _) fun _ h => List.mem_append_left (sets b) h) hT (Or.inl rfl)
      exact ⟨m', (g1.trans g').len (by simp; omega), s', f', h'⟩
    · rename_i hx
      rw [if_neg hx] at g1
      simp only [Option.map_eq_some_iff, Prod.mk.injEq] at he
      obtain ⟨⟨y, τ2⟩, eb, rfl, rfl⟩ := he
      obtain ⟨m2, g2, s2, f2⟩ := ihb (hK.trans sa.1) eb s1 hC.right.right.left h0 h1
      obtain ⟨m', g', s', f', h'⟩ := bool_end hU (v := if y = 0 then 0 else 1) hK (sa.1.trans sb.1) s2
        (f1.trans f2 sa.1 (fun _ h => List.mem_append_left _ h) (fun _ h => List.mem_append_right (sets a) h)) hT (by split <;> simp)
      have hy : (if (if y = 0 then (0 : Int) else 1) = 0 then (p + (genC Γ a (s.l + 3) (s.l + 1) ⟨s.k, s.l + 4⟩).code.length + ([In.lab (s.l + 3)] : List In).length + (genC Γ b s.l (s.l + 1) (genC Γ a (s.l + 3) (s.l + 1) ⟨s.k, s.l + 4⟩).s).code.length) + 3 else (p + (genC Γ a (s.l + 3) (s.l + 1) ⟨s.k, s.l + 4⟩).code.length + ([In.lab (s.l + 3)] : List In).length + (genC Γ b s.l (s.l + 1) (genC Γ a (s.l + 3) (s.l + 1) ⟨s.k, s.l + 4⟩).s).code.length)) = if y = 0 then (p + (genC Γ a (s.l + 3) (s.l + 1) ⟨s.k, s.l + 4⟩).code.length + ([In.lab (s.l + 3)] : List In).length + (genC Γ b s.l (s.l + 1) (genC Γ a (s.l + 3) (s.l + 1) ⟨s.k, s.l + 4⟩).s).code.length) + 3 else (p + (genC Γ a (s.l + 3) (s.l + 1) ⟨s.k, s.l + 4⟩).code.length + ([In.lab (s.l + 3)] : List In).length + (genC Γ b s.l (s.l + 1) (genC Γ a (s.l + 3) (s.l + 1) ⟨s.k, s.l + 4⟩).s).code.length) := by
        by_cases hy : y = 0 <;> simp [hy]
      rw [hy] at g'
      exact ⟨m', ((g1.trans (.step (exec_lab hC.right.head) g2)).trans g').len (by simp; omega), s', f', h'⟩
  · cases he

theorem ve_lor (hU : Uniq C) (a b : X) (hg : good Γ R K false (.lor a b) = true) (iha : VC Γ R K C a) (ihb : VC Γ R K C b) : VE Γ R K C (.lor a b) := by
  intro s τ τ' v m p hK he hm hC
  simp only [good, Bool.and_eq_true] at hg
  simp only [genE] at hC ⊢
  have sa := (static Γ R K a).2 s.l (s.l + 3) ⟨s.k, s.l + 4⟩ hg.1
  have sb := (static Γ R K b).2 s.l (s.l + 1) (genC Γ a s.l (s.l + 3) ⟨s.k, s.l + 4⟩).s hg.2
  have h3 := hU _ _ hC.right.head
  have hT := hC.right.right.right
  obtain ⟨h0, h1, -, -⟩ := bool_tail (Γ := Γ) hU (m := m) hT
  simp only [evT] at he
  split at he
  · rename_i x τ1 ea
    obtain ⟨m1, g1, s1, f1⟩ := iha (s := ⟨s.k, s.l + 4⟩) hK ea hm hC.left h0 h3
    split at he
    · rename_i hx
      rw [if_pos hx] at g1
      simp only [Option.map_eq_some_iff, Prod.mk.injEq] at he
      obtain ⟨⟨y, τ2⟩, eb, rfl, rfl⟩ := he
      obtain ⟨m2, g2, s2, f2⟩ := ihb (hK.trans sa.1) eb s1 hC.right.right.left h0 h1
      obtain ⟨m', g', s', f', h'⟩ := bool_end hU (v := if y = 0 then 0 else 1) hK (sa.1.trans sb.1) s2
        (f1.trans f2 sa.1 (fun _ h => List.mem_append_left _ h) (fun _ h => List.mem_append_right (sets a) h)) hT (by split <;> simp)
      have hy : (if (if y = 0 then (0 : Int) else 1) = 0 then (p + (genC Γ a s.l (s.l + 3) ⟨s.k, s.l + 4⟩).code.length + ([In.lab (s.l + 3)] : List In).length + (genC Γ b s.l (s.l + 1) (genC Γ a s.l (s.l + 3) ⟨s.k, s.l + 4⟩).s).code.length) + 3 else (p + (genC Γ a s.l (s.l + 3) ⟨s.k, s.l + 4⟩).code.length + ([In.lab (s.l + 3)] : List In).length + (genC Γ b s.l (s.l + 1) (genC Γ a s.l (s.l + 3) ⟨s.k, s.l + 4⟩).s).code.length)) = if y = 0 then (p + (genC Γ a s.l (s.l + 3) ⟨s.k, s.l + 4⟩).code.length + ([In.lab (s.l + 3)] : List In).length + (genC Γ b s.l (s.l + 1) (genC Γ a s.l (s.l + 3) ⟨s.k, s.l + 4⟩).s).code.length) + 3 else (p + (genC Γ a s.l (s.l + 3) ⟨s.k, s.l + 4⟩).code.length + ([In.lab (s.l + 3)] : List In).length + (genC Γ b s.l (s.l + 1) (genC Γ a s.l (s.l + 3) ⟨s.k, s.l + 4⟩).s).code.length) := by
        by_cases hy : y = 0 <;> simp [hy]
      rw [hy] at g'
      exact ⟨m', ((g1.trans (.step (exec_lab hC.right.head) g2)).trans g').len (by simp; omega), s', f', h'⟩
    · rename_i hx
      simp only [Option.some.injEq, Prod.mk.injEq] at he
      obtain ⟨rfl, rfl⟩ := he
      rw [if_neg hx] at g1
      obtain ⟨m', g', s', f', h'⟩ := bool_end hU (v := 1) hK (sa.1.trans sb.1) s1 (f1.mono (Nat.le_refl _) fun _ h => List.mem_append_left (sets b) h) hT (Or.inr rfl)
      exact ⟨m', (g1.trans g').len (by simp; omega), s', f', h'⟩
  · cases he

end

section
variable {Γ : Ctx} {R : Nat → X64.Sz} {K : Nat} {C : List In}

theorem ve_pos (t : T) (e : X) (hw : WX (.pos t e)) (ih : VE Γ R K C e) : VE Γ R K C (.pos t e) := by
  intro s τ τ' a m p hK he hm hC
  obtain ⟨m', g, s', f, h⟩ := ih hK he hm hC
  refine ⟨m', g, s', f, ?_⟩
  show Holds m' _ t a
  rw [hw.2.1]
  exact h

theorem ve_neg (t : T) (e : X) (hg : good Γ R K false (.neg t e) = true) (ih : VE Γ R K C e) : VE Γ R K C (.neg t e) := by
  intro s τ τ' a m p hK he hm hC
  simp only [evT, Option.map_eq_some_iff, Prod.mk.injEq] at he
  obtain ⟨⟨b, τ1⟩, hb, rfl, rfl⟩ := he
  simp only [good, Bool.and_eq_true, Bool.not_false, true_and, decide_eq_true_eq] at hg
  simp only [genE] at hC ⊢
  have st := (static Γ R K e).1 s hg.1
  obtain ⟨m1, g1, s1, f1, h1⟩ := ih hK hb hm hC.left
  obtain ⟨m2, g2, k2, h2⟩ := genUn_ok (Γ := Γ) (t := t) h1 hg.2 hC.right
  exact ⟨m2, (g1.trans g2).len (by simp [Nat.add_assoc]), k2.sim (hK.trans st.le.1) s1, f1.trans (k2.frame []) st.le.1 (fun _ h => h) (fun _ h => nomatch h), h2⟩

theorem ve_bnot (t : T) (e : X) (hg : good Γ R K false (.bnot t e) = true) (ih : VE Γ R K C e) : VE Γ R K C (.bnot t e) := by
  intro s τ τ' a m p hK he hm hC
  simp only [evT, Option.map_eq_some_iff, Prod.mk.injEq] at he
  obtain ⟨⟨b, τ1⟩, hb, rfl, rfl⟩ := he
  simp only [good, Bool.and_eq_true, Bool.not_false, true_and, decide_eq_true_eq] at hg
  simp only [genE] at hC ⊢
  have st := (static Γ R K e).1 s hg.1
  obtain ⟨m1, g1, s1, f1, h1⟩ := ih hK hb hm hC.left
  obtain ⟨m2, g2, k2, h2⟩ := genUn_ok (Γ := Γ) (t := t) h1 hg.2 hC.right
  exact ⟨m2, (g1.trans g2).len (by simp [Nat.add_assoc]), k2.sim (hK.trans st.le.1) s1, f1.trans (k2.frame []) st.le.1 (fun _ h => h) (fun _ h => nomatch h), h2⟩

theorem ve_comma (t : T) (a b : X) (hg : good Γ R K false (.comma t a b) = true) (iha : VE Γ R K C a) (ihb : VE Γ R K C b) : VE Γ R K C (.comma t a b) := by
  intro s τ τ' v m p hK he hm hC
  simp only [good, Bool.and_eq_true, Bool.false_or, decide_eq_true_eq] at hg
  simp only [genE] at hC ⊢
  have sa := (static Γ R K a).1 s hg.1.1
  simp only [evT] at he
  split at he
  · rename_i x τ1 ea
    obtain ⟨m1, g1, s1, f1, -⟩ := iha hK ea hm hC.left
    obtain ⟨m2, g2, s2, f2, h2⟩ := ihb (hK.trans sa.le.1) he s1 hC.right
    exact ⟨m2, (g1.trans g2).len (by simp [Nat.add_assoc]), s2,
      f1.trans f2 sa.le.1 (fun _ h => List.mem_append_left _ h) (fun _ h => List.mem_append_right _ h), h2.su hg.2⟩
  · cases he

theorem mov_ok {p : Nat} {m : Mach} {d : Nat} {o : Opr} {t : T} {a : Int} (h : Holds m o t a) (hC : C[p]? = some (.ir (.mov ⟨d, szT t⟩ o))) :
    exec Γ C (p, m) = some (p + 1, m.put (fun _ => false) ⟨d, szT t⟩ (bits t a)) := by
  refine exec_ir hC ?_
  simp only [stepV, X64Sel.step, h.val, h.z, if_true]

theorem ve_tern (hU : Uniq C) (t : T) (c a b : X) (hg : good Γ R K false (.tern t c a b) = true) (ihc : VC Γ R K C c) (iha : VE Γ R K C a)
    (ihb : VE Γ R K C b) : VE Γ R K C (.tern t c a b) := by
  intro s τ τ' v m p hK he hm hC
  simp only [good, Bool.and_eq_true, Bool.not_false, true_and, decide_eq_true_eq] at hg
  obtain ⟨⟨⟨⟨gc, ga⟩, gb⟩, ta⟩, tb⟩ := hg
  simp only [genE] at hC ⊢
  have sc := (static Γ R K c).2 s.l (s.l + 1) ⟨s.k + 1, s.l + 3⟩ gc
  have sa := (static Γ R K a).1 (genC Γ c s.l (s.l + 1) ⟨s.k + 1, s.l + 3⟩).s ga
  have hL0 := hU _ _ hC.right.head
  have hC3 := hC.right.right.right
  have hL1 := hU _ _ hC3.left.tail.tail.head
  have hL2 := hU _ _ hC3.right.right.tail.head
  simp only [evT] at he
  split at he
  case h_2 => cases he
  rename_i x τ1 ec
  obtain ⟨m1, g1, s1, f1⟩ := ihc (s := ⟨s.k + 1, s.l + 3⟩) (hK.trans (Nat.le_succ _)) ec hm hC.left hL0 hL1
  have hk : ∀ (m0 : Mach) (w : Nat), Frame s.k [] m0 (m0.put (fun _ => false) ⟨s.k, szT t⟩ w) := fun m0 w => (keep_put m0 s.k (szT t) w).frame []
  split at he
  · rename_i hx
    rw [if_pos hx] at g1
    obtain ⟨m2, g2, s2, f2, h2⟩ := ihb ((hK.trans (Nat.le_succ _)).trans (sc.1.trans sa.le.1)) he s1 hC3.right.left
    have e3 := mov_ok (Γ := Γ) (h2.su tb) hC3.right.right.head
    have g3 := ((g1.trans (.step (exec_lab hC3.left.tail.tail.head) g2)).trans (.one e3)).trans (.one (exec_lab hC3.right.right.tail.head))
    exact ⟨_, g3.len (by simp; omega), (keep_put m2 s.k (szT t) _).sim hK s2,
      ((f1.trans f2 (sc.1.trans sa.le.1) (fun _ h => List.mem_append_left _ h) (fun _ h => List.mem_append_right (sets c) (List.mem_append_right (sets a) h))).mono
        (Nat.le_succ _) (fun _ h => h)).trans (hk _ _) (Nat.le_refl _) (fun _ h => h) (fun _ h => nomatch h), rfl, put_self _ _ _⟩
  · rename_i hx
    rw [if_neg hx] at g1
    obtain ⟨m2, g2, s2, f2, h2⟩ := iha ((hK.trans (Nat.le_succ _)).trans sc.1) he s1 hC.right.right.left
    have e3 := mov_ok (Γ := Γ) (h2.su ta) hC3.head
    have g3 := ((g1.trans (.step (exec_lab hC.right.head) g2)).trans (.one e3)).trans (.step (exec_jmp hC3.left.tail.head hL2) (.one (exec_lab hC3.right.right.tail.head)))
    exact ⟨_, g3.len (by simp; omega), (keep_put m2 s.k (szT t) _).sim hK s2,
      ((f1.trans f2 sc.1 (fun _ h => List.mem_append_left _ h) (fun _ h => List.mem_append_right (sets c) (List.mem_append_left (sets b) h))).mono
        (Nat.le_succ _) (fun _ h => h)).trans (hk _ _) (Nat.le_refl _) (fun _ h => h) (fun _ h => nomatch h), rfl, put_self _ _ _⟩

/-- An address in an operand. -/
theorem addr_ok {m : Mach} {o : Opr} {t : T} {a : Int} (h : Holds m o (.ptr t) a) (hr : InRange (T.ptr t).size (T.ptr t).uns a) :
    X64Sel.val m.ρ o = some (a.toNat % 2 ^ 64) ∧ o.z = .q := by
  have hb : bits (.ptr t) a = a.toNat := by
    have := bits_uns (t := .ptr t) rfl hr
    omega
  have hl := bits_lt (.ptr t) a
  rw [hb] at hl
  have hl : a.toNat < 2 ^ 64 := hl
  refine ⟨?_, h.z⟩
  rw [h.val, hb, Nat.mod_eq_of_lt hl]

theorem store_ok {τ : State} {m : Mach} (hm : Sim Γ R K τ m) {t : T} {p q : Nat} {a : Int} {v o : Opr} (h : Holds m v t a)
    (hv : X64Sel.val m.ρ o = some (q % 2 ^ 64)) (hz : o.z = .q) (hC : C[p]? = some (.ir (.store v o))) :
    ∃ m', Go Γ C (p, m) (p + 1, m') ∧ Sim Γ R K (put τ t (.at q) a) m' ∧ m'.ρ = m.ρ := by
  refine ⟨{ m with mem := wrM m.mem (q % 2 ^ 64) v.z.bytes (bits t a) }, .one (exec_ir hC ?_), ⟨fun x hx hl => hm.reg x hx hl, ?_⟩, rfl⟩
  · simp only [stepV, X64Sel.step, hv, hz, h.val, if_true]
  · show wrM m.mem (q % 2 ^ 64) v.z.bytes (bits t a) = wrM τ.mem q t.size (bits t a)
    rw [h.z, szT_bytes, hm.mem, wrM_mod _ _ q _ _ (Nat.mod_mod _ _)]

/-- Setting a register variable. -/
theorem set_sim {τ : State} {m : Mach} (hm : Sim Γ R K τ m) {t : T} {x : Nat} (hR : R x = szT t) (a : Int) :
    Sim Γ R K (put τ t (.reg x) a) (m.put (fun _ => false) ⟨x, szT t⟩ (bits t a)) := by
  refine ⟨fun y hy hl => ?_, hm.mem⟩
  by_cases h : y = x
  · subst h
    refine ⟨?_, ?_⟩
    · rw [put_self m ⟨y, szT t⟩, hR]
      simp [put]
    · rw [hR, szT_bits]
      simp only [put, if_true]
      exact bits_lt t a
  · rw [put_ne m (d := ⟨x, szT t⟩) _ h]
    have := hm.reg y hy hl
    simpa [put, h] using this

theorem set_holds {m : Mach} {o : Opr} {t t' : T} {x : Nat} {a : Int} (h : Holds m o t' a) (hs : SU t' t) :
    Holds (m.put (fun _ => false) ⟨x, szT t⟩ (bits t a)) o t' a := by
  cases o with
  | const c z => exact h
  | reg v =>
    refine ⟨h.1, ?_⟩
    by_cases e : v.p = x
    · have := put_self m ⟨x, szT t⟩ (bits t a)
      rw [e]
      simp only at this
      rw [this, h.1, su_szT hs, bits_su hs]
    · rw [put_ne m (d := ⟨x, szT t⟩) _ e]
      exact h.2

theorem set_frame (m : Mach) (k x v : Nat) (z : X64.Sz) (l : List Nat) (h : x ∈ l) : Frame k l m (m.put (fun _ => false) ⟨x, z⟩ v) :=
  fun q _ hl => put_ne m (d := ⟨x, z⟩) _ (fun e => hl (e ▸ h))

theorem ve_asg (t : T) (l r : X) (hw : WX (.asg t l r)) (hg : good Γ R K false (.asg t l r) = true) (ihl : ∀ t' e, l = .deref t' e → VE Γ R K C e)
    (ihr : VE Γ R K C r) : VE Γ R K C (.asg t l r) := by
  intro s τ τ' v m p hK he hm hC
  simp only [good, Bool.and_eq_true, Bool.not_false, true_and, decide_eq_true_eq] at hg
  obtain ⟨⟨⟨⟨hl, gl⟩, gr⟩, hsu⟩, hap⟩ := hg
  obtain ⟨wl, wr, ht, -⟩ := hw
  have sr := (static Γ R K r).1 s gr
  simp only [evT] at he
  split at he
  case h_2 => cases he
  rename_i a τ1 er
  cases l with
  | var t' x =>
    have ht : t = t' := ht
    subst ht
    simp only [lvT, Option.some.injEq, Prod.mk.injEq] at he
    obtain ⟨rfl, rfl⟩ := he
    simp only [good, Bool.and_eq_true, Bool.not_false, true_and, decide_eq_true_eq, Bool.or_eq_true] at gl
    simp only [genE] at hC ⊢
    have hreg : ∀ v, (genE Γ r s).opr = .reg v → v.p < (genE Γ r s).s.k := fun v e => by
      rcases sr.reg v e with q | q
      · exact lt_of_lt_of_le (tails_lt r gr _ q) (hK.trans sr.le.1)
      · exact q.2
    cases hloc : (Γ x).loc with
    | none =>
      rw [at_reg hloc]
      simp only [hloc] at hC ⊢
      have hR : R x = szT t := by simpa [hloc] using gl.2
      obtain ⟨m1, g1, s1, f1, h1⟩ := ihr hK er hm hC.left
      have g2 := Go.one (mov_ok (Γ := Γ) (h1.su hsu) hC.right.head)
      exact ⟨_, (g1.trans g2).len (by simp [Nat.add_assoc]), set_sim s1 hR a,
        f1.trans (set_frame m1 s.k x _ _ [x] (by simp)) (Nat.le_refl _) (fun _ h => List.mem_append_left _ h) (fun _ h => List.mem_append_right (sets r) h),
        (set_holds h1 hsu).su hsu⟩
    | some q =>
      rw [at_addr hloc]
      simp only [hloc] at hC ⊢
      obtain ⟨m1, g1, s1, f1, h1⟩ := ihr hK er hm hC.left
      have g2 : Go Γ C (p + (genE Γ r s).code.length, m1) (p + (genE Γ r s).code.length + 1, _) := .one (exec_iofs hC.right.head hloc)
      have k1 := keep_put m1 (genE Γ r s).s.k .q (q % 2 ^ 64)
      have hv := put_self m1 ⟨(genE Γ r s).s.k, .q⟩ (q % 2 ^ 64)
      generalize m1.put (fun _ => false) ⟨(genE Γ r s).s.k, .q⟩ (q % 2 ^ 64) = m2 at *
      have s2 := k1.sim (hK.trans sr.le.1) s1
      have h2 : Holds m2 (genE Γ r s).opr r.ty a := h1.keep fun v e => k1.2 _ (hreg v e)
      obtain ⟨m3, g3, s3, e3⟩ := store_ok (Γ := Γ) (q := q) s2 (h2.su hsu) (o := .reg ⟨(genE Γ r s).s.k, .q⟩) (by simp [X64Sel.val, hv]) rfl hC.right.tail.head
      refine ⟨m3, ((g1.trans g2).trans g3).len (by simp only [List.length_append, List.length_cons, List.length_nil]; omega), s3, fun y hy hn => ?_, (h2.keep fun v _ => by rw [e3]).su hsu⟩
      rw [e3, k1.2 y (lt_of_lt_of_le hy sr.le.1)]
      exact f1 y hy fun h => hn (List.mem_append_left _ h)
  | deref t' e =>
    have ht : t = t' := ht
    subst ht
    simp only [lvT, Option.map_eq_some_iff] at he
    split at he
    case h_2 => cases he
    rename_i pl τ2 el
    simp only [Option.some.injEq, Prod.mk.injEq, Option.map_eq_some_iff] at he el
    obtain ⟨rfl, rfl⟩ := he
    obtain ⟨⟨ad, τ3⟩, ee, rfl, rfl⟩ := el
    simp only [good, Bool.not_false, Bool.true_and] at gl
    simp only [genE] at hC ⊢
    obtain ⟨m2, g, s2, f2, h1, h2, hC'⟩ := pair_ok gr gl hap ihr (ihl _ _ rfl) hK er ee hm hC
    rw [wl.2] at h2
    have hr := (ev_vok wl.1 ee).1
    rw [wl.2] at hr
    obtain ⟨hv, hz⟩ := addr_ok h2 hr
    obtain ⟨m3, g3, s3, e3⟩ := store_ok (Γ := Γ) s2 (h1.su hsu) hv hz hC'.head
    refine ⟨m3, (g.trans g3).len (by simp [Nat.add_assoc]), s3, fun y hy hn => ?_, (h1.keep fun v _ => by rw [e3]).su hsu⟩
    rw [e3]
    exact f2 y hy fun h => hn (by simpa [sets, target] using h)
  | _ => cases hl

/-- The sum in `++` and `--`. -/
theorem step_ok {p : Nat} {m : Mach} {dec : Bool} {t : T} {v : V} {k : Nat} {x : Int} (h : Holds m (.reg v) t x) (hr : InRange t.size t.uns x) (hb : t ≠ .bool)
    (hC : C[p]? = some (.ir (.bop (irB (arOf dec)) t.uns ⟨k, szT t⟩ (.reg v) (.const (stepOf t) (szT t))))) :
    exec Γ C (p, m) = some (p + 1, m.put (fun _ => false) ⟨k, szT t⟩ (bits t (conv t.size t.uns (if dec then x - stepOf t else x + stepOf t)))) := by
  have hs : InRange t.size t.uns (stepOf t) ∧ imm (szT t) (stepOf t) = bits t (stepOf t) := by
    cases t with
    | fx t => exact ⟨(vok01 (.fx t) (Or.inr rfl)).1, rep_imm (rep01 (.fx t) (Or.inr rfl))⟩
    | ptr e =>
      simp only [stepOf]
      rcases tsz e with q | q | q | q <;> rw [q] <;> exact ⟨⟨by decide, (show _ < (2 : Int) ^ 64 by decide)⟩, (show imm .q _ = (toU 64 _).toNat by decide)⟩
  have ho : opT (arOf dec) t.size t.uns x (stepOf t) = some (conv t.size t.uns (if dec then x - stepOf t else x + stepOf t)) := by
    cases dec <;> rfl
  refine exec_ir hC ?_
  have hz : v.z = szT t := h.z
  have hv := h.val
  have h2 : X64Sel.val m.ρ (.const (stepOf t) (szT t)) = some (bits t (stepOf t)) := by
    show some (imm (szT t) (stepOf t)) = _
    rw [hs.2]
  have h3 := opSem_ok (o := arOf dec) (by cases dec <;> decide) hr hs.1 ho
  simp only [stepV, X64Sel.step, hv, h2, Opr.z, hz, true_and, or_true, if_true, szT_bits, h3, Option.map_some]

/-- `++` and `--` on an object in memory. -/
theorem inc_mem {τ : State} {m : Mach} (hm : Sim Γ R K τ m) {t : T} {P q k : Nat} {x : Int} {o : Opr} {dec : Bool} (hK : K ≤ k) (hb : t ≠ .bool)
    (hv : X64Sel.val m.ρ o = some (q % 2 ^ 64)) (hz : o.z = .q) (ho : ∀ v, o = .reg v → v.p < k) (hg : get τ t (.at q) = some x)
    (hC : At C P ([.ir (.load ⟨k, szT t⟩ o)] ++ ([.ir (.bop (irB (arOf dec)) t.uns ⟨k + 1, szT t⟩ (.reg ⟨k, szT t⟩) (.const (stepOf t) (szT t)))] ++
      [.ir (.store (.reg ⟨k + 1, szT t⟩) o)]))) :
    ∃ m', Go Γ C (P, m) (P + 3, m') ∧ Sim Γ R K (put τ t (.at q) (conv t.size t.uns (if dec then x - stepOf t else x + stepOf t))) m' ∧
      (∀ y, y < k → m'.ρ y = m.ρ y) ∧ Holds m' (.reg ⟨k, szT t⟩) t x ∧
      Holds m' (.reg ⟨k + 1, szT t⟩) t (conv t.size t.uns (if dec then x - stepOf t else x + stepOf t)) := by
  have hr : InRange t.size t.uns x := (get_vok hg).1
  have g1 := load_ok (Γ := Γ) hm hv hz hg hC.head
  have k1 := keep_put m k (szT t) (bits t x)
  have h1 : Holds (m.put (fun _ => false) ⟨k, szT t⟩ (bits t x)) (.reg ⟨k, szT t⟩) t x := ⟨rfl, put_self m ⟨k, szT t⟩ (bits t x)⟩
  generalize m.put (fun _ => false) ⟨k, szT t⟩ (bits t x) = m1 at *
  have e2 := step_ok (Γ := Γ) h1 hr hb hC.right.head
  generalize conv t.size t.uns (if dec then x - stepOf t else x + stepOf t) = z at *
  have k2 := keep_put m1 (k + 1) (szT t) (bits t z)
  have h2 : Holds (m1.put (fun _ => false) ⟨k + 1, szT t⟩ (bits t z)) (.reg ⟨k + 1, szT t⟩) t z := ⟨rfl, put_self m1 ⟨k + 1, szT t⟩ (bits t z)⟩
  generalize m1.put (fun _ => false) ⟨k + 1, szT t⟩ (bits t z) = m2 at *
  have hv2 : X64Sel.val m2.ρ o = some (q % 2 ^ 64) := by
    rw [← hv]
    cases o with
    | const c z => rfl
    | reg v =>
      have := ho v rfl
      simp only [X64Sel.val]
      rw [k2.2 _ (by omega), k1.2 _ this]
  obtain ⟨m3, g3, s3, e3⟩ := store_ok (Γ := Γ) (k2.sim (by omega) (k1.sim hK hm)) h2 hv2 hz hC.right.right.head
  refine ⟨m3, ((g1.trans (.one e2)).trans g3).len rfl, s3, fun y hy => ?_, ?_, h2.keep fun v _ => by rw [e3]⟩
  · rw [e3, k2.2 y (by omega), k1.2 y hy]
  · exact h1.keep fun v e => by
      injection e with e
      subst e
      rw [e3, k2.2 _ (Nat.lt_succ_self _)]

theorem ve_inc (post dec : Bool) (t : T) (l : X) (hw : WX (.inc post dec t l)) (hg : good Γ R K false (.inc post dec t l) = true)
    (ihl : ∀ t' e, l = .deref t' e → VE Γ R K C e) : VE Γ R K C (.inc post dec t l) := by
  intro s τ τ' v m p hK he hm hC
  simp only [good, Bool.and_eq_true, Bool.not_false, true_and] at hg
  obtain ⟨hl, gl⟩ := hg
  obtain ⟨wl, ht, hb⟩ := hw
  simp only [evT] at he
  split at he
  case h_2 => cases he
  rename_i pl τ1 el
  split at he
  case h_2 => cases he
  rename_i x hx
  simp only [Option.some.injEq, Prod.mk.injEq] at he
  obtain ⟨rfl, rfl⟩ := he
  have hr : InRange t.size t.uns x := (get_vok hx).1
  cases l with
  | var t' y =>
    have ht : t = t' := ht
    subst ht
    simp only [lvT, Option.some.injEq, Prod.mk.injEq] at el
    obtain ⟨rfl, rfl⟩ := el
    simp only [good, Bool.and_eq_true, Bool.not_false, true_and, decide_eq_true_eq, Bool.or_eq_true] at gl
    cases hloc : (Γ y).loc with
    | none =>
      rw [at_reg hloc] at hx ⊢
      have hR : R y = szT t := by simpa [hloc] using gl.2
      have hy := gl.1
      have hh := reg_holds hm hy hloc hR hx
      cases post with
      | false =>
        simp only [genE, genInc_eq, hloc, Bool.false_eq_true, if_false, List.nil_append] at hC ⊢
        have e1 := step_ok (Γ := Γ) hh hr hb hC.head
        generalize conv t.size t.uns (if dec then x - stepOf t else x + stepOf t) = z at *
        have k1 := keep_put m s.k (szT t) (bits t z)
        have h1 : Holds (m.put (fun _ => false) ⟨s.k, szT t⟩ (bits t z)) (.reg ⟨s.k, szT t⟩) t z := ⟨rfl, put_self m ⟨s.k, szT t⟩ (bits t z)⟩
        generalize m.put (fun _ => false) ⟨s.k, szT t⟩ (bits t z) = m1 at *
        have e2 := mov_ok (Γ := Γ) h1 hC.right.head
        exact ⟨_, (Go.step e1 (.one e2)).len rfl, set_sim (k1.sim hK hm) hR z,
          (k1.frame _).trans (set_frame m1 s.k y _ _ _ (List.mem_singleton.2 rfl)) (Nat.le_refl _) (fun _ h => h) (fun _ h => h), set_holds h1 ⟨rfl, rfl⟩⟩
      | true =>
        simp only [genE, genInc_eq, hloc, if_true] at hC ⊢
        have e0 := mov_ok (Γ := Γ) hh hC.head
        have k0 := keep_put m s.k (szT t) (bits t x)
        have h0 : Holds (m.put (fun _ => false) ⟨s.k, szT t⟩ (bits t x)) (.reg ⟨s.k, szT t⟩) t x := ⟨rfl, put_self m ⟨s.k, szT t⟩ (bits t x)⟩
        generalize m.put (fun _ => false) ⟨s.k, szT t⟩ (bits t x) = m0 at *
        have s0 := k0.sim hK hm
        have e1 := step_ok (Γ := Γ) (reg_holds s0 hy hloc hR hx) hr hb hC.right.head
        generalize conv t.size t.uns (if dec then x - stepOf t else x + stepOf t) = z at *
        have k1 := keep_put m0 (s.k + 1) (szT t) (bits t z)
        have h1 : Holds (m0.put (fun _ => false) ⟨s.k + 1, szT t⟩ (bits t z)) (.reg ⟨s.k + 1, szT t⟩) t z := ⟨rfl, put_self m0 ⟨s.k + 1, szT t⟩ (bits t z)⟩
        generalize m0.put (fun _ => false) ⟨s.k + 1, szT t⟩ (bits t z) = m1 at *
        have e2 := mov_ok (Γ := Γ) h1 hC.right.right.head
        refine ⟨_, (Go.step e0 (.step e1 (.one e2))).len rfl, set_sim (k1.sim (by omega) s0) hR z,
          ((k0.frame _).trans (k1.frame _) (Nat.le_succ _) (fun _ h => h) (fun _ h => h)).trans (set_frame m1 s.k y _ _ _ (List.mem_singleton.2 rfl))
            (Nat.le_refl _) (fun _ h => h) (fun _ h => h), ?_⟩
        refine h0.keep fun v e => ?_
        injection e with e
        subst e
        rw [put_ne m1 (d := ⟨y, szT t⟩) _ (by show s.k ≠ y; omega), k1.2 _ (Nat.lt_succ_self _)]
    | some q =>
      rw [at_addr hloc] at hx ⊢
      simp only [genE, genInc_eq, hloc] at hC ⊢
      have g1 : Go Γ C (p, m) (p + 1, _) := .one (exec_iofs hC.head hloc)
      have k1 := keep_put m s.k .q (q % 2 ^ 64)
      have hv := put_self m ⟨s.k, .q⟩ (q % 2 ^ 64)
      generalize m.put (fun _ => false) ⟨s.k, .q⟩ (q % 2 ^ 64) = m1 at *
      obtain ⟨m2, g2, s2, f2, h2, h3⟩ := inc_mem (Γ := Γ) (P := p + 1) (k := s.k + 1) (dec := dec) (k1.sim hK hm) (by omega) hb (o := .reg ⟨s.k, .q⟩)
        (by simp [X64Sel.val, hv]) rfl (fun v e => by injection e with e; subst e; exact Nat.lt_succ_self _) hx hC.tail
      refine ⟨m2, (g1.trans g2).len rfl, s2, fun q hq _ => ?_, ?_⟩
      · rw [f2 q (by omega), k1.2 q hq]
      · cases post
        · exact h3
        · exact h2
  | deref t' e =>
    have ht : t = t' := ht
    subst ht
    simp only [lvT, Option.map_eq_some_iff, Prod.mk.injEq] at el
    obtain ⟨⟨ad, τ3⟩, ee, rfl, rfl⟩ := el
    simp only [good, Bool.not_false, Bool.true_and] at gl
    simp only [genE, genInc_eq] at hC ⊢
    have st := (static Γ R K e).1 s gl
    obtain ⟨m1, g1, s1, f1, h1⟩ := ihl _ _ rfl hK ee hm hC.left
    have hr' := (ev_vok wl.1 ee).1
    rw [wl.2] at hr' h1
    obtain ⟨hv, hz⟩ := addr_ok h1 hr'
    have hreg : ∀ v, (genE Γ e s).opr = .reg v → v.p < (genE Γ e s).s.k := fun v q => by
      rcases st.reg v q with q | q
      · exact lt_of_lt_of_le (tails_lt e gl _ q) (hK.trans st.le.1)
      · exact q.2
    obtain ⟨m2, g2, s2, f2, h2, h3⟩ := inc_mem (Γ := Γ) (dec := dec) s1 (hK.trans st.le.1) hb hv hz hreg hx hC.right
    refine ⟨m2, (g1.trans g2).len (by simp only [List.length_append, List.length_cons, List.length_nil]; omega), s2, fun q hq hn => ?_, ?_⟩
    · rw [f2 q (lt_of_lt_of_le hq st.le.1)]
      exact f1 q hq fun h => hn (List.mem_append_left _ h)
    · cases post
      · exact h3
      · exact h2
  | _ => cases hl

theorem ve_deref (t : T) (e : X) (hw : WX (.deref t e)) (hg : good Γ R K false (.deref t e) = true) (ih : VE Γ R K C e) : VE Γ R K C (.deref t e) := by
  intro s τ τ' v m p hK he hm hC
  simp only [good, Bool.not_false, Bool.true_and] at hg
  simp only [genE] at hC ⊢
  have st := (static Γ R K e).1 s hg
  simp only [evT] at he
  split at he
  · rename_i a τ1 ea
    simp only [Option.map_eq_some_iff, Prod.mk.injEq] at he
    obtain ⟨b, hb, rfl, rfl⟩ := he
    obtain ⟨m1, g1, s1, f1, h1⟩ := ih hK ea hm hC.left
    have hr := (ev_vok hw.1 ea).1
    rw [hw.2] at hr h1
    obtain ⟨hv, hz⟩ := addr_ok h1 hr
    have g2 := load_ok (Γ := Γ) s1 hv hz hb hC.right.head
    have k2 := keep_put m1 (genE Γ e s).s.k (szT t) (bits t b)
    exact ⟨_, (g1.trans g2).len (by simp [Nat.add_assoc]), k2.sim (hK.trans st.le.1) s1,
      f1.trans (k2.frame []) st.le.1 (fun _ h => h) (fun _ h => nomatch h), rfl, put_self _ _ _⟩
  · cases he

theorem ve_ref (t : T) (e : X) (hw : WX (.ref t e)) (hg : good Γ R K false (.ref t e) = true) (ih : ∀ t' e', e = .deref t' e' → VE Γ R K C e') :
    VE Γ R K C (.ref t e) := by
  intro s τ τ' v m p hK he hm hC
  simp only [good, Bool.and_eq_true, Bool.not_false, true_and] at hg
  simp only [evT] at he
  cases e with
  | var t' x =>
    cases hl : (Γ x).loc with
    | none => simp [lvT, place, hl] at he
    | some q =>
      simp only [lvT, at_addr hl, Option.some.injEq, Prod.mk.injEq] at he
      obtain ⟨rfl, rfl⟩ := he
      simp only [genE] at hC ⊢
      have k1 := keep_put m s.k .q (q % 2 ^ 64)
      refine ⟨_, .one (exec_iofs hC.head hl), k1.sim hK hm, k1.frame _, ?_⟩
      show Holds _ _ t _
      rw [hw.2]
      refine ⟨rfl, ?_⟩
      rw [put_self m ⟨s.k, .q⟩, bits_nat (.ptr _) (by show q % 2 ^ 64 < 2 ^ 64; exact Nat.mod_lt _ (by decide))]
  | deref t' e =>
    simp only [lvT, Option.map_eq_some_iff] at he
    split at he
    case h_2 => cases he
    rename_i pl τ2 el
    simp only [Option.some.injEq, Prod.mk.injEq, Option.map_eq_some_iff, Loc.at.injEq] at he el
    obtain ⟨rfl, rfl⟩ := he
    obtain ⟨⟨ad, τ3⟩, ee, rfl, rfl⟩ := el
    obtain ⟨m', g, s', f, h⟩ := ih _ _ rfl hK ee hm hC
    refine ⟨m', g, s', f, ?_⟩
    show Holds _ _ t _
    rw [hw.2]
    have hr := (ev_vok hw.1.1 ee).1
    rw [hw.1.2] at hr h
    have hb := bits_uns (t := .ptr t') rfl hr
    have hl : bits (.ptr t') ad < 2 ^ 64 := bits_lt (.ptr t') ad
    have e1 : ((ad.toNat % 2 ^ 64 : Nat) : Int) = ad := by
      rw [← hb, Int.toNat_natCast, Nat.mod_eq_of_lt hl]
    rw [e1]
    exact h
  | _ => cases hg.1

end

/-- All the cases. -/
theorem all_ok {Γ : Ctx} {R : Nat → X64.Sz} {K : Nat} {C : List In} (hU : Uniq C) (x : X) : WX x →
    (good Γ R K false x = true → VE Γ R K C x) ∧ (good Γ R K true x = true → VC Γ R K C x) := by
  induction x using ind with
  | lit t v => exact fun w => ⟨fun _ => ve_lit t v w, fun _ => vc_lit t v w⟩
  | var t x => exact fun w => ⟨fun g => ve_var t x g, fun g => by simp [good] at g⟩
  | cast t e ih =>
    refine fun w => ⟨fun g => ve_cast t e w g ((ih w.1).1 ?_), fun g => by simp [good] at g⟩
    simp only [good, Bool.and_eq_true] at g
    exact g.1.2
  | bin o t a b iha ihb =>
    refine fun w => ⟨fun g => ?_, fun g => by simp [good] at g⟩
    have g' := g
    simp only [good, Bool.and_eq_true] at g'
    exact ve_bin o t a b w g ((iha w.1).1 g'.1.1.2) ((ihb w.2.1).1 g'.1.2)
  | rel k a b iha ihb =>
    refine fun w => ⟨fun g => ?_, fun g => ?_⟩
    · have g' := g
      simp only [good, Bool.and_eq_true] at g'
      exact ve_rel k a b w g ((iha w.1).1 g'.1.1.1) ((ihb w.2).1 g'.1.1.2)
    · have g' := g
      simp only [good, Bool.and_eq_true] at g'
      exact vc_rel hU k a b w g ((iha w.1).1 g'.1.1.1) ((ihb w.2).1 g'.1.1.2)
  | land a b iha ihb =>
    refine fun w => ⟨fun g => ?_, fun g => ?_⟩
    · have g' := g
      simp only [good, Bool.and_eq_true] at g'
      exact ve_land hU a b g ((iha w.1).2 g'.1) ((ihb w.2).2 g'.2)
    · have g' := g
      simp only [good, Bool.and_eq_true] at g'
      exact vc_land hU a b g ((iha w.1).2 g'.1) ((ihb w.2).2 g'.2)
  | lor a b iha ihb =>
    refine fun w => ⟨fun g => ?_, fun g => ?_⟩
    · have g' := g
      simp only [good, Bool.and_eq_true] at g'
      exact ve_lor hU a b g ((iha w.1).2 g'.1) ((ihb w.2).2 g'.2)
    · have g' := g
      simp only [good, Bool.and_eq_true] at g'
      exact vc_lor hU a b g ((iha w.1).2 g'.1) ((ihb w.2).2 g'.2)
  | pos t e ih =>
    refine fun w => ⟨fun g => ve_pos t e w ((ih w.1).1 ?_), fun g => by simp [good] at g⟩
    simpa [good] using g
  | neg t e ih =>
    refine fun w => ⟨fun g => ve_neg t e g ((ih w.1).1 ?_), fun g => by simp [good] at g⟩
    simp only [good, Bool.and_eq_true] at g
    exact g.1.2
  | bnot t e ih =>
    refine fun w => ⟨fun g => ve_bnot t e g ((ih w.1).1 ?_), fun g => by simp [good] at g⟩
    simp only [good, Bool.and_eq_true] at g
    exact g.1.2
  | comma t a b iha ihb =>
    refine fun w => ⟨fun g => ?_, fun g => ?_⟩
    · have g' := g
      simp only [good, Bool.and_eq_true] at g'
      exact ve_comma t a b g ((iha w.1).1 g'.1.1) ((ihb w.2.1).1 g'.1.2)
    · have g' := g
      simp only [good, Bool.and_eq_true] at g'
      exact vc_comma t a b g ((iha w.1).1 g'.1.1) ((ihb w.2.1).2 g'.1.2)
  | tern t c a b ihc iha ihb =>
    refine fun w => ⟨fun g => ?_, fun g => by simp [good] at g⟩
    have g' := g
    simp only [good, Bool.and_eq_true] at g'
    exact ve_tern hU t c a b g ((ihc w.1).2 g'.1.1.1.1.2) ((iha w.2.1).1 g'.1.1.1.2) ((ihb w.2.2.1).1 g'.1.1.2)
  | asg t l r ihl ihr =>
    refine fun w => ⟨fun g => ?_, fun g => by simp [good] at g⟩
    have g' := g
    simp only [good, Bool.and_eq_true] at g'
    refine ve_asg t l r w g (fun t' e q => ?_) ((ihr w.2.1).1 g'.1.1.2)
    subst q
    refine (ihl _ _ rfl w.1.1).1 ?_
    simpa [good] using g'.1.1.1.2
  | inc p d t l ih =>
    refine fun w => ⟨fun g => ?_, fun g => by simp [good] at g⟩
    have g' := g
    simp only [good, Bool.and_eq_true] at g'
    refine ve_inc p d t l w g (fun t' e q => ?_)
    subst q
    refine (ih _ _ rfl w.1.1).1 ?_
    simpa [good] using g'.2
  | deref t e ih =>
    refine fun w => ⟨fun g => ve_deref t e w g ((ih w.1).1 ?_), fun g => by simp [good] at g⟩
    simpa [good] using g
  | ref t e ih =>
    refine fun w => ⟨fun g => ?_, fun g => by simp [good] at g⟩
    have g' := g
    simp only [good, Bool.and_eq_true] at g'
    refine ve_ref t e w g (fun t' e q => ?_)
    subst q
    refine (ih _ _ rfl w.1.1).1 ?_
    simpa [good] using g'.2

/-! ## Lemmas: labels -/

def cnt (n : Nat) (C : List In) : Nat := C.countP (isLab n)

theorem uniq_of : ∀ (C : List In), (∀ n, cnt n C ≤ 1) → Uniq C
  | [], _, i, l, h => by simp at h
  | c :: C, hc, i, l, h => by
    have ih := uniq_of C fun n => by
      have := hc n
      unfold cnt at this ⊢
      rw [List.countP_cons] at this
      omega
    cases i with
    | zero =>
      simp only [List.getElem?_cons_zero, Option.some.injEq] at h
      subst h
      simp [find, List.findIdx?_cons, isLab]
    | succ i =>
      simp only [List.getElem?_cons_succ] at h
      have h1 := ih i l h
      have hp : 0 < cnt l C := List.countP_pos_iff.2 ⟨_, List.mem_of_getElem? h, by simp [isLab]⟩
      have hn : isLab l c = false := by
        have := hc l
        unfold cnt at this hp
        rw [List.countP_cons] at this
        cases e : isLab l c
        · rfl
        · rw [e] at this
          simp only [if_true] at this
          omega
      unfold find at h1 ⊢
      rw [List.findIdx?_cons, hn, h1]
      rfl

/-- Labels are new, and stand once. -/
def LabOk (l : Nat) (C : List In) (l' : Nat) : Prop := l ≤ l' ∧ ∀ n, cnt n C ≤ 1 ∧ (cnt n C ≠ 0 → l ≤ n ∧ n < l')

theorem cnt_append (n : Nat) (a b : List In) : cnt n (a ++ b) = cnt n a + cnt n b := List.countP_append ..

theorem cnt_nil (n : Nat) : cnt n [] = 0 := rfl

theorem cnt_cons (n : Nat) (i : In) (a : List In) : cnt n (i :: a) = cnt n a + if isLab n i then 1 else 0 := List.countP_cons ..

theorem LabOk.append {l l' l'' : Nat} {a b : List In} (h : LabOk l a l') (h' : LabOk l' b l'') : LabOk l (a ++ b) l'' := by
  refine ⟨h.1.trans h'.1, fun n => ?_⟩
  have h1 := h.2 n
  have h2 := h'.2 n
  have := h.1
  have := h'.1
  rw [cnt_append]
  omega

theorem labOk_nil (l : Nat) : LabOk l [] l := ⟨Nat.le_refl _, fun n => ⟨Nat.zero_le _, fun h => absurd rfl h⟩⟩

theorem labOk_none {l : Nat} {a : List In} (h : ∀ n, ∀ i ∈ a, isLab n i = false) : LabOk l a l := by
  refine ⟨Nat.le_refl _, fun n => ?_⟩
  have : cnt n a = 0 := List.countP_eq_zero.2 fun i hi => by rw [h n i hi]; decide
  omega

theorem genBop_lab (o : Ar) (u : Bool) (z : X64.Sz) (x y : Opr) (s : Fr) : LabOk s.l (genBop o u z x y s).code (genBop o u z x y s).s.l := by
  unfold genBop
  split <;> exact labOk_none (fun n i hi => by simp at hi <;> (try subst hi) <;> rfl)

theorem genUn_lab (k : IrFold.Uop) (u : Bool) (z : X64.Sz) (x : Opr) (s : Fr) : LabOk s.l (genUn k u z x s).code (genUn k u z x s).s.l := by
  unfold genUn
  split <;> exact labOk_none (fun n i hi => by simp at hi <;> (try subst hi) <;> rfl)

theorem genCast_lab (t : T) (u : Bool) (x : Opr) (s : Fr) : LabOk s.l (genCast t u x s).code (genCast t u x s).s.l := by
  unfold genCast
  split
  · exact labOk_nil _
  · split <;> exact labOk_none (fun n i hi => by simp at hi <;> (try subst hi) <;> rfl)

theorem genRel_lab (c : Cmp) (s : Fr) : LabOk s.l (genRel c s).code (genRel c s).s.l := by
  unfold genRel
  split <;> exact labOk_none (fun n i hi => by simp at hi <;> (try subst hi) <;> rfl)

theorem cjmp_lab (c : Cmp) (t n : Nat) : cnt n (cjmp c t) = 0 := by
  unfold cjmp
  split <;> rfl

theorem labels (Γ : Ctx) (x : X) : (∀ s, LabOk s.l (genE Γ x s).code (genE Γ x s).s.l) ∧ ∀ t f s, LabOk s.l (genC Γ x t f s).code (genC Γ x t f s).s.l := by
  have fail : ∀ l, LabOk l [.fail] l := fun l => labOk_none fun n i hi => by simp at hi; subst hi; rfl
  induction x using ind with
  | lit t v => exact ⟨fun s => labOk_nil _, fun t f s => labOk_none fun n i hi => by simp [genC] at hi; subst hi; rfl⟩
  | var t x =>
    refine ⟨fun s => ?_, fun t f s => fail _⟩
    unfold genE
    split
    · exact labOk_nil _
    · exact labOk_none fun n i hi => by simp at hi; rcases hi with rfl | rfl <;> rfl
  | cast t e ih => exact ⟨fun s => (ih.1 s).append (genCast_lab _ _ _ _), fun t f s => fail _⟩
  | bin o t a b iha ihb => exact ⟨fun s => (iha.1 s).append ((ihb.1 _).append (genBop_lab _ _ _ _ _ _)), fun t f s => fail _⟩
  | rel k a b iha ihb =>
    refine ⟨fun s => (iha.1 s).append ((ihb.1 _).append (genRel_lab _ _)), fun t f s => ?_⟩
    simp only [genC]
    refine (iha.1 s).append ((ihb.1 _).append ⟨Nat.le_succ _, fun n => ?_⟩)
    simp only [cnt_append, cjmp_lab, cnt_cons, cnt_nil, isLab, beq_iff_eq, Bool.false_eq_true, if_false]
    split_ifs <;> omega
  | land a b iha ihb =>
    refine ⟨fun s => ?_, fun t f s => ?_⟩
    · have h1 := iha.2 (s.l + 3) (s.l + 1) ⟨s.k, s.l + 4⟩
      have h2 := ihb.2 s.l (s.l + 1) (genC Γ a (s.l + 3) (s.l + 1) ⟨s.k, s.l + 4⟩).s
      have e1 := h1.1
      have e2 := h2.1
      simp only at e1
      refine ⟨by simp only [genE]; omega, fun n => ?_⟩
      have h1 := h1.2 n
      have h2 := h2.2 n
      simp only [genE, cnt_append, cnt_cons, cnt_nil, isLab, beq_iff_eq, Bool.false_eq_true, if_false]
      simp only at h1
      split_ifs <;> omega
    · have h1 := iha.2 s.l f ⟨s.k, s.l + 1⟩
      have h2 := ihb.2 t f (genC Γ a s.l f ⟨s.k, s.l + 1⟩).s
      have e1 := h1.1
      have e2 := h2.1
      simp only at e1
      refine ⟨by simp only [genC]; omega, fun n => ?_⟩
      have h1 := h1.2 n
      have h2 := h2.2 n
      simp only [genC, cnt_append, cnt_cons, cnt_nil, isLab, beq_iff_eq, Bool.false_eq_true, if_false]
      simp only at h1
      split_ifs <;> omega
  | lor a b iha ihb =>
    refine ⟨fun s => ?_, fun t f s => ?_⟩
    · have h1 := iha.2 s.l (s.l + 3) ⟨s.k, s.l + 4⟩
      have h2 := ihb.2 s.l (s.l + 1) (genC Γ a s.l (s.l + 3) ⟨s.k, s.l + 4⟩).s
      have e1 := h1.1
      have e2 := h2.1
      simp only at e1
      refine ⟨by simp only [genE]; omega, fun n => ?_⟩
      have h1 := h1.2 n
      have h2 := h2.2 n
      simp only [genE, cnt_append, cnt_cons, cnt_nil, isLab, beq_iff_eq, Bool.false_eq_true, if_false]
      simp only at h1
      split_ifs <;> omega
    · have h1 := iha.2 t s.l ⟨s.k, s.l + 1⟩
      have h2 := ihb.2 t f (genC Γ a t s.l ⟨s.k, s.l + 1⟩).s
      have e1 := h1.1
      have e2 := h2.1
      simp only at e1
      refine ⟨by simp only [genC]; omega, fun n => ?_⟩
      have h1 := h1.2 n
      have h2 := h2.2 n
      simp only [genC, cnt_append, cnt_cons, cnt_nil, isLab, beq_iff_eq, Bool.false_eq_true, if_false]
      simp only at h1
      split_ifs <;> omega
  | pos t e ih => exact ⟨fun s => ih.1 s, fun t f s => fail _⟩
  | neg t e ih => exact ⟨fun s => (ih.1 s).append (genUn_lab _ _ _ _ _), fun t f s => fail _⟩
  | bnot t e ih => exact ⟨fun s => (ih.1 s).append (genUn_lab _ _ _ _ _), fun t f s => fail _⟩
  | comma t a b iha ihb => exact ⟨fun s => (iha.1 s).append (ihb.1 _), fun t f s => (iha.1 s).append (ihb.2 _ _ _)⟩
  | tern t c a b ihc iha ihb =>
    refine ⟨fun s => ?_, fun t f s => fail _⟩
    have h1 := ihc.2 s.l (s.l + 1) ⟨s.k + 1, s.l + 3⟩
    have h2 := iha.1 (genC Γ c s.l (s.l + 1) ⟨s.k + 1, s.l + 3⟩).s
    have h3 := ihb.1 (genE Γ a (genC Γ c s.l (s.l + 1) ⟨s.k + 1, s.l + 3⟩).s).s
    have e1 := h1.1
    have e2 := h2.1
    have e3 := h3.1
    simp only at e1
    refine ⟨by simp only [genE]; omega, fun n => ?_⟩
    have h1 := h1.2 n
    have h2 := h2.2 n
    have h3 := h3.2 n
    simp only [genE, cnt_append, cnt_cons, cnt_nil, isLab, beq_iff_eq, Bool.false_eq_true, if_false]
    simp only at h1
    split_ifs <;> omega
  | asg t l r ihl ihr =>
    refine ⟨fun s => ?_, fun t f s => fail _⟩
    cases l with
    | var t' x =>
      simp only [genE]
      split
      · exact (ihr.1 s).append (labOk_none fun n i hi => by simp at hi; subst hi; rfl)
      · exact (ihr.1 s).append (labOk_none fun n i hi => by simp at hi; rcases hi with rfl | rfl <;> rfl)
    | deref t' e => exact (ihr.1 s).append (((ihl _ _ rfl).1 _).append (labOk_none fun n i hi => by simp at hi; subst hi; rfl))
    | _ => exact fail _
  | inc p d t l ih =>
    refine ⟨fun s => ?_, fun t f s => fail _⟩
    cases l with
    | var t' x =>
      simp only [genE, genInc_eq]
      split
      · cases p
        · exact labOk_none fun n i hi => by simp at hi; rcases hi with rfl | rfl <;> rfl
        · exact labOk_none fun n i hi => by simp at hi; rcases hi with rfl | rfl | rfl <;> rfl
      · exact labOk_none fun n i hi => by simp at hi; rcases hi with rfl | rfl | rfl | rfl <;> rfl
    | deref t' e =>
      simp only [genE, genInc_eq]
      exact ((ih _ _ rfl).1 s).append (labOk_none fun n i hi => by simp at hi; rcases hi with rfl | rfl | rfl <;> rfl)
    | _ => exact fail _
  | deref t e ih => exact ⟨fun s => (ih.1 s).append (labOk_none fun n i hi => by simp at hi; subst hi; rfl), fun t f s => fail _⟩
  | ref t e ih =>
    refine ⟨fun s => ?_, fun t f s => fail _⟩
    cases e with
    | var t' x => exact labOk_none fun n i hi => by simp [genE] at hi; subst hi; rfl
    | deref t' e => exact (ih _ _ rfl).1 s
    | _ => exact fail _

theorem labOk_uniq {l l' : Nat} {C : List In} (h : LabOk l C l') : Uniq C := uniq_of C fun n => (h.2 n).1

end Verif.ExprGen

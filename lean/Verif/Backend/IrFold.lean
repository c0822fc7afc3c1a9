/-
Constant folding in the back end (C56).

Models /repo/src/cc/backend/ir.c:79-234 (`new_ir_bop`, `new_ir_unary`), /repo/src/cc/backend/optimize.c:335-369
(`calc_const_expr`), 394-489 (`constant_folding`: arithmetic, `IR_CAST`), and the constant part of `gen_cast`,
/repo/src/cc/backend/codegen_expr.c:189-206.

A constant is a 64-bit number (`fixnum`) with a size; only the low bits of that size mean something, but
the folding code calculates with all 64.

Simplifications: integers only; signed overflow of the compiler's own 64-bit arithmetic wraps (it is
undefined in C); a shift of the compiler by a count outside 0..63 and `INT64_MIN / -1` are `trap`.
-/
import Verif.Util.Wrap
import Verif.Backend.Cond
import Mathlib.Tactic.Ring
import Mathlib.Tactic.Linarith

namespace Verif.IrFold
open Verif.Util

/-! ### Specification: what the instructions do -/

inductive Bop where
  | add | sub | mul | div | mod | and | or | xor | shl | shr
deriving DecidableEq

inductive Uop where
  | neg | not
deriving DecidableEq

/-- Binary instructions on registers of `n` bits (`u`: unsigned); `c` is the number in the second register,
for shifts.  `none`: undefined in C. -/
def sem (k : Bop) (u : Bool) {n : Nat} (a b : BitVec n) (c : Nat) : Option (BitVec n) :=
  match k with
  | .add => some (a + b)
  | .sub => some (a - b)
  | .mul => some (a * b)
  | .div =>
    if b = 0 then none
    else if u then some (a.udiv b)
    else if a.toInt = -2 ^ (n - 1) ∧ b.toInt = -1 then none
    else some (a.sdiv b)
  | .mod =>
    if b = 0 then none
    else if u then some (a.umod b)
    else if a.toInt = -2 ^ (n - 1) ∧ b.toInt = -1 then none
    else some (a.srem b)
  | .and => some (a &&& b)
  | .or => some (a ||| b)
  | .xor => some (a ^^^ b)
  | .shl => if c < n then some (a <<< c) else none
  | .shr => if c < n then some (if u then a >>> c else a.sshiftRight c) else none

def semU (k : Uop) {n : Nat} (a : BitVec n) : BitVec n :=
  match k with
  | .neg => -a
  | .not => ~~~a

/-- The value of a register for a comparison. -/
def value (u : Bool) {n : Nat} (a : BitVec n) : Int := if u then a.toNat else a.toInt

/-! ### Model -/

/-- `enum VRegSize`: 1 << s bytes. -/
def bits (s : Nat) : Nat := 8 * 2 ^ s

/-- A constant or another virtual register. -/
inductive Opr where
  | const (v : Int)
  | reg (r : Nat)
deriving DecidableEq

/-- What `new_ir_bop` gives: an operand, the negation of one, a new instruction. -/
inductive Res where
  | opr (o : Opr)
  | neg (o : Opr)
  | emit
  | trap
deriving DecidableEq

/-- The compiler's arithmetic wraps. -/
def i64 (v : Int) : Int := toS 64 v

/-- A bit operation of `int64_t`. -/
def bit64 (f : BitVec 64 → BitVec 64 → BitVec 64) (a b : Int) : Int := (f (BitVec.ofInt 64 a) (BitVec.ofInt 64 b)).toInt

/-- The calculation of `new_ir_bop` (ir.c:93-118) and `calc_const_expr` (optimize.c:335-369). -/
def fold (k : Bop) (u : Bool) (l r : Int) : Option Int :=
  match k with
  | .add => some (i64 (l + r))
  | .sub => some (i64 (l - r))
  | .mul => some (i64 (l * r))
  | .div => if u then some (i64 (toU 64 l / toU 64 r)) else if l = -2 ^ 63 ∧ r = -1 then none else some (l.tdiv r)
  | .mod => if u then some (i64 (toU 64 l % toU 64 r)) else if l = -2 ^ 63 ∧ r = -1 then none else some (l.tmod r)
  | .and => some (bit64 (· &&& ·) l r)
  | .or => some (bit64 (· ||| ·) l r)
  | .xor => some (bit64 (· ^^^ ·) l r)
  | .shl => if 0 ≤ r ∧ r < 64 then some (i64 (l * 2 ^ r.toNat)) else none
  | .shr => if 0 ≤ r ∧ r < 64 then some (if u then i64 (toU 64 l / 2 ^ r.toNat) else l / 2 ^ r.toNat) else none

/-- `new_ir_unary`, ir.c:217-228. -/
def unary (k : Uop) (u : Bool) (s : Nat) (v : Int) : Int :=
  wrapValue (match k with | .neg => i64 (-v) | .not => -v - 1) (2 ^ s) u

/-- `new_ir_unary` for `IR_NEG`. -/
def negOpr (u : Bool) (s : Nat) : Opr → Res
  | .const v => .opr (.const (unary .neg u s v))
  | o => .neg o

/-- `new_ir_bop`, ir.c:79-215; both operands have size `s` (the second one of a shift may have another). -/
def bop (k : Bop) (u : Bool) (s : Nat) (o1 o2 : Opr) : Res :=
  if o2 = .const 0 ∧ (k = .div ∨ k = .mod) then .emit
  else
    match o1, o2 with
    | .const l, .const r =>
      match fold k u l r with
      | some v => .opr (.const (wrapValue v (2 ^ s) u))
      | none => .trap
    | .const l, o2 =>
      match k with
      | .add => if l = 0 then .opr o2 else .emit
      | .sub => if l = 0 then negOpr u s o2 else .emit
      | .mul =>
        if l = 1 then .opr o2 else if l = 0 then .opr (.const l)
        else if l = -1 ∧ u = false then negOpr u s o2 else .emit
      | .div => if l = 0 then .opr (.const l) else .emit
      | .mod => if l = 0 then .opr (.const l) else .emit
      | .and => if l = 0 then .opr (.const l) else .emit
      | .or => if l = 0 then .opr o2 else .emit
      | .xor => if l = 0 then .opr o2 else .emit
      | .shl => if l = 0 then .opr (.const l) else .emit
      | .shr => if l = 0 then .opr (.const l) else .emit
    | o1, .const r =>
      match k with
      | .add => if r = 0 then .opr o1 else .emit
      | .sub => if r = 0 then .opr o1 else .emit
      | .mul =>
        if r = 1 then .opr o1 else if r = 0 then .opr (.const r)
        else if r = -1 ∧ u = false then negOpr u s o1 else .emit
      | .div =>
        if r = 1 then .opr o1 else if r = 0 then .opr (.const r)
        else if r = -1 ∧ u = false then negOpr u s o1 else .emit
      | .mod => .emit
      | .and => if r = 0 then .opr (.const r) else .emit
      | .or => if r = 0 then .opr o1 else .emit
      | .xor => if r = 0 then .opr o1 else .emit
      | .shl => if r = 0 then .opr o1 else .emit
      | .shr => if r = 0 then .opr o1 else .emit
    | _, _ => .emit

/-- `constant_folding` for arithmetic, optimize.c:394-442: the constant moved to the destination (`some none`
is a trap of the compiler), `none`: not folded. -/
def foldBop (k : Bop) (u : Bool) (s : Nat) (o1 o2 : Opr) : Option (Option Int) :=
  if o2 = .const 0 ∧ (k = .div ∨ k = .mod) then none
  else
    match o1, o2 with
    | .const l, .const r => some ((fold k u l r).map fun v => wrapValue v (2 ^ s) u)
    | _, _ => none

/-- `constant_folding` for `IR_NEG` and `IR_BITNOT`; `new_ir_unary` (ir.c:230-233) does not set the flag of the
instruction, so `u` is `false` (optimize.c:364-366). -/
def foldUop (k : Uop) (s : Nat) (v : Int) : Int := unary k false s v

/-- `constant_folding` for `IR_CAST` from size `s` to `d`, optimize.c:466-474; `u`: the source is unsigned. -/
def foldCast (u : Bool) (s d : Nat) (v : Int) : Int := if s < d then wrapValue v (2 ^ s) u else v

/-- `gen_cast` of a constant, codegen_expr.c:189-206; `u`: the destination is unsigned. -/
def genCast (u : Bool) (s d : Nat) (v : Int) : Int :=
  if d < s ∧ 2 ^ d < 8 then wrapValue v (2 ^ d) u else v

/-- A register file. -/
abbrev Env := Nat → BitVec 64

/-- The low `n` bits of an operand. -/
def Opr.den (ρ : Env) (n : Nat) : Opr → BitVec n
  | .const v => BitVec.ofInt n v
  | .reg r => (ρ r).setWidth n

/-- The operand of size `s` as the count of a shift. -/
def Opr.count (ρ : Env) (s : Nat) (o : Opr) : Nat := (o.den ρ (bits s)).toNat

/-- A 64-bit number the folding code reads as the value of its low bits. -/
def Canon (u : Bool) (s : Nat) (v : Int) : Prop :=
  IsI64 v ∧ if u then toU 64 v < 2 ^ bits s else -2 ^ (bits s - 1) ≤ v ∧ v < 2 ^ (bits s - 1)

def Opr.Canon (u : Bool) (s : Nat) : Opr → Prop
  | .const v => IrFold.Canon u s v
  | .reg _ => True

/-! ### Lemmas -/

theorem bits_cases {s : Nat} (hs : s ≤ 3) : bits s = 8 ∨ bits s = 16 ∨ bits s = 32 ∨ bits s = 64 := by
  have : s = 0 ∨ s = 1 ∨ s = 2 ∨ s = 3 := by omega
  rcases this with h | h | h | h <;> subst h <;> simp [bits]

/-- The bits of a number depend on its remainder. -/
theorem ofInt_congr {n : Nat} {a b : Int} (h : (a - b) % 2 ^ n = 0) : BitVec.ofInt n a = BitVec.ofInt n b := by
  apply BitVec.eq_of_toInt_eq
  rw [BitVec.toInt_ofInt, BitVec.toInt_ofInt]
  have h2 : a % 2 ^ n = b % 2 ^ n := Int.emod_eq_emod_iff_emod_sub_eq_zero.2 h
  have h3 : ((2 ^ n : Nat) : Int) = 2 ^ n := by norm_cast
  rw [← Int.emod_bmod, ← Int.emod_bmod (x := b), h3, h2]

theorem ofInt_wrap {s : Nat} (hs : s ≤ 3) (u : Bool) (v : Int) :
    BitVec.ofInt (bits s) (wrapValue v (2 ^ s) u) = BitVec.ofInt (bits s) v := by
  apply ofInt_congr
  have : s = 0 ∨ s = 1 ∨ s = 2 ∨ s = 3 := by omega
  rcases this with h | h | h | h <;> subst h
  · exact wrapValue_congr v 1 u (by decide)
  · exact wrapValue_congr v 2 u (by decide)
  · exact wrapValue_congr v 4 u (by decide)
  · exact wrapValue_congr v 8 u (by decide)

theorem ofInt_i64 {n : Nat} (hn : n ≤ 64) (v : Int) : BitVec.ofInt n (i64 v) = BitVec.ofInt n v := by
  apply ofInt_congr
  have h : ((i64 v) - v) % 2 ^ 64 = 0 := by simp only [i64, toS]; split <;> omega
  obtain ⟨d, hd⟩ := Int.dvd_of_emod_eq_zero h
  apply Int.emod_eq_zero_of_dvd
  rw [hd]
  exact Dvd.dvd.mul_right (pow_dvd_pow _ hn) _

theorem i64_range (v : Int) : IsI64 (i64 v) := by simp only [i64, toS, IsI64]; split <;> omega

theorem toNat_canon {s : Nat} (hs : s ≤ 3) {v : Int} (h : Canon true s v) :
    ((BitVec.ofInt (bits s) v).toNat : Int) = toU 64 v := by
  obtain ⟨h1, h2⟩ := h
  simp only [if_true] at h2
  rw [BitVec.toNat_ofInt]
  simp only [toU, IsI64] at *
  rcases bits_cases hs with hb | hb | hb | hb <;> rw [hb] at h2 ⊢ <;> simp at * <;> omega

theorem toInt_canon {s : Nat} (hs : s ≤ 3) {v : Int} (h : Canon false s v) :
    (BitVec.ofInt (bits s) v).toInt = v := by
  obtain ⟨h1, h2⟩ := h
  simp only [Bool.false_eq_true, if_false] at h2
  rw [BitVec.toInt_ofInt]
  simp only [IsI64] at *
  rcases bits_cases hs with hb | hb | hb | hb <;> rw [hb] at h2 ⊢ <;> simp [Int.bmod] at * <;> split <;> omega

theorem wrap_canon {s : Nat} (hs : s ≤ 3) (u : Bool) {v : Int} (h : IsI64 v) : Canon u s (wrapValue v (2 ^ s) u) := by
  refine ⟨wrapValue_isI64 _ _ _ h, ?_⟩
  simp only [IsI64] at h
  have : s = 0 ∨ s = 1 ∨ s = 2 ∨ s = 3 := by omega
  rcases this with hs | hs | hs | hs <;> subst hs <;> cases u <;> simp [wrapValue, toU, toS, bits] <;> (try split) <;> omega

theorem ofInt_add {n : Nat} (a b : Int) : BitVec.ofInt n a + BitVec.ofInt n b = BitVec.ofInt n (a + b) :=
  (BitVec.ofInt_add a b).symm

theorem ofInt_sub {n : Nat} (a b : Int) : BitVec.ofInt n a - BitVec.ofInt n b = BitVec.ofInt n (a - b) := by
  apply BitVec.eq_of_toInt_eq
  rw [BitVec.toInt_sub, BitVec.toInt_ofInt, BitVec.toInt_ofInt, BitVec.toInt_ofInt, Int.sub_bmod_bmod, Int.bmod_sub_bmod]

theorem low64 {n : Nat} (hn : n ≤ 64) (v : Int) : BitVec.ofInt n v = (BitVec.ofInt 64 v).setWidth n := by
  apply BitVec.eq_of_toNat_eq
  rw [BitVec.toNat_setWidth, BitVec.toNat_ofInt, BitVec.toNat_ofInt]
  have hd : (2 ^ n : Nat) ∣ 2 ^ 64 := pow_dvd_pow _ hn
  have h1 : ((2 ^ n : Nat) : Int) ∣ ((2 ^ 64 : Nat) : Int) := by exact_mod_cast hd
  have h2 : 0 ≤ v % ((2 ^ 64 : Nat) : Int) := Int.emod_nonneg _ (by norm_num)
  have h3 : 0 ≤ v % ((2 ^ n : Nat) : Int) := Int.emod_nonneg _ (by positivity)
  apply Int.ofNat_inj.1
  rw [Int.natCast_mod, Int.toNat_of_nonneg h2, Int.toNat_of_nonneg h3]
  exact (Int.emod_emod_of_dvd v h1).symm

theorem bit64_low {n : Nat} (hn : n ≤ 64) (f : ∀ {k : Nat}, BitVec k → BitVec k → BitVec k)
    (hf : ∀ (a b : BitVec 64), (f a b).setWidth n = f (a.setWidth n) (b.setWidth n)) (a b : Int) :
    BitVec.ofInt n (bit64 f a b) = f (BitVec.ofInt n a) (BitVec.ofInt n b) := by
  rw [bit64, low64 hn, low64 hn a, low64 hn b, ← hf, BitVec.ofInt_toInt]

theorem tdiv_range {l r : Int} (hl : IsI64 l) (h : ¬ (l = -2 ^ 63 ∧ r = -1)) : IsI64 (l.tdiv r) := by
  have h1 : (l.tdiv r).natAbs = l.natAbs / r.natAbs := Int.natAbs_tdiv l r
  have h2 : l.natAbs / r.natAbs ≤ l.natAbs := Nat.div_le_self _ _
  simp only [IsI64] at *
  by_cases h3 : (l.tdiv r).natAbs = 2 ^ 63
  · have h4 : l.natAbs / r.natAbs = 2 ^ 63 := by omega
    have h5 : l.natAbs = 2 ^ 63 := by omega
    have h6 : r.natAbs = 1 := by
      rcases Nat.lt_trichotomy r.natAbs 1 with h7 | h7 | h7
      · have : r.natAbs = 0 := by omega
        rw [this] at h4; simp at h4
      · exact h7
      · have : l.natAbs / r.natAbs ≤ l.natAbs / 2 := Nat.div_le_div_left (by omega) (by omega)
        omega
    have h7 : r = 1 := by omega
    rw [h7, Int.tdiv_one]
    exact hl
  · omega

theorem tmod_range {l r : Int} (hl : IsI64 l) : IsI64 (l.tmod r) := by
  have h1 : (l.tmod r).natAbs = l.natAbs % r.natAbs := Int.natAbs_tmod l r
  have h2 : l.natAbs % r.natAbs ≤ l.natAbs := Nat.mod_le _ _
  simp only [IsI64] at *
  by_cases h3 : 0 ≤ l
  · have := Int.tmod_nonneg r h3
    omega
  · have := Int.tmod_nonneg r (show 0 ≤ -l by omega)
    rw [Int.neg_tmod] at this
    omega

theorem ofInt_toNat {n : Nat} (x : BitVec n) : BitVec.ofInt n (x.toNat : Int) = x := by
  rw [BitVec.ofInt_natCast, BitVec.ofNat_toNat, BitVec.setWidth_eq]

theorem toU_i64 {v : Int} (h0 : 0 ≤ v) (h1 : v < 2 ^ 64) : toU 64 (i64 v) = v := by
  simp only [toU, i64, toS]; split <;> omega

/-- Folding two constants gives what the instruction would give. -/
theorem fold_correct {s : Nat} (hs : s ≤ 3) {k : Bop} {u : Bool} {l r : Int} (hl : Canon u s l)
    (hr : if k = .shl ∨ k = .shr then IsI64 r ∧ 0 ≤ r else Canon u s r) {c : Nat} (hc : (k = .shl ∨ k = .shr) → (c : Int) = r)
    {x : BitVec (bits s)} (h : sem k u (BitVec.ofInt (bits s) l) (BitVec.ofInt (bits s) r) c = some x) :
    ∃ v, fold k u l r = some v ∧ IsI64 v ∧ BitVec.ofInt (bits s) v = x := by
  have hn : bits s ≤ 64 := by rcases bits_cases hs with h | h | h | h <;> omega
  have bitr : ∀ f : BitVec 64 → BitVec 64 → BitVec 64, IsI64 (bit64 f l r) := by
    intro f
    have h1 := BitVec.toInt_lt (x := f (BitVec.ofInt 64 l) (BitVec.ofInt 64 r))
    have h2 := BitVec.le_toInt (x := f (BitVec.ofInt 64 l) (BitVec.ofInt 64 r))
    simp only [bit64, IsI64]
    exact ⟨by simpa using h2, by simpa using h1⟩
  cases k with
  | add =>
    simp only [sem, Option.some.injEq] at h
    exact ⟨_, rfl, i64_range _, by rw [ofInt_i64 hn, ← h, ofInt_add]⟩
  | sub =>
    simp only [sem, Option.some.injEq] at h
    exact ⟨_, rfl, i64_range _, by rw [ofInt_i64 hn, ← h, ofInt_sub]⟩
  | mul =>
    simp only [sem, Option.some.injEq] at h
    exact ⟨_, rfl, i64_range _, by rw [ofInt_i64 hn, ← h, BitVec.ofInt_mul]⟩
  | and =>
    simp only [sem, Option.some.injEq] at h
    exact ⟨_, rfl, bitr _, by rw [← h]; exact bit64_low hn (fun a b => a &&& b) (fun a b => BitVec.setWidth_and) l r⟩
  | or =>
    simp only [sem, Option.some.injEq] at h
    exact ⟨_, rfl, bitr _, by rw [← h]; exact bit64_low hn (fun a b => a ||| b) (fun a b => BitVec.setWidth_or) l r⟩
  | xor =>
    simp only [sem, Option.some.injEq] at h
    exact ⟨_, rfl, bitr _, by rw [← h]; exact bit64_low hn (fun a b => a ^^^ b) (fun a b => BitVec.setWidth_xor) l r⟩
  | div =>
    have hr : Canon u s r := by simpa using hr
    simp only [sem] at h
    split at h
    · cases h
    · rename_i hb
      cases u with
      | true =>
        simp only [if_true, Option.some.injEq] at h
        refine ⟨_, rfl, i64_range _, ?_⟩
        rw [ofInt_i64 hn, ← toNat_canon hs hl, ← toNat_canon hs hr, ← h, ← Int.natCast_div]
        exact ofInt_toNat ((BitVec.ofInt (bits s) l).udiv (BitVec.ofInt (bits s) r)) ▸ by rw [BitVec.udiv_eq, BitVec.toNat_udiv]
      | false =>
        simp only [Bool.false_eq_true, if_false] at h
        split at h
        · cases h
        · rename_i hmin
          rw [toInt_canon hs hl, toInt_canon hs hr] at hmin
          have hno : ¬ (l = -2 ^ 63 ∧ r = -1) := by
            rintro ⟨h1, h2⟩
            obtain ⟨-, h3⟩ := hl
            simp only [Bool.false_eq_true, if_false] at h3
            apply hmin
            rcases bits_cases hs with hb | hb | hb | hb <;> rw [hb] at h3 ⊢ <;> omega
          simp only [Option.some.injEq] at h
          refine ⟨l.tdiv r, by simp only [fold, Bool.false_eq_true, if_false]; rw [if_neg hno], tdiv_range hl.1 hno, ?_⟩
          apply BitVec.eq_of_toInt_eq
          rw [← h, BitVec.toInt_sdiv, toInt_canon hs hl, toInt_canon hs hr, BitVec.toInt_ofInt]
  | mod =>
    have hr : Canon u s r := by simpa using hr
    simp only [sem] at h
    split at h
    · cases h
    · rename_i hb
      cases u with
      | true =>
        simp only [if_true, Option.some.injEq] at h
        refine ⟨_, rfl, i64_range _, ?_⟩
        rw [ofInt_i64 hn, ← toNat_canon hs hl, ← toNat_canon hs hr, ← h, ← Int.natCast_mod]
        exact ofInt_toNat ((BitVec.ofInt (bits s) l).umod (BitVec.ofInt (bits s) r)) ▸ by rw [BitVec.umod_eq, BitVec.toNat_umod]
      | false =>
        simp only [Bool.false_eq_true, if_false] at h
        split at h
        · cases h
        · rename_i hmin
          rw [toInt_canon hs hl, toInt_canon hs hr] at hmin
          have hno : ¬ (l = -2 ^ 63 ∧ r = -1) := by
            rintro ⟨h1, h2⟩
            obtain ⟨-, h3⟩ := hl
            simp only [Bool.false_eq_true, if_false] at h3
            apply hmin
            rcases bits_cases hs with hb | hb | hb | hb <;> rw [hb] at h3 ⊢ <;> omega
          simp only [Option.some.injEq] at h
          refine ⟨l.tmod r, by simp only [fold, Bool.false_eq_true, if_false]; rw [if_neg hno], tmod_range hl.1, ?_⟩
          have h4 := BitVec.toInt_srem (BitVec.ofInt (bits s) l) (BitVec.ofInt (bits s) r)
          rw [toInt_canon hs hl, toInt_canon hs hr] at h4
          rw [← h4, ← h, BitVec.ofInt_toInt]
  | shl =>
    obtain ⟨hr1, hr2⟩ : IsI64 r ∧ 0 ≤ r := by simpa using hr
    have hc := hc (.inl rfl)
    simp only [sem] at h
    split at h
    · rename_i hcn
      simp only [Option.some.injEq] at h
      refine ⟨i64 (l * 2 ^ r.toNat), by simp only [fold]; rw [if_pos (by omega)], i64_range _, ?_⟩
      rw [ofInt_i64 hn, ← h, BitVec.shiftLeft_eq_mul_twoPow, ← hc, Int.toNat_natCast, BitVec.ofInt_mul]
      congr 1
      apply BitVec.eq_of_toNat_eq
      rw [BitVec.toNat_ofInt, BitVec.toNat_twoPow]
      apply Int.ofNat_inj.1
      rw [Int.toNat_of_nonneg (Int.emod_nonneg _ (by positivity))]
      push_cast
      rfl
    · cases h
  | shr =>
    obtain ⟨hr1, hr2⟩ : IsI64 r ∧ 0 ≤ r := by simpa using hr
    have hc := hc (.inr rfl)
    simp only [sem] at h
    split at h
    · rename_i hcn
      simp only [Option.some.injEq] at h
      cases u with
      | true =>
        simp only [if_true] at h
        refine ⟨i64 (toU 64 l / 2 ^ r.toNat), by simp only [fold]; rw [if_pos (by omega)]; simp, i64_range _, ?_⟩
        rw [ofInt_i64 hn, ← toNat_canon hs hl, ← h, ← hc, Int.toNat_natCast]
        have : ((BitVec.ofInt (bits s) l).toNat : Int) / 2 ^ c = ((BitVec.ofInt (bits s) l >>> c).toNat : Int) := by
          rw [BitVec.toNat_ushiftRight, Nat.shiftRight_eq_div_pow]; push_cast; rfl
        rw [this, ofInt_toNat]
      | false =>
        simp only [Bool.false_eq_true, if_false] at h
        refine ⟨l / 2 ^ r.toNat, by simp only [fold]; rw [if_pos (by omega)]; simp, ?_, ?_⟩
        · have h1 : (0 : Int) < 2 ^ r.toNat := by positivity
          have h2 := hl.1
          simp only [IsI64] at *
          constructor
          · rw [Int.le_ediv_iff_mul_le h1]; nlinarith
          · exact Int.ediv_lt_of_lt_mul h1 (by nlinarith)
        · rw [← h, BitVec.sshiftRight_eq, toInt_canon hs hl, Int.shiftRight_eq_div_pow, ← hc, Int.toNat_natCast]
          push_cast; rfl
    · cases h

/-- The count of a shift by a constant. -/
theorem count_canon {t : Nat} (ht : t ≤ 3) {u : Bool} {r : Int} (h : Canon u t r) {c : Nat}
    (hc : c = (BitVec.ofInt (bits t) r).toNat) (hlt : c < 64) : IsI64 r ∧ 0 ≤ r ∧ (c : Int) = r := by
  have hr := h.1
  cases u with
  | true =>
    have h1 := toNat_canon ht h
    simp only [IsI64, toU] at *
    omega
  | false =>
    have h1 := toInt_canon ht h
    rw [BitVec.toInt_eq_toNat_cond, ← hc] at h1
    have h2 : 2 * c < 2 ^ bits t := by rcases bits_cases ht with hb | hb | hb | hb <;> rw [hb] <;> omega
    rw [if_pos h2] at h1
    exact ⟨hr, by omega, h1⟩

theorem wrap_zero (s : Nat) (u : Bool) (hs : s ≤ 3) : Canon u s 0 := by
  have h := wrap_canon hs u (v := 0) (by simp [IsI64])
  have : s = 0 ∨ s = 1 ∨ s = 2 ∨ s = 3 := by omega
  rcases this with h' | h' | h' | h' <;> subst h' <;> cases u <;> exact h

theorem unary_den {s : Nat} (hs : s ≤ 3) (k : Uop) (u : Bool) (v : Int) :
    BitVec.ofInt (bits s) (unary k u s v) = semU k (BitVec.ofInt (bits s) v) := by
  have hn : bits s ≤ 64 := by rcases bits_cases hs with h | h | h | h <;> omega
  unfold unary
  rw [ofInt_wrap hs]
  cases k with
  | neg =>
    change BitVec.ofInt (bits s) (i64 (-v)) = -BitVec.ofInt (bits s) v
    rw [ofInt_i64 hn, BitVec.ofInt_neg]
  | not =>
    change BitVec.ofInt (bits s) (-v - 1) = ~~~BitVec.ofInt (bits s) v
    rw [BitVec.not_eq_neg_add, ← BitVec.ofInt_neg, ← ofInt_sub]
    rfl

theorem unary_canon {s : Nat} (hs : s ≤ 3) (k : Uop) (u : Bool) {v : Int} (h : IsI64 v) : Canon u s (unary k u s v) := by
  refine wrap_canon hs u ?_
  cases k with
  | neg => exact i64_range _
  | not => simp only [IsI64] at *; omega

/-! ### C56 -/

/-- An operand of a shift or of another instruction holds constants the folding code understands. -/
def Ready (k : Bop) (u : Bool) (s t : Nat) (o1 o2 : Opr) : Prop :=
  o1.Canon u s ∧ if k = .shl ∨ k = .shr then ∃ u2, o2.Canon u2 t else o2.Canon u s

/-- The result stands for the value `x`. -/
def Res.Gives (ρ : Env) {n : Nat} (x : BitVec n) : Res → Prop
  | .opr o => o.den ρ n = x
  | .neg o => -(o.den ρ n) = x
  | .emit => True
  | .trap => False

/-- What `new_ir_bop` returns is what the instruction would have given. -/
theorem bop_correct {s t : Nat} (hs : s ≤ 3) (ht : t ≤ 3) (ρ : Env) {k : Bop} {u : Bool} {o1 o2 : Opr}
    (h : Ready k u s t o1 o2) {x : BitVec (bits s)}
    (hx : sem k u (o1.den ρ (bits s)) (o2.den ρ (bits s)) (o2.count ρ t) = some x) :
    (bop k u s o1 o2).Gives ρ x := by
  have hn : bits s ≤ 64 := by rcases bits_cases hs with h | h | h | h <;> omega
  have hpos : 1 < bits s := by rcases bits_cases hs with h | h | h | h <;> omega
  have z : BitVec.ofInt (bits s) 0 = 0 := rfl
  have o : BitVec.ofInt (bits s) 1 = 1 := rfl
  have m : BitVec.ofInt (bits s) (-1) = -1 := by rw [BitVec.ofInt_neg, o]
  unfold bop
  split
  · trivial
  rename_i hdiv
  cases o1 with
  | const l =>
    cases o2 with
    | const r =>
      have hf : ∃ v, fold k u l r = some v ∧ IsI64 v ∧ BitVec.ofInt (bits s) v = x := by
        obtain ⟨h1, h2⟩ := h
        by_cases hk : k = .shl ∨ k = .shr
        · rw [if_pos hk] at h2
          obtain ⟨u2, h2⟩ := h2
          have hlt : Opr.count ρ t (.const r) < 64 := by
            rcases hk with hk | hk <;> subst hk <;> simp only [sem] at hx <;> split at hx <;> first | omega | cases hx
          obtain ⟨h3, h4, h5⟩ := count_canon ht h2 rfl hlt
          exact fold_correct hs h1 (by rw [if_pos hk]; exact ⟨h3, h4⟩) (fun _ => h5) hx
        · rw [if_neg hk] at h2
          exact fold_correct hs h1 (by rw [if_neg hk]; exact h2) (fun hk' => absurd hk' hk) hx
      obtain ⟨v, hv, -, hvx⟩ := hf
      dsimp only
      rw [hv]
      change BitVec.ofInt _ _ = x
      rw [ofInt_wrap hs, hvx]
    | reg y =>
      cases k
      case add => dsimp only; split <;> [(subst_vars; simpa [sem, Opr.den, Res.Gives] using hx); trivial]
      case sub => dsimp only; split <;> [(subst_vars; simpa [sem, Opr.den, Res.Gives, negOpr] using hx); trivial]
      case mul =>
        dsimp only
        repeat' split
        · subst_vars; simpa [sem, Opr.den, Res.Gives] using hx
        · subst_vars; simpa [sem, Opr.den, Res.Gives] using hx
        · rename_i h3; rw [h3.1] at hx; simp only [sem, Opr.den, m, Option.some.injEq] at hx
          change -(BitVec.setWidth _ _) = _
          rw [← hx, BitVec.neg_mul]; congr 1; exact (BitVec.one_mul _).symm
        · trivial
      case div =>
        dsimp only; split <;> [skip; trivial]
        subst_vars
        simp only [sem, Opr.den, z] at hx
        repeat' split at hx
        · cases hx
        · simpa [Res.Gives, Opr.den] using hx
        · cases hx
        · simpa [Res.Gives, Opr.den] using hx
      case mod =>
        dsimp only; split <;> [skip; trivial]
        subst_vars
        simp only [sem, Opr.den, z] at hx
        repeat' split at hx
        · cases hx
        · simpa [Res.Gives, Opr.den] using hx
        · cases hx
        · simpa [Res.Gives, Opr.den] using hx
      case and => dsimp only; split <;> [(subst_vars; simpa [sem, Opr.den, Res.Gives] using hx); trivial]
      case or => dsimp only; split <;> [(subst_vars; simpa [sem, Opr.den, Res.Gives] using hx); trivial]
      case xor => dsimp only; split <;> [(subst_vars; simpa [sem, Opr.den, Res.Gives] using hx); trivial]
      case shl =>
        dsimp only; split <;> [skip; trivial]
        subst_vars
        simp only [sem, Opr.den, z] at hx
        split at hx
        · simpa [Res.Gives, Opr.den] using hx
        · cases hx
      case shr =>
        dsimp only; split <;> [skip; trivial]
        subst_vars
        simp only [sem, Opr.den, z] at hx
        split at hx
        · cases u <;> simpa [Res.Gives, Opr.den] using hx
        · cases hx
  | reg y =>
    cases o2 with
    | const r =>
      cases k
      case add => dsimp only; split <;> [(subst_vars; simpa [sem, Opr.den, Res.Gives] using hx); trivial]
      case sub => dsimp only; split <;> [(subst_vars; simpa [sem, Opr.den, Res.Gives, negOpr] using hx); trivial]
      case mul =>
        dsimp only
        repeat' split
        · subst_vars; simpa [sem, Opr.den, Res.Gives] using hx
        · subst_vars; simpa [sem, Opr.den, Res.Gives] using hx
        · rename_i h3; rw [h3.1] at hx; simp only [sem, Opr.den, m, Option.some.injEq] at hx
          change -(BitVec.setWidth _ _) = _
          rw [← hx, BitVec.mul_neg]; congr 1; exact (BitVec.mul_one _).symm
        · trivial
      case div =>
        dsimp only
        repeat' split
        · subst_vars
          simp only [sem, Opr.den, o] at hx
          repeat' split at hx
          · cases hx
          · simpa [Res.Gives, Opr.den] using hx
          · cases hx
          · simp only [Option.some.injEq] at hx
            rw [← hx]
            change BitVec.setWidth _ _ = _
            apply BitVec.eq_of_toInt_eq
            have h1 : (1 : BitVec (bits s)).toInt = 1 := BitVec.toInt_one hpos
            rw [BitVec.toInt_sdiv, h1, Int.tdiv_one, BitVec.toInt_bmod_cancel]
        · exact absurd ⟨by subst_vars; rfl, .inl rfl⟩ hdiv
        · rename_i h3
          rw [h3.1] at hx
          simp only [sem, Opr.den, m] at hx
          have h1 : (-1 : BitVec (bits s)).toInt = -1 := by
            rw [BitVec.toInt_neg, show (1 : BitVec (bits s)).toInt = 1 from BitVec.toInt_one hpos]
            rcases bits_cases hs with h | h | h | h <;> rw [h] <;> rfl
          repeat' split at hx
          · cases hx
          · simp_all
          · cases hx
          · simp only [Option.some.injEq] at hx
            rw [← hx]
            change -(BitVec.setWidth _ _) = _
            apply BitVec.eq_of_toInt_eq
            rw [BitVec.toInt_sdiv, h1, BitVec.toInt_neg, Int.tdiv_neg, Int.tdiv_one]
        · trivial
      case mod => trivial
      case and => dsimp only; split <;> [(subst_vars; simpa [sem, Opr.den, Res.Gives] using hx); trivial]
      case or => dsimp only; split <;> [(subst_vars; simpa [sem, Opr.den, Res.Gives] using hx); trivial]
      case xor => dsimp only; split <;> [(subst_vars; simpa [sem, Opr.den, Res.Gives] using hx); trivial]
      case shl =>
        dsimp only; split <;> [skip; trivial]
        subst_vars
        have zt : (BitVec.ofInt (bits t) 0).toNat = 0 := rfl
        simp only [sem, Opr.den, Opr.count, zt] at hx
        split at hx
        · simpa [Res.Gives, Opr.den] using hx
        · cases hx
      case shr =>
        dsimp only; split <;> [skip; trivial]
        subst_vars
        have zt : (BitVec.ofInt (bits t) 0).toNat = 0 := rfl
        simp only [sem, Opr.den, Opr.count, zt] at hx
        split at hx
        · cases u <;> simpa [Res.Gives, Opr.den] using hx
        · cases hx
    | reg y' => trivial

/-- Two constants fold, to a constant the folding code understands again. -/
theorem bop_folds {s t : Nat} (hs : s ≤ 3) (ht : t ≤ 3) (ρ : Env) {k : Bop} {u : Bool} {l r : Int}
    (h : Ready k u s t (.const l) (.const r)) {x : BitVec (bits s)}
    (hx : sem k u (BitVec.ofInt (bits s) l) (BitVec.ofInt (bits s) r) (Opr.count ρ t (.const r)) = some x) :
    ∃ v, bop k u s (.const l) (.const r) = .opr (.const v) ∧ foldBop k u s (.const l) (.const r) = some (some v) ∧
      Canon u s v ∧ BitVec.ofInt (bits s) v = x := by
  have hdiv : ¬ (Opr.const r = .const 0 ∧ (k = .div ∨ k = .mod)) := by
    rintro ⟨h1, h2⟩
    have h1 : r = 0 := by simpa using h1
    subst h1
    have z : BitVec.ofInt (bits s) 0 = 0 := rfl
    rcases h2 with h2 | h2 <;> subst h2 <;> simp only [sem, z, if_true] at hx <;> cases hx
  have hf : ∃ v, fold k u l r = some v ∧ IsI64 v ∧ BitVec.ofInt (bits s) v = x := by
    obtain ⟨h1, h2⟩ := h
    by_cases hk : k = .shl ∨ k = .shr
    · rw [if_pos hk] at h2
      obtain ⟨u2, h2⟩ := h2
      have hn : bits s ≤ 64 := by rcases bits_cases hs with h | h | h | h <;> omega
      have hlt : Opr.count ρ t (.const r) < 64 := by
        rcases hk with hk | hk <;> subst hk <;> simp only [sem] at hx <;> split at hx <;> first | omega | cases hx
      obtain ⟨h3, h4, h5⟩ := count_canon ht h2 rfl hlt
      exact fold_correct hs h1 (by rw [if_pos hk]; exact ⟨h3, h4⟩) (fun _ => h5) hx
    · rw [if_neg hk] at h2
      exact fold_correct hs h1 (by rw [if_neg hk]; exact h2) (fun hk' => absurd hk' hk) hx
  obtain ⟨v, hv, hi, hvx⟩ := hf
  refine ⟨wrapValue v (2 ^ s) u, ?_, ?_, wrap_canon hs u hi, (ofInt_wrap hs u v).trans hvx⟩
  · unfold bop; rw [if_neg hdiv]; dsimp only; rw [hv]
  · unfold foldBop; rw [if_neg hdiv]; dsimp only; rw [hv]; rfl

/-- A constant that comes out of `new_ir_bop` is one the folding code understands again. -/
theorem bop_canon {s t : Nat} (hs : s ≤ 3) (ht : t ≤ 3) (ρ : Env) {k : Bop} {u : Bool} {o1 o2 : Opr}
    (h : Ready k u s t o1 o2) {x : BitVec (bits s)}
    (hx : sem k u (o1.den ρ (bits s)) (o2.den ρ (bits s)) (o2.count ρ t) = some x) {v : Int}
    (hv : bop k u s o1 o2 = .opr (.const v)) : Canon u s v := by
  have z := wrap_zero s u hs
  cases o1 with
  | const l =>
    cases o2 with
    | const r =>
      obtain ⟨w, hw, -, hc, -⟩ := bop_folds hs ht ρ h hx
      rw [hw] at hv
      simp only [Res.opr.injEq, Opr.const.injEq] at hv
      rw [← hv]; exact hc
    | reg y =>
      cases k <;> simp [bop, negOpr] at hv <;> (try split at hv) <;> (try split at hv) <;> (try split at hv) <;>
        simp at hv <;> first | (subst hv; assumption) | (subst hv; exact h.1)
  | reg y =>
    cases o2 with
    | const r =>
      cases k <;> simp [bop, negOpr] at hv <;> (try split at hv) <;> (try split at hv) <;> (try split at hv) <;> (try split at hv) <;>
        simp at hv <;> first | (subst hv; assumption) | (subst hv; exact h.2)
    | reg y' =>
      unfold bop at hv
      split at hv <;> cases hv

/-- The negation and the complement of a constant. -/
theorem foldUop_correct {s : Nat} (hs : s ≤ 3) (k : Uop) {v : Int} (h : IsI64 v) :
    BitVec.ofInt (bits s) (foldUop k s v) = semU k (BitVec.ofInt (bits s) v) ∧ Canon false s (foldUop k s v) :=
  ⟨unary_den hs k false v, unary_canon hs k false h⟩

theorem unary_correct {s : Nat} (hs : s ≤ 3) (k : Uop) (u : Bool) {v : Int} (h : IsI64 v) :
    BitVec.ofInt (bits s) (unary k u s v) = semU k (BitVec.ofInt (bits s) v) ∧ Canon u s (unary k u s v) :=
  ⟨unary_den hs k u v, unary_canon hs k u h⟩

/-- What a cast does: truncation, or extension by the signedness of the source. -/
def castSem (u : Bool) {n : Nat} (m : Nat) (a : BitVec n) : BitVec m :=
  if u then a.setWidth m else a.signExtend m

/-- A number extends as its value. -/
theorem ext_canon {u : Bool} {s : Nat} (hs : s ≤ 3) {v : Int} (h : Canon u s v) {m : Nat} (hm : m ≤ 64) :
    BitVec.ofInt m v = castSem u m (BitVec.ofInt (bits s) v) := by
  cases u with
  | false =>
    simp only [castSem, Bool.false_eq_true, if_false]
    rw [BitVec.signExtend, toInt_canon hs h]
  | true =>
    simp only [castSem, if_true]
    have h1 := toNat_canon hs h
    apply BitVec.eq_of_toNat_eq
    rw [BitVec.toNat_setWidth, BitVec.toNat_ofInt]
    apply Int.ofNat_inj.1
    rw [Int.natCast_mod, h1, Int.toNat_of_nonneg (Int.emod_nonneg _ (by positivity))]
    have hd : (2 ^ m : Nat) ∣ 2 ^ 64 := pow_dvd_pow _ hm
    have h2 : ((2 ^ m : Nat) : Int) ∣ (2 ^ 64 : Int) := by exact_mod_cast hd
    exact (Int.emod_emod_of_dvd v h2).symm

/-- Truncation does not depend on the signedness. -/
theorem trunc_den {n m : Nat} (h : m ≤ n) (hn : n ≤ 64) (u : Bool) (v : Int) :
    BitVec.ofInt m v = castSem u m (BitVec.ofInt n v) := by
  have h1 : BitVec.ofInt m v = (BitVec.ofInt n v).setWidth m := by
    rw [low64 (by omega) v, low64 hn v, BitVec.setWidth_setWidth_of_le _ h]
  cases u with
  | true => exact h1
  | false =>
    simp only [castSem, Bool.false_eq_true, if_false]
    rw [BitVec.signExtend_eq_setWidth_of_le _ h]; exact h1

theorem bits_le {s d : Nat} (h : d ≤ s) : bits d ≤ bits s := by
  unfold bits
  exact Nat.mul_le_mul_left _ (Nat.pow_le_pow_right (by omega) h)

/-- The cast of a constant is the cast of its bits, by the signedness of the source, whatever the upper
bits of the constant are. -/
theorem foldCast_correct {s d : Nat} (hs : s ≤ 3) (hd : d ≤ 3) (u : Bool) {v : Int} (h : IsI64 v) :
    BitVec.ofInt (bits d) (foldCast u s d v) = castSem u (bits d) (BitVec.ofInt (bits s) v) := by
  have hn : bits s ≤ 64 := by rcases bits_cases hs with h | h | h | h <;> omega
  have hm : bits d ≤ 64 := by rcases bits_cases hd with h | h | h | h <;> omega
  unfold foldCast
  split
  · rw [ext_canon hs (wrap_canon hs u h) hm, ofInt_wrap hs]
  · exact trunc_den (bits_le (by omega)) hn u v

/-- A cast to a greater size gives a number the folding code understands. -/
theorem foldCast_canon {s d : Nat} (hs : s ≤ 3) (hd : d ≤ 3) (hlt : s < d) (u : Bool) {v : Int} (h : IsI64 v) :
    Canon u d (foldCast u s d v) ∧ (u = true → Canon false d (foldCast u s d v)) := by
  have h1 := wrap_canon hs u h
  unfold foldCast
  rw [if_pos hlt]
  have : (s = 0 ∨ s = 1 ∨ s = 2) ∧ (d = 1 ∨ d = 2 ∨ d = 3) := by omega
  obtain ⟨h2, h3⟩ := this
  generalize wrapValue v (2 ^ s) u = w at *
  rcases h2 with rfl | rfl | rfl <;> rcases h3 with rfl | rfl | rfl <;> cases u <;> simp [Canon, bits, IsI64, toU] at * <;> omega

/-- `gen_cast` of a constant (`u0`: the source is unsigned, `u`: the destination). -/
theorem genCast_correct {s d : Nat} (hs : s ≤ 3) (hd : d ≤ 3) (u0 u : Bool) {v : Int} (h : Canon u0 s v) :
    BitVec.ofInt (bits d) (genCast u s d v) = castSem u0 (bits d) (BitVec.ofInt (bits s) v) := by
  have hm : bits d ≤ 64 := by rcases bits_cases hd with h | h | h | h <;> omega
  unfold genCast
  split
  · rw [ofInt_wrap hd]; exact ext_canon hs h hm
  · exact ext_canon hs h hm

/-- It gives a number the folding code understands, unless the number is negative and the destination is unsigned
and not smaller (or unsigned to signed of the same size). -/
theorem genCast_canon_partial {s d : Nat} (hs : s ≤ 3) (hd : d ≤ 3) (u0 u : Bool) {v : Int} (h : Canon u0 s v)
    (hx : d < s ∨ u = u0 ∨ (s < d ∧ 0 ≤ v)) : Canon u d (genCast u s d v) := by
  unfold genCast
  split
  · exact wrap_canon hd u h.1
  · rename_i hn
    have h2 : s = 0 ∨ s = 1 ∨ s = 2 ∨ s = 3 := by omega
    have h3 : d = 0 ∨ d = 1 ∨ d = 2 ∨ d = 3 := by omega
    rcases h2 with rfl | rfl | rfl | rfl <;> rcases h3 with rfl | rfl | rfl | rfl <;> cases u <;> cases u0 <;>
      simp [Canon, bits, IsI64, toU] at * <;> omega

/-- The comparison of two constants. -/
theorem cond_correct {s : Nat} (hs : s ≤ 3) {cond : Nat} (hc : 2 ≤ cond % 8) (hf : cond < 16) {a b : Int}
    (ha : Canon (cond / 8 % 2 = 1) s a) (hb : Canon (cond / 8 % 2 = 1) s b) :
    Cond.calcConstCond cond a b = some (Cond.holds cond
      (Cond.cmpInt (value (cond / 8 % 2 = 1) (BitVec.ofInt (bits s) a)) (value (cond / 8 % 2 = 1) (BitVec.ofInt (bits s) b)))) := by
  rw [Cond.calcConstCond_correct cond hc hf a b ha.1 hb.1, Cond.cmp64]
  by_cases h : cond / 8 % 2 = 1
  · simp only [h, decide_true] at ha hb
    simp only [h, decide_true, if_true, value, toNat_canon hs ha, toNat_canon hs hb]
  · simp only [h, decide_false] at ha hb
    simp only [h, decide_false, Bool.false_eq_true, if_false, value, toInt_canon hs ha, toInt_canon hs hb]

/-! ### Findings -/

/-- `gen_cast` leaves -1 as it is when it becomes `unsigned int`, and the folding of `(unsigned)-1 / 2` then gives
2^32-1 instead of 2^31-1. -/
theorem unsigned_div_wrong : genCast true 2 2 (-1) = -1 ∧ bop .div true 2 (.const (-1)) (.const 2) = .opr (.const 4294967295) ∧
    sem .div true (BitVec.ofInt 32 (-1)) (BitVec.ofInt 32 2) 0 = some (BitVec.ofInt 32 2147483647) := by decide +kernel

/-- `(unsigned)-1 == 4294967295u` is folded to false. -/
theorem unsigned_eq_wrong : Cond.calcConstCond (2 + 8) (genCast true 2 2 (-1)) 4294967295 = some false ∧
    BitVec.ofInt 32 (-1) = BitVec.ofInt 32 4294967295 := by decide +kernel

/-- `(unsigned)(short)-1 > ...`: a sign-extended number is not one the folding code understands: `>> 28` gives all ones. -/
theorem widened_shr_wrong : genCast true 1 2 (-1) = -1 ∧ bop .shr true 2 (.const (-1)) (.const 28) = .opr (.const 4294967295) ∧
    sem .shr true (BitVec.ofInt 32 (-1)) (BitVec.ofInt 32 28) 28 = some (BitVec.ofInt 32 15) := by decide +kernel

/-- The optimizer's narrowing cast keeps the upper bits, and a comparison looks at them: `(int)x == 1` for
`x = 2^32 + 1` is folded to false. -/
theorem narrowed_eq_wrong : Cond.calcConstCond 2 (foldCast false 3 2 4294967297) 1 = some false ∧
    castSem false (bits 2) (BitVec.ofInt (bits 3) 4294967297) = BitVec.ofInt (bits 2) 1 := by decide +kernel

/-- The optimizer's narrowing cast before a signed division: `(int)x / 2` for `x = 2^32` is folded to 2^31 (read as
`INT_MIN`) instead of 0. -/
theorem narrowed_div_wrong : bop .div false 2 (.const (foldCast false 3 2 4294967296)) (.const 2) = .opr (.const (-2147483648)) ∧
    sem .div false (castSem false (bits 2) (BitVec.ofInt (bits 3) 4294967296)) (BitVec.ofInt (bits 2) 2) 2 = some 0 := by
  decide +kernel

/-- The flag of `IR_NEG` is lost: `-x / 2u` for an unsigned `x = 1` is folded to 2^32-1 instead of 2^31-1. -/
theorem neg_flag_wrong : foldUop .neg 2 1 = -1 ∧ foldBop .div true 2 (.const (foldUop .neg 2 1)) (.const 2) = some (some 4294967295) ∧
    sem .div true (semU .neg (BitVec.ofInt 32 1)) (BitVec.ofInt 32 2) 0 = some (BitVec.ofInt 32 2147483647) := by decide +kernel

/-! ### The hypotheses are met -/

example : Ready .div true 2 2 (.const 4294967295) (.const 2) := by
  simp [Ready, Opr.Canon, Canon, IsI64, toU, bits]
example : bop .div true 2 (.const 4294967295) (.const 2) = .opr (.const 2147483647) := by decide +kernel
example : Ready .shl false 2 0 (.reg 7) (.const 3) := by
  refine ⟨trivial, ?_⟩
  rw [if_pos (.inl rfl)]
  exact ⟨true, by simp [Opr.Canon, Canon, IsI64, toU, bits]⟩
example : bop .mul false 2 (.reg 7) (.const (-1)) = .neg (.reg 7) := by decide
example : bop .sub true 3 (.const 0) (.reg 7) = .neg (.reg 7) := by decide
example : bop .div false 2 (.const 7) (.const 0) = .emit := by decide
example : foldCast true 0 2 (-1) = 255 ∧ foldCast false 0 2 255 = -1 := by decide +kernel
example : Canon false 2 (-5) ∧ genCast true 2 0 (-5) = 251 := ⟨by simp [Canon, IsI64, bits], by decide +kernel⟩
example : Canon ((4 + 8) / 8 % 2 = 1) 2 4294967295 := by simp [Canon, IsI64, toU, bits]

end Verif.IrFold

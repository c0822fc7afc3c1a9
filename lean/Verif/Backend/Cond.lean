import Verif.Util.Wrap
/-!
# Condition codes (C32) and their lowering to machine branches (C47)

`src/cc/backend/ir.c` `swap_cond`, `invert_cond`; `src/cc/backend/optimize.c` `calc_const_cond`, `replace_const_jmp`;
`ei_jmp`/`ei_cond` of the three native back ends.

Condition codes are the numbers of `enum ConditionKind` (src/cc/backend/ir.h:107-121): 0 NONE, 1 ANY, 2 EQ, 3 NE, 4 LT,
5 LE, 6 GE, 7 GT, plus 8 for COND_UNSIGNED and 16 for COND_FLONUM.
-/
namespace Verif.Cond
open Verif.Util

/-- `swap_cond`, src/cc/backend/ir.c:21-26; `none` is the failed assertion. -/
def swapCond (c : Nat) : Option Nat :=
  if c / 8 ≠ 0 then none else some (if c ≥ 4 then (7 + 4) - c else c)

/-- `invert_cond`, src/cc/backend/ir.c:28-34; `none` is the failed assertion. -/
def invertCond (cond : Nat) : Option Nat :=
  let c := cond % 8
  if 2 ≤ c ∧ c ≤ 7 then
    let ic := if c ≤ 3 then (3 + 2) - c else Nat.xor c 2
    some (ic + (cond - c))
  else none

/-! ## Specification -/

/-- What a comparison of two operands can give; floating-point operands may be unordered. -/
inductive Cmp
  | lt
  | eq
  | gt
  | unordered
deriving DecidableEq, Repr

/-- The C operator of a condition code (the low three bits) applied to a comparison result. -/
def holds (c : Nat) (o : Cmp) : Bool :=
  if c % 8 = 1 then true
  else if c % 8 = 2 then o == .eq
  else if c % 8 = 3 then o != .eq
  else if c % 8 = 4 then o == .lt
  else if c % 8 = 5 then o == .lt || o == .eq
  else if c % 8 = 6 then o == .gt || o == .eq
  else if c % 8 = 7 then o == .gt
  else false

/-- The result with exchanged operands. -/
def Cmp.swap : Cmp → Cmp
  | .lt => .gt
  | .gt => .lt
  | .eq => .eq
  | .unordered => .unordered

/-- Comparison of integers. -/
def cmpInt (a b : Int) : Cmp := if a < b then .lt else if a = b then .eq else .gt

/-- Comparison prescribed by a condition code for 64-bit operands. -/
def cmp64 (c : Nat) (a b : Int) : Cmp := if c / 8 % 2 = 1 then cmpInt (toU 64 a) (toU 64 b) else cmpInt a b

theorem cmpInt_swap (a b : Int) : cmpInt b a = (cmpInt a b).swap := by
  unfold cmpInt
  by_cases h1 : a < b
  · rw [if_neg (by omega), if_neg (by omega), if_pos h1]; rfl
  · by_cases h2 : a = b
    · rw [if_neg (by omega), if_pos h2.symm, if_neg h1, if_pos h2]; rfl
    · rw [if_pos (by omega), if_neg h1, if_neg h2]; rfl

/-- The C operators on integers. -/
theorem holds_cmp (c : Nat) (a b : Int) : holds c (cmpInt a b) =
    (if c % 8 = 1 then true else if c % 8 = 2 then decide (a = b) else if c % 8 = 3 then decide (a ≠ b)
     else if c % 8 = 4 then decide (a < b) else if c % 8 = 5 then decide (a ≤ b) else if c % 8 = 6 then decide (b ≤ a)
     else if c % 8 = 7 then decide (b < a) else false) := by
  unfold holds cmpInt
  by_cases h1 : a < b
  · have h2 : a ≠ b := by omega
    have h3 : a ≤ b := by omega
    have h4 : ¬ b ≤ a := by omega
    have h5 : ¬ b < a := by omega
    simp only [h1, h2, h3, h4, h5, if_true, decide_true, decide_false, ne_eq, not_false_eq_true]; rfl
  · by_cases h2 : a = b
    · subst h2
      simp only [h1, if_true, if_false, decide_true, decide_false, Int.le_refl, ne_eq, not_true]; rfl
    · have h3 : ¬ a ≤ b := by omega
      have h4 : b ≤ a := by omega
      have h5 : b < a := by omega
      simp only [h1, h2, h3, h4, h5, if_false, decide_true, decide_false, ne_eq, not_false_eq_true]; rfl

/-- C32.  Exchanging the operands and applying `swap_cond` does not change the outcome, for every comparison
condition and every comparison result, ordered or not. -/
theorem swap_correct (c : Nat) (hc : c < 8) : ∃ c', swapCond c = some c' ∧ c' < 8 ∧ ∀ o : Cmp, holds c' o.swap = holds c o := by
  have : c = 0 ∨ c = 1 ∨ c = 2 ∨ c = 3 ∨ c = 4 ∨ c = 5 ∨ c = 6 ∨ c = 7 := by omega
  rcases this with h | h | h | h | h | h | h | h <;> subst h <;> refine ⟨_, rfl, by decide, ?_⟩ <;>
    intro o <;> cases o <;> rfl

/-- C32.  For integers, in the form the compiler uses it: `a op b` iff `b op' a`. -/
theorem swap_correct_int (c : Nat) (hc : c < 8) (a b : Int) :
    ∃ c', swapCond c = some c' ∧ holds c' (cmpInt b a) = holds c (cmpInt a b) := by
  obtain ⟨c', h1, _, h2⟩ := swap_correct c hc
  exact ⟨c', h1, by rw [cmpInt_swap]; exact h2 _⟩

/-- C32.  `invert_cond` negates every comparison whose operands are ordered and keeps the signedness and
floating-point marks. -/
theorem invert_correct (cond : Nat) (hc : 2 ≤ cond % 8) :
    ∃ c', invertCond cond = some c' ∧ c' / 8 = cond / 8 ∧ ∀ o : Cmp, o ≠ .unordered → holds c' o = !holds cond o := by
  have hlt : cond % 8 < 8 := Nat.mod_lt _ (by omega)
  unfold invertCond
  dsimp only
  rw [if_pos ⟨hc, by omega⟩]
  refine ⟨_, rfl, ?_⟩
  have hx : ∀ d, d < 8 → d ≥ 4 → Nat.xor d 2 = (if d ≥ 6 then d - 2 else d + 2) := by decide
  have key : ∀ ic : Nat, ic < 8 → (ic + (cond - cond % 8)) % 8 = ic ∧ (ic + (cond - cond % 8)) / 8 = cond / 8 := by
    intro ic hic; omega
  have : cond % 8 = 2 ∨ cond % 8 = 3 ∨ cond % 8 = 4 ∨ cond % 8 = 5 ∨ cond % 8 = 6 ∨ cond % 8 = 7 := by omega
  have fin : ∀ ic : Nat, ic < 8 → (∀ o : Cmp, o ≠ .unordered → holds ic o = !holds (cond % 8) o) →
      (ic + (cond - cond % 8)) / 8 = cond / 8 ∧
        ∀ o : Cmp, o ≠ .unordered → holds (ic + (cond - cond % 8)) o = !holds cond o := by
    intro ic hic h
    refine ⟨(key ic hic).2, fun o ho => ?_⟩
    have := h o ho
    unfold holds at this ⊢
    rw [(key ic hic).1]
    rw [Nat.mod_mod, Nat.mod_eq_of_lt hic] at this
    exact this
  rcases this with h | h | h | h | h | h <;> rw [h] <;>
    (have h' := fin; rw [h] at h'; refine h' _ (by decide) ?_; intro o ho; cases o <;> first | rfl | exact absurd rfl ho)

/-- C32.  Inverting twice gives the condition back. -/
theorem invert_involutive (cond c' : Nat) (h : invertCond cond = some c') : invertCond c' = some cond := by
  unfold invertCond at h
  dsimp only at h
  split at h
  · rename_i hc
    have : cond % 8 = 2 ∨ cond % 8 = 3 ∨ cond % 8 = 4 ∨ cond % 8 = 5 ∨ cond % 8 = 6 ∨ cond % 8 = 7 := by omega
    have key : ∀ ic : Nat, ic < 8 → (ic + (cond - cond % 8)) % 8 = ic := by
      intro ic hic; omega
    injection h with h
    rcases this with e | e | e | e | e | e <;> rw [e] at h key <;> unfold invertCond <;> rw [← h] <;> dsimp only
    · rw [if_pos (show (2 : Nat) ≤ 3 by omega)] at *
      rw [key 3 (by omega), if_pos (by omega), if_pos (by omega)]; congr 1; omega
    · rw [if_pos (show (3 : Nat) ≤ 3 by omega)] at *
      rw [key 2 (by omega), if_pos (by omega), if_pos (by omega)]; congr 1; omega
    · rw [if_neg (show ¬ (4 : Nat) ≤ 3 by omega)] at *
      have : Nat.xor 4 2 = 6 := rfl
      rw [this, key 6 (by omega), if_pos (by omega), if_neg (by omega), show Nat.xor 6 2 = 4 from rfl]; congr 1; omega
    · rw [if_neg (show ¬ (5 : Nat) ≤ 3 by omega)] at *
      have : Nat.xor 5 2 = 7 := rfl
      rw [this, key 7 (by omega), if_pos (by omega), if_neg (by omega), show Nat.xor 7 2 = 5 from rfl]; congr 1; omega
    · rw [if_neg (show ¬ (6 : Nat) ≤ 3 by omega)] at *
      have : Nat.xor 6 2 = 4 := rfl
      rw [this, key 4 (by omega), if_pos (by omega), if_neg (by omega), show Nat.xor 4 2 = 6 from rfl]; congr 1; omega
    · rw [if_neg (show ¬ (7 : Nat) ≤ 3 by omega)] at *
      have : Nat.xor 7 2 = 5 := rfl
      rw [this, key 5 (by omega), if_pos (by omega), if_neg (by omega), show Nat.xor 5 2 = 7 from rfl]; congr 1; omega
  · cases h

/-- The code as it is: inverting an ordering of floating-point operands is wrong when one of them is a NaN;
`insert_unconditional_bb` (src/cc/backend/ssa.c:227) does so without looking at COND_FLONUM: neither `x < NaN` nor its
"inverse" `x >= NaN` holds. -/
theorem invert_float_wrong : ∃ c', invertCond (4 + 16) = some c' ∧
    holds (4 + 16) .unordered = false ∧ holds c' .unordered = false := ⟨22, by decide, by decide, by decide⟩

example : invertCond (4 + 8) = some (6 + 8) ∧ swapCond 4 = some 7 := by decide

/-! ## Constant conditions -/

/-- `calc_const_cond` for integers, src/cc/backend/optimize.c:272-293; `none` is the failed assertion. -/
def calcConstCond (cond : Nat) (n1 n2 : Int) : Option Bool :=
  if cond = 2 + 8 ∨ cond = 2 then some (n1 == n2)
  else if cond = 3 + 8 ∨ cond = 3 then some (n1 != n2)
  else if cond = 4 then some (decide (n1 < n2))
  else if cond = 7 then some (decide (n1 > n2))
  else if cond = 5 then some (decide (n1 ≤ n2))
  else if cond = 6 then some (decide (n1 ≥ n2))
  else if cond = 4 + 8 then some (decide (toU 64 n1 < toU 64 n2))
  else if cond = 7 + 8 then some (decide (toU 64 n1 > toU 64 n2))
  else if cond = 5 + 8 then some (decide (toU 64 n1 ≤ toU 64 n2))
  else if cond = 6 + 8 then some (decide (toU 64 n1 ≥ toU 64 n2))
  else none

theorem toU64_inj (a b : Int) (ha : IsI64 a) (hb : IsI64 b) (h : toU 64 a = toU 64 b) : a = b := by
  unfold toU at h; unfold IsI64 at *; omega

/-- C32.  The compile-time evaluation of a comparison of two constants agrees with the comparison, signed and
unsigned, for all 64-bit operands. -/
theorem calcConstCond_correct (cond : Nat) (hc : 2 ≤ cond % 8) (hf : cond < 16) (a b : Int) (ha : IsI64 a) (hb : IsI64 b) :
    calcConstCond cond a b = some (holds cond (cmp64 cond a b)) := by
  have e64 : (toU 64 a = toU 64 b) ↔ a = b := ⟨toU64_inj a b ha hb, fun h => by rw [h]⟩
  have : cond = 2 ∨ cond = 3 ∨ cond = 4 ∨ cond = 5 ∨ cond = 6 ∨ cond = 7 ∨ cond = 10 ∨ cond = 11 ∨ cond = 12 ∨
      cond = 13 ∨ cond = 14 ∨ cond = 15 := by omega
  unfold cmp64
  rcases this with h | h | h | h | h | h | h | h | h | h | h | h <;> subst h <;> simp [holds_cmp, calcConstCond, e64, bne] <;>
    rfl

example : calcConstCond (4 + 8) (-1) 1 = some false := by decide

/-! ## x86-64 branches

`cmp_vregs` src/cc/arch/x64/ir_x64.c:201-231, `ei_jmp` :851-918, `ei_cond` :789-849. -/

/-- The flags of an x86 comparison. -/
structure Flags where
  zf : Bool
  cf : Bool
  sf : Bool
  of : Bool
  pf : Bool
deriving DecidableEq

/-- `CMP src, dst` on `w`-bit operands given as unsigned numbers: computes `a - b` (Intel SDM vol. 2, CMP). -/
def x64cmp (w : Nat) (a b : Nat) : Flags :=
  let r := (a + 2 ^ w - b) % 2 ^ w
  { zf := r == 0, cf := decide (a < b), sf := decide (r ≥ 2 ^ (w - 1)),
    of := decide (toS w a - toS w b < -2 ^ (w - 1) ∨ toS w a - toS w b ≥ 2 ^ (w - 1)), pf := false }

/-- `TEST a, a`: the flags of `a & a`; OF = CF = 0. -/
def x64test (w : Nat) (a : Nat) : Flags :=
  { zf := a == 0, cf := false, sf := decide (a ≥ 2 ^ (w - 1)), of := false, pf := false }

/-- `(U)COMISS/SD` (Intel SDM): unordered ZF,PF,CF = 111, greater 000, less 001 (CF), equal 100 (ZF). -/
def x64comis : Cmp → Flags
  | .unordered => ⟨true, true, false, false, true⟩
  | .gt => ⟨false, false, false, false, false⟩
  | .lt => ⟨false, true, false, false, false⟩
  | .eq => ⟨true, false, false, false, false⟩

inductive Jcc
  | e | ne | l | g | le | ge | b | a | be | ae | p
deriving DecidableEq

/-- When a conditional jump is taken (Intel SDM vol. 2, Jcc). -/
def Jcc.taken (j : Jcc) (f : Flags) : Bool :=
  match j with
  | .e => f.zf
  | .ne => !f.zf
  | .l => f.sf != f.of
  | .g => !f.zf && f.sf == f.of
  | .le => f.zf || f.sf != f.of
  | .ge => f.sf == f.of
  | .b => f.cf
  | .a => !f.cf && !f.zf
  | .be => f.cf || f.zf
  | .ae => !f.cf
  | .p => f.pf

/-- The last `switch` of `ei_jmp`, src/cc/arch/x64/ir_x64.c:899-916. -/
def x64jcc (cond : Nat) : Option Jcc :=
  if cond = 2 + 8 ∨ cond = 2 then some .e
  else if cond = 3 + 8 ∨ cond = 3 then some .ne
  else if cond = 4 then some .l
  else if cond = 7 then some .g
  else if cond = 5 then some .le
  else if cond = 6 then some .ge
  else if cond = 4 + 8 then some .b
  else if cond = 7 + 8 then some .a
  else if cond = 5 + 8 then some .be
  else if cond = 6 + 8 then some .ae
  else none

/-- The part of `ei_jmp` for integers: is the jump taken for these operands?  `zero` says the second operand is the
constant 0, when TEST is used. -/
def x64jmp (w : Nat) (cond : Nat) (zero : Bool) (a b : Nat) : Option Bool :=
  (x64jcc cond).map fun j => j.taken (if zero then x64test w a else x64cmp w a b)

/-- The part of `ei_jmp` for flonums, src/cc/arch/x64/ir_x64.c:858-892: `o` compares the first operand with the second.
EQ emits `JP skip; JE label`, NE emits `JP label; JNE label`, LT and LE exchange the operands. -/
def x64fjmp (cond : Nat) (o : Cmp) : Option Bool :=
  let c := cond % 8
  if c = 2 then some (!(Jcc.p.taken (x64comis o)) && Jcc.e.taken (x64comis o))
  else if c = 3 then some (Jcc.p.taken (x64comis o) || Jcc.ne.taken (x64comis o))
  else
    (if c = 4 ∨ c = 5 then (swapCond c).map fun c' => (c', o.swap) else some (c, o)).bind fun p =>
      (x64jcc (p.1 + 8)).map fun j => j.taken (x64comis p.2)

/-- The meaning of an integer comparison of `w`-bit operands. -/
def cmpW (w : Nat) (cond : Nat) (a b : Nat) : Cmp :=
  if cond / 8 % 2 = 1 then cmpInt a b else cmpInt (toS w a) (toS w b)

theorem toS_bounds (w : Nat) (hw : 1 ≤ w) (a : Nat) (ha : a < 2 ^ w) :
    (toS w a : Int) = if a < 2 ^ (w - 1) then (a : Int) else (a : Int) - 2 ^ w := by
  unfold toS
  dsimp only
  have hp : ((2 : Int) ^ w) = ((2 ^ w : Nat) : Int) := by norm_cast
  have hp1 : ((2 : Int) ^ (w - 1)) = ((2 ^ (w - 1) : Nat) : Int) := by norm_cast
  have hm : (a : Int) % ((2 : Int) ^ w) = a := Int.emod_eq_of_lt (by omega) (by rw [hp]; omega)
  rw [hm, hp1, hp]
  by_cases h : a < 2 ^ (w - 1)
  · rw [if_pos h, if_pos (by omega)]
  · rw [if_neg h, if_neg (by omega)]

theorem bne_decide (p q r : Prop) [Decidable p] [Decidable q] [Decidable r] (h : (p ↔ ¬ q) ↔ r) :
    (decide p != decide q) = decide r := by
  by_cases hp : p <;> by_cases hq : q <;> by_cases hrr : r <;> simp_all

/-- Subtraction of two unsigned numbers modulo `2H`, zero and signed order. -/
theorem sub_facts (H a b : Nat) (ha : a < 2 * H) (hb : b < 2 * H) (x y : Int)
    (hx : x = if a < H then (a : Int) else (a : Int) - 2 * H) (hy : y = if b < H then (b : Int) else (b : Int) - 2 * H) :
    (((a + 2 * H - b) % (2 * H) == 0) = decide (a = b)) ∧
    (decide ((a + 2 * H - b) % (2 * H) ≥ H) != decide (x - y < -H ∨ x - y ≥ H)) = decide (x < y) ∧ (x = y ↔ a = b) := by
  have hr : (a + 2 * H - b) % (2 * H) = if b ≤ a then a - b else a + 2 * H - b := by
    split
    · rw [show a + 2 * H - b = (a - b) + 2 * H by omega, Nat.add_mod_right, Nat.mod_eq_of_lt (by omega)]
    · exact Nat.mod_eq_of_lt (by omega)
  rw [hr]
  refine ⟨?_, ?_, ?_⟩
  · by_cases h : b ≤ a
    · rw [if_pos h, Bool.eq_iff_iff]; simp; omega
    · rw [if_neg h, Bool.eq_iff_iff]; simp; omega
  · apply bne_decide
    split at hx <;> split at hy <;> split <;> constructor <;> intro h <;> omega
  · split at hx <;> split at hy <;> omega

/-- Addition of a small constant modulo `2H`. -/
theorem add_facts (H a m : Nat) (ha : a < 2 * H) (hm : 1 ≤ m) (hm2 : m < H) (x y z : Int)
    (hx : x = if a < H then (a : Int) else (a : Int) - 2 * H)
    (hy : y = if 2 * H - m < H then ((2 * H - m : Nat) : Int) else ((2 * H - m : Nat) : Int) - 2 * H)
    (hz : z = if m < H then (m : Int) else (m : Int) - 2 * H) :
    (((a + m) % (2 * H) == 0) = decide (a = 2 * H - m)) ∧ decide (a + m ≥ 2 * H) = decide (2 * H - m ≤ a) ∧
    (decide ((a + m) % (2 * H) ≥ H) != decide (x + z < -H ∨ x + z ≥ H)) = decide (x < y) := by
  have hr : (a + m) % (2 * H) = if a + m < 2 * H then a + m else a + m - 2 * H := by
    split
    · exact Nat.mod_eq_of_lt (by assumption)
    · rw [Nat.mod_eq_sub_mod (by omega), Nat.mod_eq_of_lt (by omega)]
  rw [hr]
  rw [if_pos hm2] at hz
  rw [if_neg (by omega)] at hy
  refine ⟨?_, ?_, ?_⟩
  · by_cases h : a + m < 2 * H
    · rw [if_pos h, Bool.eq_iff_iff]; simp; omega
    · rw [if_neg h, Bool.eq_iff_iff]; simp; omega
  · rw [Bool.eq_iff_iff]; simp
  · apply bne_decide
    split at hx <;> split <;> constructor <;> intro h <;> omega

theorem pow_half (w : Nat) (hw : 1 ≤ w) : 2 ^ w = 2 * 2 ^ (w - 1) ∧ ((2 : Int) ^ w) = 2 * ((2 ^ (w - 1) : Nat) : Int) ∧
    ((2 : Int) ^ (w - 1)) = ((2 ^ (w - 1) : Nat) : Int) := by
  have h1 : 2 ^ w = 2 * 2 ^ (w - 1) := by rw [← Nat.pow_succ']; congr 1; omega
  have h2 : ((2 : Int) ^ w) = ((2 ^ w : Nat) : Int) := by norm_cast
  have h3 : ((2 : Int) ^ (w - 1)) = ((2 ^ (w - 1) : Nat) : Int) := by norm_cast
  exact ⟨h1, by rw [h2, h1]; omega, h3⟩

/-- C47.  On x86-64 the conditional jump emitted for an integer comparison is taken exactly when the comparison
holds, for every operand width and all operands; likewise when the second operand is the constant 0 and `TEST` is
used. -/
theorem x64_int_branch (w : Nat) (hw : 1 ≤ w) (cond : Nat) (hc : 2 ≤ cond % 8) (hf : cond < 16) (zero : Bool) (a b : Nat)
    (ha : a < 2 ^ w) (hb : b < 2 ^ w) (hz : zero = true → b = 0) :
    x64jmp w cond zero a b = some (holds cond (cmpW w cond a b)) := by
  obtain ⟨p1, p2, p3⟩ := pow_half w hw
  have sa := toS_bounds w hw a ha
  have sb := toS_bounds w hw b hb
  rw [p2] at sa sb
  rw [p1] at ha hb
  -- the facts about the flags
  have F : ∀ f, f = (if zero = true then x64test w a else x64cmp w a b) →
      f.zf = decide (a = b) ∧ f.cf = decide (a < b) ∧ (f.sf != f.of) = decide (toS w a < toS w b) ∧
      (toS w a = toS w b ↔ a = b) := by
    intro f hfl
    obtain ⟨s1, s2, s3⟩ := sub_facts (2 ^ (w - 1)) a b ha hb _ _ sa sb
    cases zero with
    | true =>
      have hb0 := hz rfl
      subst hb0
      rw [hfl]
      refine ⟨by simp [x64test]; rfl, by simp [x64test], ?_, s3⟩
      rw [if_pos (by omega)] at sb
      simp only [x64test, if_true]
      rw [sb]
      by_cases h : a < 2 ^ (w - 1)
      · rw [if_pos h] at sa
        have h1 : ¬ (a ≥ 2 ^ (w - 1)) := by omega
        have h2 : ¬ (toS w a < 0) := by omega
        simp [h1, h2]
      · rw [if_neg h] at sa
        have h1 : a ≥ 2 ^ (w - 1) := by omega
        have h2 : toS w a < 0 := by omega
        simp [h1, h2]
    | false =>
      rw [hfl]
      simp only [x64cmp, Bool.false_eq_true, if_false]
      rw [p3, p1]
      exact ⟨s1, trivial, s2, s3⟩
  unfold x64jmp
  obtain ⟨fz, fc, fs, hinj⟩ := F _ rfl
  generalize (if zero = true then x64test w a else x64cmp w a b) = f at *
  have hne : (f.sf == f.of) = !decide (toS w a < toS w b) := by rw [← fs]; cases f.sf <;> cases f.of <;> rfl
  unfold cmpW
  clear sa sb
  generalize toS w ↑a = x at *
  generalize toS w ↑b = y at *
  have : cond = 2 ∨ cond = 3 ∨ cond = 4 ∨ cond = 5 ∨ cond = 6 ∨ cond = 7 ∨ cond = 10 ∨ cond = 11 ∨ cond = 12 ∨
      cond = 13 ∨ cond = 14 ∨ cond = 15 := by omega
  rcases this with h | h | h | h | h | h | h | h | h | h | h | h <;> subst h <;>
    simp only [x64jcc, holds_cmp] <;> simp only [Jcc.taken, hne, fs, fz, fc] <;> simp <;>
    (try rw [Bool.eq_iff_iff]) <;> (try simp [holds_cmp]) <;> (try omega)

/-- C47.  On x86-64 the jumps emitted for a floating-point comparison are taken exactly when the comparison holds,
also when an operand is a NaN. -/
theorem x64_float_branch (cond : Nat) (hc : 2 ≤ cond % 8) (o : Cmp) : x64fjmp cond o = some (holds cond o) := by
  have : cond % 8 = 2 ∨ cond % 8 = 3 ∨ cond % 8 = 4 ∨ cond % 8 = 5 ∨ cond % 8 = 6 ∨ cond % 8 = 7 := by omega
  unfold x64fjmp holds
  rcases this with h | h | h | h | h | h <;> rw [h] <;> cases o <;> rfl

/-! ## AArch64 branches

`cmp_vregs` src/cc/arch/aarch64/ir_aarch64.c:292-319, `ei_jmp` :808-847. -/

structure NZCV where
  n : Bool
  z : Bool
  c : Bool
  v : Bool
deriving DecidableEq

/-- `CMP a, b`: flags of `a + NOT(b) + 1` (Arm ARM, AddWithCarry). -/
def a64cmp (w : Nat) (a b : Nat) : NZCV :=
  let r := (a + 2 ^ w - b) % 2 ^ w
  { n := decide (r ≥ 2 ^ (w - 1)), z := r == 0, c := decide (b ≤ a),
    v := decide (toS w a - toS w b < -2 ^ (w - 1) ∨ toS w a - toS w b ≥ 2 ^ (w - 1)) }

/-- `CMN a, imm`: flags of `a + imm`. -/
def a64cmn (w : Nat) (a imm : Nat) : NZCV :=
  let r := (a + imm) % 2 ^ w
  { n := decide (r ≥ 2 ^ (w - 1)), z := r == 0, c := decide (a + imm ≥ 2 ^ w),
    v := decide (toS w a + toS w imm < -2 ^ (w - 1) ∨ toS w a + toS w imm ≥ 2 ^ (w - 1)) }

/-- `FCMP` (Arm ARM, FPCompare): less N, equal Z C, greater C, unordered C V. -/
def a64fcmp : Cmp → NZCV
  | .lt => ⟨true, false, false, false⟩
  | .eq => ⟨false, true, true, false⟩
  | .gt => ⟨false, false, true, false⟩
  | .unordered => ⟨false, false, true, true⟩

inductive CC
  | eq | ne | hs | lo | mi | hi | ls | ge | lt | gt | le
deriving DecidableEq

/-- `ConditionHolds` (Arm ARM). -/
def CC.holds (c : CC) (f : NZCV) : Bool :=
  match c with
  | .eq => f.z
  | .ne => !f.z
  | .hs => f.c
  | .lo => !f.c
  | .mi => f.n
  | .hi => f.c && !f.z
  | .ls => !(f.c && !f.z)
  | .ge => f.n == f.v
  | .lt => f.n != f.v
  | .gt => f.n == f.v && !f.z
  | .le => !(f.n == f.v && !f.z)

/-- The last `switch` of `ei_jmp`, src/cc/arch/aarch64/ir_aarch64.c:829-846. -/
def a64cc (cond : Nat) : Option CC :=
  if cond = 2 + 8 ∨ cond = 2 then some .eq
  else if cond = 3 + 8 ∨ cond = 3 then some .ne
  else if cond = 4 then some .lt
  else if cond = 7 then some .gt
  else if cond = 5 then some .le
  else if cond = 6 then some .ge
  else if cond = 4 + 8 then some .lo
  else if cond = 7 + 8 then some .hi
  else if cond = 5 + 8 then some .ls
  else if cond = 6 + 8 then some .hs
  else none

/-- How `cmp_vregs` compares (src/cc/arch/aarch64/ir_aarch64.c:304-317): registers or a constant 0..0xfff, or a
constant -0xfff..-1 by `CMN`. -/
inductive Opr2
  | reg (b : Nat)
  | const (v : Int)

/-- The value of the second operand as an unsigned `w`-bit number. -/
def Opr2.val (w : Nat) : Opr2 → Nat
  | .reg b => b
  | .const v => (toU w v).toNat

def a64flags (w : Nat) (a : Nat) : Opr2 → NZCV
  | .reg b => a64cmp w a b
  | .const v => if v ≥ 0 then a64cmp w a v.toNat else a64cmn w a (-v).toNat

def a64jmp (w : Nat) (cond : Nat) (a : Nat) (o : Opr2) : Option Bool :=
  (a64cc cond).map fun c => c.holds (a64flags w a o)

/-- `ei_jmp` for flonums, src/cc/arch/aarch64/ir_aarch64.c:819-846. -/
def a64fjmp (cond : Nat) (o : Cmp) : Option Bool :=
  let c := cond % 8
  if c = 4 then some (CC.mi.holds (a64fcmp o))
  else if c = 5 then some (CC.ls.holds (a64fcmp o))
  else (a64cc c).map fun c => c.holds (a64fcmp o)

theorem a64_flag_facts (w : Nat) (hw : 13 ≤ w) (a : Nat) (ha : a < 2 ^ w) (o : Opr2)
    (ho : match o with | .reg b => b < 2 ^ w | .const v => -0xfff ≤ v ∧ v ≤ 0xfff) :
    o.val w < 2 ^ w ∧ (a64flags w a o).z = decide (a = o.val w) ∧ (a64flags w a o).c = decide (o.val w ≤ a) ∧
    ((a64flags w a o).n != (a64flags w a o).v) = decide (toS w a < toS w (o.val w)) := by
  obtain ⟨p1, p2, p3⟩ := pow_half w (by omega)
  have hbig : 2 ^ 12 ≤ 2 ^ (w - 1) := Nat.pow_le_pow_right (by omega) (by omega)
  have hpw : ((2 : Int) ^ w) = ((2 ^ w : Nat) : Int) := by norm_cast
  have sa := toS_bounds w (by omega) a ha
  have ha' := ha
  rw [p1] at ha
  rw [p2] at sa
  -- CMP with an unsigned operand
  have C : ∀ b : Nat, b < 2 ^ w → (a64cmp w a b).z = decide (a = b) ∧ (a64cmp w a b).c = decide (b ≤ a) ∧
      ((a64cmp w a b).n != (a64cmp w a b).v) = decide (toS w a < toS w b) := by
    intro b hb
    have sb := toS_bounds w (by omega) b hb
    rw [p2] at sb
    rw [p1] at hb
    obtain ⟨s1, s2, _⟩ := sub_facts (2 ^ (w - 1)) a b ha hb _ _ sa sb
    simp only [a64cmp]
    rw [p3, p1]
    exact ⟨s1, trivial, s2⟩
  cases o with
  | reg b => exact ⟨ho, C b ho⟩
  | const v =>
    dsimp only at ho
    by_cases hv : v ≥ 0
    · have hval : (Opr2.const v).val w = v.toNat := by
        simp only [Opr2.val, toU]
        rw [hpw, Int.emod_eq_of_lt (by omega) (by omega)]
      rw [hval]
      simp only [a64flags]
      rw [if_pos hv]
      exact ⟨by omega, C _ (by omega)⟩
    · have hval : (Opr2.const v).val w = 2 ^ w - (-v).toNat := by
        simp only [Opr2.val, toU]
        rw [hpw]
        have : v % ((2 ^ w : Nat) : Int) = v + ((2 ^ w : Nat) : Int) := by
          rw [← Int.add_emod_right, Int.emod_eq_of_lt (by omega) (by omega)]
        rw [this]; omega
      rw [hval]
      simp only [a64flags]
      rw [if_neg hv]
      obtain ⟨m, hm1, hm2, hm3⟩ : ∃ m : Nat, (-v).toNat = m ∧ 1 ≤ m ∧ m ≤ 0xfff := ⟨_, rfl, by omega, by omega⟩
      rw [hm1]
      have hlt : 2 ^ w - m < 2 ^ w := by omega
      have sb := toS_bounds w (by omega) (2 ^ w - m) hlt
      have sm := toS_bounds w (by omega) m (by omega)
      rw [p2] at sb sm
      simp only [a64cmn]
      refine ⟨hlt, ?_⟩
      rw [p1] at sb ⊢
      rw [p3]
      exact add_facts (2 ^ (w - 1)) a m ha hm2 (by omega) _ _ _ sa sb sm

/-- C47.  On AArch64 the branch emitted for an integer comparison, with a register or with any constant the
instruction can hold (`CMN` for negative ones), is taken exactly when the comparison holds. -/
theorem a64_int_branch (w : Nat) (hw : 13 ≤ w) (cond : Nat) (hc : 2 ≤ cond % 8) (hf : cond < 16) (a : Nat) (ha : a < 2 ^ w)
    (o : Opr2) (ho : match o with | .reg b => b < 2 ^ w | .const v => -0xfff ≤ v ∧ v ≤ 0xfff) :
    a64jmp w cond a o = some (holds cond (cmpW w cond a (o.val w))) := by
  obtain ⟨hb, fz, fc, fs⟩ := a64_flag_facts w hw a ha o ho
  obtain ⟨p1, p2, p3⟩ := pow_half w (by omega)
  have sa := toS_bounds w (by omega) a ha
  have sb := toS_bounds w (by omega) _ hb
  rw [p2] at sa sb
  rw [p1] at ha hb
  obtain ⟨_, _, hinj⟩ := sub_facts (2 ^ (w - 1)) a _ ha hb _ _ sa sb
  unfold a64jmp cmpW
  generalize a64flags w a o = f at *
  generalize o.val w = b at *
  have hne : (f.n == f.v) = !decide (toS w a < toS w b) := by rw [← fs]; cases f.n <;> cases f.v <;> rfl
  clear sa sb
  generalize toS w ↑a = x at *
  generalize toS w ↑b = y at *
  have : cond = 2 ∨ cond = 3 ∨ cond = 4 ∨ cond = 5 ∨ cond = 6 ∨ cond = 7 ∨ cond = 10 ∨ cond = 11 ∨ cond = 12 ∨
      cond = 13 ∨ cond = 14 ∨ cond = 15 := by omega
  rcases this with h | h | h | h | h | h | h | h | h | h | h | h <;> subst h <;>
    simp only [a64cc, holds_cmp] <;> simp only [CC.holds, hne, fs, fz, fc] <;> simp <;>
    (try rw [Bool.eq_iff_iff]) <;> (try simp [holds_cmp]) <;> (try omega)

/-- C47.  On AArch64 the branch emitted for a floating-point comparison is taken exactly when the comparison holds,
also when an operand is a NaN. -/
theorem a64_float_branch (cond : Nat) (hc : 2 ≤ cond % 8) (o : Cmp) : a64fjmp cond o = some (holds cond o) := by
  have : cond % 8 = 2 ∨ cond % 8 = 3 ∨ cond % 8 = 4 ∨ cond % 8 = 5 ∨ cond % 8 = 6 ∨ cond % 8 = 7 := by omega
  unfold a64fjmp holds
  rcases this with h | h | h | h | h | h <;> rw [h] <;> cases o <;> rfl

example : x64jmp 32 4 false 0xffffffff 1 = some true ∧ x64jmp 32 12 false 0xffffffff 1 = some false := by decide
example : a64jmp 32 4 5 (.const (-1)) = some false ∧ a64jmp 32 12 5 (.const (-1)) = some true := by decide

/-! ## RISC-V

`ei_jmp` src/cc/arch/riscv64/ir_riscv64.c:808-842, `ei_cond` :682-806. -/

inductive RvB
  | eq | ne | lt | ge | ltu | geu
deriving DecidableEq

/-- When a RISC-V branch on two 64-bit registers is taken. -/
def RvB.taken (b : RvB) (x y : Int) : Bool :=
  match b with
  | .eq => x == y
  | .ne => x != y
  | .lt => decide (x < y)
  | .ge => decide (x ≥ y)
  | .ltu => decide (toU 64 x < toU 64 y)
  | .geu => decide (toU 64 x ≥ toU 64 y)

/-- The `switch` of `ei_jmp`, src/cc/arch/riscv64/ir_riscv64.c:824-841: the branch and whether its operands are
exchanged. -/
def rvBranch (cond : Nat) : Option (RvB × Bool) :=
  let c := cond % 16
  if c = 2 + 8 ∨ c = 2 then some (.eq, false)
  else if c = 3 + 8 ∨ c = 3 then some (.ne, false)
  else if c = 4 then some (.lt, false)
  else if c = 7 then some (.lt, true)
  else if c = 5 then some (.ge, true)
  else if c = 6 then some (.ge, false)
  else if c = 4 + 8 then some (.ltu, false)
  else if c = 7 + 8 then some (.ltu, true)
  else if c = 5 + 8 then some (.geu, true)
  else if c = 6 + 8 then some (.geu, false)
  else none

def rvJmp (cond : Nat) (x y : Int) : Option Bool :=
  (rvBranch cond).map fun p => if p.2 then p.1.taken y x else p.1.taken x y

/-- `ei_cond` for LT, GT, LE, GE, src/cc/arch/riscv64/ir_riscv64.c:755-804: `SLT`/`SLTU`, and for LE and GE
`1 - result`. -/
def rvCond (cond : Nat) (x y : Int) : Option Int :=
  let c := cond % 8
  let lt := fun a b : Int => if cond / 8 % 2 = 0 then (if a < b then (1 : Int) else 0) else
    (if toU 64 a < toU 64 b then 1 else 0)
  if c = 4 ∨ c = 7 then
    let p := if c = 7 then (y, x) else (x, y)
    some (lt p.1 p.2)
  else if c = 5 ∨ c = 6 then
    let p := if c = 6 then (y, x) else (x, y)
    some (-(lt p.2 p.1) + 1)
  else none

/-- C47.  On RISC-V the branch emitted for a comparison of two 64-bit registers is taken exactly when the comparison
holds. -/
theorem rv_branch (cond : Nat) (hc : 2 ≤ cond % 8) (hf : cond < 16) (x y : Int) (hx : IsI64 x) (hy : IsI64 y) :
    rvJmp cond x y = some (holds cond (cmp64 cond x y)) := by
  rw [← calcConstCond_correct cond hc hf x y hx hy]
  have : cond = 2 ∨ cond = 3 ∨ cond = 4 ∨ cond = 5 ∨ cond = 6 ∨ cond = 7 ∨ cond = 10 ∨ cond = 11 ∨ cond = 12 ∨
      cond = 13 ∨ cond = 14 ∨ cond = 15 := by omega
  rcases this with h | h | h | h | h | h | h | h | h | h | h | h <;> subst h <;> rfl

/-- C47.  On RISC-V the value materialised for an ordering is 1 if it holds and 0 otherwise. -/
theorem rv_cond (cond : Nat) (hc : 4 ≤ cond % 8) (hf : cond < 16) (x y : Int) (hx : IsI64 x) (hy : IsI64 y) :
    rvCond cond x y = some (if holds cond (cmp64 cond x y) then 1 else 0) := by
  have hk := calcConstCond_correct cond (by omega) hf x y hx hy
  have : cond = 4 ∨ cond = 5 ∨ cond = 6 ∨ cond = 7 ∨ cond = 12 ∨ cond = 13 ∨ cond = 14 ∨ cond = 15 := by omega
  rcases this with h | h | h | h | h | h | h | h <;> subst h <;>
    (have hh := (Option.some.inj hk).symm; rw [hh]; simp only [rvCond]; (simp; try (split <;> (try split) <;> omega)))

example : rvJmp 12 (-1) 1 = some false ∧ rvCond 5 3 3 = some 1 := by decide

end Verif.Cond

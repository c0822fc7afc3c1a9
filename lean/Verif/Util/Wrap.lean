/-!
# `wrap_value` (src/util/util.c:334-351), `is_im8/16/32`, `ALIGN`

C `int64_t` values are modelled as `Int` in `[-2^63, 2^63)`.
-/
namespace Verif.Util

/-- Conversion to an unsigned `bits`-bit type (ISO C 6.3.1.3p2). -/
def toU (bits : Nat) (v : Int) : Int := v % (2 ^ bits : Int)

/-- Conversion to a signed two's complement `bits`-bit type. -/
def toS (bits : Nat) (v : Int) : Int :=
  let m := v % (2 ^ bits : Int)
  if m < 2 ^ (bits - 1) then m else m - 2 ^ bits

/-- src/util/util.c:334-351 `wrap_value`.  The `int64_t` result of the casts to
unsigned types narrower than 64 bits is value preserving. -/
def wrapValue (value : Int) (size : Nat) (isUnsigned : Bool) : Int :=
  if isUnsigned then
    match size with
    | 1 => toU 8 value
    | 2 => toU 16 value
    | 4 => toU 32 value
    | _ => value
  else
    match size with
    | 1 => toS 8 value
    | 2 => toS 16 value
    | 4 => toS 32 value
    | _ => value

/-- `int64_t` range. -/
def IsI64 (v : Int) : Prop := -2 ^ 63 ≤ v ∧ v < 2 ^ 63

/-- The range of values a `size`-byte integer type can hold. -/
def InRange (size : Nat) (isUnsigned : Bool) (v : Int) : Prop :=
  if isUnsigned then 0 ≤ v ∧ v < 2 ^ (8 * size)
  else -2 ^ (8 * size - 1) ≤ v ∧ v < 2 ^ (8 * size - 1)

/-- src/util/util.c:301-303 `is_im8`. -/
def isIm8 (x : Int) : Bool := x ≤ (1 <<< 7) - 1 && x ≥ -(1 <<< 7)
/-- src/util/util.c:305-307 `is_im16`. -/
def isIm16 (x : Int) : Bool := x ≤ (1 <<< 15) - 1 && x ≥ -(1 <<< 15)
/-- src/util/util.c:309-311 `is_im32`. -/
def isIm32 (x : Int) : Bool := x ≤ (1 <<< 31) - 1 && x ≥ -(1 <<< 31)

/-- **C18.** Wrapping a constant is congruent to the constant modulo the width of the type. -/
theorem wrapValue_congr (v : Int) (size : Nat) (u : Bool) (hs : size ∈ [1, 2, 4, 8]) :
    (wrapValue v size u - v) % (2 ^ (8 * size) : Int) = 0 := by
  simp only [List.mem_cons, List.not_mem_nil, or_false] at hs
  rcases hs with h | h | h | h <;> subst h <;> cases u <;>
    simp only [wrapValue, toU, toS] <;> simp <;> (try split) <;> omega

/-- **C18.** The wrapped constant is representable in the type (for 64-bit unsigned
the model keeps the bit pattern in a signed 64-bit cell, as the code does). -/
theorem wrapValue_range (v : Int) (size : Nat) (u : Bool) (hs : size ∈ [1, 2, 4]) :
    InRange size u (wrapValue v size u) := by
  simp only [List.mem_cons, List.not_mem_nil, or_false] at hs
  rcases hs with h | h | h <;> subst h <;> cases u <;>
    simp [wrapValue, toU, toS, InRange] <;> (try split) <;> omega

/-- **C18.** 64-bit values are kept as they are. -/
theorem wrapValue_64 (v : Int) (u : Bool) : wrapValue v 8 u = v := by
  cases u <;> rfl

/-- **C18.** A value already representable is unchanged. -/
theorem wrapValue_of_inRange (v : Int) (size : Nat) (u : Bool) (hs : size ∈ [1, 2, 4])
    (h : InRange size u v) : wrapValue v size u = v := by
  simp only [List.mem_cons, List.not_mem_nil, or_false] at hs
  rcases hs with e | e | e <;> subst e <;> cases u <;>
    simp [wrapValue, toU, toS, InRange] at * <;> (try split) <;> omega

/-- **C18.** Wrapping is idempotent and stays within `int64_t`. -/
theorem wrapValue_idem (v : Int) (size : Nat) (u : Bool) :
    wrapValue (wrapValue v size u) size u = wrapValue v size u := by
  unfold wrapValue
  cases u <;> simp only [Bool.false_eq_true, if_false, if_true] <;>
    (split <;> (try simp only [toU, toS]) <;> (repeat split) <;> omega)

theorem wrapValue_isI64 (v : Int) (size : Nat) (u : Bool) (h : IsI64 v) :
    IsI64 (wrapValue v size u) := by
  unfold wrapValue IsI64 at *
  cases u <;> simp only [Bool.false_eq_true, if_false, if_true] <;>
    (split <;> (try simp only [toU, toS]) <;> (repeat split) <;> omega)

/-- **C18.** Wrapping is uniquely determined by congruence and range: any value of the
type congruent to `v` is `wrapValue v`. -/
theorem wrapValue_unique (v w : Int) (size : Nat) (u : Bool) (hs : size ∈ [1, 2, 4])
    (hr : InRange size u w) (hc : (w - v) % (2 ^ (8 * size) : Int) = 0) :
    wrapValue v size u = w := by
  simp only [List.mem_cons, List.not_mem_nil, or_false] at hs
  rcases hs with e | e | e <;> subst e <;> cases u <;>
    simp [wrapValue, toU, toS, InRange] at * <;> (try split) <;> omega

example : wrapValue 300 1 false = 44 ∧ wrapValue (-1) 2 true = 65535 := by decide
example : InRange 4 false (-2147483648) := by simp [InRange]

/-- `is_im8` etc. accept exactly the values unchanged by conversion to that width. -/
theorem isIm8_iff (x : Int) : isIm8 x = true ↔ toS 8 x = x := by
  simp [isIm8, toS]; split <;> omega
theorem isIm16_iff (x : Int) : isIm16 x = true ↔ toS 16 x = x := by
  simp [isIm16, toS]; split <;> omega
theorem isIm32_iff (x : Int) : isIm32 x = true ↔ toS 32 x = x := by
  simp [isIm32, toS]; split <;> omega

end Verif.Util

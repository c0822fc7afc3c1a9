/-!
# The `ALIGN` macro

`src/util/util.h:13`: `#define ALIGN(x, align)  (((x) + (align) - 1) & -(align))`.
-/
namespace Verif.Align

/-- util.h:13 in `size_t` arithmetic (64 bits). -/
def alignMacro (x a : Nat) : Nat := ((x + a + (2 ^ 64 - 1)) % 2 ^ 64) &&& ((2 ^ 64 - a) % 2 ^ 64)

/-- The least multiple of `a` that is at least `x` (for `a > 0`). -/
def alignUp (x a : Nat) : Nat := (x + a - 1) / a * a

theorem and_high (x k : Nat) (hk : k ≤ 64) (hx : x < 2 ^ 64) : x &&& (2 ^ 64 - 2 ^ k) = x / 2 ^ k * 2 ^ k := by
  have e : 2 ^ 64 - 2 ^ k = (2 ^ (64 - k) - 1) <<< k := by
    rw [Nat.shiftLeft_eq, Nat.sub_mul, ← Nat.pow_add, Nat.sub_add_cancel hk, Nat.one_mul]
  rw [e, ← Nat.shiftRight_eq_div_pow, ← Nat.shiftLeft_eq]
  apply Nat.eq_of_testBit_eq
  intro i
  simp only [Nat.testBit_and, Nat.testBit_shiftLeft, Nat.testBit_shiftRight, Nat.testBit_two_pow_sub_one]
  by_cases h : k ≤ i
  · simp only [ge_iff_le, h, decide_true, Bool.true_and]
    rw [show k + (i - k) = i by omega]
    by_cases h2 : i < 64
    · have : i - k < 64 - k := by omega
      simp [this]
    · have : x.testBit i = false := Nat.testBit_lt_two_pow (Nat.lt_of_lt_of_le hx (Nat.pow_le_pow_right (by omega) (by omega)))
      simp [this]
  · simp [h]

/-- The macro computes `alignUp` for powers of two as long as nothing overflows. -/
theorem alignMacro_eq (x k : Nat) (hk : k < 64) (hx : x + 2 ^ k ≤ 2 ^ 64) : alignMacro x (2 ^ k) = alignUp x (2 ^ k) := by
  have hp : 0 < 2 ^ k := Nat.two_pow_pos k
  have hlt : 2 ^ k < 2 ^ 64 := Nat.pow_lt_pow_right (by omega) hk
  unfold alignMacro alignUp
  have e1 : (x + 2 ^ k + (2 ^ 64 - 1)) % 2 ^ 64 = x + 2 ^ k - 1 := by
    rw [show x + 2 ^ k + (2 ^ 64 - 1) = (x + 2 ^ k - 1) + 2 ^ 64 by omega, Nat.add_mod_right, Nat.mod_eq_of_lt (by omega)]
  have e2 : (2 ^ 64 - 2 ^ k) % 2 ^ 64 = 2 ^ 64 - 2 ^ k := Nat.mod_eq_of_lt (by omega)
  rw [e1, e2]
  exact and_high _ _ (by omega) (by omega)

example : alignMacro 13 8 = 16 := by decide

theorem le_alignUp (x a : Nat) (ha : 0 < a) : x ≤ alignUp x a := by
  unfold alignUp
  have h := Nat.div_add_mod (x + a - 1) a
  have h2 := Nat.mod_lt (x + a - 1) ha
  rw [Nat.mul_comm] at h
  omega

theorem alignUp_lt (x a : Nat) (ha : 0 < a) : alignUp x a < x + a := by
  unfold alignUp
  have h := Nat.div_add_mod (x + a - 1) a
  rw [Nat.mul_comm] at h
  omega

theorem dvd_alignUp (x a : Nat) : a ∣ alignUp x a := ⟨_, Nat.mul_comm _ _⟩

theorem alignUp_of_dvd (x a : Nat) (ha : 0 < a) (h : a ∣ x) : alignUp x a = x := by
  obtain ⟨q, rfl⟩ := h
  obtain ⟨r, hr⟩ := dvd_alignUp (a * q) a
  have h1 := le_alignUp (a * q) a ha
  have h2 := alignUp_lt (a * q) a ha
  rw [hr] at h1 h2 ⊢
  have : q ≤ r := Nat.le_of_mul_le_mul_left h1 ha
  have : r < q + 1 := Nat.lt_of_mul_lt_mul_left (a := a) (by rw [Nat.mul_add, Nat.mul_one]; exact h2)
  rw [show r = q by omega]

/-- `alignUp` is the least such multiple. -/
theorem alignUp_le (x a y : Nat) (ha : 0 < a) (h : a ∣ y) (hx : x ≤ y) : alignUp x a ≤ y := by
  obtain ⟨q, rfl⟩ := h
  obtain ⟨r, hr⟩ := dvd_alignUp x a
  have h2 := alignUp_lt x a ha
  rw [hr] at h2 ⊢
  have : r < q + 1 := Nat.lt_of_mul_lt_mul_left (a := a) (by rw [Nat.mul_add, Nat.mul_one]; omega)
  exact Nat.mul_le_mul_left a (by omega)

theorem alignUp_add (x y a : Nat) (ha : 0 < a) (h : a ∣ y) : alignUp (x + y) a = alignUp x a + y := by
  obtain ⟨q, rfl⟩ := h
  unfold alignUp
  rw [show x + a * q + a - 1 = x + a - 1 + a * q by omega, Nat.add_mul_div_left _ _ ha, Nat.add_mul, Nat.mul_comm q a]

theorem alignUp_mono (x y a : Nat) (h : x ≤ y) : alignUp x a ≤ alignUp y a :=
  Nat.mul_le_mul_right a (Nat.div_le_div_right (by omega))

end Verif.Align

/-!
# Bit fields

Fields of instruction words, as the architecture manuals describe them, and the algebra the proofs about encoders need.
-/
namespace Verif.Field

/-- Bits `hi` down to `lo` of `w`. -/
def field (w hi lo : Nat) : Nat := w / 2 ^ lo % 2 ^ (hi + 1 - lo)

/-- Value of an `n`-bit two's complement number. -/
def sext (n v : Nat) : Int := if v < 2 ^ (n - 1) then (v : Int) else (v : Int) - 2 ^ n

theorem testBit_field (w hi lo i : Nat) :
    (field w hi lo).testBit i = (decide (i < hi + 1 - lo) && w.testBit (lo + i)) := by
  unfold field
  rw [Nat.testBit_mod_two_pow, ← Nat.shiftRight_eq_div_pow, Nat.testBit_shiftRight]

theorem field_lt (w hi lo : Nat) : field w hi lo < 2 ^ (hi + 1 - lo) := Nat.mod_lt _ (Nat.two_pow_pos _)

theorem field_or (a b hi lo : Nat) : field (a ||| b) hi lo = field a hi lo ||| field b hi lo := by
  apply Nat.eq_of_testBit_eq
  intro i
  simp only [testBit_field, Nat.testBit_or]
  cases decide (i < hi + 1 - lo) <;> simp

theorem field_and (a b hi lo : Nat) : field (a &&& b) hi lo = field a hi lo &&& field b hi lo := by
  apply Nat.eq_of_testBit_eq
  intro i
  simp only [testBit_field, Nat.testBit_and]
  cases decide (i < hi + 1 - lo) <;> simp

/-- Field above the bits of `f <<< k`. -/
theorem field_shl_above (f k hi lo : Nat) (h : f < 2 ^ (lo - k)) (hk : k ≤ lo) : field (f <<< k) hi lo = 0 := by
  unfold field
  rw [Nat.shiftLeft_eq, Nat.div_eq_of_lt, Nat.zero_mod]
  calc f * 2 ^ k < 2 ^ (lo - k) * 2 ^ k := Nat.mul_lt_mul_of_pos_right h (Nat.two_pow_pos _)
    _ = 2 ^ lo := by rw [← Nat.pow_add]; congr 1; omega

/-- Field below the bits of `f <<< k`. -/
theorem field_shl_below (f k hi lo : Nat) (h : hi < k) : field (f <<< k) hi lo = 0 := by
  apply Nat.eq_of_testBit_eq
  intro i
  simp only [testBit_field, Nat.testBit_shiftLeft, Nat.zero_testBit]
  by_cases h1 : i < hi + 1 - lo
  · have : ¬ k ≤ lo + i := by omega
    simp [this]
  · simp [h1]

/-- Field that is exactly `f`. -/
theorem field_shl_eq (f k hi : Nat) (h : f < 2 ^ (hi + 1 - k)) : field (f <<< k) hi k = f := by
  unfold field
  rw [Nat.shiftLeft_eq, Nat.mul_div_cancel _ (Nat.two_pow_pos _), Nat.mod_eq_of_lt h]

/-- Field of a small number. -/
theorem field_small (f hi lo : Nat) (h : f < 2 ^ lo) : field f hi lo = 0 := by
  unfold field
  rw [Nat.div_eq_of_lt h, Nat.zero_mod]

/-- Field of a shifted field. -/
theorem field_shl_sub (s H L hi lo : Nat) (h1 : L ≤ lo) (h2 : hi ≤ H) :
    field ((field s H L) <<< L) hi lo = field s hi lo := by
  apply Nat.eq_of_testBit_eq
  intro i
  simp only [testBit_field, Nat.testBit_shiftLeft]
  by_cases h3 : i < hi + 1 - lo
  · have a1 : lo + i ≥ L := by omega
    have a2 : lo + i - L < H + 1 - L := by omega
    have a3 : L + (lo + i - L) = lo + i := by omega
    simp only [h3, a1, a2, a3, decide_true, Bool.true_and]
  · simp [h3]

/-- A field of ones keeps, a field of zeros clears. -/
theorem field_mask_keep (w m hi lo : Nat) (h : field m hi lo = 2 ^ (hi + 1 - lo) - 1) :
    field (w &&& m) hi lo = field w hi lo := by
  rw [field_and, h, Nat.and_two_pow_sub_one_eq_mod, Nat.mod_eq_of_lt (field_lt _ _ _)]

theorem field_mask_clear (w m hi lo : Nat) (h : field m hi lo = 0) : field (w &&& m) hi lo = 0 := by
  rw [field_and, h, Nat.and_zero]

/-- Two words below `2^n` with the same bits. -/
theorem or_add {a b k : Nat} (ha : 2 ^ k ∣ a) (hb : b < 2 ^ k) : a ||| b = a + b := by
  obtain ⟨q, rfl⟩ := ha
  rw [Nat.mul_comm, ← Nat.shiftLeft_eq, Nat.shiftLeft_add_eq_or_of_lt hb]

theorem or_q (t q x : Nat) (hq : q < 4) : (t * 8192 + q ||| x) = (t * 8192 ||| x ||| q) := by
  rw [← or_add (a := t * 8192) (b := q) (k := 2) (by omega) (by omega), Nat.or_assoc, Nat.or_comm q, ← Nat.or_assoc]

theorem or2 (k : Nat) {a b : Nat} (ha : 2 ^ k ∣ a) (hb : b < 2 ^ k) : (a ||| b) = a + b := or_add ha hb
theorem or3 (k1 k2 : Nat) {a b c : Nat} (ha : 2 ^ k1 ∣ a) (hb : b < 2 ^ k1) (hab : 2 ^ k2 ∣ a + b) (hc : c < 2 ^ k2) :
    (a ||| b ||| c) = a + b + c := by rw [or2 k1 ha hb, or2 k2 hab hc]
theorem or4 (k1 k2 k3 : Nat) {a b c d : Nat} (ha : 2 ^ k1 ∣ a) (hb : b < 2 ^ k1) (hab : 2 ^ k2 ∣ a + b) (hc : c < 2 ^ k2)
    (habc : 2 ^ k3 ∣ a + b + c) (hd : d < 2 ^ k3) :
    (a ||| b ||| c ||| d) = a + b + c + d := by rw [or3 k1 k2 ha hb hab hc, or2 k3 habc hd]
theorem or5 (k1 k2 k3 k4 : Nat) {a b c d e : Nat} (ha : 2 ^ k1 ∣ a) (hb : b < 2 ^ k1) (hab : 2 ^ k2 ∣ a + b)
    (hc : c < 2 ^ k2) (habc : 2 ^ k3 ∣ a + b + c) (hd : d < 2 ^ k3) (h4 : 2 ^ k4 ∣ a + b + c + d) (he : e < 2 ^ k4) :
    (a ||| b ||| c ||| d ||| e) = a + b + c + d + e := by rw [or4 k1 k2 k3 ha hb hab hc habc hd, or2 k4 h4 he]
theorem or6 (k1 k2 k3 k4 k5 : Nat) {a b c d e f : Nat} (ha : 2 ^ k1 ∣ a) (hb : b < 2 ^ k1) (hab : 2 ^ k2 ∣ a + b)
    (hc : c < 2 ^ k2) (habc : 2 ^ k3 ∣ a + b + c) (hd : d < 2 ^ k3) (h4 : 2 ^ k4 ∣ a + b + c + d) (he : e < 2 ^ k4)
    (h5 : 2 ^ k5 ∣ a + b + c + d + e) (hf : f < 2 ^ k5) :
    (a ||| b ||| c ||| d ||| e ||| f) = a + b + c + d + e + f := by
  rw [or5 k1 k2 k3 k4 ha hb hab hc habc hd h4 he, or2 k5 h5 hf]
theorem or7 (k1 k2 k3 k4 k5 k6 : Nat) {a b c d e f g : Nat} (ha : 2 ^ k1 ∣ a) (hb : b < 2 ^ k1) (hab : 2 ^ k2 ∣ a + b)
    (hc : c < 2 ^ k2) (habc : 2 ^ k3 ∣ a + b + c) (hd : d < 2 ^ k3) (h4 : 2 ^ k4 ∣ a + b + c + d) (he : e < 2 ^ k4)
    (h5 : 2 ^ k5 ∣ a + b + c + d + e) (hf : f < 2 ^ k5) (h6 : 2 ^ k6 ∣ a + b + c + d + e + f) (hg : g < 2 ^ k6) :
    (a ||| b ||| c ||| d ||| e ||| f ||| g) = a + b + c + d + e + f + g := by
  rw [or6 k1 k2 k3 k4 k5 ha hb hab hc habc hd h4 he h5 hf, or2 k6 h6 hg]

end Verif.Field

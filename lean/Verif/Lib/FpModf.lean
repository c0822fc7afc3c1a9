import Verif.Lib.Fp

/-!
# `modf` and `round`

libsrc/math/modf.c, round.c.  The subtraction and the addition of the machine are
parameters: any that are exact when the result is a number, or that round to the
nearest number.
-/

namespace Verif.Fp

/-- `x >= 0` for a number: the sign is clear or it is a zero. -/
def ge0 (q : BitVec 64) : Bool := decide (0 ≤ q.toInt) || isZero q

/-- `modf`, libsrc/math/modf.c:4-13: the result and `*pint`. -/
def modf (sub : BitVec 64 → BitVec 64 → BitVec 64) (x : BitVec 64) : BitVec 64 × BitVec 64 :=
  if finite x then
    let i := if ge0 x then floor x else ceil x
    (sub x i, i)
  else (if isnan x then x else 0#64, x)

/-- `round`, libsrc/math/round.c:6-8.  `sub` and `add` are the machine's; 0.5 is
0x3FE0000000000000. -/
def round (add sub : BitVec 64 → BitVec 64 → BitVec 64) (x : BitVec 64) : BitVec 64 :=
  if ge0 x then floor (add x 0x3FE0000000000000#64) else ceil (sub x 0x3FE0000000000000#64)

/-! ## Specification -/

/-- A subtraction that is exact whenever the difference is a number. -/
def ExactSub (sub : BitVec 64 → BitVec 64 → BitVec 64) : Prop :=
  ∀ x y r, Finite x → Finite y → Finite r → val r = val x - val y →
    Finite (sub x y) ∧ val (sub x y) = val r

/-- `r` is nearest to `s` among the numbers, with an even fraction if another one
is as near (IEEE 754, 4.3.1). -/
def Nearest (r : BitVec 64) (s : Int) : Prop :=
  Finite r ∧ ∀ t, Finite t → (val r - s).natAbs ≤ (val t - s).natAbs ∧
    ((val r - s).natAbs = (val t - s).natAbs → val t ≠ val r → fr r % 2 = 0)

/-! ## Fractions are numbers -/

/-- Every 53-bit multiple of a power of two in the range is a number. -/
theorem representable {s : Nat} (hs : s < 2) : ∀ (p b : Nat), b < 2 ^ 53 → p ≤ 1100 →
    ∃ r : BitVec 64, sgn r = s ∧ Finite r ∧ mag r = b * 2 ^ p := by
  have norm : ∀ (p b : Nat), b < 2 ^ 53 → p ≤ 1100 → 2 ^ 52 ≤ b →
      ∃ r : BitVec 64, sgn r = s ∧ Finite r ∧ mag r = b * 2 ^ p := by
    intro p b h1 h2 h3
    have ht : (BitVec.ofNat 64 (s * 2 ^ 63 + (p + 1) * 2 ^ 52 + (b - 2 ^ 52))).toNat =
        s * 2 ^ 63 + (p + 1) * 2 ^ 52 + (b - 2 ^ 52) := by
      rw [BitVec.toNat_ofNat]
      omega
    obtain ⟨a1, a2, a3⟩ := build hs (by omega) (by omega) (by omega) ht
    refine ⟨_, a1, a2, ?_⟩
    rw [a3, Nat.add_sub_cancel, show 2 ^ 52 + (b - 2 ^ 52) = b from by omega]
  intro p
  induction p with
  | zero =>
    intro b h1 h2
    by_cases h3 : 2 ^ 52 ≤ b
    · exact norm 0 b h1 h2 h3
    · refine ⟨BitVec.ofNat 64 (s * 2 ^ 63 + b), ?_⟩
      have ht : (BitVec.ofNat 64 (s * 2 ^ 63 + b)).toNat = s * 2 ^ 63 + b := by
        rw [BitVec.toNat_ofNat]
        omega
      have he : ex (BitVec.ofNat 64 (s * 2 ^ 63 + b)) = 0 := by
        rw [ex, ht]
        omega
      refine ⟨?_, ?_, ?_⟩
      · rw [sgn, ht]
        omega
      · rw [Finite, he]
        decide
      · rw [mag, if_pos he, fr, ht]
        omega
  | succ p ih =>
    intro b h1 h2
    by_cases h3 : 2 ^ 52 ≤ b
    · exact norm (p + 1) b h1 h2 h3
    · obtain ⟨r, r1, r2, r3⟩ := ih (b * 2) (by omega) (by omega)
      refine ⟨r, r1, r2, ?_⟩
      rw [r3, Nat.pow_succ, Nat.mul_assoc, Nat.mul_comm 2]

/-- The part of a number behind the point is a number. -/
theorem fraction_representable {s : Nat} (hs : s < 2) (x : BitVec 64) :
    ∃ r : BitVec 64, sgn r = s ∧ Finite r ∧ mag r = mag x % 2 ^ 1074 := by
  have hf := (fields x).2.2
  have key : ∀ m p, m < 2 ^ 53 → ∃ r : BitVec 64, sgn r = s ∧ Finite r ∧ mag r = m * 2 ^ p % 2 ^ 1074 := by
    intro m p hm
    by_cases hp : 1074 ≤ p
    · obtain ⟨r, r1, r2, r3⟩ := representable hs 0 0 (by decide) (by decide)
      refine ⟨r, r1, r2, ?_⟩
      rw [r3, Nat.mod_eq_zero_of_dvd (Nat.dvd_mul_left_of_dvd (Nat.pow_dvd_pow 2 hp) m)]
    · have h2 : 2 ^ 1074 = 2 ^ (1074 - p) * 2 ^ p := by
        rw [← Nat.pow_add]
        congr 1
        omega
      rw [h2, Nat.mul_mod_mul_right]
      exact representable hs p _ (Nat.lt_of_le_of_lt (Nat.mod_le _ _) hm) (by omega)
  rw [mag]
  split
  · have := key (fr x) 0 (by omega)
    simpa using this
  · exact key _ _ (by omega)

theorem ge0_iff {x : BitVec 64} : ge0 x = true ↔ 0 ≤ val x := by
  rw [ge0, Bool.or_eq_true, decide_eq_true_iff, toInt_nonneg, isZero_iff, val]
  constructor
  · rintro (h | ⟨h1, h2⟩)
    · rw [if_pos h]
      omega
    · have : mag x = 0 := by
        rw [mag, if_pos h1]
        exact h2
      rw [this]
      simp
  · intro h
    by_cases hs : sgn x = 0
    · exact Or.inl hs
    · rw [if_neg hs] at h
      have hm : mag x = 0 := by omega
      right
      by_cases h0 : ex x = 0
      · rw [mag, if_pos h0] at hm
        exact ⟨h0, hm⟩
      · rw [mag, if_neg h0] at hm
        have := Nat.two_pow_pos (ex x - 1)
        rcases Nat.mul_eq_zero.1 hm with h | h <;> omega

theorem emod_of {a b u : Int} (hd : u ∣ b) (h1 : b ≤ a) (h2 : a < b + u) : a - b = a % u := by
  obtain ⟨c, rfl⟩ := hd
  have : (a - u * c) % u = a - u * c := Int.emod_eq_of_lt (by omega) (by omega)
  rw [← this, Int.sub_mul_emod_self_left]

/-- The two results of `modf`: an integer and a fraction of the number's sign that
together are the number. -/
def IsModf (x f i : BitVec 64) : Prop :=
  Finite i ∧ Finite f ∧ unit ∣ val i ∧ val i + val f = val x ∧ -unit < val f ∧ val f < unit ∧
  (0 ≤ val x → 0 ≤ val i ∧ 0 ≤ val f) ∧ (val x ≤ 0 → val i ≤ 0 ∧ val f ≤ 0)

theorem finite_of {x : BitVec 64} (h : Normal x ∨ mag x = 0) : Finite x := by
  rcases h with h | h
  · exact h.1
  · by_cases h0 : ex x = 0
    · rw [Finite, h0]
      decide
    · exfalso
      rw [mag, if_neg h0] at h
      have := Nat.two_pow_pos (ex x - 1)
      rcases Nat.mul_eq_zero.1 h with h | h <;> omega

/-- C89 (partial: not for subnormal numbers, as `floor` and `ceil`): `modf` splits
a number exactly. -/
theorem modf_partial {sub : BitVec 64 → BitVec 64 → BitVec 64} (hsub : ExactSub sub) {x : BitVec 64}
    (h : Normal x ∨ mag x = 0) : IsModf x (modf sub x).1 (modf sub x).2 := by
  have hfin := finite_of h
  have hu := unit_pos
  have hcast : ((mag x % 2 ^ 1074 : Nat) : Int) = (mag x : Int) % unit := by
    rw [unit_eq, Int.natCast_emod]
  by_cases hx : ge0 x = true
  · have hm : modf sub x = (sub x (floor x), floor x) := by
      simp [modf, (finite_iff x).2 hfin, hx]
    rw [ge0_iff] at hx
    obtain ⟨f1, f2, f3, f4⟩ := floor_partial h
    have hd := emod_of f2 f3 f4
    have hmx : val x = (mag x : Int) := by
      rw [val]
      split
      · rfl
      · rename_i hs
        rw [val, if_neg hs] at hx
        omega
    obtain ⟨r, r1, r2, r3⟩ := fraction_representable (s := 0) (by decide) x
    have hr : val r = val x - val (floor x) := by
      rw [hd, val, r1, if_pos rfl, r3, hcast, hmx]
    obtain ⟨s1, s2⟩ := hsub x (floor x) r hfin f1 r2 hr
    have hpos : 0 ≤ val (floor x) := by
      obtain ⟨c, hc⟩ := f2
      rw [hc] at f4 ⊢
      have : 0 ≤ c := by
        apply Int.le_of_lt_add_one
        by_cases hc : 0 < c + 1
        · exact hc
        · exfalso
          have h3 : unit * (c + 1) ≤ unit * 0 := Int.mul_le_mul_of_nonneg_left (by omega) (by omega)
          rw [Int.mul_add] at h3
          omega
      exact Int.mul_nonneg (by omega) this
    rw [hm]
    dsimp only
    refine ⟨f1, s1, f2, ?_, ?_, ?_, ?_, ?_⟩ <;> rw [s2, hr] <;> omega
  · have hm : modf sub x = (sub x (ceil x), ceil x) := by
      simp [modf, (finite_iff x).2 hfin, hx]
    rw [ge0_iff] at hx
    obtain ⟨f1, f2, f3, f4⟩ := ceil_partial h
    have hd := emod_of (Int.dvd_neg.2 f2) (by omega : -val (ceil x) ≤ -val x) (by omega)
    have hmx : val x = -(mag x : Int) := by
      rw [val]
      split
      · rename_i hs
        rw [val, if_pos hs] at hx
        omega
      · rfl
    obtain ⟨r, r1, r2, r3⟩ := fraction_representable (s := 1) (by decide) x
    have hr : val r = val x - val (ceil x) := by
      rw [val, r1, if_neg (by decide), r3, hcast]
      rw [show (mag x : Int) = -val x from by omega, ← hd]
      omega
    obtain ⟨s1, s2⟩ := hsub x (ceil x) r hfin f1 r2 hr
    have hneg : val (ceil x) ≤ 0 := by
      obtain ⟨c, hc⟩ := f2
      rw [hc] at f4 ⊢
      by_cases h3 : c ≤ 0
      · have := Int.mul_le_mul_of_nonneg_left h3 (by omega : 0 ≤ unit)
        omega
      · exfalso
        have h3 : unit * 1 ≤ unit * c := Int.mul_le_mul_of_nonneg_left (by omega) (by omega)
        omega
    rw [hm]
    dsimp only
    refine ⟨f1, s1, f2, ?_, ?_, ?_, ?_, ?_⟩ <;> rw [s2, hr] <;> omega

/-- C89: for an infinity, `modf` gives it and 0. -/
theorem modf_infinite {sub : BitVec 64 → BitVec 64 → BitVec 64} {x : BitVec 64} (h : IsInf x) :
    modf sub x = (0#64, x) := by
  have h1 : finite x = false := by
    rw [← Bool.not_eq_true, finite_iff, Finite]
    have := h.1
    omega
  have h2 : isnan x = false := by
    rw [← Bool.not_eq_true, (isnan_isinf_partial x (fun hn => absurd h.2 hn.2)).1]
    exact fun hn => hn.2 h.2
  simp [modf, h1, h2]

open Classical in
/-- There is an exact subtraction. -/
theorem exactSub_exists : ∃ sub, ExactSub sub := by
  refine ⟨fun x y => if h : ∃ r, Finite r ∧ val r = val x - val y then h.choose else 0#64, ?_⟩
  intro x y r _ _ hr hv
  have hex : ∃ r, Finite r ∧ val r = val x - val y := ⟨r, hr, hv⟩
  dsimp only
  rw [dif_pos hex, hv]
  exact hex.choose_spec

/-! ## `round` -/

/-- The numbers from the one before 1 to 1 are these two. -/
theorem before_one {y : BitVec 64} (h1 : unit - 2 * 2 ^ 1020 ≤ val y) (h2 : val y < unit) :
    fr y = 2 ^ 52 - 1 ∧ val y = unit - 2 * 2 ^ 1020 := by
  have hone : unit = 2 ^ 54 * 2 ^ 1020 := by decide +kernel
  have hN : ((2 ^ 1020 : Nat) : Int) = (2 : Int) ^ 1020 := by decide +kernel
  have hpos : 0 < (2 : Int) ^ 1020 := by decide +kernel
  have hsy : sgn y = 0 := by
    by_cases hs : sgn y = 0
    · exact hs
    · rw [val, if_neg hs] at h1
      generalize (2 : Int) ^ 1020 = w at *
      omega
  have hvy : val y = (mag y : Int) := by rw [val, if_pos hsy]
  have hf := (fields y).2.2
  have hey : ex y ≠ 0 := by
    intro h0
    have h52 : (2 : Nat) ^ 52 < 2 ^ 1020 := Nat.pow_lt_pow_right (by decide) (by decide)
    rw [hvy, mag, if_pos h0] at h1
    rw [← hN] at h1 hone
    generalize (2 : Nat) ^ 1020 = w at *
    omega
  have hm : mag y = (2 ^ 52 + fr y) * 2 ^ (ex y - 1) := by rw [mag, if_neg hey]
  have hb : mag y < 2 ^ 54 * 2 ^ 1020 ∧ 2 ^ 54 * 2 ^ 1020 ≤ mag y + 2 * 2 ^ 1020 := by
    rw [hvy] at h1 h2
    rw [← hN] at h1 hone
    generalize (2 : Nat) ^ 1020 = w at *
    omega
  have hw : (0 : Nat) < 2 ^ 1020 := Nat.two_pow_pos _
  have he : ex y - 1 = 1021 := by
    rcases Nat.lt_trichotomy (ex y - 1) 1021 with h | h | h
    · exfalso
      have h3 : 2 ^ (ex y - 1) ≤ 2 ^ 1020 := Nat.pow_le_pow_right (by decide) (by omega)
      have h4 := Nat.mul_le_mul_left (2 ^ 52 + fr y) h3
      have h5 : (2 ^ 52 + fr y) * 2 ^ 1020 ≤ 2 ^ 53 * 2 ^ 1020 := Nat.mul_le_mul_right _ (by omega)
      rw [← hm] at h4
      generalize (2 : Nat) ^ 1020 = w at *
      omega
    · exact h
    · exfalso
      have h3 : 2 ^ 1022 ≤ 2 ^ (ex y - 1) := Nat.pow_le_pow_right (by decide) (by omega)
      have h4 := Nat.mul_le_mul_left (2 ^ 52 + fr y) h3
      have h5 : 2 ^ 52 * 2 ^ 1022 ≤ (2 ^ 52 + fr y) * 2 ^ 1022 := Nat.mul_le_mul_right _ (by omega)
      have h6 : (2 : Nat) ^ 1022 = 4 * 2 ^ 1020 := by decide +kernel
      rw [← hm] at h4
      rw [h6] at h4 h5
      generalize (2 : Nat) ^ 1020 = w at *
      omega
  rw [he, show (2 : Nat) ^ 1021 = 2 * 2 ^ 1020 from by decide +kernel] at hm
  have hfr : fr y = 2 ^ 52 - 1 := by
    by_cases h : fr y = 2 ^ 52 - 1
    · exact h
    exfalso
    have h7 : (2 ^ 52 + fr y) * (2 * 2 ^ 1020) ≤ (2 ^ 53 - 2) * (2 * 2 ^ 1020) :=
      Nat.mul_le_mul_right _ (by omega)
    rw [← hm] at h7
    generalize (2 : Nat) ^ 1020 = w at *
    omega
  refine ⟨hfr, ?_⟩
  rw [hvy, hm, hfr, hone, ← hN]
  generalize (2 : Nat) ^ 1020 = w at *
  omega

/-- 1 is nearest to the sum of 0.5 and the number before it. -/
theorem nearest_one : Nearest 0x3FF0000000000000#64 (val 0x3FDFFFFFFFFFFFFF#64 + val 0x3FE0000000000000#64) := by
  have hsum : val 0x3FDFFFFFFFFFFFFF#64 + val 0x3FE0000000000000#64 = unit - 2 ^ 1020 := by decide +kernel
  have hpos : 0 < (2 : Int) ^ 1020 := by decide +kernel
  rw [hsum]
  refine ⟨plus_one.1, fun t _ => ⟨?_, fun _ _ => by decide +kernel⟩⟩
  rw [plus_one.2]
  by_cases h : unit - 2 * 2 ^ 1020 ≤ val t ∧ val t < unit
  · have := (before_one h.1 h.2).2
    generalize (2 : Int) ^ 1020 = w at *
    omega
  · generalize (2 : Int) ^ 1020 = w at *
    omega

/-- Finding: `round` of the largest number below 0.5 is 1, with any addition that
rounds that sum to nearest (libsrc/math/round.c:7); there is one, `nearest_one`. -/
theorem round_below_half {add sub : BitVec 64 → BitVec 64 → BitVec 64}
    (hadd : Nearest (add 0x3FDFFFFFFFFFFFFF#64 0x3FE0000000000000#64)
      (val 0x3FDFFFFFFFFFFFFF#64 + val 0x3FE0000000000000#64)) :
    2 * val 0x3FDFFFFFFFFFFFFF#64 < unit ∧ val (round add sub 0x3FDFFFFFFFFFFFFF#64) = unit := by
  have hg : ge0 0x3FDFFFFFFFFFFFFF#64 = true := by decide +kernel
  have hsum : val 0x3FDFFFFFFFFFFFFF#64 + val 0x3FE0000000000000#64 = unit - 2 ^ 1020 := by decide +kernel
  rw [hsum] at hadd
  refine ⟨by decide +kernel, ?_⟩
  simp only [round, hg, if_true]
  generalize add 0x3FDFFFFFFFFFFFFF#64 0x3FE0000000000000#64 = y at hadd
  obtain ⟨hfy, hy⟩ := hadd
  obtain ⟨d1, d2⟩ := hy 0x3FF0000000000000#64 plus_one.1
  rw [plus_one.2] at d1 d2
  have hpos : 0 < (2 : Int) ^ 1020 := by decide +kernel
  have hval : val y = unit := by
    by_cases heq : val y = unit
    · exact heq
    exfalso
    have hlo : unit - 2 * 2 ^ 1020 ≤ val y ∧ val y ≤ unit := by
      generalize (2 : Int) ^ 1020 = w at *
      omega
    obtain ⟨hfr, hv⟩ := before_one hlo.1 (by omega)
    have heven := d2 (by
      generalize (2 : Int) ^ 1020 = w at *
      omega) (by omega)
    rw [hfr] at heven
    revert heven
    decide
  have hey : ex y ≠ 0 := by
    intro h0
    have hf := (fields y).2.2
    have h52 : (2 : Nat) ^ 52 < 2 ^ 1074 := Nat.pow_lt_pow_right (by decide) (by decide)
    rw [val, mag, if_pos h0, unit_eq] at hval
    generalize (2 : Nat) ^ 1074 = w at *
    split at hval <;> omega
  obtain ⟨f1, f2, f3, f4⟩ := floor_partial (x := y) (Or.inl ⟨hfy, hey⟩)
  have hd := emod_of f2 f3 f4
  rw [hval, Int.emod_self] at hd
  omega
/-- -2.5 is split into -2 and -0.5, by any exact subtraction. -/
example {sub : BitVec 64 → BitVec 64 → BitVec 64} (h : ExactSub sub) :
    (modf sub 0xC004000000000000#64).2 = 0xC000000000000000#64 ∧
    val (modf sub 0xC004000000000000#64).1 = val 0xBFE0000000000000#64 := by
  have hi : (modf sub 0xC004000000000000#64).2 = 0xC000000000000000#64 := by
    have h1 : finite 0xC004000000000000#64 = true := by decide +kernel
    have h2 : ge0 0xC004000000000000#64 = false := by decide +kernel
    have h3 : ceil 0xC004000000000000#64 = 0xC000000000000000#64 := by decide +kernel
    simp only [modf, h1, h2, h3, if_true, Bool.false_eq_true, if_false]
  refine ⟨hi, ?_⟩
  have := (modf_partial h (x := 0xC004000000000000#64) (Or.inl ⟨by decide +kernel, by decide +kernel⟩)).2.2.2.1
  rw [hi] at this
  have e1 : val 0xC000000000000000#64 + val 0xBFE0000000000000#64 = val 0xC004000000000000#64 := by decide +kernel
  omega

end Verif.Fp

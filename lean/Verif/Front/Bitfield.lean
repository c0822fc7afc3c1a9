import Verif.Front.Struct
import Verif.Util.Wrap
/-!
# Reading, writing and initialising bit-fields (C26)

Model of `extract_bitfield_value`, `assign_bitfield_member`, `assign_to_bitfield` and
`transform_incdec_of_bitfield` (src/cc/frontend/fe_misc.c:1066-1173) and of the static initialisers
(src/cc/frontend/cc_misc.c:71-117, 210-245), at the level of values: the expression trees these functions
build are evaluated in two's complement arithmetic of the width of their types.  A storage unit of `n` bytes
is a natural number below `2 ^ (8 * n)`; memory is little-endian bytes.  `minreg` is `MINREGSIZE`
(src/config.h:90-104).  Undefined shifts in the compiler itself are `none`.
-/
namespace Verif.Bitfield
open Verif.Util Verif.Struct Verif.Align

/-! ## Model -/

/-- fe_misc.c:1075,1096: `((UFixnum)1 << width) - 1`; the shift is undefined for width 64. -/
def mask (width : Nat) : Option Nat := if width < 64 then some (2 ^ width - 1) else none

/-- A `usz`-byte unit loaded into a register as a signed value. -/
def loaded (usz u : Nat) : Int := if u < 2 ^ (8 * usz - 1) then (u : Int) else (u : Int) - 2 ^ (8 * usz)

/-- fe_misc.c:1066-1089 `extract_bitfield_value`: the value of a field, as the member type (`msz` bytes). -/
def read (minreg usz msz : Nat) (uns : Bool) (pos width u : Nat) : Option Int :=
  if uns then
    match mask width with
    | none => none
    | some m => some (wrapValue (((if 0 < pos then u >>> pos else u) &&& m : Nat) : Int) msz true)
  else
    let w := max usz minreg * 8
    let a := if pos + width < w then toS w (loaded usz u * 2 ^ (w - (pos + width))) else loaded usz u
    let b := if width < w then a / 2 ^ (w - width) else a
    some (wrapValue b msz false)

/-- fe_misc.c:1091-1107 `assign_bitfield_member`: the unit after storing `val`, an expression of a `vs`-byte
integer type, into the field.  `src` is the unit the other bits are taken from. -/
def write (usz pos width : Nat) (val : Int) (vs : Nat) (vuns : Bool) (src : Nat) : Option Nat :=
  match mask width with
  | none => none
  | some m =>
    let masked := wrapValue (val % (2 ^ width : Nat)) vs vuns
    let x := (masked % (2 ^ (8 * usz) : Nat)).toNat
    let y := if 0 < pos then (x <<< pos) % 2 ^ (8 * usz) else x
    some (y ||| (src &&& (2 ^ 64 - 1 - (m <<< pos))))

/-- fe_misc.c:1109-1127 `assign_to_bitfield`: the unit and the value of the assignment expression.  The
right-hand side has already been converted to the member type (parser_expr.c:545). -/
def assign (usz msz : Nat) (uns : Bool) (pos width : Nat) (rhs : Int) (u : Nat) : Option (Nat × Int) :=
  match write usz pos width (wrapValue rhs msz uns) msz uns u with
  | none => none
  | some u' => some (u', wrapValue rhs msz uns)

/-- fe_misc.c:1162-1167: the `int` expression `1 << position`. -/
def one (pos : Nat) : Option Nat := if pos < 31 then some (2 ^ pos) else none

/-- fe_misc.c:1130-1173 `transform_incdec_of_bitfield`: the unit and the value of `++f`, `--f`, `f++`, `f--`. -/
def incdec (minreg usz msz : Nat) (uns dec post : Bool) (pos width u : Nat) : Option (Nat × Int) :=
  if post then
    match read minreg usz msz uns pos width u with
    | none => none
    | some before =>
      match write usz pos width (wrapValue (if dec then before - 1 else before + 1) usz uns) usz uns u with
      | none => none
      | some u' => some (u', before)
  else
    match one pos with
    | none => none
    | some o =>
      match read minreg usz msz uns pos width
          (((if dec then (u : Int) - o else u + o) % (2 ^ (8 * usz) : Nat)).toNat) with
      | none => none
      | some val =>
        match write usz pos width val msz uns u with
        | none => none
        | some u' => some (u', val)

/-- Little-endian load of `n` bytes. -/
def load (mem : Nat → Nat) (off : Nat) : Nat → Nat
  | 0 => 0
  | n + 1 => mem off % 256 + 256 * load mem (off + 1) n

/-- Little-endian store of `n` bytes. -/
def store (mem : Nat → Nat) (off n v : Nat) : Nat → Nat :=
  fun a => if off ≤ a ∧ a < off + n then v / 256 ^ (a - off) % 256 else mem a

/-! ## Specification -/

/-- Reduction of a value to `width` bits, signed or unsigned. -/
def reduce (uns : Bool) (width : Nat) (v : Int) : Int := if uns then toU width v else toS width v

/-- The bits `pos .. pos+width-1` of a unit. -/
def bits (u pos width : Nat) : Nat := u / 2 ^ pos % 2 ^ width

/-- The types of the compiler fit the field: the value's type is at least as wide as the field, and a *signed*
value type of exactly the field's width is not narrower than the unit. -/
def Safe (usz width vs : Nat) (vuns : Bool) : Prop :=
  vs ∈ [1, 2, 4, 8] ∧ width ≤ 8 * vs ∧ (vuns = true ∨ width < 8 * vs ∨ usz ≤ vs)

/-! ## Lemmas -/

theorem two_pow_cast (n : Nat) : ((2 ^ n : Nat) : Int) = (2 : Int) ^ n := by push_cast; rfl

theorem wrap_id {size : Nat} {u : Bool} {v : Int} (hs : size ∈ [1, 2, 4, 8]) (h : InRange size u v) :
    wrapValue v size u = v := by
  simp only [List.mem_cons, List.not_mem_nil, or_false] at hs
  rcases hs with rfl | rfl | rfl | rfl
  · exact wrapValue_of_inRange _ _ _ (by simp) h
  · exact wrapValue_of_inRange _ _ _ (by simp) h
  · exact wrapValue_of_inRange _ _ _ (by simp) h
  · exact wrapValue_64 _ _

theorem pow_le {a b : Nat} (h : a ≤ b) : (2 : Int) ^ a ≤ 2 ^ b := by
  have := Nat.pow_le_pow_right (show 0 < 2 by omega) h
  rw [← two_pow_cast, ← two_pow_cast]
  exact_mod_cast this

theorem pow_pos' (a : Nat) : (0 : Int) < 2 ^ a := by
  rw [← two_pow_cast]
  exact_mod_cast Nat.two_pow_pos a

theorem reduce_range {uns : Bool} {width size : Nat} {v : Int} (hw : 0 < width) (h : width ≤ 8 * size) :
    InRange size uns (reduce uns width v) := by
  have hp := pow_pos' width
  have h1 := Int.emod_nonneg v (Int.ne_of_gt hp)
  have h2 := Int.emod_lt_of_pos v hp
  unfold reduce InRange
  cases uns with
  | true =>
    simp only [if_true, toU]
    have := pow_le h
    omega
  | false =>
    simp only [Bool.false_eq_true, if_false, toS]
    have e : (2 : Int) ^ width = 2 * 2 ^ (width - 1) := by
      conv => lhs; rw [show width = (width - 1) + 1 by omega]
      rw [Int.pow_succ]; omega
    have := pow_le (show width - 1 ≤ 8 * size - 1 by omega)
    split <;> omega

theorem reduce_mod {uns : Bool} {width : Nat} {a b : Int} (h : a % (2 ^ width : Int) = b % (2 ^ width : Int)) :
    reduce uns width a = reduce uns width b := by
  unfold reduce toU toS
  simp only [h]

theorem div_mod_pow (u a b c : Nat) (h : a + b ≤ c) : u % 2 ^ c / 2 ^ a % 2 ^ b = u / 2 ^ a % 2 ^ b := by
  apply Nat.eq_of_testBit_eq
  intro i
  simp only [Nat.testBit_mod_two_pow, Nat.testBit_div_two_pow]
  by_cases hi : i < b
  · have : i + a < c := by omega
    simp [this]
  · simp [hi]

theorem pow_split {a b : Nat} (h : a ≤ b) : (2 : Int) ^ b = 2 ^ a * 2 ^ (b - a) := by
  rw [← Int.pow_add]
  congr 1
  omega

theorem emod_mul_ediv (z P Q : Int) (hP : 0 < P) (hQ : 0 < Q) : z % (P * Q) / P = z / P % Q := by
  have h1 := Int.mul_ediv_add_emod z P
  have h2 := Int.mul_ediv_add_emod (z / P) Q
  have r1 := Int.emod_nonneg z (Int.ne_of_gt hP)
  have r2 := Int.emod_lt_of_pos z hP
  have m1 := Int.emod_nonneg (z / P) (Int.ne_of_gt hQ)
  have m2 := Int.emod_lt_of_pos (z / P) hQ
  generalize z / P % Q = m at *
  generalize z / P / Q = t at *
  generalize z % P = r at *
  have e : z = (P * m + r) + P * Q * t := by
    rw [← h1, ← h2, Int.mul_add]
    have : P * (Q * t) = P * Q * t := by rw [Int.mul_assoc]
    omega
  have hlt : P * m + r < P * Q := by
    have : P * (m + 1) ≤ P * Q := Int.mul_le_mul_of_nonneg_left (by omega) (by omega)
    rw [Int.mul_add, Int.mul_one] at this
    omega
  have hnn : 0 ≤ P * m := Int.mul_nonneg (by omega) m1
  rw [e, Int.add_mul_emod_self_left, Int.emod_eq_of_lt (by omega) hlt, Int.add_comm, Int.add_mul_ediv_left _ _ (by omega),
    Int.ediv_eq_zero_of_lt r1 r2]
  omega

theorem toS_div (W s : Nat) (z : Int) (h : s < W) : toS W z / 2 ^ s = toS (W - s) (z / 2 ^ s) := by
  have hP := pow_pos' s
  have hQ := pow_pos' (W - s)
  have e1 : (2 : Int) ^ W = 2 ^ s * 2 ^ (W - s) := pow_split (by omega)
  have e2 : (2 : Int) ^ (W - 1) = 2 ^ s * 2 ^ (W - s - 1) := by
    rw [← Int.pow_add]; congr 1; omega
  have e3 := emod_mul_ediv z (2 ^ s) (2 ^ (W - s)) hP hQ
  unfold toS
  simp only [e1, e2, ← e3]
  generalize z % (2 ^ s * 2 ^ (W - s)) = x
  have hc : x < 2 ^ s * 2 ^ (W - s - 1) ↔ x / 2 ^ s < 2 ^ (W - s - 1) := by
    rw [Int.ediv_lt_iff_lt_mul hP, Int.mul_comm]
  by_cases hx : x < 2 ^ s * 2 ^ (W - s - 1)
  · rw [if_pos hx, if_pos (hc.1 hx)]
  · rw [if_neg hx, if_neg (fun h => hx (hc.2 h))]
    rw [show x - 2 ^ s * 2 ^ (W - s) = x + 2 ^ s * (-2 ^ (W - s)) by rw [Int.mul_neg]; omega,
      Int.add_mul_ediv_left _ _ (by omega)]
    omega

theorem loaded_eq (usz u : Nat) (hu : u < 2 ^ (8 * usz)) (hs : 0 < usz) :
    (∃ e : Int, loaded usz u = u + 2 ^ (8 * usz) * e) ∧ -2 ^ (8 * usz - 1) ≤ loaded usz u ∧ loaded usz u < 2 ^ (8 * usz - 1) := by
  have e : (2 : Int) ^ (8 * usz) = 2 * 2 ^ (8 * usz - 1) := by
    conv => lhs; rw [show 8 * usz = (8 * usz - 1) + 1 by omega]
    rw [Int.pow_succ]; omega
  have hu' : (u : Int) < 2 ^ (8 * usz) := by rw [← two_pow_cast]; exact_mod_cast hu
  have hc : (u < 2 ^ (8 * usz - 1)) ↔ (u : Int) < 2 ^ (8 * usz - 1) := by
    rw [← two_pow_cast]; exact Int.ofNat_lt.symm
  unfold loaded
  split
  · rename_i h
    rw [hc] at h
    exact ⟨⟨0, by omega⟩, by omega, h⟩
  · rename_i h
    rw [hc] at h
    exact ⟨⟨-1, by omega⟩, by omega, by omega⟩

theorem toS_id {W : Nat} {x : Int} (hW : 0 < W) (h1 : -2 ^ (W - 1) ≤ x) (h2 : x < 2 ^ (W - 1)) : toS W x = x := by
  have e : (2 : Int) ^ W = 2 * 2 ^ (W - 1) := by
    conv => lhs; rw [show W = (W - 1) + 1 by omega]
    rw [Int.pow_succ]; omega
  unfold toS
  simp only
  by_cases hx : 0 ≤ x
  · rw [Int.emod_eq_of_lt hx (by omega), if_pos h2]
  · rw [show x = (x + 2 ^ W) + 2 ^ W * (-1) by omega, Int.add_mul_emod_self_left, Int.emod_eq_of_lt (by omega) (by omega),
      if_neg (by omega)]
    omega

theorem loaded_bits (usz u pos width : Nat) (h : pos + width ≤ 8 * usz) (hw : 0 < width) (hu : u < 2 ^ (8 * usz)) :
    loaded usz u / 2 ^ pos % 2 ^ width = (bits u pos width : Int) := by
  obtain ⟨⟨e, he⟩, _, _⟩ := loaded_eq usz u hu (by omega)
  have hp := pow_pos' pos
  rw [he, pow_split (show pos ≤ 8 * usz by omega), pow_split (show width ≤ 8 * usz - pos by omega), Int.mul_assoc, Int.mul_assoc,
    Int.add_mul_ediv_left _ _ (by omega), Int.add_mul_emod_self_left]
  unfold bits
  push_cast
  rfl

/-! ## Theorems -/

/-- **C26.** Reading a bit-field yields its bits, sign- or zero-extended according to the member's type. -/
theorem read_correct (minreg usz msz : Nat) (uns : Bool) (pos width u : Nat) (hw : 0 < width)
    (hmask : uns = true → width < 64) (hfit : pos + width ≤ 8 * usz) (hu : u < 2 ^ (8 * usz)) (hm : msz ∈ [1, 2, 4, 8])
    (hmw : width ≤ 8 * msz) :
    read minreg usz msz uns pos width u = some (reduce uns width (bits u pos width)) := by
  have hr := fun v => reduce_range (uns := uns) (v := v) hw hmw
  unfold read
  cases uns with
  | true =>
    simp only [if_true, mask, if_pos (hmask rfl)]
    have e : (if 0 < pos then u >>> pos else u) = u / 2 ^ pos := by
      split
      · exact Nat.shiftRight_eq_div_pow _ _
      · rw [show pos = 0 by omega]; simp
    rw [e, Nat.and_two_pow_sub_one_eq_mod]
    have : ((u / 2 ^ pos % 2 ^ width : Nat) : Int) = reduce true width (bits u pos width) := by
      simp only [reduce, if_true, toU]
      rw [← two_pow_cast, ← Int.natCast_emod]
      unfold bits
      rw [Nat.mod_mod]
    rw [this, wrap_id hm (hr _)]
  | false =>
    simp only [Bool.false_eq_true, if_false]
    generalize hW : max usz minreg * 8 = W
    have hWN : 8 * usz ≤ W := by omega
    obtain ⟨⟨e, he⟩, hl1, hl2⟩ := loaded_eq usz u hu (by omega)
    have ha : (if pos + width < W then toS W (loaded usz u * 2 ^ (W - (pos + width))) else loaded usz u) =
        toS W (loaded usz u * 2 ^ (W - (pos + width))) := by
      split
      · rfl
      · have : 8 * usz = W := by omega
        rw [show W - (pos + width) = 0 by omega, Int.pow_zero, Int.mul_one]
        rw [this] at hl1 hl2
        exact (toS_id (by omega) hl1 hl2).symm
    have hb : (if width < W then toS W (loaded usz u * 2 ^ (W - (pos + width))) / 2 ^ (W - width) else
        toS W (loaded usz u * 2 ^ (W - (pos + width)))) = toS W (loaded usz u * 2 ^ (W - (pos + width))) / 2 ^ (W - width) := by
      split
      · rfl
      · rw [show W - width = 0 by omega]; simp
    have hd : toS W (loaded usz u * 2 ^ (W - (pos + width))) / 2 ^ (W - width) = reduce false width (bits u pos width) := by
      rw [toS_div _ _ _ (by omega)]
      have e1 : (2 : Int) ^ (W - width) = 2 ^ (W - (pos + width)) * 2 ^ pos := by
        rw [← Int.pow_add]; congr 1; omega
      rw [e1, Int.mul_comm (loaded usz u), Int.mul_ediv_mul_of_pos _ _ (pow_pos' _), show W - (W - width) = width by omega]
      have : toS width (loaded usz u / 2 ^ pos) = reduce false width (loaded usz u / 2 ^ pos) := rfl
      rw [this]
      apply reduce_mod
      rw [loaded_bits usz u pos width hfit hw hu]
      unfold bits
      rw [← two_pow_cast, ← Int.natCast_emod, Nat.mod_mod]
    rw [ha, hb, hd, wrap_id hm (hr _)]

/-- The masked value, as the unit's type sees it. -/
theorem masked_eq {usz pos width vs : Nat} {vuns : Bool} {v : Int} (hw : 0 < width) (hfit : pos + width ≤ 8 * usz)
    (hs : Safe usz width vs vuns) (hv : vs = 8 → width < 64) :
    (wrapValue (v % (2 ^ width : Nat)) vs vuns % (2 ^ (8 * usz) : Nat)).toNat = (v % (2 ^ width : Nat)).toNat := by
  obtain ⟨h1, h2, h3⟩ := hs
  have hp : (0 : Int) < (2 ^ width : Nat) := by exact_mod_cast Nat.two_pow_pos width
  have m1 := Int.emod_nonneg v (Int.ne_of_gt hp)
  have m2 := Int.emod_lt_of_pos v hp
  have hN : ((2 ^ width : Nat) : Int) ≤ (2 ^ (8 * usz) : Nat) := by
    exact_mod_cast Nat.pow_le_pow_right (by omega) (by omega)
  by_cases hin : InRange vs vuns (v % (2 ^ width : Nat))
  · rw [wrap_id h1 hin, Int.emod_eq_of_lt m1 (by omega)]
  · -- a signed type of exactly the width of the field
    have hvs : vuns = false ∧ width = 8 * vs := by
      unfold InRange at hin
      cases vuns with
      | true =>
        exfalso
        apply hin
        simp only [if_true]
        have := pow_le h2
        rw [two_pow_cast] at m2 ⊢
        rw [two_pow_cast] at m1
        omega
      | false =>
        refine ⟨rfl, ?_⟩
        by_contra hne
        apply hin
        simp only [Bool.false_eq_true, if_false]
        have := pow_le (show width ≤ 8 * vs - 1 by omega)
        rw [two_pow_cast] at m2 ⊢
        rw [two_pow_cast] at m1
        have := pow_pos' (8 * vs - 1)
        omega
    obtain ⟨rfl, hweq⟩ := hvs
    have huv : usz = vs := by
      rcases h3 with h | h | h
      · cases h
      · omega
      · omega
    subst huv
    have hc := wrapValue_congr (v % (2 ^ width : Nat)) usz false h1
    have : wrapValue (v % (2 ^ width : Nat)) usz false % (2 ^ (8 * usz) : Nat) = v % (2 ^ width : Nat) % (2 ^ (8 * usz) : Nat) := by
      rw [two_pow_cast (8 * usz)]
      exact Int.emod_eq_emod_iff_emod_sub_eq_zero.2 hc
    rw [this, ← hweq, Int.emod_emod_of_dvd _ (Int.dvd_refl _)]

/-- **C26.** Writing a bit-field stores the value modulo `2 ^ width` in its bits and leaves every other bit of
the unit as it was. -/
theorem write_correct (usz pos width : Nat) (v : Int) (vs : Nat) (vuns : Bool) (u : Nat) (hw : 0 < width) (hw64 : width < 64)
    (husz : usz ≤ 8) (hfit : pos + width ≤ 8 * usz) (hu : u < 2 ^ (8 * usz)) (hs : Safe usz width vs vuns) :
    ∃ u', write usz pos width v vs vuns u = some u' ∧ u' < 2 ^ (8 * usz) ∧
      (bits u' pos width : Int) = v % (2 ^ width : Nat) ∧
      ∀ i, i < pos ∨ pos + width ≤ i → u'.testBit i = u.testBit i := by
  have hp : (0 : Int) < (2 ^ width : Nat) := by exact_mod_cast Nat.two_pow_pos width
  have m1 := Int.emod_nonneg v (Int.ne_of_gt hp)
  have m2 := Int.emod_lt_of_pos v hp
  unfold write
  simp only [mask, if_pos hw64]
  rw [masked_eq hw hfit hs (fun _ => hw64)]
  obtain ⟨x, hx⟩ := Int.eq_ofNat_of_zero_le m1
  rw [hx] at m2 ⊢
  simp only [Int.toNat_natCast]
  have hxl : x < 2 ^ width := by exact_mod_cast m2
  have hsh : x <<< pos < 2 ^ (8 * usz) := by
    rw [Nat.shiftLeft_eq]
    calc x * 2 ^ pos < 2 ^ width * 2 ^ pos := Nat.mul_lt_mul_of_pos_right hxl (Nat.two_pow_pos _)
      _ = 2 ^ (width + pos) := by rw [Nat.pow_add]
      _ ≤ 2 ^ (8 * usz) := Nat.pow_le_pow_right (by omega) (by omega)
  have hy : (if 0 < pos then (x <<< pos) % 2 ^ (8 * usz) else x) = x <<< pos := by
    split
    · exact Nat.mod_eq_of_lt hsh
    · rw [show pos = 0 by omega]; simp
  rw [hy]
  have hm : ∀ i, (2 ^ 64 - 1 - ((2 ^ width - 1) <<< pos)).testBit i = (decide (i < 64) && !(decide (pos ≤ i) && decide (i < pos + width))) := by
    intro i
    have hlt : (2 ^ width - 1) <<< pos < 2 ^ 64 := by
      rw [Nat.shiftLeft_eq]
      calc (2 ^ width - 1) * 2 ^ pos < 2 ^ width * 2 ^ pos :=
            Nat.mul_lt_mul_of_pos_right (by have := Nat.two_pow_pos width; omega) (Nat.two_pow_pos _)
        _ = 2 ^ (width + pos) := by rw [Nat.pow_add]
        _ ≤ 2 ^ 64 := Nat.pow_le_pow_right (by omega) (by omega)
    rw [show 2 ^ 64 - 1 - ((2 ^ width - 1) <<< pos) = 2 ^ 64 - ((2 ^ width - 1) <<< pos + 1) by omega,
      Nat.testBit_two_pow_sub_succ hlt, Nat.testBit_shiftLeft, Nat.testBit_two_pow_sub_one]
    by_cases h1 : pos ≤ i <;> by_cases h2 : i < pos + width
    · have : i - pos < width := by omega
      simp [h1, h2, this]
    · have : ¬ i - pos < width := by omega
      simp [h1, h2, this]
    · simp [h1]
    · simp [h1]
  have hbit : ∀ i, (x <<< pos ||| (u &&& (2 ^ 64 - 1 - ((2 ^ width - 1) <<< pos)))).testBit i =
      if pos ≤ i ∧ i < pos + width then x.testBit (i - pos) else u.testBit i := by
    intro i
    rw [Nat.testBit_or, Nat.testBit_and, hm, Nat.testBit_shiftLeft]
    by_cases h1 : pos ≤ i <;> by_cases h2 : i < pos + width
    · simp [h1, h2]
    · have hxi : x.testBit (i - pos) = false :=
        Nat.testBit_lt_two_pow (Nat.lt_of_lt_of_le hxl (Nat.pow_le_pow_right (by omega) (by omega)))
      by_cases h3 : i < 64
      · simp [h1, h2, h3, hxi]
      · have hui : u.testBit i = false :=
          Nat.testBit_lt_two_pow (Nat.lt_of_lt_of_le hu (Nat.pow_le_pow_right (by omega) (by omega)))
        simp [h1, h2, hxi, hui]
    · have h3 : i < 64 := by omega
      simp [h1, h3]
    · omega
  refine ⟨_, rfl, ?_, ?_, ?_⟩
  · apply Nat.lt_pow_two_of_testBit
    intro i hi
    rw [hbit, if_neg (by omega)]
    exact Nat.testBit_lt_two_pow (Nat.lt_of_lt_of_le hu (Nat.pow_le_pow_right (by omega) hi))
  · congr 1
    unfold bits
    apply Nat.eq_of_testBit_eq
    intro i
    rw [Nat.testBit_mod_two_pow, Nat.testBit_div_two_pow, hbit]
    by_cases hi : i < width
    · rw [if_pos (by omega)]
      simp [hi]
    · simp only [hi, decide_false, Bool.false_and]
      exact (Nat.testBit_lt_two_pow (Nat.lt_of_lt_of_le hxl (Nat.pow_le_pow_right (by omega) (by omega)))).symm
  · intro i hi
    rw [hbit, if_neg (by omega)]

theorem bits_congr {u u' pos width : Nat} (h : ∀ i, pos ≤ i → i < pos + width → u'.testBit i = u.testBit i) :
    bits u' pos width = bits u pos width := by
  unfold bits
  apply Nat.eq_of_testBit_eq
  intro i
  simp only [Nat.testBit_mod_two_pow, Nat.testBit_div_two_pow]
  by_cases hi : i < width
  · rw [h (i + pos) (by omega) (by omega)]
  · simp [hi]

/-- **C26.** An assignment to a bit-field and a read of it afterwards: the value comes back reduced to the
field's width (signed or unsigned), and every field of the unit in other bits keeps its bits. -/
theorem assign_read (minreg usz msz : Nat) (uns : Bool) (pos width : Nat) (rhs : Int) (u : Nat) (hw : 0 < width) (hw64 : width < 64)
    (husz : usz ≤ 8) (hfit : pos + width ≤ 8 * usz) (hu : u < 2 ^ (8 * usz)) (hs : Safe usz width msz uns) :
    ∃ u' v, assign usz msz uns pos width rhs u = some (u', v) ∧ u' < 2 ^ (8 * usz) ∧
      read minreg usz msz uns pos width u' = some (reduce uns width rhs) ∧
      ∀ pos' width', pos' + width' ≤ pos ∨ pos + width ≤ pos' → bits u' pos' width' = bits u pos' width' := by
  obtain ⟨u', e1, e2, e3, e4⟩ := write_correct usz pos width (wrapValue rhs msz uns) msz uns u hw hw64 husz hfit hu hs
  refine ⟨u', wrapValue rhs msz uns, by simp only [assign, e1], e2, ?_, ?_⟩
  · rw [read_correct minreg usz msz uns pos width u' hw (fun _ => hw64) hfit e2 hs.1 hs.2.1, e3]
    congr 1
    apply reduce_mod
    rw [two_pow_cast, Int.emod_emod_of_dvd _ (Int.dvd_refl _)]
    have hc := wrapValue_congr rhs msz uns hs.1
    have hd : ((2 : Int) ^ width) ∣ 2 ^ (8 * msz) := ⟨_, pow_split hs.2.1⟩
    apply Int.emod_eq_emod_iff_emod_sub_eq_zero.2
    exact Int.emod_eq_zero_of_dvd (Int.dvd_trans hd (Int.dvd_of_emod_eq_zero hc))
  · intro p' w' h
    apply bits_congr
    intro i h1 h2
    exact e4 i (by omega)

theorem sum_mod (N pos width : Nat) (h : pos + width ≤ N) (z : Int) :
    (bits ((z % (2 ^ N : Nat)).toNat) pos width : Int) = z / 2 ^ pos % 2 ^ width := by
  have hp : (0 : Int) < (2 ^ N : Nat) := by exact_mod_cast Nat.two_pow_pos N
  have hnn := Int.emod_nonneg z (Int.ne_of_gt hp)
  rw [two_pow_cast] at hnn ⊢
  unfold bits
  push_cast
  rw [Int.toNat_of_nonneg hnn, pow_split (show pos ≤ N by omega), emod_mul_ediv _ _ _ (pow_pos' _) (pow_pos' _),
    pow_split (show width ≤ N - pos by omega), Int.emod_emod_of_dvd _ ⟨_, rfl⟩]

theorem reduce_bits {uns : Bool} {width : Nat} {v : Int} (b : Nat) (h : (b : Int) = v % 2 ^ width) :
    reduce uns width b = reduce uns width v := by
  apply reduce_mod
  rw [h, Int.emod_emod_of_dvd _ (Int.dvd_refl _)]

/-- **C26 (partial).** `++`, `--` in both positions: the value is the new (prefix) or old (postfix) value of the
field, the field then holds the old value plus or minus one reduced to its width, and the other fields of the unit
are unchanged.  Missing: the prefix forms on a field at bit position 31 or above, for which the compiler evaluates
`1 << position` outside the range of `int` (`preinc_high_undefined`). -/
theorem incdec_correct_partial (minreg usz msz : Nat) (uns dec post : Bool) (pos width u : Nat) (hw : 0 < width) (hw64 : width < 64)
    (husz : usz ∈ [1, 2, 4, 8]) (hfit : pos + width ≤ 8 * usz) (hu : u < 2 ^ (8 * usz)) (hs : Safe usz width msz uns)
    (hpos : post = false → pos < 31) :
    ∃ u' v old, incdec minreg usz msz uns dec post pos width u = some (u', v) ∧ u' < 2 ^ (8 * usz) ∧
      read minreg usz msz uns pos width u = some old ∧
      read minreg usz msz uns pos width u' = some (reduce uns width (if dec then old - 1 else old + 1)) ∧
      v = (if post then old else reduce uns width (if dec then old - 1 else old + 1)) ∧
      ∀ pos' width', pos' + width' ≤ pos ∨ pos + width ≤ pos' → bits u' pos' width' = bits u pos' width' := by
  have husz8 : usz ≤ 8 := by
    simp only [List.mem_cons, List.not_mem_nil, or_false] at husz; omega
  have hold := read_correct minreg usz msz uns pos width u hw (fun _ => hw64) hfit hu hs.1 hs.2.1
  have hwd : (0 : Int) < 2 ^ width := pow_pos' width
  have red_id : ∀ (z : Int), reduce uns width (reduce uns width z) = reduce uns width z ∧
      reduce uns width z % 2 ^ width = z % 2 ^ width := by
    intro z
    have : reduce uns width z % 2 ^ width = z % 2 ^ width := by
      unfold reduce toU toS
      cases uns with
      | true => simp only [if_true]; rw [Int.emod_emod_of_dvd _ (Int.dvd_refl _)]
      | false =>
        simp only [Bool.false_eq_true, if_false]
        split
        · rw [Int.emod_emod_of_dvd _ (Int.dvd_refl _)]
        · rw [Int.sub_emod_right, Int.emod_emod_of_dvd _ (Int.dvd_refl _)]
    exact ⟨reduce_mod this, this⟩
  cases post with
  | true =>
    unfold incdec
    simp only [if_true, hold]
    generalize reduce uns width (bits u pos width) = old
    have hs2 : Safe usz width usz uns := ⟨husz, by omega, Or.inr (Or.inr (Nat.le_refl _))⟩
    obtain ⟨u', e1, e2, e3, e4⟩ := write_correct usz pos width (wrapValue (if dec then old - 1 else old + 1) usz uns) usz uns u hw hw64
      husz8 hfit hu hs2
    rw [e1]
    refine ⟨u', old, old, rfl, e2, rfl, ?_, rfl, ?_⟩
    · rw [read_correct minreg usz msz uns pos width u' hw (fun _ => hw64) hfit e2 hs.1 hs.2.1, e3]
      congr 1
      apply reduce_mod
      rw [two_pow_cast, Int.emod_emod_of_dvd _ (Int.dvd_refl _)]
      have hc := wrapValue_congr (if dec = true then old - 1 else old + 1) usz uns husz
      have hd : ((2 : Int) ^ width) ∣ 2 ^ (8 * usz) := ⟨_, pow_split (by omega)⟩
      apply Int.emod_eq_emod_iff_emod_sub_eq_zero.2
      exact Int.emod_eq_zero_of_dvd (Int.dvd_trans hd (Int.dvd_of_emod_eq_zero hc))
    · intro p' w' h
      apply bits_congr
      intro i h1 h2
      exact e4 i (by omega)
  | false =>
    have hp31 := hpos rfl
    unfold incdec
    simp only [Bool.false_eq_true, if_false, one, if_pos hp31, hold]
    generalize hz : (if dec = true then (u : Int) - ((2 ^ pos : Nat) : Int) else (u : Int) + ((2 ^ pos : Nat) : Int)) = z
    have hzb : (z % (2 ^ (8 * usz) : Nat)).toNat < 2 ^ (8 * usz) := by
      have hp : (0 : Int) < (2 ^ (8 * usz) : Nat) := by exact_mod_cast Nat.two_pow_pos _
      have h1 := Int.emod_nonneg z (Int.ne_of_gt hp)
      have h2 := Int.emod_lt_of_pos z hp
      omega
    rw [read_correct minreg usz msz uns pos width _ hw (fun _ => hw64) hfit hzb hs.1 hs.2.1]
    have hb := sum_mod (8 * usz) pos width hfit z
    rw [reduce_bits _ hb]
    have hzd : z / 2 ^ pos = if dec = true then (u : Int) / 2 ^ pos - 1 else (u : Int) / 2 ^ pos + 1 := by
      have hpp := pow_pos' pos
      rw [← hz, two_pow_cast]
      split
      · rw [show (u : Int) - 2 ^ pos = u + 2 ^ pos * (-1) by omega, Int.add_mul_ediv_left _ _ (by omega)]; omega
      · rw [show (u : Int) + 2 ^ pos = u + 2 ^ pos * 1 by omega, Int.add_mul_ediv_left _ _ (by omega)]
    have hbu : (bits u pos width : Int) = (u : Int) / 2 ^ pos % 2 ^ width := by
      unfold bits; push_cast; rfl
    have hval : reduce uns width (z / 2 ^ pos) =
        reduce uns width (if dec then reduce uns width (bits u pos width) - 1 else reduce uns width (bits u pos width) + 1) := by
      rw [hzd]
      apply reduce_mod
      have h1 := (red_id (bits u pos width)).2
      rw [hbu, Int.emod_emod_of_dvd _ (Int.dvd_refl _)] at h1
      rw [hbu]
      generalize reduce uns width ((u : Int) / 2 ^ pos % 2 ^ width) = q at h1
      split
      · rw [Int.sub_emod, ← h1, ← Int.sub_emod]
      · rw [Int.add_emod, ← h1, ← Int.add_emod]
    rw [hval]
    generalize reduce uns width (bits u pos width) = old at *
    obtain ⟨u', e1, e2, e3, e4⟩ := write_correct usz pos width (reduce uns width (if dec then old - 1 else old + 1)) msz uns u hw hw64
      husz8 hfit hu hs
    simp only [e1]
    refine ⟨u', _, old, rfl, e2, rfl, ?_, rfl, ?_⟩
    · rw [read_correct minreg usz msz uns pos width u' hw (fun _ => hw64) hfit e2 hs.1 hs.2.1, e3]
      congr 1
      rw [← (red_id (if dec = true then old - 1 else old + 1)).1]
      apply reduce_mod
      rw [two_pow_cast, Int.emod_emod_of_dvd _ (Int.dvd_refl _), (red_id _).1]
    · intro p' w' h
      apply bits_congr
      intro i h1 h2
      exact e4 i (by omega)

/-! ### Members of a structure in memory -/

theorem load_congr (mem mem' : Nat → Nat) : ∀ (n off : Nat), (∀ a, off ≤ a → a < off + n → mem' a = mem a) →
    load mem' off n = load mem off n := by
  intro n
  induction n with
  | zero => intro off _; rfl
  | succ n ih =>
    intro off h
    simp only [load]
    rw [h off (by omega) (by omega), ih (off + 1) (fun a h1 h2 => h a (by omega) (by omega))]

theorem load_lt (mem : Nat → Nat) : ∀ (n off : Nat), load mem off n < 2 ^ (8 * n) := by
  intro n
  induction n with
  | zero => intro off; simp [load]
  | succ n ih =>
    intro off
    have := ih (off + 1)
    have hm := Nat.mod_lt (mem off) (show 256 > 0 by omega)
    simp only [load]
    rw [show 8 * (n + 1) = 8 * n + 8 by omega, Nat.pow_add]
    omega

theorem load_store (mem : Nat → Nat) (off : Nat) : ∀ (n k v : Nat), v < 256 ^ (k + n) →
    load (store mem off (k + n) v) (off + k) n = v / 256 ^ k := by
  intro n
  induction n with
  | zero => intro k v h; simp only [load]; rw [Nat.add_zero] at h; exact (Nat.div_eq_of_lt h).symm
  | succ n ih =>
    intro k v h
    have := ih (k + 1) v (by rw [show k + 1 + n = k + (n + 1) by omega]; exact h)
    simp only [load]
    rw [show off + k + 1 = off + (k + 1) by omega, show k + (n + 1) = k + 1 + n by omega, this]
    have hs : store mem off (k + 1 + n) v (off + k) = v / 256 ^ k % 256 := by
      unfold store
      rw [if_pos (by omega), show off + k - off = k by omega]
    rw [hs, Nat.mod_mod, Nat.pow_succ, ← Nat.div_div_eq_div_mul]
    omega

/-- The value of a placed member in a structure at address `base`: the bits of a bit-field, or the bytes of any
other member. -/
def valueOf (L base : Nat) (mem : Nat → Nat) (x : Mem × Placed) : Nat :=
  if x.1.active then bits (load mem (base + x.2.offset) (fxSize L x.2.base)) x.2.position x.1.width
  else load mem (base + x.2.offset) x.1.size

/-- fe_misc.c:1109-1127 on memory: load the unit of a bit-field, replace the field, store the unit. -/
def storeField (L base : Nat) (uns : Bool) (mem : Nat → Nat) (x : Mem × Placed) (rhs : Int) : Option (Nat → Nat) :=
  match assign (fxSize L x.2.base) x.1.size uns x.2.position x.1.width rhs (load mem (base + x.2.offset) (fxSize L x.2.base)) with
  | none => none
  | some (u, _) => some (store mem (base + x.2.offset) (fxSize L x.2.base) u)

/-- **C26.** Assigning to a bit-field of a structure, wherever it lies in memory, changes that field to the value
modulo `2 ^ width` and no other member of the structure, bit-field or not. -/
theorem bitfield_isolated {L : Nat} (hL : L = 4 ∨ L = 8) (ms : List Mem) (r : Layout) (hok : ∀ m ∈ ms, m.Ok L)
    (h : calcStruct L false ms = some r) (i j : Nat) (hi : i < (ms.zip r.placed).length) (hj : j < (ms.zip r.placed).length)
    (hij : i ≠ j) (x y : Mem × Placed) (hx : (ms.zip r.placed)[i] = x) (hy : (ms.zip r.placed)[j] = y)
    (hact : x.1.active = true) (hw : 0 < x.1.width) (hw64 : x.1.width < 64) (hyw : y.1.active = true → 0 < y.1.width)
    (uns : Bool) (hsafe : Safe (fxSize L x.2.base) x.1.width x.1.size uns) (base : Nat) (mem : Nat → Nat) (rhs : Int) :
    ∃ mem', storeField L base uns mem x rhs = some mem' ∧
      (valueOf L base mem' x : Int) = rhs % (2 ^ x.1.width : Nat) ∧
      valueOf L base mem' y = valueOf L base mem y := by
  obtain ⟨_, hpw, hin, _, _⟩ := struct_sound hL ms r hok h
  have hxm : x ∈ ms.zip r.placed := hx ▸ List.getElem_mem hi
  have hym : y ∈ ms.zip r.placed := hy ▸ List.getElem_mem hj
  have hxv : ¬ Void x := fun hv => by have := hv.2; omega
  have hyv : ¬ Void y := fun hv => by have := hv.2; have := hyw hv.1; omega
  obtain ⟨_, _, hxb⟩ := (hin x hxm).1.resolve_left hxv
  obtain ⟨hb4, _, hfit⟩ := hxb hact
  have h8 : fxSize L x.2.base ≤ 8 := by
    have := fxAl (k := x.2.base) hL
    unfold Al at this; omega
  have hpos := (fxAl (k := x.2.base) hL).pos
  have hu := load_lt mem (fxSize L x.2.base) (base + x.2.offset)
  obtain ⟨u', v, e1, e2, e3, e4⟩ := assign_read 1 (fxSize L x.2.base) x.1.size uns x.2.position x.1.width rhs
    (load mem (base + x.2.offset) (fxSize L x.2.base)) hw hw64 h8 hfit hu hsafe
  obtain ⟨u2, w1, w2, w3, w4⟩ := write_correct (fxSize L x.2.base) x.2.position x.1.width (wrapValue rhs x.1.size uns) x.1.size uns
    (load mem (base + x.2.offset) (fxSize L x.2.base)) hw hw64 h8 hfit hu hsafe
  have hu2 : u' = u2 := by
    unfold assign at e1
    rw [w1] at e1
    cases e1; rfl
  have hld : load (store mem (base + x.2.offset) (fxSize L x.2.base) u') (base + x.2.offset) (fxSize L x.2.base) = u' := by
    have := load_store mem (base + x.2.offset) (fxSize L x.2.base) 0 u'
      (by rw [Nat.zero_add, show (256 : Nat) = 2 ^ 8 by rfl, ← Nat.pow_mul]; exact e2)
    simpa using this
  refine ⟨store mem (base + x.2.offset) (fxSize L x.2.base) u', by simp only [storeField, e1], ?_, ?_⟩
  · simp only [valueOf, hact, if_true]
    rw [hld, hu2, w3]
    have hc := wrapValue_congr rhs x.1.size uns hsafe.1
    have hd : ((2 : Int) ^ x.1.width) ∣ 2 ^ (8 * x.1.size) := ⟨_, pow_split hsafe.2.1⟩
    rw [two_pow_cast]
    apply Int.emod_eq_emod_iff_emod_sub_eq_zero.2
    exact Int.emod_eq_zero_of_dvd (Int.dvd_trans hd (Int.dvd_of_emod_eq_zero hc))
  · have hor : (stop L x ≤ y.2.offset ∨ stop L y ≤ x.2.offset) ∨
        (y.1.active = true ∧ x.2.offset = y.2.offset ∧ x.2.base = y.2.base ∧
          (x.2.position + x.1.width ≤ y.2.position ∨ y.2.position + y.1.width ≤ x.2.position)) := by
      rcases Nat.lt_or_gt_of_ne hij with hlt | hlt
      · have := List.pairwise_iff_getElem.1 hpw i j hi hj hlt
        rw [hx, hy] at this
        rcases this with a | a | a | ⟨a, b, c, d, e⟩
        · exact absurd a hxv
        · exact absurd a hyv
        · exact Or.inl (Or.inl a)
        · exact Or.inr ⟨b, c, d, Or.inl e⟩
      · have := List.pairwise_iff_getElem.1 hpw j i hj hi hlt
        rw [hx, hy] at this
        rcases this with a | a | a | ⟨a, b, c, d, e⟩
        · exact absurd a hyv
        · exact absurd a hxv
        · exact Or.inl (Or.inr a)
        · exact Or.inr ⟨a, c.symm, d.symm, Or.inr e⟩
    rcases hor with hdis | ⟨hya, ho, hb, hp⟩
    · -- different bytes
      have hsx : stop L x = x.2.offset + fxSize L x.2.base := by simp [stop, hact]
      rw [hsx] at hdis
      have hout : ∀ a, base + y.2.offset ≤ a → a < base + stop L y →
          store mem (base + x.2.offset) (fxSize L x.2.base) u' a = mem a := by
        intro a h1 h2
        unfold store
        rw [if_neg (by omega)]
      unfold valueOf
      cases hya : y.1.active with
      | true =>
        simp only [if_true]
        rw [load_congr mem _ _ _ (fun a h1 h2 => hout a h1 (by simp only [stop, hya, if_true]; omega))]
      | false =>
        simp only [Bool.false_eq_true, if_false]
        exact load_congr mem _ _ _ (fun a h1 h2 => hout a h1 (by simp only [stop, hya, Bool.false_eq_true, if_false]; omega))
    · simp only [valueOf, hya, if_true]
      rw [← ho, ← hb, hld]
      exact e4 _ _ (by omega)

/-! ### Static initialisers -/

/-- One thing emitted by a static initialiser, at an offset from the start of the object. -/
structure Item where
  off : Nat
  size : Nat
  value : Int
deriving DecidableEq, Repr

/-- cc_misc.c:72-93 `calc_bitfield_initial_value`: the value of a unit.  `none` when `1LL << width` is not
representable (width 63 and 64). -/
def unitValue : List ((Mem × Placed) × Int) → Option Nat
  | [] => some 0
  | (x, v) :: xs =>
    match unitValue xs with
    | none => none
    | some y => if x.1.width < 63 then some ((v % (2 ^ x.1.width : Nat)).toNat <<< x.2.position ||| y) else none

/-- cc_misc.c:79: the fields that join the unit of the first one. -/
def joins (x : (Mem × Placed) × Int) : Bool := 0 < x.1.1.width && x.1.2.position ≠ 0

/-- cc_misc.c:71-117 and 210-245 for structures: what is emitted for a structure whose members are initialised
with the given values (0 when there is no initialiser).  Simplification: a member that is not a bit-field is
emitted as one item, its value opaque. -/
def emit (L : Nat) : Nat → Nat → List ((Mem × Placed) × Int) → Option (List Item)
  | _, _, [] => some []
  | 0, _, _ :: _ => none
  | f + 1, off, x :: xs =>
    if x.1.1.active then
      if x.1.1.width = 0 then emit L f off xs
      else
        let o := alignUp off (fxSize L x.1.2.base)
        match unitValue (x :: xs.takeWhile joins), emit L f (o + fxSize L x.1.2.base) (xs.dropWhile joins) with
        | some v, some is => some (⟨o, fxSize L x.1.2.base, v⟩ :: is)
        | _, _ => none
    else
      let o := alignUp off x.1.1.align
      match emit L f (o + x.1.1.size) xs with
      | none => none
      | some is => some (⟨o, x.1.1.size, x.2⟩ :: is)

theorem unitValue_spec : ∀ (xs : List ((Mem × Placed) × Int)) (lo N : Nat),
    (∀ x ∈ xs, x.1.1.width < 63 ∧ lo ≤ x.1.2.position ∧ x.1.2.position + x.1.1.width ≤ N) →
    xs.Pairwise (fun x y => x.1.2.position + x.1.1.width ≤ y.1.2.position) →
    ∃ v, unitValue xs = some v ∧ v < 2 ^ N ∧ (∀ i, i < lo → v.testBit i = false) ∧
      ∀ x ∈ xs, (bits v x.1.2.position x.1.1.width : Int) = x.2 % (2 ^ x.1.1.width : Nat) := by
  intro xs
  induction xs with
  | nil => intro lo N _ _; exact ⟨0, rfl, Nat.two_pow_pos _, (by simp), (by simp)⟩
  | cons x xs ih =>
    intro lo N h hp
    obtain ⟨⟨m, p⟩, val⟩ := x
    obtain ⟨hp1, hp2⟩ := List.pairwise_cons.1 hp
    obtain ⟨h1, h2, h3⟩ := h _ List.mem_cons_self
    simp only at h1 h2 h3 hp1
    obtain ⟨v, e1, e2, e3, e4⟩ := ih (p.position + m.width) N
      (fun y hy => ⟨(h y (List.mem_cons_of_mem _ hy)).1, hp1 y hy, (h y (List.mem_cons_of_mem _ hy)).2.2⟩) hp2
    have hq : (0 : Int) < (2 ^ m.width : Nat) := by exact_mod_cast Nat.two_pow_pos _
    have m1 := Int.emod_nonneg val (Int.ne_of_gt hq)
    have m2 := Int.emod_lt_of_pos val hq
    obtain ⟨c, hc⟩ := Int.eq_ofNat_of_zero_le m1
    rw [hc] at m2
    have hcl : c < 2 ^ m.width := by exact_mod_cast m2
    have hct : ∀ i, m.width ≤ i → c.testBit i = false := fun i hi =>
      Nat.testBit_lt_two_pow (Nat.lt_of_lt_of_le hcl (Nat.pow_le_pow_right (by omega) hi))
    refine ⟨c <<< p.position ||| v, ?_, ?_, ?_, ?_⟩
    · simp only [unitValue, e1, if_pos h1, hc, Int.toNat_natCast]
    · apply Nat.or_lt_two_pow _ e2
      rw [Nat.shiftLeft_eq]
      calc c * 2 ^ p.position < 2 ^ m.width * 2 ^ p.position := Nat.mul_lt_mul_of_pos_right hcl (Nat.two_pow_pos _)
        _ = 2 ^ (m.width + p.position) := by rw [Nat.pow_add]
        _ ≤ 2 ^ N := Nat.pow_le_pow_right (by omega) (by omega)
    · intro i hi
      rw [Nat.testBit_or, Nat.testBit_shiftLeft, e3 i (by omega)]
      simp [show ¬ p.position ≤ i by omega]
    · intro y hy
      rw [List.mem_cons] at hy
      rcases hy with rfl | hy
      · simp only
        rw [hc]
        congr 1
        unfold bits
        apply Nat.eq_of_testBit_eq
        intro i
        rw [Nat.testBit_mod_two_pow, Nat.testBit_div_two_pow, Nat.testBit_or, Nat.testBit_shiftLeft]
        by_cases hi : i < m.width
        · rw [e3 _ (by omega)]
          simp [hi]
        · simp [hi, hct i (by omega)]
      · rw [← e4 y hy]
        congr 1
        apply bits_congr
        intro i i1 i2
        have := hp1 y hy
        rw [Nat.testBit_or, Nat.testBit_shiftLeft, hct (i - p.position) (by omega)]
        simp

theorem run_head {L : Nat} (ms : List Mem) (kind pos p : Nat) (ps : List Nat) (h : (run L kind pos ms).1 = p :: ps) : p = pos := by
  cases ms with
  | nil => simp [run] at h
  | cons m ms =>
    unfold run at h
    split at h
    · cases h
    · split at h
      · cases h
      · split at h
        · cases h
        · cases h; rfl

/-- The first member of a layout does not look like the continuation of a unit. -/
theorem lay_head {L : Nat} (hL : L = 4 ∨ L = 8) {f size ma s a : Nat} {m : Mem} {ms : List Mem} {p : Placed} {ps : List Placed}
    (hm : m.Ok L) (h : lay L f size ma (m :: ms) = some (p :: ps, s, a)) : m.width = 0 ∨ p.position = 0 := by
  cases f with
  | zero => simp [lay] at h
  | succ f =>
    simp only [lay] at h
    by_cases hact : m.active = true
    · rw [if_pos hact] at h
      by_cases hw : m.width = 0
      · exact Or.inl hw
      · rw [if_neg hw] at h
        cases hs : startKind L size m with
        | none => rw [hs] at h; cases h
        | some k =>
          rw [hs] at h
          simp only at h
          obtain ⟨hk4, _⟩ := startKind_spec hL hm hact hs
          obtain ⟨hk6, hsz, hal, hwd⟩ := hm.bits hact
          have h8 : fxSize L m.kind ≤ 8 := by
            have := fxAl (k := m.kind) hL
            unfold Al at this; omega
          have hne := run_ne (ms := ms) hL hk4 (by omega : 0 < m.width) (by omega)
          have hh := run_head (L := L) (m :: ms) k 0
          obtain ⟨pre, e1, e2, _⟩ := run_spec hL (m :: ms) k 0 hk4 (Nat.zero_le _)
          generalize run L k 0 (m :: ms) = r at *
          obtain ⟨pos, kind, rest⟩ := r
          simp only at *
          cases pos with
          | nil =>
            have := congrArg List.length e1
            simp only [List.length_append, List.length_cons, List.length_nil] at this e2
            omega
          | cons q qs =>
            have := hh q qs rfl
            subst this
            split at h
            · cases h
            · rename_i heq
              cases h
              exact Or.inr rfl
    · left
      exact hm.plain (by simpa using hact)

/-- What a static initialiser must contain for a placed member with a given initial value. -/
def Covers (L : Nat) (is : List Item) (x : (Mem × Placed) × Int) : Prop :=
  ∃ it ∈ is, it.off = x.1.2.offset ∧ it.off + it.size = stop L x.1 ∧
    (x.1.1.active = true → ∃ v : Nat, it.value = v ∧ v < 2 ^ (8 * it.size) ∧
      (bits v x.1.2.position x.1.1.width : Int) = x.2 % (2 ^ x.1.1.width : Nat)) ∧
    (x.1.1.active = false → it.value = x.2)

theorem takeWhile_app {α : Type} (p : α → Bool) (a b : List α) (ha : ∀ x ∈ a, p x = true) (hb : ∀ x ∈ b.head?, p x = false) :
    (a ++ b).takeWhile p = a ∧ (a ++ b).dropWhile p = b := by
  induction a with
  | nil =>
    cases b with
    | nil => simp
    | cons y ys => have := hb y (by simp); simp [this]
  | cons x xs ih =>
    have hx := ha x List.mem_cons_self
    obtain ⟨i1, i2⟩ := ih (fun y hy => ha y (List.mem_cons_of_mem _ hy))
    simp [hx, i1, i2]

theorem emit_spec {L : Nat} (hL : L = 4 ∨ L = 8) : ∀ (f f' : Nat) (ms : List Mem) (size ma : Nat) (ps : List Placed) (s a : Nat)
    (vals : List Int), (∀ m ∈ ms, m.Ok L ∧ m.width < 63) → lay L f size ma ms = some (ps, s, a) → vals.length = ms.length →
    ms.length ≤ f' → Al ma →
    ∃ is, emit L f' size ((ms.zip ps).zip vals) = some is ∧
      is.Pairwise (fun x y => x.off + x.size ≤ y.off) ∧ (∀ it ∈ is, size ≤ it.off ∧ it.off + it.size ≤ s) ∧
      ∀ x ∈ (ms.zip ps).zip vals, ¬ Void x.1 → Covers L is x := by
  intro f
  induction f with
  | zero =>
    intro f' ms size ma ps s a vals hok h hv hf hma
    cases ms with
    | nil => exact ⟨[], by simp [emit], by simp, by simp, by simp⟩
    | cons m ms => simp [lay] at h
  | succ f ih =>
    intro f' ms size ma ps s a vals hok h hv hf hma
    cases ms with
    | nil => exact ⟨[], by simp [emit], by simp, by simp, by simp⟩
    | cons m ms =>
      obtain ⟨hm, hm63⟩ := hok m List.mem_cons_self
      have hspec := lay_spec hL _ _ _ _ _ _ _ (fun x hx => (hok x hx).1) hma h
      cases f' with
      | zero => simp at hf
      | succ f' =>
        rw [List.length_cons] at hf hv
        cases vals with
        | nil => simp at hv
        | cons v0 vals =>
          rw [List.length_cons] at hv
          simp only [lay] at h
          by_cases hact : m.active = true
          · rw [if_pos hact] at h
            by_cases hw : m.width = 0
            · rw [if_pos hw] at h
              cases hl : lay L f size ma ms with
              | none => rw [hl] at h; cases h
              | some t =>
                obtain ⟨qs, s1, a1⟩ := t
                rw [hl] at h
                cases h
                obtain ⟨is, i1, i2, i3, i4⟩ := ih f' ms size ma qs s a vals (fun x hx => hok x (List.mem_cons_of_mem _ hx)) hl
                  (by omega) (by omega) hma
                refine ⟨is, ?_, i2, i3, ?_⟩
                · simp only [List.zip_cons_cons, emit, hact, hw, if_true]
                  exact i1
                · intro x hx hnv
                  rw [List.zip_cons_cons, List.zip_cons_cons, List.mem_cons] at hx
                  rcases hx with rfl | hx
                  · exact absurd ⟨hact, hw⟩ hnv
                  · exact i4 x hx hnv
            · rw [if_neg hw] at h
              cases hs : startKind L size m with
              | none => rw [hs] at h; cases h
              | some k =>
                rw [hs] at h
                simp only at h
                obtain ⟨hk4, hkd⟩ := startKind_spec hL hm hact hs
                obtain ⟨pre, e1, e2, e3, e4, e5, e6, e7⟩ := run_spec hL (m :: ms) k 0 hk4 (Nat.zero_le _)
                have hne := run_ne (ms := ms) hL hk4 (by omega : 0 < m.width) (by omega)
                have hh := run_head (L := L) (m :: ms) k 0
                generalize run L k 0 (m :: ms) = r at *
                obtain ⟨pos, kind, rest⟩ := r
                simp only at *
                have hal : Al (fxSize L kind) := fxAl hL
                generalize hoff : alignUp size (fxSize L kind) = off at *
                have hle : size ≤ off := hoff ▸ le_alignUp size (fxSize L kind) hal.pos
                cases hl : lay L f (off + fxSize L kind) (max ma (fxSize L kind)) rest with
                | none => rw [hl] at h; cases h
                | some t =>
                  obtain ⟨qs, s1, a1⟩ := t
                  rw [hl] at h
                  cases h
                  -- split everything at the end of the run
                  cases pos with
                  | nil =>
                    have := congrArg List.length e1
                    simp only [List.length_append, List.length_cons, List.length_nil] at this e2
                    omega
                  | cons q pos =>
                  have hq := hh q pos rfl
                  subst hq
                  cases pre with
                  | nil => simp at e2
                  | cons m' pre =>
                  simp only [List.cons_append, List.cons.injEq] at e1
                  obtain ⟨rfl, e1⟩ := e1
                  simp only [List.length_cons, Nat.add_right_cancel_iff] at e2
                  have hlen := congrArg List.length e1
                  rw [List.length_append] at hlen
                  obtain ⟨v1, v2, hvs, hv1⟩ : ∃ v1 v2, vals = v1 ++ v2 ∧ v1.length = pre.length :=
                    ⟨vals.take pre.length, vals.drop pre.length, (List.take_append_drop _ _).symm, by
                      rw [List.length_take]; omega⟩
                  subst hvs
                  rw [List.length_append] at hv
                  have hokr : ∀ x ∈ rest, x.Ok L ∧ x.width < 63 := fun x hx =>
                    hok x (by rw [e1]; exact List.mem_cons_of_mem _ (List.mem_append_right _ hx))
                  obtain ⟨is, i1, i2, i3, i4⟩ := ih f' rest _ _ qs s a v2 hokr hl (by omega) (by omega) (hma.max hal)
                  have hqs : qs.length = rest.length :=
                    (lay_spec hL _ _ _ _ _ _ _ (fun x hx => (hokr x hx).1) (hma.max hal) hl).1
                  rw [List.zip_cons_cons] at e5 e6
                  obtain ⟨e6h, e6t⟩ := List.pairwise_cons.1 e6
                  have hzip : ((m :: ms).zip ((0 :: pos).map (fun p => (⟨off, p, kind⟩ : Placed)) ++ qs)).zip (v0 :: (v1 ++ v2)) =
                      ((m, (⟨off, 0, kind⟩ : Placed)), v0) ::
                        (((pre.zip pos).map (fun x => (x.1, (⟨off, x.2, kind⟩ : Placed)))).zip v1 ++ (rest.zip qs).zip v2) := by
                    rw [List.map_cons, List.cons_append, List.zip_cons_cons, List.zip_cons_cons, e1,
                      List.zip_append (by simp [e2]), List.zip_map_right, List.zip_append (by simp [← e2, hv1])]
                    rfl
                  rw [hzip]
                  have hpre : ∀ x ∈ ((pre.zip pos).map (fun x => (x.1, (⟨off, x.2, kind⟩ : Placed)))).zip v1,
                      x.1.1 ∈ pre ∧ x.1.2.offset = off ∧ x.1.2.base = kind ∧ 0 < x.1.1.width ∧ m.width ≤ x.1.2.position ∧
                        x.1.2.position + x.1.1.width ≤ 8 * fxSize L kind := by
                    intro x hx
                    have := (List.of_mem_zip hx).1
                    rw [List.mem_map] at this
                    obtain ⟨y, hy, hyx⟩ := this
                    have h1 := e5 y (List.mem_cons_of_mem _ hy)
                    have h2 := e6h y hy
                    have h3 := (List.of_mem_zip hy).1
                    rw [← hyx]
                    refine ⟨h3, rfl, rfl, h1.1, ?_, h1.2.2⟩
                    simp only at h2 ⊢
                    omega
                  have hj : ∀ x ∈ ((pre.zip pos).map (fun x => (x.1, (⟨off, x.2, kind⟩ : Placed)))).zip v1, joins x = true := by
                    intro x hx
                    obtain ⟨_, _, _, h4, h5, _⟩ := hpre x hx
                    simp only [joins, Bool.and_eq_true, decide_eq_true_eq, ne_eq, decide_not, Bool.not_eq_true',
                      decide_eq_false_iff_not]
                    omega
                  have hnj : ∀ x ∈ ((rest.zip qs).zip v2).head?, joins x = false := by
                    intro x hx
                    cases rest with
                    | nil => simp at hx
                    | cons m2 rest =>
                      cases qs with
                      | nil => simp at hx
                      | cons q2 qs =>
                        cases v2 with
                        | nil => simp at hx
                        | cons w2 v2 =>
                          simp only [List.zip_cons_cons, List.head?_cons, Option.mem_some_iff] at hx
                          rw [← hx]
                          have := lay_head hL (hokr m2 List.mem_cons_self).1 hl
                          unfold joins
                          simp only
                          rcases this with h | h <;> simp [h]
                  obtain ⟨ht, hd⟩ := takeWhile_app joins _ _ hj hnj
                  generalize hgr : ((pre.zip pos).map (fun x => (x.1, (⟨off, x.2, kind⟩ : Placed)))).zip v1 = grp at *
                  have hgp : (((m, (⟨off, 0, kind⟩ : Placed)), v0) :: grp).Pairwise (fun x y => x.1.2.position + x.1.1.width ≤ y.1.2.position) := by
                    rw [List.pairwise_cons]
                    constructor
                    · intro y hy
                      have := (hpre y hy).2.2.2.2.1
                      simp only
                      omega
                    · have hmp : (grp.map (fun x => (x.1.1, x.1.2.position))).Pairwise (fun x y => x.2 + x.1.width ≤ y.2) := by
                        have : grp.map (fun x => (x.1.1, x.1.2.position)) = pre.zip pos := by
                          have hz : grp.map Prod.fst = (pre.zip pos).map (fun x => (x.1, (⟨off, x.2, kind⟩ : Placed))) := by
                            rw [← hgr]
                            exact List.map_fst_zip (by simp [← e2, hv1])
                          rw [show (fun x : (Mem × Placed) × Int => (x.1.1, x.1.2.position)) =
                            (fun y : Mem × Placed => (y.1, y.2.position)) ∘ Prod.fst from rfl, ← List.map_map, hz, List.map_map]
                          conv => rhs; rw [← List.map_id (pre.zip pos)]
                          rfl
                        rw [this]; exact e6t
                      rw [List.pairwise_map] at hmp
                      exact hmp
                  have hgb : ∀ x ∈ ((m, (⟨off, 0, kind⟩ : Placed)), v0) :: grp,
                      x.1.1.width < 63 ∧ 0 ≤ x.1.2.position ∧ x.1.2.position + x.1.1.width ≤ 8 * fxSize L kind := by
                    intro x hx
                    rw [List.mem_cons] at hx
                    rcases hx with rfl | hx
                    · have := (e5 _ List.mem_cons_self).2.2
                      exact ⟨hm63, Nat.zero_le _, this⟩
                    · obtain ⟨h1, _, _, _, _, h6⟩ := hpre x hx
                      exact ⟨(hok x.1.1 (by rw [e1]; exact List.mem_cons_of_mem _ (List.mem_append_left _ h1))).2, Nat.zero_le _, h6⟩
                  obtain ⟨uv, u1, u2, _, u4⟩ := unitValue_spec _ 0 (8 * fxSize L kind) hgb hgp
                  have hactg : ∀ x ∈ grp, x.1.1.active = true := by
                    intro x hx
                    obtain ⟨h1, _, _, h4, _⟩ := hpre x hx
                    have := (hok x.1.1 (by rw [e1]; exact List.mem_cons_of_mem _ (List.mem_append_left _ h1))).1.plain
                    cases hb : x.1.1.active with
                    | true => rfl
                    | false => have := this hb; omega
                  refine ⟨⟨off, fxSize L kind, uv⟩ :: is, ?_, ?_, ?_, ?_⟩
                  · simp only [emit, hact, if_true, if_neg hw, ht, hd, hoff, u1, i1]
                  · rw [List.pairwise_cons]
                    exact ⟨fun y hy => (i3 y hy).1, i2⟩
                  · intro it hit
                    rw [List.mem_cons] at hit
                    rcases hit with rfl | hit
                    · have : off + fxSize L kind ≤ s :=
                        (lay_spec hL _ _ _ _ _ _ _ (fun x hx => (hokr x hx).1) (hma.max hal) hl).2.1
                      exact ⟨hle, this⟩
                    · have := i3 it hit
                      exact ⟨by omega, this.2⟩
                  · intro x hx hnv
                    rw [← List.cons_append, List.mem_append] at hx
                    rcases hx with hx | hx
                    · have hx2 : x.1.1.active = true ∧ x.1.2.offset = off ∧ x.1.2.base = kind := by
                        rw [List.mem_cons] at hx
                        rcases hx with rfl | hx
                        · exact ⟨hact, rfl, rfl⟩
                        · exact ⟨hactg x hx, (hpre x hx).2.1, (hpre x hx).2.2.1⟩
                      refine ⟨⟨off, fxSize L kind, uv⟩, List.mem_cons_self, hx2.2.1.symm, ?_, ?_, ?_⟩
                      · simp only [stop, hx2.1, if_true, hx2.2.1, hx2.2.2]
                      · intro _
                        exact ⟨uv, rfl, u2, u4 x hx⟩
                      · intro hf
                        rw [hx2.1] at hf; cases hf
                    · obtain ⟨it, hit, h1⟩ := i4 x hx hnv
                      exact ⟨it, List.mem_cons_of_mem _ hit, h1⟩
          · have hact' : m.active = false := by simpa using hact
            rw [if_neg hact] at h
            have hle := le_alignUp size m.align hm.al.pos
            cases hl : lay L f (alignUp size m.align + m.size) (max ma m.align) ms with
            | none => rw [hl] at h; cases h
            | some t =>
              obtain ⟨qs, s1, a1⟩ := t
              rw [hl] at h
              cases h
              obtain ⟨is, i1, i2, i3, i4⟩ := ih f' ms _ _ qs s a vals (fun x hx => hok x (List.mem_cons_of_mem _ hx)) hl
                (by omega) (by omega) (hma.max hm.al)
              have hs' := (lay_spec hL _ _ _ _ _ _ _ (fun x hx => (hok x (List.mem_cons_of_mem _ hx)).1) (hma.max hm.al) hl).2.1
              refine ⟨⟨alignUp size m.align, m.size, v0⟩ :: is, ?_, ?_, ?_, ?_⟩
              · simp only [List.zip_cons_cons, emit, hact', Bool.false_eq_true, if_false, i1]
              · rw [List.pairwise_cons]
                exact ⟨fun y hy => (i3 y hy).1, i2⟩
              · intro it hit
                rw [List.mem_cons] at hit
                rcases hit with rfl | hit
                · exact ⟨hle, hs'⟩
                · have := i3 it hit
                  exact ⟨by omega, this.2⟩
              · intro x hx hnv
                rw [List.zip_cons_cons, List.zip_cons_cons, List.mem_cons] at hx
                rcases hx with rfl | hx
                · refine ⟨_, List.mem_cons_self, rfl, ?_, ?_, fun _ => rfl⟩
                  · simp [stop, hact']
                  · intro hf; exact absurd hf hact
                · obtain ⟨it, hit, h1⟩ := i4 x hx hnv
                  exact ⟨it, List.mem_cons_of_mem _ hit, h1⟩

/-- **C26.** The static initialiser of a structure with bit-fields puts every initial value where the layout says
the member is: units and plain members are emitted in order, without overlap, inside the structure, at the offsets
of their members, and each bit-field's bits hold its initial value modulo `2 ^ width`. -/
theorem static_init_correct {L : Nat} (hL : L = 4 ∨ L = 8) (ms : List Mem) (r : Layout) (vals : List Int)
    (hok : ∀ m ∈ ms, m.Ok L ∧ m.width < 63) (h : calcStruct L false ms = some r) (hv : vals.length = ms.length) :
    ∃ is, emit L ms.length 0 ((ms.zip r.placed).zip vals) = some is ∧
      is.Pairwise (fun x y => x.off + x.size ≤ y.off) ∧ (∀ it ∈ is, it.off + it.size ≤ r.size) ∧
      ∀ x ∈ (ms.zip r.placed).zip vals, ¬ Void x.1 → Covers L is x := by
  unfold calcStruct at h
  simp only [Bool.false_eq_true, if_false] at h
  cases hl : lay L ms.length 0 1 ms with
  | none => rw [hl] at h; cases h
  | some t =>
    obtain ⟨ps, s, a⟩ := t
    rw [hl] at h
    cases h
    obtain ⟨is, i1, i2, i3, i4⟩ := emit_spec hL ms.length ms.length ms 0 1 ps s a vals hok hl hv (Nat.le_refl _) (Or.inl rfl)
    have hal := (lay_spec hL _ _ _ _ _ _ _ (fun x hx => (hok x hx).1) (Or.inl rfl) hl).2.2.2.1
    have hle := le_alignUp s a hal.pos
    refine ⟨is, i1, i2, ?_, i4⟩
    intro it hit
    have := (i3 it hit).2
    simp only
    omega

/-! ### Findings -/

/-- `struct { long a:8; int b:32; long c:20; }`: all three share one 8-byte unit. -/
def wide : List Mem := [⟨8, 8, 3, true, 8⟩, ⟨4, 4, 2, true, 32⟩, ⟨8, 8, 3, true, 20⟩]

/-- **C26, finding.** A signed bit-field as wide as its type, in a wider unit: storing a negative value sign-extends
it over the fields behind it.  After `s.b = -1` on a zeroed `struct { long a:8; int b:32; long c:20; } s`, `s.c`
reads as -1. -/
theorem full_width_clobbers :
    (∃ r, calcStruct 8 false wide = some r ∧ r.placed = [⟨0, 0, 3⟩, ⟨0, 8, 3⟩, ⟨0, 40, 3⟩]) ∧
    ¬ Safe 8 32 4 false ∧
    ∃ u v, assign 8 4 false 8 32 (-1) 0 = some (u, v) ∧ read 1 8 8 false 40 20 0 = some 0 ∧ read 1 8 8 false 40 20 u = some (-1) := by
  refine ⟨⟨_, rfl, by decide⟩, by simp [Safe], 0xffffffffffffff00, -1, by decide, by decide, by decide⟩

/-- **C26, finding.** The value of an assignment to a bit-field is the right-hand side, not the value the field
ends up with: with `unsigned f:3`, `(s.f = 9)` is 9 although `s.f` is 1. -/
theorem assign_value_unreduced :
    ∃ u v, assign 4 4 true 0 3 9 0 = some (u, v) ∧ read 1 4 4 true 0 3 u = some 1 ∧ v = 9 := by
  refine ⟨1, 9, by decide, by decide, rfl⟩

/-- **C26, finding.** For a bit-field of 64 bits the compiler's mask is an undefined shift, so storing to it, or
reading it when unsigned, has no defined meaning. -/
theorem width64_undefined (minreg usz msz : Nat) (pos u vs : Nat) (v : Int) (vuns : Bool) :
    write usz pos 64 v vs vuns u = none ∧ read minreg usz msz true pos 64 u = none := by
  simp [write, read, mask]

/-- **C26, finding.** `++f` and `--f` on a field at bit 31 or above evaluate `1 << position` out of the range of
`int`. -/
theorem preinc_high_undefined (minreg usz msz : Nat) (uns dec : Bool) (pos width u : Nat) (h : 31 ≤ pos) :
    incdec minreg usz msz uns dec false pos width u = none := by
  simp [incdec, one, show ¬ pos < 31 by omega]

/-! ### The theorems are not vacuous -/

example : Safe 4 5 4 false ∧ Safe 1 3 4 true ∧ Safe 4 32 4 false := by simp [Safe]
example : read 1 4 4 false 3 5 0xff = some (-1) := by decide
example : read 4 1 4 true 3 5 0xff = some 31 := by decide
example : write 4 3 5 100 4 false 0xffffffff = some 0xffffff27 := by decide
example : incdec 4 4 4 true false false 3 5 0xffffffff = some (0xffffff07, 0) := by decide
example : incdec 4 4 4 false true true 3 5 0 = some (0xf8, 0) := by decide
example : ∃ r, calcStruct 8 false [⟨1, 1, 0, false, 0⟩, ⟨4, 4, 2, true, 5⟩, ⟨4, 4, 2, true, 9⟩, ⟨2, 2, 0, false, 0⟩] = some r ∧
    r.placed = [⟨0, 0, 0⟩, ⟨2, 0, 1⟩, ⟨2, 5, 1⟩, ⟨4, 0, 0⟩] ∧
    emit 8 4 0 (([⟨1, 1, 0, false, 0⟩, ⟨4, 4, 2, true, 5⟩, ⟨4, 4, 2, true, 9⟩, ⟨2, 2, 0, false, 0⟩].zip r.placed).zip [7, 3, -1, 9]) =
      some [⟨0, 1, 7⟩, ⟨2, 2, 0x3fe3⟩, ⟨4, 2, 9⟩] := by
  refine ⟨_, rfl, by decide, by decide⟩
/-- A structure and two of its members to which `bitfield_isolated` applies. -/
example : ∃ r, calcStruct 8 false [⟨4, 4, 2, true, 5⟩, ⟨4, 4, 2, true, 9⟩] = some r ∧
    ([(⟨4, 4, 2, true, 5⟩ : Mem), ⟨4, 4, 2, true, 9⟩].zip r.placed)[0]? = some (⟨4, 4, 2, true, 5⟩, ⟨0, 0, 2⟩) ∧
    ([(⟨4, 4, 2, true, 5⟩ : Mem), ⟨4, 4, 2, true, 9⟩].zip r.placed)[1]? = some (⟨4, 4, 2, true, 9⟩, ⟨0, 5, 2⟩) ∧
    Safe (fxSize 8 2) 5 4 false := by
  refine ⟨_, rfl, by decide, by decide, by simp [Safe]⟩

end Verif.Bitfield

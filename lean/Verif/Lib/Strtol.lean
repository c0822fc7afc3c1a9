import Verif.Util.Wrap
import Verif.Lib.Mem
/-!
# strtol family (libsrc/stdlib/_strtoull_sub.c, _parse_sign.c, strtol.c, strtoll.c,
strtoul.c, strtoull.c, atoi.c)

The argument is the list of bytes of a NUL-terminated string (without the NUL; reading
at its end yields NUL).  A result is the returned value together with the number of
characters consumed (`*pp - p`).  `errno` is not set by the code and not modelled.
-/
namespace Verif.Strtol
open Verif.Util Verif.Mem

/-! ## Model -/

/-- libsrc/misc/isspace.c:3-6, on the value of a `char`. -/
def isspace (c : Int) : Bool := c = 32 ∨ c = 9 ∨ c = 10 ∨ c = 13 ∨ c = 12 ∨ c = 11

/-- libsrc/misc/tolower.c:3-5. -/
def tolower (c : Int) : Int := if 65 ≤ c ∧ c ≤ 90 then c + 32 else c

/-- The digit test of `_strtoull_sub` (libsrc/stdlib/_strtoull_sub.c:4-5, 9-19):
`digimax`, `hexmax` as `char`s. -/
def subDigit (base : Int) (b : Nat) : Option Nat :=
  let digimax := 48 + (if base ≤ 10 then base else 10)
  let hexmax := 97 - 10 + base
  let c := schar b
  if 48 ≤ c ∧ c < digimax then some (c - 48).toNat
  else
    let c := tolower c
    if 97 ≤ c ∧ c < hexmax then some (c - 97 + 10).toNat else none

/-- The loop of `_strtoull_sub` (libsrc/stdlib/_strtoull_sub.c:8-28): `unsigned long
long` arithmetic is modulo 2^64.  Result: value and characters consumed. -/
def subLoop (base max premax : Nat) : List Nat → Nat → Nat × Nat
  | [], result => (result, 0)
  | c :: cs, result =>
    match subDigit base c with
    | none => (result, 0)
    | some n =>
      let result' :=
        if result > premax then max
        else
          let r := result * base % 2 ^ 64
          let d := (max + 2 ^ 64 - r) % 2 ^ 64
          if n < d then (r + n) % 2 ^ 64 else max
      let (v, k) := subLoop base max premax cs result'
      (v, k + 1)

/-- libsrc/stdlib/_strtoull_sub.c:3-34 `_strtoull_sub`.  `max / base` with base 0 is
undefined behaviour (a trap): `none`.  Negative bases (also invalid in C) are not
modelled. -/
def strtoullSub (s : List Nat) (base max : Nat) : Option (Nat × Nat) :=
  if base = 0 then none else some (subLoop base max (max / base) s 0)

/-- `for (; isspace(*p); ++p)`: number of blanks skipped. -/
def skipSpace : List Nat → Nat
  | [] => 0
  | c :: cs => if isspace (schar c) then skipSpace cs + 1 else 0

/-- libsrc/stdlib/_parse_sign.c:3-9: negative?, characters consumed. -/
def parseSign : List Nat → Bool × Nat
  | 43 :: _ => (false, 1)
  | 45 :: _ => (true, 1)
  | _ => (false, 0)

/-- libsrc/stdlib/strtol.c:9-26 and strtoll.c:9-26 (`long` and `long long` are both 64
bits wide).  In strtol.c the negation `-(long)x` of `LONG_MIN` wraps on the
targets xcc generates code for; strtoll.c negates as unsigned. -/
def strtol (s : List Nat) (base : Nat) : Option (Int × Nat) := do
  let sp := skipSpace s
  let (neg, sg) := parseSign (s.drop sp)
  let p := sp + sg
  let (v, k) ← strtoullSub (s.drop p) base (if neg then 2 ^ 63 else 2 ^ 63 - 1)
  let result := if neg then toS 64 (-(v : Int)) else toS 64 v
  some (result, if k = 0 then 0 else p + k)

/-- libsrc/stdlib/strtoul.c:5-14. -/
def strtoul (s : List Nat) (base : Nat) : Option (Nat × Nat) := do
  let p := if s.head? = some 43 then 1 else 0
  let (v, k) ← strtoullSub (s.drop p) base (2 ^ 64 - 1)
  some (v, if k = 0 then 0 else p + k)

/-- libsrc/stdlib/strtoull.c:6-19. -/
def strtoull (s : List Nat) (base : Nat) : Option (Nat × Nat) := do
  let sp := skipSpace s
  let p := sp + if (s.drop sp).head? = some 43 then 1 else 0
  let (v, k) ← strtoullSub (s.drop p) base (2 ^ 64 - 1)
  some (v, if k = 0 then 0 else p + k)

/-- The digit loop of `atoi` (libsrc/stdlib/atoi.c:20-22); `int` overflow is undefined
behaviour: `none`. -/
def atoiLoop : List Nat → Int → Option Int
  | [], n => some n
  | c :: cs, n =>
    if 48 ≤ schar c ∧ schar c ≤ 57 then
      let n' := n * 10 + (schar c - 48)
      if n' < 2 ^ 31 then atoiLoop cs n' else none
    else some n

/-- libsrc/stdlib/atoi.c:5-24 `atoi`. -/
def atoi (s : List Nat) : Option Int := do
  let s := s.drop (skipSpace s)
  let (negative, sg) := parseSign s
  let n ← atoiLoop (s.drop sg) 0
  some (if negative then -n else n)

/-! ## Specification (C 7.22.1.4) -/

/-- Value of an alphanumeric character as a digit: 0-9, then letters of either case. -/
def digitVal (c : Nat) : Option Nat :=
  if 48 ≤ c ∧ c ≤ 57 then some (c - 48)
  else if 65 ≤ c ∧ c ≤ 90 then some (c - 65 + 10)
  else if 97 ≤ c ∧ c ≤ 122 then some (c - 97 + 10)
  else none

/-- The digit as a digit of the given base. -/
def digitIn (base c : Nat) : Option Nat := (digitVal c).bind fun d => if d < base then some d else none

/-- The longest prefix of digits, as digit values. -/
def digits (base : Nat) : List Nat → List Nat
  | [] => []
  | c :: cs => match digitIn base c with
    | some d => d :: digits base cs
    | none => []

/-- The number the digits denote. -/
def value (base : Nat) (ds : List Nat) : Nat := ds.foldl (fun v d => v * base + d) 0

/-- Blank characters of the C locale. -/
def isBlank (c : Nat) : Bool := c = 32 ∨ (9 ≤ c ∧ c ≤ 13)

/-- Saturation at the limits of the type. -/
def clamp (lo hi v : Int) : Int := if v < lo then lo else if v > hi then hi else v

/-- Is the text negated, and how long is its sign? -/
def signOf (t : List Nat) : Bool × Nat :=
  (t.head? = some 45, if t.head? = some 45 ∨ t.head? = some 43 then 1 else 0)

/-- The subject sequence without base prefix: blanks, optional sign, digits.
Result: value clamped, and characters consumed (0 if there is no digit). -/
def specSigned (s : List Nat) (base : Nat) : Int × Nat :=
  let b := (s.takeWhile isBlank).length
  let t := s.drop b
  let neg := (signOf t).1
  let sg := (signOf t).2
  let ds := digits base (s.drop (b + sg))
  let v : Int := value base ds
  (clamp (-2 ^ 63) (2 ^ 63 - 1) (if neg then -v else v), if ds = [] then 0 else b + sg + ds.length)

/-! ## Lemmas -/

/-- Exhaustive over all bases and characters. -/
theorem subDigit_table : ∀ base < 37, 2 ≤ base → ∀ c < 256, subDigit (base : Nat) c = digitIn base c := by
  decide +kernel

theorem subDigit_eq (base : Nat) (hb : 2 ≤ base ∧ base ≤ 36) (c : Nat) (hc : c < 256) :
    subDigit base c = digitIn base c := subDigit_table base (by omega) hb.1 c hc

theorem digitIn_lt {base c d : Nat} (h : digitIn base c = some d) : d < base := by
  unfold digitIn at h
  cases hd : digitVal c with
  | none => simp [hd] at h
  | some x => simp [hd] at h; omega

theorem step_sat (base max v n : Nat) (hb : 2 ≤ base) (hb' : base ≤ 36) (hmax : 0 < max) (hmax' : max < 2 ^ 64)
    (hn : n < base) :
    (if min v max > max / base then max
      else
        let r := min v max * base % 2 ^ 64
        let d := (max + 2 ^ 64 - r) % 2 ^ 64
        if n < d then (r + n) % 2 ^ 64 else max) = min (v * base + n) max := by
  have hdm := Nat.div_add_mod max base
  have hmod := Nat.mod_lt max (show 0 < base by omega)
  by_cases h1 : min v max > max / base
  · rw [if_pos h1]
    have : (max / base + 1) * base ≤ v * base := Nat.mul_le_mul_right _ (by omega)
    have e : (max / base + 1) * base = base * (max / base) + base := by
      rw [Nat.add_mul, Nat.mul_comm, Nat.one_mul]
    omega
  · rw [if_neg h1]
    have hlt : max / base < max := Nat.div_lt_self hmax (by omega)
    have hv : min v max = v := by omega
    rw [hv] at h1 ⊢
    have hr : v * base ≤ max := by
      have : v * base ≤ max / base * base := Nat.mul_le_mul_right _ (by omega)
      have := Nat.div_mul_le_self max base
      omega
    simp only
    rw [Nat.mod_eq_of_lt (show v * base < 2 ^ 64 by omega)]
    have hd : (max + 2 ^ 64 - v * base) % 2 ^ 64 = max - v * base := by
      rw [show max + 2 ^ 64 - v * base = (max - v * base) + 2 ^ 64 by omega, Nat.add_mod_right,
        Nat.mod_eq_of_lt (by omega)]
    rw [hd]
    split
    · rw [Nat.mod_eq_of_lt (by omega)]; omega
    · omega

theorem subLoop_spec (base max : Nat) (hb : 2 ≤ base ∧ base ≤ 36) (hmax : 0 < max) (hmax' : max < 2 ^ 64)
    (s : List Nat) (hs : ∀ c ∈ s, c < 256) (v : Nat) :
    subLoop base max (max / base) s (min v max) =
      (min ((digits base s).foldl (fun v d => v * base + d) v) max, (digits base s).length) := by
  induction s generalizing v with
  | nil => simp [subLoop, digits]
  | cons c cs ih =>
    simp only [subLoop, digits]
    rw [subDigit_eq base hb c (hs c (by simp))]
    cases hd : digitIn base c with
    | none => simp
    | some n =>
      simp only
      rw [step_sat base max v n hb.1 hb.2 hmax hmax' (digitIn_lt hd)]
      rw [ih (fun x hx => hs x (by simp [hx]))]
      simp

theorem strtoullSub_spec (s : List Nat) (base max : Nat) (hb : 2 ≤ base ∧ base ≤ 36) (hmax : 0 < max)
    (hmax' : max < 2 ^ 64) (hs : ∀ c ∈ s, c < 256) :
    strtoullSub s base max = some (min (value base (digits base s)) max, (digits base s).length) := by
  have := subLoop_spec base max hb hmax hmax' s hs 0
  rw [Nat.zero_min] at this
  unfold strtoullSub
  rw [if_neg (by omega), this]; rfl

theorem isspace_eq : ∀ c < 256, isspace (schar c) = isBlank c := by decide +kernel

/-- The two readings of a sign agree. -/
theorem parseSign_eq (t : List Nat) : parseSign t = signOf t := by
  unfold parseSign signOf
  split
  · simp
  · simp
  · rename_i h43 h45
    cases t with
    | nil => simp
    | cons c cs =>
      have h1 : c ≠ 43 := by rintro rfl; exact h43 _ rfl
      have h2 : c ≠ 45 := by rintro rfl; exact h45 _ rfl
      simp [h1, h2]

theorem skipSpace_eq (s : List Nat) (hs : ∀ c ∈ s, c < 256) : skipSpace s = (s.takeWhile isBlank).length := by
  induction s with
  | nil => rfl
  | cons c cs ih =>
    simp only [skipSpace, isspace_eq c (hs c (by simp))]
    by_cases h : isBlank c
    · rw [if_pos h, List.takeWhile_cons_of_pos h, ih (fun x hx => hs x (by simp [hx]))]; rfl
    · rw [if_neg h, List.takeWhile_cons_of_neg h]; rfl

/-! ## Theorems -/

/-- **C06.** The digit converter never wraps: for every text, base 2..36 and limit it
returns the exact value saturated at the limit, and stops exactly at the end of the
longest run of digits. -/
theorem strtoullSub_correct (s : List Nat) (hs : ∀ c ∈ s, c < 256) (base max : Nat)
    (hb : 2 ≤ base ∧ base ≤ 36) (hmax : 0 < max) (hmax' : max < 2 ^ 64) :
    strtoullSub s base max = some (min (value base (digits base s)) max, (digits base s).length) :=
  strtoullSub_spec s base max hb hmax hmax' hs

/-- **C06.** `strtol`/`strtoll` for every text and every base from 2 to 36: blanks,
sign and digits are handled as C says, out-of-range values saturate at
`LONG_MIN`/`LONG_MAX`, and the end pointer is after the digits (or at the start when
there are none).  Missing: the optional `0x` prefix for base 16 and base 0
(`strtol_hex_prefix_wrong`, `strtol_base0_traps`). -/
theorem strtol_partial (s : List Nat) (hs : ∀ c ∈ s, c < 256) (base : Nat) (hb : 2 ≤ base ∧ base ≤ 36) :
    strtol s base = some (specSigned s base) := by
  unfold strtol specSigned
  simp only [skipSpace_eq s hs, parseSign_eq, Option.bind_eq_bind]
  generalize (s.takeWhile isBlank).length = b
  generalize (signOf (s.drop b)).1 = neg
  generalize (signOf (s.drop b)).2 = sg
  rw [strtoullSub_spec _ base _ hb (by split <;> simp) (by split <;> simp)
    (fun c hc => hs c (List.mem_of_mem_drop hc))]
  simp only [Option.bind_some, Option.some.injEq, Prod.mk.injEq]
  generalize digits base (s.drop (b + sg)) = ds
  refine ⟨?_, by cases ds <;> simp⟩
  generalize value base ds = v
  cases neg with
  | true =>
    simp only [if_true, clamp]
    rw [toS]
    split
    · split <;> simp <;> omega
    · split <;> simp <;> omega
  | false =>
    simp only [Bool.false_eq_true, if_false, clamp]
    rw [toS]
    split
    · split <;> simp <;> omega
    · split <;> simp <;> omega

/-- **C06.** `strtoull` on an optional blank prefix, optional `+` and digits saturates at
`ULLONG_MAX`.  Missing: a `-` sign (C negates modulo 2^64), `0x`, base 0. -/
theorem strtoull_partial (s : List Nat) (hs : ∀ c ∈ s, c < 256) (base : Nat) (hb : 2 ≤ base ∧ base ≤ 36) :
    let b := (s.takeWhile isBlank).length
    let sg := if (s.drop b).head? = some 43 then 1 else 0
    let ds := digits base (s.drop (b + sg))
    strtoull s base = some (min (value base ds) (2 ^ 64 - 1), if ds = [] then 0 else b + sg + ds.length) := by
  intro b sg ds
  unfold strtoull
  simp only [skipSpace_eq s hs, Option.bind_eq_bind]
  rw [strtoullSub_spec _ base _ hb (by simp) (by simp) (fun c hc => hs c (List.mem_of_mem_drop hc))]
  simp only [Option.bind_some, Option.some.injEq, Prod.mk.injEq]
  refine ⟨rfl, ?_⟩
  show (if ds.length = 0 then 0 else b + sg + ds.length) = _
  cases ds <;> simp

/-- Value of the leading decimal digits. -/
theorem atoiLoop_spec (s : List Nat) (hs : ∀ c ∈ s, c < 256) (v : Nat)
    (h : (digits 10 s).foldl (fun v d => v * 10 + d) v < 2 ^ 31) :
    atoiLoop s v = some (((digits 10 s).foldl (fun v d => v * 10 + d) v : Nat) : Int) := by
  have mono : ∀ (l : List Nat) (v : Nat), v ≤ l.foldl (fun v d => v * 10 + d) v := by
    intro l; induction l with
    | nil => intro v; simp
    | cons a l ih => intro v; have := ih (v * 10 + a); simp only [List.foldl_cons]; omega
  induction s generalizing v with
  | nil => simp [atoiLoop, digits]
  | cons c cs ih =>
    simp only [atoiLoop]
    have hc := hs c (by simp)
    simp only [digits] at h ⊢
    by_cases hd : 48 ≤ c ∧ c ≤ 57
    · have hsc : schar c = c := by unfold schar; rw [if_pos (by omega)]
      have e : digitIn 10 c = some (c - 48) := by
        unfold digitIn digitVal; rw [if_pos hd]; simp; omega
      rw [e] at h ⊢
      simp only [List.foldl_cons] at h ⊢
      rw [hsc, if_pos (by omega)]
      have := mono (digits 10 cs) (v * 10 + (c - 48))
      rw [if_pos (by omega)]
      have := ih (fun x hx => hs x (by simp [hx])) (v * 10 + (c - 48)) h
      rw [← this]; congr 1; omega
    · have e : digitIn 10 c = none := by
        unfold digitIn digitVal; rw [if_neg hd]
        split
        · simp
        · split
          · simp
          · rfl
      rw [e, if_neg (by unfold schar; split <;> omega)]
      rfl

/-- **C06.** `atoi` returns the value of the number whenever its magnitude is
representable.  Missing: exactly `INT_MIN`, whose magnitude overflows
(`atoi_int_min_ub`). -/
theorem atoi_partial (s : List Nat) (hs : ∀ c ∈ s, c < 256)
    (h : let b := (s.takeWhile isBlank).length
         value 10 (digits 10 (s.drop (b + (signOf (s.drop b)).2))) < 2 ^ 31) :
    atoi s = some (specSigned s 10).1 := by
  unfold atoi specSigned
  simp only [skipSpace_eq s hs, parseSign_eq, Option.bind_eq_bind]
  generalize (s.takeWhile isBlank).length = b at h ⊢
  simp only at h
  generalize (signOf (s.drop b)).1 = neg at h ⊢
  generalize (signOf (s.drop b)).2 = sg at h ⊢
  rw [List.drop_drop]
  have := atoiLoop_spec (s.drop (b + sg)) (fun c hc => hs c (List.mem_of_mem_drop hc)) 0 h
  rw [show ((0 : Nat) : Int) = 0 from rfl] at this
  rw [this]
  simp only [Option.bind_some, Option.some.injEq]
  change (if neg = true then -((value 10 (digits 10 (s.drop (b + sg))) : Nat) : Int)
    else ((value 10 (digits 10 (s.drop (b + sg))) : Nat) : Int)) = _
  generalize value 10 (digits 10 (s.drop (b + sg))) = v at h
  unfold clamp
  cases neg <;> simp <;> omega

/-! ### Violations of the C standard -/

/-- `strtol("0x1f", &e, 16)` must give 31; the code stops at `x` with 0. -/
theorem strtol_hex_prefix_wrong : strtol [48, 120, 49, 102] 16 = some (0, 1) := by decide
/-- Base 0 divides by zero. -/
theorem strtol_base0_traps (s : List Nat) : strtol s 0 = none := by simp [strtol, strtoullSub]
/-- `strtoul(" 7", &e, 10)` must skip the blank. -/
theorem strtoul_blank_wrong : strtoul [32, 55] 10 = some (0, 0) := by decide
/-- `strtoull("-1", &e, 10)` must give 2^64-1. -/
theorem strtoull_minus_wrong : strtoull [45, 49] 10 = some (0, 0) := by decide
/-- `atoi("-2147483648")` overflows `int` although the value is representable. -/
theorem atoi_int_min_ub : atoi [45, 50, 49, 52, 55, 52, 56, 51, 54, 52, 56] = none := by decide

/-! ## Non-vacuity -/
example : strtol [32, 9, 45, 49, 50, 51, 122] 10 = some (-123, 6) := by decide
example : strtol [57, 50, 50, 51, 51, 55, 50, 48, 51, 54, 56, 53, 52, 55, 55, 53, 56, 48, 56] 10 =
    some (9223372036854775807, 19) := by decide
example : strtol [45, 57, 50, 50, 51, 51, 55, 50, 48, 51, 54, 56, 53, 52, 55, 55, 53, 56, 48, 56] 10 =
    some (-9223372036854775808, 20) := by decide
example : atoi [32, 45, 52, 50, 120] = some (-42) := by decide

end Verif.Strtol

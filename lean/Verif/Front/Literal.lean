import Verif.Front.Struct
import Verif.Util.Wrap
/-!
# Integer literals: value and type (C24)

Model of `read_num` (src/cc/frontend/lexer.c:434-492) for integer literals and of the integer part of
`literal` (src/cc/frontend/parser_expr.c:261-307).  `strtoull` is the host's; it is modelled by its ISO C
description.  `L` is the size of `long` (8 native, 4 for wasm).

The compiler computes limits as `((UFixnum)1 << bits) - 1`, which is undefined for `bits = 64`; the value
such a shift yields is the parameter `und`, and the theorems hold for every `und`.
-/
namespace Verif.Literal
open Verif.Util Verif.Struct

/-! ## Model: the lexer -/

/-- ISO C `tolower` in the "C" locale. -/
def lower (c : Char) : Char := if 'A' ≤ c ∧ c ≤ 'Z' then Char.ofNat (c.toNat + 32) else c

/-- The value of a digit in bases up to 16, and in the given base. -/
def digit (base : Nat) (c : Char) : Option Nat :=
  let v := if '0' ≤ c ∧ c ≤ '9' then c.toNat - 48 else if 'a' ≤ c ∧ c ≤ 'f' then c.toNat - 87
    else if 'A' ≤ c ∧ c ≤ 'F' then c.toNat - 55 else 99
  if v < base then some v else none

/-- Positional value of a string of digits. -/
def positional (base : Nat) (ds : List Char) : Nat := ds.foldl (fun a c => a * base + (digit base c).getD 0) 0

/-- The digits part of ISO C `strtoull` (7.22.1.4): the longest run of digits, saturating; returns the text
unchanged if there is no digit. -/
def digitsPart (base : Nat) (text : List Char) : Nat × List Char :=
  let ds := text.takeWhile (fun c => (digit base c).isSome)
  (min (positional base ds) (2 ^ 64 - 1), text.dropWhile (fun c => (digit base c).isSome))

/-- ISO C `strtoull(text, &end, base)`: blanks, a sign, `0x` for base 16, digits. -/
def strtoull (base : Nat) (text : List Char) : Nat × List Char :=
  let t := text.dropWhile (fun c => c == ' ' || c == '\t' || c == '\n' || c == '\r' || c.toNat == 11 || c.toNat == 12)
  let neg := t.head? == some '-'
  let t := if t.head? == some '-' || t.head? == some '+' then t.tail else t
  let t := match t with
    | '0' :: x :: d :: r => if base == 16 && lower x == 'x' && (digit 16 d).isSome then d :: r else t
    | _ => t
  if (t.head?.bind (digit base)).isNone then (0, text)
  else
    let (v, r) := digitsPart base t
    (if neg && v ≠ 2 ^ 64 - 1 then (2 ^ 64 - v) % 2 ^ 64 else v, r)

/-- ast.h `TKF_*`: the base of a literal as the token flags record it. -/
inductive Kind | dec | hex | oct | bin
deriving DecidableEq, Repr

/-- What `read_num` returns: an integer token with its flags, or something else (a floating-point token or an
error). -/
inductive Num
  | int (value : Nat) (kind : Kind) (uns : Bool) (longs : Nat) (rest : List Char)
  | flo
  | err
deriving DecidableEq, Repr

/-- lexer.c:472-487: the suffix loop, counting `u` and `l`. -/
def suffix : List Char → Nat → Nat → Option (Nat × Nat × List Char)
  | [], u, l => some (u, l, [])
  | c :: r, u, l =>
    if lower c = 'u' then if u + 1 > 1 then none else suffix r (u + 1) l
    else if lower c = 'l' then if l + 1 > 2 then none else suffix r u (l + 1)
    else some (u, l, c :: r)

/-- lexer.c:437-459: the base, the flag, and where the digits start. -/
def start (text : List Char) : Nat × Kind × List Char :=
  match text with
  | '0' :: c :: r =>
    if lower c = 'x' then (16, .hex, r)
    else if lower c = 'b' then (2, .bin, r)
    else if '0' ≤ c ∧ c ≤ '9' then (8, .oct, text)
    else (10, .dec, text)
  | _ => (10, .dec, text)

/-- lexer.c:434-492 `read_num`. -/
def readNum (text : List Char) : Num :=
  let (base, kind, p) := start text
  if base = 16 ∧ p.head? = some '.' then .flo
  else
    let (val, q) := strtoull base p
    if q = p then .err
    else if base = 16 ∧ (q.head? = some '.' ∨ q.head?.map lower = some 'p') then .flo
    else if q.head? = some '.' ∨ q.head?.map lower = some 'e' then
      if base ≠ 10 then .err else .flo
    else
      match suffix q 0 0 with
      | none => .err
      | some (u, l, r) => .int val kind (0 < u) l r

/-! ## Model: the type -/

/-- `(UFixnum)1 << n`. -/
def shl1 (und n : Nat) : Nat := if n < 64 then 2 ^ n else und

/-- `((UFixnum)1 << n) - 1`. -/
def lim (und n : Nat) : Nat := (shl1 und n + (2 ^ 64 - 1)) % 2 ^ 64

/-- parser_expr.c:281-296: the upgrade loop.  The fuel is the number of kinds left; `(fx, u)`. -/
def upgrade (L und value : Nat) (based : Bool) : Nat → Nat → Bool → Nat × Bool
  | 0, fx, u => (fx, u)
  | f + 1, fx, u =>
    if fx < 4 then
      let bits := fxSize L fx * 8 - (if u then 0 else 1)
      if value ≤ lim und bits && (u || (toS 64 value ≥ -(2 ^ (bits - 1) : Int))) then (fx, u)
      else if !u && value ≤ lim und (bits + 1) && based then (fx, true)
      else upgrade L und value based f (fx + 1) u
    else (fx, u)

/-- parser_expr.c:276-306: the kind (`FixnumKind`) and signedness of an integer literal. -/
def literalType (L und value : Nat) (kind : Kind) (uns : Bool) (longs : Nat) : Nat × Bool :=
  let (fx, u) := upgrade L und value (kind ≠ .dec) 3 (longs + 2) uns
  if !u && 4 ≤ fx then
    if value > lim und (fxSize L fx * 8 - 1) then (fx, true) else (fx, u)
  else (fx, u)

/-- parser_expr.c:268-275: a character literal is a `char`, a wide one an `unsigned int`. -/
def charType (wide : Bool) : Nat × Bool := if wide then (2, true) else (0, false)

/-! ## Specification (ISO C11 6.4.4.1) -/

/-- The list of types a literal is tried against. -/
def isoTypes (dec uns : Bool) (longs : Nat) : List (Nat × Bool) :=
  let all : List (Nat × Bool) := [(2, false), (2, true), (3, false), (3, true), (4, false), (4, true)]
  all.filter (fun t => (longs + 2 ≤ t.1) && (!uns || t.2) && !(dec && !uns && t.2))

/-- `v` is representable in the type. -/
def fits (L v : Nat) (t : Nat × Bool) : Bool := v < 2 ^ (8 * fxSize L t.1 - if t.2 then 0 else 1)

/-- The first type of the list that can represent the value. -/
def isoType (L v : Nat) (dec uns : Bool) (longs : Nat) : Option (Nat × Bool) := (isoTypes dec uns longs).find? (fits L v)

/-- A literal ends where no letter, digit, underscore or period follows. -/
def Delim (rest : List Char) : Prop := ∀ c ∈ rest.head?, ¬ (c.isAlphanum ∨ c = '_' ∨ c = '.')

/-- A suffix of `u`s and `l`s: at most one of the first, two of the second. -/
def Suffix (su : List Char) : Prop :=
  (∀ c ∈ su, c = 'u' ∨ c = 'U' ∨ c = 'l' ∨ c = 'L') ∧
  su.countP (fun c => c = 'u' ∨ c = 'U') ≤ 1 ∧ su.countP (fun c => c = 'l' ∨ c = 'L') ≤ 2

/-! ## Lemmas -/

theorem delim_facts {rest : List Char} (h : Delim rest) (c : Char) (hc : c ∈ rest.head?) :
    (∀ b ≤ 16, digit b c = none) ∧ c ≠ '.' ∧ lower c ≠ 'u' ∧ lower c ≠ 'l' ∧ lower c ≠ 'e' ∧ lower c ≠ 'p' ∧ lower c ≠ 'x' ∧
      lower c ≠ 'b' ∧ ¬ ('0' ≤ c ∧ c ≤ '9') := by
  have := h c hc
  simp only [not_or, Char.isAlphanum, Char.isAlpha, Char.isUpper, Char.isLower, Char.isDigit, Bool.or_eq_true, Bool.and_eq_true,
    decide_eq_true_eq, not_and] at this
  obtain ⟨⟨⟨h1, h2⟩, h3⟩, _, h5⟩ := this
  have e1 : ¬ ('A' ≤ c ∧ c ≤ 'Z') := fun ⟨a, b⟩ => h1 a b
  have e2 : ¬ ('a' ≤ c ∧ c ≤ 'z') := fun ⟨a, b⟩ => h2 a b
  have e3 : ¬ ('0' ≤ c ∧ c ≤ '9') := fun ⟨a, b⟩ => h3 a b
  have hl : lower c = c := if_neg e1
  refine ⟨?_, h5, ?_, ?_, ?_, ?_, ?_, ?_, e3⟩
  · intro b hb
    unfold digit
    have f2 : ¬ ('a' ≤ c ∧ c ≤ 'f') := fun ⟨a, b⟩ => e2 ⟨a, Char.le_trans b (by decide)⟩
    have f3 : ¬ ('A' ≤ c ∧ c ≤ 'F') := fun ⟨a, b⟩ => e1 ⟨a, Char.le_trans b (by decide)⟩
    simp only [if_neg e3, if_neg f2, if_neg f3]
    rw [if_neg (by omega)]
  all_goals
    rw [hl]
    rintro rfl
    exact e2 ⟨by decide, by decide⟩

theorem suffix_chars {c : Char} (h : c = 'u' ∨ c = 'U' ∨ c = 'l' ∨ c = 'L') :
    (∀ b ≤ 16, digit b c = none) ∧ c ≠ '.' ∧ lower c ≠ 'e' ∧ lower c ≠ 'p' ∧ lower c ≠ 'x' ∧ lower c ≠ 'b' ∧ ¬ ('0' ≤ c ∧ c ≤ '9') := by
  have hd : ∀ (c : Char), ¬ ('0' ≤ c ∧ c ≤ '9') → ¬ ('a' ≤ c ∧ c ≤ 'f') → ¬ ('A' ≤ c ∧ c ≤ 'F') → ∀ b ≤ 16, digit b c = none := by
    intro c e1 e2 e3 b hb
    unfold digit
    simp only [if_neg e1, if_neg e2, if_neg e3]
    rw [if_neg (by omega)]
  rcases h with rfl | rfl | rfl | rfl <;>
    exact ⟨hd _ (by decide) (by decide) (by decide), by decide, by decide, by decide, by decide, by decide, by decide⟩

theorem suffix_spec (su rest : List Char) (hr : Delim rest) : ∀ (u l : Nat), (∀ c ∈ su, c = 'u' ∨ c = 'U' ∨ c = 'l' ∨ c = 'L') →
    u + su.countP (fun c => c = 'u' ∨ c = 'U') ≤ 1 → l + su.countP (fun c => c = 'l' ∨ c = 'L') ≤ 2 →
    suffix (su ++ rest) u l = some (u + su.countP (fun c => c = 'u' ∨ c = 'U'), l + su.countP (fun c => c = 'l' ∨ c = 'L'), rest) := by
  induction su with
  | nil =>
    intro u l _ _ _
    cases rest with
    | nil => simp [suffix]
    | cons c rest =>
      obtain ⟨_, _, h3, h4, _⟩ := delim_facts hr c (by simp)
      simp [suffix, h3, h4]
  | cons c su ih =>
    intro u l hc hu hl
    have hrest := fun c h => hc c (List.mem_cons_of_mem _ h)
    have hc0 := hc c List.mem_cons_self
    rw [List.countP_cons] at hu hl ⊢
    rw [List.countP_cons]
    have hU : (c = 'u' ∨ c = 'U') → lower c = 'u' := by rintro (rfl | rfl) <;> decide
    have hL : (c = 'l' ∨ c = 'L') → lower c = 'l' ∧ lower c ≠ 'u' ∧ ¬ (c = 'u' ∨ c = 'U') := by
      rintro (rfl | rfl) <;> decide
    by_cases h : c = 'u' ∨ c = 'U'
    · have hnl : ¬ (c = 'l' ∨ c = 'L') := by rcases h with rfl | rfl <;> decide
      simp only [h, hnl, decide_true, decide_false, if_true, if_false, Bool.false_eq_true] at hu hl ⊢
      rw [List.cons_append, suffix, if_pos (hU h), if_neg (by omega), ih (u + 1) l hrest (by omega) (by omega)]
      congr 2
      · omega
    · have hl' : c = 'l' ∨ c = 'L' := by
        rcases hc0 with h' | h' | h' | h'
        · exact absurd (Or.inl h') h
        · exact absurd (Or.inr h') h
        · exact Or.inl h'
        · exact Or.inr h'
      obtain ⟨x1, x2, _⟩ := hL hl'
      simp only [h, hl', decide_true, decide_false, if_true, if_false, Bool.false_eq_true] at hu hl ⊢
      rw [List.cons_append, suffix, if_neg x2, if_pos x1, if_neg (by omega), ih u (l + 1) hrest (by omega) (by omega)]
      congr 3
      omega

theorem span_digits (base : Nat) (hb : base ≤ 16) (ds tail : List Char) (hds : ∀ c ∈ ds, (digit base c).isSome)
    (ht : ∀ c ∈ tail.head?, digit base c = none) :
    (ds ++ tail).takeWhile (fun c => (digit base c).isSome) = ds ∧ (ds ++ tail).dropWhile (fun c => (digit base c).isSome) = tail := by
  induction ds with
  | nil =>
    cases tail with
    | nil => simp
    | cons c r => have := ht c (by simp); simp [this]
  | cons c ds ih =>
    have hc := hds c List.mem_cons_self
    obtain ⟨i1, i2⟩ := ih (fun x hx => hds x (List.mem_cons_of_mem _ hx))
    simp [hc, i1, i2]

theorem digit_plain {base : Nat} {c : Char} (hb : base ≤ 16) (h : (digit base c).isSome) :
    (c == ' ' || c == '\t' || c == '\n' || c == '\r' || c.toNat == 11 || c.toNat == 12) = false ∧ c ≠ '-' ∧ c ≠ '+' ∧ c ≠ '.' := by
  have h2 : ('0' ≤ c ∧ c ≤ '9') ∨ ('a' ≤ c ∧ c ≤ 'f') ∨ ('A' ≤ c ∧ c ≤ 'F') := by
    by_contra hn
    simp only [not_or] at hn
    obtain ⟨a, b, d⟩ := hn
    unfold digit at h
    simp only [if_neg a, if_neg b, if_neg d] at h
    rw [if_neg (by omega)] at h
    cases h
  have hge : 48 ≤ c.toNat := by
    rcases h2 with ⟨a, _⟩ | ⟨a, _⟩ | ⟨a, _⟩
    · exact a
    · exact Nat.le_trans (by decide) a
    · exact Nat.le_trans (by decide) a
  have hne : ∀ d : Char, d.toNat < 48 → c ≠ d := by
    rintro d hd rfl; omega
  refine ⟨?_, hne _ (by decide), hne _ (by decide), hne _ (by decide)⟩
  have n1 := hne ' ' (by decide)
  have n2 := hne '\t' (by decide)
  have n3 := hne '\n' (by decide)
  have n4 := hne '\r' (by decide)
  simp [n1, n2, n3, n4, show ¬ c.toNat = 11 by omega, show ¬ c.toNat = 12 by omega]

theorem ofNat_toNat {n : Nat} (h : n.isValidChar) : (Char.ofNat n).toNat = n := by
  unfold Char.ofNat
  rw [dif_pos h]
  rfl

/-- `strtoull` on a digit string that nothing extends. -/
theorem strtoull_digits (base : Nat) (hb : base ≤ 16) (ds tail : List Char) (hne : ds ≠ []) (hds : ∀ c ∈ ds, (digit base c).isSome)
    (ht : ∀ c ∈ tail.head?, digit base c = none ∧ lower c ≠ 'x') :
    strtoull base (ds ++ tail) = (min (positional base ds) (2 ^ 64 - 1), tail) := by
  cases ds with
  | nil => exact absurd rfl hne
  | cons d ds =>
    have hd := hds d List.mem_cons_self
    obtain ⟨p1, p2, p3, _⟩ := digit_plain hb hd
    obtain ⟨s1, s2⟩ := span_digits base hb (d :: ds) tail hds (fun c hc => (ht c hc).1)
    have hpre : (match d :: ds ++ tail with
        | '0' :: x :: e :: r => if (base == 16 && lower x == 'x' && (digit 16 e).isSome) = true then e :: r else d :: ds ++ tail
        | _ => d :: ds ++ tail) = d :: ds ++ tail := by
      split
      · rename_i x e r heq
        refine if_neg ?_
        intro hc
        simp only [Bool.and_eq_true, beq_iff_eq] at hc
        obtain ⟨⟨hb16, hx⟩, _⟩ := hc
        rw [List.cons_append, List.cons.injEq] at heq
        obtain ⟨_, heq⟩ := heq
        cases ds with
        | nil =>
          rw [List.nil_append] at heq
          rw [heq] at ht
          exact (ht x (by simp)).2 hx
        | cons y ds =>
          rw [List.cons_append, List.cons.injEq] at heq
          obtain ⟨rfl, _⟩ := heq
          have hy := hds y (by simp)
          have : ∀ c : Char, lower c = 'x' → digit base c = none := by
            intro c hc
            by_cases hcx : 'A' ≤ c ∧ c ≤ 'Z'
            · unfold lower at hc
              rw [if_pos hcx] at hc
              have h1 : (65 : Nat) ≤ c.toNat := hcx.1
              have h2 : c.toNat ≤ (90 : Nat) := hcx.2
              have h3 := congrArg Char.toNat hc
              have hv : (c.toNat + 32).isValidChar := Or.inl (by omega)
              rw [ofNat_toNat hv] at h3
              have h4 : c.toNat = 88 := by
                have : ('x' : Char).toNat = 120 := by decide
                omega
              have : c = 'X' := Char.ext (UInt32.toNat_inj.1 (by rw [show c.val.toNat = c.toNat from rfl, h4]; decide))
              subst this
              unfold digit
              simp only [show ¬ ('0' ≤ 'X' ∧ 'X' ≤ '9') by decide, show ¬ ('a' ≤ 'X' ∧ 'X' ≤ 'f') by decide, show ¬ ('A' ≤ 'X' ∧ 'X' ≤ 'F') by decide, if_false]
              rw [if_neg (by omega)]
            · unfold lower at hc
              rw [if_neg hcx] at hc
              subst hc
              unfold digit
              simp only [show ¬ ('0' ≤ 'x' ∧ 'x' ≤ '9') by decide, show ¬ ('a' ≤ 'x' ∧ 'x' ≤ 'f') by decide, show ¬ ('A' ≤ 'x' ∧ 'x' ≤ 'F') by decide, if_false]
              rw [if_neg (by omega)]
          rw [this y hx] at hy
          cases hy
      · rfl
    have hdw : (d :: ds ++ tail).dropWhile (fun c => c == ' ' || c == '\t' || c == '\n' || c == '\r' || c.toNat == 11 || c.toNat == 12) = d :: ds ++ tail := by
      rw [List.cons_append, List.dropWhile_cons, if_neg (by simp only [p1]; decide)]
    have hneg : ((d :: ds ++ tail).head? == some '-') = false := by simp [p2]
    have hpos : ((d :: ds ++ tail).head? == some '+') = false := by simp [p3]
    unfold strtoull
    simp only [hdw, hneg, hpos, Bool.or_false, Bool.false_eq_true, if_false, hpre, Bool.false_and]
    rw [if_neg (by
      rw [List.cons_append, List.head?_cons, Option.bind_some]
      cases hh : digit base d with
      | none => rw [hh] at hd; cases hd
      | some => simp)]
    simp only [digitsPart, s1, s2]

/-- The common part of the literal theorems: digits at the start, then a suffix, then a delimiter. -/
theorem readNum_core (base : Nat) (kind : Kind) (text p ds su rest : List Char) (hb : base ≤ 16) (hst : start text = (base, kind, p))
    (hp : p = ds ++ (su ++ rest)) (hne : ds ≠ []) (hds : ∀ c ∈ ds, (digit base c).isSome) (hsu : Suffix su) (hr : Delim rest) :
    readNum text = .int (min (positional base ds) (2 ^ 64 - 1)) kind (0 < su.countP (fun c => c = 'u' ∨ c = 'U'))
      (su.countP (fun c => c = 'l' ∨ c = 'L')) rest := by
  have htail : ∀ c ∈ (su ++ rest).head?, (∀ b ≤ 16, digit b c = none) ∧ c ≠ '.' ∧ lower c ≠ 'e' ∧ lower c ≠ 'p' ∧ lower c ≠ 'x' := by
    intro c hc
    cases su with
    | nil =>
      obtain ⟨a, b, _, _, e, f, g, _, _⟩ := delim_facts hr c (by simpa using hc)
      exact ⟨a, b, e, f, g⟩
    | cons s su =>
      simp only [List.cons_append, List.head?_cons, Option.mem_some_iff] at hc
      subst hc
      obtain ⟨a, b, e, f, g, _⟩ := suffix_chars (hsu.1 s List.mem_cons_self)
      exact ⟨a, b, e, f, g⟩
  have hs := strtoull_digits base hb ds (su ++ rest) hne hds (fun c hc => ⟨(htail c hc).1 base hb, (htail c hc).2.2.2.2⟩)
  have hdot : ¬ (base = 16 ∧ p.head? = some '.') := by
    rintro ⟨_, h⟩
    cases ds with
    | nil => exact hne rfl
    | cons d ds =>
      rw [hp] at h
      simp only [List.cons_append, List.head?_cons, Option.some.injEq] at h
      exact (digit_plain hb (hds d List.mem_cons_self)).2.2.2 h
  have hqp : ¬ (su ++ rest = p) := by
    intro h
    have := congrArg List.length (h.trans hp)
    simp only [List.length_append] at this
    exact hne (List.length_eq_zero_iff.1 (by omega))
  have h1 : ¬ ((su ++ rest).head? = some '.') := fun h => (htail '.' h).2.1 rfl
  have h2 : ¬ ((su ++ rest).head?.map lower = some 'p') := by
    intro h
    rw [Option.map_eq_some_iff] at h
    obtain ⟨c, hc, e⟩ := h
    exact (htail c hc).2.2.2.1 e
  have h3 : ¬ ((su ++ rest).head?.map lower = some 'e') := by
    intro h
    rw [Option.map_eq_some_iff] at h
    obtain ⟨c, hc, e⟩ := h
    exact (htail c hc).2.2.1 e
  have hsx := suffix_spec su rest hr 0 0 hsu.1 (by have := hsu.2.1; omega) (by have := hsu.2.2; omega)
  unfold readNum
  rw [hst]
  simp only
  rw [if_neg hdot, hp, hs]
  simp only
  rw [if_neg (by rw [← hp]; exact hqp), if_neg (by rintro ⟨_, h | h⟩; exacts [h1 h, h2 h]),
    if_neg (by rintro (h | h); exacts [h1 h, h3 h]), hsx]
  simp only [Nat.zero_add]

/-! ## Theorems: the value -/

/-- **C24.** A decimal literal: digits not starting with 0. -/
theorem read_decimal (ds su rest : List Char) (hne : ds ≠ []) (hds : ∀ c ∈ ds, (digit 10 c).isSome) (h0 : ds.head? ≠ some '0')
    (hsu : Suffix su) (hr : Delim rest) :
    readNum (ds ++ (su ++ rest)) = .int (min (positional 10 ds) (2 ^ 64 - 1)) .dec (0 < su.countP (fun c => c = 'u' ∨ c = 'U'))
      (su.countP (fun c => c = 'l' ∨ c = 'L')) rest := by
  refine readNum_core 10 .dec _ _ ds su rest (by omega) ?_ rfl hne hds hsu hr
  cases ds with
  | nil => exact absurd rfl hne
  | cons d ds =>
    unfold start
    split
    · rename_i heq
      rw [List.cons_append, List.cons.injEq] at heq
      rw [heq.1] at h0
      simp at h0
    · rfl

/-- **C24.** The literal `0`. -/
theorem read_zero (su rest : List Char) (hsu : Suffix su) (hr : Delim rest) :
    readNum ('0' :: (su ++ rest)) = .int 0 .dec (0 < su.countP (fun c => c = 'u' ∨ c = 'U'))
      (su.countP (fun c => c = 'l' ∨ c = 'L')) rest := by
  have := readNum_core 10 .dec ('0' :: (su ++ rest)) ('0' :: (su ++ rest)) ['0'] su rest (by omega) ?_ rfl (by simp) (by decide) hsu hr
  · rw [this]
    congr 1
  · have htail : ∀ c ∈ (su ++ rest).head?, lower c ≠ 'x' ∧ lower c ≠ 'b' ∧ ¬ ('0' ≤ c ∧ c ≤ '9') := by
      intro c hc
      cases su with
      | nil =>
        obtain ⟨_, _, _, _, _, _, g, h, i⟩ := delim_facts hr c (by simpa using hc)
        exact ⟨g, h, i⟩
      | cons s su =>
        simp only [List.cons_append, List.head?_cons, Option.mem_some_iff] at hc
        subst hc
        obtain ⟨_, _, _, _, g, h, i⟩ := suffix_chars (hsu.1 s List.mem_cons_self)
        exact ⟨g, h, i⟩
    cases hh : su ++ rest with
    | nil => rfl
    | cons c r =>
      obtain ⟨a, b, d⟩ := htail c (by rw [hh]; simp)
      simp only [start, if_neg a, if_neg b, if_neg d]

/-- **C24.** An octal literal: 0 followed by octal digits. -/
theorem read_octal (ds su rest : List Char) (hne : ds ≠ []) (hds : ∀ c ∈ ds, (digit 8 c).isSome) (hsu : Suffix su) (hr : Delim rest) :
    readNum ('0' :: ds ++ (su ++ rest)) = .int (min (positional 8 ds) (2 ^ 64 - 1)) .oct (0 < su.countP (fun c => c = 'u' ∨ c = 'U'))
      (su.countP (fun c => c = 'l' ∨ c = 'L')) rest := by
  have := readNum_core 8 .oct ('0' :: ds ++ (su ++ rest)) ('0' :: ds ++ (su ++ rest)) ('0' :: ds) su rest (by omega) ?_ rfl (by simp) ?_ hsu hr
  · rw [this]
    congr 1
  · cases ds with
    | nil => exact absurd rfl hne
    | cons d ds =>
      have hd := hds d List.mem_cons_self
      have hr : '0' ≤ d ∧ d ≤ '9' := by
        by_contra hn
        unfold digit at hd
        simp only [if_neg hn] at hd
        by_cases ha : 'a' ≤ d ∧ d ≤ 'f'
        · have : 97 ≤ d.toNat := ha.1
          simp only [if_pos ha] at hd
          rw [if_neg (by omega)] at hd
          cases hd
        · simp only [if_neg ha] at hd
          by_cases hA : 'A' ≤ d ∧ d ≤ 'F'
          · have : 65 ≤ d.toNat := hA.1
            simp only [if_pos hA] at hd
            rw [if_neg (by omega)] at hd
            cases hd
          · simp only [if_neg hA] at hd
            rw [if_neg (by omega)] at hd
            cases hd
      have hnl : lower d = d := by
        unfold lower
        rw [if_neg]
        rintro ⟨h1, _⟩
        have e1 : 65 ≤ d.toNat := h1
        have e2 : d.toNat ≤ 57 := hr.2
        omega
      have hlt : d.toNat ≤ 57 := hr.2
      have hx : d ≠ 'x' := by rintro rfl; revert hlt; decide
      have hb : d ≠ 'b' := by rintro rfl; revert hlt; decide
      simp only [List.cons_append, start, hnl, if_neg hx, if_neg hb, if_pos hr]
  · intro c hc
    rw [List.mem_cons] at hc
    rcases hc with rfl | hc
    · decide
    · exact hds c hc

/-- **C24.** Hexadecimal and binary literals. -/
theorem read_prefixed (hex : Bool) (x : Char) (ds su rest : List Char) (hx : lower x = if hex then 'x' else 'b') (hne : ds ≠ [])
    (hds : ∀ c ∈ ds, (digit (if hex then 16 else 2) c).isSome) (hsu : Suffix su) (hr : Delim rest) :
    readNum ('0' :: x :: ds ++ (su ++ rest)) = .int (min (positional (if hex then 16 else 2) ds) (2 ^ 64 - 1)) (if hex then .hex else .bin)
      (0 < su.countP (fun c => c = 'u' ∨ c = 'U')) (su.countP (fun c => c = 'l' ∨ c = 'L')) rest := by
  refine readNum_core _ _ _ _ ds su rest ?_ ?_ rfl hne hds hsu hr
  · split <;> omega
  · cases hex with
    | true => simp only [if_true] at hx ⊢; simp only [List.cons_append, start, hx, if_true]
    | false =>
      simp only [Bool.false_eq_true, if_false] at hx ⊢
      simp only [List.cons_append, start, hx]
      rw [if_neg (by decide)]
      simp

/-! ## Theorems: the type -/

theorem lim_small (und n : Nat) (h : n < 64) : lim und n = 2 ^ n - 1 := by
  unfold lim shl1
  rw [if_pos h]
  have h1 := Nat.two_pow_pos n
  have h2 : 2 ^ n ≤ 2 ^ 63 := Nat.pow_le_pow_right (by omega) (by omega)
  omega

/-- Where the compiler's limit `1 << 64` is consulted (native targets only): an unsigned literal that does not
fit `unsigned int` or has one `l`, and a non-decimal literal of 2^63 or more. -/
def Consults64 (L value : Nat) (kind : Kind) (uns : Bool) (longs : Nat) : Prop :=
  L = 8 ∧ longs < 2 ∧ ((uns = true ∧ (longs = 1 ∨ 2 ^ 32 ≤ value)) ∨ (uns = false ∧ kind ≠ .dec ∧ 2 ^ 63 ≤ value))

/-- **C24 (partial).** A literal has the first type of the ISO list that can represent it.  A decimal literal that
no signed type can represent becomes `unsigned long long`.  Missing: the cases of `Consults64`, where the compiler
depends on an undefined shift (`ul_literal_type`). -/
theorem literal_type_partial (L und value : Nat) (kind : Kind) (uns : Bool) (longs : Nat) (hL : L = 4 ∨ L = 8) (hl : longs ≤ 2)
    (hv : value < 2 ^ 64) (hc : ¬ Consults64 L value kind uns longs) :
    literalType L und value kind uns longs = (isoType L value (kind = .dec) uns longs).getD (4, true) := by
  have b31 := lim_small und 31 (by omega)
  have b32 := lim_small und 32 (by omega)
  have b63 := lim_small und 63 (by omega)
  have hs : value < 2 ^ 63 → toS 64 (value : Int) = value := by
    unfold toS
    simp only
    intro h
    omega
  have hl3 : longs = 0 ∨ longs = 1 ∨ longs = 2 := by omega
  unfold Consults64 at hc
  have hr : value < 2 ^ 31 ∨ (2 ^ 31 ≤ value ∧ value < 2 ^ 32) ∨ (2 ^ 32 ≤ value ∧ value < 2 ^ 63) ∨ 2 ^ 63 ≤ value := by omega
  rcases hr with h | ⟨h, h'⟩ | ⟨h, h'⟩ | h
  · have x31 : value ≤ 2147483647 := by omega
    have y31 : value < 2147483648 := by omega
    have x32 : value ≤ 4294967295 := by omega
    have y32 : value < 4294967296 := by omega
    have x63 : value ≤ 9223372036854775807 := by omega
    have y63 : value < 9223372036854775808 := by omega
    have x64 : value < 18446744073709551616 := by omega
    have e0 := hs (by omega)
    rcases hL with rfl | rfl <;> rcases hl3 with rfl | rfl | rfl <;> cases uns <;> cases kind <;>
      simp [literalType, upgrade, isoType, isoTypes, fits, fxSize, b31, b32, b63, List.find?, x31, y31, x32, y32, x63, y63, x64, e0, h] at hc ⊢ <;> omega
  · have x31 : ¬ value ≤ 2147483647 := by omega
    have y31 : ¬ value < 2147483648 := by omega
    have x32 : value ≤ 4294967295 := by omega
    have y32 : value < 4294967296 := by omega
    have x63 : value ≤ 9223372036854775807 := by omega
    have y63 : value < 9223372036854775808 := by omega
    have x64 : value < 18446744073709551616 := by omega
    have e0 := hs (by omega)
    rcases hL with rfl | rfl <;> rcases hl3 with rfl | rfl | rfl <;> cases uns <;> cases kind <;>
      simp [literalType, upgrade, isoType, isoTypes, fits, fxSize, b31, b32, b63, List.find?, x31, y31, x32, y32, x63, y63, x64, e0, h] at hc ⊢ <;> omega
  · have x31 : ¬ value ≤ 2147483647 := by omega
    have y31 : ¬ value < 2147483648 := by omega
    have x32 : ¬ value ≤ 4294967295 := by omega
    have y32 : ¬ value < 4294967296 := by omega
    have x63 : value ≤ 9223372036854775807 := by omega
    have y63 : value < 9223372036854775808 := by omega
    have x64 : value < 18446744073709551616 := by omega
    have e0 := hs (by omega)
    rcases hL with rfl | rfl <;> rcases hl3 with rfl | rfl | rfl <;> cases uns <;> cases kind <;>
      simp [literalType, upgrade, isoType, isoTypes, fits, fxSize, b31, b32, b63, List.find?, x31, y31, x32, y32, x63, y63, x64, e0, h] at hc ⊢ <;> omega
  · have x31 : ¬ value ≤ 2147483647 := by omega
    have y31 : ¬ value < 2147483648 := by omega
    have x32 : ¬ value ≤ 4294967295 := by omega
    have y32 : ¬ value < 4294967296 := by omega
    have x63 : ¬ value ≤ 9223372036854775807 := by omega
    have y63 : ¬ value < 9223372036854775808 := by omega
    have x64 : value < 18446744073709551616 := by omega
    rcases hL with rfl | rfl <;> rcases hl3 with rfl | rfl | rfl <;> cases uns <;> cases kind <;>
      simp [literalType, upgrade, isoType, isoTypes, fits, fxSize, b31, b32, b63, List.find?, x31, y31, x32, y32, x63, y63, x64, h] at hc ⊢ <;> omega

/-- **C24.** Whatever the undefined shift yields, the size and signedness of a literal are those of its ISO type, so
arithmetic on it is unaffected. -/
theorem literal_size_sign (L und value : Nat) (kind : Kind) (uns : Bool) (longs : Nat) (hL : L = 4 ∨ L = 8) (hl : longs ≤ 2)
    (hv : value < 2 ^ 64) :
    let t := literalType L und value kind uns longs
    let i := (isoType L value (kind = .dec) uns longs).getD (4, true)
    fxSize L t.1 = fxSize L i.1 ∧ t.2 = i.2 := by
  by_cases hc : Consults64 L value kind uns longs
  · have b31 := lim_small und 31 (by omega)
    have b32 := lim_small und 32 (by omega)
    have b63 := lim_small und 63 (by omega)
    obtain ⟨rfl, hl2, hc⟩ := hc
    have x64 : value < 18446744073709551616 := by omega
    have hl3 : longs = 0 ∨ longs = 1 := by omega
    rcases hc with ⟨rfl, hc⟩ | ⟨rfl, hk, hc⟩
    · rcases hl3 with rfl | rfl
      · have x32 : ¬ value ≤ 4294967295 := by omega
        have y32 : ¬ value < 4294967296 := by omega
        by_cases hu : value ≤ lim und 64 <;>
          simp [literalType, upgrade, isoType, isoTypes, fits, fxSize, b31, b32, b63, List.find?, x32, y32, x64, hu]
      · by_cases hu : value ≤ lim und 64 <;>
          simp [literalType, upgrade, isoType, isoTypes, fits, fxSize, b31, b32, b63, List.find?, x64, hu]
    · have x31 : ¬ value ≤ 2147483647 := by omega
      have y31 : ¬ value < 2147483648 := by omega
      have x32 : ¬ value ≤ 4294967295 := by omega
      have y32 : ¬ value < 4294967296 := by omega
      have x63 : ¬ value ≤ 9223372036854775807 := by omega
      have y63 : ¬ value < 9223372036854775808 := by omega
      have z63 : 9223372036854775807 < value := by omega
      rcases hl3 with rfl | rfl <;> by_cases hu : value ≤ lim und 64 <;>
        simp [literalType, upgrade, isoType, isoTypes, fits, fxSize, b31, b32, b63, List.find?, x31, y31, x32, y32, x63, y63, z63, x64, hu, hk]
  · simp only [literal_type_partial L und value kind uns longs hL hl hv hc, and_self]

/-! ## Findings -/

/-- With the shift of the x86-64 and RISC-V hardware (`1 << 64 = 1`), every `ul` literal other than 0 is an
`unsigned long long`, which `_Generic` tells apart from the `unsigned long` ISO C requires. -/
theorem ul_literal_type (value : Nat) (kind : Kind) (h0 : 0 < value) (hv : value < 2 ^ 64) :
    literalType 8 1 value kind true 1 = (4, true) ∧ isoType 8 value (kind = .dec) true 1 = some (3, true) := by
  have hl : lim 1 64 = 0 := by decide
  have x : ¬ value = 0 := by omega
  have y : value < 18446744073709551616 := by omega
  constructor
  · simp [literalType, upgrade, fxSize, hl, x]
  · simp [isoType, isoTypes, fits, fxSize, List.find?, y]

/-- Likewise hexadecimal literals of 2^63 and more. -/
theorem hex_literal_type (value : Nat) (h0 : 2 ^ 63 ≤ value) (hv : value < 2 ^ 64) :
    literalType 8 1 value .hex false 0 = (4, true) ∧ isoType 8 value false false 0 = some (3, true) := by
  have hl : lim 1 64 = 0 := by decide
  have b31 := lim_small 1 31 (by omega)
  have b32 := lim_small 1 32 (by omega)
  have b63 := lim_small 1 63 (by omega)
  have x : ¬ value = 0 := by omega
  have x31 : ¬ value ≤ 2147483647 := by omega
  have y31 : ¬ value < 2147483648 := by omega
  have x32 : ¬ value ≤ 4294967295 := by omega
  have y32 : ¬ value < 4294967296 := by omega
  have x63 : ¬ value ≤ 9223372036854775807 := by omega
  have y63 : ¬ value < 9223372036854775808 := by omega
  have z63 : 9223372036854775807 < value := by omega
  have y : value < 18446744073709551616 := by omega
  constructor
  · simp [literalType, upgrade, fxSize, hl, x, b31, b32, b63, x31, x32, x63, z63]
  · simp [isoType, isoTypes, fits, fxSize, List.find?, y, y31, y32, y63]

/-- A decimal literal no signed type can represent is silently made unsigned, and one beyond 2^64 saturates. -/
theorem decimal_too_big (und value : Nat) (h0 : 2 ^ 63 ≤ value) (hv : value < 2 ^ 64) :
    literalType 8 und value .dec false 0 = (4, true) ∧ isoType 8 value true false 0 = none := by
  have h := literal_type_partial 8 und value .dec false 0 (Or.inr rfl) (by omega) hv (by simp [Consults64])
  have hn : isoType 8 value true false 0 = none := by
    have y31 : ¬ value < 2147483648 := by omega
    have y63 : ¬ value < 9223372036854775808 := by omega
    simp [isoType, isoTypes, fits, fxSize, List.find?, y31, y63]
  rw [h]
  simp only [decide_true, hn, Option.getD_none, and_self]

/-- Character literals have type `char` (ISO: `int`), so `sizeof 'a'` is 1. -/
theorem char_literal_type : charType false = (0, false) := rfl

/-- `09` is read as two literals, `0` and `9`; a hexadecimal prefix may be followed by a sign; `00.5` is rejected and
`0b2` too. -/
theorem odd_literals :
    readNum "09;".toList = .int 0 .oct false 0 "9;".toList ∧ readNum "0x-1;".toList = .int (2 ^ 64 - 1) .hex false 0 ";".toList ∧
      readNum "00.5".toList = .err ∧ readNum "0b2".toList = .err ∧
      readNum "99999999999999999999".toList = .int (2 ^ 64 - 1) .dec false 0 [] := by
  refine ⟨?_, ?_, ?_, ?_, ?_⟩ <;> decide

/-! ## Non-vacuity -/

example : Delim ";".toList ∧ Delim [] ∧ Suffix "uLL".toList ∧ Suffix "LuL".toList ∧ Suffix [] := by
  refine ⟨?_, ?_, ⟨?_, ?_⟩, ⟨?_, ?_⟩, ⟨?_, ?_⟩⟩ <;> simp [Delim] <;> decide

example : readNum "0x1F)".toList = .int 31 .hex false 0 ")".toList ∧ readNum "0755+".toList = .int 493 .oct false 0 "+".toList ∧
    readNum "42UL ".toList = .int 42 .dec true 1 " ".toList ∧ readNum "0b101".toList = .int 5 .bin false 0 [] := by
  refine ⟨?_, ?_, ?_, ?_⟩ <;> decide

example : ¬ Consults64 8 5 .dec false 0 ∧ literalType 8 7 3000000000 .dec false 0 = (3, false) ∧ literalType 8 7 3000000000 .hex false 0 = (2, true) := by
  refine ⟨?_, ?_, ?_⟩
  · simp [Consults64]
  · decide
  · decide

end Verif.Literal

import Verif.Front.Struct
import Verif.Util.Wrap
import Mathlib.Data.Nat.Bitwise
import Mathlib.Tactic.Tauto
import Mathlib.Tactic.Positivity
/-!
# Usual arithmetic conversions and constant folding (C27, C28)

Model of `cast_numbers`, `promote_to_int`, `new_expr_num_bop`, `new_expr_addsub`, `new_expr_cmp`,
`choose_ternary_result_type` (src/cc/frontend/fe_misc.c) and of `unary` and `binary`
(src/cc/frontend/parser_expr.c), for integer operands.  Floating-point operands are not modelled.

`Fixnum` is a 64-bit cell; a value of an unsigned 64-bit type is kept there as its two's complement bit
pattern.  The model takes the compiler's own 64-bit arithmetic to wrap where ISO C leaves it undefined
(simplification), except for `INT64_MIN / -1`, which traps, and for shift counts outside 0..63.
`L` is the size of `long` (8 native, 4 for wasm).
-/
namespace Verif.Fold
open Verif.Util Verif.Struct

/-! ## Model -/

/-- type.h:17-25 `FixnumKind` (0 char, 1 short, 2 int, 3 long, 4 long long, 5 enum, 6 _Bool) and the sign. -/
structure Ty where
  kind : Nat
  uns : Bool
deriving DecidableEq, Repr

/-- type.c `tyInt`. -/
def tyInt : Ty := ⟨2, false⟩

/-- `type_size` of an integer type. -/
def size (L : Nat) (t : Ty) : Nat := fxSize L t.kind

/-- fe_misc.c:740-746 `promote_to_int` (the type). -/
def promote (t : Ty) : Ty := if 2 ≤ t.kind && t.kind ≤ 4 then t else tyInt

/-- fe_misc.c:469-478: enumerations and `_Bool` count as `int`. -/
def norm (t : Ty) : Ty := if 5 ≤ t.kind then tyInt else t

/-- fe_misc.c:441-493 `cast_numbers` (the types both operands end up with). -/
def castNumbers (L : Nat) (makeInt : Bool) (l r : Ty) : Ty × Ty :=
  let changed := 5 ≤ l.kind || 5 ≤ r.kind
  let l' := norm l
  let r' := norm r
  if makeInt && l'.kind < 2 && r'.kind < 2 then (promote l, promote r)
  else if changed || l' ≠ r' then
    let lk := size L l' * 2 + if l'.uns then 1 else 0
    let rk := size L r' * 2 + if r'.uns then 1 else 0
    let t := if lk ≥ rk then l' else r'
    (t, t)
  else (l, r)

/-- fe_misc.c:1198-1207: the operand types of a comparison. -/
def cmpTypes (L : Nat) (l r : Ty) : Ty × Ty :=
  castNumbers L false (if l.kind < 2 then promote l else l) (if r.kind < 2 then promote r else r)

/-- fe_misc.c:953-962, 975-977: the type of a folded sum or difference. -/
def addsubType (l r : Ty) : Ty :=
  let l := norm l
  let r := norm r
  let t := if l.kind ≥ r.kind then l else r
  if t.kind < 2 then tyInt else t

/-- fe_misc.c:1541-1592 `choose_ternary_result_type` for integer operands, and parser_expr.c:507-508. -/
def ternaryType (l r : Ty) : Ty :=
  let t := if l = r then l
    else
      let l := norm l
      let r := norm r
      if l.kind > r.kind then l else r
  if t.kind < 2 then tyInt else t

/-- fe_misc.c:380-389: casting a constant (the targets here are never `_Bool`). -/
def castConst (L : Nat) (t : Ty) (v : Int) : Int := wrapValue v (size L t) t.uns

inductive Op | mul | div | mod | band | bor | bxor
deriving DecidableEq, Repr

inductive Rel | eq | ne | lt | le | ge | gt
deriving DecidableEq, Repr

/-- What folding makes of an operation: a constant, the operation itself, or a trap inside the compiler. -/
inductive Res
  | const (t : Ty) (v : Int)
  | keep
  | trap
deriving DecidableEq, Repr

/-- C's bitwise operators on 64-bit cells. -/
def bits64 (f : Nat → Nat → Nat) (l r : Int) : Int := toS 64 ((f (toU 64 l).toNat (toU 64 r).toNat : Nat) : Int)

/-- fe_misc.c:784-803 `CALC`. -/
def calcOp (op : Op) (uns : Bool) (l r : Int) : Option Int :=
  match op with
  | .mul => some (if uns then toS 64 (toU 64 l * toU 64 r) else toS 64 (l * r))
  | .div => if uns then some (toS 64 (toU 64 l / toU 64 r)) else if l = -2 ^ 63 ∧ r = -1 then none else some (l.tdiv r)
  | .mod => if uns then some (toS 64 (toU 64 l % toU 64 r)) else if l = -2 ^ 63 ∧ r = -1 then none else some (l.tmod r)
  | .band => some (bits64 (· &&& ·) l r)
  | .bor => some (bits64 (· ||| ·) l r)
  | .bxor => some (bits64 (· ^^^ ·) l r)

/-- fe_misc.c:748-808: `new_expr_num_bop` on two constants. -/
def numBop (L : Nat) (op : Op) (lt : Ty) (lv : Int) (rt : Ty) (rv : Int) : Res :=
  let ts := castNumbers L true lt rt
  let l := if ts.1 = lt then lv else castConst L ts.1 lv
  let r := if ts.2 = rt then rv else castConst L ts.2 rv
  if (op = .div ∨ op = .mod) ∧ r = 0 then .keep
  else
    match calcOp op ts.1.uns l r with
    | none => .trap
    | some v =>
      let t := if ts.1.kind ≥ ts.2.kind then ts.1 else ts.2
      let t := if t.kind < 2 then tyInt else t
      .const t (wrapValue v (size L t) t.uns)

/-- fe_misc.c:953-979: `new_expr_addsub` on two constants. -/
def addsub (L : Nat) (sub : Bool) (lt : Ty) (lv : Int) (rt : Ty) (rv : Int) : Res :=
  let t := addsubType lt rt
  .const t (wrapValue (toS 64 (if sub then lv - rv else lv + rv)) (size L t) t.uns)

/-- fe_misc.c:1213-1222 `JUDGE`. -/
def judge (k : Rel) (l r : Int) : Bool :=
  match k with
  | .eq => decide (l = r)
  | .ne => decide (l ≠ r)
  | .lt => l < r
  | .le => l ≤ r
  | .ge => l ≥ r
  | .gt => l > r

/-- fe_misc.c:1196-1241, 1272: `new_expr_cmp` on two constants. -/
def cmp (L : Nat) (k : Rel) (lt : Ty) (lv : Int) (rt : Ty) (rv : Int) : Bool :=
  let pl := if lt.kind < 2 then promote lt else lt
  let pr := if rt.kind < 2 then promote rt else rt
  let l := if pl = lt then lv else castConst L pl lv
  let r := if pr = rt then rv else castConst L pr rv
  let ts := castNumbers L false pl pr
  let l := if ts.1 = pl then l else castConst L ts.1 l
  let r := if ts.2 = pr then r else castConst L ts.2 r
  if ts.1.uns || ts.2.uns then judge k (toU 64 l) (toU 64 r) else judge k l r

/-- parser_expr.c:353-372 (`-`) and :388-393 (`~`): unary operators on a constant. -/
def unary (L : Nat) (neg : Bool) (t : Ty) (v : Int) : Ty × Int :=
  let p := promote t
  let v := if p = t then v else castConst L p v
  (p, wrapValue (if neg then toS 64 (-v) else -v - 1) (size L p) p.uns)

/-- parser_expr.c:443-460: a shift of two constants.  `trap` is a shift count outside 0..63, undefined in the
compiler.  The count is a 64-bit cell whatever its type. -/
def shift (L : Nat) (left : Bool) (lt : Ty) (lv : Int) (rv : Int) : Res :=
  let t := promote lt
  let l := if t = lt then lv else castConst L t lv
  if rv < 0 ∨ 64 ≤ rv then .trap
  else
    let n := rv.toNat
    let v := if t.uns then if left then toS 64 (toU 64 l * 2 ^ n) else toS 64 (toU 64 l / 2 ^ n)
      else if left then toS 64 (l * 2 ^ n) else l / 2 ^ n
    .const t (wrapValue v (size L t) t.uns)

/-- fe_misc.c:831-852: the right operand is a constant and the left one is not.  `none`: no simplification. -/
inductive Simp
  | zero     -- evaluate the left operand, the result is the constant
  | negate
  | same
deriving DecidableEq, Repr

/-- fe_misc.c:831-852. -/
def simplify (op : Op) (rv : Int) : Option Simp :=
  match op with
  | .mul => if rv = 0 then some .zero else if rv = -1 then some .negate else if rv = 1 then some .same else none
  | .div => if rv = 1 then some .same else none
  | .band => if rv = 0 then some .zero else none
  | .bor => if rv = 0 then some .same else none
  | .bxor => if rv = 0 then some .same else none
  | .mod => none

/-- fe_misc.c:1333-1342: the comparison a test of a comparison against 0 (`inv`) or 1 is replaced by. -/
def negRel (k : Rel) : Rel :=
  match k with
  | .eq => .ne | .ne => .eq | .lt => .ge | .ge => .lt | .le => .gt | .gt => .le

/-- fe_misc.c:1290-1342: `p == c` or `p != c` where `p` is a comparison and `c` a constant: the comparison replacing
it, or the constant result. -/
def cmpOfCmp (isEq : Bool) (p : Rel) (c : Int) : Rel ⊕ Bool :=
  if c = 0 ∨ c = 1 then
    let k := if c = 1 then !isEq else isEq
    .inl (if k then negRel p else p)
  else .inr (!isEq)

/-- The comparison of floating-point values, `none` being a NaN. -/
def judgeF (k : Rel) (l r : Option Int) : Bool :=
  match l, r with
  | some l, some r => judge k l r
  | _, _ => k = .ne

/-! ## Specification -/

/-- The integer `a` as a value of a type of `s` bytes (ISO C11 6.3.1.3; reduction modulo 2^n for signed types). -/
def conv (s : Nat) (u : Bool) (a : Int) : Int := if u then a % 2 ^ (8 * s) else toS (8 * s) a

/-- The cell `v` holds the value `a` of the type. -/
def Rep (s : Nat) (u : Bool) (a v : Int) : Prop := InRange s u a ∧ v = if u ∧ s = 8 then toS 64 a else a

/-- ISO C11 6.3.1.1: the integer promotions. -/
def isoPromote (t : Ty) : Ty := if t.kind = 2 ∨ t.kind = 3 ∨ t.kind = 4 then t else tyInt

/-- ISO C11 6.3.1.8: the usual arithmetic conversions of two integer types. -/
def isoCommon (L : Nat) (a b : Ty) : Ty :=
  let a := isoPromote a
  let b := isoPromote b
  if a = b then a
  else if a.uns = b.uns then if a.kind > b.kind then a else b
  else
    let s := if a.uns then b else a
    let u := if a.uns then a else b
    if u.kind ≥ s.kind then u
    else if size L s > size L u then s
    else ⟨s.kind, true⟩

/-- The result of an arithmetic operation whose exact result is `x`: reduced for unsigned types; undefined for
signed ones unless representable (ISO C11 6.2.5p9, 6.5p5). -/
def arith (s : Nat) (u : Bool) (x : Int) : Option Int :=
  if u then some (x % 2 ^ (8 * s)) else if -2 ^ (8 * s - 1) ≤ x ∧ x < 2 ^ (8 * s - 1) then some x else none

/-- ISO C's operators on values of one type; `none` is undefined. -/
def isoOp (op : Op) (s : Nat) (u : Bool) (a b : Int) : Option Int :=
  let bits (f : Nat → Nat → Nat) := some (conv s u ((f (a % 2 ^ (8 * s)).toNat (b % 2 ^ (8 * s)).toNat : Nat) : Int))
  match op with
  | .mul => arith s u (a * b)
  | .div => if b = 0 then none else arith s u (a.tdiv b)
  | .mod => if b = 0 then none else if arith s u (a.tdiv b) = none then none else some (a.tmod b)
  | .band => bits (· &&& ·)
  | .bor => bits (· ||| ·)
  | .bxor => bits (· ^^^ ·)

/-- A well-formed integer type; enumerations (type.c:381) and `_Bool` (type.c:17) are signed. -/
def Ty.WF (t : Ty) : Prop := t.kind ≤ 6 ∧ (5 ≤ t.kind → t.uns = false)

/-! ## C27 -/

theorem ty_cases {P : Ty → Prop} (h : ∀ k : Fin 7, ∀ u : Bool, P ⟨k, u⟩) (t : Ty) (ht : t.WF) : P t := by
  obtain ⟨k, u⟩ := t
  exact h ⟨k, Nat.lt_succ_of_le ht.1⟩ u

/-- **C27.** Both operands of an operator are brought to one type, of the size and signedness of the ISO common type. -/
theorem common_size_sign (L : Nat) (hL : L = 4 ∨ L = 8) (l r : Ty) (hl : l.WF) (hr : r.WF) :
    let t := castNumbers L true l r
    t.1 = t.2 ∧ size L t.1 = size L (isoCommon L l r) ∧ t.1.uns = (isoCommon L l r).uns := by
  refine ty_cases (P := fun l => let t := castNumbers L true l r
    t.1 = t.2 ∧ size L t.1 = size L (isoCommon L l r) ∧ t.1.uns = (isoCommon L l r).uns) ?_ l hl
  intro k u
  refine ty_cases (P := fun r => let t := castNumbers L true ⟨k, u⟩ r
    t.1 = t.2 ∧ size L t.1 = size L (isoCommon L ⟨k, u⟩ r) ∧ t.1.uns = (isoCommon L ⟨k, u⟩ r).uns) ?_ r hr
  rcases hL with rfl | rfl <;> revert k u <;> decide +kernel

/-- **C27.** The same for comparisons. -/
theorem cmp_size_sign (L : Nat) (hL : L = 4 ∨ L = 8) (l r : Ty) (hl : l.WF) (hr : r.WF) :
    let t := cmpTypes L l r
    t.1 = t.2 ∧ size L t.1 = size L (isoCommon L l r) ∧ t.1.uns = (isoCommon L l r).uns := by
  refine ty_cases (P := fun l => let t := cmpTypes L l r
    t.1 = t.2 ∧ size L t.1 = size L (isoCommon L l r) ∧ t.1.uns = (isoCommon L l r).uns) ?_ l hl
  intro k u
  refine ty_cases (P := fun r => let t := cmpTypes L ⟨k, u⟩ r
    t.1 = t.2 ∧ size L t.1 = size L (isoCommon L ⟨k, u⟩ r) ∧ t.1.uns = (isoCommon L ⟨k, u⟩ r).uns) ?_ r hr
  rcases hL with rfl | rfl <;> revert k u <;> decide +kernel

/-- **C27 (partial).** The type is exactly ISO's, unless the operands are of distinct kinds of one size (`long` and
`long long`; for wasm `int` and `long`): `common_kind_tie`. -/
theorem common_exact_partial (L : Nat) (hL : L = 4 ∨ L = 8) (l r : Ty) (hl : l.WF) (hr : r.WF)
    (h : size L (isoPromote l) = size L (isoPromote r) → (isoPromote l).kind = (isoPromote r).kind) :
    (castNumbers L true l r).1 = isoCommon L l r := by
  revert h
  refine ty_cases (P := fun l => (size L (isoPromote l) = size L (isoPromote r) → (isoPromote l).kind = (isoPromote r).kind) →
    (castNumbers L true l r).1 = isoCommon L l r) ?_ l hl
  intro k u
  refine ty_cases (P := fun r => (size L (isoPromote ⟨k, u⟩) = size L (isoPromote r) → (isoPromote ⟨k, u⟩).kind = (isoPromote r).kind) →
    (castNumbers L true ⟨k, u⟩ r).1 = isoCommon L ⟨k, u⟩ r) ?_ r hr
  rcases hL with rfl | rfl <;> revert k u <;> decide +kernel

/-- **C27, finding.** `long + long long` has type `long`. -/
theorem common_kind_tie : (castNumbers 8 true ⟨3, false⟩ ⟨4, false⟩).1 = ⟨3, false⟩ ∧ isoCommon 8 ⟨3, false⟩ ⟨4, false⟩ = ⟨4, false⟩ := by
  decide

/-- **C27, finding.** The conditional operator ignores signedness: `c ? 1u : -1` is an `int`; and two `_Bool`s give a `_Bool`. -/
theorem ternary_sign : ternaryType ⟨2, true⟩ ⟨2, false⟩ = ⟨2, false⟩ ∧ isoCommon 8 ⟨2, true⟩ ⟨2, false⟩ = ⟨2, true⟩ ∧
    ternaryType ⟨6, true⟩ ⟨6, true⟩ = ⟨6, true⟩ ∧ isoCommon 8 ⟨6, true⟩ ⟨6, true⟩ = tyInt := by
  decide

/-- The rank of a kind among char, short, int, long, long long; enumerations and `_Bool` rank as `int`. -/
def rank (t : Ty) : Nat := if t.kind ≤ 4 then t.kind else 2

/-- Where choosing by kind alone gives the ISO size and sign: the (promoted) type of higher rank is unsigned, or
wider, or the other one is signed; `tie` tells whether the left one counts as higher when the ranks are equal. -/
def KindDecides (L : Nat) (tie : Bool) (l r : Ty) : Prop :=
  let left := rank l > rank r ∨ (tie = true ∧ rank l = rank r)
  let w := if left then isoPromote l else isoPromote r
  let o := if left then isoPromote r else isoPromote l
  w.uns = true ∨ o.uns = false ∨ size L o < size L w

instance (L : Nat) (tie : Bool) (l r : Ty) : Decidable (KindDecides L tie l r) := by
  unfold KindDecides; infer_instance

/-- **C27 (partial).** The conditional operator's type, where the kinds decide and not both operands are `_Bool` or
enumerations. -/
theorem ternary_type_partial (L : Nat) (hL : L = 4 ∨ L = 8) (l r : Ty) (hl : l.WF) (hr : r.WF) (h : KindDecides L false l r)
    (hb : ¬ (l = r ∧ 5 ≤ l.kind)) :
    size L (ternaryType l r) = size L (isoCommon L l r) ∧ (ternaryType l r).uns = (isoCommon L l r).uns := by
  revert h hb
  refine ty_cases (P := fun l => KindDecides L false l r → ¬ (l = r ∧ 5 ≤ l.kind) →
    size L (ternaryType l r) = size L (isoCommon L l r) ∧ (ternaryType l r).uns = (isoCommon L l r).uns) ?_ l hl
  intro k u
  refine ty_cases (P := fun r => KindDecides L false ⟨k, u⟩ r → ¬ ((⟨k, u⟩ : Ty) = r ∧ 5 ≤ (⟨k, u⟩ : Ty).kind) →
    size L (ternaryType ⟨k, u⟩ r) = size L (isoCommon L ⟨k, u⟩ r) ∧ (ternaryType ⟨k, u⟩ r).uns = (isoCommon L ⟨k, u⟩ r).uns) ?_ r hr
  rcases hL with rfl | rfl <;> revert k u <;> decide +kernel

/-- **C27, C28 (partial).** The type of a folded sum, where the kinds decide. -/
theorem addsub_type_partial (L : Nat) (hL : L = 4 ∨ L = 8) (l r : Ty) (hl : l.WF) (hr : r.WF) :
    (size L (addsubType l r) = size L (isoCommon L l r) ∧ (addsubType l r).uns = (isoCommon L l r).uns) ↔ KindDecides L true l r := by
  refine ty_cases (P := fun l => (size L (addsubType l r) = size L (isoCommon L l r) ∧ (addsubType l r).uns = (isoCommon L l r).uns) ↔
    KindDecides L true l r) ?_ l hl
  intro k u
  refine ty_cases (P := fun r => (size L (addsubType ⟨k, u⟩ r) = size L (isoCommon L ⟨k, u⟩ r) ∧
    (addsubType ⟨k, u⟩ r).uns = (isoCommon L ⟨k, u⟩ r).uns) ↔ KindDecides L true ⟨k, u⟩ r) ?_ r hr
  rcases hL with rfl | rfl <;> revert k u <;> decide +kernel

/-! ## C28: lemmas -/

def Sz (s : Nat) : Prop := s = 1 ∨ s = 2 ∨ s = 4 ∨ s = 8

/-- The workhorse: a cell congruent to `a` holds, once wrapped, the value `a` converts to. -/
theorem rep_wrap {s : Nat} (hs : Sz s) (u : Bool) {a w : Int} (hI : IsI64 w) (h : (w - a) % 2 ^ (8 * s) = 0) :
    Rep s u (conv s u a) (wrapValue w s u) := by
  unfold IsI64 at hI
  rcases hs with rfl | rfl | rfl | rfl <;> cases u <;>
    simp [Rep, InRange, conv, wrapValue, toU, toS] at h ⊢ <;> (repeat' split) <;> omega

theorem conv_id {s : Nat} (hs : Sz s) (u : Bool) {a : Int} (h : InRange s u a) : conv s u a = a := by
  rcases hs with rfl | rfl | rfl | rfl <;> cases u <;>
    simp [InRange, conv, toS] at h ⊢ <;> (repeat' split) <;> omega

theorem conv_range {s : Nat} (hs : Sz s) (u : Bool) (a : Int) : InRange s u (conv s u a) := by
  rcases hs with rfl | rfl | rfl | rfl <;> cases u <;>
    simp [InRange, conv, toS] <;> (repeat' split) <;> omega

theorem conv_congr {s : Nat} (hs : Sz s) (u : Bool) (a : Int) : (conv s u a - a) % 2 ^ (8 * s) = 0 := by
  rcases hs with rfl | rfl | rfl | rfl <;> cases u <;>
    simp [conv, toS] <;> (repeat' split) <;> omega

theorem rep_congr {s : Nat} (hs : Sz s) {u : Bool} {a v : Int} (h : Rep s u a v) : (v - a) % 2 ^ 64 = 0 := by
  obtain ⟨h1, h2⟩ := h
  rcases hs with rfl | rfl | rfl | rfl <;> cases u <;>
    simp [InRange, toS] at h1 h2 <;> (repeat' split at h2) <;> omega

theorem rep_i64 {s : Nat} (hs : Sz s) {u : Bool} {a v : Int} (h : Rep s u a v) : IsI64 v := by
  obtain ⟨h1, h2⟩ := h
  unfold IsI64
  rcases hs with rfl | rfl | rfl | rfl <;> cases u <;>
    simp [InRange, toS] at h1 h2 <;> (repeat' split at h2) <;> omega

theorem rep_uns {s : Nat} (hs : Sz s) {a v : Int} (h : Rep s true a v) : toU 64 v = a := by
  obtain ⟨h1, h2⟩ := h
  unfold toU
  rcases hs with rfl | rfl | rfl | rfl <;> simp [InRange, toS] at h1 h2 <;> (repeat' split at h2) <;> omega

theorem rep_sgn {s : Nat} {a v : Int} (h : Rep s false a v) : v = a := by
  have := h.2
  simpa using this

theorem down {s : Nat} (hs : Sz s) {x : Int} (h : x % 2 ^ 64 = 0) : x % 2 ^ (8 * s) = 0 := by
  rcases hs with rfl | rfl | rfl | rfl <;> simp at h ⊢ <;> omega

theorem toS64_i64 (x : Int) : IsI64 (toS 64 x) := by
  unfold IsI64 toS
  simp only
  split <;> omega

theorem toS64_congr (x : Int) : (toS 64 x - x) % 2 ^ 64 = 0 := by
  unfold toS
  simp only
  split <;> omega

/-- A value of one type held in a cell, cast to another. -/
theorem rep_cast {s s' : Nat} (hs : Sz s) (hs' : Sz s') {u : Bool} (u' : Bool) {a v : Int} (h : Rep s u a v) :
    Rep s' u' (conv s' u' a) (wrapValue v s' u') :=
  rep_wrap hs' u' (rep_i64 hs h) (down hs' (rep_congr hs h))

theorem size_Sz {L : Nat} (hL : L = 4 ∨ L = 8) (t : Ty) : Sz (size L t) := by
  unfold size Sz fxSize
  split <;> omega

theorem castNumbers_kind (L : Nat) (l r : Ty) (hl : l.WF) (hr : r.WF) (hL : L = 4 ∨ L = 8) : 2 ≤ (castNumbers L true l r).1.kind := by
  refine ty_cases (P := fun l => 2 ≤ (castNumbers L true l r).1.kind) ?_ l hl
  intro k u
  refine ty_cases (P := fun r => 2 ≤ (castNumbers L true ⟨k, u⟩ r).1.kind) ?_ r hr
  rcases hL with rfl | rfl <;> revert k u <;> decide +kernel

/-- Promotion keeps the value. -/
theorem rep_promote {L : Nat} (hL : L = 4 ∨ L = 8) {t : Ty} (ht : t.WF) {a v : Int} (h : Rep (size L t) t.uns a v) (p : Ty)
    (hp : p = t ∨ p = promote t) : Rep (size L p) p.uns a (if p = t then v else castConst L p v) := by
  by_cases e : p = t
  · rw [if_pos e, e]; exact h
  · rw [if_neg e]
    have hp : p = promote t := by tauto
    have hpi : p = tyInt ∧ ¬ (2 ≤ t.kind ∧ t.kind ≤ 4) := by
      unfold promote at hp
      split at hp
      · exact absurd hp e
      · rename_i hh; exact ⟨hp, by simpa using hh⟩
    obtain ⟨rfl, hk⟩ := hpi
    have hin : InRange 4 false a := by
      have h1 := h.1
      obtain ⟨k, u⟩ := t
      obtain ⟨w1, w2⟩ := ht
      simp only at hk w1 w2 h1
      have : k = 0 ∨ k = 1 ∨ k = 5 ∨ k = 6 := by omega
      rcases this with rfl | rfl | rfl | rfl <;> cases u <;> simp [InRange, size, fxSize] at h1 w2 ⊢ <;> omega
    have := rep_cast (size_Sz hL t) (s' := 4) (by unfold Sz; omega) false h
    rw [conv_id (by unfold Sz; omega) false hin] at this
    exact this

/-- Conditional cast as the model writes it. -/
theorem rep_ifcast {L : Nat} (hL : L = 4 ∨ L = 8) (t t' : Ty) {a v : Int} (h : Rep (size L t) t.uns a v) :
    Rep (size L t') t'.uns (conv (size L t') t'.uns a) (if t' = t then v else castConst L t' v) := by
  split
  · rename_i e
    subst e
    rw [conv_id (size_Sz hL _) _ h.1]
    exact h
  · exact rep_cast (size_Sz hL t) (size_Sz hL t') t'.uns h

theorem toS_toU_congr (x y : Int) (h : (x - y) % 2 ^ 64 = 0) : x % 2 ^ 64 = y % 2 ^ 64 := by omega

theorem modmod {s : Nat} (hs : Sz s) (a : Int) : (a % 2 ^ (8 * s)).toNat % 2 ^ (8 * s) = (a % 2 ^ (8 * s)).toNat := by
  rcases hs with rfl | rfl | rfl | rfl <;> simp <;> omega

theorem rep_zero {s : Nat} (hs : Sz s) {u : Bool} {a v : Int} (h : Rep s u a v) : v = 0 ↔ a = 0 := by
  have h1 := rep_congr hs h
  have h2 := rep_i64 hs h
  have h3 := h.1
  unfold IsI64 at h2
  unfold InRange at h3
  rcases hs with rfl | rfl | rfl | rfl <;> split at h3 <;> simp at h3 <;> omega

/-- Bitwise operators commute with reduction. -/
theorem bits_congr (f : Nat → Nat → Nat) (hf : ∀ x y n, f x y % 2 ^ n = f (x % 2 ^ n) (y % 2 ^ n)) {s : Nat} (hs : Sz s) {u : Bool}
    {a b l r : Int} (ha : Rep s u a l) (hb : Rep s u b r) :
    Rep s u (conv s u ((f (a % 2 ^ (8 * s)).toNat (b % 2 ^ (8 * s)).toNat : Nat) : Int)) (wrapValue (bits64 f l r) s u) := by
  refine rep_wrap hs u (toS64_i64 _) ?_
  have h1 := down hs (toS64_congr ((f (toU 64 l).toNat (toU 64 r).toNat : Nat) : Int))
  have key : ∀ {c v : Int}, Rep s u c v → (toU 64 v).toNat % 2 ^ (8 * s) = (c % 2 ^ (8 * s)).toNat := by
    intro c v h
    have hc := rep_congr hs h
    unfold toU
    rcases hs with rfl | rfl | rfl | rfl <;> simp at * <;> omega
  have h2 : (f (toU 64 l).toNat (toU 64 r).toNat) % 2 ^ (8 * s) = f (a % 2 ^ (8 * s)).toNat (b % 2 ^ (8 * s)).toNat % 2 ^ (8 * s) := by
    rw [hf, key ha, key hb, hf (a % 2 ^ (8 * s)).toNat, modmod hs, modmod hs]
  unfold bits64
  revert h1 h2
  generalize f (toU 64 l).toNat (toU 64 r).toNat = x
  generalize f (a % 2 ^ (8 * s)).toNat (b % 2 ^ (8 * s)).toNat = y
  intro h1 h2
  rcases hs with rfl | rfl | rfl | rfl <;> simp at * <;> omega

theorem arith_rep {s : Nat} (hs : Sz s) {u : Bool} {x c w : Int} (h : arith s u x = some c) (hI : IsI64 w)
    (hc : (w - x) % 2 ^ (8 * s) = 0) : Rep s u c (wrapValue w s u) := by
  have : conv s u x = c := by
    unfold arith at h
    cases u with
    | true => simp only [if_true, Option.some.injEq] at h; rw [← h]; rfl
    | false =>
      simp only [Bool.false_eq_true, if_false] at h
      split at h
      · rename_i hr
        cases h
        exact conv_id hs false (by unfold InRange; simpa using hr)
      · cases h
  rw [← this]
  exact rep_wrap hs u hI hc

theorem pow_le_63 {s : Nat} (hs : Sz s) : (2 : Int) ^ (8 * s - 1) ≤ 2 ^ 63 := by
  rcases hs with rfl | rfl | rfl | rfl <;> decide

theorem calc_correct {s : Nat} (hs : Sz s) {u : Bool} {a b l r c : Int} (op : Op) (ha : Rep s u a l) (hb : Rep s u b r)
    (h : isoOp op s u a b = some c) (h0 : (op = .div ∨ op = .mod) → b ≠ 0) :
    ∃ v, calcOp op u l r = some v ∧ Rep s u c (wrapValue v s u) := by
  have hp := pow_le_63 hs
  cases op with
  | mul =>
    refine ⟨_, rfl, ?_⟩
    simp only [isoOp] at h
    cases u with
    | true =>
      rw [if_pos rfl, rep_uns hs ha, rep_uns hs hb]
      exact arith_rep hs h (toS64_i64 _) (down hs (toS64_congr _))
    | false =>
      rw [if_neg (by decide), rep_sgn ha, rep_sgn hb]
      exact arith_rep hs h (toS64_i64 _) (down hs (toS64_congr _))
  | div =>
    simp only [isoOp, if_neg (h0 (Or.inl rfl))] at h
    cases u with
    | true =>
      have r1 : 0 ≤ a := by have := ha.1; unfold InRange at this; simp at this; omega
      refine ⟨_, rfl, ?_⟩
      rw [rep_uns hs ha, rep_uns hs hb]
      rw [Int.tdiv_eq_ediv_of_nonneg r1] at h
      exact arith_rep hs h (toS64_i64 _) (down hs (toS64_congr _))
    | false =>
      have e1 := rep_sgn ha
      have e2 := rep_sgn hb
      have hc : -2 ^ (8 * s - 1) ≤ a.tdiv b ∧ a.tdiv b < 2 ^ (8 * s - 1) := by
        unfold arith at h
        simp only [Bool.false_eq_true, if_false] at h
        split at h
        · assumption
        · cases h
      have hnt : ¬ (l = -2 ^ 63 ∧ r = -1) := by
        rintro ⟨x, y⟩
        rw [← e1, ← e2, x, y] at hc
        have : ((-2 ^ 63 : Int)).tdiv (-1) = 2 ^ 63 := by decide
        omega
      refine ⟨l.tdiv r, by simp only [calcOp, Bool.false_eq_true, if_false, if_neg hnt], ?_⟩
      rw [e1, e2]
      refine arith_rep hs h ?_ (by simp)
      unfold IsI64
      omega
  | mod =>
    simp only [isoOp, if_neg (h0 (Or.inr rfl))] at h
    split at h
    · cases h
    · rename_i hd
      cases h
      cases u with
      | true =>
        have ra := ha.1
        have rb := hb.1
        unfold InRange at ra rb
        simp only [if_true] at ra rb
        have hb0 := h0 (Or.inr rfl)
        refine ⟨_, rfl, ?_⟩
        rw [rep_uns hs ha, rep_uns hs hb, Int.tmod_eq_emod_of_nonneg ra.1]
        have h1 := Int.emod_nonneg a hb0
        have h2 := Int.emod_lt_of_pos a (show 0 < b by omega)
        have hin : InRange s true (a % b) := by unfold InRange; simp only [if_true]; omega
        have := rep_wrap hs true (toS64_i64 (a % b)) (down hs (toS64_congr (a % b)))
        rwa [conv_id hs true hin] at this
      | false =>
        have e1 := rep_sgn ha
        have e2 := rep_sgn hb
        have hc : -2 ^ (8 * s - 1) ≤ a.tdiv b ∧ a.tdiv b < 2 ^ (8 * s - 1) := by
          unfold arith at hd
          simp only [Bool.false_eq_true, if_false] at hd
          by_contra hn
          rw [if_neg hn] at hd
          exact hd rfl
        have hnt : ¬ (l = -2 ^ 63 ∧ r = -1) := by
          rintro ⟨x, y⟩
          rw [← e1, ← e2, x, y] at hc
          have : ((-2 ^ 63 : Int)).tdiv (-1) = 2 ^ 63 := by decide
          omega
        have ra := ha.1
        have rb := hb.1
        have hb0 := h0 (Or.inr rfl)
        refine ⟨l.tmod r, by simp only [calcOp, Bool.false_eq_true, if_false, if_neg hnt], ?_⟩
        rw [e1, e2]
        have hin : InRange s false (a.tmod b) := by
          unfold InRange at ra rb ⊢
          simp only [Bool.false_eq_true, if_false] at ra rb ⊢
          have h1 : (a.tmod b).natAbs < b.natAbs := by
            rw [Int.natAbs_tmod]
            exact Nat.mod_lt _ (by omega)
          omega
        have hI : IsI64 (a.tmod b) := by
          unfold InRange at hin
          simp only [Bool.false_eq_true, if_false] at hin
          unfold IsI64
          omega
        have := rep_wrap hs false hI (show (a.tmod b - a.tmod b) % 2 ^ (8 * s) = 0 by simp)
        rwa [conv_id hs false hin] at this
  | band =>
    simp only [isoOp, Option.some.injEq] at h
    rw [← h]
    exact ⟨_, rfl, bits_congr _ (fun x y n => Nat.and_mod_two_pow) hs ha hb⟩
  | bor =>
    simp only [isoOp, Option.some.injEq] at h
    rw [← h]
    exact ⟨_, rfl, bits_congr _ (fun x y n => Nat.or_mod_two_pow) hs ha hb⟩
  | bxor =>
    simp only [isoOp, Option.some.injEq] at h
    rw [← h]
    exact ⟨_, rfl, bits_congr _ (fun x y n => Nat.xor_mod_two_pow) hs ha hb⟩

/-! ## C28: theorems -/

/-- **C28.** `*` `/` `%` `&` `|` `^` on constants: whenever ISO C defines the result on the operands converted to their
common type, the operation is folded to that result, in a type of the right size and sign. -/
theorem numBop_correct (L : Nat) (hL : L = 4 ∨ L = 8) (op : Op) (lt rt : Ty) (hl : lt.WF) (hr : rt.WF) (a b lv rv c : Int)
    (ha : Rep (size L lt) lt.uns a lv) (hb : Rep (size L rt) rt.uns b rv)
    (h : let t := isoCommon L lt rt
      isoOp op (size L t) t.uns (conv (size L t) t.uns a) (conv (size L t) t.uns b) = some c) :
    ∃ t v, numBop L op lt lv rt rv = .const t v ∧ size L t = size L (isoCommon L lt rt) ∧ t.uns = (isoCommon L lt rt).uns ∧
      Rep (size L t) t.uns c v := by
  obtain ⟨e12, es, eu⟩ := common_size_sign L hL lt rt hl hr
  have hk := castNumbers_kind L lt rt hl hr hL
  have ra := rep_ifcast hL lt (castNumbers L true lt rt).1 ha
  have rb := rep_ifcast hL rt (castNumbers L true lt rt).2 hb
  simp only at h e12 es eu
  rw [← es, ← eu] at h ⊢
  unfold numBop
  simp only
  generalize castNumbers L true lt rt = ts at *
  obtain ⟨t, t2⟩ := ts
  simp only at e12
  subst e12
  simp only at hk ra rb h ⊢
  have hz := size_Sz hL t
  generalize (if t = lt then lv else castConst L t lv) = l at *
  generalize (if t = rt then rv else castConst L t rv) = r at *
  have hnz : (op = .div ∨ op = .mod) → conv (size L t) t.uns b ≠ 0 := by
    rintro (rfl | rfl) e <;> · simp only [isoOp, if_pos e] at h; cases h
  rw [if_neg (by
    rintro ⟨ho, e⟩
    exact hnz ho ((rep_zero hz rb).1 e))]
  obtain ⟨v, e, hv⟩ := calc_correct hz op ra rb h hnz
  rw [e]
  simp only [ge_iff_le, Nat.le_refl, if_true, if_neg (show ¬ t.kind < 2 by omega)]
  exact ⟨t, _, rfl, rfl, rfl, hv⟩

/-- **C28 (partial).** A sum or difference of constants is folded to the ISO result where choosing the type by kind alone
is right (`addsub_type_partial` says when).  Missing: the rest, `addsub_sign`. -/
theorem addsub_correct_partial (L : Nat) (hL : L = 4 ∨ L = 8) (sub : Bool) (lt rt : Ty) (hl : lt.WF) (hr : rt.WF) (a b lv rv c : Int)
    (ha : Rep (size L lt) lt.uns a lv) (hb : Rep (size L rt) rt.uns b rv) (hk : KindDecides L true lt rt)
    (h : let t := isoCommon L lt rt
      arith (size L t) t.uns (if sub then conv (size L t) t.uns a - conv (size L t) t.uns b
        else conv (size L t) t.uns a + conv (size L t) t.uns b) = some c) :
    ∃ t v, addsub L sub lt lv rt rv = .const t v ∧ size L t = size L (isoCommon L lt rt) ∧ t.uns = (isoCommon L lt rt).uns ∧
      Rep (size L t) t.uns c v := by
  obtain ⟨es, eu⟩ := (addsub_type_partial L hL lt rt hl hr).2 hk
  refine ⟨_, _, rfl, es, eu, ?_⟩
  simp only at h
  rw [← es, ← eu] at h
  generalize addsubType lt rt = t at *
  have hz := size_Sz hL t
  refine arith_rep hz h (toS64_i64 _) ?_
  have h1 := down hz (toS64_congr (if sub then lv - rv else lv + rv))
  have h2 := down hz (rep_congr (size_Sz hL lt) ha)
  have h3 := down hz (rep_congr (size_Sz hL rt) hb)
  have h4 := conv_congr hz t.uns a
  have h5 := conv_congr hz t.uns b
  generalize toS 64 (if sub then lv - rv else lv + rv) = w at *
  generalize conv (size L t) t.uns a = a' at *
  generalize conv (size L t) t.uns b = b' at *
  generalize size L t = z at *
  cases sub <;> simp only [Bool.false_eq_true, if_false, if_true] at * <;> rcases hz with rfl | rfl | rfl | rfl <;> simp at * <;> omega

/-- **C28.** A comparison of constants is folded to the comparison of the operands converted to their common type. -/
theorem cmp_correct (L : Nat) (hL : L = 4 ∨ L = 8) (k : Rel) (lt rt : Ty) (hl : lt.WF) (hr : rt.WF) (a b lv rv : Int)
    (ha : Rep (size L lt) lt.uns a lv) (hb : Rep (size L rt) rt.uns b rv) :
    let t := isoCommon L lt rt
    let x := conv (size L t) t.uns a
    let y := conv (size L t) t.uns b
    cmp L k lt lv rt rv = match k with
      | .eq => decide (x = y) | .ne => decide (x ≠ y) | .lt => decide (x < y) | .le => decide (x ≤ y)
      | .ge => decide (y ≤ x) | .gt => decide (y < x) := by
  simp only
  obtain ⟨e12, es, eu⟩ := cmp_size_sign L hL lt rt hl hr
  have ra := rep_promote hL hl ha (if lt.kind < 2 then promote lt else lt) (by split <;> simp)
  have rb := rep_promote hL hr hb (if rt.kind < 2 then promote rt else rt) (by split <;> simp)
  unfold cmp
  unfold cmpTypes at e12 es eu
  simp only at e12 es eu ⊢
  generalize (if lt.kind < 2 then promote lt else lt) = pl at *
  generalize (if rt.kind < 2 then promote rt else rt) = pr at *
  have ra' := rep_ifcast hL pl (castNumbers L false pl pr).1 ra
  have rb' := rep_ifcast hL pr (castNumbers L false pl pr).2 rb
  rw [← es, ← eu]
  generalize castNumbers L false pl pr = ts at *
  obtain ⟨t, t2⟩ := ts
  simp only at e12
  subst e12
  simp only [Bool.or_self] at ra' rb' ⊢
  generalize (if t = pl then (if pl = lt then lv else castConst L pl lv) else castConst L t (if pl = lt then lv else castConst L pl lv)) = l at *
  generalize (if t = pr then (if pr = rt then rv else castConst L pr rv) else castConst L t (if pr = rt then rv else castConst L pr rv)) = r at *
  cases hu : t.uns with
  | true =>
    rw [hu] at ra' rb'
    rw [if_pos rfl, rep_uns (size_Sz hL t) ra', rep_uns (size_Sz hL t) rb']
    cases k <;> simp [judge]
  | false =>
    rw [hu] at ra' rb'
    rw [if_neg (by decide), rep_sgn ra', rep_sgn rb']
    cases k <;> simp [judge]

/-- **C28.** Unary `-` and `~` of a constant. -/
theorem unary_correct (L : Nat) (hL : L = 4 ∨ L = 8) (neg : Bool) (t : Ty) (ht : t.WF) (a v : Int) (h : Rep (size L t) t.uns a v) :
    let p := isoPromote t
    (unary L neg t v).1 = p ∧
      ∀ c, (if neg then arith (size L p) p.uns (-a) else some (conv (size L p) p.uns (-a - 1))) = some c →
        Rep (size L p) p.uns c (unary L neg t v).2 := by
  have hp : promote t = isoPromote t := by
    unfold promote isoPromote
    by_cases h2 : 2 ≤ t.kind ∧ t.kind ≤ 4
    · rw [if_pos (by simpa using h2), if_pos (by omega)]
    · rw [if_neg (by simpa using h2), if_neg (by omega)]
  refine ⟨hp, ?_⟩
  have r := rep_promote hL ht h (promote t) (Or.inr rfl)
  rw [← hp]
  simp only [unary]
  generalize promote t = p at *
  generalize (if p = t then v else castConst L p v) = w at *
  have hz := size_Sz hL p
  have h1 := rep_congr hz r
  have h2 := rep_i64 hz r
  intro c hc
  cases neg with
  | true =>
    simp only [if_true] at hc ⊢
    refine arith_rep hz hc (toS64_i64 _) (down hz ?_)
    have := toS64_congr (-w)
    omega
  | false =>
    simp only [Bool.false_eq_true, if_false, Option.some.injEq] at hc ⊢
    rw [← hc]
    refine rep_wrap hz _ ?_ (down hz ?_)
    · unfold IsI64 at *; omega
    · omega

/-- **C28.** A shift of constants by less than the width of the promoted left operand. -/
theorem shift_correct (L : Nat) (hL : L = 4 ∨ L = 8) (left : Bool) (lt : Ty) (hl : lt.WF) (a lv : Int) (n : Nat) (h : Rep (size L lt) lt.uns a lv)
    (hn : n < 8 * size L (isoPromote lt)) :
    ∃ v, shift L left lt lv n = .const (isoPromote lt) v ∧
      ∀ c, (if left then arith (size L (isoPromote lt)) (isoPromote lt).uns (a * 2 ^ n) else some (a / 2 ^ n)) = some c →
        Rep (size L (isoPromote lt)) (isoPromote lt).uns c v := by
  have hp : promote lt = isoPromote lt := by
    unfold promote isoPromote
    by_cases h2 : 2 ≤ lt.kind ∧ lt.kind ≤ 4
    · rw [if_pos (by simpa using h2), if_pos (by omega)]
    · rw [if_neg (by simpa using h2), if_neg (by omega)]
  rw [← hp] at hn ⊢
  have r := rep_promote hL hl h (promote lt) (Or.inr rfl)
  unfold shift
  simp only
  generalize promote lt = p at *
  generalize (if p = lt then lv else castConst L p lv) = w at *
  have hz := size_Sz hL p
  have hn64 : ¬ ((n : Int) < 0 ∨ 64 ≤ (n : Int)) := by
    rcases hz with e | e | e | e <;> rw [e] at hn <;> omega
  rw [if_neg hn64]
  refine ⟨_, rfl, ?_⟩
  simp only [Int.toNat_natCast]
  intro c hc
  have hpw : (0 : Int) < 2 ^ n := by positivity
  cases hu : p.uns with
  | true =>
    rw [hu] at r hc
    rw [if_pos rfl, rep_uns hz r]
    cases left with
    | true =>
      simp only [if_true] at hc ⊢
      exact arith_rep hz hc (toS64_i64 _) (down hz (toS64_congr _))
    | false =>
      simp only [Bool.false_eq_true, if_false, Option.some.injEq] at hc ⊢
      have h1 := r.1
      have : InRange (size L p) true (a / 2 ^ n) := by
        unfold InRange at h1 ⊢
        simp only [if_true] at h1 ⊢
        have := Int.ediv_le_self (2 ^ n) h1.1
        exact ⟨Int.ediv_nonneg h1.1 (by omega), by omega⟩
      have := rep_wrap hz true (toS64_i64 (a / 2 ^ n)) (down hz (toS64_congr (a / 2 ^ n)))
      rw [conv_id hz true (by assumption)] at this
      rw [← hc]; exact this
  | false =>
    rw [hu] at r hc
    rw [if_neg (by decide), rep_sgn r]
    cases left with
    | true =>
      simp only [if_true] at hc ⊢
      exact arith_rep hz hc (toS64_i64 _) (down hz (toS64_congr _))
    | false =>
      simp only [Bool.false_eq_true, if_false, Option.some.injEq] at hc ⊢
      have h1 := r.1
      have h3 := pow_le_63 hz
      have hin : InRange (size L p) false (a / 2 ^ n) := by
        unfold InRange at h1 ⊢
        simp only [Bool.false_eq_true, if_false] at h1 ⊢
        generalize (2 : Int) ^ (8 * size L p - 1) = m at *
        constructor
        · rw [Int.le_ediv_iff_mul_le hpw]
          have : -m * 2 ^ n ≤ -m * 1 := Int.mul_le_mul_of_nonpos_left (by omega) (by omega)
          omega
        · rw [Int.ediv_lt_iff_lt_mul hpw]
          have : m * 1 ≤ m * 2 ^ n := Int.mul_le_mul_of_nonneg_left (by omega) (by omega)
          omega
      have hI : IsI64 (a / 2 ^ n) := by
        unfold InRange at hin
        simp only [Bool.false_eq_true, if_false] at hin
        unfold IsI64
        omega
      have := rep_wrap hz false hI (show (a / 2 ^ n - a / 2 ^ n) % 2 ^ (8 * size L p) = 0 by simp)
      rw [conv_id hz false hin] at this
      rw [← hc]; exact this

/-- **C28.** With a constant right operand only, what the operation is simplified to has the operation's value. -/
theorem simplify_correct {s : Nat} (hs : Sz s) (u : Bool) (op : Op) (a b rv c : Int) (ha : InRange s u a) (hb : Rep s u b rv)
    (h : isoOp op s u a b = some c) (k : Simp) (hk : simplify op rv = some k) :
    match k with
    | .zero => c = b
    | .negate => arith s u (-a) = some c
    | .same => c = a := by
  have hz := rep_zero hs hb
  have h1 : rv = 1 → b = 1 := by
    intro e
    have hb1 := hb.1
    have hb2 := rep_congr hs hb
    subst e
    unfold InRange at hb1
    rcases hs with rfl | rfl | rfl | rfl <;> split at hb1 <;> simp at hb1 <;> omega
  have ea : ∀ x, arith s u x = some c → x = a → c = a := by
    intro x hx e
    rw [e] at hx
    have := arith_rep hs hx (toS64_i64 a) (down hs (toS64_congr a))
    unfold arith at hx
    unfold InRange at ha
    cases u with
    | true =>
      simp only [if_true, Option.some.injEq] at hx ha
      rw [← hx]
      exact Int.emod_eq_of_lt ha.1 ha.2
    | false =>
      simp only [Bool.false_eq_true, if_false] at hx
      split at hx
      · cases hx; rfl
      · cases hx
  have c0 : conv s u 0 = 0 := by
    refine conv_id hs u ?_
    unfold InRange
    rcases hs with rfl | rfl | rfl | rfl <;> split <;> simp
  have ca : conv s u ((a % 2 ^ (8 * s)).toNat : Int) = a := by
    unfold InRange at ha
    rcases hs with rfl | rfl | rfl | rfl <;> cases u <;> simp [conv, toS] at ha ⊢ <;> (try split) <;> omega
  cases op with
  | mul =>
    simp only [simplify] at hk
    simp only [isoOp] at h
    by_cases e0 : rv = 0
    · rw [if_pos e0] at hk
      cases hk
      simp only
      have hb0 := hz.1 e0
      rw [hb0] at h ⊢
      rw [Int.mul_zero] at h
      unfold arith at h
      cases u with
      | true => simp at h; exact h.symm
      | false =>
        simp only [Bool.false_eq_true, if_false] at h
        split at h
        · cases h; rfl
        · cases h
    · rw [if_neg e0] at hk
      by_cases e1 : rv = -1
      · rw [if_pos e1] at hk
        cases hk
        simp only
        subst e1
        cases u with
        | false =>
          have := rep_sgn hb
          rw [← this] at h
          rw [show a * -1 = -a by omega] at h
          exact h
        | true =>
          have := rep_uns hs hb
          unfold toU at this
          have e8 : s = 8 := by
            have hb1 := hb.1
            unfold InRange at hb1
            rcases hs with rfl | rfl | rfl | rfl <;> simp at hb1 <;> omega
          subst e8
          rw [← this] at h
          simp only [arith, if_true, Option.some.injEq] at h ⊢
          rw [← h]
          simp
          omega
      · rw [if_neg e1] at hk
        split at hk
        · rename_i e
          cases hk
          simp only
          rw [h1 e, Int.mul_one] at h
          exact ea a h rfl
        · cases hk
  | div =>
    simp only [simplify] at hk
    split at hk
    · rename_i e
      cases hk
      simp only [isoOp] at h ⊢
      rw [h1 e, if_neg (by decide), Int.tdiv_one] at h
      exact ea a h rfl
    · cases hk
  | mod => cases hk
  | band =>
    simp only [simplify] at hk
    split at hk
    · rename_i e
      cases hk
      simp only [isoOp, Option.some.injEq] at h ⊢
      rw [hz.1 e] at h ⊢
      simp [c0] at h
      exact h.symm
    · cases hk
  | bor =>
    simp only [simplify] at hk
    split at hk
    · rename_i e
      cases hk
      simp only [isoOp, Option.some.injEq] at h ⊢
      rw [hz.1 e, Int.zero_emod, Int.toNat_zero, Nat.or_zero, ca] at h
      exact h.symm
    · cases hk
  | bxor =>
    simp only [simplify] at hk
    split at hk
    · rename_i e
      cases hk
      simp only [isoOp, Option.some.injEq] at h ⊢
      rw [hz.1 e, Int.zero_emod, Int.toNat_zero, Nat.xor_zero, ca] at h
      exact h.symm
    · cases hk

/-- **C28.** Testing an integer comparison against a constant: the replacement gives the value of the test. -/
theorem cmpOfCmp_correct (isEq : Bool) (p : Rel) (c l r : Int) :
    (match cmpOfCmp isEq p c with
      | .inl k => judge k l r
      | .inr b => b) = decide (((if judge p l r then 1 else 0 : Int) = c) ↔ isEq = true) := by
  unfold cmpOfCmp
  by_cases h0 : c = 0
  · subst h0
    cases isEq <;> cases p <;> simp [judge, negRel] <;> omega
  · by_cases h1 : c = 1
    · subst h1
      cases isEq <;> cases p <;> simp [judge, negRel] <;> omega
    · simp only [h0, h1, or_self, if_false]
      have : ¬ ((if judge p l r then 1 else 0 : Int) = c) := by split <;> omega
      simp only [this, false_iff]
      cases isEq <;> simp

/-! ## Findings -/

/-- **C28, finding.** The sum or difference of an `int` and an `unsigned int` constant, in that order, is folded as an `int`:
`0 - 1u` is -1, not 4294967295 (so `0 - 1u > 0` is false and `(0 - 1u) / 2` is 0). -/
theorem addsub_sign : addsub 8 true ⟨2, false⟩ 0 ⟨2, true⟩ 1 = .const ⟨2, false⟩ (-1) ∧ isoCommon 8 ⟨2, false⟩ ⟨2, true⟩ = ⟨2, true⟩ ∧
    arith 4 true (0 - 1) = some 4294967295 := by decide

/-- The general form: whenever the kinds do not decide, the folded sum has the wrong size or sign. -/
theorem addsub_sign_general (L : Nat) (hL : L = 4 ∨ L = 8) (sub : Bool) (lt rt : Ty) (hl : lt.WF) (hr : rt.WF) (lv rv : Int)
    (h : ¬ KindDecides L true lt rt) :
    ∀ t v, addsub L sub lt lv rt rv = .const t v → ¬ (size L t = size L (isoCommon L lt rt) ∧ t.uns = (isoCommon L lt rt).uns) := by
  intro t v e
  unfold addsub at e
  cases e
  exact fun hh => h ((addsub_type_partial L hL lt rt hl hr).1 hh)

/-- **C28, finding.** Folding `INT64_MIN / -1` or `INT64_MIN % -1` traps inside the compiler, and a constant shift count of 64 or
more is undefined there, even in code that is never executed. -/
theorem fold_traps : numBop 8 .div ⟨3, false⟩ (-2 ^ 63) ⟨2, false⟩ (-1) = .trap ∧ numBop 8 .mod ⟨3, false⟩ (-2 ^ 63) ⟨2, false⟩ (-1) = .trap ∧
    shift 8 true ⟨2, false⟩ 1 64 = .trap := by decide

/-- **C28, finding.** On floating-point operands the replacement is wrong: `(x < y) == 0` becomes `x >= y`, false on a NaN. -/
theorem cmpOfCmp_nan : cmpOfCmp true .lt 0 = .inl .ge ∧ judgeF .lt none (some 0) = false ∧ judgeF .ge none (some 0) = false := by decide

/-! ## Non-vacuity -/

example : Ty.WF ⟨5, false⟩ ∧ Ty.WF ⟨4, true⟩ ∧ Rep 8 true (2 ^ 64 - 1) (-1) ∧ Rep 4 true (2 ^ 32 - 1) (2 ^ 32 - 1) := by
  simp [Ty.WF, Rep, InRange, toS]
example : numBop 8 .mul ⟨2, true⟩ 4294967295 ⟨0, false⟩ (-1) = .const ⟨2, true⟩ 1 := by decide
example : KindDecides 8 true ⟨2, true⟩ ⟨2, false⟩ ∧ KindDecides 8 true ⟨2, true⟩ ⟨3, false⟩ ∧ ¬ KindDecides 8 true ⟨2, false⟩ ⟨2, true⟩ := by decide
example : cmp 8 .lt ⟨2, false⟩ (-1) ⟨2, true⟩ 1 = false ∧ cmp 8 .lt ⟨0, false⟩ (-1) ⟨3, false⟩ 1 = true := by decide
example : shift 8 false ⟨2, false⟩ (-8) 1 = .const ⟨2, false⟩ (-4) ∧ shift 8 true ⟨2, true⟩ 1 31 = .const ⟨2, true⟩ 2147483648 := by decide
example : simplify .mul (-1) = some .negate ∧ isoOp .mul 4 false 5 (-1) = some (-5) := by decide
example : size 8 (isoPromote ⟨0, true⟩) = size 8 (isoPromote ⟨2, false⟩) → (isoPromote ⟨0, true⟩).kind = (isoPromote ⟨2, false⟩).kind := by decide

end Verif.Fold

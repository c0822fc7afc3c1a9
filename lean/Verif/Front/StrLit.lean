/-!
# C88: string literals and character constants

`read_string`, `read_char`, `backslash`, `read_utf8_char`, `convert_str_to_wstr`
and `skip_whitespace_or_comment` (src/cc/frontend/lexer.c:167-213,342-391,519-666)
on the text of a translation unit, against C11 6.4.4.4 and 6.4.5.  Bytes are
numbers below 256.
-/

namespace Verif.StrLit

/-! ## Model -/

/-- `isoctal`, src/util/util.c:37-39. -/
def octal (c : Nat) : Option Nat := if 48 ≤ c ∧ c ≤ 55 then some (c - 48) else none

/-- `xvalue`, src/util/util.c:41-46. -/
def xvalue (c : Nat) : Option Nat :=
  if 48 ≤ c ∧ c ≤ 57 then some (c - 48)
  else if 65 ≤ c ∧ c ≤ 70 then some (c - 55)
  else if 97 ≤ c ∧ c ≤ 102 then some (c - 87)
  else none

/-- The loops of `backslash`, src/cc/frontend/lexer.c:177-182,190-195, at most `n`
digits in base `b`.  `vv` is a `char`, kept as its byte. -/
def digits (dig : Nat → Option Nat) (b : Nat) : Nat → Nat → List Nat → Nat × List Nat
  | 0, vv, p => (vv, p)
  | _ + 1, vv, [] => (vv, [])
  | n + 1, vv, c :: p => match dig c with
    | none => (vv, c :: p)
    | some d => digits dig b n ((vv * b + d) % 256) p

/-- The letters of `backslash`, src/cc/frontend/lexer.c:199-205,210-211. -/
def letter (c : Nat) : Option Nat :=
  if c = 97 then some 7 else if c = 98 then some 8 else if c = 102 then some 12
  else if c = 110 then some 10 else if c = 114 then some 13 else if c = 116 then some 9
  else if c = 118 then some 11 else if c = 39 ∨ c = 34 ∨ c = 92 then some c else none

/-- `backslash`, src/cc/frontend/lexer.c:167-213, on the text after the
backslash: the byte and the text after the escape.  `none` is `lex_error`. -/
def backslash (wide : Bool) : List Nat → Option (Nat × List Nat)
  | [] => none
  | c :: p => match octal c with
    | some d => some (digits octal 8 (if wide then 11 else 2) d p)
    | none =>
      if c = 120 then some (digits xvalue 16 (if wide then 8 else 2) 0 p)
      else (letter c).map (·, p)

theorem digits_le (dig : Nat → Option Nat) (b : Nat) : ∀ n vv p, (digits dig b n vv p).2.length ≤ p.length
  | 0, _, _ => Nat.le_refl _
  | _ + 1, _, [] => Nat.le_refl _
  | n + 1, vv, c :: p => by
    rw [digits]
    split
    · exact Nat.le_refl _
    · have := digits_le dig b n
      exact Nat.le_trans (this _ p) (by simp)

theorem backslash_le {wide : Bool} {p : List Nat} {c : Nat} {r : List Nat}
    (h : backslash wide p = some (c, r)) : r.length ≤ p.length := by
  cases p with
  | nil => simp [backslash] at h
  | cons x p =>
    simp only [backslash] at h
    split at h
    · simp only [Option.some.injEq] at h
      have := digits_le octal 8 (if wide = true then 11 else 2) ‹Nat› p
      rw [h] at this
      simp only [List.length_cons] at this ⊢
      omega
    · split at h
      · simp only [Option.some.injEq] at h
        have := digits_le xvalue 16 (if wide = true then 8 else 2) 0 p
        rw [h] at this
        simp only [List.length_cons] at this ⊢
        omega
      · obtain ⟨_, _, h⟩ := Option.map_eq_some_iff.1 h
        simp only [Prod.mk.injEq] at h
        rw [← h.2]
        simp

/-- The inner loop of `read_string`, src/cc/frontend/lexer.c:617-634: the bytes
up to the quote and the text after it.  The line ends at a newline. -/
def body (wide : Bool) : List Nat → Option (List Nat × List Nat)
  | [] => none
  | c :: p =>
    if c = 34 then some ([], p)
    else if c = 10 then none
    else if c = 92 then
      match h : backslash wide p with
      | none => none
      | some (v, r) => (body wide r).map (fun x => (v :: x.1, x.2))
    else (body wide p).map (fun x => (c :: x.1, x.2))
termination_by p => p.length
decreasing_by
  · have := backslash_le h
    simp only [List.length_cons]
    omega
  · simp

/-- `isspace` in the C locale. -/
def space (c : Nat) : Bool := c = 32 ∨ (9 ≤ c ∧ c ≤ 13)

/-- `block_comment_end` over the lines, src/util/util.c:324-332,
src/cc/frontend/lexer.c:342-352. -/
def blockEnd : List Nat → Option (List Nat)
  | [] => none
  | [_] => none
  | c :: d :: p => if c = 42 ∧ d = 47 then some p else blockEnd (d :: p)

theorem blockEnd_lt : ∀ {p r : List Nat}, blockEnd p = some r → r.length < p.length
  | [], _, h => by simp [blockEnd] at h
  | [_], _, h => by simp [blockEnd] at h
  | c :: d :: p, r, h => by
    simp only [blockEnd] at h
    split at h
    · cases h
      simp only [List.length_cons]
      omega
    · have := blockEnd_lt h
      simp only [List.length_cons] at this ⊢
      omega

/-- `skip_whitespace_or_comment`, src/cc/frontend/lexer.c:358-391, over the
remaining text: reading the next line is going on behind the newline.  Not
modelled: line markers between. -/
def skip (t : List Nat) : Option (List Nat) :=
  match t with
  | [] => some []
  | c :: p =>
    if space c then skip p
    else if c = 47 then
      match p with
      | [] => some [c]
      | d :: r =>
        if d = 42 then
          match h : blockEnd r with
          | none => none
          | some r' => skip r'
        else if d = 47 then skip (r.dropWhile (· ≠ 10))
        else some (c :: d :: r)
    else some (c :: p)
termination_by t.length
decreasing_by
  · simp
  · have := blockEnd_lt h
    simp only [List.length_cons]
    omega
  · have := (List.dropWhile_sublist (· ≠ 10) (l := r)).length_le
    simp only [List.length_cons]
    omega

/-- Whether a string literal starts, src/cc/frontend/lexer.c:640-644: the text
after its quote, and whether it has an `L`. -/
def opening : List Nat → Option (Bool × List Nat)
  | 34 :: p => some (false, p)
  | 76 :: 34 :: p => some (true, p)
  | _ => none

/-- `read_utf8_char`, src/cc/frontend/lexer.c:519-545, `isutf8first` and
`isutf8follow`, src/util/util.c:18-35.  `*p` is a signed `char`.  At the end of
the string it reads the terminator. -/
def utf8 (wide : Bool) : List Nat → Option (Int × List Nat)
  | [] => some (0, [])
  | c :: p =>
    if c = 92 then
      match p with
      | [] => some (0, [])
      | _ => (backslash wide p).map (fun x => (if x.1 < 128 then x.1 else (x.1 : Int) - 256, x.2))
    else if c < 128 then some (c, p)
    else if c < 192 then some ((c : Int) - 256, p)
    else
      let n := if c ≥ 252 then 6 else if c ≥ 248 then 5 else if c ≥ 240 then 4 else if c ≥ 224 then 3 else 2
      follow (n - 1) (c % 2 ^ (8 - n)) p
where
  /-- The loop over the following bytes, src/cc/frontend/lexer.c:533-539. -/
  follow : Nat → Nat → List Nat → Option (Int × List Nat)
  | 0, c, p => some (c, p)
  | _ + 1, _, [] => none
  | n + 1, c, d :: p => if 128 ≤ d ∧ d < 192 then follow n (c * 64 + d % 64) p else none

/-- `convert_str_to_wstr`, src/cc/frontend/lexer.c:576-599, on the bytes before
the terminator.  `fuel` is the number of characters at most. -/
def widen : Nat → List Nat → Option (List Int)
  | 0, _ => none
  | fuel + 1, p => match utf8 true p with
    | none => none
    | some (c, r) => if c = 0 then some [0] else (widen fuel r).map (c :: ·)

/-- The literal that is read: its elements with the terminator. -/
inductive Lit where
  | narrow (bytes : List Nat)
  | wide (chars : List Int)
  deriving DecidableEq, Repr

/-- The outer loop of `read_string`, src/cc/frontend/lexer.c:608-646, outside the
preprocessor.  `fuel` bounds the number of adjacent literals. -/
def pieces : Nat → Bool → List Nat → List Nat → Option (Bool × List Nat × List Nat)
  | 0, _, _, _ => none
  | fuel + 1, wide, acc, t => match opening t with
    | none => some (wide, acc, t)
    | some (l, p) => match body (wide || l) p with
      | none => none
      | some (bs, r) => match skip r with
        | none => none
        | some q => pieces fuel (wide || l) (acc ++ bs) q

/-- `read_string`, src/cc/frontend/lexer.c:601-666. -/
def readString (t : List Nat) : Option (Lit × List Nat) :=
  match pieces (t.length + 1) false [] t with
  | none => none
  | some (false, bs, q) => some (.narrow (bs ++ [0]), q)
  | some (true, bs, q) => (widen (bs.length + 1) bs).map (fun w => (.wide w, q))

/-- What `read_char` does. -/
inductive CharRes where
  | value (v : Int) (rest : List Nat)
  | error
  | beyond  -- reads behind the end of the line's buffer
  deriving DecidableEq, Repr

/-- `read_char`, src/cc/frontend/lexer.c:547-574, after the opening quote.  The
text of the line ends at a newline, where the buffer has its terminator. -/
def readChar (wide : Bool) (t : List Nat) : CharRes :=
  let line := t.takeWhile (· ≠ 10)
  match line with
  | [] => .beyond
  | 39 :: _ => .error
  | _ => match utf8 wide line with
    | none => .error
    | some (v, r) => match r with
      | 39 :: rest => .value v (rest ++ t.dropWhile (· ≠ 10))
      | _ => .error
/-! ## Specification: C11 6.4.4.4, 6.4.5 -/

/-- An element of a literal: a source character, a simple escape, an octal
escape (digit values), a hexadecimal escape (the digits as written). -/
inductive Elem where
  | chr (c : Nat)
  | esc (c : Nat)
  | oct (ds : List Nat)
  | hex (ds : List Nat)
  deriving DecidableEq, Repr

/-- How it is written. -/
def Elem.text : Elem → List Nat
  | .chr c => [c]
  | .esc c => [92, c]
  | .oct ds => 92 :: ds.map (48 + ·)
  | .hex ds => 92 :: 120 :: ds

/-- Simple escapes (6.4.4.4p1, 5.2.2). -/
def simple : List (Nat × Nat) :=
  [(39, 39), (34, 34), (63, 63), (92, 92), (97, 7), (98, 8), (102, 12), (110, 10), (114, 13), (116, 9),
    (118, 11)]

/-- A hexadecimal digit and its value. -/
def hexDigits : List (Nat × Nat) :=
  [(48, 0), (49, 1), (50, 2), (51, 3), (52, 4), (53, 5), (54, 6), (55, 7), (56, 8), (57, 9), (97, 10),
    (98, 11), (99, 12), (100, 13), (101, 14), (102, 15), (65, 10), (66, 11), (67, 12), (68, 13), (69, 14),
    (70, 15)]

/-- What it means. -/
def Elem.value : Elem → Nat
  | .chr c => c
  | .esc c => (simple.lookup c).getD 0
  | .oct ds => ds.foldl (fun v d => v * 8 + d) 0
  | .hex ds => ds.foldl (fun v d => v * 16 + (hexDigits.lookup d).getD 0) 0

/-- The text does not go on with such a character. -/
def NotNext (P : Nat → Prop) (next : List Nat) : Prop := ∀ c r, next = c :: r → ¬ P c

/-- A well-formed element of a string literal before the text `next`: escapes
are as long as they can be, their values fit a `char`. -/
def Elem.Ok (e : Elem) (next : List Nat) : Prop := match e with
  | .chr c => c ≠ 34 ∧ c ≠ 92 ∧ c ≠ 10
  | .esc c => (simple.lookup c).isSome
  | .oct ds => ds ≠ [] ∧ ds.length ≤ 3 ∧ (∀ d ∈ ds, d < 8) ∧ (Elem.oct ds).value < 256 ∧
      (ds.length < 3 → NotNext (fun c => 48 ≤ c ∧ c ≤ 55) next)
  | .hex ds => ds ≠ [] ∧ (∀ d ∈ ds, (hexDigits.lookup d).isSome) ∧ (Elem.hex ds).value < 256 ∧
      NotNext (fun c => (hexDigits.lookup c).isSome) next

/-- The text of a sequence. -/
def textL (es : List Elem) : List Nat := (es.map Elem.text).flatten

/-- All elements are well-formed where they stand. -/
def OkL : List Elem → List Nat → Prop
  | [], _ => True
  | e :: es, after => e.Ok (textL es ++ after) ∧ OkL es after

/-- Not `\?`, at most two hexadecimal digits (see the findings). -/
def Elem.Usual : Elem → Prop
  | .esc c => c ≠ 63
  | .hex ds => ds.length ≤ 2
  | _ => True

/-- White space and comments between literals. -/
inductive Gap where
  | sp (c : Nat)
  | block (b : List Nat)
  | line (b : List Nat)

/-- How a gap is written. -/
def Gap.text : Gap → List Nat
  | .sp c => [c]
  | .block b => 47 :: 42 :: b ++ [42, 47]
  | .line b => 47 :: 47 :: b ++ [10]

/-- A block comment ends at its first `*/`, a line comment with the line. -/
def Gap.Ok : Gap → Prop
  | .sp c => c = 32 ∨ (9 ≤ c ∧ c ≤ 13)
  | .block b => ∀ x y, b ++ [42] ≠ x ++ 42 :: 47 :: y
  | .line b => 10 ∉ b

/-- The text of a gap. -/
def gapText (gs : List Gap) : List Nat := (gs.map Gap.text).flatten

/-- Neither white space nor a comment starts here. -/
def Stops (t : List Nat) : Prop := match t with
  | [] => True
  | c :: r => ¬ (c = 32 ∨ (9 ≤ c ∧ c ≤ 13)) ∧ (c = 47 → NotNext (fun d => d = 42 ∨ d = 47) r)

/-! ## Reading -/

theorem octal_digit {d : Nat} (h : d < 8) : octal (48 + d) = some d := by
  simp only [octal]
  rw [if_pos (by omega)]
  simp

theorem octal_none {c : Nat} (h : ¬ (48 ≤ c ∧ c ≤ 55)) : octal c = none := by
  simp [octal, h]

theorem xvalue_lookup (c : Nat) : xvalue c = hexDigits.lookup c := by
  by_cases h : c < 128
  · have : ∀ c < 128, xvalue c = hexDigits.lookup c := by decide +kernel
    exact this c h
  · simp only [xvalue]
    rw [if_neg (by omega), if_neg (by omega), if_neg (by omega)]
    symm
    simp only [hexDigits, List.lookup]
    repeat (rw [show (c == _) = false from by simp; omega])

theorem letter_simple {c : Nat} (h : (simple.lookup c).isSome) (hc : c ≠ 63) :
    letter c = simple.lookup c ∧ octal c = none ∧ c ≠ 120 := by
  by_cases h1 : c < 128
  · have : ∀ c < 128, (simple.lookup c).isSome → c ≠ 63 →
        letter c = simple.lookup c ∧ octal c = none ∧ c ≠ 120 := by decide +kernel
    exact this c h1 h hc
  · exfalso
    have : simple.lookup c = none := by
      simp only [simple, List.lookup]
      repeat (rw [show (c == _) = false from by simp; omega])
    rw [this] at h
    cases h

/-- Digits are read to the end of the escape. -/
theorem digits_spec (dig : Nat → Option Nat) (b : Nat) : ∀ (ds : List (Nat × Nat)) (n vv : Nat) (r : List Nat),
    (∀ d ∈ ds, dig d.1 = some d.2) → ds.length ≤ n → (ds.length < n → ∀ c p, r = c :: p → dig c = none) →
    digits dig b n vv (ds.map (·.1) ++ r) = ((ds.map (·.2)).foldl (fun v d => (v * b + d) % 256) vv, r)
  | [], n, vv, r, _, _, hr => by
    cases n with
    | zero => rfl
    | succ n => cases r with
      | nil => rfl
      | cons c p =>
        have := hr (by simp) c p rfl
        simp [digits, this]
  | d :: ds, n, vv, r, hd, hn, hr => by
    cases n with
    | zero => simp at hn
    | succ n =>
      simp only [List.map_cons, List.cons_append, digits, hd d (by simp)]
      rw [digits_spec dig b ds n _ r (fun x hx => hd x (by simp [hx])) (by simpa using hn)
        (fun h => hr (by simpa using h))]
      rfl

theorem foldl_mod (b : Nat) : ∀ (ds : List Nat) (v : Nat),
    ds.foldl (fun v d => (v * b + d) % 256) v % 256 = ds.foldl (fun v d => v * b + d) v % 256
  | [], v => rfl
  | d :: ds, v => by
    simp only [List.foldl_cons]
    rw [foldl_mod b ds]
    have : ∀ (ds : List Nat) (x y : Nat), x % 256 = y % 256 →
        ds.foldl (fun v d => v * b + d) x % 256 = ds.foldl (fun v d => v * b + d) y % 256 := by
      intro ds
      induction ds with
      | nil => intro x y h; exact h
      | cons d ds ih =>
        intro x y h
        simp only [List.foldl_cons]
        apply ih
        rw [Nat.add_mod, Nat.mul_mod, h, ← Nat.mul_mod, ← Nat.add_mod]
    exact this ds _ _ (by omega)

theorem foldl_small (b : Nat) : ∀ (ds : List Nat) (v : Nat), v < 256 →
    ds.foldl (fun v d => (v * b + d) % 256) v < 256
  | [], v, h => h
  | d :: ds, v, _ => foldl_small b ds _ (Nat.mod_lt _ (by decide))

/-- If the value fits, wrapping at each digit does not show. -/
theorem foldl_fits (b : Nat) (ds : List Nat) (v : Nat) (hv : v < 256)
    (h : ds.foldl (fun v d => v * b + d) v < 256) :
    ds.foldl (fun v d => (v * b + d) % 256) v = ds.foldl (fun v d => v * b + d) v := by
  have h1 := foldl_mod b ds v
  rw [Nat.mod_eq_of_lt h, Nat.mod_eq_of_lt (foldl_small b ds v hv)] at h1
  exact h1

/-- An escape is read as what it means. -/
theorem backslash_elem {e : Elem} {next t : List Nat} (ho : e.Ok next) (hu : e.Usual)
    (ht : e.text = 92 :: t) (hc : ∀ c, e ≠ .chr c) :
    backslash false (t ++ next) = some (e.value, next) := by
  cases e with
  | chr c => exact absurd rfl (hc c)
  | esc c =>
    simp only [Elem.text, List.cons.injEq, true_and] at ht
    subst ht
    obtain ⟨h1, h2, h3⟩ := letter_simple ho hu
    simp only [List.cons_append, List.nil_append, backslash, h2, h3, if_false, h1, Elem.value]
    cases h : simple.lookup c with
    | none =>
      simp only [Elem.Ok] at ho
      rw [h] at ho
      cases ho
    | some v => rfl
  | oct ds =>
    simp only [Elem.text, List.cons.injEq, true_and] at ht
    subst ht
    obtain ⟨hne, hl, hd, hv, hn⟩ := ho
    cases ds with
    | nil => exact absurd rfl hne
    | cons d ds =>
      have h0 : d < 8 := hd d (by simp)
      simp only [List.map_cons, List.cons_append, backslash, octal_digit h0]
      have := digits_spec octal 8 (ds.map (fun d => (48 + d, d))) 2 d next
        (by
          intro x hx
          obtain ⟨y, hy, rfl⟩ := List.mem_map.1 hx
          exact octal_digit (hd y (by simp [hy])))
        (by simp at hl ⊢; omega)
        (by
          intro hlt c p e
          simp only [List.length_map] at hlt
          exact octal_none (hn (by simp; omega) c p e))
      simp only [List.map_map] at this
      have e1 : ((fun (x : Nat × Nat) => x.1) ∘ fun d => (48 + d, d)) = (fun d => 48 + d) := rfl
      have e2 : ((fun (x : Nat × Nat) => x.2) ∘ fun d => (48 + d, d)) = (fun d : Nat => d) := rfl
      rw [e1, e2, List.map_id'] at this
      simp only [Bool.false_eq_true, if_false]
      rw [this]
      simp only [Elem.value, List.foldl_cons] at hv ⊢
      simp only [Nat.zero_mul, Nat.zero_add] at hv ⊢
      rw [foldl_fits 8 ds d (by omega) hv]
  | hex ds =>
    simp only [Elem.text, List.cons.injEq, true_and] at ht
    subst ht
    obtain ⟨hne, hd, hv, hn⟩ := ho
    have h120 : octal 120 = none := by decide
    simp only [List.cons_append, backslash, h120, if_true, Bool.false_eq_true, if_false]
    have := digits_spec xvalue 16 (ds.map (fun d => (d, (hexDigits.lookup d).getD 0))) 2 0 next
      (by
        intro x hx
        obtain ⟨y, hy, rfl⟩ := List.mem_map.1 hx
        dsimp only
        rw [xvalue_lookup]
        have := hd y hy
        cases h : hexDigits.lookup y with
        | none => rw [h] at this; cases this
        | some v => rfl)
      (by simpa [Elem.Usual] using hu)
      (by
        intro _ c p e
        have := hn c p e
        rw [xvalue_lookup]
        cases h : hexDigits.lookup c with
        | none => rfl
        | some v => simp [h] at this)
    simp only [List.map_map] at this
    have e1 : ((fun (x : Nat × Nat) => x.1) ∘ fun d => (d, (hexDigits.lookup d).getD 0)) = (fun d => d) := rfl
    have e2 : ((fun (x : Nat × Nat) => x.2) ∘ fun d => (d, (hexDigits.lookup d).getD 0)) =
      (fun d : Nat => (hexDigits.lookup d).getD 0) := rfl
    rw [e1, e2, List.map_id'] at this
    rw [this]
    have hv' : (ds.map (fun d => (hexDigits.lookup d).getD 0)).foldl (fun v d => v * 16 + d) 0 < 256 := by
      rw [List.foldl_map]
      exact hv
    rw [foldl_fits 16 _ 0 (by omega) hv', List.foldl_map]
    rfl

theorem body_chr {wide : Bool} {c : Nat} {p : List Nat} (h : c ≠ 34 ∧ c ≠ 92 ∧ c ≠ 10) :
    body wide (c :: p) = (body wide p).map (fun x => (c :: x.1, x.2)) := by
  rw [body]
  simp [h.1, h.2.1, h.2.2]

theorem body_esc {wide : Bool} {v : Nat} {p r : List Nat} (h : backslash wide p = some (v, r)) :
    body wide (92 :: p) = (body wide r).map (fun x => (v :: x.1, x.2)) := by
  rw [body]
  simp only [show ¬ (92 = 34) by decide, show ¬ (92 = 10) by decide, if_false, if_true]
  split
  · rename_i h'
    rw [h] at h'
    cases h'
  · rename_i h'
    rw [h] at h'
    cases h'
    rfl

theorem body_quote {wide : Bool} {p : List Nat} : body wide (34 :: p) = some ([], p) := by
  rw [body]
  simp

theorem body_elems : ∀ (es : List Elem) (r : List Nat), OkL es (34 :: r) → (∀ e ∈ es, e.Usual) →
    body false (textL es ++ 34 :: r) = some (es.map Elem.value, r)
  | [], r, _, _ => body_quote
  | e :: es, r, ho, hu => by
    have ih := body_elems es r ho.2 (fun x hx => hu x (by simp [hx]))
    have htl : textL (e :: es) ++ 34 :: r = e.text ++ (textL es ++ 34 :: r) := by simp [textL]
    rw [htl]
    cases e with
    | chr c =>
      simp only [Elem.text, List.cons_append, List.nil_append]
      rw [body_chr ho.1, ih]
      rfl
    | esc c =>
      have := backslash_elem ho.1 (hu _ (by simp)) (t := [c]) rfl (by simp)
      simp only [Elem.text, List.cons_append, List.nil_append] at this ⊢
      rw [body_esc this, ih]
      rfl
    | oct ds =>
      have := backslash_elem ho.1 (hu _ (by simp)) (t := ds.map (48 + ·)) rfl (by simp)
      simp only [Elem.text, List.cons_append] at this ⊢
      rw [body_esc this, ih]
      rfl
    | hex ds =>
      have := backslash_elem ho.1 (hu _ (by simp)) (t := 120 :: ds) rfl (by simp)
      simp only [Elem.text, List.cons_append] at this ⊢
      rw [body_esc this, ih]
      rfl

/-! ## Gaps -/

theorem blockEnd_spec : ∀ (b r : List Nat), (∀ x y, b ++ [42] ≠ x ++ 42 :: 47 :: y) →
    blockEnd (b ++ 42 :: 47 :: r) = some r
  | [], r, _ => by simp [blockEnd]
  | [c], r, h => by simp [blockEnd]
  | c :: d :: b, r, h => by
    have hn : ¬ (c = 42 ∧ d = 47) := by
      rintro ⟨rfl, rfl⟩
      exact h [] (b ++ [42]) rfl
    have := blockEnd_spec (d :: b) r (by
      intro x y e
      exact h (c :: x) y (by simp only [List.cons_append] at e ⊢; rw [e]))
    simp only [List.cons_append, blockEnd, hn, if_false] at this ⊢
    exact this

theorem skip_space {c : Nat} {t : List Nat} (h : c = 32 ∨ (9 ≤ c ∧ c ≤ 13)) : skip (c :: t) = skip t := by
  rw [skip.eq_def]
  simp [space, h]

theorem skip_gap {g : Gap} {t : List Nat} (h : g.Ok) : skip (g.text ++ t) = skip t := by
  cases g with
  | sp c => exact skip_space h
  | block b =>
    have := blockEnd_spec b t h
    have e : Gap.text (.block b) ++ t = 47 :: 42 :: (b ++ 42 :: 47 :: t) := by simp [Gap.text]
    rw [e, skip.eq_def]
    simp only [show space 47 = false by decide, Bool.false_eq_true, if_false, if_true]
    split
    · rename_i h'
      rw [this] at h'
      cases h'
    · rename_i h'
      rw [this] at h'
      cases h'
      rfl
  | line b =>
    have e : Gap.text (.line b) ++ t = 47 :: 47 :: (b ++ 10 :: t) := by simp [Gap.text]
    have hd : (b ++ 10 :: t).dropWhile (· ≠ 10) = 10 :: t := by
      rw [List.dropWhile_append_of_pos]
      · simp
      · intro x hx
        have : x ≠ 10 := by
          rintro rfl
          exact h hx
        simpa using this
    rw [e, skip.eq_def]
    simp only [show space 47 = false by decide, Bool.false_eq_true, if_false, if_true,
      show ¬ (47 = 42) by decide]
    rw [hd, skip_space (Or.inr (by omega))]

theorem skip_gaps : ∀ (gs : List Gap) (t : List Nat), (∀ g ∈ gs, g.Ok) → skip (gapText gs ++ t) = skip t
  | [], t, _ => rfl
  | g :: gs, t, h => by
    have e : gapText (g :: gs) ++ t = g.text ++ (gapText gs ++ t) := by simp [gapText]
    rw [e, skip_gap (h g (by simp)), skip_gaps gs t (fun x hx => h x (by simp [hx]))]

theorem skip_stops {t : List Nat} (h : Stops t) : skip t = some t := by
  cases t with
  | nil => rw [skip.eq_def]
  | cons c r =>
    obtain ⟨h1, h2⟩ := h
    rw [skip.eq_def]
    have hs : space c = false := by simpa [space] using h1
    simp only [hs, Bool.false_eq_true, if_false]
    split
    · rename_i hc
      subst hc
      cases r with
      | nil => rfl
      | cons d r =>
        have := h2 rfl d r rfl
        simp only [not_or] at this
        simp [this.1, this.2]
    · rfl

/-! ## C88: strings -/

/-- Adjacent string literals, each followed by a gap; `true` for those with `L`. -/
def litText (wide : Bool) (inner : List Nat) (gs : List Gap) : List Nat :=
  (if wide then [76] else []) ++ 34 :: inner ++ 34 :: gapText gs

/-- The text of adjacent literals. -/
def stringText : List (List Elem × List Gap) → List Nat
  | [] => []
  | (es, gs) :: ps => litText false (textL es) gs ++ stringText ps

/-- Each piece is well-formed. -/
def StringOk : List (List Elem × List Gap) → List Nat → Prop
  | [], _ => True
  | (es, gs) :: ps, t => OkL es (34 :: gapText gs ++ (stringText ps ++ t)) ∧ (∀ g ∈ gs, g.Ok) ∧ StringOk ps t

theorem stops_pieces {ps : List (List Elem × List Gap)} {t : List Nat} (ht : Stops t) :
    Stops (stringText ps ++ t) := by
  cases ps with
  | nil => exact ht
  | cons p ps => simp [stringText, litText, Stops]

theorem pieces_narrow : ∀ (ps : List (List Elem × List Gap)) (t acc : List Nat) (fuel : Nat),
    StringOk ps t → (∀ p ∈ ps, ∀ e ∈ p.1, e.Usual) → Stops t → opening t = none → ps.length < fuel →
    pieces fuel false acc (stringText ps ++ t) = some (false, acc ++ (ps.map (fun p => p.1.map Elem.value)).flatten, t)
  | [], t, acc, fuel, _, _, _, hn, hf => by
    cases fuel with
    | zero => simp at hf
    | succ fuel => simp [stringText, pieces, hn]
  | (es, gs) :: ps, t, acc, fuel, ho, hu, ht, hn, hf => by
    cases fuel with
    | zero => simp at hf
    | succ fuel =>
      obtain ⟨h1, h2, h3⟩ := ho
      have ih := pieces_narrow ps t (acc ++ es.map Elem.value) fuel h3
        (fun p hp => hu p (by simp [hp])) ht hn (by simpa using hf)
      have e : stringText ((es, gs) :: ps) ++ t =
          34 :: (textL es ++ 34 :: (gapText gs ++ (stringText ps ++ t))) := by
        simp [stringText, litText]
      rw [e]
      have hb := body_elems es (gapText gs ++ (stringText ps ++ t)) h1 (hu (es, gs) (by simp))
      simp only [pieces, opening, Bool.or_false, hb, skip_gaps gs _ h2, skip_stops (stops_pieces ht), ih]
      simp

theorem stringText_length (ps : List (List Elem × List Gap)) : ps.length ≤ (stringText ps).length := by
  induction ps with
  | nil => simp
  | cons p ps ih =>
    obtain ⟨es, gs⟩ := p
    simp only [stringText, litText, List.length_cons, List.length_append]
    omega

/-- C88 (partial: without `\?` and with at most two hexadecimal digits in an
escape): every string literal, and every sequence of adjacent ones with white
space and comments between, is read as the bytes that C says, with one
terminator, and reading goes on behind it. -/
theorem narrow_string_partial (ps : List (List Elem × List Gap)) (t : List Nat) (ho : StringOk ps t)
    (hu : ∀ p ∈ ps, ∀ e ∈ p.1, e.Usual) (ht : Stops t) (hn : opening t = none) :
    readString (stringText ps ++ t) =
      some (.narrow ((ps.map (fun p => p.1.map Elem.value)).flatten ++ [0]), t) := by
  have := pieces_narrow ps t [] ((stringText ps ++ t).length + 1) ho hu ht hn (by
    have := stringText_length ps
    simp only [List.length_append]
    omega)
  simp only [readString, this, List.nil_append]
/-! ## C88: wide strings -/

/-- UTF-8 (RFC 3629, section 3). -/
def enc (n : Nat) : List Nat :=
  if n < 0x80 then [n]
  else if n < 0x800 then [0xC0 + n / 64, 0x80 + n % 64]
  else if n < 0x10000 then [0xE0 + n / 4096, 0x80 + n / 64 % 64, 0x80 + n % 64]
  else [0xF0 + n / 262144, 0x80 + n / 4096 % 64, 0x80 + n / 64 % 64, 0x80 + n % 64]

/-- An element of a wide literal: a source character by its code, or a simple
escape. -/
inductive WElem where
  | cp (n : Nat)
  | esc (c : Nat)

/-- How it is written. -/
def WElem.text : WElem → List Nat
  | .cp n => enc n
  | .esc c => [92, c]

/-- What it means. -/
def WElem.value : WElem → Nat
  | .cp n => n
  | .esc c => (simple.lookup c).getD 0

/-- Source characters are not a quote, backslash or newline; not `\?` and `\\`
(see the findings). -/
def WElem.Ok : WElem → Prop
  | .cp n => 0 < n ∧ n < 0x110000 ∧ n ≠ 34 ∧ n ≠ 92 ∧ n ≠ 10
  | .esc c => (simple.lookup c).isSome ∧ c ≠ 63 ∧ c ≠ 92

/-- The text of a sequence. -/
def textW (ws : List WElem) : List Nat := (ws.map WElem.text).flatten

theorem utf8_enc (wide : Bool) {n : Nat} (h : n < 0x110000) (h92 : n ≠ 92) (p : List Nat) :
    utf8 wide (enc n ++ p) = some ((n : Int), p) := by
  simp only [enc]
  split
  · simp only [List.cons_append, List.nil_append, utf8, h92, if_false]
    rw [if_pos (by omega)]
  · split
    · simp only [List.cons_append, List.nil_append, utf8]
      rw [if_neg (by omega), if_neg (by omega), if_neg (by omega), if_neg (by omega), if_neg (by omega),
        if_neg (by omega), if_neg (by omega)]
      simp only [utf8.follow]
      rw [if_pos (by omega)]
      simp only [Option.some.injEq, Prod.mk.injEq, and_true]
      omega
    · split
      · simp only [List.cons_append, List.nil_append, utf8]
        rw [if_neg (by omega), if_neg (by omega), if_neg (by omega), if_neg (by omega), if_neg (by omega),
          if_neg (by omega), if_pos (by omega)]
        simp only [utf8.follow]
        rw [if_pos (by omega), if_pos (by omega)]
        simp only [Option.some.injEq, Prod.mk.injEq, and_true]
        omega
      · simp only [List.cons_append, List.nil_append, utf8]
        rw [if_neg (by omega), if_neg (by omega), if_neg (by omega), if_neg (by omega), if_neg (by omega),
          if_pos (by omega)]
        simp only [utf8.follow]
        rw [if_pos (by omega), if_pos (by omega), if_pos (by omega)]
        simp only [Option.some.injEq, Prod.mk.injEq, and_true]
        omega

theorem backslash_letter (wide : Bool) {c : Nat} (h : (simple.lookup c).isSome) (h63 : c ≠ 63) (p : List Nat) :
    backslash wide (c :: p) = some ((simple.lookup c).getD 0, p) := by
  obtain ⟨h1, h2, h3⟩ := letter_simple h h63
  simp only [backslash, h2, h3, if_false, h1]
  cases hh : simple.lookup c with
  | none => rw [hh] at h; cases h
  | some v => rfl

/-- The bytes that the first pass leaves of an element. -/
def WElem.bytes : WElem → List Nat
  | .cp n => enc n
  | .esc c => [(simple.lookup c).getD 0]

theorem body_bytes (wide : Bool) : ∀ (bs p : List Nat), (∀ c ∈ bs, c ≠ 34 ∧ c ≠ 92 ∧ c ≠ 10) →
    body wide (bs ++ p) = (body wide p).map (fun x => (bs ++ x.1, x.2))
  | [], p, _ => by simp
  | c :: bs, p, h => by
    rw [List.cons_append, body_chr (h c (by simp)), body_bytes wide bs p (fun x hx => h x (by simp [hx]))]
    simp only [Option.map_map]
    rfl

theorem enc_bytes {n : Nat} (h : n ≠ 34 ∧ n ≠ 92 ∧ n ≠ 10) : ∀ c ∈ enc n, c ≠ 34 ∧ c ≠ 92 ∧ c ≠ 10 := by
  intro c hc
  simp only [enc] at hc
  split at hc
  · simp only [List.mem_singleton] at hc
    subst hc
    exact h
  · split at hc
    · simp only [List.mem_cons, List.not_mem_nil, or_false] at hc
      omega
    · split at hc
      · simp only [List.mem_cons, List.not_mem_nil, or_false] at hc
        omega
      · simp only [List.mem_cons, List.not_mem_nil, or_false] at hc
        omega

theorem body_welems (wide : Bool) : ∀ (ws : List WElem) (r : List Nat), (∀ w ∈ ws, w.Ok) →
    body wide (textW ws ++ 34 :: r) = some ((ws.map WElem.bytes).flatten, r)
  | [], r, _ => body_quote
  | w :: ws, r, ho => by
    have ih := body_welems wide ws r (fun x hx => ho x (by simp [hx]))
    have htl : textW (w :: ws) ++ 34 :: r = w.text ++ (textW ws ++ 34 :: r) := by simp [textW]
    have hw := ho w (by simp)
    rw [htl]
    cases w with
    | cp n =>
      rw [WElem.text, body_bytes wide _ _ (enc_bytes hw.2.2), ih]
      rfl
    | esc c =>
      simp only [WElem.text, List.cons_append, List.nil_append]
      rw [body_esc (backslash_letter wide hw.1 hw.2.1 _), ih]
      rfl

theorem simple_range {c : Nat} (h : (simple.lookup c).isSome) (h92 : c ≠ 92) :
    0 < (simple.lookup c).getD 0 ∧ (simple.lookup c).getD 0 < 128 ∧ (simple.lookup c).getD 0 ≠ 92 := by
  by_cases h1 : c < 128
  · have : ∀ c < 128, (simple.lookup c).isSome → c ≠ 92 →
        0 < (simple.lookup c).getD 0 ∧ (simple.lookup c).getD 0 < 128 ∧ (simple.lookup c).getD 0 ≠ 92 := by
      decide +kernel
    exact this c h1 h h92
  · exfalso
    have : simple.lookup c = none := by
      simp only [simple, List.lookup]
      repeat (rw [show (c == _) = false from by simp; omega])
    rw [this] at h
    cases h

theorem utf8_welem (wide : Bool) {w : WElem} (h : w.Ok) (p : List Nat) :
    utf8 wide (w.bytes ++ p) = some ((w.value : Int), p) := by
  cases w with
  | cp n => exact utf8_enc wide h.2.1 h.2.2.2.1 p
  | esc c =>
    obtain ⟨h1, h2, h3⟩ := simple_range h.1 h.2.2
    simp [WElem.bytes, utf8, h2, h3, WElem.value]

theorem widen_spec : ∀ (ws : List WElem) (fuel : Nat), (∀ w ∈ ws, w.Ok) → ws.length < fuel →
    widen fuel ((ws.map WElem.bytes).flatten) = some (ws.map (fun w => (w.value : Int)) ++ [0])
  | [], fuel, _, hf => by
    cases fuel with
    | zero => simp at hf
    | succ fuel => simp [widen, utf8]
  | w :: ws, fuel, ho, hf => by
    cases fuel with
    | zero => simp at hf
    | succ fuel =>
      have ih := widen_spec ws fuel (fun x hx => ho x (by simp [hx])) (by simpa using hf)
      have hw := ho w (by simp)
      have hpos : w.value ≠ 0 := by
        cases w with
        | cp n =>
          have := hw.1
          simp only [WElem.value]
          omega
        | esc c =>
          have := (simple_range hw.1 hw.2.2).1
          simp only [WElem.value]
          omega
      simp only [List.map_cons, List.flatten_cons, widen, utf8_welem true hw, ih]
      rw [if_neg (by omega)]
      rfl

/-- The text of adjacent literals with or without `L`. -/
def wideText : List (Bool × List WElem × List Gap) → List Nat
  | [] => []
  | (l, ws, gs) :: ps => litText l (textW ws) gs ++ wideText ps

theorem stops_wide {ps : List (Bool × List WElem × List Gap)} {t : List Nat} (ht : Stops t) :
    Stops (wideText ps ++ t) := by
  cases ps with
  | nil => exact ht
  | cons p ps =>
    obtain ⟨l, ws, gs⟩ := p
    cases l <;> simp [wideText, litText, Stops]

theorem pieces_wide : ∀ (ps : List (Bool × List WElem × List Gap)) (t acc : List Nat) (fuel : Nat) (w : Bool),
    (∀ p ∈ ps, (∀ e ∈ p.2.1, e.Ok) ∧ ∀ g ∈ p.2.2, g.Ok) → Stops t → opening t = none → ps.length < fuel →
    pieces fuel w acc (wideText ps ++ t) = some (w || ps.any (·.1),
      acc ++ (((ps.map (·.2.1)).flatten).map WElem.bytes).flatten, t)
  | [], t, acc, fuel, w, _, _, hn, hf => by
    cases fuel with
    | zero => simp at hf
    | succ fuel => simp [wideText, pieces, hn]
  | (l, ws, gs) :: ps, t, acc, fuel, w, ho, ht, hn, hf => by
    cases fuel with
    | zero => simp at hf
    | succ fuel =>
      obtain ⟨h1, h2⟩ := ho (l, ws, gs) (by simp)
      have ih := pieces_wide ps t (acc ++ (ws.map WElem.bytes).flatten) fuel (w || l)
        (fun p hp => ho p (by simp [hp])) ht hn (by simpa using hf)
      have hop : opening (wideText ((l, ws, gs) :: ps) ++ t) =
          some (l, textW ws ++ 34 :: (gapText gs ++ (wideText ps ++ t))) := by
        cases l <;> simp [wideText, litText, opening]
      have hb := body_welems (w || l) ws (gapText gs ++ (wideText ps ++ t)) h1
      simp only [pieces, hop, hb, skip_gaps gs _ h2, skip_stops (stops_wide ht), ih]
      simp [Bool.or_assoc]

theorem wideText_length (ps : List (Bool × List WElem × List Gap)) : ps.length ≤ (wideText ps).length := by
  induction ps with
  | nil => simp
  | cons p ps ih =>
    obtain ⟨l, ws, gs⟩ := p
    simp only [wideText, litText, List.length_cons, List.length_append]
    omega

theorem enc_pos (n : Nat) : 0 < (enc n).length := by
  simp only [enc]
  split
  · simp
  · split
    · simp
    · split <;> simp

/-- C88 (partial: no numeric escapes, no `\?` and no `\\`): adjacent literals of
which one has the prefix `L` are read as the wide characters of the source, any
of Unicode, with one terminator. -/
theorem wide_string_partial (ps : List (Bool × List WElem × List Gap)) (t : List Nat)
    (ho : ∀ p ∈ ps, (∀ e ∈ p.2.1, e.Ok) ∧ ∀ g ∈ p.2.2, g.Ok) (hw : ∃ p ∈ ps, p.1 = true)
    (ht : Stops t) (hn : opening t = none) :
    readString (wideText ps ++ t) =
      some (.wide (((ps.map (·.2.1)).flatten).map (fun w => (w.value : Int)) ++ [0]), t) := by
  have := pieces_wide ps t [] ((wideText ps ++ t).length + 1) false ho ht hn (by
    have := wideText_length ps
    simp only [List.length_append]
    omega)
  have hany : ps.any (·.1) = true := by
    rw [List.any_eq_true]
    exact hw
  simp only [readString, this, hany, Bool.false_or, List.nil_append]
  have hlen : ∀ ws : List WElem, ws.length ≤ ((ws.map WElem.bytes).flatten).length := by
    intro ws
    induction ws with
    | nil => simp
    | cons w ws ih =>
      have : 0 < w.bytes.length := by
        cases w with
        | cp n => exact enc_pos n
        | esc c => simp [WElem.bytes]
      simp only [List.map_cons, List.flatten_cons, List.length_append, List.length_cons]
      omega
  rw [widen_spec ((ps.map (·.2.1)).flatten) _ (by
    intro w hw
    obtain ⟨l, hl, hwl⟩ := List.mem_flatten.1 hw
    obtain ⟨p, hp, rfl⟩ := List.mem_map.1 hl
    exact (ho p hp).1 w hwl) (by
      have := hlen (ps.map (·.2.1)).flatten
      omega)]
  rfl

/-! ## C88: character constants -/

/-- The value of a byte as a `char`, which is signed on these targets. -/
def charValue (v : Nat) : Int := if v < 128 then v else (v : Int) - 256

/-- A well-formed narrow character constant with one ASCII character or one
escape. -/
def CharOk : Elem → Prop
  | .chr c => c < 128 ∧ c ≠ 39 ∧ c ≠ 92 ∧ c ≠ 10
  | e => e.Ok [39]

theorem takeWhile_no {a r : List Nat} (h : 10 ∉ a) :
    (a ++ r).takeWhile (· ≠ 10) = a ++ r.takeWhile (· ≠ 10) ∧
    (a ++ r).dropWhile (· ≠ 10) = r.dropWhile (· ≠ 10) := by
  have : ∀ x ∈ a, decide (x ≠ 10) = true := by
    intro x hx
    have : x ≠ 10 := by
      rintro rfl
      exact h hx
    simpa using this
  exact ⟨List.takeWhile_append_of_pos this, List.dropWhile_append_of_pos this⟩

theorem readChar_of {wide : Bool} {x : List Nat} {v : Int} {r : List Nat} (h10 : 10 ∉ x)
    (hne : ∃ c y, x = c :: y ∧ c ≠ 39)
    (hu : ∀ p, utf8 wide (x ++ 39 :: p) = some (v, 39 :: p)) :
    readChar wide (x ++ 39 :: r) = .value v r := by
  have h10' : 10 ∉ x ++ [39] := by simp [h10]
  obtain ⟨h1, h2⟩ := takeWhile_no (a := x ++ [39]) (r := r) h10'
  simp only [List.append_assoc, List.cons_append, List.nil_append] at h1 h2
  obtain ⟨c, y, rfl, hc⟩ := hne
  have := hu (r.takeWhile (· ≠ 10))
  simp only [readChar, h1, h2]
  simp only [List.cons_append] at this ⊢
  rw [this]
  split
  · rename_i h
    cases h
  · rename_i h
    simp only [List.cons.injEq] at h
    exact absurd h.1 hc
  · simp

theorem not_newline_hex {d : Nat} (h : (hexDigits.lookup d).isSome) : d ≠ 10 := by
  rintro rfl
  revert h
  decide

/-- C88 (partial as for strings): a character constant has the value that C
says. -/
theorem char_constant_partial {e : Elem} (ho : CharOk e) (hu : e.Usual) (r : List Nat) :
    readChar false (e.text ++ 39 :: r) = .value (charValue e.value) r := by
  have key : ∀ t, e.text = 92 :: t → (∀ c, e ≠ .chr c) → (∀ p, e.Ok (39 :: p)) → 10 ∉ t → t ≠ [] →
      readChar false (e.text ++ 39 :: r) = .value (charValue e.value) r := by
    intro t ht hc hok h10 hne
    refine readChar_of (by rw [ht]; simp [h10]) ⟨92, t, ht, by decide⟩ ?_
    intro p
    have := backslash_elem (hok p) hu ht hc
    rw [ht]
    cases t with
    | nil => exact absurd rfl hne
    | cons a t =>
      simp only [List.cons_append] at this ⊢
      simp only [utf8, if_true, this, Option.map_some, charValue]
  have nn : ∀ (P : Nat → Prop) p, ¬ P 39 → NotNext P (39 :: p) := by
    intro P p h c r e
    simp only [List.cons.injEq] at e
    rw [← e.1]
    exact h
  cases e with
  | chr c =>
    obtain ⟨h1, h2, h3, h4⟩ := ho
    refine readChar_of (by simp [Elem.text, Ne.symm h4]) ⟨c, [], rfl, h2⟩ ?_
    intro p
    simp [Elem.text, utf8, h1, h3, charValue, Elem.value]
  | esc c =>
    refine key [c] rfl (by simp) (fun p => ho) ?_ (by simp)
    simp only [List.mem_singleton]
    rintro rfl
    revert ho
    simp only [CharOk, Elem.Ok]
    decide
  | oct ds =>
    obtain ⟨a1, a2, a3, a4, a5⟩ := ho
    refine key _ rfl (by simp) (fun p => ⟨a1, a2, a3, a4, fun _ => nn _ _ (by omega)⟩) ?_ (by simpa using a1)
    simp only [List.mem_map, not_exists, not_and]
    intro x hx
    omega
  | hex ds =>
    obtain ⟨a1, a2, a3, a4⟩ := ho
    refine key _ rfl (by simp) (fun p => ⟨a1, a2, a3, nn _ _ (by decide)⟩) ?_ (by simp)
    simp only [List.mem_cons, not_or]
    exact ⟨by decide, fun h => not_newline_hex (a2 10 h) rfl⟩

/-- C88: `L'c'` has the code of the character, for any character of Unicode. -/
theorem wide_char_constant {n : Nat} (h : n < 0x110000) (h39 : n ≠ 39) (h92 : n ≠ 92) (h10 : n ≠ 10)
    (r : List Nat) : readChar true (enc n ++ 39 :: r) = .value n r := by
  have he : 10 ∉ enc n ∧ ∃ c y, enc n = c :: y ∧ c ≠ 39 := by
    simp only [enc]
    split
    · exact ⟨by simp; omega, n, [], rfl, h39⟩
    · split
      · exact ⟨by simp; omega, _, _, rfl, by omega⟩
      · split
        · exact ⟨by simp; omega, _, _, rfl, by omega⟩
        · exact ⟨by simp; omega, _, _, rfl, by omega⟩
  exact readChar_of he.1 he.2 (fun p => utf8_enc true h h92 _)

/-! ## C88: cases and findings -/

/-- `"a\n\0" /* x */ "\x41\"" ;` meets the hypotheses of `narrow_string_partial`. -/
def samplePieces : List (List Elem × List Gap) :=
  [([.chr 97, .esc 110, .oct [0]], [.sp 32, .block [120], .sp 10]), ([.hex [52, 49], .esc 34], [.sp 32])]

theorem sample_ok : StringOk samplePieces [59] := by
  refine ⟨⟨by simp [Elem.Ok], by simp only [Elem.Ok]; decide, ⟨by decide, by decide, by decide, by decide, ?_⟩, trivial⟩, ?_,
    ⟨⟨by decide, by decide, by decide, ?_⟩, by simp only [Elem.Ok]; decide, trivial⟩, ?_, trivial⟩
  · intro _ c r h
    simp [textL] at h
    omega
  · intro g hg
    simp only [List.mem_cons, List.not_mem_nil, or_false] at hg
    rcases hg with rfl | rfl | rfl
    · exact Or.inl rfl
    · intro x y h
      rcases x with _ | ⟨a, _ | ⟨b, x⟩⟩ <;> simp at h
    · exact Or.inr (by decide)
  · intro c r h
    simp [textL, Elem.text] at h
    rw [← h.1]
    decide
  · intro g hg
    simp only [List.mem_cons, List.not_mem_nil, or_false] at hg
    subst hg
    exact Or.inl rfl

example : readString (stringText samplePieces ++ [59]) = some (.narrow [97, 10, 0, 65, 34, 0], [59]) := by
  have h := narrow_string_partial samplePieces [59] sample_ok (by
    intro p hp e he
    simp only [samplePieces, List.mem_cons, List.not_mem_nil, or_false] at hp
    rcases hp with rfl | rfl
    · simp only [List.mem_cons, List.not_mem_nil, or_false] at he
      rcases he with rfl | rfl | rfl <;> simp [Elem.Usual]
    · simp only [List.mem_cons, List.not_mem_nil, or_false] at he
      rcases he with rfl | rfl <;> simp [Elem.Usual]) (by simp [Stops]) rfl
  rw [h]
  decide

/-- A wide literal with `あ` and a newline. -/
example : (∀ e ∈ [WElem.cp 0x3042, .esc 110], e.Ok) ∧
    readString (76 :: 34 :: (textW [.cp 0x3042, .esc 110] ++ [34, 59])) = some (.wide [0x3042, 10, 0], [59]) := by
  refine ⟨?_, by decide +kernel⟩
  intro e he
  simp only [List.mem_cons, List.not_mem_nil, or_false] at he
  rcases he with rfl | rfl
  · simp [WElem.Ok]
  · simp only [WElem.Ok]
    decide

example : CharOk (.oct [3, 7, 7]) ∧ readChar false ((Elem.oct [3, 7, 7]).text ++ [39, 59]) = .value (-1) [59] := by
  refine ⟨⟨by decide, by decide, by decide, by decide, by simp⟩, by decide +kernel⟩

/-- Finding: a hexadecimal escape ends after two digits.  `"\x041"` is one
character 0x41 in C; two are read (src/cc/frontend/lexer.c:190). -/
theorem hex_escape_cut : ∃ e : Elem, e.Ok [34] ∧
    readString (34 :: e.text ++ [34]) ≠ some (.narrow [e.value, 0], []) := by
  refine ⟨.hex [48, 52, 49], ⟨by decide, by decide, by decide, ?_⟩, by decide +kernel⟩
  intro c r h
  simp only [List.cons.injEq] at h
  rw [← h.1]
  decide

/-- Finding: `\?` is rejected (src/cc/frontend/lexer.c:207-208). -/
theorem question_mark_rejected : ∃ e : Elem, e.Ok [34] ∧ readString (34 :: e.text ++ [34]) = none :=
  ⟨.esc 63, by simp only [Elem.Ok]; decide, by decide +kernel⟩

/-- Finding: escapes in wide strings are replaced twice: `L"\\n"` is a backslash
and an `n` in C, and is read as a newline (src/cc/frontend/lexer.c:628-630,652). -/
theorem wide_escape_twice :
    readString [76, 34, 92, 92, 110, 34] = some (.wide [10, 0], []) := by decide +kernel

/-- Finding: a wide string ends at its first `\0` (src/cc/frontend/lexer.c:584). -/
theorem wide_zero_cuts :
    readString [76, 34, 97, 92, 48, 98, 34] = some (.wide [97, 0], []) := by decide +kernel

/-- Finding: `L"\x3042"` is read as the character 0x42
(src/cc/frontend/lexer.c:189). -/
theorem wide_hex_cut :
    readString [76, 34, 92, 120, 51, 48, 52, 50, 34] = some (.wide [0x42, 0], []) := by decide +kernel

/-- Finding: when a line ends with the quote that opens a character constant, the
byte behind the terminator of the line is read (src/cc/frontend/lexer.c:543,563-565). -/
theorem quote_at_end_reads_beyond (wide : Bool) (t : List Nat) : readChar wide (10 :: t) = .beyond := by
  simp [readChar]

end Verif.StrLit

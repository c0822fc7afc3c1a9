/-!
# String escaping between the compiler, the assembler and the preprocessor

* writer: `escape_string` (src/util/util.c:614-661), used by `emit_string`
  (src/cc/backend/emit_code.c:207-233) and by `stringize` (src/cpp/macro.c:152-173);
* reader 1: the assembler's `unescape_string` (src/as/parse_asm.c:703-750);
* reader 2: the C lexer's `backslash`/`read_string` (src/cc/frontend/lexer.c:167-211, 600-647).

Characters are bytes (`Nat` below 256).
-/
namespace Verif.Escape

/-! ## Model -/

/-- One lower-case digit of `%02x`. -/
def hexDigit (n : Nat) : Nat := if n < 10 then 48 + n else 97 + (n - 10)

/-- src/util/util.c:614-618 `escape_hex`: `"\\x%02x"` of `c & 0xff`. -/
def escapeHex (c : Nat) : List Nat := [92, 120, hexDigit (c % 256 / 16), hexDigit (c % 256 % 16)]

/-- `isxdigit` of the C locale. -/
def isXDigit (c : Nat) : Bool := (48 ≤ c ∧ c ≤ 57) ∨ (65 ≤ c ∧ c ≤ 70) ∨ (97 ≤ c ∧ c ≤ 102)

/-- src/util/util.c:620-633 `escape`; `none` is the `NULL` result (character kept as is).
A byte ≥ 0x80 is negative as a `char`, so `c < 0x20` holds (or `c >= 0x7f` where
`char` is unsigned): both give the hexadecimal form. -/
def escape (c : Nat) : Option (List Nat) :=
  if c = 0 then some [92, 48]
  else if c = 10 then some [92, 110]
  else if c = 13 then some [92, 114]
  else if c = 9 then some [92, 116]
  else if c = 34 then some [92, 34]
  else if c = 92 then some [92, 92]
  else if c < 0x20 ∨ c ≥ 0x7f then some (escapeHex c)
  else none

/-- The loop of `escape_string` (src/util/util.c:635-661).  `out` is the string
buffer, `pend` the run `s..p` not yet appended, `hex` the flag.  The final
`assert(!hex)` is the `none` outcome. -/
def escapeLoop : List Nat → (out pend : List Nat) → (hex : Bool) → Option (List Nat)
  | [], out, pend, hex =>
    if pend ≠ [] then (if hex then none else some (out ++ pend)) else some out
  | c :: cs, out, pend, hex =>
    if hex && isXDigit c then
      escapeLoop cs (out ++ pend ++ escapeHex c) [] true
    else
      match escape c with
      | none => escapeLoop cs out (pend ++ [c]) false
      | some e => escapeLoop cs (out ++ pend ++ e) [] (e[1]? == some 120)

/-- src/util/util.c:635-661 `escape_string`. -/
def escapeString (s : List Nat) : Option (List Nat) := escapeLoop s [] [] false

/-- src/util/util.c:41-46 `xvalue`. -/
def xvalue (c : Nat) : Option Nat :=
  if 48 ≤ c ∧ c ≤ 57 then some (c - 48)
  else if 65 ≤ c ∧ c ≤ 70 then some (c - 55)
  else if 97 ≤ c ∧ c ≤ 102 then some (c - 87)
  else none

/-- The loop `for (i = 0; i < 2; ++i, ++p)` shared by parse_asm.c:710-715 and
lexer.c:190-195: at most `n` hexadecimal digits are folded into the `char` `v`. -/
def readHex : Nat → Nat → List Nat → Nat × List Nat
  | 0, v, cs => (v, cs)
  | _ + 1, v, [] => (v, [])
  | n + 1, v, c :: cs =>
    match xvalue c with
    | none => (v, c :: cs)
    | some d => readHex n ((v <<< 4 ||| d) % 256) cs

/-- The octal loop of lexer.c:177-182. -/
def readOct : Nat → Nat → List Nat → Nat × List Nat
  | 0, v, cs => (v, cs)
  | _ + 1, v, [] => (v, [])
  | n + 1, v, c :: cs =>
    if 48 ≤ c ∧ c ≤ 55 then readOct n ((v <<< 3 ||| (c - 48)) % 256) cs
    else (v, c :: cs)

/-- Simple escapes common to both readers. -/
def simpleEsc (c : Nat) : Option Nat :=
  if c = 97 then some 7 else if c = 98 then some 8 else if c = 102 then some 12
  else if c = 110 then some 10 else if c = 114 then some 13 else if c = 116 then some 9
  else if c = 118 then some 11
  else if c = 39 ∨ c = 34 ∨ c = 92 then some c
  else none

/-- src/as/parse_asm.c:703-733 `unescape_char`, on the text after the backslash. -/
def asEsc : List Nat → Option (Nat × List Nat)
  | [] => none
  | c :: cs =>
    if c = 48 then some (0, cs)
    else if c = 120 then some (readHex 2 0 cs)
    else (simpleEsc c).map (·, cs)

/-- src/cc/frontend/lexer.c:167-211 `backslash` with `is_wide = false`. -/
def lexEsc : List Nat → Option (Nat × List Nat)
  | [] => none
  | c :: cs =>
    if 48 ≤ c ∧ c ≤ 55 then some (readOct 2 (c - 48) cs)
    else if c = 120 then some (readHex 2 0 cs)
    else (simpleEsc c).map (·, cs)

theorem readHex_le (n v : Nat) (cs : List Nat) : (readHex n v cs).2.length ≤ cs.length := by
  induction n generalizing v cs with
  | zero => simp [readHex]
  | succ n ih =>
    cases cs with
    | nil => simp [readHex]
    | cons c cs =>
      simp only [readHex]
      split
      · simp
      · exact Nat.le_trans (ih _ _) (by simp)

theorem readOct_le (n v : Nat) (cs : List Nat) : (readOct n v cs).2.length ≤ cs.length := by
  induction n generalizing v cs with
  | zero => simp [readOct]
  | succ n ih =>
    cases cs with
    | nil => simp [readOct]
    | cons c cs =>
      simp only [readOct]
      split
      · exact Nat.le_trans (ih _ _) (by simp)
      · simp

theorem asEsc_le {cs : List Nat} {c : Nat} {r : List Nat} (h : asEsc cs = some (c, r)) :
    r.length ≤ cs.length := by
  cases cs with
  | nil => simp [asEsc] at h
  | cons x xs =>
    simp only [asEsc] at h
    split at h
    · cases h; simp
    · split at h
      · have := readHex_le 2 0 xs
        simp only [Option.some.injEq] at h
        rw [h] at this
        simp at this ⊢; omega
      · cases hs : simpleEsc x <;> simp [hs] at h
        simp [h.2]

theorem lexEsc_le {cs : List Nat} {c : Nat} {r : List Nat} (h : lexEsc cs = some (c, r)) :
    r.length ≤ cs.length := by
  cases cs with
  | nil => simp [lexEsc] at h
  | cons x xs =>
    simp only [lexEsc] at h
    split at h
    · have := readOct_le 2 (x - 48) xs
      simp only [Option.some.injEq] at h
      rw [h] at this
      simp at this ⊢; omega
    · split at h
      · have := readHex_le 2 0 xs
        simp only [Option.some.injEq] at h
        rw [h] at this
        simp at this ⊢; omega
      · cases hs : simpleEsc x <;> simp [hs] at h
        simp [h.2]

/-- src/as/parse_asm.c:735-750 `unescape_string` on the text after the opening
quote: the decoded bytes and the text after the closing quote.  `none`: the
`parse_error` cases. -/
def asUnescape : List Nat → Option (List Nat × List Nat)
  | [] => none
  | c :: cs =>
    if c = 34 then some ([], cs)
    else if c = 0 then none
    else if c = 92 then
      match h : asEsc cs with
      | none => none
      | some (v, r) => (asUnescape r).map fun (s, k) => (v :: s, k)
    else (asUnescape cs).map fun (s, k) => (c :: s, k)
termination_by cs => cs.length
decreasing_by
  · have := asEsc_le h; simp; omega
  · simp

/-- src/cc/frontend/lexer.c:612-632, the inner loop of `read_string`, on the text
after the opening quote (narrow strings; concatenation of adjacent literals is
outside this loop). -/
def lexUnescape : List Nat → Option (List Nat × List Nat)
  | [] => none
  | c :: cs =>
    if c = 34 then some ([], cs)
    else if c = 0 then none
    else if c = 92 then
      match h : lexEsc cs with
      | none => none
      | some (v, r) => (lexUnescape r).map fun (s, k) => (v :: s, k)
    else (lexUnescape cs).map fun (s, k) => (c :: s, k)
termination_by cs => cs.length
decreasing_by
  · have := lexEsc_le h; simp; omega
  · simp

/-- A string directive in the assembly text; `text` is what follows the opening quote. -/
structure Directive where
  isString : Bool
  text : List Nat

/-- src/cc/backend/emit_code.c:207-233 `emit_string` for a string object whose
`str.len * csize` bytes are `buf` (`csize` the element size) placed in an object
of `size` bytes. -/
def emitString (csize : Nat) (buf : List Nat) (size : Nat) : Option Directive := do
  let srcSize := min buf.length size
  let isString := csize == 1 && decide (srcSize > 0) && srcSize == size && buf[srcSize - 1]? == some 0
  let e ← escapeString (buf.take (srcSize - (if isString then 1 else 0)))
  some { isString, text := e ++ (List.replicate (size - srcSize) [92, 48]).flatten ++ [34] }

/-- src/as/parse_asm.c:797-814, `.ascii`/`.string`: the data bytes produced.
`.string` callocs one byte more than the decoded length. -/
def asDirective (d : Directive) : Option (List Nat) := do
  let (s, _) ← asUnescape d.text
  some (s ++ (if d.isString then [0] else []))

/-! ## Specification

The object of `size` bytes initialised by a string holds its bytes, cut or
zero-extended to the size. -/
def objectBytes (buf : List Nat) (size : Nat) : List Nat :=
  buf.take size ++ List.replicate (size - buf.length) 0

/-! ## Lemmas -/

/-- What the loop emits, without the pending run. -/
def escRec : Bool → List Nat → List Nat
  | _, [] => []
  | hex, c :: cs =>
    if hex && isXDigit c then escapeHex c ++ escRec true cs
    else match escape c with
      | none => c :: escRec false cs
      | some e => e ++ escRec (e[1]? == some 120) cs

theorem escapeLoop_eq (s out pend : List Nat) (hex : Bool) (h : pend ≠ [] → hex = false) :
    escapeLoop s out pend hex = some (out ++ pend ++ escRec hex s) := by
  induction s generalizing out pend hex with
  | nil =>
    simp only [escapeLoop, escRec]
    split
    · rename_i hp; rw [h hp]; simp
    · rename_i hp; simp at hp; simp [hp]
  | cons c cs ih =>
    simp only [escapeLoop, escRec]
    split
    · rw [ih _ _ _ (by simp)]; simp
    · split
      · rw [ih _ _ _ (by simp)]; simp
      · rw [ih _ _ _ (by simp)]; simp

theorem escapeString_eq (s : List Nat) : escapeString s = some (escRec false s) := by
  rw [escapeString, escapeLoop_eq _ _ _ _ (by simp)]; simp

theorem xvalue_hexDigit (n : Nat) (h : n < 16) : xvalue (hexDigit n) = some n := by
  unfold xvalue hexDigit
  split
  · rw [if_pos (by omega)]; congr; omega
  · rw [if_neg (by omega), if_neg (by omega), if_pos (by omega)]; congr 1; omega

theorem hexPair : ∀ c < 256, (((0 <<< 4 ||| c / 16) % 256) <<< 4 ||| c % 16) % 256 = c := by
  decide +kernel

theorem readHex_escapeHex (c : Nat) (h : c < 256) (rest : List Nat) :
    readHex 2 0 (hexDigit (c % 256 / 16) :: hexDigit (c % 256 % 16) :: rest) = (c, rest) := by
  rw [Nat.mod_eq_of_lt h]
  simp only [readHex, xvalue_hexDigit (c / 16) (by omega), xvalue_hexDigit (c % 16) (by omega)]
  rw [hexPair c h]

theorem asUnescape_hex (c : Nat) (h : c < 256) (rest : List Nat) :
    asUnescape (escapeHex c ++ rest) = (asUnescape rest).map fun (s, k) => (c :: s, k) := by
  have e : asEsc ([120, hexDigit (c % 256 / 16), hexDigit (c % 256 % 16)] ++ rest) = some (c, rest) := by
    simp only [List.cons_append, List.nil_append, asEsc]
    rw [readHex_escapeHex c h]; simp
  show asUnescape (92 :: ([120, hexDigit (c % 256 / 16), hexDigit (c % 256 % 16)] ++ rest)) = _
  rw [asUnescape, if_neg (by decide), if_neg (by decide), if_pos rfl]
  split
  · rename_i h'; rw [e] at h'; cases h'
  · rename_i h'; rw [e] at h'; cases h'; rfl

theorem lexUnescape_hex (c : Nat) (h : c < 256) (rest : List Nat) :
    lexUnescape (escapeHex c ++ rest) = (lexUnescape rest).map fun (s, k) => (c :: s, k) := by
  have e : lexEsc ([120, hexDigit (c % 256 / 16), hexDigit (c % 256 % 16)] ++ rest) = some (c, rest) := by
    simp only [List.cons_append, List.nil_append, lexEsc]
    rw [readHex_escapeHex c h]; simp
  show lexUnescape (92 :: ([120, hexDigit (c % 256 / 16), hexDigit (c % 256 % 16)] ++ rest)) = _
  rw [lexUnescape, if_neg (by decide), if_neg (by decide), if_pos rfl]
  split
  · rename_i h'; rw [e] at h'; cases h'
  · rename_i h'; rw [e] at h'; cases h'; rfl

theorem asUnescape_bs (x v : Nat) (h : ∀ rest, asEsc (x :: rest) = some (v, rest)) (rest : List Nat) :
    asUnescape (92 :: x :: rest) = (asUnescape rest).map fun (s, k) => (v :: s, k) := by
  rw [asUnescape, if_neg (by decide), if_neg (by decide), if_pos rfl]
  split
  · rename_i h'; rw [h] at h'; cases h'
  · rename_i h'; rw [h] at h'; cases h'; rfl

theorem lexUnescape_bs (x v : Nat) (h : ∀ rest, lexEsc (x :: rest) = some (v, rest)) (rest : List Nat) :
    lexUnescape (92 :: x :: rest) = (lexUnescape rest).map fun (s, k) => (v :: s, k) := by
  rw [lexUnescape, if_neg (by decide), if_neg (by decide), if_pos rfl]
  split
  · rename_i h'; rw [h] at h'; cases h'
  · rename_i h'; rw [h] at h'; cases h'; rfl

theorem asUnescape_escape (c : Nat) (h : c < 256) (e : List Nat) (he : escape c = some e) (rest : List Nat) :
    asUnescape (e ++ rest) = (asUnescape rest).map fun (s, k) => (c :: s, k) := by
  unfold escape at he
  repeat' split at he
  all_goals first | cases he | skip
  · subst_vars; exact asUnescape_bs 48 0 (fun _ => rfl) rest
  · subst_vars; exact asUnescape_bs 110 10 (fun _ => rfl) rest
  · subst_vars; exact asUnescape_bs 114 13 (fun _ => rfl) rest
  · subst_vars; exact asUnescape_bs 116 9 (fun _ => rfl) rest
  · subst_vars; exact asUnescape_bs 34 34 (fun _ => rfl) rest
  · subst_vars; exact asUnescape_bs 92 92 (fun _ => rfl) rest
  · exact asUnescape_hex c h rest

theorem lexUnescape_escape (c : Nat) (h : c < 256) (h0 : c ≠ 0) (e : List Nat) (he : escape c = some e)
    (rest : List Nat) :
    lexUnescape (e ++ rest) = (lexUnescape rest).map fun (s, k) => (c :: s, k) := by
  unfold escape at he
  repeat' split at he
  all_goals first | cases he | skip
  · contradiction
  · subst_vars; exact lexUnescape_bs 110 10 (fun _ => rfl) rest
  · subst_vars; exact lexUnescape_bs 114 13 (fun _ => rfl) rest
  · subst_vars; exact lexUnescape_bs 116 9 (fun _ => rfl) rest
  · subst_vars; exact lexUnescape_bs 34 34 (fun _ => rfl) rest
  · subst_vars; exact lexUnescape_bs 92 92 (fun _ => rfl) rest
  · exact lexUnescape_hex c h rest

theorem escape_none {c : Nat} (h : escape c = none) : 0x20 ≤ c ∧ c < 0x7f ∧ c ≠ 34 ∧ c ≠ 92 := by
  unfold escape at h
  repeat' split at h
  all_goals first | cases h | skip
  omega

theorem asUnescape_escRec (s : List Nat) (hs : ∀ c ∈ s, c < 256) (hex : Bool) (rest : List Nat) :
    asUnescape (escRec hex s ++ rest) = (asUnescape rest).map fun (t, k) => (s ++ t, k) := by
  induction s generalizing hex with
  | nil => simp [escRec]
  | cons c cs ih =>
    have hc := hs c (by simp)
    have ih := ih (fun x hx => hs x (by simp [hx]))
    simp only [escRec]
    split
    · rw [List.append_assoc, asUnescape_hex c hc, ih, Option.map_map]; rfl
    · split
      · rename_i he
        have := escape_none he
        rw [List.cons_append, asUnescape, if_neg (by omega), if_neg (by omega), if_neg (by omega), ih,
          Option.map_map]; rfl
      · rename_i he
        rw [List.append_assoc, asUnescape_escape c hc _ he, ih, Option.map_map]; rfl

theorem lexUnescape_escRec (s : List Nat) (hs : ∀ c ∈ s, c < 256 ∧ c ≠ 0) (hex : Bool) (rest : List Nat) :
    lexUnescape (escRec hex s ++ rest) = (lexUnescape rest).map fun (t, k) => (s ++ t, k) := by
  induction s generalizing hex with
  | nil => simp [escRec]
  | cons c cs ih =>
    obtain ⟨hc, h0⟩ := hs c (by simp)
    have ih := ih (fun x hx => hs x (by simp [hx]))
    simp only [escRec]
    split
    · rw [List.append_assoc, lexUnescape_hex c hc, ih, Option.map_map]; rfl
    · split
      · rename_i he
        have := escape_none he
        rw [List.cons_append, lexUnescape, if_neg (by omega), if_neg (by omega), if_neg (by omega), ih,
          Option.map_map]; rfl
      · rename_i he
        rw [List.append_assoc, lexUnescape_escape c hc h0 _ he, ih, Option.map_map]; rfl

theorem asUnescape_quote (rest : List Nat) : asUnescape (34 :: rest) = some ([], rest) := by
  simp [asUnescape]
theorem lexUnescape_quote (rest : List Nat) : lexUnescape (34 :: rest) = some ([], rest) := by
  simp [lexUnescape]

theorem asUnescape_zeros (n : Nat) (rest : List Nat) :
    asUnescape ((List.replicate n [92, 48]).flatten ++ rest) =
      (asUnescape rest).map fun (t, k) => (List.replicate n 0 ++ t, k) := by
  induction n with
  | zero => simp
  | succ n ih =>
    simp only [List.replicate_succ, List.flatten_cons, List.append_assoc, List.cons_append,
      List.nil_append]
    rw [asUnescape_bs 48 0 (fun _ => rfl), ih, Option.map_map]; rfl

theorem hexDigit_printable (n : Nat) (h : n < 16) : 0x20 ≤ hexDigit n ∧ hexDigit n < 0x7f := by
  unfold hexDigit; split <;> omega

theorem escapeHex_printable (c : Nat) : ∀ b ∈ escapeHex c, 0x20 ≤ b ∧ b < 0x7f := by
  intro b hb
  simp only [escapeHex, List.mem_cons, List.not_mem_nil, or_false] at hb
  rcases hb with rfl | rfl | rfl | rfl
  · omega
  · omega
  · exact hexDigit_printable _ (by omega)
  · exact hexDigit_printable _ (by omega)

theorem escape_printable {c : Nat} {e : List Nat} (h : escape c = some e) :
    ∀ b ∈ e, 0x20 ≤ b ∧ b < 0x7f := by
  unfold escape at h
  repeat' split at h
  all_goals first | cases h | skip
  all_goals first | exact escapeHex_printable c | (intro b hb; simp at hb; omega)

/-! ## Theorems -/

/-- **C17.** For every byte string, `escape_string` never trips its assertion and the
assembler reads back exactly the same bytes, stopping at the closing quote. -/
theorem as_roundtrip (s : List Nat) (hs : ∀ c ∈ s, c < 256) (rest : List Nat) :
    ∃ e, escapeString s = some e ∧ asUnescape (e ++ 34 :: rest) = some (s, rest) := by
  refine ⟨_, escapeString_eq s, ?_⟩
  rw [asUnescape_escRec s hs, asUnescape_quote]
  simp

/-- **C17.** The escaped text stays on one line of printable characters, so it cannot
break the line-oriented assembly file. -/
theorem escaped_printable (s e : List Nat) (h : escapeString s = some e) :
    ∀ b ∈ e, 0x20 ≤ b ∧ b < 0x7f := by
  rw [escapeString_eq] at h
  cases h
  suffices ∀ hex, ∀ b ∈ escRec hex s, 0x20 ≤ b ∧ b < 0x7f from this false
  induction s with
  | nil => simp [escRec]
  | cons c cs ih =>
    intro hex b hb
    simp only [escRec] at hb
    split at hb
    · rcases List.mem_append.1 hb with h | h
      · exact escapeHex_printable c b h
      · exact ih _ b h
    · split at hb
      · rename_i he
        have := escape_none he
        rcases List.mem_cons.1 hb with h | h
        · omega
        · exact ih _ b h
      · rename_i he
        rcases List.mem_append.1 hb with h | h
        · exact escape_printable he b h
        · exact ih _ b h

/-- **C17.** The whole path: the object emitted for a string initialiser, of any
element size and any object size, assembles to exactly the bytes of the string,
truncated or zero-padded to the object size — whichever of `.string`/`.ascii` is used. -/
theorem emitString_correct (csize : Nat) (buf : List Nat) (size : Nat) (hs : ∀ c ∈ buf, c < 256) :
    ∃ d, emitString csize buf size = some d ∧ asDirective d = some (objectBytes buf size) := by
  simp only [emitString, escapeString_eq, Option.bind_eq_bind, Option.bind_some]
  refine ⟨_, rfl, ?_⟩
  simp only [asDirective, Option.bind_eq_bind, List.append_assoc]
  rw [asUnescape_escRec _ (fun c hc => hs c (List.mem_of_mem_take hc)), asUnescape_zeros,
    asUnescape_quote]
  simp only [Option.map_some, Option.bind_some, List.append_nil, Option.some.injEq]
  generalize hb : (csize == 1 && decide (min buf.length size > 0) && min buf.length size == size &&
    buf[min buf.length size - 1]? == some 0) = b
  cases b with
  | false =>
    simp only [objectBytes, if_neg (Bool.false_ne_true), Nat.sub_zero, List.append_nil]
    rcases Nat.le_total buf.length size with h | h
    · rw [Nat.min_eq_left h, List.take_of_length_le h, List.take_length]
    · rw [Nat.min_eq_right h, Nat.sub_self, Nat.sub_eq_zero_of_le h]
  | true =>
    simp only [Bool.and_eq_true, beq_iff_eq, decide_eq_true_eq] at hb
    obtain ⟨⟨⟨_, hpos⟩, hmin⟩, hlast⟩ := hb
    rw [hmin] at hlast hpos ⊢
    have hle : size ≤ buf.length := by omega
    simp only [if_true, Nat.sub_self, List.replicate_zero, List.append_nil, objectBytes,
      Nat.sub_eq_zero_of_le hle]
    obtain ⟨n, rfl⟩ : ∃ n, size = n + 1 := ⟨size - 1, by omega⟩
    simp only [Nat.add_sub_cancel] at hlast ⊢
    rw [List.take_succ, hlast]; rfl

/-- **C17.** The preprocessor's `#` operator and the C lexer: a string of non-NUL
bytes (token spellings never contain NUL) is read back unchanged. -/
theorem lex_roundtrip (s : List Nat) (hs : ∀ c ∈ s, c < 256 ∧ c ≠ 0) (rest : List Nat) :
    ∃ e, escapeString s = some e ∧ lexUnescape (e ++ 34 :: rest) = some (s, rest) := by
  refine ⟨_, escapeString_eq s, ?_⟩
  rw [lexUnescape_escRec s hs, lexUnescape_quote]
  simp

/-- The restriction to non-NUL bytes is needed for the C lexer: NUL followed by an
octal digit is written `\01`, which C reads as one character. -/
theorem lex_roundtrip_needs_nonzero :
    escapeString [0, 49] = some [92, 48, 49] ∧ lexUnescape [92, 48, 49, 34] = some ([1], []) := by
  refine ⟨by decide, ?_⟩
  simp [lexUnescape, lexEsc, readOct]

/-- Non-vacuity: escapes, a hex escape followed by a hex digit, embedded NUL before a digit. -/
example : escapeString [0, 49, 1, 97, 34, 255] =
    some [92, 48, 49, 92, 120, 48, 49, 92, 120, 54, 49, 92, 34, 92, 120, 102, 102] := by decide
example : (emitString 1 [97, 98, 0] 3).map (fun d => (d.isString, d.text)) = some (true, [97, 98, 34]) := by
  decide
example : (emitString 1 [97, 98, 0] 5).map (fun d => (d.isString, d.text)) =
    some (false, [97, 98, 92, 48, 92, 48, 92, 48, 34]) := by decide

end Verif.Escape

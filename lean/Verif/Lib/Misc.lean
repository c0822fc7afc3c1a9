/-!
# Small library functions

libsrc/stdio/_detect_open_flag.c, libsrc/stdlib/getenv.c, calloc.c,
libsrc/string/strdup.c, strndup.c, libsrc/misc/dirname.c and the character classes.
Strings are lists of bytes without the terminating zero unless said otherwise.
-/

namespace Verif.Misc

/-! ## Mode strings of fopen -/

/-- The bits of a letter, libsrc/stdio/_detect_open_flag.c:6-14,24-31; `none` is
`ILLEGAL_CHR`. -/
def bits (c : Nat) : Option Nat :=
  if c = 114 then some 33
  else if c = 119 then some 34
  else if c = 97 then some (34 ||| 8)
  else if c = 43 then some 4
  else if c = 98 then some 16
  else none

/-- The loop, _detect_open_flag.c:23-35; `none` is an error. -/
def scanMode (chr : Nat) : List Nat → Option Nat
  | [] => some chr
  | c :: m => match bits c with
    | none => none
    | some b => if chr &&& b ≠ 0 then none else scanMode (chr ||| b) m

/-- The flags of `open`; the access mode is 0 to read, 1 to write, 2 for both. -/
structure Flags where
  access : Nat
  creat : Bool
  trunc : Bool
  append : Bool
  deriving DecidableEq

/-- `kTable`, _detect_open_flag.c:51-56. -/
def kTable (i : Nat) : Flags :=
  if i = 1 then ⟨0, false, false, false⟩
  else if i = 2 then ⟨1, true, false, false⟩
  else if i = 5 then ⟨2, false, false, false⟩
  else if i = 6 then ⟨2, true, false, false⟩
  else ⟨0, false, false, false⟩

/-- `_detect_open_flag`, _detect_open_flag.c:5-61; `none` is -1. -/
def detect (mode : List Nat) : Option Flags :=
  match scanMode 0 mode with
  | none => none
  | some chr =>
    if chr &&& 3 = 0 then none
    else
      let f := kTable (chr &&& 7)
      some (if chr &&& 3 = 2 then (if chr &&& 8 ≠ 0 then { f with append := true } else { f with trunc := true }) else f)

/-- A mode: one of `r`, `w`, `a`, perhaps `+` and `b`, nothing twice. -/
def Valid (m : List Nat) : Prop :=
  m.Nodup ∧ (∀ c ∈ m, c ∈ [114, 119, 97, 43, 98]) ∧ ¬ (114 ∈ m ∧ 119 ∈ m) ∧ ¬ (114 ∈ m ∧ 97 ∈ m) ∧
    ¬ (119 ∈ m ∧ 97 ∈ m)

/-- What C11 7.21.5.3 says the mode means. -/
def meaning (m : List Nat) : Flags where
  access := if 43 ∈ m then 2 else if 114 ∈ m then 0 else 1
  creat := decide (114 ∉ m)
  trunc := decide (119 ∈ m)
  append := decide (97 ∈ m)

/-- The bits of the letters read. -/
def enc (m : List Nat) : Nat :=
  (if 114 ∈ m then 33 else 0) ||| (if 119 ∈ m then 34 else 0) ||| (if 97 ∈ m then 42 else 0) |||
    (if 43 ∈ m then 4 else 0) ||| (if 98 ∈ m then 16 else 0)

theorem valid_prefix {a b : List Nat} (h : Valid (a ++ b)) : Valid a := by
  obtain ⟨h1, h2, h3, h4, h5⟩ := h
  refine ⟨(List.nodup_append.1 h1).1, fun c hc => h2 c (by simp [hc]), ?_, ?_, ?_⟩ <;> intro h
  · exact h3 ⟨by simp [h.1], by simp [h.2]⟩
  · exact h4 ⟨by simp [h.1], by simp [h.2]⟩
  · exact h5 ⟨by simp [h.1], by simp [h.2]⟩

theorem valid_step {pre : List Nat} (h : Valid pre) (c : Nat) :
    match bits c with
    | none => ¬ Valid (pre ++ [c])
    | some b => (enc pre &&& b = 0 ↔ Valid (pre ++ [c])) ∧ enc pre ||| b = enc (pre ++ [c]) := by
  obtain ⟨h1, h2, h3, h4, h5⟩ := h
  have hnd : (pre ++ [c]).Nodup ↔ c ∉ pre := by
    rw [List.nodup_append]
    constructor
    · rintro ⟨_, _, h⟩ hc
      exact h c hc c (by simp) rfl
    · intro hc
      refine ⟨h1, by simp, ?_⟩
      rintro a ha b hb rfl
      simp only [List.mem_singleton] at hb
      exact hc (hb ▸ ha)
  have hall : (∀ x ∈ pre ++ [c], x ∈ [114, 119, 97, 43, 98]) ↔ c ∈ [114, 119, 97, 43, 98] := by
    constructor
    · intro h
      exact h c (by simp)
    · intro hc x hx
      simp only [List.mem_append, List.mem_singleton] at hx
      rcases hx with hx | rfl
      · exact h2 x hx
      · exact hc
  unfold Valid
  rw [hnd, hall]
  by_cases c1 : c = 114
  · subst c1
    by_cases a1 : 114 ∈ pre <;> by_cases a2 : 119 ∈ pre <;> by_cases a3 : 97 ∈ pre <;> by_cases a4 : 43 ∈ pre <;>
      by_cases a5 : 98 ∈ pre <;> simp_all [bits, enc]
  by_cases c2 : c = 119
  · subst c2
    by_cases a1 : 114 ∈ pre <;> by_cases a2 : 119 ∈ pre <;> by_cases a3 : 97 ∈ pre <;> by_cases a4 : 43 ∈ pre <;>
      by_cases a5 : 98 ∈ pre <;> simp_all [bits, enc]
  by_cases c3 : c = 97
  · subst c3
    by_cases a1 : 114 ∈ pre <;> by_cases a2 : 119 ∈ pre <;> by_cases a3 : 97 ∈ pre <;> by_cases a4 : 43 ∈ pre <;>
      by_cases a5 : 98 ∈ pre <;> simp_all [bits, enc]
  by_cases c4 : c = 43
  · subst c4
    by_cases a1 : 114 ∈ pre <;> by_cases a2 : 119 ∈ pre <;> by_cases a3 : 97 ∈ pre <;> by_cases a4 : 43 ∈ pre <;>
      by_cases a5 : 98 ∈ pre <;> simp_all [bits, enc]
  by_cases c5 : c = 98
  · subst c5
    by_cases a1 : 114 ∈ pre <;> by_cases a2 : 119 ∈ pre <;> by_cases a3 : 97 ∈ pre <;> by_cases a4 : 43 ∈ pre <;>
      by_cases a5 : 98 ∈ pre <;> simp_all [bits, enc]
  simp [bits, c1, c2, c3, c4, c5]

theorem scanMode_enc : ∀ (m pre : List Nat), Valid pre →
    (Valid (pre ++ m) → scanMode (enc pre) m = some (enc (pre ++ m))) ∧
    (¬ Valid (pre ++ m) → scanMode (enc pre) m = none)
  | [], pre, h => by simp [scanMode, h]
  | c :: m, pre, h => by
    have hs := valid_step h c
    have happ : pre ++ c :: m = (pre ++ [c]) ++ m := by simp
    rw [happ, scanMode]
    cases hb : bits c with
    | none =>
      rw [hb] at hs
      exact ⟨fun hv => absurd (valid_prefix hv) hs, fun _ => rfl⟩
    | some b =>
      rw [hb] at hs
      by_cases hz : enc pre &&& b = 0
      · have ih := scanMode_enc m (pre ++ [c]) (hs.1.1 hz)
        rw [← hs.2] at ih
        simpa [hz] using ih
      · have hv : ¬ Valid (pre ++ [c]) := fun hv => hz (hs.1.2 hv)
        simp only [ne_eq, hz, not_false_eq_true, if_true]
        exact ⟨fun h => absurd (valid_prefix h) hv, fun _ => trivial⟩

/-- C93: a mode string is accepted exactly if it is one, its letters in any order, and
gives the flags C prescribes. -/
theorem mode_strings (m : List Nat) (f : Flags) :
    detect m = some f ↔ Valid m ∧ (114 ∈ m ∨ 119 ∈ m ∨ 97 ∈ m) ∧ f = meaning m := by
  have h0 : Valid [] := by simp [Valid]
  have he : enc [] = 0 := rfl
  have hs := scanMode_enc m [] h0
  rw [he, List.nil_append] at hs
  by_cases hv : Valid m
  · rw [detect, hs.1 hv]
    obtain ⟨_, _, h3, h4, h5⟩ := id hv
    simp only [hv, true_and]
    by_cases a1 : 114 ∈ m <;> by_cases a2 : 119 ∈ m <;> by_cases a3 : 97 ∈ m <;> by_cases a4 : 43 ∈ m <;>
      by_cases a5 : 98 ∈ m <;> simp_all [enc, meaning, kTable] <;> exact eq_comm
  · rw [detect, hs.2 hv]
    simp [hv]

/-- `a+b` and `rw`. -/
example : detect [97, 43, 98] = some ⟨2, true, false, true⟩ ∧ Valid [97, 43, 98] ∧ detect [114, 119] = none := by
  refine ⟨by decide, by simp [Valid], by decide⟩

/-! ## getenv -/

/-- `getenv`, libsrc/stdlib/getenv.c:4-19.  `strncmp` finds no difference exactly if
the entry begins with the name, which has no zero. -/
def getenv (env : List (List Nat)) (name : List Nat) : Option (List Nat) :=
  match env with
  | [] => none
  | p :: env => if name.isPrefixOf p ∧ p[name.length]? = some 61 then some (p.drop (name.length + 1)) else getenv env name

theorem entry_iff (p name : List Nat) :
    (name.isPrefixOf p ∧ p[name.length]? = some 61) ↔ ∃ v, p = name ++ 61 :: v := by
  rw [List.isPrefixOf_iff_prefix]
  constructor
  · rintro ⟨⟨q, rfl⟩, h⟩
    rw [List.getElem?_append_right (Nat.le_refl _), Nat.sub_self] at h
    cases q with
    | nil => cases h
    | cons c v =>
      simp only [List.getElem?_cons_zero, Option.some.injEq] at h
      exact ⟨v, by rw [h]⟩
  · rintro ⟨v, rfl⟩
    exact ⟨⟨61 :: v, rfl⟩, by simp⟩

/-- C93: the value is that of the first entry with the name. -/
theorem getenv_value (env : List (List Nat)) (name v : List Nat) :
    getenv env name = some v ↔
      ∃ pre post, env = pre ++ (name ++ 61 :: v) :: post ∧ ∀ e ∈ pre, ∀ u, e ≠ name ++ 61 :: u := by
  induction env with
  | nil => simp [getenv]
  | cons p env ih =>
    rw [getenv]
    by_cases h : name.isPrefixOf p ∧ p[name.length]? = some 61
    · rw [if_pos h]
      obtain ⟨u, rfl⟩ := (entry_iff p name).1 h
      have hd : (name ++ 61 :: u).drop (name.length + 1) = u := by
        rw [← List.drop_drop, List.drop_left]
        rfl
      rw [hd]
      constructor
      · rintro ⟨⟩
        exact ⟨[], env, rfl, by simp⟩
      · rintro ⟨pre, post, heq, hno⟩
        cases pre with
        | nil =>
          simp only [List.nil_append, List.cons.injEq, List.append_cancel_left_eq, true_and] at heq
          rw [heq.1]
        | cons e pre =>
          simp only [List.cons_append, List.cons.injEq] at heq
          exact absurd heq.1.symm (hno e (by simp) u)
    · rw [if_neg h, ih]
      have hne : ∀ u, p ≠ name ++ 61 :: u := fun u hu => h ((entry_iff p name).2 ⟨u, hu⟩)
      constructor
      · rintro ⟨pre, post, rfl, hno⟩
        refine ⟨p :: pre, post, rfl, ?_⟩
        intro e he
        rcases List.mem_cons.1 he with rfl | he
        · exact hne
        · exact hno e he
      · rintro ⟨pre, post, heq, hno⟩
        cases pre with
        | nil =>
          simp only [List.nil_append, List.cons.injEq] at heq
          exact absurd heq.1 (hne v)
        | cons e pre =>
          simp only [List.cons_append, List.cons.injEq] at heq
          exact ⟨pre, post, heq.2, fun x hx => hno x (by simp [hx])⟩

/-- C93: there is none exactly if no entry has the name. -/
theorem getenv_none (env : List (List Nat)) (name : List Nat) :
    getenv env name = none ↔ ∀ e ∈ env, ∀ u, e ≠ name ++ 61 :: u := by
  induction env with
  | nil => simp [getenv]
  | cons p env ih =>
    rw [getenv]
    by_cases h : name.isPrefixOf p ∧ p[name.length]? = some 61
    · rw [if_pos h]
      obtain ⟨u, hu⟩ := (entry_iff p name).1 h
      simp only [reduceCtorEq, false_iff]
      exact fun hn => hn p (by simp) u hu
    · rw [if_neg h, ih]
      have hne : ∀ u, p ≠ name ++ 61 :: u := fun u hu => h ((entry_iff p name).2 ⟨u, hu⟩)
      constructor
      · intro hn e he
        rcases List.mem_cons.1 he with rfl | he
        · exact hne
        · exact hn e he
      · exact fun hn e he => hn e (by simp [he])

/-- `AB=1` and `A=2=3`: `A` is `2=3`. -/
example : getenv [[65, 66, 61, 49], [65, 61, 50, 61, 51]] [65] = some [50, 61, 51] := by decide

/-! ## strdup and strndup -/

/-- `strndup`, libsrc/string/strndup.c:4-11, when there is memory.  `obj` is what may
be read from `str` on, with the zero; `none` is a read outside.  The result is the
new block. -/
def strndup (obj : List Nat) (size : Nat) : Option (List Nat) :=
  if size ≤ obj.length then some (obj.take size ++ [0]) else none

/-- `strlen` as strdup.c:5 uses it; the string as far as its zero. -/
def cstr (m : List Nat) : List Nat := m.takeWhile (· ≠ 0)

/-- `strdup`, libsrc/string/strdup.c:4-6. -/
def strdup (obj : List Nat) : Option (List Nat) := strndup obj (cstr obj).length

theorem cstr_zero {s : List Nat} (h : 0 ∉ s) (r : List Nat) : cstr (s ++ 0 :: r) = s := by
  have hl : ∀ x ∈ s, decide (x ≠ 0) = true := by
    intro x hx
    have : x ≠ 0 := by
      rintro rfl
      exact h hx
    simpa using this
  rw [cstr, List.takeWhile_append_of_pos hl]
  simp

/-- C93: `strdup` gives a block that holds the string and its zero. -/
theorem strdup_copies {s : List Nat} (h : 0 ∉ s) (r : List Nat) : strdup (s ++ 0 :: r) = some (s ++ [0]) := by
  rw [strdup, cstr_zero h, strndup, if_pos (by simp), List.take_left]

/-- C93 (partial, see `strndup_reads_beyond`): as long as the size stays in the
object, `strndup` gives the string's first bytes. -/
theorem strndup_partial {s : List Nat} (h : 0 ∉ s) (r : List Nat) {size : Nat}
    (hs : size ≤ (s ++ 0 :: r).length) :
    ∃ d, strndup (s ++ 0 :: r) size = some d ∧ cstr d = s.take size ∧ d.length = size + 1 := by
  refine ⟨_, by rw [strndup, if_pos hs], ?_, by rw [List.length_append, List.length_take, Nat.min_eq_left hs]; rfl⟩
  have ht : 0 ∉ s.take size := fun hx => h (List.mem_of_mem_take hx)
  by_cases hle : size ≤ s.length
  · rw [List.take_append_of_le_length hle]
    exact cstr_zero ht []
  · have h1 : (s ++ 0 :: r).take size = s ++ 0 :: r.take (size - s.length - 1) := by
      obtain ⟨k, hk⟩ : ∃ k, size = s.length + (k + 1) := ⟨size - s.length - 1, by omega⟩
      rw [hk, List.take_length_add_append]
      simp
    rw [h1, List.append_assoc, List.cons_append, cstr_zero h, List.take_of_length_le (by omega)]

/-- Finding: with a size behind the object's end `strndup` reads there, although the
string ends before (libsrc/string/strndup.c:7 copies `size` bytes). -/
theorem strndup_reads_beyond (s r : List Nat) {size : Nat} (h : s.length + 1 + r.length < size) :
    strndup (s ++ 0 :: r) size = none := by
  rw [strndup, if_neg]
  simp only [List.length_append, List.length_cons]
  omega

example : strdup [97, 98, 0, 99] = some [97, 98, 0] ∧ strndup [97, 98, 0, 99] 1 = some [97, 0] := by decide

/-! ## calloc -/

/-- `calloc`, libsrc/stdlib/calloc.c:4-10: the address, or 0, and memory after. -/
def calloc (malloc : Nat → Nat) (mem : Nat → Nat) (nmemb size : Nat) : Nat × (Nat → Nat) :=
  let nbytes := nmemb * size % 2 ^ 64
  let adr := malloc nbytes
  if adr ≠ 0 then (adr, fun i => if adr ≤ i ∧ i < adr + nbytes then 0 else mem i) else (adr, mem)

/-- C93 (partial, see `calloc_too_small`): below 2^64 bytes, all of the block is zero
and the rest of memory is as before. -/
theorem calloc_partial (malloc mem : Nat → Nat) {nmemb size : Nat} (h : nmemb * size < 2 ^ 64) :
    (calloc malloc mem nmemb size).1 = malloc (nmemb * size) ∧
    (malloc (nmemb * size) ≠ 0 → ∀ i, (calloc malloc mem nmemb size).2 i =
      if malloc (nmemb * size) ≤ i ∧ i < malloc (nmemb * size) + nmemb * size then 0 else mem i) ∧
    (malloc (nmemb * size) = 0 → (calloc malloc mem nmemb size).2 = mem) := by
  unfold calloc
  rw [Nat.mod_eq_of_lt h]
  refine ⟨?_, ?_, ?_⟩
  · simp only
    split <;> rfl
  · intro h0 i
    simp only [if_pos h0]
  · intro h0
    simp only [h0, ne_eq, not_true, if_false]

/-- Finding: 2^61 elements of 24 bytes: the product wraps, so `calloc` asks `malloc`
for no bytes at all and answers with a block, where C wants a null pointer. -/
theorem calloc_too_small (malloc mem : Nat → Nat) :
    (calloc malloc mem (2 ^ 61) 24).1 = malloc 0 ∧ 2 ^ 61 * 24 ≥ 2 ^ 64 := by
  have h : 2 ^ 61 * 24 % 2 ^ 64 = 0 := by decide +kernel
  refine ⟨?_, by decide +kernel⟩
  unfold calloc
  rw [h]
  simp only
  split <;> rfl

example : (calloc (fun _ => 100) (fun _ => 7) 2 3).2 105 = 0 ∧ (calloc (fun _ => 100) (fun _ => 7) 2 3).2 106 = 7 := by
  decide +kernel

/-! ## dirname -/

/-- `dirname`, libsrc/misc/dirname.c:4-11: what is before the last slash. -/
def dirname (path : List Nat) : List Nat :=
  match path.reverse.dropWhile (· ≠ 47) with
  | [] => [46]
  | _ :: r => r.reverse

/-- C93 (partial, see `dirname_root` and `dirname_slash`): a name in a directory. -/
theorem dirname_partial (d b : List Nat) (hb : 47 ∉ b) : dirname (d ++ 47 :: b) = d ∧ dirname b = [46] := by
  have hl : ∀ x ∈ b.reverse, decide (x ≠ 47) = true := by
    intro x hx
    have : x ≠ 47 := by
      rintro rfl
      exact hb (by simpa using hx)
    simpa using this
  have h1 : (d ++ 47 :: b).reverse.dropWhile (· ≠ 47) = 47 :: d.reverse := by
    rw [List.reverse_append, List.reverse_cons, List.append_assoc, List.dropWhile_append_of_pos hl]
    rfl
  have h2 : b.reverse.dropWhile (· ≠ 47) = [] := by
    have := List.dropWhile_append_of_pos (l₂ := []) hl
    simpa using this
  rw [dirname, h1, dirname, h2]
  simp

/-- Finding: the directory of `/a` is the empty string; POSIX wants `/`. -/
theorem dirname_root : dirname [47, 97] = [] := by decide

/-- Finding: the directory of `a/b/` is `a/b`; POSIX wants `a`. -/
theorem dirname_slash : dirname [97, 47, 98, 47] = [97, 47, 98] := by decide

/-! ## Character classes -/

/-- libsrc/misc/isupper.c:3-5. -/
def isupper (c : Int) : Bool := 65 ≤ c && c ≤ 90
/-- libsrc/misc/islower.c:3-5. -/
def islower (c : Int) : Bool := 97 ≤ c && c ≤ 122
/-- libsrc/misc/isalpha.c:3-5. -/
def isalpha (c : Int) : Bool := (65 ≤ c && c ≤ 90) || (97 ≤ c && c ≤ 122)
/-- libsrc/misc/isdigit.c:3-5. -/
def isdigit (c : Int) : Bool := 48 ≤ c && c ≤ 57
/-- libsrc/misc/isalnum.c:3-5. -/
def isalnum (c : Int) : Bool := isalpha c || isdigit c
/-- libsrc/misc/isxdigit.c:3-5. -/
def isxdigit (c : Int) : Bool := (48 ≤ c && c ≤ 57) || (65 ≤ c && c ≤ 70) || (97 ≤ c && c ≤ 102)
/-- libsrc/misc/isspace.c:3-6. -/
def isspace (c : Int) : Bool := c == 32 || c == 9 || c == 10 || c == 13 || c == 12 || c == 11
/-- libsrc/misc/isgraph.c:3-5. -/
def isgraph (c : Int) : Bool := 33 ≤ c && c ≤ 126
/-- libsrc/misc/isprint.c:3-5. -/
def isprint (c : Int) : Bool := 32 ≤ c && c ≤ 126
/-- libsrc/misc/ispunct.c:3-5. -/
def ispunct (c : Int) : Bool := isgraph c && !isalnum c
/-- libsrc/misc/iscntrl.c:3-5. -/
def iscntrl (c : Int) : Bool := (0 ≤ c && c ≤ 31) || c == 127
/-- libsrc/misc/isascii.c:3-5; `(unsigned int)c` of a 32-bit `int`. -/
def isascii (c : Int) : Bool := c % 4294967296 ≤ 127
/-- libsrc/misc/toupper.c:3-5. -/
def toupper (c : Int) : Int := if islower c then c - 32 else c
/-- libsrc/misc/tolower.c:3-5. -/
def tolower (c : Int) : Int := if isupper c then c + 32 else c

/-- C93: how C11 7.4.1 relates the classes, for every `int`: letters are upper or
lower case, not both; printing characters are the space and those of `isgraph`;
punctuation is what prints and is neither space nor letter nor digit; an ASCII
character prints or is a control character, not both. -/
theorem classes_agree (c : Int) (h : -2147483648 ≤ c ∧ c < 2147483648) :
    (isalpha c = (isupper c || islower c)) ∧ (isupper c && islower c) = false ∧
    (isprint c = (c == 32 || isgraph c)) ∧
    (ispunct c = (isprint c && !isspace c && !isalnum c)) ∧
    (isascii c = (isprint c || iscntrl c)) ∧ (isprint c && iscntrl c) = false ∧
    (isxdigit c → isalnum c) ∧ (isspace c → c ≠ 32 → iscntrl c) := by
  have e : ∀ x y : Bool, (x = true ↔ y = true) → x = y := by decide
  have f : ∀ x : Bool, ¬ x = true → x = false := by decide
  refine ⟨e _ _ ?_, f _ ?_, e _ _ ?_, e _ _ ?_, e _ _ ?_, f _ ?_, ?_, ?_⟩ <;>
    simp only [isalpha, isupper, islower, isprint, isgraph, ispunct, isspace, isalnum, isdigit, isascii, iscntrl,
      isxdigit, Bool.or_eq_true, Bool.and_eq_true, Bool.not_eq_true', decide_eq_true_eq, beq_iff_eq,
      Bool.or_eq_false_iff, Bool.and_eq_false_iff, decide_eq_false_iff_not, beq_eq_false_iff_ne] <;>
    omega

/-- C93: changing case moves between the letters and leaves everything else. -/
theorem case_mapping (c : Int) :
    (islower c → isupper (toupper c) ∧ tolower (toupper c) = c) ∧
    (isupper c → islower (tolower c) ∧ toupper (tolower c) = c) ∧
    (islower c = false → toupper c = c) ∧ (isupper c = false → tolower c = c) := by
  simp only [toupper, tolower, isupper, islower, Bool.and_eq_true, decide_eq_true_eq, Bool.and_eq_false_iff,
    decide_eq_false_iff_not]
  refine ⟨?_, ?_, ?_, ?_⟩ <;> intro h
  · rw [if_pos h]
    exact ⟨by omega, by rw [if_pos (by omega)]; omega⟩
  · rw [if_pos h]
    exact ⟨by omega, by rw [if_pos (by omega)]; omega⟩
  · rw [if_neg (by omega)]
  · rw [if_neg (by omega)]

example : toupper 113 = 81 ∧ isascii (-1) = false ∧ ispunct 33 = true := by decide

/-- The characters of a string. -/
def chars (s : String) : List Int := s.toList.map (fun c => (c.toNat : Int))

/-- C93: the characters C11 5.2.1 and 7.4.1 list, for every `int`. -/
theorem classes_listed (c : Int) :
    (isdigit c ↔ c ∈ chars "0123456789") ∧ (isupper c ↔ c ∈ chars "ABCDEFGHIJKLMNOPQRSTUVWXYZ") ∧
    (islower c ↔ c ∈ chars "abcdefghijklmnopqrstuvwxyz") ∧ (isxdigit c ↔ c ∈ chars "0123456789abcdefABCDEF") ∧
    (isspace c ↔ c ∈ chars " \t\n\u000b\u000c\r") := by
  refine ⟨?_, ?_, ?_, ?_, ?_⟩
  · have h : chars "0123456789" = [48, 49, 50, 51, 52, 53, 54, 55, 56, 57] := by decide +kernel
    simp only [h, isdigit, Bool.and_eq_true, decide_eq_true_eq, List.mem_cons, List.not_mem_nil, or_false]
    omega
  · have h : chars "ABCDEFGHIJKLMNOPQRSTUVWXYZ" = [65, 66, 67, 68, 69, 70, 71, 72, 73, 74, 75, 76, 77, 78, 79, 80, 81,
        82, 83, 84, 85, 86, 87, 88, 89, 90] := by decide +kernel
    simp only [h, isupper, Bool.and_eq_true, decide_eq_true_eq, List.mem_cons, List.not_mem_nil, or_false]
    omega
  · have h : chars "abcdefghijklmnopqrstuvwxyz" = [97, 98, 99, 100, 101, 102, 103, 104, 105, 106, 107, 108, 109, 110,
        111, 112, 113, 114, 115, 116, 117, 118, 119, 120, 121, 122] := by decide +kernel
    simp only [h, islower, Bool.and_eq_true, decide_eq_true_eq, List.mem_cons, List.not_mem_nil, or_false]
    omega
  · have h : chars "0123456789abcdefABCDEF" = [48, 49, 50, 51, 52, 53, 54, 55, 56, 57, 97, 98, 99, 100, 101, 102, 65,
        66, 67, 68, 69, 70] := by decide +kernel
    simp only [h, isxdigit, Bool.and_eq_true, Bool.or_eq_true, decide_eq_true_eq, List.mem_cons, List.not_mem_nil,
      or_false]
    omega
  · have h : chars " \t\n\u000b\u000c\r" = [32, 9, 10, 11, 12, 13] := by decide +kernel
    simp only [h, isspace, Bool.or_eq_true, beq_iff_eq, List.mem_cons, List.not_mem_nil, or_false]
    omega

end Verif.Misc

import Verif.Lib.MemFuncs
/-!
# String functions (libsrc/string/str*.c, stp*.c)

Loops that run until a NUL is met take a `fuel` argument in the model; the theorems
show that fuel exceeding the string length always suffices, i.e. that the loops
terminate within the string.
-/
namespace Verif.Mem

/-! ## Model -/

/-- libsrc/string/strlen.c:3-8 `strlen`. -/
def strlen : Nat → Mem → Nat → Option Nat
  | 0, _, _ => none
  | fuel + 1, m, p => do
    let c ← ld m p
    if c = 0 then some 0 else (strlen fuel m (p + 1)).map (· + 1)

/-- libsrc/string/strnlen.c:3-8 `strnlen`. -/
def strnlen : Mem → Nat → Nat → Option Nat
  | _, _, 0 => some 0
  | m, s, n + 1 => do
    let c ← ld m s
    if c = 0 then some 0 else (strnlen m (s + 1) n).map (· + 1)

/-- The loop `while ((*dst++ = *src++) != '\0')` (libsrc/string/strcpy.c:5-6,
stpcpy.c:4-5); returns the final `dst` as well. -/
def cpyLoop : Nat → Mem → Nat → Nat → Option (Mem × Nat)
  | 0, _, _, _ => none
  | fuel + 1, m, d, s => do
    let c ← ld m s
    let m ← st m d c
    if c = 0 then some (m, d + 1) else cpyLoop fuel m (d + 1) (s + 1)

/-- libsrc/string/strcpy.c:3-8 `strcpy`. -/
def strcpy (fuel : Nat) (m : Mem) (d s : Nat) : Option Mem := (cpyLoop fuel m d s).map (·.1)

/-- libsrc/string/stpcpy.c:3-7 `stpcpy`: returns the advanced `dst`. -/
def stpcpy (fuel : Nat) (m : Mem) (d s : Nat) : Option (Mem × Nat) := cpyLoop fuel m d s

/-- The loop of libsrc/string/strncpy.c:5-6 (also stpncpy.c:4-5). -/
def ncpyLoop : Mem → Nat → Nat → Nat → Option (Mem × Nat)
  | m, d, _, 0 => some (m, d)
  | m, d, s, n + 1 => do
    let c ← ld m s
    let m ← st m d c
    if c = 0 then some (m, d + 1) else ncpyLoop m (d + 1) (s + 1) n

/-- libsrc/string/strncpy.c:3-8 `strncpy`. -/
def strncpy (m : Mem) (d s n : Nat) : Option Mem := (ncpyLoop m d s n).map (·.1)

/-- libsrc/string/strcat.c:3-6 `strcat`. -/
def strcat (fuel : Nat) (m : Mem) (d s : Nat) : Option Mem := do
  let l ← strlen fuel m d
  strcpy fuel m (d + l) s

/-- The loop of libsrc/string/strncat.c:6-8. -/
def ncatLoop : Mem → Nat → Nat → Nat → Option Mem
  | m, d, _, 0 => st m d 0
  | m, d, s, n + 1 => do
    let c ← ld m s
    if c = 0 then st m d 0
    else do
      let m ← st m d c
      ncatLoop m (d + 1) (s + 1) n

/-- libsrc/string/strncat.c:3-10 `strncat`. -/
def strncat (fuel : Nat) (m : Mem) (d s n : Nat) : Option Mem := do
  let l ← strlen fuel m d
  ncatLoop m (d + l) s n

/-- libsrc/string/strcmp.c:3-9 `strcmp`. -/
def strcmp : Nat → Mem → Nat → Nat → Option Int
  | 0, _, _, _ => none
  | fuel + 1, m, p, q => do
    let a ← ld m p
    let b ← ld m q
    if a ≠ 0 ∧ a = b then strcmp fuel m (p + 1) (q + 1) else some ((a : Int) - b)

/-- libsrc/string/strncmp.c:3-7 `strncmp`. -/
def strncmp : Mem → Nat → Nat → Nat → Option Int
  | _, _, _, 0 => some 0
  | m, p, q, n + 1 => do
    let a ← ld m p
    let b ← ld m q
    if a = b ∧ a ≠ 0 then strncmp m (p + 1) (q + 1) n else some ((a : Int) - b)

/-- libsrc/misc/tolower.c:3-5, libsrc/misc/isupper.c:3-5. -/
def tolower (c : Int) : Int := if 65 ≤ c ∧ c ≤ 90 then c + 32 else c

/-- libsrc/string/strcasecmp.c:4-15 `strcasecmp`. -/
def strcasecmp : Nat → Mem → Nat → Nat → Option Int
  | 0, _, _, _ => none
  | fuel + 1, m, p, q => do
    let a ← ld m p
    let b ← ld m q
    let d := (a : Int) - b
    if d ≠ 0 then some d else if a = 0 then some 0 else strcasecmp fuel m (p + 1) (q + 1)

/-- libsrc/string/strncasecmp.c:4-15 `strncasecmp`. -/
def strncasecmp : Mem → Nat → Nat → Nat → Option Int
  | _, _, _, 0 => some 0
  | m, p, q, n + 1 => do
    let a ← ld m p
    let b ← ld m q
    let c1 := tolower a
    let c2 := tolower b
    let d := c1 - c2
    if d ≠ 0 then some d else if c1 = 0 then some 0 else strncasecmp m (p + 1) (q + 1) n

/-- libsrc/string/strchr.c:3-10 `strchr`; `some none` is `NULL`. -/
def strchr : Nat → Mem → Nat → Int → Option (Option Nat)
  | 0, _, _, _ => none
  | fuel + 1, m, s, c => do
    let b ← ld m s
    if schar b = c then some (some s)
    else if b = 0 then some none
    else strchr fuel m (s + 1) c

/-- libsrc/string/strrchr.c:3-11 `strrchr` with the local `last`. -/
def strrchrLoop : Nat → Mem → Nat → Int → Option Nat → Option (Option Nat)
  | 0, _, _, _, _ => none
  | fuel + 1, m, s, c, last => do
    let b ← ld m s
    let last := if schar b = c then some s else last
    if b = 0 then some last else strrchrLoop fuel m (s + 1) c last

def strrchr (fuel : Nat) (m : Mem) (s : Nat) (c : Int) : Option (Option Nat) :=
  strrchrLoop fuel m s c none

/-- libsrc/string/strcspn.c:3-8 `strcspn`.  `cfuel` bounds the inner `strchr`. -/
def strcspnF (cfuel : Nat) : Nat → Mem → Nat → Nat → Option Nat
  | 0, _, _, _ => none
  | fuel + 1, m, s, rej => do
    let c ← ld m s
    if c = 0 then some 0
    else do
      let r ← strchr cfuel m rej (schar c)
      if r.isNone then (strcspnF cfuel fuel m (s + 1) rej).map (· + 1) else some 0

/-- libsrc/string/strspn.c:3-8 `strspn`.  `cfuel` bounds the inner `strchr`. -/
def strspnF (cfuel : Nat) : Nat → Mem → Nat → Nat → Option Nat
  | 0, _, _, _ => none
  | fuel + 1, m, s, acc => do
    let c ← ld m s
    if c = 0 then some 0
    else do
      let r ← strchr cfuel m acc (schar c)
      if r.isSome then (strspnF cfuel fuel m (s + 1) acc).map (· + 1) else some 0

/-- libsrc/string/strpbrk.c:3-8 `strpbrk`. -/
def strpbrk (fuel : Nat) (m : Mem) (s acc : Nat) : Option (Option Nat) := do
  let n ← strcspnF fuel fuel m s acc
  let c ← ld m (s + n)
  if c = 0 then some none else some (some (s + n))

/-- The loop of libsrc/string/strstr.c:4-7. -/
def strstrLoop : Nat → Mem → Nat → Nat → Nat → Option (Option Nat)
  | 0, _, _, _, _ => none
  | fuel + 1, m, s1, s2, len => do
    let c ← ld m s1
    if c = 0 then some none
    else do
      let d ← strncmp m s1 s2 len
      if d = 0 then some (some s1) else strstrLoop fuel m (s1 + 1) s2 len

/-- libsrc/string/strstr.c:3-9 `strstr`. -/
def strstr (fuel : Nat) (m : Mem) (s1 s2 : Nat) : Option (Option Nat) := do
  let len ← strlen fuel m s2
  strstrLoop fuel m s1 s2 len

/-- libsrc/string/strtok_r.c:3-14 `strtok_r`; `src = none` is `NULL`, `ptr` the saved
pointer.  Result: the returned pointer, the new memory, the new `*ptr`. -/
def strtokR (fuel : Nat) (m : Mem) (src : Option Nat) (delim ptr : Nat) : Option (Option Nat × Mem × Nat) := do
  let p := src.getD ptr
  let k ← strspnF fuel fuel m p delim
  let p := p + k
  let c ← ld m p
  if c = 0 then some (none, m, p)
  else do
    let n ← strcspnF fuel fuel m p delim
    let m ← st m (p + n) 0
    some (some p, m, p + n + 1)

/-- libsrc/misc/basename.c:4-10 `basename`. -/
def basename (fuel : Nat) (m : Mem) (path : Nat) : Option Nat := do
  let p ← strrchr fuel m path 47
  match p with
  | some p => some (p + 1)
  | none => some path

/-! ## Lemmas -/

theorem strlen_spec {m : Mem} {p : Nat} {s : List Nat} (h : CStr m p s) (fuel : Nat)
    (hf : s.length < fuel) : strlen fuel m p = some s.length := by
  induction s generalizing p fuel with
  | nil =>
    obtain ⟨f, rfl⟩ : ∃ f, fuel = f + 1 := ⟨fuel - 1, by simp at hf; omega⟩
    simp only [CStr] at h
    simp [strlen, ld, h]
  | cons c cs ih =>
    obtain ⟨f, rfl⟩ : ∃ f, fuel = f + 1 := ⟨fuel - 1, by simp at hf; omega⟩
    simp only [strlen, ld, h.1, Option.bind_eq_bind, Option.bind_some, if_neg h.2.1,
      ih h.2.2 f (by simpa using hf)]
    simp

theorem strnlen_spec {m : Mem} {p : Nat} {s : List Nat} (h : CStr m p s) (n : Nat) :
    strnlen m p n = some (min s.length n) := by
  induction n generalizing p s with
  | zero => simp [strnlen]
  | succ n ih =>
    cases s with
    | nil => simp only [CStr] at h; simp [strnlen, ld, h]
    | cons c cs =>
      simp only [strnlen, ld, h.1, Option.bind_eq_bind, Option.bind_some, if_neg h.2.1, ih h.2.2]
      simp

theorem moved_cons (m : Mem) (d s n c : Nat) (hc : m s = some c) (hd : d < s ∨ s + n < d) :
    moved (fun x => if x = d then some c else m x) (d + 1) (s + 1) n = moved m d s (n + 1) := by
  funext x
  simp only [moved]
  by_cases hx : d ≤ x ∧ x < d + (n + 1)
  · rw [if_pos hx]
    by_cases hxd : x = d
    · subst hxd
      rw [if_neg (by omega), if_pos rfl, Nat.sub_self, Nat.zero_add, hc]
    · rw [if_pos (by omega), if_neg (by omega)]
      congr 1; omega
  · rw [if_neg hx, if_neg (by omega), if_neg (by omega)]

theorem moved_zero (m : Mem) (d s : Nat) : moved m d s 0 = m := by
  funext x; simp only [moved]; rw [if_neg (by omega)]

theorem CStr.upd {m : Mem} {p : Nat} {s : List Nat} (h : CStr m p s) (a v : Nat)
    (ha : a < p ∨ p + s.length < a) : CStr (fun x => if x = a then some v else m x) p s := by
  induction s generalizing p with
  | nil => simp only [CStr] at h ⊢; rw [if_neg (by simp at ha; omega)]; exact h
  | cons c cs ih =>
    refine ⟨?_, h.2.1, ih h.2.2 (by simp at ha; omega)⟩
    show (if p = a then some v else m p) = some c
    rw [if_neg (by simp at ha; omega)]; exact h.1

theorem cpyLoop_spec {m : Mem} {d p : Nat} {s : List Nat} (h : CStr m p s)
    (hd : Mapped m d (s.length + 1)) (hdis : d < p ∨ p + s.length < d) (fuel : Nat)
    (hf : s.length < fuel) :
    cpyLoop fuel m d p = some (moved m d p (s.length + 1), d + s.length + 1) := by
  induction s generalizing m d p fuel with
  | nil =>
    obtain ⟨f, rfl⟩ : ∃ f, fuel = f + 1 := ⟨fuel - 1, by simp at hf; omega⟩
    have h0 : m p = some 0 := h
    simp only [cpyLoop, ld, h0, Option.bind_eq_bind, Option.bind_some, st_mapped hd.head, if_true]
    have := moved_cons m d p 0 0 h0 (by simpa using hdis)
    rw [moved_zero] at this
    simp [this]
  | cons c cs ih =>
    obtain ⟨f, rfl⟩ : ∃ f, fuel = f + 1 := ⟨fuel - 1, by simp at hf; omega⟩
    simp only [List.length_cons] at hdis hf hd ⊢
    simp only [cpyLoop, ld, h.1, Option.bind_eq_bind, Option.bind_some, st_mapped hd.head, if_neg h.2.1]
    have hd' : Mapped (fun x => if x = d then some c else m x) (d + 1) (cs.length + 1) :=
      hd.tail.mono fun x hx => by rw [upd_isSome _ _ _ hd.head]; exact hx
    have hs' := h.2.2.upd d c (by omega)
    rw [ih hs' hd' (by omega) f (by omega)]
    rw [moved_cons m d p _ c h.1 (by omega)]
    simp; omega

/-! ## Theorems -/

/-- **C05.** `strlen`. -/
theorem strlen_correct (m : Mem) (p : Nat) (s : List Nat) (h : CStr m p s) (fuel : Nat)
    (hf : s.length < fuel) : strlen fuel m p = some s.length := strlen_spec h fuel hf

/-- **C05.** `strnlen`. -/
theorem strnlen_correct (m : Mem) (p : Nat) (s : List Nat) (h : CStr m p s) (n : Nat) :
    strnlen m p n = some (min s.length n) := strnlen_spec h n

/-- **C05.** `strcpy` copies the string and its NUL and writes nothing else, when the
destination has room and does not start inside or overlap the source from below. -/
theorem strcpy_correct (m : Mem) (d p : Nat) (s : List Nat) (h : CStr m p s)
    (hd : Mapped m d (s.length + 1)) (hdis : d < p ∨ p + s.length < d) (fuel : Nat) (hf : s.length < fuel) :
    strcpy fuel m d p = some (moved m d p (s.length + 1)) := by
  simp [strcpy, cpyLoop_spec h hd hdis fuel hf]

theorem holds_append {m : Mem} {a : Nat} {l k : List Nat} :
    Holds m a (l ++ k) ↔ Holds m a l ∧ Holds m (a + l.length) k := by
  induction l generalizing a with
  | nil => simp [Holds]
  | cons c cs ih =>
    simp only [List.cons_append, Holds, ih, List.length_cons, and_assoc]
    rw [show a + 1 + cs.length = a + (cs.length + 1) by omega]

theorem holds_congr {m m' : Mem} {a : Nat} {l : List Nat} (h : Holds m a l)
    (he : ∀ i < l.length, m' (a + i) = m (a + i)) : Holds m' a l :=
  holds_of_get fun i hi => by rw [he i hi]; exact h.get i hi

/-- After `strcpy`/`memcpy` the destination holds the bytes. -/
theorem moved_holds {m : Mem} {d p : Nat} {l : List Nat} (h : Holds m p l) :
    Holds (moved m d p l.length) d l :=
  holds_of_get fun i hi => by
    simp only [moved]
    rw [if_pos (by omega), show d + i - d + p = p + i by omega]
    exact h.get i hi

/-- **C05.** `strcat` leaves the concatenation at the destination and changes no other
byte. -/
theorem strcat_correct (m : Mem) (d p : Nat) (t s : List Nat) (ht : CStr m d t) (h : CStr m p s)
    (hd : Mapped m d (t.length + s.length + 1))
    (hdis : p + s.length < d ∨ d + t.length + s.length < p) (fuel : Nat)
    (hf : s.length < fuel ∧ t.length < fuel) :
    ∃ m', strcat fuel m d p = some m' ∧ CStr m' d (t ++ s) ∧
      ∀ x, ¬(d + t.length ≤ x ∧ x ≤ d + t.length + s.length) → m' x = m x := by
  refine ⟨moved m (d + t.length) p (s.length + 1), ?_, ?_, ?_⟩
  · simp only [strcat, strlen_spec ht fuel hf.2, Option.bind_eq_bind, Option.bind_some]
    refine strcpy_correct m _ p s h (fun i hi => ?_) (by omega) fuel hf.1
    have := hd (t.length + i) (by omega)
    rwa [← Nat.add_assoc] at this
  · apply cstr_of_holds
    · rw [List.append_assoc, holds_append]
      refine ⟨holds_congr (holds_append.1 ht.holds).1 fun i hi => ?_, ?_⟩
      · simp only [moved]; rw [if_neg (by omega)]
      · have := moved_holds (d := d + t.length) h.holds
        simpa using this
    · intro c hc
      rcases List.mem_append.1 hc with h' | h'
      · exact ht.ne_zero c h'
      · exact h.ne_zero c h'
  · intro x hx
    simp only [moved]; rw [if_neg (by omega)]

theorem ncatLoop_spec {m : Mem} {d p : Nat} {s : List Nat} (h : CStr m p s) (n : Nat)
    (hd : Mapped m d (min s.length n + 1))
    (hdis : p + s.length < d ∨ d + min s.length n < p) :
    ∃ m', ncatLoop m d p n = some m' ∧ Holds m' d (s.take n ++ [0]) ∧
      ∀ x, ¬(d ≤ x ∧ x ≤ d + min s.length n) → m' x = m x := by
  induction n generalizing m d p s with
  | zero =>
    simp only [ncatLoop, st_mapped hd.head]
    refine ⟨_, rfl, ⟨by simp, trivial⟩, fun x hx => if_neg (by simp at hx; omega)⟩
  | succ n ih =>
    cases s with
    | nil =>
      have h0 : m p = some 0 := h
      simp only [ncatLoop, ld, h0, Option.bind_eq_bind, Option.bind_some, if_true, st_mapped hd.head]
      refine ⟨_, rfl, ⟨by simp, trivial⟩, fun x hx => if_neg (by simp at hx; omega)⟩
    | cons c cs =>
      have hmin : min (c :: cs).length (n + 1) = min cs.length n + 1 := by simp
      rw [hmin] at hd hdis ⊢
      simp only [List.length_cons] at hdis
      simp only [ncatLoop, ld, h.1, Option.bind_eq_bind, Option.bind_some, if_neg h.2.1, st_mapped hd.head]
      have hd' : Mapped (fun x => if x = d then some c else m x) (d + 1) (min cs.length n + 1) :=
        hd.tail.mono fun x hx => by rw [upd_isSome _ _ _ hd.head]; exact hx
      obtain ⟨m', h1, h2, h3⟩ := ih (h.2.2.upd d c (by omega)) hd' (by omega)
      refine ⟨m', h1, ⟨?_, ?_⟩, ?_⟩
      · rw [h3 d (by omega)]; simp
      · simpa using h2
      · intro x hx
        rw [h3 x (by omega), if_neg (by omega)]

/-- **C05.** `strncat` appends at most `n` characters and always terminates the result. -/
theorem strncat_correct (m : Mem) (d p n : Nat) (t s : List Nat) (ht : CStr m d t) (h : CStr m p s)
    (hd : Mapped m d (t.length + min s.length n + 1))
    (hdis : p + s.length < d ∨ d + t.length + min s.length n < p) (fuel : Nat) (hf : t.length < fuel) :
    ∃ m', strncat fuel m d p n = some m' ∧ CStr m' d (t ++ s.take n) ∧
      ∀ x, ¬(d + t.length ≤ x ∧ x ≤ d + t.length + min s.length n) → m' x = m x := by
  simp only [strncat, strlen_spec ht fuel hf, Option.bind_eq_bind, Option.bind_some]
  obtain ⟨m', h1, h2, h3⟩ := ncatLoop_spec (d := d + t.length) h n (fun i hi => by
    have := hd (t.length + i) (by omega)
    rwa [← Nat.add_assoc] at this) (by omega)
  refine ⟨m', h1, ?_, h3⟩
  apply cstr_of_holds
  · rw [List.append_assoc, holds_append]
    refine ⟨holds_congr (holds_append.1 ht.holds).1 fun i hi => h3 _ (by omega), h2⟩
  · intro c hc
    rcases List.mem_append.1 hc with h' | h'
    · exact ht.ne_zero c h'
    · exact h.ne_zero c (List.mem_of_mem_take h')

/-- **C05.** `strcmp` is the unsigned lexicographic comparison of the two strings with
their terminators. -/
theorem strcmp_correct (m : Mem) (p q : Nat) (s t : List Nat) (hs : CStr m p s) (ht : CStr m q t)
    (fuel : Nat) (hf : s.length < fuel) : strcmp fuel m p q = some (lexDiff (s ++ [0]) (t ++ [0])) := by
  induction s generalizing p q t fuel with
  | nil =>
    obtain ⟨f, rfl⟩ : ∃ f, fuel = f + 1 := ⟨fuel - 1, by simp at hf; omega⟩
    have h0 : m p = some 0 := hs
    cases t with
    | nil =>
      have h1 : m q = some 0 := ht
      simp [strcmp, ld, h0, h1, lexDiff]
    | cons b bs =>
      simp [strcmp, ld, h0, ht.1, lexDiff, Ne.symm ht.2.1]
  | cons a as ih =>
    obtain ⟨f, rfl⟩ : ∃ f, fuel = f + 1 := ⟨fuel - 1, by simp at hf; omega⟩
    cases t with
    | nil =>
      have h1 : m q = some 0 := ht
      simp [strcmp, ld, hs.1, h1, lexDiff, hs.2.1]
    | cons b bs =>
      simp only [strcmp, ld, hs.1, ht.1, Option.bind_eq_bind, Option.bind_some, List.cons_append, lexDiff]
      by_cases hab : a = b
      · rw [if_pos ⟨hs.2.1, hab⟩, if_pos hab]
        exact ih _ _ _ hs.2.2 ht.2.2 f (by simpa using hf)
      · rw [if_neg (fun h => hab h.2), if_neg hab]

theorem lexDiff_zero_iff (s t : List Nat) (hs : ∀ c ∈ s, c ≠ 0) (ht : ∀ c ∈ t, c ≠ 0) :
    lexDiff (s ++ [0]) (t ++ [0]) = 0 ↔ s = t := by
  induction s generalizing t with
  | nil =>
    cases t with
    | nil => simp [lexDiff]
    | cons b bs =>
      have := ht b (by simp)
      simp [lexDiff, this, Ne.symm this]
  | cons a as ih =>
    cases t with
    | nil =>
      have := hs a (by simp)
      simp [lexDiff, this]
    | cons b bs =>
      simp only [List.cons_append, lexDiff]
      split
      · rename_i h
        rw [ih bs (fun c hc => hs c (by simp [hc])) (fun c hc => ht c (by simp [hc]))]
        simp [h]
      · rename_i h; simp [h]; omega

/-- **C05.** `strcmp` returns 0 exactly for equal strings. -/
theorem strcmp_zero_iff (m : Mem) (p q : Nat) (s t : List Nat) (hs : CStr m p s) (ht : CStr m q t)
    (fuel : Nat) (hf : s.length < fuel) : strcmp fuel m p q = some 0 ↔ s = t := by
  rw [strcmp_correct m p q s t hs ht fuel hf, Option.some.injEq, lexDiff_zero_iff s t hs.ne_zero ht.ne_zero]

/-- **C05.** `strcmp` is antisymmetric in sign: swapping the arguments negates the result. -/
theorem lexDiff_swap (s t : List Nat) : lexDiff t s = - lexDiff s t := by
  induction s generalizing t with
  | nil => cases t <;> simp [lexDiff]
  | cons a as ih =>
    cases t with
    | nil => simp [lexDiff]
    | cons b bs =>
      simp only [lexDiff]
      by_cases h : a = b
      · rw [if_pos h.symm, if_pos h, ih]
      · rw [if_neg (Ne.symm h), if_neg h]; omega

/-- **C05.** `strncmp` compares at most `n` characters. -/
theorem strncmp_correct (m : Mem) (p q n : Nat) (s t : List Nat) (hs : CStr m p s) (ht : CStr m q t) :
    strncmp m p q n = some (lexDiff ((s ++ [0]).take n) ((t ++ [0]).take n)) := by
  induction n generalizing p q s t with
  | zero => simp [strncmp, lexDiff]
  | succ n ih =>
    cases s with
    | nil =>
      have h0 : m p = some 0 := hs
      cases t with
      | nil =>
        have h1 : m q = some 0 := ht
        simp [strncmp, ld, h0, h1, lexDiff]
      | cons b bs => simp [strncmp, ld, h0, ht.1, lexDiff, Ne.symm ht.2.1]
    | cons a as =>
      cases t with
      | nil =>
        have h1 : m q = some 0 := ht
        simp [strncmp, ld, hs.1, h1, lexDiff, hs.2.1]
      | cons b bs =>
        simp only [strncmp, ld, hs.1, ht.1, Option.bind_eq_bind, Option.bind_some, List.cons_append,
          List.take_succ_cons, lexDiff]
        by_cases hab : a = b
        · rw [if_pos ⟨hab, hs.2.1⟩, if_pos hab, ih _ _ _ _ hs.2.2 ht.2.2]
        · rw [if_neg (fun h => hab h.1), if_neg hab]

/-- The byte value of a character after ASCII lower-casing. -/
def lower (c : Nat) : Nat := if 65 ≤ c ∧ c ≤ 90 then c + 32 else c

theorem tolower_nat (c : Nat) : tolower (c : Int) = (lower c : Nat) := by
  unfold tolower lower; split <;> split <;> omega

theorem lower_zero {c : Nat} : lower c = 0 ↔ c = 0 := by unfold lower; split <;> omega

/-- **C05.** `strncasecmp` compares at most `n` characters ignoring ASCII case. -/
theorem strncasecmp_correct (m : Mem) (p q n : Nat) (s t : List Nat) (hs : CStr m p s) (ht : CStr m q t) :
    strncasecmp m p q n =
      some (lexDiff (((s ++ [0]).take n).map lower) (((t ++ [0]).take n).map lower)) := by
  have e0 : lower 0 = 0 := rfl
  induction n generalizing p q s t with
  | zero => simp [strncasecmp, lexDiff]
  | succ n ih =>
    cases s with
    | nil =>
      have h0 : m p = some 0 := hs
      cases t with
      | nil =>
        have h1 : m q = some 0 := ht
        simp [strncasecmp, ld, h0, h1, lexDiff, tolower]
      | cons b bs =>
        have : ¬ lower b = 0 := fun h => ht.2.1 ((lower_zero (c := b)).1 h)
        simp only [strncasecmp, ld, h0, ht.1, Option.bind_eq_bind, Option.bind_some, tolower_nat, e0]
        rw [if_pos (by omega)]
        simp [lexDiff, e0, Ne.symm this]
    | cons a as =>
      have ha : ¬ lower a = 0 := fun h => hs.2.1 ((lower_zero (c := a)).1 h)
      cases t with
      | nil =>
        have h1 : m q = some 0 := ht
        simp only [strncasecmp, ld, hs.1, h1, Option.bind_eq_bind, Option.bind_some, tolower_nat, e0]
        rw [if_pos (by omega)]
        simp [lexDiff, e0, ha]
      | cons b bs =>
        simp only [strncasecmp, ld, hs.1, ht.1, Option.bind_eq_bind, Option.bind_some, List.cons_append,
          List.take_succ_cons, List.map_cons, lexDiff, tolower_nat]
        by_cases hab : lower a = lower b
        · rw [if_neg (by omega), if_neg (by omega), if_pos hab, ih _ _ _ _ hs.2.2 ht.2.2]
        · rw [if_pos (by omega), if_neg hab]

theorem schar_inj {a b : Nat} (ha : a < 256) (hb : b < 256) : schar a = schar b ↔ a = b := by
  unfold schar; split <;> split <;> omega

theorem strchr_char {m : Mem} {p : Nat} {s : List Nat} (h : CStr m p s) (hb : ∀ c ∈ s, c < 256)
    (x : Nat) (hx : x < 256) (fuel : Nat) (hf : s.length < fuel) :
    strchr fuel m p (schar x) = some (firstAt x p (s ++ [0])) := by
  induction s generalizing p fuel with
  | nil =>
    obtain ⟨f, rfl⟩ : ∃ f, fuel = f + 1 := ⟨fuel - 1, by simp at hf; omega⟩
    have h0 : m p = some 0 := h
    simp only [strchr, ld, h0, Option.bind_eq_bind, Option.bind_some, schar_inj (show 0 < 256 by omega) hx,
      List.nil_append, firstAt]
    split <;> rfl
  | cons c cs ih =>
    obtain ⟨f, rfl⟩ : ∃ f, fuel = f + 1 := ⟨fuel - 1, by simp at hf; omega⟩
    simp only [strchr, ld, h.1, Option.bind_eq_bind, Option.bind_some, schar_inj (hb c (by simp)) hx,
      List.cons_append, firstAt, if_neg h.2.1]
    split
    · rfl
    · exact ih h.2.2 (fun c hc => hb c (by simp [hc])) f (by simpa using hf)

/-- **C05.** `strchr` finds the first occurrence (the terminator counts) — proved for
characters below 128.  Missing: `strchr(s, c)` with `c` in 128..255, see `strchr_high_wrong`. -/
theorem strchr_partial (m : Mem) (p : Nat) (s : List Nat) (h : CStr m p s) (hb : ∀ c ∈ s, c < 256)
    (x : Nat) (hx : x < 128) (fuel : Nat) (hf : s.length < fuel) :
    strchr fuel m p x = some (firstAt x p (s ++ [0])) := by
  have := strchr_char h hb x (by omega) fuel hf
  rwa [show schar x = (x : Int) by unfold schar; rw [if_pos hx]] at this

/-- Violation (C 7.26.5.2: "c converted to a char"): `strchr("é", 0xe9)` is `NULL`. -/
theorem strchr_high_wrong :
    strchr 3 (ofBytes 8 [0xe9, 0]) 8 0xe9 = some none ∧ firstAt 0xe9 8 [0xe9, 0] = some 8 := by decide

/-- Address of the last byte equal to `b`. -/
def lastAt (b : Nat) : Nat → List Nat → Option Nat
  | _, [] => none
  | a, c :: cs => (lastAt b (a + 1) cs).or (if c = b then some a else none)

theorem strrchrLoop_spec {m : Mem} {p : Nat} {s : List Nat} (h : CStr m p s) (hb : ∀ c ∈ s, c < 256)
    (x : Nat) (hx : x < 256) (last : Option Nat) (fuel : Nat) (hf : s.length < fuel) :
    strrchrLoop fuel m p (schar x) last = some ((lastAt x p (s ++ [0])).or last) := by
  induction s generalizing p last fuel with
  | nil =>
    obtain ⟨f, rfl⟩ : ∃ f, fuel = f + 1 := ⟨fuel - 1, by simp at hf; omega⟩
    have h0 : m p = some 0 := h
    simp only [strrchrLoop, ld, h0, Option.bind_eq_bind, Option.bind_some, schar_inj (show 0 < 256 by omega) hx,
      List.nil_append, lastAt, if_true, Option.none_or]
    split <;> rfl
  | cons c cs ih =>
    obtain ⟨f, rfl⟩ : ∃ f, fuel = f + 1 := ⟨fuel - 1, by simp at hf; omega⟩
    simp only [strrchrLoop, ld, h.1, Option.bind_eq_bind, Option.bind_some, schar_inj (hb c (by simp)) hx,
      List.cons_append, lastAt, if_neg h.2.1]
    rw [ih h.2.2 (fun c hc => hb c (by simp [hc])) _ f (by simpa using hf), Option.or_assoc]
    congr 2
    split <;> rfl

/-- **C05.** `strrchr` finds the last occurrence — proved for characters below 128
(same restriction as `strchr_partial`). -/
theorem strrchr_partial (m : Mem) (p : Nat) (s : List Nat) (h : CStr m p s) (hb : ∀ c ∈ s, c < 256)
    (x : Nat) (hx : x < 128) (fuel : Nat) (hf : s.length < fuel) :
    strrchr fuel m p x = some (lastAt x p (s ++ [0])) := by
  have := strrchrLoop_spec h hb x (by omega) none fuel hf
  rw [show schar x = (x : Int) by unfold schar; rw [if_pos hx]] at this
  simpa [strrchr] using this

theorem firstAt_isSome {x a : Nat} {l : List Nat} : (firstAt x a l).isSome ↔ x ∈ l := by
  induction l generalizing a with
  | nil => simp [firstAt]
  | cons c cs ih =>
    simp only [firstAt]
    split
    · rename_i h; simp [h]
    · rename_i h; rw [ih]; simp [Ne.symm h]

theorem strchr_set {m : Mem} {q : Nat} {t : List Nat} (ht : CStr m q t) (hb : ∀ c ∈ t, c < 256)
    (x : Nat) (hx : x < 256) (h0 : x ≠ 0) (fuel : Nat) (hf : t.length < fuel) :
    ∃ r, strchr fuel m q (schar x) = some r ∧ (r.isSome ↔ x ∈ t) := by
  refine ⟨_, strchr_char ht hb x hx fuel hf, ?_⟩
  rw [firstAt_isSome]; simp [h0]

theorem strspnF_spec {m : Mem} {p q : Nat} {s t : List Nat} (h : CStr m p s) (ht : CStr m q t)
    (hbs : ∀ c ∈ s, c < 256) (hbt : ∀ c ∈ t, c < 256) (cfuel fuel : Nat)
    (hcf : t.length < cfuel) (hf : s.length < fuel) :
    strspnF cfuel fuel m p q = some (s.takeWhile (fun c => decide (c ∈ t))).length := by
  induction s generalizing p fuel with
  | nil =>
    obtain ⟨f, rfl⟩ : ∃ f, fuel = f + 1 := ⟨fuel - 1, by simp at hf; omega⟩
    have h0 : m p = some 0 := h
    simp [strspnF, ld, h0]
  | cons c cs ih =>
    obtain ⟨f, rfl⟩ : ∃ f, fuel = f + 1 := ⟨fuel - 1, by simp at hf; omega⟩
    obtain ⟨r, hr, hrt⟩ := strchr_set ht hbt c (hbs c (by simp)) h.2.1 cfuel hcf
    simp only [strspnF, ld, h.1, Option.bind_eq_bind, Option.bind_some, if_neg h.2.1, hr]
    by_cases hc : c ∈ t
    · rw [if_pos (hrt.2 hc), List.takeWhile_cons_of_pos (by simpa using hc),
        ih h.2.2 (fun c hc => hbs c (by simp [hc])) f (by simpa using hf)]
      simp
    · rw [if_neg (fun h => hc (hrt.1 h)), List.takeWhile_cons_of_neg (by simpa using hc)]
      rfl

theorem strcspnF_spec {m : Mem} {p q : Nat} {s t : List Nat} (h : CStr m p s) (ht : CStr m q t)
    (hbs : ∀ c ∈ s, c < 256) (hbt : ∀ c ∈ t, c < 256) (cfuel fuel : Nat)
    (hcf : t.length < cfuel) (hf : s.length < fuel) :
    strcspnF cfuel fuel m p q = some (s.takeWhile (fun c => decide (c ∉ t))).length := by
  induction s generalizing p fuel with
  | nil =>
    obtain ⟨f, rfl⟩ : ∃ f, fuel = f + 1 := ⟨fuel - 1, by simp at hf; omega⟩
    have h0 : m p = some 0 := h
    simp [strcspnF, ld, h0]
  | cons c cs ih =>
    obtain ⟨f, rfl⟩ : ∃ f, fuel = f + 1 := ⟨fuel - 1, by simp at hf; omega⟩
    obtain ⟨r, hr, hrt⟩ := strchr_set ht hbt c (hbs c (by simp)) h.2.1 cfuel hcf
    simp only [strcspnF, ld, h.1, Option.bind_eq_bind, Option.bind_some, if_neg h.2.1, hr]
    by_cases hc : c ∈ t
    · have : r.isSome := hrt.2 hc
      rw [if_neg (by cases r <;> simp_all), List.takeWhile_cons_of_neg (by simpa using hc)]
      rfl
    · have : ¬ r.isSome := fun h => hc (hrt.1 h)
      rw [if_pos (by cases r <;> simp_all), List.takeWhile_cons_of_pos (by simpa using hc),
        ih h.2.2 (fun c hc => hbs c (by simp [hc])) f (by simpa using hf)]
      simp

/-- **C05.** `strspn`: length of the longest prefix made of the given characters
(all 255 of them, including those above 127). -/
theorem strspn_correct (m : Mem) (p q : Nat) (s t : List Nat) (h : CStr m p s) (ht : CStr m q t)
    (hbs : ∀ c ∈ s, c < 256) (hbt : ∀ c ∈ t, c < 256) (fuel : Nat) (hf : s.length < fuel ∧ t.length < fuel) :
    strspnF fuel fuel m p q = some (s.takeWhile (fun c => decide (c ∈ t))).length :=
  strspnF_spec h ht hbs hbt fuel fuel hf.2 hf.1

/-- **C05.** `strcspn`: length of the longest prefix avoiding the given characters. -/
theorem strcspn_correct (m : Mem) (p q : Nat) (s t : List Nat) (h : CStr m p s) (ht : CStr m q t)
    (hbs : ∀ c ∈ s, c < 256) (hbt : ∀ c ∈ t, c < 256) (fuel : Nat) (hf : s.length < fuel ∧ t.length < fuel) :
    strcspnF fuel fuel m p q = some (s.takeWhile (fun c => decide (c ∉ t))).length :=
  strcspnF_spec h ht hbs hbt fuel fuel hf.2 hf.1

theorem takeWhile_length_le (f : Nat → Bool) (l : List Nat) : (l.takeWhile f).length ≤ l.length :=
  (List.takeWhile_sublist f).length_le

theorem takeWhile_full {f : Nat → Bool} {l : List Nat} (h : (l.takeWhile f).length = l.length) :
    ∀ c ∈ l, f c = true := by
  induction l with
  | nil => simp
  | cons a as ih =>
    by_cases ha : f a
    · rw [List.takeWhile_cons_of_pos ha] at h
      intro c hc
      rcases List.mem_cons.1 hc with rfl | hc
      · exact ha
      · exact ih (by simpa using h) c hc
    · rw [List.takeWhile_cons_of_neg ha] at h; simp at h

theorem takeWhile_next {f : Nat → Bool} {l : List Nat} (h : (l.takeWhile f).length < l.length) :
    ∃ c, l[(l.takeWhile f).length]? = some c ∧ f c = false := by
  induction l with
  | nil => simp at h
  | cons a as ih =>
    by_cases ha : f a
    · rw [List.takeWhile_cons_of_pos ha] at h ⊢
      obtain ⟨c, h1, h2⟩ := ih (by simpa using h)
      exact ⟨c, by simpa using h1, h2⟩
    · rw [List.takeWhile_cons_of_neg ha]
      exact ⟨a, by simp, by simpa using ha⟩

/-- First address in the string of a character of `t`. -/
def firstIn (t : List Nat) : Nat → List Nat → Option Nat
  | _, [] => none
  | a, c :: cs => if c ∈ t then some a else firstIn t (a + 1) cs

theorem firstIn_eq (t : List Nat) (a : Nat) (s : List Nat) :
    firstIn t a s = if (s.takeWhile (fun c => decide (c ∉ t))).length < s.length
      then some (a + (s.takeWhile (fun c => decide (c ∉ t))).length) else none := by
  induction s generalizing a with
  | nil => simp [firstIn]
  | cons c cs ih =>
    simp only [firstIn]
    by_cases hc : c ∈ t
    · rw [if_pos hc, List.takeWhile_cons_of_neg (by simpa using hc)]; simp
    · rw [if_neg hc, List.takeWhile_cons_of_pos (by simpa using hc), ih]
      simp only [List.length_cons, Nat.add_lt_add_iff_right]
      split
      · congr 1; omega
      · rfl

/-- **C05.** `strpbrk` returns the first character of the string that belongs to the set. -/
theorem strpbrk_correct (m : Mem) (p q : Nat) (s t : List Nat) (h : CStr m p s) (ht : CStr m q t)
    (hbs : ∀ c ∈ s, c < 256) (hbt : ∀ c ∈ t, c < 256) (fuel : Nat) (hf : s.length < fuel ∧ t.length < fuel) :
    strpbrk fuel m p q = some (firstIn t p s) := by
  simp only [strpbrk, strcspnF_spec h ht hbs hbt fuel fuel hf.2 hf.1, Option.bind_eq_bind, Option.bind_some, ld]
  rw [firstIn_eq]
  have hle := takeWhile_length_le (fun c => decide (c ∉ t)) s
  generalize hk : (s.takeWhile (fun c => decide (c ∉ t))).length = k at hle ⊢
  have hg := h.holds.get k (by simp; omega)
  rw [hg]
  by_cases hlt : k < s.length
  · have : (s ++ [0])[k]'(by simp; omega) = s[k] := by rw [List.getElem_append_left hlt]
    rw [Option.bind_some, this, if_neg (h.ne_zero _ (List.getElem_mem hlt)), if_pos hlt]
  · have hk' : k = s.length := by omega
    subst hk'
    simp

/-- `t` starts at position `i` of `s`. -/
def OccursAt (t s : List Nat) (i : Nat) : Prop := t <+: s.drop i

/-- First address at which `t` occurs in `s`. -/
def firstSub (t : List Nat) : Nat → List Nat → Option Nat
  | a, [] => if t = [] then some a else none
  | a, c :: cs => if t.isPrefixOf (c :: cs) then some a else firstSub t (a + 1) cs

theorem lexDiff_prefix (s t : List Nat) (hs : ∀ c ∈ s, c ≠ 0) (ht : ∀ c ∈ t, c ≠ 0) :
    lexDiff ((s ++ [0]).take t.length) ((t ++ [0]).take t.length) = 0 ↔ t.isPrefixOf s = true := by
  induction t generalizing s with
  | nil => simp [lexDiff]
  | cons b bs ih =>
    cases s with
    | nil =>
      have := ht b (by simp)
      simp [lexDiff, this, Ne.symm this]
    | cons a as =>
      simp only [List.cons_append, List.length_cons, List.take_succ_cons, lexDiff, List.isPrefixOf_cons₂,
        Bool.and_eq_true, beq_iff_eq]
      by_cases hab : a = b
      · rw [if_pos hab, ih as (fun c hc => hs c (by simp [hc])) (fun c hc => ht c (by simp [hc]))]
        simp [hab]
      · rw [if_neg hab]
        constructor
        · intro h; omega
        · intro h; exact absurd h.1.symm hab

theorem strstrLoop_spec {m : Mem} {p q : Nat} {s t : List Nat} (h : CStr m p s) (ht : CStr m q t)
    (hne : s ≠ [] ∨ t ≠ []) (fuel : Nat) (hf : s.length < fuel) :
    strstrLoop fuel m p q t.length = some (firstSub t p s) := by
  induction s generalizing p fuel with
  | nil =>
    obtain ⟨f, rfl⟩ : ∃ f, fuel = f + 1 := ⟨fuel - 1, by simp at hf; omega⟩
    have h0 : m p = some 0 := h
    have : t ≠ [] := by simpa using hne
    simp [strstrLoop, ld, h0, firstSub, this]
  | cons c cs ih =>
    obtain ⟨f, rfl⟩ : ∃ f, fuel = f + 1 := ⟨fuel - 1, by simp at hf; omega⟩
    simp only [strstrLoop, ld, h.1, Option.bind_eq_bind, Option.bind_some, if_neg h.2.1,
      strncmp_correct m p q t.length _ _ h ht, lexDiff_prefix _ _ h.ne_zero ht.ne_zero, firstSub]
    split
    · rfl
    · rename_i hp
      refine ih h.2.2 (.inr ?_) f (by simpa using hf)
      rintro rfl; simp at hp

/-- **C05.** `strstr` finds the first occurrence of the substring — proved unless both
strings are empty.  Missing: `strstr("", "")`, see `strstr_empty_wrong`. -/
theorem strstr_partial (m : Mem) (p q : Nat) (s t : List Nat) (h : CStr m p s) (ht : CStr m q t)
    (hne : s ≠ [] ∨ t ≠ []) (fuel : Nat) (hf : s.length < fuel ∧ t.length < fuel) :
    strstr fuel m p q = some (firstSub t p s) := by
  simp only [strstr, strlen_spec ht fuel hf.2, Option.bind_eq_bind, Option.bind_some]
  exact strstrLoop_spec h ht hne fuel hf.1

/-- `firstSub` is what it should be: a found position is an occurrence and the first one. -/
theorem firstSub_spec (t : List Nat) (a : Nat) (s : List Nat) :
    (∀ r, firstSub t a s = some r → a ≤ r ∧ r ≤ a + s.length ∧ OccursAt t s (r - a) ∧
      ∀ i, a + i < r → ¬ OccursAt t s i) ∧
    (firstSub t a s = none → ∀ i ≤ s.length, ¬ OccursAt t s i) := by
  induction s generalizing a with
  | nil =>
    simp only [firstSub]
    by_cases ht : t = []
    · rw [if_pos ht]; subst ht
      refine ⟨fun r hr => ?_, fun h => by cases h⟩
      simp only [Option.some.injEq] at hr; subst hr
      exact ⟨by omega, by simp, by simp [OccursAt], fun i hi => by omega⟩
    · rw [if_neg ht]
      refine ⟨fun r hr => (by cases hr), fun _ i hi => ?_⟩
      simp only [OccursAt, List.drop_nil]
      intro h; exact ht (List.prefix_nil.1 h)
  | cons c cs ih =>
    simp only [firstSub]
    by_cases hp : t.isPrefixOf (c :: cs)
    · rw [if_pos hp]
      refine ⟨fun r hr => ?_, fun h => by cases h⟩
      simp only [Option.some.injEq] at hr; subst hr
      refine ⟨by omega, by omega, ?_, fun i hi => by omega⟩
      simp only [Nat.sub_self, OccursAt, List.drop_zero]
      exact List.isPrefixOf_iff_prefix.1 hp
    · rw [if_neg hp]
      obtain ⟨h1, h2⟩ := ih (a + 1)
      have hp0 : ¬ OccursAt t (c :: cs) 0 := by
        simp only [OccursAt, List.drop_zero]; exact fun h => hp (List.isPrefixOf_iff_prefix.2 h)
      refine ⟨fun r hr => ?_, fun hn i hi => ?_⟩
      · obtain ⟨ha, hb, hc, hd⟩ := h1 r hr
        refine ⟨by omega, by simp only [List.length_cons]; omega, ?_, fun i hi => ?_⟩
        · obtain ⟨k, hk⟩ : ∃ k, r - a = k + 1 := ⟨r - a - 1, by omega⟩
          rw [hk]; simp only [OccursAt, List.drop_succ_cons]
          rw [show k = r - (a + 1) by omega]; exact hc
        · cases i with
          | zero => exact hp0
          | succ i => simp only [OccursAt, List.drop_succ_cons]; exact hd i (by omega)
      · cases i with
        | zero => exact hp0
        | succ i => simp only [OccursAt, List.drop_succ_cons]; exact h2 hn i (by simpa using hi)

/-- Violation (C 7.26.5.7: an empty second string matches at the start). -/
theorem strstr_empty_wrong :
    strstr 2 (ofBytes 0 [0, 0]) 0 1 = some none ∧ firstSub [] 0 [] = some 0 := by decide

/-- What C requires of `strncpy`: exactly `n` bytes, the string cut or padded with NULs. -/
def ncpyBytes (s : List Nat) (n : Nat) : List Nat := (s ++ List.replicate n 0).take n

theorem ncpyLoop_spec {m : Mem} {d p : Nat} {s : List Nat} (h : CStr m p s) (n : Nat)
    (hd : Mapped m d n) (hdis : d < p ∨ p + s.length < d) :
    ncpyLoop m d p n = some (moved m d p (min n (s.length + 1)), d + min n (s.length + 1)) := by
  induction n generalizing m d p s with
  | zero => simp [ncpyLoop, moved_zero]
  | succ n ih =>
    cases s with
    | nil =>
      have h0 : m p = some 0 := h
      simp only [ncpyLoop, ld, h0, Option.bind_eq_bind, Option.bind_some, st_mapped hd.head, if_true]
      have := moved_cons m d p 0 0 h0 (by simpa using hdis)
      rw [moved_zero] at this
      rw [this, show min (n + 1) (([] : List Nat).length + 1) = 1 by simp]
    | cons c cs =>
      have hmin : min (n + 1) ((c :: cs).length + 1) = min n (cs.length + 1) + 1 := by simp
      simp only [List.length_cons] at hdis
      rw [hmin]
      simp only [ncpyLoop, ld, h.1, Option.bind_eq_bind, Option.bind_some, st_mapped hd.head, if_neg h.2.1]
      have hd' : Mapped (fun x => if x = d then some c else m x) (d + 1) n :=
        hd.tail.mono fun x hx => by rw [upd_isSome _ _ _ hd.head]; exact hx
      rw [ih (h.2.2.upd d c (by omega)) hd' (by omega), moved_cons m d p _ c h.1 (by omega)]
      simp; omega

/-- **C05.** `strncpy` writes the first `n` bytes of the string with its NUL, and
nothing else — proved for `n` up to the string length plus one.  Missing: the
NUL padding when `n` is larger, which the code does not do (`strncpy_pad_wrong`). -/
theorem strncpy_partial (m : Mem) (d p n : Nat) (s : List Nat) (h : CStr m p s)
    (hn : n ≤ s.length + 1) (hd : Mapped m d n) (hdis : d < p ∨ p + s.length < d) :
    ∃ m', strncpy m d p n = some m' ∧ Holds m' d (ncpyBytes s n) ∧
      ∀ x, ¬(d ≤ x ∧ x < d + n) → m' x = m x := by
  refine ⟨moved m d p n, ?_, ?_, ?_⟩
  · simp [strncpy, ncpyLoop_spec h n hd hdis, Nat.min_eq_left hn]
  · have e : ncpyBytes s n = (s ++ [0]).take n := by
      unfold ncpyBytes
      cases n with
      | zero => simp
      | succ k =>
        rw [List.replicate_succ, show s ++ 0 :: List.replicate k 0 = (s ++ [0]) ++ List.replicate k 0 by simp,
          List.take_append_of_le_length (by simpa using hn)]
    have hl : ((s ++ [0]).take n).length = n := by simp; omega
    have := h.holds
    rw [← List.take_append_drop n (s ++ [0]), holds_append] at this
    have := moved_holds (d := d) this.1
    rw [hl] at this
    rwa [e]
  · intro x hx
    simp only [moved]; rw [if_neg hx]

/-- Violation (C 7.26.2.5: the destination is padded with NULs up to `n` bytes). -/
theorem strncpy_pad_wrong :
    ((strncpy (ofBytes 0 [65, 0, 9, 9, 9, 9]) 2 0 4).map fun m => [m 2, m 3, m 4, m 5]) =
      some [some 65, some 0, some 9, some 9] ∧ ncpyBytes [65] 4 = [65, 0, 0, 0] := by decide

/-- Violation (POSIX: `stpcpy` returns a pointer to the NUL it wrote): one too far. -/
theorem stpcpy_result_wrong :
    (stpcpy 5 (ofBytes 0 [65, 66, 0, 9, 9, 9]) 3 0).map (fun (m, r) => (r, m 5)) = some (6, some 0) := by
  decide

/-- Violation (POSIX: case-insensitive): `strcasecmp("a", "A")` is 32. -/
theorem strcasecmp_wrong : strcasecmp 3 (ofBytes 0 [97, 0, 65, 0]) 0 2 = some 32 := by decide

/-- Violation: after the last token `strtok_r` moves `*ptr` past the terminating NUL, so
the call that should return `NULL` reads outside the string. -/
theorem strtokR_overread :
    let m := ofBytes 0 [97, 0]       -- the string "a", exactly
    let d := ofBytes 10 [44, 0]      -- the delimiters ","
    let mem : Mem := fun x => (m x).or (d x)
    ((strtokR 5 mem (some 0) 10 0).map fun (r, _, p) => (r, p)) = some (some 0, 2) ∧
    (strtokR 5 mem none 10 2).isNone = true := by decide

theorem cstr_drop {m : Mem} {p : Nat} {s : List Nat} (h : CStr m p s) (k : Nat) (hk : k ≤ s.length) :
    CStr m (p + k) (s.drop k) := by
  induction k generalizing p s with
  | zero => simpa using h
  | succ k ih =>
    cases s with
    | nil => simp at hk
    | cons c cs =>
      have := ih h.2.2 (by simpa using hk)
      rwa [show p + 1 + k = p + (k + 1) by omega] at this

theorem cstr_cut {m : Mem} {p : Nat} {s : List Nat} (h : CStr m p s) (n : Nat) (hn : n ≤ s.length) :
    CStr (fun x => if x = p + n then some 0 else m x) p (s.take n) := by
  induction n generalizing p s with
  | zero => simp [CStr]
  | succ n ih =>
    cases s with
    | nil => simp at hn
    | cons c cs =>
      refine ⟨?_, h.2.1, ?_⟩
      · show (if p = p + (n + 1) then some 0 else m p) = some c
        rw [if_neg (by omega)]; exact h.1
      · have := ih h.2.2 (by simpa using hn)
        rwa [show p + 1 + n = p + (n + 1) by omega] at this

/-- **C05.** One call of `strtok_r` on a string `s` at `p`: leading delimiters are
skipped; if nothing is left the result is `NULL`; otherwise the longest delimiter-free
run is returned as a terminated string, only the byte after it is written, and if that
byte was a delimiter the saved pointer continues with the rest of the string.
Missing: when the token ends the string, the saved pointer is left beyond the
terminator (`strtokR_overread`). -/
theorem strtokR_partial (m : Mem) (p q ptr : Nat) (s t : List Nat) (src : Option Nat) (hsrc : src.getD ptr = p)
    (h : CStr m p s) (ht : CStr m q t) (hbs : ∀ c ∈ s, c < 256) (hbt : ∀ c ∈ t, c < 256)
    (hdis : q + t.length < p ∨ p + s.length < q) (fuel : Nat) (hf : s.length < fuel ∧ t.length < fuel) :
    let k := (s.takeWhile (fun c => decide (c ∈ t))).length
    let n := ((s.drop k).takeWhile (fun c => decide (c ∉ t))).length
    (k = s.length → strtokR fuel m src q ptr = some (none, m, p + k)) ∧
    (k < s.length → ∃ m', strtokR fuel m src q ptr = some (some (p + k), m', p + k + n + 1) ∧
      n > 0 ∧ CStr m' (p + k) ((s.drop k).take n) ∧ CStr m' q t ∧ (∀ x, x ≠ p + k + n → m' x = m x) ∧
      (k + n < s.length → CStr m' (p + k + n + 1) (s.drop (k + n + 1)))) := by
  intro k n
  have hk : k ≤ s.length := takeWhile_length_le _ _
  have hsp := strspnF_spec h ht hbs hbt fuel fuel hf.2 hf.1
  have hd := cstr_drop h k hk
  have hcs := strcspnF_spec hd ht (fun c hc => hbs c (List.mem_of_mem_drop hc)) hbt fuel fuel hf.2
    (by simp; omega)
  constructor
  · intro hke
    have h0 : m (p + k) = some 0 := by
      have := h.holds.get k (by simp; omega)
      simpa [hke] using this
    simp only [strtokR, hsrc, hsp, Option.bind_eq_bind, Option.bind_some, ld]
    show (m (p + k)).bind _ = _
    rw [h0]; rfl
  · intro hlt
    have hgk : m (p + k) = some s[k] := by
      have := h.holds.get k (by simp; omega)
      rwa [List.getElem_append_left hlt] at this
    have hnz := h.ne_zero _ (List.getElem_mem hlt)
    have hn : n ≤ s.length - k := by
      have := takeWhile_length_le (fun c => decide (c ∉ t)) (s.drop k)
      rwa [List.length_drop] at this
    have hmapped : (m (p + k + n)).isSome := by
      have := h.holds.get (k + n) (by simp; omega)
      rw [← Nat.add_assoc] at this
      rw [this]; rfl
    refine ⟨fun x => if x = p + k + n then some 0 else m x, ?_, ?_, ?_, ?_, ?_, ?_⟩
    · simp only [strtokR, hsrc, hsp, Option.bind_eq_bind, Option.bind_some, ld]
      show (m (p + k)).bind _ = _
      rw [hgk, Option.bind_some, if_neg hnz, hcs, Option.bind_some]
      show (st m (p + k + n) 0).bind _ = _
      rw [st_mapped hmapped]; rfl
    · obtain ⟨c, hc1, hc2⟩ := takeWhile_next hlt
      have : s[k]? = some c := hc1
      have hdc : s.drop k = c :: s.drop (k + 1) := by
        rw [List.drop_eq_getElem_cons hlt]
        rw [List.getElem?_eq_getElem hlt] at this
        cases this; rfl
      show ((s.drop k).takeWhile _).length > 0
      rw [hdc, List.takeWhile_cons_of_pos (by simpa using hc2)]
      simp
    · exact cstr_cut hd n (by simp; omega)
    · exact ht.upd _ _ (by omega)
    · intro x hx; exact if_neg hx
    · intro hlt2
      have := cstr_drop h (k + n + 1) (by omega)
      have := this.upd (p + k + n) 0 (by omega)
      rwa [show p + (k + n + 1) = p + k + n + 1 by omega] at this

/-- **C05.** `basename` returns what follows the last slash (the code's notion; POSIX
strips trailing slashes first, which is not done). -/
theorem basename_partial (m : Mem) (p : Nat) (s : List Nat) (h : CStr m p s) (hb : ∀ c ∈ s, c < 256)
    (fuel : Nat) (hf : s.length < fuel) :
    ∃ k ≤ s.length, basename fuel m p = some (p + k) ∧ CStr m (p + k) (s.drop k) ∧ 47 ∉ s.drop k ∧
      (k = 0 ∨ s[k - 1]? = some 47) := by
  have hr := strrchr_partial m p s h hb 47 (by omega) fuel hf
  have key : ∀ (s : List Nat) (p : Nat), match lastAt 47 p (s ++ [0]) with
      | none => 47 ∉ s
      | some r => ∃ k < s.length, r = p + k ∧ s[k]? = some 47 ∧ 47 ∉ s.drop (k + 1) := by
    intro s
    induction s with
    | nil => intro p; simp [lastAt]
    | cons c cs ih =>
      intro p
      have := ih (p + 1)
      simp only [List.cons_append, lastAt]
      cases hl : lastAt 47 (p + 1) (cs ++ [0]) with
      | some r =>
        rw [hl] at this
        obtain ⟨k, h1, h2, h3, h4⟩ := this
        exact ⟨k + 1, by simpa using h1, by omega, by simpa using h3, by simpa using h4⟩
      | none =>
        rw [hl] at this
        simp only [Option.none_or]
        by_cases hc : c = 47
        · rw [if_pos hc]
          exact ⟨0, by simp, rfl, by simp [hc], by simpa using this⟩
        · rw [if_neg hc]
          simp only [List.mem_cons, not_or]; exact ⟨Ne.symm hc, this⟩
  have key := key s p
  simp only [basename, show ((47 : Nat) : Int) = 47 from rfl] at hr ⊢
  rw [hr]
  simp only [Option.bind_eq_bind, Option.bind_some]
  cases hl : lastAt 47 p (s ++ [0]) with
  | none =>
    rw [hl] at key
    exact ⟨0, by omega, rfl, by simpa using h, by simpa using key, .inl rfl⟩
  | some r =>
    rw [hl] at key
    obtain ⟨k, h1, rfl, h3, h4⟩ := key
    exact ⟨k + 1, by omega, rfl, cstr_drop h (k + 1) (by omega), h4, .inr (by simpa using h3)⟩

/-! ## Non-vacuity -/

/-- Memory with "ab" at 0, "b,c" at 8, "," at 16 and room everywhere in between. -/
def exMem : Mem := ofBytes 0 [97, 98, 0, 7, 7, 7, 7, 7, 98, 44, 99, 0, 7, 7, 7, 7, 44, 0]
example : CStr exMem 0 [97, 98] ∧ CStr exMem 8 [98, 44, 99] ∧ CStr exMem 16 [44] := by
  refine ⟨⟨rfl, by decide, rfl, by decide, rfl⟩, ⟨rfl, by decide, rfl, by decide, rfl, by decide, rfl⟩,
    ⟨rfl, by decide, rfl⟩⟩
example : strcmp 9 exMem 0 8 = some (-1) := by decide
example : strstr 9 exMem 8 16 = some (some 9) := by decide
example : ((strtokR 9 exMem (some 8) 16 0).map fun (r, m, p) => (r, m 9, p)) = some (some 8, some 0, 10) := by decide
example : ((strcat 9 exMem 0 8).map fun m => [m 0, m 1, m 2, m 3, m 4, m 5, m 6]) =
    some [some 97, some 98, some 98, some 44, some 99, some 0, some 7] := by decide
example : (basename 9 (ofBytes 0 [47, 97, 47, 98, 0]) 0) = some 3 := by decide

end Verif.Mem

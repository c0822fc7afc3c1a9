import Verif.Lib.Mem
/-!
# memcpy, memmove, memset, memcmp, memchr (libsrc/string/mem*.c)

The native (non-WebAssembly) branches; the WebAssembly branches are single
`memory.copy`/`memory.fill` instructions.
-/
namespace Verif.Mem

/-! ## Model -/

/-- `while (n-- > 0) *d++ = *s++;` (libsrc/string/memcpy.c:18-19, memmove.c:24-25). -/
def copyFwd : Mem → Nat → Nat → Nat → Option Mem
  | m, _, _, 0 => some m
  | m, d, s, n + 1 => do
    let b ← ld m s
    let m ← st m d b
    copyFwd m (d + 1) (s + 1) n

/-- `while (n-- > 0) *--d = *--s;` (libsrc/string/memmove.c:21-22), `d`/`s` being the
pointers past the end: with `n` left they are `dst + n` and `src + n`. -/
def copyBwd : Mem → Nat → Nat → Nat → Option Mem
  | m, _, _, 0 => some m
  | m, d, s, n + 1 => do
    let b ← ld m (s + n)
    let m ← st m (d + n) b
    copyBwd m d s n

/-- libsrc/string/memcpy.c:3-22 `memcpy`. -/
def memcpy (m : Mem) (dst src n : Nat) : Option Mem := copyFwd m dst src n

/-- libsrc/string/memmove.c:3-29 `memmove`. -/
def memmove (m : Mem) (dst src n : Nat) : Option Mem :=
  if src < dst ∧ src + n > dst then copyBwd m dst src n else copyFwd m dst src n

/-- libsrc/string/memset.c:3-22 `memset`: `unsigned char v = val`. -/
def memset : Mem → Nat → Int → Nat → Option Mem
  | m, _, _, 0 => some m
  | m, p, val, n + 1 => do
    let m ← st m p (val % 256).toNat
    memset m (p + 1) val n

/-- libsrc/string/memcmp.c:3-13 `memcmp`. -/
def memcmp (m : Mem) : Nat → Nat → Nat → Option Int
  | _, _, 0 => some 0
  | p, q, n + 1 => do
    let a ← ld m p
    let b ← ld m q
    let d := (a : Int) - b
    if d ≠ 0 then some d else memcmp m (p + 1) (q + 1) n

/-- libsrc/string/memchr.c:3-9 `memchr`; `some none` is `NULL`.  The comparison is
`*p == c` with `*p` of type (signed) `char`. -/
def memchr (m : Mem) (c : Int) : Nat → Nat → Option (Option Nat)
  | _, 0 => some none
  | p, n + 1 => do
    let b ← ld m p
    if schar b = c then some (some p) else memchr m c (p + 1) n

/-- libsrc/string/memccpy.c:3-8 `memccpy`, with the returned pointer. -/
def memccpy (m : Mem) (dst src : Nat) (c : Int) (n : Nat) : Option (Option Nat × Mem) := do
  let b ← memchr m c src n
  let n := match b with
    | some b => b - src
    | none => n
  let m ← memcpy m dst src n
  some (some dst, m)

/-! ## Specification -/

/-- The memory after the `n` bytes at `src` (as they were) have been put at `dst`. -/
def moved (m : Mem) (dst src n : Nat) : Mem :=
  fun x => if dst ≤ x ∧ x < dst + n then m (x - dst + src) else m x

/-! ## Theorems -/

theorem copyFwd_spec (m : Mem) (d s n : Nat) (hs : Mapped m s n) (hd : Mapped m d n)
    (h : d ≤ s ∨ s + n ≤ d) : copyFwd m d s n = some (moved m d s n) := by
  induction n generalizing m d s with
  | zero =>
    simp only [copyFwd, Option.some.injEq]
    funext x; simp only [moved]; rw [if_neg (by omega)]
  | succ n ih =>
    obtain ⟨b, hb⟩ := Option.isSome_iff_exists.1 hs.head
    simp only [copyFwd, ld, hb, Option.bind_eq_bind, Option.bind_some, st_mapped hd.head]
    rw [ih _ _ _ (hs.tail.mono fun x hx => by rw [upd_isSome _ _ _ hd.head]; exact hx)
      (hd.tail.mono fun x hx => by rw [upd_isSome _ _ _ hd.head]; exact hx) (by omega)]
    congr 1
    funext x
    simp only [moved]
    by_cases hx : d ≤ x ∧ x < d + (n + 1)
    · rw [if_pos hx]
      by_cases hxd : x = d
      · subst hxd
        rw [if_neg (by omega), if_pos rfl, Nat.sub_self, Nat.zero_add, hb]
      · rw [if_pos (by omega), if_neg (by omega)]
        congr 1; omega
    · rw [if_neg hx, if_neg (by omega), if_neg (by omega)]

theorem copyBwd_spec (m : Mem) (d s n : Nat) (hs : Mapped m s n) (hd : Mapped m d n)
    (h : s ≤ d) : copyBwd m d s n = some (moved m d s n) := by
  induction n generalizing m with
  | zero =>
    simp only [copyBwd, Option.some.injEq]
    funext x; simp only [moved]; rw [if_neg (by omega)]
  | succ n ih =>
    obtain ⟨b, hb⟩ := Option.isSome_iff_exists.1 (hs n (by omega))
    have hdn := hd n (by omega)
    simp only [copyBwd, ld, hb, Option.bind_eq_bind, Option.bind_some, st_mapped hdn]
    rw [ih _ (fun i hi => by rw [upd_isSome _ _ _ hdn]; exact hs i (by omega))
      (fun i hi => by rw [upd_isSome _ _ _ hdn]; exact hd i (by omega))]
    congr 1
    funext x
    simp only [moved]
    by_cases hx : d ≤ x ∧ x < d + (n + 1)
    · rw [if_pos hx]
      by_cases hxd : x = d + n
      · subst hxd
        rw [if_neg (by omega), if_pos rfl, ← hb]
        congr 1; omega
      · rw [if_pos (by omega), if_neg (by omega)]
    · rw [if_neg hx, if_neg (by omega), if_neg (by omega)]

/-- **C04.** `memmove` moves exactly the `n` source bytes as they were before the call
and touches nothing else, for every pair of regions, overlapping in either direction
or not. -/
theorem memmove_spec (m : Mem) (dst src n : Nat) (hs : Mapped m src n) (hd : Mapped m dst n) :
    memmove m dst src n = some (moved m dst src n) := by
  unfold memmove
  split
  · exact copyBwd_spec m dst src n hs hd (by omega)
  · exact copyFwd_spec m dst src n hs hd (by omega)

/-- **C04.** `memcpy` does the same when the regions do not overlap (and even when the
destination starts at or below the source). -/
theorem memcpy_spec (m : Mem) (dst src n : Nat) (hs : Mapped m src n) (hd : Mapped m dst n)
    (h : dst ≤ src ∨ src + n ≤ dst) : memcpy m dst src n = some (moved m dst src n) :=
  copyFwd_spec m dst src n hs hd h

/-- **C04.** `memset` sets exactly `n` bytes to the low byte of `val`. -/
theorem memset_spec (m : Mem) (p : Nat) (val : Int) (n : Nat) (h : Mapped m p n) :
    memset m p val n =
      some (fun x => if p ≤ x ∧ x < p + n then some (val % 256).toNat else m x) := by
  induction n generalizing m p with
  | zero =>
    simp only [memset, Option.some.injEq]
    funext x; rw [if_neg (by omega)]
  | succ n ih =>
    simp only [memset, Option.bind_eq_bind, st_mapped h.head, Option.bind_some]
    rw [ih _ _ (h.tail.mono fun x hx => by rw [upd_isSome _ _ _ h.head]; exact hx)]
    congr 1
    funext x
    by_cases hx : p ≤ x ∧ x < p + (n + 1)
    · rw [if_pos hx]
      by_cases hxp : x = p
      · rw [if_neg (by omega), if_pos hxp]
      · rw [if_pos (by omega)]
    · rw [if_neg hx, if_neg (by omega), if_neg (by omega)]

/-- Lexicographic comparison of equally long byte lists: sign of the first difference. -/
def lexDiff : List Nat → List Nat → Int
  | a :: as, b :: bs => if a = b then lexDiff as bs else (a : Int) - b
  | _, _ => 0

/-- **C04.** `memcmp` compares as unsigned bytes, lexicographically. -/
theorem memcmp_spec (m : Mem) (p q : Nat) (s t : List Nat) (hl : s.length = t.length)
    (hs : Holds m p s) (ht : Holds m q t) : memcmp m p q s.length = some (lexDiff s t) := by
  induction s generalizing p q t with
  | nil => rfl
  | cons a as ih =>
    cases t with
    | nil => simp at hl
    | cons b bs =>
      simp only [List.length_cons, memcmp, ld, hs.1, ht.1, Option.bind_eq_bind, Option.bind_some, lexDiff]
      by_cases hab : a = b
      · rw [if_neg (by omega), if_pos hab]
        exact ih _ _ _ (by simpa using hl) hs.2 ht.2
      · rw [if_pos (by omega), if_neg hab]

theorem lexDiff_eq_zero (s t : List Nat) (hl : s.length = t.length) : lexDiff s t = 0 ↔ s = t := by
  induction s generalizing t with
  | nil => cases t with
    | nil => simp [lexDiff]
    | cons => simp at hl
  | cons a as ih =>
    cases t with
    | nil => simp at hl
    | cons b bs =>
      simp only [lexDiff]
      split
      · rename_i h; rw [ih bs (by simpa using hl)]; simp [h]
      · rename_i h; simp [h]; omega

/-- **C04.** `memcmp` returns 0 exactly for equal contents. -/
theorem memcmp_zero_iff (m : Mem) (p q : Nat) (s t : List Nat) (hl : s.length = t.length)
    (hs : Holds m p s) (ht : Holds m q t) : memcmp m p q s.length = some 0 ↔ s = t := by
  rw [memcmp_spec m p q s t hl hs ht, Option.some.injEq, lexDiff_eq_zero s t hl]

/-- Address of the first byte equal to `b`. -/
def firstAt (b : Nat) : Nat → List Nat → Option Nat
  | _, [] => none
  | a, c :: cs => if c = b then some a else firstAt b (a + 1) cs

/-- **C04.** `memchr` finds the first occurrence — proved for characters below 128.
Missing: characters 128..255 (`memchr_high_wrong` shows they are never found where
`char` is signed). -/
theorem memchr_partial (m : Mem) (p : Nat) (s : List Nat) (b : Nat) (hb : b < 128)
    (hs : Holds m p s) (hby : ∀ c ∈ s, c < 256) :
    memchr m b p s.length = some (firstAt b p s) := by
  induction s generalizing p with
  | nil => rfl
  | cons c cs ih =>
    simp only [List.length_cons, memchr, ld, hs.1, Option.bind_eq_bind, Option.bind_some, firstAt]
    have hc := hby c (by simp)
    have : schar c = (b : Int) ↔ c = b := by unfold schar; split <;> omega
    by_cases h : c = b
    · rw [if_pos (this.2 h), if_pos h]
    · rw [if_neg (fun h' => h (this.1 h')), if_neg h]
      exact ih _ hs.2 (fun x hx => hby x (by simp [hx]))

/-- Violation of the C standard ("converted to an unsigned char"): `memchr(buf, 0xe3, n)`
misses the byte 0xe3. -/
theorem memchr_high_wrong :
    let m := ofBytes 100 [0x41, 0xe3, 0x42]
    memchr m 0xe3 100 3 = some none ∧ firstAt 0xe3 100 [0x41, 0xe3, 0x42] = some 101 := by decide

/-- Violation: `memccpy` must copy up to *and including* the character and return the
address after it; it drops the character and returns the start. -/
theorem memccpy_wrong :
    let m := ofBytes 0 [1, 2, 3, 4, 9, 9, 9, 9]
    (memccpy m 4 0 2 4).map (fun (r, m') => (r, m' 4, m' 5)) = some (some 4, some 1, some 9) := by decide

/-! ## Non-vacuity -/

/-- Overlapping move both ways. -/
example : (memmove (ofBytes 0 [1, 2, 3, 4, 5]) 1 0 4).map (fun m => [m 0, m 1, m 2, m 3, m 4]) =
    some [some 1, some 1, some 2, some 3, some 4] := by decide
example : (memmove (ofBytes 0 [1, 2, 3, 4, 5]) 0 1 4).map (fun m => [m 0, m 1, m 2, m 3, m 4]) =
    some [some 2, some 3, some 4, some 5, some 5] := by decide
example : Mapped (ofBytes 0 [1, 2, 3, 4, 5]) 1 4 ∧ Mapped (ofBytes 0 [1, 2, 3, 4, 5]) 0 4 := by
  constructor <;> (intro i hi; rcases i with _ | _ | _ | _ | i <;> first | decide | omega)
example : Holds (ofBytes 7 [1, 200]) 7 [1, 200] := ofBytes_holds _ _

end Verif.Mem

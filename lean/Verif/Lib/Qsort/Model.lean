/-!
# Model of `qsort` and `bsearch` (libsrc/stdlib/qsort.c, libsrc/stdlib/bsearch.c)

The array `base[0..nmemb)` of `size`-byte elements is a `List α`; element
addresses `&a[k*size]` are indices `k`.  Every element read is bounds checked:
an out-of-bounds access is the distinct outcome `none`, as is running out of
fuel, so a `some` result certifies that the C code stays inside the array and
terminates.  `cmp` is the callback; it is assumed to be a pure function of the
two elements' contents.  `alloca` for the one-element temporary is not modelled.
-/
namespace Verif.Qsort

variable {α : Type}

/-- libsrc/stdlib/qsort.c:17-18 `while (compare(&a[i * size], px) < 0) ++i;`
`px` is the index the pointer `px` refers to; it is dereferenced on each round. -/
def scanUp (cmp : α → α → Int) (l : List α) (px i : Nat) : Option Nat :=
  match h : l[i]?, l[px]? with
  | some x, some v => if cmp x v < 0 then scanUp cmp l px (i + 1) else some i
  | _, _ => none
termination_by l.length - i
decreasing_by
  have : i < l.length := by
    rcases Nat.lt_or_ge i l.length with h1 | h1
    · exact h1
    · simp [List.getElem?_eq_none h1] at h
  omega

/-- libsrc/stdlib/qsort.c:19-20 `while (compare(px, &a[j * size]) < 0) --j;`
Decrementing the unsigned `j` below zero is reported as failure (`none`). -/
def scanDown (cmp : α → α → Int) (l : List α) (px : Nat) : Nat → Option Nat
  | 0 =>
    match l[0]?, l[px]? with
    | some x, some v => if cmp v x < 0 then none else some 0
    | _, _ => none
  | j + 1 =>
    match l[j + 1]?, l[px]? with
    | some x, some v => if cmp v x < 0 then scanDown cmp l px j else some (j + 1)
    | _, _ => none

/-- libsrc/stdlib/qsort.c:24-28 the three `memcpy`s exchanging `a[i]` and `a[j]`. -/
def swap (l : List α) (i j : Nat) : Option (List α) :=
  match l[i]?, l[j]? with
  | some x, some y => some ((l.set i y).set j x)
  | _, _ => none

/-- libsrc/stdlib/qsort.c:16-36 the partition loop `for (;;) {...}`.
Returns the array and the final `i`, `j`. -/
def partition (cmp : α → α → Int) : Nat → List α → (px i j : Nat) → Option (List α × Nat × Nat)
  | 0, _, _, _, _ => none
  | fuel + 1, l, px, i, j => do
    let i ← scanUp cmp l px i
    let j ← scanDown cmp l px j
    if i ≥ j then
      return (l, i, j)
    else
      let l ← swap l i j
      let px := if px = i then j else if px = j then i else px
      partition cmp fuel l px (i + 1) (j - 1)

/-- libsrc/stdlib/qsort.c:5-41 `qsort`.  The two recursive calls sort sub-ranges
in place: first `[0,i)`, then `[j+1,nmemb)` of the updated array. -/
def qsort (cmp : α → α → Int) : Nat → List α → Option (List α)
  | 0, _ => none
  | fuel + 1, l => do
    let nmemb := l.length
    if nmemb ≤ 1 then
      return l
    let (l, i, j) ← partition cmp (nmemb + 1) l (nmemb / 2) 0 (nmemb - 1)
    let l ← (if i > 1 then (do
        let s ← qsort cmp fuel (l.take i)
        pure (s ++ l.drop i))
      else pure l : Option (List α))
    if j + 2 < nmemb then do
      let s ← qsort cmp fuel (l.drop (j + 1))
      return l.take (j + 1) ++ s
    else
      return l

/-- Outcome of `bsearch`: `found p` is the index of the returned pointer. -/
inductive BResult where
  | found (p : Nat)
  | null
  deriving Repr, DecidableEq

/-- libsrc/stdlib/bsearch.c:3-19 `bsearch`; `cmpk x` is `compare(key, x)`.
`base` is kept as an index into the original array `l`. -/
def bsearch (cmpk : α → Int) (l : List α) (base nmemb : Nat) : Option BResult :=
  if _h : nmemb > 0 then
    let mid := nmemb / 2
    let p := base + mid
    match l[p]? with
    | none => none
    | some x =>
      if cmpk x < 0 then bsearch cmpk l base mid
      else if cmpk x > 0 then bsearch cmpk l (p + 1) (nmemb - (mid + 1))
      else some (.found p)
  else some .null
termination_by nmemb

end Verif.Qsort

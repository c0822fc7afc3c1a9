/-!
# Buffered input (C08), `fgets` and `getline` (C46)

`_fread` of `libsrc/stdio/_file.c`, `fread.c`, `fgetc.c`, `ungetc.c`, `fgets.c`, `getline.c`.

The file is the list of bytes the system has not handed out yet.  Each `read` call takes its outcome from `os`:
`some k` delivers at most `k` bytes, `none` is an error (-1); when `os` is used up the file behaves like a regular file
(as many bytes as asked for, or all that are left).  Undefined behaviour (a copy of `SIZE_MAX` bytes, division by
zero, a store outside the buffer) gives `none`.
-/
namespace Verif.FileIn

/-- An input stream, libsrc/stdio/_file.h:24-35, with `FF_READ` set.  `data` is `rbuf[0..rs)`; `unget` is `unget_char`
(`none` for `EOF`); `rest` is what the system still has. -/
structure F where
  rcapa : Nat
  fifo : Bool
  data : List Nat
  rp : Nat
  eof : Bool
  unget : Option Nat
  rest : List Nat
  os : List (Option Nat)
deriving DecidableEq

/-- The system call `read(fd, ..., n)`: bytes delivered (`none` for -1) and the system's new state. -/
def sysRead (rest : List Nat) (os : List (Option Nat)) (n : Nat) : Option (List Nat) × List Nat × List (Option Nat) :=
  match os with
  | [] => (some (rest.take n), rest.drop n, [])
  | none :: os => (none, rest, os)
  | some k :: os => (some (rest.take (min k n)), rest.drop (min k n), os)

/-- The second half of `_fread`, libsrc/stdio/_file.c:53-81: bytes put at `p`. -/
def refill (f : F) (total : Nat) : Option (F × List Nat) :=
  if total < f.rcapa * 3 / 4 then
    match sysRead f.rest f.os f.rcapa with
    | (none, _, _) => none
    | (some chunk, rest, os) =>
      let n := if chunk.length < total then chunk.length else total
      let eof := if chunk.length < f.rcapa ∧ n = chunk.length ∧ (f.fifo = false ∨ chunk.length = 0) then true else f.eof
      some ({ f with data := chunk, rp := n, rest := rest, os := os, eof := eof }, chunk.take n)
  else
    match sysRead f.rest f.os total with
    | (none, _, os) => some ({ f with os := os }, [])
    | (some chunk, rest, os) =>
      let eof := if chunk.length < total ∧ (f.fifo = false ∨ chunk.length = 0) then true else f.eof
      some ({ f with data := [], rp := 0, rest := rest, os := os, eof := eof }, chunk)

/-- `_fread`, libsrc/stdio/_file.c:35-82: the bytes delivered. -/
def read (f : F) (total : Nat) : Option (F × List Nat) :=
  if f.data.length > 0 then
    let d := f.data.length - f.rp
    if total ≤ d then
      let rp := f.rp + total
      some (if rp ≥ f.data.length then { f with data := [], rp := 0 } else { f with rp := rp },
        (f.data.drop f.rp).take total)
    else (refill f (total - d)).map fun r => (r.1, (f.data.drop f.rp).take d ++ r.2)
  else refill f total

/-- `fread`, libsrc/stdio/fread.c:5-10: bytes delivered and items reported. -/
def fread (f : F) (size count : Nat) : Option (F × List Nat × Nat) :=
  (read f (size * count)).bind fun r => if size = 0 then none else some (r.1, r.2, r.2.length / size)

/-- `fgetc`, libsrc/stdio/fgetc.c:5-15; `none` is `EOF`. -/
def fgetc (f : F) : Option (F × Option Nat) :=
  match f.unget with
  | some c => some ({ f with unget := none }, some c)
  | none => (fread f 1 1).map fun r => (r.1, if r.2.2 = 1 then r.2.1.head? else none)

/-- `ungetc`, libsrc/stdio/ungetc.c:5-11. -/
def ungetc (f : F) (c : Nat) : F := { f with unget := some c, eof := false }

/-! ## Specification -/

/-- What is left to be read from the stream. -/
def F.left (f : F) : List Nat := f.unget.toList ++ f.data.drop f.rp ++ f.rest

/-- The stream's positions make sense. -/
def F.wf (f : F) : Prop := f.rp ≤ f.data.length

/-- A freshly opened stream. -/
def opened (rcapa : Nat) (fifo : Bool) (content : List Nat) (os : List (Option Nat)) : F :=
  ⟨rcapa, fifo, [], 0, false, none, content, os⟩

/-! ## Proofs -/

theorem sysRead_split (rest : List Nat) (os : List (Option Nat)) (n : Nat) (ho : none ∉ os) :
    ∃ chunk rest' os', sysRead rest os n = (some chunk, rest', os') ∧ chunk ++ rest' = rest ∧ chunk.length ≤ n ∧
      none ∉ os' ∧ (os = [] → chunk.length = min n rest.length ∧ os' = []) := by
  unfold sysRead
  split
  · exact ⟨_, _, _, rfl, List.take_append_drop _ _, by simp; omega, by simp, fun _ => ⟨by simp, rfl⟩⟩
  · exact absurd (by simp) ho
  · rename_i k os'
    exact ⟨_, _, _, rfl, List.take_append_drop _ _, by simp; omega, fun h => ho (by simp [h]), fun h => by cases h⟩

/-- `refill` delivers a prefix of what is left. -/
theorem refill_spec (f : F) (total : Nat) (ho : none ∉ f.os) :
    ∃ f' out, refill f total = some (f', out) ∧ out ++ f'.data.drop f'.rp ++ f'.rest = f.rest ∧ f'.wf ∧
      out.length ≤ total ∧ none ∉ f'.os ∧ f'.unget = f.unget ∧ f'.fifo = f.fifo ∧ f'.rcapa = f.rcapa ∧
      (f.os = [] → out.length = min total f.rest.length ∧ f'.os = [] ∧
        (f.fifo = false → out.length < total → f'.eof = true) ∧
        (f'.eof = true → f.eof = true ∨ f'.data.drop f'.rp ++ f'.rest = [])) := by
  unfold refill
  split
  · rename_i hc
    obtain ⟨chunk, rest', os', h1, h2, h3, h4, h5⟩ := sysRead_split f.rest f.os f.rcapa ho
    rw [h1]
    dsimp only
    generalize hn : (if chunk.length < total then chunk.length else total) = n
    have hn' : n ≤ chunk.length ∧ n ≤ total ∧ (n = chunk.length ∨ n = total) := by split at hn <;> omega
    refine ⟨_, _, rfl, ?_, hn'.1, ?_, h4, rfl, rfl, rfl, ?_⟩
    · dsimp only; rw [List.take_append_drop, h2]
    · rw [List.length_take]; omega
    · intro hos
      obtain ⟨k1, k2⟩ := h5 hos
      refine ⟨?_, k2, ?_, ?_⟩
      · rw [List.length_take]; split at hn <;> omega
      · intro hf hlt
        dsimp only
        rw [List.length_take] at hlt
        rw [if_pos]
        split at hn <;> exact ⟨by omega, by omega, Or.inl hf⟩
      · dsimp only
        split
        · rename_i hh
          intro _
          right
          have hl : rest' = [] := by
            have : chunk.length + rest'.length = f.rest.length := by rw [← h2, List.length_append]
            apply List.eq_nil_of_length_eq_zero
            omega
          rw [hl, hh.2.1, List.drop_length, List.append_nil]
        · exact fun h => Or.inl h
  · obtain ⟨chunk, rest', os', h1, h2, h3, h4, h5⟩ := sysRead_split f.rest f.os total ho
    rw [h1]
    dsimp only
    refine ⟨_, _, rfl, ?_, Nat.le_refl _, h3, h4, rfl, rfl, rfl, ?_⟩
    · dsimp only; rw [List.drop_nil, List.append_nil, h2]
    · intro hos
      obtain ⟨k1, k2⟩ := h5 hos
      refine ⟨k1, k2, ?_, ?_⟩
      · intro hf hlt
        dsimp only
        rw [if_pos ⟨hlt, Or.inl hf⟩]
      · dsimp only
        split
        · rename_i hh
          intro _
          right
          have : chunk.length + rest'.length = f.rest.length := by rw [← h2, List.length_append]
          have h0 : rest'.length = 0 := by omega
          rw [List.drop_nil, List.nil_append]
          exact List.eq_nil_of_length_eq_zero h0
        · exact fun h => Or.inl h

/-- `_fread` delivers a prefix of what is left behind the pushed-back character. -/
theorem read_spec (f : F) (total : Nat) (hw : f.wf) (ho : none ∉ f.os) :
    ∃ f' out, read f total = some (f', out) ∧ out ++ (f'.data.drop f'.rp ++ f'.rest) = f.data.drop f.rp ++ f.rest ∧
      f'.wf ∧ out.length ≤ total ∧ none ∉ f'.os ∧ f'.unget = f.unget ∧ f'.fifo = f.fifo ∧ f'.rcapa = f.rcapa ∧
      (f.os = [] → out.length = min total (f.data.drop f.rp ++ f.rest).length ∧ f'.os = [] ∧
        (f.fifo = false → out.length < total → f'.eof = true) ∧
        (f'.eof = true → f.eof = true ∨ f'.data.drop f'.rp ++ f'.rest = [])) := by
  unfold read
  split
  · dsimp only
    have hdl : (f.data.drop f.rp).length = f.data.length - f.rp := List.length_drop ..
    split
    · rename_i htd
      have hout : ((f.data.drop f.rp).take total).length = total := by rw [List.length_take]; omega
      refine ⟨_, _, rfl, ?_, ?_, by rw [hout]; omega, ?_, ?_, ?_, ?_, ?_⟩
      · split
        · rename_i hge
          dsimp only
          rw [List.drop_nil, List.nil_append, List.take_of_length_le (by omega)]
        · dsimp only
          rw [← List.append_assoc, ← List.drop_drop, List.take_append_drop]
      · unfold F.wf; split
        · exact Nat.le_refl _
        · dsimp only; omega
      · split <;> exact ho
      · split <;> rfl
      · split <;> rfl
      · split <;> rfl
      · intro hos
        refine ⟨by rw [hout, List.length_append]; omega, by split <;> exact hos, fun _ h => by omega, ?_⟩
        split <;> exact fun h => Or.inl h
    · rename_i htd
      obtain ⟨f', out, k1, k2, k3, k4, k5, k6, k7, k8, k9⟩ := refill_spec f (total - (f.data.length - f.rp)) ho
      rw [k1]
      have ht : (f.data.drop f.rp).take (f.data.length - f.rp) = f.data.drop f.rp :=
        List.take_of_length_le (by omega)
      rw [ht]
      refine ⟨f', _, rfl, ?_, k3, ?_, k5, k6, k7, k8, ?_⟩
      · rw [← k2]; simp
      · dsimp only; rw [List.length_append]; omega
      · intro hos
        dsimp only
        obtain ⟨a1, a2, a3, a4⟩ := k9 hos
        refine ⟨by rw [List.length_append, List.length_append, a1, hdl]; omega, a2, ?_, a4⟩
        intro hf hlt
        rw [List.length_append] at hlt
        exact a3 hf (by omega)
  · rename_i h0
    have hnil : f.data = [] := List.eq_nil_of_length_eq_zero (by omega)
    obtain ⟨f', out, k1, k2, k3, k4, k5, k6, k7, k8, k9⟩ := refill_spec f total ho
    rw [hnil, List.drop_nil, List.nil_append]
    exact ⟨f', out, k1, by rw [← k2]; simp, k3, k4, k5, k6, k7, k8, k9⟩

/-- Reading with `fread` repeatedly: bytes delivered by each call. -/
def freads (f : F) : List (Nat × Nat) → Option (F × List (List Nat))
  | [] => some (f, [])
  | (size, count) :: rs => (fread f size count).bind fun r => (freads r.1 rs).map fun q => (q.1, r.2.1 :: q.2)

/-- C08.  For every sequence of `fread` calls and every chunking of the underlying reads (short reads, reads that
cross the buffer, direct reads), the bytes delivered are, in order and without loss or duplication, a prefix of the
file: delivered bytes followed by what is left equal the contents.  No call delivers more than asked for. -/
theorem fread_in_order (rcapa : Nat) (fifo : Bool) (content : List Nat) (os : List (Option Nat)) (ho : none ∉ os)
    (reqs : List (Nat × Nat)) (hs : ∀ r ∈ reqs, r.1 ≠ 0) :
    ∃ f' outs, freads (opened rcapa fifo content os) reqs = some (f', outs) ∧
      outs.flatten ++ f'.left = content ∧ outs.length = reqs.length ∧
      ∀ i (h : i < outs.length) (h' : i < reqs.length), outs[i].length ≤ reqs[i].1 * reqs[i].2 := by
  suffices H : ∀ (reqs : List (Nat × Nat)) (f : F), f.wf → none ∉ f.os → f.unget = none → (∀ r ∈ reqs, r.1 ≠ 0) →
      ∃ f' outs, freads f reqs = some (f', outs) ∧ outs.flatten ++ f'.left = f.left ∧ outs.length = reqs.length ∧
        ∀ i (h : i < outs.length) (h' : i < reqs.length), outs[i].length ≤ reqs[i].1 * reqs[i].2 by
    have := H reqs (opened rcapa fifo content os) (Nat.le_refl _) ho rfl hs
    simpa [opened, F.left] using this
  intro reqs
  induction reqs with
  | nil => intro f _ _ _ _; exact ⟨f, [], rfl, rfl, rfl, fun i h => absurd h (by simp)⟩
  | cons r reqs ih =>
    intro f hw ho hu hs
    obtain ⟨f1, out, k1, k2, k3, k4, k5, k6, _⟩ := read_spec f (r.1 * r.2) hw ho
    obtain ⟨f', outs, j1, j2, j3, j4⟩ := ih f1 k3 k5 (by rw [k6, hu]) (fun q hq => hs q (by simp [hq]))
    refine ⟨f', out :: outs, ?_, ?_, by simp [j3], ?_⟩
    · rw [freads, fread, k1]
      simp only [Option.bind_some]
      rw [if_neg (hs r (by simp))]
      simp [j1]
    · rw [List.flatten_cons, List.append_assoc, j2]
      unfold F.left
      rw [k6, hu]
      simp only [Option.toList_none, List.nil_append]
      exact k2
    · intro i h h'
      cases i with
      | zero => exact k4
      | succ i => exact j4 i (by simpa using h) (by simpa using h')

/-- C08.  On a regular file `fread(buf, 1, n, fp)` delivers exactly the next `n` bytes, or all that are left; if that
is fewer than asked for, `feof` is set afterwards, and `feof` never becomes set while bytes are left. -/
theorem fread_regular (f : F) (n : Nat) (hw : f.wf) (ho : f.os = []) (hu : f.unget = none) (hf : f.fifo = false)
    (he : f.eof = true → f.left = []) :
    ∃ f', fread f 1 n = some (f', f.left.take n, min n f.left.length) ∧ f'.left = f.left.drop n ∧
      f'.wf ∧ f'.os = [] ∧ f'.unget = none ∧ f'.fifo = false ∧
      (f.left.length < n → f'.eof = true) ∧ (f'.eof = true → f'.left = []) := by
  obtain ⟨f', out, k1, k2, k3, k4, k5, k6, k7, k8, k9⟩ := read_spec f n hw (by rw [ho]; simp)
  obtain ⟨a1, a2, a3, a4⟩ := k9 ho
  have hleft : f.left = f.data.drop f.rp ++ f.rest := by unfold F.left; rw [hu]; simp
  have hleft' : f'.left = f'.data.drop f'.rp ++ f'.rest := by unfold F.left; rw [k6, hu]; simp
  rw [← hleft, ← hleft'] at k2
  rw [← hleft] at a1
  have ho1 : out = f.left.take n := by
    have : f.left.take out.length = out := by rw [← k2, List.take_left']; rfl
    rw [a1] at this
    rw [← this, List.take_eq_take_iff]
    omega
  have ho2 : f'.left = f.left.drop n := by
    have h : f.left = f.left.take n ++ f'.left := by rw [← ho1, k2]
    have h2 : f.left.take n ++ f.left.drop n = f.left.take n ++ f'.left := by rw [List.take_append_drop]; exact h
    exact (List.append_cancel_left h2).symm
  refine ⟨f', ?_, ho2, k3, a2, by rw [k6, hu], by rw [k7, hf], ?_, ?_⟩
  · rw [fread, Nat.one_mul, k1]
    simp only [Option.bind_some]
    rw [if_neg (by decide), Nat.div_one, a1, ho1]
  · intro h; exact a3 hf (by omega)
  · intro h
    rw [hleft']
    rcases a4 h with h | h
    · have := he h
      rw [← hleft', ho2, this, List.drop_nil]
    · exact h

/-- Streams on which the character functions behave: a regular file, positions sane. -/
structure Reg (f : F) : Prop where
  wf : f.wf
  os : f.os = []
  fifo : f.fifo = false
  eof : f.eof = true → f.left = []

theorem opened_reg (rcapa : Nat) (content : List Nat) : Reg (opened rcapa false content []) :=
  ⟨Nat.le_refl _, rfl, rfl, fun h => by cases h⟩

/-- C08.  `fgetc` returns the next byte (a pushed-back one first) or `EOF` exactly at the end. -/
theorem fgetc_correct (f : F) (hr : Reg f) :
    ∃ f', fgetc f = some (f', f.left.head?) ∧ f'.left = f.left.tail ∧ Reg f' ∧ f'.unget = none := by
  unfold fgetc
  cases hu : f.unget with
  | some c =>
    have hl : f.left = c :: (f.data.drop f.rp ++ f.rest) := by unfold F.left; rw [hu]; rfl
    refine ⟨{ f with unget := none }, by rw [hl]; rfl, by rw [hl]; rfl, ⟨hr.wf, hr.os, hr.fifo, ?_⟩, rfl⟩
    intro h
    have := hr.eof h
    rw [hl] at this; cases this
  | none =>
    obtain ⟨f', k1, k2, k3, k4, k5, k6, _, k8⟩ := fread_regular f 1 hr.wf hr.os hu hr.fifo hr.eof
    dsimp only
    rw [k1]
    refine ⟨f', ?_, by rw [k2, List.drop_one], ⟨k3, k4, k6, k8⟩, k5⟩
    simp only [Option.map_some]
    cases hl : f.left with
    | nil => rfl
    | cons c cs => simp

/-- C08.  After `ungetc(c)` the stream continues with `c`. -/
theorem ungetc_correct (f : F) (hr : Reg f) (hu : f.unget = none) (c : Nat) :
    (ungetc f c).left = c :: f.left ∧ Reg (ungetc f c) := by
  refine ⟨?_, hr.wf, hr.os, hr.fifo, fun h => by cases h⟩
  unfold F.left ungetc
  rw [hu]; rfl

/-- The code as it is: `fread` ignores a pushed-back character, so it is delivered after later bytes. -/
theorem fread_skips_unget :
    ∃ f' f'', fread (ungetc (opened 256 false [1, 2, 3] []) 9) 1 2 = some (f', [1, 2], 2) ∧
      fgetc f' = some (f'', some 9) :=
  ⟨⟨256, false, [1, 2, 3], 2, false, some 9, [], []⟩, ⟨256, false, [1, 2, 3], 2, false, none, [], []⟩, by decide, by decide⟩

/-- The code as it is: a failing `read` in the buffered path copies `SIZE_MAX` bytes (undefined behaviour). -/
theorem read_error_undefined (f : F) (os : List (Option Nat)) (hd : f.data = []) (hos : f.os = none :: os) (n : Nat)
    (hn : n < f.rcapa * 3 / 4) : read f n = none := by
  unfold read
  rw [if_neg (by rw [hd]; simp)]
  unfold refill
  rw [if_pos hn, hos]
  rfl

/-- The code as it is: after a failing direct `read` the buffered bytes just delivered are delivered again. -/
theorem read_error_duplicates :
    ∃ f' f'', read ⟨4, false, [1, 2], 1, false, none, [3], [none]⟩ 9 = some (f', [2]) ∧ read f' 1 = some (f'', [2]) :=
  ⟨⟨4, false, [1, 2], 1, false, none, [3], []⟩, ⟨4, false, [], 0, false, none, [3], []⟩, by decide, by decide⟩

/-- Non-vacuity: a pipe delivering 3, then 2 bytes, then the rest. -/
example : freads (opened 8 true [1, 2, 3, 4, 5, 6, 7] [some 3, some 2]) [(1, 2), (2, 2), (1, 9)] =
    some (⟨8, true, [], 0, false, none, [], []⟩, [[1, 2], [3, 4, 5], [6, 7]]) := by decide

/-! ## Lines -/

/-- The loop of `fgets`, libsrc/stdio/fgets.c:6-13: characters stored (at most `n`). -/
def fgetsLoop : Nat → F → Option (F × List Nat)
  | 0, f => some (f, [])
  | n + 1, f =>
    (fgetc f).bind fun
      | (f, none) => some (f, [])
      | (f, some c) => if c = 10 then some (f, [c]) else (fgetsLoop n f).map fun r => (r.1, c :: r.2)

/-- `fgets`, libsrc/stdio/fgets.c:3-18, `n ≥ 1`: contents of the buffer with its terminator, `none` for `NULL`. -/
def fgets (f : F) (n : Nat) : Option (F × Option (List Nat)) :=
  (fgetsLoop (n - 1) f).map fun r => (r.1, if r.2 = [] then none else some (r.2 ++ [0]))

/-- Specification: the next line, at most `n` characters of it. -/
def line : Nat → List Nat → List Nat
  | 0, _ => []
  | _, [] => []
  | n + 1, c :: cs => if c = 10 then [10] else c :: line n cs

theorem line_prefix (n : Nat) (l : List Nat) : line n l ++ l.drop (line n l).length = l := by
  induction l generalizing n with
  | nil => cases n <;> rfl
  | cons c cs ih =>
    cases n with
    | zero => rfl
    | succ n =>
      rw [line]
      split
      · rename_i h; rw [h]; rfl
      · rw [List.length_cons, List.drop_succ_cons, List.cons_append, ih n]

theorem fgetsLoop_spec (n : Nat) (f : F) (hr : Reg f) :
    ∃ f', fgetsLoop n f = some (f', line n f.left) ∧ f'.left = f.left.drop (line n f.left).length ∧ Reg f' := by
  induction n generalizing f with
  | zero =>
    refine ⟨f, by rw [fgetsLoop]; cases f.left <;> rfl, ?_, hr⟩
    cases f.left <;> rfl
  | succ n ih =>
    obtain ⟨f1, k1, k2, k3, _⟩ := fgetc_correct f hr
    rw [fgetsLoop, k1]
    cases hl : f.left with
    | nil => exact ⟨f1, rfl, by rw [k2, hl]; rfl, k3⟩
    | cons c cs =>
      rw [hl] at k2
      simp only [List.head?_cons, Option.bind_some, line]
      split
      · rename_i hc
        exact ⟨f1, by rw [hc], by rw [k2]; rfl, k3⟩
      · obtain ⟨f', j1, j2, j3⟩ := ih f1 k3
        refine ⟨f', by rw [j1, k2]; rfl, ?_, j3⟩
        rw [j2, k2]; rfl

/-- C46.  `fgets(s, n, fp)` stores the next line, cut after `n - 1` characters, followed by a terminator, never more
than `n` bytes, and leaves the stream right behind what it stored. -/
theorem fgets_correct (f : F) (hr : Reg f) (n : Nat) (hn : 2 ≤ n) :
    ∃ f', fgets f n = some (f', if f.left = [] then none else some (line (n - 1) f.left ++ [0])) ∧
      (line (n - 1) f.left ++ [0]).length ≤ n ∧ line (n - 1) f.left ++ f'.left = f.left := by
  obtain ⟨f', k1, k2, k3⟩ := fgetsLoop_spec (n - 1) f hr
  have hlen : ∀ n l, (line n l).length ≤ n := by
    intro n l
    induction l generalizing n with
    | nil => cases n <;> simp [line]
    | cons c cs ih =>
      cases n with
      | zero => simp [line]
      | succ n =>
        rw [line]
        split
        · simp
        · rw [List.length_cons]; have := ih n; omega
  refine ⟨f', ?_, ?_, ?_⟩
  · rw [fgets, k1]
    simp only [Option.map_some]
    cases hl : f.left with
    | nil => cases n - 1 <;> rfl
    | cons c cs =>
      obtain ⟨m, hm⟩ : ∃ m, n - 1 = m + 1 := ⟨n - 2, by omega⟩
      have hne : line (m + 1) (c :: cs) ≠ [] := by rw [line]; split <;> simp
      rw [hm, if_neg hne, if_neg (by simp)]
  · rw [List.length_append, List.length_singleton]
    have := hlen (n - 1) f.left
    omega
  · rw [k2]; exact line_prefix _ _

/-- The loop of `getline`, libsrc/stdio/getline.c:13-40.  The state is the line so far (`top[0..size)`) and the
capacity of the block; a store at or beyond the capacity gives `none`.  The result is the line and the capacity; the
inner `none` is end of file with nothing read.  `realloc` succeeds. -/
def getlineLoop : Nat → F → List Nat → Nat → Option (F × Option (List Nat × Nat))
  | 0, _, _, _ => none
  | fuel + 1, f, top, capa =>
    (fgetc f).bind fun
      | (f, none) =>
        if top.length = 0 then some (f, none)
        else if top.length < capa then some (f, some (top, capa)) else none
      | (f, some c) =>
        let capa := if top.length + 1 ≥ capa then (if capa * 2 < 16 then 16 else capa * 2) else capa
        if top.length < capa then
          let top := top ++ [c]
          if c = 10 then (if top.length < capa then some (f, some (top, capa)) else none)
          else getlineLoop fuel f top capa
        else none

/-- The whole next line. -/
def fullLine : List Nat → List Nat
  | [] => []
  | c :: cs => if c = 10 then [10] else c :: fullLine cs

theorem fullLine_prefix (l : List Nat) : fullLine l ++ l.drop (fullLine l).length = l := by
  induction l with
  | nil => rfl
  | cons c cs ih =>
    rw [fullLine]
    split
    · rename_i h; rw [h]; rfl
    · rw [List.length_cons, List.drop_succ_cons, List.cons_append, ih]

theorem getlineLoop_spec (fuel : Nat) (f : F) (top : List Nat) (capa : Nat) (hr : Reg f) (hf : f.left.length < fuel)
    (hc : top.length < capa ∨ top = []) :
    ∃ f' r, getlineLoop fuel f top capa = some (f', r) ∧ Reg f' ∧ f'.left = f.left.drop (fullLine f.left).length ∧
      (top = [] ∧ f.left = [] ∧ r = none ∨
       ∃ capa', r = some (top ++ fullLine f.left, capa') ∧ (top ++ fullLine f.left).length < capa') := by
  induction fuel generalizing f top capa with
  | zero => omega
  | succ fuel ih =>
    obtain ⟨f1, k1, k2, k3, _⟩ := fgetc_correct f hr
    unfold getlineLoop
    rw [k1]
    cases hl : f.left with
    | nil =>
      simp only [List.head?_nil, Option.bind_some]
      by_cases ht : top = []
      · rw [ht]
        exact ⟨f1, none, rfl, k3, by rw [k2, hl]; rfl, Or.inl ⟨rfl, trivial, rfl⟩⟩
      · have hlt : top.length < capa := by
          rcases hc with h | h
          · exact h
          · exact absurd h ht
        rw [if_neg (by intro e; exact ht (List.eq_nil_of_length_eq_zero e)), if_pos hlt]
        exact ⟨f1, _, rfl, k3, by rw [k2, hl]; rfl, Or.inr ⟨capa, by simp [fullLine], by simpa [fullLine] using hlt⟩⟩
    | cons c cs =>
      simp only [List.head?_cons, Option.bind_some]
      generalize hcp : (if top.length + 1 ≥ capa then (if capa * 2 < 16 then 16 else capa * 2) else capa) = capa1
      have hcap : top.length + 1 < capa1 := by
        rcases hc with h | h
        · split at hcp
          · split at hcp <;> omega
          · omega
        · rw [h] at hcp ⊢
          simp at hcp ⊢
          split at hcp
          · split at hcp <;> omega
          · omega
      rw [if_pos (by omega)]
      rw [hl] at k2
      have hlen1 : (top ++ [c]).length = top.length + 1 := by simp
      split
      · rename_i h10
        rw [if_pos (by omega)]
        refine ⟨f1, _, rfl, k3, ?_, Or.inr ⟨capa1, ?_, ?_⟩⟩
        · rw [k2, fullLine, if_pos h10]; rfl
        · rw [fullLine, if_pos h10, h10]
        · rw [fullLine, if_pos h10]; simp; omega
      · rename_i h10
        obtain ⟨f', r, j1, j2, j3, j4⟩ := ih f1 (top ++ [c]) capa1 k3 (by rw [k2]; rw [hl] at hf; simp at hf ⊢; omega)
          (Or.inl (by omega))
        refine ⟨f', r, j1, j2, ?_, Or.inr ?_⟩
        · rw [j3, k2, fullLine, if_neg h10]; rfl
        · rcases j4 with ⟨h, _⟩ | ⟨capa', e1, e2⟩
          · simp at h
          · rw [k2] at e1 e2
            refine ⟨capa', ?_, ?_⟩
            · rw [e1, fullLine, if_neg h10]; simp
            · rw [fullLine, if_neg h10]; simpa using e2

/-- C46.  `getline` (with any previous buffer, of any capacity) always returns, reads exactly the next line including
its newline, never stores outside the block it has, keeps room for the terminator, and leaves the stream right behind
the line; at end of file it reports -1. -/
theorem getline_correct (f : F) (hr : Reg f) (capa : Nat) :
    ∃ f' r, (∀ fuel, f.left.length < fuel → getlineLoop fuel f [] capa = some (f', r)) ∧ Reg f' ∧
      (f.left = [] ∧ r = none ∨ ∃ capa', r = some (fullLine f.left, capa') ∧ (fullLine f.left).length < capa') ∧
      fullLine f.left ++ f'.left = f.left := by
  obtain ⟨f', r, k1, k2, k3, k4⟩ := getlineLoop_spec (f.left.length + 1) f [] capa hr (by omega) (Or.inr rfl)
  refine ⟨f', r, ?_, k2, ?_, by rw [k3]; exact fullLine_prefix _⟩
  · suffices H : ∀ (m : Nat) (fuel : Nat) (f : F) (top : List Nat) (capa : Nat) x, fuel ≤ m →
        getlineLoop fuel f top capa = some x → getlineLoop m f top capa = some x by
      intro fuel hfuel
      exact H fuel _ f [] capa _ hfuel k1
    intro m
    induction m with
    | zero =>
      intro fuel f top capa x h1 h2
      rw [Nat.le_zero.1 h1] at h2; cases h2
    | succ m ih =>
      intro fuel f top capa x h1 h2
      cases fuel with
      | zero => cases h2
      | succ fuel =>
        unfold getlineLoop at h2 ⊢
        cases hg : fgetc f with
        | none => rw [hg] at h2; cases h2
        | some y =>
          rw [hg] at h2
          obtain ⟨f1, o⟩ := y
          cases o with
          | none => exact h2
          | some c =>
            simp only [Option.bind_some] at h2 ⊢
            generalize (if top.length + 1 ≥ capa then (if capa * 2 < 16 then 16 else capa * 2) else capa) = capa1 at h2 ⊢
            split at h2
            · rename_i hlt
              rw [if_pos hlt]
              split at h2
              · rename_i h10
                rw [if_pos h10]; exact h2
              · rename_i h10
                rw [if_neg h10]
                exact ih fuel f1 _ _ x (by omega) h2
            · cases h2
  · rcases k4 with ⟨_, h, h'⟩ | ⟨c', h, h'⟩
    · exact Or.inl ⟨h, h'⟩
    · exact Or.inr ⟨c', h, h'⟩

/-- Non-vacuity: two lines through a 4-byte buffer. -/
example : ((fgets (opened 4 false [65, 66, 10, 67] []) 8).map Prod.snd) = some (some [65, 66, 10, 0]) := by decide
example : ((getlineLoop 9 (opened 4 false [65, 66, 10, 67] []) [] 1).map Prod.snd) = some (some ([65, 66, 10], 16)) := by
  decide

end Verif.FileIn

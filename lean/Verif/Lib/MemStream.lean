/-!
# Memory streams

libsrc/stdio/fmemopen.c and open_memstream.c, used through `fputc`, `fwrite`,
`fflush`, `fread`, `fseek` and `fclose`.  `wp` and `wcapa` are 32-bit unsigned.
An access outside the buffer is an outcome of its own.
-/

namespace Verif.MemStream

/-! ## Model -/

/-- The stream, libsrc/stdio/_file.h:28-40: the buffer with its `wcapa` bytes, the
position, whether it is from `open_memstream`, the answers of `realloc` to come
(it succeeds when there are none left) and what was last stored in `*ptr` and
`*sizeloc`.  Bytes put back and the flags are not modelled. -/
structure F where
  buf : List Nat
  wp : Nat
  grow : Bool
  mem : List Bool
  out : Option (List Nat × Nat)
  deriving DecidableEq

/-- The new capacity, libsrc/stdio/fmemopen.c:13-15: an unsigned product stored in
an `int`. -/
def newsize (cap : Nat) : Nat :=
  let n := cap * 2 % 2 ^ 32
  if 2 ^ 31 ≤ n ∨ n < 16 then 16 else n

/-- `_growmem`, libsrc/stdio/fmemopen.c:12-22.  `junk` are the bytes in fresh
memory. -/
def growmem (junk : Nat → Nat) (s : F) : F × Bool :=
  if s.mem.head? = some false then ({ s with mem := s.mem.tail }, false)
  else
    let n := newsize s.buf.length
    ({ s with mem := s.mem.tail, buf := s.buf.take n ++ (List.range (n - s.buf.length)).map junk }, true)

/-- `_memwrite`, libsrc/stdio/fmemopen.c:40-50.  `none` is a write outside the
buffer. -/
def write (junk : Nat → Nat) : List Nat → F → Option F
  | [], s => some s
  | c :: cs, s =>
    let g := if (s.wp + 1) % 2 ^ 32 ≥ s.buf.length then (if s.grow then growmem junk s else (s, false)) else (s, true)
    if g.2 then
      if s.wp < g.1.buf.length then
        write junk cs { g.1 with buf := g.1.buf.set s.wp c, wp := (s.wp + 1) % 2 ^ 32 }
      else none
    else some g.1

/-- `_memflush` and `_memflush2`, libsrc/stdio/fmemopen.c:52-58,
open_memstream.c:14-25. -/
def flush (s : F) : F :=
  let b := if s.wp < s.buf.length then s.buf.set s.wp 0 else s.buf
  { s with buf := b, out := if s.grow then some (b, s.wp) else s.out }

/-- `_memread`, libsrc/stdio/fmemopen.c:24-38: the bytes.  `none` is a read outside
the buffer. -/
def read (n : Nat) (s : F) : Option (F × List Nat) :=
  let sz := (s.buf.length + 2 ^ 32 - s.wp) % 2 ^ 32
  let k := min sz n
  if s.wp + k ≤ s.buf.length then some ({ s with wp := (s.wp + k) % 2 ^ 32 }, (s.buf.drop s.wp).take k)
  else if k = 0 then some (s, []) else none

/-- `fseek` with `SEEK_SET`, libsrc/stdio/fseek.c:5-11, fmemopen.c:60-78.  It
flushes twice, which is as once. -/
def seek (off : Int) (s : F) : F := { flush s with wp := (off % 2 ^ 32).toNat }

/-- `open_memstream`, libsrc/stdio/open_memstream.c:27-37. -/
def openMemstream (mem : List Bool) : F := ⟨[], 0, true, mem, none⟩

/-- `fmemopen`, libsrc/stdio/fmemopen.c:88-126. -/
def fmemopen (buf : List Nat) : F := ⟨buf, 0, false, [], none⟩

/-- Calls on a stream. -/
inductive Op where
  | write (bs : List Nat)
  | flush
  | read (n : Nat)
  | seek (off : Int)

/-- One call: the stream and the bytes that are read. -/
def step (junk : Nat → Nat) (s : F) : Op → Option (F × List Nat)
  | .write bs => (write junk bs s).map (fun s => (s, []))
  | .flush => some (flush s, [])
  | .read n => read n s
  | .seek off => some (seek off s, [])

/-- A sequence of calls. -/
def run (junk : Nat → Nat) : List Op → F → Option (F × List (List Nat))
  | [], s => some (s, [])
  | o :: os, s => match step junk s o with
    | none => none
    | some (s, r) => (run junk os s).map (fun x => (x.1, r :: x.2))

/-! ## Specification -/

/-- Calls of a program that only writes. -/
def Op.Writer : Op → Prop
  | .write _ | .flush => True
  | _ => False

/-- What is written. -/
def Op.bytes : Op → List Nat
  | .write bs => bs
  | _ => []

/-- All that is written. -/
def written (os : List Op) : List Nat := (os.map Op.bytes).flatten

/-! ## Growing streams -/

/-- The state after writing `bs`. -/
structure Holds (s : F) (bs : List Nat) : Prop where
  grow : s.grow = true
  mem : ∀ b ∈ s.mem, b = true
  wp : s.wp = bs.length
  data : s.buf.take s.wp = bs
  cap : s.buf.length = 0 ∧ bs = [] ∨ ∃ k ≤ 26, s.buf.length = 16 * 2 ^ k ∧ s.wp < s.buf.length

theorem take_set {l : List Nat} {n c : Nat} (h : n < l.length) : (l.set n c).take (n + 1) = l.take n ++ [c] := by
  rw [List.take_add_one, List.take_set_of_le (Nat.le_refl n)]
  simp [h]

theorem write_holds (junk : Nat → Nat) : ∀ (cs : List Nat) (s : F) (bs : List Nat), Holds s bs →
    bs.length + cs.length < 2 ^ 30 → ∃ s', write junk cs s = some s' ∧ Holds s' (bs ++ cs)
  | [], s, bs, h, _ => ⟨s, rfl, by simpa using h⟩
  | c :: cs, s, bs, h, hl => by
    simp only [List.length_cons] at hl
    have hwp := h.wp
    have key : ∀ t : F, t.grow = true → (∀ b ∈ t.mem, b = true) → t.buf.take s.wp = bs →
        (∃ k ≤ 26, t.buf.length = 16 * 2 ^ k ∧ s.wp + 1 < t.buf.length) →
        ∃ s', write junk cs { t with buf := t.buf.set s.wp c, wp := (s.wp + 1) % 2 ^ 32 } = some s' ∧
          Holds s' (bs ++ c :: cs) := by
      intro t h1 h2 h3 ⟨k, hk, h4, h5⟩
      have hw : (s.wp + 1) % 2 ^ 32 = s.wp + 1 := by omega
      rw [hw]
      have := write_holds junk cs { t with buf := t.buf.set s.wp c, wp := s.wp + 1 } (bs ++ [c])
        ⟨h1, h2, by simp [hwp], by
          show (t.buf.set s.wp c).take (s.wp + 1) = bs ++ [c]
          rw [take_set (by omega), h3], Or.inr ⟨k, hk, by simpa using h4, by simpa using h5⟩⟩ (by
            simp only [List.length_append, List.length_cons, List.length_nil]
            omega)
      rw [List.append_assoc] at this
      exact this
    have hw : (s.wp + 1) % 2 ^ 32 = s.wp + 1 := by omega
    by_cases hg : s.wp + 1 ≥ s.buf.length
    · have hne : s.mem.head? ≠ some false := by
        intro hf
        cases hm : s.mem with
        | nil => rw [hm] at hf; cases hf
        | cons b ms =>
          rw [hm] at hf
          have := h.mem b (by rw [hm]; simp)
          rw [this] at hf
          cases hf
      have htail : ∀ b ∈ s.mem.tail, b = true := fun b hb => h.mem b (List.mem_of_mem_tail hb)
      have hnew : ∃ k ≤ 26, newsize s.buf.length = 16 * 2 ^ k ∧ s.wp + 1 < 16 * 2 ^ k ∧
          s.buf.length ≤ 16 * 2 ^ k := by
        rcases h.cap with ⟨h0, hb⟩ | ⟨k, hk, hc, hlt⟩
        · refine ⟨0, by omega, by rw [h0]; decide, ?_, by omega⟩
          rw [hwp, hb]
          decide
        · have hk25 : k ≤ 25 := by
            by_cases hh : k = 26
            · subst hh
              rw [hwp] at hg
              omega
            · omega
          have hp : 2 ^ k ≤ 2 ^ 25 := Nat.pow_le_pow_right (by decide) hk25
          have hp1 : 2 ^ (k + 1) = 2 * 2 ^ k := by rw [Nat.pow_succ, Nat.mul_comm]
          have hpos : 0 < 2 ^ k := Nat.two_pow_pos k
          refine ⟨k + 1, by omega, ?_, ?_, ?_⟩
          · rw [newsize, hc, hp1]
            have : 16 * 2 ^ k * 2 % 2 ^ 32 = 16 * 2 ^ k * 2 := by omega
            rw [this, if_neg (by omega)]
            omega
          · omega
          · omega
      obtain ⟨k, hk, hn, hroom, hle⟩ := hnew
      have hlen : (s.buf.take (16 * 2 ^ k) ++ (List.range (16 * 2 ^ k - s.buf.length)).map junk).length = 16 * 2 ^ k := by
        simp only [List.length_append, List.length_take, List.length_map, List.length_range]
        omega
      have hstep : write junk (c :: cs) s = write junk cs { s with
          mem := s.mem.tail, buf := (s.buf.take (16 * 2 ^ k) ++ (List.range (16 * 2 ^ k - s.buf.length)).map junk).set s.wp c,
          wp := (s.wp + 1) % 2 ^ 32 } := by
        simp only [write, hw]
        rw [if_pos hg]
        simp only [h.grow, if_true, growmem, hne, if_false, hn]
        rw [if_pos (by rw [hlen]; omega)]
      rw [hstep]
      refine key { s with mem := s.mem.tail, buf := s.buf.take (16 * 2 ^ k) ++ (List.range (16 * 2 ^ k - s.buf.length)).map junk }
        h.grow htail ?_ ⟨k, hk, hlen, by show _ < List.length _; rw [hlen]; exact hroom⟩
      show (s.buf.take (16 * 2 ^ k) ++ _).take s.wp = bs
      rw [List.take_of_length_le hle]
      have hwl : s.wp ≤ s.buf.length := by
        rcases h.cap with ⟨h0, hb⟩ | ⟨_, _, _, hlt⟩
        · rw [hwp, hb]
          simp
        · omega
      rw [List.take_append_of_le_length hwl]
      exact h.data
    · have hstep : write junk (c :: cs) s = write junk cs { s with
          buf := s.buf.set s.wp c, wp := (s.wp + 1) % 2 ^ 32 } := by
        simp only [write, hw]
        rw [if_neg hg]
        simp only [if_true]
        rw [if_pos (by omega)]
      rw [hstep]
      refine key s h.grow h.mem h.data ?_
      rcases h.cap with ⟨h0, hb⟩ | ⟨k, hk, hc, hlt⟩
      · omega
      · exact ⟨k, hk, hc, by omega⟩

theorem flush_holds {s : F} {bs : List Nat} (h : Holds s bs) : Holds (flush s) bs := by
  have hlen : (if s.wp < s.buf.length then s.buf.set s.wp 0 else s.buf).length = s.buf.length := by
    split <;> simp
  refine ⟨h.grow, h.mem, h.wp, ?_, ?_⟩
  · show (if s.wp < s.buf.length then s.buf.set s.wp 0 else s.buf).take s.wp = bs
    split
    · rw [List.take_set_of_le (Nat.le_refl _)]
      exact h.data
    · exact h.data
  · show (if s.wp < s.buf.length then s.buf.set s.wp 0 else s.buf).length = 0 ∧ bs = [] ∨ _
    rcases h.cap with h0 | ⟨k, hk, hc, hlt⟩
    · exact Or.inl ⟨by rw [hlen]; exact h0.1, h0.2⟩
    · refine Or.inr ⟨k, hk, ?_, ?_⟩
      · exact hlen.trans hc
      · show s.wp < (if s.wp < s.buf.length then s.buf.set s.wp 0 else s.buf).length
        rw [hlen]
        exact hlt

theorem run_holds (junk : Nat → Nat) : ∀ (os : List Op) (s : F) (bs : List Nat), Holds s bs →
    (∀ o ∈ os, o.Writer) → bs.length + (written os).length < 2 ^ 30 →
    ∃ s' rs, run junk os s = some (s', rs) ∧ Holds s' (bs ++ written os)
  | [], s, bs, h, _, _ => ⟨s, [], rfl, by simpa [written] using h⟩
  | o :: os, s, bs, h, hw, hl => by
    have ho := hw o (by simp)
    have hos : ∀ o ∈ os, o.Writer := fun x hx => hw x (by simp [hx])
    cases o with
    | write cs =>
      have hwr : written (.write cs :: os) = cs ++ written os := by simp [written, Op.bytes]
      rw [hwr, List.length_append] at hl
      obtain ⟨s1, h1, h2⟩ := write_holds junk cs s bs h (by omega)
      obtain ⟨s2, rs, h3, h4⟩ := run_holds junk os s1 (bs ++ cs) h2 hos (by
        rw [List.length_append]
        omega)
      refine ⟨s2, [] :: rs, ?_, by rw [hwr, ← List.append_assoc]; exact h4⟩
      simp [run, step, h1, h3]
    | flush =>
      have hwr : written (.flush :: os) = written os := by simp [written, Op.bytes]
      rw [hwr] at hl ⊢
      obtain ⟨s2, rs, h3, h4⟩ := run_holds junk os (flush s) bs (flush_holds h) hos hl
      exact ⟨s2, [] :: rs, by simp [run, step, h3], h4⟩
    | read n => exact ho.elim
    | seek o => exact ho.elim

theorem open_holds {mem : List Bool} (h : ∀ b ∈ mem, b = true) : Holds (openMemstream mem) [] :=
  ⟨rfl, h, rfl, rfl, Or.inl ⟨rfl, rfl⟩⟩

/-- C90 (partial: some but less than 2^30 bytes, memory is there): after any calls
that write and flush, a flush leaves in `*ptr` all the bytes written with a
terminator behind them, and in `*sizeloc` their number. -/
theorem memstream_holds_partial (junk : Nat → Nat) {mem : List Bool} (hm : ∀ b ∈ mem, b = true) (os : List Op)
    (hw : ∀ o ∈ os, o.Writer) (hne : written os ≠ []) (hl : (written os).length < 2 ^ 30) :
    ∃ s rs b, run junk os (openMemstream mem) = some (s, rs) ∧ (flush s).out = some (b, (written os).length) ∧
      b.take (written os).length = written os ∧ b[(written os).length]? = some 0 := by
  obtain ⟨s, rs, h1, h2⟩ := run_holds junk os _ [] (open_holds hm) hw (by simpa using hl)
  rw [List.nil_append] at h2
  rcases h2.cap with ⟨_, h0⟩ | ⟨k, hk, hc, hlt⟩
  · exact absurd h0 hne
  · refine ⟨s, rs, s.buf.set s.wp 0, h1, ?_, ?_, ?_⟩
    · simp only [flush, h2.grow, if_pos hlt, if_true]
      rw [h2.wp]
    · rw [← h2.wp, List.take_set_of_le (Nat.le_refl _)]
      exact h2.data
    · rw [← h2.wp]
      simp [hlt]

/-- Finding: the 2^30-th byte is written outside the buffer: the doubled capacity
does not fit the `int`, and the buffer is cut to 16 bytes
(libsrc/stdio/fmemopen.c:13-15). -/
theorem gigabyte_corrupts (junk : Nat → Nat) {mem : List Bool} (hm : ∀ b ∈ mem, b = true) (bs : List Nat) (c : Nat)
    (hl : bs.length = 2 ^ 30 - 1) : run junk [.write bs, .write [c]] (openMemstream mem) = none := by
  obtain ⟨s, h1, h2⟩ := write_holds junk bs _ [] (open_holds hm) (by simp [hl])
  rw [List.nil_append] at h2
  have hwp : s.wp = 2 ^ 30 - 1 := by rw [h2.wp, hl]
  have hlen : s.buf.length = 2 ^ 30 := by
    rcases h2.cap with ⟨_, h0⟩ | ⟨k, hk, hc, hlt⟩
    · rw [h0] at hl
      simp at hl
    · have hp : 2 ^ k ≤ 2 ^ 26 := Nat.pow_le_pow_right (by decide) hk
      omega
  have hne : s.mem.head? ≠ some false := by
    intro hf
    cases hm : s.mem with
    | nil => rw [hm] at hf; cases hf
    | cons b ms =>
      rw [hm] at hf
      have := h2.mem b (by rw [hm]; simp)
      rw [this] at hf
      cases hf
  have hn : newsize (2 ^ 30) = 16 := by decide +kernel
  have hw : write junk [c] s = none := by
    simp only [write, hwp, hlen]
    have hge : (2 ^ 30 - 1 + 1) % 2 ^ 32 ≥ 2 ^ 30 := by decide
    simp only [if_pos hge]
    simp only [h2.grow, if_true, growmem, hne, if_false, hlen, hn]
    rw [if_neg]
    simp only [List.length_append, List.length_take, List.length_map, List.length_range, hlen]
    decide
  simp [run, step, h1, hw]
/-! ## Streams on a buffer of the caller -/

/-- The state after writing `bs` to the buffer `o`: what does not fit is dropped. -/
structure Fits (o : List Nat) (s : F) (bs : List Nat) : Prop where
  grow : s.grow = false
  len : s.buf.length = o.length
  wp : s.wp = (bs.take (o.length - 1)).length
  data : s.buf.take s.wp = bs.take (o.length - 1)
  rest : s.buf.drop (s.wp + 1) = o.drop (s.wp + 1)

theorem write_fits (junk : Nat → Nat) {o : List Nat} (ho : o.length < 2 ^ 32) : ∀ (cs : List Nat) (s : F) (bs : List Nat),
    Fits o s bs → ∃ s', write junk cs s = some s' ∧ Fits o s' (bs ++ cs)
  | [], s, bs, h => ⟨s, rfl, by simpa using h⟩
  | c :: cs, s, bs, h => by
    have hwp := h.wp
    rw [List.length_take] at hwp
    by_cases hg : (s.wp + 1) % 2 ^ 32 ≥ s.buf.length
    · refine ⟨s, ?_, ?_⟩
      · simp only [write]
        rw [if_pos hg]
        simp [h.grow]
      · have hge : o.length - 1 ≤ bs.length := by
          have := h.len
          omega
        have : (bs ++ c :: cs).take (o.length - 1) = bs.take (o.length - 1) := List.take_append_of_le_length hge
        exact ⟨h.grow, h.len, by rw [this]; exact h.wp, by rw [this]; exact h.data, h.rest⟩
    · have hw : (s.wp + 1) % 2 ^ 32 = s.wp + 1 := by
        have := h.len
        omega
      rw [hw] at hg
      have hlen := h.len
      have hbs : bs.length < o.length - 1 := by omega
      have hstep : write junk (c :: cs) s = write junk cs { s with buf := s.buf.set s.wp c, wp := s.wp + 1 } := by
        simp only [write, hw]
        rw [if_neg hg]
        simp only [if_true]
        rw [if_pos (by omega)]
      have htk : (bs ++ [c]).take (o.length - 1) = bs ++ [c] := by
        apply List.take_of_length_le
        simp only [List.length_append, List.length_cons, List.length_nil]
        omega
      have hb : bs.take (o.length - 1) = bs := List.take_of_length_le (by omega)
      have := write_fits junk ho cs { s with buf := s.buf.set s.wp c, wp := s.wp + 1 } (bs ++ [c])
        ⟨h.grow, by simpa using h.len, by
          rw [htk]
          simp only [List.length_append, List.length_cons, List.length_nil]
          omega, by
          show (s.buf.set s.wp c).take (s.wp + 1) = _
          rw [htk, take_set (by omega), h.data, hb], by
          show (s.buf.set s.wp c).drop (s.wp + 1 + 1) = _
          rw [List.drop_set_of_lt (by omega), ← List.drop_drop, h.rest, List.drop_drop]⟩
      rw [List.append_assoc] at this
      rw [hstep]
      exact this

theorem flush_fits {o : List Nat} {s : F} {bs : List Nat} (h : Fits o s bs) : Fits o (flush s) bs := by
  refine ⟨h.grow, ?_, h.wp, ?_, ?_⟩
  · show (if s.wp < s.buf.length then s.buf.set s.wp 0 else s.buf).length = _
    split
    · rw [List.length_set]
      exact h.len
    · exact h.len
  · show (if s.wp < s.buf.length then s.buf.set s.wp 0 else s.buf).take s.wp = _
    split
    · rw [List.take_set_of_le (Nat.le_refl _)]
      exact h.data
    · exact h.data
  · show (if s.wp < s.buf.length then s.buf.set s.wp 0 else s.buf).drop (s.wp + 1) = _
    split
    · rw [List.drop_set_of_lt (by omega)]
      exact h.rest
    · exact h.rest

theorem run_fits (junk : Nat → Nat) {o : List Nat} (ho : o.length < 2 ^ 32) : ∀ (os : List Op) (s : F) (bs : List Nat),
    Fits o s bs → (∀ o ∈ os, o.Writer) → ∃ s' rs, run junk os s = some (s', rs) ∧ Fits o s' (bs ++ written os)
  | [], s, bs, h, _ => ⟨s, [], rfl, by simpa [written] using h⟩
  | p :: os, s, bs, h, hw => by
    have hp := hw p (by simp)
    have hos : ∀ o ∈ os, o.Writer := fun x hx => hw x (by simp [hx])
    cases p with
    | write cs =>
      have hwr : written (.write cs :: os) = cs ++ written os := by simp [written, Op.bytes]
      obtain ⟨s1, h1, h2⟩ := write_fits junk ho cs s bs h
      obtain ⟨s2, rs, h3, h4⟩ := run_fits junk ho os s1 (bs ++ cs) h2 hos
      exact ⟨s2, [] :: rs, by simp [run, step, h1, h3], by rw [hwr, ← List.append_assoc]; exact h4⟩
    | flush =>
      have hwr : written (.flush :: os) = written os := by simp [written, Op.bytes]
      obtain ⟨s2, rs, h3, h4⟩ := run_fits junk ho os (flush s) bs (flush_fits h) hos
      exact ⟨s2, [] :: rs, by simp [run, step, h3], by rw [hwr]; exact h4⟩
    | read n => exact hp.elim
    | seek o => exact hp.elim

/-- C90: writing to a buffer of the caller never leaves it; after a flush it has
the bytes written as far as they fit, a terminator, and is unchanged behind. -/
theorem fmemopen_fits (junk : Nat → Nat) (buf : List Nat) (h0 : buf ≠ []) (hb : buf.length < 2 ^ 32) (os : List Op)
    (hw : ∀ o ∈ os, o.Writer) : ∃ s rs, run junk os (fmemopen buf) = some (s, rs) ∧
      (flush s).buf = (written os).take (buf.length - 1) ++
        0 :: buf.drop (((written os).take (buf.length - 1)).length + 1) := by
  obtain ⟨s, rs, h1, h2⟩ := run_fits junk hb os (fmemopen buf) [] ⟨rfl, rfl, by simp [fmemopen], by simp [fmemopen], rfl⟩ hw
  rw [List.nil_append] at h2
  refine ⟨s, rs, h1, ?_⟩
  have hpos : 0 < buf.length := List.length_pos_iff.2 h0
  have hlt : s.wp < s.buf.length := by
    rw [h2.len, h2.wp, List.length_take]
    omega
  show (if s.wp < s.buf.length then s.buf.set s.wp 0 else s.buf) = _
  rw [if_pos hlt, List.set_eq_take_append_cons_drop, if_pos hlt, h2.data, h2.rest, ← h2.wp]

/-! ## Reading -/

theorem read_spec {s : F} (n : Nat) (h : s.wp ≤ s.buf.length) (hl : s.buf.length < 2 ^ 32) :
    read n s = some ({ s with wp := min (s.wp + n) s.buf.length }, (s.buf.drop s.wp).take n) := by
  have hsz : (s.buf.length + 2 ^ 32 - s.wp) % 2 ^ 32 = s.buf.length - s.wp := by omega
  simp only [read, hsz]
  rw [if_pos (by omega)]
  have h1 : (s.wp + min (s.buf.length - s.wp) n) % 2 ^ 32 = min (s.wp + n) s.buf.length := by omega
  have h2 : (s.buf.drop s.wp).take (min (s.buf.length - s.wp) n) = (s.buf.drop s.wp).take n := by
    rw [← List.length_drop, List.take_eq_take_iff]
    omega
  rw [h1, h2]

/-- The pieces that reads of these sizes should get of a text. -/
def slices : List Nat → List Nat → List (List Nat)
  | [], _ => []
  | n :: ns, l => l.take n :: slices ns (l.drop n)

/-- C90: reading delivers the bytes of the buffer in order, each once: every read
gives what is asked for, or all that is left. -/
theorem reads_in_order (junk : Nat → Nat) (ns : List Nat) (s : F) (h : s.wp ≤ s.buf.length) (hl : s.buf.length < 2 ^ 32) :
    ∃ s', run junk (ns.map .read) s = some (s', slices ns (s.buf.drop s.wp)) ∧ s'.buf = s.buf := by
  induction ns generalizing s with
  | nil => exact ⟨s, rfl, rfl⟩
  | cons n ns ih =>
    obtain ⟨buf, wp, grow, mem, out⟩ := s
    dsimp only at h hl ⊢
    obtain ⟨s', h1, h2⟩ := ih ⟨buf, min (wp + n) buf.length, grow, mem, out⟩ (Nat.min_le_right _ _) hl
    dsimp only at h1 h2
    refine ⟨s', ?_, h2⟩
    have hd : buf.drop (min (wp + n) buf.length) = (buf.drop wp).drop n := by
      rw [List.drop_drop]
      by_cases hc : wp + n ≤ buf.length
      · rw [Nat.min_eq_left hc]
      · rw [Nat.min_eq_right (by omega), List.drop_length, List.drop_eq_nil_of_le (by omega)]
    have hr := read_spec (s := ⟨buf, wp, grow, mem, out⟩) n h hl
    dsimp only at hr
    rw [List.map_cons, run, step, hr]
    dsimp only
    rw [h1, hd, slices]
    rfl

/-- Three bytes in reads of two. -/
example : (run (fun _ => 170) ([2, 2, 2].map .read) (fmemopen [7, 8, 9])).map (·.2) = some [[7, 8], [9], []] := by
  decide +kernel

/-! ## Positions -/

/-- Positions inside the buffer of `n` bytes. -/
def Op.Inside (n : Nat) : Op → Prop
  | .seek off => 0 ≤ off ∧ off ≤ n
  | _ => True

theorem write_inside (junk : Nat → Nat) : ∀ (cs : List Nat) (s : F), s.grow = false → s.wp ≤ s.buf.length →
    s.buf.length < 2 ^ 32 - 1 → ∃ s', write junk cs s = some s' ∧ s'.grow = false ∧ s'.buf.length = s.buf.length ∧
      s'.wp ≤ s.buf.length
  | [], s, hg, hw, _ => ⟨s, rfl, hg, rfl, hw⟩
  | c :: cs, s, hg, hw, hl => by
    by_cases hc : (s.wp + 1) % 2 ^ 32 ≥ s.buf.length
    · refine ⟨s, ?_, hg, rfl, hw⟩
      simp only [write]
      rw [if_pos hc]
      simp [hg]
    · by_cases hlt : s.wp < s.buf.length
      · obtain ⟨s', h1, h2, h3, h4⟩ := write_inside junk cs
          { s with buf := s.buf.set s.wp c, wp := (s.wp + 1) % 2 ^ 32 } hg (by
            show (s.wp + 1) % 2 ^ 32 ≤ (s.buf.set s.wp c).length
            rw [List.length_set]
            omega) (by
            show (s.buf.set s.wp c).length < _
            rw [List.length_set]
            exact hl)
        refine ⟨s', ?_, h2, ?_, ?_⟩
        · simp only [write]
          rw [if_neg hc]
          simp only [if_true, hlt]
          exact h1
        · rw [h3]
          simp
        · have : (s.buf.set s.wp c).length = s.buf.length := List.length_set
          exact this ▸ h4
      · exfalso
        omega

/-- C90 (partial: positions inside the buffer, see `seek_corrupts` and
`seek_reads_beyond`): no sequence of calls leaves the caller's buffer. -/
theorem fmemopen_safe_partial (junk : Nat → Nat) : ∀ (os : List Op) (s : F), s.grow = false → s.wp ≤ s.buf.length →
    s.buf.length < 2 ^ 32 - 1 → (∀ o ∈ os, o.Inside s.buf.length) →
    ∃ s' rs, run junk os s = some (s', rs) ∧ s'.buf.length = s.buf.length
  | [], s, _, _, _, _ => ⟨s, [], rfl, rfl⟩
  | o :: os, s, hg, hw, hl, hi => by
    have key : ∀ s1 r, step junk s o = some (s1, r) → s1.grow = false → s1.wp ≤ s1.buf.length →
        s1.buf.length = s.buf.length → ∃ s' rs, run junk (o :: os) s = some (s', rs) ∧ s'.buf.length = s.buf.length := by
      intro s1 r h1 h2 h3 h4
      obtain ⟨s', rs, h5, h6⟩ := fmemopen_safe_partial junk os s1 h2 h3 (by omega)
        (fun x hx => by rw [h4]; exact hi x (by simp [hx]))
      exact ⟨s', r :: rs, by simp [run, h1, h5], by omega⟩
    have hfl : (flush s).buf.length = s.buf.length := by
      show (if s.wp < s.buf.length then s.buf.set s.wp 0 else s.buf).length = _
      split <;> simp
    cases o with
    | write cs =>
      obtain ⟨s', h1, h2, h3, h4⟩ := write_inside junk cs s hg hw hl
      exact key s' [] (by simp [step, h1]) h2 (by omega) h3
    | flush => exact key (flush s) [] rfl hg (by rw [hfl]; exact hw) hfl
    | read n => exact key _ _ (read_spec n hw (by omega)) hg (by show min _ _ ≤ s.buf.length; omega) rfl
    | seek off =>
      have h := hi (.seek off) (by simp)
      refine key (seek off s) [] rfl hg ?_ hfl
      show (off % 2 ^ 32).toNat ≤ (flush s).buf.length
      rw [hfl]
      have h1 := h.1
      have h2 := h.2
      omega

/-! ## Findings and cases -/

/-- Finding: after `fseek(fp, -1, SEEK_SET)`, which succeeds, a write to a stream on
any buffer is a write outside of it (libsrc/stdio/fmemopen.c:43,65). -/
theorem seek_corrupts (junk : Nat → Nat) (buf : List Nat) (h0 : buf ≠ []) (hb : buf.length < 2 ^ 32 - 1) (c : Nat) :
    run junk [.seek (-1), .write [c]] (fmemopen buf) = none := by
  have hpos : 0 < buf.length := List.length_pos_iff.2 h0
  have hfl : (flush (fmemopen buf)).buf.length = buf.length := by
    show (if 0 < buf.length then buf.set 0 0 else buf).length = _
    split <;> simp
  have hw : write junk [c] (seek (-1) (fmemopen buf)) = none := by
    have h1 : (seek (-1) (fmemopen buf)).wp = 2 ^ 32 - 1 := by
      show ((-1 : Int) % 2 ^ 32).toNat = _
      decide
    have h2 : (seek (-1) (fmemopen buf)).buf.length = buf.length := hfl
    simp only [write, h1, h2]
    have hge : ¬ (2 ^ 32 - 1 + 1) % 2 ^ 32 ≥ buf.length := by
      have : (2 ^ 32 - 1 + 1) % 2 ^ 32 = 0 := by decide
      omega
    simp only [if_neg hge, if_true, h2]
    rw [if_neg (by omega)]
  simp [run, step, hw]

/-- Finding: after seeking behind the end, a read is outside the buffer
(libsrc/stdio/fmemopen.c:27). -/
theorem seek_reads_beyond (junk : Nat → Nat) :
    run junk [.seek 5, .read 4] (fmemopen [1, 2, 3]) = none := by
  have : read 4 (seek 5 (fmemopen [1, 2, 3])) = none := by decide +kernel
  simp [run, step, this]

/-- Finding: `fclose` and `fflush` of a stream that was opened for reading, and only
read, write a zero into the caller's buffer (libsrc/stdio/fmemopen.c:52-58,83). -/
theorem close_changes_input (junk : Nat → Nat) : ∃ buf s rs, run junk [.read 1] (fmemopen buf) = some (s, rs) ∧
    (flush s).buf ≠ buf := by
  have h : read 1 (fmemopen [97, 98, 99]) = some (⟨[97, 98, 99], 1, false, [], none⟩, [97]) := by decide +kernel
  refine ⟨[97, 98, 99], ⟨[97, 98, 99], 1, false, [], none⟩, [[97]], by simp [run, step, h], by decide⟩

/-- Finding: when nothing was written, `*ptr` has no terminator: the pointer is null
(libsrc/stdio/open_memstream.c:14-21,30). -/
theorem empty_memstream (mem : List Bool) : (flush (openMemstream mem)).out = some ([], 0) := rfl

/-- Finding: when there is no memory, bytes are lost in silence, and later ones are
stored in their place (libsrc/stdio/fmemopen.c:43-49). -/
theorem lost_without_memory : ∃ s rs,
    run (fun _ => 170) [.write [1], .write [2]] (openMemstream [false]) = some (s, rs) ∧ s.wp = 1 ∧
      s.buf.head? = some 2 := by
  refine ⟨⟨2 :: List.replicate 15 170, 1, true, [], none⟩, [[], []], by decide +kernel, by decide, by decide⟩

/-- Writes of several sizes with a flush between. -/
example : (∀ o ∈ [Op.write [1, 2], .flush, .write (List.replicate 40 7)], o.Writer) ∧
    written [Op.write [1, 2], .flush, .write (List.replicate 40 7)] ≠ [] ∧
    ((run (fun _ => 170) [Op.write [1, 2], .flush, .write (List.replicate 40 7)] (openMemstream [true])).map
      (fun x => ((flush x.1).out.map (·.2), x.1.buf.length))) = some (some 42, 64) := by
  refine ⟨?_, by simp [written, Op.bytes], by decide +kernel⟩
  intro o ho
  simp only [List.mem_cons, List.not_mem_nil, or_false] at ho
  rcases ho with rfl | rfl | rfl <;> trivial

/-- Five bytes for a buffer of four. -/
example : ((run (fun _ => 170) [.write [1, 2], .write [3, 4, 5]] (fmemopen [9, 9, 9, 9])).map
    (fun x => (flush x.1).buf)) = some [1, 2, 3, 0] := by decide +kernel

/-- Seeking back and reading. -/
example : (∀ o ∈ [Op.write [1], .seek 0, .read 9], o.Inside 3) ∧
    (run (fun _ => 170) [Op.write [1], .seek 0, .read 9] (fmemopen [7, 8, 9])).map (·.2) =
      some [[], [], [1, 0, 9]] := by
  refine ⟨?_, by decide +kernel⟩
  intro o ho
  simp only [List.mem_cons, List.not_mem_nil, or_false] at ho
  rcases ho with rfl | rfl | rfl <;> simp [Op.Inside]

end Verif.MemStream

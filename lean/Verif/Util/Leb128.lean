import Verif.Util.Wrap
/-!
# `DataStorage` byte buffers and LEB128 (src/util/util.c:429-555)

Bytes are `Nat`s below 256.  A `DataStorage` is the list `buf[0..len)` together
with the chunk stack; capacity handling (`data_reserve`) only affects where the
bytes live and is not modelled.  `val & 0x7f` on a negative `int64_t` is
`val % 128` (Euclidean) and `val >>= 7` the floor division, which is what two's
complement `&` and arithmetic shift compute.
-/
namespace Verif.Util

/-! ## Model -/

structure Data where
  buf : List Nat := []
  chunks : List Nat := []
  deriving Repr, DecidableEq

/-- src/util/util.c:460-469 `data_insert`; `pos = none` is `pos_ == -1`.
The `assert(pos <= len)` is a failure outcome. -/
def Data.insert (d : Data) (pos : Option Nat) (bytes : List Nat) : Option Data :=
  let p := pos.getD d.buf.length
  if p ≤ d.buf.length then
    some { d with buf := d.buf.take p ++ bytes ++ d.buf.drop p }
  else none

/-- src/util/util.c:471-473 `data_append`. -/
def Data.append (d : Data) (bytes : List Nat) : Option Data := d.insert none bytes

/-- src/util/util.c:498-510 `data_leb128`: the bytes put into `buf[12]`. -/
def lebBytes (val : Int) : List Nat :=
  if val < 64 ∧ val ≥ -64 then [(val % 128).toNat]
  else ((val % 128).toNat ||| 0x80) :: lebBytes (val / 128)
termination_by val.natAbs
decreasing_by omega

/-- src/util/util.c:512-524 `data_uleb128`: the bytes put into `buf[12]`. -/
def ulebBytes (val : Nat) : List Nat :=
  if val < 128 then [val &&& 0x7f]
  else ((val &&& 0x7f) ||| 0x80) :: ulebBytes (val >>> 7)
termination_by val
decreasing_by simp only [Nat.shiftRight_eq_div_pow]; omega

/-- src/util/util.c:531-539 `data_varuint32`: `n` continuation bytes (4 in the
code) followed by a final byte. -/
def varuintBytes : Nat → Nat → List Nat
  | 0, val => [val &&& 0x7f]
  | n + 1, val => ((val &&& 0x7f) ||| 0x80) :: varuintBytes n (val >>> 7)

def Data.leb128 (d : Data) (pos : Option Nat) (val : Int) : Option Data := d.insert pos (lebBytes val)
def Data.uleb128 (d : Data) (pos : Option Nat) (val : Nat) : Option Data := d.insert pos (ulebBytes val)
def Data.varuint32 (d : Data) (pos : Option Nat) (val : Nat) : Option Data := d.insert pos (varuintBytes 4 val)

/-- src/util/util.c:526-529 `data_string`. -/
def Data.string (d : Data) (s : List Nat) : Option Data := do
  let d ← d.uleb128 none s.length
  d.append s

/-- src/util/util.c:541-546 `data_open_chunk`. -/
def Data.openChunk (d : Data) : Data := { d with chunks := d.buf.length :: d.chunks }

/-- src/util/util.c:548-555 `data_close_chunk`; `num = none` is `-1`. -/
def Data.closeChunk (d : Data) (num : Option Nat) : Option Data :=
  match d.chunks with
  | [] => none
  | pos :: rest =>
    let n := num.getD (d.buf.length - pos)
    ({ d with chunks := rest } : Data).uleb128 (some pos) n

/-! ## Specification: the LEB128 decoding rule (DWARF 5, appendix C; WebAssembly 5.2.2) -/

/-- Unsigned: little-endian groups of seven bits, high bit = continuation. -/
def decodeU : List Nat → Option (Nat × List Nat)
  | [] => none
  | b :: rest =>
    if b < 128 then some (b, rest)
    else (decodeU rest).map fun (v, r) => (b % 128 + 128 * v, r)

/-- Signed: as unsigned, the last group is sign extended from bit 6. -/
def decodeS : List Nat → Option (Int × List Nat)
  | [] => none
  | b :: rest =>
    if b < 128 then some (if b < 64 then (b : Int) else (b : Int) - 128, rest)
    else (decodeS rest).map fun (v, r) => ((b % 128 : Nat) + 128 * v, r)

/-! ## Lemmas -/

theorem and7f (v : Nat) : v &&& 0x7f = v % 128 := by
  have := Nat.and_two_pow_sub_one_eq_mod v 7
  simpa using this

theorem or80 (v : Nat) (h : v < 128) : v ||| 0x80 = v + 128 := by
  have := Nat.two_pow_add_eq_or_of_lt (i := 7) (b := v) (by simpa using h) 1
  simp at this
  rw [Nat.or_comm]; omega

theorem uleb_cont (v : Nat) : (v &&& 0x7f) ||| 0x80 = v % 128 + 128 := by
  rw [and7f, or80 _ (by omega)]

theorem shr7 (v : Nat) : v >>> 7 = v / 128 := by simp [Nat.shiftRight_eq_div_pow]

/-! ## Theorems -/

/-- **C16.** Unsigned LEB128 round trip: for every value and whatever follows it. -/
theorem decodeU_ulebBytes (v : Nat) (rest : List Nat) :
    decodeU (ulebBytes v ++ rest) = some (v, rest) := by
  induction v using Nat.strongRecOn with
  | ind v ih =>
    unfold ulebBytes
    split
    · rename_i h
      rw [and7f]
      simp only [List.cons_append, List.nil_append, decodeU]
      rw [if_pos (by omega)]
      congr 2; omega
    · rename_i h
      rw [uleb_cont, shr7]
      simp only [List.cons_append, decodeU]
      rw [if_neg (by omega), ih (v / 128) (by omega)]
      simp only [Option.map_some]
      congr 2; omega

/-- **C16.** Signed LEB128 round trip. -/
theorem decodeS_lebBytes (v : Int) (rest : List Nat) :
    decodeS (lebBytes v ++ rest) = some (v, rest) := by
  induction hn : v.natAbs using Nat.strongRecOn generalizing v with
  | ind n ih =>
    unfold lebBytes
    split
    · rename_i h
      simp only [List.cons_append, List.nil_append, decodeS]
      rw [if_pos (by omega)]
      congr 2
      split <;> omega
    · rename_i h
      rw [or80 _ (by omega)]
      simp only [List.cons_append, decodeS]
      rw [if_neg (by omega), ih (v / 128).natAbs (by omega) (v / 128) rfl]
      simp only [Option.map_some]
      congr 2
      omega

/-- **C16.** Padded encoding with `n` continuation bytes round trips whenever the
value fits in `7(n+1)` bits. -/
theorem decodeU_varuintBytes (n v : Nat) (rest : List Nat) (h : v < 2 ^ (7 * (n + 1))) :
    decodeU (varuintBytes n v ++ rest) = some (v, rest) := by
  induction n generalizing v with
  | zero =>
    simp only [varuintBytes, List.cons_append, List.nil_append, decodeU, and7f]
    rw [if_pos (by omega)]
    congr 2; omega
  | succ n ih =>
    simp only [varuintBytes, List.cons_append, decodeU, uleb_cont, shr7]
    have : v / 128 < 2 ^ (7 * (n + 1)) := by
      rw [Nat.div_lt_iff_lt_mul (by omega)]
      have : 2 ^ (7 * (n + 1)) * 128 = 2 ^ (7 * (n + 1 + 1)) := by
        rw [show 7 * (n + 1 + 1) = 7 * (n + 1) + 7 by omega, Nat.pow_add]
      omega
    rw [if_neg (by omega), ih _ this]
    simp only [Option.map_some]
    congr 2; omega

/-- **C16.** The relocatable 5-byte form of a 32-bit value. -/
theorem decodeU_varuint32 (v : Nat) (h : v < 2 ^ 32) (rest : List Nat) :
    (varuintBytes 4 v).length = 5 ∧ decodeU (varuintBytes 4 v ++ rest) = some (v, rest) :=
  ⟨rfl, decodeU_varuintBytes 4 v rest (by simp; omega)⟩

theorem ulebBytes_length (k v : Nat) (h : v < 2 ^ (7 * (k + 1))) : (ulebBytes v).length ≤ k + 1 := by
  induction k generalizing v with
  | zero => unfold ulebBytes; simp at h; simp [h]
  | succ k ih =>
    unfold ulebBytes
    split
    · simp
    · simp only [List.length_cons, shr7]
      have : v / 128 < 2 ^ (7 * (k + 1)) := by
        rw [Nat.div_lt_iff_lt_mul (by omega)]
        have : 2 ^ (7 * (k + 1)) * 128 = 2 ^ (7 * (k + 1 + 1)) := by
          rw [show 7 * (k + 1 + 1) = 7 * (k + 1) + 7 by omega, Nat.pow_add]
        omega
      have := ih _ this
      omega

theorem lebBytes_length (k : Nat) (v : Int) (h : -2 ^ (7 * k + 6) ≤ v) (h' : v < 2 ^ (7 * k + 6)) :
    (lebBytes v).length ≤ k + 1 := by
  induction k generalizing v with
  | zero => unfold lebBytes; simp at h h'; rw [if_pos (by omega)]; simp
  | succ k ih =>
    unfold lebBytes
    split
    · simp
    · simp only [List.length_cons]
      have e : (2 ^ (7 * (k + 1) + 6) : Int) = 2 ^ (7 * k + 6) * 128 := by
        rw [show 7 * (k + 1) + 6 = (7 * k + 6) + 7 by omega, Int.pow_add]; rfl
      rw [e] at h h'
      have := ih (v / 128) (by omega) (by omega)
      omega

/-- **C16.** The 12-byte local buffers of `data_uleb128`/`data_leb128` never overflow. -/
theorem uleb_buffer_ok (v : Nat) (h : v < 2 ^ 64) : (ulebBytes v).length ≤ 12 := by
  have := ulebBytes_length 9 v (by simp; omega); omega
theorem leb_buffer_ok (v : Int) (h : IsI64 v) : (lebBytes v).length ≤ 12 := by
  have := lebBytes_length 9 v (by simp [IsI64] at *; omega) (by simp [IsI64] at *; omega); omega

/-- Every emitted byte is a byte. -/
theorem ulebBytes_byte (v : Nat) : ∀ b ∈ ulebBytes v, b < 256 := by
  induction v using Nat.strongRecOn with
  | ind v ih =>
    unfold ulebBytes
    split
    · simp [and7f]; omega
    · rw [uleb_cont, shr7]
      intro b hb
      rcases List.mem_cons.1 hb with h | h
      · omega
      · exact ih _ (by omega) b h

/-- **C16.** Length-prefixed strings (`data_string`) can be parsed back. -/
theorem data_string_roundtrip (d d' : Data) (s : List Nat) (h : d.string s = some d') :
    ∃ body, d'.buf = d.buf ++ body ∧ decodeU body = some (s.length, s) := by
  simp only [Data.string, Data.append, Data.uleb128, Data.insert, Option.getD_none, Nat.le_refl,
    if_true, Option.bind_eq_bind, Option.bind_some, Option.some.injEq] at h
  subst h
  refine ⟨ulebBytes s.length ++ s, ?_, decodeU_ulebBytes _ _⟩
  simp only [List.take_length, List.drop_length, List.append_nil, List.append_assoc]

/-! ### Nested chunks

A section is written by opening a chunk, writing its contents (possibly nested
chunks) and closing it, which *inserts* the length (or an element count) in front.
-/

/-- What the caller writes. -/
inductive Tree where
  | bytes (b : List Nat)
  /-- open_chunk; contents; close_chunk(-1) -/
  | sized (ts : List Tree)
  /-- open_chunk; contents; close_chunk(n) -/
  | counted (n : Nat) (ts : List Tree)

mutual
/-- The bytes a reader expects: contents prefixed by their size (or count). -/
def Tree.enc : Tree → List Nat
  | .bytes b => b
  | .sized ts => ulebBytes (encAll ts).length ++ encAll ts
  | .counted n ts => ulebBytes n ++ encAll ts
def encAll : List Tree → List Nat
  | [] => []
  | t :: ts => t.enc ++ encAll ts
end

mutual
/-- The sequence of calls. -/
def Tree.write : Tree → Data → Option Data
  | .bytes b, d => d.append b
  | .sized ts, d => do
    let d ← writeAll ts d.openChunk
    d.closeChunk none
  | .counted n ts, d => do
    let d ← writeAll ts d.openChunk
    d.closeChunk (some n)
def writeAll : List Tree → Data → Option Data
  | [], d => some d
  | t :: ts, d => do
    let d ← t.write d
    writeAll ts d
end

mutual
theorem Tree.write_eq : ∀ (t : Tree) (d : Data), t.write d = some { d with buf := d.buf ++ t.enc }
  | .bytes b, d => by
    simp [Tree.write, Tree.enc, Data.append, Data.insert]
  | .sized ts, d => by
    simp [Tree.write, Tree.enc, writeAll_eq ts, Data.openChunk, Data.closeChunk, Data.uleb128, Data.insert]
  | .counted n ts, d => by
    simp [Tree.write, Tree.enc, writeAll_eq ts, Data.openChunk, Data.closeChunk, Data.uleb128, Data.insert]
theorem writeAll_eq : ∀ (ts : List Tree) (d : Data),
    writeAll ts d = some { d with buf := d.buf ++ encAll ts }
  | [], d => by simp [writeAll, encAll]
  | t :: ts, d => by
    simp [writeAll, encAll, t.write_eq d, writeAll_eq ts]
end

/-- **C16.** However deeply chunks are nested, writing never fails, appends after
the existing contents, leaves the chunk stack balanced, and each chunk comes out
prefixed by exactly its (final) size or the given count. -/
theorem chunks_correct (t : Tree) (d : Data) :
    t.write d = some { buf := d.buf ++ t.enc, chunks := d.chunks } := t.write_eq d

/-- A reader of a sized chunk gets the size and finds exactly that many bytes of contents. -/
theorem sized_chunk_readable (ts : List Tree) (rest : List Nat) :
    decodeU ((Tree.sized ts).enc ++ rest) = some ((encAll ts).length, encAll ts ++ rest) := by
  simp only [Tree.enc, List.append_assoc]
  exact decodeU_ulebBytes _ _

example : ((Tree.sized [.bytes [1, 2], .counted 3 [.bytes [9]], .sized []]).write {}).map (·.buf) =
    some [5, 1, 2, 3, 9, 0] := by
  rw [chunks_correct]; simp [Tree.enc, encAll, ulebBytes]
example : lebBytes (-129) = [0xff, 0x7e] := by
  unfold lebBytes; simp; unfold lebBytes; simp
example : IsI64 (-2 ^ 63) := by simp [IsI64]

end Verif.Util

/-!
# Copying and clearing aggregates (C43)

`src/cc/backend/codegen.c:191-270`: `get_elem_vtype`, `gen_memcpy`, `gen_clear`.  The generated loops are modelled by
their effect on memory (byte addressed); pointers are not assumed to wrap around the address space.
-/
namespace Verif.CopyLoop

abbrev Mem := Nat → UInt8

/-- `IS_POWER_OF_2`, util.h: `((x) & (x - 1)) == 0` (for `x > 0`). -/
def isPow2 (x : Nat) : Bool := (x &&& (x - 1)) == 0

/-- codegen.c:200-203: 8, 4, 2 or 1, the largest that divides the size. -/
def largestDivisor (size : Nat) : Nat :=
  if 8 ≤ size ∧ size % 8 = 0 then 8
  else if 4 ≤ size ∧ size % 4 = 0 then 4
  else if 2 ≤ size ∧ size % 2 = 0 then 2
  else 1

/-- codegen.c:191-207 `get_elem_vtype`, before taking the logarithm: the element size. -/
def elemSize (size align : Nat) : Nat :=
  let s := min align size
  if !isPow2 s || s > 8 then largestDivisor size else s

/-- `most_significant_bit`, for the sizes that occur. -/
def log2 (s : Nat) : Nat := Nat.log2 s

/-- A store of `n` bytes read from `src` (the load happens before the store). -/
def move (m : Mem) (dst src n : Nat) : Mem := fun a => if dst ≤ a ∧ a < dst + n then m (src + (a - dst)) else m a

/-- A store of a zero of `n` bytes. -/
def zero (m : Mem) (dst n : Nat) : Mem := fun a => if dst ≤ a ∧ a < dst + n then 0 else m a

/-- codegen.c:230-242: the loop; it tests `vcount != 0` at its end with a 64-bit counter.  `none`: not finished. -/
def copyLoop (e : Nat) : Nat → Mem → Nat → Nat → Nat → Option Mem
  | 0, _, _, _, _ => none
  | fuel + 1, m, dstp, srcp, vcount =>
    let m := move m dstp srcp e
    let vcount := (vcount + (2 ^ 64 - 1)) % 2 ^ 64
    if vcount ≠ 0 then copyLoop e fuel m (dstp + e) (srcp + e) vcount else some m

/-- codegen.c:209-244 `gen_memcpy`. -/
def memcpy (size align : Nat) (fuel : Nat) (m : Mem) (dst src : Nat) : Option Mem :=
  if size = 0 then some m
  else
    let v := log2 (elemSize size align)
    let count := size >>> v
    if count = 1 then some (move m dst src (1 <<< v)) else copyLoop (1 <<< v) fuel m dst src count

/-- codegen.c:262-269. -/
def clearLoop (e : Nat) : Nat → Mem → Nat → Nat → Option Mem
  | 0, _, _, _ => none
  | fuel + 1, m, dstp, vcount =>
    let m := zero m dstp e
    let vcount := (vcount + (2 ^ 64 - 1)) % 2 ^ 64
    if vcount ≠ 0 then clearLoop e fuel m (dstp + e) vcount else some m

/-- codegen.c:246-271 `gen_clear`. -/
def clear (size align : Nat) (fuel : Nat) (m : Mem) (dst : Nat) : Option Mem :=
  if size = 0 then some m
  else
    let v := log2 (elemSize size align)
    let count := size >>> v
    if count = 1 then some (zero m dst (1 <<< v)) else clearLoop (1 <<< v) fuel m dst count

/-! ## Specification -/

/-- Sizes and alignments of types: the alignment is a power of two and divides the size (type.c:180-182). -/
def WFType (size align : Nat) : Prop := (∃ k, align = 2 ^ k) ∧ align ∣ size ∧ size < 2 ^ 64

/-- Exactly the bytes `[dst, dst+size)` change; they become what `[src, src+size)` was before. -/
def Copied (m m' : Mem) (dst src size : Nat) : Prop :=
  ∀ a, m' a = if dst ≤ a ∧ a < dst + size then m (src + (a - dst)) else m a

def Cleared (m m' : Mem) (dst size : Nat) : Prop :=
  ∀ a, m' a = if dst ≤ a ∧ a < dst + size then 0 else m a

/-! ## Element size -/

theorem largestDivisor_spec (size : Nat) : ∃ k, k ≤ 3 ∧ largestDivisor size = 2 ^ k ∧ 2 ^ k ∣ size := by
  unfold largestDivisor
  split
  · exact ⟨3, by omega, rfl, Nat.dvd_of_mod_eq_zero (by omega)⟩
  · split
    · exact ⟨2, by omega, rfl, Nat.dvd_of_mod_eq_zero (by omega)⟩
    · split
      · exact ⟨1, by omega, rfl, Nat.dvd_of_mod_eq_zero (by omega)⟩
      · exact ⟨0, by omega, rfl, Nat.one_dvd _⟩

/-- The element size is 1, 2, 4 or 8 and divides the size. -/
theorem elemSize_spec (size align : Nat) (h : WFType size align) (h0 : size ≠ 0) :
    ∃ k, k ≤ 3 ∧ elemSize size align = 2 ^ k ∧ 2 ^ k ∣ size := by
  obtain ⟨⟨k, rfl⟩, hd, _⟩ := h
  unfold elemSize
  dsimp only
  rw [Nat.min_eq_left (Nat.le_of_dvd (by omega) hd)]
  split
  · exact largestDivisor_spec size
  · rename_i hc
    refine ⟨k, ?_, rfl, hd⟩
    rw [Bool.or_eq_true, not_or] at hc
    have h8 : 2 ^ k ≤ 2 ^ 3 := by simpa using hc.2
    exact (Nat.pow_le_pow_iff_right (by omega)).1 h8

/-! ## Loops -/

theorem dec64 (n : Nat) (h : n + 1 < 2 ^ 64) : (n + 1 + (2 ^ 64 - 1)) % 2 ^ 64 = n := by omega

theorem copyLoop_spec (e : Nat) (m0 : Mem) (dst src total : Nat) (hov : dst ≤ src ∨ src + total ≤ dst) (n : Nat) :
    ∀ (fuel : Nat) (m : Mem) (done : Nat), n < fuel → n + 1 < 2 ^ 64 → done + (n + 1) * e = total →
      Copied m0 m dst src done →
      ∃ m', copyLoop e fuel m (dst + done) (src + done) (n + 1) = some m' ∧ Copied m0 m' dst src total := by
  induction n with
  | zero =>
    intro fuel m done hf hn ht hc
    obtain ⟨fuel, rfl⟩ : ∃ g, fuel = g + 1 := ⟨fuel - 1, by omega⟩
    refine ⟨move m (dst + done) (src + done) e, ?_, ?_⟩
    · rw [copyLoop]
      simp
    · intro a
      show (if _ then _ else _) = _
      by_cases h : dst + done ≤ a ∧ a < dst + done + e
      · rw [if_pos h, if_pos (by omega), hc, if_neg (by omega)]
        congr 1
        omega
      · rw [if_neg h, hc a]
        by_cases h2 : dst ≤ a ∧ a < dst + done
        · rw [if_pos h2, if_pos (by omega)]
        · rw [if_neg h2, if_neg (by omega)]
  | succ n ih =>
    intro fuel m done hf hn ht hc
    obtain ⟨fuel, rfl⟩ : ∃ g, fuel = g + 1 := ⟨fuel - 1, by omega⟩
    rw [Nat.succ_mul] at ht
    have hlt : done + e ≤ total := by
      have := Nat.zero_le ((n + 1) * e)
      omega
    have hc' : Copied m0 (move m (dst + done) (src + done) e) dst src (done + e) := by
      intro a
      show (if _ then _ else _) = _
      by_cases h : dst + done ≤ a ∧ a < dst + done + e
      · rw [if_pos h, if_pos (by omega), hc, if_neg (by omega)]
        congr 1
        omega
      · rw [if_neg h, hc a]
        by_cases h2 : dst ≤ a ∧ a < dst + done
        · rw [if_pos h2, if_pos (by omega)]
        · rw [if_neg h2, if_neg (by omega)]
    obtain ⟨m', h1, h2⟩ := ih fuel _ (done + e) (by omega) (by omega) (by omega) hc'
    refine ⟨m', ?_, h2⟩
    rw [copyLoop]
    rw [dec64 (n + 1) (by omega), if_pos (by omega)]
    rw [← Nat.add_assoc, ← Nat.add_assoc] at h1
    exact h1

theorem clearLoop_spec (e : Nat) (m0 : Mem) (dst total : Nat) (n : Nat) :
    ∀ (fuel : Nat) (m : Mem) (done : Nat), n < fuel → n + 1 < 2 ^ 64 → done + (n + 1) * e = total →
      Cleared m0 m dst done →
      ∃ m', clearLoop e fuel m (dst + done) (n + 1) = some m' ∧ Cleared m0 m' dst total := by
  induction n with
  | zero =>
    intro fuel m done hf hn ht hc
    obtain ⟨fuel, rfl⟩ : ∃ g, fuel = g + 1 := ⟨fuel - 1, by omega⟩
    refine ⟨zero m (dst + done) e, ?_, ?_⟩
    · rw [clearLoop]
      simp
    · intro a
      show (if _ then _ else _) = _
      by_cases h : dst + done ≤ a ∧ a < dst + done + e
      · rw [if_pos h, if_pos (by omega)]
      · rw [if_neg h, hc a]
        by_cases h2 : dst ≤ a ∧ a < dst + done
        · rw [if_pos h2, if_pos (by omega)]
        · rw [if_neg h2, if_neg (by omega)]
  | succ n ih =>
    intro fuel m done hf hn ht hc
    obtain ⟨fuel, rfl⟩ : ∃ g, fuel = g + 1 := ⟨fuel - 1, by omega⟩
    rw [Nat.succ_mul] at ht
    have hc' : Cleared m0 (zero m (dst + done) e) dst (done + e) := by
      intro a
      show (if _ then _ else _) = _
      by_cases h : dst + done ≤ a ∧ a < dst + done + e
      · rw [if_pos h, if_pos (by omega)]
      · rw [if_neg h, hc a]
        by_cases h2 : dst ≤ a ∧ a < dst + done
        · rw [if_pos h2, if_pos (by omega)]
        · rw [if_neg h2, if_neg (by omega)]
    obtain ⟨m', h1, h2⟩ := ih fuel _ (done + e) (by omega) (by omega) (by omega) hc'
    refine ⟨m', ?_, h2⟩
    rw [clearLoop]
    rw [dec64 (n + 1) (by omega), if_pos (by omega)]
    rw [← Nat.add_assoc] at h1
    exact h1

theorem count_spec (size align : Nat) (h : WFType size align) (h0 : size ≠ 0) :
    ∃ n e, 1 <<< log2 (elemSize size align) = e ∧ size >>> log2 (elemSize size align) = n + 1 ∧ (n + 1) * e = size ∧
      n + 1 < 2 ^ 64 := by
  obtain ⟨k, hk, e1, q, hq⟩ := elemSize_spec size align h h0
  have e2 : log2 (elemSize size align) = k := by rw [e1]; exact Nat.log2_two_pow
  have hp : 0 < 2 ^ k := Nat.two_pow_pos k
  have hq0 : q ≠ 0 := by intro hz; rw [hz, Nat.mul_zero] at hq; exact h0 hq
  refine ⟨q - 1, 2 ^ k, ?_, ?_, ?_, ?_⟩
  · rw [e2, Nat.shiftLeft_eq, Nat.one_mul]
  · rw [e2, Nat.shiftRight_eq_div_pow, hq, Nat.mul_div_cancel_left _ hp]; omega
  · rw [show q - 1 + 1 = q by omega, Nat.mul_comm, ← hq]
  · have h1 := h.2.2
    have : q ≤ size := by rw [hq]; exact Nat.le_mul_of_pos_left q hp
    omega

/-- **C43.** Copying an aggregate of any size and alignment terminates and changes exactly its bytes, also when source
and destination are the same object. -/
theorem memcpy_correct (size align : Nat) (h : WFType size align) (m : Mem) (dst src : Nat)
    (hov : dst ≤ src ∨ src + size ≤ dst) :
    ∃ N, ∀ fuel, N ≤ fuel → ∃ m', memcpy size align fuel m dst src = some m' ∧ Copied m m' dst src size := by
  by_cases h0 : size = 0
  · refine ⟨0, fun fuel _ => ⟨m, by rw [memcpy, if_pos h0], fun a => ?_⟩⟩
    rw [if_neg (by omega)]
  · obtain ⟨n, e, h1, h2, h3, h4⟩ := count_spec size align h h0
    refine ⟨n + 1, fun fuel hf => ?_⟩
    rw [memcpy, if_neg h0]
    dsimp only
    rw [h1, h2]
    by_cases hn : n + 1 = 1
    · rw [if_pos hn]
      refine ⟨_, rfl, fun a => ?_⟩
      rw [show size = e by rw [← h3, hn, Nat.one_mul]]
      rfl
    · rw [if_neg hn]
      exact copyLoop_spec e m dst src size hov n fuel m 0 (by omega) h4 (by omega) (fun a => by rw [if_neg (by omega)])

/-- **C43.** Clearing an aggregate terminates and zeroes exactly its bytes. -/
theorem clear_correct (size align : Nat) (h : WFType size align) (m : Mem) (dst : Nat) :
    ∃ N, ∀ fuel, N ≤ fuel → ∃ m', clear size align fuel m dst = some m' ∧ Cleared m m' dst size := by
  by_cases h0 : size = 0
  · refine ⟨0, fun fuel _ => ⟨m, by rw [clear, if_pos h0], fun a => ?_⟩⟩
    rw [if_neg (by omega)]
  · obtain ⟨n, e, h1, h2, h3, h4⟩ := count_spec size align h h0
    refine ⟨n + 1, fun fuel hf => ?_⟩
    rw [clear, if_neg h0]
    dsimp only
    rw [h1, h2]
    by_cases hn : n + 1 = 1
    · rw [if_pos hn]
      refine ⟨_, rfl, fun a => ?_⟩
      rw [show size = e by rw [← h3, hn, Nat.one_mul]]
      rfl
    · rw [if_neg hn]
      exact clearLoop_spec e m dst size n fuel m 0 (by omega) h4 (by omega) (fun a => by rw [if_neg (by omega)])

example : WFType 12 4 ∧ elemSize 12 4 = 4 ∧ ((memcpy 12 4 9 (fun a => UInt8.ofNat a) 100 50).map fun m => (m 100, m 111, m 112))
    = some (50, 61, 112) := by
  refine ⟨⟨⟨2, rfl⟩, ⟨3, rfl⟩, by decide⟩, by decide, by decide⟩

/-- The requirement that the alignment divides the size matters: 12 bytes with alignment 8 would lose 4 bytes. -/
theorem misaligned_size_wrong :
    ((memcpy 12 8 9 (fun a => UInt8.ofNat a) 100 50).map fun m => m 111) = some 111 := by decide

end Verif.CopyLoop

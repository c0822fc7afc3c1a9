/-!
# The rand48 family (C11)

`libsrc/stdlib/nrand48.c` and `libsrc/stdlib/lrand48.c`.  The state is an array of three `unsigned short`.
-/
namespace Verif.Rand48

/-- `unsigned short xsubi[3]` (libsrc/stdlib/nrand48.c:6, lrand48.c:4). -/
structure Xsubi where
  x0 : BitVec 16
  x1 : BitVec 16
  x2 : BitVec 16
deriving DecidableEq

/-- `nrand48`, libsrc/stdlib/nrand48.c:6-15, on 64-bit machine words.  Returns the new array and the result. -/
def nrand48 (s : Xsubi) : Xsubi × BitVec 64 :=
  let x : BitVec 64 := s.x0.setWidth 64 ||| (s.x1.setWidth 64 <<< 16) ||| (s.x2.setWidth 64 <<< 32)
  let x := x * 0x5deece66d#64 + 0x0b#64
  (⟨x.setWidth 16, (x >>> 16).setWidth 16, (x >>> 32).setWidth 16⟩,
   (x >>> (48 - 31)) &&& ((1#64 <<< 31) - 1#64))

/-- The static generator state of libsrc/stdlib/lrand48.c:4. -/
def initial : Xsubi := ⟨0xdeec, 0x1053, 0x1db2⟩

/-- `lrand48`, libsrc/stdlib/lrand48.c:7-10 (the static array is passed in and out). -/
def lrand48 (s : Xsubi) : Xsubi × BitVec 64 := nrand48 s

/-- `srand48`, libsrc/stdlib/lrand48.c:12-16: `long` to `unsigned short` conversions; `>>` on `long` is
arithmetic. -/
def srand48 (seedval : BitVec 64) : Xsubi :=
  ⟨0x330e, seedval.setWidth 16, (seedval.sshiftRight 16).setWidth 16⟩

/-- A program calling `lrand48` `n` times: final state and the results in order. -/
def run : Nat → Xsubi → Xsubi × List (BitVec 64)
  | 0, s => (s, [])
  | n + 1, s => let r := lrand48 s; let t := run n r.1; (t.1, r.2 :: t.2)

/-! ## Specification: the linear congruential generator of POSIX, on natural numbers. -/

/-- One step of the sequence, `X_{n+1} = (a X_n + c) mod 2^48`. -/
def lcg (x : Nat) : Nat := (0x5DEECE66D * x + 0xB) % 2 ^ 48

/-- The `n`-th element after `x`. -/
def lcgN : Nat → Nat → Nat
  | 0, x => x
  | n + 1, x => lcgN n (lcg x)

/-- The number a state stands for. -/
def Xsubi.val (s : Xsubi) : Nat := s.x0.toNat + s.x1.toNat * 2 ^ 16 + s.x2.toNat * 2 ^ 32

theorem val_lt (s : Xsubi) : s.val < 2 ^ 48 := by
  have := s.x0.isLt; have := s.x1.isLt; have := s.x2.isLt
  unfold Xsubi.val; omega

theorem or_add (a b k : Nat) (h : a < 2 ^ k) : a ||| (b <<< k) = a + b * 2 ^ k := by
  rw [Nat.or_comm, ← Nat.shiftLeft_add_eq_or_of_lt h, Nat.shiftLeft_eq]; omega

theorem pack_toNat (s : Xsubi) :
    (s.x0.setWidth 64 ||| (s.x1.setWidth 64 <<< 16) ||| (s.x2.setWidth 64 <<< 32) : BitVec 64).toNat = s.val := by
  have h0 := s.x0.isLt; have h1 := s.x1.isLt; have h2 := s.x2.isLt
  simp only [BitVec.toNat_or, BitVec.toNat_setWidth, BitVec.toNat_shiftLeft]
  rw [Nat.mod_eq_of_lt (a := s.x0.toNat) (by omega), Nat.mod_eq_of_lt (a := s.x1.toNat) (by omega),
    Nat.mod_eq_of_lt (a := s.x2.toNat) (by omega)]
  rw [Nat.mod_eq_of_lt (a := s.x1.toNat <<< 16) (by rw [Nat.shiftLeft_eq]; omega),
    Nat.mod_eq_of_lt (a := s.x2.toNat <<< 32) (by rw [Nat.shiftLeft_eq]; omega)]
  rw [or_add _ _ 16 h0, or_add _ _ 32 (by omega)]; rfl

/-- C11.  One call of `nrand48`: the caller's array afterwards stands for the next element of the sequence and
the result is its bits 17..47, i.e. its 31 most significant bits. -/
theorem nrand48_correct (s : Xsubi) :
    (nrand48 s).1.val = lcg s.val ∧ (nrand48 s).2.toNat = lcg s.val / 2 ^ 17 := by
  have hp := pack_toNat s
  have key : ∀ x : BitVec 64, (x * 0x5deece66d#64 + 0x0b#64).toNat % 2 ^ 48 = lcg x.toNat := by
    intro x
    rw [BitVec.toNat_add, BitVec.toNat_mul]
    show (x.toNat * 0x5deece66d % 2 ^ 64 + 0xb) % 2 ^ 64 % 2 ^ 48 = (0x5DEECE66D * x.toNat + 0xB) % 2 ^ 48
    generalize x.toNat = v
    omega
  have hk := key (s.x0.setWidth 64 ||| (s.x1.setWidth 64 <<< 16) ||| (s.x2.setWidth 64 <<< 32))
  rw [hp] at hk
  unfold nrand48
  dsimp only
  rw [← hk]
  generalize (s.x0.setWidth 64 ||| (s.x1.setWidth 64 <<< 16) ||| (s.x2.setWidth 64 <<< 32)) * 0x5deece66d#64
    + 0x0b#64 = y
  have hy := y.isLt
  have hm : ((1#64 <<< 31) - 1#64 : BitVec 64).toNat = 2 ^ 31 - 1 := by decide
  simp only [Xsubi.val, BitVec.toNat_setWidth, BitVec.toNat_ushiftRight, BitVec.toNat_and, hm,
    Nat.and_two_pow_sub_one_eq_mod, Nat.shiftRight_eq_div_pow]
  generalize y.toNat = z at hy
  constructor <;> omega

theorem lcgN_succ (n x : Nat) : lcgN (n + 1) x = lcgN n (lcg x) := by simp only [lcgN]

theorem run_succ (n : Nat) (s : Xsubi) :
    run (n + 1) s = ((run n (nrand48 s).1).1, (nrand48 s).2 :: (run n (nrand48 s).1).2) := by
  simp only [run, lrand48]

theorem lcgN_one (x : Nat) : lcgN (0 + 1) x = lcg x := by rw [lcgN_succ, lcgN]

theorem run_state (n : Nat) (s : Xsubi) : (run n s).1.val = lcgN n s.val := by
  induction n generalizing s with
  | zero => simp only [run, lcgN]
  | succ n ih => rw [run_succ, ih, lcgN_succ, (nrand48_correct s).1]

theorem map_range_succ (n : Nat) (g : Nat → Nat) :
    (List.range (n + 1)).map g = g 0 :: (List.range n).map (fun k => g (k + 1)) := by
  rw [List.range_succ_eq_map, List.map_cons, List.map_map]; rfl

theorem run_results (n : Nat) (s : Xsubi) :
    (run n s).2.map BitVec.toNat = (List.range n).map (fun k => lcgN (k + 1) s.val / 2 ^ 17) := by
  induction n generalizing s with
  | zero => simp only [run, List.map_nil, List.range_zero]
  | succ n ih =>
    rw [run_succ, map_range_succ, List.map_cons, ih, (nrand48_correct s).1, (nrand48_correct s).2, lcgN_one]
    simp only [lcgN_succ _ s.val]

/-- C11.  Every sequence of calls: after `n` calls the state is the `n`-th element, and the results are, in
order, the high parts of elements 1 to `n`. -/
theorem lrand48_sequence (n : Nat) (s : Xsubi) :
    (run n s).1.val = lcgN n s.val ∧
      (run n s).2.map BitVec.toNat = (List.range n).map (fun k => lcgN (k + 1) s.val / 2 ^ 17) :=
  ⟨run_state n s, run_results n s⟩

/-- C11.  Results are in `[0, 2^31)`. -/
theorem nrand48_range (s : Xsubi) : (nrand48 s).2.toNat < 2 ^ 31 := by
  rw [(nrand48_correct s).2]
  have : lcg s.val < 2 ^ 48 := Nat.mod_lt _ (by decide)
  omega

/-- C11.  `srand48` sets the high 32 bits of the state to the low 32 bits of the seed and the low 16 bits to
0x330E, for negative seeds too. -/
theorem srand48_correct (seed : BitVec 64) :
    (srand48 seed).val = (seed.toInt % 2 ^ 32).toNat * 2 ^ 16 + 0x330e := by
  have hs : (seed.sshiftRight 16).setWidth 16 = (seed >>> 16).setWidth 16 := by
    apply BitVec.eq_of_getLsbD_eq
    intro i hi
    rw [BitVec.getLsbD_setWidth, BitVec.getLsbD_setWidth, BitVec.getLsbD_sshiftRight, BitVec.getLsbD_ushiftRight]
    have a : 16 + i < 64 := by omega
    have b : ¬ 64 ≤ i := by omega
    simp [hi, a, b]
  unfold srand48 Xsubi.val
  rw [hs]
  simp only [BitVec.toNat_setWidth, BitVec.toNat_ushiftRight, Nat.shiftRight_eq_div_pow]
  have h1 : (seed.toInt % 2 ^ 32).toNat = seed.toNat % 2 ^ 32 := by
    rw [BitVec.toInt_eq_toNat_cond]
    split <;> omega
  rw [h1]
  have : (0x330e : BitVec 16).toNat = 0x330e := rfl
  rw [this]; omega

/-- Two seeds that agree modulo `2^32` give the same sequence for ever (what a reseeding caller relies on). -/
theorem srand48_reproducible (a b : BitVec 64) (h : a.toInt % 2 ^ 32 = b.toInt % 2 ^ 32) (n : Nat) :
    (run n (srand48 a)).2.map BitVec.toNat = (run n (srand48 b)).2.map BitVec.toNat := by
  have hv : (srand48 a).val = (srand48 b).val := by rw [srand48_correct, srand48_correct, h]
  rw [(lrand48_sequence n _).2, (lrand48_sequence n _).2, hv]

/-- The first two results from the built-in state, as a reachable, non-trivial case. -/
example : (run 2 initial).2.map BitVec.toNat = [lcg initial.val / 2 ^ 17, lcg (lcg initial.val) / 2 ^ 17] := by
  decide
example : (srand48 (BitVec.ofInt 64 (-1))).val = 0xffffffff330e := by decide
example : (-1 : Int) % 2 ^ 32 = (2 ^ 32 - 1) % 2 ^ 32 := by decide

end Verif.Rand48

import Verif.Backend.LinearScan

/-
C34 (part 2): live intervals, registers an interval may not use, and registers which live across a
call.

Model of `check_live_interval`, `set_inout_interval`, `occupy_regs` and
`detect_live_interval_flags` (src/cc/backend/regalloc.c) and of `detect_living_registers`
(src/cc/backend/codegen.c).

The code runs nested loops over the blocks and over the instructions of each block, with one
instruction counter `nip`; where a function looks at instructions only, the model runs over the
concatenation of the blocks.
-/

namespace Verif.Intervals

open Verif.LinearScan

/-- An IR instruction as the register allocator sees it. `dst`, `opr1`, `opr2`: non-constant
virtual registers; `extra`: the general registers returned by `detect_extra_occupied` of the
target; `push`: for IR_PUSHARG the class and number of the argument register it sets (`none` when
`reg_param_mapping` is negative); `call`: IR_CALL. -/
structure Ir where
  dst : Option Nat
  opr1 : Option Nat
  opr2 : Option Nat
  extra : Nat → Bool
  push : Option (Bool × Nat)
  call : Bool

/-- A basic block with the results of `analyze_reg_flow`. -/
structure Block where
  irs : List Ir
  ins : List Nat
  outs : List Nat

/-! ### Live intervals -/

/-- `start` and `end` of every interval. -/
abbrev Ivs := Nat → Int × Int

/-- regalloc.c:166-180, the body of the loop of `set_inout_interval`. -/
def inoutOne (param : Nat → Bool) (nip : Int) (iv : Ivs) (v : Nat) : Ivs :=
  fun w => if w = v then
      ((if param v then (iv v).1 else if (iv v).1 < 0 ∨ (iv v).1 > nip then nip else (iv v).1),
       (if (iv v).2 < nip then nip else (iv v).2))
    else iv w

/-- regalloc.c:166-180 `set_inout_interval`. -/
def setInout (param : Nat → Bool) (vs : List Nat) (nip : Int) (iv : Ivs) : Ivs :=
  vs.foldl (inoutOne param nip) iv

/-- regalloc.c:205-209. -/
def touchOne (param : Nat → Bool) (nip : Int) (iv : Ivs) (v : Nat) : Ivs :=
  fun w => if w = v then
      ((if (iv v).1 < 0 ∧ param v = false then nip else (iv v).1),
       (if (iv v).2 < nip then nip else (iv v).2))
    else iv w

/-- The virtual registers of an instruction (regalloc.c:200-204). -/
def Ir.vregs (ir : Ir) : List Nat := ir.dst.toList ++ ir.opr1.toList ++ ir.opr2.toList

/-- regalloc.c:198-211: the instructions of a block. -/
def touchIrs (param : Nat → Bool) : List Ir → Int → Ivs → Ivs
  | [], _, iv => iv
  | ir :: irs, nip, iv => touchIrs param irs (nip + 1) (ir.vregs.foldl (touchOne param nip) iv)

/-- regalloc.c:193-214: the loop over the blocks. -/
def blocksLoop (param : Nat → Bool) : List Block → Int → Ivs → Ivs
  | [], _, iv => iv
  | b :: bs, nip, iv =>
    let iv1 := setInout param b.ins nip iv
    let iv2 := touchIrs param b.irs nip iv1
    let nip' := nip + b.irs.length
    blocksLoop param bs nip' (setInout param b.outs nip' iv2)

/-- regalloc.c:182-215 `check_live_interval`. -/
def checkLiveInterval (param : Nat → Bool) (bs : List Block) : Ivs :=
  blocksLoop param bs 0 (fun _ => (-1, -1))

/-- `v`'s interval contains `n`, for good. -/
def Covers (param : Nat → Bool) (iv : Ivs) (v : Nat) (n : Int) : Prop :=
  (iv v).1 ≤ n ∧ n ≤ (iv v).2 ∧ (param v = true ∨ 0 ≤ (iv v).1)

/-- Starts are `-1` or instruction numbers seen so far; a parameter keeps `-1`. -/
def StartOk (param : Nat → Bool) (iv : Ivs) (nip : Int) : Prop :=
  ∀ v, -1 ≤ (iv v).1 ∧ (param v = true → (iv v).1 = -1) ∧ (iv v).1 ≤ nip ∧ (iv v).1 ≤ (iv v).2

theorem inoutOne_ok {param : Nat → Bool} {nip : Int} (h0 : 0 ≤ nip) {iv : Ivs} (v : Nat)
    (h : StartOk param iv nip) :
    StartOk param (inoutOne param nip iv v) nip ∧ Covers param (inoutOne param nip iv v) v nip ∧
      ∀ w n, n ≤ nip → Covers param iv w n → Covers param (inoutOne param nip iv v) w n := by
  obtain ⟨h1, h2, h3, h4⟩ := h v
  refine ⟨fun w => ?_, ?_, fun w n hn hc => ?_⟩
  · by_cases hw : w = v
    · subst hw
      simp only [inoutOne, if_true]
      cases hp : param w with
      | true =>
        have := h2 hp
        simp only [if_true]
        refine ⟨h1, fun _ => this, h3, ?_⟩
        split <;> omega
      | false =>
        simp only [Bool.false_eq_true, if_false]
        refine ⟨?_, fun hh => (by cases hh), ?_, ?_⟩ <;> (repeat' split) <;> omega
    · simpa [inoutOne, hw] using h w
  · unfold Covers
    simp only [inoutOne, if_true]
    cases hp : param v with
    | true =>
      have := h2 hp
      simp only [if_true]
      refine ⟨h3, ?_, .inl trivial⟩
      split <;> omega
    | false =>
      simp only [Bool.false_eq_true, if_false, false_or]
      refine ⟨?_, ?_, ?_⟩ <;> (repeat' split) <;> omega
  · by_cases hw : w = v
    · subst hw
      unfold Covers at hc ⊢
      simp only [inoutOne, if_true]
      obtain ⟨c1, c2, c3⟩ := hc
      cases hp : param w with
      | true =>
        simp only [if_true]
        refine ⟨c1, ?_, .inl trivial⟩
        split <;> omega
      | false =>
        rw [hp] at c3
        simp only [Bool.false_eq_true, if_false, false_or] at c3 ⊢
        refine ⟨?_, ?_, ?_⟩ <;> (repeat' split) <;> omega
    · simpa [Covers, inoutOne, hw] using hc

theorem touchOne_ok {param : Nat → Bool} {nip : Int} (h0 : 0 ≤ nip) {iv : Ivs} (v : Nat)
    (h : StartOk param iv nip) :
    StartOk param (touchOne param nip iv v) nip ∧ Covers param (touchOne param nip iv v) v nip ∧
      ∀ w n, n ≤ nip → Covers param iv w n → Covers param (touchOne param nip iv v) w n := by
  obtain ⟨h1, h2, h3, h4⟩ := h v
  refine ⟨fun w => ?_, ?_, fun w n hn hc => ?_⟩
  · by_cases hw : w = v
    · subst hw
      simp only [touchOne, if_true]
      cases hp : param w with
      | true =>
        have := h2 hp
        simp only [Bool.true_eq_false, and_false, if_false]
        refine ⟨h1, fun _ => this, h3, ?_⟩
        split <;> omega
      | false =>
        simp only [and_true]
        refine ⟨?_, fun hh => (by cases hh), ?_, ?_⟩ <;> (repeat' split) <;> omega
    · simpa [touchOne, hw] using h w
  · unfold Covers
    simp only [touchOne, if_true]
    cases hp : param v with
    | true =>
      have := h2 hp
      simp only [Bool.true_eq_false, and_false, if_false]
      refine ⟨h3, ?_, .inl trivial⟩
      split <;> omega
    | false =>
      simp only [and_true, Bool.false_eq_true, false_or]
      refine ⟨?_, ?_, ?_⟩ <;> (repeat' split) <;> omega
  · by_cases hw : w = v
    · subst hw
      unfold Covers at hc ⊢
      simp only [touchOne, if_true]
      obtain ⟨c1, c2, c3⟩ := hc
      cases hp : param w with
      | true =>
        simp only [Bool.true_eq_false, and_false, if_false]
        refine ⟨c1, ?_, .inl trivial⟩
        split <;> omega
      | false =>
        rw [hp] at c3
        simp only [and_true, Bool.false_eq_true, false_or] at c3 ⊢
        refine ⟨?_, ?_, ?_⟩ <;> (repeat' split) <;> omega
    · simpa [Covers, touchOne, hw] using hc

/-- A pass over a list of virtual registers at one instruction number. -/
theorem fold_ok {param : Nat → Bool} {nip : Int} {f : Ivs → Nat → Ivs}
    (hf : ∀ iv v, StartOk param iv nip → StartOk param (f iv v) nip ∧ Covers param (f iv v) v nip ∧
      ∀ w n, n ≤ nip → Covers param iv w n → Covers param (f iv v) w n) (vs : List Nat) :
    ∀ iv, StartOk param iv nip → StartOk param (vs.foldl f iv) nip ∧
      (∀ v ∈ vs, Covers param (vs.foldl f iv) v nip) ∧
      ∀ w n, n ≤ nip → Covers param iv w n → Covers param (vs.foldl f iv) w n := by
  induction vs with
  | nil => intro iv h; exact ⟨h, fun _ h => (List.not_mem_nil h).elim, fun _ _ _ h => h⟩
  | cons v vs ih =>
    intro iv h
    obtain ⟨a1, a2, a3⟩ := hf iv v h
    obtain ⟨b1, b2, b3⟩ := ih (f iv v) a1
    rw [List.foldl_cons]
    refine ⟨b1, fun w hw => ?_, fun w n hn hc => b3 w n hn (a3 w n hn hc)⟩
    rcases List.mem_cons.1 hw with rfl | hw
    · exact b3 w nip (Int.le_refl _) a2
    · exact b2 w hw

theorem startOk_mono {param : Nat → Bool} {iv : Ivs} {a b : Int} (h : StartOk param iv a)
    (hab : a ≤ b) : StartOk param iv b :=
  fun v => ⟨(h v).1, (h v).2.1, Int.le_trans (h v).2.2.1 hab, (h v).2.2.2⟩

theorem touchIrs_ok {param : Nat → Bool} (irs : List Ir) :
    ∀ {nip : Int} (_ : 0 ≤ nip) {iv : Ivs}, StartOk param iv nip →
      StartOk param (touchIrs param irs nip iv) (nip + irs.length) ∧
      (∀ (j : Nat) (ir : Ir), irs[j]? = some ir → ∀ v ∈ ir.vregs,
        Covers param (touchIrs param irs nip iv) v (nip + j)) ∧
      ∀ w n, n ≤ nip → Covers param iv w n → Covers param (touchIrs param irs nip iv) w n := by
  induction irs with
  | nil =>
    intro nip h0 iv h
    exact ⟨by simpa [touchIrs] using h, fun j ir hj => by simp at hj, fun _ _ _ h => h⟩
  | cons i irs ih =>
    intro nip h0 iv h
    obtain ⟨a1, a2, a3⟩ := fold_ok (f := touchOne param nip)
      (fun iv v hh => touchOne_ok h0 v hh) i.vregs iv h
    obtain ⟨b1, b2, b3⟩ := ih (nip := nip + 1) (by omega)
      (startOk_mono a1 (by omega : nip ≤ nip + 1))
    rw [touchIrs]
    refine ⟨?_, ?_, ?_⟩
    · refine startOk_mono b1 ?_
      rw [List.length_cons]; omega
    · intro j ir hj v hv
      cases j with
      | zero =>
        simp only [List.getElem?_cons_zero, Option.some.injEq] at hj
        subst hj
        have := b3 v nip (by omega) (a2 v hv)
        simpa using this
      | succ j =>
        rw [List.getElem?_cons_succ] at hj
        have := b2 j ir hj v hv
        have e : nip + ((j + 1 : Nat) : Int) = nip + 1 + (j : Int) := by omega
        rw [e]; exact this
    · intro w n hn hc
      exact b3 w n (by omega) (a3 w n hn hc)

/-- Number of the first instruction of block `k`. -/
def base (bs : List Block) (k : Nat) : Nat := ((bs.take k).map (fun b => b.irs.length)).sum

theorem blocksLoop_ok {param : Nat → Bool} (bs : List Block) :
    ∀ {nip : Int} (_ : 0 ≤ nip) {iv : Ivs}, StartOk param iv nip →
      (∃ m, StartOk param (blocksLoop param bs nip iv) m) ∧
      (∀ (k : Nat) (b : Block), bs[k]? = some b →
        (∀ v ∈ b.ins, Covers param (blocksLoop param bs nip iv) v (nip + base bs k)) ∧
        (∀ v ∈ b.outs, Covers param (blocksLoop param bs nip iv) v
          (nip + base bs k + b.irs.length)) ∧
        (∀ (j : Nat) (ir : Ir), b.irs[j]? = some ir → ∀ v ∈ ir.vregs,
          Covers param (blocksLoop param bs nip iv) v (nip + base bs k + j))) ∧
      ∀ w n, n ≤ nip → Covers param iv w n → Covers param (blocksLoop param bs nip iv) w n := by
  induction bs with
  | nil =>
    intro nip h0 iv h
    exact ⟨⟨nip, h⟩, fun k b hk => by simp at hk, fun _ _ _ h => h⟩
  | cons b bs ih =>
    intro nip h0 iv h
    obtain ⟨a1, a2, a3⟩ := fold_ok (f := inoutOne param nip)
      (fun iv v hh => inoutOne_ok h0 v hh) b.ins iv h
    obtain ⟨b1, b2, b3⟩ := touchIrs_ok b.irs h0 a1
    have h0' : 0 ≤ nip + (b.irs.length : Int) := by omega
    obtain ⟨c1, c2, c3⟩ := fold_ok (f := inoutOne param (nip + b.irs.length))
      (fun iv v hh => inoutOne_ok h0' v hh) b.outs _ b1
    obtain ⟨d1, d2, d3⟩ := ih h0' c1
    have hunf : blocksLoop param (b :: bs) nip iv = blocksLoop param bs (nip + b.irs.length)
        (b.outs.foldl (inoutOne param (nip + b.irs.length))
          (touchIrs param b.irs nip (b.ins.foldl (inoutOne param nip) iv))) := rfl
    rw [hunf]
    refine ⟨d1, ?_, ?_⟩
    · intro k b' hk
      cases k with
      | zero =>
        simp only [List.getElem?_cons_zero, Option.some.injEq] at hk
        subst hk
        have e : base (b :: bs) 0 = 0 := rfl
        rw [e]
        refine ⟨fun v hv => ?_, fun v hv => ?_, fun j ir hj v hv => ?_⟩
        · have h1 := a2 v hv
          have h2 := b3 v nip (Int.le_refl _) h1
          have h3 := c3 v nip (by omega) h2
          have h4 := d3 v nip (by omega) h3
          simpa using h4
        · have := d3 v _ (Int.le_refl _) (c2 v hv)
          simpa using this
        · have hj' : j < b.irs.length := by
            rw [List.getElem?_eq_some_iff] at hj; exact hj.1
          have h1 := b2 j ir hj v hv
          have h2 := c3 v _ (by omega) h1
          have h3 := d3 v _ (by omega) h2
          simpa using h3
      | succ k =>
        rw [List.getElem?_cons_succ] at hk
        have e : ((base (b :: bs) (k + 1) : Nat) : Int) = b.irs.length + (base bs k : Nat) := by
          simp [base]
        obtain ⟨f1, f2, f3⟩ := d2 k b' hk
        rw [e]
        refine ⟨fun v hv => ?_, fun v hv => ?_, fun j ir hj v hv => ?_⟩
        · have := f1 v hv; rw [Int.add_assoc] at this; exact this
        · have := f2 v hv; rw [Int.add_assoc nip] at this; exact this
        · have := f3 j ir hj v hv; rw [Int.add_assoc nip] at this; exact this
    · intro w n hn hc
      exact d3 w n (by omega) (c3 w n (by omega) (b3 w n hn (a3 w n hn hc)))

/-- The computed intervals contain every point at which the virtual register is mentioned, every
block start at which it is in the in-set, and every block end at which it is in the out-set.
Intervals start at `-1` (a parameter, or nothing) or later, and do not end before they start. -/
theorem intervals_cover (param : Nat → Bool) (bs : List Block) :
    (∀ v, -1 ≤ (checkLiveInterval param bs v).1 ∧
      (param v = true → (checkLiveInterval param bs v).1 = -1) ∧
      (checkLiveInterval param bs v).1 ≤ (checkLiveInterval param bs v).2) ∧
    ∀ (k : Nat) (b : Block), bs[k]? = some b →
      (∀ v ∈ b.ins, (checkLiveInterval param bs v).1 ≤ base bs k ∧
        base bs k ≤ (checkLiveInterval param bs v).2) ∧
      (∀ v ∈ b.outs, (checkLiveInterval param bs v).1 ≤ base bs k + b.irs.length ∧
        base bs k + b.irs.length ≤ (checkLiveInterval param bs v).2) ∧
      (∀ (j : Nat) (ir : Ir), b.irs[j]? = some ir → ∀ v ∈ ir.vregs,
        (checkLiveInterval param bs v).1 ≤ base bs k + j ∧
        base bs k + j ≤ (checkLiveInterval param bs v).2) := by
  have h0 : StartOk param (fun _ => (-1, -1)) 0 := fun v => by simp
  obtain ⟨⟨m, a1⟩, a2, _⟩ := blocksLoop_ok bs (Int.le_refl 0) h0
  refine ⟨fun v => ⟨(a1 v).1, (a1 v).2.1, (a1 v).2.2.2⟩, fun k b hk => ?_⟩
  obtain ⟨b1, b2, b3⟩ := a2 k b hk
  refine ⟨fun v hv => ?_, fun v hv => ?_, fun j ir hj v hv => ?_⟩
  · obtain ⟨c1, c2, _⟩ := b1 v hv
    unfold checkLiveInterval; exact ⟨by omega, by omega⟩
  · obtain ⟨c1, c2, _⟩ := b2 v hv
    unfold checkLiveInterval; exact ⟨by omega, by omega⟩
  · obtain ⟨c1, c2, _⟩ := b3 j ir hj v hv
    unfold checkLiveInterval; exact ⟨by omega, by omega⟩

/-! ### Registers an interval may not use -/

/-- State of the loop at regalloc.c:241-297. `arg flo` is `iargset`/`fargset`. -/
structure FS where
  inact : List LI
  act : List LI
  arg : Bool → Nat → Bool
  occ : Nat → Nat → Bool

/-- regalloc.c:217-225 `occupy_regs`. -/
def occupyRegs (act : List LI) (m : Bool → Nat → Bool) (occ : Nat → Nat → Bool) : Nat → Nat → Bool :=
  fun v r => occ v r || act.any (fun a => decide (a.virt = v) && m a.flo r)

/-- regalloc.c:261-277: argument registers set so far. -/
def pushArg (arg : Bool → Nat → Bool) (ir : Ir) : Bool → Nat → Bool :=
  match ir.push with
  | some (f, n) => fun g r => arg g r || (decide (g = f) && decide (r = n))
  | none => arg

/-- regalloc.c:243-296: one instruction. -/
def flagStep (s : Settings) (nip : Int) (st : FS) (ir : Ir) : FS :=
  let occ1 := occupyRegs st.act (fun f r => !f && ir.extra r) st.occ
  let occ2 := occupyRegs st.act st.arg occ1
  let act1 := st.act.filter (fun a => decide (nip < a.stop))
  let arg1 := pushArg st.arg ir
  let occ3 := if ir.call then occupyRegs act1 (fun f r => decide (r < s.temp f)) occ2 else occ2
  let arg2 := if ir.call then fun _ _ => false else arg1
  { inact := st.inact.dropWhile (fun a => decide (a.start ≤ nip)),
    act := act1 ++ st.inact.takeWhile (fun a => decide (a.start ≤ nip)),
    arg := arg2, occ := occ3 }

/-- regalloc.c:241-297: the loop. -/
def flagLoop (s : Settings) : List Ir → Int → FS → FS
  | [], _, st => st
  | ir :: irs, nip, st => flagLoop s irs (nip + 1) (flagStep s nip st ir)

/-- regalloc.c:229-236: initial state. -/
def flagInit (xs : List LI) : FS :=
  { inact := (xs.filter (fun a => decide (0 ≤ a.stop))).filter (fun a => decide (0 ≤ a.start)),
    act := (xs.filter (fun a => decide (0 ≤ a.stop))).filter (fun a => decide (a.start < 0)),
    arg := fun _ _ => false, occ := fun _ _ => false }

/-- regalloc.c:227-301 `detect_live_interval_flags`: the intervals with `occupied_reg_bit` set. -/
def detectFlags (s : Settings) (code : List Ir) (xs : List LI) : List LI :=
  let occ := (flagLoop s code 0 (flagInit xs)).occ
  xs.map (fun a => { a with occ := occ a.virt })

/-! #### Specification -/

/-- The argument registers which hold outgoing arguments just before instruction `n`. -/
def argsAt (code : List Ir) (n : Nat) : Bool → Nat → Bool :=
  (code.take n).foldl (fun a ir => if ir.call then fun _ _ => false else pushArg a ir)
    (fun _ _ => false)

/-- Register `r` is touched by instruction `n` while `x` is live there. -/
def Touched (s : Settings) (code : List Ir) (x : LI) (n : Nat) (r : Nat) : Prop :=
  ∃ ir, code[n]? = some ir ∧ x.start < n ∧
    ((((n : Int) ≤ x.stop ∨ (n : Int) = x.start + 1) ∧
        ((x.flo = false ∧ ir.extra r = true) ∨ argsAt code n x.flo r = true)) ∨
     ((n : Int) < x.stop ∧ ir.call = true ∧ r < s.temp x.flo))

theorem argsAt_succ {code : List Ir} {n : Nat} {ir : Ir} (h : code[n]? = some ir) :
    argsAt code (n + 1) = if ir.call then (fun _ _ => false) else pushArg (argsAt code n) ir := by
  unfold argsAt
  have : code.take (n + 1) = code.take n ++ [ir] := by
    rw [List.take_add_one, h]; rfl
  rw [this, List.foldl_append]
  rfl

/-- Loop invariant. -/
structure FInv (s : Settings) (code : List Ir) (xs : List LI) (k : Nat) (st : FS) : Prop where
  act : ∀ x, x ∈ st.act ↔ x ∈ xs ∧ 0 ≤ x.stop ∧ x.start < k ∧ ((k : Int) ≤ x.stop ∨ (k : Int) = x.start + 1)
  inact : ∀ x, x ∈ st.inact ↔ x ∈ xs ∧ 0 ≤ x.stop ∧ (k : Int) ≤ x.start
  sorted : st.inact.Pairwise (fun a b => a.start ≤ b.start)
  arg : st.arg = argsAt code k
  occ : ∀ x ∈ xs, ∀ r, st.occ x.virt r = true ↔ 0 ≤ x.stop ∧ ∃ n, n < k ∧ Touched s code x n r

theorem takeWhile_start {xs : List LI} {c : Int}
    (h : xs.Pairwise (fun a b => a.start ≤ b.start)) {x : LI} :
    (x ∈ xs.takeWhile (fun a => decide (a.start ≤ c)) ↔ x ∈ xs ∧ x.start ≤ c) ∧
    (x ∈ xs.dropWhile (fun a => decide (a.start ≤ c)) ↔ x ∈ xs ∧ c < x.start) := by
  induction xs with
  | nil => simp
  | cons p ps ih =>
    obtain ⟨hp, hps⟩ := List.pairwise_cons.1 h
    rw [List.takeWhile_cons, List.dropWhile_cons]
    by_cases hc : p.start ≤ c
    · simp only [hc, decide_true, if_true, List.mem_cons, (ih hps).1, (ih hps).2]
      constructor
      · constructor
        · rintro (rfl | ⟨a, b⟩)
          · exact ⟨.inl rfl, hc⟩
          · exact ⟨.inr a, b⟩
        · rintro ⟨rfl | a, b⟩
          · exact .inl rfl
          · exact .inr ⟨a, b⟩
      · constructor
        · rintro ⟨a, b⟩; exact ⟨.inr a, b⟩
        · rintro ⟨rfl | a, b⟩
          · omega
          · exact ⟨a, b⟩
    · simp only [hc, decide_false, Bool.false_eq_true, if_false]
      constructor
      · constructor
        · intro a; cases a
        · rintro ⟨a, b⟩
          rcases List.mem_cons.1 a with rfl | a
          · exact absurd b hc
          · have := hp x a; omega
      · constructor
        · intro a
          refine ⟨a, ?_⟩
          rcases List.mem_cons.1 a with rfl | a
          · omega
          · have := hp x a; omega
        · exact fun a => a.1

theorem occupyRegs_iff {act : List LI} {m : Bool → Nat → Bool} {occ : Nat → Nat → Bool} {xs : List LI}
    (hv : VirtNodup xs) (hsub : ∀ a ∈ act, a ∈ xs) {x : LI} (hx : x ∈ xs) {r : Nat} :
    occupyRegs act m occ x.virt r = true ↔ occ x.virt r = true ∨ (x ∈ act ∧ m x.flo r = true) := by
  unfold occupyRegs
  simp only [Bool.or_eq_true, List.any_eq_true, Bool.and_eq_true, decide_eq_true_eq]
  constructor
  · rintro (h | ⟨a, ha, hav, hm⟩)
    · exact .inl h
    · have := virt_inj hv (hsub a ha) hx hav
      subst this
      exact .inr ⟨ha, hm⟩
  · rintro (h | ⟨ha, hm⟩)
    · exact .inl h
    · exact .inr ⟨x, ha, rfl, hm⟩

theorem flagStep_inv {s : Settings} {code : List Ir} {xs : List LI} {k : Nat} {st : FS} {ir : Ir}
    (hv : VirtNodup xs) (hir : code[k]? = some ir) (h : FInv s code xs k st) :
    FInv s code xs (k + 1) (flagStep s k st ir) := by
  have hmem1 : ∀ a ∈ st.act, a ∈ xs := fun a ha => ((h.act a).1 ha).1
  have hmem2 : ∀ a ∈ st.act.filter (fun a => decide ((k : Int) < a.stop)), a ∈ xs :=
    fun a ha => hmem1 a (List.mem_filter.1 ha).1
  refine ⟨?_, ?_, ?_, ?_, ?_⟩
  · intro x
    simp only [flagStep, List.mem_append, List.mem_filter, decide_eq_true_eq,
      (takeWhile_start h.sorted).1, h.act, h.inact]
    constructor
    · rintro (⟨⟨a, b, c, d⟩, e⟩ | ⟨⟨a, b, c⟩, d⟩)
      · exact ⟨a, b, by omega, by omega⟩
      · exact ⟨a, b, by omega, by omega⟩
    · rintro ⟨a, b, c, d⟩
      by_cases e : x.start < k
      · exact .inl ⟨⟨a, b, e, by omega⟩, by omega⟩
      · exact .inr ⟨⟨a, b, by omega⟩, by omega⟩
  · intro x
    simp only [flagStep, (takeWhile_start h.sorted).2, h.inact]
    constructor
    · rintro ⟨⟨a, b, c⟩, d⟩; exact ⟨a, b, by omega⟩
    · rintro ⟨a, b, c⟩; exact ⟨⟨a, b, by omega⟩, by omega⟩
  · exact h.sorted.sublist (List.dropWhile_sublist _)
  · rw [argsAt_succ hir, ← h.arg]; rfl
  · intro x hx r
    have hlast : (∃ n, n < k + 1 ∧ Touched s code x n r) ↔
        (∃ n, n < k ∧ Touched s code x n r) ∨ Touched s code x k r := by
      constructor
      · rintro ⟨n, hn, ht⟩
        by_cases e : n = k
        · subst e; exact .inr ht
        · exact .inl ⟨n, by omega, ht⟩
      · rintro (⟨n, hn, ht⟩ | ht)
        · exact ⟨n, by omega, ht⟩
        · exact ⟨k, by omega, ht⟩
    rw [hlast]
    have hocc2 : occupyRegs st.act st.arg
        (occupyRegs st.act (fun f r => !f && ir.extra r) st.occ) x.virt r = true ↔
        st.occ x.virt r = true ∨ (x ∈ st.act ∧
          ((x.flo = false ∧ ir.extra r = true) ∨ argsAt code k x.flo r = true)) := by
      rw [occupyRegs_iff hv hmem1 hx, occupyRegs_iff hv hmem1 hx, h.arg]
      simp only [Bool.and_eq_true, Bool.not_eq_true']
      tauto
    have hcall : occupyRegs (st.act.filter (fun a => decide ((k : Int) < a.stop)))
        (fun f r => decide (r < s.temp f)) (occupyRegs st.act st.arg
        (occupyRegs st.act (fun f r => !f && ir.extra r) st.occ)) x.virt r = true ↔
        (st.occ x.virt r = true ∨ (x ∈ st.act ∧
          ((x.flo = false ∧ ir.extra r = true) ∨ argsAt code k x.flo r = true))) ∨
        ((x ∈ st.act ∧ (k : Int) < x.stop) ∧ r < s.temp x.flo) := by
      rw [occupyRegs_iff hv hmem2 hx, hocc2]
      simp only [List.mem_filter, decide_eq_true_eq]
    have hT : Touched s code x k r ↔ x.start < k ∧
        ((((k : Int) ≤ x.stop ∨ (k : Int) = x.start + 1) ∧
          ((x.flo = false ∧ ir.extra r = true) ∨ argsAt code k x.flo r = true)) ∨
        ((k : Int) < x.stop ∧ ir.call = true ∧ r < s.temp x.flo)) := by
      unfold Touched
      constructor
      · rintro ⟨ir', h1, h2⟩
        rw [hir] at h1; cases h1; exact h2
      · intro h2; exact ⟨ir, hir, h2⟩
    rw [hT]
    have hres : (flagStep s k st ir).occ x.virt r = true ↔
        (st.occ x.virt r = true ∨ (x ∈ st.act ∧
          ((x.flo = false ∧ ir.extra r = true) ∨ argsAt code k x.flo r = true))) ∨
        (ir.call = true ∧ (x ∈ st.act ∧ (k : Int) < x.stop) ∧ r < s.temp x.flo) := by
      simp only [flagStep]
      cases hc : ir.call with
      | true => simp only [if_true, hcall, true_and]
      | false => simp only [Bool.false_eq_true, if_false, hocc2, false_and, or_false]
    rw [hres, h.occ x hx r, h.act]
    constructor
    · rintro ((⟨a, b⟩ | ⟨⟨_, a, b, c⟩, d⟩) | ⟨a, ⟨⟨_, b, c, d⟩, e⟩, f⟩)
      · exact ⟨a, .inl b⟩
      · exact ⟨a, .inr ⟨b, .inl ⟨c, d⟩⟩⟩
      · exact ⟨b, .inr ⟨c, .inr ⟨e, a, f⟩⟩⟩
    · rintro ⟨a, b | ⟨b, ⟨c, d⟩ | ⟨c, d, e⟩⟩⟩
      · exact .inl (.inl ⟨a, b⟩)
      · exact .inl (.inr ⟨⟨hx, a, b, c⟩, d⟩)
      · exact .inr ⟨d, ⟨⟨hx, a, b, .inl (by omega)⟩, c⟩, e⟩

theorem flagLoop_inv {s : Settings} {code : List Ir} {xs : List LI} (hv : VirtNodup xs) :
    ∀ (irs : List Ir) (k : Nat) (st : FS), (∀ j : Nat, irs[j]? = code[k + j]?) →
      FInv s code xs k st → FInv s code xs (k + irs.length) (flagLoop s irs k st) := by
  intro irs
  induction irs with
  | nil => intro k st _ h; simpa [flagLoop] using h
  | cons ir irs ih =>
    intro k st hc h
    have h0 : code[k]? = some ir := by have := hc 0; simpa using this.symm
    have hstep := flagStep_inv hv h0 h
    have hc' : ∀ j : Nat, irs[j]? = code[k + 1 + j]? := by
      intro j
      have := hc (j + 1)
      rw [List.getElem?_cons_succ] at this
      rw [this]; congr 1; omega
    have := ih (k + 1) _ hc' hstep
    rw [flagLoop, List.length_cons]
    have e1 : k + (irs.length + 1) = k + 1 + irs.length := by omega
    have e2 : (k : Int) + 1 = ((k + 1 : Nat) : Int) := by omega
    rw [e1, e2]
    exact this

/-- The set of registers an interval may not use is exactly the set of registers touched by some
instruction while the interval is live there (and its value still needed, for a call). -/
theorem flags_exact {s : Settings} {code : List Ir} {xs : List LI} (hv : VirtNodup xs)
    (hsort : xs.Pairwise (fun a b => a.start ≤ b.start)) (hst : ∀ x ∈ xs, -1 ≤ x.start)
    {x : LI} (hx : x ∈ xs) (r : Nat) :
    (flagLoop s code 0 (flagInit xs)).occ x.virt r = true ↔
      0 ≤ x.stop ∧ ∃ n, Touched s code x n r := by
  have h0 : FInv s code xs 0 (flagInit xs) := by
    refine ⟨?_, ?_, ?_, rfl, ?_⟩
    · intro y
      simp only [flagInit, List.mem_filter, decide_eq_true_eq]
      constructor
      · rintro ⟨⟨a, b⟩, c⟩; exact ⟨a, b, by simpa using c, .inl (by simpa using b)⟩
      · rintro ⟨a, b, c, d⟩; exact ⟨⟨a, b⟩, by simpa using c⟩
    · intro y
      simp only [flagInit, List.mem_filter, decide_eq_true_eq]
      constructor
      · rintro ⟨⟨a, b⟩, c⟩; exact ⟨a, b, by simpa using c⟩
      · rintro ⟨a, b, c⟩; exact ⟨⟨a, b⟩, by simpa using c⟩
    · exact (hsort.sublist List.filter_sublist).sublist List.filter_sublist
    · intro y _ r
      simp [flagInit]
  have h1 := flagLoop_inv hv code 0 _ (fun j => by simp) h0
  rw [show ((0 : Nat) : Int) = 0 from rfl] at h1
  rw [h1.occ x hx r]
  constructor
  · rintro ⟨a, n, _, b⟩; exact ⟨a, n, b⟩
  · rintro ⟨a, n, b⟩
    refine ⟨a, n, ?_, b⟩
    obtain ⟨ir, h, _⟩ := b
    have := (List.getElem?_eq_some_iff.1 h).1
    omega

/-- Shortening an interval can only free registers: the premise of the linear scan theorems. -/
theorem detectFlags_mono {s : Settings} {code : List Ir} {xs : List LI} (hv : VirtNodup xs)
    (hsort : xs.Pairwise (fun a b => a.start ≤ b.start))
    (hst : ∀ x ∈ xs, -1 ≤ x.start ∧ x.start ≤ x.stop) : OccMono (detectFlags s code xs) := by
  intro x' hx' y' hy' hf h1 h2 r hr
  unfold detectFlags at hx' hy'
  obtain ⟨x, hx, rfl⟩ := List.mem_map.1 hx'
  obtain ⟨y, hy, rfl⟩ := List.mem_map.1 hy'
  dsimp only at hf h1 h2 hr ⊢
  rw [flags_exact hv hsort (fun z hz => (hst z hz).1) hx]
  obtain ⟨a, n, ir, b1, b2, b3⟩ :=
    (flags_exact hv hsort (fun z hz => (hst z hz).1) hy r).1 hr
  have hxs := hst x hx
  have hys := hst y hy
  refine ⟨by omega, n, ir, b1, by omega, ?_⟩
  rw [hf]
  rcases b3 with ⟨c1, c2⟩ | ⟨c1, c2⟩
  · exact .inl ⟨.inl (by omega), c2⟩
  · exact .inr ⟨by omega, c2⟩

/-! ### Registers which live across a call -/

/-- State of the loops of `detect_living_registers`: `livings` per class and register (the code uses
one array, with the floating-point registers after the general ones; the bit of `living_pregs` is set
exactly when the entry is not NULL), and the part of the sorted intervals not reached by `head`. -/
structure LS where
  livings : Bool → Nat → Option LI
  rest : List LI

/-- codegen.c:730-732 and 764-766: enter an interval which has a register. -/
def enter (phys : Nat → Option Nat) (l : Bool → Nat → Option LI) (a : LI) : Bool → Nat → Option LI :=
  match phys a.virt with
  | none => l
  | some q => fun f r => if f = a.flo ∧ r = q then some a else l f r

/-- codegen.c:723-735: parameters are entered a priori. -/
def livInit (phys : Nat → Option Nat) (xs : List LI) : LS :=
  { livings := (xs.takeWhile (fun a => decide (a.start < 0))).foldl (enter phys) (fun _ _ => none),
    rest := xs }

/-- codegen.c:739-747: eliminate registers which end at `nip`. -/
def elim (nip : Int) (l : Bool → Nat → Option LI) : Bool → Nat → Option LI :=
  fun f r => match l f r with
    | some a => if nip = a.stop then none else some a
    | none => none

/-- codegen.c:755-768: add activated registers. -/
def activate (phys : Nat → Option Nat) (nip : Int) (st : LS) : LS :=
  { livings := (st.rest.takeWhile (fun a => decide (a.start ≤ nip))).foldl
      (fun l a => if nip = a.start then enter phys l a else l) st.livings,
    rest := st.rest.dropWhile (fun a => decide (a.start ≤ nip)) }

/-- State before instruction `n` (codegen.c:735-770; the loop does the same for every
instruction). -/
def livState (phys : Nat → Option Nat) (xs : List LI) : Nat → LS
  | 0 => livInit phys xs
  | n + 1 =>
    activate phys n { livState phys xs n with livings := elim n (livState phys xs n).livings }

/-- codegen.c:749-753: `living_pregs` stored into an IR_CALL with number `n`. -/
def livingAt (phys : Nat → Option Nat) (xs : List LI) (n : Nat) (flo : Bool) (r : Nat) : Bool :=
  (elim n (livState phys xs n).livings flo r).isSome

theorem livState_rest {phys : Nat → Option Nat} {xs : List LI}
    (hsort : xs.Pairwise (fun a b => a.start ≤ b.start)) (n : Nat) :
    (livState phys xs n).rest <:+ xs ∧
    (0 < n → ∀ x, x ∈ (livState phys xs n).rest ↔ x ∈ xs ∧ (n : Int) ≤ x.start) := by
  induction n with
  | zero => exact ⟨List.suffix_refl _, fun h => absurd h (by omega)⟩
  | succ n ih =>
    obtain ⟨h1, h2⟩ := ih
    have hs := hsort.sublist h1.sublist
    refine ⟨?_, fun _ x => ?_⟩
    · simp only [livState, activate]
      exact (List.dropWhile_suffix _).trans h1
    · simp only [livState, activate]
      rw [(takeWhile_start hs).2]
      by_cases hn : 0 < n
      · rw [h2 hn]
        constructor
        · rintro ⟨⟨a, b⟩, c⟩; exact ⟨a, by omega⟩
        · rintro ⟨a, b⟩; exact ⟨⟨a, by omega⟩, by omega⟩
      · have : n = 0 := by omega
        subst this
        simp only [livState, livInit]
        constructor
        · rintro ⟨a, b⟩; exact ⟨a, by omega⟩
        · rintro ⟨a, b⟩; exact ⟨a, by omega⟩

theorem enter_same {phys : Nat → Option Nat} {l : Bool → Nat → Option LI} {a : LI} {r : Nat}
    (h : phys a.virt = some r) : enter phys l a a.flo r = some a := by
  unfold enter; rw [h]; simp

theorem enter_other {phys : Nat → Option Nat} {l : Bool → Nat → Option LI} {a : LI} {f : Bool}
    {r : Nat} (h : a.flo = f → phys a.virt ≠ some r) : enter phys l a f r = l f r := by
  unfold enter
  cases hq : phys a.virt with
  | none => rfl
  | some q =>
    refine if_neg ?_
    rintro ⟨rfl, rfl⟩
    exact h rfl hq

/-- After a pass which enters intervals, the entry of a register is `x` when it was `x` before or `x`
is entered, and nobody enters the register after `x`. -/
theorem fold_enter {phys : Nat → Option Nat} {x : LI} {r : Nat} (hx : phys x.virt = some r)
    (c : LI → Bool) (xs : List LI) :
    ∀ (l : Bool → Nat → Option LI),
      (l x.flo r = some x ∧ (∀ y ∈ xs, c y = true → y.flo = x.flo → phys y.virt = some r → y = x)) ∨
      (∃ pre post, xs = pre ++ x :: post ∧ c x = true ∧
        ∀ y ∈ post, c y = true → y.flo = x.flo → phys y.virt = some r → y = x) →
      (xs.foldl (fun l a => if c a then enter phys l a else l) l) x.flo r = some x := by
  induction xs with
  | nil =>
    intro l h
    rcases h with ⟨h, _⟩ | ⟨pre, post, h, _⟩
    · exact h
    · cases pre <;> cases h
  | cons a xs ih =>
    intro l h
    rw [List.foldl_cons]
    refine ih _ ?_
    rcases h with ⟨h1, h2⟩ | ⟨pre, post, h1, h2, h3⟩
    · refine .inl ⟨?_, fun y hy => h2 y (List.mem_cons_of_mem _ hy)⟩
      by_cases hc : c a = true
      · rw [if_pos hc]
        by_cases ha : a.flo = x.flo ∧ phys a.virt = some r
        · have := h2 a List.mem_cons_self hc ha.1 ha.2
          subst this
          exact enter_same hx
        · rw [enter_other (fun e1 e2 => ha ⟨e1, e2⟩)]
          exact h1
      · rw [if_neg hc]; exact h1
    · cases pre with
      | nil =>
        simp only [List.nil_append, List.cons.injEq] at h1
        obtain ⟨rfl, rfl⟩ := h1
        refine .inl ⟨?_, h3⟩
        rw [if_pos h2]
        exact enter_same hx
      | cons b pre =>
        simp only [List.cons_append, List.cons.injEq] at h1
        exact .inr ⟨pre, post, h1.2, h2, h3⟩

/-- A register assigned to a value which is live across instruction `n` (its interval starts before
and ends after) is in the set of living registers recorded for a call at `n`. -/
theorem living_complete {phys : Nat → Option Nat} {xs : List LI}
    (hsort : xs.Pairwise (fun a b => a.start ≤ b.start))
    (hst : ∀ x ∈ xs, -1 ≤ x.start)
    (hnc : xs.Pairwise (fun x y => x.flo = y.flo → ∀ r, phys x.virt = some r →
      phys y.virt = some r → x.stop ≤ y.start))
    {x : LI} (hx : x ∈ xs) {r : Nat} (hr : phys x.virt = some r) {n : Nat}
    (h1 : x.start < n) (h2 : (n : Int) < x.stop) : livingAt phys xs n x.flo r = true := by
  -- the pass in which x is entered
  have hpos : ∃ pre post, xs = pre ++ x :: post := List.append_of_mem hx
  obtain ⟨pre, post, hxs⟩ := hpos
  have hafter : ∀ y ∈ post, y.flo = x.flo → phys y.virt = some r → x.stop ≤ y.start := by
    intro y hy hf hp
    rw [hxs] at hnc
    exact (List.pairwise_cons.1 (List.pairwise_append.1 hnc).2.1).1 y hy hf.symm r hr hp
  have hbefore : ∀ y ∈ pre, y.flo = x.flo → phys y.virt = some r → y.stop ≤ x.start := by
    intro y hy hf hp
    rw [hxs] at hnc
    exact (List.pairwise_append.1 hnc).2.2 y hy x List.mem_cons_self hf r hp hr
  have hbeforeS : ∀ y ∈ pre, y.start ≤ x.start := by
    intro y hy
    rw [hxs] at hsort
    exact (List.pairwise_append.1 hsort).2.2 y hy x List.mem_cons_self
  have hxs' : x.start < x.stop := by omega
  have key : ∀ k : Nat, x.start < k → (k : Int) ≤ x.stop →
      (livState phys xs k).livings x.flo r = some x := by
    intro k
    induction k with
    | zero =>
      intro hk1 hk2
      simp only [livState, livInit]
      have hpre : ∀ y ∈ pre ++ [x], y.start < 0 := by
        intro y hy
        rcases List.mem_append.1 hy with hy | hy
        · have := hbeforeS y hy; omega
        · rw [List.mem_singleton.1 hy]; simpa using hk1
      have e : xs.takeWhile (fun a => decide (a.start < 0)) =
          pre ++ x :: post.takeWhile (fun a => decide (a.start < 0)) := by
        rw [hxs]
        have : ∀ zs : List LI, (∀ y ∈ zs, y.start < 0) → (zs ++ post).takeWhile (fun a => decide (a.start < 0)) =
            zs ++ post.takeWhile (fun a => decide (a.start < 0)) := by
          intro zs
          induction zs with
          | nil => intro _; rfl
          | cons z zs ihz =>
            intro hz
            rw [List.cons_append, List.takeWhile_cons, ihz (fun y hy => hz y (List.mem_cons_of_mem _ hy))]
            simp [hz z List.mem_cons_self]
        have h3 := this (pre ++ [x]) hpre
        simpa using h3
      have := fold_enter hr (fun _ => true) (xs.takeWhile (fun a => decide (a.start < 0)))
        (fun _ _ => none) (.inr ⟨pre, _, e, rfl, fun y hy _ hf hp => by
          have hyp : y ∈ post := (List.takeWhile_sublist _).mem hy
          have hlt : y.start < 0 := by
            have : ∀ zs : List LI, y ∈ zs.takeWhile (fun a => decide (a.start < 0)) → y.start < 0 := by
              intro zs
              induction zs with
              | nil => intro h; cases h
              | cons z zs ihz =>
                rw [List.takeWhile_cons]
                split
                · rename_i hz
                  intro h
                  rcases List.mem_cons.1 h with rfl | h
                  · simpa using hz
                  · exact ihz h
                · intro h; cases h
            exact this _ hy
          have := hafter y hyp hf hp
          have hk2' : (0 : Int) ≤ x.stop := hk2
          omega⟩)
      simpa using this
    | succ k ih =>
      intro hk1 hk2
      have hsuf := (livState_rest (phys := phys) hsort k).1
      have hsortR := hsort.sublist hsuf.sublist
      simp only [livState, activate]
      refine (show _ from ?_)
      have hgoal := fold_enter hr (fun a => decide ((k : Int) = a.start))
        ((livState phys xs k).rest.takeWhile (fun a => decide (a.start ≤ (k : Int))))
        (elim k (livState phys xs k).livings) ?_
      · simpa using hgoal
      by_cases hlt : x.start < k
      · left
        constructor
        · have := ih hlt (by omega)
          simp only [elim, this]
          rw [if_neg (by omega)]
        · intro y hy hc hf hp
          have hyx : y ∈ xs := hsuf.sublist.mem ((List.takeWhile_sublist _).mem hy)
          have hc' : (k : Int) = y.start := by simpa using hc
          rw [hxs] at hyx
          rcases List.mem_append.1 hyx with hyx | hyx
          · have := hbeforeS y hyx; omega
          · rcases List.mem_cons.1 hyx with rfl | hyx
            · rfl
            · have := hafter y hyx hf hp; omega
      · right
        have hxk : x.start = k := by omega
        -- x is in the rest
        have hxrest : x ∈ (livState phys xs k).rest := by
          by_cases hk0 : 0 < k
          · exact ((livState_rest hsort k).2 hk0 x).2 ⟨hx, by omega⟩
          · have : k = 0 := by omega
            subst this; exact hx
        have hxt : x ∈ (livState phys xs k).rest.takeWhile (fun a => decide (a.start ≤ (k : Int))) :=
          (takeWhile_start hsortR).1.2 ⟨hxrest, by omega⟩
        obtain ⟨p2, q2, hpq⟩ := List.append_of_mem hxt
        refine ⟨p2, q2, hpq, by simp [hxk], ?_⟩
        intro y hy hc hf hp
        have hsub : ((p2 ++ x :: q2)).Sublist xs := by
          rw [← hpq]; exact (List.takeWhile_sublist _).trans hsuf.sublist
        have hnc2 := hnc.sublist hsub
        have := (List.pairwise_cons.1 (List.pairwise_append.1 hnc2).2.1).1 y hy hf.symm r hr hp
        have hc' : (k : Int) = y.start := by simpa using hc
        omega
  unfold livingAt
  have := key n h1 (by omega)
  simp only [elim, this]
  rw [if_neg (by omega)]
  rfl

theorem fold_enter_sound {phys : Nat → Option Nat} {Q : Bool → Nat → LI → Prop} (c : LI → Bool)
    (xs : List LI) (hq : ∀ a ∈ xs, c a = true → ∀ r, phys a.virt = some r → Q a.flo r a) :
    ∀ (l : Bool → Nat → Option LI), (∀ f r a, l f r = some a → Q f r a) →
      ∀ f r a, (xs.foldl (fun l a => if c a then enter phys l a else l) l) f r = some a → Q f r a := by
  induction xs with
  | nil => intro l h; exact h
  | cons x xs ih =>
    intro l h
    refine ih (fun a ha => hq a (List.mem_cons_of_mem _ ha)) _ ?_
    intro f r a ha
    dsimp only at ha
    cases hc : c x with
    | false =>
      rw [hc] at ha
      exact h f r a (by simpa using ha)
    | true =>
      rw [hc] at ha
      simp only [if_true, enter] at ha
      cases hp : phys x.virt with
      | none => rw [hp] at ha; exact h f r a ha
      | some q =>
        rw [hp] at ha
        dsimp only at ha
        split at ha
        · rename_i hfr
          cases ha
          rw [hfr.1, hfr.2]
          exact hq x List.mem_cons_self hc q hp
        · exact h f r a ha

/-- Conversely a register is recorded as living only for an interval which has it and contains the
call; an interval of a single instruction (a value never used) stays recorded after its end. -/
theorem living_sound {phys : Nat → Option Nat} {xs : List LI} {n : Nat} {f : Bool} {r : Nat}
    (hst : ∀ x ∈ xs, -1 ≤ x.start ∧ x.start ≤ x.stop) (h : livingAt phys xs n f r = true) :
    ∃ x ∈ xs, x.flo = f ∧ phys x.virt = some r ∧ x.start < n ∧ ((n : Int) < x.stop ∨ x.stop ≤ x.start) := by
  have key : ∀ k : Nat, (livState phys xs k).rest <:+ xs ∧
      ∀ f r a, (livState phys xs k).livings f r = some a → a ∈ xs ∧ a.flo = f ∧
      phys a.virt = some r ∧ a.start < k ∧ ((k : Int) ≤ a.stop ∨ a.stop ≤ a.start) := by
    intro k
    induction k with
    | zero =>
      refine ⟨List.suffix_refl _, ?_⟩
      intro f r a ha
      simp only [livState, livInit] at ha
      have hfold := fold_enter_sound (phys := phys)
        (Q := fun f r a => a ∈ xs ∧ a.flo = f ∧ phys a.virt = some r ∧ a.start < 0) (fun _ => true)
        (xs.takeWhile (fun a => decide (a.start < 0))) (by
          intro a ha _ r hr
          have h1 := (List.takeWhile_sublist _).mem ha
          have h2 : a.start < 0 := by simpa using List.all_eq_true.1 (List.all_takeWhile) a ha
          exact ⟨h1, rfl, hr, h2⟩) (fun _ _ => none) (by intro _ _ _ h; cases h) f r a (by simpa using ha)
      obtain ⟨h1, h2, h3, h4⟩ := hfold
      have := hst a h1
      exact ⟨h1, h2, h3, by simpa using h4, by omega⟩
    | succ k ih =>
      obtain ⟨ih1, ih2⟩ := ih
      refine ⟨?_, ?_⟩
      · simp only [livState, activate]
        exact (List.dropWhile_suffix _).trans ih1
      · intro f r a ha
        simp only [livState, activate] at ha
        refine fold_enter_sound (phys := phys)
          (Q := fun f r a => a ∈ xs ∧ a.flo = f ∧ phys a.virt = some r ∧ a.start < (k + 1 : Nat) ∧
            (((k + 1 : Nat) : Int) ≤ a.stop ∨ a.stop ≤ a.start)) (fun a => decide ((k : Int) = a.start))
          _ ?_ _ ?_ f r a (by simpa using ha)
        · intro b hb hc q hq
          have hc : (k : Int) = b.start := by simpa using hc
          exact ⟨ih1.sublist.mem ((List.takeWhile_sublist _).mem hb), rfl, hq, by omega, by omega⟩
        · intro g q b hb
          simp only [elim] at hb
          cases hl : (livState phys xs k).livings g q with
          | none => rw [hl] at hb; cases hb
          | some b' =>
            rw [hl] at hb
            dsimp only at hb
            split at hb
            · cases hb
            · rename_i hne
              cases hb
              obtain ⟨a1, a2, a3, a4, a5⟩ := ih2 g q b hl
              exact ⟨a1, a2, a3, by omega, by omega⟩
  unfold livingAt at h
  simp only [elim] at h
  cases hl : (livState phys xs n).livings f r with
  | none => rw [hl] at h; cases h
  | some b =>
    rw [hl] at h
    dsimp only at h
    split at h
    · cases h
    · rename_i hne
      obtain ⟨a1, a2, a3, a4, a5⟩ := (key n).2 f r b hl
      exact ⟨b, a1, a2, a3, a4, by omega⟩

/-! ### Concrete case -/

/-- Two blocks, a call in the second one; `v0` is a parameter. -/
def sampleBlocks : List Block :=
  [⟨[⟨some 1, some 0, none, fun _ => false, none, false⟩], [0], [1]⟩,
   ⟨[⟨none, some 1, none, fun _ => false, some (false, 3), false⟩,
     ⟨some 2, none, none, fun r => r == 0, none, true⟩,
     ⟨none, some 1, some 2, fun _ => false, none, false⟩], [1], []⟩]

example : [0, 1, 2].map (checkLiveInterval (fun v => v == 0) sampleBlocks) =
    [(-1, 0), (0, 3), (2, 3)] := by decide

/-- The intervals of the sample. -/
def sampleLIs : List LI :=
  [⟨0, -1, 0, fun _ => false, false, none, false⟩, ⟨1, 0, 3, fun _ => false, false, none, false⟩,
   ⟨2, 2, 3, fun _ => false, false, none, false⟩]

example : VirtNodup sampleLIs ∧ sampleLIs.Pairwise (fun a b => a.start ≤ b.start) ∧
    ∀ x ∈ sampleLIs, -1 ≤ x.start ∧ x.start ≤ x.stop := by
  refine ⟨?_, ?_, ?_⟩
  · unfold VirtNodup sampleLIs; decide
  · unfold sampleLIs; decide
  · unfold sampleLIs; decide

/-- The value which lives across the call may not use the temporary registers 0..6. -/
example : ((detectFlags x64Settings (sampleBlocks.flatMap (fun b => b.irs)) sampleLIs).map
    (fun x => (List.range 9).map x.occ)) =
    [[false, false, false, false, false, false, false, false, false],
     [true, true, true, true, true, true, true, false, false],
     [false, false, false, false, false, false, false, false, false]] := by decide

example : livingAt (fun v => some (v + 5)) sampleLIs 2 false 6 = true := by decide

end Verif.Intervals

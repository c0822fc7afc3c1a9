import Verif.Backend.RegFlow

/-
C34 (part 3): register allocation preserves the meaning of the program.

`allocate` chains the models of `analyze_reg_flow`, `check_live_interval`, the sort,
`detect_live_interval_flags` and `linear_scan_register_allocation` as `alloc_physical_registers`
(src/cc/backend/regalloc.c:453-516) does in its last iteration, i.e. when the spilled registers have
been replaced: a spilled register is accessed by IR_LOAD_S/IR_STORE_S only, and its value is in the
stack frame, which is part of the world here.

The specification is a small-step semantics of the IR over virtual registers, and one over physical
registers in which a call (and an instruction with fixed registers) destroys registers.
-/

namespace Verif.AllocSim

open Verif.LinearScan Verif.Intervals Verif.RegFlow

/-- A function to be allocated: the number of virtual registers, the instructions of each block, the
edges (`from_bbs`) and the flags of each virtual register. -/
structure Func where
  nv : Nat
  blocks : List (List Ir)
  frm : Nat → List Nat
  param : Nat → Bool
  flo : Nat → Bool
  ip : Nat → Option Nat
  skip : Nat → Bool

/-- Instructions of block `b`. -/
def Func.irs (f : Func) (b : Nat) : List Ir := f.blocks.getD b []

/-- regalloc.c:115-124 `sort_live_interval`: by start, then longest first, then by number. -/
def cmpLe (a b : LI) : Bool :=
  let d := a.start - b.start
  let d := if d = 0 then b.stop - a.stop else d
  let d := if d = 0 ∧ b.stop - a.stop = 0 then (a.virt : Int) - b.virt else d
  decide (d ≤ 0)

/-- Insertion into a sorted list. -/
def insertLI (x : LI) : List LI → List LI
  | [] => [x]
  | y :: ys => if cmpLe x y then x :: y :: ys else y :: insertLI x ys

/-- regalloc.c:478-481: `qsort` of the intervals. Any sort gives the same list as the order is total
on intervals with different numbers; the model uses insertion. -/
def isort (xs : List LI) : List LI := xs.foldr insertLI []

/-- regalloc.c:464-480: the array of intervals. -/
def Func.intervals (f : Func) (iv : Ivs) : List LI :=
  (List.range f.nv).map (fun v => ⟨v, (iv v).1, (iv v).2, fun _ => false, f.flo v, f.ip v, f.skip v⟩)

/-- The blocks with the result of the flow analysis. -/
def Func.withFlow (f : Func) (fl : Flow) : List Block :=
  (List.range f.blocks.length).map (fun b => ⟨f.irs b, fl.ins b, fl.outs b⟩)

/-- All instructions. -/
def Func.code (f : Func) : List Ir := f.blocks.flatten

/-- Result: the sorted intervals and the state of the linear scan. -/
structure Result where
  xs : List LI
  st : St

/-- regalloc.c:462-484: one iteration of the loop of `alloc_physical_registers`, up to and including
the linear scan; `fl` is the result of `analyze_reg_flow`, which is not computed again. -/
def allocateWith (s : Settings) (f : Func) (fl : Flow) : Option Result :=
  let iv := checkLiveInterval f.param (f.withFlow fl)
  let xs := detectFlags s f.code (isort (f.intervals iv))
  match scan s xs with
  | none => none
  | some st => some ⟨xs, st⟩

/-- regalloc.c:453-516 `alloc_physical_registers` (last iteration), with the preceding
`analyze_reg_flow`. -/
def allocate (s : Settings) (f : Func) : Option Result :=
  match analyze f.irs f.frm f.blocks.length (fuelFor f.frm f.blocks.length) with
  | none => none
  | some fl => allocateWith s f fl

/-! ### Sorting -/

theorem cmpLe_start {a b : LI} (h : cmpLe a b = true) : a.start ≤ b.start := by
  unfold cmpLe at h
  simp only [decide_eq_true_eq] at h
  by_cases h1 : a.start - b.start = 0
  · omega
  · simp only [h1, if_false] at h
    rw [if_neg (by simp)] at h
    omega

theorem not_cmpLe_start {a b : LI} (h : cmpLe a b = false) : b.start ≤ a.start := by
  unfold cmpLe at h
  simp only [decide_eq_false_iff_not] at h
  by_cases h1 : a.start - b.start = 0
  · omega
  · simp only [h1, if_false] at h
    rw [if_neg (by simp)] at h
    omega

theorem mem_insertLI {x y : LI} {ys : List LI} : y ∈ insertLI x ys ↔ y = x ∨ y ∈ ys := by
  induction ys with
  | nil => simp [insertLI]
  | cons z zs ih =>
    simp only [insertLI]
    split
    · simp
    · simp [ih]; tauto

theorem mem_isort {x : LI} {xs : List LI} : x ∈ isort xs ↔ x ∈ xs := by
  induction xs with
  | nil => simp [isort]
  | cons y ys ih =>
    have : isort (y :: ys) = insertLI y (isort ys) := rfl
    rw [this, mem_insertLI, ih, List.mem_cons]

theorem sorted_insertLI {x : LI} {ys : List LI} (h : ys.Pairwise (fun a b => a.start ≤ b.start)) :
    (insertLI x ys).Pairwise (fun a b => a.start ≤ b.start) := by
  induction ys with
  | nil => simp [insertLI]
  | cons z zs ih =>
    obtain ⟨h1, h2⟩ := List.pairwise_cons.1 h
    simp only [insertLI]
    split
    · rename_i hc
      have := cmpLe_start hc
      refine List.pairwise_cons.2 ⟨?_, h⟩
      intro a ha
      rcases List.mem_cons.1 ha with rfl | ha
      · exact this
      · have := h1 a ha; omega
    · rename_i hc
      have := not_cmpLe_start (by simpa using hc)
      refine List.pairwise_cons.2 ⟨?_, ih h2⟩
      intro a ha
      rcases mem_insertLI.1 ha with rfl | ha
      · exact this
      · exact h1 a ha

theorem sorted_isort (xs : List LI) : (isort xs).Pairwise (fun a b => a.start ≤ b.start) := by
  induction xs with
  | nil => exact List.Pairwise.nil
  | cons x xs ih => exact sorted_insertLI ih

theorem perm_insertLI (x : LI) (ys : List LI) : (insertLI x ys).Perm (x :: ys) := by
  induction ys with
  | nil => exact List.Perm.refl _
  | cons z zs ih =>
    simp only [insertLI]
    split
    · exact List.Perm.refl _
    · exact (List.Perm.cons z ih).trans (List.Perm.swap x z zs)

theorem perm_isort (xs : List LI) : (isort xs).Perm xs := by
  induction xs with
  | nil => exact List.Perm.refl _
  | cons x xs ih => exact (perm_insertLI x _).trans (List.Perm.cons x ih)

/-! ### Semantics -/

/-- What the instructions and the jumps do. `exec b j w x y args` is the effect of instruction `j` of
block `b` in world `w` on operands `x`, `y`, with the outgoing arguments `args`; it gives the value
for the destination and the new world. `next b w` is the block control goes to after block `b`
(`none`: the function returns). -/
structure Sem (Val World : Type) where
  dflt : Val
  exec : Nat → Nat → World → Val → Val → (Bool → Nat → Option Val) → Val × World
  next : Nat → World → Option Nat

/-- State over virtual registers; `A` are the outgoing arguments. -/
structure VC (Val World : Type) where
  b : Nat
  j : Nat
  V : Nat → Val
  A : Bool → Nat → Val
  w : World

/-- State over physical registers. -/
structure PC (Val World : Type) where
  b : Nat
  j : Nat
  P : Bool → Nat → Val
  w : World

variable {Val World : Type}

/-- Arguments set so far. -/
def argsOf (set : Bool → Nat → Bool) (A : Bool → Nat → Val) : Bool → Nat → Option Val :=
  fun f r => if set f r then some (A f r) else none

/-- Operand over virtual registers. A register without a physical one is read by IR_LOAD_S only, from
the world. -/
def rdV (S : Sem Val World) (phys : Nat → Option Nat) (V : Nat → Val) : Option Nat → Val
  | none => S.dflt
  | some v => match phys v with
    | some _ => V v
    | none => S.dflt

/-- Operand over physical registers. -/
def rdP (S : Sem Val World) (f : Func) (phys : Nat → Option Nat) (P : Bool → Nat → Val) :
    Option Nat → Val
  | none => S.dflt
  | some v => match phys v with
    | some r => P (f.flo v) r
    | none => S.dflt

/-- Write to the destination. -/
def wrV (V : Nat → Val) (d : Option Nat) (x : Val) : Nat → Val :=
  fun v => if d = some v then x else V v

/-- Write a register. -/
def setP (P : Bool → Nat → Val) (t : Option (Bool × Nat)) (x : Val) : Bool → Nat → Val :=
  fun f r => if t = some (f, r) then x else P f r

/-- The physical register of the destination. -/
def dstLoc (f : Func) (phys : Nat → Option Nat) (d : Option Nat) : Option (Bool × Nat) :=
  match d with
  | none => none
  | some v => (phys v).map (fun r => (f.flo v, r))

/-- Global number of instruction `j` of block `b`. -/
def Func.base (f : Func) (b : Nat) : Nat := ((f.blocks.take b).map List.length).sum

/-- A step over virtual registers. -/
def vstep (S : Sem Val World) (f : Func) (phys : Nat → Option Nat) (c : VC Val World) :
    Option (VC Val World) :=
  match (f.irs c.b)[c.j]? with
  | some ir =>
    let x := rdV S phys c.V ir.opr1
    let y := rdV S phys c.V ir.opr2
    let res := S.exec c.b c.j c.w x y (argsOf (argsAt f.code (f.base c.b + c.j)) c.A)
    some { b := c.b, j := c.j + 1, V := wrV c.V ir.dst res.1, A := setP c.A ir.push x, w := res.2 }
  | none =>
    match S.next c.b c.w with
    | none => none
    | some b' => some { c with b := b', j := 0 }

/-- Registers which instruction `j` of block `b` destroys: `clob` for instructions with fixed
registers; for a call all registers except those the callee preserves, and those the caller saves
around it (the caller-save registers recorded as living). -/
structure Machine where
  clob : Nat → Nat → Nat → Bool
  calleeSaved : Bool → Nat → Bool
  callerSaved : Bool → Nat → Bool

/-- The set of destroyed registers. -/
def Machine.destroyed (M : Machine) (f : Func) (R : Result) (b j : Nat) (ir : Ir) (flo : Bool)
    (r : Nat) : Prop :=
  (flo = false ∧ M.clob b j r = true) ∨
  (ir.call = true ∧ M.calleeSaved flo r = false ∧
    ¬ (M.callerSaved flo r = true ∧ livingAt R.st.phys R.xs (f.base b + j) flo r = true))

/-- A step over physical registers; the destroyed registers get any value. -/
inductive PStep (S : Sem Val World) (M : Machine) (f : Func) (R : Result) :
    PC Val World → PC Val World → Prop
  | instr {c : PC Val World} {ir : Ir} {P1 : Bool → Nat → Val} (h : (f.irs c.b)[c.j]? = some ir)
      (hj : ∀ flo r, ¬ M.destroyed f R c.b c.j ir flo r → P1 flo r = c.P flo r) :
      PStep S M f R c
        { b := c.b, j := c.j + 1,
          P := setP (setP P1 ir.push (rdP S f R.st.phys c.P ir.opr1))
            (dstLoc f R.st.phys ir.dst)
            (S.exec c.b c.j c.w (rdP S f R.st.phys c.P ir.opr1) (rdP S f R.st.phys c.P ir.opr2)
              (argsOf (argsAt f.code (f.base c.b + c.j)) c.P)).1,
          w := (S.exec c.b c.j c.w (rdP S f R.st.phys c.P ir.opr1) (rdP S f R.st.phys c.P ir.opr2)
              (argsOf (argsAt f.code (f.base c.b + c.j)) c.P)).2 }
  | jump {c : PC Val World} {b' : Nat} (h : (f.irs c.b)[c.j]? = none) (hn : S.next c.b c.w = some b') :
      PStep S M f R c { c with b := b', j := 0 }

/-! ### Assumptions on the program -/

/-- Well-formed function, target and instruction stream. -/
structure Wf (S : Sem Val World) (M : Machine) (s : Settings) (f : Func) : Prop where
  frmLt : ∀ b, ∀ p ∈ f.frm b, p < f.blocks.length
  frmDom : ∀ b, f.blocks.length ≤ b → f.frm b = []
  /-- every jump is an edge -/
  edge : ∀ b w c, S.next b w = some c → b ∈ f.frm c
  /-- the registers of the instructions exist -/
  regs : ∀ ir ∈ f.code, ∀ v ∈ ir.vregs, v < f.nv
  mapOk : ∀ i r, s.mapping i = some r → r < s.physMax
  floOk : ∀ v, f.flo v = true → ∀ i, f.ip v = some i → i < s.fphysMax
  /-- IR_PUSHARG has no destination; an argument list does not cross a block boundary; no
  instruction between IR_PUSHARG and IR_CALL destroys an argument register -/
  pushDst : ∀ ir ∈ f.code, ir.push ≠ none → ir.dst = none ∧ ir.call = false
  argsLocal : ∀ b, b ≤ f.blocks.length → ∀ g r, argsAt f.code (f.base b) g r = false
  argsSafe : ∀ b j r, M.clob b j r = true → argsAt f.code (f.base b + j + 1) false r = false
  /-- fixed registers are announced to the allocator by `detect_extra_occupied` -/
  clobExtra : ∀ (b j : Nat) (ir : Ir), (f.irs b)[j]? = some ir → ∀ r, M.clob b j r = true → ir.extra r = true
  /-- every non-temporary register is saved by the callee or by the caller -/
  saved : ∀ flo r, s.temp flo ≤ r → r < s.max flo →
    M.calleeSaved flo r = true ∨ M.callerSaved flo r = true

/-- The condition under which the allocator is right: if a register is live at the start of a block
and its interval starts only there (all its definitions are laid out later), then the first
instruction of the block destroys no register and does not compute a dead value. -/
def Benign (M : Machine) (f : Func) (R : Result) : Prop :=
  ∀ x ∈ R.xs, R.st.phys x.virt ≠ none → ∀ b, LiveIn f.irs f.frm x.virt b →
    x.start = (f.base b : Nat) → ∀ ir, (f.irs b)[0]? = some ir →
      ir.call = false ∧ (∀ r, M.clob b 0 r = false) ∧
      ∀ y ∈ R.xs, ir.dst = some y.virt → x.start < y.stop

/-! ### Facts about the result -/

theorem irs_getElem {f : Func} {b j : Nat} {ir : Ir} (h : (f.irs b)[j]? = some ir) :
    b < f.blocks.length := by
  unfold Func.irs at h
  by_contra hb
  rw [List.getD_eq_getElem?_getD, List.getElem?_eq_none (Nat.le_of_not_lt hb)] at h
  simp at h

theorem flatten_getElem {xs : List (List Ir)} : ∀ {b j : Nat} {ir : Ir},
    (xs.getD b [])[j]? = some ir → xs.flatten[((xs.take b).map List.length).sum + j]? = some ir := by
  induction xs with
  | nil => intro b j ir h; simp at h
  | cons x xs ih =>
    intro b j ir h
    cases b with
    | zero =>
      simp only [List.getD_cons_zero] at h
      have hj := (List.getElem?_eq_some_iff.1 h).1
      simp only [List.take_zero, List.map_nil, List.sum_nil, Nat.zero_add, List.flatten_cons]
      rw [List.getElem?_append_left hj]; exact h
    | succ b =>
      simp only [List.getD_cons_succ] at h
      have := ih h
      simp only [List.take_succ_cons, List.map_cons, List.sum_cons, List.flatten_cons]
      rw [List.getElem?_append_right (by omega)]
      rw [← this]; congr 1; omega

theorem code_getElem {f : Func} {b j : Nat} {ir : Ir} (h : (f.irs b)[j]? = some ir) :
    f.code[f.base b + j]? = some ir := flatten_getElem h

theorem base_succ {f : Func} {b : Nat} (hb : b < f.blocks.length) :
    f.base (b + 1) = f.base b + (f.irs b).length := by
  unfold Func.base Func.irs
  rw [List.take_add_one, List.map_append, List.sum_append, List.getD_eq_getElem?_getD,
    List.getElem?_eq_getElem hb]
  simp

theorem base_withFlow {f : Func} {fl : Flow} {b : Nat} (hb : b ≤ f.blocks.length) :
    Intervals.base (f.withFlow fl) b = f.base b := by
  induction b with
  | zero => rfl
  | succ b ih =>
    have h1 : b < f.blocks.length := by omega
    rw [base_succ h1, ← ih (by omega)]
    unfold Intervals.base
    have hlen : b < (f.withFlow fl).length := by simp [Func.withFlow]; omega
    rw [List.take_add_one, List.map_append, List.sum_append, List.getElem?_eq_getElem hlen]
    simp [Func.withFlow]

/-- Liveness before instruction `j` of block `b`. -/
def Live (f : Func) (b j v : Nat) : Prop :=
  UseBeforeDef ((f.irs b).drop j) v ∨
  (¬ Writes ((f.irs b).drop j) v ∧ ∃ c, b ∈ f.frm c ∧ LiveIn f.irs f.frm v c)

theorem drop_cons {irs : List Ir} {j : Nat} {ir : Ir} (h : irs[j]? = some ir) :
    irs.drop j = ir :: irs.drop (j + 1) := by
  obtain ⟨hj, rfl⟩ := List.getElem?_eq_some_iff.1 h
  rw [List.drop_eq_getElem_cons hj]

theorem live_use {f : Func} {b j v : Nat} {ir : Ir} (h : (f.irs b)[j]? = some ir)
    (hv : ir.opr1 = some v ∨ ir.opr2 = some v) : Live f b j v := by
  left
  rw [drop_cons h]
  exact ⟨[], ir, _, rfl, hv, fun _ h => (List.not_mem_nil h).elim⟩

theorem live_pred {f : Func} {b j v : Nat} {ir : Ir} (h : (f.irs b)[j]? = some ir)
    (hd : ir.dst ≠ some v) (hl : Live f b (j + 1) v) : Live f b j v := by
  unfold Live at hl ⊢
  rw [drop_cons h]
  rcases hl with ⟨pre, i, post, he, ho, hp⟩ | ⟨hw, ho⟩
  · left
    refine ⟨ir :: pre, i, post, by rw [he]; rfl, ho, ?_⟩
    intro k hk
    rcases List.mem_cons.1 hk with rfl | hk
    · exact hd
    · exact hp k hk
  · right
    refine ⟨?_, ho⟩
    rintro ⟨k, hk, hkd⟩
    rcases List.mem_cons.1 hk with rfl | hk
    · exact hd hkd
    · exact hw ⟨k, hk, hkd⟩

theorem live_zero {f : Func} {b v : Nat} (hl : Live f b 0 v) : LiveIn f.irs f.frm v b := by
  unfold Live at hl
  rw [List.drop_zero] at hl
  rcases hl with h | ⟨hw, c, hc, hlc⟩
  · exact .use h
  · exact .step hc hw hlc

theorem live_end {f : Func} {b c j v : Nat} (h : (f.irs b)[j]? = none) (hbc : b ∈ f.frm c)
    (hl : Live f c 0 v) : Live f b j v := by
  right
  have : (f.irs b).drop j = [] := by
    rw [List.drop_eq_nil_iff]
    exact List.getElem?_eq_none_iff.1 h
  rw [this]
  exact ⟨fun ⟨_, h, _⟩ => (List.not_mem_nil h).elim, c, hbc, live_zero hl⟩

/-- What is known about the intervals and the assignment. -/
structure Facts (s : Settings) (f : Func) (R : Result) : Prop where
  ofVirt : ∀ v, v < f.nv → ∃ x ∈ R.xs, x.virt = v
  flo : ∀ x ∈ R.xs, x.flo = f.flo x.virt
  inj : ∀ x ∈ R.xs, ∀ y ∈ R.xs, x.virt = y.virt → x = y
  start : ∀ x ∈ R.xs, -1 ≤ x.start ∧ x.start ≤ x.stop
  sorted : R.xs.Pairwise (fun a b => a.start ≤ b.start)
  ordered : R.xs.Pairwise (fun x y => x.flo = y.flo → ∀ r, R.st.phys x.virt = some r →
    R.st.phys y.virt = some r → x.stop ≤ y.start)
  disjoint : ∀ x ∈ R.xs, ∀ y ∈ R.xs, x ≠ y → x.flo = y.flo → ∀ r, R.st.phys x.virt = some r →
    R.st.phys y.virt = some r → x.stop ≤ y.start ∨ y.stop ≤ x.start
  range : ∀ x ∈ R.xs, ∀ r, R.st.phys x.virt = some r → r < s.max x.flo
  occ : ∀ x ∈ R.xs, ∀ r, R.st.phys x.virt = some r → ∀ n, 0 ≤ x.stop → ¬ Touched s f.code x n r
  mention : ∀ (b j : Nat) (ir : Ir), (f.irs b)[j]? = some ir → ∀ x ∈ R.xs, x.virt ∈ ir.vregs →
    x.start ≤ ((f.base b + j : Nat) : Int) ∧ ((f.base b + j : Nat) : Int) ≤ x.stop
  ins : ∀ b, b < f.blocks.length → ∀ x ∈ R.xs, R.st.phys x.virt ≠ none →
    LiveIn f.irs f.frm x.virt b → x.start ≤ (f.base b : Nat)
  outs : ∀ b, b < f.blocks.length → ∀ c, b ∈ f.frm c → ∀ x ∈ R.xs, R.st.phys x.virt ≠ none →
    LiveIn f.irs f.frm x.virt c → ((f.base b + (f.irs b).length : Nat) : Int) ≤ x.stop
  skip : ∀ x ∈ R.xs, R.st.phys x.virt ≠ none → f.skip x.virt = false
  usedOk : ∀ x ∈ R.xs, ∀ r, R.st.phys x.virt = some r → (R.st.set x.flo).used r = true

/-- The flow analysis has found every place where a register that is to get a physical register is
live. -/
def FlowOk (f : Func) (fl : Flow) : Prop :=
  ∀ b v, v < f.nv → f.skip v = false → (LiveIn f.irs f.frm v b → v ∈ fl.ins b) ∧
    ∀ c, b ∈ f.frm c → LiveIn f.irs f.frm v c → v ∈ fl.outs b

theorem allocateWith_facts {S : Sem Val World} {M : Machine} {s : Settings} {f : Func} {fl : Flow}
    {R : Result} (hwf : Wf S M s f) (h : allocateWith s f fl = some R)
    (hflow : FlowOk f fl) : Facts s f R := by
  unfold allocateWith at h
  dsimp only at h
  generalize hiv : checkLiveInterval f.param (f.withFlow fl) = iv at h
  generalize hxs : detectFlags s f.code (isort (f.intervals iv)) = xs at h
  cases hsc : scan s xs with
  | none => rw [hsc] at h; cases h
  | some st =>
    rw [hsc] at h
    have hR : R = ⟨xs, st⟩ := (Option.some.inj h).symm
    subst hR
    obtain ⟨c1, c2⟩ := intervals_cover f.param (f.withFlow fl)
    rw [hiv] at c1 c2
    -- the unflagged list
    have hmem0 : ∀ y, y ∈ isort (f.intervals iv) ↔ ∃ v, v < f.nv ∧
        y = ⟨v, (iv v).1, (iv v).2, fun _ => false, f.flo v, f.ip v, f.skip v⟩ := by
      intro y
      rw [mem_isort]
      unfold Func.intervals
      simp only [List.mem_map, List.mem_range]
      constructor
      · rintro ⟨v, hv, rfl⟩; exact ⟨v, hv, rfl⟩
      · rintro ⟨v, hv, rfl⟩; exact ⟨v, hv, rfl⟩
    have hvn0 : VirtNodup (isort (f.intervals iv)) := by
      unfold VirtNodup
      have hp := (perm_isort (f.intervals iv)).map (fun x : LI => x.virt)
      rw [hp.nodup_iff]
      unfold Func.intervals
      rw [List.map_map]
      have : ((fun x : LI => x.virt) ∘ fun v => (⟨v, (iv v).1, (iv v).2, fun _ => false, f.flo v, f.ip v, f.skip v⟩ : LI)) = id := rfl
      rw [this, List.map_id]
      exact List.nodup_range
    have hs0 := sorted_isort (f.intervals iv)
    have hst0 : ∀ x ∈ isort (f.intervals iv), -1 ≤ x.start ∧ x.start ≤ x.stop := by
      intro x hx
      obtain ⟨v, _, rfl⟩ := (hmem0 x).1 hx
      exact ⟨(c1 v).1, (c1 v).2.2⟩
    have hmono : OccMono xs := by
      rw [← hxs]; exact detectFlags_mono hvn0 hs0 hst0
    have hmemx : ∀ x ∈ xs, ∃ y ∈ isort (f.intervals iv), x.virt = y.virt ∧ x.start = y.start ∧
        x.stop = y.stop ∧ x.flo = y.flo ∧ x.ip = y.ip ∧ x.skip = y.skip ∧
        x.occ = (flagLoop s f.code 0 (flagInit (isort (f.intervals iv)))).occ y.virt := by
      intro x hx
      rw [← hxs] at hx
      unfold detectFlags at hx
      obtain ⟨y, hy, rfl⟩ := List.mem_map.1 hx
      exact ⟨y, hy, rfl, rfl, rfl, rfl, rfl, rfl, rfl⟩
    have hvn : VirtNodup xs := by
      rw [← hxs]
      unfold VirtNodup detectFlags
      rw [List.map_map]
      exact hvn0
    have hsorted : xs.Pairwise (fun a b => a.start ≤ b.start) := by
      rw [← hxs]
      unfold detectFlags
      rw [List.pairwise_map]
      exact hs0
    have hwfs : s.Wf xs := by
      refine ⟨hwf.mapOk, fun x hx hf i hi => ?_⟩
      obtain ⟨y, hy, e1, _, _, e4, e5, _, _⟩ := hmemx x hx
      obtain ⟨v, _, rfl⟩ := (hmem0 y).1 hy
      rw [e4] at hf
      rw [e5] at hi
      exact hwf.floOk v hf i hi
    have hblk : ∀ b, b < f.blocks.length → (f.withFlow fl)[b]? = some ⟨f.irs b, fl.ins b, fl.outs b⟩ := by
      intro b hb
      unfold Func.withFlow
      rw [List.getElem?_map, List.getElem?_range hb]
      rfl
    have hstart : ∀ x ∈ xs, ∃ v, v < f.nv ∧ x.virt = v ∧ x.start = (iv v).1 ∧ x.stop = (iv v).2 ∧
        x.flo = f.flo v := by
      intro x hx
      obtain ⟨y, hy, e1, e2, e3, e4, _, _, _⟩ := hmemx x hx
      obtain ⟨v, hv, rfl⟩ := (hmem0 y).1 hy
      exact ⟨v, hv, e1, e2, e3, e4⟩
    have hskip : ∀ x ∈ xs, st.phys x.virt ≠ none → f.skip x.virt = false := by
      intro x hx hp
      obtain ⟨r, hr⟩ := Option.ne_none_iff_exists'.1 hp
      obtain ⟨y, hy, e1, _, _, _, _, e7, _⟩ := hmemx x hx
      obtain ⟨v, hv, rfl⟩ := (hmem0 y).1 hy
      rw [e1, ← (scan_assigned hvn hsorted hmono hwfs hsc hx hr).2.2.2, e7]
    refine ⟨?_, ?_, ?_, ?_, hsorted, ?_, ?_, ?_, ?_, ?_, ?_, ?_, hskip, ?_⟩
    · intro v hv
      have hy := (hmem0 _).2 ⟨v, hv, rfl⟩
      have hm : v ∈ xs.map (fun x => x.virt) := by
        rw [← hxs]
        unfold detectFlags
        rw [List.map_map]
        exact List.mem_map.2 ⟨_, hy, rfl⟩
      obtain ⟨x, hx1, hx2⟩ := List.mem_map.1 hm
      exact ⟨x, hx1, hx2⟩
    · intro x hx
      obtain ⟨v, _, e1, _, _, e4⟩ := hstart x hx
      rw [e4, e1]
    · intro x hx y hy hxy
      exact virt_inj hvn hx hy hxy
    · intro x hx
      obtain ⟨v, _, _, e2, e3, _⟩ := hstart x hx
      rw [e2, e3]
      exact ⟨(c1 v).1, (c1 v).2.2⟩
    · exact scan_ordered hvn hsorted hmono hwfs hsc
    · intro x hx y hy hne hf r h1 h2
      exact scan_noConflict hvn hsorted hmono hwfs hsc hx hy hne hf h1 h2
    · intro x hx r hr
      exact (scan_assigned hvn hsorted hmono hwfs hsc hx hr).1
    · intro x hx r hr n hstop ht
      have hocc := (scan_assigned hvn hsorted hmono hwfs hsc hx hr).2.1
      obtain ⟨y, hy, e1, e2, e3, e4, _, _, e6⟩ := hmemx x hx
      rw [e6] at hocc
      have := (flags_exact hvn0 hs0 (fun z hz => (hst0 z hz).1) hy r).2 ⟨by omega, n, by
        obtain ⟨ir, t1, t2, t3⟩ := ht
        refine ⟨ir, t1, by omega, ?_⟩
        rw [← e3, ← e2, ← e4]; exact t3⟩
      rw [hocc] at this; cases this
    · intro b j ir hir x hx hv
      have hb := irs_getElem hir
      obtain ⟨v, _, e1, e2, e3, _⟩ := hstart x hx
      have := (c2 b _ (hblk b hb)).2.2 j ir hir v (e1 ▸ hv)
      rw [base_withFlow (by omega)] at this
      rw [e2, e3]
      exact ⟨by omega, by omega⟩
    · intro b hb x hx hp hl
      obtain ⟨v, hv, e1, e2, e3, _⟩ := hstart x hx
      have := (c2 b _ (hblk b hb)).1 v ((hflow b v hv (e1 ▸ hskip x hx hp)).1 (e1 ▸ hl))
      rw [base_withFlow (by omega)] at this
      rw [e2]; exact this.1
    · intro b hb c hbc x hx hp hl
      obtain ⟨v, hv, e1, e2, e3, _⟩ := hstart x hx
      have := (c2 b _ (hblk b hb)).2.1 v ((hflow b v hv (e1 ▸ hskip x hx hp)).2 c hbc (e1 ▸ hl))
      rw [base_withFlow (by omega)] at this
      rw [e3]
      have h2 := this.2
      dsimp only at h2
      omega
    · intro x hx r hr
      exact (scan_assigned hvn hsorted hmono hwfs hsc hx hr).2.2.1

theorem allocate_facts {S : Sem Val World} {M : Machine} {s : Settings} {f : Func} {R : Result}
    (hwf : Wf S M s f) (h : allocate s f = some R) : Facts s f R := by
  have hdom : ∀ b, f.blocks.length ≤ b → f.irs b = [] ∧ f.frm b = [] := by
    intro b hb
    refine ⟨?_, hwf.frmDom b hb⟩
    unfold Func.irs
    rw [List.getD_eq_getElem?_getD, List.getElem?_eq_none hb]; rfl
  obtain ⟨fl, hfl, hins, houts⟩ := analyze_exact hwf.frmLt hdom
  unfold allocate at h
  rw [hfl] at h
  exact allocateWith_facts hwf h (fun b v _ _ =>
    ⟨(hins b v).2, fun c hbc hl => (houts b v).2 ⟨c, hbc, hl⟩⟩)

/-! ### Live ranges are inside the intervals -/

theorem live_stop {s : Settings} {f : Func} {R : Result} (F : Facts s f R) {b j : Nat} {x : LI}
    (hx : x ∈ R.xs) (hp : R.st.phys x.virt ≠ none) (hj : j ≤ (f.irs b).length)
    (hb : b < f.blocks.length)
    (hl : Live f b j x.virt) : ((f.base b + j : Nat) : Int) ≤ x.stop := by
  rcases hl with ⟨pre, i, post, he, ho, _⟩ | ⟨_, c, hbc, hlc⟩
  · have hi : (f.irs b)[j + pre.length]? = some i := by
      rw [← List.getElem?_drop, he]; simp
    have := (F.mention b _ i hi x hx (by
      unfold Ir.vregs
      rcases ho with ho | ho <;> simp [ho])).2
    omega
  · have := F.outs b hb c hbc x hx hp hlc
    omega

theorem live_start {s : Settings} {f : Func} {R : Result} (F : Facts s f R) {b j : Nat} {x : LI}
    (hx : x ∈ R.xs) (hp : R.st.phys x.virt ≠ none) (hj : j ≤ (f.irs b).length)
    (hb : b < f.blocks.length)
    (hl : Live f b j x.virt) :
    x.start < f.base b + j ∨ (LiveIn f.irs f.frm x.virt b ∧ x.start = (f.base b : Nat) ∧ j = 0) := by
  -- either written earlier in the block or live at its start
  have hcase : LiveIn f.irs f.frm x.virt b ∨ ∃ i ir, i < j ∧ (f.irs b)[i]? = some ir ∧
      ir.dst = some x.virt := by
    clear hx hp F
    induction j with
    | zero => exact .inl (live_zero hl)
    | succ j ih =>
      have hlt : j < (f.irs b).length := by omega
      have hir : (f.irs b)[j]? = some (f.irs b)[j] := List.getElem?_eq_getElem hlt
      by_cases hd : ((f.irs b)[j]).dst = some x.virt
      · exact .inr ⟨j, _, by omega, hir, hd⟩
      · rcases ih (by omega) (live_pred hir hd hl) with h | ⟨i, ir, h1, h2⟩
        · exact .inl h
        · exact .inr ⟨i, ir, by omega, h2⟩
  rcases hcase with h | ⟨i, ir, hij, hir, hd⟩
  · have := F.ins b hb x hx hp h
    by_cases hlt : x.start < f.base b + j
    · exact .inl hlt
    · exact .inr ⟨h, by omega, by omega⟩
  · have := (F.mention b i ir hir x hx (by unfold Ir.vregs; simp [hd])).1
    left; omega

/-! ### Simulation -/

/-- The states agree: same place, same world, every live register holds its value, and so does
every argument register. -/
structure Rel (f : Func) (R : Result) (vc : VC Val World) (pc : PC Val World) : Prop where
  b : pc.b = vc.b
  j : pc.j = vc.j
  w : pc.w = vc.w
  inside : vc.j ≤ (f.irs vc.b).length
  blk : vc.b < f.blocks.length
  live : ∀ v r, v < f.nv → Live f vc.b vc.j v → R.st.phys v = some r → pc.P (f.flo v) r = vc.V v
  args : ∀ g r, argsAt f.code (f.base vc.b + vc.j) g r = true → pc.P g r = vc.A g r

theorem mem_code {f : Func} {b j : Nat} {ir : Ir} (h : (f.irs b)[j]? = some ir) : ir ∈ f.code :=
  List.mem_of_getElem? (code_getElem h)

/-- One step: whatever values the destroyed registers get, the physical state follows the virtual
one. -/
theorem sim_step {S : Sem Val World} {M : Machine} {s : Settings} {f : Func} {R : Result}
    (hwf : Wf S M s f) (F : Facts s f R) (hben : Benign M f R)
    {vc : VC Val World} {pc pc' : PC Val World} (hrel : Rel f R vc pc) (hstep : PStep S M f R pc pc') :
    ∃ vc', vstep S f R.st.phys vc = some vc' ∧ Rel f R vc' pc' := by
  obtain ⟨vb, vj, V, A, w⟩ := vc
  obtain ⟨pb, pj, P, pw⟩ := pc
  obtain ⟨rb, rj, rw_, rin, rblk, rlive, rargs⟩ := hrel
  dsimp only at rb rj rw_ rin rblk rlive rargs
  subst rb rj rw_
  cases hstep with
  | jump h hn =>
    dsimp only at h hn
    have hbc := hwf.edge _ _ _ hn
    rename_i b'
    have hb' : b' < f.blocks.length := by
      by_contra hc
      rw [hwf.frmDom b' (by omega)] at hbc; cases hbc
    refine ⟨{ b := b', j := 0, V := V, A := A, w := pw }, ?_, ⟨rfl, rfl, rfl, Nat.zero_le _, hb', ?_, ?_⟩⟩
    · simp only [vstep, h, hn]
    · intro v r hv hl hr
      exact rlive v r hv (live_end h hbc hl) hr
    · intro g r hg
      dsimp only at hg
      rw [Nat.add_zero, hwf.argsLocal b' (by omega) g r] at hg; cases hg
  | instr h hj =>
    rename_i ir P1
    dsimp only at h hj
    have hcode := code_getElem h
    have hmemc := mem_code h
    have hjl : pj < (f.irs pb).length := (List.getElem?_eq_some_iff.1 h).1
    -- operands
    have hop : ∀ o, (o = ir.opr1 ∨ o = ir.opr2) →
        rdP S f R.st.phys P o = rdV S R.st.phys V o := by
      intro o ho
      cases o with
      | none => rfl
      | some v =>
        unfold rdP rdV
        dsimp only
        cases hr : R.st.phys v with
        | none => rfl
        | some r =>
          dsimp only
          have hvr : v ∈ ir.vregs := by
            unfold Ir.vregs
            rcases ho with ho | ho <;> simp [← ho]
          exact rlive v r (hwf.regs ir hmemc v hvr) (live_use h (by
            rcases ho with ho | ho
            · exact .inl ho.symm
            · exact .inr ho.symm)) hr
    have hargs : argsOf (argsAt f.code (f.base pb + pj)) P = argsOf (argsAt f.code (f.base pb + pj)) A := by
      funext g r
      unfold argsOf
      split
      · rename_i hg; rw [rargs g r hg]
      · rfl
    rw [hop ir.opr1 (.inl rfl), hop ir.opr2 (.inr rfl), hargs]
    generalize hx : rdV S R.st.phys V ir.opr1 = x
    generalize hy : rdV S R.st.phys V ir.opr2 = y
    generalize hres : S.exec pb pj pw x y (argsOf (argsAt f.code (f.base pb + pj)) A) = res
    refine ⟨{ b := pb, j := pj + 1, V := wrV V ir.dst res.1, A := setP A ir.push x, w := res.2 }, ?_,
      ⟨rfl, rfl, rfl, by dsimp only; omega, rblk, ?_, ?_⟩⟩
    · simp only [vstep, h, hx, hy, hres]
    · -- live registers
      intro v r hv hl hr
      dsimp only at hl ⊢
      obtain ⟨xv, hxv, rfl⟩ := F.ofVirt v hv
      by_cases hd : ir.dst = some xv.virt
      · -- the destination
        have hloc : dstLoc f R.st.phys ir.dst = some (f.flo xv.virt, r) := by
          rw [hd]; simp [dstLoc, hr]
        unfold setP wrV
        rw [if_pos hloc, if_pos hd]
      · -- another register
        have hlj := live_pred h hd hl
        have hstop := live_stop F hxv (by rw [hr]; simp) (by omega : pj + 1 ≤ _) rblk hl
        have hstart := live_start F hxv (by rw [hr]; simp) rin rblk hlj
        have hflo := F.flo xv hxv
        have hstartle : xv.start ≤ (f.base pb + pj : Nat) := by
          rcases hstart with h1 | ⟨_, h1, h2⟩ <;> omega
        have hbenign : ¬ xv.start < (f.base pb + pj : Nat) → ir.call = false ∧
            (∀ r, M.clob pb pj r = false) ∧ ∀ y ∈ R.xs, ir.dst = some y.virt → xv.start < y.stop := by
          intro hn
          rcases hstart with h1 | ⟨h1, h2, h3⟩
          · omega
          · subst h3
            exact hben xv hxv (by rw [hr]; simp) pb h1 h2 ir h
        have hnd : dstLoc f R.st.phys ir.dst ≠ some (f.flo xv.virt, r) := by
          intro hloc
          cases hdd : ir.dst with
          | none => rw [hdd] at hloc; cases hloc
          | some d =>
            rw [hdd] at hloc
            unfold dstLoc at hloc
            dsimp only at hloc
            obtain ⟨q, hq1, hq2⟩ := Option.map_eq_some_iff.1 hloc
            obtain ⟨hf, rfl⟩ := Prod.mk.inj hq2
            have hdv : d ∈ ir.vregs := by unfold Ir.vregs; simp [hdd]
            obtain ⟨yd, hyd, rfl⟩ := F.ofVirt d (hwf.regs ir hmemc d hdv)
            have hm := F.mention pb pj ir h yd hyd hdv
            have hne : xv ≠ yd := by
              intro e; rw [e] at hd; exact hd hdd
            rcases F.disjoint xv hxv yd hyd hne (by rw [hflo, F.flo yd hyd, hf]) q hr hq1 with hc | hc
            · omega
            · by_cases hlt : xv.start < (f.base pb + pj : Nat)
              · omega
              · have := (hbenign hlt).2.2 yd hyd hdd
                omega
        have hnp : ir.push ≠ some (f.flo xv.virt, r) := by
          intro hp
          -- the pushed register is occupied from the next instruction on
          have hcall : argsAt f.code (f.base pb + pj + 1) (f.flo xv.virt) r = true ∨ ir.call = true := by
            rw [argsAt_succ hcode]
            cases ir.call with
            | true => exact .inr rfl
            | false => simp [pushArg, hp]
          rcases hcall with ha | hc
          · have hnext : pj + 1 < (f.irs pb).length := by
              by_contra hge
              have e : f.base pb + pj + 1 = f.base (pb + 1) := by rw [base_succ rblk]; omega
              rw [e, hwf.argsLocal (pb + 1) (by omega)] at ha; cases ha
            have hn := code_getElem (f := f) (List.getElem?_eq_getElem hnext)
            refine F.occ xv hxv r hr (f.base pb + (pj + 1)) (by omega) ⟨_, hn, by omega, .inl ⟨.inl (by omega), .inr ?_⟩⟩
            rw [hflo, ← Nat.add_assoc]; exact ha
          · rw [(hwf.pushDst ir hmemc (by rw [hp]; simp)).2] at hc; cases hc
        have hP1 : P1 (f.flo xv.virt) r = P (f.flo xv.virt) r := by
          refine hj _ _ ?_
          rintro (⟨hf, hc⟩ | ⟨hc, hce, hca⟩)
          · by_cases hlt : xv.start < (f.base pb + pj : Nat)
            · refine F.occ xv hxv r hr (f.base pb + pj) (by omega)
                ⟨ir, hcode, by omega, .inl ⟨.inl (by omega), .inl ⟨by rw [hflo]; exact hf, ?_⟩⟩⟩
              exact hwf.clobExtra pb pj ir h r hc
            · rw [(hbenign hlt).2.1 r] at hc; cases hc
          · by_cases hlt : xv.start < (f.base pb + pj : Nat)
            · have hge : s.temp xv.flo ≤ r := by
                by_contra hlt2
                exact F.occ xv hxv r hr (f.base pb + pj) (by omega)
                  ⟨ir, hcode, by omega, .inr ⟨by omega, hc, by omega⟩⟩
              rcases hwf.saved xv.flo r hge (F.range xv hxv r hr) with hs | hs
              · rw [← hflo, hs] at hce; cases hce
              · refine hca ⟨by rw [← hflo]; exact hs, ?_⟩
                rw [← hflo]
                exact living_complete F.sorted (fun z hz => (F.start z hz).1) F.ordered hxv hr
                  (by omega) (by omega)
            · rw [(hbenign hlt).1] at hc; cases hc
        unfold setP wrV
        rw [if_neg hnd, if_neg hnp, if_neg hd, hP1]
        exact rlive xv.virt r hv hlj hr
    · -- argument registers
      intro g r hg
      dsimp only at hg ⊢
      have hsucc := argsAt_succ hcode
      rw [← Nat.add_assoc] at hg
      have hnc : ir.call = false := by
        cases hc : ir.call with
        | false => rfl
        | true => rw [hsucc, hc] at hg; simp at hg
      have hnext : pj + 1 < (f.irs pb).length := by
        by_contra hge
        have e : f.base pb + pj + 1 = f.base (pb + 1) := by rw [base_succ rblk]; omega
        rw [e, hwf.argsLocal (pb + 1) (by omega)] at hg; cases hg
      have hn := code_getElem (f := f) (List.getElem?_eq_getElem hnext)
      have hcases : argsAt f.code (f.base pb + pj) g r = true ∨ ir.push = some (g, r) := by
        rw [hsucc, hnc] at hg
        simp only [Bool.false_eq_true, if_false, pushArg] at hg
        cases hp : ir.push with
        | none => rw [hp] at hg; exact .inl hg
        | some t =>
          obtain ⟨f', n'⟩ := t
          rw [hp] at hg
          simp only [Bool.or_eq_true, Bool.and_eq_true, decide_eq_true_eq] at hg
          rcases hg with hg | ⟨h1, h2⟩
          · exact .inl hg
          · rw [h1, h2]; exact .inr rfl
      have hnd : dstLoc f R.st.phys ir.dst ≠ some (g, r) := by
        intro hloc
        cases hdd : ir.dst with
        | none => rw [hdd] at hloc; cases hloc
        | some d =>
          rw [hdd] at hloc
          unfold dstLoc at hloc
          dsimp only at hloc
          obtain ⟨q, hq1, hq2⟩ := Option.map_eq_some_iff.1 hloc
          obtain ⟨hf, rfl⟩ := Prod.mk.inj hq2
          have hdv : d ∈ ir.vregs := by unfold Ir.vregs; simp [hdd]
          obtain ⟨yd, hyd, rfl⟩ := F.ofVirt d (hwf.regs ir hmemc d hdv)
          have hm := F.mention pb pj ir h yd hyd hdv
          have hyf := F.flo yd hyd
          by_cases hlt : yd.start < (f.base pb + pj : Nat)
          · rcases hcases with ha | ha
            · refine F.occ yd hyd q hq1 (f.base pb + pj) (by omega)
                ⟨ir, hcode, by omega, .inl ⟨.inl (by omega), .inr ?_⟩⟩
              rw [hyf, hf]; exact ha
            · have := (hwf.pushDst ir hmemc (by rw [ha]; simp)).1
              rw [this] at hdd; cases hdd
          · refine F.occ yd hyd q hq1 (f.base pb + (pj + 1)) (by omega)
              ⟨_, hn, by omega, .inl ⟨.inr (by omega), .inr ?_⟩⟩
            rw [hyf, hf, ← Nat.add_assoc]; exact hg
      unfold setP
      rw [if_neg hnd]
      by_cases hp : ir.push = some (g, r)
      · rw [if_pos hp, if_pos hp]
      · rw [if_neg hp, if_neg hp]
        have ha : argsAt f.code (f.base pb + pj) g r = true := by
          rcases hcases with ha | ha
          · exact ha
          · exact absurd ha hp
        rw [← rargs g r ha]
        refine hj _ _ ?_
        rintro (⟨hf, hc⟩ | ⟨hc, _⟩)
        · subst hf
          rw [hwf.argsSafe pb pj r hc] at hg; cases hg
        · rw [hnc] at hc; cases hc

/-- Conversely, the machine can step whenever the program can. -/
theorem sim_progress {S : Sem Val World} (M : Machine) {f : Func} {R : Result}
    {vc vc' : VC Val World} {pc : PC Val World} (hrel : Rel f R vc pc)
    (hstep : vstep S f R.st.phys vc = some vc') : ∃ pc', PStep S M f R pc pc' := by
  obtain ⟨vb, vj, V, A, w⟩ := vc
  obtain ⟨pb, pj, P, pw⟩ := pc
  obtain ⟨rb, rj, rw_, -, -, -, -⟩ := hrel
  dsimp only at rb rj rw_
  subst rb rj rw_
  unfold vstep at hstep
  dsimp only at hstep
  cases h : (f.irs pb)[pj]? with
  | some ir => exact ⟨_, .instr (P1 := P) h (fun _ _ _ => rfl)⟩
  | none =>
    rw [h] at hstep
    dsimp only at hstep
    cases hn : S.next pb pw with
    | none => rw [hn] at hstep; cases hstep
    | some b' => exact ⟨_, .jump h hn⟩

/-- Any number of machine steps. -/
inductive PSteps (S : Sem Val World) (M : Machine) (f : Func) (R : Result) :
    Nat → PC Val World → PC Val World → Prop
  | zero {c : PC Val World} : PSteps S M f R 0 c c
  | succ {n : Nat} {c c' c'' : PC Val World} : PSteps S M f R n c c' → PStep S M f R c' c'' →
      PSteps S M f R (n + 1) c c''

/-- `n` steps of the program. -/
def vsteps (S : Sem Val World) (f : Func) (phys : Nat → Option Nat) : Nat → VC Val World →
    Option (VC Val World)
  | 0, c => some c
  | n + 1, c => (vsteps S f phys n c).bind (vstep S f phys)

/-- **C34**: if the parameters (and whatever else is live on entry) are in their registers, then
after any number of steps the allocated code is at the same place of the function as the program
over virtual registers, in the same world, whatever calls and fixed-register instructions leave in
the registers they destroy. It holds for every function whose block layout is `Benign`. -/
theorem alloc_preserves_partial {S : Sem Val World} {M : Machine} {s : Settings} {f : Func}
    {R : Result} (hwf : Wf S M s f) (hal : allocate s f = some R) (hben : Benign M f R)
    {V : Nat → Val} {A P : Bool → Nat → Val} {w : World} (hne : 0 < f.blocks.length)
    (hentry : ∀ v r, v < f.nv → LiveIn f.irs f.frm v 0 → R.st.phys v = some r → P (f.flo v) r = V v)
    {n : Nat} {pc : PC Val World} (hrun : PSteps S M f R n ⟨0, 0, P, w⟩ pc) :
    ∃ vc, vsteps S f R.st.phys n ⟨0, 0, V, A, w⟩ = some vc ∧ vc.b = pc.b ∧ vc.j = pc.j ∧ vc.w = pc.w ∧
      ∀ v r, v < f.nv → Live f vc.b vc.j v → R.st.phys v = some r → pc.P (f.flo v) r = vc.V v := by
  have hinit : Rel f R (⟨0, 0, V, A, w⟩ : VC Val World) ⟨0, 0, P, w⟩ := by
    refine ⟨rfl, rfl, rfl, Nat.zero_le _, hne, ?_, ?_⟩
    · intro v r hv hl hr
      exact hentry v r hv (live_zero hl) hr
    · intro g r hg
      dsimp only at hg
      rw [Nat.add_zero, hwf.argsLocal 0 (Nat.zero_le _) g r] at hg; cases hg
  have key : ∃ vc, vsteps S f R.st.phys n ⟨0, 0, V, A, w⟩ = some vc ∧ Rel f R vc pc := by
    generalize hc0 : (⟨0, 0, P, w⟩ : PC Val World) = c0 at hrun
    induction hrun with
    | zero => subst hc0; exact ⟨_, rfl, hinit⟩
    | succ _ hs ih =>
      obtain ⟨vc, h1, h2⟩ := ih hc0
      obtain ⟨vc', h3, h4⟩ := sim_step hwf (allocate_facts hwf hal) hben h2 hs
      exact ⟨vc', by rw [vsteps, h1]; exact h3, h4⟩
  obtain ⟨vc, h1, h2⟩ := key
  exact ⟨vc, h1, h2.b.symm, h2.j.symm, h2.w.symm, h2.live⟩

/-! ### Targets -/

/-- src/cc/arch/x64/ir_x64.c:55-80: registers saved by the callee and by the caller. -/
def x64Machine (clob : Nat → Nat → Nat → Bool) : Machine :=
  { clob := clob
    calleeSaved := fun flo r => !flo && [7, 8, 9, 10, 11, 12].contains r
    callerSaved := fun flo r => if flo then [8, 9, 10, 11, 12, 13, 14, 15].contains r
      else [13, 14].contains r }

/-- src/cc/arch/aarch64/ir_aarch64.c:36-71. -/
def aarch64Settings : Settings :=
  { physMax := 28, physTemp := 11, fphysMax := 32, fphysTemp := 8,
    mapping := fun i => if i < 8 then some i else none }

/-- src/cc/arch/aarch64/ir_aarch64.c:36-71. -/
def aarch64Machine (clob : Nat → Nat → Nat → Bool) : Machine :=
  { clob := clob
    calleeSaved := fun flo r => if flo then [8, 9, 10, 11, 12, 13, 14, 15].contains r
      else [11, 12, 13, 14, 15, 16, 17, 18, 19, 20, 21].contains r
    callerSaved := fun flo r => if flo then
        [16, 17, 18, 19, 20, 21, 22, 23, 24, 25, 26, 27, 28, 29, 30, 31].contains r
      else [22, 23, 24, 25, 26, 27].contains r }

/-- src/cc/arch/riscv64/ir_riscv64.c:18-51. -/
def riscv64Settings : Settings :=
  { physMax := 26, physTemp := 8, fphysMax := 32, fphysTemp := 8,
    mapping := fun i => if i < 8 then some i else none }

/-- src/cc/arch/riscv64/ir_riscv64.c:25-51. -/
def riscv64Machine (clob : Nat → Nat → Nat → Bool) : Machine :=
  { clob := clob
    calleeSaved := fun flo r => if flo then [8, 9, 10, 11, 12, 13, 14, 15, 17, 18, 19].contains r
      else [8, 9, 10, 11, 12, 13, 14, 15, 16, 17, 18].contains r
    callerSaved := fun flo r => if flo then
        [20, 21, 22, 23, 24, 25, 26, 27, 28, 29, 30, 31].contains r
      else [19, 20, 21, 22, 23, 24, 25].contains r }

/-- Every allocatable register which is not temporary is saved by the callee or by the caller. -/
def Machine.Covers (M : Machine) (s : Settings) : Prop :=
  ∀ flo r, s.temp flo ≤ r → r < s.max flo → M.calleeSaved flo r = true ∨ M.callerSaved flo r = true

theorem covers_of_table {M : Machine} {s : Settings}
    (h : ∀ flo : Bool, ∀ r ∈ List.range (s.max flo), s.temp flo ≤ r →
      M.calleeSaved flo r = true ∨ M.callerSaved flo r = true) : M.Covers s :=
  fun flo r h1 h2 => h flo r (List.mem_range.2 h2) h1

theorem x64_covers (clob : Nat → Nat → Nat → Bool) : (x64Machine clob).Covers x64Settings := by
  change (x64Machine fun _ _ _ => false).Covers x64Settings
  exact covers_of_table (by decide)

theorem aarch64_covers (clob : Nat → Nat → Nat → Bool) :
    (aarch64Machine clob).Covers aarch64Settings := by
  change (aarch64Machine fun _ _ _ => false).Covers aarch64Settings
  exact covers_of_table (by decide)

/-- General registers of RISC-V are covered. -/
theorem riscv64_covers_partial (clob : Nat → Nat → Nat → Bool) :
    ∀ flo r, riscv64Settings.temp flo ≤ r → r < riscv64Settings.max flo → (flo, r) ≠ (true, 16) →
      (riscv64Machine clob).calleeSaved flo r = true ∨ (riscv64Machine clob).callerSaved flo r = true := by
  intro flo r h1 h2 h3
  have : ∀ flo : Bool, ∀ r ∈ List.range (riscv64Settings.max flo), riscv64Settings.temp flo ≤ r →
      (flo, r) ≠ (true, 16) →
      (riscv64Machine clob).calleeSaved flo r = true ∨ (riscv64Machine clob).callerSaved flo r = true := by
    change ∀ flo : Bool, ∀ r ∈ List.range (riscv64Settings.max flo), riscv64Settings.temp flo ≤ r →
      (flo, r) ≠ (true, 16) →
      (riscv64Machine fun _ _ _ => false).calleeSaved flo r = true ∨
      (riscv64Machine fun _ _ _ => false).callerSaved flo r = true
    decide
  exact this flo r (List.mem_range.2 h2) h1 h3

/-- Finding: on RISC-V `fs8` (index 16) is allocatable across calls, and nobody saves it. -/
theorem riscv64_fs8_not_saved (clob : Nat → Nat → Nat → Bool) :
    ¬ (riscv64Machine clob).Covers riscv64Settings := by
  change ¬ (riscv64Machine fun _ _ _ => false).Covers riscv64Settings
  intro h
  rcases h true 16 (by decide) (by decide) with h | h <;> revert h <;> decide

/-! ### Concrete case -/

/-- Notation: a call. -/
def mkCall (d : Option Nat) : Ir := ⟨d, none, none, fun _ => false, none, true⟩
/-- Notation: an argument. -/
def mkPush (a : Nat) (r : Nat) : Ir := ⟨none, some a, none, fun _ => false, some (false, r), false⟩

/-- `int v1 = v0; do { v2 = f(v1); v1 = v1 + v2; } while (v1); return v1;` -/
def good : Func :=
  { nv := 3
    blocks := [[mk (some 1) (some 0) none],
      [mkPush 1 1, mkCall (some 2), mk (some 1) (some 1) (some 2), mk none (some 1) none],
      [mk none (some 1) none]]
    frm := fun b => match b with
      | 1 => [0, 1]
      | 2 => [1]
      | _ => []
    param := fun v => v == 0
    flo := fun _ => false
    ip := fun v => if v = 0 then some 0 else none
    skip := fun _ => false }

/-- Some semantics for it: the world is the value last compared. -/
def goodSem : Sem Int Int :=
  { dflt := 0
    exec := fun b j w x y args => match b, j with
      | 0, _ => (x, w)
      | 1, 1 => (match args false 1 with
          | some a => a - 1
          | none => 0, w)
      | 1, 2 => (x + y, w)
      | 1, 3 => (0, x)
      | _, _ => (0, w)
    next := fun b w => match b with
      | 0 => some 1
      | 1 => if w > 100 then some 2 else some 1
      | _ => none }

/-- Registers given out: v0 in its parameter register, v1 survives the call. -/
example : (allocate x64Settings good).map (fun R => [0, 1, 2].map R.st.phys) =
    some [some 1, some 7, some 0] := by decide +kernel

example : Wf goodSem (x64Machine fun _ _ _ => false) x64Settings good := by
  refine ⟨?_, ?_, ?_, ?_, ?_, ?_, ?_, ?_, ?_, ?_, x64_covers _⟩
  · intro b
    match b with
    | 0 => simp [good]
    | 1 => simp [good]
    | 2 => simp [good]
    | _ + 3 => simp [good]
  · intro b h
    match b, h with
    | _ + 3, _ => rfl
  · intro b w c h
    match b, h with
    | 0, h => cases h; simp [good]
    | 1, h =>
      simp only [goodSem] at h
      split at h <;> cases h <;> simp [good]
    | _ + 2, h => cases h
  · decide
  · intro i r h
    match i, h with
    | 0, h => cases h; decide
    | 1, h => cases h; decide
    | 2, h => cases h; decide
    | 3, h => cases h; decide
    | 4, h => cases h; decide
    | 5, h => cases h; decide
    | _ + 6, h => cases h
  · intro v h; cases h
  · decide
  · intro b hb g r
    have hb : b ≤ 3 := hb
    rcases (by omega : b = 0 ∨ b = 1 ∨ b = 2 ∨ b = 3) with rfl | rfl | rfl | rfl <;> rfl
  · intro b j r h; cases h
  · intro b j ir _ r h; cases h

example : ∃ R, allocate x64Settings good = some R ∧ Benign (x64Machine fun _ _ _ => false) good R := by
  have h : (allocate x64Settings good).isSome = true := by decide +kernel
  refine ⟨(allocate x64Settings good).get h, (Option.some_get h).symm, ?_⟩
  have h1 : ∀ x ∈ ((allocate x64Settings good).get h).xs, ∀ b ∈ [0, 1, 2],
      x.start = ((good.base b : Nat) : Int) → b = 0 := by decide +kernel +revert
  have h2 : ∀ x ∈ ((allocate x64Settings good).get h).xs, x.start = 0 →
      ∀ y ∈ ((allocate x64Settings good).get h).xs, y.virt = 1 → x.start < y.stop := by decide +kernel +revert
  intro x hx _ b _ hs ir hir
  have hb : b < 3 := irs_getElem hir
  have hb0 := h1 x hx b (by simp; omega) hs
  subst hb0
  have hir' : (some (mk (some 1) (some 0) none) : Option Ir) = some ir := hir
  cases hir'
  refine ⟨rfl, fun _ => rfl, fun y hy hd => ?_⟩
  have : (1 : Nat) = y.virt := Option.some.inj hd
  exact h2 x hx hs y hy this.symm

/-! ### Finding: the first instruction of a loop body -/

/-- `while ((c = *p++) != 0) { f(); n += c; }` as laid out by `gen_while` (src/cc/backend/codegen.c:
526-543): the body (block 1) comes before the condition (block 2). `c` is v0, `p` is v1. -/
def loopCall : Func :=
  { nv := 2
    blocks := [[mk none none none],
      [mkCall none, mk none (some 0) none],
      [mk (some 0) (some 1) none, mk none (some 0) none],
      [mk none none none]]
    frm := fun b => match b with
      | 1 => [2]
      | 2 => [0, 1]
      | 3 => [2]
      | _ => []
    param := fun v => v == 1
    flo := fun _ => false
    ip := fun v => if v = 1 then some 0 else none
    skip := fun _ => false }

/-- Its semantics on the string of one character 7: the world counts the characters read and has
the last value used in the body. -/
def loopSem : Sem Nat (Nat × Nat) :=
  { dflt := 0
    exec := fun b j w x _ _ => match b, j with
      | 1, 1 => (0, (w.1, x))
      | 2, 0 => (7, (w.1 + 1, w.2))
      | _, _ => (0, w)
    next := fun b w => match b with
      | 0 => some 2
      | 1 => some 2
      | 2 => if w.1 = 1 then some 1 else some 3
      | _ => none }

theorem loopCall_wf : Wf loopSem (x64Machine fun _ _ _ => false) x64Settings loopCall := by
  refine ⟨?_, ?_, ?_, ?_, ?_, ?_, ?_, ?_, ?_, ?_, x64_covers _⟩
  · intro b
    match b with
    | 0 => simp [loopCall]
    | 1 => simp [loopCall]
    | 2 => simp [loopCall]
    | 3 => simp [loopCall]
    | _ + 4 => simp [loopCall]
  · intro b h
    match b, h with
    | _ + 4, _ => rfl
  · intro b w c h
    match b, h with
    | 0, h => cases h; simp [loopCall]
    | 1, h => cases h; simp [loopCall]
    | 2, h =>
      simp only [loopSem] at h
      split at h <;> cases h <;> simp [loopCall]
    | _ + 3, h => cases h
  · decide
  · intro i r h
    match i, h with
    | 0, h => cases h; decide
    | 1, h => cases h; decide
    | 2, h => cases h; decide
    | 3, h => cases h; decide
    | 4, h => cases h; decide
    | 5, h => cases h; decide
    | _ + 6, h => cases h
  · intro v h; cases h
  · decide
  · intro b hb g r
    have hb : b ≤ 4 := hb
    rcases (by omega : b = 0 ∨ b = 1 ∨ b = 2 ∨ b = 3 ∨ b = 4) with rfl | rfl | rfl | rfl | rfl <;> rfl
  · intro b j r h; cases h
  · intro b j ir _ r h; cases h

/-- The interval of `c` starts at the call `f()`, and `c` gets register 0 (rax), which the call
destroys. -/
theorem loopCall_register : (allocate x64Settings loopCall).map (fun R =>
    (R.xs.map (fun x => (x.virt, x.start, x.stop)), R.st.phys 0)) =
    some ([(1, -1, 5), (0, 1, 5)], some 0) := by decide +kernel

/-- **Finding (C34)**: for this function the allocated code and the program disagree: after 7 steps
the program has used the character 7 while the machine may have used whatever `f` left in rax. -/
theorem loopCall_miscompiled : ∃ R, allocate x64Settings loopCall = some R ∧
    ∃ (P : Bool → Nat → Nat) (pc : PC Nat (Nat × Nat)),
      PSteps loopSem (x64Machine fun _ _ _ => false) loopCall R 7 ⟨0, 0, P, (0, 0)⟩ pc ∧
      pc.w = (1, 99) ∧
      ∀ (V : Nat → Nat) (A : Bool → Nat → Nat),
        (vsteps loopSem loopCall R.st.phys 7 ⟨0, 0, V, A, (0, 0)⟩).map (fun c => c.w) = some (1, 7) := by
  have h : (allocate x64Settings loopCall).isSome = true := by decide +kernel
  have h0 : ((allocate x64Settings loopCall).get h).st.phys 0 = some 0 := by decide +kernel +revert
  generalize hR : (allocate x64Settings loopCall).get h = R at h0
  refine ⟨R, by rw [← hR]; exact (Option.some_get h).symm, fun _ _ => 0, ?_⟩
  have hd : loopCall.flo 0 = false := rfl
  have s1 := PSteps.succ PSteps.zero (PStep.instr (S := loopSem) (M := x64Machine fun _ _ _ => false)
    (f := loopCall) (R := R) (c := ⟨0, 0, fun _ _ => 0, (0, 0)⟩) (ir := mk none none none)
    (P1 := fun _ _ => 0) rfl (fun _ _ _ => rfl))
  have s2 := PSteps.succ s1 (PStep.jump (b' := 2) rfl rfl)
  have s3 := PSteps.succ s2 (PStep.instr (ir := mk (some 0) (some 1) none)
    (P1 := fun _ _ => 0) rfl (fun _ _ _ => rfl))
  have s4 := PSteps.succ s3 (PStep.instr (ir := mk none (some 0) none)
    (P1 := fun g r => if g = false ∧ r = 0 then 7 else 0) rfl (by
      intro g r _
      simp only [setP, dstLoc, mk, loopSem, h0, hd, Option.map_some]
      by_cases hc : g = false ∧ r = 0
      · obtain ⟨rfl, rfl⟩ := hc
        simp
      · rw [if_neg hc, if_neg]
        · simp
        · intro e
          simp only [Option.some.injEq, Prod.mk.injEq] at e
          exact hc ⟨e.1.symm, e.2.symm⟩))
  have s5 := PSteps.succ s4 (PStep.jump (b' := 1) rfl rfl)
  have s6 := PSteps.succ s5 (PStep.instr (ir := mkCall none)
    (P1 := fun g r => if g = false ∧ r = 0 then 99 else 0) rfl (by
      intro g r hn
      have hc : ¬ (g = false ∧ r = 0) := by
        rintro ⟨rfl, rfl⟩
        exact hn (.inr ⟨rfl, rfl, by simp [x64Machine]⟩)
      rw [if_neg hc]
      simp only [setP, dstLoc, mk]
      simp [hc]))
  have s7 := PSteps.succ s6 (PStep.instr (ir := mk none (some 0) none)
    (P1 := fun g r => if g = false ∧ r = 0 then 99 else 0) rfl (by
      intro g r _
      simp [setP, dstLoc, mkCall]))
  refine ⟨_, s7, ?_, ?_⟩
  · simp [loopSem, rdP, mk, h0, hd, setP, dstLoc, mkCall]
  · intro V A
    simp [vsteps, vstep, Func.irs, loopCall, mk, mkCall, loopSem, rdV, wrV, h0]

end Verif.AllocSim

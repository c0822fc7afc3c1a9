/-
The intermediate code of the back end, as the optimizer sees it: blocks of instructions on virtual registers, with
phi functions, and a machine that runs it.  This is the specification the optimizer passes (C57-C61) are measured
against.

/repo/src/cc/backend/ir.h:20-290, /repo/src/cc/backend/ir.c:395-459.

Simplifications: what an instruction calculates is a parameter of the machine.  The jump at the end of a block is
kept apart from the other instructions.  A block is named by its position in the container; the successor
`bb->next` is the next position.
-/

namespace Verif.Ir

/-- `VReg`: a constant or a register; the number is `virt`. -/
inductive Opr (V : Type) where
  | const (v : V)
  | reg (r : Nat)
deriving DecidableEq, Repr

/-- `IR`, except jumps (ir.h:144-200). -/
structure Ins (K V : Type) where
  kind : K
  dst : Option Nat
  o1 : Option (Opr V)
  o2 : Option (Opr V)
deriving DecidableEq, Repr

/-- How a block ends: no jump, `IR_JMP` with `COND_ANY`, with a condition, `IR_TJMP`. -/
inductive Last (K V : Type) where
  | next
  | jmp (b : Nat)
  | cjmp (k : K) (o1 o2 : Opr V) (b : Nat)
  | tjmp (o : Opr V) (bs : List Nat)
deriving DecidableEq, Repr

/-- `Phi`, ir.h:263-266. -/
structure Phi (V : Type) where
  dst : Nat
  params : List (Opr V)
deriving DecidableEq, Repr

/-- `BB`, ir.h:270-281. -/
structure Block (K V : Type) where
  phis : List (Phi V)
  body : List (Ins K V)
  last : Last K V
deriving DecidableEq, Repr

/-- `BBContainer`; `frm b` is `from_bbs` of block `b`. -/
structure Prog (K V : Type) where
  blocks : List (Block K V)
  frm : Nat → List Nat

/-- The outcome of a piece of code: it goes on, it ends the program (or never ends) with effects `s`, it is undefined. -/
inductive Out (S α : Type) where
  | ok (a : α)
  | stop (s : S)
  | undef
deriving DecidableEq, Repr

/-- What the instructions do.  `S` is everything but the virtual registers: memory, input and output, the result
of the function.  Registers that live in memory (`VRF_FORCEMEMORY`) are read from it and written to it. -/
structure Machine (K V S : Type) where
  exec : K → Option V → Option V → S → Out S (V × S)
  test : K → V → V → Bool
  index : V → Nat
  get : S → Nat → V
  set : S → Nat → V → S

abbrev Env (V : Type) := Nat → V

variable {K V S : Type}

def Env.upd (ρ : Env V) (r : Nat) (v : V) : Env V := fun q => if q = r then v else ρ q

/-- The value of an operand; `mem`: the register lives in memory. -/
def rd (M : Machine K V S) (mem : Nat → Bool) (ρ : Env V) (s : S) : Opr V → V
  | .const v => v
  | .reg r => if mem r then M.get s r else ρ r

/-- The result is stored. -/
def wr (M : Machine K V S) (mem : Nat → Bool) (dst : Option Nat) (v : V) (ρ : Env V) (s : S) : Env V × S :=
  match dst with
  | none => (ρ, s)
  | some r => if mem r then (ρ, M.set s r v) else (ρ.upd r v, s)

/-- The instructions of a block. -/
def runBody (M : Machine K V S) (mem : Nat → Bool) : List (Ins K V) → Env V → S → Out S (Env V × S)
  | [], ρ, s => .ok (ρ, s)
  | i :: is, ρ, s =>
    match M.exec i.kind (i.o1.map (rd M mem ρ s)) (i.o2.map (rd M mem ρ s)) s with
    | .ok (v, s') => runBody M mem is (wr M mem i.dst v ρ s').1 (wr M mem i.dst v ρ s').2
    | .stop s' => .stop s'
    | .undef => .undef

/-- The next block; `none`: undefined. -/
def target (M : Machine K V S) (mem : Nat → Bool) (b : Nat) (ρ : Env V) (s : S) : Last K V → Option Nat
  | .next => some (b + 1)
  | .jmp c => some c
  | .cjmp k o1 o2 c => some (if M.test k (rd M mem ρ s o1) (rd M mem ρ s o2) then c else b + 1)
  | .tjmp o bs => bs[M.index (rd M mem ρ s o)]?

/-- All phi functions are calculated at once; `k` is the position of the predecessor in `from_bbs`. -/
def phiIn (M : Machine K V S) (mem : Nat → Bool) (phis : List (Phi V)) (k : Nat) (ρ : Env V) (s : S) : Env V :=
  fun r =>
    match phis.find? (fun φ => φ.dst == r) with
    | some φ =>
      match φ.params[k]? with
      | some o => rd M mem ρ s o
      | none => ρ r
    | none => ρ r

/-- A function while it runs: it is about to enter block `b`, coming from `prev`; or it has returned. -/
inductive Res (V S : Type) where
  | run (b : Nat) (prev : Option Nat) (ρ : Env V) (s : S)
  | done (s : S)
  | stop (s : S)
  | undef

/-- The registers after the phi functions. -/
def enter (M : Machine K V S) (mem : Nat → Bool) (phis : List (Phi V)) (frm : List Nat) (prev : Option Nat) (ρ : Env V)
    (s : S) : Env V :=
  match prev with
  | none => ρ
  | some p => phiIn M mem phis (frm.idxOf p) ρ s

/-- One block is run. -/
def step (M : Machine K V S) (mem : Nat → Bool) (P : Prog K V) : Res V S → Res V S
  | .run b prev ρ s =>
    match P.blocks[b]? with
    | none => .done s
    | some B =>
      match runBody M mem B.body (enter M mem B.phis (P.frm b) prev ρ s) s with
      | .ok (ρ', s') =>
        match target M mem b ρ' s' B.last with
        | some c => .run c (some b) ρ' s'
        | none => .undef
      | .stop s' => .stop s'
      | .undef => .undef
  | r => r

/-- `n` blocks are run. -/
def run (M : Machine K V S) (mem : Nat → Bool) (P : Prog K V) : Nat → Res V S → Res V S
  | 0, r => r
  | n + 1, r => run M mem P n (step M mem P r)

/-- What can be seen: the block and everything but the virtual registers. -/
inductive Obs (S : Type) where
  | at (b : Nat) (s : S)
  | done (s : S)
  | stop (s : S)
  | undef

def Res.obs : Res V S → Obs S
  | .run b _ _ s => .at b s
  | .done s => .done s
  | .stop s => .stop s
  | .undef => .undef

/-- `Q` does what `P` does, block by block, for ever, unless `P` is undefined. -/
def Refines (M : Machine K V S) (mem : Nat → Bool) (P Q : Prog K V) : Prop :=
  ∀ n ρ s, (run M mem P n (.run 0 none ρ s)).obs ≠ .undef →
    (run M mem Q n (.run 0 none ρ s)).obs = (run M mem P n (.run 0 none ρ s)).obs

theorem Refines.refl (M : Machine K V S) (mem : Nat → Bool) (P : Prog K V) : Refines M mem P P := fun _ _ _ _ => rfl

theorem Refines.trans {M : Machine K V S} {mem : Nat → Bool} {P Q R : Prog K V} (h1 : Refines M mem P Q)
    (h2 : Refines M mem Q R) : Refines M mem P R := by
  intro n ρ s h
  have h3 := h1 n ρ s h
  rw [← h3]
  exact h2 n ρ s (by rw [h3]; exact h)

/-- Results that agree up to the registers, which are related. -/
def Rel (R : Nat → Option Nat → Env V → Env V → S → Prop) : Res V S → Res V S → Prop
  | .run b p ρ s, .run b' p' ρ' s' => b' = b ∧ p' = p ∧ s' = s ∧ R b p ρ ρ' s
  | .done s, .done s' => s' = s
  | .stop s, .stop s' => s' = s
  | .undef, _ => True
  | _, _ => False

theorem Rel.obs {R : Nat → Option Nat → Env V → Env V → S → Prop} {r r' : Res V S} (h : Rel R r r') (hn : r.obs ≠ .undef) :
    r'.obs = r.obs := by
  cases r <;> cases r' <;> simp_all [Rel, Res.obs]

/-- A simulation is kept by any number of blocks. -/
theorem run_rel {M : Machine K V S} {mem : Nat → Bool} {P Q : Prog K V} {R : Nat → Option Nat → Env V → Env V → S → Prop}
    (hstep : ∀ b p ρ ρ' s, R b p ρ ρ' s → Rel R (step M mem P (.run b p ρ s)) (step M mem Q (.run b p ρ' s))) :
    ∀ (n : Nat) (r r' : Res V S), Rel R r r' → Rel R (run M mem P n r) (run M mem Q n r') := by
  have hfix : ∀ (P : Prog K V) n, run M mem P n (.undef : Res V S) = .undef := by
    intro P n
    induction n with
    | zero => rfl
    | succ n ih => exact ih
  intro n
  induction n with
  | zero => intro r r' h; exact h
  | succ n ih =>
    intro r r' h
    cases r with
    | undef => rw [hfix]; cases run M mem Q (n + 1) r' <;> trivial
    | run b p ρ s =>
      cases r' with
      | run b' p' ρ' s' =>
        obtain ⟨h1, h2, h3, h4⟩ := h
        subst h1 h2 h3
        exact ih _ _ (hstep _ _ _ _ _ h4)
      | _ => exact h.elim
    | done s => cases r' <;> first | exact h.elim | exact ih _ _ h
    | stop s => cases r' <;> first | exact h.elim | exact ih _ _ h

theorem refines_of {M : Machine K V S} {mem : Nat → Bool} {P Q : Prog K V} {R : Nat → Option Nat → Env V → Env V → S → Prop}
    (hstep : ∀ b p ρ ρ' s, R b p ρ ρ' s → Rel R (step M mem P (.run b p ρ s)) (step M mem Q (.run b p ρ' s)))
    (h0 : ∀ ρ s, R 0 none ρ ρ s) : Refines M mem P Q := by
  intro n ρ s hn
  exact (run_rel hstep n (.run 0 none ρ s) (.run 0 none ρ s) ⟨rfl, rfl, rfl, h0 ρ s⟩).obs hn

end Verif.Ir

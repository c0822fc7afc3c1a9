import Verif.Backend.ExprGen
import Verif.Front.ElabCorrect
import Mathlib.Tactic.IntervalCases
/-!
# The code of an expression computes its value (C69)

Theorems about ExprGen.lean, alone and together with the tree builder (C68): from the expression of the source to intermediate
code.
-/
namespace Verif.ExprGen
open Verif.Util Verif.Fold Verif.CExpr Verif.Elab
open Verif.X64 (rdM wrM imm)
open Verif.X64Sel (V Opr Ir Mach stepV opSem)

/-! ## Targets of assignments -/

/-- No target of an assignment merges two dereferences (the error of `mergedDeref_wrong`, fe_misc.c:633-637). -/
def redT : X → Bool
  | .lit _ _ => true
  | .var _ _ => true
  | .cast _ e => redT e
  | .bin _ _ a b => redT a && redT b
  | .rel _ a b => redT a && redT b
  | .land a b => redT a && redT b
  | .lor a b => redT a && redT b
  | .pos _ e => redT e
  | .neg _ e => redT e
  | .bnot _ e => redT e
  | .comma _ a b => redT a && redT b
  | .tern _ c a b => redT c && redT a && redT b
  | .asg _ l r => redT l && redT r && redOk (prep l)
  | .inc _ _ _ l => redT l && redOk (prep l)
  | .deref _ e => redT e
  | .ref _ e => redT e

/-- The same type, value, effects and object. -/
structure Same (Γ : Ctx) (x z : X) : Prop where
  wx : WX z
  ty : z.ty = x.ty
  cnd : Cnd x → Cnd z
  ev : ∀ ⦃τ τ' : State⦄ ⦃a : Int⦄, evT Γ x τ = some (a, τ') → evT Γ z τ = some (a, τ')
  lval : ∀ ⦃τ τ' : State⦄ ⦃p : Loc⦄, lvT Γ x τ = some (p, τ') → lvT Γ z τ = some (p, τ')

theorem nolval {Γ : Ctx} {x z : X} (h : isLvX x = false) : ∀ ⦃τ τ' : State⦄ ⦃p : Loc⦄, lvT Γ x τ = some (p, τ') → lvT Γ z τ = some (p, τ') := by
  intro τ τ' p q
  cases x <;> first | (simp only [lvT] at q; cases q; done) | cases h

/-- The target after `reduce_refer`. -/
theorem target_ok {Γ : Ctx} {l : X} (h : Same Γ l (prep l)) (hr : redOk (prep l) = true) :
    WX (reduceRefer (prep l)) ∧ (reduceRefer (prep l)).ty = l.ty ∧
      ∀ ⦃τ τ' : State⦄ ⦃p : Loc⦄, lvT Γ l τ = some (p, τ') → lvT Γ (reduceRefer (prep l)) τ = some (p, τ') := by
  have R := reduceRefer_ok (Γ := Γ) (prep l) h.wx hr
  exact ⟨R.wx, R.ty.trans h.ty, fun τ τ' p q => R.lval (h.lval q)⟩

theorem prep_ok (Γ : Ctx) (x : X) : WX x → redT x = true → Same Γ x (prep x) := by
  induction x with
  | lit t v => exact fun w _ => ⟨w, rfl, id, fun _ _ _ h => h, fun _ _ _ h => h⟩
  | var t x => exact fun w _ => ⟨w, rfl, id, fun _ _ _ h => h, fun _ _ _ h => h⟩
  | cast t e ih =>
    intro w r
    have A := ih w.1 r
    refine ⟨⟨A.wx, w.2⟩, rfl, id, fun τ τ' a h => ?_, nolval rfl⟩
    simp only [prep, evT, Option.map_eq_some_iff] at h ⊢
    obtain ⟨b, h1, h2⟩ := h
    exact ⟨b, A.ev h1, h2⟩
  | bin o t a b iha ihb =>
    intro w r
    simp only [redT, Bool.and_eq_true] at r
    have A := iha w.1 r.1
    have B := ihb w.2.1 r.2
    refine ⟨⟨A.wx, B.wx, w.2.2.1, w.2.2.2.1, by rw [A.ty]; exact w.2.2.2.2.1, by rw [B.ty]; exact w.2.2.2.2.2⟩, rfl, id, fun τ τ' v h => ?_, nolval rfl⟩
    simp only [prep, evT] at h ⊢
    split at h
    · rename_i x τ1 ea
      rw [A.ev ea]
      simp only
      split at h
      · rename_i y τ2 eb
        rw [B.ev eb]
        exact h
      · cases h
    · cases h
  | rel k a b iha ihb =>
    intro w r
    simp only [redT, Bool.and_eq_true] at r
    have A := iha w.1 r.1
    have B := ihb w.2 r.2
    refine ⟨⟨A.wx, B.wx⟩, rfl, id, fun τ τ' v h => ?_, nolval rfl⟩
    simp only [prep, evT] at h ⊢
    split at h
    · rename_i x τ1 ea
      rw [A.ev ea]
      simp only
      split at h
      · rename_i y τ2 eb
        rw [B.ev eb]
        exact h
      · cases h
    · cases h
  | land a b iha ihb =>
    intro w r
    simp only [redT, Bool.and_eq_true] at r
    have A := iha w.1 r.1
    have B := ihb w.2 r.2
    refine ⟨⟨A.wx, B.wx⟩, rfl, id, fun τ τ' v h => ?_, nolval rfl⟩
    simp only [prep, evT] at h ⊢
    split at h
    · rename_i x τ1 ea
      rw [A.ev ea]
      simp only
      split at h
      · rename_i hx
        rw [if_pos hx]
        exact h
      · rename_i hx
        rw [if_neg hx]
        simp only [Option.map_eq_some_iff] at h ⊢
        obtain ⟨b, h1, h2⟩ := h
        exact ⟨b, B.ev h1, h2⟩
    · cases h
  | lor a b iha ihb =>
    intro w r
    simp only [redT, Bool.and_eq_true] at r
    have A := iha w.1 r.1
    have B := ihb w.2 r.2
    refine ⟨⟨A.wx, B.wx⟩, rfl, id, fun τ τ' v h => ?_, nolval rfl⟩
    simp only [prep, evT] at h ⊢
    split at h
    · rename_i x τ1 ea
      rw [A.ev ea]
      simp only
      split at h
      · rename_i hx
        rw [if_pos hx]
        simp only [Option.map_eq_some_iff] at h ⊢
        obtain ⟨b, h1, h2⟩ := h
        exact ⟨b, B.ev h1, h2⟩
      · rename_i hx
        rw [if_neg hx]
        exact h
    · cases h
  | pos t e ih =>
    intro w r
    have A := ih w.1 r
    exact ⟨⟨A.wx, by rw [A.ty]; exact w.2.1, w.2.2⟩, rfl, id, fun τ τ' a h => A.ev h, nolval rfl⟩
  | neg t e ih =>
    intro w r
    have A := ih w.1 r
    refine ⟨⟨A.wx, w.2⟩, rfl, id, fun τ τ' a h => ?_, nolval rfl⟩
    simp only [prep, evT, Option.map_eq_some_iff] at h ⊢
    obtain ⟨b, h1, h2⟩ := h
    exact ⟨b, A.ev h1, h2⟩
  | bnot t e ih =>
    intro w r
    have A := ih w.1 r
    refine ⟨⟨A.wx, w.2⟩, rfl, id, fun τ τ' a h => ?_, nolval rfl⟩
    simp only [prep, evT, Option.map_eq_some_iff] at h ⊢
    obtain ⟨b, h1, h2⟩ := h
    exact ⟨b, A.ev h1, h2⟩
  | comma t a b iha ihb =>
    intro w r
    simp only [redT, Bool.and_eq_true] at r
    have A := iha w.1 r.1
    have B := ihb w.2.1 r.2
    refine ⟨⟨A.wx, B.wx, w.2.2.1, w.2.2.2.imp (fun q => by rw [B.ty]; exact q) B.cnd⟩, rfl, B.cnd, fun τ τ' v h => ?_, nolval rfl⟩
    simp only [prep, evT] at h ⊢
    split at h
    · rename_i x τ1 ea
      rw [A.ev ea]
      exact B.ev h
    · cases h
  | tern t c a b ihc iha ihb =>
    intro w r
    simp only [redT, Bool.and_eq_true] at r
    have D := ihc w.1 r.1.1
    have A := iha w.2.1 r.1.2
    have B := ihb w.2.2.1 r.2
    refine ⟨⟨D.wx, A.wx, B.wx, w.2.2.2.1, w.2.2.2.2.1.imp (fun q => by rw [A.ty]; exact q) A.cnd,
      w.2.2.2.2.2.imp (fun q => by rw [B.ty]; exact q) B.cnd⟩, rfl, id, fun τ τ' v h => ?_, nolval rfl⟩
    simp only [prep, evT] at h ⊢
    split at h
    · rename_i x τ1 ec
      rw [D.ev ec]
      simp only
      split at h
      · rename_i hx
        rw [if_pos hx]
        exact B.ev h
      · rename_i hx
        rw [if_neg hx]
        exact A.ev h
    · cases h
  | asg t l r ihl ihr =>
    intro w q
    simp only [redT, Bool.and_eq_true] at q
    have A := ihl w.1 q.1.1
    have B := ihr w.2.1 q.1.2
    obtain ⟨t1, t2, t3⟩ := target_ok A q.2
    refine ⟨⟨t1, B.wx, by rw [t2]; exact w.2.2.1, w.2.2.2.imp (fun q => by rw [B.ty]; exact q) B.cnd⟩, rfl, id, fun τ τ' v h => ?_, nolval rfl⟩
    simp only [prep, evT] at h ⊢
    split at h
    · rename_i x τ1 er
      rw [B.ev er]
      simp only
      split at h
      · rename_i p τ2 el
        rw [t3 el]
        exact h
      · cases h
    · cases h
  | inc p d t l ih =>
    intro w q
    simp only [redT, Bool.and_eq_true] at q
    have A := ih w.1 q.1
    obtain ⟨t1, t2, t3⟩ := target_ok A q.2
    refine ⟨⟨t1, by rw [t2]; exact w.2.1, w.2.2⟩, rfl, id, fun τ τ' v h => ?_, nolval rfl⟩
    simp only [prep, evT] at h ⊢
    split at h
    · rename_i p τ2 el
      rw [t3 el]
      exact h
    · cases h
  | deref t e ih =>
    intro w r
    have A := ih w.1 r
    refine ⟨⟨A.wx, by rw [A.ty]; exact w.2⟩, rfl, id, fun τ τ' a h => ?_, fun τ τ' p h => ?_⟩
    · simp only [prep, evT] at h ⊢
      split at h
      · rename_i x τ1 ea
        rw [A.ev ea]
        exact h
      · cases h
    · simp only [prep, lvT, Option.map_eq_some_iff] at h ⊢
      obtain ⟨b, h1, h2⟩ := h
      exact ⟨b, A.ev h1, h2⟩
  | ref t e ih =>
    intro w r
    have A := ih w.1 r
    refine ⟨⟨A.wx, by rw [A.ty]; exact w.2⟩, rfl, id, fun τ τ' a h => ?_, nolval rfl⟩
    simp only [prep, evT] at h ⊢
    split at h
    · rename_i x τ1 ea
      rw [A.lval ea]
      exact h
    · cases h

/-! ## C69 -/

/-- The code of a tree, alone; register variables are below `K`.  Nothing if the compiler stops. -/
def gen (Γ : Ctx) (K : Nat) (x : X) : Option OutE :=
  let o := genE Γ (prep x) ⟨K, 0⟩
  if .fail ∈ o.code then none else some o

theorem gen_some {Γ : Ctx} {K : Nat} {x : X} {o : OutE} (h : gen Γ K x = some o) : o = genE Γ (prep x) ⟨K, 0⟩ := by
  unfold gen at h
  simp only at h
  split at h
  · cases h
  · injection h with h
    exact h.symm

/-- **C69 (partial).** For every tree and state in which the tree has a value, the code runs to its end without undefined
behaviour; then memory and variables are as the tree says, and the operand that is returned holds the bits of the value.
Missing: the trees outside `good` and `redT`, on which the code is wrong (`castConst_wrong` and the following). -/
theorem genExpr_correct_partial (Γ : Ctx) (R : Nat → X64.Sz) (K : Nat) (x : X) (hw : WX x) (hr : redT x = true) (hg : good Γ R K false (prep x) = true)
    (o : OutE) (ho : gen Γ K x = some o) (τ τ' : State) (a : Int) (m : Mach) (hm : Sim Γ R K τ m) (he : evT Γ x τ = some (a, τ')) :
    ∃ n m', run Γ o.code n (0, m) = some (o.code.length, m') ∧ Sim Γ R K τ' m' ∧ X64Sel.val m'.ρ o.opr = some (bits x.ty a) ∧ o.opr.z = szT x.ty := by
  obtain rfl := gen_some ho
  have S := prep_ok Γ x hw hr
  have hU := labOk_uniq ((labels Γ (prep x)).1 ⟨K, 0⟩)
  obtain ⟨m', g, s', -, h⟩ := ((all_ok (R := R) (K := K) hU (prep x) S.wx).1 hg) (s := ⟨K, 0⟩) (p := 0) (Nat.le_refl _) (S.ev he) hm ⟨[], [], by simp, rfl⟩
  rw [S.ty] at h
  obtain ⟨n, hn⟩ := go_run g
  exact ⟨n, m', by simpa using hn, s', h.val, h.z⟩

/-- The code of a condition that goes to label 0 or 1.  Nothing if the compiler stops. -/
def genCond (Γ : Ctx) (K : Nat) (x : X) : Option (List In) :=
  let o := genC Γ (prep x) 0 1 ⟨K, 2⟩
  if .fail ∈ o.code then none else some o.code

theorem genCond_some {Γ : Ctx} {K : Nat} {x : X} {c : List In} (h : genCond Γ K x = some c) : c = (genC Γ (prep x) 0 1 ⟨K, 2⟩).code := by
  unfold genCond at h
  simp only at h
  split at h
  · cases h
  · injection h with h
    exact h.symm

/-- **C69 (partial).** The code of a condition goes to the first place if the value is not 0, and to the second if it is. -/
theorem genCond_correct_partial (Γ : Ctx) (R : Nat → X64.Sz) (K : Nat) (x : X) (hw : WX x) (hr : redT x = true) (hg : good Γ R K true (prep x) = true)
    (c : List In) (hc : genCond Γ K x = some c) (τ τ' : State) (a : Int) (m : Mach) (hm : Sim Γ R K τ m) (he : evT Γ x τ = some (a, τ')) :
    ∃ n m', run Γ (c ++ [.lab 0, .lab 1]) n (0, m) = some (c.length + (if a = 0 then 1 else 0), m') ∧ Sim Γ R K τ' m' := by
  obtain rfl := genCond_some hc
  have S := prep_ok Γ x hw hr
  have hl := (labels Γ (prep x)).2 0 1 ⟨K, 2⟩
  generalize hC : (genC Γ (prep x) 0 1 ⟨K, 2⟩).code = c at hl
  have hU : Uniq (c ++ [.lab 0, .lab 1]) := uniq_of _ fun n => by
    have h1 := hl.2 n
    simp only at h1
    simp only [cnt_append, cnt_cons, cnt_nil, isLab, beq_iff_eq]
    split_ifs <;> omega
  have h0 : find (c ++ [.lab 0, .lab 1]) 0 = some c.length := hU _ _ (by simp)
  have h1 : find (c ++ [.lab 0, .lab 1]) 1 = some (c.length + 1) := hU _ _ (by simp)
  obtain ⟨m', g, s', -⟩ := ((all_ok (R := R) (K := K) hU (prep x) S.wx).2 hg) (s := ⟨K, 2⟩) (p := 0) (Nat.le_refl _) (S.ev he) hm
    ⟨[], [.lab 0, .lab 1], by rw [hC]; rfl, rfl⟩ h0 h1
  obtain ⟨n, hn⟩ := go_run g
  refine ⟨n, m', ?_, s'⟩
  rw [hn]
  split <;> rfl

/-- **C68 and C69 (partial).** From the source to intermediate code: for every expression the compiler accepts and every state
in which the language gives it a value, the code made of the tree built for it ends with that value in its operand, and with
the memory and the variables the language says.  `K` counts the variables and the temporaries. -/
theorem compileExpr_correct_partial (Γ : Ctx) (R : Nat → X64.Sz) (N : Nat) (hΓ : ∀ x, (Γ x).ty.ok = true) (hN : ∀ x, N ≤ x → (Γ x).loc = none)
    (e : S) (K : Nat) (x : X) (t : T) (hb : below N e = true) (ht : ty Γ e = some t) (hf : fine Γ e N = true) (h : build Γ e N = some (x, K))
    (hr : redT x = true) (hg : good Γ R K false (prep x) = true) (o : OutE) (ho : gen Γ K x = some o) (σ σ' : State) (a : Int) (m : Mach)
    (hm : Sim Γ R K σ m) (he : ev Γ e σ = some (a, σ')) :
    ∃ n m', run Γ o.code n (0, m) = some (o.code.length, m') ∧ m'.mem = σ'.mem ∧
      (∀ y, y < N → (Γ y).loc = none → m'.ρ y = some (R y, σ'.env y)) ∧ X64Sel.val m'.ρ o.opr = some (bits t a) := by
  have B := goal_all hΓ hN e (Nat.le_refl _) hb ht hf h
  obtain ⟨τ', e1, e2, -⟩ := B.ev (τ := σ) ⟨fun _ _ => rfl, rfl⟩ he
  obtain ⟨n, m', r, s, v, -⟩ := genExpr_correct_partial Γ R K x B.wx hr hg o ho σ τ' a m hm e1
  refine ⟨n, m', r, s.mem.trans e2.mem.symm, fun y hy hl => ?_, ?_⟩
  · rw [(s.reg y (lt_of_lt_of_le hy B.mono) hl).1, e2.env y hy]
  · rw [v]
    have := B.alike.sim
    congr 1
    unfold bits
    rw [this.1.1]

/-! ### Examples -/

def exR : Nat → X64.Sz
  | 0 => .l
  | 1 => .b
  | 4 => .l
  | _ => .q

/-- The machine in the state of the examples of C68. -/
def exM : Mach := { ρ := fun x => some (exR x, exσ.env x), mem := exσ.mem, bp := 0, sp := 0, res := none }

theorem exSim : Sim exΓ exR 7 exσ exM := by
  refine ⟨fun x hx _ => ⟨rfl, ?_⟩, rfl⟩
  interval_cases x <;> decide +kernel

/-- The tree of `exE`, `p[1] += (b ? c : i) << 2, u = -i, u > c`. -/
def exX : X := ((build exΓ exE 6).map Prod.fst).getD (.lit .bool 0)

example : build exΓ exE 6 = some (exX, 7) ∧ redT exX = true ∧ good exΓ exR 7 false (prep exX) = true ∧ (gen exΓ 7 exX).isSome = true := by
  decide +kernel

/-- It takes 20 instructions; then the operand is 1 and the element 3 - 224. -/
example : ((gen exΓ 7 exX).bind fun o => (run exΓ o.code 20 (0, exM)).map fun r =>
    (decide (r.1 = o.code.length), X64Sel.val r.2.ρ o.opr, rdM r.2.mem 8194 2)) = some (true, some 1, 65536 - 221) := by decide +kernel

/-- The condition `i < 8 && (c || *(int *)4096 == 3)`. -/
def exC : X := .land (.rel .lt (.var (.fx tyInt) 0) (.lit (.fx tyInt) 8)) (.lor (.rel .ne (.var (.fx ⟨0, false⟩) 1) (.lit (.fx ⟨0, false⟩) 0))
  (.rel .eq (.var (.fx tyInt) 5) (.lit (.fx tyInt) 3)))

example : redT exC = true ∧ good exΓ exR 7 true (prep exC) = true ∧ (genCond exΓ 7 exC).isSome = true ∧ ((evT exΓ exC exσ).map Prod.fst) = some 1 := by
  decide +kernel

example : ((genCond exΓ 7 exC).bind fun c => (run exΓ (c ++ [.lab 0, .lab 1]) 3 (0, exM)).map fun r => decide (r.1 = c.length)) = some true := by
  decide +kernel

/-! ### Where the compiler is wrong -/

/-- The value of an expression, and the operand its code returns (or that the compiler stops). -/
def both (Γ : Ctx) (e : S) (n : Nat) (σ : State) : Option (Int × Option Opr) :=
  (ev Γ e σ).bind fun r => (build Γ e n).map fun p => (r.1, (gen Γ p.2 p.1).map OutE.opr)

/-- **C69, finding.** `(unsigned)(i = -1) / 2` is 4294967295, not 2147483647: the value of the assignment is the constant -1, and
`gen_cast` (codegen_expr.c:188-201) wraps constants only to smaller types, so that `new_ir_bop` divides the constant
18446744073709551615. -/
theorem castConst_wrong : both exΓ (.bin (.op .div) (.cast (.fx ⟨2, true⟩) (.asg (.var 0) (.un .neg (.lit tyInt 1)))) (.lit tyInt 2)) 6 exσ =
    some (2147483647, some (.const 4294967295 .l)) := by decide +kernel

/-- **C69, finding.** `(unsigned long)(unsigned)(i = -1)` is 18446744073709551615, not 4294967295. -/
theorem castWide_wrong : both exΓ (.cast (.fx ⟨3, true⟩) (.cast (.fx ⟨2, true⟩) (.asg (.var 0) (.un .neg (.lit tyInt 1))))) 6 exσ =
    some (4294967295, some (.const (-1) .q)) := by decide +kernel

/-- **C69, finding.** `(*(int **)4096)[2] = 5` writes to 4104 whatever the pointer at 4096 is. -/
theorem mergedStore_wrong : ((build exΓ (.asg (.deref (.bin .add (.deref (.cast (.ptr (.ptr (.fx tyInt))) (.lit tyInt 4096))) (.lit tyInt 2)))
    (.lit tyInt 5)) 6).bind fun p => (gen exΓ p.2 p.1).map OutE.code) = some [.ir (.store (.const 5 .l) (.const 4104 .q))] := by decide +kernel

/-- Variable 0 is an `int`, the others are `long`. -/
def exΔ : Ctx
  | 0 => ⟨.fx tyInt, none⟩
  | _ => ⟨.fx ⟨3, false⟩, none⟩

/-- **C69, finding.** `i && (l = -9223372036854775807L - 1) / (m = -1L)` stops the compiler: it divides the smallest number by -1
(ir.c:96-100).  The expression has a value when `i` is 0. -/
theorem divMin_stops : both exΔ (.land (.var 0) (.bin (.op .div) (.asg (.var 1) (.bin .sub (.un .neg (.lit ⟨3, false⟩ 9223372036854775807))
    (.lit ⟨3, false⟩ 1))) (.asg (.var 2) (.un .neg (.lit ⟨3, false⟩ 1))))) 3 ⟨fun _ => 0, fun _ => 0⟩ = some (0, none) := by decide +kernel

/-- The value of an assignment is read late: `(i = c) + (c = 1)`, undefined in C, takes the new `c`. -/
example : good exΓ exR 7 false (.bin .add (.fx tyInt) (.cast (.fx tyInt) (.var (.fx ⟨0, false⟩) 1)) (.cast (.fx tyInt)
    (.asg (.fx ⟨0, false⟩) (.var (.fx ⟨0, false⟩) 1) (.lit (.fx ⟨0, false⟩) 1)))) = false := by decide +kernel

end Verif.ExprGen

import Verif.Backend.X64Sel
/-
Legalization for x86-64 (C65): `tweak_irs` of /repo/src/cc/arch/x64/ir_x64.c brings the IR into the shape the emitter
asserts, without changing what it calculates.

Simplifications as in X64Sel; floating-point constants, IR_TJMP and IR_CALL are left out.
-/
namespace Verif.X64Sel
open Verif.Util Verif.X64

/-! ## Legalization -/

/-- `is_im32`. -/
def im32 (c : Int) : Prop := -2 ^ 31 ≤ c ∧ c < 2 ^ 31

instance (c : Int) : Decidable (im32 c) := by unfold im32; infer_instance

/-- `convert_3to2`, src/cc/arch/x64/ir_x64.c:1073-1115. -/
def convert : Ir → List Ir
  | .bop o u d o1 o2 => [.mov d o1, .bop o u d (.reg d) o2]
  | .neg d o1 => [.mov d (.reg o1), .neg d d]
  | .bitnot d o1 => [.mov d (.reg o1), .bitnot d d]
  | i => [i]

/-- `insert_tmp_mov` into the new register `n`, src/cc/backend/emit_code.c:306-312, for a constant in `big`. -/
def tmpMov (big : Int → Bool) (n : Nat) : Opr → List Ir × Opr × Nat
  | .const c z => if big c then ([.mov { p := n, z := z } (.const c z)], .reg { p := n, z := z }, n + 1) else ([], .const c z, n)
  | .reg v => ([], .reg v, n)

/-- A constant that is not an immediate operand. -/
def big (c : Int) : Bool := !decide (im32 c)

def Bop.md : Bop → Bool
  | .mul | .div | .mod => true
  | _ => false

/-- The loop of `tweak_irs`, src/cc/arch/x64/ir_x64.c:1117-1175, with the number of the next new register. -/
def tweak (n : Nat) : Ir → List Ir × Nat
  | .bop o u d o1 o2 =>
    let (l1, o1, n) := tmpMov big n o1
    let (l2, o2, n) := tmpMov big n o2
    let (l3, o2, n) := if o.md then tmpMov (fun _ => true) n o2 else ([], o2, n)
    (l1 ++ l2 ++ l3 ++ [.bop o u d o1 o2], n)
  | .cond c d o1 o2 => let (l, o2, n) := tmpMov big n o2; (l ++ [.cond c d o1 o2], n)
  | .load d a => let (l, a, n) := tmpMov big n a; (l ++ [.load d a], n)
  | .store v a =>
    let (l1, v, n) := tmpMov big n v
    let (l2, a, n) := tmpMov big n a
    (l1 ++ l2 ++ [.store v a], n)
  | .stores v ofs => let (l, v, n) := tmpMov big n v; (l ++ [.stores v ofs], n)
  | .result v => let (l, v, n) := tmpMov big n v; (l ++ [.result v], n)
  | i => ([i], n)

def tweakAll (n : Nat) : List Ir → List Ir
  | [] => []
  | i :: is => (tweak n i).1 ++ tweakAll (tweak n i).2 is

/-- The whole of `tweak_irs` on a block. -/
def legalize (n : Nat) (is : List Ir) : List Ir := tweakAll n (is.flatMap convert)

/-- Instructions on virtual registers change nothing but their destination. -/
def stepV (i : Ir) (m : Mach) : Option Mach := step (fun _ => false) i m

def runV : List Ir → Mach → Option Mach
  | [], m => some m
  | i :: is, m => (stepV i m).bind (runV is)

def Opr.below (n : Nat) : Opr → Prop
  | .reg v => v.p < n
  | .const _ _ => True

/-- The registers of an instruction exist. -/
def Below (n : Nat) : Ir → Prop
  | .bop _ _ d o1 o2 => d.p < n ∧ o1.below n ∧ o2.below n
  | .neg d o1 => d.p < n ∧ o1.p < n
  | .bitnot d o1 => d.p < n ∧ o1.p < n
  | .cast _ d o1 => d.p < n ∧ o1.p < n
  | .mov d o1 => d.p < n ∧ o1.below n
  | .cond _ d o1 o2 => d.p < n ∧ o1.p < n ∧ o2.below n
  | .bofs d _ => d.p < n
  | .sofs d _ => d.p < n
  | .load d a => d.p < n ∧ a.below n
  | .loads d _ => d.p < n
  | .store v a => v.below n ∧ a.below n
  | .stores v _ => v.below n
  | .result v => v.below n
  | .keep => True

/-- The destination is not the second operand: `new_ir_bop_raw` and `reg_alloc_spawn` give a result a register of its
own. -/
def Fresh : Ir → Prop
  | .bop _ _ d _ o2 => ∀ v, o2 = .reg v → v.p ≠ d.p
  | _ => True

/-- Agreement on the registers below `n`. -/
structure Agree (n : Nat) (m k : Mach) : Prop where
  ρ : ∀ p, p < n → m.ρ p = k.ρ p
  sp : m.sp = k.sp
  bp : m.bp = k.bp
  mem : m.mem = k.mem

theorem Agree.refl (n : Nat) (m : Mach) : Agree n m m := ⟨fun _ _ => rfl, rfl, rfl, rfl⟩

theorem Agree.mono {n k : Nat} {a b : Mach} (h : Agree n a b) (hk : k ≤ n) : Agree k a b :=
  ⟨fun p hp => h.ρ p (by omega), h.sp, h.bp, h.mem⟩

theorem val_agree {n : Nat} {a b : Mach} (h : Agree n a b) (o : Opr) (ho : o.below n) : val a.ρ o = val b.ρ o := by
  cases o with
  | reg v => simp only [val, h.ρ v.p ho]
  | const c z => rfl

theorem put_agree {n : Nat} {a b : Mach} (h : Agree n a b) (d : V) (v : Nat) :
    Agree n (a.put (fun _ => false) d v) (b.put (fun _ => false) d v) := by
  refine ⟨?_, h.sp, h.bp, h.mem⟩
  intro p hp
  simp only [Mach.put, Env.set, Env.forget, Bool.false_eq_true, if_false]
  split
  · rfl
  · exact h.ρ p hp

/-- Machines that agree on the registers of an instruction agree after it. -/
theorem stepV_agree {n : Nat} {a b a' : Mach} (i : Ir) (hb : Below n i) (h : Agree n a b) (hs : stepV i a = some a') :
    ∃ b', stepV i b = some b' ∧ Agree n a' b' ∧ (∀ v, i = .result v → a'.res = b'.res) := by
  cases i with
  | bop o u d o1 o2 =>
    simp only [stepV, step, val_agree h o1 hb.2.1, val_agree h o2 hb.2.2] at hs ⊢
    split at hs
    · split at hs
      · rename_i hz
        rw [if_pos hz]
        cases hv : opSem o u d.z.bits _ _ with
        | none => rw [hv] at hs; cases hs
        | some v =>
          rw [hv] at hs
          injection hs with hs
          subst hs
          exact ⟨_, rfl, put_agree h d v, by intro v e; cases e⟩
      · cases hs
    · cases hs
  | neg d o1 =>
    simp only [stepV, step, val_agree h (.reg o1) hb.2] at hs ⊢
    split at hs
    · split at hs
      · rename_i hz
        rw [if_pos hz]
        injection hs with hs
        subst hs
        exact ⟨_, rfl, put_agree h d _, by intro v e; cases e⟩
      · cases hs
    · cases hs
  | bitnot d o1 =>
    simp only [stepV, step, val_agree h (.reg o1) hb.2] at hs ⊢
    split at hs
    · split at hs
      · rename_i hz
        rw [if_pos hz]
        injection hs with hs
        subst hs
        exact ⟨_, rfl, put_agree h d _, by intro v e; cases e⟩
      · cases hs
    · cases hs
  | cast u d o1 =>
    simp only [stepV, step, val_agree h (.reg o1) hb.2] at hs ⊢
    cases hv : val b.ρ (.reg o1) with
    | none => rw [hv] at hs; cases hs
    | some x =>
      rw [hv] at hs
      injection hs with hs
      subst hs
      exact ⟨_, rfl, put_agree h d _, by intro v e; cases e⟩
  | mov d o1 =>
    simp only [stepV, step, val_agree h o1 hb.2] at hs ⊢
    split at hs
    · split at hs
      · rename_i hz
        rw [if_pos hz]
        injection hs with hs
        subst hs
        exact ⟨_, rfl, put_agree h d _, by intro v e; cases e⟩
      · cases hs
    · cases hs
  | cond c d o1 o2 =>
    simp only [stepV, step, val_agree h (.reg o1) hb.2.1, val_agree h o2 hb.2.2] at hs ⊢
    split at hs
    · split at hs
      · rename_i hz
        rw [if_pos hz]
        injection hs with hs
        subst hs
        exact ⟨_, rfl, put_agree h d _, by intro v e; cases e⟩
      · cases hs
    · cases hs
  | bofs d ofs =>
    simp only [stepV, step, h.bp] at hs ⊢
    split at hs
    · rename_i hz
      rw [if_pos hz]
      injection hs with hs
      subst hs
      exact ⟨_, rfl, put_agree h d _, by intro v e; cases e⟩
    · cases hs
  | sofs d ofs =>
    simp only [stepV, step, h.sp] at hs ⊢
    split at hs
    · rename_i hz
      rw [if_pos hz]
      injection hs with hs
      subst hs
      exact ⟨_, rfl, put_agree h d _, by intro v e; cases e⟩
    · cases hs
  | load d x =>
    simp only [stepV, step, val_agree h x hb.2, h.mem] at hs ⊢
    split at hs
    · split at hs
      · rename_i hz
        rw [if_pos hz]
        injection hs with hs
        subst hs
        exact ⟨_, rfl, put_agree h d _, by intro v e; cases e⟩
      · cases hs
    · cases hs
  | loads d ofs =>
    simp only [stepV, step, h.bp, h.mem] at hs ⊢
    injection hs with hs
    subst hs
    exact ⟨_, rfl, put_agree h d _, by intro v e; cases e⟩
  | store v x =>
    simp only [stepV, step, val_agree h v hb.1, val_agree h x hb.2, h.mem] at hs ⊢
    split at hs
    · split at hs
      · rename_i hz
        rw [if_pos hz]
        injection hs with hs
        subst hs
        exact ⟨_, rfl, ⟨h.ρ, h.sp, h.bp, rfl⟩, by intro v e; cases e⟩
      · cases hs
    · cases hs
  | stores v ofs =>
    simp only [stepV, step, val_agree h v hb, h.mem, h.bp] at hs ⊢
    cases hv : val b.ρ v with
    | none => rw [hv] at hs; cases hs
    | some x =>
      rw [hv] at hs
      injection hs with hs
      subst hs
      exact ⟨_, rfl, ⟨h.ρ, h.sp, rfl, rfl⟩, by intro v e; cases e⟩
  | result v =>
    simp only [stepV, step, val_agree h v hb] at hs ⊢
    cases hv : val b.ρ v with
    | none => rw [hv] at hs; cases hs
    | some x =>
      rw [hv] at hs
      injection hs with hs
      subst hs
      refine ⟨_, rfl, ⟨?_, h.sp, h.bp, h.mem⟩, fun _ _ => rfl⟩
      intro p hp
      simp only [Env.forget, Bool.false_eq_true, if_false]
      exact h.ρ p hp
  | keep =>
    injection hs with hs
    subst hs
    exact ⟨b, rfl, h, by intro v e; cases e⟩

/-- Splitting an instruction into a move and the operation. -/
theorem convert_ok (i : Ir) (m m' : Mach) (hf : Fresh i) (hs : stepV i m = some m') : runV (convert i) m = some m' := by
  have one : ∀ j, stepV j m = some m' → runV [j] m = some m' := by
    intro j h; simp only [runV, h, Option.bind_some]
  have putput : ∀ (d : V) (a v : Nat), ((m.put (fun _ => false) d a).put (fun _ => false) d v) = m.put (fun _ => false) d v := by
    intro d a v
    simp only [Mach.put]
    congr 1
    funext p
    simp only [Env.set, Env.forget, Bool.false_eq_true, if_false]
    split <;> rfl
  have vald : ∀ (d : V) (a : Nat), val (m.put (fun _ => false) d a).ρ (.reg d) = some a := by
    intro d a; simp [val, Mach.put, Env.set]
  cases i with
  | bop o u d o1 o2 =>
    simp only [stepV, step] at hs
    cases h1 : val m.ρ o1 with
    | none => rw [h1] at hs; cases hs
    | some a =>
      cases h2 : val m.ρ o2 with
      | none => rw [h1, h2] at hs; cases hs
      | some b =>
        rw [h1, h2] at hs
        dsimp only at hs
        split at hs
        · rename_i hz
          have v2 : val (m.put (fun _ => false) d a).ρ o2 = some b := by
            rw [← h2]
            cases o2 with
            | const c z => rfl
            | reg v =>
              have := hf v rfl
              simp only [val, Mach.put, Env.set, Env.forget, if_neg this, Bool.false_eq_true, if_false]
          simp only [convert, runV, stepV, step, h1, if_pos hz.1, Option.bind_some, vald, v2]
          rw [if_pos ⟨rfl, hz.2⟩]
          cases hv : opSem o u d.z.bits a b with
          | none => rw [hv] at hs; cases hs
          | some v =>
            rw [hv] at hs
            rw [Option.map_some, putput, Option.bind_some]
            exact hs
        · cases hs
  | neg d o1 =>
    simp only [stepV, step] at hs
    cases h1 : val m.ρ (.reg o1) with
    | none => rw [h1] at hs; cases hs
    | some a =>
      rw [h1] at hs
      dsimp only at hs
      split at hs
      · rename_i hz
        simp only [convert, runV, stepV, step, h1]
        rw [if_pos (show (Opr.reg o1).z = d.z from hz), Option.bind_some]
        simp only [vald, if_true, putput, Option.bind_some]
        exact hs
      · cases hs
  | bitnot d o1 =>
    simp only [stepV, step] at hs
    cases h1 : val m.ρ (.reg o1) with
    | none => rw [h1] at hs; cases hs
    | some a =>
      rw [h1] at hs
      dsimp only at hs
      split at hs
      · rename_i hz
        simp only [convert, runV, stepV, step, h1]
        rw [if_pos (show (Opr.reg o1).z = d.z from hz), Option.bind_some]
        simp only [vald, if_true, putput, Option.bind_some]
        exact hs
      · cases hs
  | _ => exact one _ hs

theorem runV_append : ∀ (a b : List Ir) (m : Mach), runV (a ++ b) m = (runV a m).bind (runV b) := by
  intro a
  induction a with
  | nil => intro b m; rfl
  | cons i is ih =>
    intro b m
    simp only [List.cons_append, runV]
    cases stepV i m with
    | none => rfl
    | some m1 => exact ih b m1

theorem converts_ok : ∀ (is : List Ir) (m m' : Mach), (∀ i ∈ is, Fresh i) → runV is m = some m' →
    runV (is.flatMap convert) m = some m' := by
  intro is
  induction is with
  | nil => intro m m' _ h; exact h
  | cons i is ih =>
    intro m m' hf h
    simp only [runV] at h
    cases h1 : stepV i m with
    | none => rw [h1] at h; cases h
    | some m1 =>
      rw [h1] at h
      rw [List.flatMap_cons, runV_append, convert_ok i m m1 (hf i (by simp)) h1, Option.bind_some]
      exact ih m1 m' (fun j hj => hf j (by simp [hj])) h

theorem Opr.below.mono {n k : Nat} {o : Opr} (h : o.below n) (hk : n ≤ k) : o.below k := by
  cases o with
  | reg v => exact Nat.lt_of_lt_of_le h hk
  | const c z => trivial

/-- A temporary register holds the constant. -/
theorem tmpMov_ok (bg : Int → Bool) (n : Nat) (o : Opr) (m : Mach) (hb : o.below n) (l : List Ir) (o' : Opr) (n' : Nat)
    (e : tmpMov bg n o = (l, o', n')) : ∃ m1, runV l m = some m1 ∧ Agree n m m1 ∧ n ≤ n' ∧ o'.below n' ∧ o'.z = o.z ∧
      val m1.ρ o' = val m.ρ o := by
  have triv : (l, o', n') = ([], o, n) → ∃ m1, runV l m = some m1 ∧ Agree n m m1 ∧ n ≤ n' ∧ o'.below n' ∧ o'.z = o.z ∧
      val m1.ρ o' = val m.ρ o := by
    intro h
    injection h with h1 h2
    injection h2 with h2 h3
    subst h1; subst h2; subst h3
    exact ⟨m, rfl, Agree.refl _ _, Nat.le_refl _, hb, rfl, rfl⟩
  cases o with
  | reg v => exact triv e.symm
  | const c z =>
    simp only [tmpMov] at e
    split at e
    · injection e with h1 h2
      injection h2 with h2 h3
      subst h1; subst h2; subst h3
      refine ⟨m.put (fun _ => false) { p := n, z := z } (imm z c), ?_, ⟨?_, rfl, rfl, rfl⟩, by omega, Nat.lt_succ_self n, rfl, ?_⟩
      · simp [runV, stepV, step, val, Opr.z]
      · intro p hp
        simp only [Mach.put, Env.set, Env.forget, Bool.false_eq_true, if_false, if_neg (by omega : p ≠ n)]
      · simp [val, Mach.put, Env.set]
    · exact triv e.symm

theorem cat {l k : List Ir} {m m1 : Mach} (h : runV l m = some m1) : runV (l ++ k) m = runV k m1 := by
  rw [runV_append, h, Option.bind_some]

theorem Agree.trans {n : Nat} {a b c : Mach} (h : Agree n a b) (k : Agree n b c) : Agree n a c :=
  ⟨fun p hp => (h.ρ p hp).trans (k.ρ p hp), h.sp.trans k.sp, h.bp.trans k.bp, h.mem.trans k.mem⟩

theorem tweak_le (n : Nat) (i : Ir) : n ≤ (tweak n i).2 := by
  have ht : ∀ bg k o, k ≤ (tmpMov bg k o).2.2 := by
    intro bg k o
    cases o with
    | reg v => exact Nat.le_refl _
    | const c z => simp only [tmpMov]; split <;> simp
  cases i with
  | bop o u d o1 o2 =>
    simp only [tweak]
    have h1 := ht big n o1
    have h2 := ht big (tmpMov big n o1).2.2 o2
    split
    · have h3 := ht (fun _ => true) (tmpMov big (tmpMov big n o1).2.2 o2).2.2 (tmpMov big (tmpMov big n o1).2.2 o2).2.1
      exact Nat.le_trans h1 (Nat.le_trans h2 h3)
    · exact Nat.le_trans h1 h2
  | store v a =>
    have h1 := ht big n v
    have h2 := ht big (tmpMov big n v).2.2 a
    exact Nat.le_trans h1 h2
  | cond c d o1 o2 => exact ht _ _ _
  | load d a => exact ht _ _ _
  | stores v ofs => exact ht _ _ _
  | result v => exact ht _ _ _
  | _ => exact Nat.le_refl _

/-- Replacing constants by temporary registers. -/
theorem tweak_ok (n : Nat) (i : Ir) (m m' : Mach) (hb : Below n i) (hs : stepV i m = some m') :
    ∃ k, runV (tweak n i).1 m = some k ∧ Agree n m' k ∧ (∀ v, i = .result v → m'.res = k.res) := by
  have same : runV [i] m = some m' := by simp only [runV, hs, Option.bind_some]
  cases i with
  | bop o u d o1 o2 =>
    obtain ⟨hd, hb1, hb2⟩ := hb
    rcases e1 : tmpMov big n o1 with ⟨l1, o1', n1⟩
    rcases e2 : tmpMov big n1 o2 with ⟨l2, o2', n2⟩
    obtain ⟨m1, r1, a1, le1, b1, z1, v1⟩ := tmpMov_ok big n o1 m hb1 l1 o1' n1 e1
    obtain ⟨m2, r2, a2, le2, b2, z2, v2⟩ := tmpMov_ok big n1 o2 m1 (hb2.mono le1) l2 o2' n2 e2
    have fin : ∀ l3 o2'' m3, runV l3 m2 = some m3 → Agree n2 m2 m3 → o2''.z = o2'.z → val m3.ρ o2'' = val m2.ρ o2' →
        ∃ k, runV (l1 ++ l2 ++ l3 ++ [.bop o u d o1' o2'']) m = some k ∧ Agree n m' k ∧
          (∀ v, (Ir.bop o u d o1 o2) = .result v → m'.res = k.res) := by
      intro l3 o2'' m3 r3 a3 z3 v3
      have w1 : val m3.ρ o1' = val m.ρ o1 := by
        rw [← val_agree a3 o1' (b1.mono le2), ← val_agree a2 o1' b1, v1]
      have w2 : val m3.ρ o2'' = val m.ρ o2 := by rw [v3, v2, ← val_agree a1 o2 hb2]
      have ag : Agree n m m3 := a1.trans ((a2.mono le1).trans (a3.mono (by omega)))
      rw [List.append_assoc, List.append_assoc, cat r1, cat r2, cat r3]
      simp only [stepV, step] at hs
      simp only [runV, stepV, step, w1, w2, z1, z2, z3]
      split at hs
      · split at hs
        · rename_i hz
          rw [if_pos hz]
          cases hv : opSem o u d.z.bits _ _ with
          | none => rw [hv] at hs; cases hs
          | some v =>
            rw [hv] at hs
            injection hs with hs
            subst hs
            exact ⟨_, rfl, put_agree ag d v, by intro v e; cases e⟩
        · cases hs
      · cases hs
    simp only [tweak, e1, e2]
    cases hmd : o.md with
    | false =>
      simp only [Bool.false_eq_true, if_false]
      exact fin [] o2' m2 rfl (Agree.refl _ _) rfl rfl
    | true =>
      simp only [if_true]
      rcases e3 : tmpMov (fun _ => true) n2 o2' with ⟨l3, o3, n3⟩
      obtain ⟨m3, r3, a3, le3, b3, z3, v3⟩ := tmpMov_ok _ n2 o2' m2 b2 l3 o3 n3 e3
      exact fin l3 o3 m3 r3 a3 z3 v3
  | cond c d o1 o2 =>
    obtain ⟨hd, hb1, hb2⟩ := hb
    rcases e1 : tmpMov big n o2 with ⟨l1, o2', n1⟩
    obtain ⟨m1, r1, a1, le1, b1, z1, v1⟩ := tmpMov_ok big n o2 m hb2 l1 o2' n1 e1
    simp only [tweak, e1, cat r1]
    simp only [stepV, step] at hs
    simp only [runV, stepV, step, v1, z1, ← val_agree a1 (.reg o1) hb1]
    split at hs
    · split at hs
      · rename_i hz
        rw [if_pos hz]
        injection hs with hs
        subst hs
        exact ⟨_, rfl, put_agree a1 d _, by intro v e; cases e⟩
      · cases hs
    · cases hs
  | load d a =>
    rcases e1 : tmpMov big n a with ⟨l1, a', n1⟩
    obtain ⟨m1, r1, a1, le1, b1, z1, v1⟩ := tmpMov_ok big n a m hb.2 l1 a' n1 e1
    simp only [tweak, e1, cat r1]
    simp only [stepV, step] at hs
    simp only [runV, stepV, step, v1, z1, ← a1.mem]
    split at hs
    · split at hs
      · rename_i hz
        rw [if_pos hz]
        injection hs with hs
        subst hs
        exact ⟨_, rfl, put_agree a1 d _, by intro v e; cases e⟩
      · cases hs
    · cases hs
  | store v a =>
    rcases e1 : tmpMov big n v with ⟨l1, v', n1⟩
    rcases e2 : tmpMov big n1 a with ⟨l2, a', n2⟩
    obtain ⟨m1, r1, a1, le1, b1, z1, v1⟩ := tmpMov_ok big n v m hb.1 l1 v' n1 e1
    obtain ⟨m2, r2, a2, le2, b2, z2, v2⟩ := tmpMov_ok big n1 a m1 (hb.2.mono le1) l2 a' n2 e2
    have w1 : val m2.ρ v' = val m.ρ v := by rw [← val_agree a2 v' b1, v1]
    have w2 : val m2.ρ a' = val m.ρ a := by rw [v2, ← val_agree a1 a hb.2]
    have ag : Agree n m m2 := a1.trans (a2.mono le1)
    simp only [tweak, e1, e2]
    rw [List.append_assoc, cat r1, cat r2]
    simp only [stepV, step] at hs
    simp only [runV, stepV, step, w1, w2, z1, z2]
    split at hs
    · split at hs
      · rename_i hz
        rw [if_pos hz]
        injection hs with hs
        subst hs
        exact ⟨_, rfl, ⟨ag.ρ, ag.sp, ag.bp, by show wrM m.mem _ _ _ = wrM m2.mem _ _ _; rw [ag.mem]⟩, by intro v e; cases e⟩
      · cases hs
    · cases hs
  | stores v ofs =>
    rcases e1 : tmpMov big n v with ⟨l1, v', n1⟩
    obtain ⟨m1, r1, a1, le1, b1, z1, v1⟩ := tmpMov_ok big n v m hb l1 v' n1 e1
    simp only [tweak, e1, cat r1]
    simp only [stepV, step] at hs
    simp only [runV, stepV, step, v1, z1]
    cases hv : val m.ρ v with
    | none => rw [hv] at hs; cases hs
    | some x =>
      rw [hv] at hs
      injection hs with hs
      subst hs
      exact ⟨_, rfl, ⟨a1.ρ, a1.sp, a1.bp, by show wrM m.mem _ _ _ = wrM m1.mem _ _ _; rw [a1.mem, a1.bp]⟩, by intro v e; cases e⟩
  | result v =>
    rcases e1 : tmpMov big n v with ⟨l1, v', n1⟩
    obtain ⟨m1, r1, a1, le1, b1, z1, v1⟩ := tmpMov_ok big n v m hb l1 v' n1 e1
    simp only [tweak, e1, cat r1]
    simp only [stepV, step] at hs
    simp only [runV, stepV, step, v1, z1]
    cases hv : val m.ρ v with
    | none => rw [hv] at hs; cases hs
    | some x =>
      rw [hv] at hs
      injection hs with hs
      subst hs
      refine ⟨_, rfl, ⟨?_, a1.sp, a1.bp, a1.mem⟩, fun _ _ => rfl⟩
      intro p hp
      simp only [Env.forget, Bool.false_eq_true, if_false]
      exact a1.ρ p hp
  | _ => exact ⟨m', same, Agree.refl _ _, fun _ _ => rfl⟩

theorem Below.mono {n k : Nat} {i : Ir} (h : Below n i) (hk : n ≤ k) : Below k i := by
  cases i with
  | bop o u d o1 o2 => exact ⟨Nat.lt_of_lt_of_le h.1 hk, h.2.1.mono hk, h.2.2.mono hk⟩
  | neg d o1 => exact ⟨Nat.lt_of_lt_of_le h.1 hk, Nat.lt_of_lt_of_le h.2 hk⟩
  | bitnot d o1 => exact ⟨Nat.lt_of_lt_of_le h.1 hk, Nat.lt_of_lt_of_le h.2 hk⟩
  | cast u d o1 => exact ⟨Nat.lt_of_lt_of_le h.1 hk, Nat.lt_of_lt_of_le h.2 hk⟩
  | mov d o1 => exact ⟨Nat.lt_of_lt_of_le h.1 hk, h.2.mono hk⟩
  | cond c d o1 o2 => exact ⟨Nat.lt_of_lt_of_le h.1 hk, Nat.lt_of_lt_of_le h.2.1 hk, h.2.2.mono hk⟩
  | bofs d ofs => exact Nat.lt_of_lt_of_le h hk
  | sofs d ofs => exact Nat.lt_of_lt_of_le h hk
  | load d a => exact ⟨Nat.lt_of_lt_of_le h.1 hk, h.2.mono hk⟩
  | loads d ofs => exact Nat.lt_of_lt_of_le h hk
  | store v a => exact ⟨h.1.mono hk, h.2.mono hk⟩
  | stores v ofs => exact Opr.below.mono h hk
  | result v => exact Opr.below.mono h hk
  | keep => trivial

theorem tweakAll_ok (N : Nat) : ∀ (is : List Ir) (n : Nat) (m m' k : Mach), N ≤ n → (∀ i ∈ is, Below N i) → Agree N m k →
    runV is m = some m' → ∃ k', runV (tweakAll n is) k = some k' ∧ Agree N m' k' ∧
      (∀ v, is.getLast? = some (.result v) → m'.res = k'.res) := by
  intro is
  induction is with
  | nil =>
    intro n m m' k _ _ ha h
    injection h with h
    subst h
    exact ⟨k, rfl, ha, by intro v e; cases e⟩
  | cons i is ih =>
    intro n m m' k hn hb ha h
    simp only [runV] at h
    cases h1 : stepV i m with
    | none => rw [h1] at h; cases h
    | some m1 =>
      rw [h1] at h
      have hbi := hb i (by simp)
      obtain ⟨k1, s1, g1, q1⟩ := stepV_agree i hbi ha h1
      obtain ⟨k2, s2, g2, q2⟩ := tweak_ok n i k k1 (hbi.mono hn) s1
      have g3 : Agree N m1 k2 := g1.trans (g2.mono hn)
      obtain ⟨k3, s3, g4, q3⟩ := ih (tweak n i).2 m1 m' k2 (Nat.le_trans hn (tweak_le n i)) (fun j hj => hb j (by simp [hj])) g3 h
      refine ⟨k3, by rw [tweakAll, cat s2]; exact s3, g4, ?_⟩
      intro v hv
      cases is with
      | nil =>
        injection h with h
        injection s3 with s3
        subst h; subst s3
        have hv : i = .result v := by simpa using hv
        rw [q1 v hv, q2 v hv]
      | cons j js => exact q3 v (by rw [← hv]; simp [List.getLast?_cons_cons])

theorem Below_convert (n : Nat) (i : Ir) (h : Below n i) : ∀ j ∈ convert i, Below n j := by
  intro j hj
  cases i with
  | bop o u d o1 o2 =>
    simp [convert] at hj
    rcases hj with hj | hj <;> subst hj
    · exact ⟨h.1, h.2.1⟩
    · exact ⟨h.1, h.1, h.2.2⟩
  | neg d o1 =>
    simp [convert] at hj
    rcases hj with hj | hj <;> subst hj
    · exact ⟨h.1, h.2⟩
    · exact ⟨h.1, h.1⟩
  | bitnot d o1 =>
    simp [convert] at hj
    rcases hj with hj | hj <;> subst hj
    · exact ⟨h.1, h.2⟩
    · exact ⟨h.1, h.1⟩
  | _ => simp [convert] at hj; subst hj; exact h

theorem convert_last (is : List Ir) (v : Opr) (h : is.getLast? = some (.result v)) :
    (is.flatMap convert).getLast? = some (.result v) := by
  have : is = is.dropLast ++ [.result v] := by
    rw [List.getLast?_eq_some_iff] at h
    obtain ⟨ys, e⟩ := h
    rw [e]; simp
  rw [this, List.flatMap_append]
  simp [convert]

/-- **C65.**  Legalization keeps the meaning of a block: the program's registers, memory and result. -/
theorem legalize_correct (N n : Nat) (is : List Ir) (m m' : Mach) (hn : N ≤ n) (hb : ∀ i ∈ is, Below N i ∧ Fresh i)
    (h : runV is m = some m') : ∃ k, runV (legalize n is) m = some k ∧ Agree N m' k ∧
      (∀ v, is.getLast? = some (.result v) → m'.res = k.res) := by
  have hc := converts_ok is m m' (fun i hi => (hb i hi).2) h
  have hb' : ∀ j ∈ is.flatMap convert, Below N j := by
    intro j hj
    rw [List.mem_flatMap] at hj
    obtain ⟨i, hi, hj⟩ := hj
    exact Below_convert N i (hb i hi).1 j hj
  obtain ⟨k, r, a, q⟩ := tweakAll_ok N (is.flatMap convert) n m m' m hn hb' (Agree.refl _ _) hc
  exact ⟨k, r, a, fun v hv => q v (convert_last is v hv)⟩

/-- An immediate operand of 32 bits stands for the constant. -/
def Opr.small : Opr → Prop
  | .const c _ => toS 32 (toU 32 c) = c
  | .reg _ => True

/-- The shape the emitter asserts, and immediate operands of at most 32 bits. -/
def Legal : Ir → Prop
  | .bop o _ d o1 o2 => o1 = .reg d ∧ o2.small ∧ (o.md = true → ∃ v, o2 = .reg v)
  | .neg d o1 => o1 = d
  | .bitnot d o1 => o1 = d
  | .cond _ _ _ o2 => o2.small
  | .load _ a => a.small
  | .store v a => v.small ∧ a.small
  | .stores v _ => v.small
  | .result v => v.small
  | _ => True

theorem tmpMov_small (n : Nat) (o : Opr) : (tmpMov big n o).2.1.small ∧ ∀ j ∈ (tmpMov big n o).1, Legal j := by
  cases o with
  | reg v => exact ⟨trivial, by intro j hj; cases hj⟩
  | const c z =>
    simp only [tmpMov]
    split
    · refine ⟨trivial, ?_⟩
      intro j hj
      simp at hj
      subst hj
      trivial
    · rename_i h
      refine ⟨?_, by intro j hj; cases hj⟩
      have h : im32 c := by simpa [big] using h
      simp only [im32, Opr.small, toS, toU] at h ⊢
      simp only [Nat.add_one_sub_one, Int.emod_emod_of_dvd, Int.dvd_refl] at h ⊢
      omega

theorem tmpMov_reg (n : Nat) (o : Opr) : (∃ v, (tmpMov (fun _ => true) n o).2.1 = .reg v) ∧
    ∀ j ∈ (tmpMov (fun _ => true) n o).1, Legal j := by
  cases o with
  | reg v => exact ⟨⟨v, rfl⟩, by intro j hj; cases hj⟩
  | const c z =>
    refine ⟨⟨_, rfl⟩, ?_⟩
    intro j hj
    simp [tmpMov] at hj
    subst hj
    trivial

/-- Instructions in two-address form. -/
def TwoAddr : Ir → Prop
  | .bop _ _ d o1 _ => o1 = .reg d
  | .neg d o1 => o1 = d
  | .bitnot d o1 => o1 = d
  | _ => True

theorem tweak_legal (n : Nat) (i : Ir) (h : TwoAddr i) : ∀ j ∈ (tweak n i).1, Legal j := by
  intro j hj
  cases i with
  | bop o u d o1 o2 =>
    have h : o1 = .reg d := h
    subst h
    have t2 := tmpMov_small n o2
    simp only [tweak, show tmpMov big n (.reg d) = ([], .reg d, n) from rfl, List.nil_append, List.mem_append] at hj
    rcases e2 : tmpMov big n o2 with ⟨l2, o2', n2⟩
    rw [e2] at hj t2
    cases hmd : o.md with
    | false =>
      rw [hmd] at hj
      simp only [Bool.false_eq_true, if_false] at hj
      rcases hj with (hj | hj) | hj
      · exact t2.2 j hj
      · cases hj
      · simp at hj
        subst hj
        exact ⟨rfl, t2.1, by rw [hmd]; intro h; cases h⟩
    | true =>
      rw [hmd] at hj
      simp only [if_true] at hj
      have t3 := tmpMov_reg n2 o2'
      rcases e3 : tmpMov (fun _ => true) n2 o2' with ⟨l3, o3, n3⟩
      rw [e3] at hj t3
      dsimp only at hj
      rcases hj with (hj | hj) | hj
      · exact t2.2 j hj
      · exact t3.2 j hj
      · simp at hj
        subst hj
        obtain ⟨v, hv⟩ := t3.1
        dsimp only at hv
        subst hv
        exact ⟨rfl, trivial, fun _ => ⟨v, rfl⟩⟩
  | cond c d o1 o2 =>
    have t := tmpMov_small n o2
    simp only [tweak, List.mem_append] at hj
    rcases hj with hj | hj
    · exact t.2 j hj
    · simp at hj; subst hj; exact t.1
  | load d a =>
    have t := tmpMov_small n a
    simp only [tweak, List.mem_append] at hj
    rcases hj with hj | hj
    · exact t.2 j hj
    · simp at hj; subst hj; exact t.1
  | stores v ofs =>
    have t := tmpMov_small n v
    simp only [tweak, List.mem_append] at hj
    rcases hj with hj | hj
    · exact t.2 j hj
    · simp at hj; subst hj; exact t.1
  | result v =>
    have t := tmpMov_small n v
    simp only [tweak, List.mem_append] at hj
    rcases hj with hj | hj
    · exact t.2 j hj
    · simp at hj; subst hj; exact t.1
  | store v a =>
    have t := tmpMov_small n v
    have t2 := tmpMov_small (tmpMov big n v).2.2 a
    simp only [tweak, List.mem_append] at hj
    rcases hj with (hj | hj) | hj
    · exact t.2 j hj
    · exact t2.2 j hj
    · simp at hj; subst hj; exact ⟨t.1, t2.1⟩
  | neg d o1 => simp [tweak] at hj; subst hj; exact h
  | bitnot d o1 => simp [tweak] at hj; subst hj; exact h
  | _ => simp [tweak] at hj; subst hj; trivial

/-- **C65.**  Legalized code has the shape the emitter asserts. -/
theorem legalize_legal (n : Nat) (is : List Ir) : ∀ j ∈ legalize n is, Legal j := by
  have h2 : ∀ j ∈ is.flatMap convert, TwoAddr j := by
    intro j hj
    rw [List.mem_flatMap] at hj
    obtain ⟨i, _, hj⟩ := hj
    cases i <;> simp [convert] at hj <;> first | (subst hj; trivial) | (rcases hj with hj | hj <;> subst hj <;> first | trivial | rfl)
  have gen : ∀ (l : List Ir) (n : Nat), (∀ j ∈ l, TwoAddr j) → ∀ j ∈ tweakAll n l, Legal j := by
    intro l
    induction l with
    | nil => intro n _ j hj; cases hj
    | cons i is ih =>
      intro n h j hj
      simp only [tweakAll, List.mem_append] at hj
      rcases hj with hj | hj
      · exact tweak_legal n i (h i (by simp)) j hj
      · exact ih _ (fun q hq => h q (by simp [hq])) j hj
  exact gen _ n h2

/-- What the register allocator owes the emitter: the registers `detect_extra_occupied` reserves are not those of the
second operand, nor `%rcx` the destination of a shift; and what the front end owes it: conversions change the size and
conditions compare. -/
def AllocOk : Ir → Prop
  | .bop o _ d _ o2 =>
    (o.md = true → ∀ v, o2 = .reg v → v.p ≠ aI ∧ v.p ≠ dI) ∧ ((o = .div ∨ o = .mod) → d.z = .l ∨ d.z = .q) ∧
    ((o = .shl ∨ o = .shr) → ∀ v, o2 = .reg v → v.p ≠ cI ∧ d.p ≠ cI)
  | .cast _ d o1 => d.z ≠ o1.z
  | .cond c _ _ _ => 2 ≤ c % 8 ∧ c < 16
  | _ => True

/-- **C65.**  No assertion of the emitter fails on legalized code. -/
theorem emit_total (i : Ir) (hl : Legal i) (ha : AllocOk i) : ∃ code, emit i = some code := by
  cases i with
  | bop o u d o1 o2 =>
    obtain ⟨h1, _, hmd⟩ := hl
    obtain ⟨a1, a2, a3⟩ := ha
    subst h1
    simp only [emit, emitBop]
    rw [if_neg (by simp)]
    cases o with
    | mul =>
      obtain ⟨v, rfl⟩ := hmd rfl
      simp only [emitMul]
      rw [if_neg (a1 rfl v rfl).1]
      exact ⟨_, rfl⟩
    | div =>
      obtain ⟨v, rfl⟩ := hmd rfl
      simp only [emitDiv]
      rw [if_neg (a1 rfl v rfl).1]
      rcases a2 (Or.inl rfl) with h | h <;> rw [h] <;> cases u <;> exact ⟨_, rfl⟩
    | mod =>
      obtain ⟨v, rfl⟩ := hmd rfl
      simp only [emitMod]
      rw [if_neg (a1 rfl v rfl).1]
      rcases a2 (Or.inr rfl) with h | h <;> rw [h] <;> cases u <;> exact ⟨_, rfl⟩
    | shl =>
      cases o2 with
      | const c z => exact ⟨_, rfl⟩
      | reg v =>
        simp only [emitShift]
        rw [if_neg (by have := a3 (Or.inl rfl) v rfl; rintro (h | h); exact this.1 h; exact this.2 h)]
        exact ⟨_, rfl⟩
    | shr =>
      cases o2 with
      | const c z => exact ⟨_, rfl⟩
      | reg v =>
        simp only [emitShift]
        rw [if_neg (by have := a3 (Or.inr rfl) v rfl; rintro (h | h); exact this.1 h; exact this.2 h)]
        exact ⟨_, rfl⟩
    | _ => exact ⟨_, rfl⟩
  | neg d o1 => have hl : o1 = d := hl; subst hl; exact ⟨_, if_pos rfl⟩
  | bitnot d o1 => have hl : o1 = d := hl; subst hl; exact ⟨_, if_pos rfl⟩
  | cast u d o1 =>
    simp only [emit, emitCast]
    rw [if_neg ha]
    split
    · exact ⟨_, rfl⟩
    · split
      · split <;> exact ⟨_, rfl⟩
      · exact ⟨_, rfl⟩
  | cond c d o1 o2 =>
    obtain ⟨h1, h2⟩ := ha
    have : ∃ cc, ccOf c = some cc := by
      have hh : c = 2 ∨ c = 3 ∨ c = 4 ∨ c = 5 ∨ c = 6 ∨ c = 7 ∨ c = 10 ∨ c = 11 ∨ c = 12 ∨ c = 13 ∨ c = 14 ∨ c = 15 := by omega
      rcases hh with h | h | h | h | h | h | h | h | h | h | h | h <;> subst h <;> exact ⟨_, rfl⟩
    obtain ⟨cc, hc⟩ := this
    simp only [emit, emitCond, hc, Option.map_some]
    exact ⟨_, rfl⟩
  | _ => exact ⟨_, rfl⟩

/-! ## The hypotheses are met -/

/-- The inverse of `hw`. -/
def inv (n : Nat) : Nat := [0, 4, 3, 7, 15, 12, 2, 1, 5, 6, 13, 14, 8, 9, 10, 11].getD n 15

theorem inv_hw : ∀ p, p < 15 → inv (hw p) = p := by decide

/-- Every machine whose registers hold values of their sizes is the view of some processor state. -/
theorem rel_exists (frame : Bool) (m : Mach) (hv : ∀ p z v, m.ρ p = some (z, v) → v < 2 ^ z.bits) (hs : m.res = none)
    (hb : frame = true → m.ρ 12 = none) : ∃ s, Rel frame m s := by
  refine ⟨{ r := fun n => if n = 4 then m.sp else if n = 5 ∧ frame = true then m.bp
              else match m.ρ (inv n) with | some (_, v) => v | none => 0, fl := none, mem := m.mem }, ?_, rfl, ?_, rfl, ?_⟩
  · intro p z v hp e
    have h5 : ¬ (hw p = 5 ∧ frame = true) := by
      rintro ⟨h, hf⟩
      rw [hw_bp p hp h, hb hf] at e
      cases e
    simp only [rdR, rg, Bool.false_eq_true, if_false, if_neg (hw_ne_sp p hp), if_neg h5, inv_hw p hp, e]
    exact Nat.mod_eq_of_lt (hv p z v e)
  · intro hf; subst hf; rfl
  · intro z v e; rw [hs] at e; cases e

/-- `%ebx = -7`, `%r12d = 2`, `%r13d = 5`. -/
def exM : Mach :=
  { ρ := fun p => if p = 7 then some (.l, 2 ^ 32 - 7) else if p = 8 then some (.l, 2) else if p = 9 then some (.l, 5) else none,
    sp := 0x7ff0, bp := 0x8000, mem := fun _ => 0, res := none }

/-- `a = b / c`, `d = a % e` for registers below 4, with constants. -/
def exV : List Ir :=
  [.mov { p := 0, z := .l } (.const (-7) .l), .bop .div false { p := 1, z := .l } (.reg { p := 0, z := .l }) (.const 2 .l),
   .cast false { p := 2, z := .q } { p := 1, z := .l },
   .bop .add false { p := 3, z := .q } (.reg { p := 2, z := .q }) (.const 0x100000000 .q), .result (.reg { p := 3, z := .q })]

example : ∀ i ∈ exV, Below 4 i ∧ Fresh i := by
  intro i hi
  simp [exV] at hi
  rcases hi with h | h | h | h | h <;> subst h <;>
    refine ⟨?_, ?_⟩ <;> simp [Below, Opr.below, Fresh]

example : (runV exV exM).map (·.res) = some (some (.q, 0xfffffffd)) := by decide

example : legalize 4 exV =
    [.mov { p := 0, z := .l } (.const (-7) .l), .mov { p := 1, z := .l } (.reg { p := 0, z := .l }),
     .mov { p := 4, z := .l } (.const 2 .l), .bop .div false { p := 1, z := .l } (.reg { p := 1, z := .l }) (.reg { p := 4, z := .l }),
     .cast false { p := 2, z := .q } { p := 1, z := .l }, .mov { p := 3, z := .q } (.reg { p := 2, z := .q }),
     .mov { p := 5, z := .q } (.const 0x100000000 .q),
     .bop .add false { p := 3, z := .q } (.reg { p := 3, z := .q }) (.reg { p := 5, z := .q }),
     .result (.reg { p := 3, z := .q })] := by decide

/-- A division, a shift by a register, a comparison and a store. -/
def exP : List Ir :=
  [.bop .div false { p := 7, z := .l } (.reg { p := 7, z := .l }) (.reg { p := 8, z := .l }),
   .bop .shr false { p := 7, z := .l } (.reg { p := 7, z := .l }) (.reg { p := 8, z := .l }),
   .cond 4 { p := 9, z := .l } { p := 7, z := .l } (.const 0 .l),
   .stores (.reg { p := 7, z := .l }) (-16), .result (.reg { p := 9, z := .l })]

example : ∀ i ∈ exP, Ok true i := by
  intro i hi
  simp [exP] at hi
  rcases hi with h | h | h | h | h <;> subst h <;> simp [Ok, DstOk, Opr.lt, dI]

example : (stepAll exP exM).map (fun m => (m.ρ 7, m.res, rdM m.mem 0x7ff0 4))
    = some (some (.l, 2 ^ 32 - 1), some (.l, 1), 2 ^ 32 - 1) := by decide

example : emitAll exP = some
    [.mov { z := .l, n := 3 } { z := .l, n := 0 }, .cltd, .md .idiv { z := .l, n := 12 }, .mov { z := .l, n := 0 } { z := .l, n := 3 },
     .mov { z := .b, n := 12 } { z := .b, n := 1 }, .sh .sar { z := .l, n := 3 },
     .test { z := .l, n := 3 } { z := .l, n := 3 }, .set 12 { z := .b, n := 13 },
     .movx true { z := .b, n := 13 } { z := .l, n := 13 }, .store { z := .l, n := 3 } (atReg 5 (-16)),
     .mov { z := .l, n := 13 } { z := .l, n := 0 }] := by decide

example : ∃ s, Rel true exM s := rel_exists true exM
  (by
    intro p z v h
    simp only [exM] at h
    split at h
    · injection h with h; injection h with h1 h2; subst h1; subst h2; decide
    · split at h
      · injection h with h; injection h with h1 h2; subst h1; subst h2; decide
      · split at h
        · injection h with h; injection h with h1 h2; subst h1; subst h2; decide
        · cases h)
  rfl (fun _ => rfl)

/-- A jump on `-7 < 2`, signed and unsigned. -/
example : emitJmp 4 { p := 7, z := .l } (.reg { p := 8, z := .l })
    = some (.alu .cmp { z := .l, n := 12 } { z := .l, n := 3 }, 12) ∧
    Cond.holds 4 (Cond.cmpW 32 4 (2 ^ 32 - 7) 2) = true ∧ Cond.holds 12 (Cond.cmpW 32 12 (2 ^ 32 - 7) 2) = false := by decide

/-! ## Operands below 32 bits

C promotes the operands of `/` and `%` to `int`, so the following paths are not taken by compiled programs; `Ok` and
`AllocOk` leave them out because they are wrong. -/

/-- `%` on 8-bit operands fails an assertion: the 8-bit path of `ei_mod` is guarded by `vsize == 1`. -/
theorem mod8_asserts (u : Bool) (d o2 : V) (h : d.z = .b) : emitMod u d o2 = none := by
  unfold emitMod
  rw [h]
  split
  · rfl
  · cases u <;> rfl

/-- A state with `%rbx = 1000`, `%r12 = 7`, `%rax = 0x105` and `%rdx = 9`. -/
def exS : St := { r := fun n => if n = 3 then 1000 else if n = 12 then 7 else if n = 0 then 0x105 else if n = 2 then 9 else 0,
                  fl := none, mem := fun _ => 0 }

/-- 16-bit `%` calculates `(-24) % 7` for `1000 % 7`. -/
theorem mod16_wrong : ∃ code s', emitMod false { p := 7, z := .w } { p := 8, z := .w } = some code ∧
    execs code exS = some s' ∧ rdR (rg .w 7) exS = 1000 ∧ rdR (rg .w 8) exS = 7 ∧ rdR (rg .w 7) s' ≠ 1000 % 7 := by
  refine ⟨_, _, rfl, rfl, ?_⟩
  decide

/-- 8-bit `/` with the dividend in `%al` divides `%ax`: `5 / 7 = 37`. -/
theorem div8_wrong : ∃ code s', emitDiv true { p := 0, z := .b } { p := 8, z := .b } = some code ∧
    execs code exS = some s' ∧ rdR (rg .b 0) exS = 5 ∧ rdR (rg .b 8) exS = 7 ∧ rdR (rg .b 0) s' ≠ 5 / 7 := by
  refine ⟨_, _, rfl, rfl, ?_⟩
  decide

/-- Signed 16-bit `/` extends `%ax` to `%eax` (CWTL) but divides `%dx:%ax`, whose upper half is not set. -/
theorem div16_wrong : ∃ code, emitDiv false { p := 7, z := .w } { p := 8, z := .w } = some code ∧
    execs code exS = none := by
  refine ⟨_, rfl, ?_⟩
  decide

end Verif.X64Sel

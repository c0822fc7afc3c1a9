import Verif.Util.Align
import Verif.Util.Wrap

/-!
# Stack frame layout (C35) and stack alignment at calls (C50)

`src/cc/backend/codegen.c:775-876` (`alloc_stack_variables_onto_stack_frame`), `src/cc/arch/x64/emit_x64.c:222-253`,
`src/cc/arch/riscv64/emit_riscv64.c:204-237`.
-/
namespace Verif.Frame
open Verif.Align Verif.Util

/-- An object that needs a place in the frame: an aggregate variable or a spilled virtual register. -/
structure Item where
  size : Nat
  align : Nat
deriving DecidableEq, Repr

/-- codegen.c:842-847 and 862-866: one step of the allocation; result: the new frame size.
`ALIGN` is used with powers of two only (`Verif.Align.alignMacro_eq`). -/
def grow (f : Nat) (it : Item) : Nat := alignUp (f + max it.size 1) it.align

/-- codegen.c:791-868: the offsets handed out, in order, and the final frame size.  `-(int)frame_size` is the
conversion to 32 bits. -/
def allocate : Nat → List Item → List Int × Nat
  | f, [] => ([], f)
  | f, it :: its =>
    let f' := grow f it
    let r := allocate f' its
    (-(toS 32 f') :: r.1, r.2)

/-! ## Specification -/

/-- The byte ranges `[a, a+s)` and `[b, b+t)` do not overlap. -/
def Disjoint (a : Int) (s : Nat) (b : Int) (t : Nat) : Prop := a + s ≤ b ∨ b + t ≤ a

theorem allocate_length (its : List Item) : ∀ f, (allocate f its).1.length = its.length := by
  induction its with
  | nil => intro f; rfl
  | cons it its ih => intro f; simp only [allocate, List.length_cons, ih]

theorem grow_ge (f : Nat) (it : Item) (h : 0 < it.align) : f + max it.size 1 ≤ grow f it := le_alignUp _ _ h

theorem allocate_mono (its : List Item) : ∀ f, (∀ it ∈ its, 0 < it.align) → f ≤ (allocate f its).2 := by
  induction its with
  | nil => intro f _; exact Nat.le_refl _
  | cons it its ih =>
    intro f h
    have h1 := grow_ge f it (h it (by simp))
    have h2 := ih (grow f it) (fun x hx => h x (by simp [hx]))
    show f ≤ (allocate (grow f it) its).2
    omega

theorem toS32_of_lt (f : Nat) (h : f < 2 ^ 31) : toS 32 (f : Int) = f := by
  unfold toS
  have e : ((f : Int) % (2 ^ 32 : Int)) = f := Int.emod_eq_of_lt (by omega) (by omega)
  simp only [e]
  rw [if_pos (by omega)]

/-- C35, placement: every object lies inside the frame, below everything reserved before. -/
theorem slot_in_frame (its : List Item) : ∀ (f : Nat), (∀ it ∈ its, 0 < it.align) → (allocate f its).2 < 2 ^ 31 →
    ∀ (i : Nat) (it : Item) (o : Int), its[i]? = some it → (allocate f its).1[i]? = some o →
      -((allocate f its).2 : Int) ≤ o ∧ o + it.size ≤ -(f : Int) ∧ (it.align : Int) ∣ o := by
  induction its with
  | nil => intro f _ _ i it o h; simp at h
  | cons x its ih =>
    intro f hal hsz i it o h1 h2
    have hg := grow_ge f x (hal x (by simp))
    have hm := allocate_mono its (grow f x) (fun y hy => hal y (by simp [hy]))
    have hsz' : (allocate (grow f x) its).2 < 2 ^ 31 := hsz
    cases i with
    | zero =>
      simp only [List.getElem?_cons_zero, Option.some.injEq] at h1
      subst h1
      have : o = -(toS 32 (grow f x : Int)) := by
        have e : (allocate f (x :: its)).1[0]? = some (-(toS 32 (grow f x : Int))) := rfl
        rw [e] at h2; exact (Option.some.inj h2).symm
      rw [toS32_of_lt _ (by omega)] at this
      subst this
      refine ⟨?_, ?_, ?_⟩
      · show -((allocate (grow f x) its).2 : Int) ≤ _
        omega
      · omega
      · have h := dvd_alignUp (f + max x.size 1) x.align
        exact Int.dvd_neg.2 (Int.natCast_dvd_natCast.2 h)
    | succ i =>
      have h2' : (allocate (grow f x) its).1[i]? = some o := h2
      obtain ⟨a, b, c⟩ := ih (grow f x) (fun y hy => hal y (by simp [hy])) hsz' i it o (by simpa using h1) h2'
      refine ⟨a, by omega, c⟩

/-- C35: different objects never overlap. -/
theorem slots_disjoint (its : List Item) : ∀ (f : Nat), (∀ it ∈ its, 0 < it.align) → (allocate f its).2 < 2 ^ 31 →
    ∀ (i j : Nat) (a b : Item) (oa ob : Int), i ≠ j → its[i]? = some a → its[j]? = some b →
      (allocate f its).1[i]? = some oa → (allocate f its).1[j]? = some ob → Disjoint oa a.size ob b.size := by
  induction its with
  | nil => intro f _ _ i j a b oa ob _ h; simp at h
  | cons x its ih =>
    intro f hal hsz i j a b oa ob hij h1 h2 h3 h4
    have hsz' : (allocate (grow f x) its).2 < 2 ^ 31 := hsz
    have hal' : ∀ y ∈ its, 0 < y.align := fun y hy => hal y (by simp [hy])
    have hm := allocate_mono its (grow f x) hal'
    have hz : (allocate f (x :: its)).1[0]? = some (-(grow f x : Int)) := by
      rw [← toS32_of_lt (grow f x) (by omega)]; rfl
    cases i with
    | zero =>
      cases j with
      | zero => exact absurd rfl hij
      | succ j =>
        rw [hz] at h3
        cases h3
        obtain ⟨-, h, -⟩ := slot_in_frame its (grow f x) hal' hsz' j b ob (by simpa using h2) h4
        exact Or.inr h
    | succ i =>
      cases j with
      | zero =>
        rw [hz] at h4
        cases h4
        obtain ⟨-, h, -⟩ := slot_in_frame its (grow f x) hal' hsz' i a oa (by simpa using h1) h3
        exact Or.inl h
      | succ j =>
        exact ih (grow f x) hal' hsz' i j a b oa ob (by omega) (by simpa using h1) (by simpa using h2) h3 h4

example : allocate 0 [⟨3, 1⟩, ⟨16, 8⟩, ⟨0, 4⟩, ⟨4, 4⟩] = ([-3, -24, -28, -32], 32) := by decide

/-- The restriction to frames below 2 GiB is needed: `char a[1<<31]` gets a positive offset. -/
theorem huge_frame_wrong : (allocate 0 [⟨2 ^ 31, 1⟩]).1 = [2 ^ 31] := by decide +kernel

/-! ## Prologues -/

/-- State after the prologue: frame pointer (if any) and stack pointer. -/
structure Regs where
  fp : Option Int
  sp : Int
deriving DecidableEq, Repr

/-- emit_x64.c:222-253.  `sp0` is RSP at entry (pointing at the return address), `saved` the number of callee save
registers pushed, `frame` the size of the local variables, `work` the outgoing argument area. -/
def prologueX64 (sp0 : Int) (saved frame work : Nat) (stackFrame hasCalls : Bool) : Regs :=
  let sp := sp0 - 8 * saved
  let useFp := frame > 0 || stackFrame
  let sp := if useFp then sp - 8 else sp
  let fp := if useFp then some sp else none
  let frameOffset := if useFp then 0 else 8
  let size := frame + work
  let size := if hasCalls then size + ((-((size + saved * 8 + frameOffset : Nat) : Int)) % 16).toNat else size
  ⟨fp, sp - size⟩

/-- ir_x64.c:135-141 `calculate_func_param_bottom`. -/
def paramBottomX64 (saved : Nat) : Int := saved * 8 + 16

/-- C50: if the caller keeps the stack 16-byte aligned at the call (so that `RSP + 8` is aligned at entry) then every
call made by the body sees an aligned stack, too. -/
theorem x64_call_aligned (sp0 : Int) (saved frame work : Nat) (sf : Bool) (h : (sp0 + 8) % 16 = 0) :
    (prologueX64 sp0 saved frame work sf true).sp % 16 = 0 := by
  unfold prologueX64
  by_cases hf : (decide (frame > 0) || sf) = true
  · simp only [hf, if_true]
    omega
  · simp only [hf, if_true]
    simp only [Bool.false_eq_true, if_false]
    omega

/-- C50/C35: the outgoing area at the stack pointer, the local variables below the frame pointer and the saved
registers, the return address and the incoming parameters above it do not overlap; the first incoming stack parameter
is directly above the return address. -/
theorem x64_areas (sp0 : Int) (saved frame work : Nat) (sf hc : Bool) (fp : Int)
    (h : (prologueX64 sp0 saved frame work sf hc).fp = some fp) :
    (prologueX64 sp0 saved frame work sf hc).sp + work ≤ fp - frame ∧
      fp + 8 + 8 * saved = sp0 ∧ fp + paramBottomX64 saved = sp0 + 8 := by
  unfold prologueX64 at h ⊢
  by_cases hf : (decide (frame > 0) || sf) = true
  · simp only [hf, if_true, Option.some.injEq] at h
    subst h
    simp only [hf, if_true]
    unfold paramBottomX64
    cases hc
    · simp only [Bool.false_eq_true, if_false]; omega
    · simp only [if_true]; omega
  · simp only [hf, if_true] at h
    cases h

/-- Without a frame pointer there are no local variables; the outgoing area is below the saved registers. -/
theorem x64_areas_noframe (sp0 : Int) (saved frame work : Nat) (sf hc : Bool)
    (h : (prologueX64 sp0 saved frame work sf hc).fp = none) :
    frame = 0 ∧ (prologueX64 sp0 saved frame work sf hc).sp + work ≤ sp0 - 8 * saved := by
  unfold prologueX64 at h ⊢
  by_cases hf : (decide (frame > 0) || sf) = true
  · simp only [hf, if_true] at h
    cases h
  · have hz : frame = 0 := by
      simp at hf
      omega
    refine ⟨hz, ?_⟩
    simp only [hf]
    cases hc
    · simp only [Bool.false_eq_true, if_false]; omega
    · simp only [Bool.false_eq_true, if_false, if_true]; omega

example : prologueX64 1000 2 24 8 false true = ⟨some 976, 944⟩ ∧ (1000 + 8 : Int) % 16 = 0 ∧ (944 : Int) % 16 = 0 := by
  decide

/-- emit_riscv64.c:204-237: `vasaved` bytes for the variadic register arguments, a pair RA/FP, the callee save
registers (rounded to pairs, ir_riscv64.c:88-108), then the frame. -/
def prologueRiscv (sp0 : Int) (vasaved saved frame work : Nat) (stackFrame hasCalls vaargs : Bool) : Regs :=
  let size := if vaargs then alignUp (frame + work + vasaved) 16 - vasaved else alignUp (frame + work) 16
  let sp := if vaargs then sp0 - vasaved else sp0
  let fpSaved := frame > 0 || stackFrame
  let sp := if fpSaved || hasCalls then sp - 16 else sp
  let sp := sp - 8 * alignUp saved 2
  ⟨if fpSaved then some sp else none, sp - size⟩

/-- emit_riscv64.c:49-53: the size reserved for the register arguments of a variadic function. -/
def vaSaved (maxI ip : Nat) : Nat := if maxI - ip > 0 then alignUp (maxI - ip) 2 * 8 else 0

theorem vaSaved_dvd (m ip : Nat) : 16 ∣ vaSaved m ip := by
  unfold vaSaved
  split
  · obtain ⟨q, hq⟩ := dvd_alignUp (m - ip) 2
    exact ⟨q, by omega⟩
  · exact ⟨0, rfl⟩

/-- C50 on RISC-V: the stack pointer stays 16-byte aligned. -/
theorem riscv_call_aligned (sp0 : Int) (m ip saved frame work : Nat) (sf hc va : Bool) (h : sp0 % 16 = 0) :
    (prologueRiscv sp0 (vaSaved m ip) saved frame work sf hc va).sp % 16 = 0 := by
  unfold prologueRiscv
  obtain ⟨v, hv⟩ := vaSaved_dvd m ip
  obtain ⟨s, hs⟩ := dvd_alignUp saved 2
  obtain ⟨a, ha⟩ := dvd_alignUp (frame + work + vaSaved m ip) 16
  obtain ⟨b, hb⟩ := dvd_alignUp (frame + work) 16
  have hle := le_alignUp (frame + work + vaSaved m ip) 16 (by omega)
  dsimp only
  rw [ha, hb, hs, hv]
  rw [ha, hv] at hle
  cases va <;> cases hc <;> cases (decide (frame > 0) || sf) <;>
    simp only [Bool.false_eq_true, if_true, if_false, Bool.or_true, Bool.or_false] <;> omega

/-- C50/C35 on RISC-V: outgoing area and local variables do not overlap. -/
theorem riscv_areas (sp0 : Int) (vs saved frame work : Nat) (sf hc va : Bool) (fp : Int)
    (h : (prologueRiscv sp0 vs saved frame work sf hc va).fp = some fp) :
    (prologueRiscv sp0 vs saved frame work sf hc va).sp + work ≤ fp - frame := by
  unfold prologueRiscv at h ⊢
  have h1 := le_alignUp (frame + work + vs) 16 (by omega)
  have h2 := le_alignUp (frame + work) 16 (by omega)
  dsimp only at h ⊢
  by_cases hf : (decide (frame > 0) || sf) = true
  · rw [hf] at h ⊢
    simp only [if_true, Option.some.injEq, Bool.true_or] at h ⊢
    subst h
    cases va
    · simp only [Bool.false_eq_true, if_false]; omega
    · simp only [if_true]; omega
  · simp only [hf] at h
    cases h

example : prologueRiscv 1024 (vaSaved 8 3) 1 20 8 false true true = ⟨some 944, 912⟩ := by decide

end Verif.Frame

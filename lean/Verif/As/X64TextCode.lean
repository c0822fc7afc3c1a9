import Verif.As.X64TextRead
import Verif.As.X64Code
/-
From the IR through assembly text to machine code (C76): instruction selection (X64Sel), the text the compiler writes
(X64Text.write), the assembler's reading of it (X64Text.readIns) and its encoder (X64Enc).
-/
namespace Verif.X64TextCode
open Verif.Util Verif.X64 Verif.X64Sel Verif.X64Code
open Verif.X64Text (Str LI I64 Writable write readIns)

/-! ## Specification -/

/-- The lines of a file, read and encoded; `none` is a message. -/
def assemble : List Str → Option (List Nat)
  | [] => some []
  | l :: ls => match readIns l with
    | some (.a x) => match X64Enc.enc x, assemble ls with
      | some a, some b => some (a ++ b)
      | _, _ => none
    | _ => none

/-- The text of a block. -/
def writeAll : List Ins → Option (List Str)
  | [] => some []
  | x :: xs => match write (.a (.i x)), writeAll xs with
    | some a, some b => some (a :: b)
    | _, _ => none

/-- Constants are 64-bit numbers; a constant address that is stored to is not negative (`X64Text.store_neg_wrong`). -/
def Consts : Ir → Prop
  | .mov _ (.const c _) => I64 c
  | .store (.const _ _) (.const k _) => 0 ≤ k
  | _ => True

/-! ## Proofs -/

/-- What `Good` does not say. -/
def Lit : Ins → Prop
  | .movI v _ | .aluI _ v _ => I64 v
  | .shI _ c _ => c < 2 ^ 63
  | .lea m d => m.index = none ∧ d.z = .q
  | .load m _ | .store _ m => m.index = none ∧ m.base.isSome = true
  | .storeI _ v m => I64 v ∧ m.index = none ∧ (m.base = none → 0 ≤ m.disp ∧ m.disp < 2 ^ 32)
  | _ => True

theorem im32_i64 {v : Int} (h : X64Enc.im32 v) : I64 v := by
  unfold X64Enc.im32 at h
  unfold I64
  omega

theorem good_writable {x : Ins} (h : Good x) (hl : Lit x) : Writable (.a (.i x)) := by
  obtain ⟨ho, bs, he⟩ := h
  cases x with
  | mov s d => exact ⟨ho.1, ho.2.1, ho.2.2.1⟩
  | alu o s d => exact ⟨ho.1, ho.2.1, ho.2.2.1⟩
  | test s d => exact ⟨ho.1, ho.2.1, ho.2.2.1⟩
  | movI v d => exact ⟨hl, ho.1⟩
  | aluI o v d => exact ⟨hl, ho⟩
  | movx sx s d =>
    refine ⟨ho.1, ho.2.1, ?_⟩
    have he : X64Enc.movszx sx s d = some bs := he
    unfold X64Text.ExtOk
    obtain ⟨sz, sn, sh⟩ := s
    obtain ⟨dz, dn, dh⟩ := d
    cases sz <;> cases dz <;> simp [Sz.bits] <;> simp [X64Enc.movszx] at he
  | un o d => exact ho.1
  | md o d => exact ho.1
  | sh o d => exact ho
  | shI o c d => exact ⟨hl, ho⟩
  | cwtl => trivial
  | cltd => trivial
  | cqto => trivial
  | set cc d => exact ⟨ho.1, ho.2.1, ho.2.2.1⟩
  | lea m d =>
    obtain ⟨b, ix, v⟩ := m
    obtain ⟨hi, hz⟩ := hl
    dsimp only at hi
    subst hi
    cases b with
    | none => exact ho.2.elim
    | some b => exact ⟨⟨ho.2.1.1, ho.2.1.2.2.2⟩, rfl, ho.1, hz⟩
  | load m d =>
    obtain ⟨b, ix, v⟩ := m
    obtain ⟨hi, hz⟩ := hl
    dsimp only at hi
    subst hi
    cases b with
    | none => cases hz
    | some b => exact ⟨⟨ho.2.1, ho.2.2.1⟩, ho.1⟩
  | store s m =>
    obtain ⟨b, ix, v⟩ := m
    obtain ⟨hi, hz⟩ := hl
    dsimp only at hi
    subst hi
    cases b with
    | none => cases hz
    | some b => exact ⟨⟨ho.2.1, ho.2.2.1⟩, rfl, ho.1⟩
  | storeI z c m =>
    obtain ⟨b, ix, v⟩ := m
    obtain ⟨hv, hi, hz⟩ := hl
    dsimp only at hi
    subst hi
    cases b with
    | none => exact ⟨hz rfl, rfl, hv⟩
    | some b => exact ⟨⟨ho.2.1, ho.2.2⟩, rfl, hv⟩

theorem lit_app {a b : List Ins} (ha : ∀ x ∈ a, Lit x) (hb : ∀ x ∈ b, Lit x) : ∀ x ∈ a ++ b, Lit x := by
  intro x hx
  rcases List.mem_append.1 hx with h | h
  · exact ha x h
  · exact hb x h

theorem lit_one {i : Ins} (h : Lit i) : ∀ x ∈ [i], Lit x := by
  intro x hx
  rw [List.mem_singleton.1 hx]
  exact h

theorem lit_nil : ∀ x ∈ ([] : List Ins), Lit x := fun _ h => nomatch h

theorem lit_alu (o : Alu) (d : V) (o2 : Opr) (hs : o2.small) : Lit (emitAlu o d o2) := by
  cases o2 with
  | const c z => exact im32_i64 (small_im32 hs)
  | reg v => trivial

theorem lit_cmp (o1 : V) (o2 : Opr) (hs : o2.small) : Lit (emitCmp o1 o2) := by
  cases o2 with
  | const c z =>
    unfold emitCmp
    simp only
    split
    · trivial
    · exact im32_i64 (small_im32 hs)
  | reg v => trivial

theorem lit_movIf (z : Sz) (a b : Nat) : ∀ x ∈ movIf z a b, Lit x := by
  unfold movIf
  split
  · exact lit_one trivial
  · exact lit_nil

theorem lit_extend (u : Bool) (z : Sz) (e : List Ins) (h : extend u z = some e) : ∀ x ∈ e, Lit x := by
  cases z <;> cases u <;> simp [extend] at h <;> subst h <;> exact lit_one trivial

theorem lit_div8 (u : Bool) (d o2 : V) : ∀ x ∈ emitDiv8 u d o2, Lit x := by
  unfold emitDiv8
  refine lit_app ?_ (lit_one trivial)
  split
  · exact lit_one trivial
  · exact lit_nil

theorem lit_add (d : V) (o2 : Opr) (hs : o2.small) : (∀ x ∈ emitAdd d o2, Lit x) ∧ ∀ x ∈ emitSub d o2, Lit x := by
  have ha := fun o => lit_alu o d o2 hs
  cases o2 with
  | reg v => exact ⟨lit_one (ha _), lit_one (ha _)⟩
  | const c z =>
    unfold emitAdd emitSub
    simp only
    constructor
    all_goals
      split
      · exact lit_nil
      · split
        · exact lit_one trivial
        · split
          · exact lit_one trivial
          · exact lit_one (ha _)

theorem lit_shift (o : Sh) (d : V) (o2 : Opr) (code : List Ins) (he : emitShift o d o2 = some code) : ∀ x ∈ code, Lit x := by
  cases o2 with
  | const c z =>
    injection he with he
    subst he
    refine lit_one ?_
    show (c % 256).toNat < 2 ^ 63
    omega
  | reg v =>
    unfold emitShift at he
    simp only at he
    split at he
    · cases he
    · injection he with he
      subst he
      exact lit_app (a := [_]) (lit_one trivial) (lit_one trivial)

theorem lit_bop (o : Bop) (u : Bool) (d : V) (o1 o2 : Opr) (hs : o2.small) (code : List Ins)
    (he : emitBop o u d o1 o2 = some code) : ∀ x ∈ code, Lit x := by
  unfold emitBop at he
  cases o1 with
  | const _ _ => cases he
  | reg v1 =>
    simp only at he
    split at he
    · cases he
    · cases o with
      | add => injection he with he; subst he; exact (lit_add d o2 hs).1
      | sub => injection he with he; subst he; exact (lit_add d o2 hs).2
      | and => injection he with he; subst he; exact lit_one (lit_alu .and d o2 hs)
      | or => injection he with he; subst he; exact lit_one (lit_alu .or d o2 hs)
      | xor => injection he with he; subst he; exact lit_one (lit_alu .xor d o2 hs)
      | shl => exact lit_shift .shl d o2 code he
      | shr => exact lit_shift _ d o2 code he
      | mul =>
        cases o2 with
        | const _ _ => cases he
        | reg v2 =>
          simp only [emitMul] at he
          split at he
          · cases he
          · injection he with he
            subst he
            exact lit_app (lit_app (lit_movIf _ _ _) (lit_one trivial)) (lit_movIf _ _ _)
      | div =>
        cases o2 with
        | const _ _ => cases he
        | reg v2 =>
          simp only [emitDiv] at he
          split at he
          · cases he
          · split at he
            · injection he with he
              subst he
              exact lit_app (lit_div8 u d v2) (lit_movIf _ _ _)
            · cases hx : extend u d.z with
              | none => rw [hx] at he; cases he
              | some e =>
                rw [hx] at he
                injection he with he
                subst he
                exact lit_app (lit_app (lit_app (lit_movIf _ _ _) (lit_extend u d.z e hx)) (lit_one trivial)) (lit_movIf _ _ _)
      | mod =>
        cases o2 with
        | const _ _ => cases he
        | reg v2 =>
          simp only [emitMod] at he
          split at he
          · cases he
          · split at he
            · injection he with he
              subst he
              exact lit_app (lit_app (lit_div8 u d v2) (lit_one trivial)) (lit_movIf _ _ _)
            · cases hx : extend u d.z with
              | none => rw [hx] at he; cases he
              | some e =>
                rw [hx] at he
                injection he with he
                subst he
                exact lit_app (lit_app (lit_app (lit_movIf _ _ _) (lit_extend u d.z e hx)) (lit_one trivial)) (lit_movIf _ _ _)

theorem lit_store (v : Opr) (b : Nat) (ofs : Int) (hs : v.small) : Lit (emitStore v (atReg b ofs)) := by
  cases v with
  | reg x => exact ⟨rfl, rfl⟩
  | const c z => exact ⟨im32_i64 (small_im32 hs), rfl, fun e => nomatch e⟩

theorem emit_lit (i : Ir) (code : List Ins) (hl : Legal i) (hn : Near i) (hc : Consts i) (he : emit i = some code) :
    ∀ x ∈ code, Lit x := by
  cases i with
  | bop o u d o1 o2 => exact lit_bop o u d o1 o2 hl.2.1 code he
  | neg d o1 =>
    simp only [emit] at he
    split at he
    · injection he with he
      subst he
      exact lit_one trivial
    · cases he
  | bitnot d o1 =>
    simp only [emit] at he
    split at he
    · injection he with he
      subst he
      exact lit_one trivial
    · cases he
  | cast u d o1 =>
    simp only [emit, emitCast] at he
    split at he
    · cases he
    · split at he
      · injection he with he
        subst he
        exact lit_movIf _ _ _
      · split at he
        · split at he
          all_goals
            injection he with he
            subst he
            exact lit_one trivial
        · injection he with he
          subst he
          exact lit_one trivial
  | mov d o1 =>
    injection he with he
    subst he
    cases o1 with
    | const c z => exact lit_one hc
    | reg v => exact lit_movIf _ _ _
  | cond c d o1 o2 =>
    simp only [emit, emitCond] at he
    cases hcc : ccOf c with
    | none => rw [hcc] at he; cases he
    | some cc =>
      rw [hcc] at he
      injection he with he
      subst he
      exact lit_app (a := [_]) (lit_one (lit_cmp o1 o2 hl)) (lit_app (a := [_]) (lit_one trivial) (lit_one trivial))
  | bofs d ofs =>
    injection he with he
    subst he
    exact lit_one ⟨rfl, rfl⟩
  | sofs d ofs =>
    injection he with he
    subst he
    exact lit_one ⟨rfl, rfl⟩
  | load d a =>
    injection he with he
    subst he
    obtain ⟨v, rfl⟩ := hn
    exact lit_one ⟨rfl, rfl⟩
  | loads d ofs =>
    injection he with he
    subst he
    exact lit_one ⟨rfl, rfl⟩
  | store v a =>
    injection he with he
    subst he
    cases a with
    | reg r => exact lit_one (lit_store v (hw r.p) 0 hl.1)
    | const k z =>
      rcases hn with ⟨r, e⟩ | ⟨c, z', e⟩
      · cases e
      · subst e
        refine lit_one ⟨im32_i64 (small_im32 hl.1), rfl, fun _ => ?_⟩
        have h0 : 0 ≤ k := hc
        have := small_im32 hl.2
        unfold X64Enc.im32 at this
        show 0 ≤ k ∧ k < 2 ^ 32
        omega
  | stores v ofs =>
    injection he with he
    subst he
    exact lit_one (lit_store v 5 ofs hl)
  | result v =>
    injection he with he
    subst he
    cases v with
    | const c z => exact lit_one (im32_i64 (small_im32 (z := z) hl))
    | reg v => exact lit_movIf _ _ _
  | keep =>
    injection he with he
    subst he
    exact lit_nil

theorem emitAll_lit : ∀ (is : List Ir) (code : List Ins), (∀ i ∈ is, Legal i ∧ Near i ∧ Consts i) →
    emitAll is = some code → ∀ x ∈ code, Lit x
  | [], code, _, he => by
    injection he with he
    subst he
    exact lit_nil
  | i :: is, code, h, he => by
    simp only [emitAll] at he
    cases h1 : emit i with
    | none => rw [h1] at he; cases he
    | some a =>
      cases h2 : emitAll is with
      | none => rw [h1, h2] at he; cases he
      | some b =>
        rw [h1, h2] at he
        injection he with he
        subst he
        obtain ⟨x, y, z⟩ := h i (by simp)
        exact lit_app (emit_lit i a x y z h1) (emitAll_lit is b (fun j hj => h j (by simp [hj])) h2)

/-- Instructions, written and assembled, give the bytes of the instructions. -/
theorem assemble_write : ∀ (code : List Ins) (bs : List Nat), (∀ x ∈ code, Writable (.a (.i x))) →
    X64Enc.encAll (code.map .i) = some bs → ∃ ls, writeAll code = some ls ∧ ls.length = code.length ∧ assemble ls = some bs
  | [], bs, _, h => ⟨[], rfl, rfl, h⟩
  | x :: code, bs, hw, h => by
    simp only [List.map_cons] at h
    unfold X64Enc.encAll at h
    cases hx : X64Enc.enc (.i x) with
    | none => rw [hx] at h; cases h
    | some a =>
      cases hc : X64Enc.encAll (code.map .i) with
      | none => rw [hx, hc] at h; cases h
      | some c =>
        rw [hx, hc] at h
        injection h with h
        subst h
        obtain ⟨ls, h1, h2, h3⟩ := assemble_write code c (fun y hy => hw y (by simp [hy])) hc
        obtain ⟨t, t1, t2⟩ := X64Text.read_write_partial (hw x (by simp))
        exact ⟨t :: ls, by simp [writeAll, t1, h1], by simp [h2], by simp [assemble, t2, hx, h3]⟩

/-! ## Theorems -/

/-- **C76, C67.**  A basic block without its jump, through the text: the lines the compiler writes are read and encoded
by the assembler without a message, and the processor, executing the bytes, ends in a state that holds what the IR
says. -/
theorem machine_text_partial (frame : Bool) (is : List Ir) (code : List Ins) (m m' : Mach) (s : St)
    (h : ∀ i ∈ is, X64Sel.Ok frame i ∧ Legal i ∧ Near i ∧ Consts i) (he : emitAll is = some code) (hr : Rel frame m s)
    (hs : stepAll is m = some m') :
    ∃ ls bs s', writeAll code = some ls ∧ assemble ls = some bs ∧ (∀ b ∈ bs, b < 256) ∧
      X64Enc.run ls.length bs s = some s' ∧ Rel frame m' s' := by
  obtain ⟨bs, s', h1, h2, h3, h4⟩ := machine_code_partial frame is code m m' s
    (fun i hi => ⟨(h i hi).1, (h i hi).2.1, (h i hi).2.2.1⟩) he hr hs
  have hg := emitAll_good frame is code (fun i hi => ⟨(h i hi).1, (h i hi).2.1, (h i hi).2.2.1⟩) he
  have hl := emitAll_lit is code (fun i hi => ⟨(h i hi).2.1, (h i hi).2.2.1, (h i hi).2.2.2⟩) he
  obtain ⟨ls, w1, w2, w3⟩ := assemble_write code bs (fun x hx => good_writable (hg x hx) (hl x hx)) h1
  exact ⟨ls, bs, s', w1, w3, h2, by rw [w2]; exact h3, h4⟩

/-! ## A concrete case -/

example : ∀ i ∈ exP, X64Sel.Ok true i ∧ Legal i ∧ Near i ∧ Consts i := by
  intro i hi
  simp [exP] at hi
  rcases hi with h | h | h | h | h <;> subst h <;>
    simp [X64Sel.Ok, DstOk, Opr.lt, dI, Legal, Opr.small, Near, Bop.md, X64Enc.im32, Consts] <;> decide

example : ((emitAll exP).bind writeAll).map (·.take 4) = some
    [c!"\tmov %ebx, %eax", c!"\tcltd", c!"\tidiv %r12d", c!"\tmov %eax, %ebx"] := by decide +kernel

example : ((emitAll exP).bind writeAll).bind assemble = some
    [0x89, 0xd8, 0x99, 0x41, 0xf7, 0xfc, 0x89, 0xc3, 0x44, 0x88, 0xe1, 0xd3, 0xfb, 0x85, 0xdb, 0x41, 0x0f, 0x9c, 0xc5,
     0x45, 0x0f, 0xbe, 0xed, 0x89, 0x5d, 0xf0, 0x44, 0x89, 0xe8] := by decide +kernel

end Verif.X64TextCode

import Verif.Backend.X64Legal
import Verif.As.X64Enc
/-
From the IR to machine code (C67): instruction selection (X64Sel, C65) followed by the encoder of the assembler
(X64Enc, C66).  An instruction is taken to be read as it was written; the text between the two, written by the compiler
and read by parse_inst (/repo/src/as/arch/x64/parse_x64.c), is the subject of X64Text (C76).
-/
namespace Verif.X64Code
open Verif.Util Verif.X64 Verif.X64Sel

/-! ## Specification -/

/-- What is left out of the full statement (every legal instruction): constant addresses, for which the assembler
writes address 0 (`X64Enc.abs_wrong`), 8-bit `neg` and `not`, for which it writes the 32-bit ones
(`X64Enc.neg8_wrong`), and frames of more than 2 GiB. -/
def Near : Ir → Prop
  | .neg d _ | .bitnot d _ => d.z ≠ .b
  | .bofs _ ofs | .sofs _ ofs | .loads _ ofs | .stores _ ofs => X64Enc.im32 ofs
  | .load _ a => ∃ v, a = .reg v
  | .store v a => (∃ r, a = .reg r) ∨ ∃ c z, v = .const c z
  | _ => True

/-! ## Proofs -/

theorem hw_lt : ∀ p, p < 15 → hw p < 16 := by decide

/-- Encoded, and rightly. -/
def Good (x : Ins) : Prop := X64Enc.OkIns x ∧ ∃ bs, X64Enc.enc (.i x) = some bs

theorem small_im32 {c : Int} {z : Sz} (h : Opr.small (.const c z)) : X64Enc.im32 c := by
  simp only [Opr.small, toS, toU] at h
  unfold X64Enc.im32
  omega

theorem wf_rg (z : Sz) {p : Nat} (h : p < 15) : X64Enc.Wf (rg z p) := ⟨hw_lt p h, fun e => nomatch e⟩

theorem pair_rg (z : Sz) {p q : Nat} (hp : p < 15) (hq : q < 15) : X64Enc.Pair (rg z p) (rg z q) :=
  ⟨wf_rg z hp, wf_rg z hq, rfl, (fun e => nomatch e), (fun e => nomatch e)⟩

theorem good_mov (z : Sz) {p q : Nat} (hp : p < 15) (hq : q < 15) : Good (.mov (rg z p) (rg z q)) := ⟨pair_rg z hp hq, _, rfl⟩

theorem good_alu (o : Alu) (z : Sz) {p q : Nat} (hp : p < 15) (hq : q < 15) : Good (.alu o (rg z p) (rg z q)) :=
  ⟨pair_rg z hp hq, _, rfl⟩

theorem good_un (o : Un) (z : Sz) {p : Nat} (hp : p < 15) (h : o = .neg ∨ o = .not → z ≠ .b) : Good (.un o (rg z p)) :=
  ⟨⟨wf_rg z hp, h⟩, _, rfl⟩

theorem good_md (o : MulDiv) (z : Sz) {p : Nat} (hp : p < 15) : Good (.md o (rg z p)) := ⟨⟨wf_rg z hp, rfl⟩, _, rfl⟩

theorem good_movI (c : Int) (z : Sz) {p : Nat} (hp : p < 15) : Good (.movI c (rg z p)) := ⟨⟨wf_rg z hp, rfl⟩, _, rfl⟩

theorem good_aluI (o : Alu) (c : Int) (z : Sz) {p : Nat} (hp : p < 15) (hc : X64Enc.im32 c) : Good (.aluI o c (rg z p)) := by
  refine ⟨wf_rg z hp, ?_⟩
  have hl : ∀ acc ext, ∃ bs, X64Enc.logImr acc ext c (rg z p) = some bs := by
    intro acc ext
    unfold X64Enc.logImr
    split
    · exact ⟨_, rfl⟩
    · rw [if_pos (.inr hc)]
      exact ⟨_, rfl⟩
  have ha : ∀ acc ext, ∃ bs, X64Enc.addImr acc ext c (rg z p) = some bs := by
    intro acc ext
    unfold X64Enc.addImr
    rw [if_pos hc]
    exact ⟨_, rfl⟩
  cases o
  · exact ha _ _
  · exact hl _ _
  · exact hl _ _
  · exact ha _ _
  · exact hl _ _
  · show ∃ bs, X64Enc.cmpImr c (rg z p) = some bs
    unfold X64Enc.cmpImr
    have : X64Enc.im32 (toS (rg z p).z.bits c) ∨ (rg z p).z ≠ .q := by
      cases z with
      | q => exact .inl (by rw [show (rg Sz.q p).z = .q from rfl, X64Enc.toS_z32 (.inr rfl) hc]; exact hc)
      | _ => exact .inr (fun e => nomatch e)
    simp only
    rw [if_pos this]
    exact ⟨_, rfl⟩

theorem good_emitAlu (o : Alu) (d : V) (o2 : Opr) (hd : d.p < 15) (h2 : o2.lt) (hs : o2.small) : Good (emitAlu o d o2) := by
  cases o2 with
  | reg v => exact good_alu o d.z h2 hd
  | const c z => exact good_aluI o c d.z hd (small_im32 hs)

theorem good_test (z : Sz) {p : Nat} (hp : p < 15) : Good (.test (rg z p) (rg z p)) := ⟨pair_rg z hp hp, _, rfl⟩

theorem good_emitCmp (o1 : V) (o2 : Opr) (h1 : o1.p < 15) (h2 : o2.lt) (hs : o2.small) : Good (emitCmp o1 o2) := by
  cases o2 with
  | reg v => exact good_alu .cmp o1.z h2 h1
  | const c z =>
    unfold emitCmp
    simp only
    split
    · exact good_test o1.z h1
    · exact good_aluI .cmp c o1.z h1 (small_im32 hs)

theorem good_movIf (z : Sz) {a b : Nat} (ha : a < 15) (hb : b < 15) : ∀ x ∈ movIf z a b, Good x := by
  intro x hx
  unfold movIf at hx
  split at hx
  · simp at hx
    subst hx
    exact good_mov z ha hb
  · cases hx

theorem good_movx (sx : Bool) (sz dz : Sz) {a b : Nat} (ha : a < 15) (hb : b < 15) (h : sz.bits < dz.bits)
    (hl : sz = .l → sx = true) : Good (.movx sx (rg sz a) (rg dz b)) := by
  refine ⟨⟨wf_rg _ ha, wf_rg _ hb, rfl⟩, ?_⟩
  show ∃ bs, X64Enc.movszx sx (rg sz a) (rg dz b) = some bs
  cases sz <;> cases dz <;> simp [Sz.bits] at h <;> try exact ⟨_, rfl⟩
  rw [hl rfl]
  exact ⟨_, rfl⟩

theorem good_extend (u : Bool) (z : Sz) (e : List Ins) (h : extend u z = some e) : ∀ x ∈ e, Good x := by
  intro x hx
  cases z <;> cases u <;> simp [extend] at h <;> subst h <;> simp at hx <;> subst hx
  · exact ⟨trivial, _, rfl⟩
  · exact good_alu .xor .w (p := dI) (q := dI) (by decide) (by decide)
  · exact ⟨trivial, _, rfl⟩
  · exact good_alu .xor .l (p := dI) (q := dI) (by decide) (by decide)
  · exact ⟨trivial, _, rfl⟩
  · exact good_alu .xor .l (p := dI) (q := dI) (by decide) (by decide)

theorem good_div8 (u : Bool) (d o2 : V) (hd : d.p < 15) (h2 : o2.p < 15) : ∀ x ∈ emitDiv8 u d o2, Good x := by
  intro x hx
  unfold emitDiv8 at hx
  simp only [List.mem_append, List.mem_singleton] at hx
  rcases hx with hx | hx
  · split at hx
    · simp at hx
      subst hx
      exact good_movx _ .b .w (b := aI) hd (by decide) (by decide) (fun e => nomatch e)
    · cases hx
  · subst hx
    exact good_md _ .b h2

theorem good_app {a b : List Ins} (ha : ∀ x ∈ a, Good x) (hb : ∀ x ∈ b, Good x) : ∀ x ∈ a ++ b, Good x := by
  intro x hx
  rcases List.mem_append.1 hx with h | h
  · exact ha x h
  · exact hb x h

theorem good_one {i : Ins} (h : Good i) : ∀ x ∈ [i], Good x := by
  intro x hx
  rw [List.mem_singleton.1 hx]
  exact h

theorem good_nil : ∀ x ∈ ([] : List Ins), Good x := fun _ h => nomatch h

theorem good_shift (o : Sh) (d : V) (o2 : Opr) (hd : d.p < 15) (h2 : o2.lt) (code : List Ins)
    (he : emitShift o d o2 = some code) : ∀ x ∈ code, Good x := by
  cases o2 with
  | const c z =>
    injection he with he
    subst he
    refine good_one ⟨wf_rg _ hd, ?_⟩
    show ∃ bs, X64Enc.shImr o (c % 256).toNat (rg d.z d.p) = some bs
    unfold X64Enc.shImr
    rw [if_neg (by omega)]
    split <;> exact ⟨_, rfl⟩
  | reg v =>
    unfold emitShift at he
    simp only at he
    split at he
    · cases he
    · injection he with he
      subst he
      exact good_app (good_one (good_mov .b (q := cI) h2 (by decide))) (good_one ⟨wf_rg _ hd, _, rfl⟩)

theorem good_add (d : V) (o2 : Opr) (hd : d.p < 15) (h2 : o2.lt) (hs : o2.small) : ∀ x ∈ emitAdd d o2, Good x := by
  have ha := good_emitAlu .add d o2 hd h2 hs
  have h1 : ∀ o, o = Un.inc ∨ o = .dec → Good (.un o (rg d.z d.p)) := fun o h =>
    good_un o d.z hd (by rcases h with rfl | rfl <;> simp)
  cases o2 with
  | reg v => exact good_one ha
  | const c z =>
    unfold emitAdd
    simp only
    split
    · exact good_nil
    · split
      · exact good_one (h1 _ (.inl rfl))
      · split
        · exact good_one (h1 _ (.inr rfl))
        · exact good_one ha

theorem good_sub (d : V) (o2 : Opr) (hd : d.p < 15) (h2 : o2.lt) (hs : o2.small) : ∀ x ∈ emitSub d o2, Good x := by
  have ha := good_emitAlu .sub d o2 hd h2 hs
  have h1 : ∀ o, o = Un.inc ∨ o = .dec → Good (.un o (rg d.z d.p)) := fun o h =>
    good_un o d.z hd (by rcases h with rfl | rfl <;> simp)
  cases o2 with
  | reg v => exact good_one ha
  | const c z =>
    unfold emitSub
    simp only
    split
    · exact good_nil
    · split
      · exact good_one (h1 _ (.inr rfl))
      · split
        · exact good_one (h1 _ (.inl rfl))
        · exact good_one ha

theorem good_bop (o : Bop) (u : Bool) (d : V) (o1 o2 : Opr) (hd : d.p < 15) (h2 : o2.lt) (hs : o2.small) (code : List Ins)
    (he : emitBop o u d o1 o2 = some code) : ∀ x ∈ code, Good x := by
  have ha : (aI : Nat) < 15 := by decide
  unfold emitBop at he
  cases o1 with
  | const _ _ => cases he
  | reg v1 =>
    simp only at he
    split at he
    · cases he
    · cases o with
      | add => injection he with he; subst he; exact good_add d o2 hd h2 hs
      | sub => injection he with he; subst he; exact good_sub d o2 hd h2 hs
      | and => injection he with he; subst he; exact good_one (good_emitAlu .and d o2 hd h2 hs)
      | or => injection he with he; subst he; exact good_one (good_emitAlu .or d o2 hd h2 hs)
      | xor => injection he with he; subst he; exact good_one (good_emitAlu .xor d o2 hd h2 hs)
      | shl => exact good_shift .shl d o2 hd h2 code he
      | shr => exact good_shift _ d o2 hd h2 code he
      | mul =>
        cases o2 with
        | const _ _ => cases he
        | reg v2 =>
          simp only [emitMul] at he
          split at he
          · cases he
          · injection he with he
            subst he
            exact good_app (good_app (good_movIf _ hd ha) (good_one (good_md _ _ h2))) (good_movIf _ ha hd)
      | div =>
        cases o2 with
        | const _ _ => cases he
        | reg v2 =>
          simp only [emitDiv] at he
          split at he
          · cases he
          · split at he
            · injection he with he
              subst he
              exact good_app (good_div8 u d v2 hd h2) (good_movIf _ ha hd)
            · cases hx : extend u d.z with
              | none => rw [hx] at he; cases he
              | some e =>
                rw [hx] at he
                injection he with he
                subst he
                exact good_app (good_app (good_app (good_movIf _ hd ha) (good_extend u d.z e hx)) (good_one (good_md _ _ h2)))
                  (good_movIf _ ha hd)
      | mod =>
        cases o2 with
        | const _ _ => cases he
        | reg v2 =>
          simp only [emitMod] at he
          split at he
          · cases he
          · split at he
            · injection he with he
              subst he
              refine good_app (good_app (good_div8 u d v2 hd h2) (good_one ?_)) (good_movIf _ ha hd)
              exact ⟨⟨⟨by decide, fun _ => by decide⟩, wf_rg .b ha, rfl, fun _ => by decide, fun e => nomatch e⟩, _, rfl⟩
            · cases hx : extend u d.z with
              | none => rw [hx] at he; cases he
              | some e =>
                rw [hx] at he
                injection he with he
                subst he
                exact good_app (good_app (good_app (good_movIf _ hd ha) (good_extend u d.z e hx)) (good_one (good_md _ _ h2)))
                  (good_movIf _ (a := dI) (by decide) hd)

theorem good_emitMov (dp : Nat) (o1 : Opr) (hd : dp < 15) (h1 : o1.lt) : ∀ x ∈ emitMov dp o1, Good x := by
  cases o1 with
  | const c z => exact good_one (good_movI c z hd)
  | reg v => exact good_movIf v.z h1 hd

theorem good_cast (u : Bool) (d o1 : V) (hd : d.p < 15) (h1 : o1.p < 15) (code : List Ins) (he : emitCast u d o1 = some code) :
    ∀ x ∈ code, Good x := by
  unfold emitCast at he
  split at he
  · cases he
  · rename_i hne
    split at he
    · injection he with he
      subst he
      exact good_movIf d.z h1 hd
    · rename_i hlt
      have hw : o1.z.bits < d.z.bits := by
        generalize d.z = a at hne hlt
        generalize o1.z = b at hne hlt
        cases a <;> cases b <;> simp [Sz.bits] at hne hlt ⊢
      split at he
      · split at he
        · injection he with he
          subst he
          exact good_one (good_mov o1.z h1 hd)
        · rename_i hl
          injection he with he
          subst he
          exact good_one (good_movx false o1.z d.z h1 hd hw (fun e => absurd e hl))
      · injection he with he
        subst he
        exact good_one (good_movx true o1.z d.z h1 hd hw (fun _ => rfl))

theorem ccOf_lt {c cc : Nat} (h : ccOf c = some cc) : cc < 16 := by
  unfold ccOf at h
  repeat' split at h
  all_goals (cases h <;> decide)

theorem good_cond (c : Nat) (d o1 : V) (o2 : Opr) (hd : d.p < 15) (h1 : o1.p < 15) (h2 : o2.lt) (hs : o2.small)
    (code : List Ins) (he : emitCond c d o1 o2 = some code) : ∀ x ∈ code, Good x := by
  unfold emitCond at he
  cases hc : ccOf c with
  | none => rw [hc] at he; cases he
  | some cc =>
    rw [hc] at he
    injection he with he
    subst he
    refine good_app (good_one (good_emitCmp o1 o2 h1 h2 hs)) (good_app (a := [_]) (good_one ?_) (good_one ?_))
    · exact ⟨⟨ccOf_lt hc, wf_rg .b hd, rfl, rfl⟩, _, rfl⟩
    · exact good_movx true .b .l hd hd (by decide) (fun _ => rfl)

theorem good_load (b : Nat) (ofs : Int) (z : Sz) {p : Nat} (hb : b < 16) (h32 : X64Enc.im32 ofs) (hp : p < 15) :
    Good (.load (atReg b ofs) (rg z p)) := ⟨⟨wf_rg z hp, hb, h32, fun e => nomatch e⟩, _, rfl⟩

theorem good_store (v : Opr) (b : Nat) (ofs : Int) (hb : b < 16) (h32 : X64Enc.im32 ofs) (hv : v.lt) (hs : v.small) :
    Good (emitStore v (atReg b ofs)) := by
  cases v with
  | reg x => exact ⟨⟨wf_rg x.z hv, hb, h32, fun e => nomatch e⟩, _, rfl⟩
  | const c z => exact ⟨⟨fun _ => small_im32 hs, hb, h32⟩, _, rfl⟩

theorem good_lea (b : Nat) (ofs : Int) {p : Nat} (hb : b < 8) (h32 : X64Enc.im32 ofs) (hp : p < 15) :
    Good (.lea (atReg b ofs) (rg .q p)) := by
  refine ⟨⟨wf_rg .q hp, ⟨?_, ?_, ?_, h32⟩, by simp [rg]⟩, _, rfl⟩
  · omega
  · omega
  · intro h
    omega

/-- Everything the compiler emits for an instruction is encoded, and the code means it. -/
theorem emit_good (frame : Bool) (i : Ir) (code : List Ins) (hok : X64Sel.Ok frame i) (hl : Legal i) (hn : Near i)
    (he : emit i = some code) : ∀ x ∈ code, Good x := by
  cases i with
  | bop o u d o1 o2 => exact good_bop o u d o1 o2 hok.1.1 hok.2.2.1 hl.2.1 code he
  | neg d o1 =>
    simp only [emit] at he
    split at he
    · injection he with he
      subst he
      exact good_one (good_un .neg d.z hok.1.1 (fun _ => hn))
    · cases he
  | bitnot d o1 =>
    simp only [emit] at he
    split at he
    · injection he with he
      subst he
      exact good_one (good_un .not d.z hok.1.1 (fun _ => hn))
    · cases he
  | cast u d o1 => exact good_cast u d o1 hok.1.1 hok.2 code he
  | mov d o1 =>
    injection he with he
    subst he
    exact good_emitMov d.p o1 hok.1.1 hok.2
  | cond c d o1 o2 => exact good_cond c d o1 o2 hok.1.1 hok.2.1 hok.2.2 hl code he
  | bofs d ofs =>
    injection he with he
    subst he
    exact good_one (good_lea 5 ofs (by decide) hn hok.1.1)
  | sofs d ofs =>
    injection he with he
    subst he
    exact good_one (good_lea 4 ofs (by decide) hn hok.1)
  | load d a =>
    injection he with he
    subst he
    obtain ⟨v, rfl⟩ := hn
    exact good_one (good_load (hw v.p) 0 d.z (hw_lt _ hok.2) (by decide) hok.1.1)
  | loads d ofs =>
    injection he with he
    subst he
    exact good_one (good_load 5 ofs d.z (by decide) hn hok.1.1)
  | store v a =>
    injection he with he
    subst he
    rcases hn with ⟨r, rfl⟩ | ⟨c, z, rfl⟩
    · exact good_one (good_store v (hw r.p) 0 (hw_lt _ hok.2) (by decide) hok.1 hl.1)
    · cases a with
      | reg r => exact good_one (good_store _ (hw r.p) 0 (hw_lt _ hok.2) (by decide) hok.1 hl.1)
      | const k z' =>
        refine good_one ⟨⟨fun _ => small_im32 hl.1, trivial⟩, ?_⟩
        show ∃ bs, X64Enc.movImd z c k = some bs
        unfold X64Enc.movImd
        rw [if_pos (small_im32 hl.2)]
        exact ⟨_, rfl⟩
  | stores v ofs =>
    injection he with he
    subst he
    exact good_one (good_store v 5 ofs (by decide) hn hok.1 hl)
  | result v =>
    injection he with he
    subst he
    exact good_emitMov aI v (by decide) hok
  | keep =>
    injection he with he
    subst he
    exact good_nil

theorem emitAll_good (frame : Bool) : ∀ (is : List Ir) (code : List Ins), (∀ i ∈ is, X64Sel.Ok frame i ∧ Legal i ∧ Near i) →
    emitAll is = some code → ∀ x ∈ code, Good x
  | [], code, _, he => by
    injection he with he
    subst he
    exact good_nil
  | i :: is, code, h, he => by
    simp only [emitAll] at he
    cases h1 : emit i with
    | none => rw [h1] at he; cases he
    | some a =>
      cases h2 : emitAll is with
      | none => rw [h1, h2] at he; cases he
      | some b =>
        rw [h1, h2] at he
        injection he with he
        subst he
        obtain ⟨x, y, z⟩ := h i (by simp)
        exact good_app (emit_good frame i a x y z h1) (emitAll_good frame is b (fun j hj => h j (by simp [hj])) h2)

theorem encAll_some : ∀ (code : List Ins), (∀ x ∈ code, Good x) → ∃ bs, X64Enc.encAll (code.map .i) = some bs
  | [], _ => ⟨_, rfl⟩
  | x :: code, h => by
    obtain ⟨_, bs, hb⟩ := h x (by simp)
    obtain ⟨cs, hc⟩ := encAll_some code (fun y hy => h y (by simp [hy]))
    exact ⟨bs ++ cs, by simp [X64Enc.encAll, hb, hc]⟩

theorem encAll_bytes : ∀ (code : List AI) (bs : List Nat), (∀ x ∈ code, X64Enc.Ok x) → X64Enc.encAll code = some bs →
    ∀ b ∈ bs, b < 256
  | [], bs, _, h => by
    injection h with h
    subst h
    exact fun _ h => nomatch h
  | x :: code, bs, ok, h => by
    unfold X64Enc.encAll at h
    cases hx : X64Enc.enc x with
    | none => rw [hx] at h; cases h
    | some a =>
      cases hc : X64Enc.encAll code with
      | none => rw [hx, hc] at h; cases h
      | some c =>
        rw [hx, hc] at h
        injection h with h
        subst h
        intro b hb
        rcases List.mem_append.1 hb with h | h
        · exact (X64Enc.enc_fits hx (ok x (by simp))).2 b h
        · exact encAll_bytes code c (fun y hy => ok y (by simp [hy])) hc b h

/-! ## Theorems -/

/-- **C67.**  A basic block without its jump: the assembler accepts what the compiler emits, and the processor, reading
the bytes, ends in a state that holds what the IR says, with the next instruction behind the last byte. -/
theorem machine_code_partial (frame : Bool) (is : List Ir) (code : List Ins) (m m' : Mach) (s : St)
    (h : ∀ i ∈ is, X64Sel.Ok frame i ∧ Legal i ∧ Near i) (he : emitAll is = some code) (hr : Rel frame m s)
    (hs : stepAll is m = some m') :
    ∃ bs s', X64Enc.encAll (code.map .i) = some bs ∧ (∀ b ∈ bs, b < 256) ∧
      X64Enc.run code.length bs s = some s' ∧ Rel frame m' s' := by
  have hg := emitAll_good frame is code h he
  obtain ⟨bs, hb⟩ := encAll_some code hg
  obtain ⟨s', hx, hr'⟩ := emitAll_correct frame is code m m' s (fun i hi => (h i hi).1) he hr hs
  refine ⟨bs, s', hb, encAll_bytes _ bs ?_ hb, ?_, hr'⟩
  · intro x hx
    obtain ⟨y, hy, rfl⟩ := List.mem_map.1 hx
    exact (hg y hy).1
  · rw [X64Enc.run_enc_partial hb (fun x hx => (hg x hx).1) code.length (Nat.le_refl _) s]
    exact hx

/-- **C67.**  The same with the guarantee that no assertion of the emitter fails: code that went through `legalize`
before register allocation. -/
theorem machine_code_total_partial (frame : Bool) (is : List Ir) (m m' : Mach) (s : St)
    (h : ∀ i ∈ is, X64Sel.Ok frame i ∧ Legal i ∧ Near i ∧ AllocOk i) (hr : Rel frame m s) (hs : stepAll is m = some m') :
    ∃ code bs s', emitAll is = some code ∧ X64Enc.encAll (code.map .i) = some bs ∧
      X64Enc.run code.length bs s = some s' ∧ Rel frame m' s' := by
  have hc : ∀ (is : List Ir), (∀ i ∈ is, Legal i ∧ AllocOk i) → ∃ code, emitAll is = some code := by
    intro is
    induction is with
    | nil => exact fun _ => ⟨_, rfl⟩
    | cons i is ih =>
      intro h
      obtain ⟨a, ha⟩ := emit_total i (h i (by simp)).1 (h i (by simp)).2
      obtain ⟨b, hb⟩ := ih (fun j hj => h j (by simp [hj]))
      exact ⟨a ++ b, by simp [emitAll, ha, hb]⟩
  obtain ⟨code, he⟩ := hc is (fun i hi => ⟨(h i hi).2.1, (h i hi).2.2.2⟩)
  obtain ⟨bs, s', h1, _, h2, h3⟩ := machine_code_partial frame is code m m' s
    (fun i hi => ⟨(h i hi).1, (h i hi).2.1, (h i hi).2.2.1⟩) he hr hs
  exact ⟨code, bs, s', he, h1, h2, h3⟩

/-- The conditional jump at the end of a block: the comparison, then Jcc with a displacement that fits; the processor
reads both, and the flags are such that it jumps exactly when the condition holds. -/
theorem machine_jump_partial (frame : Bool) (c : Nat) (o1 : V) (o2 : Opr) (i : Ins) (cc : Nat) (m : Mach) (s : St)
    (a b : Nat) (h1 : o1.p < 15) (h2 : o2.lt) (hsm : o2.small) (hz : o2.z = o1.z) (he : emitJmp c o1 o2 = some (i, cc))
    (hr : Rel frame m s) (ha : val m.ρ (.reg o1) = some a) (hb : val m.ρ o2 = some b) (long : Bool) (rel : Int)
    (hrel : if long then X64Enc.im32 rel else X64Enc.im8 rel) (t : List Nat) :
    ∃ bs j s' f, X64Enc.enc (.i i) = some bs ∧
      decode (bs ++ (X64Enc.encJcc long cc rel ++ t)) = some (.i j, X64Enc.encJcc long cc rel ++ t) ∧
      exec j s = some s' ∧ Rel frame m s' ∧
      decode (X64Enc.encJcc long cc rel ++ t) = some (.jcc cc rel, t) ∧
      s'.fl = some f ∧ ccTaken cc f = Cond.holds c (Cond.cmpW o1.z.bits c a b) := by
  obtain ⟨s', f, e1, e2, e3, e4⟩ := jmp_correct frame c o1 o2 i cc m s a b h1 h2 hz he hr ha hb
  unfold emitJmp at he
  cases hc : ccOf c with
  | none => rw [hc] at he; cases he
  | some k =>
    rw [hc] at he
    injection he with he
    injection he with q1 q2
    subst q1; subst q2
    obtain ⟨gi, bs, hbs⟩ := good_emitCmp o1 o2 h1 h2 hsm
    obtain ⟨j, hj, hex⟩ := X64Enc.norm_exec (emitCmp o1 o2)
    have hd := X64Enc.enc_decode_partial hbs gi (X64Enc.encJcc long k rel ++ t)
    rw [hj] at hd
    exact ⟨bs, j, s', f, hbs, hd, by rw [hex, e1], e2, X64Enc.jcc_decode long k (ccOf_lt hc) rel hrel t, e3, e4⟩

/-! ## A concrete case -/

example : ∀ i ∈ exP, X64Sel.Ok true i ∧ Legal i ∧ Near i ∧ AllocOk i := by
  intro i hi
  simp [exP] at hi
  rcases hi with h | h | h | h | h <;> subst h <;>
    simp [X64Sel.Ok, DstOk, Opr.lt, dI, Legal, Opr.small, Near, AllocOk, aI, cI, Bop.md, X64Enc.im32] <;> decide

example : (emitAll exP).bind (fun c => X64Enc.encAll (c.map .i)) = some
    [0x89, 0xd8, 0x99, 0x41, 0xf7, 0xfc, 0x89, 0xc3, 0x44, 0x88, 0xe1, 0xd3, 0xfb, 0x85, 0xdb, 0x41, 0x0f, 0x9c, 0xc5,
     0x45, 0x0f, 0xbe, 0xed, 0x89, 0x5d, 0xf0, 0x44, 0x89, 0xe8] := by decide

/-- `*(int *)0x1234` reads address 0. -/
theorem abs_load_wrong : ∃ code bs, emit (.load { p := 0, z := .l } (.const 0x1234 .q)) = some code ∧
    X64Enc.encAll (code.map .i) = some bs ∧
    decode bs = some (.i (.load { base := none, disp := 0 } (ra .l)), []) := by
  refine ⟨_, _, rfl, rfl, ?_⟩
  decide

end Verif.X64Code

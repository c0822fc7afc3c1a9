import Verif.As.Expr
import Verif.Util.Align

/-
C36: choice between short and long jumps in the x86-64 assembler.

Model of `calc_label_address`, `make_jmp_long`, `resolve_relative_address`, `emit_irs`
(src/as/arch/x64/ir_asm_x64.c:12-316) and of the loop in `main` (src/as/as.c:185-191).

Simplifications: addresses are unbounded naturals; `ALIGN` is the rounding it computes for powers of two
(`Verif.Align.alignMacro_eq`); all instructions other than direct jumps, all data and `.zero`/bss
items are items with a fixed byte string, some of them with a reference to a symbol (call, lea, data
expression); the bytes of a jump are its opcode bytes followed by the displacement field.
`mov` from a RIP-relative operand and references to values without a symbol are not modelled.
-/

namespace Verif.Relax

open Verif.Util Verif.Align Verif.AsmExpr

/-- A reference to a symbol in an item of fixed size: the place of the field in the item and the constant
added to the addend (`call`: 1, -4; `lea`: 3, -4; data: 0, 0), see ir_asm_x64.c:157-165, 220-229, 245-254. -/
structure Ref where
  field : Nat
  adj : Int
  e : Expr
deriving DecidableEq, Repr

/-- The content of `struct IR` (src/as/ir_asm.h). A jump has a condition (`none`: `jmp`), a target
expression, the INST_LONG_OFFSET flag and its displacement field. -/
inductive Item
  | label (l : Nat)
  | fixed (bytes : List Nat) (ref : Option Ref)
  | jump (cc : Option Nat) (e : Expr) (long : Bool) (disp : List Nat)
  | align (a : Nat)
deriving DecidableEq, Repr

/-- Opcode of a jump: asm_code.c:1414-1417, 1493-1496, ir_asm_x64.c:112-115. -/
def opcode : Option Nat → Bool → List Nat
  | none, false => [0xeb]
  | none, true => [0xe9]
  | some cc, false => [0x70 + cc]
  | some cc, true => [0x0f, 0x80 + cc]

/-- The bytes of an item (`code.buf`, `data.buf`). -/
def Item.bytes : Item → List Nat
  | .label _ => []
  | .fixed bs _ => bs
  | .jump cc _ long disp => opcode cc long ++ disp
  | .align _ => []

/-- `struct IR`: item and address. -/
structure IR where
  item : Item
  address : Nat
deriving DecidableEq, Repr

/-- `SectionInfo` (parse_asm.h). -/
structure Sec where
  align : Nat
  start : Nat
  irs : List IR
deriving DecidableEq, Repr

/-- The label table: `none` if the label is not in it. -/
abbrev Tbl := Nat → Option Nat

/-- State threaded through `calc_label_address`. -/
structure Calc where
  tbl : Tbl
  align : Nat
  settle : Bool
  address : Nat

/-- ir_asm_x64.c:46-91: one item. -/
def calcIR (ir : IR) (c : Calc) : IR × Calc :=
  match ir.item with
  | .label l => (⟨ir.item, c.address⟩,
      { c with tbl := fun m => if m = l then some c.address else c.tbl m })
  | .align a =>
    let address := alignUp c.address a
    if a > c.align then (⟨ir.item, address⟩, ⟨c.tbl, a, false, address⟩)
    else (⟨ir.item, address⟩, { c with address := address })
  | it => (⟨ir.item, c.address⟩, { c with address := c.address + it.bytes.length })

/-- ir_asm_x64.c:45-92: the items of a section. -/
def calcIRs : List IR → Calc → List IR × Calc
  | [], c => ([], c)
  | ir :: irs, c =>
    let r := calcIR ir c
    let s := calcIRs irs r.2
    (r.1 :: s.1, s.2)

/-- ir_asm_x64.c:36-95 `calc_label_address`. -/
def calcSecs : List Sec → Tbl → Bool → Nat → List Sec × Tbl × Bool
  | [], tbl, settle, _ => ([], tbl, settle)
  | s :: ss, tbl, settle, address =>
    let start := alignUp address s.align
    let r := calcIRs s.irs ⟨tbl, s.align, settle, start⟩
    let rest := calcSecs ss r.2.tbl r.2.settle r.2.address
    (⟨r.2.align, start, r.1⟩ :: rest.1, rest.2)

/-- ir_asm_x64.c:97-102 `put_value`. -/
def putValue (v : Int) : Nat → List Nat
  | 0 => []
  | n + 1 => (v % 256).toNat :: putValue (v >>> 8) n

/-- `UnresolvedInfo`: the section, the offset in it, the label and the addend. -/
structure Unres where
  sec : Nat
  offset : Int
  label : Nat
  add : Int
deriving DecidableEq, Repr

/-- ir_asm_x64.c:104-117 `make_jmp_long`; the displacement is IM32(-1). -/
def makeLong (cc : Option Nat) (e : Expr) : Item := .jump cc e true [255, 255, 255, 255]

/-- ir_asm_x64.c:201-215: a jump to a known address. -/
def resolveJump (cc : Option Nat) (e : Expr) (long : Bool) (disp : List Nat) (address : Nat) (target : Int) :
    Option (IR × Bool × List Unres) :=
  let offset := target - ((address : Int) + (Item.jump cc e long disp).bytes.length)
  if long then
    if isIm32 offset then some (⟨.jump cc e true (putValue offset 4), address⟩, false, [])
    else none
  else if isIm8 offset then some (⟨.jump cc e false (putValue offset 1), address⟩, false, [])
  else some (⟨makeLong cc e, address⟩, true, [])

/-- ir_asm_x64.c:128-263: one item. Result: the item, whether its size has grown, and the relocations;
`none`: `error`. -/
def resolveIR (addr : Nat → Option Int) (secno : Nat) (start : Nat) (ir : IR) :
    Option (IR × Bool × List Unres) :=
  match ir.item with
  | .label _ => some (ir, false, [])
  | .align _ => some (ir, false, [])
  | .fixed _ none => some (ir, false, [])
  | .fixed _ (some r) => do
    let v ← calcExpr addr r.e
    let l ← v.label
    some (ir, false, [⟨secno, (ir.address : Int) + r.field - start, l, v.offset + r.adj⟩])
  | .jump cc e long disp => do
    let v ← calcExpr addr e
    match v.label with
    | none => resolveJump cc e long disp ir.address v.offset
    | some l =>
      match addr l with
      | none =>
        let u : Unres := ⟨secno, (ir.address : Int) + 1 - start, l, v.offset - 4⟩
        if long then some (ir, false, [u])
        else some (⟨makeLong cc e, ir.address⟩, true, [u])
      | some p => resolveJump cc e long disp ir.address (v.offset + p)

/-- ir_asm_x64.c:127-264: the items of a section. -/
def resolveIRs (addr : Nat → Option Int) (secno : Nat) (start : Nat) :
    List IR → Option (List IR × Bool × List Unres)
  | [] => some ([], false, [])
  | ir :: irs => do
    let (ir, up, us) ← resolveIR addr secno start ir
    let (irs, up', us') ← resolveIRs addr secno start irs
    some (ir :: irs, up || up', us ++ us')

/-- ir_asm_x64.c:126. -/
def firstAddress : List IR → Nat
  | [] => 0
  | ir :: _ => ir.address

/-- ir_asm_x64.c:119-268 `resolve_relative_address`. -/
def resolveSecs (addr : Nat → Option Int) : Nat → List Sec → Option (List Sec × Bool × List Unres)
  | _, [] => some ([], false, [])
  | n, s :: ss => do
    let (irs, up, us) ← resolveIRs addr n (firstAddress s.irs) s.irs
    let (ss, up', us') ← resolveSecs addr (n + 1) ss
    some ({ s with irs := irs } :: ss, up || up', us ++ us')

/-- Outcome of the loop. -/
inductive Outcome
  | fuel
  | error
  | done (secs : List Sec) (tbl : Tbl) (unres : List Unres)

/-- The table as `calc_expr` sees it. -/
def Tbl.addr (tbl : Tbl) : Nat → Option Int := fun l => (tbl l).map Int.ofNat

/-- as.c:188-191. LOAD_ADDRESS is 0x1000100. -/
def relax : Nat → List Sec → Tbl → Outcome
  | 0, _, _ => .fuel
  | n + 1, secs, tbl =>
    let c := calcSecs secs tbl true 0x1000100
    match resolveSecs (Tbl.addr c.2.1) 0 c.1 with
    | none => .error
    | some (secs, up, us) => if c.2.2 && !up then .done secs c.2.1 us else relax n secs c.2.1

/-- ir_asm_x64.c:270-316 `emit_irs`, one section: the section data. `data_align` (util.c:480-492) pads
with zeros. -/
def emit : List IR → List Nat → List Nat
  | [], ds => ds
  | ir :: irs, ds =>
    match ir.item with
    | .align a => emit irs (ds ++ List.replicate (alignUp ds.length a - ds.length) 0)
    | it => emit irs (ds ++ it.bytes)

/-! ### Specification -/

/-- The jump found at address `a` in the bytes: condition and target (Intel SDM: EB cb, E9 cd, 7x cb,
0F 8x cd; the displacement is relative to the end of the instruction). -/
def decodeJump (a : Nat) : List Nat → Option (Option Nat × Int)
  | c :: b :: bs =>
    if c = 0xeb then some (none, a + 2 + toS 8 b)
    else if c = 0xe9 then
      match bs with
      | b1 :: b2 :: b3 :: _ => some (none, a + 5 + toS 32 (b + 256 * b1 + 65536 * b2 + 16777216 * b3))
      | _ => none
    else if c = 0x0f ∧ 0x80 ≤ b ∧ b < 0x90 then
      match bs with
      | b0 :: b1 :: b2 :: b3 :: _ =>
        some (some (b - 0x80), a + 6 + toS 32 (b0 + 256 * b1 + 65536 * b2 + 16777216 * b3))
      | _ => none
    else if 0x70 ≤ c ∧ c < 0x80 then some (some (c - 0x70), a + 2 + toS 8 b)
    else none
  | _ => none

/-- The item as written in the source. -/
def Item.source : Item → Item
  | .jump cc e _ _ => .jump cc e false [0]
  | it => it

/-- Well-formed input: alignments are powers of two, jumps are as `assemble_inst` makes them. -/
def Item.Ok : Item → Prop
  | .align a => ∃ k, a = 2 ^ k
  | .jump cc _ long disp => (∀ c, cc = some c → c < 16) ∧ disp.length = if long then 4 else 1
  | _ => True

/-- The labels defined in the sections, in order. -/
def labelsOf (irs : List IR) : List Nat :=
  irs.filterMap (fun ir => match ir.item with | .label l => some l | _ => none)

structure Input (secs : List Sec) : Prop where
  items : ∀ s ∈ secs, ∀ ir ∈ s.irs, ir.item.Ok
  align : ∀ s ∈ secs, ∃ k, s.align = 2 ^ k
  labels : (secs.flatMap (fun s => labelsOf s.irs)).Nodup

/-- What the assembler promises about its final state. -/
structure Final (secs : List Sec) (tbl : Tbl) (us : List Unres) : Prop where
  /-- an item stands in the emitted section where its address says -/
  place : ∀ s ∈ secs, ∀ pre ir post, s.irs = pre ++ ir :: post → (∀ a, ir.item ≠ .align a) →
    ir.address = s.start + (emit pre []).length
  /-- a label has the address at which it was defined -/
  labels : ∀ s ∈ secs, ∀ ir ∈ s.irs, ∀ l, ir.item = .label l → tbl l = some ir.address
  /-- a jump to an absolute value, or to a label in the table, goes there -/
  jumps : ∀ s ∈ secs, ∀ ir ∈ s.irs, ∀ cc e long disp, ir.item = .jump cc e long disp →
    ∀ v, calcExpr tbl.addr e = some v →
      (v.label = none → decodeJump ir.address ir.item.bytes = some (cc, v.offset)) ∧
      (∀ l p, v.label = some l → tbl l = some p →
        decodeJump ir.address ir.item.bytes = some (cc, p + v.offset))
  /-- a `jmp` to a label not in the table has a relocation for its displacement field -/
  externs : ∀ n s, secs[n]? = some s → ∀ pre ir post, s.irs = pre ++ ir :: post →
    ∀ e long disp, ir.item = .jump none e long disp → ∀ v l, calcExpr tbl.addr e = some v →
      v.label = some l → tbl l = none →
      long = true ∧ (⟨n, ((emit pre []).length : Int) + 1, l, v.offset - 4⟩ : Unres) ∈ us
  /-- so has every other reference -/
  refs : ∀ n s, secs[n]? = some s → ∀ pre ir post, s.irs = pre ++ ir :: post →
    ∀ bs r, ir.item = .fixed bs (some r) → ∃ v l, calcExpr tbl.addr r.e = some v ∧
      v.label = some l ∧ (⟨n, ((emit pre []).length : Int) + r.field, l, v.offset + r.adj⟩ : Unres) ∈ us
  /-- alignment -/
  aligned : ∀ s ∈ secs, s.align ∣ s.start ∧
    ∀ ir ∈ s.irs, ∀ a, ir.item = .align a → a ∣ s.align ∧ a ∣ ir.address
  /-- sections do not overlap -/
  order : secs.Pairwise (fun s t => s.start + (emit s.irs []).length ≤ t.start)

/-! ### `calc_label_address` -/

theorem pow_dvd_of_le {a b : Nat} (ha : ∃ k, a = 2 ^ k) (hb : ∃ k, b = 2 ^ k) (h : a ≤ b) : a ∣ b := by
  obtain ⟨i, rfl⟩ := ha
  obtain ⟨j, rfl⟩ := hb
  exact Nat.pow_dvd_pow 2 ((Nat.pow_le_pow_iff_right (by decide)).1 h)

theorem calcIR_item (ir : IR) (c : Calc) : (calcIR ir c).1.item = ir.item := by
  unfold calcIR
  cases ir.item with
  | align a => simp only; split <;> rfl
  | _ => rfl

theorem calcIRs_items (irs : List IR) : ∀ c, (calcIRs irs c).1.map IR.item = irs.map IR.item := by
  induction irs with
  | nil => intro c; rfl
  | cons ir irs ih => intro c; simp only [calcIRs, List.map_cons, calcIR_item, ih]

/-- All alignments in the section are covered by the section's. -/
def Covered (irs : List IR) (al : Nat) : Prop := ∀ ir ∈ irs, ∀ a, ir.item = .align a → a ≤ al

theorem covered_congr {irs irs' : List IR} {al : Nat} (h : irs.map IR.item = irs'.map IR.item)
    (hc : Covered irs al) : Covered irs' al := by
  intro ir hir a ha
  have : ir.item ∈ irs.map IR.item := by rw [h]; exact List.mem_map_of_mem hir
  obtain ⟨ir0, h0, h1⟩ := List.mem_map.1 this
  exact hc ir0 h0 a (by rw [h1]; exact ha)

theorem calcIR_align (ir : IR) (c : Calc) :
    c.align ≤ (calcIR ir c).2.align ∧ (∀ a, ir.item = .align a → a ≤ (calcIR ir c).2.align) ∧
    ((calcIR ir c).2.settle = true → c.settle = true ∧ (calcIR ir c).2.align = c.align) ∧
    ((∀ a, ir.item = .align a → a ≤ c.align) → (calcIR ir c).2.settle = c.settle ∧
      (calcIR ir c).2.align = c.align) ∧
    ((∃ k, c.align = 2 ^ k) → ir.item.Ok → ∃ k, (calcIR ir c).2.align = 2 ^ k) := by
  unfold calcIR
  cases hit : ir.item with
  | align a =>
    simp only
    by_cases h : a > c.align
    · simp only [if_pos h]
      refine ⟨by omega, fun b hb => by cases hb; omega, fun h => (by cases h), fun hb => ?_, fun _ h => h⟩
      have := hb a rfl; omega
    · simp only [if_neg h]
      exact ⟨by omega, fun b hb => by cases hb; omega, fun h => ⟨h, trivial⟩, fun _ => ⟨trivial, trivial⟩, fun h _ => h⟩
  | label l =>
    exact ⟨Nat.le_refl _, fun b hb => (by cases hb), fun h => ⟨h, rfl⟩, fun _ => ⟨rfl, rfl⟩, fun h _ => h⟩
  | fixed bs r =>
    exact ⟨Nat.le_refl _, fun b hb => (by cases hb), fun h => ⟨h, rfl⟩, fun _ => ⟨rfl, rfl⟩, fun h _ => h⟩
  | jump cc e l d =>
    exact ⟨Nat.le_refl _, fun b hb => (by cases hb), fun h => ⟨h, rfl⟩, fun _ => ⟨rfl, rfl⟩, fun h _ => h⟩

theorem calcIRs_align (irs : List IR) : ∀ c : Calc,
    c.align ≤ (calcIRs irs c).2.align ∧ Covered irs (calcIRs irs c).2.align ∧
    ((calcIRs irs c).2.settle = true → c.settle = true ∧ (calcIRs irs c).2.align = c.align) ∧
    (Covered irs c.align → (calcIRs irs c).2.settle = c.settle ∧ (calcIRs irs c).2.align = c.align) ∧
    ((∃ k, c.align = 2 ^ k) → (∀ ir ∈ irs, ir.item.Ok) → ∃ k, (calcIRs irs c).2.align = 2 ^ k) := by
  induction irs with
  | nil =>
    intro c
    exact ⟨Nat.le_refl _, fun ir h => (by cases h), fun h => ⟨h, rfl⟩, fun _ => ⟨rfl, rfl⟩, fun h _ => h⟩
  | cons ir irs ih =>
    intro c
    obtain ⟨a1, a2, a3, a4, a5⟩ := calcIR_align ir c
    obtain ⟨b1, b2, b3, b4, b5⟩ := ih (calcIR ir c).2
    simp only [calcIRs]
    refine ⟨by omega, ?_, ?_, ?_, ?_⟩
    · intro i hi a ha
      rcases List.mem_cons.1 hi with rfl | hi
      · have := a2 a ha; omega
      · exact b2 i hi a ha
    · intro h
      obtain ⟨h1, h2⟩ := b3 h
      obtain ⟨h3, h4⟩ := a3 h1
      exact ⟨h3, by rw [h2, h4]⟩
    · intro hc
      obtain ⟨h1, h2⟩ := a4 (fun a ha => hc ir (by simp) a ha)
      obtain ⟨h3, h4⟩ := b4 (by
        rw [h2]; intro i hi a ha
        exact hc i (List.mem_cons_of_mem _ hi) a ha)
      exact ⟨by rw [h3, h1], by rw [h4, h2]⟩
    · intro hk hok
      exact b5 (a5 hk (hok ir (by simp))) (fun i hi => hok i (List.mem_cons_of_mem _ hi))

theorem emit_length_congr {ds ds' : List Nat} (irs : List IR) (h : ds.length = ds'.length) :
    (emit irs ds).length = (emit irs ds').length := by
  induction irs generalizing ds ds' with
  | nil => exact h
  | cons ir irs ih =>
    unfold emit
    cases ir.item with
    | align a => simp only; apply ih; simp [h]
    | _ => simp only; apply ih; simp [h]

/-- Addresses follow the emitted length. -/
theorem calcIRs_place {base : Nat} (irs : List IR) : ∀ (c : Calc) (ds : List Nat),
    (∀ ir ∈ irs, ir.item.Ok) → (∃ k, c.align = 2 ^ k) → c.align ∣ base → Covered irs c.align →
    c.address = base + ds.length →
    (calcIRs irs c).2.address = base + (emit (calcIRs irs c).1 ds).length ∧
    (∀ ir ∈ (calcIRs irs c).1, ∀ a, ir.item = .align a → a ∣ ir.address) ∧
    ∀ pre ir post, (calcIRs irs c).1 = pre ++ ir :: post → (∀ a, ir.item ≠ .align a) →
      ir.address = base + (emit pre ds).length := by
  induction irs with
  | nil =>
    intro c ds _ _ _ _ hb
    refine ⟨hb, fun ir h => (by cases h), fun pre ir post h => ?_⟩
    cases pre <;> cases h
  | cons ir irs ih =>
    intro c ds hok hk hd hcov haddr
    have hal := calcIR_align ir c
    have hsame := (hal.2.2.2.1 (fun a ha => hcov ir (by simp) a ha)).2
    have hcov' : Covered irs (calcIR ir c).2.align := by
      rw [hsame]; intro i hi a ha
      exact hcov i (List.mem_cons_of_mem _ hi) a ha
    have hok' : ∀ i ∈ irs, i.item.Ok := fun i hi => hok i (List.mem_cons_of_mem _ hi)
    -- the emitted data after the item
    obtain ⟨ds', he, hlen, hfirst, halign⟩ : ∃ ds', (∀ rest, emit ((calcIR ir c).1 :: rest) ds = emit rest ds') ∧
        (calcIR ir c).2.address = base + ds'.length ∧
        ((∀ a, ir.item ≠ .align a) → (calcIR ir c).1.address = base + ds.length) ∧
        (∀ a, ir.item = .align a → a ∣ (calcIR ir c).1.address) := by
      unfold calcIR
      cases hit : ir.item with
      | align a =>
        have ha : ∃ k, a = 2 ^ k := by have := hok ir (by simp); rw [hit] at this; exact this
        have hle : a ≤ c.align := hcov ir (by simp) a hit
        have hpos : 0 < a := by obtain ⟨k, rfl⟩ := ha; exact Nat.two_pow_pos k
        have hadv : a ∣ base := Nat.dvd_trans (pow_dvd_of_le ha hk hle) hd
        have hup : alignUp c.address a = base + alignUp ds.length a := by
          rw [haddr, Nat.add_comm, alignUp_add _ _ _ hpos hadv, Nat.add_comm]
        have hge := le_alignUp ds.length a hpos
        refine ⟨ds ++ List.replicate (alignUp ds.length a - ds.length) 0, ?_, ?_, ?_, ?_⟩
        · intro rest
          simp only
          split <;> simp only [emit]
        · simp only
          split <;> (simp only [List.length_append, List.length_replicate, hup]; omega)
        · intro h; exact absurd rfl (h a)
        · intro b hb
          cases hb
          simp only
          split <;> exact dvd_alignUp _ _
      | label l =>
        exact ⟨ds, fun rest => by simp [emit, Item.bytes], haddr, fun _ => haddr, fun a ha => (by cases ha)⟩
      | fixed bs r =>
        refine ⟨ds ++ bs, fun rest => by simp [emit, Item.bytes], ?_, fun _ => haddr, fun a ha => (by cases ha)⟩
        simp [Item.bytes, haddr]; omega
      | jump cc e l d =>
        refine ⟨ds ++ (opcode cc l ++ d), fun rest => by simp only [emit, Item.bytes], ?_, fun _ => haddr,
          fun a ha => (by cases ha)⟩
        simp [Item.bytes, haddr]; omega
    obtain ⟨h1, h2, h3⟩ := ih (calcIR ir c).2 ds' hok' (by rw [hsame]; exact hk) (by rw [hsame]; exact hd) hcov' hlen
    simp only [calcIRs]
    refine ⟨?_, ?_, ?_⟩
    · rw [he]; exact h1
    · intro i hi a ha
      rcases List.mem_cons.1 hi with rfl | hi
      · exact halign a (by rw [← ha, calcIR_item])
      · exact h2 i hi a ha
    · intro pre i post heq hna
      cases pre with
      | nil =>
        simp only [List.nil_append, List.cons.injEq] at heq
        obtain ⟨rfl, _⟩ := heq
        exact hfirst (fun a ha => hna a (by rw [calcIR_item]; exact ha))
      | cons p pre =>
        simp only [List.cons_append, List.cons.injEq] at heq
        obtain ⟨rfl, heq⟩ := heq
        rw [he]
        exact h3 pre i post heq hna

theorem calcIRs_tbl_other (irs : List IR) : ∀ (c : Calc) (l : Nat), l ∉ labelsOf irs →
    (calcIRs irs c).2.tbl l = c.tbl l := by
  induction irs with
  | nil => intro c l _; rfl
  | cons ir irs ih =>
    intro c l hl
    simp only [calcIRs]
    rw [ih]
    · unfold calcIR
      cases hit : ir.item with
      | label m =>
        have : l ≠ m := by
          rintro rfl; exact hl (by simp [labelsOf, hit])
        simp [this]
      | align a => simp only; split <;> rfl
      | _ => rfl
    · intro h
      apply hl
      unfold labelsOf at h ⊢
      rw [List.filterMap_cons]
      split
      · exact h
      · exact List.mem_cons_of_mem _ h

theorem labelsOf_congr {irs irs' : List IR} (h : irs.map IR.item = irs'.map IR.item) :
    labelsOf irs = labelsOf irs' := by
  have key : ∀ xs : List IR, labelsOf xs =
      (xs.map IR.item).filterMap (fun it => match it with | .label l => some l | _ => none) := by
    intro xs; rw [List.filterMap_map]; rfl
  rw [key, key, h]

theorem labelsOf_cons (ir : IR) (irs : List IR) :
    labelsOf (ir :: irs) = labelsOf [ir] ++ labelsOf irs := by
  unfold labelsOf
  rw [← List.filterMap_append]; rfl

theorem calcIRs_tbl (irs : List IR) : ∀ (c : Calc), (labelsOf irs).Nodup →
    ∀ ir ∈ (calcIRs irs c).1, ∀ l, ir.item = .label l → (calcIRs irs c).2.tbl l = some ir.address := by
  induction irs with
  | nil => intro c _ ir h; cases h
  | cons ir irs ih =>
    intro c hnd i hi l hl
    rw [labelsOf_cons] at hnd
    have hnd' := List.nodup_append.1 hnd
    simp only [calcIRs] at hi ⊢
    rcases List.mem_cons.1 hi with rfl | hi
    · rw [calcIR_item] at hl
      have hnot : l ∉ labelsOf irs := by
        intro h
        exact hnd'.2.2 l (by simp [labelsOf, hl]) l h rfl
      rw [calcIRs_tbl_other _ _ _ hnot]
      unfold calcIR
      rw [hl]; simp
    · exact ih _ hnd'.2.1 i hi l hl

/-- The sections after `calc_label_address`. -/
theorem calcSecs_basic (ss : List Sec) : ∀ tbl b addr,
    (calcSecs ss tbl b addr).1.map (fun s => s.irs.map IR.item) = ss.map (fun s => s.irs.map IR.item) ∧
    (∀ s ∈ (calcSecs ss tbl b addr).1, Covered s.irs s.align) ∧
    ((calcSecs ss tbl b addr).2.2 = true → b = true) ∧
    ((∀ s ∈ ss, Covered s.irs s.align) → (calcSecs ss tbl b addr).2.2 = b) ∧
    ((∀ s ∈ ss, ∃ k, s.align = 2 ^ k) → (∀ s ∈ ss, ∀ ir ∈ s.irs, ir.item.Ok) →
      ∀ s ∈ (calcSecs ss tbl b addr).1, ∃ k, s.align = 2 ^ k) := by
  induction ss with
  | nil =>
    intro tbl b addr
    exact ⟨rfl, fun s h => (by cases h), fun h => h, fun _ => rfl, fun _ _ s h => (by cases h)⟩
  | cons s ss ih =>
    intro tbl b addr
    have hal := calcIRs_align s.irs ⟨tbl, s.align, b, alignUp addr s.align⟩
    simp only [calcSecs]
    obtain ⟨i1, i2, i3, i4, i5⟩ := ih (calcIRs s.irs ⟨tbl, s.align, b, alignUp addr s.align⟩).2.tbl
      (calcIRs s.irs ⟨tbl, s.align, b, alignUp addr s.align⟩).2.settle
      (calcIRs s.irs ⟨tbl, s.align, b, alignUp addr s.align⟩).2.address
    refine ⟨?_, ?_, ?_, ?_, ?_⟩
    · simp only [List.map_cons, calcIRs_items, i1]
    · intro t ht
      rcases List.mem_cons.1 ht with rfl | ht
      · exact covered_congr (calcIRs_items _ _).symm hal.2.1
      · exact i2 t ht
    · intro h
      exact (hal.2.2.1 (i3 h)).1
    · intro h
      rw [i4 (fun t ht => h t (List.mem_cons_of_mem _ ht))]
      exact (hal.2.2.2.1 (h s (by simp))).1
    · intro hk hok t ht
      rcases List.mem_cons.1 ht with rfl | ht
      · exact hal.2.2.2.2 (hk s (by simp)) (hok s (by simp))
      · exact i5 (fun t ht => hk t (List.mem_cons_of_mem _ ht))
          (fun t ht => hok t (List.mem_cons_of_mem _ ht)) t ht

theorem calcSecs_tbl_other (ss : List Sec) : ∀ tbl b addr l,
    l ∉ ss.flatMap (fun s => labelsOf s.irs) → (calcSecs ss tbl b addr).2.1 l = tbl l := by
  induction ss with
  | nil => intro tbl b addr l _; rfl
  | cons s ss ih =>
    intro tbl b addr l hl
    rw [List.flatMap_cons, List.mem_append, not_or] at hl
    simp only [calcSecs]
    rw [ih _ _ _ _ hl.2, calcIRs_tbl_other _ _ _ hl.1]

/-- What `calc_label_address` establishes when nothing changed any more. -/
theorem calcSecs_final (ss : List Sec) : ∀ tbl b addr, Input ss →
    (calcSecs ss tbl b addr).2.2 = true →
    (∀ s ∈ (calcSecs ss tbl b addr).1, addr ≤ s.start ∧ s.align ∣ s.start ∧
      (∀ ir ∈ s.irs, ∀ a, ir.item = .align a → a ∣ s.align ∧ a ∣ ir.address) ∧
      (∀ pre ir post, s.irs = pre ++ ir :: post → (∀ a, ir.item ≠ .align a) →
        ir.address = s.start + (emit pre []).length) ∧
      (s.irs ≠ [] → firstAddress s.irs = s.start) ∧
      (∀ ir ∈ s.irs, ∀ l, ir.item = .label l → (calcSecs ss tbl b addr).2.1 l = some ir.address)) ∧
    (calcSecs ss tbl b addr).1.Pairwise (fun s t => s.start + (emit s.irs []).length ≤ t.start) := by
  induction ss with
  | nil => intro tbl b addr _ _; exact ⟨fun s h => (by cases h), List.Pairwise.nil⟩
  | cons s ss ih =>
    intro tbl b addr hin hset
    obtain ⟨hitems, halign, hlabels⟩ := hin
    rw [List.flatMap_cons] at hlabels
    have hnd := List.nodup_append.1 hlabels
    have hin' : Input ss := ⟨fun t ht => hitems t (List.mem_cons_of_mem _ ht),
      fun t ht => halign t (List.mem_cons_of_mem _ ht), hnd.2.1⟩
    obtain ⟨k, hk⟩ := halign s (by simp)
    have hpos : 0 < s.align := by rw [hk]; exact Nat.two_pow_pos k
    have hcalc := calcIRs_align s.irs ⟨tbl, s.align, b, alignUp addr s.align⟩
    have hset1 : (calcIRs s.irs ⟨tbl, s.align, b, alignUp addr s.align⟩).2.settle = true := by
      simp only [calcSecs] at hset
      exact (calcSecs_basic ss _ _ _).2.2.1 hset
    have hsame := (hcalc.2.2.1 hset1).2
    simp only at hsame
    have hcov : Covered s.irs s.align := by rw [← hsame]; exact hcalc.2.1
    have hplace := calcIRs_place (base := alignUp addr s.align) s.irs ⟨tbl, s.align, b, alignUp addr s.align⟩ []
      (hitems s (by simp)) ⟨k, hk⟩ (dvd_alignUp _ _) hcov rfl
    have htbl := calcIRs_tbl s.irs ⟨tbl, s.align, b, alignUp addr s.align⟩ hnd.1
    have hits := calcIRs_items s.irs ⟨tbl, s.align, b, alignUp addr s.align⟩
    simp only [calcSecs] at hset ⊢
    generalize hr : calcIRs s.irs ⟨tbl, s.align, b, alignUp addr s.align⟩ = r at *
    obtain ⟨j1, j2⟩ := ih r.2.tbl r.2.settle r.2.address hin' hset
    obtain ⟨p1, p2, p3⟩ := hplace
    have hle := le_alignUp addr s.align hpos
    refine ⟨?_, ?_⟩
    · intro t ht
      rcases List.mem_cons.1 ht with rfl | ht
      · refine ⟨hle, by simp only [hsame]; exact dvd_alignUp _ _, ?_, ?_, ?_, ?_⟩
        · intro ir hir a ha
          refine ⟨?_, p2 ir hir a ha⟩
          have hmem : ir.item ∈ s.irs.map IR.item := by rw [← hits]; exact List.mem_map_of_mem hir
          obtain ⟨ir0, h0, h1⟩ := List.mem_map.1 hmem
          have hok := hitems s (by simp) ir0 h0
          rw [h1, ha] at hok
          simp only [hsame]
          exact pow_dvd_of_le hok ⟨k, hk⟩ (hcov ir0 h0 a (by rw [h1, ha]))
        · exact p3
        · intro hne
          cases hirs : r.1 with
          | nil => exact absurd hirs hne
          | cons ir0 rest =>
            simp only [firstAddress]
            by_cases hna : ∀ a, ir0.item ≠ .align a
            · have := p3 [] ir0 rest hirs hna
              simpa [emit] using this
            · have hna' : ∃ a, ir0.item = .align a := by
                cases hit : ir0.item with
                | align a => exact ⟨a, rfl⟩
                | _ => exact absurd (fun a => by rw [hit]; intro h; cases h) hna
              obtain ⟨a, ha⟩ := hna'
              -- the first item is an alignment already satisfied by the start
              cases hs : s.irs with
              | nil => rw [hs] at hr; simp only [calcIRs] at hr; rw [← hr] at hirs; cases hirs
              | cons i0 is =>
                have hi0 : ir0 = (calcIR i0 ⟨tbl, s.align, b, alignUp addr s.align⟩).1 := by
                  rw [hs] at hr; simp only [calcIRs] at hr; rw [← hr] at hirs
                  simp only [List.cons.injEq] at hirs; exact hirs.1.symm
                have hi0i : i0.item = .align a := by rw [← ha, hi0, calcIR_item]
                have hok := hitems s (by simp) i0 (by rw [hs]; simp)
                rw [hi0i] at hok
                have hadv : a ∣ s.align := pow_dvd_of_le hok ⟨k, hk⟩
                  (hcov i0 (by rw [hs]; simp) a hi0i)
                have hapos : 0 < a := by obtain ⟨j, rfl⟩ := hok; exact Nat.two_pow_pos j
                have h2 := alignUp_of_dvd (alignUp addr s.align) a hapos
                  (Nat.dvd_trans hadv (dvd_alignUp addr s.align))
                rw [hi0]
                unfold calcIR
                rw [hi0i]
                simp only
                split <;> exact h2
        · intro ir hir l hl
          have hmem : l ∈ labelsOf s.irs := by
            rw [← labelsOf_congr hits]
            unfold labelsOf
            exact List.mem_filterMap.2 ⟨ir, hir, by rw [hl]⟩
          rw [calcSecs_tbl_other _ _ _ _ _ (fun h => hnd.2.2 l hmem l h rfl)]
          exact htbl ir hir l hl
      · obtain ⟨q1, q2⟩ := j1 t ht
        refine ⟨?_, q2⟩
        rw [p1] at q1; omega
    · refine List.Pairwise.cons (fun t ht => ?_) j2
      have := (j1 t ht).1
      rw [p1] at this
      exact this

/-! ### `resolve_relative_address` -/

/-- Number of short jumps. -/
def shorts (irs : List IR) : Nat :=
  irs.countP (fun ir => match ir.item with | .jump _ _ false _ => true | _ => false)

/-- Source form of the items. -/
def sources (irs : List IR) : List Item := irs.map (fun ir => ir.item.source)

/-- What one step of the resolution may change. -/
structure Change (a b : IR) (up : Bool) : Prop where
  addr : b.address = a.address
  src : b.item.source = a.item.source
  ok : a.item.Ok → b.item.Ok
  grow : up = true → shorts [b] < shorts [a]
  keep : shorts [b] ≤ shorts [a]
  size : up = false → a.item.Ok → b.item.bytes.length = a.item.bytes.length

theorem putValue_length (v : Int) (n : Nat) : (putValue v n).length = n := by
  induction n generalizing v with
  | zero => rfl
  | succ n ih => simp [putValue, ih]

theorem resolveIR_change {addr : Nat → Option Int} {n start : Nat} {a b : IR} {up : Bool} {us : List Unres}
    (h : resolveIR addr n start a = some (b, up, us)) : Change a b up := by
  have same : ∀ x : IR, Change x x false := fun x =>
    ⟨rfl, rfl, id, fun h => (by cases h), Nat.le_refl _, fun _ _ => rfl⟩
  unfold resolveIR at h
  cases hit : a.item with
  | label l => rw [hit] at h; simp only [Option.some.injEq, Prod.mk.injEq] at h; obtain ⟨rfl, rfl, _⟩ := h; exact same _
  | align l => rw [hit] at h; simp only [Option.some.injEq, Prod.mk.injEq] at h; obtain ⟨rfl, rfl, _⟩ := h; exact same _
  | fixed bs r =>
    rw [hit] at h
    cases r with
    | none => simp only [Option.some.injEq, Prod.mk.injEq] at h; obtain ⟨rfl, rfl, _⟩ := h; exact same _
    | some r =>
      simp only [Option.bind_eq_bind] at h
      cases hv : calcExpr addr r.e with
      | none => rw [hv] at h; cases h
      | some v =>
        rw [hv] at h
        simp only [Option.bind_some] at h
        cases hl : v.label with
        | none => rw [hl] at h; cases h
        | some l =>
          rw [hl] at h
          simp only [Option.bind_some, Option.some.injEq, Prod.mk.injEq] at h
          obtain ⟨rfl, rfl, _⟩ := h; exact same _
  | jump cc e long disp =>
    rw [hit] at h
    simp only [Option.bind_eq_bind] at h
    have hlong : ∀ (x : IR), x = ⟨makeLong cc e, a.address⟩ → long = false → Change a x true := by
      rintro x rfl rfl
      refine ⟨rfl, by rw [hit]; rfl, fun ho => ?_, fun _ => by simp [shorts, makeLong, hit],
        by simp [shorts, makeLong, hit], fun h => (by cases h)⟩
      rw [hit] at ho
      exact ⟨ho.1, rfl⟩
    have hdisp : ∀ (x : IR) (v : Int), x = ⟨.jump cc e long (putValue v (if long then 4 else 1)), a.address⟩ →
        Change a x false := by
      rintro x v rfl
      refine ⟨rfl, by rw [hit]; rfl, fun ho => ?_, fun h => (by cases h),
        by cases long <;> simp [shorts, hit], fun _ ho => ?_⟩
      · rw [hit] at ho
        exact ⟨ho.1, putValue_length _ _⟩
      · rw [hit] at ho ⊢
        simp only [Item.bytes, List.length_append, putValue_length, ho.2]
    have hjump : ∀ target, resolveJump cc e long disp a.address target = some (b, up, us) → Change a b up := by
      intro target h
      unfold resolveJump at h
      simp only at h
      split at h
      · rename_i hl
        split at h
        · simp only [Option.some.injEq, Prod.mk.injEq] at h; obtain ⟨h1, rfl, _⟩ := h
          exact hdisp _ _ (by rw [← h1, if_pos hl, hl])
        · cases h
      · rename_i hl
        have hf : long = false := by simpa using hl
        split at h
        · simp only [Option.some.injEq, Prod.mk.injEq] at h; obtain ⟨h1, rfl, _⟩ := h
          exact hdisp _ _ (by rw [← h1, if_neg hl, hf])
        · simp only [Option.some.injEq, Prod.mk.injEq] at h; obtain ⟨h1, rfl, _⟩ := h
          exact hlong _ h1.symm hf
    cases hv : calcExpr addr e with
    | none => rw [hv] at h; cases h
    | some v =>
      rw [hv] at h
      simp only [Option.bind_some] at h
      split at h
      · exact hjump _ h
      · split at h
        · split at h
          · simp only [Option.some.injEq, Prod.mk.injEq] at h; obtain ⟨rfl, rfl, _⟩ := h; exact same _
          · rename_i hl
            simp only [Option.some.injEq, Prod.mk.injEq] at h; obtain ⟨h1, rfl, _⟩ := h
            exact hlong _ h1.symm (by simpa using hl)
        · exact hjump _ h

theorem shorts_cons (ir : IR) (irs : List IR) : shorts (ir :: irs) = shorts [ir] + shorts irs := by
  unfold shorts
  rw [show ir :: irs = [ir] ++ irs from rfl, List.countP_append]

theorem source_align {a b : Item} (h : a.source = b.source) : ∀ x, a = .align x ↔ b = .align x := by
  intro x
  constructor
  · rintro rfl
    cases b <;> simp only [Item.source, reduceCtorEq] at h
    rw [h]
  · rintro rfl
    cases a <;> simp only [Item.source, reduceCtorEq] at h
    rw [h]

theorem source_label {a b : Item} (h : a.source = b.source) : ∀ x, a = .label x ↔ b = .label x := by
  intro x
  constructor
  · rintro rfl
    cases b <;> simp only [Item.source, reduceCtorEq] at h
    rw [h]
  · rintro rfl
    cases a <;> simp only [Item.source, reduceCtorEq] at h
    rw [h]

theorem resolveIRs_cons {addr : Nat → Option Int} {n start : Nat} {ir : IR} {irs irs' : List IR} {up : Bool}
    {us : List Unres} (h : resolveIRs addr n start (ir :: irs) = some (irs', up, us)) :
    ∃ ir' up1 us1 rest up2 us2, resolveIR addr n start ir = some (ir', up1, us1) ∧
      resolveIRs addr n start irs = some (rest, up2, us2) ∧ irs' = ir' :: rest ∧ up = (up1 || up2) ∧
      us = us1 ++ us2 := by
  simp only [resolveIRs, Option.bind_eq_bind] at h
  cases h1 : resolveIR addr n start ir with
  | none => rw [h1] at h; cases h
  | some p =>
    obtain ⟨ir', up1, us1⟩ := p
    rw [h1] at h
    simp only [Option.bind_some] at h
    cases h2 : resolveIRs addr n start irs with
    | none => rw [h2] at h; cases h
    | some q =>
      obtain ⟨rest, up2, us2⟩ := q
      rw [h2] at h
      simp only [Option.bind_some, Option.some.injEq, Prod.mk.injEq] at h
      exact ⟨ir', up1, us1, rest, up2, us2, rfl, rfl, h.1.symm, h.2.1.symm, h.2.2.symm⟩

/-- A position of the result comes from one of the argument. -/
theorem resolveIRs_split {addr : Nat → Option Int} {n start : Nat} (irs : List IR) :
    ∀ {irs' : List IR} {up : Bool} {us : List Unres}, resolveIRs addr n start irs = some (irs', up, us) →
    ∀ pre' ir' post', irs' = pre' ++ ir' :: post' → ∃ pre ir post up1 us1 up2 us2,
      irs = pre ++ ir :: post ∧ resolveIRs addr n start pre = some (pre', up1, us1) ∧
      resolveIR addr n start ir = some (ir', up2, us2) ∧ (up = false → up1 = false ∧ up2 = false) ∧
      ∀ u ∈ us2, u ∈ us := by
  induction irs with
  | nil =>
    intro irs' up us h pre' ir' post' he
    cases h
    cases pre' <;> cases he
  | cons i irs ih =>
    intro irs' up us h pre' ir' post' he
    obtain ⟨j, up1, us1, rest, up2, us2, h1, h2, rfl, rfl, rfl⟩ := resolveIRs_cons h
    cases pre' with
    | nil =>
      simp only [List.nil_append, List.cons.injEq] at he
      obtain ⟨rfl, rfl⟩ := he
      refine ⟨[], i, irs, false, [], up1, us1, rfl, rfl, h1, fun h => ⟨rfl, ?_⟩, fun u hu => List.mem_append_left _ hu⟩
      simp only [Bool.or_eq_false_iff] at h; exact h.1
    | cons p pre' =>
      simp only [List.cons_append, List.cons.injEq] at he
      obtain ⟨rfl, rfl⟩ := he
      obtain ⟨pre, ir, post, u1, s1, u2, s2, e1, e2, e3, e4, e5⟩ := ih h2 pre' ir' post' rfl
      refine ⟨i :: pre, ir, post, up1 || u1, us1 ++ s1, u2, s2, by rw [e1]; rfl, ?_, e3, fun h => ?_,
        fun u hu => List.mem_append_right _ (e5 u hu)⟩
      · simp only [resolveIRs, h1, e2, Option.bind_eq_bind, Option.bind_some]
      · simp only [Bool.or_eq_false_iff] at h
        obtain ⟨h3, h4⟩ := e4 h.2
        exact ⟨by rw [h.1, h3]; rfl, h4⟩

theorem resolveIRs_basic {addr : Nat → Option Int} {n start : Nat} (irs : List IR) :
    ∀ {irs' : List IR} {up : Bool} {us : List Unres}, resolveIRs addr n start irs = some (irs', up, us) →
    sources irs' = sources irs ∧ ((∀ ir ∈ irs, ir.item.Ok) → ∀ ir ∈ irs', ir.item.Ok) ∧
    shorts irs' ≤ shorts irs ∧ (up = true → shorts irs' < shorts irs) ∧
    (up = false → (∀ ir ∈ irs, ir.item.Ok) → ∀ ds ds' : List Nat, ds'.length = ds.length →
      (emit irs' ds').length = (emit irs ds).length) := by
  induction irs with
  | nil =>
    intro irs' up us h
    cases h
    exact ⟨rfl, fun h => h, Nat.le_refl _, fun h => (by cases h), fun _ _ ds ds' h => h⟩
  | cons i irs ih =>
    intro irs' up us h
    obtain ⟨j, up1, us1, rest, up2, us2, h1, h2, rfl, rfl, rfl⟩ := resolveIRs_cons h
    obtain ⟨a1, a2, a3, a4, a5⟩ := ih h2
    have hc := resolveIR_change h1
    refine ⟨?_, ?_, ?_, ?_, ?_⟩
    · unfold sources at a1 ⊢
      simp only [List.map_cons, hc.src, a1]
    · intro hok x hx
      rcases List.mem_cons.1 hx with rfl | hx
      · exact hc.ok (hok i (by simp))
      · exact a2 (fun y hy => hok y (List.mem_cons_of_mem _ hy)) x hx
    · rw [shorts_cons j, shorts_cons i]
      have := hc.keep
      omega
    · intro hup
      rw [shorts_cons j, shorts_cons i]
      have h3 := hc.keep
      cases up1 with
      | true => have := hc.grow rfl; omega
      | false => have := a4 hup; omega
    · intro hup hok ds ds' hl
      simp only [Bool.or_eq_false_iff] at hup
      have hsz := hc.size hup.1 (hok i (by simp))
      have hrec := a5 hup.2 (fun y hy => hok y (List.mem_cons_of_mem _ hy))
      have hsa := source_align hc.src
      unfold emit
      cases hit : i.item with
      | align a =>
        rw [(hsa a).2 hit]
        simp only
        apply hrec
        simp [hl]
      | label l =>
        rw [(source_label hc.src l).2 hit]
        simp only
        apply hrec
        simp [hl]
      | fixed bs r =>
        cases hjt : j.item with
        | align a => rw [(hsa a).1 hjt] at hit; cases hit
        | label l => rw [(source_label hc.src l).1 hjt] at hit; cases hit
        | _ => simp only; apply hrec; rw [hit, hjt] at hsz; simp [hl, hsz]
      | jump cc e l d =>
        cases hjt : j.item with
        | align a => rw [(hsa a).1 hjt] at hit; cases hit
        | label l => rw [(source_label hc.src l).1 hjt] at hit; cases hit
        | _ => simp only; apply hrec; rw [hit, hjt] at hsz; simp [hl, hsz]

theorem labelsOf_source {irs irs' : List IR} (h : sources irs' = sources irs) : labelsOf irs' = labelsOf irs := by
  have key : ∀ xs : List IR, labelsOf xs =
      (sources xs).filterMap (fun it => match it with | .label l => some l | _ => none) := by
    intro xs
    unfold labelsOf sources
    rw [List.filterMap_map]
    congr 1
    funext ir
    simp only [Function.comp]
    cases ir.item <;> rfl
  rw [key, key, h]

theorem covered_source {irs irs' : List IR} {al : Nat} (h : sources irs' = sources irs)
    (hc : Covered irs al) : Covered irs' al := by
  intro ir hir a ha
  have : ir.item.source ∈ sources irs := by
    rw [← h]; exact List.mem_map_of_mem (f := fun ir : IR => ir.item.source) hir
  obtain ⟨ir0, h0, h1⟩ := List.mem_map.1 this
  exact hc ir0 h0 a ((source_align h1 a).2 ha)

/-- Total number of short jumps. -/
def totalShorts (ss : List Sec) : Nat := (ss.map (fun s => shorts s.irs)).sum

theorem resolveSecs_cons {addr : Nat → Option Int} {n : Nat} {s : Sec} {ss ss' : List Sec} {up : Bool}
    {us : List Unres} (h : resolveSecs addr n (s :: ss) = some (ss', up, us)) :
    ∃ irs up1 us1 rest up2 us2, resolveIRs addr n (firstAddress s.irs) s.irs = some (irs, up1, us1) ∧
      resolveSecs addr (n + 1) ss = some (rest, up2, us2) ∧ ss' = ⟨s.align, s.start, irs⟩ :: rest ∧
      up = (up1 || up2) ∧ us = us1 ++ us2 := by
  simp only [resolveSecs, Option.bind_eq_bind] at h
  cases h1 : resolveIRs addr n (firstAddress s.irs) s.irs with
  | none => rw [h1] at h; cases h
  | some p =>
    obtain ⟨irs, up1, us1⟩ := p
    rw [h1] at h
    simp only [Option.bind_some] at h
    cases h2 : resolveSecs addr (n + 1) ss with
    | none => rw [h2] at h; cases h
    | some q =>
      obtain ⟨rest, up2, us2⟩ := q
      rw [h2] at h
      simp only [Option.bind_some, Option.some.injEq, Prod.mk.injEq] at h
      exact ⟨irs, up1, us1, rest, up2, us2, rfl, rfl, h.1.symm, h.2.1.symm, h.2.2.symm⟩

theorem resolveSecs_basic {addr : Nat → Option Int} (ss : List Sec) :
    ∀ {n : Nat} {ss' : List Sec} {up : Bool} {us : List Unres}, resolveSecs addr n ss = some (ss', up, us) →
    ss'.map (fun s => sources s.irs) = ss.map (fun s => sources s.irs) ∧
    (Input ss → Input ss') ∧
    ((∀ s ∈ ss, Covered s.irs s.align) → ∀ s ∈ ss', Covered s.irs s.align) ∧
    totalShorts ss' ≤ totalShorts ss ∧ (up = true → totalShorts ss' < totalShorts ss) := by
  induction ss with
  | nil =>
    intro n ss' up us h
    cases h
    exact ⟨rfl, id, fun h => h, Nat.le_refl _, fun h => (by cases h)⟩
  | cons s ss ih =>
    intro n ss' up us h
    obtain ⟨irs, up1, us1, rest, up2, us2, h1, h2, rfl, rfl, rfl⟩ := resolveSecs_cons h
    obtain ⟨a1, a2, a3, a4, a5⟩ := ih h2
    obtain ⟨b1, b2, b3, b4, _⟩ := resolveIRs_basic _ h1
    refine ⟨?_, ?_, ?_, ?_, ?_⟩
    · simp only [List.map_cons, b1, a1]
    · rintro ⟨i1, i2, i3⟩
      rw [List.flatMap_cons] at i3
      have hnd := List.nodup_append.1 i3
      have hr := a2 ⟨fun t ht => i1 t (List.mem_cons_of_mem _ ht),
        fun t ht => i2 t (List.mem_cons_of_mem _ ht), hnd.2.1⟩
      refine ⟨?_, ?_, ?_⟩
      · intro t ht
        rcases List.mem_cons.1 ht with rfl | ht
        · exact b2 (i1 s (by simp))
        · exact hr.items t ht
      · intro t ht
        rcases List.mem_cons.1 ht with rfl | ht
        · exact i2 s (by simp)
        · exact hr.align t ht
      · rw [List.flatMap_cons]
        have e1 : labelsOf irs = labelsOf s.irs := labelsOf_source b1
        have e2 : rest.flatMap (fun s => labelsOf s.irs) = ss.flatMap (fun s => labelsOf s.irs) := by
          have key : ∀ xs : List Sec, xs.flatMap (fun s => labelsOf s.irs) =
              (xs.map (fun s => sources s.irs)).flatMap (fun its => its.filterMap
                (fun it => match it with | .label l => some l | _ => none)) := by
            intro xs
            rw [List.flatMap_map]
            congr 1
            funext t
            unfold labelsOf sources
            rw [List.filterMap_map]
            congr 1
            funext ir
            simp only [Function.comp]
            cases ir.item <;> rfl
          rw [key, key, a1]
        rw [e2]; simp only [e1]; exact i3
    · intro hc t ht
      rcases List.mem_cons.1 ht with rfl | ht
      · exact covered_source b1 (hc s (by simp))
      · exact a3 (fun t ht => hc t (List.mem_cons_of_mem _ ht)) t ht
    · simp only [totalShorts, List.map_cons, List.sum_cons] at a4 ⊢
      omega
    · intro hup
      simp only [totalShorts, List.map_cons, List.sum_cons] at a4 a5 ⊢
      cases up1 with
      | true => have := b4 rfl; omega
      | false => have := a5 hup; omega

/-- A section of the result comes from one of the argument. -/
theorem resolveSecs_get {addr : Nat → Option Int} (ss : List Sec) :
    ∀ {n : Nat} {ss' : List Sec} {us : List Unres}, resolveSecs addr n ss = some (ss', false, us) →
    ∀ (i : Nat) (s' : Sec), ss'[i]? = some s' → ∃ s us1, ss[i]? = some s ∧ s'.align = s.align ∧
      s'.start = s.start ∧ (∀ u ∈ us1, u ∈ us) ∧
      resolveIRs addr (n + i) (firstAddress s.irs) s.irs = some (s'.irs, false, us1) := by
  induction ss with
  | nil => intro n ss' us h i s' hs; cases h; cases hs
  | cons s ss ih =>
    intro n ss' us h i s' hs
    obtain ⟨irs, up1, us1, rest, up2, us2, h1, h2, rfl, hup, rfl⟩ := resolveSecs_cons h
    have hup' : up1 = false ∧ up2 = false := by
      have := hup.symm; simpa only [Bool.or_eq_false_iff] using this
    obtain ⟨rfl, rfl⟩ := hup'
    cases i with
    | zero =>
      simp only [List.getElem?_cons_zero, Option.some.injEq] at hs
      subst hs
      exact ⟨s, us1, rfl, rfl, rfl, fun u hu => List.mem_append_left _ hu, h1⟩
    | succ i =>
      simp only [List.getElem?_cons_succ] at hs
      obtain ⟨t, us3, e1, e2, e3, e4, e5⟩ := ih h2 i s' hs
      refine ⟨t, us3, e1, e2, e3, fun u hu => List.mem_append_right _ (e4 u hu), ?_⟩
      rw [show n + (i + 1) = n + 1 + i by omega]; exact e5

theorem input_calc {ss : List Sec} (h : Input ss) (tbl : Tbl) (b : Bool) (a : Nat) :
    Input (calcSecs ss tbl b a).1 := by
  obtain ⟨h1, h2, h3⟩ := h
  obtain ⟨c1, _, _, _, c5⟩ := calcSecs_basic ss tbl b a
  refine ⟨?_, c5 h2 h1, ?_⟩
  · intro s hs ir hir
    have : s.irs.map IR.item ∈ ss.map (fun s => s.irs.map IR.item) := by
      rw [← c1]; exact List.mem_map_of_mem (f := fun s : Sec => s.irs.map IR.item) hs
    obtain ⟨t, ht, he⟩ := List.mem_map.1 this
    have hm : ir.item ∈ t.irs.map IR.item := by rw [he]; exact List.mem_map_of_mem hir
    obtain ⟨ir0, hi0, he0⟩ := List.mem_map.1 hm
    rw [← he0]; exact h1 t ht ir0 hi0
  · have key : ∀ xs : List Sec, xs.flatMap (fun s => labelsOf s.irs) =
        (xs.map (fun s => s.irs.map IR.item)).flatMap (fun its => its.filterMap
          (fun it => match it with | .label l => some l | _ => none)) := by
      intro xs
      rw [List.flatMap_map]
      congr 1
      funext t
      unfold labelsOf
      rw [List.filterMap_map]; rfl
    rw [key, c1, ← key]; exact h3

theorem totalShorts_calc (ss : List Sec) (tbl : Tbl) (b : Bool) (a : Nat) :
    totalShorts (calcSecs ss tbl b a).1 = totalShorts ss := by
  obtain ⟨c1, _⟩ := calcSecs_basic ss tbl b a
  have key : ∀ xs : List Sec, totalShorts xs =
      ((xs.map (fun s => s.irs.map IR.item)).map (fun its => its.countP
        (fun it => match it with | .jump _ _ false _ => true | _ => false))).sum := by
    intro xs
    unfold totalShorts
    rw [List.map_map]
    congr 2
    funext t
    simp only [Function.comp, shorts, List.countP_map]
    rfl
  rw [key, c1, ← key]

theorem sources_calc (ss : List Sec) (tbl : Tbl) (b : Bool) (a : Nat) :
    (calcSecs ss tbl b a).1.map (fun s => sources s.irs) = ss.map (fun s => sources s.irs) := by
  obtain ⟨c1, _⟩ := calcSecs_basic ss tbl b a
  have key : ∀ xs : List Sec, xs.map (fun s => sources s.irs) =
      (xs.map (fun s => s.irs.map IR.item)).map (fun its => its.map Item.source) := by
    intro xs
    rw [List.map_map]
    congr 1
    funext t
    simp only [Function.comp, sources, List.map_map]
    rfl
  rw [key, c1, ← key]

/-! ### Termination -/

theorem relax_terminates_covered (n : Nat) : ∀ (ss : List Sec) (tbl : Tbl),
    (∀ s ∈ ss, Covered s.irs s.align) → totalShorts ss < n → relax n ss tbl ≠ .fuel := by
  induction n with
  | zero => intro ss tbl _ h; omega
  | succ n ih =>
    intro ss tbl hcov hlt
    unfold relax
    simp only
    have hb := calcSecs_basic ss tbl true 0x1000100
    have hset := hb.2.2.2.1 hcov
    have hts := totalShorts_calc ss tbl true 0x1000100
    cases hr : resolveSecs (Tbl.addr (calcSecs ss tbl true 0x1000100).2.1) 0 (calcSecs ss tbl true 0x1000100).1 with
    | none => intro h; cases h
    | some p =>
      obtain ⟨ss', up, us⟩ := p
      simp only [hset, Bool.true_and]
      obtain ⟨_, _, r3, _, r5⟩ := resolveSecs_basic _ hr
      cases up with
      | false => simp
      | true =>
        have h5 := r5 rfl
        simp only [Bool.not_true, Bool.false_eq_true, if_false]
        exact ih ss' _ (r3 hb.2.1) (by omega)

/-- **C36 (termination)**: the loop of the assembler ends after at most as many rounds as there are
jumps, plus two. -/
theorem relax_terminates (ss : List Sec) (tbl : Tbl) : relax (totalShorts ss + 2) ss tbl ≠ .fuel := by
  unfold relax
  simp only
  have hb := calcSecs_basic ss tbl true 0x1000100
  have hts := totalShorts_calc ss tbl true 0x1000100
  cases hr : resolveSecs (Tbl.addr (calcSecs ss tbl true 0x1000100).2.1) 0 (calcSecs ss tbl true 0x1000100).1 with
  | none => intro h; cases h
  | some p =>
    obtain ⟨ss', up, us⟩ := p
    simp only
    obtain ⟨_, _, r3, r4, _⟩ := resolveSecs_basic _ hr
    split
    · intro h; cases h
    · exact relax_terminates_covered _ ss' _ (r3 hb.2.1) (by omega)

/-! ### Result -/

/-- The last round. -/
theorem relax_last (n : Nat) : ∀ (ss : List Sec) (tbl : Tbl) {out : List Sec} {tbl' : Tbl} {us : List Unres},
    Input ss → relax n ss tbl = .done out tbl' us → ∃ ss0 tbl0, Input ss0 ∧
      (calcSecs ss0 tbl0 true 0x1000100).2.1 = tbl' ∧ (calcSecs ss0 tbl0 true 0x1000100).2.2 = true ∧
      resolveSecs (Tbl.addr tbl') 0 (calcSecs ss0 tbl0 true 0x1000100).1 = some (out, false, us) ∧
      out.map (fun s => sources s.irs) = ss.map (fun s => sources s.irs) := by
  induction n with
  | zero => intro ss tbl out tbl' us _ h; cases h
  | succ n ih =>
    intro ss tbl out tbl' us hin h
    unfold relax at h
    simp only at h
    cases hr : resolveSecs (Tbl.addr (calcSecs ss tbl true 0x1000100).2.1) 0 (calcSecs ss tbl true 0x1000100).1 with
    | none => rw [hr] at h; cases h
    | some p =>
      obtain ⟨ss', up, us'⟩ := p
      rw [hr] at h
      simp only at h
      obtain ⟨r1, r2, _⟩ := resolveSecs_basic _ hr
      have hsrc : ss'.map (fun s => sources s.irs) = ss.map (fun s => sources s.irs) := by
        rw [r1, sources_calc]
      split at h
      · rename_i hc
        simp only [Bool.and_eq_true, Bool.not_eq_true'] at hc
        obtain ⟨hc1, hc2⟩ := hc
        subst hc2
        simp only [Outcome.done.injEq] at h
        obtain ⟨rfl, rfl, rfl⟩ := h
        exact ⟨ss, tbl, hin, rfl, hc1, hr, hsrc⟩
      · obtain ⟨ss0, tbl0, e1, e2, e3, e4, e5⟩ := ih ss' _ (r2 (input_calc hin _ _ _)) h
        exact ⟨ss0, tbl0, e1, e2, e3, e4, e5.trans hsrc⟩

theorem putValue_one {v : Int} (h : isIm8 v = true) :
    ∃ b, putValue v 1 = [b] ∧ toS 8 (b : Nat) = v := by
  refine ⟨(v % 256).toNat, rfl, ?_⟩
  have h' := (isIm8_iff v).1 h
  have hb : (((v % 256).toNat : Nat) : Int) = v % 256 := by omega
  rw [hb]
  unfold toS at h' ⊢
  have h256 : (2 : Int) ^ 8 = 256 := rfl
  rw [h256] at h' ⊢
  rw [Int.emod_emod]
  exact h'

theorem putValue_four {v : Int} (h : isIm32 v = true) : ∃ b0 b1 b2 b3, putValue v 4 = [b0, b1, b2, b3] ∧
    toS 32 ((b0 : Int) + 256 * (b1 : Int) + 65536 * (b2 : Int) + 16777216 * (b3 : Int)) = v := by
  refine ⟨_, _, _, _, rfl, ?_⟩
  have h' := (isIm32_iff v).1 h
  have e : ((v % 256).toNat : Int) + (256 : Int) * ((v >>> 8 % 256).toNat : Int) +
      (65536 : Int) * ((v >>> 8 >>> 8 % 256).toNat : Int) +
      (16777216 : Int) * ((v >>> 8 >>> 8 >>> 8 % 256).toNat : Int) = v % 2 ^ 32 := by
    simp only [Int.shiftRight_eq_div_pow]
    omega
  rw [e]
  unfold toS at h' ⊢
  rw [Int.emod_emod]
  exact h'

theorem decode_short {cc : Option Nat} (hcc : ∀ c, cc = some c → c < 16) (a : Nat) (b : Nat) :
    decodeJump a (opcode cc false ++ [b]) = some (cc, a + 2 + toS 8 b) := by
  cases cc with
  | none => rfl
  | some c =>
    have := hcc c rfl
    simp only [opcode, List.cons_append, List.nil_append, decodeJump]
    rw [if_neg (by omega), if_neg (by omega), if_neg (by omega), if_pos (by omega)]
    simp

theorem decode_long {cc : Option Nat} (hcc : ∀ c, cc = some c → c < 16) (a : Nat) (b0 b1 b2 b3 : Nat) :
    decodeJump a (opcode cc true ++ [b0, b1, b2, b3]) =
      some (cc, a + ((opcode cc true).length + 4 : Nat) +
        toS 32 ((b0 : Int) + 256 * (b1 : Int) + 65536 * (b2 : Int) + 16777216 * (b3 : Int))) := by
  cases cc with
  | none => rfl
  | some c =>
    have := hcc c rfl
    simp only [opcode, List.cons_append, List.nil_append, decodeJump]
    rw [if_neg (by omega), if_neg (by omega), if_pos ⟨trivial, by omega, by omega⟩]
    simp

/-- A jump that is not to an external label is encoded right. -/
theorem resolveIR_jump {tbl : Tbl} {n start : Nat} {a b : IR} {us : List Unres}
    (hok : a.item.Ok) (h : resolveIR tbl.addr n start a = some (b, false, us)) {cc : Option Nat} {e : Expr}
    {long : Bool} {disp : List Nat} (hb : b.item = .jump cc e long disp) {v : Value}
    (hv : calcExpr tbl.addr e = some v) :
    (v.label = none → decodeJump b.address b.item.bytes = some (cc, v.offset)) ∧
    (∀ l p, v.label = some l → tbl l = some p →
      decodeJump b.address b.item.bytes = some (cc, p + v.offset)) ∧
    (∀ l, v.label = some l → tbl l = none → long = true ∧
      (⟨n, (a.address : Int) + 1 - start, l, v.offset - 4⟩ : Unres) ∈ us) := by
  have hc := resolveIR_change h
  have hitem : ∃ long' disp', a.item = .jump cc e long' disp' := by
    have hs := hc.src
    rw [hb] at hs
    cases hit : a.item with
    | jump cc' e' l' d' =>
      rw [hit] at hs
      simp only [Item.source, Item.jump.injEq, and_true] at hs
      obtain ⟨rfl, rfl⟩ := hs
      exact ⟨l', d', rfl⟩
    | label l => rw [hit] at hs; cases hs
    | align l => rw [hit] at hs; cases hs
    | fixed bs r => rw [hit] at hs; cases hs
  obtain ⟨l0, d0, hit⟩ := hitem
  have hcc : ∀ c, cc = some c → c < 16 := by rw [hit] at hok; exact hok.1
  have hlen0 : d0.length = if l0 then 4 else 1 := by rw [hit] at hok; exact hok.2
  unfold resolveIR at h
  rw [hit] at h
  simp only [Option.bind_eq_bind, hv, Option.bind_some] at h
  -- encoding of a target
  have enc : ∀ target : Int, resolveJump cc e l0 d0 a.address target = some (b, false, us) →
      decodeJump b.address b.item.bytes = some (cc, target) := by
    intro target ht
    unfold resolveJump at ht
    simp only at ht
    split at ht
    · rename_i hl
      subst hl
      split at ht
      · rename_i him
        simp only [Option.some.injEq, Prod.mk.injEq] at ht
        obtain ⟨rfl, _, _⟩ := ht
        obtain ⟨b0, b1, b2, b3, hp, hval⟩ := putValue_four him
        simp only [Item.bytes] at hval ⊢
        simp only [Item.bytes] at hp
        rw [hp, decode_long hcc, hval]
        simp only [if_true] at hlen0
        simp only [List.length_append, hlen0]
        refine congrArg (fun z : Int => some (cc, z)) ?_
        omega
      · cases ht
    · rename_i hl
      have hl' : l0 = false := by simpa using hl
      subst hl'
      split at ht
      · rename_i him
        simp only [Option.some.injEq, Prod.mk.injEq] at ht
        obtain ⟨rfl, _, _⟩ := ht
        obtain ⟨b0, hp, hval⟩ := putValue_one him
        simp only [Item.bytes] at hval ⊢
        simp only [Item.bytes] at hp
        rw [hp, decode_short hcc, hval]
        have hop : (opcode cc false).length = 1 := by cases cc <;> rfl
        simp only [Bool.false_eq_true, if_false] at hlen0
        simp only [List.length_append, hlen0, hop]
        refine congrArg (fun z : Int => some (cc, z)) ?_
        omega
      · simp at ht
  refine ⟨fun hl => ?_, fun l p hl hp => ?_, fun l hl hp => ?_⟩
  · rw [hl] at h
    exact enc _ h
  · rw [hl] at h
    have hpa : tbl.addr l = some (p : Int) := by simp [Tbl.addr, hp]
    simp only [hpa] at h
    rw [Int.add_comm]
    exact enc _ h
  · rw [hl] at h
    have hpa : tbl.addr l = none := by simp [Tbl.addr, hp]
    simp only [hpa] at h
    split at h
    · rename_i hlo
      simp only [Option.some.injEq, Prod.mk.injEq] at h
      obtain ⟨rfl, _, rfl⟩ := h
      rw [hit] at hb
      simp only [Item.jump.injEq] at hb
      refine ⟨by rw [← hb.2.2.1]; exact hlo, by simp⟩
    · simp at h

/-- **C36**: when the loop ends without an error the state satisfies `Final`, and the program is the
given one up to the forms of the jumps. -/
theorem relax_correct (n : Nat) (ss : List Sec) (tbl : Tbl) {out : List Sec} {tbl' : Tbl} {us : List Unres}
    (hin : Input ss) (h : relax n ss tbl = .done out tbl' us) :
    Final out tbl' us ∧ out.map (fun s => sources s.irs) = ss.map (fun s => sources s.irs) := by
  obtain ⟨ss0, tbl0, hin0, ht, hset, hres, hsrc⟩ := relax_last n ss tbl hin h
  refine ⟨?_, hsrc⟩
  have hin1 := input_calc hin0 tbl0 true 0x1000100
  obtain ⟨hf, hord⟩ := calcSecs_final ss0 tbl0 true 0x1000100 hin0 hset
  rw [ht] at hf
  generalize (calcSecs ss0 tbl0 true 0x1000100).1 = mid at *
  have hget := resolveSecs_get mid hres
  -- a position in the output
  have hpos : ∀ (k : Nat) (s : Sec), out[k]? = some s → ∃ t us1, t ∈ mid ∧ mid[k]? = some t ∧ s.align = t.align ∧
      s.start = t.start ∧ (∀ u ∈ us1, u ∈ us) ∧
      resolveIRs tbl'.addr k (firstAddress t.irs) t.irs = some (s.irs, false, us1) := by
    intro k s hs
    obtain ⟨t, us1, e1, e2, e3, e4, e5⟩ := hget k s hs
    rw [Nat.zero_add] at e5
    exact ⟨t, us1, List.mem_of_getElem? e1, e1, e2, e3, e4, e5⟩
  have hitem : ∀ (k : Nat) (s : Sec), out[k]? = some s → ∀ pre ir post, s.irs = pre ++ ir :: post →
      ∃ ir0 usi, ir0.item.Ok ∧ ir0.address = ir.address ∧ ir.item.source = ir0.item.source ∧
        resolveIR tbl'.addr k s.start ir0 = some (ir, false, usi) ∧ (∀ u ∈ usi, u ∈ us) ∧
        ((∀ a, ir.item ≠ .align a) → ir.address = s.start + (emit pre []).length) ∧
        (∀ l, ir.item = .label l → tbl' l = some ir.address) ∧
        (∀ a, ir.item = .align a → a ∣ s.align ∧ a ∣ ir.address) := by
    intro k s hs pre ir post he
    obtain ⟨t, us1, htm, _, h1, h2, h3, h4⟩ := hpos k s hs
    obtain ⟨pre0, ir0, post0, u1, s1, u2, s2, e1, e2, e3, e4, e5⟩ := resolveIRs_split _ h4 pre ir post he
    obtain ⟨hu1, hu2⟩ := e4 rfl
    subst hu1 hu2
    obtain ⟨_, _, g3, g4, g5, g6⟩ := hf t htm
    have hc := resolveIR_change e3
    have hmem : ir0 ∈ t.irs := by rw [e1]; simp
    have hfa : firstAddress t.irs = t.start := g5 (by rw [e1]; simp)
    have hok := hin1.items t htm
    have hlen := (resolveIRs_basic _ e2).2.2.2.2 rfl (fun i hi => hok i (by rw [e1]; simp [hi])) [] [] rfl
    refine ⟨ir0, s2, hok ir0 hmem, hc.addr.symm, hc.src, by rw [h2, ← hfa]; exact e3,
      fun u hu => h3 u (e5 u hu), ?_, ?_, ?_⟩
    · intro hna
      rw [hc.addr, h2, hlen]
      exact g4 pre0 ir0 post0 e1 (fun a ha => hna a ((source_align hc.src a).2 ha))
    · intro l hl
      rw [hc.addr]
      exact g6 ir0 hmem l ((source_label hc.src l).1 hl)
    · intro a ha
      rw [hc.addr, h1]
      exact g3 ir0 hmem a ((source_align hc.src a).1 ha)
  have hmemitem : ∀ s ∈ out, ∀ ir ∈ s.irs, ∃ (k : Nat) (pre post : List IR), out[k]? = some s ∧ s.irs = pre ++ ir :: post := by
    intro s hs ir hir
    obtain ⟨k, hk⟩ := List.getElem?_of_mem hs
    obtain ⟨pre, post, he⟩ := List.append_of_mem hir
    exact ⟨k, pre, post, hk, he⟩
  refine ⟨?_, ?_, ?_, ?_, ?_, ?_, ?_⟩
  · intro s hs pre ir post he hna
    obtain ⟨k, hk⟩ := List.getElem?_of_mem hs
    obtain ⟨_, _, _, _, _, _, _, hp, _⟩ := hitem k s hk pre ir post he
    exact hp hna
  · intro s hs ir hir l hl
    obtain ⟨k, pre, post, hk, he⟩ := hmemitem s hs ir hir
    obtain ⟨_, _, _, _, _, _, _, _, hp, _⟩ := hitem k s hk pre ir post he
    exact hp l hl
  · intro s hs ir hir cc e long disp hj v hv
    obtain ⟨k, pre, post, hk, he⟩ := hmemitem s hs ir hir
    obtain ⟨ir0, usi, h1, _, _, h4, _⟩ := hitem k s hk pre ir post he
    have := resolveIR_jump h1 h4 hj hv
    exact ⟨this.1, this.2.1⟩
  · intro k s hk pre ir post he e long disp hj v l hv hl hn
    obtain ⟨ir0, usi, h1, h2, _, h4, h5, h6, _⟩ := hitem k s hk pre ir post he
    have := (resolveIR_jump h1 h4 hj hv).2.2 l hl hn
    refine ⟨this.1, ?_⟩
    have hp := h6 (fun a ha => by rw [hj] at ha; cases ha)
    have hu := h5 _ this.2
    rw [h2, hp] at hu
    rw [show ((emit pre []).length : Int) + 1 = ((s.start + (emit pre []).length : Nat) : Int) + 1 - s.start by omega]
    exact hu
  · intro k s hk pre ir post he bs r hj
    obtain ⟨ir0, usi, h1, h2, hsr, h4, h5, h6, _⟩ := hitem k s hk pre ir post he
    have hit : ir0.item = .fixed bs (some r) := by
      rw [hj] at hsr
      cases hit : ir0.item <;> rw [hit] at hsr <;> simp only [Item.source, reduceCtorEq] at hsr
      rw [hsr]
    unfold resolveIR at h4
    rw [hit] at h4
    simp only [Option.bind_eq_bind] at h4
    cases hv : calcExpr tbl'.addr r.e with
    | none => rw [hv] at h4; cases h4
    | some v =>
      rw [hv] at h4
      simp only [Option.bind_some] at h4
      cases hl : v.label with
      | none => rw [hl] at h4; cases h4
      | some l =>
        rw [hl] at h4
        simp only [Option.bind_some, Option.some.injEq, Prod.mk.injEq] at h4
        obtain ⟨_, _, rfl⟩ := h4
        refine ⟨v, l, rfl, hl, ?_⟩
        have hp := h6 (fun a ha => by rw [hj] at ha; cases ha)
        have hu := h5 _ (List.mem_singleton.2 rfl)
        rw [h2, hp] at hu
        rw [show ((emit pre []).length : Int) + r.field =
          ((s.start + (emit pre []).length : Nat) : Int) + r.field - s.start by omega]
        exact hu
  · intro s hs
    obtain ⟨k, hk⟩ := List.getElem?_of_mem hs
    obtain ⟨t, us1, htm, _, h1, h2, _, _⟩ := hpos k s hk
    refine ⟨by rw [h1, h2]; exact (hf t htm).2.1, fun ir hir a ha => ?_⟩
    obtain ⟨pre, post, he⟩ := List.append_of_mem hir
    obtain ⟨_, _, _, _, _, _, _, _, _, hp⟩ := hitem k s hk pre ir post he
    exact hp a ha
  · rw [List.pairwise_iff_getElem] at hord ⊢
    intro i j hi hj hij
    obtain ⟨t, us1, htm, hti, _, h2, _, h4⟩ := hpos i _ (List.getElem?_eq_getElem hi)
    obtain ⟨t', us1', htm', htj, _, h2', _, _⟩ := hpos j _ (List.getElem?_eq_getElem hj)
    obtain ⟨hi', e1⟩ := List.getElem?_eq_some_iff.1 hti
    obtain ⟨hj', e2⟩ := List.getElem?_eq_some_iff.1 htj
    have := hord i j hi' hj' hij
    rw [e1, e2] at this
    have hlen := (resolveIRs_basic _ h4).2.2.2.2 rfl (hin1.items t htm) [] [] rfl
    rw [h2, h2', hlen]
    exact this

theorem emit_append (xs ys : List IR) (ds : List Nat) : emit (xs ++ ys) ds = emit ys (emit xs ds) := by
  induction xs generalizing ds with
  | nil => rfl
  | cons x xs ih =>
    rw [List.cons_append, emit, emit]
    cases x.item <;> simp only [ih]

theorem emit_prefix (xs : List IR) (ds : List Nat) : ds <+: emit xs ds := by
  induction xs generalizing ds with
  | nil => exact List.prefix_refl _
  | cons x xs ih =>
    unfold emit
    cases x.item <;> exact List.IsPrefix.trans (List.prefix_append _ _) (ih _)

/-- The emitted section has the bytes of an item at the item's offset. -/
theorem emit_slice (pre : List IR) (ir : IR) (post : List IR) :
    ir.item.bytes <+: (emit (pre ++ ir :: post) []).drop (emit pre []).length := by
  rw [emit_append]
  have h : emit pre [] ++ ir.item.bytes <+: emit (ir :: post) (emit pre []) := by
    generalize emit pre [] = ds
    unfold emit
    cases hit : ir.item with
    | align a =>
      simp only [Item.bytes, List.append_nil]
      exact List.IsPrefix.trans (List.prefix_append _ _) (emit_prefix _ _)
    | _ => exact emit_prefix _ _
  obtain ⟨t, ht⟩ := h
  rw [← ht, List.append_assoc, List.drop_left]
  exact List.prefix_append _ _

/-! ### Concrete cases and findings -/

/-- The relocations of an outcome. -/
def Outcome.unres : Outcome → Option (List Unres)
  | .done _ _ us => some us
  | _ => none

/-- The emitted sections of an outcome. -/
def Outcome.bytes : Outcome → Option (List (List Nat))
  | .done ss _ _ => some (ss.map (fun s => emit s.irs []))
  | _ => none

/-- A forward jump over 130 bytes, a backward one, an alignment of 16 and an external `jmp`. -/
def prog : List Sec :=
  [⟨1, 0, [⟨.label 0, 0⟩, ⟨.jump (some 4) (.label 1) false [0], 0⟩, ⟨.fixed (List.replicate 130 0x90) none, 0⟩,
    ⟨.align 16, 0⟩, ⟨.label 1, 0⟩, ⟨.jump none (.label 0) false [0], 0⟩, ⟨.jump none (.label 7) false [0], 0⟩]⟩]

theorem prog_input : Input prog := by
  refine ⟨?_, ?_, by decide⟩
  · intro s hs
    simp only [prog, List.mem_singleton] at hs
    subst hs
    intro ir hir
    simp only [List.mem_cons, List.not_mem_nil, or_false] at hir
    rcases hir with rfl | rfl | rfl | rfl | rfl | rfl | rfl
    · trivial
    · exact ⟨fun c hc => by cases hc; decide, rfl⟩
    · trivial
    · exact ⟨4, rfl⟩
    · trivial
    · exact ⟨fun c hc => (by cases hc), rfl⟩
    · exact ⟨fun c hc => (by cases hc), rfl⟩
  · intro s hs
    simp only [prog, List.mem_singleton] at hs
    subst hs
    exact ⟨0, rfl⟩

/-- The table at the start has the two defined labels. -/
def progTbl : Tbl := fun l => if l < 2 then some 0 else none

example : (relax 5 prog progTbl).unres = some [⟨0, 150, 7, -4⟩] := by decide +kernel

/-- **Finding**: a conditional jump to a label of another file: the relocation is for byte 1 of the
instruction, the displacement field is at byte 2 (the bytes are 0F 84 xx xx xx xx). -/
theorem jcc_extern_relocation_misplaced :
    (relax 3 [⟨1, 0, [⟨.jump (some 4) (.label 0) false [0], 0⟩]⟩] (fun _ => none)).unres =
      some [⟨0, 1, 0, -4⟩] ∧
    (relax 3 [⟨1, 0, [⟨.jump (some 4) (.label 0) false [0], 0⟩]⟩] (fun _ => none)).bytes =
      some [[0x0f, 0x84, 255, 255, 255, 255]] := by decide +kernel

/-- **Finding**: a `jmp` to a label that is in the table (because of `.globl`) but not defined in this
file is resolved to address 0, without relocation. -/
theorem globl_undefined_jump :
    (relax 3 [⟨1, 0, [⟨.jump none (.label 0) false [0], 0⟩]⟩] (fun _ => some 0)).unres = some [] ∧
    ((relax 3 [⟨1, 0, [⟨.jump none (.label 0) false [0], 0⟩]⟩] (fun _ => some 0)).bytes.map
      (fun bs => bs.map (decodeJump 0x1000100))) = some [some (none, 0)] := by decide +kernel

/-- **Finding**: a jump to a label of another section gets no relocation, although the linker may move
the sections apart. -/
theorem cross_section_jump :
    (relax 3 [⟨1, 0, [⟨.jump none (.label 0) false [0], 0⟩]⟩, ⟨1, 0, [⟨.label 0, 0⟩]⟩]
      (fun _ => some 0)).unres = some [] := by decide +kernel

end Verif.Relax

/-
Translation to static single assignment form (C60).

Models `make_ssa`, /repo/src/cc/backend/ssa.c:15-196 and 386-391: `assign_new_vregs`, `push_nexts`,
`replace_vreg_set`, `ssa_transform`, `insert_phis`.  The register flow is that of Backend.RegFlow (C51), the edges are
those of Backend.Edges (C58).

Simplifications: a register is its number; `from_vregs` and the array of current versions are functions.  The phi
functions of a block, which are calculated at once, are listed in the order of `in_regs` (the code exchanges those
behind registers that live in memory).  `make_ssa` is called once, when there are no phi functions yet.
-/
import Verif.Backend.Edges
import Verif.Backend.RegFlow
import Mathlib.Data.List.Nodup

namespace Verif.Ssa
open Verif.Ir Verif.Edges

variable {K V S : Type}

/-! ### Model -/

/-- `ra->vregs` (the original of every register) and whether `vreg_table[virt]` has an entry. -/
structure Ra where
  orig : List Nat
  used : Nat → Bool

/-- `ORIG_VIRT`, ssa.c:15-17. -/
def Ra.of (ra : Ra) (v : Nat) : Nat := ra.orig.getD v 0

/-- `vec_push(vt, ...)`. -/
def Ra.use (ra : Ra) (x : Nat) : Ra := { ra with used := fun y => if y = x then true else ra.used y }

/-- `reg_alloc_with_original`, regalloc.c:76-81, and the entry in the table. -/
def Ra.fresh (ra : Ra) (x : Nat) : Nat × Ra := (ra.orig.length, ({ ra with orig := ra.orig ++ [x] } : Ra).use x)

/-- The current version of every original register, `vregs`. -/
abbrev Cur := Nat → Nat

def Cur.set (cur : Cur) (x v : Nat) : Cur := fun y => if y = x then v else cur y

def renReg (mem : Nat → Bool) (cur : Cur) (r : Nat) : Nat := if mem r then r else cur r

def renOpr (mem : Nat → Bool) (cur : Cur) : Opr V → Opr V
  | .const v => .const v
  | .reg r => .reg (renReg mem cur r)

def renLast (mem : Nat → Bool) (cur : Cur) : Last K V → Last K V
  | .next => .next
  | .jmp c => .jmp c
  | .cjmp k o1 o2 c => .cjmp k (renOpr mem cur o1) (renOpr mem cur o2) c
  | .tjmp o bs => .tjmp (renOpr mem cur o) bs

/-- ssa.c:28-36: the destination. -/
def assignDst (mem : Nat → Bool) (cur : Cur) (ra : Ra) : Option Nat → Option Nat × Cur × Ra
  | none => (none, cur, ra)
  | some d =>
    if mem d then (some d, cur, ra)
    else if ra.used d then (some (ra.fresh d).1, cur.set d (ra.fresh d).1, (ra.fresh d).2)
    else (some d, cur.set d d, ra.use d)

/-- ssa.c:19-38 `assign_new_vregs`. -/
def assign (mem : Nat → Bool) : List (Ins K V) → Cur → Ra → List (Ins K V) × Cur × Ra
  | [], cur, ra => ([], cur, ra)
  | i :: is, cur, ra =>
    let d := assignDst mem cur ra i.dst
    let r := assign mem is d.2.1 d.2.2
    ({ i with dst := d.1, o1 := i.o1.map (renOpr mem cur), o2 := i.o2.map (renOpr mem cur) } :: r.1, r.2)

/-- The state of `ssa_transform`: the blocks, `in_regs` and `out_regs`. -/
structure St (K V : Type) where
  ra : Ra
  code : Nat → Block K V
  ins : Nat → List Nat
  outs : Nat → List Nat

/-- ssa.c:103-110: the versions at the end of the only predecessor. -/
def handOver (mem : Nat → Bool) (ra : Ra) (outs : List Nat) : Cur :=
  outs.foldl (fun cur v => if mem v then cur else cur.set (ra.of v) v) id

/-- ssa.c:114-124: new versions where the flow merges; the new `in_regs`. -/
def mergeIn (mem : Nat → Bool) : List Nat → Cur → Ra → List Nat × Cur × Ra
  | [], cur, ra => ([], cur, ra)
  | v :: vs, cur, ra =>
    if mem v then
      let r := mergeIn mem vs cur ra
      (v :: r.1, r.2)
    else
      let n := ra.fresh (ra.of v)
      let r := mergeIn mem vs (cur.set (ra.of v) n.1) n.2
      (n.1 :: r.1, r.2)

/-- ssa.c:100-125: `in_regs`, the versions and the registers when the instructions of the block begin. -/
def entry (mem : Nat → Bool) (frm : List Nat) (b : Nat) (st : St K V) : List Nat × Cur × Ra :=
  match frm with
  | [] => (st.ins b, id, st.ra)
  | [p] => ((st.ins b).map (renReg mem (handOver mem st.ra (st.outs p))), handOver mem st.ra (st.outs p), st.ra)
  | _ => mergeIn mem (st.ins b) id st.ra

/-- Update at one block. -/
def upd {α : Type} (f : Nat → α) (b : Nat) (a : α) : Nat → α := fun c => if c = b then a else f c

/-- ssa.c:100-127: one block. -/
def visit (mem : Nat → Bool) (frm : Nat → List Nat) (st : St K V) (b : Nat) : St K V :=
  let e := entry mem (frm b) b st
  let a := assign mem (st.code b).body e.2.1 e.2.2
  { ra := a.2.2
    code := upd st.code b { phis := [], body := a.1, last := renLast mem a.2.1 (st.code b).last }
    ins := upd st.ins b e.1
    outs := upd st.outs b ((st.outs b).map (renReg mem a.2.1)) }

/-- ssa.c:84-130: the order in which the blocks are visited. -/
def order (next frm : Nat → List Nat) (u stack : List Nat) : List Nat :=
  match stack with
  | [] => []
  | b :: stack =>
    if b ∈ u ∧ ¬ ((frm b).length = 0 ∧ b ≠ 0) then b :: order next frm (u.erase b) ((next b).reverse ++ stack)
    else order next frm u stack
termination_by (u.length, stack.length)
decreasing_by
  · have hb : b ∈ u := And.left (by assumption)
    have h1 := List.length_erase_of_mem hb
    have h2 := List.length_pos_of_mem hb
    apply Prod.Lex.left
    omega
  · apply Prod.Lex.right
    simp

/-- ssa.c:162-177: the registers found at the end of the predecessors, one after the other; `fv` is `from_vregs`,
which is never cleared. -/
def rows (of : Nat → Nat) (outs : Nat → List Nat) : List Nat → Cur → List Cur × Cur
  | [], fv => ([], fv)
  | p :: ps, fv =>
    let fv1 := (outs p).foldl (fun fv o => fv.set (of o) o) fv
    let r := rows of outs ps fv1
    (fv1 :: r.1, r.2)

/-- ssa.c:138-196 `insert_phis`, for the blocks in the list. -/
def insertPhis (mem : Nat → Bool) (frm : Nat → List Nat) (of : Nat → Nat) (ins outs : Nat → List Nat) :
    List Nat → Cur → Nat → List (Phi V)
  | [], _ => fun _ => []
  | b :: bs, fv =>
    if (frm b).length < 2 then insertPhis mem frm of ins outs bs fv
    else
      let r := rows of outs (frm b) fv
      upd (insertPhis mem frm of ins outs bs r.2) b
        (((ins b).filter (fun v => !mem v)).map fun v => ⟨v, r.1.map fun f => .reg (f (of v))⟩)

/-- The operands as register numbers, for the register flow. -/
def regOf : Opr V → Option Nat
  | .const _ => none
  | .reg r => some r

def toIr (i : Ins K V) : Intervals.Ir := ⟨i.dst, i.o1.bind regOf, i.o2.bind regOf, fun _ => false, none, false⟩

def lastIr : Last K V → List Intervals.Ir
  | .next => []
  | .jmp _ => []
  | .cjmp _ o1 o2 _ => [⟨none, regOf o1, regOf o2, fun _ => false, none, false⟩]
  | .tjmp o _ => [⟨none, regOf o, none, fun _ => false, none, false⟩]

def blockIrs (B : Block K V) : List Intervals.Ir := B.body.map toIr ++ lastIr B.last

/-- The instructions of the blocks. -/
def irsOf (blocks : List (Block K V)) (b : Nat) : List Intervals.Ir :=
  match blocks[b]? with
  | some B => blockIrs B
  | none => []

def emptyBlock : Block K V := ⟨[], [], .next⟩

/-- `make_ssa`, ssa.c:386-391, for a function of `n0` registers; `param` are the registers with `VRF_PARAM`. -/
def transform (mem param : Nat → Bool) (n0 : Nat) (blocks : List (Block K V)) (frm : Nat → List Nat) (fl : RegFlow.Flow) : St K V :=
  (order (succ blocks) frm (List.range blocks.length) [0]).foldl (visit mem frm)
    { ra := ⟨List.range n0, fun x => param x || mem x⟩, code := fun b => blocks.getD b emptyBlock, ins := fl.ins, outs := fl.outs }

def withPhis (mem : Nat → Bool) (n : Nat) (frm : Nat → List Nat) (st : St K V) : List (Block K V) :=
  (List.range n).map fun b => { st.code b with phis := insertPhis mem frm st.ra.of st.ins st.outs (List.range' 1 (n - 1)) (fun _ => 0) b }

def makeSsa (mem param : Nat → Bool) (n0 : Nat) (blocks : List (Block K V)) (frm : Nat → List Nat) : Option (List (Block K V)) :=
  (RegFlow.analyze (irsOf blocks) frm blocks.length (RegFlow.fuelFor frm blocks.length)).map fun fl =>
    withPhis mem blocks.length frm (transform mem param n0 blocks frm fl)

/-! ### Versions -/

/-- `v` is a version of the register `x`. -/
def Ra.Ver (ra : Ra) (v x : Nat) : Prop := v < ra.orig.length ∧ ra.of v = x

/-- Later states have more versions. -/
def Ra.Le (ra ra' : Ra) : Prop := ∃ l, ra'.orig = ra.orig ++ l

theorem Ra.Le.refl (ra : Ra) : ra.Le ra := ⟨[], by simp⟩

theorem Ra.Le.trans {a b c : Ra} (h1 : a.Le b) (h2 : b.Le c) : a.Le c := by
  obtain ⟨l, h1⟩ := h1
  obtain ⟨m, h2⟩ := h2
  exact ⟨l ++ m, by rw [h2, h1, List.append_assoc]⟩

theorem Ra.Le.of {a b : Ra} (h : a.Le b) {v : Nat} (hv : v < a.orig.length) : b.of v = a.of v := by
  obtain ⟨l, h⟩ := h
  simp only [Ra.of, h]
  simp [List.getD_eq_getElem?_getD, List.getElem?_append_left hv]

theorem Ra.Le.ver {a b : Ra} (h : a.Le b) {v x : Nat} (hv : a.Ver v x) : b.Ver v x := by
  refine ⟨?_, by rw [h.of hv.1]; exact hv.2⟩
  obtain ⟨l, h⟩ := h
  have := hv.1
  rw [h, List.length_append]
  omega

theorem Ra.le_use (ra : Ra) (x : Nat) : ra.Le (ra.use x) := ⟨[], by simp [Ra.use]⟩

theorem Ra.le_fresh (ra : Ra) (x : Nat) : ra.Le (ra.fresh x).2 := ⟨[x], rfl⟩

theorem Ra.ver_fresh (ra : Ra) (x : Nat) : (ra.fresh x).2.Ver (ra.fresh x).1 x := by
  constructor
  · simp [Ra.fresh, Ra.use]
  · simp [Ra.fresh, Ra.use, Ra.of, List.getD_eq_getElem?_getD]

/-- The first `n0` registers are originals. -/
structure Ra.Ok (n0 : Nat) (ra : Ra) : Prop where
  self : ∀ x, x < n0 → ra.Ver x x
  low : ∀ v, v < ra.orig.length → ra.of v < n0

theorem Ra.Ok.fresh {n0 : Nat} {ra : Ra} (h : ra.Ok n0) {x : Nat} (hx : x < n0) : (ra.fresh x).2.Ok n0 := by
  refine ⟨fun y hy => (ra.le_fresh x).ver (h.self y hy), ?_⟩
  intro v hv
  by_cases h1 : v < ra.orig.length
  · rw [(ra.le_fresh x).of h1]; exact h.low v h1
  · have h2 : v = ra.orig.length := by
      have : (ra.fresh x).2.orig.length = ra.orig.length + 1 := by simp [Ra.fresh, Ra.use]
      omega
    subst h2
    have := (ra.ver_fresh x).2
    simp only [Ra.fresh] at this ⊢
    rw [this]; exact hx

theorem Ra.Ok.use {n0 : Nat} {ra : Ra} (h : ra.Ok n0) (x : Nat) : (ra.use x).Ok n0 := ⟨h.self, h.low⟩

/-- Every register has a current version. -/
def Good (n0 : Nat) (ra : Ra) (cur : Cur) : Prop := ∀ x, x < n0 → ra.Ver (cur x) x

theorem Good.mono {n0 : Nat} {a b : Ra} {cur : Cur} (h : Good n0 a cur) (hl : a.Le b) : Good n0 b cur :=
  fun x hx => hl.ver (h x hx)

theorem Good.set {n0 : Nat} {ra : Ra} {cur : Cur} (h : Good n0 ra cur) {x v : Nat} (hv : ra.Ver v x) : Good n0 ra (cur.set x v) := by
  intro y hy
  simp only [Cur.set]
  split
  · rename_i he; rw [he]; exact hv
  · exact h y hy

/-- A version of a register that does not live in memory does not, either. -/
theorem ver_mem {n0 : Nat} {mem : Nat → Bool} {ra : Ra} (hok : ra.Ok n0) (hm : ∀ r, n0 ≤ r → mem r = false) {v x : Nat}
    (hv : ra.Ver v x) (hx : mem x = false) : mem v = false := by
  by_cases h : v < n0
  · have := (hok.self v h).2
    rw [hv.2] at this
    subst this; exact hx
  · exact hm v (by omega)

/-- The renamed instructions: `cur'` are the versions at the end. -/
inductive Renamed (mem : Nat → Bool) (ver : Nat → Nat → Prop) : Cur → List (Ins K V) → Cur → List (Ins K V) → Prop
  | nil {cur : Cur} : Renamed mem ver cur [] cur []
  | keep {cur cur' : Cur} {i : Ins K V} {is is' : List (Ins K V)} : (∀ d, i.dst = some d → mem d = true) →
      Renamed mem ver cur is cur' is' →
      Renamed mem ver cur (i :: is) cur' ({ i with o1 := i.o1.map (renOpr mem cur), o2 := i.o2.map (renOpr mem cur) } :: is')
  | dst {cur cur' : Cur} {i : Ins K V} {is is' : List (Ins K V)} {d v : Nat} : i.dst = some d → mem d = false → ver v d →
      Renamed mem ver (cur.set d v) is cur' is' →
      Renamed mem ver cur (i :: is) cur'
        ({ i with dst := some v, o1 := i.o1.map (renOpr mem cur), o2 := i.o2.map (renOpr mem cur) } :: is')

theorem Renamed.mono {mem : Nat → Bool} {v1 v2 : Nat → Nat → Prop} (h : ∀ v x, v1 v x → v2 v x) {cur cur' : Cur}
    {is is' : List (Ins K V)} (hr : Renamed mem v1 cur is cur' is') : Renamed mem v2 cur is cur' is' := by
  induction hr with
  | nil => exact .nil
  | keep h1 _ ih => exact .keep h1 ih
  | dst h1 h2 h3 _ ih => exact .dst h1 h2 (h _ _ h3) ih

/-- The registers of an instruction are below `n0`. -/
def DstsLow (n0 : Nat) (is : List (Ins K V)) : Prop := ∀ i ∈ is, ∀ d, i.dst = some d → d < n0

theorem assign_spec {n0 : Nat} {mem : Nat → Bool} (is : List (Ins K V)) : DstsLow n0 is → ∀ (cur : Cur) (ra : Ra),
    ra.Ok n0 → Good n0 ra cur →
    ra.Le (assign mem is cur ra).2.2 ∧ (assign mem is cur ra).2.2.Ok n0 ∧
      Good n0 (assign mem is cur ra).2.2 (assign mem is cur ra).2.1 ∧
      Renamed mem (assign mem is cur ra).2.2.Ver cur is (assign mem is cur ra).2.1 (assign mem is cur ra).1 := by
  induction is with
  | nil => intro _ cur ra hok hg; exact ⟨.refl ra, hok, hg, .nil⟩
  | cons i is ih =>
    intro hd cur ra hok hg
    have ih := ih (fun j hj => hd j (List.mem_cons_of_mem _ hj))
    have hdi := hd i (List.mem_cons_self ..)
    simp only [assign]
    cases hdst : i.dst with
    | none =>
      simp only [assignDst]
      obtain ⟨h1, h2, h3, h4⟩ := ih cur ra hok hg
      refine ⟨h1, h2, h3, ?_⟩
      have := Renamed.keep (i := i) (by rw [hdst]; intro d hd; cases hd) h4
      rw [← hdst]; exact this
    | some d =>
      simp only [assignDst]
      by_cases hm : mem d = true
      · simp only [hm, if_true]
        obtain ⟨h1, h2, h3, h4⟩ := ih cur ra hok hg
        refine ⟨h1, h2, h3, ?_⟩
        have := Renamed.keep (i := i) (by rw [hdst]; intro d' hd'; cases hd'; exact hm) h4
        rw [← hdst]; exact this
      · have hm : mem d = false := by simpa using hm
        simp only [hm, Bool.false_eq_true, if_false]
        by_cases hu : ra.used d = true
        · simp only [hu, if_true]
          have hl := ra.le_fresh d
          obtain ⟨h1, h2, h3, h4⟩ := ih (cur.set d (ra.fresh d).1) (ra.fresh d).2 (hok.fresh (hdi d hdst))
            ((hg.mono hl).set (ra.ver_fresh d))
          exact ⟨hl.trans h1, h2, h3, .dst hdst hm (h1.ver (ra.ver_fresh d)) h4⟩
        · simp only [hu, Bool.false_eq_true, if_false]
          have hl := ra.le_use d
          obtain ⟨h1, h2, h3, h4⟩ := ih (cur.set d d) (ra.use d) (hok.use d) ((hg.mono hl).set ((hok.use d).self d (hdi d hdst)))
          exact ⟨hl.trans h1, h2, h3, .dst hdst hm (h1.ver ((hok.use d).self d (hdi d hdst))) h4⟩

/-- The versions at the end of the predecessor are found. -/
theorem handOver_spec {n0 : Nat} {mem : Nat → Bool} {ra : Ra} (hok : ra.Ok n0) (hm : ∀ r, n0 ≤ r → mem r = false) {cout : Cur}
    (hg : Good n0 ra cout) : ∀ (outs0 : List Nat), (∀ x ∈ outs0, x < n0) → ∀ cur, Good n0 ra cur →
    let cur' := (outs0.map (renReg mem cout)).foldl (fun cur v => if mem v then cur else cur.set (ra.of v) v) cur
    Good n0 ra cur' ∧ (∀ x, mem x = false → x ∈ outs0 ∨ cur x = cout x → cur' x = cout x) := by
  intro outs0
  induction outs0 with
  | nil => intro _ cur hc; exact ⟨hc, fun x _ h => h.elim (fun h => by cases h) id⟩
  | cons y ys ih =>
    intro hlow cur hc
    have hy := hlow y (List.mem_cons_self ..)
    have ih := ih (fun x hx => hlow x (List.mem_cons_of_mem _ hx))
    simp only [List.map_cons, List.foldl_cons]
    by_cases hmy : mem y = true
    · have : mem (renReg mem cout y) = true := by simp [renReg, hmy]
      simp only [this, if_true]
      obtain ⟨h1, h2⟩ := ih cur hc
      refine ⟨h1, fun x hx h => h2 x hx ?_⟩
      rcases h with h | h
      · rcases List.mem_cons.1 h with h | h
        · subst h; rw [hmy] at hx; cases hx
        · exact .inl h
      · exact .inr h
    · have hmy : mem y = false := by simpa using hmy
      have hr : renReg mem cout y = cout y := by simp [renReg, hmy]
      have hmv : mem (cout y) = false := ver_mem hok hm (hg y hy) hmy
      rw [hr]
      simp only [hmv, Bool.false_eq_true, if_false]
      rw [(hg y hy).2]
      obtain ⟨h1, h2⟩ := ih (cur.set y (cout y)) (hc.set (hg y hy))
      refine ⟨h1, fun x hx h => h2 x hx ?_⟩
      by_cases hxy : x = y
      · subst hxy; exact .inr (by simp [Cur.set])
      · rcases h with h | h
        · rcases List.mem_cons.1 h with h | h
          · exact absurd h hxy
          · exact .inl h
        · exact .inr (by simp [Cur.set, hxy, h])

/-- New versions at a merge. -/
theorem mergeIn_spec {n0 : Nat} {mem : Nat → Bool} : ∀ (vs : List Nat), (∀ v ∈ vs, v < n0) → vs.Nodup → ∀ (cur : Cur) (ra : Ra),
    ra.Ok n0 → Good n0 ra cur →
    ra.Le (mergeIn mem vs cur ra).2.2 ∧ (mergeIn mem vs cur ra).2.2.Ok n0 ∧
      Good n0 (mergeIn mem vs cur ra).2.2 (mergeIn mem vs cur ra).2.1 ∧
      (mergeIn mem vs cur ra).1 = vs.map (renReg mem (mergeIn mem vs cur ra).2.1) ∧
      (∀ x, x ∉ vs → (mergeIn mem vs cur ra).2.1 x = cur x) := by
  intro vs
  induction vs with
  | nil => intro _ _ cur ra hok hg; exact ⟨.refl ra, hok, hg, rfl, fun _ _ => rfl⟩
  | cons v vs ih =>
    intro hlow hnd cur ra hok hg
    obtain ⟨hv1, hnd⟩ := List.nodup_cons.1 hnd
    have hv := hlow v (List.mem_cons_self ..)
    have ih := ih (fun x hx => hlow x (List.mem_cons_of_mem _ hx)) hnd
    simp only [mergeIn]
    by_cases hm : mem v = true
    · simp only [hm, if_true]
      obtain ⟨h1, h2, h3, h4, h5⟩ := ih cur ra hok hg
      refine ⟨h1, h2, h3, ?_, fun x hx => h5 x (fun h => hx (List.mem_cons_of_mem _ h))⟩
      rw [List.map_cons, ← h4]
      simp [renReg, hm]
    · have hm : mem v = false := by simpa using hm
      simp only [hm, Bool.false_eq_true, if_false]
      have hof : ra.of v = v := (hok.self v hv).2
      rw [hof]
      have hl := ra.le_fresh v
      obtain ⟨h1, h2, h3, h4, h5⟩ := ih (cur.set v (ra.fresh v).1) (ra.fresh v).2 (hok.fresh hv) ((hg.mono hl).set (ra.ver_fresh v))
      refine ⟨hl.trans h1, h2, h3, ?_, ?_⟩
      · rw [List.map_cons, ← h4]
        simp only [renReg, hm, Bool.false_eq_true, if_false]
        rw [h5 v hv1]
        simp [Cur.set]
      · intro x hx
        rw [h5 x (fun h => hx (List.mem_cons_of_mem _ h))]
        have : x ≠ v := fun h => hx (h ▸ List.mem_cons_self ..)
        simp [Cur.set, this]

/-! ### The order of the blocks -/

/-- Every block but the first comes after one that leads to it, and none comes twice. -/
inductive Ordered (next : Nat → List Nat) : List Nat → List Nat → Prop
  | nil {done : List Nat} : Ordered next done []
  | cons {done : List Nat} {b : Nat} {bs : List Nat} : b ∉ done → (b = 0 ∨ ∃ q ∈ done, b ∈ next q) →
      Ordered next (b :: done) bs → Ordered next done (b :: bs)

theorem order_ordered {next frm : Nat → List Nat} (u stack : List Nat) : ∀ done : List Nat, u.Nodup → (∀ b ∈ u, b ∉ done) →
    (∀ b ∈ stack, b = 0 ∨ ∃ q ∈ done, b ∈ next q) → Ordered next done (order next frm u stack) := by
  induction u, stack using order.induct next frm with
  | case1 u => intro done _ _ _; rw [order]; exact .nil
  | case2 u b stack h ih =>
    intro done hnd hu hs
    rw [order, if_pos h]
    refine .cons (hu b h.1) (hs b (List.mem_cons_self ..)) (ih _ (hnd.erase _) ?_ ?_)
    · intro c hc
      have h1 := (List.Nodup.mem_erase_iff hnd).1 hc
      intro h2
      rcases List.mem_cons.1 h2 with h2 | h2
      · exact h1.1 h2
      · exact hu c h1.2 h2
    · intro c hc
      rcases List.mem_append.1 hc with hc | hc
      · exact .inr ⟨b, List.mem_cons_self .., List.mem_reverse.1 hc⟩
      · rcases hs c (List.mem_cons_of_mem _ hc) with h1 | ⟨q, h1, h2⟩
        · exact .inl h1
        · exact .inr ⟨q, List.mem_cons_of_mem _ h1, h2⟩
  | case3 u b stack h ih =>
    intro done hnd hu hs
    rw [order, if_neg h]
    exact ih done hnd hu (fun c hc => hs c (List.mem_cons_of_mem _ hc))

theorem order_complete {next frm : Nat → List Nat} {n : Nat} (hn : ∀ b c, c ∈ next b → c < n)
    (hf : ∀ b c, c ∈ next b → (Reach next b) → frm c ≠ []) (u stack : List Nat) : ∀ done : List Nat, u.Nodup →
    (∀ b, b < n → b ∈ u ∨ b ∈ done) → (∀ q ∈ done, Reach next q) → (∀ b ∈ stack, b < n ∧ Reach next b ∧ (b = 0 ∨ frm b ≠ [])) →
    (∀ q ∈ done, ∀ c ∈ next q, c ∈ done ∨ c ∈ stack) →
    (∀ c ∈ stack, c ∈ done ∨ c ∈ order next frm u stack) ∧
    (∀ q, q ∈ done ∨ q ∈ order next frm u stack → ∀ c ∈ next q, c ∈ done ∨ c ∈ order next frm u stack) := by
  induction u, stack using order.induct next frm with
  | case1 u =>
    intro done _ _ _ _ hc
    rw [order]
    refine ⟨fun c h => (by cases h), ?_⟩
    intro q hq c h
    rcases hq with hq | hq
    · rcases hc q hq c h with h1 | h1
      · exact .inl h1
      · cases h1
    · cases hq
  | case2 u b stack h ih =>
    intro done hnd hu hr hs hc
    rw [order, if_pos h]
    have hb := hs b (List.mem_cons_self ..)
    have hih := ih (b :: done) (hnd.erase _) ?_ ?_ ?_ ?_
    rotate_left
    · intro c hcn
      by_cases hcb : c = b
      · subst hcb; exact .inr (List.mem_cons_self ..)
      · rcases hu c hcn with h1 | h1
        · exact .inl ((List.Nodup.mem_erase_iff hnd).2 ⟨hcb, h1⟩)
        · exact .inr (List.mem_cons_of_mem _ h1)
    · intro q hq
      rcases List.mem_cons.1 hq with h1 | h1
      · subst h1; exact hb.2.1
      · exact hr q h1
    · intro c hc'
      rcases List.mem_append.1 hc' with h1 | h1
      · have h1 := List.mem_reverse.1 h1
        exact ⟨hn b c h1, hb.2.1.step h1, .inr (hf b c h1 hb.2.1)⟩
      · exact hs c (List.mem_cons_of_mem _ h1)
    · intro q hq c hcq
      rcases List.mem_cons.1 hq with h1 | h1
      · subst h1; exact .inr (List.mem_append_left _ (List.mem_reverse.2 hcq))
      · rcases hc q h1 c hcq with h2 | h2
        · exact .inl (List.mem_cons_of_mem _ h2)
        · rcases List.mem_cons.1 h2 with h2 | h2
          · subst h2; exact .inl (List.mem_cons_self ..)
          · exact .inr (List.mem_append_right _ h2)
    obtain ⟨i1, i2⟩ := hih
    constructor
    · intro c hc'
      rcases List.mem_cons.1 hc' with h1 | h1
      · subst h1; exact .inr (List.mem_cons_self ..)
      · rcases i1 c (List.mem_append_right _ h1) with h2 | h2
        · rcases List.mem_cons.1 h2 with h2 | h2
          · subst h2; exact .inr (List.mem_cons_self ..)
          · exact .inl h2
        · exact .inr (List.mem_cons_of_mem _ h2)
    · intro q hq c hcq
      have hq' : q ∈ b :: done ∨ q ∈ order next frm (u.erase b) ((next b).reverse ++ stack) := by
        rcases hq with hq | hq
        · exact .inl (List.mem_cons_of_mem _ hq)
        · rcases List.mem_cons.1 hq with hq | hq
          · subst hq; exact .inl (List.mem_cons_self ..)
          · exact .inr hq
      rcases i2 q hq' c hcq with h2 | h2
      · rcases List.mem_cons.1 h2 with h2 | h2
        · subst h2; exact .inr (List.mem_cons_self ..)
        · exact .inl h2
      · exact .inr (List.mem_cons_of_mem _ h2)
  | case3 u b stack h ih =>
    intro done hnd hu hr hs hc
    rw [order, if_neg h]
    have hb := hs b (List.mem_cons_self ..)
    have hbd : b ∈ done := by
      rcases hu b hb.1 with h1 | h1
      · refine absurd ⟨h1, ?_⟩ h
        rintro ⟨h2, h3⟩
        rcases hb.2.2 with h4 | h4
        · exact h3 h4
        · exact h4 (List.length_eq_zero_iff.1 h2)
      · exact h1
    obtain ⟨i1, i2⟩ := ih done hnd hu hr (fun c hc' => hs c (List.mem_cons_of_mem _ hc')) (fun q hq c hcq => by
      rcases hc q hq c hcq with h1 | h1
      · exact .inl h1
      · rcases List.mem_cons.1 h1 with h1 | h1
        · subst h1; exact .inl hbd
        · exact .inr h1)
    refine ⟨?_, i2⟩
    intro c hc'
    rcases List.mem_cons.1 hc' with h1 | h1
    · subst h1; exact .inl hbd
    · exact i1 c h1

/-- What the pass is given: a function whose first block is not jumped to, with the edges of C58 and without phi
functions, with registers below `n0`. -/
structure Input (mem : Nat → Bool) (n0 : Nat) (blocks : List (Block K V)) (frm : Nat → List Nat) : Prop where
  wf : WellFormed blocks
  ne : blocks ≠ []
  edges : Exact (succ blocks) frm
  start : frm 0 = []
  nophi : ∀ B ∈ blocks, B.phis = []
  low : ∀ B ∈ blocks, ∀ ir ∈ blockIrs B, ∀ r, ir.dst = some r ∨ ir.opr1 = some r ∨ ir.opr2 = some r → r < n0
  mem : ∀ r, n0 ≤ r → mem r = false

section
variable {mem : Nat → Bool} {n0 : Nat} {blocks : List (Block K V)} {frm : Nat → List Nat}

theorem Input.order (h : Input mem n0 blocks frm) :
    Ordered (succ blocks) [] (order (succ blocks) frm (List.range blocks.length) [0]) ∧
    ∀ b, Reach (succ blocks) b → b ∈ order (succ blocks) frm (List.range blocks.length) [0] := by
  have hn : 0 < blocks.length := List.length_pos_iff.2 h.ne
  constructor
  · apply order_ordered _ _ _ List.nodup_range (by simp)
    intro b hb
    exact .inl (List.mem_singleton.1 hb)
  · have hc := order_complete (frm := frm) h.wf (fun b c hc hr hf => by
      have := h.edges.mem.2 ⟨hr, hc⟩
      rw [hf] at this; cases this) (List.range blocks.length) [0] [] List.nodup_range
      (fun b hb => .inl (List.mem_range.2 hb)) (by simp)
      (fun b hb => by
        rw [List.mem_singleton] at hb
        subst hb; exact ⟨hn, .zero, .inl rfl⟩) (by simp)
    intro b hb
    induction hb with
    | zero =>
      rcases hc.1 0 (by simp) with h1 | h1
      · cases h1
      · exact h1
    | step _ hcn ih =>
      rcases hc.2 _ (.inr ih) _ hcn with h1 | h1
      · cases h1
      · exact h1

theorem Input.frm_lt (h : Input mem n0 blocks frm) : ∀ b, ∀ p ∈ frm b, p < blocks.length := by
  intro b p hp
  have h1 := (h.edges.mem.1 hp).2
  by_contra h2
  have : blocks[p]? = none := List.getElem?_eq_none (by omega)
  simp [succ, this] at h1

theorem Input.dom (h : Input mem n0 blocks frm) : ∀ b, blocks.length ≤ b → irsOf blocks b = [] ∧ frm b = [] := by
  intro b hb
  have hn : blocks[b]? = none := List.getElem?_eq_none hb
  refine ⟨by simp [irsOf, hn], ?_⟩
  cases hf : frm b with
  | nil => rfl
  | cons p ps =>
    have := h.wf _ _ (h.edges.mem.1 (show p ∈ frm b by rw [hf]; exact List.mem_cons_self ..)).2
    omega

theorem Input.live_low (h : Input mem n0 blocks frm) {x b : Nat} (hl : RegFlow.LiveIn (irsOf blocks) frm x b) : x < n0 := by
  induction hl with
  | use hu =>
    rename_i b
    obtain ⟨pre, ir, post, h1, h2, _⟩ := hu
    have hm : ir ∈ irsOf blocks b := by rw [h1]; simp
    unfold irsOf at hm
    split at hm
    · rename_i B hB
      exact h.low B (List.mem_of_getElem? hB) ir hm x (.inr h2)
    · cases hm
  | step _ _ _ ih => exact ih

theorem Input.dsts_low (h : Input mem n0 blocks frm) : ∀ b, DstsLow n0 (blocks.getD b emptyBlock).body := by
  intro b i hi d hdst
  cases hb : blocks[b]? with
  | none =>
    rw [List.getD_eq_getElem?_getD, hb] at hi
    simp [emptyBlock] at hi
  | some B =>
    rw [List.getD_eq_getElem?_getD, hb] at hi
    exact h.low B (List.mem_of_getElem? hb) (toIr i) (List.mem_append_left _ (List.mem_map_of_mem hi)) d (.inl hdst)

/-! ### The invariant of the traversal -/

/-- Every visited block is renamed consistently. -/
structure Done (mem : Nat → Bool) (n0 : Nat) (frm : Nat → List Nat) (code0 : Nat → Block K V) (ins0 outs0 : Nat → List Nat)
    (done : List Nat) (st : St K V) (cin cout : Nat → Cur) (b : Nat) : Prop where
  gin : Good n0 st.ra (cin b)
  gout : Good n0 st.ra (cout b)
  body : Renamed mem st.ra.Ver (cin b) (code0 b).body (cout b) (st.code b).body
  last : (st.code b).last = renLast mem (cout b) (code0 b).last
  outs : st.outs b = (outs0 b).map (renReg mem (cout b))
  ins : st.ins b = (ins0 b).map (renReg mem (cin b))
  start : frm b = [] → cin b = id
  single : ∀ p, frm b = [p] → p ∈ done ∧ ∀ x ∈ outs0 p, mem x = false → cin b x = cout p x

structure Inv (mem : Nat → Bool) (n0 : Nat) (frm : Nat → List Nat) (code0 : Nat → Block K V) (ins0 outs0 : Nat → List Nat)
    (done : List Nat) (st : St K V) (cin cout : Nat → Cur) : Prop where
  ok : st.ra.Ok n0
  rest : ∀ b, b ∉ done → st.code b = code0 b ∧ st.ins b = ins0 b ∧ st.outs b = outs0 b
  visited : ∀ b ∈ done, Done mem n0 frm code0 ins0 outs0 done st cin cout b

theorem visit_inv {code0 : Nat → Block K V} {ins0 outs0 : Nat → List Nat} {done : List Nat} {st : St K V} {cin cout : Nat → Cur}
    {b : Nat} (hm : ∀ r, n0 ≤ r → mem r = false) (hins : ∀ x ∈ ins0 b, x < n0) (hnd : (ins0 b).Nodup)
    (houts : ∀ p, ∀ x ∈ outs0 p, x < n0) (hd : DstsLow n0 (code0 b).body)
    (hinv : Inv mem n0 frm code0 ins0 outs0 done st cin cout) (hb : b ∉ done) (hp : ∀ p, frm b = [p] → p ∈ done) :
    ∃ cin' cout', Inv mem n0 frm code0 ins0 outs0 (b :: done) (visit mem frm st b) cin' cout' := by
  obtain ⟨hcode, hi, ho⟩ := hinv.rest b hb
  -- the versions at the start
  have hentry : st.ra.Le (entry mem (frm b) b st).2.2 ∧ (entry mem (frm b) b st).2.2.Ok n0 ∧
      Good n0 (entry mem (frm b) b st).2.2 (entry mem (frm b) b st).2.1 ∧
      (entry mem (frm b) b st).1 = (ins0 b).map (renReg mem (entry mem (frm b) b st).2.1) ∧
      (frm b = [] → (entry mem (frm b) b st).2.1 = id) ∧
      (∀ p, frm b = [p] → ∀ x ∈ outs0 p, mem x = false → (entry mem (frm b) b st).2.1 x = cout p x) := by
    have hid : Good n0 st.ra id := fun x hx => hinv.ok.self x hx
    clear hb
    generalize frm b = F at hp ⊢
    unfold entry
    split
    · refine ⟨.refl _, hinv.ok, hid, ?_, fun _ => rfl, fun p hp => by cases hp⟩
      rw [hi]
      conv => lhs; rw [← List.map_id (ins0 b)]
      apply List.map_congr_left
      intro x _
      simp [renReg]
    · rename_i p
      have hdone := hinv.visited p (hp p rfl)
      obtain ⟨h1, h2⟩ := handOver_spec (mem := mem) hinv.ok hm hdone.gout (outs0 p) (houts p) id hid
      rw [← hdone.outs] at h1 h2
      refine ⟨.refl _, hinv.ok, h1, by rw [hi], (fun h => by cases h), ?_⟩
      intro q hq x hx hmx
      cases hq
      exact h2 x hmx (.inl hx)
    · rename_i h1 h2
      rw [hi]
      obtain ⟨a1, a2, a3, a4, a5⟩ := mergeIn_spec (mem := mem) (ins0 b) hins hnd id st.ra hinv.ok hid
      exact ⟨a1, a2, a3, a4, fun h => absurd h (by assumption), fun p hp => absurd hp (by apply_assumption)⟩
  obtain ⟨e1, e2, e3, e4, e5, e6⟩ := hentry
  have ha := assign_spec (mem := mem) (code0 b).body hd _ _ e2 e3
  rw [← hcode] at ha
  obtain ⟨a1, a2, a3, a4⟩ := ha
  have hle : st.ra.Le (visit mem frm st b).ra := e1.trans a1
  have hne : ∀ c ∈ done, c ≠ b := fun c hc h => hb (h ▸ hc)
  refine ⟨upd cin b (entry mem (frm b) b st).2.1, upd cout b (assign mem (st.code b).body (entry mem (frm b) b st).2.1 (entry mem (frm b) b st).2.2).2.1, ?_, ?_, ?_⟩
  · exact a2
  · intro c hc
    have h1 : c ≠ b := fun h => hc (h ▸ List.mem_cons_self ..)
    have h2 := hinv.rest c (fun h => hc (List.mem_cons_of_mem _ h))
    simpa [visit, upd, h1] using h2
  · intro c hc
    by_cases hcb : c = b
    · subst hcb
      refine ⟨?_, ?_, ?_, ?_, ?_, ?_, ?_, ?_⟩
      · simp only [upd, if_true]; exact e3.mono a1
      · simp only [upd, if_true]; exact a3
      · simp only [upd, if_true, visit]; rw [hcode] at a4 ⊢; exact a4
      · simp only [upd, if_true, visit]; rw [hcode]
      · simp only [upd, if_true, visit]; rw [ho]
      · simp only [upd, if_true, visit]; exact e4
      · intro hf; simp only [upd, if_true]; exact e5 hf
      · intro p hf
        have hpd := hp p hf
        refine ⟨List.mem_cons_of_mem _ hpd, ?_⟩
        intro x hx hmx
        simp only [upd, if_true, if_neg (hne p hpd)]
        exact e6 p hf x hx hmx
    · have hcd : c ∈ done := (List.mem_cons.1 hc).resolve_left hcb
      have hD := hinv.visited c hcd
      refine ⟨?_, ?_, ?_, ?_, ?_, ?_, ?_, ?_⟩
      · simp only [upd, if_neg hcb]; exact hD.gin.mono hle
      · simp only [upd, if_neg hcb]; exact hD.gout.mono hle
      · simp only [upd, if_neg hcb, visit]; exact hD.body.mono (fun v x h => hle.ver h)
      · simp only [upd, if_neg hcb, visit]; exact hD.last
      · simp only [upd, if_neg hcb, visit]; exact hD.outs
      · simp only [upd, if_neg hcb, visit]; exact hD.ins
      · simp only [upd, if_neg hcb]; exact hD.start
      · intro p hf
        have hpd := (hD.single p hf).1
        refine ⟨List.mem_cons_of_mem _ hpd, ?_⟩
        simp only [upd, if_neg hcb, if_neg (hne p hpd)]
        exact (hD.single p hf).2

theorem fold_inv (h : Input mem n0 blocks frm) {code0 : Nat → Block K V} {ins0 outs0 : Nat → List Nat}
    (hins : ∀ b, ∀ x ∈ ins0 b, x < n0) (hnd : ∀ b, (ins0 b).Nodup) (houts : ∀ p, ∀ x ∈ outs0 p, x < n0)
    (hd : ∀ b, DstsLow n0 (code0 b).body) {bs done : List Nat} (ho : Ordered (succ blocks) done bs) :
    ∀ (st : St K V) (cin cout : Nat → Cur), (∀ q ∈ done, Reach (succ blocks) q) → Inv mem n0 frm code0 ins0 outs0 done st cin cout →
    ∃ cin' cout', Inv mem n0 frm code0 ins0 outs0 (bs.reverse ++ done) (bs.foldl (visit mem frm) st) cin' cout' := by
  induction ho with
  | nil => intro st cin cout _ hi; exact ⟨cin, cout, hi⟩
  | @cons done b bs hb hq _ ih =>
    intro st cin cout hr hi
    have hp : ∀ p, frm b = [p] → p ∈ done := by
      intro p hf
      rcases hq with hq | ⟨q, h1, h2⟩
      · subst hq; rw [h.start] at hf; cases hf
      · have := h.edges.mem.2 ⟨hr q h1, h2⟩
        rw [hf, List.mem_singleton] at this
        subst this; exact h1
    have hrb : Reach (succ blocks) b := by
      rcases hq with hq | ⟨q, h1, h2⟩
      · subst hq; exact .zero
      · exact (hr q h1).step h2
    obtain ⟨cin1, cout1, h1⟩ := visit_inv h.mem (hins b) (hnd b) houts (hd b) hi hb hp
    obtain ⟨cin2, cout2, h2⟩ := ih (visit mem frm st b) cin1 cout1 (by
      intro q hq'
      rcases List.mem_cons.1 hq' with h3 | h3
      · subst h3; exact hrb
      · exact hr q h3) h1
    refine ⟨cin2, cout2, ?_⟩
    simpa using h2

/-! ### The phi functions -/

theorem collect_spec {ra : Ra} (hok : ra.Ok n0) {cout : Cur} (hg : Good n0 ra cout) : ∀ (outs0 : List Nat), (∀ x ∈ outs0, x < n0) →
    ∀ (fv : Cur) (x : Nat), x ∈ outs0 ∨ fv x = renReg mem cout x →
    ((outs0.map (renReg mem cout)).foldl (fun fv o => fv.set (ra.of o) o) fv) x = renReg mem cout x := by
  intro outs0
  induction outs0 with
  | nil => intro _ fv x h; exact h.elim (fun h => by cases h) id
  | cons y ys ih =>
    intro hlow fv x h
    have hy := hlow y (List.mem_cons_self ..)
    have hof : ra.of (renReg mem cout y) = y := by
      unfold renReg
      split
      · exact (hok.self y hy).2
      · exact (hg y hy).2
    simp only [List.map_cons, List.foldl_cons, hof]
    apply ih (fun x hx => hlow x (List.mem_cons_of_mem _ hx))
    by_cases hxy : x = y
    · subst hxy; exact .inr (by simp [Cur.set])
    · rcases h with h | h
      · exact .inl ((List.mem_cons.1 h).resolve_left hxy)
      · exact .inr (by simp [Cur.set, hxy, h])

theorem rows_spec {ra : Ra} (hok : ra.Ok n0) {outs outs0 : Nat → List Nat} {cout : Nat → Cur} (hlow : ∀ p, ∀ x ∈ outs0 p, x < n0) :
    ∀ (ps : List Nat), (∀ p ∈ ps, Good n0 ra (cout p) ∧ outs p = (outs0 p).map (renReg mem (cout p))) → ∀ (fv : Cur) (k p : Nat),
    ps[k]? = some p → ∃ f, (rows ra.of outs ps fv).1[k]? = some f ∧ ∀ x ∈ outs0 p, f x = renReg mem (cout p) x := by
  intro ps
  induction ps with
  | nil => intro _ fv k p h; simp at h
  | cons q qs ih =>
    intro h fv k p hk
    simp only [rows]
    cases k with
    | zero =>
      simp only [List.getElem?_cons_zero, Option.some.injEq] at hk
      subst hk
      refine ⟨_, rfl, ?_⟩
      intro x hx
      obtain ⟨h1, h2⟩ := h q (List.mem_cons_self ..)
      rw [h2]
      exact collect_spec hok h1 (outs0 q) (hlow q) fv x (.inl hx)
    | succ k =>
      simp only [List.getElem?_cons_succ] at hk ⊢
      exact ih (fun p hp => h p (List.mem_cons_of_mem _ hp)) _ k p hk

theorem insertPhis_spec (of : Nat → Nat) (ins outs : Nat → List Nat) (b : Nat) : ∀ (bs : List Nat) (fv : Cur),
    ((frm b).length < 2 → insertPhis (V := V) mem frm of ins outs bs fv b = []) ∧
    (2 ≤ (frm b).length → b ∈ bs → ∃ fv', insertPhis (V := V) mem frm of ins outs bs fv b =
      ((ins b).filter (fun v => !mem v)).map fun v => ⟨v, (rows of outs (frm b) fv').1.map fun f => .reg (f (of v))⟩) := by
  intro bs
  induction bs with
  | nil => intro fv; exact ⟨fun _ => rfl, fun _ h => by cases h⟩
  | cons c cs ih =>
    intro fv
    simp only [insertPhis]
    by_cases hc : (frm c).length < 2
    · rw [if_pos hc]
      refine ⟨(ih fv).1, fun h1 h2 => (ih fv).2 h1 ?_⟩
      rcases List.mem_cons.1 h2 with h3 | h3
      · subst h3; omega
      · exact h3
    · rw [if_neg hc]
      by_cases hbc : b = c
      · subst hbc
        exact ⟨fun h => absurd h hc, fun _ _ => ⟨fv, by simp [upd]⟩⟩
      · simp only [upd, if_neg hbc]
        exact ⟨(ih _).1, fun h1 h2 => (ih _).2 h1 ((List.mem_cons.1 h2).resolve_left hbc)⟩

/-! ### Simulation -/

theorem rd_ren {M : Machine K V S} {ver : Nat → Nat → Prop} (hvm : ∀ v x, ver v x → mem x = false → mem v = false) {cur : Cur} {ρ ρ' : Env V} {s : S}
    (o : Opr V) (h : ∀ x, regOf o = some x → mem x = false → ver (cur x) x ∧ ρ' (cur x) = ρ x) :
    rd M mem ρ' s (renOpr mem cur o) = rd M mem ρ s o := by
  cases o with
  | const v => rfl
  | reg r =>
    simp only [renOpr, renReg, rd]
    cases hm : mem r with
    | true => simp [hm]
    | false =>
      obtain ⟨h1, h2⟩ := h r rfl hm
      simp [hvm _ _ h1 hm, h2]

theorem map_rd_ren {M : Machine K V S} {ver : Nat → Nat → Prop} (hvm : ∀ v x, ver v x → mem x = false → mem v = false) {cur : Cur} {ρ ρ' : Env V} {s : S}
    (o : Option (Opr V)) (h : ∀ x, o.bind regOf = some x → mem x = false → ver (cur x) x ∧ ρ' (cur x) = ρ x) :
    (o.map (renOpr mem cur)).map (rd M mem ρ' s) = o.map (rd M mem ρ s) := by
  cases o with
  | none => rfl
  | some o =>
    simp only [Option.map_some, Option.some.injEq]
    exact rd_ren hvm o h

theorem ubd_cons {i : Intervals.Ir} {is : List Intervals.Ir} {x : Nat} (h : RegFlow.UseBeforeDef is x) (hi : i.dst ≠ some x) :
    RegFlow.UseBeforeDef (i :: is) x := by
  obtain ⟨pre, ir, post, h1, h2, h3⟩ := h
  refine ⟨i :: pre, ir, post, by rw [h1]; rfl, h2, ?_⟩
  intro j hj
  rcases List.mem_cons.1 hj with h4 | h4
  · subst h4; exact hi
  · exact h3 j h4

theorem body_sim {M : Machine K V S} {ver : Nat → Nat → Prop} (hvm : ∀ v x, ver v x → mem x = false → mem v = false)
    (hfun : ∀ v x y, ver v x → ver v y → x = y) (tail : List Intervals.Ir) {cur cur' : Cur} {is is' : List (Ins K V)}
    (hr : Renamed mem ver cur is cur' is') : ∀ (G : Nat → Prop) (ρ ρ' : Env V) (s : S),
    (∀ x, mem x = false → G x → ver (cur x) x ∧ ρ' (cur x) = ρ x) →
    (∀ x, RegFlow.UseBeforeDef (is.map toIr ++ tail) x → G x) →
    match runBody M mem is ρ s with
    | .ok (ρ1, s1) => ∃ ρ1', runBody M mem is' ρ' s = .ok (ρ1', s1) ∧
        ∀ x, mem x = false → (G x ∨ RegFlow.Writes (is.map toIr) x) → ver (cur' x) x ∧ ρ1' (cur' x) = ρ1 x
    | .stop s1 => runBody M mem is' ρ' s = .stop s1
    | .undef => True := by
  induction hr with
  | nil =>
    intro G ρ ρ' s h _
    refine ⟨ρ', rfl, ?_⟩
    intro x hm hx
    rcases hx with hx | ⟨_, h1, _⟩
    · exact h x hm hx
    · cases h1
  | @keep cur cur' i is is' hd hr ih =>
    intro G ρ ρ' s h hu
    have huse : ∀ x, (toIr i).opr1 = some x ∨ (toIr i).opr2 = some x → G x := fun x hx =>
      hu x ⟨[], toIr i, _, rfl, hx, by simp⟩
    simp only [runBody]
    rw [map_rd_ren hvm i.o1 (fun x hx hm => h x hm (huse x (.inl hx))),
      map_rd_ren hvm i.o2 (fun x hx hm => h x hm (huse x (.inr hx)))]
    cases hx : M.exec i.kind (i.o1.map (rd M mem ρ s)) (i.o2.map (rd M mem ρ s)) s with
    | undef => trivial
    | stop s1 => rfl
    | ok a =>
      obtain ⟨v, s1⟩ := a
      dsimp only
      have hw : (wr M mem i.dst v ρ s1).1 = ρ ∧ (wr M mem i.dst v ρ' s1).1 = ρ' ∧ (wr M mem i.dst v ρ' s1).2 = (wr M mem i.dst v ρ s1).2 := by
        cases hdst : i.dst with
        | none => exact ⟨rfl, rfl, rfl⟩
        | some d => simp [wr, hd d hdst]
      rw [hw.1, hw.2.1, hw.2.2]
      have := ih (fun x => G x ∨ i.dst = some x) ρ ρ' (wr M mem i.dst v ρ s1).2 (fun x hm hx => by
        rcases hx with hx | hx
        · exact h x hm hx
        · rw [hd x hx] at hm; cases hm) (fun x hx => by
        by_cases hdx : i.dst = some x
        · exact .inr hdx
        · exact .inl (hu x (ubd_cons hx hdx)))
      revert this
      cases runBody M mem is ρ (wr M mem i.dst v ρ s1).2 with
      | undef => intro _; trivial
      | stop s2 => exact id
      | ok a =>
        obtain ⟨ρ2, s2⟩ := a
        rintro ⟨ρ2', h1, h2⟩
        refine ⟨ρ2', h1, ?_⟩
        intro x hm hx
        refine h2 x hm ?_
        rcases hx with hx | ⟨j, hj, hjx⟩
        · exact .inl (.inl hx)
        · rw [List.map_cons] at hj
          rcases List.mem_cons.1 hj with h3 | h3
          · subst h3; exact .inl (.inr hjx)
          · exact .inr ⟨j, h3, hjx⟩
  | @dst cur cur' i is is' d v hd hmd hv hr ih =>
    intro G ρ ρ' s h hu
    have huse : ∀ x, (toIr i).opr1 = some x ∨ (toIr i).opr2 = some x → G x := fun x hx =>
      hu x ⟨[], toIr i, _, rfl, hx, by simp⟩
    simp only [runBody]
    rw [map_rd_ren hvm i.o1 (fun x hx hm => h x hm (huse x (.inl hx))),
      map_rd_ren hvm i.o2 (fun x hx hm => h x hm (huse x (.inr hx)))]
    cases hx : M.exec i.kind (i.o1.map (rd M mem ρ s)) (i.o2.map (rd M mem ρ s)) s with
    | undef => trivial
    | stop s1 => rfl
    | ok a =>
      obtain ⟨w, s1⟩ := a
      dsimp only
      have hmv := hvm v d hv hmd
      simp only [wr, hd, hmd, hmv, Bool.false_eq_true, if_false]
      have := ih (fun x => G x ∨ i.dst = some x) (ρ.upd d w) (ρ'.upd v w) s1 (fun x hm hx => by
        by_cases hxd : x = d
        · subst hxd
          simp [Cur.set, Env.upd, hv]
        · have hG : G x := by
            rcases hx with hx | hx
            · exact hx
            · rw [hd] at hx; cases hx; exact absurd rfl hxd
          obtain ⟨h1, h2⟩ := h x hm hG
          have hne : cur x ≠ v := by
            intro he
            rw [he] at h1
            exact hxd (hfun v x d h1 hv)
          simp [Cur.set, hxd, Env.upd, hne, h1, h2]) (fun x hx => by
        by_cases hdx : i.dst = some x
        · exact .inr hdx
        · exact .inl (hu x (ubd_cons hx hdx)))
      revert this
      cases runBody M mem is (ρ.upd d w) s1 with
      | undef => intro _; trivial
      | stop s2 => exact id
      | ok a =>
        obtain ⟨ρ2, s2⟩ := a
        rintro ⟨ρ2', h1, h2⟩
        refine ⟨ρ2', h1, ?_⟩
        intro x hm hx
        refine h2 x hm ?_
        rcases hx with hx | ⟨j, hj, hjx⟩
        · exact .inl (.inl hx)
        · rw [List.map_cons] at hj
          rcases List.mem_cons.1 hj with h3 | h3
          · subst h3; exact .inl (.inr hjx)
          · exact .inr ⟨j, h3, hjx⟩

/-- A register read at the end was written in the block or is live at its start. -/
theorem last_live {is : List Intervals.Ir} {ir : Intervals.Ir} {x : Nat} (h : ir.opr1 = some x ∨ ir.opr2 = some x) :
    RegFlow.UseBeforeDef (is ++ [ir]) x ∨ RegFlow.Writes is x := by
  by_cases hw : RegFlow.Writes is x
  · exact .inr hw
  · refine .inl ⟨is, ir, [], rfl, h, ?_⟩
    intro i hi he
    exact hw ⟨i, hi, he⟩

theorem target_ren {M : Machine K V S} {ver : Nat → Nat → Prop} (hvm : ∀ v x, ver v x → mem x = false → mem v = false) {cur : Cur} {ρ ρ' : Env V} {s : S}
    (b : Nat) (l : Last K V) (is : List Intervals.Ir) {G : Nat → Prop} (hG : ∀ x, RegFlow.UseBeforeDef (is ++ lastIr l) x → G x)
    (h : ∀ x, mem x = false → (G x ∨ RegFlow.Writes is x) → ver (cur x) x ∧ ρ' (cur x) = ρ x) :
    target M mem b ρ' s (renLast mem cur l) = target M mem b ρ s l := by
  have hlive : ∀ ir, lastIr l = [ir] → ∀ x, ir.opr1 = some x ∨ ir.opr2 = some x → mem x = false → ver (cur x) x ∧ ρ' (cur x) = ρ x := by
    intro ir hl x hx hm
    apply h x hm
    rcases last_live (is := is) hx with h1 | h1
    · exact .inl (hG x (by rw [hl]; exact h1))
    · exact .inr h1
  cases l with
  | next => rfl
  | jmp c => rfl
  | cjmp k o1 o2 c =>
    simp only [renLast, target]
    rw [rd_ren hvm o1 (fun x hx hm => hlive _ rfl x (.inl hx) hm), rd_ren hvm o2 (fun x hx hm => hlive _ rfl x (.inr hx) hm)]
  | tjmp o bs =>
    simp only [renLast, target]
    rw [rd_ren hvm o (fun x hx hm => hlive _ rfl x (.inl hx) hm)]

theorem writes_last {is : List Intervals.Ir} {l : Last K V} {x : Nat} (h : RegFlow.Writes (is ++ lastIr l) x) : RegFlow.Writes is x := by
  obtain ⟨ir, h1, h2⟩ := h
  rcases List.mem_append.1 h1 with h1 | h1
  · exact ⟨ir, h1, h2⟩
  · cases l <;> simp [lastIr] at h1 <;> (subst h1; cases h2)

theorem Input.init (param : Nat → Bool) (fl : RegFlow.Flow) :
    Inv mem n0 frm (fun b => blocks.getD b emptyBlock) fl.ins fl.outs []
      { ra := ⟨List.range n0, fun x => param x || mem x⟩, code := fun b => blocks.getD b emptyBlock, ins := fl.ins, outs := fl.outs }
      (fun _ => id) (fun _ => id) :=
  ⟨⟨fun x hx => ⟨by simpa using hx, by simp [Ra.of, List.getD_eq_getElem?_getD, hx]⟩, fun v hv => by
    have hv : v < n0 := by simpa using hv
    simp [Ra.of, List.getD_eq_getElem?_getD, hv]⟩, fun b _ => ⟨rfl, rfl, rfl⟩, by simp⟩

/-- The state after the traversal, with the versions at the start and at the end of every reachable block. -/
theorem Input.transform (h : Input mem n0 blocks frm) (param : Nat → Bool) : ∃ fl cin cout,
    RegFlow.analyze (irsOf blocks) frm blocks.length (RegFlow.fuelFor frm blocks.length) = some fl ∧
    (∀ b v, v ∈ fl.ins b ↔ RegFlow.LiveIn (irsOf blocks) frm v b) ∧
    (∀ b v, v ∈ fl.outs b ↔ ∃ c, b ∈ frm c ∧ RegFlow.LiveIn (irsOf blocks) frm v c) ∧ (∀ b, (fl.ins b).Nodup) ∧
    (transform mem param n0 blocks frm fl).ra.Ok n0 ∧
    ∃ done, ∀ b, Reach (succ blocks) b →
      Done mem n0 frm (fun b => blocks.getD b emptyBlock) fl.ins fl.outs done (transform mem param n0 blocks frm fl) cin cout b := by
  obtain ⟨fl, h1, h2⟩ := RegFlow.analyze_ainv h.frm_lt h.dom
  obtain ⟨fl', h1', h3, h4⟩ := RegFlow.analyze_exact h.frm_lt h.dom
  rw [h1] at h1'
  cases h1'
  have hnd : ∀ b, (fl.ins b).Nodup := fun b => (h2.sorted b).1.imp (fun h => Nat.ne_of_lt h)
  have hd := h.dsts_low
  obtain ⟨ho, hc⟩ := h.order
  obtain ⟨cin, cout, hinv⟩ := fold_inv h (code0 := fun b => blocks.getD b emptyBlock) (ins0 := fl.ins) (outs0 := fl.outs)
    (fun b x hx => h.live_low ((h3 b x).1 hx)) hnd (fun p x hx => by
      obtain ⟨c, _, h6⟩ := (h4 p x).1 hx
      exact h.live_low h6) hd ho
    _ _ _ (by simp) (Input.init param fl)
  refine ⟨fl, cin, cout, h1, h3, h4, hnd, hinv.ok, _, fun b hb => hinv.visited b ?_⟩
  rw [List.append_nil, List.mem_reverse]
  exact hc b hb

/-- C60.  The translation succeeds, and the function it yields does what the given one does. -/
theorem makeSsa_refines (M : Machine K V S) (param : Nat → Bool) (h : Input mem n0 blocks frm) :
    ∃ blocks', makeSsa mem param n0 blocks frm = some blocks' ∧ Refines M mem ⟨blocks, frm⟩ ⟨blocks', frm⟩ := by
  obtain ⟨fl, cin, cout, hfl, hin, hout, hnd, hok, done, hD⟩ := h.transform param
  refine ⟨withPhis mem blocks.length frm (Ssa.transform mem param n0 blocks frm fl), by rw [makeSsa, hfl]; rfl, ?_⟩
  generalize Ssa.transform mem param n0 blocks frm fl = st at hok hD ⊢
  have hvm : ∀ v x, st.ra.Ver v x → mem x = false → mem v = false := fun v x hv hx => ver_mem hok h.mem hv hx
  have hfun : ∀ v x y, st.ra.Ver v x → st.ra.Ver v y → x = y := fun v x y h1 h2 => h1.2.symm.trans h2.2
  have houtlow : ∀ p, ∀ x ∈ fl.outs p, x < n0 := fun p x hx => by
    obtain ⟨c, _, h6⟩ := (hout p x).1 hx
    exact h.live_low h6
  apply refines_of (R := fun b p ρ ρ' _ => (b < blocks.length → Reach (succ blocks) b ∧ match p with
    | none => b = 0
    | some q => q ∈ frm b) ∧
    ∀ x, mem x = false → RegFlow.LiveIn (irsOf blocks) frm x b → ρ' (match p with
      | none => x
      | some q => cout q x) = ρ x)
  · rintro b p ρ ρ' s ⟨hr, hx⟩
    simp only [step, withPhis]
    by_cases hlt : b < blocks.length
    swap
    · have e1 : blocks[b]? = none := List.getElem?_eq_none (by omega)
      simp only [e1, List.getElem?_map, List.getElem?_range, hlt]
      rw [List.getElem?_eq_none (by simpa using hlt)]
      rfl
    obtain ⟨hreach, hp⟩ := hr hlt
    have hDb := hD b hreach
    obtain ⟨B, hB⟩ : ∃ B, blocks[b]? = some B := ⟨blocks[b], List.getElem?_eq_getElem hlt⟩
    have hBm : B ∈ blocks := List.mem_of_getElem? hB
    have hcode : blocks.getD b emptyBlock = B := by rw [List.getD_eq_getElem?_getD, hB]; rfl
    rw [hB, List.getElem?_map, List.getElem?_range hlt]
    simp only [Option.map_some]
    have hbody := hDb.body
    have hlast := hDb.last
    rw [hcode] at hbody hlast
    rw [hlast]
    -- entering the block
    have henter : enter M mem B.phis (frm b) p ρ s = ρ := by
      rw [h.nophi B hBm]
      unfold enter
      split
      · rfl
      · funext r; simp [phiIn]
    rw [henter]
    generalize hρ1 : enter M mem (insertPhis mem frm st.ra.of st.ins st.outs (List.range' 1 (blocks.length - 1)) (fun _ => 0) b) (frm b) p ρ' s = ρ1
    have hstart : ∀ x, mem x = false → RegFlow.LiveIn (irsOf blocks) frm x b → st.ra.Ver (cin b x) x ∧ ρ1 (cin b x) = ρ x := by
      intro x hm hl
      have hxlow := h.live_low hl
      refine ⟨hDb.gin x hxlow, ?_⟩
      rw [← hρ1]
      have hxx := hx x hm hl
      cases p with
      | none =>
        dsimp only at hp hxx
        subst hp
        simp only [enter]
        rw [hDb.start h.start]
        exact hxx
      | some q =>
        dsimp only at hp hxx
        simp only [enter]
        have hqr : Reach (succ blocks) q := (h.edges.mem.1 hp).1
        have hxo : x ∈ fl.outs q := (hout q x).2 ⟨b, hp, hl⟩
        by_cases hlen : (frm b).length < 2
        · rw [(insertPhis_spec st.ra.of st.ins st.outs b _ _).1 hlen]
          have hfq : frm b = [q] := by
            match hf : frm b, hlen, hp with
            | [q'], _, hp => rw [List.mem_singleton] at hp; rw [hp]
          simp only [phiIn, List.find?_nil]
          rw [(hDb.single q hfq).2 x hxo hm]
          exact hxx
        · have hb0 : b ≠ 0 := by
            intro hb0
            subst hb0
            rw [h.start] at hp; cases hp
          obtain ⟨fv, hphi⟩ := (insertPhis_spec (V := V) (mem := mem) (frm := frm) st.ra.of st.ins st.outs b (List.range' 1 (blocks.length - 1)) (fun _ => 0)).2
            (by omega) (by rw [List.mem_range'_1]; omega)
          rw [hphi]
          have hmem : cin b x ∈ (st.ins b).filter (fun v => !mem v) := by
            rw [List.mem_filter]
            constructor
            · rw [hDb.ins]
              refine List.mem_map.2 ⟨x, (hin b x).2 hl, by simp [renReg, hm]⟩
            · simp [hvm _ _ (hDb.gin x hxlow) hm]
          have hq : (frm b)[(frm b).idxOf q]? = some q := by
            rw [List.getElem?_eq_getElem (List.idxOf_lt_length_iff.2 hp)]
            simp
          obtain ⟨f, hf1, hf2⟩ := rows_spec (mem := mem) hok (outs := st.outs) (outs0 := fl.outs) (cout := cout) houtlow (frm b)
            (fun p' hp' => ⟨(hD p' (h.edges.mem.1 hp').1).gout, (hD p' (h.edges.mem.1 hp').1).outs⟩) fv _ q hq
          unfold phiIn
          split
          · rename_i φ hφ
            have h1 := List.find?_some hφ
            have h2 := List.mem_of_find?_eq_some hφ
            obtain ⟨v, _, rfl⟩ := List.mem_map.1 h2
            have hv : v = cin b x := by simpa using h1
            subst hv
            simp only [List.getElem?_map, hf1, Option.map_some]
            rw [(hDb.gin x hxlow).2, hf2 x hxo]
            have : mem (cout q x) = false := hvm _ _ ((hD q hqr).gout x hxlow) hm
            simp only [renReg, hm, Bool.false_eq_true, if_false, rd, this]
            exact hxx
          · rename_i hφ
            have := List.find?_eq_none.1 hφ _ (List.mem_map_of_mem hmem)
            simp at this
    have hirs : irsOf blocks b = B.body.map toIr ++ lastIr B.last := by simp only [irsOf, hB, blockIrs]
    have hsim := body_sim (M := M) hvm hfun (lastIr B.last) hbody (fun x => RegFlow.LiveIn (irsOf blocks) frm x b) ρ ρ1 s hstart
      (fun x hu => .use (by rw [hirs]; exact hu))
    revert hsim
    cases hrb : runBody M mem B.body ρ s with
    | undef => intro _; trivial
    | stop s1 => intro he; dsimp only at he; rw [he]; rfl
    | ok a =>
      obtain ⟨ρ2, s2⟩ := a
      rintro ⟨ρ2', he, h2⟩
      rw [he]
      dsimp only
      rw [target_ren hvm b B.last (B.body.map toIr) (G := fun x => RegFlow.LiveIn (irsOf blocks) frm x b) (fun x hu => .use (by rw [hirs]; exact hu)) h2]
      cases ht : target M mem b ρ2 s2 B.last with
      | none => trivial
      | some c =>
        refine ⟨rfl, rfl, rfl, ?_, ?_⟩
        · intro hc
          rcases target_reach hB hreach ht with h3 | h3
          · omega
          · exact ⟨h3.1, h.edges.mem.2 ⟨hreach, h3.2⟩⟩
        · intro x hm hl
          dsimp only
          apply (h2 x hm ?_).2
          have hbc : b ∈ frm c := by
            rcases target_reach hB hreach ht with h3 | h3
            · exfalso
              cases hl with
              | use hu =>
                rw [(h.dom c h3).1] at hu
                obtain ⟨pre, ir, post, h4, _⟩ := hu
                simp at h4
              | step h4 _ _ => have := h.frm_lt _ _ h4; omega
            · exact h.edges.mem.2 ⟨hreach, h3.2⟩
          by_cases hw : RegFlow.Writes (irsOf blocks b) x
          · rw [hirs] at hw
            exact .inr (writes_last hw)
          · exact .inl (.step hbc hw hl)
  · intro ρ s
    exact ⟨fun _ => ⟨.zero, rfl⟩, fun _ _ _ => rfl⟩

/-! ### Single assignment -/

/-- The registers a block assigns: the results of its phi functions and of its instructions. -/
def defsOf (B : Block K V) : List Nat := B.phis.map (·.dst) ++ B.body.filterMap (·.dst)

/-- No register (except those that live in memory) is assigned at two places of the function. -/
def SingleAssignment (mem : Nat → Bool) (blocks : List (Block K V)) : Prop :=
  ((blocks.flatMap defsOf).filter (fun r => !mem r)).Nodup

/-- The number `r` may not be assigned any more. -/
def Taken (n0 : Nat) (ra : Ra) (r : Nat) : Prop := r < ra.orig.length ∧ (n0 ≤ r ∨ ra.used r = true)

theorem taken_use {ra : Ra} {r : Nat} (x : Nat) (h : Taken n0 ra r) : Taken n0 (ra.use x) r := by
  refine ⟨h.1, h.2.imp id (fun h => ?_)⟩
  simp only [Ra.use]
  split <;> simp_all

theorem taken_fresh {ra : Ra} {r : Nat} (x : Nat) (h : Taken n0 ra r) : Taken n0 (ra.fresh x).2 r := by
  have h1 := taken_use x h
  refine ⟨?_, h1.2⟩
  have := h.1
  simp [Ra.fresh, Ra.use]
  omega

theorem Ra.Ok.len {ra : Ra} (h : ra.Ok n0) : n0 ≤ ra.orig.length := by
  by_contra hc
  have := (h.self ra.orig.length (by omega)).1
  omega

/-- The registers, in memory or not, assigned by instructions. -/
def nd (mem : Nat → Bool) (is : List (Ins K V)) : List Nat := (is.filterMap (·.dst)).filter (fun r => !mem r)

theorem assign_taken (hm : ∀ r, n0 ≤ r → mem r = false) (is : List (Ins K V)) : DstsLow n0 is → ∀ (cur : Cur) (ra : Ra), ra.Ok n0 →
    (∀ r, Taken n0 ra r → Taken n0 (assign mem is cur ra).2.2 r) ∧ (nd mem (assign mem is cur ra).1).Nodup ∧
    ∀ r ∈ nd mem (assign mem is cur ra).1, ¬ Taken n0 ra r ∧ Taken n0 (assign mem is cur ra).2.2 r := by
  induction is with
  | nil => intro _ cur ra _; exact ⟨fun r h => h, by simp [nd, assign], by simp [nd, assign]⟩
  | cons i is ih =>
    intro hd cur ra hok
    have ih := ih (fun j hj => hd j (List.mem_cons_of_mem _ hj))
    have hdi := hd i (List.mem_cons_self ..)
    -- a new register
    have hnew : ∀ (v : Nat) (cur' : Cur) (ra' : Ra), ra'.Ok n0 → (∀ r, Taken n0 ra r → Taken n0 ra' r) → ¬ Taken n0 ra v → Taken n0 ra' v →
        (∀ r, Taken n0 ra r → Taken n0 (assign mem is cur' ra').2.2 r) ∧
        ((v :: nd mem (assign mem is cur' ra').1)).Nodup ∧
        ∀ r ∈ v :: nd mem (assign mem is cur' ra').1, ¬ Taken n0 ra r ∧ Taken n0 (assign mem is cur' ra').2.2 r := by
      intro v cur' ra' hok' hle h1 h2
      obtain ⟨a1, a2, a3⟩ := ih cur' ra' hok'
      refine ⟨fun r hr => a1 r (hle r hr), List.nodup_cons.2 ⟨fun hv => (a3 v hv).1 h2, a2⟩, ?_⟩
      intro r hr
      rcases List.mem_cons.1 hr with h | h
      · subst h; exact ⟨h1, a1 r h2⟩
      · exact ⟨fun ht => (a3 r h).1 (hle r ht), (a3 r h).2⟩
    simp only [assign]
    cases hdst : i.dst with
    | none =>
      simp only [assignDst, nd, List.filterMap_cons]
      exact ih cur ra hok
    | some d =>
      simp only [assignDst]
      by_cases hmd : mem d = true
      · simp only [hmd, if_true, nd, List.filterMap_cons, List.filter_cons, Bool.not_true, Bool.false_eq_true, if_false]
        exact ih cur ra hok
      · have hmd : mem d = false := by simpa using hmd
        simp only [hmd, Bool.false_eq_true, if_false]
        have hlen := hok.len
        have hdlow := hdi d hdst
        by_cases hu : ra.used d = true
        · simp only [hu, if_true]
          have hmv : mem (ra.fresh d).1 = false := hm _ hlen
          simp only [nd, List.filterMap_cons, List.filter_cons, hmv, Bool.not_false, if_true]
          apply hnew (ra.fresh d).1 _ _ (hok.fresh hdlow) (fun r => taken_fresh d)
          · intro h; have := h.1; simp [Ra.fresh] at this
          · exact ⟨(ra.ver_fresh d).1, .inl hlen⟩
        · simp only [hu, Bool.false_eq_true, if_false]
          simp only [nd, List.filterMap_cons, List.filter_cons, hmd, Bool.not_false, if_true]
          apply hnew d _ _ (hok.use d) (fun r => taken_use d)
          · rintro ⟨_, h | h⟩
            · omega
            · exact hu h
          · exact ⟨by simp only [Ra.use]; omega, .inr (by simp [Ra.use])⟩

theorem mergeIn_taken (hm : ∀ r, n0 ≤ r → mem r = false) : ∀ (vs : List Nat), (∀ v ∈ vs, v < n0) → ∀ (cur : Cur) (ra : Ra), ra.Ok n0 →
    (∀ r, Taken n0 ra r → Taken n0 (mergeIn mem vs cur ra).2.2 r) ∧ ((mergeIn mem vs cur ra).1.filter (fun r => !mem r)).Nodup ∧
    ∀ r ∈ (mergeIn mem vs cur ra).1.filter (fun r => !mem r), ¬ Taken n0 ra r ∧ Taken n0 (mergeIn mem vs cur ra).2.2 r := by
  intro vs
  induction vs with
  | nil => intro _ cur ra _; exact ⟨fun r h => h, by simp [mergeIn], by simp [mergeIn]⟩
  | cons v vs ih =>
    intro hlow cur ra hok
    have hv := hlow v (List.mem_cons_self ..)
    have ih := ih (fun x hx => hlow x (List.mem_cons_of_mem _ hx))
    simp only [mergeIn]
    by_cases hmv : mem v = true
    · simp only [hmv, if_true, List.filter_cons, Bool.not_true, Bool.false_eq_true, if_false]
      exact ih cur ra hok
    · have hmv : mem v = false := by simpa using hmv
      have hof : ra.of v = v := (hok.self v hv).2
      have hmn : mem (ra.fresh v).1 = false := hm _ hok.len
      simp only [hmv, Bool.false_eq_true, if_false, hof, List.filter_cons, hmn, Bool.not_false, if_true]
      obtain ⟨a1, a2, a3⟩ := ih (cur.set v (ra.fresh v).1) (ra.fresh v).2 (hok.fresh hv)
      have h2 : Taken n0 (ra.fresh v).2 (ra.fresh v).1 := ⟨(ra.ver_fresh v).1, .inl hok.len⟩
      refine ⟨fun r hr => a1 r (taken_fresh v hr), List.nodup_cons.2 ⟨fun h => (a3 _ h).1 h2, a2⟩, ?_⟩
      intro r hr
      rcases List.mem_cons.1 hr with h | h
      · subst h
        exact ⟨fun h => by have := h.1; simp [Ra.fresh] at this, a1 _ h2⟩
      · exact ⟨fun ht => (a3 r h).1 (taken_fresh v ht), (a3 r h).2⟩

/-- The registers block `b` assigns, the phi functions included. -/
def newRegs (mem : Nat → Bool) (frm : Nat → List Nat) (st : St K V) (b : Nat) : List Nat :=
  (if (frm b).length < 2 then [] else (st.ins b).filter (fun r => !mem r)) ++ nd mem (st.code b).body

structure Single (mem : Nat → Bool) (n0 : Nat) (frm : Nat → List Nat) (ra0 : Ra) (done : List Nat) (st : St K V) : Prop where
  mono : ∀ r, Taken n0 ra0 r → Taken n0 st.ra r
  nodup : ∀ b ∈ done, (newRegs mem frm st b).Nodup
  disj : ∀ b ∈ done, ∀ c ∈ done, b ≠ c → ∀ r ∈ newRegs mem frm st b, r ∉ newRegs mem frm st c
  taken : ∀ b ∈ done, ∀ r ∈ newRegs mem frm st b, ¬ Taken n0 ra0 r ∧ Taken n0 st.ra r

theorem entry_taken {code0 : Nat → Block K V} {ins0 outs0 : Nat → List Nat} {done : List Nat} {st : St K V} {cin cout : Nat → Cur}
    {b : Nat} (hm : ∀ r, n0 ≤ r → mem r = false) (hins : ∀ x ∈ ins0 b, x < n0) (hnd : (ins0 b).Nodup)
    (hinv : Inv mem n0 frm code0 ins0 outs0 done st cin cout) (hb : b ∉ done) :
    (entry mem (frm b) b st).2.2.Ok n0 ∧ (∀ r, Taken n0 st.ra r → Taken n0 (entry mem (frm b) b st).2.2 r) ∧
    (if (frm b).length < 2 then [] else (entry mem (frm b) b st).1.filter (fun r => !mem r)).Nodup ∧
    ∀ r ∈ (if (frm b).length < 2 then [] else (entry mem (frm b) b st).1.filter (fun r => !mem r)),
      ¬ Taken n0 st.ra r ∧ Taken n0 (entry mem (frm b) b st).2.2 r := by
  have hi := (hinv.rest b hb).2.1
  generalize frm b = F
  unfold entry
  split
  · exact ⟨hinv.ok, fun _ h => h, by simp, by simp⟩
  · exact ⟨hinv.ok, fun _ h => h, by simp, by simp⟩
  · rename_i h1 h2
    have hlen : ¬ F.length < 2 := by
      match F, h1, h2 with
      | [], h1, _ => exact absurd rfl h1
      | [p], _, h2 => exact absurd rfl (h2 p)
      | _ :: _ :: _, _, _ => simp
    rw [if_neg hlen, hi]
    have hid : Good n0 st.ra id := fun x hx => hinv.ok.self x hx
    obtain ⟨a1, a2, a3⟩ := mergeIn_taken hm (ins0 b) hins id st.ra hinv.ok
    exact ⟨(mergeIn_spec (mem := mem) (ins0 b) hins hnd id st.ra hinv.ok hid).2.1, a1, a2, a3⟩

theorem visit_single {code0 : Nat → Block K V} {ins0 outs0 : Nat → List Nat} {done : List Nat} {st : St K V} {cin cout : Nat → Cur}
    {b : Nat} {ra0 : Ra} (hm : ∀ r, n0 ≤ r → mem r = false) (hins : ∀ x ∈ ins0 b, x < n0) (hnd : (ins0 b).Nodup) (hd : DstsLow n0 (code0 b).body)
    (hinv : Inv mem n0 frm code0 ins0 outs0 done st cin cout) (hb : b ∉ done) (hs : Single mem n0 frm ra0 done st) :
    Single mem n0 frm ra0 (b :: done) (visit mem frm st b) := by
  obtain ⟨e0, e1, e2, e3⟩ := entry_taken hm hins hnd hinv hb
  have hcode := (hinv.rest b hb).1
  obtain ⟨a1, a2, a3⟩ := assign_taken hm (st.code b).body (by rw [hcode]; exact hd) (entry mem (frm b) b st).2.1 _ e0
  have hnew : newRegs mem frm (visit mem frm st b) b =
      (if (frm b).length < 2 then [] else (entry mem (frm b) b st).1.filter (fun r => !mem r)) ++
        nd mem (assign mem (st.code b).body (entry mem (frm b) b st).2.1 (entry mem (frm b) b st).2.2).1 := by
    simp [newRegs, visit, upd]
  have hold : ∀ c, c ≠ b → newRegs mem frm (visit mem frm st b) c = newRegs mem frm st c := by
    intro c hc
    simp [newRegs, visit, upd, hc]
  have hmono : ∀ r, Taken n0 st.ra r → Taken n0 (visit mem frm st b).ra r := fun r h => a1 r (e1 r h)
  have hb1 : ∀ r ∈ newRegs mem frm (visit mem frm st b) b, ¬ Taken n0 st.ra r ∧ Taken n0 (visit mem frm st b).ra r := by
    intro r hr
    rw [hnew] at hr
    rcases List.mem_append.1 hr with h | h
    · exact ⟨(e3 r h).1, a1 r (e3 r h).2⟩
    · exact ⟨fun ht => (a3 r h).1 (e1 r ht), (a3 r h).2⟩
  have hb2 : (newRegs mem frm (visit mem frm st b) b).Nodup := by
    rw [hnew]
    refine List.nodup_append.2 ⟨e2, a2, ?_⟩
    intro r h1 r' h2 he
    subst he
    exact (a3 r h2).1 (e3 r h1).2
  have hne : ∀ c ∈ done, c ≠ b := fun c hc h => hb (h ▸ hc)
  refine ⟨fun r h => hmono r (hs.mono r h), ?_, ?_, ?_⟩
  · intro c hc
    rcases List.mem_cons.1 hc with h | h
    · subst h; exact hb2
    · rw [hold c (hne c h)]; exact hs.nodup c h
  · intro c hc c' hc' hcc r hr hr'
    rcases List.mem_cons.1 hc with h | h <;> rcases List.mem_cons.1 hc' with h' | h'
    · exact hcc (h.trans h'.symm)
    · subst h
      rw [hold c' (hne c' h')] at hr'
      exact (hb1 r hr).1 (hs.taken c' h' r hr').2
    · subst h'
      rw [hold c (hne c h)] at hr
      exact (hb1 r hr').1 (hs.taken c h r hr).2
    · rw [hold c (hne c h)] at hr
      rw [hold c' (hne c' h')] at hr'
      exact hs.disj c h c' h' hcc r hr hr'
  · intro c hc r hr
    rcases List.mem_cons.1 hc with h | h
    · subst h; exact ⟨fun ht => (hb1 r hr).1 (hs.mono r ht), (hb1 r hr).2⟩
    · rw [hold c (hne c h)] at hr
      exact ⟨(hs.taken c h r hr).1, hmono r (hs.taken c h r hr).2⟩

theorem fold_single (h : Input mem n0 blocks frm) {code0 : Nat → Block K V} {ins0 outs0 : Nat → List Nat} {ra0 : Ra}
    (hins : ∀ b, ∀ x ∈ ins0 b, x < n0) (hnd : ∀ b, (ins0 b).Nodup) (houts : ∀ p, ∀ x ∈ outs0 p, x < n0)
    (hd : ∀ b, DstsLow n0 (code0 b).body) {bs done : List Nat} (ho : Ordered (succ blocks) done bs) :
    ∀ (st : St K V) (cin cout : Nat → Cur), (∀ q ∈ done, Reach (succ blocks) q) → Inv mem n0 frm code0 ins0 outs0 done st cin cout →
    Single mem n0 frm ra0 done st →
    Single mem n0 frm ra0 (bs.reverse ++ done) (bs.foldl (visit mem frm) st) := by
  induction ho with
  | nil => intro st cin cout _ _ hs; exact hs
  | @cons done b bs hb hq _ ih =>
    intro st cin cout hr hi hs
    have hp : ∀ p, frm b = [p] → p ∈ done := by
      intro p hf
      rcases hq with hq | ⟨q, h1, h2⟩
      · subst hq; rw [h.start] at hf; cases hf
      · have := h.edges.mem.2 ⟨hr q h1, h2⟩
        rw [hf, List.mem_singleton] at this
        subst this; exact h1
    have hrb : Reach (succ blocks) b := by
      rcases hq with hq | ⟨q, h1, h2⟩
      · subst hq; exact .zero
      · exact (hr q h1).step h2
    obtain ⟨cin1, cout1, h1⟩ := visit_inv h.mem (hins b) (hnd b) houts (hd b) hi hb hp
    have h2 := ih (visit mem frm st b) cin1 cout1 (by
      intro q hq'
      rcases List.mem_cons.1 hq' with h3 | h3
      · subst h3; exact hrb
      · exact hr q h3) h1 (visit_single h.mem (hins b) (hnd b) (hd b) hi hb hs)
    simpa using h2

/-- C60.  In the result no register is assigned twice, and a parameter is not assigned at all. -/
theorem makeSsa_single (param : Nat → Bool) (h : Input mem n0 blocks frm)
    (hclear : ∀ b, ¬ Reach (succ blocks) b → ∀ B, blocks[b]? = some B → B.body = []) :
    ∃ blocks', makeSsa mem param n0 blocks frm = some blocks' ∧ SingleAssignment mem blocks' ∧
      ∀ B ∈ blocks', ∀ x ∈ defsOf B, mem x = false → x < n0 → param x = false := by
  obtain ⟨fl, h1, h2⟩ := RegFlow.analyze_ainv h.frm_lt h.dom
  obtain ⟨fl', h1', h3, h4⟩ := RegFlow.analyze_exact h.frm_lt h.dom
  rw [h1] at h1'
  cases h1'
  have hnd : ∀ b, (fl.ins b).Nodup := fun b => (h2.sorted b).1.imp (fun h => Nat.ne_of_lt h)
  obtain ⟨ho, hc⟩ := h.order
  have hinit := Input.init (mem := mem) (n0 := n0) (blocks := blocks) (frm := frm) param fl
  have hlow1 : ∀ b, ∀ x ∈ fl.ins b, x < n0 := fun b x hx => h.live_low ((h3 b x).1 hx)
  have hlow2 : ∀ p, ∀ x ∈ fl.outs p, x < n0 := fun p x hx => by
    obtain ⟨c, _, h6⟩ := (h4 p x).1 hx
    exact h.live_low h6
  have hs := fold_single (ra0 := ⟨List.range n0, fun x => param x || mem x⟩) h hlow1 hnd hlow2 h.dsts_low ho _ _ _ (by simp) hinit
    ⟨fun _ h => h, by simp, by simp, by simp⟩
  obtain ⟨cin, cout, hinv⟩ := fold_inv h hlow1 hnd hlow2 h.dsts_low ho _ _ _ (by simp) hinit
  refine ⟨withPhis mem blocks.length frm (Ssa.transform mem param n0 blocks frm fl), by rw [makeSsa, h1]; rfl, ?_⟩
  have hst : (order (succ blocks) frm (List.range blocks.length) [0]).foldl (visit mem frm)
    { ra := ⟨List.range n0, fun x => param x || mem x⟩, code := fun b => blocks.getD b emptyBlock, ins := fl.ins, outs := fl.outs } =
    Ssa.transform mem param n0 blocks frm fl := rfl
  rw [hst] at hs hinv
  generalize Ssa.transform mem param n0 blocks frm fl = st at hs hinv ⊢
  generalize hdone : (order (succ blocks) frm (List.range blocks.length) [0]).reverse ++ [] = done at hs hinv
  have hreach : ∀ b, Reach (succ blocks) b → b ∈ done := fun b hb => by
    rw [← hdone, List.append_nil, List.mem_reverse]; exact hc b hb
  -- what a block assigns
  have hdefs : ∀ b, b < blocks.length → ((defsOf { st.code b with
      phis := insertPhis mem frm st.ra.of st.ins st.outs (List.range' 1 (blocks.length - 1)) (fun _ => 0) b }).filter (fun r => !mem r)) =
      if b ∈ done then newRegs mem frm st b else [] := by
    intro b hb
    have hphi : (insertPhis (V := V) mem frm st.ra.of st.ins st.outs (List.range' 1 (blocks.length - 1)) (fun _ => 0) b).map (·.dst) =
        if (frm b).length < 2 then [] else (st.ins b).filter (fun r => !mem r) := by
      by_cases hlen : (frm b).length < 2
      · rw [(insertPhis_spec st.ra.of st.ins st.outs b _ _).1 hlen, if_pos hlen]; rfl
      · have hb0 : b ≠ 0 := by
          intro hb0
          subst hb0
          rw [h.start] at hlen; simp at hlen
        obtain ⟨fv, hphi⟩ := (insertPhis_spec (V := V) (mem := mem) (frm := frm) st.ra.of st.ins st.outs b (List.range' 1 (blocks.length - 1)) (fun _ => 0)).2
          (by omega) (by rw [List.mem_range'_1]; omega)
        rw [hphi, if_neg hlen, List.map_map]
        conv => rhs; rw [← List.map_id ((st.ins b).filter _)]
        rfl
    simp only [defsOf, List.filter_append, hphi]
    by_cases hbd : b ∈ done
    · rw [if_pos hbd]
      simp only [newRegs, nd]
      congr 1
      split
      · rfl
      · rw [List.filter_filter]; simp
    · rw [if_neg hbd]
      have hnr : ¬ Reach (succ blocks) b := fun hr => hbd (hreach b hr)
      have hfb : frm b = [] := by
        cases hf : frm b with
        | nil => rfl
        | cons p ps =>
          have := h.edges.mem.1 (show p ∈ frm b by rw [hf]; exact List.mem_cons_self ..)
          exact absurd (this.1.step this.2) hnr
      have hbody : (st.code b).body = [] := by
        rw [(hinv.rest b hbd).1]
        have hB : blocks[b]? = some blocks[b] := List.getElem?_eq_getElem hb
        rw [List.getD_eq_getElem?_getD, hB]
        exact hclear b hnr _ hB
      simp [hfb, hbody]
  constructor
  · unfold SingleAssignment
    rw [List.filter_flatMap]
    rw [withPhis, List.flatMap_map]
    rw [List.nodup_flatMap]
    constructor
    · intro b hb
      simp only [Function.comp_apply]
      rw [hdefs b (List.mem_range.1 hb)]
      split
      · rename_i hbd; exact hs.nodup b hbd
      · exact List.nodup_nil
    · apply List.Pairwise.imp_of_mem (R := fun a b => a ≠ b) ?_ List.nodup_range
      intro b c hb hc' hbc r hr hr'
      simp only [Function.comp_apply] at hr hr'
      rw [hdefs b (List.mem_range.1 hb)] at hr
      rw [hdefs c (List.mem_range.1 hc')] at hr'
      split at hr
      · rename_i hbd
        split at hr'
        · rename_i hcd
          exact hs.disj b hbd c hcd hbc r hr hr'
        · cases hr'
      · cases hr
  · intro B hB x hx hmx hxlow
    simp only [withPhis] at hB
    obtain ⟨b, hb, rfl⟩ := List.mem_map.1 hB
    have hx' : x ∈ (defsOf { st.code b with
      phis := insertPhis mem frm st.ra.of st.ins st.outs (List.range' 1 (blocks.length - 1)) (fun _ => 0) b }).filter (fun r => !mem r) :=
      List.mem_filter.2 ⟨hx, by simp [hmx]⟩
    rw [hdefs b (List.mem_range.1 hb)] at hx'
    split at hx'
    · rename_i hbd
      have := (hs.taken b hbd x hx').1
      cases hp : param x with
      | false => rfl
      | true => exact absurd ⟨by simpa using hxlow, .inr (by simp [hp])⟩ this
    · cases hx'

end

/-! ### Example: a loop that counts -/

/-- `i = 0; while (i ? 9) i = i + 1; return i;` with `i` in register 0, and register 1 that lives in memory. -/
def counting : List (Block Unit Nat) :=
  [⟨[], [⟨(), some 0, some (.const 0), none⟩], .next⟩,
   ⟨[], [], .cjmp () (.reg 0) (.const 9) 3⟩,
   ⟨[], [⟨(), some 0, some (.reg 0), some (.const 1)⟩, ⟨(), some 1, some (.reg 0), some (.reg 1)⟩], .jmp 1⟩,
   ⟨[], [⟨(), none, some (.reg 0), none⟩], .next⟩]

theorem counting_frm : fromBbs counting = fun b => if b = 1 then [0, 2] else if b = 2 then [1] else if b = 3 then [1] else [] := by
  funext b
  by_cases h1 : b = 1
  · subst h1; simp [fromBbs, counting, detect, succ, succs, addEdges, List.range, List.range.loop, List.erase]
  · by_cases h2 : b = 2
    · subst h2; simp [fromBbs, counting, detect, succ, succs, addEdges, List.range, List.range.loop, List.erase]
    · by_cases h3 : b = 3
      · subst h3; simp [fromBbs, counting, detect, succ, succs, addEdges, List.range, List.range.loop, List.erase]
      · simp [fromBbs, counting, detect, succ, succs, addEdges, List.range, List.range.loop, List.erase, h1, h2, h3]

theorem counting_order : order (succ counting) (fromBbs counting) (List.range counting.length) [0] = [0, 1, 2, 3] := by
  rw [counting_frm]
  simp [counting, order, succ, succs, List.range, List.range.loop, List.erase]

/-- Liveness of the loop. -/
def countingFlow : RegFlow.Flow :=
  { ins := fun b => if b = 1 ∨ b = 3 then [0, 1] else if b = 2 then [0, 1] else if b = 0 then [1] else []
    outs := fun b => if b < 3 then [0, 1] else [] }

example : withPhis (fun r => r == 1) counting.length (fromBbs counting)
    (transform (fun r => r == 1) (fun _ => false) 2 counting (fromBbs counting) countingFlow) =
    [⟨[], [⟨(), some 0, some (.const 0), none⟩], .next⟩,
     ⟨[⟨2, [.reg 0, .reg 3]⟩], [], .cjmp () (.reg 2) (.const 9) 3⟩,
     ⟨[], [⟨(), some 3, some (.reg 2), some (.const 1)⟩, ⟨(), some 1, some (.reg 3), some (.reg 1)⟩], .jmp 1⟩,
     ⟨[], [⟨(), none, some (.reg 2), none⟩], .next⟩] := by
  rw [transform, counting_order, counting_frm]
  decide +kernel

theorem counting_wf : WellFormed counting := by
  intro b c
  have : b = 0 ∨ b = 1 ∨ b = 2 ∨ b = 3 ∨ 4 ≤ b := by omega
  rcases this with h | h | h | h | h
  · subst h; simp [succ, succs, counting]; omega
  · subst h; simp [succ, succs, counting]; omega
  · subst h; simp [succ, succs, counting]; omega
  · subst h; simp [succ, succs, counting]
  · have : counting[b]? = none := List.getElem?_eq_none (by simpa [counting] using h)
    simp [succ, this]

example : Input (fun r => r == 1) 2 counting (fromBbs counting) :=
  ⟨counting_wf, by simp [counting], fromBbs_exact counting_wf (by simp [counting]), by rw [counting_frm]; rfl, by decide, by
    intro B hB ir hir r hr
    simp only [counting, List.mem_cons, List.not_mem_nil, or_false] at hB
    rcases hB with rfl | rfl | rfl | rfl <;> simp [blockIrs, lastIr, toIr, regOf] at hir <;>
      (try rcases hir with rfl | rfl) <;> (try subst hir) <;> simp at hr <;> omega, by
    intro r hr
    simp; omega⟩

example : ∀ b, ¬ Reach (succ counting) b → ∀ B, counting[b]? = some B → B.body = [] := by
  intro b hb B hB
  exfalso
  apply hb
  have h0 : Reach (succ counting) 0 := .zero
  have h1 : Reach (succ counting) 1 := h0.step (by simp [succ, succs, counting])
  have h2 : Reach (succ counting) 2 := h1.step (by simp [succ, succs, counting])
  have h3 : Reach (succ counting) 3 := h1.step (by simp [succ, succs, counting])
  have : b < 4 := (List.getElem?_eq_some_iff.1 hB).1
  have : b = 0 ∨ b = 1 ∨ b = 2 ∨ b = 3 := by omega
  rcases this with rfl | rfl | rfl | rfl <;> assumption

end Verif.Ssa

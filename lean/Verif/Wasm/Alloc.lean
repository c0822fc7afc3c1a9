import Verif.Util.Align
import Mathlib.Tactic.Common
import Mathlib.Tactic.Ring
/-!
# Locals and frames of WebAssembly functions (C74)

Model of `allocate_local_variables` (src/wcc/gen_wasm.c:1506-1640), and what it guarantees: parameters and variables get
different locals, of the type declared for them, and objects in the frame do not overlap.
`ALIGN` is `alignUp`, which it equals for powers of two (`Verif.Align.alignMacro_eq`); 32-bit overflow of the frame is excluded
where it matters.
-/
namespace Verif.WasmAlloc
open Verif.Align

/-- src/cc/frontend/var.h `VarInfo` with local storage, as far as it matters here.  `id` is the number of the variable, none for the base
pointer; `wt` is `WT_I32 - to_wtype` (0 to 3: i32, i64,
f32, f64); `agg` is `is_stack_param` (traverse.c:22-24: a struct, union or array); `par` is the index of the parameter
(gen_wasm.c:1534-1538), if it is one. -/
structure Decl where
  id : Option Nat
  wt : Nat
  agg : Bool
  refTaken : Bool
  size : Nat
  align : Nat
  par : Option Nat
deriving DecidableEq, Repr

/-- The variables of the scopes: those of the first scope and those of the others, function declarations left out.  `retParam`: the
function returns a struct; `modified`: FF_STACK_MODIFIED. -/
structure Vars where
  top : List Decl
  rest : List Decl
  retParam : Bool
  variadic : Bool
  modified : Bool

/-- gen_wasm.c:1545-1546, :1617-1618 (`if (size < 1) size = 1`). -/
def Decl.room (d : Decl) : Nat := if d.size < 1 then 1 else d.size

/-- gen_wasm.c:1543. -/
def Decl.inFrame1 (d : Decl) : Bool := d.refTaken || (d.agg && d.par.isNone)

/-- gen_wasm.c:1543-1547. -/
def frame1 (ds : List Decl) : Nat :=
  ds.foldl (fun n d => if d.inFrame1 then alignUp n d.align + d.room else n) 0

/-- gen_wasm.c:1548-1555: whether it is counted as a local of type `w`. -/
def Decl.counts (w : Nat) (d : Decl) : Bool := !d.inFrame1 && !d.agg && d.par.isNone && d.wt == w

/-- gen_wasm.c:1539-1540. -/
def pparams (ds : List Decl) : Nat := (ds.filter fun d => d.par.isSome && !d.agg).length

/-- `param_count`, gen_wasm.c:1509. -/
def paramCount (ds : List Decl) : Nat := (ds.filter fun d => d.par.isSome).length

/-- gen_wasm.c:1560. -/
def hasBp (v : Vars) : Bool :=
  0 < frame1 (v.top ++ v.rest) || paramCount (v.top ++ v.rest) ≠ pparams (v.top ++ v.rest) || v.modified

/-- gen_wasm.c:1561: `frame_size`. -/
def frameSize (v : Vars) : Nat := if hasBp v then alignUp (frame1 (v.top ++ v.rest)) 8 else frame1 (v.top ++ v.rest)

/-- gen_wasm.c:1563-1568: the variable of the base pointer. -/
def bpDecl : Decl := ⟨none, 0, false, false, 4, 4, none⟩

/-- All variables, in the order of the scopes. -/
def all (v : Vars) : List Decl := v.top ++ (if hasBp v then [bpDecl] else []) ++ v.rest

/-- `local_counts`. -/
def count (v : Vars) (w : Nat) : Nat := ((all v).filter (Decl.counts w)).length

/-- gen_wasm.c:1584-1587: `local_indices` before the second pass. -/
def base (v : Vars) : Nat → Nat
  | 0 => (if v.retParam then 1 else 0) + (if v.variadic then 1 else 0) + pparams (v.top ++ v.rest)
  | w + 1 => base v w + count v w

/-- Where a variable is: in a local, in the frame (offset from the base pointer), or passed on the stack (offset from the base
pointer). -/
inductive Place where
  | reg (i : Nat)
  | frame (o : Int)
  | sparam (o : Nat)
deriving DecidableEq, Repr

/-- The state of the second pass: `frame_offset`, `local_indices`, `param_no`, `sparam_offset`. -/
structure Pass where
  fo : Nat
  li : Nat → Nat
  pno : Nat
  so : Nat

/-- gen_wasm.c:1612-1613. -/
def Decl.inFrame2 (d : Decl) : Bool := (!d.agg && d.refTaken) || (d.agg && d.par.isNone)

/-- gen_wasm.c:1612-1632: where the variable is put. -/
def Decl.place (fs : Nat) (p : Pass) (d : Decl) : Place :=
  if d.inFrame2 then .frame ((alignUp p.fo d.align : Nat) - (fs : Int))
  else if !d.agg then
    match d.par with
    | none => .reg (p.li d.wt)
    | some _ => .reg p.pno
  else .sparam (alignUp p.so d.align)

/-- gen_wasm.c:1612-1634: the state afterwards. -/
def Decl.next (p : Pass) (d : Decl) : Pass :=
  let p :=
    if d.inFrame2 then { p with fo := alignUp p.fo d.align + d.room }
    else if !d.agg then
      match d.par with
      | none => { p with li := fun w => if w = d.wt then p.li w + 1 else p.li w }
      | some _ => p
    else { p with so := alignUp p.so d.align + d.size }
  if d.par.isSome && !d.agg then { p with pno := p.pno + 1 } else p

/-- gen_wasm.c:1592-1636: the second pass. -/
def pass2 (fs : Nat) : Pass → List Decl → List (Decl × Place)
  | _, [] => []
  | p, d :: ds => (d, d.place fs p) :: pass2 fs (d.next p) ds

def start (v : Vars) : Pass := ⟨0, base v, if v.retParam then 1 else 0, 0⟩

/-- gen_wasm.c:1506-1640. -/
def alloc (v : Vars) : List (Decl × Place) := pass2 (frameSize v) (start v) (all v)

/-- gen_wasm.c:1571-1583: the types of the locals that are declared, one after the other. -/
def declared (v : Vars) : List Nat := (List.range 4).flatMap fun w => List.replicate (count v w) w

/-- Of the `n` local numbers, those of the parameters: the result's address, the primitive parameters, the variadic one. -/
def firstLocal (v : Vars) : Nat := base v 0

/-! ## Well-formed input -/

structure Wf (v : Vars) : Prop where
  wt : ∀ d ∈ all v, d.wt < 4
  align : ∀ d ∈ all v, 0 < d.align
  /-- only the first scope has parameters -/
  par : ∀ d ∈ v.rest, d.par = none

/-! ## The second pass, step by step -/

theorem room_pos (d : Decl) : 0 < d.room := by
  unfold Decl.room; split <;> omega

theorem size_le_room (d : Decl) : d.size ≤ d.room := by
  unfold Decl.room; split <;> omega

/-- The state of the second pass after some variables. -/
def after (p : Pass) (ds : List Decl) : Pass := ds.foldl (fun p d => d.next p) p

theorem pass2_append (fs : Nat) : ∀ (p : Pass) (a b : List Decl), pass2 fs p (a ++ b) = pass2 fs p a ++ pass2 fs (after p a) b
  | p, [], b => rfl
  | p, d :: a, b => by
    simp only [List.cons_append, pass2, after, List.foldl_cons]
    rw [pass2_append fs (d.next p) a b]
    rfl

theorem pass2_fst (fs : Nat) : ∀ (p : Pass) (ds : List Decl), (pass2 fs p ds).map (·.1) = ds
  | _, [] => rfl
  | p, d :: ds => by simp only [pass2, List.map_cons, pass2_fst fs (d.next p) ds]

theorem after_append (p : Pass) (a b : List Decl) : after p (a ++ b) = after (after p a) b := by
  simp [after]

theorem next_fo (p : Pass) (d : Decl) : (d.next p).fo = if d.inFrame2 then alignUp p.fo d.align + d.room else p.fo := by
  unfold Decl.next
  split <;> rename_i h1 <;> split <;> rename_i h2 <;> simp_all
  all_goals first | (cases d.par <;> rfl) | rfl | skip
  all_goals (split <;> simp_all)

theorem next_li (p : Pass) (d : Decl) (w : Nat) :
    (d.next p).li w = if !d.inFrame2 && !d.agg && d.par.isNone && d.wt == w then p.li w + 1 else p.li w := by
  unfold Decl.next
  cases h1 : d.inFrame2 <;> cases h2 : d.agg <;> cases h3 : d.par <;> simp
  by_cases h : w = d.wt
  · subst h; simp
  · have : ¬ d.wt = w := fun q => h q.symm
    simp [h, this]

theorem next_pno (p : Pass) (d : Decl) : (d.next p).pno = if d.par.isSome && !d.agg then p.pno + 1 else p.pno := by
  unfold Decl.next
  cases h1 : d.inFrame2 <;> cases h2 : d.agg <;> cases h3 : d.par <;> simp

theorem counts_iff (w : Nat) (d : Decl) : Decl.counts w d = (!d.inFrame2 && !d.agg && d.par.isNone && d.wt == w) := by
  unfold Decl.counts Decl.inFrame1 Decl.inFrame2
  cases d.refTaken <;> cases d.agg <;> cases d.par <;> simp

theorem after_li (w : Nat) : ∀ (ds : List Decl) (p : Pass), (after p ds).li w = p.li w + (ds.filter (Decl.counts w)).length
  | [], p => by simp [after]
  | d :: ds, p => by
    have ih := after_li w ds (d.next p)
    simp only [after, List.foldl_cons] at ih ⊢
    rw [ih, next_li, ← counts_iff]
    cases h : Decl.counts w d <;> simp [h]
    omega

theorem after_pno : ∀ (ds : List Decl) (p : Pass), (after p ds).pno = p.pno + pparams ds
  | [], p => by simp [after, pparams]
  | d :: ds, p => by
    have ih := after_pno ds (d.next p)
    simp only [after, List.foldl_cons] at ih ⊢
    rw [ih, next_pno]
    unfold pparams
    cases h : (d.par.isSome && !d.agg) <;> simp [List.filter_cons, h]
    omega

theorem alignUp_mono {x y : Nat} (a : Nat) (h : x ≤ y) : alignUp x a ≤ alignUp y a := by
  unfold alignUp
  exact Nat.mul_le_mul_right a (Nat.div_le_div_right (by omega))

theorem fo_mono (ds : List Decl) : ∀ (p : Pass), (∀ d ∈ ds, 0 < d.align) → p.fo ≤ (after p ds).fo := by
  induction ds with
  | nil => intro p _; exact le_refl _
  | cons d ds ih =>
    intro p h
    have h1 := ih (d.next p) (fun x hx => h x (List.mem_cons_of_mem _ hx))
    have h2 : p.fo ≤ (d.next p).fo := by
      rw [next_fo]
      split
      · exact le_trans (le_alignUp _ _ (h d List.mem_cons_self)) (Nat.le_add_right _ _)
      · exact le_refl _
    exact le_trans h2 h1

theorem fo_le_frame1 : ∀ (ds : List Decl) (p : Pass) (n : Nat), (∀ d ∈ ds, 0 < d.align) → p.fo ≤ n →
    (after p ds).fo ≤ ds.foldl (fun n d => if d.inFrame1 then alignUp n d.align + d.room else n) n
  | [], p, n, _, h => h
  | d :: ds, p, n, ha, h => by
    simp only [after, List.foldl_cons]
    refine fo_le_frame1 ds (d.next p) _ (fun x hx => ha x (List.mem_cons_of_mem _ hx)) ?_
    rw [next_fo]
    have h2 : d.inFrame2 = true → d.inFrame1 = true := by
      unfold Decl.inFrame1 Decl.inFrame2
      cases d.refTaken <;> cases d.agg <;> cases d.par <;> simp
    by_cases q : d.inFrame2 = true
    · rw [if_pos q, if_pos (h2 q)]
      exact Nat.add_le_add_right (alignUp_mono _ h) _
    · rw [if_neg q]
      split
      · exact le_trans h (le_trans (le_alignUp _ _ (ha d List.mem_cons_self)) (Nat.le_add_right _ _))
      · exact h

theorem frame1_all (v : Vars) : frame1 (all v) = frame1 (v.top ++ v.rest) := by
  unfold all
  by_cases h : hasBp v = true
  · simp only [h, if_true, frame1, List.foldl_append, List.foldl_cons, List.foldl_nil]
    simp [Decl.inFrame1, bpDecl]
  · simp only [h, List.append_nil]; simp

theorem fo_le_size (v : Vars) (hw : Wf v) : (after (start v) (all v)).fo ≤ frameSize v := by
  have h := fo_le_frame1 (all v) (start v) 0 hw.align (le_refl _)
  have e : frame1 (all v) ≤ frameSize v := by
    rw [frame1_all]
    unfold frameSize
    split
    · exact le_alignUp _ _ (by omega)
    · exact le_refl _
  exact le_trans h e

/-! ## What is guaranteed -/

/-- The offsets of a place in a frame. -/
def Covers (q : Decl × Place) (o : Int) : Prop :=
  match q.2 with
  | .frame b => b ≤ o ∧ o < b + q.1.room
  | _ => False

theorem covers_range {fs : Nat} : ∀ (ds : List Decl) (p : Pass), (∀ d ∈ ds, 0 < d.align) → ∀ q ∈ pass2 fs p ds, ∀ o, Covers q o →
    (p.fo : Int) - fs ≤ o ∧ o < (after p ds).fo - (fs : Int)
  | [], p, _, q, hq, o, ho => by simp [pass2] at hq
  | d :: ds, p, ha, q, hq, o, ho => by
    have ha' : ∀ x ∈ ds, 0 < x.align := fun x hx => ha x (List.mem_cons_of_mem _ hx)
    have hm := fo_mono ds (d.next p) ha'
    have e : (after p (d :: ds)) = after (d.next p) ds := rfl
    have hle := le_alignUp p.fo d.align (ha d List.mem_cons_self)
    rw [e]
    simp only [pass2, List.mem_cons] at hq
    rcases hq with rfl | hq
    · simp only [Covers, Decl.place] at ho
      by_cases h : d.inFrame2 = true
      · rw [if_pos h] at ho
        have hn := next_fo p d
        rw [if_pos h] at hn
        simp only at ho
        omega
      · rw [if_neg h] at ho
        split at ho <;> rename_i hh <;> split at hh <;> simp_all
        all_goals (split at hh <;> simp_all)
    · have h1 := covers_range ds (d.next p) ha' q hq o ho
      have hn := next_fo p d
      split at hn <;> omega

/-- No two objects share a byte. -/
theorem covers_disjoint {fs : Nat} : ∀ (ds : List Decl) (p : Pass), (∀ d ∈ ds, 0 < d.align) →
    (pass2 fs p ds).Pairwise fun q q' => ∀ o, Covers q o → ¬Covers q' o
  | [], p, _ => List.Pairwise.nil
  | d :: ds, p, ha => by
    have ha' : ∀ x ∈ ds, 0 < x.align := fun x hx => ha x (List.mem_cons_of_mem _ hx)
    simp only [pass2, List.pairwise_cons]
    refine ⟨fun q hq o h1 h2 => ?_, covers_disjoint ds (d.next p) ha'⟩
    have h3 := covers_range ds (d.next p) ha' q hq o h2
    have h4 := covers_range (fs := fs) [d] p (fun x hx => ha x (by simp at hx; simp [hx])) (d, d.place fs p) (by simp [pass2]) o h1
    have e : after p [d] = d.next p := rfl
    rw [e] at h4
    omega

/-- C74: the objects in the frame lie between the stack pointer and the base pointer and do not overlap; each is aligned if the base
pointer is. -/
theorem frame_disjoint (v : Vars) (hw : Wf v) :
    (∀ q ∈ alloc v, ∀ o, Covers q o → -(frameSize v : Int) ≤ o ∧ o < 0) ∧
    (alloc v).Pairwise (fun q q' => ∀ o, Covers q o → ¬Covers q' o) := by
  refine ⟨fun q hq o ho => ?_, covers_disjoint _ _ hw.align⟩
  have h := covers_range (all v) (start v) hw.align q hq o ho
  have h2 := fo_le_size v hw
  have h3 : (start v).fo = 0 := rfl
  rw [h3] at h
  omega

theorem place_frame {fs : Nat} {p : Pass} {d : Decl} {o : Int} (h : d.place fs p = .frame o) :
    o = (alignUp p.fo d.align : Nat) - (fs : Int) := by
  unfold Decl.place at h
  split at h
  · simpa using h.symm
  · split at h
    · split at h <;> cases h
    · cases h

/-- C74: objects with alignment up to eight are aligned. -/
theorem frame_aligned (v : Vars) : ∀ q ∈ alloc v, q.1.align ∣ 8 → ∀ o, q.2 = .frame o → (q.1.align : Int) ∣ o := by
  intro q hq h8 o ho
  have key : ∀ (ds : List Decl) (p : Pass), q ∈ pass2 (frameSize v) p ds → ∃ k : Nat, o = (alignUp k q.1.align : Nat) - (frameSize v : Int) := by
    intro ds
    induction ds with
    | nil => intro p h; simp [pass2] at h
    | cons d ds ih =>
      intro p h
      simp only [pass2, List.mem_cons] at h
      rcases h with rfl | h
      · exact ⟨_, place_frame ho⟩
      · exact ih _ h
  obtain ⟨k, hk⟩ := key _ _ hq
  rw [hk]
  refine Int.dvd_sub (Int.natCast_dvd_natCast.2 (dvd_alignUp _ _)) (Int.natCast_dvd_natCast.2 ?_)
  unfold frameSize
  split
  · exact dvd_trans h8 (dvd_alignUp _ _)
  · rename_i hb
    simp [hasBp] at hb
    simp [hb.1.1]

/-! ## Locals -/

/-- The locals of the second pass: numbers of parameters in order, others counted by type. -/
theorem reg_range {fs : Nat} : ∀ (ds : List Decl) (p : Pass), ∀ q ∈ pass2 fs p ds, ∀ i, q.2 = .reg i →
    (q.1.par = none → p.li q.1.wt ≤ i ∧ i < (after p ds).li q.1.wt) ∧ (q.1.par ≠ none → p.pno ≤ i ∧ i < (after p ds).pno)
  | [], p, q, hq, i, hi => by simp [pass2] at hq
  | d :: ds, p, q, hq, i, hi => by
    have e : after p (d :: ds) = after (d.next p) ds := rfl
    have m1 : ∀ w, (d.next p).li w ≤ (after (d.next p) ds).li w := fun w => by rw [after_li]; omega
    have m2 : (d.next p).pno ≤ (after (d.next p) ds).pno := by rw [after_pno]; omega
    rw [e]
    simp only [pass2, List.mem_cons] at hq
    rcases hq with rfl | hq
    · dsimp only at hi ⊢
      unfold Decl.place at hi
      split at hi
      · cases hi
      · rename_i h1
        split at hi
        · rename_i h2
          have h1 : d.inFrame2 = false := by simpa using h1
          have h2 : d.agg = false := by simpa using h2
          cases hp : d.par with
          | none =>
            rw [hp] at hi
            simp only [Place.reg.injEq] at hi
            have hl := next_li p d d.wt
            simp only [h1, h2, hp, Bool.not_false, Bool.and_self, Option.isNone_none, beq_self_eq_true, if_true] at hl
            refine ⟨fun _ => ?_, fun q => absurd rfl q⟩
            have := m1 d.wt
            omega
          | some k =>
            rw [hp] at hi
            simp only [Place.reg.injEq] at hi
            have hl := next_pno p d
            simp only [h2, hp, Option.isSome_some, Bool.not_false, Bool.and_self, if_true] at hl
            refine ⟨(fun q => nomatch q), fun _ => ?_⟩
            omega
        · cases hi
    · obtain ⟨a, b⟩ := reg_range ds (d.next p) q hq i hi
      constructor
      · intro hn
        have := a hn
        have hl := next_li p d q.1.wt
        split at hl <;> omega
      · intro hn
        have := b hn
        have hl := next_pno p d
        split at hl <;> omega

/-- Two variables in locals are in different ones, given that ranges of different kinds are apart. -/
theorem reg_apart {fs : Nat} : ∀ (ds : List Decl) (p : Pass),
    (pass2 fs p ds).Pairwise fun q q' => ∀ i, q.2 = .reg i → q'.2 = .reg i →
      (q.1.par = none ∧ q'.1.par = none ∧ q.1.wt = q'.1.wt ∨ q.1.par ≠ none ∧ q'.1.par ≠ none) → False
  | [], p => List.Pairwise.nil
  | d :: ds, p => by
    simp only [pass2, List.pairwise_cons]
    refine ⟨fun q hq i h1 h2 h3 => ?_, reg_apart ds (d.next p)⟩
    have a := reg_range ds (d.next p) q hq i h2
    have b := reg_range (fs := fs) [d] p (d, d.place fs p) (by simp [pass2]) i h1
    have e : after p [d] = d.next p := rfl
    rw [e] at b
    dsimp only at b h3
    rcases h3 with ⟨h3, h4, h5⟩ | ⟨h3, h4⟩
    · have a := a.1 h4
      have b := b.1 h3
      rw [← h5] at a
      omega
    · have a := a.2 h4
      have b := b.2 h3
      omega

theorem pparams_all (v : Vars) : pparams (all v) = pparams (v.top ++ v.rest) := by
  unfold all
  by_cases h : hasBp v = true
  · simp only [h, if_true, pparams, List.filter_append]
    simp [bpDecl]
  · simp only [h, List.append_nil]; simp

theorem base_mono (v : Vars) {a b : Nat} (h : a ≤ b) : base v a ≤ base v b := by
  induction b with
  | zero => rw [Nat.le_zero.1 h]
  | succ b ih =>
    rcases Nat.lt_or_ge a (b + 1) with q | q
    · exact le_trans (ih (by omega)) (Nat.le_add_right _ _)
    · rw [show a = b + 1 by omega]

/-- The numbers of the locals: parameters first, then the types one after the other. -/
theorem alloc_range (v : Vars) : ∀ q ∈ alloc v, ∀ i, q.2 = .reg i →
    (q.1.par = none → base v q.1.wt ≤ i ∧ i < base v (q.1.wt + 1)) ∧
    (q.1.par ≠ none → (if v.retParam then 1 else 0) ≤ i ∧ i < (if v.retParam then 1 else 0) + pparams (v.top ++ v.rest)) := by
  intro q hq i hi
  have h := reg_range (all v) (start v) q hq i hi
  constructor
  · intro hn
    have h := h.1 hn
    rw [after_li] at h
    exact h
  · intro hn
    have h := h.2 hn
    rw [after_pno, pparams_all] at h
    exact h

/-- C74: no two variables share a local, and none is in the place of a hidden parameter (address of the result, variadic arguments). -/
theorem locals_distinct (v : Vars) :
    (alloc v).Pairwise (fun q q' => ∀ i, q.2 = .reg i → q'.2 ≠ .reg i) ∧
    ∀ q ∈ alloc v, ∀ i, q.2 = .reg i →
      (v.retParam = true → i ≠ 0) ∧ (v.variadic = true → i ≠ (if v.retParam then 1 else 0) + pparams (v.top ++ v.rest)) := by
  constructor
  · refine (reg_apart (fs := frameSize v) (all v) (start v)).imp_of_mem ?_
    intro q q' hq hq' h i h1 h2
    have a := alloc_range v q hq i h1
    have b := alloc_range v q' hq' i h2
    refine h i h1 h2 ?_
    have hb : base v 0 = (if v.retParam then 1 else 0) + (if v.variadic then 1 else 0) + pparams (v.top ++ v.rest) := rfl
    by_cases p1 : q.1.par = none <;> by_cases p2 : q'.1.par = none
    · refine .inl ⟨p1, p2, ?_⟩
      have a := a.1 p1
      have b := b.1 p2
      rcases Nat.lt_trichotomy q.1.wt q'.1.wt with t | t | t
      · have := base_mono v (show q.1.wt + 1 ≤ q'.1.wt from t); omega
      · exact t
      · have := base_mono v (show q'.1.wt + 1 ≤ q.1.wt from t); omega
    · exfalso
      have a := a.1 p1
      have b := b.2 p2
      have := base_mono v (Nat.zero_le q.1.wt)
      omega
    · exfalso
      have a := a.2 p1
      have b := b.1 p2
      have := base_mono v (Nat.zero_le q'.1.wt)
      omega
    · exact .inr ⟨p1, p2⟩
  · intro q hq i hi
    have a := alloc_range v q hq i hi
    have hb : base v 0 = (if v.retParam then 1 else 0) + (if v.variadic then 1 else 0) + pparams (v.top ++ v.rest) := rfl
    constructor
    · intro hr
      rw [hr] at a hb
      by_cases p : q.1.par = none
      · have a := a.1 p
        have := base_mono v (Nat.zero_le q.1.wt)
        simp only [if_true] at hb
        omega
      · have a := a.2 p
        simp only [if_true] at a
        omega
    · intro hr
      rw [hr] at hb
      by_cases p : q.1.par = none
      · have a := a.1 p
        have := base_mono v (Nat.zero_le q.1.wt)
        simp only [if_true] at hb
        omega
      · have a := a.2 p
        omega

theorem declared_get (v : Vars) (w k : Nat) (hw : w < 4) (hk : k < count v w) :
    (declared v)[base v w - base v 0 + k]? = some w := by
  unfold declared
  have hr : List.range 4 = [0, 1, 2, 3] := rfl
  rw [hr]
  simp only [List.flatMap_cons, List.flatMap_nil, List.append_nil]
  have e1 : base v 1 = base v 0 + count v 0 := rfl
  have e2 : base v 2 = base v 1 + count v 1 := rfl
  have e3 : base v 3 = base v 2 + count v 2 := rfl
  have hc : w = 0 ∨ w = 1 ∨ w = 2 ∨ w = 3 := by omega
  rcases hc with rfl | rfl | rfl | rfl
  · rw [List.getElem?_append_left (by simp only [List.length_replicate]; omega)]
    rw [List.getElem?_replicate, if_pos (by omega)]
  · rw [List.getElem?_append_right (by simp only [List.length_replicate]; omega), List.getElem?_append_left (by simp only [List.length_replicate]; omega)]
    simp only [List.length_replicate]
    rw [List.getElem?_replicate, if_pos (by omega)]
  · rw [List.getElem?_append_right (by simp only [List.length_replicate]; omega), List.getElem?_append_right (by simp only [List.length_replicate]; omega), List.getElem?_append_left (by simp only [List.length_replicate]; omega)]
    simp only [List.length_replicate]
    rw [List.getElem?_replicate, if_pos (by omega)]
  · rw [List.getElem?_append_right (by simp only [List.length_replicate]; omega), List.getElem?_append_right (by simp only [List.length_replicate]; omega), List.getElem?_append_right (by simp only [List.length_replicate]; omega)]
    simp only [List.length_replicate]
    rw [List.getElem?_replicate, if_pos (by omega)]

/-- C74: a variable that is not a parameter is in a local declared with its type. -/
theorem locals_typed (v : Vars) (hw : Wf v) : ∀ q ∈ alloc v, q.1.par = none → ∀ i, q.2 = .reg i →
    firstLocal v ≤ i ∧ (declared v)[i - firstLocal v]? = some q.1.wt := by
  intro q hq hp i hi
  have h := (alloc_range v q hq i hi).1 hp
  have hm : q.1 ∈ all v := by
    have := List.mem_map_of_mem (f := (·.1)) hq
    unfold alloc at this
    rwa [pass2_fst] at this
  have h0 := base_mono v (Nat.zero_le q.1.wt)
  have e : base v (q.1.wt + 1) = base v q.1.wt + count v q.1.wt := rfl
  refine ⟨by unfold firstLocal; omega, ?_⟩
  have := declared_get v q.1.wt (i - base v q.1.wt) (hw.wt _ hm) (by omega)
  rw [show base v q.1.wt - base v 0 + (i - base v q.1.wt) = i - firstLocal v by unfold firstLocal; omega] at this
  exact this

end Verif.WasmAlloc

import Verif.Util.Wrap
import Mathlib.Tactic.Tauto
import Mathlib.Data.List.Basic
/-!
# Dispatch of `switch` statements (C31)

Model of `compare_cases`, `gen_switch_cond_table_jump`, `gen_switch_cond_recur` and `gen_switch_cond`
(src/cc/backend/codegen.c:387-497) and of the label conversion in `parse_case`
(src/cc/frontend/parser.c:372-389).

The generated branches are a `Code` tree; `run` executes it on the controlling value, a machine word of `s`
bytes that is signed or unsigned.  A value is represented as the compiler's 64-bit cell: as itself, except
that unsigned 64-bit values of 2^63 and more are represented by their negative bit pattern.
-/
namespace Verif.Switch
open Verif.Util

/-! ## Model -/

/-- A case: the label's cell and the number of its basic block. -/
abbrev Case := Int × Nat

/-- The branches `gen_switch_cond_recur` emits. -/
inductive Code
  | jmp (target : Nat)
  /-- compare for equality and jump, otherwise go on -/
  | ifeq (c : Int) (target : Nat) (rest : Code)
  /-- compare for greater: left if not, right if so -/
  | ifgt (c : Int) (left right : Code)
  /-- subtract, check against the last index, jump through a table -/
  | table (min last : Int) (skip : Nat) (tbl : List Nat)
deriving Repr

/-- The value of a cell as an unsigned word of `s` bytes. -/
def word (s : Nat) (x : Int) : Int := x % 2 ^ (8 * s)

/-- `COND_GT | cond_flag` on words of `s` bytes. -/
def gtW (s : Nat) (u : Bool) (x y : Int) : Bool := if u then word s x > word s y else x > y

/-- Execution of the branches (codegen.c emits IR_CJMP, IR_SUB, IR_TJMP; their meaning is that of the machine
instructions on words of `s` bytes).  `none`: a jump through a word outside the table. -/
def run (s : Nat) (u : Bool) (v : Int) : Code → Option Nat
  | .jmp t => some t
  | .ifeq c t rest => if word s v = word s c then some t else run s u v rest
  | .ifgt c l r => if gtW s u v c then run s u v r else run s u v l
  | .table min last skip tbl =>
    let i := word s (v - min)
    if i > word s last then some skip else tbl[i.toNat]?

/-- codegen.c:400-426 `gen_switch_cond_table_jump`.  Subtracting `min` is omitted there when it is 0. -/
def tableJump (skip : Nat) (min max : Int) (cs : List Case) : Code :=
  let range := (max - min + 1).toNat
  let tbl := cs.foldl (fun t c => t.set (c.1 - min).toNat c.2) (List.replicate range skip)
  .table min (max - min) skip tbl

/-- codegen.c:430-437: a chain of at most two comparisons. -/
def chain (skip : Nat) : List Case → Code
  | [] => .jmp skip
  | c :: cs => .ifeq c.1 c.2 (chain skip cs)

/-- codegen.c:428-460 `gen_switch_cond_recur`.  The fuel is the number of cases.  The range is computed in 64 bits;
the model takes that to wrap (simplification). -/
def gen (skip : Nat) : Nat → List Case → Code
  | 0, _ => .jmp skip
  | f + 1, cs =>
    if cs.length ≤ 2 then chain skip cs
    else
      let min := (cs.getD 0 (0, 0)).1
      let max := (cs.getD (cs.length - 1) (0, 0)).1
      let range := toS 64 (max - min + 1)
      if range ≥ 4 ∧ (cs.length : Int) > range / 2 then tableJump skip min max cs
      else
        let m := cs.length / 2
        let c := cs.getD m (0, 0)
        .ifeq c.1 c.2 (.ifgt c.1 (gen skip f (cs.take m)) (gen skip f (cs.drop (m + 1))))

/-- codegen.c:387-398 `compare_cases`; `none` is the default label.  `sub` is the compiler's 64-bit subtraction,
undefined on overflow. -/
def compareCases (sub : Int → Int → Int) (a b : Option Int) : Int :=
  match a, b with
  | none, _ => 1
  | some _, none => -1
  | some x, some y => if sub x y > 0 then 1 else if sub x y < 0 then -1 else 0

/-- codegen.c:481-489: drop the default label, which sorts last, and generate. -/
def switchCode (hasDefault : Bool) (skip : Nat) (sorted : List (Option Int × Nat)) : Code :=
  let cs := (if hasDefault then sorted.dropLast else sorted).map (fun c => (c.1.getD 0, c.2))
  gen skip cs.length cs

/-- codegen.c:469-480: a constant controlling expression. -/
def constSwitch (skip : Nat) (value : Int) (cases : List (Option Int × Nat)) : Nat :=
  match cases.find? (fun c => c.1 = some value) with
  | some c => c.2
  | none => skip

/-- parser.c:388: the label is converted to the type of the controlling expression, which is not promoted. -/
def caseLabel (s : Nat) (u : Bool) (label : Int) : Int := wrapValue label s u

/-! ## Specification -/

/-- A cell holding a value of the type. -/
def Cell (s : Nat) (u : Bool) (x : Int) : Prop := if s = 8 then IsI64 x else InRange s u x

/-- `sub` is a subtraction wherever the difference is representable. -/
def IsSub (sub : Int → Int → Int) : Prop := ∀ x y, IsI64 (x - y) → sub x y = x - y

/-- What `qsort` guarantees. -/
def SortedBy (cmp : Option Int → Option Int → Int) (cases sorted : List (Option Int × Nat)) : Prop :=
  sorted.Perm cases ∧ sorted.Pairwise (fun x y => cmp x.1 y.1 ≤ 0)

/-! ## Lemmas -/

def Sz (s : Nat) : Prop := s = 1 ∨ s = 2 ∨ s = 4 ∨ s = 8

theorem cell_eq {s : Nat} (hs : Sz s) {u : Bool} {x y : Int} (hx : Cell s u x) (hy : Cell s u y) (h : word s x = word s y) : x = y := by
  unfold Cell IsI64 InRange at hx hy
  unfold word at h
  rcases hs with rfl | rfl | rfl | rfl <;> cases u <;> simp at hx hy h <;> omega

theorem mem_getD {cs : List Case} {i : Nat} (h : i < cs.length) : cs.getD i (0, 0) ∈ cs := by
  rw [List.getD_eq_getElem?_getD, List.getElem?_eq_getElem h]
  exact List.getElem_mem h

theorem getD_getElem {cs : List Case} {i : Nat} (h : i < cs.length) : cs.getD i (0, 0) = cs[i] := by
  rw [List.getD_eq_getElem?_getD, List.getElem?_eq_getElem h]; rfl

/-- The claim about the code for a list of cases. -/
def Right (s : Nat) (u : Bool) (skip : Nat) (cs : List Case) (v : Int) (t : Option Nat) : Prop :=
  (∀ b, (v, b) ∈ cs → t = some b) ∧ ((∀ b, (v, b) ∉ cs) → t = some skip)

theorem chain_right {s : Nat} (hs : Sz s) {u : Bool} {skip : Nat} {cs : List Case} {v : Int} (hv : Cell s u v)
    (hc : ∀ c ∈ cs, Cell s u c.1) (hp : cs.Pairwise (fun x y => x.1 < y.1)) : Right s u skip cs v (run s u v (chain skip cs)) := by
  induction cs with
  | nil => exact ⟨fun b h => by simp at h, fun _ => rfl⟩
  | cons c cs ih =>
    obtain ⟨p1, p2⟩ := List.pairwise_cons.1 hp
    obtain ⟨i1, i2⟩ := ih (fun x hx => hc x (List.mem_cons_of_mem _ hx)) p2
    simp only [chain, run]
    by_cases e : word s v = word s c.1
    · have e' := cell_eq hs hv (hc c List.mem_cons_self) e
      rw [if_pos e]
      refine ⟨?_, ?_⟩
      · intro b hb
        rw [List.mem_cons] at hb
        rcases hb with hb | hb
        · rw [← hb]
        · have := p1 _ hb
          simp only at this
          omega
      · intro hn
        exact absurd (show (v, c.2) ∈ c :: cs by rw [e']; exact List.mem_cons_self) (hn c.2)
    · rw [if_neg e]
      refine ⟨?_, ?_⟩
      · intro b hb
        rw [List.mem_cons] at hb
        rcases hb with hb | hb
        · exact absurd (by rw [← hb]) e
        · exact i1 b hb
      · intro hn
        exact i2 (fun b hb => hn b (List.mem_cons_of_mem _ hb))

/-- What the table holds. -/
theorem table_get (min : Int) (cs : List Case) (hp : cs.Pairwise (fun x y => x.1 < y.1)) (hm : ∀ c ∈ cs, min ≤ c.1) :
    ∀ (t : List Nat) (i : Nat), (∀ c ∈ cs, (c.1 - min).toNat < t.length) →
      (∀ b, (min + i, b) ∈ cs → (cs.foldl (fun t c => t.set (c.1 - min).toNat c.2) t)[i]? = some b) ∧
      ((∀ b, (min + i, b) ∉ cs) → (cs.foldl (fun t c => t.set (c.1 - min).toNat c.2) t)[i]? = t[i]?) := by
  induction cs with
  | nil => intro t i _; exact ⟨fun b h => by simp at h, fun _ => rfl⟩
  | cons c cs ih =>
    intro t i ht
    obtain ⟨p1, p2⟩ := List.pairwise_cons.1 hp
    have hmc := hm c List.mem_cons_self
    obtain ⟨i1, i2⟩ := ih p2 (fun x hx => hm x (List.mem_cons_of_mem _ hx)) (t.set (c.1 - min).toNat c.2) i
      (fun x hx => by rw [List.length_set]; exact ht x (List.mem_cons_of_mem _ hx))
    simp only [List.foldl_cons]
    refine ⟨?_, ?_⟩
    · intro b hb
      rw [List.mem_cons] at hb
      rcases hb with hb | hb
      · rw [i2 (by
          intro b' hb'
          have := p1 _ hb'
          rw [← hb] at this
          simp only at this
          omega)]
        have e : (c.1 - min).toNat = i := by rw [← hb]; simp only; omega
        have hl := ht c List.mem_cons_self
        rw [e] at hl ⊢
        rw [List.getElem?_set_self hl, ← hb]
      · exact i1 b hb
    · intro hn
      rw [i2 (fun b hb => hn b (List.mem_cons_of_mem _ hb))]
      have e : (c.1 - min).toNat ≠ i := by
        intro e
        refine hn c.2 ?_
        rw [show (min + (i : Int), c.2) = c by rw [show min + (i : Int) = c.1 by omega]]
        exact List.mem_cons_self
      rw [List.getElem?_set_ne e]

theorem range_ok {s : Nat} (hs : Sz s) {u : Bool} {min max : Int} (h1 : Cell s u min) (h2 : Cell s u max) (hle : min ≤ max)
    (hr : 4 ≤ toS 64 (max - min + 1)) : word s (max - min) = max - min ∧ toS 64 (max - min + 1) = max - min + 1 := by
  unfold Cell IsI64 InRange at h1 h2
  unfold word
  unfold toS at hr ⊢
  simp only at hr ⊢
  rcases hs with rfl | rfl | rfl | rfl <;> cases u <;> simp at h1 h2 hr ⊢ <;> split at hr <;> omega

theorem table_right {s : Nat} (hs : Sz s) {u : Bool} {skip : Nat} {cs : List Case} {v min max : Int} (hv : Cell s u v)
    (hc : ∀ c ∈ cs, Cell s u c.1) (hp : cs.Pairwise (fun x y => x.1 < y.1)) (hmin : ∀ c ∈ cs, min ≤ c.1) (hmax : ∀ c ∈ cs, c.1 ≤ max)
    (hm1 : Cell s u min) (hm2 : Cell s u max) (hle : min ≤ max) (hr : 4 ≤ toS 64 (max - min + 1)) :
    Right s u skip cs v (run s u v (tableJump skip min max cs)) := by
  obtain ⟨hw, _⟩ := range_ok hs hm1 hm2 hle hr
  have hlen : ∀ c ∈ cs, (c.1 - min).toNat < (List.replicate (max - min + 1).toNat skip).length := by
    intro c hc'
    have := hmin c hc'
    have := hmax c hc'
    rw [List.length_replicate]
    omega
  unfold tableJump
  simp only [run, hw]
  have hrep : ∀ i, i < (max - min + 1).toNat → (List.replicate (max - min + 1).toNat skip)[i]? = some skip := by
    intro i hi
    rw [List.getElem?_replicate, if_pos hi]
  have hnn : 0 ≤ word s (v - min) := by
    unfold word
    exact Int.emod_nonneg _ (by have : (0 : Int) < 2 ^ (8 * s) := Int.pow_pos (by decide); omega)
  refine ⟨?_, ?_⟩
  · intro b hb
    have h1 := hmin _ hb
    have h2 := hmax _ hb
    simp only at h1 h2
    have e : word s (v - min) = v - min := by
      unfold word at hw ⊢
      refine Int.emod_eq_of_lt (by omega) ?_
      have : (max - min) % 2 ^ (8 * s) < 2 ^ (8 * s) := Int.emod_lt_of_pos _ (Int.pow_pos (by decide))
      omega
    rw [e, if_neg (by omega)]
    refine (table_get min cs hp hmin _ (v - min).toNat hlen).1 b ?_
    rw [show min + ((v - min).toNat : Int) = v by omega]
    exact hb
  · intro hn
    split
    · rfl
    · rename_i hle'
      rw [(table_get min cs hp hmin _ (word s (v - min)).toNat hlen).2 ?_, hrep _ (by omega)]
      intro b hb
      have hcell := hc _ hb
      simp only at hcell
      rw [Int.toNat_of_nonneg hnn] at hb hcell
      have : min + word s (v - min) = v := by
        refine cell_eq hs hcell hv ?_
        unfold word
        rw [Int.add_emod_emod]
        congr 1
        omega
      rw [this] at hb
      exact hn b hb

/-- The claim for `gen`, for cases in increasing order whose labels the machine compares in that order. -/
theorem gen_right {s : Nat} (hs : Sz s) {u : Bool} {skip : Nat} {v : Int} (hv : Cell s u v) :
    ∀ (f : Nat) (cs : List Case), cs.length ≤ f → (∀ c ∈ cs, Cell s u c.1) → cs.Pairwise (fun x y => x.1 < y.1) →
      (∀ x ∈ cs, ∀ y ∈ cs, gtW s u x.1 y.1 = decide (x.1 > y.1)) → Right s u skip cs v (run s u v (gen skip f cs)) := by
  intro f
  induction f with
  | zero =>
    intro cs hl _ _ _
    have : cs = [] := List.length_eq_zero_iff.1 (by omega)
    subst this
    exact ⟨fun b h => by simp at h, fun _ => rfl⟩
  | succ f ih =>
    intro cs hl hc hp hg
    rw [gen]
    by_cases h2 : cs.length ≤ 2
    · rw [if_pos h2]
      exact chain_right hs hv hc hp
    · rw [if_neg h2]
      simp only
      have hpi := List.pairwise_iff_getElem.1 hp
      by_cases ht : toS 64 ((cs.getD (cs.length - 1) (0, 0)).1 - (cs.getD 0 (0, 0)).1 + 1) ≥ 4 ∧
          (cs.length : Int) > toS 64 ((cs.getD (cs.length - 1) (0, 0)).1 - (cs.getD 0 (0, 0)).1 + 1) / 2
      · rw [if_pos ht]
        have hi : ∀ c ∈ cs, (cs.getD 0 (0, 0)).1 ≤ c.1 ∧ c.1 ≤ (cs.getD (cs.length - 1) (0, 0)).1 := by
          intro c hcm
          obtain ⟨i, hi, rfl⟩ := List.getElem_of_mem hcm
          rw [getD_getElem (by omega), getD_getElem (by omega)]
          constructor
          · by_cases e : i = 0
            · subst e; omega
            · exact Int.le_of_lt (hpi 0 i (by omega) hi (by omega))
          · by_cases e : i = cs.length - 1
            · subst e; omega
            · exact Int.le_of_lt (hpi i (cs.length - 1) hi (by omega) (by omega))
        have m0 : cs.getD 0 (0, 0) ∈ cs := mem_getD (by omega)
        have m1 : cs.getD (cs.length - 1) (0, 0) ∈ cs := mem_getD (by omega)
        exact table_right hs hv hc hp (fun c h => (hi c h).1) (fun c h => (hi c h).2) (hc _ m0) (hc _ m1) (hi _ m1).1 ht.1
      · rw [if_neg ht]
        have hm : cs.length / 2 < cs.length := by omega
        have hcm : cs.getD (cs.length / 2) (0, 0) ∈ cs := mem_getD hm
        have ecm := getD_getElem hm
        generalize hcc : cs.getD (cs.length / 2) (0, 0) = c at *
        have hsplit : cs = cs.take (cs.length / 2) ++ c :: cs.drop (cs.length / 2 + 1) := by
          rw [ecm, ← List.drop_eq_getElem_cons hm, List.take_append_drop]
        have hL := ih (cs.take (cs.length / 2)) (by rw [List.length_take]; omega) (fun x hx => hc x (List.mem_of_mem_take hx))
          (hp.sublist (List.take_sublist _ _)) (fun x hx y hy => hg x (List.mem_of_mem_take hx) y (List.mem_of_mem_take hy))
        have hR := ih (cs.drop (cs.length / 2 + 1)) (by rw [List.length_drop]; omega) (fun x hx => hc x (List.mem_of_mem_drop hx))
          (hp.sublist (List.drop_sublist _ _)) (fun x hx y hy => hg x (List.mem_of_mem_drop hx) y (List.mem_of_mem_drop hy))
        generalize hTL : cs.take (cs.length / 2) = TL at *
        generalize hTR : cs.drop (cs.length / 2 + 1) = TR at *
        have hp' := hp
        rw [hsplit] at hp'
        obtain ⟨_, q2, q3⟩ := List.pairwise_append.1 hp'
        obtain ⟨q4, _⟩ := List.pairwise_cons.1 q2
        simp only [run]
        by_cases e : word s v = word s c.1
        · have e' := cell_eq hs hv (hc c hcm) e
          rw [if_pos e]
          refine ⟨?_, ?_⟩
          · intro b hb
            rw [hsplit, List.mem_append, List.mem_cons] at hb
            rcases hb with hb | hb | hb
            · have := q3 _ hb c List.mem_cons_self; simp only at this; omega
            · rw [← hb]
            · have := q4 _ hb; simp only at this; omega
          · intro hn
            exact absurd (show (v, c.2) ∈ cs by rw [e']; exact hcm) (hn c.2)
        · rw [if_neg e]
          have hne : v ≠ c.1 := fun h => e (by rw [h])
          refine ⟨?_, ?_⟩
          · intro b hb
            have hgv := hg _ hb c hcm
            simp only at hgv
            have hb' := hb
            rw [hsplit, List.mem_append, List.mem_cons] at hb'
            rcases hb' with hb' | hb' | hb'
            · have := q3 _ hb' c List.mem_cons_self
              simp only at this
              rw [hgv, if_neg (by simp; omega)]
              exact hL.1 b hb'
            · exact absurd (by rw [← hb']) hne
            · have := q4 _ hb'
              simp only at this
              rw [hgv, if_pos (by simp; omega)]
              exact hR.1 b hb'
          · intro hn
            have n1 : ∀ b, (v, b) ∉ TL := fun b hb => hn b (by rw [hsplit]; exact List.mem_append_left _ hb)
            have n2 : ∀ b, (v, b) ∉ TR := fun b hb => hn b (by rw [hsplit]; exact List.mem_append_right _ (List.mem_cons_of_mem _ hb))
            split
            · exact hR.2 n2
            · exact hL.2 n1

/-- Where sorting by subtraction and comparing words agree, for 64-bit types: no difference of labels overflows, and
unsigned labels lie on one side of 2^63. -/
def Agree (s : Nat) (u : Bool) (labels : List Int) : Prop :=
  s = 8 → (∀ x ∈ labels, ∀ y ∈ labels, IsI64 (x - y)) ∧
    (u = true → (∀ x ∈ labels, 0 ≤ x) ∨ (∀ x ∈ labels, x < 0))

theorem gt_agree {s : Nat} (hs : Sz s) {u : Bool} {labels : List Int} (hc : ∀ x ∈ labels, Cell s u x) (ha : Agree s u labels) :
    ∀ x ∈ labels, ∀ y ∈ labels, gtW s u x y = decide (x > y) := by
  intro x hx y hy
  have cx := hc x hx
  have cy := hc y hy
  unfold gtW
  cases u with
  | false => simp
  | true =>
    rw [if_pos rfl]
    unfold Cell IsI64 InRange at cx cy
    unfold word
    by_cases h8 : s = 8
    · rcases (ha h8).2 rfl with h | h
      · have := h x hx
        have := h y hy
        subst h8
        simp at cx cy ⊢
        omega
      · have := h x hx
        have := h y hy
        subst h8
        simp at cx cy ⊢
        omega
    · rcases hs with rfl | rfl | rfl | rfl <;> simp at cx cy h8 ⊢ <;> omega

theorem sub_i64 {s : Nat} (hs : Sz s) {u : Bool} {labels : List Int} (hc : ∀ x ∈ labels, Cell s u x) (ha : Agree s u labels) :
    ∀ x ∈ labels, ∀ y ∈ labels, IsI64 (x - y) := by
  intro x hx y hy
  by_cases h8 : s = 8
  · exact (ha h8).1 x hx y hy
  · have cx := hc x hx
    have cy := hc y hy
    unfold Cell InRange at cx cy
    unfold IsI64
    rcases hs with rfl | rfl | rfl | rfl <;> cases u <;> simp at cx cy h8 ⊢ <;> omega

/-- In a sorted list the default label is last. -/
theorem default_last (sub : Int → Int → Int) (sorted : List (Option Int × Nat))
    (hp : sorted.Pairwise (fun x y => compareCases sub x.1 y.1 ≤ 0)) : ∀ x ∈ sorted.dropLast, x.1 ≠ none := by
  induction sorted with
  | nil => intro x hx; simp at hx
  | cons a t ih =>
    obtain ⟨p1, p2⟩ := List.pairwise_cons.1 hp
    cases t with
    | nil => intro x hx; simp at hx
    | cons b t =>
      intro x hx
      rw [List.dropLast_cons_cons, List.mem_cons] at hx
      rcases hx with rfl | hx
      · intro e
        have := p1 b List.mem_cons_self
        rw [e] at this
        simp [compareCases] at this
      · exact ih p2 x hx

/-! ## Theorems -/

/-- **C31 (partial).** The code generated for a `switch` jumps to the case with the value's label, otherwise to the default
case or past the statement (`skip`), however the labels are spread.  `sub` is any subtraction that is right when it does
not overflow and `sorted` any result `qsort` may give.  Missing: 64-bit types whose labels do not `Agree`
(`unsigned_switch`, `far_labels`). -/
theorem switch_correct_partial (s : Nat) (hs : Sz s) (u : Bool) (sub : Int → Int → Int) (hsub : IsSub sub)
    (cases sorted : List (Option Int × Nat)) (hsort : SortedBy (compareCases sub) cases sorted)
    (hlab : (cases.filterMap (·.1)).Nodup)
    (hcell : ∀ x ∈ cases.filterMap (·.1), Cell s u x) (hagree : Agree s u (cases.filterMap (·.1))) (skip : Nat) (v : Int) (hv : Cell s u v) :
    let t := run s u v (switchCode (cases.any (fun c => c.1 = none)) skip sorted)
    (∀ b, (some v, b) ∈ cases → t = some b) ∧ ((∀ b, (some v, b) ∉ cases) → t = some skip) := by
  obtain ⟨hperm, hpw⟩ := hsort
  -- the labelled part
  have hlast := default_last sub sorted hpw
  have hnone : ∀ x ∈ (if cases.any (fun c => c.1 = none) then sorted.dropLast else sorted), x.1 ≠ none := by
    split
    · exact hlast
    · rename_i hh
      intro x hx e
      refine hh ?_
      rw [List.any_eq_true]
      exact ⟨x, hperm.mem_iff.1 hx, by simpa using e⟩
  have hmem : ∀ x : Int, ∀ b, (some x, b) ∈ (if cases.any (fun c => c.1 = none) then sorted.dropLast else sorted) ↔ (some x, b) ∈ cases := by
    intro x b
    rw [← hperm.mem_iff]
    split
    · rename_i hh
      refine ⟨fun h => (List.dropLast_sublist _).subset h, fun h => ?_⟩
      rw [List.any_eq_true] at hh
      obtain ⟨d, hd, hdn⟩ := hh
      have hdn : d.1 = none := by simpa using hdn
      have hds := hperm.mem_iff.2 hd
      have hne : sorted ≠ [] := by rintro rfl; simp at hds
      have key := List.dropLast_concat_getLast hne
      rw [← key, List.mem_append] at h hds
      rcases h with h | h
      · exact h
      · exfalso
        have e : sorted.getLast hne = (some x, b) := (List.mem_singleton.1 h).symm
        rcases hds with hds | hds
        · exact hlast d hds hdn
        · rw [e] at hds
          simp only [List.mem_singleton] at hds
          rw [hds] at hdn
          cases hdn
    · exact Iff.rfl
  have hpw' : (if cases.any (fun c => c.1 = none) then sorted.dropLast else sorted).Pairwise (fun x y => compareCases sub x.1 y.1 ≤ 0) := by
    split
    · exact hpw.sublist (List.dropLast_sublist _)
    · exact hpw
  have hnd : ((if cases.any (fun c => c.1 = none) then sorted.dropLast else sorted).filterMap (·.1)).Nodup := by
    have h1 : (sorted.filterMap (·.1)).Nodup := (hperm.filterMap _).nodup_iff.2 hlab
    split
    · exact h1.sublist ((List.dropLast_sublist _).filterMap _)
    · exact h1
  have hlabmem : ∀ x ∈ (if cases.any (fun c => c.1 = none) then sorted.dropLast else sorted), ∀ y, x.1 = some y → y ∈ cases.filterMap (·.1) := by
    intro x hx y hy
    rw [List.mem_filterMap]
    refine ⟨(some y, x.2), (hmem y x.2).1 ?_, rfl⟩
    rw [← hy]
    exact hx
  unfold switchCode
  simp only
  generalize (if cases.any (fun c => c.1 = none) then sorted.dropLast else sorted) = ls at *
  have h64 := sub_i64 hs hcell hagree
  have hgt := gt_agree hs hcell hagree
  have hval : ∀ c ∈ ls.map (fun c => (c.1.getD 0, c.2)), c.1 ∈ cases.filterMap (·.1) := by
    intro c hc
    rw [List.mem_map] at hc
    obtain ⟨x, hx, rfl⟩ := hc
    cases hx1 : x.1 with
    | none => exact absurd hx1 (hnone x hx)
    | some y => simpa [hx1] using hlabmem x hx y hx1
  have hord : (ls.map (fun c => (c.1.getD 0, c.2))).Pairwise (fun x y => x.1 < y.1) := by
    rw [List.pairwise_map]
    have h1 : ls.Pairwise (fun x y => x.1 ≠ y.1) := by
      clear hmem hpw' hval
      induction ls with
      | nil => exact List.Pairwise.nil
      | cons a t ih =>
        rw [List.pairwise_cons]
        cases ha : a.1 with
        | none => exact absurd ha (hnone a List.mem_cons_self)
        | some y =>
          rw [List.filterMap_cons_some ha, List.nodup_cons] at hnd
          refine ⟨?_, ih (fun x hx => hnone x (List.mem_cons_of_mem _ hx)) hnd.2 (fun x hx => hlabmem x (List.mem_cons_of_mem _ hx))⟩
          intro z hz e
          exact hnd.1 (List.mem_filterMap.2 ⟨z, hz, e.symm⟩)
    refine List.Pairwise.imp_of_mem ?_ (hpw'.and h1)
    intro x y hx hy hxy
    obtain ⟨c1, c2⟩ := hxy
    cases hx1 : x.1 with
    | none => exact absurd hx1 (hnone x hx)
    | some p =>
      cases hy1 : y.1 with
      | none => exact absurd hy1 (hnone y hy)
      | some q =>
        simp only [hx1, hy1, compareCases] at c1 c2
        simp only [Option.getD_some]
        rw [hsub p q (h64 p (hlabmem x hx p hx1) q (hlabmem y hy q hy1))] at c1
        have hne : p ≠ q := fun e => c2 (by rw [e])
        split at c1
        · omega
        · omega
  have main := gen_right hs (u := u) (skip := skip) hv _ _ (Nat.le_refl _) (fun c hc => hcell _ (hval c hc)) hord
    (fun x hx y hy => hgt _ (hval x hx) _ (hval y hy))
  have hmap : ∀ b, (v, b) ∈ ls.map (fun c => (c.1.getD 0, c.2)) ↔ (some v, b) ∈ cases := by
    intro b
    rw [← hmem v b, List.mem_map]
    constructor
    · rintro ⟨x, hx, e⟩
      cases hx1 : x.1 with
      | none => exact absurd hx1 (hnone x hx)
      | some y =>
        rw [hx1] at e
        simp only [Option.getD_some, Prod.mk.injEq] at e
        obtain ⟨rfl, rfl⟩ := e
        rw [← hx1]
        exact hx
    · intro h
      exact ⟨_, h, rfl⟩
  exact ⟨fun b hb => main.1 b ((hmap b).2 hb), fun hn => main.2 (fun b hb => hn b ((hmap b).1 hb))⟩

/-- **C31.** For controlling expressions of at most 32 bits the dispatch is right without conditions on the labels. -/
theorem switch_correct_32 (s : Nat) (hs : s = 1 ∨ s = 2 ∨ s = 4) (u : Bool) (sub : Int → Int → Int) (hsub : IsSub sub)
    (cases sorted : List (Option Int × Nat)) (hsort : SortedBy (compareCases sub) cases sorted)
    (hlab : (cases.filterMap (·.1)).Nodup)
    (hcell : ∀ x ∈ cases.filterMap (·.1), InRange s u x) (skip : Nat) (v : Int) (hv : InRange s u v) :
    let t := run s u v (switchCode (cases.any (fun c => c.1 = none)) skip sorted)
    (∀ b, (some v, b) ∈ cases → t = some b) ∧ ((∀ b, (some v, b) ∉ cases) → t = some skip) := by
  have h8 : s ≠ 8 := by omega
  refine switch_correct_partial s (by unfold Sz; omega) u sub hsub cases sorted hsort hlab ?_ (fun h => absurd h h8) skip v ?_
  · intro x hx; unfold Cell; rw [if_neg h8]; exact hcell x hx
  · unfold Cell; rw [if_neg h8]; exact hv

/-- **C31.** A constant controlling expression selects the same target. -/
theorem const_switch_correct (skip : Nat) (value : Int) (cases : List (Option Int × Nat)) (hlab : (cases.filterMap (·.1)).Nodup) :
    (∀ b, (some value, b) ∈ cases → constSwitch skip value cases = b) ∧
      ((∀ b, (some value, b) ∉ cases) → constSwitch skip value cases = skip) := by
  induction cases with
  | nil => exact ⟨fun b h => by simp at h, fun _ => rfl⟩
  | cons c cs ih =>
    by_cases e : c.1 = some value
    · have hc : constSwitch skip value (c :: cs) = c.2 := by simp [constSwitch, List.find?_cons, e]
      rw [hc]
      rw [List.filterMap_cons_some e, List.nodup_cons] at hlab
      refine ⟨?_, fun hn => absurd (by rw [← e]; exact List.mem_cons_self) (hn c.2)⟩
      intro b hb
      rw [List.mem_cons] at hb
      rcases hb with hb | hb
      · rw [← hb]
      · exact absurd (List.mem_filterMap.2 ⟨(some value, b), hb, rfl⟩ : value ∈ cs.filterMap (·.1)) hlab.1
    · have hc : constSwitch skip value (c :: cs) = constSwitch skip value cs := by simp [constSwitch, List.find?_cons, e]
      rw [hc]
      have hlab' : (cs.filterMap (·.1)).Nodup := by
        cases h : c.1 with
        | none => rwa [List.filterMap_cons_none h] at hlab
        | some y => rw [List.filterMap_cons_some h, List.nodup_cons] at hlab; exact hlab.2
      obtain ⟨i1, i2⟩ := ih hlab'
      refine ⟨?_, fun hn => i2 (fun b hb => hn b (List.mem_cons_of_mem _ hb))⟩
      intro b hb
      rw [List.mem_cons] at hb
      rcases hb with hb | hb
      · exact absurd (by rw [← hb]) e
      · exact i1 b hb

/-- **C31 (partial).** A label that the type of the controlling expression can represent is the cell that type's values are
compared with.  Missing: labels it cannot represent (`label_truncated`). -/
theorem case_label_partial (s : Nat) (hs : s = 1 ∨ s = 2 ∨ s = 4) (u : Bool) (label v : Int) (hv : InRange s u v) (hl : InRange s u label) :
    caseLabel s u label = v ↔ label = v := by
  unfold caseLabel
  rw [wrapValue_of_inRange label s u (by rcases hs with rfl | rfl | rfl <;> simp) hl]

/-! ## Findings -/

/-- **C31, finding.** `switch` on an `unsigned long` with the labels 0, 1 and `ULONG_MAX` goes to the default on `ULONG_MAX`: the labels
are sorted as signed numbers and searched as unsigned ones. -/
theorem unsigned_switch (sub : Int → Int → Int) (hsub : IsSub sub) :
    let cases : List (Option Int × Nat) := [(some (-1), 7), (some 0, 8), (some 1, 9)]
    SortedBy (compareCases sub) cases cases ∧ run 8 true (-1) (switchCode false 99 cases) = some 99 := by
  refine ⟨⟨List.Perm.refl _, ?_⟩, by decide⟩
  have h1 := hsub (-1) 0 (by unfold IsI64; omega)
  have h2 := hsub (-1) 1 (by unfold IsI64; omega)
  have h3 := hsub 0 1 (by unfold IsI64; omega)
  simp [compareCases, h1, h2, h3]

/-- **C31, finding.** If the compiler's subtraction wraps, the `long` labels `LONG_MIN`, 1, 100 are sorted as 1, 100, `LONG_MIN` and the
value `LONG_MIN` goes to the default. -/
theorem far_labels :
    let sub := fun x y => toS 64 (x - y)
    let sorted : List (Option Int × Nat) := [(some 1, 8), (some 100, 9), (some (-2 ^ 63), 7)]
    IsSub sub ∧ sorted.Pairwise (fun x y => compareCases sub x.1 y.1 ≤ 0) ∧ run 8 false (-2 ^ 63) (switchCode false 99 sorted) = some 99 := by
  refine ⟨?_, by decide, by decide⟩
  intro x y h
  unfold IsI64 at h
  unfold toS
  simp only
  split <;> omega

/-- **C31, finding.** The controlling expression is not promoted: in a `switch` on a `char`, `case 300:` is taken for the value 44. -/
theorem label_truncated : caseLabel 1 false 300 = 44 := by decide

/-! ## Non-vacuity -/

example : Agree 8 true [5, 2 ^ 62, 7] ∧ Agree 8 false [-5, 5, 1000] ∧ Agree 4 true [0, 4294967295] := by
  refine ⟨fun _ => ⟨?_, fun _ => Or.inl ?_⟩, fun _ => ⟨?_, fun h => by cases h⟩, fun h => by cases h⟩ <;> simp [IsI64]
example : run 4 false 3 (switchCode true 99 [(some 0, 1), (some 1, 2), (some 3, 3), (some 4, 4), (some 1000, 5), (none, 99)]) = some 3 := by decide
example : run 4 false 2 (switchCode false 99 [(some 0, 1), (some 1, 2), (some 3, 3), (some 4, 4)]) = some 99 := by decide
example : IsSub (fun x y => x - y) := fun _ _ _ => rfl

end Verif.Switch

/-
The edges between the blocks, and the removal of unreachable instructions (C58).

Models `detect_from_bbs`, /repo/src/cc/backend/ir.c:407-459, and the first loop of `optimize`,
/repo/src/cc/backend/optimize.c:637-642.
-/
import Verif.Backend.Ir
import Mathlib.Data.List.Count
import Mathlib.Data.List.Perm.Basic

namespace Verif.Edges
open Verif.Ir

variable {K V S : Type}

/-! ### Specification -/

/-- The blocks a block can be followed by, in a function of `n` blocks: one for every jump target and, unless the
block ends with an unconditional jump, the next one. -/
def succs (n b : Nat) : Last K V → List Nat
  | .next => if b + 1 < n then [b + 1] else []
  | .jmp c => [c]
  | .cjmp _ _ _ c => c :: if b + 1 < n then [b + 1] else []
  | .tjmp _ bs => bs

/-- The successors of block `b`. -/
def succ (blocks : List (Block K V)) (b : Nat) : List Nat :=
  match blocks[b]? with
  | some B => succs blocks.length b B.last
  | none => []

/-- There is a path from the first block. -/
inductive Reach (next : Nat → List Nat) : Nat → Prop
  | zero : Reach next 0
  | step {b c : Nat} : Reach next b → c ∈ next b → Reach next c

/-! ### Model -/

/-- Push `b` on `from_bbs` of the blocks `cs`. -/
def addEdges (b : Nat) (cs : List Nat) (frm : Nat → List Nat) : Nat → List Nat :=
  cs.foldl (fun frm c => fun d => if d = c then frm d ++ [b] else frm d) frm

/-- ir.c:424-458: `u` are the blocks that are not in `checked`, `stack` is `unchecked` (the last pushed first). -/
def detect (next : Nat → List Nat) (u stack : List Nat) (frm : Nat → List Nat) : Nat → List Nat :=
  match stack with
  | [] => frm
  | b :: stack =>
    if b ∈ u then detect next (u.erase b) ((next b).reverse ++ stack) (addEdges b (next b) frm)
    else detect next u stack frm
termination_by (u.length, stack.length)
decreasing_by
  · have h1 := List.length_erase_of_mem (by assumption : b ∈ u)
    have h2 := List.length_pos_of_mem (by assumption : b ∈ u)
    apply Prod.Lex.left
    omega
  · apply Prod.Lex.right
    simp

/-- ir.c:407-459 `detect_from_bbs`. -/
def fromBbs (blocks : List (Block K V)) : Nat → List Nat :=
  if blocks.length = 0 then fun _ => []
  else detect (succ blocks) (List.range blocks.length) [0] (fun _ => [])

/-- optimize.c:637-642. -/
def clearUnreached (frm : Nat → List Nat) (blocks : List (Block K V)) : List (Block K V) :=
  blocks.mapIdx fun b B => if b ≠ 0 ∧ (frm b).length = 0 then { B with body := [], last := .next } else B

/-! ### Proofs -/

theorem addEdges_count (b : Nat) (cs : List Nat) : ∀ (frm : Nat → List Nat) (p c : Nat),
    (addEdges b cs frm c).count p = (frm c).count p + if p = b then cs.count c else 0 := by
  induction cs with
  | nil => intro frm p c; simp [addEdges]
  | cons d cs ih =>
    intro frm p c
    have h : addEdges b (d :: cs) frm = addEdges b cs (fun e => if e = d then frm e ++ [b] else frm e) := rfl
    rw [h, ih, List.count_cons]
    by_cases h1 : c = d
    · subst h1
      by_cases h2 : p = b
      · subst h2; simp; omega
      · have h3 : ¬ b = p := fun h => h2 h.symm
        simp [h2, h3, List.count_append, List.count_singleton]
    · have h4 : ¬ d = c := fun h => h1 h.symm
      simp [h1, h4]

/-- The traversal, described by its state. -/
structure Inv (next : Nat → List Nat) (n : Nat) (u stack : List Nat) (frm : Nat → List Nat) : Prop where
  nodup : u.Nodup
  sub : ∀ b ∈ u, b < n
  edges : ∀ p c, (frm c).count p = if p < n ∧ p ∉ u then (next p).count c else 0
  reach : ∀ b, b < n → b ∉ u → Reach next b
  reachS : ∀ b ∈ stack, Reach next b
  closed : ∀ b, b < n → b ∉ u → ∀ c ∈ next b, (c < n ∧ c ∉ u) ∨ c ∈ stack
  start : (0 < n ∧ 0 ∉ u) ∨ 0 ∈ stack

theorem detect_inv {next : Nat → List Nat} {n : Nat} (hn : ∀ b c, c ∈ next b → c < n) (h0 : 0 < n) (u stack : List Nat)
    (frm : Nat → List Nat) : Inv next n u stack frm → ∃ u', Inv next n u' [] (detect next u stack frm) := by
  fun_induction detect next u stack frm with
  | case1 u frm => intro h; exact ⟨u, h⟩
  | case2 u frm b stack hb ih =>
    intro h
    apply ih
    have he : ∀ x, x ∈ u.erase b ↔ x ≠ b ∧ x ∈ u := fun x => h.nodup.mem_erase_iff
    have hbr := h.reachS b (List.mem_cons_self ..)
    have hbn := h.sub b hb
    refine ⟨h.nodup.erase b, fun x hx => h.sub x ((he x).1 hx).2, ?_, ?_, ?_, ?_, ?_⟩
    · intro p c
      rw [addEdges_count, h.edges]
      by_cases hp : p = b
      · subst hp
        have : p ∉ u.erase p := fun hx => ((he p).1 hx).1 rfl
        simp [hb, hbn, this]
      · have : p ∈ u.erase b ↔ p ∈ u := by rw [he]; simp [hp]
        simp [hp, this]
    · intro x hx hxu
      by_cases hxb : x = b
      · subst hxb; exact hbr
      · exact h.reach x hx (fun hu => hxu ((he x).2 ⟨hxb, hu⟩))
    · intro x hx
      rcases List.mem_append.1 hx with hx | hx
      · exact hbr.step (List.mem_reverse.1 hx)
      · exact h.reachS x (List.mem_cons_of_mem _ hx)
    · intro x hx hxu c hc
      by_cases hxb : x = b
      · subst hxb; exact .inr (List.mem_append.2 (.inl (List.mem_reverse.2 hc)))
      · rcases h.closed x hx (fun hu => hxu ((he x).2 ⟨hxb, hu⟩)) c hc with ⟨h1, h2⟩ | h1
        · exact .inl ⟨h1, fun hu => h2 ((he c).1 hu).2⟩
        · rcases List.mem_cons.1 h1 with h1 | h1
          · subst h1; exact .inl ⟨hbn, fun hu => ((he c).1 hu).1 rfl⟩
          · exact .inr (List.mem_append.2 (.inr h1))
    · rcases h.start with ⟨h1, h2⟩ | h1
      · exact .inl ⟨h1, fun hu => h2 ((he 0).1 hu).2⟩
      · rcases List.mem_cons.1 h1 with h1 | h1
        · subst h1; exact .inl ⟨hbn, fun hu => ((he 0).1 hu).1 rfl⟩
        · exact .inr (List.mem_append.2 (.inr h1))
  | case3 u frm b stack hb ih =>
    intro h
    apply ih
    have hbn : b < n := by
      rcases h.reachS b (List.mem_cons_self ..) with _ | ⟨_, h2⟩
      · exact h0
      · exact hn _ _ h2
    refine ⟨h.nodup, h.sub, h.edges, h.reach, fun x hx => h.reachS x (List.mem_cons_of_mem _ hx), ?_, ?_⟩
    · intro x hx hxu c hc
      rcases h.closed x hx hxu c hc with h1 | h1
      · exact .inl h1
      · rcases List.mem_cons.1 h1 with h1 | h1
        · subst h1; exact .inl ⟨hbn, hb⟩
        · exact .inr h1
    · rcases h.start with h1 | h1
      · exact .inl h1
      · rcases List.mem_cons.1 h1 with h1 | h1
        · subst h1; exact .inl ⟨hbn, hb⟩
        · exact .inr h1

/-- The targets of the jumps are blocks of the function. -/
def WellFormed (blocks : List (Block K V)) : Prop := ∀ b c, c ∈ succ blocks b → c < blocks.length

/-- `from_bbs` lists exactly the reachable predecessors, each as often as it leads to the block. -/
def Exact (next : Nat → List Nat) (frm : Nat → List Nat) : Prop :=
  ∀ p c, (Reach next p → (frm c).count p = (next p).count c) ∧ (¬ Reach next p → p ∉ frm c)

/-- C58.  The edges found by `detect_from_bbs` are exactly the edges of the reachable blocks. -/
theorem fromBbs_exact {blocks : List (Block K V)} (hw : WellFormed blocks) (hne : blocks ≠ []) :
    Exact (succ blocks) (fromBbs blocks) := by
  have hn : 0 < blocks.length := List.length_pos_iff.2 hne
  unfold fromBbs
  rw [if_neg (by omega)]
  have h0 : Inv (succ blocks) blocks.length (List.range blocks.length) [0] (fun _ => []) := by
    refine ⟨List.nodup_range, fun b hb => List.mem_range.1 hb, ?_, ?_, ?_, ?_, .inr (by simp)⟩
    · intro p c
      rw [if_neg]
      · rfl
      · rintro ⟨h1, h2⟩; exact h2 (List.mem_range.2 h1)
    · intro b h1 h2; exact absurd (List.mem_range.2 h1) h2
    · intro b hb
      rw [List.mem_singleton] at hb
      subst hb; exact .zero
    · intro b h1 h2; exact absurd (List.mem_range.2 h1) h2
  obtain ⟨u, h⟩ := detect_inv hw hn _ _ _ h0
  have hall : ∀ b, Reach (succ blocks) b → b < blocks.length ∧ b ∉ u := by
    intro b hb
    induction hb with
    | zero => rcases h.start with h1 | h1; exact h1; cases h1
    | step _ hc ih =>
      rcases h.closed _ ih.1 ih.2 _ hc with h1 | h1
      · exact h1
      · cases h1
  intro p c
  constructor
  · intro hp
    rw [h.edges, if_pos (hall p hp)]
  · intro hp hc
    have h1 := List.count_pos_iff.2 hc
    rw [h.edges] at h1
    split at h1
    · rename_i h2; exact hp (h.reach p h2.1 h2.2)
    · omega

theorem Exact.mem {next frm : Nat → List Nat} (h : Exact next frm) {p c : Nat} : p ∈ frm c ↔ Reach next p ∧ c ∈ next p := by
  constructor
  · intro hp
    by_cases hr : Reach next p
    · refine ⟨hr, List.count_pos_iff.1 ?_⟩
      rw [← (h p c).1 hr]
      exact List.count_pos_iff.2 hp
    · exact absurd hp ((h p c).2 hr)
  · rintro ⟨hr, hc⟩
    apply List.count_pos_iff.1
    rw [(h p c).1 hr]
    exact List.count_pos_iff.2 hc

/-- Where control goes is a successor. -/
theorem target_succ {M : Machine K V S} {mem : Nat → Bool} {n b : Nat} {ρ : Env V} {s : S} {l : Last K V} {c : Nat}
    (h : target M mem b ρ s l = some c) : c ∈ succs n b l ∨ n ≤ c := by
  cases l with
  | next =>
    simp only [target, Option.some.injEq] at h
    simp only [succs]
    split
    · subst h; simp
    · exact .inr (by omega)
  | jmp d =>
    simp only [target, Option.some.injEq] at h
    subst h; simp [succs]
  | cjmp k o1 o2 d =>
    simp only [target, Option.some.injEq] at h
    simp only [succs]
    split at h
    · subst h; simp
    · split
      · subst h; simp
      · exact .inr (by omega)
  | tjmp o bs => exact .inl (List.mem_of_getElem? h)

/-- A block that is entered is reachable (or behind the last one), and where it is entered from is an edge. -/
theorem target_reach {M : Machine K V S} {mem : Nat → Bool} {blocks : List (Block K V)} {b : Nat} {B : Block K V} {ρ : Env V} {s : S} {c : Nat}
    (hb : blocks[b]? = some B) (hr : Reach (succ blocks) b) (h : target M mem b ρ s B.last = some c) :
    blocks.length ≤ c ∨ (Reach (succ blocks) c ∧ c ∈ succ blocks b) := by
  rcases target_succ (n := blocks.length) h with h | h
  · have h2 : c ∈ succ blocks b := by simp only [succ, hb]; exact h
    exact .inr ⟨hr.step h2, h2⟩
  · exact .inl h

/-- C58.  Emptying the blocks no edge leads to does not change what the function does. -/
theorem clearUnreached_refines {M : Machine K V S} {mem : Nat → Bool} {blocks : List (Block K V)} {frm : Nat → List Nat}
    (hf : Exact (succ blocks) frm) : Refines M mem ⟨blocks, frm⟩ ⟨clearUnreached frm blocks, frm⟩ := by
  apply refines_of (R := fun b _ ρ ρ' _ => ρ' = ρ ∧ (b < blocks.length → Reach (succ blocks) b))
  · rintro b p ρ ρ' s ⟨rfl, hr⟩
    simp only [step, clearUnreached, List.getElem?_mapIdx]
    cases hb : blocks[b]? with
    | none => rfl
    | some B =>
      have hlt : b < blocks.length := (List.getElem?_eq_some_iff.1 hb).1
      have hr := hr hlt
      have hne : ¬ (b ≠ 0 ∧ (frm b).length = 0) := by
        rintro ⟨h1, h2⟩
        cases hr with
        | zero => exact h1 rfl
        | step hp hc =>
          have := hf.mem.2 ⟨hp, hc⟩
          rw [List.length_eq_zero_iff.1 h2] at this
          cases this
      simp only [Option.map_some, if_neg hne]
      cases hx : runBody M mem B.body (enter M mem B.phis (frm b) p ρ' s) s with
      | undef => trivial
      | stop s1 => rfl
      | ok a =>
        obtain ⟨ρ1, s1⟩ := a
        dsimp only
        cases ht : target M mem b ρ1 s1 B.last with
        | none => trivial
        | some c =>
          refine ⟨rfl, rfl, rfl, rfl, fun hlt => ?_⟩
          rcases target_reach hb hr ht with h | h
          · omega
          · exact h.1
  · intro ρ s
    exact ⟨rfl, fun _ => .zero⟩

/-! ### Examples -/

/-- A loop with a block nothing leads to. -/
def loop : List (Block Unit Nat) :=
  [⟨[], [], .next⟩, ⟨[], [], .cjmp () (.reg 0) (.const 1) 4⟩, ⟨[], [], .jmp 1⟩, ⟨[], [⟨(), some 1, none, none⟩], .jmp 1⟩, ⟨[], [], .next⟩]

example : (List.range 5).map (fromBbs loop) = [[], [0, 2], [1], [], [1]] := by
  simp [fromBbs, loop, detect, succ, succs, addEdges, List.range, List.range.loop, List.erase]

example : WellFormed loop := by
  intro b c
  have : b = 0 ∨ b = 1 ∨ b = 2 ∨ b = 3 ∨ b = 4 ∨ 5 ≤ b := by omega
  rcases this with h | h | h | h | h | h
  · subst h; simp [succ, succs, loop]; omega
  · subst h; simp [succ, succs, loop]; omega
  · subst h; simp [succ, succs, loop]; omega
  · subst h; simp [succ, succs, loop]; omega
  · subst h; simp [succ, succs, loop]
  · have : loop[b]? = none := List.getElem?_eq_none (by simpa [loop] using h)
    simp [succ, this]

example : (clearUnreached (fromBbs loop) loop)[3]? = some ⟨[], [], .next⟩ := by
  simp [clearUnreached, fromBbs, loop, detect, succ, succs, addEdges, List.range, List.range.loop, List.erase]

end Verif.Edges

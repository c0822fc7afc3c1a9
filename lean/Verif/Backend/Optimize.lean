/-
All passes of the optimizer, one after the other (C63 with -O, C64 without).

Models `optimize`, /repo/src/cc/backend/optimize.c:636-664, with and without the flag `apply_ssa` (cc1.c:142-143): the
passes are those of Edges (C58), Peephole (C59), Ssa (C60), CopyProp (C61), Dce (C57), ResolvePhis (C62) and BbClean (C33).
The flag `keep_phi` is set by the debugging tool dump_ir only and is not modelled.
-/
import Verif.Backend.Edges
import Verif.Backend.Peephole
import Verif.Backend.SsaStrict
import Verif.Backend.Dce
import Verif.Backend.ResolvePhis
import Verif.Backend.BbClean

namespace Verif.Optimize
open Verif.Ir Verif.Edges Verif.ResolvePhis

variable {K V S X : Type}

/-! ### The last pass works on the container of blocks -/

/-- The jump at the end of a block with its condition code (ir.h:101-118; `COND_ANY` is 1). -/
def termOf (cond : K → Nat) : Last K V → BbClean.Term (List (Opr V))
  | .next => .fall
  | .jmp c => .jmp 1 [] c
  | .cjmp k o1 o2 c => .jmp (cond k) [o1, o2] c
  | .tjmp o bs => .tjmp [o] bs

/-- The container in the notation of BbClean. -/
def toBBs (cond : K → Nat) (F : Fun K V) : List (BbClean.BB (Ins K V) (List (Opr V))) :=
  F.order.map fun b => ⟨b, (F.code b).body, termOf cond (F.code b).last, follow F.order b, false⟩

/-- A machine as BbClean wants it: the state is that of the registers and the rest, or what is left when the function
has stopped. -/
def sem (M : Machine K V S) (mem : Nat → Bool) (cmp : Nat → V → V → Cond.Cmp) (ho : ∀ f x y, f / 2 % 2 = 0 → cmp f x y ≠ .unordered) :
    BbClean.Sem (Ins K V) (List (Opr V)) (Out S (Env V × S)) where
  exec i σ :=
    match σ with
    | .ok (ρ, s) =>
      match M.exec i.kind (i.o1.map (rd M mem ρ s)) (i.o2.map (rd M mem ρ s)) s with
      | .ok (v, s') => .ok (wr M mem i.dst v ρ s')
      | .stop s' => .stop s'
      | .undef => .undef
    | σ => σ
  cmp o f σ :=
    match σ, o with
    | .ok (ρ, s), [o1, o2] => cmp f (rd M mem ρ s o1) (rd M mem ρ s o2)
    | _, _ => .eq
  sel o σ :=
    match σ, o with
    | .ok (ρ, s), [o] => M.index (rd M mem ρ s o)
    | _, _ => 0
  int_ordered o f σ hf := by
    split
    · exact ho _ _ _ hf
    · intro h; cases h

section
variable {M : Machine K V S} {mem : Nat → Bool} {cmp : Nat → V → V → Cond.Cmp}
  {ho : ∀ f x y, f / 2 % 2 = 0 → cmp f x y ≠ .unordered} {cond : K → Nat} {C : K → Prop} {G : Fun K V} {R : Nat → Prop}

/-- The end of a block is what the code generator makes: a condition from `C`, a table that is not empty. -/
def Shape (C : K → Prop) : Last K V → Prop
  | .cjmp k _ _ _ => C k
  | .tjmp _ bs => bs ≠ []
  | _ => True

/-- Control stays inside the function. -/
structure Stays (C : K → Prop) (G : Fun K V) (R : Nat → Prop) : Prop where
  start : R 0
  sub : ∀ b, R b → b ∈ G.order
  closed : ∀ b, R b → ∀ c ∈ lsucc G.order b (G.code b).last, R c
  ok : ∀ b ∈ G.order, Shape C (G.code b).last

theorem stays_of_closed (h : Closed C G R) : Stays C G R := by
  refine ⟨h.start, h.sub, h.closed, fun b hb => ?_⟩
  have := h.ok b hb
  revert this
  cases (G.code b).last with
  | next => exact fun _ => trivial
  | jmp d => exact fun _ => trivial
  | cjmp k o1 o2 d => exact fun h => h.1
  | tjmp o bs => exact fun h => h.2

theorem body_stop (is : List (Ins K V)) (s : S) :
    is.foldl (fun σ i => (sem M mem cmp ho).exec i σ) (.stop s) = .stop s := by
  induction is with
  | nil => rfl
  | cons i is ih => exact ih

theorem body_undef (is : List (Ins K V)) :
    is.foldl (fun σ i => (sem M mem cmp ho).exec i σ) .undef = .undef := by
  induction is with
  | nil => rfl
  | cons i is ih => exact ih

theorem body_ok (is : List (Ins K V)) : ∀ (ρ : Env V) (s : S),
    is.foldl (fun σ i => (sem M mem cmp ho).exec i σ) (.ok (ρ, s)) = runBody M mem is ρ s := by
  induction is with
  | nil => intro ρ s; rfl
  | cons i is ih =>
    intro ρ s
    simp only [List.foldl_cons, runBody]
    have : (sem M mem cmp ho).exec i (.ok (ρ, s)) =
        match M.exec i.kind (i.o1.map (rd M mem ρ s)) (i.o2.map (rd M mem ρ s)) s with
        | .ok (v, s') => .ok (wr M mem i.dst v ρ s')
        | .stop s' => .stop s'
        | .undef => .undef := rfl
    rw [this]
    cases M.exec i.kind (i.o1.map (rd M mem ρ s)) (i.o2.map (rd M mem ρ s)) s with
    | ok a => exact ih _ _
    | stop s' => exact body_stop is s'
    | undef => exact body_undef is

theorem lookup_map (f : Nat → Option Nat) : ∀ (l : List Nat), l.Nodup → ∀ b ∈ l,
    BbClean.lookup (l.map fun b => (⟨b, (G.code b).body, termOf cond (G.code b).last, f b, false⟩ : BbClean.BB (Ins K V) (List (Opr V)))) b =
      some (⟨b, (G.code b).body, termOf cond (G.code b).last, f b, false⟩, follow l b) := by
  intro l
  induction l with
  | nil => intro _ b hb; cases hb
  | cons a l ih =>
    intro hn b hb
    rw [List.map_cons, BbClean.lookup]
    by_cases hab : a = b
    · subst hab
      simp only [if_true, follow]
      cases l <;> rfl
    · simp only [follow, if_neg hab]
      rcases List.mem_cons.1 hb with h | h
      · exact absurd h.symm hab
      · exact ih (List.nodup_cons.1 hn).2 b h

theorem lookup_toBBs (hn : G.order.Nodup) {b : Nat} (hb : b ∈ G.order) :
    BbClean.lookup (toBBs cond G) b = some (⟨b, (G.code b).body, termOf cond (G.code b).last, follow G.order b, false⟩, follow G.order b) :=
  lookup_map _ _ hn b hb

theorem linked_map (f : Nat → BbClean.BB (Ins K V) (List (Opr V))) : ∀ (l : List Nat), (∀ b ∈ l, (f b).label = b) →
    (∀ b ∈ l, (f b).next = follow l b) → l.Nodup → BbClean.Linked (l.map f) := by
  intro l
  induction l with
  | nil => intro _ _ _; trivial
  | cons a l ih =>
    intro h1 h2 hn
    obtain ⟨hn1, hn2⟩ := List.nodup_cons.1 hn
    refine ⟨?_, ih (fun b hb => h1 b (List.mem_cons_of_mem _ hb)) (fun b hb => ?_) hn2⟩
    · have := h2 a (List.mem_cons_self ..)
      rw [follow, if_pos rfl] at this
      rw [this]
      cases l with
      | nil => rfl
      | cons c l =>
        simp only [List.map_cons, List.head?_cons, Option.map_some]
        rw [h1 c (by simp)]
    · have := h2 b (List.mem_cons_of_mem _ hb)
      have hab : a ≠ b := fun e => hn1 (e ▸ hb)
      rw [follow, if_neg hab] at this
      exact this

theorem toBBs_wf (hn : G.order.Nodup) (hc : Stays C G R) (hC : ∀ k, C k → 2 ≤ cond k % 8) : BbClean.WF (toBBs cond G) := by
  refine ⟨?_, ?_, ?_, ?_⟩
  · have : (toBBs cond G).map (·.label) = G.order := by rw [toBBs, List.map_map]; exact List.map_id _
    rw [this]; exact hn
  · exact linked_map _ _ (fun _ _ => rfl) (fun _ _ => rfl) hn
  · intro B hB c o t ht
    obtain ⟨b, hb, rfl⟩ := List.mem_map.1 hB
    have hok := hc.ok b hb
    dsimp only at ht
    cases hl : (G.code b).last with
    | next => rw [hl] at ht; cases ht
    | jmp d => rw [hl] at ht; cases ht; exact .inl rfl
    | cjmp k o1 o2 d =>
      rw [hl] at ht hok
      cases ht
      exact .inr (hC k hok)
    | tjmp o bs => rw [hl] at ht; cases ht
  · intro B hB
    obtain ⟨b, hb, rfl⟩ := List.mem_map.1 hB
    rfl

/-- The two ways to run the container. -/
inductive Same (R : Nat → Prop) : Res V S → BbClean.Config (Out S (Env V × S)) → Prop
  | run {b : Nat} {p : Option Nat} {ρ : Env V} {s : S} : R b → Same R (.run b p ρ s) (.at b (.ok (ρ, s)))
  | done {ρ : Env V} {s : S} : Same R (.done s) (.halt (.ok (ρ, s)))
  | stopAt {b : Nat} {s : S} : R b → Same R (.stop s) (.at b (.stop s))
  | stopHalt {s : S} : Same R (.stop s) (.halt (.stop s))
  | undef {c : BbClean.Config (Out S (Env V × S))} : Same R .undef c

theorem taken_stop {c : Nat} {o : List (Opr V)} {s : S} :
    (sem M mem cmp ho).taken c o (.stop s) = (c == 1 || Cond.holds c .eq) := rfl

theorem same_step (hn : G.order.Nodup) (hphi : ∀ b, (G.code b).phis = []) (hc : Stays C G R)
    (hC : ∀ k, C k → cond k ≠ 1 ∧ ∀ x y, M.test k x y = Cond.holds (cond k) (cmp (cond k / 8) x y)) {r : Res V S}
    {c : BbClean.Config (Out S (Env V × S))} (h : Same R r c) :
    Same R (lstep M mem G (fun _ => 0) r) ((sem M mem cmp ho).step (toBBs cond G) c) := by
  cases h with
  | undef => exact .undef
  | done => exact .done
  | stopHalt => exact .stopHalt
  | stopAt hb =>
    rename_i b s
    have hbo := hc.sub b hb
    have hcl := hc.closed b hb
    have hok := hc.ok b hbo
    simp only [BbClean.Sem.step, lookup_toBBs hn hbo, body_stop]
    show Same R (.stop s) _
    have hgo : ∀ t, (∀ c, t = some c → R c) → Same R (.stop s) (BbClean.goto t (.stop s : Out S (Env V × S))) := by
      intro t ht
      cases t with
      | none => exact .stopHalt
      | some c => exact .stopAt (ht c rfl)
    cases hl : (G.code b).last with
    | next =>
      rw [hl] at hcl
      exact hgo _ (fun c hc' => hcl c (by simp [lsucc, hc']))
    | jmp d =>
      rw [hl] at hcl
      exact .stopAt (hcl d (by simp [lsucc]))
    | cjmp k o1 o2 d =>
      rw [hl] at hcl
      simp only [termOf, BbClean.Sem.leave]
      split
      · exact .stopAt (hcl d (by simp [lsucc]))
      · exact hgo _ (fun c hc' => hcl c (by simp [lsucc, hc']))
    | tjmp o bs =>
      rw [hl] at hcl hok
      simp only [termOf, BbClean.Sem.leave]
      have : (sem M mem cmp ho).sel [o] (.stop s) = 0 := rfl
      rw [this]
      cases bs with
      | nil => exact absurd rfl hok
      | cons d bs => exact .stopAt (hcl d (by simp [lsucc]))
  | run hb =>
    rename_i b p ρ s
    have hbo := hc.sub b hb
    have hcl := hc.closed b hb
    have hok := hc.ok b hbo
    have hen : lenter M mem G (fun _ => 0) b p ρ s = ρ := by
      cases p with
      | none => rfl
      | some q => simp only [lenter, hphi b, Nat.not_lt_zero, if_false]; rfl
    simp only [lstep, if_pos hbo, hen, BbClean.Sem.step, lookup_toBBs hn hbo, body_ok]
    cases hr : runBody M mem (G.code b).body ρ s with
    | undef => exact .undef
    | stop s1 =>
      dsimp only
      have hgo : ∀ t, (∀ c, t = some c → R c) → Same R (.stop s1) (BbClean.goto t (.stop s1 : Out S (Env V × S))) := by
        intro t ht
        cases t with
        | none => exact .stopHalt
        | some c => exact .stopAt (ht c rfl)
      cases hl : (G.code b).last with
      | next =>
        rw [hl] at hcl
        exact hgo _ (fun c hc' => hcl c (by simp [lsucc, hc']))
      | jmp d =>
        rw [hl] at hcl
        exact .stopAt (hcl d (by simp [lsucc]))
      | cjmp k o1 o2 d =>
        rw [hl] at hcl
        simp only [termOf, BbClean.Sem.leave]
        split
        · exact .stopAt (hcl d (by simp [lsucc]))
        · exact hgo _ (fun c hc' => hcl c (by simp [lsucc, hc']))
      | tjmp o bs =>
        rw [hl] at hcl hok
        simp only [termOf, BbClean.Sem.leave]
        have : (sem M mem cmp ho).sel [o] (.stop s1) = 0 := rfl
        rw [this]
        cases bs with
        | nil => exact absurd rfl hok
        | cons d bs => exact .stopAt (hcl d (by simp [lsucc]))
    | ok a =>
      obtain ⟨ρ1, s1⟩ := a
      dsimp only
      cases hl : (G.code b).last with
      | next =>
        rw [hl] at hcl
        simp only [termOf, BbClean.Sem.leave, ltarget]
        cases hf : follow G.order b with
        | none => exact .done
        | some c => exact .run (hcl c (by simp [lsucc, hf]))
      | jmp d =>
        rw [hl] at hcl
        simp only [termOf, BbClean.Sem.leave, ltarget]
        have : (sem M mem cmp ho).taken 1 [] (.ok (ρ1, s1)) = true := rfl
        rw [this, if_pos rfl]
        exact .run (hcl d (by simp [lsucc]))
      | cjmp k o1 o2 d =>
        rw [hl] at hcl hok
        obtain ⟨h1, h2⟩ := hC k hok
        simp only [termOf, BbClean.Sem.leave, ltarget]
        have : (sem M mem cmp ho).taken (cond k) [o1, o2] (.ok (ρ1, s1)) = M.test k (rd M mem ρ1 s1 o1) (rd M mem ρ1 s1 o2) := by
          have e : (cond k == 1) = false := by simpa using h1
          rw [BbClean.Sem.taken, e, Bool.false_or, h2]
          rfl
        rw [this]
        cases M.test k (rd M mem ρ1 s1 o1) (rd M mem ρ1 s1 o2) with
        | true =>
          simp only [if_true]
          exact .run (hcl d (by simp [lsucc]))
        | false =>
          simp only [Bool.false_eq_true, if_false]
          cases hf : follow G.order b with
          | none => exact .done
          | some c => exact .run (hcl c (by simp [lsucc, hf]))
      | tjmp o bs =>
        rw [hl] at hcl
        simp only [termOf, BbClean.Sem.leave, ltarget]
        have : (sem M mem cmp ho).sel [o] (.ok (ρ1, s1)) = M.index (rd M mem ρ1 s1 o) := rfl
        rw [this]
        cases hg : bs[M.index (rd M mem ρ1 s1 o)]? with
        | none => exact .undef
        | some d => exact .run (hcl d (List.mem_of_getElem? hg))

theorem same_run (hn : G.order.Nodup) (hphi : ∀ b, (G.code b).phis = []) (hc : Stays C G R)
    (hC : ∀ k, C k → cond k ≠ 1 ∧ ∀ x y, M.test k x y = Cond.holds (cond k) (cmp (cond k / 8) x y)) (n : Nat) :
    ∀ {r : Res V S} {c : BbClean.Config (Out S (Env V × S))}, Same R r c →
    Same R (iter (lstep M mem G (fun _ => 0)) n r) ((sem M mem cmp ho).run (toBBs cond G) n c) := by
  induction n with
  | zero => intro r c h; exact h
  | succ n ih => intro r c h; exact ih (same_step hn hphi hc hC h)

end

/-! ### Model: the passes one after the other -/

/-- optimize.c:637-648: unreached blocks are emptied, then `peephole`. -/
def tidy (frm : Nat → List Nat) (blocks : List (Block (Peephole.Kind X) Peephole.W)) : List (Block (Peephole.Kind X) Peephole.W) :=
  (clearUnreached frm blocks).map fun B => { B with body := Peephole.peephole B.body }

/-- What the passes are given besides the blocks: the parameters of copy propagation, the registers with `VRF_PARAM`,
those with `VRF_PARAM` or `VRF_REF` (`keep`), the number of registers, the kinds of calls, `invert_cond`, condition codes. -/
structure Options (K V : Type) where
  c : CopyProp.Params K V
  param : Nat → Bool
  keep : Nat → Bool
  n0 : Nat
  call : K → Bool
  inv : K → Option K
  cond : K → Nat

/-- ssa.c:424-430, optimize.c:651-653: `make_ssa`, `copy_propagation`, `remove_unused_vregs`. -/
def inSsa [DecidableEq V] (o : Options K V) (fuel : Nat) (vregs : List Nat) (frm : Nat → List Nat) (blocks : List (Block K V)) :
    Option (List (Block K V)) :=
  ((Ssa.makeSsa o.c.mem o.param o.n0 blocks frm).bind (CopyProp.copyProp o.c frm fuel)).map (Dce.removeUnused o.call o.keep vregs)

/-- ssa.c:431-443, optimize.c:655-657: `resolve_phis`, `remove_unnecessary_bb`.  `bb->phis` is not null in blocks with two
predecessors (ssa.c:144-193). -/
def outOfSsa [DecidableEq V] (o : Options K V) (fuel tmp : Nat) (frm : Nat → List Nat) (blocks : List (Block K V)) :
    Option (List (BbClean.BB (Ins K V) (List (Opr V)))) :=
  (resolvePhis o.inv o.c.mov (fun b => decide (2 ≤ (frm b).length)) fuel ⟨blocks, frm⟩ tmp).bind fun F => BbClean.clean (toBBs o.cond F)

/-- `optimize` with `apply_ssa`, optimize.c:636-664.  The registers from `tmp` on are unused; `fuel` bounds the loops.
The last step, `detect_from_bbs`, changes no code. -/
def optimize [DecidableEq X] (o : Options (Peephole.Kind X) Peephole.W) (fuel tmp : Nat) (vregs : List Nat)
    (blocks : List (Block (Peephole.Kind X) Peephole.W)) :
    Option (List (BbClean.BB (Ins (Peephole.Kind X) Peephole.W) (List (Opr Peephole.W)))) :=
  (inSsa o fuel vregs (fromBbs blocks) (tidy (fromBbs blocks) blocks)).bind (outOfSsa o fuel tmp (fromBbs blocks))

/-- `optimize` without `apply_ssa`, optimize.c:636-664: unreached blocks are emptied, `peephole`, `remove_unused_vregs`,
`remove_unnecessary_bb`. -/
def optimizePlain (call : Peephole.Kind X → Bool) (keep : Nat → Bool) (cond : Peephole.Kind X → Nat) (vregs : List Nat)
    (blocks : List (Block (Peephole.Kind X) Peephole.W)) :
    Option (List (BbClean.BB (Ins (Peephole.Kind X) Peephole.W) (List (Opr Peephole.W)))) :=
  BbClean.clean (toBBs cond (ofProg ⟨Dce.removeUnused call keep vregs (tidy (fromBbs blocks) blocks), fromBbs blocks⟩ 0))

/-! ### What the passes keep -/

/-- The form of the end of a block: everything but condition and operands. -/
def skel : Last K V → Nat × List Nat
  | .next => (0, [])
  | .jmp c => (1, [c])
  | .cjmp _ _ _ c => (2, [c])
  | .tjmp _ bs => (3, bs)

/-- The condition of a jump. -/
def CondIn (C : K → Prop) : Last K V → Prop
  | .cjmp k _ _ _ => C k
  | _ => True

theorem succs_skel {l : Last K V} {V' : Type} {l' : Last K V'} (h : skel l = skel l') (n b : Nat) : succs n b l = succs n b l' := by
  cases l <;> cases l' <;> simp_all [skel, succs]

/-- All instructions satisfy `I`, which looks at the kind and whether there is a destination; jumps test conditions
of `C`. -/
structure Keeps (I : K → Bool → Prop) (C : K → Prop) (B : Block K V) : Prop where
  body : ∀ i ∈ B.body, I i.kind i.dst.isSome
  last : CondIn C B.last

theorem keeps_empty (I : K → Bool → Prop) (C : K → Prop) : Keeps I C (Ssa.emptyBlock : Block K V) :=
  ⟨fun i hi => (by cases hi), trivial⟩

section
variable {I : K → Bool → Prop} {C : K → Prop} {mem : Nat → Bool} {frm : Nat → List Nat}

open Ssa CopyProp

/-! #### make_ssa -/

theorem assign_keeps (is : List (Ins K V)) : ∀ cur ra, (∀ i ∈ is, I i.kind i.dst.isSome) →
    ∀ i ∈ (assign mem is cur ra).1, I i.kind i.dst.isSome := by
  induction is with
  | nil => intro cur ra _ i hi; cases hi
  | cons j is ih =>
    intro cur ra h i hi
    simp only [assign, List.mem_cons] at hi
    rcases hi with rfl | hi
    · have h1 := h j (List.mem_cons_self ..)
      have : (assignDst mem cur ra j.dst).1.isSome = j.dst.isSome := by
        cases hd : j.dst with
        | none => rfl
        | some d =>
          simp only [assignDst]
          split
          · rfl
          · split <;> rfl
      dsimp only
      rw [this]; exact h1
    · exact ih _ _ (fun i hi => h i (List.mem_cons_of_mem _ hi)) i hi

theorem renLast_skel (cur : Cur) (l : Last K V) : skel (renLast mem cur l) = skel l := by cases l <;> rfl

theorem renLast_cond (cur : Cur) {l : Last K V} (h : CondIn C l) : CondIn C (renLast mem cur l) := by cases l <;> exact h

theorem visit_keeps (l : List Nat) : ∀ st : St K V, (∀ b, Keeps I C (st.code b)) →
    (∀ b, Keeps I C ((l.foldl (visit mem frm) st).code b)) ∧
    ∀ b, skel ((l.foldl (visit mem frm) st).code b).last = skel (st.code b).last := by
  induction l with
  | nil => intro st h; exact ⟨h, fun _ => rfl⟩
  | cons a l ih =>
    intro st h
    have hc : ∀ b, Keeps I C ((visit mem frm st a).code b) ∧ skel ((visit mem frm st a).code b).last = skel (st.code b).last := by
      intro b
      simp only [visit, upd]
      split
      · rename_i e
        subst e
        exact ⟨⟨assign_keeps _ _ _ (h b).body, renLast_cond _ (h b).last⟩, renLast_skel _ _⟩
      · exact ⟨h b, rfl⟩
    obtain ⟨h1, h2⟩ := ih (visit mem frm st a) (fun b => (hc b).1)
    exact ⟨h1, fun b => (h2 b).trans (hc b).2⟩

theorem code_cases (blocks : List (Block K V)) (b : Nat) :
    (b < blocks.length ∧ blocks[b]? = some (code blocks b)) ∨ (blocks.length ≤ b ∧ code blocks b = emptyBlock) := by
  by_cases h : b < blocks.length
  · exact .inl ⟨h, by simp [code, List.getElem?_eq_getElem h]⟩
  · exact .inr ⟨by omega, by simp [code, List.getElem?_eq_none (Nat.le_of_not_lt h)]⟩

theorem keeps_code {blocks : List (Block K V)} (h : ∀ B ∈ blocks, Keeps I C B) (b : Nat) : Keeps I C (code blocks b) := by
  rcases code_cases blocks b with ⟨-, h1⟩ | ⟨-, h1⟩
  · exact h _ (List.mem_of_getElem? h1)
  · rw [h1]; exact keeps_empty _ _

theorem makeSsa_keeps {param : Nat → Bool} {n0 : Nat} {blocks P : List (Block K V)} (h : makeSsa mem param n0 blocks frm = some P)
    (hk : ∀ B ∈ blocks, Keeps I C B) :
    P.length = blocks.length ∧ (∀ b, Keeps I C (code P b)) ∧ (∀ b, skel (code P b).last = skel (code blocks b).last) ∧
      ∀ b, (frm b).length < 2 → (code P b).phis = [] := by
  obtain ⟨fl, -, rfl⟩ := Option.map_eq_some_iff.1 h
  have hv := visit_keeps (I := I) (C := C) (mem := mem) (frm := frm) (order (succ blocks) frm (List.range blocks.length) [0])
    { ra := ⟨List.range n0, fun x => param x || mem x⟩, code := fun b => blocks.getD b emptyBlock, ins := fl.ins, outs := fl.outs }
    (fun b => keeps_code hk b)
  have hlen : (withPhis mem blocks.length frm (transform mem param n0 blocks frm fl)).length = blocks.length := by simp [withPhis]
  refine ⟨hlen, ?_, ?_, ?_⟩
  · intro b
    rcases code_cases (withPhis mem blocks.length frm (transform mem param n0 blocks frm fl)) b with ⟨h1, h2⟩ | ⟨-, h2⟩
    · rw [hlen] at h1
      simp only [withPhis, List.getElem?_map, List.getElem?_range h1, Option.map_some, Option.some.injEq] at h2
      rw [withPhis, ← h2]
      exact ⟨(hv.1 b).body, (hv.1 b).last⟩
    · rw [h2]; exact keeps_empty _ _
  · intro b
    rcases code_cases (withPhis mem blocks.length frm (transform mem param n0 blocks frm fl)) b with ⟨h1, h2⟩ | ⟨h1, h2⟩
    · rw [hlen] at h1
      simp only [withPhis, List.getElem?_map, List.getElem?_range h1, Option.map_some, Option.some.injEq] at h2
      rw [withPhis, ← h2]
      exact hv.2 b
    · rw [h2]
      rcases code_cases blocks b with ⟨h3, -⟩ | ⟨-, h3⟩
      · omega
      · rw [h3]
  · intro b hb
    rcases code_cases (withPhis mem blocks.length frm (transform mem param n0 blocks frm fl)) b with ⟨h1, h2⟩ | ⟨-, h2⟩
    · rw [hlen] at h1
      simp only [withPhis, List.getElem?_map, List.getElem?_range h1, Option.map_some, Option.some.injEq] at h2
      rw [withPhis, ← h2]
      exact (insertPhis_spec (mem := mem) (frm := frm) _ _ _ b _ _).1 hb
    · rw [h2]; rfl

/-! #### copy_propagation -/

variable [DecidableEq V]

/-- What holds during copy propagation; `few b`: the block has no phi functions. -/
def During (I : K → Bool → Prop) (C : K → Prop) (few : Nat → Prop) (blocks : List (Block K V)) : Prop :=
  ∀ b, Keeps I C (code blocks b) ∧ (few b → (code blocks b).phis = [])

omit [DecidableEq V] in
theorem code_set (blocks : List (Block K V)) (b : Nat) (B : Block K V) (d : Nat) :
    code (blocks.set b B) d = B ∨ code (blocks.set b B) d = code blocks d := by
  simp only [code, List.getD_eq_getElem?_getD, List.getElem?_set]
  split
  · split
    · exact .inl rfl
    · rename_i h1 h2
      subst h1
      rw [List.getElem?_eq_none (Nat.le_of_not_lt h2)]
      exact .inr rfl
  · exact .inr rfl

omit [DecidableEq V] in
theorem code_set_ne (blocks : List (Block K V)) {b d : Nat} (B : Block K V) (h : d ≠ b) :
    code (blocks.set b B) d = code blocks d := by
  simp only [code, List.getD_eq_getElem?_getD, List.getElem?_set, if_neg (Ne.symm h)]

omit [DecidableEq V] in
theorem During.set {few : Nat → Prop} {blocks : List (Block K V)} (h : During I C few blocks) {b : Nat} {B : Block K V}
    (h1 : Keeps I C B) (h2 : few b → B.phis = []) : During I C few (blocks.set b B) := by
  intro d
  by_cases hd : d = b
  · subst hd
    rcases code_set blocks d B d with e | e
    · rw [e]; exact ⟨h1, h2⟩
    · rw [e]; exact h d
  · rw [code_set_ne _ _ hd]; exact h d

theorem replaceIrs_keeps (t : Nat) (a : Opr V) (is : List (Ins K V)) : (∀ i ∈ is, I i.kind i.dst.isSome) →
    ∀ i ∈ (replaceIrs t a is).1, I i.kind i.dst.isSome := by
  induction is with
  | nil => intro _ i hi; cases hi
  | cons j is ih =>
    intro h i hi
    rw [replaceIrs] at hi
    split at hi
    · exact h i hi
    · rcases List.mem_cons.1 hi with rfl | hi
      · exact h j (List.mem_cons_self ..)
      · exact ih (fun i hi => h i (List.mem_cons_of_mem _ hi)) i hi

theorem replaceBlock_keeps {t : Nat} {a : Opr V} {B : Block K V} (h : Keeps I C B) : Keeps I C (replaceBlock t a B) := by
  refine ⟨replaceIrs_keeps t a _ h.body, ?_⟩
  have := h.last
  simp only [replaceBlock]
  split
  · exact this
  · revert this
    cases B.last <;> exact id

theorem replaceRegister_during {few : Nat → Prop} {blocks : List (Block K V)} (h : During I C few blocks) (t : Nat) (a : Opr V) :
    During I C few (replaceRegister mem t a blocks) := by
  unfold replaceRegister
  split
  · exact h
  · intro b
    rcases code_cases (blocks.map (replaceBlock t a)) b with ⟨h1, h2⟩ | ⟨-, h2⟩
    · rw [List.length_map] at h1
      rcases code_cases blocks b with ⟨-, h3⟩ | ⟨h4, -⟩
      · rw [List.getElem?_map, h3, Option.map_some, Option.some.injEq] at h2
        rw [← h2]
        refine ⟨replaceBlock_keeps (h b).1, fun hf => ?_⟩
        simp only [replaceBlock, (h b).2 hf, List.map_nil]
      · omega
    · rw [h2]; exact ⟨keeps_empty _ _, fun _ => rfl⟩

theorem phiLoop_during {few : Nat → Prop} {mov : K} (hmov : I mov true) (b : Nat) (φs : List (Phi V)) : ∀ (kept : List (Phi V)) (blocks : List (Block K V)),
    (few b → φs = []) → During I C few blocks → During I C few (phiLoop mov b kept φs blocks) := by
  induction φs with
  | nil => intro kept blocks _ h; exact h
  | cons φ φs ih =>
    intro kept blocks hf h
    rw [phiLoop]
    have hnf : ¬ few b := fun hb => by cases hf hb
    cases onlyValue φ with
    | none => exact ih _ _ (fun hb => absurd hb hnf) h
    | some v =>
      refine ih _ _ (fun hb => absurd hb hnf) (h.set ⟨?_, (h b).1.last⟩ (fun hb => absurd hb hnf))
      intro i hi
      rcases List.mem_cons.1 hi with rfl | hi
      · exact hmov
      · exact (h b).1.body i hi

theorem irStep_during {few : Nat → Prop} {c : Params K V}
    (hfold : ∀ i i', c.fold i = some i' → I i.kind i.dst.isSome → I i'.kind i'.dst.isSome) (b j : Nat) {st : List (Block K V) × Bool}
    (h : During I C few st.1) : During I C few (irStep c b j st).1 := by
  unfold irStep
  cases hj : (code st.1 b).body[j]? with
  | none => exact h
  | some i =>
    dsimp only
    have hi : I i.kind i.dst.isSome := (h b).1.body i (List.mem_of_getElem? hj)
    have hi1 : I ((c.fold i).getD i).kind ((c.fold i).getD i).dst.isSome := by
      cases hf : c.fold i with
      | none => exact hi
      | some i' => exact hfold i i' hf hi
    have hs : During I C few (st.1.set b { code st.1 b with body := (code st.1 b).body.set j ((c.fold i).getD i) }) := by
      refine h.set ⟨?_, (h b).1.last⟩ (h b).2
      intro k hk
      rcases List.mem_or_eq_of_mem_set hk with hk | rfl
      · exact (h b).1.body k hk
      · exact hi1
    split
    · split
      · split
        · exact hs
        · exact replaceRegister_during hs _ _
      · exact hs
    · exact hs

omit [DecidableEq V] in
theorem lastStep_during {few : Nat → Prop} {c : Params K V} (hlast : ∀ l l', c.foldLast l = some l' → CondIn C l → CondIn C l')
    (b : Nat) {blocks : List (Block K V)} (h : During I C few blocks) : During I C few (lastStep c b blocks) := by
  refine h.set ⟨(h b).1.body, ?_⟩ (h b).2
  dsimp only
  cases hf : c.foldLast (code blocks b).last with
  | none => exact (h b).1.last
  | some l' => exact hlast _ _ hf (h b).1.last

theorem foldl_during {few : Nat → Prop} {α : Type} (f : List (Block K V) × Bool → α → List (Block K V) × Bool)
    (hf : ∀ st a, During I C few st.1 → During I C few (f st a).1) (l : List α) : ∀ st, During I C few st.1 →
    During I C few (l.foldl f st).1 := by
  induction l with
  | nil => intro st h; exact h
  | cons a l ih => intro st h; exact ih _ (hf st a h)

theorem copyProp_during {few : Nat → Prop} {c : Params K V} (hmov : I c.mov true)
    (hfold : ∀ i i', c.fold i = some i' → I i.kind i.dst.isSome → I i'.kind i'.dst.isSome)
    (hlast : ∀ l l', c.foldLast l = some l' → CondIn C l → CondIn C l') :
    ∀ (n : Nat) (P Q : List (Block K V)), During I C few P → copyProp c frm n P = some Q → During I C few Q := by
  intro n
  induction n with
  | zero => intro P Q _ h; cases h
  | succ n ih =>
    intro P Q hP h
    have hr : During I C few (CopyProp.round c frm P).1 := by
      apply foldl_during _ _ _ _ hP
      intro st b hst
      unfold blockStep
      split
      · exact hst
      · apply lastStep_during hlast
        apply foldl_during
        · intro st j hst
          exact irStep_during hfold b j hst
        · exact phiLoop_during hmov b _ _ _ (hst b).2 hst
    rw [copyProp] at h
    split at h
    · exact ih _ _ hr h
    · cases h; exact hr

end

/-! #### remove_unused_vregs -/

/-- Instructions and phi functions were removed. -/
def Less (D Q : List (Block K V)) : Prop :=
  D.length = Q.length ∧ ∀ b, (CopyProp.code D b).last = (CopyProp.code Q b).last ∧ (CopyProp.code D b).phis.Sublist (CopyProp.code Q b).phis

theorem Less.trans {A B D : List (Block K V)} (h1 : Less A B) (h2 : Less B D) : Less A D :=
  ⟨h1.1.trans h2.1, fun b => ⟨(h1.2 b).1.trans (h2.2 b).1, (h1.2 b).2.trans (h2.2 b).2⟩⟩

theorem cleanAll_less (call : K → Bool) (read : Nat → Bool) (Q : List (Block K V)) : Less (Dce.cleanAll call read Q) Q := by
  refine ⟨by simp [Dce.cleanAll], fun b => ?_⟩
  simp only [CopyProp.code, Dce.cleanAll, List.getD_eq_getElem?_getD, List.getElem?_map]
  cases Q[b]? with
  | none => exact ⟨rfl, List.Sublist.refl _⟩
  | some B => exact ⟨rfl, List.filter_sublist⟩

theorem removeUnused_less (call : K → Bool) (keep : Nat → Bool) (vregs : List Nat) (Q : List (Block K V)) :
    Less (Dce.removeUnused call keep vregs Q) Q := by
  fun_induction Dce.removeUnused call keep vregs Q with
  | case1 vregs Q h ih => exact ih.trans (cleanAll_less _ _ _)
  | case2 vregs Q h => exact cleanAll_less _ _ _

/-! #### The first two passes -/

section
open Peephole

theorem tidy_get (frm : Nat → List Nat) (blocks : List (Block (Kind X) W)) (b : Nat) :
    (tidy frm blocks)[b]? = (blocks[b]?).map fun B =>
      if b ≠ 0 ∧ (frm b).length = 0 then ⟨B.phis, [], .next⟩ else { B with body := peephole B.body } := by
  simp only [tidy, clearUnreached, List.getElem?_map, List.getElem?_mapIdx, Option.map_map]
  congr 1
  funext B
  simp only [Function.comp]
  split
  · simp [peephole]
  · rfl

theorem tidy_length (frm : Nat → List Nat) (blocks : List (Block (Kind X) W)) : (tidy frm blocks).length = blocks.length := by
  simp [tidy, clearUnreached]

theorem tidy_mem {frm : Nat → List Nat} {blocks : List (Block (Kind X) W)} {B : Block (Kind X) W} (h : B ∈ tidy frm blocks) :
    ∃ B0 ∈ blocks, B = ⟨B0.phis, [], .next⟩ ∨ B = { B0 with body := peephole B0.body } := by
  obtain ⟨b, hb⟩ := List.mem_iff_getElem?.1 h
  rw [tidy_get] at hb
  obtain ⟨B0, h0, h1⟩ := Option.map_eq_some_iff.1 hb
  refine ⟨B0, List.mem_of_getElem? h0, ?_⟩
  split at h1
  · exact .inl h1.symm
  · exact .inr h1.symm

/-- Instructions of the result are old ones, or address calculations and sums with registers of old ones. -/
theorem peephole_mem {P : Ins (Kind X) W → Prop} (hP : ∀ i n n', P i → P n → merge i n = some n' → P n') (is : List (Ins (Kind X) W)) :
    (∀ i ∈ is, P i) → ∀ i ∈ peephole is, P i := by
  fun_induction peephole is with
  | case1 i n is ih =>
    intro h j hj
    rcases List.mem_cons.1 hj with rfl | hj
    · exact h _ (List.mem_cons_self ..)
    · refine ih ?_ j hj
      intro k hk
      rcases List.mem_cons.1 hk with rfl | hk
      · cases hm : merge i n with
        | none => exact h n (by simp)
        | some n' => exact hP i n n' (h i (by simp)) (h n (by simp)) hm
      · exact h k (by simp [hk])
  | case2 is h => intro h; exact h

variable {frm : Nat → List Nat} {blocks : List (Block (Kind X) W)}

theorem tidy_succ (b : Nat) : succ (tidy frm blocks) b = succ blocks b ∨
    (b ≠ 0 ∧ frm b = [] ∧ ∀ c ∈ succ (tidy frm blocks) b, c < blocks.length) := by
  unfold succ
  rw [tidy_get, tidy_length]
  cases blocks[b]? with
  | none => exact .inl rfl
  | some B =>
    simp only [Option.map_some]
    split
    · rename_i h
      refine .inr ⟨h.1, List.length_eq_zero_iff.1 h.2, ?_⟩
      intro c hc
      simp only [succs] at hc
      split at hc
      · rw [List.mem_singleton.1 hc]; assumption
      · cases hc
    · exact .inl rfl

theorem tidy_wf (h : WellFormed blocks) : WellFormed (tidy frm blocks) := by
  intro b c hc
  rw [tidy_length]
  rcases tidy_succ (frm := frm) (blocks := blocks) b with h1 | ⟨-, -, h1⟩
  · rw [h1] at hc; exact h b c hc
  · exact h1 c hc

theorem reached_succ (h : Exact (succ blocks) frm) {b : Nat} (hb : Reach (succ blocks) b) : succ (tidy frm blocks) b = succ blocks b := by
  rcases tidy_succ (frm := frm) (blocks := blocks) b with h1 | ⟨h0, h1, -⟩
  · exact h1
  · cases hb with
    | zero => exact absurd rfl h0
    | step hp hc =>
      have := h.mem.2 ⟨hp, hc⟩
      rw [h1] at this; cases this

theorem tidy_reach (h : Exact (succ blocks) frm) (b : Nat) : Reach (succ (tidy frm blocks)) b ↔ Reach (succ blocks) b := by
  constructor
  · intro hb
    induction hb with
    | zero => exact .zero
    | step _ hc ih => rw [reached_succ h ih] at hc; exact ih.step hc
  · intro hb
    induction hb with
    | zero => exact .zero
    | step hp hc ih => rw [← reached_succ h hp] at hc; exact ih.step hc

theorem tidy_exact (h : Exact (succ blocks) frm) : Exact (succ (tidy frm blocks)) frm := by
  intro p c
  rw [tidy_reach h p]
  refine ⟨fun hp => ?_, (h p c).2⟩
  rw [reached_succ h hp]
  exact (h p c).1 hp

theorem tidy_clear (h : Exact (succ blocks) frm) (b : Nat) (hb : ¬ Reach (succ (tidy frm blocks)) b) :
    ∀ B, (tidy frm blocks)[b]? = some B → B.body = [] := by
  intro B hB
  rw [tidy_reach h] at hb
  rw [tidy_get] at hB
  obtain ⟨B0, -, rfl⟩ := Option.map_eq_some_iff.1 hB
  have hb0 : b ≠ 0 := fun e => hb (e ▸ .zero)
  have hf : frm b = [] := by
    cases hf : frm b with
    | nil => rfl
    | cons p ps =>
      obtain ⟨h1, h2⟩ := h.mem.1 (show p ∈ frm b by rw [hf]; exact List.mem_cons_self ..)
      exact absurd (h1.step h2) hb
  rw [if_pos ⟨hb0, by rw [hf]; rfl⟩]

/-- The registers of an instruction. -/
def LowIns (n0 : Nat) (i : Ins K V) : Prop := ∀ r, i.dst = some r ∨ i.o1 = some (.reg r) ∨ i.o2 = some (.reg r) → r < n0

/-- The registers of the end of a block. -/
def LowLast (n0 : Nat) (l : Last K V) : Prop := ∀ r, .reg r ∈ lastOprs l → r < n0

theorem low_irs {n0 : Nat} {B : Block K V} (h1 : ∀ i ∈ B.body, LowIns n0 i) (h2 : LowLast n0 B.last) :
    ∀ ir ∈ Ssa.blockIrs B, ∀ r, ir.dst = some r ∨ ir.opr1 = some r ∨ ir.opr2 = some r → r < n0 := by
  have hreg : ∀ (o : Option (Opr V)) r, o.bind Ssa.regOf = some r → o = some (.reg r) := by
    intro o r h
    cases o with
    | none => cases h
    | some o =>
      cases o with
      | const v => cases h
      | reg q => cases h; rfl
  have hreg' : ∀ (o : Opr V) r, Ssa.regOf o = some r → o = .reg r := by
    intro o r h
    cases o with
    | const v => cases h
    | reg q => cases h; rfl
  intro ir hir r hr
  rcases List.mem_append.1 hir with h | h
  · obtain ⟨i, hi, rfl⟩ := List.mem_map.1 h
    apply h1 i hi r
    rcases hr with h | h | h
    · exact .inl h
    · exact .inr (.inl (hreg _ _ h))
    · exact .inr (.inr (hreg _ _ h))
  · apply h2 r
    cases hl : B.last with
    | next => rw [hl] at h; cases h
    | jmp c => rw [hl] at h; cases h
    | cjmp k o1 o2 d =>
      rw [hl] at h
      rw [List.mem_singleton.1 h] at hr
      simp only [reduceCtorEq, false_or] at hr
      simp only [lastOprs, List.mem_cons, List.not_mem_nil, or_false]
      exact hr.imp (fun h => (hreg' _ _ h).symm) (fun h => (hreg' _ _ h).symm)
    | tjmp o bs =>
      rw [hl] at h
      rw [List.mem_singleton.1 h] at hr
      simp only [reduceCtorEq, false_or, or_false] at hr
      simp only [lastOprs, List.mem_cons, List.not_mem_nil, or_false]
      exact (hreg' _ _ hr).symm

theorem merge_low {n0 : Nat} {i n n' : Ins (Kind X) W} (hi : LowIns n0 i) (hn : LowIns n0 n) (hm : merge i n = some n') : LowIns n0 n' := by
  have ho2 : n'.o2 = i.o2 ∨ ∃ v, n'.o2 = some (.const v) := by
    unfold merge at hm
    split at hm
    · obtain ⟨⟨c, w⟩, -, rfl⟩ := Option.map_eq_some_iff.1 hm; exact .inl rfl
    · obtain ⟨⟨c, w⟩, -, rfl⟩ := Option.map_eq_some_iff.1 hm; exact .inl rfl
    · split at hm
      · obtain ⟨⟨c, w⟩, -, rfl⟩ := Option.map_eq_some_iff.1 hm; exact .inr ⟨_, rfl⟩
      · cases hm
    · cases hm
  obtain ⟨h1, h2, -⟩ := merge_shape hm
  intro r hr
  rw [h1, h2] at hr
  rcases hr with h | h | h
  · exact hn r (.inl h)
  · exact hi r (.inr (.inl h))
  · rcases ho2 with e | ⟨v, e⟩
    · rw [e] at h; exact hi r (.inr (.inr h))
    · rw [e] at h; cases h

end

/-! #### Everything together -/

theorem bounded (l : List Nat) : ∃ n, ∀ x ∈ l, x < n := by
  induction l with
  | nil => exact ⟨0, fun x hx => by cases hx⟩
  | cons a l ih =>
    obtain ⟨n, hn⟩ := ih
    refine ⟨max n (a + 1), fun x hx => ?_⟩
    rcases List.mem_cons.1 hx with rfl | hx
    · omega
    · have := hn x hx; omega

theorem regs_block (B : Block K V) : ∃ l : List Nat, ∀ r, RegIn r B → r ∈ l := by
  refine ⟨B.phis.flatMap (fun φ => φ.dst :: φ.params.filterMap regOf) ++
    B.body.flatMap (fun i => i.dst.toList ++ (i.o1.bind regOf).toList ++ (i.o2.bind regOf).toList) ++ (lastOprs B.last).filterMap regOf, ?_⟩
  intro r hr
  simp only [List.mem_append, List.mem_flatMap]
  rcases hr with ⟨φ, h1, h2⟩ | ⟨i, h1, h2⟩ | h
  · refine .inl (.inl ⟨φ, h1, ?_⟩)
    rcases h2 with rfl | h2
    · exact List.mem_cons_self ..
    · exact List.mem_cons_of_mem _ (List.mem_filterMap.2 ⟨_, h2, rfl⟩)
  · refine .inl (.inr ⟨i, h1, ?_⟩)
    rcases h2 with h | h | h
    · simp [h]
    · simp [h, regOf]
    · simp [h, regOf]
  · exact .inr (List.mem_filterMap.2 ⟨_, h, rfl⟩)

theorem regs_finite (blocks : List (Block K V)) : ∃ n, ∀ B ∈ blocks, ∀ r, RegIn r B → r < n := by
  induction blocks with
  | nil => exact ⟨0, fun B hB => by cases hB⟩
  | cons A l ih =>
    obtain ⟨n, hn⟩ := ih
    obtain ⟨l', hl⟩ := regs_block A
    obtain ⟨m, hm⟩ := bounded l'
    refine ⟨max n m, fun B hB r hr => ?_⟩
    rcases List.mem_cons.1 hB with rfl | hB
    · have := hm r (hl r hr); omega
    · have := hn B hB r hr; omega

/-! ### Specification -/

/-- What the final code does, as seen from outside: `obs n` is what the given code has done after `n` blocks, `run n` what
the final code has done.  It returns if the given code returns, and with the same effects; it stops (a call of `exit`,
say) if the given code stops; on its way it passes all the effects the given code passes; it is not stuck. -/
structure Behaves (obs : Nat → Obs S) (run : Nat → BbClean.Config (Out S (Env V × S))) : Prop where
  done : ∀ t, (∃ n, obs n = .done t) ↔ ∃ n ρ, run n = .halt (.ok (ρ, t))
  stop : ∀ t, (∃ n, obs n = .stop t) ↔ ∃ n, (run n).state = some (.stop t)
  passes : ∀ n b t, obs n = .at b t → ∃ m ρ, (run m).state = some (.ok (ρ, t))
  defined : ∀ n, (run n).state ≠ some .undef ∧ run n ≠ .stuck

/-- Phi functions whose moves are known to be right (C44): at most three, or none reads another. -/
def Easy (phis : List (Phi V)) : Prop :=
  phis.length ≤ 3 ∨ ∀ φ ∈ phis, ∀ ψ ∈ phis, .reg φ.dst ∈ ψ.params → ψ = φ

/-- The machine fits the passes: sums are sums and have no other effect, conditions are what their codes say. -/
structure FitsPlain (M : Machine (Peephole.Kind X) Peephole.W S) (cond : Peephole.Kind X → Nat) (C : Peephole.Kind X → Prop)
    (cmp : Nat → Peephole.W → Peephole.W → Cond.Cmp) : Prop where
  adds : Peephole.Adds M
  sums : ∀ w, Dce.Pure M (.add w)
  codes : ∀ k, C k → 2 ≤ cond k % 8 ∧ ∀ x y, M.test k x y = Cond.holds (cond k) (cmp (cond k / 8) x y)

/-- What the code generator hands over. -/
structure GivenPlain (M : Machine (Peephole.Kind X) Peephole.W S) (mem keep : Nat → Bool) (call : Peephole.Kind X → Bool)
    (C : Peephole.Kind X → Prop) (size : Nat → Nat) (blocks : List (Block (Peephole.Kind X) Peephole.W)) : Prop where
  wf : WellFormed blocks
  ne : blocks ≠ []
  nophi : ∀ B ∈ blocks, B.phis = []
  keep : ∀ r, mem r = true → keep r = true
  shape : ∀ B ∈ blocks, Shape C B.last
  clean : ∀ B ∈ blocks, Peephole.Clean mem size B.body
  pure : Dce.PureDsts M call blocks

/-- The machine and the options fit: sums are sums, folding keeps the meaning and the set `C` of conditions, which can be
inverted and are what the condition codes say; moves and sums have no other effect than their result. -/
structure Fits (M : Machine (Peephole.Kind X) Peephole.W S) (o : Options (Peephole.Kind X) Peephole.W) (C : Peephole.Kind X → Prop)
    (cmp : Nat → Peephole.W → Peephole.W → Cond.Cmp) : Prop where
  adds : Peephole.Adds M
  sums : ∀ w, Dce.Pure M (.add w)
  params : o.c.Ok M
  mov : Dce.Pure M o.c.mov
  fold : ∀ i i', o.c.fold i = some i' → (i.dst ≠ none → o.call i.kind = false → Dce.Pure M i.kind) →
    i'.dst ≠ none → o.call i'.kind = false → Dce.Pure M i'.kind
  foldLast : ∀ l l', o.c.foldLast l = some l' → CondIn C l → CondIn C l'
  flips : Flips M o.inv C
  codes : ∀ k, C k → 2 ≤ o.cond k % 8 ∧ ∀ x y, M.test k x y = Cond.holds (o.cond k) (cmp (o.cond k / 8) x y)

/-- What the code generator hands over. -/
structure Given (M : Machine (Peephole.Kind X) Peephole.W S) (o : Options (Peephole.Kind X) Peephole.W) (C : Peephole.Kind X → Prop)
    (size : Nat → Nat) (blocks : List (Block (Peephole.Kind X) Peephole.W)) : Prop where
  wf : WellFormed blocks
  ne : blocks ≠ []
  start : fromBbs blocks 0 = []
  nophi : ∀ B ∈ blocks, B.phis = []
  low : ∀ B ∈ blocks, (∀ i ∈ B.body, LowIns o.n0 i) ∧ LowLast o.n0 B.last
  mem : ∀ r, o.n0 ≤ r → o.c.mem r = false
  param : ∀ r, o.n0 ≤ r → o.param r = false
  keep : ∀ r, o.c.mem r = true → o.keep r = true
  init : ∀ x, o.c.mem x = false → CopyProp.Live (tidy (fromBbs blocks) blocks) (fromBbs blocks) x 0
    (CopyProp.code (tidy (fromBbs blocks) blocks) 0).body → o.param x = true
  cond : ∀ (b : Nat) (B : Block (Peephole.Kind X) Peephole.W) k o1 o2 d, blocks[b]? = some B → B.last = .cjmp k o1 o2 d →
    C k ∧ b + 1 < blocks.length ∧ d ≠ b + 1
  table : ∀ (b : Nat) (B : Block (Peephole.Kind X) Peephole.W) x bs, blocks[b]? = some B → B.last = .tjmp x bs →
    b + 1 < blocks.length ∧ bs ≠ []
  clean : ∀ B ∈ blocks, Peephole.Clean o.c.mem size B.body
  pure : Dce.PureDsts M o.call blocks

section
variable [DecidableEq X] {M : Machine (Peephole.Kind X) Peephole.W S} {o : Options (Peephole.Kind X) Peephole.W} {C : Peephole.Kind X → Prop}
  {cmp : Nat → Peephole.W → Peephole.W → Cond.Cmp} {size : Nat → Nat} {blocks : List (Block (Peephole.Kind X) Peephole.W)}

theorem succ_code (l : List (Block K V)) {b : Nat} (hb : b < l.length) : succ l b = succs l.length b (CopyProp.code l b).last := by
  rcases code_cases l b with ⟨-, h⟩ | ⟨h, -⟩
  · simp [succ, h]
  · omega

omit [DecidableEq X] in
theorem Fits.plain (h : Fits M o C cmp) : FitsPlain M o.cond C cmp := ⟨h.adds, h.sums, h.codes⟩

omit [DecidableEq X] in
theorem Given.plain (h : Given M o C size blocks) : GivenPlain M o.c.mem o.keep o.call C size blocks := by
  refine ⟨h.wf, h.ne, h.nophi, h.keep, fun B hB => ?_, h.clean, h.pure⟩
  obtain ⟨b, hb⟩ := List.mem_iff_getElem?.1 hB
  cases hl : B.last with
  | next => trivial
  | jmp d => trivial
  | cjmp k o1 o2 d => exact (h.cond b B k o1 o2 d hb hl).1
  | tjmp x bs => exact (h.table b B x bs hb hl).2

omit [DecidableEq X] in
theorem tidy_keeps {mem keep : Nat → Bool} {call : Peephole.Kind X → Bool} {cond : Peephole.Kind X → Nat} (hf : FitsPlain M cond C cmp)
    (h : GivenPlain M mem keep call C size blocks) : ∀ B ∈ tidy (fromBbs blocks) blocks,
    Keeps (fun k d => d = true → call k = false → Dce.Pure M k) C B := by
  intro B hB
  obtain ⟨B0, h0, h1⟩ := tidy_mem hB
  rcases h1 with rfl | rfl
  · exact ⟨fun i hi => (by cases hi), trivial⟩
  · refine ⟨?_, ?_⟩
    · apply peephole_mem (P := fun i => i.dst.isSome = true → call i.kind = false → Dce.Pure M i.kind)
      · intro i n n' hi hn hm hd hc
        obtain ⟨-, -, h2⟩ := Peephole.merge_shape hm
        rcases h2 with ⟨-, ⟨f, x, e⟩ | ⟨l, x, e⟩⟩ | ⟨-, w, c, -, e⟩
        · rw [e]
          obtain ⟨base, hb⟩ := hf.adds.bofs
          exact fun a b s => .inl ⟨_, hb f x a b s⟩
        · rw [e]
          obtain ⟨base, hb⟩ := hf.adds.iofs
          exact fun a b s => .inl ⟨_, hb l x a b s⟩
        · rw [e]; exact hf.sums w
      · intro i hi hd hc
        exact h.pure B0 h0 i hi (by intro e; rw [e] at hd; cases hd) hc
    · show CondIn C B0.last
      cases hl : B0.last with
      | cjmp k o1 o2 d =>
        have := h.shape B0 h0
        rw [hl] at this
        exact this
      | _ => trivial

omit [DecidableEq X] in
theorem tidy_refines {mem keep : Nat → Bool} {call : Peephole.Kind X → Bool} {cond : Peephole.Kind X → Nat} (hf : FitsPlain M cond C cmp)
    (h : GivenPlain M mem keep call C size blocks) :
    Refines M mem ⟨blocks, fromBbs blocks⟩ ⟨tidy (fromBbs blocks) blocks, fromBbs blocks⟩ := by
  refine (clearUnreached_refines (fromBbs_exact h.wf h.ne)).trans (Peephole.peephole_refines (size := size) hf.adds ?_)
  intro B hB
  obtain ⟨b, hb⟩ := List.mem_iff_getElem?.1 hB
  simp only [clearUnreached, List.getElem?_mapIdx] at hb
  obtain ⟨B0, h0, h1⟩ := Option.map_eq_some_iff.1 hb
  split at h1
  · rw [← h1]
    exact ⟨fun i hi => (by cases hi), List.Pairwise.nil, fun i hi => (by cases hi), fun i hi => (by cases hi)⟩
  · rw [← h1]; exact h.clean B0 (List.mem_of_getElem? h0)

omit [DecidableEq X] in
theorem tidy_input (h : Given M o C size blocks) : Ssa.Input o.c.mem o.n0 (tidy (fromBbs blocks) blocks) (fromBbs blocks) := by
  refine ⟨tidy_wf h.wf, ?_, tidy_exact (fromBbs_exact h.wf h.ne), h.start, ?_, ?_, h.mem⟩
  · intro e
    apply h.ne
    rw [← List.length_eq_zero_iff, ← tidy_length (fromBbs blocks), e]
    rfl
  · intro B hB
    obtain ⟨B0, h0, rfl | rfl⟩ := tidy_mem hB
    · exact h.nophi B0 h0
    · exact h.nophi B0 h0
  · intro B hB
    obtain ⟨B0, h0, rfl | rfl⟩ := tidy_mem hB
    · exact low_irs (fun i hi => by cases hi) (fun r hr => by cases hr)
    · exact low_irs (peephole_mem (fun i n n' => merge_low) _ (h.low B0 h0).1) (h.low B0 h0).2

/-- The function in SSA form, after the optimizations on it, fits the last passes. -/
theorem inSsa_spec (hf : Fits M o C cmp) (h : Given M o C size blocks) (vregs : List Nat)
    (hD : ∀ fuel D, inSsa o fuel vregs (fromBbs blocks) (tidy (fromBbs blocks) blocks) = some D →
      (∀ b, skel (CopyProp.code D b).last = skel (CopyProp.code (tidy (fromBbs blocks) blocks) b).last) ∧ ∀ B ∈ D, Easy B.phis) :
    ∃ D N T, (∀ fuel, N < fuel → inSsa o fuel vregs (fromBbs blocks) (tidy (fromBbs blocks) blocks) = some D) ∧
      Refines M o.c.mem ⟨blocks, fromBbs blocks⟩ ⟨D, fromBbs blocks⟩ ∧
      ∀ tmp, T ≤ tmp → ResolvePhis.Input o.c.mem C (fun b => decide (2 ≤ (fromBbs blocks b).length)) tmp ⟨D, fromBbs blocks⟩ := by
  have hin := tidy_input h
  have hex := fromBbs_exact h.wf h.ne
  obtain ⟨P, Q, N, h1, h2, h3, h4⟩ := CopyProp.ssa_copyProp_refines (M := M) (param := o.param) hf.params hin (tidy_clear hex) h.param h.init
  obtain ⟨h5, h6, -, h8⟩ := makeSsa_keeps h1 (tidy_keeps hf.plain h.plain)
  have hdur : During (fun k d => d = true → o.call k = false → Dce.Pure M k) C (fun b => (fromBbs blocks b).length < 2) Q := by
    refine copyProp_during (fun _ _ => hf.mov) ?_ hf.foldLast (N + 1) P Q (fun b => ⟨h6 b, h8 b⟩) (h2 _ (Nat.lt_succ_self _))
    intro i i' hi hI hd hc
    refine hf.fold i i' hi (fun h1 h2 => hI (Option.isSome_iff_ne_none.2 h1) h2) (Option.isSome_iff_ne_none.1 hd) hc
  have hpure : Dce.PureDsts M o.call Q := by
    intro B hB i hi hd hc
    obtain ⟨b, hb⟩ := List.mem_iff_getElem?.1 hB
    have : CopyProp.code Q b = B := by simp [CopyProp.code, hb]
    exact (hdur b).1.body i (by rw [this]; exact hi) (Option.isSome_iff_ne_none.2 hd) hc
  have hD0 : ∀ fuel, N < fuel → inSsa o fuel vregs (fromBbs blocks) (tidy (fromBbs blocks) blocks) =
      some (Dce.removeUnused o.call o.keep vregs Q) := by
    intro fuel hfu
    simp only [inSsa, h1, Option.bind_some, h2 fuel hfu, Option.map_some]
  obtain ⟨hlen, hless⟩ := removeUnused_less o.call o.keep vregs Q
  obtain ⟨hsk, heasy⟩ := hD (N + 1) _ (hD0 _ (Nat.lt_succ_self _))
  have href := (tidy_refines hf.plain h.plain).trans (h3.trans (Dce.removeUnused_refines_partial (frm := fromBbs blocks) h.keep vregs Q hpure))
  generalize Dce.removeUnused o.call o.keep vregs Q = D at hD0 hlen hless hsk heasy href
  obtain ⟨T, hT⟩ := regs_finite D
  refine ⟨D, N, max T o.n0, hD0, href, ?_⟩
  intro tmp htmp
  -- the length
  have hQlen : Q.length = (tidy (fromBbs blocks) blocks).length := by
    obtain ⟨L, hL⟩ := CopyProp.used_finite P
    obtain ⟨P', h1', hst⟩ := CopyProp.makeSsa_strict hin (tidy_clear hex) h.param h.init
    rw [h1] at h1'; cases h1'
    obtain ⟨Q', h9, h10, -⟩ := CopyProp.copyProp_good (M := M) hf.params (CopyProp.Input.graph hin) (L.length + 1) L P hst hL (by omega)
    have e1 := h2 (max (N + 1) (L.length + 1)) (by omega)
    have e2 := CopyProp.copyProp_mono _ h9 (show L.length + 1 ≤ max (N + 1) (L.length + 1) by omega)
    rw [e1] at e2; cases e2
    rw [h10.len, h5]
  have hDlen : D.length = (tidy (fromBbs blocks) blocks).length := hlen.trans hQlen
  have hsucc : succ D = succ (tidy (fromBbs blocks) blocks) := by
    funext b
    by_cases hb : b < D.length
    · rw [succ_code D hb, succ_code _ (by rw [← hDlen]; exact hb), hDlen]
      exact succs_skel (hsk b) _ _
    · simp only [succ]
      rw [List.getElem?_eq_none (by omega), List.getElem?_eq_none (by omega)]
  have hcode : ∀ (b : Nat) (B : Block (Peephole.Kind X) Peephole.W), D[b]? = some B → CopyProp.code D b = B := by
    intro b B hb; simp [CopyProp.code, hb]
  have hphi : ∀ (b : Nat) (B : Block (Peephole.Kind X) Peephole.W), D[b]? = some B → B.phis.Sublist (CopyProp.code Q b).phis := by
    intro b B hb
    have := (hless b).2
    rw [hcode b B hb] at this; exact this
  have hQmem : ∀ b, (CopyProp.code Q b).phis ≠ [] → CopyProp.code Q b ∈ Q := by
    intro b hb
    exact (CopyProp.code_mem (.inr hb)).2.2
  have hphimem : ∀ (b : Nat) (B : Block (Peephole.Kind X) Peephole.W), D[b]? = some B → ∀ φ ∈ B.phis, o.c.mem φ.dst = false := by
    intro b B hb φ hφ
    have h9 := (hphi b B hb).subset hφ
    exact (h4.phimem _ (hQmem b (List.ne_nil_of_mem h9)) φ h9).1
  have hdsts : ∀ (b : Nat) (B : Block (Peephole.Kind X) Peephole.W), D[b]? = some B → (B.phis.map (·.dst)).Nodup := by
    intro b B hb
    refine List.Nodup.sublist ((hphi b B hb).map _) ?_
    by_cases he : (CopyProp.code Q b).phis = []
    · rw [he]; exact List.nodup_nil
    · have h9 := h4.block (hQmem b he)
      simp only [Ssa.defsOf, List.filter_append] at h9
      have h10 := (List.nodup_append.1 h9).1
      rw [List.filter_eq_self.2] at h10
      · exact h10
      · intro r hr
        obtain ⟨φ, h11, rfl⟩ := List.mem_map.1 hr
        rw [(h4.phimem _ (hQmem b he) φ h11).1]; rfl
  have hlow : ∀ (b : Nat) (B : Block (Peephole.Kind X) Peephole.W) r, D[b]? = some B → RegIn r B → r < tmp := by
    intro b B r hb hr
    have := hT B (List.mem_of_getElem? hb) r hr
    omega
  -- the ends of the blocks
  have hlast : ∀ (b : Nat) (B : Block (Peephole.Kind X) Peephole.W), D[b]? = some B → ∃ B0, blocks[b]? = some B0 ∧ (skel B.last = (0, []) ∨ skel B.last = skel B0.last) := by
    intro b B hb
    have hbl : b < D.length := (List.getElem?_eq_some_iff.1 hb).1
    have h9 := hsk b
    rw [hcode b B hb] at h9
    rw [hDlen, tidy_length] at hbl
    refine ⟨blocks[b], List.getElem?_eq_getElem hbl, ?_⟩
    have h10 := tidy_get (fromBbs blocks) blocks b
    rw [List.getElem?_eq_getElem hbl, Option.map_some] at h10
    have h11 : (CopyProp.code (tidy (fromBbs blocks) blocks) b).last =
        if b ≠ 0 ∧ (fromBbs blocks b).length = 0 then .next else blocks[b].last := by
      simp only [CopyProp.code, List.getD_eq_getElem?_getD, h10, Option.getD_some]
      split <;> rfl
    rw [h11] at h9
    split at h9
    · exact .inl h9
    · exact .inr h9
  have hcond : ∀ (b : Nat) (B : Block (Peephole.Kind X) Peephole.W), D[b]? = some B → CondIn C B.last := by
    intro b B hb
    have := (hdur b).1.last
    rw [← (hless b).1, hcode b B hb] at this
    exact this
  refine ⟨?_, ?_, ?_, h.start, ?_, ?_, ?_, hdsts, hphimem, hlow, ?_, ?_, ?_, ?_⟩
  all_goals try dsimp only
  · intro b c hc
    rw [hsucc] at hc
    rw [hDlen]
    exact hin.wf b c hc
  · intro e
    rw [e] at hDlen
    exact hin.ne (List.length_eq_zero_iff.1 hDlen.symm)
  · rw [hsucc]; exact hin.edges
  · intro b hb e
    rw [e] at hb
    simp at hb
  · intro b B hb hhas
    have h9 : (fromBbs blocks b).length < 2 := by simpa using hhas
    have h10 := hphi b B hb
    rw [(hdur b).2 h9] at h10
    exact List.sublist_nil.1 h10
  · intro b B hb φ hφ
    exact h4.arity b φ ((hphi b B hb).subset hφ)
  · intro r hr; exact h.mem r (by omega)
  · intro b B k o1 o2 d hb hl
    have h9 := hcond b B hb
    rw [hl] at h9
    obtain ⟨B0, h10, h11⟩ := hlast b B hb
    rw [hl] at h11
    rcases h11 with h11 | h11
    · simp [skel] at h11
    · rw [hDlen, tidy_length]
      cases hl0 : B0.last with
      | cjmp k' p1 p2 d' =>
        rw [hl0] at h11
        simp [skel] at h11
        subst h11
        exact ⟨h9, (h.cond b B0 k' p1 p2 d h10 hl0).2⟩
      | _ => rw [hl0] at h11; simp [skel] at h11
  · intro b B x bs hb hl
    obtain ⟨B0, h10, h11⟩ := hlast b B hb
    rw [hl] at h11
    rcases h11 with h11 | h11
    · simp [skel] at h11
    · rw [hDlen, tidy_length]
      cases hl0 : B0.last with
      | tjmp x' bs' =>
        rw [hl0] at h11
        simp [skel] at h11
        subst h11
        exact h.table b B0 x' bs h10 hl0
      | _ => rw [hl0] at h11; simp [skel] at h11
  · intro b B hb
    rcases heasy B (List.mem_of_getElem? hb) with h9 | h9
    · refine movable_three h9 (hdsts b B hb) ?_
      intro φ hφ
      exact ⟨hlow b B _ hb (.inl ⟨φ, hφ, .inl rfl⟩), fun r hr => hlow b B r hb (.inl ⟨φ, hφ, .inr hr⟩)⟩
    · exact movable_independent (hdsts b B hb) h9

theorem iter_stays {α : Type} {f : α → α} {a : α} (h : f a = a) (n : Nat) : iter f n a = a := by
  induction n with
  | zero => rfl
  | succ n ih => rw [iter, h, ih]

theorem iter_run {M : Machine K V S} {mem : Nat → Bool} (P : Prog K V) (n : Nat) (r : Res V S) :
    run M mem P n r = iter (step M mem P) n r := by
  induction n generalizing r with
  | zero => rfl
  | succ n ih => exact ih _

/-- The last pass, and what everything before it has to show. -/
theorem clean_behaves {mem : Nat → Bool} {C : K → Prop} {cond : K → Nat} {M : Machine K V S} {cmp : Nat → V → V → Cond.Cmp}
    (ho : ∀ f x y, f / 2 % 2 = 0 → cmp f x y ≠ .unordered)
    (hcodes : ∀ k, C k → 2 ≤ cond k % 8 ∧ ∀ x y, M.test k x y = Cond.holds (cond k) (cmp (cond k / 8) x y))
    {P : Prog K V} {D : List (Block K V)} {frm : Nat → List Nat} {G : Fun K V} {R : Nat → Prop} (h2 : Refines M mem P ⟨D, frm⟩)
    (h5 : ∀ b, (G.code b).phis = []) (h6 : G.order.Nodup) (h7 : G.order.head? = some 0) (h8 : Stays C G R)
    (h9 : ∀ n ρ s, run M mem ⟨D, frm⟩ n (.run 0 none ρ s) ≠ .undef →
      ∃ m, n ≤ m ∧ eff (iter (lstep M mem G (fun _ => 0)) m (.run 0 none ρ s)) = effAt D.length (run M mem ⟨D, frm⟩ n (.run 0 none ρ s))) :
    ∃ Q, BbClean.clean (toBBs cond G) = some Q ∧ BbClean.WF Q ∧ Q.head?.map (·.label) = some 0 ∧
      ∀ ρ s, (∀ n, (run M mem P n (.run 0 none ρ s)).obs ≠ .undef) →
        Behaves (fun n => (run M mem P n (.run 0 none ρ s)).obs) (fun n => (sem M mem cmp ho).run Q n (.at 0 (.ok (ρ, s)))) := by
  have hwf : BbClean.WF (toBBs cond G) := toBBs_wf h6 h8 (fun k hk => (hcodes k hk).1)
  have hhd : (toBBs cond G).head?.map (·.label) = some 0 := by
    rw [toBBs, List.head?_map, h7]; rfl
  have hne : toBBs cond G ≠ [] := by intro e; rw [e] at hhd; cases hhd
  obtain ⟨Q, h10, h11, -, h13, h14⟩ := BbClean.clean_correct _ hne hwf
  refine ⟨Q, h10, h11, h13.trans hhd, ?_⟩
  intro ρ s hdef
  obtain ⟨hst, hha, hsk⟩ := h14 0 hhd _ (sem M mem cmp ho) (.ok (ρ, s))
  -- the given code and the container
  have hsame : ∀ n, Same R (iter (lstep M mem G (fun _ => 0)) n (.run 0 none ρ s))
      ((sem M mem cmp ho).run (toBBs cond G) n (.at 0 (.ok (ρ, s)))) := fun n =>
    same_run h6 h5 h8 (fun k hk => ⟨fun e => by have := (hcodes k hk).1; rw [e] at this; omega, (hcodes k hk).2⟩) n (.run h8.start)
  have hobs : ∀ n, (run M mem ⟨D, frm⟩ n (.run 0 none ρ s)).obs =
      (run M mem P n (.run 0 none ρ s)).obs := fun n => h2 n ρ s (hdef n)
  have hDdef : ∀ n, run M mem ⟨D, frm⟩ n (.run 0 none ρ s) ≠ .undef := by
    intro n e
    have := hobs n
    rw [e] at this
    exact hdef n this.symm
  have hfollow : ∀ n, ∃ m, n ≤ m ∧ eff (iter (lstep M mem G (fun _ => 0)) m (.run 0 none ρ s)) =
      effAt D.length (run M mem ⟨D, frm⟩ n (.run 0 none ρ s)) := fun n => h9 n ρ s (hDdef n)
  have heff : ∀ n, effAt D.length (run M mem ⟨D, frm⟩ n (.run 0 none ρ s)) ≠ .undef := by
    intro n e
    cases hr : run M mem ⟨D, frm⟩ n (.run 0 none ρ s) with
    | undef => exact hDdef n hr
    | run b p ρ' s' =>
      rw [hr] at e
      simp only [effAt] at e
      split at e <;> cases e
    | done s' => rw [hr] at e; cases e
    | stop s' => rw [hr] at e; cases e
  -- the container is never undefined
  have hGdef : ∀ n, iter (lstep M mem G (fun _ => 0)) n (.run 0 none ρ s) ≠ .undef := by
    intro n e
    obtain ⟨m, hm, h15⟩ := hfollow n
    obtain ⟨k, rfl⟩ := Nat.exists_eq_add_of_le hm
    rw [iter_add, e, iter_undef rfl] at h15
    exact heff n h15.symm
  -- states of the container that last
  have hlast : ∀ n r, iter (lstep M mem G (fun _ => 0)) n (.run 0 none ρ s) = r → lstep M mem G (fun _ => 0) r = r →
      effAt D.length (run M mem ⟨D, frm⟩ n (.run 0 none ρ s)) = eff r := by
    intro n r e hr
    obtain ⟨m, hm, h15⟩ := hfollow n
    obtain ⟨k, rfl⟩ := Nat.exists_eq_add_of_le hm
    rw [iter_add, e, iter_stays hr] at h15
    exact h15.symm
  refine ⟨fun t => ⟨?_, ?_⟩, fun t => ⟨?_, ?_⟩, ?_, ?_⟩
  · rintro ⟨n, hn⟩
    rw [← hobs n] at hn
    obtain ⟨m, -, h15⟩ := hfollow n
    have hr : run M mem ⟨D, frm⟩ n (.run 0 none ρ s) = .done t := by
      revert hn
      cases run M mem ⟨D, frm⟩ n (.run 0 none ρ s) <;> intro hn <;> cases hn
      rfl
    rw [hr] at h15
    have h16 := hsame m
    revert h15 h16
    cases iter (lstep M mem G (fun _ => 0)) m (.run 0 none ρ s) <;> intro h15 h16 <;> cases h15
    generalize hc : (sem M mem cmp ho).run (toBBs cond G) m (.at 0 (.ok (ρ, s))) = c at h16
    cases h16
    rename_i ρ'
    obtain ⟨k, hk⟩ := (hha (.ok (ρ', t))).1 ⟨m, hc⟩
    exact ⟨k, ρ', hk⟩
  · rintro ⟨n, ρ', hn⟩
    obtain ⟨m, hm⟩ := (hha (.ok (ρ', t))).2 ⟨n, hn⟩
    have h16 := hsame m
    rw [hm] at h16
    have hr : iter (lstep M mem G (fun _ => 0)) m (.run 0 none ρ s) = .done t := by
      revert h16
      have := hGdef m
      revert this
      cases iter (lstep M mem G (fun _ => 0)) m (.run 0 none ρ s) <;> intro h17 h16 <;> cases h16
      · rfl
      · exact absurd rfl h17
    have h17 := hlast m _ hr rfl
    cases hq : run M mem ⟨D, frm⟩ m (.run 0 none ρ s) with
    | done t' =>
      rw [hq] at h17
      cases h17
      exact ⟨m, by rw [← hobs m, hq]; rfl⟩
    | run b p ρ1 s1 =>
      rw [hq] at h17
      simp only [effAt, eff] at h17
      split at h17
      · cases h17
      · rename_i hb
        cases h17
        refine ⟨m + 1, ?_⟩
        have hq' := hq
        rw [iter_run] at hq'
        rw [← hobs (m + 1), iter_run, iter_add, hq']
        simp only [iter, step]
        rw [List.getElem?_eq_none (by omega)]
        rfl
    | stop s1 => rw [hq] at h17; cases h17
    | undef => exact absurd hq (hDdef m)
  · rintro ⟨n, hn⟩
    rw [← hobs n] at hn
    obtain ⟨m, -, h15⟩ := hfollow n
    have hr : run M mem ⟨D, frm⟩ n (.run 0 none ρ s) = .stop t := by
      revert hn
      cases run M mem ⟨D, frm⟩ n (.run 0 none ρ s) <;> intro hn <;> cases hn
      rfl
    rw [hr] at h15
    have h16 := hsame m
    revert h15 h16
    cases iter (lstep M mem G (fun _ => 0)) m (.run 0 none ρ s) <;> intro h15 h16 <;> cases h15
    apply (hst (.stop t)).1
    refine ⟨m, ?_⟩
    generalize (sem M mem cmp ho).run (toBBs cond G) m (.at 0 (.ok (ρ, s))) = c at h16
    cases h16 <;> rfl
  · rintro ⟨n, hn⟩
    obtain ⟨m, hm⟩ := (hst (.stop t)).2 ⟨n, hn⟩
    have h16 := hsame m
    have hr : iter (lstep M mem G (fun _ => 0)) m (.run 0 none ρ s) = .stop t := by
      have := hGdef m
      revert this h16 hm
      generalize (sem M mem cmp ho).run (toBBs cond G) m (.at 0 (.ok (ρ, s))) = c
      generalize iter (lstep M mem G (fun _ => 0)) m (.run 0 none ρ s) = r
      intro hm h16 h17
      cases h16 <;> first | exact absurd rfl h17 | (simp [BbClean.Config.state] at hm; try rw [hm])
    have h17 := hlast m _ hr rfl
    refine ⟨m, ?_⟩
    rw [← hobs m]
    cases hq : run M mem ⟨D, frm⟩ m (.run 0 none ρ s) with
    | stop t' => rw [hq] at h17; cases h17; rfl
    | run b p ρ1 s1 =>
      rw [hq] at h17
      simp only [effAt, eff] at h17
      split at h17 <;> cases h17
    | done s1 => rw [hq] at h17; cases h17
    | undef => exact absurd hq (hDdef m)
  · intro n b t hn
    rw [← hobs n] at hn
    obtain ⟨m, -, h15⟩ := hfollow n
    have hr : ∃ p ρ1, run M mem ⟨D, frm⟩ n (.run 0 none ρ s) = .run b p ρ1 t := by
      revert hn
      cases run M mem ⟨D, frm⟩ n (.run 0 none ρ s) <;> intro hn <;> cases hn
      exact ⟨_, _, rfl⟩
    obtain ⟨p, ρ1, hr⟩ := hr
    rw [hr] at h15
    have h17 : ∃ ρ2, ((sem M mem cmp ho).run (toBBs cond G) m (.at 0 (.ok (ρ, s)))).state = some (.ok (ρ2, t)) := by
      have h16 := hsame m
      revert h15 h16
      generalize (sem M mem cmp ho).run (toBBs cond G) m (.at 0 (.ok (ρ, s))) = c
      generalize iter (lstep M mem G (fun _ => 0)) m (.run 0 none ρ s) = r
      intro h15 h16
      simp only [effAt] at h15
      split at h15 <;> cases r <;> cases h15 <;> cases h16 <;> exact ⟨_, rfl⟩
    obtain ⟨ρ2, h17⟩ := h17
    obtain ⟨k, hk⟩ := (hst _).1 ⟨m, h17⟩
    exact ⟨k, ρ2, hk⟩
  · intro n
    refine ⟨fun e => ?_, fun e => ?_⟩
    · obtain ⟨m, hm⟩ := (hst .undef).2 ⟨n, e⟩
      have h16 := hsame m
      have h17 := hGdef m
      revert hm h16 h17
      generalize (sem M mem cmp ho).run (toBBs cond G) m (.at 0 (.ok (ρ, s))) = c
      generalize iter (lstep M mem G (fun _ => 0)) m (.run 0 none ρ s) = r
      intro hm h16 h17
      cases h16 <;> first | exact absurd rfl h17 | cases hm
    · obtain ⟨m, hm⟩ := hsk.2 ⟨n, e⟩
      have h16 := hsame m
      have h17 := hGdef m
      rw [hm] at h16
      revert h16 h17
      generalize iter (lstep M mem G (fun _ => 0)) m (.run 0 none ρ s) = r
      intro h16 h17
      cases h16
      exact absurd rfl h17

/-- **C63**: the optimizer with `-O`.  All its passes end, and the code they leave does what the given code does.

Partial: copy propagation must not fold a conditional jump (`hD`, first part; the edges of the graph are not updated then and
`stale_edges_wrong` of ResolvePhis shows what happens), and where paths join at most three values may be merged, or they
are independent (`hD`, second part; `two_swaps_wrong` in PhiMoves).  `Given` and `Fits` say what is assumed about the code
generator and the machine. -/
theorem optimize_correct_partial (ho : ∀ f x y, f / 2 % 2 = 0 → cmp f x y ≠ .unordered) (hf : Fits M o C cmp)
    (h : Given M o C size blocks) (vregs : List Nat)
    (hD : ∀ fuel D, inSsa o fuel vregs (fromBbs blocks) (tidy (fromBbs blocks) blocks) = some D →
      (∀ b, skel (CopyProp.code D b).last = skel (CopyProp.code (tidy (fromBbs blocks) blocks) b).last) ∧ ∀ B ∈ D, Easy B.phis) :
    ∃ T, ∀ tmp, T ≤ tmp → ∃ Q N, (∀ fuel, N < fuel → optimize o fuel tmp vregs blocks = some Q) ∧ BbClean.WF Q ∧
      Q.head?.map (·.label) = some 0 ∧
      ∀ ρ s, (∀ n, (run M o.c.mem ⟨blocks, fromBbs blocks⟩ n (.run 0 none ρ s)).obs ≠ .undef) →
        Behaves (fun n => (run M o.c.mem ⟨blocks, fromBbs blocks⟩ n (.run 0 none ρ s)).obs)
          (fun n => (sem M o.c.mem cmp ho).run Q n (.at 0 (.ok (ρ, s)))) := by
  obtain ⟨D, N, T, h1, h2, h3⟩ := inSsa_spec hf h vregs hD
  refine ⟨T, fun tmp htmp => ?_⟩
  have hin := h3 tmp htmp
  have hmov : ∀ v s, M.exec o.c.mov (some v) none s = .ok (v, s) := fun v s => hf.params.copies _ hf.params.mov v none s
  obtain ⟨G, N', h4, h5, h6, h7, ⟨R, h8⟩, h9⟩ := resolvePhis_full hin hf.flips hmov
  obtain ⟨Q, h10, h11, h12, h13⟩ := clean_behaves ho hf.codes h2 h5 h6 h7 (stays_of_closed h8) h9
  refine ⟨Q, max N N', ?_, h11, h12, h13⟩
  intro fuel hfu
  simp only [optimize, h1 fuel (by omega), Option.bind_some, outOfSsa, h4 fuel (by omega)]
  exact h10

omit [DecidableEq X] in
/-- **C64**: the optimizer without `-O`.  It ends, and the code it leaves does what the given code does, for every function
the code generator makes: no restriction on jumps, on the conditions they test or on registers read before they are set. -/
theorem optimizePlain_correct {mem keep : Nat → Bool} {call : Peephole.Kind X → Bool} {cond : Peephole.Kind X → Nat}
    (ho : ∀ f x y, f / 2 % 2 = 0 → cmp f x y ≠ .unordered) (hf : FitsPlain M cond C cmp)
    (h : GivenPlain M mem keep call C size blocks) (vregs : List Nat) :
    ∃ Q, optimizePlain call keep cond vregs blocks = some Q ∧ BbClean.WF Q ∧ Q.head?.map (·.label) = some 0 ∧
      ∀ ρ s, (∀ n, (run M mem ⟨blocks, fromBbs blocks⟩ n (.run 0 none ρ s)).obs ≠ .undef) →
        Behaves (fun n => (run M mem ⟨blocks, fromBbs blocks⟩ n (.run 0 none ρ s)).obs)
          (fun n => (sem M mem cmp ho).run Q n (.at 0 (.ok (ρ, s)))) := by
  have hpure : Dce.PureDsts M call (tidy (fromBbs blocks) blocks) := by
    intro B hB i hi hd hc
    exact (tidy_keeps hf h B hB).body i hi (Option.isSome_iff_ne_none.2 hd) hc
  have href := (tidy_refines hf h).trans (Dce.removeUnused_refines_partial (frm := fromBbs blocks) h.keep vregs _ hpure)
  obtain ⟨hlen, hless⟩ := removeUnused_less call keep vregs (tidy (fromBbs blocks) blocks)
  unfold optimizePlain
  generalize hD : Dce.removeUnused call keep vregs (tidy (fromBbs blocks) blocks) = D at href hlen hless
  have hDlen : D.length = blocks.length := hlen.trans (tidy_length _ _)
  have hDne : D ≠ [] := by
    intro e
    rw [e] at hDlen
    exact h.ne (List.length_eq_zero_iff.1 hDlen.symm)
  have hsucc : succ D = succ (tidy (fromBbs blocks) blocks) := by
    funext b
    by_cases hb : b < D.length
    · rw [succ_code D hb, succ_code _ (by rw [← hlen]; exact hb), hlen, (hless b).1]
    · simp only [succ]
      rw [List.getElem?_eq_none (by omega), List.getElem?_eq_none (by omega)]
  have hwf : WellFormed D := by
    intro b c hc
    rw [hsucc] at hc
    rw [hlen]
    exact tidy_wf h.wf b c hc
  have hlast : ∀ b, Shape C (CopyProp.code D b).last ∧ (CopyProp.code D b).phis = [] := by
    intro b
    rw [(hless b).1]
    have h1 : Shape C (CopyProp.code (tidy (fromBbs blocks) blocks) b).last ∧ (CopyProp.code (tidy (fromBbs blocks) blocks) b).phis = [] := by
      rcases code_cases (tidy (fromBbs blocks) blocks) b with ⟨-, h1⟩ | ⟨-, h1⟩
      · obtain ⟨B0, h0, h2⟩ := tidy_mem (List.mem_of_getElem? h1)
        rcases h2 with h2 | h2
        · rw [h2]; exact ⟨trivial, h.nophi B0 h0⟩
        · rw [h2]; exact ⟨h.shape B0 h0, h.nophi B0 h0⟩
      · rw [h1]; exact ⟨trivial, rfl⟩
    refine ⟨h1.1, List.sublist_nil.1 ?_⟩
    rw [← h1.2]; exact (hless b).2
  have hcode : ∀ b, Shape C ((ofProg ⟨D, fromBbs blocks⟩ 0).code b).last ∧ ((ofProg ⟨D, fromBbs blocks⟩ 0).code b).phis = [] := by
    intro b
    rcases code_cases D b with ⟨-, h1⟩ | ⟨h1, -⟩
    · have := hlast b
      simp only [ofProg, h1, Option.getD_some]
      exact this
    · have h1 : D[b]? = none := List.getElem?_eq_none (by omega)
      simp only [ofProg, h1, Option.getD_none]
      exact ⟨trivial, rfl⟩
  have hpos : 0 < D.length := List.length_pos_iff.2 hDne
  refine clean_behaves (R := Reach (succ D)) ho hf.codes href (fun b => (hcode b).2) List.nodup_range ?_ ?_ ?_
  · show (List.range D.length).head? = some 0
    obtain ⟨n, e⟩ : ∃ n, D.length = n + 1 := ⟨D.length - 1, by omega⟩
    rw [e, List.range_succ_eq_map]; rfl
  · refine ⟨.zero, fun b hb => List.mem_range.2 (reach_lt hwf hDne hb), ?_, fun b _ => (hcode b).1⟩
    intro b hb c hc
    have hbl := reach_lt hwf hDne hb
    have hc : c ∈ succs D.length b ((ofProg ⟨D, fromBbs blocks⟩ 0).code b).last := by
      rw [← lsucc_range hbl]; exact hc
    refine hb.step ?_
    have h1 := List.getElem?_eq_getElem hbl
    simp only [ofProg, h1, Option.getD_some] at hc
    simpa [succ, h1] using hc
  · intro n ρ s _
    refine ⟨n, Nat.le_refl _, ofProg_run (P := ⟨D, fromBbs blocks⟩) hwf n _ _ ?_⟩
    simp only [ProgSim, if_pos hpos]
    exact ⟨.zero, trivial⟩

end

/-! ### Example: a loop that counts -/

section
open Peephole

/-- Kind 0 moves, kind 1 prints; kinds from 2 on are also used as conditions. -/
def printer : Machine (Kind Nat) W (List W) :=
  { exec := fun k a b s =>
      match k with
      | .bofs _ o => .ok (o, s)
      | .iofs _ o => .ok (o, s)
      | .add n => .ok (low n (a.getD 0 + b.getD 0), s)
      | .sub n => .ok (low n (a.getD 0 - b.getD 0), s)
      | .other 0 => .ok (a.getD 0, s)
      | .other _ => .ok (0, s ++ [a.getD 0])
    test := fun k a b => match k with | .other x => Cond.holds x (if a = b then .eq else if a < b then .lt else .gt) | _ => false
    index := fun v => v.toNat
    get := fun s r => s.getD r 0
    set := fun s r v => s.set r v }

def foldAdd (i : Ins (Kind Nat) W) : Option (Ins (Kind Nat) W) :=
  match i with
  | ⟨.add n, d, some (.const a), some (.const b)⟩ => some ⟨.other 0, d, some (.const (low n (a + b))), none⟩
  | _ => none

def opts : Options (Kind Nat) W where
  c := ⟨fun r => r == 1, fun _ => false, .other 0, fun k => k == .other 0, foldAdd, fun _ => none⟩
  param := fun _ => false
  keep := fun r => r == 1
  n0 := 3
  call := fun k => k == .other 1
  inv := fun k => match k with | .other x => (Cond.invertCond x).map .other | _ => none
  cond := fun k => match k with | .other x => x | _ => 0

/-- `i = 0; while (i != 9) { j = i; i = j + 1; } print(i);`. -/
def count : List (Block (Kind Nat) W) :=
  [⟨[], [⟨.other 0, some 0, some (.const 0), none⟩], .next⟩,
   ⟨[], [], .cjmp (.other 2) (.reg 0) (.const 9) 3⟩,
   ⟨[], [⟨.other 0, some 2, some (.reg 0), none⟩, ⟨.add 64, some 0, some (.reg 2), some (.const 1)⟩], .jmp 1⟩,
   ⟨[], [⟨.other 1, none, some (.reg 0), none⟩], .next⟩]

theorem count_frm : fromBbs count = fun b => if b = 1 then [0, 2] else if b = 2 then [1] else if b = 3 then [1] else [] := by
  funext b
  by_cases h1 : b = 1
  · subst h1; simp [fromBbs, count, detect, succ, succs, addEdges, List.range, List.range.loop, List.erase]
  · by_cases h2 : b = 2
    · subst h2; simp [fromBbs, count, detect, succ, succs, addEdges, List.range, List.range.loop, List.erase]
    · by_cases h3 : b = 3
      · subst h3; simp [fromBbs, count, detect, succ, succs, addEdges, List.range, List.range.loop, List.erase]
      · simp [fromBbs, count, detect, succ, succs, addEdges, List.range, List.range.loop, List.erase, h1, h2, h3]

theorem count_tidy : tidy (fromBbs count) count = count := by
  rw [count_frm]
  simp [tidy, clearUnreached, count, peephole, merge]

theorem count_order : Ssa.order (succ count) (fromBbs count) (List.range count.length) [0] = [0, 1, 2, 3] := by
  rw [count_frm]
  simp [count, Ssa.order, succ, succs, List.range, List.range.loop, List.erase]

/-- The function in SSA form. -/
def countSsa : List (Block (Kind Nat) W) :=
  [⟨[], [⟨.other 0, some 0, some (.const 0), none⟩], .next⟩,
   ⟨[⟨3, [.reg 0, .reg 4]⟩], [], .cjmp (.other 2) (.reg 3) (.const 9) 3⟩,
   ⟨[], [⟨.other 0, some 2, some (.reg 3), none⟩, ⟨.add 64, some 4, some (.reg 2), some (.const 1)⟩], .jmp 1⟩,
   ⟨[], [⟨.other 1, none, some (.reg 3), none⟩], .next⟩]

theorem count_ssa : Ssa.makeSsa opts.c.mem opts.param opts.n0 count (fromBbs count) = some countSsa := by
  simp only [Ssa.makeSsa, Ssa.transform]
  rw [count_order, count_frm]
  decide +kernel

/-- After copy propagation. -/
def countProp : List (Block (Kind Nat) W) :=
  [⟨[], [⟨.other 0, some 0, some (.const 0), none⟩], .next⟩,
   ⟨[⟨3, [.const 0, .reg 4]⟩], [], .cjmp (.other 2) (.reg 3) (.const 9) 3⟩,
   ⟨[], [⟨.other 0, some 2, some (.reg 3), none⟩, ⟨.add 64, some 4, some (.reg 3), some (.const 1)⟩], .jmp 1⟩,
   ⟨[], [⟨.other 1, none, some (.reg 3), none⟩], .next⟩]

theorem count_round : CopyProp.round opts.c (fromBbs count) countSsa = (countProp, false) := by
  rw [count_frm]; decide +kernel

/-- After the removal of unused registers. -/
def countDce : List (Block (Kind Nat) W) :=
  [⟨[], [], .next⟩,
   ⟨[⟨3, [.const 0, .reg 4]⟩], [], .cjmp (.other 2) (.reg 3) (.const 9) 3⟩,
   ⟨[], [⟨.add 64, some 4, some (.reg 3), some (.const 1)⟩], .jmp 1⟩,
   ⟨[], [⟨.other 1, none, some (.reg 3), none⟩], .next⟩]

theorem count_dce : Dce.removeUnused opts.call opts.keep [0, 1, 2, 3, 4] countProp = countDce := by
  rw [Dce.removeUnused, if_pos (by decide +kernel), Dce.removeUnused, if_neg (by decide +kernel)]
  decide +kernel

theorem count_inSsa (fuel : Nat) : inSsa opts fuel [0, 1, 2, 3, 4] (fromBbs count) (tidy (fromBbs count) count) =
    if fuel = 0 then none else some countDce := by
  rw [count_tidy, inSsa, count_ssa]
  cases fuel with
  | zero => rfl
  | succ n =>
    rw [Option.bind_some, CopyProp.copyProp, count_round]
    simp only [Bool.false_eq_true, if_false, Option.map_some, count_dce]
    rfl

def intCond (k : Kind Nat) : Prop := ∃ x, k = .other x ∧ 2 ≤ x % 8 ∧ x / 8 / 2 % 2 = 0

def intCmp (_ : Nat) (a b : W) : Cond.Cmp := if a = b then .eq else if a < b then .lt else .gt

theorem intCmp_ordered (f : Nat) (a b : W) : f / 2 % 2 = 0 → intCmp f a b ≠ .unordered := by
  intro _
  unfold intCmp
  split
  · intro h; cases h
  · split <;> (intro h; cases h)

theorem printer_fits : Fits printer opts intCond intCmp := by
  refine ⟨⟨⟨fun _ _ => 0, ?_⟩, ⟨fun _ => 0, ?_⟩, ?_, ?_⟩, ?_, ⟨?_, by decide, ?_, ?_⟩, ?_, ?_, ?_, ?_, ?_⟩
  · intro f o a b s; simp [printer]
  · intro f o a b s; simp [printer]
  · intro n a b s; rfl
  · intro n a b s; rfl
  · intro w a b s; exact .inl ⟨_, rfl⟩
  · intro k hk v w s
    have : k = .other 0 := by simpa [opts] using hk
    subst this; rfl
  · intro i i' h
    simp only [opts, foldAdd] at h
    split at h
    · cases h
      refine ⟨rfl, ?_, fun _ _ _ _ => rfl⟩
      intro x hx
      rcases hx with hx | hx <;> simp at hx
    · cases h
  · intro l l' h; cases h
  · intro a b s; exact .inl ⟨_, rfl⟩
  · intro i i' h
    simp only [opts, foldAdd] at h
    split at h
    · cases h
      intro _ _ _ a b s; exact .inl ⟨_, rfl⟩
    · cases h
  · intro l l' h; cases h
  · rintro k ⟨x, rfl, h1, h2⟩
    obtain ⟨x', h3, h4, h5⟩ := Cond.invert_correct x h1
    refine ⟨.other x', by simp [opts, h3], ⟨x', rfl, ?_, by rw [h4]; exact h2⟩, fun a b => ?_⟩
    · have := Cond.invert_involutive x x' h3
      unfold Cond.invertCond at this
      dsimp only at this
      split at this
      · rename_i h6; exact h6.1
      · cases this
    · exact h5 _ (intCmp_ordered 0 a b rfl)
  · rintro k ⟨x, rfl, h1, -⟩
    exact ⟨h1, fun a b => rfl⟩

theorem count_wf : WellFormed count := by
  intro b c
  have : b = 0 ∨ b = 1 ∨ b = 2 ∨ b = 3 ∨ 4 ≤ b := by omega
  rcases this with h | h | h | h | h
  · subst h; simp [succ, succs, count]; omega
  · subst h; simp [succ, succs, count]; omega
  · subst h; simp [succ, succs, count]; omega
  · subst h; simp [succ, succs, count]
  · have : count[b]? = none := List.getElem?_eq_none (by simpa [count] using h)
    simp [succ, this]

theorem count_cases {P : Nat → Block (Kind Nat) W → Prop} (h0 : P 0 count[0]) (h1 : P 1 count[1]) (h2 : P 2 count[2]) (h3 : P 3 count[3])
    (b : Nat) (B : Block (Kind Nat) W) (hB : count[b]? = some B) : P b B := by
  have hb : b < 4 := (List.getElem?_eq_some_iff.1 hB).1
  have : b = 0 ∨ b = 1 ∨ b = 2 ∨ b = 3 := by omega
  rcases this with rfl | rfl | rfl | rfl <;> cases hB <;> assumption

theorem count_mem {P : Block (Kind Nat) W → Prop} (h0 : P count[0]) (h1 : P count[1]) (h2 : P count[2]) (h3 : P count[3]) :
    ∀ B ∈ count, P B := by
  intro B hB
  simp only [count, List.mem_cons, List.not_mem_nil, or_false] at hB
  rcases hB with rfl | rfl | rfl | rfl <;> assumption

/-- A register that is live somewhere is live, by another path, where the register flow says so. -/
theorem count_init (x : Nat) (hl : CopyProp.Live count (fromBbs count) x 0 (CopyProp.code count 0).body) (hx : x ≠ 1) : False := by
  -- register 0 is assigned first; register 2 is assigned before it is read; there are no others
  have key : ∀ b is, CopyProp.Live count (fromBbs count) x b is →
      (∀ r ∈ is.flatMap (fun i => (i.o1.bind regOf).toList ++ (i.o2.bind regOf).toList), r = 0 ∨ r = 2) → x = 0 ∨ x = 2 := by
    intro b is h
    induction h with
    | @use b i is h =>
      intro h1
      apply h1
      simp only [List.flatMap_cons, List.mem_append, Option.mem_toList, Option.mem_def]
      rcases h with h | h
      · exact .inl (.inl (by rw [h]; rfl))
      · exact .inl (.inr (by rw [h]; rfl))
    | skip _ _ ih =>
      intro h1
      exact ih (fun r hr => h1 r (by rw [List.flatMap_cons]; exact List.mem_append_right _ hr))
    | @last b h =>
      intro _
      have : b = 0 ∨ b = 1 ∨ b = 2 ∨ b = 3 ∨ 4 ≤ b := by omega
      rcases this with rfl | rfl | rfl | rfl | hb
      · exact h.elim
      · simp [CopyProp.code, count, CopyProp.LastReads] at h; exact .inl h.symm
      · exact h.elim
      · exact h.elim
      · have : count[b]? = none := List.getElem?_eq_none (by simpa [count] using hb)
        simp [CopyProp.code, this, Ssa.emptyBlock, CopyProp.LastReads] at h
    | @edge b c k φ _ h2 _ =>
      exfalso
      have : c = 0 ∨ c = 1 ∨ c = 2 ∨ c = 3 ∨ 4 ≤ c := by omega
      rcases this with rfl | rfl | rfl | rfl | hb
      · cases h2
      · cases h2
      · cases h2
      · cases h2
      · have : count[c]? = none := List.getElem?_eq_none (by simpa [count] using hb)
        simp [CopyProp.code, this, Ssa.emptyBlock] at h2
    | @next b c _ _ _ ih =>
      intro _
      apply ih
      have : c = 0 ∨ c = 1 ∨ c = 2 ∨ c = 3 ∨ 4 ≤ c := by omega
      rcases this with rfl | rfl | rfl | rfl | hb
      · simp [CopyProp.code, count, regOf]
      · simp [CopyProp.code, count]
      · simp [CopyProp.code, count, regOf]
      · simp [CopyProp.code, count, regOf]
      · have : count[c]? = none := List.getElem?_eq_none (by simpa [count] using hb)
        simp [CopyProp.code, this, Ssa.emptyBlock]
  rcases key _ _ hl (by simp [CopyProp.code, count, regOf]) with rfl | rfl
  · have hl : CopyProp.Live count (fromBbs count) 0 0 [⟨.other 0, some 0, some (.const 0), none⟩] := hl
    cases hl with
    | use h => rcases h with h | h <;> cases h
    | skip h _ => exact h rfl
  · have h2 : ∀ b is, CopyProp.Live count (fromBbs count) 2 b is →
        (∀ r ∈ is.flatMap (fun i => (i.o1.bind regOf).toList ++ (i.o2.bind regOf).toList), r = 0) ∨ is = count[2].body → False := by
      intro b is h
      induction h with
      | @use b i is h =>
        rintro (h1 | h1)
        · have := h1 2 (by
            simp only [List.flatMap_cons, List.mem_append, Option.mem_toList, Option.mem_def]
            rcases h with h | h
            · exact .inl (.inl (by rw [h]; rfl))
            · exact .inl (.inr (by rw [h]; rfl)))
          cases this
        · cases h1
          rcases h with h | h <;> simp at h
      | skip h3 _ ih =>
        rintro (h1 | h1)
        · exact ih (.inl (fun r hr => h1 r (by rw [List.flatMap_cons]; exact List.mem_append_right _ hr)))
        · cases h1
          exact h3 rfl
      | @last b h =>
        intro _
        have : b = 0 ∨ b = 1 ∨ b = 2 ∨ b = 3 ∨ 4 ≤ b := by omega
        rcases this with rfl | rfl | rfl | rfl | hb
        · exact h.elim
        · simp [CopyProp.code, count, CopyProp.LastReads] at h
        · exact h.elim
        · exact h.elim
        · have : count[b]? = none := List.getElem?_eq_none (by simpa [count] using hb)
          simp [CopyProp.code, this, Ssa.emptyBlock, CopyProp.LastReads] at h
      | @edge b c k φ _ h2 _ =>
        intro _
        have : c = 0 ∨ c = 1 ∨ c = 2 ∨ c = 3 ∨ 4 ≤ c := by omega
        rcases this with rfl | rfl | rfl | rfl | hb
        · cases h2
        · cases h2
        · cases h2
        · cases h2
        · have : count[c]? = none := List.getElem?_eq_none (by simpa [count] using hb)
          simp [CopyProp.code, this, Ssa.emptyBlock] at h2
      | @next b c _ _ _ ih =>
        intro _
        apply ih
        have : c = 0 ∨ c = 1 ∨ c = 2 ∨ c = 3 ∨ 4 ≤ c := by omega
        rcases this with rfl | rfl | rfl | rfl | hb
        · left; simp [CopyProp.code, count, regOf]
        · left; simp [CopyProp.code, count]
        · exact .inr rfl
        · left; simp [CopyProp.code, count, regOf]
        · have : count[c]? = none := List.getElem?_eq_none (by simpa [count] using hb)
          left; simp [CopyProp.code, this, Ssa.emptyBlock]
    exact h2 _ _ hl (.inl (by simp [CopyProp.code, count, regOf]))

theorem count_given : Given printer opts intCond (fun _ => 64) count := by
  refine ⟨count_wf, by simp [count], by rw [count_frm]; rfl, ?_, ?_, ?_, fun _ _ => rfl, fun r hr => hr, ?_, ?_, ?_, ?_, ?_⟩
  · exact count_mem rfl rfl rfl rfl
  · apply count_mem <;> refine ⟨?_, ?_⟩ <;> simp [count, LowIns, LowLast, lastOprs, opts]
    constructor <;> (intro r hr; omega)
  · intro r hr
    simp only [opts] at hr ⊢
    simp; omega
  · intro x hx hl
    rw [count_tidy] at hl
    exact (count_init x hl (by simpa [opts] using hx)).elim
  · intro b B k o1 o2 d hB
    refine count_cases (P := fun b B => B.last = .cjmp k o1 o2 d → intCond k ∧ b + 1 < count.length ∧ d ≠ b + 1) ?_ ?_ ?_ ?_ b B hB
    · intro h; cases h
    · intro h; cases h; exact ⟨⟨2, rfl, by decide, by decide⟩, by decide, by decide⟩
    · intro h; cases h
    · intro h; cases h
  · intro b B x bs hB
    refine count_cases (P := fun b B => B.last = .tjmp x bs → b + 1 < count.length ∧ bs ≠ []) ?_ ?_ ?_ ?_ b B hB <;> (intro h; cases h)
  · apply count_mem
    all_goals
      refine ⟨?_, ?_, ?_, ?_⟩
      · simp [count, Peephole.Keeps, isAdd, isSum]
      · simp [count, Peephole.Keeps, isAdd, isSum]
      · simp [count, isSum, opts]
      · intro i hi
        simp [count] at hi
        try rcases hi with rfl | rfl
        all_goals try subst hi
        all_goals exact ⟨by simp, by simp⟩
  · apply count_mem
    all_goals
      intro i hi
      simp [count] at hi
      try rcases hi with rfl | rfl
      all_goals try subst hi
      all_goals first | exact fun h => absurd rfl h | exact fun _ _ a b s => .inl ⟨_, rfl⟩

/-- The hypotheses of the theorem hold for the loop. -/
example : ∃ T, ∀ tmp, T ≤ tmp → ∃ Q N, (∀ fuel, N < fuel → optimize opts fuel tmp [0, 1, 2, 3, 4] count = some Q) ∧ BbClean.WF Q ∧
    Q.head?.map (·.label) = some 0 ∧
    ∀ ρ s, (∀ n, (run printer opts.c.mem ⟨count, fromBbs count⟩ n (.run 0 none ρ s)).obs ≠ .undef) →
      Behaves (fun n => (run printer opts.c.mem ⟨count, fromBbs count⟩ n (.run 0 none ρ s)).obs)
        (fun n => (sem printer opts.c.mem intCmp intCmp_ordered).run Q n (.at 0 (.ok (ρ, s)))) := by
  refine optimize_correct_partial intCmp_ordered printer_fits count_given _ ?_
  intro fuel D hD
  rw [count_inSsa] at hD
  split at hD
  · cases hD
  · cases hD
    refine ⟨?_, ?_⟩
    · intro b
      rw [count_tidy]
      have : b = 0 ∨ b = 1 ∨ b = 2 ∨ b = 3 ∨ 4 ≤ b := by omega
      rcases this with rfl | rfl | rfl | rfl | hb
      · rfl
      · rfl
      · rfl
      · rfl
      · have h1 : count[b]? = none := List.getElem?_eq_none (by simpa [count] using hb)
        have h2 : countDce[b]? = none := List.getElem?_eq_none (by simpa [countDce] using hb)
        simp [CopyProp.code, h1, h2]
    · intro B hB
      simp only [countDce, List.mem_cons, List.not_mem_nil, or_false] at hB
      rcases hB with rfl | rfl | rfl | rfl <;> exact .inl (by decide)

/-- `print(i); if (i == 0) {}` with `i` never set: a jump to the next block, a register read before it is set. -/
def hop : List (Block (Kind Nat) W) :=
  [⟨[], [⟨.other 1, none, some (.reg 2), none⟩], .cjmp (.other 2) (.reg 2) (.const 0) 1⟩, ⟨[], [], .next⟩]

theorem hop_given : GivenPlain printer (· == 1) (· == 1) (fun k => k == .other 1) intCond (fun _ => 64) hop := by
  have hmem : ∀ {P : Block (Kind Nat) W → Prop}, P hop[0] → P hop[1] → ∀ B ∈ hop, P B := by
    intro P h0 h1 B hB
    simp only [hop, List.mem_cons, List.not_mem_nil, or_false] at hB
    rcases hB with rfl | rfl <;> assumption
  refine ⟨?_, by simp [hop], hmem rfl rfl, fun _ h => h, hmem ⟨2, rfl, by decide, by decide⟩ trivial, hmem ?_ ?_, hmem ?_ ?_⟩
  · intro b c
    have : b = 0 ∨ b = 1 ∨ 2 ≤ b := by omega
    rcases this with h | h | h
    · subst h; simp [succ, succs, hop]; omega
    · subst h; simp [succ, succs, hop]
    · have : hop[b]? = none := List.getElem?_eq_none (by simpa [hop] using h)
      simp [succ, this]
  · refine ⟨by simp [hop, Peephole.Keeps, isAdd, isSum], by simp [hop], by simp [hop, isSum], ?_⟩
    intro i hi
    simp only [hop, List.getElem_cons_zero, List.mem_cons, List.not_mem_nil, or_false] at hi
    subst hi
    exact ⟨by simp, by simp⟩
  · exact ⟨fun i hi => (by cases hi), List.Pairwise.nil, fun i hi => (by cases hi), fun i hi => (by cases hi)⟩
  · intro i hi
    simp only [hop, List.getElem_cons_zero, List.mem_cons, List.not_mem_nil, or_false] at hi
    subst hi
    exact fun h => absurd rfl h
  · intro i hi; cases hi

example : ∃ Q, optimizePlain (fun k => k == .other 1) (· == 1) opts.cond [0, 1, 2] hop = some Q ∧ BbClean.WF Q ∧
    Q.head?.map (·.label) = some 0 ∧
    ∀ ρ s, (∀ n, (run printer (· == 1) ⟨hop, fromBbs hop⟩ n (.run 0 none ρ s)).obs ≠ .undef) →
      Behaves (fun n => (run printer (· == 1) ⟨hop, fromBbs hop⟩ n (.run 0 none ρ s)).obs)
        (fun n => (sem printer (· == 1) intCmp intCmp_ordered).run Q n (.at 0 (.ok (ρ, s)))) :=
  optimizePlain_correct intCmp_ordered printer_fits.plain hop_given _

example : ∃ Q, optimizePlain opts.call opts.keep opts.cond [0, 1, 2] count = some Q ∧ BbClean.WF Q ∧
    Q.head?.map (·.label) = some 0 ∧
    ∀ ρ s, (∀ n, (run printer opts.c.mem ⟨count, fromBbs count⟩ n (.run 0 none ρ s)).obs ≠ .undef) →
      Behaves (fun n => (run printer opts.c.mem ⟨count, fromBbs count⟩ n (.run 0 none ρ s)).obs)
        (fun n => (sem printer opts.c.mem intCmp intCmp_ordered).run Q n (.at 0 (.ok (ρ, s)))) :=
  optimizePlain_correct intCmp_ordered printer_fits.plain count_given.plain _

end

end Verif.Optimize

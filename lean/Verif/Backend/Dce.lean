/-
Removal of instructions whose result is not used (C57).

Models `remove_unused_vregs`, /repo/src/cc/backend/optimize.c:124-217.  It runs without -O, too (optimize.c:660).

Simplifications: a register is its number; the table of registers per original (optimize.c:196-206), used for
allocation only, is left out.
-/
import Verif.Backend.Ir

namespace Verif.Dce
open Verif.Ir

variable {K V S : Type}

/-! ### Model -/

def isReg (r : Nat) : Opr V → Bool
  | .reg q => q == r
  | .const _ => false

def insReads (r : Nat) (i : Ins K V) : Bool := i.o1.any (isReg r) || i.o2.any (isReg r)

def lastReads (r : Nat) : Last K V → Bool
  | .next => false
  | .jmp _ => false
  | .cjmp _ o1 o2 _ => isReg r o1 || isReg r o2
  | .tjmp o _ => isReg r o

def phiReads (r : Nat) (φ : Phi V) : Bool := φ.params.any (isReg r)

/-- optimize.c:136-158. -/
def blockReads (r : Nat) (B : Block K V) : Bool :=
  B.phis.any (phiReads r) || B.body.any (insReads r) || lastReads r B.last

/-- `vreg_read`, optimize.c:128-158; `keep` are the registers with `VRF_PARAM` or `VRF_REF`. -/
def isRead (keep : Nat → Bool) (blocks : List (Block K V)) (r : Nat) : Bool :=
  keep r || blocks.any (blockReads r)

/-- optimize.c:174-187: one instruction. -/
def cleanIns (call : K → Bool) (read : Nat → Bool) (i : Ins K V) : Option (Ins K V) :=
  match i.dst with
  | none => some i
  | some d =>
    if read d then some i
    else if call i.kind then some { i with dst := none }
    else none

/-- optimize.c:161-187. -/
def cleanBlock (call : K → Bool) (read : Nat → Bool) (B : Block K V) : Block K V :=
  { B with phis := B.phis.filter (fun φ => read φ.dst), body := B.body.filterMap (cleanIns call read) }

/-- optimize.c:160-188. -/
def cleanAll (call : K → Bool) (read : Nat → Bool) (blocks : List (Block K V)) : List (Block K V) :=
  blocks.map (cleanBlock call read)

/-- optimize.c:191-210: the registers that stay in `ra->vregs`. -/
def aliveAfter (read : Nat → Bool) (vregs : List Nat) : List Nat := vregs.filter read

/-- optimize.c:124-217 `remove_unused_vregs`; `vregs`: the registers that are not `NULL` in `ra->vregs`. -/
def removeUnused (call : K → Bool) (keep : Nat → Bool) (vregs : List Nat) (blocks : List (Block K V)) : List (Block K V) :=
  if (aliveAfter (isRead keep blocks) vregs).length < vregs.length then
    removeUnused call keep (aliveAfter (isRead keep blocks) vregs) (cleanAll call (isRead keep blocks) blocks)
  else cleanAll call (isRead keep blocks) blocks
termination_by vregs.length

/-! ### Specification -/

/-- The instruction has no effect but its result. -/
def Pure (M : Machine K V S) (k : K) : Prop :=
  ∀ a b s, (∃ v, M.exec k a b s = .ok (v, s)) ∨ M.exec k a b s = .undef

/-- The removable instructions with a destination have no other effect. -/
def PureDsts (M : Machine K V S) (call : K → Bool) (blocks : List (Block K V)) : Prop :=
  ∀ B ∈ blocks, ∀ i ∈ B.body, i.dst ≠ none → call i.kind = false → Pure M i.kind

/-! ### Proofs -/

/-- The registers that are read agree. -/
def Agree (read : Nat → Bool) (ρ ρ' : Env V) : Prop := ∀ r, read r = true → ρ' r = ρ r

theorem rd_agree {M : Machine K V S} {mem read : Nat → Bool} {ρ ρ' : Env V} {s : S} (h : Agree read ρ ρ') {o : Opr V}
    (ho : ∀ r, isReg r o = true → read r = true) : rd M mem ρ' s o = rd M mem ρ s o := by
  cases o with
  | const v => rfl
  | reg r =>
    simp only [rd]
    rw [h r (ho r (by simp [isReg]))]

theorem map_agree {M : Machine K V S} {mem read : Nat → Bool} {ρ ρ' : Env V} {s : S} (h : Agree read ρ ρ') {o : Option (Opr V)}
    (ho : ∀ r, o.any (isReg r) = true → read r = true) : o.map (rd M mem ρ' s) = o.map (rd M mem ρ s) := by
  cases o with
  | none => rfl
  | some o => simp only [Option.map_some]; rw [rd_agree h (fun r hr => ho r (by simpa using hr))]

theorem wr_agree {M : Machine K V S} {mem read : Nat → Bool} {ρ ρ' : Env V} {s : S} (h : Agree read ρ ρ') (d : Option Nat) (v : V) :
    Agree read (wr M mem d v ρ s).1 (wr M mem d v ρ' s).1 ∧ (wr M mem d v ρ' s).2 = (wr M mem d v ρ s).2 := by
  cases d with
  | none => exact ⟨h, rfl⟩
  | some d =>
    simp only [wr]
    split
    · exact ⟨h, rfl⟩
    · refine ⟨?_, rfl⟩
      intro r hr
      simp only [Env.upd]
      split
      · rfl
      · exact h r hr

theorem wr_dead {M : Machine K V S} {mem read : Nat → Bool} {ρ ρ' : Env V} {s : S} (h : Agree read ρ ρ') {d : Nat} (v : V)
    (hd : read d = false) (hm : mem d = false) :
    Agree read (wr M mem (some d) v ρ s).1 ρ' ∧ (wr M mem (some d) v ρ s).2 = s := by
  simp only [wr, hm, Bool.false_eq_true, if_false]
  refine ⟨?_, trivial⟩
  intro r hr
  simp only [Env.upd]
  split
  · rename_i he; subst he; rw [hd] at hr; cases hr
  · exact h r hr

/-- What two runs of a piece of code have in common. -/
def OutRel (read : Nat → Bool) : Out S (Env V × S) → Out S (Env V × S) → Prop
  | .ok (ρ, s), .ok (ρ', s') => Agree read ρ ρ' ∧ s' = s
  | .stop s, .stop s' => s' = s
  | .undef, _ => True
  | _, _ => False

theorem runBody_clean {M : Machine K V S} {mem : Nat → Bool} {call : K → Bool} {read : Nat → Bool}
    (hmem : ∀ r, mem r = true → read r = true) (is : List (Ins K V)) :
    (∀ i ∈ is, i.dst ≠ none → call i.kind = false → Pure M i.kind) →
    (∀ i ∈ is, ∀ r, insReads r i = true → read r = true) →
    ∀ (ρ ρ' : Env V) (s : S), Agree read ρ ρ' →
      OutRel read (runBody M mem is ρ s) (runBody M mem (is.filterMap (cleanIns call read)) ρ' s) := by
  induction is with
  | nil => intro _ _ ρ ρ' s h; exact ⟨h, rfl⟩
  | cons i is ih =>
    intro hp hr ρ ρ' s h
    have ih := ih (fun j hj => hp j (List.mem_cons_of_mem _ hj)) (fun j hj => hr j (List.mem_cons_of_mem _ hj))
    have h1 : i.o1.map (rd M mem ρ' s) = i.o1.map (rd M mem ρ s) :=
      map_agree h (fun r h' => hr i (List.mem_cons_self ..) r (by simp [insReads, h']))
    have h2 : i.o2.map (rd M mem ρ' s) = i.o2.map (rd M mem ρ s) :=
      map_agree h (fun r h' => hr i (List.mem_cons_self ..) r (by simp [insReads, h']))
    have keepIt : OutRel read (runBody M mem (i :: is) ρ s) (runBody M mem (i :: is.filterMap (cleanIns call read)) ρ' s) := by
      simp only [runBody, h1, h2]
      cases M.exec i.kind (i.o1.map (rd M mem ρ s)) (i.o2.map (rd M mem ρ s)) s with
      | ok a =>
        obtain ⟨v, s'⟩ := a
        obtain ⟨h3, h4⟩ := wr_agree (M := M) (mem := mem) (s := s') h i.dst v
        dsimp only
        rw [h4]
        exact ih _ _ _ h3
      | stop s' => rfl
      | undef => trivial
    rw [List.filterMap_cons]
    cases hd : i.dst with
    | none => simp only [cleanIns, hd]; exact keepIt
    | some d =>
      simp only [cleanIns, hd]
      by_cases hrd : read d = true
      · simp only [hrd, if_true]; exact keepIt
      · have hrd : read d = false := by simpa using hrd
        have hmd : mem d = false := by
          cases hm : mem d with
          | false => rfl
          | true => rw [hmem d hm] at hrd; cases hrd
        simp only [hrd, Bool.false_eq_true, if_false]
        by_cases hc : call i.kind = true
        · simp only [hc, if_true, runBody, h1, h2, hd]
          cases M.exec i.kind (i.o1.map (rd M mem ρ s)) (i.o2.map (rd M mem ρ s)) s with
          | ok a =>
            obtain ⟨v, s'⟩ := a
            obtain ⟨h3, h4⟩ := wr_dead (M := M) (mem := mem) (s := s') h v hrd hmd
            dsimp only
            rw [h4]
            exact ih _ _ _ h3
          | stop s' => rfl
          | undef => trivial
        · simp only [hc, runBody, hd, Bool.false_eq_true, if_false]
          rcases hp i (List.mem_cons_self ..) (by simp [hd]) (by simpa using hc) (i.o1.map (rd M mem ρ s)) (i.o2.map (rd M mem ρ s)) s
            with ⟨v, hv⟩ | hv
          · rw [hv]
            obtain ⟨h3, h4⟩ := wr_dead (M := M) (mem := mem) (s := s) h v hrd hmd
            dsimp only
            rw [h4]
            exact ih _ _ _ h3
          · rw [hv]; trivial

theorem find_filter (phis : List (Phi V)) {read : Nat → Bool} {r : Nat} (hr : read r = true) :
    (phis.filter (fun φ => read φ.dst)).find? (fun φ => φ.dst == r) = phis.find? (fun φ => φ.dst == r) := by
  induction phis with
  | nil => rfl
  | cons φ phis ih =>
    rw [List.filter_cons]
    by_cases h : φ.dst = r
    · subst h; simp [hr]
    · by_cases h2 : read φ.dst = true
      · rw [if_pos h2, List.find?_cons_of_neg (by simpa using h), List.find?_cons_of_neg (by simpa using h)]; exact ih
      · rw [if_neg h2, List.find?_cons_of_neg (by simpa using h)]; exact ih

theorem enter_clean {M : Machine K V S} {mem read : Nat → Bool} {phis : List (Phi V)} {frm : List Nat} {prev : Option Nat}
    (hp : ∀ φ ∈ phis, ∀ r, phiReads r φ = true → read r = true) {ρ ρ' : Env V} {s : S} (h : Agree read ρ ρ') :
    Agree read (enter M mem phis frm prev ρ s) (enter M mem (phis.filter (fun φ => read φ.dst)) frm prev ρ' s) := by
  cases prev with
  | none => exact h
  | some p =>
    intro r hr
    simp only [enter, phiIn, find_filter phis hr]
    cases hf : phis.find? (fun φ => φ.dst == r) with
    | none => exact h r hr
    | some φ =>
      dsimp only
      cases ho : φ.params[frm.idxOf p]? with
      | none => exact h r hr
      | some o =>
        dsimp only
        apply rd_agree h
        intro q hq
        exact hp φ (List.mem_of_find?_eq_some hf) q (List.any_eq_true.2 ⟨o, List.mem_of_getElem? ho, hq⟩)

theorem target_agree {M : Machine K V S} {mem read : Nat → Bool} {b : Nat} {l : Last K V}
    (hl : ∀ r, lastReads r l = true → read r = true) {ρ ρ' : Env V} {s : S} (h : Agree read ρ ρ') :
    target M mem b ρ' s l = target M mem b ρ s l := by
  cases l with
  | next => rfl
  | jmp c => rfl
  | cjmp k o1 o2 c =>
    simp only [target]
    rw [rd_agree h (fun r hr => hl r (by simp [lastReads, hr])), rd_agree h (fun r hr => hl r (by simp [lastReads, hr]))]
  | tjmp o bs =>
    simp only [target]
    rw [rd_agree h (fun r hr => hl r (by simp [lastReads, hr]))]

/-- One round of the loop. -/
theorem clean_refines {M : Machine K V S} {mem keep : Nat → Bool} {call : K → Bool} {blocks : List (Block K V)} {frm : Nat → List Nat}
    (hmem : ∀ r, mem r = true → keep r = true) (hp : PureDsts M call blocks) :
    Refines M mem ⟨blocks, frm⟩ ⟨blocks.map (cleanBlock call (isRead keep blocks)), frm⟩ := by
  apply refines_of (R := fun _ _ ρ ρ' _ => Agree (isRead keep blocks) ρ ρ')
  · intro b p ρ ρ' s h
    simp only [step, List.getElem?_map]
    cases hb : blocks[b]? with
    | none => rfl
    | some B =>
      have hB : B ∈ blocks := List.mem_of_getElem? hb
      have hrd : ∀ r, blockReads r B = true → isRead keep blocks r = true := by
        intro r hr
        simp only [isRead, Bool.or_eq_true, List.any_eq_true]
        exact .inr ⟨B, hB, hr⟩
      simp only [Option.map_some, cleanBlock]
      have h1 := enter_clean (M := M) (mem := mem) (frm := frm b) (prev := p) (phis := B.phis) (s := s)
        (fun φ hφ r hr => hrd r (by simp only [blockReads, Bool.or_eq_true, List.any_eq_true]; exact .inl (.inl ⟨φ, hφ, hr⟩))) h
      have h2 := runBody_clean (M := M) (mem := mem) (call := call) (read := isRead keep blocks)
        (fun r hr => by simp [isRead, hmem r hr]) B.body (hp B hB)
        (fun i hi r hr => hrd r (by simp only [blockReads, Bool.or_eq_true, List.any_eq_true]; exact .inl (.inr ⟨i, hi, hr⟩)))
        _ _ s h1
      revert h2
      cases runBody M mem B.body (enter M mem B.phis (frm b) p ρ s) s with
      | undef => intro _; trivial
      | stop s1 =>
        intro h2
        revert h2
        cases runBody M mem (B.body.filterMap (cleanIns call (isRead keep blocks)))
            (enter M mem (B.phis.filter (fun φ => isRead keep blocks φ.dst)) (frm b) p ρ' s) s with
        | stop s2 => intro h2; exact h2
        | ok a => intro h2; exact h2.elim
        | undef => intro h2; exact h2.elim
      | ok a =>
        obtain ⟨ρ1, s1⟩ := a
        cases runBody M mem (B.body.filterMap (cleanIns call (isRead keep blocks)))
            (enter M mem (B.phis.filter (fun φ => isRead keep blocks φ.dst)) (frm b) p ρ' s) s with
        | stop s2 => intro h2; exact h2.elim
        | undef => intro h2; exact h2.elim
        | ok a2 =>
          obtain ⟨ρ2, s2⟩ := a2
          intro h2
          obtain ⟨h3, h4⟩ := h2
          subst h4
          dsimp only
          rw [target_agree (fun r hr => hrd r (by simp [blockReads, hr])) h3]
          cases target M mem b ρ1 s2 B.last with
          | none => trivial
          | some c => exact ⟨rfl, rfl, rfl, h3⟩
  · intro ρ s r _; rfl

theorem clean_pure {M : Machine K V S} {call : K → Bool} {read : Nat → Bool} {blocks : List (Block K V)}
    (hp : PureDsts M call blocks) : PureDsts M call (blocks.map (cleanBlock call read)) := by
  intro B hB i hi hd hc
  obtain ⟨B0, hB0, rfl⟩ := List.mem_map.1 hB
  obtain ⟨i0, hi0, h⟩ := List.mem_filterMap.1 hi
  unfold cleanIns at h
  split at h
  · cases h; exact hp B0 hB0 _ hi0 hd hc
  · rename_i d hd0
    split at h
    · cases h; exact hp B0 hB0 _ hi0 hd hc
    · split at h
      · cases h; exact absurd rfl hd
      · cases h

/-- C57.  Removing the instructions whose result is not used does not change what the function does, for every run
of any length, provided the removed instructions have no effect but their result, and registers that live in memory
are kept. -/
theorem removeUnused_refines_partial {M : Machine K V S} {mem keep : Nat → Bool} {call : K → Bool} {frm : Nat → List Nat}
    (hmem : ∀ r, mem r = true → keep r = true) (vregs : List Nat) (blocks : List (Block K V)) :
    PureDsts M call blocks → Refines M mem ⟨blocks, frm⟩ ⟨removeUnused call keep vregs blocks, frm⟩ := by
  fun_induction removeUnused call keep vregs blocks with
  | case1 vregs blocks h ih =>
    intro hp
    exact (clean_refines hmem hp).trans (ih (clean_pure hp))
  | case2 vregs blocks h =>
    intro hp
    exact clean_refines hmem hp

/-- Some instruction, jump or phi function of the block has the register as an operand. -/
def Uses (B : Block K V) (r : Nat) : Prop :=
  (∃ φ ∈ B.phis, .reg r ∈ φ.params) ∨ (∃ i ∈ B.body, i.o1 = some (.reg r) ∨ i.o2 = some (.reg r)) ∨
    match B.last with
    | .cjmp _ o1 o2 _ => o1 = .reg r ∨ o2 = .reg r
    | .tjmp o _ => o = .reg r
    | _ => False

/-- Every register a remaining instruction calculates is used by some instruction, or has to be kept. -/
def NoneUnused (keep : Nat → Bool) (blocks : List (Block K V)) : Prop :=
  ∀ B ∈ blocks, (∀ φ ∈ B.phis, keep φ.dst = true ∨ ∃ C ∈ blocks, Uses C φ.dst) ∧
    ∀ i ∈ B.body, ∀ d, i.dst = some d → keep d = true ∨ ∃ C ∈ blocks, Uses C d

theorem isReg_iff {r : Nat} {o : Opr V} : isReg r o = true ↔ o = .reg r := by
  cases o <;> simp [isReg]

theorem uses_of_reads {B : Block K V} {r : Nat} (h : blockReads r B = true) : Uses B r := by
  simp only [blockReads, Bool.or_eq_true, List.any_eq_true, phiReads, insReads, Option.any_eq_true, isReg_iff] at h
  rcases h with (⟨φ, h1, o, h2, rfl⟩ | ⟨i, h1, h2⟩) | h
  · exact .inl ⟨φ, h1, h2⟩
  · refine .inr (.inl ⟨i, h1, ?_⟩)
    rcases h2 with ⟨o, h2, rfl⟩ | ⟨o, h2, rfl⟩
    · exact .inl h2
    · exact .inr h2
  · refine .inr (.inr ?_)
    cases hl : B.last <;> simp only [hl, lastReads, Bool.or_eq_true, isReg_iff] at h ⊢
    · cases h
    · cases h
    · exact h
    · exact h

theorem used_of_isRead {keep : Nat → Bool} {blocks : List (Block K V)} {r : Nat} (h : isRead keep blocks r = true) :
    keep r = true ∨ ∃ C ∈ blocks, Uses C r := by
  simp only [isRead, Bool.or_eq_true, List.any_eq_true] at h
  rcases h with h | ⟨C, h1, h2⟩
  · exact .inl h
  · exact .inr ⟨C, h1, uses_of_reads h2⟩

/-- The destinations are registers of the function. -/
def DstsIn (vregs : List Nat) (blocks : List (Block K V)) : Prop :=
  ∀ B ∈ blocks, (∀ φ ∈ B.phis, φ.dst ∈ vregs) ∧ ∀ i ∈ B.body, ∀ d, i.dst = some d → d ∈ vregs

theorem clean_dst {call : K → Bool} {read : Nat → Bool} {i0 i : Ins K V} (h : cleanIns call read i0 = some i) {d : Nat}
    (hd : i.dst = some d) : i = i0 ∧ read d = true := by
  unfold cleanIns at h
  split at h
  · rename_i h0; cases h; rw [h0] at hd; cases hd
  · rename_i d0 h0
    split at h
    · rename_i h1; cases h; rw [h0] at hd; cases hd; exact ⟨rfl, h1⟩
    · split at h
      · cases h; cases hd
      · cases h

/-- Nothing is removed when all registers are read. -/
theorem clean_all {call : K → Bool} {read : Nat → Bool} {B : Block K V} (h1 : ∀ φ ∈ B.phis, read φ.dst = true)
    (h2 : ∀ i ∈ B.body, ∀ d, i.dst = some d → read d = true) : cleanBlock call read B = B := by
  have e1 : B.phis.filter (fun φ => read φ.dst) = B.phis := List.filter_eq_self.2 h1
  have e2 : B.body.filterMap (cleanIns call read) = B.body := by
    have : ∀ i ∈ B.body, cleanIns call read i = some i := by
      intro i hi
      unfold cleanIns
      split
      · rfl
      · rename_i d hd; rw [if_pos (h2 i hi d hd)]
    have gen : ∀ l : List (Ins K V), (∀ i ∈ l, cleanIns call read i = some i) → l.filterMap (cleanIns call read) = l := by
      intro l
      induction l with
      | nil => intro _; rfl
      | cons i l ih =>
        intro h
        rw [List.filterMap_cons, h i (List.mem_cons_self ..)]
        dsimp only
        rw [ih (fun j hj => h j (List.mem_cons_of_mem _ hj))]
    exact gen _ this
  unfold cleanBlock
  rw [e1, e2]

/-- C57.  When the pass ends, no instruction calculates a register nobody reads. -/
theorem removeUnused_complete {call : K → Bool} {keep : Nat → Bool} (vregs : List Nat) (blocks : List (Block K V)) :
    DstsIn vregs blocks → NoneUnused keep (removeUnused call keep vregs blocks) := by
  fun_induction removeUnused call keep vregs blocks with
  | case1 vregs blocks h ih =>
    intro hd
    apply ih
    intro B hB
    obtain ⟨B0, hB0, rfl⟩ := List.mem_map.1 hB
    constructor
    · intro φ hφ
      have := List.mem_filter.1 hφ
      exact List.mem_filter.2 ⟨(hd B0 hB0).1 φ this.1, this.2⟩
    · intro i hi d hid
      obtain ⟨i0, hi0, h0⟩ := List.mem_filterMap.1 hi
      obtain ⟨rfl, h2⟩ := clean_dst h0 hid
      exact List.mem_filter.2 ⟨(hd B0 hB0).2 i hi0 d hid, h2⟩
  | case2 vregs blocks h =>
    intro hd
    have hall : ∀ r ∈ vregs, isRead keep blocks r = true := by
      have : (vregs.filter (isRead keep blocks)).length = vregs.length := Nat.le_antisymm (List.length_filter_le ..) (Nat.le_of_not_lt h)
      exact List.length_filter_eq_length_iff.1 this
    have e : cleanAll call (isRead keep blocks) blocks = blocks := by
      have gen : ∀ l : List (Block K V), (∀ B ∈ l, B ∈ blocks) → l.map (cleanBlock call (isRead keep blocks)) = l := by
        intro l
        induction l with
        | nil => intro _; rfl
        | cons B l ihl =>
          intro hl
          have hB := hd B (hl B (List.mem_cons_self ..))
          rw [List.map_cons, clean_all (fun φ hφ => hall _ (hB.1 φ hφ)) (fun i hi d hid => hall _ (hB.2 i hi d hid)),
            ihl (fun C hC => hl C (List.mem_cons_of_mem _ hC))]
      exact gen blocks (fun _ h => h)
    rw [e]
    intro B hB
    exact ⟨fun φ hφ => used_of_isRead (hall _ ((hd B hB).1 φ hφ)), fun i hi d hid => used_of_isRead (hall _ ((hd B hB).2 i hi d hid))⟩

/-! ### Findings and examples -/

/-- A small machine: constants, sums, calls and loads of a device register leave a mark in the log. -/
inductive Kind where
  | mov | add | call | load | asm
deriving DecidableEq

def exec : Kind → Option Int → Option Int → List Nat → Out (List Nat) (Int × List Nat)
  | .mov, some a, _, s => .ok (a, s)
  | .add, some a, some b, s => .ok (a + b, s)
  | .call, _, _, s => .ok (s.length, 1 :: s)
  | .load, some a, _, s => .ok (a, 2 :: s)
  | .asm, _, _, s => .ok (7, 3 :: s)
  | _, _, _, _ => .undef

def toy : Machine Kind Int (List Nat) :=
  { exec := exec, test := fun _ a b => a == b, index := Int.toNat, get := fun s r => s.getD r 0, set := fun s r _ => r :: s }

def isCall (k : Kind) : Bool := k == .call

/-- `*(volatile int*)p;`: the load is removed, the device is not touched.  The same holds for `asm` with an
unused output. -/
theorem volatile_load_removed :
    let load : Ins Kind Int := ⟨.load, some 1, some (.const 64), none⟩
    let blocks : List (Block Kind Int) := [⟨[], [load], .next⟩]
    removeUnused isCall (fun _ => false) [0, 1] blocks = [⟨[], [], .next⟩] ∧
      (run toy (fun _ => false) ⟨blocks, fun _ => []⟩ 1 (.run 0 none (fun _ => 0) [])).obs = .at 1 [2] ∧
      (run toy (fun _ => false) ⟨removeUnused isCall (fun _ => false) [0, 1] blocks, fun _ => []⟩ 1 (.run 0 none (fun _ => 0) [])).obs = .at 1 [] := by
  intro load blocks
  have e : removeUnused isCall (fun _ => false) [0, 1] blocks = [⟨[], [], .next⟩] := by
    unfold removeUnused; simp [blocks, load, isRead, blockReads, insReads, lastReads, isReg, cleanAll, aliveAfter, cleanBlock, cleanIns, isCall]
    unfold removeUnused; simp [aliveAfter, cleanAll, cleanBlock]
  rw [e]
  exact ⟨rfl, rfl, rfl⟩

theorem asm_output_removed :
    let i : Ins Kind Int := ⟨.asm, some 1, none, none⟩
    removeUnused isCall (fun _ => false) [0, 1] [⟨[], [i], .next⟩] = [⟨[], [], .next⟩] := by
  intro i
  unfold removeUnused; simp [i, isRead, blockReads, insReads, lastReads, isReg, cleanAll, aliveAfter, cleanBlock, cleanIns, isCall]
  unfold removeUnused; simp [aliveAfter, cleanAll, cleanBlock]

/-- The store to a `volatile` local variable is removed: it lives in memory (`VRF_VOLATILE`), but is neither a
parameter nor `&` taken. -/
theorem volatile_store_removed :
    let i : Ins Kind Int := ⟨.mov, some 1, some (.const 5), none⟩
    let blocks : List (Block Kind Int) := [⟨[], [i], .next⟩]
    (run toy (fun r => r == 1) ⟨blocks, fun _ => []⟩ 1 (.run 0 none (fun _ => 0) [])).obs = .at 1 [1] ∧
      (run toy (fun r => r == 1) ⟨removeUnused isCall (fun _ => false) [0, 1] blocks, fun _ => []⟩ 1 (.run 0 none (fun _ => 0) [])).obs = .at 1 [] := by
  intro i blocks
  have e : removeUnused isCall (fun _ => false) [0, 1] blocks = [⟨[], [], .next⟩] := by
    unfold removeUnused; simp [blocks, i, isRead, blockReads, insReads, lastReads, isReg, cleanAll, aliveAfter, cleanBlock, cleanIns, isCall]
    unfold removeUnused; simp [aliveAfter, cleanAll, cleanBlock]
  rw [e]
  exact ⟨rfl, rfl⟩

/-- A chain of unused sums is removed from its end, the call stays. -/
def chain : List (Block Kind Int) :=
  [⟨[], [⟨.call, some 0, none, none⟩, ⟨.add, some 1, some (.reg 0), some (.const 1)⟩, ⟨.add, some 2, some (.reg 1), some (.const 1)⟩,
    ⟨.mov, some 3, some (.const 4), none⟩], .cjmp .mov (.reg 3) (.const 4) 0⟩]

example : removeUnused isCall (fun _ => false) [0, 1, 2, 3] chain =
    [⟨[], [⟨.call, none, none, none⟩, ⟨.mov, some 3, some (.const 4), none⟩], .cjmp .mov (.reg 3) (.const 4) 0⟩] := by
  unfold removeUnused; simp [chain, isRead, blockReads, insReads, lastReads, isReg, cleanAll, aliveAfter, cleanBlock, cleanIns, isCall]
  unfold removeUnused; simp [isRead, blockReads, insReads, lastReads, isReg, cleanAll, aliveAfter, cleanBlock, cleanIns, isCall]
  unfold removeUnused; simp [isRead, blockReads, insReads, lastReads, isReg, cleanAll, aliveAfter, cleanBlock, cleanIns, isCall]
  unfold removeUnused; simp [isRead, blockReads, insReads, lastReads, isReg, cleanAll, aliveAfter, cleanBlock, cleanIns, isCall]

example : PureDsts toy isCall chain := by
  have hmov : Pure toy .mov := by
    intro a b s
    cases a with
    | none => exact .inr rfl
    | some a => exact .inl ⟨a, rfl⟩
  have hadd : Pure toy .add := by
    intro a b s
    cases a with
    | none => exact .inr rfl
    | some a => cases b with
      | none => exact .inr rfl
      | some b => exact .inl ⟨a + b, rfl⟩
  intro B hB i hi hd hc
  simp only [chain, List.mem_singleton] at hB
  subst hB
  simp only [List.mem_cons, List.not_mem_nil, or_false] at hi
  rcases hi with rfl | rfl | rfl | rfl
  · cases hc
  · exact hadd
  · exact hadd
  · exact hmov

example : DstsIn [0, 1, 2, 3] chain := by
  intro B hB
  simp only [chain, List.mem_singleton] at hB
  subst hB
  simp

end Verif.Dce

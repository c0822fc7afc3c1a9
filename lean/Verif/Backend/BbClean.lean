import Verif.Backend.Cond
/-!
# Clean-up of basic blocks (C33)

`src/cc/backend/optimize.c:17-119`: `is_last_jmp`, `is_last_jtable`, `replace_jmp_destination`,
`remove_unnecessary_bb`.

A basic block is a label, a straight-line body and at most one jump at its end (ir.c:431 "JMP must be the last IR").
Block pointers are represented by the unique label of the block.  The instructions of a body are opaque (`α`), as are
the operands of jumps (`β`).
-/
namespace Verif.BbClean
open Verif.Cond

abbrev Label := Nat

/-- The last instruction of a block: none, `IR_JMP` with its condition code, or `IR_TJMP`
(src/cc/backend/ir.h:166-205). -/
inductive Term (β : Type)
  | fall
  | jmp (cond : Nat) (opr : β) (target : Label)
  | tjmp (opr : β) (targets : List Label)

/-- `struct BB`, src/cc/backend/ir.h:228-238, without the data-flow sets.  `removed` remembers that the local
variable `remove` (optimize.c:62) was set for a block other than the first one; the code does not store it and the
model never reads it: it is there for the proof. -/
structure BB (α β : Type) where
  label : Label
  body : List α
  term : Term β
  next : Option Label
  removed : Bool := false

variable {α β : Type}

/-- Labels a block jumps to. -/
def Term.targets : Term β → List Label
  | .fall => []
  | .jmp _ _ t => [t]
  | .tjmp _ ts => ts

/-- Replace a jump destination in one instruction. -/
def Term.redirect (src dst : Label) : Term β → Term β
  | .fall => .fall
  | .jmp c o t => .jmp c o (if t = src then dst else t)
  | .tjmp o ts => .tjmp o (ts.map (fun t => if t = src then dst else t))

/-- One iteration of the loop of `replace_jmp_destination`, optimize.c:34-50. -/
def redirectBB (src dst : Label) (b : BB α β) : BB α β :=
  if b.label = src then b else { b with term := b.term.redirect src dst }

/-- `is_last_jmp(bb) != NULL && jmp.bb == bb->next`, optimize.c:63-67: the jump is popped. -/
def dropJmpNext (b : BB α β) : BB α β :=
  match b.term with
  | .jmp _ _ t => if b.next = some t then { b with term := .fall } else b
  | _ => b

/-- Labels put into `keeptbl` for one block, optimize.c:87-97. -/
def refs (b : BB α β) : List Label :=
  match b.term with
  | .jmp c _ t => t :: (if c = 1 then [] else b.next.toList)
  | .fall => b.next.toList
  | .tjmp _ ts => b.next.toList ++ ts

/-- State of the first loop of a round: the visited blocks (last first), the blocks still to visit, `keeptbl`. -/
structure St (α β : Type) where
  pre : List (BB α β)
  rest : List (BB α β)
  keep : List Label

/-- `replace_jmp_destination` on all blocks but the current one, optimize.c:33-52. -/
def redirectAll (src dst : Label) (l : List (BB α β)) : List (BB α β) := l.map (redirectBB src dst)

/-- optimize.c:74-85: turn `if (c) goto next; goto t; next:` into `if (!c) goto t; next:`.  `none` is the failed
assertion of `invert_cond`; the Boolean is `remove`. -/
def invertPrev (pre : List (BB α β)) (next : Option Label) (t : Label) : Option (List (BB α β) × Bool) :=
  match pre with
  | [] => some (pre, false)
  | p :: ps =>
    match p.term with
    | .jmp c o t' =>
      if c ≠ 1 ∧ some t' = next ∧ c / 16 % 2 = 0 then
        (invertCond c).map (fun c' => ({ p with term := .jmp c' o t } :: ps, true))
      else some (pre, false)
    | _ => some (pre, false)

/-- `table_put` of all references of a visited block and `table_delete` of its own label, optimize.c:87-100. -/
def keepAfter (keep : List Label) (b : BB α β) (remove : Bool) : List Label :=
  let k := refs b ++ keep
  if remove then k.filter (fun l => l ≠ b.label) else k

/-- One iteration of the first loop, optimize.c:60-101, for the block at the head of `rest`. -/
def visit (pre : List (BB α β)) (b0 : BB α β) (rest : List (BB α β)) (keep : List Label) : Option (St α β) :=
  let b := dropJmpNext b0
  match b.body, b.term, b.next with
  | [], .fall, some n =>
    some ⟨{ b with removed := !pre.isEmpty } :: redirectAll b.label n pre, redirectAll b.label n rest,
      keepAfter keep b true⟩
  | [], .jmp c _ t, nx =>
    if c = 1 ∧ b.label ≠ t then
      match invertPrev (redirectAll b.label t pre) nx t with
      | none => none
      | some (pre', remove) =>
        some ⟨{ b with removed := remove } :: pre', redirectAll b.label t rest, keepAfter keep b remove⟩
    else some ⟨b :: pre, rest, keepAfter keep b false⟩
  | _, _, _ => some ⟨b :: pre, rest, keepAfter keep b false⟩

/-- The first loop, optimize.c:59-101.  The counter is the number of blocks left. -/
def visitAll : Nat → List (BB α β) → List (BB α β) → List Label → Option (List (BB α β) × List Label)
  | 0, pre, _, keep => some (pre.reverse, keep)
  | n + 1, pre, rest, keep =>
    match rest with
    | [] => some (pre.reverse, keep)
    | b :: rest =>
      match visit pre b rest keep with
      | none => none
      | some s => visitAll n s.pre s.rest s.keep

/-- The second loop, optimize.c:103-116, walking with the previous block in hand. -/
def sweep (keep : List Label) (p : BB α β) : List (BB α β) → List (BB α β)
  | [] => [p]
  | b :: rest =>
    if b.label ∈ keep then p :: sweep keep b rest
    else sweep keep { p with next := b.next } rest

/-- One round, optimize.c:56-116. -/
def round (P : List (BB α β)) : Option (List (BB α β)) :=
  match visitAll P.length [] P [] with
  | none => none
  | some ([], _) => some []
  | some (p :: rest, keep) => some (sweep keep p rest)

/-- `remove_unnecessary_bb`, optimize.c:54-119: rounds until nothing was removed. -/
def clean (P : List (BB α β)) : Option (List (BB α β)) :=
  match round P with
  | none => none
  | some Q => if Q.length < P.length then clean Q else some Q
termination_by P.length

/-! ## Specification: what a function body executes

Blocks are emitted in list order, so a block that does not jump continues with the block after it
(src/cc/backend/emit_code.c `emit_bb_irs`); the end of the list is the end of the function. -/

/-- Meaning of instructions and comparisons over machine states `σ`.  Integer comparisons are ordered. -/
structure Sem (α β σ : Type) where
  exec : α → σ → σ
  /-- operands compared with the signedness/floating-point marks of the condition code -/
  cmp : β → Nat → σ → Cmp
  sel : β → σ → Nat
  int_ordered : ∀ (o : β) (flags : Nat) (s : σ), flags / 2 % 2 = 0 → cmp o flags s ≠ .unordered

/-- Where control is. -/
inductive Config (σ : Type)
  | at (l : Label) (s : σ)
  | halt (s : σ)
  | stuck

/-- The state of a configuration. -/
def Config.state {σ : Type} : Config σ → Option σ
  | .at _ s => some s
  | .halt s => some s
  | .stuck => none

/-- The block with a label and the label of the block emitted after it. -/
def lookup : List (BB α β) → Label → Option (BB α β × Option Label)
  | [], _ => none
  | b :: rest, l => if b.label = l then some (b, rest.head?.map (·.label)) else lookup rest l

/-- Continue at an optional label: no label is the end of the function. -/
def goto {σ : Type} (l : Option Label) (s : σ) : Config σ :=
  match l with
  | some l => .at l s
  | none => .halt s

variable {σ : Type}

/-- Is a conditional jump taken? -/
def Sem.taken (M : Sem α β σ) (c : Nat) (o : β) (s : σ) : Bool := c == 1 || holds c (M.cmp o (c / 8) s)

/-- Where a block goes after its body. -/
def Sem.leave (M : Sem α β σ) (t : Term β) (nx : Option Label) (s : σ) : Config σ :=
  match t with
  | .fall => goto nx s
  | .jmp c o t => if M.taken c o s then .at t s else goto nx s
  | .tjmp o ts =>
    match ts[M.sel o s]? with
    | some t => .at t s
    | none => .stuck

/-- Execute a whole block. -/
def Sem.step (M : Sem α β σ) (P : List (BB α β)) : Config σ → Config σ
  | .at l s =>
    match lookup P l with
    | none => .stuck
    | some (b, nx) => M.leave b.term nx (b.body.foldl (fun s i => M.exec i s) s)
  | c => c

/-- `n` blocks. -/
def Sem.run (M : Sem α β σ) (P : List (BB α β)) : Nat → Config σ → Config σ
  | 0, c => c
  | n + 1, c => M.run P n (M.step P c)

/-- Same behaviour from a label: the same machine states occur (a state may include a log of everything executed so
far, so this is equality of the sequences of executed instructions), and the function ends, or gets stuck, in the
same cases and with the same final state. -/
def SameFrom (M : Sem α β σ) (P Q : List (BB α β)) (l : Label) : Prop :=
  ∀ s : σ,
    (∀ t : σ, (∃ n : Nat, (M.run P n (.at l s)).state = some t) ↔ (∃ n : Nat, (M.run Q n (.at l s)).state = some t)) ∧
    (∀ t : σ, (∃ n : Nat, M.run P n (.at l s) = .halt t) ↔ (∃ n : Nat, M.run Q n (.at l s) = .halt t)) ∧
    ((∃ n : Nat, M.run P n (.at l s) = .stuck) ↔ (∃ n : Nat, M.run Q n (.at l s) = .stuck))

/-- `bb->next` is the block that follows. -/
def Linked : List (BB α β) → Prop
  | [] => True
  | b :: rest => b.next = rest.head?.map (·.label) ∧ Linked rest

/-- A well-formed function body: distinct labels, linked blocks, no `COND_NONE` jump (ir.c:291-293 drops them). -/
structure WF (P : List (BB α β)) : Prop where
  nodup : (P.map (·.label)).Nodup
  linked : Linked P
  conds : ∀ b ∈ P, ∀ (c : Nat) (o : β) (t : Label), b.term = .jmp c o t → c = 1 ∨ 2 ≤ c % 8
  fresh : ∀ b ∈ P, b.removed = false

/-! ## Lemmas: executions -/

theorem run_add (M : Sem α β σ) (P : List (BB α β)) (a b : Nat) (c : Config σ) :
    M.run P (a + b) c = M.run P b (M.run P a c) := by
  induction a generalizing c with
  | zero => rw [Nat.zero_add]; rfl
  | succ a ih =>
    rw [show a + 1 + b = (a + b) + 1 by omega]
    exact ih _

theorem run_halt (M : Sem α β σ) (P : List (BB α β)) (n : Nat) (s : σ) : M.run P n (.halt s) = .halt s := by
  induction n with
  | zero => rfl
  | succ n ih => exact ih

theorem run_stuck (M : Sem α β σ) (P : List (BB α β)) (n : Nat) : M.run P n .stuck = .stuck := by
  induction n with
  | zero => rfl
  | succ n ih => exact ih

/-- A configuration inside a set of labels. -/
def inSet (S : Label → Prop) : Config σ → Prop
  | .at l _ => S l
  | _ => True

/-- One step of `Q` is one step of `P`, or two of which the second changes no state. -/
def OneOrTwo (M : Sem α β σ) (P Q : List (BB α β)) (l : Label) (s : σ) : Prop :=
  M.step Q (.at l s) = M.step P (.at l s) ∨
    ∃ (l1 l2 : Label) (s1 : σ), M.step P (.at l s) = .at l1 s1 ∧ M.step P (.at l1 s1) = .at l2 s1 ∧
      M.step Q (.at l s) = .at l2 s1

theorem fwd (M : Sem α β σ) (P Q : List (BB α β)) (S : Label → Prop)
    (h : ∀ l s, S l → inSet S (M.step Q (.at l s)) ∧ OneOrTwo M P Q l s) (n : Nat) :
    ∀ c : Config σ, inSet S c → ∃ m : Nat, M.run P m c = M.run Q n c := by
  induction n with
  | zero => intro c _; exact ⟨0, rfl⟩
  | succ n ih =>
    intro c hc
    cases c with
    | halt s => exact ⟨0, (run_halt M Q (n + 1) s).symm⟩
    | stuck => exact ⟨0, (run_stuck M Q (n + 1)).symm⟩
    | «at» l s =>
      obtain ⟨h1, h2⟩ := h l s hc
      obtain ⟨m, hm⟩ := ih _ h1
      rcases h2 with h2 | ⟨l1, l2, s1, e1, e2, e3⟩
      · exact ⟨m + 1, by rw [Sem.run, Sem.run, ← h2]; exact hm⟩
      · exact ⟨m + 1 + 1, by rw [Sem.run, Sem.run, Sem.run, e1, e2, ← e3]; exact hm⟩

theorem bwd (M : Sem α β σ) (P Q : List (BB α β)) (S : Label → Prop)
    (h : ∀ l s, S l → inSet S (M.step Q (.at l s)) ∧ OneOrTwo M P Q l s) (m : Nat) :
    ∀ c : Config σ, inSet S c → ∃ n : Nat, M.run P m c = M.run Q n c ∨
      ∃ (l1 l2 : Label) (s1 : σ), M.run P m c = .at l1 s1 ∧ M.run Q n c = .at l2 s1 := by
  induction m using Nat.strongRecOn with
  | ind m ih =>
    intro c hc
    cases c with
    | halt s => exact ⟨0, Or.inl (run_halt M P m s)⟩
    | stuck => exact ⟨0, Or.inl (run_stuck M P m)⟩
    | «at» l s =>
      obtain ⟨h1, h2⟩ := h l s hc
      match m with
      | 0 => exact ⟨0, Or.inl rfl⟩
      | m + 1 =>
        rcases h2 with h2 | ⟨l1, l2, s1, e1, e2, e3⟩
        · obtain ⟨n, hn⟩ := ih m (by omega) _ h1
          refine ⟨n + 1, ?_⟩
          rw [Sem.run, Sem.run, ← h2]; exact hn
        · match m with
          | 0 =>
            refine ⟨1, Or.inr ⟨l1, l2, s1, ?_, ?_⟩⟩
            · exact e1
            · exact e3
          | m + 1 =>
            obtain ⟨n, hn⟩ := ih m (by omega) _ h1
            refine ⟨n + 1, ?_⟩
            rw [Sem.run, Sem.run, Sem.run, e1, e2, ← e3]; exact hn

/-- If every step of `Q` is one step of `P`, or two of which the second is silent, the programs behave alike. -/
theorem shortcut (M : Sem α β σ) (P Q : List (BB α β)) (S : Label → Prop)
    (h : ∀ l s, S l → inSet S (M.step Q (.at l s)) ∧ OneOrTwo M P Q l s) (l : Label) (hl : S l) :
    SameFrom M P Q l := by
  intro s
  have F := fun n => fwd M P Q S h n (.at l s) hl
  have B := fun n => bwd M P Q S h n (.at l s) hl
  refine ⟨fun t => ⟨?_, ?_⟩, fun t => ⟨?_, ?_⟩, ⟨?_, ?_⟩⟩
  · rintro ⟨n, hn⟩
    obtain ⟨m, hm | ⟨l1, l2, s1, e1, e2⟩⟩ := B n
    · exact ⟨m, by rw [← hm]; exact hn⟩
    · exact ⟨m, by rw [e2]; rw [e1] at hn; exact hn⟩
  · rintro ⟨n, hn⟩
    obtain ⟨m, hm⟩ := F n
    exact ⟨m, by rw [hm]; exact hn⟩
  · rintro ⟨n, hn⟩
    obtain ⟨m, hm | ⟨l1, l2, s1, e1, e2⟩⟩ := B n
    · exact ⟨m, by rw [← hm]; exact hn⟩
    · rw [e1] at hn; cases hn
  · rintro ⟨n, hn⟩
    obtain ⟨m, hm⟩ := F n
    exact ⟨m, by rw [hm]; exact hn⟩
  · rintro ⟨n, hn⟩
    obtain ⟨m, hm | ⟨l1, l2, s1, e1, e2⟩⟩ := B n
    · exact ⟨m, by rw [← hm]; exact hn⟩
    · rw [e1] at hn; cases hn
  · rintro ⟨n, hn⟩
    obtain ⟨m, hm⟩ := F n
    exact ⟨m, by rw [hm]; exact hn⟩

theorem SameFrom.refl (M : Sem α β σ) (P : List (BB α β)) (l : Label) : SameFrom M P P l :=
  fun _ => ⟨fun _ => Iff.rfl, fun _ => Iff.rfl, Iff.rfl⟩

theorem SameFrom.trans {M : Sem α β σ} {P Q R : List (BB α β)} {l : Label} (h1 : SameFrom M P Q l)
    (h2 : SameFrom M Q R l) : SameFrom M P R l := fun s =>
  ⟨fun t => ((h1 s).1 t).trans ((h2 s).1 t), fun t => ((h1 s).2.1 t).trans ((h2 s).2.1 t),
    (h1 s).2.2.trans (h2 s).2.2⟩

theorem sameFrom_of_step (M : Sem α β σ) (P Q : List (BB α β)) (l : Label)
    (h : ∀ l s, M.step Q (.at l s) = M.step P (.at l s)) : SameFrom M P Q l :=
  shortcut M P Q (fun _ => True)
    (fun l s _ => ⟨by cases M.step Q (.at l s) <;> trivial, Or.inl (h l s)⟩) l trivial

/-! ## Lemmas: looking blocks up -/

theorem lookup_append (A B : List (BB α β)) (l : Label) :
    lookup (A ++ B) l =
      match lookup A l with
      | some (b, some n) => some (b, some n)
      | some (b, none) => some (b, B.head?.map (·.label))
      | none => lookup B l := by
  induction A with
  | nil => rfl
  | cons a A ih =>
    rw [List.cons_append, lookup, lookup]
    by_cases h : a.label = l
    · rw [if_pos h, if_pos h]
      cases A <;> rfl
    · rw [if_neg h, if_neg h, ih]

theorem lookup_mem {P : List (BB α β)} {l : Label} {b : BB α β} {nx : Option Label} (h : lookup P l = some (b, nx)) :
    b ∈ P ∧ b.label = l ∧ (∀ n, nx = some n → n ∈ P.map (·.label)) := by
  induction P with
  | nil => cases h
  | cons a P ih =>
    rw [lookup] at h
    by_cases ha : a.label = l
    · rw [if_pos ha] at h
      cases h
      refine ⟨List.mem_cons_self, ha, ?_⟩
      intro n hn
      cases P with
      | nil => cases hn
      | cons x P =>
        cases hn
        simp
    · rw [if_neg ha] at h
      obtain ⟨h1, h2, h3⟩ := ih h
      exact ⟨List.mem_cons_of_mem _ h1, h2, fun n hn => List.mem_cons_of_mem _ (h3 n hn)⟩

theorem lookup_map (f : BB α β → BB α β) (hf : ∀ b, (f b).label = b.label) (P : List (BB α β)) (l : Label) :
    lookup (P.map f) l = (lookup P l).map (fun x => (f x.1, x.2)) := by
  induction P with
  | nil => rfl
  | cons a P ih =>
    rw [List.map_cons, lookup, lookup, hf]
    by_cases h : a.label = l
    · rw [if_pos h, if_pos h]
      cases P with
      | nil => rfl
      | cons x P => simp [hf]
    · rw [if_neg h, if_neg h, ih]

theorem lookup_none {P : List (BB α β)} {l : Label} (h : l ∉ P.map (·.label)) : lookup P l = none := by
  cases e : lookup P l with
  | none => rfl
  | some x =>
    obtain ⟨h1, h2, -⟩ := lookup_mem (b := x.1) (nx := x.2) e
    exact absurd (h2 ▸ List.mem_map_of_mem h1) h

theorem lookup_mid {A : List (BB α β)} {b : BB α β} {B : List (BB α β)} (h : b.label ∉ A.map (·.label)) :
    lookup (A ++ b :: B) b.label = some (b, B.head?.map (·.label)) := by
  rw [lookup_append, lookup_none h]
  simp only [lookup, if_true]

/-- Labels a step can lead to. -/
theorem leave_at {M : Sem α β σ} {t : Term β} {nx : Option Label} {s s' : σ} {l' : Label}
    (h : M.leave t nx s = .at l' s') : l' ∈ t.targets ∨ nx = some l' := by
  cases t with
  | fall =>
    cases nx with
    | none => cases h
    | some n => cases h; exact Or.inr rfl
  | jmp c o t =>
    rw [Sem.leave] at h
    by_cases ht : M.taken c o s = true
    · rw [if_pos ht] at h; cases h; exact Or.inl (List.mem_singleton.2 rfl)
    · rw [if_neg ht] at h
      cases nx with
      | none => cases h
      | some n => cases h; exact Or.inr rfl
  | tjmp o ts =>
    rw [Sem.leave] at h
    cases e : ts[M.sel o s]? with
    | none => rw [e] at h; cases h
    | some t =>
      rw [e] at h
      cases h
      exact Or.inl (List.mem_of_getElem? e)

theorem step_at {M : Sem α β σ} {P : List (BB α β)} {l l' : Label} {s s' : σ}
    (h : M.step P (.at l s) = .at l' s') : (∃ b ∈ P, l' ∈ b.term.targets) ∨ l' ∈ P.map (·.label) := by
  rw [Sem.step] at h
  cases e : lookup P l with
  | none => rw [e] at h; cases h
  | some x =>
    obtain ⟨b, nx⟩ := x
    rw [e] at h
    obtain ⟨h1, -, h3⟩ := lookup_mem e
    rcases leave_at h with h | h
    · exact Or.inl ⟨b, h1, h⟩
    · exact Or.inr (h3 l' h)

/-- The parts of a block that matter for execution. -/
def core (b : BB α β) : Label × List α × Term β := (b.label, b.body, b.term)

theorem step_core (M : Sem α β σ) (P Q : List (BB α β)) (h : P.map core = Q.map core) (l : Label) (s : σ) :
    M.step Q (.at l s) = M.step P (.at l s) := by
  have key : ∀ P Q : List (BB α β), P.map core = Q.map core →
      (lookup P l).map (fun x => (core x.1, x.2)) = (lookup Q l).map (fun x => (core x.1, x.2)) := by
    intro P
    induction P with
    | nil =>
      intro Q hQ
      cases Q with
      | nil => rfl
      | cons q Q => cases hQ
    | cons p P ih =>
      intro Q hQ
      cases Q with
      | nil => cases hQ
      | cons q Q =>
        rw [List.map_cons, List.map_cons, List.cons.injEq] at hQ
        obtain ⟨h1, h2⟩ := hQ
        have hl : p.label = q.label := congrArg (·.1) h1
        rw [lookup, lookup, hl]
        by_cases hq : q.label = l
        · rw [if_pos hq, if_pos hq]
          simp only [Option.map_some, h1, Option.some.injEq, Prod.mk.injEq, true_and]
          cases P with
          | nil =>
            cases Q with
            | nil => rfl
            | cons => cases h2
          | cons p' P =>
            cases Q with
            | nil => cases h2
            | cons q' Q =>
              rw [List.map_cons, List.map_cons, List.cons.injEq] at h2
              have : p'.label = q'.label := congrArg (·.1) h2.1
              simp [this]
        · rw [if_neg hq, if_neg hq]; exact ih Q h2
  have k := key P Q h
  rw [Sem.step, Sem.step]
  cases e1 : lookup P l with
  | none =>
    rw [e1] at k
    cases e2 : lookup Q l with
    | none => rfl
    | some y => rw [e2] at k; cases k
  | some x =>
    rw [e1] at k
    cases e2 : lookup Q l with
    | none => rw [e2] at k; cases k
    | some y =>
      rw [e2] at k
      obtain ⟨b1, n1⟩ := x
      obtain ⟨b2, n2⟩ := y
      simp only [Option.map_some, Option.some.injEq, Prod.mk.injEq, core] at k
      obtain ⟨⟨h1, h2, h3⟩, h4⟩ := k
      simp only [h2, h3, h4]

/-! ## Lemmas: the four transformations -/

theorem dropJmpNext_label (b : BB α β) : (dropJmpNext b).label = b.label := by
  unfold dropJmpNext; split
  · split <;> rfl
  · rfl

theorem dropJmpNext_next (b : BB α β) : (dropJmpNext b).next = b.next := by
  unfold dropJmpNext; split
  · split <;> rfl
  · rfl

theorem dropJmpNext_body (b : BB α β) : (dropJmpNext b).body = b.body := by
  unfold dropJmpNext; split
  · split <;> rfl
  · rfl

theorem dropJmpNext_removed (b : BB α β) : (dropJmpNext b).removed = b.removed := by
  unfold dropJmpNext; split
  · split <;> rfl
  · rfl

theorem dropJmpNext_targets (b : BB α β) : ∀ t ∈ (dropJmpNext b).term.targets, t ∈ b.term.targets := by
  unfold dropJmpNext; split
  · split
    · intro t ht; cases ht
    · intro t ht; exact ht
  · intro t ht; exact ht

theorem dropJmpNext_term (b : BB α β) : (dropJmpNext b).term = b.term ∨ (dropJmpNext b).term = .fall := by
  unfold dropJmpNext; split
  · split
    · exact Or.inr rfl
    · exact Or.inl rfl
  · exact Or.inl rfl

/-- After dropping, a jump does not go to the next block. -/
theorem dropJmpNext_jmp (b : BB α β) {c : Nat} {o : β} {t : Label} (h : (dropJmpNext b).term = .jmp c o t) :
    (dropJmpNext b).next ≠ some t := by
  unfold dropJmpNext at *
  split at h
  · rename_i c' o' t' e
    split at h
    · cases h
    · rename_i hne
      rw [if_neg hne]
      rw [e] at h; cases h
      exact hne
  · rename_i hne
    exact absurd h (hne c o t)

theorem same_drop (M : Sem α β σ) (A B : List (BB α β)) (b : BB α β)
    (hl : b.next = B.head?.map (·.label)) (hn : b.label ∉ A.map (·.label)) (l0 : Label) :
    SameFrom M (A ++ b :: B) (A ++ dropJmpNext b :: B) l0 := by
  apply sameFrom_of_step
  intro l s
  rw [Sem.step, Sem.step]
  by_cases h : l = b.label
  · subst h
    rw [lookup_mid hn]
    have := lookup_mid (A := A) (b := dropJmpNext b) (B := B) (by rw [dropJmpNext_label]; exact hn)
    rw [dropJmpNext_label] at this
    rw [this]
    simp only [dropJmpNext_body]
    unfold dropJmpNext
    split
    · rename_i c o t e
      split
      · rename_i hx
        rw [hl] at hx
        rw [e, hx]
        simp only [Sem.leave, goto]
        split <;> rfl
      · rfl
    · rfl
  · have e1 : lookup (A ++ b :: B) l = lookup (A ++ dropJmpNext b :: B) l := by
      rw [lookup_append, lookup_append]
      cases lookup A l with
      | none => simp only [lookup, dropJmpNext_label, if_neg (Ne.symm h)]
      | some x =>
        obtain ⟨x, n⟩ := x
        cases n <;> simp [dropJmpNext_label]
    rw [e1]

theorem redirectBB_label (s d : Label) (b : BB α β) : (redirectBB s d b).label = b.label := by
  unfold redirectBB; split <;> rfl

theorem redirectBB_body (s d : Label) (b : BB α β) : (redirectBB s d b).body = b.body := by
  unfold redirectBB; split <;> rfl

theorem redirectBB_next (s d : Label) (b : BB α β) : (redirectBB s d b).next = b.next := by
  unfold redirectBB; split <;> rfl

theorem redirectBB_removed (s d : Label) (b : BB α β) : (redirectBB s d b).removed = b.removed := by
  unfold redirectBB; split <;> rfl

/-- Jumps to a block that does nothing but go to `d` may go to `d` directly. -/
theorem same_redirect (M : Sem α β σ) (V : List (BB α β)) (s d : Label)
    (hs : ∀ τ : σ, M.step V (.at s τ) = .at d τ) (l0 : Label) :
    SameFrom M V (redirectAll s d V) l0 := by
  refine shortcut M _ _ (fun _ => True) (fun l τ _ => ⟨by cases M.step (redirectAll s d V) (.at l τ) <;> trivial, ?_⟩)
    l0 trivial
  unfold OneOrTwo
  rw [show M.step (redirectAll s d V) (.at l τ) = (match lookup (redirectAll s d V) l with
    | none => Config.stuck
    | some (b, nx) => M.leave b.term nx (b.body.foldl (fun s i => M.exec i s) τ)) from rfl]
  rw [show M.step V (.at l τ) = (match lookup V l with
    | none => Config.stuck
    | some (b, nx) => M.leave b.term nx (b.body.foldl (fun s i => M.exec i s) τ)) from rfl]
  rw [redirectAll, lookup_map _ (redirectBB_label s d)]
  cases e : lookup V l with
  | none => exact Or.inl rfl
  | some x =>
    obtain ⟨b, nx⟩ := x
    simp only [Option.map_some, redirectBB_body]
    generalize b.body.foldl (fun s i => M.exec i s) τ = τ'
    unfold redirectBB
    split
    · exact Or.inl rfl
    · dsimp only
      cases ht : b.term with
      | fall => exact Or.inl rfl
      | jmp c o t =>
        simp only [Term.redirect, Sem.leave]
        by_cases hk : M.taken c o τ' = true
        · rw [if_pos hk, if_pos hk]
          by_cases hts : t = s
          · right
            subst hts
            exact ⟨t, d, τ', rfl, hs τ', by rw [if_pos rfl]⟩
          · left; rw [if_neg hts]
        · rw [if_neg hk, if_neg hk]; exact Or.inl rfl
      | tjmp o ts =>
        simp only [Term.redirect, Sem.leave, List.getElem?_map]
        cases hi : ts[M.sel o τ']? with
        | none => exact Or.inl rfl
        | some t =>
          simp only [Option.map_some]
          by_cases hts : t = s
          · right
            subst hts
            exact ⟨t, d, τ', rfl, hs τ', by rw [if_pos rfl]⟩
          · left; rw [if_neg hts]

theorem inSet_step {M : Sem α β σ} {Q : List (BB α β)} {s : Label} {l : Label} {τ : σ}
    (h1 : ∀ b ∈ Q, s ∉ b.term.targets) (h2 : s ∉ Q.map (·.label)) :
    inSet (fun l => l ≠ s) (M.step Q (.at l τ)) := by
  cases e : M.step Q (.at l τ) with
  | halt => trivial
  | stuck => trivial
  | «at» l' τ' =>
    intro h
    subst h
    rcases step_at e with ⟨b, hb, ht⟩ | h
    · exact h1 b hb ht
    · exact h2 h

/-- An empty block nobody jumps to may be dropped. -/
theorem same_dropEmpty (M : Sem α β σ) (A B : List (BB α β)) (s n : BB α β)
    (hb : s.body = []) (ht : s.term = .fall)
    (hno : ∀ b ∈ A ++ n :: B, s.label ∉ b.term.targets)
    (hnd : ((A ++ s :: n :: B).map (·.label)).Nodup) (l0 : Label) (hl0 : l0 ≠ s.label) :
    SameFrom M (A ++ s :: n :: B) (A ++ n :: B) l0 := by
  rw [List.map_append, List.map_cons, List.nodup_append, List.nodup_cons] at hnd
  obtain ⟨hA, ⟨hs1, hB⟩, hAB⟩ := hnd
  have hsA : s.label ∉ A.map (·.label) := fun h => hAB _ h _ List.mem_cons_self rfl
  refine shortcut M _ _ (fun l => l ≠ s.label) (fun l τ hl => ⟨inSet_step hno ?_, ?_⟩) l0 hl0
  · rw [List.map_append, List.mem_append]
    rintro (h | h)
    · exact hsA h
    · exact hs1 h
  · have hstep : ∀ τ : σ, M.step (A ++ s :: n :: B) (.at s.label τ) = .at n.label τ := by
      intro τ
      rw [Sem.step, lookup_mid hsA]
      simp only [hb, ht]; rfl
    unfold OneOrTwo
    rw [show M.step (A ++ n :: B) (.at l τ) = (match lookup (A ++ n :: B) l with
      | none => Config.stuck
      | some (b, nx) => M.leave b.term nx (b.body.foldl (fun s i => M.exec i s) τ)) from rfl]
    rw [show M.step (A ++ s :: n :: B) (.at l τ) = (match lookup (A ++ s :: n :: B) l with
      | none => Config.stuck
      | some (b, nx) => M.leave b.term nx (b.body.foldl (fun s i => M.exec i s) τ)) from rfl]
    rw [lookup_append, lookup_append]
    cases e : lookup A l with
    | none =>
      left
      rw [show lookup (s :: n :: B) l = lookup (n :: B) l by rw [lookup, if_neg (Ne.symm hl)]]
    | some x =>
      obtain ⟨b, nx⟩ := x
      cases nx with
      | some k => exact Or.inl rfl
      | none =>
        simp only [List.head?_cons, Option.map_some]
        generalize b.body.foldl (fun s i => M.exec i s) τ = τ'
        cases hbt : b.term with
        | fall => exact Or.inr ⟨s.label, n.label, τ', rfl, hstep τ', rfl⟩
        | jmp c o t =>
          simp only [Sem.leave]
          by_cases hk : M.taken c o τ' = true
          · rw [if_pos hk, if_pos hk]; exact Or.inl rfl
          · rw [if_neg hk, if_neg hk]
            exact Or.inr ⟨s.label, n.label, τ', rfl, hstep τ', rfl⟩
        | tjmp o ts => exact Or.inl rfl

theorem taken_invert (M : Sem α β σ) (c c' : Nat) (o : β) (s : σ) (h1 : c ≠ 1) (hf : c / 16 % 2 = 0)
    (hc : invertCond c = some c') : M.taken c' o s = !M.taken c o s := by
  have hb : ∀ x y, invertCond x = some y → 2 ≤ x % 8 := by
    intro x y h
    unfold invertCond at h
    dsimp only at h
    by_cases hh : 2 ≤ x % 8 ∧ x % 8 ≤ 7
    · exact hh.1
    · rw [if_neg hh] at h; cases h
  have h2 := hb _ _ hc
  have h3 := hb _ _ (invert_involutive _ _ hc)
  obtain ⟨c'', e, hd, ho⟩ := invert_correct c h2
  rw [hc] at e; cases e
  have hord := M.int_ordered o (c / 8) s (by omega)
  have := ho _ hord
  unfold Sem.taken
  rw [hd, this]
  have e1 : (c' == 1) = false := by
    rw [beq_eq_false_iff_ne]; intro h; subst h; omega
  have e2 : (c == 1) = false := by
    rw [beq_eq_false_iff_ne]; exact h1
  rw [e1, e2]; simp

/-- `if (c) goto n; goto t; n:` is `if (!c) goto t; n:`. -/
theorem same_invert (M : Sem α β σ) (A B : List (BB α β)) (p p' s n : BB α β) (c c' : Nat) (o o2 : β) (t : Label)
    (hb : s.body = []) (ht : s.term = .jmp 1 o2 t)
    (hp : p.term = .jmp c o n.label) (hc1 : c ≠ 1) (hf : c / 16 % 2 = 0) (hc : invertCond c = some c')
    (hp1 : p'.label = p.label) (hp2 : p'.body = p.body) (hp3 : p'.term = .jmp c' o t)
    (hno : ∀ b ∈ A ++ p' :: n :: B, s.label ∉ b.term.targets)
    (hnd : ((A ++ p :: s :: n :: B).map (·.label)).Nodup) (l0 : Label) (hl0 : l0 ≠ s.label) :
    SameFrom M (A ++ p :: s :: n :: B) (A ++ p' :: n :: B) l0 := by
  rw [List.map_append, List.map_cons, List.map_cons, List.nodup_append, List.nodup_cons, List.nodup_cons] at hnd
  obtain ⟨hA, ⟨hps, hs1, hB⟩, hAB⟩ := hnd
  have hsA : s.label ∉ A.map (·.label) := fun h => hAB _ h _ (List.mem_cons_of_mem _ List.mem_cons_self) rfl
  have hpA : p.label ∉ A.map (·.label) := fun h => hAB _ h _ List.mem_cons_self rfl
  have hpne : p.label ≠ s.label := fun h => hps (by rw [h]; exact List.mem_cons_self)
  have hps' : s.label ∉ (A ++ [p]).map (·.label) := by
    rw [List.map_append, List.mem_append]
    rintro (h | h)
    · exact hsA h
    · exact hpne (List.mem_singleton.1 h).symm
  have hstep : ∀ τ : σ, M.step (A ++ p :: s :: n :: B) (.at s.label τ) = .at t τ := by
    intro τ
    have := lookup_mid (B := n :: B) hps'
    rw [List.append_assoc] at this
    rw [Sem.step, show A ++ p :: s :: n :: B = A ++ ([p] ++ s :: n :: B) from rfl, this]
    simp only [hb, ht]; rfl
  refine shortcut M _ _ (fun l => l ≠ s.label) (fun l τ hl => ⟨inSet_step hno ?_, ?_⟩) l0 hl0
  · rw [List.map_append, List.mem_append, List.map_cons, hp1]
    rintro (h | h)
    · exact hsA h
    · rcases List.mem_cons.1 h with h | h
      · exact hpne h.symm
      · exact hs1 h
  · unfold OneOrTwo
    by_cases hlp : l = p.label
    · subst hlp
      have e1 := lookup_mid (B := s :: n :: B) hpA
      have e2 := lookup_mid (A := A) (b := p') (B := n :: B) (by rw [hp1]; exact hpA)
      rw [hp1] at e2
      rw [show M.step (A ++ p' :: n :: B) (.at p.label τ) =
        M.leave p'.term (some n.label) (p'.body.foldl (fun s i => M.exec i s) τ) by rw [Sem.step, e2]; rfl]
      rw [show M.step (A ++ p :: s :: n :: B) (.at p.label τ) =
        M.leave p.term (some s.label) (p.body.foldl (fun s i => M.exec i s) τ) by rw [Sem.step, e1]; rfl]
      rw [hp2, hp3, hp]
      generalize p.body.foldl (fun s i => M.exec i s) τ = τ'
      simp only [Sem.leave]
      rw [taken_invert M c c' o τ' hc1 hf hc]
      cases hk : M.taken c o τ' with
      | true => left; rfl
      | false => right; exact ⟨s.label, t, τ', rfl, hstep τ', rfl⟩
    · left
      have e1 : lookup (A ++ p :: s :: n :: B) l = lookup (A ++ p' :: n :: B) l := by
        rw [lookup_append, lookup_append]
        cases lookup A l with
        | none =>
          simp only [lookup, hp1, if_neg (Ne.symm hlp), if_neg (Ne.symm hl)]
        | some x =>
          obtain ⟨x, n⟩ := x
          cases n <;> simp [hp1]
      rw [Sem.step, Sem.step, e1]

/-- Can the block continue with the next one (optimize.c:89)? -/
def falls (b : BB α β) : Prop := ∀ (o : β) (t : Label), b.term ≠ .jmp 1 o t

/-- Blocks that can fall through have the label of their successor in `keep`; `after` follows the list. -/
def FallsOk (keep : List Label) : List (BB α β) → Option Label → Prop
  | [], _ => True
  | b :: r, after =>
    (falls b → ∀ n, (match r with | [] => after | x :: _ => some x.label) = some n → n ∈ keep) ∧ FallsOk keep r after

theorem leave_next (M : Sem α β σ) (b : BB α β) (n1 n2 : Option Label) (h : falls b → n1 = n2) (τ : σ) :
    M.leave b.term n1 τ = M.leave b.term n2 τ := by
  by_cases hf : falls b
  · rw [h hf]
  · cases ht : b.term with
    | fall => exact absurd (fun o t h => by rw [ht] at h; cases h) hf
    | tjmp o ts => rfl
    | jmp c o t =>
      by_cases hc : c = 1
      · subst hc; simp [Sem.leave, Sem.taken]
      · exact absurd (fun o t h => by rw [ht] at h; cases h; exact hc rfl) hf

theorem lookup_filter (keep : List Label) (R : List (BB α β)) (hF : FallsOk keep R none) (l : Label)
    (hl : l ∈ keep) :
    (lookup R l = none ∧ lookup (R.filter (fun b => decide (b.label ∈ keep))) l = none) ∨
    ∃ (b : BB α β) (n1 n2 : Option Label), lookup R l = some (b, n1) ∧
      lookup (R.filter (fun b => decide (b.label ∈ keep))) l = some (b, n2) ∧ (falls b → n1 = n2) := by
  induction R with
  | nil => exact Or.inl ⟨rfl, rfl⟩
  | cons a R ih =>
    obtain ⟨h1, h2⟩ := hF
    by_cases ha : a.label ∈ keep
    · rw [List.filter_cons_of_pos (by simpa using ha), lookup, lookup]
      by_cases hal : a.label = l
      · rw [if_pos hal, if_pos hal]
        refine Or.inr ⟨a, _, _, rfl, rfl, fun hf => ?_⟩
        cases R with
        | nil => rfl
        | cons x R =>
          have := h1 hf x.label rfl
          rw [List.filter_cons_of_pos (by simpa using this)]
          rfl
      · rw [if_neg hal, if_neg hal]; exact ih h2
    · have hal : a.label ≠ l := fun h => ha (h ▸ hl)
      rw [List.filter_cons_of_neg (by simpa using ha), lookup, if_neg hal]; exact ih h2

/-- Blocks that nothing refers to may be dropped. -/
theorem same_sweep (M : Sem α β σ) (keep : List Label) (p : BB α β) (R : List (BB α β))
    (hF : FallsOk keep (p :: R) none) (hT : ∀ b ∈ p :: R, ∀ t ∈ b.term.targets, t ∈ keep) :
    SameFrom M (p :: R) (p :: R.filter (fun b => decide (b.label ∈ keep))) p.label := by
  have key : ∀ l, (l = p.label ∨ l ∈ keep) →
      (lookup (p :: R) l = none ∧ lookup (p :: R.filter (fun b => decide (b.label ∈ keep))) l = none) ∨
      ∃ (b : BB α β) (n1 n2 : Option Label), lookup (p :: R) l = some (b, n1) ∧
        lookup (p :: R.filter (fun b => decide (b.label ∈ keep))) l = some (b, n2) ∧ (falls b → n1 = n2) ∧
        (falls b → ∀ n, n2 = some n → n ∈ keep) := by
    intro l hl
    by_cases hp : p.label = l
    · right
      refine ⟨p, R.head?.map (·.label), (R.filter (fun b => decide (b.label ∈ keep))).head?.map (·.label), ?_, ?_, ?_, ?_⟩
      · rw [lookup, if_pos hp]
      · rw [lookup, if_pos hp]
      · intro hf
        cases R with
        | nil => rfl
        | cons x R =>
          have := hF.1 hf x.label rfl
          rw [List.filter_cons_of_pos (by simpa using this)]
          rfl
      · intro hf n hn
        cases hR : R.filter (fun b => decide (b.label ∈ keep)) with
        | nil => rw [hR] at hn; cases hn
        | cons y ys =>
          rw [hR] at hn; cases hn
          have : y ∈ R.filter (fun b => decide (b.label ∈ keep)) := by rw [hR]; exact List.mem_cons_self
          simpa using (List.mem_filter.1 this).2
    · have hk : l ∈ keep := by
        rcases hl with h | h
        · exact absurd h.symm hp
        · exact h
      rw [lookup, if_neg hp, lookup, if_neg hp]
      rcases lookup_filter keep R hF.2 l hk with h | ⟨b, n1, n2, e1, e2, e3⟩
      · exact Or.inl h
      · refine Or.inr ⟨b, n1, n2, e1, e2, e3, fun _ n hn => ?_⟩
        have := (lookup_mem e2).2.2 n hn
        obtain ⟨y, hy, e⟩ := List.mem_map.1 this
        rw [← e]
        simpa using (List.mem_filter.1 hy).2
  refine shortcut M _ _ (fun l => l = p.label ∨ l ∈ keep) (fun l τ hl => ?_) p.label (Or.inl rfl)
  rcases key l hl with ⟨e1, e2⟩ | ⟨b, n1, n2, e1, e2, e3, e4⟩
  · constructor
    · rw [Sem.step, e2]; trivial
    · left; rw [Sem.step, Sem.step, e1, e2]
  · constructor
    · cases e : M.step (p :: R.filter (fun b => decide (b.label ∈ keep))) (.at l τ) with
      | halt => trivial
      | stuck => trivial
      | «at» l' τ' =>
        right
        rw [Sem.step, e2] at e
        dsimp only at e
        by_cases hf : falls b
        · rcases leave_at e with h | h
          · exact hT b (lookup_mem e1).1 l' h
          · exact e4 hf l' h
        · rw [leave_next M b n2 none (fun h => absurd h hf)] at e
          rcases leave_at e with h | h
          · exact hT b (lookup_mem e1).1 l' h
          · cases h
    · left
      rw [Sem.step, Sem.step, e1, e2]
      exact leave_next M b n2 n1 (fun h => (e3 h).symm) _

/-! ## The invariant of the first loop -/

/-- The blocks not marked for removal. -/
def live (pre : List (BB α β)) : List (BB α β) := pre.reverse.filter (fun b => !b.removed)

/-- The blocks of a state in program order. -/
def allB (pre rest : List (BB α β)) : List (BB α β) := pre.reverse ++ rest

structure Inv (P0 : List (BB α β)) (l0 : Label) (pre rest : List (BB α β)) (keep : List Label) : Prop where
  nodup : ((allB pre rest).map (·.label)).Nodup
  linked : Linked (allB pre rest)
  conds : ∀ b ∈ allB pre rest, ∀ (c : Nat) (o : β) (t : Label), b.term = .jmp c o t → c = 1 ∨ 2 ≤ c % 8
  fresh : ∀ b ∈ rest, b.removed = false
  head : ∃ (b : BB α β) (r : List (BB α β)), allB pre rest = b :: r ∧ b.label = l0 ∧ b.removed = false
  flagged : ∀ b ∈ pre, b.removed = true → ¬ ∃ (c : Nat) (o : β) (t : Label), c ≠ 1 ∧ b.term = .jmp c o t
  notarget : ∀ b ∈ allB pre rest, ∀ t ∈ b.term.targets, ∀ f ∈ pre, f.removed = true → t ≠ f.label
  keepflag : ∀ f ∈ pre, f.removed = true → f.label ∉ keep
  tgt : ∀ b ∈ pre, b.removed = false → ∀ t ∈ b.term.targets, t ∈ keep
  falls : FallsOk keep (live pre) (rest.head?.map (·.label))
  same : ∀ (σ : Type) (M : Sem α β σ), SameFrom M P0 (live pre ++ rest) l0

theorem fallsOk_snoc (keep : List Label) (A : List (BB α β)) (b : BB α β) (after : Option Label) :
    FallsOk keep (A ++ [b]) after ↔
      FallsOk keep A (some b.label) ∧ (Verif.BbClean.falls b → ∀ n, after = some n → n ∈ keep) := by
  induction A with
  | nil => simp [FallsOk]
  | cons a A ih =>
    rw [List.cons_append, FallsOk, FallsOk, ih]
    cases A <;> simp [and_assoc]

theorem fallsOk_mono (k1 k2 : List Label) (h : ∀ x ∈ k1, x ∈ k2) (A : List (BB α β)) (after : Option Label)
    (hA : FallsOk k1 A after) : FallsOk k2 A after := by
  induction A with
  | nil => trivial
  | cons a A ih => exact ⟨fun hf n hn => h _ (hA.1 hf n hn), ih hA.2⟩

/-- Only labels inside the list and the one behind it matter. -/
theorem fallsOk_mono' (k1 k2 : List Label) (A : List (BB α β)) (after : Option Label)
    (h : ∀ x ∈ k1, (x ∈ A.map (·.label) ∨ after = some x) → x ∈ k2)
    (hA : FallsOk k1 A after) : FallsOk k2 A after := by
  induction A with
  | nil => trivial
  | cons a A ih =>
    refine ⟨fun hf n hn => h _ (hA.1 hf n hn) ?_, ih (fun x hx hh => h x hx ?_) hA.2⟩
    · cases A with
      | nil => exact Or.inr hn
      | cons x A =>
        left
        cases hn
        simp
    · rcases hh with hh | hh
      · exact Or.inl (List.mem_cons_of_mem _ hh)
      · exact Or.inr hh

theorem fallsOk_congr (keep : List Label) (A B : List (BB α β)) (f : BB α β → BB α β) (after : Option Label)
    (hB : B = A.map f) (hf : ∀ b ∈ A, (f b).label = b.label ∧ (Verif.BbClean.falls (f b) → Verif.BbClean.falls b))
    (hA : FallsOk keep A after) : FallsOk keep B after := by
  subst hB
  induction A with
  | nil => trivial
  | cons a A ih =>
    rw [List.map_cons]
    refine ⟨fun h n hn => hA.1 ((hf a List.mem_cons_self).2 h) n ?_, ih (fun b hb => hf b (List.mem_cons_of_mem _ hb)) hA.2⟩
    cases A with
    | nil => exact hn
    | cons x A =>
      rw [List.map_cons] at hn
      dsimp only at hn ⊢
      rw [(hf x (List.mem_cons_of_mem _ List.mem_cons_self)).1] at hn
      exact hn

theorem linked_append_cons {A : List (BB α β)} {b : BB α β} {B : List (BB α β)} (h : Linked (A ++ b :: B)) :
    b.next = B.head?.map (·.label) := by
  induction A with
  | nil => exact h.1
  | cons a A ih => exact ih h.2

theorem linked_map {A : List (BB α β)} (f : BB α β → BB α β) (hf : ∀ b, (f b).label = b.label ∧ (f b).next = b.next)
    (h : Linked A) : Linked (A.map f) := by
  induction A with
  | nil => trivial
  | cons a A ih =>
    refine ⟨?_, ih h.2⟩
    rw [(hf a).2, h.1]
    cases A with
    | nil => rfl
    | cons x A => simp [(hf x).1]

/-- Replacing one block by another with the same label and `next`. -/
theorem linked_replace {A : List (BB α β)} {b b' : BB α β} {B : List (BB α β)} (hl : b'.label = b.label)
    (hn : b'.next = b.next) (h : Linked (A ++ b :: B)) : Linked (A ++ b' :: B) := by
  induction A with
  | nil => exact ⟨hn.trans h.1, h.2⟩
  | cons a A ih =>
    refine ⟨?_, ih h.2⟩
    have := h.1
    rw [this]
    cases A with
    | nil => simp [hl]
    | cons x A => rfl

theorem map_label_replace {A : List (BB α β)} {b b' : BB α β} {B : List (BB α β)} (hl : b'.label = b.label) :
    (A ++ b' :: B).map (·.label) = (A ++ b :: B).map (·.label) := by
  simp [hl]

theorem mem_live {pre : List (BB α β)} {b : BB α β} : b ∈ live pre ↔ b ∈ pre ∧ b.removed = false := by
  unfold live; simp

theorem live_cons_false {b : BB α β} {pre : List (BB α β)} (h : b.removed = false) : live (b :: pre) = live pre ++ [b] := by
  unfold live; simp [h]

theorem live_cons_true {b : BB α β} {pre : List (BB α β)} (h : b.removed = true) : live (b :: pre) = live pre := by
  unfold live; simp [h]

theorem live_sub (pre : List (BB α β)) : (live pre).Sublist pre.reverse := List.filter_sublist

theorem allB_cons (pre rest : List (BB α β)) (b : BB α β) : allB (b :: pre) rest = allB pre (b :: rest) := by
  simp [allB]

variable {P0 : List (BB α β)} {l0 : Label}

/-- Labels of visited blocks are not labels of blocks still to come. -/
theorem Inv.disj {pre rest : List (BB α β)} {keep : List Label} (h : Inv P0 l0 pre rest keep) {f b : BB α β}
    (hf : f ∈ pre) (hb : b ∈ rest) : f.label ≠ b.label := by
  have := h.nodup
  rw [allB, List.map_append, List.nodup_append] at this
  exact this.2.2 _ (List.mem_map_of_mem (List.mem_reverse.2 hf)) _ (List.mem_map_of_mem hb)

/-- optimize.c:63-67. -/
theorem inv_drop {pre rest : List (BB α β)} {b : BB α β} {keep : List Label} (h : Inv P0 l0 pre (b :: rest) keep) :
    Inv P0 l0 pre (dropJmpNext b :: rest) keep := by
  have hmem : ∀ x ∈ allB pre (dropJmpNext b :: rest), x ∈ allB pre (b :: rest) ∨ x = dropJmpNext b := by
    intro x hx
    rcases List.mem_append.1 hx with hx | hx
    · exact Or.inl (List.mem_append_left _ hx)
    · rcases List.mem_cons.1 hx with hx | hx
      · exact Or.inr hx
      · exact Or.inl (List.mem_append_right _ (List.mem_cons_of_mem _ hx))
  have hb : b ∈ allB pre (b :: rest) := List.mem_append_right _ List.mem_cons_self
  refine ⟨?_, ?_, ?_, ?_, ?_, h.flagged, ?_, h.keepflag, h.tgt, ?_, ?_⟩
  · have := h.nodup
    unfold allB at *
    rw [map_label_replace (dropJmpNext_label b)]; exact this
  · exact linked_replace (dropJmpNext_label b) (dropJmpNext_next b) h.linked
  · intro x hx c o t ht
    rcases hmem x hx with hx | hx
    · exact h.conds x hx c o t ht
    · subst hx
      rcases dropJmpNext_term b with e | e
      · rw [e] at ht; exact h.conds b hb c o t ht
      · rw [e] at ht; cases ht
  · intro x hx
    rcases List.mem_cons.1 hx with hx | hx
    · subst hx; rw [dropJmpNext_removed]; exact h.fresh b List.mem_cons_self
    · exact h.fresh x (List.mem_cons_of_mem _ hx)
  · obtain ⟨x, r, e, e1, e2⟩ := h.head
    unfold allB at *
    cases hp : pre.reverse with
    | nil =>
      rw [hp] at e
      cases e
      exact ⟨_, _, rfl, by rw [dropJmpNext_label]; exact e1, by rw [dropJmpNext_removed]; exact e2⟩
    | cons y ys =>
      rw [hp] at e
      cases e
      exact ⟨_, _, rfl, e1, e2⟩
  · intro x hx t ht
    rcases hmem x hx with hx | hx
    · exact h.notarget x hx t ht
    · subst hx; exact h.notarget b hb t (dropJmpNext_targets b t ht)
  · have := h.falls
    simpa [dropJmpNext_label] using this
  · intro σ M
    refine (h.same σ M).trans (same_drop M (live pre) rest b (linked_append_cons h.linked) ?_ l0)
    intro hx
    obtain ⟨f, hf, e⟩ := List.mem_map.1 hx
    exact h.disj (mem_live.1 hf).1 List.mem_cons_self e

theorem mem_refs_targets (b : BB α β) : ∀ t ∈ b.term.targets, t ∈ refs b := by
  intro t ht
  unfold refs
  cases hb : b.term with
  | fall => rw [hb] at ht; cases ht
  | jmp c o t' => rw [hb] at ht; exact List.mem_cons.2 (Or.inl (List.mem_singleton.1 ht))
  | tjmp o ts => rw [hb] at ht; exact List.mem_append_right _ ht

theorem mem_refs_next (b : BB α β) (hf : falls b) : ∀ n, b.next = some n → n ∈ refs b := by
  intro n hn
  unfold refs
  cases hb : b.term with
  | fall => simp [hn]
  | jmp c o t' =>
    have : c ≠ 1 := fun h => hf o t' (by rw [hb, h])
    simp [this, hn]
  | tjmp o ts => simp [hn]

theorem mem_refs (b : BB α β) : ∀ l ∈ refs b, l ∈ b.term.targets ∨ b.next = some l := by
  intro l hl
  unfold refs at hl
  cases hb : b.term with
  | fall => rw [hb] at hl; right; simpa using hl
  | jmp c o t =>
    rw [hb] at hl
    rcases List.mem_cons.1 hl with h | h
    · left; exact List.mem_singleton.2 h
    · right
      split at h
      · cases h
      · simpa using h
  | tjmp o ts =>
    rw [hb] at hl
    rcases List.mem_append.1 hl with h | h
    · right; simpa using h
    · left; exact h

/-- Any label a block refers to belongs to no removed block. -/
theorem Inv.refs_ok {pre rest : List (BB α β)} {b : BB α β} {keep : List Label} (h : Inv P0 l0 pre (b :: rest) keep)
    {f : BB α β} (hf : f ∈ pre) (hr : f.removed = true) : f.label ∉ refs b := by
  intro hm
  rcases mem_refs b _ hm with hm | hm
  · exact h.notarget b (List.mem_append_right _ List.mem_cons_self) _ hm f hf hr rfl
  · rw [linked_append_cons h.linked] at hm
    cases rest with
    | nil => cases hm
    | cons x rest =>
      have := h.disj hf (b := x) (List.mem_cons_of_mem _ List.mem_cons_self)
      simp at hm
      exact this hm.symm

/-- A block that is kept as it is. -/
theorem inv_push {pre rest : List (BB α β)} {b : BB α β} {keep : List Label} (h : Inv P0 l0 pre (b :: rest) keep) :
    Inv P0 l0 (b :: pre) rest (refs b ++ keep) := by
  have hb : b.removed = false := h.fresh b List.mem_cons_self
  refine ⟨?_, ?_, ?_, ?_, ?_, ?_, ?_, ?_, ?_, ?_, ?_⟩
  · rw [allB_cons]; exact h.nodup
  · rw [allB_cons]; exact h.linked
  · rw [allB_cons]; exact h.conds
  · exact fun x hx => h.fresh x (List.mem_cons_of_mem _ hx)
  · rw [allB_cons]; exact h.head
  · intro x hx hr
    rcases List.mem_cons.1 hx with hx | hx
    · subst hx; rw [hb] at hr; cases hr
    · exact h.flagged x hx hr
  · rw [allB_cons]
    intro x hx t ht f hf hr
    rcases List.mem_cons.1 hf with hf | hf
    · subst hf; rw [hb] at hr; cases hr
    · exact h.notarget x hx t ht f hf hr
  · intro f hf hr
    rcases List.mem_cons.1 hf with hf | hf
    · subst hf; rw [hb] at hr; cases hr
    · intro hm
      rcases List.mem_append.1 hm with hm | hm
      · exact h.refs_ok hf hr hm
      · exact h.keepflag f hf hr hm
  · intro x hx hr t ht
    rcases List.mem_cons.1 hx with hx | hx
    · subst hx; exact List.mem_append_left _ (mem_refs_targets x t ht)
    · exact List.mem_append_right _ (h.tgt x hx hr t ht)
  · rw [live_cons_false hb, fallsOk_snoc]
    constructor
    · exact fallsOk_mono _ _ (fun x hx => List.mem_append_right _ hx) _ _ h.falls
    · intro hf n hn
      rw [← linked_append_cons h.linked] at hn
      exact List.mem_append_left _ (mem_refs_next b hf n hn)
  · intro σ M
    rw [live_cons_false hb, List.append_assoc]
    exact h.same σ M

/-- The table counts as a set. -/
theorem inv_keep {pre rest : List (BB α β)} {k1 k2 : List Label} (h : Inv P0 l0 pre rest k1)
    (hk : ∀ x, x ∈ k1 ↔ x ∈ k2) : Inv P0 l0 pre rest k2 :=
  ⟨h.nodup, h.linked, h.conds, h.fresh, h.head, h.flagged, h.notarget,
    fun f hf hr hm => h.keepflag f hf hr ((hk _).2 hm), fun b hb hr t ht => (hk _).1 (h.tgt b hb hr t ht),
    fallsOk_mono _ _ (fun x hx => (hk x).1 hx) _ _ h.falls, h.same⟩

theorem redirect_targets (s d : Label) (t : Term β) : ∀ x ∈ (t.redirect s d).targets, x = d ∨ (x ∈ t.targets ∧ x ≠ s) := by
  intro x hx
  cases t with
  | fall => cases hx
  | jmp c o t =>
    have := List.mem_singleton.1 hx
    by_cases h : t = s
    · rw [if_pos h] at this; exact Or.inl this
    · rw [if_neg h] at this; subst this; exact Or.inr ⟨List.mem_singleton.2 rfl, h⟩
  | tjmp o ts =>
    obtain ⟨t, ht, e⟩ := List.mem_map.1 hx
    by_cases h : t = s
    · rw [if_pos h] at e; exact Or.inl e.symm
    · rw [if_neg h] at e; subst e; exact Or.inr ⟨ht, h⟩

/-- A block that only goes to `d`. -/
def Silent (b : BB α β) (d : Label) : Prop :=
  b.body = [] ∧ ((b.term = .fall ∧ b.next = some d) ∨ ∃ o : β, b.term = .jmp 1 o d)

theorem live_map (f : BB α β → BB α β) (hf : ∀ b, (f b).removed = b.removed) (pre : List (BB α β)) :
    live (pre.map f) = (live pre).map f := by
  unfold live
  rw [← List.map_reverse, List.filter_map]
  congr 1
  apply List.filter_congr
  intro x _
  simp [hf]

theorem redirect_jmp {s d : Label} {b : BB α β} {c : Nat} {o : β} {t : Label}
    (h : (redirectBB s d b).term = .jmp c o t) : ∃ t', b.term = .jmp c o t' := by
  unfold redirectBB at h
  split at h
  · exact ⟨t, h⟩
  · dsimp only at h
    cases e : b.term with
    | fall => rw [e] at h; cases h
    | tjmp => rw [e] at h; cases h
    | jmp c' o' t' => rw [e] at h; cases h; exact ⟨t', rfl⟩

theorem redirect_falls {s d : Label} {b : BB α β} (h : falls (redirectBB s d b)) : falls b := by
  intro o t e
  unfold redirectBB at h
  split at h
  · exact h o t e
  · exact h o (if t = s then d else t) (by dsimp only; rw [e]; rfl)

theorem allB_redirect (s d : Label) (pre rest : List (BB α β)) (b : BB α β) (hb : b.label = s) :
    allB (redirectAll s d pre) (b :: redirectAll s d rest) = (allB pre (b :: rest)).map (redirectBB s d) := by
  unfold allB redirectAll
  rw [List.map_append, List.map_reverse, List.map_cons]
  congr 2
  unfold redirectBB
  rw [if_pos hb]

theorem nodup_label_inj {L : List (BB α β)} (h : (L.map (·.label)).Nodup) {x y : BB α β} (hx : x ∈ L) (hy : y ∈ L)
    (e : x.label = y.label) : x = y := by
  induction L with
  | nil => cases hx
  | cons a L ih =>
    rw [List.map_cons, List.nodup_cons] at h
    rcases List.mem_cons.1 hx with hx' | hx' <;> rcases List.mem_cons.1 hy with hy' | hy'
    · rw [hx', hy']
    · rw [← hx', e] at h; exact absurd (List.mem_map_of_mem hy') h.1
    · rw [← hy', ← e] at h; exact absurd (List.mem_map_of_mem hx') h.1
    · exact ih h.2 hx' hy'

/-- optimize.c:33-52, used at 70 and 73. -/
theorem inv_redirect {pre rest : List (BB α β)} {b : BB α β} {keep : List Label} {d : Label}
    (h : Inv P0 l0 pre (b :: rest) keep) (hs : Silent b d) (hd : d ≠ b.label)
    (hdf : ∀ f ∈ pre, f.removed = true → d ≠ f.label) :
    Inv P0 l0 (redirectAll b.label d pre) (b :: redirectAll b.label d rest) (d :: keep) ∧
      ∀ x ∈ allB (redirectAll b.label d pre) (b :: redirectAll b.label d rest), b.label ∉ x.term.targets := by
  have hbm : b ∈ allB pre (b :: rest) := List.mem_append_right _ List.mem_cons_self
  have hall := allB_redirect b.label d pre rest b rfl
  have hbt : ∀ t ∈ b.term.targets, t = d := by
    intro t ht
    rcases hs.2 with ⟨e, -⟩ | ⟨o, e⟩
    · rw [e] at ht; cases ht
    · rw [e] at ht; exact List.mem_singleton.1 ht
  have hT : ∀ x ∈ allB pre (b :: rest), ∀ t ∈ (redirectBB b.label d x).term.targets,
      t = d ∨ (t ∈ x.term.targets ∧ t ≠ b.label) := by
    intro x hx t ht
    unfold redirectBB at ht
    by_cases hxb : x.label = b.label
    · rw [if_pos hxb] at ht
      have : x = b := by
        have hn := h.nodup
        exact nodup_label_inj hn hx hbm hxb
      subst this
      exact Or.inl (hbt t ht)
    · rw [if_neg hxb] at ht
      exact redirect_targets _ _ _ t ht
  constructor
  · refine ⟨?_, ?_, ?_, ?_, ?_, ?_, ?_, ?_, ?_, ?_, ?_⟩
    · rw [hall, List.map_map]
      have : ((·.label) ∘ redirectBB b.label d : BB α β → Label) = (·.label) := by
        funext x; exact redirectBB_label _ _ x
      rw [this]; exact h.nodup
    · rw [hall]; exact linked_map _ (fun x => ⟨redirectBB_label _ _ x, redirectBB_next _ _ x⟩) h.linked
    · rw [hall]
      intro x hx c o t ht
      obtain ⟨y, hy, e⟩ := List.mem_map.1 hx
      subst e
      obtain ⟨t', ht'⟩ := redirect_jmp ht
      exact h.conds y hy c o t' ht'
    · intro x hx
      rcases List.mem_cons.1 hx with hx | hx
      · subst hx; exact h.fresh _ List.mem_cons_self
      · obtain ⟨y, hy, e⟩ := List.mem_map.1 hx
        subst e
        rw [redirectBB_removed]
        exact h.fresh y (List.mem_cons_of_mem _ hy)
    · obtain ⟨x, r, e, e1, e2⟩ := h.head
      rw [hall, e]
      exact ⟨_, _, rfl, by rw [redirectBB_label]; exact e1, by rw [redirectBB_removed]; exact e2⟩
    · intro x hx hr
      obtain ⟨y, hy, e⟩ := List.mem_map.1 hx
      subst e
      rw [redirectBB_removed] at hr
      rintro ⟨c, o, t, hc, ht⟩
      obtain ⟨t', ht'⟩ := redirect_jmp ht
      exact h.flagged y hy hr ⟨c, o, t', hc, ht'⟩
    · rw [hall]
      intro x hx t ht f hf hr
      obtain ⟨y, hy, e⟩ := List.mem_map.1 hx
      subst e
      obtain ⟨g, hg, e⟩ := List.mem_map.1 hf
      subst e
      rw [redirectBB_removed] at hr
      rw [redirectBB_label]
      rcases hT y hy t ht with e | ⟨e, -⟩
      · rw [e]; exact hdf g hg hr
      · exact h.notarget y hy t e g hg hr
    · intro f hf hr
      obtain ⟨g, hg, e⟩ := List.mem_map.1 hf
      subst e
      rw [redirectBB_removed] at hr
      rw [redirectBB_label]
      intro hm
      rcases List.mem_cons.1 hm with hm | hm
      · exact hdf g hg hr hm.symm
      · exact h.keepflag g hg hr hm
    · intro x hx hr t ht
      obtain ⟨y, hy, e⟩ := List.mem_map.1 hx
      subst e
      rw [redirectBB_removed] at hr
      rcases hT y (List.mem_append_left _ (List.mem_reverse.2 hy)) t ht with e | ⟨e, -⟩
      · rw [e]; exact List.mem_cons_self
      · exact List.mem_cons_of_mem _ (h.tgt y hy hr t e)
    · refine fallsOk_congr _ (live pre) _ (redirectBB b.label d) _ (live_map _ (redirectBB_removed _ _) pre)
        (fun x _ => ⟨redirectBB_label _ _ x, redirect_falls⟩) ?_
      exact fallsOk_mono _ _ (fun x hx => List.mem_cons_of_mem _ hx) _ _ h.falls
    · intro σ M
      refine (h.same σ M).trans ?_
      have hst : ∀ τ : σ, M.step (live pre ++ b :: rest) (.at b.label τ) = .at d τ := by
        intro τ
        have hn : b.label ∉ (live pre).map (·.label) := by
          intro hx
          obtain ⟨f, hf, e⟩ := List.mem_map.1 hx
          exact h.disj (mem_live.1 hf).1 List.mem_cons_self e
        rw [Sem.step, lookup_mid hn, ← linked_append_cons h.linked]
        dsimp only
        rw [hs.1]
        rcases hs.2 with ⟨e1, e2⟩ | ⟨o, e1⟩
        · rw [e1, e2]; rfl
        · rw [e1]; rfl
      have := same_redirect M (live pre ++ b :: rest) b.label d hst l0
      have e : redirectAll b.label d (live pre ++ b :: rest) =
          live (redirectAll b.label d pre) ++ b :: redirectAll b.label d rest := by
        unfold redirectAll
        rw [live_map _ (redirectBB_removed _ _), List.map_append, List.map_cons]
        congr 2
        unfold redirectBB
        rw [if_pos rfl]
      rw [e] at this
      exact this
  · rw [hall]
    intro x hx hm
    obtain ⟨y, hy, e⟩ := List.mem_map.1 hx
    subst e
    rcases hT y hy _ hm with e | ⟨-, e⟩
    · exact hd e.symm
    · exact e rfl

/-- Labels of the live blocks and the blocks to come are distinct. -/
theorem Inv.nodup_live {pre rest : List (BB α β)} {keep : List Label} (h : Inv P0 l0 pre rest keep) :
    ((live pre ++ rest).map (·.label)).Nodup := by
  refine List.Nodup.sublist (List.Sublist.map _ ?_) h.nodup
  exact List.Sublist.append (live_sub pre) (List.Sublist.refl _)

/-- Marking the current block changes neither labels nor links. -/
theorem allB_flag (pre rest : List (BB α β)) (b : BB α β) (r : Bool) :
    allB ({ b with removed := r } :: pre) rest = pre.reverse ++ { b with removed := r } :: rest := by
  simp [allB]

theorem Inv.head_ne {pre rest : List (BB α β)} {b : BB α β} {keep : List Label}
    (h : Inv P0 l0 pre (b :: rest) keep) (hp : pre ≠ []) : l0 ≠ b.label := by
  obtain ⟨x, r, e, e1, -⟩ := h.head
  unfold allB at e
  cases hr : pre.reverse with
  | nil => exact absurd (List.reverse_eq_nil_iff.1 hr) hp
  | cons y ys =>
    rw [hr] at e
    cases e
    rw [← e1]
    exact h.disj (List.mem_reverse.1 (by rw [hr]; exact List.mem_cons_self)) List.mem_cons_self

/-- Common part of marking the current block as removed; the block before it may get a new jump. -/
theorem inv_flag {p p' b : BB α β} {ps rest : List (BB α β)} {keep : List Label}
    (h : Inv P0 l0 (p :: ps) (b :: rest) keep)
    (hno : ∀ x ∈ allB (p :: ps) (b :: rest), b.label ∉ x.term.targets)
    (hfl : ¬ ∃ (c : Nat) (o : β) (t : Label), c ≠ 1 ∧ b.term = .jmp c o t)
    (h1 : p'.label = p.label) (h2 : p'.next = p.next) (h3 : p'.removed = p.removed)
    (h4 : ∀ t ∈ p'.term.targets, t ∈ p.term.targets ∨ t ∈ b.term.targets)
    (h5 : ∀ (c : Nat) (o : β) (t : Label), p'.term = .jmp c o t → c = 1 ∨ 2 ≤ c % 8)
    (h6 : p.removed = true → p' = p)
    (hF : FallsOk (refs b ++ keep) (live (p' :: ps)) (rest.head?.map (·.label)))
    (hS : ∀ (σ : Type) (M : Sem α β σ), SameFrom M (live (p :: ps) ++ b :: rest) (live (p' :: ps) ++ rest) l0) :
    Inv P0 l0 ({ b with removed := true } :: p' :: ps) rest ((refs b ++ keep).filter (fun l => l ≠ b.label)) := by
  have hbm : b ∈ allB (p :: ps) (b :: rest) := List.mem_append_right _ List.mem_cons_self
  have hpm : p ∈ allB (p :: ps) (b :: rest) := List.mem_append_left _ (List.mem_reverse.2 List.mem_cons_self)
  have hlab : (allB ({ b with removed := true } :: p' :: ps) rest).map (·.label) =
      (allB (p :: ps) (b :: rest)).map (·.label) := by
    simp [allB, h1]
  have hmem : ∀ x ∈ allB ({ b with removed := true } :: p' :: ps) rest,
      x = { b with removed := true } ∨ x = p' ∨ x ∈ allB (p :: ps) (b :: rest) := by
    intro x hx
    simp only [allB, List.reverse_cons, List.append_assoc, List.cons_append, List.nil_append, List.mem_append,
      List.mem_cons, List.mem_reverse] at hx ⊢
    rcases hx with hx | hx | hx | hx
    · exact Or.inr (Or.inr (Or.inl hx))
    · exact Or.inr (Or.inl hx)
    · exact Or.inl hx
    · exact Or.inr (Or.inr (Or.inr (Or.inr (Or.inr hx))))
  have hps : ∀ x ∈ ps, x ∈ p :: ps := fun x hx => List.mem_cons_of_mem _ hx
  have htg : ∀ x ∈ allB ({ b with removed := true } :: p' :: ps) rest, ∀ t ∈ x.term.targets,
      ∃ y ∈ allB (p :: ps) (b :: rest), t ∈ y.term.targets := by
    intro x hx t ht
    rcases hmem x hx with e | e | e
    · subst e; exact ⟨b, hbm, ht⟩
    · subst e
      rcases h4 t ht with ht | ht
      · exact ⟨p, hpm, ht⟩
      · exact ⟨b, hbm, ht⟩
    · exact ⟨x, e, ht⟩
  have hbn : ∀ f ∈ p :: ps, f.label ≠ b.label := fun f hf => h.disj hf List.mem_cons_self
  refine ⟨?_, ?_, ?_, ?_, ?_, ?_, ?_, ?_, ?_, ?_, ?_⟩
  · rw [hlab]; exact h.nodup
  · have := h.linked
    simp only [allB, List.reverse_cons, List.append_assoc, List.cons_append, List.nil_append] at this ⊢
    have := linked_replace h1 h2 this
    have e : ps.reverse ++ p' :: b :: rest = (ps.reverse ++ [p']) ++ b :: rest := by simp
    rw [e] at this
    have := linked_replace (b := b) (b' := { b with removed := true }) rfl rfl this
    simpa using this
  · intro x hx c o t ht
    rcases hmem x hx with e | e | e
    · subst e; exact h.conds b hbm c o t ht
    · subst e; exact h5 c o t ht
    · exact h.conds x e c o t ht
  · exact fun x hx => h.fresh x (List.mem_cons_of_mem _ hx)
  · obtain ⟨x, r, e, e1, e2⟩ := h.head
    simp only [allB, List.reverse_cons, List.append_assoc, List.cons_append, List.nil_append] at e ⊢
    cases hr : ps.reverse with
    | nil =>
      rw [hr] at e; cases e
      exact ⟨_, _, rfl, h1.trans e1, h3.trans e2⟩
    | cons y ys =>
      rw [hr] at e; cases e
      exact ⟨_, _, rfl, e1, e2⟩
  · intro x hx hr
    rcases List.mem_cons.1 hx with hx | hx
    · subst hx; exact hfl
    · rcases List.mem_cons.1 hx with hx | hx
      · subst hx
        rw [h3] at hr
        rw [h6 hr]
        exact h.flagged p List.mem_cons_self hr
      · exact h.flagged x (hps x hx) hr
  · intro x hx t ht f hf hr
    obtain ⟨y, hy, ht'⟩ := htg x hx t ht
    rcases List.mem_cons.1 hf with hf | hf
    · subst hf; intro e; exact hno y hy (e ▸ ht')
    · rcases List.mem_cons.1 hf with hf | hf
      · subst hf
        rw [h3] at hr; rw [h1]
        exact h.notarget y hy t ht' p List.mem_cons_self hr
      · exact h.notarget y hy t ht' f (hps f hf) hr
  · intro f hf hr hm
    have hm := List.mem_filter.1 hm
    rcases List.mem_cons.1 hf with hf | hf
    · subst hf; simp at hm
    · have : ∃ g ∈ p :: ps, g.label = f.label ∧ g.removed = true := by
        rcases List.mem_cons.1 hf with hf | hf
        · subst hf; exact ⟨p, List.mem_cons_self, h1.symm, h3 ▸ hr⟩
        · exact ⟨f, hps f hf, rfl, hr⟩
      obtain ⟨g, hg, e, hgr⟩ := this
      rw [← e] at hm
      rcases List.mem_append.1 hm.1 with hm | hm
      · exact h.refs_ok hg hgr hm
      · exact h.keepflag g hg hgr hm
  · intro x hx hr t ht
    have hxm : x ∈ allB ({ b with removed := true } :: p' :: ps) rest := List.mem_append_left _ (List.mem_reverse.2 hx)
    rw [List.mem_filter]
    constructor
    · rcases List.mem_cons.1 hx with hx | hx
      · subst hx; cases hr
      · rcases List.mem_cons.1 hx with hx | hx
        · subst hx
          rw [h3] at hr
          rcases h4 t ht with ht | ht
          · exact List.mem_append_right _ (h.tgt p List.mem_cons_self hr t ht)
          · exact List.mem_append_left _ (mem_refs_targets b t ht)
        · exact List.mem_append_right _ (h.tgt x (hps x hx) hr t ht)
    · obtain ⟨y, hy, ht'⟩ := htg x hxm t ht
      have : t ≠ b.label := fun e => hno y hy (e ▸ ht')
      simpa using this
  · rw [live_cons_true rfl]
    refine fallsOk_mono' _ _ _ _ (fun x hx hh => ?_) hF
    rw [List.mem_filter]
    refine ⟨hx, ?_⟩
    have : x ≠ b.label := by
      intro e
      rcases hh with hh | hh
      · obtain ⟨f, hf, ef⟩ := List.mem_map.1 hh
        have hf := (mem_live.1 hf).1
        rcases List.mem_cons.1 hf with hf | hf
        · subst hf; exact hbn p List.mem_cons_self (by rw [← h1, ef, e])
        · exact hbn f (hps f hf) (ef.trans e)
      · cases hrest : rest with
        | nil => rw [hrest] at hh; cases hh
        | cons y ys =>
          rw [hrest] at hh
          simp at hh
          have := h.nodup
          rw [hrest] at this
          simp only [allB, List.map_append, List.map_cons, List.nodup_append, List.nodup_cons] at this
          exact this.2.1.1 (by rw [← e, ← hh]; exact List.mem_cons_self)
    simpa using this
  · intro σ M
    rw [live_cons_true rfl]
    exact (h.same σ M).trans (hS σ M)

theorem Inv.next_ne {pre rest : List (BB α β)} {b : BB α β} {keep : List Label} {n : Label}
    (h : Inv P0 l0 pre (b :: rest) keep) (hn : b.next = some n) :
    ∃ (x : BB α β) (r : List (BB α β)), rest = x :: r ∧ x.label = n ∧ n ≠ b.label := by
  rw [linked_append_cons h.linked] at hn
  cases rest with
  | nil => cases hn
  | cons x r =>
    simp at hn
    refine ⟨x, r, rfl, hn, ?_⟩
    have := h.nodup
    simp only [allB, List.map_append, List.map_cons, List.nodup_append, List.nodup_cons] at this
    intro e
    exact this.2.1.1 (by rw [← e, ← hn]; exact List.mem_cons_self)

/-- optimize.c:69-71 for a block that is not the first. -/
theorem inv_flagEmpty {p b : BB α β} {ps rest : List (BB α β)} {keep : List Label} {n : Label}
    (h : Inv P0 l0 (p :: ps) (b :: rest) keep)
    (hno : ∀ x ∈ allB (p :: ps) (b :: rest), b.label ∉ x.term.targets)
    (hb : b.body = []) (ht : b.term = .fall) (hn : b.next = some n) :
    Inv P0 l0 ({ b with removed := true } :: p :: ps) rest ((refs b ++ keep).filter (fun l => l ≠ b.label)) := by
  obtain ⟨x, r, hr, hx, hne⟩ := h.next_ne hn
  have hnref : n ∈ refs b := mem_refs_next b (fun o t e => by rw [ht] at e; cases e) n hn
  refine inv_flag h hno ?_ rfl rfl rfl (fun t ht => Or.inl ht) ?_ (fun _ => rfl) ?_ ?_
  · rintro ⟨c, o, t, -, e⟩; rw [ht] at e; cases e
  · exact h.conds p (List.mem_append_left _ (List.mem_reverse.2 List.mem_cons_self))
  · have hF := h.falls
    subst hr
    simp only [List.head?_cons, Option.map_some] at hF ⊢
    cases hl : (live (p :: ps)).reverse with
    | nil => rw [List.reverse_eq_nil_iff.1 hl]; trivial
    | cons y ys =>
      have e : live (p :: ps) = ys.reverse ++ [y] := by
        have := congrArg List.reverse hl
        simpa using this
      rw [e, fallsOk_snoc] at hF ⊢
      refine ⟨fallsOk_mono _ _ (fun x hx => List.mem_append_right _ hx) _ _ hF.1, fun _ m hm => ?_⟩
      cases hm
      rw [hx]
      exact List.mem_append_left _ hnref
  · intro σ M
    subst hr
    refine same_dropEmpty M (live (p :: ps)) r b x hb ht ?_ h.nodup_live l0 (h.head_ne (by simp))
    intro y hy
    apply hno
    unfold allB
    rcases List.mem_append.1 hy with hy | hy
    · exact List.mem_append_left _ ((live_sub _).mem hy)
    · exact List.mem_append_right _ (List.mem_cons_of_mem _ hy)

/-- optimize.c:74-84. -/
theorem inv_flagInvert {p b : BB α β} {ps rest : List (BB α β)} {keep : List Label} {c c' : Nat} {o o2 : β}
    {t t' : Label}
    (h : Inv P0 l0 (p :: ps) (b :: rest) keep)
    (hno : ∀ x ∈ allB (p :: ps) (b :: rest), b.label ∉ x.term.targets)
    (hb : b.body = []) (ht : b.term = .jmp 1 o2 t) (hp : p.term = .jmp c o t') (hc1 : c ≠ 1)
    (hn : b.next = some t') (hf : c / 16 % 2 = 0) (hc : invertCond c = some c') :
    Inv P0 l0 ({ b with removed := true } :: { p with term := .jmp c' o t } :: ps) rest
      ((refs b ++ keep).filter (fun l => l ≠ b.label)) := by
  obtain ⟨x, r, hr, hx, hne⟩ := h.next_ne hn
  have hpr : p.removed = false := by
    cases e : p.removed with
    | false => rfl
    | true => exact absurd ⟨c, o, t', hc1, hp⟩ (h.flagged p List.mem_cons_self e)
  have hlive : live (p :: ps) = live ps ++ [p] := live_cons_false hpr
  have hlive' : live ({ p with term := .jmp c' o t } :: ps) = live ps ++ [{ p with term := .jmp c' o t }] :=
    live_cons_false hpr
  have hbt : t ∈ b.term.targets := by rw [ht]; exact List.mem_singleton.2 rfl
  have hbm : b ∈ allB (p :: ps) (b :: rest) := List.mem_append_right _ List.mem_cons_self
  refine inv_flag h hno ?_ rfl rfl rfl ?_ ?_ ?_ ?_ ?_
  · rintro ⟨c, o, t, hc, e⟩; rw [ht] at e; cases e; exact hc rfl
  · intro u hu
    rw [List.mem_singleton.1 hu]
    exact Or.inr hbt
  · intro d o' u e
    cases e
    right
    have := invert_involutive _ _ hc
    unfold invertCond at this
    dsimp only at this
    by_cases hh : 2 ≤ c' % 8 ∧ c' % 8 ≤ 7
    · exact hh.1
    · rw [if_neg hh] at this; cases this
  · intro e; rw [hpr] at e; cases e
  · have hF := h.falls
    rw [hlive, fallsOk_snoc] at hF
    rw [hlive', fallsOk_snoc]
    refine ⟨fallsOk_mono _ _ (fun x hx => List.mem_append_right _ hx) _ _ hF.1, fun _ m hm => ?_⟩
    subst hr
    cases hm
    show x.label ∈ _
    rw [hx]
    refine List.mem_append_right _ (h.tgt p List.mem_cons_self hpr t' ?_)
    rw [hp]; exact List.mem_singleton.2 rfl
  · intro σ M
    rw [hlive, hlive']
    subst hr
    have hnd := h.nodup_live
    rw [hlive] at hnd
    simp only [List.append_assoc, List.cons_append, List.nil_append] at hnd ⊢
    refine same_invert M (live ps) r p { p with term := .jmp c' o t } b x c c' o o2 t hb ht (by rw [hx]; exact hp) hc1 hf hc
      rfl rfl rfl ?_ hnd l0 (h.head_ne (by simp))
    intro y hy
    have hps : ∀ y ∈ live ps, y ∈ allB (p :: ps) (b :: x :: r) := fun y hy =>
      List.mem_append_left _ (List.mem_reverse.2 (List.mem_cons_of_mem _ (mem_live.1 hy).1))
    rcases List.mem_append.1 hy with hy | hy
    · exact hno y (hps y hy)
    · rcases List.mem_cons.1 hy with hy | hy
      · subst hy
        intro hm
        rw [List.mem_singleton.1 hm] at hno
        exact hno b hbm hbt
      · exact hno y (List.mem_append_right _ (List.mem_cons_of_mem _ hy))

/-- Forgetting the label of the first block: nothing in the table needs it. -/
theorem inv_first {b : BB α β} {rest : List (BB α β)} {keep : List Label}
    (h : Inv P0 l0 [b] rest keep)
    (hno : ∀ x ∈ allB [b] rest, b.label ∉ x.term.targets) :
    Inv P0 l0 [b] rest (keep.filter (fun l => l ≠ b.label)) := by
  refine ⟨h.nodup, h.linked, h.conds, h.fresh, h.head, h.flagged, h.notarget, ?_, ?_, ?_, h.same⟩
  · intro f hf hr hm
    exact h.keepflag f hf hr (List.mem_filter.1 hm).1
  · intro x hx hr t ht
    rw [List.mem_filter]
    refine ⟨h.tgt x hx hr t ht, ?_⟩
    have : t ≠ b.label := fun e => hno x (List.mem_append_left _ (List.mem_reverse.2 hx)) (e ▸ ht)
    simpa using this
  · have hF := h.falls
    cases hb : b.removed with
    | true => rw [live_cons_true hb]; trivial
    | false =>
      have e : live [b] = [] ++ [b] := live_cons_false hb
      rw [e, fallsOk_snoc] at hF ⊢
      refine ⟨trivial, fun hf n hn => ?_⟩
      rw [List.mem_filter]
      refine ⟨hF.2 hf n hn, ?_⟩
      cases rest with
      | nil => cases hn
      | cons y ys =>
        cases hn
        have := h.nodup
        simp only [allB, List.reverse_cons, List.reverse_nil, List.nil_append, List.cons_append, List.map_cons,
          List.nodup_cons] at this
        have : y.label ≠ b.label := fun e => this.1 (by rw [← e]; exact List.mem_cons_self)
        simpa using this

theorem invertCond_some {c : Nat} (h : 2 ≤ c % 8) : ∃ c', invertCond c = some c' := by
  obtain ⟨c', e, -⟩ := invert_correct c h
  exact ⟨c', e⟩

/-- The invariant survives one iteration of the first loop. -/
theorem inv_visit {pre rest : List (BB α β)} {b0 : BB α β} {keep : List Label}
    (h0 : Inv P0 l0 pre (b0 :: rest) keep) :
    ∃ s : St α β, visit pre b0 rest keep = some s ∧ Inv P0 l0 s.pre s.rest s.keep ∧ s.rest.length = rest.length ∧
      s.pre.length = pre.length + 1 := by
  have h := inv_drop h0
  have hj : ∀ (c : Nat) (o : β) (t : Label), (dropJmpNext b0).term = .jmp c o t → (dropJmpNext b0).next ≠ some t :=
    fun c o t e => dropJmpNext_jmp b0 e
  unfold visit
  dsimp only
  generalize dropJmpNext b0 = b at *
  have hrm : b.removed = false := h.fresh b List.mem_cons_self
  have hplain : Inv P0 l0 (b :: pre) rest (keepAfter keep b false) := inv_push h
  split
  · -- empty block
    rename_i n hb ht hn
    obtain ⟨x, r, hr, hx, hne⟩ := h.next_ne hn
    have hs : Silent b n := ⟨hb, Or.inl ⟨ht, hn⟩⟩
    have hdf : ∀ f ∈ pre, f.removed = true → n ≠ f.label := by
      intro f hf _ e
      refine h.disj hf (b := x) (by rw [hr]; simp) ?_
      rw [hx, e]
    obtain ⟨h1, hno⟩ := inv_redirect h hs hne hdf
    have hnref : n ∈ refs b := mem_refs_next b (fun o t e => by rw [ht] at e; cases e) n hn
    have hset : ∀ y, y ∈ (refs b ++ n :: keep).filter (fun l => l ≠ b.label) ↔ y ∈ keepAfter keep b true := by
      intro y
      unfold keepAfter
      simp only [if_true, List.mem_filter, List.mem_append, List.mem_cons]
      constructor
      · rintro ⟨h1 | h1 | h1, h2⟩
        · exact ⟨Or.inl h1, h2⟩
        · subst h1; exact ⟨Or.inl hnref, h2⟩
        · exact ⟨Or.inr h1, h2⟩
      · rintro ⟨h1 | h1, h2⟩
        · exact ⟨Or.inl h1, h2⟩
        · exact ⟨Or.inr (Or.inr h1), h2⟩
    refine ⟨_, rfl, ?_, by simp [redirectAll], by simp [redirectAll]⟩
    dsimp only
    cases pre with
    | nil =>
      have h2 := inv_push h1
      have h3 := inv_first h2 (by rw [allB_cons]; exact hno)
      have e : ({ b with removed := !([] : List (BB α β)).isEmpty } : BB α β) = b := by
        cases b; simp at hrm; simp [hrm]
      rw [e]
      exact inv_keep h3 hset
    | cons p ps =>
      rw [show redirectAll b.label n (p :: ps) = redirectBB b.label n p :: redirectAll b.label n ps from rfl] at h1 hno ⊢
      exact inv_keep (inv_flagEmpty h1 hno hb ht hn) hset
  · -- a jump only
    rename_i c o t hb ht
    by_cases hc : c = 1 ∧ b.label ≠ t
    · obtain ⟨hc1, hbt⟩ := hc
      subst hc1
      have hs : Silent b t := ⟨hb, Or.inr ⟨o, ht⟩⟩
      have htt : t ∈ b.term.targets := by rw [ht]; exact List.mem_singleton.2 rfl
      have hdf : ∀ f ∈ pre, f.removed = true → t ≠ f.label := fun f hf hr =>
        h.notarget b (List.mem_append_right _ List.mem_cons_self) t htt f hf hr
      obtain ⟨h1, hno⟩ := inv_redirect h hs (Ne.symm hbt) hdf
      have htref : t ∈ refs b := mem_refs_targets b t htt
      rw [if_pos ⟨rfl, hbt⟩]
      have hset : ∀ y, y ∈ refs b ++ t :: keep ↔ y ∈ refs b ++ keep := by
        intro y
        simp only [List.mem_append, List.mem_cons]
        constructor
        · rintro (h1 | h1 | h1)
          · exact Or.inl h1
          · subst h1; exact Or.inl htref
          · exact Or.inr h1
        · rintro (h1 | h1)
          · exact Or.inl h1
          · exact Or.inr (Or.inr h1)
      have hset' : ∀ y, y ∈ (refs b ++ t :: keep).filter (fun l => l ≠ b.label) ↔
          y ∈ (refs b ++ keep).filter (fun l => l ≠ b.label) := by
        intro y
        rw [List.mem_filter, List.mem_filter, hset]
      have hno' : Inv P0 l0 ({ b with removed := false } :: redirectAll b.label t pre) (redirectAll b.label t rest)
          (keepAfter keep b false) := by
        have e : ({ b with removed := false } : BB α β) = b := by
          cases b; simp at hrm; simp [hrm]
        rw [e]
        exact inv_keep (inv_push h1) hset
      have hlen : (redirectAll b.label t pre).length = pre.length := by simp [redirectAll]
      have hlen2 : (redirectAll b.label t rest).length = rest.length := by simp [redirectAll]
      generalize redirectAll b.label t pre = pre' at *
      generalize redirectAll b.label t rest = rest' at *
      cases pre' with
      | nil => exact ⟨_, rfl, hno', hlen2, by simp only [List.length_cons, List.length_nil] at hlen ⊢; omega⟩
      | cons p ps =>
        unfold invertPrev
        dsimp only
        cases hp : p.term with
        | fall => exact ⟨_, rfl, hno', hlen2, by simp at hlen ⊢; omega⟩
        | tjmp o' ts => exact ⟨_, rfl, hno', hlen2, by simp at hlen ⊢; omega⟩
        | jmp c2 o' t' =>
          dsimp only
          by_cases hcc : c2 ≠ 1 ∧ some t' = b.next ∧ c2 / 16 % 2 = 0
          · rw [if_pos hcc]
            obtain ⟨hc2, hn, hfl⟩ := hcc
            have hpm : p ∈ allB (p :: ps) (b :: rest') := List.mem_append_left _ (List.mem_reverse.2 List.mem_cons_self)
            obtain ⟨c', hc'⟩ := invertCond_some ((h1.conds p hpm c2 o' t' hp).resolve_left hc2)
            rw [hc']
            refine ⟨_, rfl, ?_, hlen2, by simp at hlen ⊢; omega⟩
            exact inv_keep (inv_flagInvert h1 hno hb ht hp hc2 hn.symm hfl hc') hset'
          · rw [if_neg hcc]
            exact ⟨_, rfl, hno', hlen2, by simp at hlen ⊢; omega⟩
    · rw [if_neg hc]
      exact ⟨_, rfl, hplain, rfl, rfl⟩
  · exact ⟨_, rfl, hplain, rfl, rfl⟩

theorem inv_visitAll (n : Nat) : ∀ (pre rest : List (BB α β)) (keep : List Label), rest.length = n →
    Inv P0 l0 pre rest keep →
    ∃ (pre' : List (BB α β)) (keep' : List Label), visitAll n pre rest keep = some (pre'.reverse, keep') ∧
      Inv P0 l0 pre' [] keep' ∧ pre'.length = pre.length + n := by
  induction n with
  | zero =>
    intro pre rest keep hl h
    have : rest = [] := List.eq_nil_of_length_eq_zero hl
    subst this
    exact ⟨pre, keep, rfl, h, rfl⟩
  | succ n ih =>
    intro pre rest keep hl h
    cases rest with
    | nil => simp at hl
    | cons b rest =>
      obtain ⟨s, e, hI, h1, h2⟩ := inv_visit h
      obtain ⟨pre', keep', e', hI', h3⟩ := ih s.pre s.rest s.keep (by simp at hl; omega) hI
      refine ⟨pre', keep', ?_, hI', by omega⟩
      rw [visitAll]
      simp only [e]
      exact e'

/-! ## The second loop -/

theorem sweep_core (keep : List Label) (R : List (BB α β)) : ∀ p : BB α β,
    (sweep keep p R).map core = core p :: (R.filter (fun b => decide (b.label ∈ keep))).map core := by
  induction R with
  | nil => intro p; rfl
  | cons b R ih =>
    intro p
    rw [sweep]
    by_cases h : b.label ∈ keep
    · rw [if_pos h, List.filter_cons_of_pos (by simpa using h), List.map_cons, ih]; rfl
    · rw [if_neg h, List.filter_cons_of_neg (by simpa using h), ih]; rfl

theorem sweep_head (keep : List Label) (R : List (BB α β)) : ∀ p : BB α β,
    ∃ (q : BB α β) (r : List (BB α β)), sweep keep p R = q :: r ∧ core q = core p ∧ q.removed = p.removed := by
  induction R with
  | nil => intro p; exact ⟨p, [], rfl, rfl, rfl⟩
  | cons b R ih =>
    intro p
    rw [sweep]
    by_cases h : b.label ∈ keep
    · rw [if_pos h]; exact ⟨_, _, rfl, rfl, rfl⟩
    · rw [if_neg h]
      obtain ⟨q, r, e1, e2, e3⟩ := ih { p with next := b.next }
      exact ⟨q, r, e1, e2, e3⟩

theorem sweep_linked (keep : List Label) (R : List (BB α β)) : ∀ p : BB α β, Linked (p :: R) → Linked (sweep keep p R) := by
  induction R with
  | nil => intro p h; exact h
  | cons b R ih =>
    intro p h
    rw [sweep]
    by_cases hk : b.label ∈ keep
    · rw [if_pos hk]
      refine ⟨?_, ih b h.2⟩
      obtain ⟨q, r, e1, e2, -⟩ := sweep_head keep R b
      rw [e1, h.1]
      have : q.label = b.label := congrArg (·.1) e2
      simp [this]
    · rw [if_neg hk]
      exact ih _ ⟨h.2.1, h.2.2⟩

theorem sweep_mem (keep : List Label) (R : List (BB α β)) : ∀ p : BB α β, ∀ x ∈ sweep keep p R,
    (core x = core p ∧ x.removed = p.removed) ∨ ∃ y ∈ R, y.label ∈ keep ∧ core x = core y ∧ x.removed = y.removed := by
  induction R with
  | nil => intro p x hx; rw [List.mem_singleton.1 hx]; exact Or.inl ⟨rfl, rfl⟩
  | cons b R ih =>
    intro p x hx
    rw [sweep] at hx
    by_cases hk : b.label ∈ keep
    · rw [if_pos hk] at hx
      rcases List.mem_cons.1 hx with hx | hx
      · subst hx; exact Or.inl ⟨rfl, rfl⟩
      · rcases ih b x hx with ⟨h1, h2⟩ | ⟨y, hy, h⟩
        · exact Or.inr ⟨b, List.mem_cons_self, hk, h1, h2⟩
        · exact Or.inr ⟨y, List.mem_cons_of_mem _ hy, h⟩
    · rw [if_neg hk] at hx
      rcases ih _ x hx with h | ⟨y, hy, h⟩
      · exact Or.inl h
      · exact Or.inr ⟨y, List.mem_cons_of_mem _ hy, h⟩

theorem map_core_label (L : List (BB α β)) : L.map (·.label) = (L.map core).map (·.1) := by
  rw [List.map_map]; rfl

/-- One round keeps the function well formed, its entry and its behaviour. -/
theorem round_correct (P : List (BB α β)) (hne : P ≠ []) (h : WF P) :
    ∃ Q : List (BB α β), round P = some Q ∧ WF Q ∧ Q ≠ [] ∧ Q.length ≤ P.length ∧
      Q.head?.map (·.label) = P.head?.map (·.label) ∧
      ∀ l0, P.head?.map (·.label) = some l0 → ∀ (σ : Type) (M : Sem α β σ), SameFrom M P Q l0 := by
  obtain ⟨p0, R0, hP⟩ := List.exists_cons_of_ne_nil hne
  have hinit : Inv P p0.label [] P [] := by
    refine ⟨by simpa [allB] using h.nodup, by simpa [allB] using h.linked, by simpa [allB] using h.conds, h.fresh, ?_,
      by simp, by simp, by simp, by simp, trivial, ?_⟩
    · exact ⟨p0, R0, by simp [allB, hP], rfl, h.fresh _ (by rw [hP]; simp)⟩
    · intro σ M; exact SameFrom.refl M _ _
  obtain ⟨pre', keep, e, hI, hlen⟩ := inv_visitAll P.length [] P [] rfl hinit
  obtain ⟨p, R, hall, hl0, hpr⟩ := hI.head
  have hrev : pre'.reverse = p :: R := by simpa [allB] using hall
  have hmem : ∀ x, x ∈ p :: R ↔ x ∈ pre' := by
    intro x; rw [← hrev]; exact List.mem_reverse
  have hlive : live pre' = p :: R.filter (fun b => !b.removed) := by
    unfold live; rw [hrev, List.filter_cons_of_pos (by simp [hpr])]
  have hfil : (R.filter (fun b => !b.removed)).filter (fun b => decide (b.label ∈ keep)) =
      R.filter (fun b => decide (b.label ∈ keep)) := by
    rw [List.filter_filter]
    apply List.filter_congr
    intro x hx
    have := hI.keepflag x ((hmem x).1 (List.mem_cons_of_mem _ hx))
    cases hr : x.removed with
    | false => simp
    | true => simp [this hr]
  have hcore : (sweep keep p R).map core =
      (p :: (R.filter (fun b => !b.removed)).filter (fun b => decide (b.label ∈ keep))).map core := by
    rw [sweep_core, hfil]; rfl
  refine ⟨sweep keep p R, ?_, ⟨?_, ?_, ?_, ?_⟩, ?_, ?_, ?_, ?_⟩
  · unfold round
    rw [e, hrev]
  · rw [map_core_label, sweep_core, ← List.map_cons, ← map_core_label]
    have := hI.nodup
    rw [hall] at this
    exact List.Nodup.sublist (List.Sublist.map _ (List.Sublist.cons_cons _ List.filter_sublist)) this
  · apply sweep_linked
    have := hI.linked
    rw [hall] at this
    exact this
  · intro x hx c o t ht
    rcases sweep_mem keep R p x hx with ⟨h1, -⟩ | ⟨y, hy, -, h1, -⟩
    · have e1 : x.term = p.term := congrArg (fun z => z.2.2) h1
      rw [e1] at ht
      exact hI.conds p (by rw [hall]; simp) c o t ht
    · have e1 : x.term = y.term := congrArg (fun z => z.2.2) h1
      rw [e1] at ht
      exact hI.conds y (by rw [hall]; exact List.mem_cons_of_mem _ hy) c o t ht
  · intro x hx
    rcases sweep_mem keep R p x hx with ⟨-, h1⟩ | ⟨y, hy, hk, -, h1⟩
    · rw [h1]; exact hpr
    · rw [h1]
      cases hr : y.removed with
      | false => rfl
      | true => exact absurd hk (hI.keepflag y ((hmem y).1 (List.mem_cons_of_mem _ hy)) hr)
  · obtain ⟨q, r, e1, -, -⟩ := sweep_head keep R p
    rw [e1]; simp
  · have h1 : (sweep keep p R).length = 1 + (R.filter (fun b => decide (b.label ∈ keep))).length := by
      have := congrArg List.length (sweep_core keep R p)
      simp at this
      omega
    have h2 : (R.filter (fun b => decide (b.label ∈ keep))).length ≤ R.length := List.length_filter_le _ _
    have h3 : pre'.length = R.length + 1 := by
      have := congrArg List.length hrev
      simpa using this
    simp at hlen
    omega
  · obtain ⟨q, r, e1, e2, -⟩ := sweep_head keep R p
    rw [e1, hP]
    have : q.label = p.label := congrArg (·.1) e2
    simp [this, hl0]
  · intro l0 hl σ M
    have : l0 = p0.label := by
      rw [hP] at hl; simpa using hl.symm
    subst this
    refine (hI.same σ M).trans ?_
    rw [List.append_nil, hlive, ← hl0]
    refine SameFrom.trans (same_sweep M keep p (R.filter (fun b => !b.removed)) ?_ ?_)
      (sameFrom_of_step M _ _ _ (fun l s => step_core M _ _ hcore.symm l s))
    · have := hI.falls
      rw [hlive] at this
      exact this
    · intro b hb t ht
      have : b ∈ live pre' := by rw [hlive]; exact hb
      obtain ⟨h1, h2⟩ := mem_live.1 this
      exact hI.tgt b h1 h2 t ht

/-! ## C33 -/

/-- C33.  `remove_unnecessary_bb` terminates without a failed assertion on every well-formed function, keeps the entry
block, and the cleaned function behaves exactly like the original one: the same machine states occur, and the function
returns or gets stuck in the same cases.  Afterwards the blocks are again well formed (distinct labels and `next`
pointers that agree with the emission order). -/
theorem clean_correct (P : List (BB α β)) (hne : P ≠ []) (h : WF P) :
    ∃ Q : List (BB α β), clean P = some Q ∧ WF Q ∧ Q ≠ [] ∧ Q.head?.map (·.label) = P.head?.map (·.label) ∧
      ∀ l0, P.head?.map (·.label) = some l0 → ∀ (σ : Type) (M : Sem α β σ), SameFrom M P Q l0 := by
  suffices H : ∀ n (P : List (BB α β)), P.length = n → P ≠ [] → WF P →
      ∃ Q : List (BB α β), clean P = some Q ∧ WF Q ∧ Q ≠ [] ∧ Q.head?.map (·.label) = P.head?.map (·.label) ∧
      ∀ l0, P.head?.map (·.label) = some l0 → ∀ (σ : Type) (M : Sem α β σ), SameFrom M P Q l0 from H _ P rfl hne h
  intro n
  induction n using Nat.strongRecOn with
  | ind n ih =>
    intro P hn hne h
    obtain ⟨Q, e, hQ, hQne, hlen, hhead, hsame⟩ := round_correct P hne h
    rw [clean, e]
    dsimp only
    by_cases hl : Q.length < P.length
    · rw [if_pos hl]
      obtain ⟨Q', e', hQ', hne', hh', hs'⟩ := ih Q.length (by omega) Q rfl hQne hQ
      refine ⟨Q', e', hQ', hne', hh'.trans hhead, fun l0 hl0 σ M => ?_⟩
      exact (hsame l0 hl0 σ M).trans (hs' l0 (hhead.trans hl0) σ M)
    · rw [if_neg hl]
      exact ⟨Q, rfl, hQ, hQne, hhead, hsame⟩

/-- In particular the results agree: the cleaned function returns with state `t` iff the original does. -/
theorem clean_result (P Q : List (BB α β)) (hne : P ≠ []) (h : WF P) (hQ : clean P = some Q) (l0 : Label)
    (hl : P.head?.map (·.label) = some l0) (M : Sem α β σ) (s t : σ) :
    (∃ n : Nat, M.run P n (.at l0 s) = .halt t) ↔ (∃ n : Nat, M.run Q n (.at l0 s) = .halt t) := by
  obtain ⟨Q', e, -, -, -, hs⟩ := clean_correct P hne h
  rw [hQ] at e; cases e
  exact (hs l0 hl σ M s).2.1 t

/-- A machine that also records every instruction it executes. -/
def traced (M : Sem α β σ) : Sem α β (σ × List α) where
  exec i s := (M.exec i s.1, s.2 ++ [i])
  cmp o f s := M.cmp o f s.1
  sel o s := M.sel o s.1
  int_ordered o f s := M.int_ordered o f s.1

/-- C33.  The sequence of executed instructions is unchanged: a prefix of a run (up to a block boundary) of the cleaned
function is a prefix of the run of the original one, and conversely. -/
theorem clean_trace (P Q : List (BB α β)) (hne : P ≠ []) (h : WF P) (hQ : clean P = some Q) (l0 : Label)
    (hl : P.head?.map (·.label) = some l0) (M : Sem α β σ) (s t : σ) (log : List α) :
    (∃ n : Nat, ((traced M).run P n (.at l0 (s, []))).state = some (t, log)) ↔
      (∃ n : Nat, ((traced M).run Q n (.at l0 (s, []))).state = some (t, log)) := by
  obtain ⟨Q', e, -, -, -, hs⟩ := clean_correct P hne h
  rw [hQ] at e; cases e
  exact (hs l0 hl _ (traced M) (s, [])).1 (t, log)

/-- A loop with a conditional jump over a jump, an empty block and an unreachable block. -/
def sample : List (BB Nat Unit) :=
  [⟨0, [10], .jmp 4 () 2, some 1, false⟩, ⟨1, [], .jmp 1 () 4, some 2, false⟩, ⟨2, [11], .fall, some 3, false⟩,
   ⟨3, [], .fall, some 4, false⟩, ⟨4, [12], .jmp 1 () 0, some 5, false⟩, ⟨5, [13], .fall, none, false⟩]

example : (clean sample).map (fun Q => Q.map (fun b => (b.label, b.body))) =
    some [(0, [10]), (2, [11]), (4, [12])] := by decide +kernel

example : WF sample := ⟨by decide, by simp [sample, Linked], by
  intro b hb c o t ht
  simp [sample] at hb
  rcases hb with h | h | h | h | h | h <;> subst h <;> cases ht <;> simp, by simp [sample]⟩

end Verif.BbClean

/-
Conditional inclusion (C20).

Models the conditional part of `process_directive`, /repo/src/cpp/preprocessor.c:690-751, the
loop of `get_processed_next_line`, preprocessor.c:798-819, and `preprocess`,
preprocessor.c:821-859.

Everything a condition depends on (macros) is an abstract environment `σ`; evaluating a
condition (`handle_if`, `handle_ifdef`) is a function `ev` that may fail with an error, and
that is told whether the current group is enabled (preprocessor.c:652).  An enabled line that
is no conditional directive (text, `#define`, `#include`, ...) is kept, and may change the
environment or fail (`#error`), by a function `act`.
-/
import Mathlib.Tactic.Tauto

namespace Verif.CppCond

/-! ### Model -/

/-- `enum Satisfy`, preprocessor.c:27-31. -/
inductive Sat where
  | notSatisfied | satisfied | elseAppeared
deriving DecidableEq, Repr

/-- A line, classified as `process_directive` does: another line, `#if`/`#ifdef`/`#ifndef`,
`#elif`, `#else`, `#endif`. -/
inductive Line (C T : Type) where
  | text (t : T)
  | ifc (c : C)
  | elif (c : C)
  | els
  | endif
deriving DecidableEq, Repr

/-- `PreprocessFile`, preprocessor.c:33-41: `condstack` holds `cond_value(enable, satisfy)`
(preprocessor.c:662-664), innermost first; plus the environment and the lines kept so far. -/
structure St (σ T : Type) where
  stack : List (Bool × Sat)
  enable : Bool
  sat : Sat
  env : σ
  out : List T

/-- The functions the model is about: see the head of the file. -/
structure Sem (σ C T : Type) where
  ev : Bool → σ → C → Option Bool
  act : σ → T → Option σ

variable {σ C T : Type}

/-- One line: `process_directive`, preprocessor.c:690-751, and the test of `enable`,
preprocessor.c:811-815.  `none`: an error is reported. -/
def step (S : Sem σ C T) (st : St σ T) : Line C T → Option (St σ T)
  | .text t =>
    if st.enable then (S.act st.env t).map fun e => { st with env := e, out := st.out ++ [t] }
    else some st
  | .ifc c =>
    (S.ev st.enable st.env c).map fun b =>
      let sat := if b then Sat.satisfied else Sat.notSatisfied
      { st with
        stack := (st.enable, st.sat) :: st.stack
        sat := sat
        enable := st.enable && sat == Sat.satisfied }
  | .els =>
    match st.stack with
    | [] => none
    | (flag, _) :: _ =>
      if st.sat = .elseAppeared then none
      else some { st with
        enable := !st.enable && st.sat == Sat.notSatisfied && flag
        sat := .elseAppeared }
  | .elif c =>
    match st.stack with
    | [] => none
    | (flag, _) :: _ =>
      if st.sat = .elseAppeared then none
      else
        (S.ev st.enable st.env c).map fun b =>
          let cond := st.sat == Sat.notSatisfied && b
          { st with
            sat := if cond then Sat.satisfied else st.sat
            enable := !st.enable && cond && flag }
  | .endif =>
    match st.stack with
    | [] => none
    | (flag, sat) :: stack => some { st with stack := stack, enable := flag, sat := sat }

/-- The loop over the lines, preprocessor.c:798-819. -/
def run (S : Sem σ C T) : List (Line C T) → St σ T → Option (St σ T)
  | [], st => some st
  | l :: ls, st => (step S st l).bind (run S ls)

/-- `preprocess`, preprocessor.c:821-859, for one file: the environment left and the lines
kept; "#if not closed", preprocessor.c:851-852. -/
def file (S : Sem σ C T) (e : σ) (ls : List (Line C T)) : Option (σ × List T) :=
  match run S ls ⟨[], true, .notSatisfied, e, []⟩ with
  | some st => if st.stack.length > 0 then none else some (st.env, st.out)
  | none => none

/-! ### Specification: the groups of ISO 6.10.1 -/

mutual
/-- A group: lines and if-sections. -/
inductive Grp (C T : Type) where
  | nil
  | text (t : T) (rest : Grp C T)
  | sec (c : C) (g : Grp C T) (alts : Alts C T) (rest : Grp C T)
/-- The rest of an if-section after a group: `#endif`, `#elif` and a group, `#else`, a group
and `#endif`. -/
inductive Alts (C T : Type) where
  | endif
  | elif (c : C) (g : Grp C T) (alts : Alts C T)
  | els (g : Grp C T)
end

mutual
/-- The lines of a group. -/
def flat : Grp C T → List (Line C T)
  | .nil => []
  | .text t r => .text t :: flat r
  | .sec c g a r => .ifc c :: (flat g ++ (flatA a ++ flat r))
/-- The lines of the rest of an if-section. -/
def flatA : Alts C T → List (Line C T)
  | .endif => [.endif]
  | .elif c g a => .elif c :: (flat g ++ flatA a)
  | .els g => .els :: (flat g ++ [.endif])
end

mutual
/-- The lines ISO keeps of a group, and the environment after it: conditions are evaluated in
order up to the first true one, nothing else is. -/
def keep (S : Sem σ C T) (e : σ) : Grp C T → Option (σ × List T)
  | .nil => some (e, [])
  | .text t r => (S.act e t).bind fun e' => (keep S e' r).map fun p => (p.1, t :: p.2)
  | .sec c g a r =>
    (S.ev true e c).bind fun b =>
      (if b then keep S e g else keepA S e a).bind fun p =>
        (keep S p.1 r).map fun q => (q.1, p.2 ++ q.2)
/-- The same for the rest of an if-section of which no group has been kept. -/
def keepA (S : Sem σ C T) (e : σ) : Alts C T → Option (σ × List T)
  | .endif => some (e, [])
  | .elif c g a => (S.ev true e c).bind fun b => if b then keep S e g else keepA S e a
  | .els g => keep S e g
end

/-- A condition that is a proper expression has the same value in a disabled group
(preprocessor.c:652 only suppresses the check for tokens left over). -/
def Tolerant (S : Sem σ C T) : Prop :=
  ∀ e c b, S.ev true e c = some b → S.ev false e c = some b

/-! ### Lemmas -/

theorem run_cons {S : Sem σ C T} {l : Line C T} {ls : List (Line C T)} {st fin : St σ T}
    (h : run S (l :: ls) st = some fin) : ∃ st', step S st l = some st' ∧
      run S ls st' = some fin := by
  simp only [run] at h
  cases hs : step S st l with
  | none => rw [hs] at h; simp at h
  | some st' => rw [hs] at h; exact ⟨st', rfl, h⟩

mutual
/-- A disabled group leaves no trace. -/
theorem skip_fwd (S : Sem σ C T) : ∀ (g : Grp C T) (rest : List (Line C T)) (st fin : St σ T),
    st.enable = false → run S (flat g ++ rest) st = some fin → run S rest st = some fin
  | .nil, rest, st, fin, _, h => h
  | .text t r, rest, st, fin, he, h => by
    obtain ⟨st', h1, h2⟩ := run_cons h
    simp only [step, he, Bool.false_eq_true, if_false, Option.some.injEq] at h1
    subst h1
    exact skip_fwd S r rest st fin he h2
  | .sec c g a r, rest, st, fin, he, h => by
    simp only [flat, List.cons_append, List.append_assoc] at h
    obtain ⟨st', h1, h2⟩ := run_cons h
    simp only [step, he, Bool.false_and] at h1
    cases hc : S.ev false st.env c with
    | none => rw [hc] at h1; simp at h1
    | some b =>
      rw [hc] at h1
      simp only [Option.map_some, Option.some.injEq] at h1
      subst h1
      have h3 := skip_fwd S g _ _ _ rfl h2
      have h4 := skipA_fwd S a _ _ _ false st.sat st.stack rfl (.inl ⟨rfl, rfl⟩) h3
      have : (⟨st.stack, false, st.sat, st.env, st.out⟩ : St σ T) = st := by
        cases st; simp_all
      rw [this] at h4
      exact skip_fwd S r rest st fin he h4
/-- The rest of an if-section that is disabled or has had its group. -/
theorem skipA_fwd (S : Sem σ C T) : ∀ (a : Alts C T) (rest : List (Line C T)) (st fin : St σ T)
    (oe : Bool) (os : Sat) (stk : List (Bool × Sat)), st.stack = (oe, os) :: stk →
    ((oe = false ∧ st.enable = false) ∨ st.sat = .satisfied) →
    run S (flatA a ++ rest) st = some fin →
    run S rest ⟨stk, oe, os, st.env, st.out⟩ = some fin
  | .endif, rest, st, fin, oe, os, stk, hs, _, h => by
    obtain ⟨st', h1, h2⟩ := run_cons h
    simp only [step, hs, Option.some.injEq] at h1
    subst h1
    exact h2
  | .elif c g a, rest, st, fin, oe, os, stk, hs, hd, h => by
    simp only [flatA, List.cons_append, List.append_assoc] at h
    obtain ⟨st', h1, h2⟩ := run_cons h
    simp only [step, hs] at h1
    split at h1
    · simp at h1
    · cases hc : S.ev st.enable st.env c with
      | none => rw [hc] at h1; simp at h1
      | some b =>
        rw [hc] at h1
        simp only [Option.map_some, Option.some.injEq] at h1
        have hen : st'.enable = false := by
          rw [← h1]
          rcases hd with ⟨h, _⟩ | h <;> simp [h]
        have hst : st'.stack = (oe, os) :: stk := by rw [← h1]
        have hd' : (oe = false ∧ st'.enable = false) ∨ st'.sat = .satisfied := by
          rcases hd with ⟨h, _⟩ | h
          · exact .inl ⟨h, hen⟩
          · right
            rw [← h1]
            simp [h]
        have h3 := skip_fwd S g _ _ _ hen h2
        have h4 := skipA_fwd S a _ _ _ oe os stk hst hd' h3
        rw [← h1] at h4
        exact h4
  | .els g, rest, st, fin, oe, os, stk, hs, hd, h => by
    simp only [flatA, List.cons_append, List.append_assoc] at h
    obtain ⟨st', h1, h2⟩ := run_cons h
    simp only [step, hs] at h1
    split at h1
    · simp at h1
    · simp only [Option.some.injEq] at h1
      have hen : st'.enable = false := by
        rw [← h1]
        rcases hd with ⟨h, _⟩ | h <;> simp [h]
      have h3 := skip_fwd S g _ _ _ hen h2
      obtain ⟨st2, h4, h5⟩ := run_cons h3
      subst h1
      simp only [step, hs, Option.some.injEq] at h4
      subst h4
      exact h5
end

mutual
/-- An enabled group keeps what the specification keeps. -/
theorem keep_fwd (S : Sem σ C T) (ht : Tolerant S) : ∀ (g : Grp C T) (rest : List (Line C T))
    (st fin : St σ T) (e : σ) (o : List T), st.enable = true → keep S st.env g = some (e, o) →
    run S (flat g ++ rest) st = some fin →
    run S rest { st with env := e, out := st.out ++ o } = some fin
  | .nil, rest, st, fin, e, o, he, hk, h => by
    simp only [keep, Option.some.injEq, Prod.mk.injEq] at hk
    obtain ⟨rfl, rfl⟩ := hk
    simpa [flat] using h
  | .text t r, rest, st, fin, e, o, he, hk, h => by
    obtain ⟨st', h1, h2⟩ := run_cons h
    simp only [step, he, if_true] at h1
    simp only [keep] at hk
    cases ha : S.act st.env t with
    | none => rw [ha] at h1; simp at h1
    | some e' =>
      rw [ha] at h1 hk
      simp only [Option.map_some, Option.some.injEq, Option.bind_some] at h1 hk
      subst h1
      cases hr : keep S e' r with
      | none => rw [hr] at hk; simp at hk
      | some p =>
        rw [hr] at hk
        simp only [Option.map_some, Option.some.injEq, Prod.mk.injEq] at hk
        obtain ⟨rfl, rfl⟩ := hk
        have := keep_fwd S ht r rest ⟨st.stack, true, st.sat, e', st.out ++ [t]⟩ fin p.1 p.2 rfl hr h2
        rw [← he] at this
        simpa using this
  | .sec c g a r, rest, st, fin, e, o, he, hk, h => by
    simp only [flat, List.cons_append, List.append_assoc] at h
    obtain ⟨st', h1, h2⟩ := run_cons h
    simp only [step, he, Bool.true_and] at h1
    simp only [keep] at hk
    cases hc : S.ev true st.env c with
    | none => rw [hc] at h1; simp at h1
    | some b =>
      rw [hc] at h1 hk
      simp only [Option.map_some, Option.some.injEq, Option.bind_some] at h1 hk
      cases hp : (if b = true then keep S st.env g else keepA S st.env a) with
      | none => rw [hp] at hk; simp at hk
      | some p =>
        rw [hp] at hk
        simp only [Option.bind_some] at hk
        cases hr : keep S p.1 r with
        | none => rw [hr] at hk; simp at hk
        | some q =>
          rw [hr] at hk
          simp only [Option.map_some, Option.some.injEq, Prod.mk.injEq] at hk
          obtain ⟨rfl, rfl⟩ := hk
          have key : run S (flat r ++ rest)
              ⟨st.stack, true, st.sat, p.1, st.out ++ p.2⟩ = some fin := by
            cases b with
            | true =>
              simp only [if_true] at h1 hp
              subst h1
              have h3 := keep_fwd S ht g _ ⟨(true, st.sat) :: st.stack, true, .satisfied, st.env, st.out⟩ fin
                p.1 p.2 rfl hp h2
              exact skipA_fwd S a _ _ _ true st.sat st.stack rfl (.inr rfl) h3
            | false =>
              simp only [Bool.false_eq_true, if_false] at h1 hp
              subst h1
              have h3 := skip_fwd S g _ _ _ rfl h2
              exact keepA_fwd S ht a _
                ⟨(true, st.sat) :: st.stack, false, .notSatisfied, st.env, st.out⟩ fin p.1 p.2
                st.sat st.stack rfl rfl rfl hp h3
          have h4 := keep_fwd S ht r rest _ fin q.1 q.2 rfl hr key
          simp only [List.append_assoc] at h4
          rw [← he] at h4
          exact h4
/-- The rest of an enabled if-section without a group so far. -/
theorem keepA_fwd (S : Sem σ C T) (ht : Tolerant S) : ∀ (a : Alts C T)
    (rest : List (Line C T)) (st fin : St σ T) (e : σ) (o : List T) (os : Sat)
    (stk : List (Bool × Sat)), st.stack = (true, os) :: stk → st.enable = false →
    st.sat = .notSatisfied → keepA S st.env a = some (e, o) →
    run S (flatA a ++ rest) st = some fin →
    run S rest ⟨stk, true, os, e, st.out ++ o⟩ = some fin
  | .endif, rest, st, fin, e, o, os, stk, hs, he, hn, hk, h => by
    obtain ⟨st', h1, h2⟩ := run_cons h
    simp only [step, hs, Option.some.injEq] at h1
    subst h1
    simp only [keepA, Option.some.injEq, Prod.mk.injEq] at hk
    obtain ⟨rfl, rfl⟩ := hk
    simpa using h2
  | .elif c g a, rest, st, fin, e, o, os, stk, hs, he, hn, hk, h => by
    simp only [flatA, List.cons_append, List.append_assoc] at h
    obtain ⟨st', h1, h2⟩ := run_cons h
    simp only [step, hs, hn] at h1
    simp only [keepA] at hk
    cases hc : S.ev true st.env c with
    | none => rw [hc] at hk; simp at hk
    | some b =>
      have hc' := ht _ _ _ hc
      rw [hc] at hk
      rw [he, hc'] at h1
      simp only [reduceCtorEq, if_false, Option.map_some, Option.some.injEq,
        Option.bind_some] at h1 hk
      cases b with
      | true =>
        simp only [if_true] at hk
        have hen : st'.enable = true := by rw [← h1]; rfl
        have henv : st'.env = st.env := by rw [← h1]
        have h3 := keep_fwd S ht g _ st' fin e o hen (by rw [henv]; exact hk) h2
        have h4 := skipA_fwd S a _ _ _ true os stk (by rw [← h1])
          (.inr (by rw [← h1]; rfl)) h3
        rw [← h1] at h4
        exact h4
      | false =>
        simp only [Bool.false_eq_true, if_false] at hk
        have hen : st'.enable = false := by rw [← h1]; rfl
        have h3 := skip_fwd S g _ st' fin hen h2
        have h4 := keepA_fwd S ht a _ st' fin e o os stk (by rw [← h1]) hen
          (by rw [← h1]; rfl) (by rw [← h1]; exact hk) h3
        rw [← h1] at h4
        exact h4
  | .els g, rest, st, fin, e, o, os, stk, hs, he, hn, hk, h => by
    simp only [flatA, List.cons_append, List.append_assoc] at h
    obtain ⟨st', h1, h2⟩ := run_cons h
    simp only [step, hs, hn, he] at h1
    simp only [reduceCtorEq, if_false, Option.some.injEq] at h1
    simp only [keepA] at hk
    have hen : st'.enable = true := by rw [← h1]; rfl
    have h3 := keep_fwd S ht g _ st' fin e o hen (by rw [← h1]; exact hk) h2
    obtain ⟨st2, h4, h5⟩ := run_cons h3
    subst h1
    simp only [step, hs, Option.some.injEq] at h4
    subst h4
    exact h5
end

/-- No condition is rejected in a disabled group. -/
def SkipsAll (S : Sem σ C T) : Prop := ∀ e c, S.ev false e c ≠ none

/-- Once a group has been kept, the conditions of the `#elif`s that follow are not rejected
either. -/
def ElifsAll (S : Sem σ C T) : Prop := ∀ e c, S.ev true e c ≠ none

theorem ne_none {α : Type} {o : Option α} (h : o ≠ none) : ∃ a, o = some a := by
  cases o with
  | none => exact absurd rfl h
  | some a => exact ⟨a, rfl⟩

mutual
theorem skip_bwd (S : Sem σ C T) (hS : SkipsAll S) : ∀ (g : Grp C T)
    (rest : List (Line C T)) (st fin : St σ T), st.enable = false → run S rest st = some fin →
    run S (flat g ++ rest) st = some fin
  | .nil, rest, st, fin, _, h => h
  | .text t r, rest, st, fin, he, h => by
    have h1 := skip_bwd S hS r rest st fin he h
    simp only [flat, List.cons_append, run, step, he, Bool.false_eq_true, if_false,
      Option.bind_some]
    exact h1
  | .sec c g a r, rest, st, fin, he, h => by
    have h1 := skip_bwd S hS r rest st fin he h
    obtain ⟨b, hb⟩ := ne_none (hS st.env c)
    simp only [flat, List.cons_append, List.append_assoc, run, step, he, hb, Bool.false_and,
      Option.map_some, Option.bind_some]
    refine skip_bwd S hS g _ _ fin rfl ?_
    refine skipA_bwd S hS a _ _ fin false st.sat st.stack rfl ?_ rfl ?_
    · cases b <;> simp
    · have : (⟨st.stack, false, st.sat, st.env, st.out⟩ : St σ T) = st := by
        cases st; simp_all
      simp only [this]
      exact h1
theorem skipA_bwd (S : Sem σ C T) (hS : SkipsAll S) : ∀ (a : Alts C T)
    (rest : List (Line C T)) (st fin : St σ T) (oe : Bool) (os : Sat)
    (stk : List (Bool × Sat)), st.stack = (oe, os) :: stk →
    ((oe = false ∧ st.sat ≠ .elseAppeared) ∨ st.sat = .satisfied) → st.enable = false →
    run S rest ⟨stk, oe, os, st.env, st.out⟩ = some fin →
    run S (flatA a ++ rest) st = some fin
  | .endif, rest, st, fin, oe, os, stk, hs, _, _, h => by
    simp only [flatA, List.cons_append, List.nil_append, run, step, hs, Option.bind_some]
    exact h
  | .elif c g a, rest, st, fin, oe, os, stk, hs, hd, he, h => by
    obtain ⟨b, hb⟩ := ne_none (hS st.env c)
    have hne : st.sat ≠ .elseAppeared := by
      rcases hd with h | h
      · exact h.2
      · rw [h]; simp
    simp only [flatA, List.cons_append, List.append_assoc, run, step, hs, if_neg hne, he, hb,
      Option.map_some, Option.bind_some]
    refine skip_bwd S hS g _ _ fin ?_ ?_
    · rcases hd with h | h
      · simp [h.1]
      · simp [h]
    · refine skipA_bwd S hS a _ _ fin oe os stk rfl ?_ ?_ h
      · rcases hd with h | h
        · left
          refine ⟨h.1, ?_⟩
          simp only
          split
          · simp
          · exact hne
        · right
          simp [h]
      · rcases hd with h | h
        · simp [h.1]
        · simp [h]
  | .els g, rest, st, fin, oe, os, stk, hs, hd, he, h => by
    have hne : st.sat ≠ .elseAppeared := by
      rcases hd with h | h
      · exact h.2
      · rw [h]; simp
    simp only [flatA, List.cons_append, List.append_assoc, run, step, hs, if_neg hne, he,
      Option.bind_some]
    refine skip_bwd S hS g _ _ fin ?_ ?_
    · rcases hd with h | h
      · simp [h.1]
      · simp [h]
    · simp only [List.nil_append, run, step, Option.bind_some]
      exact h
end

/-- The rest of an if-section whose group has just been kept. -/
theorem doneA_bwd (S : Sem σ C T) (hS : SkipsAll S) (hE : ElifsAll S) (a : Alts C T)
    (rest : List (Line C T)) (st fin : St σ T) (oe : Bool) (os : Sat)
    (stk : List (Bool × Sat)) (hs : st.stack = (oe, os) :: stk) (hd : st.sat = .satisfied)
    (h : run S rest ⟨stk, oe, os, st.env, st.out⟩ = some fin) :
    run S (flatA a ++ rest) st = some fin := by
  cases he : st.enable with
  | false => exact skipA_bwd S hS a rest st fin oe os stk hs (.inr hd) he h
  | true =>
    cases a with
    | endif =>
      simp only [flatA, List.cons_append, List.nil_append, run, step, hs, Option.bind_some]
      exact h
    | elif c g a =>
      obtain ⟨b, hb⟩ := ne_none (hE st.env c)
      have hne : st.sat ≠ .elseAppeared := by rw [hd]; simp
      simp only [flatA, List.cons_append, List.append_assoc, run, step, hs, if_neg hne, he, hb,
        Option.map_some, Option.bind_some]
      refine skip_bwd S hS g _ _ fin (by simp) ?_
      exact skipA_bwd S hS a _ _ fin oe os stk rfl (.inr (by simp [hd])) (by simp) h
    | els g =>
      have hne : st.sat ≠ .elseAppeared := by rw [hd]; simp
      simp only [flatA, List.cons_append, List.append_assoc, run, step, hs, if_neg hne, he,
        Option.bind_some]
      refine skip_bwd S hS g _ _ fin (by simp) ?_
      simp only [List.nil_append, run, step, Option.bind_some]
      exact h

mutual
theorem keep_bwd (S : Sem σ C T) (ht : Tolerant S) (hS : SkipsAll S) (hE : ElifsAll S) :
    ∀ (g : Grp C T) (rest : List (Line C T)) (st fin : St σ T) (e : σ) (o : List T),
    st.enable = true → keep S st.env g = some (e, o) →
    run S rest { st with env := e, out := st.out ++ o } = some fin →
    run S (flat g ++ rest) st = some fin
  | .nil, rest, st, fin, e, o, he, hk, h => by
    simp only [keep, Option.some.injEq, Prod.mk.injEq] at hk
    obtain ⟨rfl, rfl⟩ := hk
    simpa [flat] using h
  | .text t r, rest, st, fin, e, o, he, hk, h => by
    simp only [keep] at hk
    cases ha : S.act st.env t with
    | none => rw [ha] at hk; simp at hk
    | some e' =>
      rw [ha] at hk
      simp only [Option.bind_some] at hk
      cases hr : keep S e' r with
      | none => rw [hr] at hk; simp at hk
      | some p =>
        rw [hr] at hk
        simp only [Option.map_some, Option.some.injEq, Prod.mk.injEq] at hk
        obtain ⟨rfl, rfl⟩ := hk
        simp only [flat, List.cons_append, run, step, he, if_true, ha, Option.map_some,
          Option.bind_some]
        refine keep_bwd S ht hS hE r rest ⟨st.stack, true, st.sat, e', st.out ++ [t]⟩ fin p.1 p.2
          rfl hr ?_
        rw [he] at h
        simpa using h
  | .sec c g a r, rest, st, fin, e, o, he, hk, h => by
    simp only [keep] at hk
    cases hc : S.ev true st.env c with
    | none => rw [hc] at hk; simp at hk
    | some b =>
      rw [hc] at hk
      simp only [Option.bind_some] at hk
      cases hp : (if b = true then keep S st.env g else keepA S st.env a) with
      | none => rw [hp] at hk; simp at hk
      | some p =>
        rw [hp] at hk
        simp only [Option.bind_some] at hk
        cases hr : keep S p.1 r with
        | none => rw [hr] at hk; simp at hk
        | some q =>
          rw [hr] at hk
          simp only [Option.map_some, Option.some.injEq, Prod.mk.injEq] at hk
          obtain ⟨rfl, rfl⟩ := hk
          have key : run S (flat r ++ rest)
              ⟨st.stack, true, st.sat, p.1, st.out ++ p.2⟩ = some fin := by
            refine keep_bwd S ht hS hE r rest ⟨st.stack, true, st.sat, p.1, st.out ++ p.2⟩ fin
              q.1 q.2 rfl hr ?_
            rw [he] at h
            simpa using h
          simp only [flat, List.cons_append, List.append_assoc, run, step, he, hc,
            Bool.true_and, Option.map_some, Option.bind_some]
          cases b with
          | true =>
            simp only [if_true] at hp
            refine keep_bwd S ht hS hE g _
              ⟨(true, st.sat) :: st.stack, true, .satisfied, st.env, st.out⟩ fin p.1 p.2 rfl hp ?_
            exact doneA_bwd S hS hE a _ _ fin true st.sat st.stack rfl rfl key
          | false =>
            simp only [Bool.false_eq_true, if_false] at hp
            refine skip_bwd S hS g _
              ⟨(true, st.sat) :: st.stack, false, .notSatisfied, st.env, st.out⟩ fin rfl ?_
            exact keepA_bwd S ht hS hE a _
              ⟨(true, st.sat) :: st.stack, false, .notSatisfied, st.env, st.out⟩ fin p.1 p.2
              st.sat st.stack rfl rfl rfl hp key
theorem keepA_bwd (S : Sem σ C T) (ht : Tolerant S) (hS : SkipsAll S) (hE : ElifsAll S) :
    ∀ (a : Alts C T) (rest : List (Line C T)) (st fin : St σ T) (e : σ) (o : List T) (os : Sat)
    (stk : List (Bool × Sat)), st.stack = (true, os) :: stk → st.enable = false →
    st.sat = .notSatisfied → keepA S st.env a = some (e, o) →
    run S rest ⟨stk, true, os, e, st.out ++ o⟩ = some fin →
    run S (flatA a ++ rest) st = some fin
  | .endif, rest, st, fin, e, o, os, stk, hs, he, hn, hk, h => by
    simp only [keepA, Option.some.injEq, Prod.mk.injEq] at hk
    obtain ⟨rfl, rfl⟩ := hk
    simp only [flatA, List.cons_append, List.nil_append, run, step, hs, Option.bind_some]
    simpa using h
  | .elif c g a, rest, st, fin, e, o, os, stk, hs, he, hn, hk, h => by
    simp only [keepA] at hk
    cases hc : S.ev true st.env c with
    | none => rw [hc] at hk; simp at hk
    | some b =>
      have hc' := ht _ _ _ hc
      rw [hc] at hk
      simp only [Option.bind_some] at hk
      simp only [flatA, List.cons_append, List.append_assoc, run, step, hs, hn, he, hc',
        reduceCtorEq, if_false, Option.map_some, Option.bind_some]
      cases b with
      | true =>
        simp only [if_true] at hk
        refine keep_bwd S ht hS hE g _ ⟨(true, os) :: stk, true, .satisfied, st.env, st.out⟩ fin
          e o rfl hk ?_
        exact doneA_bwd S hS hE a _ _ fin true os stk rfl rfl h
      | false =>
        simp only [Bool.false_eq_true, if_false] at hk
        refine skip_bwd S hS g _ ⟨(true, os) :: stk, false, .notSatisfied, st.env, st.out⟩ fin
          rfl ?_
        exact keepA_bwd S ht hS hE a _ ⟨(true, os) :: stk, false, .notSatisfied, st.env, st.out⟩
          fin e o os stk rfl rfl rfl hk h
  | .els g, rest, st, fin, e, o, os, stk, hs, he, hn, hk, h => by
    simp only [keepA] at hk
    simp only [flatA, List.cons_append, List.append_assoc, run, step, hs, hn, he,
      reduceCtorEq, if_false, Option.bind_some]
    refine keep_bwd S ht hS hE g _ ⟨(true, os) :: stk, true, .elseAppeared, st.env, st.out⟩ fin
      e o rfl hk ?_
    simp only [List.nil_append, run, step, Option.bind_some]
    exact h
end

/-- The lines that close the open if-sections, innermost first; `true`: its `#else` has been
seen. -/
def Closes : List Bool → List (Line C T) → Prop
  | [], ls => ∃ g : Grp C T, ls = flat g
  | b :: bs, ls => ∃ (g : Grp C T) (a : Alts C T) (rest : List (Line C T)),
      ls = flat g ++ (flatA a ++ rest) ∧ (b = true → a = .endif) ∧ Closes bs rest

/-- One more item in front of the innermost group. -/
theorem closes_front (f : Grp C T → Grp C T) (pre : List (Line C T))
    (hf : ∀ g, flat (f g) = pre ++ flat g) :
    ∀ (bs : List Bool) (ls : List (Line C T)), Closes bs ls → Closes bs (pre ++ ls)
  | [], ls, ⟨g, hg⟩ => ⟨f g, by rw [hf, hg]⟩
  | b :: bs, ls, ⟨g, a, rest, h1, h2, h3⟩ => ⟨f g, a, rest, by rw [hf, h1]; simp, h2, h3⟩

/-- The "else seen" marks of the open if-sections, innermost first. -/
def marks : Sat → List (Bool × Sat) → List Bool
  | _, [] => []
  | s, p :: stk => (s == Sat.elseAppeared) :: marks p.2 stk

/-- Accepted lines are properly nested. -/
theorem run_closes (S : Sem σ C T) : ∀ (ls : List (Line C T)) (st fin : St σ T),
    run S ls st = some fin → fin.stack = [] → Closes (marks st.sat st.stack) ls
  | [], st, fin, h, hf => by
    simp only [run, Option.some.injEq] at h
    subst h
    have : marks st.sat st.stack = [] := by rw [hf]; rfl
    rw [this]
    exact ⟨.nil, rfl⟩
  | l :: ls, st, fin, h, hf => by
    obtain ⟨st', h1, h2⟩ := run_cons h
    have ih := run_closes S ls st' fin h2 hf
    cases l with
    | text t =>
      have : marks st.sat st.stack = marks st'.sat st'.stack := by
        simp only [step] at h1
        split at h1
        · cases ha : S.act st.env t with
          | none => rw [ha] at h1; simp at h1
          | some e =>
            rw [ha] at h1
            simp only [Option.map_some, Option.some.injEq] at h1
            rw [← h1]
        · simp only [Option.some.injEq] at h1
          rw [h1]
      rw [this]
      exact closes_front (.text t) [.text t] (fun g => rfl) _ _ ih
    | ifc c =>
      simp only [step] at h1
      cases hc : S.ev st.enable st.env c with
      | none => rw [hc] at h1; simp at h1
      | some b =>
        rw [hc] at h1
        simp only [Option.map_some, Option.some.injEq] at h1
        subst h1
        obtain ⟨g, a, rest, h3, _, h5⟩ := ih
        have := closes_front (Grp.sec c g a) (.ifc c :: (flat g ++ flatA a))
          (fun r => by simp [flat]) _ _ h5
        rw [h3]
        simpa using this
    | elif c =>
      simp only [step] at h1
      split at h1
      · simp at h1
      · rename_i flag s stk hst
        split at h1
        · simp at h1
        · rename_i hne
          cases hc : S.ev st.enable st.env c with
          | none => rw [hc] at h1; simp at h1
          | some b =>
            rw [hc] at h1
            simp only [Option.map_some, Option.some.injEq] at h1
            subst h1
            simp only [hst] at ih
            rw [hst]
            obtain ⟨g, a, rest, h3, _, h5⟩ := ih
            refine ⟨.nil, .elif c g a, rest, by rw [h3]; simp [flat, flatA], ?_, ?_⟩
            · intro h
              simp at h
              exact absurd h hne
            · exact h5
    | els =>
      simp only [step] at h1
      split at h1
      · simp at h1
      · rename_i flag s stk hst
        split at h1
        · simp at h1
        · rename_i hne
          simp only [Option.some.injEq] at h1
          subst h1
          simp only [hst] at ih
          rw [hst]
          obtain ⟨g, a, rest, h3, h4, h5⟩ := ih
          have := h4 (by simp)
          subst this
          refine ⟨.nil, .els g, rest, by rw [h3]; simp [flat, flatA], ?_, ?_⟩
          · intro h
            simp at h
            exact absurd h hne
          · exact h5
    | endif =>
      simp only [step] at h1
      split at h1
      · simp at h1
      · rename_i flag s stk hst
        simp only [Option.some.injEq] at h1
        subst h1
        rw [hst]
        refine ⟨.nil, .endif, ls, rfl, fun _ => rfl, ?_⟩
        exact ih

/-! ### Theorems -/

/-- C20: whenever a file is accepted, its directives are properly nested, and if ISO gives it a
meaning, the lines kept and the macros left are those of ISO: in each if-section that is
itself kept, the first group whose condition holds, or the `#else` group. -/
theorem cond_sound (S : Sem σ C T) (ht : Tolerant S) {e e' : σ} {ls : List (Line C T)}
    {o : List T} (h : file S e ls = some (e', o)) :
    ∃ g : Grp C T, ls = flat g ∧ ∀ p, keep S e g = some p → p = (e', o) := by
  unfold file at h
  cases hr : run S ls ⟨[], true, .notSatisfied, e, []⟩ with
  | none => rw [hr] at h; simp at h
  | some st =>
    rw [hr] at h
    simp only at h
    split at h
    · simp at h
    · rename_i hl
      have hst : st.stack = [] := by
        cases hs : st.stack with
        | nil => rfl
        | cons a b => rw [hs] at hl; simp at hl
      simp only [Option.some.injEq, Prod.mk.injEq] at h
      obtain ⟨g, hg⟩ := run_closes S ls _ st hr hst
      refine ⟨g, hg, ?_⟩
      intro p hp
      have h1 := keep_fwd S ht g [] ⟨[], true, .notSatisfied, e, []⟩ st p.1 p.2 rfl hp
        (by rw [List.append_nil, ← hg]; exact hr)
      simp only [run, Option.some.injEq, List.nil_append] at h1
      rw [← h1] at h
      exact Prod.ext h.1 h.2

/-- C20: directives that are not properly nested are rejected. -/
theorem unbalanced_rejected (S : Sem σ C T) (e : σ) (ls : List (Line C T))
    (h : ∀ g : Grp C T, ls ≠ flat g) : file S e ls = none := by
  cases hf : file S e ls with
  | none => rfl
  | some p =>
    exfalso
    unfold file at hf
    cases hr : run S ls ⟨[], true, .notSatisfied, e, []⟩ with
    | none => rw [hr] at hf; simp at hf
    | some st =>
      rw [hr] at hf
      simp only at hf
      split at hf
      · simp at hf
      · rename_i hl
        have hst : st.stack = [] := by
          cases hs : st.stack with
          | nil => rfl
          | cons a b => rw [hs] at hl; simp at hl
        obtain ⟨g, hg⟩ := run_closes S ls _ st hr hst
        exact h g hg

/-- C20: a file ISO gives a meaning is accepted with that meaning.  Partial: every condition
must be acceptable even in groups that ISO skips (`skipped_condition_rejected`). -/
theorem cond_complete_partial (S : Sem σ C T) (ht : Tolerant S) (hS : SkipsAll S)
    (hE : ElifsAll S) (g : Grp C T) {e e' : σ} {o : List T} (h : keep S e g = some (e', o)) :
    file S e (flat g) = some (e', o) := by
  have := keep_bwd S ht hS hE g [] ⟨[], true, .notSatisfied, e, []⟩
    ⟨[], true, .notSatisfied, e', [] ++ o⟩ e' o rfl h rfl
  unfold file
  rw [List.append_nil] at this
  rw [this]
  simp

/-- A group in a disabled section has no effect at all, whatever it contains. -/
theorem disabled_group (S : Sem σ C T) (hS : SkipsAll S) (g : Grp C T)
    (rest : List (Line C T)) (st : St σ T) (he : st.enable = false) :
    run S (flat g ++ rest) st = run S rest st := by
  cases h : run S rest st with
  | some fin => exact skip_bwd S hS g rest st fin he h
  | none =>
    cases h' : run S (flat g ++ rest) st with
    | none => rfl
    | some fin => rw [skip_fwd S g rest st fin he h'] at h; simp at h

/-! ### Non-vacuity and findings -/

/-- An instance: macros are a list of numbers, a condition asks whether one is defined, text
`n` defines `n`; condition 0 is not an expression. -/
def demo : Sem (List Nat) Nat Nat where
  ev := fun _ e c => if c = 0 then none else some (e.contains c)
  act := fun e t => some (t :: e)

/-- The same with every condition an expression. -/
def demo' : Sem (List Nat) Nat Nat where
  ev := fun _ e c => some (e.contains c)
  act := fun e t => some (t :: e)

/-- `1; #if 2: 3; #elif 1: 4 #if 4: 5 #else 6 #endif; #elif 1: 7; #else 8; #endif 9`. -/
def demoGrp : Grp Nat Nat :=
  .text 1 (.sec 2 (.text 3 .nil)
    (.elif 1 (.text 4 (.sec 4 (.text 5 .nil) (.els (.text 6 .nil)) .nil))
      (.elif 1 (.text 7 .nil) (.els (.text 8 .nil)))) (.text 9 .nil))

example : Tolerant demo ∧ Tolerant demo' ∧ SkipsAll demo' ∧ ElifsAll demo' := by
  refine ⟨fun e c b h => h, fun e c b h => h, ?_, ?_⟩ <;> intro e c <;> simp [demo']

example : keep demo' [] demoGrp = some ([9, 5, 4, 1], [1, 4, 5, 9]) ∧
    (file demo [] (flat demoGrp)).isSome := by decide

example : ∀ g : Grp Nat Nat, [Line.endif] ≠ flat g := by
  intro g
  cases g <;> simp [flat]

/-- Finding: a condition in a skipped group is evaluated, and an ill-formed one is an error,
although ISO ignores it: `#if 1 ... #elif <bad> ... #endif`, and a nested `#if <bad>` in a
skipped group. -/
theorem skipped_condition_rejected :
    keep demo [] (.text 1 (.sec 1 .nil (.elif 0 .nil .endif) .nil)) = some ([1], [1]) ∧
    file demo [] (flat (.text 1 (.sec 1 .nil (.elif 0 .nil .endif) .nil))) = none ∧
    keep demo [] (.sec 2 (.sec 0 .nil .endif .nil) .endif .nil) = some ([], []) ∧
    file demo [] (flat (.sec 2 (.sec 0 .nil .endif .nil) .endif .nil)) = none := by decide

/-- What `process_directive` makes of `#endif` and `#else` with something after it: the rest
is returned as a line of text (preprocessor.c:722-751, 811-813). -/
def withRest (l : Line C T) (rest : List T) : List (Line C T) := l :: rest.map .text

/-- Finding: `#endif X` puts `X` into the program, for every `X` (ISO: a syntax error, other
compilers ignore it). -/
theorem endif_rest_kept (x : Nat) :
    (file demo [] (.text 1 :: .ifc 1 :: withRest .endif [x])).map (·.2) = some [1, x] := by
  rfl

end Verif.CppCond

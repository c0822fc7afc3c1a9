import Verif.Util.Driver

/-!
# C85: the invariant of the driver and its children
-/

namespace Verif.Driver

/-! ## The invariant -/

/-- The driver is still starting children or waiting in its loop. -/
def Pc.early : Pc → Bool
  | .startAs | .startCc | .startCpp | .loop => true
  | _ => false

/-- The driver has not closed the assembler's pipe. -/
def Pc.beforeWait : Pc → Bool
  | .waitLast | .finished => false
  | _ => true

/-- How many of the children have been handed back. -/
def Child.got {α} : Child α → Nat
  | .reaped => 1
  | _ => 0

/-- How many children the loop waits for. -/
def OutType.kids (m : OutType) : Nat := if m.hasCc then 2 else 1

/-- No death before the last byte of what was read. -/
def NotYet (dies : List UInt8 → Option Nat) (acc : List UInt8) : Prop :=
  ∀ p, p <+: acc → p ≠ acc → dies p = none

/-- `cc1` was started on the complete text and did its job. -/
def CcDone (t : Tools) : Prop :=
  t.cppSt = 0 ∧ ¬ Dies t.ccDies t.text ∧ (t.ccOut t.text).2 = 0

structure Inv (t : Tools) (m : OutType) (s : St) : Prop where
  asNone : s.as = .none ↔ (m.hasAs = false ∨ s.pc = .startAs)
  ccNone : s.cc = .none ↔ (m.hasCc = false ∨ s.pc = .startAs ∨ s.pc = .startCc)
  cppNone : s.cpp = .none ↔ (s.pc = .startAs ∨ s.pc = .startCc ∨ s.pc = .startCpp)
  asPid : s.asPid = true ↔ (m.hasAs = true ∧ s.pc ≠ .startAs ∧ s.pc.beforeWait = true)
  p2 : s.p2 = s.asPid
  ccPid : s.pc.early = true → (s.ccPid = true ↔ s.cc.waitable = true)
  cppPid : s.pc.early = true → (s.cppPid = true ↔ s.cpp.waitable = true)
  p1 : s.p1 = false → s.cc ≠ .none → s.cpp = .reaped ∧ t.cppSt = 0
  p1got : s.pc.early = true → s.cpp = .reaped → s.cc.alive = true → s.p1 = false
  p1late : s.pc.early = false → s.cc.alive = true → s.p1 = false ∧ Dies t.asDies t.asm
  startRes : s.cpp = .none → s.res = 0
  startQ : s.cpp = .none → s.q1 = []
  startRun : s.cpp = .none → s.running = (if s.cc = .none then 0 else 1)
  count : s.pc = .loop → s.running + s.cpp.got + s.cc.got + s.as.got = m.kids
  order : s.pc.early = true → s.cc = .reaped → s.cpp = .reaped
  cppStops : s.pc.early = false → s.cpp.alive = false
  ccStops : s.pc.early = false → s.cc.alive = true → s.as = .reaped ∧ s.cpp = .reaped
  ccEnds : s.pc = .finished → s.cc.alive = false
  asStops : s.pc = .close ∨ s.pc = .waitLast → s.as.alive = true → s.res = 0
  asEnds : s.pc = .finished → s.as.alive = false
  allGot : s.res = 0 → s.pc.early = false → s.cpp = .reaped ∧ (m.hasCc = true → s.cc = .reaped)
  asEarly : s.pc.beforeWait = true → s.as ≠ .zombie 0
  asGot : s.pc.beforeWait = true → s.as = .reaped → s.res ≠ 0
  cppWrites : s.pc.early = true → ∀ st, s.cpp = .zombie st → st = t.cppSt
  cppGot : s.res = 0 → s.cpp = .reaped → t.cppSt = 0
  ccReads : ∀ acc, s.cc = .run (.reading acc) →
    NotYet t.ccDies acc ∧
    (s.cpp = .none → acc = [] ∧ s.q1 = []) ∧
    (∀ r, s.cpp = .run r → acc ++ s.q1 ++ r = t.text) ∧
    (s.cpp.alive = false → s.cpp ≠ .none → acc ++ s.q1 = t.text)
  ccWrites : ∀ r st, s.cc = .run (.writing r st) →
    s.p1 = false ∧ st = (t.ccOut t.text).2 ∧ ¬ Dies t.ccDies t.text ∧
    s.q2.length + r.length ≤ t.asm.length ∧
    (m.hasAs = false → s.out ++ r = t.textOf m)
  ccZombie : s.cc = .zombie 0 → CcDone t ∧ s.p1 = false
  ccGot : s.cc = .reaped → s.res = 0 → CcDone t
  ccText : m.hasCc = true → m.hasAs = false → s.cc = .zombie 0 ∨ (s.cc = .reaped ∧ s.res = 0) →
    s.out = t.textOf m
  ccQuiet : m.hasCc = true → s.cc = .none ∨ (∃ acc, s.cc = .run (.reading acc)) →
    s.out = [] ∧ s.q2 = []
  cppText : m.hasCc = false →
    (s.cpp = .none → s.out = []) ∧ (∀ r, s.cpp = .run r → s.out ++ r = t.text) ∧
    (s.cpp.alive = false → s.cpp ≠ .none → s.out = t.text)
  asReads : ∀ acc, s.as = .run (.reading acc) →
    NotYet t.asDies acc ∧
    acc ++ s.q2 <+: t.asm ∧
    (s.cc = .none ∨ (∃ a, s.cc = .run (.reading a)) → acc = []) ∧
    (∀ r st, s.cc = .run (.writing r st) → acc ++ s.q2 ++ r = t.asm) ∧
    (s.cc = .zombie 0 ∨ (s.cc = .reaped ∧ s.res = 0) → acc ++ s.q2 = t.asm)
  asDied : s.pc.early = true → s.as.alive = false → s.as ≠ .none → Dies t.asDies t.asm
  asEmits : ∀ o, s.as = .run (.emitting o) →
    s.p2 = false ∧ s.res = 0 ∧ Assembles t o
  asZombie : s.as = .zombie 0 → ∃ o, Assembles t o ∧ s.obj = some o
  done : s.pc = .finished → s.res = 0 → m.hasAs = true → ∃ o, Assembles t o ∧ s.obj = some o
  lastWait : s.pc = .waitLast → m.hasAs = true
  removes : m.hasAs = true → s.pc = .close ∨ s.pc = .waitLast ∨ s.pc = .finished →
    ¬ FrontOk t m → s.removed = true
  noObj : s.removed = true → s.as.alive = false ∧ s.res ≠ 0 ∧ (m ≠ .executable → s.obj = none)

theorem dies_of_notYet {dies acc text} (h : NotYet dies acc) (hd : dies acc = none)
    (he : acc = text) : ¬ Dies dies text := by
  subst he
  rintro ⟨p, hp, hn⟩
  by_cases hpa : p = acc
  · subst hpa; exact hn hd
  · exact hn (h p hp hpa)

theorem notYet_snoc {dies acc b} (h : NotYet dies acc) (hd : dies acc = none) :
    NotYet dies (acc ++ [b]) := by
  intro p hp hn
  rcases List.prefix_concat_iff.1 hp with h1 | h1
  · exact absurd h1 hn
  · by_cases hpa : p = acc
    · subst hpa; exact hd
    · exact h p h1 hpa

theorem notYet_nil {dies} : NotYet dies [] := by
  intro p hp hn
  exact absurd (List.prefix_nil.1 hp) hn

theorem inv_init (t m old) : Inv t m (init m old) := by
  constructor <;> simp [init, Pc.early, Pc.beforeWait, Child.waitable, Child.alive]

set_option maxHeartbeats 4000000 in
theorem inv_cpp {t m cap s s'} (I : Inv t m s) (h : cppStep t m cap s = some s') : Inv t m s' := by
  obtain ⟨pc, res, running, cppPid, ccPid, asPid, p1, p2, cpp, cc, as, q1, q2, out, obj, removed⟩ := s
  unfold cppStep at h
  dsimp only at h
  split at h
  · injection h with h; subst h
    obtain ⟨_, _, _, _, _, _, _, _, _, _, _, _, _, _, _, _, _, _, _, _, _, _, _, _, _, _, _, _, _, _, _, _, _, _, _, _, _, _, _, _⟩ := I
    dsimp only at *
    constructor <;> dsimp only <;> grind [Child.alive, Child.waitable, Child.got]
  · split at h
    · injection h with h; subst h
      obtain ⟨_, _, _, _, _, _, _, _, _, _, _, _, _, _, _, _, _, _, _, _, _, _, _, _, _, _, _, _, _, _, _, _, _, _, _, _, _, _, _, _⟩ := I
      dsimp only at *
      constructor <;> dsimp only <;> grind [Child.alive, Child.waitable, Child.got]
    · split at h
      · injection h with h; subst h
        obtain ⟨_, _, _, _, _, _, _, _, _, _, _, _, _, _, _, _, _, _, _, _, _, _, _, _, _, _, _, _, _, _, _, _, _, _, _, _, _, _, _, _⟩ := I
        dsimp only at *
        constructor <;> dsimp only <;> grind [Child.alive, Child.waitable, Child.got]
      · cases h
  · cases h
set_option maxHeartbeats 8000000 in
theorem inv_cc {t m cap s s'} (I : Inv t m s) (h : ccStep t m cap s = some s') : Inv t m s' := by
  obtain ⟨pc, res, running, cppPid, ccPid, asPid, p1, p2, cpp, cc, as, q1, q2, out, obj, removed⟩ := s
  unfold ccStep at h
  dsimp only at h
  split at h
  · rename_i acc
    split at h
    · injection h with h; subst h
      obtain ⟨_, _, _, _, _, _, _, _, _, _, _, _, _, _, _, _, _, _, _, _, _, _, _, _, _, _, _, _, _, _, _, _, _, _, _, _, _, _, _, _⟩ := I
      dsimp only at *
      constructor <;> dsimp only <;> grind [Child.alive, Child.waitable, Child.got]
    · rename_i hd
      split at h
      · rename_i b q
        injection h with h; subst h
        have hny := notYet_snoc (b := b) (I.ccReads acc rfl).1 hd
        obtain ⟨_, _, _, _, _, _, _, _, _, _, _, _, _, _, _, _, _, _, _, _, _, _, _, _, _, _, _, _, _, _, _, _, _, _, _, _, _, _, _, _⟩ := I
        dsimp only at *
        constructor <;> dsimp only <;> grind [Child.alive, Child.waitable, Child.got]
      · split at h
        · rename_i hc
          injection h with h; subst h
          have hr := I.ccReads acc rfl
          have hcpp : cpp = .reaped := (I.p1 hc.1 (by simp)).1
          have hacc : acc = t.text := by
            have := hr.2.2.2 hc.2 (by simp [hcpp])
            simpa using this
          have hnd := dies_of_notYet hr.1 hd hacc
          subst hacc
          have hcn := I.ccNone
          have hhas : m.hasCc = true := by
            cases hm : m.hasCc with
            | true => rfl
            | false => simp [hm] at hcn
          have hq := I.ccQuiet hhas (Or.inr ⟨_, rfl⟩)
          have hw : m.hasAs = false → out ++ (t.ccOut t.text).1 = t.textOf m := by
            intro ha
            have h1 := hq.1
            dsimp only at h1
            subst h1
            cases m <;> simp_all [OutType.hasAs, OutType.hasCc, Tools.textOf, Tools.asm]
          have hl : q2.length + (t.ccOut t.text).1.length ≤ t.asm.length := by
            have h1 := hq.2
            dsimp only at h1
            subst h1
            simp [Tools.asm]
          have hasr : ∀ a, as = .run (.reading a) → a = [] ∧
              a ++ q2 ++ (t.ccOut t.text).1 = t.asm := by
            intro a ha
            have h1 := (I.asReads a ha).2.2.1 (Or.inr ⟨_, rfl⟩)
            have h2 := hq.2
            dsimp only at h2
            subst h1; subst h2
            exact ⟨rfl, rfl⟩
          clear hr hcn
          have asReads := I.asReads
          obtain ⟨_, _, _, _, _, _, _, _, _, _, _, _, _, _, _, _, _, _, _, _, _, _, _, _, _, _, _, _, _, _, _, _, _, _, _, _, _, _, _, _⟩ := I
          dsimp only at *
          constructor <;> dsimp only
          case asReads =>
            intro a ha
            obtain ⟨h1, h2, -⟩ := asReads a ha
            refine ⟨h1, h2, ?_, ?_, ?_⟩
            · intro hx
              rcases hx with hx | ⟨_, hx⟩ <;> cases hx
            · intro r st hx
              cases hx
              exact (hasr a ha).2
            · intro hx
              rcases hx with hx | ⟨hx, _⟩ <;> cases hx
          all_goals grind [Child.alive, Child.waitable, Child.got]
        · cases h
  · injection h with h; subst h
    obtain ⟨_, _, _, _, _, _, _, _, _, _, _, _, _, _, _, _, _, _, _, _, _, _, _, _, _, _, _, _, _, _, _, _, _, _, _, _, _, _, _, _⟩ := I
    dsimp only at *
    constructor <;> dsimp only <;> grind [Child.alive, Child.waitable, Child.got, CcDone]
  · split at h
    · injection h with h; subst h
      obtain ⟨_, _, _, _, _, _, _, _, _, _, _, _, _, _, _, _, _, _, _, _, _, _, _, _, _, _, _, _, _, _, _, _, _, _, _, _, _, _, _, _⟩ := I
      dsimp only at *
      constructor <;> dsimp only <;> grind [Child.alive, Child.waitable, Child.got]
    · split at h
      · rename_i b r st _ _
        injection h with h; subst h
        have hpre : ∀ a, as = .run (.reading a) → a ++ (q2 ++ [b]) <+: t.asm := by
          intro a ha
          exact ⟨r, by simpa using (I.asReads a ha).2.2.2.1 (b :: r) st rfl⟩
        obtain ⟨_, _, _, _, _, _, _, _, _, _, _, _, _, _, _, _, _, _, _, _, _, _, _, _, _, _, _, _, _, _, _, _, _, _, _, _, _, _, _, _⟩ := I
        dsimp only at *
        constructor <;> dsimp only <;> grind [Child.alive, Child.waitable, Child.got]
      · cases h
  · cases h

set_option maxHeartbeats 8000000 in
theorem inv_as {t m s s'} (I : Inv t m s) (h : asStep t s = some s') : Inv t m s' := by
  obtain ⟨pc, res, running, cppPid, ccPid, asPid, p1, p2, cpp, cc, as, q1, q2, out, obj, removed⟩ := s
  unfold asStep at h
  dsimp only at h
  split at h
  · rename_i acc
    split at h
    · rename_i n hd
      injection h with h; subst h
      have hdie : Dies t.asDies t.asm :=
        ⟨acc, List.IsPrefix.trans (List.prefix_append _ _) (I.asReads acc rfl).2.1, by simp [hd]⟩
      obtain ⟨_, _, _, _, _, _, _, _, _, _, _, _, _, _, _, _, _, _, _, _, _, _, _, _, _, _, _, _, _, _, _, _, _, _, _, _, _, _, _, _⟩ := I
      dsimp only at *
      constructor <;> dsimp only <;> grind [Child.alive, Child.waitable, Child.got]
    · rename_i hd
      split at h
      · rename_i b q
        injection h with h; subst h
        have hquiet : ¬ (cc = .none ∨ ∃ a, cc = .run (.reading a)) := by
          intro hx
          have hn := I.asNone
          have hb : m.hasCc = true := by
            cases m <;> simp_all [OutType.hasAs, OutType.hasCc]
          have := (I.ccQuiet hb hx).2
          simp at this
        have hny := notYet_snoc (b := b) (I.asReads acc rfl).1 hd
        obtain ⟨h1, h2, h3, h4, h5⟩ := I.asReads acc rfl
        have hr : ∀ a, Child.run (AsRun.reading (acc ++ [b])) = .run (.reading a) →
            NotYet t.asDies a ∧ a ++ q <+: t.asm ∧
            (cc = .none ∨ (∃ a, cc = .run (.reading a)) → a = []) ∧
            (∀ r st, cc = .run (.writing r st) → a ++ q ++ r = t.asm) ∧
            (cc = .zombie 0 ∨ (cc = .reaped ∧ res = 0) → a ++ q = t.asm) := by
          intro a ha
          cases ha
          refine ⟨hny, by simpa using h2, fun hx => absurd hx hquiet, ?_, ?_⟩
          · intro r st hx
            simpa using h4 r st hx
          · intro hx
            simpa using h5 hx
        clear h1 h2 h3 h4 h5 hny
        obtain ⟨_, _, _, _, _, _, _, _, _, _, _, _, _, _, _, _, _, _, _, _, _, _, _, _, _, _, _, _, _, _, _, _, _, _, _, _, _, _, _, _⟩ := I
        dsimp only at *
        constructor <;> dsimp only
        case asReads => exact hr
        all_goals grind [Child.alive, Child.waitable, Child.got]
      · split at h
        · rename_i hc
          have hr := I.asReads acc rfl
          have hpid := I.p2
          have hasP := I.asPid
          have hnone := I.asNone
          have hst := I.asStops
          have hend := I.asEnds
          have hall := I.allGot
          have hres : res = 0 ∧ pc = .waitLast := by
            dsimp only at *
            cases pc <;> grind [Child.alive, Pc.beforeWait]
          have hcc : cc = .reaped := by
            have := (hall hres.1 (by simp [hres.2, Pc.early])).2
            apply this
            have := I.asNone
            dsimp only at this
            cases m <;> simp_all [OutType.hasAs, OutType.hasCc]
          have hacc : acc = t.asm := by
            have := hr.2.2.2.2 (Or.inr ⟨hcc, hres.1⟩)
            simpa using this
          have hnd := dies_of_notYet hr.1 hd hacc
          subst hacc
          split at h
          · injection h with h; subst h
            obtain ⟨_, _, _, _, _, _, _, _, _, _, _, _, _, _, _, _, _, _, _, _, _, _, _, _, _, _, _, _, _, _, _, _, _, _, _, _, _, _, _, _⟩ := I
            dsimp only at *
            constructor <;> dsimp only <;> grind [Child.alive, Child.waitable, Child.got, Pc.early, Pc.beforeWait]
          · injection h with h; subst h
            obtain ⟨_, _, _, _, _, _, _, _, _, _, _, _, _, _, _, _, _, _, _, _, _, _, _, _, _, _, _, _, _, _, _, _, _, _, _, _, _, _, _, _⟩ := I
            dsimp only at *
            constructor <;> dsimp only <;> grind [Child.alive, Child.waitable, Child.got, Assembles, Pc.early, Pc.beforeWait]
        · cases h
  · injection h with h; subst h
    obtain ⟨_, _, _, _, _, _, _, _, _, _, _, _, _, _, _, _, _, _, _, _, _, _, _, _, _, _, _, _, _, _, _, _, _, _, _, _, _, _, _, _⟩ := I
    dsimp only at *
    constructor <;> dsimp only <;> grind [Child.alive, Child.waitable, Child.got, Pc.early, Pc.beforeWait, cases Pc]
  · cases h
theorem kill_none {α} (c : Child α) : c.kill = .none ↔ c = .none := by cases c <;> simp [Child.kill]
theorem kill_reaped {α} (c : Child α) : c.kill = .reaped ↔ c = .reaped := by
  cases c <;> simp [Child.kill]
theorem kill_zero {α} (c : Child α) : c.kill = .zombie 0 ↔ c = .zombie 0 := by
  cases c <;> simp [Child.kill]
theorem kill_run {α} (c : Child α) (x : α) : ¬ c.kill = .run x := by cases c <;> simp [Child.kill]
theorem kill_alive {α} (c : Child α) : c.kill.alive = false := by
  cases c <;> simp [Child.kill, Child.alive]

set_option maxHeartbeats 8000000 in
theorem inv_loop {t m w st s s'} (I : Inv t m s) (hpc : s.pc = .loop) (hr : s.running ≠ 0)
    (h : reap w s = some (st, s')) : Inv t m (loopBody w st s') := by
  obtain ⟨pc, res, running, cppPid, ccPid, asPid, p1, p2, cpp, cc, as, q1, q2, out, obj, removed⟩ := s
  dsimp only at hpc
  subst hpc
  have hlor : ∀ b, (res ||| b = 0) ↔ (res = 0 ∧ b = 0) := fun b => Nat.or_eq_zero_iff
  have hliv : cc.alive = true → cc.waitable = true := by
    cases cc <;> simp [Child.waitable, Child.alive]
  have hwait : cpp.waitable = false → cpp = .none ∨ cpp = .reaped := by
    cases cpp <;> simp [Child.waitable]
  cases w with
  | cpp =>
    simp only [reap] at h
    split at h
    · rename_i st' hz
      simp only [Option.some.injEq, Prod.mk.injEq] at h
      obtain ⟨rfl, rfl⟩ := h
      simp only [loopBody]
      split
      · split
        · obtain ⟨_, _, _, _, _, _, _, _, _, _, _, _, _, _, _, _, _, _, _, _, _, _, _, _, _, _, _, _, _, _, _, _, _, _, _, _, _, _, _, _⟩ := I
          dsimp only at *
          constructor <;> dsimp only <;>
            grind [Child.alive, Child.waitable, Child.got, kill_none, kill_reaped, kill_zero, kill_run, kill_alive, Pc.early, Pc.beforeWait, OutType.kids]
        · obtain ⟨_, _, _, _, _, _, _, _, _, _, _, _, _, _, _, _, _, _, _, _, _, _, _, _, _, _, _, _, _, _, _, _, _, _, _, _, _, _, _, _⟩ := I
          dsimp only at *
          constructor <;> dsimp only <;>
            grind [Child.alive, Child.waitable, Child.got, kill_none, kill_reaped, kill_zero, kill_run, kill_alive, Pc.early, Pc.beforeWait, OutType.kids]
      · obtain ⟨_, _, _, _, _, _, _, _, _, _, _, _, _, _, _, _, _, _, _, _, _, _, _, _, _, _, _, _, _, _, _, _, _, _, _, _, _, _, _, _⟩ := I
        dsimp only at *
        constructor <;> dsimp only <;>
          grind [Child.alive, Child.waitable, Child.got, kill_none, kill_reaped, kill_zero, kill_run, kill_alive, Pc.early, Pc.beforeWait, OutType.kids]
    · cases h
  | cc =>
    simp only [reap] at h
    split at h
    · rename_i st' hz
      simp only [Option.some.injEq, Prod.mk.injEq] at h
      obtain ⟨rfl, rfl⟩ := h
      simp only [loopBody]
      split
      · obtain ⟨_, _, _, _, _, _, _, _, _, _, _, _, _, _, _, _, _, _, _, _, _, _, _, _, _, _, _, _, _, _, _, _, _, _, _, _, _, _, _, _⟩ := I
        dsimp only at *
        constructor <;> dsimp only <;>
          grind [Child.alive, Child.waitable, Child.got, kill_none, kill_reaped, kill_zero, kill_run, kill_alive, Pc.early, Pc.beforeWait, OutType.kids]
      · obtain ⟨_, _, _, _, _, _, _, _, _, _, _, _, _, _, _, _, _, _, _, _, _, _, _, _, _, _, _, _, _, _, _, _, _, _, _, _, _, _, _, _⟩ := I
        dsimp only at *
        constructor <;> dsimp only <;>
          grind [Child.alive, Child.waitable, Child.got, kill_none, kill_reaped, kill_zero, kill_run, kill_alive, Pc.early, Pc.beforeWait, OutType.kids]
    · cases h
  | as =>
    simp only [reap] at h
    split at h
    · rename_i st' hz
      simp only [Option.some.injEq, Prod.mk.injEq] at h
      obtain ⟨rfl, rfl⟩ := h
      simp only [loopBody]
      obtain ⟨_, _, _, _, _, _, _, _, _, _, _, _, _, _, _, _, _, _, _, _, _, _, _, _, _, _, _, _, _, _, _, _, _, _, _, _, _, _, _, _⟩ := I
      dsimp only at *
      constructor <;> dsimp only <;>
        grind [Child.alive, Child.waitable, Child.got, kill_none, kill_reaped, kill_zero, kill_run, kill_alive, Pc.early, Pc.beforeWait, OutType.kids]
    · cases h
end Verif.Driver

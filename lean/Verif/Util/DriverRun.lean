import Verif.Util.DriverStep

/-!
# C85: every schedule of the driver and its children
-/

namespace Verif.Driver

theorem inv_step {t m cap a s s'} (I : Inv t m s) (h : step t m cap a s = some s') : Inv t m s' := by
  cases a with
  | cpp => exact inv_cpp I h
  | cc => exact inv_cc I h
  | as => exact inv_as I h
  | driver w => exact inv_driver I h

theorem inv_run {t m cap} : ∀ {acts s s'}, Inv t m s → run t m cap acts s = some s' → Inv t m s'
  | [], s, s', I, h => by
    simp only [run, Option.some.injEq] at h
    subst h
    exact I
  | a :: acts, s, s', I, h => by
    simp only [run] at h
    split at h
    · cases h
    · rename_i s1 h1
      exact inv_run (inv_step I h1) h

theorem hasCc_of_hasAs {m : OutType} (h : m.hasAs = true) : m.hasCc = true := by
  cases m <;> simp_all [OutType.hasAs, OutType.hasCc]

theorem frontOk_of_ccDone {t m} (h : CcDone t) : FrontOk t m := ⟨h.1, fun _ => h.2⟩

/-- An assembler at the end of its input works on a finished front end. -/
theorem emitting_succeeds {t m s o} (I : Inv t m s) (h : s.as = .run (.emitting o)) :
    Succeeds t m := by
  obtain ⟨hp2, hres, ha⟩ := I.asEmits o h
  have hn := I.asNone
  have hpid := I.asPid
  have hnot : ¬ (m.hasAs = false ∨ s.pc = .startAs) := by
    intro hx
    rw [hn.2 hx] at h
    cases h
  have hhas : m.hasAs = true := by
    cases hm : m.hasAs with
    | true => rfl
    | false => exact absurd (Or.inl hm) hnot
  have hcc : m.hasCc = true := by exact hasCc_of_hasAs (by assumption)
  have hbw : s.pc.beforeWait = false := by
    cases hb : s.pc.beforeWait with
    | false => rfl
    | true =>
      have : s.asPid = true := hpid.2 ⟨hhas, fun hx => hnot (Or.inr hx), hb⟩
      rw [← I.p2, hp2] at this
      cases this
  have hearly : s.pc.early = false := by cases hp : s.pc <;> simp_all [Pc.beforeWait, Pc.early]
  have hg := (I.allGot hres hearly).2 hcc
  exact ⟨frontOk_of_ccDone (I.ccGot hg hres), fun _ => ⟨o, ha⟩⟩

/-! ### What a failing compilation leaves -/

theorem obj_step {t m cap a s s'} {o0 : Option (List UInt8)} (hS : ¬ Succeeds t m) (I : Inv t m s)
    (ho : s.obj = o0 ∨ (m ≠ .executable ∧ s.obj = none))
    (h : step t m cap a s = some s') : s'.obj = o0 ∨ (m ≠ .executable ∧ s'.obj = none) := by
  cases a with
  | cpp =>
    simp only [step, cppStep] at h
    repeat' split at h
    all_goals first | cases h; done | (injection h with h; subst h; exact ho)
  | cc =>
    simp only [step, ccStep] at h
    repeat' split at h
    all_goals first | cases h; done | (injection h with h; subst h; exact ho)
  | as =>
    simp only [step, asStep] at h
    split at h
    · repeat' split at h
      all_goals first | cases h; done | (injection h with h; subst h; exact ho)
    · rename_i o he
      exact absurd (emitting_succeeds I he) hS
    · cases h
  | driver w =>
    simp only [step, driverStep] at h
    split at h
    · split at h <;> (injection h with h; subst h; exact ho)
    · split at h <;> (injection h with h; subst h; exact ho)
    · injection h with h; subst h; exact ho
    · repeat' split at h
      · injection h with h; subst h; exact ho
      · injection h with h; subst h; exact ho
      · cases h
      · rename_i st s1 hre
        injection h with h; subst h
        have h1 : s1.obj = s.obj := by
          cases w <;> simp only [reap] at hre <;> split at hre <;>
            first
            | (cases hre; done)
            | (simp only [Option.some.injEq, Prod.mk.injEq] at hre; obtain ⟨_, rfl⟩ := hre; rfl)
        have h2 : (loopBody w st s1).obj = s1.obj := by
          cases w <;> simp only [loopBody] <;> (repeat' split) <;> rfl
        rw [h2, h1]
        exact ho
    · split at h
      · injection h with h; subst h
        dsimp only
        split
        · exact ho
        · rename_i hm
          exact Or.inr ⟨hm, rfl⟩
      · injection h with h; subst h; exact ho
    · split at h <;> (injection h with h; subst h; exact ho)
    · repeat' split at h
      · injection h with h; subst h; exact ho
      · cases h
      · rename_i st s1 hre
        injection h with h; subst h
        have h1 : s1.obj = s.obj := by
          cases w <;> simp only [reap] at hre <;> split at hre <;>
            first
            | (cases hre; done)
            | (simp only [Option.some.injEq, Prod.mk.injEq] at hre; obtain ⟨_, rfl⟩ := hre; rfl)
        dsimp only
        rw [h1]
        exact ho
    · cases h

theorem obj_run {t m cap} {o0 : Option (List UInt8)} (hS : ¬ Succeeds t m) :
    ∀ {acts s s'}, Inv t m s → (s.obj = o0 ∨ (m ≠ .executable ∧ s.obj = none)) →
    run t m cap acts s = some s' → (s'.obj = o0 ∨ (m ≠ .executable ∧ s'.obj = none))
  | [], s, s', I, ho, h => by
    simp only [run, Option.some.injEq] at h
    subst h
    exact ho
  | a :: acts, s, s', I, ho, h => by
    simp only [run] at h
    split at h
    · cases h
    · rename_i s1 h1
      exact obj_run hS (inv_step I h1) (obj_step hS I ho h1) h

/-! ### A successful compilation stays successful -/

structure Clean (s : St) : Prop where
  res : s.res = 0
  cpp : ∀ st, s.cpp = .zombie st → st = 0
  cc : ∀ st, s.cc = .zombie st → st = 0
  as : ∀ st, s.as = .zombie st → st = 0
  asHere : s.pc ≠ .finished → s.as ≠ .reaped

theorem clean_init (m old) : Clean (init m old) := by
  constructor <;> simp [init]

theorem dies_of {dies : List UInt8 → Option Nat} {p input n} (hp : p <+: input) (h : dies p = some n) :
    Dies dies input := ⟨p, hp, by simp [h]⟩

set_option maxHeartbeats 4000000 in
theorem clean_step {t m cap a s s'} (hS : Succeeds t m) (I : Inv t m s) (C : Clean s)
    (h : step t m cap a s = some s') : Clean s' := by
  obtain ⟨⟨hcpp, hcc⟩, has⟩ := hS
  obtain ⟨c1, c2, c3, c4, c5⟩ := C
  have hnone := I.ccNone
  have hanone := I.asNone
  cases a with
  | cpp =>
    simp only [step, cppStep] at h
    repeat' split at h
    all_goals first
      | (cases h; done)
      | (injection h with h; subst h; constructor <;> simp_all)
  | cc =>
    have hhas : s.cc ≠ .none → m.hasCc = true := by
      intro hx
      cases hm : m.hasCc with
      | true => rfl
      | false => exact absurd (hnone.2 (Or.inl hm)) hx
    simp only [step, ccStep] at h
    split at h
    · rename_i acc he
      have hm := hhas (by simp [he])
      have hr := I.ccReads acc he
      split at h
      · rename_i n hd
        exfalso
        apply (hcc hm).1
        refine dies_of ?_ hd
        cases hc : s.cpp with
        | none =>
          rw [(hr.2.1 hc).1]
          exact List.nil_prefix
        | run r => exact ⟨s.q1 ++ r, by simpa using hr.2.2.1 r hc⟩
        | zombie st => exact ⟨s.q1, hr.2.2.2 (by simp [hc, Child.alive]) (by simp [hc])⟩
        | reaped => exact ⟨s.q1, hr.2.2.2 (by simp [hc, Child.alive]) (by simp [hc])⟩
      · split at h
        · injection h with h; subst h; constructor <;> simp_all
        · split at h
          · injection h with h; subst h; constructor <;> simp_all
          · cases h
    · rename_i st he
      have hm := hhas (by simp [he])
      have hw := I.ccWrites _ _ he
      injection h with h; subst h
      have : st = 0 := by rw [hw.2.1]; exact (hcc hm).2
      constructor <;> simp_all
    · repeat' split at h
      all_goals first
        | (cases h; done)
        | (injection h with h; subst h; constructor <;> simp_all)
    · cases h
  | as =>
    have hhas : s.as ≠ .none → m.hasAs = true := by
      intro hx
      cases hm : m.hasAs with
      | true => rfl
      | false => exact absurd (hanone.2 (Or.inl hm)) hx
    simp only [step, asStep] at h
    split at h
    · rename_i acc he
      obtain ⟨o, hnd, hok⟩ := has (hhas (by simp [he]))
      have hr := I.asReads acc he
      split at h
      · rename_i n hd
        exfalso
        exact hnd (dies_of (List.IsPrefix.trans (List.prefix_append _ _) hr.2.1) hd)
      · split at h
        · injection h with h; subst h; constructor <;> simp_all
        · rename_i hq
          split at h
          · rename_i hc
            have hm := hhas (by simp [he])
            have hmc : m.hasCc = true := by exact hasCc_of_hasAs (by assumption)
            have hpc : s.pc.beforeWait = false := by
              cases hb : s.pc.beforeWait with
              | false => rfl
              | true =>
                have h1 : s.pc ≠ .startAs := by
                  intro hx
                  rw [hanone.2 (Or.inr hx)] at he
                  cases he
                have := I.asPid.2 ⟨hm, h1, hb⟩
                rw [← I.p2, hc.1] at this
                cases this
            have hearly : s.pc.early = false := by
              cases hp : s.pc <;> simp_all [Pc.beforeWait, Pc.early]
            have hg := (I.allGot c1 hearly).2 hmc
            have hacc : acc = t.asm := by
              have := hr.2.2.2.2 (Or.inr ⟨hg, c1⟩)
              simpa [hq] using this
            subst hacc
            rw [hok] at h
            injection h with h; subst h
            constructor <;> simp_all
          · cases h
    · injection h with h; subst h; constructor <;> simp_all
    · cases h
  | driver w =>
    simp only [step, driverStep] at h
    split at h
    · split at h <;> (injection h with h; subst h; constructor <;> simp_all)
    · split at h <;> (injection h with h; subst h; constructor <;> simp_all)
    · injection h with h; subst h; constructor <;> simp_all
    · rename_i hpc
      split at h
      · injection h with h; subst h; constructor <;> simp_all
      · rename_i hr
        split at h
        · rename_i hk
          exfalso
          have h1 := I.count hpc
          have h2 := I.cppNone
          have h6 := c5 (by simp [hpc])
          simp only [noKids, Bool.and_eq_true, Bool.not_eq_true'] at hk
          have e1 : s.cpp = .reaped := by
            cases hx : s.cpp <;> simp_all [Child.waitable]
          have e3 : s.as = .none := by
            cases hx : s.as <;> simp_all [Child.waitable]
          have e2 : s.cc = .reaped ∨ s.cc = .none := by
            cases hx : s.cc <;> simp_all [Child.waitable]
          rcases e2 with e2 | e2
          · have : m.hasCc = true := by
              cases hm : m.hasCc with
              | true => rfl
              | false =>
                have := hnone.2 (Or.inl hm)
                rw [e2] at this
                cases this
            simp [e1, e2, e3, Child.got, OutType.kids, this] at h1
            exact hr h1
          · have : m.hasCc = false := by
              rcases hnone.1 e2 with hx | hx | hx
              · exact hx
              · rw [hpc] at hx; cases hx
              · rw [hpc] at hx; cases hx
            simp [e1, e2, e3, Child.got, OutType.kids, this] at h1
            exact hr h1
        · split at h
          · cases h
          · rename_i st s1 hre
            injection h with h; subst h
            cases w with
            | cpp =>
              simp only [reap] at hre
              split at hre
              · rename_i st' hz
                simp only [Option.some.injEq, Prod.mk.injEq] at hre
                obtain ⟨rfl, rfl⟩ := hre
                have hst := c2 _ hz
                subst hst
                simp only [loopBody]
                repeat' split
                all_goals first
                  | (exfalso; simp_all; done)
                  | (constructor <;> simp_all)
              · cases hre
            | cc =>
              simp only [reap] at hre
              split at hre
              · rename_i st' hz
                simp only [Option.some.injEq, Prod.mk.injEq] at hre
                obtain ⟨rfl, rfl⟩ := hre
                have hst := c3 _ hz
                subst hst
                have hcr := (I.p1 (I.ccZombie hz).2 (by simp [hz])).1
                have hcp := I.cppPid (by simp [hpc, Pc.early])
                simp only [loopBody]
                split
                · rename_i hx
                  exfalso
                  have := hcp.1 hx
                  simp [hcr, Child.waitable] at this
                · constructor <;> simp_all
              · cases hre
            | as =>
              simp only [reap] at hre
              split at hre
              · rename_i st' hz
                exfalso
                have hst := c4 _ hz
                subst hst
                exact I.asEarly (by simp [hpc, Pc.beforeWait]) hz
              · cases hre
    · split at h
      · rename_i hx
        exact absurd c1 hx.1
      · injection h with h; subst h; constructor <;> simp_all
    · split at h <;> (injection h with h; subst h; constructor <;> simp_all)
    · rename_i hpc
      split at h
      · rename_i hk
        exfalso
        have h6 := c5 (by simp [hpc])
        have h7 := I.lastWait hpc
        simp only [noKids, Bool.and_eq_true, Bool.not_eq_true'] at hk
        have : s.as = .none := by
          cases hx : s.as <;> simp_all [Child.waitable]
        rcases hanone.1 this with hx | hx
        · simp [h7] at hx
        · rw [hpc] at hx; cases hx
      · split at h
        · cases h
        · rename_i st s1 hre
          injection h with h; subst h
          cases w <;> simp only [reap] at hre <;> split at hre <;>
            first
            | (cases hre; done)
            | (rename_i st' hz
               simp only [Option.some.injEq, Prod.mk.injEq] at hre
               obtain ⟨rfl, rfl⟩ := hre
               constructor <;> simp_all)
    · cases h

theorem clean_run {t m cap} (hS : Succeeds t m) :
    ∀ {acts s s'}, Inv t m s → Clean s → run t m cap acts s = some s' → Clean s'
  | [], s, s', I, C, h => by
    simp only [run, Option.some.injEq] at h
    subst h
    exact C
  | a :: acts, s, s', I, C, h => by
    simp only [run] at h
    split at h
    · cases h
    · rename_i s1 h1
      exact clean_run hS (inv_step I h1) (clean_step hS I C h1) h

end Verif.Driver

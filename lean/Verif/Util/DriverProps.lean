import Verif.Util.DriverRun

/-!
# C85: the properties of one compilation under every schedule
-/

namespace Verif.Driver

/-! ## What is reported and what is left -/

/-- Whatever the order in which the processes move and end, the driver reports
success for a source exactly if the tools, run one after the other on complete
inputs, all succeed. -/
theorem status_every_schedule {t : Tools} {m : OutType} {cap : Nat} {old : Option (List UInt8)}
    {acts : List Actor} {s : St} (h : run t m cap acts (init m old) = some s)
    (hf : s.pc = .finished) : s.res = 0 ↔ Succeeds t m := by
  have I := inv_run (inv_init t m old) h
  constructor
  · intro hres
    have hg := I.allGot hres (by simp [hf, Pc.early])
    have hfront : FrontOk t m := by
      cases hm : m.hasCc with
      | false => exact ⟨I.cppGot hres hg.1, fun hx => by simp [hm] at hx⟩
      | true => exact frontOk_of_ccDone (I.ccGot (hg.2 hm) hres)
    refine ⟨hfront, fun ha => ?_⟩
    obtain ⟨o, ho, -⟩ := I.done hf hres ha
    exact ⟨o, ho⟩
  · intro hS
    exact (clean_run hS (inv_init t m old) (clean_init m old) h).res

/-- If success is reported the object file holds exactly what assembling the
complete assembly text yields. -/
theorem object_every_schedule {t : Tools} {m : OutType} {cap : Nat} {old : Option (List UInt8)}
    {acts : List Actor} {s : St} (h : run t m cap acts (init m old) = some s)
    (hf : s.pc = .finished) (hres : s.res = 0) (ha : m.hasAs = true) :
    ∃ o, Assembles t o ∧ s.obj = some o :=
  (inv_run (inv_init t m old) h).done hf hres ha

/-- If success is reported for -E or -S the output file holds the complete
text. -/
theorem text_every_schedule {t : Tools} {m : OutType} {cap : Nat} {old : Option (List UInt8)}
    {acts : List Actor} {s : St} (h : run t m cap acts (init m old) = some s)
    (hf : s.pc = .finished) (hres : s.res = 0) (ha : m.hasAs = false) :
    s.out = t.textOf m := by
  have I := inv_run (inv_init t m old) h
  have hg := I.allGot hres (by simp [hf, Pc.early])
  cases hm : m.hasCc with
  | true => exact I.ccText hm ha (Or.inr ⟨hg.2 hm, hres⟩)
  | false =>
    have := (I.cppText hm).2.2 (by simp [hg.1, Child.alive]) (by simp [hg.1])
    rw [this]
    cases m <;> simp_all [OutType.hasCc, Tools.textOf]

/-- A failing `-c` never leaves a half-made object: the path holds nothing or
what it held before; and it holds nothing if the preprocessor or the compiler
proper was what failed.  (Nothing at all is left in the full statement, which
fails: see `stale_object_left`.) -/
theorem failure_leaves_partial {t : Tools} {m : OutType} {cap : Nat} {old : Option (List UInt8)}
    {acts : List Actor} {s : St} (h : run t m cap acts (init m old) = some s)
    (hf : s.pc = .finished) (hS : ¬ Succeeds t m) (hm : m = .object) :
    (s.obj = none ∨ s.obj = old) ∧ (¬ FrontOk t m → s.obj = none) := by
  have I := inv_run (inv_init t m old) h
  subst hm
  constructor
  · rcases obj_run hS (inv_init t _ old) (Or.inl rfl) h with h1 | h1
    · exact Or.inr (by simpa [init] using h1)
    · exact Or.inl h1.2
  · intro hF
    exact (I.noObj (I.removes rfl (Or.inr (Or.inr hf)) hF)).2.2 (by simp)

/-- When the driver is done with a source none of the processes it started for
it is still running. -/
theorem nothing_keeps_running {t : Tools} {m : OutType} {cap : Nat} {old : Option (List UInt8)}
    {acts : List Actor} {s : St} (h : run t m cap acts (init m old) = some s)
    (hf : s.pc = .finished) :
    s.cpp.alive = false ∧ s.cc.alive = false ∧ s.as.alive = false := by
  have I := inv_run (inv_init t m old) h
  exact ⟨I.cppStops (by simp [hf, Pc.early]), I.ccEnds hf, I.asEnds hf⟩

/-! ## Every schedule ends -/

def cppW (t : Tools) : Child (List UInt8) → Nat
  | .none => 2 * t.text.length + 4
  | .run r => 2 * r.length + 2
  | .zombie _ => 1
  | .reaped => 0

def ccW (t : Tools) : Child CcRun → Nat
  | .none => 2 * t.asm.length + 6
  | .run (.reading _) => 2 * t.asm.length + 4
  | .run (.writing r _) => 2 * r.length + 3
  | .zombie _ => 1
  | .reaped => 0

def asW : Child AsRun → Nat
  | .none => 6
  | .run (.reading _) => 4
  | .run (.emitting _) => 3
  | .zombie _ => 1
  | .reaped => 0

def pcW : Pc → Nat
  | .startAs => 7
  | .startCc => 6
  | .startCpp => 5
  | .loop => 4
  | .after => 3
  | .close => 2
  | .waitLast => 1
  | .finished => 0

def weight (t : Tools) (s : St) : Nat :=
  pcW s.pc + s.running + cppW t s.cpp + ccW t s.cc + asW s.as + s.q1.length + s.q2.length

theorem kill_cppW (t : Tools) (c) : cppW t (Child.kill c) ≤ cppW t c := by
  cases c <;> simp [Child.kill, cppW]
theorem kill_ccW (t : Tools) (c) : ccW t (Child.kill c) ≤ ccW t c := by
  rcases c with _ | (_ | _) | _ | _ <;> simp [Child.kill, ccW]
theorem kill_asW (c) : asW (Child.kill c) ≤ asW c := by
  rcases c with _ | (_ | _) | _ | _ <;> simp [Child.kill, asW]

theorem weight_loop (t : Tools) {w st s s'} (hpc : s.pc = .loop) (hr : s.running ≠ 0)
    (h : reap w s = some (st, s')) : weight t (loopBody w st s') < weight t s := by
  have k1 := kill_cppW t s.cpp
  have k2 := kill_ccW t s.cc
  cases w <;> simp only [reap] at h <;> split at h <;>
    first
    | (cases h; done)
    | (rename_i hz
       simp only [Option.some.injEq, Prod.mk.injEq] at h
       obtain ⟨rfl, rfl⟩ := h
       simp only [loopBody]
       repeat' split
       all_goals
         simp only [weight, hz, cppW, ccW, asW, hpc, pcW] at *
         omega)

theorem weight_step {t m cap a s s'} (I : Inv t m s) (h : step t m cap a s = some s') :
    weight t s' < weight t s := by
  cases a with
  | cpp =>
    simp only [step, cppStep] at h
    split at h
    · rename_i he
      injection h with h; subst h
      simp [weight, he, cppW]
    · rename_i he
      repeat' split at h
      all_goals first
        | (cases h; done)
        | (injection h with h; subst h
           simp [weight, he, cppW]; try omega)
    · cases h
  | cc =>
    simp only [step, ccStep] at h
    split at h
    · rename_i acc he
      split at h
      · injection h with h; subst h
        simp [weight, he, ccW]; try omega
      · split at h
        · rename_i b q hq
          injection h with h; subst h
          simp [weight, he, ccW, hq]
        · rename_i hq
          split at h
          · rename_i hc
            injection h with h; subst h
            have hcpp := (I.p1 hc.1 (by simp [he])).1
            have hacc : acc = t.text := by
              have := (I.ccReads acc he).2.2.2 hc.2 (by simp [hcpp])
              simpa [hq] using this
            subst hacc
            simp [weight, he, ccW, Tools.asm]
          · cases h
    · rename_i he
      injection h with h; subst h
      simp [weight, he, ccW]
    · rename_i he
      repeat' split at h
      all_goals first
        | (cases h; done)
        | (injection h with h; subst h
           simp [weight, he, ccW]; try omega)
    · cases h
  | as =>
    simp only [step, asStep] at h
    split at h
    · rename_i acc he
      split at h
      · injection h with h; subst h
        simp [weight, he, asW]
      · split at h
        · rename_i b q hq
          injection h with h; subst h
          simp [weight, he, asW, hq]
        · repeat' split at h
          all_goals first
            | (cases h; done)
            | (injection h with h; subst h
               simp [weight, he, asW])
    · rename_i he
      injection h with h; subst h
      simp [weight, he, asW]
    · cases h
  | driver w =>
    have hn1 := I.asNone
    have hn2 := I.ccNone
    have hn3 := I.cppNone
    simp only [step, driverStep] at h
    split at h
    · rename_i hpc
      have he := hn1.2 (Or.inr hpc)
      split at h <;>
      · injection h with h; subst h
        simp only [weight, hpc, he, pcW, asW]
        omega
    · rename_i hpc
      have he := hn2.2 (Or.inr (Or.inr hpc))
      split at h <;>
      · injection h with h; subst h
        simp only [weight, hpc, he, pcW, ccW]
        omega
    · rename_i hpc
      have he := hn3.2 (Or.inr (Or.inr hpc))
      injection h with h; subst h
      simp only [weight, hpc, he, pcW, cppW]
      omega
    · rename_i hpc
      split at h
      · injection h with h; subst h
        simp only [weight, hpc, pcW]
        omega
      · rename_i hr
        split at h
        · injection h with h; subst h
          simp only [weight, hpc, pcW]
          omega
        · split at h
          · cases h
          · rename_i st s1 hre
            injection h with h; subst h
            exact weight_loop t hpc hr hre
    · rename_i hpc
      have := kill_asW s.as
      split at h <;>
      · injection h with h; subst h
        simp only [weight, hpc, pcW]
        omega
    · rename_i hpc
      split at h <;>
      · injection h with h; subst h
        simp only [weight, hpc, pcW]
        omega
    · rename_i hpc
      split at h
      · injection h with h; subst h
        simp only [weight, hpc, pcW]
        omega
      · split at h
        · cases h
        · rename_i st s1 hre
          injection h with h; subst h
          cases w <;> simp only [reap] at hre <;> split at hre <;>
            first
            | (cases hre; done)
            | (rename_i hz
               simp only [Option.some.injEq, Prod.mk.injEq] at hre
               obtain ⟨_, rfl⟩ := hre
               simp only [weight, hpc, hz, pcW, cppW, ccW, asW]
               omega)
    · cases h

theorem weight_run {t m cap} : ∀ {acts s s'}, Inv t m s → run t m cap acts s = some s' →
    acts.length + weight t s' ≤ weight t s
  | [], s, s', I, h => by
    simp only [run, Option.some.injEq] at h
    subst h
    simp
  | a :: acts, s, s', I, h => by
    simp only [run] at h
    split at h
    · cases h
    · rename_i s1 h1
      have e1 := weight_step I h1
      have e2 := weight_run (inv_step I h1) h
      simp only [List.length_cons]
      omega

/-- There is no endless schedule: the driver and its children together move at
most this often. -/
theorem schedules_are_finite {t : Tools} {m : OutType} {cap : Nat} {old : Option (List UInt8)}
    {acts : List Actor} {s : St} (h : run t m cap acts (init m old) = some s) :
    acts.length ≤ 2 * t.text.length + 2 * t.asm.length + 23 := by
  have := weight_run (inv_init t m old) h
  simp only [init, weight, pcW, cppW, ccW, asW, List.length_nil] at this
  omega

/-! ## Nothing gets stuck -/

theorem child_cases {α} (c : Child α) :
    c = .none ∨ c = .reaped ∨ (∃ st, c = .zombie st) ∨ ∃ x, c = .run x := by
  cases c <;> simp

theorem moves {t m cap s} (I : Inv t m s) (hcap : 0 < cap)
    (hb : ¬ Dies t.asDies t.asm ∨ t.asm.length ≤ cap) (hf : s.pc ≠ .finished) :
    ∃ a s', step t m cap a s = some s' := by
  -- a compiler that is past reading, or has its input closed, can move
  have ccMoves : ∀ x, s.cc = .run x → s.cpp = .reaped → s.p1 = false →
      (∀ st, s.as ≠ .zombie st) → (∀ o, s.as ≠ .run (.emitting o)) →
      (s.as = .reaped → Dies t.asDies t.asm) →
      ∃ a s', step t m cap a s = some s' := by
    intro x hx hcpp hp1 hz hem hdie
    cases x with
    | reading acc =>
      refine ⟨.cc, ?_⟩
      simp only [step, ccStep, hx]
      cases hd : t.ccDies acc with
      | some n => exact ⟨_, rfl⟩
      | none =>
        cases hq : s.q1 with
        | cons b q => exact ⟨_, rfl⟩
        | nil =>
          dsimp only
          rw [if_pos ⟨hp1, by simp [hcpp, Child.alive]⟩]
          exact ⟨_, rfl⟩
    | writing r st =>
      have hw := (I.ccWrites r st hx).2.2.2.1
      cases r with
      | nil => exact ⟨.cc, by simp [step, ccStep, hx]⟩
      | cons b r =>
        by_cases hroom : m.hasAs = false ∨ s.q2.length < cap
        · refine ⟨.cc, ?_⟩
          simp only [step, ccStep, hx]
          rcases hroom with h1 | h1
          · rw [if_pos h1]; exact ⟨_, rfl⟩
          · split
            · exact ⟨_, rfl⟩
            · exact ⟨_, rfl⟩
        · have h1 : m.hasAs = true := by
            cases hm : m.hasAs with
            | true => rfl
            | false => exact absurd (Or.inl hm) hroom
          have h2 : cap ≤ s.q2.length := by
            by_cases h2 : s.q2.length < cap
            · exact absurd (Or.inr h2) hroom
            · omega
          simp only [List.length_cons] at hw
          rcases hb with hb | hb
          · rcases child_cases s.as with e | e | ⟨st, e⟩ | ⟨y, e⟩
            · rcases I.asNone.1 e with e1 | e1
              · simp [h1] at e1
              · have := I.cppNone.2 (Or.inl e1)
                rw [hcpp] at this
                cases this
            · exact absurd (hdie e) hb
            · exact absurd e (hz st)
            · cases y with
              | emitting o => exact absurd e (hem o)
              | reading acc =>
                refine ⟨.as, ?_⟩
                simp only [step, asStep, e]
                cases hd : t.asDies acc with
                | some n => exact ⟨_, rfl⟩
                | none =>
                  cases hq : s.q2 with
                  | cons b q => exact ⟨_, rfl⟩
                  | nil => simp [hq] at h2; omega
          · omega
  cases hpc : s.pc with
  | startAs =>
    refine ⟨.driver .cpp, ?_⟩
    simp only [step, driverStep, hpc]
    split <;> exact ⟨_, rfl⟩
  | startCc =>
    refine ⟨.driver .cpp, ?_⟩
    simp only [step, driverStep, hpc]
    split <;> exact ⟨_, rfl⟩
  | startCpp =>
    refine ⟨.driver .cpp, ?_⟩
    simp only [step, driverStep, hpc]
    exact ⟨_, rfl⟩
  | after =>
    refine ⟨.driver .cpp, ?_⟩
    simp only [step, driverStep, hpc]
    split <;> exact ⟨_, rfl⟩
  | close =>
    refine ⟨.driver .cpp, ?_⟩
    simp only [step, driverStep, hpc]
    split <;> exact ⟨_, rfl⟩
  | finished => exact absurd hpc hf
  | loop =>
    have reapMoves : ∀ w st s', reap w s = some (st, s') → ∃ a s', step t m cap a s = some s' := by
      intro w st s' h
      refine ⟨.driver w, ?_⟩
      simp only [step, driverStep, hpc, h]
      split
      · exact ⟨_, rfl⟩
      · split
        · exact ⟨_, rfl⟩
        · exact ⟨_, rfl⟩
    by_cases hr : s.running = 0
    · exact ⟨.driver .cpp, by simp [step, driverStep, hpc, hr]⟩
    by_cases hz1 : ∃ st, s.cpp = .zombie st
    · obtain ⟨st, e⟩ := hz1
      exact reapMoves .cpp st _ (by simp only [reap, e]; rfl)
    by_cases hz2 : ∃ st, s.cc = .zombie st
    · obtain ⟨st, e⟩ := hz2
      exact reapMoves .cc st _ (by simp only [reap, e]; rfl)
    by_cases hz3 : ∃ st, s.as = .zombie st
    · obtain ⟨st, e⟩ := hz3
      exact reapMoves .as st _ (by simp only [reap, e]; rfl)
    have hem : ∀ o, s.as ≠ .run (.emitting o) := by
      intro o e
      have h1 := (I.asEmits o e).1
      have h2 : m.hasAs = true := by
        cases hm : m.hasAs with
        | true => rfl
        | false =>
          have := I.asNone.2 (Or.inl hm)
          rw [e] at this
          cases this
      have := I.asPid.2 ⟨h2, by simp [hpc], by simp [hpc, Pc.beforeWait]⟩
      rw [← I.p2, h1] at this
      cases this
    rcases child_cases s.cpp with e | e | ⟨st, e⟩ | ⟨r, e⟩
    · rcases I.cppNone.1 e with h1 | h1 | h1 <;> (rw [hpc] at h1; cases h1)
    · -- the preprocessor is gone
      rcases child_cases s.cc with e2 | e2 | ⟨st, e2⟩ | ⟨x, e2⟩
      · exfalso
        have h1 := I.count hpc
        have h2 : m.hasCc = false := by
          rcases I.ccNone.1 e2 with h | h | h
          · exact h
          · rw [hpc] at h; cases h
          · rw [hpc] at h; cases h
        simp [e, e2, Child.got, OutType.kids, h2] at h1
        omega
      · exfalso
        have h1 := I.count hpc
        have h2 : m.kids ≤ 2 := by simp only [OutType.kids]; split <;> omega
        simp [e, e2, Child.got] at h1
        omega
      · exact absurd ⟨st, e2⟩ hz2
      · by_cases hp1 : s.p1 = false
        · exact ccMoves x e2 e hp1 (fun st h => hz3 ⟨st, h⟩) hem
            (fun h => I.asDied (by simp [hpc, Pc.early]) (by simp [h, Child.alive]) (by simp [h]))
        · exact absurd (I.p1got (by simp [hpc, Pc.early]) e (by simp [e2, Child.alive])) (by simpa using hp1)
    · exact absurd ⟨st, e⟩ hz1
    · cases r with
      | nil => exact ⟨.cpp, by simp [step, cppStep, e]⟩
      | cons b r =>
        by_cases hroom : m.hasCc = false ∨ s.q1.length < cap
        · refine ⟨.cpp, ?_⟩
          simp only [step, cppStep, e]
          rcases hroom with h1 | h1
          · rw [if_pos h1]; exact ⟨_, rfl⟩
          · split
            · exact ⟨_, rfl⟩
            · exact ⟨_, rfl⟩
        · have h1 : m.hasCc = true := by
            cases hm : m.hasCc with
            | true => rfl
            | false => exact absurd (Or.inl hm) hroom
          have h2 : cap ≤ s.q1.length := by
            by_cases h2 : s.q1.length < cap
            · exact absurd (Or.inr h2) hroom
            · omega
          rcases child_cases s.cc with e2 | e2 | ⟨st, e2⟩ | ⟨x, e2⟩
          · rcases I.ccNone.1 e2 with h | h | h
            · simp [h1] at h
            · rw [hpc] at h; cases h
            · rw [hpc] at h; cases h
          · have := I.order (by simp [hpc, Pc.early]) e2
            rw [e] at this
            cases this
          · exact absurd ⟨st, e2⟩ hz2
          · cases x with
            | writing r' st =>
              have := (I.p1 (I.ccWrites r' st e2).1 (by simp [e2])).1
              rw [e] at this
              cases this
            | reading acc =>
              refine ⟨.cc, ?_⟩
              simp only [step, ccStep, e2]
              cases hd : t.ccDies acc with
              | some n => exact ⟨_, rfl⟩
              | none =>
                cases hq : s.q1 with
                | cons b q => exact ⟨_, rfl⟩
                | nil => simp [hq] at h2; omega
  | waitLast =>
    have reapMoves : ∀ w st s', reap w s = some (st, s') → ∃ a s', step t m cap a s = some s' := by
      intro w st s' h
      refine ⟨.driver w, ?_⟩
      simp only [step, driverStep, hpc, h]
      split
      · exact ⟨_, rfl⟩
      · exact ⟨_, rfl⟩
    by_cases hz1 : ∃ st, s.cpp = .zombie st
    · obtain ⟨st, e⟩ := hz1
      exact reapMoves .cpp st _ (by simp only [reap, e]; rfl)
    by_cases hz2 : ∃ st, s.cc = .zombie st
    · obtain ⟨st, e⟩ := hz2
      exact reapMoves .cc st _ (by simp only [reap, e]; rfl)
    by_cases hz3 : ∃ st, s.as = .zombie st
    · obtain ⟨st, e⟩ := hz3
      exact reapMoves .as st _ (by simp only [reap, e]; rfl)
    have hcpp := I.cppStops (by simp [hpc, Pc.early])
    by_cases hal : s.cc.alive = true
    · obtain ⟨h1, h2⟩ := I.ccStops (by simp [hpc, Pc.early]) hal
      cases hx : s.cc with
      | run x =>
        refine ccMoves x hx h2 (I.p1late (by simp [hpc, Pc.early]) hal).1 (fun st h => hz3 ⟨st, h⟩)
          (by simp [h1]) (fun _ => (I.p1late (by simp [hpc, Pc.early]) hal).2)
      | none => simp [hx, Child.alive] at hal
      | zombie st => simp [hx, Child.alive] at hal
      | reaped => simp [hx, Child.alive] at hal
    · have hal' : s.cc.alive = false := by simpa using hal
      cases hx : s.as with
      | run y =>
        refine ⟨.as, ?_⟩
        have hp2 : s.p2 = false := by
          rw [I.p2]
          cases hp : s.asPid with
          | false => rfl
          | true =>
            have := (I.asPid.1 hp).2.2
            simp [hpc, Pc.beforeWait] at this
        cases y with
        | emitting o => simp [step, asStep, hx]
        | reading acc =>
          simp only [step, asStep, hx]
          cases hd : t.asDies acc with
          | some n => exact ⟨_, rfl⟩
          | none =>
            cases hq : s.q2 with
            | cons b q => exact ⟨_, rfl⟩
            | nil =>
              dsimp only
              rw [if_pos ⟨hp2, hcpp, hal'⟩]
              cases t.asOut acc <;> exact ⟨_, rfl⟩
      | zombie st => exact absurd ⟨st, hx⟩ hz3
      | none =>
        refine ⟨.driver .cpp, ?_⟩
        have hk : noKids s = true := by
          simp only [noKids, hx, Child.waitable]
          cases h1 : s.cpp <;> cases h2 : s.cc <;> simp_all [Child.waitable, Child.alive]
        simp [step, driverStep, hpc, hk]
      | reaped =>
        refine ⟨.driver .cpp, ?_⟩
        have hk : noKids s = true := by
          simp only [noKids, hx, Child.waitable]
          cases h1 : s.cpp <;> cases h2 : s.cc <;> simp_all [Child.waitable, Child.alive]
        simp [step, driverStep, hpc, hk]
/-- The driver never gets stuck waiting, provided the assembler does not die
before it has read its whole input, or the assembly text fits into a pipe.
(The full statement has no such condition; it fails: see
`hangs_without_assembler`.) -/
theorem never_stuck_partial {t : Tools} {m : OutType} {cap : Nat} {old : Option (List UInt8)}
    {acts : List Actor} {s : St} (hcap : 0 < cap)
    (hb : ¬ Dies t.asDies t.asm ∨ t.asm.length ≤ cap)
    (h : run t m cap acts (init m old) = some s) (hf : s.pc ≠ .finished) :
    ∃ a s', step t m cap a s = some s' :=
  moves (inv_run (inv_init t m old) h) hcap hb hf

theorem run_append {t m cap} : ∀ {a b s s1}, run t m cap a s = some s1 →
    run t m cap (a ++ b) s = run t m cap b s1
  | [], b, s, s1, h => by
    simp only [run, Option.some.injEq] at h
    subst h
    rfl
  | x :: a, b, s, s1, h => by
    simp only [run] at h
    simp only [List.cons_append, run]
    split at h
    · cases h
    · exact run_append h

theorem finishes {t m cap} (hcap : 0 < cap)
    (hb : ¬ Dies t.asDies t.asm ∨ t.asm.length ≤ cap) :
    ∀ n s, weight t s ≤ n → Inv t m s → ∃ acts s', run t m cap acts s = some s' ∧ s'.pc = .finished := by
  intro n
  induction n with
  | zero =>
    intro s hw I
    by_cases hf : s.pc = .finished
    · exact ⟨[], s, rfl, hf⟩
    · obtain ⟨a, s1, h1⟩ := moves I hcap hb hf
      have := weight_step I h1
      omega
  | succ n ih =>
    intro s hw I
    by_cases hf : s.pc = .finished
    · exact ⟨[], s, rfl, hf⟩
    · obtain ⟨a, s1, h1⟩ := moves I hcap hb hf
      have := weight_step I h1
      obtain ⟨acts, s', h2, h3⟩ := ih s1 (by omega) (inv_step I h1)
      exact ⟨a :: acts, s', by simp only [run, h1]; exact h2, h3⟩

/-- Under the same condition every schedule, however far it has got, can be
continued to the driver's end. -/
theorem always_finishes_partial {t : Tools} {m : OutType} {cap : Nat} {old : Option (List UInt8)}
    {acts : List Actor} {s : St} (hcap : 0 < cap)
    (hb : ¬ Dies t.asDies t.asm ∨ t.asm.length ≤ cap)
    (h : run t m cap acts (init m old) = some s) :
    ∃ more s', run t m cap (acts ++ more) (init m old) = some s' ∧ s'.pc = .finished := by
  obtain ⟨more, s', h1, h2⟩ := finishes hcap hb _ s (Nat.le_refl _) (inv_run (inv_init t m old) h)
  exact ⟨more, s', by rw [run_append h]; exact h1, h2⟩

/-! ## Findings -/

/-- A source that compiles to `n` bytes of assembly, and no assembler to run
(`execvp` fails and the child exits with 1, src/xcc/main.c:80-83). -/
def noAssembler (n : Nat) : Tools where
  text := []
  cppSt := 0
  ccDies := fun _ => none
  ccOut := fun _ => (List.replicate n 0, 0)
  asDies := fun _ => some 255
  asOut := fun _ => .error 0

/-- The driver waits for "any child" with `cc1` in the middle of its output. -/
def waitingState (k r : Nat) : St where
  pc := .waitLast
  res := 256
  running := 0
  cppPid := false
  ccPid := true
  asPid := false
  p1 := false
  p2 := false
  cpp := .reaped
  cc := .run (.writing (List.replicate r 0) 0)
  as := .reaped
  q1 := []
  q2 := List.replicate k 0
  out := []
  obj := none
  removed := true

theorem waiting_reached (n cap : Nat) :
    ∃ acts, run (noAssembler n) .object cap acts (init .object none) = some (waitingState 0 n) := by
  refine ⟨[.driver .as, .driver .as, .driver .as, .as, .driver .as, .cpp, .driver .cpp, .driver .cpp,
    .driver .cpp, .driver .cpp, .cc], ?_⟩
  simp [run, step, driverStep, asStep, cppStep, ccStep, init, OutType.hasAs, OutType.hasCc,
    noAssembler, reap, loopBody, noKids, Child.waitable, Child.alive, Child.kill, waitingState]

theorem waiting_fills (n cap : Nat) : ∀ k r, k + r ≤ cap →
    ∃ acts, run (noAssembler n) .object cap acts (waitingState 0 (k + 1 + r)) =
      some (waitingState k (1 + r))
  | 0, r, _ => ⟨[], by simp [run]⟩
  | k + 1, r, h => by
    obtain ⟨acts, ha⟩ := waiting_fills n cap k (r + 1) (by omega)
    refine ⟨acts ++ [.cc], ?_⟩
    have e : k + 1 + 1 + r = k + 1 + (r + 1) := by omega
    rw [e, run_append ha]
    have h1 : k < cap := by omega
    have h2 : List.replicate (1 + (r + 1)) (0 : UInt8) = 0 :: List.replicate (1 + r) 0 := by
      rw [Nat.add_comm 1 (r + 1), List.replicate_succ, Nat.add_comm r 1]
    have h3 : List.replicate k (0 : UInt8) ++ [0] = List.replicate (k + 1) 0 := by
      rw [List.replicate_succ']
    simp [run, step, ccStep, waitingState, OutType.hasAs, h1, h2, h3]

/-- FINDING: if the assembler cannot be started and the assembly text is larger
than a pipe, `xcc -c` can hang for ever.  `cc1` has inherited the read end of
its own output pipe, so it is not told that nobody will read it; the driver has
counted the dead assembler as one of the two children its loop waits for and
then waits, without end, for `cc1`.  The text is one byte larger than the pipe,
whatever the pipe's size. -/
theorem hangs_without_assembler (cap : Nat) :
    ∃ acts s, run (noAssembler (cap + 1)) .object cap acts (init .object none) = some s ∧
      s.pc ≠ .finished ∧ ∀ a, step (noAssembler (cap + 1)) .object cap a s = none := by
  obtain ⟨a1, h1⟩ := waiting_reached (cap + 1) cap
  obtain ⟨a2, h2⟩ := waiting_fills (cap + 1) cap cap 0 (by omega)
  refine ⟨a1 ++ a2, waitingState cap 1, ?_, by simp [waitingState], ?_⟩
  · rw [run_append h1]
    simpa using h2
  · intro a
    cases a with
    | cpp => simp [step, cppStep, waitingState]
    | cc => simp [step, ccStep, waitingState, OutType.hasAs]
    | as => simp [step, asStep, waitingState]
    | driver w =>
      cases w <;> simp [step, driverStep, waitingState, noKids, Child.waitable, reap]

/-- A text the assembler rejects. -/
def rejected : Tools where
  text := [105]
  cppSt := 0
  ccDies := fun _ => none
  ccOut := fun _ => ([120, 121], 0)
  asDies := fun _ => none
  asOut := fun _ => .error 255

/-- One schedule of `rejected` and of `accepted`. -/
def straight : List Actor :=
  [.driver .as, .driver .as, .driver .as, .cpp, .cpp, .driver .cpp, .cc, .cc, .cc, .cc, .cc,
   .driver .cc, .driver .as, .as, .as, .driver .as, .driver .as, .as]

/-- FINDING: when the assembler rejects its input `xcc -c` fails but leaves the
object file of an earlier run in place. -/
theorem stale_object_left :
    ∃ acts s, run rejected .object 4096 acts (init .object (some [1, 2])) = some s ∧
      s.pc = .finished ∧ s.res ≠ 0 ∧ s.obj = some [1, 2] := by
  refine ⟨straight ++ [.driver .as], _, rfl, ?_⟩
  decide

/-- A source the compiler fails on after it has begun to write. -/
def breaksOff : Tools where
  text := []
  cppSt := 0
  ccDies := fun _ => none
  ccOut := fun _ => ([120], 134)
  asDies := fun _ => none
  asOut := fun _ => .ok []

/-- FINDING: a failing `xcc -S` leaves the part of the text written so far. -/
theorem partial_text_left :
    ∃ acts s, run breaksOff .assembly 4096 acts (init .assembly none) = some s ∧
      s.pc = .finished ∧ s.res ≠ 0 ∧ s.out = [120] := by
  refine ⟨[.driver .cpp, .driver .cpp, .driver .cpp, .cpp, .driver .cpp, .cc, .cc, .cc, .driver .cc,
    .driver .cc, .driver .cc, .driver .cc], _, rfl, ?_⟩
  decide

/-! ## The hypotheses are met -/

/-- A source every tool accepts. -/
def accepted : Tools where
  text := [105, 106]
  cppSt := 0
  ccDies := fun acc => if acc = [0] then some 0 else none
  ccOut := fun inp => (inp.reverse, 0)
  asDies := fun acc => if acc = [0] then some 0 else none
  asOut := fun inp => .ok (127 :: inp)

/-- A pipe of one byte, so that every process has to wait for the next. -/
example : ∃ s, run accepted .object 1
    [.driver .as, .driver .as, .driver .as, .cpp, .cc, .cpp, .cpp, .cc, .driver .cpp, .cc, .cc, .as,
     .cc, .as, .cc, .driver .cc, .driver .cc, .driver .cc, .driver .cc, .as, .as, .driver .as]
    (init .object none) = some s ∧ s.pc = .finished ∧ s.res = 0 ∧ s.obj = some [127, 106, 105] :=
  ⟨_, rfl, by decide⟩

example : Succeeds accepted .object := by
  have hd : ∀ l : List UInt8, l = [105, 106] ∨ l = [106, 105] →
      ¬ Dies (fun acc => if acc = [0] then some 0 else none) l := by
    rintro l hl ⟨p, hp, hn⟩
    have : p = [0] := by
      by_cases h : p = [0]
      · exact h
      · simp [h] at hn
    subst this
    obtain ⟨r, hr⟩ := hp
    rcases hl with rfl | rfl <;> simp at hr
  refine ⟨⟨rfl, fun _ => ⟨hd _ (Or.inl rfl), rfl⟩⟩, fun _ => ⟨[127, 106, 105], ?_, rfl⟩⟩
  exact hd _ (Or.inr rfl)

/-- The preprocessor fails while the compiler waits for more. -/
def missingHeader : Tools := { accepted with text := [105], cppSt := 256 }

example : ∃ s, run missingHeader .object 8
    [.driver .as, .driver .as, .driver .as, .cpp, .cc, .cpp, .driver .cpp, .driver .cpp, .driver .cpp,
     .driver .cc] (init .object (some [9])) = some s ∧ s.pc = .finished ∧ s.res ≠ 0 ∧ s.obj = none ∧
     s.as = .zombie 9 :=
  ⟨_, rfl, by decide⟩

example : ¬ Succeeds missingHeader .object := fun h => by simpa [missingHeader] using h.1.1

example : 0 < 1 ∧ ¬ Dies rejected.asDies rejected.asm :=
  ⟨by decide, fun ⟨_, _, h⟩ => h rfl⟩

end Verif.Driver

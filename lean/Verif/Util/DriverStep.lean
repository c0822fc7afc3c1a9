import Verif.Util.DriverInv

/-!
# C85: the driver's own moves keep the invariant
-/

namespace Verif.Driver

set_option maxHeartbeats 8000000 in
theorem inv_driver {t m w s s'} (I : Inv t m s) (h : driverStep t m w s = some s') :
    Inv t m s' := by
  have hloop := @inv_loop t m w
  obtain ⟨pc, res, running, cppPid, ccPid, asPid, p1, p2, cpp, cc, as, q1, q2, out, obj, removed⟩ := s
  have hlor : ∀ b, (res ||| b = 0) ↔ (res = 0 ∧ b = 0) := fun b => Nat.or_eq_zero_iff
  have hliv : cc.alive = true → cc.waitable = true := by
    cases cc <;> simp [Child.waitable, Child.alive]
  have hwait : cpp.waitable = false → cpp = .none ∨ cpp = .reaped := by
    cases cpp <;> simp [Child.waitable]
  have hga : as = .reaped ∨ as.got = 0 := by cases as <;> simp [Child.got]
  have hgc : cc = .reaped ∨ cc.got = 0 := by cases cc <;> simp [Child.got]
  have hgw : cc = .reaped → cc.waitable = false := by cases cc <;> simp [Child.waitable]
  have hnil := @notYet_nil t.asDies
  have hnil' := @notYet_nil t.ccDies
  have hfront : CcDone t → FrontOk t m := fun h => ⟨h.1, fun _ => h.2⟩
  have hboth : m.hasAs = true → m.hasCc = true := by cases m <;> simp [OutType.hasAs, OutType.hasCc]
  cases pc with
  | startAs =>
    simp only [driverStep] at h
    split at h <;>
    · injection h with h; subst h
      clear hloop
      obtain ⟨_, _, _, _, _, _, _, _, _, _, _, _, _, _, _, _, _, _, _, _, _, _, _, _, _, _, _, _, _, _, _, _, _, _, _, _, _, _, _, _⟩ := I
      dsimp only at *
      constructor <;> dsimp only <;>
        grind [Child.alive, Child.waitable, Child.got, Pc.early, Pc.beforeWait, List.nil_prefix]
  | startCc =>
    simp only [driverStep] at h
    split at h <;>
    · injection h with h; subst h
      clear hloop
      obtain ⟨_, _, _, _, _, _, _, _, _, _, _, _, _, _, _, _, _, _, _, _, _, _, _, _, _, _, _, _, _, _, _, _, _, _, _, _, _, _, _, _⟩ := I
      dsimp only at *
      constructor <;> dsimp only <;>
        grind [Child.alive, Child.waitable, Child.got, Pc.early, Pc.beforeWait, List.nil_prefix]
  | startCpp =>
    simp only [driverStep] at h
    injection h with h; subst h
    clear hloop
    obtain ⟨_, _, _, _, _, _, _, _, _, _, _, _, _, _, _, _, _, _, _, _, _, _, _, _, _, _, _, _, _, _, _, _, _, _, _, _, _, _, _, _⟩ := I
    dsimp only at *
    constructor <;> dsimp only <;>
      grind [Child.alive, Child.waitable, Child.got, Pc.early, Pc.beforeWait, OutType.kids, List.nil_prefix]
  | loop =>
    simp only [driverStep] at h
    split at h
    · rename_i hr0
      injection h with h; subst h
      clear hloop
      have hE : cpp = .reaped ∧ (m.hasCc = false ∨ cc = .reaped ∨ as = .reaped) := by
        have h1 := I.count rfl
        have h2 := I.order rfl
        have h3 := I.asNone
        have h4 := I.ccNone
        dsimp only at h1 h2 h3 h4
        subst hr0
        have hc1 : cpp = .reaped ∨ cpp.got = 0 := by cases cpp <;> simp [Child.got]
        have ha1 : as.got ≤ 1 := by cases as <;> simp [Child.got]
        have hc2 : cpp.got ≤ 1 := by cases cpp <;> simp [Child.got]
        cases hm : m.hasCc with
        | false =>
          have hma : m.hasAs = false := by
            cases hx : m.hasAs with
            | false => rfl
            | true => simp [hboth hx] at hm
          have e1 : cc = .none := h4.2 (Or.inl hm)
          have e2 : as = .none := h3.2 (Or.inl hma)
          subst e1; subst e2
          have h1' : cpp.got = 1 := by simpa [OutType.kids, hm, Child.got] using h1
          rcases hc1 with e | e
          · exact ⟨e, Or.inl rfl⟩
          · omega
        | true =>
          simp only [OutType.kids, hm, if_true] at h1
          rcases hgc with e | e
          · exact ⟨h2 e, Or.inr (Or.inl e)⟩
          · rcases hga with e' | e'
            · refine ⟨?_, Or.inr (Or.inr e')⟩
              rcases hc1 with e1 | e1
              · exact e1
              · omega
            · omega
      clear hga hgc hgw
      obtain ⟨_, _, _, _, _, _, _, _, _, _, _, _, _, _, _, _, _, _, _, _, _, _, _, _, _, _, _, _, _, _, _, _, _, _, _, _, _, _, _, _⟩ := I
      dsimp only at *
      constructor <;> dsimp only <;>
        grind [Child.alive, Child.waitable, Child.got, Pc.early, Pc.beforeWait, OutType.kids]
    · split at h
      · rename_i hr hk
        exfalso
        have h1 := I.count rfl
        have h2 := I.cppNone
        have h3 := I.ccNone
        have h4 := I.asNone
        dsimp only at *
        simp only [noKids] at hk
        grind [Child.waitable, Child.got, OutType.kids, cases Child]
      · rename_i hr hk
        split at h
        · cases h
        · rename_i st s1 hre
          injection h with h; subst h
          exact hloop I rfl hr hre
  | after =>
    simp only [driverStep] at h
    split at h <;>
    · injection h with h; subst h
      clear hloop
      obtain ⟨_, _, _, _, _, _, _, _, _, _, _, _, _, _, _, _, _, _, _, _, _, _, _, _, _, _, _, _, _, _, _, _, _, _, _, _, _, _, _, _⟩ := I
      dsimp only at *
      constructor <;> dsimp only <;>
        grind [Child.alive, Child.waitable, Child.got, kill_none, kill_reaped, kill_zero, kill_run, kill_alive, Pc.early, Pc.beforeWait]
  | close =>
    simp only [driverStep] at h
    split at h <;>
    · injection h with h; subst h
      clear hloop
      obtain ⟨_, _, _, _, _, _, _, _, _, _, _, _, _, _, _, _, _, _, _, _, _, _, _, _, _, _, _, _, _, _, _, _, _, _, _, _, _, _, _, _⟩ := I
      dsimp only at *
      constructor <;> dsimp only <;>
        grind [Child.alive, Child.waitable, Child.got, Pc.early, Pc.beforeWait, cases Child]
  | waitLast =>
    simp only [driverStep] at h
    clear hloop
    split at h
    · rename_i hk
      injection h with h; subst h
      simp only [noKids] at hk
      obtain ⟨_, _, _, _, _, _, _, _, _, _, _, _, _, _, _, _, _, _, _, _, _, _, _, _, _, _, _, _, _, _, _, _, _, _, _, _, _, _, _, _⟩ := I
      dsimp only at *
      constructor <;> dsimp only <;>
        grind [Child.alive, Child.waitable, Child.got, Pc.early, Pc.beforeWait, cases Child]
    · split at h
      · cases h
      · rename_i hk st s1 hre
        injection h with h; subst h
        cases w <;> simp only [reap] at hre <;> split at hre <;>
          first
          | (cases hre; done)
          | (simp only [Option.some.injEq, Prod.mk.injEq] at hre
             obtain ⟨rfl, rfl⟩ := hre
             obtain ⟨_, _, _, _, _, _, _, _, _, _, _, _, _, _, _, _, _, _, _, _, _, _, _, _, _, _, _, _, _, _, _, _, _, _, _, _, _, _, _, _⟩ := I
             dsimp only at *
             constructor <;> dsimp only <;>
               grind [Child.alive, Child.waitable, Child.got, Pc.early, Pc.beforeWait])
  | finished => simp [driverStep] at h

end Verif.Driver

import Verif.Wasm.StmtSegs
/-!
# Statements compiled to WebAssembly (C73): the simulation
-/
namespace Verif.WasmGen
open Verif.Util Verif.CExpr Verif.Wasm
open Verif.Fold hiding Op Res

/-! ## Traversal keeps the shape -/

theorem constOf_trav (Γ : Fn) (need : Bool) (e : X) (n : Nat) : constOf (trav Γ need e n).1 = constOf e := by
  cases e with
  | asg l r =>
    simp only [trav]
    split
    · split
      · rfl
      · split <;> rfl
    · rfl
  | inc p d l =>
    simp only [trav]
    split <;> rfl
  | _ => rfl

mutual
theorem funcend_trav (Γ : Fn) : ∀ (s : S) (n : Nat), funcend (travS Γ s n).1 = funcend s
  | .skip, n => rfl
  | .expr e, n => rfl
  | .ret e, n => rfl
  | .block l, n => by simp only [travS, funcend]; exact funcendL_trav Γ l n
  | .when c a, n => by simp only [travS, funcend]; exact funcend_trav Γ a _
  | .ite c a b, n => by simp only [travS, funcend]; rw [funcend_trav Γ a, funcend_trav Γ b]
  | .switch e b, n => by simp only [travS]; split <;> rfl
  | .case v s, n => rfl
  | .while_ c b, n => rfl
  | .doWhile b c, n => rfl
  | .for_ p x q b, n => rfl
  | .brk, n => rfl
  | .cont, n => rfl
theorem funcendL_trav (Γ : Fn) : ∀ (l : L) (n : Nat), funcendL (travL Γ l n).1 = funcendL l
  | .nil, n => rfl
  | .cons s .nil, n => by simp only [travL, funcendL]; exact funcend_trav Γ s n
  | .cons s (.cons s' l), n => by
    have := funcendL_trav Γ (.cons s' l) (travS Γ s n).2
    simp only [travL, funcendL] at this ⊢
    exact this
end

mutual
theorem cases_trav (Γ : Fn) : ∀ (s : S) (sub : Bool) (n : Nat), cases sub (travS Γ s n).1 = cases sub s
  | .skip, _, n => rfl
  | .expr e, _, n => rfl
  | .ret e, _, n => rfl
  | .block l, _, n => by simp only [travS, cases]; exact casesL_trav Γ l n
  | .when c a, _, n => rfl
  | .ite c a b, _, n => rfl
  | .switch e b, _, n => by simp only [travS]; split <;> rfl
  | .case v s, _, n => by simp only [travS, cases]; rw [cases_trav Γ s]
  | .while_ c b, _, n => rfl
  | .doWhile b c, _, n => rfl
  | .for_ p x q b, _, n => rfl
  | .brk, _, n => rfl
  | .cont, _, n => rfl
theorem casesL_trav (Γ : Fn) : ∀ (l : L) (n : Nat), casesL (travL Γ l n).1 = casesL l
  | .nil, n => rfl
  | .cons s l, n => by simp only [travL, casesL]; rw [cases_trav Γ s, casesL_trav Γ l]
end

theorem travO_mono (Γ : Fn) (need : Bool) (e : Option X) (n : Nat) : n ≤ (travO Γ need e n).2 := by
  cases e with
  | none => exact le_refl _
  | some e => exact trav_mono Γ e need n

mutual
theorem travS_mono (Γ : Fn) : ∀ (s : S) (n : Nat), n ≤ (travS Γ s n).2
  | .skip, n => le_refl _
  | .expr e, n => trav_mono Γ e false n
  | .ret e, n => travO_mono Γ true e n
  | .block l, n => travL_mono Γ l n
  | .when c a, n => le_trans (trav_mono Γ c true n) (travS_mono Γ a _)
  | .ite c a b, n => le_trans (trav_mono Γ c true n) (le_trans (travS_mono Γ a _) (travS_mono Γ b _))
  | .switch e b, n => by
    have h : n ≤ (travS Γ b (trav Γ true e n).2).2 := le_trans (trav_mono Γ e true n) (travS_mono Γ b _)
    simp only [travS]
    split
    · exact h
    · exact Nat.le_succ_of_le h
  | .case v s, n => travS_mono Γ s n
  | .while_ c b, n => le_trans (trav_mono Γ c true n) (travS_mono Γ b _)
  | .doWhile b c, n => le_trans (travS_mono Γ b n) (trav_mono Γ c true _)
  | .for_ p x q b, n => le_trans (travO_mono Γ false p n) (le_trans (travO_mono Γ true x _) (le_trans (travO_mono Γ false q _) (travS_mono Γ b _)))
  | .brk, n => le_refl _
  | .cont, n => le_refl _
theorem travL_mono (Γ : Fn) : ∀ (l : L) (n : Nat), n ≤ (travL Γ l n).2
  | .nil, n => le_refl _
  | .cons s l, n => le_trans (travS_mono Γ s n) (travL_mono Γ l _)
end

/-! ## The last statement -/

mutual
theorem noLR_funcend : ∀ s : S, noLR s = true → funcend s = false
  | .skip, _ => rfl
  | .expr e, _ => rfl
  | .ret e, h => by simp [noLR] at h
  | .block l, h => noLRL_funcend l h
  | .when c a, h => noLR_funcend a h
  | .ite c a b, h => by
    simp only [noLR, Bool.and_eq_true] at h
    simp [funcend, noLR_funcend a h.1]
  | .switch e b, _ => rfl
  | .case v s, _ => rfl
  | .while_ c b, _ => rfl
  | .doWhile b c, _ => rfl
  | .for_ p x q b, _ => rfl
  | .brk, _ => rfl
  | .cont, _ => rfl
theorem noLRL_funcend : ∀ l : L, noLRL l = true → funcendL l = false
  | .nil, _ => rfl
  | .cons s .nil, h => noLR_funcend s h
  | .cons _ (.cons s l), h => noLRL_funcend (.cons s l) h
end

mutual
theorem noLR_trav (Γ : Fn) : ∀ (s : S) (n : Nat), noLR (travS Γ s n).1 = noLR s
  | .skip, n => rfl
  | .expr e, n => rfl
  | .ret e, n => rfl
  | .block l, n => by simp only [travS, noLR]; exact noLRL_trav Γ l n
  | .when c a, n => by simp only [travS, noLR]; exact noLR_trav Γ a _
  | .ite c a b, n => by simp only [travS, noLR]; rw [noLR_trav Γ a, noLR_trav Γ b]
  | .switch e b, n => by simp only [travS]; split <;> rfl
  | .case v s, n => by simp only [travS, noLR]; exact noLR_trav Γ s _
  | .while_ c b, n => rfl
  | .doWhile b c, n => rfl
  | .for_ p x q b, n => rfl
  | .brk, n => rfl
  | .cont, n => rfl
theorem noLRL_trav (Γ : Fn) : ∀ (l : L) (n : Nat), noLRL (travL Γ l n).1 = noLRL l
  | .nil, n => rfl
  | .cons s .nil, n => by simp only [travL, noLRL]; exact noLR_trav Γ s n
  | .cons s (.cons s' l), n => by
    have := noLRL_trav Γ (.cons s' l) (travS Γ s n).2
    simp only [travL, noLRL] at this ⊢
    exact this
end

mutual
/-- Without a `return` at the end it does not matter whether a statement is the last. -/
theorem genS_noLR (Γ : Fn) (K : Kind) : ∀ (s : S) (last sub : Bool) (d b k : Nat), noLR s = true →
    genS Γ K last sub d b k s = genS Γ K false sub d b k s
  | .skip, _, _, d, b, k, _ => rfl
  | .expr e, _, _, d, b, k, _ => rfl
  | .ret e, _, _, d, b, k, h => by simp [noLR] at h
  | .block l, _, _, d, b, k, h => by
    simp only [genS]
    exact genL_noLR Γ K l _ d b k h
  | .when c a, _, _, d, b, k, h => by
    simp only [noLR] at h
    simp only [genS, noLR_funcend a h, Bool.and_false, Bool.false_and]
    rw [genS_noLR Γ K a _ false d b k h, genS_noLR Γ K a _ false (d + 1) b k h]
  | .ite c a a', _, _, d, b, k, h => by
    simp only [noLR, Bool.and_eq_true] at h
    simp only [genS, noLR_funcend a h.1, Bool.and_false, Bool.false_and]
    rw [genS_noLR Γ K a _ false d b k h.1, genS_noLR Γ K a _ false (d + 1) b k h.1, genS_noLR Γ K a' _ false d b k h.2,
      genS_noLR Γ K a' _ false (genS Γ K false false (d + 1) b k a).2 b k h.2]
  | .switch e s, _, _, d, b, k, _ => by simp only [genS]
  | .case v s, _, sub, d, b, k, h => by
    simp only [genS]
    rw [genS_noLR Γ K s _ true _ b k h]
  | .while_ c s, _, _, d, b, k, _ => by simp only [genS]
  | .doWhile s c, _, _, d, b, k, _ => by simp only [genS]
  | .for_ p x q s, _, _, d, b, k, _ => by simp only [genS]
  | .brk, _, _, d, b, k, _ => by simp only [genS]
  | .cont, _, _, d, b, k, _ => by simp only [genS]
theorem genL_noLR (Γ : Fn) (K : Kind) : ∀ (l : L) (last : Bool) (d b k : Nat), noLRL l = true →
    genL Γ K last d b k l = genL Γ K false d b k l
  | .nil, _, d, b, k, _ => rfl
  | .cons s .nil, _, d, b, k, h => by
    simp only [genL]
    exact genS_noLR Γ K s _ false d b k h
  | .cons s (.cons s' l), _, d, b, k, h => by
    have := genL_noLR Γ K (.cons s' l) ‹Bool› (genS Γ K false false d b k s).2 b k h
    simp only [genL] at this ⊢
    rw [this]
end

mutual
theorem wtS_last (c : Ctx) (K : Kind) : ∀ (s : S) (last iB iC iS : Bool), wtS c K last iB iC iS s = true → wtS c K false iB iC iS s = true
  | .skip, _, _, _, _, h => rfl
  | .expr e, _, _, _, _, h => h
  | .ret e, _, _, _, _, h => by simpa only [wtS] using h
  | .block l, _, _, _, _, h => by
    simp only [wtS] at h ⊢
    exact wtL_last c K l _ _ _ _ h
  | .when x a, _, _, _, _, h => by
    simp only [wtS, Bool.and_eq_true] at h ⊢
    exact ⟨⟨h.1.1, wtS_last c K a _ _ _ _ h.1.2⟩, rfl⟩
  | .ite x a b, _, _, _, _, h => by
    simp only [wtS, Bool.and_eq_true] at h ⊢
    exact ⟨⟨⟨h.1.1.1, wtS_last c K a _ _ _ _ h.1.1.2⟩, wtS_last c K b _ _ _ _ h.1.2⟩, rfl⟩
  | .switch e s, _, _, _, _, h => by simpa only [wtS] using h
  | .case v s, _, _, _, _, h => by
    simp only [wtS, Bool.and_eq_true] at h ⊢
    exact ⟨h.1, wtS_last c K s _ _ _ _ h.2⟩
  | .while_ x s, _, _, _, _, h => by simpa only [wtS] using h
  | .doWhile s x, _, _, _, _, h => by simpa only [wtS] using h
  | .for_ p x q s, _, _, _, _, h => by simpa only [wtS] using h
  | .brk, _, _, _, _, h => h
  | .cont, _, _, _, _, h => h
theorem wtL_last (c : Ctx) (K : Kind) : ∀ (l : L) (last iB iC iS : Bool), wtL' c K last iB iC iS l = true → wtL' c K false iB iC iS l = true
  | .nil, _, _, _, _, h => rfl
  | .cons s .nil, _, _, _, _, h => wtS_last c K s _ _ _ _ h
  | .cons s (.cons s' l), last, iB, iC, iS, h => by
    have := wtL_last c K (.cons s' l) last iB iC iS
    simp only [wtL', Bool.and_eq_true] at h this ⊢
    exact ⟨h.1, this h.2⟩
end

theorem run_append (a b : List It) (σ : State) : run (a ++ b) σ = (run a σ).bind (run b) := by
  induction a generalizing σ with
  | nil => rfl
  | cons i a ih =>
    cases i with
    | lab v => simpa only [List.cons_append, run] using ih σ
    | act f =>
      simp only [List.cons_append, run]
      cases f σ with
      | go σ' => exact ih σ'
      | _ => rfl

theorem run_one (f : State → Fl) (σ : State) : run [.act f] σ = f σ := by
  simp only [run]
  cases f σ <;> rfl

/-- What does not go on. -/
def Halts (f : State → Fl) : Prop := ∀ σ σ', f σ ≠ .go σ'

theorem Ou.fl_halts {α : Type} {o : Ou α} {f : α → State → Fl} (h : ∀ a σ σ', f a σ ≠ .go σ') (σ' : State) : o.fl f ≠ .go σ' := by
  cases o with
  | val a σ => exact h a σ σ'
  | stop => exact fun q => nomatch q
  | ub => exact fun q => nomatch q

theorem const_ev {c : Ctx} {e : X} {v : Int} (h : constOf e = some v) (hw : wtC c e = true) (need : Bool) (σ : State) :
    ev c need e σ = .val v σ := by
  cases e with
  | lit t u =>
    simp only [constOf, Option.some.injEq] at h
    subst h
    simp only [wtC, wt, X.fits, Bool.and_eq_true, decide_eq_true_eq] at hw
    simp only [ev]
    rw [conv_id (tsz hw.1.1.1.1) _ hw.2]
  | _ => cases h

theorem const_trav {Γ : Fn} {e : X} {v : Int} (h : constOf e = some v) (need : Bool) (n : Nat) : trav Γ need e n = (e, n) := by
  cases e with
  | lit t u => rfl
  | _ => cases h

mutual
/-- A last statement that ends with `return` is not left at its end. -/
theorem funcend_halts (c : Ctx) (m : Nat) (K : Kind) (hv : K.rt ≠ .void) : ∀ (s : S) (iB iC iS : Bool), wtS c K true iB iC iS s = true →
    funcend s = true → Halts (run (acts c m s))
  | .skip, _, _, _, _, h => by simp [funcend] at h
  | .expr e, _, _, _, _, h => by simp [funcend] at h
  | .ret e, _, _, _, _, _ => by
    intro σ σ'
    simp only [acts, run_one]
    cases e with
    | none => exact fun q => nomatch q
    | some e => exact Ou.fl_halts (f := fun v σ => .ret v σ) (fun _ _ _ => (fun q => nomatch q)) σ'
  | .block l, iB, iC, iS, hw, h => by
    simp only [acts]
    exact funcendL_halts c m K hv l iB iC iS hw h
  | .when x a, iB, iC, iS, hw, h => by
    simp only [wtS, Bool.and_eq_true, Bool.or_eq_true, Bool.not_true, Bool.false_eq_true, decide_eq_true_eq, false_or] at hw
    obtain ⟨⟨hx, ha⟩, hl⟩ := hw
    have fa : funcend a = true := h
    rcases hl with (hl | hl) | hl
    · exact absurd hl hv
    · rw [noLR_funcend a hl] at fa
      exact absurd fa (by simp)
    · cases hc : constOf x with
      | none => rw [hc] at hl; simp at hl
      | some v =>
        rw [hc] at hl
        have hl : v ≠ 0 := by simpa using hl
        intro σ σ'
        simp only [acts, run_one, const_ev hc hx, Ou.fl]
        rw [if_pos hl]
        exact funcend_halts c m K hv a iB iC false ha fa σ σ'
  | .ite x a b, iB, iC, iS, hw, h => by
    simp only [wtS, Bool.and_eq_true] at hw
    simp only [funcend, Bool.and_eq_true] at h
    intro σ σ'
    simp only [acts, run_one]
    refine Ou.fl_halts (fun v σ σ' => ?_) σ'
    split
    · exact funcend_halts c m K hv a iB iC false hw.1.1.2 h.1 σ σ'
    · exact funcend_halts c m K hv b iB iC false hw.1.2 h.2 σ σ'
  | .switch e s, _, _, _, _, h => by simp [funcend] at h
  | .case v s, _, _, _, _, h => by simp [funcend] at h
  | .while_ x s, _, _, _, _, h => by simp [funcend] at h
  | .doWhile s x, _, _, _, _, h => by simp [funcend] at h
  | .for_ p x q s, _, _, _, _, h => by simp [funcend] at h
  | .brk, _, _, _, _, h => by simp [funcend] at h
  | .cont, _, _, _, _, h => by simp [funcend] at h
theorem funcendL_halts (c : Ctx) (m : Nat) (K : Kind) (hv : K.rt ≠ .void) : ∀ (l : L) (iB iC iS : Bool), wtL' c K true iB iC iS l = true →
    funcendL l = true → Halts (run (actsL c m l))
  | .nil, _, _, _, _, h => by simp [funcendL] at h
  | .cons s .nil, iB, iC, iS, hw, h => by
    simp only [actsL, List.append_nil]
    exact funcend_halts c m K hv s iB iC iS hw h
  | .cons s (.cons s' l), iB, iC, iS, hw, h => by
    have hl : wtL' c K true iB iC iS (.cons s' l) = true := by
      simp only [wtL', Bool.and_eq_true] at hw
      exact hw.2
    intro σ σ'
    rw [actsL, run_append]
    cases hr : run (acts c m s) σ with
    | go σ1 => exact funcendL_halts c m K hv (.cons s' l) iB iC iS hl h σ1 σ'
    | _ => exact fun q => nomatch q
end

/-! ## Outcomes -/

/-- Which results of the machine stand for the ways to leave a statement. -/
structure Ex where
  go : St → Res → Prop
  brk : St → Res → Prop
  cont : St → Res → Prop
  ret : Int → St → Res → Prop

def PG (c : Ctx) (Q : Ex) (n n' : Nat) (ρ : St) (o : Fl) (r : Res) : Prop :=
  match o with
  | .go σ => ∃ ρ', Q.go ρ' r ∧ Sim c σ ρ' ∧ Keep c n n' ρ ρ'
  | .brk σ => ∃ ρ', Q.brk ρ' r ∧ Sim c σ ρ' ∧ Keep c n n' ρ ρ'
  | .cont σ => ∃ ρ', Q.cont ρ' r ∧ Sim c σ ρ' ∧ Keep c n n' ρ ρ'
  | .ret v σ => ∃ ρ', Q.ret v ρ' r ∧ Sim c σ ρ' ∧ Keep c n n' ρ ρ'
  | .stop => r = .stop
  | .ub => True
  | .time => r = .time

theorem PG.pre {c : Ctx} {Q : Ex} {n n' : Nat} {ρ0 ρ : St} {o : Fl} {r : Res} (k : Keep c n n' ρ0 ρ) (h : PG c Q n n' ρ o r) :
    PG c Q n n' ρ0 o r := by
  cases o with
  | stop => exact h
  | ub => trivial
  | time => exact h
  | _ =>
    obtain ⟨ρ', h1, h2, h3⟩ := h
    exact ⟨ρ', h1, h2, k.trans h3⟩

theorem PG.mono {c : Ctx} {Q : Ex} {a b n n' : Nat} {ρ : St} {o : Fl} {r : Res} (h : PG c Q a b ρ o r) (h1 : n ≤ a) (h2 : b ≤ n') :
    PG c Q n n' ρ o r := by
  cases o with
  | stop => exact h
  | ub => trivial
  | time => exact h
  | _ =>
    obtain ⟨ρ', q1, q2, q3⟩ := h
    exact ⟨ρ', q1, q2, q3.mono h1 h2⟩

/-- Going on from each of the ways to leave. -/
def Fl.elim (o : Fl) (f fb fc : State → Fl) (fr : Int → State → Fl) : Fl :=
  match o with
  | .go σ => f σ
  | .brk σ => fb σ
  | .cont σ => fc σ
  | .ret v σ => fr v σ
  | .stop => .stop
  | .ub => .ub
  | .time => .time

theorem Fl.bind_elim (o : Fl) (f : State → Fl) : o.bind f = o.elim f .brk .cont .ret := by cases o <;> rfl
theorem Fl.out_elim (o : Fl) : o.out = o.elim .go .go .cont .ret := by cases o <;> rfl
theorem Fl.body_elim (o : Fl) (f : State → Fl) : o.body f = o.elim f .brk f .ret := by cases o <;> rfl
theorem Fl.id_elim (o : Fl) : o.elim .go .brk .cont .ret = o := by cases o <;> rfl

theorem PG.step {c : Ctx} {Q Q' : Ex} {a b n n' : Nat} {ρ : St} {o : Fl} {r : Res} {f fb fc : State → Fl} {fr : Int → State → Fl}
    (h : PG c Q a b ρ o r) (h1 : n ≤ a) (h2 : b ≤ n') (g : Res → Res) (gs : g .stop = .stop) (gt : g .time = .time)
    (kg : ∀ σ ρ', Sim c σ ρ' → Q.go ρ' r → PG c Q' n n' ρ' (f σ) (g r))
    (kb : ∀ σ ρ', Sim c σ ρ' → Q.brk ρ' r → PG c Q' n n' ρ' (fb σ) (g r))
    (kc : ∀ σ ρ', Sim c σ ρ' → Q.cont ρ' r → PG c Q' n n' ρ' (fc σ) (g r))
    (kr : ∀ v σ ρ', Sim c σ ρ' → Q.ret v ρ' r → PG c Q' n n' ρ' (fr v σ) (g r)) :
    PG c Q' n n' ρ (o.elim f fb fc fr) (g r) := by
  cases o with
  | go σ => obtain ⟨ρ', q, s, k⟩ := h; exact (kg σ ρ' s q).pre (k.mono h1 h2)
  | brk σ => obtain ⟨ρ', q, s, k⟩ := h; exact (kb σ ρ' s q).pre (k.mono h1 h2)
  | cont σ => obtain ⟨ρ', q, s, k⟩ := h; exact (kc σ ρ' s q).pre (k.mono h1 h2)
  | ret v σ => obtain ⟨ρ', q, s, k⟩ := h; exact (kr v σ ρ' s q).pre (k.mono h1 h2)
  | stop => have h : r = .stop := h; rw [h, gs]; rfl
  | ub => trivial
  | time => have h : r = .time := h; rw [h, gt]; rfl

theorem PG.intro_go {c : Ctx} {Q : Ex} {n n' : Nat} {ρ : St} {σ : State} {r : Res} (hs : Sim c σ ρ) (h : Q.go ρ r) : PG c Q n n' ρ (.go σ) r :=
  ⟨ρ, h, hs, Keep.refl ..⟩
theorem PG.intro_brk {c : Ctx} {Q : Ex} {n n' : Nat} {ρ : St} {σ : State} {r : Res} (hs : Sim c σ ρ) (h : Q.brk ρ r) : PG c Q n n' ρ (.brk σ) r :=
  ⟨ρ, h, hs, Keep.refl ..⟩
theorem PG.intro_cont {c : Ctx} {Q : Ex} {n n' : Nat} {ρ : St} {σ : State} {r : Res} (hs : Sim c σ ρ) (h : Q.cont ρ r) : PG c Q n n' ρ (.cont σ) r :=
  ⟨ρ, h, hs, Keep.refl ..⟩
theorem PG.intro_ret {c : Ctx} {Q : Ex} {n n' : Nat} {ρ : St} {σ : State} {v : Int} {r : Res} (hs : Sim c σ ρ) (h : Q.ret v ρ r) : PG c Q n n' ρ (.ret v σ) r :=
  ⟨ρ, h, hs, Keep.refl ..⟩

/-- After an expression. -/
theorem PG.fl {c : Ctx} {Q : Ex} {F : Int → List V} {G : Int → State → Prop} {a b n n' m : Nat} {ρ : St} {o : Ou Int} {f : Int → State → Fl}
    {C D : Code} {s : List V} (h : Post c F G a b ρ o (exec c.E m C s ρ)) (h1 : n ≤ a) (h2 : b ≤ n')
    (k : ∀ v σ' ρ', G v σ' → Sim c σ' ρ' → PG c Q n n' ρ' (f v σ') (exec c.E m D (F v) ρ')) :
    PG c Q n n' ρ (o.fl f) (exec c.E m (C.app D) s ρ) := by
  rw [exec_app]
  cases o with
  | val v σ =>
    obtain ⟨g, ρ', e, sm, kp⟩ := h
    rw [e]
    exact (k v σ ρ' g sm).pre (kp.mono h1 h2)
  | stop =>
    have h : exec c.E m C s ρ = .stop := h
    rw [h]
    rfl
  | ub => trivial

/-- Where a statement stands: the function, whether it is the last, what `break` and `continue` belong to, the depths. -/
structure Lv where
  K : Kind
  last : Bool
  iB : Bool
  iC : Bool
  d : Nat
  b : Nat
  k : Nat

structure Lv.Ok (V : Lv) : Prop where
  b : V.iB = true → V.b < V.d
  k : V.iC = true → V.k < V.d
  f : V.K.fr = true → 1 ≤ V.d

/-- A return from depth `d`. -/
def retAt (K : Kind) (d : Nat) (v : Int) (ρ : St) : Res :=
  if K.fr then .br (d - 1) (stk true K.rt v []) ρ else .ret (stk true K.rt v []) ρ

def RetIn (K : Kind) (v : Int) : Prop := K.rt.scalar = true → InR K.rt v

def Lv.ex (V : Lv) : Ex where
  go ρ r := r = .ok [] ρ
  brk ρ r := V.iB = true ∧ r = .br (V.d - V.b - 1) [] ρ
  cont ρ r := V.iC = true ∧ r = .br (V.d - V.k - 1) [] ρ
  ret v ρ r := RetIn V.K v ∧ ((V.last = true ∧ r = .ok (stk true V.K.rt v []) ρ) ∨ r = retAt V.K V.d v ρ)

/-- An iteration of a loop that stands at depth `d`. -/
def stepEx (K : Kind) (d : Nat) : Ex where
  go _ _ := False
  brk ρ r := r = .br 1 [] ρ ∨ r = .ok [] ρ
  cont ρ r := r = .br 0 [] ρ
  ret v ρ r := RetIn K v ∧ r = retAt K (d + 2) v ρ

theorem PG.notLast {c : Ctx} {V : Lv} {n n' : Nat} {ρ : St} {o : Fl} {r : Res} (h : PG c { V with last := false }.ex n n' ρ o r) :
    PG c V.ex n n' ρ o r := by
  cases o with
  | ret v σ =>
    obtain ⟨ρ', ⟨q1, q2⟩, s, k⟩ := h
    refine ⟨ρ', ⟨q1, Or.inr ?_⟩, s, k⟩
    rcases q2 with q2 | q2
    · exact absurd q2.1 (by simp)
    · exact q2
  | _ => exact h

/-! ## Blocks of statements -/

theorem exec_done (E : Env) (m : Nat) (s : List V) (ρ : St) : exec E m .done s ρ = .ok s ρ := rfl

/-- One list of segments after another. -/
theorem PG.seq {c : Ctx} {V : Lv} (hV : V.Ok) {n n1 n2 n' m : Nat} {ρ : St} {o : Fl} {f : State → Fl} {A B : List Code} {l : Nat}
    (hA : A ≠ []) (hB : B.length = l + 1) (h : PG c { V with last := false, d := V.d + l }.ex n n1 ρ o (exec c.E m (fold A) [] ρ))
    (h1 : n1 ≤ n') (h2 : n ≤ n2) (k : ∀ σ ρ, Sim c σ ρ → PG c V.ex n2 n' ρ (f σ) (exec c.E m (fold B) [] ρ)) :
    PG c V.ex n n' ρ (o.bind f) (exec c.E m (fold (join A B)) [] ρ) := by
  have hB' : B ≠ [] := by intro q; rw [q] at hB; simp at hB
  have e := run_join c.E m B hB' A.length A (le_refl _) hA ρ
  rw [Fl.bind_elim]
  generalize hr : exec c.E m (fold A) [] ρ = r at h e
  generalize exec c.E m (fold (join A B)) [] ρ = R at e ⊢
  have := PG.step (Q' := V.ex) (n := n) (n' := n') (f := f) (fb := .brk) (fc := .cont) (fr := .ret) h (le_refl _) h1 (fun r' => match r' with
      | .ok s ρ' => if s = [] then exec c.E m (fold B) [] ρ' else R
      | .br j s ρ' => if B.length ≤ j + 1 then .br (j + 1 - B.length) s ρ' else R
      | q => q) rfl rfl ?_ ?_ ?_ ?_
  · rw [e]
    exact this
  · intro σ ρ' hs q
    have q : r = .ok [] ρ' := q
    subst q
    exact (k σ ρ' hs).mono h2 (le_refl _)
  · rintro σ ρ' hs ⟨q1, q⟩
    have hb := hV.b q1
    subst q
    refine PG.intro_brk hs ⟨q1, ?_⟩
    dsimp only
    rw [if_pos (by omega)]
    congr 1
    omega
  · rintro σ ρ' hs ⟨q1, q⟩
    have hb := hV.k q1
    subst q
    refine PG.intro_cont hs ⟨q1, ?_⟩
    dsimp only
    rw [if_pos (by omega)]
    congr 1
    omega
  · rintro v σ ρ' hs ⟨q1, q | q⟩
    · exact absurd q.1 (by simp)
    subst q
    refine PG.intro_ret hs ⟨q1, Or.inr ?_⟩
    unfold retAt
    cases hf : V.K.fr with
    | false => rfl
    | true =>
      have := hV.f hf
      simp only [if_true]
      rw [if_pos (by omega)]
      congr 1
      omega

/-- The code `ts` does what `its` says, also from each of the labels `cs`.  `pos`: the first label opens a block. -/
def OkB (c : Ctx) (m : Nat) (V : Lv) (n n' : Nat) (ts : List Tok) (its : List It) (cs : List (Option Int × Bool)) (pos : Bool) : Prop :=
  ∃ X : List Code, X.length = leads cs + 1 ∧ Segs ts X ∧
    (∀ σ ρ, Sim c σ ρ → PG c V.ex n n' ρ (run its σ) (exec c.E m (fold X) [] ρ)) ∧
    List.Forall₂ (fun p q => p.1 = q.1 ∧ (pos = true → 1 ≤ q.2) ∧ q.2 ≤ leads cs ∧
      ∀ σ ρ, Sim c σ ρ → PG c V.ex n n' ρ (run p.2 σ) (exec c.E m (fold (X.drop q.2)) [] ρ)) (sufs its) (segNo 0 cs)

theorem OkB.one {c : Ctx} {m : Nat} {V : Lv} {n n' : Nat} {ts : List Tok} {f : State → Fl} {C : Code} {pos : Bool} (fC : Frag ts C)
    (h : ∀ σ ρ, Sim c σ ρ → PG c V.ex n n' ρ (f σ) (exec c.E m C [] ρ)) : OkB c m V n n' ts [.act f] [] pos := by
  refine ⟨[C], rfl, Segs.frag.2 fC, fun σ ρ hs => ?_, List.Forall₂.nil⟩
  rw [run_one, fold_one]
  exact h σ ρ hs

theorem segNo_add (k : Nat) (cs : List (Option Int × Bool)) : segNo k cs = (segNo 0 cs).map fun p => (p.1, p.2 + k) := by
  have : ∀ k j, segNo (j + k) cs = (segNo j cs).map fun p => (p.1, p.2 + k) := by
    intro k
    induction cs with
    | nil => intro j; rfl
    | cons p cs ih =>
      intro j
      obtain ⟨v, l⟩ := p
      cases l with
      | true =>
        simp only [segNo, List.map_cons]
        rw [show j + k + 1 = j + 1 + k by omega, ih]
      | false =>
        simp only [segNo, List.map_cons]
        rw [ih]
  simpa using this k 0

theorem leads_append (a b : List (Option Int × Bool)) : leads (a ++ b) = leads a + leads b := by simp [leads]

theorem segNo_append (k : Nat) (a b : List (Option Int × Bool)) : segNo k (a ++ b) = segNo k a ++ segNo (k + leads a) b := by
  induction a generalizing k with
  | nil => simp [segNo, leads]
  | cons p a ih =>
    obtain ⟨v, l⟩ := p
    cases l with
    | true =>
      simp only [List.cons_append, segNo]
      rw [ih]
      simp [leads]
      congr 1
      omega
    | false =>
      simp only [List.cons_append, segNo]
      rw [ih]
      simp [leads]

theorem sufs_append (a b : List It) : sufs (a ++ b) = ((sufs a).map fun p => (p.1, p.2 ++ b)) ++ sufs b := by
  induction a with
  | nil => rfl
  | cons i a ih =>
    cases i with
    | lab v => simp [sufs, ih]
    | act f => simp [sufs, ih]

theorem OkB.append {c : Ctx} {m : Nat} {V : Lv} (hV : V.Ok) {n n1 n' : Nat} {ts us : List Tok} {is js : List It} {cs ds : List (Option Int × Bool)}
    (h : OkB c m { V with last := false, d := V.d + leads ds } n n1 ts is cs true) (h' : OkB c m V n1 n' us js ds true) (l1 : n ≤ n1) (l2 : n1 ≤ n') :
    OkB c m V n n' (ts ++ us) (is ++ js) (cs ++ ds) true := by
  obtain ⟨A, lA, sA, rA, fA⟩ := h
  obtain ⟨B, lB, sB, rB, fB⟩ := h'
  have hA : A ≠ [] := by intro q; rw [q] at lA; simp at lA
  have hB : B ≠ [] := by intro q; rw [q] at lB; simp at lB
  refine ⟨join A B, ?_, sA.append sB, fun σ ρ hs => ?_, ?_⟩
  · have := join_length hA hB
    rw [leads_append]
    omega
  · rw [run_append]
    exact PG.seq hV hA lB (rA σ ρ hs) l2 l1 rB
  · rw [sufs_append, segNo_append, segNo_add (0 + leads cs)]
    refine List.rel_append ?_ ?_
    · rw [List.forall₂_map_left_iff]
      refine fA.imp fun p q ⟨e, h1, h2, h3⟩ => ⟨e, h1, by rw [leads_append]; omega, fun σ ρ hs => ?_⟩
      rw [run_append, join_drop _ (by omega)]
      refine PG.seq hV ?_ lB (h3 σ ρ hs) l2 l1 rB
      intro q0
      have := congrArg List.length q0
      simp at this
      omega
    · rw [List.forall₂_map_right_iff]
      refine fB.imp fun p q ⟨e, h1, h2, h3⟩ => ⟨e, fun _ => by have := h1 rfl; show 1 ≤ q.2 + _; omega, by rw [leads_append]; show q.2 + _ ≤ _; omega, fun σ ρ hs => ?_⟩
      have h1 := h1 rfl
      show PG c V.ex n n' ρ (run p.2 σ) (exec c.E m (fold ((join A B).drop (q.2 + (0 + leads cs)))) [] ρ)
      rw [show q.2 + (0 + leads cs) = A.length - 1 + q.2 by omega, join_drop' hA _ h1]
      exact (h3 σ ρ hs).mono l1 (le_refl _)

theorem OkB.lab {c : Ctx} {m : Nat} {V : Lv} {n n' : Nat} {ts : List Tok} {is : List It} {cs : List (Option Int × Bool)} {v : Option Int}
    (h : OkB c m V n n' ts is cs false) : OkB c m V n n' ts (.lab v :: is) ((v, false) :: cs) false := by
  obtain ⟨A, lA, sA, rA, fA⟩ := h
  refine ⟨A, by simpa [leads] using lA, sA, rA, ?_⟩
  simp only [sufs, segNo]
  refine List.Forall₂.cons ⟨rfl, (fun q => nomatch q), Nat.zero_le _, rA⟩ ?_
  refine fA.imp fun p q ⟨e, h1, h2, h3⟩ => ⟨e, h1, by simpa [leads] using h2, h3⟩

theorem OkB.lead {c : Ctx} {m : Nat} {V : Lv} {n n' : Nat} {ts : List Tok} {is : List It} {cs : List (Option Int × Bool)} {v : Option Int} {pos : Bool}
    (h : OkB c m V n n' ts is cs false) : OkB c m V n n' (.end_ :: ts) (.lab v :: is) ((v, true) :: cs) pos := by
  obtain ⟨A, lA, sA, rA, fA⟩ := h
  have hA : A ≠ [] := by intro q; rw [q] at lA; simp at lA
  have hj : join [.done, .done] A = .done :: A := by
    cases A with
    | nil => exact absurd rfl hA
    | cons x A => rfl
  refine ⟨.done :: A, by simp [leads] at lA ⊢; omega, by have := Segs.end_.append sA; rwa [hj] at this, fun σ ρ hs => ?_, ?_⟩
  · rw [run_fold, exec_done]
    simp only [hA, if_false, if_true]
    exact rA σ ρ hs
  · simp only [sufs, segNo]
    refine List.Forall₂.cons ⟨rfl, fun _ => le_refl _, by simp [leads], rA⟩ ?_
    rw [segNo_add (0 + 1), List.forall₂_map_right_iff]
    refine fA.imp fun p q ⟨e, h1, h2, h3⟩ => ⟨e, fun _ => by show 1 ≤ q.2 + (0 + 1); omega, by simp [leads] at h2 ⊢; omega, h3⟩

theorem OkB.pos {c : Ctx} {m : Nat} {V : Lv} {n n' : Nat} {ts : List Tok} {is : List It} {cs : List (Option Int × Bool)}
    (h : OkB c m V n n' ts is cs true) : OkB c m V n n' ts is cs false := by
  obtain ⟨A, lA, sA, rA, fA⟩ := h
  exact ⟨A, lA, sA, rA, fA.imp fun p q ⟨e, _, h2, h3⟩ => ⟨e, fun q => (nomatch q), h2, h3⟩⟩

theorem OkB.mono {c : Ctx} {m : Nat} {V : Lv} {a b n n' : Nat} {ts : List Tok} {is : List It} {cs : List (Option Int × Bool)} {pos : Bool}
    (h : OkB c m V a b ts is cs pos) (h1 : n ≤ a) (h2 : b ≤ n') : OkB c m V n n' ts is cs pos := by
  obtain ⟨A, lA, sA, rA, fA⟩ := h
  exact ⟨A, lA, sA, fun σ ρ hs => (rA σ ρ hs).mono h1 h2, fA.imp fun p q ⟨e, q1, q2, q3⟩ => ⟨e, q1, q2, fun σ ρ hs => (q3 σ ρ hs).mono h1 h2⟩⟩

end Verif.WasmGen

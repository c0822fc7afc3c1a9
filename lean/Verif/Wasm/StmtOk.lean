import Verif.Wasm.StmtCorrect
/-!
# Statements compiled to WebAssembly (C73): each kind of statement
-/
namespace Verif.WasmGen
open Verif.Util Verif.CExpr Verif.Wasm
open Verif.Fold hiding Op Res

/-! ## Conditions and expressions in front -/

theorem PG.cond {c : Ctx} {Q : Ex} {tf : Bool} {a b n n' m : Nat} {ρ : St} {σ : State} {x : X} {f : Int → State → Fl} {C D : Code} {s : List V}
    (h : Post c (fun v => stk true .int v s) (ValOk true .int) a b ρ ((ev c true x σ).bind fun v σ => .val (tv tf v) σ) (exec c.E m C s ρ))
    (h1 : n ≤ a) (h2 : b ≤ n')
    (k : ∀ v σ' ρ', Sim c σ' ρ' → PG c Q n n' ρ' (f v σ') (exec c.E m D (⟨.i32, if decide (v ≠ 0) = tf then 1 else 0⟩ :: s) ρ')) :
    PG c Q n n' ρ ((ev c true x σ).fl f) (exec c.E m (C.app D) s ρ) := by
  rw [exec_app]
  cases hx : ev c true x σ with
  | val v σ' =>
    rw [hx] at h
    obtain ⟨-, ρ', e, sm, kp⟩ := h
    rw [e]
    dsimp only
    rw [stk_true int_scalar, tv, rep_bool]
    exact (k v σ' ρ' sm).pre (kp.mono h1 h2)
  | stop =>
    rw [hx] at h
    have h : exec c.E m C s ρ = .stop := h
    rw [h]
    rfl
  | ub => trivial

theorem exec_brIf (E : Env) (m j : Nat) (D : Code) (p : Prop) [Decidable p] (s : List V) (ρ : St) :
    exec E m (.op (.brIf j) D) (⟨.i32, if p then 1 else 0⟩ :: s) ρ = if p then .br j s ρ else exec E m D s ρ := by
  by_cases h : p <;> simp [exec, step, h]

theorem exec_br (E : Env) (m j : Nat) (D : Code) (s : List V) (ρ : St) : exec E m (.op (.br j) D) s ρ = .br j s ρ := rfl

theorem frag_br (j : Nat) : Frag [.op (.br j)] (.op (.br j) .done) := Frag.op rfl
theorem frag_brIf (j : Nat) : Frag [.op (.brIf j)] (.op (.brIf j) .done) := Frag.op rfl

/-! ## Return -/

theorem ok_ret {c : Ctx} (hc : FnOk c) (m : Nat) (V : Lv) {e : Option X} {n : Nat} (hw : wtS c V.K V.last V.iB V.iC iS (.ret e) = true)
    (hn : c.Γ.n0 ≤ n) :
    OkB c m V n (travS c.Γ (.ret e) n).2 (genS c.Γ V.K V.last sub V.d V.b V.k (travS c.Γ (.ret e) n).1).1 (acts c m (.ret e)) [] pos := by
  have key : ∀ (v : Int) (σ : State) (ρ : St) (n' : Nat) (D : Code), Sim c σ ρ → RetIn V.K v →
      (D = if V.last then .done else if V.K.fr then .op (.br (V.d - 1)) .done else .op .ret .done) →
      PG c V.ex n n' ρ (.ret v σ) (exec c.E m D (stk true V.K.rt v []) ρ) := by
    intro v σ ρ n' D hs hr hD
    refine PG.intro_ret hs ⟨hr, ?_⟩
    subst hD
    cases V.last with
    | true => exact Or.inl ⟨rfl, rfl⟩
    | false =>
      right
      unfold retAt
      cases V.K.fr <;> rfl
  have fD : Frag (if V.last = true then [] else if V.K.fr = true then [.op (.br (V.d - 1))] else [.op .ret])
      (if V.last then .done else if V.K.fr then .op (.br (V.d - 1)) .done else .op .ret .done) := by
    cases V.last with
    | true => exact Frag.nil
    | false =>
      cases V.K.fr with
      | true => exact frag_br _
      | false => exact Frag.op rfl
  cases e with
  | none =>
    simp only [wtS, decide_eq_true_eq] at hw
    simp only [travS, travO, genS, acts, List.nil_append]
    refine OkB.one fD fun σ ρ hs => ?_
    have := key 0 σ ρ n _ hs (fun q => by rw [hw] at q; exact absurd q (by decide)) rfl
    rw [hw] at this
    exact this
  | some e =>
    simp only [wtS, Bool.and_eq_true] at hw
    obtain ⟨C, fC, hC⟩ := (okX hc e).1 true n hw.1 hn
    simp only [travS, travO, genS, acts]
    refine OkB.one (fC.append fD) fun σ ρ hs => ?_
    refine PG.fl (hC m [] σ ρ hs) (le_refl _) (le_refl _) fun v σ1 ρ1 g1 s1 => ?_
    have : stk true e.ty v [] = stk true V.K.rt v [] ∧ RetIn V.K v := by
      by_cases hv : V.K.rt = .void
      · rw [if_pos hv] at hw
        rw [hv, of_decide_eq_true hw.2]
        exact ⟨rfl, fun q => by rw [hv] at q; exact absurd q (by decide)⟩
      · rw [if_neg hv] at hw
        simp only [Bool.and_eq_true] at hw
        rw [stk_true hw.2.1.1, stk_true hw.2.1.2, rep_like hw.2.2]
        exact ⟨rfl, fun _ => inR_like hw.2.2 (g1 rfl hw.2.1.1)⟩
    rw [this.1]
    exact key v σ1 ρ1 _ _ s1 this.2 rfl

/-! ## Leaving a block -/

theorem fall_nil (ρ : St) (k : List V → St → Res) : fall none [] [] ρ k = k [] ρ := rfl

theorem retAt_leave {K : Kind} {d : Nat} (hf : K.fr = true → 1 ≤ d) (t : Option VT) (s : List V) (k : List V → St → Res) (v : Int) (ρ : St) :
    leave t s k (retAt K (d + 1) v ρ) = retAt K d v ρ := by
  unfold retAt
  cases h : K.fr with
  | false => rfl
  | true =>
    obtain ⟨e, rfl⟩ : ∃ e, d = e + 1 := ⟨d - 1, by have := hf h; omega⟩
    rfl

theorem br_leave {d b : Nat} (h : b < d) (t : Option VT) (s s' : List V) (k : List V → St → Res) (ρ : St) :
    leave t s k (.br (d + 1 - b - 1) s' ρ) = .br (d - b - 1) s' ρ := by
  rw [show d + 1 - b - 1 = (d - b - 1) + 1 by omega]
  rfl

/-- A block without result around a statement. -/
theorem PG.leaveN {c : Ctx} {V : Lv} (hV : V.Ok) {n n' : Nat} {ρ : St} {o : Fl} {r : Res}
    (hl : V.last = true → V.K.rt = .void) (h : PG c { V with d := V.d + 1 }.ex n n' ρ o r) :
    PG c V.ex n n' ρ o (leave none [] Res.ok r) := by
  have := PG.step (Q' := V.ex) (n := n) (n' := n') (f := .go) (fb := .brk) (fc := .cont) (fr := .ret) h (le_refl _) (le_refl _)
    (Verif.Wasm.leave none [] Res.ok) rfl rfl ?_ ?_ ?_ ?_
  · rwa [Fl.id_elim] at this
  · intro σ ρ' hs q
    have q : r = .ok [] ρ' := q
    subst q
    exact PG.intro_go hs rfl
  · rintro σ ρ' hs ⟨q1, rfl⟩
    exact PG.intro_brk hs ⟨q1, br_leave (hV.b q1) ..⟩
  · rintro σ ρ' hs ⟨q1, rfl⟩
    exact PG.intro_cont hs ⟨q1, br_leave (hV.k q1) ..⟩
  · rintro v σ ρ' hs ⟨q1, ⟨q2, rfl⟩ | rfl⟩
    · refine PG.intro_ret hs ⟨q1, Or.inl ⟨q2, ?_⟩⟩
      have := hl q2
      show Verif.Wasm.leave none [] Res.ok (.ok (stk true V.K.rt v []) ρ') = _
      rw [this]
      rfl
    · exact PG.intro_ret hs ⟨q1, Or.inr (retAt_leave hV.f ..)⟩

/-- A block with a result around a last statement. -/
theorem PG.leaveT {c : Ctx} {V : Lv} (hV : V.Ok) {n n' : Nat} {ρ : St} {o : Fl} {r : Res} (hv : V.K.rt ≠ .void)
    (ho : ∀ σ, o ≠ .go σ) (h : PG c { V with d := V.d + 1 }.ex n n' ρ o r) :
    PG c V.ex n n' ρ o (Verif.Wasm.leave (some V.K.rt.w) [] Res.ok r) := by
  cases o with
  | go σ => exact absurd rfl (ho σ)
  | stop => have h : r = .stop := h; rw [h]; rfl
  | time => have h : r = .time := h; rw [h]; rfl
  | ub => trivial
  | brk σ =>
    obtain ⟨ρ', ⟨q1, rfl⟩, s, k⟩ := h
    exact ⟨ρ', ⟨q1, br_leave (hV.b q1) ..⟩, s, k⟩
  | cont σ =>
    obtain ⟨ρ', ⟨q1, rfl⟩, s, k⟩ := h
    exact ⟨ρ', ⟨q1, br_leave (hV.k q1) ..⟩, s, k⟩
  | ret v σ =>
    obtain ⟨ρ', ⟨q1, q2⟩, s, k⟩ := h
    refine ⟨ρ', ⟨q1, ?_⟩, s, k⟩
    rcases q2 with ⟨q2, rfl⟩ | rfl
    · refine Or.inl ⟨q2, ?_⟩
      show Verif.Wasm.leave (some V.K.rt.w) [] Res.ok (.ok (stk true V.K.rt v []) ρ') = .ok (stk true V.K.rt v []) ρ'
      have : stk true V.K.rt v [] = [rep V.K.rt v] := by simp [stk, hv]
      rw [this]
      simp [Verif.Wasm.leave, fall, rep]
    · exact Or.inr (retAt_leave hV.f ..)

theorem exec_ite (E : Env) (m : Nat) (t : Option VT) (A B : Code) (p : Prop) [Decidable p] (ρ : St) :
    exec E m (.ite t A B .done) [⟨.i32, if p then 1 else 0⟩] ρ = leave t [] Res.ok (if p then exec E m A [] ρ else exec E m B [] ρ) := by
  have : exec E m .done = Res.ok := by funext s ρ; rfl
  by_cases h : p <;> simp [exec, h, this]

theorem exec_block (E : Env) (m : Nat) (t : Option VT) (A : Code) (ρ : St) :
    exec E m (.block t A .done) [] ρ = leave t [] Res.ok (exec E m A [] ρ) := by
  have : exec E m .done = Res.ok := by funext s ρ; rfl
  simp [exec, this]

/-! ## Loops -/

/-- What `loopF` gives against what `iter` gives. -/
theorem loop_ok {c : Ctx} {K : Kind} {d n n' m : Nat} {f : State → Fl} {B : Code}
    (h : ∀ σ ρ, Sim c σ ρ → PG c (stepEx K d) n n' ρ (f σ) (exec c.E m B [] ρ)) : ∀ j σ ρ, Sim c σ ρ →
      PG c (stepEx K d) n n' ρ (loopF f j σ) (iter (exec c.E m B []) j ρ) ∧ ∀ σ', loopF f j σ ≠ .cont σ' := by
  intro j
  induction j with
  | zero => exact fun σ ρ _ => ⟨rfl, fun _ => (fun q => nomatch q)⟩
  | succ j ih =>
    intro σ ρ hs
    have h := h σ ρ hs
    simp only [loopF, iter]
    cases hf : f σ with
    | go σ' => rw [hf] at h; obtain ⟨ρ', q, _⟩ := h; exact absurd q id
    | brk σ' =>
      rw [hf] at h
      obtain ⟨ρ', q, s, k⟩ := h
      refine ⟨⟨ρ', ?_, s, k⟩, fun _ => (fun q => nomatch q)⟩
      rcases q with q | q <;> rw [q]
      · exact Or.inl rfl
      · exact Or.inr rfl
    | cont σ' =>
      rw [hf] at h
      obtain ⟨ρ', q, s, k⟩ := h
      have q : exec c.E m B [] ρ = .br 0 [] ρ' := q
      rw [q]
      exact ⟨(ih σ' ρ' s).1.pre k, (ih σ' ρ' s).2⟩
    | ret v σ' =>
      rw [hf] at h
      obtain ⟨ρ', ⟨q1, q⟩, s, k⟩ := h
      refine ⟨⟨ρ', ⟨q1, ?_⟩, s, k⟩, fun _ => (fun q => nomatch q)⟩
      rw [q]
      unfold retAt
      cases K.fr <;> rfl
    | stop =>
      rw [hf] at h
      have h : exec c.E m B [] ρ = .stop := h
      rw [h]
      exact ⟨rfl, fun _ => (fun q => nomatch q)⟩
    | time =>
      rw [hf] at h
      have h : exec c.E m B [] ρ = .time := h
      rw [h]
      exact ⟨rfl, fun _ => (fun q => nomatch q)⟩
    | ub => exact ⟨trivial, fun _ => (fun q => nomatch q)⟩

/-- A loop in its block. -/
theorem PG.loop {c : Ctx} {V : Lv} (hV : V.Ok) {n n' m : Nat} {f : State → Fl} {B : Code}
    (h : ∀ σ ρ, Sim c σ ρ → PG c (stepEx V.K V.d) n n' ρ (f σ) (exec c.E m B [] ρ)) (σ : State) (ρ : St) (hs : Sim c σ ρ) :
    PG c V.ex n n' ρ (loopF f m σ).out (exec c.E m (.block none (.loop B .done) .done) [] ρ) := by
  obtain ⟨h1, h2⟩ := loop_ok h m σ ρ hs
  rw [exec_block, show exec c.E m (.loop B .done) [] ρ = leaveL [] Res.ok (iter (exec c.E m B []) m ρ) by
    have : exec c.E m .done = Res.ok := by funext s ρ; rfl
    simp [exec, this]]
  generalize iter (exec c.E m B []) m ρ = r at h1
  cases ho : loopF f m σ with
  | go σ' => rw [ho] at h1; obtain ⟨ρ', q, _⟩ := h1; exact absurd q id
  | brk σ' =>
    rw [ho] at h1
    obtain ⟨ρ', q, s, k⟩ := h1
    refine ⟨ρ', ?_, s, k⟩
    rcases q with rfl | rfl <;> rfl
  | cont σ' => exact absurd ho (h2 σ')
  | ret v σ' =>
    rw [ho] at h1
    obtain ⟨ρ', ⟨q1, rfl⟩, s, k⟩ := h1
    refine ⟨ρ', ⟨q1, Or.inr ?_⟩, s, k⟩
    unfold retAt
    cases hf : V.K.fr with
    | false => rfl
    | true =>
      obtain ⟨e, he⟩ : ∃ e, V.d = e + 1 := ⟨V.d - 1, by have := hV.f hf; omega⟩
      rw [he]
      rfl
  | stop => rw [ho] at h1; have h1 : r = .stop := h1; subst h1; rfl
  | time => rw [ho] at h1; have h1 : r = .time := h1; subst h1; rfl
  | ub => trivial

/-- The body of `while`, and the branch back. -/
theorem PG.whileBody {c : Ctx} {K : Kind} {d n n' m : Nat} {ρ : St} {o : Fl} {C : Code}
    (h : PG c (Lv.ex ⟨K, false, true, true, d + 2, d, d + 1⟩) n n' ρ o (exec c.E m C [] ρ)) :
    PG c (stepEx K d) n n' ρ (o.body .cont) (exec c.E m (C.app (.op (.br 0) .done)) [] ρ) := by
  rw [exec_app, Fl.body_elim]
  generalize exec c.E m C [] ρ = r at h
  refine PG.step h (le_refl _) (le_refl _) (fun r => r.bind (exec c.E m (.op (.br 0) .done))) rfl rfl ?_ ?_ ?_ ?_
  · intro σ ρ' hs q
    have q : r = .ok [] ρ' := q
    subst q
    exact PG.intro_cont hs rfl
  · rintro σ ρ' hs ⟨q1, rfl⟩
    refine PG.intro_brk hs (Or.inl ?_)
    simp only [Res.bind]
    congr 1
    omega
  · rintro σ ρ' hs ⟨q1, rfl⟩
    refine PG.intro_cont hs ?_
    show Res.br _ _ _ = _
    congr 1
    simp
  · rintro v σ ρ' hs ⟨q1, ⟨q2, _⟩ | rfl⟩
    · exact absurd q2 (by simp)
    · refine PG.intro_ret hs ⟨q1, ?_⟩
      unfold retAt
      cases K.fr <;> rfl

/-- The inner block of `do` and `for`. -/
theorem PG.inner {c : Ctx} {K : Kind} {d n n1 n2 n' m : Nat} {ρ : St} {o : Fl} {f : State → Fl} {C D : Code}
    (h : PG c (Lv.ex ⟨K, false, true, true, d + 3, d, d + 2⟩) n n1 ρ o (exec c.E m C [] ρ)) (h1 : n1 ≤ n') (h2 : n ≤ n2)
    (k : ∀ σ ρ, Sim c σ ρ → PG c (stepEx K d) n2 n' ρ (f σ) (exec c.E m D [] ρ)) :
    PG c (stepEx K d) n n' ρ (o.body f) (exec c.E m (.block none C D) [] ρ) := by
  rw [show exec c.E m (.block none C D) [] ρ = leave none [] (exec c.E m D) (exec c.E m C [] ρ) by simp [exec], Fl.body_elim]
  generalize exec c.E m C [] ρ = r at h
  refine PG.step h (le_refl _) h1 (leave none [] (exec c.E m D)) rfl rfl ?_ ?_ ?_ ?_
  · intro σ ρ' hs q
    have q : r = .ok [] ρ' := q
    subst q
    exact (k σ ρ' hs).mono h2 (le_refl _)
  · rintro σ ρ' hs ⟨q1, rfl⟩
    refine PG.intro_brk hs (Or.inl ?_)
    rw [show d + 3 - d - 1 = 1 + 1 by omega]
    rfl
  · rintro σ ρ' hs ⟨q1, rfl⟩
    rw [show d + 3 - (d + 2) - 1 = 0 by omega]
    exact (k σ ρ' hs).mono h2 (le_refl _)
  · rintro v σ ρ' hs ⟨q1, ⟨q2, _⟩ | rfl⟩
    · exact absurd q2 (by simp)
    · exact PG.intro_ret hs ⟨q1, retAt_leave (d := d + 2) (by omega) ..⟩

/-! ## Branches -/

mutual
theorem cases_nil (c : Ctx) (K : Kind) : ∀ (s : S) (last iB iC sub : Bool), wtS c K last iB iC false s = true → cases sub s = []
  | .case v s, _, _, _, _, h => by simp [wtS] at h
  | .block l, last, iB, iC, _, h => casesL_nil c K l last iB iC h
  | .skip, _, _, _, _, _ => rfl
  | .expr _, _, _, _, _, _ => rfl
  | .ret _, _, _, _, _, _ => rfl
  | .when _ _, _, _, _, _, _ => rfl
  | .ite _ _ _, _, _, _, _, _ => rfl
  | .switch _ _, _, _, _, _, _ => rfl
  | .while_ _ _, _, _, _, _, _ => rfl
  | .doWhile _ _, _, _, _, _, _ => rfl
  | .for_ _ _ _ _, _, _, _, _, _ => rfl
  | .brk, _, _, _, _, _ => rfl
  | .cont, _, _, _, _, _ => rfl
theorem casesL_nil (c : Ctx) (K : Kind) : ∀ (l : L) (last iB iC : Bool), wtL' c K last iB iC false l = true → casesL l = []
  | .nil, _, _, _, _ => rfl
  | .cons s .nil, last, iB, iC, h => by simp only [casesL, List.append_nil]; exact cases_nil c K s last iB iC false h
  | .cons s (.cons s' l), last, iB, iC, h => by
    simp only [wtL', Bool.and_eq_true] at h
    rw [casesL, cases_nil c K s false iB iC false h.1, casesL_nil c K (.cons s' l) last iB iC h.2]
    rfl
end

/-- What is proved of a statement: `V.d` is the depth behind it. -/
def PS (c : Ctx) (m : Nat) (s : S) : Prop :=
  ∀ (V : Lv) (iS sub : Bool) (n : Nat), V.Ok → wtS c V.K V.last V.iB V.iC iS s = true → c.Γ.n0 ≤ n →
    OkB c m V n (travS c.Γ s n).2 (genS c.Γ V.K V.last sub (V.d + leads (cases sub s)) V.b V.k (travS c.Γ s n).1).1 (acts c m s) (cases sub s) (!sub) ∧
    (genS c.Γ V.K V.last sub (V.d + leads (cases sub s)) V.b V.k (travS c.Γ s n).1).2 = V.d

/-- Without labels of a switch around it. -/
theorem PS.code {c : Ctx} {m : Nat} {s : S} (h : PS c m s) (V : Lv) {n : Nat} (hV : V.Ok) (hw : wtS c V.K V.last V.iB V.iC false s = true)
    (hn : c.Γ.n0 ≤ n) : ∃ C, Frag (genS c.Γ V.K V.last false V.d V.b V.k (travS c.Γ s n).1).1 C ∧
      (∀ σ ρ, Sim c σ ρ → PG c V.ex n (travS c.Γ s n).2 ρ (run (acts c m s) σ) (exec c.E m C [] ρ)) ∧
      (genS c.Γ V.K V.last false V.d V.b V.k (travS c.Γ s n).1).2 = V.d := by
  have := h V false false n hV hw hn
  rw [cases_nil c V.K s V.last V.iB V.iC false hw] at this
  obtain ⟨⟨X, lX, sX, rX, -⟩, hd⟩ := this
  match X, lX with
  | [C], _ =>
    simp only [fold_one] at rX
    exact ⟨C, Segs.frag.1 sX, rX, hd⟩

/-- A statement as the last or not, if that does not matter. -/
theorem PS.codeN {c : Ctx} {m : Nat} {s : S} (h : PS c m s) (V : Lv) {n : Nat} (hV : V.Ok) (hw : wtS c V.K V.last V.iB V.iC false s = true)
    (hn : c.Γ.n0 ≤ n) (hl : V.last = false ∨ noLR s = true) : ∃ C, Frag (genS c.Γ V.K V.last false V.d V.b V.k (travS c.Γ s n).1).1 C ∧
      (∀ σ ρ, Sim c σ ρ → PG c { V with last := false }.ex n (travS c.Γ s n).2 ρ (run (acts c m s) σ) (exec c.E m C [] ρ)) ∧
      (genS c.Γ V.K V.last false V.d V.b V.k (travS c.Γ s n).1).2 = V.d := by
  have hw' : wtS c V.K false V.iB V.iC false s = true := by
    cases hv : V.last with
    | false => rwa [hv] at hw
    | true => exact wtS_last c V.K s _ _ _ _ hw
  have h := h.code { V with last := false } ⟨hV.b, hV.k, hV.f⟩ hw' hn
  rcases hl with hl | hl
  · rw [hl]; exact h
  · rw [genS_noLR _ _ _ V.last _ _ _ _ (by rw [noLR_trav]; exact hl)]
    exact h

theorem Lv.Ok.succ {V : Lv} (h : V.Ok) : Lv.Ok { V with d := V.d + 1 } :=
  ⟨fun q => Nat.lt_succ_of_lt (h.b q), fun q => Nat.lt_succ_of_lt (h.k q), fun q => Nat.le_succ_of_le (h.f q)⟩

/-- The branches of an `if` whose type is `t`. -/
theorem PG.ite {c : Ctx} {V : Lv} (hV : V.Ok) {n n' : Nat} {ρ : St} {o : Fl} {r : Res} {b : Bool}
    (hb : b = true → V.last = true ∧ V.K.rt ≠ .void ∧ ∀ σ, o ≠ .go σ)
    (h : if b then PG c { V with d := V.d + 1 }.ex n n' ρ o r
      else (PG c { V with d := V.d + 1, last := false }.ex n n' ρ o r ∨ (V.K.rt = .void ∧ PG c { V with d := V.d + 1 }.ex n n' ρ o r))) :
    PG c V.ex n n' ρ o (Verif.Wasm.leave (if b then some V.K.rt.w else none) [] Res.ok r) := by
  cases b with
  | true => exact PG.leaveT hV (hb rfl).2.1 (hb rfl).2.2 h
  | false =>
    rcases h with h | ⟨q, h⟩
    · exact PG.notLast (PG.leaveN (V := { V with last := false }) ⟨hV.b, hV.k, hV.f⟩ (fun q => nomatch q) h)
    · exact PG.leaveN hV (fun _ => q) h

theorem funcend_trav' (Γ : Fn) (s : S) (n : Nat) : funcend (travS Γ s n).1 = funcend s := funcend_trav Γ s n

theorem ok_ite {c : Ctx} (hc : FnOk c) {m : Nat} {x : X} {a b : S} (ha : PS c m a) (hb : PS c m b) : PS c m (.ite x a b) := by
  intro V iS sub n hV hw hn
  simp only [wtS, Bool.and_eq_true] at hw
  obtain ⟨⟨⟨hx, wa⟩, wb⟩, hl⟩ := hw
  have m1 := trav_mono c.Γ x true n
  have m2 := travS_mono c.Γ a (trav c.Γ true x n).2
  have m3 := travS_mono c.Γ b (travS c.Γ a (trav c.Γ true x n).2).2
  simp only [travS, cases, leads, List.filter_nil, List.length_nil, Nat.add_zero, genS, constOf_trav, acts]
  cases hk : constOf x with
  | some v =>
    dsimp only
    have e1 : ∀ σ, (ev c true x σ).fl (fun v σ => if v ≠ 0 then run (acts c m a) σ else run (acts c m b) σ) =
        if v ≠ 0 then run (acts c m a) σ else run (acts c m b) σ := by
      intro σ
      rw [const_ev hk hx]
      rfl
    have e2 : (fun σ => (ev c true x σ).fl (fun v σ => if v ≠ 0 then run (acts c m a) σ else run (acts c m b) σ)) =
        fun σ => if v ≠ 0 then run (acts c m a) σ else run (acts c m b) σ := funext e1
    rw [e2]
    by_cases hv : v ≠ 0
    · simp only [if_pos hv]
      obtain ⟨C, fC, rC, dC⟩ := ha.code V (n := (trav c.Γ true x n).2) hV wa (by omega)
      exact ⟨(OkB.one fC rC).mono m1 m3, dC⟩
    · simp only [if_neg hv]
      obtain ⟨C, fC, rC, dC⟩ := hb.code V (n := (travS c.Γ a (trav c.Γ true x n).2).2) hV wb (by omega)
      exact ⟨(OkB.one fC rC).mono (by omega) (le_refl _), dC⟩
  | none =>
    dsimp only
    simp only [wtC, Bool.and_eq_true] at hx
    obtain ⟨C, fC, hC⟩ := (okX hc x).2 true true n hx.1.1 hx.1.2 hn
    have hV1 := hV.succ
    -- how the branches are compiled
    have key : ∃ t : Bool, (t = (V.last && (funcend a && funcend b) && decide (V.K.rt ≠ .void))) ∧
        ∃ A B, Frag (genS c.Γ V.K V.last false (V.d + 1) V.b V.k (travS c.Γ a (trav c.Γ true x n).2).1).1 A ∧
        Frag (genS c.Γ V.K V.last false (V.d + 1) V.b V.k (travS c.Γ b (travS c.Γ a (trav c.Γ true x n).2).2).1).1 B ∧
        (genS c.Γ V.K V.last false (V.d + 1) V.b V.k (travS c.Γ a (trav c.Γ true x n).2).1).2 = V.d + 1 ∧
        (genS c.Γ V.K V.last false (V.d + 1) V.b V.k (travS c.Γ b (travS c.Γ a (trav c.Γ true x n).2).2).1).2 = V.d + 1 ∧
        (∀ σ ρ, Sim c σ ρ → PG c V.ex (trav c.Γ true x n).2 (travS c.Γ a (trav c.Γ true x n).2).2 ρ (run (acts c m a) σ)
          (Verif.Wasm.leave (if t then some V.K.rt.w else none) [] Res.ok (exec c.E m A [] ρ))) ∧
        (∀ σ ρ, Sim c σ ρ → PG c V.ex (travS c.Γ a (trav c.Γ true x n).2).2 (travS c.Γ b (travS c.Γ a (trav c.Γ true x n).2).2).2 ρ (run (acts c m b) σ)
          (Verif.Wasm.leave (if t then some V.K.rt.w else none) [] Res.ok (exec c.E m B [] ρ))) := by
      refine ⟨_, rfl, ?_⟩
      by_cases hN : V.last = false ∨ (noLR a = true ∧ noLR b = true)
      · obtain ⟨A, fA, rA, dA⟩ := ha.codeN { V with d := V.d + 1 } (n := (trav c.Γ true x n).2) hV1 wa (by omega) (hN.imp id And.left)
        obtain ⟨B, fB, rB, dB⟩ := hb.codeN { V with d := V.d + 1 } (n := (travS c.Γ a (trav c.Γ true x n).2).2) hV1 wb (by omega) (hN.imp id And.right)
        have ht : (V.last && (funcend a && funcend b) && decide (V.K.rt ≠ .void)) = false := by
          rcases hN with q | q
          · rw [q]; rfl
          · rw [noLR_funcend a q.1]; simp
        rw [ht]
        exact ⟨A, B, fA, fB, dA, dB, fun σ ρ hs => PG.ite hV (fun q => nomatch q) (Or.inl (rA σ ρ hs)),
          fun σ ρ hs => PG.ite hV (fun q => nomatch q) (Or.inl (rB σ ρ hs))⟩
      · have hlast : V.last = true := by
          cases q : V.last with
          | true => rfl
          | false => exact absurd (Or.inl q) hN
        have hN : ¬ (noLR a = true ∧ noLR b = true) := fun q => hN (Or.inr q)
        simp only [hk, hlast, Bool.not_true, Bool.or_eq_true, Bool.false_eq_true, decide_eq_true_eq, Bool.and_eq_true, false_or, ne_eq,
          not_true, or_false] at hl
        obtain ⟨A, fA, rA, dA⟩ := ha.code { V with d := V.d + 1 } (n := (trav c.Γ true x n).2) hV1 wa (by omega)
        obtain ⟨B, fB, rB, dB⟩ := hb.code { V with d := V.d + 1 } (n := (travS c.Γ a (trav c.Γ true x n).2).2) hV1 wb (by omega)
        by_cases hv : V.K.rt = .void
        · have ht : (V.last && (funcend a && funcend b) && decide (V.K.rt ≠ .void)) = false := by simp [hv]
          rw [ht]
          exact ⟨A, B, fA, fB, dA, dB, fun σ ρ hs => PG.ite hV (fun q => nomatch q) (Or.inr ⟨hv, rA σ ρ hs⟩),
            fun σ ρ hs => PG.ite hV (fun q => nomatch q) (Or.inr ⟨hv, rB σ ρ hs⟩)⟩
        · have hf : funcend a = true ∧ funcend b = true := by
            rcases hl with (q | q) | q
            · exact absurd q hv
            · exact q
            · exact absurd q hN
          have ht : (V.last && (funcend a && funcend b) && decide (V.K.rt ≠ .void)) = true := by simp [hv, hf.1, hf.2, hlast]
          rw [ht]
          rw [hlast] at wa wb
          exact ⟨A, B, fA, fB, dA, dB,
            fun σ ρ hs => PG.ite hV (fun _ => ⟨hlast, hv, funcend_halts c m V.K hv a V.iB V.iC false wa hf.1 σ⟩) (rA σ ρ hs),
            fun σ ρ hs => PG.ite hV (fun _ => ⟨hlast, hv, funcend_halts c m V.K hv b V.iB V.iC false wb hf.2 σ⟩) (rB σ ρ hs)⟩
    obtain ⟨t, ht, A, B, fA, fB, dA, dB, rA, rB⟩ := key
    rw [funcend_trav', funcend_trav', ← ht, dA]
    generalize (if t = true then some V.K.rt.w else none) = tt at rA rB ⊢
    refine ⟨OkB.one (by simpa using fC.append (fA.ite (t := tt) fB)) fun σ ρ hs => ?_, by rw [dB]; rfl⟩
    refine PG.cond (hC m [] σ ρ hs) (le_refl _) (by omega) fun v σ1 ρ1 s1 => ?_
    rw [exec_ite]
    by_cases hv : v ≠ 0
    · rw [if_pos hv, if_pos (by simpa using hv)]
      exact (rA σ1 ρ1 s1).mono m1 m3
    · rw [if_neg hv, if_neg (by simpa using hv)]
      exact (rB σ1 ρ1 s1).mono (by omega) (le_refl _)

theorem ok_when {c : Ctx} (hc : FnOk c) {m : Nat} {x : X} {a : S} (ha : PS c m a) : PS c m (.when x a) := by
  intro V iS sub n hV hw hn
  simp only [wtS, Bool.and_eq_true] at hw
  obtain ⟨⟨hx, wa⟩, hl⟩ := hw
  have m1 := trav_mono c.Γ x true n
  have m2 := travS_mono c.Γ a (trav c.Γ true x n).2
  simp only [travS, cases, leads, List.filter_nil, List.length_nil, Nat.add_zero, genS, constOf_trav, acts]
  cases hk : constOf x with
  | some v =>
    dsimp only
    have e2 : (fun σ => (ev c true x σ).fl (fun v σ => if v ≠ 0 then run (acts c m a) σ else .go σ)) =
        fun σ => if v ≠ 0 then run (acts c m a) σ else .go σ := by
      funext σ
      rw [const_ev hk hx]
      rfl
    rw [e2]
    by_cases hv : v ≠ 0
    · simp only [if_pos hv]
      obtain ⟨C, fC, rC, dC⟩ := ha.code V (n := (trav c.Γ true x n).2) hV wa (by omega)
      exact ⟨(OkB.one fC rC).mono m1 (le_refl _), dC⟩
    · simp only [if_neg hv]
      exact ⟨OkB.one Frag.nil fun σ ρ hs => PG.intro_go hs rfl, trivial⟩
  | none =>
    dsimp only
    simp only [wtC, Bool.and_eq_true] at hx
    obtain ⟨C, fC, hC⟩ := (okX hc x).2 true true n hx.1.1 hx.1.2 hn
    have hV1 := hV.succ
    have key : (V.last && funcend a && decide (V.K.rt ≠ .void)) = false ∧
        ∃ A, Frag (genS c.Γ V.K V.last false (V.d + 1) V.b V.k (travS c.Γ a (trav c.Γ true x n).2).1).1 A ∧
        (genS c.Γ V.K V.last false (V.d + 1) V.b V.k (travS c.Γ a (trav c.Γ true x n).2).1).2 = V.d + 1 ∧
        (∀ σ ρ, Sim c σ ρ → PG c V.ex (trav c.Γ true x n).2 (travS c.Γ a (trav c.Γ true x n).2).2 ρ (run (acts c m a) σ)
          (Verif.Wasm.leave none [] Res.ok (exec c.E m A [] ρ))) := by
      by_cases hN : V.last = false ∨ noLR a = true
      · obtain ⟨A, fA, rA, dA⟩ := ha.codeN { V with d := V.d + 1 } (n := (trav c.Γ true x n).2) hV1 wa (by omega) hN
        have ht : (V.last && funcend a && decide (V.K.rt ≠ .void)) = false := by
          rcases hN with q | q
          · rw [q]; rfl
          · rw [noLR_funcend a q]; simp
        exact ⟨ht, A, fA, dA, fun σ ρ hs => PG.ite (b := false) hV (fun q => nomatch q) (Or.inl (rA σ ρ hs))⟩
      · have hlast : V.last = true := by
          cases q : V.last with
          | true => rfl
          | false => exact absurd (Or.inl q) hN
        have hN : ¬ noLR a = true := fun q => hN (Or.inr q)
        have hv : V.K.rt = .void := by
          simp only [hk, hlast, Bool.not_true, Bool.or_eq_true, Bool.false_eq_true, decide_eq_true_eq, false_or, Option.any_none, or_false] at hl
          exact hl.resolve_right hN
        obtain ⟨A, fA, rA, dA⟩ := ha.code { V with d := V.d + 1 } (n := (trav c.Γ true x n).2) hV1 wa (by omega)
        exact ⟨by simp [hv], A, fA, dA, fun σ ρ hs => PG.ite (b := false) hV (fun q => nomatch q) (Or.inr ⟨hv, rA σ ρ hs⟩)⟩
    obtain ⟨ht, A, fA, dA, rA⟩ := key
    rw [funcend_trav', ht, dA]
    refine ⟨OkB.one (by simpa using fC.append fA.when) fun σ ρ hs => ?_, rfl⟩
    refine PG.cond (hC m [] σ ρ hs) (le_refl _) (by omega) fun v σ1 ρ1 s1 => ?_
    rw [exec_ite]
    by_cases hv : v ≠ 0
    · rw [if_pos hv, if_pos (by simpa using hv)]
      exact (rA σ1 ρ1 s1).mono m1 (le_refl _)
    · rw [if_neg hv, if_neg (by simpa using hv)]
      exact PG.intro_go s1 rfl

/-! ## Loops -/

theorem loopF_brk {f : State → Fl} {m : Nat} (hm : 0 < m) {σ σ' : State} (h : f σ = .brk σ') : (loopF f m σ).out = .go σ' := by
  obtain ⟨j, rfl⟩ : ∃ j, m = j + 1 := ⟨m - 1, by omega⟩
  simp only [loopF, h]
  rfl

theorem Lv.loop2 (K : Kind) (d : Nat) : Lv.Ok ⟨K, false, true, true, d + 2, d, d + 1⟩ :=
  ⟨fun _ => by show d < d + 2; omega, fun _ => by show d + 1 < d + 2; omega, fun _ => by show 1 ≤ d + 2; omega⟩

theorem Lv.loop3 (K : Kind) (d : Nat) : Lv.Ok ⟨K, false, true, true, d + 3, d, d + 2⟩ :=
  ⟨fun _ => by show d < d + 3; omega, fun _ => by show d + 2 < d + 3; omega, fun _ => by show 1 ≤ d + 3; omega⟩

theorem ok_while {c : Ctx} (hc : FnOk c) {m : Nat} (hm : 0 < m) {x : X} {s : S} (ih : PS c m s) : PS c m (.while_ x s) := by
  intro V iS sub n hV hw hn
  simp only [wtS, Bool.and_eq_true] at hw
  obtain ⟨hx, ws⟩ := hw
  have m1 := trav_mono c.Γ x true n
  have m2 := travS_mono c.Γ s (trav c.Γ true x n).2
  obtain ⟨A, fA, rA, dA⟩ := ih.code ⟨V.K, false, true, true, V.d + 2, V.d, V.d + 1⟩ (n := (trav c.Γ true x n).2) (Lv.loop2 ..) ws (by omega)
  simp only [travS, cases, leads, List.filter_nil, List.length_nil, Nat.add_zero, genS, constOf_trav, acts]
  cases hk : constOf x with
  | some v =>
    dsimp only
    by_cases hv : v = 0
    · rw [if_pos hv]
      refine ⟨OkB.one Frag.nil fun σ ρ hs => ?_, rfl⟩
      rw [loopF_brk (σ' := σ) hm (by rw [const_ev hk hx]; simp [Ou.fl, hv])]
      exact PG.intro_go hs rfl
    · rw [if_neg hv]
      refine ⟨OkB.one (Frag.block (Frag.loop (fA.append (frag_br 0)))) fun σ ρ hs => ?_, rfl⟩
      refine PG.loop hV (fun σ ρ hs => ?_) σ ρ hs
      rw [const_ev hk hx]
      simp only [Ou.fl, ne_eq, hv, not_false_eq_true, if_true]
      exact (PG.whileBody (rA σ ρ hs)).mono m1 (le_refl _)
  | none =>
    dsimp only
    simp only [wtC, Bool.and_eq_true] at hx
    obtain ⟨C, fC, hC⟩ := (okX hc x).2 false true n hx.1.1 hx.1.2 hn
    refine ⟨OkB.one (C := .block none (.loop (C.app (.op (.brIf 1) (A.app (.op (.br 0) .done)))) .done) .done) ?_ fun σ ρ hs => ?_, rfl⟩
    · have := Frag.block (t := none) (Frag.loop (fC.append ((frag_brIf 1).append (fA.append (frag_br 0)))))
      simpa [Code.app] using this
    refine PG.loop hV (fun σ ρ hs => ?_) σ ρ hs
    refine PG.cond (hC m [] σ ρ hs) (le_refl _) (by omega) fun v σ1 ρ1 s1 => ?_
    rw [exec_brIf]
    by_cases hv : v ≠ 0
    · rw [if_pos hv, if_neg (by simpa using hv)]
      exact (PG.whileBody (rA σ1 ρ1 s1)).mono m1 (le_refl _)
    · rw [if_neg hv, if_pos (by simpa using hv)]
      exact PG.intro_brk s1 (Or.inl rfl)

theorem ok_doWhile {c : Ctx} (hc : FnOk c) {m : Nat} {x : X} {s : S} (ih : PS c m s) : PS c m (.doWhile s x) := by
  intro V iS sub n hV hw hn
  simp only [wtS, Bool.and_eq_true] at hw
  obtain ⟨hx, ws⟩ := hw
  have m2 := travS_mono c.Γ s n
  have m1 := trav_mono c.Γ x true (travS c.Γ s n).2
  obtain ⟨A, fA, rA, dA⟩ := ih.code ⟨V.K, false, true, true, V.d + 3, V.d, V.d + 2⟩ (n := n) (Lv.loop3 ..) ws (by omega)
  simp only [travS, cases, leads, List.filter_nil, List.length_nil, Nat.add_zero, genS, constOf_trav, acts]
  have fin : ∀ (ts : List Tok) (D : Code), Frag ts D → (∀ σ ρ, Sim c σ ρ → PG c (stepEx V.K V.d) (travS c.Γ s n).2
        (trav c.Γ true x (travS c.Γ s n).2).2 ρ ((ev c true x σ).fl fun v σ => if v ≠ 0 then .cont σ else .brk σ) (exec c.E m D [] ρ)) →
      OkB c m V n (trav c.Γ true x (travS c.Γ s n).2).2
        ((.block none) :: (.loop :: (.block none :: (genS c.Γ V.K false false (V.d + 3) V.d (V.d + 2) (travS c.Γ s n).1).1 ++ [.end_] ++ ts) ++ [.end_]) ++ [.end_])
        [.act fun σ => (loopF (fun σ => (run (acts c m s) σ).body fun σ =>
          (ev c true x σ).fl fun v σ => if v ≠ 0 then .cont σ else .brk σ) m σ).out] [] (!sub) := by
    intro ts D fD hD
    refine OkB.one (C := .block none (.loop (.block none A D) .done) .done) ?_ fun σ ρ hs => ?_
    · exact Frag.block (Frag.loop ((Frag.block fA).append fD))
    refine PG.loop hV (fun σ ρ hs => ?_) σ ρ hs
    exact PG.inner (rA σ ρ hs) m1 m2 hD
  cases hk : constOf x with
  | some v =>
    dsimp only
    by_cases hv : v = 0
    · rw [if_pos hv]
      refine ⟨fin _ _ (frag_br 1) fun σ ρ hs => ?_, trivial⟩
      rw [const_ev hk hx]
      simp only [Ou.fl, ne_eq, hv, not_true, if_false]
      exact PG.intro_brk hs (Or.inl rfl)
    · rw [if_neg hv]
      refine ⟨fin _ _ (frag_br 0) fun σ ρ hs => ?_, trivial⟩
      rw [const_ev hk hx]
      simp only [Ou.fl, ne_eq, hv, not_false_eq_true, if_true]
      exact PG.intro_cont hs rfl
  | none =>
    dsimp only
    simp only [wtC, Bool.and_eq_true] at hx
    obtain ⟨C, fC, hC⟩ := (okX hc x).2 true true (travS c.Γ s n).2 hx.1.1 hx.1.2 (by omega)
    refine ⟨fin _ _ (fC.append (frag_brIf 0)) fun σ ρ hs => ?_, trivial⟩
    refine PG.cond (hC m [] σ ρ hs) (le_refl _) (le_refl _) fun v σ1 ρ1 s1 => ?_
    rw [exec_brIf]
    by_cases hv : v ≠ 0
    · rw [if_pos hv, if_pos (by simpa using hv)]
      exact PG.intro_cont s1 rfl
    · rw [if_neg hv, if_neg (by simpa using hv)]
      exact PG.intro_brk s1 (Or.inr rfl)

/-- An optional expression whose value is not used. -/
theorem ok_optE {c : Ctx} (hc : FnOk c) {e : Option X} (hw : wtO (wt c false) e = true) {n : Nat} (hn : c.Γ.n0 ≤ n) (m : Nat) :
    ∃ C, Frag (match (travO c.Γ false e n).1 with | some e => gen c.Γ false e | none => []) C ∧
      ∀ (Q : Ex) (a b : Nat) (f : State → Fl) (D : Code), a ≤ n → (travO c.Γ false e n).2 ≤ b →
        (∀ σ ρ, Sim c σ ρ → PG c Q a b ρ (f σ) (exec c.E m D [] ρ)) →
        ∀ σ ρ, Sim c σ ρ → PG c Q a b ρ (evO c false e σ fun _ σ => f σ) (exec c.E m (C.app D) [] ρ) := by
  cases e with
  | none => exact ⟨.done, Frag.nil, fun Q a b f D _ _ h σ ρ hs => h σ ρ hs⟩
  | some e =>
    obtain ⟨C, fC, hC⟩ := (okX hc e).1 false n hw hn
    refine ⟨C, fC, fun Q a b f D ha hb h σ ρ hs => ?_⟩
    refine PG.fl (hC m [] σ ρ hs) ha hb fun v σ1 ρ1 _ s1 => ?_
    rw [stk_false]
    exact h σ1 ρ1 s1

theorem ok_for {c : Ctx} (hc : FnOk c) {m : Nat} (hm : 0 < m) {p x q : Option X} {s : S} (ih : PS c m s) : PS c m (.for_ p x q s) := by
  intro V iS sub n hV hw hn
  simp only [wtS, Bool.and_eq_true] at hw
  obtain ⟨⟨⟨wp, wx⟩, wq⟩, ws⟩ := hw
  have m1 := travO_mono c.Γ false p n
  have m2 := travO_mono c.Γ true x (travO c.Γ false p n).2
  have m3 := travO_mono c.Γ false q (travO c.Γ true x (travO c.Γ false p n).2).2
  have m4 := travS_mono c.Γ s (travO c.Γ false q (travO c.Γ true x (travO c.Γ false p n).2).2).2
  obtain ⟨P, fP, rP⟩ := ok_optE hc wp (n := n) hn m
  obtain ⟨R, fR, rR⟩ := ok_optE hc wq (n := (travO c.Γ true x (travO c.Γ false p n).2).2) (by omega) m
  obtain ⟨A, fA, rA, dA⟩ := ih.code ⟨V.K, false, true, true, V.d + 3, V.d, V.d + 2⟩
    (n := (travO c.Γ false q (travO c.Γ true x (travO c.Γ false p n).2).2).2) (Lv.loop3 ..) ws (by omega)
  simp only [travS, cases, leads, List.filter_nil, List.length_nil, Nat.add_zero, genS, acts]
  generalize hn1 : (travO c.Γ false p n).2 = n1 at *
  generalize hn2 : (travO c.Γ true x n1).2 = n2 at *
  generalize hn3 : (travO c.Γ false q n2).2 = n3 at *
  generalize hn4 : (travS c.Γ s n3).2 = n4 at *
  -- the loop
  have fin : ∀ (cc : List Tok) (C : Code), Frag cc C →
      (∀ σ ρ, Sim c σ ρ → ∀ D, (∀ σ ρ, Sim c σ ρ → PG c (Lv.ex ⟨V.K, false, true, true, V.d + 3, V.d, V.d + 2⟩) n1 n4 ρ (run (acts c m s) σ) (exec c.E m D [] ρ)) →
        ∃ o, PG c (Lv.ex ⟨V.K, false, true, true, V.d + 3, V.d, V.d + 2⟩) n1 n4 ρ o (exec c.E m (C.app D) [] ρ) ∧
        ∀ f, (evO c true x σ fun v σ => if v ≠ 0 then (run (acts c m s) σ).body f else .brk σ) = o.body f) →
      OkB c m V n n4 ((match (travO c.Γ false p n).1 with | some e => gen c.Γ false e | none => []) ++
        ((.block none) :: (.loop :: (.block none :: (cc ++ (genS c.Γ V.K false false (V.d + 3) V.d (V.d + 2) (travS c.Γ s n3).1).1) ++ [.end_] ++
          ((match (travO c.Γ false q n2).1 with | some e => gen c.Γ false e | none => []) ++ [.op (.br 0)])) ++ [.end_]) ++ [.end_]))
        [.act fun σ => evO c false p σ fun _ σ => (loopF (fun σ => evO c true x σ fun v σ =>
          if v ≠ 0 then (run (acts c m s) σ).body fun σ => evO c false q σ fun _ σ => .cont σ else .brk σ) m σ).out] [] (!sub) := by
    intro cc C fC hC
    refine OkB.one (fP.append (Frag.block (Frag.loop ((Frag.block (fC.append fA)).append (fR.append (frag_br 0)))))) fun σ ρ hs => ?_
    refine rP V.ex n n4 _ _ (le_refl _) (by omega) (fun σ ρ hs => ?_) σ ρ hs
    refine PG.mono (PG.loop hV (n := n1) (n' := n4) (fun σ ρ hs => ?_) σ ρ hs) m1 (le_refl _)
    obtain ⟨o, ho, eo⟩ := hC σ ρ hs A fun σ ρ hs => (rA σ ρ hs).mono (by omega) (le_refl _)
    rw [eo]
    refine PG.inner ho (le_refl _) (le_refl _) fun σ ρ hs => ?_
    exact rR (stepEx V.K V.d) n1 n4 .cont (.op (.br 0) .done) (by omega) (by omega) (fun σ ρ hs => PG.intro_cont hs rfl) σ ρ hs
  cases x with
  | none =>
    refine ⟨fin [] .done Frag.nil fun σ ρ hs D hD => ⟨_, hD σ ρ hs, fun f => rfl⟩, rfl⟩
  | some x =>
    simp only [travO, constOf_trav]
    cases hk : constOf x with
    | some v =>
      dsimp only
      have ex : ∀ (σ : State) (f : Int → State → Fl), evO c true (some x) σ f = f v σ := by
        intro σ f
        simp only [evO]
        rw [const_ev hk wx]
        rfl
      by_cases hv : v = 0
      · rw [if_pos hv]
        refine ⟨OkB.one (C := P.app .done) (by rw [Code.app_done]; exact fP) fun σ ρ hs => ?_, rfl⟩
        refine rP V.ex n n4 _ _ (le_refl _) (by omega) (fun σ ρ hs => ?_) σ ρ hs
        rw [loopF_brk (σ' := σ) hm (by rw [ex]; simp [hv])]
        exact PG.intro_go hs rfl
      · rw [if_neg hv]
        refine ⟨fin [] .done Frag.nil fun σ ρ hs D hD => ⟨_, hD σ ρ hs, fun f => ?_⟩, rfl⟩
        rw [ex, if_pos hv]
    | none =>
      dsimp only
      simp only [wtO, wtC, Bool.and_eq_true] at wx
      obtain ⟨C, fC, hC⟩ := (okX hc x).2 false true n1 wx.1.1 wx.1.2 (by omega)
      have hn2 : (trav c.Γ true x n1).2 = n2 := hn2
      refine ⟨fin _ (C.app (.op (.brIf 2) .done)) (fC.append (frag_brIf 2)) fun σ ρ hs D hD => ?_, rfl⟩
      refine ⟨(ev c true x σ).fl fun v σ => if v ≠ 0 then run (acts c m s) σ else .brk σ, ?_, fun f => ?_⟩
      · rw [Code.app_assoc]
        refine PG.cond (hC m [] σ ρ hs) (le_refl _) (by omega) fun v σ1 ρ1 s1 => ?_
        show PG _ _ _ _ _ _ (exec c.E m (.op (.brIf 2) D) _ _)
        rw [exec_brIf]
        by_cases hv : v ≠ 0
        · rw [if_pos hv, if_neg (by simpa using hv)]
          exact hD σ1 ρ1 s1
        · rw [if_neg hv, if_pos (by simpa using hv)]
          refine PG.intro_brk s1 ⟨rfl, ?_⟩
          congr 1
          show 2 = V.d + 3 - V.d - 1
          omega
      · simp only [evO]
        cases ev c true x σ with
        | val v σ =>
          simp only [Ou.fl]
          by_cases hv : v ≠ 0
          · rw [if_pos hv, if_pos hv]
          · rw [if_neg hv, if_neg hv]; rfl
        | stop => rfl
        | ub => rfl

end Verif.WasmGen

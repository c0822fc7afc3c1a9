import Verif.Wasm.GenOps
/-
The WebAssembly code of an expression computes its value and its effects.
-/
namespace Verif.WasmGen
open Verif.Util Verif.CExpr Verif.Wasm
open Verif.Fold hiding Op Res

/-! ## The rewriting -/

mutual
theorem trav_mono (Γ : Fn) : ∀ (e : X) (need : Bool) (n : Nat), n ≤ (trav Γ need e n).2
  | .lit t v, need, n => by simp [trav]
  | .var t x, need, n => by simp [trav]
  | .cast t e, need, n => by simpa [trav] using trav_mono Γ e need n
  | .pos t e, need, n => by simpa [trav] using trav_mono Γ e need n
  | .neg t e, need, n => by simpa [trav] using trav_mono Γ e need n
  | .bnot t e, need, n => by simpa [trav] using trav_mono Γ e need n
  | .deref t e, need, n => by simpa [trav] using trav_mono Γ e need n
  | .ref e, need, n => by simpa [trav] using trav_mono Γ e need n
  | .bin o t a b, need, n => by
    simp only [trav]; exact le_trans (trav_mono Γ a need n) (trav_mono Γ b need _)
  | .rel k a b, need, n => by
    simp only [trav]; exact le_trans (trav_mono Γ a need n) (trav_mono Γ b need _)
  | .land a b, need, n => by
    simp only [trav]; exact le_trans (trav_mono Γ a true n) (trav_mono Γ b need _)
  | .lor a b, need, n => by
    simp only [trav]; exact le_trans (trav_mono Γ a true n) (trav_mono Γ b need _)
  | .comma a b, need, n => by
    simp only [trav]; exact le_trans (trav_mono Γ a false n) (trav_mono Γ b need _)
  | .tern t c a b, need, n => by
    simp only [trav]
    exact le_trans (trav_mono Γ c true n) (le_trans (trav_mono Γ a need _) (trav_mono Γ b need _))
  | .asg l r, need, n => by
    have h := le_trans (trav_mono Γ l false n) (trav_mono Γ r true _)
    simp only [trav]
    repeat' split
    all_goals dsimp only; omega
  | .inc post dec l, need, n => by
    have h := trav_mono Γ l need n
    simp only [trav]
    split
    all_goals dsimp only; omega
  | .call t f as, need, n => by simpa [trav] using travA_mono Γ as n
theorem travA_mono (Γ : Fn) : ∀ (as : A) (n : Nat), n ≤ (travA Γ as n).2
  | .nil, n => by simp [travA]
  | .cons e as, n => by
    simp only [travA]; exact le_trans (trav_mono Γ e true n) (travA_mono Γ as _)
end

/-- A plain tree is rewritten alike whether its value is used or not. -/
theorem trav_plain (Γ : Fn) : ∀ (e : X) (n : Nat), plain e = true → trav Γ true e n = trav Γ false e n
  | .lit t v, n, _ => by simp [trav]
  | .var t x, n, _ => by simp [trav]
  | .cast t e, n, h => by simp only [plain] at h; simp only [trav, trav_plain Γ e n h]
  | .pos t e, n, h => by simp only [plain] at h; simp only [trav, trav_plain Γ e n h]
  | .neg t e, n, h => by simp only [plain] at h; simp only [trav, trav_plain Γ e n h]
  | .bnot t e, n, h => by simp only [plain] at h; simp only [trav, trav_plain Γ e n h]
  | .deref t e, n, h => by simp only [plain] at h; simp only [trav, trav_plain Γ e n h]
  | .ref e, n, h => by simp only [plain] at h; simp only [trav, trav_plain Γ e n h]
  | .bin o t a b, n, h => by
    simp only [plain, Bool.and_eq_true] at h; simp only [trav, trav_plain Γ a _ h.1, trav_plain Γ b _ h.2]
  | .rel k a b, n, h => by
    simp only [plain, Bool.and_eq_true] at h; simp only [trav, trav_plain Γ a _ h.1, trav_plain Γ b _ h.2]
  | .land a b, n, h => by simp only [plain] at h; simp only [trav, trav_plain Γ b _ h]
  | .lor a b, n, h => by simp only [plain] at h; simp only [trav, trav_plain Γ b _ h]
  | .comma a b, n, h => by simp only [plain] at h; simp only [trav, trav_plain Γ b _ h]
  | .tern t c a b, n, h => by
    simp only [plain, Bool.and_eq_true] at h; simp only [trav, trav_plain Γ a _ h.1, trav_plain Γ b _ h.2]
  | .asg l r, n, h => by simp [plain] at h
  | .inc post dec l, n, h => by simp only [plain] at h; simp only [trav, trav_plain Γ l n h]
  | .call t f as, n, _ => by simp [trav]

theorem like_refl (t : T) : like t t = true := by simp [like]

theorem like_trans {t u v : T} (h : like t u = true) (h' : like u v = true) : like t v = true := by
  simp only [like, Bool.and_eq_true, decide_eq_true_eq] at *; exact ⟨h.1.trans h'.1, h.2.trans h'.2⟩

theorem like_symm {t u : T} (h : like t u = true) : like u t = true := by
  simp only [like, Bool.and_eq_true, decide_eq_true_eq] at *; exact ⟨h.1.symm, h.2.symm⟩

/-- An lvalue stays what it is. -/
theorem trav_lv_ty (c : Ctx) {l : X} (h : wtL c l = true) (need : Bool) (n : Nat) : (trav c.Γ need l n).1.ty = l.ty := by
  cases l <;> simp [wtL] at h <;> simp [trav, X.ty]

theorem trav_lv_var (c : Ctx) {l : X} (h : wtL c l = true) (need : Bool) (n : Nat) : (trav c.Γ need l n).1.isVar = l.isVar := by
  cases l <;> simp [wtL] at h <;> simp [trav, X.isVar]

theorem trav_lv_reg (c : Ctx) {l : X} (h : wtL c l = true) (need : Bool) (n : Nat) : (trav c.Γ need l n).1.isReg c.Γ = l.isReg c.Γ := by
  cases l <;> simp [wtL] at h <;> simp [trav, X.isReg]

theorem trav_simple (Γ : Fn) (r : X) (need : Bool) (n : Nat) : (trav Γ need r n).1.simple = r.simple := by
  cases r <;> simp only [trav] <;> (try rfl)
  all_goals (repeat' split) <;> rfl

theorem trav_zero (Γ : Fn) (r : X) (need : Bool) (n : Nat) : (trav Γ need r n).1.zero = r.zero := by
  cases r <;> simp only [trav] <;> (try rfl)
  all_goals (repeat' split) <;> rfl

theorem trav_simple_eq (Γ : Fn) {r : X} (h : r.simple = true) (need : Bool) (n : Nat) : trav Γ need r n = (r, n) := by
  cases r <;> simp [X.simple] at h <;> simp [trav]

/-- The rewritten tree has a type that is held alike. -/
theorem trav_ty (c : Ctx) : ∀ (e : X) (need : Bool) (n : Nat), wt c need e = true → like (trav c.Γ need e n).1.ty e.ty = true
  | .lit t v, need, n, _ => by simp [trav, like_refl]
  | .var t x, need, n, _ => by simp [trav, like_refl]
  | .cast t e, need, n, _ => by simp [trav, X.ty, like_refl]
  | .pos t e, need, n, _ => by simp [trav, X.ty, like_refl]
  | .neg t e, need, n, _ => by simp [trav, X.ty, like_refl]
  | .bnot t e, need, n, _ => by simp [trav, X.ty, like_refl]
  | .deref t e, need, n, _ => by simp [trav, X.ty, like_refl]
  | .ref e, need, n, _ => by simp [trav, X.ty, like, T.size, T.uns]
  | .bin o t a b, need, n, _ => by simp [trav, X.ty, like_refl]
  | .rel k a b, need, n, _ => by simp [trav, X.ty, like_refl]
  | .land a b, need, n, _ => by simp [trav, X.ty, like_refl]
  | .lor a b, need, n, _ => by simp [trav, X.ty, like_refl]
  | .comma a b, need, n, h => by
    simp only [wt, Bool.and_eq_true] at h
    simpa only [trav, X.ty] using trav_ty c b need _ h.2
  | .tern t x a b, need, n, _ => by simp [trav, X.ty, like_refl]
  | .asg l r, need, n, h => by
    simp only [wt, Bool.and_eq_true] at h
    obtain ⟨⟨⟨⟨hl, hr⟩, hlr⟩, -⟩, -⟩ := h
    have e := trav_lv_ty c hl false n
    have e' := trav_ty c r true (trav c.Γ false l n).2 hr
    simp only [trav]
    repeat' split
    all_goals simp only [X.ty, e, like_refl]
    exact like_trans e' (like_symm hlr)
  | .inc post dec l, need, n, h => by
    simp only [wt, Bool.and_eq_true] at h
    have e := trav_lv_ty c h.1.1 need n
    simp only [trav]
    split
    all_goals simp only [X.ty, incMem, e, like_refl]
  | .call t f as, need, n, _ => by simp [trav, X.ty, like_refl]

theorem castTo_like {d s s' : T} (h : like s' s = true) : castTo d s' = castTo d s := by
  unfold castTo
  rw [like_size h, like_uns h]

theorem cmpTok_like {k : Rel} {s s' : T} (h : like s' s = true) : cmpTok k s' = cmpTok k s := by
  unfold cmpTok cmpOf
  rw [w_like h, like_uns h]

theorem cmpCode_like {k : Rel} {s s' : T} (h : like s' s = true) (a b : List Tok) (z need : Bool) :
    cmpCode k s' a b z need = cmpCode k s a b z need := by
  unfold cmpCode
  rw [w_like h, cmpTok_like h]

/-! ## Simulation -/

/-- The layout of the function's variables: locals are distinct, the base pointer is another one, temporaries are in locals. -/
structure FnOk (c : Ctx) : Prop where
  inj : ∀ x y, c.Γ.loc x = .reg → c.Γ.loc y = .reg → c.Γ.ix x = c.Γ.ix y → x = y
  bpx : ∀ x, c.Γ.loc x = .reg → c.Γ.ix x ≠ c.Γ.bpx
  tmp : ∀ x, c.Γ.n0 ≤ x → c.Γ.loc x = .reg
  frame : ∀ x o, c.Γ.loc x = .frame o → -2 ^ 31 ≤ o ∧ o < 2 ^ 31
  data : ∀ x a, c.Γ.loc x = .data a → a < 2 ^ 31
  bp : c.bp < 2 ^ 32

/-- The machine holds the state. -/
structure Sim (c : Ctx) (σ : State) (ρ : St) : Prop where
  reg : ∀ x, x < c.Γ.n0 → c.Γ.loc x = .reg → ρ.loc (c.Γ.ix x) = rep (c.Γ.ty x) (σ.env x) ∧ InR (c.Γ.ty x) (σ.env x)
  mem : ρ.mem = σ.mem
  bp : ρ.loc c.Γ.bpx = ⟨.i32, c.bp⟩

/-- Of the temporaries only those from `n` to `n'` change, and no global. -/
structure Keep (c : Ctx) (n n' : Nat) (ρ ρ' : St) : Prop where
  tmp : ∀ x, c.Γ.n0 ≤ x → ¬(n ≤ x ∧ x < n') → ρ'.loc (c.Γ.ix x) = ρ.loc (c.Γ.ix x)
  glb : ρ'.glb = ρ.glb

theorem Keep.refl (c : Ctx) (n n' : Nat) (ρ : St) : Keep c n n' ρ ρ := ⟨fun _ _ _ => rfl, rfl⟩

theorem Keep.trans {c : Ctx} {n n' : Nat} {ρ ρ' ρ'' : St} (h : Keep c n n' ρ ρ') (h' : Keep c n n' ρ' ρ'') : Keep c n n' ρ ρ'' :=
  ⟨fun x hx hn => (h'.tmp x hx hn).trans (h.tmp x hx hn), h'.glb.trans h.glb⟩

theorem Keep.mono {c : Ctx} {a b n n' : Nat} {ρ ρ' : St} (h : Keep c a b ρ ρ') (h1 : n ≤ a) (h2 : b ≤ n') : Keep c n n' ρ ρ' :=
  ⟨fun x hx hn => h.tmp x hx (fun q => hn ⟨by omega, by omega⟩), h.glb⟩

/-- The outcome of code against the outcome in C: if that is a value, the operands are `F` of it. -/
def Post {α : Type} (c : Ctx) (F : α → List V) (G : α → State → Prop) (n n' : Nat) (ρ : St) (o : Ou α) (r : Res) : Prop :=
  match o with
  | .val a σ => G a σ ∧ ∃ ρ', r = .ok (F a) ρ' ∧ Sim c σ ρ' ∧ Keep c n n' ρ ρ'
  | .stop => r = .stop
  | .ub => True

theorem Post.mono {α : Type} {c : Ctx} {F : α → List V} {G : α → State → Prop} {a b n n' : Nat} {ρ : St} {o : Ou α} {r : Res}
    (h : Post c F G a b ρ o r) (h1 : n ≤ a) (h2 : b ≤ n') : Post c F G n n' ρ o r := by
  cases o with
  | val v σ =>
    obtain ⟨g, ρ', e, s, k⟩ := h
    exact ⟨g, ρ', e, s, k.mono h1 h2⟩
  | _ => exact h

theorem Post.bind {α β : Type} {c : Ctx} {F : α → List V} {G : α → State → Prop} {F' : β → List V} {G' : β → State → Prop} {a b n n' m : Nat} {ρ : St}
    {o : Ou α} {f : α → State → Ou β} {C D : Code} {s : List V} (h : Post c F G a b ρ o (exec c.E m C s ρ)) (h1 : n ≤ a) (h2 : b ≤ n')
    (k : ∀ v σ' ρ', G v σ' → Sim c σ' ρ' → Keep c a b ρ ρ' → Post c F' G' n n' ρ' (f v σ') (exec c.E m D (F v) ρ')) :
    Post c F' G' n n' ρ (o.bind f) (exec c.E m (C.app D) s ρ) := by
  rw [exec_app]
  cases o with
  | val v σ =>
    obtain ⟨g, ρ', e, sm, kp⟩ := h
    rw [e]
    have h := k v σ ρ' g sm kp
    show Post c F' G' n n' ρ (f v σ) _
    have kp' := kp.mono h1 h2
    simp only [Res.bind]
    revert h
    cases f v σ with
    | val w σ' =>
      rintro ⟨g', ρ'', e', sm', k'⟩
      exact ⟨g', ρ'', e', sm', kp'.trans k'⟩
    | stop => exact id
    | ub => exact id
  | stop =>
    have h : exec c.E m C s ρ = .stop := h
    rw [h]
    rfl
  | ub => trivial

/-- The operands after an expression. -/
def stk (need : Bool) (t : T) (a : Int) (s : List V) : List V := if need && t ≠ .void then rep t a :: s else s

theorem stk_true {t : T} (h : t.scalar = true) (a : Int) (s : List V) : stk true t a s = rep t a :: s := by
  simp [stk, scalar_nv h]

theorem stk_false (t : T) (a : Int) (s : List V) : stk false t a s = s := by simp [stk]

def ValOk (need : Bool) (t : T) (a : Int) (_ : State) : Prop := need = true → t.scalar = true → InR t a

/-- The code `ts` computes what `f` says. -/
def OkE (c : Ctx) (need : Bool) (ts : List Tok) (t : T) (n n' : Nat) (f : State → Ou Int) : Prop :=
  ∃ C, Frag ts C ∧ ∀ m s σ ρ, Sim c σ ρ → Post c (fun a => stk need t a s) (ValOk need t) n n' ρ (f σ) (exec c.E m C s ρ)

/-! ## Leaves -/

theorem Post.line {α : Type} {c : Ctx} {F : α → List V} {G : α → State → Prop} {n n' m : Nat} {ρ ρ' : St} {a : α} {σ : State} {os : List Op}
    {s : List V} (e : runL c.E os s ρ = .ok (F a) ρ') (g : G a σ) (sm : Sim c σ ρ') (k : Keep c n n' ρ ρ') :
    Post c F G n n' ρ (.val a σ) (exec c.E m (line os) s ρ) := by
  rw [exec_line]
  exact ⟨g, ρ', e, sm, k⟩

theorem Post.done {α : Type} {c : Ctx} {F : α → List V} {G : α → State → Prop} {n n' m : Nat} {ρ : St} {a : α} {σ : State} {s : List V}
    (e : s = F a) (g : G a σ) (sm : Sim c σ ρ) : Post c F G n n' ρ (.val a σ) (exec c.E m .done s ρ) :=
  ⟨g, ρ, by rw [e]; rfl, sm, Keep.refl ..⟩

theorem OkE.mono {c : Ctx} {need : Bool} {ts : List Tok} {t : T} {a b n n' : Nat} {f : State → Ou Int} (h : OkE c need ts t a b f)
    (h1 : n ≤ a) (h2 : b ≤ n') : OkE c need ts t n n' f := by
  obtain ⟨C, fC, hC⟩ := h
  exact ⟨C, fC, fun m s σ ρ hs => (hC m s σ ρ hs).mono h1 h2⟩

theorem valOk_conv (need : Bool) (t : T) (a : Int) (σ : State) : ValOk need t (conv t.size t.uns a) σ := fun _ h => conv_range (tsz h) _ _

theorem lit_pat {t : T} (ht : t.scalar = true) {v : Int} (h : 4 ≤ t.size ∨ InRange t.size t.uns v) :
    pat t.w.bits (if t.size ≤ 4 then toS 32 v else v) = pat t.w.bits (conv t.size t.uns v) := by
  have key : ∀ v : Int, pat 32 (toS 32 v) = pat 32 v := by
    intro v
    apply natKey
    rw [pat32, pat32, toS32]
    split <;> omega
  by_cases h4 : 4 ≤ t.size
  · rw [bits_of ht h4, pat_conv ht]
    split
    · have : t.size = 4 := by omega
      rw [this]; exact key v
    · rfl
  · rw [conv_id (tsz ht) _ (h.resolve_left h4), if_pos (by omega), show t.w.bits = 32 by rw [w_bits ht]; omega]
    exact key v

theorem wf32 {v : Int} (h : -2147483648 ≤ v ∧ v < 2147483648) : Op.wf (.const .i32 v) = true :=
  decide_eq_true (by simpa [VT.bits] using h)

theorem lit_wf {t : T} {v : Int} (h : -2 ^ 63 ≤ v ∧ v < 2 ^ 63) : Op.wf (.const t.w (if t.size ≤ 4 then toS 32 v else v)) = true := by
  by_cases h4 : t.size ≤ 4
  · rw [if_pos h4, w_of_le h4]
    have := toS32 v
    have : -2147483648 ≤ toS 32 v ∧ toS 32 v < 2147483648 := by rw [this]; split <;> omega
    exact decide_eq_true (by simpa [VT.bits] using this)
  · rw [if_neg h4, w_of_gt h4]
    exact decide_eq_true (by simpa [VT.bits] using h)

theorem ok_lit {c : Ctx} {t : T} {v : Int} (need : Bool) (n : Nat) (h : wt c need (.lit t v) = true) :
    OkE c need (if need then genLit t v else []) t n n (ev c need (.lit t v)) := by
  simp only [wt, Bool.and_eq_true, Bool.or_eq_true, decide_eq_true_eq] at h
  obtain ⟨⟨ht, hv⟩, h4⟩ := h
  cases need with
  | false =>
    refine ⟨.done, Frag.nil, fun m s σ ρ hs => ?_⟩
    simp only [ev]
    exact Post.done (by simp [stk_false]) (valOk_conv _ _ _ _) hs
  | true =>
    refine ⟨line [_], frag_line (os := [.const t.w (if t.size ≤ 4 then toS 32 v else v)]) (by simpa using lit_wf hv),
      fun m s σ ρ hs => ?_⟩
    simp only [ev]
    refine Post.line ?_ (valOk_conv _ _ _ _) hs (Keep.refl ..)
    rw [stk_true ht, rep, ← lit_pat ht h4]
    rfl

/-- The address of a variable. -/
theorem addr_ok {c : Ctx} (hc : FnOk c) {x : Nat} (hx : c.Γ.loc x ≠ .reg) :
    ∃ C a, Frag (addrVar c.Γ x) C ∧ place c x = .addr a ∧ a < 2 ^ 32 ∧
      ∀ m s ρ, ρ.loc c.Γ.bpx = ⟨.i32, c.bp⟩ → exec c.E m C s ρ = .ok (⟨.i32, a⟩ :: s) ρ := by
  unfold addrVar place
  cases h : c.Γ.loc x with
  | reg => exact absurd h hx
  | frame o =>
    dsimp only
    unfold bpofs
    have hb := hc.bp
    by_cases h0 : o = 0
    · refine ⟨line [.lget c.Γ.bpx], _, ?_, rfl, pat_lt _ _, ?_⟩
      · rw [if_neg (not_not.2 h0)]
        exact frag_line (os := [.lget c.Γ.bpx]) (by simp [Op.wf])
      · intro m s ρ e
        rw [exec_line, h0]
        simp only [runL, Res.bind, step, e]
        rw [show ((c.bp : Int) + 0) = (c.bp : Int) by omega, pat_nat hb]
    · have ho := hc.frame x o h
      refine ⟨line [.lget c.Γ.bpx, .const .i32 o, .bin .i32 .add], _, ?_, rfl, pat_lt _ _, ?_⟩
      · rw [if_pos h0]
        refine frag_line (os := [.lget c.Γ.bpx, .const .i32 o, .bin .i32 .add]) ?_
        intro q hq
        simp only [List.mem_cons, List.not_mem_nil, or_false] at hq
        rcases hq with rfl | rfl | rfl
        · rfl
        · exact decide_eq_true (by simpa [VT.bits] using ho)
        · rfl
      · intro m s ρ e
        rw [exec_line]
        simp only [runL, Res.bind, step, e, VT.bits, binOp, and_self, if_true]
        congr 3
        apply natKey
        push_cast
        rw [pat_cast, pat_cast]
        simp
  | data a =>
    dsimp only
    have ha := hc.data x a h
    refine ⟨line [.const .i32 a], _, frag_line (os := [.const .i32 a]) ?_, rfl, by omega, ?_⟩
    · intro q hq
      rw [List.mem_singleton.1 hq]
      have ha' : (a : Int) < 2147483648 := by norm_num at ha; omega
      exact wf32 ⟨by omega, ha'⟩
    · intro m s ρ e
      rw [exec_line]
      simp only [runL, Res.bind, step, VT.bits]
      rw [pat_nat (by omega)]

theorem genLoad_frag {t : T} (ht : t.scalar = true) : Frag (genLoad t) (line [.load t.w t.size (t.size < 4 && !t.uns)]) := by
  have : genLoad t = [Op.load t.w t.size (t.size < 4 && !t.uns)].map .op := by
    cases t <;> simp [genLoad, T.scalar] at ht ⊢
  rw [this]
  exact frag_line (by simp [Op.wf])

theorem genStore_frag {t : T} (ht : t.scalar = true) : Frag (genStore t) (line [.store t.w t.size]) := by
  have : genStore t = [Op.store t.w t.size].map .op := by
    cases t <;> simp [genStore, T.scalar] at ht ⊢
  rw [this]
  exact frag_line (by simp [Op.wf])

theorem load_run (E : Env) {t : T} (ht : t.scalar = true) {a : Nat} (s : List V) (ρ : St) (h : a + t.size ≤ E.size) :
    runL E [.load t.w t.size (t.size < 4 && !t.uns)] (⟨.i32, a⟩ :: s) ρ = .ok (rep t (conv t.size t.uns (rdB ρ.mem a t.size)) :: s) ρ := by
  simp only [runL, Res.bind, step, h, if_true, load_ok ht (rdB_lt ρ.mem t.size a)]
  rfl

theorem store_run (E : Env) {t : T} (ht : t.scalar = true) {a : Nat} {v : Int} (s : List V) (ρ : St) (h : a + t.size ≤ E.size) :
    runL E [.store t.w t.size] (rep t v :: ⟨.i32, a⟩ :: s) ρ = .ok s { ρ with mem := wrB ρ.mem a t.size (pat (8 * t.size) v) } := by
  simp only [runL, Res.bind, step, h, rep, and_self, if_true, store_ok ht]

/-- Reading the object at an address. -/
theorem get_addr {c : Ctx} {t : T} (ht : t.scalar = true) {a : Nat} {n n' m : Nat} {s : List V} {σ : State} {ρ : St} (hs : Sim c σ ρ) :
    Post c (fun a => stk true t a s) (ValOk true t) n n' ρ (getO c t (.addr a) σ)
      (exec c.E m (line [.load t.w t.size (t.size < 4 && !t.uns)]) (⟨.i32, a⟩ :: s) ρ) := by
  unfold getO
  dsimp only
  split
  · rename_i h
    refine Post.line ?_ (valOk_conv _ _ _ _) hs (Keep.refl ..)
    rw [load_run c.E ht s ρ h, stk_true ht, hs.mem]
  · trivial

theorem get_addr_false {c : Ctx} {t : T} {a : Nat} {n n' m : Nat} {s : List V} {σ : State} {ρ : St} (hs : Sim c σ ρ) :
    Post c (fun a => stk false t a s) (ValOk false t) n n' ρ (getO c t (.addr a) σ) (exec c.E m .done s ρ) := by
  unfold getO
  dsimp only
  split
  · exact Post.done (by simp [stk_false]) (valOk_conv _ _ _ _) hs
  · trivial

theorem ok_var {c : Ctx} (hc : FnOk c) {t : T} {x : Nat} (need : Bool) (n : Nat) (h : wt c need (.var t x) = true) :
    OkE c need (if need then genVar c.Γ t x else []) t n n (ev c need (.var t x)) := by
  simp only [wt, Bool.and_eq_true, decide_eq_true_eq] at h
  obtain ⟨⟨hx, rfl⟩, ht⟩ := h
  by_cases hr : c.Γ.loc x = .reg
  · have pl : place c x = .reg x := by simp [place, hr]
    cases need with
    | false =>
      refine ⟨.done, Frag.nil, fun m s σ ρ hs => ?_⟩
      simp only [ev, pl, getO]
      exact Post.done (by simp [stk_false]) (fun _ _ => (hs.reg x hx hr).2) hs
    | true =>
      refine ⟨line [.lget (c.Γ.ix x)], ?_, fun m s σ ρ hs => ?_⟩
      · simp only [genVar, hr, if_true]
        exact frag_line (os := [.lget (c.Γ.ix x)]) (by simp [Op.wf])
      · simp only [ev, pl, getO]
        refine Post.line ?_ (fun _ _ => (hs.reg x hx hr).2) hs (Keep.refl ..)
        rw [stk_true ht]
        simp only [runL, Res.bind, step, (hs.reg x hx hr).1]
  · obtain ⟨C, a, fC, pl, -, eC⟩ := addr_ok hc hr
    cases need with
    | false =>
      refine ⟨.done, Frag.nil, fun m s σ ρ hs => ?_⟩
      simp only [ev, pl]
      exact get_addr_false hs
    | true =>
      refine ⟨C.app (line [.load (c.Γ.ty x).w (c.Γ.ty x).size ((c.Γ.ty x).size < 4 && !(c.Γ.ty x).uns)]), ?_, fun m s σ ρ hs => ?_⟩
      · simp only [genVar, hr, if_true, if_false]
        exact fC.append (genLoad_frag ht)
      · simp only [ev, pl]
        rw [exec_app, eC m s ρ hs.bp]
        exact get_addr ht hs

/-! ## Operators -/

theorem ok_cast {c : Ctx} {t u : T} {need : Bool} {ts : List Tok} {n n' : Nat} {f : State → Ou Int} (h : OkE c need ts u n n' f)
    (ht : if t = .void then need = false ∨ u.scalar = true else t.scalar = true ∧ u.scalar = true) :
    OkE c need (ts ++ if need then castTo t u else []) t n n'
      (fun σ => (f σ).bind fun a σ => .val (if t = .void then 0 else conv t.size t.uns a) σ) := by
  obtain ⟨C, fC, hC⟩ := h
  cases need with
  | false =>
    refine ⟨C.app .done, fC.append Frag.nil, fun m s σ ρ hs => ?_⟩
    refine Post.bind (hC m s σ ρ hs) (le_refl _) (le_refl _) fun v σ' ρ' g sm k => ?_
    exact Post.done (by simp [stk_false]) (fun q => nomatch q) sm
  | true =>
    by_cases hv : t = .void
    · subst hv
      have hu : u.scalar = true := by simpa using ht
      refine ⟨C.app (line [.drop]), fC.append (frag_line (os := [.drop]) (by simp [Op.wf])), fun m s σ ρ hs => ?_⟩
      refine Post.bind (hC m s σ ρ hs) (le_refl _) (le_refl _) fun v σ' ρ' g sm k => ?_
      exact Post.line (by rw [stk_true hu]; rfl) (by simp [ValOk, T.scalar]) sm (Keep.refl ..)
    · rw [if_neg hv] at ht
      refine ⟨C.app (castCode t u), fC.append (castTo_frag ht.1), fun m s σ ρ hs => ?_⟩
      refine Post.bind (hC m s σ ρ hs) (le_refl _) (le_refl _) fun v σ' ρ' g sm k => ?_
      rw [if_neg hv]
      rw [stk_true ht.2]
      exact ⟨valOk_conv _ _ _ _, ρ', by rw [castTo_run c.E ht.1 ht.2 (g rfl ht.2)]; dsimp only; rw [stk_true ht.1], sm, Keep.refl ..⟩

theorem opT_range' {o : Ar} {t : T} (ht : t.scalar = true) {a b r : Int} (ha : o ≠ .add → o ≠ .sub → InR t a)
    (h : Elab.opT o t.size t.uns a b = some r) : InR t r := by
  by_cases h1 : o = .add
  · subst h1; simp only [Elab.opT, Option.some.injEq] at h; subst h; exact conv_range (tsz ht) _ _
  · by_cases h2 : o = .sub
    · subst h2; simp only [Elab.opT, Option.some.injEq] at h; subst h; exact conv_range (tsz ht) _ _
    · exact Elab.opT_range (tsz ht) (ha h1 h2) h

theorem ok_bin {c : Ctx} {o : Ar} {t ta tb : T} {need : Bool} {as bs : List Tok} {n n1 n' : Nat} {f g : State → Ou Int}
    (ha : OkE c need as ta n n1 f) (hb : OkE c need bs tb n1 n' g) (l1 : n ≤ n1) (l2 : n1 ≤ n') (ht : t.scalar = true) (h4 : 4 ≤ t.size)
    (sa : ta.scalar = true) (sb : tb.scalar = true) (wa : ta.w = t.w) (wb : tb.w = t.w)
    (hp : o ≠ .add → o ≠ .sub → like ta t = true ∧ (o ≠ .shl → o ≠ .shr → like tb t = true) ∧ ∃ u, t = .fx u) :
    OkE c need (as ++ bs ++ if need then genArith o t else []) t n n'
      (fun σ => (f σ).bind fun x σ => (g σ).bind fun y σ => .ofOpt (Elab.opT o t.size t.uns x y) σ) := by
  obtain ⟨A, fA, hA⟩ := ha
  obtain ⟨B, fB, hB⟩ := hb
  cases need with
  | false =>
    refine ⟨A.app (B.app .done), ?_, fun m s σ ρ hs => ?_⟩
    · rw [List.append_assoc]; exact fA.append (fB.append Frag.nil)
    · refine Post.bind (hA m s σ ρ hs) (le_refl _) l2 fun x σ1 ρ1 g1 s1 k1 => ?_
      refine Post.bind (hB m _ σ1 ρ1 s1) l1 (le_refl _) fun y σ2 ρ2 g2 s2 k2 => ?_
      cases e : Elab.opT o t.size t.uns x y with
      | none => trivial
      | some r =>
        exact Post.done (by simp [stk_false]) (fun q => nomatch q) s2
  | true =>
    refine ⟨A.app (B.app (line [.bin t.w (arOp o t)])), ?_, fun m s σ ρ hs => ?_⟩
    · rw [List.append_assoc]; exact fA.append (fB.append (frag_line (os := [.bin t.w (arOp o t)]) (by simp [Op.wf])))
    · refine Post.bind (hA m s σ ρ hs) (le_refl _) l2 fun x σ1 ρ1 g1 s1 k1 => ?_
      refine Post.bind (hB m _ σ1 ρ1 s1) l1 (le_refl _) fun y σ2 ρ2 g2 s2 k2 => ?_
      cases e : Elab.opT o t.size t.uns x y with
      | none => trivial
      | some r =>
        have h := binOp_ok (a := x) (b := y) ht (fun p q => ⟨inR_like (hp p q).1 (g1 rfl sa), fun p' q' => inR_like ((hp p q).2.1 p' q') (g2 rfl sb), (hp p q).2.2⟩) h4 e
        refine Post.line ?_ (fun _ q => opT_range' ht (fun p q => inR_like (hp p q).1 (g1 rfl sa)) e) s2 (Keep.refl ..)
        rw [stk_true sa, stk_true sb, stk_true ht]
        simp only [runL, Res.bind, step, rep, wa, wb, and_self, if_true, h]

theorem relV_range (k : Rel) (x y : Int) : InR .int (relV k x y) := by
  unfold relV
  by_cases h : holds k x y
  · rw [if_pos h]; unfold InR; decide
  · rw [if_neg h]; unfold InR; decide

theorem int_scalar : T.scalar .int = true := by decide

theorem rep_bool (p : Prop) [Decidable p] : rep .int (if p then 1 else 0) = ⟨.i32, if p then 1 else 0⟩ := by
  by_cases h : p <;> simp [h, rep] <;> decide

theorem ok_cmp {c : Ctx} {k : Rel} {ta tb : T} {need z : Bool} {as bs : List Tok} {n n1 n' : Nat} {f g : State → Ou Int}
    (ha : OkE c need as ta n n1 f) (hb : OkE c need bs tb n1 n' g) (l1 : n ≤ n1) (l2 : n1 ≤ n')
    (sa : ta.scalar = true) (sb : tb.scalar = true) (lk : like ta tb = true) (hz : z = true → ∀ σ, g σ = .val 0 σ) :
    OkE c need (cmpCode k ta as bs z need) .int n n'
      (fun σ => (f σ).bind fun x σ => (g σ).bind fun y σ => .val (relV k x y) σ) := by
  obtain ⟨A, fA, hA⟩ := ha
  obtain ⟨B, fB, hB⟩ := hb
  unfold cmpCode
  cases need with
  | false =>
    refine ⟨A.app (B.app .done), ?_, fun m s σ ρ hs => ?_⟩
    · exact fA.append (fB.append Frag.nil)
    · refine Post.bind (hA m s σ ρ hs) (le_refl _) l2 fun x σ1 ρ1 g1 s1 k1 => ?_
      refine Post.bind (hB m _ σ1 ρ1 s1) l1 (le_refl _) fun y σ2 ρ2 g2 s2 k2 => ?_
      exact Post.done (by simp [stk_false]) (fun _ _ => relV_range ..) s2
  | true =>
    by_cases hk : (z && k == .eq) = true
    · simp only [Bool.and_eq_true, beq_iff_eq] at hk
      obtain ⟨hz', rfl⟩ := hk
      refine ⟨A.app (line [.eqz ta.w]), ?_, fun m s σ ρ hs => ?_⟩
      · rw [if_pos (by simp [hz'])]
        exact fA.append (frag_line (os := [.eqz ta.w]) (by simp [Op.wf]))
      · refine Post.bind (hA m s σ ρ hs) (le_refl _) l2 fun x σ1 ρ1 g1 s1 k1 => ?_
        rw [hz hz']
        refine Post.line ?_ (fun _ _ => relV_range ..) s1 (Keep.refl ..)
        rw [stk_true sa, stk_true int_scalar, relV, rep_bool]
        have := eqz_ok sa (g1 rfl sa) (inR_zero sa)
        simp only [runL, step, holds, ← this]
        rw [if_pos (show (rep ta x).ty = ta.w from rfl)]
        rfl
    · refine ⟨A.app (B.app (line [.cmp ta.w (cmpOf k ta)])), ?_, fun m s σ ρ hs => ?_⟩
      · rw [if_neg (by simpa using hk)]
        exact fA.append (fB.append (frag_line (os := [.cmp ta.w (cmpOf k ta)]) (by simp [Op.wf])))
      · refine Post.bind (hA m s σ ρ hs) (le_refl _) l2 fun x σ1 ρ1 g1 s1 k1 => ?_
        refine Post.bind (hB m _ σ1 ρ1 s1) l1 (le_refl _) fun y σ2 ρ2 g2 s2 k2 => ?_
        refine Post.line ?_ (fun _ _ => relV_range ..) s2 (Keep.refl ..)
        rw [stk_true sa, stk_true sb, stk_true int_scalar, relV, rep_bool, ← rep_like lk y]
        have := cmp_ok sa k (g1 rfl sa) (inR_like (like_symm lk) (g2 rfl sb))
        simp only [runL, Res.bind, step]
        rw [if_pos ⟨rfl, rfl⟩, this]
        simp

theorem ok_neg {c : Ctx} {t u : T} {ts : List Tok} {n n' : Nat} {f : State → Ou Int} (h : OkE c true ts u n n' f)
    (ht : t.scalar = true) (hu : u.scalar = true) (h4 : 4 ≤ t.size) (hw : u.w = t.w) :
    OkE c true (.op (.const t.w 0) :: ts ++ genArith .sub t) t n n' (fun σ => (f σ).bind fun a σ => .val (conv t.size t.uns (-a)) σ) := by
  obtain ⟨C, fC, hC⟩ := h
  have f0 : Frag [Tok.op (.const t.w 0)] (line [.const t.w 0]) := frag_line (os := [.const t.w 0]) (by
    intro o ho
    rw [List.mem_singleton.1 ho]
    cases t.w <;> decide)
  refine ⟨(line [.const t.w 0]).app (C.app (line [.bin t.w .sub])), ?_, fun m s σ ρ hs => ?_⟩
  · exact f0.append (b := ts ++ genArith .sub t) (fC.append (frag_line (os := [.bin t.w .sub]) (by simp [Op.wf])))
  · rw [exec_app, exec_line]
    refine Post.bind (hC m (rep t 0 :: s) σ ρ hs) (le_refl _) (le_refl _) fun v σ' ρ' g sm k => ?_
    refine Post.line ?_ (valOk_conv _ _ _ _) sm (Keep.refl ..)
    have := binOp_ok (o := .sub) (a := 0) (b := v) ht (by simp) h4 rfl
    rw [show (0 - v) = -v by omega] at this
    rw [stk_true hu, stk_true ht]
    simp only [runL, Res.bind, step, rep, hw, and_self, if_true]
    simp only [arOp] at this
    rw [this]

theorem ok_bnot {c : Ctx} {t u : T} {ts : List Tok} {n n' : Nat} {f : State → Ou Int} (h : OkE c true ts u n n' f)
    (ht : t.scalar = true) (hu : u.scalar = true) (h4 : 4 ≤ t.size) (hw : u.w = t.w) :
    OkE c true (ts ++ .op (.const t.w (-1)) :: genArith (.op .bxor) t) t n n'
      (fun σ => (f σ).bind fun a σ => .val (conv t.size t.uns (-a - 1)) σ) := by
  obtain ⟨C, fC, hC⟩ := h
  refine ⟨C.app (line [.const t.w (-1), .bin t.w .xor]), ?_, fun m s σ ρ hs => ?_⟩
  · refine fC.append (frag_line (os := [.const t.w (-1), .bin t.w .xor]) ?_)
    intro o ho
    simp only [List.mem_cons, List.not_mem_nil, or_false] at ho
    rcases ho with rfl | rfl
    · cases t.w <;> decide
    · rfl
  · refine Post.bind (hC m s σ ρ hs) (le_refl _) (le_refl _) fun v σ' ρ' g sm k => ?_
    refine Post.line ?_ (valOk_conv _ _ _ _) sm (Keep.refl ..)
    have key : ∀ b : Nat, 0 < b → pat b v ^^^ pat b (-1) = pat b (-v - 1) := by
      intro b hb
      have h1 : pat b (-1) = 2 ^ b - 1 := by
        have h2 : ((pat b (-1) : Nat) : Int) = ((2 ^ b - 1 : Nat) : Int) := by
          rw [pat_cast]
          have : (1 : Int) ≤ 2 ^ b := by exact_mod_cast Nat.one_le_two_pow
          push_cast [Nat.one_le_two_pow]
          rw [show (-1 : Int) = (2 ^ b - 1) + (2 ^ b) * (-1) by omega, Int.add_mul_emod_self_left]
          exact Int.emod_eq_of_lt (by omega) (by omega)
        exact_mod_cast h2
      have hx : pat b v ^^^ (2 ^ b - 1) = 2 ^ b - (pat b v + 1) := by
        apply Nat.eq_of_testBit_eq
        intro i
        rw [Nat.testBit_two_pow_sub_succ (pat_lt b v), Nat.testBit_xor, Nat.testBit_two_pow_sub_one]
        by_cases hi : i < b
        · simp [hi]
        · rw [Nat.testBit_lt_two_pow (lt_of_lt_of_le (pat_lt b v) (Nat.pow_le_pow_right (by omega) (by omega)))]
          simp [hi]
      rw [h1, hx]
      apply natKey
      have := pat_lt b v
      have e := pat_cast b v
      have l := Int.emod_nonneg v (show (2 : Int) ^ b ≠ 0 by positivity)
      have hp : ((2 ^ b : Nat) : Int) = (2 : Int) ^ b := by push_cast; rfl
      rw [pat_cast]
      have q : (-v - 1) % (2 : Int) ^ b = (2 : Int) ^ b - 1 - v % 2 ^ b := by
        have := Int.emod_add_mul_ediv v (2 ^ b)
        rw [show (-v - 1) = ((2 : Int) ^ b - 1 - v % 2 ^ b) + (2 : Int) ^ b * (-(v / 2 ^ b) - 1) by
          rw [Int.mul_sub, Int.mul_neg]; omega]
        rw [Int.add_mul_emod_self_left]
        have l2 := Int.emod_lt_of_pos v (show (0 : Int) < 2 ^ b by positivity)
        exact Int.emod_eq_of_lt (by omega) (by omega)
      omega
    rw [stk_true hu, stk_true ht]
    simp only [runL, Res.bind, step, rep, hw, and_self, if_true, binOp]
    rw [bits_of ht h4, pat_conv ht, key _ (by omega)]

theorem ok_comma {c : Ctx} {ta t : T} {need : Bool} {as bs : List Tok} {n n1 n' : Nat} {f g : State → Ou Int}
    (ha : OkE c false as ta n n1 f) (hb : OkE c need bs t n1 n' g) (l1 : n ≤ n1) (l2 : n1 ≤ n') :
    OkE c need (as ++ bs) t n n' (fun σ => (f σ).bind fun _ σ => g σ) := by
  obtain ⟨A, fA, hA⟩ := ha
  obtain ⟨B, fB, hB⟩ := hb
  refine ⟨A.app B, fA.append fB, fun m s σ ρ hs => ?_⟩
  refine Post.bind (hA m s σ ρ hs) (le_refl _) l2 fun x σ1 ρ1 g1 s1 k1 => ?_
  rw [stk_false]
  exact (hB m s σ1 ρ1 s1).mono l1 (le_refl _)

/-! ## Conditions -/

/-- The truth of a value, or its negation. -/
def tv (tf : Bool) (a : Int) : Int := if decide (a ≠ 0) = tf then 1 else 0

theorem tv_range (tf : Bool) (a : Int) : InR .int (tv tf a) := by
  unfold tv
  by_cases h : decide (a ≠ 0) = tf
  · rw [if_pos h]; unfold InR; decide
  · rw [if_neg h]; unfold InR; decide

def OkC (c : Ctx) (tf need : Bool) (ts : List Tok) (n n' : Nat) (f : State → Ou Int) : Prop :=
  OkE c need ts .int n n' (fun σ => (f σ).bind fun a σ => .val (tv tf a) σ)

theorem Post.ite {c : Ctx} {u : T} {need : Bool} {p : Prop} [Decidable p] {G : Int → State → Prop} {n n' m : Nat} {ρ : St} {o : Ou Int}
    {A B : Code} {s : List V}
    (h : Post c (fun a => stk need u a []) G n n' ρ o (if p then exec c.E m A [] ρ else exec c.E m B [] ρ)) :
    Post c (fun a => stk need u a s) G n n' ρ o
      (exec c.E m (.ite (if need && u ≠ .void then some u.w else none) A B .done) (rep .int (if p then 1 else 0) :: s) ρ) := by
  have e : exec c.E m (.ite (if need && u ≠ .void then some u.w else none) A B .done) (rep .int (if p then 1 else 0) :: s) ρ =
      leave (if need && u ≠ .void then some u.w else none) s (exec c.E m .done)
        (if p then exec c.E m A [] ρ else exec c.E m B [] ρ) := by
    rw [rep_bool]
    simp only [exec, if_true]
    by_cases hp : p <;> simp [hp]
  rw [e]
  revert h
  generalize (if p then exec c.E m A [] ρ else exec c.E m B [] ρ) = r
  cases o with
  | val a σ =>
    rintro ⟨g, ρ', rfl, sm, k⟩
    refine ⟨g, ρ', ?_, sm, k⟩
    simp only [leave, fall, stk]
    by_cases hq : (need && decide (u ≠ .void)) = true
    · simp only [hq, if_true]
      simp [rep, exec]
    · simp only [hq]
      simp [exec]
  | stop =>
    intro h
    have h : r = .stop := h
    rw [h]
    rfl
  | ub => intro _; trivial

theorem tv_one (tf : Bool) (a : Int) : tv tf a = 1 ↔ decide (a ≠ 0) = tf := by
  unfold tv; by_cases h : decide (a ≠ 0) = tf
  · rw [if_pos h]; simp [h]
  · rw [if_neg h]; exact ⟨fun q => absurd q (by omega), fun q => absurd q h⟩

/-- What follows a condition. -/
theorem Post.cond {c : Ctx} {G : Int → State → Prop} {F' : Int → List V} {G' : Int → State → Prop} {a b n n' m : Nat} {ρ : St} {tf : Bool}
    {o : Ou Int} {f : Int → State → Ou Int} {C D : Code} {s : List V}
    (h : Post c (fun a => stk true .int a s) G a b ρ (o.bind fun a σ => .val (tv tf a) σ) (exec c.E m C s ρ)) (h1 : n ≤ a) (h2 : b ≤ n')
    (k : ∀ x σ' ρ', Sim c σ' ρ' → Post c F' G' n n' ρ' (f x σ')
      (exec c.E m D (rep .int (if decide (x ≠ 0) = tf then 1 else 0) :: s) ρ')) :
    Post c F' G' n n' ρ (o.bind f) (exec c.E m (C.app D) s ρ) := by
  rw [exec_app]
  cases o with
  | val x σ =>
    obtain ⟨g, ρ', e, sm, kp⟩ := h
    rw [e]
    have h := k x σ ρ' sm
    show Post c F' G' n n' ρ (f x σ) _
    have kp' := kp.mono h1 h2
    simp only [Res.bind, stk_true int_scalar]
    revert h
    rw [show tv tf x = if decide (x ≠ 0) = tf then 1 else 0 from rfl]
    cases f x σ with
    | val w σ' =>
      rintro ⟨g', ρ'', e', sm', k'⟩
      exact ⟨g', ρ'', e', sm', kp'.trans k'⟩
    | stop => exact id
    | ub => exact id
  | stop =>
    have h : exec c.E m C s ρ = .stop := h
    rw [h]
    rfl
  | ub => trivial

/-- What `&&` (`land`) and `||` mean. -/
def logV (land : Bool) (f g : State → Ou Int) (σ : State) : Ou Int :=
  (f σ).bind fun x σ => if decide (x ≠ 0) = land then (g σ).bind fun y σ => .val (relV .ne y 0) σ else .val (if land then 0 else 1) σ

theorem tv_rel (tf : Bool) (y : Int) : tv tf (relV .ne y 0) = tv tf y := by
  unfold tv relV holds
  by_cases h : y = 0 <;> simp [h]

theorem rep_int_const (p : Prop) [Decidable p] : (⟨.i32, pat 32 (if p then 1 else 0)⟩ : V) = rep .int (if p then 1 else 0) := rfl

theorem ok_log {c : Ctx} {land tf need : Bool} {as bs : List Tok} {n n1 n' : Nat} {f g : State → Ou Int}
    (ha : OkC c land true as n n1 f) (hb : OkC c tf need bs n1 n' g) (l1 : n ≤ n1) (l2 : n1 ≤ n') :
    OkC c tf need (logCode land tf need as bs) n n' (logV land f g) := by
  obtain ⟨A, fA, hA⟩ := ha
  obtain ⟨B, fB, hB⟩ := hb
  have e : ∀ σ, (logV land f g σ).bind (fun a σ => .val (tv tf a) σ) =
      (f σ).bind fun x σ =>
        if decide (x ≠ 0) = land then (g σ).bind (fun a σ => .val (tv tf a) σ) else .val (tv tf (if land then 0 else 1)) σ := by
    intro σ
    unfold logV
    cases f σ with
    | val x σ =>
      simp only [Ou.bind]
      by_cases h : decide (x ≠ 0) = land
      · rw [if_pos h, if_pos h]
        cases g σ <;> simp [tv_rel]
      · rw [if_neg h, if_neg h]
    | stop => rfl
    | ub => rfl
  cases need with
  | true =>
    have w1 : Op.wf (.const .i32 (if tf ^^ land then 1 else 0)) = true := by cases tf <;> cases land <;> decide
    refine ⟨A.app (.ite (some .i32) B (line [.const .i32 (if tf ^^ land then 1 else 0)]) .done), ?_, fun m s σ ρ hs => ?_⟩
    · have := fA.append (fB.ite (t := some .i32) (frag_line (os := [.const .i32 (if tf ^^ land then 1 else 0)]) (by simpa using w1)))
      simpa [logCode] using this
    · dsimp only
      rw [e]
      refine Post.cond (hA m s σ ρ hs) (le_refl _) l2 fun x σ1 ρ1 s1 => ?_
      refine Post.ite (u := .int) (need := true) ?_
      by_cases h : decide (x ≠ 0) = land
      · rw [if_pos h, if_pos h]
        exact (hB m [] σ1 ρ1 s1).mono l1 (le_refl _)
      · rw [if_neg h, if_neg h]
        refine Post.line ?_ (fun _ _ => tv_range ..) s1 (Keep.refl ..)
        rw [stk_true int_scalar]
        cases tf <;> cases land <;> rfl
  | false =>
    refine ⟨A.app (.ite none B .done .done), ?_, fun m s σ ρ hs => ?_⟩
    · have := fA.append fB.when
      simpa [logCode] using this
    · dsimp only
      rw [e]
      refine Post.cond (hA m s σ ρ hs) (le_refl _) l2 fun x σ1 ρ1 s1 => ?_
      refine Post.ite (u := .int) (need := false) ?_
      by_cases h : decide (x ≠ 0) = land
      · rw [if_pos h, if_pos h]
        exact (hB m [] σ1 ρ1 s1).mono l1 (le_refl _)
      · rw [if_neg h, if_neg h]
        exact Post.done (by rw [stk_false]) (fun q => nomatch q) s1

/-- The value of `&&` and `||` is their truth. -/
theorem logV_tv (land : Bool) (f g : State → Ou Int) : (fun σ => (logV land f g σ).bind fun a σ => .val (tv true a) σ) = logV land f g := by
  funext σ
  unfold logV
  cases f σ with
  | val x σ =>
    simp only [Ou.bind]
    by_cases h : decide (x ≠ 0) = land
    · rw [if_pos h]
      cases g σ with
      | val y σ => simp only [tv_rel]; congr 1; unfold tv relV holds; by_cases h : y = 0 <;> simp [h]
      | stop => rfl
      | ub => rfl
    · rw [if_neg h]
      cases land <;> rfl
  | stop => rfl
  | ub => rfl

theorem ok_tern {c : Ctx} {t ta tb : T} {need : Bool} {cs as bs : List Tok} {n n1 n2 n' : Nat} {f g h : State → Ou Int}
    (hc : OkC c true true cs n n1 f) (ha : OkE c need as ta n1 n2 g) (hb : OkE c need bs tb n2 n' h) (l1 : n ≤ n1) (l2 : n1 ≤ n2)
    (l3 : n2 ≤ n') (hn : need = true → t.scalar = true ∧ like ta t = true ∧ like tb t = true ∧ ta.scalar = true ∧ tb.scalar = true) :
    OkE c need (cs ++ .if_ (if need && t ≠ .void then some t.w else none) :: as ++ .else_ :: bs ++ [.end_]) t n n'
      (fun σ => (f σ).bind fun x σ => if x ≠ 0 then g σ else h σ) := by
  obtain ⟨C, fC, hC⟩ := hc
  obtain ⟨A, fA, hA⟩ := ha
  obtain ⟨B, fB, hB⟩ := hb
  have conv : ∀ (u : T) (a b : Nat) (ρ : St) (o : Ou Int) (r : Res), (need = true → like u t = true ∧ u.scalar = true) →
      Post c (fun a => stk need u a []) (ValOk need u) a b ρ o r → Post c (fun a => stk need t a []) (ValOk need t) a b ρ o r := by
    intro u a b ρ o r hu hp
    cases o with
    | val v σ =>
      obtain ⟨g, ρ', e, sm, k⟩ := hp
      cases need with
      | false => exact ⟨fun q => (nomatch q), ρ', by rw [e]; dsimp only; rw [stk_false, stk_false], sm, k⟩
      | true =>
        obtain ⟨hl, hs⟩ := hu rfl
        refine ⟨fun _ _ => inR_like hl (g rfl hs), ρ', ?_, sm, k⟩
        rw [e]; dsimp only; rw [stk_true hs, stk_true (hn rfl).1, rep_like hl]
    | stop => exact hp
    | ub => trivial
  refine ⟨C.app (.ite (if need && t ≠ .void then some t.w else none) A B .done), ?_, fun m s σ ρ hs => ?_⟩
  · have := fC.append (fA.ite (t := if need && t ≠ .void then some t.w else none) fB)
    simpa using this
  · refine Post.cond (hC m s σ ρ hs) (le_refl _) (by omega) fun x σ1 ρ1 s1 => ?_
    refine Post.ite (u := t) (need := need) ?_
    by_cases hx : x ≠ 0
    · rw [if_pos hx, if_pos (by simpa using hx)]
      exact conv ta _ _ _ _ _ (fun q => ⟨(hn q).2.1, (hn q).2.2.2.1⟩) ((hA m [] σ1 ρ1 s1).mono l1 l3)
    · rw [if_neg hx, if_neg (by simpa using hx)]
      exact conv tb _ _ _ _ _ (fun q => ⟨(hn q).2.2.1, (hn q).2.2.2.2⟩) ((hB m [] σ1 ρ1 s1).mono (by omega) (le_refl _))

/-! ## Objects -/

def setLoc (ρ : St) (i : Nat) (v : V) : St := { ρ with loc := fun y => if y = i then v else ρ.loc y }

theorem Sim.setReg {c : Ctx} (hc : FnOk c) {σ : State} {ρ : St} (h : Sim c σ ρ) {x : Nat} (hr : c.Γ.loc x = .reg) {v : Int}
    (hv : InR (c.Γ.ty x) v) : Sim c { σ with env := fun y => if y = x then v else σ.env y } (setLoc ρ (c.Γ.ix x) (rep (c.Γ.ty x) v)) := by
  refine ⟨fun y hy hry => ?_, h.mem, ?_⟩
  · by_cases e : y = x
    · subst e
      simp only [setLoc, if_true]
      exact ⟨trivial, hv⟩
    · have e' : ¬ c.Γ.ix y = c.Γ.ix x := fun q => e (hc.inj y x hry hr q)
      simp only [setLoc, e, e', if_false]
      exact h.reg y hy hry
  · simp only [setLoc, (hc.bpx x hr).symm, if_false]
    exact h.bp

theorem Sim.setTmp {c : Ctx} (hc : FnOk c) {σ : State} {ρ : St} (h : Sim c σ ρ) {x : Nat} (hx : c.Γ.n0 ≤ x) (v : V) :
    Sim c σ (setLoc ρ (c.Γ.ix x) v) := by
  have hr := hc.tmp x hx
  refine ⟨fun y hy hry => ?_, h.mem, ?_⟩
  · have e : ¬ c.Γ.ix y = c.Γ.ix x := fun q => by have := hc.inj y x hry hr q; omega
    simp only [setLoc, e, if_false]
    exact h.reg y hy hry
  · simp only [setLoc, (hc.bpx x hr).symm, if_false]
    exact h.bp

theorem Sim.setMem {c : Ctx} {σ : State} {ρ : St} (h : Sim c σ ρ) (m : Nat → Nat) : Sim c { σ with mem := m } { ρ with mem := m } :=
  ⟨h.reg, rfl, h.bp⟩

theorem Keep.setReg {c : Ctx} (hc : FnOk c) (n n' : Nat) (ρ : St) {x : Nat} (hx : x < c.Γ.n0) (hr : c.Γ.loc x = .reg) (v : V) :
    Keep c n n' ρ (setLoc ρ (c.Γ.ix x) v) := by
  refine ⟨fun y hy _ => ?_, rfl⟩
  have e : ¬ c.Γ.ix y = c.Γ.ix x := fun q => by have := hc.inj y x (hc.tmp y hy) hr q; omega
  simp only [setLoc, e, if_false]

theorem Keep.setTmp {c : Ctx} (hc : FnOk c) {n n' : Nat} (ρ : St) {x : Nat} (hx : c.Γ.n0 ≤ x) (h1 : n ≤ x) (h2 : x < n') (v : V) :
    Keep c n n' ρ (setLoc ρ (c.Γ.ix x) v) := by
  refine ⟨fun y hy hn => ?_, rfl⟩
  have e : ¬ c.Γ.ix y = c.Γ.ix x := fun q => by have := hc.inj y x (hc.tmp y hy) (hc.tmp x hx) q; omega
  simp only [setLoc, e, if_false]

theorem Keep.setMem (c : Ctx) (n n' : Nat) (ρ : St) (m : Nat → Nat) : Keep c n n' ρ { ρ with mem := m } := ⟨fun _ _ _ => rfl, rfl⟩

theorem setLoc_get (ρ : St) (i : Nat) (v : V) : (setLoc ρ i v).loc i = v := by simp [setLoc]

theorem tmp_ne {c : Ctx} (hc : FnOk c) {x y : Nat} (hx : c.Γ.n0 ≤ x) (hy : c.Γ.n0 ≤ y) (h : x ≠ y) : c.Γ.ix x ≠ c.Γ.ix y :=
  fun q => h (hc.inj x y (hc.tmp x hx) (hc.tmp y hy) q)

/-- The code of the address of an lvalue. -/
def lvTok (Γ : Fn) : X → List Tok
  | .var _ x => addrVar Γ x
  | .deref _ e => gen Γ true e
  | _ => [.bad]

/-- An object as an operand: its address. -/
def oV : Obj → V
  | .addr a => ⟨.i32, a⟩
  | .reg _ => ⟨.i32, 0⟩

def OkL (c : Ctx) (l : X) (ts : List Tok) (n n' : Nat) : Prop :=
  ∃ C, Frag ts C ∧ ∀ m s σ ρ, Sim c σ ρ → Post c (fun o => oV o :: s)
    (fun o _ => (∃ a, o = .addr a) ∧ ∀ u x, l = .var u x → o = place c x) n n' ρ (lv c l σ) (exec c.E m C s ρ)

theorem ptr_rep {t : T} (ht : t.scalar = true) (hw : t.w = .i32) (hu : t.uns = true) {a : Int} (ha : InR t a) :
    rep t a = ⟨.i32, a.toNat⟩ ∧ 0 ≤ a ∧ a < 4294967296 := by
  unfold InR InRange at ha
  rw [hu, if_pos rfl] at ha
  have hs : t.size ≤ 4 := by
    by_contra q
    rw [w_of_gt q] at hw
    cases hw
  have hb : a < 4294967296 := by
    rcases tsz ht with e | e | e | e <;> rw [e] at ha hs <;> norm_num at ha <;> omega
  refine ⟨?_, ha.1, hb⟩
  unfold rep
  rw [hw]
  congr 1
  apply natKey
  show ((pat 32 a : Nat) : Int) = _
  rw [pat32]
  omega

theorem ok_lvVar {c : Ctx} (hc : FnOk c) {t : T} {x : Nat} (n : Nat) (hr : c.Γ.loc x ≠ .reg) :
    OkL c (.var t x) (addrVar c.Γ x) n n := by
  obtain ⟨C, a, fC, pl, -, eC⟩ := addr_ok hc hr
  refine ⟨C, fC, fun m s σ ρ hs => ?_⟩
  simp only [lv, pl]
  exact ⟨⟨⟨a, rfl⟩, fun u y q => by cases q; exact pl.symm⟩, ρ, eC m s ρ hs.bp, hs, Keep.refl ..⟩

theorem ok_lvDeref {c : Ctx} {t u : T} {e : X} {ts : List Tok} {n n' : Nat} (h : OkE c true ts u n n' (ev c true e)) (hu : u.scalar = true)
    (hw : u.w = .i32) (hn : u.uns = true) : OkL c (.deref t e) ts n n' := by
  obtain ⟨C, fC, hC⟩ := h
  refine ⟨C.app .done, by simpa using fC.append Frag.nil, fun m s σ ρ hs => ?_⟩
  simp only [lv]
  refine Post.bind (hC m s σ ρ hs) (le_refl _) (le_refl _) fun a σ' ρ' g sm k => ?_
  refine ⟨⟨⟨_, rfl⟩, fun u y q => nomatch q⟩, ρ', ?_, sm, Keep.refl ..⟩
  rw [stk_true hu, (ptr_rep hu hw hn (g rfl hu)).1]
  rfl

theorem ok_deref {c : Ctx} {t u : T} {need : Bool} {ts : List Tok} {n n' : Nat} {f : State → Ou Int} (h : OkE c need ts u n n' f)
    (ht : t.scalar = true) (hu : u.scalar = true) (hw : u.w = .i32) (hn : u.uns = true) :
    OkE c need (ts ++ if need then genLoad t else []) t n n' (fun σ => (f σ).bind fun a σ => getO c t (.addr a.toNat) σ) := by
  obtain ⟨C, fC, hC⟩ := h
  cases need with
  | false =>
    refine ⟨C.app .done, fC.append Frag.nil, fun m s σ ρ hs => ?_⟩
    refine Post.bind (hC m s σ ρ hs) (le_refl _) (le_refl _) fun v σ' ρ' g sm k => ?_
    rw [stk_false]
    exact get_addr_false sm
  | true =>
    refine ⟨_, fC.append (genLoad_frag ht), fun m s σ ρ hs => ?_⟩
    refine Post.bind (hC m s σ ρ hs) (le_refl _) (le_refl _) fun v σ' ρ' g sm k => ?_
    rw [stk_true hu, (ptr_rep hu hw hn (g rfl hu)).1]
    exact get_addr ht sm

/-! ## Assignment -/

/-- A value stored is read. -/
theorem rd_wr {t : T} (ht : t.scalar = true) {v : Int} (hv : InR t v) (mem : Nat → Nat) (a : Nat) :
    conv t.size t.uns (rdB (wrB mem a t.size (pat (8 * t.size) v)) a t.size) = v := by
  rw [rdB_wrB, Nat.mod_eq_of_lt (pat_lt _ _)]
  have h := pat_mod (8 * t.size) v
  have h : ((pat (8 * t.size) v : Nat) : Int) % 2 ^ (8 * t.size) = v % 2 ^ (8 * t.size) := h
  refine Eq.trans ?_ (conv_id (tsz ht) t.uns hv)
  unfold conv toS
  rw [h]

/-- What an assignment promises: the value is one of the type, and the object holds it. -/
def AsgOk (c : Ctx) (t : T) (l : X) (v : Int) (σ : State) : Prop :=
  InR t v ∧ ∀ u x, l = .var u x → getO c t (place c x) σ = .val v σ

theorem ok_asgMem {c : Ctx} {l : X} {t u : T} {ls rs : List Tok} {n n1 n' : Nat} {f : State → Ou Int}
    (hl : OkL c l ls n n1) (hr : OkE c true rs u n1 n' f) (l1 : n ≤ n1) (l2 : n1 ≤ n') (ht : t.scalar = true) (hu : u.scalar = true)
    (lk : like t u = true) :
    ∃ C, Frag (ls ++ rs ++ genStore t) C ∧ ∀ m s σ ρ, Sim c σ ρ → Post c (fun _ => s) (AsgOk c t l) n n' ρ
      ((lv c l σ).bind fun o σ => (f σ).bind fun v σ => (putO c t o v σ).bind fun _ σ => .val v σ) (exec c.E m C s ρ) := by
  obtain ⟨A, fA, hA⟩ := hl
  obtain ⟨B, fB, hB⟩ := hr
  refine ⟨A.app (B.app (line [.store t.w t.size])), ?_, fun m s σ ρ hs => ?_⟩
  · rw [List.append_assoc]; exact fA.append (fB.append (genStore_frag ht))
  · refine Post.bind (hA m s σ ρ hs) (le_refl _) l2 fun o σ1 ρ1 g1 s1 k1 => ?_
    refine Post.bind (hB m _ σ1 ρ1 s1) l1 (le_refl _) fun v σ2 ρ2 g2 s2 k2 => ?_
    obtain ⟨⟨a, rfl⟩, gv⟩ := g1
    have hv := inR_like (like_symm lk) (g2 rfl hu)
    rw [stk_true hu, ← rep_like lk]
    unfold putO
    dsimp only
    split
    · rename_i ha
      refine Post.line (store_run c.E ht s ρ2 ha) ⟨hv, fun u x q => ?_⟩ (by rw [s2.mem]; exact s2.setMem _) (Keep.setMem ..)
      rw [← gv u x q]
      simp only [getO, ha, if_true, rd_wr ht hv]
    · trivial

theorem ok_asgReg {c : Ctx} (hc : FnOk c) {t u : T} {x : Nat} {rs : List Tok} {n n' : Nat} {f : State → Ou Int}
    (hr : OkE c true rs u n n' f) (hx : x < c.Γ.n0) (hx' : c.Γ.loc x = .reg) (ht : t = c.Γ.ty x) (hu : u.scalar = true) (lk : like t u = true) :
    ∃ C, Frag (rs ++ [.op (.lset (c.Γ.ix x))]) C ∧ ∀ m s σ ρ, Sim c σ ρ → Post c (fun _ => s) (AsgOk c t (.var t x)) n n' ρ
      ((lv c (.var t x) σ).bind fun o σ => (f σ).bind fun v σ => (putO c t o v σ).bind fun _ σ => .val v σ) (exec c.E m C s ρ) := by
  obtain ⟨B, fB, hB⟩ := hr
  have pl : place c x = .reg x := by simp [place, hx']
  refine ⟨B.app (line [.lset (c.Γ.ix x)]), fB.append (frag_line (os := [.lset (c.Γ.ix x)]) (by simp [Op.wf])), fun m s σ ρ hs => ?_⟩
  simp only [lv, pl]
  change Post c _ _ n n' ρ ((f σ).bind fun v σ => .val v { σ with env := fun y => if y = x then v else σ.env y }) _
  refine Post.bind (hB m s σ ρ hs) (le_refl _) (le_refl _) fun v σ1 ρ1 g1 s1 k1 => ?_
  have hv := inR_like (like_symm lk) (g1 rfl hu)
  rw [stk_true hu, ← rep_like lk]
  subst ht
  refine Post.line rfl ⟨hv, fun u y q => ?_⟩ (s1.setReg hc hx' hv) (Keep.setReg hc _ _ _ hx hx' _)
  cases q
  simp [getO, pl]

theorem Post.pre {α : Type} {c : Ctx} {F : α → List V} {G : α → State → Prop} {n n' : Nat} {ρ1 ρ2 : St} {o : Ou α} {r : Res}
    (h : Post c F G n n' ρ2 o r) (k : Keep c n n' ρ1 ρ2) : Post c F G n n' ρ1 o r := by
  cases o with
  | val v σ =>
    obtain ⟨g, ρ', e, s, k'⟩ := h
    exact ⟨g, ρ', e, s, k.trans k'⟩
  | _ => exact h

/-- The claim about expressions. -/
def PE (c : Ctx) (e : X) : Prop :=
  ∀ need n, wt c need e = true → c.Γ.n0 ≤ n → OkE c need (gen c.Γ need (trav c.Γ need e n).1) e.ty n (trav c.Γ need e n).2 (ev c need e)

/-- The code of an lvalue in memory. -/
theorem ok_lv {c : Ctx} (hc : FnOk c) {l : X} (hl : wtL c l = true) (hr : l.isReg c.Γ = false) (ih : ∀ t e, l = .deref t e → PE c e)
    (need : Bool) {n : Nat} (hn : c.Γ.n0 ≤ n) : OkL c l (lvTok c.Γ (trav c.Γ need l n).1) n (trav c.Γ need l n).2 := by
  cases l with
  | var t x =>
    simp only [trav, lvTok]
    exact ok_lvVar hc n (by simpa [X.isReg] using hr)
  | deref t e =>
    simp only [wtL, Bool.and_eq_true, decide_eq_true_eq] at hl
    obtain ⟨⟨⟨⟨⟨h1, h2⟩, h3⟩, h4⟩, h5⟩, h6⟩ := hl
    have e1 : trav c.Γ need e n = trav c.Γ true e n := by
      cases need with
      | true => rfl
      | false => exact (trav_plain c.Γ e n h2).symm
    simp only [trav, lvTok, e1]
    exact ok_lvDeref (ih t e rfl true n h1 hn) h3 h4 h5
  | _ => simp [wtL] at hl

theorem gen_asg_mem {c : Ctx} {l : X} (hl : wtL c l = true) (hr : l.isReg c.Γ = false) (need need' : Bool) (n : Nat) (r : X) :
    gen c.Γ need' (.asg (trav c.Γ need l n).1 r) = lvTok c.Γ (trav c.Γ need l n).1 ++ gen c.Γ true r ++ genStore l.ty := by
  cases l with
  | var t x =>
    have : ¬ c.Γ.loc x = .reg := by simpa [X.isReg] using hr
    simp only [trav, gen, lvTok, this, if_false, X.ty]
  | deref t e => simp only [trav, gen, lvTok, X.ty]
  | _ => simp [wtL] at hl

theorem ok_asgCore {c : Ctx} (hc : FnOk c) {l r : X} {rs : List Tok} {r' : X} {n2 : Nat} {f : State → Ou Int} (hl : wtL c l = true)
    (lt : l.ty.scalar = true) (rt : r.ty.scalar = true) (lk : like l.ty r.ty = true) (ih : ∀ t e, l = .deref t e → PE c e) {n : Nat}
    (hn : c.Γ.n0 ≤ n) (hr : OkE c true rs r.ty (trav c.Γ false l n).2 n2 f) (l2 : (trav c.Γ false l n).2 ≤ n2) (e : gen c.Γ true r' = rs) :
    ∃ C, Frag (gen c.Γ false (.asg (trav c.Γ false l n).1 r')) C ∧ ∀ m s σ ρ, Sim c σ ρ → Post c (fun _ => s) (AsgOk c l.ty l) n n2 ρ
      ((lv c l σ).bind fun o σ => (f σ).bind fun v σ => (putO c l.ty o v σ).bind fun _ σ => .val v σ) (exec c.E m C s ρ) := by
  cases hreg : l.isReg c.Γ with
  | false =>
    rw [gen_asg_mem hl hreg, e]
    exact ok_asgMem (ok_lv hc hl hreg ih false hn) hr (trav_mono ..) l2 lt rt lk
  | true =>
    cases l with
    | var t x =>
      simp only [wtL, Bool.and_eq_true, decide_eq_true_eq] at hl
      have hx : c.Γ.loc x = .reg := by simpa [X.isReg] using hreg
      simp only [trav, gen, hx, if_true, e]
      exact ok_asgReg hc hr hl.1.1 hx hl.1.2 rt lk
    | _ => simp [X.isReg] at hreg

theorem Ou.bind_assoc {α β γ : Type} (o : Ou α) (f : α → State → Ou β) (g : β → State → Ou γ) :
    (o.bind f).bind g = o.bind fun a σ => (f a σ).bind g := by
  cases o <;> rfl

theorem gen_comma (Γ : Fn) (need : Bool) (a b : X) : gen Γ need (.comma a b) = gen Γ false a ++ gen Γ need b := by simp only [gen]

theorem gen_asgTmp {c : Ctx} (hc : FnOk c) (need : Bool) {t : T} {x : Nat} (hx : c.Γ.n0 ≤ x) (r : X) :
    gen c.Γ need (.asg (.var t x) r) = gen c.Γ true r ++ [.op (.lset (c.Γ.ix x))] := by
  simp only [gen, hc.tmp x hx, if_true]

theorem gen_tmp {c : Ctx} (hc : FnOk c) {t : T} {x : Nat} (hx : c.Γ.n0 ≤ x) : gen c.Γ true (.var t x) = [.op (.lget (c.Γ.ix x))] := by
  simp only [gen, genVar, hc.tmp x hx, if_true]

theorem ok_asg {c : Ctx} (hc : FnOk c) {l r : X} (ihr : PE c r) (ih : ∀ t e, l = .deref t e → PE c e) : PE c (.asg l r) := by
  intro need n hw hn
  have hw' := hw
  simp only [wt, Bool.and_eq_true] at hw'
  obtain ⟨⟨⟨⟨hl, hr⟩, lk⟩, lt⟩, rt⟩ := hw'
  have m1 := trav_mono c.Γ l false n
  have m2 := trav_mono c.Γ r true (trav c.Γ false l n).2
  have hR := ihr true (trav c.Γ false l n).2 hr (by omega)
  obtain ⟨C, fC, hC⟩ := ok_asgCore hc hl lt rt lk ih hn hR m2 rfl
  have tl : (X.asg l r).ty = l.ty := rfl
  rw [tl]
  cases need with
  | false =>
    simp only [trav, Bool.false_eq_true, if_false]
    refine ⟨C, fC, fun m s σ ρ hs => ?_⟩
    have h := hC m s σ ρ hs
    simp only [ev, Bool.false_and, Bool.false_eq_true, if_false]
    revert h
    cases ((lv c l σ).bind fun o σ => (ev c true r σ).bind fun v σ => (putO c l.ty o v σ).bind fun _ σ => .val v σ) with
    | val v σ' =>
      rintro ⟨g, ρ', e, sm, k⟩
      exact ⟨fun q => (nomatch q), ρ', by rw [e]; dsimp only; rw [stk_false], sm, k⟩
    | stop => exact id
    | ub => exact id
  | true =>
    by_cases hs : r.simple = true
    · -- a constant or a variable
      have er := trav_simple_eq c.Γ hs true (trav c.Γ false l n).2
      rw [er] at hR fC
      simp only [trav, if_true, er, hs]
      rw [er] at hC
      rw [gen_comma]
      obtain ⟨D, fD, hD⟩ := hR
      refine ⟨C.app (D.app .done), by simpa using fC.append (fD.append Frag.nil), fun m s σ ρ hsim => ?_⟩
      have e1 : ev c true (.asg l r) σ = ((lv c l σ).bind fun o σ => (ev c true r σ).bind fun v σ => (putO c l.ty o v σ).bind fun _ σ => .val v σ).bind
          fun v σ => (ev c true r σ).bind fun v' σ => if v' = v then .val v σ else .ub := by
        simp only [ev, hs, Bool.not_true, Bool.and_false, Bool.false_and, Bool.false_eq_true, if_false, Bool.true_and]
        simp only [Ou.bind_assoc]
        cases r with
        | lit t v =>
          simp only [X.isVar, Bool.false_eq_true, if_false, ev]
          cases lv c l σ with
          | val o σ1 =>
            simp only [Ou.bind, if_true]
          | stop => rfl
          | ub => rfl
        | var t x =>
          simp only [X.isVar, if_true]
          rfl
        | _ => simp [X.simple] at hs
      rw [e1]
      refine Post.bind (hC m s σ ρ hsim) (le_refl _) (le_refl _) fun v σ1 ρ1 g1 s1 k1 => ?_
      refine Post.bind (hD m s σ1 ρ1 s1) m1 (le_refl _) fun v' σ2 ρ2 g2 s2 k2 => ?_
      by_cases hv : v' = v
      · rw [if_pos hv, hv]
        refine Post.done ?_ (fun _ _ => g1.1) s2
        rw [stk_true rt, stk_true lt, rep_like lk]
      · rw [if_neg hv]; trivial
    · have hs' : (trav c.Γ true r (trav c.Γ false l n).2).1.simple = false := by rw [trav_simple]; simpa using hs
      have hs'' : r.simple = false := by simpa using hs
      cases hv : l.isVar with
      | true =>
        cases l with
        | var t x =>
          simp only [trav] at hs'
          simp only [trav, if_true, hs', X.isVar, Bool.false_eq_true, if_false]
          rw [gen_comma]
          simp only [wtL] at hl
          obtain ⟨D, fD, hD⟩ := ok_var hc true n (t := t) (x := x) (by simpa only [wt] using hl)
          refine ⟨C.app D, fC.append (by simpa only [gen] using fD), fun m s σ ρ hsim => ?_⟩
          have e1 : ev c true (.asg (.var t x) r) σ = ((lv c (.var t x) σ).bind fun o σ => (ev c true r σ).bind fun v σ => (putO c t o v σ).bind fun _ σ => .val v σ).bind
              fun v σ => .val v σ := by
            have hrv : r.isVar = false := by cases r <;> simp [X.simple, X.isVar] at hs'' ⊢
            have hlv : (X.var t x).isVar = true := rfl
            simp only [ev, hs'', hlv, Bool.not_true, Bool.and_false, Bool.false_eq_true, if_false, Bool.true_and, hrv]
            simp only [Ou.bind_assoc]
            rfl
          rw [e1]
          refine Post.bind (hC m s σ ρ hsim) (le_refl _) (le_refl _) fun v σ1 ρ1 g1 s1 k1 => ?_
          have hg := g1.2 t x rfl
          have h := hD m s σ1 ρ1 s1
          simp only [ev] at h
          rw [show (X.var t x).ty = t from rfl] at hg
          rw [hg] at h
          exact h.mono (le_refl _) (trav_mono ..)
        | _ => simp [X.isVar] at hv
      | false =>
        have hv' : (trav c.Γ false l n).1.isVar = false := by rw [trav_lv_var c hl]; exact hv
        simp only [trav, if_true, hs', hv', Bool.false_eq_true, if_false]
        rw [trav_lv_ty c hl]
        have ht : c.Γ.n0 ≤ (trav c.Γ true r (trav c.Γ false l n).2).2 := by omega
        have hreg : l.isReg c.Γ = false := by cases l <;> simp [X.isVar, X.isReg] at hv ⊢
        rw [gen_comma, gen_comma, gen_asgTmp hc _ ht, gen_asg_mem hl hreg, gen_tmp hc ht]
        obtain ⟨A, fA, hA⟩ := ok_lv hc hl hreg ih false hn
        obtain ⟨D, fD, hD⟩ := hR
        generalize htv : c.Γ.ix (trav c.Γ true r (trav c.Γ false l n).2).2 = tx
        refine ⟨D.app ((line [.lset tx]).app (A.app (line [.lget tx, .store l.ty.w l.ty.size, .lget tx]))), ?_, fun m s σ ρ hsim => ?_⟩
        · have f1 : Frag [.op (.lset tx)] (line [.lset tx]) := frag_line (os := [.lset tx]) (by simp [Op.wf])
          have f2 : Frag [.op (.lget tx)] (line [.lget tx]) := frag_line (os := [.lget tx]) (by simp [Op.wf])
          have := fD.append (f1.append (fA.append (f2.append ((genStore_frag lt).append f2))))
          simpa [line, Code.app] using this
        · have e1 : ev c true (.asg l r) σ = (ev c true r σ).bind fun v σ => (lv c l σ).bind fun o σ => (putO c l.ty o v σ).bind fun _ σ => .val v σ := by
            simp only [ev, hs'', hv, Bool.not_false, Bool.and_self, if_true]
          rw [e1]
          refine Post.bind (hD m s σ ρ hsim) m1 (by omega) fun v σ1 ρ1 g1 s1 k1 => ?_
          have hvr := inR_like (like_symm lk) (g1 rfl rt)
          rw [stk_true rt, ← rep_like lk, exec_app, exec_line]
          simp only [runL, Res.bind, step]
          change Post c _ _ _ _ _ _ (exec c.E m (A.app _) s (setLoc ρ1 tx (rep l.ty v)))
          subst htv
          have k0 : Keep c n ((trav c.Γ true r (trav c.Γ false l n).2).2 + 1) ρ1 (setLoc ρ1 _ (rep l.ty v)) :=
            Keep.setTmp hc ρ1 ht (by omega) (Nat.lt_succ_self _) (rep l.ty v)
          refine Post.pre ?_ k0
          refine Post.bind (hA m s σ1 _ (s1.setTmp hc ht _)) (le_refl _) (by omega) fun o σ2 ρ2 g2 s2 k2 => ?_
          obtain ⟨⟨a, rfl⟩, -⟩ := g2
          have hget : ρ2.loc (c.Γ.ix (trav c.Γ true r (trav c.Γ false l n).2).2) = rep l.ty v := by
            rw [k2.tmp _ ht (by omega), setLoc_get]
          unfold putO
          dsimp only
          split
          · rename_i ha
            refine Post.line ?_ (fun _ _ => hvr) (s2.setMem (wrB σ2.mem a l.ty.size (pat (8 * l.ty.size) v))) (Keep.setMem ..)
            simp only [runL, Res.bind, step, hget, oV, rep, ha, and_self, if_true, store_ok lt, s2.mem, stk_true lt]
          · trivial

/-! ## Increment and decrement -/

theorem inc_op (b : Nat) (dec : Bool) (t : T) (x k : Int) :
    binOp b (arOp (if dec then .sub else .add) t) (pat b x) (pat b k) = some (pat b (if dec then x - k else x + k)) := by
  cases dec with
  | true =>
    simp only [if_true, arOp, binOp]
    congr 1
    exact pat_modEq (Int.ModEq.sub (pat_mod b x) (pat_mod b k))
  | false =>
    simp only [Bool.false_eq_true, if_false, arOp, binOp]
    congr 1
    apply natKey
    push_cast
    rw [pat_cast, pat_cast, pat_cast, ← Int.add_emod]

theorem pat_wide {t : T} (ht : t.scalar = true) (h4 : 4 ≤ t.size) (a : Int) : (⟨t.w, pat t.w.bits a⟩ : V) = rep t (conv t.size t.uns a) := by
  unfold rep
  rw [bits_of ht h4, pat_conv ht]

/-- The new value. -/
def incV (t : T) (dec : Bool) (x : Int) : Int := if dec then x - stepOf t else x + stepOf t

theorem narrow_int {t : T} (ht : t.scalar = true) (h4 : t.size < 4) (dec : Bool) {x : Int} (hx : InR t x) : InR .int (incV t dec x) := by
  have hs : stepOf t = 1 := by cases t <;> simp [T.size, stepOf] at h4 ⊢
  unfold incV
  rw [hs]
  unfold InR InRange at *
  rw [show T.int.size = 4 from rfl, show T.int.uns = false from rfl]
  rcases tsz ht with e | e | e | e
  · rw [e] at hx; cases hu : t.uns <;> rw [hu] at hx <;> cases dec <;> simp at hx ⊢ <;> omega
  · rw [e] at hx; cases hu : t.uns <;> rw [hu] at hx <;> cases dec <;> simp at hx ⊢ <;> omega
  · omega
  · omega

theorem step_wf {t : T} {k : Int} (h : 0 ≤ k ∧ k < 2 ^ 31) : Op.wf (.const t.w k) = true := by
  cases t.w with
  | i32 => exact wf32 ⟨by omega, by omega⟩
  | i64 => exact decide_eq_true (by simp [VT.bits]; omega)

theorem ok_incReg {c : Ctx} (hc : FnOk c) {post dec need : Bool} {t : T} {x : Nat} (n : Nat) (hw : wt c need (.inc post dec (.var t x)) = true)
    (hr : c.Γ.loc x = .reg) : OkE c need (incCode c.Γ need post dec t x) t n n (ev c need (.inc post dec (.var t x))) := by
  simp only [wt, wtL, Bool.and_eq_true, decide_eq_true_eq, incOk, X.isReg, hr, X.ty, if_true] at hw
  obtain ⟨⟨⟨⟨hx, rfl⟩, ht⟩, -⟩, -, hk, hk2⟩ := hw
  replace hk := of_decide_eq_true hk
  replace hk2 := of_decide_eq_true hk2
  have pl : place c x = .reg x := by simp [place, hr]
  generalize htt : c.Γ.ty x = t at *
  generalize hi : c.Γ.ix x = i
  -- the code
  have mid : ∃ D, Frag (if t.size < 4 then castTo t .int else []) D ∧ ∀ m a s ρ, InR t a →
      exec c.E m D (⟨t.w, pat t.w.bits (incV t dec a)⟩ :: s) ρ = .ok (rep t (conv t.size t.uns (incV t dec a)) :: s) ρ := by
    by_cases h4 : t.size < 4
    · refine ⟨castCode t .int, by rw [if_pos h4]; exact castTo_frag ht, fun m a s ρ ha => ?_⟩
      have hw : t.w = .i32 := w_of_le (by omega)
      rw [hw]
      exact castTo_run c.E ht int_scalar (narrow_int ht h4 dec ha) m s ρ
    · refine ⟨.done, by rw [if_neg h4]; exact Frag.nil, fun m a s ρ ha => ?_⟩
      rw [pat_wide ht (by omega)]
      rfl
  obtain ⟨D, fD, hD⟩ := mid
  have e1 : ∀ σ, ev c need (.inc post dec (.var t x)) σ =
      .val (if post then σ.env x else conv t.size t.uns (incV t dec (σ.env x)))
        { σ with env := fun y => if y = x then conv t.size t.uns (incV t dec (σ.env x)) else σ.env y } := by
    intro σ
    simp only [ev, lv, pl, Ou.bind, getO, putO, X.ty, incV]
  have op1 : Bin.sub = arOp .sub t := rfl
  have wfK : Op.wf (.const t.w (imm (stepOf t))) = true := by
    rw [hk]
    exact step_wf ⟨by omega, by exact_mod_cast hk2⟩
  let os : List Op := if post && need then [.lget i, .lget i] else [.lget i]
  let fin : Op := if need && !post then .ltee i else .lset i
  have f1 : Frag ([.op (.lget i)] ++ (if post && need then [.op (.lget i)] else [])) (line os) := by
    have : ([.op (.lget i)] ++ (if post && need then [.op (.lget i)] else []) : List Tok) = os.map .op := by
      simp only [os]; cases post <;> cases need <;> rfl
    rw [this]
    exact frag_line (by simp only [os]; cases post <;> cases need <;> simp [Op.wf])
  have f2 : Frag [.op (.const t.w (imm (stepOf t))), .op (.bin t.w (if dec then .sub else .add))]
      (line [.const t.w (imm (stepOf t)), .bin t.w (if dec then .sub else .add)]) := by
    refine frag_line (os := [.const t.w (imm (stepOf t)), .bin t.w (if dec then .sub else .add)]) ?_
    intro o ho
    simp only [List.mem_cons, List.not_mem_nil, or_false] at ho
    rcases ho with rfl | rfl
    · exact wfK
    · rfl
  have f3 : Frag [.op fin] (line [fin]) := frag_line (os := [fin]) (by simp only [fin]; cases post <;> cases need <;> simp [Op.wf])
  refine ⟨(line os).app ((line [.const t.w (imm (stepOf t)), .bin t.w (if dec then .sub else .add)]).app (D.app (line [fin]))), ?_, ?_⟩
  · have := f1.append (f2.append (fD.append f3))
    unfold incCode
    rw [hi]
    simpa only [List.append_assoc, fin] using this
  · intro m s σ ρ hs
    obtain ⟨hl, hrng⟩ := hs.reg x hx hr
    rw [htt] at hrng hl
    rw [hi] at hl
    rw [e1]
    have hy : InR t (conv t.size t.uns (incV t dec (σ.env x))) := conv_range (tsz ht) _ _
    refine ⟨fun _ _ => ?_, setLoc ρ i (rep t (conv t.size t.uns (incV t dec (σ.env x)))), ?_, ?_, ?_⟩
    · cases post with
      | true => exact hrng
      | false => exact hy
    · have x1 : exec c.E m (line os) s ρ = .ok (rep t (σ.env x) :: (if post && need then rep t (σ.env x) :: s else s)) ρ := by
        rw [exec_line]
        simp only [os]
        cases post <;> cases need <;> simp [runL, Res.bind, step, hl]
      have x2 : ∀ s, exec c.E m (line [.const t.w (imm (stepOf t)), .bin t.w (if dec then .sub else .add)]) (rep t (σ.env x) :: s) ρ =
          .ok (⟨t.w, pat t.w.bits (incV t dec (σ.env x))⟩ :: s) ρ := by
        intro s
        rw [exec_line, hk]
        have := inc_op t.w.bits dec t (σ.env x) (stepOf t)
        simp only [runL, Res.bind, step, rep, and_self, if_true]
        have e : arOp (if dec then .sub else .add) t = (if dec then .sub else .add) := by cases dec <;> rfl
        rw [e] at this
        rw [this]
        rfl
      rw [exec_app, x1]
      simp only [Res.bind]
      rw [exec_app, x2]
      simp only [Res.bind]
      rw [exec_app, hD _ _ _ _ hrng]
      simp only [Res.bind]
      rw [exec_line]
      simp only [fin]
      cases post <;> cases need <;> simp [runL, Res.bind, step, setLoc, stk, scalar_nv ht]
    · have := hs.setReg hc hr (v := conv t.size t.uns (incV t dec (σ.env x))) (by rw [htt]; exact hy)
      rw [htt, hi] at this
      exact this
    · have := Keep.setReg hc n n ρ hx hr (rep t (conv t.size t.uns (incV t dec (σ.env x))))
      rw [hi] at this
      exact this

/-- The step as a constant. -/
theorem one_code (Γ : Fn) {t : T} (ht : t.scalar = true) (h : stepOf t < 2 ^ 31) :
    gen Γ true (oneOf t) = [.op (.const t.w (stepOf t))] := by
  cases t with
  | fx t =>
    simp only [oneOf, gen, if_true, genLit, stepOf]
    congr 3
    split <;> rfl
  | ptr n =>
    simp only [stepOf] at h ⊢
    simp only [oneOf, gen, if_true, genLit]
    rw [if_pos (by decide)]
    have : ((n : Nat) : Int) < 2147483648 := by norm_num at h; omega
    have e : toS 32 ((n : Nat) : Int) = n := by rw [toS32, if_pos (by omega)]; omega
    rw [e]
    rfl
  | void => cases ht


theorem ok_incMem {c : Ctx} (hc : FnOk c) {post dec need : Bool} {l : X} (hw : wt c need (.inc post dec l) = true)
    (hr : l.isReg c.Γ = false) (ih : ∀ t e, l = .deref t e → PE c e) {n : Nat} (hn : c.Γ.n0 ≤ n) :
    OkE c need (gen c.Γ need (incMem post dec (trav c.Γ need l n).1 (trav c.Γ need l n).2 ((trav c.Γ need l n).2 + 1))) l.ty n
      ((trav c.Γ need l n).2 + 2) (ev c need (.inc post dec l)) := by
  simp only [wt, incOk, Bool.and_eq_true, hr, Bool.false_eq_true, if_false] at hw
  obtain ⟨⟨hl, ht⟩, -, hk, hnar⟩ := hw
  replace hk := of_decide_eq_true hk
  obtain ⟨A, fA, hA⟩ := ok_lv hc hl hr ih need hn
  have m1 := trav_mono c.Γ l need n
  have hrf : gen c.Γ true (mkRefer (trav c.Γ need l n).1) = lvTok c.Γ (trav c.Γ need l n).1 := by
    cases l with
    | var t x => simp only [trav, mkRefer, gen, lvTok, if_true]
    | deref t e => simp only [trav, mkRefer, lvTok]
    | _ => simp [wtL] at hl
  have hty := trav_lv_ty c hl need n
  have e1 : ∀ σ, ev c need (.inc post dec l) σ = (lv c l σ).bind fun o σ => (getO c l.ty o σ).bind fun x σ =>
      (putO c l.ty o (conv l.ty.size l.ty.uns (incV l.ty dec x)) σ).bind fun _ σ =>
        .val (if post then x else conv l.ty.size l.ty.uns (incV l.ty dec x)) σ := by
    intro σ; simp only [ev, incV]
  rw [show ev c need (.inc post dec l) = _ from funext e1]
  have one := one_code c.Γ ht hk
  have wf1 : Op.wf (.const l.ty.w (stepOf l.ty)) = true := step_wf ⟨by omega, by exact_mod_cast hk⟩
  generalize (trav c.Γ need l n).2 = p at *
  generalize (trav c.Γ need l n).1 = l' at *
  generalize l.ty = t at *
  have hp : c.Γ.n0 ≤ p := by omega
  have hq : c.Γ.n0 ≤ p + 1 := by omega
  have hpq : c.Γ.ix p ≠ c.Γ.ix (p + 1) := tmp_ne hc hp hq (by omega)
  let os : List Op := if post then
      [.lset (c.Γ.ix p), .lget (c.Γ.ix p), .load t.w t.size (t.size < 4 && !t.uns), .lset (c.Γ.ix (p + 1)), .lget (c.Γ.ix p), .lget (c.Γ.ix (p + 1)),
        .const t.w (stepOf t), .bin t.w (arOp (if dec then .sub else .add) t), .store t.w t.size]
    else
      [.lset (c.Γ.ix p), .lget (c.Γ.ix p), .load t.w t.size (t.size < 4 && !t.uns), .const t.w (stepOf t), .bin t.w (arOp (if dec then .sub else .add) t),
        .lset (c.Γ.ix (p + 1)), .lget (c.Γ.ix p), .lget (c.Γ.ix (p + 1)), .store t.w t.size]
  have hcode : gen c.Γ need (incMem post dec l' p (p + 1)) = lvTok c.Γ l' ++ (os.map .op ++ if need then [.op (.lget (c.Γ.ix (p + 1)))] else []) := by
    unfold incMem
    rw [hty]
    have ld : genLoad t = [.op (.load t.w t.size (t.size < 4 && !t.uns))] := by cases t <;> simp [genLoad, T.scalar] at ht ⊢
    have st : genStore t = [.op (.store t.w t.size)] := by cases t <;> simp [genStore, T.scalar] at ht ⊢
    simp only [gen_comma, gen_asgTmp hc _ hp, gen_asgTmp hc _ hq, hrf]
    have gp : gen c.Γ true (.var (.ptr t.size) p) = [.op (.lget (c.Γ.ix p))] := gen_tmp hc hp
    have gq : gen c.Γ true (.var t (p + 1)) = [.op (.lget (c.Γ.ix (p + 1)))] := gen_tmp hc hq
    have ga : ∀ r, gen c.Γ false (.asg (.deref t (.var (.ptr t.size) p)) r) =
        .op (.lget (c.Γ.ix p)) :: gen c.Γ true r ++ [.op (.store t.w t.size)] := by
      intro r
      show gen c.Γ true (.var (.ptr t.size) p) ++ gen c.Γ true r ++ genStore t = _
      rw [gp, st]
      rfl
    have gd : gen c.Γ true (.deref t (.var (.ptr t.size) p)) = [.op (.lget (c.Γ.ix p)), .op (.load t.w t.size (t.size < 4 && !t.uns))] := by
      show gen c.Γ true (.var (.ptr t.size) p) ++ genLoad t = _
      rw [gp, ld]
      rfl
    have gb : ∀ (a : X), gen c.Γ true (.bin (if dec then .sub else .add) t a
        (oneOf t)) =
        gen c.Γ true a ++ [.op (.const t.w (stepOf t)), .op (.bin t.w (arOp (if dec then .sub else .add) t))] := by
      intro a
      simp only [gen, if_true, one, genArith]
      simp
    have gn : gen c.Γ need (.var t (p + 1)) = if need then [.op (.lget (c.Γ.ix (p + 1)))] else [] := by
      cases need with
      | true => rw [gq]; rfl
      | false => simp only [gen, Bool.false_eq_true, if_false]
    cases post with
    | true =>
      simp only [if_true, os]
      rw [ga, gb, gd, gq, gn]
      simp
    | false =>
      simp only [Bool.false_eq_true, if_false, os]
      rw [ga, gb, gd, gq, gn]
      simp
  have wfo : ∀ o ∈ os, o.wf = true := by
    intro o ho
    simp only [os] at ho
    cases post <;> simp only [Bool.false_eq_true, if_false, if_true, List.mem_cons, List.not_mem_nil, or_false] at ho <;>
      rcases ho with rfl | rfl | rfl | rfl | rfl | rfl | rfl | rfl | rfl <;> first | rfl | exact wf1
  rw [hcode]
  refine ⟨A.app ((line os).app (if need then line [.lget (c.Γ.ix (p + 1))] else .done)), fA.append ((frag_line wfo).append ?_), fun m s σ ρ hs => ?_⟩
  · cases need with
    | true => exact frag_line (os := [.lget (c.Γ.ix (p + 1))]) (by simp [Op.wf])
    | false => exact Frag.nil
  refine Post.bind (hA m s σ ρ hs) (le_refl _) (by omega) fun o σ1 ρ1 g1 s1 k1 => ?_
  obtain ⟨⟨a, rfl⟩, -⟩ := g1
  simp only [getO, putO]
  by_cases ha : a + t.size ≤ c.E.size
  · simp only [ha, if_true, Ou.bind]
    generalize hx0 : conv t.size t.uns (rdB σ1.mem a t.size) = x
    have hxr : InR t x := by rw [← hx0]; exact conv_range (tsz ht) _ _
    have hld : (if (decide (t.size < 4) && !t.uns) = true then pat t.w.bits (toS (8 * t.size) (rdB σ1.mem a t.size)) else rdB σ1.mem a t.size) =
        pat t.w.bits x := by rw [load_ok ht (rdB_lt ..), hx0]
    let w : V := if post then rep t x else ⟨t.w, pat t.w.bits (incV t dec x)⟩
    let ρ2 : St := setLoc (setLoc ρ1 (c.Γ.ix p) ⟨.i32, a⟩) (c.Γ.ix (p + 1)) w
    have hst : wrB σ1.mem a t.size (pat t.w.bits (incV t dec x)) = wrB σ1.mem a t.size (pat (8 * t.size) (conv t.size t.uns (incV t dec x))) := by
      rw [store_ok ht, pat_conv ht]
    have hrun : exec c.E m (line os) (oV (.addr a) :: s) ρ1 =
        .ok s { ρ2 with mem := wrB σ1.mem a t.size (pat (8 * t.size) (conv t.size t.uns (incV t dec x))) } := by
      rw [exec_line, ← hst]
      have hop := inc_op t.w.bits dec t x (stepOf t)
      have hm := s1.mem
      cases post with
      | true =>
        simp only [os, if_true, runL, Res.bind, step, oV, ha, hm, hld, and_self]
        simp only [if_neg hpq.symm, hpq, if_false, if_true, hop, and_self, ha]
        rfl
      | false =>
        simp only [os, Bool.false_eq_true, if_true, if_false, runL, Res.bind, step, oV, ha, hm, hld, and_self, hop]
        simp only [if_neg hpq.symm, hpq, if_false, if_true, hop, and_self, ha]
        rfl
    rw [exec_app, hrun]
    simp only [Res.bind]
    have sm := (((s1.setTmp hc hp ⟨.i32, a⟩).setTmp hc hq w).setMem (wrB σ1.mem a t.size (pat (8 * t.size) (conv t.size t.uns (incV t dec x)))))
    have kp : Keep c n (p + 2) ρ1 { ρ2 with mem := wrB σ1.mem a t.size (pat (8 * t.size) (conv t.size t.uns (incV t dec x))) } :=
      ((Keep.setTmp hc ρ1 hp m1 (by omega) ⟨.i32, a⟩).trans (Keep.setTmp hc _ hq (by omega) (by omega) w)).trans (Keep.setMem ..)
    cases need with
    | false => exact ⟨fun q => (nomatch q), _, by simp only [Bool.false_eq_true, if_false, exec, stk_false, ρ2], sm, kp⟩
    | true =>
      refine ⟨fun _ _ => ?_, _, ?_, sm, kp⟩
      · cases post with
        | true => exact hxr
        | false => exact conv_range (tsz ht) _ _
      · simp only [if_true]
        rw [exec_line, stk_true ht]
        have hw2 : w = rep t (if post then x else conv t.size t.uns (incV t dec x)) := by
          simp only [w]
          cases post with
          | true => rfl
          | false =>
            simp only [Bool.not_true, Bool.or_false, decide_eq_true_eq] at hnar
            simp only [Bool.false_eq_true, if_false]
            exact pat_wide ht hnar _
        rw [← hw2]
        simp only [runL, Res.bind, step, ρ2, setLoc_get]
  · simp only [ha, if_false, Ou.bind]
    trivial


theorem ok_inc {c : Ctx} (hc : FnOk c) {post dec : Bool} {l : X} (ih : ∀ t e, l = .deref t e → PE c e) : PE c (.inc post dec l) := by
  intro need n hw hn
  have hl : wtL c l = true := by simp only [wt, Bool.and_eq_true] at hw; exact hw.1.1
  simp only [trav]
  rw [trav_lv_reg c hl]
  cases hr : l.isReg c.Γ with
  | true =>
    cases l with
    | var t x =>
      have hx : c.Γ.loc x = .reg := by simpa [X.isReg] using hr
      simp only [if_true, trav, gen, hx]
      exact ok_incReg hc n hw hx
    | _ => simp [X.isReg] at hr
  | false =>
    simp only [Bool.false_eq_true, if_false]
    exact ok_incMem hc hw hr ih hn

/-! ## Calls -/

def PA (c : Ctx) (as : A) : Prop :=
  ∀ n, wtA c as = true → c.Γ.n0 ≤ n → ∃ C, Frag (genArgs c.Γ (travA c.Γ as n).1) C ∧ ∀ m s σ ρ, Sim c σ ρ →
    Post c (fun vs => vs.reverse ++ s) (fun vs _ => vs.length = as.length) n (travA c.Γ as n).2 ρ (evA c as σ) (exec c.E m C s ρ)

theorem ok_nil (c : Ctx) : PA c .nil := by
  intro n _ _
  refine ⟨.done, Frag.nil, fun m s σ ρ hs => ?_⟩
  simp only [evA]
  exact Post.done (by simp) rfl hs

theorem ok_cons {c : Ctx} {e : X} {as : A} (he : PE c e) (ha : PA c as) : PA c (.cons e as) := by
  intro n hw hn
  simp only [wtA, Bool.and_eq_true] at hw
  obtain ⟨⟨we, ws⟩, wa⟩ := hw
  have m1 := trav_mono c.Γ e true n
  have m2 := travA_mono c.Γ as (trav c.Γ true e n).2
  obtain ⟨C, fA, hA⟩ := he true n we hn
  obtain ⟨B, fB, hB⟩ := ha (trav c.Γ true e n).2 wa (by omega)
  simp only [travA, genArgs]
  refine ⟨C.app (B.app .done), fA.append (by simpa using fB.append Frag.nil), fun m s σ ρ hs => ?_⟩
  simp only [evA]
  refine Post.bind (hA m s σ ρ hs) (le_refl _) m2 fun v σ1 ρ1 g1 s1 k1 => ?_
  refine Post.bind (hB m _ σ1 ρ1 s1) m1 (le_refl _) fun vs σ2 ρ2 g2 s2 k2 => ?_
  refine Post.done ?_ (by simp [A.length, g2]) s2
  rw [stk_true ws]
  simp

theorem ok_call {c : Ctx} {t : T} {f : Nat} {as : A} (ha : PA c as) : PE c (.call t f as) := by
  intro need n hw hn
  simp only [wt, Bool.and_eq_true, Bool.or_eq_true, decide_eq_true_eq] at hw
  obtain ⟨⟨wa, hlen⟩, ht⟩ := hw
  obtain ⟨A, fA, hA⟩ := ha n wa hn
  simp only [trav, gen]
  have fc : Frag [.op (.call f)] (line [.call f]) := frag_line (os := [.call f]) (by simp [Op.wf])
  let dr : List Op := if (!need && t ≠ .void) then [.drop] else []
  have fd : Frag (if (!need && t ≠ .void) = true then [.op .drop] else []) (line dr) := by
    have : (if (!need && decide (t ≠ .void)) = true then [Tok.op .drop] else []) = dr.map .op := by
      simp only [dr]; split <;> rfl
    rw [this]
    exact frag_line (by simp only [dr]; split <;> simp [Op.wf])
  refine ⟨A.app ((line [.call f]).app (line dr)), fA.append (fc.append (b := if (!need && decide (t ≠ .void)) = true then [.op .drop] else []) fd), fun m s σ ρ hs => ?_⟩
  simp only [ev]
  refine Post.bind (hA m s σ ρ hs) (le_refl _) (le_refl _) fun vs σ1 ρ1 g1 s1 k1 => ?_
  have hl : c.E.params f = vs.length := by rw [g1, hlen]
  have hst : exec c.E m (line [.call f]) (vs.reverse ++ s) ρ1 =
      match c.E.call f vs σ1.mem with
      | some (rs, mm) => .ok (rs ++ s) { ρ1 with mem := mm }
      | none => .stop := by
    rw [exec_line]
    simp only [runL, step]
    rw [if_pos (by simp [hl])]
    have e1 : (List.take (c.E.params f) (vs.reverse ++ s)).reverse = vs := by rw [hl]; simp [List.take_append]
    have e2 : List.drop (c.E.params f) (vs.reverse ++ s) = s := by rw [hl]; simp [List.drop_append]
    rw [e1, e2, s1.mem]
    cases c.E.call f vs σ1.mem <;> rfl
  rw [exec_app, hst]
  cases hcall : c.E.call f vs σ1.mem with
  | none => rfl
  | some r =>
    obtain ⟨rs, mm⟩ := r
    dsimp only
    simp only [Res.bind]
    cases hrv : retVal t rs with
    | none => trivial
    | some v =>
      simp only [Ou.ofOpt]
      refine Post.pre ?_ (Keep.setMem c n _ ρ1 mm)
      rcases ht with ht | rfl
      · have hv : rs = [rep t v] ∧ InR t v := by
          cases rs with
          | nil => cases t <;> simp [retVal, T.scalar] at hrv ht
          | cons w ws =>
            cases ws with
            | cons _ _ => cases t <;> simp [retVal, T.scalar] at hrv ht
            | nil =>
              have : (if w = rep t (conv t.size t.uns w.n) then some (conv t.size t.uns w.n) else none) = some v := by
                cases t with
                | void => cases ht
                | fx t => exact hrv
                | ptr n => exact hrv
              split at this
              · rename_i hw
                injection this with this
                rw [this] at hw
                exact ⟨by rw [hw], by rw [← this]; exact conv_range (tsz ht) _ _⟩
              · cases this
        obtain ⟨rfl, hr⟩ := hv
        cases need with
        | true =>
          refine Post.line ?_ (fun _ _ => hr) (s1.setMem mm) (Keep.refl ..)
          simp [dr, X.ty, stk_true ht, runL]
        | false =>
          refine Post.line ?_ (fun q => nomatch q) (s1.setMem mm) (Keep.refl ..)
          simp [dr, stk_false, scalar_nv ht, runL, step, Res.bind]
      · have : rs = [] := by
          cases rs with
          | nil => rfl
          | cons _ _ => simp [retVal] at hrv
        subst this
        refine Post.line ?_ (fun _ q => nomatch q) (s1.setMem mm) (Keep.refl ..)
        simp [dr, stk, runL, X.ty]


/-! ## Every expression -/

def PC (c : Ctx) (e : X) : Prop :=
  ∀ tf need n, wt c need e = true → isCond e = true → c.Γ.n0 ≤ n →
    OkC c tf need (genCond c.Γ tf need (trav c.Γ need e n).1) n (trav c.Γ need e n).2 (ev c need e)

/-- More may be undefined. -/
theorem OkE.refine {c : Ctx} {need : Bool} {ts : List Tok} {t : T} {n n' : Nat} {f f' : State → Ou Int} (h : OkE c need ts t n n' f')
    (hr : ∀ σ, f σ = .ub ∨ f σ = f' σ) : OkE c need ts t n n' f := by
  obtain ⟨C, fC, hC⟩ := h
  refine ⟨C, fC, fun m s σ ρ hs => ?_⟩
  rcases hr σ with e | e
  · rw [e]; trivial
  · rw [e]; exact hC m s σ ρ hs

/-- A truth value is held alike as `int` and as `_Bool`. -/
theorem OkE.toBool {c : Ctx} {need : Bool} {ts : List Tok} {n n' : Nat} {f : State → Ou Int} (h : OkE c need ts .int n n' f)
    (hr : ∀ σ a σ', f σ = .val a σ' → a = 0 ∨ a = 1) : OkE c need ts .bool n n' f := by
  obtain ⟨C, fC, hC⟩ := h
  refine ⟨C, fC, fun m s σ ρ hs => ?_⟩
  have h := hC m s σ ρ hs
  revert h
  cases e : f σ with
  | val a σ' =>
    rintro ⟨_, ρ', e', sm, k⟩
    refine ⟨fun _ _ => ?_, ρ', e', sm, k⟩
    rcases hr σ a σ' e with rfl | rfl <;> (unfold InR; decide)
  | stop => exact id
  | ub => exact id

theorem relV_01 (k : Rel) (x y : Int) : relV k x y = 0 ∨ relV k x y = 1 := by
  unfold relV
  split
  · exact Or.inr rfl
  · exact Or.inl rfl

theorem Ou.bind_val {α β : Type} {o : Ou α} {f : α → State → Ou β} {b : β} {σ : State} (h : o.bind f = .val b σ) :
    ∃ a σ', o = .val a σ' ∧ f a σ' = .val b σ := by
  cases o with
  | val a σ' => exact ⟨a, σ', rfl, h⟩
  | stop => cases h
  | ub => cases h

theorem ev_rel01 {c : Ctx} {need : Bool} {k : Rel} {a b : X} {σ σ' : State} {v : Int} (h : ev c need (.rel k a b) σ = .val v σ') :
    v = 0 ∨ v = 1 := by
  rw [ev] at h
  obtain ⟨x, s1, _, h⟩ := Ou.bind_val h
  obtain ⟨y, s2, _, h⟩ := Ou.bind_val h
  cases h
  exact relV_01 ..

theorem ev_land01 {c : Ctx} {need : Bool} {a b : X} {σ σ' : State} {v : Int} (h : ev c need (.land a b) σ = .val v σ') :
    v = 0 ∨ v = 1 := by
  rw [ev] at h
  obtain ⟨x, s1, _, h⟩ := Ou.bind_val h
  split at h
  · cases h; exact Or.inl rfl
  · obtain ⟨y, s2, _, h⟩ := Ou.bind_val h
    cases h
    exact relV_01 ..

theorem ev_lor01 {c : Ctx} {need : Bool} {a b : X} {σ σ' : State} {v : Int} (h : ev c need (.lor a b) σ = .val v σ') :
    v = 0 ∨ v = 1 := by
  rw [ev] at h
  obtain ⟨x, s1, _, h⟩ := Ou.bind_val h
  split at h
  · cases h; exact Or.inr rfl
  · obtain ⟨y, s2, _, h⟩ := Ou.bind_val h
    cases h
    exact relV_01 ..

theorem opT_shift {o : Ar} (ho : o = .shl ∨ o = .shr) {t : T} (ht : t.scalar = true) (x y : Int) :
    Elab.opT o t.size t.uns x y = none ∨ Elab.opT o t.size t.uns x (conv t.size t.uns y) = Elab.opT o t.size t.uns x y := by
  by_cases h : 0 ≤ y ∧ y < 8 * (max t.size 4 : Nat)
  · right
    rw [conv_id (tsz ht)]
    unfold InRange
    rcases tsz ht with e | e | e | e <;> rw [e] at h ⊢ <;> cases t.uns <;> simp at h ⊢ <;> omega
  · left
    rcases ho with rfl | rfl
    · exact if_neg h
    · exact if_neg h

theorem conv_wrap {t : T} (ht : t.scalar = true) (v : Int) : conv t.size t.uns (wrapValue v t.size t.uns) = conv t.size t.uns v := by
  have h := wrapValue_congr v t.size t.uns (by rcases tsz ht with e | e | e | e <;> rw [e] <;> simp)
  have e := Int.emod_eq_emod_iff_emod_sub_eq_zero.mpr h
  unfold conv toS
  rw [e]

theorem ok_shift {c : Ctx} {o : Ar} {t : T} {a b : X} {need : Bool} {n : Nat} (ho : o = .shl ∨ o = .shr) (ha : PE c a) (hb : PE c b)
    (hw : wt c need (.bin o t a b) = true) (hn : c.Γ.n0 ≤ n) :
    OkE c need (gen c.Γ need (trav c.Γ need (.bin o t a b) n).1) t n (trav c.Γ need (.bin o t a b) n).2 (ev c need (.bin o t a b)) := by
  have hp : t.scalar = true ∧ 4 ≤ t.size ∧ wt c need a = true ∧ wt c need b = true ∧ a.ty.scalar = true ∧ b.ty.scalar = true ∧
      a.ty = t ∧ t ≠ .bool ∧ t.isFx = true ∧ b.fits = true := by
    rcases ho with rfl | rfl <;> simp only [wt, Bool.and_eq_true, decide_eq_true_eq] at hw <;>
      exact ⟨hw.1.1.1.1.1.1, hw.1.1.1.1.1.2, hw.1.1.1.1.2, hw.1.1.1.2, hw.1.1.2, hw.1.2, hw.2.1.1.1, hw.2.1.1.2, hw.2.1.2, hw.2.2⟩
  obtain ⟨ht, h4, wa, wb, sa, sb, rfl, hnb, hfx, hfit⟩ := hp
  have m1 := trav_mono c.Γ a need n
  have m2 := trav_mono c.Γ b need (trav c.Γ need a n).2
  have oa := ha need n wa hn
  have ob := hb need (trav c.Γ need a n).2 wb (by omega)
  have hf : ∃ u, a.ty = .fx u := by cases h : a.ty <;> simp [h, T.isFx] at hfx ⊢
  simp only [trav, ho, if_true]
  by_cases e : a.ty = b.ty
  · have : shiftArg a.ty b (trav c.Γ need b (trav c.Γ need a n).2).1 = (trav c.Γ need b (trav c.Γ need a n).2).1 := by simp [shiftArg, e]
    rw [this]
    have h := ok_bin (o := o) (t := a.ty) oa ob m1 m2 ht h4 sa sb rfl (by rw [e]) (fun _ _ => ⟨like_refl _, fun _ _ => by rw [e]; exact like_refl _, hf⟩)
    simpa only [gen, ev] using h
  · -- the operand is converted
    have ob' : OkE c need (gen c.Γ need (shiftArg a.ty b (trav c.Γ need b (trav c.Γ need a n).2).1)) a.ty (trav c.Γ need a n).2
        (trav c.Γ need b (trav c.Γ need a n).2).2 (fun σ => (ev c need b σ).bind fun y σ => .val (conv a.ty.size a.ty.uns y) σ) := by
      by_cases hlit : ∃ u v, b = .lit u v
      · obtain ⟨u, v, rfl⟩ := hlit
        simp only [trav, shiftArg, if_neg e]
        have wl : wt c need (.lit a.ty (wrapValue v a.ty.size a.ty.uns)) = true := by
          simp only [wt, Bool.and_eq_true, Bool.or_eq_true, decide_eq_true_eq] at wb ⊢
          have := wrapValue_isI64 v a.ty.size a.ty.uns wb.1.2
          exact ⟨⟨ht, this⟩, Or.inl h4⟩
        have h := ok_lit need (trav c.Γ need a n).2 wl
        simp only [X.fits, decide_eq_true_eq, X.ty] at hfit sb
        have e2 : ev c need (.lit a.ty (wrapValue v a.ty.size a.ty.uns)) = fun σ => (ev c need (.lit u v) σ).bind fun y σ => .val (conv a.ty.size a.ty.uns y) σ := by
          funext σ
          simp only [ev, Ou.bind]
          rw [conv_wrap ht, conv_id (tsz sb) u.uns hfit]
        rw [e2] at h
        simpa only [gen] using h
      · have hs : shiftArg a.ty b (trav c.Γ need b (trav c.Γ need a n).2).1 = .cast a.ty (trav c.Γ need b (trav c.Γ need a n).2).1 := by
          unfold shiftArg
          rw [if_neg e]
          cases b with
          | lit u v => exact absurd ⟨u, v, rfl⟩ hlit
          | _ => rfl
        rw [hs]
        have h := ok_cast (t := a.ty) ob (by rw [if_neg (scalar_nv ht)]; exact ⟨ht, sb⟩)
        simp only [scalar_nv ht, if_false] at h
        simp only [gen, hnb, if_false]
        rw [castTo_like (trav_ty c b need _ wb)]
        exact h
    have h := ok_bin (o := o) (t := a.ty) oa ob' m1 m2 ht h4 sa ht rfl rfl (fun _ _ => ⟨like_refl _, fun _ _ => like_refl _, hf⟩)
    simp only [gen]
    refine h.refine fun σ => ?_
    simp only [ev]
    cases ev c need a σ with
    | val x σ1 =>
      simp only [Ou.bind]
      cases ev c need b σ1 with
      | val y σ2 =>
        simp only
        rcases opT_shift ho ht x y with q | q
        · rw [q]; left; rfl
        · rw [q]; right; rfl
      | stop => right; rfl
      | ub => right; rfl
    | stop => right; rfl
    | ub => right; rfl

theorem relV_neg (k : Rel) (x y : Int) : tv false (relV k x y) = relV (negRel k) x y := by
  unfold tv relV
  have key : ∀ (p q : Prop) [Decidable p] [Decidable q], (q ↔ ¬p) →
      (if decide ((if p then (1 : Int) else 0) ≠ 0) = false then (1 : Int) else 0) = if q then 1 else 0 := by
    intro p q _ _ h
    by_cases hp : p
    · have : ¬ q := fun a => h.1 a hp
      simp [hp, this]
    · have : q := h.2 hp
      simp [hp, this]
  cases k <;> refine key _ _ ?_ <;> simp only [holds, negRel] <;> omega

theorem relV_tv (k : Rel) (x y : Int) : tv true (relV k x y) = relV k x y := by
  unfold tv relV
  by_cases h : holds k x y <;> simp [h]

theorem zero_ev (c : Ctx) (need : Bool) {b : X} (h : b.zero = true) (σ : State) : ev c need b σ = .val 0 σ := by
  cases b with
  | lit t v =>
    cases t <;> simp [X.zero] at h
    subst h
    rename_i t
    simp only [ev]
    congr 1
    unfold conv toS
    split <;> simp
  | _ => simp [X.zero] at h

theorem ok_condLit {c : Ctx} {t : T} {v : Int} : PC c (.lit t v) := by
  intro tf need n hw hcnd hn
  simp only [trav, genCond]
  have hsz : t.size ≤ 4 := by simpa [isCond] using hcnd
  have hsc : t.scalar = true := by simp only [wt, Bool.and_eq_true] at hw; exact hw.1.1
  have hl := ok_lit need n hw
  obtain ⟨C, fC, hC⟩ := hl
  have hz : T.w .int = t.w := by rw [w_of_le hsz]; rfl
  cases need with
  | false =>
    refine ⟨.done, Frag.nil, fun m s σ ρ hs => ?_⟩
    simp only [ev, Ou.bind]
    exact Post.done (by simp [stk_false]) (fun q => nomatch q) hs
  | true =>
    cases tf with
    | false =>
      refine ⟨C.app (line [.eqz t.w]), fC.append (frag_line (os := [.eqz t.w]) (by simp [Op.wf])), fun m s σ ρ hs => ?_⟩
      refine Post.bind (hC m s σ ρ hs) (le_refl _) (le_refl _) fun x σ1 ρ1 g1 s1 k1 => ?_
      refine Post.line ?_ (fun _ _ => tv_range ..) s1 (Keep.refl ..)
      rw [stk_true hsc, stk_true int_scalar, tv, rep_bool]
      have := eqz_ok hsc (g1 rfl hsc) (inR_zero hsc)
      simp only [runL, step]
      rw [if_pos (show (rep t x).ty = t.w from rfl)]
      simp only [Res.bind, this]
      by_cases hx : x = 0 <;> simp [hx]
    | true =>
      refine ⟨C.app (line [.const .i32 0, .cmp t.w .ne]), fC.append (b := [.op (.const .i32 0), .op (.cmp t.w .ne)]) (frag_line (os := [.const .i32 0, .cmp t.w .ne]) (by simp [Op.wf, VT.bits])),
        fun m s σ ρ hs => ?_⟩
      refine Post.bind (hC m s σ ρ hs) (le_refl _) (le_refl _) fun x σ1 ρ1 g1 s1 k1 => ?_
      refine Post.line ?_ (fun _ _ => tv_range ..) s1 (Keep.refl ..)
      rw [stk_true hsc, stk_true int_scalar, tv, rep_bool]
      have := eqz_ok hsc (g1 rfl hsc) (inR_zero hsc)
      have h0 : pat 32 0 = 0 := by decide
      simp only [runL, step, Res.bind, VT.bits, h0]
      rw [if_pos ⟨rfl, (w_of_le hsz).symm⟩]
      simp only [cmpOp, ne_eq, decide_not, this]


theorem PC.of_not {c : Ctx} {e : X} (h : isCond e = false) : PC c e := by
  intro tf need n _ hc _
  rw [h] at hc
  cases hc

theorem ok_bop {c : Ctx} {o : Ar} {t : T} {a b : X} (ha : PE c a) (hb : PE c b) : PE c (.bin o t a b) := by
  intro need n hw hn
  by_cases ho : o = .shl ∨ o = .shr
  · exact ok_shift ho ha hb hw hn
  · have hp : t.scalar = true ∧ 4 ≤ t.size ∧ wt c need a = true ∧ wt c need b = true ∧ a.ty.scalar = true ∧ b.ty.scalar = true ∧
        a.ty.w = t.w ∧ b.ty.w = t.w ∧ (o ≠ .add → o ≠ .sub → like a.ty t = true ∧ like b.ty t = true ∧ t.isFx = true) := by
      cases o with
      | shl => exact absurd (Or.inl rfl) ho
      | shr => exact absurd (Or.inr rfl) ho
      | add =>
        simp only [wt, Bool.and_eq_true, decide_eq_true_eq] at hw
        exact ⟨hw.1.1.1.1.1.1, hw.1.1.1.1.1.2, hw.1.1.1.1.2, hw.1.1.1.2, hw.1.1.2, hw.1.2, hw.2.1, hw.2.2, fun q => absurd rfl q⟩
      | sub =>
        simp only [wt, Bool.and_eq_true, decide_eq_true_eq] at hw
        exact ⟨hw.1.1.1.1.1.1, hw.1.1.1.1.1.2, hw.1.1.1.1.2, hw.1.1.1.2, hw.1.1.2, hw.1.2, hw.2.1, hw.2.2, fun _ q => absurd rfl q⟩
      | op o =>
        simp only [wt, Bool.and_eq_true, decide_eq_true_eq] at hw
        exact ⟨hw.1.1.1.1.1.1, hw.1.1.1.1.1.2, hw.1.1.1.1.2, hw.1.1.1.2, hw.1.1.2, hw.1.2, w_like hw.2.1.1, w_like hw.2.1.2,
          fun _ _ => ⟨hw.2.1.1, hw.2.1.2, hw.2.2⟩⟩
    obtain ⟨ht, h4, wa, wb, sa, sb, xa, xb, hop⟩ := hp
    have m1 := trav_mono c.Γ a need n
    have m2 := trav_mono c.Γ b need (trav c.Γ need a n).2
    have h := ok_bin (o := o) (t := t) (ha need n wa hn) (hb need (trav c.Γ need a n).2 wb (by omega)) m1 m2 ht h4 sa sb xa xb
      (fun p q => ⟨(hop p q).1, fun _ _ => (hop p q).2.1, by have := (hop p q).2.2; cases t <;> simp [T.isFx] at this ⊢⟩)
    simp only [trav, ho, if_false, gen, X.ty]
    exact h

theorem ok_relE {c : Ctx} {k : Rel} {a b : X} (ha : PE c a) (hb : PE c b) (need : Bool) {n : Nat} (hw : wt c need (.rel k a b) = true)
    (hn : c.Γ.n0 ≤ n) (k' : Rel) :
    OkE c need (cmpCode k' (trav c.Γ need a n).1.ty (gen c.Γ need (trav c.Γ need a n).1) (gen c.Γ need (trav c.Γ need b (trav c.Γ need a n).2).1)
      (trav c.Γ need b (trav c.Γ need a n).2).1.zero need) .int n (trav c.Γ need b (trav c.Γ need a n).2).2
      (fun σ => (ev c need a σ).bind fun x σ => (ev c need b σ).bind fun y σ => .val (relV k' x y) σ) := by
  simp only [wt, Bool.and_eq_true] at hw
  obtain ⟨⟨⟨⟨wa, wb⟩, lk⟩, sa⟩, sb⟩ := hw
  rw [cmpCode_like (trav_ty c a need n wa), trav_zero]
  exact ok_cmp (ha need n wa hn) (hb need _ wb (by have := trav_mono c.Γ a need n; omega)) (trav_mono ..) (trav_mono ..) sa sb lk
    (fun hz σ => zero_ev c need hz σ)

theorem ok_rel {c : Ctx} {k : Rel} {a b : X} (ha : PE c a) (hb : PE c b) : PE c (.rel k a b) ∧ PC c (.rel k a b) := by
  refine ⟨fun need n hw hn => ?_, fun tf need n hw _ hn => ?_⟩
  · simp only [trav, gen, X.ty]
    have h : OkE c need _ .int n _ (ev c need (.rel k a b)) :=
      (ok_relE ha hb need hw hn k).refine fun σ => Or.inr (by simp only [ev])
    exact h.toBool fun _ _ _ => ev_rel01
  · simp only [trav, genCond]
    have := ok_relE ha hb need hw hn (if tf then k else negRel k)
    unfold OkC
    have e : (fun σ => (ev c need (.rel k a b) σ).bind fun a σ => Ou.val (tv tf a) σ) =
        fun σ => (ev c need a σ).bind fun x σ => (ev c need b σ).bind fun y σ => .val (relV (if tf then k else negRel k) x y) σ := by
      funext σ
      simp only [ev, Ou.bind_assoc]
      congr 1
      funext x σ
      congr 1
      funext y σ
      simp only [Ou.bind]
      cases tf with
      | true => rw [relV_tv]; rfl
      | false => rw [relV_neg]; rfl
    rw [e]
    exact this

theorem ok_land {c : Ctx} {a b : X} (ha : PC c a) (hb : PC c b) : PE c (.land a b) ∧ PC c (.land a b) := by
  have ee : ∀ need, ev c need (.land a b) = logV true (ev c true a) (ev c need b) := by
    intro need
    funext σ
    simp only [ev, logV]
    congr 1
    funext x σ
    by_cases h : x = 0 <;> simp [h]
  have key : PC c (.land a b) := by
    intro tf need n hw hcd hn
    simp only [wt, Bool.and_eq_true] at hw
    obtain ⟨⟨⟨wa, wb⟩, ca⟩, cb⟩ := hw
    have m1 := trav_mono c.Γ a true n
    simp only [trav, genCond]
    rw [ee]
    exact ok_log (ha true true n wa ca hn) (hb tf need _ wb cb (by omega)) m1 (trav_mono ..)
  refine ⟨fun need n hw hn => ?_, key⟩
  have h := key true need n hw rfl hn
  unfold OkC at h
  rw [ee, logV_tv, ← ee] at h
  simpa only [trav, gen, genCond, X.ty] using h.toBool fun _ _ _ => ev_land01

theorem ok_lor {c : Ctx} {a b : X} (ha : PC c a) (hb : PC c b) : PE c (.lor a b) ∧ PC c (.lor a b) := by
  have ee : ∀ need, ev c need (.lor a b) = logV false (ev c true a) (ev c need b) := by
    intro need
    funext σ
    simp only [ev, logV]
    congr 1
    funext x σ
    by_cases h : x = 0 <;> simp [h]
  have key : PC c (.lor a b) := by
    intro tf need n hw hcd hn
    simp only [wt, Bool.and_eq_true] at hw
    obtain ⟨⟨⟨wa, wb⟩, ca⟩, cb⟩ := hw
    have m1 := trav_mono c.Γ a true n
    simp only [trav, genCond]
    rw [ee]
    exact ok_log (ha false true n wa ca hn) (hb tf need _ wb cb (by omega)) m1 (trav_mono ..)
  refine ⟨fun need n hw hn => ?_, key⟩
  have h := key true need n hw rfl hn
  unfold OkC at h
  rw [ee, logV_tv, ← ee] at h
  simpa only [trav, gen, genCond, X.ty] using h.toBool fun _ _ _ => ev_lor01

theorem ok_commaE {c : Ctx} {a b : X} (ha : PE c a) (hb : PE c b) (hb' : PC c b) : PE c (.comma a b) ∧ PC c (.comma a b) := by
  refine ⟨fun need n hw hn => ?_, fun tf need n hw hcd hn => ?_⟩
  · simp only [wt, Bool.and_eq_true] at hw
    have m1 := trav_mono c.Γ a false n
    have h := ok_comma (ha false n hw.1 hn) (hb need _ hw.2 (by omega)) m1 (trav_mono ..)
    simp only [trav, gen, X.ty]
    exact h.refine fun σ => Or.inr (by simp only [ev])
  · simp only [wt, Bool.and_eq_true] at hw
    simp only [isCond] at hcd
    have m1 := trav_mono c.Γ a false n
    have h := ok_comma (ha false n hw.1 hn) (hb' tf need _ hw.2 hcd (by omega)) m1 (trav_mono ..)
    simp only [trav, genCond]
    unfold OkC
    have e : (fun σ => (ev c need (.comma a b) σ).bind fun a σ => Ou.val (tv tf a) σ) =
        fun σ => (ev c false a σ).bind fun _ σ => (ev c need b σ).bind fun a σ => .val (tv tf a) σ := by
      funext σ
      simp only [ev, Ou.bind_assoc]
    rw [e]
    exact h

theorem trav_call (Γ : Fn) {e : X} (h : e.isCall = true) (need need' : Bool) (n : Nat) : trav Γ need e n = trav Γ need' e n := by
  cases e <;> simp [X.isCall] at h
  simp only [trav]

theorem ok_ternE {c : Ctx} {t : T} {x a b : X} (hx : PC c x) (ha : PE c a) (hb : PE c b) : PE c (.tern t x a b) := by
  intro need n hw hn
  simp only [wt, Bool.and_eq_true] at hw
  obtain ⟨⟨⟨⟨wx, cx⟩, wa⟩, wb⟩, hneed⟩ := hw
  have m1 := trav_mono c.Γ x true n
  by_cases hv : need = true ∧ t = .void
  · obtain ⟨rfl, rfl⟩ := hv
    simp only [if_true, Bool.and_eq_true] at hneed
    simp only [ne_eq, not_true, decide_false, Bool.and_false] at wa wb
    have m2 := trav_mono c.Γ a false (trav c.Γ true x n).2
    have h := ok_tern (t := .void) (hx true true n wx cx hn) (ha false _ wa (by omega))
      (hb false (trav c.Γ false a (trav c.Γ true x n).2).2 wb (by omega)) m1 m2 (trav_mono ..) (fun q => nomatch q)
    simp only [trav, gen, X.ty]
    rw [trav_call c.Γ hneed.1 true false, trav_call c.Γ hneed.2 true false]
    obtain ⟨C, fC, hC⟩ := h
    refine ⟨C, by simpa using fC, fun m s σ ρ hs => ?_⟩
    have := hC m s σ ρ hs
    dsimp only at this
    have e : ev c true (.tern .void x a b) σ = (ev c true x σ).bind fun x σ => if x ≠ 0 then ev c false a σ else ev c false b σ := by
      simp only [ev]
      rfl
    rw [e]
    generalize ((ev c true x σ).bind fun x σ => if x ≠ 0 then ev c false a σ else ev c false b σ) = o at this ⊢
    cases o with
    | val v σ' =>
      obtain ⟨-, ρ', e, sm, k⟩ := this
      exact ⟨fun _ q => absurd q (by decide), ρ', e, sm, k⟩
    | stop => exact this
    | ub => trivial
  have hne : need = true → t.scalar = true ∧ like a.ty t = true ∧ like b.ty t = true ∧ a.ty.scalar = true ∧ b.ty.scalar = true := by
    intro q
    rw [if_pos q, if_neg (fun w => hv ⟨q, w⟩)] at hneed
    simp only [Bool.and_eq_true] at hneed
    exact ⟨hneed.1.1.1.1, hneed.1.1.1.2, hneed.1.1.2, hneed.1.2, hneed.2⟩
  have eneed : (need && decide (t ≠ .void)) = need := by
    cases need with
    | false => rfl
    | true => simp [scalar_nv (hne rfl).1]
  rw [eneed] at wa wb
  have esome : (if (need && decide (t ≠ .void)) = true then some t.w else none).isSome = need := by
    rw [eneed]; cases need <;> rfl
  have m2 := trav_mono c.Γ a need (trav c.Γ true x n).2
  have h := ok_tern (t := t) (hx true true n wx cx hn) (ha need _ wa (by omega)) (hb need (trav c.Γ need a (trav c.Γ true x n).2).2 wb (by omega)) m1 m2 (trav_mono ..) hne
  simp only [trav, gen, X.ty]
  rw [esome]
  exact h.refine fun σ => Or.inr (by simp only [ev, eneed])

theorem ok_castE {c : Ctx} {t : T} {e : X} (he : PE c e) : PE c (.cast t e) := by
  intro need n hw hn
  simp only [wt, Bool.and_eq_true, decide_eq_true_eq] at hw
  obtain ⟨⟨hb, we⟩, hsc⟩ := hw
  have h := ok_cast (t := t) (he need n we hn) (by
    by_cases hv : t = .void
    · rw [if_pos hv] at hsc ⊢
      simpa [Bool.or_eq_true] using hsc
    · rw [if_neg hv] at hsc ⊢
      simpa using hsc)
  simp only [trav, gen, hb, if_false, X.ty]
  rw [castTo_like (trav_ty c e need n we)]
  exact h.refine fun σ => Or.inr (by simp only [ev])

theorem ok_posE {c : Ctx} {t : T} {e : X} (he : PE c e) : PE c (.pos t e) := by
  intro need n hw hn
  simp only [wt, Bool.and_eq_true, decide_eq_true_eq] at hw
  obtain ⟨⟨⟨we, ht⟩, hu⟩, lk⟩ := hw
  obtain ⟨C, fC, hC⟩ := he need n we hn
  simp only [trav, gen, X.ty]
  refine ⟨C.app .done, by simpa using fC.append Frag.nil, fun m s σ ρ hs => ?_⟩
  simp only [ev]
  refine Post.bind (hC m s σ ρ hs) (le_refl _) (le_refl _) fun v σ' ρ' g sm k => ?_
  cases need with
  | false => exact Post.done (by rw [stk_false, stk_false]) (fun q => nomatch q) sm
  | true =>
    refine Post.done ?_ (valOk_conv _ _ _ _) sm
    rw [stk_true hu, stk_true ht, conv_id (tsz ht) t.uns (inR_like (like_symm lk) (g rfl hu)), rep_like lk]

theorem ok_negE {c : Ctx} {t : T} {e : X} (he : PE c e) : PE c (.neg t e) ∧ PE c (.bnot t e) := by
  have aux : ∀ (g : Int → Int) (n : Nat), wt c false e = true → c.Γ.n0 ≤ n →
      OkE c false (gen c.Γ false (trav c.Γ false e n).1) t n (trav c.Γ false e n).2 (fun σ => (ev c false e σ).bind fun a σ => .val (g a) σ) := by
    intro g n we hn
    obtain ⟨C, fC, hC⟩ := he false n we hn
    refine ⟨C.app .done, by simpa using fC.append Frag.nil, fun m s σ ρ hs => ?_⟩
    refine Post.bind (hC m s σ ρ hs) (le_refl _) (le_refl _) fun v σ' ρ' g sm k => ?_
    exact Post.done (by rw [stk_false, stk_false]) (fun q => nomatch q) sm
  constructor
  · intro need n hw hn
    simp only [wt, Bool.and_eq_true, decide_eq_true_eq] at hw
    obtain ⟨⟨⟨⟨we, ht⟩, hu⟩, h4⟩, hww⟩ := hw
    cases need with
    | true =>
      simp only [trav, gen, if_true, X.ty]
      exact (ok_neg (he true n we hn) ht hu h4 hww).refine fun σ => Or.inr (by simp only [ev])
    | false =>
      simp only [trav, gen, Bool.false_eq_true, if_false, X.ty]
      exact (aux (fun a => conv t.size t.uns (-a)) n we hn).refine fun σ => Or.inr (by simp only [ev])
  · intro need n hw hn
    simp only [wt, Bool.and_eq_true, decide_eq_true_eq] at hw
    obtain ⟨⟨⟨⟨we, ht⟩, hu⟩, h4⟩, hww⟩ := hw
    cases need with
    | true =>
      simp only [trav, gen, if_true, X.ty]
      exact (ok_bnot (he true n we hn) ht hu h4 hww).refine fun σ => Or.inr (by simp only [ev])
    | false =>
      simp only [trav, gen, Bool.false_eq_true, if_false, X.ty, List.append_nil]
      exact (aux (fun a => conv t.size t.uns (-a - 1)) n we hn).refine fun σ => Or.inr (by simp only [ev])

theorem ok_derefE {c : Ctx} {t : T} {e : X} (he : PE c e) : PE c (.deref t e) := by
  intro need n hw hn
  simp only [wt, Bool.and_eq_true, decide_eq_true_eq] at hw
  obtain ⟨⟨⟨⟨we, hu⟩, hww⟩, hun⟩, ht⟩ := hw
  have h := ok_deref (t := t) (he need n we hn) ht hu hww hun
  simp only [trav, gen, X.ty]
  exact h.refine fun σ => Or.inr (by simp only [ev])

theorem ok_refE {c : Ctx} (hc : FnOk c) {l : X} (ih : ∀ t e, l = .deref t e → PE c e) : PE c (.ref l) := by
  intro need n hw hn
  cases l with
  | var t x =>
    simp only [wt, Bool.and_eq_true, decide_eq_true_eq] at hw
    obtain ⟨⟨hx, rfl⟩, hr⟩ := hw
    obtain ⟨C, a, fC, pl, ha, eC⟩ := addr_ok hc hr
    simp only [trav, gen, X.ty]
    have hin : InR (.ptr (c.Γ.ty x).size) (a : Int) := by
      unfold InR InRange
      simp only [T.size, T.uns, if_true]
      norm_num at ha ⊢
      omega
    have hp : T.scalar (.ptr (c.Γ.ty x).size) = true := rfl
    cases need with
    | false =>
      refine ⟨.done, Frag.nil, fun m s σ ρ hs => ?_⟩
      simp only [ev, pl]
      exact Post.done (by rw [stk_false]) (fun q => nomatch q) hs
    | true =>
      refine ⟨C, fC, fun m s σ ρ hs => ?_⟩
      simp only [ev, pl]
      refine ⟨fun _ _ => hin, ρ, ?_, hs, Keep.refl ..⟩
      rw [eC m s ρ hs.bp]
      dsimp only
      rw [stk_true hp, (ptr_rep hp rfl rfl hin).1]
      rfl
  | deref t e =>
    simp only [wt, Bool.and_eq_true, decide_eq_true_eq] at hw
    obtain ⟨⟨⟨⟨we, hu⟩, hww⟩, hun⟩, hsz⟩ := hw
    obtain ⟨C, fC, hC⟩ := ih t e rfl need n we hn
    simp only [trav, gen, X.ty]
    have hp : T.scalar (.ptr t.size) = true := rfl
    have lk : like e.ty (.ptr t.size) = true := by
      simp only [like, Bool.and_eq_true, decide_eq_true_eq]
      exact ⟨hsz, hun⟩
    refine ⟨C.app .done, by simpa using fC.append Frag.nil, fun m s σ ρ hs => ?_⟩
    have e1 : ev c need (.ref (.deref t e)) σ = (ev c need e σ).bind fun a σ => .val a σ := by
      simp only [ev]
      cases ev c need e σ <;> rfl
    rw [e1]
    refine Post.bind (hC m s σ ρ hs) (le_refl _) (le_refl _) fun v σ' ρ' g sm k => ?_
    cases need with
    | false => exact Post.done (by rw [stk_false, stk_false]) (fun q => nomatch q) sm
    | true =>
      refine Post.done ?_ (fun _ _ => inR_like lk (g rfl hu)) sm
      rw [stk_true hu, stk_true hp, rep_like lk]
  | _ => simp [wt] at hw

mutual
/-- Every expression, and every condition. -/
theorem okX {c : Ctx} (hc : FnOk c) : ∀ e : X, PE c e ∧ PC c e
  | .lit t v => ⟨fun need n hw _ => by simpa only [trav, gen, X.ty] using ok_lit need n hw, ok_condLit⟩
  | .var t x => ⟨fun need n hw _ => by simpa only [trav, gen, X.ty] using ok_var hc need n hw, PC.of_not rfl⟩
  | .cast t e => ⟨ok_castE (okX hc e).1, PC.of_not rfl⟩
  | .bin o t a b => ⟨ok_bop (okX hc a).1 (okX hc b).1, PC.of_not rfl⟩
  | .rel k a b => ok_rel (okX hc a).1 (okX hc b).1
  | .land a b => ok_land (okX hc a).2 (okX hc b).2
  | .lor a b => ok_lor (okX hc a).2 (okX hc b).2
  | .pos t e => ⟨ok_posE (okX hc e).1, PC.of_not rfl⟩
  | .neg t e => ⟨(ok_negE (okX hc e).1).1, PC.of_not rfl⟩
  | .bnot t e => ⟨(ok_negE (okX hc e).1).2, PC.of_not rfl⟩
  | .comma a b => ok_commaE (okX hc a).1 (okX hc b).1 (okX hc b).2
  | .tern t x a b => ⟨ok_ternE (okX hc x).2 (okX hc a).1 (okX hc b).1, PC.of_not rfl⟩
  | .asg l r => ⟨ok_asg hc (okX hc r).1 (okL hc l), PC.of_not rfl⟩
  | .inc p d l => ⟨ok_inc hc (okL hc l), PC.of_not rfl⟩
  | .deref t e => ⟨ok_derefE (okX hc e).1, PC.of_not rfl⟩
  | .ref l => ⟨ok_refE hc (okL hc l), PC.of_not rfl⟩
  | .call t f as => ⟨ok_call (okA hc as), PC.of_not rfl⟩
theorem okL {c : Ctx} (hc : FnOk c) : ∀ (l : X) (t : T) (e : X), l = .deref t e → PE c e
  | .deref _ e, _, _, h => by cases h; exact (okX hc e).1
theorem okA {c : Ctx} (hc : FnOk c) : ∀ as : A, PA c as
  | .nil => ok_nil c
  | .cons e as => ok_cons (okX hc e).1 (okA hc as)
end

end Verif.WasmGen

import Verif.Front.ElabOps
/-!
# What parsing an expression builds computes what the expression means (C68)

The trees of `Elab.lean` against the language of `CExpr.lean`: for every expression inside `fine`, the tree has the type of
the expression (its size, sign and pointee), and evaluating it gives the value and the effects the expression has.
Outside `fine` the compiler is wrong; see the theorems at the end.
-/
namespace Verif.Elab
open Verif.Util Verif.Fold Verif.CExpr

/-! ## Types -/

theorem pro_ok {t : Ty} (h : t.WF) : (isoPromote t).WF := by
  rw [← promote_iso]
  exact ok_wf.mp (promote_ok t h).1

theorem com_ok {l r : Ty} (hl : l.WF) (hr : r.WF) : (isoCommon 8 l r).WF := by
  refine ty_cases (P := fun l => l.WF → (isoCommon 8 l r).WF) ?_ l hl hl
  intro k u
  refine ty_cases (P := fun r => r.WF → Ty.WF ⟨k, u⟩ → (isoCommon 8 ⟨k, u⟩ r).WF) ?_ r hr hr
  revert k u
  decide +kernel

theorem arTy_ok {o : Ar} {l r t : T} (hl : l.ok = true) (hr : r.ok = true) (h : arTy o l r = some t) : t.ok = true := by
  cases l with
  | fx l =>
    cases r with
    | fx r =>
      have hl := ok_wf.mp hl
      have hr := ok_wf.mp hr
      cases o <;> simp only [arTy, Option.some.injEq] at h <;> subst h <;>
        first | exact ok_wf.mpr (com_ok hl hr) | exact ok_wf.mpr (pro_ok hl)
    | ptr e =>
      cases o <;> simp only [arTy, Option.some.injEq, reduceCtorEq] at h
      subst h; exact hr
  | ptr e =>
    cases r with
    | fx r =>
      cases o <;> simp only [arTy, Option.some.injEq, reduceCtorEq] at h <;> subst h <;> exact hl
    | ptr e' =>
      cases o <;> simp only [arTy, reduceCtorEq] at h
      split at h
      · injection h with h; subst h; rfl
      · cases h

theorem ternTy_ok {l r t : T} {na nb : Bool} (hl : l.ok = true) (hr : r.ok = true) (h : ternTy l r na nb = some t) : t.ok = true := by
  cases l with
  | fx l =>
    cases r with
    | fx r => simp only [ternTy, Option.some.injEq] at h; subst h; exact ok_wf.mpr (com_ok (ok_wf.mp hl) (ok_wf.mp hr))
    | ptr e =>
      simp only [ternTy] at h
      split at h
      · injection h with h; subst h; exact hr
      · cases h
  | ptr e =>
    cases r with
    | fx r =>
      simp only [ternTy] at h
      split at h
      · injection h with h; subst h; exact hl
      · cases h
    | ptr e' =>
      simp only [ternTy] at h
      split at h
      · injection h with h; subst h; exact hl
      · cases h

theorem litOk_wf {t : Ty} {a : Int} (h : litOk t a = true) : t.WF ∧ T.fx t ≠ .bool ∧ InRange (Fold.size 8 t) t.uns a := by
  unfold litOk at h
  simp only [Bool.and_eq_true, decide_eq_true_eq] at h
  refine ⟨⟨by omega, fun q => by omega⟩, fun q => ?_, ?_⟩
  · injection q with q
    rw [q] at h
    exact absurd h.1 (by decide)
  · unfold InRange
    have := h.2
    split at this
    · rename_i hu
      rw [if_pos hu]
      simpa using this
    · rename_i hu
      rw [if_neg hu]
      simpa using this

theorem ty_ok {Γ : Ctx} (hΓ : ∀ x, (Γ x).ty.ok = true) : ∀ (e : S) {t : T}, ty Γ e = some t → t.ok = true := by
  intro e
  induction e with
  | lit t a =>
    intro T h
    simp only [ty] at h
    split at h
    · injection h with h; subst h; exact ok_wf.mpr (litOk_wf ‹_›).1
    · cases h
  | var x => intro T h; simp only [ty, Option.some.injEq] at h; subst h; exact hΓ x
  | un o e ih =>
    intro T h
    simp only [ty] at h
    split at h
    · rename_i t he
      injection h with h; subst h
      exact ok_wf.mpr (pro_ok (ok_wf.mp (ih he)))
    · cases h
  | lnot e ih =>
    intro T h
    simp only [ty, Option.map_eq_some_iff] at h
    obtain ⟨_, _, rfl⟩ := h; rfl
  | bin o a b iha ihb =>
    intro T h
    simp only [ty, Option.bind_eq_some_iff] at h
    obtain ⟨l, h1, r, h2, h3⟩ := h
    exact arTy_ok (iha h1) (ihb h2) h3
  | rel k a b _ _ =>
    intro T h
    simp only [ty, Option.bind_eq_some_iff, Option.map_eq_some_iff] at h
    obtain ⟨_, _, _, _, rfl⟩ := h; rfl
  | land a b _ _ =>
    intro T h
    simp only [ty, Option.bind_eq_some_iff, Option.map_eq_some_iff] at h
    obtain ⟨_, _, _, _, rfl⟩ := h; rfl
  | lor a b _ _ =>
    intro T h
    simp only [ty, Option.bind_eq_some_iff, Option.map_eq_some_iff] at h
    obtain ⟨_, _, _, _, rfl⟩ := h; rfl
  | tern c a b _ iha ihb =>
    intro T h
    simp only [ty, Option.bind_eq_some_iff] at h
    obtain ⟨_, _, l, h1, r, h2, h3⟩ := h
    exact ternTy_ok (iha h1) (ihb h2) h3
  | comma a b _ ihb =>
    intro T h
    simp only [ty, Option.bind_eq_some_iff] at h
    obtain ⟨_, _, h⟩ := h
    exact ihb h
  | cast t e ih =>
    intro T h
    simp only [ty, Option.bind_eq_some_iff] at h
    obtain ⟨_, _, h⟩ := h
    split at h
    · injection h with h; subst h; assumption
    · cases h
  | sizeof e ih =>
    intro T h
    simp only [ty, Option.map_eq_some_iff] at h
    obtain ⟨_, _, rfl⟩ := h; rfl
  | deref e ih =>
    intro T h
    simp only [ty] at h
    split at h
    · rename_i t he
      injection h with h; subst h
      exact (ih he : (T.ptr t).ok = true)
    · cases h
  | addr e ih =>
    intro T h
    simp only [ty] at h
    split at h
    · rw [Option.map_eq_some_iff] at h
      obtain ⟨t, h1, rfl⟩ := h
      exact (show t.ok = true from ih h1)
    · cases h
  | asg l r ihl _ =>
    intro T h
    simp only [ty] at h
    split at h
    · rw [Option.bind_eq_some_iff] at h
      obtain ⟨_, _, h⟩ := h
      exact ihl h
    · cases h
  | opasg o l r ihl _ =>
    intro T h
    simp only [ty] at h
    split at h
    · simp only [Option.bind_eq_some_iff] at h
      obtain ⟨tl, h1, tr, h2, h3⟩ := h
      unfold opasgTy at h3
      split at h3
      · injection h3 with h3; subst h3; exact ihl h1
      · injection h3 with h3; subst h3; exact ihl h1
      · cases h3
    · cases h
  | inc p d l ihl =>
    intro T h
    simp only [ty] at h
    split at h
    · exact ihl h
    · cases h

/-! ## Types of the same size and sign -/

theorem sim_ptr {e : T} {t : T} (h : Sim (.ptr e) t) : t = .ptr e := by
  cases t with
  | fx t => exact h.2.elim
  | ptr e' => rw [show e = e' from h.2]

theorem sim_ptr' {e : T} {t : T} (h : Sim t (.ptr e)) : t = .ptr e := by
  cases t with
  | fx t => exact h.2.elim
  | ptr e' => rw [show e' = e from h.2]

theorem pro_sim {l l' : Ty} (hl : l.WF) (hl' : l'.WF) (h : Sim (.fx l) (.fx l')) :
    Fold.size 8 (isoPromote l) = Fold.size 8 (isoPromote l') ∧ (isoPromote l).uns = (isoPromote l').uns := by
  have h1 := iso_pro l hl
  have h2 := iso_pro l' hl'
  rw [show Fold.size 8 l = Fold.size 8 l' from h.1.1, show l.uns = l'.uns from h.1.2, ← h2] at h1
  injection h1 with h1 h3
  exact ⟨h1, h3⟩

theorem com_sim {l l' r r' : Ty} (hl : l.WF) (hl' : l'.WF) (hr : r.WF) (hr' : r'.WF) (h : Sim (.fx l) (.fx l')) (h' : Sim (.fx r) (.fx r')) :
    Fold.size 8 (isoCommon 8 l r) = Fold.size 8 (isoCommon 8 l' r') ∧ (isoCommon 8 l r).uns = (isoCommon 8 l' r').uns := by
  have h1 := iso_com l r hl hr
  have h2 := iso_com l' r' hl' hr'
  rw [show Fold.size 8 l = Fold.size 8 l' from h.1.1, show l.uns = l'.uns from h.1.2,
    show Fold.size 8 r = Fold.size 8 r' from h'.1.1, show r.uns = r'.uns from h'.1.2, ← h2] at h1
  injection h1 with h1 h3
  exact ⟨h1, h3⟩

structure Alike (l l' : T) : Prop where
  sim : Sim l l'
  ok : l.ok = true
  ok' : l'.ok = true

theorem alike_cases {l l' : T} (h : Alike l l') : (∃ a b, l = .fx a ∧ l' = .fx b ∧ a.WF ∧ b.WF ∧ Sim (.fx a) (.fx b)) ∨ (∃ e, l = .ptr e ∧ l' = .ptr e) := by
  obtain ⟨h1, h2, h3⟩ := h
  cases l with
  | fx a =>
    cases l' with
    | fx b => exact Or.inl ⟨a, b, rfl, rfl, ok_wf.mp h2, ok_wf.mp h3, h1⟩
    | ptr e => exact h1.2.elim
  | ptr e => exact Or.inr ⟨e, rfl, sim_ptr h1⟩

theorem arVal_sim {o : Ar} {l l' r r' : T} (h : Alike l l') (h' : Alike r r') (a b : Int) : arVal o l r a b = arVal o l' r' a b := by
  rcases alike_cases h with ⟨l, l', rfl, rfl, wl, wl', sl⟩ | ⟨e, rfl, rfl⟩ <;>
    rcases alike_cases h' with ⟨r, r', rfl, rfl, wr, wr', sr⟩ | ⟨e', rfl, rfl⟩
  · obtain ⟨c1, c2⟩ := com_sim wl wl' wr wr' sl sr
    obtain ⟨p1, p2⟩ := pro_sim wl wl' sl
    cases o <;> simp only [arVal, c1, c2, p1, p2]
  all_goals cases o <;> rfl

theorem arTy_sim {o : Ar} {l l' r r' t t' : T} (h : Alike l l') (h' : Alike r r') (e : arTy o l r = some t) (e' : arTy o l' r' = some t') :
    Sim t t' := by
  rcases alike_cases h with ⟨l, l', rfl, rfl, wl, wl', sl⟩ | ⟨p, rfl, rfl⟩ <;>
    rcases alike_cases h' with ⟨r, r', rfl, rfl, wr, wr', sr⟩ | ⟨p', rfl, rfl⟩
  · obtain ⟨c1, c2⟩ := com_sim wl wl' wr wr' sl sr
    obtain ⟨p1, p2⟩ := pro_sim wl wl' sl
    cases o <;> simp only [arTy, Option.some.injEq] at e e' <;> subst e e' <;> first | exact sim_fx c1 c2 | exact sim_fx p1 p2
  · cases o <;> simp only [arTy, Option.some.injEq, reduceCtorEq] at e e'
    subst e e'; exact sim_refl _
  · cases o <;> simp only [arTy, Option.some.injEq, reduceCtorEq] at e e' <;> subst e e' <;> exact sim_refl _
  · cases o <;> simp only [arTy, reduceCtorEq] at e e'
    split at e
    · rw [if_pos ‹_›] at e'; injection e with e; injection e' with e'; subst e e'; exact sim_refl _
    · cases e

theorem swaps_sim {o : Ar} {l l' r r' : T} (h : Alike l l') (h' : Alike r r') : swaps o l r = swaps o l' r' := by
  rcases alike_cases h with ⟨l, l', rfl, rfl, wl, wl', sl⟩ | ⟨p, rfl, rfl⟩ <;>
    rcases alike_cases h' with ⟨r, r', rfl, rfl, wr, wr', sr⟩ | ⟨p', rfl, rfl⟩ <;> cases o <;> rfl

theorem relVal_sim {k : Rel} {l l' r r' : T} (h : Alike l l') (h' : Alike r r') (na nb : Bool) (a b : Int) :
    relVal k l r na nb a b = relVal k l' r' na nb a b := by
  rcases alike_cases h with ⟨l, l', rfl, rfl, wl, wl', sl⟩ | ⟨e, rfl, rfl⟩ <;>
    rcases alike_cases h' with ⟨r, r', rfl, rfl, wr, wr', sr⟩ | ⟨e', rfl, rfl⟩
  · obtain ⟨c1, c2⟩ := com_sim wl wl' wr wr' sl sr
    simp only [relVal, c1, c2]
  all_goals rfl

theorem ternTy_sim {l l' r r' t : T} {na nb : Bool} (h : Alike l l') (h' : Alike r r') (e : ternTy l r na nb = some t) :
    ∃ t', ternTy l' r' na nb = some t' ∧ Sim t t' ∧ (t = .bool → t' = .bool) := by
  rcases alike_cases h with ⟨l, l', rfl, rfl, wl, wl', sl⟩ | ⟨p, rfl, rfl⟩ <;>
    rcases alike_cases h' with ⟨r, r', rfl, rfl, wr, wr', sr⟩ | ⟨p', rfl, rfl⟩
  · obtain ⟨c1, c2⟩ := com_sim wl wl' wr wr' sl sr
    simp only [ternTy, Option.some.injEq] at e
    subst e
    refine ⟨_, rfl, sim_fx c1 c2, fun q => ?_⟩
    exfalso
    revert q
    refine ty_cases (P := fun l => T.fx (isoCommon 8 l r) = .bool → False) ?_ l wl
    intro k u
    refine ty_cases (P := fun r => T.fx (isoCommon 8 ⟨k, u⟩ r) = .bool → False) ?_ r wr
    revert k u
    decide +kernel
  all_goals exact ⟨t, e, sim_refl _, id⟩

theorem cvt_sim {t t' : T} (h : Sim t t') (hb : t ≠ .bool) (hb' : t' ≠ .bool) (a : Int) : cvt t a = cvt t' a := by
  rw [cvt_conv hb, cvt_conv hb', h.1.1, h.1.2]

theorem unVal_sim {o : Un} {l l' : Ty} (hl : l.WF) (hl' : l'.WF) (h : Sim (.fx l) (.fx l')) (a : Int) : unVal o l a = unVal o l' a := by
  obtain ⟨p1, p2⟩ := pro_sim hl hl' h
  cases o <;> simp only [unVal, p1, p2]

theorem sim_trans {a b c : T} (h : Sim a b) (h' : Sim b c) : Sim a c := by
  refine ⟨⟨h.1.1.trans h'.1.1, h.1.2.trans h'.1.2⟩, ?_⟩
  cases a with
  | fx a =>
    cases b with
    | fx b => cases c with
      | fx c => trivial
      | ptr c => exact h'.2.elim
    | ptr b => exact h.2.elim
  | ptr a =>
    obtain rfl := sim_ptr h
    obtain rfl := sim_ptr h'
    rfl

/-! ## Specification: where the compiler is right -/

/-- Something was built, and it is in order. -/
def built (r : Option (X × Nat)) (f : X → Nat → Bool) : Bool :=
  match r with
  | some p => f p.1 p.2
  | none => false

/-- A property of the two operands. -/
def opOk (o : Ar) (x y : X) : Bool :=
  match o with
  | .add => addOk false x y
  | .sub => addOk true x y
  | _ => true

/-- The expressions the compiler gets right.  Excluded are: the sum of two constants and the two branches of `?:` when they
have one size and different signs; the difference of two constant pointers; a comma expression converted to `_Bool` or behind
a constant operand of `&&` or `||`; compound shifts, `++` and `--` of a `_Bool`; addresses that merge two dereferences. -/
def fine (Γ : Ctx) : S → Nat → Bool
  | .lit _ _, _ => true
  | .var _, _ => true
  | .un _ e, n => fine Γ e n
  | .lnot e, n => fine Γ e n
  | .bin o a b, n => fine Γ a n && built (build Γ a n) fun x m => fine Γ b m && built (build Γ b m) fun y _ => opOk o x y
  | .rel _ a b, n => fine Γ a n && built (build Γ a n) fun _ m => fine Γ b m
  | .land a b, n => fine Γ a n && built (build Γ a n) fun x m => fine Γ b m && built (build Γ b m) fun y _ =>
      !isLit (mkCond x) || (condOk x && condOk y)
  | .lor a b, n => fine Γ a n && built (build Γ a n) fun x m => fine Γ b m && built (build Γ b m) fun y _ =>
      !isLit (mkCond x) || (condOk x && condOk y)
  | .tern c a b, n => fine Γ c n && built (build Γ c n) fun _ k => fine Γ a k && built (build Γ a k) fun x m =>
      fine Γ b m && built (build Γ b m) fun y _ => signOk x.ty y.ty
  | .comma a b, n => fine Γ a n && built (build Γ a n) fun _ m => fine Γ b m
  | .cast t e, n => fine Γ e n && built (build Γ e n) fun x _ => t != .bool || condOk x
  | .sizeof e, n => fine Γ e n
  | .deref e, n => fine Γ e n
  | .addr e, n => fine Γ e n && built (build Γ e n) fun x _ => redOk x
  | .asg l r, n => fine Γ l n && built (build Γ l n) fun _ m => fine Γ r m
  | .opasg o l r, n => fine Γ l n && built (build Γ l n) fun x m => fine Γ r m && shiftOk o x && redOk x
  | .inc _ _ l, n => fine Γ l n && built (build Γ l n) fun x _ => x.ty != .bool

/-- The variables of the expression are below `N`. -/
def below (N : Nat) : S → Bool
  | .lit _ _ => true
  | .var x => x < N
  | .un _ e => below N e
  | .lnot e => below N e
  | .bin _ a b => below N a && below N b
  | .rel _ a b => below N a && below N b
  | .land a b => below N a && below N b
  | .lor a b => below N a && below N b
  | .tern c a b => below N c && below N a && below N b
  | .comma a b => below N a && below N b
  | .cast _ e => below N e
  | .sizeof e => below N e
  | .deref e => below N e
  | .addr e => below N e
  | .asg l r => below N l && below N r
  | .opasg _ l r => below N l && below N r
  | .inc _ _ l => below N l

/-- The same memory and the same variables below `N`. -/
structure Agree (N : Nat) (σ τ : State) : Prop where
  env : ∀ x, x < N → σ.env x = τ.env x
  mem : σ.mem = τ.mem

/-- Of the variables from `N` on, only those from `n` to `n'` have changed. -/
def Keep (N n n' : Nat) (τ τ' : State) : Prop := ∀ m, N ≤ m → ¬ (n ≤ m ∧ m < n') → τ'.env m = τ.env m

theorem keep_refl (N n n' : Nat) (τ : State) : Keep N n n' τ τ := fun _ _ _ => rfl

theorem keep_trans {N n m m' k : Nat} {τ τ1 τ2 : State} (h : Keep N n m τ τ1) (h' : Keep N m' k τ1 τ2) (h1 : n ≤ m) (h2 : m ≤ m') (h3 : m' ≤ k) :
    Keep N n k τ τ2 := fun i hi hn => (h' i hi (by omega)).trans (h i hi (by omega))

theorem keep_mono {N n m n' m' : Nat} {τ τ1 : State} (h : Keep N n m τ τ1) (h1 : n' ≤ n) (h2 : m ≤ m') : Keep N n' m' τ τ1 :=
  fun i hi hn => h i hi (by omega)

/-- A place outside the temporaries. -/
def Low (N : Nat) (p : Loc) : Prop := ∀ x, p = .reg x → x < N

theorem get_agree {N : Nat} {σ τ : State} (h : Agree N σ τ) (t : T) {p : Loc} (hp : Low N p) : CExpr.get σ t p = CExpr.get τ t p := by
  unfold CExpr.get
  have : raw σ t p = raw τ t p := by
    cases p with
    | reg x => simp only [raw]; rw [h.env x (hp x rfl)]
    | «at» a => simp only [raw]; rw [h.mem]
  rw [this]

theorem put_agree {N : Nat} {σ τ : State} (h : Agree N σ τ) (t : T) (p : Loc) (a : Int) : Agree N (put σ t p a) (put τ t p a) := by
  cases p with
  | reg x =>
    refine ⟨fun y hy => ?_, h.mem⟩
    simp only [put]
    rw [h.env y hy]
  | «at» q => exact ⟨h.env, by simp only [put]; rw [h.mem]⟩

theorem put_keep {N n n' : Nat} (τ : State) (t : T) {p : Loc} (hp : Low N p) (a : Int) : Keep N n n' τ (put τ t p a) := by
  intro m hm _
  cases p with
  | reg x =>
    have := hp x rfl
    simp only [put]
    rw [if_neg (by omega)]
  | «at» q => rfl

theorem place_low {Γ : Ctx} {N x : Nat} (h : x < N) : Low N (place Γ x) := by
  intro y hy
  unfold place at hy
  split at hy
  · injection hy with hy; omega
  · cases hy

/-- What is known about the tree built for an expression. -/
structure Built (Γ : Ctx) (N : Nat) (e : S) (t : T) (x : X) (n n' : Nat) : Prop where
  wx : WX x
  alike : Alike t x.ty
  mono : n ≤ n'
  lvx : isLval e = true → isLvX x = true ∧ x.ty = t
  ev : ∀ {σ σ' τ : State} {a : Int}, Agree N σ τ → ev Γ e σ = some (a, σ') →
    ∃ τ', evT Γ x τ = some (a, τ') ∧ Agree N σ' τ' ∧ Keep N n n' τ τ'
  lv : ∀ {σ σ' τ : State} {p : Loc}, Agree N σ τ → lv Γ e σ = some (p, σ') →
    Low N p ∧ ∃ τ', lvT Γ x τ = some (p, τ') ∧ Agree N σ' τ' ∧ Keep N n n' τ τ'

def Goal (Γ : Ctx) (N : Nat) (e : S) : Prop :=
  ∀ {n n' : Nat} {x : X} {t : T}, N ≤ n → below N e = true → ty Γ e = some t → fine Γ e n = true → build Γ e n = some (x, n') →
    Built Γ N e t x n n'

theorem inc_key {T : CExpr.T} {dec : Bool} {v z : Int} (ok : T.ok = true) (nb : T ≠ .bool)
    (k3 : arVal (if dec then .sub else .add) T (.fx tyInt) v 1 = some z) :
    conv T.size T.uns (if dec then v - stepOf T
      else v + stepOf T) = cvt T z := by
  rw [cvt_conv nb]
  cases T with
  | ptr e =>
    cases dec
    · simp only [arVal, Bool.false_eq_true, if_false, Option.some.injEq, stepOf] at k3 ⊢
      rw [← k3]
      show (v + (e.size : Int)) % 2 ^ (8 * 8) = ((v + 1 * (e.size : Int)) % 2 ^ 64) % 2 ^ (8 * 8)
      omega
    · simp only [arVal, if_true, Option.some.injEq, stepOf] at k3 ⊢
      rw [← k3]
      show (v - (e.size : Int)) % 2 ^ (8 * 8) = ((v - 1 * (e.size : Int)) % 2 ^ 64) % 2 ^ (8 * 8)
      omega
  | fx t =>
    have wt := ok_wf.mp ok
    have hz := size_Sz (Or.inr rfl : 8 = 4 ∨ 8 = 8) (isoCommon 8 t tyInt)
    have hc : Fold.size 8 t ≤ Fold.size 8 (isoCommon 8 t tyInt) := by
      refine ty_cases (P := fun t => t.WF → Fold.size 8 t ≤ Fold.size 8 (isoCommon 8 t tyInt)) ?_ t wt wt
      decide +kernel
    have ht := size_Sz (Or.inr rfl : 8 = 4 ∨ 8 = 8) t
    show conv (Fold.size 8 t) t.uns _ = conv (Fold.size 8 t) t.uns z
    have c1 := conv_congr hz (isoCommon 8 t tyInt).uns v
    have c2 := conv_congr hz (isoCommon 8 t tyInt).uns 1
    have up : ∀ {m : Int}, m % 2 ^ (8 * Fold.size 8 (isoCommon 8 t tyInt)) = 0 → m % 2 ^ (8 * Fold.size 8 t) = 0 := by
      intro m hm
      exact Int.emod_eq_zero_of_dvd (dvd_trans (pow_dvd_pow _ (by omega)) (Int.dvd_of_emod_eq_zero hm))
    cases dec
    · simp only [arVal, Bool.false_eq_true, if_false, stepOf] at k3 ⊢
      rw [arith_conv hz k3, conv_narrow ht hz hc]
      generalize conv (Fold.size 8 (isoCommon 8 t tyInt)) (isoCommon 8 t tyInt).uns v = v' at *
      generalize conv (Fold.size 8 (isoCommon 8 t tyInt)) (isoCommon 8 t tyInt).uns 1 = w' at *
      refine conv_eq ht _ (up ?_)
      have : v + 1 - (v' + w') = -((v' - v) + (w' - 1)) := by omega
      rw [this]
      exact Int.emod_eq_zero_of_dvd ((dvd_neg).mpr (dvd_add (Int.dvd_of_emod_eq_zero c1) (Int.dvd_of_emod_eq_zero c2)))
    · simp only [arVal, if_true, stepOf] at k3 ⊢
      rw [arith_conv hz k3, conv_narrow ht hz hc]
      generalize conv (Fold.size 8 (isoCommon 8 t tyInt)) (isoCommon 8 t tyInt).uns v = v' at *
      generalize conv (Fold.size 8 (isoCommon 8 t tyInt)) (isoCommon 8 t tyInt).uns 1 = w' at *
      refine conv_eq ht _ (up ?_)
      have : v - 1 - (v' - w') = -((v' - v) - (w' - 1)) := by omega
      rw [this]
      exact Int.emod_eq_zero_of_dvd ((dvd_neg).mpr (dvd_sub (Int.dvd_of_emod_eq_zero c1) (Int.dvd_of_emod_eq_zero c2)))

section
variable {Γ : Ctx} {N : Nat} (hΓ : ∀ x, (Γ x).ty.ok = true)

theorem nolv {P : Prop} {e : S} (h : isLval e = false) {σ σ' : State} {p : Loc} : CExpr.lv Γ e σ = some (p, σ') → P := by
  intro q
  cases e <;> first | (simp only [CExpr.lv] at q; cases q; done) | cases h

include hΓ

theorem goal_lit (t : Ty) (a : Int) : Goal Γ N (.lit t a) := by
  intro n n' x T _ _ hT _ hb
  simp only [build, Option.some.injEq, Prod.mk.injEq] at hb
  obtain ⟨rfl, rfl⟩ := hb
  have ok := ty_ok hΓ _ hT
  simp only [CExpr.ty] at hT
  split at hT
  · injection hT with hT
    subst hT
    obtain ⟨h1, h2, h3⟩ := litOk_wf ‹_›
    have r : Rep (Fold.size 8 t) t.uns a (cell t a) := ⟨h3, rfl⟩
    have c := rep_conv (size_Sz (Or.inr rfl) t) r
    refine ⟨⟨ok, ?_, fun q => absurd q h2⟩, ⟨sim_refl _, ok, ok⟩, le_refl _, (fun q => nomatch q), ?_, fun _ => nolv rfl⟩
    · show Rep (Fold.size 8 t) t.uns (conv (Fold.size 8 t) t.uns (cell t a)) (cell t a)
      rw [c]; exact r
    · intro σ σ' τ b hA e
      simp only [CExpr.ev, Option.some.injEq, Prod.mk.injEq] at e
      obtain ⟨rfl, rfl⟩ := e
      refine ⟨τ, ?_, hA, keep_refl _ _ _ _⟩
      simp only [evT]
      rw [show conv (T.fx t).size (T.fx t).uns (cell t a) = a from c]
  · cases hT

theorem goal_var (v : Nat) : Goal Γ N (.var v) := by
  intro n n' x T _ hN hT _ hb
  simp only [build, Option.some.injEq, Prod.mk.injEq] at hb
  obtain ⟨rfl, rfl⟩ := hb
  have ok := ty_ok hΓ _ hT
  simp only [CExpr.ty, Option.some.injEq] at hT
  subst hT
  have hv : v < N := by simpa [below] using hN
  refine ⟨ok, ⟨sim_refl _, ok, ok⟩, le_refl _, fun _ => ⟨rfl, rfl⟩, ?_, ?_⟩
  · intro σ σ' τ a hA e
    simp only [CExpr.ev, Option.map_eq_some_iff, Prod.mk.injEq] at e
    obtain ⟨b, e, rfl, rfl⟩ := e
    refine ⟨τ, ?_, hA, keep_refl _ _ _ _⟩
    simp only [evT]
    rw [← get_agree hA _ (place_low hv), e]
    rfl
  · intro σ σ' τ p hA e
    simp only [CExpr.lv, Option.some.injEq, Prod.mk.injEq] at e
    obtain ⟨rfl, rfl⟩ := e
    exact ⟨place_low hv, τ, rfl, hA, keep_refl _ _ _ _⟩

theorem goal_un (o : Un) (e : S) (ih : Goal Γ N e) : Goal Γ N (.un o e) := by
  intro n n' x T hn hN hT hf hb
  simp only [build, Option.bind_eq_some_iff, Option.map_eq_some_iff, Prod.mk.injEq] at hb
  obtain ⟨⟨y, m⟩, b1, z, b2, rfl, rfl⟩ := hb
  have ok := ty_ok hΓ _ hT
  simp only [CExpr.ty] at hT
  split at hT
  · rename_i t ht
    injection hT with hT
    subst hT
    have B := ih hn hN ht hf b1
    obtain ⟨t', q1, q2, q3, q4⟩ := mkUn_ok (Γ := Γ) B.wx b2
    have al := B.alike
    rw [q1] at al
    have wt := ok_wf.mp al.ok
    have wt' := ok_wf.mp al.ok'
    have ps := pro_sim wt wt' al.sim
    refine ⟨q2, ⟨by rw [q3]; exact sim_fx ps.1 ps.2, ok, wx_ok q2⟩, B.mono, (fun q => nomatch q), ?_, fun _ => nolv rfl⟩
    intro σ σ' τ a hA he
    have key : ∃ b, CExpr.ev Γ e σ = some (b, σ') ∧ unVal o t b = some a := by
      simp only [CExpr.ev, ht] at he
      cases h : CExpr.ev Γ e σ with
      | none => rw [h] at he; cases he
      | some r =>
        obtain ⟨b, σ1⟩ := r
        rw [h] at he
        dsimp only at he
        cases o with
        | pos => simp only [Option.some.injEq, Prod.mk.injEq] at he; obtain ⟨rfl, rfl⟩ := he; exact ⟨b, rfl, rfl⟩
        | neg =>
          simp only [Option.map_eq_some_iff, Prod.mk.injEq] at he
          obtain ⟨c, h1, rfl, rfl⟩ := he
          exact ⟨b, rfl, h1⟩
        | bnot => simp only [Option.some.injEq, Prod.mk.injEq] at he; obtain ⟨rfl, rfl⟩ := he; exact ⟨b, rfl, rfl⟩
    obtain ⟨b, k1, k2⟩ := key
    obtain ⟨τ', e1, e2, e3⟩ := B.ev hA k1
    exact ⟨τ', q4 e1 (by rw [← unVal_sim wt wt' al.sim]; exact k2), e2, e3⟩
  · cases hT

theorem goal_lnot (e : S) (ih : Goal Γ N e) : Goal Γ N (.lnot e) := by
  intro n n' x T hn hN hT hf hb
  simp only [build, Option.map_eq_some_iff, Prod.mk.injEq] at hb
  obtain ⟨⟨y, m⟩, b1, rfl, rfl⟩ := hb
  simp only [CExpr.ty, Option.map_eq_some_iff] at hT
  obtain ⟨t, ht, rfl⟩ := hT
  have B := ih hn hN ht hf b1
  have R := mkNot_truth (Γ := Γ) B.wx
  refine ⟨R.wx, ⟨by rw [R.ty]; exact sim_fx rfl rfl, rfl, wx_ok R.wx⟩, B.mono, (fun q => nomatch q), ?_, fun _ => nolv rfl⟩
  intro σ σ' τ a hA he
  simp only [CExpr.ev, Option.map_eq_some_iff, Prod.mk.injEq] at he
  obtain ⟨⟨b, σ1⟩, k1, rfl, rfl⟩ := he
  obtain ⟨τ', e1, e2, e3⟩ := B.ev hA k1
  exact ⟨τ', R.ev e1, e2, e3⟩

theorem goal_bin (o : Ar) (a b : S) (iha : Goal Γ N a) (ihb : Goal Γ N b) : Goal Γ N (.bin o a b) := by
  intro n n' x T hn hN hT hf hb
  simp only [build, Option.bind_eq_some_iff, Option.map_eq_some_iff, Prod.mk.injEq] at hb
  obtain ⟨⟨y, m⟩, b1, ⟨z, k⟩, b2, w, b3, rfl, rfl⟩ := hb
  have ok := ty_ok hΓ _ hT
  simp only [CExpr.ty, Option.bind_eq_some_iff] at hT
  obtain ⟨l, hl, r, hr, hT⟩ := hT
  simp only [below, Bool.and_eq_true] at hN
  simp only [fine, b1, built, Bool.and_eq_true] at hf
  obtain ⟨f1, f2, f3⟩ := hf
  rw [b2] at f3
  have A := iha hn hN.1 hl f1 b1
  have B := ihb (le_trans hn A.mono) hN.2 hr f2 b2
  have R : BinOk Γ o y z w := mkBin_ok A.wx B.wx (by
    rintro (rfl | rfl)
    · simpa [opOk] using f3
    · simpa [opOk] using f3) b3
  obtain ⟨t', h1, h2⟩ := R.sim
  refine ⟨R.wx, ⟨sim_trans (arTy_sim A.alike B.alike hT h1) h2, ok, wx_ok R.wx⟩, le_trans A.mono B.mono, (fun q => nomatch q), ?_, fun _ => nolv rfl⟩
  intro σ σ' τ c hA he
  simp only [CExpr.ev, hl, hr] at he
  split at he
  · rename_i hs
    split at he
    · rename_i v σ1 k1
      split at he
      · rename_i u σ2 k2
        rw [Option.map_eq_some_iff] at he
        obtain ⟨d, k3, k4⟩ := he
        injection k4 with k4 k5
        subst k4 k5
        obtain ⟨τ1, e1, e2, e3⟩ := B.ev hA k1
        obtain ⟨τ2, e4, e5, e6⟩ := A.ev e2 k2
        refine ⟨τ2, R.ev' (by rw [← swaps_sim A.alike B.alike]; exact hs) e1 e4 (by rw [← arVal_sim A.alike B.alike]; exact k3), e5, ?_⟩
        intro i hi hni
        have m1 := A.mono
        have m2 := B.mono
        exact (e6 i hi (by omega)).trans (e3 i hi (by omega))
      · cases he
    · cases he
  · rename_i hs
    split at he
    · rename_i u σ1 k1
      split at he
      · rename_i v σ2 k2
        rw [Option.map_eq_some_iff] at he
        obtain ⟨d, k3, k4⟩ := he
        injection k4 with k4 k5
        subst k4 k5
        obtain ⟨τ1, e1, e2, e3⟩ := A.ev hA k1
        obtain ⟨τ2, e4, e5, e6⟩ := B.ev e2 k2
        exact ⟨τ2, R.ev (by rw [← swaps_sim A.alike B.alike]; simpa using hs) e1 e4 (by rw [← arVal_sim A.alike B.alike]; exact k3), e5,
          keep_trans e3 e6 A.mono (le_refl _) B.mono⟩
      · cases he
    · cases he

theorem null_lit {e : S} {n n' : Nat} {x : X} (h : isNull e = true) (hb : build Γ e n = some (x, n')) : ∃ t, x = .lit t 0 := by
  cases e <;> simp only [isNull, Bool.false_eq_true, decide_eq_true_eq] at h
  subst h
  simp only [build, Option.some.injEq, Prod.mk.injEq] at hb
  obtain ⟨rfl, rfl⟩ := hb
  exact ⟨_, by unfold cell; split <;> rfl⟩

theorem goal_rel (k : Rel) (a b : S) (iha : Goal Γ N a) (ihb : Goal Γ N b) : Goal Γ N (.rel k a b) := by
  intro n n' x T hn hN hT hf hb
  simp only [build, Option.bind_eq_some_iff, Option.map_eq_some_iff, Prod.mk.injEq] at hb
  obtain ⟨⟨y, m⟩, b1, ⟨z, k'⟩, b2, w, b3, rfl, rfl⟩ := hb
  simp only [CExpr.ty, Option.bind_eq_some_iff, Option.map_eq_some_iff] at hT
  obtain ⟨l, hl, r, hr, rfl⟩ := hT
  simp only [below, Bool.and_eq_true] at hN
  simp only [fine, b1, built, Bool.and_eq_true] at hf
  obtain ⟨f1, f2⟩ := hf
  have A := iha hn hN.1 hl f1 b1
  have B := ihb (le_trans hn A.mono) hN.2 hr f2 b2
  obtain ⟨w1, w2⟩ := mkCmp_wx A.wx B.wx b3
  refine ⟨w1, ⟨by rw [w2]; exact sim_fx rfl rfl, rfl, wx_ok w1⟩, le_trans A.mono B.mono, (fun q => nomatch q), ?_, fun _ => nolv rfl⟩
  intro σ σ' τ c hA he
  simp only [CExpr.ev, hl, hr] at he
  cases k1 : CExpr.ev Γ a σ with
  | none => rw [k1] at he; cases he
  | some r1 =>
    obtain ⟨u, σ1⟩ := r1
    rw [k1] at he
    dsimp only at he
    split at he
    · rename_i v σ2 k2
      rw [Option.map_eq_some_iff] at he
      obtain ⟨d, k3, k4⟩ := he
      injection k4 with k4 k5
      subst k4 k5
      obtain ⟨τ1, e1, e2, e3⟩ := A.ev hA k1
      obtain ⟨τ2, e4, e5, e6⟩ := B.ev e2 k2
      exact ⟨τ2, mkCmp_ok A.wx B.wx b3 _ _ (fun q => null_lit hΓ q b1) (fun q => null_lit hΓ q b2) e1 e4
        (by rw [← relVal_sim A.alike B.alike]; exact k3), e5, keep_trans e3 e6 A.mono (le_refl _) B.mono⟩
    · cases he

theorem goal_land (a b : S) (iha : Goal Γ N a) (ihb : Goal Γ N b) : Goal Γ N (.land a b) := by
  intro n n' x T hn hN hT hf hb
  simp only [build, Option.bind_eq_some_iff, Option.map_eq_some_iff, Prod.mk.injEq] at hb
  obtain ⟨⟨y, m⟩, b1, ⟨z, k'⟩, b2, rfl, rfl⟩ := hb
  simp only [CExpr.ty, Option.bind_eq_some_iff, Option.map_eq_some_iff] at hT
  obtain ⟨l, hl, r, hr, rfl⟩ := hT
  simp only [below, Bool.and_eq_true] at hN
  simp only [fine, b1, built, Bool.and_eq_true] at hf
  obtain ⟨f1, f2, f3⟩ := hf
  rw [b2] at f3
  have A := iha hn hN.1 hl f1 b1
  have B := ihb (le_trans hn A.mono) hN.2 hr f2 b2
  obtain ⟨w1, w2, w3⟩ := mkLog_ok (Γ := Γ) (isAnd := true) A.wx B.wx
  refine ⟨w1, ⟨w2 fun q => ?_, rfl, wx_ok w1⟩, le_trans A.mono B.mono, (fun q => nomatch q), ?_, fun _ => nolv rfl⟩
  · simpa [q] using f3
  · intro σ σ' τ c hA he
    simp only [CExpr.ev] at he
    split at he
    · rename_i u σ1 k1
      obtain ⟨τ1, e1, e2, e3⟩ := A.ev hA k1
      obtain ⟨v1, v2⟩ := w3 e1
      simp only [if_true] at v1 v2
      split at he
      · injection he with he
        injection he with he1 he2
        subst he1 he2
        exact ⟨τ1, v1 ‹_›, e2, keep_mono e3 (le_refl _) B.mono⟩
      · rw [Option.map_eq_some_iff] at he
        obtain ⟨⟨v, σ2⟩, k2, k4⟩ := he
        injection k4 with k4 k5
        subst k4 k5
        obtain ⟨τ2, e4, e5, e6⟩ := B.ev e2 k2
        exact ⟨τ2, v2 ‹_› e4, e5, keep_trans e3 e6 A.mono (le_refl _) B.mono⟩
    · cases he

theorem goal_lor (a b : S) (iha : Goal Γ N a) (ihb : Goal Γ N b) : Goal Γ N (.lor a b) := by
  intro n n' x T hn hN hT hf hb
  simp only [build, Option.bind_eq_some_iff, Option.map_eq_some_iff, Prod.mk.injEq] at hb
  obtain ⟨⟨y, m⟩, b1, ⟨z, k'⟩, b2, rfl, rfl⟩ := hb
  simp only [CExpr.ty, Option.bind_eq_some_iff, Option.map_eq_some_iff] at hT
  obtain ⟨l, hl, r, hr, rfl⟩ := hT
  simp only [below, Bool.and_eq_true] at hN
  simp only [fine, b1, built, Bool.and_eq_true] at hf
  obtain ⟨f1, f2, f3⟩ := hf
  rw [b2] at f3
  have A := iha hn hN.1 hl f1 b1
  have B := ihb (le_trans hn A.mono) hN.2 hr f2 b2
  obtain ⟨w1, w2, w3⟩ := mkLog_ok (Γ := Γ) (isAnd := false) A.wx B.wx
  refine ⟨w1, ⟨w2 fun q => ?_, rfl, wx_ok w1⟩, le_trans A.mono B.mono, (fun q => nomatch q), ?_, fun _ => nolv rfl⟩
  · simpa [q] using f3
  · intro σ σ' τ c hA he
    simp only [CExpr.ev] at he
    split at he
    · rename_i u σ1 k1
      obtain ⟨τ1, e1, e2, e3⟩ := A.ev hA k1
      obtain ⟨v1, v2⟩ := w3 e1
      simp only [Bool.false_eq_true, if_false, ne_eq, not_not] at v1 v2
      split at he
      · rw [Option.map_eq_some_iff] at he
        obtain ⟨⟨v, σ2⟩, k2, k4⟩ := he
        injection k4 with k4 k5
        subst k4 k5
        obtain ⟨τ2, e4, e5, e6⟩ := B.ev e2 k2
        exact ⟨τ2, v2 ‹_› e4, e5, keep_trans e3 e6 A.mono (le_refl _) B.mono⟩
      · injection he with he
        injection he with he1 he2
        subst he1 he2
        exact ⟨τ1, v1 ‹_›, e2, keep_mono e3 (le_refl _) B.mono⟩
    · cases he

theorem goal_tern (c a b : S) (ihc : Goal Γ N c) (iha : Goal Γ N a) (ihb : Goal Γ N b) : Goal Γ N (.tern c a b) := by
  intro n n' x T hn hN hT hf hb
  simp only [build, Option.bind_eq_some_iff, Option.map_eq_some_iff, Prod.mk.injEq] at hb
  obtain ⟨⟨w, m0⟩, b0, ⟨y, m⟩, b1, ⟨z, k'⟩, b2, u, b3, rfl, rfl⟩ := hb
  have ok := ty_ok hΓ _ hT
  have hT0 := hT
  simp only [CExpr.ty, Option.bind_eq_some_iff] at hT
  obtain ⟨tc, hc, l, hl, r, hr, hT⟩ := hT
  simp only [below, Bool.and_eq_true] at hN
  simp only [fine, b0, built, Bool.and_eq_true] at hf
  obtain ⟨f0, f1, f2⟩ := hf
  rw [b1] at f2
  simp only [Bool.and_eq_true] at f2
  obtain ⟨f2, f3⟩ := f2
  rw [b2] at f3
  have C := ihc hn hN.1.1 hc f0 b0
  have A := iha (le_trans hn C.mono) hN.1.2 hl f1 b1
  have B := ihb (le_trans hn (le_trans C.mono A.mono)) hN.2 hr f2 b2
  obtain ⟨t', h1, h2, h3⟩ := ternTy_sim A.alike B.alike hT
  obtain ⟨w1, w2, w3, w4⟩ := mkTern_ok (Γ := Γ) C.wx A.wx B.wx f3 b3 h1
  have nb : T ≠ .bool := fun q => w3 (h3 q)
  refine ⟨w1, ⟨sim_trans h2 w2, ok, wx_ok w1⟩, le_trans C.mono (le_trans A.mono B.mono), (fun q => nomatch q), ?_, fun _ => nolv rfl⟩
  intro σ σ' τ v hA he
  simp only [CExpr.ev, hT0] at he
  cases k0 : CExpr.ev Γ c σ with
  | none => rw [k0] at he; cases he
  | some r0 =>
    obtain ⟨cv, σ1⟩ := r0
    rw [k0] at he
    dsimp only at he
    obtain ⟨τ1, e1, e2, e3⟩ := C.ev hA k0
    obtain ⟨v1, v2⟩ := w4 e1
    split at he
    · rw [Option.map_eq_some_iff] at he
      obtain ⟨⟨bv, σ2⟩, k2, k4⟩ := he
      injection k4 with k4 k5
      subst k4 k5
      obtain ⟨τ2, e4, e5, e6⟩ := B.ev e2 k2
      exact ⟨τ2, by rw [v1 ‹_› e4, cvt_sim h2 nb w3], e5, keep_trans e3 e6 C.mono A.mono B.mono⟩
    · rw [Option.map_eq_some_iff] at he
      obtain ⟨⟨bv, σ2⟩, k2, k4⟩ := he
      injection k4 with k4 k5
      subst k4 k5
      obtain ⟨τ2, e4, e5, e6⟩ := A.ev e2 k2
      exact ⟨τ2, by rw [v2 ‹_› e4, cvt_sim h2 nb w3], e5, keep_mono (keep_trans e3 e6 C.mono (le_refl _) A.mono) (le_refl _) B.mono⟩

theorem goal_comma (a b : S) (iha : Goal Γ N a) (ihb : Goal Γ N b) : Goal Γ N (.comma a b) := by
  intro n n' x T hn hN hT hf hb
  simp only [build, Option.bind_eq_some_iff, Option.map_eq_some_iff, Prod.mk.injEq] at hb
  obtain ⟨⟨y, m⟩, b1, ⟨z, k'⟩, b2, rfl, rfl⟩ := hb
  simp only [CExpr.ty, Option.bind_eq_some_iff] at hT
  obtain ⟨l, hl, hr⟩ := hT
  simp only [below, Bool.and_eq_true] at hN
  simp only [fine, b1, built, Bool.and_eq_true] at hf
  obtain ⟨f1, f2⟩ := hf
  have A := iha hn hN.1 hl f1 b1
  have B := ihb (le_trans hn A.mono) hN.2 hr f2 b2
  obtain ⟨w1, w2, w3⟩ := mkComma_ok (Γ := Γ) A.wx B.wx
  refine ⟨w1, by rw [w2]; exact B.alike, le_trans A.mono B.mono, (fun q => nomatch q), ?_, fun _ => nolv rfl⟩
  intro σ σ' τ c hA he
  simp only [CExpr.ev] at he
  split at he
  · rename_i u σ1 k1
    obtain ⟨τ1, e1, e2, e3⟩ := A.ev hA k1
    obtain ⟨τ2, e4, e5, e6⟩ := B.ev e2 he
    exact ⟨τ2, by rw [w3 e1]; exact e4, e5, keep_trans e3 e6 A.mono (le_refl _) B.mono⟩
  · cases he

theorem goal_cast (t : T) (e : S) (ih : Goal Γ N e) : Goal Γ N (.cast t e) := by
  intro n n' x T hn hN hT hf hb
  simp only [build, Option.map_eq_some_iff, Prod.mk.injEq] at hb
  obtain ⟨⟨y, m⟩, b1, rfl, rfl⟩ := hb
  simp only [CExpr.ty, Option.bind_eq_some_iff] at hT
  obtain ⟨t0, ht, hT⟩ := hT
  split at hT
  · rename_i ok
    injection hT with hT
    subst hT
    simp only [fine, b1, built, Bool.and_eq_true] at hf
    have B := ih hn hN ht hf.1 b1
    obtain ⟨w1, w2, w3, w4⟩ := mkCast_ok (Γ := Γ) (t := t) B.wx ok
    refine ⟨w1, ⟨w3 fun q => by simpa [q] using hf.2, ok, wx_ok w1⟩, B.mono, (fun q => nomatch q), ?_, fun _ => nolv rfl⟩
    intro σ σ' τ a hA he
    simp only [CExpr.ev, Option.map_eq_some_iff, Prod.mk.injEq] at he
    obtain ⟨⟨b, σ1⟩, k1, rfl, rfl⟩ := he
    obtain ⟨τ', e1, e2, e3⟩ := B.ev hA k1
    exact ⟨τ', w4 e1, e2, e3⟩
  · cases hT

theorem goal_sizeof (e : S) (ih : Goal Γ N e) : Goal Γ N (.sizeof e) := by
  intro n n' x T hn hN hT hf hb
  simp only [build, Option.map_eq_some_iff, Prod.mk.injEq] at hb
  obtain ⟨⟨y, m⟩, b1, rfl, rfl⟩ := hb
  simp only [CExpr.ty, Option.map_eq_some_iff] at hT
  obtain ⟨t, ht, rfl⟩ := hT
  have B := ih hn hN ht hf b1
  have c : conv tySize.size tySize.uns (y.ty.size : Int) = y.ty.size ∧ IsI64 (y.ty.size : Int) := by
    rcases tsz y.ty with q | q | q | q <;> rw [q] <;> exact ⟨by decide, by unfold IsI64; decide⟩
  refine ⟨⟨rfl, rep8 c.2, fun q => absurd q (by decide)⟩, ⟨sim_refl _, rfl, rfl⟩, B.mono, (fun q => nomatch q), ?_, fun _ => nolv rfl⟩
  intro σ σ' τ a hA he
  simp only [CExpr.ev, ht, Option.map_some, Option.some.injEq, Prod.mk.injEq] at he
  obtain ⟨rfl, rfl⟩ := he
  refine ⟨τ, ?_, hA, keep_refl _ _ _ _⟩
  simp only [evT]
  rw [c.1, B.alike.sim.1.1]

theorem goal_deref (e : S) (ih : Goal Γ N e) : Goal Γ N (.deref e) := by
  intro n n' x T hn hN hT hf hb
  simp only [build, Option.bind_eq_some_iff] at hb
  obtain ⟨⟨y, m⟩, b1, b2⟩ := hb
  simp only [CExpr.ty] at hT
  split at hT
  · rename_i t ht
    injection hT with hT
    subst hT
    have B := ih hn hN ht hf b1
    have hy := sim_ptr B.alike.sim
    simp only [hy, Option.some.injEq, Prod.mk.injEq] at b2
    obtain ⟨rfl, rfl⟩ := b2
    have ok : t.ok = true := B.alike.ok
    refine ⟨⟨B.wx, hy⟩, ⟨sim_refl _, ok, ok⟩, B.mono, fun _ => ⟨rfl, rfl⟩, ?_, ?_⟩
    · intro σ σ' τ a hA he
      simp only [CExpr.ev, ht] at he
      cases k1 : CExpr.ev Γ e σ with
      | none => rw [k1] at he; cases he
      | some r =>
        obtain ⟨p, σ1⟩ := r
        rw [k1] at he
        simp only [Option.map_eq_some_iff, Prod.mk.injEq] at he
        obtain ⟨b, k2, rfl, rfl⟩ := he
        obtain ⟨τ', e1, e2, e3⟩ := B.ev hA k1
        refine ⟨τ', ?_, e2, e3⟩
        simp only [evT]
        rw [e1]
        dsimp only
        rw [← get_agree e2 t (p := .at p.toNat) (fun _ q => nomatch q), k2]
        rfl
    · intro σ σ' τ p hA he
      simp only [CExpr.lv, ht] at he
      cases k1 : CExpr.ev Γ e σ with
      | none => rw [k1] at he; cases he
      | some r =>
        obtain ⟨q, σ1⟩ := r
        rw [k1] at he
        simp only [Option.some.injEq, Prod.mk.injEq] at he
        obtain ⟨rfl, rfl⟩ := he
        obtain ⟨τ', e1, e2, e3⟩ := B.ev hA k1
        refine ⟨(fun _ q => nomatch q), τ', ?_, e2, e3⟩
        simp only [lvT]
        rw [e1]
        rfl
  · cases hT

theorem goal_addr (e : S) (ih : Goal Γ N e) : Goal Γ N (.addr e) := by
  intro n n' x T hn hN hT hf hb
  simp only [build, Option.bind_eq_some_iff, Option.map_eq_some_iff, Prod.mk.injEq] at hb
  obtain ⟨⟨y, m⟩, b1, z, b2, rfl, rfl⟩ := hb
  have ok := ty_ok hΓ _ hT
  simp only [CExpr.ty] at hT
  split at hT
  · rename_i hl
    rw [Option.map_eq_some_iff] at hT
    obtain ⟨t, ht, rfl⟩ := hT
    simp only [fine, b1, built, Bool.and_eq_true] at hf
    have B := ih hn hN ht hf.1 b1
    obtain ⟨w1, w2, w3⟩ := mkRefer_ok (Γ := Γ) B.wx hf.2 b2
    refine ⟨w1, ⟨by rw [w2, (B.lvx hl).2]; exact sim_refl _, ok, wx_ok w1⟩, B.mono, (fun q => nomatch q), ?_, fun _ => nolv rfl⟩
    intro σ σ' τ a hA he
    simp only [CExpr.ev] at he
    split at he
    · rename_i p σ1 k1
      injection he with he
      injection he with he1 he2
      subst he1 he2
      obtain ⟨_, τ', e1, e2, e3⟩ := B.lv hA k1
      exact ⟨τ', w3 e1, e2, e3⟩
    · cases he
  · cases hT

theorem goal_asg (l r : S) (ihl : Goal Γ N l) (ihr : Goal Γ N r) : Goal Γ N (.asg l r) := by
  intro n n' x T hn hN hT hf hb
  simp only [build, Option.bind_eq_some_iff] at hb
  obtain ⟨⟨y, m⟩, b1, ⟨z, k⟩, b2, b3⟩ := hb
  have ok := ty_ok hΓ _ hT
  simp only [CExpr.ty] at hT
  split at hT
  · rename_i hl
    rw [Option.bind_eq_some_iff] at hT
    obtain ⟨tr, hr, hT⟩ := hT
    simp only [below, Bool.and_eq_true] at hN
    simp only [fine, b1, built, Bool.and_eq_true] at hf
    have A := ihl hn hN.1 hT hf.1 b1
    have B := ihr (le_trans hn A.mono) hN.2 hr hf.2 b2
    obtain ⟨lv1, lv2⟩ := A.lvx hl
    dsimp only at b3
    rw [lv1] at b3
    simp only [if_true, Option.some.injEq, Prod.mk.injEq] at b3
    obtain ⟨rfl, rfl⟩ := b3
    rw [lv2]
    obtain ⟨w1, w2, w3, w4⟩ := mkCast_ok (Γ := Γ) (t := T) B.wx ok
    refine ⟨⟨A.wx, w1, lv2.symm, w2⟩, ⟨sim_refl _, ok, ok⟩, le_trans A.mono B.mono, (fun q => nomatch q), ?_, fun _ => nolv rfl⟩
    intro σ σ' τ a hA he
    simp only [CExpr.ev, hT] at he
    cases k1 : CExpr.ev Γ r σ with
    | none => rw [k1] at he; cases he
    | some q =>
      obtain ⟨b, σ1⟩ := q
      rw [k1] at he
      dsimp only at he
      split at he
      · rename_i p σ2 k2
        injection he with he
        injection he with he1 he2
        subst he1 he2
        obtain ⟨τ1, e1, e2, e3⟩ := B.ev hA k1
        obtain ⟨hp, τ2, e4, e5, e6⟩ := A.lv e2 k2
        refine ⟨put τ2 T p (cvt T b), ?_, put_agree e5 .., ?_⟩
        · simp only [evT]
          rw [w4 e1]
          dsimp only
          rw [e4]
        · intro i hi hni
          have m1 := A.mono
          have m2 := B.mono
          rw [put_keep (n := n) (n' := k) τ2 T hp _ i hi hni]
          exact (e6 i hi (by omega)).trans (e3 i hi (by omega))
      · cases he
  · cases hT

theorem goal_inc (post dec : Bool) (l : S) (ihl : Goal Γ N l) : Goal Γ N (.inc post dec l) := by
  intro n n' x T hn hN hT hf hb
  simp only [build, Option.bind_eq_some_iff] at hb
  obtain ⟨⟨y, m⟩, b1, b3⟩ := hb
  have ok := ty_ok hΓ _ hT
  simp only [CExpr.ty] at hT
  split at hT
  · rename_i hl
    simp only [fine, b1, built, Bool.and_eq_true, bne_iff_ne] at hf
    have A := ihl hn hN hT hf.1 b1
    obtain ⟨lv1, lv2⟩ := A.lvx hl
    dsimp only at b3
    rw [lv1] at b3
    simp only [if_true, Option.some.injEq, Prod.mk.injEq] at b3
    obtain ⟨rfl, rfl⟩ := b3
    have nb : T ≠ .bool := by rw [← lv2]; exact hf.2
    refine ⟨⟨A.wx, rfl, hf.2⟩, ⟨by rw [show (X.inc post dec y.ty y).ty = y.ty from rfl, lv2]; exact sim_refl _, ok, show y.ty.ok = true from wx_ok A.wx⟩, A.mono,
      (fun q => nomatch q), ?_, fun _ => nolv rfl⟩
    intro σ σ' τ a hA he
    simp only [CExpr.ev, hT] at he
    cases k1 : CExpr.lv Γ l σ with
    | none => rw [k1] at he; cases he
    | some q =>
      obtain ⟨p, σ1⟩ := q
      rw [k1] at he
      dsimp only at he
      split at he
      · rename_i v k2
        split at he
        · rename_i z k3
          injection he with he
          injection he with he1 he2
          subst he1 he2
          obtain ⟨hp, τ1, e1, e2, e3⟩ := A.lv hA k1
          have key := inc_key ok nb k3
          refine ⟨put τ1 T p (cvt T z), ?_, put_agree e2 .., ?_⟩
          · simp only [evT]
            rw [e1]
            dsimp only
            rw [lv2, ← get_agree e2 T hp, k2]
            dsimp only
            rw [key]
          · intro i hi hni
            rw [put_keep (n := n) (n' := m) τ1 T hp _ i hi hni]
            exact e3 i hi hni
        · cases he
      · cases he
  · cases hT

end

section
variable {Γ : Ctx} {N : Nat} (hΓ : ∀ x, (Γ x).ty.ok = true)

theorem lv_nolit {x : X} (h : isLvX x = true) : isLit x = false := by cases x <;> first | rfl | cases h

/-- `get` of what was just stored in a temporary. -/
theorem get_put_reg {τ : State} {t : T} (n a : Nat) (h : a < 2 ^ 64) :
    CExpr.get (put τ (.ptr t) (.reg n) (a : Int)) (.ptr t) (.reg n) = some (a : Int) := by
  have e : raw (put τ (.ptr t) (.reg n) (a : Int)) (.ptr t) (.reg n) = a := by
    simp only [raw, put, if_true, val, bits, toU]
    show ((((a : Int) % 2 ^ (8 * 8)).toNat : Nat) : Int) % 2 ^ (8 * 8) = a
    omega
  unfold CExpr.get
  rw [if_neg (fun q => nomatch q.1), e]

theorem get_reg_congr {τ τ' : State} {t : T} {n : Nat} (h : τ'.env n = τ.env n) : CExpr.get τ' t (.reg n) = CExpr.get τ t (.reg n) := by
  have : raw τ' t (.reg n) = raw τ t (.reg n) := by simp only [raw]; rw [h]
  unfold CExpr.get
  rw [this]

theorem opasg_noswap {o : Ar} {l r t : T} (h : opasgTy o l r = some t) : t = l ∧ swaps o l r = false := by
  unfold opasgTy at h
  split at h
  · rename_i h1
    injection h with h
    refine ⟨h.symm, ?_⟩
    cases o <;> cases r <;> first | rfl | (simp only [arTy, Option.some.injEq, reduceCtorEq] at h1)
  · injection h with h
    refine ⟨h.symm, ?_⟩
    cases o <;> cases r <;> rfl
  · cases h

include hΓ

theorem goal_opasg (hΓN : ∀ x, N ≤ x → (Γ x).loc = none) (o : Ar) (l r : S) (ihl : Goal Γ N l) (ihr : Goal Γ N r) : Goal Γ N (.opasg o l r) := by
  intro n n' x T hn hN hT hf hb
  simp only [build, Option.bind_eq_some_iff] at hb
  obtain ⟨⟨y, m⟩, b1, ⟨z, k⟩, b2, b3⟩ := hb
  have ok := ty_ok hΓ _ hT
  simp only [CExpr.ty] at hT
  split at hT
  · rename_i hl
    simp only [Option.bind_eq_some_iff] at hT
    obtain ⟨tl, htl, tr, htr, hT⟩ := hT
    obtain ⟨rfl, nosw⟩ := opasg_noswap hT
    simp only [below, Bool.and_eq_true] at hN
    simp only [fine, b1, built, Bool.and_eq_true] at hf
    obtain ⟨f1, ⟨f2, f3⟩, f4⟩ := hf
    have A := ihl hn hN.1 htl f1 b1
    have B := ihr (le_trans hn A.mono) hN.2 htr f2 b2
    obtain ⟨lv1, lv2⟩ := A.lvx hl
    dsimp only at b3
    rw [lv1] at b3
    simp only [if_true] at b3
    -- what the expression does
    have run : ∀ {σ σ' : State} {a : Int}, CExpr.ev Γ (.opasg o l r) σ = some (a, σ') → ∃ p σ1 v w σ2 c, CExpr.lv Γ l σ = some (p, σ1) ∧
        CExpr.get σ1 T p = some v ∧ CExpr.ev Γ r σ1 = some (w, σ2) ∧ arVal o T tr v w = some c ∧ a = cvt T c ∧ σ' = put σ2 T p (cvt T c) := by
      intro σ σ' a he
      simp only [CExpr.ev, htl, htr] at he
      cases k1 : CExpr.lv Γ l σ with
      | none => rw [k1] at he; cases he
      | some q =>
        obtain ⟨p, σ1⟩ := q
        rw [k1] at he
        dsimp only at he
        cases k2 : CExpr.get σ1 T p with
        | none => rw [k2] at he; cases he
        | some v =>
          rw [k2] at he
          cases k3 : CExpr.ev Γ r σ1 with
          | none => rw [k3] at he; cases he
          | some q =>
            obtain ⟨w, σ2⟩ := q
            rw [k3] at he
            dsimp only at he
            split at he
            · rename_i c k4
              injection he with he
              injection he with he1 he2
              exact ⟨p, σ1, v, w, σ2, c, rfl, k2, k3, k4, he1.symm, he2.symm⟩
            · cases he
    have altl : Alike T T := ⟨sim_refl _, ok, ok⟩
    by_cases hv : ∃ t i, y = .var t i
    · -- a variable
      obtain ⟨t, i, rfl⟩ := hv
      have : T = t := lv2.symm
      subst this
      simp only [mkAsgWith, Option.map_eq_some_iff, Prod.mk.injEq] at b3
      obtain ⟨u, c1, rfl, rfl⟩ := b3
      obtain ⟨w1, w2⟩ := calcWith_ok (Γ := Γ) A.wx B.wx rfl f3 c1
      obtain ⟨v1, v2, v3, v4⟩ := mkCast_ok (Γ := Γ) (t := T) w1 ok
      refine ⟨⟨A.wx, v1, rfl, v2⟩, altl, le_trans A.mono B.mono, (fun q => nomatch q), ?_, fun _ => nolv rfl⟩
      intro σ σ' τ a hA he
      obtain ⟨p, σ1, v, w, σ2, c, k1, k2, k3, k4, rfl, rfl⟩ := run he
      obtain ⟨hp, τ1, e1, e2, e3⟩ := A.lv hA k1
      simp only [lvT, Option.some.injEq, Prod.mk.injEq] at e1
      obtain ⟨rfl, rfl⟩ := e1
      have ev1 : evT Γ (.var T i) τ = some (v, τ) := by
        simp only [evT]
        rw [← get_agree e2 T hp, k2]
        rfl
      obtain ⟨τ2, e4, e5, e6⟩ := B.ev e2 k3
      have k4' : arVal o T z.ty v w = some c := by rw [← arVal_sim altl B.alike]; exact k4
      obtain ⟨c', d1, d2⟩ := w2 ((swaps_sim altl B.alike).symm.trans nosw) ev1 e4 k4'
      have d3 := v4 d1
      refine ⟨put τ2 T (place Γ i) (cvt T c), ?_, put_agree e5 .., ?_⟩
      · simp only [evT]
        rw [d3]
        simp only [lvT]
        rw [show cvt T c' = cvt T c from d2]
      · intro j hj hnj
        have m1 := A.mono
        have m2 := B.mono
        rw [put_keep (n := n) (n' := k) τ2 T hp _ j hj hnj]
        exact e6 j hj (by omega)
    · -- through a temporary pointer
      have b3' : (mkRefer y).bind (fun q => (calcWith o (.deref y.ty (.var (.ptr y.ty) k)) z).map fun b =>
          (.comma y.ty (.asg (.ptr y.ty) (.var (.ptr y.ty) k) q) (.asg y.ty (.deref y.ty (.var (.ptr y.ty) k)) (mkCast y.ty b)), k + 1)) =
          some (x, n') := by
        rw [← b3]
        cases y <;> first | rfl | exact absurd ⟨_, _, rfl⟩ hv
      rw [lv2] at b3'
      simp only [Option.bind_eq_some_iff, Option.map_eq_some_iff, Prod.mk.injEq] at b3'
      obtain ⟨q, c0, u, c1, rfl, rfl⟩ := b3'
      obtain ⟨r1, r2, r3⟩ := mkRefer_ok (Γ := Γ) A.wx f4 c0
      rw [lv2] at r2
      have wp : WX (.var (.ptr T) k) := ok
      have wd : WX (.deref T (.var (.ptr T) k)) := ⟨wp, rfl⟩
      obtain ⟨w1, w2⟩ := calcWith_ok (Γ := Γ) wd B.wx rfl (by
        have : shiftOk o (.deref T (.var (.ptr T) k)) = shiftOk o y := by unfold shiftOk; rw [show (X.deref T (.var (.ptr T) k)).ty = y.ty from lv2.symm]
        rw [this]; exact f3) c1
      obtain ⟨v1, v2, v3, v4⟩ := mkCast_ok (Γ := Γ) (t := T) w1 ok
      have hk : N ≤ k := le_trans hn (le_trans A.mono B.mono)
      have plk : place Γ k = .reg k := by unfold place; rw [hΓN k hk]
      refine ⟨⟨⟨wp, r1, rfl, Or.inl r2.symm⟩, ⟨wd, v1, rfl, v2⟩, ok, Or.inl rfl⟩, altl, Nat.le_succ_of_le (le_trans A.mono B.mono),
        (fun q => nomatch q), ?_, fun _ => nolv rfl⟩
      intro σ σ' τ a hA he
      obtain ⟨p, σ1, v, w, σ2, c, k1, k2, k3, k4, rfl, rfl⟩ := run he
      obtain ⟨hp, τ1, e1, e2, e3⟩ := A.lv hA k1
      -- the address
      obtain ⟨adr, rfl, hadr⟩ : ∃ adr, p = .at adr ∧ adr < 2 ^ 64 := by
        cases y with
        | var t i => exact absurd ⟨_, _, rfl⟩ hv
        | deref t e =>
          simp only [lvT, Option.map_eq_some_iff, Prod.mk.injEq] at e1
          obtain ⟨⟨g, τg⟩, g1, rfl, _⟩ := e1
          refine ⟨_, rfl, ?_⟩
          have vk := (ev_vok A.wx.1 g1).1
          rw [A.wx.2] at vk
          have vk : InRange 8 true g := vk
          unfold InRange at vk
          simp only [if_true] at vk
          omega
        | _ => cases lv1
      have e1' := r3 e1
      rw [Nat.mod_eq_of_lt hadr] at e1'
      -- the temporary
      generalize hτ1' : put τ1 (.ptr T) (.reg k) (adr : Int) = τ1'
      have a1 : Agree N σ1 τ1' := by
        refine ⟨fun j hj => ?_, ?_⟩
        · rw [← hτ1']
          simp only [put]
          rw [if_neg (by omega)]
          exact e2.env j hj
        · rw [← hτ1']; exact e2.mem
      have g1 : CExpr.get τ1' (.ptr T) (.reg k) = some (adr : Int) := by rw [← hτ1']; exact get_put_reg k adr hadr
      have l1 : ∀ {τ' : State}, CExpr.get τ' (.ptr T) (.reg k) = some (adr : Int) → evT Γ (.var (.ptr T) k) τ' = some ((adr : Int), τ') := by
        intro τ' h
        simp only [evT]
        rw [plk, h]
        rfl
      have ev1 : evT Γ (.deref T (.var (.ptr T) k)) τ1' = some (v, τ1') := by
        simp only [evT]
        rw [plk, g1]
        simp only [Option.map_some, Int.toNat_natCast]
        rw [← get_agree a1 T hp, k2]
        rfl
      obtain ⟨τ2, e4, e5, e6⟩ := B.ev a1 k3
      have g2 : CExpr.get τ2 (.ptr T) (.reg k) = some (adr : Int) := by
        rw [get_reg_congr (e6 k hk (by omega))]; exact g1
      have k4' : arVal o T z.ty v w = some c := by rw [← arVal_sim altl B.alike]; exact k4
      obtain ⟨c', d1, d2⟩ := w2 ((swaps_sim altl B.alike).symm.trans nosw) ev1 e4 k4'
      have d3 := v4 d1
      refine ⟨put τ2 T (.at adr) (cvt T c), ?_, put_agree e5 .., ?_⟩
      · simp only [evT, lvT]
        rw [e1']
        simp only [plk]
        rw [hτ1', d3]
        simp only [g2, Option.map_some, Int.toNat_natCast]
        rw [show cvt T c' = cvt T c from d2]
      · intro j hj hnj
        have m1 := A.mono
        have m2 := B.mono
        rw [put_keep (n := n) (n' := k) τ2 T hp _ j hj (by omega), e6 j hj (by omega), ← hτ1']
        simp only [put]
        rw [if_neg (by omega)]
        exact e3 j hj (by omega)
  · cases hT

theorem goal_all (hΓN : ∀ x, N ≤ x → (Γ x).loc = none) (e : S) : Goal Γ N e := by
  induction e with
  | lit t a => exact goal_lit hΓ t a
  | var x => exact goal_var hΓ x
  | un o e ih => exact goal_un hΓ o e ih
  | lnot e ih => exact goal_lnot hΓ e ih
  | bin o a b iha ihb => exact goal_bin hΓ o a b iha ihb
  | rel k a b iha ihb => exact goal_rel hΓ k a b iha ihb
  | land a b iha ihb => exact goal_land hΓ a b iha ihb
  | lor a b iha ihb => exact goal_lor hΓ a b iha ihb
  | tern c a b ihc iha ihb => exact goal_tern hΓ c a b ihc iha ihb
  | comma a b iha ihb => exact goal_comma hΓ a b iha ihb
  | cast t e ih => exact goal_cast hΓ t e ih
  | sizeof e ih => exact goal_sizeof hΓ e ih
  | deref e ih => exact goal_deref hΓ e ih
  | addr e ih => exact goal_addr hΓ e ih
  | asg l r ihl ihr => exact goal_asg hΓ l r ihl ihr
  | opasg o l r ihl ihr => exact goal_opasg hΓ hΓN o l r ihl ihr
  | inc p d l ih => exact goal_inc hΓ p d l ih

end

/-! ## C68 -/

/-- **C68 (partial).** The tree built for an expression has the type of the expression, and evaluating it gives the value
and the effects of the expression, whenever the language gives it a meaning; temporaries aside, the state afterwards is the same.
Missing: the expressions outside `fine`, on which the compiler is wrong (`boolInc_wrong` and the following). -/
theorem build_correct_partial (Γ : Ctx) (N : Nat) (hΓ : ∀ x, (Γ x).ty.ok = true) (hN : ∀ x, N ≤ x → (Γ x).loc = none)
    (e : S) (n n' : Nat) (x : X) (t : T) (hn : N ≤ n) (hb : below N e = true) (ht : ty Γ e = some t) (hf : fine Γ e n = true)
    (h : build Γ e n = some (x, n')) :
    Sim t x.ty ∧ ∀ σ τ σ' a, Agree N σ τ → ev Γ e σ = some (a, σ') → ∃ τ', evT Γ x τ = some (a, τ') ∧ Agree N σ' τ' := by
  have B := goal_all hΓ hN e hn hb ht hf h
  refine ⟨B.alike.sim, fun σ τ σ' a hA he => ?_⟩
  obtain ⟨τ', h1, h2, _⟩ := B.ev hA he
  exact ⟨τ', h1, h2⟩

/-- **C68.** Every intermediate value is a value of the type its node says: no tree that is built gives a result outside the
range of its type, and a `_Bool` is 0 or 1. -/
theorem built_values_fit (Γ : Ctx) (N : Nat) (hΓ : ∀ x, (Γ x).ty.ok = true) (hN : ∀ x, N ≤ x → (Γ x).loc = none)
    (e : S) (n n' : Nat) (x : X) (t : T) (hn : N ≤ n) (hb : below N e = true) (ht : ty Γ e = some t) (hf : fine Γ e n = true)
    (h : build Γ e n = some (x, n')) (τ τ' : State) (a : Int) (he : evT Γ x τ = some (a, τ')) :
    InRange x.ty.size x.ty.uns a ∧ (x.ty = .bool → a = 0 ∨ a = 1) :=
  ev_vok (goal_all hΓ hN e hn hb ht hf h).wx he

/-- **C68.** Evaluating what is built writes no temporary but its own. -/
theorem built_temps (Γ : Ctx) (N : Nat) (hΓ : ∀ x, (Γ x).ty.ok = true) (hN : ∀ x, N ≤ x → (Γ x).loc = none)
    (e : S) (n n' : Nat) (x : X) (t : T) (hn : N ≤ n) (hb : below N e = true) (ht : ty Γ e = some t) (hf : fine Γ e n = true)
    (h : build Γ e n = some (x, n')) (σ τ σ' : State) (a : Int) (hA : Agree N σ τ) (he : ev Γ e σ = some (a, σ')) :
    n ≤ n' ∧ ∃ τ', evT Γ x τ = some (a, τ') ∧ ∀ m, N ≤ m → ¬ (n ≤ m ∧ m < n') → τ'.env m = τ.env m := by
  have B := goal_all hΓ hN e hn hb ht hf h
  obtain ⟨τ', h1, _, h2⟩ := B.ev hA he
  exact ⟨B.mono, τ', h1, h2⟩

/-! ### Examples -/

/-- Variable 0 is an `int`, 1 a `char`, 2 an `unsigned long`, 3 a pointer to `short`, 4 a `_Bool`, 5 an `int` at address 4096. -/
def exΓ : Ctx
  | 0 => ⟨.fx tyInt, none⟩
  | 1 => ⟨.fx ⟨0, false⟩, none⟩
  | 2 => ⟨.fx ⟨3, true⟩, none⟩
  | 3 => ⟨.ptr (.fx ⟨1, false⟩), none⟩
  | 4 => ⟨.bool, none⟩
  | 5 => ⟨.fx tyInt, some 4096⟩
  | _ => ⟨.fx tyInt, none⟩

theorem exΓ_ok : ∀ x, (exΓ x).ty.ok = true := by
  intro x
  unfold exΓ
  split <;> rfl

theorem exΓ_loc : ∀ x, 6 ≤ x → (exΓ x).loc = none := by
  intro x hx
  unfold exΓ
  split <;> first | rfl | omega

def exσ : State := ⟨fun x => if x = 0 then 7 else if x = 1 then 200 else if x = 2 then 5 else if x = 3 then 8192 else if x = 4 then 1 else 0,
  fun a => if a = 8194 then 3 else 0⟩

/-- `p[1] += (b ? c : i) << 2, u = -i, u > c` with a temporary pointer. -/
def exE : S := .comma (.opasg .add (.deref (.bin .add (.var 3) (.lit tyInt 1))) (.bin .shl (.tern (.var 4) (.var 1) (.var 0)) (.lit tyInt 2)))
  (.comma (.asg (.var 2) (.un .neg (.var 0))) (.rel .gt (.var 2) (.var 1)))

example : below 6 exE = true ∧ ty exΓ exE = some (.fx tyInt) ∧ fine exΓ exE 6 = true ∧ ((build exΓ exE 6).map Prod.snd) = some 7 := by
  decide +kernel

/-- The `char` has been given 200, so it is -56 and the element is 3 - 224. -/
example : (ev exΓ exE exσ).map Prod.fst = some 1 ∧ ((ev exΓ exE exσ).map fun r => X64.rdM r.2.mem 8194 2) = some (65536 - 221) := by
  decide +kernel

/-! ### Where the compiler is wrong -/

/-- The value of an expression and of what is built for it. -/
def both (Γ : Ctx) (e : S) (n : Nat) (σ : State) : Option (Int × Int) :=
  (ev Γ e σ).bind fun r => (build Γ e n).bind fun p => (evT Γ p.1 σ).map fun s => (r.1, s.1)

/-- **C68, finding.** `++b` of a `_Bool` that is 1 gives 2 (fe_misc.c:1179-1189 does not convert). -/
theorem boolInc_wrong : both exΓ (.inc false false (.var 4)) 6 exσ = some (1, 2) := by decide +kernel

/-- **C68, finding.** `b <<= 1` of a `_Bool` that is 1 gives 2 (fe_misc.c:1607-1615 shifts in the type of the left side, and the
conversion to `_Bool` sees a `_Bool`). -/
theorem boolShift_wrong : both exΓ (.opasg .shl (.var 4) (.lit tyInt 1)) 6 exσ = some (1, 2) := by decide +kernel

/-- **C68, finding.** `&(*(int **)4096)[2]` is 4104 whatever the pointer at 4096 is (fe_misc.c:633-637 merges two dereferences). -/
theorem mergedDeref_wrong : both exΓ (.addr (.deref (.bin .add (.deref (.cast (.ptr (.ptr (.fx tyInt))) (.lit tyInt 4096))) (.lit tyInt 2)))) 6 exσ =
    some (8, 4104) := by decide +kernel

/-- **C68, finding.** `sizeof((_Bool)(i, u))` and `sizeof(1 && (i, u))` are 8: `make_cond` keeps the type of a comma
expression (fe_misc.c:1424-1426). -/
theorem commaBool_wrong : both exΓ (.sizeof (.cast .bool (.comma (.var 0) (.var 2)))) 6 exσ = some (4, 8) ∧
    both exΓ (.sizeof (.land (.lit tyInt 1) (.comma (.var 0) (.var 2)))) 6 exσ = some (4, 8) := by decide +kernel

/-- **C68, finding.** `(int *)4096 - (int *)8192` is 4611686018427386880 (fe_misc.c:1012-1016 divides unsigned numbers). -/
theorem ptrDiff_wrong : both exΓ (.bin .sub (.cast (.ptr (.fx tyInt)) (.lit tyInt 4096)) (.cast (.ptr (.fx tyInt)) (.lit tyInt 8192))) 6 exσ =
    some (-1024, 4611686018427386880) := by decide +kernel

/-- **C68, finding.** `(b ? 0u : i) > -8` with `i` -7 compares signed numbers: the type of `?:` follows the kinds. -/
theorem ternSign_wrong : both exΓ (.rel .lt (.tern (.lit tyInt 0) (.lit ⟨2, true⟩ 0) (.un .neg (.var 0))) (.lit tyInt 0)) 6 exσ =
    some (0, 1) := by decide +kernel

end Verif.Elab

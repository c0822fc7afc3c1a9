import Verif.Front.Elab

/-!
The operators of C68, one at a time: when the operands built are right, the node built for the operator (Elab.lean) has the
type and the value of the language (CExpr.lean). ElabCorrect.lean puts them together.
-/

namespace Verif.Elab
open Verif.Util Verif.Fold Verif.CExpr

/-- Where the kinds decide the sign (see `KindDecides`): the promoted operands differ in size or have one sign. -/
def signOk (l r : T) : Bool :=
  match l, r with
  | .fx l, .fx r =>
    Fold.size 8 (isoPromote l) != Fold.size 8 (isoPromote r) || (isoPromote l).uns == (isoPromote r).uns
  | _, _ => true

theorem signOk_kind (tie : Bool) (l r : Ty) (hl : l.WF) (hr : r.WF) (h : signOk (.fx l) (.fx r) = true) : KindDecides 8 tie l r := by
  revert h
  refine ty_cases (P := fun l => signOk (.fx l) (.fx r) = true → KindDecides 8 tie l r) ?_ l hl
  intro k u
  refine ty_cases (P := fun r => signOk (.fx ⟨k, u⟩) (.fx r) = true → KindDecides 8 tie ⟨k, u⟩ r) ?_ r hr
  revert k u
  cases tie <;> decide +kernel

/-- The sums and differences the compiler gets right: not of two constants whose types the kinds do not decide, not the
difference of two constant pointers. -/
def addOk (sub : Bool) (x y : X) : Bool :=
  match x, y with
  | .lit (.fx l) _, .lit (.fx r) _ => signOk (.fx l) (.fx r)
  | .lit (.ptr _) _, .lit (.ptr _) _ => !sub
  | _, _ => true

theorem arTy_addsub (sub : Bool) (l r : Ty) : arTy (arOf sub) (.fx l) (.fx r) = some (.fx (isoCommon 8 l r)) := by
  cases sub <;> rfl

theorem arVal_addsub (sub : Bool) (l r : Ty) (a b : Int) : arVal (arOf sub) (.fx l) (.fx r) a b =
    arith (Fold.size 8 (isoCommon 8 l r)) (isoCommon 8 l r).uns
      (if sub then conv (Fold.size 8 (isoCommon 8 l r)) (isoCommon 8 l r).uns a - conv (Fold.size 8 (isoCommon 8 l r)) (isoCommon 8 l r).uns b
        else conv (Fold.size 8 (isoCommon 8 l r)) (isoCommon 8 l r).uns a + conv (Fold.size 8 (isoCommon 8 l r)) (isoCommon 8 l r).uns b) := by
  cases sub <;> rfl

theorem opT_addsub (sub : Bool) (s : Nat) (u : Bool) (a b : Int) : opT (arOf sub) s u a b = some (conv s u (if sub then a - b else a + b)) := by
  cases sub <;> rfl

theorem swaps_addsub (sub : Bool) (l r : Ty) : swaps (arOf sub) (.fx l) (.fx r) = false := by cases sub <;> rfl

/-- The scaled index. -/
theorem index_ok {Γ : Ctx} {y z e : _} {t : Ty} (hy : WX y) (ty' : y.ty = .fx t)
    (h : mkNum .mul (mkCast tySize y) (.lit tySize (T.size e)) = some z) :
    WX z ∧ SU z.ty tySize ∧ ∀ {τ τ' : State} {b : Int}, evT Γ y τ = some (b, τ') → evT Γ z τ = some ((b * e.size) % 2 ^ 64, τ') := by
  have ec : mkCast tySize y = mkCastN tySize y := by
    unfold mkCast; rw [if_neg (by decide)]
  rw [ec] at h
  have wc : WX (mkCastN tySize y) := mkCastN_wx hy rfl (by decide)
  have hsz : ∀ n : Nat, n = 1 ∨ n = 2 ∨ n = 4 ∨ n = 8 → Rep 8 true (conv 8 true (n : Int)) (n : Int) := by
    rintro n (rfl | rfl | rfl | rfl) <;> exact ⟨conv_range (by unfold Sz; omega) _ _, by decide⟩
  have wl : WX (.lit tySize (e.size : Int)) := ⟨rfl, hsz e.size (tsz e), fun q => absurd q (by decide)⟩
  have b := mkNum_ok (Γ := Γ) wc wl h
  obtain ⟨t', h1, h2⟩ := b.sim
  rw [mkCastN_ty] at h1
  have : t' = tySize := by
    injection h1 with h1
    rw [← h1]
    decide
  subst this
  refine ⟨b.wx, ⟨h2.1.1.symm, h2.1.2.symm⟩, fun {τ τ' v} ev => ?_⟩
  have e1 := mkCastN_ev tySize hy ev
  have e2 : evT Γ (.lit tySize (e.size : Int)) τ' = some ((e.size : Int), τ') := by
    simp only [evT]
    have : conv tySize.size tySize.uns (e.size : Int) = e.size := by
      rcases tsz e with q | q | q | q <;> rw [q] <;> decide
    rw [this]
  refine b.ev ?_ e1 e2 ?_
  · rw [mkCastN_ty]; rfl
  · rw [mkCastN_ty]
    show arith 8 true (conv 8 true (conv 8 true v) * conv 8 true (e.size : Int)) = _
    unfold arith conv
    simp only [if_true]
    congr 1
    rcases tsz e with q | q | q | q <;> rw [q] <;> omega

theorem rep8 {v : Int} (h : IsI64 v) : Rep 8 true (conv 8 true v) v := by
  unfold IsI64 at h
  refine ⟨conv_range (by unfold Sz; omega) _ _, ?_⟩
  unfold conv toS
  simp only [and_self, if_true]
  split <;> omega

/-- A pointer plus or minus a number of bytes. -/
theorem ptrAdd_ok {Γ : Ctx} {sub : Bool} {e : T} {x r : X} (hx : WX x) (tx : x.ty = .ptr e) (hr : WX r) (tr : SU r.ty tySize) :
    WX (ptrAdd sub (.ptr e) x r) ∧ (ptrAdd sub (.ptr e) x r).ty = .ptr e ∧
    ∀ {τ τ1 τ2 : State} {a b : Int}, evT Γ x τ = some (a, τ1) → evT Γ r τ1 = some (b, τ2) →
      evT Γ (ptrAdd sub (.ptr e) x r) τ = some ((if sub then a - b else a + b) % 2 ^ 64, τ2) := by
  have ok := wx_ok hx
  rw [tx] at ok
  unfold ptrAdd
  split
  · rename_i t v t' w
    have r8 := rep8 (toS64_i64 (if sub then v - w else v + w))
    refine ⟨⟨ok, r8, fun q => nomatch q⟩, rfl, fun {τ τ1 τ2 a b} e1 e2 => ?_⟩
    simp only [X.ty] at tx tr
    subst tx
    obtain ⟨rfl, rfl⟩ := lit_ev e1
    obtain ⟨rfl, rfl⟩ := lit_ev e2
    simp only [evT]
    rw [tr.1, tr.2]
    show some (conv 8 true _, τ) = some ((if sub then conv 8 true v - conv 8 true w else conv 8 true v + conv 8 true w) % 2 ^ 64, τ)
    congr 2
    unfold conv toS
    simp only [if_true]
    cases sub <;> simp only [Bool.false_eq_true, if_true, if_false] <;> split <;> omega
  · refine ⟨⟨hx, hr, ok, (fun q => nomatch q), by rw [tx]; exact ⟨rfl, rfl⟩, fun _ _ => tr⟩, rfl, fun {τ τ1 τ2 a b} e1 e2 => ?_⟩
    simp only [evT]
    rw [e1]
    dsimp only
    rw [e2]
    dsimp only
    rw [opT_addsub]
    rfl

theorem diff_conv {m : Int} (h : -2 ^ 63 ≤ m ∧ m < 2 ^ 63) : conv tySSize.size tySSize.uns (conv tySize.size tySize.uns m) = m := by
  have e : ∀ a : Int, conv tySSize.size tySSize.uns (conv tySize.size tySize.uns a) = toS (8 * 8) (a % 2 ^ (8 * 8)) := fun _ => rfl
  rw [e]
  unfold toS
  dsimp only
  split <;> omega

theorem diff_div {m : Int} {e : T} (h : m % e.size = 0 ∧ -2 ^ 63 ≤ m ∧ m < 2 ^ 63) :
    isoOp .div tySSize.size tySSize.uns m (e.size : Int) = some (m / e.size) := by
  have e1 : isoOp .div tySSize.size tySSize.uns m (e.size : Int) = isoOp .div 8 false m (e.size : Int) := rfl
  rw [e1]
  simp only [isoOp]
  have hz : (e.size : Int) ≠ 0 := by rcases tsz e with q | q | q | q <;> rw [q] <;> decide
  rw [if_neg hz, Int.tdiv_eq_ediv_of_dvd (Int.dvd_of_emod_eq_zero h.1)]
  unfold arith
  rw [if_neg (by decide), if_pos]
  rcases tsz e with q | q | q | q <;> rw [q] at h ⊢ <;> constructor <;> omega

theorem wx_esz (e : T) : WX (.lit tySSize (e.size : Int)) ∧ conv tySSize.size tySSize.uns (e.size : Int) = e.size := by
  rcases tsz e with q | q | q | q <;> rw [q] <;>
    exact ⟨⟨rfl, ⟨conv_range (Or.inr (Or.inr (Or.inr rfl))) _ _, by decide⟩, fun q => absurd q (by decide)⟩, by decide⟩

theorem mkAddsub_ff {Γ : Ctx} {sub : Bool} {x y z : X} {l r : Ty} (tx : x.ty = .fx l) (ty' : y.ty = .fx r) (hx : WX x) (hy : WX y)
    (hf : addOk sub x y = true) (h : mkAddsub sub x y = some z) : BinOk Γ (arOf sub) x y z := by
  unfold mkAddsub at h
  rw [tx, ty'] at h
  dsimp only at h
  have wl := wx_wf hx tx
  have wr := wx_wf hy ty'
  have nosw : swaps (arOf sub) x.ty y.ty = true → False := by rw [tx, ty', swaps_addsub]; exact fun q => nomatch q
  split at h
  · rename_i tv v tw w
    simp only [X.ty] at tx ty'
    subst tx ty'
    have kd := signOk_kind true l r wl wr hf
    obtain ⟨es, eu⟩ := (addsub_type_partial 8 (Or.inr rfl) l r wl wr).2 kd
    have ht : (addsubType l r).WF ∧ T.fx (addsubType l r) ≠ .bool := by
      refine ty_cases (P := fun l => l.WF → (addsubType l r).WF ∧ T.fx (addsubType l r) ≠ .bool) ?_ l wl wl
      intro k u
      refine ty_cases (P := fun r => r.WF → Ty.WF ⟨k, u⟩ → (addsubType ⟨k, u⟩ r).WF ∧ T.fx (addsubType ⟨k, u⟩ r) ≠ .bool) ?_ r wr wr
      revert k u
      decide +kernel
    have hadd : addsub 8 sub l v r w = .const (addsubType l r)
      (wrapValue (toS 64 (if sub then v - w else v + w)) (Fold.size 8 (addsubType l r)) (addsubType l r).uns) := rfl
    rw [hadd] at h
    injection h with h
    subst h
    refine ⟨wx_wrap ht.1 ht.2 (toS64_i64 _), ⟨_, arTy_addsub sub l r, sim_fx es.symm eu.symm⟩, ?_, fun q => (nosw q).elim⟩
    intro τ τ1 τ2 a b c _ e1 e2 hc
    obtain ⟨rfl, rfl⟩ := lit_ev e1
    obtain ⟨rfl, rfl⟩ := lit_ev e2
    obtain ⟨t2, v2, q1, q2, q3, q4⟩ := addsub_correct_partial 8 (Or.inr rfl) sub l r wl wr _ _ v w c hx.2.1 hy.2.1 kd (by
      rw [show (X.lit (T.fx l) v).ty = .fx l from rfl, show (X.lit (T.fx r) w).ty = .fx r from rfl, arVal_addsub] at hc
      exact hc)
    rw [hadd] at q1
    injection q1 with q1 q1'
    subst q1 q1'
    simp only [evT]
    have := rep_conv (size_Sz (Or.inr rfl) _) q4
    rw [show conv (T.fx (addsubType l r)).size (T.fx (addsubType l r)).uns _ = c from this]
  · obtain ⟨t, ht, hk2, hk4, cm⟩ := castNum_common Γ tx ty' hx hy
    injection h with h
    subst h
    rw [cm.tx]
    refine ⟨⟨cm.wx, cm.wy, cm.ok, cm.nb, ?_, fun _ _ => ?_⟩,
      ⟨_, by rw [tx, ty', arTy_addsub], sim_fx cm.sz.symm cm.un.symm⟩, ?_, fun q => (nosw q).elim⟩
    · rw [cm.tx]; exact ⟨rfl, rfl⟩
    · rw [cm.ty]; exact ⟨rfl, rfl⟩
    · intro τ τ1 τ2 a b c _ e1 e2 hc
      rw [tx, ty', arVal_addsub, ← cm.sz, ← cm.un] at hc
      simp only [evT]
      rw [cm.ex e1]
      dsimp only
      rw [cm.ey e2]
      dsimp only
      rw [opT_addsub, arith_conv (size_Sz (Or.inr rfl) t) hc]
      rfl

theorem mkAddsub_pf {Γ : Ctx} {sub : Bool} {x y z : X} {e : T} {t : Ty} (tx : x.ty = .ptr e) (ty' : y.ty = .fx t) (hx : WX x) (hy : WX y)
    (hf : addOk sub x y = true) (h : mkAddsub sub x y = some z) : BinOk Γ (arOf sub) x y z := by
  unfold mkAddsub at h
  rw [tx, ty'] at h
  dsimp only at h
  rw [Option.map_eq_some_iff] at h
  obtain ⟨r, hr, rfl⟩ := h
  obtain ⟨wr, sr, er⟩ := index_ok (Γ := Γ) hy ty' hr
  obtain ⟨w1, w2, w3⟩ := ptrAdd_ok (Γ := Γ) (sub := sub) hx tx wr sr
  refine ⟨w1, ⟨.ptr e, by rw [tx, ty']; cases sub <;> rfl, by rw [w2]; exact sim_refl _⟩, ?_, fun q => ?_⟩
  · intro τ τ1 τ2 a b c _ e1 e2 hc
    rw [w3 e1 (er e2)]
    rw [tx, ty'] at hc
    have : c = (if sub then a - b * e.size else a + b * e.size) % 2 ^ 64 := by
      cases sub
      · simp only [arOf, arVal, Bool.false_eq_true, if_false, Option.some.injEq] at hc ⊢; exact hc.symm
      · simp only [arOf, arVal, if_true, Option.some.injEq] at hc ⊢; exact hc.symm
    rw [this]
    congr 2
    cases sub <;> simp only [Bool.false_eq_true, if_true, if_false] <;> generalize b * (e.size : Int) = m <;> omega
  · rw [tx, ty'] at q; cases sub <;> cases q

theorem mkAddsub_fp {Γ : Ctx} {sub : Bool} {x y z : X} {t : Ty} {e : T} (tx : x.ty = .fx t) (ty' : y.ty = .ptr e) (hx : WX x) (hy : WX y)
    (hf : addOk sub x y = true) (h : mkAddsub sub x y = some z) : BinOk Γ (arOf sub) x y z := by
  unfold mkAddsub at h
  rw [tx, ty'] at h
  dsimp only at h
  split at h
  · cases h
  · rename_i hsub
    have hsub : sub = false := by simpa using hsub
    subst hsub
    rw [Option.map_eq_some_iff] at h
    obtain ⟨r, hr, rfl⟩ := h
    obtain ⟨wr, sr, er⟩ := index_ok (Γ := Γ) hx tx hr
    obtain ⟨w1, w2, w3⟩ := ptrAdd_ok (Γ := Γ) (sub := false) hy ty' wr sr
    refine ⟨w1, ⟨.ptr e, by rw [tx, ty']; rfl, by rw [w2]; exact sim_refl _⟩, fun q => ?_, ?_⟩
    · rw [tx, ty'] at q; cases q
    · intro τ τ1 τ2 a b c _ e1 e2 hc
      rw [w3 e1 (er e2)]
      rw [tx, ty'] at hc
      simp only [arOf, arVal, Bool.false_eq_true, if_false, Option.some.injEq] at hc ⊢
      rw [← hc]
      congr 1
      generalize a * (e.size : Int) = m
      omega

theorem arVal_pp {e : T} {a b c : Int} (h : arVal (arOf true) (.ptr e) (.ptr e) a b = some c) :
    ((a - b) % e.size = 0 ∧ -2 ^ 63 ≤ a - b ∧ a - b < 2 ^ 63) ∧ c = (a - b) / e.size := by
  have e1 : arVal (arOf true) (.ptr e) (.ptr e) a b =
    if e = e ∧ (a - b) % e.size = 0 ∧ -2 ^ 63 ≤ a - b ∧ a - b < 2 ^ 63 then some ((a - b) / e.size) else none := rfl
  rw [e1] at h
  split at h
  · rename_i hd
    injection h with h
    exact ⟨hd.2, h.symm⟩
  · cases h

theorem diff_ev {Γ : Ctx} {x y : X} {e : T} {τ τ1 τ2 : State} {a b : Int} (e1 : evT Γ x τ = some (a, τ1)) (e2 : evT Γ y τ1 = some (b, τ2))
    (hd : (a - b) % e.size = 0 ∧ -2 ^ 63 ≤ a - b ∧ a - b < 2 ^ 63) :
    evT Γ (.bin (.op .div) tySSize (.cast tySSize (.bin .sub tySize x y)) (.lit tySSize e.size)) τ = some ((a - b) / e.size, τ2) := by
  have o1 : opT .sub tySize.size tySize.uns a b = some (conv tySize.size tySize.uns (a - b)) := rfl
  have o2 : ∀ m n, opT (.op .div) tySSize.size tySSize.uns m n = isoOp .div tySSize.size tySSize.uns m n := fun _ _ => rfl
  simp only [evT, e1, e2, o1, o2, Option.map, diff_conv hd.2, (wx_esz e).2, diff_div hd]

theorem mkAddsub_pp {Γ : Ctx} {sub : Bool} {x y z : X} {e e' : T} (tx : x.ty = .ptr e) (ty' : y.ty = .ptr e') (hx : WX x) (hy : WX y)
    (hf : addOk sub x y = true) (h : mkAddsub sub x y = some z) : BinOk Γ (arOf sub) x y z := by
  unfold mkAddsub at h
  rw [tx, ty'] at h
  dsimp only at h
  split at h
  · rename_i hs
    obtain ⟨hsub, rfl⟩ := hs
    subst hsub
    have ok := wx_ok hx
    split at h
    · rename_i t v t' w
      simp only [X.ty] at tx ty'
      subst tx ty'
      cases hf
    · injection h with h
      subst h
      have ecast : mkCastN tySSize (.bin .sub tySize x y) = .cast tySSize (.bin .sub tySize x y) := rfl
      rw [ecast]
      have hl := wx_esz e
      refine ⟨⟨⟨⟨hx, hy, rfl, by decide, by rw [tx]; exact ⟨rfl, rfl⟩, fun _ _ => by rw [ty']; exact ⟨rfl, rfl⟩⟩, rfl, by decide⟩,
        hl.1, rfl, by decide, ⟨rfl, rfl⟩, fun _ _ => ⟨rfl, rfl⟩⟩,
        ⟨tySSize, by rw [tx, ty']; simp [arTy, arOf], sim_refl _⟩, ?_, fun q => ?_⟩
      · intro τ τ1 τ2 a b c _ e1 e2 hc
        rw [tx, ty'] at hc
        obtain ⟨hd, rfl⟩ := arVal_pp hc
        exact diff_ev e1 e2 hd
      · rw [tx, ty'] at q; cases q
  · cases h

theorem mkAddsub_ok {Γ : Ctx} {sub : Bool} {x y z : X} (hx : WX x) (hy : WX y) (hf : addOk sub x y = true) (h : mkAddsub sub x y = some z) :
    BinOk Γ (arOf sub) x y z := by
  cases tx : x.ty with
  | fx l =>
    cases ty' : y.ty with
    | fx r => exact mkAddsub_ff tx ty' hx hy hf h
    | ptr e => exact mkAddsub_fp tx ty' hx hy hf h
  | ptr e =>
    cases ty' : y.ty with
    | fx r => exact mkAddsub_pf tx ty' hx hy hf h
    | ptr e => exact mkAddsub_pp tx ty' hx hy hf h

theorem promote_iso (t : Ty) : promote t = isoPromote t := by
  unfold promote isoPromote
  by_cases h2 : 2 ≤ t.kind ∧ t.kind ≤ 4
  · rw [if_pos (by simpa using h2), if_pos (by omega)]
  · rw [if_neg (by simpa using h2), if_neg (by omega)]

theorem promoteX_wx {x : X} {t : Ty} (h : x.ty = .fx t) (hx : WX x) : WX (promoteX x) ∧ (promoteX x).ty = .fx (promote t) := by
  have := promote_ok t (wx_wf hx h)
  rw [promoteX_fx h]
  exact ⟨mkCastN_wx hx this.1 this.2.1, mkCastN_ty _ _⟩

theorem i64_ediv {v : Int} (n : Nat) (h : IsI64 v) : IsI64 (v / 2 ^ n) := by
  rw [i64_range] at h ⊢
  exact shr_range n h

/-- The operator of a shift. -/
def shOf (left : Bool) : Ar := if left then .shl else .shr

theorem arVal_sh {left : Bool} {l r : Ty} {a b c : Int} (h : arVal (shOf left) (.fx l) (.fx r) a b = some c) :
    (0 ≤ b ∧ b < 8 * Fold.size 8 (isoPromote l)) ∧
      (if left then arith (Fold.size 8 (isoPromote l)) (isoPromote l).uns (a * 2 ^ b.toNat) else some (a / 2 ^ b.toNat)) = some c := by
  cases left
  · simp only [shOf, arVal, Bool.false_eq_true, if_false] at h ⊢
    split at h
    · exact ⟨‹_›, h⟩
    · cases h
  · simp only [shOf, arVal, if_true] at h ⊢
    split at h
    · exact ⟨‹_›, h⟩
    · cases h

theorem rep_nat {s : Nat} (hs : Sz s) {u : Bool} {a v : Int} (h : Rep s u a v) (h0 : 0 ≤ a) (h1 : a < 64) : v = a := by
  have := h.2
  rw [this]
  split
  · unfold toS
    dsimp only
    split <;> omega
  · rfl

theorem shift_wx {left : Bool} {l : Ty} {v w : Int} (wl : l.WF) (hx : WX (.lit (.fx l) v)) {t : Ty} {c : Int}
    (hc : shift 8 left l v w = .const t c) : WX (.lit (.fx t) c) ∧ t = promote l ∧ 0 ≤ w := by
  unfold shift at hc
  dsimp only at hc
  have hp := promote_ok l wl
  have i64 : IsI64 (if promote l = l then v else castConst 8 (promote l) v) := by
    split
    · exact wx_i64 hx
    · exact rep_i64 (size_Sz (Or.inr rfl) _) (rep_cast (size_Sz (Or.inr rfl) l) (size_Sz (Or.inr rfl) _) (promote l).uns hx.2.1)
  generalize (if promote l = l then v else castConst 8 (promote l) v) = lc at hc i64
  split at hc
  · cases hc
  · injection hc with h1 h2
    subst h1 h2
    refine ⟨wx_wrap (ok_wf.mp hp.1) hp.2.1 ?_, rfl, by omega⟩
    split
    · split <;> exact toS64_i64 _
    · split
      · exact toS64_i64 _
      · exact i64_ediv _ i64

theorem mkShift_ok {Γ : Ctx} {left : Bool} {x y z : X} (hx : WX x) (hy : WX y) (h : mkShift left x y = some z) :
    BinOk Γ (shOf left) x y z := by
  unfold mkShift at h
  split at h
  · rename_i l r tx ty'
    have wl := wx_wf hx tx
    have nosw : swaps (shOf left) x.ty y.ty = true → False := by rw [tx, ty']; cases left <;> exact fun q => nomatch q
    have aty : arTy (shOf left) x.ty y.ty = some (.fx (isoPromote l)) := by rw [tx, ty']; cases left <;> rfl
    have hsz := size_Sz (Or.inr rfl : 8 = 4 ∨ 8 = 8) (isoPromote l)
    split at h
    · rename_i tv v tw w
      simp only [X.ty] at tx ty'
      subst tx ty'
      split at h
      · rename_i t c hc
        injection h with h
        subst h
        obtain ⟨h1, rfl, h3⟩ := shift_wx wl hx hc
        refine ⟨h1, ⟨_, aty, by rw [← promote_iso]; exact sim_refl _⟩, ?_, fun q => (nosw q).elim⟩
        intro τ τ1 τ2 a b d _ e1 e2 hd
        obtain ⟨rfl, rfl⟩ := lit_ev e1
        obtain ⟨rfl, rfl⟩ := lit_ev e2
        obtain ⟨hb, hd⟩ := arVal_sh hd
        have hb64 : conv (Fold.size 8 r) r.uns w < 64 := by
          have := hb.2
          have e8 : Fold.size 8 (isoPromote l) ≤ 8 := by rcases hsz with e | e | e | e <;> rw [e] <;> omega
          have : conv (T.fx r).size (T.fx r).uns w < 64 := by omega
          exact this
        have ew : w = conv (Fold.size 8 r) r.uns w := rep_nat (size_Sz (Or.inr rfl) r) hy.2.1 hb.1 hb64
        have eb : conv (T.fx r).size (T.fx r).uns w = w := ew.symm
        rw [eb] at hb hd
        obtain ⟨v', q1, q2⟩ := shift_correct 8 (Or.inr rfl) left l wl _ v w.toNat hx.2.1 (by omega)
        rw [show ((w.toNat : Nat) : Int) = w by omega, hc] at q1
        injection q1 with q1 q1'
        subst q1'
        have := q2 d hd
        rw [← promote_iso] at this
        simp only [evT]
        rw [show conv (T.fx (promote l)).size (T.fx (promote l)).uns c = d from rep_conv (size_Sz (Or.inr rfl) _) this]
      · cases h
    · injection h with h
      subst h
      obtain ⟨p1, p2⟩ := promoteX_wx tx hx
      have hp := promote_ok l wl
      rw [p2]
      refine ⟨⟨p1, hy, hp.1, hp.2.1, by rw [p2]; exact ⟨rfl, rfl⟩, ?_⟩, ⟨_, aty, by rw [← promote_iso]; exact sim_refl _⟩, ?_,
        fun q => (nosw q).elim⟩
      · cases left
        · exact fun _ q => absurd rfl q
        · exact fun q => absurd rfl q
      · intro τ τ1 τ2 a b d _ e1 e2 hd
        rw [tx, ty'] at hd
        obtain ⟨hb, hd⟩ := arVal_sh hd
        have e1' := promoteX_ev tx hx e1
        simp only [evT]
        rw [e1']
        dsimp only
        rw [e2]
        dsimp only
        rw [← promote_iso] at hb hd hsz
        cases left
        · simp only [Bool.false_eq_true, if_false] at hd ⊢
          simp only [opT]
          rw [if_pos (show 0 ≤ b ∧ b < 8 * ((max (T.fx (promote l)).size 4 : Nat) : Int) from ⟨hb.1, by have := hb.2; have e : Fold.size 8 (promote l) = (T.fx (promote l)).size := rfl; omega⟩), hd]
          rfl
        · simp only [if_true] at hd ⊢
          simp only [opT]
          rw [if_pos (show 0 ≤ b ∧ b < 8 * ((max (T.fx (promote l)).size 4 : Nat) : Int) from ⟨hb.1, by have := hb.2; have e : Fold.size 8 (promote l) = (T.fx (promote l)).size := rfl; omega⟩), arith_conv hsz hd]
          rfl
  · cases h

theorem mkBin_ok {Γ : Ctx} {o : Ar} {x y z : X} (hx : WX x) (hy : WX y)
    (hf : o = .add ∨ o = .sub → addOk (o = .sub) x y = true) (h : mkBin o x y = some z) : BinOk Γ o x y z := by
  cases o with
  | add => exact mkAddsub_ok (sub := false) hx hy (hf (Or.inl rfl)) h
  | sub => exact mkAddsub_ok (sub := true) hx hy (hf (Or.inr rfl)) h
  | shl => exact mkShift_ok (left := true) hx hy h
  | shr => exact mkShift_ok (left := false) hx hy h
  | op o => exact mkNum_ok hx hy h

/-- The value of a unary operator. -/
def unVal (o : Un) (t : Ty) (a : Int) : Option Int :=
  match o with
  | .pos => some a
  | .neg => arith (Fold.size 8 (isoPromote t)) (isoPromote t).uns (-a)
  | .bnot => some (conv (Fold.size 8 (isoPromote t)) (isoPromote t).uns (-a - 1))

theorem mkUn_ok {Γ : Ctx} {o : Un} {x z : X} (hx : WX x) (h : mkUn o x = some z) :
    ∃ t, x.ty = .fx t ∧ WX z ∧ z.ty = .fx (isoPromote t) ∧
      ∀ {τ τ' : State} {a c : Int}, evT Γ x τ = some (a, τ') → unVal o t a = some c → evT Γ z τ = some (c, τ') := by
  unfold mkUn at h
  split at h
  · cases h
  · rename_i t tx
    refine ⟨t, tx, ?_⟩
    obtain ⟨p1, p2⟩ := promoteX_wx tx hx
    have hp := promote_ok t (wx_wf hx tx)
    have pe := fun {τ τ' : State} {a : Int} => promoteX_ev (Γ := Γ) (τ := τ) (τ' := τ') (a := a) tx hx
    have hsz := size_Sz (Or.inr rfl : 8 = 4 ∨ 8 = 8) (promote t)
    simp only [unVal, ← promote_iso]
    generalize promoteX x = q at h p1 p2 pe
    split at h
    · rename_i t' v
      injection h with h
      subst h
      refine ⟨p1, p2, fun e hc => ?_⟩
      injection hc with hc
      rw [← hc]; exact pe e
    · rename_i p v
      injection p2 with p2
      subst p2
      injection h with h
      subst h
      refine ⟨wx_wrap (ok_wf.mp hp.1) hp.2.1 (toS64_i64 _), rfl, fun {τ τ' a c} e hc => ?_⟩
      obtain ⟨rfl, rfl⟩ := lit_ev (pe e)
      have cg := rep_congr (tsz _) p1.2.1
      generalize conv (T.fx (promote t)).size (T.fx (promote t)).uns v = a at cg hc
      have := arith_rep hsz hc (toS64_i64 (-v)) (down hsz (by
        have := toS64_congr (-v)
        omega))
      simp only [evT]
      rw [show conv (T.fx (promote t)).size (T.fx (promote t)).uns _ = c from rep_conv hsz this]
    · rename_i p v
      injection p2 with p2
      subst p2
      injection h with h
      subst h
      have i64 := wx_i64 p1
      have i64' : IsI64 (-v - 1) := by unfold IsI64 at *; omega
      refine ⟨wx_wrap (ok_wf.mp hp.1) hp.2.1 i64', rfl, fun {τ τ' a c} e hc => ?_⟩
      obtain ⟨rfl, rfl⟩ := lit_ev (pe e)
      have cg := rep_congr (tsz _) p1.2.1
      generalize conv (T.fx (promote t)).size (T.fx (promote t)).uns v = a at cg hc
      injection hc with hc
      have := rep_wrap hsz (promote t).uns (a := -a - 1) i64' (down hsz (by omega))
      rw [hc] at this
      simp only [evT]
      rw [show conv (T.fx (promote t)).size (T.fx (promote t)).uns _ = c from rep_conv hsz this]
    · injection h with h
      subst h
      refine ⟨⟨p1, p2.symm, hp.2.1⟩, rfl, fun e hc => ?_⟩
      injection hc with hc
      rw [← hc]
      simp only [evT]
      exact pe e
    · injection h with h
      subst h
      refine ⟨⟨p1, hp.1, hp.2.1⟩, rfl, fun e hc => ?_⟩
      simp only [evT]
      rw [pe e, arith_conv hsz hc]
      rfl
    · injection h with h
      subst h
      refine ⟨⟨p1, hp.1, hp.2.1⟩, rfl, fun e hc => ?_⟩
      injection hc with hc
      simp only [evT]
      rw [pe e, ← hc]
      rfl

/-! ## Lemmas: control -/

theorem mkLog_ok {Γ : Ctx} {isAnd : Bool} {x y : X} (hx : WX x) (hy : WX y) :
    WX (mkLog isAnd x y) ∧ ((isLit (mkCond x) = true → condOk x = true ∧ condOk y = true) → Sim (.fx tyInt) (mkLog isAnd x y).ty) ∧
    ∀ {τ τ1 : State} {a : Int}, evT Γ x τ = some (a, τ1) →
      ((if isAnd then a = 0 else a ≠ 0) → evT Γ (mkLog isAnd x y) τ = some (if isAnd then 0 else 1, τ1)) ∧
      (¬ (if isAnd then a = 0 else a ≠ 0) → ∀ {τ2 : State} {b : Int}, evT Γ y τ1 = some (b, τ2) →
        evT Γ (mkLog isAnd x y) τ = some (if b = 0 then 0 else 1, τ2)) := by
  obtain ⟨c1, c2, c3, c4⟩ := mkCond_ok (Γ := Γ) hx
  obtain ⟨d1, d2, d3, d4⟩ := mkCond_ok (Γ := Γ) hy
  have ss := mkCond_sim hx
  have ss' := mkCond_sim hy
  unfold mkLog
  generalize mkCond x = c at c1 c2 c3 c4 ss
  generalize mkCond y = d at d1 d2 d3 d4 ss'
  split
  · rename_i t v
    have hv : v = 0 ∨ v = 1 := c2
    have ev0 : ∀ {τ τ1 : State} {a : Int}, evT Γ x τ = some (a, τ1) → τ = τ1 ∧ (a = 0 ↔ v = 0) := by
      intro τ τ1 a e
      obtain ⟨q1, q2⟩ := lit_ev (c4 e)
      refine ⟨q2, ?_⟩
      rw [conv01 t hv] at q1
      split at q1 <;> omega
    by_cases hv0 : (if isAnd = true then v = 0 else v ≠ 0)
    · rw [if_pos hv0]
      refine ⟨c1, fun q => ss (q rfl).1, fun {τ τ1 a} e => ⟨fun q => ?_, fun q => absurd q (not_not_intro ?_)⟩⟩
      · have := c4 e
        rw [this]
        cases isAnd
        · simp only [Bool.false_eq_true, if_false] at q ⊢
          rw [if_neg q]
        · simp only [if_true] at q ⊢
          rw [if_pos q]
      · obtain ⟨_, q2⟩ := ev0 e
        cases isAnd <;> simp only [Bool.false_eq_true, if_true, if_false] at hv0 ⊢ <;> tauto
    · rw [if_neg hv0]
      refine ⟨d1, fun q => ss' (q rfl).2, fun {τ τ1 a} e => ⟨fun q => absurd q ?_, fun q {τ2 b} e2 => ?_⟩⟩
      · obtain ⟨_, q2⟩ := ev0 e
        cases isAnd <;> simp only [Bool.false_eq_true, if_true, if_false] at hv0 ⊢ <;> tauto
      · obtain ⟨rfl, q2⟩ := ev0 e
        exact d4 e2
  · cases isAnd
    · simp only [Bool.false_eq_true, if_false]
      refine ⟨⟨c1, d1⟩, fun _ => sim_fx rfl rfl, fun {τ τ1 a} e => ⟨fun q => ?_, fun q {τ2 b} e2 => ?_⟩⟩
      · simp only [evT]
        rw [c4 e]
        simp [q]
      · simp only [evT]
        rw [c4 e]
        simp only [ne_eq, not_not] at q
        subst q
        simp only [if_true]
        rw [d4 e2]
        by_cases hb : b = 0 <;> simp [hb]
    · simp only [if_true]
      refine ⟨⟨c1, d1⟩, fun _ => sim_fx rfl rfl, fun {τ τ1 a} e => ⟨fun q => ?_, fun q {τ2 b} e2 => ?_⟩⟩
      · simp only [evT]
        rw [c4 e]
        simp [q]
      · simp only [evT]
        rw [c4 e]
        simp only [q, if_false, one_ne_zero]
        rw [d4 e2]
        by_cases hb : b = 0 <;> simp [hb]

theorem mkComma_ok {Γ : Ctx} {x y : X} (hx : WX x) (hy : WX y) :
    WX (mkComma x y) ∧ (mkComma x y).ty = y.ty ∧
    ∀ {τ τ1 : State} {a : Int}, evT Γ x τ = some (a, τ1) → evT Γ (mkComma x y) τ = evT Γ y τ1 := by
  unfold mkComma
  split
  · refine ⟨hy, rfl, fun e => ?_⟩
    rw [(lit_ev e).2]
  · refine ⟨⟨hx, hy, wx_ok hy, Or.inl rfl⟩, rfl, fun e => ?_⟩
    simp only [evT]
    rw [e]

theorem ternary_types (l r : Ty) (hl : l.WF) (hr : r.WF) (h : signOk (.fx l) (.fx r) = true) :
    (ternaryType l r).WF ∧ Fold.size 8 (isoCommon 8 l r) = Fold.size 8 (ternaryType l r) ∧ (isoCommon 8 l r).uns = (ternaryType l r).uns ∧
      (T.fx (ternaryType l r) = .bool → T.fx l = .bool ∧ T.fx r = .bool) ∧ T.fx (isoCommon 8 l r) ≠ .bool := by
  revert h
  refine ty_cases (P := fun l => l.WF → signOk (.fx l) (.fx r) = true → (ternaryType l r).WF ∧
    Fold.size 8 (isoCommon 8 l r) = Fold.size 8 (ternaryType l r) ∧ (isoCommon 8 l r).uns = (ternaryType l r).uns ∧
      (T.fx (ternaryType l r) = .bool → T.fx l = .bool ∧ T.fx r = .bool) ∧ T.fx (isoCommon 8 l r) ≠ .bool) ?_ l hl hl
  intro k u
  refine ty_cases (P := fun r => r.WF → Ty.WF ⟨k, u⟩ → signOk (.fx ⟨k, u⟩) (.fx r) = true → (ternaryType ⟨k, u⟩ r).WF ∧
    Fold.size 8 (isoCommon 8 ⟨k, u⟩ r) = Fold.size 8 (ternaryType ⟨k, u⟩ r) ∧ (isoCommon 8 ⟨k, u⟩ r).uns = (ternaryType ⟨k, u⟩ r).uns ∧
      (T.fx (ternaryType ⟨k, u⟩ r) = .bool → T.fx ⟨k, u⟩ = .bool ∧ T.fx r = .bool) ∧ T.fx (isoCommon 8 ⟨k, u⟩ r) ≠ .bool) ?_ r hr hr
  revert k u
  decide +kernel

/-- The value of a branch. -/
theorem branch_ok {Γ : Ctx} {x : X} {t T' : T} (hx : WX x) (ht : t.ok = true) (hs : Sim T' t) (hb : t = .bool → x.ty = .bool) (hb' : T' ≠ .bool)
    {τ τ' : State} {a : Int} (e : evT Γ x τ = some (a, τ')) : evT Γ (mkCast t x) τ = some (cvt T' a, τ') := by
  rw [(mkCast_ok (Γ := Γ) hx ht).2.2.2 e]
  by_cases h : t = .bool
  · have v := ev_vok hx e
    have := v.2 (hb h)
    rw [cvt_conv hb', h, conv01 T' this]
    unfold cvt
    rw [if_pos rfl]
    rcases this with rfl | rfl <;> rfl
  · rw [cvt_conv h, cvt_conv hb', hs.1.1, hs.1.2]

theorem mkTern_ok {Γ : Ctx} {c x y z : X} (hc : WX c) (hx : WX x) (hy : WX y) (hf : signOk x.ty y.ty = true) (h : mkTern c x y = some z)
    {na nb : Bool} {T' : T} (hT : ternTy x.ty y.ty na nb = some T') :
    WX z ∧ Sim T' z.ty ∧ T' ≠ .bool ∧
      ∀ {τ τ1 : State} {a : Int}, evT Γ c τ = some (a, τ1) →
        (a = 0 → ∀ {τ2 : State} {b : Int}, evT Γ y τ1 = some (b, τ2) → evT Γ z τ = some (cvt T' b, τ2)) ∧
        (a ≠ 0 → ∀ {τ2 : State} {b : Int}, evT Γ x τ1 = some (b, τ2) → evT Γ z τ = some (cvt T' b, τ2)) := by
  unfold mkTern at h
  split at h
  · cases h
  · rename_i t ht
    -- the type
    have key : Sim T' t ∧ t.ok = true ∧ (t = .bool → x.ty = .bool ∧ y.ty = .bool) ∧ T' ≠ .bool := by
      unfold ternT at ht
      have ox := wx_ok hx
      have oy := wx_ok hy
      split at ht
      · rename_i l r tx ty'
        rw [tx, ty'] at hf hT ⊢
        rw [tx] at ox
        rw [ty'] at oy
        obtain ⟨h1, h2, h3, h4, h5⟩ := ternary_types l r (ok_wf.mp ox) (ok_wf.mp oy) hf
        injection ht with ht
        subst ht
        injection hT with hT
        subst hT
        exact ⟨sim_fx h2 h3, ok_wf.mpr h1, h4, h5⟩
      · rename_i e e' tx ty'
        rw [tx, ty'] at hT
        rw [tx] at ox
        split at ht
        · rename_i he
          subst he
          injection ht with ht
          subst ht
          simp only [ternTy, if_true, Option.some.injEq] at hT
          subst hT
          exact ⟨sim_refl _, ox, (fun q => nomatch q), fun q => nomatch q⟩
        · cases ht
      · rename_i e t' tx ty'
        rw [tx, ty'] at hT
        rw [tx] at ox
        split at ht
        · injection ht with ht
          subst ht
          simp only [ternTy] at hT
          split at hT
          · injection hT with hT
            subst hT
            exact ⟨sim_refl _, ox, (fun q => nomatch q), fun q => nomatch q⟩
          · cases hT
        · cases ht
      · rename_i t' e tx ty'
        rw [tx, ty'] at hT
        rw [ty'] at oy
        split at ht
        · injection ht with ht
          subst ht
          simp only [ternTy] at hT
          split at hT
          · injection hT with hT
            subst hT
            exact ⟨sim_refl _, oy, (fun q => nomatch q), fun q => nomatch q⟩
          · cases hT
        · cases ht
    obtain ⟨k2, k3, k4, k5⟩ := key
    obtain ⟨c1, c2, c3, c4⟩ := mkCond_ok (Γ := Γ) hc
    obtain ⟨x1, x2, x3, x4⟩ := mkCast_ok (Γ := Γ) hx k3
    obtain ⟨y1, y2, y3, y4⟩ := mkCast_ok (Γ := Γ) hy k3
    have bx := fun {τ τ' : State} {a : Int} => branch_ok (Γ := Γ) (τ := τ) (τ' := τ') (a := a) hx k3 k2 (fun q => (k4 q).1) k5
    have by' := fun {τ τ' : State} {a : Int} => branch_ok (Γ := Γ) (τ := τ) (τ' := τ') (a := a) hy k3 k2 (fun q => (k4 q).2) k5
    have tyc : ∀ {v : X}, (t = .bool → v.ty = .bool) → (mkCast t v).ty = t := by
      intro v hv
      unfold mkCast
      split
      · rename_i q
        rw [if_pos (hv q), hv q, q]
      · exact mkCastN_ty _ _
    have tx' := tyc (v := x) fun q => (k4 q).1
    have ty'' := tyc (v := y) fun q => (k4 q).2
    generalize mkCond c = d at h c1 c2 c3 c4
    split at h
    · rename_i td v
      have hv : v = 0 ∨ v = 1 := c2
      have ev0 : ∀ {τ τ1 : State} {a : Int}, evT Γ c τ = some (a, τ1) → τ = τ1 ∧ (a = 0 ↔ v = 0) := by
        intro τ τ1 a e
        obtain ⟨q1, q2⟩ := lit_ev (c4 e)
        refine ⟨q2, ?_⟩
        rw [conv01 td hv] at q1
        split at q1 <;> omega
      injection h with h
      subst h
      split
      · rename_i hv0
        refine ⟨x1, by rw [tx']; exact k2, k5, fun {τ τ1 a} e => ⟨fun q => ?_, fun q {τ2 b} e2 => ?_⟩⟩
        · exact absurd ((ev0 e).2.mp q) hv0
        · obtain ⟨rfl, _⟩ := ev0 e
          exact bx e2
      · rename_i hv0
        refine ⟨y1, by rw [ty'']; exact k2, k5, fun {τ τ1 a} e => ⟨fun q {τ2 b} e2 => ?_, fun q => ?_⟩⟩
        · obtain ⟨rfl, _⟩ := ev0 e
          exact by' e2
        · exact absurd ((ev0 e).2.mpr (by simpa using hv0)) q
    · injection h with h
      subst h
      refine ⟨⟨c1, x1, y1, k3, x2, y2⟩, k2, k5, fun {τ τ1 a} e => ⟨fun q {τ2 b} e2 => ?_, fun q {τ2 b} e2 => ?_⟩⟩
      · simp only [evT]
        rw [c4 e]
        simp only [q, if_true]
        exact by' e2
      · simp only [evT]
        rw [c4 e]
        simp only [q, if_false, one_ne_zero]
        exact bx e2

/-! ## Lemmas: addresses -/

/-- The dereference of a constant. -/
def isDerefLit : X → Bool
  | .deref _ (.lit _ _) => true
  | _ => false

/-- Forming the address does not merge two dereferences (fe_misc.c:633-637). -/
def redOk : X → Bool
  | .deref _ (.bin .add _ a b) =>
    (if isLit a then redOk b else redOk a) &&
      !(isLit (if isLit a then a else b) && isDerefLit (if isLit a then reduceRefer b else reduceRefer a))
  | _ => true

theorem lit_of {x : X} (h : isLit x = true) : ∃ t v, x = .lit t v := by
  cases x <;> first | exact ⟨_, _, rfl⟩ | cases h

/-- A constant added to an address. -/
theorem derefAdd_ok {Γ : Ctx} {t : T} {l z : X} {tr : T} {w : Int} (hl : WX l) (sl : SU l.ty (.ptr t)) (hr : WX (.lit tr w)) (sr : SU tr (.ptr t))
    (nd : isDerefLit l = false) (ok : t.ok = true) (h : derefAdd t (.ptr t) l w = some z) :
    ∃ e, z = .deref t e ∧ WX z ∧
      ∀ {τ τ' : State} {a : Int}, evT Γ l τ = some (a, τ') → evT Γ e τ = some (conv 8 true (a + conv 8 true w), τ') := by
  unfold derefAdd at h
  split at h
  · rename_i tv v
    injection h with h
    subst h
    refine ⟨_, rfl, ⟨⟨ok, rep8 (toS64_i64 _), fun q => nomatch q⟩, rfl⟩, fun {τ τ' a} e => ?_⟩
    obtain ⟨rfl, rfl⟩ := lit_ev e
    simp only [X.ty] at sl
    rw [sl.1, sl.2]
    show some (conv 8 true (toS 64 (v + w)), τ) = some (conv 8 true (conv 8 true v + conv 8 true w), τ)
    congr 2
    have := toS64_congr (v + w)
    unfold conv
    simp only [if_true]
    omega
  · cases nd
  · rename_i t2 p t' v
    injection h with h
    subst h
    obtain ⟨h1, h2, h3, h4, h5, h6⟩ := hl
    have h6 := h6 (fun q => nomatch q) (fun q => nomatch q)
    simp only [X.ty] at sl h6
    have e1 : t'.size = 8 := h6.1.trans sl.1
    have e2 : t'.uns = true := h6.2.trans sl.2
    have nb : t' ≠ .bool := fun q => by rw [q] at e1; exact absurd e1 (by decide)
    have wl : WX (.lit t' (toS 64 (v + w))) := ⟨h2.1, by rw [e1, e2]; exact rep8 (toS64_i64 _), fun q => absurd q nb⟩
    refine ⟨_, rfl, ⟨⟨h1, wl, ok, (fun q => nomatch q), ⟨h5.1.trans sl.1, h5.2.trans sl.2⟩, fun _ _ => ⟨e1, e2⟩⟩, rfl⟩, fun {τ τ' a} e => ?_⟩
    simp only [evT] at e ⊢
    split at e
    · rename_i x τ1 hp
      simp only [opT, Option.map_some, Option.some.injEq, Prod.mk.injEq] at e ⊢
      obtain ⟨rfl, rfl⟩ := e
      refine ⟨?_, rfl⟩
      rw [e1, e2, sl.1, sl.2]
      show conv 8 true (x + conv 8 true (toS 64 (v + w))) = conv 8 true (conv 8 true (x + conv 8 true v) + conv 8 true w)
      have := toS64_congr (v + w)
      unfold conv
      simp only [if_true]
      omega
    · cases e
  · cases h

/-- What `reduceRefer` keeps. -/
structure Reduced (Γ : Ctx) (x z : X) : Prop where
  wx : WX z
  ty : z.ty = x.ty
  lv : isLvX x = true → isLvX z = true
  ev : ∀ {τ τ' : State} {a : Int}, evT Γ x τ = some (a, τ') → evT Γ z τ = some (a, τ')
  lval : ∀ {τ τ' : State} {p : Loc}, lvT Γ x τ = some (p, τ') → lvT Γ z τ = some (p, τ')

theorem reduced_refl {Γ : Ctx} {x : X} (h : WX x) : Reduced Γ x x := ⟨h, rfl, id, id, id⟩

theorem reduced_deref {Γ : Ctx} {t : T} {e e' : X} (h : WX (.deref t e'))
    (he : ∀ {τ τ' : State} {a : Int}, evT Γ e τ = some (a, τ') → evT Γ e' τ = some (a, τ')) : Reduced Γ (.deref t e) (.deref t e') := by
  refine ⟨h, rfl, fun _ => rfl, fun {τ τ' a} q => ?_, fun {τ τ' p} q => ?_⟩
  · simp only [evT] at q ⊢
    split at q
    · rename_i p τ1 hp
      rw [he hp]
      exact q
    · cases q
  · simp only [lvT] at q ⊢
    rw [Option.map_eq_some_iff] at q
    obtain ⟨⟨a, τ1⟩, q1, q2⟩ := q
    rw [he q1]
    simp only [Option.map_some, Option.some.injEq]
    exact q2

/-- Swapping a constant to the right, and changing the other operand. -/
theorem reduced_add {t : T} {l r : X} (hl : WX l) (sl : SU l.ty (.ptr t)) (hr : WX r) (sr : SU r.ty (.ptr t))
    (ok : t.ok = true) : WX (.deref t (.bin .add (.ptr t) l r)) :=
  ⟨⟨hl, hr, ok, (fun q => nomatch q), sl, fun _ _ => sr⟩, rfl⟩

theorem add_ev {Γ : Ctx} {t : T} {a b : X} {τ τ' : State} {c : Int} (h : evT Γ (.bin .add (.ptr t) a b) τ = some (c, τ')) :
    ∃ u v τ1, evT Γ a τ = some (u, τ1) ∧ evT Γ b τ1 = some (v, τ') ∧ c = conv 8 true (u + v) := by
  simp only [evT] at h
  split at h
  · rename_i u τ1 h1
    split at h
    · rename_i v τ2 h2
      simp only [opT, Option.map_some, Option.some.injEq, Prod.mk.injEq] at h
      obtain ⟨rfl, rfl⟩ := h
      exact ⟨u, v, τ1, h1, h2, rfl⟩
    · cases h
  · cases h

theorem add_ev' {Γ : Ctx} {t : T} {a b : X} {τ τ1 τ' : State} {u v : Int} (h1 : evT Γ a τ = some (u, τ1)) (h2 : evT Γ b τ1 = some (v, τ')) :
    evT Γ (.bin .add (.ptr t) a b) τ = some (conv 8 true (u + v), τ') := by
  simp only [evT]
  rw [h1]
  dsimp only
  rw [h2]
  rfl

theorem reduceRefer_step {Γ : Ctx} {t ts : T} {a b : X} (iha : WX a → redOk a = true → Reduced Γ a (reduceRefer a))
    (ihb : WX b → redOk b = true → Reduced Γ b (reduceRefer b)) (hx : WX (.deref t (.bin .add ts a b)))
    (hr : redOk (.deref t (.bin .add ts a b)) = true) :
    Reduced Γ (.deref t (.bin .add ts a b)) (reduceRefer (.deref t (.bin .add ts a b))) := by
  obtain ⟨⟨wa, wb, hts, hnb, sa, sb⟩, hty⟩ := hx
  simp only [X.ty] at hty
  subst hty
  replace sb := sb (fun q => nomatch q) (fun q => nomatch q)
  have ok : t.ok = true := hts
  have hx : WX (.deref t (.bin .add (.ptr t) a b)) := ⟨⟨wa, wb, hts, hnb, sa, fun _ _ => sb⟩, rfl⟩
  simp only [redOk, Bool.and_eq_true, Bool.not_eq_true'] at hr
  obtain ⟨hr1, hr2⟩ := hr
  unfold reduceRefer
  dsimp only
  cases la : isLit a
  · -- the left operand is not a constant
    rw [la] at hr1 hr2
    simp only [Bool.false_eq_true, if_false] at hr1 hr2 ⊢
    have ih := iha wa hr1
    have other : Reduced Γ (.deref t (.bin .add (.ptr t) a b))
        (if reduceRefer a = a then .deref t (.bin .add (.ptr t) a b) else .deref t (.bin .add (.ptr t) (reduceRefer a) b)) := by
      split
      · exact reduced_refl hx
      · refine reduced_deref (reduced_add ih.wx (by rw [ih.ty]; exact sa) wb sb ok) fun q => ?_
        obtain ⟨u, v, τ1, q1, q2, rfl⟩ := add_ev q
        exact add_ev' (ih.ev q1) q2
    split
    · rename_i tr w
      simp only [isLit, Bool.true_and] at hr2
      cases hd : derefAdd t (.ptr t) (reduceRefer a) w with
      | none => exact other
      | some z =>
        obtain ⟨e, rfl, e1, e2⟩ := derefAdd_ok (Γ := Γ) ih.wx (by rw [ih.ty]; exact sa) wb sb hr2 ok hd
        refine reduced_deref e1 fun q => ?_
        obtain ⟨u, v, τ1, q1, q2, rfl⟩ := add_ev q
        obtain ⟨rfl, rfl⟩ := lit_ev q2
        rw [e2 (ih.ev q1), show tr.size = 8 from sb.1, show tr.uns = true from sb.2]
    · exact other
  · -- the constant is on the left
    rw [la] at hr1 hr2
    obtain ⟨tr, w, rfl⟩ := lit_of la
    simp only [if_true, isLit, Bool.true_and] at hr1 hr2 ⊢
    have ih := ihb wb hr1
    have other : Reduced Γ (.deref t (.bin .add (.ptr t) (.lit tr w) b))
        (if reduceRefer b = b then .deref t (.bin .add (.ptr t) (.lit tr w) b)
          else .deref t (.bin .add (.ptr t) (reduceRefer b) (.lit tr w))) := by
      split
      · exact reduced_refl hx
      · refine reduced_deref (reduced_add ih.wx (by rw [ih.ty]; exact sb) wa sa ok) fun q => ?_
        obtain ⟨u, v, τ1, q1, q2, rfl⟩ := add_ev q
        obtain ⟨rfl, rfl⟩ := lit_ev q1
        rw [Int.add_comm]
        exact add_ev' (ih.ev q2) rfl
    cases hd : derefAdd t (.ptr t) (reduceRefer b) w with
    | none => exact other
    | some z =>
      obtain ⟨e, rfl, e1, e2⟩ := derefAdd_ok (Γ := Γ) ih.wx (by rw [ih.ty]; exact sb) wa sa hr2 ok hd
      refine reduced_deref e1 fun q => ?_
      obtain ⟨u, v, τ1, q1, q2, rfl⟩ := add_ev q
      obtain ⟨rfl, rfl⟩ := lit_ev q1
      rw [e2 (ih.ev q2), show tr.size = 8 from sa.1, show tr.uns = true from sa.2, Int.add_comm]

theorem reduceRefer_ok {Γ : Ctx} (x : X) (hx : WX x) (hr : redOk x = true) : Reduced Γ x (reduceRefer x) := by
  obtain ⟨n, hn⟩ : ∃ n, sizeOf x ≤ n := ⟨_, le_refl _⟩
  induction n generalizing x with
  | zero => cases x <;> simp at hn
  | succ n ih =>
    cases x with
    | deref t e =>
      cases e with
      | bin o ts a b =>
        cases o with
        | add =>
          simp at hn
          exact reduceRefer_step (fun h1 h2 => ih a h1 h2 (by omega)) (fun h1 h2 => ih b h1 h2 (by omega)) hx hr
        | _ => exact reduced_refl hx
      | _ => exact reduced_refl hx
    | _ => exact reduced_refl hx

theorem mkRefer_ok {Γ : Ctx} {x z : X} (hx : WX x) (hr : redOk x = true) (h : mkRefer x = some z) :
    WX z ∧ z.ty = .ptr x.ty ∧
      ∀ {τ τ' : State} {a : Nat}, lvT Γ x τ = some (.at a, τ') → evT Γ z τ = some (((a % 2 ^ 64 : Nat) : Int), τ') := by
  have R := reduceRefer_ok (Γ := Γ) x hx hr
  unfold mkRefer at h
  split at h
  · rename_i hl
    split at h
    · rename_i t e he
      injection h with h
      subst h
      rw [he] at R
      have w := R.wx
      refine ⟨w.1, by rw [← R.ty]; exact w.2, fun {τ τ' a} q => ?_⟩
      have q2 := R.lval q
      simp only [lvT] at q2
      rw [Option.map_eq_some_iff] at q2
      obtain ⟨⟨p, τ1⟩, q3, q4⟩ := q2
      injection q4 with q4 q5
      injection q4 with q4
      dsimp only at q4 q5
      subst q4 q5
      rw [q3]
      have v := (ev_vok w.1 q3).1
      rw [w.2] at v
      have v : InRange 8 true p := v
      unfold InRange at v
      simp only [if_true] at v
      congr 2
      omega
    · injection h with h
      subst h
      refine ⟨⟨R.wx, rfl⟩, by rw [← R.ty]; rfl, fun {τ τ' a} q => ?_⟩
      simp only [evT]
      rw [R.lval q]
  · cases h

/-! ## Lemmas: compound assignment -/

theorem conv_eq {s : Nat} (hs : Sz s) (u : Bool) {a b : Int} (h : (a - b) % 2 ^ (8 * s) = 0) : conv s u a = conv s u b := by
  unfold conv toS
  have e : a % 2 ^ (8 * s) = b % 2 ^ (8 * s) := Int.emod_eq_emod_iff_emod_sub_eq_zero.mpr h
  rw [e]

theorem conv_narrow {s s' : Nat} (hs : Sz s) (hs' : Sz s') (h : s ≤ s') (u u' : Bool) (m : Int) : conv s u (conv s' u' m) = conv s u m := by
  refine conv_eq hs u ?_
  have := conv_congr hs' u' m
  generalize conv s' u' m = k at this
  rcases hs with rfl | rfl | rfl | rfl <;> rcases hs' with rfl | rfl | rfl | rfl <;> simp at h this ⊢ <;> omega

theorem size_promote (t : Ty) (h : t.WF) : Fold.size 8 (isoPromote t) = max (Fold.size 8 t) 4 := by
  refine ty_cases (P := fun t => t.WF → Fold.size 8 (isoPromote t) = max (Fold.size 8 t) 4) ?_ t h h
  decide +kernel

/-- The shifts of `calc_assign_with` are wrong for `_Bool` only. -/
def shiftOk (o : Ar) (x : X) : Bool :=
  match o with
  | .shl => x.ty != .bool
  | .shr => x.ty != .bool
  | _ => true

theorem calc_shift {Γ : Ctx} {left : Bool} {x y : X} {l r : Ty} (hx : WX x) (hy : WX y) (tx : x.ty = .fx l) (ty' : y.ty = .fx r)
    (hb : x.ty ≠ .bool) :
    WX (.bin (shOf left) x.ty x y) ∧
      ∀ {τ τ1 τ2 : State} {a b c : Int}, evT Γ x τ = some (a, τ1) → evT Γ y τ1 = some (b, τ2) → arVal (shOf left) x.ty y.ty a b = some c →
        ∃ c', evT Γ (.bin (shOf left) x.ty x y) τ = some (c', τ2) ∧ cvt x.ty c' = cvt x.ty c := by
  refine ⟨⟨hx, hy, wx_ok hx, hb, ⟨rfl, rfl⟩, ?_⟩, ?_⟩
  · cases left
    · exact fun _ q => absurd rfl q
    · exact fun q => absurd rfl q
  · intro τ τ1 τ2 a b c e1 e2 hc
    rw [tx, ty'] at hc
    obtain ⟨hb1, hc⟩ := arVal_sh hc
    have wl := wx_wf hx tx
    rw [size_promote l wl] at hb1
    have hr : 0 ≤ b ∧ b < 8 * ((max x.ty.size 4 : Nat) : Int) := by rw [tx]; exact hb1
    simp only [evT]
    rw [e1]
    dsimp only
    rw [e2]
    dsimp only
    cases left
    · simp only [shOf, Bool.false_eq_true, if_false, opT] at hc ⊢
      rw [if_pos hr]
      injection hc with hc
      exact ⟨_, rfl, by rw [hc]⟩
    · simp only [shOf, if_true, opT] at hc ⊢
      rw [if_pos hr]
      refine ⟨_, rfl, ?_⟩
      have sp := size_Sz (Or.inr rfl : 8 = 4 ∨ 8 = 8) (isoPromote l)
      rw [arith_conv sp hc, cvt_conv hb, cvt_conv hb, conv_narrow (tsz _) (tsz _) (le_refl _)]
      rw [conv_narrow (tsz _) sp (by rw [size_promote l wl, tx]; exact le_max_left _ _)]

theorem calcWith_ok {Γ : Ctx} {o : Ar} {x y z : X} (hx : WX x) (hy : WX y) (hl : isLit x = false) (hs : shiftOk o x = true)
    (h : calcWith o x y = some z) :
    WX z ∧ ∀ {τ τ1 τ2 : State} {a b c : Int}, swaps o x.ty y.ty = false → evT Γ x τ = some (a, τ1) → evT Γ y τ1 = some (b, τ2) →
      arVal o x.ty y.ty a b = some c → ∃ c', evT Γ z τ = some (c', τ2) ∧ cvt x.ty c' = cvt x.ty c := by
  have ha : ∀ sub, addOk sub x y = true := by
    intro sub
    cases x <;> first | rfl | cases hl
  have bin : ∀ {o : Ar}, BinOk Γ o x y z → WX z ∧ ∀ {τ τ1 τ2 : State} {a b c : Int}, swaps o x.ty y.ty = false → evT Γ x τ = some (a, τ1) →
      evT Γ y τ1 = some (b, τ2) → arVal o x.ty y.ty a b = some c → ∃ c', evT Γ z τ = some (c', τ2) ∧ cvt x.ty c' = cvt x.ty c :=
    fun B => ⟨B.wx, fun q e1 e2 hc => ⟨_, B.ev q e1 e2 hc, rfl⟩⟩
  cases o with
  | add => exact bin (mkAddsub_ok (sub := false) hx hy (ha _) h)
  | sub => exact bin (mkAddsub_ok (sub := true) hx hy (ha _) h)
  | op o => exact bin (mkNum_ok hx hy h)
  | shl =>
    simp only [calcWith] at h
    split at h
    · rename_i l r tx ty'
      injection h with h
      subst h
      have := calc_shift (Γ := Γ) (left := true) hx hy tx ty' (by simpa [shiftOk] using hs)
      exact ⟨this.1, fun _ => this.2⟩
    · cases h
  | shr =>
    simp only [calcWith] at h
    split at h
    · rename_i l r tx ty'
      injection h with h
      subst h
      have := calc_shift (Γ := Γ) (left := false) hx hy tx ty' (by simpa [shiftOk] using hs)
      exact ⟨this.1, fun _ => this.2⟩
    · cases h

end Verif.Elab

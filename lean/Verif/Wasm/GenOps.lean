import Verif.Wasm.Gen
import Mathlib.Data.Int.ModEq
import Mathlib.Tactic.IntervalCases
/-
Lemmas: numbers, conversions, operators and memory of WebAssembly against the values of C.
-/
namespace Verif.WasmGen
open Verif.Util Verif.CExpr Verif.Wasm
open Verif.Fold hiding Op Res

/-! ## Numbers -/

def InR (t : T) (a : Int) : Prop := InRange t.size t.uns a

theorem tsz {t : T} (h : t.scalar = true) : Sz t.size := by
  unfold Sz
  cases t with
  | void => cases h
  | ptr n => exact .inr (.inr (.inl rfl))
  | fx t =>
    obtain ⟨k, u⟩ := t
    simp only [T.scalar, Bool.and_eq_true, decide_eq_true_eq] at h
    obtain ⟨h, -⟩ := h
    unfold T.size Fold.size
    dsimp only
    interval_cases k <;> decide

theorem w_of_le {t : T} (h : t.size ≤ 4) : t.w = .i32 := by simp [T.w, h]
theorem w_of_gt {t : T} (h : ¬ t.size ≤ 4) : t.w = .i64 := by simp [T.w, h]

theorem w_bits {t : T} (h : t.scalar = true) : t.w.bits = 8 * max t.size 4 := by
  rcases tsz h with e | e | e | e <;> simp [T.w, e, VT.bits]

theorem w_like {t u : T} (h : like t u = true) : t.w = u.w := by
  simp only [like, Bool.and_eq_true, decide_eq_true_eq] at h
  simp [T.w, h.1]

theorem like_size {t u : T} (h : like t u = true) : t.size = u.size := by
  simp only [like, Bool.and_eq_true, decide_eq_true_eq] at h; exact h.1

theorem like_uns {t u : T} (h : like t u = true) : t.uns = u.uns := by
  simp only [like, Bool.and_eq_true, decide_eq_true_eq] at h; exact h.2

theorem rep_like {t u : T} (h : like t u = true) (a : Int) : rep t a = rep u a := by
  unfold rep; rw [w_like h]

theorem inR_like {t u : T} (h : like t u = true) {a : Int} (ha : InR t a) : InR u a := by
  unfold InR at *; rw [← like_size h, ← like_uns h]; exact ha

theorem pat_cast (b : Nat) (a : Int) : ((pat b a : Nat) : Int) = a % 2 ^ b := by
  unfold pat toU
  exact Int.toNat_of_nonneg (Int.emod_nonneg _ (by positivity))

theorem pat_lt (b : Nat) (a : Int) : pat b a < 2 ^ b := by
  have h := pat_cast b a
  have : a % 2 ^ b < 2 ^ b := Int.emod_lt_of_pos _ (by positivity)
  rw [← h] at this
  exact_mod_cast this

theorem pat_modEq {b : Nat} {x y : Int} (h : x ≡ y [ZMOD 2 ^ b]) : pat b x = pat b y := by
  unfold pat toU
  rw [h]

theorem pat_mod (b : Nat) (a : Int) : ((pat b a : Nat) : Int) ≡ a [ZMOD 2 ^ b] := by
  rw [pat_cast]
  exact Int.mod_modEq _ _

theorem pat_nat {b n : Nat} (h : n < 2 ^ b) : pat b (n : Int) = n := by
  unfold pat toU
  rw [Int.emod_eq_of_lt (by omega) (by exact_mod_cast h)]
  rfl

theorem pat_pat (b : Nat) (a : Int) : pat b ((pat b a : Nat) : Int) = pat b a := pat_nat (pat_lt b a)

/-- The two widths. -/
theorem pat32 (a : Int) : ((pat 32 a : Nat) : Int) = a % 4294967296 := by rw [pat_cast]; norm_num
theorem pat64 (a : Int) : ((pat 64 a : Nat) : Int) = a % 18446744073709551616 := by rw [pat_cast]; norm_num

theorem toS8 (a : Int) : toS 8 a = if a % 256 < 128 then a % 256 else a % 256 - 256 := by unfold toS; norm_num
theorem toS16 (a : Int) : toS 16 a = if a % 65536 < 32768 then a % 65536 else a % 65536 - 65536 := by unfold toS; norm_num
theorem toS32 (a : Int) : toS 32 a = if a % 4294967296 < 2147483648 then a % 4294967296 else a % 4294967296 - 4294967296 := by
  unfold toS; norm_num
theorem toS64 (a : Int) : toS 64 a = if a % 18446744073709551616 < 9223372036854775808 then a % 18446744073709551616
    else a % 18446744073709551616 - 18446744073709551616 := by unfold toS; norm_num

theorem and_mask8 (n : Nat) : n &&& pat 32 (2 ^ 8 - 1) = n % 256 := by
  have : pat 32 (2 ^ 8 - 1) = 2 ^ 8 - 1 := by decide
  rw [this, Nat.and_two_pow_sub_one_eq_mod]
theorem and_mask16 (n : Nat) : n &&& pat 32 (2 ^ 16 - 1) = n % 65536 := by
  have : pat 32 (2 ^ 16 - 1) = 2 ^ 16 - 1 := by decide
  rw [this, Nat.and_two_pow_sub_one_eq_mod]

/-- Straight code. -/
def line : List Op → Code
  | [] => .done
  | o :: os => .op o (line os)

def runL (E : Env) : List Op → List V → St → Res
  | [], s, ρ => .ok s ρ
  | o :: os, s, ρ => (step E o s ρ).bind (runL E os)

theorem exec_line (E : Env) (m : Nat) (os : List Op) : ∀ s ρ, exec E m (line os) s ρ = runL E os s ρ := by
  induction os with
  | nil => intro s ρ; rfl
  | cons o os ih =>
    intro s ρ
    simp only [line, exec, runL]
    cases step E o s ρ <;> first | exact ih _ _ | rfl

theorem frag_line {os : List Op} (h : ∀ o ∈ os, o.wf = true) : Frag (os.map .op) (line os) := by
  induction os with
  | nil => exact Frag.nil
  | cons o os ih =>
    have h1 := Frag.op (h o (by simp))
    have h2 := ih fun o ho => h o (by simp [ho])
    exact h1.append h2

/-- The instructions of `castTo`. -/
def castOps (d s : Nat) (du su : Bool) : List Op :=
  (if d > 4 then if s > 4 then [] else [if su then .extU else .extS]
    else if s > 4 then [.wrap] else []) ++
  (if d < s then
    if d < 4 then if du then [.const .i32 (2 ^ (8 * d) - 1), .bin .i32 .and] else [if d = 1 then .ext8 else .ext16] else []
  else if du ≠ su then
    if du then if d < 4 ∧ s < 4 then [.const .i32 (2 ^ (8 * d) - 1), .bin .i32 .and] else []
    else if d < 4 then [if d = 1 then .ext8 else .ext16] else []
  else [])

theorem castTo_ops {d s : T} (h : d ≠ .void) : castTo d s = (castOps d.size s.size d.uns s.uns).map .op := by
  unfold castTo castOps maskTo extFrom
  rw [if_neg h]
  dsimp only
  rw [List.map_append]
  congr 1
  · split <;> split <;> simp
  · repeat' split
    all_goals simp_all

theorem castOps_wf {d s : Nat} {du su : Bool} (h : d ≤ 8) : ∀ o ∈ castOps d s du su, o.wf = true := by
  intro o ho
  unfold castOps at ho
  rw [List.mem_append] at ho
  have hw : d < 4 → (Op.const .i32 (2 ^ (8 * d) - 1)).wf = true := by
    intro h
    interval_cases d <;> decide
  rcases ho with ho | ho
  · (repeat' split at ho) <;> simp at ho <;> (subst ho; rfl)
  · (repeat' split at ho) <;> simp at ho
    all_goals first
      | (rcases ho with rfl | rfl <;> first | rfl | (apply hw; omega))
      | (subst ho; rfl)

theorem and255 (n : Nat) : n &&& 255 = n % 256 := Nat.and_two_pow_sub_one_eq_mod n 8
theorem and65535 (n : Nat) : n &&& 65535 = n % 65536 := Nat.and_two_pow_sub_one_eq_mod n 16
theorem pat255 : pat 32 255 = 255 := by decide
theorem pat65535 : pat 32 65535 = 65535 := by decide

theorem pat_conv8 (u : Bool) (a : Int) : pat 64 (conv 8 u a) = pat 64 a := by
  apply pat_modEq
  exact Int.emod_eq_emod_iff_emod_sub_eq_zero.2 (conv_congr (.inr (.inr (.inr rfl))) u a)

theorem pat64_32 (a : Int) : pat 64 a % 2 ^ 32 = pat 32 a := by
  have h := pat64 a
  have h' := pat32 a
  generalize pat 64 a = x at *
  generalize pat 32 a = y at *
  omega

theorem toS_pat32 {a : Int} (h : -2147483648 ≤ a ∧ a < 2147483648) : toS 32 (pat 32 a : Nat) = a := by
  rw [pat32, toS32]
  split <;> omega

theorem pat32_64 {a : Int} (h : 0 ≤ a ∧ a < 4294967296) : pat 32 a = pat 64 a := by
  have h1 := pat64 a
  have h' := pat32 a
  generalize pat 64 a = x at *
  generalize pat 32 a = y at *
  omega

theorem small_s {s : Nat} (hs : Sz s) (h : ¬ s = 8) {a : Int} (ha : InRange s false a) : -2147483648 ≤ a ∧ a < 2147483648 := by
  rcases hs with rfl | rfl | rfl | rfl <;> simp [InRange] at ha h <;> omega

theorem small_u {s : Nat} (hs : Sz s) (h : ¬ s = 8) {a : Int} (ha : InRange s true a) : 0 ≤ a ∧ a < 4294967296 := by
  rcases hs with rfl | rfl | rfl | rfl <;> simp [InRange] at ha h <;> omega

theorem castOps_8 (E : Env) {s : Nat} {du su : Bool} (hs : Sz s) {a : Int} (ha : InRange s su a) (st : List V) (ρ : St) :
    runL E (castOps 8 s du su) (⟨if s ≤ 4 then .i32 else .i64, pat (if s ≤ 4 then VT.i32 else VT.i64).bits a⟩ :: st) ρ =
      .ok (⟨.i64, pat 64 (conv 8 du a)⟩ :: st) ρ := by
  by_cases s8 : s = 8
  · subst s8
    simp [castOps, runL, VT.bits, pat_conv8]
  · have h4 : s ≤ 4 := by rcases hs with h | h | h | h <;> omega
    cases su with
    | false =>
      have h := small_s hs s8 ha
      cases du <;>
        simp [castOps, runL, step, Res.bind, VT.bits, pat_conv8, h4, toS_pat32 h, show ¬ 4 < s by omega, show ¬ 8 < s by omega]
    | true =>
      have h := small_u hs s8 ha
      cases du <;>
        simp [castOps, runL, step, Res.bind, VT.bits, pat_conv8, h4, pat32_64 h, show ¬ 4 < s by omega, show ¬ 8 < s by omega]

theorem natKey {n n' : Nat} (h : (n : Int) = n') : n = n' := by exact_mod_cast h

theorem pat64_32' (a : Int) : pat 64 a % 4294967296 = pat 32 a := by
  have h := pat64 a
  have h' := pat32 a
  generalize pat 64 a = x at *
  generalize pat 32 a = y at *
  omega

theorem wrapStep (E : Env) (a : Int) (st : List V) (ρ : St) : step E .wrap (⟨.i64, pat 64 a⟩ :: st) ρ = .ok (⟨.i32, pat 32 a⟩ :: st) ρ := by
  simp only [step, if_true, pat64_32]

theorem ext8Step (E : Env) (n : Nat) (st : List V) (ρ : St) : step E .ext8 (⟨.i32, n⟩ :: st) ρ = .ok (⟨.i32, pat 32 (toS 8 n)⟩ :: st) ρ := rfl
theorem ext16Step (E : Env) (n : Nat) (st : List V) (ρ : St) : step E .ext16 (⟨.i32, n⟩ :: st) ρ = .ok (⟨.i32, pat 32 (toS 16 n)⟩ :: st) ρ := rfl

theorem maskRun8 (E : Env) (n : Nat) (st : List V) (ρ : St) :
    runL E [.const .i32 (2 ^ (8 * 1) - 1), .bin .i32 .and] (⟨.i32, n⟩ :: st) ρ = .ok (⟨.i32, n % 256⟩ :: st) ρ := by
  simp [runL, step, Res.bind, binOp, VT.bits, and255, pat255]

theorem maskRun16 (E : Env) (n : Nat) (st : List V) (ρ : St) :
    runL E [.const .i32 (2 ^ (8 * 2) - 1), .bin .i32 .and] (⟨.i32, n⟩ :: st) ρ = .ok (⟨.i32, n % 65536⟩ :: st) ρ := by
  simp [runL, step, Res.bind, binOp, VT.bits, and65535, pat65535]

theorem pat_conv1 (a : Int) : pat 32 (toS 8 (pat 32 a : Nat)) = pat 32 (conv 1 false a) := by
  apply natKey
  simp only [conv, Bool.false_eq_true, if_false, Nat.mul_one, pat32, toS8]
  (repeat' split) <;> omega

theorem pat_conv2 (a : Int) : pat 32 (toS 16 (pat 32 a : Nat)) = pat 32 (conv 2 false a) := by
  apply natKey
  simp only [conv, Bool.false_eq_true, if_false, show 8 * 2 = 16 from rfl, pat32, toS16]
  (repeat' split) <;> omega

theorem pat_conv1u (a : Int) : pat 32 a % 256 = pat 32 (conv 1 true a) := by
  apply natKey
  simp only [conv, if_true, Nat.mul_one, pat32, show (2 : Int) ^ 8 = 256 by norm_num]
  push_cast
  rw [pat32]
  omega

theorem pat_conv2u (a : Int) : pat 32 a % 65536 = pat 32 (conv 2 true a) := by
  apply natKey
  simp only [conv, if_true, show 8 * 2 = 16 from rfl, pat32, show (2 : Int) ^ 16 = 65536 by norm_num]
  push_cast
  rw [pat32]
  omega

theorem pat_conv4 (u : Bool) (a : Int) : pat 32 (conv 4 u a) = pat 32 a := by
  apply pat_modEq
  exact Int.emod_eq_emod_iff_emod_sub_eq_zero.2 (conv_congr (.inr (.inr (.inl rfl))) u a)

theorem castOps_w (E : Env) {d : Nat} {du su : Bool} (hd : Sz d) (d8 : ¬ d = 8) {a : Int} (st : List V) (ρ : St) :
    runL E (castOps d 8 du su) (⟨.i64, pat 64 a⟩ :: st) ρ = .ok (⟨.i32, pat 32 (conv d du a)⟩ :: st) ρ := by
  rcases hd with rfl | rfl | rfl | rfl
  · cases du with
    | false =>
      show ((step E .wrap _ ρ).bind (runL E [.ext8])) = _
      rw [wrapStep]
      simp only [Res.bind, runL, ext8Step, pat_conv1]
    | true =>
      show ((step E .wrap _ ρ).bind (runL E [.const .i32 (2 ^ (8 * 1) - 1), .bin .i32 .and])) = _
      rw [wrapStep]
      simp only [Res.bind, maskRun8, pat_conv1u]
  · cases du with
    | false =>
      show ((step E .wrap _ ρ).bind (runL E [.ext16])) = _
      rw [wrapStep]
      simp only [Res.bind, runL, ext16Step, pat_conv2]
    | true =>
      show ((step E .wrap _ ρ).bind (runL E [.const .i32 (2 ^ (8 * 2) - 1), .bin .i32 .and])) = _
      rw [wrapStep]
      simp only [Res.bind, maskRun16, pat_conv2u]
  · show ((step E .wrap _ ρ).bind (runL E [])) = _
    rw [wrapStep]
    simp only [Res.bind, runL, pat_conv4]
  · exact absurd rfl d8

theorem castOps_4 (E : Env) {d s : Nat} {du su : Bool} (hd : Sz d) (hs : Sz s) (d8 : ¬ d = 8) (s8 : ¬ s = 8) {a : Int} (ha : InRange s su a)
    (st : List V) (ρ : St) :
    runL E (castOps d s du su) (⟨.i32, pat 32 a⟩ :: st) ρ = .ok (⟨.i32, pat 32 (conv d du a)⟩ :: st) ρ := by
  rcases hd with rfl | rfl | rfl | rfl <;> rcases hs with rfl | rfl | rfl | rfl <;> cases du <;> cases su <;>
    simp [castOps, runL, step, Res.bind, binOp, VT.bits, InRange, conv, and255, and65535, pat255, pat65535] at d8 s8 ha ⊢ <;> apply natKey <;>
    push_cast <;> simp only [pat32, toS8, toS16, toS32] <;>
    (repeat' split) <;> omega

theorem castOps_run (E : Env) {d s : Nat} {du su : Bool} (hd : Sz d) (hs : Sz s) {a : Int} (ha : InRange s su a) (st : List V) (ρ : St) :
    runL E (castOps d s du su) (⟨if s ≤ 4 then .i32 else .i64, pat (if s ≤ 4 then VT.i32 else VT.i64).bits a⟩ :: st) ρ =
      .ok (⟨if d ≤ 4 then .i32 else .i64, pat (if d ≤ 4 then VT.i32 else VT.i64).bits (conv d du a)⟩ :: st) ρ := by
  have key : ∀ {k : Nat}, Sz k → ¬ k = 8 → k ≤ 4 := fun h h' => by rcases h with h | h | h | h <;> omega
  by_cases d8 : d = 8
  · subst d8
    exact castOps_8 E hs ha st ρ
  · rw [if_pos (key hd d8)]
    by_cases s8 : s = 8
    · subst s8
      exact castOps_w E hd d8 st ρ
    · rw [if_pos (key hs s8)]
      exact castOps_4 E hd hs d8 s8 ha st ρ

theorem scalar_nv {t : T} (h : t.scalar = true) : t ≠ .void := by rintro rfl; cases h

def castCode (d s : T) : Code := line (castOps d.size s.size d.uns s.uns)

theorem castTo_frag {d s : T} (hd : d.scalar = true) : Frag (castTo d s) (castCode d s) := by
  rw [castTo_ops (scalar_nv hd)]
  exact frag_line (castOps_wf (by rcases tsz hd with h | h | h | h <;> omega))

/-- The code of a conversion converts. -/
theorem castTo_run (E : Env) {d s : T} (hd : d.scalar = true) (hs : s.scalar = true) {a : Int} (ha : InR s a) (m : Nat) (st : List V)
    (ρ : St) : exec E m (castCode d s) (rep s a :: st) ρ = .ok (rep d (conv d.size d.uns a) :: st) ρ := by
  unfold castCode
  rw [exec_line]
  exact castOps_run E (tsz hd) (tsz hs) ha st ρ

/-! ## Operators -/

theorem bits_of {t : T} (h : t.scalar = true) (h4 : 4 ≤ t.size) : t.w.bits = 8 * t.size := by
  rw [w_bits h]; congr 1; omega

theorem pat_conv {t : T} (h : t.scalar = true) (a : Int) : pat (8 * t.size) (conv t.size t.uns a) = pat (8 * t.size) a :=
  pat_modEq (Int.emod_eq_emod_iff_emod_sub_eq_zero.2 (conv_congr (tsz h) t.uns a))

theorem num_pat {t : T} (h : t.scalar = true) {a : Int} (ha : InR t a) : num (8 * t.size) (!t.uns) (pat (8 * t.size) a) = a := by
  unfold num InR InRange at *
  cases hu : t.uns with
  | true =>
    rw [hu] at ha
    simp only [Bool.not_true, Bool.false_eq_true, if_false, if_true] at ha ⊢
    rw [pat_cast]
    exact Int.emod_eq_of_lt ha.1 ha.2
  | false =>
    rw [hu] at ha
    simp only [Bool.not_false, Bool.false_eq_true, if_false, if_true] at ha ⊢
    rw [pat_cast]
    unfold toS
    rcases tsz h with e | e | e | e <;> rw [e] at ha ⊢ <;> dsimp only <;> split <;> omega

theorem pat_zero {t : T} (h : t.scalar = true) {a : Int} (ha : InR t a) (hz : pat (8 * t.size) a = 0) : a = 0 := by
  have := num_pat h ha
  rw [hz] at this
  rw [← this]
  unfold num
  split
  · rcases tsz h with e | e | e | e <;> rw [e] <;> decide
  · rfl

theorem bit_ok {B : Nat} (f : Nat → Nat → Nat) (hf : ∀ x y n, x < 2 ^ n → y < 2 ^ n → f x y < 2 ^ n) (a b : Int) :
    f (pat B a) (pat B b) = pat B ((f (a % 2 ^ B).toNat (b % 2 ^ B).toNat : Nat) : Int) := by
  exact (pat_nat (hf _ _ _ (pat_lt B a) (pat_lt B b))).symm

theorem arith_some {s : Nat} (hs : Sz s) {u : Bool} {x c : Int} (h : arith s u x = some c) :
    pat (8 * s) c = pat (8 * s) x ∧ (u = false → -2 ^ (8 * s - 1) ≤ x ∧ x < 2 ^ (8 * s - 1)) := by
  unfold arith at h
  cases u with
  | true =>
    simp only [if_true, Option.some.injEq] at h
    subst h
    exact ⟨pat_modEq (Int.mod_modEq _ _), (fun q => nomatch q)⟩
  | false =>
    simp only [Bool.false_eq_true, if_false] at h
    split at h
    · injection h with h
      subst h
      exact ⟨rfl, fun _ => by assumption⟩
    · cases h

/-- An operator on patterns is the operator on values. -/
theorem binOp_ok {t : T} (ht : t.scalar = true) {o : Ar} {a b c : Int}
    (ha : o ≠ .add → o ≠ .sub → InR t a ∧ (o ≠ .shl → o ≠ .shr → InR t b) ∧ ∃ u, t = .fx u) (h4 : 4 ≤ t.size)
    (h : Elab.opT o t.size t.uns a b = some c) :
    binOp t.w.bits (arOp o t) (pat t.w.bits a) (pat t.w.bits b) = some (pat t.w.bits c) := by
  rw [bits_of ht h4]
  have su : (∃ u, t = .fx u) → t.sgn = !t.uns := by rintro ⟨u, rfl⟩; rfl
  have hb32 : ∀ {n : Nat}, n < 8 * t.size → n < 2 ^ (8 * t.size) ∧ n % (8 * t.size) = n := fun h =>
    ⟨lt_trans h Nat.lt_two_pow_self, Nat.mod_eq_of_lt h⟩
  have shift : 0 ≤ b → b < 8 * (max t.size 4 : Nat) → pat (8 * t.size) b % (8 * t.size) = b.toNat := by
    intro h0 h1
    have h2 : b.toNat < 8 * t.size := by omega
    obtain ⟨h3, h5⟩ := hb32 h2
    have : b = (b.toNat : Int) := by omega
    rw [this, pat_nat h3, h5]
    rfl
  cases o with
  | add =>
    simp only [Elab.opT, Option.some.injEq] at h
    subst h
    rw [pat_conv ht]
    simp only [arOp, binOp, Option.some.injEq]
    apply natKey
    push_cast
    rw [pat_cast, pat_cast, pat_cast, ← Int.add_emod]
  | sub =>
    simp only [Elab.opT, Option.some.injEq] at h
    subst h
    rw [pat_conv ht]
    simp only [arOp, binOp, Option.some.injEq]
    exact pat_modEq ((pat_mod _ a).sub (pat_mod _ b))
  | shl =>
    simp only [Elab.opT] at h
    split at h
    · rename_i hb
      injection h with h
      subst h
      rw [pat_conv ht]
      simp only [arOp, binOp, Option.some.injEq]
      rw [shift hb.1 (by exact_mod_cast hb.2)]
      apply natKey
      rw [pat_cast]
      push_cast
      exact (pat_mod _ a).mul_right _
    · cases h
  | shr =>
    obtain ⟨ha, -, hf⟩ := ha (by simp) (by simp)
    simp only [Elab.opT] at h
    split at h
    · rename_i hb
      injection h with h
      subst h
      simp only [arOp, binOp, Option.some.injEq]
      rw [shift hb.1 (by exact_mod_cast hb.2), su hf, num_pat ht ha]
    · cases h
  | op k =>
    obtain ⟨ha', hb, hf⟩ := ha (by simp) (by simp)
    clear ha
    rename' ha' => ha
    replace hb := hb (by simp) (by simp)
    cases k with
    | mul =>
      simp only [Elab.opT, Option.some.injEq] at h
      subst h
      rw [pat_conv ht]
      simp only [arOp, binOp, Option.some.injEq]
      apply natKey
      push_cast
      rw [pat_cast, pat_cast, pat_cast, ← Int.mul_emod]
    | div =>
      simp only [Elab.opT, isoOp] at h
      split at h
      · cases h
      rename_i hz
      obtain ⟨h1, h2⟩ := arith_some (tsz ht) h
      simp only [arOp, binOp]
      rw [if_neg (fun q => hz (pat_zero ht hb q)), su hf, num_pat ht ha, num_pat ht hb, if_neg, h1]
      rintro ⟨q, e⟩
      have := (h2 (by simpa using q)).2
      rw [e] at this
      exact absurd this (lt_irrefl _)
    | mod =>
      simp only [Elab.opT, isoOp] at h
      split at h
      · cases h
      rename_i hz
      split at h
      · cases h
      injection h with h
      subst h
      simp only [arOp, binOp]
      rw [if_neg (fun q => hz (pat_zero ht hb q)), su hf, num_pat ht ha, num_pat ht hb]
    | band =>
      simp only [Elab.opT, isoOp, Option.some.injEq] at h
      subst h
      rw [pat_conv ht]
      exact congrArg some (bit_ok (· &&& ·) (fun _ _ _ h _ => lt_of_le_of_lt Nat.and_le_left h) a b)
    | bor =>
      simp only [Elab.opT, isoOp, Option.some.injEq] at h
      subst h
      rw [pat_conv ht]
      exact congrArg some (bit_ok (· ||| ·) (fun _ _ _ h h' => Nat.or_lt_two_pow h h') a b)
    | bxor =>
      simp only [Elab.opT, isoOp, Option.some.injEq] at h
      subst h
      rw [pat_conv ht]
      exact congrArg some (bit_ok (· ^^^ ·) (fun _ _ _ h h' => Nat.xor_lt_two_pow h h') a b)

theorem conv_max {s : Nat} (hs : Sz s) {u : Bool} {a : Int} (h : InRange s u a) : InRange (max s 4) u a := by
  rcases hs with rfl | rfl | rfl | rfl <;> cases u <;> simp [InRange] at h ⊢ <;> omega

theorem num_rep {t : T} (h : t.scalar = true) {a : Int} (ha : InR t a) : num t.w.bits (!t.uns) (rep t a).n = a := by
  unfold rep
  rw [w_bits h]
  have hm := conv_max (tsz h) ha
  dsimp only
  generalize e : max t.size 4 = s at *
  have hs : s = 4 ∨ s = 8 := by rcases tsz h with q | q | q | q <;> omega
  unfold num InRange at *
  cases hu : t.uns with
  | true =>
    rw [hu] at hm
    simp only [Bool.not_true, Bool.false_eq_true, if_false, if_true] at hm ⊢
    rw [pat_cast]
    exact Int.emod_eq_of_lt hm.1 hm.2
  | false =>
    rw [hu] at hm
    simp only [Bool.not_false, Bool.false_eq_true, if_false, if_true] at hm ⊢
    rw [pat_cast]
    unfold toS
    rcases hs with e | e <;> rw [e] at hm ⊢ <;> dsimp only <;> split <;> omega

theorem rep_inj {t : T} (h : t.scalar = true) {a b : Int} (ha : InR t a) (hb : InR t b) (e : (rep t a).n = (rep t b).n) : a = b := by
  rw [← num_rep h ha, ← num_rep h hb, e]

/-- A comparison of patterns is the comparison of values. -/
theorem cmp_ok {t : T} (ht : t.scalar = true) (k : Rel) {a b : Int} (ha : InR t a) (hb : InR t b) :
    cmpOp t.w.bits (cmpOf k t) (rep t a).n (rep t b).n = decide (holds k a b) := by
  have na := num_rep ht ha
  have nb := num_rep ht hb
  cases k with
  | eq =>
    simp only [cmpOp, cmpOf, holds]
    refine decide_eq_decide.2 ?_
    exact ⟨rep_inj ht ha hb, fun e => by rw [e]⟩
  | ne =>
    simp only [cmpOp, cmpOf, holds]
    refine decide_eq_decide.2 ?_
    exact not_congr ⟨rep_inj ht ha hb, fun e => by rw [e]⟩
  | lt => simp only [cmpOp, cmpOf, holds, na, nb]
  | le => simp only [cmpOp, cmpOf, holds, na, nb]
  | ge => simp only [cmpOp, cmpOf, holds, na, nb]
  | gt => simp only [cmpOp, cmpOf, holds, na, nb]

theorem rep_zero (t : T) : (rep t 0).n = 0 := by
  unfold rep pat toU
  simp

theorem eqz_ok {t : T} (ht : t.scalar = true) {a : Int} (ha : InR t a) (h0 : InR t 0) : ((rep t a).n = 0) ↔ a = 0 := by
  constructor
  · intro h
    exact rep_inj ht ha h0 (by rw [h, rep_zero])
  · rintro rfl
    exact rep_zero t

theorem inR_zero {t : T} (ht : t.scalar = true) : InR t 0 := by
  unfold InR InRange
  rcases tsz ht with e | e | e | e <;> rw [e] <;> cases t.uns <;> simp

/-! ## Memory -/

theorem rdB_lt (mem : Nat → Nat) (k : Nat) : ∀ a, rdB mem a k < 2 ^ (8 * k) := by
  induction k with
  | zero => intro a; simp [rdB]
  | succ k ih =>
    intro a
    have := ih (a + 1)
    have h := Nat.mod_lt (mem a) (show 256 > 0 by omega)
    simp only [rdB]
    rw [show 8 * (k + 1) = 8 * k + 8 by omega, Nat.pow_add]
    omega

theorem load_ok {t : T} (ht : t.scalar = true) {n : Nat} (hn : n < 2 ^ (8 * t.size)) :
    (if (decide (t.size < 4) && !t.uns) = true then pat t.w.bits (toS (8 * t.size) n) else n) = pat t.w.bits (conv t.size t.uns n) := by
  by_cases h4 : 4 ≤ t.size
  · rw [if_neg (by simp; omega), bits_of ht h4, pat_conv ht, pat_nat hn]
  · have hb : t.w.bits = 32 := by rw [w_bits ht]; omega
    have hlt : n < 2 ^ 32 := lt_of_lt_of_le hn (Nat.pow_le_pow_right (by omega) (by omega))
    cases hu : t.uns with
    | true =>
      rw [if_neg (by simp)]
      unfold conv
      rw [if_pos rfl, Int.emod_eq_of_lt (by omega) (by exact_mod_cast hn), hb, pat_nat hlt]
    | false =>
      rw [if_pos (by simp; omega)]
      rfl

theorem wrB_mod (k : Nat) : ∀ (mem : Nat → Nat) (a v w : Nat), v % 2 ^ (8 * k) = w % 2 ^ (8 * k) → wrB mem a k v = wrB mem a k w := by
  induction k with
  | zero => intro mem a v w _; rfl
  | succ k ih =>
    intro mem a v w h
    rw [show 8 * (k + 1) = 8 + 8 * k by omega, Nat.pow_add] at h
    have h1 : v % 256 = w % 256 := by
      have := congrArg (· % 2 ^ 8) h
      simpa [Nat.mod_mul_right_mod] using this
    have h2 : v / 256 % 2 ^ (8 * k) = w / 256 % 2 ^ (8 * k) := by
      have := congrArg (· / 2 ^ 8) h
      simpa [Nat.mod_mul_right_div_self] using this
    simp only [wrB, h1]
    exact ih _ _ _ _ h2

theorem wrB_other (k : Nat) : ∀ (mem : Nat → Nat) (a v x : Nat), x < a → wrB mem a k v x = mem x := by
  induction k with
  | zero => intro mem a v x _; rfl
  | succ k ih =>
    intro mem a v x h
    simp only [wrB]
    rw [ih _ _ _ _ (by omega)]
    exact if_neg (by omega)

theorem rdB_wrB (k : Nat) : ∀ (mem : Nat → Nat) (a v : Nat), rdB (wrB mem a k v) a k = v % 2 ^ (8 * k) := by
  induction k with
  | zero => intro mem a v; simp [rdB, Nat.mod_one]
  | succ k ih =>
    intro mem a v
    simp only [wrB, rdB]
    rw [ih, wrB_other _ _ _ _ _ (by omega), if_pos rfl]
    rw [show 8 * (k + 1) = 8 + 8 * k by omega, Nat.pow_add, Nat.mod_mul]
    norm_num

theorem pat_down {b b' : Nat} (h : b ≤ b') (v : Int) : pat b' v % 2 ^ b = pat b v := by
  apply natKey
  push_cast
  rw [pat_cast, pat_cast, Int.emod_emod_of_dvd _ (pow_dvd_pow 2 h)]

theorem store_ok {t : T} (ht : t.scalar = true) (mem : Nat → Nat) (a : Nat) (v : Int) :
    wrB mem a t.size (pat t.w.bits v) = wrB mem a t.size (pat (8 * t.size) v) := by
  apply wrB_mod
  rw [pat_down (by rw [w_bits ht]; omega), Nat.mod_eq_of_lt (pat_lt _ _)]

end Verif.WasmGen

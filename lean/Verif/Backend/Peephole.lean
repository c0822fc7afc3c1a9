/-
Merging of constant offsets (C59).

Models `peephole`, /repo/src/cc/backend/optimize.c:490-537.  It runs without -O, too.

Simplifications: integers only (the code asserts it, optimize.c:501, 521).  The width of an addition is the size of its
destination.
-/
import Verif.Backend.Dce
import Verif.Backend.Edges
import Mathlib.Data.BitVec

namespace Verif.Peephole
open Verif.Ir

/-! ### Specification: addresses and sums -/

/-- The instructions of interest: `IR_BOFS`, `IR_IOFS`, `IR_ADD`, `IR_SUB` (of `n` bits), all others. -/
inductive Kind (X : Type) where
  | bofs (frame : Nat) (off : BitVec 64)
  | iofs (label : Nat) (off : BitVec 64)
  | add (n : Nat)
  | sub (n : Nat)
  | other (x : X)
deriving DecidableEq

variable {X S : Type}

abbrev W := BitVec 64

/-- The low `n` bits. -/
def low (n : Nat) (v : W) : W := (v.setWidth n).setWidth 64

/-- The machine adds: an address is a base, which does not change, plus the offset; sums and differences are those of
the low bits, and have no other effect. -/
structure Adds (M : Machine (Kind X) W S) : Prop where
  bofs : ∃ base : Nat → S → W, ∀ f o a b s, M.exec (.bofs f o) a b s = .ok (base f s + o, s)
  iofs : ∃ base : Nat → W, ∀ l o a b s, M.exec (.iofs l o) a b s = .ok (base l + o, s)
  add : ∀ n a b s, M.exec (.add n) (some a) (some b) s = .ok (low n (a + b), s)
  sub : ∀ n a b s, M.exec (.sub n) (some a) (some b) s = .ok (low n (a - b), s)

/-! ### Model -/

/-- `(next->kind == IR_ADD || next->kind == IR_SUB) && next->opr1 == ir->dst && next->opr2->flag & VRF_CONST`: the
constant added (negated for `IR_SUB`), and the width; optimize.c:498-506, 518-526. -/
def addend (d : Option Nat) (n : Ins (Kind X) W) : Option (W × Nat) :=
  match n.kind, n.o1, n.o2, d with
  | .add w, some (.reg r), some (.const c), some d => if r = d then some (c, w) else none
  | .sub w, some (.reg r), some (.const c), some d => if r = d then some (-c, w) else none
  | _, _, _, _ => none

/-- What the instruction `n` behind `i` is overwritten with, optimize.c:494-533. -/
def merge (i n : Ins (Kind X) W) : Option (Ins (Kind X) W) :=
  match i.kind with
  | .bofs f o => (addend i.dst n).map fun (c, _) => { i with kind := .bofs f (o + c), dst := n.dst }
  | .iofs l o => (addend i.dst n).map fun (c, _) => { i with kind := .iofs l (o + c), dst := n.dst }
  | .add _ =>
    match i.o2 with
    | some (.const c0) => (addend i.dst n).map fun (c, w) => { kind := .add w, dst := n.dst, o1 := i.o1, o2 := some (.const (c + c0)) }
    | _ => none
  | _ => none

/-- optimize.c:490-537 `peephole`. -/
def peephole : List (Ins (Kind X) W) → List (Ins (Kind X) W)
  | i :: n :: is => i :: peephole ((merge i n).getD n :: is)
  | is => is
termination_by is => is.length

/-! ### Proofs -/

/-- An addition of a constant to a register or constant. -/
def isAdd (i : Ins (Kind X) W) : Prop := ∃ w c, i.kind = .add w ∧ i.o2 = some (.const c)

def isSum (i : Ins (Kind X) W) : Prop := (∃ w, i.kind = .add w) ∨ ∃ w, i.kind = .sub w

/-- The later sum `n` does not overwrite the operand of the sum `i`. -/
def Keeps (i n : Ins (Kind X) W) : Prop := isAdd i → isSum n → ∀ r, i.o1 = some (.reg r) → n.dst ≠ some r

/-- The widths are those of the registers (`size`, in bits); a sum has an operand. -/
structure Sized (size : Nat → Nat) (i : Ins (Kind X) W) : Prop where
  sum : ∀ w, i.kind = .add w ∨ i.kind = .sub w → (∀ d, i.dst = some d → size d = w) ∧ (∀ r, i.o1 = some (.reg r) → size r = w) ∧ i.o1 ≠ none
  addr : (∃ f o, i.kind = .bofs f o) ∨ (∃ l o, i.kind = .iofs l o) → ∀ d, i.dst = some d → size d = 64

/-- What the code generator guarantees: the sums and addresses go to registers, and a sum and the later ones do not
overwrite its operand. -/
structure Clean (mem : Nat → Bool) (size : Nat → Nat) (is : List (Ins (Kind X) W)) : Prop where
  selfKeeps : ∀ i ∈ is, Keeps i i
  keeps : is.Pairwise Keeps
  temps : ∀ i ∈ is, ∀ d, i.dst = some d → (isSum i ∨ (∃ f o, i.kind = .bofs f o) ∨ ∃ l o, i.kind = .iofs l o) → mem d = false
  sized : ∀ i ∈ is, Sized size i

theorem low_low {n : Nat} (a c : W) : low n (low n a + c) = low n (a + c) := by
  unfold low
  by_cases hw : n ≤ 64
  · have h1 : (BitVec.setWidth 64 (BitVec.setWidth n a)).setWidth n = a.setWidth n := by
      apply BitVec.eq_of_toNat_eq
      simp only [BitVec.toNat_setWidth]
      rw [Nat.mod_mod_of_dvd _ (Nat.pow_dvd_pow 2 hw), Nat.mod_mod]
    rw [BitVec.setWidth_add _ _ hw, BitVec.setWidth_add a _ hw, h1]
  · have : BitVec.setWidth 64 (BitVec.setWidth n a) = a := by
      rw [BitVec.setWidth_setWidth_of_le _ (by omega), BitVec.setWidth_eq]
    rw [this]

theorem low_full {w : Nat} (h : 64 ≤ w) (a : W) : low w a = a := by
  unfold low
  rw [BitVec.setWidth_setWidth_of_le _ h, BitVec.setWidth_eq]

theorem addend_cases {d : Option Nat} {n : Ins (Kind X) W} {c : W} {w : Nat} (h : addend d n = some (c, w)) :
    ∃ r, d = some r ∧ n.o1 = some (.reg r) ∧
      ((n.kind = .add w ∧ n.o2 = some (.const c)) ∨ (n.kind = .sub w ∧ ∃ c', n.o2 = some (.const c') ∧ c = -c')) := by
  unfold addend at h
  split at h
  · rename_i w' r c' d' h1 h2 h3
    split at h
    · rename_i he
      cases h; subst he
      exact ⟨r, rfl, h2, .inl ⟨h1, h3⟩⟩
    · cases h
  · rename_i w' r c' d' h1 h2 h3
    split at h
    · rename_i he
      cases h; subst he
      exact ⟨r, rfl, h2, .inr ⟨h1, c', h3, rfl⟩⟩
    · cases h
  · cases h

theorem addend_sum {d : Option Nat} {n : Ins (Kind X) W} {c : W} {w : Nat} (h : addend d n = some (c, w)) : isSum n := by
  obtain ⟨r, -, -, h⟩ := addend_cases h
  rcases h with ⟨h, -⟩ | ⟨h, -⟩
  · exact .inl ⟨w, h⟩
  · exact .inr ⟨w, h⟩

/-- What the addition computes. -/
theorem addend_exec {M : Machine (Kind X) W S} (hM : Adds M) {mem : Nat → Bool} {r : Nat} {n : Ins (Kind X) W} {c : W} {w : Nat}
    (h : addend (some r) n = some (c, w)) (hm : mem r = false) (ρ : Env W) (s : S) :
    M.exec n.kind (n.o1.map (rd M mem ρ s)) (n.o2.map (rd M mem ρ s)) s = .ok (low w (ρ r + c), s) := by
  obtain ⟨r', hr, h1, h2⟩ := addend_cases h
  cases hr
  rcases h2 with ⟨h3, h4⟩ | ⟨h3, c', h4, h5⟩
  · simp only [h1, h3, h4, Option.map_some, hM.add, rd, hm, Bool.false_eq_true, if_false]
  · simp only [h1, h3, h4, h5, Option.map_some, hM.sub, rd, hm, Bool.false_eq_true, if_false, BitVec.sub_eq_add_neg]

/-- The rewritten instruction gives the same result where the old one stood. -/
theorem merge_exec {M : Machine (Kind X) W S} (hM : Adds M) {mem : Nat → Bool} {i n n' : Ins (Kind X) W}
    (hm : merge i n = some n') (hk : Keeps i i)
    (ht : ∀ d, i.dst = some d → mem d = false)
    {size : Nat → Nat} (hsi : Sized size i) (hsn : Sized size n) (ρ : Env W) (s : S) {v : W} {s' : S}
    (hi : M.exec i.kind (i.o1.map (rd M mem ρ s)) (i.o2.map (rd M mem ρ s)) s = .ok (v, s')) :
    n'.dst = n.dst ∧ s' = s ∧
      let ρ1 := (wr M mem i.dst v ρ s').1
      (wr M mem i.dst v ρ s').2 = s ∧
      M.exec n'.kind (n'.o1.map (rd M mem ρ1 s)) (n'.o2.map (rd M mem ρ1 s)) s =
        M.exec n.kind (n.o1.map (rd M mem ρ1 s)) (n.o2.map (rd M mem ρ1 s)) s := by
  have hw : ∀ c w r, addend i.dst n = some (c, w) → i.dst = some r → size r = w := by
    intro c w r ha hr
    obtain ⟨r', hr', h1, h2⟩ := addend_cases ha
    rw [hr] at hr'
    cases hr'
    refine (hsn.sum w ?_).2.1 r h1
    rcases h2 with ⟨h2, -⟩ | ⟨h2, -⟩
    · exact .inl h2
    · exact .inr h2
  unfold merge at hm
  split at hm
  · -- bofs
    rename_i f o hik
    obtain ⟨⟨c, w⟩, ha, rfl⟩ := Option.map_eq_some_iff.1 hm
    obtain ⟨r, hr, -, -⟩ := addend_cases ha
    obtain ⟨base, hb⟩ := hM.bofs
    rw [hik, hb] at hi
    cases hi
    have hmr := ht r hr
    have h64 : 64 ≤ w := by rw [← hw c w r ha hr, hsi.addr (.inl ⟨f, o, hik⟩) r hr]
    rw [hr] at ha
    refine ⟨rfl, rfl, ?_⟩
    simp only [hr, wr, hmr, Bool.false_eq_true, if_false]
    refine ⟨trivial, ?_⟩
    rw [addend_exec hM ha hmr, hb, low_full h64]
    simp [Env.upd, BitVec.add_assoc]
  · rename_i l o hik
    obtain ⟨⟨c, w⟩, ha, rfl⟩ := Option.map_eq_some_iff.1 hm
    obtain ⟨r, hr, -, -⟩ := addend_cases ha
    obtain ⟨base, hb⟩ := hM.iofs
    rw [hik, hb] at hi
    cases hi
    have hmr := ht r hr
    have h64 : 64 ≤ w := by rw [← hw c w r ha hr, hsi.addr (.inr ⟨l, o, hik⟩) r hr]
    rw [hr] at ha
    refine ⟨rfl, rfl, ?_⟩
    simp only [hr, wr, hmr, Bool.false_eq_true, if_false]
    refine ⟨trivial, ?_⟩
    rw [addend_exec hM ha hmr, hb, low_full h64]
    simp [Env.upd, BitVec.add_assoc]
  · rename_i w0 hik
    split at hm
    · rename_i c0 ho2
      obtain ⟨⟨c, w⟩, ha, rfl⟩ := Option.map_eq_some_iff.1 hm
      obtain ⟨r, hr, -, -⟩ := addend_cases ha
      have hmr := ht r hr
      have hww : w = w0 := by rw [← hw c w r ha hr, (hsi.sum w0 (.inl hik)).1 r hr]
      subst hww
      cases ho1 : i.o1 with
      | none => exact absurd ho1 (hsi.sum w (.inl hik)).2.2
      | some o1 =>
        rw [hik, ho1, ho2] at hi
        simp only [Option.map_some, hM.add] at hi
        cases hi
        rw [hr] at ha
        refine ⟨rfl, rfl, ?_⟩
        simp only [hr, wr, hmr, Bool.false_eq_true, if_false, Option.map_some]
        refine ⟨trivial, ?_⟩
        rw [addend_exec hM ha hmr, hM.add]
        have hkeep : rd M mem (ρ.upd r (low w (rd M mem ρ s o1 + rd M mem ρ s (.const c0)))) s o1 = rd M mem ρ s o1 := by
          cases o1 with
          | const v => rfl
          | reg q =>
            have : q ≠ r := by
              intro he; subst he
              exact hk ⟨w, c0, hik, ho2⟩ (.inl ⟨w, hik⟩) q ho1 hr
            simp only [rd, Env.upd, if_neg this]
        rw [hkeep]
        simp only [Env.upd, if_true]
        rw [low_low]
        simp only [rd]
        rw [BitVec.add_assoc, BitVec.add_comm c0 c]
    · cases hm
  · cases hm

theorem merge_sum {i n n' : Ins (Kind X) W} (h : merge i n = some n') : ∃ c w, addend i.dst n = some (c, w) := by
  unfold merge at h
  split at h
  · obtain ⟨⟨c, w⟩, ha, -⟩ := Option.map_eq_some_iff.1 h; exact ⟨c, w, ha⟩
  · obtain ⟨⟨c, w⟩, ha, -⟩ := Option.map_eq_some_iff.1 h; exact ⟨c, w, ha⟩
  · split at h
    · obtain ⟨⟨c, w⟩, ha, -⟩ := Option.map_eq_some_iff.1 h; exact ⟨c, w, ha⟩
    · cases h
  · cases h

theorem merge_shape {i n n' : Ins (Kind X) W} (h : merge i n = some n') : n'.dst = n.dst ∧ n'.o1 = i.o1 ∧
    ((((∃ f o, i.kind = .bofs f o) ∨ ∃ l o, i.kind = .iofs l o) ∧ ((∃ f o, n'.kind = .bofs f o) ∨ ∃ l o, n'.kind = .iofs l o)) ∨
      (isAdd i ∧ ∃ w c, addend i.dst n = some (c, w) ∧ n'.kind = .add w)) := by
  unfold merge at h
  split at h
  · rename_i f o hik
    obtain ⟨⟨c, w⟩, -, rfl⟩ := Option.map_eq_some_iff.1 h
    exact ⟨rfl, rfl, .inl ⟨.inl ⟨f, o, hik⟩, .inl ⟨_, _, rfl⟩⟩⟩
  · rename_i f o hik
    obtain ⟨⟨c, w⟩, -, rfl⟩ := Option.map_eq_some_iff.1 h
    exact ⟨rfl, rfl, .inl ⟨.inr ⟨f, o, hik⟩, .inr ⟨_, _, rfl⟩⟩⟩
  · rename_i w0 hik
    split at h
    · rename_i c0 ho2
      obtain ⟨⟨c, w⟩, ha, rfl⟩ := Option.map_eq_some_iff.1 h
      exact ⟨rfl, rfl, .inr ⟨⟨w0, c0, hik, ho2⟩, w, c, ha, rfl⟩⟩
    · cases h
  · cases h

theorem merge_clean {mem : Nat → Bool} {size : Nat → Nat} {i n n' : Ins (Kind X) W} {is : List (Ins (Kind X) W)}
    (h : Clean mem size (i :: n :: is)) (hm : merge i n = some n') : Clean mem size (n' :: is) := by
  obtain ⟨c, w, ha⟩ := merge_sum hm
  have hns := addend_sum ha
  obtain ⟨h1, h2, h3, h4⟩ := h
  obtain ⟨h2i, h2n⟩ := List.pairwise_cons.1 h2
  obtain ⟨h2n', h2is⟩ := List.pairwise_cons.1 h2n
  obtain ⟨hdst, ho1, hsh⟩ := merge_shape hm
  have hadd : isAdd n' → isAdd i := by
    rintro ⟨w', c', hk, -⟩
    rcases hsh with ⟨-, ⟨f, o, h⟩ | ⟨f, o, h⟩⟩ | ⟨h, -⟩
    · rw [hk] at h; cases h
    · rw [hk] at h; cases h
    · exact h
  have hi := h4 i (List.mem_cons_self ..)
  have hn := h4 n (List.mem_cons_of_mem _ (List.mem_cons_self ..))
  obtain ⟨r, hr, hr1, hr2⟩ := addend_cases ha
  have hnk : n.kind = .add w ∨ n.kind = .sub w := by
    rcases hr2 with ⟨h, -⟩ | ⟨h, -⟩
    · exact .inl h
    · exact .inr h
  have hn' := hn.sum w hnk
  refine ⟨?_, ?_, ?_, ?_⟩
  · intro j hj
    rcases List.mem_cons.1 hj with rfl | hj
    · intro hadd' _ r hr hd
      rw [hdst] at hd
      exact h2i n (List.mem_cons_self ..) (hadd hadd') hns r (ho1 ▸ hr) hd
    · exact h1 j (List.mem_cons_of_mem _ (List.mem_cons_of_mem _ hj))
  · refine List.pairwise_cons.2 ⟨?_, h2is⟩
    intro m hm' hadd' hs r hr
    exact h2i m (List.mem_cons_of_mem _ hm') (hadd hadd') hs r (ho1 ▸ hr)
  · intro j hj d hd hk
    rcases List.mem_cons.1 hj with rfl | hj
    · exact h3 n (List.mem_cons_of_mem _ (List.mem_cons_self ..)) d (hdst ▸ hd) (.inl hns)
    · exact h3 j (List.mem_cons_of_mem _ (List.mem_cons_of_mem _ hj)) d hd hk
  · intro j hj
    rcases List.mem_cons.1 hj with rfl | hj
    · rcases hsh with ⟨ha1, ha2⟩ | ⟨⟨w0, c0, hik, ho2⟩, w1, c1, ha1, hk1⟩
      · constructor
        · intro w' hk
          rcases ha2 with ⟨f, o, h⟩ | ⟨f, o, h⟩ <;> rw [h] at hk <;> rcases hk with hk | hk <;> cases hk
        · intro _ d hd
          rw [hn'.1 d (hdst ▸ hd), ← hn'.2.1 r hr1]
          exact hi.addr ha1 r hr
      · rw [ha] at ha1
        cases ha1
        constructor
        · intro w' hk
          have hk : w' = w := by
            rw [hk1] at hk
            rcases hk with hk | hk <;> cases hk
            rfl
          subst hk
          have hi' := hi.sum w0 (.inl hik)
          have hww : w0 = w' := by rw [← hi'.1 r hr, hn'.2.1 r hr1]
          subst hww
          exact ⟨fun d hd => hn'.1 d (hdst ▸ hd), fun q hq => hi'.2.1 q (ho1 ▸ hq), fun hq => hi'.2.2 (ho1 ▸ hq)⟩
        · intro hk
          rw [hk1] at hk
          rcases hk with ⟨f, o, h⟩ | ⟨f, o, h⟩ <;> cases h
    · exact h4 j (List.mem_cons_of_mem _ (List.mem_cons_of_mem _ hj))

theorem Clean.tail {mem : Nat → Bool} {size : Nat → Nat} {i : Ins (Kind X) W} {is : List (Ins (Kind X) W)}
    (h : Clean mem size (i :: is)) : Clean mem size is :=
  ⟨fun j hj => h.selfKeeps j (List.mem_cons_of_mem _ hj), (List.pairwise_cons.1 h.keeps).2,
    fun j hj => h.temps j (List.mem_cons_of_mem _ hj), fun j hj => h.sized j (List.mem_cons_of_mem _ hj)⟩

/-- C59.  A list of instructions does the same after the merging: the same registers, memory and effects. -/
theorem peephole_run {M : Machine (Kind X) W S} (hM : Adds M) {mem : Nat → Bool} {size : Nat → Nat} (is : List (Ins (Kind X) W)) :
    Clean mem size is → ∀ (ρ : Env W) (s : S), runBody M mem (peephole is) ρ s = runBody M mem is ρ s := by
  fun_induction peephole is with
  | case1 i n is ih =>
    intro h ρ s
    cases hm : merge i n with
    | none =>
      rw [hm] at ih
      simp only [Option.getD_none] at ih ⊢
      rw [runBody]
      conv => rhs; rw [runBody]
      cases M.exec i.kind (i.o1.map (rd M mem ρ s)) (i.o2.map (rd M mem ρ s)) s with
      | ok a => exact ih h.tail _ _
      | stop s' => rfl
      | undef => rfl
    | some n' =>
      rw [hm] at ih
      simp only [Option.getD_some] at ih ⊢
      rw [runBody]
      conv => rhs; rw [runBody]
      cases hi : M.exec i.kind (i.o1.map (rd M mem ρ s)) (i.o2.map (rd M mem ρ s)) s with
      | ok a =>
        obtain ⟨v, s'⟩ := a
        dsimp only
        rw [ih (merge_clean h hm)]
        have hin : isSum i ∨ (∃ f o, i.kind = .bofs f o) ∨ ∃ l o, i.kind = .iofs l o := by
          rcases (merge_shape hm).2.2 with ⟨h, -⟩ | ⟨⟨w, c, h, -⟩, -⟩
          · exact .inr h
          · exact .inl (.inl ⟨w, h⟩)
        obtain ⟨h1, h2, h3, h4⟩ := merge_exec hM hm (h.selfKeeps i (List.mem_cons_self ..))
          (fun d hd => h.temps i (List.mem_cons_self ..) d hd hin) (h.sized i (List.mem_cons_self ..))
          (h.sized n (List.mem_cons_of_mem _ (List.mem_cons_self ..))) ρ s hi
        rw [h3, runBody, h4, h1]
        conv => rhs; rw [runBody]
      | stop s' => rfl
      | undef => rfl
  | case2 is h => intro _ ρ s; rfl

/-- C59.  The function does the same. -/
theorem peephole_refines {M : Machine (Kind X) W S} (hM : Adds M) {mem : Nat → Bool} {size : Nat → Nat}
    {blocks : List (Block (Kind X) W)} {frm : Nat → List Nat} (hc : ∀ B ∈ blocks, Clean mem size B.body) :
    Refines M mem ⟨blocks, frm⟩ ⟨blocks.map fun B => { B with body := peephole B.body }, frm⟩ := by
  have hstep : ∀ r, step M mem ⟨blocks.map fun B => { B with body := peephole B.body }, frm⟩ r = step M mem ⟨blocks, frm⟩ r := by
    intro r
    cases r with
    | run b p ρ s =>
      simp only [step, List.getElem?_map]
      cases hb : blocks[b]? with
      | none => rfl
      | some B =>
        simp only [Option.map_some]
        rw [peephole_run hM B.body (hc B (List.mem_of_getElem? hb))]
    | _ => rfl
  intro n
  induction n with
  | zero => intro ρ s _; rfl
  | succ n ih =>
    intro ρ s _
    have : ∀ n r, run M mem ⟨blocks.map fun B => { B with body := peephole B.body }, frm⟩ n r = run M mem ⟨blocks, frm⟩ n r := by
      intro n
      induction n with
      | zero => intro r; rfl
      | succ n ih => intro r; simp only [run]; rw [hstep, ih]
    rw [this]

/-! ### A sum in place -/

/-- `x = x + 1; y = x + 2` in one register: the merged instruction would add 3 to the new `x`.  The code generator
writes sums to new registers, with one exception: `alloca` adds in place (builtin.c:316), but the constant is a
placeholder of value 0 then, and is filled in later, so that the merged instruction is right. -/
theorem in_place_wrong :
    peephole [⟨.add 64, some 0, some (.reg 0), some (.const 1)⟩, ⟨.add 64, some 1, some (.reg 0), some (.const 2)⟩] =
      [⟨.add 64, some 0, some (.reg 0), some (.const 1)⟩, (⟨.add 64, some 1, some (.reg 0), some (.const 3)⟩ : Ins (Kind Unit) W)] := by
  simp [peephole, merge, addend]

/-! ### Examples -/

/-- `&local + 8 - 4`, and `(x + 1) - 3` in 32 bits. -/
def sample : List (Ins (Kind Unit) W) :=
  [⟨.bofs 0 16, some 1, none, none⟩, ⟨.add 64, some 2, some (.reg 1), some (.const 8)⟩, ⟨.sub 64, some 3, some (.reg 2), some (.const 4)⟩,
    ⟨.add 32, some 5, some (.reg 4), some (.const 1)⟩, ⟨.sub 32, some 6, some (.reg 5), some (.const 3)⟩]

example : peephole sample =
    [⟨.bofs 0 16, some 1, none, none⟩, ⟨.bofs 0 24, some 2, none, none⟩, ⟨.bofs 0 20, some 3, none, none⟩,
      ⟨.add 32, some 5, some (.reg 4), some (.const 1)⟩, ⟨.add 32, some 6, some (.reg 4), some (.const (-2))⟩] := by
  simp [sample, peephole, merge, addend]

example : Clean (fun _ => false) (fun r => if r < 4 then 64 else 32) sample := by
  refine ⟨?_, ?_, fun _ _ _ _ _ => rfl, ?_⟩
  · intro i hi
    simp only [sample, List.mem_cons, List.not_mem_nil, or_false] at hi
    rcases hi with rfl | rfl | rfl | rfl | rfl <;> intro _ _ r hr <;> simp at hr ⊢ <;> omega
  · simp only [sample, List.pairwise_cons, List.mem_cons, List.not_mem_nil, or_false]
    refine ⟨?_, ?_, ?_, ?_, ?_, ?_⟩ <;> (try exact List.Pairwise.nil) <;> intro n hn <;> intro _ _ r hr <;>
      (try rcases hn with rfl | rfl | rfl | rfl) <;> (try rcases hn with rfl | rfl | rfl) <;> (try rcases hn with rfl | rfl) <;>
      (try subst hn) <;> simp at hr ⊢ <;> omega
  · intro i hi
    simp only [sample, List.mem_cons, List.not_mem_nil, or_false] at hi
    rcases hi with rfl | rfl | rfl | rfl | rfl
    all_goals
      constructor
      · intro w hw; simp at hw ⊢ <;> omega
      · intro hw d hd; simp at hw hd ⊢ <;> omega

/-- A machine that adds. -/
def adder : Machine (Kind Unit) W Unit :=
  { exec := fun k a b s =>
      match k, a, b with
      | .bofs _ o, _, _ => .ok (4096 + o, s)
      | .iofs l o, _, _ => .ok (BitVec.ofNat 64 (8192 * l) + o, s)
      | .add n, some a, some b => .ok (low n (a + b), s)
      | .sub n, some a, some b => .ok (low n (a - b), s)
      | _, _, _ => .undef
    test := fun _ _ _ => true
    index := BitVec.toNat
    get := fun _ _ => 0
    set := fun s _ _ => s }

example : Adds adder :=
  ⟨⟨fun _ _ => 4096, fun _ _ _ _ _ => rfl⟩, ⟨fun l => BitVec.ofNat 64 (8192 * l), fun _ _ _ _ _ => rfl⟩, fun _ _ _ _ => rfl,
    fun _ _ _ _ => rfl⟩

end Verif.Peephole

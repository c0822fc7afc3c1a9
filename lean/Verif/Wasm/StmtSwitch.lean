import Verif.Wasm.StmtOk
/-!
# Statements compiled to WebAssembly (C73): the jump of a switch
-/
namespace Verif.WasmGen
open Verif.Util Verif.CExpr Verif.Wasm
open Verif.Fold hiding Op Res

/-! ## Which label -/

theorem emod_iff {b : Nat} {x y : Int} : pat b x = pat b y ↔ (x - y) % 2 ^ b = 0 := by
  rw [← Int.emod_eq_emod_iff_emod_sub_eq_zero]
  constructor
  · intro h
    rw [← pat_cast, ← pat_cast, h]
  · intro h
    have : ((pat b x : Nat) : Int) = (pat b y : Nat) := by rw [pat_cast, pat_cast, h]
    exact_mod_cast this

theorem conv_eq {s : Nat} (hs : Sz s) (u : Bool) {a b : Int} (h : (a - b) % 2 ^ (8 * s) = 0) : conv s u a = conv s u b := by
  unfold conv toS
  have e : a % 2 ^ (8 * s) = b % 2 ^ (8 * s) := Int.emod_eq_emod_iff_emod_sub_eq_zero.mpr h
  rw [e]

theorem inR_promote {t : T} (ht : t.scalar = true) {x : Int} (hx : InR t x) :
    InRange (if t.size < 4 then 4 else t.size) (if t.size < 4 then false else t.uns) x := by
  unfold InR at hx
  by_cases h : t.size < 4
  · rw [if_pos h, if_pos h]
    rcases tsz ht with e | e | e | e
    · rw [e] at hx
      unfold InRange at hx ⊢
      cases hu : t.uns <;> rw [hu] at hx <;> simp at hx ⊢ <;> omega
    · rw [e] at hx
      unfold InRange at hx ⊢
      cases hu : t.uns <;> rw [hu] at hx <;> simp at hx ⊢ <;> omega
    · omega
    · omega
  · rw [if_neg h, if_neg h]
    exact hx

theorem hits_iff {t : T} (ht : t.scalar = true) {x : Int} (hx : InR t x) (v : Int) :
    hits t x (some v) = true ↔ pat t.w.bits x = pat t.w.bits v := by
  have hr := inR_promote ht hx
  have hS : Sz (if t.size < 4 then 4 else t.size) := by
    split
    · exact Or.inr (Or.inr (Or.inl rfl))
    · exact tsz ht
  have hb : t.w.bits = 8 * (if t.size < 4 then 4 else t.size) := by
    rw [w_bits ht]
    split <;> omega
  simp only [hits, decide_eq_true_eq]
  rw [hb, emod_iff]
  constructor
  · intro e
    rw [e]
    exact conv_congr hS _ v
  · intro e
    have := conv_eq hS (if t.size < 4 then false else t.uns) e
    rwa [conv_id hS _ hr] at this

/-- The block that is jumped to. -/
def target (t : T) (x : Int) (cs : List (Option Int × Nat)) (n : Nat) : Nat :=
  match (labels cs).find? fun p => hits t x (some p.1) with
  | some p => p.2
  | none => dfltIx cs n

theorem find_labels (t : T) (x : Int) (cs : List (Option Int × Nat)) :
    ((labels cs).find? fun p => hits t x (some p.1)).map (·.2) = (cs.find? fun p => hits t x p.1).map (·.2 - 1) := by
  induction cs with
  | nil => rfl
  | cons p cs ih =>
    obtain ⟨v, j⟩ := p
    cases v with
    | none => simpa [labels, hits] using ih
    | some v =>
      by_cases h : hits t x (some v) = true
      · simp [labels, h]
      · simp only [labels, List.filterMap_cons, Option.map_some, List.find?_cons, h] at ih ⊢
        exact ih

theorem dflt_none {cs : List (Option Int × Nat)} (h : ∀ p ∈ cs, p.1 ≠ none) (n : Nat) : dfltIx cs n = n := by
  induction cs with
  | nil => rfl
  | cons p cs ih =>
    obtain ⟨v, j⟩ := p
    cases v with
    | none => exact absurd rfl (h _ (List.mem_cons_self ..))
    | some v =>
      simp only [dfltIx, List.foldl_cons]
      exact ih fun p hp => h p (List.mem_cons_of_mem _ hp)

theorem dflt_find {cs : List (Option Int × Nat)} (h : (cs.filter (·.1 = none)).length ≤ 1) (n : Nat) :
    dfltIx cs n = ((cs.find? fun p => p.1 = none).map (·.2 - 1)).getD n := by
  induction cs with
  | nil => rfl
  | cons p cs ih =>
    obtain ⟨v, j⟩ := p
    cases v with
    | none =>
      have h0 : ∀ p ∈ cs, p.1 ≠ none := by
        intro p hp q
        simp only [List.filter_cons, decide_true, if_true, List.length_cons] at h
        have : p ∈ cs.filter (·.1 = none) := by simp [hp, q]
        have := List.length_pos_of_mem this
        omega
      simp only [dfltIx, List.foldl_cons]
      have := dflt_none h0 (j - 1)
      simp only [dfltIx] at this
      rw [this]
      simp
    | some v =>
      have h' : (cs.filter (·.1 = none)).length ≤ 1 := by simpa using h
      have := ih h'
      simp only [dfltIx, List.foldl_cons] at this ⊢
      rw [this]
      simp

theorem target_pick {t : T} {x : Int} {cs : List (Option Int × Nat)} (h : (cs.filter (·.1 = none)).length ≤ 1) (n : Nat) :
    target t x cs n = match pick t x cs with | some q => q - 1 | none => n := by
  have h1 := find_labels t x cs
  unfold target pick
  cases h2 : cs.find? fun p => hits t x p.1 with
  | some p =>
    rw [h2] at h1
    cases h3 : (labels cs).find? fun p => hits t x (some p.1) with
    | some q => rw [h3] at h1; simpa using h1
    | none => rw [h3] at h1; simp at h1
  | none =>
    rw [h2] at h1
    cases h3 : (labels cs).find? fun p => hits t x (some p.1) with
    | some q => rw [h3] at h1; simp at h1
    | none =>
      simp only
      rw [dflt_find h]
      cases cs.find? fun p => p.1 = none <;> rfl

/-- Labels with and without numbers agree. -/
theorem pick_rel {α β : Type} {R : Option Int × α → Option Int × β → Prop} (hR : ∀ p q, R p q → p.1 = q.1) {l : List (Option Int × α)}
    {l' : List (Option Int × β)} (h : List.Forall₂ R l l') (t : T) (x : Int) :
    (pick t x l = none ∧ pick t x l' = none) ∨ ∃ v p q, R (v, p) (v, q) ∧ pick t x l = some p ∧ pick t x l' = some q := by
  have find : ∀ P : Option Int → Bool, (l.find? (fun p => P p.1) = none ∧ l'.find? (fun p => P p.1) = none) ∨
      ∃ p q, R p q ∧ l.find? (fun p => P p.1) = some p ∧ l'.find? (fun p => P p.1) = some q := by
    intro P
    induction h with
    | nil => exact Or.inl ⟨rfl, rfl⟩
    | @cons a b l l' hab _ ih =>
      have e := hR a b hab
      by_cases hp : P a.1 = true
      · right
        exact ⟨a, b, hab, by simp [hp], by simp [← e, hp]⟩
      · simp only [List.find?_cons, hp, ← e]
        exact ih
  unfold pick
  rcases find (hits t x) with ⟨h1, h2⟩ | ⟨p, q, r, h1, h2⟩
  · rw [h1, h2]
    rcases find (fun v => decide (v = none)) with ⟨h1, h2⟩ | ⟨p, q, r, h1, h2⟩
    · left; simp only [h1, h2]; exact ⟨rfl, rfl⟩
    · right
      refine ⟨p.1, p.2, q.2, ?_, by simp only [h1]; rfl, by simp only [h2]; rfl⟩
      have := hR p q r
      rw [show (p.1, q.2) = q by rw [this]]
      exact r
  · right
    rw [h1, h2]
    refine ⟨p.1, p.2, q.2, ?_, rfl, rfl⟩
    have := hR p q r
    rw [show (p.1, q.2) = q by rw [this]]
    exact r

/-! ## The jump -/

/-- Code that yields the value, and keeps `I`. -/
def Val (E : Env) (m : Nat) (C : Code) (v : V) (I : St → Prop) : Prop := ∀ s ρ, I ρ → ∃ ρ', exec E m C s ρ = .ok (v :: s) ρ' ∧ I ρ'

theorem chain_ok {E : Env} {m : Nat} {Cv : Code} {val : List Tok} {t : T} {x : Int} {I : St → Prop} (fv : Frag val Cv)
    (hv : Val E m Cv (rep t x) I) (ht : t.scalar = true) (hx : InR t x) {K : Code} {ks : List Tok} (fK : Frag ks K) :
    ∀ ls : List (Int × Nat), (∀ p ∈ ls, Op.wf (.const t.w p.1) = true) →
      ∃ D, Frag (ls.flatMap (fun p => val ++ [.op (.const t.w p.1), .op (.cmp t.w .eq), .op (.brIf p.2)]) ++ ks) D ∧
        ∀ ρ, I ρ → match ls.find? fun p => hits t x (some p.1) with
          | some p => ∃ ρ', exec E m D [] ρ = .br p.2 [] ρ' ∧ I ρ'
          | none => ∃ ρ', exec E m D [] ρ = exec E m K [] ρ' ∧ I ρ' := by
  intro ls
  induction ls with
  | nil => exact fun _ => ⟨K, by simpa using fK, fun ρ h => ⟨ρ, rfl, h⟩⟩
  | cons p ls ih =>
    intro hw
    obtain ⟨D, fD, hD⟩ := ih fun p hp => hw p (List.mem_cons_of_mem _ hp)
    refine ⟨Cv.app ((line [.const t.w p.1, .cmp t.w .eq, .brIf p.2]).app D), ?_, fun ρ hρ => ?_⟩
    · have h3 : Frag [.op (.const t.w p.1), .op (.cmp t.w .eq), .op (.brIf p.2)] (line [.const t.w p.1, .cmp t.w .eq, .brIf p.2]) := by
        refine frag_line (os := [.const t.w p.1, .cmp t.w .eq, .brIf p.2]) ?_
        intro o ho
        simp only [List.mem_cons, List.not_mem_nil, or_false] at ho
        rcases ho with rfl | rfl | rfl
        · exact hw p (List.mem_cons_self ..)
        · rfl
        · rfl
      have := fv.append (h3.append fD)
      simpa using this
    · obtain ⟨ρ1, e1, i1⟩ := hv [] ρ hρ
      rw [exec_app, e1]
      simp only [Res.bind]
      rw [exec_app, exec_line]
      have e2 : runL E [.const t.w p.1, .cmp t.w .eq, .brIf p.2] [rep t x] ρ1 =
          if hits t x (some p.1) = true then .br p.2 [] ρ1 else .ok [] ρ1 := by
        simp only [runL, Res.bind, step, rep, cmpOp, and_self, if_true, decide_eq_true_eq]
        have := hits_iff ht hx p.1
        by_cases h : hits t x (some p.1) = true
        · rw [if_pos h, if_pos (this.1 h)]
          simp
        · rw [if_neg h, if_neg (fun q => h (this.2 q))]
          simp
      rw [e2]
      by_cases h : hits t x (some p.1) = true
      · rw [if_pos h]
        simp only [List.find?_cons, h]
        exact ⟨ρ1, rfl, i1⟩
      · rw [if_neg h]
        simp only [List.find?_cons, h, Res.bind]
        exact hD ρ1 i1

theorem minL_le {ls : List (Int × Nat)} : ∀ p ∈ ls, minL ls ≤ p.1 := by
  have aux : ∀ (ls : List (Int × Nat)) (a : Int), ls.foldl (fun m p => if p.1 < m then p.1 else m) a ≤ a ∧
      ∀ p ∈ ls, ls.foldl (fun m p => if p.1 < m then p.1 else m) a ≤ p.1 := by
    intro ls
    induction ls with
    | nil => intro a; exact ⟨le_refl _, fun p hp => nomatch hp⟩
    | cons q ls ih =>
      intro a
      simp only [List.foldl_cons]
      obtain ⟨h1, h2⟩ := ih (if q.1 < a then q.1 else a)
      have ha : (if q.1 < a then q.1 else a) ≤ a ∧ (if q.1 < a then q.1 else a) ≤ q.1 := by split <;> omega
      refine ⟨le_trans h1 ha.1, fun p hp => ?_⟩
      rcases List.mem_cons.1 hp with rfl | hp
      · exact le_trans h1 ha.2
      · exact h2 p hp
  exact (aux ls _).2

theorem le_maxL {ls : List (Int × Nat)} : ∀ p ∈ ls, p.1 ≤ maxL ls := by
  have aux : ∀ (ls : List (Int × Nat)) (a : Int), a ≤ ls.foldl (fun m p => if m < p.1 then p.1 else m) a ∧
      ∀ p ∈ ls, p.1 ≤ ls.foldl (fun m p => if m < p.1 then p.1 else m) a := by
    intro ls
    induction ls with
    | nil => intro a; exact ⟨le_refl _, fun p hp => nomatch hp⟩
    | cons q ls ih =>
      intro a
      simp only [List.foldl_cons]
      obtain ⟨h1, h2⟩ := ih (if a < q.1 then q.1 else a)
      have ha : a ≤ (if a < q.1 then q.1 else a) ∧ q.1 ≤ (if a < q.1 then q.1 else a) := by split <;> omega
      refine ⟨le_trans ha.1 h1, fun p hp => ?_⟩
      rcases List.mem_cons.1 hp with rfl | hp
      · exact le_trans ha.2 h1
      · exact h2 p hp
  exact (aux ls _).2

theorem minL_mem {ls : List (Int × Nat)} (h : ls ≠ []) (hr : ∀ p ∈ ls, p.1 < 2 ^ 63 - 1) : ∃ p ∈ ls, minL ls = p.1 := by
  have aux : ∀ (ls : List (Int × Nat)) (a : Int), ls.foldl (fun m p => if p.1 < m then p.1 else m) a = a ∨
      ∃ p ∈ ls, ls.foldl (fun m p => if p.1 < m then p.1 else m) a = p.1 := by
    intro ls
    induction ls with
    | nil => intro a; exact Or.inl rfl
    | cons q ls ih =>
      intro a
      simp only [List.foldl_cons]
      rcases ih (if q.1 < a then q.1 else a) with h | ⟨p, hp, h⟩
      · rw [h]
        split
        · exact Or.inr ⟨q, List.mem_cons_self .., rfl⟩
        · exact Or.inl rfl
      · exact Or.inr ⟨p, List.mem_cons_of_mem _ hp, h⟩
  rcases aux ls (2 ^ 63 - 1) with e | e
  · obtain ⟨p, hp⟩ := List.exists_mem_of_ne_nil ls h
    have h1 := minL_le p hp
    have h2 := hr p hp
    unfold minL at h1
    omega
  · exact e

theorem maxL_mem {ls : List (Int × Nat)} (h : ls ≠ []) (hr : ∀ p ∈ ls, -2 ^ 63 < p.1) : ∃ p ∈ ls, maxL ls = p.1 := by
  have aux : ∀ (ls : List (Int × Nat)) (a : Int), ls.foldl (fun m p => if m < p.1 then p.1 else m) a = a ∨
      ∃ p ∈ ls, ls.foldl (fun m p => if m < p.1 then p.1 else m) a = p.1 := by
    intro ls
    induction ls with
    | nil => intro a; exact Or.inl rfl
    | cons q ls ih =>
      intro a
      simp only [List.foldl_cons]
      rcases ih (if a < q.1 then q.1 else a) with h | ⟨p, hp, h⟩
      · rw [h]
        split
        · exact Or.inr ⟨q, List.mem_cons_self .., rfl⟩
        · exact Or.inl rfl
      · exact Or.inr ⟨p, List.mem_cons_of_mem _ hp, h⟩
  rcases aux ls (-2 ^ 63) with e | e
  · obtain ⟨p, hp⟩ := List.exists_mem_of_ne_nil ls h
    have h1 := le_maxL p hp
    have h2 := hr p hp
    unfold maxL at h1
    omega
  · exact e

/-- The last of the entries that match is the first, if there is at most one. -/
theorem foldl_find {P : Int × Nat → Bool} {ls : List (Int × Nat)} (h : ls.Pairwise fun p q => P p = true → P q = true → False) (d : Nat) :
    ls.foldl (fun d p => if P p then p.2 else d) d = match ls.find? P with | some p => p.2 | none => d := by
  induction ls generalizing d with
  | nil => rfl
  | cons p ls ih =>
    rw [List.pairwise_cons] at h
    simp only [List.foldl_cons, List.find?_cons]
    by_cases hp : P p = true
    · rw [if_pos hp, ih h.2, hp]
      have : ls.find? P = none := List.find?_eq_none.2 fun q hq hP => h.1 q hq hp hP
      rw [this]
    · rw [if_neg hp, ih h.2]
      simp [hp]

theorem table_ok {E : Env} {m : Nat} {Cv : Code} {val : List Tok} {t : T} {x : Int} {I : St → Prop} (fv : Frag val Cv)
    (hv : Val E m Cv (rep t x) I) (ht : t.scalar = true) (hx : InR t x) (h4 : t.size ≤ 4) (cs : List (Option Int × Nat)) (n : Nat)
    (hl : labels cs ≠ []) (hr : ∀ p ∈ labels cs, InRange 4 false p.1)
    (hd : (labels cs).Pairwise fun p q => hits t x (some p.1) = true → hits t x (some q.1) = true → False) :
    ∃ D, Frag (tableJump t val cs (dfltIx cs n)) D ∧ ∀ ρ, I ρ → ∃ ρ', exec E m D [] ρ = .br (target t x cs n) [] ρ' ∧ I ρ' := by
  have hw : t.w = .i32 := w_of_le h4
  have hr' : ∀ p ∈ labels cs, -2 ^ 31 ≤ p.1 ∧ p.1 < 2 ^ 31 := by
    intro p hp
    have := hr p hp
    simpa [InRange] using this
  obtain ⟨pm, hpm, em⟩ := minL_mem hl fun p hp => by have := hr' p hp; omega
  obtain ⟨px, hpx, ex⟩ := maxL_mem hl fun p hp => by have := hr' p hp; omega
  have rm := hr' pm hpm
  have rx := hr' px hpx
  rw [← em] at rm
  rw [← ex] at rx
  have hmx : minL (labels cs) ≤ maxL (labels cs) := by rw [em]; exact le_maxL pm hpm
  generalize htb : (List.range (maxL (labels cs) - minL (labels cs) + 1).toNat).map (fun (i : Nat) =>
    (labels cs).foldl (fun d p => if p.1 - minL (labels cs) = (i : Int) then p.2 else d) (dfltIx cs n)) = tbl
  -- the code
  let os : List Op := (if minL (labels cs) ≠ 0 then [.const t.w (minL (labels cs)), .bin t.w .sub] else []) ++ [.brTable tbl (dfltIx cs n)]
  refine ⟨Cv.app (line os), ?_, fun ρ hρ => ?_⟩
  · have h3 : Frag (os.map .op) (line os) := by
      refine frag_line ?_
      intro o ho
      simp only [os, List.mem_append, List.mem_singleton] at ho
      rcases ho with ho | rfl
      · split at ho
        · simp only [List.mem_cons, List.not_mem_nil, or_false] at ho
          rcases ho with rfl | rfl
          · simp only [Op.wf, hw, VT.bits, decide_eq_true_eq]
            exact rm
          · rfl
        · exact nomatch ho
      · rfl
    have := fv.append h3
    unfold tableJump
    dsimp only
    rw [htb]
    have hs : ¬ t.size > 4 := by omega
    simp only [hs, if_false, List.append_nil]
    have e : os.map Tok.op = (if minL (labels cs) ≠ 0 then [Tok.op (.const t.w (minL (labels cs))), Tok.op (.bin t.w .sub)] else []) ++ [Tok.op (.brTable tbl (dfltIx cs n))] := by
      simp only [os, List.map_append]
      split <;> rfl
    rw [e] at this
    simpa using this
  · obtain ⟨ρ1, e1, i1⟩ := hv [] ρ hρ
    refine ⟨ρ1, ?_, i1⟩
    rw [exec_app, e1]
    simp only [Res.bind]
    rw [exec_line]
    -- the index
    generalize hi : pat 32 (x - minL (labels cs)) = i
    have e2 : runL E os [rep t x] ρ1 = .br (tbl.getD i (dfltIx cs n)) [] ρ1 := by
      simp only [os]
      by_cases h0 : minL (labels cs) ≠ 0
      · rw [if_pos h0]
        simp only [List.cons_append, List.nil_append, runL, Res.bind, step, rep, hw, VT.bits, and_self, if_true, binOp]
        have : pat 32 (((pat 32 x : Nat) : Int) - ((pat 32 (minL (labels cs)) : Nat) : Int)) = i := by
          rw [← hi, emod_iff, pat_cast, pat_cast]
          omega
        rw [this]
      · have h0' : minL (labels cs) = 0 := by omega
        rw [if_neg h0]
        simp only [List.nil_append, runL, Res.bind, step, rep, hw, VT.bits, if_true]
        rw [← hi, h0']
        simp
    rw [e2]
    congr 1
    -- the entry
    have hP : ∀ p ∈ labels cs, (p.1 - minL (labels cs) = (i : Int)) ↔ hits t x (some p.1) = true := by
      intro p hp
      rw [hits_iff ht hx, hw, show VT.i32.bits = 32 from rfl, emod_iff, ← hi, pat_cast]
      have a1 := minL_le p hp
      have a2 := hr' p hp
      omega
    have hf : (labels cs).foldl (fun d p => if p.1 - minL (labels cs) = (i : Int) then p.2 else d) (dfltIx cs n) = target t x cs n := by
      unfold target
      rw [← foldl_find hd]
      refine List.foldl_ext _ _ _ fun d p hp => ?_
      by_cases h : p.1 - minL (labels cs) = (i : Int)
      · rw [if_pos h, if_pos ((hP p hp).1 h)]
      · rw [if_neg h, if_neg (fun q => h ((hP p hp).2 q))]
    by_cases hlt : i < (maxL (labels cs) - minL (labels cs) + 1).toNat
    · rw [← htb, List.getD_eq_getElem _ _ (by simpa using hlt)]
      simp only [List.getElem_map, List.getElem_range]
      exact hf
    · rw [List.getD_eq_default _ _ (by rw [← htb]; simpa using hlt)]
      unfold target
      have : (labels cs).find? (fun p => hits t x (some p.1)) = none := by
        refine List.find?_eq_none.2 fun p hp hh => ?_
        have a := (hP p hp).2 hh
        have b := le_maxL p hp
        omega
      rw [this]

/-! ## The switch -/

theorem segNo_fst (k : Nat) (cs : List (Option Int × Bool)) : (segNo k cs).map (·.1) = cs.map (·.1) := by
  induction cs generalizing k with
  | nil => rfl
  | cons p cs ih =>
    obtain ⟨v, l⟩ := p
    cases l <;> simp [segNo, ih]

theorem filter_fst {α : Type} (cs : List (Option Int × α)) : (cs.filter (·.1 = none)).length = ((cs.map (·.1)).filter (· = none)).length := by
  induction cs with
  | nil => rfl
  | cons p cs ih =>
    obtain ⟨v, l⟩ := p
    cases v <;> simp [ih]

theorem mem_labels {cs : List (Option Int × Nat)} {p : Int × Nat} (h : p ∈ labels cs) : some p.1 ∈ cs.map (·.1) := by
  simp only [labels, List.mem_filterMap] at h
  obtain ⟨q, hq, e⟩ := h
  cases hv : q.1 with
  | none => rw [hv] at e; simp at e
  | some v =>
    rw [hv] at e
    simp only [Option.map_some, Option.some.injEq] at e
    subst e
    exact List.mem_map.2 ⟨q, hq, hv⟩

theorem labels_len (cs : List (Option Int × Nat)) : (labels cs).length + (cs.filter (·.1 = none)).length = cs.length := by
  induction cs with
  | nil => rfl
  | cons p cs ih =>
    obtain ⟨v, j⟩ := p
    cases v with
    | none => simp [labels] at ih ⊢; omega
    | some v => simp [labels] at ih ⊢; omega

theorem like_hits {t u : T} (h : like t u = true) (x : Int) (v : Option Int) : hits t x v = hits u x v := by
  unfold hits
  rw [like_size h, like_uns h]

theorem like_pick {β : Type} {t u : T} (h : like t u = true) (x : Int) (l : List (Option Int × β)) : pick t x l = pick u x l := by
  unfold pick
  have : (fun p : Option Int × β => hits t x p.1) = fun p => hits u x p.1 := funext fun p => like_hits h x p.1
  rw [this]

/-- The code of the jump.  The type of the code may be another that is held alike. -/
theorem dispatch_ok {E : Env} {m : Nat} {Cv : Code} {val : List Tok} {t u : T} {x : Int} {I : St → Prop} (fv : Frag val Cv)
    (hv : Val E m Cv (rep t x) I) (ht : t.scalar = true) (hx : InR t x) (lk : like t u = true) {cs : List (Option Int × Bool)} (hl : labsOk u cs = true) (n : Nat) :
    ∃ D, Frag (dispatch t val (segNo 0 cs) n) D ∧ ∀ ρ, I ρ → ∃ ρ', exec E m D [] ρ =
      .br (match pick u x (segNo 0 cs) with | some q => q - 1 | none => n) [] ρ' ∧ I ρ' := by
  simp only [labsOk, Bool.and_eq_true, List.all_eq_true, decide_eq_true_eq, Bool.or_eq_true, Bool.not_eq_true'] at hl
  obtain ⟨⟨⟨h1, h2⟩, h3⟩, h4⟩ := hl
  have hcount : ((segNo 0 cs).filter (·.1 = none)).length ≤ 1 := by
    rw [filter_fst, segNo_fst, ← filter_fst]
    exact h3
  have hr : ∀ p ∈ labels (segNo 0 cs), InRange (if t.size ≤ 4 then 4 else 8) false p.1 := by
    intro p hp
    have := mem_labels hp
    rw [segNo_fst] at this
    obtain ⟨q, hq, e⟩ := List.mem_map.1 this
    have := h1 q hq
    rw [e] at this
    rw [like_size lk]
    simpa using this
  have hwf : ∀ p ∈ labels (segNo 0 cs), Op.wf (.const t.w p.1) = true := by
    intro p hp
    have := hr p hp
    simp only [Op.wf, decide_eq_true_eq]
    by_cases h : t.size ≤ 4
    · rw [if_pos h] at this
      rw [w_of_le h]
      simpa [InRange, VT.bits] using this
    · rw [if_neg h] at this
      rw [w_of_gt h]
      simpa [InRange, VT.bits] using this
  rw [← like_pick lk, ← target_pick hcount]
  unfold dispatch
  dsimp only
  by_cases htab : useTable (segNo 0 cs) = true
  · rw [if_pos htab]
    have h4 : t.size ≤ 4 := by
      rw [like_size lk]
      rcases h4 with h4 | h4
      · exact h4
      · rw [htab] at h4; exact absurd h4 (by simp)
    rw [if_pos h4] at hr
    refine table_ok fv hv ht hx h4 _ n ?_ hr ?_
    · intro q
      have := labels_len (segNo 0 cs)
      rw [q] at this
      simp only [useTable, Bool.and_eq_true, decide_eq_true_eq] at htab
      simp only [List.length_nil] at this
      omega
    · have := List.pairwise_map.1 h2
      refine this.imp fun {p q} hpq a b => hpq ?_
      rw [like_hits lk] at a b
      simp only [hits, decide_eq_true_eq] at a b
      rw [← a, ← b]
  · rw [if_neg htab]
    obtain ⟨D, fD, hD⟩ := chain_ok (E := E) (m := m) fv hv ht hx (frag_br (dfltIx (segNo 0 cs) n)) (labels (segNo 0 cs)) hwf
    refine ⟨D, fD, fun ρ hρ => ?_⟩
    have := hD ρ hρ
    unfold target
    cases hf : (labels (segNo 0 cs)).find? fun p => hits t x (some p.1) with
    | some p => rw [hf] at this; exact this
    | none =>
      rw [hf] at this
      obtain ⟨ρ', e, i⟩ := this
      exact ⟨ρ', e, i⟩

theorem Frag.unique {ts : List Tok} {C D : Code} (h : Frag ts C) (h' : Frag ts D) : C = D := by
  have a := h [] .done none [] rfl
  have b := h' [] .done none [] rfl
  rw [a] at b
  simpa [Code.app_done] using b

/-- The same code for every value. -/
theorem dispatch_all {E : Env} {m : Nat} {Cv : Code} {val : List Tok} {t u : T} (fv : Frag val Cv) (ht : t.scalar = true) (lk : like t u = true)
    {cs : List (Option Int × Bool)} (hl : labsOk u cs = true) (n : Nat) :
    ∃ D, Frag (dispatch t val (segNo 0 cs) n) D ∧ ∀ (x : Int) (I : St → Prop), InR t x → Val E m Cv (rep t x) I → ∀ ρ, I ρ →
      ∃ ρ', exec E m D [] ρ = .br (match pick u x (segNo 0 cs) with | some q => q - 1 | none => n) [] ρ' ∧ I ρ' := by
  have h0 : InR t 0 := by
    have := conv_range (tsz ht) t.uns 0
    rwa [show conv t.size t.uns 0 = 0 by
      rcases tsz ht with e | e | e | e <;> rw [e] <;> cases t.uns <;> decide] at this
  obtain ⟨D, fD, -⟩ := dispatch_ok (E := E) (m := m) (I := fun _ => False) (x := 0) fv (fun _ _ h => h.elim) ht h0 lk hl n
  refine ⟨D, fD, fun x I hx hv ρ hρ => ?_⟩
  obtain ⟨D', fD', hD'⟩ := dispatch_ok (E := E) (m := m) fv hv ht hx lk hl n
  obtain rfl := Frag.unique fD fD'
  exact hD' ρ hρ

theorem dispatch_like {t u : T} (h : like t u = true) (val : List Tok) (cs : List (Option Int × Nat)) (n : Nat) : dispatch t val cs n = dispatch u val cs n := by
  unfold dispatch tableJump
  rw [w_like h, like_size h]

theorem leads_nil : leads [] = 0 := rfl

theorem simple_ev {c : Ctx} {e : X} (h : e.simple = true) (need : Bool) (σ : State) : ev c need e σ = .ub ∨ ∃ x, ev c need e σ = .val x σ := by
  cases e <;> simp [X.simple] at h
  · exact Or.inr ⟨_, rfl⟩
  · rename_i t x
    simp only [ev, getO]
    split
    · exact Or.inr ⟨_, rfl⟩
    · split
      · exact Or.inr ⟨_, rfl⟩
      · exact Or.inl rfl

theorem ok_switch {c : Ctx} (hc : FnOk c) {m : Nat} {e : X} {s : S} (ih : PS c m s) : PS c m (.switch e s) := by
  intro V iS sub n hV hw hn
  simp only [wtS, Bool.and_eq_true] at hw
  obtain ⟨⟨⟨⟨we, se⟩, fe⟩, ws⟩, hl⟩ := hw
  have m1 := trav_mono c.Γ e true n
  have m2 := travS_mono c.Γ s (trav c.Γ true e n).2
  let V' : Lv := { V with last := false, iB := true, b := V.d, d := V.d + 1 }
  have hV' : V'.Ok := ⟨fun _ => Nat.lt_succ_self _, fun q => Nat.lt_succ_of_lt (hV.k q), fun _ => Nat.succ_le_succ (Nat.zero_le _)⟩
  obtain ⟨⟨X, lX, sX, rX, fX⟩, dX⟩ := ih V' true false (trav c.Γ true e n).2 hV' ws (by omega)
  have ed : V'.d + leads (cases false s) = V.d + leads (cases false s) + 1 := by show V.d + 1 + _ = _; omega
  rw [ed] at sX dX
  obtain ⟨X0, Xs, rfl⟩ : ∃ X0 Xs, X = X0 :: Xs := by
    cases X with
    | nil => simp at lX
    | cons a b => exact ⟨a, b, rfl⟩
  have lXs : Xs.length = leads (cases false s) := by simpa using lX
  -- the whole, given the jump
  have fin : ∀ (ts : List Tok) (D : Code) (n' : Nat), Frag ts D → (travS c.Γ s (trav c.Γ true e n).2).2 ≤ n' →
      (∀ σ ρ, Sim c σ ρ →
        match ev c true e σ with
        | .val x σ' => ∃ ρ', exec c.E m D [] ρ = .br (match pick e.ty x (segNo 0 (cases false s)) with
            | some q => q - 1 | none => leads (cases false s)) [] ρ' ∧ Sim c σ' ρ' ∧ Keep c n n' ρ ρ'
        | .stop => exec c.E m D [] ρ = .stop
        | .ub => True) →
      OkB c m V n n' (List.replicate (leads (cases false s) + 1) (.block none) ++ (ts ++
        (genS c.Γ V.K false false (V.d + leads (cases false s) + 1) V.d V.k (travS c.Γ s (trav c.Γ true e n).2).1).1 ++ [.end_]))
        (acts c m (.switch e s)) [] (!sub) := by
    intro ts D n' fD hn' hD
    have hseg := (Segs.frag.2 fD).append sX
    have hj : join [D] (X0 :: Xs) = D.app X0 :: Xs := rfl
    rw [hj] at hseg
    have hfr := Frag.block (t := none) hseg.fold
    rw [lXs] at hfr
    refine OkB.one (by simpa [List.replicate_succ] using hfr) fun σ ρ hs => ?_
    have h := hD σ ρ hs
    rw [exec_block]
    cases hx : ev c true e σ with
    | ub => trivial
    | stop =>
      rw [hx] at h
      have h : exec c.E m D [] ρ = .stop := h
      rw [run_fold, exec_app, h]
      rfl
    | val x σ1 =>
      rw [hx] at h
      obtain ⟨ρ1, e1, s1, k1⟩ := h
      refine PG.pre k1 ?_
      rw [run_fold, exec_app, e1]
      simp only [Res.bind, Ou.fl]
      rcases pick_rel (fun p q h => h.1) fX e.ty x with ⟨q1, q2⟩ | ⟨v, p, q, hpq, q1, q2⟩
      · rw [q1, q2, lXs]
        simp only [lt_irrefl, if_false, Nat.sub_self]
        exact PG.intro_go s1 rfl
      · rw [q1, q2]
        obtain ⟨-, hq1, hq2, hq⟩ := hpq
        have hq1 : 1 ≤ q := hq1 rfl
        have hq2 : q ≤ leads (cases false s) := hq2
        simp only
        rw [if_pos (by omega)]
        have hq := hq σ1 ρ1 s1
        rw [show (X0 :: Xs).drop (v, q).2 = Xs.drop (q - 1) by
          show (X0 :: Xs).drop q = _
          obtain ⟨j, rfl⟩ : ∃ j, q = j + 1 := ⟨q - 1, by omega⟩
          rfl] at hq
        generalize exec c.E m (Verif.Wasm.fold (Xs.drop (q - 1))) [] ρ1 = r at hq ⊢
        rw [Fl.out_elim]
        refine PG.step hq (by omega) hn' (Verif.Wasm.leave none [] Res.ok) rfl rfl ?_ ?_ ?_ ?_
        · intro σ ρ' hs q
          have q : r = .ok [] ρ' := q
          subst q
          exact PG.intro_go hs rfl
        · rintro σ ρ' hs ⟨-, rfl⟩
          refine PG.intro_go hs ?_
          show Verif.Wasm.leave none [] Res.ok (.br (V.d + 1 - V.d - 1) [] ρ') = _
          rw [show V.d + 1 - V.d - 1 = 0 by omega]
          rfl
        · rintro σ ρ' hs ⟨q1, rfl⟩
          exact PG.intro_cont hs ⟨q1, br_leave (hV.k q1) ..⟩
        · rintro v σ ρ' hs ⟨q1, ⟨q2, _⟩ | rfl⟩
          · exact absurd q2 (by simp [V'])
          · exact PG.intro_ret hs ⟨q1, Or.inr (retAt_leave hV.f ..)⟩
  have dX : (genS c.Γ V.K false false (V.d + leads (cases false s) + 1) V.d V.k (travS c.Γ s (trav c.Γ true e n).2).1).2 = V.d + 1 := dX
  by_cases hs : e.simple = true
  · have et := trav_simple_eq c.Γ hs true n
    have hsv : ∀ Γ, switchVal Γ e = ([], e) := by
      intro Γ
      cases e <;> simp [X.simple] at hs <;> rfl
    obtain ⟨C, fC, hC⟩ := (okX hc e).1 true n we hn
    rw [et] at fC hC dX fin
    have cn : ∀ b, cases b (S.switch e s) = [] := fun _ => rfl
    simp only [travS, et, hs, if_true, genS, cases_trav, hsv, dX, and_self, cn, leads_nil, Nat.add_zero, List.nil_append]
    obtain ⟨D, fD, hD⟩ := dispatch_all (E := c.E) (m := m) fC se (like_refl _) hl (leads (cases false s))
    refine ⟨fin _ D _ fD (le_refl _) fun σ ρ hsim => ?_, trivial⟩
    rcases simple_ev (c := c) hs true σ with h | ⟨x, h⟩
    · rw [h]; trivial
    · rw [h]
      have hx : InR e.ty x := by
        have := hC m [] σ ρ hsim
        rw [h] at this
        exact this.1 rfl se
      obtain ⟨ρ', e1, i1⟩ := hD x (fun ρ' => Sim c σ ρ' ∧ Keep c n (travS c.Γ s n).2 ρ ρ') hx (fun s' ρ1 ⟨s1, k1⟩ => by
        have := hC m s' σ ρ1 s1
        rw [h] at this
        obtain ⟨-, ρ2, e2, s2, k2⟩ := this
        dsimp only at e2
        rw [stk_true se] at e2
        exact ⟨ρ2, e2, s2, k1.trans (k2.mono (le_refl _) (by have : n ≤ (travS c.Γ s n).2 := travS_mono c.Γ s n; exact this))⟩) ρ ⟨hsim, Keep.refl ..⟩
      exact ⟨ρ', e1, i1⟩
  · have hs' : (trav c.Γ true e n).1.simple = false := by rw [trav_simple]; simpa using hs
    have cn : ∀ b, cases b (S.switch e s) = [] := fun _ => rfl
    have lk := trav_ty c e true n we
    obtain ⟨C, fC, hC⟩ := (okX hc e).1 true n we hn
    have hx0 : c.Γ.n0 ≤ (travS c.Γ s (trav c.Γ true e n).2).2 := by omega
    generalize ht : (trav c.Γ true e n).1.ty = t at *
    generalize hx1 : (travS c.Γ s (trav c.Γ true e n).2).2 = xt at *
    have gv : gen c.Γ true (.var t xt) = [.op (.lget (c.Γ.ix xt))] := by
      simp only [gen, genVar, hc.tmp xt hx0, if_true]
    have g0 : gen c.Γ false (.var t xt) = [] := by simp [gen]
    simp only [travS, hs', Bool.false_eq_true, if_false, cn, leads_nil, Nat.add_zero]
    simp only [genS, cases_trav, switchVal, dX, and_self, cn, leads_nil, Nat.add_zero, gen_comma, gen_asgTmp hc false hx0,
      g0, List.append_nil, gv, X.simple, if_true, ht, hx1, X.ty]
    rw [dispatch_like lk]
    obtain ⟨D, fD, hD⟩ := dispatch_all (E := c.E) (m := m) (val := [.op (.lget (c.Γ.ix xt))]) (Cv := line [.lget (c.Γ.ix xt)]) (frag_line (os := [.lget (c.Γ.ix xt)]) (by simp [Op.wf])) se (like_refl _) hl (leads (cases false s))
    refine ⟨fin _ (C.app ((line [.lset (c.Γ.ix xt)]).app D)) (xt + 1) ?_ (Nat.le_succ _) fun σ ρ hsim => ?_, trivial⟩
    · have := fC.append ((frag_line (os := [.lset (c.Γ.ix xt)]) (by simp [Op.wf])).append fD)
      simpa using this
    · have h := hC m [] σ ρ hsim
      rw [exec_app]
      cases hx : ev c true e σ with
      | ub => trivial
      | stop =>
        rw [hx] at h
        have h : exec c.E m C [] ρ = .stop := h
        rw [h]; rfl
      | val x σ1 =>
        rw [hx] at h
        obtain ⟨g1, ρ1, e1, s1, k1⟩ := h
        dsimp only at e1
        rw [stk_true se] at e1
        have hxr : InR e.ty x := g1 rfl se
        rw [e1]
        simp only [Res.bind]
        rw [exec_app, exec_line]
        simp only [runL, Res.bind, step]
        obtain ⟨ρ', e2, i2⟩ := hD x (fun ρ' => ρ' = setLoc ρ1 (c.Γ.ix xt) (rep e.ty x)) hxr (fun s' ρ2 q => by
          subst q
          refine ⟨_, ?_, rfl⟩
          rw [exec_line]
          simp [runL, Res.bind, step, setLoc]) _ rfl
        subst i2
        exact ⟨_, e2, s1.setTmp hc hx0 _, (k1.mono (le_refl _) (by omega)).trans (Keep.setTmp hc ρ1 hx0 (by omega) (Nat.lt_succ_self _) _)⟩

/-! ## All statements -/

def PL (c : Ctx) (m : Nat) (l : L) : Prop :=
  ∀ (V : Lv) (iS : Bool) (n : Nat), V.Ok → wtL' c V.K V.last V.iB V.iC iS l = true → c.Γ.n0 ≤ n →
    OkB c m V n (travL c.Γ l n).2 (genL c.Γ V.K V.last (V.d + leads (casesL l)) V.b V.k (travL c.Γ l n).1).1 (actsL c m l) (casesL l) true ∧
    (genL c.Γ V.K V.last (V.d + leads (casesL l)) V.b V.k (travL c.Γ l n).1).2 = V.d

theorem ok_case {c : Ctx} {m : Nat} {v : Option Int} {s : S} (ih : PS c m s) : PS c m (.case v s) := by
  intro V iS sub n hV hw hn
  simp only [wtS, Bool.and_eq_true] at hw
  obtain ⟨h, hd⟩ := ih V iS true n hV hw.2 hn
  cases sub with
  | true =>
    have e : leads (cases true (.case v s)) = leads (cases true s) := by simp [cases, leads]
    rw [e]
    simp only [travS, genS, if_true, List.nil_append]
    exact ⟨OkB.lab h, hd⟩
  | false =>
    have e : V.d + leads (cases false (.case v s)) - 1 = V.d + leads (cases true s) := by simp [cases, leads]
    simp only [travS, genS, Bool.false_eq_true, if_false, e]
    exact ⟨OkB.lead h, hd⟩

theorem okB_empty {c : Ctx} {m : Nat} {V : Lv} {n : Nat} {pos : Bool} : OkB c m V n n [] [] [] pos :=
  ⟨[.done], rfl, Segs.frag.2 Frag.nil, fun σ ρ hs => by rw [fold_one]; exact PG.intro_go hs rfl, List.Forall₂.nil⟩

mutual
theorem okS {c : Ctx} (hc : FnOk c) {m : Nat} (hm : 0 < m) : ∀ s : S, PS c m s
  | .skip => fun V iS sub n _ _ _ => ⟨okB_empty, rfl⟩
  | .expr e => fun V iS sub n _ hw hn => by
    obtain ⟨C, fC, hC⟩ := (okX hc e).1 false n hw hn
    refine ⟨OkB.one (C := C.app .done) (by rw [Code.app_done]; exact fC) fun σ ρ hs => ?_, rfl⟩
    refine PG.fl (hC m [] σ ρ hs) (le_refl _) (le_refl _) fun v σ1 ρ1 _ s1 => ?_
    rw [stk_false]
    exact PG.intro_go s1 rfl
  | .ret e => fun V iS sub n _ hw hn => ⟨ok_ret hc m V hw hn, rfl⟩
  | .block l => fun V iS sub n hV hw hn => by
    obtain ⟨h, hd⟩ := okLs hc hm l V iS n hV hw hn
    refine ⟨?_, hd⟩
    cases sub with
    | false => exact h
    | true => exact h.pos
  | .when x a => ok_when hc (okS hc hm a)
  | .ite x a b => ok_ite hc (okS hc hm a) (okS hc hm b)
  | .switch e s => ok_switch hc (okS hc hm s)
  | .case v s => ok_case (okS hc hm s)
  | .while_ x s => ok_while hc hm (okS hc hm s)
  | .doWhile s x => ok_doWhile hc (okS hc hm s)
  | .for_ p x q s => ok_for hc hm (okS hc hm s)
  | .brk => fun V iS sub n hV hw _ => by
    have hb := hV.b hw
    have e : leads (cases sub .brk) = 0 := rfl
    simp only [travS, genS, e, Nat.add_zero, hb, if_true]
    exact ⟨OkB.one (frag_br _) fun σ ρ hs => PG.intro_brk hs ⟨hw, rfl⟩, trivial⟩
  | .cont => fun V iS sub n hV hw _ => by
    have hb := hV.k hw
    have e : leads (cases sub .cont) = 0 := rfl
    simp only [travS, genS, e, Nat.add_zero, hb, if_true]
    exact ⟨OkB.one (frag_br _) fun σ ρ hs => PG.intro_cont hs ⟨hw, rfl⟩, trivial⟩
theorem okLs {c : Ctx} (hc : FnOk c) {m : Nat} (hm : 0 < m) : ∀ l : L, PL c m l
  | .nil => fun V iS n _ _ _ => ⟨okB_empty, rfl⟩
  | .cons s .nil => fun V iS n hV hw hn => by
    have h := okS hc hm s V iS false n hV hw hn
    simp only [travL, genL, casesL, actsL, List.append_nil]
    exact h
  | .cons s (.cons s' l) => fun V iS n hV hw hn => by
    simp only [wtL', Bool.and_eq_true] at hw
    have m1 := travS_mono c.Γ s n
    have m2 := travL_mono c.Γ (.cons s' l) (travS c.Γ s n).2
    obtain ⟨h1, d1⟩ := okS hc hm s { V with last := false, d := V.d + leads (casesL (.cons s' l)) } iS false n
      ⟨fun q => Nat.lt_add_right _ (hV.b q), fun q => Nat.lt_add_right _ (hV.k q), fun q => Nat.le_add_right_of_le (hV.f q)⟩ hw.1 hn
    obtain ⟨h2, d2⟩ := okLs hc hm (.cons s' l) V iS (travS c.Γ s n).2 hV hw.2 (by omega)
    have ed : V.d + leads (casesL (.cons s (.cons s' l))) = V.d + leads (casesL (.cons s' l)) + leads (cases false s) := by
      rw [casesL, leads_append]; omega
    have et : (travL c.Γ (.cons s (.cons s' l)) n) = (.cons (travS c.Γ s n).1 (travL c.Γ (.cons s' l) (travS c.Γ s n).2).1, (travL c.Γ (.cons s' l) (travS c.Γ s n).2).2) := rfl
    obtain ⟨a, b, ec⟩ : ∃ a b, (travL c.Γ (.cons s' l) (travS c.Γ s n).2).1 = .cons a b := ⟨_, _, rfl⟩
    have ek : casesL (.cons s (.cons s' l)) = cases false s ++ casesL (.cons s' l) := rfl
    have ea : actsL c m (.cons s (.cons s' l)) = acts c m s ++ actsL c m (.cons s' l) := rfl
    rw [ed, et, ek, ea]
    rw [ec] at h2 d2 ⊢
    dsimp only at d1 h1
    simp only [genL]
    rw [d1]
    exact ⟨OkB.append hV h1 h2 m1 m2, d2⟩
end

end Verif.WasmGen

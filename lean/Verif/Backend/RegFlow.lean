import Verif.Backend.Intervals

/-
C51: register flow analysis.

Model of `insert_vreg_into_vec`, `propagate_out_regs` and `analyze_reg_flow`
(src/cc/backend/ir.c:461-541). A virtual register is represented by its number `virt`; a block by its
position in the container. Phi functions are not modelled (`bb->phis == NULL`): they have been
replaced by moves when registers are allocated. `from_bbs` is an argument; the edges themselves are
computed by `detect_from_bbs`.
-/

namespace Verif.RegFlow

open Verif.Intervals (Ir)

/-- ir.c:462-469: the binary search of `insert_vreg_into_vec`. `lo` stands for the C variable plus
one; `none` is `return false`. -/
def search (vs : List Nat) (v : Nat) (lo hi : Nat) : Option Nat :=
  if _h : lo < hi then
    let m := lo + (hi - lo + 1) / 2 - 1
    let mid := vs.getD m 0
    if mid < v then search vs v (m + 1) hi
    else if mid > v then search vs v lo m
    else none
  else some hi
termination_by hi - lo
decreasing_by all_goals omega

/-- ir.c:461-474 `insert_vreg_into_vec`: the vector and the returned flag. -/
def insertVec (vs : List Nat) (v : Nat) : List Nat × Bool :=
  match search vs v 0 vs.length with
  | none => (vs, false)
  | some k => (vs.take k ++ v :: vs.drop k, true)

/-- `in_regs`, `out_regs` of every block. -/
structure Flow where
  ins : Nat → List Nat
  outs : Nat → List Nat

/-- Point update of a table of vectors. -/
def upd (f : Nat → List Nat) (b : Nat) (l : List Nat) : Nat → List Nat :=
  fun c => if c = b then l else f c

/-- ir.c:512-525: `in_regs` and `assigned_regs` of one block. -/
def enumOne (acc : List Nat × List Nat) (ir : Ir) : List Nat × List Nat :=
  let ins := (ir.opr1.toList ++ ir.opr2.toList).foldl
    (fun ins v => if acc.2.contains v then ins else (insertVec ins v).1) acc.1
  let asg := match ir.dst with
    | some v => (insertVec acc.2 v).1
    | none => acc.2
  (ins, asg)

/-- ir.c:488-526. -/
def enumBlock (irs : List Ir) : List Nat × List Nat := irs.foldl enumOne ([], [])

/-- ir.c:476-484 `propagate_out_regs`. `vec_pop` takes the last element. `none`: out of fuel. -/
def propagate (frm : Nat → List Nat) (asg : Nat → List Nat) (v : Nat) :
    Nat → List Nat → Flow → Option Flow
  | 0, _, _ => none
  | fuel + 1, froms, fl =>
    match froms.getLast? with
    | none => some fl
    | some b =>
      let rest := froms.dropLast
      let outs := upd fl.outs b (insertVec (fl.outs b) v).1
      if (asg b).contains v then propagate frm asg v fuel rest { fl with outs := outs }
      else
        let (l, isNew) := insertVec (fl.ins b) v
        if isNew then
          propagate frm asg v fuel (rest ++ frm b) { ins := upd fl.ins b l, outs := outs }
        else propagate frm asg v fuel rest { fl with outs := outs }

/-- ir.c:534-539: the loop over `in_regs` of one block. The vector is read again for every index,
and does not change while the loop runs (see `propagate_ins_self`); the model iterates over the
vector as it is before the loop. -/
def flowRegs (frm : Nat → List Nat) (asg : Nat → List Nat) (fuel : Nat) (b : Nat) :
    List Nat → Flow → Option Flow
  | [], fl => some fl
  | v :: vs, fl =>
    match propagate frm asg v fuel (frm b) fl with
    | none => none
    | some fl' => flowRegs frm asg fuel b vs fl'

/-- ir.c:530-540: the loop over the blocks, from the last one. -/
def flowBlocks (frm : Nat → List Nat) (asg : Nat → List Nat) (fuel : Nat) :
    Nat → Flow → Option Flow
  | 0, fl => some fl
  | b + 1, fl =>
    match flowRegs frm asg fuel b (fl.ins b) fl with
    | none => none
    | some fl' => flowBlocks frm asg fuel b fl'

/-- ir.c:486-541 `analyze_reg_flow` for `n` blocks. -/
def analyze (irs : Nat → List Ir) (frm : Nat → List Nat) (n fuel : Nat) : Option Flow :=
  flowBlocks frm (fun b => (enumBlock (irs b)).2) fuel n
    { ins := fun b => (enumBlock (irs b)).1, outs := fun _ => [] }

/-! ### Specification: liveness -/

/-- `v` is read in the block before it is written there. -/
def UseBeforeDef (irs : List Ir) (v : Nat) : Prop :=
  ∃ pre ir post, irs = pre ++ ir :: post ∧ (ir.opr1 = some v ∨ ir.opr2 = some v) ∧
    ∀ i ∈ pre, i.dst ≠ some v

/-- `v` is written in the block. -/
def Writes (irs : List Ir) (v : Nat) : Prop := ∃ ir ∈ irs, ir.dst = some v

/-- `v` is live at the start of block `b`: some path from there reads it before writing it. -/
inductive LiveIn (irs : Nat → List Ir) (frm : Nat → List Nat) (v : Nat) : Nat → Prop
  | use {b} : UseBeforeDef (irs b) v → LiveIn irs frm v b
  | step {b c} : b ∈ frm c → ¬ Writes (irs b) v → LiveIn irs frm v c → LiveIn irs frm v b

/-! ### The sorted vector -/

theorem search_spec {vs : List Nat} {v : Nat} (hs : vs.Pairwise (· < ·)) :
    ∀ (lo hi : Nat), lo ≤ hi → hi ≤ vs.length →
      (∀ (i : Nat) (h : i < vs.length), i < lo → vs[i] < v) →
      (∀ (i : Nat) (h : i < vs.length), hi ≤ i → v < vs[i]) →
      match search vs v lo hi with
      | none => v ∈ vs
      | some k => k ≤ vs.length ∧ (∀ (i : Nat) (h : i < vs.length), i < k → vs[i] < v) ∧
          (∀ (i : Nat) (h : i < vs.length), k ≤ i → v < vs[i]) := by
  intro lo hi
  induction lo, hi using search.induct (vs := vs) (v := v) with
  | case1 lo hi h m mid hlt ih =>
    intro h1 h2 h3 h4
    rw [search]
    have hm : m < vs.length := by omega
    have hmid : mid = vs[m] := by
      simp only [mid, List.getD_eq_getElem?_getD, List.getElem?_eq_getElem hm, Option.getD_some]
    simp only [dif_pos h]
    rw [if_pos hlt]
    refine ih (by omega) h2 ?_ h4
    intro i hi hlt'
    by_cases e : i = m
    · subst e; omega
    · have := List.pairwise_iff_getElem.1 hs i m hi hm (by omega)
      omega
  | case2 lo hi h m mid hn hgt ih =>
    intro h1 h2 h3 h4
    rw [search]
    have hm : m < vs.length := by omega
    have hmid : mid = vs[m] := by
      simp only [mid, List.getD_eq_getElem?_getD, List.getElem?_eq_getElem hm, Option.getD_some]
    simp only [dif_pos h]
    rw [if_neg hn, if_pos hgt]
    refine ih (by omega) (by omega) h3 ?_
    intro i hi hle
    by_cases e : i = m
    · subst e; omega
    · have := List.pairwise_iff_getElem.1 hs m i hm hi (by omega)
      omega
  | case3 lo hi h m mid hn hgt =>
    intro h1 h2 h3 h4
    rw [search]
    have hm : m < vs.length := by omega
    have hmid : mid = vs[m] := by
      simp only [mid, List.getD_eq_getElem?_getD, List.getElem?_eq_getElem hm, Option.getD_some]
    simp only [dif_pos h]
    rw [if_neg hn, if_neg hgt]
    have : v = vs[m] := by omega
    rw [this]; exact List.getElem_mem hm
  | case4 lo hi h =>
    intro h1 h2 h3 h4
    rw [search]
    simp only [dif_neg h]
    exact ⟨h2, fun i hi hlt => h3 i hi (by omega), h4⟩

theorem mem_take_lt {vs : List Nat} {k v : Nat}
    (h : ∀ (i : Nat) (h : i < vs.length), i < k → vs[i] < v) : ∀ x ∈ vs.take k, x < v := by
  intro x hx
  obtain ⟨i, hi, rfl⟩ := List.mem_iff_getElem.1 hx
  rw [List.length_take] at hi
  rw [List.getElem_take]
  exact h i (by omega) (by omega)

theorem mem_drop_gt {vs : List Nat} {k v : Nat}
    (h : ∀ (i : Nat) (h : i < vs.length), k ≤ i → v < vs[i]) : ∀ x ∈ vs.drop k, v < x := by
  intro x hx
  obtain ⟨i, hi, rfl⟩ := List.mem_iff_getElem.1 hx
  rw [List.length_drop] at hi
  rw [List.getElem_drop]
  exact h _ (by omega) (by omega)

/-- Insertion into the sorted vector: the vector stays sorted without duplicates, contains exactly
one more element, and the flag tells whether the element was missing. -/
theorem insertVec_spec {vs : List Nat} (hs : vs.Pairwise (· < ·)) (v : Nat) :
    (insertVec vs v).1.Pairwise (· < ·) ∧ (∀ x, x ∈ (insertVec vs v).1 ↔ x = v ∨ x ∈ vs) ∧
      ((insertVec vs v).2 = true ↔ v ∉ vs) := by
  have h := search_spec (v := v) hs 0 vs.length (Nat.zero_le _) (Nat.le_refl _)
    (fun i _ h => absurd h (by omega)) (fun i h h2 => absurd h (by omega))
  unfold insertVec
  split at h
  · rename_i hk
    refine ⟨hs, fun x => ⟨fun hx => .inr hx, ?_⟩, by simp [h]⟩
    rintro (rfl | hx)
    · exact h
    · exact hx
  · rename_i k hk
    obtain ⟨h1, h2, h3⟩ := h
    have ht := mem_take_lt h2
    have hd := mem_drop_gt h3
    refine ⟨?_, ?_, ?_⟩
    · refine List.pairwise_append.2 ⟨hs.sublist (List.take_sublist _ _),
        List.pairwise_cons.2 ⟨hd, hs.sublist (List.drop_sublist _ _)⟩, ?_⟩
      intro a ha b hb
      have hav := ht a ha
      rcases List.mem_cons.1 hb with rfl | hb
      · exact hav
      · have := hd b hb; omega
    · intro x
      have : x ∈ vs ↔ x ∈ vs.take k ∨ x ∈ vs.drop k := by
        rw [← List.mem_append, List.take_append_drop]
      simp only [List.mem_append, List.mem_cons, this]
      tauto
    · have hnot : v ∉ vs := by
        rw [← List.take_append_drop k vs, List.mem_append]
        rintro (h | h)
        · have := ht v h; omega
        · have := hd v h; omega
      simp [hnot]

/-! ### Enumeration of one block -/

theorem fold_ins {asg : List Nat} (us : List Nat) :
    ∀ ins : List Nat, ins.Pairwise (· < ·) →
      (us.foldl (fun ins v => if asg.contains v then ins else (insertVec ins v).1) ins).Pairwise (· < ·) ∧
      ∀ x, x ∈ us.foldl (fun ins v => if asg.contains v then ins else (insertVec ins v).1) ins ↔
        x ∈ ins ∨ (x ∈ us ∧ x ∉ asg) := by
  induction us with
  | nil => intro ins h; exact ⟨h, fun x => by simp⟩
  | cons u us ih =>
    intro ins h
    rw [List.foldl_cons]
    by_cases hc : asg.contains u = true
    · rw [if_pos hc]
      have hc' : u ∈ asg := by simpa using hc
      obtain ⟨a, b⟩ := ih ins h
      refine ⟨a, fun x => ?_⟩
      rw [b x]
      constructor
      · rintro (h | ⟨h1, h2⟩)
        · exact .inl h
        · exact .inr ⟨List.mem_cons_of_mem _ h1, h2⟩
      · rintro (h | ⟨h1, h2⟩)
        · exact .inl h
        · rcases List.mem_cons.1 h1 with rfl | h1
          · exact absurd hc' h2
          · exact .inr ⟨h1, h2⟩
    · rw [if_neg hc]
      have hc' : u ∉ asg := by simpa using hc
      obtain ⟨s1, s2, _⟩ := insertVec_spec h u
      obtain ⟨a, b⟩ := ih _ s1
      refine ⟨a, fun x => ?_⟩
      rw [b x, s2 x]
      constructor
      · rintro ((rfl | h) | ⟨h1, h2⟩)
        · exact .inr ⟨List.mem_cons_self, hc'⟩
        · exact .inl h
        · exact .inr ⟨List.mem_cons_of_mem _ h1, h2⟩
      · rintro (h | ⟨h1, h2⟩)
        · exact .inl (.inr h)
        · rcases List.mem_cons.1 h1 with rfl | h1
          · exact .inl (.inl rfl)
          · exact .inr ⟨h1, h2⟩

theorem enum_aux (irs : List Ir) : ∀ (done : List Ir) (acc : List Nat × List Nat),
    acc.1.Pairwise (· < ·) → acc.2.Pairwise (· < ·) →
    (∀ v, v ∈ acc.1 ↔ UseBeforeDef done v) → (∀ v, v ∈ acc.2 ↔ Writes done v) →
    (irs.foldl enumOne acc).1.Pairwise (· < ·) ∧
    (∀ v, v ∈ (irs.foldl enumOne acc).1 ↔ UseBeforeDef (done ++ irs) v) ∧
    (∀ v, v ∈ (irs.foldl enumOne acc).2 ↔ Writes (done ++ irs) v) := by
  induction irs with
  | nil =>
    intro done acc h1 _ h3 h4
    exact ⟨h1, fun v => by simpa using h3 v, fun v => by simpa using h4 v⟩
  | cons ir irs ih =>
    intro done acc h1 h2 h3 h4
    rw [List.foldl_cons]
    have happ : done ++ ir :: irs = (done ++ [ir]) ++ irs := by simp
    rw [happ]
    obtain ⟨i1, i2⟩ := fold_ins (asg := acc.2) (ir.opr1.toList ++ ir.opr2.toList) acc.1 h1
    have hw : ∀ v, Writes (done ++ [ir]) v ↔ Writes done v ∨ ir.dst = some v := by
      intro v
      unfold Writes
      constructor
      · rintro ⟨i, hi, hd⟩
        rcases List.mem_append.1 hi with hi | hi
        · exact .inl ⟨i, hi, hd⟩
        · rw [List.mem_singleton.1 hi] at hd; exact .inr hd
      · rintro (⟨i, hi, hd⟩ | hd)
        · exact ⟨i, List.mem_append_left _ hi, hd⟩
        · exact ⟨ir, by simp, hd⟩
    have hu : ∀ v, UseBeforeDef (done ++ [ir]) v ↔ UseBeforeDef done v ∨
        ((ir.opr1 = some v ∨ ir.opr2 = some v) ∧ ¬ Writes done v) := by
      intro v
      constructor
      · rintro ⟨pre, i, post, he, ho, hp⟩
        rcases List.eq_nil_or_concat post with rfl | ⟨post', l, rfl⟩
        · have := List.append_inj' he rfl
          obtain ⟨rfl, h⟩ := this
          cases h
          refine .inr ⟨ho, ?_⟩
          rintro ⟨i', hi', hd⟩
          exact hp i' hi' hd
        · have he' : done ++ [ir] = (pre ++ i :: post') ++ [l] := by simpa using he
          obtain ⟨h, _⟩ := List.append_inj' he' rfl
          exact .inl ⟨pre, i, post', h, ho, hp⟩
      · rintro (⟨pre, i, post, he, ho, hp⟩ | ⟨ho, hn⟩)
        · exact ⟨pre, i, post ++ [ir], by simp [he], ho, hp⟩
        · exact ⟨done, ir, [], rfl, ho, fun i hi hd => hn ⟨i, hi, hd⟩⟩
    refine ih (done ++ [ir]) (enumOne acc ir) ?_ ?_ ?_ ?_
    · exact i1
    · simp only [enumOne]
      cases ir.dst with
      | none => exact h2
      | some v => exact (insertVec_spec h2 v).1
    · intro v
      have := i2 v
      simp only [enumOne]
      rw [this, h3 v, h4 v, hu v]
      simp
    · intro v
      simp only [enumOne]
      rw [hw v, ← h4 v]
      cases ir.dst with
      | none => simp
      | some w =>
        rw [(insertVec_spec h2 w).2.1 v]
        simp only [Option.some.injEq]
        constructor
        · rintro (rfl | h)
          · exact .inr rfl
          · exact .inl h
        · rintro (h | rfl)
          · exact .inr h
          · exact .inl rfl

theorem enumBlock_spec (irs : List Ir) :
    (enumBlock irs).1.Pairwise (· < ·) ∧ (∀ v, v ∈ (enumBlock irs).1 ↔ UseBeforeDef irs v) ∧
      ∀ v, v ∈ (enumBlock irs).2 ↔ Writes irs v := by
  have h := enum_aux irs [] ([], []) List.Pairwise.nil List.Pairwise.nil
    (fun v => ⟨fun h => absurd h List.not_mem_nil, by
      rintro ⟨pre, i, post, he, _⟩; cases pre <;> cases he⟩)
    (fun v => ⟨fun h => absurd h List.not_mem_nil, by
      rintro ⟨i, hi, _⟩; cases hi⟩)
  simpa [enumBlock] using h

/-! ### Propagation -/

/-- Every vector is sorted. -/
def Sorted (fl : Flow) : Prop := ∀ b, (fl.ins b).Pairwise (· < ·) ∧ (fl.outs b).Pairwise (· < ·)

/-- The edge into a block with `v` live is accounted for at the source `p`. -/
def EdgeOk (asg : Nat → List Nat) (fl : Flow) (v p : Nat) : Prop :=
  v ∈ fl.outs p ∧ (v ∈ asg p ∨ v ∈ fl.ins p)

theorem upd_mem {f : Nat → List Nat} {b : Nat} {l : List Nat} (hsub : ∀ x ∈ f b, x ∈ l) {c x : Nat}
    (h : x ∈ f c) : x ∈ upd f b l c := by
  unfold upd
  split
  · rename_i e; subst e; exact hsub x h
  · exact h

theorem upd_self {f : Nat → List Nat} {b : Nat} {l : List Nat} : upd f b l b = l := by simp [upd]

theorem mem_of_getLast_cases {xs : List Nat} {b p : Nat} (hl : xs.getLast? = some b) (hp : p ∈ xs) :
    p = b ∨ p ∈ xs.dropLast := by
  obtain ⟨ys, rfl⟩ := List.getLast?_eq_some_iff.1 hl
  simp only [List.dropLast_concat]
  rcases List.mem_append.1 hp with h | h
  · exact .inr h
  · exact .inl (List.mem_singleton.1 h)

/-- What one propagation of `v` from `froms` guarantees: the vectors stay sorted and only grow, only
for `v`; all requested and all new edges are accounted for; nothing is added without a reason. -/
def PropPost (frm asg : Nat → List Nat) (v : Nat) (froms : List Nat) (fl fl' : Flow) : Prop :=
  Sorted fl' ∧
  (∀ b x, x ∈ fl.ins b → x ∈ fl'.ins b) ∧ (∀ b x, x ∈ fl.outs b → x ∈ fl'.outs b) ∧
  (∀ b x, x ≠ v → (x ∈ fl'.ins b ↔ x ∈ fl.ins b) ∧ (x ∈ fl'.outs b ↔ x ∈ fl.outs b)) ∧
  (∀ p ∈ froms, EdgeOk asg fl' v p) ∧
  (∀ b, v ∈ fl'.ins b → v ∉ fl.ins b → ∀ p ∈ frm b, EdgeOk asg fl' v p) ∧
  (∀ (L : Nat → Prop), (∀ p ∈ froms, ∃ c, p ∈ frm c ∧ L c) →
    (∀ b c, b ∈ frm c → L c → v ∉ asg b → L b) →
    (∀ b, v ∈ fl'.ins b → v ∈ fl.ins b ∨ L b) ∧
    (∀ b, v ∈ fl'.outs b → v ∈ fl.outs b ∨ ∃ c, b ∈ frm c ∧ L c))

/-- One propagation. -/
theorem propagate_spec {frm asg : Nat → List Nat} {v : Nat} (fuel : Nat) :
    ∀ (froms : List Nat) (fl fl' : Flow), Sorted fl → propagate frm asg v fuel froms fl = some fl' →
      PropPost frm asg v froms fl fl' := by
  induction fuel with
  | zero => intro froms fl fl' _ h; cases h
  | succ fuel ih =>
    intro froms fl fl' hs h
    rw [propagate] at h
    split at h
    · rename_i hnil
      have hnil := List.getLast?_eq_none_iff.1 hnil
      cases h
      subst hnil
      exact ⟨hs, fun _ _ h => h, fun _ _ h => h, fun _ _ _ => ⟨Iff.rfl, Iff.rfl⟩,
        fun _ h => (List.not_mem_nil h).elim, fun _ h1 h2 => absurd h1 h2,
        fun L _ _ => ⟨fun _ h => .inl h, fun _ h => .inl h⟩⟩
    · rename_i b hlast
      have hb : b ∈ froms := List.mem_of_getLast? hlast
      obtain ⟨o1, o2, _⟩ := insertVec_spec (hs b).2 v
      obtain ⟨n1, n2, n3⟩ := insertVec_spec (hs b).1 v
      have hsubo : ∀ x ∈ fl.outs b, x ∈ (insertVec (fl.outs b) v).1 := fun x hx => (o2 x).2 (.inr hx)
      have hsubi : ∀ x ∈ fl.ins b, x ∈ (insertVec (fl.ins b) v).1 := fun x hx => (n2 x).2 (.inr hx)
      have hvo : v ∈ upd fl.outs b (insertVec (fl.outs b) v).1 b := by
        rw [upd_self]; exact (o2 v).2 (.inl rfl)
      have houts : ∀ c x, x ≠ v → (x ∈ upd fl.outs b (insertVec (fl.outs b) v).1 c ↔ x ∈ fl.outs c) := by
        intro c x hx
        unfold upd
        split
        · rename_i e; subst e; rw [o2 x]; simp [hx]
        · rfl
      have houtv : ∀ c, v ∈ upd fl.outs b (insertVec (fl.outs b) v).1 c → v ∈ fl.outs c ∨ c = b := by
        intro c hc
        unfold upd at hc
        split at hc
        · rename_i e; exact .inr e
        · exact .inl hc
      -- the case in which only the outs change
      have hsame : ∀ (hin : v ∈ asg b ∨ v ∈ fl.ins b),
          propagate frm asg v fuel froms.dropLast
            { fl with outs := upd fl.outs b (insertVec (fl.outs b) v).1 } = some fl' →
          PropPost frm asg v froms fl fl' := by
        intro hin h
        have hs' : Sorted { fl with outs := upd fl.outs b (insertVec (fl.outs b) v).1 } := by
          intro c
          refine ⟨(hs c).1, ?_⟩
          dsimp only [upd]
          split
          · exact o1
          · exact (hs c).2
        have hh := ih _ _ _ hs' h
        obtain ⟨a1, a2, a3, a4, a5, a6, a7⟩ := hh
        exact (show PropPost frm asg v froms fl fl' from by
          refine ⟨a1, a2, fun c x hx => a3 c x (upd_mem hsubo hx), fun c x hx => ?_, ?_, a6, ?_⟩
          · exact ⟨(a4 c x hx).1, (a4 c x hx).2.trans (houts c x hx)⟩
          · intro p hp
            rcases mem_of_getLast_cases hlast hp with rfl | hp
            · refine ⟨a3 _ _ hvo, ?_⟩
              rcases hin with hin | hin
              · exact .inl hin
              · exact .inr (a2 _ _ hin)
            · exact a5 p hp
          · intro L hL hstep
            obtain ⟨c1, c2⟩ := a7 L (fun p hp => hL p ((List.dropLast_sublist _).mem hp)) hstep
            refine ⟨c1, fun c hc => ?_⟩
            rcases c2 c hc with hc | hc
            · rcases houtv c hc with hc | rfl
              · exact .inl hc
              · exact .inr (hL _ hb)
            · exact .inr hc)
      dsimp only at h
      split at h
      · rename_i hc
        exact hsame (.inl (by simpa using hc)) h
      · rename_i hc
        have hasg : v ∉ asg b := by simpa using hc
        cases hnew : (insertVec (fl.ins b) v).2 with
        | false =>
          rw [hnew] at h
          simp only [Bool.false_eq_true, if_false] at h
          refine hsame (.inr ?_) h
          by_contra hno
          rw [n3.2 hno] at hnew; cases hnew
        | true =>
          rw [hnew] at h
          simp only [if_true] at h
          have hno : v ∉ fl.ins b := n3.1 hnew
          have hs' : Sorted { ins := upd fl.ins b (insertVec (fl.ins b) v).1,
                              outs := upd fl.outs b (insertVec (fl.outs b) v).1 } := by
            intro c
            refine ⟨?_, ?_⟩
            · dsimp only [upd]
              split
              · exact n1
              · exact (hs c).1
            · dsimp only [upd]
              split
              · exact o1
              · exact (hs c).2
          obtain ⟨a1, a2, a3, a4, a5, a6, a7⟩ := ih _ _ _ hs' h
          dsimp only at a2 a3 a4 a6 a7
          have hvb : v ∈ upd fl.ins b (insertVec (fl.ins b) v).1 b := by
            rw [upd_self]; exact (n2 v).2 (.inl rfl)
          have hinsx : ∀ c x, x ≠ v → (x ∈ upd fl.ins b (insertVec (fl.ins b) v).1 c ↔ x ∈ fl.ins c) := by
            intro c x hx
            unfold upd
            split
            · rename_i e; subst e; rw [n2 x]; simp [hx]
            · rfl
          have hinsv : ∀ c, v ∈ upd fl.ins b (insertVec (fl.ins b) v).1 c → v ∈ fl.ins c ∨ c = b := by
            intro c hc
            unfold upd at hc
            split at hc
            · rename_i e; exact .inr e
            · exact .inl hc
          refine ⟨a1, fun c x hx => a2 c x (upd_mem hsubi hx), fun c x hx => a3 c x (upd_mem hsubo hx),
            fun c x hx => ?_, ?_, ?_, ?_⟩
          · exact ⟨(a4 c x hx).1.trans (hinsx c x hx), (a4 c x hx).2.trans (houts c x hx)⟩
          · intro p hp
            rcases mem_of_getLast_cases hlast hp with rfl | hp
            · exact ⟨a3 _ _ hvo, .inr (a2 _ _ hvb)⟩
            · exact a5 p (List.mem_append_left _ hp)
          · intro c hc1 hc2 p hp
            by_cases hcb : c = b
            · subst hcb
              exact a5 p (List.mem_append_right _ hp)
            · refine a6 c hc1 ?_ p hp
              intro hh
              rcases hinsv c hh with hh | hh
              · exact hc2 hh
              · exact hcb hh
          · intro L hL hstep
            obtain ⟨c0, hc0, hLc0⟩ := hL b hb
            have hLb : L b := hstep b c0 hc0 hLc0 hasg
            obtain ⟨c1, c2⟩ := a7 L (fun p hp => by
              rcases List.mem_append.1 hp with hp | hp
              · exact hL p ((List.dropLast_sublist _).mem hp)
              · exact ⟨b, hp, hLb⟩) hstep
            refine ⟨fun c hc => ?_, fun c hc => ?_⟩
            · rcases c1 c hc with hc | hc
              · rcases hinsv c hc with hc | rfl
                · exact .inl hc
                · exact .inr hLb
              · exact .inr hc
            · rcases c2 c hc with hc | hc
              · rcases houtv c hc with hc | rfl
                · exact .inl hc
                · exact .inr (hL _ hb)
              · exact .inr hc

/-! ### Termination -/

/-- Edges into the blocks (below `n`) in which `v` is not yet live. -/
def pending (frm : Nat → List Nat) (v : Nat) (ins : Nat → List Nat) : Nat → Nat
  | 0 => 0
  | n + 1 => (if v ∈ ins n then 0 else (frm n).length) + pending frm v ins n

theorem pending_upd {frm : Nat → List Nat} {v b : Nat} {ins : Nat → List Nat} {l : List Nat} :
    ∀ n, v ∉ ins b → v ∈ l → (b < n →
      pending frm v ins n = pending frm v (upd ins b l) n + (frm b).length) ∧
      (n ≤ b → pending frm v ins n = pending frm v (upd ins b l) n) := by
  intro n h1 h2
  induction n with
  | zero => exact ⟨fun h => absurd h (by omega), fun _ => rfl⟩
  | succ n ih =>
    refine ⟨fun hb => ?_, fun hb => ?_⟩
    · by_cases e : b = n
      · subst e
        have := ih.2 (Nat.le_refl _)
        simp only [pending, upd_self]
        rw [if_neg h1, if_pos h2, this]
        omega
      · have := ih.1 (by omega)
        have hu : upd ins b l n = ins n := by
          unfold upd; rw [if_neg (fun h => e h.symm)]
        simp only [pending, hu]
        omega
    · have := ih.2 (by omega)
      have hu : upd ins b l n = ins n := by
        unfold upd; rw [if_neg (by omega)]
      simp only [pending, hu]
      omega

theorem propagate_terminates {frm asg : Nat → List Nat} {v n : Nat} (hfrm : ∀ b, ∀ p ∈ frm b, p < n)
    (fuel : Nat) :
    ∀ (froms : List Nat) (fl : Flow), Sorted fl → (∀ p ∈ froms, p < n) →
      froms.length + pending frm v fl.ins n < fuel →
      ∃ fl', propagate frm asg v fuel froms fl = some fl' := by
  induction fuel with
  | zero => intro _ _ _ _ h; omega
  | succ fuel ih =>
    intro froms fl hs hlt hf
    rw [propagate]
    cases hl : froms.getLast? with
    | none => exact ⟨fl, rfl⟩
    | some b =>
      dsimp only
      have hb : b ∈ froms := List.mem_of_getLast? hl
      have hlen : froms.dropLast.length + 1 = froms.length := by
        obtain ⟨ys, rfl⟩ := List.getLast?_eq_some_iff.1 hl
        simp
      obtain ⟨o1, _, _⟩ := insertVec_spec (hs b).2 v
      obtain ⟨n1, n2, n3⟩ := insertVec_spec (hs b).1 v
      have hs1 : Sorted { fl with outs := upd fl.outs b (insertVec (fl.outs b) v).1 } := by
        intro c
        refine ⟨(hs c).1, ?_⟩
        dsimp only [upd]
        split
        · exact o1
        · exact (hs c).2
      have hlt1 : ∀ p ∈ froms.dropLast, p < n := fun p hp => hlt p ((List.dropLast_sublist _).mem hp)
      split
      · exact ih _ _ hs1 hlt1 (by dsimp only; omega)
      · cases hnew : (insertVec (fl.ins b) v).2 with
        | false =>
          simp only [Bool.false_eq_true, if_false]
          exact ih _ _ hs1 hlt1 (by dsimp only; omega)
        | true =>
          simp only [if_true]
          have hno := n3.1 hnew
          have hp := (pending_upd (frm := frm) n hno ((n2 v).2 (.inl rfl))).1 (hlt b hb)
          refine ih _ _ ?_ ?_ ?_
          · intro c
            refine ⟨?_, ?_⟩
            · dsimp only [upd]
              split
              · exact n1
              · exact (hs c).1
            · dsimp only [upd]
              split
              · exact o1
              · exact (hs c).2
          · intro p hp
            rcases List.mem_append.1 hp with hp | hp
            · exact hlt1 p hp
            · exact hfrm b p hp
          · rw [List.length_append]
            dsimp only
            omega

theorem pending_le {frm : Nat → List Nat} {v : Nat} {ins : Nat → List Nat} (n : Nat) :
    pending frm v ins n ≤ ((List.range n).map (fun b => (frm b).length)).sum := by
  induction n with
  | zero => exact Nat.le_refl _
  | succ n ih =>
    rw [List.range_succ, List.map_append, List.sum_append]
    simp only [pending, List.map_cons, List.map_nil, List.sum_cons, List.sum_nil, Nat.add_zero]
    split <;> omega

/-- Enough fuel for every propagation: the edges of the graph, twice. -/
def fuelFor (frm : Nat → List Nat) (n : Nat) : Nat :=
  2 * ((List.range n).map (fun b => (frm b).length)).sum + 1

theorem length_le_sum (frm : Nat → List Nat) {b : Nat} : ∀ n, b < n →
    (frm b).length ≤ ((List.range n).map (fun b => (frm b).length)).sum := by
  intro n hb
  induction n with
  | zero => omega
  | succ n ih =>
    rw [List.range_succ, List.map_append, List.sum_append]
    simp only [List.map_cons, List.map_nil, List.sum_cons, List.sum_nil, Nat.add_zero]
    by_cases e : b = n
    · subst e; omega
    · have := ih (by omega); omega

/-! ### The whole analysis -/

/-- Every in-set element of a block has its in-edges accounted for, or is a use of an unprocessed
block. -/
structure AInv (irs : Nat → List Ir) (frm : Nat → List Nat) (k : Nat) (fl : Flow) : Prop where
  sorted : Sorted fl
  use : ∀ b v, UseBeforeDef (irs b) v → v ∈ fl.ins b
  closed : ∀ b v, v ∈ fl.ins b →
    (∀ p ∈ frm b, EdgeOk (fun b => (enumBlock (irs b)).2) fl v p) ∨ (b < k ∧ UseBeforeDef (irs b) v)
  soundIn : ∀ b v, v ∈ fl.ins b → LiveIn irs frm v b
  soundOut : ∀ b v, v ∈ fl.outs b → ∃ c, b ∈ frm c ∧ LiveIn irs frm v c

theorem propagate_ainv {irs : Nat → List Ir} {frm : Nat → List Nat} {k b v fuel : Nat} {fl fl' : Flow}
    (h : AInv irs frm k fl) (hv : v ∈ fl.ins b)
    (hp : propagate frm (fun b => (enumBlock (irs b)).2) v fuel (frm b) fl = some fl') :
    AInv irs frm k fl' ∧ (∀ p ∈ frm b, EdgeOk (fun b => (enumBlock (irs b)).2) fl' v p) ∧
      (∀ x, x ∈ fl'.ins b ↔ x ∈ fl.ins b) ∧
      (∀ c x, (∀ p ∈ frm c, EdgeOk (fun b => (enumBlock (irs b)).2) fl x p) →
        ∀ p ∈ frm c, EdgeOk (fun b => (enumBlock (irs b)).2) fl' x p) := by
  obtain ⟨a1, a2, a3, a4, a5, a6, a7⟩ := propagate_spec fuel _ _ _ h.sorted hp
  have hkeep : ∀ c x, (∀ p ∈ frm c, EdgeOk (fun b => (enumBlock (irs b)).2) fl x p) →
        ∀ p ∈ frm c, EdgeOk (fun b => (enumBlock (irs b)).2) fl' x p := by
    intro c x hx p hp
    obtain ⟨q1, q2⟩ := hx p hp
    refine ⟨a3 _ _ q1, ?_⟩
    rcases q2 with q2 | q2
    · exact .inl q2
    · exact .inr (a2 _ _ q2)
  have hL := a7 (LiveIn irs frm v) (fun p hp => ⟨b, hp, h.soundIn b v hv⟩)
    (fun p c hpc hc hn => by
      by_cases hw : Writes (irs p) v
      · exact absurd (((enumBlock_spec (irs p)).2.2 v).2 hw) hn
      · exact .step hpc hw hc)
  refine ⟨⟨a1, fun c x hx => a2 _ _ (h.use c x hx), ?_, ?_, ?_⟩, a5, ?_, hkeep⟩
  · intro c x hx
    by_cases e : x = v
    · subst e
      by_cases hold : x ∈ fl.ins c
      · rcases h.closed c x hold with hh | hh
        · exact .inl (hkeep c x hh)
        · exact .inr hh
      · exact .inl (a6 c hx hold)
    · rcases h.closed c x ((a4 c x e).1.1 hx) with hh | hh
      · exact .inl (hkeep c x hh)
      · exact .inr hh
  · intro c x hx
    by_cases e : x = v
    · subst e
      rcases hL.1 c hx with hh | hh
      · exact h.soundIn c x hh
      · exact hh
    · exact h.soundIn c x ((a4 c x e).1.1 hx)
  · intro c x hx
    by_cases e : x = v
    · subst e
      rcases hL.2 c hx with hh | hh
      · exact h.soundOut c x hh
      · exact hh
    · exact h.soundOut c x ((a4 c x e).2.1 hx)
  · intro x
    constructor
    · intro hx
      by_cases e : x = v
      · subst e; exact hv
      · exact (a4 b x e).1.1 hx
    · exact a2 b x

/-- The vector the loop of `analyze_reg_flow` runs over does not change while it runs. -/
theorem propagate_ins_self {irs : Nat → List Ir} {frm : Nat → List Nat} {k b v fuel : Nat} {fl fl' : Flow}
    (h : AInv irs frm k fl) (hv : v ∈ fl.ins b)
    (hp : propagate frm (fun b => (enumBlock (irs b)).2) v fuel (frm b) fl = some fl') :
    fl'.ins b = fl.ins b := by
  obtain ⟨h1, _, h3, _⟩ := propagate_ainv h hv hp
  have hsort : ∀ {xs ys : List Nat}, xs.Pairwise (· < ·) → ys.Pairwise (· < ·) →
      (∀ x, x ∈ xs ↔ x ∈ ys) → xs = ys := by
    intro xs
    induction xs with
    | nil =>
      intro ys _ _ hm
      cases ys with
      | nil => rfl
      | cons y ys => exact absurd ((hm y).2 List.mem_cons_self) List.not_mem_nil
    | cons x xs ih =>
      intro ys hx hy hm
      cases ys with
      | nil => exact absurd ((hm x).1 List.mem_cons_self) List.not_mem_nil
      | cons y ys =>
        obtain ⟨hx1, hx2⟩ := List.pairwise_cons.1 hx
        obtain ⟨hy1, hy2⟩ := List.pairwise_cons.1 hy
        have e : x = y := by
          rcases List.mem_cons.1 ((hm x).1 List.mem_cons_self) with e | e
          · exact e
          · rcases List.mem_cons.1 ((hm y).2 List.mem_cons_self) with e' | e'
            · exact e'.symm
            · have := hy1 x e; have := hx1 y e'; omega
        subst e
        rw [ih hx2 hy2 ?_]
        intro z
        constructor
        · intro hz
          rcases List.mem_cons.1 ((hm z).1 (List.mem_cons_of_mem _ hz)) with e | e
          · have := hx1 z hz; omega
          · exact e
        · intro hz
          rcases List.mem_cons.1 ((hm z).2 (List.mem_cons_of_mem _ hz)) with e | e
          · have := hy1 z hz; omega
          · exact e
  exact hsort (h1.sorted b).1 (h.sorted b).1 h3

theorem flowRegs_ok {irs : Nat → List Ir} {frm : Nat → List Nat} {n k b : Nat}
    (hfrm : ∀ b, ∀ p ∈ frm b, p < n) (hb : b < n) (vs : List Nat) :
    ∀ fl : Flow, AInv irs frm k fl → (∀ v ∈ vs, v ∈ fl.ins b) →
      ∃ fl', flowRegs frm (fun b => (enumBlock (irs b)).2) (fuelFor frm n) b vs fl = some fl' ∧
        AInv irs frm k fl' ∧
        (∀ v ∈ vs, ∀ p ∈ frm b, EdgeOk (fun b => (enumBlock (irs b)).2) fl' v p) ∧
        (∀ x, x ∈ fl'.ins b ↔ x ∈ fl.ins b) ∧
        (∀ c x, (∀ p ∈ frm c, EdgeOk (fun b => (enumBlock (irs b)).2) fl x p) →
          ∀ p ∈ frm c, EdgeOk (fun b => (enumBlock (irs b)).2) fl' x p) := by
  induction vs with
  | nil =>
    intro fl h _
    exact ⟨fl, rfl, h, fun _ h => (List.not_mem_nil h).elim, fun _ => Iff.rfl, fun _ _ h => h⟩
  | cons v vs ih =>
    intro fl h hvs
    obtain ⟨fl1, h1⟩ := propagate_terminates (asg := fun b => (enumBlock (irs b)).2) (v := v) hfrm (fuelFor frm n) (frm b) fl h.sorted (hfrm b) (by
        have h1 := pending_le (frm := frm) (v := v) (ins := fl.ins) n
        have h2 := length_le_sum frm n hb
        unfold fuelFor; omega)
    obtain ⟨a1, a2, a3, a4⟩ := propagate_ainv h (hvs v List.mem_cons_self) h1
    obtain ⟨fl2, b1, b2, b3, b4, b5⟩ := ih fl1 a1
      (fun w hw => (a3 w).2 (hvs w (List.mem_cons_of_mem _ hw)))
    refine ⟨fl2, ?_, b2, ?_, fun x => (b4 x).trans (a3 x), fun c x hx => b5 c x (a4 c x hx)⟩
    · rw [flowRegs, h1]; exact b1
    · intro w hw
      rcases List.mem_cons.1 hw with rfl | hw
      · exact b5 b w a2
      · exact b3 w hw

theorem flowBlocks_ok {irs : Nat → List Ir} {frm : Nat → List Nat} {n : Nat}
    (hfrm : ∀ b, ∀ p ∈ frm b, p < n) (k : Nat) (hk : k ≤ n) :
    ∀ fl : Flow, AInv irs frm k fl →
      ∃ fl', flowBlocks frm (fun b => (enumBlock (irs b)).2) (fuelFor frm n) k fl = some fl' ∧
        AInv irs frm 0 fl' := by
  induction k with
  | zero => intro fl h; exact ⟨fl, rfl, h⟩
  | succ k ih =>
    intro fl h
    obtain ⟨fl1, h1, h2, h3, h4, h5⟩ := flowRegs_ok hfrm (by omega : k < n) (fl.ins k) fl h
      (fun _ hv => hv)
    obtain ⟨fl2, b1, b2⟩ := ih (by omega) fl1 ⟨h2.sorted, h2.use, fun c v hv => by
      rcases h2.closed c v hv with hh | ⟨hh, hu⟩
      · exact .inl hh
      · by_cases e : c = k
        · subst e
          exact .inl (h3 v ((h4 v).1 hv))
        · exact .inr ⟨by omega, hu⟩, h2.soundIn, h2.soundOut⟩
    exact ⟨fl2, by rw [flowBlocks, h1]; exact b1, b2⟩

theorem analyze_ainv {irs : Nat → List Ir} {frm : Nat → List Nat} {n : Nat}
    (hfrm : ∀ b, ∀ p ∈ frm b, p < n) (hdom : ∀ b, n ≤ b → irs b = [] ∧ frm b = []) :
    ∃ fl, analyze irs frm n (fuelFor frm n) = some fl ∧ AInv irs frm 0 fl := by
  have h0 : AInv irs frm n { ins := fun b => (enumBlock (irs b)).1, outs := fun _ => [] } := by
    refine ⟨fun b => ⟨(enumBlock_spec (irs b)).1, List.Pairwise.nil⟩, ?_, ?_, ?_, ?_⟩
    · intro b v hu; exact ((enumBlock_spec (irs b)).2.1 v).2 hu
    · intro b v hv
      have hu := ((enumBlock_spec (irs b)).2.1 v).1 hv
      by_cases hb : b < n
      · exact .inr ⟨hb, hu⟩
      · refine .inl (fun p hp => ?_)
        rw [(hdom b (by omega)).2] at hp; cases hp
    · intro b v hv; exact .use (((enumBlock_spec (irs b)).2.1 v).1 hv)
    · intro b v hv; cases hv
  exact flowBlocks_ok hfrm n (Nat.le_refl _) _ h0

/-! ### Theorems -/

/-- The analysis terminates and computes liveness exactly: a virtual register is in the in-set of a
block iff some path from the start of the block reads it before writing it, and in the out-set iff
it is live at the start of a successor. -/
theorem analyze_exact {irs : Nat → List Ir} {frm : Nat → List Nat} {n : Nat}
    (hfrm : ∀ b, ∀ p ∈ frm b, p < n) (hdom : ∀ b, n ≤ b → irs b = [] ∧ frm b = []) :
    ∃ fl, analyze irs frm n (fuelFor frm n) = some fl ∧
      (∀ b v, v ∈ fl.ins b ↔ LiveIn irs frm v b) ∧
      (∀ b v, v ∈ fl.outs b ↔ ∃ c, b ∈ frm c ∧ LiveIn irs frm v c) := by
  obtain ⟨fl, h1, h2⟩ := analyze_ainv hfrm hdom
  have hclosed : ∀ b v, v ∈ fl.ins b → ∀ p ∈ frm b, EdgeOk (fun b => (enumBlock (irs b)).2) fl v p := by
    intro b v hv
    rcases h2.closed b v hv with h | ⟨h, _⟩
    · exact h
    · omega
  have hin : ∀ b v, LiveIn irs frm v b → v ∈ fl.ins b := by
    intro b v hl
    induction hl with
    | use hu => exact h2.use _ _ hu
    | step hbc hw _ ih =>
      rcases (hclosed _ v ih _ hbc).2 with hh | hh
      · exact absurd (((enumBlock_spec _).2.2 v).1 hh) hw
      · exact hh
  refine ⟨fl, h1, fun b v => ⟨h2.soundIn b v, hin b v⟩, fun b v => ⟨h2.soundOut b v, ?_⟩⟩
  rintro ⟨c, hbc, hl⟩
  exact (hclosed c v (hin c v hl) b hbc).1

/-! ### Concrete case: a loop -/

/-- Short notation for an instruction. -/
def mk (d : Option Nat) (a b : Option Nat) : Ir := ⟨d, a, b, fun _ => false, none, false⟩

/-- `v0 = ..; do { v1 = v0; v0 = v1 + v2 } while (v0); use v1`. -/
def sampleIrs : Nat → List Ir
  | 0 => [mk (some 0) none none]
  | 1 => [mk (some 1) (some 0) none, mk (some 0) (some 1) (some 2), mk none (some 0) none]
  | 2 => [mk none (some 1) none]
  | _ => []

/-- Edges 0 → 1, 1 → 1, 1 → 2. -/
def sampleFrm : Nat → List Nat
  | 1 => [0, 1]
  | 2 => [1]
  | _ => []

example : (∀ b, ∀ p ∈ sampleFrm b, p < 3) ∧ (∀ b, 3 ≤ b → sampleIrs b = [] ∧ sampleFrm b = []) := by
  constructor
  · intro b
    match b with
    | 0 => simp [sampleFrm]
    | 1 => simp [sampleFrm]
    | 2 => simp [sampleFrm]
    | _ + 3 => simp [sampleFrm]
  · intro b h
    match b, h with
    | _ + 3, _ => exact ⟨rfl, rfl⟩

end Verif.RegFlow

/-!
# Replacing phi functions by moves (C44)

`src/cc/backend/ssa.c:290-415`: `extract_cyclic_dependency`, `replace_phis`.

For one predecessor (`ifb`) every phi is a pair (destination, source) of virtual registers.  The moves inserted at the
end of the predecessor have to act like a parallel assignment.
-/
namespace Verif.PhiMoves

/-- A phi seen from one predecessor: `phi->dst` and `phi->params->data[ifb]`.  `α` are the virtual registers
(`VReg *`, constants included). -/
structure Phi (α : Type) where
  dst : α
  src : α
deriving DecidableEq, Repr

variable {α : Type} [DecidableEq α]

/-- ssa.c:298-303: the first index below `i` whose destination is `src`; `i` if there is none. -/
def findDst (phis : List (Phi α)) (src : α) (i : Nat) : Nat :=
  match (phis.take i).findIdx? (fun p => p.dst == src) with
  | some j => j
  | none => i

/-- ssa.c:307-310: move element `i` before element `j`. -/
def moveBefore (phis : List (Phi α)) (i j : Nat) : List (Phi α) :=
  match phis[i]? with
  | some p => (phis.take j ++ p :: (phis.take i).drop j) ++ phis.drop (i + 1)
  | none => phis

/-- ssa.c:292-312: the first loop; note the additional `++i`.  The counter bounds the number of iterations. -/
def order : Nat → Nat → List (Phi α) → List (Phi α)
  | 0, _, phis => phis
  | fuel + 1, i, phis =>
    match phis[i]? with
    | none => phis
    | some p =>
      let j := findDst phis p.src i
      if j ≥ i then order fuel (i + 1) phis
      else order fuel (i + 2) (moveBefore phis i j)

/-- ssa.c:320-325 and 338-343: the next index below `i` (from `j`) whose destination is `src2`, else `i`.  `none`: a null pointer
is dereferenced. -/
def nextInChain (a : List (Option (Phi α))) (src2 : α) (i : Nat) : Nat → Nat → Option Nat
  | 0, _ => some i
  | fuel + 1, j =>
    if j < i then
      match a.getD j none with
      | none => none
      | some p => if p.dst = src2 then some j else nextInChain a src2 i fuel (j + 1)
    else some i

/-- ssa.c:330-344: collect the chain that starts at `j`. -/
def chain (i : Nat) : Nat → List (Option (Phi α)) → Nat → Option (List (Option (Phi α)) × List (Phi α))
  | 0, _, _ => none
  | fuel + 1, a, j =>
    match a.getD j none with
    | none => none
    | some p =>
      let a := a.set j none
      if j ≥ i then some (a, [p])
      else
        match nextInChain a p.src i (i - j) (j + 1) with
        | none => none
        | some j' => (chain i fuel a j').map fun r => (r.1, p :: r.2)

/-- ssa.c:352-357: fill the holes with the last elements. -/
def compact : Nat → Nat → List (Option (Phi α)) → Nat → List (Option (Phi α)) × Nat
  | 0, _, a, n => (a, n)
  | fuel + 1, k, a, n =>
    if k < n then
      match a.getD k none with
      | some _ => compact fuel (k + 1) a n
      | none => compact fuel (k + 1) ((a.set k (a.getD (n - 1) none)).set (n - 1) none) (n - 1)
    else (a, n)

/-- ssa.c:358-359. -/
def trim (a : List (Option (Phi α))) : Nat → Nat
  | 0 => 0
  | n + 1 => if a.getD n none = none then trim a n else n + 1

/-- ssa.c:316-361: the second loop.  Result: the remaining phis and the chains. -/
def cycles : Nat → Nat → List (Option (Phi α)) → Nat → List (List (Phi α)) → Option (List (Option (Phi α)) × List (List (Phi α)))
  | 0, _, _, _, _ => none
  | fuel + 1, i, a, n, acc =>
    if i < n then
      match a.getD i none with
      | none => none
      | some p =>
        match nextInChain a p.src i i 0 with
        | none => none
        | some j =>
          if j ≥ i then cycles fuel (i + 1) a n acc
          else
            match chain i (i + 2) a j with
            | none => none
            | some (a, c) =>
              let r := compact n 0 a n
              cycles fuel (i + 1) r.1 (trim r.1 r.2) (acc ++ [c])
    else some (a.take n, acc)

/-- `extract_cyclic_dependency`, ssa.c:290-363; `none` is a null pointer dereference. -/
def extract (phis : List (Phi α)) : Option (List (Option (Phi α)) × List (List (Phi α))) :=
  let phis := order phis.length 0 phis
  cycles (phis.length + 1) 0 (phis.map some) phis.length []

/-- A move instruction. -/
structure Mov (α : Type) where
  dst : α
  src : α
deriving DecidableEq, Repr

/-- ssa.c:391-409: the moves of one chain through the temporary `tmp`. -/
def cycleMoves (tmp : α) : List (Phi α) → List (Mov α)
  | [] => []
  | f :: ps => ⟨tmp, f.src⟩ :: ps.map (fun p => ⟨p.dst, p.src⟩) ++ [⟨f.dst, tmp⟩]

/-- ssa.c:386-413 with temporaries `tmp 0`, `tmp 1`, ... -/
def allCycleMoves (tmp : Nat → α) : Nat → List (List (Phi α)) → List (Mov α)
  | _, [] => []
  | n, c :: cs => cycleMoves (tmp n) c ++ allCycleMoves tmp (n + 1) cs

/-- `replace_phis`, ssa.c:365-415: the list of inserted moves; `tmp` are the new registers. -/
def replacePhis (tmp : Nat → α) (phis : List (Phi α)) : Option (List (Mov α)) :=
  (extract phis).bind fun r =>
    (r.1.mapM id).map fun nc => nc.map (fun p => ⟨p.dst, p.src⟩) ++ allCycleMoves tmp 0 r.2

/-- ssa.c:383-413: what is left in the vector `phis`, for the next predecessor: the chains are pushed again. -/
def restored (phis : List (Phi α)) : Option (List (Phi α)) :=
  (extract phis).bind fun r => (r.1.mapM id).map fun nc => nc ++ r.2.flatten

/-! ## Specification -/

/-- Execute moves one after the other. -/
def runMoves {V : Type} : List (Mov α) → (α → V) → (α → V)
  | [], s => s
  | m :: ms, s => runMoves ms (fun r => if r = m.dst then s m.src else s r)

/-- All phis at once: every destination gets the value its source had before. -/
def Parallel {V : Type} (phis : List (Phi α)) (s t : α → V) : Prop :=
  (∀ p ∈ phis, t p.dst = s p.src) ∧ ∀ r, r ∉ phis.map (·.dst) → t r = s r

/-! ## Lemmas -/

theorem runMoves_append {V : Type} (a b : List (Mov α)) (s : α → V) : runMoves (a ++ b) s = runMoves b (runMoves a s) := by
  induction a generalizing s with
  | nil => rfl
  | cons m a ih => exact ih _

def toMov (p : Phi α) : Mov α := ⟨p.dst, p.src⟩

/-- No phi reads the destination of an earlier one. -/
def Safe (phis : List (Phi α)) : Prop := phis.Pairwise (fun p q => q.src ≠ p.dst)

theorem runMoves_safe {V : Type} (phis : List (Phi α)) (hn : (phis.map (·.dst)).Nodup) (hs : Safe phis) (s : α → V) :
    Parallel phis s (runMoves (phis.map toMov) s) := by
  induction phis generalizing s with
  | nil => exact ⟨fun p hp => absurd hp (by simp), fun r _ => rfl⟩
  | cons p ps ih =>
    rw [List.map_cons, List.nodup_cons] at hn
    have hs' := List.pairwise_cons.1 hs
    obtain ⟨h1, h2⟩ := ih hn.2 hs'.2 (fun r => if r = p.dst then s p.src else s r)
    rw [List.map_cons, runMoves]
    constructor
    · intro q hq
      rcases List.mem_cons.1 hq with hq | hq
      · subst hq
        rw [show (toMov q).dst = q.dst from rfl, show (toMov q).src = q.src from rfl, h2 _ hn.1]
        simp
      · rw [show (toMov p).dst = p.dst from rfl, show (toMov p).src = p.src from rfl, h1 q hq]
        exact if_neg (hs'.1 q hq)
    · intro r hr
      rw [List.map_cons, List.mem_cons, not_or] at hr
      rw [show (toMov p).dst = p.dst from rfl, show (toMov p).src = p.src from rfl, h2 r hr.2]
      exact if_neg hr.1

theorem moveBefore_perm (phis : List (Phi α)) (i j : Nat) (hj : j ≤ i) : (moveBefore phis i j).Perm phis := by
  unfold moveBefore
  split
  · rename_i p hp
    have hi := (List.getElem?_eq_some_iff.1 hp).1
    have e : phis = phis.take j ++ (phis.take i).drop j ++ p :: phis.drop (i + 1) := by
      have h1 : phis.take j ++ (phis.take i).drop j = phis.take i := by
        have := List.take_append_drop j (phis.take i)
        rw [List.take_take, Nat.min_eq_left hj] at this
        exact this
      have h3 : p :: phis.drop (i + 1) = phis.drop i := by
        rw [List.drop_eq_getElem_cons hi, (List.getElem?_eq_some_iff.1 hp).2]
      rw [h1, h3]
      exact (List.take_append_drop i phis).symm
    conv => rhs; rw [e]
    rw [List.append_assoc, List.append_assoc]
    refine List.Perm.append_left _ ?_
    rw [List.cons_append]
    exact List.perm_middle.symm
  · exact List.Perm.refl _

theorem findDst_le (phis : List (Phi α)) (src : α) (i : Nat) (hi : i ≤ phis.length) : findDst phis src i ≤ i := by
  unfold findDst
  split
  · rename_i j h
    have := List.findIdx?_eq_some_iff_getElem.1 h
    obtain ⟨h1, -⟩ := this
    simp at h1
    omega
  · exact Nat.le_refl _

theorem order_perm (fuel : Nat) : ∀ (i : Nat) (phis : List (Phi α)), (order fuel i phis).Perm phis := by
  induction fuel with
  | zero => intro i phis; exact List.Perm.refl _
  | succ fuel ih =>
    intro i phis
    rw [order]
    split
    · exact List.Perm.refl _
    · rename_i p hp
      have hi := (List.getElem?_eq_some_iff.1 hp).1
      dsimp only
      split
      · exact ih _ _
      · exact (ih _ _).trans (moveBefore_perm phis i _ (findDst_le phis _ i (by omega)))

/-- With no holes, `nextInChain` finds the first earlier destination. -/
theorem nextInChain_none_before (phis : List (Phi α)) (src : α) (i : Nat) (hi : i ≤ phis.length) (fuel : Nat) :
    ∀ j, j ≤ i → i - j ≤ fuel → nextInChain (phis.map some) src i fuel j = some i →
      ∀ k, j ≤ k → (hk : k < i) → (phis[k]'(by omega)).dst ≠ src := by
  induction fuel with
  | zero => intro j h1 h2 _ k h3 h4; omega
  | succ fuel ih =>
    intro j h1 h2 h k h3 h4
    rw [nextInChain] at h
    by_cases hj : j < i
    · rw [if_pos hj] at h
      have e : (phis.map some).getD j none = some (phis[j]'(by omega)) := by
        rw [List.getD_eq_getElem?_getD, List.getElem?_map, List.getElem?_eq_getElem (by omega)]; rfl
      rw [e] at h
      dsimp only at h
      by_cases hd : (phis[j]'(by omega)).dst = src
      · rw [if_pos hd] at h
        cases h
        omega
      · rw [if_neg hd] at h
        by_cases hjk : j = k
        · subst hjk; exact hd
        · exact ih (j + 1) (by omega) (by omega) h k (by omega) h4
    · omega

theorem nextInChain_some (phis : List (Phi α)) (src : α) (i : Nat) (hi : i ≤ phis.length) (fuel : Nat) :
    ∀ j, ∃ k, nextInChain (phis.map some) src i fuel j = some k := by
  induction fuel with
  | zero => intro j; exact ⟨i, rfl⟩
  | succ fuel ih =>
    intro j
    rw [nextInChain]
    by_cases hj : j < i
    · rw [if_pos hj]
      have e : (phis.map some).getD j none = some (phis[j]'(by omega)) := by
        rw [List.getD_eq_getElem?_getD, List.getElem?_map, List.getElem?_eq_getElem (by omega)]; rfl
      rw [e]
      dsimp only
      split
      · exact ⟨j, rfl⟩
      · exact ih _
    · rw [if_neg hj]; exact ⟨i, rfl⟩

theorem cycles_acc (fuel : Nat) : ∀ (i : Nat) (a : List (Option (Phi α))) (n : Nat) (acc : List (List (Phi α)))
    (r : List (Option (Phi α))) (cs : List (List (Phi α))), cycles fuel i a n acc = some (r, cs) → ∃ l, cs = acc ++ l := by
  induction fuel with
  | zero => intro i a n acc r cs h; cases h
  | succ fuel ih =>
    intro i a n acc r cs h
    rw [cycles] at h
    split at h
    · split at h
      · cases h
      · split at h
        · cases h
        · split at h
          · exact ih _ _ _ _ _ _ h
          · split at h
            · cases h
            · obtain ⟨l, hl⟩ := ih _ _ _ _ _ _ h
              exact ⟨_ :: l, by rw [hl, List.append_assoc]; rfl⟩
    · cases h; exact ⟨[], by simp⟩

theorem cycles_none (phis : List (Phi α)) (fuel : Nat) : ∀ (i : Nat) (r : List (Option (Phi α))),
    i ≤ phis.length → phis.length < i + fuel →
    cycles fuel i (phis.map some) phis.length [] = some (r, []) →
    r = phis.map some ∧ ∀ k m (hm : m < phis.length) (hk : k < m), i ≤ m → (phis[m]).src ≠ (phis[k]'(by omega)).dst := by
  induction fuel with
  | zero => intro i r hi hf h; omega
  | succ fuel ih =>
    intro i r hi hf h
    rw [cycles] at h
    by_cases hlt : i < phis.length
    · rw [if_pos hlt] at h
      have e : (phis.map some).getD i none = some (phis[i]) := by
        rw [List.getD_eq_getElem?_getD, List.getElem?_map, List.getElem?_eq_getElem (by omega)]; rfl
      rw [e] at h
      dsimp only at h
      obtain ⟨j, hj⟩ := nextInChain_some phis (phis[i]).src i (by omega) i 0
      rw [hj] at h
      dsimp only at h
      by_cases hji : j ≥ i
      · rw [if_pos hji] at h
        obtain ⟨h1, h2⟩ := ih (i + 1) r (by omega) (by omega) h
        refine ⟨h1, fun k m hm hk him => ?_⟩
        by_cases hmi : m = i
        · subst hmi
          have hj' : nextInChain (phis.map some) (phis[m]).src m m 0 = some m := by
            rw [hj]
            congr 1
            -- the result is never above `i`
            have : ∀ fuel j', nextInChain (phis.map some) (phis[m]).src m fuel j' = some j → j ≤ m := by
              intro fuel
              induction fuel with
              | zero => intro j' hh; rw [nextInChain] at hh; cases hh; exact Nat.le_refl _
              | succ fuel ih2 =>
                intro j' hh
                rw [nextInChain] at hh
                split at hh
                · split at hh
                  · cases hh
                  · split at hh
                    · cases hh; omega
                    · exact ih2 _ hh
                · cases hh; exact Nat.le_refl _
            have := this m 0 hj
            omega
          intro e
          exact nextInChain_none_before phis _ m (by omega) m 0 (by omega) (by omega) hj' k (by omega) hk e.symm
        · exact h2 k m hm hk (by omega)
      · rw [if_neg hji] at h
        split at h
        · cases h
        · obtain ⟨l, hl⟩ := cycles_acc _ _ _ _ _ _ _ h
          simp at hl
    · rw [if_neg hlt] at h
      cases h
      refine ⟨by rw [List.take_of_length_le (by simp)], fun k m hm hk him => by omega⟩

theorem mapM_id_map_some (l : List (Phi α)) : (l.map some).mapM id = some l := by
  induction l with
  | nil => rfl
  | cons p l ih => rw [List.map_cons, List.mapM_cons, ih]; rfl

/-! ## C44 -/

/-- C44, partial.  Whenever the second pass reports no cyclic dependency the inserted moves act exactly like the
parallel assignment, for every set of phis with distinct destinations.  Missing: sets for which chains are reported;
there the claim is false, see `two_swaps_wrong` and `null_dereference`. -/
theorem moves_partial {V : Type} (tmp : Nat → α) (phis : List (Phi α)) (hn : (phis.map (·.dst)).Nodup) (r : List (Option (Phi α)))
    (hc : extract phis = some (r, [])) (s : α → V) :
    ∃ ms, replacePhis tmp phis = some ms ∧ ms.length = phis.length ∧ Parallel phis s (runMoves ms s) := by
  have hp := order_perm phis.length 0 phis
  unfold extract at hc
  dsimp only at hc
  obtain ⟨h1, h2⟩ := cycles_none (order phis.length 0 phis) _ 0 r (by omega) (by omega) hc
  have hS : Safe (order phis.length 0 phis) := by
    unfold Safe
    rw [List.pairwise_iff_getElem]
    intro i j hi hj hij
    exact h2 i j hj hij (by omega)
  have hn' : ((order phis.length 0 phis).map (·.dst)).Nodup := (hp.map _).nodup_iff.2 hn
  refine ⟨(order phis.length 0 phis).map toMov, ?_, by simp [hp.length_eq], ?_⟩
  · unfold replacePhis extract
    dsimp only
    rw [hc, h1]
    simp only [Option.bind_some, mapM_id_map_some, Option.map_some, allCycleMoves, List.append_nil]
    rfl
  · obtain ⟨a, b⟩ := runMoves_safe _ hn' hS s
    refine ⟨fun p hp' => a p (hp.mem_iff.2 hp'), fun r hr => b r ?_⟩
    intro h
    exact hr ((hp.map _).mem_iff.1 h)

theorem order_safe (fuel : Nat) : ∀ (i : Nat) (phis : List (Phi α)), Safe phis → order fuel i phis = phis := by
  induction fuel with
  | zero => intro i phis _; rfl
  | succ fuel ih =>
    intro i phis h
    rw [order]
    split
    · rfl
    · rename_i p hp
      dsimp only
      have hi := (List.getElem?_eq_some_iff.1 hp)
      have : findDst phis p.src i ≥ i := by
        unfold findDst
        split
        · rename_i j hj
          obtain ⟨h1, h2, -⟩ := List.findIdx?_eq_some_iff_getElem.1 hj
          simp at h1 h2
          have := List.pairwise_iff_getElem.1 h j i (by omega) hi.1 (by omega)
          rw [hi.2] at this
          exact absurd h2.symm this
        · exact Nat.le_refl _
      rw [if_pos this]
      exact ih _ _ h

/-- C44.  Two values exchanged at a join (the classic swap) are handled through a temporary. -/
theorem swap_correct {V : Type} (tmp : Nat → α) (a b : α) (hab : a ≠ b) (ht : tmp 0 ≠ a ∧ tmp 0 ≠ b) (s : α → V) :
    ∃ ms, replacePhis tmp [⟨a, b⟩, ⟨b, a⟩] = some ms ∧ runMoves ms s a = s b ∧ runMoves ms s b = s a := by
  refine ⟨[⟨tmp 0, a⟩, ⟨a, b⟩, ⟨b, tmp 0⟩], ?_, ?_, ?_⟩
  · simp [replacePhis, extract, order, findDst, moveBefore, cycles, nextInChain, chain, compact, trim, allCycleMoves,
      cycleMoves, List.findIdx?, List.findIdx?.go, hab, hab.symm]
  · simp [runMoves, hab, hab.symm, ht.1, ht.2, Ne.symm ht.1, Ne.symm ht.2]
  · simp [runMoves, hab, hab.symm, ht.1, ht.2, Ne.symm ht.1, Ne.symm ht.2]

/-- What `replace_phis` has to do for one predecessor: it inserts moves that act like the parallel assignment on all
registers but the new ones, and leaves the same phis behind for the next predecessor. -/
def Faithful (tmp : Nat → α) (phis : List (Phi α)) : Prop :=
  ∃ ms ps, replacePhis tmp phis = some ms ∧ restored phis = some ps ∧ ps.Perm phis ∧
    ∀ (V : Type) (s : α → V), (∀ p ∈ phis, runMoves ms s p.dst = s p.src) ∧
      ∀ r, r ∉ phis.map (·.dst) → (∀ n, r ≠ tmp n) → runMoves ms s r = s r

theorem faithful_of_extract (tmp : Nat → α) (phis : List (Phi α)) (hn : (phis.map (·.dst)).Nodup)
    (r : List (Option (Phi α))) (hc : extract phis = some (r, [])) : Faithful tmp phis := by
  have hc' := hc
  have hp := order_perm phis.length 0 phis
  unfold extract at hc
  dsimp only at hc
  obtain ⟨h1, h2⟩ := cycles_none (order phis.length 0 phis) _ 0 r (by omega) (by omega) hc
  have e : replacePhis tmp phis = some ((order phis.length 0 phis).map toMov) := by
    unfold replacePhis
    rw [hc', h1]
    simp only [Option.bind_some, mapM_id_map_some, Option.map_some, allCycleMoves, List.append_nil]
    rfl
  refine ⟨_, order phis.length 0 phis, e, ?_, hp, ?_⟩
  · unfold restored
    rw [hc', h1]
    simp only [Option.bind_some, mapM_id_map_some, Option.map_some, List.flatten_nil, List.append_nil]
  · intro V s
    obtain ⟨ms, h3, -, h4, h5⟩ := moves_partial tmp phis hn r hc' s
    rw [e] at h3
    cases h3
    exact ⟨h4, fun r hr _ => h5 r hr⟩

theorem allCycleMoves_regs (tmp : Nat → α) : ∀ (cs : List (List (Phi α))) (n : Nat), ∀ m ∈ allCycleMoves tmp n cs,
    (m.dst ∈ cs.flatten.map (·.dst) ∨ ∃ j, j < n + cs.length ∧ m.dst = tmp j) ∧
    (m.src ∈ cs.flatten.map (·.src) ∨ ∃ j, j < n + cs.length ∧ m.src = tmp j)
  | [], _, m, hm => by cases hm
  | c :: cs, n, m, hm => by
    rw [allCycleMoves, List.mem_append] at hm
    rw [List.flatten_cons, List.map_append, List.map_append, List.mem_append, List.mem_append]
    rcases hm with hm | hm
    · cases c with
      | nil => cases hm
      | cons f ps =>
        rw [cycleMoves, List.cons_append, List.mem_cons, List.mem_append, List.mem_map, List.mem_singleton] at hm
        rcases hm with rfl | ⟨p, hp, rfl⟩ | rfl
        · exact ⟨.inr ⟨n, by simp, rfl⟩, .inl (.inl (by simp))⟩
        · exact ⟨.inl (.inl (List.mem_map.2 ⟨p, List.mem_cons_of_mem _ hp, rfl⟩)),
            .inl (.inl (List.mem_map.2 ⟨p, List.mem_cons_of_mem _ hp, rfl⟩))⟩
        · exact ⟨.inl (.inl (by simp)), .inr ⟨n, by simp, rfl⟩⟩
    · obtain ⟨h1, h2⟩ := allCycleMoves_regs tmp cs (n + 1) m hm
      rw [List.length_cons]
      refine ⟨?_, ?_⟩
      · rcases h1 with h1 | ⟨j, h3, h4⟩
        · exact .inl (.inr h1)
        · exact .inr ⟨j, by omega, h4⟩
      · rcases h2 with h2 | ⟨j, h3, h4⟩
        · exact .inl (.inr h2)
        · exact .inr ⟨j, by omega, h4⟩

/-- The moves read and write registers of the phis and new ones only. -/
theorem Faithful.regs {tmp : Nat → α} {phis : List (Phi α)} (h : Faithful tmp phis) :
    ∃ ms ps r chains, replacePhis tmp phis = some ms ∧ restored phis = some ps ∧ extract phis = some (r, chains) ∧
      ps.Perm phis ∧
      (∀ m ∈ ms, (m.dst ∈ phis.map (·.dst) ∨ ∃ j, j < chains.length ∧ m.dst = tmp j) ∧
        (m.src ∈ phis.map (·.src) ∨ ∃ j, j < chains.length ∧ m.src = tmp j)) ∧
      ∀ (V : Type) (s : α → V), (∀ p ∈ phis, runMoves ms s p.dst = s p.src) ∧
        ∀ r, r ∉ phis.map (·.dst) → (∀ n, r ≠ tmp n) → runMoves ms s r = s r := by
  obtain ⟨ms, ps, h1, h2, h3, h4⟩ := h
  cases he : extract phis with
  | none => unfold replacePhis at h1; rw [he] at h1; cases h1
  | some x =>
    obtain ⟨r, chains⟩ := x
    refine ⟨ms, ps, r, chains, h1, h2, rfl, h3, ?_, h4⟩
    unfold replacePhis at h1
    unfold restored at h2
    rw [he] at h1 h2
    simp only [Option.bind_some, Option.map_eq_some_iff] at h1 h2
    obtain ⟨nc, h5, rfl⟩ := h1
    obtain ⟨nc', h6, rfl⟩ := h2
    rw [h5] at h6
    cases h6
    intro m hm
    rw [← (h3.map (·.dst)).mem_iff, ← (h3.map (·.src)).mem_iff]
    rw [List.map_append, List.map_append, List.mem_append, List.mem_append]
    rcases List.mem_append.1 hm with hm | hm
    · obtain ⟨p, hp, rfl⟩ := List.mem_map.1 hm
      exact ⟨.inl (.inl (List.mem_map.2 ⟨p, hp, rfl⟩)), .inl (.inl (List.mem_map.2 ⟨p, hp, rfl⟩))⟩
    · obtain ⟨h7, h8⟩ := allCycleMoves_regs tmp chains 0 m hm
      rw [Nat.zero_add] at h7 h8
      exact ⟨h7.imp .inr id, h8.imp .inr id⟩

/-- No phi reads the destination of another one. -/
def Independent (phis : List (Phi α)) : Prop := ∀ p ∈ phis, ∀ q ∈ phis, q.src = p.dst → q = p

theorem cycles_safe (phis : List (Phi α)) (hs : Safe phis) (fuel : Nat) : ∀ i, i ≤ phis.length → phis.length < i + fuel →
    cycles fuel i (phis.map some) phis.length [] = some (phis.map some, []) := by
  induction fuel with
  | zero => intro i h1 h2; omega
  | succ fuel ih =>
    intro i h1 h2
    rw [cycles]
    by_cases hlt : i < phis.length
    · rw [if_pos hlt]
      have e : (phis.map some).getD i none = some (phis[i]) := by
        rw [List.getD_eq_getElem?_getD, List.getElem?_map, List.getElem?_eq_getElem (by omega)]; rfl
      rw [e]
      dsimp only
      have hk : ∀ fuel j, nextInChain (phis.map some) (phis[i]).src i fuel j = some i := by
        intro fuel
        induction fuel with
        | zero => intro j; rfl
        | succ fuel ih2 =>
          intro j
          rw [nextInChain]
          by_cases hj : j < i
          · rw [if_pos hj]
            have e2 : (phis.map some).getD j none = some (phis[j]'(by omega)) := by
              rw [List.getD_eq_getElem?_getD, List.getElem?_map, List.getElem?_eq_getElem (by omega)]; rfl
            rw [e2]
            dsimp only
            rw [if_neg (fun h => List.pairwise_iff_getElem.1 hs j i (by omega) hlt hj h.symm)]
            exact ih2 _
          · rw [if_neg hj]
      rw [hk]
      dsimp only
      rw [if_pos (Nat.le_refl _)]
      exact ih (i + 1) (by omega) (by omega)
    · rw [if_neg hlt, List.take_of_length_le (by simp)]

/-- C44.  Phis that do not read each other's destinations, any number of them. -/
theorem faithful_independent (tmp : Nat → α) (phis : List (Phi α)) (hn : (phis.map (·.dst)).Nodup)
    (hi : Independent phis) : Faithful tmp phis := by
  have hs : Safe phis := by
    unfold Safe
    rw [List.pairwise_iff_getElem]
    intro i j h1 h2 hij he
    have := hi _ (List.getElem_mem h1) _ (List.getElem_mem h2) he
    have h3 := List.pairwise_iff_getElem.1 hn i j (by simpa using h1) (by simpa using h2) hij
    simp only [List.getElem_map] at h3
    exact h3 (by rw [this])
  apply faithful_of_extract tmp phis hn (phis.map some)
  unfold extract
  dsimp only
  rw [order_safe _ _ _ hs]
  exact cycles_safe phis hs _ 0 (by omega) (by omega)

/-- Parallel assignment by a given list of moves, and a given order of the phis. -/
theorem Faithful.mk' {tmp : Nat → α} {phis : List (Phi α)} {ms : List (Mov α)} {ps : List (Phi α)}
    (h1 : replacePhis tmp phis = some ms) (h2 : restored phis = some ps) (h3 : ps.Perm phis)
    (h4 : ∀ (V : Type) (s : α → V), (∀ p ∈ phis, runMoves ms s p.dst = s p.src) ∧
      ∀ r, r ∉ phis.map (·.dst) → (∀ n, r ≠ tmp n) → runMoves ms s r = s r) : Faithful tmp phis :=
  ⟨ms, ps, h1, h2, h3, h4⟩

theorem perm213 {β : Type} (a b c : β) : [b, a, c].Perm [a, b, c] := List.Perm.swap _ _ _
theorem perm132 {β : Type} (a b c : β) : [a, c, b].Perm [a, b, c] := List.Perm.cons _ (List.Perm.swap _ _ _)
theorem perm231 {β : Type} (a b c : β) : [b, c, a].Perm [a, b, c] :=
  (perm132 b a c).trans (perm213 a b c)
theorem perm312 {β : Type} (a b c : β) : [c, a, b].Perm [a, b, c] := (perm213 a c b).trans (perm132 a b c)
theorem perm321 {β : Type} (a b c : β) : [c, b, a].Perm [a, b, c] := (perm132 c a b).trans (perm312 a b c)

set_option maxHeartbeats 4000000 in
/-- C44.  Up to three phis, with any dependencies between them: chains, exchanges and rotations. -/
theorem faithful_three (tmp : Nat → α) (phis : List (Phi α)) (hn : (phis.map (·.dst)).Nodup) (hl : phis.length ≤ 3)
    (ht : ∀ p ∈ phis, tmp 0 ≠ p.dst ∧ tmp 0 ≠ p.src) : Faithful tmp phis := by
  match phis, hl with
  | [], _ => exact faithful_independent tmp [] hn (by simp [Independent])
  | [p], _ => exact faithful_independent tmp [p] hn (by simp [Independent])
  | [⟨a, x⟩, ⟨b, y⟩], _ =>
    simp at hn
    have hba := Ne.symm hn
    simp only [List.forall_mem_cons, List.not_mem_nil, false_implies, implies_true, and_true] at ht
    obtain ⟨⟨ta, tx⟩, ⟨tb, ty⟩⟩ := ht
    have ta' := Ne.symm ta
    have tb' := Ne.symm tb
    have tx' := Ne.symm tx
    have ty' := Ne.symm ty
    by_cases hxa : x = a <;> by_cases hxb : x = b <;> by_cases hya : y = a <;> by_cases hyb : y = b <;>
      first
      | (exfalso; subst_vars; contradiction)
      | ((try have hxa' := Ne.symm hxa) <;> (try have hxb' := Ne.symm hxb) <;> (try have hya' := Ne.symm hya) <;>
          (try have hyb' := Ne.symm hyb) <;> (try subst hxa) <;> (try subst hxb) <;> (try subst hya) <;> (try subst hyb) <;>
          refine Faithful.mk' (by
            simp [replacePhis, extract, order, findDst, moveBefore, cycles, nextInChain, chain, compact, trim,
              allCycleMoves, cycleMoves, List.findIdx?, List.findIdx?.go, *]; rfl) (by
            simp [restored, extract, order, findDst, moveBefore, cycles, nextInChain, chain, compact, trim,
              allCycleMoves, cycleMoves, List.findIdx?, List.findIdx?.go, *]; rfl)
            (by first | exact .refl _ | exact .swap _ _ _) ?_ <;>
          (intro V s; constructor
           · simp [runMoves, *]
           · intro r hr h0
             have h0 := h0 0
             simp at hr
             simp [runMoves, *]))
  | [⟨a, x⟩, ⟨b, y⟩, ⟨c, z⟩], _ =>
    simp at hn
    obtain ⟨⟨hab, hac⟩, hbc⟩ := hn
    have hba := Ne.symm hab
    have hca := Ne.symm hac
    have hcb := Ne.symm hbc
    simp only [List.forall_mem_cons, List.not_mem_nil, false_implies, implies_true, and_true] at ht
    obtain ⟨⟨ta, tx⟩, ⟨tb, ty⟩, tc, tz⟩ := ht
    have ta' := Ne.symm ta
    have tb' := Ne.symm tb
    have tc' := Ne.symm tc
    have tx' := Ne.symm tx
    have ty' := Ne.symm ty
    have tz' := Ne.symm tz
    by_cases hxa : x = a <;> (try (exfalso; subst_vars; contradiction)) <;>
      by_cases hxb : x = b <;> (try (exfalso; subst_vars; contradiction)) <;>
      by_cases hxc : x = c <;> (try (exfalso; subst_vars; contradiction)) <;>
      by_cases hya : y = a <;> (try (exfalso; subst_vars; contradiction)) <;>
      by_cases hyb : y = b <;> (try (exfalso; subst_vars; contradiction)) <;>
      by_cases hyc : y = c <;> (try (exfalso; subst_vars; contradiction)) <;>
      by_cases hza : z = a <;> (try (exfalso; subst_vars; contradiction)) <;>
      by_cases hzb : z = b <;> (try (exfalso; subst_vars; contradiction)) <;>
      by_cases hzc : z = c <;> (try (exfalso; subst_vars; contradiction)) <;>
      ((try have hxa' := Ne.symm hxa) <;> (try have hxb' := Ne.symm hxb) <;> (try have hxc' := Ne.symm hxc) <;> (try have hya' := Ne.symm hya) <;> (try have hyb' := Ne.symm hyb) <;> (try have hyc' := Ne.symm hyc) <;> (try have hza' := Ne.symm hza) <;> (try have hzb' := Ne.symm hzb) <;> (try have hzc' := Ne.symm hzc) <;>
        (try subst hxa) <;> (try subst hxb) <;> (try subst hxc) <;> (try subst hya) <;> (try subst hyb) <;> (try subst hyc) <;> (try subst hza) <;> (try subst hzb) <;> (try subst hzc) <;>
          refine Faithful.mk' (by
            simp [replacePhis, extract, order, findDst, moveBefore, cycles, nextInChain, chain, compact, trim,
              allCycleMoves, cycleMoves, List.findIdx?, List.findIdx?.go, *]; rfl) (by
            simp [restored, extract, order, findDst, moveBefore, cycles, nextInChain, chain, compact, trim,
              allCycleMoves, cycleMoves, List.findIdx?, List.findIdx?.go, *]; rfl)
            (by first | exact .refl _ | exact perm213 _ _ _ | exact perm132 _ _ _ | exact perm231 _ _ _ |
              exact perm312 _ _ _ | exact perm321 _ _ _) ?_ <;>
          (intro V s; constructor
           · simp [runMoves, *]
           · intro r hr h0
             have h0 := h0 0
             simp at hr
             simp [runMoves, *]))

/-- New registers from 100 on. -/
def newRegs (n : Nat) : Nat := 100 + n

/-- C44 is false in general: with two exchanges `a ↔ b` and `c ↔ d` at the same join the extra `++i` of the first
pass hides the second one, the hole-filling reorders it, and the moves `c := d; d := c` lose a value. -/
theorem two_swaps_wrong :
    replacePhis newRegs [⟨0, 1⟩, ⟨1, 0⟩, ⟨2, 3⟩, ⟨3, 2⟩] =
        some [⟨2, 3⟩, ⟨3, 2⟩, ⟨100, 0⟩, ⟨0, 1⟩, ⟨1, 100⟩] ∧
      ¬ Parallel [⟨0, 1⟩, ⟨1, 0⟩, ⟨2, 3⟩, ⟨3, 2⟩] (fun r => r)
        (runMoves [⟨2, 3⟩, ⟨3, 2⟩, ⟨100, 0⟩, ⟨0, 1⟩, ⟨1, 100⟩] (fun r => r)) := by
  refine ⟨by decide, fun h => ?_⟩
  have := h.1 ⟨3, 2⟩ (by simp)
  simp [runMoves] at this

/-- Four phis are not always right even without a cycle: `b = d; d = a; a = c; c = x` in a loop.  The value of `c` is
lost before `a` gets it. -/
theorem shift_wrong :
    replacePhis newRegs [⟨0, 2⟩, ⟨1, 3⟩, ⟨2, 4⟩, ⟨3, 0⟩] =
        some [⟨2, 4⟩, ⟨100, 0⟩, ⟨0, 2⟩, ⟨1, 3⟩, ⟨3, 100⟩] ∧
      runMoves [⟨2, 4⟩, ⟨100, 0⟩, ⟨0, 2⟩, ⟨1, 3⟩, ⟨3, 100⟩] (fun r => r) 0 = 4 := by
  decide

/-- Other sets leave a hole in the vector, so that a null pointer is dereferenced. -/
theorem null_dereference : replacePhis newRegs [⟨0, 0⟩, ⟨1, 0⟩, ⟨2, 0⟩, ⟨3, 2⟩] = none := by decide

/-- Among them `c = a; d = a; a = x; b = y`, which has no cycle. -/
theorem null_dereference_acyclic : replacePhis newRegs [⟨0, 4⟩, ⟨1, 5⟩, ⟨2, 0⟩, ⟨3, 0⟩] = none := by decide

/-- Non-vacuity of `moves_partial`: a chain that the first pass has to reorder. -/
example : extract [⟨0, 7⟩, ⟨1, 0⟩, ⟨2, 8⟩] = some ([some ⟨1, 0⟩, some ⟨0, 7⟩, some ⟨2, 8⟩], []) := by decide

/-- Non-vacuity of `faithful_independent` and `faithful_three`: four independent phis; a rotation of three. -/
example : Independent [⟨0, 7⟩, ⟨1, 1⟩, ⟨2, 8⟩, ⟨3, 7⟩] ∧ (([⟨0, 7⟩, ⟨1, 1⟩, ⟨2, 8⟩, ⟨3, 7⟩] : List (Phi Nat)).map (·.dst)).Nodup := by
  constructor
  · unfold Independent; decide
  · decide
example : ∀ p ∈ ([⟨0, 1⟩, ⟨1, 2⟩, ⟨2, 0⟩] : List (Phi Nat)), newRegs 0 ≠ p.dst ∧ newRegs 0 ≠ p.src := by decide
example : replacePhis newRegs [⟨0, 1⟩, ⟨1, 2⟩, ⟨2, 0⟩] = some [⟨100, 0⟩, ⟨0, 1⟩, ⟨1, 2⟩, ⟨2, 100⟩] := by decide

end Verif.PhiMoves

import Verif.Lib.Qsort.Model

namespace Verif.Qsort
variable {α : Type}

/-- What C requires of a comparison callback (ISO C 7.24.5p4): a total preorder,
consistent under exchange of the arguments. -/
structure TotalPreorder (cmp : α → α → Int) : Prop where
  antisymm : ∀ a b, cmp a b < 0 ↔ 0 < cmp b a
  trans : ∀ a b c, cmp a b ≤ 0 → cmp b c ≤ 0 → cmp a c ≤ 0

theorem TotalPreorder.not_lt {cmp : α → α → Int} (h : TotalPreorder cmp) {a b : α} :
    ¬ cmp a b < 0 ↔ cmp b a ≤ 0 := by
  have := h.antisymm a b
  constructor
  · intro h1; have := mt this.2 h1; omega
  · intro h1 h2; have := this.1 h2; omega

theorem TotalPreorder.le_of_lt {cmp : α → α → Int} {a b : α} (h : cmp a b < 0) : cmp a b ≤ 0 := by
  omega

theorem scanUp_spec (cmp : α → α → Int) (l : List α) (px : Nat) (v : α) (hv : l[px]? = some v)
    (i : Nat) (s : Nat) (hs : i ≤ s) (x : α) (hx : l[s]? = some x) (hxv : ¬ cmp x v < 0) :
    ∃ i', scanUp cmp l px i = some i' ∧ i ≤ i' ∧ i' ≤ s ∧
      (∀ k y, i ≤ k → k < i' → l[k]? = some y → cmp y v < 0) ∧
      (∀ y, l[i']? = some y → ¬ cmp y v < 0) := by
  induction hn : s - i generalizing i with
  | zero =>
    have : i = s := by omega
    subst this
    unfold scanUp
    split
    · rename_i y w h1 h2
      rw [hx] at h1; rw [hv] at h2; cases h1; cases h2
      simp only [hxv, if_false]
      refine ⟨i, rfl, Nat.le_refl _, Nat.le_refl _, ?_, ?_⟩
      · intro k y h1 h2; omega
      · intro y hy; rw [hx] at hy; cases hy; exact hxv
    · rename_i h; exact (h x v hx hv).elim
  | succ n ih =>
    have hlt : i < l.length := by
      have : s < l.length := (List.getElem?_eq_some_iff.1 hx).1
      omega
    unfold scanUp
    split
    · rename_i y w h1 h2
      rw [hv] at h2; cases h2
      split
      · rename_i hy
        obtain ⟨i', e, a, b, c, d⟩ := ih (i + 1) (by omega) (by omega)
        refine ⟨i', e, by omega, b, ?_, d⟩
        intro k z hk1 hk2 hz
        rcases Nat.eq_or_lt_of_le hk1 with h | h
        · subst h; rw [h1] at hz; cases hz; exact hy
        · exact c k z h hk2 hz
      · rename_i hy
        refine ⟨i, rfl, Nat.le_refl _, hs, ?_, ?_⟩
        · intro k y h1 h2; omega
        · intro z hz; rw [h1] at hz; cases hz; exact hy
    · rename_i h; exact (h l[i] v (by simp [hlt]) hv).elim

theorem scanDown_spec (cmp : α → α → Int) (l : List α) (px : Nat) (v : α) (hv : l[px]? = some v)
    (j : Nat) (hj : j < l.length) (s : Nat) (hs : s ≤ j) (x : α) (hx : l[s]? = some x)
    (hxv : ¬ cmp v x < 0) :
    ∃ j', scanDown cmp l px j = some j' ∧ j' ≤ j ∧ s ≤ j' ∧
      (∀ k y, k ≤ j → j' < k → l[k]? = some y → cmp v y < 0) ∧
      (∀ y, l[j']? = some y → ¬ cmp v y < 0) := by
  induction j with
  | zero =>
    have : s = 0 := by omega
    subst this
    simp only [scanDown, hx, hv, hxv, if_false]
    refine ⟨0, rfl, Nat.le_refl _, Nat.le_refl _, ?_, ?_⟩
    · intro k y h1 h2; omega
    · intro y hy; rw [hx] at hy; cases hy; exact hxv
  | succ j ih =>
    have hjx : l[j + 1]? = some l[j + 1] := by simp [hj]
    simp only [scanDown, hjx, hv]
    by_cases hc : cmp v l[j + 1] < 0
    · simp only [hc, if_true]
      have hne : s ≠ j + 1 := by
        intro h; subst h; rw [hx] at hjx; cases hjx; exact hxv hc
      obtain ⟨j', e, a, b, c, d⟩ := ih (by omega) (by omega)
      refine ⟨j', e, by omega, b, ?_, d⟩
      intro k y hk1 hk2 hy
      rcases Nat.eq_or_lt_of_le hk1 with h | h
      · subst h; rw [hjx] at hy; cases hy; exact hc
      · exact c k y (by omega) hk2 hy
    · simp only [hc, if_false]
      refine ⟨j + 1, rfl, Nat.le_refl _, hs, ?_, ?_⟩
      · intro k y h1 h2; omega
      · intro y hy; rw [hjx] at hy; cases hy; exact hc

theorem swap_spec (l : List α) (i j : Nat) (hi : i < l.length) (hj : j < l.length) :
    ∃ l', swap l i j = some l' ∧ l'.Perm l ∧ l'.length = l.length ∧
      (∀ k, l'[k]? = if k = j then l[i]? else if k = i then l[j]? else l[k]?) := by
  refine ⟨(l.set i l[j]).set j l[i], by simp [swap, hi, hj], ?_, by simp, ?_⟩
  · have := Array.swap_perm (xs := l.toArray) (i := i) (j := j) (by simpa) (by simpa)
    have h2 := this.toList
    simpa [Array.toList_swap] using h2
  · intro k
    by_cases h1 : k = j
    · subst h1; simp [hi, hj]
    · by_cases h2 : k = i
      · subst h2; simp [h1, hi, hj, List.getElem?_set, Ne.symm h1]
      · simp [h1, h2, List.getElem?_set, Ne.symm h1, Ne.symm h2]

/-- Result of the partition loop. -/
structure PartOK (cmp : α → α → Int) (l l' : List α) (v : α) (i j : Nat) : Prop where
  perm : l'.Perm l
  hij : j ≤ i
  hij' : i ≤ j + 1
  hi : i < l.length
  lo : ∀ k y, k ≤ j → k < i → l'[k]? = some y → cmp y v ≤ 0
  hi' : ∀ k y, j < k → l'[k]? = some y → cmp v y ≤ 0
  mid : ∀ y, l'[j]? = some y → cmp y v ≤ 0
  midi : ∀ y, l'[i]? = some y → cmp v y ≤ 0

theorem partition_spec (cmp : α → α → Int) (hc : TotalPreorder cmp) (v : α) (fuel : Nat) :
    ∀ (l : List α) (px i j : Nat), l[px]? = some v → j < l.length → i ≤ j + 1 →
      j + 2 ≤ fuel + i →
      (∃ s x, i ≤ s ∧ s ≤ j + 1 ∧ l[s]? = some x ∧ ¬ cmp x v < 0) →
      (∃ s x, s ≤ j ∧ i ≤ s + 1 ∧ l[s]? = some x ∧ ¬ cmp v x < 0) →
      (∀ k y, k < i → l[k]? = some y → cmp y v ≤ 0) →
      (∀ k y, j < k → l[k]? = some y → cmp v y ≤ 0) →
      ∃ l' i' j', partition cmp fuel l px i j = some (l', i', j') ∧ PartOK cmp l l' v i' j' := by
  induction fuel with
  | zero => intro l px i j _ _ h1 h2; omega
  | succ fuel ih =>
    intro l px i j hv hj hij hf ⟨s, x, hs1, hs2, hx, hxv⟩ ⟨t, y, ht1, ht2, hy, hyv⟩ hlo hhi
    obtain ⟨i', ei, hi1, hi2, hi3, hi4⟩ := scanUp_spec cmp l px v hv i s hs1 x hx hxv
    obtain ⟨j', ej, hj1, hj2, hj3, hj4⟩ := scanDown_spec cmp l px v hv j hj t ht1 y hy hyv
    have hil : i' < l.length := by
      have := (List.getElem?_eq_some_iff.1 hx).1; omega
    have hi'x : l[i']? = some l[i'] := by simp [hil]
    have hj'l : j' < l.length := by omega
    have hj'x : l[j']? = some l[j'] := by simp [hj'l]
    have hLo : ∀ k y, k < i' → l[k]? = some y → cmp y v ≤ 0 := by
      intro k y hk hy'
      by_cases h : k < i
      · exact hlo k y h hy'
      · have := hi3 k y (by omega) hk hy'; omega
    have hHi : ∀ k y, j' < k → l[k]? = some y → cmp v y ≤ 0 := by
      intro k y hk hy'
      by_cases h : j < k
      · exact hhi k y h hy'
      · have := hj3 k y (by omega) hk hy'; omega
    simp only [partition, ei, ej, Option.bind_eq_bind, Option.bind_some]
    by_cases hge : i' ≥ j'
    · simp only [hge, if_true]
      refine ⟨l, i', j', rfl, List.Perm.refl _, hge, ?_, hil, ?_, hHi, ?_, ?_⟩
      · -- i' ≤ j' + 1
        rcases Nat.lt_or_ge (j' + 1) i' with h | h
        · exfalso
          -- index j'+1 was skipped by both scans
          have hkl : j' + 1 < l.length := by omega
          have hkx : l[j' + 1]? = some l[j' + 1] := by simp [hkl]
          by_cases h1 : i ≤ j' + 1
          · have a := hi3 (j' + 1) _ h1 h hkx
            by_cases h2 : j' + 1 ≤ j
            · have b := hj3 (j' + 1) _ h2 (by omega) hkx
              have := (hc.antisymm _ _).1 a
              omega
            · omega
          · omega
        · exact h
      · intro k y _ hk hy'; exact hLo k y hk hy'
      · intro y hy'; exact (hc.not_lt).1 (hj4 y hy')
      · intro y hy'; exact (hc.not_lt).1 (hi4 y hy')
    · simp only [hge, if_false]
      have hlt : i' < j' := by omega
      obtain ⟨l2, e2, hp, hlen, hget⟩ := swap_spec l i' j' hil hj'l
      simp only [e2, Option.bind_some]
      have hij2 : (i' ≠ j') := by omega
      have := ih l2 (if px = i' then j' else if px = j' then i' else px) (i' + 1) (j' - 1)
        (by
          rw [hget]
          by_cases h1 : px = i'
          · subst h1; simp [hv]
          · by_cases h2 : px = j'
            · subst h2; simp [h1, hv, hij2]
            · simp [h1, h2, hv])
        (by omega) (by omega) (by omega)
        ⟨j', l[i'], by omega, by omega, by rw [hget]; simp [hil], hi4 _ hi'x⟩
        ⟨i', l[j'], by omega, by omega, by rw [hget]; simp [hj'l, hij2], hj4 _ hj'x⟩
        (by
          intro k y hk hy'
          rw [hget] at hy'
          by_cases h1 : k = i'
          · subst h1
            simp only [hij2, if_false, if_true] at hy'
            exact (hc.not_lt).1 (hj4 y hy')
          · have : k ≠ j' := by omega
            simp only [this, h1, if_false] at hy'
            exact hLo k y (by omega) hy')
        (by
          intro k y hk hy'
          rw [hget] at hy'
          by_cases h1 : k = j'
          · subst h1
            simp only [if_true] at hy'
            exact (hc.not_lt).1 (hi4 y hy')
          · have : k ≠ i' := by omega
            simp only [this, h1, if_false] at hy'
            exact hHi k y (by omega) hy')
      obtain ⟨l', a, b, e, ok⟩ := this
      refine ⟨l', a, b, e, ?_⟩
      exact ⟨ok.perm.trans hp, ok.hij, ok.hij', hlen ▸ ok.hi, ok.lo, ok.hi', ok.mid, ok.midi⟩

end Verif.Qsort

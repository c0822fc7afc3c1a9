import Verif.Lib.Qsort.Lemmas

/-! Property theorems C01 (qsort) and C02 (bsearch). -/
namespace Verif.Qsort
variable {α : Type}

private theorem getElem?_mem_take {l : List α} {n : Nat} {x : α} (h : x ∈ l.take n) :
    ∃ k, k < n ∧ l[k]? = some x := by
  obtain ⟨k, hk, e⟩ := List.mem_iff_getElem.1 h
  rw [List.length_take] at hk
  refine ⟨k, by omega, ?_⟩
  rw [List.getElem_take] at e
  rw [← e]; simp

private theorem getElem?_mem_drop {l : List α} {n : Nat} {x : α} (h : x ∈ l.drop n) :
    ∃ k, n ≤ k ∧ l[k]? = some x := by
  obtain ⟨k, hk, e⟩ := List.mem_iff_getElem.1 h
  refine ⟨n + k, by omega, ?_⟩
  rw [List.getElem_drop] at e
  rw [← e]; simp

private theorem pairwise_short {R : α → α → Prop} {l : List α} (h : l.length ≤ 1) : l.Pairwise R := by
  match l, h with
  | [], _ => exact List.Pairwise.nil
  | [x], _ => exact List.pairwise_singleton R x

/-- **C01.** For every comparison callback that is a total preorder and every
array, `qsort` terminates without touching memory outside the array, and leaves
a permutation of the original contents ordered by the callback. -/
theorem qsort_sorts (cmp : α → α → Int) (hc : TotalPreorder cmp) (l : List α) (fuel : Nat)
    (hf : l.length < fuel) :
    ∃ l', qsort cmp fuel l = some l' ∧ l'.Perm l ∧ l'.Pairwise (fun a b => cmp a b ≤ 0) := by
  induction fuel generalizing l with
  | zero => omega
  | succ fuel ih =>
    unfold qsort
    by_cases h1 : l.length ≤ 1
    · exact ⟨l, by simp [h1], List.Perm.refl _, pairwise_short h1⟩
    · simp only [h1, if_false]
      have hm : l.length / 2 < l.length := by omega
      have hmx : l[l.length / 2]? = some l[l.length / 2] := by simp [hm]
      have hself : ¬ cmp l[l.length / 2] l[l.length / 2] < 0 := by
        intro h; have := (hc.antisymm _ _).1 h; omega
      obtain ⟨l1, i, j, e, ok⟩ := partition_spec cmp hc l[l.length / 2] (l.length + 1) l
        (l.length / 2) 0 (l.length - 1) hmx (by omega) (by omega) (by omega)
        ⟨l.length / 2, _, by omega, by omega, hmx, hself⟩
        ⟨l.length / 2, _, by omega, by omega, hmx, hself⟩
        (by intro k y hk; omega)
        (by intro k y hk hy
            have := (List.getElem?_eq_some_iff.1 hy).1; omega)
      generalize l[l.length / 2] = v at ok
      have hlen : l1.length = l.length := ok.perm.length_eq
      -- first recursive call
      obtain ⟨s1, es1, hp1, hs1⟩ : ∃ s1, (if i > 1 then (do
            let s ← qsort cmp fuel (l1.take i)
            pure (s ++ l1.drop i)) else pure l1) = some (s1 ++ l1.drop i) ∧ s1.Perm (l1.take i) ∧
            s1.Pairwise (fun a b => cmp a b ≤ 0) := by
        by_cases h2 : i > 1
        · obtain ⟨s, es, hp, hs⟩ := ih (l1.take i) (by have := ok.hi; simp; omega)
          exact ⟨s, by simp [h2, es], hp, hs⟩
        · refine ⟨l1.take i, by simp [h2], List.Perm.refl _, pairwise_short ?_⟩
          simp; omega
      have hl1 : s1.length = i := by
        have := hp1.length_eq; simp at this; have := ok.hi; omega
      have hsplit : (s1 ++ l1.drop i).drop (j + 1) = l1.drop (j + 1) := by
        have := ok.hij'
        rw [List.drop_append, List.drop_drop, List.drop_of_length_le (by omega)]
        simp only [List.nil_append]; congr 1; omega
      -- second recursive call
      obtain ⟨s2, es2, hp2, hs2⟩ : ∃ s2, (if j + 2 < l.length then (do
            let s ← qsort cmp fuel ((s1 ++ l1.drop i).drop (j + 1))
            pure ((s1 ++ l1.drop i).take (j + 1) ++ s)) else pure (s1 ++ l1.drop i))
            = some ((s1 ++ l1.drop i).take (j + 1) ++ s2) ∧ s2.Perm (l1.drop (j + 1)) ∧
            s2.Pairwise (fun a b => cmp a b ≤ 0) := by
        by_cases h2 : j + 2 < l.length
        · obtain ⟨s, es, hp, hs⟩ := ih (l1.drop (j + 1)) (by have := ok.hi; simp; omega)
          exact ⟨s, by simp [h2, hsplit, es], hp, hs⟩
        · refine ⟨l1.drop (j + 1), ?_, List.Perm.refl _, pairwise_short ?_⟩
          · simp only [h2, if_false]
            rw [← hsplit, List.take_append_drop]; rfl
          · simp; omega
      have hs1le : ∀ x ∈ s1, cmp x v ≤ 0 := by
        intro x hx
        obtain ⟨k, hk, hkx⟩ := getElem?_mem_take (hp1.mem_iff.1 hx)
        by_cases hkj : k ≤ j
        · exact ok.lo k x hkj hk hkx
        · have := ok.hij'; omega
      have hs2ge : ∀ x ∈ s2, cmp v x ≤ 0 := by
        intro x hx
        obtain ⟨k, hk, hkx⟩ := getElem?_mem_drop (hp2.mem_iff.1 hx)
        exact ok.hi' k x (by omega) hkx
      -- the middle part has at most one element
      have htake : (s1 ++ l1.drop i).take (j + 1) = s1 ++ (l1.drop i).take (j + 1 - i) := by
        rw [List.take_append, hl1, List.take_of_length_le (by have := ok.hij'; omega)]
      refine ⟨(s1 ++ l1.drop i).take (j + 1) ++ s2, ?_, ?_, ?_⟩
      · simp only [e, Option.bind_eq_bind, Option.bind_some]
        simp only [Option.bind_eq_bind, Option.pure_def] at es1 es2 ⊢
        rw [es1]
        simp only [Option.bind_some]
        exact es2
      · have a : ((s1 ++ l1.drop i).take (j + 1) ++ s2).Perm
            ((s1 ++ l1.drop i).take (j + 1) ++ l1.drop (j + 1)) := hp2.append_left _
        rw [← hsplit, List.take_append_drop] at a
        have b : (s1 ++ l1.drop i).Perm (l1.take i ++ l1.drop i) := hp1.append_right _
        rw [List.take_append_drop] at b
        exact a.trans (b.trans ok.perm)
      · rw [htake]
        have hmidmem : ∀ x ∈ (l1.drop i).take (j + 1 - i), cmp x v ≤ 0 ∧ cmp v x ≤ 0 := by
          intro x hx
          obtain ⟨k, hk, hkx⟩ := getElem?_mem_take hx
          have hij := ok.hij
          rw [List.getElem?_drop] at hkx
          have h1 : i + k = j := by omega
          have h2 : i + k = i := by omega
          rw [h1] at hkx
          refine ⟨ok.mid x hkx, ?_⟩
          rw [← h1, h2] at hkx
          exact ok.midi x hkx
        rw [List.pairwise_append, List.pairwise_append]
        refine ⟨⟨hs1, pairwise_short ?_, ?_⟩, hs2, ?_⟩
        · simp; have := ok.hij; omega
        · intro a ha b hb
          exact hc.trans _ _ _ (hs1le a ha) (hmidmem b hb).2
        · intro a ha b hb
          rcases List.mem_append.1 ha with ha | ha
          · exact hc.trans _ _ _ (hs1le a ha) (hs2ge b hb)
          · exact hc.trans _ _ _ (hmidmem a ha).1 (hs2ge b hb)

/-- Hypotheses of C01 are met by ordinary integer comparison, with duplicates. -/
example : TotalPreorder (fun a b : Int => a - b) := ⟨by intros; omega, by intros; omega⟩
example : qsort (fun a b : Int => a - b) 8 [3, 1, 2, 3, -5, 0, 3] = some [-5, 0, 1, 2, 3, 3, 3] := by
  decide +kernel

/-- A key is *located* in the array by `cmpk` if the array is partitioned into
elements below, equal to and above the key, in this order (this is what
`bsearch` requires of the array, ISO C 7.24.5.1p2). -/
def Partitioned (cmpk : α → Int) (l : List α) : Prop :=
  l.Pairwise (fun a b => cmpk b ≤ cmpk a ∨ (0 < cmpk a ∧ 0 < cmpk b) ∨ (cmpk a < 0 ∧ cmpk b < 0))

private theorem bsearch_window (cmpk : α → Int) (l : List α) (hs : Partitioned cmpk l) (n base : Nat)
    (hb : base + n ≤ l.length)
    (hlo : ∀ k x, k < base → l[k]? = some x → 0 < cmpk x)
    (hhi : ∀ k x, base + n ≤ k → l[k]? = some x → cmpk x < 0) :
    (∃ p x, bsearch cmpk l base n = some (.found p) ∧ l[p]? = some x ∧ cmpk x = 0) ∨
    (bsearch cmpk l base n = some .null ∧ ∀ x ∈ l, cmpk x ≠ 0) := by
  induction n using Nat.strongRecOn generalizing base with
  | ind n ih =>
    unfold bsearch
    by_cases hn : n > 0
    · simp only [hn, dif_pos]
      have hm : base + n / 2 < l.length := by omega
      have hmx : l[base + n / 2]? = some l[base + n / 2] := by simp [hm]
      have hpw := List.pairwise_iff_getElem.1 hs
      simp only [hmx]
      by_cases h1 : cmpk l[base + n / 2] < 0
      · simp only [h1, if_true]
        refine ih (n / 2) (by omega) base (by omega) hlo ?_
        intro k x hk hx
        obtain ⟨hkl, hkx⟩ := List.getElem?_eq_some_iff.1 hx
        rcases Nat.eq_or_lt_of_le hk with h | h
        · subst h; rw [hkx] at h1; exact h1
        · have := hpw (base + n / 2) k hm hkl h
          rw [hkx] at this; omega
      · simp only [h1, if_false]
        by_cases h2 : cmpk l[base + n / 2] > 0
        · simp only [h2, if_true]
          refine ih (n - (n / 2 + 1)) (by omega) (base + n / 2 + 1) (by omega) ?_ ?_
          · intro k x hk hx
            obtain ⟨hkl, hkx⟩ := List.getElem?_eq_some_iff.1 hx
            rcases Nat.eq_or_lt_of_le (Nat.lt_succ_iff.1 hk) with h | h
            · subst h; rw [hkx] at h2; exact h2
            · have := hpw k (base + n / 2) hkl hm h
              rw [hkx] at this; omega
          · intro k x hk hx; exact hhi k x (by omega) hx
        · simp only [h2, if_false]
          exact Or.inl ⟨_, _, rfl, hmx, by omega⟩
    · right
      simp only [hn]
      refine ⟨rfl, ?_⟩
      intro x hx
      obtain ⟨k, hk, e⟩ := List.mem_iff_getElem.1 hx
      have hkx : l[k]? = some x := by simp [hk, e]
      by_cases h : k < base
      · have := hlo k x h hkx; omega
      · have := hhi k x (by omega) hkx; omega

/-- **C02.** On every array partitioned by the key, `bsearch` terminates without
leaving the array and returns an element equal to the key, or NULL exactly when
there is none. -/
theorem bsearch_correct (cmpk : α → Int) (l : List α) (hs : Partitioned cmpk l) :
    (∃ p x, bsearch cmpk l 0 l.length = some (.found p) ∧ l[p]? = some x ∧ cmpk x = 0) ∨
    (bsearch cmpk l 0 l.length = some .null ∧ ∀ x ∈ l, cmpk x ≠ 0) :=
  bsearch_window cmpk l hs l.length 0 (by omega) (by intro k x h; omega)
    (by intro k x h hx; have := (List.getElem?_eq_some_iff.1 hx).1; omega)

/-- Every array sorted by a total preorder is partitioned for each key, so the
theorem applies to the arrays `qsort` produces. -/
theorem partitioned_of_sorted (cmp : α → α → Int) (hc : TotalPreorder cmp) (key : α) (l : List α)
    (hs : l.Pairwise (fun a b => cmp a b ≤ 0)) : Partitioned (cmp key) l := by
  refine hs.imp ?_
  intro a b hab
  rcases Int.lt_trichotomy (cmp key a) 0 with h | h | h
  · right; right; refine ⟨h, ?_⟩
    rcases Int.lt_or_le (cmp key b) 0 with h2 | h2
    · exact h2
    · have hb : cmp b key ≤ 0 := hc.not_lt.1 (by omega)
      have := hc.trans _ _ _ hab hb
      have := (hc.antisymm _ _).1 h
      omega
  · left
    have := hc.trans _ _ _ (by omega : cmp key a ≤ 0) hab
    omega
  · rcases Int.lt_or_le 0 (cmp key b) with h2 | h2
    · right; left; exact ⟨h, h2⟩
    · left; omega

/-- **C01+C02.** Searching the result of sorting finds a key iff an equal element was
in the original array. -/
theorem bsearch_after_qsort (cmp : α → α → Int) (hc : TotalPreorder cmp) (l : List α) (key : α) :
    ∃ l', qsort cmp (l.length + 1) l = some l' ∧
      ((∃ p x, bsearch (cmp key) l' 0 l'.length = some (.found p) ∧ l'[p]? = some x ∧ cmp key x = 0
        ∧ x ∈ l) ∨
       (bsearch (cmp key) l' 0 l'.length = some .null ∧ ∀ x ∈ l, cmp key x ≠ 0)) := by
  obtain ⟨l', e, hp, hs⟩ := qsort_sorts cmp hc l (l.length + 1) (by omega)
  refine ⟨l', e, ?_⟩
  rcases bsearch_correct (cmp key) l' (partitioned_of_sorted cmp hc key l' hs) with
    ⟨p, x, a, b, c⟩ | ⟨a, b⟩
  · exact Or.inl ⟨p, x, a, b, c, hp.mem_iff.1 (List.mem_of_getElem? b)⟩
  · exact Or.inr ⟨a, fun x hx => b x (hp.mem_iff.2 hx)⟩

example : Partitioned (fun x : Int => 3 - x) [1, 2, 3, 3, 5] := by
  simp [Partitioned]
example : bsearch (fun x : Int => 5 - x) [1, 2, 3, 3, 5] 0 5 = some (.found 4) := by decide +kernel

end Verif.Qsort

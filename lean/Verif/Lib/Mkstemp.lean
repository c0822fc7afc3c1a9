/-!
# mkstemps

libsrc/stdlib/mkstemps.c.  The numbers of `nrand48` are a list, any list.
-/

namespace Verif.Mkstemp

/-- `kLetters`, libsrc/stdlib/mkstemps.c:11. -/
def kLetters : List Nat :=
  "0123456789ABCDEFGHIJKLMNOPQRSTUVWXYZabcdefghijklmnopqrstuvwxyz".toList.map Char.toNat

/-- `RNDMAX`, mkstemps.c:13. -/
def rndMax : Nat := 2 ^ 31 / 62 * 62

/-- mkstemps.c:32-36: numbers are drawn until one is below `RNDMAX`; the letter and the
numbers left.  `none`: the numbers do not suffice. -/
def draw : List Nat → Option (Nat × List Nat)
  | [] => none
  | r :: rs => if r ≥ rndMax then draw rs else some (kLetters.getD (r % 62) 0, rs)

/-- The loop, mkstemps.c:27-37, on the string from `p` on: the string after, and
whether the end was reached. -/
def fill : Nat → List Nat → List Nat → Option (List Nat × Bool)
  | 0, p, _ => some (p, true)
  | _ + 1, [], _ => some ([], false)
  | j + 1, c :: p, rs =>
    if c ≠ 88 then some (c :: p, false)
    else match draw rs with
      | none => none
      | some (l, rs) => (fill j p rs).map fun x => (l :: x.1, x.2)

/-- `mkstemps`, mkstemps.c:9-41, before the call of `open`: the template after, and
whether the file is opened (else `EINVAL`).  `suffixlen` is not negative. -/
def mkstemps (tmpl : List Nat) (suffixlen : Nat) (rs : List Nat) : Option (List Nat × Bool) :=
  if tmpl.length < 6 + suffixlen then some (tmpl, false)
  else (fill 6 (tmpl.drop (tmpl.length - suffixlen - 6)) rs).map
    fun x => (tmpl.take (tmpl.length - suffixlen - 6) ++ x.1, x.2)

/-- A letter or digit of ASCII. -/
def Alnum (c : Nat) : Prop := (48 ≤ c ∧ c ≤ 57) ∨ (65 ≤ c ∧ c ≤ 90) ∨ (97 ≤ c ∧ c ≤ 122)

instance (c : Nat) : Decidable (Alnum c) := by unfold Alnum; infer_instance

theorem letters_alnum : ∀ c ∈ kLetters, Alnum c := by decide +kernel

theorem alnum_letters (c : Nat) (h : Alnum c) : c ∈ kLetters := by
  have hd : ∀ c < 123, Alnum c → c ∈ kLetters := by decide +kernel
  exact hd c (by unfold Alnum at h; omega) h

theorem letter_ok (r : Nat) : Alnum (kLetters.getD (r % 62) 0) := by
  have hl : kLetters.length = 62 := by decide +kernel
  have h : r % 62 < kLetters.length := by rw [hl]; exact Nat.mod_lt _ (by decide)
  rw [List.getD_eq_getElem?_getD, List.getElem?_eq_getElem h]
  exact letters_alnum _ (List.getElem_mem h)

theorem draw_ok {rs rs' : List Nat} {l : Nat} (h : draw rs = some (l, rs')) : Alnum l := by
  induction rs with
  | nil => cases h
  | cons r rs ih =>
    rw [draw] at h
    split at h
    · exact ih h
    · cases h
      exact letter_ok r

theorem fill_ok : ∀ (j : Nat) (suf rs : List Nat) {t : List Nat} {ok : Bool},
    fill j (List.replicate j 88 ++ suf) rs = some (t, ok) →
    ok = true ∧ ∃ ls, t = ls ++ suf ∧ ls.length = j ∧ ∀ c ∈ ls, Alnum c
  | 0, suf, rs, t, ok, h => by
    simp only [fill, List.replicate_zero, List.nil_append, Option.some.injEq, Prod.mk.injEq] at h
    exact ⟨h.2.symm, [], by simp [h.1], rfl, by simp⟩
  | j + 1, suf, rs, t, ok, h => by
    rw [List.replicate_succ, List.cons_append, fill, if_neg (by simp)] at h
    cases hd : draw rs with
    | none => rw [hd] at h; cases h
    | some x =>
      obtain ⟨l, rs'⟩ := x
      rw [hd] at h
      simp only [Option.map_eq_some_iff, Prod.mk.injEq] at h
      obtain ⟨⟨t', ok'⟩, hf, rfl, rfl⟩ := h
      obtain ⟨h1, ls, rfl, h3, h4⟩ := fill_ok j suf rs' hf
      refine ⟨h1, l :: ls, rfl, by simp [h3], ?_⟩
      intro c hc
      rcases List.mem_cons.1 hc with rfl | hc
      · exact draw_ok hd
      · exact h4 c hc

theorem fill_bad : ∀ (j : Nat) (p rs : List Nat) {t : List Nat}, fill j p rs = some (t, true) →
    ∃ suf, p = List.replicate j 88 ++ suf
  | 0, p, _, _, _ => ⟨p, by simp⟩
  | j + 1, [], rs, t, h => by simp [fill] at h
  | j + 1, c :: p, rs, t, h => by
    rw [fill] at h
    split at h
    · simp at h
    · rename_i hc
      have hc : c = 88 := by simpa using hc
      cases hd : draw rs with
      | none => rw [hd] at h; cases h
      | some x =>
        obtain ⟨l, rs'⟩ := x
        rw [hd] at h
        simp only [Option.map_eq_some_iff, Prod.mk.injEq] at h
        obtain ⟨⟨t', ok'⟩, hf, -, h2⟩ := h
        dsimp only at h2
        subst h2
        obtain ⟨suf, rfl⟩ := fill_bad j p rs' hf
        exact ⟨suf, by rw [hc]; rfl⟩

/-- C95: with six `X` before the suffix, these and nothing else are replaced, by
letters and digits, and the file is opened. -/
theorem template_filled (pre suf rs : List Nat) {t : List Nat} {ok : Bool}
    (h : mkstemps (pre ++ List.replicate 6 88 ++ suf) suf.length rs = some (t, ok)) :
    ok = true ∧ ∃ ls, t = pre ++ ls ++ suf ∧ ls.length = 6 ∧ ∀ c ∈ ls, Alnum c := by
  have hlen : (pre ++ List.replicate 6 88 ++ suf).length - suf.length - 6 = pre.length := by
    simp only [List.length_append, List.length_replicate]
    omega
  rw [mkstemps, if_neg (by simp only [List.length_append, List.length_replicate]; omega), hlen, List.append_assoc,
    List.drop_left, List.take_left] at h
  simp only [Option.map_eq_some_iff, Prod.mk.injEq] at h
  obtain ⟨⟨t', ok'⟩, hf, rfl, rfl⟩ := h
  obtain ⟨h1, ls, h2, h3, h4⟩ := fill_ok 6 suf rs hf
  dsimp only at h2 ⊢
  exact ⟨h1, ls, by rw [h2, List.append_assoc], h3, h4⟩

/-- C95: a file is opened only if there are six `X` before the suffix. -/
theorem template_required (tmpl rs : List Nat) (n : Nat) {t : List Nat} (h : mkstemps tmpl n rs = some (t, true)) :
    ∃ pre suf, tmpl = pre ++ List.replicate 6 88 ++ suf ∧ suf.length = n := by
  rw [mkstemps] at h
  split at h
  · simp at h
  · rename_i hlen
    simp only [Option.map_eq_some_iff, Prod.mk.injEq] at h
    obtain ⟨⟨t', ok'⟩, hf, -, h2⟩ := h
    dsimp only at h2
    subst h2
    obtain ⟨suf, hs⟩ := fill_bad 6 _ rs hf
    refine ⟨tmpl.take (tmpl.length - n - 6), suf, ?_, ?_⟩
    · rw [List.append_assoc, ← hs, List.take_append_drop]
    · have := congrArg List.length hs
      simp only [List.length_drop, List.length_append, List.length_replicate] at this
      omega

theorem draw_below {r : Nat} (h : r < rndMax) (rs : List Nat) : draw (r :: rs) = some (kLetters.getD (r % 62) 0, rs) := by
  rw [draw, if_neg (by omega)]

/-- C95: every name can come out: for any six letters or digits there are numbers
that give them. -/
theorem every_name (pre suf : List Nat) (ls : List Nat) (hl : ls.length = 6) (ha : ∀ c ∈ ls, Alnum c) :
    ∃ rs, mkstemps (pre ++ List.replicate 6 88 ++ suf) suf.length rs = some (pre ++ ls ++ suf, true) := by
  have hfill : ∀ (ls : List Nat), (∀ c ∈ ls, c ∈ kLetters) →
      ∃ rs, fill ls.length (List.replicate ls.length 88 ++ suf) rs = some (ls ++ suf, true) := by
    intro ls
    induction ls with
    | nil => exact fun _ => ⟨[], rfl⟩
    | cons c ls ih =>
      intro h
      obtain ⟨rs, hr⟩ := ih (fun x hx => h x (by simp [hx]))
      obtain ⟨i, hi, hc⟩ := List.getElem_of_mem (h c (by simp))
      have h62 : kLetters.length = 62 := by decide +kernel
      have hlt : i < rndMax := by
        have : 62 ≤ rndMax := by decide +kernel
        omega
      refine ⟨i :: rs, ?_⟩
      rw [List.length_cons, List.replicate_succ, List.cons_append, fill, if_neg (by simp), draw_below hlt,
        Nat.mod_eq_of_lt (by omega), List.getD_eq_getElem?_getD, List.getElem?_eq_getElem hi, hc]
      simp only [hr, Option.map_some, Option.getD_some, List.cons_append]
  obtain ⟨rs, hr⟩ := hfill ls (fun c hc => alnum_letters c (ha c hc))
  rw [hl] at hr
  have hlen : (pre ++ List.replicate 6 88 ++ suf).length - suf.length - 6 = pre.length := by
    simp only [List.length_append, List.length_replicate]
    omega
  refine ⟨rs, ?_⟩
  rw [mkstemps, if_neg (by simp only [List.length_append, List.length_replicate]; omega), hlen, List.append_assoc,
    List.drop_left, List.take_left, hr]
  simp

/-- Finding: a template without six `X` is refused, but the `X` before the first other
character have been replaced by then (mkstemps.c:28 tests while it replaces). -/
theorem refused_but_changed : mkstemps [88, 88, 97, 88, 88, 88] 0 [0, 1, 2, 3] = some ([48, 49, 97, 88, 88, 88], false) := by
  decide +kernel

/-- `/t/XXXXXX.c` -/
example : mkstemps ([47, 116, 47] ++ List.replicate 6 88 ++ [46, 99]) 2 [0, 10, 36, 2147483647, 61, 1, 2] =
    some ([47, 116, 47, 48, 65, 97, 122, 49, 50, 46, 99], true) := by
  decide +kernel

end Verif.Mkstemp

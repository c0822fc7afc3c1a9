import Mathlib.Tactic.Tauto
import Mathlib.Tactic.ByContra

/-
C34 (part 1): linear scan register allocation.

Model of `src/cc/backend/regalloc.c`: `insert_active`, `split_at_interval`,
`expire_old_intervals` and `linear_scan_register_allocation`.

Simplifications common to this file
* register bit sets (`unsigned long`) are predicates `Nat → Bool`; the code asserts that the number
  of registers is smaller than the number of bits (regalloc.c:454-455), so no bit is lost;
* the mutable fields `phys`/`state` of a `LiveInterval` are kept in a map from the virtual register
  number: `some r` is `state == LI_NORMAL, phys == r`, `none` is "spilled" (or not visited yet);
* a failed assertion is `none`.
-/

namespace Verif.LinearScan

/-- regalloc.h `LiveInterval` with the fields of its `VReg` which the allocator looks at
(regalloc.c:322-351): `flo` is `flag & VRF_FLONUM`, `ip` is `reg_param_index` when it is not
negative, `skip` is "the vreg was deleted or is already spilled" (regalloc.c:324-327). -/
structure LI where
  virt : Nat
  start : Int
  stop : Int
  occ : Nat → Bool
  flo : Bool
  ip : Option Nat
  skip : Bool

/-- regalloc.h `RegAllocSettings`: sizes of the two register files, number of temporary registers,
and `reg_param_mapping` (`none` for a negative entry). -/
structure Settings where
  physMax : Nat
  physTemp : Nat
  fphysMax : Nat
  fphysTemp : Nat
  mapping : Nat → Option Nat

/-- `phys_max` of the register set used for `li` (regalloc.c:305-320, 331-333). -/
def Settings.max (s : Settings) (flo : Bool) : Nat := if flo then s.fphysMax else s.physMax
/-- `phys_temporary` of the register set used for `li` (regalloc.c:305-320, 331-333). -/
def Settings.temp (s : Settings) (flo : Bool) : Nat := if flo then s.fphysTemp else s.physTemp

/-- regalloc.c:141-148 `PhysicalRegisterSet` (its mutable part). -/
structure PRS where
  active : List LI
  using_ : Nat → Bool
  used : Nat → Bool

/-- State of the loop at regalloc.c:322-370. -/
structure St where
  iset : PRS
  fset : PRS
  phys : Nat → Option Nat

/-- The register set for a class (regalloc.c:331-333). -/
def St.set (st : St) (flo : Bool) : PRS := if flo then st.fset else st.iset

/-- Write back through `prsp`. -/
def St.put (st : St) (flo : Bool) (p : PRS) : St :=
  if flo then { st with fset := p } else { st with iset := p }

/-- regalloc.c:92-103 `insert_active`: before the first interval which ends later. -/
def insertActive (li : LI) : List LI → List LI
  | [] => [li]
  | p :: ps => if li.stop < p.stop then li :: p :: ps else p :: insertActive li ps

/-- regalloc.c:150-164 `expire_old_intervals`. -/
def expire (phys : Nat → Option Nat) (p : PRS) (start : Int) : PRS :=
  let gone := p.active.takeWhile (fun a => decide (a.stop ≤ start))
  { p with
    active := p.active.dropWhile (fun a => decide (a.stop ≤ start)),
    using_ := fun r => p.using_ r && !(gone.any (fun a => decide (phys a.virt = some r))) }

/-- regalloc.c:352-359: the first register `≥ from` which is not occupied. -/
def firstFree (occupied : Nat → Bool) (start max : Nat) : Option Nat :=
  (List.range' start (max - start)).find? (fun j => !occupied j)

/-- regalloc.c:334-359: the choice of a register. -/
def pickReg (s : Settings) (li : LI) (occupied : Nat → Bool) : Option Nat :=
  match li.ip with
  | none => firstFree occupied 0 (s.max li.flo)
  | some i =>
    match (if li.flo then some i else s.mapping i) with
    | some r =>
      if !occupied r then some r else firstFree occupied (s.temp li.flo) (s.max li.flo)
    | none => firstFree occupied (s.temp li.flo) (s.max li.flo)

/-- Update of the map `phys`. -/
def setPhys (phys : Nat → Option Nat) (v : Nat) (x : Option Nat) : Nat → Option Nat :=
  fun w => if w = v then x else phys w

/-- regalloc.c:126-139 `split_at_interval`. -/
def splitAtInterval (phys : Nat → Option Nat) (active : List LI) (li : LI) :
    Option ((Nat → Option Nat) × List LI) :=
  match active.getLast? with
  | none => none
  | some spill =>
    if spill.stop > li.stop then
      some (setPhys (setPhys phys li.virt (phys spill.virt)) spill.virt none,
            insertActive li active.dropLast)
    else some (setPhys phys li.virt none, active)

/-- regalloc.c:323-369: the body of the loop. -/
def allocOne (s : Settings) (st : St) (li : LI) : Option St :=
  if li.skip then some st
  else
    let st1 : St := { st with iset := expire st.phys st.iset li.start,
                              fset := expire st.phys st.fset li.start }
    let p := st1.set li.flo
    match pickReg s li (fun r => p.using_ r || li.occ r) with
    | some r =>
      let u := fun x => p.using_ x || decide (x = r)
      some ({ st1 with phys := setPhys st1.phys li.virt (some r) }.put li.flo
        { active := insertActive li p.active, using_ := u, used := fun x => p.used x || u x })
    | none =>
      match splitAtInterval st1.phys p.active li with
      | none => none
      | some (phys, active) =>
        some ({ st1 with phys := phys }.put li.flo
          { active := active, using_ := p.using_, used := fun x => p.used x || p.using_ x })

/-- regalloc.c:305-320: initial state. -/
def St.init : St :=
  { iset := ⟨[], fun _ => false, fun _ => false⟩, fset := ⟨[], fun _ => false, fun _ => false⟩,
    phys := fun _ => none }

/-- regalloc.c:303-373 `linear_scan_register_allocation`. -/
def scan (s : Settings) (xs : List LI) : Option St := xs.foldlM (allocOne s) St.init

/-! ### Lemmas -/

theorem mem_insertActive {li x : LI} {xs : List LI} :
    x ∈ insertActive li xs ↔ x = li ∨ x ∈ xs := by
  induction xs with
  | nil => simp [insertActive]
  | cons p ps ih =>
    simp only [insertActive]
    split
    · simp
    · simp [ih]; tauto

theorem sorted_insertActive {li : LI} {xs : List LI}
    (h : xs.Pairwise (fun a b => a.stop ≤ b.stop)) :
    (insertActive li xs).Pairwise (fun a b => a.stop ≤ b.stop) := by
  induction xs with
  | nil => simp [insertActive]
  | cons p ps ih =>
    obtain ⟨hp, hps⟩ := List.pairwise_cons.1 h
    simp only [insertActive]
    split
    · rename_i hlt
      refine List.pairwise_cons.2 ⟨?_, h⟩
      intro a ha
      rcases List.mem_cons.1 ha with rfl | ha
      · omega
      · have := hp a ha; omega
    · rename_i hlt
      refine List.pairwise_cons.2 ⟨?_, ih hps⟩
      intro a ha
      rcases mem_insertActive.1 ha with rfl | ha
      · omega
      · exact hp a ha

theorem mem_dropWhile_sorted {xs : List LI} {c : Int}
    (h : xs.Pairwise (fun a b => a.stop ≤ b.stop)) {x : LI} :
    x ∈ xs.dropWhile (fun a => decide (a.stop ≤ c)) ↔ x ∈ xs ∧ c < x.stop := by
  induction xs with
  | nil => simp
  | cons p ps ih =>
    obtain ⟨hp, hps⟩ := List.pairwise_cons.1 h
    rw [List.dropWhile_cons]
    split
    · rename_i hc
      have hc' : p.stop ≤ c := by simpa using hc
      rw [ih hps]
      constructor
      · rintro ⟨a, b⟩; exact ⟨List.mem_cons_of_mem _ a, b⟩
      · rintro ⟨a, b⟩
        rcases List.mem_cons.1 a with rfl | a
        · omega
        · exact ⟨a, b⟩
    · rename_i hc
      have hc' : c < p.stop := by simpa using hc
      constructor
      · intro a
        refine ⟨a, ?_⟩
        rcases List.mem_cons.1 a with rfl | a
        · exact hc'
        · have := hp x a; omega
      · exact fun a => a.1

theorem mem_takeWhile_sorted {xs : List LI} {c : Int}
    (h : xs.Pairwise (fun a b => a.stop ≤ b.stop)) {x : LI} :
    x ∈ xs.takeWhile (fun a => decide (a.stop ≤ c)) ↔ x ∈ xs ∧ x.stop ≤ c := by
  induction xs with
  | nil => simp
  | cons p ps ih =>
    obtain ⟨hp, hps⟩ := List.pairwise_cons.1 h
    rw [List.takeWhile_cons]
    split
    · rename_i hc
      have hc' : p.stop ≤ c := by simpa using hc
      simp only [List.mem_cons, ih hps]
      constructor
      · rintro (rfl | ⟨a, b⟩)
        · exact ⟨.inl rfl, hc'⟩
        · exact ⟨.inr a, b⟩
      · rintro ⟨rfl | a, b⟩
        · exact .inl rfl
        · exact .inr ⟨a, b⟩
    · rename_i hc
      have hc' : c < p.stop := by simpa using hc
      constructor
      · intro a; simp at a
      · rintro ⟨a, b⟩
        rcases List.mem_cons.1 a with rfl | a
        · omega
        · have := hp x a; omega

theorem firstFree_some {o : Nat → Bool} {a m r : Nat} (h : firstFree o a m = some r) :
    a ≤ r ∧ r < m ∧ o r = false := by
  unfold firstFree at h
  have h1 := List.mem_of_find?_eq_some h
  have h2 := List.find?_some h
  rw [List.mem_range'_1] at h1
  refine ⟨h1.1, by omega, by simpa using h2⟩

theorem firstFree_none {o : Nat → Bool} {a m : Nat} (h : firstFree o a m = none) :
    ∀ r, a ≤ r → r < m → o r = true := by
  unfold firstFree at h
  intro r h1 h2
  have := List.find?_eq_none.1 h r (by rw [List.mem_range'_1]; omega)
  simpa using this

/-- The settings map parameters to existing registers. -/
structure Settings.Wf (s : Settings) (xs : List LI) : Prop where
  mapOk : ∀ i r, s.mapping i = some r → r < s.physMax
  floOk : ∀ x ∈ xs, x.flo = true → ∀ i, x.ip = some i → i < s.fphysMax

theorem pickReg_some {s : Settings} {li : LI} {o : Nat → Bool} {r : Nat}
    (hmap : ∀ i r, s.mapping i = some r → r < s.physMax)
    (hflo : li.flo = true → ∀ i, li.ip = some i → i < s.fphysMax)
    (h : pickReg s li o = some r) : r < s.max li.flo ∧ o r = false := by
  unfold pickReg at h
  split at h
  · exact ⟨(firstFree_some h).2.1, (firstFree_some h).2.2⟩
  · rename_i i hi
    split at h
    · rename_i q hq
      split at h
      · rename_i ho
        cases h
        refine ⟨?_, by simpa using ho⟩
        cases hf : li.flo with
        | true =>
          rw [hf] at hq; simp at hq; subst hq
          simpa [Settings.max, hf] using hflo hf i hi
        | false =>
          rw [hf] at hq; simp at hq
          simpa [Settings.max, hf] using hmap i _ hq
      · exact ⟨(firstFree_some h).2.1, (firstFree_some h).2.2⟩
    · exact ⟨(firstFree_some h).2.1, (firstFree_some h).2.2⟩

/-! ### Invariant -/

/-- Invariant of one register class, after the intervals `done` have been processed and no later
interval starts before `cur`. -/
structure ClassInv (s : Settings) (flo : Bool) (phys : Nat → Option Nat) (p : PRS)
    (done : List LI) (cur : Int) : Prop where
  sorted : p.active.Pairwise (fun a b => a.stop ≤ b.stop)
  mem : ∀ a ∈ p.active, a ∈ done ∧ a.flo = flo ∧ a.skip = false
  nodup : p.active.Nodup
  usingOf : ∀ r, p.using_ r = true → ∃ a ∈ p.active, phys a.virt = some r
  ofUsing : ∀ a ∈ p.active, ∃ r, phys a.virt = some r ∧ p.using_ r = true
  distinct : ∀ a ∈ p.active, ∀ b ∈ p.active, phys a.virt = phys b.virt → a = b
  inactive : ∀ a ∈ done, a.flo = flo → phys a.virt ≠ none → a ∉ p.active → a.stop ≤ cur
  usedOf : ∀ a ∈ done, a.flo = flo → ∀ r, phys a.virt = some r → p.used r = true
  range : ∀ a ∈ done, a.flo = flo → ∀ r, phys a.virt = some r → r < s.max flo
  occ : ∀ a ∈ done, a.flo = flo → ∀ r, phys a.virt = some r → a.occ r = false

/-- The virtual registers of a list are pairwise different. -/
def VirtNodup (xs : List LI) : Prop := (xs.map (·.virt)).Nodup

theorem virt_inj {xs : List LI} (h : VirtNodup xs) {a b : LI} (ha : a ∈ xs) (hb : b ∈ xs)
    (hv : a.virt = b.virt) : a = b := by
  induction xs with
  | nil => cases ha
  | cons x xs ih =>
    unfold VirtNodup at h ih
    rw [List.map_cons, List.nodup_cons] at h
    rcases List.mem_cons.1 ha with rfl | ha' <;> rcases List.mem_cons.1 hb with rfl | hb'
    · rfl
    · exact absurd (List.mem_map.2 ⟨b, hb', hv.symm⟩) h.1
    · exact absurd (List.mem_map.2 ⟨a, ha', hv⟩) h.1
    · exact ih h.2 ha' hb'

theorem expire_inv {s : Settings} {flo : Bool} {phys : Nat → Option Nat} {p : PRS}
    {done : List LI} {cur c : Int} (hcc : cur ≤ c) (h : ClassInv s flo phys p done cur) :
    ClassInv s flo phys (expire phys p c) done c ∧
      ∀ a ∈ (expire phys p c).active, c < a.stop := by
  have hmem : ∀ x, x ∈ (expire phys p c).active ↔ x ∈ p.active ∧ c < x.stop :=
    fun x => mem_dropWhile_sorted h.sorted
  have hsub : (expire phys p c).active.Sublist p.active := List.dropWhile_sublist _
  refine ⟨⟨?_, ?_, ?_, ?_, ?_, ?_, ?_, ?_, h.range, h.occ⟩, fun a ha => ((hmem a).1 ha).2⟩
  · exact h.sorted.sublist hsub
  · intro a ha; exact h.mem a ((hmem a).1 ha).1
  · exact h.nodup.sublist hsub
  · intro r hr
    simp only [expire, Bool.and_eq_true, Bool.not_eq_true', List.any_eq_false,
      decide_eq_true_eq] at hr
    obtain ⟨a, ha, hp⟩ := h.usingOf r hr.1
    refine ⟨a, (hmem a).2 ⟨ha, ?_⟩, hp⟩
    by_contra hle
    exact hr.2 a ((mem_takeWhile_sorted h.sorted).2 ⟨ha, by omega⟩) hp
  · intro a ha
    obtain ⟨ha1, ha2⟩ := (hmem a).1 ha
    obtain ⟨r, hp, hu⟩ := h.ofUsing a ha1
    refine ⟨r, hp, ?_⟩
    simp only [expire, Bool.and_eq_true, Bool.not_eq_true', List.any_eq_false,
      decide_eq_true_eq]
    refine ⟨hu, fun b hb hbr => ?_⟩
    obtain ⟨hb1, hb2⟩ := (mem_takeWhile_sorted h.sorted).1 hb
    have := h.distinct a ha1 b hb1 (hp.trans hbr.symm)
    subst this; omega
  · intro a ha b hb hab
    exact h.distinct a ((hmem a).1 ha).1 b ((hmem b).1 hb).1 hab
  · intro a ha hf hne hna
    by_cases hin : a ∈ p.active
    · by_contra hlt
      exact hna ((hmem a).2 ⟨hin, by omega⟩)
    · have := h.inactive a ha hf hne hin; omega
  · intro a ha hf r hr
    exact h.usedOf a ha hf r hr

/-- Two assigned intervals of the same class, `x` before `y` in the list, share a register only if
`x` ends before `y` starts. -/
def NoConflict (phys : Nat → Option Nat) (xs : List LI) : Prop :=
  xs.Pairwise (fun x y => x.flo = y.flo → ∀ r, phys x.virt = some r → phys y.virt = some r →
    x.stop ≤ y.start)

/-- The occupied set shrinks when an interval is shortened at its end. -/
def OccMono (xs : List LI) : Prop :=
  ∀ x ∈ xs, ∀ y ∈ xs, x.flo = y.flo → x.start ≤ y.start → y.stop < x.stop →
    ∀ r, y.occ r = true → x.occ r = true

/-- Global invariant. -/
structure Inv (s : Settings) (st : St) (done : List LI) (cur : Int) : Prop where
  cls : ∀ flo, ClassInv s flo st.phys (st.set flo) done cur
  noConflict : NoConflict st.phys done
  fresh : ∀ v, (∀ a ∈ done, a.virt ≠ v) → st.phys v = none
  skip : ∀ a ∈ done, a.skip = true → st.phys a.virt = none

theorem init_inv (s : Settings) (cur : Int) : Inv s St.init [] cur := by
  refine ⟨fun flo => ?_, List.Pairwise.nil, fun _ _ => rfl, fun _ h => (List.not_mem_nil h).elim⟩
  have hset : St.init.set flo = ⟨[], fun _ => false, fun _ => false⟩ := by
    cases flo <;> rfl
  rw [hset]
  exact ⟨List.Pairwise.nil, fun _ h => (List.not_mem_nil h).elim, List.nodup_nil,
    fun _ h => by simp at h, fun _ h => (List.not_mem_nil h).elim,
    fun _ h => (List.not_mem_nil h).elim, fun _ h => (List.not_mem_nil h).elim,
    fun _ h => (List.not_mem_nil h).elim, fun _ h => (List.not_mem_nil h).elim,
    fun _ h => (List.not_mem_nil h).elim⟩

/-- `ClassInv` depends on `phys` only through the intervals of the class. -/
theorem classInv_congr {s : Settings} {flo : Bool} {phys phys' : Nat → Option Nat} {p : PRS}
    {done : List LI} {cur : Int} {li : LI} (h : ClassInv s flo phys p done cur)
    (hli : li.flo = flo → phys' li.virt = none)
    (heq : ∀ a ∈ done, a.flo = flo → phys' a.virt = phys a.virt)
    (hn : li ∉ p.active) : ClassInv s flo phys' p (done ++ [li]) cur := by
  have hact : ∀ a ∈ p.active, phys' a.virt = phys a.virt :=
    fun a ha => heq a (h.mem a ha).1 (h.mem a ha).2.1
  refine ⟨h.sorted, ?_, h.nodup, ?_, ?_, ?_, ?_, ?_, ?_, ?_⟩
  · intro a ha
    obtain ⟨h1, h2⟩ := h.mem a ha
    exact ⟨List.mem_append_left _ h1, h2⟩
  · intro r hr
    obtain ⟨a, ha, hp⟩ := h.usingOf r hr
    exact ⟨a, ha, by rw [hact a ha]; exact hp⟩
  · intro a ha
    rw [hact a ha]; exact h.ofUsing a ha
  · intro a ha b hb
    rw [hact a ha, hact b hb]; exact h.distinct a ha b hb
  · intro a ha hf hne hna
    rcases List.mem_append.1 ha with ha | ha
    · rw [heq a ha hf] at hne
      exact h.inactive a ha hf hne hna
    · rw [List.mem_singleton.1 ha] at hf hne
      exact absurd (hli hf) hne
  · intro a ha hf r hr
    rcases List.mem_append.1 ha with ha | ha
    · rw [heq a ha hf] at hr
      exact h.usedOf a ha hf r hr
    · rw [List.mem_singleton.1 ha] at hf hr
      rw [hli hf] at hr; cases hr
  · intro a ha hf r hr
    rcases List.mem_append.1 ha with ha | ha
    · rw [heq a ha hf] at hr
      exact h.range a ha hf r hr
    · rw [List.mem_singleton.1 ha] at hf hr
      rw [hli hf] at hr; cases hr
  · intro a ha hf r hr
    rcases List.mem_append.1 ha with ha | ha
    · rw [heq a ha hf] at hr
      exact h.occ a ha hf r hr
    · rw [List.mem_singleton.1 ha] at hf hr
      rw [hli hf] at hr; cases hr

/-- Growing the `used` set keeps the class invariant. -/
theorem classInv_used {s : Settings} {flo : Bool} {phys : Nat → Option Nat} {p : PRS}
    {done : List LI} {cur : Int} (h : ClassInv s flo phys p done cur) (u : Nat → Bool) :
    ClassInv s flo phys { p with used := fun x => p.used x || u x } done cur :=
  ⟨h.sorted, h.mem, h.nodup, h.usingOf, h.ofUsing, h.distinct, h.inactive,
    fun a ha hf r hr => by simp [h.usedOf a ha hf r hr], h.range, h.occ⟩

theorem eq_not_of_ne {a b : Bool} (h : a ≠ b) : a = !b := by
  cases a <;> cases b <;> first | rfl | exact absurd rfl h

theorem set_put_same (st : St) (flo : Bool) (p : PRS) : (st.put flo p).set flo = p := by
  cases flo <;> rfl

theorem set_put_other (st : St) (flo : Bool) (p : PRS) : (st.put flo p).set (!flo) = st.set (!flo) := by
  cases flo <;> rfl

theorem phys_put (st : St) (flo : Bool) (p : PRS) : (st.put flo p).phys = st.phys := by
  cases flo <;> rfl

/-- Assigning a free register to `li`. -/
theorem assign_inv {s : Settings} {flo : Bool} {phys : Nat → Option Nat} {p : PRS}
    {done : List LI} {li : LI} {r : Nat} (h : ClassInv s flo phys p done li.start)
    (hf : li.flo = flo) (hsk : li.skip = false) (hnew : ∀ a ∈ done, a.virt ≠ li.virt)
    (hu : p.using_ r = false) (hr : r < s.max flo) (ho : li.occ r = false) :
    ClassInv s flo (setPhys phys li.virt (some r))
      { active := insertActive li p.active, using_ := fun x => p.using_ x || decide (x = r),
        used := fun x => p.used x || (p.using_ x || decide (x = r)) } (done ++ [li]) li.start := by
  have hold : ∀ a ∈ done, setPhys phys li.virt (some r) a.virt = phys a.virt := by
    intro a ha; simp [setPhys, hnew a ha]
  have hself : setPhys phys li.virt (some r) li.virt = some r := by simp [setPhys]
  have hnotin : li ∉ p.active := fun hh => hnew li (h.mem li hh).1 rfl
  have hact : ∀ a ∈ p.active, setPhys phys li.virt (some r) a.virt = phys a.virt :=
    fun a ha => hold a (h.mem a ha).1
  have hne : ∀ a ∈ p.active, phys a.virt ≠ some r := by
    intro a ha hh
    obtain ⟨q, hq, hq2⟩ := h.ofUsing a ha
    rw [hh] at hq; cases hq; rw [hu] at hq2; cases hq2
  refine ⟨sorted_insertActive h.sorted, ?_, ?_, ?_, ?_, ?_, ?_, ?_, ?_, ?_⟩
  · intro a ha
    rcases mem_insertActive.1 ha with rfl | ha
    · exact ⟨by simp, hf, hsk⟩
    · exact ⟨List.mem_append_left _ (h.mem a ha).1, (h.mem a ha).2⟩
  · have : ∀ xs : List LI, li ∉ xs → xs.Nodup → (insertActive li xs).Nodup := by
      intro xs
      induction xs with
      | nil => intro _ _; simp [insertActive]
      | cons x xs ih =>
        intro h1 h2
        simp only [insertActive]
        split
        · exact List.nodup_cons.2 ⟨h1, h2⟩
        · rw [List.nodup_cons] at h2 ⊢
          refine ⟨fun hh => ?_, ih (fun hh => h1 (List.mem_cons_of_mem _ hh)) h2.2⟩
          rcases mem_insertActive.1 hh with rfl | hh
          · exact h1 List.mem_cons_self
          · exact h2.1 hh
    exact this _ hnotin h.nodup
  · intro q hq
    simp only [Bool.or_eq_true, decide_eq_true_eq] at hq
    rcases hq with hq | rfl
    · obtain ⟨a, ha, hp⟩ := h.usingOf q hq
      exact ⟨a, mem_insertActive.2 (.inr ha), by rw [hact a ha]; exact hp⟩
    · exact ⟨li, mem_insertActive.2 (.inl rfl), hself⟩
  · intro a ha
    rcases mem_insertActive.1 ha with rfl | ha
    · exact ⟨r, hself, by simp⟩
    · obtain ⟨q, hq, hq2⟩ := h.ofUsing a ha
      exact ⟨q, by rw [hact a ha]; exact hq, by simp [hq2]⟩
  · intro a ha b hb hab
    rcases mem_insertActive.1 ha with ha1 | ha1 <;> rcases mem_insertActive.1 hb with hb1 | hb1
    · rw [ha1, hb1]
    · rw [ha1, hself, hact b hb1] at hab
      exact absurd hab.symm (hne b hb1)
    · rw [hb1, hself, hact a ha1] at hab
      exact absurd hab (hne a ha1)
    · rw [hact a ha1, hact b hb1] at hab
      exact h.distinct a ha1 b hb1 hab
  · intro a ha haf hne' hna
    rcases List.mem_append.1 ha with ha | ha
    · rw [hold a ha] at hne'
      exact h.inactive a ha haf hne' (fun hh => hna (mem_insertActive.2 (.inr hh)))
    · rw [List.mem_singleton.1 ha] at hna
      exact absurd (mem_insertActive.2 (.inl rfl)) hna
  · intro a ha haf q hq
    rcases List.mem_append.1 ha with ha | ha
    · rw [hold a ha] at hq
      simp [h.usedOf a ha haf q hq]
    · rw [List.mem_singleton.1 ha, hself] at hq
      cases hq; simp
  · intro a ha haf q hq
    rcases List.mem_append.1 ha with ha | ha
    · rw [hold a ha] at hq
      exact h.range a ha haf q hq
    · rw [List.mem_singleton.1 ha, hself] at hq
      cases hq; exact hr
  · intro a ha haf q hq
    rcases List.mem_append.1 ha with ha | ha
    · rw [hold a ha] at hq
      exact h.occ a ha haf q hq
    · have hal := List.mem_singleton.1 ha
      subst hal
      rw [hself] at hq
      cases hq; exact ho

theorem mem_dropLast_of_ne {xs : List LI} {l a : LI} (hl : xs.getLast? = some l) (ha : a ∈ xs)
    (hne : a ≠ l) : a ∈ xs.dropLast := by
  obtain ⟨ys, rfl⟩ := List.getLast?_eq_some_iff.1 hl
  simp only [List.dropLast_concat]
  rcases List.mem_append.1 ha with h | h
  · exact h
  · exact absurd (List.mem_singleton.1 h) hne

theorem spill_inv {s : Settings} {flo : Bool} {phys : Nat → Option Nat} {p : PRS}
    {done : List LI} {sp : LI} {cur : Int} (h : ClassInv s flo phys p done cur)
    (hv : VirtNodup done) {r : Nat} (hl : p.active.getLast? = some sp)
    (hr : phys sp.virt = some r) :
    ClassInv s flo (setPhys phys sp.virt none)
      { p with active := p.active.dropLast, using_ := fun x => p.using_ x && !decide (x = r) }
      done cur := by
  have hsp : sp ∈ p.active := List.mem_of_getLast? hl
  have hspd := (h.mem sp hsp).1
  have hsub : p.active.dropLast.Sublist p.active := List.dropLast_sublist _
  have hnd : sp ∉ p.active.dropLast := by
    intro hh
    obtain ⟨ys, hys⟩ := List.getLast?_eq_some_iff.1 hl
    have hn := h.nodup
    rw [hys] at hh hn
    simp only [List.dropLast_concat] at hh
    rw [List.nodup_append] at hn
    exact hn.2.2 _ hh _ (by simp) rfl
  have hold : ∀ a ∈ done, a ≠ sp → setPhys phys sp.virt none a.virt = phys a.virt := by
    intro a ha hne
    have : a.virt ≠ sp.virt := fun hh => hne (virt_inj hv ha hspd hh)
    simp [setPhys, this]
  have hself : setPhys phys sp.virt none sp.virt = none := by simp [setPhys]
  have hact : ∀ a ∈ p.active.dropLast, setPhys phys sp.virt none a.virt = phys a.virt := by
    intro a ha
    exact hold a (h.mem a (hsub.mem ha)).1 (fun hh => hnd (hh ▸ ha))
  have hcase : ∀ a ∈ done, ∀ q, setPhys phys sp.virt none a.virt = some q → phys a.virt = some q := by
    intro a ha q hq
    by_cases hne : a = sp
    · rw [hne, hself] at hq; cases hq
    · rw [hold a ha hne] at hq; exact hq
  refine ⟨h.sorted.sublist hsub, fun a ha => h.mem a (hsub.mem ha), h.nodup.sublist hsub,
    ?_, ?_, ?_, ?_, ?_, ?_, ?_⟩
  · intro q hq
    simp only [Bool.and_eq_true, Bool.not_eq_true', decide_eq_false_iff_not] at hq
    obtain ⟨a, ha, hp⟩ := h.usingOf q hq.1
    have hne : a ≠ sp := by
      rintro rfl
      rw [hp] at hr; cases hr; exact hq.2 rfl
    have hd := mem_dropLast_of_ne hl ha hne
    exact ⟨a, hd, by rw [hact a hd]; exact hp⟩
  · intro a ha
    obtain ⟨q, hq, hq2⟩ := h.ofUsing a (hsub.mem ha)
    refine ⟨q, by rw [hact a ha]; exact hq, ?_⟩
    have hne : q ≠ r := by
      rintro rfl
      exact hnd ((h.distinct a (hsub.mem ha) sp hsp (hq.trans hr.symm)) ▸ ha)
    simp [hq2, hne]
  · intro a ha b hb hab
    rw [hact a ha, hact b hb] at hab
    exact h.distinct a (hsub.mem ha) b (hsub.mem hb) hab
  · intro a ha haf hne hna
    by_cases hsa : a = sp
    · rw [hsa, hself] at hne; exact absurd rfl hne
    · rw [hold a ha hsa] at hne
      exact h.inactive a ha haf hne (fun hh => hna (mem_dropLast_of_ne hl hh hsa))
  · intro a ha haf q hq
    exact h.usedOf a ha haf q (hcase a ha q hq)
  · intro a ha haf q hq
    exact h.range a ha haf q (hcase a ha q hq)
  · intro a ha haf q hq
    exact h.occ a ha haf q (hcase a ha q hq)

/-- Only intervals which are still active have the register of a new assignment in use. -/
theorem noConflict_assign {s : Settings} {flo : Bool} {phys phys' : Nat → Option Nat} {p : PRS}
    {done : List LI} {li : LI} {r : Nat} (h : ClassInv s flo phys p done li.start)
    (hf : li.flo = flo) (hnc : NoConflict phys done)
    (hsub : ∀ a ∈ done, ∀ q, phys' a.virt = some q → phys a.virt = some q)
    (hself : phys' li.virt = some r)
    (hfree : ∀ a ∈ p.active, phys' a.virt ≠ some r) :
    NoConflict phys' (done ++ [li]) := by
  unfold NoConflict
  rw [List.pairwise_append]
  refine ⟨?_, List.pairwise_singleton _ _, ?_⟩
  · refine List.Pairwise.imp_of_mem ?_ hnc
    intro a b ha hb hab hfl q h1 h2
    exact hab hfl q (hsub a ha q h1) (hsub b hb q h2)
  · intro a ha b hb hfl q h1 h2
    rw [List.mem_singleton.1 hb] at hfl h2 ⊢
    rw [hself] at h2; cases h2
    have h1' := hsub a ha _ h1
    refine h.inactive a ha (hfl.trans hf) (by rw [h1']; simp) (fun hh => ?_)
    exact hfree a hh h1

theorem noConflict_none {phys phys' : Nat → Option Nat} {done : List LI} {li : LI}
    (hnc : NoConflict phys done)
    (hsub : ∀ a ∈ done, ∀ q, phys' a.virt = some q → phys a.virt = some q)
    (hself : phys' li.virt = none) : NoConflict phys' (done ++ [li]) := by
  unfold NoConflict
  rw [List.pairwise_append]
  refine ⟨?_, List.pairwise_singleton _ _, ?_⟩
  · refine List.Pairwise.imp_of_mem ?_ hnc
    intro a b ha hb hab hfl q h1 h2
    exact hab hfl q (hsub a ha q h1) (hsub b hb q h2)
  · intro a _ b hb _ q _ h2
    rw [List.mem_singleton.1 hb, hself] at h2
    cases h2

theorem split_active {sp li : LI} {p : PRS} {r : Nat}
    (hu : p.using_ r = true) :
    (fun x => (p.using_ x && !decide (x = r)) || decide (x = r)) = p.using_ := by
  funext x
  by_cases hx : x = r
  · subst hx; simp [hu]
  · simp [hx]

theorem allocOne_inv {s : Settings} {st st' : St} {done : List LI} {li : LI} {cur : Int}
    (hcur : cur ≤ li.start) (h : Inv s st done cur) (hv : VirtNodup (done ++ [li]))
    (hmono : OccMono (done ++ [li])) (hstart : ∀ a ∈ done, a.start ≤ li.start)
    (hmap : ∀ i r, s.mapping i = some r → r < s.physMax)
    (hflo : li.flo = true → ∀ i, li.ip = some i → i < s.fphysMax)
    (hs : allocOne s st li = some st') : Inv s st' (done ++ [li]) li.start := by
  have hvd : VirtNodup done := by
    unfold VirtNodup at hv ⊢
    rw [List.map_append] at hv
    exact (List.nodup_append.1 hv).1
  have hnew : ∀ a ∈ done, a.virt ≠ li.virt := by
    intro a ha hh
    unfold VirtNodup at hv
    rw [List.map_append, List.nodup_append] at hv
    exact hv.2.2 a.virt (List.mem_map.2 ⟨a, ha, rfl⟩) li.virt (by simp) hh
  have hlifresh : st.phys li.virt = none := h.fresh _ hnew
  have hfresh' : ∀ phys' : Nat → Option Nat,
      (∀ v, v ≠ li.virt → (∀ a ∈ done, a.virt ≠ v) → phys' v = st.phys v) →
      ∀ v, (∀ a ∈ done ++ [li], a.virt ≠ v) → phys' v = none := by
    intro phys' hh v hvv
    rw [hh v (fun e => hvv li (by simp) e.symm) (fun a ha => hvv a (List.mem_append_left _ ha))]
    exact h.fresh v (fun a ha => hvv a (List.mem_append_left _ ha))
  unfold allocOne at hs
  split at hs
  · rename_i hsk
    cases hs
    refine ⟨fun flo => ?_, ?_, ?_, ?_⟩
    · have hc := h.cls flo
      have hc' : ClassInv s flo st.phys (st.set flo) done li.start :=
        ⟨hc.sorted, hc.mem, hc.nodup, hc.usingOf, hc.ofUsing, hc.distinct,
          fun a ha hf h1 h2 => by have := hc.inactive a ha hf h1 h2; omega, hc.usedOf, hc.range,
          hc.occ⟩
      exact classInv_congr hc' (fun _ => hlifresh) (fun _ _ _ => rfl)
        (fun hh => hnew li (hc.mem li hh).1 rfl)
    · exact noConflict_none h.noConflict (fun _ _ _ hh => hh) hlifresh
    · exact hfresh' st.phys (fun _ _ _ => rfl)
    · intro a ha hsa
      rcases List.mem_append.1 ha with ha | ha
      · exact h.skip a ha hsa
      · rw [List.mem_singleton.1 ha]; exact hlifresh
  · rename_i hsk
    have hsk : li.skip = false := by simpa using hsk
    have hskip' : ∀ phys' : Nat → Option Nat,
        (∀ a ∈ done, st.phys a.virt = none → phys' a.virt = none) →
        ∀ a ∈ done ++ [li], a.skip = true → phys' a.virt = none := by
      intro phys' hh a ha hsa
      rcases List.mem_append.1 ha with ha | ha
      · exact hh a ha (h.skip a ha hsa)
      · rw [List.mem_singleton.1 ha, hsk] at hsa; cases hsa
    have hE : ∀ flo, ClassInv s flo st.phys (expire st.phys (st.set flo) li.start) done li.start :=
      fun flo => (expire_inv hcur (h.cls flo)).1
    generalize hst1 : ({ st with iset := expire st.phys st.iset li.start,
                                 fset := expire st.phys st.fset li.start } : St) = st1 at hs
    have hphys1 : st1.phys = st.phys := by rw [← hst1]
    have hset1 : ∀ flo, st1.set flo = expire st.phys (st.set flo) li.start := by
      intro flo; rw [← hst1]; cases flo <;> rfl
    have hE1 : ∀ flo, ClassInv s flo st.phys (st1.set flo) done li.start := by
      intro flo; rw [hset1]; exact hE flo
    have hnotin : ∀ flo, li ∉ (st1.set flo).active :=
      fun flo hh => hnew li ((hE1 flo).mem li hh).1 rfl
    dsimp only at hs
    split at hs
    · -- a free register
      rename_i r hpick
      cases hs
      obtain ⟨hr1, hr2⟩ := pickReg_some hmap hflo hpick
      simp only [Bool.or_eq_false_iff] at hr2
      have hbase := assign_inv (hE1 li.flo) rfl hsk hnew hr2.1 hr1 hr2.2
      have hsub : ∀ a ∈ done, ∀ q, setPhys st.phys li.virt (some r) a.virt = some q →
          st.phys a.virt = some q := by
        intro a ha q hq; simpa [setPhys, hnew a ha] using hq
      refine ⟨fun flo => ?_, ?_, ?_, ?_⟩
      · by_cases hfl : flo = li.flo
        · subst hfl
          rw [set_put_same, phys_put]
          simp only [hphys1]
          exact hbase
        · have hflb : flo = !li.flo := eq_not_of_ne hfl
          subst hflb
          rw [set_put_other, phys_put]
          have hc := hE1 (!li.flo)
          simp only [hphys1]
          have hset : ∀ (x : Nat → Option Nat), ({ st1 with phys := x } : St).set (!li.flo) = st1.set (!li.flo) := by
            intro x; cases li.flo <;> rfl
          rw [hset]
          refine classInv_congr hc ?_ ?_ (hnotin _)
          · intro hh; cases hq : li.flo <;> rw [hq] at hh <;> cases hh
          · intro a ha _; simp [setPhys, hnew a ha]
      · rw [phys_put]
        simp only [hphys1]
        refine noConflict_assign (hE1 li.flo) rfl h.noConflict hsub (r := r) (by simp [setPhys]) ?_
        intro a ha hh
        have := hsub a ((hE1 li.flo).mem a ha).1 r hh
        obtain ⟨q, hq, hq2⟩ := (hE1 li.flo).ofUsing a ha
        rw [this] at hq; cases hq
        rw [hr2.1] at hq2; cases hq2
      · rw [phys_put]; simp only [hphys1]
        exact hfresh' _ (fun v hvne _ => by simp [setPhys, hvne])
      · rw [phys_put]; simp only [hphys1]
        exact hskip' _ (fun a ha hn => by simpa [setPhys, hnew a ha] using hn)
    · rename_i hpick
      split at hs
      · cases hs
      · rename_i phys' act hsp
        cases hs
        have hset : ∀ (x : Nat → Option Nat) flo, ({ st1 with phys := x } : St).set flo = st1.set flo := by
          intro x flo; cases flo <;> rfl
        unfold splitAtInterval at hsp
        rw [hphys1] at hsp
        split at hsp
        · cases hsp
        · rename_i sp hlast
          have hspm : sp ∈ (st1.set li.flo).active := List.mem_of_getLast? hlast
          obtain ⟨hspd, hspf, hsps⟩ := (hE1 li.flo).mem sp hspm
          obtain ⟨r, hr, hru⟩ := (hE1 li.flo).ofUsing sp hspm
          have hspne : sp.virt ≠ li.virt := hnew sp hspd
          split at hsp
          · -- steal
            rename_i hlt
            obtain ⟨rfl, rfl⟩ := Prod.mk.inj (Option.some.inj hsp)
            have hcomm : setPhys (setPhys st.phys li.virt (st.phys sp.virt)) sp.virt none =
                setPhys (setPhys st.phys sp.virt none) li.virt (some r) := by
              funext v
              simp only [setPhys, hr]
              by_cases h1 : v = sp.virt
              · subst h1; simp [hspne]
              · by_cases h2 : v = li.virt
                · subst h2; simp [h1]
                · simp [h1, h2]
            have hS := spill_inv (hE1 li.flo) hvd hlast hr
            have hocc : li.occ r = false := by
              by_contra hne
              have hne : li.occ r = true := by simpa using hne
              have := hmono sp (List.mem_append_left _ hspd) li (by simp) hspf
                (hstart sp hspd) hlt r hne
              rw [(hE1 li.flo).occ sp hspd hspf r hr] at this
              cases this
            have hA := assign_inv hS rfl hsk hnew (r := r) (by simp)
              ((hE1 li.flo).range sp hspd hspf r hr) hocc
            dsimp only at hA
            rw [split_active (sp := sp) (li := li) hru] at hA
            have hsub : ∀ a ∈ done, ∀ q,
                setPhys (setPhys st.phys sp.virt none) li.virt (some r) a.virt = some q →
                st.phys a.virt = some q := by
              intro a ha q hq
              simp only [setPhys, hnew a ha, if_false] at hq
              split at hq
              · cases hq
              · exact hq
            refine ⟨fun flo => ?_, ?_, ?_, ?_⟩
            · by_cases hfl : flo = li.flo
              · subst hfl
                rw [set_put_same, phys_put]
                dsimp only
                rw [hcomm]
                have hfun : (fun x => (st1.set li.flo).used x || ((st1.set li.flo).using_ x && !decide (x = r) || decide (x = r))) = (fun x => (st1.set li.flo).used x || (st1.set li.flo).using_ x) := by
                  funext x
                  have := congrFun (split_active (sp := sp) (li := li) hru) x
                  rw [this]
                rw [hfun] at hA
                exact hA
              · have hflb : flo = !li.flo := eq_not_of_ne hfl
                subst hflb
                rw [set_put_other, phys_put, hset]
                dsimp only
                rw [hcomm]
                refine classInv_congr (hE1 (!li.flo)) ?_ ?_ (hnotin _)
                · intro hh; cases hq : li.flo <;> rw [hq] at hh <;> cases hh
                · intro a ha haf
                  have hne : a.virt ≠ sp.virt := by
                    intro hh
                    have := virt_inj hvd ha hspd hh
                    rw [this, hspf] at haf
                    cases hq : li.flo <;> rw [hq] at haf <;> cases haf
                  simp [setPhys, hnew a ha, hne]
            · rw [phys_put]; dsimp only; rw [hcomm]
              refine noConflict_assign (hE1 li.flo) rfl h.noConflict hsub (r := r)
                (by simp [setPhys]) ?_
              intro a ha hh
              have had := ((hE1 li.flo).mem a ha).1
              have hst := hsub a had r hh
              have := (hE1 li.flo).distinct a ha sp hspm (hst.trans hr.symm)
              subst this
              simp [setPhys, hspne] at hh
            · rw [phys_put]; dsimp only; rw [hcomm]
              refine hfresh' _ (fun v hvne hvd' => ?_)
              have : v ≠ sp.virt := fun e => hvd' sp hspd e.symm
              simp [setPhys, hvne, this]
            · rw [phys_put]; dsimp only; rw [hcomm]
              refine hskip' _ (fun a ha hn => ?_)
              simp [setPhys, hnew a ha, hn]
          · -- li itself is spilled
            obtain ⟨rfl, rfl⟩ := Prod.mk.inj (Option.some.inj hsp)
            have hsame : setPhys st.phys li.virt none = st.phys := by
              funext v
              by_cases h2 : v = li.virt
              · subst h2; simp [setPhys, hlifresh]
              · simp [setPhys, h2]
            refine ⟨fun flo => ?_, ?_, ?_, ?_⟩
            · by_cases hfl : flo = li.flo
              · subst hfl
                rw [set_put_same, phys_put]
                dsimp only
                rw [hsame]
                have := classInv_used (classInv_congr (hE1 li.flo) (fun _ => hlifresh)
                  (fun _ _ _ => rfl) (hnotin _)) (st1.set li.flo).using_
                exact this
              · have hflb : flo = !li.flo := eq_not_of_ne hfl
                subst hflb
                rw [set_put_other, phys_put, hset]
                dsimp only
                rw [hsame]
                exact classInv_congr (hE1 (!li.flo)) (fun _ => hlifresh) (fun _ _ _ => rfl)
                  (hnotin _)
            · rw [phys_put]; dsimp only; rw [hsame]
              exact noConflict_none h.noConflict (fun _ _ _ hh => hh) hlifresh
            · rw [phys_put]; dsimp only; rw [hsame]
              exact hfresh' _ (fun _ _ _ => rfl)
            · rw [phys_put]; dsimp only; rw [hsame]
              exact hskip' _ (fun _ _ hn => hn)

theorem foldlM_inv {s : Settings} (rest : List LI) :
    ∀ {done : List LI} {st st' : St} {cur : Int}, Inv s st done cur →
      (∀ x ∈ rest, cur ≤ x.start) → VirtNodup (done ++ rest) → OccMono (done ++ rest) →
      (done ++ rest).Pairwise (fun a b => a.start ≤ b.start) → s.Wf (done ++ rest) →
      rest.foldlM (allocOne s) st = some st' →
      ∃ cur', Inv s st' (done ++ rest) cur' := by
  induction rest with
  | nil =>
    intro done st st' cur h _ _ _ _ _ hs
    simp only [List.foldlM_nil, pure, Option.some.injEq] at hs
    subst hs
    exact ⟨cur, by simpa using h⟩
  | cons x rest ih =>
    intro done st st' cur h hcur hv hm hsort hwf hs
    rw [List.foldlM_cons] at hs
    cases h1 : allocOne s st x with
    | none => rw [h1] at hs; cases hs
    | some st1 =>
      rw [h1] at hs
      have happ : done ++ x :: rest = (done ++ [x]) ++ rest := by simp
      rw [happ] at hv hm hsort hwf ⊢
      have hv1 : VirtNodup (done ++ [x]) := by
        unfold VirtNodup at hv ⊢
        rw [List.map_append] at hv
        exact (List.nodup_append.1 hv).1
      have hsplit := List.pairwise_append.1 hsort
      have hsplit1 := List.pairwise_append.1 hsplit.1
      refine ih (allocOne_inv (hcur x List.mem_cons_self) h hv1
        (fun a ha b hb => hm a (List.mem_append_left _ ha) b (List.mem_append_left _ hb))
        (fun a ha => hsplit1.2.2 a ha x (by simp)) hwf.mapOk
        (fun hf => hwf.floOk x (by simp) hf) h1) ?_ hv hm hsort hwf hs
      intro y hy
      exact hsplit.2.2 x (by simp) y hy

/-! ### Theorems -/

/-- In the order of the list, an interval which shares its register with a later one of the same
class has ended when the later one starts. -/
theorem scan_ordered {s : Settings} {xs : List LI} {st : St} (hv : VirtNodup xs)
    (hsort : xs.Pairwise (fun a b => a.start ≤ b.start)) (hm : OccMono xs) (hwf : s.Wf xs)
    (hs : scan s xs = some st) :
    xs.Pairwise (fun x y => x.flo = y.flo → ∀ r, st.phys x.virt = some r → st.phys y.virt = some r →
      x.stop ≤ y.start) := by
  have hcur : ∃ cur : Int, ∀ z ∈ xs, cur ≤ z.start := by
    cases xs with
    | nil => exact ⟨0, fun _ h => (List.not_mem_nil h).elim⟩
    | cons a as =>
      refine ⟨a.start, fun z hz => ?_⟩
      rcases List.mem_cons.1 hz with rfl | hz
      · exact Int.le_refl _
      · exact (List.pairwise_cons.1 hsort).1 z hz
  obtain ⟨cur, hcur⟩ := hcur
  obtain ⟨cur', hinv⟩ := foldlM_inv xs (init_inv s cur) hcur (by simpa using hv)
    (by simpa using hm) (by simpa using hsort) (by simpa using hwf) hs
  simpa [NoConflict] using hinv.noConflict

/-- Two virtual registers of the same class which are assigned the same physical register have
disjoint live intervals: the one which starts first has ended when the other one starts. -/
theorem scan_noConflict {s : Settings} {xs : List LI} {st : St} (hv : VirtNodup xs)
    (hsort : xs.Pairwise (fun a b => a.start ≤ b.start)) (hm : OccMono xs) (hwf : s.Wf xs)
    (hs : scan s xs = some st) {x y : LI} (hx : x ∈ xs) (hy : y ∈ xs) (hxy : x ≠ y)
    (hf : x.flo = y.flo) {r : Nat} (h1 : st.phys x.virt = some r) (h2 : st.phys y.virt = some r) :
    x.stop ≤ y.start ∨ y.stop ≤ x.start := by
  have hnc := scan_ordered hv hsort hm hwf hs
  -- position of x and y
  have key : ∀ {zs : List LI}, zs.Pairwise (fun x y => x.flo = y.flo → ∀ r, st.phys x.virt = some r →
      st.phys y.virt = some r → x.stop ≤ y.start) → x ∈ zs → y ∈ zs →
      x.stop ≤ y.start ∨ y.stop ≤ x.start := by
    intro zs hz
    induction zs with
    | nil => intro h; cases h
    | cons z zs ih =>
      obtain ⟨hz1, hz2⟩ := List.pairwise_cons.1 hz
      intro hx hy
      rcases List.mem_cons.1 hx with hx' | hx' <;> rcases List.mem_cons.1 hy with hy' | hy'
      · exact absurd (hx'.trans hy'.symm) hxy
      · subst hx'; exact .inl (hz1 y hy' hf r h1 h2)
      · subst hy'; exact .inr (hz1 x hx' hf.symm r h2 h1)
      · exact ih hz2 hx' hy'
  exact key hnc hx hy

/-- Every assigned register exists in the register file of the class, is not one of those the
interval may not use, and is reported in the set of used registers (from which the prologue decides
which registers it saves). Spilled and deleted registers get none. -/
theorem scan_assigned {s : Settings} {xs : List LI} {st : St} (hv : VirtNodup xs)
    (hsort : xs.Pairwise (fun a b => a.start ≤ b.start)) (hm : OccMono xs) (hwf : s.Wf xs)
    (hs : scan s xs = some st) {x : LI} (hx : x ∈ xs) {r : Nat}
    (h1 : st.phys x.virt = some r) :
    r < s.max x.flo ∧ x.occ r = false ∧ (st.set x.flo).used r = true ∧ x.skip = false := by
  have hcur : ∃ cur : Int, ∀ z ∈ xs, cur ≤ z.start := by
    cases xs with
    | nil => exact ⟨0, fun _ h => (List.not_mem_nil h).elim⟩
    | cons a as =>
      refine ⟨a.start, fun z hz => ?_⟩
      rcases List.mem_cons.1 hz with rfl | hz
      · exact Int.le_refl _
      · exact (List.pairwise_cons.1 hsort).1 z hz
  obtain ⟨cur, hcur⟩ := hcur
  obtain ⟨cur', hinv⟩ := foldlM_inv xs (init_inv s cur) hcur (by simpa using hv)
    (by simpa using hm) (by simpa using hsort) (by simpa using hwf) hs
  simp only [List.nil_append] at hinv
  have hc := hinv.cls x.flo
  refine ⟨hc.range x hx rfl r h1, hc.occ x hx rfl r h1, hc.usedOf x hx rfl r h1, ?_⟩
  cases hk : x.skip with
  | false => rfl
  | true => rw [hinv.skip x hx hk] at h1; cases h1

theorem firstFree_isSome {o : Nat → Bool} {a m j : Nat} (h1 : a ≤ j) (h2 : j < m)
    (h3 : o j = false) : ∃ r, firstFree o a m = some r := by
  cases h : firstFree o a m with
  | some r => exact ⟨r, rfl⟩
  | none => rw [firstFree_none h j h1 h2] at h3; cases h3

theorem pickReg_isSome {s : Settings} {li : LI} {o : Nat → Bool} {j : Nat}
    (h1 : s.temp li.flo ≤ j) (h2 : j < s.max li.flo) (h3 : o j = false) :
    ∃ r, pickReg s li o = some r := by
  unfold pickReg
  split
  · exact firstFree_isSome (Nat.zero_le _) h2 h3
  · split
    · split
      · exact ⟨_, rfl⟩
      · exact firstFree_isSome h1 h2 h3
    · exact firstFree_isSome h1 h2 h3

/-- The assertion in `split_at_interval` never fails: if every interval may use at least one of the
non-temporary registers of its class, the allocator always finds a register or something to spill. -/
theorem scan_total {s : Settings} {xs : List LI} (hv : VirtNodup xs)
    (hsort : xs.Pairwise (fun a b => a.start ≤ b.start)) (hm : OccMono xs) (hwf : s.Wf xs)
    (hfree : ∀ x ∈ xs, ∃ j, s.temp x.flo ≤ j ∧ j < s.max x.flo ∧ x.occ j = false) :
    ∃ st, scan s xs = some st := by
  have hcur : ∃ cur : Int, ∀ z ∈ xs, cur ≤ z.start := by
    cases xs with
    | nil => exact ⟨0, fun _ h => (List.not_mem_nil h).elim⟩
    | cons a as =>
      refine ⟨a.start, fun z hz => ?_⟩
      rcases List.mem_cons.1 hz with rfl | hz
      · exact Int.le_refl _
      · exact (List.pairwise_cons.1 hsort).1 z hz
  obtain ⟨cur, hcur⟩ := hcur
  have key : ∀ (rest done : List LI) (st : St) (cur : Int), Inv s st done cur →
      (∀ x ∈ rest, cur ≤ x.start) → VirtNodup (done ++ rest) → OccMono (done ++ rest) →
      (done ++ rest).Pairwise (fun a b => a.start ≤ b.start) → s.Wf (done ++ rest) →
      (∀ x ∈ rest, ∃ j, s.temp x.flo ≤ j ∧ j < s.max x.flo ∧ x.occ j = false) →
      ∃ st', rest.foldlM (allocOne s) st = some st' := by
    intro rest
    induction rest with
    | nil => intro done st cur _ _ _ _ _ _ _; exact ⟨st, rfl⟩
    | cons x rest ih =>
      intro done st cur h hcur hv hm hsort hwf hfree
      have happ : done ++ x :: rest = (done ++ [x]) ++ rest := by simp
      rw [happ] at hv hm hsort hwf
      have hv1 : VirtNodup (done ++ [x]) := by
        unfold VirtNodup at hv ⊢
        rw [List.map_append] at hv
        exact (List.nodup_append.1 hv).1
      have hsplit := List.pairwise_append.1 hsort
      have hsplit1 := List.pairwise_append.1 hsplit.1
      have hstep : ∃ st1, allocOne s st x = some st1 := by
        unfold allocOne
        split
        · exact ⟨_, rfl⟩
        · dsimp only
          split
          · exact ⟨_, rfl⟩
          · rename_i hpick
            cases hsp : splitAtInterval st.phys
                (St.set ⟨expire st.phys st.iset x.start, expire st.phys st.fset x.start, st.phys⟩ x.flo).active x with
            | some q => exact ⟨_, rfl⟩
            | none =>
              exfalso
              unfold splitAtInterval at hsp
              have hset : (St.set ⟨expire st.phys st.iset x.start, expire st.phys st.fset x.start, st.phys⟩ x.flo) =
                  expire st.phys (st.set x.flo) x.start := by cases x.flo <;> rfl
              rw [hset] at hsp hpick
              have hE := (expire_inv (hcur x List.mem_cons_self) (h.cls x.flo)).1
              split at hsp
              · rename_i hnil
                have hnil := List.getLast?_eq_none_iff.1 hnil
                obtain ⟨j, hj1, hj2, hj3⟩ := hfree x List.mem_cons_self
                obtain ⟨r, hr⟩ := pickReg_isSome (s := s) (li := x)
                  (o := fun r => (expire st.phys (st.set x.flo) x.start).using_ r || x.occ r)
                  hj1 hj2 (by
                    simp only [hj3, Bool.or_false]
                    cases hu : (expire st.phys (st.set x.flo) x.start).using_ j with
                    | false => rfl
                    | true =>
                      obtain ⟨a, ha, _⟩ := hE.usingOf j hu
                      rw [hnil] at ha; cases ha)
                rw [hr] at hpick; cases hpick
              · split at hsp <;> cases hsp
      obtain ⟨st1, hst1⟩ := hstep
      have hinv1 := allocOne_inv (hcur x List.mem_cons_self) h hv1
        (fun a ha b hb => hm a (List.mem_append_left _ ha) b (List.mem_append_left _ hb))
        (fun a ha => hsplit1.2.2 a ha x (by simp)) hwf.mapOk
        (fun hf => hwf.floOk x (by simp) hf) hst1
      obtain ⟨st', hst'⟩ := ih (done ++ [x]) st1 x.start hinv1
        (fun y hy => hsplit.2.2 x (by simp) y hy) hv hm hsort hwf
        (fun y hy => hfree y (List.mem_cons_of_mem _ hy))
      exact ⟨st', by rw [List.foldlM_cons, hst1]; exact hst'⟩
  exact key xs [] St.init cur (init_inv s cur) hcur (by simpa using hv) (by simpa using hm)
    (by simpa using hsort) (by simpa using hwf) hfree

/-! ### Concrete case -/

/-- x86-64 (src/cc/arch/x64/arch_config.h, ir_x64.c): 15 general registers, 7 of them temporary. -/
def x64Settings : Settings :=
  { physMax := 15, physTemp := 7, fphysMax := 16, fphysTemp := 8,
    mapping := fun i => [some 1, some 2, some 3, some 4, some 5, some 6].getD i none }

/-- A tiny machine with two general registers, one of them temporary. -/
def tiny : Settings :=
  { physMax := 2, physTemp := 1, fphysMax := 1, fphysTemp := 0, mapping := fun i => if i = 0 then some 0 else none }

/-- Four intervals: the third one takes the register of the longest one, which is spilled. -/
def sample : List LI :=
  [⟨0, 0, 9, fun _ => false, false, none, false⟩, ⟨1, 1, 4, fun _ => false, false, none, false⟩,
   ⟨2, 2, 3, fun _ => false, false, none, false⟩, ⟨3, 4, 5, fun _ => false, false, none, false⟩]

example : ((scan tiny sample).map (fun st => [0, 1, 2, 3].map st.phys)) =
    some [none, some 1, some 0, some 0] := by decide

example : VirtNodup sample ∧ sample.Pairwise (fun a b => a.start ≤ b.start) := by
  constructor
  · unfold VirtNodup sample; decide
  · unfold sample; simp

example : OccMono sample ∧ tiny.Wf sample := by
  refine ⟨?_, ⟨?_, ?_⟩⟩
  · intro x hx y hy _ _ _ r hr
    simp only [sample, List.mem_cons, List.not_mem_nil, or_false] at hy
    rcases hy with rfl | rfl | rfl | rfl <;> cases hr
  · intro i r h
    simp only [tiny] at h ⊢
    split at h
    · cases h; decide
    · cases h
  · intro x hx hf
    simp only [sample, List.mem_cons, List.not_mem_nil, or_false] at hx
    rcases hx with rfl | rfl | rfl | rfl <;> cases hf

end Verif.LinearScan

import Verif.Backend.StmtGen
/-!
# Does a function return on every path? (C75)

Model of `check_func_reachability` (src/cc/frontend/fe_misc.c:1801-1850, 1889-2029): the front end decides from the shape of a body
whether its end can be reached; if so, `main` gets a `return 0`.  The meaning of statements, with `goto` and with `case` anywhere
in the body of a `switch`, is that of C55 (`Verif.StmtGen.step`).  A block is a list: `.seq` puts a statement before the rest, `.skip` is the
end (and the empty statement).  Not modelled: calls of functions that do not return, `__asm`, statement expressions, the warnings.
-/
namespace Verif.Reach
open Verif.StmtGen

variable {M : Mach}

/-- src/cc/frontend/ast.c:44-58 `is_const_truthy`: for integer constants. -/
def yes : Ex M → Bool
  | .const v => M.truth v
  | _ => false

/-- src/cc/frontend/ast.c:60-66 `is_const_falsy`: for integer constants. -/
def no : Ex M → Bool
  | .const v => !M.truth v
  | _ => false

/-- fe_misc.c:1929: a condition that is missing or constant. -/
def yesO : Option (Ex M) → Bool
  | none => true
  | some c => yes c

/-- fe_misc.c:1926. -/
def noO : Option (Ex M) → Bool
  | none => false
  | some c => no c

/-- fe_misc.c:1810. -/
def isLabel : St M → Bool
  | .label _ _ => true
  | .case _ _ _ => true
  | _ => false

/-- `stmt->switch_.default_ != NULL`. -/
def hasDefault (a : St M) : Bool := (cases a).any fun c => c.1.isNone

/-- fe_misc.c:1805-1844 `check_reachability_stmts` and :1889-1983 `check_reachability_stmt`.  The first result is `REACH_STOP`; the
second says whether a `break` was found that belongs to what encloses the statement (`break_.parent->reach &= ~REACH_STOP`; the
parent sets its bit before it looks at its body).  `st` is true for the rest of a block if `reach & REACH_STOP` (`REACH_RETURN` is
used nowhere). -/
def reach (st : Bool) : St M → Bool × Bool
  | .seq a c =>
    let x := if st && !isLabel a then (true, false) else reach false a
    let y := reach x.1 c
    (y.1, x.2 || y.2)
  | .label _ a => reach false a
  | .case _ _ a => reach false a
  | .skip => (st, false)
  | .expr _ => (st, false)
  | .ite c a =>
    if st then (true, false) else
    let x := reach false a
    (if yes c then x.1 else false, x.2)
  | .itee c a b =>
    if st then (true, false) else
    let x := reach false a
    let y := reach false b
    (if yes c then x.1 else if no c then y.1 else x.1 && y.1, x.2 || y.2)
  | .while c a =>
    if st then (true, false) else
    (yes c && !(if no c then false else (reach false a).2), false)
  | .doWhile a c =>
    if st then (true, false) else (yes c && !(reach false a).2, false)
  | .for _ c _ a =>
    if st then (true, false) else
    (if noO c then false else yesO c && !(reach false a).2, false)
  | .switch _ a =>
    if st then (true, false) else
    let x := reach false a
    (hasDefault a && !x.2 && x.1, false)
  | .break => if st then (true, false) else (true, true)
  | .continue => (true, false)
  | .ret _ => (true, false)
  | .goto _ => (true, false)

/-- `vec_push(stmts, …)`: a statement at the end of a block. -/
def push (r : St M) : St M → St M
  | .seq a c => .seq a (push r c)
  | t => if t matches .skip then .seq r .skip else .seq t (.seq r .skip)

/-- fe_misc.c:2009-2017 in `check_func_return`: the body of `main`. -/
def mainBody (z : M.V) (f : St M) : St M :=
  if (reach false f).1 then f else push (.ret (some (.const z))) f

/-! ## Where labels may be

`reach` does not look for labels inside the statements it passes over. -/

/-- No label is inside a statement that `reach` passes over, nor in the branch of an `if` that is not taken. -/
def Vis (st : Bool) : St M → Prop
  | .seq a c =>
    (if st && !isLabel a then a.labels = [] else Vis false a) ∧
      Vis (if st && !isLabel a then true else (reach false a).1) c
  | .label _ a => Vis false a
  | .case _ _ a => Vis false a
  | .ite _ a => if st then a.labels = [] else Vis false a
  | .itee c a b => (if st then a.labels = [] ∧ b.labels = [] else Vis false a ∧ Vis false b) ∧ (yes c = true → b.labels = []) ∧
      (no c = true → a.labels = [])
  | .while _ a => if st then a.labels = [] else Vis false a
  | .doWhile a _ => if st then a.labels = [] else Vis false a
  | .for _ _ _ a => if st then a.labels = [] else Vis false a
  | .switch _ a => if st then a.labels = [] else Vis false a
  | _ => True

/-- Every `return` has a value. -/
def Val : St M → Prop
  | .seq a c => Val a ∧ Val c
  | .label _ a => Val a
  | .case _ _ a => Val a
  | .ite _ a => Val a
  | .itee _ a b => Val a ∧ Val b
  | .while _ a => Val a
  | .doWhile a _ => Val a
  | .for _ _ _ a => Val a
  | .switch _ a => Val a
  | .ret e => e ≠ none
  | _ => True

/-- A list of statements. -/
def Blk : St M → Prop
  | .skip => True
  | .seq _ c => Blk c
  | _ => False

/-! ## The invariant -/

/-- May what follows be reached (the end of the function may not), and what follows the innermost loop or `switch`? -/
def okP : Cont M → Prop × Prop
  | .stop => (False, True)
  | .seq c k => (((reach false c).1 = false → (okP k).1) ∧ ((reach false c).2 = true → (okP k).2), (okP k).2)
  | .while c a k => ((yes c = false → (okP k).1) ∧ ((reach false a).2 = true → (okP k).1), (okP k).1)
  | .doWhile a c k => ((yes c = false → (okP k).1) ∧ ((reach false a).2 = true → (okP k).1), (okP k).1)
  | .for c _ a k => ((yesO c = false → (okP k).1) ∧ ((reach false a).2 = true → (okP k).1), (okP k).1)
  | .switch k => ((okP k).1, (okP k).1)

def Ok (st : Bool) (a : St M) (k : Cont M) : Prop :=
  ((reach st a).1 = false → (okP k).1) ∧ ((reach st a).2 = true → (okP k).2)

/-- The loops around may be continued. -/
def Loops : Cont M → Prop
  | .stop => True
  | .seq _ k => Loops k
  | .while c a k => (okP (.while c a k)).1 ∧ Loops k
  | .doWhile a c k => (okP (.doWhile a c k)).1 ∧ Loops k
  | .for c post a k => (okP (.for c post a k)).1 ∧ Loops k
  | .switch k => Loops k

def VisK : Cont M → Prop
  | .stop => True
  | .seq c k => Vis false c ∧ VisK k
  | .while _ a k => Vis false a ∧ VisK k
  | .doWhile a _ k => Vis false a ∧ VisK k
  | .for _ _ a k => Vis false a ∧ VisK k
  | .switch k => VisK k

def ValK : Cont M → Prop
  | .stop => True
  | .seq c k => Val c ∧ ValK k
  | .while _ a k => Val a ∧ ValK k
  | .doWhile a _ k => Val a ∧ ValK k
  | .for _ _ a k => Val a ∧ ValK k
  | .switch k => ValK k

theorem vis_of_nil (a : St M) : ∀ st, a.labels = [] → Vis st a := by
  induction a with
  | seq a c iha ihc =>
    intro st h
    simp only [St.labels, List.append_eq_nil_iff] at h
    simp only [Vis]
    refine ⟨?_, ihc _ h.2⟩
    split
    · exact h.1
    · exact iha _ h.1
  | itee c a b iha ihb =>
    intro st h
    simp only [St.labels, List.append_eq_nil_iff] at h
    simp only [Vis]
    exact ⟨by split; exacts [h, ⟨iha _ h.1, ihb _ h.2⟩], fun _ => h.2, fun _ => h.1⟩
  | label l a ih => intro st h; simp [St.labels] at h
  | case i v a ih => intro st h; simp [St.labels] at h
  | ite c a ih => intro st h; simp only [St.labels] at h; simp only [Vis]; split; exacts [h, ih _ h]
  | «while» c a ih => intro st h; simp only [St.labels] at h; simp only [Vis]; split; exacts [h, ih _ h]
  | doWhile a c ih => intro st h; simp only [St.labels] at h; simp only [Vis]; split; exacts [h, ih _ h]
  | «for» p c q a ih => intro st h; simp only [St.labels] at h; simp only [Vis]; split; exacts [h, ih _ h]
  | switch e a ih => intro st h; simp only [St.labels] at h; simp only [Vis]; split; exacts [h, ih _ h]
  | _ => intro st _; trivial

theorem vis_false (a : St M) : ∀ st, Vis st a → Vis false a := by
  induction a with
  | seq a c iha ihc =>
    intro st h
    simp only [Vis] at h ⊢
    simp only [Bool.false_and, Bool.false_eq_true, if_false]
    by_cases hs : (st && !isLabel a) = true
    · simp only [hs, if_true] at h
      refine ⟨vis_of_nil _ _ h.1, ?_⟩
      cases hr : (reach false a).1
      · exact ihc _ h.2
      · exact h.2
    · simp only [hs] at h
      exact h
  | itee c a b iha ihb =>
    intro st h
    cases st
    · exact h
    · simp only [Vis, if_true] at h
      simp only [Vis]
      exact ⟨⟨vis_of_nil _ _ h.1.1, vis_of_nil _ _ h.1.2⟩, h.2⟩
  | label l a ih => intro st h; exact h
  | case i v a ih => intro st h; exact h
  | ite c a ih => intro st h; cases st; exacts [h, vis_of_nil _ _ h]
  | «while» c a ih => intro st h; cases st; exacts [h, vis_of_nil _ _ h]
  | doWhile a c ih => intro st h; cases st; exacts [h, vis_of_nil _ _ h]
  | «for» p c q a ih => intro st h; cases st; exacts [h, vis_of_nil _ _ h]
  | switch e a ih => intro st h; cases st; exacts [h, vis_of_nil _ _ h]
  | _ => intro st _; trivial

theorem at_none (b : Lb) (a : St M) : ∀ k, a.labels = [] → a.at b k = none := by
  induction a with
  | seq a c iha ihc =>
    intro k h
    simp only [St.labels, List.append_eq_nil_iff] at h
    simp [St.at, iha _ h.1, ihc _ h.2]
  | itee c a d iha ihb =>
    intro k h
    simp only [St.labels, List.append_eq_nil_iff] at h
    simp [St.at, iha _ h.1, ihb _ h.2]
  | label l a ih => intro k h; simp [St.labels] at h
  | case i v a ih => intro k h; simp [St.labels] at h
  | ite c a ih => intro k h; exact ih _ h
  | «while» c a ih => intro k h; exact ih _ h
  | doWhile a c ih => intro k h; exact ih _ h
  | «for» p c q a ih => intro k h; exact ih _ h
  | switch e a ih => intro k h; exact ih _ h
  | _ => intro k _; rfl

theorem or_some {α : Type} {x y : Option α} {r : α} (h : x.or y = some r) : x = some r ∨ y = some r := by
  cases x <;> simp_all

/-- What can be reached by a jump. -/
def Good (a : St M) (k : Cont M) : Prop := Ok false a k ∧ Loops k ∧ Vis false a ∧ VisK k

theorem yes_no {c : Ex M} (h : no c = true) : yes c = false := by
  cases c <;> simp_all [yes, no]

theorem yes_noO {c : Option (Ex M)} (h : noO c = true) : yesO c = false := by
  cases c
  · simp [noO] at h
  · exact yes_no h

theorem ok_while {c : Ex M} {a : St M} {k : Cont M} (h : Ok false (.while c a) k) : (okP (.while c a k)).1 := by
  simp only [Ok, reach, Bool.false_eq_true, if_false] at h
  simp only [okP]
  refine ⟨fun hc => h.1 (by simp [hc]), fun hr => h.1 ?_⟩
  cases hn : no c
  · simp [hr]
  · simp [yes_no hn]

theorem ok_doWhile {c : Ex M} {a : St M} {k : Cont M} (h : Ok false (.doWhile a c) k) : (okP (.doWhile a c k)).1 := by
  simp only [Ok, reach, Bool.false_eq_true, if_false] at h
  simp only [okP]
  exact ⟨fun hc => h.1 (by simp [hc]), fun hr => h.1 (by simp [hr])⟩

theorem ok_for {p c q : Option (Ex M)} {a : St M} {k : Cont M} (h : Ok false (.for p c q a) k) : (okP (.for c q a k)).1 := by
  simp only [Ok, reach, Bool.false_eq_true, if_false] at h
  simp only [okP]
  refine ⟨fun hc => h.1 (by simp [hc]), fun hr => h.1 ?_⟩
  cases hn : noO c
  · simp [hr]
  · simp

theorem ok_body_while {c : Ex M} {a : St M} {k : Cont M} (h : (okP (.while c a k)).1) : Ok false a (.while c a k) :=
  ⟨fun _ => h, h.2⟩
theorem ok_body_doWhile {c : Ex M} {a : St M} {k : Cont M} (h : (okP (.doWhile a c k)).1) : Ok false a (.doWhile a c k) :=
  ⟨fun _ => h, h.2⟩
theorem ok_body_for {c q : Option (Ex M)} {a : St M} {k : Cont M} (h : (okP (.for c q a k)).1) : Ok false a (.for c q a k) :=
  ⟨fun _ => h, h.2⟩

theorem ok_seq {a c : St M} {k : Cont M} (h : Ok false (.seq a c) k) : Ok false a (.seq c k) := by
  simp only [Ok, reach, Bool.false_and, Bool.false_eq_true, if_false] at h
  refine ⟨fun hr => ?_, fun hr => h.2 (by simp [hr])⟩
  simp only [okP]
  rw [hr] at h
  exact ⟨h.1, fun hb => h.2 (by simp [hb])⟩

theorem ok_switch {e : Ex M} {a : St M} {k : Cont M} (h : Ok false (.switch e a) k) : Ok false a (.switch k) := by
  simp only [Ok, reach, Bool.false_eq_true, if_false] at h
  exact ⟨fun hr => h.1 (by simp [hr]), fun hr => h.1 (by simp [hr])⟩

theorem at_good (b : Lb) (a : St M) : ∀ (st : Bool) (k : Cont M) (a' : St M) (k' : Cont M), Ok st a k → Loops k → Vis st a → VisK k →
    a.at b k = some (a', k') → Good a' k' := by
  induction a with
  | seq a c iha ihc =>
    intro st k a' k' ho hl hv hk h
    simp only [St.at] at h
    simp only [Vis] at hv
    by_cases hs : (st && !isLabel a) = true
    · simp only [hs, if_true] at hv
      rw [at_none b a _ hv.1, Option.none_or] at h
      refine ihc true k a' k' ?_ hl hv.2 hk h
      simpa only [Ok, reach, hs, if_true, Bool.false_or] using ho
    · simp only [hs] at hv
      simp only [Ok, reach, hs] at ho
      simp only [Bool.false_eq_true, if_false] at hv ho
      rcases or_some h with h | h
      · refine iha false (.seq c k) a' k' ⟨fun hr => ?_, fun hr => ho.2 (by simp [hr])⟩ hl hv.1 ⟨vis_false _ _ hv.2, hk⟩ h
        rw [hr] at ho
        exact ⟨ho.1, fun hb => ho.2 (by simp [hb])⟩
      · exact ihc _ k a' k' ⟨ho.1, fun hb => ho.2 (by simp [hb])⟩ hl hv.2 hk h
  | label l a ih =>
    intro st k a' k' ho hl hv hk h
    simp only [St.at] at h
    split at h
    · cases h; exact ⟨ho, hl, hv, hk⟩
    · exact ih false k a' k' ho hl hv hk h
  | case i v a ih =>
    intro st k a' k' ho hl hv hk h
    simp only [St.at] at h
    split at h
    · cases h; exact ⟨ho, hl, hv, hk⟩
    · exact ih false k a' k' ho hl hv hk h
  | ite c a ih =>
    intro st k a' k' ho hl hv hk h
    simp only [St.at] at h
    cases st
    · simp only [Ok, reach, Bool.false_eq_true, if_false] at ho
      refine ih false k a' k' ⟨fun hr => ho.1 (by simp [hr]), ho.2⟩ hl hv hk h
    · rw [at_none b a _ hv] at h; cases h
  | itee c a d iha ihd =>
    intro st k a' k' ho hl hv hk h
    simp only [St.at] at h
    cases st
    · simp only [Ok, reach, Bool.false_eq_true, if_false] at ho
      simp only [Vis, Bool.false_eq_true, if_false] at hv
      rcases or_some h with h | h
      · refine iha false k a' k' ⟨fun hr => ho.1 ?_, fun hb => ho.2 (by simp [hb])⟩ hl hv.1.1 hk h
        cases hy : yes c
        · cases hn : no c
          · simp [hr]
          · rw [at_none b a _ (hv.2.2 hn)] at h; cases h
        · simp [hr]
      · refine ihd false k a' k' ⟨fun hr => ho.1 ?_, fun hb => ho.2 (by simp [hb])⟩ hl hv.1.2 hk h
        cases hy : yes c
        · cases hn : no c
          · simp [hr]
          · simp [hr]
        · rw [at_none b d _ (hv.2.1 hy)] at h; cases h
    · simp only [Vis, if_true] at hv
      rw [at_none b a _ hv.1.1, at_none b d _ hv.1.2] at h; cases h
  | «while» c a ih =>
    intro st k a' k' ho hl hv hk h
    simp only [St.at] at h
    cases st
    · exact ih false _ a' k' (ok_body_while (ok_while ho)) ⟨ok_while ho, hl⟩ hv ⟨hv, hk⟩ h
    · rw [at_none b a _ hv] at h; cases h
  | doWhile a c ih =>
    intro st k a' k' ho hl hv hk h
    simp only [St.at] at h
    cases st
    · exact ih false _ a' k' (ok_body_doWhile (ok_doWhile ho)) ⟨ok_doWhile ho, hl⟩ hv ⟨hv, hk⟩ h
    · rw [at_none b a _ hv] at h; cases h
  | «for» p c q a ih =>
    intro st k a' k' ho hl hv hk h
    simp only [St.at] at h
    cases st
    · exact ih false _ a' k' (ok_body_for (ok_for ho)) ⟨ok_for ho, hl⟩ hv ⟨hv, hk⟩ h
    · rw [at_none b a _ hv] at h; cases h
  | switch e a ih =>
    intro st k a' k' ho hl hv hk h
    simp only [St.at] at h
    cases st
    · exact ih false _ a' k' (ok_switch ho) hl hv hk h
    · rw [at_none b a _ hv] at h; cases h
  | _ => intro st k a' k' _ _ _ _ h; cases h

theorem at_val (b : Lb) (a : St M) : ∀ (k : Cont M) (a' : St M) (k' : Cont M), Val a → ValK k → a.at b k = some (a', k') → Val a' ∧ ValK k' := by
  induction a with
  | seq a c iha ihc =>
    intro k a' k' hv hk h
    rcases or_some h with h | h
    · exact iha (.seq c k) _ _ hv.1 ⟨hv.2, hk⟩ h
    · exact ihc _ _ _ hv.2 hk h
  | itee c a d iha ihd =>
    intro k a' k' hv hk h
    rcases or_some h with h | h
    · exact iha _ _ _ hv.1 hk h
    · exact ihd _ _ _ hv.2 hk h
  | label l a ih =>
    intro k a' k' hv hk h
    simp only [St.at] at h
    split at h
    · cases h; exact ⟨hv, hk⟩
    · exact ih _ _ _ hv hk h
  | case i v a ih =>
    intro k a' k' hv hk h
    simp only [St.at] at h
    split at h
    · cases h; exact ⟨hv, hk⟩
    · exact ih _ _ _ hv hk h
  | ite c a ih => intro k a' k' hv hk h; exact ih _ _ _ hv hk h
  | «while» c a ih => intro k a' k' hv hk h; exact ih (.while c a k) _ _ hv ⟨hv, hk⟩ h
  | doWhile a c ih => intro k a' k' hv hk h; exact ih (.doWhile a c k) _ _ hv ⟨hv, hk⟩ h
  | «for» p c q a ih => intro k a' k' hv hk h; exact ih (.for c q a k) _ _ hv ⟨hv, hk⟩ h
  | switch e a ih => intro k a' k' hv hk h; exact ih (.switch k) _ _ hv hk h
  | _ => intro k a' k' _ _ h; cases h

theorem test_yes {c : Ex M} (h : yes c = true) (ρ : Env M) (w : M.W) : (testO (some c) ρ w).1 = true := by
  cases c <;> simp_all [yes, testO, eval]

theorem test_no {c : Ex M} (h : no c = true) (ρ : Env M) (w : M.W) : (testO (some c) ρ w).1 = false := by
  cases c <;> simp_all [no, testO, eval]

theorem test_yesO {c : Option (Ex M)} (h : yesO c = true) (ρ : Env M) (w : M.W) : (testO c ρ w).1 = true := by
  cases c
  · rfl
  · exact test_yes h ρ w

def Inv : State M → Prop
  | .run a k _ _ => Good a k
  | .done _ _ => True

theorem good_skip {k : Cont M} (h : (okP k).1) (hl : Loops k) (hk : VisK k) : Good .skip k :=
  ⟨⟨fun _ => h, fun q => nomatch q⟩, hl, trivial, hk⟩

theorem out_ok {k : Cont M} : ∀ {k' : Cont M}, k.out = some k' → (okP k).2 → Loops k → VisK k → Good .skip k' := by
  induction k with
  | stop => intro k' h; cases h
  | seq c k ih => intro k' h ho hl hk; exact ih h ho hl hk.2
  | «while» c a k ih => intro k' h ho hl hk; cases h; exact good_skip ho hl.2 hk.2
  | doWhile a c k ih => intro k' h ho hl hk; cases h; exact good_skip ho hl.2 hk.2
  | «for» c q a k ih => intro k' h ho hl hk; cases h; exact good_skip ho hl.2 hk.2
  | switch k ih => intro k' h ho hl hk; cases h; exact good_skip ho hl hk

theorem next_ok {k : Cont M} : ∀ {k' : Cont M}, k.next = some k' → Loops k → VisK k → Good .skip k' := by
  induction k with
  | stop => intro k' h; cases h
  | seq c k ih => intro k' h hl hk; exact ih h hl hk.2
  | «while» c a k ih => intro k' h hl hk; cases h; exact good_skip hl.1 hl hk
  | doWhile a c k ih => intro k' h hl hk; cases h; exact good_skip hl.1 hl hk
  | «for» c q a k ih => intro k' h hl hk; cases h; exact good_skip hl.1 hl hk
  | switch k ih => intro k' h hl hk; exact ih h hl hk

theorem choose_none {v : M.V} {cs : List (Option M.V × Nat)} (h : choose M v cs = none) : cs.any (fun c => c.1.isNone) = false := by
  unfold choose at h
  split at h
  · cases h
  · simp only [Option.map_eq_none_iff, List.find?_eq_none] at h
    simpa using h

/-- `if (b) then x else y` of good states. -/
theorem inv_if {b : Bool} {x y : State M} (hx : b = true → Inv x) (hy : b = false → Inv y) : Inv (if b then x else y) := by
  cases b
  · exact hy rfl
  · exact hx rfl

theorem step_inv {f : St M} (hf : Ok false f .stop) (hv : Vis false f) {s s' : State M} (hs : Inv s) (h : step f s = some s') : Inv s' := by
  cases s with
  | done v w => cases h
  | run a k ρ w =>
    obtain ⟨ho, hl, hva, hk⟩ := hs
    cases a with
    | skip =>
      have hok : (okP k).1 := ho.1 rfl
      cases k with
      | stop => exact absurd hok id
      | seq c k => cases h; exact ⟨hok, hl, hk.1, hk.2⟩
      | «while» c a k =>
        cases h
        refine inv_if (fun _ => ⟨ok_body_while hok, hl, hk.1, hk⟩) (fun hx => good_skip (hok.1 ?_) hl.2 hk.2)
        cases hy : yes c
        · rfl
        · rw [test_yes hy] at hx; cases hx
      | doWhile a c k =>
        cases h
        refine inv_if (fun _ => ⟨ok_body_doWhile hok, hl, hk.1, hk⟩) (fun hx => good_skip (hok.1 ?_) hl.2 hk.2)
        cases hy : yes c
        · rfl
        · rw [test_yes hy] at hx; cases hx
      | «for» c q a k =>
        cases h
        refine inv_if (fun _ => ⟨ok_body_for hok, hl, hk.1, hk⟩) (fun hx => good_skip (hok.1 ?_) hl.2 hk.2)
        cases hy : yesO c
        · rfl
        · rw [test_yesO hy] at hx; cases hx
      | switch k => cases h; exact good_skip hok hl hk
    | expr e => cases h; exact good_skip (ho.1 rfl) hl hk
    | seq a c =>
      cases h
      simp only [Vis, Bool.false_and, Bool.false_eq_true, if_false] at hva
      exact ⟨ok_seq ho, hl, hva.1, vis_false _ _ hva.2, hk⟩
    | ite c a =>
      cases h
      simp only [Ok, reach, Bool.false_eq_true, if_false] at ho
      refine inv_if (fun _ => ⟨⟨fun hr => ho.1 (by simp [hr]), ho.2⟩, hl, hva, hk⟩) (fun hx => good_skip (ho.1 ?_) hl hk)
      cases hy : yes c
      · rfl
      · rw [test_yes hy] at hx; cases hx
    | itee c a b =>
      cases h
      simp only [Ok, reach, Bool.false_eq_true, if_false] at ho
      simp only [Vis, Bool.false_eq_true, if_false] at hva
      refine inv_if (fun hx => ⟨⟨fun hr => ho.1 ?_, fun hb => ho.2 (by simp [hb])⟩, hl, hva.1.1, hk⟩)
        (fun hx => ⟨⟨fun hr => ho.1 ?_, fun hb => ho.2 (by simp [hb])⟩, hl, hva.1.2, hk⟩)
      · cases hn : no c
        · simp [hr]
        · rw [test_no hn] at hx; cases hx
      · cases hy : yes c
        · simp [hr]
        · rw [test_yes hy] at hx; cases hx
    | «while» c a =>
      cases h
      have hok := ok_while ho
      refine inv_if (fun _ => ⟨ok_body_while hok, ⟨hok, hl⟩, hva, hva, hk⟩) (fun hx => good_skip (hok.1 ?_) hl hk)
      cases hy : yes c
      · rfl
      · rw [test_yes hy] at hx; cases hx
    | doWhile a c =>
      cases h
      have hok := ok_doWhile ho
      exact ⟨ok_body_doWhile hok, ⟨hok, hl⟩, hva, hva, hk⟩
    | «for» p c q a =>
      cases h
      have hok := ok_for ho
      refine inv_if (fun _ => ⟨ok_body_for hok, ⟨hok, hl⟩, hva, hva, hk⟩) (fun hx => good_skip (hok.1 ?_) hl hk)
      cases hy : yesO c
      · rfl
      · rw [test_yesO hy] at hx; cases hx
    | «break» =>
      simp only [step, Option.map_eq_some_iff] at h
      obtain ⟨k', hk', rfl⟩ := h
      exact out_ok hk' (ho.2 rfl) hl hk
    | «continue» =>
      simp only [step, Option.map_eq_some_iff] at h
      obtain ⟨k', hk', rfl⟩ := h
      exact next_ok hk' hl hk
    | ret e => cases e <;> cases h <;> trivial
    | goto l =>
      simp only [step, Option.map_eq_some_iff] at h
      obtain ⟨⟨a', k'⟩, hk', rfl⟩ := h
      exact at_good _ f false .stop a' k' hf trivial hv trivial hk'
    | label l a => cases h; exact ⟨ho, hl, hva, hk⟩
    | case i v a => cases h; exact ⟨ho, hl, hva, hk⟩
    | switch e a =>
      simp only [step] at h
      split at h
      · simp only [Option.map_eq_some_iff] at h
        obtain ⟨⟨a', k'⟩, hk', rfl⟩ := h
        exact at_good _ a false (.switch k) a' k' (ok_switch ho) hl hva hk hk'
      · rename_i hc
        cases h
        refine good_skip (ho.1 ?_) hl hk
        have : hasDefault a = false := choose_none hc
        simp [reach, this]

theorem iter_inv {f : St M} (hf : Ok false f .stop) (hv : Vis false f) : ∀ (n : Nat) (s s' : State M), Inv s → iter (step f) n s = some s' → Inv s'
  | 0, s, s', hs, h => by cases h; exact hs
  | n + 1, s, s', hs, h => by
    simp only [iter, Option.bind_eq_some_iff] at h
    obtain ⟨t, ht, h⟩ := h
    exact iter_inv hf hv n t s' (step_inv hf hv hs ht) h

/-- C75: if the front end says that a body does not reach its end, no execution does.  Partial: no label may be inside a statement
that the front end passes over (`Vis`); otherwise it is false (`duff_reaches_end`, `goto_reaches_end`). -/
theorem reach_sound_partial {f : St M} (hv : Vis false f) (h : (reach false f).1 = true) (n : Nat) (ρ ρ' : Env M) (w w' : M.W) :
    iter (step f) n (.run f .stop ρ w) ≠ some (.run .skip .stop ρ' w') := by
  intro hn
  have hb : ∀ (a : St M), (reach false a).2 = true → (okP (M := M) .stop).2 := fun _ _ => trivial
  have hf : Ok false f .stop := ⟨fun hr => (by rw [h] at hr; cases hr), hb f⟩
  have hi : Inv (.run f .stop ρ w) := ⟨hf, trivial, hv, trivial⟩
  have hg : Good (M := M) .skip .stop := iter_inv hf hv n _ _ hi hn
  exact hg.1.1 rfl

/-! ## `return 0` at the end of `main` -/

/-- Every execution that ends by `return` has a value. -/
def InvV : State M → Prop
  | .run a k _ _ => Val a ∧ ValK k
  | .done v _ => v ≠ none

theorem out_val {k : Cont M} : ∀ {k' : Cont M}, k.out = some k' → ValK k → ValK k' := by
  induction k with
  | stop => intro k' h; cases h
  | seq c k ih => intro k' h hk; exact ih h hk.2
  | «while» c a k ih => intro k' h hk; cases h; exact hk.2
  | doWhile a c k ih => intro k' h hk; cases h; exact hk.2
  | «for» c q a k ih => intro k' h hk; cases h; exact hk.2
  | switch k ih => intro k' h hk; cases h; exact hk

theorem next_val {k : Cont M} : ∀ {k' : Cont M}, k.next = some k' → ValK k → ValK k' := by
  induction k with
  | stop => intro k' h; cases h
  | seq c k ih => intro k' h hk; exact ih h hk.2
  | «while» c a k ih => intro k' h hk; cases h; exact hk
  | doWhile a c k ih => intro k' h hk; cases h; exact hk
  | «for» c q a k ih => intro k' h hk; cases h; exact hk
  | switch k ih => intro k' h hk; exact ih h hk

theorem inv_ifV {b : Bool} {x y : State M} (hx : InvV x) (hy : InvV y) : InvV (if b then x else y) := by
  cases b
  · exact hy
  · exact hx

/-- A step keeps `InvV`, unless it leaves the function at its end. -/
theorem step_val {f : St M} (hf : Val f) {s s' : State M} (hs : InvV s) (h : step f s = some s') :
    InvV s' ∨ ∃ ρ w, s = .run .skip .stop ρ w := by
  cases s with
  | done v w => cases h
  | run a k ρ w =>
    obtain ⟨hv, hk⟩ := hs
    cases a with
    | skip =>
      cases k with
      | stop => exact .inr ⟨_, _, rfl⟩
      | seq c k => cases h; exact .inl hk
      | «while» c a k => cases h; exact .inl (inv_ifV ⟨hk.1, hk⟩ ⟨trivial, hk.2⟩)
      | doWhile a c k => cases h; exact .inl (inv_ifV ⟨hk.1, hk⟩ ⟨trivial, hk.2⟩)
      | «for» c q a k => cases h; exact .inl (inv_ifV ⟨hk.1, hk⟩ ⟨trivial, hk.2⟩)
      | switch k => cases h; exact .inl ⟨trivial, hk⟩
    | expr e => cases h; exact .inl ⟨trivial, hk⟩
    | seq a c => cases h; exact .inl ⟨hv.1, hv.2, hk⟩
    | ite c a => cases h; exact .inl (inv_ifV ⟨hv, hk⟩ ⟨trivial, hk⟩)
    | itee c a b => cases h; exact .inl (inv_ifV ⟨hv.1, hk⟩ ⟨hv.2, hk⟩)
    | «while» c a => cases h; exact .inl (inv_ifV ⟨hv, hv, hk⟩ ⟨trivial, hk⟩)
    | doWhile a c => cases h; exact .inl ⟨hv, hv, hk⟩
    | «for» p c q a => cases h; exact .inl (inv_ifV ⟨hv, hv, hk⟩ ⟨trivial, hk⟩)
    | «break» =>
      simp only [step, Option.map_eq_some_iff] at h
      obtain ⟨k', hk', rfl⟩ := h
      exact .inl ⟨trivial, out_val hk' hk⟩
    | «continue» =>
      simp only [step, Option.map_eq_some_iff] at h
      obtain ⟨k', hk', rfl⟩ := h
      exact .inl ⟨trivial, next_val hk' hk⟩
    | ret e =>
      cases e with
      | none => exact absurd rfl hv
      | some e => cases h; exact .inl (fun q => nomatch q)
    | goto l =>
      simp only [step, Option.map_eq_some_iff] at h
      obtain ⟨⟨a', k'⟩, hk', rfl⟩ := h
      exact .inl (at_val _ f .stop a' k' hf trivial hk')
    | label l a => cases h; exact .inl ⟨hv, hk⟩
    | case i v a => cases h; exact .inl ⟨hv, hk⟩
    | switch e a =>
      simp only [step] at h
      split at h
      · simp only [Option.map_eq_some_iff] at h
        obtain ⟨⟨a', k'⟩, hk', rfl⟩ := h
        exact .inl (at_val _ a (.switch k) a' k' hv hk hk')
      · cases h; exact .inl ⟨trivial, hk⟩

/-- Continuations of a body and of the body with a statement at the end. -/
inductive KR (r : St M) : Cont M → Cont M → Prop
  | base {c : St M} : Blk c → KR r (.seq c .stop) (.seq (push r c) .stop)
  | seq {c : St M} {k k' : Cont M} : KR r k k' → KR r (.seq c k) (.seq c k')
  | while {c : Ex M} {a : St M} {k k' : Cont M} : KR r k k' → KR r (.while c a k) (.while c a k')
  | doWhile {c : Ex M} {a : St M} {k k' : Cont M} : KR r k k' → KR r (.doWhile a c k) (.doWhile a c k')
  | for {c q : Option (Ex M)} {a : St M} {k k' : Cont M} : KR r k k' → KR r (.for c q a k) (.for c q a k')
  | switch {k k' : Cont M} : KR r k k' → KR r (.switch k) (.switch k')

/-- States that correspond. -/
inductive SR (r : St M) : State M → State M → Prop
  | tail {c : St M} {ρ : Env M} {w : M.W} : Blk c → SR r (.run c .stop ρ w) (.run (push r c) .stop ρ w)
  | mid {a : St M} {k k' : Cont M} {ρ : Env M} {w : M.W} : KR r k k' → SR r (.run a k ρ w) (.run a k' ρ w)
  | fin {v : Option M.V} {w : M.W} : SR r (.done v w) (.done v w)

def OR (r : St M) : Option (St M × Cont M) → Option (St M × Cont M) → Prop
  | none, none => True
  | some x, some y => x.1 = y.1 ∧ KR r x.2 y.2
  | _, _ => False

theorem or_or {r : St M} {x y x' y' : Option (St M × Cont M)} (h : OR r x y) (h' : OR r x' y') : OR r (x.or x') (y.or y') := by
  cases x <;> cases y <;> first | exact h' | exact h | exact h.elim

theorem at_kr {r : St M} (b : Lb) (a : St M) : ∀ {k k' : Cont M}, KR r k k' → OR r (a.at b k) (a.at b k') := by
  induction a with
  | seq a c iha ihc => intro k k' h; exact or_or (iha (.seq h)) (ihc h)
  | itee c a d iha ihd => intro k k' h; exact or_or (iha h) (ihd h)
  | ite c a ih => intro k k' h; exact ih h
  | «while» c a ih => intro k k' h; exact ih (.while h)
  | doWhile a c ih => intro k k' h; exact ih (.doWhile h)
  | «for» p c q a ih => intro k k' h; exact ih (.for h)
  | switch e a ih => intro k k' h; exact ih (.switch h)
  | label l a ih =>
    intro k k' h
    simp only [St.at]
    split
    · exact ⟨rfl, h⟩
    · exact ih h
  | case i v a ih =>
    intro k k' h
    simp only [St.at]
    split
    · exact ⟨rfl, h⟩
    · exact ih h
  | _ => intro k k' h; trivial

theorem at_push {r : St M} (hr : r.labels = []) (b : Lb) (f : St M) : Blk f → OR r (f.at b .stop) ((push r f).at b .stop) := by
  induction f with
  | skip =>
    intro _
    have h1 : (push r (.skip : St M)) = .seq r .skip := rfl
    rw [h1]
    simp only [St.at, at_none b r _ hr]
    trivial
  | seq a c iha ihc => intro h; exact or_or (at_kr b a (.base h)) (ihc h)
  | _ => intro h; exact h.elim

theorem kr_out {r : St M} {k k' : Cont M} (h : KR r k k') : ∀ k1, k.out = some k1 → ∃ k1', k'.out = some k1' ∧ KR r k1 k1' := by
  induction h with
  | base => intro k1 h1; cases h1
  | seq _ ih => intro k1 h1; exact ih k1 h1
  | «while» h => intro k1 h1; cases h1; exact ⟨_, rfl, h⟩
  | doWhile h => intro k1 h1; cases h1; exact ⟨_, rfl, h⟩
  | «for» h => intro k1 h1; cases h1; exact ⟨_, rfl, h⟩
  | switch h => intro k1 h1; cases h1; exact ⟨_, rfl, h⟩

theorem kr_next {r : St M} {k k' : Cont M} (h : KR r k k') : ∀ k1, k.next = some k1 → ∃ k1', k'.next = some k1' ∧ KR r k1 k1' := by
  induction h with
  | base => intro k1 h1; cases h1
  | seq _ ih => intro k1 h1; exact ih k1 h1
  | «while» h => intro k1 h1; cases h1; exact ⟨_, rfl, .while h⟩
  | doWhile h => intro k1 h1; cases h1; exact ⟨_, rfl, .doWhile h⟩
  | «for» h => intro k1 h1; cases h1; exact ⟨_, rfl, .for h⟩
  | switch _ ih => intro k1 h1; exact ih k1 h1

theorem sr_if {r : St M} {b : Bool} {x y x' y' : State M} (hx : SR r x x') (hy : SR r y y') :
    SR r (if b then x else y) (if b then x' else y') := by
  cases b
  · exact hy
  · exact hx

/-- One step of a body is one step of the body with a statement at its end, until its end is reached. -/
theorem step_push {r : St M} (hr : r.labels = []) {f : St M} (hb : Blk f) {s s1 t : State M} (hst : SR r s t) (h : step f s = some s1)
    (hne : ∀ ρ w, s ≠ .run .skip .stop ρ w) : ∃ t1, step (push r f) t = some t1 ∧ SR r s1 t1 := by
  cases hst with
  | fin => cases h
  | tail hc =>
    rename_i c ρ w
    cases c with
    | skip => exact absurd rfl (hne ρ w)
    | seq a c => cases h; exact ⟨_, rfl, .mid (.base hc)⟩
    | _ => exact hc.elim
  | mid hk =>
    rename_i a k k' ρ w
    cases a with
    | skip =>
      cases hk with
      | base hc => cases h; exact ⟨_, rfl, .tail hc⟩
      | seq hk => cases h; exact ⟨_, rfl, .mid hk⟩
      | «while» hk => cases h; exact ⟨_, rfl, sr_if (.mid (.while hk)) (.mid hk)⟩
      | doWhile hk => cases h; exact ⟨_, rfl, sr_if (.mid (.doWhile hk)) (.mid hk)⟩
      | «for» hk => cases h; exact ⟨_, rfl, sr_if (.mid (.for hk)) (.mid hk)⟩
      | switch hk => cases h; exact ⟨_, rfl, .mid hk⟩
    | expr e => cases h; exact ⟨_, rfl, .mid hk⟩
    | seq a c => cases h; exact ⟨_, rfl, .mid (.seq hk)⟩
    | ite c a => cases h; exact ⟨_, rfl, sr_if (.mid hk) (.mid hk)⟩
    | itee c a b => cases h; exact ⟨_, rfl, sr_if (.mid hk) (.mid hk)⟩
    | «while» c a => cases h; exact ⟨_, rfl, sr_if (.mid (.while hk)) (.mid hk)⟩
    | doWhile a c => cases h; exact ⟨_, rfl, .mid (.doWhile hk)⟩
    | «for» p c q a => cases h; exact ⟨_, rfl, sr_if (.mid (.for hk)) (.mid hk)⟩
    | «break» =>
      simp only [step, Option.map_eq_some_iff] at h
      obtain ⟨k1, hk1, rfl⟩ := h
      obtain ⟨k1', h1, h2⟩ := kr_out hk k1 hk1
      exact ⟨_, by simp only [step, h1, Option.map_some], .mid h2⟩
    | «continue» =>
      simp only [step, Option.map_eq_some_iff] at h
      obtain ⟨k1, hk1, rfl⟩ := h
      obtain ⟨k1', h1, h2⟩ := kr_next hk k1 hk1
      exact ⟨_, by simp only [step, h1, Option.map_some], .mid h2⟩
    | ret e => cases e <;> (cases h; exact ⟨_, rfl, .fin⟩)
    | goto l =>
      simp only [step, Option.map_eq_some_iff] at h
      obtain ⟨x, hx, rfl⟩ := h
      have := at_push hr (.user l) f hb
      rw [hx] at this
      cases hy : (push r f).at (.user l) .stop with
      | none => rw [hy] at this; exact this.elim
      | some y =>
        rw [hy] at this
        obtain ⟨h1, h2⟩ := this
        refine ⟨.run y.1 y.2 ρ w, by simp only [step, hy, Option.map_some], ?_⟩
        rw [← h1]
        exact .mid h2
    | label l a => cases h; exact ⟨_, rfl, .mid hk⟩
    | case i v a => cases h; exact ⟨_, rfl, .mid hk⟩
    | switch e a =>
      simp only [step] at h ⊢
      split at h
      · rename_i i hi
        simp only [Option.map_eq_some_iff] at h
        obtain ⟨x, hx, rfl⟩ := h
        have := at_kr (.case i) a (KR.switch hk)
        rw [hx] at this
        cases hy : a.at (.case i) (.switch k') with
        | none => rw [hy] at this; exact this.elim
        | some y =>
          rw [hy] at this
          obtain ⟨h1, h2⟩ := this
          refine ⟨.run y.1 y.2 (eval e ρ w).2.1 (eval e ρ w).2.2, by simp only [hi, hy, Option.map_some], ?_⟩
          rw [← h1]
          exact .mid h2
      · rename_i hi
        cases h
        exact ⟨_, by simp only [hi], .mid hk⟩

theorem iter_done {α : Type} {f : α → Option α} {s t : α} (h : f s = none) : ∀ n, iter f n s = some t → t = s
  | 0, h' => by cases h'; rfl
  | n + 1, h' => by simp [iter, h] at h'

theorem run_push {z : M.V} {f : St M} (hb : Blk f) (hv : Val f) : ∀ (n : Nat) (s t : State M) (v : Option M.V) (w : M.W),
    SR (.ret (some (.const z))) s t → InvV s → iter (step f) n s = some (.done v w) →
    ∃ m, iter (step (push (.ret (some (.const z))) f)) m t = some (.done (some (v.getD z)) w)
  | 0, s, t, v, w, hst, hi, h => by
    cases h
    cases hst
    cases v with
    | none => exact absurd rfl hi
    | some v => exact ⟨0, rfl⟩
  | n + 1, s, t, v, w, hst, hi, h => by
    simp only [iter, Option.bind_eq_some_iff] at h
    obtain ⟨s1, hs1, h⟩ := h
    by_cases he : ∃ ρ w, s = .run .skip .stop ρ w
    · obtain ⟨ρ, w0, rfl⟩ := he
      cases hs1
      cases iter_done (by rfl) n h
      cases hst with
      | tail _ => exact ⟨2, rfl⟩
      | mid hk => cases hk
    · obtain ⟨t1, ht1, hst1⟩ := step_push rfl hb hst hs1 (fun ρ w q => he ⟨ρ, w, q⟩)
      have hi1 := (step_val hv hi hs1).resolve_right he
      obtain ⟨m, hm⟩ := run_push hb hv n s1 t1 v w hst1 hi1 h
      exact ⟨m + 1, by simp only [iter, ht1, Option.bind_some, hm]⟩

theorem run_val {f : St M} (hv : Val f) (hr : ∀ n ρ w ρ' w', iter (step f) n (.run f .stop ρ w) ≠ some (.run .skip .stop ρ' w'))
    (ρ : Env M) (w : M.W) : ∀ (n m : Nat) (s s' : State M), iter (step f) m (.run f .stop ρ w) = some s → InvV s → iter (step f) n s = some s' → InvV s'
  | 0, m, s, s', _, hi, h => by cases h; exact hi
  | n + 1, m, s, s', hm, hi, h => by
    simp only [iter, Option.bind_eq_some_iff] at h
    obtain ⟨s1, hs1, h⟩ := h
    refine run_val hv hr ρ w n (m + 1) s1 s' ?_ ((step_val hv hi hs1).resolve_right ?_) h
    · rw [iter_add _ m 1 _ _ hm]
      simp only [iter, hs1, Option.bind_some]
    · rintro ⟨ρ', w', rfl⟩
      exact hr m ρ w ρ' w' hm

theorem kr_out_none {r : St M} {k k' : Cont M} (h : KR r k k') : k.out = none → k'.out = none := by
  induction h with
  | base => intro _; rfl
  | seq _ ih => intro h1; exact ih h1
  | _ => intro h1; cases h1

theorem kr_next_none {r : St M} {k k' : Cont M} (h : KR r k k') : k.next = none → k'.next = none := by
  induction h with
  | base => intro _; rfl
  | seq _ ih => intro h1; exact ih h1
  | switch _ ih => intro h1; exact ih h1
  | _ => intro h1; cases h1

theorem step_push_none {r : St M} (hr : r.labels = []) {f : St M} (hb : Blk f) {s t : State M} (hst : SR r s t) (h : step f s = none) :
    step (push r f) t = none := by
  cases hst with
  | fin => rfl
  | tail hc =>
    rename_i c ρ w
    cases c with
    | skip => cases h
    | seq a c => cases h
    | _ => exact hc.elim
  | mid hk =>
    rename_i a k k' ρ w
    cases a with
    | skip => cases hk <;> cases h
    | «break» =>
      simp only [step, Option.map_eq_none_iff] at h ⊢
      exact kr_out_none hk h
    | «continue» =>
      simp only [step, Option.map_eq_none_iff] at h ⊢
      exact kr_next_none hk h
    | ret e => cases e <;> cases h
    | goto l =>
      simp only [step, Option.map_eq_none_iff] at h ⊢
      have := at_push hr (.user l) f hb
      rw [h] at this
      cases hy : (push r f).at (.user l) .stop with
      | none => rfl
      | some y => rw [hy] at this; exact this.elim
    | switch e a =>
      simp only [step] at h ⊢
      split at h
      · rename_i i hi
        simp only [Option.map_eq_none_iff] at h
        have := at_kr (.case i) a (KR.switch hk)
        rw [h] at this
        cases hy : a.at (.case i) (.switch k') with
        | none => simp only [hi, hy, Option.map_none]
        | some y => rw [hy] at this; exact this.elim
      · cases h
    | _ => cases h

theorem back_push {z : M.V} {f : St M} (hb : Blk f) : ∀ (n : Nat) (s t : State M) (x : Option M.V) (w : M.W),
    SR (.ret (some (.const z))) s t → iter (step (push (.ret (some (.const z))) f)) n t = some (.done x w) →
    ∃ m v, iter (step f) m s = some (.done v w)
  | 0, s, t, x, w, hst, h => by
    cases h
    cases hst
    exact ⟨0, _, rfl⟩
  | n + 1, s, t, x, w, hst, h => by
    simp only [iter, Option.bind_eq_some_iff] at h
    obtain ⟨t1, ht1, h⟩ := h
    by_cases he : ∃ ρ w, s = .run .skip .stop ρ w
    · obtain ⟨ρ, w0, rfl⟩ := he
      cases hst with
      | mid hk => cases hk
      | tail _ =>
        cases ht1
        cases n with
        | zero => cases h
        | succ n =>
          simp only [iter, Option.bind_eq_some_iff] at h
          obtain ⟨t2, ht2, h⟩ := h
          cases ht2
          cases iter_done (by rfl) n h
          exact ⟨1, none, rfl⟩
    · cases hs : step f s with
      | none => rw [step_push_none rfl hb hst hs] at ht1; cases ht1
      | some s1 =>
        obtain ⟨t1', ht1', hst1⟩ := step_push rfl hb hst hs (fun ρ w q => he ⟨ρ, w, q⟩)
        rw [ht1] at ht1'
        cases ht1'
        obtain ⟨m, v, hm⟩ := back_push hb n s1 t1 x w hst1 h
        exact ⟨m + 1, v, by simp only [iter, hs, Option.bind_some, hm]⟩

/-- C75: what the front end adds to `main` does not make it end where it did not. -/
theorem main_ends {z : M.V} {f : St M} (hb : Blk f) (n : Nat) (ρ : Env M) (w w' : M.W) (x : Option M.V)
    (h : iter (step (mainBody z f)) n (.run (mainBody z f) .stop ρ w) = some (.done x w')) :
    ∃ m v, iter (step f) m (.run f .stop ρ w) = some (.done v w') := by
  unfold mainBody at h
  cases hr : (reach false f).1
  · rw [hr] at h
    exact back_push hb n _ _ x w' (.tail hb) h
  · rw [hr] at h
    exact ⟨n, x, h⟩

/-- C75: what `main` returns.  Whenever the body ends, the body the front end makes of it ends in the same way, with the value of the
`return` that was executed or, if the end was reached, with 0.  Partial: as for `reach_sound_partial`. -/
theorem main_returns_partial {z : M.V} {f : St M} (hb : Blk f) (hval : Val f) (hv : Vis false f) (n : Nat) (ρ : Env M) (w w' : M.W) (v : Option M.V)
    (h : iter (step f) n (.run f .stop ρ w) = some (.done v w')) :
    ∃ m, iter (step (mainBody z f)) m (.run (mainBody z f) .stop ρ w) = some (.done (some (v.getD z)) w') := by
  unfold mainBody
  cases hr : (reach false f).1
  · exact run_push hb hval n _ _ v w' (.tail hb) ⟨hval, trivial⟩ h
  · have := run_val hval (fun n ρ w ρ' w' => reach_sound_partial hv hr n ρ ρ' w w') ρ w n 0 _ _ rfl ⟨hval, trivial⟩ h
    cases v with
    | none => exact absurd rfl this
    | some v => exact ⟨n, h⟩

/-! ## Examples

Blocks of `Verif.StmtGen.exM`; `blk` ends the list. -/

def blk : List (St exM) → St exM
  | [] => .skip
  | a :: as => .seq a (blk as)

/-- `while (1) { switch (x) { case 1: return 5; print(1); case 2: break; default: l: x++; print(x); } if (x == 0) return 1; else continue; }` -/
def exLoop : St exM := blk [
  .while (.const (1 : Int)) (blk [
    .switch (.var 0) (blk [
      .case 0 (some (1 : Int)) (.ret (some (.const (5 : Int)))),
      .expr (.un (1 : Nat) (.const (1 : Int))),
      .case 1 (some (2 : Int)) .break,
      .case 2 none (.label 0 (.expr (.inc true (0 : Nat) 0))),
      .expr (.un (1 : Nat) (.var 0))]),
    .itee (.rel ExR.eq (.var 0) (.const (0 : Int))) (.ret (some (.const (1 : Int)))) .continue])]

example : (reach false exLoop).1 = true := by decide
example : Vis false exLoop := by
  simp [exLoop, blk, Vis, isLabel, reach, yes, no, hasDefault, cases, St.labels]
example : Val exLoop ∧ Blk exLoop := by simp [exLoop, blk, Val, Blk]

/-- The result and what was printed, if the function ends within `n` steps. -/
def result (f : St exM) : Nat → State exM → Option (Option Int × List Int)
  | _, .done v w => some (v, w)
  | 0, _ => none
  | n + 1, s => (step f s).bind (result f n)

/-- With 0 in `x` it prints 1 and returns 5. -/
example : result exLoop 50 (.run exLoop .stop (fun _ => (0 : Int)) ([] : List Int)) = some (some 5, [1]) := by decide +kernel

/-- `if (x == 1) return 3; print(x);`: the end can be reached. -/
def exIf : St exM := blk [
  .ite (.rel ExR.eq (.var 0) (.const (1 : Int))) (.ret (some (.const (3 : Int)))),
  .expr (.un (1 : Nat) (.var 0))]

example : (reach false exIf).1 = false ∧ (mainBody (0 : Int) exIf matches .seq _ (.seq _ (.seq (.ret _) .skip))) = true := by decide

/-- Is the end reached within `n` steps? -/
def fell (f : St exM) (n : Nat) (x : Int) : Bool :=
  (List.range n).any fun i =>
    match iter (step f) i (.run f .stop (fun _ => x) ([] : List Int)) with
    | some (.run .skip .stop _ _) => true
    | _ => false

/-- `switch (x) { default: return 1; while (x) { case 1: print(x); break; } }` -/
def duff : St exM := blk [
  .switch (.var 0) (blk [
    .case 0 none (.ret (some (.const (1 : Int)))),
    .while (.var 0) (blk [.case 1 (some (1 : Int)) (.expr (.un (1 : Nat) (.var 0))), .break])])]

/-- fe_misc.c:1809-1812: a `case` inside a loop after a `return` is not seen: with 1 the body reaches its end, although the front end says it does
not; `main` then has no `return 0` and its result is not defined. -/
theorem duff_reaches_end : (reach false duff).1 = true ∧ fell duff 30 1 = true ∧ (mainBody (0 : Int) duff matches .seq _ .skip) = true := by
  decide +kernel

/-- `if (x) goto l; return 1; { l: print(x); }` -/
def jumpIn : St exM := blk [
  .ite (.var 0) (.goto 0), .ret (some (.const (1 : Int))), blk [.label 0 (.expr (.un (1 : Nat) (.var 0)))]]

/-- fe_misc.c:1809-1812: the same with a label in a block. -/
theorem goto_reaches_end : (reach false jumpIn).1 = true ∧ fell jumpIn 30 1 = true := by
  decide +kernel

end Verif.Reach

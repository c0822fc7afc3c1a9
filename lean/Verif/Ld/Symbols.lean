/-
C39: symbol resolution of the linker.

Model of `resolve_symbols_elfobj`, `resolve_symbols_archive`, `ld_resolve_symbols` and the test for
unresolved symbols in `do_link` (src/ld/ld.c:400-441, 473-496, 556-571, 1107-1120), `load_archive_content`
(src/util/archive.c:141-…) and of `ld_symbol_address` (ld.c:122-154).

Names are numbers (interned, see C14); the hash tables are finite maps (see C13), given as functions. The order in which
`table_iterate` visits the unresolved names is left open: `Run` allows every choice. Objects are
identified by numbers: every file loaded from the command line and every archive member is an
object of its own.
-/

namespace Verif.LdSym

/-- `st_shndx`: SHN_UNDEF, SHN_COMMON or a section with `st_value`. -/
inductive Place
  | undef
  | common (value : Nat)
  | section (shndx : Nat) (value : Nat)
deriving DecidableEq, Repr

/-- A symbol of the object's table of global and weak symbols (elfobj.c:54-64); symbols of type STT_SECTION
and with empty names, which ld.c:413 skips, are left out. -/
structure Sym where
  name : Nat
  weak : Bool
  place : Place
deriving DecidableEq, Repr

/-- Does it define the name? -/
def Sym.defines (s : Sym) : Bool := s.place != .undef

/-- ld.c:420, 425: `ELF64_ST_BIND(..) == STB_WEAK || st_shndx == SHN_COMMON`. -/
def Sym.soft (s : Sym) : Bool :=
  s.weak || match s.place with | .common _ => true | _ => false

/-- The objects. -/
abbrev Objs := Nat → List Sym

/-- `table_get(elfobj->symbol_table, name)`. -/
def symOf (objs : Objs) (o : Nat) (n : Nat) : Option Sym := (objs o).find? (fun s => s.name == n)

/-- State: `ld->symbol_table`, `unresolved`, the error count. -/
structure St where
  defined : Nat → Option Nat
  unres : Nat → Bool
  errors : Nat

/-- Update of a function. -/
def upd {α : Type} (f : Nat → α) (n : Nat) (v : α) : Nat → α := fun m => if m = n then v else f m

/-- ld.c:412-438: one symbol `s` of object `o`. `gen` is `generated_symbol_table`. -/
def stepSym (objs : Objs) (gen : Nat → Bool) (st : St) (e : Nat × Sym) : St :=
  let o := e.1
  let s := e.2
  if (st.defined s.name).isSome || gen s.name then
    if s.defines then
      match st.defined s.name with
      | some prev =>
        if s.soft then st
        else
          match symOf objs prev s.name with
          | some p => if p.soft then { st with defined := upd st.defined s.name (some o) }
            else { st with errors := st.errors + 1 }
          | none => { st with errors := st.errors + 1 }
      | none => { st with errors := st.errors + 1 }
    else st
  else if s.defines then
    { st with unres := upd st.unres s.name false, defined := upd st.defined s.name (some o) }
  else { st with unres := upd st.unres s.name true }

/-- ld.c:400-441 `resolve_symbols_elfobj`. -/
def resolveObj (objs : Objs) (gen : Nat → Bool) (st : St) (o : Nat) : St :=
  ((objs o).map (fun s => (o, s))).foldl (stepSym objs gen) st

/-- An input file: an object, or an archive with its symbol index. -/
inductive File
  | obj (o : Nat)
  | archive (index : Nat → Option Nat)

/-- ld.c:556-571 `ld_resolve_symbols` with ld.c:473-496 `resolve_symbols_archive`: from the files and the
state to the list of the objects processed and the final state. -/
inductive Run (objs : Objs) (gen : Nat → Bool) : List File → St → List Nat → St → Prop
  | nil {st : St} : Run objs gen [] st [] st
  | obj {o : Nat} {fs : List File} {st st' : St} {l : List Nat} :
    Run objs gen fs (resolveObj objs gen st o) l st' → Run objs gen (.obj o :: fs) st (o :: l) st'
  | pull {index : Nat → Option Nat} {fs : List File} {st st' : St} {l : List Nat} {n o : Nat} :
    st.unres n = true → index n = some o →
    Run objs gen (.archive index :: fs) (resolveObj objs gen st o) l st' →
    Run objs gen (.archive index :: fs) st (o :: l) st'
  | next {index : Nat → Option Nat} {fs : List File} {st st' : St} {l : List Nat} :
    (∀ n, st.unres n = true → index n = none) →
    Run objs gen fs st l st' → Run objs gen (.archive index :: fs) st l st'

/-- do_link: ld.c:1107-1110, only the entry symbol is unresolved at first. -/
def initSt (entry : Nat) : St := ⟨fun _ => none, fun n => n == entry, 0⟩

/-- do_link: ld.c:1115-1125, the link goes on. -/
def Success (st : St) : Prop := st.errors = 0 ∧ ∀ n, st.unres n = false

/-- ld.c:122-154 `ld_symbol_address`: `secAddr o i` is the address of section `i` of object `o`, `bss o` its
NOBITS section (`nobit_shndx`), `genAddr` the generated symbols. `none`: -1, or an assertion fails. -/
def symbolAddress (objs : Objs) (genAddr : Nat → Option Nat) (secAddr : Nat → Nat → Nat) (bss : Nat → Option Nat)
    (st : St) (n : Nat) : Option Nat :=
  match st.defined n with
  | some o =>
    match symOf objs o n with
    | some ⟨_, _, .section i v⟩ => some (secAddr o i + v)
    | some ⟨_, _, .common v⟩ => (bss o).map (fun i => secAddr o i + v)
    | _ => none
  | none => genAddr n

/-! ### Specification -/

/-- Object `o` defines `n`; defines it strongly (not weak, not common); refers to it. -/
def Defines (objs : Objs) (o n : Nat) : Prop := ∃ s ∈ objs o, s.name = n ∧ s.defines = true
def Strong (objs : Objs) (o n : Nat) : Prop := ∃ s ∈ objs o, s.name = n ∧ s.defines = true ∧ s.soft = false
def Mentions (objs : Objs) (o n : Nat) : Prop := ∃ s ∈ objs o, s.name = n

/-- What the linker must choose for `n` among the objects in `l`: the one strong definition, or else the
first definition. -/
def Chosen (objs : Objs) (l : List Nat) (n o : Nat) : Prop :=
  (o ∈ l ∧ Strong objs o n) ∨
  ((∀ x ∈ l, ¬ Strong objs x n) ∧ ∃ l1 l2, l = l1 ++ o :: l2 ∧ Defines objs o n ∧ ∀ x ∈ l1, ¬ Defines objs x n)

/-- An object mentions a name once. -/
def NamesUnique (objs : Objs) : Prop := ∀ o, ((objs o).map Sym.name).Nodup

/-- The index of an archive is right. -/
def Truthful (objs : Objs) (index : Nat → Option Nat) : Prop := ∀ n o, index n = some o → Defines objs o n

/-! ### Proofs -/

/-- The symbols met, in order. -/
def events (objs : Objs) (l : List Nat) : List (Nat × Sym) := l.flatMap (fun o => (objs o).map (fun s => (o, s)))

theorem run_events {objs : Objs} {gen : Nat → Bool} {fs : List File} {st st' : St} {l : List Nat}
    (h : Run objs gen fs st l st') : st' = (events objs l).foldl (stepSym objs gen) st := by
  induction h with
  | nil => rfl
  | obj _ ih => rw [ih]; simp only [events, List.flatMap_cons, List.foldl_append]; rfl
  | pull _ _ _ ih => rw [ih]; simp only [events, List.flatMap_cons, List.foldl_append]; rfl
  | next _ _ ih => exact ih

theorem stepSym_errors (objs : Objs) (gen : Nat → Bool) (st : St) (e : Nat × Sym) :
    st.errors ≤ (stepSym objs gen st e).errors := by
  unfold stepSym
  simp only
  repeat' split
  all_goals simp

theorem foldl_errors (objs : Objs) (gen : Nat → Bool) (es : List (Nat × Sym)) (st : St) :
    st.errors ≤ (es.foldl (stepSym objs gen) st).errors := by
  induction es generalizing st with
  | nil => exact Nat.le_refl _
  | cons e es ih => exact Nat.le_trans (stepSym_errors objs gen st e) (ih _)

/-- Number of strong definitions of `n` among the events. -/
def strongs (es : List (Nat × Sym)) (n : Nat) : Nat :=
  es.countP (fun e => e.2.name == n && e.2.defines && !e.2.soft)

/-- First definition of `n` among the events. -/
def firstDef (es : List (Nat × Sym)) (n : Nat) : Option (Nat × Sym) :=
  es.find? (fun e => e.2.name == n && e.2.defines)

/-- State after the events `es`, while there has been no error. -/
structure Inv (objs : Objs) (gen : Nat → Bool) (entry : Nat) (es : List (Nat × Sym)) (st : St) : Prop where
  genNone : ∀ n, gen n = true → st.defined n = none ∧ firstDef es n = none
  undef : ∀ n, gen n = false → (st.defined n = none ↔ firstDef es n = none)
  one : ∀ n, strongs es n ≤ 1
  strong : ∀ n o, st.defined n = some o → strongs es n = 1 →
    ∃ s, (o, s) ∈ es ∧ s.name = n ∧ s.defines = true ∧ s.soft = false
  soft : ∀ n o, st.defined n = some o → strongs es n = 0 → ∃ s, firstDef es n = some (o, s)
  unres : ∀ n, st.unres n = true ↔
    ((n = entry ∨ ∃ e ∈ es, e.2.name = n) ∧ st.defined n = none ∧ gen n = false)

theorem strongs_append (es : List (Nat × Sym)) (e : Nat × Sym) (n : Nat) :
    strongs (es ++ [e]) n = strongs es n +
      if (e.2.name == n && e.2.defines && !e.2.soft) = true then 1 else 0 := by
  unfold strongs
  rw [List.countP_append, List.countP_singleton]

theorem firstDef_append (es : List (Nat × Sym)) (e : Nat × Sym) (n : Nat) :
    firstDef (es ++ [e]) n = (firstDef es n).or
      (if (e.2.name == n && e.2.defines) = true then some e else none) := by
  unfold firstDef
  rw [List.find?_append]
  congr 1
  simp only [List.find?_cons, List.find?_nil]
  split <;> simp_all

theorem firstDef_mem {es : List (Nat × Sym)} {n : Nat} {e : Nat × Sym} (h : firstDef es n = some e) :
    e ∈ es ∧ e.2.name = n ∧ e.2.defines = true := by
  have h1 := List.mem_of_find?_eq_some h
  have h2 := List.find?_some h
  simp only [Bool.and_eq_true, beq_iff_eq] at h2
  exact ⟨h1, h2.1, h2.2⟩

theorem symOf_event {objs : Objs} (hu : NamesUnique objs) {o : Nat} {s : Sym} (hs : s ∈ objs o) :
    symOf objs o s.name = some s := by
  have hnd := hu o
  unfold symOf
  generalize objs o = xs at *
  induction xs with
  | nil => cases hs
  | cons x xs ih =>
    rw [List.map_cons, List.nodup_cons] at hnd
    rw [List.find?_cons]
    rcases List.mem_cons.1 hs with rfl | hs
    · simp
    · have hne : x.name ≠ s.name := by
        intro he
        apply hnd.1
        rw [he]
        exact List.mem_map_of_mem hs
      have : (x.name == s.name) = false := by simpa using hne
      rw [this]
      exact ih hs hnd.2

theorem inv_step {objs : Objs} {gen : Nat → Bool} {entry : Nat} (hu : NamesUnique objs)
    {es : List (Nat × Sym)} {st : St} (hes : ∀ e ∈ es, e.2 ∈ objs e.1) (h : Inv objs gen entry es st)
    (e : Nat × Sym) (herr : (stepSym objs gen st e).errors = st.errors) :
    Inv objs gen entry (es ++ [e]) (stepSym objs gen st e) := by
  obtain ⟨o, s⟩ := e
  -- other names are not affected
  have key : ∀ (st' : St), stepSym objs gen st (o, s) = st' →
      (∀ m, m ≠ s.name → st'.defined m = st.defined m ∧ st'.unres m = st.unres m) →
      ((gen s.name = true → st'.defined s.name = none ∧ s.defines = false) ∧
       (gen s.name = false → (st'.defined s.name = none ↔ firstDef es s.name = none ∧ s.defines = false)) ∧
       (strongs (es ++ [(o, s)]) s.name ≤ 1) ∧
       (∀ q, st'.defined s.name = some q → strongs (es ++ [(o, s)]) s.name = 1 →
         ∃ t, (t = s ∧ q = o ∨ (q, t) ∈ es) ∧ t.name = s.name ∧ t.defines = true ∧ t.soft = false) ∧
       (∀ q, st'.defined s.name = some q → strongs (es ++ [(o, s)]) s.name = 0 →
         ∃ t, firstDef (es ++ [(o, s)]) s.name = some (q, t)) ∧
       (st'.unres s.name = true ↔ st'.defined s.name = none ∧ gen s.name = false)) →
      Inv objs gen entry (es ++ [(o, s)]) st' := by
    intro st' _ hoth ⟨k1, k2, k3, k4, k5, k6⟩
    have hsame : ∀ m, m ≠ s.name → strongs (es ++ [(o, s)]) m = strongs es m ∧
        firstDef (es ++ [(o, s)]) m = firstDef es m := by
      intro m hm
      have hb : (s.name == m) = false := by simpa using fun h => hm h.symm
      refine ⟨?_, ?_⟩
      · rw [strongs_append]; simp [hb]
      · rw [firstDef_append]; simp [hb]
    refine ⟨?_, ?_, ?_, ?_, ?_, ?_⟩
    · intro m hg
      by_cases hm : m = s.name
      · subst hm
        obtain ⟨a1, a2⟩ := k1 hg
        refine ⟨a1, ?_⟩
        rw [firstDef_append, (h.genNone _ hg).2]
        simp [a2]
      · rw [(hoth m hm).1, (hsame m hm).2]; exact h.genNone m hg
    · intro m hg
      by_cases hm : m = s.name
      · subst hm
        rw [k2 hg, firstDef_append]
        simp
      · rw [(hoth m hm).1, (hsame m hm).2]; exact h.undef m hg
    · intro m
      by_cases hm : m = s.name
      · subst hm; exact k3
      · rw [(hsame m hm).1]; exact h.one m
    · intro m q hq hst
      by_cases hm : m = s.name
      · subst hm
        obtain ⟨t, ht, h1, h2, h3⟩ := k4 q hq hst
        refine ⟨t, ?_, h1, h2, h3⟩
        rcases ht with ⟨rfl, rfl⟩ | ht
        · simp
        · exact List.mem_append_left _ ht
      · rw [(hoth m hm).1] at hq
        rw [(hsame m hm).1] at hst
        obtain ⟨t, ht, h1⟩ := h.strong m q hq hst
        exact ⟨t, List.mem_append_left _ ht, h1⟩
    · intro m q hq hst
      by_cases hm : m = s.name
      · subst hm; exact k5 q hq hst
      · rw [(hoth m hm).1] at hq
        rw [(hsame m hm).1] at hst
        rw [(hsame m hm).2]
        exact h.soft m q hq hst
    · intro m
      by_cases hm : m = s.name
      · subst hm
        rw [k6]
        constructor
        · rintro ⟨a, b⟩; exact ⟨.inr ⟨(o, s), by simp, rfl⟩, a, b⟩
        · rintro ⟨_, a, b⟩; exact ⟨a, b⟩
      · rw [(hoth m hm).1, (hoth m hm).2, h.unres m]
        constructor
        · rintro ⟨a, b⟩
          refine ⟨?_, b⟩
          rcases a with a | ⟨e, he, a⟩
          · exact .inl a
          · exact .inr ⟨e, List.mem_append_left _ he, a⟩
        · rintro ⟨a, b⟩
          refine ⟨?_, b⟩
          rcases a with a | ⟨e, he, a⟩
          · exact .inl a
          · rcases List.mem_append.1 he with he | he
            · exact .inr ⟨e, he, a⟩
            · rw [List.mem_singleton] at he
              subst he
              exact absurd a.symm hm
  have hfd : ∀ q, st.defined s.name = some q → ∃ e, firstDef es s.name = some e := by
    intro q hq
    cases hg : gen s.name with
    | true => rw [(h.genNone _ hg).1] at hq; cases hq
    | false =>
      cases hf : firstDef es s.name with
      | none => rw [(h.undef _ hg).2 hf] at hq; cases hq
      | some e => exact ⟨e, rfl⟩
  have hone := h.one s.name
  unfold stepSym at herr ⊢
  simp only at herr ⊢
  by_cases hdg : ((st.defined s.name).isSome || gen s.name) = true
  · rw [if_pos hdg] at herr ⊢
    by_cases hd : s.defines = true
    · rw [if_pos hd] at herr ⊢
      cases hdef : st.defined s.name with
      | none => rw [hdef] at herr; simp at herr
      | some prev =>
        rw [hdef] at herr
        have hg : gen s.name = false := by
          cases hg : gen s.name with
          | false => rfl
          | true => rw [(h.genNone _ hg).1] at hdef; cases hdef
        obtain ⟨e0, he0⟩ := hfd prev hdef
        simp only at herr ⊢
        by_cases hso : s.soft = true
        · rw [if_pos hso]
          apply key st (by unfold stepSym; simp only; rw [if_pos hdg, if_pos hd, hdef]; simp only; rw [if_pos hso])
          · intro m _; exact ⟨rfl, rfl⟩
          have hsame : strongs (es ++ [(o, s)]) s.name = strongs es s.name := by
            rw [strongs_append]; simp [hso]
          refine ⟨(fun h' => by rw [hg] at h'; cases h'), fun _ => ?_, by rw [hsame]; exact hone, ?_, ?_, ?_⟩
          · rw [hdef, he0]; simp
          · intro q hq hst
            rw [hsame] at hst
            obtain ⟨t, ht, h1⟩ := h.strong _ q hq hst
            exact ⟨t, .inr ht, h1⟩
          · intro q hq hst
            rw [hsame] at hst
            obtain ⟨t, ht⟩ := h.soft _ q hq hst
            exact ⟨t, by rw [firstDef_append, ht]; rfl⟩
          · rw [h.unres]
            constructor
            · rintro ⟨_, a⟩; exact a
            · rintro ⟨a, _⟩; rw [hdef] at a; cases a
        · rw [if_neg hso] at herr ⊢
          cases hsym : symOf objs prev s.name with
          | none => rw [hsym] at herr; simp at herr
          | some p =>
            rw [hsym] at herr
            simp only at herr ⊢
            by_cases hp : p.soft = true
            · rw [if_pos hp]
              -- no strong definition so far
              have hz : strongs es s.name = 0 := by
                rcases Nat.eq_zero_or_pos (strongs es s.name) with hz | hz
                · exact hz
                · have h1 : strongs es s.name = 1 := by omega
                  obtain ⟨t, ht, h2, _, h4⟩ := h.strong _ prev hdef h1
                  have := symOf_event hu (hes _ ht)
                  simp only at this
                  rw [h2, hsym] at this
                  cases this
                  rw [hp] at h4; cases h4
              have hs1 : strongs (es ++ [(o, s)]) s.name = 1 := by
                rw [strongs_append, hz]; simp [hd, hso]
              refine key _ (by
                unfold stepSym; simp only; rw [if_pos hdg, if_pos hd, hdef]; simp only
                rw [if_neg hso, hsym]; simp only; rw [if_pos hp]) ?_ ⟨?_, ?_, ?_, ?_, ?_, ?_⟩
              · intro m hm; simp [upd, hm]
              · intro h'; rw [hg] at h'; cases h'
              · intro _; simp [upd, hd]
              · omega
              · intro q hq _
                simp only [upd, if_true, Option.some.injEq] at hq
                exact ⟨s, .inl ⟨rfl, hq.symm⟩, rfl, hd, by simpa using hso⟩
              · intro q _ hst; rw [hs1] at hst; cases hst
              · simp only [upd, if_true]
                rw [h.unres]
                constructor
                · rintro ⟨_, a, _⟩; rw [hdef] at a; cases a
                · rintro ⟨a, _⟩; cases a
            · rw [if_neg hp] at herr; simp at herr
    · rw [if_neg hd] at herr ⊢
      have hd' : s.defines = false := by simpa using hd
      apply key st (by unfold stepSym; simp only; rw [if_pos hdg, if_neg hd])
      · intro m _; exact ⟨rfl, rfl⟩
      have hsame : strongs (es ++ [(o, s)]) s.name = strongs es s.name := by
        rw [strongs_append]; simp [hd']
      have hfsame : firstDef (es ++ [(o, s)]) s.name = firstDef es s.name := by
        rw [firstDef_append]; simp [hd']
      refine ⟨fun hg => ⟨(h.genNone _ hg).1, hd'⟩, fun hg => ?_, by rw [hsame]; exact hone, ?_, ?_, ?_⟩
      · rw [h.undef _ hg]; simp [hd']
      · intro q hq hst
        rw [hsame] at hst
        obtain ⟨t, ht, h1⟩ := h.strong _ q hq hst
        exact ⟨t, .inr ht, h1⟩
      · intro q hq hst
        rw [hsame] at hst
        rw [hfsame]; exact h.soft _ q hq hst
      · rw [h.unres]
        constructor
        · rintro ⟨_, a⟩; exact a
        · rintro ⟨a, b⟩
          rw [a, b] at hdg; simp at hdg
  · rw [if_neg hdg] at herr ⊢
    simp only [Bool.or_eq_true, not_or, Bool.not_eq_true, Option.isSome_eq_false_iff, Option.isNone_iff_eq_none] at hdg
    obtain ⟨hnone, hg⟩ := hdg
    have hfn := (h.undef _ hg).1 hnone
    have hz : strongs es s.name = 0 := by
      unfold strongs
      rw [List.countP_eq_zero]
      intro e he hc
      have := List.find?_eq_none.1 hfn e he
      simp only [Bool.and_eq_true] at hc this
      exact this hc.1
    by_cases hd : s.defines = true
    · rw [if_pos hd]
      refine key _ (by unfold stepSym; simp only; rw [if_neg (by simp [hnone, hg]), if_pos hd]) ?_
        ⟨?_, ?_, ?_, ?_, ?_, ?_⟩
      · intro m hm; simp [upd, hm]
      · intro h'; rw [hg] at h'; cases h'
      · intro _; simp [upd, hd]
      · rw [strongs_append, hz]; split <;> omega
      · intro q hq hst
        simp only [upd, if_true, Option.some.injEq] at hq
        rw [strongs_append, hz] at hst
        split at hst
        · rename_i hc
          simp only [Bool.and_eq_true, Bool.not_eq_true'] at hc
          exact ⟨s, .inl ⟨rfl, hq.symm⟩, rfl, hd, hc.2⟩
        · omega
      · intro q hq _
        simp only [upd, if_true, Option.some.injEq] at hq
        refine ⟨s, ?_⟩
        rw [firstDef_append, hfn]
        simp [hd, hq]
      · simp [upd]
    · rw [if_neg hd]
      have hd' : s.defines = false := by simpa using hd
      refine key _ (by unfold stepSym; simp only; rw [if_neg (by simp [hnone, hg]), if_neg hd]) ?_
        ⟨?_, ?_, ?_, ?_, ?_, ?_⟩
      · intro m hm; simp [upd, hm]
      · intro h'; rw [hg] at h'; cases h'
      · intro _; simp [hnone, hfn, hd']
      · rw [strongs_append, hz]; simp [hd']
      · intro q hq; simp only at hq; rw [hnone] at hq; cases hq
      · intro q hq; simp only at hq; rw [hnone] at hq; cases hq
      · simp [upd, hnone, hg]

theorem inv_foldl {objs : Objs} {gen : Nat → Bool} {entry : Nat} (hu : NamesUnique objs)
    (es : List (Nat × Sym)) : ∀ (pre : List (Nat × Sym)) (st : St), (∀ e ∈ pre ++ es, e.2 ∈ objs e.1) →
      Inv objs gen entry pre st → (es.foldl (stepSym objs gen) st).errors = st.errors →
      Inv objs gen entry (pre ++ es) (es.foldl (stepSym objs gen) st) := by
  induction es with
  | nil => intro pre st _ h _; simpa using h
  | cons e es ih =>
    intro pre st hm h herr
    have h1 := stepSym_errors objs gen st e
    have h2 := foldl_errors objs gen es (stepSym objs gen st e)
    simp only [List.foldl_cons] at herr ⊢
    have h3 := inv_step hu (fun x hx => hm x (List.mem_append_left _ hx)) h e (by omega)
    have := ih (pre ++ [e]) _ (by simpa using hm) h3 (by omega)
    simpa using this

theorem inv_init {objs : Objs} {gen : Nat → Bool} {entry : Nat} (hg : gen entry = false) :
    Inv objs gen entry [] (initSt entry) := by
  refine ⟨fun n _ => ⟨rfl, rfl⟩, fun n _ => ⟨fun _ => rfl, fun _ => rfl⟩, fun n => Nat.zero_le _, ?_, ?_, ?_⟩
  · intro n o h; cases h
  · intro n o h; cases h
  · intro n
    simp only [initSt, beq_iff_eq, List.not_mem_nil, false_and, exists_false, or_false, true_and]
    constructor
    · rintro rfl; exact ⟨rfl, hg⟩
    · intro h; exact h.1

theorem mem_events {objs : Objs} {l : List Nat} {e : Nat × Sym} :
    e ∈ events objs l ↔ e.1 ∈ l ∧ e.2 ∈ objs e.1 := by
  unfold events
  rw [List.mem_flatMap]
  constructor
  · rintro ⟨o, ho, he⟩
    obtain ⟨s, hs, rfl⟩ := List.mem_map.1 he
    exact ⟨ho, hs⟩
  · rintro ⟨h1, h2⟩
    exact ⟨e.1, h1, List.mem_map.2 ⟨e.2, h2, rfl⟩⟩

/-- The first definition among the events is in the first object that defines the name. -/
theorem firstDef_events {objs : Objs} {n o : Nat} {s : Sym} : ∀ {l : List Nat}, firstDef (events objs l) n = some (o, s) →
    ∃ l1 l2, l = l1 ++ o :: l2 ∧ Defines objs o n ∧ ∀ x ∈ l1, ¬ Defines objs x n := by
  intro l
  induction l with
  | nil => intro h; cases h
  | cons x l ih =>
    intro h
    unfold firstDef events at h
    rw [List.flatMap_cons, List.find?_append] at h
    cases hx : ((objs x).map (fun s => (x, s))).find? (fun e => e.2.name == n && e.2.defines) with
    | some e =>
      rw [hx] at h
      simp only [Option.some_or, Option.some.injEq] at h
      subst h
      have h1 := List.mem_of_find?_eq_some hx
      have h2 := List.find?_some hx
      obtain ⟨t, ht, he⟩ := List.mem_map.1 h1
      simp only [Prod.mk.injEq] at he
      obtain ⟨rfl, rfl⟩ := he
      simp only [Bool.and_eq_true, beq_iff_eq] at h2
      exact ⟨[], l, rfl, ⟨t, ht, h2⟩, fun y hy => (by cases hy)⟩
    | none =>
      rw [hx] at h
      simp only [Option.none_or] at h
      obtain ⟨l1, l2, h1, h2, h3⟩ := ih h
      refine ⟨x :: l1, l2, by rw [h1]; rfl, h2, ?_⟩
      intro y hy
      rcases List.mem_cons.1 hy with rfl | hy
      · rintro ⟨t, ht, h4, h5⟩
        have := List.find?_eq_none.1 hx (y, t) (List.mem_map.2 ⟨t, ht, rfl⟩)
        simp [h4, h5] at this
      · exact h3 y hy

/-- **C39**: if the resolution succeeds then every name mentioned by an object in the link, and the entry
symbol, is defined in the link or generated by the linker; the definition chosen for a name is the
only strong one, or the first one if there is no strong one; there are never two strong ones; generated
names are not defined by objects. -/
theorem resolve_correct {objs : Objs} {gen : Nat → Bool} {entry : Nat} (hu : NamesUnique objs)
    (hg : gen entry = false) {fs : List File} {l : List Nat} {st : St}
    (hrun : Run objs gen fs (initSt entry) l st) (hok : Success st) :
    (∀ n, n = entry ∨ (∃ o ∈ l, Mentions objs o n) → gen n = true ∨ ∃ o, st.defined n = some o) ∧
    (∀ n o, st.defined n = some o → Chosen objs l n o) ∧
    (∀ n l1 a l2 b l3, l = l1 ++ a :: l2 ++ b :: l3 → Strong objs a n → ¬ Strong objs b n) ∧
    (∀ n, gen n = true → st.defined n = none ∧ ∀ o ∈ l, ¬ Defines objs o n) := by
  have hev := run_events hrun
  have herr : (List.foldl (stepSym objs gen) (initSt entry) (events objs l)).errors = (initSt entry).errors := by
    rw [← hev, hok.1]; rfl
  have hinv := inv_foldl hu (events objs l) [] (initSt entry)
    (fun e he => (mem_events.1 (by simpa using he)).2) (inv_init hg) herr
  rw [List.nil_append, ← hev] at hinv
  have hstrong : ∀ x n, Strong objs x n → ∃ s, s ∈ objs x ∧
      ((x, s).2.name == n && (x, s).2.defines && !(x, s).2.soft) = true := by
    rintro x n ⟨s, hs, h1, h2, h3⟩
    exact ⟨s, hs, by simp [h1, h2, h3]⟩
  refine ⟨?_, ?_, ?_, ?_⟩
  · intro n hn
    have hur := hok.2 n
    cases hgn : gen n with
    | true => exact .inl rfl
    | false =>
      right
      cases hd : st.defined n with
      | some o => exact ⟨o, rfl⟩
      | none =>
        have : st.unres n = true := by
          rw [hinv.unres]
          refine ⟨?_, hd, hgn⟩
          rcases hn with hn | ⟨o, ho, s, hs, hsn⟩
          · exact .inl hn
          · exact .inr ⟨(o, s), mem_events.2 ⟨ho, hs⟩, hsn⟩
        rw [hur] at this; cases this
  · intro n o hd
    have h1 := hinv.one n
    by_cases hz : strongs (events objs l) n = 0
    · right
      obtain ⟨s, hs⟩ := hinv.soft n o hd hz
      refine ⟨?_, firstDef_events hs⟩
      intro x hx hst
      obtain ⟨t, ht, hc⟩ := hstrong x n hst
      have := List.countP_eq_zero.1 hz (x, t) (mem_events.2 ⟨hx, ht⟩)
      exact this hc
    · left
      obtain ⟨s, hs, h2, h3, h4⟩ := hinv.strong n o hd (by omega)
      have := mem_events.1 hs
      exact ⟨this.1, s, this.2, h2, h3, h4⟩
  · intro n l1 a l2 b l3 hl ha hb
    obtain ⟨s, hs, hs2⟩ := hstrong a n ha
    obtain ⟨t, ht, ht2⟩ := hstrong b n hb
    have h1 := hinv.one n
    rw [hl] at h1
    unfold strongs events at h1
    simp only [List.flatMap_append, List.flatMap_cons, List.countP_append] at h1
    have p1 : 0 < ((objs a).map (fun s => (a, s))).countP
        (fun e => e.2.name == n && e.2.defines && !e.2.soft) :=
      List.countP_pos_iff.2 ⟨(a, s), List.mem_map.2 ⟨s, hs, rfl⟩, hs2⟩
    have p2 : 0 < ((objs b).map (fun s => (b, s))).countP
        (fun e => e.2.name == n && e.2.defines && !e.2.soft) :=
      List.countP_pos_iff.2 ⟨(b, t), List.mem_map.2 ⟨t, ht, rfl⟩, ht2⟩
    omega
  · intro n hgn
    obtain ⟨h1, h2⟩ := hinv.genNone n hgn
    refine ⟨h1, ?_⟩
    rintro o ho ⟨s, hs, h3, h4⟩
    have := List.find?_eq_none.1 h2 (o, s) (mem_events.2 ⟨ho, hs⟩)
    simp [h3, h4] at this

/-- **C39 (addresses)**: after a successful resolution a reference to a defined name gets the address of the
symbol in the chosen object: its value plus the address of its section. -/
theorem symbolAddress_correct {objs : Objs} {gen : Nat → Bool} {entry : Nat} (hu : NamesUnique objs)
    (hg : gen entry = false) {fs : List File} {l : List Nat} {st : St}
    (hrun : Run objs gen fs (initSt entry) l st) (hok : Success st) (genAddr : Nat → Option Nat)
    (secAddr : Nat → Nat → Nat) (bss : Nat → Option Nat) {n o : Nat} (hd : st.defined n = some o) :
    ∃ s ∈ objs o, s.name = n ∧
      ((∃ i v, s.place = .section i v ∧ symbolAddress objs genAddr secAddr bss st n = some (secAddr o i + v)) ∨
       (∃ v, s.place = .common v ∧
          symbolAddress objs genAddr secAddr bss st n = (bss o).map (fun i => secAddr o i + v))) := by
  have hc := (resolve_correct hu hg hrun hok).2.1 n o hd
  have hdef : Defines objs o n := by
    rcases hc with ⟨_, s, h1, h2, h3, _⟩ | ⟨_, _, _, _, h, _⟩
    · exact ⟨s, h1, h2, h3⟩
    · exact h
  obtain ⟨s, h1, h2, h3⟩ := hdef
  refine ⟨s, h1, h2, ?_⟩
  have hs := symOf_event hu h1
  rw [h2] at hs
  unfold symbolAddress
  rw [hd]
  simp only
  rw [hs]
  obtain ⟨nm, wk, pl⟩ := s
  cases pl with
  | undef => simp [Sym.defines] at h3
  | common v => exact .inr ⟨v, rfl, rfl⟩
  | «section» i v => exact .inl ⟨i, v, rfl, rfl⟩

/-! #### No spurious errors -/

/-- **C39 (converse)**: if no name has two strong definitions in the link, and no object defines a generated name,
no error is counted. -/
theorem resolve_no_error {objs : Objs} {gen : Nat → Bool} {entry : Nat} (hu : NamesUnique objs)
    (hg : gen entry = false) {fs : List File} {l : List Nat} {st : St}
    (hrun : Run objs gen fs (initSt entry) l st)
    (hgen : ∀ n, gen n = true → ∀ o ∈ l, ¬ Defines objs o n)
    (hone : ∀ n l1 a l2 b l3, l = l1 ++ a :: l2 ++ b :: l3 → Strong objs a n → ¬ Strong objs b n) :
    st.errors = 0 := by
  have hev := run_events hrun
  -- at most one strong event
  have hcount : ∀ (l : List Nat), (∀ n l1 a l2 b l3, l = l1 ++ a :: l2 ++ b :: l3 → Strong objs a n → ¬ Strong objs b n) →
      ∀ n, strongs (events objs l) n ≤ 1 := by
    intro l
    induction l with
    | nil => intro _ n; exact Nat.zero_le _
    | cons x l ih =>
      intro h n
      have hrec := ih (fun n l1 a l2 b l3 he => h n (x :: l1) a l2 b l3 (by rw [he]; rfl)) n
      have hx : ((objs x).map (fun s => (x, s))).countP (fun e => e.2.name == n && e.2.defines && !e.2.soft) ≤ 1 := by
        rw [List.countP_map]
        have hnd := hu x
        generalize objs x = xs at hnd
        have hle : xs.countP ((fun e : Nat × Sym => e.2.name == n && e.2.defines && !e.2.soft) ∘ fun s => (x, s)) ≤
            (xs.map Sym.name).count n := by
          rw [List.count, List.countP_map]
          apply List.countP_mono_left
          intro s _ hs
          simp only [Function.comp, Bool.and_eq_true] at hs ⊢
          exact hs.1.1
        exact Nat.le_trans hle (List.nodup_iff_count.1 hnd n)
      have hsplit : strongs (events objs (x :: l)) n =
          ((objs x).map (fun s => (x, s))).countP (fun e => e.2.name == n && e.2.defines && !e.2.soft) +
          strongs (events objs l) n := by
        unfold strongs events; rw [List.flatMap_cons, List.countP_append]
      rw [hsplit]
      rcases Nat.eq_zero_or_pos (((objs x).map (fun s => (x, s))).countP
        (fun e => e.2.name == n && e.2.defines && !e.2.soft)) with hz | hp
      · omega
      · rcases Nat.eq_zero_or_pos (strongs (events objs l) n) with hz | hp2
        · omega
        · exfalso
          obtain ⟨e, he, hc⟩ := List.countP_pos_iff.1 hp
          obtain ⟨s, hs, rfl⟩ := List.mem_map.1 he
          obtain ⟨⟨b, t⟩, he2, hc2⟩ := List.countP_pos_iff.1 hp2
          obtain ⟨hb, ht⟩ := mem_events.1 he2
          obtain ⟨l2, l3, rfl⟩ := List.append_of_mem hb
          simp only [Bool.and_eq_true, beq_iff_eq, Bool.not_eq_true'] at hc hc2
          exact h n [] x l2 b l3 rfl ⟨s, hs, hc.1.1, hc.1.2, hc.2⟩ ⟨t, ht, hc2.1.1, hc2.1.2, hc2.2⟩
  have hc := hcount l hone
  have hgen' : ∀ e ∈ events objs l, gen e.2.name = true → e.2.defines = false := by
    intro e he hge
    obtain ⟨h1, h2⟩ := mem_events.1 he
    cases hd : e.2.defines with
    | false => rfl
    | true => exact absurd ⟨e.2, h2, rfl, hd⟩ (hgen _ hge e.1 h1)
  have hmem : ∀ e ∈ events objs l, e.2 ∈ objs e.1 := fun e he => (mem_events.1 he).2
  generalize events objs l = es at hev hc hgen' hmem
  -- no step is an error
  have main : ∀ (post pre : List (Nat × Sym)) (st : St), pre ++ post = es → Inv objs gen entry pre st →
      (post.foldl (stepSym objs gen) st).errors = st.errors := by
    intro post
    induction post with
    | nil => intro pre st _ _; rfl
    | cons e post ih =>
      intro pre st hes hinv
      have hpre : ∀ x ∈ pre, x.2 ∈ objs x.1 := fun x hx => hmem x (by rw [← hes]; exact List.mem_append_left _ hx)
      have hstep : (stepSym objs gen st e).errors = st.errors := by
        obtain ⟨o, s⟩ := e
        have hin : (o, s) ∈ es := by rw [← hes]; simp
        unfold stepSym
        simp only
        split
        · split
          · rename_i hdg hd
            have hgf : gen s.name = false := by
              cases hgn : gen s.name with
              | false => rfl
              | true => have := hgen' _ hin hgn; simp only at this; rw [hd] at this; cases this
            cases hdef : st.defined s.name with
            | none => rw [hdef, hgf] at hdg; simp at hdg
            | some prev =>
              simp only
              split
              · rfl
              · rename_i hso
                have hso' : s.soft = false := by simpa using hso
                -- the previous definition is soft
                have hz : strongs pre s.name = 0 := by
                  have := hc s.name
                  rw [← hes, show pre ++ (o, s) :: post = pre ++ [(o, s)] ++ post by simp] at this
                  unfold strongs at this ⊢
                  rw [List.countP_append, List.countP_append, List.countP_singleton] at this
                  simp only [beq_self_eq_true, hd, hso', Bool.and_self, Bool.not_false, if_true] at this
                  omega
                obtain ⟨t, ht⟩ := hinv.soft _ prev hdef hz
                obtain ⟨h1, h2, h3⟩ := firstDef_mem ht
                have hsym := symOf_event hu (hpre _ h1)
                simp only at hsym h2 h3
                rw [h2] at hsym
                rw [hsym]
                have hts : t.soft = true := by
                  cases hts : t.soft with
                  | true => rfl
                  | false =>
                    have := List.countP_eq_zero.1 hz (prev, t) h1
                    simp [h2, h3, hts] at this
                simp only [hts, if_true]
          · rfl
        · split <;> rfl
      rw [List.foldl_cons, ih (pre ++ [e]) _ (by rw [← hes]; simp) (inv_step hu hpre hinv e hstep), hstep]
  rw [hev, main es [] _ rfl (inv_init hg)]
  rfl

/-! #### Archives -/

/-- Unresolved names are neither defined nor generated, however many errors there are. -/
def Clean (gen : Nat → Bool) (st : St) : Prop := ∀ n, st.unres n = true → st.defined n = none ∧ gen n = false

theorem stepSym_clean {objs : Objs} {gen : Nat → Bool} {st : St} (h : Clean gen st) (e : Nat × Sym) :
    Clean gen (stepSym objs gen st e) ∧
    (∀ n, (st.defined n).isSome = true → ((stepSym objs gen st e).defined n).isSome = true) ∧
    (e.2.defines = true → ((stepSym objs gen st e).defined e.2.name).isSome = true ∨ gen e.2.name = true) := by
  obtain ⟨o, s⟩ := e
  unfold stepSym
  simp only
  by_cases hdg : ((st.defined s.name).isSome || gen s.name) = true
  · rw [if_pos hdg]
    have hdg' : (st.defined s.name).isSome = true ∨ gen s.name = true := by simpa using hdg
    split
    · split
      · split
        · exact ⟨h, fun _ h => h, fun _ => hdg'⟩
        · split
          · split
            · refine ⟨?_, ?_, fun _ => .inl (by simp [upd])⟩
              · intro n hn
                have := h n hn
                refine ⟨?_, this.2⟩
                by_cases hns : n = s.name
                · subst hns
                  rename_i hprev _ _ _ _ _
                  rw [this.1] at hprev; cases hprev
                · simp [upd, hns, this.1]
              · intro n hn
                by_cases hns : n = s.name
                · simp [upd, hns]
                · simpa [upd, hns] using hn
            · exact ⟨h, fun _ h => h, fun _ => hdg'⟩
          · exact ⟨h, fun _ h => h, fun _ => hdg'⟩
      · exact ⟨h, fun _ h => h, fun _ => hdg'⟩
    · exact ⟨h, fun _ h => h, fun _ => hdg'⟩
  · rw [if_neg hdg]
    simp only [Bool.or_eq_true, not_or, Bool.not_eq_true, Option.isSome_eq_false_iff, Option.isNone_iff_eq_none] at hdg
    split
    · refine ⟨?_, ?_, fun _ => .inl (by simp [upd])⟩
      · intro n hn
        by_cases hns : n = s.name
        · simp [upd, hns] at hn
        · simp only [upd, hns, if_false] at hn ⊢
          exact h n hn
      · intro n hn
        by_cases hns : n = s.name
        · simp [upd, hns]
        · simpa [upd, hns] using hn
    · rename_i hd
      refine ⟨?_, fun _ h => h, fun h => absurd h hd⟩
      intro n hn
      by_cases hns : n = s.name
      · subst hns; exact hdg
      · simp only [upd, hns, if_false] at hn
        exact h n hn

theorem foldl_clean {objs : Objs} {gen : Nat → Bool} (es : List (Nat × Sym)) : ∀ {st : St}, Clean gen st →
    Clean gen (es.foldl (stepSym objs gen) st) ∧
    (∀ n, (st.defined n).isSome = true → ((es.foldl (stepSym objs gen) st).defined n).isSome = true) ∧
    (∀ e ∈ es, e.2.defines = true →
      ((es.foldl (stepSym objs gen) st).defined e.2.name).isSome = true ∨ gen e.2.name = true) := by
  induction es with
  | nil => intro st h; exact ⟨h, fun _ h => h, fun e he => (by cases he)⟩
  | cons e es ih =>
    intro st h
    obtain ⟨h1, h2, h3⟩ := stepSym_clean (objs := objs) h e
    obtain ⟨i1, i2, i3⟩ := ih h1
    refine ⟨i1, fun n hn => i2 n (h2 n hn), ?_⟩
    intro x hx hd
    rcases List.mem_cons.1 hx with rfl | hx
    · rcases h3 hd with h | h
      · exact .inl (i2 _ h)
      · exact .inr h
    · exact i3 x hx hd

/-- All names defined by `o` are settled. -/
def Settled (objs : Objs) (gen : Nat → Bool) (st : St) (o : Nat) : Prop :=
  ∀ n, Defines objs o n → (st.defined n).isSome = true ∨ gen n = true

theorem settled_not_pulled {objs : Objs} {gen : Nat → Bool} {st : St} (hc : Clean gen st) {o n : Nat}
    (hs : Settled objs gen st o) (hd : Defines objs o n) : st.unres n = false := by
  cases hu : st.unres n with
  | false => rfl
  | true =>
    obtain ⟨h1, h2⟩ := hc n hu
    rcases hs n hd with h | h
    · rw [h1] at h; cases h
    · rw [h2] at h; cases h

/-- The pulls the archive loop makes from a state. -/
inductive Pulls (objs : Objs) (gen : Nat → Bool) (index : Nat → Option Nat) : St → List Nat → St → Prop
  | nil {st : St} : Pulls objs gen index st [] st
  | cons {st st' : St} {n o : Nat} {l : List Nat} : st.unres n = true → index n = some o →
    Pulls objs gen index (resolveObj objs gen st o) l st' → Pulls objs gen index st (o :: l) st'

/-- **C39 (archives)**: with a truthful index every iteration of the archive loop loads a member not
loaded before and defines a name that was unresolved; hence there are at most as many iterations as
members, whatever order the hash table is visited in. -/
theorem archive_terminates {objs : Objs} {gen : Nat → Bool} {index : Nat → Option Nat} (ht : Truthful objs index)
    {st st' : St} {l : List Nat} (hc : Clean gen st) (h : Pulls objs gen index st l st') :
    l.Nodup ∧ (∀ members : List Nat, (∀ n o, index n = some o → o ∈ members) → l.length ≤ members.length) := by
  have key : ∀ {st st' : St} {l : List Nat}, Pulls objs gen index st l st' → Clean gen st →
      l.Nodup ∧ (∀ o ∈ l, (∃ n, index n = some o) ∧ ¬ Settled objs gen st o) := by
    intro st st' l h
    induction h with
    | nil => intro _; exact ⟨List.nodup_nil, fun o h => (by cases h)⟩
    | cons hu hi _ ih =>
      rename_i st st' n o l hP
      intro hc
      obtain ⟨c1, c2, c3⟩ := foldl_clean (objs := objs) ((objs o).map (fun s => (o, s))) hc
      obtain ⟨i1, i2⟩ := ih c1
      have hset : Settled objs gen (resolveObj objs gen st o) o := by
        rintro m ⟨s, hs, rfl, hd⟩
        exact c3 (o, s) (List.mem_map.2 ⟨s, hs, rfl⟩) hd
      refine ⟨List.nodup_cons.2 ⟨fun hm => (i2 o hm).2 hset, i1⟩, ?_⟩
      intro x hx
      rcases List.mem_cons.1 hx with rfl | hx
      · refine ⟨⟨n, hi⟩, fun hs => ?_⟩
        rw [settled_not_pulled hc hs (ht n x hi)] at hu
        cases hu
      · refine ⟨(i2 x hx).1, fun hs => (i2 x hx).2 ?_⟩
        intro m hm
        rcases hs m hm with h | h
        · exact .inl (c2 m h)
        · exact .inr h
  obtain ⟨k1, k2⟩ := key h hc
  refine ⟨k1, fun members hm => ?_⟩
  have hsub : l ⊆ members := by
    intro o ho
    obtain ⟨⟨n, hn⟩, _⟩ := k2 o ho
    exact hm n o hn
  clear k2 h hm ht
  induction l generalizing members with
  | nil => exact Nat.zero_le _
  | cons x l ih =>
    have hx : x ∈ members := hsub (by simp)
    obtain ⟨m1, m2, rfl⟩ := List.append_of_mem hx
    rw [List.nodup_cons] at k1
    have := ih k1.2 (members := m1 ++ m2) (fun y hy => by
      have := hsub (List.mem_cons_of_mem x hy)
      simp only [List.mem_append, List.mem_cons] at this ⊢
      rcases this with h | rfl | h
      · exact .inl h
      · exact absurd hy k1.1
      · exact .inr h)
    simp at this ⊢
    omega

theorem clean_init {gen : Nat → Bool} {entry : Nat} (hg : gen entry = false) : Clean gen (initSt entry) := by
  intro n hn
  simp only [initSt, beq_iff_eq] at hn
  subst hn
  exact ⟨rfl, hg⟩

/-- After an archive nothing it offers is unresolved (this is the guard of `Run.next`); conversely a
member is loaded only for an unresolved name (guard of `Run.pull`): together with truthful indices, every
object taken from an archive defines a name that was unresolved before. -/
theorem pull_needed {objs : Objs} {gen : Nat → Bool} {index : Nat → Option Nat} (ht : Truthful objs index)
    {st st' : St} {o : Nat} {l : List Nat} (h : Pulls objs gen index st (o :: l) st') :
    ∃ n, st.unres n = true ∧ Defines objs o n := by
  cases h with
  | cons hu hi _ => exact ⟨_, hu, ht _ _ hi⟩

/-! #### Concrete cases and findings -/

/-- Object 0 is a program that calls 1; 1 is defined weakly in object 1 and strongly in object 2; name 0 is
the entry. -/
def exObjs : Objs
  | 0 => [⟨0, false, .section 1 0⟩, ⟨1, false, .undef⟩]
  | 1 => [⟨1, true, .section 1 8⟩]
  | 2 => [⟨1, false, .section 1 16⟩]
  | _ => []

example : NamesUnique exObjs := by
  intro o
  match o with
  | 0 => decide
  | 1 => decide
  | 2 => decide
  | _ + 3 => exact List.nodup_nil

example : ∃ st, Run exObjs (fun _ => false) [.obj 0, .archive (fun n => if n = 1 then some 1 else none), .obj 2]
    (initSt 0) [0, 1, 2] st ∧ st.errors = 0 ∧ st.defined 1 = some 2 ∧ st.defined 0 = some 0 ∧
    st.unres 1 = false ∧ st.unres 0 = false := by
  refine ⟨_, .obj (.pull (n := 1) (o := 1) (by decide) (by decide) (.next ?_ (.obj .nil))), ?_⟩
  · intro n hn
    by_cases h : n = 1
    · subst h; exact absurd hn (by decide)
    · simp [h]
  · decide

/-- **Finding**: if the index of an archive names a member that does not define the symbol, the loop does
not end. -/
theorem archive_loops (k : Nat) : ∃ st, Pulls (fun _ => []) (fun _ => false) (fun _ => some 0) (initSt 0)
    (List.replicate k 0) st := by
  suffices h : Pulls (fun _ => []) (fun _ => false) (fun _ => some 0) (initSt 0) (List.replicate k 0) (initSt 0) from ⟨_, h⟩
  induction k with
  | zero => exact .nil
  | succ k ih => exact .cons (n := 0) (by decide) rfl ih

end Verif.LdSym

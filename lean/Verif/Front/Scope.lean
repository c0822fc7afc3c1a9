/-
Declarations, scopes and name lookup (C30).

Models /repo/src/cc/frontend/var.c (scopes, variables, typedefs, tags), the declaration
side of /repo/src/cc/frontend/fe_misc.c (`find_var_from_scope`, `add_var_to_scope`,
`enter_scope`, `exit_scope`) and of parser.c / parser_type.c (`def_type`,
`parse_enum_members`, `parse_enum`, the struct/union case of `parse_raw_type`).

Names are natural numbers (interned names are compared by pointer, names are modelled in
`Verif.Names`).  A `Table` is an association list whose newest entry wins (its
implementation is modelled in `Verif.Table`).  An error reported through `parse_error`
makes the compilation fail, so every step returns `none` for it.
-/
import Mathlib.Tactic.Tauto

namespace Verif.Scope

/-! ### Model -/

/-- A type as far as scoping looks at it (type.h, `Type`): its identity, and whether it is a
`TY_STRUCT` with a known member list, parser.c:161.  Simplification: `same_type` is
equality of this record. -/
structure Ty where
  id : Nat
  complete : Bool
deriving DecidableEq, Repr

/-- `VarInfo`, var.h: identifier, type, whether `VS_EXTERN` is set and whether
`global.init` is set.  Simplification: other storage bits are dropped. -/
structure VarInfo where
  name : Nat
  ty : Ty
  ext : Bool
  init : Bool
deriving DecidableEq, Repr

/-- `Scope`, var.h: `sid` stands for its address; the three tables and the variable vector
(a NULL table or vector is an empty one). -/
structure Scope where
  sid : Nat
  vars : List VarInfo
  tds : List (Nat × Ty)
  structs : List (Nat × Nat)
  enums : List (Nat × Nat)
deriving DecidableEq, Repr

/-- The parser's state: the chain of block scopes from `curscope` outwards, the global
scope, `global_var_table` (var.c:37; it maps a name to the `VarInfo` at an index of the
global vector) and the number of scopes allocated so far. -/
structure St where
  locals : List Scope
  glob : Scope
  gtab : List (Nat × Nat)
  made : Nat
deriving DecidableEq, Repr

/-- `init_global`, var.c:39-43, and parser.c:1176. -/
def start : St := ⟨[], ⟨0, [], [], [], []⟩, [], 0⟩

/-- `var_find`, var.c:15-22: the first entry with this name. -/
def varFind : List VarInfo → Nat → Option Nat
  | [], _ => none
  | v :: vs, n => if v.name = n then some 0 else (varFind vs n).map (· + 1)

/-- `table_get` on a table of this file (see the head of the file). -/
def tget {α : Type} : List (Nat × α) → Nat → Option α
  | [], _ => none
  | (k, a) :: t, n => if k = n then some a else tget t n

/-- `scope_find`, var.c:81-100, over the chain of block scopes: the scope and variable. -/
def findLocal : List Scope → Nat → Option (Nat × VarInfo)
  | [], _ => none
  | s :: ss, n =>
    match varFind s.vars n with
    | some i => (s.vars[i]?).map (s.sid, ·)
    | none => findLocal ss n

/-- `scope_find`, var.c:81-100: block scopes first, then `global_var_table`. -/
def scopeFind (st : St) (n : Nat) : Option (Nat × VarInfo) :=
  match findLocal st.locals n with
  | some r => some r
  | none => (tget st.gtab n).bind fun i => (st.glob.vars[i]?).map (st.glob.sid, ·)

/-- `find_typedef`, var.c:139-153, over a chain that ends with the global scope: the typedef
table of a scope, then stop if a variable of that scope has the name. -/
def findTypedefIn : List Scope → Nat → Option (Nat × Ty)
  | [], _ => none
  | s :: ss, n =>
    match tget s.tds n with
    | some t => some (s.sid, t)
    | none => if (varFind s.vars n).isSome then none else findTypedefIn ss n

/-- `find_typedef(curscope, ...)`, var.c:139-153. -/
def findTypedef (st : St) (n : Nat) : Option (Nat × Ty) :=
  findTypedefIn (st.locals ++ [st.glob]) n

/-- `find_struct`, var.c:119-131, over a chain that ends with the global scope. -/
def findStructIn : List Scope → Nat → Option (Nat × Nat)
  | [], _ => none
  | s :: ss, n =>
    match tget s.structs n with
    | some i => some (s.sid, i)
    | none => findStructIn ss n

/-- `find_struct(curscope, ...)`, var.c:119-131. -/
def findStruct (st : St) (n : Nat) : Option (Nat × Nat) :=
  findStructIn (st.locals ++ [st.glob]) n

/-- `find_enum`, var.c:166-175, over a chain that ends with the global scope. -/
def findEnumIn : List Scope → Nat → Option Nat
  | [], _ => none
  | s :: ss, n =>
    match tget s.enums n with
    | some i => some i
    | none => findEnumIn ss n

/-- `find_enum(curscope, ...)`, var.c:166-175. -/
def findEnum (st : St) (n : Nat) : Option Nat :=
  findEnumIn (st.locals ++ [st.glob]) n

/-- `curscope`. -/
def cur (st : St) : Scope := st.locals.headD st.glob

/-- Change `curscope` in place. -/
def setCur (st : St) (f : Scope → Scope) : St :=
  match st.locals with
  | [] => { st with glob := f st.glob }
  | s :: ss => { st with locals := f s :: ss }

/-- `enter_scope`, fe_misc.c:228-233, with `new_scope`, var.c:70-75. -/
def enter (st : St) : St :=
  { st with locals := ⟨st.made + 1, [], [], [], []⟩ :: st.locals, made := st.made + 1 }

/-- `exit_scope`, fe_misc.c:235-238; leaving the global scope trips the assertion. -/
def exit_ (st : St) : Option St :=
  match st.locals with
  | [] => none
  | _ :: ss => some { st with locals := ss }

/-- `scope_add`, var.c:102-117, with `define_global`, var.c:45-66, and `var_add`,
var.c:24-32, for a name that `find_var_from_scope` has not found in `curscope`: the new
`VarInfo` goes to the end of the vector.  For the global scope the table is consulted first
(var.c:48) and, when it knows the name, the known entry is returned or overwritten. -/
def scopeAdd (st : St) (v : VarInfo) : Option St :=
  match st.locals with
  | [] =>
    match tget st.gtab v.name with
    | some i =>
      match st.glob.vars[i]? with
      | none => none
      | some old =>
        if old.ext then some { st with glob := { st.glob with vars := st.glob.vars.set i v } }
        else if v.ext then some st else none
    | none =>
      some { st with
        glob := { st.glob with vars := st.glob.vars ++ [v] },
        gtab := (v.name, st.glob.vars.length) :: st.gtab }
  | _ :: _ => some (setCur st fun s => { s with vars := s.vars ++ [v] })

/-- `add_var_to_scope(curscope, ...)`, fe_misc.c:162-172, with `find_var_from_scope`,
fe_misc.c:138-160: an existing entry must have the same type; a second definition is
accepted if the first was `extern`, or at file scope if the first has no initialiser.  The
initialiser of the declaration is recorded as well (parser.c:962-985). -/
def addVar (st : St) (v : VarInfo) : Option St :=
  match varFind (cur st).vars v.name with
  | some i =>
    match (cur st).vars[i]? with
    | none => none
    | some old =>
      if old.ty ≠ v.ty then none
      else if v.ext then some (setCur st fun s =>
        { s with vars := s.vars.set i { old with init := old.init || v.init } })
      else if old.ext then some (setCur st fun s =>
        { s with vars := s.vars.set i { old with ext := false, init := old.init || v.init } })
      else if st.locals.isEmpty && !old.init then some (setCur st fun s =>
        { s with vars := s.vars.set i { old with init := old.init || v.init } })
      else none
  | none =>
    if (tget (cur st).tds v.name).isSome then none
    else scopeAdd st v

/-- One enumerator, parser_type.c:31-35, with `define_enum_member`, fe_misc.c:187-190: a
global of the same name is an error whatever the current scope is. -/
def addEnumerator (st : St) (n : Nat) (ty : Ty) : Option St :=
  if (tget st.gtab n).isSome then none
  else addVar st ⟨n, ty, false, false⟩

/-- `def_type`, parser.c:148-168, with `add_typedef`, var.c:155-164.  Simplification: the
`ensure_struct` check on array types is left out. -/
def defType (st : St) (n : Nat) (ty : Ty) : Option St :=
  let defined := findTypedef st n
  match defined with
  | some (sid, t) =>
    if sid = (cur st).sid then (if t = ty then some st else none)
    else if (scopeFind st n).map (·.1) = some (cur st).sid then none
    else if ty.complete then some (setCur st fun s => { s with tds := (n, ty) :: s.tds })
    else some st
  | none =>
    if (scopeFind st n).map (·.1) = some (cur st).sid then none
    else some (setCur st fun s => { s with tds := (n, ty) :: s.tds })

/-- The end of a struct or union definition `struct n { ... }`, parser_type.c:286-294. -/
def defStruct (st : St) (n info : Nat) : Option St :=
  match findStruct st n with
  | some (sid, _) =>
    if sid = (cur st).sid then none
    else some (setCur st fun s => { s with structs := (n, info) :: s.structs })
  | none => some (setCur st fun s => { s with structs := (n, info) :: s.structs })

/-- The start of an enum definition `enum n {`, parser_type.c:47-53, with `define_enum`,
var.c:177-185. -/
def defEnum (st : St) (n ty : Nat) : Option St :=
  if (findEnum st n).isSome then none
  else some (setCur st fun s => { s with enums := (n, ty) :: s.enums })

/-- What the parser meets: block entry and exit, the declaration of a variable or function,
of an enumerator, of a typedef name, the definition of a struct or enum tag.  A declaration
`struct n;` makes no change (parser_type.c:296-302). -/
inductive Ev where
  | enter
  | exit
  | var (n : Nat) (ty : Ty) (ext init : Bool)
  | enumr (n : Nat) (ty : Ty)
  | typedef (n : Nat) (ty : Ty)
  | sdef (n info : Nat)
  | sdecl (n : Nat)
  | edef (n ty : Nat)
deriving DecidableEq, Repr

/-- One event. -/
def step (st : St) : Ev → Option St
  | .enter => some (enter st)
  | .exit => exit_ st
  | .var n ty ext init => addVar st ⟨n, ty, ext, init⟩
  | .enumr n ty => addEnumerator st n ty
  | .typedef n ty => defType st n ty
  | .sdef n i => defStruct st n i
  | .sdecl _ => some st
  | .edef n t => defEnum st n t

/-- A history of events, newest first; `none` if the compilation failed. -/
def run : List Ev → Option St
  | [] => some start
  | e :: t => (run t).bind fun st => step st e

/-! ### Specification: ISO 6.2.1

A history is read backwards.  `d` counts the blocks that were closed later on: a declaration
is in scope only if it was not made inside one of them.  The most recent such declaration of
the name is the one that is visible. -/

/-- The block that is being parsed at the end of a history: 0 is file scope, otherwise the
ordinal number of the block. -/
def block : List Ev → Nat → Nat
  | [], _ => 0
  | .exit :: t, d => block t (d + 1)
  | .enter :: t, 0 => t.count .enter + 1
  | .enter :: t, d + 1 => block t d
  | _ :: t, d => block t d

/-- The visible declaration: the newest one that `f` picks, outside closed blocks, with the
block it belongs to. -/
def visible {α : Type} (f : Ev → Option α) : List Ev → Nat → Option (Nat × α)
  | [], _ => none
  | .exit :: t, d => visible f t (d + 1)
  | .enter :: t, 0 => visible f t 0
  | .enter :: t, d + 1 => visible f t d
  | e :: t, 0 =>
    match f e with
    | some a => some (block t 0, a)
    | none => visible f t 0
  | _ :: t, d + 1 => visible f t (d + 1)

/-- What an ordinary identifier stands for, ISO 6.2.3: variables, functions, enumeration
constants and typedef names share one name space. -/
inductive Meaning where
  | object (ty : Ty)
  | type (ty : Ty)
deriving DecidableEq, Repr

/-- Declarations of the ordinary identifier `n`. -/
def ordinary (n : Nat) : Ev → Option Meaning
  | .var m ty _ _ => if m = n then some (.object ty) else none
  | .enumr m ty => if m = n then some (.object ty) else none
  | .typedef m ty => if m = n then some (.type ty) else none
  | _ => none

/-- Definitions of the struct or union tag `n`. -/
def structTag (n : Nat) : Ev → Option Nat
  | .sdef m i => if m = n then some i else none
  | _ => none

/-- Definitions of the enum tag `n`. -/
def enumTag (n : Nat) : Ev → Option Nat
  | .edef m i => if m = n then some i else none
  | _ => none

/-- No typedef of a type other than a complete structure is made, in an inner block, for a
name that denotes a type there already. -/
def NoRetypedef : List Ev → Prop
  | [] => True
  | e :: t => NoRetypedef t ∧ ∀ n ty, e = .typedef n ty → ty.complete = false →
      ∀ b u, visible (ordinary n) t 0 = some (b, .type u) → b = block t 0

/-! ### Lemmas -/

/-- The variable `varFind` finds. -/
def vget (vs : List VarInfo) (n : Nat) : Option VarInfo := (varFind vs n).bind (vs[·]?)

theorem vget_cons (v : VarInfo) (vs : List VarInfo) (n : Nat) :
    vget (v :: vs) n = if v.name = n then some v else vget vs n := by
  simp only [vget, varFind]
  split
  · simp
  · cases varFind vs n <;> simp

theorem varFind_get : ∀ {vs : List VarInfo} {n i : Nat}, varFind vs n = some i →
    ∃ v, vs[i]? = some v ∧ v.name = n
  | v :: vs, n, i, h => by
    unfold varFind at h
    split at h
    · rename_i hv
      simp only [Option.some.injEq] at h
      subst h
      exact ⟨v, rfl, hv⟩
    · cases h' : varFind vs n with
      | none => rw [h'] at h; simp at h
      | some j =>
        rw [h'] at h
        simp only [Option.map_some, Option.some.injEq] at h
        subst h
        obtain ⟨w, hw, hn⟩ := varFind_get h'
        exact ⟨w, by simpa using hw, hn⟩

theorem varFind_none_iff (vs : List VarInfo) (n : Nat) :
    varFind vs n = none ↔ vget vs n = none := by
  unfold vget
  cases h : varFind vs n with
  | none => simp
  | some i =>
    obtain ⟨v, hv, _⟩ := varFind_get h
    simp [hv]

theorem varFind_append (v : VarInfo) (n : Nat) : ∀ vs : List VarInfo,
    varFind (vs ++ [v]) n =
      match varFind vs n with
      | some i => some i
      | none => if v.name = n then some vs.length else none
  | [] => by simp [varFind]
  | w :: vs => by
    simp only [List.cons_append, varFind, varFind_append v n vs]
    split
    · rfl
    · cases varFind vs n with
      | some i => simp
      | none =>
        simp only [Option.map_none, List.length_cons]
        split <;> simp

theorem vget_append (v : VarInfo) (n : Nat) : ∀ vs : List VarInfo,
    vget (vs ++ [v]) n =
      match vget vs n with
      | some w => some w
      | none => if v.name = n then some v else none
  | [] => by simp [vget_cons]; simp [vget, varFind]
  | w :: vs => by
    simp only [List.cons_append, vget_cons, vget_append v n vs]
    split <;> rfl

/-- Overwriting the entry that was found with one of the same name. -/
theorem varFind_set : ∀ {vs : List VarInfo} {m i : Nat} {v : VarInfo},
    varFind vs m = some i → v.name = m → ∀ n, varFind (vs.set i v) n = varFind vs n
  | w :: vs, m, i, v, h, hv, n => by
    unfold varFind at h
    split at h
    · rename_i hw
      simp only [Option.some.injEq] at h
      subst h
      simp only [List.set_cons_zero, varFind, hv, hw]
    · cases h' : varFind vs m with
      | none => rw [h'] at h; simp at h
      | some j =>
        rw [h'] at h
        simp only [Option.map_some, Option.some.injEq] at h
        subst h
        simp only [List.set_cons_succ, varFind, varFind_set h' hv n]

theorem vget_set : ∀ {vs : List VarInfo} {m i : Nat} {v : VarInfo},
    varFind vs m = some i → v.name = m →
    ∀ n, vget (vs.set i v) n = if m = n then some v else vget vs n
  | w :: vs, m, i, v, h, hv, n => by
    unfold varFind at h
    split at h
    · rename_i hw
      simp only [Option.some.injEq] at h
      subst h
      simp only [List.set_cons_zero, vget_cons, hv, hw]
      split <;> rfl
    · rename_i hw
      cases h' : varFind vs m with
      | none => rw [h'] at h; simp at h
      | some j =>
        rw [h'] at h
        simp only [Option.map_some, Option.some.injEq] at h
        subst h
        simp only [List.set_cons_succ, vget_cons, vget_set h' hv n]
        split
        · rename_i h1
          rw [if_neg]
          rintro rfl
          exact hw h1
        · rfl

/-- The chain of scopes from `curscope` to the global scope. -/
def chain (st : St) : List Scope := st.locals ++ [st.glob]

theorem chain_cur (st : St) : chain st = cur st :: (chain st).tail := by
  unfold chain cur
  cases st.locals <;> rfl

theorem cur_mem (st : St) : cur st ∈ chain st := by
  rw [chain_cur]; exact List.mem_cons_self

theorem chain_setCur (st : St) (f : Scope → Scope) :
    chain (setCur st f) = f (cur st) :: (chain st).tail := by
  unfold chain cur setCur
  cases st.locals <;> rfl

theorem cur_setCur (st : St) (f : Scope → Scope) : cur (setCur st f) = f (cur st) := by
  unfold cur setCur
  cases st.locals <;> rfl

theorem chain_length (st : St) : (chain st).length = st.locals.length + 1 := by
  simp [chain]

/-- First scope of a chain in which `L` finds something. -/
def chainFind {α : Type} (L : Scope → Option α) : List Scope → Option (Nat × α)
  | [] => none
  | s :: ss =>
    match L s with
    | some a => some (s.sid, a)
    | none => chainFind L ss

/-- What is true of every reachable parser state. -/
structure Inv (st : St) : Prop where
  sync : ∀ n, tget st.gtab n = varFind st.glob.vars n
  disj : ∀ s ∈ chain st, ∀ n, (varFind s.vars n).isSome → tget s.tds n = none
  sids : (chain st).Pairwise fun a b => b.sid < a.sid
  fresh : ∀ s ∈ chain st, s.sid ≤ st.made

theorem scopeFind_eq {st : St} (hi : Inv st) (n : Nat) :
    scopeFind st n = chainFind (fun s => vget s.vars n) (chain st) := by
  have : ∀ l : List Scope, chainFind (fun s => vget s.vars n) (l ++ [st.glob]) =
      match findLocal l n with
      | some r => some r
      | none => (vget st.glob.vars n).map (st.glob.sid, ·) := by
    intro l
    induction l with
    | nil =>
      simp only [List.nil_append, chainFind, findLocal]
      cases vget st.glob.vars n <;> rfl
    | cons s ss ih =>
      simp only [List.cons_append, chainFind, findLocal]
      rw [ih]
      unfold vget
      cases h : varFind s.vars n with
      | none => rfl
      | some i =>
        obtain ⟨v, hv, _⟩ := varFind_get h
        simp [hv]
  unfold scopeFind chain
  rw [this, hi.sync]
  cases findLocal st.locals n with
  | some r => rfl
  | none =>
    unfold vget
    cases varFind st.glob.vars n <;> rfl

/-- What an identifier means in one scope. -/
def meaning (n : Nat) (s : Scope) : Option Meaning :=
  match tget s.tds n with
  | some t => some (.type t)
  | none => (vget s.vars n).map fun v => .object v.ty

theorem findTypedef_eq (n : Nat) : ∀ l : List Scope, findTypedefIn l n =
    match chainFind (meaning n) l with
    | some (b, .type t) => some (b, t)
    | _ => none
  | [] => rfl
  | s :: ss => by
    unfold findTypedefIn chainFind meaning
    cases tget s.tds n with
    | some t => rfl
    | none =>
      simp only []
      cases h : vget s.vars n with
      | none =>
        have := (varFind_none_iff s.vars n).2 h
        simp only [this, Option.isSome_none, Bool.false_eq_true, if_false, Option.map_none]
        exact findTypedef_eq n ss
      | some v =>
        have : (varFind s.vars n).isSome := by
          cases h' : varFind s.vars n with
          | none => rw [(varFind_none_iff _ _).1 h'] at h; simp at h
          | some i => rfl
        simp [this]

theorem findStruct_eq (n : Nat) : ∀ l : List Scope,
    findStructIn l n = chainFind (fun s => tget s.structs n) l
  | [] => rfl
  | s :: ss => by
    unfold findStructIn chainFind
    cases tget s.structs n with
    | some t => rfl
    | none => exact findStruct_eq n ss

theorem findEnum_eq (n : Nat) : ∀ l : List Scope,
    findEnumIn l n = (chainFind (fun s => tget s.enums n) l).map (·.2)
  | [] => rfl
  | s :: ss => by
    unfold findEnumIn chainFind
    cases tget s.enums n with
    | some t => rfl
    | none => exact findEnum_eq n ss

/-- What a declaration did: only the current scope changed, and in it at most one of its
tables. -/
inductive Did (st : St) : Ev → St → Prop where
  | reuse (e n ty i old v') : (∃ ext init, e = .var n ty ext init) ∨ e = .enumr n ty →
      varFind (cur st).vars n = some i → (cur st).vars[i]? = some old → old.ty = ty →
      v'.name = n → v'.ty = ty →
      Did st e
        (setCur st fun s => { s with vars := s.vars.set i v' })
  | add (e n ty v st') : (∃ ext init, e = .var n ty ext init) ∨ e = .enumr n ty →
      varFind (cur st).vars n = none → tget (cur st).tds n = none → v.name = n → v.ty = ty →
      chain st' = { cur st with vars := (cur st).vars ++ [v] } :: (chain st).tail →
      st'.made = st.made → st'.locals.length = st.locals.length →
      (∀ m, tget st'.gtab m = varFind st'.glob.vars m) → Did st e st'
  | sameType (n ty) : findTypedef st n = some ((cur st).sid, ty) → Did st (.typedef n ty) st
  | ignored (n ty b t) : findTypedef st n = some (b, t) → b ≠ (cur st).sid →
      ty.complete = false → Did st (.typedef n ty) st
  | typedef (n ty) : varFind (cur st).vars n = none →
      Did st (.typedef n ty) (setCur st fun s => { s with tds := (n, ty) :: s.tds })
  | sdef (n i) : Did st (.sdef n i) (setCur st fun s => { s with structs := (n, i) :: s.structs })
  | sdecl (n) : Did st (.sdecl n) st
  | edef (n t) : Did st (.edef n t) (setCur st fun s => { s with enums := (n, t) :: s.enums })

theorem chainFind_cur {α : Type} (L : Scope → Option α) (st : St) :
    chainFind L (chain st) =
      match L (cur st) with
      | some a => some ((cur st).sid, a)
      | none => chainFind L (chain st).tail := by
  rw [chain_cur st]; rfl

theorem chainFind_mem {α : Type} (L : Scope → Option α) : ∀ {l : List Scope} {b : Nat} {a : α},
    chainFind L l = some (b, a) → ∃ s ∈ l, s.sid = b ∧ L s = some a
  | s :: ss, b, a, h => by
    unfold chainFind at h
    cases hs : L s with
    | some x =>
      rw [hs] at h
      simp only [Option.some.injEq, Prod.mk.injEq] at h
      exact ⟨s, List.mem_cons_self, h.1, by rw [hs, h.2]⟩
    | none =>
      rw [hs] at h
      obtain ⟨s', h1, h2⟩ := chainFind_mem L h
      exact ⟨s', List.mem_cons_of_mem _ h1, h2⟩

theorem tail_sid {st : St} (hi : Inv st) {s : Scope} (hs : s ∈ (chain st).tail) :
    s.sid < (cur st).sid := by
  have := hi.sids
  rw [chain_cur, List.pairwise_cons] at this
  exact this.1 s hs

/-- The variable table says "in the current scope" exactly when it is. -/
theorem scopeFind_cur {st : St} (hi : Inv st) (n : Nat) :
    (scopeFind st n).map (·.1) = some (cur st).sid ↔ (varFind (cur st).vars n).isSome := by
  rw [scopeFind_eq hi, chainFind_cur]
  cases h : vget (cur st).vars n with
  | some v =>
    have : (varFind (cur st).vars n).isSome := by
      cases h' : varFind (cur st).vars n with
      | none => rw [(varFind_none_iff _ _).1 h'] at h; simp at h
      | some i => rfl
    simp [this]
  | none =>
    rw [(varFind_none_iff _ _).2 h]
    simp only [Option.isSome_none, Bool.false_eq_true, iff_false]
    intro h2
    cases h3 : chainFind (fun s => vget s.vars n) (chain st).tail with
    | none => rw [h3] at h2; simp at h2
    | some r =>
      obtain ⟨b, a⟩ := r
      obtain ⟨s, hs, hb, _⟩ := chainFind_mem _ h3
      rw [h3] at h2
      simp only [Option.map_some, Option.some.injEq] at h2
      have := tail_sid hi hs
      omega

theorem addVar_did {st st' : St} (hi : Inv st) {e : Ev} {n : Nat} {ty : Ty} {ext init : Bool}
    (hor : (∃ ext init, e = .var n ty ext init) ∨ e = .enumr n ty)
    (h : addVar st ⟨n, ty, ext, init⟩ = some st') : Did st e st' := by
  unfold addVar at h
  simp only at h
  cases hf : varFind (cur st).vars n with
  | some i =>
    obtain ⟨old, ho, hn⟩ := varFind_get hf
    simp only [hf, ho] at h
    split at h
    · simp at h
    · rename_i hty
      have hty : old.ty = ty := Decidable.not_not.1 hty
      split at h
      · simp only [Option.some.injEq] at h
        subst h
        exact .reuse e n ty i old _ hor hf ho hty hn hty
      · split at h
        · simp only [Option.some.injEq] at h
          subst h
          exact .reuse e n ty i old _ hor hf ho hty hn hty
        · split at h
          · simp only [Option.some.injEq] at h
            subst h
            exact .reuse e n ty i old _ hor hf ho hty hn hty
          · simp at h
  | none =>
    simp only [hf] at h
    split at h
    · simp at h
    · rename_i htd
      have htd : tget (cur st).tds n = none := by
        cases h' : tget (cur st).tds n with
        | none => rfl
        | some _ => rw [h'] at htd; simp at htd
      unfold scopeAdd at h
      cases hl : st.locals with
      | nil =>
        have hc : cur st = st.glob := by simp [cur, hl]
        have hg : tget st.gtab n = none := by rw [hi.sync, ← hc]; exact hf
        simp only [hl, hg, Option.some.injEq] at h
        subst h
        refine .add e n ty ⟨n, ty, ext, init⟩ _ hor hf htd rfl rfl ?_ rfl (by simp [hl]) ?_
        · simp only [chain, hl, hc, List.nil_append, List.tail_cons]
        · intro m
          simp only [tget, varFind_append]
          rw [← hi.sync m]
          cases hm : tget st.gtab m with
          | some j =>
            simp only []
            rw [if_neg]
            rintro rfl
            rw [hg] at hm; simp at hm
          | none => rfl
      | cons s ss =>
        simp only [hl, Option.some.injEq] at h
        subst h
        refine .add e n ty ⟨n, ty, ext, init⟩ _ hor hf htd rfl rfl ?_ ?_ ?_ ?_
        · exact chain_setCur _ _
        · simp [setCur, hl]
        · simp [setCur, hl]
        · intro m
          simp only [setCur, hl]
          exact hi.sync m

theorem step_did {st st' : St} (hi : Inv st) {e : Ev} (h : step st e = some st')
    (h1 : e ≠ .enter) (h2 : e ≠ .exit) : Did st e st' := by
  cases e with
  | enter => exact absurd rfl h1
  | exit => exact absurd rfl h2
  | var n ty ext init => exact addVar_did hi (.inl ⟨_, _, rfl⟩) h
  | enumr n ty =>
    simp only [step, addEnumerator] at h
    split at h
    · simp at h
    · exact addVar_did hi (.inr rfl) h
  | typedef n ty =>
    simp only [step, defType] at h
    cases hd : findTypedef st n with
    | some r =>
      obtain ⟨b, t⟩ := r
      simp only [hd] at h
      split at h
      · rename_i hb
        split at h
        · rename_i ht
          simp only [Option.some.injEq] at h
          subst h
          subst ht
          exact .sameType n t (by rw [hd, hb])
        · simp at h
      · rename_i hb
        split at h
        · simp at h
        · rename_i hv
          rw [scopeFind_cur hi] at hv
          split at h
          · simp only [Option.some.injEq] at h
            subst h
            exact .typedef n ty (by simpa using hv)
          · rename_i hc
            simp only [Option.some.injEq] at h
            subst h
            exact .ignored n ty b t hd hb (by simpa using hc)
    | none =>
      simp only [hd] at h
      split at h
      · simp at h
      · rename_i hv
        rw [scopeFind_cur hi] at hv
        simp only [Option.some.injEq] at h
        subst h
        exact .typedef n ty (by simpa using hv)
  | sdef n i =>
    simp only [step, defStruct] at h
    have : st' = setCur st fun s => { s with structs := (n, i) :: s.structs } := by
      split at h
      · split at h
        · simp at h
        · simpa using h.symm
      · simpa using h.symm
    subst this
    exact .sdef n i
  | sdecl n =>
    simp only [step, Option.some.injEq] at h
    subst h
    exact .sdecl n
  | edef n t =>
    simp only [step, defEnum] at h
    split at h
    · simp at h
    · simp only [Option.some.injEq] at h
      subst h
      exact .edef n t

/-- The current scope after a declaration. -/
theorem did_chain {st st' : St} {e : Ev} (h : Did st e st') :
    (chain st').tail = (chain st).tail ∧ (cur st').sid = (cur st).sid ∧ st'.made = st.made ∧
      st'.locals.length = st.locals.length := by
  have hs : ∀ f : Scope → Scope, (f (cur st)).sid = (cur st).sid →
      (chain (setCur st f)).tail = (chain st).tail ∧ (cur (setCur st f)).sid = (cur st).sid ∧
      (setCur st f).made = st.made ∧ (setCur st f).locals.length = st.locals.length := by
    intro f hf
    refine ⟨by rw [chain_setCur]; rfl, by rw [cur_setCur, hf], ?_, ?_⟩ <;>
    · unfold setCur; cases st.locals <;> rfl
  cases h with
  | add _ n ty v _ _ _ _ _ _ hc hm hl =>
    refine ⟨by rw [hc]; rfl, ?_, hm, hl⟩
    have := chain_cur st'
    rw [hc] at this
    rw [← (List.cons.inj this).1]
  | sameType => exact ⟨rfl, rfl, rfl, rfl⟩
  | ignored => exact ⟨rfl, rfl, rfl, rfl⟩
  | sdecl => exact ⟨rfl, rfl, rfl, rfl⟩
  | reuse => exact hs _ rfl
  | typedef => exact hs _ rfl
  | sdef => exact hs _ rfl
  | edef => exact hs _ rfl

theorem glob_setCur (st : St) (f : Scope → Scope) :
    (setCur st f).gtab = st.gtab ∧
      ((setCur st f).glob = st.glob ∨ (setCur st f).glob = f st.glob ∧ cur st = st.glob) := by
  unfold setCur cur
  cases st.locals with
  | nil => exact ⟨rfl, .inr ⟨rfl, rfl⟩⟩
  | cons => exact ⟨rfl, .inl rfl⟩

theorem did_sync {st st' : St} {e : Ev} (hi : Inv st) (h : Did st e st') :
    ∀ n, tget st'.gtab n = varFind st'.glob.vars n := by
  have hs : ∀ f : Scope → Scope, (∀ n, varFind (f (cur st)).vars n = varFind (cur st).vars n) →
      ∀ n, tget (setCur st f).gtab n = varFind (setCur st f).glob.vars n := by
    intro f hf n
    obtain ⟨h1, h2⟩ := glob_setCur st f
    rw [h1, hi.sync]
    rcases h2 with h2 | ⟨h2, h3⟩
    · rw [h2]
    · rw [h2, ← h3, hf]
  cases h with
  | add => assumption
  | sameType => exact hi.sync
  | ignored => exact hi.sync
  | sdecl => exact hi.sync
  | reuse n ty i old v' _ hf _ _ hn =>
    refine hs _ fun m => ?_
    exact varFind_set ‹varFind _ _ = some _› ‹_› m
  | typedef => exact hs _ fun _ => rfl
  | sdef => exact hs _ fun _ => rfl
  | edef => exact hs _ fun _ => rfl

theorem did_cur {st st' : St} {e : Ev} (hi : Inv st) (h : Did st e st') :
    ∀ n, (varFind (cur st').vars n).isSome → tget (cur st').tds n = none := by
  have h0 := hi.disj _ (cur_mem st)
  cases h with
  | add _ n ty v _ _ hf htd hn _ hc =>
    have := chain_cur st'
    rw [hc] at this
    rw [← (List.cons.inj this).1]
    intro m hm
    simp only [varFind_append] at hm
    cases hv : varFind (cur st).vars m with
    | some i => exact h0 m (by rw [hv]; rfl)
    | none =>
      rw [hv] at hm
      simp only at hm
      split at hm
      · rename_i hnm
        rw [← hnm, hn]
        exact htd
      · simp at hm
  | sameType => exact h0
  | ignored => exact h0
  | sdecl => exact h0
  | reuse n ty i old v' _ hf _ _ hn =>
    rw [cur_setCur]
    intro m hm
    rw [varFind_set ‹varFind _ _ = some _› ‹_›] at hm
    exact h0 m hm
  | typedef n ty hv =>
    rw [cur_setCur]
    intro m hm
    simp only [tget]
    rw [if_neg, h0 m hm]
    rintro rfl
    rw [hv] at hm
    simp at hm
  | sdef => rw [cur_setCur]; exact h0
  | edef => rw [cur_setCur]; exact h0

theorem inv_start : Inv start := by
  refine ⟨fun n => rfl, ?_, by simp [chain, start], ?_⟩
  · intro s hs n h
    simp only [chain, start, List.nil_append, List.mem_singleton] at hs
    subst hs
    rfl
  · intro s hs
    simp only [chain, start, List.nil_append, List.mem_singleton] at hs
    subst hs
    exact Nat.le_refl _

theorem inv_step {st st' : St} {e : Ev} (hi : Inv st) (h : step st e = some st') : Inv st' := by
  by_cases h1 : e = .enter
  · subst h1
    simp only [step, Option.some.injEq] at h
    subst h
    refine ⟨hi.sync, ?_, ?_, ?_⟩
    · intro s hs n hv
      simp only [chain, enter, List.cons_append, List.mem_cons] at hs
      rcases hs with rfl | hs
      · rfl
      · exact hi.disj s hs n hv
    · simp only [chain, enter, List.cons_append]
      rw [List.pairwise_cons]
      exact ⟨fun s hs => Nat.lt_succ_of_le (hi.fresh s hs), hi.sids⟩
    · intro s hs
      simp only [chain, enter, List.cons_append, List.mem_cons] at hs
      rcases hs with rfl | hs
      · exact Nat.le_refl _
      · exact Nat.le_succ_of_le (hi.fresh s hs)
  by_cases h2 : e = .exit
  · subst h2
    simp only [step, exit_] at h
    cases hl : st.locals with
    | nil => rw [hl] at h; simp at h
    | cons s ss =>
      simp only [hl, Option.some.injEq] at h
      subst h
      have hc : chain st = s :: (ss ++ [st.glob]) := by simp [chain, hl]
      have hd := hi.disj
      have hp := hi.sids
      have hf := hi.fresh
      rw [hc] at hd hp hf
      exact ⟨hi.sync, fun x hx => hd x (List.mem_cons_of_mem _ hx), (List.pairwise_cons.1 hp).2,
        fun x hx => hf x (List.mem_cons_of_mem _ hx)⟩
  have hd := step_did hi h h1 h2
  obtain ⟨c1, c2, c3, _⟩ := did_chain hd
  refine ⟨did_sync hi hd, ?_, ?_, ?_⟩
  · intro s hs
    rw [chain_cur, c1, List.mem_cons] at hs
    rcases hs with rfl | hs
    · exact did_cur hi hd
    · exact hi.disj s (List.mem_of_mem_tail hs)
  · rw [chain_cur, c1, List.pairwise_cons]
    have := hi.sids
    rw [chain_cur, List.pairwise_cons] at this
    exact ⟨fun s hs => by rw [c2]; exact this.1 s hs, this.2⟩
  · intro s hs
    rw [chain_cur, c1, List.mem_cons] at hs
    rw [c3]
    rcases hs with rfl | hs
    · rw [c2]; exact hi.fresh _ (cur_mem st)
    · exact hi.fresh s (List.mem_of_mem_tail hs)

theorem inv_run : ∀ {t : List Ev} {st : St}, run t = some st → Inv st
  | [], st, h => by
    simp only [run, Option.some.injEq] at h
    subst h
    exact inv_start
  | e :: t, st, h => by
    simp only [run] at h
    cases hr : run t with
    | none => rw [hr] at h; simp at h
    | some st0 =>
      rw [hr] at h
      exact inv_step (inv_run hr) h

theorem made_run : ∀ {t : List Ev} {st : St}, run t = some st → st.made = t.count .enter
  | [], st, h => by
    simp only [run, Option.some.injEq] at h
    subst h
    rfl
  | e :: t, st, h => by
    simp only [run] at h
    cases hr : run t with
    | none => rw [hr] at h; simp at h
    | some st0 =>
      rw [hr] at h
      simp only [Option.bind_some] at h
      have ih := made_run hr
      by_cases h1 : e = .enter
      · subst h1
        simp only [step, Option.some.injEq] at h
        subst h
        simp [enter, ih]
      rw [List.count_cons_of_ne h1, ← ih]
      by_cases h2 : e = .exit
      · subst h2
        simp only [step, exit_] at h
        cases hl : st0.locals with
        | nil => rw [hl] at h; simp at h
        | cons s ss =>
          simp only [hl, Option.some.injEq] at h
          subst h
          rfl
      · exact (did_chain (step_did (inv_run hr) h h1 h2)).2.2.1

theorem exit_chain {st st' : St} (h : step st .exit = some st') :
    chain st' = (chain st).tail ∧ st.locals.length = st'.locals.length + 1 := by
  simp only [step, exit_] at h
  cases hl : st.locals with
  | nil => rw [hl] at h; simp at h
  | cons s ss =>
    simp only [hl, Option.some.injEq] at h
    subst h
    simp [chain, hl]

theorem block_other {e : Ev} (h1 : e ≠ .enter) (h2 : e ≠ .exit) (t : List Ev) (d : Nat) :
    block (e :: t) d = block t d := by
  cases e <;> first | rfl | exact absurd rfl h1 | exact absurd rfl h2

theorem visible_other {α : Type} (f : Ev → Option α) {e : Ev} (h1 : e ≠ .enter) (h2 : e ≠ .exit)
    (t : List Ev) (d : Nat) :
    visible f (e :: t) d =
      match d with
      | 0 => (match f e with
        | some a => some (block t 0, a)
        | none => visible f t 0)
      | d + 1 => visible f t (d + 1) := by
  cases e <;> cases d <;> first | rfl | exact absurd rfl h1 | exact absurd rfl h2

/-- The open blocks of a history are the scopes of the chain. -/
theorem block_eq : ∀ {t : List Ev} {st : St}, run t = some st → ∀ d, d ≤ st.locals.length →
    ((chain st).drop d).head?.map (·.sid) = some (block t d)
  | [], st, h, d, hd => by
    simp only [run, Option.some.injEq] at h
    subst h
    simp only [start, List.length_nil, Nat.le_zero] at hd
    subst hd
    rfl
  | e :: t, st, h, d, hd => by
    simp only [run] at h
    cases hr : run t with
    | none => rw [hr] at h; simp at h
    | some st0 =>
      rw [hr] at h
      simp only [Option.bind_some] at h
      by_cases h1 : e = .enter
      · subst h1
        simp only [step, Option.some.injEq] at h
        subst h
        cases d with
        | zero => simp [block, chain, enter, made_run hr]
        | succ d =>
          have := block_eq hr d (by simpa [enter] using hd)
          simpa [block, chain, enter] using this
      by_cases h2 : e = .exit
      · subst h2
        obtain ⟨hc, hl⟩ := exit_chain h
        rw [hc, List.drop_tail]
        exact block_eq hr (d + 1) (by omega)
      · obtain ⟨c1, c2, _, c4⟩ := did_chain (step_did (inv_run hr) h h1 h2)
        have ih := block_eq hr d (by omega)
        rw [block_other h1 h2, ← ih, chain_cur st, c1, chain_cur st0]
        cases d with
        | zero => simp [c2]
        | succ d => rfl

theorem block_cur {t : List Ev} {st : St} (h : run t = some st) : block t 0 = (cur st).sid := by
  have := block_eq h 0 (Nat.zero_le _)
  rw [chain_cur] at this
  simpa using this.symm

/-- The general lookup theorem: if every accepted declaration has on the current scope the
effect the specification gives it, walking the chain finds the visible declaration. -/
theorem visible_eq {α : Type} (f : Ev → Option α) (L : Scope → Option α) (ok : List Ev → Prop)
    (hok : ∀ e t, ok (e :: t) → ok t) (hL : ∀ i, L ⟨i, [], [], [], []⟩ = none)
    (hstep : ∀ e t st st', ok (e :: t) → run t = some st → Inv st → Did st e st' →
      visible f t 0 = chainFind L (chain st) →
      L (cur st') = (f e).or (L (cur st))) :
    ∀ {t : List Ev} {st : St}, ok t → run t = some st → ∀ d, d ≤ st.locals.length →
      visible f t d = chainFind L ((chain st).drop d)
  | [], st, _, h, d, hd => by
    simp only [run, Option.some.injEq] at h
    subst h
    simp only [start, List.length_nil, Nat.le_zero] at hd
    subst hd
    simp [visible, chain, start, chainFind, hL]
  | e :: t, st, hk, h, d, hd => by
    simp only [run] at h
    cases hr : run t with
    | none => rw [hr] at h; simp at h
    | some st0 =>
      rw [hr] at h
      simp only [Option.bind_some] at h
      have ih := visible_eq f L ok hok hL hstep (hok e t hk) hr
      by_cases h1 : e = .enter
      · subst h1
        simp only [step, Option.some.injEq] at h
        subst h
        cases d with
        | zero =>
          simp only [visible, chain, enter, List.cons_append, List.drop_zero, chainFind, hL]
          exact ih 0 (Nat.zero_le _)
        | succ d =>
          have := ih d (by simpa [enter] using hd)
          simpa [visible, chain, enter] using this
      by_cases h2 : e = .exit
      · subst h2
        obtain ⟨hc, hl⟩ := exit_chain h
        rw [hc, List.drop_tail]
        exact ih (d + 1) (by omega)
      · have hi := inv_run hr
        have hdid := step_did hi h h1 h2
        obtain ⟨c1, c2, _, c4⟩ := did_chain hdid
        rw [visible_other f h1 h2]
        cases d with
        | zero =>
          have ih0 := ih 0 (Nat.zero_le _)
          rw [List.drop_zero] at ih0
          have hs := hstep e t st0 st hk hr hi hdid ih0
          simp only [List.drop_zero]
          rw [chainFind_cur, hs, ih0, c1, c2, ← block_cur hr, chainFind_cur L st0,
            ← block_cur hr]
          cases f e <;> rfl
        | succ d =>
          simp only []
          rw [ih (d + 1) (by omega), chain_cur st, c1, chain_cur st0]
          rfl

/-- Declarations of objects only. -/
def objects (n : Nat) : Ev → Option Ty
  | .var m ty _ _ => if m = n then some ty else none
  | .enumr m ty => if m = n then some ty else none
  | _ => none

theorem objects_of {e : Ev} {m : Nat} {ty : Ty}
    (h : (∃ ext init, e = .var m ty ext init) ∨ e = .enumr m ty) (n : Nat) :
    objects n e = if m = n then some ty else none := by
  rcases h with ⟨_, _, rfl⟩ | rfl <;> rfl

theorem ordinary_of {e : Ev} {m : Nat} {ty : Ty}
    (h : (∃ ext init, e = .var m ty ext init) ∨ e = .enumr m ty) (n : Nat) :
    ordinary n e = if m = n then some (.object ty) else none := by
  rcases h with ⟨_, _, rfl⟩ | rfl <;> rfl

/-- The newest ordinary declaration, if it declares an object, is the newest object. -/
theorem visible_objects (n : Nat) : ∀ (t : List Ev) (d : Nat),
    (∀ b ty, visible (ordinary n) t d = some (b, .object ty) →
      visible (objects n) t d = some (b, ty)) ∧
    (visible (ordinary n) t d = none → visible (objects n) t d = none)
  | [], d => by simp [visible]
  | e :: t, d => by
    by_cases h1 : e = .enter
    · subst h1
      cases d with
      | zero => exact visible_objects n t 0
      | succ d => exact visible_objects n t d
    by_cases h2 : e = .exit
    · subst h2
      exact visible_objects n t (d + 1)
    rw [visible_other _ h1 h2, visible_other _ h1 h2]
    cases d with
    | succ d => exact visible_objects n t (d + 1)
    | zero =>
      have ih := visible_objects n t 0
      cases e with
      | var m ty _ _ =>
        simp only [ordinary, objects]
        by_cases hm : m = n
        · simp [hm]
        · simp only [hm, if_false]; exact ih
      | enumr m ty =>
        simp only [ordinary, objects]
        by_cases hm : m = n
        · simp [hm]
        · simp only [hm, if_false]; exact ih
      | typedef m ty =>
        simp only [ordinary, objects]
        by_cases hm : m = n
        · simp [hm]
        · simp only [hm, if_false]; exact ih
      | enter => exact ih
      | exit => exact absurd rfl h2
      | sdef => exact ih
      | sdecl => exact ih
      | edef => exact ih

theorem did_objects {st st' : St} {e : Ev} (h : Did st e st') (n : Nat) :
    (vget (cur st').vars n).map (·.ty) = (objects n e).or ((vget (cur st).vars n).map (·.ty)) := by
  cases h with
  | add _ m ty v _ hor hf htd hn hty hc =>
    have hcur : cur st' = { cur st with vars := (cur st).vars ++ [v] } := by
      have := chain_cur st'
      rw [hc] at this
      exact (List.cons.inj this).1.symm
    rw [hcur, objects_of hor]
    simp only [vget_append]
    by_cases hmn : m = n
    · subst hmn
      have := (varFind_none_iff _ _).1 hf
      simp [this, hn, hty]
    · cases vget (cur st).vars n <;> simp [hn, hmn]
  | reuse _ m ty i old v' hor hf ho hty hn hty' =>
    rw [cur_setCur, objects_of hor, vget_set hf hn]
    by_cases hmn : m = n
    · simp [hmn, hty']
    · simp [hmn]
  | sameType => rfl
  | ignored => rfl
  | sdecl => rfl
  | typedef => rw [cur_setCur]; rfl
  | sdef => rw [cur_setCur]; rfl
  | edef => rw [cur_setCur]; rfl

theorem did_meaning {st st' : St} {e : Ev} {t : List Ev} (hk : NoRetypedef (e :: t))
    (hr : run t = some st) (hi : Inv st) (h : Did st e st') (n : Nat)
    (ih : visible (ordinary n) t 0 = chainFind (meaning n) (chain st)) :
    meaning n (cur st') = (ordinary n e).or (meaning n (cur st)) := by
  have h0 := hi.disj _ (cur_mem st)
  have hobj := did_objects h n
  cases h with
  | add _ m ty v _ hor hf htd hn hty hc =>
    have hcur : cur st' = { cur st with vars := (cur st).vars ++ [v] } := by
      have := chain_cur st'
      rw [hc] at this
      exact (List.cons.inj this).1.symm
    rw [objects_of hor] at hobj
    rw [ordinary_of hor]
    have htds : (cur st').tds = (cur st).tds := by rw [hcur]
    unfold meaning
    rw [htds]
    by_cases hmn : m = n
    · subst hmn
      simp only [if_true] at hobj ⊢
      rw [htd]
      cases hv : vget (cur st').vars m with
      | none => rw [hv] at hobj; simp at hobj
      | some w => rw [hv] at hobj; simpa using hobj
    · simp only [hmn, if_false] at hobj ⊢
      cases tget (cur st).tds n with
      | some t => rfl
      | none =>
        have := congrArg (Option.map Meaning.object) hobj
        simpa [Option.map_map, Function.comp_def] using this
  | reuse _ m ty i old v' hor hf ho hty hn hty' =>
    rw [objects_of hor] at hobj
    rw [ordinary_of hor]
    have htds : (cur (setCur st fun s => { s with vars := s.vars.set i v' })).tds
        = (cur st).tds := by rw [cur_setCur]
    have htd := h0 m (by rw [hf]; rfl)
    unfold meaning
    rw [htds]
    by_cases hmn : m = n
    · subst hmn
      simp only [if_true] at hobj ⊢
      rw [htd]
      have := congrArg (Option.map Meaning.object) hobj
      simpa [Option.map_map, Function.comp_def] using this
    · simp only [hmn, if_false] at hobj ⊢
      cases tget (cur st).tds n with
      | some t => rfl
      | none =>
        have := congrArg (Option.map Meaning.object) hobj
        simpa [Option.map_map, Function.comp_def] using this
  | sameType m ty hd =>
    simp only [ordinary]
    by_cases hmn : m = n
    · subst hmn
      simp only [if_true]
      rw [findTypedef, findTypedef_eq] at hd
      change (match chainFind (meaning m) (chain st) with
        | some (b, .type t) => some (b, t)
        | _ => none) = _ at hd
      rw [chainFind_cur] at hd
      cases hm : meaning m (cur st) with
      | some a =>
        rw [hm] at hd
        cases a with
        | type u =>
          simp only [Option.some.injEq, Prod.mk.injEq, true_and] at hd
          rw [hd]; rfl
        | object u => simp at hd
      | none =>
        rw [hm] at hd
        simp only at hd
        cases hc : chainFind (meaning m) (chain st).tail with
        | none => rw [hc] at hd; simp at hd
        | some r =>
          obtain ⟨b, a⟩ := r
          obtain ⟨s, hs, hb, _⟩ := chainFind_mem _ hc
          have := tail_sid hi hs
          rw [hc] at hd
          cases a with
          | type u =>
            simp only [Option.some.injEq, Prod.mk.injEq] at hd
            omega
          | object u => simp at hd
    · simp [hmn]
  | ignored m ty b u hd hb hcmp =>
    simp only [ordinary]
    by_cases hmn : m = n
    · subst hmn
      exfalso
      apply hb
      rw [findTypedef, findTypedef_eq] at hd
      change (match chainFind (meaning m) (chain st) with
        | some (b, .type t) => some (b, t)
        | _ => none) = _ at hd
      rw [← ih] at hd
      cases hv : visible (ordinary m) t 0 with
      | none => rw [hv] at hd; simp at hd
      | some r =>
        obtain ⟨b', a⟩ := r
        rw [hv] at hd
        cases a with
        | object u => simp at hd
        | type u' =>
          simp only [Option.some.injEq, Prod.mk.injEq] at hd
          rw [← hd.1, ← block_cur hr]
          exact hk.2 m ty rfl hcmp b' u' hv
    · simp [hmn]
  | typedef m ty hv =>
    rw [cur_setCur]
    simp only [ordinary, meaning, tget]
    by_cases hmn : m = n
    · simp [hmn]
    · simp [hmn]
  | sdecl => rfl
  | sdef => rw [cur_setCur]; rfl
  | edef => rw [cur_setCur]; rfl

/-! ### Theorems -/

/-- C30, variables: after any accepted history of blocks and declarations, an identifier
whose visible declaration (ISO 6.2.1) declares a variable, function or enumerator is looked
up to exactly that: the block that declared it and the declared type. -/
theorem variable_lookup {t : List Ev} {st : St} (h : run t = some st) {n b : Nat} {ty : Ty}
    (hv : visible (ordinary n) t 0 = some (b, .object ty)) :
    ∃ v, scopeFind st n = some (b, v) ∧ v.name = n ∧ v.ty = ty := by
  have hL : visible (objects n) t 0 =
      chainFind (fun s => (vget s.vars n).map (·.ty)) (chain st) := by
    have := visible_eq (objects n) (fun s => (vget s.vars n).map (·.ty)) (fun _ => True)
      (fun _ _ h => h) (fun _ => rfl) (fun e t st st' _ _ _ hd _ => did_objects hd n)
      trivial h 0 (Nat.zero_le _)
    simpa using this
  have hc := (visible_objects n t 0).1 b ty hv
  rw [hL] at hc
  rw [scopeFind_eq (inv_run h)]
  generalize chain st = l at hc
  induction l with
  | nil => simp [chainFind] at hc
  | cons s ss ih =>
    unfold chainFind at hc ⊢
    cases hg : vget s.vars n with
    | none =>
      rw [hg] at hc
      simp only [Option.map_none] at hc ⊢
      exact ih hc
    | some v =>
      rw [hg] at hc
      simp only [Option.map_some, Option.some.injEq, Prod.mk.injEq] at hc ⊢
      refine ⟨v, ⟨hc.1, rfl⟩, ?_, hc.2⟩
      unfold vget at hg
      cases hf : varFind s.vars n with
      | none => rw [hf] at hg; simp at hg
      | some i =>
        obtain ⟨w, hw, hn⟩ := varFind_get hf
        rw [hf, Option.bind_some, hw] at hg
        rw [← Option.some.inj hg]
        exact hn

/-- C30, variables: an identifier with no visible declaration is not found. -/
theorem undeclared_lookup {t : List Ev} {st : St} (h : run t = some st) {n : Nat}
    (hv : visible (ordinary n) t 0 = none) : scopeFind st n = none := by
  have hL : visible (objects n) t 0 =
      chainFind (fun s => (vget s.vars n).map (·.ty)) (chain st) := by
    have := visible_eq (objects n) (fun s => (vget s.vars n).map (·.ty)) (fun _ => True)
      (fun _ _ h => h) (fun _ => rfl) (fun e t st st' _ _ _ hd _ => did_objects hd n)
      trivial h 0 (Nat.zero_le _)
    simpa using this
  have hc := (visible_objects n t 0).2 hv
  rw [hL] at hc
  rw [scopeFind_eq (inv_run h)]
  generalize chain st = l at hc
  induction l with
  | nil => rfl
  | cons s ss ih =>
    unfold chainFind at hc ⊢
    cases hg : vget s.vars n with
    | none =>
      rw [hg] at hc
      simp only [Option.map_none] at hc ⊢
      exact ih hc
    | some v => rw [hg] at hc; simp at hc

/-- C30, typedef names: after any accepted history an identifier is taken for a type name
exactly when its visible declaration is a typedef, and then for the type that typedef names.
Partial: a history in which an inner block gives a new meaning, other than a complete
structure, to a name that is a type name already is excluded; see `inner_typedef_ignored`. -/
theorem typedef_lookup_partial {t : List Ev} {st : St} (h : run t = some st)
    (hk : NoRetypedef t) (n : Nat) :
    findTypedef st n =
      match visible (ordinary n) t 0 with
      | some (b, .type ty) => some (b, ty)
      | _ => none := by
  have := visible_eq (ordinary n) (meaning n) NoRetypedef (fun _ _ h => h.1) (fun _ => rfl)
    (fun e t st st' hk hr hi hd ih => did_meaning hk hr hi hd n ih) hk h 0 (Nat.zero_le _)
  rw [this, List.drop_zero]
  exact findTypedef_eq n _

/-- C30, struct and union tags: after any accepted history a tag is looked up to the visible
definition. -/
theorem struct_lookup {t : List Ev} {st : St} (h : run t = some st) (n : Nat) :
    findStruct st n = visible (structTag n) t 0 := by
  have := visible_eq (structTag n) (fun s => tget s.structs n) (fun _ => True)
    (fun _ _ h => h) (fun _ => rfl) ?_ trivial h 0 (Nat.zero_le _)
  · rw [this, List.drop_zero]
    exact findStruct_eq n _
  · intro e t st st' _ _ _ hd _
    cases hd with
    | add _ m ty v _ hor hf htd hn hty hc =>
      have hcur : cur st' = { cur st with vars := (cur st).vars ++ [v] } := by
        have := chain_cur st'
        rw [hc] at this
        exact (List.cons.inj this).1.symm
      rw [hcur]
      rcases hor with ⟨_, _, rfl⟩ | rfl <;> rfl
    | reuse _ m ty i old v' hor =>
      rw [cur_setCur]
      rcases hor with ⟨_, _, rfl⟩ | rfl <;> rfl
    | sameType => rfl
    | ignored => rfl
    | sdecl => rfl
    | typedef => rw [cur_setCur]; rfl
    | sdef m i =>
      rw [cur_setCur]
      simp only [structTag, tget]
      by_cases hmn : m = n <;> simp [hmn]
    | edef => rw [cur_setCur]; rfl

/-- C30, enum tags: after any accepted history a tag is looked up to the visible
definition. -/
theorem enum_lookup {t : List Ev} {st : St} (h : run t = some st) (n : Nat) :
    findEnum st n = (visible (enumTag n) t 0).map (·.2) := by
  have := visible_eq (enumTag n) (fun s => tget s.enums n) (fun _ => True)
    (fun _ _ h => h) (fun _ => rfl) ?_ trivial h 0 (Nat.zero_le _)
  · rw [this, List.drop_zero]
    exact findEnum_eq n _
  · intro e t st st' _ _ _ hd _
    cases hd with
    | add _ m ty v _ hor hf htd hn hty hc =>
      have hcur : cur st' = { cur st with vars := (cur st).vars ++ [v] } := by
        have := chain_cur st'
        rw [hc] at this
        exact (List.cons.inj this).1.symm
      rw [hcur]
      rcases hor with ⟨_, _, rfl⟩ | rfl <;> rfl
    | reuse _ m ty i old v' hor =>
      rw [cur_setCur]
      rcases hor with ⟨_, _, rfl⟩ | rfl <;> rfl
    | sameType => rfl
    | ignored => rfl
    | sdecl => rfl
    | typedef => rw [cur_setCur]; rfl
    | edef m i =>
      rw [cur_setCur]
      simp only [enumTag, tget]
      by_cases hmn : m = n <;> simp [hmn]
    | sdef => rw [cur_setCur]; rfl

/-! ### Non-vacuity and findings -/

/-- `int`, `long`, a structure. -/
def tInt : Ty := ⟨0, false⟩
def tLong : Ty := ⟨1, false⟩
def tStruct : Ty := ⟨2, true⟩

/-- `typedef int T1; int x2; { long T1; { long x2; typedef struct {..} T1;` (newest first):
accepted, the variable is the inner one, `T1` is the inner structure. -/
def sample : List Ev :=
  [.typedef 1 tStruct, .var 2 tLong false true, .enter, .var 1 tLong false false, .enter,
   .var 2 tInt false false, .typedef 1 tInt]

example : (run sample).isSome ∧ visible (ordinary 2) sample 0 = some (2, .object tLong) ∧
    visible (ordinary 1) sample 0 = some (2, .type tStruct) ∧
    visible (ordinary 1) (.exit :: sample) 0 = some (1, .object tLong) ∧
    visible (ordinary 3) sample 0 = none := by decide

example : NoRetypedef sample := by
  simp only [NoRetypedef, sample, and_true, true_and]
  refine ⟨⟨⟨⟨⟨⟨?_, ?_⟩, ?_⟩, ?_⟩, ?_⟩, ?_⟩, ?_⟩ <;> intro n ty h hc b u hv
  case refine_7 =>
    cases h
    simp [tStruct] at hc
  all_goals simp_all [visible]

example : (run [.sdef 5 9, .enter, .edef 6 3, .sdef 5 8]).isSome ∧
    visible (structTag 5) [.sdef 5 9, .enter, .edef 6 3, .sdef 5 8] 0 = some (1, 9) ∧
    visible (enumTag 6) [.sdef 5 9, .enter, .edef 6 3, .sdef 5 8] 0 = some (0, 3) := by decide

/-- Finding: `typedef int T; { typedef long T; T x; }` is accepted without a diagnostic, but
the inner typedef is dropped: `T` still names `int` (parser.c:161). -/
theorem inner_typedef_ignored :
    let t : List Ev := [.typedef 1 tLong, .enter, .typedef 1 tInt]
    visible (ordinary 1) t 0 = some (1, .type tLong) ∧
      (run t).map (findTypedef · 1) = some (some (0, tInt)) := by decide

/-- The same for every history: a typedef of a type that is not a complete structure, in a
block where the name already denotes a type of an enclosing scope, changes nothing. -/
theorem inner_typedef_dropped {t : List Ev} {st : St} (h : run t = some st) {n b : Nat}
    {u ty : Ty} (hd : findTypedef st n = some (b, u)) (hb : b ≠ (cur st).sid)
    (hc : ty.complete = false) : run (.typedef n ty :: t) = some st := by
  have hi := inv_run h
  simp only [run, h, Option.bind_some, step, defType, hd, if_neg hb]
  rw [if_neg, hc]
  · rfl
  · rw [scopeFind_cur hi]
    intro hv
    have htd := hi.disj _ (cur_mem st) n hv
    have : findTypedef st n = none := by
      unfold findTypedef
      change findTypedefIn (chain st) n = none
      rw [chain_cur]
      simp only [findTypedefIn, htd, hv, if_true]
    rw [this] at hd
    simp at hd

/-- Finding: a typedef name of an inner block does not hide an outer variable from
`scope_find`; using it as a variable is accepted. -/
theorem typedef_does_not_hide :
    let t : List Ev := [.typedef 1 tLong, .enter, .var 1 tInt false false]
    visible (ordinary 1) t 0 = some (1, .type tLong) ∧
      (run t).map (scopeFind · 1) = some (some (0, ⟨1, tInt, false, false⟩)) := by decide

/-- Finding: valid declarations that are rejected: an enumerator of an inner block with the
name of a global, an enum tag of an inner block with the name of an outer one, and a
tentative definition after the definition (`int x = 1; int x;`). -/
theorem valid_rejected :
    run [.enumr 1 tInt, .enter, .var 1 tInt false false] = none ∧
    run [.edef 1 5, .enter, .edef 1 4] = none ∧
    run [.var 1 tInt false false, .var 1 tInt false true] = none := by decide

/-- Finding: `struct S { .. }; { struct S; struct S *p; }`: the inner declaration of the tag
(ISO 6.7.2.3) is ignored, `p` points to the outer structure.  The body of an inner
`struct S { struct S *next; }` sees the outer structure for the same reason: the tag is only
entered after the body. -/
theorem tag_declaration_ignored (t : List Ev) (n : Nat) : run (.sdecl n :: t) = run t := by
  simp only [run, step]
  cases run t <;> rfl

end Verif.Scope

/-!
# C78: a declarator gives its identifier the type C says

`src/cc/frontend/parser_type.c` reads `int *(*f[3])(char, ...)` from the outside in, while the type must be
built from the inside out.  For a parenthesised declarator it therefore allocates a *placeholder* type
(`parse_direct_declarator` :539-563), reads the inner declarator on top of it, reads what follows the
parenthesis, and then overwrites the placeholder in place (`memcpy` :553).  Types are shared heap objects, so whether
the result is the right type is a question about aliasing: an object that was copied from the placeholder before it was overwritten is stale.

The model has a heap of type nodes.  The specification is C11 6.7.6: a declarator is a tree and its meaning a
function from the type of the specifiers to the type of the identifier (`den`), without heap and placeholders.
`declare_partial`: for all declarators, however deeply nested, the address returned denotes that type, and no type that existed before has changed.
It excludes parentheses that enclose nothing but a parenthesised declarator and are followed by `[` or `(`:
there the copy *is* stale (`double_paren_wrong`: `int ((*x))[3]` declares a pointer to `int`).

Not modelled: storage classes, `auto` types, variable-length arrays and the qualifiers and `static` in `[..]` (array sizes are numbers), the
check for structs with flexible array members; all diagnostics are `none`.
-/

namespace Verif.Declarator

/-- Qualifiers (type.h:48-52). -/
inductive Qu | const | volatile | restrict
deriving DecidableEq, Repr

/-- A set of qualifiers (`Type.qualifier`). -/
structure Qs where
  c : Bool := false
  v : Bool := false
  r : Bool := false
deriving DecidableEq, Repr

/-- `qualifier & TQ_..` -/
def Qs.has (q : Qs) : Qu → Bool
  | .const => q.c | .volatile => q.v | .restrict => q.r

/-- `qualifier | TQ_..` -/
def Qs.add (q : Qs) : Qu → Qs
  | .const => { q with c := true } | .volatile => { q with v := true } | .restrict => { q with r := true }

/-- Tokens.  `ty a` is a complete list of declaration specifiers, the type object it yields being at address `a` (`parse_raw_type`). -/
inductive Tok
  | ty (a : Nat) | qu (q : Qu) | star | lpar | rpar | lbr | rbr | num (n : Nat) | id (x : Nat) | comma | ellipsis | other (n : Nat)
deriving DecidableEq, Repr

/-- `Type` objects (type.h:82-115); `void` is `base q 0`.  References are addresses. -/
inductive Node
  | base (q : Qs) (n : Nat)
  | ptr (q : Qs) (a : Nat)
  | arr (q : Qs) (a : Nat) (n : Option Nat)
  | fn (q : Qs) (ret : Nat) (ps : Option (List Nat)) (va : Bool)
deriving DecidableEq, Repr

/-- `type->qualifier` -/
def Node.q : Node → Qs
  | .base q _ | .ptr q _ | .arr q _ _ | .fn q _ _ _ => q

/-- `*cloned = *type; cloned->qualifier = q` (type.c:325-326). -/
def Node.withQ (q : Qs) : Node → Node
  | .base _ n => .base q n | .ptr _ a => .ptr q a | .arr _ a n => .arr q a n | .fn _ r p v => .fn q r p v

/-- The heap of type objects: the address is the position. -/
abbrev Heap := List Node

/-- `consume(kind, ..)`. -/
def expect (k : Tok) : List Tok → Option (List Tok)
  | [] => none
  | x :: ts => if x = k then some ts else none

/-- `parse_pointer` (parser_type.c:396-432): `ptrof` (type.c:274) allocates, `qualified_type` (type.c:321-328) clones. -/
def pointer : Heap → Nat → List Tok → Option (Heap × Nat × List Tok)
  | h, a, .qu q :: ts =>
    match h[a]? with
    | none => none
    | some nd =>
      if nd.q.has q then none
      else pointer (h ++ [nd.withQ (nd.q.add q)]) h.length ts
  | h, a, .star :: ts => pointer (h ++ [.ptr {} a]) h.length ts
  | h, a, ts => some (h, a, ts)

/-- Is the type `void` (`type->kind == TY_VOID`)? -/
def isVoid (h : Heap) (a : Nat) : Bool :=
  match h[a]? with
  | some (.base _ 0) => true
  | _ => false

/-- Parameters of array or function type become pointers (parser_type.c:618-637, `array_to_ptr` type.c:300, `ptrof` type.c:274). -/
def adjust (h : Heap) (a : Nat) : Heap × Nat :=
  match h[a]? with
  | some (.arr _ e _) => (h ++ [.ptr {} e], h.length)
  | some (.fn ..) => (h ++ [.ptr {} a], h.length)
  | _ => (h, a)

mutual
/-- `parse_declarator` (parser_type.c:566-569): type, identifier, remaining tokens. -/
def declarator : Nat → Heap → Nat → List Tok → Option (Heap × Nat × Option Nat × List Tok)
  | 0, _, _, _ => none
  | n + 1, h, a, ts => (pointer h a ts).bind fun r => direct n r.1 r.2.1 r.2.2

/-- `parse_direct_declarator` (parser_type.c:536-564). -/
def direct : Nat → Heap → Nat → List Tok → Option (Heap × Nat × Option Nat × List Tok)
  | 0, _, _, _ => none
  | n + 1, h, a, .lpar :: ts =>
    match h[a]? with
    | none => none
    | some nd =>
      (declarator n (h ++ [nd]) h.length ts).bind fun r =>
        (expect .rpar r.2.2.2).bind fun ts =>
          (suffix n r.1 a ts).bind fun s =>
            match s.1[s.2.1]? with
            | none => none
            | some inner => some (s.1.set h.length inner, r.2.1, r.2.2.1, s.2.2)
  | n + 1, h, a, .id x :: ts => (suffix n h a ts).map fun s => (s.1, s.2.1, some x, s.2.2)
  | n + 1, h, a, ts => (suffix n h a ts).map fun s => (s.1, s.2.1, none, s.2.2)

/-- `parse_direct_declarator_suffix` (parser_type.c:471-535); a const element type marks the array const (:517-518). -/
def suffix : Nat → Heap → Nat → List Tok → Option (Heap × Nat × List Tok)
  | 0, _, _, _ => none
  | n + 1, h, a, .lbr :: .rbr :: ts =>
    (suffix n h a ts).map fun s =>
      (s.1 ++ [.arr { c := match h[a]? with | some nd => nd.q.c | none => false } s.2.1 none], s.1.length, s.2.2)
  | n + 1, h, a, .lbr :: .num k :: .rbr :: ts =>
    (suffix n h a ts).map fun s =>
      (s.1 ++ [.arr { c := match h[a]? with | some nd => nd.q.c | none => false } s.2.1 (some k)], s.1.length, s.2.2)
  | _ + 1, _, _, .lbr :: _ => none
  | n + 1, h, a, .lpar :: ts =>
    (funparams n h ts).bind fun p =>
      (suffix n p.1 a p.2.2.2).map fun s =>
        (s.1 ++ [.fn {} s.2.1 p.2.1 p.2.2.1], s.1.length, s.2.2)
  | _ + 1, h, a, ts => some (h, a, ts)

/-- `parse_funparams` (parser_type.c:571-661) after the `(`: `()` has no parameter list and counts as variadic. -/
def funparams : Nat → Heap → List Tok → Option (Heap × Option (List Nat) × Bool × List Tok)
  | 0, _, _ => none
  | _ + 1, h, .rpar :: ts => some (h, none, true, ts)
  | n + 1, h, ts => (params n h [] ts).map fun r => (r.1, some (r.2.1.map (·.2)), r.2.2.1, r.2.2.2)

/-- The loop of `parse_funparams` (parser_type.c:581-656); `vars` are the parameters so far. -/
def params : Nat → Heap → List (Option Nat × Nat) → List Tok →
    Option (Heap × List (Option Nat × Nat) × Bool × List Tok)
  | 0, _, _, _ => none
  | _ + 1, h, vars, .ellipsis :: ts => (expect .rpar ts).map fun ts => (h, vars, true, ts)
  | n + 1, h, vars, .ty a :: ts =>
    (declarator n h a ts).bind fun r => param n r.1 vars r.2.1 r.2.2.1 r.2.2.2
  | _ + 1, _, _, _ => none

/-- One parameter of type `a` and name `x` (parser_type.c:602-655). -/
def param : Nat → Heap → List (Option Nat × Nat) → Nat → Option Nat → List Tok →
    Option (Heap × List (Option Nat × Nat) × Bool × List Tok)
  | 0, _, _, _, _, _ => none
  | n + 1, h, vars, a, x, ts =>
    if isVoid h a then
      if vars.isEmpty ∧ x = none then (expect .rpar ts).map fun ts => (h, [], false, ts) else none
    else if x ≠ none ∧ x ∈ vars.map (·.1) then none
    else
      match ts with
      | .rpar :: ts => some ((adjust h a).1, vars ++ [(x, (adjust h a).2)], false, ts)
      | .comma :: ts => params n (adjust h a).1 (vars ++ [(x, (adjust h a).2)]) ts
      | _ => none
end

/-! ## Specification: C11 6.7.6 -/

/-- Types as C describes them. -/
inductive Ty
  | base (q : Qs) (n : Nat)
  | ptr (q : Qs) (t : Ty)
  | arr (t : Ty) (n : Option Nat)
  /-- Parameters and whether `...` follows; `none`: no parameter list was given. -/
  | fn (ret : Ty) (ps : Option (List Ty × Bool))

mutual
/-- Declarators: `ptrs` are the qualifiers after each `*`, then an identifier (or nothing, abstract) or a declarator in parentheses, then suffixes. -/
inductive Decl
  | id (ptrs : List (List Qu)) (x : Option Nat) (s : Sufs)
  | paren (ptrs : List (List Qu)) (d : Decl) (s : Sufs)
/-- `[n]`, `()`, `(void)`, `(parameters)`, left to right. -/
inductive Sufs
  | nil
  | arr (n : Option Nat) (s : Sufs)
  | unspec (s : Sufs)
  | void (a : Nat) (s : Sufs)
  | fn (ps : Params) (s : Sufs)
/-- Parameters: specifiers and declarator each; `...` at the end. -/
inductive Params
  | last (a : Nat) (d : Decl)
  | cons (a : Nat) (d : Decl) (ps : Params)
  | dots
end

/-- Spelling of the pointers. -/
def ptrToks : List (List Qu) → List Tok
  | [] => []
  | qs :: ps => .star :: qs.map .qu ++ ptrToks ps

mutual
/-- Spelling of a declarator (C11 6.7.6, 6.7.7). -/
def Decl.toks : Decl → List Tok
  | .id ptrs x s => ptrToks ptrs ++ (x.map Tok.id).toList ++ s.toks
  | .paren ptrs d s => ptrToks ptrs ++ .lpar :: d.toks ++ .rpar :: s.toks
/-- Spelling of suffixes. -/
def Sufs.toks : Sufs → List Tok
  | .nil => []
  | .arr none s => .lbr :: .rbr :: s.toks
  | .arr (some n) s => .lbr :: .num n :: .rbr :: s.toks
  | .unspec s => .lpar :: .rpar :: s.toks
  | .void a s => .lpar :: .ty a :: .rpar :: s.toks
  | .fn ps s => .lpar :: ps.toks ++ .rpar :: s.toks
/-- Spelling of parameters. -/
def Params.toks : Params → List Tok
  | .last a d => .ty a :: d.toks
  | .cons a d ps => .ty a :: d.toks ++ .comma :: ps.toks
  | .dots => [.ellipsis]
end

/-- The identifier declared. -/
def Decl.name : Decl → Option Nat
  | .id _ x _ => x
  | .paren _ d _ => d.name

/-- C11 6.7.6.1: each `*` makes a pointer to what is on its left, qualified as written. -/
def pts : List (List Qu) → Ty → Ty
  | [], t => t
  | qs :: ps, t => pts ps (.ptr (qs.foldl Qs.add {}) t)

/-- C11 6.7.6.3p7-8: adjustment of parameter types. -/
def adj : Ty → Ty
  | .arr t _ => .ptr {} t
  | .fn t ps => .ptr {} (.fn t ps)
  | t => t

mutual
/-- C11 6.7.6p5-6.7.6.3: the type of the identifier in `T D`, when the specifiers `T` yield `t`; `E a` is the type of the specifiers `ty a`. -/
def Decl.den (E : Nat → Ty) : Decl → Ty → Ty
  | .id ptrs _ s, t => s.den E (pts ptrs t)
  | .paren ptrs d s, t => d.den E (s.den E (pts ptrs t))
/-- Array of, function returning. -/
def Sufs.den (E : Nat → Ty) : Sufs → Ty → Ty
  | .nil, t => t
  | .arr n s, t => .arr (s.den E t) n
  | .unspec s, t => .fn (s.den E t) none
  | .void _ s, t => .fn (s.den E t) (some ([], false))
  | .fn ps s, t => .fn (s.den E t) (some (ps.types E, ps.va))
/-- Parameter types. -/
def Params.types (E : Nat → Ty) : Params → List Ty
  | .last a d => [adj (d.den E (E a))]
  | .cons a d ps => adj (d.den E (E a)) :: ps.types E
  | .dots => []
/-- Does `...` follow the parameters? -/
def Params.va : Params → Bool
  | .last .. => false
  | .cons _ _ ps => ps.va
  | .dots => true
end

/-- The type a heap object stands for (the const mark of an array object, which repeats its elements', is left out). -/
inductive Den (h : Heap) : Nat → Ty → Prop
  | base {a q n} : h[a]? = some (.base q n) → Den h a (.base q n)
  | ptr {a q b t} : h[a]? = some (.ptr q b) → Den h b t → Den h a (.ptr q t)
  | arr {a q b n t} : h[a]? = some (.arr q b n) → Den h b t → Den h a (.arr t n)
  | fnNone {a q b t} : h[a]? = some (.fn q b none true) → Den h b t → Den h a (.fn t none)
  | fn {a q b as va t ts} : h[a]? = some (.fn q b (some as) va) → Den h b t → as.length = ts.length →
      (∀ p ∈ as.zip ts, Den h p.1 p.2) → Den h a (.fn t (some (ts, va)))

/-- `void`. -/
def Ty.isVoid : Ty → Bool
  | .base _ 0 => true
  | _ => false

/-- Does the list of suffixes begin with a parenthesis? -/
def Sufs.startsFn : Sufs → Bool
  | .unspec _ | .void .. | .fn .. => true
  | _ => false

/-- No suffix. -/
def Sufs.isNil : Sufs → Bool
  | .nil => true
  | _ => false

mutual
/-- The declarators covered, in a context with specifiers `0 .. n0 - 1`.  From C11: a qualifier is not repeated after one `*`, parameters are
not `void`, parameter names differ, `(void)` names `void`, parentheses are not empty.  Because of the findings: an abstract function declarator has
a parenthesis around `*` (`abstract_fn_wrong`), and (`f = false`: the type so far is a placeholder not yet filled) no parentheses directly inside
parentheses that have a suffix (`double_paren_wrong`). -/
def Decl.ok (E : Nat → Ty) (n0 : Nat) (f : Bool) : Decl → Bool
  | .id ptrs x s => ptrs.all (fun qs => decide qs.Nodup) && s.ok E n0 && (x.isSome || !s.startsFn)
  | .paren ptrs d s => ptrs.all (fun qs => decide qs.Nodup) && s.ok E n0 && !d.toks.isEmpty &&
      (if s.isNil then (f || !ptrs.isEmpty) && d.ok E n0 true else d.ok E n0 false)
/-- See `Decl.ok`. -/
def Sufs.ok (E : Nat → Ty) (n0 : Nat) : Sufs → Bool
  | .nil => true
  | .arr _ s => s.ok E n0
  | .unspec s => s.ok E n0
  | .void a s => decide (a < n0) && (E a).isVoid && s.ok E n0
  | .fn ps s => ps.ok E n0 [] && s.ok E n0
/-- See `Decl.ok`. -/
def Params.ok (E : Nat → Ty) (n0 : Nat) (names : List (Option Nat)) : Params → Bool
  | .last a d => decide (a < n0) && d.ok E n0 true && !(d.den E (E a)).isVoid && (d.name == none || !names.contains d.name)
  | .cons a d ps => decide (a < n0) && d.ok E n0 true && !(d.den E (E a)).isVoid && (d.name == none || !names.contains d.name) &&
      ps.ok E n0 (names ++ [d.name])
  | .dots => true
end

/-- What may follow a declarator: anything but a token that continues it. -/
def stop : List Tok → Bool
  | .qu _ :: _ | .star :: _ | .lpar :: _ | .lbr :: _ | .id _ :: _ => false
  | _ => true

/-! ## Helper lemmas -/

/-- `h'` has the objects of `h`. -/
def Ext (h h' : Heap) : Prop := ∀ (x : Nat) (v : Node), h[x]? = some v → h'[x]? = some v

theorem Den.mono {h h' a t} (e : Ext h h') (d : Den h a t) : Den h' a t := by
  induction d with
  | base q => exact .base (e _ _ q)
  | ptr q _ ih => exact .ptr (e _ _ q) ih
  | arr q _ ih => exact .arr (e _ _ q) ih
  | fnNone q _ ih => exact .fnNone (e _ _ q) ih
  | fn q _ l _ ih ihs => exact .fn (e _ _ q) ih l ihs

theorem Den.copy {h a b t} (d : Den h a t) (e : h[b]? = h[a]?) : Den h b t := by
  cases d with
  | base q => exact .base (e.trans q)
  | ptr q d => exact .ptr (e.trans q) d
  | arr q d => exact .arr (e.trans q) d
  | fnNone q d => exact .fnNone (e.trans q) d
  | fn q d l ds => exact .fn (e.trans q) d l ds

/-- Later objects of `h1`, the earlier ones as in `h`. -/
def Grow (h h1 : Heap) : Prop := h.length ≤ h1.length ∧ ∀ x : Nat, x < h.length → h1[x]? = h[x]?

theorem Grow.refl (h : Heap) : Grow h h := ⟨Nat.le_refl _, fun _ _ => rfl⟩
theorem Grow.trans {a b c : Heap} (h : Grow a b) (g : Grow b c) : Grow a c :=
  ⟨Nat.le_trans h.1 g.1, fun x hx => (g.2 x (Nat.lt_of_lt_of_le hx h.1)).trans (h.2 x hx)⟩
theorem Grow.app (h : Heap) (l : List Node) : Grow h (h ++ l) :=
  ⟨by simp, fun x hx => by rw [List.getElem?_append_left hx]⟩
theorem lt_of_some {h : Heap} {x v} (e : h[x]? = some v) : x < h.length := by
  rw [List.getElem?_eq_some_iff] at e; exact e.1
theorem Grow.ext {h h1 : Heap} (g : Grow h h1) : Ext h h1 := fun x v e => by
  rw [g.2 x (lt_of_some e)]; exact e
theorem Ext.trans {a b c : Heap} (h : Ext a b) (g : Ext b c) : Ext a c := fun x v e => g x v (h x v e)

/-- `h'` has the objects that are new in `h1` with respect to `h`. -/
def New (h h1 h' : Heap) : Prop := ∀ x : Nat, h.length ≤ x → x < h1.length → h'[x]? = h1[x]?

theorem New.left {a b c h' : Heap} (g : Grow a b) (g2 : Grow b c) (n : New a c h') : New a b h' := fun x h1 h2 => by
  rw [n x h1 (Nat.lt_of_lt_of_le h2 g2.1), g2.2 x h2]
theorem New.right {a b c h' : Heap} (g : Grow a b) (n : New a c h') : New b c h' := fun x h1 h2 => n x (Nat.le_trans g.1 h1) h2
theorem New.self {h h1 : Heap} : New h h1 h1 := fun _ _ _ => rfl

/-- No pointer part can go on. -/
def noPtr : List Tok → Bool
  | .qu _ :: _ | .star :: _ => false
  | _ => true

theorem pointer_stop {h a ts} (hs : noPtr ts = true) : pointer h a ts = some (h, a, ts) := by
  cases ts with
  | nil => rfl
  | cons k ts => cases k <;> first | rfl | simp [noPtr] at hs

theorem has_add (q : Qs) (a b : Qu) : (q.add a).has b = (q.has b || decide (a = b)) := by
  cases a <;> cases b <;> simp [Qs.add, Qs.has]

theorem quals : ∀ (qs : List Qu) (h : Heap) (a x : Nat) (q : Qs) (ts), h[a]? = some (.ptr q x) → qs.Nodup →
    (∀ u ∈ qs, q.has u = false) → ∃ h1 a1, pointer h a (qs.map .qu ++ ts) = pointer h1 a1 ts ∧ Grow h h1 ∧
      h1[a1]? = some (.ptr (qs.foldl Qs.add q) x) ∧ (a1 = a ∨ h.length ≤ a1)
  | [], h, a, x, q, ts, ha, _, _ => ⟨h, a, rfl, .refl h, ha, .inl rfl⟩
  | u :: qs, h, a, x, q, ts, ha, hn, hd => by
    have hu := hd u (by simp)
    obtain ⟨h1, a1, e1, g1, e2, e3⟩ := quals qs (h ++ [.ptr (q.add u) x]) h.length x (q.add u) ts (by simp) (List.nodup_cons.mp hn).2 (by
      intro v hv
      rw [has_add, hd v (by simp [hv]), Bool.false_or]
      simp only [decide_eq_false_iff_not]
      rintro rfl
      exact (List.nodup_cons.mp hn).1 hv)
    refine ⟨h1, a1, ?_, (Grow.app _ _).trans g1, e2, .inr ?_⟩
    · rw [List.map_cons, List.cons_append, pointer]
      simp only [ha, Node.q, hu, Bool.false_eq_true, ↓reduceIte, Node.withQ]
      exact e1
    · rcases e3 with e | e
      · omega
      · simp at e; omega

theorem pointers : ∀ (ptrs : List (List Qu)) (h : Heap) (b : Nat) (ts), b < h.length → (∀ qs ∈ ptrs, qs.Nodup) → noPtr ts = true →
    ∃ h1 r, pointer h b (ptrToks ptrs ++ ts) = some (h1, r, ts) ∧ Grow h h1 ∧ r < h1.length ∧
      (∀ h' t, New h h1 h' → Den h' b t → Den h' r (pts ptrs t)) ∧ (ptrs = [] → r = b) ∧ (ptrs ≠ [] → h.length ≤ r)
  | [], h, b, ts, hb, _, hs => ⟨h, b, pointer_stop hs, .refl h, hb, fun _ _ _ d => d, fun _ => rfl, fun e => absurd rfl e⟩
  | qs :: ptrs, h, b, ts, hb, hq, hs => by
    obtain ⟨h1, a1, e1, g1, e2, e3⟩ := quals qs (h ++ [.ptr {} b]) h.length b {} (ptrToks ptrs ++ ts) (by simp)
      (hq qs (by simp)) (by intro u _; cases u <;> rfl)
    have g0 := (Grow.app h [.ptr {} b]).trans g1
    obtain ⟨h2, r, f1, g2, f2, f3, f4, f5⟩ := pointers ptrs h1 a1 ts (lt_of_some e2) (fun q hq' => hq q (by simp [hq'])) hs
    have ha : h.length ≤ a1 := by
      rcases e3 with e | e
      · omega
      · simp at e; omega
    refine ⟨h2, r, ?_, g0.trans g2, f2, ?_, fun e => (nomatch e), fun _ => ?_⟩
    · simp only [ptrToks, List.cons_append, List.append_assoc]
      rw [pointer, e1, f1]
    · intro h' t n d
      refine f3 h' _ (n.right g0) (.ptr ?_ d)
      rw [n a1 ha (Nat.lt_of_lt_of_le (lt_of_some e2) g2.1), g2.2 a1 (lt_of_some e2), e2]
    · by_cases hp : ptrs = []
      · rw [f4 hp]; exact ha
      · exact Nat.le_trans g0.1 (f5 hp)

theorem suffix_stop {n h a ts} (hs : stop ts = true) : suffix (n + 1) h a ts = some (h, a, ts) := by
  cases ts with
  | nil => simp [suffix]
  | cons k ts => cases k <;> simp [stop] at hs <;> simp [suffix]

theorem isVoid_of {h a t} (d : Den h a t) : isVoid h a = t.isVoid := by
  cases d with
  | @base a q n e => unfold isVoid; rw [e]; cases n <;> rfl
  | ptr e _ | arr e _ | fnNone e _ | fn e _ _ _ => unfold isVoid; rw [e]; rfl

theorem adjust_of {h a t} (d : Den h a t) : Grow h (adjust h a).1 ∧ (adjust h a).2 < (adjust h a).1.length ∧
    ∀ h', New h (adjust h a).1 h' → h'[a]? = h[a]? → Den h' a t → Den h' (adjust h a).2 (adj t) := by
  have hl : a < h.length := by cases d <;> rename_i e _ <;> first | exact lt_of_some e | exact lt_of_some ‹_›
  cases d with
  | base e => simp only [adjust, e]; exact ⟨.refl _, hl, fun _ _ _ d => d⟩
  | ptr e _ => simp only [adjust, e]; exact ⟨.refl _, hl, fun _ _ _ d => d⟩
  | @arr a q b n t e d' =>
    simp only [adjust, e]
    refine ⟨.app _ _, by simp, fun h' n hh d => .ptr (q := {}) (b := b) ?_ ?_⟩
    · rw [n h.length (Nat.le_refl _) (by simp)]; simp
    · cases d with
      | arr e2 d => rw [hh] at e2; cases e2; exact d
  | fnNone e d' =>
    simp only [adjust, e]
    refine ⟨.app _ _, by simp, fun h' n _ d => .ptr (q := {}) (b := a) ?_ d⟩
    rw [n h.length (Nat.le_refl _) (by simp)]; simp
  | fn e d' l ds =>
    simp only [adjust, e]
    refine ⟨.app _ _, by simp, fun h' n _ d => .ptr (q := {}) (b := a) ?_ d⟩
    rw [n h.length (Nat.le_refl _) (by simp)]; simp

section
variable (E : Nat → Ty) (h0 : Heap) (hE : ∀ a, a < h0.length → Den h0 a (E a))

/-- What is claimed of a declarator. -/
def DeclOk (d : Decl) : Prop := ∀ f n h b rest, d.ok E h0.length f = true → Ext h0 h → b < h.length → stop rest = true →
  5 * (d.toks ++ rest).length + 4 ≤ n → ∃ h1 r, declarator n h b (d.toks ++ rest) = some (h1, r, d.name, rest) ∧ Grow h h1 ∧
    r < h1.length ∧ (r = b ∨ h.length ≤ r) ∧ ∀ h' t, New h h1 h' → (f = true → h'[b]? = h[b]?) → Ext h0 h' → Den h' b t → Den h' r (d.den E t)

/-- What is claimed of suffixes. -/
def SufsOk (s : Sufs) : Prop := ∀ n h b rest, s.ok E h0.length = true → Ext h0 h → b < h.length → stop rest = true →
  5 * (s.toks ++ rest).length + 2 ≤ n → ∃ h1 r, suffix n h b (s.toks ++ rest) = some (h1, r, rest) ∧ Grow h h1 ∧
    r < h1.length ∧ (∀ h' t, New h h1 h' → Ext h0 h' → Den h' b t → Den h' r (s.den E t)) ∧
    (s.isNil = true → h1 = h ∧ r = b) ∧ (s.isNil = false → h.length ≤ r)

/-- What is claimed of parameters. -/
def ParamsOk (ps : Params) : Prop := ∀ n h vars rest, ps.ok E h0.length (vars.map (·.1)) = true → Ext h0 h →
  5 * (ps.toks ++ .rpar :: rest).length + 1 ≤ n → ∃ h1 new, params n h vars (ps.toks ++ .rpar :: rest) = some (h1, vars ++ new, ps.va, rest) ∧
    Grow h h1 ∧ new.length = (ps.types E).length ∧
    ∀ h', New h h1 h' → Ext h0 h' → ∀ p ∈ (new.map (·.2)).zip (ps.types E), Den h' p.1 p.2

theorem stop_rpar (ts) : stop (.rpar :: ts) = true := rfl
theorem stop_comma (ts) : stop (.comma :: ts) = true := rfl

theorem noPtr_of_stop {ts} (h : stop ts = true) : noPtr ts = true := by
  cases ts with
  | nil => rfl
  | cons k ts => cases k <;> first | rfl | simp [stop] at h

theorem noPtr_sufs (s : Sufs) {rest} (h : stop rest = true) : noPtr (s.toks ++ rest) = true := by
  cases s with
  | nil => exact noPtr_of_stop h
  | arr n s => cases n <;> rfl
  | _ => rfl

theorem direct_none {n h a ts} (h1 : ∀ t, ts ≠ .lpar :: t) (h2 : ∀ x t, ts ≠ .id x :: t) :
    direct (n + 1) h a ts = (suffix n h a ts).map fun s => (s.1, s.2.1, none, s.2.2) := by
  rw [direct]
  · intro t e; exact h1 t e
  · intro x t e; exact h2 x t e

include hE in
mutual
theorem decl_ok : ∀ d : Decl, DeclOk E h0 d
  | .id ptrs x s => by
    intro f n h b rest hok hx hb hs hn
    simp only [Decl.ok, Bool.and_eq_true, List.all_eq_true, decide_eq_true_eq] at hok
    obtain ⟨⟨hp, hsok⟩, habs⟩ := hok
    obtain ⟨n, rfl⟩ : ∃ k, n = k + 2 := ⟨n - 2, by omega⟩
    simp only [Decl.toks, List.append_assoc, List.length_append] at hn ⊢
    have hnp : noPtr ((x.map Tok.id).toList ++ (s.toks ++ rest)) = true := by
      cases x with
      | none => exact noPtr_sufs s hs
      | some x => rfl
    obtain ⟨h1, r1, e1, g1, l1, d1, a1, a2⟩ := pointers ptrs h b _ hb hp hnp
    obtain ⟨h2, r2, e2, g2, l2, d2, n1, n2⟩ := sufs_ok s n h1 r1 rest hsok (hx.trans g1.ext) l1 hs (by simp; omega)
    refine ⟨h2, r2, ?_, g1.trans g2, l2, ?_, ?_⟩
    · rw [declarator, e1, Option.bind_some]
      cases x with
      | none =>
        simp only [Option.map_none, Option.toList_none, List.nil_append]
        rw [direct_none, e2]
        · rfl
        · intro t e
          simp only [Option.isSome_none, Bool.false_or, Bool.not_eq_true'] at habs
          cases s with
          | nil => rw [Sufs.toks, List.nil_append] at e; rw [e] at hs; cases hs
          | arr n s => cases n <;> simp [Sufs.toks] at e
          | _ => simp [Sufs.startsFn] at habs
        · intro y t e
          cases s with
          | nil => rw [Sufs.toks, List.nil_append] at e; rw [e] at hs; cases hs
          | arr n s => cases n <;> simp [Sufs.toks] at e
          | _ => simp [Sufs.toks] at e
      | some x =>
        simp only [Option.map_some, Option.toList_some, List.cons_append, List.nil_append]
        rw [direct, e2]
        rfl
    · by_cases hnil : s.isNil = true
      · rw [(n1 hnil).2]
        by_cases hpt : ptrs = []
        · exact .inl (a1 hpt)
        · exact .inr (a2 hpt)
      · exact .inr (Nat.le_trans g1.1 (n2 (by simpa using hnil)))
    · intro h' t nw _ hx' d
      exact d2 h' _ (nw.right g1) hx' (d1 h' t (nw.left g1 g2) d)
  | .paren ptrs d s => by
    intro f n h b rest hok hx hb hs hn
    simp only [Decl.ok, Bool.and_eq_true, List.all_eq_true, decide_eq_true_eq] at hok
    obtain ⟨⟨⟨hp, hsok⟩, hne⟩, hok⟩ := hok
    obtain ⟨n, rfl⟩ : ∃ k, n = k + 2 := ⟨n - 2, by omega⟩
    simp only [Decl.toks, List.append_assoc, List.cons_append, List.length_append, List.length_cons] at hn ⊢
    obtain ⟨h1, r1, e1, g1, l1, d1, a1, a2⟩ := pointers ptrs h b (.lpar :: (d.toks ++ .rpar :: (s.toks ++ rest))) hb hp rfl
    obtain ⟨nd, hnd⟩ : ∃ nd, h1[r1]? = some nd := ⟨_, List.getElem?_eq_getElem l1⟩
    have gp : Grow h1 (h1 ++ [nd]) := .app _ _
    -- the inner declarator on the placeholder
    let m : Bool := s.isNil
    have hdok : d.ok E h0.length m = true := by
      by_cases hnil : s.isNil = true
      · simp only [m, hnil, if_true, Bool.and_eq_true] at hok ⊢; exact hok.2
      · simp only [m, hnil] at hok ⊢; simpa using hok
    obtain ⟨h2, r2, e2, g2, l2, q2, d2⟩ := decl_ok d m n (h1 ++ [nd]) h1.length (.rpar :: (s.toks ++ rest)) hdok
      ((hx.trans g1.ext).trans gp.ext) (by simp) rfl (by simp; omega)
    have g12 := gp.trans g2
    obtain ⟨h3, r3, e3, g3, l3, d3, n1, n2⟩ := sufs_ok s n h2 r1 rest hsok (((hx.trans g1.ext).trans gp.ext).trans g2.ext)
      (Nat.lt_of_lt_of_le l1 g12.1) hs (by simp; omega)
    obtain ⟨inner, hin⟩ : ∃ v, h3[r3]? = some v := ⟨_, List.getElem?_eq_getElem l3⟩
    have g13 := g12.trans g3
    have hph2 : h1.length < h2.length := Nat.lt_of_lt_of_le (by simp) g2.1
    have hph : h1.length < h3.length := Nat.lt_of_lt_of_le hph2 g3.1
    have hset : Grow h1 (h3.set h1.length inner) := by
      refine ⟨by simp; omega, fun x hxl => ?_⟩
      rw [List.getElem?_set_ne (by omega), g13.2 x hxl]
    refine ⟨h3.set h1.length inner, r2, ?_, g1.trans hset, by simp; exact Nat.lt_of_lt_of_le l2 g3.1, .inr ?_, ?_⟩
    · rw [declarator, e1, Option.bind_some]
      simp only
      rw [direct]
      simp only [hnd]
      rw [e2, Option.bind_some]
      simp only [expect, ↓reduceIte, Option.bind_some]
      rw [e3, Option.bind_some]
      simp only [hin]
      rfl
    · have : h.length ≤ h1.length := g1.1
      rcases q2 with q | q
      · omega
      · simp at q; omega
    · intro h' t nw hf hx' dn
      -- the objects of `h'`
      have nw1 : New h1 (h3.set h1.length inner) h' := nw.right g1
      have at_ph : h'[h1.length]? = some inner := by
        rw [nw1 h1.length (Nat.le_refl _) (by simp; exact hph), List.getElem?_set_self hph]
      have at_new : ∀ x, h1.length < x → x < h3.length → h'[x]? = h3[x]? := fun x x1 x2 => by
        rw [nw1 x (by omega) (by simpa using x2), List.getElem?_set_ne (by omega)]
      have db : Den h' r1 (pts ptrs t) := d1 h' t (nw.left g1 hset) dn
      have ds : Den h' r3 (s.den E (pts ptrs t)) := d3 h' _ (fun x x1 x2 => at_new x (by omega) x2) hx' db
      have hb1 : ptrs ≠ [] → h'[r1]? = some nd := fun hpt => by
        rw [nw r1 (a2 hpt) (by simp; omega), List.getElem?_set_ne (by omega), g13.2 r1 l1, hnd]
      -- the object copied into the placeholder is still the same
      have hinner : h'[r3]? = some inner := by
        by_cases hnil : s.isNil = true
        · obtain ⟨rfl, rfl⟩ := n1 hnil
          have hi : inner = nd := by
            have := g13.2 r3 l1
            rw [hin, hnd] at this
            exact Option.some.inj this
          by_cases hpt : ptrs = []
          · have hft : f = true := by simpa [hnil, hpt] using (show (f || !ptrs.isEmpty) = true by
              simp only [hnil, if_true, Bool.and_eq_true] at hok; exact hok.1)
            have hr : r3 = b := a1 hpt
            rw [hr] at hin ⊢
            rw [hf hft, ← g1.2 b hb, ← hr, hnd, hi]
          · rw [hb1 hpt, hi]
        · have := n2 (by simpa using hnil)
          rw [at_new r3 (by omega) l3, hin]
      have dph : Den h' h1.length (s.den E (pts ptrs t)) := ds.copy (at_ph.trans hinner.symm)
      refine d2 h' _ ?_ ?_ hx' dph
      · intro x x1 x2
        simp at x1
        rw [at_new x (by omega) (Nat.lt_of_lt_of_le x2 g3.1), g3.2 x x2]
      · intro hm
        obtain ⟨e1', e2'⟩ := n1 hm
        subst e1' e2'
        rw [at_ph]
        have := g13.2 r3 l1
        rw [hin, hnd] at this
        rw [this]
        simp
theorem sufs_ok : ∀ s : Sufs, SufsOk E h0 s
  | .nil => by
    intro n h b rest _ _ hb hs hn
    obtain ⟨n, rfl⟩ : ∃ k, n = k + 1 := ⟨n - 1, by omega⟩
    exact ⟨h, b, suffix_stop hs, .refl h, hb, fun _ _ _ _ d => d, fun _ => ⟨rfl, rfl⟩, fun e => (nomatch e)⟩
  | .arr k s => by
    intro n h b rest hok hx hb hs hn
    obtain ⟨n, rfl⟩ : ∃ k, n = k + 1 := ⟨n - 1, by omega⟩
    rw [Sufs.ok] at hok
    have hl : 5 * (s.toks ++ rest).length + 2 ≤ n := by
      cases k <;> simp [Sufs.toks] at hn ⊢ <;> omega
    obtain ⟨h1, r, e1, g1, l1, d1, _, _⟩ := sufs_ok s n h b rest hok hx hb hs hl
    refine ⟨h1 ++ [.arr { c := match h[b]? with | some nd => nd.q.c | none => false } r k], h1.length, ?_, g1.trans (.app _ _), by simp, ?_,
      fun e => (nomatch e), fun _ => g1.1⟩
    · cases k <;> simp only [Sufs.toks, List.cons_append] <;> rw [suffix, e1] <;> rfl
    · intro h' t nw hx' d
      refine .arr (b := r) (q := { c := match h[b]? with | some nd => nd.q.c | none => false }) ?_ (d1 h' t (nw.left g1 (.app _ _)) hx' d)
      rw [nw h1.length g1.1 (by simp)]; simp
  | .unspec s => by
    intro n h b rest hok hx hb hs hn
    obtain ⟨n, rfl⟩ : ∃ k, n = k + 2 := ⟨n - 2, by omega⟩
    rw [Sufs.ok] at hok
    obtain ⟨h1, r, e1, g1, l1, d1, _, _⟩ := sufs_ok s (n + 1) h b rest hok hx hb hs (by simp [Sufs.toks] at hn ⊢; omega)
    refine ⟨h1 ++ [.fn {} r none true], h1.length, ?_, g1.trans (.app _ _), by simp, ?_, fun e => (nomatch e), fun _ => g1.1⟩
    · simp only [Sufs.toks, List.cons_append]
      rw [suffix, funparams, Option.bind_some]
      simp only
      rw [e1]; rfl
    · intro h' t nw hx' d
      refine .fnNone (b := r) (q := {}) ?_ (d1 h' t (nw.left g1 (.app _ _)) hx' d)
      rw [nw h1.length g1.1 (by simp)]; simp
  | .void a s => by
    intro n h b rest hok hx hb hs hn
    obtain ⟨n, rfl⟩ : ∃ k, n = k + 6 := ⟨n - 6, by simp [Sufs.toks] at hn; omega⟩
    simp only [Sufs.ok, Bool.and_eq_true, decide_eq_true_eq] at hok
    obtain ⟨⟨ha, hv⟩, hok⟩ := hok
    obtain ⟨h1, r, e1, g1, l1, d1, _, _⟩ := sufs_ok s (n + 5) h b rest hok hx hb hs (by simp [Sufs.toks] at hn ⊢; omega)
    have hvoid : isVoid h a = true := by rw [isVoid_of ((hE a ha).mono hx), hv]
    refine ⟨h1 ++ [.fn {} r (some []) false], h1.length, ?_, g1.trans (.app _ _), by simp, ?_, fun e => (nomatch e), fun _ => g1.1⟩
    · simp only [Sufs.toks, List.cons_append]
      rw [suffix]
      have : funparams (n + 5) h (.ty a :: .rpar :: (s.toks ++ rest)) = some (h, some [], false, s.toks ++ rest) := by
        simp [funparams, params, declarator, pointer_stop (show noPtr (.rpar :: (s.toks ++ rest)) = true from rfl),
          direct_none, suffix_stop (stop_rpar (s.toks ++ rest)), param, hvoid, expect]
      rw [this, Option.bind_some]
      simp only
      rw [e1]; rfl
    · intro h' t nw hx' d
      refine .fn (b := r) (q := {}) (as := []) ?_ (d1 h' t (nw.left g1 (.app _ _)) hx' d) rfl (by simp)
      rw [nw h1.length g1.1 (by simp)]; simp
  | .fn ps s => by
    intro n h b rest hok hx hb hs hn
    obtain ⟨n, rfl⟩ : ∃ k, n = k + 2 := ⟨n - 2, by omega⟩
    simp only [Sufs.ok, Bool.and_eq_true] at hok
    simp only [Sufs.toks, List.cons_append, List.append_assoc, List.length_cons, List.length_append] at hn ⊢
    obtain ⟨h1, new, e1, g1, l1, d1⟩ := params_ok ps n h [] (s.toks ++ rest) (by simpa using hok.1) hx (by simp; omega)
    obtain ⟨h2, r, e2, g2, l2, d2, _, _⟩ := sufs_ok s (n + 1) h1 b rest hok.2 (hx.trans g1.ext) (Nat.lt_of_lt_of_le hb g1.1) hs (by simp; omega)
    refine ⟨h2 ++ [.fn {} r (some (new.map (·.2))) ps.va], h2.length, ?_, (g1.trans g2).trans (.app _ _), by simp, ?_,
      fun e => (nomatch e), fun _ => (g1.trans g2).1⟩
    · rw [suffix]
      have : funparams (n + 1) h (ps.toks ++ .rpar :: (s.toks ++ rest)) = some (h1, some (new.map (·.2)), ps.va, s.toks ++ rest) := by
        rw [funparams, e1]
        · simp
        · intro t e
          cases ps <;> simp [Params.toks] at e
      rw [this, Option.bind_some]
      simp only
      rw [e2]; rfl
    · intro h' t nw hx' d
      refine .fn (b := r) (q := {}) (as := new.map (·.2)) ?_ (d2 h' t ((nw.left (g1.trans g2) (.app _ _)).right g1) hx' d) (by simpa using l1) ?_
      · rw [nw h2.length (g1.trans g2).1 (by simp)]; simp
      · exact d1 h' (nw.left g1 (g2.trans (.app _ _))) hx'
theorem params_ok : ∀ ps : Params, ParamsOk E h0 ps
  | .dots => by
    intro n h vars rest _ _ hn
    obtain ⟨n, rfl⟩ : ∃ k, n = k + 1 := ⟨n - 1, by omega⟩
    exact ⟨h, [], by simp [Params.toks, params, expect, Params.va], .refl h, rfl, by simp⟩
  | .last a d => by
    intro n h vars rest hok hx hn
    obtain ⟨n, rfl⟩ : ∃ k, n = k + 2 := ⟨n - 2, by simp [Params.toks] at hn; omega⟩
    simp only [Params.ok, Bool.and_eq_true, decide_eq_true_eq, Bool.not_eq_true'] at hok
    obtain ⟨⟨⟨ha, hd⟩, hv⟩, hnm⟩ := hok
    simp only [Params.toks, List.cons_append, List.length_cons] at hn ⊢
    have hal : a < h.length := by
      have := hx a _ (List.getElem?_eq_getElem ha); exact lt_of_some this
    obtain ⟨h1, r, e1, g1, l1, q1, d1⟩ := decl_ok d true (n + 1) h a (.rpar :: rest) hd hx hal rfl (by omega)
    have hnm' : ¬(d.name ≠ none ∧ d.name ∈ vars.map (·.1)) := by
      rintro ⟨p1, p2⟩
      rcases Bool.or_eq_true_iff.mp hnm with q | q
      · exact p1 (by simpa using q)
      · simp only [Bool.not_eq_true', List.contains_eq_mem, decide_eq_false_iff_not] at q
        exact q p2
    have dh : Den h1 r (d.den E (E a)) := d1 h1 _ .self (fun _ => g1.2 a hal) (hx.trans g1.ext) ((hE a ha).mono (hx.trans g1.ext))
    obtain ⟨ga, la, da⟩ := adjust_of dh
    refine ⟨(adjust h1 r).1, [(d.name, (adjust h1 r).2)], ?_, g1.trans ga, rfl, ?_⟩
    · rw [params, e1, Option.bind_some]
      simp only
      rw [param, if_neg (by rw [isVoid_of dh, hv]; simp), if_neg hnm']
      rfl
    · intro h' nw hx' p hp
      simp only [List.map_cons, List.map_nil, Params.types, List.zip_cons_cons, List.zip_nil_right, List.mem_singleton] at hp
      subst hp
      have e : h'[r]? = h1[r]? := by
        rcases q1 with rfl | q
        · rw [g1.2 r hal, hx' r _ (List.getElem?_eq_getElem ha), hx r _ (List.getElem?_eq_getElem ha)]
        · exact (nw.left g1 ga) r q l1
      refine da h' (nw.right g1) e (d1 h' _ (nw.left g1 ga) (fun _ => ?_) hx' ((hE a ha).mono hx'))
      rw [hx' a _ (List.getElem?_eq_getElem ha), hx a _ (List.getElem?_eq_getElem ha)]
  | .cons a d ps => by
    intro n h vars rest hok hx hn
    obtain ⟨n, rfl⟩ : ∃ k, n = k + 2 := ⟨n - 2, by simp [Params.toks] at hn; omega⟩
    simp only [Params.ok, Bool.and_eq_true, decide_eq_true_eq, Bool.not_eq_true'] at hok
    obtain ⟨⟨⟨⟨ha, hd⟩, hv⟩, hnm⟩, hps⟩ := hok
    simp only [Params.toks, List.cons_append, List.append_assoc, List.length_cons] at hn ⊢
    have hal : a < h.length := by
      have := hx a _ (List.getElem?_eq_getElem ha); exact lt_of_some this
    obtain ⟨h1, r, e1, g1, l1, q1, d1⟩ := decl_ok d true (n + 1) h a (.comma :: (ps.toks ++ .rpar :: rest)) hd hx hal rfl (by omega)
    have hnm' : ¬(d.name ≠ none ∧ d.name ∈ vars.map (·.1)) := by
      rintro ⟨p1, p2⟩
      rcases Bool.or_eq_true_iff.mp hnm with q | q
      · exact p1 (by simpa using q)
      · simp only [Bool.not_eq_true', List.contains_eq_mem, decide_eq_false_iff_not] at q
        exact q p2
    have dh : Den h1 r (d.den E (E a)) := d1 h1 _ .self (fun _ => g1.2 a hal) (hx.trans g1.ext) ((hE a ha).mono (hx.trans g1.ext))
    obtain ⟨ga, la, da⟩ := adjust_of dh
    obtain ⟨h2, new, e2, g2, l2, d2⟩ := params_ok ps n (adjust h1 r).1 (vars ++ [(d.name, (adjust h1 r).2)]) rest (by simpa using hps)
      ((hx.trans g1.ext).trans ga.ext) (by simp at hn ⊢; omega)
    refine ⟨h2, (d.name, (adjust h1 r).2) :: new, ?_, (g1.trans ga).trans g2, by simp [Params.types, l2], ?_⟩
    · rw [params, e1, Option.bind_some]
      simp only
      rw [param, if_neg (by rw [isVoid_of dh, hv]; simp), if_neg hnm']
      rw [e2]
      simp [Params.va]
    · intro h' nw hx' p hp
      simp only [List.map_cons, Params.types, List.zip_cons_cons, List.mem_cons] at hp
      rcases hp with rfl | hp
      · have nw1 := nw.left g1 (ga.trans g2)
        have e : h'[r]? = h1[r]? := by
          rcases q1 with rfl | q
          · rw [g1.2 r hal, hx' r _ (List.getElem?_eq_getElem ha), hx r _ (List.getElem?_eq_getElem ha)]
          · exact nw1 r q l1
        refine da h' ((nw.left (g1.trans ga) g2).right g1) e (d1 h' _ nw1 (fun _ => ?_) hx' ((hE a ha).mono hx'))
        rw [hx' a _ (List.getElem?_eq_getElem ha), hx a _ (List.getElem?_eq_getElem ha)]
      · exact d2 h' (nw.right (g1.trans ga)) hx' p hp
end

end

/-! ## The property -/

/-- `parse_declarator` with a recursion bound that is not reached. -/
def declare (h : Heap) (b : Nat) (ts : List Tok) : Option (Heap × Nat × Option Nat × List Tok) :=
  declarator (5 * ts.length + 4) h b ts

/-- **Every declarator gives its identifier the type C says, and changes no other type.**  `h0` holds the types of the specifiers,
`h` is any heap that has them, and the specifiers of this declaration yield `b`.
Partial: see `Decl.ok`. -/
theorem declare_partial (E : Nat → Ty) (h0 h : Heap) (hE : ∀ a, a < h0.length → Den h0 a (E a)) (hx : Ext h0 h) (d : Decl) (b : Nat) (t : Ty)
    (hb : Den h b t) (hok : d.ok E h0.length true = true) (rest : List Tok) (hs : stop rest = true) :
    ∃ h1 r, declare h b (d.toks ++ rest) = some (h1, r, d.name, rest) ∧ Den h1 r (d.den E t) ∧
      ∀ a u, Den h a u → Den h1 a u := by
  have hl : b < h.length := by cases hb <;> rename_i e _ <;> first | exact lt_of_some e | exact lt_of_some ‹_›
  obtain ⟨h1, r, e, g, _, _, dn⟩ := decl_ok E h0 hE d true _ h b rest hok hx hl hs (Nat.le_refl _)
  exact ⟨h1, r, e, dn h1 t .self (fun _ => g.2 b hl) (hx.trans g.ext) (hb.mono g.ext), fun a u d => d.mono g.ext⟩

/-- What an object stands for is determined by the heap. -/
theorem den_unique {h a t u} (x : Den h a t) (y : Den h a u) : t = u := by
  induction x generalizing u with
  | base e => cases y <;> rename_i e2 <;> simp_all
  | ptr e _ ih =>
    cases y with
    | ptr e2 d => rw [e] at e2; cases e2; rw [ih d]
    | base e2 | arr e2 | fnNone e2 | fn e2 => rw [e] at e2; cases e2
  | arr e _ ih =>
    cases y with
    | arr e2 d => rw [e] at e2; cases e2; rw [ih d]
    | base e2 | ptr e2 | fnNone e2 | fn e2 => rw [e] at e2; cases e2
  | fnNone e _ ih =>
    cases y with
    | fnNone e2 d => rw [e] at e2; cases e2; rw [ih d]
    | base e2 | ptr e2 | arr e2 | fn e2 => rw [e] at e2; cases e2
  | @fn a q b as va t ts e _ l _ ih ihs =>
    cases y with
    | fn e2 d l2 ds =>
      rw [e] at e2; cases e2
      rw [ih d]
      rename_i us
      have : ts = us := by
        refine List.ext_getElem (by omega) (fun i i1 i2 => ?_)
        have m1 : (as[i]'(by omega), ts[i]) ∈ as.zip ts := List.mem_iff_getElem.mpr ⟨i, by simp; omega, by simp⟩
        have m2 : (as[i]'(by omega), us[i]) ∈ as.zip us := List.mem_iff_getElem.mpr ⟨i, by simp; omega, by simp⟩
        exact ihs _ m1 (ds _ m2)
      rw [this]
    | base e2 | ptr e2 | arr e2 | fnNone e2 => rw [e] at e2; cases e2

/-- The specifiers `void`, `int`, `char const`. -/
def exHeap : Heap := [.base {} 0, .base {} 1, .base { c := true } 2]
def exE : Nat → Ty
  | 0 => .base {} 0
  | 1 => .base {} 1
  | _ => .base { c := true } 2

/-- `void (*signal(int sig, void (*func)(int)))(int)` meets the hypotheses. -/
def exSignal : Decl :=
  .paren [] (.id [[]] (some 5) (.fn (.cons 1 (.id [] (some 6) .nil)
    (.last 0 (.paren [] (.id [[]] (some 7) .nil) (.fn (.last 1 (.id [] none .nil)) .nil)))) .nil)) (.fn (.last 1 (.id [] none .nil)) .nil)

example : exSignal.ok exE 3 true = true ∧ Den exHeap 0 (exE 0) ∧ (∀ a, a < exHeap.length → Den exHeap a (exE a)) ∧ stop [.other 0] = true := by
  refine ⟨by decide, .base rfl, ?_, rfl⟩
  intro a ha
  match a, ha with
  | 0, _ => exact .base rfl
  | 1, _ => exact .base rfl
  | 2, _ => exact .base rfl

/-- Its type: function of (int, pointer to function of (int) returning void) returning pointer to function of (int) returning void. -/
example : exSignal.den exE (exE 0) =
    .fn (.ptr {} (.fn (.base {} 0) (some ([.base {} 1], false))))
      (some ([.base {} 1, .ptr {} (.fn (.base {} 0) (some ([.base {} 1], false)))], false)) := rfl

/-- `char const *const (*x[3])[4]`. -/
example : (Decl.paren [[.const]] (.id [[]] (some 1) (.arr (some 3) .nil)) (.arr (some 4) .nil)).ok exE 3 true = true := by decide

/-! ## Findings -/

/-- **Finding.** In `int ((*x))[3]` the inner placeholder is a copy of the outer one, taken before the outer one becomes the array
(parser_type.c:543, 552-553): `x` is a pointer to `int`, C says pointer to array of 3 `int`. -/
theorem double_paren_wrong :
    let d : Decl := .paren [] (.paren [] (.id [[]] (some 1) .nil) .nil) (.arr (some 3) .nil)
    ∃ h1 r, declare exHeap 1 (d.toks ++ [.other 0]) = some (h1, r, some 1, [.other 0]) ∧
      Den h1 r (.ptr {} (.base {} 1)) ∧ d.den exE (exE 1) = .ptr {} (.arr (.base {} 1) (some 3)) := by
  refine ⟨exHeap ++ [.arr {} 1 (some 3), .base {} 1, .ptr {} 4, .arr {} 1 (some 3)], 5, by decide +kernel, ?_, rfl⟩
  exact .ptr (b := 4) rfl (.base rfl)

/-- **Finding.** `int ((f))(void)` declares an `int`, not a function. -/
theorem double_paren_fn_wrong :
    let d : Decl := .paren [] (.paren [] (.id [] (some 1) .nil) .nil) (.void 0 .nil)
    ∃ h1 r, declare exHeap 1 (d.toks ++ [.other 0]) = some (h1, r, some 1, [.other 0]) ∧
      Den h1 r (.base {} 1) ∧ d.den exE (exE 1) = .fn (.base {} 1) (some ([], false)) := by
  refine ⟨exHeap ++ [.fn {} 1 (some []) false, .base {} 1, .fn {} 1 (some []) false], 4, by decide +kernel, ?_, rfl⟩
  exact .base rfl

/-- **Finding.** Abstract function declarators: the type name `int ()` is read as `int`, `int (int)` is refused
(parser_type.c:538 takes the parenthesis for one around a declarator). -/
theorem abstract_fn_wrong :
    (∃ h1 r, declare exHeap 1 ((Decl.id [] none (.unspec .nil)).toks ++ [.other 0]) = some (h1, r, none, [.other 0]) ∧ Den h1 r (.base {} 1)) ∧
    (Decl.id [] none (.unspec .nil)).den exE (exE 1) = .fn (.base {} 1) none ∧
    declare exHeap 1 ((Decl.id [] none (.fn (.last 1 (.id [] none .nil)) .nil)).toks ++ [.other 0]) = none :=
  ⟨⟨exHeap ++ [.base {} 1], 3, by decide +kernel, .base rfl⟩, rfl, by decide +kernel⟩
/-- **Finding.** A repeated qualifier, which C allows (6.7.3p5), is refused. -/
theorem repeated_qualifier_wrong : declare exHeap 1 [.star, .qu .const, .qu .const, .id 1, .other 0] = none ∧
    (declare exHeap 1 [.star, .qu .const, .id 1, .other 0]).isSome = true := ⟨by decide +kernel, by decide +kernel⟩

/-- A parameter of type `void` that has a name, or comes after another parameter, is refused whatever follows (6.7.6.3p10). -/
theorem void_param_refused (n : Nat) (h : Heap) (vars : List (Option Nat × Nat)) (a : Nat) (x : Option Nat) (ts : List Tok) (hv : isVoid h a = true)
    (hb : vars ≠ [] ∨ x ≠ none) : param n h vars a x ts = none := by
  cases n with
  | zero => simp [param]
  | succ n =>
    have : ¬ (vars.isEmpty = true ∧ x = none) := by
      rintro ⟨h1, h2⟩
      rcases hb with hb | hb
      · exact hb (by simpa using h1)
      · exact hb h2
    unfold param
    split <;> simp only [hv, if_true, if_neg this]

example : isVoid exHeap 0 = true ∧ declare exHeap 1 [.id 1, .lpar, .ty 1, .comma, .ty 0, .rpar, .other 0] = none := ⟨by decide, by decide +kernel⟩

end Verif.Declarator

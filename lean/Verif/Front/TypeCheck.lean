/-!
# C87: which conversions the compiler accepts

`same_type_without_qualifier` and `can_cast` (src/cc/frontend/type.c:386-541),
`check_cast` (src/cc/frontend/fe_misc.c:322-344) and the checks of an
assignment (src/cc/frontend/parser_expr.c:522-556), against compatibility of
types (C11 6.2.7), simple assignment (6.5.16.1) and casts (6.5.4).
-/

namespace Verif.TypeCheck

/-! ## Types -/

/-- Qualifiers, src/cc/frontend/type.h:47-52. -/
structure Q where
  c : Bool := false
  v : Bool := false
  r : Bool := false
  deriving DecidableEq, Repr

/-- `enum FixnumKind`, src/cc/frontend/type.h:17-25, with the enumeration. -/
inductive FK where
  | char | short | int | long | llong | enum (tag : Nat) | bool
  deriving DecidableEq, Repr

/-- `enum FlonumKind`, src/cc/frontend/type.h:29-33. -/
inductive LK where
  | float | double | ldouble
  deriving DecidableEq, Repr

/-- `Type`, src/cc/frontend/type.h:82-115.  A structure or union type has an
identity; `complete` says whether the type object has its `info`, which is then
the one of that identity.  `proto` is `params != NULL`. -/
inductive Ty where
  | void (q : Q)
  | fix (q : Q) (k : FK) (uns : Bool)
  | flo (q : Q) (k : LK)
  | ptr (q : Q) (t : Ty)
  | arr (q : Q) (len : Int) (t : Ty)
  | func (q : Q) (ret : Ty) (proto : Bool) (ps : List Ty) (va : Bool)
  | struct (q : Q) (id : Nat) (complete : Bool)

/-- The field `qualifier`, src/cc/frontend/type.h:84. -/
def Ty.q : Ty → Q
  | .void q | .fix q _ _ | .flo q _ | .ptr q _ | .arr q _ _ | .func q .. | .struct q _ _ => q

/-! ## Model -/

/-- The comparison of `fixnum.kind`, src/cc/frontend/type.c:402. -/
def sameFK : FK → FK → Bool
  | .enum _, .enum _ => true
  | a, b => decide (a = b)

/-- The test on qualifiers, src/cc/frontend/type.c:392,395. -/
def sameQ (ign : Bool) (a b : Q) : Bool := ign || decide (a.c = b.c)

mutual
/-- `same_type_without_qualifier`, src/cc/frontend/type.c:391-442.  `tag` gives
the name of a structure type. -/
def same (tag : Nat → Option Nat) : Bool → Ty → Ty → Bool
  | ign, .void q, .void q' => sameQ ign q q'
  | ign, .fix q k u, .fix q' k' u' => sameQ ign q q' && (sameFK k k' && decide (u = u'))
  | ign, .flo q k, .flo q' k' => sameQ ign q q' && decide (k = k')
  | ign, .ptr q t, .ptr q' t' => sameQ ign q q' && same tag ign t t'
  | ign, .arr q n t, .arr q' n' t' =>
    sameQ ign q q' && (!(decide (n ≠ n') && (decide (0 ≤ n) && decide (0 ≤ n'))) && same tag ign t t')
  | ign, .func q r p ps v, .func q' r' p' ps' v' =>
    sameQ ign q q' && (same tag true r r' && (decide (v = v') &&
      (if p = false ∧ p' = false then true
       else if p = false ∨ p' = false then false
       else sameL tag ps ps')))
  | ign, .struct q i c, .struct q' i' c' =>
    sameQ ign q q' && (if c = true ∧ c' = true then decide (i = i')
      else match tag i, tag i' with
        | some n, some n' => decide (n = n')
        | _, _ => false)
  | _, _, _ => false
/-- The parameters, src/cc/frontend/type.c:386-389,421-429. -/
def sameL (tag : Nat → Option Nat) : List Ty → List Ty → Bool
  | [], [] => true
  | a :: as, b :: bs => same tag true a b && sameL tag as bs
  | _, _ => false
end

/-- The case of a function converted to a pointer, src/cc/frontend/type.c:504-520. -/
def funcToPtr (tag : Nat → Option Nat) (expl : Bool) (dt : Ty) (src : Ty) : Bool :=
  if expl then true else
  match dt, src with
  | .func q r p ps v, .func q' r' p' ps' v' =>
    same tag false (.func q r p ps v) (.func q' r' p' ps' v') ||
      (same tag false r r' && (!p || !p'))
  | .void _, _ => true
  | _, _ => false

/-- The case of a pointer or an array converted to a pointer,
src/cc/frontend/type.c:489-503.  The inner `can_cast` of line 502 has a function
as its source: lines 445-451 do nothing then. -/
def ptrToPtr (tag : Nat → Option Nat) (expl : Bool) (dt st : Ty) : Bool :=
  if expl then true else
  if st.q.c && !dt.q.c then false else
  match dt, st with
  | .void _, _ => true
  | _, .void _ => true
  | dt, .func q r p ps v => funcToPtr tag expl dt (.func q r p ps v)
  | dt, st => same tag true dt st

/-- `dst->kind == TY_STRUCT`. src/cc/frontend/type.c:445. -/
def isStruct : Ty → Bool
  | .struct .. => true
  | _ => false

/-- `can_cast`, src/cc/frontend/type.c:444-541. -/
def canCast (tag : Nat → Option Nat) (dst src : Ty) (zero expl : Bool) : Bool :=
  if same tag (isStruct dst) dst src then true else
  match dst, src with
  | .void _, .void _ => true
  | .void _, _ => expl
  | _, .void _ => false
  | .fix .., .fix .. => true
  | .fix .., .flo .. => true
  | .fix .., .ptr .. => expl
  | .fix .., .arr .. => expl
  | .fix .., .func .. => expl
  | .flo .., .fix .. => true
  | .flo .., .flo .. => true
  | .ptr .., .fix .. => zero || expl
  | .ptr _ dt, .arr _ _ st => ptrToPtr tag expl dt st
  | .ptr _ dt, .ptr _ st => ptrToPtr tag expl dt st
  | .ptr _ dt, .func q r p ps v => funcToPtr tag expl dt (.func q r p ps v)
  | .arr .., .ptr .. => expl
  | .arr .., .arr .. => expl
  | _, _ => false

/-- What the compiler says. -/
inductive Diag where
  | silent | warning | error
  deriving DecidableEq, Repr

/-- `is_prim_type`, src/cc/frontend/type.c:235-237,257-259. -/
def isPrim : Ty → Bool
  | .fix .. | .flo .. | .ptr .. => true
  | _ => false

/-- `check_cast`, src/cc/frontend/fe_misc.c:322-344: the conversion of an
argument, a returned value, an initializer and, in `make_cast`, of a cast. -/
def convert (tag : Nat → Option Nat) (dst src : Ty) (zero expl : Bool) : Diag :=
  let isArr : Ty → Bool := fun | .arr .. => true | _ => false
  let isPtr : Ty → Bool := fun | .ptr .. => true | _ => false
  if !canCast tag dst src zero expl || isArr dst then
    if isArr dst || !isPrim dst || !(isPrim src || (isArr src && isPtr dst)) then .error else .warning
  else .silent

/-- The checks of `assign` for `=`, src/cc/frontend/parser_expr.c:529-547,
fe_misc.c:104-107.  The left side is an lvalue. -/
def assign (tag : Nat → Option Nat) (dst src : Ty) (zero : Bool) : Diag :=
  if dst.q.c then .error else
  match dst with
  | .arr .. => .error
  | .func .. => .error
  | .struct q i c => if same tag true (.struct q i c) src then .silent else .error
  | _ => convert tag dst src zero false

/-! ## Specification: C11 -/

/-- `a` has only qualifiers that `b` has. -/
def QLe (a b : Q) : Prop := (a.c = true → b.c = true) ∧ (a.v = true → b.v = true) ∧ (a.r = true → b.r = true)

/-- Identically qualified, or the qualifiers do not matter. -/
def QOk (ign : Bool) (a b : Q) : Prop := ign = false → a = b

/-- A type that the default argument promotions leave alone (6.5.2.2p6). -/
def Promoted : Ty → Prop
  | .fix _ k _ => k ≠ .char ∧ k ≠ .short ∧ k ≠ .bool
  | .flo _ k => k ≠ .float
  | _ => True

mutual
/-- Compatible types (6.2.7, 6.7.2.2p4, 6.7.3p10, 6.7.6.1p2, 6.7.6.2p6,
6.7.6.3p15); with `ign`, of the unqualified versions.  An enumerated type is
compatible with itself only.  Return types and parameters are compared without
their qualifiers. -/
def Compat : Bool → Ty → Ty → Prop
  | ign, .void q, .void q' => QOk ign q q'
  | ign, .fix q k u, .fix q' k' u' => QOk ign q q' ∧ k = k' ∧ u = u'
  | ign, .flo q k, .flo q' k' => QOk ign q q' ∧ k = k'
  | ign, .ptr q t, .ptr q' t' => QOk ign q q' ∧ Compat false t t'
  | ign, .arr q n t, .arr q' n' t' => QOk ign q q' ∧ (0 ≤ n → 0 ≤ n' → n = n') ∧ Compat false t t'
  | ign, .func q r p ps v, .func q' r' p' ps' v' => QOk ign q q' ∧ Compat true r r' ∧
      (p = true → p' = true → v = v' ∧ CompatL ps ps') ∧
      (p = true → p' = false → v = false ∧ ∀ x ∈ ps, Promoted x) ∧
      (p = false → p' = true → v' = false ∧ ∀ x ∈ ps', Promoted x)
  | ign, .struct q i _, .struct q' i' _ => QOk ign q q' ∧ i = i'
  | _, _, _ => False
/-- Parameter lists agree in number and types. -/
def CompatL : List Ty → List Ty → Prop
  | [], [] => True
  | a :: as, b :: bs => Compat true a b ∧ CompatL as bs
  | _, _ => False
end

/-- Arrays and functions as values (6.3.2.1). -/
def decay : Ty → Ty
  | .arr _ _ t => .ptr {} t
  | .func q r p ps v => .ptr {} (.func q r p ps v)
  | t => t

/-- Arithmetic types. -/
def Arith : Ty → Prop
  | .fix .. | .flo .. => True
  | _ => False

/-- `void`, qualified or not. -/
def IsVoid : Ty → Prop
  | .void _ => True
  | _ => False

/-- Function types. -/
def IsFunc : Ty → Prop
  | .func .. => True
  | _ => False

/-- Floating types. -/
def IsFlo : Ty → Prop
  | .flo .. => True
  | _ => False

/-- Pointer types. -/
def IsPtr : Ty → Prop
  | .ptr .. => True
  | _ => False

/-- Two pointers of which the right may be assigned to the left. -/
def PtrOk (t t' : Ty) : Prop :=
  QLe t'.q t.q ∧ (Compat true t t' ∨ (IsVoid t ∧ ¬ IsFunc t') ∨ (IsVoid t' ∧ ¬ IsFunc t))

/-- 6.5.16.1p1, apart from the left side being modifiable.  `zero` says that the
right side is an integer constant expression with the value 0. -/
def Assignable (dst src : Ty) (zero : Bool) : Prop :=
  (Arith dst ∧ Arith src) ∨
  (isStruct dst = true ∧ Compat true dst src) ∨
  (∃ q t q' t', dst = .ptr q t ∧ decay src = .ptr q' t' ∧ PtrOk t t') ∨
  (IsPtr dst ∧ zero = true ∧ ∃ q k u, src = .fix q k u) ∨
  ((∃ q u, dst = .fix q .bool u) ∧ IsPtr (decay src))

/-- 6.5.4p2 and p4. -/
def Castable (dst src : Ty) : Prop :=
  IsVoid dst ∨
  ((Arith dst ∨ IsPtr dst) ∧ (Arith src ∨ IsPtr (decay src)) ∧
    ¬ (IsPtr dst ∧ IsFlo src) ∧ ¬ (IsFlo dst ∧ IsPtr (decay src)))

/-! ## The types considered -/

mutual
/-- Functions are prototyped and not qualified, an incomplete structure has a
tag. -/
def Proto (tag : Nat → Option Nat) : Ty → Prop
  | .ptr _ t => Proto tag t
  | .arr _ _ t => Proto tag t
  | .func q r p ps _ => q = {} ∧ p = true ∧ Proto tag r ∧ ProtoL tag ps
  | .struct _ i c => c = true ∨ tag i ≠ none
  | _ => True
def ProtoL (tag : Nat → Option Nat) : List Ty → Prop
  | [] => True
  | t :: ts => Proto tag t ∧ ProtoL tag ts
end

mutual
/-- Nothing inside is qualified, no type is an enumeration, functions are
prototyped. -/
def Plain : Ty → Prop
  | .void _ => True
  | .fix _ k _ => ∀ e, k ≠ .enum e
  | .flo .. => True
  | .ptr _ t => t.q = {} ∧ Plain t
  | .arr _ _ t => t.q = {} ∧ Plain t
  | .func q r p ps _ => q = {} ∧ p = true ∧ Plain r ∧ PlainL ps
  | .struct .. => True
def PlainL : List Ty → Prop
  | [] => True
  | t :: ts => Plain t ∧ PlainL ts
end

/-- Neither `volatile` nor `restrict`. -/
def Q.onlyConst (q : Q) : Prop := q.v = false ∧ q.r = false

/-- A type whose outermost pointee or element may be `const`, nothing deeper is
qualified. -/
def Tame : Ty → Prop
  | .ptr _ t => t.q.onlyConst ∧ Plain t
  | .arr _ _ t => t.q.onlyConst ∧ Plain t
  | .fix .. => True
  | t => Plain t

/-- One name, one structure type: no tag is hidden by another. -/
def OneTag (tag : Nat → Option Nat) : Prop := ∀ i j n, tag i = some n → tag j = some n → i = j

/-! ## `same_type_without_qualifier` and compatibility -/

theorem compat_strict {t t' : Ty} (h : Compat true t t') (hq : t.q = t'.q) : Compat false t t' := by
  cases t <;> cases t' <;> simp_all [Compat, QOk, Ty.q]

mutual
theorem same_compat {tag : Nat → Option Nat} (ht : OneTag tag) : ∀ (t t' : Ty) (i : Bool),
    same tag i t t' = true → Plain t → Plain t' → Compat true t t'
  | .void q, t', i, h, hp, hp' => by cases t' <;> simp_all [same, Compat, QOk]
  | .fix q k u, t', i, h, hp, hp' => by
    cases t' with
    | fix q' k' u' =>
      simp only [same, Bool.and_eq_true, decide_eq_true_eq] at h
      obtain ⟨-, h1, h2⟩ := h
      refine ⟨by simp [QOk], ?_, h2⟩
      cases k <;> cases k' <;> simp_all [sameFK, Plain]
    | _ => simp [same] at h
  | .flo q k, t', i, h, hp, hp' => by cases t' <;> simp_all [same, Compat, QOk]
  | .ptr q t, t', i, h, hp, hp' => by
    cases t' with
    | ptr q' t' =>
      simp only [same, Bool.and_eq_true] at h
      simp only [Plain] at hp hp'
      exact ⟨by simp [QOk], compat_strict (same_compat ht t t' i h.2 hp.2 hp'.2) (hp.1.trans hp'.1.symm)⟩
    | _ => simp [same] at h
  | .arr q n t, t', i, h, hp, hp' => by
    cases t' with
    | arr q' n' t' =>
      simp only [same, Bool.and_eq_true] at h
      simp only [Plain] at hp hp'
      refine ⟨by simp [QOk], ?_, compat_strict (same_compat ht t t' i h.2.2 hp.2 hp'.2) (hp.1.trans hp'.1.symm)⟩
      intro h1 h2
      have := h.2.1
      simp only [Bool.not_eq_true', Bool.and_eq_false_iff, decide_eq_false_iff_not] at this
      omega
    | _ => simp [same] at h
  | .func q r p ps v, t', i, h, hp, hp' => by
    cases t' with
    | func q' r' p' ps' v' =>
      simp only [same, Bool.and_eq_true, decide_eq_true_eq] at h
      simp only [Plain] at hp hp'
      obtain ⟨-, hr, hv, hl⟩ := h
      obtain ⟨-, rfl, pr, pl⟩ := hp
      obtain ⟨-, rfl, pr', pl'⟩ := hp'
      simp only [Bool.true_eq_false, and_self, or_self, if_false] at hl
      exact ⟨by simp [QOk], same_compat ht r r' true hr pr pr',
        fun _ _ => ⟨hv, sameL_compat ht ps ps' hl pl pl'⟩, by simp, by simp⟩
    | _ => simp [same] at h
  | .struct q id c, t', i, h, hp, hp' => by
    cases t' with
    | struct q' id' c' =>
      simp only [same, Bool.and_eq_true] at h
      refine ⟨by simp [QOk], ?_⟩
      have h2 := h.2
      split at h2
      · simpa using h2
      · split at h2
        · rename_i n n' e e'
          simp only [decide_eq_true_eq] at h2
          subst h2
          exact ht _ _ _ e e'
        · cases h2
    | _ => simp [same] at h
theorem sameL_compat {tag : Nat → Option Nat} (ht : OneTag tag) : ∀ (l l' : List Ty),
    sameL tag l l' = true → PlainL l → PlainL l' → CompatL l l'
  | [], l', h, hp, hp' => by cases l' <;> simp_all [sameL, CompatL]
  | t :: ts, l', h, hp, hp' => by
    cases l' with
    | nil => simp [sameL] at h
    | cons t' ts' =>
      simp only [sameL, Bool.and_eq_true] at h
      simp only [PlainL] at hp hp'
      exact ⟨same_compat ht t t' true h.1 hp.1 hp'.1, sameL_compat ht ts ts' h.2 hp.2 hp'.2⟩
end

theorem sameQ_of {i j : Bool} {q q' : Q} (h : QOk i q q') (hij : i = true → j = true) :
    sameQ j q q' = true := by
  cases j
  · cases i
    · simp [sameQ, h rfl]
    · exact absurd (hij rfl) (by simp)
  · simp [sameQ]

mutual
theorem compat_same {tag : Nat → Option Nat} : ∀ (t t' : Ty) (i j : Bool),
    Compat i t t' → (i = true → j = true) → Proto tag t → Proto tag t' → same tag j t t' = true
  | .void q, t', i, j, h, hij, hp, hp' => by
    cases t' <;> simp only [Compat] at h
    simpa [same] using sameQ_of h hij
  | .fix q k u, t', i, j, h, hij, hp, hp' => by
    cases t' <;> simp only [Compat] at h
    obtain ⟨h, rfl, rfl⟩ := h
    rw [same, sameQ_of h hij]
    cases k <;> simp [sameFK]
  | .flo q k, t', i, j, h, hij, hp, hp' => by
    cases t' <;> simp only [Compat] at h
    obtain ⟨h, rfl⟩ := h
    simp [same, sameQ_of h hij]
  | .ptr q t, t', i, j, h, hij, hp, hp' => by
    cases t' <;> simp only [Compat] at h
    simp only [Proto] at hp hp'
    rw [same, sameQ_of h.1 hij, compat_same t _ false j h.2 (by simp) hp hp']
    rfl
  | .arr q n t, t', i, j, h, hij, hp, hp' => by
    cases t' <;> simp only [Compat] at h
    simp only [Proto] at hp hp'
    rw [same, sameQ_of h.1 hij, compat_same t _ false j h.2.2 (by simp) hp hp']
    have := h.2.1
    simp only [Bool.true_and, Bool.and_true, Bool.not_eq_true', Bool.and_eq_false_iff,
      decide_eq_false_iff_not]
    omega
  | .func q r p ps v, t', i, j, h, hij, hp, hp' => by
    cases t' <;> simp only [Compat] at h
    simp only [Proto] at hp hp'
    obtain ⟨rfl, rfl, pr, pl⟩ := hp
    obtain ⟨rfl, rfl, pr', pl'⟩ := hp'
    obtain ⟨hq, hr, hl, -⟩ := h
    obtain ⟨rfl, hl2⟩ := hl rfl rfl
    rw [same, sameQ_of hq hij, compat_same r _ true true hr (fun h => h) pr pr',
      compat_sameL ps _ hl2 pl pl']
    simp
  | .struct q id c, t', i, j, h, hij, hp, hp' => by
    cases t' <;> simp only [Compat] at h
    obtain ⟨h, rfl⟩ := h
    rw [same, sameQ_of h hij]
    simp only [Proto] at hp hp'
    cases e : tag id with
    | some n => simp
    | none => simp_all
theorem compat_sameL {tag : Nat → Option Nat} : ∀ (l l' : List Ty),
    CompatL l l' → ProtoL tag l → ProtoL tag l' → sameL tag l l' = true
  | [], l', h, hp, hp' => by cases l' <;> simp_all [sameL, CompatL]
  | t :: ts, l', h, hp, hp' => by
    cases l' with
    | nil => simp [CompatL] at h
    | cons t' ts' =>
      simp only [CompatL] at h
      simp only [ProtoL] at hp hp'
      rw [sameL, compat_same t t' true true h.1 (fun h => h) hp.1 hp'.1,
        compat_sameL ts ts' h.2 hp.2 hp'.2]
      rfl
end
/-! ## C87: silent conversions -/

/-- The left side of a conversion of a value. -/
def IsObj (t : Ty) : Prop := ¬ IsVoid t ∧ ¬ IsFunc t

/-- Not a function pointer on one side and a `void` pointer on the other. -/
def NoMix (dst src : Ty) : Prop :=
  ∀ q t q' t', dst = .ptr q t → decay src = .ptr q' t' → ¬ (IsVoid t ∧ IsFunc t') ∧ ¬ (IsFunc t ∧ IsVoid t')

theorem funcToPtr_ok {tag : Nat → Option Nat} (ht : OneTag tag) {dt : Ty} {q : Q} {r : Ty} {p : Bool}
    {ps : List Ty} {v : Bool} (h : funcToPtr tag false dt (.func q r p ps v) = true)
    (hd : dt.q.onlyConst ∧ Plain dt) (hs : Plain (.func q r p ps v)) (hv : ¬ IsVoid dt) :
    PtrOk dt (.func q r p ps v) := by
  cases dt with
  | func q' r' p' ps' v' =>
    have hq := hs.1
    have hq' := hd.2.1
    simp only [funcToPtr, Bool.false_eq_true, if_false, Bool.or_eq_true, Bool.and_eq_true,
      Bool.not_eq_true'] at h
    have h1 : same tag false (.func q' r' p' ps' v') (.func q r p ps v) = true := by
      rcases h with h | h
      · exact h
      · have := hs.2.1
        have := hd.2.2.1
        simp_all
    refine ⟨?_, Or.inl (same_compat ht _ _ _ h1 hd.2 hs)⟩
    simp only [Ty.q]
    subst hq hq'
    simp [QLe]
  | void q => simp [IsVoid] at hv
  | _ => simp [funcToPtr] at h

theorem ptrToPtr_ok {tag : Nat → Option Nat} (ht : OneTag tag) {dt st : Ty}
    (h : ptrToPtr tag false dt st = true) (hd : dt.q.onlyConst ∧ Plain dt)
    (hs : st.q.onlyConst ∧ Plain st)
    (hm : ¬ (IsVoid dt ∧ IsFunc st) ∧ ¬ (IsFunc dt ∧ IsVoid st)) : PtrOk dt st := by
  simp only [ptrToPtr, Bool.false_eq_true, if_false] at h
  split at h
  · cases h
  · rename_i hc
    have hq : QLe st.q dt.q := by
      refine ⟨?_, ?_, ?_⟩
      · intro h1
        simpa [h1] using hc
      · simp [hs.1.1]
      · simp [hs.1.2]
    split at h
    · refine ⟨hq, Or.inr (Or.inl ⟨trivial, fun hf => hm.1 ⟨trivial, hf⟩⟩)⟩
    · refine ⟨hq, Or.inr (Or.inr ⟨trivial, fun hf => hm.2 ⟨hf, trivial⟩⟩)⟩
    · rename_i h1
      refine funcToPtr_ok ht h hd hs.2 ?_
      intro hv
      cases dt <;> simp_all [IsVoid]
    · exact ⟨hq, Or.inl (same_compat ht _ _ _ h hd.2 hs.2)⟩

theorem convert_silent {tag : Nat → Option Nat} {dst src : Ty} {zero expl : Bool} :
    convert tag dst src zero expl = .silent ↔
      canCast tag dst src zero expl = true ∧ ∀ q n t, dst ≠ .arr q n t := by
  have hE : ∀ c : Bool, (if c = true then Diag.error else Diag.warning) ≠ .silent := by
    intro c
    cases c <;> simp
  cases dst <;> cases h : canCast tag _ src zero expl <;>
    simp only [convert, h, Bool.not_false, Bool.not_true, Bool.true_or, Bool.or_false, Bool.or_true,
      Bool.false_eq_true, if_true, if_false, hE, false_and, true_and, reduceCtorEq, ne_eq,
      not_false_iff, implies_true] <;> simp

/-- C87 (partial: `Tame`, `OneTag` and `NoMix` exclude what the findings below
are about): a conversion that the compiler makes without a word is one that C
allows. -/
theorem silent_is_allowed_partial {tag : Nat → Option Nat} (ht : OneTag tag) {dst src : Ty} {zero : Bool}
    (hd : Tame dst) (hs : Tame src) (ho : IsObj dst) (hm : NoMix dst src)
    (h : convert tag dst src zero false = .silent) : Assignable dst src zero := by
  obtain ⟨h, hna⟩ := convert_silent.1 h
  cases dst with
  | void q => exact absurd trivial ho.1
  | func q r p ps v => exact absurd trivial ho.2
  | arr q n t => exact absurd rfl (hna q n t)
  | fix q k u => cases src <;> simp_all [canCast, same, Assignable, Arith]
  | flo q k => cases src <;> simp_all [canCast, same, Assignable, Arith]
  | struct q i c =>
    refine Or.inr (Or.inl ⟨rfl, ?_⟩)
    refine same_compat ht _ _ true ?_ trivial ?_
    · by_cases hh : same tag true (.struct q i c) src = true
      · exact hh
      · simp only [canCast, isStruct, hh] at h
        cases src <;> simp at h
    · cases src <;> simp_all [canCast, same, Plain]
  | ptr q t =>
    have hmm := hm q t
    cases src with
    | void q' => simp [canCast, same] at h
    | flo q' k' => simp [canCast, same] at h
    | struct q' i' c' => simp [canCast, same] at h
    | fix q' k' u' =>
      refine Or.inr (Or.inr (Or.inr (Or.inl ⟨trivial, ?_, _, _, _, rfl⟩)))
      simpa [canCast, same] using h
    | arr q' n' t' =>
      refine Or.inr (Or.inr (Or.inl ⟨q, t, {}, t', rfl, rfl, ?_⟩))
      simp only [canCast, same, Bool.false_eq_true, if_false] at h
      exact ptrToPtr_ok ht h hd hs (hmm _ _ rfl rfl)
    | func q' r' p' ps' v' =>
      refine Or.inr (Or.inr (Or.inl ⟨q, t, {}, _, rfl, rfl, ?_⟩))
      simp only [canCast, same, Bool.false_eq_true, if_false] at h
      exact funcToPtr_ok ht h hd hs (fun hv => (hmm _ _ rfl rfl).1 ⟨hv, trivial⟩)
    | ptr q' t' =>
      refine Or.inr (Or.inr (Or.inl ⟨q, t, q', t', rfl, rfl, ?_⟩))
      by_cases hsame : same tag false (.ptr q t) (.ptr q' t') = true
      · simp only [same, Bool.and_eq_true] at hsame
        refine ⟨⟨?_, by simp [hs.1.1], by simp [hs.1.2]⟩, Or.inl (same_compat ht _ _ _ hsame.2 hd.2 hs.2)⟩
        have : sameQ false t.q t'.q = true := by
          have := hsame.2
          cases t <;> cases t' <;> simp_all [same, Ty.q]
        simp only [sameQ, Bool.false_or, decide_eq_true_eq] at this
        intro hh
        rw [this, hh]
      · simp only [canCast, isStruct, hsame, if_false] at h
        exact ptrToPtr_ok ht h hd hs (hmm _ _ rfl rfl)

/-- C87 (partial: functions are prototyped; `_Bool` from a pointer is excluded,
see `bool_from_pointer_warned`): a conversion that C allows is made without a
word. -/
theorem allowed_is_silent_partial {tag : Nat → Option Nat} {dst src : Ty} {zero : Bool}
    (hd : Proto tag dst) (hs : Proto tag src) (hb : ¬ ((∃ q u, dst = .fix q .bool u) ∧ IsPtr (decay src)))
    (h : Assignable dst src zero) : convert tag dst src zero false = .silent := by
  have key : ∀ (t st : Ty), Proto tag t → Proto tag st → PtrOk t st → ptrToPtr tag false t st = true := by
    intro t st pt ps h
    obtain ⟨hq, h⟩ := h
    have hc : (st.q.c && !t.q.c) = false := by
      cases h1 : st.q.c
      · rfl
      · simp [hq.1 h1]
    simp only [ptrToPtr, hc, Bool.false_eq_true, if_false]
    split
    · rfl
    · rfl
    · rename_i q r p pps v hnv
      rcases h with h | h | h
      · cases t with
        | func q' r' p' ps' v' =>
          have hf : Compat false (.func q' r' p' ps' v') (.func q r p pps v) := by
            refine compat_strict h ?_
            simp only [Ty.q]
            rw [pt.1, ps.1]
          simp [funcToPtr, compat_same _ _ false false hf (by simp) pt ps]
        | _ => simp [Compat] at h
      · exact absurd trivial h.2
      · exact absurd h.1 (by simp [IsVoid])
    · rename_i h1 h2 h3
      rcases h with h | h | h
      · exact compat_same _ _ true true h (fun h => h) pt ps
      · exfalso
        cases t <;> simp_all [IsVoid]
      · exfalso
        cases st <;> simp_all [IsVoid]
  rw [convert_silent]
  rcases h with ⟨h1, h2⟩ | ⟨h1, h2⟩ | ⟨q, t, q', t', rfl, h2, h3⟩ | ⟨h1, h2, q, k, u, rfl⟩ | h
  · cases dst <;> simp only [Arith] at h1 <;> cases src <;> simp only [Arith] at h2 <;> simp [canCast]
  · cases dst with
    | struct q i c =>
      refine ⟨?_, by simp⟩
      simp [canCast, isStruct, compat_same _ _ true true h2 (fun h => h) hd hs]
    | _ => simp [isStruct] at h1
  · refine ⟨?_, by simp⟩
    cases src with
    | ptr q2 t2 =>
      simp only [decay, Ty.ptr.injEq] at h2
      obtain ⟨rfl, rfl⟩ := h2
      simp only [canCast]
      split
      · rfl
      · exact key _ _ hd hs h3
    | arr q2 n2 t2 =>
      simp only [decay, Ty.ptr.injEq] at h2
      obtain ⟨rfl, rfl⟩ := h2
      simp only [canCast]
      split
      · rfl
      · exact key _ _ hd hs h3
    | func q2 r2 p2 ps2 v2 =>
      simp only [decay, Ty.ptr.injEq] at h2
      obtain ⟨rfl, rfl⟩ := h2
      have := key t _ hd hs h3
      simp only [ptrToPtr, Bool.false_eq_true, if_false] at this
      simp only [canCast]
      split
      · rfl
      · split at this
        · cases this
        · cases t with
          | void q3 => rfl
          | _ => simpa using this
    | _ => simp [decay] at h2
  · cases dst <;> simp only [IsPtr] at h1
    simp [canCast, h2]
  · exact absurd h hb

/-- C87: casts are accepted exactly when C allows them. -/
theorem cast_iff {tag : Nat → Option Nat} {dst src : Ty} {zero : Bool}
    (hd : IsVoid dst ∨ Arith dst ∨ IsPtr dst) :
    convert tag dst src zero true = .silent ↔ Castable dst src := by
  rw [convert_silent]
  cases dst <;> simp only [IsVoid, Arith, IsPtr, or_self, or_true, true_or] at hd <;> cases src <;>
    simp [canCast, same, Castable, IsVoid, Arith, IsPtr, IsFlo, decay, ptrToPtr, funcToPtr]
  exact ite_self _

/-- C87: an assignment without a diagnostic has a left side that is not `const`,
and the conversion is one that C allows. -/
theorem assignment_is_allowed_partial {tag : Nat → Option Nat} (ht : OneTag tag) {dst src : Ty}
    {zero : Bool} (hd : Tame dst) (hs : Tame src) (ho : IsObj dst) (hm : NoMix dst src)
    (h : assign tag dst src zero = .silent) :
    dst.q.c = false ∧ (∀ q n t, dst ≠ .arr q n t) ∧ Assignable dst src zero := by
  simp only [assign] at h
  split at h
  · cases h
  · rename_i hc
    refine ⟨by simpa using hc, ?_⟩
    split at h
    · cases h
    · cases h
    · rename_i q i c _
      split at h
      · rename_i hsame
        refine ⟨by simp, Or.inr (Or.inl ⟨rfl, same_compat ht _ _ _ hsame trivial ?_⟩)⟩
        cases src <;> simp_all [same, Plain]
      · cases h
    · exact ⟨(convert_silent.1 h).2, silent_is_allowed_partial ht hd hs ho hm h⟩

/-- C87: an assignment that C allows gets no diagnostic. -/
theorem allowed_assignment_partial {tag : Nat → Option Nat} {dst src : Ty} {zero : Bool}
    (hd : Proto tag dst) (hs : Proto tag src) (hb : ¬ ((∃ q u, dst = .fix q .bool u) ∧ IsPtr (decay src)))
    (hc : dst.q.c = false) (h : Assignable dst src zero) : assign tag dst src zero = .silent := by
  have hconv := allowed_is_silent_partial hd hs hb h
  simp only [assign, hc, Bool.false_eq_true, if_false]
  split
  · exact absurd rfl ((convert_silent.1 hconv).2 _ _ _)
  · simp [Assignable, Arith, isStruct, IsPtr] at h
  · rename_i q i c _
    rcases h with h | h | ⟨_, _, _, _, h, _⟩ | h | ⟨⟨_, _, h⟩, _⟩
    · simp [Arith] at h
    · simp [compat_same _ _ true true h.2 (fun h => h) hd hs]
    · cases h
    · simp [IsPtr] at h
    · cases h
  · exact hconv

/-- C87: a conversion between scalar values is never an error, at most a
warning; one from or to a structure that is not allowed is an error. -/
theorem scalars_only_warned {tag : Nat → Option Nat} {dst src : Ty} {zero expl : Bool}
    (hd : Arith dst ∨ IsPtr dst) (hs : Arith src ∨ IsPtr src) :
    convert tag dst src zero expl ≠ .error := by
  cases dst <;> simp only [Arith, IsPtr, or_self, or_true, true_or] at hd <;>
    cases src <;> simp only [Arith, IsPtr, or_self, or_true, true_or] at hs <;>
    simp only [convert, isPrim] <;> split <;> simp

theorem structs_are_errors {tag : Nat → Option Nat} (ht : OneTag tag) {dst src : Ty} {zero : Bool}
    (hx : isStruct dst = true ∨ (isStruct src = true ∧ IsObj dst)) (h : ¬ Compat true dst src) :
    convert tag dst src zero false = .error := by
  have hcan : canCast tag dst src zero false = false := by
    by_cases hh : same tag true dst src = true
    · exfalso
      refine h (same_compat ht _ _ _ hh ?_ ?_)
      · cases dst <;> cases src <;> simp_all [same, isStruct, Plain]
      · cases dst <;> cases src <;> simp_all [same, isStruct, Plain]
    · rcases hx with hx | ⟨hx, ho⟩
      · cases dst <;> simp only [isStruct, Bool.false_eq_true] at hx
        simp only [canCast, isStruct, hh]
        cases src <;> simp
      · cases src <;> simp only [isStruct, Bool.false_eq_true] at hx
        cases dst with
        | struct q i c => simp [canCast, isStruct, hh]
        | void q => exact absurd trivial ho.1
        | _ => simp [canCast, same]
  rcases hx with hx | ⟨hx, ho⟩
  · cases dst <;> simp only [isStruct, Bool.false_eq_true] at hx
    simp [convert, hcan, isPrim]
  · cases src <;> simp only [isStruct, Bool.false_eq_true] at hx
    cases dst <;> simp [convert, hcan, isPrim]

/-! ## C87: cases and findings -/

/-- `char`, `const char`, pointers. -/
def tchar : Ty := .fix {} .char false
def tcchar : Ty := .fix { c := true } .char false
def tint : Ty := .fix {} .int false

/-- No structure has a tag. -/
def noTag : Nat → Option Nat := fun _ => none

theorem noTag_one : OneTag noTag := by
  intro i j n h
  cases h

/-- `const char *p = "abc"` (an array of `char`) meets the hypotheses and is
silent; `char *p = q` with `const char *q` is warned about. -/
example : Tame (.ptr {} tcchar) ∧ Tame (.arr {} 4 tchar) ∧ IsObj (.ptr {} tcchar) ∧
    NoMix (.ptr {} tcchar) (.arr {} 4 tchar) ∧
    convert noTag (.ptr {} tcchar) (.arr {} 4 tchar) false false = .silent ∧
    convert noTag (.ptr {} tchar) (.ptr {} tcchar) false false = .warning := by
  refine ⟨?_, ?_, ?_, ?_, ?_, ?_⟩
  · simp [Tame, tcchar, Ty.q, Q.onlyConst, Plain]
  · simp [Tame, tchar, Ty.q, Q.onlyConst, Plain]
  · simp [IsObj, IsVoid, IsFunc]
  · intro q t q' t' h h'
    cases h
    cases h'
    simp [tcchar, tchar, IsVoid, IsFunc]
  · decide +kernel
  · decide +kernel

/-- A comparison function for `qsort`, passed as a function. -/
example : Proto noTag (.ptr {} (.func {} tint true [.ptr {} (.void { c := true })] false)) ∧
    Assignable (.ptr {} (.func {} tint true [.ptr {} (.void { c := true })] false))
      (.func {} tint true [.ptr { c := true } (.void { c := true })] false) false := by
  refine ⟨by simp [Proto, ProtoL, tint], Or.inr (Or.inr (Or.inl ⟨{}, _, {}, _, rfl, rfl, ?_⟩))⟩
  simp [PtrOk, QLe, Ty.q, Compat, CompatL, QOk, tint]

/-- Two structure types with different identities. -/
example : convert noTag (.struct {} 0 true) (.struct {} 1 true) false false = .error := by decide +kernel

/-- Finding: `const` is checked at the first level only.  `const char **p = q`
with `char **q` violates a constraint and is accepted silently
(src/cc/frontend/type.c:503). -/
theorem inner_const_unchecked : ∃ dst src, convert noTag dst src false false = .silent ∧
    ¬ Assignable dst src false :=
  ⟨.ptr {} (.ptr {} tcchar), .ptr {} (.ptr {} tchar), by decide +kernel, by
    simp [Assignable, Arith, isStruct, decay, PtrOk, Compat, QOk, tchar, tcchar, IsVoid]⟩

/-- Finding: the elements behind a pointer to an array lose their `const`
silently (src/cc/frontend/type.c:496,503). -/
theorem array_const_dropped : ∃ dst src, convert noTag dst src false false = .silent ∧
    ¬ Assignable dst src false :=
  ⟨.ptr {} (.arr {} 3 tchar), .ptr {} (.arr {} 3 tcchar), by decide +kernel, by
    simp [Assignable, Arith, isStruct, decay, PtrOk, Compat, QOk, tchar, tcchar, IsVoid]⟩

/-- Finding: `volatile` can be dropped silently (src/cc/frontend/type.c:392,496). -/
theorem volatile_dropped : ∃ dst src, convert noTag dst src false false = .silent ∧
    ¬ Assignable dst src false :=
  ⟨.ptr {} tint, .ptr {} (.fix { v := true } .int false), by decide +kernel, by
    simp [Assignable, Arith, isStruct, decay, PtrOk, QLe, Ty.q, tint]⟩

/-- Finding: pointers to different enumerations are interchangeable
(src/cc/frontend/type.c:402). -/
theorem enums_mixed : ∃ dst src, convert noTag dst src false false = .silent ∧
    ¬ Assignable dst src false :=
  ⟨.ptr {} (.fix {} (.enum 0) false), .ptr {} (.fix {} (.enum 1) false), by decide +kernel, by
    simp [Assignable, Arith, isStruct, decay, PtrOk, Compat, QOk, IsVoid]⟩

/-- Finding: an incomplete structure is identified with any structure of that
tag, also one that it hides (src/cc/frontend/type.c:436-438). -/
theorem hidden_tag_accepted : ∃ tag dst src, convert tag dst src false false = .silent ∧
    ¬ Assignable dst src false :=
  ⟨fun _ => some 0, .ptr {} (.struct {} 0 false), .ptr {} (.struct {} 1 true), by decide +kernel, by
    simp [Assignable, Arith, isStruct, decay, PtrOk, Compat, QOk, IsVoid]⟩

/-- Finding: function pointers and `void` pointers convert into each other
silently (src/cc/frontend/type.c:499,515). -/
theorem function_to_void : ∃ dst src, convert noTag dst src false false = .silent ∧
    ¬ Assignable dst src false :=
  ⟨.ptr {} (.void {}), .func {} tint true [] false, by decide +kernel, by
    simp [Assignable, Arith, isStruct, decay, PtrOk, Compat, IsVoid, IsFunc]⟩

/-- Finding: a function without a prototype goes with one that takes a `float`
(src/cc/frontend/type.c:512-513). -/
theorem unprototyped_accepted : ∃ dst src, convert noTag dst src false false = .silent ∧
    ¬ Assignable dst src false :=
  ⟨.ptr {} (.func {} tint false [] false), .func {} tint true [.flo {} .float] false, by decide +kernel, by
    simp [Assignable, Arith, isStruct, decay, PtrOk, Compat, QOk, IsVoid, Promoted]⟩

/-- Finding: `_Bool b = p` is allowed and warned about (src/cc/frontend/type.c:459-466). -/
theorem bool_from_pointer_warned : ∃ dst src, Assignable dst src false ∧
    convert noTag dst src false false = .warning :=
  ⟨.fix {} .bool false, .ptr {} tint, by simp [Assignable, decay, IsPtr], by decide +kernel⟩
/-- Finding: inside a type, a function without a prototype goes with no other,
though C allows it: `int (**p)(int) = q` with `int (**q)()` is warned about
(src/cc/frontend/type.c:419-421). -/
theorem unprototyped_inside_warned : ∃ dst src, Assignable dst src false ∧
    convert noTag dst src false false = .warning := by
  refine ⟨.ptr {} (.ptr {} (.func {} tint true [tint] false)), .ptr {} (.ptr {} (.func {} tint false [] false)),
    ?_, by decide +kernel⟩
  refine Or.inr (Or.inr (Or.inl ⟨_, _, _, _, rfl, rfl, ?_⟩))
  simp [PtrOk, Compat, QOk, QLe, Promoted, tint, Ty.q]

end Verif.TypeCheck

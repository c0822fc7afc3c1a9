/-!
# C79: declaration specifiers, in any order, name the type C says

`parse_raw_type` (`src/cc/frontend/parser_type.c:188-372`) reads `long static unsigned const int long` by counting words, and
`check_type_combination` (`fe_misc.c:113-129`) rejects counts.  The specification is the list of C11 6.7.2p2, as multisets of words.

* `words_partial`: for every permutation of a line of that list, with storage classes and qualifiers interspersed at any place, the type, the
  qualifiers and the storage are those of C and exactly these words are consumed.  Partial: qualifiers of `float`, `double` and
  `long double` are lost (`const_double_wrong`).
* `accepted_iff`: of all sequences of words exactly the permutations of that list and of `extra` are accepted; the latter are not C (`extra_wrong`).
* `named_ok`: a struct, union, enum, `_Bool`, `void` or typedef name, with storage classes and qualifiers around it, names that type.

Not modelled: what is inside `struct {..}`, `enum {..}` and `typeof(..)` (single tokens here).  Diagnostics are `none`.
-/

namespace Verif.Spec

/-- The words counted (`TypeCombination`, fe_misc.h:63-68). -/
inductive Word | unsigned | signed | char | short | int | long | float | double
deriving DecidableEq, Repr

/-- Storage classes and `inline` (var.h:21-27). -/
inductive Sto | static | inline | extern | typedef | auto | register
deriving DecidableEq, Repr

/-- Qualifiers (type.h:48-52). -/
inductive Qu | const | volatile | restrict
deriving DecidableEq, Repr

/-- Integer kinds (type.h:17-25). -/
inductive Kind | char | short | int | long | llong
deriving DecidableEq, Repr

/-- Unqualified types.  `named n`: struct, union, enum, `_Bool`. -/
inductive Base
  | fix (k : Kind) (uns : Bool) | float | double | ldouble | void | named (n : Nat)
deriving DecidableEq, Repr

/-- A type with its qualifiers. -/
structure Ty where
  b : Base
  q : Qu → Bool

/-- Tokens.  `tag n`: `struct`, `union`, `enum` with what belongs to them, or `_Bool`. -/
inductive Tok
  | w (w : Word) | s (s : Sto) | q (q : Qu) | tag (n : Nat) | void | ident (x : Nat) | colon | other (n : Nat)
deriving DecidableEq, Repr

/-- `TypeCombination` (fe_misc.h:63-68). -/
structure TC where
  n : Word → Nat
  s : Sto → Bool
  q : Qu → Bool

/-- `TypeCombination tc = {0}` (parser_type.c:195). -/
def TC.zero : TC := ⟨fun _ => 0, fun _ => false, fun _ => false⟩

/-- `check_type_combination` (fe_misc.c:113-129): true if there is no error. -/
def check (n : Word → Nat) : Bool :=
  !(decide (n .unsigned > 1) || decide (n .signed > 1) || decide (n .char > 1) || decide (n .short > 1) || decide (n .int > 1) ||
    decide (n .long ≥ 3) ||
    decide ((n .char > 0 ∧ n .short > 0) ∨ (n .char > 0 ∧ n .long > 0) ∨ (n .short > 0 ∧ n .long > 0)) ||
    decide (n .float > 1) || decide (n .double > 1) ||
    ((decide (n .float > 0) || decide (n .double > 0)) &&
     (decide (n .char > 0) || decide (n .short > 0) || decide (n .int > 0) || decide (n .long > 0) || decide (n .unsigned > 0) ||
       decide (n .signed > 0)) &&
     !(decide (n .double = 1) && decide (n .float ≤ 0) && decide (n .long ≤ 1) && decide (n .char ≤ 0) && decide (n .short ≤ 0) &&
       decide (n .int ≤ 0) && decide (n .unsigned ≤ 0) && decide (n .signed ≤ 0))))

/-- `no_type_combination` with zero masks (fe_misc.c:131-136). -/
def noComb (n : Word → Nat) : Bool :=
  decide (n .unsigned = 0) && decide (n .signed = 0) && decide (n .char = 0) && decide (n .short = 0) && decide (n .int = 0) &&
    decide (n .long = 0) && decide (n .float = 0) && decide (n .double = 0)

/-- `tc.storage & ~mask` is zero (parser_type.c:212-230). -/
def only (s : Sto → Bool) (mask : List Sto) : Bool :=
  [Sto.static, .inline, .extern, .typedef, .auto, .register].all fun x => !s x || mask.contains x

/-- The storage classes that may come before (parser_type.c:212-230). -/
def before : Sto → List Sto
  | .static => [.inline]
  | .inline => [.static, .extern]
  | .extern => [.inline]
  | .typedef => []
  | .auto => [.register]
  | .register => [.auto]

/-- `++tc.int_num` and the like. -/
def upd {α β} [DecidableEq α] (f : α → β) (a : α) (b : β) : α → β := fun x => if x = a then b else f x

/-- The words, storage classes and qualifiers (first switch, parser_type.c:205-263); a `none` inside is a diagnostic. -/
def step (tc : TC) : Tok → Option (Option TC)
  | .w x => some (some { tc with n := upd tc.n x (tc.n x + 1) })
  | .s x => some (if only tc.s (before x) then some { tc with s := upd tc.s x true } else none)
  | .q x => some (if tc.q x then none else some { tc with q := upd tc.q x true })
  | _ => none

/-- The loop of `parse_raw_type` (parser_type.c:201-349).  `td` are the typedef names in scope, `stmt` is `parsing_stmt`: there an identifier before
a colon is a label.  After a tag or a name the counts are as they were when last checked, so that check (:202-203) is left out. -/
def loop (td : Nat → Option Ty) (stmt : Bool) : TC → Option Ty → List Tok → Option (TC × Option Ty × List Tok)
  | tc, ty, [] => some (tc, ty, [])
  | tc, ty, t :: ts =>
    match step tc t with
    | some r => r.bind fun tc' => if check tc'.n then loop td stmt tc' ty ts else none
    | none =>
      if ty.isSome then some (tc, ty, t :: ts)
      else
        match t with
        | .tag n => if noComb tc.n then loop td stmt tc (some ⟨.named n, fun _ => false⟩) ts else none
        | .void => loop td stmt tc (some ⟨.void, fun _ => false⟩) ts
        | .ident x =>
          if noComb tc.n && !(stmt && ts.head? == some .colon) then
            match td x with
            | some u => loop td stmt tc (some u) ts
            | none => some (tc, none, t :: ts)
          else some (tc, none, t :: ts)
        | _ => some (tc, none, t :: ts)

/-- The type of the words counted (parser_type.c:355-367); `get_fixnum_type` (type.c:261-264) keeps `const` and `volatile`. -/
def finish (tc : TC) : Option Ty → Option Ty
  | some u => some ⟨u.b, fun x => u.q x || tc.q x⟩
  | none =>
    if noComb tc.n && only tc.s [] && !(tc.q .const || tc.q .volatile || tc.q .restrict) then none
    else if tc.n .float > 0 then some ⟨.float, fun _ => false⟩
    else if tc.n .double > 0 then some ⟨if tc.n .long > 0 then .ldouble else .double, fun _ => false⟩
    else
      some ⟨.fix (if tc.n .char > 0 then .char else if tc.n .short > 0 then .short
          else if tc.n .long = 0 then .int else if tc.n .long = 1 then .long else .llong) (decide (tc.n .unsigned > 0)),
        fun x => x ≠ .restrict && tc.q x⟩

/-- `parse_raw_type` (parser_type.c:188-372): type (`none`: there is none), storage, remaining tokens. -/
def rawType (td : Nat → Option Ty) (stmt : Bool) (ts : List Tok) : Option (Option Ty × (Sto → Bool) × List Tok) :=
  (loop td stmt .zero none ts).map fun r => (finish r.1 r.2.1, r.1.s, r.2.2)

/-! ## Specification: C11 6.7.1, 6.7.2, 6.7.3 -/

/-- The list of C11 6.7.2p2.  Plain `char` is signed here. -/
def table : List (List Word × Base) :=
  [([.char], .fix .char false), ([.signed, .char], .fix .char false), ([.unsigned, .char], .fix .char true),
   ([.short], .fix .short false), ([.signed, .short], .fix .short false), ([.short, .int], .fix .short false),
   ([.signed, .short, .int], .fix .short false), ([.unsigned, .short], .fix .short true), ([.unsigned, .short, .int], .fix .short true),
   ([.int], .fix .int false), ([.signed], .fix .int false), ([.signed, .int], .fix .int false),
   ([.unsigned], .fix .int true), ([.unsigned, .int], .fix .int true),
   ([.long], .fix .long false), ([.signed, .long], .fix .long false), ([.long, .int], .fix .long false),
   ([.signed, .long, .int], .fix .long false), ([.unsigned, .long], .fix .long true), ([.unsigned, .long, .int], .fix .long true),
   ([.long, .long], .fix .llong false), ([.signed, .long, .long], .fix .llong false), ([.long, .long, .int], .fix .llong false),
   ([.signed, .long, .long, .int], .fix .llong false), ([.unsigned, .long, .long], .fix .llong true),
   ([.unsigned, .long, .long, .int], .fix .llong true),
   ([.float], .float), ([.double], .double), ([.long, .double], .ldouble)]

/-- Words the compiler accepts although C does not. -/
def extra : List (List Word) :=
  [[.float, .double], [.char, .int], [.signed, .char, .int], [.unsigned, .char, .int], [.unsigned, .signed],
   [.unsigned, .signed, .int], [.unsigned, .signed, .char], [.unsigned, .signed, .char, .int], [.unsigned, .signed, .short],
   [.unsigned, .signed, .short, .int], [.unsigned, .signed, .long], [.unsigned, .signed, .long, .int],
   [.unsigned, .signed, .long, .long], [.unsigned, .signed, .long, .long, .int]]

/-- The words in a list of specifiers. -/
def words (ts : List Tok) : List Word := ts.filterMap fun | .w x => some x | _ => none
/-- The storage classes. -/
def stos (ts : List Tok) : List Sto := ts.filterMap fun | .s x => some x | _ => none
/-- The qualifiers. -/
def quals (ts : List Tok) : List Qu := ts.filterMap fun | .q x => some x | _ => none

/-- C11 6.7.1p2, 6.7.4: at most one storage class, and `inline` only for functions. -/
def stoOk (l : List Sto) : Prop := l = [] ∨ (∃ x, l = [x]) ∨ l.Perm [.static, .inline] ∨ l.Perm [.extern, .inline]

/-- What ends a list of specifiers: anything but another one. -/
def ends : List Tok → Bool
  | .other _ :: _ | .colon :: _ | .ident _ :: _ => true
  | [] => true
  | _ => false

/-- Floating types. -/
def Base.flo : Base → Bool
  | .float | .double | .ldouble => true
  | _ => false

/-- Is it a word, storage class or qualifier? -/
def Tok.plain : Tok → Bool
  | .w _ | .s _ | .q _ => true
  | _ => false
/-! ## Helper lemmas -/

theorem check_mono {n n' : Word → Nat} (h : ∀ w, n w ≤ n' w) (c : check n' = true) : check n = true := by
  have h1 := h .unsigned; have h2 := h .signed; have h3 := h .char; have h4 := h .short
  have h5 := h .int; have h6 := h .long; have h7 := h .float; have h8 := h .double
  simp [check] at c ⊢
  omega

/-- What the tokens add. -/
def TC.adds (tc : TC) (ts : List Tok) : TC :=
  ⟨fun w => tc.n w + (words ts).count w, fun s => tc.s s || (stos ts).contains s, fun q => tc.q q || (quals ts).contains q⟩

/-- The storage classes pass the checks in this order. -/
def stoGood (s : Sto → Bool) : List Sto → Bool
  | [] => true
  | x :: l => only s (before x) && stoGood (upd s x true) l

theorem loop_plain (td : Nat → Option Ty) (stmt : Bool) (ty : Option Ty) (rest : List Tok) : ∀ (ts : List Tok) (tc : TC),
    (∀ t ∈ ts, t.plain = true) → (check (tc.adds ts).n = true) → stoGood tc.s (stos ts) = true → (quals ts).Nodup →
    (∀ q ∈ quals ts, tc.q q = false) → loop td stmt tc ty (ts ++ rest) = loop td stmt (tc.adds ts) ty rest := by
  intro ts
  induction ts with
  | nil => intro tc _ _ _ _ _; simp [TC.adds, words, stos, quals]
  | cons t ts ih =>
    intro tc hp hc hs hn hq
    have hp' : ∀ t ∈ ts, t.plain = true := fun x hx => hp x (by simp [hx])
    have ht := hp t (by simp)
    cases t with
    | w x =>
      have e : (TC.adds ⟨upd tc.n x (tc.n x + 1), tc.s, tc.q⟩ ts) = tc.adds (.w x :: ts) := by
        simp only [TC.adds, words, stos, quals, List.filterMap_cons]
        congr 1; funext w; simp only [upd]
        by_cases h : w = x
        · subst h; simp; omega
        · simp [h, List.count_cons, Ne.symm h]
      simp only [List.cons_append, loop, step, Option.bind]
      rw [if_pos]
      · rw [ih, e]
        · exact hp'
        · rw [e]; exact hc
        · exact hs
        · exact hn
        · exact hq
      · refine check_mono ?_ hc
        intro w; rw [← e]; simp [TC.adds]
    | s x =>
      have e : (TC.adds ⟨tc.n, upd tc.s x true, tc.q⟩ ts) = tc.adds (.s x :: ts) := by
        simp only [TC.adds, words, stos, quals, List.filterMap_cons]
        congr 1; funext w; simp only [upd]
        by_cases h : w = x
        · subst h; simp
        · simp [h]
      simp only [stos, List.filterMap_cons, stoGood, Bool.and_eq_true] at hs
      simp only [List.cons_append, loop, step]
      rw [if_pos hs.1]
      simp only [Option.bind]
      rw [if_pos]
      · rw [ih, e]
        · exact hp'
        · rw [e]; exact hc
        · exact hs.2
        · exact hn
        · exact hq
      · refine check_mono ?_ hc
        intro w; rw [← e]; simp [TC.adds]
    | q x =>
      have e : (TC.adds ⟨tc.n, tc.s, upd tc.q x true⟩ ts) = tc.adds (.q x :: ts) := by
        simp only [TC.adds, words, stos, quals, List.filterMap_cons]
        congr 1; funext w; simp only [upd]
        by_cases h : w = x
        · subst h; simp
        · simp [h]
      simp only [quals, List.filterMap_cons, List.nodup_cons] at hn
      simp only [List.cons_append, loop, step]
      rw [if_neg (by rw [hq x (by simp [quals])]; simp)]
      simp only [Option.bind]
      rw [if_pos]
      · rw [ih, e]
        · exact hp'
        · rw [e]; exact hc
        · exact hs
        · exact hn.2
        · intro y hy
          have : y ≠ x := fun h => hn.1 (h ▸ hy)
          simp only [upd, if_neg this]
          exact hq y (by simp only [quals, List.filterMap_cons] at hy ⊢; simp [hy])
      · refine check_mono ?_ hc
        intro w; rw [← e]; simp [TC.adds]
    | tag _ | void | ident _ | colon | other _ => cases ht

theorem loop_words_inv (td : Nat → Option Ty) (stmt : Bool) (rest : List Tok) : ∀ (ws : List Word) (tc : TC) (r),
    ws ≠ [] → loop td stmt tc none (ws.map .w ++ rest) = some r → check (tc.adds (ws.map .w)).n = true := by
  intro ws
  induction ws with
  | nil => intro tc r h _; exact absurd rfl h
  | cons x ws ih =>
    intro tc r _ h
    have e : (TC.adds ⟨upd tc.n x (tc.n x + 1), tc.s, tc.q⟩ (ws.map .w)) = tc.adds ((x :: ws).map .w) := by
      simp only [TC.adds, words, stos, quals, List.map_cons, List.filterMap_cons]
      congr 1; funext w; simp only [upd]
      by_cases h : w = x
      · subst h; simp; omega
      · simp [h, List.count_cons, Ne.symm h]
    simp only [List.map_cons, List.cons_append, loop, step, Option.bind] at h
    split at h
    · rename_i hc
      by_cases hw : ws = []
      · subst hw; rw [← e]; simpa [TC.adds, words, stos, quals] using hc
      · rw [← e]; exact ih _ r hw h
    · cases h

theorem words_map (ws : List Word) : words (ws.map .w) = ws := by
  induction ws with
  | nil => rfl
  | cons x ws ih => simp only [words, List.map_cons, List.filterMap_cons] at ih ⊢; rw [ih]
theorem stos_map (ws : List Word) : stos (ws.map .w) = [] := by
  induction ws with
  | nil => rfl
  | cons x ws ih => simp only [stos, List.map_cons, List.filterMap_cons] at ih ⊢; rw [ih]
theorem quals_map (ws : List Word) : quals (ws.map .w) = [] := by
  induction ws with
  | nil => rfl
  | cons x ws ih => simp only [quals, List.map_cons, List.filterMap_cons] at ih ⊢; rw [ih]

/-- Stops at the end of the words. -/
theorem loop_end (td : Nat → Option Ty) (stmt : Bool) (tc : TC) (h : noComb tc.n = false) (rest : List Tok) (he : ends rest = true) :
    loop td stmt tc none rest = some (tc, none, rest) := by
  match rest, he with
  | [], _ => rfl
  | .other _ :: _, _ => simp [loop, step]
  | .colon :: _, _ => simp [loop, step]
  | .ident x :: _, _ => simp [loop, step, h]

theorem loop_end_ty (td : Nat → Option Ty) (stmt : Bool) (tc : TC) (u : Ty) (rest : List Tok) (he : ends rest = true) :
    loop td stmt tc (some u) rest = some (tc, some u, rest) := by
  match rest, he with
  | [], _ => rfl
  | .other _ :: _, _ => simp [loop, step]
  | .colon :: _, _ => simp [loop, step]
  | .ident x :: _, _ => simp [loop, step]

theorem stoGood_of_ok {l : List Sto} (h : stoOk l) : stoGood (fun _ => false) l = true := by
  rcases h with rfl | ⟨x, rfl⟩ | h | h
  · rfl
  · cases x <;> rfl
  all_goals
    have hl := h.length_eq
    match l, hl with
    | [x, y], _ => revert h; cases x <;> cases y <;> decide

/-- A table of counts. -/
def mk (a b c d e f g h : Nat) : Word → Nat
  | .unsigned => a | .signed => b | .char => c | .short => d | .int => e | .long => f | .float => g | .double => h

/-- All words. -/
def allW : List Word := [.unsigned, .signed, .char, .short, .int, .long, .float, .double]
theorem mem_allW (w : Word) : w ∈ allW := by cases w <;> decide

theorem mk_eta (n : Word → Nat) :
    n = mk (n .unsigned) (n .signed) (n .char) (n .short) (n .int) (n .long) (n .float) (n .double) := by
  funext w; cases w <;> rfl

set_option synthInstance.maxSize 100000 in
set_option synthInstance.maxHeartbeats 0 in
set_option maxRecDepth 100000 in
theorem check_rows : ∀ a < 2, ∀ b < 2, ∀ c < 2, ∀ d < 2, ∀ e < 2, ∀ f < 3, ∀ g < 2, ∀ h < 2,
    check (mk a b c d e f g h) = true → noComb (mk a b c d e f g h) = false →
      ((table.map Prod.fst ++ extra).any fun row => allW.all fun w => mk a b c d e f g h w == row.count w) = true := by
  decide +kernel

theorem rows_check : ∀ row ∈ table.map Prod.fst ++ extra, check (fun w => row.count w) = true ∧ noComb (fun w => row.count w) = false := by
  decide +kernel

theorem check_iff (n : Word → Nat) (h0 : noComb n = false) :
    check n = true ↔ ∃ row ∈ table.map Prod.fst ++ extra, ∀ w, n w = row.count w := by
  constructor
  · intro h
    have hb : n .unsigned < 2 ∧ n .signed < 2 ∧ n .char < 2 ∧ n .short < 2 ∧ n .int < 2 ∧ n .long < 3 ∧ n .float < 2 ∧ n .double < 2 := by
      have := h; simp [check] at this; omega
    obtain ⟨b1, b2, b3, b4, b5, b6, b7, b8⟩ := hb
    rw [mk_eta n] at h h0
    obtain ⟨row, hr, e⟩ := List.any_eq_true.mp (check_rows _ b1 _ b2 _ b3 _ b4 _ b5 _ b6 _ b7 _ b8 h h0)
    simp only [List.all_eq_true, beq_iff_eq] at e
    refine ⟨row, hr, fun w => ?_⟩
    rw [← e w (mem_allW w), ← mk_eta n]
  · rintro ⟨row, hr, e⟩
    rw [show n = fun w => row.count w from funext e]
    exact (rows_check row hr).1

theorem noComb_zero {n : Word → Nat} (h : noComb n = true) (w : Word) : n w = 0 := by
  simp [noComb] at h
  cases w <;> omega

/-- What `finish` makes of the lines of the table. -/
theorem table_base : ∀ p ∈ table, noComb (fun w => p.1.count w) = false ∧
    (if p.1.count Word.float > 0 then p.2 = .float
     else if p.1.count Word.double > 0 then p.2 = (if p.1.count Word.long > 0 then .ldouble else .double)
     else p.2 = .fix (if p.1.count Word.char > 0 then .char else if p.1.count Word.short > 0 then .short
          else if p.1.count Word.long = 0 then .int else if p.1.count Word.long = 1 then .long else .llong)
          (decide (p.1.count Word.unsigned > 0))) := by
  decide +kernel

/-! ## The properties -/

/-- **Every permutation of a line of C11 6.7.2p2, with storage classes and qualifiers interspersed, names the type of that line.**
Partial: the qualifiers of floating types are lost. -/
theorem words_partial (td : Nat → Option Ty) (stmt : Bool) (ts rest : List Tok) (row : List Word) (b : Base)
    (hp : ∀ t ∈ ts, t.plain = true) (hrow : (row, b) ∈ table) (hw : (words ts).Perm row) (hs : stoOk (stos ts))
    (hq : (quals ts).Nodup) (hr : .restrict ∉ quals ts) (he : ends rest = true) :
    ∃ t st, rawType td stmt (ts ++ rest) = some (some t, st, rest) ∧ t.b = b ∧ (∀ s, st s = true ↔ s ∈ stos ts) ∧
      (b.flo = false → ∀ q, t.q q = true ↔ q ∈ quals ts) := by
  have hc : (fun w => (words ts).count w) = fun w => row.count w := funext fun w => hw.count_eq w
  have hz : (TC.zero.adds ts) = ⟨fun w => row.count w, fun s => (stos ts).contains s, fun q => (quals ts).contains q⟩ := by
    rw [← hc]; simp [TC.adds, TC.zero]
  have hm : row ∈ table.map Prod.fst ++ extra := List.mem_append_left _ (List.mem_map.mpr ⟨_, hrow, rfl⟩)
  obtain ⟨k1, k2⟩ := rows_check row hm
  have hl : loop td stmt .zero none (ts ++ rest) = some (TC.zero.adds ts, none, rest) := by
    rw [loop_plain td stmt none rest ts .zero hp (by rw [hz]; exact k1) (stoGood_of_ok hs) hq (fun _ _ => rfl)]
    exact loop_end td stmt _ (by rw [hz]; exact k2) rest he
  obtain ⟨_, hb⟩ := table_base (row, b) hrow
  simp only [rawType, hl, Option.map_some, hz, finish, k2, Bool.false_and]
  simp only at hb
  rw [if_neg (by simp)]
  have hst : ∀ s, ((stos ts).contains s = true ↔ s ∈ stos ts) := by intro s; simp
  split at hb
  · rename_i h1
    rw [if_pos h1]
    exact ⟨_, _, rfl, hb.symm, hst, fun h => by rw [hb] at h; cases h⟩
  · rename_i h1
    rw [if_neg h1]
    split at hb
    · rename_i h2
      rw [if_pos h2]
      refine ⟨_, _, rfl, hb.symm, hst, fun h => ?_⟩
      rw [hb] at h; split at h <;> cases h
    · rename_i h2
      rw [if_neg h2]
      refine ⟨_, _, rfl, hb.symm, hst, fun _ q => ?_⟩
      simp only [Bool.and_eq_true, decide_eq_true_eq, List.contains_iff_mem]
      refine ⟨fun h => h.2, fun h => ⟨fun e => hr (e ▸ h), h⟩⟩

/-- `long static unsigned const int long x` meets the hypotheses. -/
example : let ts : List Tok := [.w .long, .s .static, .w .unsigned, .q .const, .w .int, .w .long]
    (∀ t ∈ ts, t.plain = true) ∧ ([.unsigned, .long, .long, .int], Base.fix .llong true) ∈ table ∧
    (words ts).Perm [.unsigned, .long, .long, .int] ∧ stoOk (stos ts) ∧ (quals ts).Nodup ∧ .restrict ∉ quals ts ∧ ends [.ident 3] = true :=
  ⟨by decide, by decide, by decide, Or.inr (Or.inl ⟨.static, rfl⟩), by decide, by decide, rfl⟩

/-- **Which sequences of words are accepted**: the lines of C11 6.7.2p2 in any order, and `extra`. -/
theorem accepted_iff (td : Nat → Option Ty) (stmt : Bool) (ws : List Word) (rest : List Tok) (h : ws ≠ []) (he : ends rest = true) :
    (rawType td stmt (ws.map .w ++ rest)).isSome = true ↔ ∃ row ∈ table.map Prod.fst ++ extra, ws.Perm row := by
  have e1 : (TC.zero.adds (ws.map .w)).n = fun w => ws.count w := by simp [TC.adds, TC.zero, words_map]
  have h0 : noComb (fun w => ws.count w) = false := by
    cases hn : noComb (fun w => ws.count w) with
    | false => rfl
    | true =>
      match ws, h with
      | x :: l, _ => have := noComb_zero hn x; simp at this
  have key : (rawType td stmt (ws.map .w ++ rest)).isSome = true ↔ check (fun w => ws.count w) = true := by
    constructor
    · intro hs
      simp only [rawType, Option.isSome_map] at hs
      obtain ⟨r, hr⟩ := Option.isSome_iff_exists.mp hs
      rw [← e1]; exact loop_words_inv td stmt rest ws .zero r h hr
    · intro hc
      simp only [rawType, Option.isSome_map]
      rw [loop_plain td stmt none rest _ .zero (by intro t ht; obtain ⟨x, _, rfl⟩ := List.mem_map.mp ht; rfl) (by rw [e1]; exact hc)
        (by rw [stos_map]; rfl) (by rw [quals_map]; simp) (fun _ _ => rfl), loop_end td stmt _ (by rw [e1]; exact h0) rest he]
      rfl
  rw [key, check_iff _ h0]
  constructor
  · rintro ⟨row, hr, e⟩; exact ⟨row, hr, List.perm_iff_count.mpr e⟩
  · rintro ⟨row, hr, e⟩; exact ⟨row, hr, fun w => e.count_eq w⟩

example : ([.w .int, .w .long] : List Tok) = [Word.int, .long].map .w ∧ [Word.int, .long] ≠ [] := ⟨rfl, by decide⟩

/-- What a name of a type stands for. -/
def nameOf (td : Nat → Option Ty) : Tok → Option Ty
  | .tag n => some ⟨.named n, fun _ => false⟩
  | .void => some ⟨.void, fun _ => false⟩
  | .ident x => td x
  | _ => none

/-- **A named type with storage classes and qualifiers before and after it.**  In a block an identifier followed by a colon is a label. -/
theorem named_ok (td : Nat → Option Ty) (stmt : Bool) (xs ys rest : List Tok) (t : Tok) (u : Ty)
    (hx : ∀ t ∈ xs ++ ys, t.plain = true) (hw : words (xs ++ ys) = []) (ht : nameOf td t = some u) (hs : stoOk (stos (xs ++ ys)))
    (hq : (quals (xs ++ ys)).Nodup) (he : ends rest = true)
    (hl : (∃ x, t = .ident x) → stmt = true → (ys ++ rest).head? ≠ some .colon) :
    ∃ v st, rawType td stmt (xs ++ t :: ys ++ rest) = some (some v, st, rest) ∧ v.b = u.b ∧ (∀ s, st s = true ↔ s ∈ stos (xs ++ ys)) ∧
      ∀ q, v.q q = true ↔ u.q q = true ∨ q ∈ quals (xs ++ ys) := by
  have wa : words (xs ++ ys) = words xs ++ words ys := by simp [words]
  have sa : stos (xs ++ ys) = stos xs ++ stos ys := by simp [stos]
  have qa : quals (xs ++ ys) = quals xs ++ quals ys := by simp [quals]
  rw [wa, List.append_eq_nil_iff] at hw
  have sg : ∀ (l1 l2 : List Sto) (s : Sto → Bool), stoGood s (l1 ++ l2) = true →
      stoGood s l1 = true ∧ stoGood (fun x => s x || l1.contains x) l2 = true := by
    intro l1 l2
    induction l1 with
    | nil => intro s h; exact ⟨rfl, by simpa using h⟩
    | cons x l1 ih =>
      intro s h
      simp only [List.cons_append, stoGood, Bool.and_eq_true] at h ⊢
      obtain ⟨h1, h2⟩ := ih _ h.2
      refine ⟨⟨h.1, h1⟩, ?_⟩
      rw [show (fun y => s y || (x :: l1).contains y) = fun y => upd s x true y || l1.contains y from ?_]
      · exact h2
      · funext y; simp only [upd]; by_cases e : y = x <;> simp [e]
  obtain ⟨s1, s2⟩ := sg (stos xs) (stos ys) (fun _ => false) (by rw [← sa]; exact stoGood_of_ok hs)
  rw [qa, List.nodup_append] at hq
  have z1 : TC.zero.adds xs = ⟨fun _ => 0, fun s => (stos xs).contains s, fun q => (quals xs).contains q⟩ := by
    simp [TC.adds, TC.zero, hw.1]
  have z2 : (TC.zero.adds xs).adds ys = ⟨fun _ => 0, fun s => (stos xs).contains s || (stos ys).contains s,
      fun q => (quals xs).contains q || (quals ys).contains q⟩ := by
    rw [z1]; simp [TC.adds, hw.2]
  have c0 : check (fun _ => 0) = true := by decide
  have l1 := loop_plain td stmt none (t :: (ys ++ rest)) xs .zero (fun t h => hx t (by simp [h])) (by rw [z1]; exact c0) s1 hq.1 (fun _ _ => rfl)
  have l2 := loop_plain td stmt (some u) rest ys (TC.zero.adds xs) (fun t h => hx t (by simp [h])) (by rw [z2]; exact c0)
    (by rw [z1]; simpa using s2) hq.2.1 (by
      intro q hq1; rw [z1]; simp only [Bool.eq_false_iff, ne_eq, List.contains_iff_mem]
      intro hq2; exact hq.2.2 q hq2 q hq1 rfl)
  have l3 : loop td stmt (TC.zero.adds xs) none (t :: (ys ++ rest)) = loop td stmt (TC.zero.adds xs) (some u) (ys ++ rest) := by
    have n0 : noComb (TC.zero.adds xs).n = true := by rw [z1]; rfl
    cases t with
    | tag n => simp only [nameOf, Option.some.injEq] at ht; subst ht; simp [loop, step, n0]
    | void => simp only [nameOf, Option.some.injEq] at ht; subst ht; simp [loop, step]
    | ident x =>
      simp only [nameOf] at ht
      have : (stmt && (ys ++ rest).head? == some .colon) = false := by
        cases hst : stmt with
        | false => rfl
        | true => have := hl ⟨x, rfl⟩ hst; simpa using this
      simp only [loop, step, n0, this, ht]
      simp
    | w _ | s _ | q _ | colon | other _ => cases ht
  have : loop td stmt .zero none (xs ++ t :: ys ++ rest) = some ((TC.zero.adds xs).adds ys, some u, rest) := by
    rw [show xs ++ t :: ys ++ rest = xs ++ t :: (ys ++ rest) by simp, l1, l3, l2]
    exact loop_end_ty td stmt _ u rest he
  simp only [rawType, this, Option.map_some, finish, z2]
  refine ⟨_, _, rfl, rfl, fun s => ?_, fun q => ?_⟩
  · rw [sa]; simp
  · rw [qa]; simp

/-- `volatile T static const x`. -/
example : let xs : List Tok := [.q .volatile]; let ys : List Tok := [.s .static, .q .const]
    (∀ t ∈ xs ++ ys, t.plain = true) ∧ words (xs ++ ys) = [] ∧ stoOk (stos (xs ++ ys)) ∧ (quals (xs ++ ys)).Nodup ∧
      nameOf (fun _ => some ⟨.named 7, fun _ => false⟩) (.ident 3) ≠ none :=
  ⟨by decide, rfl, Or.inr (Or.inl ⟨.static, rfl⟩), by decide, by simp [nameOf]⟩

/-- Without a specifier there is no type, and nothing is consumed. -/
theorem no_type (td : Nat → Option Ty) (stmt : Bool) (t : Tok) (rest : List Tok) (hp : t.plain = false) (hn : nameOf td t = none) :
    rawType td stmt (t :: rest) = some (none, fun _ => false, t :: rest) := by
  cases t with
  | w _ | s _ | q _ => cases hp
  | tag _ | void => cases hn
  | ident x =>
    simp only [nameOf] at hn
    have n0 : noComb TC.zero.n = true := by decide
    simp only [rawType, loop, step, hn]
    split
    · rename_i h; cases h
    · split <;> rfl
  | colon | other _ => rfl

example : Tok.plain (.ident 3) = false ∧ nameOf (fun _ => none) (.ident 3) = none := ⟨rfl, rfl⟩

/-- A label `x:` in a block is not a type, even if `x` is a typedef name. -/
theorem label (td : Nat → Option Ty) (x : Nat) (rest : List Tok) :
    rawType td true (.ident x :: .colon :: rest) = some (none, fun _ => false, .ident x :: .colon :: rest) := by
  simp [rawType, loop, step, finish, TC.zero, noComb, only]

/-! ## Findings -/

/-- **Finding.** `float double`, `char int`, `unsigned signed` and so on are accepted; none is in C11 6.7.2p2. -/
theorem extra_wrong : (∀ row ∈ extra, (rawType (fun _ => none) false (row.map .w ++ [.ident 0])).isSome = true) ∧
    ∀ row ∈ extra, ∀ p ∈ table, ¬ row.Perm p.1 :=
  ⟨by decide +kernel, by decide +kernel⟩

/-- **Finding.** `const double` and `const float` are not const (parser_type.c:356-359): the qualifiers of floating types are lost. -/
theorem const_double_wrong : ∀ w ∈ [Word.double, .float], ∃ t st, rawType (fun _ => none) false [.q .const, .w w, .ident 0] = some (some t, st, [.ident 0]) ∧
    t.q .const = false := by
  intro w hw
  rcases List.mem_cons.mp hw with rfl | hw
  · exact ⟨_, _, rfl, rfl⟩
  · rcases List.mem_cons.mp hw with rfl | hw
    · exact ⟨_, _, rfl, rfl⟩
    · cases hw

/-- **Finding.** `int void` is `void`, `void long` too, and `struct S int` is `struct S`; C allows none of them. -/
theorem mixed_wrong : (∃ t st, rawType (fun _ => none) false [.w .int, .void, .ident 0] = some (some t, st, [.ident 0]) ∧ t.b = .void) ∧
    (∃ t st, rawType (fun _ => none) false [.void, .w .long, .ident 0] = some (some t, st, [.ident 0]) ∧ t.b = .void) ∧
    (∃ t st, rawType (fun _ => none) false [.tag 1, .w .int, .ident 0] = some (some t, st, [.ident 0]) ∧ t.b = .named 1) :=
  ⟨⟨_, _, rfl, rfl⟩, ⟨_, _, rfl, rfl⟩, ⟨_, _, rfl, rfl⟩⟩

/-- **Finding.** `static x` declares an `int`, and `auto register` is accepted; `const const int`, which C allows, is refused. -/
theorem lenient_wrong : (∃ t st, rawType (fun _ => none) false [.s .static, .ident 0] = some (some t, st, [.ident 0]) ∧ t.b = .fix .int false) ∧
    (∃ t st, rawType (fun _ => none) false [.s .auto, .s .register, .w .int, .ident 0] = some (some t, st, [.ident 0]) ∧ st .auto = true ∧ st .register = true) ∧
    rawType (fun _ => none) false [.q .const, .q .const, .w .int, .ident 0] = none :=
  ⟨⟨_, _, rfl, rfl⟩, ⟨_, _, rfl, rfl, rfl⟩, rfl⟩

end Verif.Spec

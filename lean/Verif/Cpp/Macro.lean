/-
Macro expansion (C22, C53).

Models /repo/src/cpp/macro.c and `pp_funargs`, /repo/src/cpp/pp_parser.c:156-241, and the part
of `process_line`, /repo/src/cpp/preprocessor.c:134-204, that expands identifiers.

A token is its address (`id`), its kind and its text; the name of an identifier is its text
(names are interned, see `Verif.Names`).  The hide sets are kept, as in the code, in a map from
token addresses to sets of names; a missing entry (`NULL`) and an empty set behave alike.
Simplifications: the rest of the source is a list of tokens (line ends are transparent to the
expander, pp_parser.c:156-164), each with a mark whether white space precedes it; directives
between the arguments of a call, which may change the macros while a call is read, are not
modelled; addresses of new tokens are taken from a counter.
-/
import Mathlib.Logic.Hydra
import Mathlib.Data.Finset.Card
import Mathlib.Data.List.Infix
import Verif.Util.Escape

namespace Verif.Macro

/-! ### Model -/

abbrev Name := List Nat

/-- The token kinds the expander distinguishes. -/
inductive Kind where
  | ident | lpar | rpar | comma | space | strfy | concat | str | other
deriving DecidableEq, Repr

structure Tok where
  id : Nat
  kind : Kind
  text : Name
deriving DecidableEq, Repr

/-- `Macro`, macro.h:7-12; `params = none` is `params_len == -1`. A missing body is empty. -/
structure Macro where
  params : Option (List Name)
  va : Option Name
  body : List Tok
deriving DecidableEq, Repr

/-- `param_table`, macro.c:21-34: the index of a parameter; a later entry of the same name wins. -/
def Macro.index (m : Macro) (n : Name) : Option Nat :=
  match m.params with
  | none => none
  | some ps =>
    if m.va = some n then some ps.length
    else
      let i := ps.reverse.findIdx (· == n)
      if i < ps.length then some (ps.length - 1 - i) else none

/-- The number of arguments of a call, macro.c:381-382. -/
def Macro.count (m : Macro) (ps : List Name) : Nat := if m.va.isSome then ps.length + 1 else ps.length

/-- The limit `pp_funargs` is given, macro.c:378-379; `none` for `INT_MAX`. -/
def Macro.limit (m : Macro) (ps : List Name) : Option Nat := if m.va.isSome then some ps.length else none

/-- The macros in force: `macro_table`, macro.c:340-357. -/
abbrev Tab := List (Name × Macro)

/-- `macro_get`, macro.c:351-353. -/
def Tab.get (tab : Tab) (n : Name) : Option Macro := (tab.find? fun p => p.1 == n).map (·.2)

/-- The state: hide sets (`hideset_array`, macro.c:43), the source not read yet, the next
address. -/
structure St where
  hs : Nat → Finset Name
  src : List (Tok × Bool)
  next : Nat

/-- The outcome of a computation: a value, a reported error, or not finished yet. -/
inductive Res (α : Type) where
  | ok (a : α)
  | err
  | out

def Res.bind {α β : Type} : Res α → (α → Res β) → Res β
  | .ok a, f => f a
  | .err, _ => .err
  | .out, _ => .out

/-- `glue1`, macro.c:121-138. -/
def glue1 (os : List Tok) (t : Tok) (st : St) : List Tok × St :=
  match os.getLast? with
  | some l => (os.dropLast ++ [⟨st.next, .ident, l.text ++ t.text⟩], { st with next := st.next + 1 })
  | none => ([t], st)

/-- `glue`, macro.c:140-150. -/
def glue (os rs : List Tok) (st : St) : List Tok × St :=
  match os, rs with
  | [], rs => (rs, st)
  | os, [] => (os, st)
  | os, r :: rs => let p := glue1 os r st; (p.1 ++ rs, p.2)

/-- `stringize`, macro.c:152-173: the texts of the argument, escaped, between quotes. -/
def stringize (arg : List Tok) : Option Name :=
  (Escape.escapeString (arg.flatMap (·.text))).map fun s => 34 :: s ++ [34]

/-- `"__VA_OPT__"`. -/
def vaOpt : Name := [95, 95, 86, 65, 95, 79, 80, 84, 95, 95]

/-- What `subst` does with a token of the body. -/
inductive Act where
  /-- push the token, then leave out the next `skip` tokens -/
  | push (skip : Nat)
  /-- push the text of argument `j` as a string (one token of the body left out) -/
  | str (j : Nat)
  /-- paste argument `j` (one token left out) -/
  | glueArg (j : Nat)
  /-- paste a token (one token left out) -/
  | glueTok (t : Tok)
  /-- push tokens, leave out the next `skip` -/
  | emit (ts : List Tok) (skip : Nat)
  /-- push argument `j`, expanded -/
  | param (j : Nat)

/-- The `switch` of `subst`, macro.c:212-330: what to do with token `t`, followed by `b`.  `ne`:
something has been put out already.  That the index of a parameter is less than the number of
arguments (the `assert`s) is ensured by macro.c:383; out of bounds is read as empty here. -/
def classify (m : Macro) (args : List (List Tok)) (ne : Bool) (t : Tok) (b : List Tok) : Act :=
  match t.kind with
  | .strfy =>
    match b with
    | nx :: _ =>
      if nx.kind = .ident then
        match m.index nx.text with
        | some j => .str j
        | none => .push 0
      else .push 0
    | [] => .push 0
  | .concat =>
    match ne, b with
    | true, nx :: _ =>
      if nx.kind = .ident then
        match m.index nx.text with
        | some j => .glueArg j
        | none => .glueTok nx
      else .glueTok nx
    | _, _ => .push 0
  | .ident =>
    match b.head?.map (·.kind), m.index t.text with
    | some Kind.concat, some j =>
      if args.getD j [] = [] then
        match b.tail with
        | nx :: _ =>
          if nx.kind = .ident then
            match m.index nx.text with
            | some k => .emit (args.getD k []) 2
            | none => .emit [] 2
          else .emit [] 2
        | [] => .emit [] 2
      else .emit (args.getD j []) 0
    | _, some j => .param j
    | _, none =>
      if m.va.isSome ∧ t.text = vaOpt ∧ 1 < b.length ∧ b.head?.map (·.kind) = some .lpar ∧
          (b.tail.findIdx fun x => x.kind == .rpar) < b.tail.length then
        let j := b.tail.findIdx fun x => x.kind == .rpar
        .emit (if args.getLastD [] = [] then [] else b.tail.take j) (j + 2)
      else .push 0
  | .comma =>
    match b with
    | c :: nx :: _ =>
      if c.kind = .concat ∧ m.va.isSome ∧ nx.kind = .ident ∧ m.params.isSome ∧
          m.index nx.text = m.params.map (·.length) then
        if args.getLastD [] = [] then .emit [] 2 else .push 1
      else .push 0
    | _ => .push 0
  | _ => .push 0

/-- The loop of `subst`, macro.c:209-333.  `mx` is `macro_expand`; `cache` is `expanded_args`;
`skip` is the number of tokens of the body still to be left out. -/
def substLoop (mx : List Tok → St → Res (List Tok × St)) (m : Macro) (args : List (List Tok)) :
    List Tok → (skip : Nat) → (os : List Tok) → (cache : Nat → Option (List Tok)) → St →
    Res (List Tok × St)
  | [], _, os, _, st => .ok (os, st)
  | _ :: b, skip + 1, os, cache, st => substLoop mx m args b skip os cache st
  | t :: b, 0, os, cache, st =>
    match classify m args (!os.isEmpty) t b with
    | .push k => substLoop mx m args b k (os ++ [t]) cache st
    | .str j =>
      match stringize (args.getD j []) with
      | some s => substLoop mx m args b 1 (os ++ [⟨st.next, .str, s⟩]) cache
          { st with next := st.next + 1 }
      | none => .err
    | .glueArg j =>
      let p := glue os (args.getD j []) st
      substLoop mx m args b 1 p.1 cache p.2
    | .glueTok x =>
      let p := glue1 os x st
      substLoop mx m args b 1 p.1 cache p.2
    | .emit ts k => substLoop mx m args b k (os ++ ts) cache st
    | .param j =>
      match cache j with
      | some e => substLoop mx m args b 0 (os ++ e) cache st
      | none =>
        (mx (args.getD j []) st).bind fun p =>
          substLoop mx m args b 0 (os ++ p.1) (fun i => if i = j then some p.1 else cache i) p.2

/-- The kinds of tokens that have hide sets, macro.c:178. -/
def rel (t : Tok) : Bool := t.kind == .ident || t.kind == .rpar

/-- `hsadd`, macro.c:175-188. -/
def hsadd (h : Finset Name) (ts : List Tok) (hs : Nat → Finset Name) : Nat → Finset Name :=
  fun i => if ts.any (fun t => rel t && t.id == i) then hs i ∪ h else hs i

/-- `subst`, macro.c:190-336. -/
def subst (mx : List Tok → St → Res (List Tok × St)) (m : Macro) (args : List (List Tok))
    (h : Finset Name) (st : St) : Res (List Tok × St) :=
  (substLoop mx m args m.body 0 [] (fun _ => none) st).bind fun p =>
    .ok (p.1, { p.2 with hs := hsadd h p.1 p.2.hs })

/-- A space token, pp_parser.c:226. -/
def spaceTok : Tok := ⟨0, .space, [32]⟩

/-- The result of `pp_funargs`: not a call, an error, or the arguments, the closing parenthesis
and the index after it. -/
inductive Args where
  | noCall
  | err
  | call (args : List (List Tok)) (rp : Tok) (k : Nat)
deriving DecidableEq, Repr

/-- The loop of `pp_funargs`, pp_parser.c:196-234, on the tokens to come; `lim` is `vaarg`
(`none` for `INT_MAX`), `k` the index, `arg = none` is `arg == NULL`. -/
def argsLoop (lim : Option Nat) : List (Tok × Bool) → (k paren : Nat) → (args : List (List Tok)) →
    (arg : Option (List Tok)) → Args
  | [], _, _, _, _ => .err
  | (t, sp) :: l, k, paren, args, arg =>
    if t.kind = .rpar ∧ paren = 0 then
      let args := args ++ arg.toList
      .call (if some args.length = lim then args ++ [[]] else args) t (k + 1)
    else
      let paren := if t.kind = .lpar then paren + 1 else if t.kind = .rpar then paren - 1 else paren
      let a := arg.getD []
      if t.kind = .comma ∧ paren = 0 ∧ (∀ n ∈ lim, args.length < n) then
        argsLoop lim l (k + 1) paren (args ++ [a]) (some [])
      else
        let a := if sp ∧ a ≠ [] then a ++ [spaceTok] else a
        let a := if t.kind ≠ .space ∨ a ≠ [] then a ++ [t] else a
        argsLoop lim l (k + 1) paren args (some a)

/-- `pp_funargs`, pp_parser.c:185-241. -/
def funargs (lim : Option Nat) : List (Tok × Bool) → (k : Nat) → Args
  | [], _ => .noCall
  | (t, _) :: l, k =>
    if t.kind = .space then funargs lim l (k + 1)
    else if t.kind = .lpar then argsLoop lim l (k + 1) 0 [] none
    else .noCall

/-- The tokens a call may be read from: the rest of the vector, then the source, `match3`,
pp_parser.c:166-183. -/
def input (rest : List Tok) (st : St) : List (Tok × Bool) := rest.map (fun t => (t, false)) ++ st.src

/-- `macro_expand`, macro.c:359-405.  The first argument bounds the depth of the recursion. -/
def expand (tab : Tab) : Nat → List Tok → St → Res (List Tok × St)
  | 0, _, _ => .out
  | _ + 1, [], st => .ok ([], st)
  | n + 1, t :: rest, st =>
    let pass := (expand tab n rest st).bind fun p => .ok (t :: p.1, p.2)
    if t.kind ≠ .ident then pass
    else
      match tab.get t.text with
      | none => pass
      | some m =>
        if t.text ∈ st.hs t.id then pass
        else
          match m.params with
          | none =>
            (subst (expand tab n) m [] (insert t.text (st.hs t.id)) st).bind fun p =>
              expand tab n (p.1 ++ rest) p.2
          | some ps =>
            match funargs (m.limit ps) (input rest st) 0 with
            | .noCall => pass
            | .err => .err
            | .call args rp k =>
              if args.length ≠ m.count ps then .err
              else
                (subst (expand tab n) m args (insert t.text (st.hs t.id ∩ st.hs rp.id))
                    { st with src := st.src.drop (k - rest.length) }).bind fun p =>
                  expand tab n (p.1 ++ rest.drop k) p.2

/-- `process_line`, preprocessor.c:134-204, run until the source is used up: the tokens put out.
Simplification: `defined`, comments and the white space between tokens are left out. -/
def text (tab : Tab) : Nat → St → Res (List Tok × St)
  | 0, _ => .out
  | n + 1, st =>
    match st.src with
    | [] => .ok ([], st)
    | (t, _) :: src =>
      if t.kind = .ident ∧ (tab.get t.text).isSome then
        (expand tab n [t] { st with src := src }).bind fun p =>
          (text tab n p.2).bind fun q => .ok (p.1 ++ q.1, q.2)
      else (text tab n { st with src := src }).bind fun q => .ok (t :: q.1, q.2)

/-! ### The order of states -/

/-- Hide sets only grow, the source is only read. -/
structure St.le (a b : St) : Prop where
  hs : ∀ i, a.hs i ⊆ b.hs i
  src : b.src <:+ a.src

theorem St.le_refl (a : St) : a.le a := ⟨fun _ => Finset.Subset.refl _, List.suffix_refl _⟩

theorem St.le.le_trans {a b c : St} (h1 : a.le b) (h2 : b.le c) : a.le c :=
  ⟨fun i => (h1.1 i).trans (h2.1 i), h2.2.trans h1.2⟩

theorem bind_ok {α β : Type} {r : Res α} {f : α → Res β} {b : β} (h : r.bind f = .ok b) :
    ∃ a, r = .ok a ∧ f a = .ok b := by
  cases r with
  | ok a => exact ⟨a, rfl, h⟩
  | err => simp [Res.bind] at h
  | out => simp [Res.bind] at h

theorem glue1_le (os : List Tok) (t : Tok) (st : St) : st.le (glue1 os t st).2 := by
  unfold glue1
  split
  · exact ⟨fun _ => Finset.Subset.refl _, List.suffix_refl _⟩
  · exact st.le_refl

theorem glue_le (os rs : List Tok) (st : St) : st.le (glue os rs st).2 := by
  unfold glue
  split
  · exact st.le_refl
  · exact st.le_refl
  · exact glue1_le _ _ _

theorem substLoop_le {mx : List Tok → St → Res (List Tok × St)}
    (hmx : ∀ a st p, mx a st = .ok p → st.le p.2) (m : Macro) (args : List (List Tok)) :
    ∀ (b : List Tok) (skip : Nat) (os : List Tok) (cache : Nat → Option (List Tok)) (st : St)
      (p : List Tok × St), substLoop mx m args b skip os cache st = .ok p → st.le p.2
  | [], _, os, _, st, p, h => by
    simp only [substLoop, Res.ok.injEq] at h
    subst h
    exact st.le_refl
  | _ :: b, skip + 1, os, cache, st, p, h => substLoop_le hmx m args b skip os cache st p h
  | t :: b, 0, os, cache, st, p, h => by
    simp only [substLoop] at h
    split at h
    · exact substLoop_le hmx m args b _ _ _ _ p h
    · split at h
      · exact St.le.le_trans (b := { st with next := st.next + 1 })
          ⟨fun _ => Finset.Subset.refl _, List.suffix_refl _⟩ (substLoop_le hmx m args b _ _ _ _ p h)
      · simp at h
    · exact (glue_le _ _ _).le_trans (substLoop_le hmx m args b _ _ _ _ p h)
    · exact (glue1_le _ _ _).le_trans (substLoop_le hmx m args b _ _ _ _ p h)
    · exact substLoop_le hmx m args b _ _ _ _ p h
    · split at h
      · exact substLoop_le hmx m args b _ _ _ _ p h
      · obtain ⟨q, h1, h2⟩ := bind_ok h
        exact (hmx _ _ _ h1).le_trans (substLoop_le hmx m args b _ _ _ _ p h2)

theorem subst_le {mx : List Tok → St → Res (List Tok × St)}
    (hmx : ∀ a st p, mx a st = .ok p → st.le p.2) {m : Macro} {args : List (List Tok)}
    {h : Finset Name} {st : St} {p : List Tok × St} (hp : subst mx m args h st = .ok p) :
    st.le p.2 ∧ ∀ t ∈ p.1, rel t → h ⊆ p.2.hs t.id := by
  obtain ⟨q, h1, h2⟩ := bind_ok hp
  simp only [Res.ok.injEq] at h2
  subst h2
  constructor
  · refine (substLoop_le hmx m args _ _ _ _ _ _ h1).le_trans ⟨fun i => ?_, List.suffix_refl _⟩
    simp only [hsadd]
    split
    · exact Finset.subset_union_left
    · exact Finset.Subset.refl _
  · intro t ht hr
    have : (q.1.any fun x => rel x && x.id == t.id) = true :=
      List.any_eq_true.mpr ⟨t, ht, by simp [hr]⟩
    simp only [hsadd, this, if_true]
    exact Finset.subset_union_right

theorem expand_le (tab : Tab) : ∀ (n : Nat) (l : List Tok) (st : St) (p : List Tok × St),
    expand tab n l st = .ok p → st.le p.2
  | 0, _, _, p, h => by simp [expand] at h
  | _ + 1, [], st, p, h => by
    simp only [expand, Res.ok.injEq] at h
    subst h
    exact st.le_refl
  | n + 1, t :: rest, st, p, h => by
    have pass : ∀ p, ((expand tab n rest st).bind fun p => .ok (t :: p.1, p.2)) = .ok p →
        st.le p.2 := by
      intro p h
      obtain ⟨q, h1, h2⟩ := bind_ok h
      simp only [Res.ok.injEq] at h2
      subst h2
      exact expand_le tab n rest st q h1
    simp only [expand] at h
    split at h
    · exact pass p h
    · split at h
      · exact pass p h
      · split at h
        · exact pass p h
        · split at h
          · obtain ⟨q, h1, h2⟩ := bind_ok h
            exact (subst_le (expand_le tab n) h1).1.le_trans (expand_le tab n _ _ _ h2)
          · split at h
            · exact pass p h
            · simp at h
            · split at h
              · simp at h
              · obtain ⟨q, h1, h2⟩ := bind_ok h
                refine St.le.le_trans (b := { st with src := st.src.drop _ }) ?_
                  ((subst_le (expand_le tab n) h1).1.le_trans (expand_le tab n _ _ _ h2))
                exact ⟨fun _ => Finset.Subset.refl _, List.drop_suffix _ _⟩

/-! ### More fuel does not change a result -/

/-- `f` finishes whenever `g` does, with the same result. -/
def Ext (g f : List Tok → St → Res (List Tok × St)) : Prop :=
  ∀ a st, g a st ≠ .out → f a st = g a st

theorem bind_ext {α β : Type} {r r' : Res α} {f f' : α → Res β} (h : r.bind f ≠ .out)
    (h1 : r ≠ .out → r' = r) (h2 : ∀ a, r = .ok a → f a ≠ .out → f' a = f a) :
    r'.bind f' = r.bind f := by
  cases r with
  | ok a => rw [h1 (by simp)]; exact h2 a rfl h
  | err => rw [h1 (by simp)]; rfl
  | out => exact absurd rfl h

theorem substLoop_ext {g f : List Tok → St → Res (List Tok × St)} (hgf : Ext g f) (m : Macro)
    (args : List (List Tok)) :
    ∀ (b : List Tok) (skip : Nat) (os : List Tok) (cache : Nat → Option (List Tok)) (st : St),
      substLoop g m args b skip os cache st ≠ .out →
      substLoop f m args b skip os cache st = substLoop g m args b skip os cache st
  | [], _, os, _, st, _ => rfl
  | _ :: b, skip + 1, os, cache, st, h => substLoop_ext hgf m args b skip os cache st h
  | t :: b, 0, os, cache, st, h => by
    simp only [substLoop] at h ⊢
    split
    · rename_i hc
      simp only [hc] at h
      exact substLoop_ext hgf m args b _ _ _ _ h
    · rename_i hc
      simp only [hc] at h
      split
      · rename_i hs
        simp only [hs] at h
        exact substLoop_ext hgf m args b _ _ _ _ h
      · rfl
    · rename_i hc
      simp only [hc] at h
      exact substLoop_ext hgf m args b _ _ _ _ h
    · rename_i hc
      simp only [hc] at h
      exact substLoop_ext hgf m args b _ _ _ _ h
    · rename_i hc
      simp only [hc] at h
      exact substLoop_ext hgf m args b _ _ _ _ h
    · rename_i hc
      simp only [hc] at h
      split
      · rename_i hs
        simp only [hs] at h
        exact substLoop_ext hgf m args b _ _ _ _ h
      · rename_i hs
        simp only [hs] at h
        exact bind_ext h (hgf _ _) fun a _ ha => substLoop_ext hgf m args b _ _ _ _ ha

theorem subst_ext {g f : List Tok → St → Res (List Tok × St)} (hgf : Ext g f) {m : Macro}
    {args : List (List Tok)} {hset : Finset Name} {st : St}
    (h : subst g m args hset st ≠ .out) : subst f m args hset st = subst g m args hset st :=
  bind_ext h (substLoop_ext hgf m args _ _ _ _ _) fun _ _ _ => rfl

theorem expand_succ (tab : Tab) : ∀ n, Ext (expand tab n) (expand tab (n + 1))
  | 0 => fun _ _ h => absurd rfl h
  | n + 1 => by
    have ih := expand_succ tab n
    intro l st h
    cases l with
    | nil => rfl
    | cons t rest =>
      have pass : ((expand tab n rest st).bind fun p => Res.ok (t :: p.1, p.2)) ≠ .out →
          ((expand tab (n + 1) rest st).bind fun p => Res.ok (t :: p.1, p.2)) =
          ((expand tab n rest st).bind fun p => Res.ok (t :: p.1, p.2)) :=
        fun h => bind_ext h (ih _ _) fun _ _ _ => rfl
      rw [expand] at h ⊢
      rw [expand]
      split
      · rename_i hk
        simp only [if_pos hk] at h
        exact pass h
      · rename_i hk
        simp only [if_neg hk] at h
        split
        · rename_i hm
          simp only [hm] at h
          exact pass h
        · rename_i m hm
          simp only [hm] at h
          split
          · rename_i hh
            simp only [if_pos hh] at h
            exact pass h
          · rename_i hh
            simp only [if_neg hh] at h
            split
            · rename_i hp
              simp only [hp] at h
              exact bind_ext h (subst_ext ih) fun p _ hp => ih _ _ hp
            · rename_i ps hp
              simp only [hp] at h
              split
              · rename_i hf
                simp only [hf] at h
                exact pass h
              · rfl
              · rename_i args rp k hf
                simp only [hf] at h
                split
                · rfl
                · rename_i hl
                  simp only [if_neg hl] at h
                  exact bind_ext h (subst_ext ih) fun p _ hp => ih _ _ hp

theorem expand_mono (tab : Tab) {n m : Nat} (h : n ≤ m) : Ext (expand tab n) (expand tab m) := by
  induction m with
  | zero =>
    have : n = 0 := by omega
    subst this
    exact fun _ _ _ => rfl
  | succ m ih =>
    by_cases hm : n ≤ m
    · intro a st ha
      have h1 := ih hm a st ha
      rw [expand_succ tab m a st (by rw [h1]; exact ha), h1]
    · have : n = m + 1 := by omega
      subst this
      exact fun _ _ _ => rfl

/-! ### Termination -/

/-- One number is replaced by finitely many smaller ones. -/
abbrev Cut : Multiset ℕ → Multiset ℕ → Prop := Relation.CutExpand (· < ·)

abbrev MLt : Multiset ℕ → Multiset ℕ → Prop := Relation.TransGen Cut

abbrev MLe : Multiset ℕ → Multiset ℕ → Prop := Relation.ReflTransGen Cut

theorem mlt_wf : WellFounded MLt := (WellFounded.cutExpand Nat.lt_wfRel.wf).transGen

theorem mle_cases {a b : Multiset ℕ} (h : MLe a b) : a = b ∨ MLt a b := by
  rcases Relation.reflTransGen_iff_eq_or_transGen.mp h with h | h
  · exact .inl h.symm
  · exact .inr h

theorem cut_add {a b : Multiset ℕ} (c : Multiset ℕ) (h : Cut a b) : Cut (c + a) (c + b) :=
  (Relation.cutExpand_add_left c).mpr h

theorem mle_add_left {a b : Multiset ℕ} (c : Multiset ℕ) (h : MLe a b) : MLe (c + a) (c + b) := by
  induction h with
  | refl => exact .refl
  | tail _ h ih => exact ih.tail (cut_add c h)

theorem mle_add {a b c d : Multiset ℕ} (h1 : MLe a b) (h2 : MLe c d) : MLe (a + c) (b + d) := by
  refine (mle_add_left a h2).trans ?_
  rw [add_comm a, add_comm b]
  exact mle_add_left d h1

theorem mlt_many {y : Multiset ℕ} {d : ℕ} (h : ∀ a ∈ y, a < d) : MLt y {d} :=
  .single (Relation.cutExpand_singleton h)

theorem mlt_add {a b c d : Multiset ℕ} (h1 : MLt a b) (h2 : MLe c d) : MLt (a + c) (b + d) := by
  have h3 : MLt (a + d) (b + d) := by
    rw [add_comm a, add_comm b]
    clear h2
    induction h1 with
    | single h => exact .single (cut_add d h)
    | tail _ h ih => exact ih.tail (cut_add d h)
  exact Relation.TransGen.trans_right (mle_add_left a h2) h3

theorem mle_single {a b : ℕ} (h : a ≤ b) : MLe {a} {b} := by
  rcases Nat.lt_or_eq_of_le h with h | h
  · exact (mlt_many (by simpa using h)).to_reflTransGen
  · subst h
    exact .refl

theorem mle_drop (a : ℕ) (s : Multiset ℕ) : MLe s ({a} + s) := by
  have := mle_add (mlt_many (y := 0) (d := a) (by simp)).to_reflTransGen (.refl (a := s))
  simpa using this

/-- How deep every token to come can still be expanded: the number of macros not in all of the
hide sets from the first token up to it.  `E` is the intersection so far. -/
def lev (hs : Nat → Finset Name) (u : ℕ) : Finset Name → List Tok → Multiset ℕ
  | _, [] => 0
  | E, t :: l =>
    if rel t then {u - (E ∩ hs t.id).card} + lev hs u (E ∩ hs t.id) l else lev hs u E l

theorem lev_mono {hs hs' : Nat → Finset Name} (hh : ∀ i, hs i ⊆ hs' i) (u : ℕ)
    {l l' : List Tok} (hl : (l'.filter rel).Sublist (l.filter rel)) :
    ∀ {E E' : Finset Name}, E ⊆ E' → MLe (lev hs' u E' l') (lev hs u E l) := by
  have norm : ∀ (hs : Nat → Finset Name) (l : List Tok) (E : Finset Name),
      lev hs u E l = lev hs u E (l.filter rel) := by
    intro hs l
    induction l with
    | nil => intro E; rfl
    | cons t l ih =>
      intro E
      by_cases hr : rel t
      · simp only [List.filter_cons, hr, if_true, lev]
        rw [ih]
      · simp only [List.filter_cons, hr, if_false, lev, Bool.false_eq_true]
        rw [ih]
  intro E E' hE
  rw [norm hs' l', norm hs l]
  have hrel : ∀ t ∈ l.filter rel, rel t = true := fun t ht => (List.mem_filter.mp ht).2
  generalize l.filter rel = a at hl hrel
  generalize l'.filter rel = b at hl
  clear norm
  induction hl generalizing E E' with
  | slnil => exact .refl
  | cons t h ih =>
    have hr := hrel t (by simp)
    simp only [lev, hr, if_true]
    refine Relation.ReflTransGen.trans ?_ (mle_drop _ _)
    exact ih (Finset.inter_subset_left.trans hE) fun x hx => hrel x (by simp [hx])
  | cons_cons t h ih =>
    have hr := hrel t (by simp)
    simp only [lev, hr, if_true]
    have hs1 : E ∩ hs t.id ⊆ E' ∩ hs' t.id := Finset.inter_subset_inter hE (hh _)
    refine mle_add (mle_single ?_) (ih hs1 fun x hx => hrel x (by simp [hx]))
    have := Finset.card_le_card hs1
    omega

theorem lev_new {hs : Nat → Finset Name} (u : ℕ) {c : Finset Name} (tail : List Tok) :
    ∀ (new : List Tok) (E : Finset Name), c ⊆ E → (∀ t ∈ new, rel t → c ⊆ hs t.id) →
    ∃ y E', lev hs u E (new ++ tail) = y + lev hs u E' tail ∧ c ⊆ E' ∧ ∀ a ∈ y, a ≤ u - c.card
  | [], E, hE, _ => ⟨0, E, by simp, hE, by simp⟩
  | t :: new, E, hE, ht => by
    by_cases hr : rel t
    · have h1 : c ⊆ E ∩ hs t.id := Finset.subset_inter hE (ht t (by simp) hr)
      obtain ⟨y, E', e1, e2, e3⟩ := lev_new u tail new (E ∩ hs t.id) h1
        fun x hx => ht x (by simp [hx])
      refine ⟨{u - (E ∩ hs t.id).card} + y, E', ?_, e2, ?_⟩
      · simp only [List.cons_append, lev, hr, if_true, e1]
        rw [add_assoc]
      · intro a ha
        rcases Multiset.mem_add.mp ha with ha | ha
        · have := Finset.card_le_card h1
          rw [Multiset.mem_singleton] at ha
          omega
        · exact e3 a ha
    · obtain ⟨y, E', e1, e2, e3⟩ := lev_new u tail new E hE fun x hx => ht x (by simp [hx])
      refine ⟨y, E', ?_, e2, e3⟩
      simp only [List.cons_append, lev, hr, Bool.false_eq_true, if_false, e1]

theorem lev_skip {hs : Nat → Finset Name} (u : ℕ) (tail : List Tok) :
    ∀ (mid : List Tok) (E : Finset Name), ∃ E', E' ⊆ E ∧
      MLe (lev hs u E' tail) (lev hs u E (mid ++ tail))
  | [], E => ⟨E, Finset.Subset.refl _, .refl⟩
  | t :: mid, E => by
    by_cases hr : rel t
    · obtain ⟨E', h1, h2⟩ := lev_skip (hs := hs) u tail mid (E ∩ hs t.id)
      refine ⟨E', h1.trans Finset.inter_subset_left, h2.trans ?_⟩
      simp only [List.cons_append, lev, hr, if_true]
      exact mle_drop _ _
    · obtain ⟨E', h1, h2⟩ := lev_skip (hs := hs) u tail mid E
      refine ⟨E', h1, h2.trans ?_⟩
      simp only [List.cons_append, lev, hr, Bool.false_eq_true, if_false]
      exact .refl

/-- The step: the token `rp` goes, tokens that hide more than it and its predecessors come. -/
theorem lev_step {hs hs' : Nat → Finset Name} (hh : ∀ i, hs i ⊆ hs' i) {U C E : Finset Name}
    {f : Name} {rp : Tok} {new tail tail' : List Tok} (hU : f ∈ U) (hn : f ∉ C) (hr : rel rp)
    (hE : E ∩ hs rp.id ⊆ U ∩ C) (hnew : ∀ t ∈ new, rel t → insert f C ⊆ hs' t.id)
    (ht : (tail'.filter rel).Sublist (tail.filter rel)) :
    MLt (lev hs' U.card U (new ++ tail')) (lev hs U.card E (rp :: tail)) := by
  have hc : U ∩ insert f C ⊆ U := Finset.inter_subset_left
  obtain ⟨y, E', e1, e2, e3⟩ := lev_new (hs := hs') U.card tail' new U hc
    fun t hx hr => Finset.inter_subset_right.trans (hnew t hx hr)
  have hsub : E ∩ hs rp.id ⊆ U ∩ insert f C :=
    hE.trans (Finset.inter_subset_inter_left (Finset.subset_insert _ _))
  have hlt : (E ∩ hs rp.id).card < (U ∩ insert f C).card := by
    apply Finset.card_lt_card
    refine ⟨hsub, fun h => ?_⟩
    have hx : f ∈ U ∩ insert f C := by simp [hU]
    exact hn (Finset.mem_inter.mp (hE (h hx))).2
  have hle := Finset.card_le_card hc
  rw [e1]
  simp only [lev, hr, if_true]
  refine mlt_add (mlt_many ?_) (lev_mono hh _ ht (hsub.trans e2))
  intro a ha
  have := e3 a ha
  omega

/-- The step of a call: all from `f` to `rp` goes. -/
theorem lev_call {hs hs' : Nat → Finset Name} (hh : ∀ i, hs i ⊆ hs' i) {U : Finset Name}
    {f rp : Tok} {mid new tail tail' : List Tok} (hf : rel f) (hU : f.text ∈ U)
    (hn : f.text ∉ hs f.id) (hr : rel rp)
    (hnew : ∀ t ∈ new, rel t → insert f.text (hs f.id ∩ hs rp.id) ⊆ hs' t.id)
    (ht : (tail'.filter rel).Sublist (tail.filter rel)) :
    MLt (lev hs' U.card U (new ++ tail')) (lev hs U.card U (f :: (mid ++ rp :: tail))) := by
  obtain ⟨E1, h1, h2⟩ := lev_skip (hs := hs) U.card (rp :: tail) mid (U ∩ hs f.id)
  have h3 : MLt (lev hs' U.card U (new ++ tail')) (lev hs U.card E1 (rp :: tail)) := by
    refine lev_step hh hU (fun h => hn (Finset.mem_inter.mp h).1) hr ?_ hnew ht
    intro x hx
    have := h1 (Finset.mem_inter.mp hx).1
    simp only [Finset.mem_inter] at *
    exact ⟨this.1, this.2, hx.2⟩
  refine Relation.TransGen.trans_left h3 (h2.trans ?_)
  simp only [lev, hf, if_true]
  exact mle_drop _ _

/-- The tokens of the arguments, of what is consumed and of what is left. -/
theorem argsLoop_spec (lim : Option Nat) : ∀ (l : List (Tok × Bool)) (k paren : Nat)
    (args : List (List Tok)) (arg : Option (List Tok)) (args' : List (List Tok)) (rp : Tok)
    (k' : Nat), argsLoop lim l k paren args arg = .call args' rp k' →
    rp.kind = .rpar ∧ ∃ mid tail, l.map (·.1) = mid ++ rp :: tail ∧ k' = k + mid.length + 1 ∧
      ∀ a ∈ args', a ∈ args ∨
        (a.filter rel).Sublist ((arg.getD []).filter rel ++ mid.filter rel)
  | [], k, paren, args, arg, args', rp, k', h => by simp [argsLoop] at h
  | (t, sp) :: l, k, paren, args, arg, args', rp, k', h => by
    rw [argsLoop] at h
    split at h
    · rename_i ht
      simp only [Args.call.injEq] at h
      obtain ⟨h1, h2, h3⟩ := h
      subst h2
      refine ⟨ht.1, [], l.map (·.1), by simp, by simp [h3], ?_⟩
      intro a ha
      rw [← h1] at ha
      have : a ∈ args ++ arg.toList ∨ a = [] := by
        split at ha
        · simpa [or_assoc] using ha
        · exact .inl ha
      rcases this with h | h
      · rcases List.mem_append.mp h with h | h
        · exact .inl h
        · right
          cases arg with
          | none => simp at h
          | some b =>
            simp only [Option.toList_some, List.mem_singleton] at h
            subst h
            simp
      · right
        subst h
        simp
    · simp only at h
      generalize (if t.kind = Kind.lpar then paren + 1
        else if t.kind = Kind.rpar then paren - 1 else paren) = paren' at h
      split at h
      · obtain ⟨h1, mid, tail, h2, h3, h4⟩ := argsLoop_spec lim l _ _ _ _ _ _ _ h
        refine ⟨h1, t :: mid, tail, by simp [h2], by simp [h3]; omega, ?_⟩
        intro a ha
        rcases h4 a ha with h | h
        · rcases List.mem_append.mp h with h | h
          · exact .inl h
          · right
            rw [List.mem_singleton.mp h]
            exact List.sublist_append_left _ _
        · right
          simp only [Option.getD_some, List.filter_nil, List.nil_append] at h
          refine h.trans ?_
          refine List.Sublist.trans ?_ (List.sublist_append_right _ _)
          exact List.Sublist.filter _ (List.sublist_cons_self _ _)
      · obtain ⟨h1, mid, tail, h2, h3, h4⟩ := argsLoop_spec lim l _ _ _ _ _ _ _ h
        refine ⟨h1, t :: mid, tail, by simp [h2], by simp [h3]; omega, ?_⟩
        intro a ha
        rcases h4 a ha with h | h
        · exact .inl h
        · right
          refine h.trans ?_
          simp only [Option.getD_some]
          have e1 : (t :: mid).filter rel = [t].filter rel ++ mid.filter rel := by
            rw [← List.filter_append]; rfl
          rw [e1, ← List.append_assoc]
          refine List.Sublist.append ?_ (List.Sublist.refl _)
          have hsp : rel spaceTok = false := rfl
          split <;> split <;> simp [List.filter_append, hsp, List.filter_cons]

theorem funargs_spec (lim : Option Nat) : ∀ (l : List (Tok × Bool)) (k : Nat)
    (args : List (List Tok)) (rp : Tok) (k' : Nat), funargs lim l k = .call args rp k' →
    rp.kind = .rpar ∧ ∃ mid tail, l.map (·.1) = mid ++ rp :: tail ∧ k' = k + mid.length + 1 ∧
      ∀ a ∈ args, (a.filter rel).Sublist (mid.filter rel)
  | [], k, args, rp, k', h => by simp [funargs] at h
  | (t, sp) :: l, k, args, rp, k', h => by
    rw [funargs] at h
    split at h
    · obtain ⟨h1, mid, tail, h2, h3, h4⟩ := funargs_spec lim l _ _ _ _ h
      refine ⟨h1, t :: mid, tail, by simp [h2], by simp [h3]; omega, ?_⟩
      intro a ha
      exact (h4 a ha).trans (List.Sublist.filter _ (List.sublist_cons_self _ _))
    · split at h
      · obtain ⟨h1, mid, tail, h2, h3, h4⟩ := argsLoop_spec lim l _ _ _ _ _ _ _ h
        refine ⟨h1, t :: mid, tail, by simp [h2], by simp [h3]; omega, ?_⟩
        intro a ha
        rcases h4 a ha with h | h
        · simp at h
        · exact (by simpa using h : (a.filter rel).Sublist (mid.filter rel)).trans
            (List.Sublist.filter _ (List.sublist_cons_self _ _))
      · simp at h

/-- Substitution finishes if the arguments' expansion does. -/
theorem substLoop_term (tab : Tab) (m : Macro) (args : List (List Tok)) (st0 : St)
    (hargs : ∀ j st, st0.le st → ∃ n, expand tab n (args.getD j []) st ≠ .out) :
    ∀ (b : List Tok) (skip : Nat) (os : List Tok) (cache : Nat → Option (List Tok)) (st : St),
      st0.le st → ∃ n, substLoop (expand tab n) m args b skip os cache st ≠ .out
  | [], _, os, _, st, _ => ⟨0, by simp [substLoop]⟩
  | _ :: b, skip + 1, os, cache, st, hle => by
    obtain ⟨n, h⟩ := substLoop_term tab m args st0 hargs b skip os cache st hle
    exact ⟨n, by simpa only [substLoop] using h⟩
  | t :: b, 0, os, cache, st, hle => by
    simp only [substLoop]
    split
    · exact substLoop_term tab m args st0 hargs b _ _ _ _ hle
    · split
      · exact substLoop_term tab m args st0 hargs b _ _ _ _
          (hle.le_trans (c := { st with next := st.next + 1 })
            ⟨fun _ => Finset.Subset.refl _, List.suffix_refl _⟩)
      · exact ⟨0, by simp⟩
    · exact substLoop_term tab m args st0 hargs b _ _ _ _ (hle.le_trans (glue_le _ _ _))
    · exact substLoop_term tab m args st0 hargs b _ _ _ _ (hle.le_trans (glue1_le _ _ _))
    · exact substLoop_term tab m args st0 hargs b _ _ _ _ hle
    · rename_i j _
      split
      · exact substLoop_term tab m args st0 hargs b _ _ _ _ hle
      · obtain ⟨n, hn⟩ := hargs j st hle
        cases hr : expand tab n (args.getD j []) st with
        | out => exact absurd hr hn
        | err => exact ⟨n, by rw [hr]; simp [Res.bind]⟩
        | ok p =>
          obtain ⟨n', hn'⟩ := substLoop_term tab m args st0 hargs b 0 (os ++ p.1)
            (fun i => if i = j then some p.1 else cache i) p.2
            (hle.le_trans (expand_le tab n _ _ _ hr))
          refine ⟨max n n', ?_⟩
          rw [expand_mono tab (le_max_left n n') _ _ hn, hr]
          simp only [Res.bind]
          rw [substLoop_ext (expand_mono tab (le_max_right n n')) _ _ _ _ _ _ _ hn']
          exact hn'

theorem subst_term (tab : Tab) (m : Macro) (args : List (List Tok)) (h : Finset Name) (st : St)
    (hargs : ∀ j st', st.le st' → ∃ n, expand tab n (args.getD j []) st' ≠ .out) :
    ∃ n, subst (expand tab n) m args h st ≠ .out := by
  obtain ⟨n, hn⟩ := substLoop_term tab m args st hargs m.body 0 [] (fun _ => none) st st.le_refl
  refine ⟨n, ?_⟩
  unfold subst
  cases hr : substLoop (expand tab n) m args m.body 0 [] (fun _ => none) st with
  | out => exact absurd hr hn
  | err => simp [Res.bind]
  | ok p => simp [Res.bind]

/-- The names of all macros. -/
def Tab.names (tab : Tab) : Finset Name := (tab.map (·.1)).toFinset

theorem get_mem {tab : Tab} {n : Name} {m : Macro} (h : tab.get n = some m) : n ∈ tab.names := by
  unfold Tab.get at h
  cases hf : tab.find? fun p => p.1 == n with
  | none => rw [hf] at h; simp at h
  | some p =>
    have h1 := List.find?_some hf
    have h2 := List.mem_of_find?_eq_some hf
    simp only [beq_iff_eq] at h1
    simp only [Tab.names, List.mem_toFinset, List.mem_map]
    exact ⟨p, h2, h1⟩

/-- The tokens to come. -/
def todo (l : List Tok) (st : St) : List Tok := l ++ st.src.map (·.1)

theorem input_todo (l : List Tok) (st : St) : (input l st).map (·.1) = todo l st := by
  simp [input, todo, Function.comp_def]

theorem bind_term {tab : Tab} {l : List Tok} {st : St} {β : Type} {f : List Tok × St → Res β}
    (h : ∃ n, expand tab n l st ≠ .out) (hf : ∀ p, f p ≠ .out) :
    ∃ n, (expand tab n l st).bind f ≠ .out := by
  obtain ⟨n, hn⟩ := h
  refine ⟨n, ?_⟩
  cases hr : expand tab n l st with
  | out => exact absurd hr hn
  | err => simp [Res.bind]
  | ok p => simpa [Res.bind] using hf p

theorem expand_term_aux (tab : Tab) : ∀ (M : Multiset ℕ) (k : ℕ) (l : List Tok) (st : St),
    lev st.hs tab.names.card tab.names (todo l st) = M → l.length = k →
    ∃ n, expand tab n l st ≠ .out := by
  intro M
  induction M using mlt_wf.induction with
  | _ M ihM =>
    intro k
    induction k with
    | zero =>
      intro l st _ hk
      have : l = [] := by simpa using hk
      subst this
      exact ⟨1, by simp [expand]⟩
    | succ k ihk =>
      intro l st hM hk
      cases l with
      | nil => simp at hk
      | cons t rest =>
        have hrest : ∃ n, expand tab n rest st ≠ .out := by
          have := lev_mono (hs := st.hs) (hs' := st.hs) (fun _ => Finset.Subset.refl _)
            tab.names.card (l := todo (t :: rest) st) (l' := todo rest st)
            (List.Sublist.filter _ (by simp [todo])) (Finset.Subset.refl tab.names)
          rw [hM] at this
          rcases mle_cases this with h | h
          · exact ihk rest st h (by simpa using hk)
          · exact ihM _ h _ rest st rfl rfl
        have pass : ∃ n, ((expand tab n rest st).bind fun p => Res.ok (t :: p.1, p.2)) ≠ .out :=
          bind_term hrest fun p => by simp
        by_cases hki : t.kind ≠ .ident
        · obtain ⟨n, hn⟩ := pass
          refine ⟨n + 1, ?_⟩
          rw [expand, if_pos hki]
          exact hn
        cases hm : tab.get t.text with
        | none =>
          obtain ⟨n, hn⟩ := pass
          refine ⟨n + 1, ?_⟩
          rw [expand, if_neg hki, hm]
          exact hn
        | some m =>
          by_cases hh : t.text ∈ st.hs t.id
          · obtain ⟨n, hn⟩ := pass
            refine ⟨n + 1, ?_⟩
            rw [expand, if_neg hki, hm]
            simp only [if_pos hh]
            exact hn
          have hrelt : rel t = true := by
            simp only [ne_eq, not_not] at hki
            simp [rel, hki]
          cases hp : m.params with
          | none =>
            obtain ⟨n1, hn1⟩ := subst_term tab m [] (insert t.text (st.hs t.id)) st
              (fun j st' _ => ⟨1, by simp [expand]⟩)
            cases hr : subst (expand tab n1) m [] (insert t.text (st.hs t.id)) st with
            | out => exact absurd hr hn1
            | err =>
              refine ⟨n1 + 1, ?_⟩
              rw [expand, if_neg hki, hm]
              simp only [if_neg hh, hp, hr, Res.bind]
              simp
            | ok p =>
              obtain ⟨hle, hnew⟩ := subst_le (expand_le tab n1) hr
              have hlt := lev_step (E := tab.names) (f := t.text) (rp := t) (new := p.1)
                (tail := todo rest st) (tail' := todo rest p.2) hle.hs (get_mem hm) hh
                hrelt (Finset.Subset.refl _) hnew
                (List.Sublist.filter _ (List.Sublist.append (List.Sublist.refl _)
                  (hle.src.sublist.map _)))
              have e : todo (t :: rest) st = t :: todo rest st := rfl
              rw [e] at hM
              rw [hM] at hlt
              obtain ⟨n2, hn2⟩ := ihM _ hlt _ (p.1 ++ rest) p.2 (by simp [todo]) rfl
              refine ⟨max n1 n2 + 1, ?_⟩
              rw [expand, if_neg hki, hm]
              simp only [if_neg hh, hp]
              rw [subst_ext (expand_mono tab (le_max_left n1 n2)) hn1, hr]
              simp only [Res.bind]
              rw [expand_mono tab (le_max_right n1 n2) _ _ hn2]
              exact hn2
          | some ps =>
            cases hf : funargs (m.limit ps) (input rest st) 0 with
            | noCall =>
              obtain ⟨n, hn⟩ := pass
              refine ⟨n + 1, ?_⟩
              rw [expand, if_neg hki, hm]
              simp only [if_neg hh, hp, hf]
              exact hn
            | err =>
              refine ⟨1, ?_⟩
              rw [expand, if_neg hki, hm]
              simp only [if_neg hh, hp, hf]
              simp
            | call args rp k' =>
              obtain ⟨hrp, mid, tail, h1, h2, h3⟩ := funargs_spec _ _ _ _ _ _ hf
              rw [input_todo] at h1
              have hrelrp : rel rp = true := by simp [rel, hrp]
              by_cases hc : args.length ≠ m.count ps
              · refine ⟨1, ?_⟩
                rw [expand, if_neg hki, hm]
                simp only [if_neg hh, hp, hf, if_pos hc]
                simp
              have htail : todo (rest.drop k') { st with src := st.src.drop (k' - rest.length) } =
                  tail := by
                have : (todo rest st).drop k' = tail := by
                  rw [h1, h2]
                  rw [show 0 + mid.length + 1 = (mid ++ [rp]).length by simp,
                    show mid ++ rp :: tail = (mid ++ [rp]) ++ tail by simp, List.drop_left]
                rw [← this]
                simp [todo, List.drop_append, List.map_drop]
              have hsrc : ((st.src.drop (k' - rest.length)).map (·.1)).Sublist tail := by
                rw [← htail]
                exact List.sublist_append_right _ _
              have e : todo (t :: rest) st = t :: (mid ++ rp :: tail) := by rw [← h1]; rfl
              rw [e] at hM
              obtain ⟨n1, hn1⟩ := subst_term tab m args
                (insert t.text (st.hs t.id ∩ st.hs rp.id))
                { st with src := st.src.drop (k' - rest.length) } (by
                  intro j st' hle
                  have hlt := lev_call (f := t) (rp := rp) (mid := mid) (new := [])
                    (tail := tail) (tail' := tail) (U := tab.names) (hs := st.hs) (hs' := st.hs)
                    (fun _ => Finset.Subset.refl _) hrelt (get_mem hm) hh hrelrp
                    (by simp) (List.Sublist.refl _)
                  have hle2 : MLt (lev st'.hs tab.names.card tab.names
                      (todo (args.getD j []) st')) M := by
                    rw [← hM]
                    have hj : ((args.getD j []).filter rel).Sublist (mid.filter rel) := by
                      by_cases hj : j < args.length
                      · have : args.getD j [] = args[j] := by simp [hj]
                        rw [this]
                        exact h3 _ (List.getElem_mem hj)
                      · have : args.getD j [] = [] := by
                          simp only [List.getD_eq_getElem?_getD]
                          rw [List.getElem?_eq_none (by omega)]
                          rfl
                        rw [this]
                        simp
                    have h4 : MLe (lev st'.hs tab.names.card tab.names
                        (todo (args.getD j []) st')) (lev st.hs tab.names.card
                          (tab.names ∩ st.hs t.id) (mid ++ rp :: tail)) := by
                      refine lev_mono hle.hs _ ?_ Finset.inter_subset_left
                      unfold todo
                      rw [List.filter_append, List.filter_append]
                      refine hj.append ?_
                      refine List.Sublist.filter _ ?_
                      exact ((hle.src.sublist.map _).trans hsrc).trans (List.sublist_cons_self _ _)
                    refine Relation.TransGen.trans_right h4 ?_
                    simp only [lev, hrelt, if_true]
                    have := mlt_add (mlt_many (y := 0)
                      (d := tab.names.card - (tab.names ∩ st.hs t.id).card) (by simp))
                      (.refl (a := lev st.hs tab.names.card
                          (tab.names ∩ st.hs t.id) (mid ++ rp :: tail)))
                    simpa using this
                  exact ihM _ hle2 _ _ st' rfl rfl)
              cases hr : subst (expand tab n1) m args (insert t.text (st.hs t.id ∩ st.hs rp.id))
                  { st with src := st.src.drop (k' - rest.length) } with
              | out => exact absurd hr hn1
              | err =>
                refine ⟨n1 + 1, ?_⟩
                rw [expand, if_neg hki, hm]
                simp only [if_neg hh, hp, hf, if_neg hc, hr, Res.bind]
                simp
              | ok p =>
                obtain ⟨hle, hnew⟩ := subst_le (expand_le tab n1) hr
                have hlt := lev_call (f := t) (rp := rp) (mid := mid) (new := p.1)
                  (tail := tail) (tail' := todo (rest.drop k') p.2) (U := tab.names)
                  (hs := st.hs) (hs' := p.2.hs) hle.hs hrelt (get_mem hm) hh hrelrp hnew
                  (by
                    rw [← htail]
                    exact List.Sublist.filter _ (List.Sublist.append (List.Sublist.refl _)
                      (hle.src.sublist.map _)))
                rw [hM] at hlt
                obtain ⟨n2, hn2⟩ := ihM _ hlt _ (p.1 ++ rest.drop k') p.2 (by simp [todo]) rfl
                refine ⟨max n1 n2 + 1, ?_⟩
                rw [expand, if_neg hki, hm]
                simp only [if_neg hh, hp, hf, if_neg hc]
                rw [subst_ext (expand_mono tab (le_max_left n1 n2)) hn1, hr]
                simp only [Res.bind]
                rw [expand_mono tab (le_max_right n1 n2) _ _ hn2]
                exact hn2

/-- C22: for every set of macro definitions, every list of tokens, every rest of the source and
every hide sets left by what was expanded before, macro expansion finishes. -/
theorem expand_terminates (tab : Tab) (l : List Tok) (st : St) :
    ∃ n r, r ≠ .out ∧ ∀ k ≥ n, expand tab k l st = r := by
  obtain ⟨n, hn⟩ := expand_term_aux tab _ _ l st rfl rfl
  exact ⟨n, _, hn, fun k hk => expand_mono tab hk _ _ hn⟩

theorem text_succ (tab : Tab) : ∀ n st, text tab n st ≠ .out → text tab (n + 1) st = text tab n st
  | 0, _, h => absurd rfl h
  | n + 1, st, h => by
    rw [text] at h ⊢
    rw [text]
    split
    · rfl
    · rename_i t sp src hs
      simp only [hs] at h
      split
      · rename_i hc
        rw [if_pos hc] at h
        refine bind_ext h (expand_succ tab n _ _) fun p _ hp => ?_
        exact bind_ext hp (text_succ tab n p.2) fun _ _ _ => rfl
      · rename_i hc
        rw [if_neg hc] at h
        exact bind_ext h (text_succ tab n _) fun _ _ _ => rfl

theorem text_mono (tab : Tab) {n m : Nat} (hnm : n ≤ m) {st : St} (h : text tab n st ≠ .out) :
    text tab m st = text tab n st := by
  induction m with
  | zero =>
    have : n = 0 := by omega
    rw [this]
  | succ m ih =>
    by_cases hm : n ≤ m
    · have h1 := ih hm
      rw [text_succ tab m st (by rw [h1]; exact h), h1]
    · have : n = m + 1 := by omega
      rw [this]

/-- C22: so does the expansion of a whole source. -/
theorem text_terminates (tab : Tab) (st : St) :
    ∃ n r, r ≠ .out ∧ ∀ k ≥ n, text tab k st = r := by
  have : ∀ (k : ℕ) (st : St), st.src.length = k → ∃ n, text tab n st ≠ .out := by
    intro k
    induction k using Nat.strong_induction_on with
    | _ k ih =>
      intro st hk
      cases hs : st.src with
      | nil => exact ⟨1, by rw [text, hs]; simp⟩
      | cons x src =>
        obtain ⟨t, sp⟩ := x
        rw [hs] at hk
        simp only [List.length_cons] at hk
        by_cases hc : t.kind = .ident ∧ (tab.get t.text).isSome
        · obtain ⟨n, r, hr, hn⟩ := expand_terminates tab [t] { st with src := src }
          have hn' := hn n (le_refl n)
          cases r with
          | out => exact absurd rfl hr
          | err =>
            refine ⟨n + 1, ?_⟩
            rw [text, hs]
            simp only [if_pos hc, hn', Res.bind]
            simp
          | ok p =>
            have hle := expand_le tab n _ _ _ hn'
            have hlen := hle.src.sublist.length_le
            simp only at hlen
            obtain ⟨n2, hn2⟩ := ih p.2.src.length (by omega) p.2 rfl
            refine ⟨max n n2 + 1, ?_⟩
            rw [text, hs]
            simp only [if_pos hc, hn _ (le_max_left n n2), Res.bind]
            rw [text_mono tab (le_max_right n n2) hn2]
            cases hq : text tab n2 p.2 with
            | out => exact absurd hq hn2
            | err => simp
            | ok q => simp
        · obtain ⟨n2, hn2⟩ := ih src.length (by omega) { st with src := src } rfl
          refine ⟨n2 + 1, ?_⟩
          rw [text, hs]
          simp only [if_neg hc]
          cases hq : text tab n2 { st with src := src } with
          | out => exact absurd hq hn2
          | err => simp [Res.bind]
          | ok q => simp [Res.bind]
  obtain ⟨n, hn⟩ := this _ st rfl
  exact ⟨n, _, hn, fun k hk => text_mono tab hk hn⟩

/-! ### Object-like macros that do not refer to each other in a circle -/

/-- Every macro is object-like and without `##`. -/
def Simple (tab : Tab) : Prop :=
  ∀ n m, tab.get n = some m → m.params = none ∧ ∀ t ∈ m.body, t.kind ≠ .concat

/-- No macro refers to itself, directly or through others. -/
def Acyclic (tab : Tab) (rank : Name → ℕ) : Prop :=
  ∀ n m, tab.get n = some m → ∀ t ∈ m.body, t.kind = .ident → (tab.get t.text).isSome →
    rank t.text < rank n

/-- Two of the tokens at one address are the same. -/
def OneText (tab : Tab) (l : List Tok) : Prop :=
  ∀ t t' : Tok, (t ∈ l ∨ ∃ n m, tab.get n = some m ∧ t ∈ m.body) →
    (t' ∈ l ∨ ∃ n m, tab.get n = some m ∧ t' ∈ m.body) → t.id = t'.id → t = t'

/-- Specification: the tokens left when every macro name is replaced by its body until no macro
name is left. -/
inductive Unfold (tab : Tab) : List Tok → List Tok → Prop where
  | nil : Unfold tab [] []
  | keep (t : Tok) {l o : List Tok} (h : t.kind = .ident → tab.get t.text = none)
      (hl : Unfold tab l o) : Unfold tab (t :: l) (t :: o)
  | repl (t : Tok) (m : Macro) {l o : List Tok} (hk : t.kind = .ident)
      (hm : tab.get t.text = some m) (hl : Unfold tab (m.body ++ l) o) : Unfold tab (t :: l) o

theorem unfold_unique {tab : Tab} {l o o' : List Tok} (h : Unfold tab l o)
    (h' : Unfold tab l o') : o = o' := by
  induction h generalizing o' with
  | nil => cases h'; rfl
  | keep t h _ ih =>
    cases h' with
    | keep _ _ hl => rw [ih hl]
    | repl _ m hk hm hl => rw [h hk] at hm; simp at hm
  | repl t m hk hm _ ih =>
    cases h' with
    | keep _ h _ => rw [h hk] at hm; simp at hm
    | repl _ m' _ hm' hl =>
      rw [hm] at hm'
      obtain rfl := Option.some.inj hm'
      exact ih hl

theorem unfold_append {tab : Tab} {l l' o o' : List Tok} (h : Unfold tab l o)
    (h' : Unfold tab l' o') : Unfold tab (l ++ l') (o ++ o') := by
  induction h with
  | nil => exact h'
  | keep t h _ ih => exact .keep t h ih
  | repl t m hk hm _ ih =>
    refine .repl t m hk hm ?_
    simpa [List.append_assoc] using ih

/-- A token that may occur. -/
def Known (tab : Tab) (l : List Tok) (t : Tok) : Prop :=
  t ∈ l ∨ ∃ n m, tab.get n = some m ∧ t ∈ m.body

/-- The hide set of a macro name has only macros that refer to it. -/
def HsInv (tab : Tab) (rank : Name → ℕ) (l : List Tok) (hs : Nat → Finset Name) : Prop :=
  ∀ t, Known tab l t → t.kind = .ident → (tab.get t.text).isSome →
    ∀ x ∈ hs t.id, rank t.text < rank x

theorem substLoop_simple {mx : List Tok → St → Res (List Tok × St)} {m : Macro}
    (hp : m.params = none) : ∀ (b : List Tok) (os : List Tok) (cache : Nat → Option (List Tok))
    (st : St), (∀ t ∈ b, t.kind ≠ .concat) → m.va = none →
    substLoop mx m [] b 0 os cache st = .ok (os ++ b, st)
  | [], os, cache, st, _, _ => by simp [substLoop]
  | t :: b, os, cache, st, hb, hva => by
    have hidx : ∀ n, m.index n = none := fun n => by simp [Macro.index, hp]
    have hc : classify m [] (!os.isEmpty) t b = .push 0 := by
      have hk := hb t (by simp)
      unfold classify
      cases hkind : t.kind with
      | concat => exact absurd hkind hk
      | strfy => cases b <;> simp [hidx]
      | ident => simp [hidx, hva]
      | comma =>
        cases b with
        | nil => rfl
        | cons c b => cases b <;> simp [hva]
      | lpar => rfl
      | rpar => rfl
      | space => rfl
      | str => rfl
      | other => rfl
    rw [substLoop, hc]
    simp only
    rw [substLoop_simple hp b _ _ _ (fun x hx => hb x (by simp [hx])) hva]
    simp

theorem expand_unfold {tab : Tab} {rank : Name → ℕ} {K : List Tok} (hs : Simple tab)
    (hva : ∀ n m, tab.get n = some m → m.va = none) (ha : Acyclic tab rank)
    (hone : OneText tab K) : ∀ (n : ℕ) (l : List Tok) (st : St) (p : List Tok × St),
    (∀ t ∈ l, Known tab K t) → HsInv tab rank K st.hs → expand tab n l st = .ok p →
    Unfold tab l p.1 ∧ HsInv tab rank K p.2.hs ∧ p.2.src = st.src
  | 0, _, _, _, _, _, h => by simp [expand] at h
  | _ + 1, [], st, p, _, hi, h => by
    simp only [expand, Res.ok.injEq] at h
    subst h
    exact ⟨.nil, hi, rfl⟩
  | n + 1, t :: rest, st, p, hl, hi, h => by
    have hrest : ∀ t ∈ rest, Known tab K t := fun x hx => hl x (by simp [hx])
    have pass : ∀ p, ((expand tab n rest st).bind fun p => .ok (t :: p.1, p.2)) = .ok p →
        (t.kind = .ident → tab.get t.text = none) →
        Unfold tab (t :: rest) p.1 ∧ HsInv tab rank K p.2.hs ∧ p.2.src = st.src := by
      intro p h hk
      obtain ⟨q, h1, h2⟩ := bind_ok h
      simp only [Res.ok.injEq] at h2
      subst h2
      obtain ⟨e1, e2, e3⟩ := expand_unfold hs hva ha hone n rest st q hrest hi h1
      exact ⟨.keep t hk e1, e2, e3⟩
    simp only [expand] at h
    split at h
    · rename_i hk
      exact pass p h fun h' => absurd h' hk
    · rename_i hk
      simp only [ne_eq, not_not] at hk
      split at h
      · rename_i hm
        exact pass p h fun _ => hm
      · rename_i m hm
        have hsm := hs _ _ hm
        split at h
        · rename_i hh
          exact absurd (hi t (hl t (by simp)) hk (by rw [hm]; rfl) _ hh) (lt_irrefl _)
        · rw [hsm.1] at h
          simp only at h
          obtain ⟨q, h1, h2⟩ := bind_ok h
          unfold subst at h1
          rw [substLoop_simple hsm.1 m.body [] _ st hsm.2 (hva _ _ hm)] at h1
          simp only [List.nil_append, Res.bind, Res.ok.injEq] at h1
          subst h1
          have hbody : ∀ x ∈ m.body, Known tab K x := fun x hx => .inr ⟨_, m, hm, hx⟩
          have hinv : HsInv tab rank K (hsadd (insert t.text (st.hs t.id)) m.body st.hs) := by
            intro x hx hxk hxm y hy
            simp only [hsadd] at hy
            split at hy
            · rename_i hany
              obtain ⟨z, hz, hzz⟩ := List.any_eq_true.mp hany
              simp only [Bool.and_eq_true, beq_iff_eq] at hzz
              have := hone z x (hbody z hz) hx hzz.2
              subst this
              have hlt := ha _ _ hm z hz hxk hxm
              rcases Finset.mem_union.mp hy with hy | hy
              · exact hi z hx hxk hxm y hy
              · rcases Finset.mem_insert.mp hy with hy | hy
                · rw [hy]; exact hlt
                · exact hlt.trans (hi t (hl t (by simp)) hk (by rw [hm]; rfl) y hy)
            · exact hi x hx hxk hxm y hy
          obtain ⟨e1, e2, e3⟩ := expand_unfold hs hva ha hone n (m.body ++ rest) _ p
            (fun x hx => by
              rcases List.mem_append.mp hx with hx | hx
              · exact hbody x hx
              · exact hrest x hx) hinv h2
          exact ⟨.repl t m hk hm e1, e2, e3⟩

theorem text_unfold {tab : Tab} {rank : Name → ℕ} {K : List Tok} (hs : Simple tab)
    (hva : ∀ n m, tab.get n = some m → m.va = none) (ha : Acyclic tab rank)
    (hone : OneText tab K) : ∀ (n : ℕ) (st : St) (p : List Tok × St),
    (∀ x ∈ st.src, x.1 ∈ K) → HsInv tab rank K st.hs → text tab n st = .ok p →
    Unfold tab (st.src.map (·.1)) p.1 ∧ HsInv tab rank K p.2.hs
  | 0, _, _, _, _, h => by simp [text] at h
  | n + 1, st, p, hK, hi, h => by
    rw [text] at h
    split at h
    · rename_i hsrc
      simp only [Res.ok.injEq] at h
      subst h
      rw [hsrc]
      exact ⟨.nil, hi⟩
    · rename_i t sp src hsrc
      rw [hsrc] at hK ⊢
      split at h
      · obtain ⟨q, h1, h2⟩ := bind_ok h
        obtain ⟨r, h3, h4⟩ := bind_ok h2
        simp only [Res.ok.injEq] at h4
        subst h4
        obtain ⟨e1, e2, e3⟩ := expand_unfold hs hva ha hone n [t] { st with src := src } q
          (fun x hx => by
            rw [List.mem_singleton.mp hx]
            exact .inl (hK (t, sp) (by simp))) hi h1
        obtain ⟨f1, f2⟩ := text_unfold hs hva ha hone n q.2 r
          (fun x hx => hK x (by rw [e3] at hx; simp [hx])) e2 h3
        rw [e3] at f1
        exact ⟨unfold_append e1 f1, f2⟩
      · rename_i hc
        obtain ⟨r, h3, h4⟩ := bind_ok h
        simp only [Res.ok.injEq] at h4
        subst h4
        obtain ⟨f1, f2⟩ := text_unfold hs hva ha hone n { st with src := src } r
          (fun x hx => hK x (by simp [hx])) hi h3
        refine ⟨.keep t (fun hk => ?_) f1, f2⟩
        cases hg : tab.get t.text with
        | none => rfl
        | some m => exact absurd ⟨hk, by rw [hg]; rfl⟩ hc

/-- No hide sets yet: the state at the start of a compilation, `macro_init`, macro.c:342-345. -/
def start (src : List (Tok × Bool)) : St := ⟨fun _ => ∅, src, 0⟩

theorem expand_no_err {tab : Tab} (hs : Simple tab)
    (hva : ∀ n m, tab.get n = some m → m.va = none) : ∀ (n : ℕ) (l : List Tok) (st : St),
    expand tab n l st ≠ .err
  | 0, _, _ => by simp [expand]
  | _ + 1, [], st => by simp [expand]
  | n + 1, t :: rest, st => by
    have pass : ((expand tab n rest st).bind fun p => Res.ok (t :: p.1, p.2)) ≠ .err := by
      cases hr : expand tab n rest st with
      | err => exact absurd hr (expand_no_err hs hva n rest st)
      | out => simp [Res.bind]
      | ok p => simp [Res.bind]
    rw [expand]
    split
    · exact pass
    · split
      · exact pass
      · rename_i m hm
        have hsm := hs _ _ hm
        split
        · exact pass
        · rw [hsm.1]
          simp only
          unfold subst
          rw [substLoop_simple hsm.1 m.body [] _ st hsm.2 (hva _ _ hm)]
          exact expand_no_err hs hva n _ _

theorem text_no_err {tab : Tab} (hs : Simple tab)
    (hva : ∀ n m, tab.get n = some m → m.va = none) : ∀ (n : ℕ) (st : St), text tab n st ≠ .err
  | 0, _ => by simp [text]
  | n + 1, st => by
    rw [text]
    split
    · simp
    · split
      · cases hr : expand tab n _ _ with
        | err => exact absurd hr (expand_no_err hs hva n _ _)
        | out => simp [Res.bind]
        | ok p =>
          simp only [Res.bind]
          have := text_no_err hs hva n p.2
          cases hr : text tab n p.2 with
          | err => exact absurd hr this
          | out => simp
          | ok p => simp
      · rename_i src _ _
        have := text_no_err hs hva n { st with src := src }
        cases hr : text tab n { st with src := src } with
        | err => exact absurd hr this
        | out => simp [Res.bind]
        | ok p => simp [Res.bind]

theorem text_ok {tab : Tab} (hs : Simple tab)
    (hva : ∀ n m, tab.get n = some m → m.va = none) (st : St) :
    ∃ n p, ∀ k ≥ n, text tab k st = .ok p := by
  obtain ⟨n, r, hr, hn⟩ := text_terminates tab st
  cases r with
  | out => exact absurd rfl hr
  | err => exact absurd (hn n (le_refl n)) (text_no_err hs hva n st)
  | ok p => exact ⟨n, p, hn⟩

/-- C22, partial: with object-like macros that are not circular, the expansion of a source is the
complete textual replacement, whatever was expanded before: after any source `s1`, the output
for `s2` is the output for `s2` alone.  Missing: function-like and circular macros; for the
latter the claim is false (`history_dependence`). -/
theorem history_partial {tab : Tab} {rank : Name → ℕ} (hs : Simple tab)
    (hva : ∀ n m, tab.get n = some m → m.va = none) (ha : Acyclic tab rank)
    (s1 s2 : List (Tok × Bool)) (hone : OneText tab (s1.map (·.1) ++ s2.map (·.1))) :
    ∃ n p1 p2 p3, (∀ k ≥ n, text tab k (start s1) = .ok p1 ∧
        text tab k { p1.2 with src := s2 } = .ok p2 ∧ text tab k (start s2) = .ok p3) ∧
      p2.1 = p3.1 ∧ Unfold tab (s2.map (·.1)) p2.1 := by
  obtain ⟨n1, p1, h1⟩ := text_ok hs hva (start s1)
  obtain ⟨n2, p2, h2⟩ := text_ok hs hva { p1.2 with src := s2 }
  obtain ⟨n3, p3, h3⟩ := text_ok hs hva (start s2)
  refine ⟨max n1 (max n2 n3), p1, p2, p3, fun k hk => ⟨h1 k ?_, h2 k ?_, h3 k ?_⟩, ?_⟩
  · exact (le_max_left _ _).trans hk
  · exact ((le_max_left _ _).trans (le_max_right _ _)).trans hk
  · exact ((le_max_right _ _).trans (le_max_right _ _)).trans hk
  have h0 : HsInv tab rank (s1.map (·.1) ++ s2.map (·.1)) (fun _ => ∅) := by
    intro t _ _ _ x hx
    simp at hx
  obtain ⟨-, i1⟩ := text_unfold hs hva ha hone n1 (start s1) p1
    (fun x hx => by simp only [List.mem_append, List.mem_map]; exact .inl ⟨x, hx, rfl⟩) h0
    (h1 n1 (le_refl _))
  obtain ⟨u2, -⟩ := text_unfold hs hva ha hone n2 { p1.2 with src := s2 } p2
    (fun x hx => by simp only [List.mem_append, List.mem_map]; exact .inr ⟨x, hx, rfl⟩) i1
    (h2 n2 (le_refl _))
  obtain ⟨u3, -⟩ := text_unfold hs hva ha hone n3 (start s2) p3
    (fun x hx => by simp only [List.mem_append, List.mem_map]; exact .inr ⟨x, hx, rfl⟩) h0
    (h3 n3 (le_refl _))
  exact ⟨unfold_unique u2 u3, u2⟩

/-! ### Arguments of a call (C53) -/

/-- `l` can be an argument: its parentheses are balanced (`d` are open) and, unless `va`, it has
no comma outside them. -/
def ArgOk (va : Bool) : ℕ → List (Tok × Bool) → Prop
  | d, [] => d = 0
  | d, (t, _) :: l =>
    match t.kind with
    | .lpar => ArgOk va (d + 1) l
    | .rpar => 0 < d ∧ ArgOk va (d - 1) l
    | .comma => (va = true ∨ 0 < d) ∧ ArgOk va d l
    | _ => ArgOk va d l

/-- The tokens of an argument: a space for white space before a token, none at the start. -/
def plainArg : List (Tok × Bool) → List Tok
  | [] => []
  | (t, _) :: l =>
    if t.kind = .space then plainArg l
    else t :: l.flatMap fun x => if x.2 then [spaceTok, x.1] else [x.1]

/-- The same, continuing after `a`. -/
def contArg : List Tok → List (Tok × Bool) → List Tok
  | [], l => plainArg l
  | a, l => a ++ l.flatMap fun x => if x.2 then [spaceTok, x.1] else [x.1]

theorem contArg_cons (a : List Tok) (t : Tok) (sp : Bool) (l : List (Tok × Bool)) :
    contArg (let a := if sp ∧ a ≠ [] then a ++ [spaceTok] else a
      if t.kind ≠ .space ∨ a ≠ [] then a ++ [t] else a) l = contArg a ((t, sp) :: l) := by
  cases a with
  | nil =>
    by_cases hk : t.kind = .space
    · simp [contArg, plainArg, hk]
    · simp [contArg, plainArg, hk]
  | cons x a =>
    cases sp <;> simp [contArg]

/-- Reading one argument up to a comma or parenthesis that ends it. -/
theorem argsLoop_arg (lim : Option Nat) (va : Bool) : ∀ (l : List (Tok × Bool)) (d k : ℕ)
    (args : List (List Tok)) (a : List Tok) (rest : List (Tok × Bool)), ArgOk va d l →
    (va = true → ¬ ∀ n ∈ lim, args.length < n) → l ≠ [] →
    argsLoop lim (l ++ rest) k d args (some a) =
      argsLoop lim rest (k + l.length) 0 args (some (contArg a l))
  | [], _, _, _, _, _, _, _, h => absurd rfl h
  | (t, sp) :: l, d, k, args, a, rest, hok, hva, _ => by
    have step : ∀ d', ArgOk va d' l →
        argsLoop lim (l ++ rest) (k + 1) d' args
          (some (let a := if sp ∧ a ≠ [] then a ++ [spaceTok] else a
            if t.kind ≠ .space ∨ a ≠ [] then a ++ [t] else a)) =
        argsLoop lim rest (k + ((t, sp) :: l).length) 0 args (some (contArg a ((t, sp) :: l))) := by
      intro d' hd'
      cases l with
      | nil =>
        simp only [ArgOk] at hd'
        subst hd'
        rw [← contArg_cons a t sp []]
        simp only [List.nil_append, List.length_cons, List.length_nil, Nat.zero_add]
        congr 2
        generalize (let a := if sp ∧ a ≠ [] then a ++ [spaceTok] else a
            if t.kind ≠ .space ∨ a ≠ [] then a ++ [t] else a) = b
        cases b <;> simp [contArg, plainArg]
      | cons y l =>
        rw [argsLoop_arg lim va (y :: l) d' (k + 1) args _ rest hd' hva (by simp), contArg_cons]
        simp only [List.length_cons]
        congr 1
        omega
    rw [List.cons_append, argsLoop]
    simp only [ArgOk] at hok
    cases hk : t.kind with
    | lpar =>
      rw [hk] at hok
      have := step (d + 1) hok
      simp only [hk] at this ⊢
      simpa using this
    | rpar =>
      rw [hk] at hok
      have := step (d - 1) hok.2
      simp only [hk] at this ⊢
      have h0 : d ≠ 0 := by omega
      simpa [h0] using this
    | comma =>
      rw [hk] at hok
      have := step d hok.2
      simp only [hk] at this ⊢
      have h0 : ¬ (d = 0 ∧ ∀ n ∈ lim, args.length < n) := by
        intro h
        rcases hok.1 with h1 | h1
        · exact hva h1 h.2
        · omega
      simp only [reduceCtorEq, false_and, if_false, true_and, h0] at this ⊢
      exact this
    | ident => rw [hk] at hok; have := step d hok; simp only [hk] at this ⊢; simpa using this
    | space => rw [hk] at hok; have := step d hok; simp only [hk] at this ⊢; simpa using this
    | strfy => rw [hk] at hok; have := step d hok; simp only [hk] at this ⊢; simpa using this
    | concat => rw [hk] at hok; have := step d hok; simp only [hk] at this ⊢; simpa using this
    | str => rw [hk] at hok; have := step d hok; simp only [hk] at this ⊢; simpa using this
    | other => rw [hk] at hok; have := step d hok; simp only [hk] at this ⊢; simpa using this

/-- Arguments after the first, each behind its comma. -/
def spellMore (more : List ((Tok × Bool) × List (Tok × Bool))) : List (Tok × Bool) :=
  more.flatMap fun x => x.1 :: x.2

theorem argsLoop_arg' (lim : Option Nat) (va : Bool) (l : List (Tok × Bool)) (k : ℕ)
    (args : List (List Tok)) (rest : List (Tok × Bool)) (hok : ArgOk va 0 l)
    (hva : va = true → ¬ ∀ n ∈ lim, args.length < n) :
    argsLoop lim (l ++ rest) k 0 args (some []) =
      argsLoop lim rest (k + l.length) 0 args (some (plainArg l)) := by
  cases l with
  | nil => rfl
  | cons x l => exact argsLoop_arg lim va (x :: l) 0 k args [] rest hok hva (by simp)

theorem dropLast_getLastD (b : List Tok) (l : List (List Tok)) :
    (b :: l).dropLast ++ [(b :: l).getLastD []] = b :: l := by
  have := List.dropLast_append_getLast (l := b :: l) (by simp)
  rw [show (b :: l).getLastD [] = (b :: l).getLast (by simp) by
    rw [List.getLast_eq_getLastD, List.getLastD_cons]]
  exact this

theorem argsLoop_more (lim : Option Nat) : ∀ (more : List ((Tok × Bool) × List (Tok × Bool)))
    (k : ℕ) (args : List (List Tok)) (b : List Tok) (rest : List (Tok × Bool)),
    (∀ x ∈ more, x.1.1.kind = .comma ∧ ArgOk false 0 x.2) →
    (∀ n ∈ lim, args.length + more.length ≤ n) →
    argsLoop lim (spellMore more ++ rest) k 0 args (some b) =
      argsLoop lim rest (k + (spellMore more).length) 0
        (args ++ (b :: more.map fun x => plainArg x.2).dropLast)
        (some ((b :: more.map fun x => plainArg x.2).getLastD []))
  | [], k, args, b, rest, _, _ => by simp [spellMore]
  | ((c, csp), a) :: more, k, args, b, rest, hm, hn => by
    obtain ⟨hc, ha⟩ := hm ((c, csp), a) (by simp)
    simp only at hc ha
    have e : spellMore (((c, csp), a) :: more) ++ rest =
        (c, csp) :: (a ++ (spellMore more ++ rest)) := by simp [spellMore]
    rw [e, argsLoop]
    have h1 : ∀ n ∈ lim, args.length < n := by
      intro n h
      have := hn n h
      simp only [List.length_cons] at this
      omega
    simp only [hc, reduceCtorEq, false_and, if_false, Option.getD_some, true_and]
    rw [if_pos h1, argsLoop_arg' lim false a _ _ _ ha (by simp),
      argsLoop_more lim more _ _ _ _ (fun x hx => hm x (by simp [hx])) (by
        intro n h
        have := hn n h
        simp only [List.length_cons, List.length_append, List.length_nil] at this ⊢
        omega)]
    have : (spellMore (((c, csp), a) :: more)).length = 1 + a.length + (spellMore more).length := by
      simp [spellMore]
      omega
    rw [this]
    simp only [List.map_cons, List.dropLast_cons_cons, List.append_assoc, List.cons_append,
      List.nil_append]
    congr 1
    omega

theorem argsLoop_none (lim : Option Nat) (l : List (Tok × Bool)) (k : ℕ) (args : List (List Tok))
    (h : ∀ x ∈ l.head?, x.1.kind ≠ .rpar) :
    argsLoop lim l k 0 args none = argsLoop lim l k 0 args (some []) := by
  cases l with
  | nil => rfl
  | cons x l =>
    obtain ⟨t, sp⟩ := x
    have hk : t.kind ≠ .rpar := h _ rfl
    rw [argsLoop, argsLoop]
    simp [hk]

theorem funargs_open (lim : Option Nat) : ∀ (sps : List (Tok × Bool)) (lp : Tok × Bool)
    (l : List (Tok × Bool)) (k : ℕ), (∀ x ∈ sps, x.1.kind = .space) → lp.1.kind = .lpar →
    funargs lim (sps ++ lp :: l) k = argsLoop lim l (k + sps.length + 1) 0 [] none
  | [], lp, l, k, _, hl => by simp [funargs, hl]
  | s :: sps, lp, l, k, hs, hl => by
    have h1 := hs s (by simp)
    rw [List.cons_append, funargs, if_pos h1,
      funargs_open lim sps lp l _ (fun x hx => hs x (by simp [hx])) hl]
    simp only [List.length_cons]
    congr 1
    omega

theorem head_of_argOk {a : List (Tok × Bool)} {va : Bool} (ha : ArgOk va 0 a)
    {more : List ((Tok × Bool) × List (Tok × Bool))} (hm : ∀ x ∈ more, x.1.1.kind = .comma)
    (hne : a ≠ [] ∨ more ≠ []) (rest : List (Tok × Bool)) :
    ∀ x ∈ (a ++ (spellMore more ++ rest)).head?, x.1.kind ≠ .rpar := by
  intro x hx hk
  cases a with
  | cons y a =>
    simp only [List.cons_append, List.head?_cons, Option.mem_def, Option.some.injEq] at hx
    subst hx
    simp [ArgOk, hk] at ha
  | nil =>
    cases more with
    | nil => simp at hne
    | cons y more =>
      simp only [spellMore, List.flatMap_cons, List.nil_append, List.cons_append, List.head?_cons,
        Option.mem_def, Option.some.injEq] at hx
      subst hx
      have := hm y (by simp)
      rw [hk] at this
      simp at this

/-- C53: the arguments of a call are what is written between the parentheses and the commas
outside inner parentheses, whatever the number of arguments and the depth of parentheses, and
reading stops right after the closing parenthesis.  A single empty argument is the exception
(`empty_argument_rejected`). -/
theorem arguments_partial (sps : List (Tok × Bool)) (lp rp : Tok × Bool)
    (a : List (Tok × Bool)) (more : List ((Tok × Bool) × List (Tok × Bool)))
    (rest : List (Tok × Bool)) (hs : ∀ x ∈ sps, x.1.kind = .space) (hl : lp.1.kind = .lpar)
    (hr : rp.1.kind = .rpar) (ha : ArgOk false 0 a)
    (hm : ∀ x ∈ more, x.1.1.kind = .comma ∧ ArgOk false 0 x.2) (hne : a ≠ [] ∨ more ≠ []) :
    funargs none (sps ++ lp :: (a ++ (spellMore more ++ rp :: rest))) 0 =
      .call (plainArg a :: more.map fun x => plainArg x.2) rp.1
        (sps ++ lp :: (a ++ (spellMore more ++ [rp]))).length := by
  rw [funargs_open none sps lp _ 0 hs hl,
    argsLoop_none none _ _ _ (head_of_argOk ha (fun x hx => (hm x hx).1) hne _),
    argsLoop_arg' none false a _ _ _ ha (by simp), argsLoop_more none more _ _ _ _ hm (by simp)]
  obtain ⟨rp, rsp⟩ := rp
  simp only at hr
  rw [argsLoop]
  simp only [hr, and_self, if_true, reduceCtorEq, if_false, Option.toList_some, List.nil_append]
  rw [dropLast_getLastD]
  congr 1
  simp
  omega

/-- C53, variadic macros: `named.length` named arguments, then everything up to the closing
parenthesis, commas included. -/
theorem arguments_variadic (sps : List (Tok × Bool)) (lp rp : Tok × Bool)
    (a : List (Tok × Bool)) (more : List ((Tok × Bool) × List (Tok × Bool)))
    (c : Tok × Bool) (v : List (Tok × Bool))
    (rest : List (Tok × Bool)) (hs : ∀ x ∈ sps, x.1.kind = .space) (hl : lp.1.kind = .lpar)
    (hr : rp.1.kind = .rpar) (ha : ArgOk false 0 a) (hc : c.1.kind = .comma)
    (hm : ∀ x ∈ more, x.1.1.kind = .comma ∧ ArgOk false 0 x.2) (hv : ArgOk true 0 v) :
    funargs (some (more.length + 1))
        (sps ++ lp :: (a ++ (spellMore more ++ c :: (v ++ rp :: rest)))) 0 =
      .call ((plainArg a :: more.map fun x => plainArg x.2) ++ [plainArg v]) rp.1
        (sps ++ lp :: (a ++ (spellMore more ++ c :: (v ++ [rp])))).length := by
  have hcr : ∀ x ∈ (a ++ (spellMore more ++ c :: (v ++ rp :: rest))).head?, x.1.kind ≠ .rpar := by
    intro x hx hk
    cases a with
    | cons y a =>
      simp only [List.cons_append, List.head?_cons, Option.mem_def, Option.some.injEq] at hx
      subst hx
      simp [ArgOk, hk] at ha
    | nil =>
      cases more with
      | nil =>
        simp only [spellMore, List.flatMap_nil, List.nil_append, List.head?_cons,
          Option.mem_def, Option.some.injEq] at hx
        subst hx
        rw [hk] at hc
        simp at hc
      | cons y more =>
        simp only [spellMore, List.flatMap_cons, List.nil_append, List.cons_append,
          List.head?_cons, Option.mem_def, Option.some.injEq] at hx
        subst hx
        have := (hm y (by simp)).1
        rw [hk] at this
        simp at this
  rw [funargs_open _ sps lp _ 0 hs hl, argsLoop_none _ _ _ _ hcr,
    argsLoop_arg' _ false a _ _ _ ha (by simp),
    argsLoop_more _ more _ _ _ _ hm (by
      intro n hn
      simp only [Option.mem_def, Option.some.injEq] at hn
      simp
      omega)]
  obtain ⟨rp, rsp⟩ := rp
  obtain ⟨c, csp⟩ := c
  simp only at hr hc
  have h1 : ∀ n ∈ some (more.length + 1),
      (List.dropLast (plainArg a :: more.map fun x => plainArg x.2)).length < n := by
    intro n hn
    simp only [Option.mem_def, Option.some.injEq] at hn
    simp
    omega
  rw [argsLoop]
  simp only [hc, reduceCtorEq, false_and, if_false, Option.getD_some, true_and, List.nil_append]
  rw [if_pos h1, dropLast_getLastD, argsLoop_arg' _ true v _ _ _ hv (by
    intro _ h
    have := h _ rfl
    simp at this), argsLoop]
  simp only [hr, and_self, if_true]
  have h2 : ¬ some (((plainArg a :: more.map fun x => plainArg x.2) ++
      (some (plainArg v)).toList).length) = some (more.length + 1) := by simp
  rw [if_neg h2]
  simp
  omega

/-- Finding: a call of a macro with one parameter whose argument is empty, `f()`, is rejected
("Too few arguments"), although ISO (6.10.3p4) takes it for one empty argument. -/
theorem empty_argument_rejected (tab : Tab) (f : Tok) (m : Macro) (x : Name) (st : St)
    (src : List (Tok × Bool)) (lp rp : Tok × Bool) (hk : f.kind = .ident)
    (hm : tab.get f.text = some m) (hp : m.params = some [x]) (hv : m.va = none)
    (hl : lp.1.kind = .lpar) (hr : rp.1.kind = .rpar) (hs : st.src = lp :: rp :: src)
    (hh : f.text ∉ st.hs f.id) (n : ℕ) : expand tab (n + 1) [f] st = .err := by
  obtain ⟨lp, lsp⟩ := lp
  obtain ⟨rp, rsp⟩ := rp
  simp only at hl hr
  have hf : funargs none (input [] st) 0 = .call [] rp 2 := by
    simp [input, hs, funargs, hl, argsLoop, hr]
  rw [expand]
  simp only [hk, ne_eq, not_true, if_false, hm, if_neg hh, hp, Macro.limit, hv,
    Option.isSome_none, Bool.false_eq_true, hf, Macro.count]
  simp

/-! ### Substitution (C53) -/

/-- A replacement list, as ISO 6.10.3.1-3 reads it: a token that is no parameter, a parameter,
`# parameter`, and a chain `x ## y ## ...`. -/
inductive Elem where
  | plain (t : Tok)
  | param (t : Tok)
  | str (hash t : Tok)
  | cat (t : Tok) (first : Tok × Tok) (more : List (Tok × Tok))

/-- Its tokens. -/
def Elem.toks : Elem → List Tok
  | .plain t => [t]
  | .param t => [t]
  | .str h t => [h, t]
  | .cat t f more => t :: f.1 :: f.2 :: more.flatMap fun x => [x.1, x.2]

/-- The operands of `##` are tokens other than `#` and `##`. -/
def OpndOk (t : Tok) : Prop := t.kind ≠ .strfy ∧ t.kind ≠ .concat

/-- Kind and text of a token. -/
def Tok.sig (t : Tok) : Kind × Name := (t.kind, t.text)

/-- Which parameter a name is, counting from 0. -/
def pos (m : Macro) (n : Name) : Option Nat :=
  if n ∈ m.params.getD [] then some ((m.params.getD []).idxOf n) else none

/-- ISO 6.10.3.2: the string literal that spells the argument. -/
def Spells (s : Name) (arg : List Tok) : Prop :=
  ∃ e, Escape.escapeString (arg.flatMap (·.text)) = some e ∧ s = 34 :: (e ++ [34])

/-- An operand of `##`: the argument as written, or the token itself. -/
def operand (m : Macro) (args : List (List Tok)) (t : Tok) : List (Kind × Name) :=
  if t.kind = .ident then
    match pos m t.text with
    | some j => (args.getD j []).map Tok.sig
    | none => [t.sig]
  else [t.sig]

/-- `##`: the last token on the left and the first on the right become one. -/
def paste (l r : List (Kind × Name)) : List (Kind × Name) :=
  match l.getLast?, r with
  | some a, b :: r => l.dropLast ++ (.ident, a.2 ++ b.2) :: r
  | _, _ => l ++ r

/-- What each element must be. -/
def Elem.Ok (m : Macro) (args : List (List Tok)) : Elem → Prop
  | .plain t => t.kind ≠ .concat ∧ (t.kind = .strfy → m.params = none) ∧
      (t.kind = .ident → pos m t.text = none)
  | .param t => t.kind = .ident ∧ (pos m t.text).isSome
  | .str h t => h.kind = .strfy ∧ t.kind = .ident ∧ (pos m t.text).isSome
  | .cat t f more => OpndOk t ∧ operand m args t ≠ [] ∧ f.1.kind = .concat ∧ OpndOk f.2 ∧
      ∀ x ∈ more, x.1.kind = .concat ∧ OpndOk x.2

/-- What an element becomes; `ex j` is argument `j` expanded, `str j` its spelling. -/
def Elem.value (m : Macro) (args : List (List Tok)) (ex : Nat → List Tok) (str : Nat → Name) :
    Elem → List (Kind × Name)
  | .plain t => [t.sig]
  | .param t => (ex ((pos m t.text).getD 0)).map Tok.sig
  | .str _ t => [(.str, str ((pos m t.text).getD 0))]
  | .cat t f more => (f :: more).foldl (fun l x => paste l (operand m args x.2)) (operand m args t)

/-- Argument `j` is used expanded. -/
def Elem.Uses (m : Macro) (j : Nat) : Elem → Prop
  | .param t => pos m t.text = some j
  | _ => False

/-- Argument `j` is used as a string. -/
def Elem.Quotes (m : Macro) (j : Nat) : Elem → Prop
  | .str _ t => pos m t.text = some j
  | _ => False

theorem paste_append (a l r : List (Kind × Name)) (hl : l ≠ []) :
    paste (a ++ l) r = a ++ paste l r := by
  unfold paste
  rw [List.getLast?_append_of_ne_nil _ hl]
  obtain ⟨x, hx⟩ : ∃ x, l.getLast? = some x := by
    cases h : l.getLast? with
    | none => rw [List.getLast?_eq_none_iff] at h; exact absurd h hl
    | some x => exact ⟨x, rfl⟩
  rw [hx]
  cases r with
  | nil => simp
  | cons b r => simp [List.dropLast_append_of_ne_nil hl]

theorem paste_ne {l r : List (Kind × Name)} (hl : l ≠ []) : paste l r ≠ [] := by
  unfold paste
  split <;> simp [hl]

theorem glue1_sig (os : List Tok) (t : Tok) (st : St) :
    (glue1 os t st).1.map Tok.sig = paste (os.map Tok.sig) [t.sig] := by
  unfold glue1 paste
  rw [List.getLast?_map]
  cases h : os.getLast? with
  | none => rw [List.getLast?_eq_none_iff] at h; simp [h]
  | some l => simp [Tok.sig, List.map_dropLast]

theorem glue_sig (os rs : List Tok) (st : St) :
    (glue os rs st).1.map Tok.sig = paste (os.map Tok.sig) (rs.map Tok.sig) := by
  unfold glue
  split
  · simp [paste]
  · simp [paste]
  · rename_i r rs _
    rw [List.map_append, glue1_sig]
    unfold paste
    cases (os.map Tok.sig).getLast? <;> simp

variable {mx : List Tok → St → Res (List Tok × St)}

/-- A step over part of the replacement list: what is known afterwards. -/
structure Step (mx : List Tok → St → Res (List Tok × St)) (m : Macro) (args : List (List Tok))
    (b : List Tok) (cache : Nat → Option (List Tok)) (st : St) (p : List Tok × St)
    (os' : List Tok) (cache' : Nat → Option (List Tok)) (st' : St) : Prop where
  rest : substLoop mx m args b 0 os' cache' st' = .ok p
  le : st.le st'
  ext : ∀ j e, cache j = some e → cache' j = some e
  new : ∀ j e, cache' j = some e → cache j = some e ∨
    ∃ s s', st.le s ∧ mx (args.getD j []) s = .ok (e, s')

theorem Step.same {m : Macro} {args : List (List Tok)} {b os' : List Tok}
    {cache : Nat → Option (List Tok)} {st st' : St} {p : List Tok × St}
    (h : substLoop mx m args b 0 os' cache st' = .ok p) (hle : st.le st') :
    Step mx m args b cache st p os' cache st' :=
  ⟨h, hle, fun _ _ h => h, fun _ _ h => Or.inl h⟩

theorem index_pos (m : Macro) (hva : m.va = none) (hnd : (m.params.getD []).Nodup) (n : Name) :
    m.index n = pos m n := by
  unfold Macro.index pos
  cases hp : m.params with
  | none => simp
  | some ps =>
    rw [hp] at hnd
    simp only [Option.getD_some] at hnd ⊢
    rw [hva]
    simp only [reduceCtorEq, if_false]
    by_cases hn : n ∈ ps
    · rw [if_pos hn]
      have h1 : ps.reverse.findIdx (· == n) = ps.reverse.idxOf n := rfl
      have h2 : ps.reverse.idxOf n < ps.reverse.length := List.idxOf_lt_length_of_mem (by simpa using hn)
      rw [List.length_reverse] at h2
      rw [h1, if_pos h2]
      congr 1
      have h3 : ps.reverse[ps.reverse.idxOf n]'(by simpa using h2) = n := List.getElem_idxOf _
      rw [List.getElem_reverse] at h3
      have h4 : ps.idxOf (ps[ps.length - 1 - ps.reverse.idxOf n]'(by omega)) =
          ps.length - 1 - ps.reverse.idxOf n := hnd.idxOf_getElem _ _
      rw [h3] at h4
      exact h4.symm
    · rw [if_neg hn, if_neg]
      intro h
      have : ps.reverse.findIdx (· == n) < ps.reverse.length := by simpa using h
      rw [List.findIdx_lt_length] at this
      obtain ⟨x, hx, he⟩ := this
      simp only [beq_iff_eq] at he
      subst he
      exact hn (by simpa using hx)

theorem loop_more (m : Macro) (hidx : ∀ n, m.index n = pos m n) (args : List (List Tok)) (b : List Tok)
    (cache : Nat → Option (List Tok)) (p : List Tok × St) :
    ∀ (more : List (Tok × Tok)) (os : List Tok) (st : St),
      (∀ x ∈ more, x.1.kind = .concat ∧ OpndOk x.2) → os ≠ [] →
      substLoop mx m args (more.flatMap (fun x => [x.1, x.2]) ++ b) 0 os cache st = .ok p →
      ∃ os' st', Step mx m args b cache st p os' cache st' ∧
        os'.map Tok.sig = more.foldl (fun l x => paste l (operand m args x.2)) (os.map Tok.sig) := by
  intro more
  induction more with
  | nil =>
    intro os st _ _ h
    exact ⟨os, st, Step.same h st.le_refl, rfl⟩
  | cons x more ih =>
    intro os st hok hne h
    obtain ⟨hc, ho⟩ := hok x (by simp)
    have hemp : os.isEmpty = false := by cases os <;> simp_all
    simp only [List.flatMap_cons, List.cons_append, List.nil_append] at h
    rw [substLoop] at h
    unfold classify at h
    rw [hc, hemp] at h
    simp only [Bool.not_false] at h
    have hgo : ∀ os1 st1, substLoop mx m args (more.flatMap (fun x => [x.1, x.2]) ++ b) 0 os1 cache st1
          = .ok p → st.le st1 → os1.map Tok.sig = paste (os.map Tok.sig) (operand m args x.2) →
        ∃ os' st', Step mx m args b cache st p os' cache st' ∧
        os'.map Tok.sig =
          (x :: more).foldl (fun l x => paste l (operand m args x.2)) (os.map Tok.sig) := by
      intro os1 st1 h1 hle hs
      have hne1 : os1 ≠ [] := by
        intro h0
        rw [h0] at hs
        exact paste_ne (by simpa using hne) hs.symm
      obtain ⟨os', st', hstep, hsig⟩ := ih os1 st1 (fun y hy => hok y (by simp [hy])) hne1 h1
      refine ⟨os', st', ⟨hstep.rest, hle.le_trans hstep.le, hstep.ext, ?_⟩, ?_⟩
      · intro j e he; exact Or.inl he
      · rw [hsig, hs]; rfl
    by_cases hi : x.2.kind = .ident
    · rw [if_pos hi] at h
      cases hx : m.index x.2.text with
      | some j =>
        simp only [hx, substLoop] at h
        refine hgo _ _ h (glue_le _ _ _) ?_
        rw [glue_sig]; simp [operand, hi, ← hidx, hx]
      | none =>
        simp only [hx, substLoop] at h
        refine hgo _ _ h (glue1_le _ _ _) ?_
        rw [glue1_sig]; simp [operand, hi, ← hidx, hx]
    · rw [if_neg hi] at h
      simp only [substLoop] at h
      refine hgo _ _ h (glue1_le _ _ _) ?_
      rw [glue1_sig]; simp [operand, hi]

theorem foldl_paste_append (m : Macro) (args : List (List Tok)) (a : List (Kind × Name)) :
    ∀ (more : List (Tok × Tok)) (l : List (Kind × Name)), l ≠ [] →
      more.foldl (fun l x => paste l (operand m args x.2)) (a ++ l) =
        a ++ more.foldl (fun l x => paste l (operand m args x.2)) l := by
  intro more
  induction more with
  | nil => intro l _; rfl
  | cons x more ih =>
    intro l hl
    simp only [List.foldl_cons]
    rw [paste_append _ _ _ hl, ih _ (paste_ne hl)]

theorem loop_elem (hmx : ∀ a st p, mx a st = .ok p → st.le p.2) (m : Macro) (hva : m.va = none)
    (hidx : ∀ n, m.index n = pos m n) (args : List (List Tok)) (e : Elem) (he : e.Ok m args) (b : List Tok)
    (hb : b.head?.map (·.kind) ≠ some .concat) (os : List Tok)
    (cache : Nat → Option (List Tok)) (st : St) (p : List Tok × St)
    (h : substLoop mx m args (e.toks ++ b) 0 os cache st = .ok p) :
    ∃ os' cache' st', Step mx m args b cache st p os' cache' st' ∧
      (∀ j, e.Uses m j → (cache' j).isSome) ∧
      (∀ j, e.Quotes m j → (stringize (args.getD j [])).isSome) ∧
      ∀ ex str, (∀ j e, cache' j = some e → ex j = e) →
        (∀ j s, stringize (args.getD j []) = some s → str j = s) →
        os'.map Tok.sig = os.map Tok.sig ++ e.value m args ex str := by
  cases e with
  | plain t =>
    obtain ⟨h1, h2, h3⟩ := he
    have hc : classify m args (!os.isEmpty) t b = .push 0 := by
      unfold classify
      split
      · rename_i hk
        have hn : ∀ n, m.index n = none := by intro n; simp [Macro.index, h2 hk]
        split
        · split
          · rw [hn]
          · rfl
        · rfl
      · rename_i hk; exact absurd hk h1
      · rename_i hk
        rw [hidx, h3 hk]
        simp [hva]
      · split <;> simp [hva]
      · rfl
    simp only [Elem.toks, List.cons_append, List.nil_append, substLoop, hc] at h
    exact ⟨_, cache, st, Step.same h st.le_refl, by simp [Elem.Uses], by simp [Elem.Quotes], fun ex str _ hstr => by simp [Elem.value]⟩
  | param t =>
    obtain ⟨h1, h2⟩ := he
    obtain ⟨j, hj⟩ := Option.isSome_iff_exists.1 h2
    have hc : classify m args (!os.isEmpty) t b = .param j := by
      unfold classify
      rw [h1]
      simp only [hidx, hj]
    simp only [Elem.toks, List.cons_append, List.nil_append, substLoop, hc] at h
    cases hcj : cache j with
    | some e =>
      rw [hcj] at h
      refine ⟨_, cache, st, Step.same h st.le_refl, ?_, by simp [Elem.Quotes], fun ex str hex _ => ?_⟩
      · intro i hi
        simp only [Elem.Uses, hj, Option.some.injEq] at hi
        subst hi; simp [hcj]
      · simp [Elem.value, hj, hex j e hcj]
    | none =>
      rw [hcj] at h
      obtain ⟨q, hq, h⟩ := bind_ok h
      refine ⟨_, _, _, ⟨h, hmx _ _ _ hq, ?_, ?_⟩, ?_, by simp [Elem.Quotes], fun ex str hex _ => ?_⟩
      · intro i e hi
        have : i ≠ j := by rintro rfl; rw [hcj] at hi; simp at hi
        simp [this, hi]
      · intro i e hi
        by_cases hij : i = j
        · subst hij
          simp only [if_true, Option.some.injEq] at hi
          subst hi
          exact Or.inr ⟨st, q.2, st.le_refl, hq⟩
        · simp only [hij, if_false] at hi
          exact Or.inl hi
      · intro i hi
        simp only [Elem.Uses, hj, Option.some.injEq] at hi
        subst hi; simp
      · have := hex j q.1 (by simp)
        simp [Elem.value, hj, this]
  | str hash t =>
    obtain ⟨h1, h2, h3⟩ := he
    obtain ⟨j, hj⟩ := Option.isSome_iff_exists.1 h3
    have hc : classify m args (!os.isEmpty) hash (t :: b) = .str j := by
      unfold classify
      rw [h1]
      simp [h2, hidx, hj]
    simp only [Elem.toks, List.cons_append, List.nil_append] at h
    rw [substLoop] at h
    rw [hc] at h
    cases hs : stringize (args.getD j []) with
    | none => simp only [hs] at h; exact absurd h (by simp)
    | some s =>
      simp only [hs, substLoop] at h
      refine ⟨_, cache, _, Step.same h ⟨fun _ => Finset.Subset.refl _, List.suffix_refl _⟩,
        by simp [Elem.Uses], ?_, fun ex str _ hstr => ?_⟩
      · intro i hi
        simp only [Elem.Quotes, hj, Option.some.injEq] at hi
        subst hi
        rw [hs]; rfl
      · simp only [Elem.value, hj, Option.getD_some, hstr j s hs]
        simp [Tok.sig]
  | cat t f more =>
    obtain ⟨h1, h2, h3, h4, h5⟩ := he
    have hall : ∀ x ∈ f :: more, x.1.kind = .concat ∧ OpndOk x.2 := by
      intro x hx
      rcases List.mem_cons.1 hx with rfl | hx
      · exact ⟨h3, h4⟩
      · exact h5 x hx
    have hbody : (Elem.cat t f more).toks ++ b =
        t :: ((f :: more).flatMap (fun x => [x.1, x.2]) ++ b) := by
      simp [Elem.toks]
    rw [hbody] at h
    have hfirst : ∃ os1, substLoop mx m args ((f :: more).flatMap (fun x => [x.1, x.2]) ++ b) 0 os1
        cache st = .ok p ∧ os1.map Tok.sig = os.map Tok.sig ++ operand m args t := by
      by_cases hi : t.kind = .ident
      · cases hx : m.index t.text with
        | some j =>
          have hne : args.getD j [] ≠ [] := by
            intro h0; apply h2; simp only [operand, hi, if_true, ← hidx, hx, h0]; rfl
          have hc : classify m args (!os.isEmpty) t
              ((f :: more).flatMap (fun x => [x.1, x.2]) ++ b) = .emit (args.getD j []) 0 := by
            unfold classify
            rw [hi]
            simp only [List.flatMap_cons, List.cons_append, List.head?_cons, Option.map_some, h3, hx,
              if_neg hne]
          rw [substLoop, hc] at h
          refine ⟨_, h, ?_⟩
          simp only [operand, hi, if_true, ← hidx, hx, List.map_append]
        | none =>
          have hc : classify m args (!os.isEmpty) t
              ((f :: more).flatMap (fun x => [x.1, x.2]) ++ b) = .push 0 := by
            unfold classify
            rw [hi]
            simp only [List.flatMap_cons, List.cons_append, List.head?_cons, Option.map_some, h3, hx,
              hva]
            simp
          rw [substLoop, hc] at h
          refine ⟨_, h, ?_⟩
          simp [operand, hi, ← hidx, hx]
      · have hc : classify m args (!os.isEmpty) t
              ((f :: more).flatMap (fun x => [x.1, x.2]) ++ b) = .push 0 := by
          unfold classify
          split
          · rename_i hk; exact absurd hk h1.1
          · rename_i hk; exact absurd hk h1.2
          · rename_i hk; exact absurd hk hi
          · split <;> simp [hva]
          · rfl
        rw [substLoop, hc] at h
        refine ⟨_, h, ?_⟩
        simp [operand, hi]
    obtain ⟨os1, h, hs1⟩ := hfirst
    have hne : os1 ≠ [] := by
      rintro rfl
      simp only [List.map_nil] at hs1
      exact h2 (List.append_eq_nil_iff.1 hs1.symm).2
    obtain ⟨os', st', hstep, hsig⟩ := loop_more m hidx args b cache p (f :: more) os1 st hall hne h
    refine ⟨os', cache, st', hstep, by simp [Elem.Uses], by simp [Elem.Quotes], fun ex str _ hstr => ?_⟩
    rw [hsig, hs1, foldl_paste_append _ _ _ _ _ h2]
    rfl

theorem head_elem (m : Macro) (args : List (List Tok)) (es : List Elem)
    (h : ∀ e ∈ es, e.Ok m args) :
    (es.flatMap Elem.toks).head?.map (·.kind) ≠ some .concat := by
  cases es with
  | nil => simp
  | cons e es =>
    have he := h e (by simp)
    cases e with
    | plain t => simpa [Elem.toks] using he.1
    | param t => simp [Elem.toks, he.1]
    | str a t => simp [Elem.toks, he.1]
    | cat t f more => simpa [Elem.toks] using he.1.2

theorem loop_elems (hmx : ∀ a st p, mx a st = .ok p → st.le p.2) (m : Macro) (hva : m.va = none)
    (hidx : ∀ n, m.index n = pos m n) (args : List (List Tok)) (p : List Tok × St) :
    ∀ (es : List Elem), (∀ e ∈ es, e.Ok m args) → ∀ (os : List Tok)
      (cache : Nat → Option (List Tok)) (st : St),
      substLoop mx m args (es.flatMap Elem.toks) 0 os cache st = .ok p →
      ∃ cache' : Nat → Option (List Tok), (∀ j e, cache j = some e → cache' j = some e) ∧
        (∀ j e, cache' j = some e → cache j = some e ∨
          ∃ s s', st.le s ∧ mx (args.getD j []) s = .ok (e, s')) ∧
        (∀ e ∈ es, ∀ j, e.Uses m j → (cache' j).isSome) ∧
        (∀ e ∈ es, ∀ j, e.Quotes m j → (stringize (args.getD j [])).isSome) ∧
        ∀ ex str, (∀ j e, cache' j = some e → ex j = e) →
          (∀ j s, stringize (args.getD j []) = some s → str j = s) →
          p.1.map Tok.sig = os.map Tok.sig ++ es.flatMap (Elem.value m args ex str) := by
  intro es
  induction es with
  | nil =>
    intro _ os cache st h
    simp only [List.flatMap_nil, substLoop, Res.ok.injEq] at h
    subst h
    exact ⟨cache, fun _ _ h => h, fun _ _ h => Or.inl h, by simp, by simp, by simp⟩
  | cons e es ih =>
    intro hok os cache st h
    rw [List.flatMap_cons] at h
    have hok' : ∀ e ∈ es, e.Ok m args := fun x hx => hok x (by simp [hx])
    obtain ⟨os', c1, st', hstep, hu, hst, hv⟩ := loop_elem hmx m hva hidx args e (hok e (by simp)) _
      (head_elem m args es hok') os cache st p h
    obtain ⟨c2, he2, hn2, hu2, hst2, hv2⟩ := ih hok' os' c1 st' hstep.rest
    refine ⟨c2, fun j e h => he2 _ _ (hstep.ext _ _ h), ?_, ?_, ?_, ?_⟩
    · intro j e h
      rcases hn2 j e h with h | ⟨s, s', h1, h2⟩
      · exact hstep.new j e h
      · exact Or.inr ⟨s, s', hstep.le.le_trans h1, h2⟩
    · intro x hx j hj
      rcases List.mem_cons.1 hx with rfl | hx
      · obtain ⟨y, hy⟩ := Option.isSome_iff_exists.1 (hu j hj)
        rw [he2 _ _ hy]; rfl
      · exact hu2 x hx j hj
    · intro x hx j hj
      rcases List.mem_cons.1 hx with rfl | hx
      · exact hst j hj
      · exact hst2 x hx j hj
    · intro ex str hex hstr
      rw [hv2 ex str hex hstr, hv ex str (fun j e h => hex j e (he2 _ _ h)) hstr, List.flatMap_cons, List.append_assoc]

/-- C53: for every macro that is not variadic, whatever its replacement list and arguments, the
substitution puts in place of each parameter the expansion of the argument (computed in some later
state), of each `# parameter` the spelling of the argument as a string literal, and pastes the
operands of `##` without expanding them; nothing else is put out; and all the identifiers and
closing parentheses of the result are protected against the names in the hide set.  Missing:
variadic macros, `##` with an empty argument on its left (see `empty_paste_wrong`). -/
theorem subst_partial (hmx : ∀ a st p, mx a st = .ok p → st.le p.2) (m : Macro) (hva : m.va = none)
    (hnd : (m.params.getD []).Nodup)
    (args : List (List Tok)) (es : List Elem) (hes : ∀ e ∈ es, e.Ok m args)
    (hbody : m.body = es.flatMap Elem.toks) (h : Finset Name) (st : St) (p : List Tok × St)
    (hp : subst mx m args h st = .ok p) :
    ∃ (ex : Nat → List Tok) (str : Nat → Name),
      (∀ e ∈ es, ∀ j, e.Uses m j → ∃ s s', st.le s ∧ mx (args.getD j []) s = .ok (ex j, s')) ∧
      (∀ e ∈ es, ∀ j, e.Quotes m j → Spells (str j) (args.getD j [])) ∧
      p.1.map Tok.sig = es.flatMap (Elem.value m args ex str) ∧
      ∀ t ∈ p.1, t.kind = .ident ∨ t.kind = .rpar → h ⊆ p.2.hs t.id := by
  obtain ⟨q, hq, h1⟩ := bind_ok hp
  simp only [Res.ok.injEq] at h1
  subst h1
  rw [hbody] at hq
  obtain ⟨c, _, hn, hu, hst, hv⟩ := loop_elems hmx m hva (index_pos m hva hnd) args q es hes [] _ st hq
  refine ⟨fun j => (c j).getD [], fun j => (stringize (args.getD j [])).getD [], ?_, ?_, ?_, ?_⟩
  · intro e he j hj
    obtain ⟨y, hy⟩ := Option.isSome_iff_exists.1 (hu e he j hj)
    rcases hn j y hy with h | h
    · simp at h
    · simpa [hy] using h
  · intro e he j hj
    obtain ⟨y, hy⟩ := Option.isSome_iff_exists.1 (hst e he j hj)
    show Spells ((stringize (args.getD j [])).getD []) _
    rw [hy]
    unfold stringize at hy
    obtain ⟨z, hz, hz'⟩ := Option.map_eq_some_iff.1 hy
    exact ⟨z, hz, hz'.symm⟩
  · have := hv (fun j => (c j).getD []) (fun j => (stringize (args.getD j [])).getD [])
      (fun j e h => by simp [h]) (fun j s h => by simp only [h, Option.getD_some])
    rwa [List.map_nil, List.nil_append] at this
  · intro t ht hr n hn
    simp only [hsadd]
    rw [if_pos]
    · exact Finset.mem_union_right _ hn
    · refine List.any_eq_true.2 ⟨t, ht, ?_⟩
      rcases hr with hr | hr <;> simp [rel, hr]

/-- C53, variadic macros called without variable arguments: they are empty. -/
theorem arguments_variadic_none (sps : List (Tok × Bool)) (lp rp : Tok × Bool)
    (a : List (Tok × Bool)) (more : List ((Tok × Bool) × List (Tok × Bool)))
    (rest : List (Tok × Bool)) (hs : ∀ x ∈ sps, x.1.kind = .space) (hl : lp.1.kind = .lpar)
    (hr : rp.1.kind = .rpar) (ha : ArgOk false 0 a)
    (hm : ∀ x ∈ more, x.1.1.kind = .comma ∧ ArgOk false 0 x.2) (hne : a ≠ [] ∨ more ≠ []) :
    funargs (some (more.length + 1)) (sps ++ lp :: (a ++ (spellMore more ++ rp :: rest))) 0 =
      .call ((plainArg a :: more.map fun x => plainArg x.2) ++ [[]]) rp.1
        (sps ++ lp :: (a ++ (spellMore more ++ [rp]))).length := by
  rw [funargs_open _ sps lp _ 0 hs hl,
    argsLoop_none _ _ _ _ (head_of_argOk ha (fun x hx => (hm x hx).1) hne _),
    argsLoop_arg' _ false a _ _ _ ha (by simp), argsLoop_more _ more _ _ _ _ hm (by
      intro n hn
      simp only [Option.mem_def, Option.some.injEq] at hn
      simp
      omega)]
  obtain ⟨rp, rsp⟩ := rp
  simp only at hr
  rw [argsLoop]
  simp only [hr, and_self, if_true]
  rw [if_pos (by simp)]
  simp only [Option.toList_some, List.nil_append]
  rw [dropLast_getLastD]
  congr 1
  simp
  omega

/-! ### Findings and concrete cases -/

/-- An identifier at an address. -/
def idt (n c : Nat) : Tok := ⟨n, .ident, [c]⟩
def lp (n : Nat) : Tok := ⟨n, .lpar, [40]⟩
def rp (n : Nat) : Tok := ⟨n, .rpar, [41]⟩
def cm (n : Nat) : Tok := ⟨n, .comma, [44]⟩
def ot (n c : Nat) : Tok := ⟨n, .other, [c]⟩
def cc (n : Nat) : Tok := ⟨n, .concat, [35, 35]⟩
def hh (n : Nat) : Tok := ⟨n, .strfy, [35]⟩
def obj (b : List Tok) : Macro := ⟨none, none, b⟩
def fn (ps : List Nat) (b : List Tok) : Macro := ⟨some (ps.map fun c => [c]), none, b⟩

/-- The texts put out. -/
def out (r : Res (List Tok × St)) : Option (List Name) :=
  match r with
  | .ok p => some (p.1.map (·.text))
  | _ => none

/-- Run on a source text without white space. -/
def run (tab : Tab) (src : List Tok) : Option (List Name) :=
  out (text tab 40 ⟨fun _ => ∅, src.map fun t => (t, false), 1000⟩)

/-- `#define A B`, `#define B A`. -/
def tabAB : Tab := [([65], obj [idt 1 66]), ([66], obj [idt 2 65])]

/-- C22 fails for circular macros: the tokens of a replacement list are shared between
expansions and keep their hide sets, so `B` gives `B` at the beginning of a text but `A` after an
`A` has been expanded. -/
theorem history_dependence :
    run tabAB [idt 10 66] = some [[66]] ∧ run tabAB [idt 9 65, idt 10 66] = some [[65], [65]] := by
  decide +kernel

/-- C22: even the first expansion of circular macros differs from ISO C: `#define A B C`,
`#define B D`, `#define C B`, `#define D C`: `A` gives `B B`; ISO C gives `B C`. -/
theorem first_expansion_wrong :
    run [([65], obj [idt 1 66, idt 2 67]), ([66], obj [idt 3 68]), ([67], obj [idt 4 66]),
      ([68], obj [idt 5 67])] [idt 10 65] = some [[66], [66]] := by
  decide +kernel

/-- C53 fails: while an argument is expanded, a call in it may take its arguments from the source
behind the whole macro: `#define g(x) x`, `#define I(x) x`, `#define W I(g)+1`, then `W(3)` gives
`3+1`; ISO C gives `g+1(3)`. -/
theorem argument_reads_ahead_wrong :
    run [([103], fn [120] [idt 1 120]), ([73], fn [120] [idt 2 120]),
      ([87], obj [idt 3 73, lp 4, idt 5 103, rp 6, ot 7 43, ot 8 49])]
      [idt 10 87, lp 11, ot 12 51, rp 13] = some [[51], [43], [49]] := by
  decide +kernel

/-- C53 fails: `#define f(x) x`, then `f(f)(1)` gives `1`; ISO C gives `f(1)`. -/
theorem self_argument_wrong :
    run [([102], fn [120] [idt 1 120])]
      [idt 10 102, lp 11, idt 12 102, rp 13, lp 14, ot 15 49, rp 16] = some [[49]] := by
  decide +kernel

/-- C53 fails: with `#define F(x,y) x##z y`, an empty `x` (from a call `F(,a)`) makes `z` vanish:
the result is `a` instead of `z a`. -/
theorem empty_paste_wrong :
    run [([70], fn [120, 121] [idt 1 120, cc 2, idt 3 122, idt 4 121])]
      [idt 10 70, lp 11, cm 12, idt 13 97, rp 14] = some [[97]] := by
  decide +kernel

/-- C53 fails: `#define S(x) #x`, then `S(\a)` doubles the backslash; ISO 6.10.3.2 doubles only
those inside string literals and character constants. -/
theorem stringize_backslash_wrong :
    run [([83], fn [120] [hh 1, idt 2 120])]
      [idt 10 83, lp 11, ot 12 92, idt 13 97, rp 14] = some [[34, 92, 92, 97, 34]] := by
  decide +kernel

/-- C53 fails: `__VA_OPT__(f(x))` ends at the first `)`, and its parameters are not replaced:
`#define V(x,...) __VA_OPT__(x())` with `V(1,2)` gives `x()`. -/
theorem vaOpt_wrong :
    run [([86], ⟨some [[120]], some [95], [⟨1, .ident, vaOpt⟩, lp 2, idt 3 120, lp 4, rp 5, rp 6]⟩)]
      [idt 10 86, lp 11, ot 12 49, cm 13, ot 14 50, rp 15] = some [[120], [40], [41]] := by
  decide +kernel

/-! The hypotheses of the theorems are met. -/

/-- `#define J(x,y) x##y + #x + y` -/
def mJ : Macro := fn [120, 121]
  [idt 1 120, cc 2, idt 3 121, ot 4 43, hh 5, idt 6 120, ot 7 43, idt 8 121]

def esJ : List Elem :=
  [.cat (idt 1 120) (cc 2, idt 3 121) [], .plain (ot 4 43), .str (hh 5) (idt 6 120),
   .plain (ot 7 43), .param (idt 8 121)]

example : mJ.body = esJ.flatMap Elem.toks ∧ mJ.va = none := by decide

example : ∀ e ∈ esJ, e.Ok mJ [[idt 20 97], [idt 21 98]] := by
  intro e he
  simp only [esJ, List.mem_cons, List.not_mem_nil, or_false] at he
  rcases he with rfl | rfl | rfl | rfl | rfl <;> simp only [Elem.Ok, OpndOk] <;> decide

/-- `J(a,b)` with `#define b 7` gives `ab + "a" + 7`. -/
example : run [([74], mJ), ([98], obj [ot 30 55])]
    [idt 10 74, lp 11, idt 20 97, cm 12, idt 21 98, rp 13] =
      some [[97, 98], [43], [34, 97, 34], [43], [55]] := by
  decide +kernel

/-- The hypothesis of `subst_partial` on the expander is met by the expander. -/
example (tab : Tab) (n : ℕ) : ∀ a st p, expand tab n a st = .ok p → st.le p.2 :=
  fun a st p h => expand_le tab n a st p h

/-- `history_partial`: `#define A B B`, `#define B C`. -/
example : Simple [([65], obj [idt 1 66, idt 2 66]), ([66], obj [idt 3 67])] ∧
    Acyclic [([65], obj [idt 1 66, idt 2 66]), ([66], obj [idt 3 67])]
      (fun n => if n = [65] then 2 else if n = [66] then 1 else 0) := by
  constructor
  · intro n m h
    simp only [Tab.get, List.find?] at h
    split at h
    · simp only [Option.map_some, Option.some.injEq] at h; subst h; decide
    · split at h
      · simp only [Option.map_some, Option.some.injEq] at h; subst h; decide
      · simp at h
  · intro n m h t ht hk hs
    simp only [Tab.get, List.find?] at h
    split at h
    · rename_i hn
      simp only [beq_iff_eq] at hn
      simp only [Option.map_some, Option.some.injEq] at h
      subst h hn
      simp only [obj, List.mem_cons, List.not_mem_nil, or_false] at ht
      rcases ht with rfl | rfl <;> decide
    · split at h
      · simp only [Option.map_some, Option.some.injEq] at h
        subst h
        simp only [obj, List.mem_cons, List.not_mem_nil, or_false] at ht
        subst ht
        exact absurd hs (by decide)
      · simp at h

/-- `arguments_partial`: `f (a, (b, c))`. -/
example : ArgOk false 0 [(idt 1 97, false)] ∧
    ArgOk false 0 [(lp 2, true), (idt 3 98, false), (cm 4, false), (idt 5 99, true), (rp 6, false)] := by
  refine ⟨?_, ?_⟩ <;> simp [ArgOk, idt, lp, rp, cm]

/-- `arguments_variadic`: `x, y`. -/
example : ArgOk true 0 [(idt 3 98, false), (cm 4, false), (idt 5 99, true)] := by
  simp [ArgOk, idt, cm]

end Verif.Macro

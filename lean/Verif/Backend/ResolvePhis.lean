/-
Leaving SSA form: edges are split and phi functions become moves (C62).

Models `insert_unconditional_bb`, `make_from_bb_unconditional`, `replace_phis` and `resolve_phis`,
/repo/src/cc/backend/ssa.c:197-282 and 365-447; the order of the moves is PhiMoves (C44).

Blocks are inserted into the container here, so a block is named by a number of its own and the container is a list of
such numbers; `bb->next` is the number that follows in the list.
-/
import Verif.Backend.Edges
import Verif.Backend.PhiMoves
import Verif.Backend.Cond
import Mathlib.Data.List.Nodup
import Mathlib.Data.List.Perm.Basic
import Mathlib.Data.List.InsertIdx

namespace Verif.ResolvePhis
open Verif.Ir

variable {K V S : Type}

/-! ### Model -/

/-- `BBContainer`: the blocks in order (ir.h:283-285), their code and `from_bbs`; the number of the next block and of
the next register that will be allocated. -/
structure Fun (K V : Type) where
  order : List Nat
  code : Nat → Block K V
  frm : Nat → List Nat
  new : Nat
  tmp : Nat

/-- `bb->next`. -/
def follow : List Nat → Nat → Option Nat
  | [], _ => none
  | a :: l, b => if a = b then l.head? else follow l b

/-- `f` with another value at `b`. -/
def setAt {α : Type} (f : Nat → α) (b : Nat) (x : α) : Nat → α := fun c => if c = b then x else f c

/-- ssa.c:204-214: the block at position `ito` is also reached from the one before it, without a jump. -/
def falls (F : Fun K V) (ito : Nat) : Bool :=
  match ito with
  | 0 => false
  | j + 1 =>
    match F.order[j]? with
    | none => false
    | some p =>
      match (F.code p).last with
      | .jmp _ => false
      | .tjmp _ _ => false
      | _ => true

/-- ssa.c:221-243: the new jump at the end of `from`.  `none`: an assertion fails (that of `invert_cond`, or that of
ssa.c:236), or the jump goes to the null pointer. -/
def redirect (inv : K → Option K) (next : Option Nat) (falls : Bool) (tb bb : Nat) : Last K V → Option (Last K V)
  | .cjmp k a b d =>
    if d = tb then
      if falls then next.bind fun n => (inv k).map fun k' => .cjmp k' a b n
      else some (.cjmp k a b bb)
    else some (.cjmp k a b d)
  | .tjmp o bs => next.map fun _ => .tjmp o (bs.map fun d => if d = tb then bb else d)
  | l => some l

/-- ssa.c:216-220: where the new block is put. -/
def place (falls : Bool) (ito ifrom : Nat) : Nat := if falls then ifrom + 1 else ito

/-- `insert_unconditional_bb`, ssa.c:198-266.  The new container and the position of the new block. -/
def split (inv : K → Option K) (F : Fun K V) (tb ito fb ifrom : Nat) : Option (Fun K V × Nat) :=
  let at' := place (falls F ito) ito ifrom
  (redirect inv F.order[ifrom + 1]? (falls F ito) tb F.new (F.code fb).last).map fun l =>
    ({ F with
        order := F.order.insertIdx at' F.new
        code := setAt (setAt F.code fb { F.code fb with last := l }) F.new
          ⟨[], [], if at' ≠ ito then .jmp tb else .next⟩
        frm := setAt F.frm F.new [fb]
        new := F.new + 1 }, at')

/-- The block ends with a conditional jump or a jump table. -/
def branches : Last K V → Bool
  | .cjmp .. => true
  | .tjmp .. => true
  | _ => false

/-- `make_from_bb_unconditional`, ssa.c:268-290, for the block `bb` at position `ibb`.  The new position is `none` if no
block was inserted (`INT_MAX`). -/
def makeUncond (inv : K → Option K) (F : Fun K V) (bb ibb ifb : Nat) : Option (Fun K V × Option Nat) :=
  match (F.frm bb)[ifb]? with
  | none => none
  | some fb =>
    if branches (F.code fb).last then
      if F.order.idxOf fb < F.order.length then
        (split inv F bb ibb fb (F.order.idxOf fb)).map fun (G, at') =>
          ({ G with frm := setAt G.frm bb ((G.frm bb).set ifb F.new) }, some at')
      else none
    else some (F, none)

/-- The phi functions as they are seen from the predecessor `ifb`. -/
def view (phis : List (Phi V)) (ifb : Nat) : Option (List (PhiMoves.Phi (Opr V))) :=
  phis.mapM fun φ => (φ.params[ifb]?).map fun o => ⟨.reg φ.dst, o⟩

/-- The register a move writes. -/
def regOf : Opr V → Option Nat
  | .reg r => some r
  | .const _ => none

/-- `new_ir_mov`. -/
def movIns (mov : K) (m : PhiMoves.Mov (Opr V)) : Ins K V := ⟨mov, regOf m.dst, some m.src, none⟩

variable [DecidableEq V]

/-- The phi functions in the order in which their views were left. -/
def reorder (phis : List (Phi V)) (vs : List (PhiMoves.Phi (Opr V))) : List (Phi V) :=
  vs.filterMap fun v => phis.find? fun φ => decide (v.dst = .reg φ.dst)

/-- `replace_phis`, ssa.c:365-415: the moves are inserted at the end of the predecessor, before its jump. -/
def replace (mov : K) (F : Fun K V) (bb ifb : Nat) : Option (Fun K V) :=
  match (F.frm bb)[ifb]?, view (F.code bb).phis ifb with
  | some fb, some vs =>
    match PhiMoves.replacePhis (fun n => .reg (F.tmp + n)) vs, PhiMoves.restored vs, PhiMoves.extract vs with
    | some ms, some ps, some (_, chains) =>
      match (F.code fb).last with
      | .cjmp .. => none
      | _ =>
        let code := setAt F.code bb { F.code bb with phis := reorder (F.code bb).phis ps }
        some { F with
          code := setAt code fb { code fb with body := (code fb).body ++ ms.map (movIns mov) }
          tmp := F.tmp + chains.length }
    | _, _, _ => none
  | _, _ => none

/-- ssa.c:432-439: the predecessors `ifb`, `ifb + 1`, ... of the block at position `ibb`; `n` are left. -/
def edges (inv : K → Option K) (mov : K) (bb : Nat) : Nat → Nat → Nat → Fun K V → Option (Fun K V × Nat)
  | 0, _, ibb, F => some (F, ibb)
  | n + 1, ifb, ibb, F =>
    match makeUncond inv F bb ibb ifb with
    | none => none
    | some (F1, at') =>
      let ibb := if (match at' with | some a => decide (a ≤ ibb) | none => false) then ibb + 1 else ibb
      match replace mov F1 bb ifb with
      | none => none
      | some F2 => edges inv mov bb n (ifb + 1) ibb F2

/-- `resolve_phis`, ssa.c:424-443, from the block at position `ibb` on.  `has bb`: the pointer `bb->phis` is not null.
The first number bounds the iterations of the loop. -/
def loop (inv : K → Option K) (mov : K) (has : Nat → Bool) : Nat → Nat → Fun K V → Option (Fun K V)
  | 0, _, _ => none
  | n + 1, ibb, F =>
    match F.order[ibb]? with
    | none => some F
    | some bb =>
      if has bb then
        match edges inv mov bb (F.frm bb).length 0 ibb F with
        | none => none
        | some (G, ibb') =>
          loop inv mov has n (ibb' + 1) { G with code := setAt G.code bb { G.code bb with phis := [] } }
      else loop inv mov has n (ibb + 1) F

/-- A block without instructions. -/
def noBlock : Block K V := ⟨[], [], .next⟩

omit [DecidableEq V] in
/-- The container before the pass; the registers from `tmp` on are unused. -/
def ofProg (P : Prog K V) (tmp : Nat) : Fun K V :=
  ⟨List.range P.blocks.length, fun b => (P.blocks[b]?).getD noBlock, P.frm, P.blocks.length, tmp⟩

/-- `resolve_phis`, ssa.c:424-443. -/
def resolvePhis (inv : K → Option K) (mov : K) (has : Nat → Bool) (fuel : Nat) (P : Prog K V) (tmp : Nat) :
    Option (Fun K V) :=
  loop inv mov has fuel 0 (ofProg P tmp)

/-! ### Specification -/

omit [DecidableEq V]

/-- The next block; `none`: undefined; `some none`: the end of the function. -/
def ltarget (M : Machine K V S) (mem : Nat → Bool) (order : List Nat) (b : Nat) (ρ : Env V) (s : S) :
    Last K V → Option (Option Nat)
  | .next => some (follow order b)
  | .jmp c => some (some c)
  | .cjmp k o1 o2 c => some (if M.test k (rd M mem ρ s o1) (rd M mem ρ s o2) then some c else follow order b)
  | .tjmp o bs => (bs[M.index (rd M mem ρ s o)]?).map some

/-- The registers after the phi functions of `b`.  `dn b`: the first `dn b` predecessors of `b` calculate the phi
functions of `b` themselves; it is 0 for a function in SSA form. -/
def lenter (M : Machine K V S) (mem : Nat → Bool) (F : Fun K V) (dn : Nat → Nat) (b : Nat) (prev : Option Nat) (ρ : Env V)
    (s : S) : Env V :=
  match prev with
  | none => ρ
  | some p => if (F.frm b).idxOf p < dn b then ρ else phiIn M mem (F.code b).phis ((F.frm b).idxOf p) ρ s

/-- One block is run. -/
def lstep (M : Machine K V S) (mem : Nat → Bool) (F : Fun K V) (dn : Nat → Nat) : Res V S → Res V S
  | .run b prev ρ s =>
    if b ∈ F.order then
      match runBody M mem (F.code b).body (lenter M mem F dn b prev ρ s) s with
      | .ok (ρ', s') =>
        match ltarget M mem F.order b ρ' s' (F.code b).last with
        | some (some c) => .run c (some b) ρ' s'
        | some none => .done s'
        | none => .undef
      | .stop s' => .stop s'
      | .undef => .undef
    else .undef
  | r => r

/-- `n` steps. -/
def iter {α : Type} (f : α → α) : Nat → α → α
  | 0, a => a
  | n + 1, a => iter f n (f a)

/-- What can be seen of a function while it runs, whatever its blocks are called. -/
inductive Eff (S : Type) where
  | running (s : S)
  | done (s : S)
  | stop (s : S)
  | undef
deriving DecidableEq, Repr

def eff : Res V S → Eff S
  | .run _ _ _ s => .running s
  | .done s => .done s
  | .stop s => .stop s
  | .undef => .undef

/-- `g`, started in `r'`, does what `f` does in `r`, possibly in more steps, for ever, unless `f` gets undefined. -/
def Follows (f g : Res V S → Res V S) (r r' : Res V S) : Prop :=
  ∀ n, eff (iter f n r) ≠ .undef → ∃ m, n ≤ m ∧ eff (iter g m r') = eff (iter f n r)

/-! ### Simulations -/

theorem iter_undef {f : Res V S → Res V S} (h : f .undef = .undef) (n : Nat) : iter f n .undef = .undef := by
  induction n with
  | zero => rfl
  | succ n ih => rw [iter, h, ih]

theorem iter_add {α : Type} (f : α → α) (m n : Nat) (a : α) : iter f (m + n) a = iter f n (iter f m a) := by
  induction m generalizing a with
  | zero => rw [Nat.zero_add]; rfl
  | succ m ih =>
    rw [show m + 1 + n = m + n + 1 by omega]
    exact ih _

theorem follows_of {f g : Res V S → Res V S} (hu : f .undef = .undef) (Sim : Res V S → Res V S → Prop)
    (h1 : ∀ r r', Sim r r' → eff r' = eff r)
    (h2 : ∀ r r', Sim r r' → f r = .undef ∨ ∃ m, 1 ≤ m ∧ Sim (f r) (iter g m r')) {r r' : Res V S} (h : Sim r r') :
    Follows f g r r' := by
  intro n
  induction n generalizing r r' with
  | zero => intro _; exact ⟨0, Nat.le_refl _, h1 _ _ h⟩
  | succ n ih =>
    intro hn
    rw [iter] at hn ⊢
    rcases h2 _ _ h with h3 | ⟨m, hm, h3⟩
    · rw [h3, iter_undef hu] at hn
      exact absurd rfl hn
    · obtain ⟨m', h4, h5⟩ := ih h3 hn
      exact ⟨m + m', by omega, by rw [iter_add]; exact h5⟩

theorem Follows.trans {f g h : Res V S → Res V S} {r r' r'' : Res V S} (h1 : Follows f g r r') (h2 : Follows g h r' r'') :
    Follows f h r r'' := by
  intro n hn
  obtain ⟨m, hm, e1⟩ := h1 n hn
  obtain ⟨k, hk, e2⟩ := h2 m (by rw [e1]; exact hn)
  exact ⟨k, by omega, e2.trans e1⟩

/-! ### The list of blocks -/

theorem follow_insert {A B : List Nat} {x : Nat} (hn : (A ++ B).Nodup) (hx : x ∉ A ++ B) (b : Nat) :
    follow (A ++ x :: B) b = if b = x then B.head? else if A.getLast? = some b then some x else follow (A ++ B) b := by
  induction A with
  | nil =>
    simp only [List.nil_append, follow, List.getLast?_nil]
    by_cases h : x = b
    · subst h; simp
    · have : ¬ b = x := fun h' => h h'.symm
      simp [h, this]
  | cons a A ih =>
    rw [List.cons_append, List.nodup_cons] at hn
    rw [List.cons_append, List.mem_cons, not_or] at hx
    rw [List.cons_append, follow, List.cons_append, follow, ih hn.2 hx.2]
    by_cases h : a = b
    · subst h
      rw [if_pos rfl, if_neg (fun h => hx.1 h.symm), if_pos rfl]
      cases A with
      | nil => simp
      | cons y A =>
        rw [if_neg]
        · rfl
        · intro h
          rw [List.getLast?_cons_cons] at h
          exact hn.1 (List.mem_append.2 (.inl (List.mem_of_getLast? h)))
    · rw [if_neg h, if_neg h]
      cases A with
      | nil => simp [h]
      | cons y A => rw [List.getLast?_cons_cons]

theorem follow_getElem {l : List Nat} (hn : l.Nodup) {i b : Nat} (h : l[i]? = some b) : follow l b = l[i + 1]? := by
  induction l generalizing i with
  | nil => simp at h
  | cons a l ih =>
    rw [List.nodup_cons] at hn
    rw [follow]
    cases i with
    | zero =>
      simp at h
      rw [if_pos h, List.head?_eq_getElem?]
      rfl
    | succ i =>
      rw [List.getElem?_cons_succ] at h
      have : ¬ a = b := by
        intro hab
        subst hab
        exact hn.1 (List.mem_of_getElem? h)
      rw [if_neg this, ih hn.2 h]
      rfl

theorem getElem_inj {l : List Nat} (hn : l.Nodup) {i j b : Nat} (h1 : l[i]? = some b) (h2 : l[j]? = some b) : i = j := by
  obtain ⟨h3, h4⟩ := List.getElem?_eq_some_iff.1 h1
  obtain ⟨h5, h6⟩ := List.getElem?_eq_some_iff.1 h2
  exact (List.Nodup.getElem_inj_iff hn).1 (h4.trans h6.symm)

/-- The successors of a block that ends with `l`. -/
def lsucc (order : List Nat) (b : Nat) : Last K V → List Nat
  | .next => (follow order b).toList
  | .jmp c => [c]
  | .cjmp _ _ _ c => c :: (follow order b).toList
  | .tjmp _ bs => bs

theorem ltarget_succ {M : Machine K V S} {mem : Nat → Bool} {order : List Nat} {b c : Nat} {ρ : Env V} {s : S} {l : Last K V}
    (h : ltarget M mem order b ρ s l = some (some c)) : c ∈ lsucc order b l := by
  cases l with
  | next =>
    simp only [ltarget, Option.some.injEq] at h
    simp [lsucc, h]
  | jmp d =>
    simp only [ltarget, Option.some.injEq] at h
    simp [lsucc, h]
  | cjmp k o1 o2 d =>
    simp only [ltarget, Option.some.injEq] at h
    split at h
    · simp at h; simp [lsucc, h]
    · simp [lsucc, h]
  | tjmp o bs =>
    simp only [ltarget, Option.map_eq_some_iff] at h
    obtain ⟨d, h1, h2⟩ := h
    cases h2
    exact List.mem_of_getElem? h1

/-- The block leaves only by a jump. -/
def leaves : Last K V → Bool
  | .jmp _ => true
  | .tjmp _ _ => true
  | _ => false

theorem falls_eq {F : Fun K V} {ito : Nat} (h : ito ≤ F.order.length) :
    falls F ito = match (F.order.take ito).getLast? with
      | none => false
      | some p => !leaves (F.code p).last := by
  cases ito with
  | zero => simp [falls]
  | succ j =>
    have hj : F.order[j]? = some (F.order[j]) := List.getElem?_eq_getElem (by omega)
    have h1 : (F.order.take (j + 1)).getLast? = some (F.order[j]) := by
      rw [List.getLast?_take]
      simp [hj]
    rw [h1]
    simp only [falls, hj]
    cases (F.code F.order[j]).last <;> rfl

/-! ### Splitting an edge -/

/-- Conditions that can be inverted: those of the conditional jumps. -/
def Flips (M : Machine K V S) (inv : K → Option K) (C : K → Prop) : Prop :=
  ∀ k, C k → ∃ k', inv k = some k' ∧ C k' ∧ ∀ x y, M.test k' x y = !M.test k x y

theorem insertIdx_eq {α : Type} (x : α) : ∀ (n : Nat) (l : List α), n ≤ l.length →
    l.insertIdx n x = l.take n ++ x :: l.drop n
  | 0, l, _ => by simp
  | n + 1, [], h => by simp at h
  | n + 1, a :: l, h => by
    rw [List.insertIdx_succ_cons, insertIdx_eq x n l (by simpa using h)]
    rfl

/-- The operands of a jump. -/
def lastOprs : Last K V → List (Opr V)
  | .cjmp _ o1 o2 _ => [o1, o2]
  | .tjmp o _ => [o]
  | _ => []

def isTable : Last K V → Bool
  | .tjmp _ _ => true
  | _ => false

/-- Conditional jumps and jump tables are not at the end of the function; a conditional jump does not go to the next
block; a jump table has an entry. -/
def JumpOk (C : K → Prop) (order : List Nat) (b : Nat) : Last K V → Prop
  | .cjmp k _ _ d => C k ∧ follow order b ≠ none ∧ follow order b ≠ some d
  | .tjmp _ bs => follow order b ≠ none ∧ bs ≠ []
  | _ => True

/-- What `split` does. -/
structure Split (M : Machine K V S) (C : K → Prop) (F G : Fun K V) (tb ito fb at' : Nat) (l : Last K V) : Prop where
  order : ∃ A B, F.order = A ++ B ∧ G.order = A ++ F.new :: B ∧ A.length = at'
  code : G.code = setAt (setAt F.code fb { F.code fb with last := l }) F.new ⟨[], [], if at' ≠ ito then .jmp tb else .next⟩
  frm : G.frm = setAt F.frm F.new [fb]
  new : G.new = F.new + 1
  tmp : G.tmp = F.tmp
  branch : branches l = true
  table : isTable l = isTable (F.code fb).last
  oprs : lastOprs l = lastOprs (F.code fb).last
  ok : JumpOk C G.order fb l
  others : ∀ b ∈ F.order, b ≠ fb →
    follow G.order b = follow F.order b ∨ (leaves (F.code b).last = true ∧ follow G.order b = some F.new)
  target : ∀ mem ρ s, ltarget M mem G.order fb ρ s l =
    (ltarget M mem F.order fb ρ s (F.code fb).last).map fun t => if t = some tb then some F.new else t
  succ : ∀ c, c ∈ lsucc G.order fb l ↔
    (c = F.new ∧ tb ∈ lsucc F.order fb (F.code fb).last) ∨ (c ≠ tb ∧ c ∈ lsucc F.order fb (F.code fb).last)
  first : at' = 0 → ito = 0
  block : at' ≠ ito ∨ follow G.order F.new = some tb
  pos : (at' ≤ ito → G.order[ito + 1]? = some tb) ∧ (ito < at' → G.order[ito]? = some tb)

theorem split_spec {M : Machine K V S} {inv : K → Option K} {C : K → Prop} (hfl : Flips M inv C) {F : Fun K V}
    {tb ito fb ifrom : Nat} (hn : F.order.Nodup) (hnew : F.new ∉ F.order) (hto : F.order[ito]? = some tb)
    (hfrom : F.order[ifrom]? = some fb) (hb : branches (F.code fb).last = true)
    (hok : JumpOk C F.order fb (F.code fb).last)
    (hin : ∀ c ∈ lsucc F.order fb (F.code fb).last, c ∈ F.order)
    (he : tb ∈ lsucc F.order fb (F.code fb).last ∨ isTable (F.code fb).last = true) :
    ∃ G at' l, split inv F tb ito fb ifrom = some (G, at') ∧ Split M C F G tb ito fb at' l := by
  have hito := (List.getElem?_eq_some_iff.1 hto).1
  have hifr := (List.getElem?_eq_some_iff.1 hfrom).1
  have hfol := follow_getElem hn hfrom
  have hfb : fb ∈ F.order := List.mem_of_getElem? hfrom
  have htb : tb ∈ F.order := List.mem_of_getElem? hto
  have hfbn : fb ≠ F.new := fun h => hnew (h ▸ hfb)
  have htbn : tb ≠ F.new := fun h => hnew (h ▸ htb)
  have hat : place (falls F ito) ito ifrom ≤ F.order.length := by
    unfold place; split <;> omega
  -- the order
  have key : ∀ at', at' ≤ F.order.length →
      F.order = F.order.take at' ++ F.order.drop at' ∧
      F.order.insertIdx at' F.new = F.order.take at' ++ F.new :: F.order.drop at' ∧ (F.order.take at').length = at' := by
    intro at' h
    refine ⟨(List.take_append_drop ..).symm, insertIdx_eq _ _ _ h, by simp [h]⟩
  have fkey : ∀ at', at' ≤ F.order.length → ∀ b, follow (F.order.insertIdx at' F.new) b =
      if b = F.new then F.order[at']? else if (F.order.take at').getLast? = some b then some F.new else follow F.order b := by
    intro at' h b
    rw [(key at' h).2.1, follow_insert (by rw [List.take_append_drop]; exact hn) (by rw [List.take_append_drop]; exact hnew),
      List.take_append_drop, List.head?_drop]
  have hpos : ∀ at', at' ≤ F.order.length → (at' ≤ ito → (F.order.insertIdx at' F.new)[ito + 1]? = some tb) ∧
      (ito < at' → (F.order.insertIdx at' F.new)[ito]? = some tb) := by
    intro at' h
    constructor
    · intro h1
      rw [List.getElem?_insertIdx_of_gt (by omega)]
      exact hto
    · intro h1
      rw [List.getElem?_insertIdx_of_lt h1]
      exact hto
  cases hfall : falls F ito with
  | true =>
    have hat' : place true ito ifrom = ifrom + 1 := rfl
    rw [hfall, hat'] at hat
    have hlast : (F.order.take (ifrom + 1)).getLast? = some fb := by
      rw [List.getLast?_take]; simp [hfrom]
    have hF : follow (F.order.insertIdx (ifrom + 1) F.new) fb = some F.new := by
      rw [fkey _ hat, if_neg hfbn, if_pos hlast]
    have hO : ∀ b ∈ F.order, b ≠ fb → follow (F.order.insertIdx (ifrom + 1) F.new) b = follow F.order b := by
      intro b hb' hne
      rw [fkey _ hat, if_neg (fun h : b = F.new => hnew (h ▸ hb')), if_neg (by rw [hlast]; intro h; cases h; exact hne rfl)]
    have hB : ifrom + 1 ≠ ito ∨ follow (F.order.insertIdx (ifrom + 1) F.new) F.new = some tb := by
      by_cases h : ifrom + 1 = ito
      · right; rw [fkey _ hat, if_pos rfl, h, hto]
      · exact .inl h
    unfold split
    rw [hfall]
    cases hl : (F.code fb).last with
    | next => rw [hl] at hb; cases hb
    | jmp d => rw [hl] at hb; cases hb
    | cjmp k a b d =>
      rw [hl] at hok he
      obtain ⟨hC, hne, hnd⟩ := hok
      by_cases hd : d = tb
      · subst hd
        obtain ⟨n, hfn⟩ := Option.ne_none_iff_exists'.1 hne
        obtain ⟨k', hk, hCk, htest⟩ := hfl k hC
        have hnd' : n ≠ d := fun h => hnd (by rw [hfn, h])
        have hnx : F.order[ifrom + 1]? = some n := by rw [← hfol]; exact hfn
        have hnm : n ∈ F.order := List.mem_of_getElem? hnx
        simp only [redirect, hnx, hk, hat', if_true, Option.bind_some, Option.map_some]
        refine ⟨_, _, .cjmp k' a b n, rfl, ⟨⟨_, _, key _ hat⟩, rfl, rfl, rfl, rfl, rfl, by rw [hl]; rfl, by rw [hl]; rfl, ?_,
          fun b hb' hne' => .inl (hO b hb' hne'), ?_, ?_, by omega, hB, hpos _ hat⟩⟩
        · refine ⟨hCk, by simp only [hF]; simp, by simp only [hF]; intro h; cases h; exact hnew hnm⟩
        · intro mem ρ s
          simp only [ltarget, hl, Option.map_some, hF, hfn, htest]
          cases M.test k (rd M mem ρ s a) (rd M mem ρ s b)
          · simp [hnd']
          · simp
        · intro c
          simp only [lsucc, hF, hl, hfn, Option.toList_some, List.mem_cons, List.not_mem_nil, or_false]
          constructor
          · rintro (rfl | rfl)
            · exact .inr ⟨hnd', .inr rfl⟩
            · exact .inl ⟨rfl, .inl trivial⟩
          · rintro (⟨rfl, -⟩ | ⟨h1, rfl | rfl⟩)
            · exact .inr rfl
            · exact absurd rfl h1
            · exact .inl rfl
      · have hft : follow F.order fb = some tb := by
          rcases he with he | he
          · simp only [lsucc, List.mem_cons, Option.mem_toList, Option.mem_def] at he
            rcases he with he | he
            · exact absurd he.symm hd
            · exact he
          · cases he
        simp only [redirect, hd, if_false, hat', Option.map_some]
        have hdm : d ∈ F.order := hin d (by rw [hl]; exact List.mem_cons_self ..)
        refine ⟨_, _, .cjmp k a b d, rfl, ⟨⟨_, _, key _ hat⟩, by simp only [hl], rfl, rfl, rfl, rfl, by rw [hl], by rw [hl], ?_,
          fun b hb' hne' => .inl (hO b hb' hne'), ?_, ?_, by omega, hB, hpos _ hat⟩⟩
        · refine ⟨hC, by simp only [hF]; simp, by simp only [hF]; intro h; cases h; exact hnew hdm⟩
        · intro mem ρ s
          simp only [ltarget, hl, Option.map_some, hF, hft]
          cases M.test k (rd M mem ρ s a) (rd M mem ρ s b)
          · simp
          · simp [hd]
        · intro c
          simp only [lsucc, hF, hl, hft, Option.toList_some, List.mem_cons, List.not_mem_nil, or_false]
          constructor
          · rintro (rfl | rfl)
            · exact .inr ⟨hd, .inl rfl⟩
            · exact .inl ⟨rfl, .inr trivial⟩
          · rintro (⟨rfl, -⟩ | ⟨h1, rfl | rfl⟩)
            · exact .inr rfl
            · exact .inl rfl
            · exact absurd rfl h1
    | tjmp o bs =>
      rw [hl] at hok
      obtain ⟨n, hfn⟩ := Option.ne_none_iff_exists'.1 hok.1
      have hnx : F.order[ifrom + 1]? = some n := by rw [← hfol]; exact hfn
      simp only [redirect, hnx, hat', Option.map_some]
      refine ⟨_, _, .tjmp o (bs.map fun d => if d = tb then F.new else d), rfl, ⟨⟨_, _, key _ hat⟩, rfl, rfl, rfl, rfl, rfl, by rw [hl]; rfl, by rw [hl]; rfl, ?_,
          fun b hb' hne' => .inl (hO b hb' hne'), ?_, ?_, by omega, hB, hpos _ hat⟩⟩
      · simp only [JumpOk, hF]; exact ⟨by simp, by simpa using hok.2⟩
      · intro mem ρ s
        simp only [ltarget, hl, List.getElem?_map, Option.map_map]
        congr 1
        funext d
        by_cases hdt : d = tb <;> simp [hdt]
      · intro c
        simp only [lsucc, hl, List.mem_map]
        constructor
        · rintro ⟨d, h1, h2⟩
          by_cases hdt : d = tb
          · rw [if_pos hdt] at h2; exact .inl ⟨h2.symm, hdt ▸ h1⟩
          · rw [if_neg hdt] at h2; exact .inr ⟨h2 ▸ hdt, h2 ▸ h1⟩
        · rintro (⟨rfl, h1⟩ | ⟨h1, h2⟩)
          · exact ⟨tb, h1, if_pos rfl⟩
          · exact ⟨c, h2, if_neg h1⟩
  | false =>
    have hat' : place false ito ifrom = ito := rfl
    rw [hfall, hat'] at hat
    have hprev : ∀ q, (F.order.take ito).getLast? = some q → leaves (F.code q).last = true := by
      intro q hq
      rw [falls_eq (by omega), hq] at hfall
      simpa using hfall
    have hfollow : follow F.order fb = some tb → (F.order.take ito).getLast? = some fb := by
      intro h
      rw [hfol] at h
      have := getElem_inj hn h hto
      subst this
      rw [List.getLast?_take]
      simp [hfrom]
    have hO : ∀ b ∈ F.order, follow (F.order.insertIdx ito F.new) b = follow F.order b ∨
        (leaves (F.code b).last = true ∧ follow (F.order.insertIdx ito F.new) b = some F.new) := by
      intro b hb'
      rw [fkey _ hat, if_neg (fun h : b = F.new => hnew (h ▸ hb'))]
      by_cases h : (F.order.take ito).getLast? = some b
      · rw [if_pos h]; exact .inr ⟨hprev b h, rfl⟩
      · rw [if_neg h]; exact .inl rfl
    have hB : ito ≠ ito ∨ follow (F.order.insertIdx ito F.new) F.new = some tb := by
      right; rw [fkey _ hat, if_pos rfl, hto]
    unfold split
    rw [hfall]
    cases hl : (F.code fb).last with
    | next => rw [hl] at hb; cases hb
    | jmp d => rw [hl] at hb; cases hb
    | cjmp k a b d =>
      have hF : follow (F.order.insertIdx ito F.new) fb = follow F.order fb := by
        rcases hO fb hfb with h | ⟨h, -⟩
        · exact h
        · rw [hl] at h; cases h
      have hnt : follow F.order fb ≠ some tb := by
        intro h
        have := hprev fb (hfollow h)
        rw [hl] at this; cases this
      rw [hl] at hok he
      obtain ⟨hC, hne, hnd⟩ := hok
      have hd : d = tb := by
        rcases he with he | he
        · simp only [lsucc, List.mem_cons, Option.mem_toList, Option.mem_def] at he
          rcases he with he | he
          · exact he.symm
          · exact absurd he hnt
        · cases he
      subst hd
      obtain ⟨n, hfn⟩ := Option.ne_none_iff_exists'.1 hne
      have hnx : F.order[ifrom + 1]? = some n := by rw [← hfol]; exact hfn
      have hnm : n ∈ F.order := List.mem_of_getElem? hnx
      have hnd' : n ≠ d := fun h => hnd (by rw [hfn, h])
      simp only [redirect, if_true, hat', Option.map_some]
      refine ⟨_, _, .cjmp k a b F.new, rfl, ⟨⟨_, _, key _ hat⟩, rfl, rfl, rfl, rfl, rfl, by rw [hl]; rfl, by rw [hl]; rfl, ?_,
          fun b hb' _ => hO b hb', ?_, ?_, by omega, hB, hpos _ hat⟩⟩
      · refine ⟨hC, by simp only [hF]; exact hne, by simp only [hF, hfn]; intro h; cases h; exact hnew hnm⟩
      · intro mem ρ s
        simp only [ltarget, hl, Option.map_some, hF, hfn]
        cases M.test k (rd M mem ρ s a) (rd M mem ρ s b)
        · simp [hnd']
        · simp
      · intro c
        simp only [lsucc, hF, hl, hfn, Option.toList_some, List.mem_cons, List.not_mem_nil, or_false]
        constructor
        · rintro (rfl | rfl)
          · exact .inl ⟨rfl, .inl trivial⟩
          · exact .inr ⟨hnd', .inr rfl⟩
        · rintro (⟨rfl, -⟩ | ⟨h1, rfl | rfl⟩)
          · exact .inl rfl
          · exact absurd rfl h1
          · exact .inr rfl
    | tjmp o bs =>
      rw [hl] at hok
      obtain ⟨n, hfn⟩ := Option.ne_none_iff_exists'.1 hok.1
      have hnx : F.order[ifrom + 1]? = some n := by rw [← hfol]; exact hfn
      simp only [redirect, hnx, hat', Option.map_some]
      refine ⟨_, _, .tjmp o (bs.map fun d => if d = tb then F.new else d), rfl, ⟨⟨_, _, key _ hat⟩, rfl, rfl, rfl, rfl, rfl, by rw [hl]; rfl, by rw [hl]; rfl, ?_,
          fun b hb' _ => hO b hb', ?_, ?_, by omega, hB, hpos _ hat⟩⟩
      · rcases hO fb hfb with h | ⟨-, h⟩
        · simp only [JumpOk, h]; exact ⟨hok.1, by simpa using hok.2⟩
        · simp only [JumpOk, h]; exact ⟨by simp, by simpa using hok.2⟩
      · intro mem ρ s
        simp only [ltarget, hl, List.getElem?_map, Option.map_map]
        congr 1
        funext d
        by_cases hdt : d = tb <;> simp [hdt]
      · intro c
        simp only [lsucc, hl, List.mem_map]
        constructor
        · rintro ⟨d, h1, h2⟩
          by_cases hdt : d = tb
          · rw [if_pos hdt] at h2; exact .inl ⟨h2.symm, hdt ▸ h1⟩
          · rw [if_neg hdt] at h2; exact .inr ⟨h2 ▸ hdt, h2 ▸ h1⟩
        · rintro (⟨rfl, h1⟩ | ⟨h1, h2⟩)
          · exact ⟨tb, h1, if_pos rfl⟩
          · exact ⟨c, h2, if_neg h1⟩

/-- A register occurs in a block. -/
def RegIn (r : Nat) (B : Block K V) : Prop :=
  (∃ φ ∈ B.phis, r = φ.dst ∨ .reg r ∈ φ.params) ∨
  (∃ i ∈ B.body, i.dst = some r ∨ i.o1 = some (.reg r) ∨ i.o2 = some (.reg r)) ∨ .reg r ∈ lastOprs B.last

/-- A phi function as it is seen from the predecessor `k`. -/
def pv (k : Nat) (φ : Phi V) : PhiMoves.Phi (Opr V) := ⟨.reg φ.dst, (φ.params[k]?).getD (.reg φ.dst)⟩

/-- Registers that are not used yet. -/
def freshRegs (T : Nat) (n : Nat) : Opr V := .reg (T + n)

/-- The moves for every predecessor are right, in whatever order the phi functions are when it is their turn. -/
def Movable [DecidableEq V] (T0 n : Nat) (phis : List (Phi V)) : Prop :=
  ∀ ps : List (Phi V), ps.Perm phis → ∀ k, k < n → ∀ T, T0 ≤ T → PhiMoves.Faithful (freshRegs T) (ps.map (pv k))

/-- The state of the pass.  `R` are the blocks that can be reached (or more), `dn c` the number of predecessors of `c`
that are done. -/
structure Inv [DecidableEq V] (mem : Nat → Bool) (C : K → Prop) (has : Nat → Bool) (F : Fun K V) (dn : Nat → Nat) (R : Nat → Prop) :
    Prop where
  nodup : F.order.Nodup
  head : F.order.head? = some 0
  start : R 0
  sub : ∀ b, R b → b ∈ F.order
  closed : ∀ b, R b → ∀ c ∈ lsucc F.order b (F.code b).last, R c ∧ b ∈ F.frm c
  ok : ∀ b ∈ F.order, JumpOk C F.order b (F.code b).last
  freshO : ∀ b ∈ F.order, b < F.new
  freshF : ∀ c, ∀ p ∈ F.frm c, p < F.new
  hasR : ∀ c, has c = true → R c ∧ c ≠ 0
  nophi : ∀ c, has c = false → (F.code c).phis = []
  pred : ∀ c, has c = true → ∀ k p, dn c ≤ k → (F.frm c)[k]? = some p → p ∈ F.order ∧
    (branches (F.code p).last = true → R p) ∧ (c ∈ lsucc F.order p (F.code p).last ∨ isTable (F.code p).last = true)
  past : ∀ c, has c = true → ∀ k p, k < dn c → (F.frm c)[k]? = some p → branches (F.code p).last = false
  once : ∀ c, has c = true → ∀ k p, dn c ≤ k → (F.frm c)[k]? = some p → isTable (F.code p).last = false →
    ∀ j, (F.frm c)[j]? = some p → j = k
  arity : ∀ c, has c = true → ∀ φ ∈ (F.code c).phis, φ.params.length = (F.frm c).length
  dsts : ∀ c, ((F.code c).phis.map (·.dst)).Nodup
  phimem : ∀ c, ∀ φ ∈ (F.code c).phis, mem φ.dst = false
  low : ∀ b r, RegIn r (F.code b) → r < F.tmp
  memT : ∀ r, F.tmp ≤ r → mem r = false
  good : ∀ c, has c = true → Movable F.tmp (F.frm c).length (F.code c).phis

theorem idxOf_set {l : List Nat} {k a x : Nat} (h : l[k]? = some a) (hx : x ∉ l) :
    (l.set k x).idxOf x = k ∧ ∀ q, q ≠ a → q ≠ x → (l.set k x).idxOf q = l.idxOf q := by
  induction l generalizing k with
  | nil => simp at h
  | cons b l ih =>
    rw [List.mem_cons, not_or] at hx
    cases k with
    | zero =>
      simp at h
      subst h
      refine ⟨by simp, fun q h1 h2 => ?_⟩
      rw [List.set_cons_zero, List.idxOf_cons_ne _ (Ne.symm h2), List.idxOf_cons_ne _ (Ne.symm h1)]
    | succ k =>
      rw [List.getElem?_cons_succ] at h
      obtain ⟨h1, h2⟩ := ih h hx.2
      rw [List.set_cons_succ]
      refine ⟨by rw [List.idxOf_cons_ne _ (Ne.symm hx.1), h1], fun q h3 h4 => ?_⟩
      by_cases hb : b = q
      · subst hb; simp
      · rw [List.idxOf_cons_ne _ hb, List.idxOf_cons_ne _ hb, h2 q h3 h4]

theorem idxOf_first {l : List Nat} {k a : Nat} (h : l[k]? = some a) (hf : ∀ j, j < k → l[j]? ≠ some a) : l.idxOf a = k := by
  induction l generalizing k with
  | nil => simp at h
  | cons b l ih =>
    cases k with
    | zero => simp at h; simp [h]
    | succ k =>
      rw [List.getElem?_cons_succ] at h
      have hb : b ≠ a := fun hb => hf 0 (by omega) (by simp [hb])
      rw [List.idxOf_cons_ne _ hb, ih h]
      intro j hj hja
      exact hf (j + 1) (by omega) (by rw [List.getElem?_cons_succ]; exact hja)

theorem ltarget_congr {M : Machine K V S} {mem : Nat → Bool} {o1 o2 : List Nat} {b : Nat} {l : Last K V} {ρ : Env V} {s : S}
    (h : follow o2 b = follow o1 b ∨ leaves l = true) : ltarget M mem o2 b ρ s l = ltarget M mem o1 b ρ s l := by
  cases l <;> simp_all [ltarget, leaves]

theorem lsucc_congr {o1 o2 : List Nat} {b : Nat} {l : Last K V}
    (h : follow o2 b = follow o1 b ∨ leaves l = true) : lsucc o2 b l = lsucc o1 b l := by
  cases l <;> simp_all [lsucc, leaves]

theorem phiIn_nil (M : Machine K V S) (mem : Nat → Bool) (k : Nat) (ρ : Env V) (s : S) : phiIn M mem [] k ρ s = ρ := rfl

theorem setAt_same {α : Type} (f : Nat → α) (b : Nat) (x : α) : setAt f b x b = x := if_pos rfl
theorem setAt_ne {α : Type} (f : Nat → α) {b c : Nat} (x : α) (h : c ≠ b) : setAt f b x c = f c := if_neg h

section
variable [DecidableEq V] {M : Machine K V S} {mem : Nat → Bool} {inv : K → Option K} {C : K → Prop} {has : Nat → Bool} {F : Fun K V}
  {dn : Nat → Nat} {R : Nat → Prop}

/-- Runs that differ in the name of the block before `c` only. -/
def SplitSim (F : Fun K V) (R : Nat → Prop) (c fb : Nat) : Res V S → Res V S → Prop
  | .run b p ρ s, .run b' p' ρ' s' => b' = b ∧ ρ' = ρ ∧ s' = s ∧ R b ∧
      ((p = none ∧ p' = none) ∨ ∃ q, p = some q ∧ R q ∧ p' = some (if b = c ∧ q = fb then F.new else q))
  | .done s, .done s' => s' = s
  | .stop s, .stop s' => s' = s
  | _, _ => False

theorem split_sim {G : Fun K V} (h : Inv mem C has F dn R) {c k fb ito at' : Nat} {l : Last K V} (hc : has c = true)
    (hk : (F.frm c)[k]? = some fb) (hdn : dn c = k) (hb : branches (F.code fb).last = true)
    (hs : Split M C F G c ito fb at' l) (ρ : Env V) (s : S) :
    Follows (lstep M mem F dn) (lstep M mem { G with frm := setAt G.frm c ((G.frm c).set k F.new) } dn)
      (.run 0 none ρ s) (.run 0 none ρ s) := by
  have hRc := (h.hasR c hc).1
  have hno : F.new ∉ F.order := fun hm => absurd (h.freshO _ hm) (by omega)
  have hRn : ∀ b, R b → b ≠ F.new := fun b hb' e => hno (e ▸ h.sub b hb')
  have hnf : F.new ∉ F.frm c := fun hm => absurd (h.freshF c _ hm) (by omega)
  have hfirst : (F.frm c).idxOf fb = k := by
    apply idxOf_first hk
    intro j hj hjf
    have := h.past c hc j fb (by omega) hjf
    rw [hb] at this; cases this
  have hset := idxOf_set hk hnf
  obtain ⟨A, B, hA, hG, hlen⟩ := hs.order
  have hmem : ∀ b, b ∈ F.order → b ∈ G.order := by
    intro b hb'
    rw [hA] at hb'
    rw [hG]
    simp only [List.mem_append, List.mem_cons] at hb' ⊢
    tauto
  have hmemn : F.new ∈ G.order := by rw [hG]; simp
  have hcode : ∀ b, R b → (G.code b).phis = (F.code b).phis ∧ (G.code b).body = (F.code b).body ∧
      (b ≠ fb → (G.code b).last = (F.code b).last) := by
    intro b hb'
    rw [hs.code, setAt_ne _ _ (hRn b hb')]
    by_cases hbf : b = fb
    · subst hbf; rw [setAt_same]; exact ⟨rfl, rfl, fun hne => absurd rfl hne⟩
    · rw [setAt_ne _ _ hbf]; exact ⟨rfl, rfl, fun _ => rfl⟩
  have hRf : R fb := ((h.pred c hc k fb (by omega) hk).2.1) hb
  have hfbl : (G.code fb).last = l := by
    rw [hs.code, setAt_ne _ _ (hRn fb hRf), setAt_same]
  have hfrm : ∀ b, R b → G.frm b = F.frm b := by
    intro b hb'
    rw [hs.frm, setAt_ne _ _ (hRn b hb')]
  refine follows_of rfl (SplitSim F R c fb) ?_ ?_ ⟨rfl, rfl, rfl, h.start, .inl ⟨rfl, rfl⟩⟩
  · intro r r' hr
    cases r <;> cases r' <;> simp_all [SplitSim, eff]
  · intro r r' hr
    cases r with
    | undef => exact .inl rfl
    | done s0 => cases r' <;> simp only [SplitSim] at hr; exact .inr ⟨1, by omega, hr⟩
    | stop s0 => cases r' <;> simp only [SplitSim] at hr; exact .inr ⟨1, by omega, hr⟩
    | run b p ρ s =>
      cases r' with
      | run b' p' ρ' s' =>
        obtain ⟨rfl, rfl, rfl, hRb, hp⟩ := hr
        have henter : lenter M mem { G with frm := setAt G.frm c ((G.frm c).set k F.new) } dn b' p' ρ' s' =
            lenter M mem F dn b' p ρ' s' := by
          rcases hp with ⟨rfl, rfl⟩ | ⟨q, rfl, hRq, rfl⟩
          · rfl
          · have hidx : (setAt G.frm c ((G.frm c).set k F.new) b').idxOf (if b' = c ∧ q = fb then F.new else q) =
                (F.frm b').idxOf q := by
              by_cases hbc : b' = c
              · subst hbc
                rw [setAt_same, hfrm _ hRb]
                by_cases hq : q = fb
                · subst hq
                  rw [if_pos ⟨rfl, rfl⟩, hset.1, hfirst]
                · rw [if_neg (fun hh => hq hh.2), hset.2 q hq (hRn q hRq)]
              · rw [setAt_ne _ _ hbc, hfrm _ hRb, if_neg (fun hh => hbc hh.1)]
            simp only [lenter, hidx, (hcode b' hRb).1]
        have hbo := h.sub b' hRb
        simp only [iter, lstep, hbo, if_true]
        cases hrun : runBody M mem (F.code b').body (lenter M mem F dn b' p ρ' s') s' with
        | undef => exact .inl rfl
        | stop s1 =>
          refine .inr ⟨1, by omega, ?_⟩
          simp only [iter, lstep, hmem b' hbo, if_true, henter, (hcode b' hRb).2.1, hrun, SplitSim]
        | ok x =>
          obtain ⟨ρ1, s1⟩ := x
          have hclosed : ∀ d, ltarget M mem F.order b' ρ1 s1 (F.code b').last = some (some d) → R d :=
            fun d hd => (h.closed b' hRb d (ltarget_succ hd)).1
          by_cases hbf : b' = fb
          · subst hbf
            have ht := hs.target mem ρ1 s1
            rw [← hfbl] at ht
            cases hlt : ltarget M mem F.order b' ρ1 s1 (F.code b').last with
            | none => exact .inl (by simp only [hlt])
            | some t =>
              rw [hlt, Option.map_some] at ht
              cases t with
              | none =>
                refine .inr ⟨1, by omega, ?_⟩
                simp only [iter, lstep, hmem b' hbo, if_true, henter, (hcode b' hRb).2.1, hrun, ht, hlt, SplitSim]
                simp
              | some d =>
                by_cases hdc : d = c
                · subst hdc
                  refine .inr ⟨2, by omega, ?_⟩
                  simp only [if_true] at ht
                  have hnc : G.code F.new = ⟨[], [], if at' ≠ ito then .jmp d else .next⟩ := by rw [hs.code, setAt_same]
                  have hnt : ltarget M mem G.order F.new ρ1 s1 (G.code F.new).last = some (some d) := by
                    rw [hnc]
                    by_cases hai : at' = ito
                    · have := hs.block.resolve_left (fun hh => hh hai)
                      simp [hai, ltarget, this]
                    · simp [hai, ltarget]
                  have hne : lenter M mem { G with frm := setAt G.frm d ((G.frm d).set k F.new) } dn F.new (some b') ρ1 s1 = ρ1 := by
                    simp only [lenter, hnc, phiIn_nil, ite_self]
                  simp only [iter, lstep, hmem b' hbo, if_true, henter, (hcode b' hRb).2.1, hrun, ht, hlt, hmemn, hne]
                  rw [show (G.code F.new).body = [] by rw [hnc]]
                  simp only [runBody, hnt, SplitSim]
                  exact ⟨trivial, trivial, trivial, hRc, .inr ⟨b', rfl, hRb, by simp⟩⟩
                · refine .inr ⟨1, by omega, ?_⟩
                  rw [if_neg (by simpa using hdc)] at ht
                  simp only [iter, lstep, hmem b' hbo, if_true, henter, (hcode b' hRb).2.1, hrun, ht, hlt, SplitSim]
                  exact ⟨trivial, trivial, trivial, hclosed d hlt, .inr ⟨b', rfl, hRb, by simp [hdc]⟩⟩
          · have ht : ltarget M mem G.order b' ρ1 s1 (G.code b').last = ltarget M mem F.order b' ρ1 s1 (F.code b').last := by
              rw [(hcode b' hRb).2.2 hbf]
              apply ltarget_congr
              rcases hs.others b' hbo hbf with hh | ⟨hh, -⟩
              · exact .inl hh
              · exact .inr hh
            cases hlt : ltarget M mem F.order b' ρ1 s1 (F.code b').last with
            | none => exact .inl (by simp only [hlt])
            | some t =>
              rw [hlt] at ht
              refine .inr ⟨1, by omega, ?_⟩
              cases t with
              | none => simp only [iter, lstep, hmem b' hbo, if_true, henter, (hcode b' hRb).2.1, hrun, ht, hlt, SplitSim]
              | some d =>
                simp only [iter, lstep, hmem b' hbo, if_true, henter, (hcode b' hRb).2.1, hrun, ht, hlt, SplitSim]
                exact ⟨trivial, trivial, trivial, hclosed d hlt, .inr ⟨b', rfl, hRb, by simp [hbf]⟩⟩
      | _ => simp only [SplitSim] at hr

theorem mem_set_of_ne {l : List Nat} {k a x b : Nat} (h : l[k]? = some a) (hb : b ∈ l) (hne : b ≠ a) : b ∈ l.set k x := by
  obtain ⟨j, hj⟩ := List.mem_iff_getElem?.1 hb
  have : k ≠ j := by
    rintro rfl
    rw [h] at hj; cases hj; exact hne rfl
  exact List.mem_iff_getElem?.2 ⟨j, by rw [List.getElem?_set_ne this]; exact hj⟩

theorem getElem_set_cases {l : List Nat} {k x j p : Nat} (h : (l.set k x)[j]? = some p) :
    (j = k ∧ p = x) ∨ (j ≠ k ∧ l[j]? = some p) := by
  by_cases hj : k = j
  · subst hj
    rw [List.getElem?_set_self' ] at h
    cases hh : l[k]? with
    | none => rw [hh] at h; cases h
    | some y => rw [hh] at h; cases h; exact .inl ⟨rfl, rfl⟩
  · rw [List.getElem?_set_ne hj] at h
    exact .inr ⟨fun e => hj e.symm, h⟩

theorem split_inv {G : Fun K V} (h : Inv mem C has F dn R) {c k fb ito at' : Nat} {l : Last K V} (hc : has c = true)
    (hk : (F.frm c)[k]? = some fb) (hdn : dn c = k) (hb : branches (F.code fb).last = true)
    (hto : F.order[ito]? = some c) (hs : Split M C F G c ito fb at' l) :
    Inv mem C has { G with frm := setAt G.frm c ((G.frm c).set k F.new) } dn
      (fun b => R b ∨ (b = F.new ∧ c ∈ lsucc F.order fb (F.code fb).last)) := by
  have hRc := (h.hasR c hc).1
  have hno : F.new ∉ F.order := fun hm => absurd (h.freshO _ hm) (by omega)
  have hRn : ∀ b, R b → b ≠ F.new := fun b hb' e => hno (e ▸ h.sub b hb')
  have hnf : F.new ∉ F.frm c := fun hm => absurd (h.freshF c _ hm) (by omega)
  obtain ⟨A, B, hA, hG, hlen⟩ := hs.order
  have hmem : ∀ b, b ∈ G.order ↔ b = F.new ∨ b ∈ F.order := by
    intro b
    rw [hG, hA]
    simp only [List.mem_append, List.mem_cons]
    tauto
  have hcode : ∀ b, b ≠ F.new → (G.code b).phis = (F.code b).phis ∧ (G.code b).body = (F.code b).body ∧
      (b ≠ fb → (G.code b).last = (F.code b).last) := by
    intro b hb'
    rw [hs.code, setAt_ne _ _ hb']
    by_cases hbf : b = fb
    · subst hbf; rw [setAt_same]; exact ⟨rfl, rfl, fun hne => absurd rfl hne⟩
    · rw [setAt_ne _ _ hbf]; exact ⟨rfl, rfl, fun _ => rfl⟩
  have hpk := h.pred c hc k fb (by omega) hk
  have hRf : R fb := hpk.2.1 hb
  have hfbl : (G.code fb).last = l := by
    rw [hs.code, setAt_ne _ _ (hRn fb hRf), setAt_same]
  have hnc : G.code F.new = ⟨[], [], if at' ≠ ito then .jmp c else .next⟩ := by rw [hs.code, setAt_same]
  have hfrm : ∀ b, b ≠ F.new → G.frm b = F.frm b := by
    intro b hb'
    rw [hs.frm, setAt_ne _ _ hb']
  have hsucc : ∀ b, b ∈ F.order → b ≠ fb →
      lsucc G.order b (G.code b).last = lsucc F.order b (F.code b).last := by
    intro b hbo hbf
    rw [(hcode b (fun e => hno (e ▸ hbo))).2.2 hbf]
    apply lsucc_congr
    rcases hs.others b hbo hbf with hh | ⟨hh, -⟩
    · exact .inl hh
    · exact .inr hh
  have hnsucc : lsucc G.order F.new (G.code F.new).last = [c] := by
    rw [hnc]
    by_cases hai : at' = ito
    · have := hs.block.resolve_left (fun hh => hh hai)
      simp [hai, lsucc, this]
    · simp [hai, lsucc]
  have hnbr : branches (G.code F.new).last = false := by
    rw [hnc]; by_cases hai : at' = ito <;> simp [hai, branches]
  have hcn : c ≠ F.new := hRn c hRc
  have hfn : fb ≠ F.new := hRn fb hRf
  have hkl := (List.getElem?_eq_some_iff.1 hk).1
  have hfrmc : setAt G.frm c ((G.frm c).set k F.new) c = (F.frm c).set k F.new := by
    rw [setAt_same, hfrm c hcn]
  have hfrmo : ∀ d, d ≠ c → d ≠ F.new → setAt G.frm c ((G.frm c).set k F.new) d = F.frm d := by
    intro d h1 h2
    rw [setAt_ne _ _ h1, hfrm d h2]
  have hfrmn : setAt G.frm c ((G.frm c).set k F.new) F.new = [fb] := by
    rw [setAt_ne _ _ (Ne.symm hcn), hs.frm, setAt_same]
  have htab : ∀ p, p ≠ F.new → isTable (G.code p).last = isTable (F.code p).last := by
    intro p hp
    by_cases hpf : p = fb
    · subst hpf; rw [hfbl, hs.table]
    · rw [(hcode p hp).2.2 hpf]
  have hbr : ∀ p, p ≠ F.new → branches (G.code p).last = branches (F.code p).last := by
    intro p hp
    by_cases hpf : p = fb
    · subst hpf; rw [hfbl, hs.branch, hb]
    · rw [(hcode p hp).2.2 hpf]
  -- one predecessor of one block
  have hpred : ∀ c' k' p, has c' = true → dn c' ≤ k' → (F.frm c')[k']? = some p → (c' ≠ c ∨ k' ≠ k) →
      p ∈ G.order ∧ (branches (G.code p).last = true → R p ∨ (p = F.new ∧ c ∈ lsucc F.order fb (F.code fb).last)) ∧
      (c' ∈ lsucc G.order p (G.code p).last ∨ isTable (G.code p).last = true) := by
    intro c' k' p h1 h2 h3 h4
    obtain ⟨h5, h6, h7⟩ := h.pred c' h1 k' p h2 h3
    have hpn : p ≠ F.new := fun e => hno (e ▸ h5)
    refine ⟨(hmem p).2 (.inr h5), fun h8 => .inl (h6 (by rw [← hbr p hpn]; exact h8)), ?_⟩
    by_cases hpf : p = fb
    · subst hpf
      by_cases hcc : c' = c
      · subst hcc
        right
        rw [htab p hpn]
        by_contra hT
        have := h.once c' h1 k' p h2 h3 (by simpa using hT) k hk
        exact h4.elim (fun e => e rfl) (fun e => e this.symm)
      · rcases h7 with h7 | h7
        · left; rw [hfbl]; exact (hs.succ c').2 (.inr ⟨hcc, h7⟩)
        · right; rw [htab p hpn]; exact h7
    · rw [hsucc p h5 hpf, htab p hpn]
      exact h7
  refine ⟨?_, ?_, .inl h.start, ?_, ?_, ?_, ?_, ?_, ?_, ?_, ?_, ?_, ?_, ?_, ?_, ?_, ?_, ?_, ?_⟩
  all_goals try dsimp only
  · -- nodup
    show G.order.Nodup
    rw [hG, List.nodup_middle, List.nodup_cons, ← hA]
    exact ⟨hno, h.nodup⟩
  · -- head
    show G.order.head? = some 0
    have hne : A ≠ [] := by
      rintro rfl
      have h0 := hs.first hlen.symm
      subst h0
      have := h.head
      rw [List.head?_eq_getElem?, hto] at this
      cases this
      exact (h.hasR _ hc).2 rfl
    have := h.head
    rw [hA] at this
    rw [hG]
    cases A with
    | nil => exact absurd rfl hne
    | cons a A => simpa using this
  · -- sub
    rintro b (hb' | ⟨rfl, -⟩)
    · exact (hmem b).2 (.inr (h.sub b hb'))
    · exact (hmem _).2 (.inl rfl)
  · -- closed
    rintro b (hb' | ⟨rfl, he⟩) d hd
    · by_cases hbf : b = fb
      · subst hbf
        rw [hfbl] at hd
        rcases (hs.succ d).1 hd with ⟨rfl, he⟩ | ⟨hdc, hd⟩
        · exact ⟨.inr ⟨rfl, he⟩, by rw [hfrmn]; exact List.mem_singleton.2 rfl⟩
        · obtain ⟨h1, h2⟩ := h.closed b hb' d hd
          exact ⟨.inl h1, by rw [hfrmo d hdc (hRn d h1)]; exact h2⟩
      · rw [hsucc b (h.sub b hb') hbf] at hd
        obtain ⟨h1, h2⟩ := h.closed b hb' d hd
        refine ⟨.inl h1, ?_⟩
        by_cases hdc : d = c
        · subst hdc
          rw [hfrmc]
          exact mem_set_of_ne hk h2 hbf
        · rw [hfrmo d hdc (hRn d h1)]; exact h2
    · rw [hnsucc, List.mem_singleton] at hd
      subst hd
      refine ⟨.inl hRc, ?_⟩
      rw [hfrmc]
      exact List.mem_iff_getElem?.2 ⟨k, by rw [List.getElem?_set_self hkl]⟩
  · -- ok
    intro b hbo
    rcases (hmem b).1 hbo with rfl | hb'
    · rw [hnc]; by_cases hai : at' = ito <;> simp [hai, JumpOk]
    · by_cases hbf : b = fb
      · subst hbf
        rw [hfbl]; exact hs.ok
      · have h1 := h.ok b hb'
        rw [(hcode b (fun e => hno (e ▸ hb'))).2.2 hbf]
        have h2 := hs.others b hb' hbf
        cases hl : (F.code b).last with
        | cjmp kk a b0 d =>
          rw [hl] at h1 h2
          have : follow G.order b = follow F.order b := by
            rcases h2 with h2 | ⟨h2, -⟩
            · exact h2
            · cases h2
          simp only [JumpOk, this]; exact h1
        | tjmp o bs =>
          rw [hl] at h1
          rcases h2 with h2 | ⟨-, h2⟩
          · simp only [JumpOk, h2]; exact h1
          · simp only [JumpOk, h2]; exact ⟨by simp, h1.2⟩
        | _ => trivial
  · -- freshO
    intro b hb'
    rw [hs.new]
    rcases (hmem b).1 hb' with rfl | hb'
    · omega
    · have := h.freshO b hb'; omega
  · -- freshF
    intro d p hp
    rw [hs.new]
    by_cases hdc : d = c
    · subst hdc
      rw [hfrmc] at hp
      rcases List.mem_or_eq_of_mem_set hp with hp | rfl
      · have := h.freshF _ p hp; omega
      · omega
    · by_cases hdn' : d = F.new
      · subst hdn'
        rw [hfrmn, List.mem_singleton] at hp
        subst hp
        have := h.freshO p (h.sub p hRf); omega
      · rw [hfrmo d hdc hdn'] at hp
        have := h.freshF _ p hp; omega
  · -- hasR
    intro d hd
    exact ⟨.inl (h.hasR d hd).1, (h.hasR d hd).2⟩
  · -- nophi
    intro d hd
    by_cases hdn' : d = F.new
    · subst hdn'; rw [hnc]
    · rw [(hcode d hdn').1]; exact h.nophi d hd
  · -- pred
    intro c' h1 k' p h2 h3
    have hc'n : c' ≠ F.new := hRn c' (h.hasR c' h1).1
    by_cases hcc : c' = c
    · subst hcc
      rw [hfrmc] at h3
      rcases getElem_set_cases h3 with ⟨rfl, rfl⟩ | ⟨h4, h5⟩
      · refine ⟨(hmem _).2 (.inl rfl), fun h6 => ?_, .inl (by rw [hnsucc]; simp)⟩
        rw [hnbr] at h6; cases h6
      · exact hpred c' k' p h1 h2 h5 (.inr h4)
    · rw [hfrmo c' hcc hc'n] at h3
      exact hpred c' k' p h1 h2 h3 (.inl hcc)
  · -- past
    intro c' h1 k' p h2 h3
    have hc'n : c' ≠ F.new := hRn c' (h.hasR c' h1).1
    have h3' : (F.frm c')[k']? = some p := by
      by_cases hcc : c' = c
      · subst hcc
        rw [hfrmc] at h3
        rcases getElem_set_cases h3 with ⟨h4, -⟩ | ⟨-, h5⟩
        · omega
        · exact h5
      · rw [hfrmo c' hcc hc'n] at h3; exact h3
    have := h.past c' h1 k' p h2 h3'
    have hpn : p ≠ F.new := by
      have := h.freshF c' p (List.mem_of_getElem? h3'); omega
    rw [hbr p hpn]; exact this
  · -- once
    intro c' h1 k' p h2 h3 hT j hj
    have hc'n : c' ≠ F.new := hRn c' (h.hasR c' h1).1
    by_cases hcc : c' = c
    · subst hcc
      rw [hfrmc] at h3 hj
      rcases getElem_set_cases h3 with ⟨rfl, rfl⟩ | ⟨h4, h5⟩
      · rcases getElem_set_cases hj with ⟨h6, -⟩ | ⟨-, h6⟩
        · exact h6
        · exact absurd (List.mem_of_getElem? h6) hnf
      · have hpn : p ≠ F.new := by
          have := h.freshF c' p (List.mem_of_getElem? h5); omega
        rcases getElem_set_cases hj with ⟨-, h6⟩ | ⟨-, h6⟩
        · exact absurd h6 hpn
        · exact h.once c' h1 k' p h2 h5 (by rw [← htab p hpn]; exact hT) j h6
    · rw [hfrmo c' hcc hc'n] at h3 hj
      have hpn : p ≠ F.new := by
        have := h.freshF c' p (List.mem_of_getElem? h3); omega
      exact h.once c' h1 k' p h2 h3 (by rw [← htab p hpn]; exact hT) j hj
  · -- arity
    intro c' h1 φ hφ
    have hc'n : c' ≠ F.new := hRn c' (h.hasR c' h1).1
    rw [(hcode c' hc'n).1] at hφ
    by_cases hcc : c' = c
    · subst hcc
      rw [hfrmc, List.length_set]; exact h.arity c' h1 φ hφ
    · rw [hfrmo c' hcc hc'n]; exact h.arity c' h1 φ hφ
  · -- dsts
    intro d
    by_cases hdn' : d = F.new
    · subst hdn'; rw [hnc]; simp
    · rw [(hcode d hdn').1]; exact h.dsts d
  · -- phimem
    intro d φ hφ
    by_cases hdn' : d = F.new
    · subst hdn'; rw [hnc] at hφ; cases hφ
    · rw [(hcode d hdn').1] at hφ; exact h.phimem d φ hφ
  · -- low
    intro b r hr
    rw [hs.tmp]
    by_cases hbn : b = F.new
    · subst hbn
      rw [hnc] at hr
      by_cases hai : at' = ito <;> simp [hai, RegIn, lastOprs] at hr
    · apply h.low b r
      simp only [RegIn, (hcode b hbn).1, (hcode b hbn).2.1] at hr ⊢
      by_cases hbf : b = fb
      · subst hbf; rw [hfbl, hs.oprs] at hr; exact hr
      · rw [(hcode b hbn).2.2 hbf] at hr; exact hr
  · -- memT
    intro r hr
    exact h.memT r (by rw [hs.tmp] at hr; exact hr)
  · -- good
    intro c' h1
    have hc'n : c' ≠ F.new := hRn c' (h.hasR c' h1).1
    rw [hs.tmp, (hcode c' hc'n).1]
    by_cases hcc : c' = c
    · subst hcc
      rw [hfrmc, List.length_set]; exact h.good c' h1
    · rw [hfrmo c' hcc hc'n]; exact h.good c' h1

/-! ### Moves instead of phi functions -/

/-- Registers below `T` that do not live in memory agree. -/
def Agree (mem : Nat → Bool) (T : Nat) (ρ ρ' : Env V) : Prop := ∀ r, r < T → mem r = false → ρ' r = ρ r

omit [DecidableEq V] in
theorem rd_agree {T : Nat} {ρ ρ' : Env V} (h : Agree mem T ρ ρ') {o : Opr V} (ho : ∀ r, o = .reg r → r < T) (s : S) :
    rd M mem ρ' s o = rd M mem ρ s o := by
  cases o with
  | const v => rfl
  | reg r =>
    simp only [rd]
    cases hm : mem r with
    | true => rfl
    | false => simpa using h r (ho r rfl) hm

omit [DecidableEq V] in
theorem runBody_agree {T : Nat} (is : List (Ins K V)) : ∀ {ρ ρ' : Env V} (s : S), Agree mem T ρ ρ' →
    (∀ i ∈ is, ∀ r, i.dst = some r ∨ i.o1 = some (.reg r) ∨ i.o2 = some (.reg r) → r < T) →
    match runBody M mem is ρ s with
    | .ok (ρ1, s1) => ∃ ρ1', runBody M mem is ρ' s = .ok (ρ1', s1) ∧ Agree mem T ρ1 ρ1'
    | .stop s1 => runBody M mem is ρ' s = .stop s1
    | .undef => runBody M mem is ρ' s = .undef := by
  induction is with
  | nil => intro ρ ρ' s h _; exact ⟨ρ', rfl, h⟩
  | cons i is ih =>
    intro ρ ρ' s h hlow
    have hi := hlow i (List.mem_cons_self ..)
    have e1 : i.o1.map (rd M mem ρ' s) = i.o1.map (rd M mem ρ s) := by
      cases ho : i.o1 with
      | none => rfl
      | some o => simp only [Option.map_some]; rw [rd_agree h (fun r hr => hi r (.inr (.inl (by rw [ho, hr])))) s]
    have e2 : i.o2.map (rd M mem ρ' s) = i.o2.map (rd M mem ρ s) := by
      cases ho : i.o2 with
      | none => rfl
      | some o => simp only [Option.map_some]; rw [rd_agree h (fun r hr => hi r (.inr (.inr (by rw [ho, hr])))) s]
    simp only [runBody, e1, e2]
    cases M.exec i.kind (i.o1.map (rd M mem ρ s)) (i.o2.map (rd M mem ρ s)) s with
    | undef => rfl
    | stop s1 => rfl
    | ok x =>
      obtain ⟨v, s1⟩ := x
      dsimp only
      have e3 : (wr M mem i.dst v ρ' s1).2 = (wr M mem i.dst v ρ s1).2 := by
        cases i.dst with
        | none => rfl
        | some r => simp only [wr]; split <;> rfl
      rw [e3]
      apply ih
      · intro r hr hm
        cases hd : i.dst with
        | none => exact h r hr hm
        | some d =>
          simp only [wr]
          split
          · exact h r hr hm
          · simp only [Env.upd]
            split
            · rfl
            · exact h r hr hm
      · exact fun j hj => hlow j (List.mem_cons_of_mem _ hj)

omit [DecidableEq V] in
theorem runBody_append (is js : List (Ins K V)) : ∀ (ρ : Env V) (s : S), runBody M mem (is ++ js) ρ s =
    match runBody M mem is ρ s with
    | .ok (ρ1, s1) => runBody M mem js ρ1 s1
    | .stop s1 => .stop s1
    | .undef => .undef := by
  induction is with
  | nil => intro ρ s; rfl
  | cons i is ih =>
    intro ρ s
    simp only [List.cons_append, runBody]
    cases M.exec i.kind (i.o1.map (rd M mem ρ s)) (i.o2.map (rd M mem ρ s)) s with
    | undef => rfl
    | stop s1 => rfl
    | ok x => exact ih _ _

omit [DecidableEq V] in
theorem ltarget_agree {T : Nat} {ρ ρ' : Env V} (h : Agree mem T ρ ρ') {l : Last K V} (hl : ∀ r, .reg r ∈ lastOprs l → r < T)
    (order : List Nat) (b : Nat) (s : S) : ltarget M mem order b ρ' s l = ltarget M mem order b ρ s l := by
  cases l with
  | next => rfl
  | jmp c => rfl
  | cjmp k o1 o2 c =>
    simp only [ltarget]
    rw [rd_agree h (fun r hr => hl r (by simp [lastOprs, hr])) s, rd_agree h (fun r hr => hl r (by simp [lastOprs, hr])) s]
  | tjmp o bs =>
    simp only [ltarget]
    rw [rd_agree h (fun r hr => hl r (by simp [lastOprs, hr])) s]

omit [DecidableEq V] in
theorem find_dst {phis : List (Phi V)} (hn : (phis.map (·.dst)).Nodup) {φ : Phi V} (hφ : φ ∈ phis) :
    phis.find? (fun ψ => ψ.dst == φ.dst) = some φ := by
  induction phis with
  | nil => cases hφ
  | cons ψ phis ih =>
    rw [List.map_cons, List.nodup_cons] at hn
    rw [List.find?_cons]
    rcases List.mem_cons.1 hφ with rfl | hφ
    · simp
    · have : ψ.dst ≠ φ.dst := fun e => hn.1 (e ▸ List.mem_map_of_mem hφ)
      rw [show (ψ.dst == φ.dst) = false by simpa using this]
      exact ih hn.2 hφ

omit [DecidableEq V] in
theorem phiIn_agree {T k : Nat} {phis ps : List (Phi V)} (hn : (phis.map (·.dst)).Nodup) (hp : ps.Perm phis)
    (hlow : ∀ φ ∈ phis, ∀ r, r = φ.dst ∨ .reg r ∈ φ.params → r < T) {ρ ρ' : Env V} (h : Agree mem T ρ ρ') (s : S) :
    Agree mem T (phiIn M mem phis k ρ s) (phiIn M mem ps k ρ' s) := by
  have hn' : (ps.map (·.dst)).Nodup := (hp.map _).nodup_iff.2 hn
  intro r hr hm
  simp only [phiIn]
  cases hf : phis.find? (fun φ => φ.dst == r) with
  | none =>
    have : ps.find? (fun φ => φ.dst == r) = none := by
      rw [List.find?_eq_none] at hf ⊢
      intro φ hφ
      exact hf φ (hp.mem_iff.1 hφ)
    rw [this]
    exact h r hr hm
  | some φ =>
    have h1 : φ.dst = r := by simpa using List.find?_some hf
    have h2 := List.mem_of_find?_eq_some hf
    subst h1
    rw [find_dst hn' (hp.mem_iff.2 h2)]
    dsimp only
    cases hk : φ.params[k]? with
    | none => exact h _ hr hm
    | some o => exact rd_agree h (fun q hq => hlow φ h2 q (.inr (hq ▸ List.mem_of_getElem? hk))) s

omit [DecidableEq V] in
theorem rd_upd {ρ : Env V} {s : S} {r : Nat} {v : V} (hm : mem r = false) [DecidableEq (Opr V)] (o : Opr V) :
    rd M mem (ρ.upd r v) s o = if o = .reg r then v else rd M mem ρ s o := by
  cases o with
  | const w => simp [rd]
  | reg q =>
    by_cases hq : q = r
    · subst hq; simp [rd, hm, Env.upd]
    · simp [rd, hq, Env.upd]

/-- The inserted instructions do the moves. -/
theorem runBody_moves {mov : K} (hmov : ∀ v s, M.exec mov (some v) none s = .ok (v, s)) (s : S) :
    ∀ (ms : List (PhiMoves.Mov (Opr V))) (ρ : Env V), (∀ m ∈ ms, ∃ r, m.dst = .reg r ∧ mem r = false) →
    ∃ ρ', runBody M mem (ms.map (movIns mov)) ρ s = .ok (ρ', s) ∧
      ∀ o, rd M mem ρ' s o = PhiMoves.runMoves ms (rd M mem ρ s) o := by
  intro ms
  induction ms with
  | nil => intro ρ _; exact ⟨ρ, rfl, fun _ => rfl⟩
  | cons m ms ih =>
    intro ρ hm
    obtain ⟨r, hr, hmr⟩ := hm m (List.mem_cons_self ..)
    obtain ⟨ρ', h1, h2⟩ := ih (ρ.upd r (rd M mem ρ s m.src)) (fun m' hm' => hm m' (List.mem_cons_of_mem _ hm'))
    refine ⟨ρ', ?_, ?_⟩
    · simp only [List.map_cons, runBody, movIns, Option.map_some, Option.map_none, hmov, hr, regOf, wr, hmr]
      exact h1
    · intro o
      rw [h2, PhiMoves.runMoves]
      congr 1
      funext q
      rw [rd_upd hmr, hr]

omit [DecidableEq V] in
theorem view_eq {phis : List (Phi V)} {k : Nat} (h : ∀ φ ∈ phis, k < φ.params.length) :
    view phis k = some (phis.map (pv k)) := by
  unfold view
  induction phis with
  | nil => rfl
  | cons φ phis ih =>
    have hk := List.getElem?_eq_getElem (h φ (List.mem_cons_self ..))
    rw [List.mapM_cons, ih (fun ψ hψ => h ψ (List.mem_cons_of_mem _ hψ))]
    simp [pv, hk]

theorem reorder_self {phis : List (Phi V)} (hn : (phis.map (·.dst)).Nodup) (k : Nat) :
    reorder phis (phis.map (pv k)) = phis := by
  have : ∀ l : List (Phi V), (∀ φ ∈ l, φ ∈ phis) → reorder phis (l.map (pv k)) = l := by
    intro l
    induction l with
    | nil => intro _; rfl
    | cons φ l ih =>
      intro h
      have h1 := find_dst hn (h φ (List.mem_cons_self ..))
      have h2 : phis.find? (fun ψ => decide ((pv k φ).dst = .reg ψ.dst)) = some φ := by
        rw [← h1]
        congr 1
        funext ψ
        simp only [pv, Opr.reg.injEq]
        rw [Bool.eq_iff_iff]
        simp only [decide_eq_true_eq, beq_iff_eq]
        exact eq_comm
      have h3 := ih (fun ψ hψ => h ψ (List.mem_cons_of_mem _ hψ))
      simp only [reorder, List.map_cons, List.filterMap_cons, h2] at h3 ⊢
      rw [h3]
  exact this phis (fun _ h => h)

theorem reorder_perm {phis : List (Phi V)} (hn : (phis.map (·.dst)).Nodup) {k : Nat} {ps : List (PhiMoves.Phi (Opr V))}
    (hp : ps.Perm (phis.map (pv k))) : (reorder phis ps).Perm phis := by
  have := hp.filterMap (fun v => phis.find? fun φ => decide (v.dst = .reg φ.dst))
  have h2 := reorder_self hn k
  unfold reorder at h2 ⊢
  rw [h2] at this
  exact this

/-- What `replace` does. -/
structure Replaced (mov : K) (F G : Fun K V) (c k fb : Nat) (ms : List (PhiMoves.Mov (Opr V))) : Prop where
  order : G.order = F.order
  frm : G.frm = F.frm
  new : G.new = F.new
  tmp : F.tmp ≤ G.tmp
  last : ∀ b, (G.code b).last = (F.code b).last
  phis : ∀ b, b ≠ c → (G.code b).phis = (F.code b).phis
  perm : (G.code c).phis.Perm (F.code c).phis
  body : ∀ b, b ≠ fb → (G.code b).body = (F.code b).body
  moves : (G.code fb).body = (F.code fb).body ++ ms.map (movIns mov)
  dst : ∀ m ∈ ms, ∃ r, m.dst = .reg r ∧ mem r = false ∧ r < G.tmp
  src : ∀ m ∈ ms, ∀ r, m.src = .reg r → r < G.tmp
  par : ∀ (σ : Opr V → V), (∀ φ ∈ (F.code c).phis, PhiMoves.runMoves ms σ (.reg φ.dst) = σ (pv k φ).src) ∧
    ∀ r, r ∉ (F.code c).phis.map (·.dst) → r < F.tmp → PhiMoves.runMoves ms σ (.reg r) = σ (.reg r)

theorem replace_spec {mov : K} (h : Inv mem C has F dn R) {c k fb : Nat} (hc : has c = true)
    (hk : (F.frm c)[k]? = some fb) (hb : branches (F.code fb).last = false) :
    ∃ G ms, replace mov F c k = some G ∧ Replaced (mem := mem) mov F G c k fb ms := by
  have hkl := (List.getElem?_eq_some_iff.1 hk).1
  have hv := view_eq (k := k) (phis := (F.code c).phis) (fun φ hφ => by rw [h.arity c hc φ hφ]; exact hkl)
  obtain ⟨ms, ps, r, chains, h1, h2, h3, h4, h5, h6⟩ := (h.good c hc _ (.refl _) k hkl F.tmp (Nat.le_refl _)).regs
  have hlow : ∀ φ ∈ (F.code c).phis, ∀ r, r = φ.dst ∨ .reg r ∈ φ.params → r < F.tmp :=
    fun φ hφ r hr => h.low c r (.inl ⟨φ, hφ, hr⟩)
  have e : replace mov F c k = some
      { F with
        code := setAt (setAt F.code c { F.code c with phis := reorder (F.code c).phis ps }) fb
          { (setAt F.code c { F.code c with phis := reorder (F.code c).phis ps }) fb with
            body := ((setAt F.code c { F.code c with phis := reorder (F.code c).phis ps }) fb).body ++ ms.map (movIns mov) }
        tmp := F.tmp + chains.length } := by
    unfold freshRegs at h1
    simp only [replace, hk, hv, h1, h2, h3]
    cases hl : (F.code fb).last with
    | cjmp => rw [hl] at hb; cases hb
    | _ => rfl
  have hbody : ∀ b, (setAt F.code c { F.code c with phis := reorder (F.code c).phis ps } b).body = (F.code b).body ∧
      (setAt F.code c { F.code c with phis := reorder (F.code c).phis ps } b).last = (F.code b).last := by
    intro b
    by_cases hbc : b = c
    · subst hbc; rw [setAt_same]; exact ⟨rfl, rfl⟩
    · rw [setAt_ne _ _ hbc]; exact ⟨rfl, rfl⟩
  refine ⟨_, ms, e, ⟨rfl, rfl, rfl, Nat.le_add_right .., ?_, ?_, ?_, ?_, ?_, ?_, ?_, ?_⟩⟩
  all_goals try dsimp only
  · intro b
    by_cases hbf : b = fb
    · subst hbf; rw [setAt_same]; exact (hbody b).2
    · rw [setAt_ne _ _ hbf]; exact (hbody b).2
  · intro b hbc
    by_cases hbf : b = fb
    · subst hbf; rw [setAt_same, setAt_ne _ _ hbc]
    · rw [setAt_ne _ _ hbf, setAt_ne _ _ hbc]
  · have : (setAt (setAt F.code c { F.code c with phis := reorder (F.code c).phis ps }) fb
          { (setAt F.code c { F.code c with phis := reorder (F.code c).phis ps }) fb with
            body := ((setAt F.code c { F.code c with phis := reorder (F.code c).phis ps }) fb).body ++ ms.map (movIns mov) } c).phis
        = reorder (F.code c).phis ps := by
      by_cases hcf : c = fb
      · subst hcf; rw [setAt_same, setAt_same]
      · rw [setAt_ne _ _ hcf, setAt_same]
    rw [this]
    exact reorder_perm (h.dsts c) h4
  · intro b hbf
    rw [setAt_ne _ _ hbf]; exact (hbody b).1
  · rw [setAt_same]
    dsimp only
    rw [(hbody fb).1]
  · intro m hm
    rcases (h5 m hm).1 with h7 | ⟨j, hj, h7⟩
    · rw [List.map_map] at h7
      obtain ⟨φ, hφ, h8⟩ := List.mem_map.1 h7
      exact ⟨φ.dst, h8.symm, h.phimem c φ hφ, by have := hlow φ hφ φ.dst (.inl rfl); omega⟩
    · exact ⟨F.tmp + j, h7, h.memT _ (by omega), by omega⟩
  · intro m hm q hq
    rcases (h5 m hm).2 with h7 | ⟨j, hj, h7⟩
    · rw [List.map_map] at h7
      obtain ⟨φ, hφ, h8⟩ := List.mem_map.1 h7
      rw [hq] at h8
      have hp : k < φ.params.length := by rw [h.arity c hc φ hφ]; exact hkl
      have : .reg q ∈ φ.params := by
        simp only [Function.comp, pv, List.getElem?_eq_getElem hp, Option.getD_some] at h8
        rw [← h8]; exact List.getElem_mem hp
      have := hlow φ hφ q (.inr this)
      omega
    · rw [hq] at h7
      simp only [freshRegs, Opr.reg.injEq] at h7
      omega
  · intro σ
    obtain ⟨h7, h8⟩ := h6 V σ
    refine ⟨fun φ hφ => h7 (pv k φ) (List.mem_map_of_mem hφ), fun r hr hlt => h8 _ ?_ ?_⟩
    · rw [List.map_map]
      intro hh
      obtain ⟨φ, hφ, h9⟩ := List.mem_map.1 hh
      simp only [Function.comp, pv, Opr.reg.injEq] at h9
      exact hr (h9 ▸ List.mem_map_of_mem hφ)
    · intro n hh
      simp only [freshRegs, Opr.reg.injEq] at hh
      omega

theorem replace_inv {mov : K} {G : Fun K V} {ms : List (PhiMoves.Mov (Opr V))} (h : Inv mem C has F dn R) {c k fb : Nat} (hc : has c = true)
    (hk : (F.frm c)[k]? = some fb) (hdn : dn c = k) (hb : branches (F.code fb).last = false)
    (hs : Replaced (mem := mem) mov F G c k fb ms) : Inv mem C has G (setAt dn c (k + 1)) R := by
  have hphi : ∀ b φ, φ ∈ (G.code b).phis ↔ φ ∈ (F.code b).phis := by
    intro b φ
    by_cases hbc : b = c
    · subst hbc; exact hs.perm.mem_iff
    · rw [hs.phis b hbc]
  have hle : ∀ b, dn b ≤ setAt dn c (k + 1) b := by
    intro b
    by_cases hbc : b = c
    · subst hbc; rw [setAt_same]; omega
    · rw [setAt_ne _ _ hbc]; exact Nat.le_refl _
  refine ⟨?_, ?_, h.start, ?_, ?_, ?_, ?_, ?_, h.hasR, ?_, ?_, ?_, ?_, ?_, ?_, ?_, ?_, ?_, ?_⟩
  · rw [hs.order]; exact h.nodup
  · rw [hs.order]; exact h.head
  · rw [hs.order]; exact h.sub
  · intro b hb' d hd
    rw [hs.order, hs.last] at hd
    rw [hs.frm]; exact h.closed b hb' d hd
  · intro b hb'
    rw [hs.order] at hb'
    rw [hs.order, hs.last]; exact h.ok b hb'
  · rw [hs.order, hs.new]; exact h.freshO
  · rw [hs.frm, hs.new]; exact h.freshF
  · intro d hd
    have := h.nophi d hd
    rw [List.eq_nil_iff_forall_not_mem] at this ⊢
    intro φ hφ
    exact this φ ((hphi d φ).1 hφ)
  · intro c' h1 k' p h2 h3
    rw [hs.frm] at h3
    rw [hs.order, hs.last]
    exact h.pred c' h1 k' p (Nat.le_trans (hle c') h2) h3
  · intro c' h1 k' p h2 h3
    rw [hs.frm] at h3
    rw [hs.last]
    by_cases hcc : c' = c
    · subst hcc
      rw [setAt_same] at h2
      by_cases hkk : k' = k
      · subst hkk
        rw [hk] at h3; cases h3; exact hb
      · exact h.past c' h1 k' p (by omega) h3
    · rw [setAt_ne _ _ hcc] at h2
      exact h.past c' h1 k' p h2 h3
  · intro c' h1 k' p h2 h3 h4
    rw [hs.frm] at h3 ⊢
    rw [hs.last] at h4
    exact h.once c' h1 k' p (Nat.le_trans (hle c') h2) h3 h4
  · intro c' h1 φ hφ
    rw [hs.frm]; exact h.arity c' h1 φ ((hphi c' φ).1 hφ)
  · intro d
    by_cases hdc : d = c
    · subst hdc; exact (hs.perm.map _).nodup_iff.2 (h.dsts d)
    · rw [hs.phis d hdc]; exact h.dsts d
  · intro d φ hφ
    exact h.phimem d φ ((hphi d φ).1 hφ)
  · intro b r hr
    have hT := hs.tmp
    rcases hr with ⟨φ, hφ, hr⟩ | ⟨i, hi, hr⟩ | hr
    · have := h.low b r (.inl ⟨φ, (hphi b φ).1 hφ, hr⟩); omega
    · by_cases hbf : b = fb
      · subst hbf
        rw [hs.moves, List.mem_append] at hi
        rcases hi with hi | hi
        · have := h.low b r (.inr (.inl ⟨i, hi, hr⟩)); omega
        · obtain ⟨m, hm, rfl⟩ := List.mem_map.1 hi
          obtain ⟨q, h1, h2, h3⟩ := hs.dst m hm
          rcases hr with hr | hr | hr
          · simp only [movIns, h1, regOf, Option.some.injEq] at hr; omega
          · simp only [movIns, Option.some.injEq] at hr
            exact hs.src m hm r hr
          · simp [movIns] at hr
      · rw [hs.body b hbf] at hi
        have := h.low b r (.inr (.inl ⟨i, hi, hr⟩)); omega
    · rw [hs.last] at hr
      have := h.low b r (.inr (.inr hr)); omega
  · intro r hr
    exact h.memT r (Nat.le_trans hs.tmp hr)
  · intro c' h1 ps hps k' hk' T hT
    rw [hs.frm] at hk'
    refine h.good c' h1 ps ?_ k' hk' T (Nat.le_trans hs.tmp hT)
    by_cases hcc : c' = c
    · subst hcc; exact hps.trans hs.perm
    · rw [hs.phis c' hcc] at hps; exact hps

/-- Runs in which the predecessor `fb` of `c` has already assigned the phi functions of `c`. -/
def MoveSim (M : Machine K V S) (mem : Nat → Bool) (F : Fun K V) (R : Nat → Prop) (c k fb : Nat) : Res V S → Res V S → Prop
  | .run b p ρ s, .run b' p' ρ' s' => b' = b ∧ p' = p ∧ s' = s ∧ R b ∧
      (∀ q, p = some q → R q ∧ q ∈ F.frm b) ∧
      Agree mem F.tmp (if b = c ∧ p = some fb then phiIn M mem (F.code c).phis k ρ s else ρ) ρ'
  | .done s, .done s' => s' = s
  | .stop s, .stop s' => s' = s
  | _, _ => False

theorem replace_sim {mov : K} (hmov : ∀ v s, M.exec mov (some v) none s = .ok (v, s)) {G : Fun K V}
    {ms : List (PhiMoves.Mov (Opr V))} (h : Inv mem C has F dn R) {c k fb : Nat} (hc : has c = true)
    (hk : (F.frm c)[k]? = some fb) (hdn : dn c = k) (hb : branches (F.code fb).last = false)
    (hs : Replaced (mem := mem) mov F G c k fb ms) (ρ : Env V) (s : S) :
    Follows (lstep M mem F dn) (lstep M mem G (setAt dn c (k + 1))) (.run 0 none ρ s) (.run 0 none ρ s) := by
  have htab : isTable (F.code fb).last = false := by
    cases hl : (F.code fb).last <;> rw [hl] at hb <;> first | rfl | cases hb
  have hsucc : c ∈ lsucc F.order fb (F.code fb).last := by
    rcases (h.pred c hc k fb (by omega) hk).2.2 with h1 | h1
    · exact h1
    · rw [htab] at h1; cases h1
  have htgt : ∀ ρ s, ltarget M mem F.order fb ρ s (F.code fb).last = some (some c) := by
    intro ρ s
    cases hl : (F.code fb).last with
    | next =>
      rw [hl] at hsucc
      simp only [lsucc, Option.mem_toList, Option.mem_def] at hsucc
      simp only [ltarget, hsucc]
    | jmp d =>
      rw [hl] at hsucc
      simp only [lsucc, List.mem_singleton] at hsucc
      simp only [ltarget, hsucc]
    | cjmp => rw [hl] at hb; cases hb
    | tjmp => rw [hl] at hb; cases hb
  have hfirst : (F.frm c).idxOf fb = k :=
    idxOf_first hk (fun j hj hjf => by
      have := h.once c hc k fb (by omega) hk htab j hjf; omega)
  have hlow : ∀ b, ∀ φ ∈ (F.code b).phis, ∀ r, r = φ.dst ∨ .reg r ∈ φ.params → r < F.tmp :=
    fun b φ hφ r hr => h.low b r (.inl ⟨φ, hφ, hr⟩)
  have hGphis : ∀ b, (G.code b).phis.Perm (F.code b).phis := by
    intro b
    by_cases hbc : b = c
    · subst hbc; exact hs.perm
    · rw [hs.phis b hbc]
  refine follows_of rfl (MoveSim M mem F R c k fb) ?_ ?_ ⟨rfl, rfl, rfl, h.start, (fun q hq => by cases hq), ?_⟩
  · intro r r' hr
    cases r <;> cases r' <;> simp_all [MoveSim, eff]
  · intro r r' hr
    cases r with
    | undef => exact .inl rfl
    | done s0 => cases r' <;> simp only [MoveSim] at hr; exact .inr ⟨1, by omega, hr⟩
    | stop s0 => cases r' <;> simp only [MoveSim] at hr; exact .inr ⟨1, by omega, hr⟩
    | run b p ρ s =>
      cases r' with
      | run b' p' ρ' s' =>
        obtain ⟨rfl, rfl, rfl, hRb, hp, hag⟩ := hr
        have henter : Agree mem F.tmp (lenter M mem F dn b' p' ρ s') (lenter M mem G (setAt dn c (k + 1)) b' p' ρ' s') := by
          cases p' with
          | none =>
            rw [if_neg (fun hh => by cases hh.2)] at hag
            exact hag
          | some q =>
            obtain ⟨hRq, hq⟩ := hp q rfl
            simp only [lenter, hs.frm]
            by_cases hbc : b' = c
            · subst hbc
              rw [setAt_same]
              by_cases hqf : q = fb
              · subst hqf
                rw [if_pos ⟨rfl, rfl⟩] at hag
                rw [hfirst, if_neg (by omega), if_pos (by omega)]
                exact hag
              · rw [if_neg (fun hh => hqf (Option.some.inj hh.2))] at hag
                have hne : (F.frm b').idxOf q ≠ k := by
                  intro e
                  have h1 := List.getElem?_idxOf hq
                  rw [e, hk] at h1
                  exact hqf (Option.some.inj h1).symm
                by_cases hlt : (F.frm b').idxOf q < k
                · rw [if_pos (by omega), if_pos (by omega)]; exact hag
                · rw [if_neg (by omega), if_neg (by omega)]
                  exact phiIn_agree (h.dsts b') (hGphis b') (hlow b') hag s'
            · rw [setAt_ne _ _ hbc]
              rw [if_neg (fun hh => hbc hh.1)] at hag
              split
              · exact hag
              · exact phiIn_agree (h.dsts b') (hGphis b') (hlow b') hag s'
        have hbo := h.sub b' hRb
        have hbo' : b' ∈ G.order := by rw [hs.order]; exact hbo
        have hrun := runBody_agree (M := M) (F.code b').body s' henter (fun i hi r hr => h.low b' r (.inr (.inl ⟨i, hi, hr⟩)))
        have hclosed : ∀ ρ1 s1 d, ltarget M mem F.order b' ρ1 s1 (F.code b').last = some (some d) → R d ∧ b' ∈ F.frm d :=
          fun ρ1 s1 d hd => h.closed b' hRb d (ltarget_succ hd)
        simp only [lstep, hbo, if_true]
        cases hb1 : runBody M mem (F.code b').body (lenter M mem F dn b' p' ρ s') s' with
        | undef => exact .inl rfl
        | stop s1 =>
          rw [hb1] at hrun
          dsimp only at hrun
          refine .inr ⟨1, by omega, ?_⟩
          have : runBody M mem (G.code b').body (lenter M mem G (setAt dn c (k + 1)) b' p' ρ' s') s' = .stop s1 := by
            by_cases hbf : b' = fb
            · subst hbf; rw [hs.moves, runBody_append, hrun]
            · rw [hs.body b' hbf, hrun]
          simp only [iter, lstep, hbo', if_true, this, MoveSim]
        | ok x =>
          obtain ⟨ρ1, s1⟩ := x
          rw [hb1] at hrun
          dsimp only at hrun
          obtain ⟨ρ1', hr1, hag1⟩ := hrun
          by_cases hbf : b' = fb
          · subst hbf
            obtain ⟨ρ2, hm1, hm2⟩ := runBody_moves (mem := mem) hmov s1 ms ρ1' (fun m hm => by
              obtain ⟨r, h1, h2, -⟩ := hs.dst m hm; exact ⟨r, h1, h2⟩)
            have hbody : runBody M mem (G.code b').body (lenter M mem G (setAt dn c (k + 1)) b' p' ρ' s') s' = .ok (ρ2, s1) := by
              rw [hs.moves, runBody_append, hr1]; exact hm1
            refine .inr ⟨1, by omega, ?_⟩
            have ht1 := htgt ρ1 s1
            have ht2 := htgt ρ2 s1
            rw [← hs.last, ← hs.order] at ht2
            simp only [iter, lstep, hbo', if_true, hbody, ht1, ht2, MoveSim]
            obtain ⟨h1, h2⟩ := hclosed ρ1 s1 c ht1
            refine ⟨trivial, trivial, trivial, h1, ?_, ?_⟩
            · intro q hq
              cases hq; exact ⟨hRb, h2⟩
            · simp only [and_self, if_true]
              intro r hr hmr
              obtain ⟨hp1, hp2⟩ := hs.par (rd M mem ρ1' s1)
              have e2 : ρ2 r = PhiMoves.runMoves ms (rd M mem ρ1' s1) (.reg r) := by
                rw [← hm2]; simp [rd, hmr]
              rw [e2]
              simp only [phiIn]
              cases hf : (F.code c).phis.find? (fun φ => φ.dst == r) with
              | none =>
                have hnd : r ∉ (F.code c).phis.map (·.dst) := by
                  intro hh
                  obtain ⟨φ, hφ, h3⟩ := List.mem_map.1 hh
                  have := List.find?_eq_none.1 hf φ hφ
                  exact this (by simpa using h3)
                rw [hp2 r hnd hr]
                simpa [rd, hmr] using hag1 r hr hmr
              | some φ =>
                have h3 : φ.dst = r := by simpa using List.find?_some hf
                have h4 := List.mem_of_find?_eq_some hf
                have h5 : k < φ.params.length := by
                  rw [h.arity c hc φ h4]; exact (List.getElem?_eq_some_iff.1 hk).1
                rw [← h3, hp1 φ h4]
                simp only [pv, List.getElem?_eq_getElem h5, Option.getD_some]
                exact rd_agree hag1 (fun q hq => hlow c φ h4 q (.inr (hq ▸ List.getElem_mem h5))) s1
          · have hbody : runBody M mem (G.code b').body (lenter M mem G (setAt dn c (k + 1)) b' p' ρ' s') s' = .ok (ρ1', s1) := by
              rw [hs.body b' hbf, hr1]
            have ht : ltarget M mem G.order b' ρ1' s1 (G.code b').last = ltarget M mem F.order b' ρ1 s1 (F.code b').last := by
              rw [hs.order, hs.last]
              exact ltarget_agree hag1 (fun r hr => h.low b' r (.inr (.inr hr))) _ _ _
            cases hlt : ltarget M mem F.order b' ρ1 s1 (F.code b').last with
            | none => exact .inl (by simp only [hlt])
            | some t =>
              rw [hlt] at ht
              refine .inr ⟨1, by omega, ?_⟩
              cases t with
              | none => simp only [iter, lstep, hbo', if_true, hbody, ht, hlt, MoveSim]
              | some d =>
                simp only [iter, lstep, hbo', if_true, hbody, ht, hlt, MoveSim]
                obtain ⟨h1, h2⟩ := hclosed ρ1 s1 d hlt
                refine ⟨trivial, trivial, trivial, h1, fun q hq => by cases hq; exact ⟨hRb, h2⟩, ?_⟩
                rw [if_neg (fun hh => hbf (Option.some.inj hh.2))]
                exact hag1
      | _ => simp only [MoveSim] at hr
  · rw [if_neg (fun hh => by cases hh.2)]
    exact fun _ _ _ => rfl

/-! ### The phi functions are cleared -/

theorem clear_inv (h : Inv mem C has F dn R) {c : Nat} :
    Inv mem C has { F with code := setAt F.code c { F.code c with phis := [] } } dn R := by
  have hl : ∀ b, (setAt F.code c { F.code c with phis := [] } b).last = (F.code b).last ∧
      (setAt F.code c { F.code c with phis := [] } b).body = (F.code b).body := by
    intro b
    by_cases hbc : b = c
    · subst hbc; rw [setAt_same]; exact ⟨rfl, rfl⟩
    · rw [setAt_ne _ _ hbc]; exact ⟨rfl, rfl⟩
  have hp : ∀ b, (setAt F.code c { F.code c with phis := [] } b).phis = [] ∨
      (setAt F.code c { F.code c with phis := [] } b).phis = (F.code b).phis := by
    intro b
    by_cases hbc : b = c
    · subst hbc; rw [setAt_same]; exact .inl rfl
    · rw [setAt_ne _ _ hbc]; exact .inr rfl
  refine ⟨h.nodup, h.head, h.start, h.sub, ?_, ?_, h.freshO, h.freshF, h.hasR, ?_, ?_, ?_, ?_, ?_, ?_, ?_, ?_, h.memT, ?_⟩
  all_goals try dsimp only
  · intro b; rw [(hl b).1]; exact h.closed b
  · intro b; rw [(hl b).1]; exact h.ok b
  · intro d hd
    rcases hp d with e | e
    · exact e
    · rw [e]; exact h.nophi d hd
  · intro c' h1 k' p h2 h3; rw [(hl p).1]; exact h.pred c' h1 k' p h2 h3
  · intro c' h1 k' p h2 h3; rw [(hl p).1]; exact h.past c' h1 k' p h2 h3
  · intro c' h1 k' p h2 h3; rw [(hl p).1]; exact h.once c' h1 k' p h2 h3
  · intro c' h1 φ hφ
    rcases hp c' with e | e
    · rw [e] at hφ; cases hφ
    · rw [e] at hφ; exact h.arity c' h1 φ hφ
  · intro d
    rcases hp d with e | e
    · rw [e]; simp
    · rw [e]; exact h.dsts d
  · intro d φ hφ
    rcases hp d with e | e
    · rw [e] at hφ; cases hφ
    · rw [e] at hφ; exact h.phimem d φ hφ
  · intro b r hr
    apply h.low b r
    simp only [RegIn, (hl b).1, (hl b).2] at hr ⊢
    rcases hp b with e | e
    · rw [e] at hr
      simp only [List.not_mem_nil, false_and, exists_false, false_or] at hr
      exact .inr hr
    · rw [e] at hr; exact hr
  · intro c' h1
    rcases hp c' with e | e
    · rw [e]
      intro ps hps k _ T _
      rw [List.perm_nil.1 hps]
      exact PhiMoves.faithful_independent _ _ (by simp) (by simp [PhiMoves.Independent])
    · rw [e]; exact h.good c' h1

/-- The same run. -/
def SameSim (F : Fun K V) (R : Nat → Prop) (r r' : Res V S) : Prop :=
  r' = r ∧ r ≠ .undef ∧ ∀ b p ρ s, r = .run b p ρ s → R b ∧ ∀ q, p = some q → q ∈ F.frm b

theorem clear_sim (h : Inv mem C has F dn R) {c : Nat} (hdn : dn c = (F.frm c).length) (ρ : Env V) (s : S) :
    Follows (lstep M mem F dn) (lstep M mem { F with code := setAt F.code c { F.code c with phis := [] } } dn)
      (.run 0 none ρ s) (.run 0 none ρ s) := by
  have hl : ∀ b, (setAt F.code c { F.code c with phis := [] } b).last = (F.code b).last ∧
      (setAt F.code c { F.code c with phis := [] } b).body = (F.code b).body := by
    intro b
    by_cases hbc : b = c
    · subst hbc; rw [setAt_same]; exact ⟨rfl, rfl⟩
    · rw [setAt_ne _ _ hbc]; exact ⟨rfl, rfl⟩
  have hstep : ∀ b p ρ s, (∀ q, p = some q → q ∈ F.frm b) →
      lstep M mem { F with code := setAt F.code c { F.code c with phis := [] } } dn (.run b p ρ s) =
        lstep M mem F dn (.run b p ρ s) := by
    intro b p ρ s hp
    have : lenter M mem { F with code := setAt F.code c { F.code c with phis := [] } } dn b p ρ s = lenter M mem F dn b p ρ s := by
      cases p with
      | none => rfl
      | some q =>
        simp only [lenter]
        by_cases hbc : b = c
        · subst hbc
          have : (F.frm b).idxOf q < dn b := by rw [hdn]; exact List.idxOf_lt_length_iff.2 (hp q rfl)
          rw [if_pos this, if_pos this]
        · rw [setAt_ne _ _ hbc]
    simp only [lstep, (hl b).1, (hl b).2, this]
  refine follows_of rfl (SameSim F R) (fun r r' hr => by rw [hr.1]) ?_
    ⟨rfl, by simp, fun b p ρ s e => by cases e; exact ⟨h.start, fun q hq => by cases hq⟩⟩
  rintro r r' ⟨rfl, -, hr⟩
  cases r' with
  | undef => exact .inl rfl
  | done s0 => exact .inr ⟨1, by omega, rfl, by simp [lstep], fun b p ρ s e => by cases e⟩
  | stop s0 => exact .inr ⟨1, by omega, rfl, by simp [lstep], fun b p ρ s e => by cases e⟩
  | run b p ρ s =>
    obtain ⟨hRb, hp⟩ := hr b p ρ s rfl
    by_cases hu : lstep M mem F dn (.run b p ρ s) = .undef
    · exact .inl hu
    · refine .inr ⟨1, by omega, ?_, hu, ?_⟩
      · rw [iter, hstep b p ρ s hp]; rfl
      · intro b2 p2 ρ2 s2 e
        simp only [lstep, h.sub b hRb, if_true] at e
        split at e
        · split at e
          · rename_i hlt
            cases e
            obtain ⟨h1, h2⟩ := h.closed b hRb _ (ltarget_succ hlt)
            exact ⟨h1, fun q hq => by cases hq; exact h2⟩
          · cases e
          · cases e
        · cases e
        · cases e

/-! ### The loops -/

/-- An upper bound for the number of blocks that will be visited. -/
def weight (has : Nat → Bool) (F : Fun K V) (l : List Nat) : Nat :=
  (l.map fun b => 1 + if has b = true then (F.frm b).length else 0).sum

omit [DecidableEq V] in
theorem weight_congr {G : Fun K V} (h : ∀ b, has b = true → (G.frm b).length = (F.frm b).length) (l : List Nat) :
    weight has G l = weight has F l := by
  unfold weight
  congr 1
  apply List.map_congr_left
  intro b _
  by_cases hb : has b = true
  · rw [if_pos hb, if_pos hb, h b hb]
  · rw [if_neg hb, if_neg hb]

/-- One container after another: what the loops need to know. -/
structure Next (has : Nat → Bool) (F G : Fun K V) (c : Nat) (A B A' B' : List Nat) (n : Nat) : Prop where
  order : G.order = A' ++ c :: B'
  left : ∀ b ∈ A', b ∈ A ∨ has b = false
  right : ∀ b ∈ B', b ∈ B ∨ has b = false
  weight : weight has G B' ≤ weight has F B + n
  frm : ∀ b, has b = true → (G.frm b).length = (F.frm b).length
  phis : ∀ b, has b = true → b ≠ c → (G.code b).phis = (F.code b).phis

omit [DecidableEq V] in
theorem Next.trans {F G H : Fun K V} {c : Nat} {A B A' B' A'' B'' : List Nat} {m n : Nat} (h1 : Next has F G c A B A' B' m)
    (h2 : Next has G H c A' B' A'' B'' n) : Next has F H c A B A'' B'' (m + n) := by
  refine ⟨h2.order, ?_, ?_, ?_, fun b hb => (h2.frm b hb).trans (h1.frm b hb),
    fun b hb hc => (h2.phis b hb hc).trans (h1.phis b hb hc)⟩
  · intro b hb
    rcases h2.left b hb with h | h
    · exact h1.left b h
    · exact .inr h
  · intro b hb
    rcases h2.right b hb with h | h
    · exact h1.right b h
    · exact .inr h
  · have := h1.weight
    have := h2.weight
    omega

theorem uncond_spec (hfl : Flips M inv C) (h : Inv mem C has F dn R) {c k : Nat} {A B : List Nat} (hc : has c = true)
    (hdn : dn c = k) (hk : k < (F.frm c).length) (hord : F.order = A ++ c :: B) :
    ∃ G at' R' A' B' fb, makeUncond inv F c A.length k = some (G, at') ∧
      A'.length = (if (match at' with | some a => decide (a ≤ A.length) | none => false) = true then A.length + 1 else A.length) ∧
      Inv mem C has G dn R' ∧ (∀ ρ s, Follows (lstep M mem F dn) (lstep M mem G dn) (.run 0 none ρ s) (.run 0 none ρ s)) ∧
      (G.frm c)[k]? = some fb ∧ branches (G.code fb).last = false ∧ Next has F G c A B A' B' 1 := by
  have hfb := List.getElem?_eq_getElem hk
  generalize hfbe : (F.frm c)[k] = fb at hfb
  cases hb : branches (F.code fb).last with
  | false =>
    refine ⟨F, none, R, A, B, fb, ?_, by simp, h, fun ρ s n _ => ⟨n, Nat.le_refl _, rfl⟩, hfb, hb,
      ⟨hord, fun b hb => .inl hb, fun b hb => .inl hb, by omega, fun _ _ => rfl, fun _ _ _ => rfl⟩⟩
    simp only [makeUncond, hfb, hb]
    rfl
  | true =>
    obtain ⟨hfo, hfR, hfs⟩ := h.pred c hc k fb (by omega) hfb
    have hRf := hfR hb
    have hidx : F.order.idxOf fb < F.order.length := List.idxOf_lt_length_iff.2 hfo
    have hto : F.order[A.length]? = some c := by rw [hord]; simp
    have hno : F.new ∉ F.order := fun hm => absurd (h.freshO _ hm) (by omega)
    obtain ⟨G, at', l, h1, hs⟩ := split_spec (M := M) hfl h.nodup hno hto (List.getElem?_idxOf hfo) hb (h.ok fb (h.sub fb hRf))
      (fun d hd => h.sub d (h.closed fb hRf d hd).1) hfs
    have hRn : ∀ b, R b → b ≠ F.new := fun b hb' e => hno (e ▸ h.sub b hb')
    have hcn := hRn c (h.hasR c hc).1
    have hinv := split_inv h hc hfb hdn hb hto hs
    have hhn : has F.new = false := by
      by_contra hh
      exact hRn _ (h.hasR F.new (by simpa using hh)).1 rfl
    obtain ⟨P, Q, hP, hG, hlen⟩ := hs.order
    have hfrm : ∀ b, has b = true → (setAt G.frm c ((G.frm c).set k F.new) b).length = (F.frm b).length := by
      intro b hb'
      have hbn := hRn b (h.hasR b hb').1
      by_cases hbc : b = c
      · subst hbc; rw [setAt_same, List.length_set, hs.frm, setAt_ne _ _ hbn]
      · rw [setAt_ne _ _ hbc, hs.frm, setAt_ne _ _ hbn]
    have hphis : ∀ b, has b = true → (G.code b).phis = (F.code b).phis := by
      intro b hb'
      rw [hs.code, setAt_ne _ _ (hRn b (h.hasR b hb').1)]
      by_cases hbf : b = fb
      · subst hbf; rw [setAt_same]
      · rw [setAt_ne _ _ hbf]
    have hcode : branches (G.code F.new).last = false := by
      rw [hs.code, setAt_same]
      by_cases hai : at' = A.length <;> simp [hai, branches]
    have hmk : makeUncond inv F c A.length k =
        some ({ G with frm := setAt G.frm c ((G.frm c).set k F.new) }, some at') := by
      simp only [makeUncond, hfb, hb, if_true, hidx, h1, Option.map_some]
    have hfk : (setAt G.frm c ((G.frm c).set k F.new) c)[k]? = some F.new := by
      rw [setAt_same, List.getElem?_set_self]
      rw [hs.frm, setAt_ne _ _ hcn]; exact hk
    have hsplit : ∃ A' B', G.order = A' ++ c :: B' ∧ A'.length = (if at' ≤ A.length then A.length + 1 else A.length) ∧
        (∀ b ∈ A', b ∈ A ∨ has b = false) ∧ (∀ b ∈ B', b ∈ B ∨ has b = false) ∧
        weight has F B' ≤ weight has F B + 1 := by
      rw [hord] at hP
      by_cases hle : at' ≤ A.length
      · obtain ⟨A2, hA2⟩ : ∃ A2, A = P ++ A2 := by
          rcases List.append_eq_append_iff.1 hP with ⟨x, h2, h3⟩ | ⟨x, h2, h3⟩
          · have : x = [] := by
              have := congrArg List.length h2
              rw [List.length_append] at this
              exact List.eq_nil_of_length_eq_zero (by omega)
            subst this
            exact ⟨[], by simpa using h2.symm⟩
          · exact ⟨x, h2⟩
        subst hA2
        rw [List.append_assoc, List.append_cancel_left_eq] at hP
        refine ⟨P ++ F.new :: A2, B, by rw [hG, ← hP]; simp,
          by rw [if_pos hle]; simp only [List.length_append, List.length_cons]; omega, ?_, fun b hb => .inl hb, by omega⟩
        intro b hb'
        simp only [List.mem_append, List.mem_cons] at hb' ⊢
        rcases hb' with hb' | rfl | hb'
        · exact .inl (.inl hb')
        · exact .inr hhn
        · exact .inl (.inr hb')
      · obtain ⟨P2, hP2⟩ : ∃ P2, P = A ++ c :: P2 := by
          rcases List.append_eq_append_iff.1 hP with ⟨x, h2, h3⟩ | ⟨x, h2, h3⟩
          · cases x with
            | nil =>
              rw [List.append_nil] at h2
              rw [h2] at hlen; omega
            | cons y x =>
              rw [List.cons_append, List.cons.injEq] at h3
              exact ⟨x, by rw [h2, h3.1]⟩
          · have := congrArg List.length h2
            rw [List.length_append] at this
            omega
        subst hP2
        rw [List.append_assoc, List.append_cancel_left_eq, List.cons_append, List.cons.injEq] at hP
        refine ⟨A, P2 ++ F.new :: Q, by rw [hG]; simp, by simp [hle], fun b hb => .inl hb, ?_, ?_⟩
        · intro b hb'
          rw [hP.2]
          simp only [List.mem_append, List.mem_cons] at hb' ⊢
          rcases hb' with hb' | rfl | hb'
          · exact .inl (.inl hb')
          · exact .inr hhn
          · exact .inl (.inr hb')
        · rw [hP.2]
          simp only [weight, List.map_append, List.map_cons, List.sum_append, List.sum_cons, hhn]
          simp
          omega
    obtain ⟨A', B', h2, h3, h4, h5, h6⟩ := hsplit
    refine ⟨_, some at', _, A', B', F.new, hmk, by simpa using h3, hinv, fun ρ s => split_sim h hc hfb hdn hb hs ρ s, hfk, hcode,
      ⟨h2, h4, h5, ?_, hfrm, fun b hb' _ => hphis b hb'⟩⟩
    rw [weight_congr (F := F) hfrm]
    exact h6

theorem edges_spec {mov : K} (hfl : Flips M inv C) (hmov : ∀ v s, M.exec mov (some v) none s = .ok (v, s)) {c : Nat}
    (hc : has c = true) : ∀ (n k : Nat) (F : Fun K V) (dn : Nat → Nat) (R : Nat → Prop) (A B : List Nat),
    Inv mem C has F dn R → dn c = k → k + n = (F.frm c).length → F.order = A ++ c :: B →
    ∃ G R' A' B', edges inv mov c n k A.length F = some (G, A'.length) ∧ Inv mem C has G (setAt dn c (k + n)) R' ∧
      (∀ ρ s, Follows (lstep M mem F dn) (lstep M mem G (setAt dn c (k + n))) (.run 0 none ρ s) (.run 0 none ρ s)) ∧
      Next has F G c A B A' B' n
  | 0, k, F, dn, R, A, B, h, hdn, hk, hord => by
    have e : setAt dn c (k + 0) = dn := by
      funext b
      by_cases hbc : b = c
      · subst hbc; rw [setAt_same, hdn]; rfl
      · rw [setAt_ne _ _ hbc]
    rw [e]
    exact ⟨F, R, A, B, rfl, h, fun ρ s n _ => ⟨n, Nat.le_refl _, rfl⟩,
      ⟨hord, fun b hb => .inl hb, fun b hb => .inl hb, by omega, fun _ _ => rfl, fun _ _ _ => rfl⟩⟩
  | n + 1, k, F, dn, R, A, B, h, hdn, hk, hord => by
    obtain ⟨F1, at', R1, A1, B1, fb, h1, h2, h3, h4, h5, h6, h7⟩ :=
      uncond_spec (M := M) hfl h hc hdn (by omega) hord
    obtain ⟨F2, ms, h8, h9⟩ := replace_spec (mov := mov) h3 hc h5 h6
    have h10 := replace_inv h3 hc h5 hdn h6 h9
    have h11 : F2.order = A1 ++ c :: B1 := by rw [h9.order, h7.order]
    obtain ⟨G, R', A', B', h12, h13, h14, h15⟩ := edges_spec hfl hmov hc n (k + 1) F2 (setAt dn c (k + 1)) R1 A1 B1 h10
      (setAt_same ..) (by rw [h9.frm, h7.frm c hc]; omega) h11
    have e : setAt (setAt dn c (k + 1)) c (k + 1 + n) = setAt dn c (k + (n + 1)) := by
      funext b
      by_cases hbc : b = c
      · subst hbc; rw [setAt_same, setAt_same]; omega
      · rw [setAt_ne _ _ hbc, setAt_ne _ _ hbc, setAt_ne _ _ hbc]
    rw [e] at h13 h14
    refine ⟨G, R', A', B', ?_, h13, fun ρ s => ((h4 ρ s).trans (replace_sim hmov h3 hc h5 hdn h6 h9 ρ s)).trans (h14 ρ s), ?_⟩
    · simp only [edges, h1, h8]
      rw [← h2]
      exact h12
    · have h16 : Next has F1 F2 c A1 B1 A1 B1 0 :=
        ⟨h11, fun b hb => .inl hb, fun b hb => .inl hb,
          by rw [weight_congr (F := F1) (fun b _ => by rw [h9.frm])]; omega,
          fun b _ => by rw [h9.frm], fun b _ hbc => h9.phis b hbc⟩
      have := (h7.trans h16).trans h15
      rw [show 1 + 0 + n = n + 1 by omega] at this
      exact this

theorem loop_spec {mov : K} (hfl : Flips M inv C) (hmov : ∀ v s, M.exec mov (some v) none s = .ok (v, s)) :
    ∀ (fuel : Nat) (F : Fun K V) (dn : Nat → Nat) (R : Nat → Prop) (A B : List Nat),
    Inv mem C has F dn R → F.order = A ++ B → weight has F B < fuel →
    (∀ b ∈ A, has b = true → (F.code b).phis = []) → (∀ b ∈ B, has b = true → dn b = 0) →
    ∃ G R' dn', loop inv mov has fuel A.length F = some G ∧ Inv mem C has G dn' R' ∧ (∀ b, (G.code b).phis = []) ∧
      ∀ ρ s, Follows (lstep M mem F dn) (lstep M mem G dn') (.run 0 none ρ s) (.run 0 none ρ s)
  | 0, F, dn, R, A, B, h, hord, hf, hA, hB => by omega
  | fuel + 1, F, dn, R, A, B, h, hord, hf, hA, hB => by
    cases B with
    | nil =>
      refine ⟨F, R, dn, ?_, h, ?_, fun ρ s n _ => ⟨n, Nat.le_refl _, rfl⟩⟩
      · have : F.order[A.length]? = none := by rw [hord]; simp
        simp only [loop, this]
      · intro b
        cases hb : has b with
        | false => exact h.nophi b hb
        | true =>
          apply hA b _ hb
          have := h.sub b (h.hasR b hb).1
          rw [hord, List.append_nil] at this
          exact this
    | cons c B =>
      have hget : F.order[A.length]? = some c := by rw [hord]; simp
      have hw : weight has F (c :: B) = (1 + if has c = true then (F.frm c).length else 0) + weight has F B := by
        simp [weight]
      cases hc : has c with
      | false =>
        obtain ⟨G, R', dn', h1, h2⟩ := loop_spec hfl hmov fuel F dn R (A ++ [c]) B h (by rw [hord]; simp)
          (by rw [hw] at hf; omega)
          (fun b hb hhb => by
            rcases List.mem_append.1 hb with hb | hb
            · exact hA b hb hhb
            · rw [List.mem_singleton] at hb; subst hb; rw [hc] at hhb; cases hhb)
          (fun b hb => hB b (List.mem_cons_of_mem _ hb))
        refine ⟨G, R', dn', ?_, h2⟩
        rw [List.length_append] at h1
        simp only [loop, hget, hc]
        exact h1
      | true =>
        obtain ⟨G, R', A', B', h1, h2, h3, h4⟩ := edges_spec (M := M) hfl hmov hc (F.frm c).length 0 F dn R A B h
          (hB c (List.mem_cons_self ..) hc) (by omega) hord
        rw [Nat.zero_add] at h2 h3
        have hnd : c ∉ A' := by
          have := h2.nodup
          rw [h4.order, List.nodup_middle, List.nodup_cons, List.mem_append, not_or] at this
          exact this.1.1
        have hndB : c ∉ B := by
          have := h.nodup
          rw [hord, List.nodup_middle, List.nodup_cons, List.mem_append, not_or] at this
          exact this.1.2
        have hcl := clear_inv h2 (c := c)
        obtain ⟨H, R'', dn'', h5, h6, h7, h8⟩ := loop_spec hfl hmov fuel _ _ R' (A' ++ [c]) B' hcl
          (by show G.order = _; rw [h4.order]; simp)
          (by
            have := h4.weight
            rw [hw, if_pos hc] at hf
            show weight has G B' < fuel
            omega)
          (fun b hb hhb => by
            show (setAt G.code c _ b).phis = []
            by_cases hbc : b = c
            · subst hbc; rw [setAt_same]
            · rw [setAt_ne _ _ hbc]
              rcases List.mem_append.1 hb with hb | hb
              · rw [h4.phis b hhb hbc]
                rcases h4.left b hb with h9 | h9
                · exact hA b h9 hhb
                · rw [h9] at hhb; cases hhb
              · exact absurd (List.mem_singleton.1 hb) hbc)
          (fun b hb hhb => by
            rcases h4.right b hb with h9 | h9
            · have hbc : b ≠ c := fun e => hndB (e ▸ h9)
              rw [setAt_ne _ _ hbc]
              exact hB b (List.mem_cons_of_mem _ h9) hhb
            · rw [h9] at hhb; cases hhb)
        refine ⟨H, R'', dn'', ?_, h6, h7, fun ρ s =>
          ((h3 ρ s).trans (clear_sim h2 (by rw [setAt_same, h4.frm c hc]) ρ s)).trans (h8 ρ s)⟩
        rw [List.length_append] at h5
        simp only [loop, hget, hc, if_true, h1]
        exact h5

end

/-! ### The whole pass -/

/-- What the pass expects.  `C`: the conditions jumps test; `has`: blocks whose pointer `phis` is not null. -/
structure Input [DecidableEq V] (mem : Nat → Bool) (C : K → Prop) (has : Nat → Bool) (tmp : Nat) (P : Prog K V) : Prop where
  wf : Edges.WellFormed P.blocks
  ne : P.blocks ≠ []
  edges : Edges.Exact (Edges.succ P.blocks) P.frm
  start : P.frm 0 = []
  hasFrom : ∀ b, has b = true → P.frm b ≠ []
  nophi : ∀ (b : Nat) (B : Block K V), P.blocks[b]? = some B → has b = false → B.phis = []
  arity : ∀ (b : Nat) (B : Block K V), P.blocks[b]? = some B → ∀ φ ∈ B.phis, φ.params.length = (P.frm b).length
  dsts : ∀ (b : Nat) (B : Block K V), P.blocks[b]? = some B → (B.phis.map (·.dst)).Nodup
  phimem : ∀ (b : Nat) (B : Block K V), P.blocks[b]? = some B → ∀ φ ∈ B.phis, mem φ.dst = false
  low : ∀ (b : Nat) (B : Block K V) r, P.blocks[b]? = some B → RegIn r B → r < tmp
  memT : ∀ r, tmp ≤ r → mem r = false
  cond : ∀ (b : Nat) (B : Block K V) k o1 o2 d, P.blocks[b]? = some B → B.last = .cjmp k o1 o2 d → C k ∧ b + 1 < P.blocks.length ∧ d ≠ b + 1
  table : ∀ (b : Nat) (B : Block K V) o bs, P.blocks[b]? = some B → B.last = .tjmp o bs → b + 1 < P.blocks.length ∧ bs ≠ []
  moves : ∀ (b : Nat) (B : Block K V), P.blocks[b]? = some B → Movable tmp (P.frm b).length B.phis

theorem follow_range (n b : Nat) (h : b < n) : follow (List.range n) b = if b + 1 < n then some (b + 1) else none := by
  rw [follow_getElem List.nodup_range (i := b) (by simp [h])]
  by_cases h1 : b + 1 < n <;> simp [h1]

theorem lsucc_range {n b : Nat} (h : b < n) (l : Last K V) : lsucc (List.range n) b l = Edges.succs n b l := by
  cases l <;> simp only [lsucc, Edges.succs, follow_range n b h]
  all_goals split <;> rfl

theorem reach_lt {blocks : List (Block K V)} (hw : Edges.WellFormed blocks) (hne : blocks ≠ []) {b : Nat}
    (h : Edges.Reach (Edges.succ blocks) b) : b < blocks.length := by
  cases h with
  | zero => exact List.length_pos_iff.2 hne
  | step _ h => exact hw _ _ h

theorem count_once {l : List Nat} {p : Nat} (h : l.count p ≤ 1) {j k : Nat} (hj : l[j]? = some p) (hk : l[k]? = some p) : j = k := by
  induction l generalizing j k with
  | nil => simp at hj
  | cons a l ih =>
    rw [List.count_cons] at h
    cases j with
    | zero =>
      cases k with
      | zero => rfl
      | succ k =>
        simp at hj
        rw [List.getElem?_cons_succ] at hk
        have := List.count_pos_iff.2 (List.mem_of_getElem? hk)
        subst hj
        simp at h
        exact absurd (List.mem_of_getElem? hk) (List.count_eq_zero.1 h)
    | succ j =>
      rw [List.getElem?_cons_succ] at hj
      cases k with
      | zero =>
        simp at hk
        subst hk
        simp at h
        exact absurd (List.mem_of_getElem? hj) (List.count_eq_zero.1 h)
      | succ k =>
        rw [List.getElem?_cons_succ] at hk
        rw [ih (by omega) hj hk]

section
variable [DecidableEq V] {mem : Nat → Bool} {C : K → Prop} {has : Nat → Bool} {tmp : Nat} {P : Prog K V} {M : Machine K V S}
  {inv : K → Option K}

theorem Input.code (b : Nat) (P : Prog K V) (tmp : Nat) :
    (b < P.blocks.length ∧ ∃ B, P.blocks[b]? = some B ∧ (ofProg P tmp).code b = B) ∨
    (P.blocks.length ≤ b ∧ (ofProg P tmp).code b = noBlock) := by
  by_cases hb : b < P.blocks.length
  · exact .inl ⟨hb, P.blocks[b], List.getElem?_eq_getElem hb, by simp [ofProg, List.getElem?_eq_getElem hb]⟩
  · refine .inr ⟨by omega, ?_⟩
    simp only [ofProg]
    rw [List.getElem?_eq_none (by omega)]
    rfl

theorem movable_nil (T n : Nat) : Movable (V := V) T n [] := by
  intro ps hps k _ T _
  rw [List.perm_nil.1 hps]
  exact PhiMoves.faithful_independent _ _ (by simp) (by simp [PhiMoves.Independent])

theorem Input.state (h : Input mem C has tmp P) :
    Inv mem C has (ofProg P tmp) (fun _ => 0) (Edges.Reach (Edges.succ P.blocks)) := by
  have hlt : ∀ {b}, Edges.Reach (Edges.succ P.blocks) b → b < P.blocks.length := reach_lt h.wf h.ne
  have hn : 0 < P.blocks.length := List.length_pos_iff.2 h.ne
  have hsucc : ∀ b, b < P.blocks.length →
      lsucc (List.range P.blocks.length) b ((ofProg P tmp).code b).last = Edges.succ P.blocks b := by
    intro b hb
    rw [lsucc_range hb]
    simp [Edges.succ, ofProg, List.getElem?_eq_getElem hb]
  have hfrm : ∀ p c, p ∈ P.frm c → Edges.Reach (Edges.succ P.blocks) p ∧ c ∈ Edges.succ P.blocks p := by
    intro p c hp
    by_cases hr : Edges.Reach (Edges.succ P.blocks) p
    · refine ⟨hr, ?_⟩
      have := List.count_pos_iff.2 hp
      rw [(h.edges p c).1 hr] at this
      exact List.count_pos_iff.1 this
    · exact absurd hp ((h.edges p c).2 hr)
  have hjump : ∀ b, b < P.blocks.length → JumpOk C (List.range P.blocks.length) b ((ofProg P tmp).code b).last := by
    intro b hb
    rcases Input.code b P tmp with ⟨-, B, hB, e⟩ | ⟨h1, -⟩
    · rw [e]
      cases hl : B.last with
      | next => trivial
      | jmp c => trivial
      | cjmp k o1 o2 d =>
        obtain ⟨h1, h2, h3⟩ := h.cond b B k o1 o2 d hB hl
        simp only [JumpOk, follow_range _ _ hb, if_pos h2]
        exact ⟨h1, by simp, fun e => h3 (Option.some.inj e).symm⟩
      | tjmp o bs =>
        have h2 := h.table b B o bs hB hl
        simp only [JumpOk, follow_range _ _ hb, if_pos h2.1]
        exact ⟨by simp, h2.2⟩
    · omega
  refine ⟨List.nodup_range, ?_, .zero, fun b hb => List.mem_range.2 (hlt hb), ?_, fun b hb => hjump b (List.mem_range.1 hb), ?_, ?_, ?_, ?_, ?_,
    fun c _ k p hk => by omega, ?_, ?_, ?_, ?_, ?_, h.memT, ?_⟩
  · show (List.range P.blocks.length).head? = some 0
    rw [List.head?_range, if_neg (by omega)]
  · intro b hb c hc
    have hc' : c ∈ Edges.succ P.blocks b := by rw [← hsucc b (hlt hb)]; exact hc
    refine ⟨hb.step hc', ?_⟩
    apply List.count_pos_iff.1
    show 0 < (P.frm c).count b
    rw [(h.edges b c).1 hb]
    exact List.count_pos_iff.2 hc'
  · intro b hb; exact List.mem_range.1 hb
  · intro c p hp; exact hlt (hfrm p c hp).1
  · intro c hc
    have hf := h.hasFrom c hc
    obtain ⟨p, hp⟩ := List.exists_mem_of_ne_nil _ hf
    obtain ⟨h1, h2⟩ := hfrm p c hp
    refine ⟨h1.step h2, ?_⟩
    intro e
    subst e
    exact hf h.start
  · intro c hc
    rcases Input.code c P tmp with ⟨-, B, hB, e⟩ | ⟨-, e⟩
    · rw [e]; exact h.nophi c B hB hc
    · rw [e]; rfl
  · intro c hc k p _ hp
    obtain ⟨h1, h2⟩ := hfrm p c (List.mem_of_getElem? hp)
    exact ⟨List.mem_range.2 (hlt h1), fun _ => h1, .inl (by show c ∈ lsucc (List.range P.blocks.length) _ _; rw [hsucc p (hlt h1)]; exact h2)⟩
  · intro c hc k p _ hp ht j hj
    obtain ⟨h1, h2⟩ := hfrm p c (List.mem_of_getElem? hp)
    refine count_once ?_ hj hp
    show (P.frm c).count p ≤ 1
    rw [(h.edges p c).1 h1, ← hsucc p (hlt h1)]
    have hj' := hjump p (hlt h1)
    revert ht hj'
    generalize ((ofProg P tmp).code p).last = l
    intro ht hj'
    cases l with
    | next =>
      rw [lsucc]
      cases follow (List.range P.blocks.length) p with
      | none => simp
      | some e => rw [Option.toList, List.count_cons]; simp; split <;> omega
    | jmp d => rw [lsucc, List.count_cons]; simp; split <;> omega
    | cjmp k o1 o2 d =>
      rw [lsucc]
      cases hf : follow (List.range P.blocks.length) p with
      | none => rw [Option.toList, List.count_cons]; simp; split <;> omega
      | some e =>
        have hde : d ≠ e := fun x => hj'.2.2 (by rw [hf, x])
        rw [Option.toList, List.count_cons, List.count_cons]
        by_cases h3 : d = c
        · have : e ≠ c := fun x => hde (h3.trans x.symm)
          simp [h3, this]
        · simp [h3]; split <;> omega
    | tjmp o bs => cases ht
  · intro c hc φ hφ
    rcases Input.code c P tmp with ⟨-, B, hB, e⟩ | ⟨-, e⟩
    · rw [e] at hφ; exact h.arity c B hB φ hφ
    · rw [e] at hφ; cases hφ
  · intro c
    rcases Input.code c P tmp with ⟨-, B, hB, e⟩ | ⟨-, e⟩
    · rw [e]; exact h.dsts c B hB
    · rw [e]; simp [noBlock]
  · intro c φ hφ
    rcases Input.code c P tmp with ⟨-, B, hB, e⟩ | ⟨-, e⟩
    · rw [e] at hφ; exact h.phimem c B hB φ hφ
    · rw [e] at hφ; cases hφ
  · intro b r hr
    rcases Input.code b P tmp with ⟨-, B, hB, e⟩ | ⟨-, e⟩
    · rw [e] at hr; exact h.low b B r hB hr
    · rw [e] at hr; simp [RegIn, noBlock, lastOprs] at hr
  · intro c hc
    rcases Input.code c P tmp with ⟨-, B, hB, e⟩ | ⟨-, e⟩
    · rw [e]; exact h.moves c B hB
    · rw [e]; exact movable_nil _ _

/-- What can be seen of a function of `n` blocks: when it is about to run the block after the last one, it has returned. -/
def effAt (n : Nat) : Res V S → Eff S
  | .run b _ _ s => if b < n then .running s else .done s
  | .done s => .done s
  | .stop s => .stop s
  | .undef => .undef

/-- The same run, until the end is reached. -/
def ProgSim (P : Prog K V) : Res V S → Res V S → Prop
  | .run b p ρ s, r => if b < P.blocks.length then Edges.Reach (Edges.succ P.blocks) b ∧ r = .run b p ρ s else r = .done s
  | r, r' => r' = r

theorem ofProg_step (hw : Edges.WellFormed P.blocks) (r r' : Res V S) (hr : ProgSim P r r') :
    ProgSim P (step M mem P r) (lstep M mem (ofProg P tmp) (fun _ => 0) r') := by
  cases r with
  | done s => subst hr; rfl
  | stop s => subst hr; rfl
  | undef => subst hr; rfl
  | run b p ρ s =>
    simp only [ProgSim] at hr
    by_cases hb : b < P.blocks.length
    · rw [if_pos hb] at hr
      obtain ⟨hR, rfl⟩ := hr
      have hB := List.getElem?_eq_getElem hb
      generalize P.blocks[b] = B at hB
      have hcode : (ofProg P tmp).code b = B := by simp [ofProg, hB]
      have hmem : b ∈ (ofProg P tmp).order := List.mem_range.2 hb
      have hent : lenter M mem (ofProg P tmp) (fun _ => 0) b p ρ s = enter M mem B.phis (P.frm b) p ρ s := by
        cases p with
        | none => rfl
        | some q => simp only [lenter, Nat.not_lt_zero, if_false, enter, hcode]; rfl
      simp only [step, hB, lstep, hmem, if_true, hcode, hent]
      cases runBody M mem B.body (enter M mem B.phis (P.frm b) p ρ s) s with
      | stop s' => rfl
      | undef => rfl
      | ok x =>
        obtain ⟨ρ', s'⟩ := x
        have hsucc : Edges.succ P.blocks b = Edges.succs P.blocks.length b B.last := by simp [Edges.succ, hB]
        have hgo : ∀ c, c ∈ Edges.succs P.blocks.length b B.last →
            c < P.blocks.length ∧ Edges.Reach (Edges.succ P.blocks) c := by
          intro c hc
          rw [← hsucc] at hc
          exact ⟨hw b c hc, hR.step hc⟩
        have hfol : follow (ofProg P tmp).order b = if b + 1 < P.blocks.length then some (b + 1) else none :=
          follow_range _ _ hb
        have hto : ∀ c, c ∈ Edges.succs P.blocks.length b B.last →
            ProgSim P (.run c (some b) ρ' s') (.run c (some b) ρ' s') := by
          intro c hc
          simp only [ProgSim, if_pos (hgo c hc).1]
          exact ⟨(hgo c hc).2, trivial⟩
        cases hl : B.last with
        | next =>
          rw [hl] at hto
          simp only [target, ltarget, hfol]
          by_cases h1 : b + 1 < P.blocks.length
          · rw [if_pos h1]; exact hto _ (by simp [Edges.succs, h1])
          · rw [if_neg h1]; simp only [ProgSim, if_neg h1]
        | jmp c =>
          rw [hl] at hto
          exact hto _ (by simp [Edges.succs])
        | cjmp k o1 o2 c =>
          rw [hl] at hto
          simp only [target, ltarget, hfol]
          by_cases ht : M.test k (rd M mem ρ' s' o1) (rd M mem ρ' s' o2) = true
          · simp only [ht, if_true]; exact hto _ (by simp [Edges.succs])
          · simp only [ht]
            by_cases h1 : b + 1 < P.blocks.length
            · simp only [h1, if_true]; exact hto _ (by simp [Edges.succs, h1])
            · simp [h1, ProgSim]
        | tjmp o bs =>
          rw [hl] at hto
          simp only [target, ltarget]
          cases hg : bs[M.index (rd M mem ρ' s' o)]? with
          | none => rfl
          | some c => exact hto _ (by simp only [Edges.succs]; exact List.mem_of_getElem? hg)
    · rw [if_neg hb] at hr
      subst hr
      have : P.blocks[b]? = none := List.getElem?_eq_none (by omega)
      simp only [step, this]
      rfl

theorem ofProg_run (hw : Edges.WellFormed P.blocks) (n : Nat) (r r' : Res V S) (hr : ProgSim P r r') :
    eff (iter (lstep M mem (ofProg P tmp) (fun _ => 0)) n r') = effAt P.blocks.length (run M mem P n r) := by
  induction n generalizing r r' with
  | zero =>
    cases r with
    | run b p ρ s =>
      simp only [ProgSim] at hr
      simp only [iter, run, effAt]
      by_cases hb : b < P.blocks.length
      · rw [if_pos hb] at hr ⊢
        rw [hr.2]; rfl
      · rw [if_neg hb] at hr ⊢
        rw [hr]; rfl
    | done s => subst hr; rfl
    | stop s => subst hr; rfl
    | undef => subst hr; rfl
  | succ n ih => exact ih _ _ (ofProg_step hw r r' hr)

/-- Control stays inside the function: `R` are blocks that can be reached, and the ends of all blocks are as `JumpOk` says. -/
structure Closed (C : K → Prop) (G : Fun K V) (R : Nat → Prop) : Prop where
  start : R 0
  sub : ∀ b, R b → b ∈ G.order
  closed : ∀ b, R b → ∀ c ∈ lsucc G.order b (G.code b).last, R c
  ok : ∀ b ∈ G.order, JumpOk C G.order b (G.code b).last

/-- The same as `resolvePhis_partial`, and control stays inside the function. -/
theorem resolvePhis_full {mov : K} (h : Input mem C has tmp P) (hfl : Flips M inv C)
    (hmov : ∀ v s, M.exec mov (some v) none s = .ok (v, s)) :
    ∃ G N, (∀ fuel, N < fuel → resolvePhis inv mov has fuel P tmp = some G) ∧ (∀ b, (G.code b).phis = []) ∧
      G.order.Nodup ∧ G.order.head? = some 0 ∧ (∃ R, Closed C G R) ∧
      ∀ n ρ s, run M mem P n (.run 0 none ρ s) ≠ .undef →
        ∃ m, n ≤ m ∧ eff (iter (lstep M mem G (fun _ => 0)) m (.run 0 none ρ s)) =
          effAt P.blocks.length (run M mem P n (.run 0 none ρ s)) := by
  have hinv := h.state
  have hl : ∀ fuel, weight has (ofProg P tmp) (ofProg P tmp).order < fuel → _ := fun fuel hf =>
    loop_spec (M := M) hfl hmov fuel (ofProg P tmp) (fun _ => 0) _ [] (ofProg P tmp).order hinv rfl hf
      (fun b hb => by cases hb) (fun _ _ _ => rfl)
  obtain ⟨G, R', dn', h1, h2, h3, h4⟩ := hl _ (Nat.lt_succ_self _)
  refine ⟨G, weight has (ofProg P tmp) (ofProg P tmp).order, ?_, h3, h2.nodup, h2.head,
    ⟨R', h2.start, h2.sub, fun b hb c hc => (h2.closed b hb c hc).1, h2.ok⟩, ?_⟩
  · intro fuel hf
    have hmono : ∀ m n i (F : Fun K V) H, m ≤ n → loop inv mov has m i F = some H → loop inv mov has n i F = some H := by
      intro m
      induction m with
      | zero => intro n i F H _ hm; cases hm
      | succ m ih =>
        intro n i F H hmn hm
        obtain ⟨n, rfl⟩ : ∃ n', n = n' + 1 := ⟨n - 1, by omega⟩
        rw [loop] at hm ⊢
        split at hm
        · exact hm
        · split at hm
          · split at hm
            · cases hm
            · rename_i hh _ _ _ he
              rw [if_pos hh]
              simp only [he]
              exact ih n _ _ _ (by omega) hm
          · rename_i hh
            rw [if_neg hh]
            exact ih n _ _ _ (by omega) hm
    exact hmono _ _ _ _ _ hf h1
  · intro n ρ s hn
    have h0 : ProgSim P (.run 0 none ρ s) (.run 0 none ρ s : Res V S) := by
      simp only [ProgSim, if_pos (List.length_pos_iff.2 h.ne)]
      exact ⟨.zero, trivial⟩
    have h5 := ofProg_run (M := M) (mem := mem) (tmp := tmp) h.wf n _ _ h0
    have hu : effAt P.blocks.length (run M mem P n (.run 0 none ρ s)) ≠ .undef := by
      cases hr : run M mem P n (.run 0 none ρ s) with
      | undef => exact absurd hr hn
      | run b p ρ s => simp only [effAt]; split <;> simp
      | _ => simp [effAt]
    obtain ⟨m, hm, e⟩ := h4 ρ s n (by rw [h5]; exact hu)
    refine ⟨m, hm, ?_⟩
    have hst : lstep M mem G (fun _ => 0) = lstep M mem G dn' := by
      funext r
      cases r with
      | run b p ρ s =>
        have : lenter M mem G (fun _ => 0) b p ρ s = lenter M mem G dn' b p ρ s := by
          cases p with
          | none => rfl
          | some q =>
            simp only [lenter, h3 b, Nat.not_lt_zero, if_false]
            have : ∀ k, phiIn M mem [] k ρ s = ρ := fun k => rfl
            rw [this, ite_self]
        simp only [lstep, this]
      | _ => rfl
    rw [hst, e, h5]

/-- C62.  Leaving SSA form: the pass ends, in the container it leaves no phi function is left, and the function does
what it did before: every effect at every moment, the end and the result.

Partial: the edges have to be those of the code (`Input.edges`; false after copy propagation has replaced a conditional
jump), no conditional jump may go to the next block (`Input.cond`), conditions must be invertible (`Flips`; false for
floating-point comparisons with NaN), and the moves must be right for every predecessor (`Input.moves`; see
`movable_three` and `movable_independent`).  Without the first, third and fourth the claim is false: `stale_edges_wrong`,
`nan_wrong`, and `two_swaps_wrong` in PhiMoves. -/
theorem resolvePhis_partial {mov : K} (h : Input mem C has tmp P) (hfl : Flips M inv C)
    (hmov : ∀ v s, M.exec mov (some v) none s = .ok (v, s)) :
    ∃ G N, (∀ fuel, N < fuel → resolvePhis inv mov has fuel P tmp = some G) ∧ (∀ b, (G.code b).phis = []) ∧
      G.order.Nodup ∧ G.order.head? = some 0 ∧
      ∀ n ρ s, run M mem P n (.run 0 none ρ s) ≠ .undef →
        ∃ m, n ≤ m ∧ eff (iter (lstep M mem G (fun _ => 0)) m (.run 0 none ρ s)) =
          effAt P.blocks.length (run M mem P n (.run 0 none ρ s)) := by
  obtain ⟨G, N, h1, h2, h3, h4, -, h5⟩ := resolvePhis_full h hfl hmov
  exact ⟨G, N, h1, h2, h3, h4, h5⟩

theorem movable_three {T n : Nat} {phis : List (Phi V)} (hl : phis.length ≤ 3) (hd : (phis.map (·.dst)).Nodup)
    (hr : ∀ φ ∈ phis, φ.dst < T ∧ ∀ r, .reg r ∈ φ.params → r < T) : Movable T n phis := by
  intro ps hps k _ T' hT
  refine PhiMoves.faithful_three _ _ ?_ (by rw [List.length_map, hps.length_eq]; exact hl) ?_
  · rw [List.map_map]
    have : ((fun x : PhiMoves.Phi (Opr V) => x.dst) ∘ pv k) = (fun d => Opr.reg d) ∘ (fun φ : Phi V => φ.dst) := rfl
    rw [this, ← List.map_map]
    refine List.Nodup.map ?_ ((hps.map _).nodup_iff.2 hd)
    intro a b hab
    cases hab; rfl
  · intro p hp
    obtain ⟨φ, hφ, rfl⟩ := List.mem_map.1 hp
    obtain ⟨h1, h2⟩ := hr φ (hps.mem_iff.1 hφ)
    refine ⟨fun e => ?_, fun e => ?_⟩
    · simp only [freshRegs, pv, Opr.reg.injEq] at e
      omega
    · simp only [freshRegs, pv] at e
      cases hg : φ.params[k]? with
      | none => rw [hg] at e; simp at e; omega
      | some o =>
        rw [hg] at e
        simp only [Option.getD_some] at e
        have := h2 (T' + 0) (by rw [e]; exact List.mem_of_getElem? hg)
        omega

theorem movable_independent {T n : Nat} {phis : List (Phi V)} (hd : (phis.map (·.dst)).Nodup)
    (hi : ∀ φ ∈ phis, ∀ ψ ∈ phis, .reg φ.dst ∈ ψ.params → ψ = φ) : Movable T n phis := by
  intro ps hps k _ T' hT
  refine PhiMoves.faithful_independent _ _ ?_ ?_
  · rw [List.map_map]
    have : ((fun x : PhiMoves.Phi (Opr V) => x.dst) ∘ pv k) = (fun d => Opr.reg d) ∘ (fun φ : Phi V => φ.dst) := rfl
    rw [this, ← List.map_map]
    refine List.Nodup.map ?_ ((hps.map _).nodup_iff.2 hd)
    intro a b hab
    cases hab; rfl
  · intro p hp q hq e
    obtain ⟨φ, hφ, rfl⟩ := List.mem_map.1 hp
    obtain ⟨ψ, hψ, rfl⟩ := List.mem_map.1 hq
    simp only [pv] at e
    cases hg : ψ.params[k]? with
    | none =>
      rw [hg] at e
      simp at e
      have := List.inj_on_of_nodup_map hd (hps.mem_iff.1 hψ) (hps.mem_iff.1 hφ) e
      rw [this]
    | some o =>
      rw [hg] at e
      simp only [Option.getD_some] at e
      rw [hi φ (hps.mem_iff.1 hφ) ψ (hps.mem_iff.1 hψ) (by rw [← e]; exact List.mem_of_getElem? hg)]

end

/-- The conditions of the compiler can be inverted when no operands are unordered: integers, pointers.  `cmp k x y` is the
comparison that the marks (unsigned, floating-point) of the condition `k` ask for. -/
theorem flips_integers (M : Machine Nat V S) (cmp : Nat → V → V → Cond.Cmp)
    (hM : ∀ k x y, M.test k x y = Cond.holds k (cmp (k / 8) x y)) (ho : ∀ k x y, k / 2 % 2 = 0 → cmp k x y ≠ .unordered) :
    Flips M Cond.invertCond (fun k => 2 ≤ k % 8 ∧ k / 8 / 2 % 2 = 0) := by
  rintro k ⟨h1, h2⟩
  obtain ⟨k', h3, h4, h5⟩ := Cond.invert_correct k h1
  refine ⟨k', h3, ⟨?_, by rw [h4]; exact h2⟩, fun x y => ?_⟩
  · have := Cond.invert_involutive k k' h3
    unfold Cond.invertCond at this
    dsimp only at this
    split at this
    · rename_i h6; exact h6.1
    · cases this
  · rw [hM, hM, h4]
    exact h5 _ (ho _ _ _ h2)

/-! ### Examples -/

/-- Instructions 0: copy; 1: add; 2: output.  Conditions as in the compiler. -/
def demo : Machine Nat Nat (List Nat) :=
  { exec := fun k a b s =>
      match k, a, b with
      | 0, some x, _ => .ok (x, s)
      | 1, some x, some y => .ok (x + y, s)
      | 2, some x, _ => .ok (0, s ++ [x])
      | _, _, _ => .undef
    test := fun k x y => Cond.holds k (Cond.cmpInt x y)
    index := id
    get := fun _ _ => 0
    set := fun s _ _ => s }

/-- `a = 0; b = 1; i = 0; do { t = a; a = b; b = t; i = i + 1; } while (i < n); output(a); output(b);`  The jump back is
conditional, so a block is inserted for it, and the phi functions exchange two registers. -/
def swapLoop : List (Block Nat Nat) :=
  [⟨[], [], .next⟩,
   ⟨[⟨1, [.const 0, .reg 2]⟩, ⟨2, [.const 1, .reg 1]⟩, ⟨3, [.const 0, .reg 4]⟩],
    [⟨1, some 4, some (.reg 3), some (.const 1)⟩], .cjmp 4 (.reg 4) (.reg 0) 1⟩,
   ⟨[], [⟨2, none, some (.reg 2), none⟩, ⟨2, none, some (.reg 1), none⟩], .next⟩]

theorem swapLoop_frm : Edges.fromBbs swapLoop = fun b => if b = 1 then [0, 1] else if b = 2 then [1] else [] := by
  funext b
  simp [Edges.fromBbs, swapLoop, Edges.detect, Edges.succ, Edges.succs, Edges.addEdges, List.range, List.range.loop, List.erase]
  by_cases h1 : b = 1
  · subst h1; simp
  · by_cases h2 : b = 2
    · subst h2; simp
    · simp [h1, h2]

/-- Non-vacuity of `resolvePhis_partial`: the loop meets its hypotheses. -/
theorem swapLoop_input : Input (fun _ => false) (fun k => 2 ≤ k % 8 ∧ k / 8 / 2 % 2 = 0) (fun b => b == 1) 5
    ⟨swapLoop, Edges.fromBbs swapLoop⟩ := by
  have hw : Edges.WellFormed swapLoop := by
    intro b c
    have : b = 0 ∨ b = 1 ∨ b = 2 ∨ 3 ≤ b := by omega
    rcases this with h | h | h | h
    · subst h; simp [Edges.succ, Edges.succs, swapLoop]; omega
    · subst h; simp [Edges.succ, Edges.succs, swapLoop]; omega
    · subst h; simp [Edges.succ, Edges.succs, swapLoop]
    · have : swapLoop[b]? = none := List.getElem?_eq_none (by simpa [swapLoop] using h)
      simp [Edges.succ, this]
  have hcase : ∀ (Q : Nat → Block Nat Nat → Prop), Q 0 swapLoop[0] → Q 1 swapLoop[1] → Q 2 swapLoop[2] →
      ∀ b B, swapLoop[b]? = some B → Q b B := by
    intro Q h0 h1 h2 b B hB
    obtain ⟨hb, rfl⟩ := List.getElem?_eq_some_iff.1 hB
    have hb' : b < 3 := hb
    have : b = 0 ∨ b = 1 ∨ b = 2 := by omega
    rcases this with rfl | rfl | rfl <;> assumption
  refine ⟨hw, by simp [swapLoop], Edges.fromBbs_exact hw (by simp [swapLoop]), ?_, ?_, ?_, ?_, ?_, ?_, ?_, ?_, ?_, ?_, ?_⟩
  all_goals try simp only [swapLoop_frm]
  · rfl
  · intro b hb; have : b = 1 := by simpa using hb
    subst this; simp
  · exact hcase _ (by simp [swapLoop]) (by simp) (by simp [swapLoop])
  · exact hcase _ (by simp [swapLoop]) (by simp [swapLoop]) (by simp [swapLoop])
  · exact hcase _ (by simp [swapLoop]) (by simp [swapLoop]) (by simp [swapLoop])
  · intros; trivial
  · intro b B r hB
    revert r
    refine hcase (fun b B => ∀ r, RegIn r B → r < 5) ?_ ?_ ?_ b B hB <;>
      · intro r
        simp [RegIn, swapLoop, lastOprs]
        try omega
  · intros; trivial
  · intro b B k o1 o2 d hB
    refine hcase (fun b B => B.last = .cjmp k o1 o2 d → (2 ≤ k % 8 ∧ k / 8 / 2 % 2 = 0) ∧ b + 1 < swapLoop.length ∧ d ≠ b + 1) ?_ ?_ ?_ b B hB
    · simp [swapLoop]
    · simp only [swapLoop]
      intro h
      simp at h
      obtain ⟨rfl, -, -, rfl⟩ := h
      decide
    · simp [swapLoop]
  · intro b B o bs hB
    refine hcase (fun b B => B.last = .tjmp o bs → b + 1 < swapLoop.length ∧ bs ≠ []) ?_ ?_ ?_ b B hB <;> simp [swapLoop]
  · refine hcase _ (movable_nil _ _) (movable_three (by simp [swapLoop]) (by simp [swapLoop]) ?_) (movable_nil _ _)
    simp [swapLoop]

example : ∃ G N, (∀ fuel, N < fuel → resolvePhis Cond.invertCond 0 (fun b => b == 1) fuel ⟨swapLoop, Edges.fromBbs swapLoop⟩ 5 = some G) ∧
    (∀ b, (G.code b).phis = []) ∧ G.order.Nodup ∧ G.order.head? = some 0 ∧
    ∀ n ρ s, run demo (fun _ => false) ⟨swapLoop, Edges.fromBbs swapLoop⟩ n (.run 0 none ρ s) ≠ .undef →
      ∃ m, n ≤ m ∧ eff (iter (lstep demo (fun _ => false) G (fun _ => 0)) m (.run 0 none ρ s)) =
        effAt 3 (run demo (fun _ => false) ⟨swapLoop, Edges.fromBbs swapLoop⟩ n (.run 0 none ρ s)) := by
  refine resolvePhis_partial (mov := 0) swapLoop_input ?_ (fun _ _ => rfl)
  exact flips_integers demo (fun _ x y => Cond.cmpInt x y) (fun _ _ _ => rfl) (fun _ x y _ => by
    unfold Cond.cmpInt
    split
    · simp
    · split <;> simp)

/-- The blocks after the pass. -/
def listing {V : Type} (F : Fun Nat V) : List (Nat × Block Nat V) := F.order.map fun b => (b, F.code b)

/-- The loop after the pass: block 3 is inserted, the condition is inverted, the exchange goes through register 5. -/
example : (resolvePhis Cond.invertCond 0 (fun b => b == 1) 10
    ⟨swapLoop, fun b => if b = 1 then [0, 1] else if b = 2 then [1] else []⟩ 5).map listing = some
  [(0, ⟨[], [⟨0, some 1, some (.const 0), none⟩, ⟨0, some 2, some (.const 1), none⟩, ⟨0, some 3, some (.const 0), none⟩], .next⟩),
   (1, ⟨[], [⟨1, some 4, some (.reg 3), some (.const 1)⟩], .cjmp 6 (.reg 4) (.reg 0) 2⟩),
   (3, ⟨[], [⟨0, some 3, some (.reg 4), none⟩, ⟨0, some 5, some (.reg 1), none⟩, ⟨0, some 1, some (.reg 2), none⟩,
     ⟨0, some 2, some (.reg 5), none⟩], .jmp 1⟩),
   (2, ⟨[], [⟨2, none, some (.reg 2), none⟩, ⟨2, none, some (.reg 1), none⟩], .next⟩)] := by
  decide +kernel

/-! ### What is wrong -/

/-- `i = n; do { r = i; i = i + 1; } while (0); output(r);` when copy propagation has found out that the jump back is
never made: the jump is removed (optimize.c:294-311, 607-613), but the edge stays in `from_bbs` of the block and in its phi function. -/
def staleLoop : List (Block Nat Nat) :=
  [⟨[], [], .next⟩,
   ⟨[⟨2, [.reg 0, .reg 1]⟩], [⟨1, some 1, some (.reg 2), some (.const 1)⟩], .next⟩,
   ⟨[], [], .next⟩,
   ⟨[], [⟨2, none, some (.reg 2), none⟩], .next⟩]

/-- The code as it is: with edges that are not there any more the result is wrong.  The move for the lost edge is put at
the end of the block that is still thought to be a predecessor. -/
theorem stale_edges_wrong : ∃ frm : Nat → List Nat,
    effAt 4 (run demo (fun _ => false) ⟨staleLoop, frm⟩ 5 (.run 0 none (fun _ => 7) [])) = .done [7] ∧
    ((resolvePhis Cond.invertCond 0 (fun b => b == 1) 10 ⟨staleLoop, frm⟩ 3).map fun G =>
      eff (iter (lstep demo (fun _ => false) G (fun _ => 0)) 4 (.run 0 none (fun _ => 7) []))) = some (.done [8]) :=
  ⟨fun b => if b = 1 then [0, 2] else if b = 2 then [1] else if b = 3 then [2] else [], by decide +kernel, by decide +kernel⟩

/-- As `demo`, with floating-point numbers; `none` is a NaN. -/
def demoFloat : Machine Nat (Option Nat) (List (Option Nat)) :=
  { exec := fun k a b s =>
      match k, a, b with
      | 0, some x, _ => .ok (x, s)
      | 2, some x, _ => .ok (none, s ++ [x])
      | _, _, _ => .undef
    test := fun k x y =>
      Cond.holds k (match x, y with
        | some x, some y => Cond.cmpInt x y
        | _, _ => .unordered)
    index := fun _ => 0
    get := fun _ _ => none
    set := fun s _ _ => s }

/-- `r = 5; if (!(x < y)) { output(1); r = 6; } output(r);`; condition 20 is the floating-point `<`. -/
def lessFloat : List (Block Nat (Option Nat)) :=
  [⟨[], [], .cjmp 20 (.reg 0) (.reg 1) 2⟩,
   ⟨[], [⟨2, none, some (.const (some 1)), none⟩], .next⟩,
   ⟨[⟨2, [.const (some 5), .const (some 6)]⟩], [⟨2, none, some (.reg 2), none⟩], .next⟩]

/-- The code as it is: the jump to a block that is also reached from the block before it is inverted, which is wrong if
an operand is a NaN (ssa.c:227; `optimize.c:79` does look at COND_FLONUM). -/
theorem nan_wrong :
    effAt 3 (run demoFloat (fun _ => false) ⟨lessFloat, Edges.fromBbs lessFloat⟩ 4 (.run 0 none (fun _ => none) [])) =
      .done [some 1, some 6] ∧
    ((resolvePhis Cond.invertCond 0 (fun b => b == 2) 10 ⟨lessFloat, Edges.fromBbs lessFloat⟩ 3).map fun G =>
      eff (iter (lstep demoFloat (fun _ => false) G (fun _ => 0)) 4 (.run 0 none (fun _ => none) []))) =
      some (.done [some 5]) := by
  have : Edges.fromBbs lessFloat = fun b => if b = 1 then [0] else if b = 2 then [0, 1] else [] := by
    funext b
    simp [Edges.fromBbs, lessFloat, Edges.detect, Edges.succ, Edges.succs, Edges.addEdges, List.range, List.range.loop, List.erase]
    by_cases h1 : b = 1
    · subst h1; simp
    · by_cases h2 : b = 2
      · subst h2; simp
      · simp [h1, h2]
  rw [this]
  exact ⟨by decide +kernel, by decide +kernel⟩

/-- A conditional jump to the next block is not covered by `resolvePhis_partial`; here it is split right, in two steps. -/
example : ((resolvePhis Cond.invertCond 0 (fun b => b == 1) 10
    ⟨[⟨[], [], .cjmp 4 (.reg 0) (.const 5) 1⟩, ⟨[⟨1, [.reg 0, .reg 0]⟩], [⟨2, none, some (.reg 1), none⟩], .next⟩],
      fun b => if b = 1 then [0, 0] else []⟩ 2).map fun G =>
    [eff (iter (lstep demo (fun _ => false) G (fun _ => 0)) 4 (.run 0 none (fun _ => 3) [])),
     eff (iter (lstep demo (fun _ => false) G (fun _ => 0)) 4 (.run 0 none (fun _ => 7) []))]) =
    some [.done [3], .done [7]] := by decide +kernel

end Verif.ResolvePhis

import Verif.Wasm.Func
/-!
# Functions compiled to WebAssembly: proof of C74
-/
namespace Verif.WasmGen
open Verif.Util Verif.CExpr Verif.Wasm Verif.WasmAlloc
open Verif.Fold hiding Op Res

theorem mem_all {v : Vars} {d : Decl} : d ∈ all v ↔ d ∈ v.top ++ v.rest ∨ hasBp v = true ∧ d = bpDecl := by
  unfold all
  by_cases h : hasBp v = true
  · simp only [h, if_true, List.mem_append, List.mem_singleton, true_and]
    constructor
    · rintro ((h | h) | h)
      · exact .inl (.inl h)
      · exact .inr h
      · exact .inl (.inr h)
    · rintro ((h | h) | h)
      · exact .inl (.inl h)
      · exact .inr h
      · exact .inl (.inr h)
  · simp [h]

theorem alloc_fst (v : Vars) : (alloc v).map (·.1) = all v := pass2_fst _ _ _

theorem alloc_mem {v : Vars} {q : Decl × Place} (h : q ∈ alloc v) : q.1 ∈ all v := by
  rw [← alloc_fst]; exact List.mem_map_of_mem h

theorem mem_alloc {v : Vars} {d : Decl} (h : d ∈ all v) : ∃ q ∈ alloc v, q.1 = d := by
  rw [← alloc_fst] at h; simpa using h

theorem ids_all {F : Func} (hF : FuncOk F) : (all F.v).Pairwise fun d e => d.id ≠ e.id := by
  have h := hF.ids
  rw [List.pairwise_append] at h
  unfold all
  by_cases hb : hasBp F.v = true
  · rw [if_pos hb, List.pairwise_append, List.pairwise_append]
    refine ⟨⟨h.1, List.pairwise_singleton _ _, ?_⟩, h.2.1, ?_⟩
    · intro a ha b hb'
      rw [List.mem_singleton.1 hb']
      exact hF.some a (List.mem_append_left _ ha)
    · intro a ha b hb'
      rcases List.mem_append.1 ha with ha | ha
      · exact h.2.2 a ha b hb'
      · rw [List.mem_singleton.1 ha]
        exact fun q => hF.some b (List.mem_append_right _ hb') q.symm
  · rw [if_neg hb, List.append_nil]
    exact hF.ids

theorem find_self {α β : Type} [DecidableEq β] (f : α → β) : ∀ (l : List α), l.Pairwise (fun a b => f a ≠ f b) → ∀ a ∈ l,
    l.find? (fun b => f b = f a) = some a
  | [], _, a, h => by simp at h
  | b :: l, hp, a, h => by
    rw [List.pairwise_cons] at hp
    rcases List.mem_cons.1 h with rfl | h
    · simp
    · rw [List.find?_cons_of_neg (by simpa using hp.1 a h)]
      exact find_self f l hp.2 a h

theorem ids_alloc {F : Func} (hF : FuncOk F) : (alloc F.v).Pairwise fun q r => q.1.id ≠ r.1.id := by
  have h := ids_all hF
  rw [← alloc_fst, List.pairwise_map] at h
  exact h

theorem placeOf_mem {F : Func} (hF : FuncOk F) {q : Decl × Place} (h : q ∈ alloc F.v) : placeOf F.v q.1.id = some q.2 := by
  unfold placeOf
  have := find_self (fun q : Decl × Place => q.1.id) _ (ids_alloc hF) q h
  rw [this]; rfl

theorem placeOf_some {v : Vars} {x : Option Nat} {p : Place} (h : placeOf v x = some p) : ∃ q ∈ alloc v, q.1.id = x ∧ q.2 = p := by
  unfold placeOf at h
  simp only [Option.map_eq_some_iff] at h
  obtain ⟨q, hq, e⟩ := h
  exact ⟨q, List.mem_of_find?_eq_some hq, by simpa using List.find?_some hq, e⟩

/-- Which place a variable of the allocation has. -/
theorem alloc_place {v : Vars} {q : Decl × Place} (h : q ∈ alloc v) : ∃ p, q.2 = q.1.place (frameSize v) p := by
  have key : ∀ (ds : List Decl) (p : Pass), q ∈ pass2 (frameSize v) p ds → ∃ p, q.2 = q.1.place (frameSize v) p := by
    intro ds
    induction ds with
    | nil => intro p h; simp [pass2] at h
    | cons d ds ih =>
      intro p h
      simp only [pass2, List.mem_cons] at h
      rcases h with rfl | h
      · exact ⟨_, rfl⟩
      · exact ih _ h
  exact key _ _ h

theorem place_reg {v : Vars} {q : Decl × Place} (h : q ∈ alloc v) (ha : q.1.agg = false) (hr : q.1.refTaken = false) : ∃ i, q.2 = .reg i := by
  obtain ⟨p, e⟩ := alloc_place h
  rw [e]
  simp only [Decl.place, Decl.inFrame2, ha, hr]
  cases q.1.par <;> simp

theorem place_mem {v : Vars} {q : Decl × Place} (h : q ∈ alloc v) (ha : q.1.agg = false) (hr : q.1.refTaken = true) : ∃ o, q.2 = .frame o := by
  obtain ⟨p, e⟩ := alloc_place h
  rw [e]
  simp only [Decl.place, Decl.inFrame2, ha, hr]
  simp

theorem place_sparam {v : Vars} {q : Decl × Place} (h : q ∈ alloc v) {o : Nat} (e : q.2 = .sparam o) : q.1.agg = true ∧ q.1.par ≠ none := by
  obtain ⟨p, e'⟩ := alloc_place h
  rw [e'] at e
  simp only [Decl.place, Decl.inFrame2] at e
  cases ha : q.1.agg <;> cases hp : q.1.par <;> simp [ha, hp] at e ⊢
  all_goals (split at e <;> simp at e)

theorem noSparam {F : Func} (hF : FuncOk F) {q : Decl × Place} (h : q ∈ alloc F.v) {o : Nat} : q.2 ≠ .sparam o := by
  intro e
  obtain ⟨h1, h2⟩ := place_sparam h e
  rcases mem_all.1 (alloc_mem h) with hm | ⟨-, hm⟩
  · rw [hF.prim _ hm h2] at h1; cases h1
  · rw [hm] at h1; cases h1

theorem reg_lt {F : Func} (hF : FuncOk F) {q : Decl × Place} (h : q ∈ alloc F.v) {i : Nat} (e : q.2 = .reg i) : i < base F.v 4 := by
  have hr := alloc_range F.v q h i e
  have hw := hF.wf.wt _ (alloc_mem h)
  have h4 := base_mono F.v (show q.1.wt + 1 ≤ 4 by omega)
  have h0 := base_mono F.v (show 0 ≤ 4 by omega)
  have hb : base F.v 0 = (if F.v.retParam then 1 else 0) + (if F.v.variadic then 1 else 0) + pparams (F.v.top ++ F.v.rest) := rfl
  by_cases hp : q.1.par = none
  · have := hr.1 hp; omega
  · have := hr.2 hp; omega

theorem pair_of {α : Type} {R : α → α → Prop} : ∀ {l : List α}, l.Pairwise R → ∀ {a b : α}, a ∈ l → b ∈ l → a ≠ b → R a b ∨ R b a
  | [], _, a, _, h, _, _ => by simp at h
  | c :: l, hp, a, b, ha, hb, hne => by
    rw [List.pairwise_cons] at hp
    rcases List.mem_cons.1 ha with e | ha' <;> rcases List.mem_cons.1 hb with e' | hb'
    · exact absurd (e.trans e'.symm) hne
    · exact .inl (e ▸ hp.1 b hb')
    · exact .inr (e' ▸ hp.1 a ha')
    · exact pair_of hp.2 ha' hb' hne

theorem same_reg {F : Func} {q r : Decl × Place} (h : q ∈ alloc F.v) (h' : r ∈ alloc F.v) {i : Nat} (e : q.2 = .reg i)
    (e' : r.2 = .reg i) : q = r := by
  by_contra hne
  rcases pair_of (locals_distinct F.v).1 h h' hne with f | f
  · exact f i e e'
  · exact f i e' e

theorem fnOf_loc {F : Func} (hF : FuncOk F) {q : Decl × Place} (h : q ∈ alloc F.v) {x : Nat} (hx : q.1.id = some x) :
    (fnOf F).loc x = match q.2 with | .frame o => .frame o | .sparam o => .frame o | .reg _ => .reg := by
  have hd : F.data x = none := by
    rcases mem_all.1 (alloc_mem h) with hm | ⟨-, hm⟩
    · exact hF.locals _ hm x hx
    · rw [hm] at hx; cases hx
  have hp := placeOf_mem hF h
  rw [hx] at hp
  simp only [fnOf, hd, hp]
  cases q.2 <;> rfl

theorem fn_ok {F : Func} (hF : FuncOk F) {c : Ctx} (hc : c.Γ = fnOf F) (hb : c.bp < 2 ^ 32) : FnOk c := by
  have key : ∀ x i, placeOf F.v (some x) = some (.reg i) → i < base F.v 4 := by
    intro x i h
    obtain ⟨q, hq, -, e⟩ := placeOf_some h
    exact reg_lt hF hq e
  refine ⟨?_, ?_, ?_, ?_, ?_, hb⟩
  · intro x y _ _ e
    rw [hc] at e
    simp only [fnOf] at e
    cases hx : placeOf F.v (some x) with
    | none =>
      rw [hx] at e
      cases hy : placeOf F.v (some y) with
      | none => rw [hy] at e; dsimp only at e; omega
      | some p =>
        rw [hy] at e
        cases p with
        | reg j => have := key y j hy; dsimp only at e; omega
        | frame o => dsimp only at e; omega
        | sparam o => dsimp only at e; omega
    | some p =>
      rw [hx] at e
      cases p with
      | reg i =>
        have h1 := key x i hx
        cases hy : placeOf F.v (some y) with
        | none => rw [hy] at e; dsimp only at e; omega
        | some p =>
          rw [hy] at e
          cases p with
          | reg j =>
            dsimp only at e
            subst e
            obtain ⟨q, hq, q1, q2⟩ := placeOf_some hx
            obtain ⟨r, hr, r1, r2⟩ := placeOf_some hy
            have := same_reg hq hr q2 r2
            subst this
            rw [q1] at r1
            exact Option.some.inj r1
          | frame o => dsimp only at e; omega
          | sparam o => dsimp only at e; omega
      | frame o =>
        cases hy : placeOf F.v (some y) with
        | none => rw [hy] at e; dsimp only at e; omega
        | some p =>
          rw [hy] at e
          cases p with
          | reg j => have := key y j hy; dsimp only at e; omega
          | frame o => dsimp only at e; omega
          | sparam o => dsimp only at e; omega
      | sparam o =>
        cases hy : placeOf F.v (some y) with
        | none => rw [hy] at e; dsimp only at e; omega
        | some p =>
          rw [hy] at e
          cases p with
          | reg j => have := key y j hy; dsimp only at e; omega
          | frame o => dsimp only at e; omega
          | sparam o => dsimp only at e; omega
  · intro x _ e
    rw [hc] at e
    simp only [fnOf] at e
    cases hx : placeOf F.v none with
    | none =>
      rw [hx] at e
      cases hy : placeOf F.v (some x) with
      | none => rw [hy] at e; dsimp only at e; omega
      | some p =>
        rw [hy] at e
        cases p with
        | reg j => have := key x j hy; dsimp only at e; omega
        | frame o => dsimp only at e; omega
        | sparam o => dsimp only at e; omega
    | some p =>
      rw [hx] at e
      obtain ⟨q, hq, q1, q2⟩ := placeOf_some hx
      cases p with
      | reg i =>
        have h1 := reg_lt hF hq q2
        cases hy : placeOf F.v (some x) with
        | none => rw [hy] at e; dsimp only at e; omega
        | some p =>
          rw [hy] at e
          cases p with
          | reg j =>
            dsimp only at e
            subst e
            obtain ⟨r, hr, r1, r2⟩ := placeOf_some hy
            have := same_reg hq hr q2 r2
            subst this
            rw [q1] at r1
            cases r1
          | frame o => dsimp only at e; omega
          | sparam o => dsimp only at e; omega
      | frame o =>
        cases hy : placeOf F.v (some x) with
        | none => rw [hy] at e; dsimp only at e; omega
        | some p =>
          rw [hy] at e
          cases p with
          | reg j => have := key x j hy; dsimp only at e; omega
          | frame o => dsimp only at e; omega
          | sparam o => dsimp only at e; omega
      | sparam o => exact noSparam hF hq q2
  · intro x hx
    rw [hc] at hx ⊢
    have hx : F.n0 ≤ x := hx
    have hd := hF.tmps' x hx
    cases hp : placeOf F.v (some x) with
    | none => simp only [fnOf, hd, hp]
    | some p =>
      obtain ⟨q, hq, q1, q2⟩ := placeOf_some hp
      rcases mem_all.1 (alloc_mem hq) with hm | ⟨-, hm⟩
      · obtain ⟨h1, h2⟩ := hF.tmps _ hm x q1 hx
        obtain ⟨i, e⟩ := place_reg hq h1 h2
        rw [← q2, e] at hp
        simp only [fnOf, hd, hp]
      · rw [hm] at q1; cases q1
  · intro x o h
    rw [hc] at h
    have hs := hF.small
    simp only [fnOf] at h
    split at h
    · cases h
    · split at h
      · rename_i hd o' hp
        cases h
        obtain ⟨q, hq, -, e⟩ := placeOf_some hp
        have := (frame_disjoint F.v hF.wf).1 q hq o (by simp only [Covers, e]; have := room_pos q.1; omega)
        omega
      · rename_i hd o' hp
        obtain ⟨q, hq, -, e⟩ := placeOf_some hp
        exact absurd e (noSparam hF hq)
      · cases h
  · intro x a h
    rw [hc] at h
    simp only [fnOf] at h
    split at h
    · rename_i a' hd
      cases h
      exact hF.addr x a hd
    · split at h <;> cases h

/-! ## Writing parameters to memory -/

theorem wrB_above (k : Nat) : ∀ (mem : Nat → Nat) (a v x : Nat), a + k ≤ x → wrB mem a k v x = mem x := by
  induction k with
  | zero => intro mem a v x _; rfl
  | succ k ih =>
    intro mem a v x h
    simp only [wrB]
    rw [ih _ _ _ _ (by omega)]
    exact if_neg (by omega)

theorem rdB_congr (k : Nat) : ∀ (m m' : Nat → Nat) (a : Nat), (∀ x, a ≤ x → x < a + k → m x = m' x) → rdB m a k = rdB m' a k := by
  induction k with
  | zero => intro m m' a _; rfl
  | succ k ih =>
    intro m m' a h
    simp only [rdB]
    rw [h a (le_refl _) (by omega), ih m m' (a + 1) (fun x h1 h2 => h x (by omega) (by omega))]

/-- Writes one after the other: address, size, value. -/
def writes : List (Nat × Nat × Nat) → (Nat → Nat) → (Nat → Nat)
  | [], m => m
  | w :: l, m => writes l (wrB m w.1 w.2.1 w.2.2)

theorem writes_other : ∀ (l : List (Nat × Nat × Nat)) (m : Nat → Nat) (x : Nat), (∀ w ∈ l, x < w.1 ∨ w.1 + w.2.1 ≤ x) → writes l m x = m x
  | [], _, _, _ => rfl
  | w :: l, m, x, h => by
    simp only [writes]
    rw [writes_other l _ x (fun w' hw => h w' (List.mem_cons_of_mem _ hw))]
    rcases h w List.mem_cons_self with q | q
    · exact wrB_other _ _ _ _ _ q
    · exact wrB_above _ _ _ _ _ q

def Apart (w w' : Nat × Nat × Nat) : Prop := w.1 + w.2.1 ≤ w'.1 ∨ w'.1 + w'.2.1 ≤ w.1

theorem writes_read : ∀ (l : List (Nat × Nat × Nat)) (m : Nat → Nat), l.Pairwise Apart → ∀ w ∈ l,
    ∃ m', rdB (writes l m) w.1 w.2.1 = rdB (wrB m' w.1 w.2.1 w.2.2) w.1 w.2.1
  | [], _, _, _, h => by simp at h
  | u :: l, m, hp, w, h => by
    rw [List.pairwise_cons] at hp
    simp only [writes]
    rcases List.mem_cons.1 h with rfl | h
    · refine ⟨m, rdB_congr _ _ _ _ fun x h1 h2 => writes_other l _ x fun w' hw => ?_⟩
      have := hp.1 w' hw
      unfold Apart at this
      omega
    · exact writes_read l _ hp.2 w h

/-! ## Parameters in locals -/

theorem par_local {fs : Nat} : ∀ (ds : List Decl) (p : Pass) (n : Nat), (∀ d ∈ ds, d.par ≠ none → d.agg = false) →
    (ds.filter (fun d => d.par.isSome)).map (·.par) = (List.range' p.pno n).map some →
    ∀ q ∈ pass2 fs p ds, ∀ k i, q.1.par = some k → q.2 = .reg i → i = k
  | [], _, _, _, _, q, hq, _, _, _, _ => by simp [pass2] at hq
  | d :: ds, p, n, ha, ho, q, hq, k, i, hk, hi => by
    have ha' : ∀ d ∈ ds, d.par ≠ none → d.agg = false := fun x hx => ha x (List.mem_cons_of_mem _ hx)
    have hn := next_pno p d
    simp only [pass2, List.mem_cons] at hq
    cases hd : d.par with
    | none =>
      rw [hd] at hn
      simp only [Option.isSome_none, Bool.false_and, Bool.false_eq_true, if_false] at hn
      rw [List.filter_cons_of_neg (by simp [hd])] at ho
      rw [← hn] at ho
      rcases hq with rfl | hq
      · rw [hd] at hk; cases hk
      · exact par_local ds (d.next p) n ha' ho q hq k i hk hi
    | some j =>
      have hag := ha d List.mem_cons_self (by simp [hd])
      rw [hd, hag] at hn
      simp only [Option.isSome_some, Bool.not_false, Bool.and_self, if_true] at hn
      rw [List.filter_cons_of_pos (by simp [hd]), List.map_cons] at ho
      cases n with
      | zero => simp at ho
      | succ n =>
        rw [List.range'_succ, List.map_cons] at ho
        simp only [List.cons.injEq] at ho
        rcases hq with rfl | hq
        · have hj := ho.1
          rw [hk] at hj
          unfold Decl.place at hi
          split at hi
          · cases hi
          · simp only [hag, Bool.not_false, if_true, hd] at hi
            cases hi
            exact (Option.some.inj hj).symm
        · exact par_local ds (d.next p) n ha' (by rw [hn]; exact ho.2) q hq k i hk hi

theorem filter_all (v : Vars) : (all v).filter (fun d => d.par.isSome) = (v.top ++ v.rest).filter (fun d => d.par.isSome) := by
  unfold all
  by_cases h : hasBp v = true
  · simp only [h, if_true, List.filter_append]
    simp [bpDecl]
  · simp [h]

theorem par_reg {F : Func} (hF : FuncOk F) {q : Decl × Place} (h : q ∈ alloc F.v) {k i : Nat} (hk : q.1.par = some k) (hi : q.2 = .reg i) :
    i = k := by
  refine par_local (fs := frameSize F.v) (all F.v) (start F.v) (pparams (F.v.top ++ F.v.rest)) ?_ ?_ q h k i hk hi
  · intro d hd hp
    rcases mem_all.1 hd with hm | ⟨-, hm⟩
    · exact hF.prim d hm hp
    · rw [hm]; rfl
  · rw [filter_all, hF.order, List.range_eq_range']
    simp [start, hF.plain.1]

theorem par_lt {F : Func} (hF : FuncOk F) {d : Decl} (h : d ∈ F.v.top ++ F.v.rest) {k : Nat} (hk : d.par = some k) :
    k < pparams (F.v.top ++ F.v.rest) := by
  have hm : d.par ∈ ((F.v.top ++ F.v.rest).filter (fun d => d.par.isSome)).map (·.par) :=
    List.mem_map_of_mem (List.mem_filter.2 ⟨h, by simp [hk]⟩)
  rw [hF.order, hk] at hm
  simpa using hm

theorem base0 {F : Func} (hF : FuncOk F) : base F.v 0 = pparams (F.v.top ++ F.v.rest) := by
  simp [base, hF.plain.1, hF.plain.2]

/-- The base pointer's local comes behind the parameters. -/
theorem bp_ge {F : Func} (hF : FuncOk F) : pparams (F.v.top ++ F.v.rest) ≤ (fnOf F).bpx := by
  simp only [fnOf]
  have h0 := base0 hF
  have hm := base_mono F.v (Nat.zero_le 4)
  cases hp : placeOf F.v none with
  | none => dsimp only; omega
  | some p =>
    cases p with
    | reg i =>
      obtain ⟨q, hq, q1, q2⟩ := placeOf_some hp
      dsimp only
      rcases mem_all.1 (alloc_mem hq) with h | ⟨-, h⟩
      · exact absurd q1 (hF.some _ h)
      · have := (alloc_range F.v q hq i q2).1 (by rw [h]; rfl)
        have hm' := base_mono F.v (Nat.zero_le q.1.wt)
        omega
    | frame o => dsimp only; omega
    | sparam o => dsimp only; omega

/-! ## The beginning of a call -/

/-- The parameter a variable is. -/
def parOf (F : Func) (x : Nat) : Option Nat := ((all F.v).find? fun d => d.id = some x).bind (·.par)

theorem parOf_mem {F : Func} (hF : FuncOk F) {d : Decl} (h : d ∈ all F.v) {x : Nat} (hx : d.id = some x) : parOf F x = d.par := by
  unfold parOf
  have := find_self (fun d : Decl => d.id) _ (ids_all hF) d h
  rw [hx] at this
  rw [this]
  rfl

/-- What is stored for a parameter. -/
def storeOf (F : Func) (bp : Nat) (vals : List Int) (q : Decl × Place) : Option (Nat × Nat × Nat) :=
  match q.1.id, q.1.par, q.2 with
  | some x, some k, .frame o =>
    if q.1.refTaken && !q.1.agg then some (pat 32 (bp + o), (F.ty x).size, pat (8 * (F.ty x).size) (vals.getD k 0)) else none
  | _, _, _ => none

/-- The locals of the parameters hold their values. -/
def ParLoc (F : Func) (vals : List Int) (loc : Nat → V) : Prop :=
  ∀ d ∈ F.v.top ++ F.v.rest, ∀ x k, d.id = some x → d.par = some k → loc k = rep (F.ty x) (vals.getD k 0)

theorem slot {F : Func} (hF : FuncOk F) {q : Decl × Place} (h : q ∈ alloc F.v) {o : Int} (e : q.2 = .frame o) {bp : Nat} (h1 : frameSize F.v ≤ bp)
    (h2 : bp < 2 ^ 32) : ((pat 32 (bp + o) : Nat) : Int) = bp + o ∧ o + q.1.room ≤ 0 ∧ -(frameSize F.v : Int) ≤ o := by
  have hr := room_pos q.1
  have a := (frame_disjoint F.v hF.wf).1 q h o (by simp only [Covers, e]; omega)
  have b := (frame_disjoint F.v hF.wf).1 q h (o + q.1.room - 1) (by simp only [Covers, e]; omega)
  refine ⟨?_, by omega, a.1⟩
  rw [pat_cast]
  exact Int.emod_eq_of_lt (by omega) (by norm_num at h2 ⊢; omega)

theorem stores_ok {F : Func} (hF : FuncOk F) {c : Ctx} (hc : c.Γ = fnOf F) (hfs : frameSize F.v ≤ c.bp) (hbs : c.bp ≤ c.E.size) (hb : c.bp < 2 ^ 32) (vals : List Int) :
    ∀ l : List (Decl × Place), (∀ q ∈ l, q ∈ alloc F.v) → ∃ C, Frag (l.flatMap (storeParam F)) C ∧
      ∀ m ρ, ρ.loc c.Γ.bpx = ⟨.i32, c.bp⟩ → ParLoc F vals ρ.loc →
        exec c.E m C [] ρ = .ok [] { ρ with mem := writes (l.filterMap (storeOf F c.bp vals)) ρ.mem }
  | [], _ => ⟨.done, Frag.nil, fun m ρ _ _ => rfl⟩
  | q :: l, hl => by
    have hq := hl q List.mem_cons_self
    obtain ⟨D, fD, hD⟩ := stores_ok hF hc hfs hbs hb vals l (fun r hr => hl r (List.mem_cons_of_mem _ hr))
    have hc' := fn_ok hF hc hb
    -- nothing is stored
    have skip : storeParam F q = [] → storeOf F c.bp vals q = none → ∃ C, Frag ((q :: l).flatMap (storeParam F)) C ∧
      ∀ m ρ, ρ.loc c.Γ.bpx = ⟨.i32, c.bp⟩ → ParLoc F vals ρ.loc →
        exec c.E m C [] ρ = .ok [] { ρ with mem := writes ((q :: l).filterMap (storeOf F c.bp vals)) ρ.mem } := by
      intro e1 e2
      refine ⟨D, ?_, ?_⟩
      · rw [List.flatMap_cons, e1, List.nil_append]; exact fD
      · rw [List.filterMap_cons_none e2]; exact hD
    cases hx : q.1.id with
    | none => exact skip (by simp [storeParam, hx]) (by simp [storeOf, hx])
    | some x =>
      cases hk : q.1.par with
      | none => exact skip (by simp [storeParam, hx, hk]) (by simp [storeOf, hx, hk])
      | some k =>
        cases hp : q.2 with
        | reg i => exact skip (by simp [storeParam, hx, hk, hp]) (by simp [storeOf, hx, hk, hp])
        | sparam o => exact absurd hp (noSparam hF hq)
        | frame o =>
          by_cases hr : (q.1.refTaken && !q.1.agg) = true
          · have hm : q.1 ∈ F.v.top ++ F.v.rest := by
              rcases mem_all.1 (alloc_mem hq) with h | ⟨-, h⟩
              · exact h
              · rw [h] at hx; cases hx
            have hag : q.1.agg = false := hF.prim _ hm (by simp [hk])
            obtain ⟨ht, -, hsz⟩ := hF.types _ hm x hx hag
            have hlc : c.Γ.loc x = .frame o := by rw [hc, fnOf_loc hF hq hx, hp]
            obtain ⟨A, a, fA, pl, ha, hA⟩ := addr_ok hc' (x := x) (by rw [hlc]; simp)
            have ea : a = pat 32 (c.bp + o) := by
              simp only [place, hlc, Obj.addr.injEq] at pl
              exact pl.symm
            have es : storeParam F q = addrVar c.Γ x ++ ([.op (.lget k)] ++ genStore (F.ty x)) := by
              have hlc' : (fnOf F).loc x = .frame o := by rw [← hc]; exact hlc
              simp [storeParam, hx, hk, hp, hr, addrVar, hlc', hF.plain.1, hc]
            have eo : storeOf F c.bp vals q = some (a, (F.ty x).size, pat (8 * (F.ty x).size) (vals.getD k 0)) := by
              simp [storeOf, hx, hk, hp, hr, ea]
            have fS := fA.append ((frag_line (os := [.lget k]) (by simp [Op.wf])).append (genStore_frag ht))
            refine ⟨_, by rw [List.flatMap_cons, es]; exact fS.append fD, fun m ρ e1 e2 => ?_⟩
            rw [List.filterMap_cons_some eo, exec_app, exec_app, hA m [] ρ e1]
            simp only [Res.bind]
            rw [exec_app, exec_line]
            simp only [runL, Res.bind, step]
            rw [exec_line, e2 _ hm x k hx hk]
            obtain ⟨s1, s2, s3⟩ := slot hF hq hp hfs hb
            have hin : a + (F.ty x).size ≤ c.E.size := by
              have := size_le_room q.1
              rw [ea]
              omega
            rw [store_run c.E ht [] ρ hin]
            dsimp only
            exact hD m _ e1 e2
          · exact skip (by simp [storeParam, hx, hk, hp, hr]) (by simp [storeOf, hx, hk, hp, hr])

theorem szt_lit {n : Nat} (h : n < 2 ^ 31) : genLit .szt n = [.op (.const .i32 n)] := by
  have : toS 32 (n : Int) = n := by
    unfold toS
    simp only
    norm_num at h ⊢
    rw [Int.emod_eq_of_lt (by omega) (by omega)]
    split <;> omega
  have e4 : T.szt.size = 4 := rfl
  have ew : T.szt.w = .i32 := by decide
  simp only [genLit, e4, ew, le_refl, if_true, this]

/-- The state when the body begins. -/
def stateOf (F : Func) (bp : Nat) (vals : List Int) (mem : Nat → Nat) : State where
  env x := match parOf F x with | some k => vals.getD k 0 | none => 0
  mem := writes ((alloc F.v).filterMap (storeOf F bp vals)) mem

theorem bp_none {F : Func} (hF : FuncOk F) (h : hasBp F.v = false) : (fnOf F).bpx = base F.v 4 ∧ frameSize F.v = 0 := by
  constructor
  · simp only [fnOf]
    cases hp : placeOf F.v none with
    | none => rfl
    | some p =>
      obtain ⟨q, hq, q1, -⟩ := placeOf_some hp
      rcases mem_all.1 (alloc_mem hq) with hm | ⟨hm, -⟩
      · exact absurd q1 (hF.some _ hm)
      · rw [h] at hm; cases hm
  · simp only [frameSize, h]
    simp [hasBp] at h
    simp [h.1.1]

/-- Context of a call: the base pointer is the stack pointer, if there is one. -/
structure CallOk (F : Func) (c : Ctx) (ρ : St) (vals : List Int) (args : List V) : Prop where
  Γ : c.Γ = fnOf F
  sp : hasBp F.v = true → ρ.glb F.sp = ⟨.i32, c.bp⟩
  bp0 : hasBp F.v = false → c.bp = 0
  lo : frameSize F.v ≤ c.bp
  hi : c.bp ≤ c.E.size
  mem : c.E.size ≤ 2 ^ 32
  lt : c.bp < 2 ^ 32
  loc : ρ.loc = entryLoc F args
  args : ArgsOk F vals args

theorem getD_of {vals : List Int} {k : Nat} {a : Int} (h : vals[k]? = some a) : vals.getD k 0 = a := by
  simp [List.getD, h]

theorem parLoc_entry {F : Func} {vals : List Int} {args : List V} (h : ArgsOk F vals args) : ParLoc F vals (entryLoc F args) := by
  intro d hd x k hx hk
  obtain ⟨a, h1, h2, -⟩ := h.2 d hd x k hx hk
  simp only [entryLoc, h2, getD_of h1]

theorem parLoc_set {F : Func} (hF : FuncOk F) {vals : List Int} {loc : Nat → V} (h : ParLoc F vals loc) (u : V) :
    ParLoc F vals (fun y => if y = (fnOf F).bpx then u else loc y) := by
  intro d hd x k hx hk
  have h1 := par_lt hF hd hk
  have h2 := bp_ge hF
  dsimp only
  rw [if_neg (by omega)]
  exact h d hd x k hx hk

theorem rep_zero' {t : T} : rep t 0 = ⟨t.w, 0⟩ := by
  have := rep_zero t
  unfold rep at this ⊢
  simp only at this
  rw [this]

/-- The state of the machine when the body begins holds the state of C. -/
theorem entry_sim {F : Func} (hF : FuncOk F) {c : Ctx} {ρ : St} {vals : List Int} {args : List V} (hC : CallOk F c ρ vals args) {ρ' : St}
    (h1 : hasBp F.v = true → ρ'.loc = fun y => if y = (fnOf F).bpx then ⟨.i32, c.bp⟩ else entryLoc F args y)
    (h2 : hasBp F.v = false → ρ'.loc = entryLoc F args) (h3 : ρ'.mem = writes ((alloc F.v).filterMap (storeOf F c.bp vals)) ρ.mem) :
    Sim c (stateOf F c.bp vals ρ.mem) ρ' := by
  have hfn := fn_ok hF hC.Γ hC.lt
  have hlen := hC.args.1
  have e0 := base0 hF
  refine ⟨fun x hx hl => ?_, h3, ?_⟩
  · rw [hC.Γ] at hx hl ⊢
    have hx : x < F.n0 := hx
    have hix : ρ'.loc ((fnOf F).ix x) = entryLoc F args ((fnOf F).ix x) := by
      cases hb : hasBp F.v with
      | false => rw [h2 hb]
      | true =>
        rw [h1 hb]
        exact if_neg (by have := hfn.bpx x (by rw [hC.Γ]; exact hl); rw [hC.Γ] at this; exact this)
    rw [hix]
    show entryLoc F args ((fnOf F).ix x) = rep (F.ty x) _ ∧ InR (F.ty x) _
    rcases hF.known x hx with hd | ⟨d, hd, hid⟩
    · exfalso
      cases hq : F.data x with
      | none => exact hd hq
      | some a => simp [fnOf, hq] at hl
    · have hda : d ∈ all F.v := mem_all.2 (.inl hd)
      obtain ⟨q, hq, rfl⟩ := mem_alloc hda
      rw [fnOf_loc hF hq hid] at hl
      have hpl := placeOf_mem hF hq
      rw [hid] at hpl
      cases hp : q.2 with
      | frame o => rw [hp] at hl; cases hl
      | sparam o => rw [hp] at hl; cases hl
      | reg i =>
        rw [hp] at hpl
        have hi : (fnOf F).ix x = i := by simp only [fnOf, hpl]
        have hag : q.1.agg = false := by
          obtain ⟨p, e⟩ := alloc_place hq
          rw [hp] at e
          cases ha : q.1.agg with
          | false => rfl
          | true => simp only [Decl.place, ha] at e; split at e <;> simp at e
        obtain ⟨ht, hwt, -⟩ := hF.types _ hd x hid hag
        have hpo := parOf_mem hF hda hid
        simp only [stateOf, hpo, hi]
        cases hk : q.1.par with
        | some k =>
          have := par_reg hF hq hk hp
          subst this
          obtain ⟨a, b1, b2, b3⟩ := hC.args.2 _ hd x i hid hk
          simp only [entryLoc, b2, getD_of b1]
          exact ⟨trivial, b3⟩
        | none =>
          obtain ⟨g1, g2⟩ := locals_typed F.v hF.wf q hq hk i hp
          have g1 : base F.v 0 ≤ i := g1
          have hn : args[i]? = none := List.getElem?_eq_none (by omega)
          simp only [entryLoc, hn, g2]
          refine ⟨?_, inR_zero ht⟩
          rw [rep_zero', hwt]
          cases hw : (F.ty x).w <;> simp
  · rw [hC.Γ]
    cases hb : hasBp F.v with
    | true => rw [h1 hb]; simp
    | false =>
      rw [h2 hb, (bp_none hF hb).1, hC.bp0 hb]
      have hm := base_mono F.v (Nat.zero_le 4)
      have hn : args[base F.v 4]? = none := List.getElem?_eq_none (by omega)
      have hd : (declared F.v)[base F.v 4 - firstLocal F.v]? = none := by
        apply List.getElem?_eq_none
        have : (declared F.v).length = count F.v 0 + count F.v 1 + count F.v 2 + count F.v 3 := by
          unfold declared
          have hr : List.range 4 = [0, 1, 2, 3] := rfl
          rw [hr]
          simp only [List.flatMap_cons, List.flatMap_nil, List.append_nil, List.length_append, List.length_replicate]
          omega
        rw [this]
        have b1 : base F.v 4 = base F.v 0 + count F.v 0 + count F.v 1 + count F.v 2 + count F.v 3 := rfl
        unfold firstLocal
        omega
      simp only [entryLoc, hn, hd]
      simp

/-- Stores of different parameters do not meet. -/
theorem stores_apart {F : Func} (hF : FuncOk F) {bp : Nat} (h1 : frameSize F.v ≤ bp) (h2 : bp < 2 ^ 32) (vals : List Int) :
    ((alloc F.v).filterMap (storeOf F bp vals)).Pairwise Apart := by
  rw [List.pairwise_filterMap]
  refine (frame_disjoint F.v hF.wf).2.imp_of_mem ?_
  intro q r hq hr hd w hw w' hw'
  have key : ∀ {q : Decl × Place}, q ∈ alloc F.v → ∀ {w}, storeOf F bp vals q = some w →
      ∃ o : Int, q.2 = .frame o ∧ (w.1 : Int) = bp + o ∧ w.2.1 = q.1.size ∧ 1 ≤ q.1.size := by
    intro q hq w hw
    unfold storeOf at hw
    split at hw
    · rename_i x k o e1 e2 e3
      split at hw
      · cases hw
        have hm : q.1 ∈ F.v.top ++ F.v.rest := by
          rcases mem_all.1 (alloc_mem hq) with h | ⟨-, h⟩
          · exact h
          · rw [h] at e1; cases e1
        obtain ⟨ht, -, hs⟩ := hF.types _ hm x e1 (hF.prim _ hm (by simp [e2]))
        have hsz := tsz ht
        refine ⟨o, e3, (slot hF hq e3 h1 h2).1, hs.symm, ?_⟩
        rw [hs]
        unfold Sz at hsz
        omega
      · cases hw
    · cases hw
  obtain ⟨o, a1, a2, a3, a4⟩ := key hq hw
  obtain ⟨o', b1, b2, b3, b4⟩ := key hr hw'
  have r1 := size_le_room q.1
  have r2 := size_le_room r.1
  unfold Apart
  by_contra hne
  by_cases hle : o ≤ o'
  · exact hd o' (by simp only [Covers, a1]; omega) (by simp only [Covers, b1]; omega)
  · exact hd o (by simp only [Covers, a1]; omega) (by simp only [Covers, b1]; omega)

theorem entry_ok {F : Func} (hF : FuncOk F) {c : Ctx} {ρ : St} {vals : List Int} {args : List V} (hC : CallOk F c ρ vals args) :
    Entry F c vals ρ.mem (stateOf F c.bp vals ρ.mem) := by
  constructor
  · intro d hd x k hx hk
    obtain ⟨a, b1, b2, b3⟩ := hC.args.2 d hd x k hx hk
    refine ⟨a, b1, ?_⟩
    have hda : d ∈ all F.v := mem_all.2 (.inl hd)
    obtain ⟨q, hq, rfl⟩ := mem_alloc hda
    have hag := hF.prim _ hd (by simp [hk])
    obtain ⟨ht, -, hs⟩ := hF.types _ hd x hx hag
    have hl := fnOf_loc hF hq hx
    cases hr : q.1.refTaken with
    | false =>
      obtain ⟨i, e⟩ := place_reg hq hag hr
      rw [e] at hl
      have hl : c.Γ.loc x = .reg := by rw [hC.Γ]; exact hl
      simp only [place, hl, getO, stateOf, parOf_mem hF hda hx, hk, getD_of b1]
    | true =>
      obtain ⟨o, e⟩ := place_mem hq hag hr
      rw [e] at hl
      have hl : c.Γ.loc x = .frame o := by rw [hC.Γ]; exact hl
      obtain ⟨s1, s2, s3⟩ := slot hF hq e hC.lo hC.lt
      have r1 := size_le_room q.1
      have hhi := hC.hi
      simp only [place, hl, getO]
      rw [if_pos (by omega)]
      congr 1
      have hst : storeOf F c.bp vals q = some (pat 32 (c.bp + o), (F.ty x).size, pat (8 * (F.ty x).size) a) := by
        simp [storeOf, hx, hk, e, hr, hag, b1]
      obtain ⟨m', hm⟩ := writes_read _ ρ.mem (stores_apart hF hC.lo hC.lt vals) _ (List.mem_filterMap.2 ⟨q, hq, hst⟩)
      simp only [stateOf]
      dsimp only at hm
      rw [hm]
      exact rd_wr ht b3 m' _
  · intro a ha
    simp only [stateOf]
    apply writes_other
    intro w hw
    obtain ⟨q, hq, e⟩ := List.mem_filterMap.1 hw
    unfold storeOf at e
    split at e
    · rename_i x k o e1 e2 e3
      split at e
      · cases e
        have hm : q.1 ∈ F.v.top ++ F.v.rest := by
          rcases mem_all.1 (alloc_mem hq) with h | ⟨-, h⟩
          · exact h
          · rw [h] at e1; cases e1
        obtain ⟨ht, -, hs⟩ := hF.types _ hm x e1 (hF.prim _ hm (by simp [e2]))
        obtain ⟨s1, s2, s3⟩ := slot hF hq e3 hC.lo hC.lt
        have r1 := size_le_room q.1
        dsimp only
        omega
      · cases e
    · cases e

/-! ## The body -/

def depthOf (F : Func) : Nat := if hasBp F.v then 1 else 0

def kindOf (F : Func) : Kind := ⟨hasBp F.v, F.rt⟩

def BodyOk (F : Func) (c : Ctx) (ρ : St) (o : Fl) (r : Res) : Prop :=
  match o with
  | .go σ => if F.rt = .void then ∃ ρ', r = .ok [] ρ' ∧ Sim c σ ρ' ∧ ρ'.glb = ρ.glb else r = .trap
  | .ret v σ => ∃ ρ', (r = .ok (stk true F.rt v []) ρ' ∨ r = retAt (kindOf F) (depthOf F) v ρ') ∧ RetIn (kindOf F) v ∧ Sim c σ ρ' ∧ ρ'.glb = ρ.glb
  | .stop => r = .stop
  | .time => r = .time
  | .ub => True
  | .brk _ => False
  | .cont _ => False

/-- How the body may end: in a function with a result every way out returns, or the compiler ends it with `unreachable`. -/
def EndOk (F : Func) : Prop := F.rt = .void ∨ funcendL F.body = true ∨ noLRL F.body = true ∧ F.body ≠ .nil

theorem body_ok {F : Func} {c : Ctx} (hΓ : c.Γ = fnOf F) (hc : FnOk c)
    (hw : wtS c (kindOf F) true false false false (.block F.body) = true) (he : EndOk F) {m : Nat} (hm : 0 < m) :
    ∃ B, Frag (bodyCode F) B ∧ ∀ σ ρ, Sim c σ ρ → BodyOk F c ρ (exS c m (.block F.body) σ) (exec c.E m B [] ρ) := by
  have hn : c.Γ.n0 = F.n0 := by rw [hΓ]; rfl
  have hV : ∀ l, Lv.Ok ⟨kindOf F, l, false, false, depthOf F, 0, 0⟩ := fun l =>
    ⟨(fun q => nomatch q), (fun q => nomatch q), fun q => by
      have q : hasBp F.v = true := q
      simp [depthOf, q]⟩
  have hfe : funcend (travS (fnOf F) (.block F.body) F.n0).1 = funcendL F.body := by
    rw [funcend_trav]; rfl
  by_cases hu : F.rt ≠ .void ∧ funcendL F.body = false
  · -- the body ends with `unreachable`
    have hlr : noLRL F.body = true ∧ F.body ≠ .nil := by
      rcases he with he | he | he
      · exact absurd he hu.1
      · rw [hu.2] at he; cases he
      · exact he
    obtain ⟨C, fC, hC, -⟩ := (okS hc hm (.block F.body)).codeN ⟨kindOf F, true, false, false, depthOf F, 0, 0⟩ (hV true) hw (le_refl _) (.inr hlr.1)
    rw [hn, hΓ] at fC
    have eb : bodyCode F = (genS (fnOf F) (kindOf F) true false (depthOf F) 0 0 (travS (fnOf F) (.block F.body) F.n0).1).1 ++ [.op .unreachable] := by
      unfold bodyCode
      dsimp only
      rw [hfe]
      cases hbd : F.body with
      | nil => exact absurd hbd hlr.2
      | cons s l =>
        rw [hbd] at hu
        simp only [travS, travL]
        rw [if_pos hu]
        rfl
    refine ⟨_, by rw [eb]; exact fC.append (Frag.op (o := .unreachable) rfl), fun σ ρ hs => ?_⟩
    have h := hC σ ρ hs
    rw [exec_app]
    unfold exS
    cases ho : run (acts c m (.block F.body)) σ with
    | go σ' =>
      rw [ho] at h
      obtain ⟨ρ', h1, h2, h3⟩ := h
      have h1 : exec c.E m C [] ρ = .ok [] ρ' := h1
      rw [h1]
      show BodyOk F c ρ (.go σ') _
      simp only [BodyOk, if_neg hu.1]
      rfl
    | brk σ' => rw [ho] at h; obtain ⟨ρ', h1, -⟩ := h; exact absurd h1.1 (by simp)
    | cont σ' => rw [ho] at h; obtain ⟨ρ', h1, -⟩ := h; exact absurd h1.1 (by simp)
    | ret v σ' =>
      rw [ho] at h
      obtain ⟨ρ', ⟨h0, h1⟩, h2, h3⟩ := h
      have h1 : exec c.E m C [] ρ = retAt (kindOf F) (depthOf F) v ρ' := by
        rcases h1 with h1 | h1
        · exact absurd h1.1 (by simp)
        · exact h1
      rw [h1]
      refine ⟨ρ', .inr ?_, h0, h2, h3.glb⟩
      unfold retAt
      split <;> rfl
    | stop => rw [ho] at h; have h : exec c.E m C [] ρ = .stop := h; rw [h]; rfl
    | ub => trivial
    | time => rw [ho] at h; have h : exec c.E m C [] ρ = .time := h; rw [h]; rfl
  · obtain ⟨C, fC, hC, -⟩ := (okS hc hm (.block F.body)).code ⟨kindOf F, true, false, false, depthOf F, 0, 0⟩ (hV true) hw (le_refl _)
    rw [hn, hΓ] at fC
    have eb : bodyCode F = (genS (fnOf F) (kindOf F) true false (depthOf F) 0 0 (travS (fnOf F) (.block F.body) F.n0).1).1 := by
      unfold bodyCode
      dsimp only
      rw [hfe]
      cases hbd : F.body with
      | nil => simp only [travS, travL, List.append_nil]; rfl
      | cons s l =>
        rw [hbd] at hu
        simp only [travS, travL]
        rw [if_neg hu, List.append_nil]
        rfl
    refine ⟨C, by rw [eb]; exact fC, fun σ ρ hs => ?_⟩
    have h := hC σ ρ hs
    unfold exS
    cases ho : run (acts c m (.block F.body)) σ with
    | go σ' =>
      rw [ho] at h
      obtain ⟨ρ', h1, h2, h3⟩ := h
      by_cases hv : F.rt = .void
      · simp only [BodyOk, if_pos hv]
        exact ⟨ρ', h1, h2, h3.glb⟩
      · exfalso
        have hf : funcendL F.body = true := by
          by_contra q
          exact hu ⟨hv, by simpa using q⟩
        exact funcendL_halts c m (kindOf F) hv F.body false false false hw hf σ σ' ho
    | brk σ' => rw [ho] at h; obtain ⟨ρ', h1, -⟩ := h; exact absurd h1.1 (by simp)
    | cont σ' => rw [ho] at h; obtain ⟨ρ', h1, -⟩ := h; exact absurd h1.1 (by simp)
    | ret v σ' =>
      rw [ho] at h
      obtain ⟨ρ', ⟨h0, h1⟩, h2, h3⟩ := h
      refine ⟨ρ', ?_, h0, h2, h3.glb⟩
      rcases h1 with h1 | h1
      · exact .inl h1.2
      · exact .inr h1
    | stop => rw [ho] at h; exact h
    | ub => trivial
    | time => rw [ho] at h; exact h

/-! ## The whole function -/

theorem prologue_ok {F : Func} (hF : FuncOk F) {c : Ctx} (hΓ : c.Γ = fnOf F) (hlo : frameSize F.v ≤ c.bp) (hhi : c.bp ≤ c.E.size) (hlt : c.bp < 2 ^ 32)
    (vals : List Int) : ∃ P, Frag (prologue F) P ∧ ∀ m ρ args, CallOk F c ρ vals args →
      ∃ ρ', exec c.E m P [] ρ = .ok [] ρ' ∧ Sim c (stateOf F c.bp vals ρ.mem) ρ' ∧
        (hasBp F.v = false → ρ'.glb = ρ.glb) ∧ ∀ g, g ≠ F.sp → ρ'.glb g = ρ.glb g := by
  obtain ⟨S, fS, hS⟩ := stores_ok hF hΓ hlo hhi hlt vals (alloc F.v) (fun _ h => h)
  unfold prologue
  by_cases hb : hasBp F.v = true
  · rw [if_pos hb]
    rw [szt_lit hF.small]
    have hsm := hF.small
    by_cases h0 : 0 < frameSize F.v
    · rw [if_pos h0]
      have fL := frag_line (os := [.gget F.sp, .lset (fnOf F).bpx, .lget (fnOf F).bpx, .const .i32 (frameSize F.v), .bin .i32 .sub, .gset F.sp])
        (by
          intro o ho
          simp only [List.mem_cons, List.not_mem_nil, or_false] at ho
          have hcw : Op.wf (.const .i32 (frameSize F.v)) = true := wf32 ⟨by omega, by norm_num at hsm; omega⟩
          rcases ho with rfl | rfl | rfl | rfl | rfl | rfl
          · rfl
          · rfl
          · rfl
          · exact hcw
          · rfl
          · rfl)
      refine ⟨_, Frag.append fL fS, fun m ρ args hC => ?_⟩
      rw [exec_app, exec_line]
      simp only [runL, Res.bind, step, hC.sp hb, if_true, and_self, binOp]
      rw [hS m _ (by simp [hΓ]) (by
        dsimp only
        rw [hC.loc]
        exact parLoc_set hF (parLoc_entry hC.args) _)]
      refine ⟨_, rfl, entry_sim hF hC (fun _ => ?_) (fun q => by rw [hb] at q; cases q) rfl, (fun q => by rw [hb] at q; cases q), fun g hg => ?_⟩
      · dsimp only
        rw [hC.loc]
      · dsimp only
        rw [if_neg hg]
    · rw [if_neg h0, List.append_nil]
      have fL := frag_line (os := [.gget F.sp, .lset (fnOf F).bpx]) (by simp [Op.wf])
      refine ⟨_, Frag.append fL fS, fun m ρ args hC => ?_⟩
      rw [exec_app, exec_line]
      simp only [runL, Res.bind, step, hC.sp hb]
      rw [hS m _ (by simp [hΓ]) (by
        dsimp only
        rw [hC.loc]
        exact parLoc_set hF (parLoc_entry hC.args) _)]
      exact ⟨_, rfl, entry_sim hF hC (fun _ => by rw [hC.loc]) (fun q => by rw [hb] at q; cases q) rfl, fun _ => rfl, fun g hg => rfl⟩
  · have hb' : hasBp F.v = false := by simpa using hb
    rw [if_neg hb, List.nil_append]
    refine ⟨S, fS, fun m ρ args hC => ?_⟩
    -- nothing is stored: there is no frame
    have hnil : (alloc F.v).filterMap (storeOf F c.bp vals) = [] := by
      rw [List.filterMap_eq_nil_iff]
      intro q hq
      by_contra hne
      unfold storeOf at hne
      split at hne
      · rename_i x k o e1 e2 e3
        have h1 := (frame_disjoint F.v hF.wf).1 q hq o (by simp only [Covers, e3]; have := room_pos q.1; omega)
        rw [(bp_none hF hb').2] at h1
        omega
      · exact hne rfl
    have hfl : (alloc F.v).flatMap (storeParam F) = [] := by
      rw [List.flatMap_eq_nil_iff]
      intro q hq
      by_contra hne
      unfold storeParam at hne
      split at hne
      · rename_i x k o e1 e2 e3
        have h1 := (frame_disjoint F.v hF.wf).1 q hq o (by simp only [Covers, e3]; have := room_pos q.1; omega)
        rw [(bp_none hF hb').2] at h1
        omega
      · exact hne rfl
    have eS : S = .done := by
      rw [hfl] at fS
      exact Frag.unique fS Frag.nil
    refine ⟨ρ, by rw [eS]; rfl, entry_sim hF hC (fun q => absurd q hb) (fun _ => hC.loc) (by rw [hnil]; rfl), fun _ => rfl, fun _ _ => rfl⟩

theorem stk_res (t : T) (v : Int) : (stk true t v []).map V.ty = t.res.toList := by
  unfold stk T.res
  by_cases h : t = .void <;> simp [h, rep]

theorem stk_take (t : T) (v : Int) : (stk true t v []).take t.res.toList.length = stk true t v [] := by
  unfold stk T.res
  by_cases h : t = .void <;> simp [h]

theorem stk_eq (t : T) (v : Int) : stk true t v [] = if t = .void then [] else [rep t v] := by
  unfold stk
  by_cases h : t = .void <;> simp [h]

/-- The code of a function, run. -/
theorem func_run {F : Func} (hF : FuncOk F) {c : Ctx} (hΓ : c.Γ = fnOf F) (hlo : frameSize F.v ≤ c.bp) (hhi : c.bp ≤ c.E.size) (hlt : c.bp < 2 ^ 32)
    (hw : wtS c (kindOf F) true false false false (.block F.body) = true) (he : EndOk F) {m : Nat} (hm : 0 < m) (vals : List Int) :
    ∃ C, Frag (genFn F) C ∧ ∀ ρ args, CallOk F c ρ vals args →
      Returns F ρ (exS c m (.block F.body) (stateOf F c.bp vals ρ.mem)) (runBody c.E m F.rt.res C ρ) := by
  have hfn := fn_ok hF hΓ hlt
  obtain ⟨P, fP, hP⟩ := prologue_ok hF hΓ hlo hhi hlt vals
  obtain ⟨B, fB, hB⟩ := body_ok hΓ hfn hw he hm
  have retIn : ∀ v, RetIn (kindOf F) v → F.rt ≠ .void → InR F.rt v := by
    intro v h hv
    rcases hF.res with q | q
    · exact absurd q hv
    · exact h q
  unfold genFn
  by_cases hb : hasBp F.v = true
  · rw [if_pos hb]
    have fL := frag_line (os := [.lget (fnOf F).bpx, .gset F.sp]) (by simp [Op.wf])
    refine ⟨_, fP.append ((Frag.block (t := F.rt.res) fB).append fL), fun ρ args hC => ?_⟩
    obtain ⟨ρ1, e1, s1, -, g1⟩ := hP m ρ args hC
    have h := hB _ ρ1 s1
    -- what is left after the block
    have fin : ∀ (s : List V) (ρ2 : St) (σ2 : State), s.map V.ty = F.rt.res.toList → Sim c σ2 ρ2 → ρ2.glb = ρ1.glb →
        ∃ ρ3, (match exec c.E m (line [.lget (fnOf F).bpx, .gset F.sp]) s ρ2 with
          | .ok s ρ => if s.map V.ty = F.rt.res.toList then Res.ok s ρ else .stuck
          | .br 0 s ρ => if (s.take F.rt.res.toList.length).map V.ty = F.rt.res.toList then .ok (s.take F.rt.res.toList.length) ρ else .stuck
          | .ret s ρ => if (s.take F.rt.res.toList.length).map V.ty = F.rt.res.toList then .ok (s.take F.rt.res.toList.length) ρ else .stuck
          | .br (_ + 1) _ _ => .stuck
          | r => r) = .ok s ρ3 ∧ ρ3.mem = σ2.mem ∧ ρ3.glb = ρ.glb := by
      intro s ρ2 σ2 ht hs hg
      rw [exec_line]
      have hbp := hs.bp
      rw [hΓ] at hbp
      simp only [runL, Res.bind, step, hbp]
      rw [if_pos ht]
      refine ⟨_, rfl, hs.mem, ?_⟩
      funext g
      dsimp only
      split
      · rename_i q; rw [q, hC.sp hb]
      · rename_i q; rw [hg, g1 g q]
    unfold runBody
    rw [exec_app, e1]
    simp only [Res.bind]
    rw [exec_app]
    simp only [exec]
    cases ho : exS c m (.block F.body) (stateOf F c.bp vals ρ.mem) with
    | go σ' =>
      rw [ho] at h
      simp only [BodyOk] at h
      simp only [Returns]
      by_cases hv : F.rt = .void
      · rw [if_pos hv] at h ⊢
        obtain ⟨ρ2, e2, s2, g2⟩ := h
        rw [e2]
        have hr : F.rt.res = none := by simp [T.res, hv]
        obtain ⟨ρ3, e3, m3, g3⟩ := fin [] ρ2 σ' (by simp [hr]) s2 g2
        refine ⟨ρ3, ?_, m3, g3⟩
        simp only [Verif.Wasm.leave, fall, hr, List.map_nil, Option.toList, if_true, Res.bind, List.append_nil]
        rw [hr] at e3
        exact e3
      · rw [if_neg hv] at h ⊢
        rw [h]
        rfl
    | ret v σ' =>
      rw [ho] at h
      obtain ⟨ρ2, e2, r2, s2, g2⟩ := h
      obtain ⟨ρ3, e3, m3, g3⟩ := fin (stk true F.rt v []) ρ2 σ' (stk_res _ _) s2 g2
      have hl : Verif.Wasm.leave F.rt.res [] (fun s ρ => Res.ok s ρ) (exec c.E m B [] ρ1) = .ok (stk true F.rt v []) ρ2 := by
        rcases e2 with e2 | e2
        · rw [e2]
          simp only [Verif.Wasm.leave, fall, stk_res, if_true, List.append_nil]
        · rw [e2]
          simp only [retAt, kindOf, hb, if_true, depthOf, Nat.sub_self]
          simp only [Verif.Wasm.leave, fall, stk_take, stk_res, if_true, List.append_nil]
      refine ⟨ρ3, ?_, m3, g3, retIn v r2⟩
      rw [hl, ← stk_eq]
      exact e3
    | stop =>
      rw [ho] at h
      have h : exec c.E m B [] ρ1 = .stop := h
      rw [h]; rfl
    | time =>
      rw [ho] at h
      have h : exec c.E m B [] ρ1 = .time := h
      rw [h]; rfl
    | ub => trivial
    | brk σ' => rw [ho] at h; exact h
    | cont σ' => rw [ho] at h; exact h
  · have hb' : hasBp F.v = false := by simpa using hb
    rw [if_neg hb]
    refine ⟨_, fP.append fB, fun ρ args hC => ?_⟩
    obtain ⟨ρ1, e1, s1, g1, -⟩ := hP m ρ args hC
    have g1 := g1 hb'
    have h := hB _ ρ1 s1
    unfold runBody
    rw [exec_app, e1]
    simp only [Res.bind]
    cases ho : exS c m (.block F.body) (stateOf F c.bp vals ρ.mem) with
    | go σ' =>
      rw [ho] at h
      simp only [BodyOk] at h
      simp only [Returns]
      by_cases hv : F.rt = .void
      · rw [if_pos hv] at h ⊢
        obtain ⟨ρ2, e2, s2, g2⟩ := h
        rw [e2]
        refine ⟨ρ2, ?_, s2.mem, g2.trans g1⟩
        simp [T.res, hv]
      · rw [if_neg hv] at h ⊢
        rw [h]
    | ret v σ' =>
      rw [ho] at h
      obtain ⟨ρ2, e2, r2, s2, g2⟩ := h
      refine ⟨ρ2, ?_, s2.mem, g2.trans g1, retIn v r2⟩
      rw [← stk_eq]
      rcases e2 with e2 | e2
      · rw [e2]
        simp only [stk_res, if_true]
      · rw [e2]
        simp only [retAt, kindOf, hb', Bool.false_eq_true, if_false, stk_take, stk_res, if_true]
    | stop => rw [ho] at h; have h : exec c.E m B [] ρ1 = .stop := h; rw [h]; rfl
    | time => rw [ho] at h; have h : exec c.E m B [] ρ1 = .time := h; rw [h]; rfl
    | ub => trivial
    | brk σ' => rw [ho] at h; exact h
    | cont σ' => rw [ho] at h; exact h

end Verif.WasmGen

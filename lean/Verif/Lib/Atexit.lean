/-!
# atexit, __cxa_atexit and exit (C12)

`libsrc/stdlib/atexit.c`, `libsrc/stdlib/__cxa_atexit.c`, `libsrc/stdlib/exit.c`, `libsrc/crt0/_start.c`.

A handler is an arbitrary program: what matters to the run-time is which handlers it registers and whether it
calls `exit` itself.  Handlers are identified by natural numbers (function address, or address and argument for
`__cxa_atexit`).
-/
namespace Verif.Atexit

/-- What a handler does when it is called (the part visible to atexit.c/exit.c). -/
structure Act where
  /-- handlers it passes to `atexit` -/
  regs : List Nat := []
  /-- handlers it passes to `__cxa_atexit` -/
  cxaRegs : List Nat := []
  /-- it ends by calling `exit` instead of returning -/
  exits : Bool := false

/-- `#define MAX (8)`, libsrc/stdlib/atexit.c:4 and __cxa_atexit.c:4. -/
def MAX : Nat := 8

/-- `buf[0..count)` of atexit.c:8-9 and of __cxa_atexit.c:12-13; only the first `count` entries are ever read. -/
structure State where
  buf : List Nat := []
  cxa : List Nat := []
deriving DecidableEq

/-- `atexit`, libsrc/stdlib/atexit.c:11-16: the result and the new table. -/
def atexit (s : State) (f : Nat) : State × Nat :=
  if s.buf.length ≥ MAX then (s, 1) else ({ s with buf := s.buf ++ [f] }, 0)

/-- `__cxa_atexit`, libsrc/stdlib/__cxa_atexit.c:17-25 (`dso_handle` is stored but never read). -/
def cxaAtexit (s : State) (f : Nat) : State × Nat :=
  if s.cxa.length ≥ MAX then (s, 1) else ({ s with cxa := s.cxa ++ [f] }, 0)

/-- The effect of running a handler on the two tables. -/
def runHandler (act : Nat → Act) (s : State) (f : Nat) : State :=
  let s := (act f).regs.foldl (fun s g => (atexit s g).1) s
  (act f).cxaRegs.foldl (fun s g => (cxaAtexit s g).1) s

/-- Where control is after a chain function: returned, or the process has ended. -/
structure Out where
  st : State
  trace : List Nat
  ended : Bool
deriving DecidableEq

/-- `call_atexit_funcs`, libsrc/stdlib/atexit.c:18-23: `p` counts down from `count` as it was at entry.  A call
through the table calls `buf[p]`; if the handler calls `exit`, that inner `exit` finds an empty chain
(exit.c:28-29) and ends the process. -/
def callAtexit (act : Nat → Act) : Nat → State → Out
  | 0, s => ⟨s, [], false⟩
  | p + 1, s =>
    let f := s.buf[p]?.getD 0
    let s := runHandler act s f
    if (act f).exits then ⟨s, [f], true⟩
    else let o := callAtexit act p s
         ⟨o.st, f :: o.trace, o.ended⟩

/-- `call_cxa_atexit_funcs`, libsrc/stdlib/__cxa_atexit.c:27-32. -/
def callCxa (act : Nat → Act) : Nat → State → Out
  | 0, s => ⟨s, [], false⟩
  | p + 1, s =>
    let f := s.cxa[p]?.getD 0
    let s := runHandler act s f
    if (act f).exits then ⟨s, [f], true⟩
    else let o := callCxa act p s
         ⟨o.st, f :: o.trace, o.ended⟩

/-- `call_fini_funcs`, libsrc/crt0/_start.c:14-17: the `.fini_array` functions in order. -/
def callFini (act : Nat → Act) : List Nat → State → Out
  | [], s => ⟨s, [], false⟩
  | f :: fs, s =>
    let s := runHandler act s f
    if (act f).exits then ⟨s, [f], true⟩
    else let o := callFini act fs s
         ⟨o.st, f :: o.trace, o.ended⟩

/-- The nodes that can be on `__on_exit_chain`. -/
inductive Node | atexit | cxa | fini
deriving DecidableEq

/-- `chain->func()` (libsrc/stdlib/exit.c:31). -/
def callNode (act : Nat → Act) (fini : List Nat) (s : State) : Node → Out
  | .atexit => callAtexit act s.buf.length s
  | .cxa => callCxa act s.cxa.length s
  | .fini => callFini act fini s

/-- The loop of `exit`, libsrc/stdlib/exit.c:28-34 (the trace of handlers run before the process ends). -/
def exitLoop (act : Nat → Act) (fini : List Nat) : List Node → State → List Nat
  | [], _ => []
  | n :: ns, s =>
    let o := callNode act fini s n
    if o.ended then o.trace else o.trace ++ exitLoop act fini ns o.st

/-- `__on_exit_chain` once `main` runs: `start2` pushes the fini node first (libsrc/crt0/_start.c:26-28) and the
constructors push the other two in link order (atexit.c:25-30, __cxa_atexit.c:34-39). -/
def chain (cxaLinkedFirst : Bool) : List Node :=
  if cxaLinkedFirst then [.atexit, .cxa, .fini] else [.cxa, .atexit, .fini]

/-- A registration made by the program before `exit`. -/
inductive Reg | at (f : Nat) | cxa (f : Nat)

/-- The program's registration calls in order: final tables and the results. -/
def register : List Reg → State → State × List Nat
  | [], s => (s, [])
  | .at f :: rs, s => let r := atexit s f; let t := register rs r.1; (t.1, r.2 :: t.2)
  | .cxa f :: rs, s => let r := cxaAtexit s f; let t := register rs r.1; (t.1, r.2 :: t.2)

/-- A whole run: registrations, then `exit`. -/
def program (act : Nat → Act) (fini : List Nat) (cxaFirst : Bool) (rs : List Reg) : List Nat :=
  exitLoop act fini (chain cxaFirst) (register rs {}).1

/-! ## Specification -/

/-- Handlers passed to `atexit`, in order. -/
def ats : List Reg → List Nat
  | [] => []
  | .at f :: rs => f :: ats rs
  | .cxa _ :: rs => ats rs

/-- Handlers passed to `__cxa_atexit`, in order. -/
def cxas : List Reg → List Nat
  | [] => []
  | .at _ :: rs => cxas rs
  | .cxa f :: rs => f :: cxas rs

/-- A schedule of handlers is cut after the first one that calls `exit` itself. -/
def cut (act : Nat → Act) : List Nat → List Nat
  | [] => []
  | f :: fs => if (act f).exits then [f] else f :: cut act fs

/-! ## Lemmas -/

theorem atexit_prefix (s : State) (f : Nat) :
    (∃ l, (atexit s f).1.buf = s.buf ++ l) ∧ (atexit s f).1.cxa = s.cxa := by
  unfold atexit; split
  · exact ⟨⟨[], by simp⟩, rfl⟩
  · exact ⟨⟨[f], rfl⟩, rfl⟩

theorem cxa_prefix (s : State) (f : Nat) :
    (∃ l, (cxaAtexit s f).1.cxa = s.cxa ++ l) ∧ (cxaAtexit s f).1.buf = s.buf := by
  unfold cxaAtexit; split
  · exact ⟨⟨[], by simp⟩, rfl⟩
  · exact ⟨⟨[f], rfl⟩, rfl⟩

theorem runHandler_prefix (act : Nat → Act) (s : State) (f : Nat) :
    (∃ l, (runHandler act s f).buf = s.buf ++ l) ∧ ∃ l, (runHandler act s f).cxa = s.cxa ++ l := by
  have h1 : ∀ (l : List Nat) (s : State), (∃ k, (l.foldl (fun s g => (atexit s g).1) s).buf = s.buf ++ k) ∧
      (l.foldl (fun s g => (atexit s g).1) s).cxa = s.cxa := by
    intro l; induction l with
    | nil => intro s; exact ⟨⟨[], by simp⟩, rfl⟩
    | cons g l ih =>
      intro s
      obtain ⟨⟨k, hk⟩, h2⟩ := ih (atexit s g).1
      obtain ⟨⟨k', hk'⟩, h2'⟩ := atexit_prefix s g
      exact ⟨⟨k' ++ k, by rw [List.foldl_cons, hk, hk', List.append_assoc]⟩, by rw [List.foldl_cons, h2, h2']⟩
  have h3 : ∀ (l : List Nat) (s : State), (∃ k, (l.foldl (fun s g => (cxaAtexit s g).1) s).cxa = s.cxa ++ k) ∧
      (l.foldl (fun s g => (cxaAtexit s g).1) s).buf = s.buf := by
    intro l; induction l with
    | nil => intro s; exact ⟨⟨[], by simp⟩, rfl⟩
    | cons g l ih =>
      intro s
      obtain ⟨⟨k, hk⟩, h2⟩ := ih (cxaAtexit s g).1
      obtain ⟨⟨k', hk'⟩, h2'⟩ := cxa_prefix s g
      exact ⟨⟨k' ++ k, by rw [List.foldl_cons, hk, hk', List.append_assoc]⟩, by rw [List.foldl_cons, h2, h2']⟩
  unfold runHandler
  obtain ⟨⟨k, hk⟩, h2⟩ := h1 (act f).regs s
  obtain ⟨⟨k', hk'⟩, h2'⟩ := h3 (act f).cxaRegs ((act f).regs.foldl (fun s g => (atexit s g).1) s)
  exact ⟨⟨k, by rw [h2', hk]⟩, ⟨k', by rw [hk', h2]⟩⟩

theorem take_succ_reverse (l : List Nat) (p : Nat) (h : p < l.length) :
    (l.take (p + 1)).reverse = l[p]?.getD 0 :: (l.take p).reverse := by
  rw [List.take_add_one, List.getElem?_eq_getElem h]
  simp

theorem cut_cons (act : Nat → Act) (f : Nat) (fs : List Nat) :
    cut act (f :: fs) = if (act f).exits then [f] else f :: cut act fs := rfl

theorem callAtexit_trace (act : Nat → Act) (p : Nat) (s : State) (h : p ≤ s.buf.length) :
    (callAtexit act p s).trace = cut act (s.buf.take p).reverse ∧
    ((callAtexit act p s).ended = (s.buf.take p).any (fun f => (act f).exits)) ∧
    (∃ l, (callAtexit act p s).st.cxa = s.cxa ++ l) := by
  induction p generalizing s with
  | zero => exact ⟨by simp [callAtexit, cut], by simp [callAtexit], ⟨[], by simp [callAtexit]⟩⟩
  | succ p ih =>
    obtain ⟨⟨l, hl⟩, ⟨l', hl'⟩⟩ := runHandler_prefix act s (s.buf[p]?.getD 0)
    have hany : (s.buf.take (p + 1)).any (fun f => (act f).exits) =
        ((act (s.buf[p]?.getD 0)).exits || (s.buf.take p).any (fun f => (act f).exits)) := by
      rw [← List.any_reverse, take_succ_reverse _ _ h, List.any_cons, List.any_reverse]
    rw [hany, take_succ_reverse _ _ h, cut_cons]
    unfold callAtexit
    dsimp only
    split
    · rename_i he; rw [he]; exact ⟨rfl, rfl, ⟨l', hl'⟩⟩
    · rename_i he
      have he : (act (s.buf[p]?.getD 0)).exits = false := by simpa using he
      obtain ⟨i1, i2, l2, i3⟩ := ih (runHandler act s (s.buf[p]?.getD 0)) (by rw [hl, List.length_append]; omega)
      rw [hl, List.take_append_of_le_length (by omega)] at i1 i2
      dsimp only
      rw [i1, i2, he, Bool.false_or]
      exact ⟨rfl, rfl, ⟨l' ++ l2, by rw [i3, hl', List.append_assoc]⟩⟩

theorem callCxa_trace (act : Nat → Act) (p : Nat) (s : State) (h : p ≤ s.cxa.length) :
    (callCxa act p s).trace = cut act (s.cxa.take p).reverse ∧
    ((callCxa act p s).ended = (s.cxa.take p).any (fun f => (act f).exits)) ∧
    (∃ l, (callCxa act p s).st.buf = s.buf ++ l) := by
  induction p generalizing s with
  | zero => exact ⟨by simp [callCxa, cut], by simp [callCxa], ⟨[], by simp [callCxa]⟩⟩
  | succ p ih =>
    obtain ⟨⟨l', hl'⟩, ⟨l, hl⟩⟩ := runHandler_prefix act s (s.cxa[p]?.getD 0)
    have hany : (s.cxa.take (p + 1)).any (fun f => (act f).exits) =
        ((act (s.cxa[p]?.getD 0)).exits || (s.cxa.take p).any (fun f => (act f).exits)) := by
      rw [← List.any_reverse, take_succ_reverse _ _ h, List.any_cons, List.any_reverse]
    rw [hany, take_succ_reverse _ _ h, cut_cons]
    unfold callCxa
    dsimp only
    split
    · rename_i he; rw [he]; exact ⟨rfl, rfl, ⟨l', hl'⟩⟩
    · rename_i he
      have he : (act (s.cxa[p]?.getD 0)).exits = false := by simpa using he
      obtain ⟨i1, i2, l2, i3⟩ := ih (runHandler act s (s.cxa[p]?.getD 0)) (by rw [hl, List.length_append]; omega)
      rw [hl, List.take_append_of_le_length (by omega)] at i1 i2
      dsimp only
      rw [i1, i2, he, Bool.false_or]
      exact ⟨rfl, rfl, ⟨l' ++ l2, by rw [i3, hl', List.append_assoc]⟩⟩

theorem callFini_trace (act : Nat → Act) (fs : List Nat) (s : State) :
    (callFini act fs s).trace = cut act fs := by
  induction fs generalizing s with
  | nil => rfl
  | cons f fs ih =>
    rw [cut_cons]; unfold callFini; dsimp only; split
    · rfl
    · rw [ih]

theorem callFini_ended (act : Nat → Act) (fs : List Nat) (s : State) :
    (callFini act fs s).ended = fs.any (fun f => (act f).exits) := by
  induction fs generalizing s with
  | nil => rfl
  | cons f fs ih =>
    unfold callFini; dsimp only; split
    · rename_i h; simp [h]
    · rename_i h; simp only [List.any_cons, ih]; simp [h]

theorem take_min_append (n : Nat) (b xs : List Nat) (f : Nat) (h : b.length < n) :
    (b ++ [f]) ++ xs.take (n - (b ++ [f]).length) = b ++ (f :: xs).take (n - b.length) := by
  have : n - b.length = (n - (b ++ [f]).length) + 1 := by simp; omega
  rw [this, List.take_succ_cons, List.append_assoc]; rfl

theorem register_tables (rs : List Reg) (s : State) (hb : s.buf.length ≤ MAX) (hc : s.cxa.length ≤ MAX) :
    (register rs s).1.buf = s.buf ++ (ats rs).take (MAX - s.buf.length) ∧
    (register rs s).1.cxa = s.cxa ++ (cxas rs).take (MAX - s.cxa.length) := by
  induction rs generalizing s with
  | nil => simp [register, ats, cxas]
  | cons r rs ih =>
    cases r with
    | «at» f =>
      unfold register ats cxas
      dsimp only
      by_cases h : s.buf.length ≥ MAX
      · have e : atexit s f = (s, 1) := by rw [atexit, if_pos h]
        rw [e]
        have h0 : MAX - s.buf.length = 0 := by omega
        obtain ⟨i1, i2⟩ := ih s hb hc
        refine ⟨?_, i2⟩
        rw [i1, h0]; simp
      · have e : atexit s f = ({ s with buf := s.buf ++ [f] }, 0) := by rw [atexit, if_neg h]
        rw [e]
        obtain ⟨i1, i2⟩ := ih { s with buf := s.buf ++ [f] } (by simp; omega) hc
        refine ⟨?_, i2⟩
        rw [i1]; exact take_min_append MAX s.buf (ats rs) f (by omega)
    | cxa f =>
      unfold register ats cxas
      dsimp only
      by_cases h : s.cxa.length ≥ MAX
      · have e : cxaAtexit s f = (s, 1) := by rw [cxaAtexit, if_pos h]
        rw [e]
        have h0 : MAX - s.cxa.length = 0 := by omega
        obtain ⟨i1, i2⟩ := ih s hb hc
        refine ⟨i1, ?_⟩
        rw [i2, h0]; simp
      · have e : cxaAtexit s f = ({ s with cxa := s.cxa ++ [f] }, 0) := by rw [cxaAtexit, if_neg h]
        rw [e]
        obtain ⟨i1, i2⟩ := ih { s with cxa := s.cxa ++ [f] } hb (by simp; omega)
        refine ⟨i1, ?_⟩
        rw [i2]; exact take_min_append MAX s.cxa (cxas rs) f (by omega)

theorem cut_of_any (act : Nat → Act) (l m : List Nat) :
    cut act (l ++ m) = if l.any (fun f => (act f).exits) then cut act l else l ++ cut act m := by
  induction l with
  | nil => simp
  | cons f l ih =>
    rw [List.cons_append, cut_cons, ih, List.any_cons, cut_cons]
    cases (act f).exits <;> simp <;> split <;> simp

theorem cut_none (act : Nat → Act) (l : List Nat) (h : l.any (fun f => (act f).exits) = false) :
    cut act l = l := by
  have := cut_of_any act l []
  rw [h] at this
  simpa [cut] using this

/-! ## Theorems -/

/-- C12.  Registration fails cleanly exactly when 8 handlers are already registered: the result is 0 and the
handler appended, or it is non-zero and nothing changes. -/
theorem atexit_result (s : State) (f : Nat) :
    ((atexit s f).2 = 0 ↔ s.buf.length < 8) ∧
    ((atexit s f).2 = 0 → (atexit s f).1 = { s with buf := s.buf ++ [f] }) ∧
    ((atexit s f).2 ≠ 0 → (atexit s f).1 = s) := by
  unfold atexit MAX
  split <;> simp <;> omega

/-- C12.  Whatever the handlers do (register more handlers, call `exit`), `exit` runs exactly the handlers that
were registered with `atexit` successfully before it (the first eight), each once, last registered first, then
the destructors of `.fini_array` in order; if a handler calls `exit` itself, the run stops after it and no
handler runs twice.  Stated for programs that only use `atexit`. -/
theorem exit_runs_handlers (act : Nat → Act) (fini : List Nat) (cxaFirst : Bool) (rs : List Reg)
    (hcxa : cxas rs = []) (hact : ∀ f, (act f).cxaRegs = []) :
    program act fini cxaFirst rs = cut act (((ats rs).take 8).reverse ++ fini) := by
  obtain ⟨hb, hc⟩ := register_tables rs {} (by simp) (by simp)
  simp only [List.nil_append, List.length_nil, Nat.sub_zero, hcxa, List.take_nil] at hb hc
  unfold program
  generalize (register rs {}).1 = s at hb hc
  obtain ⟨t1, t2, -⟩ := callAtexit_trace act s.buf.length s (Nat.le_refl _)
  rw [List.take_length] at t1 t2
  -- the cxa table stays empty
  have hrun : ∀ (s : State) f, (runHandler act s f).cxa = s.cxa := by
    intro s f
    have h1 : ∀ (l : List Nat) (s : State), (l.foldl (fun s g => (atexit s g).1) s).cxa = s.cxa := by
      intro l; induction l with
      | nil => intro s; rfl
      | cons g l ih => intro s; rw [List.foldl_cons, ih, (atexit_prefix s g).2]
    unfold runHandler; rw [hact]; exact h1 _ _
  have hempty : ∀ p (s : State), (callAtexit act p s).st.cxa = s.cxa := by
    intro p; induction p with
    | zero => intro s; rfl
    | succ p ih =>
      intro s; unfold callAtexit; dsimp only; split
      · exact hrun _ _
      · dsimp only; rw [ih, hrun]
  have hnode : ∀ s : State, s.cxa = [] → callNode act fini s .cxa = ⟨s, [], false⟩ := by
    intro s h; unfold callNode; dsimp only; rw [h]; rfl
  have hfin : ∀ s : State, exitLoop act fini [.fini] s = cut act fini := by
    intro s
    unfold exitLoop callNode; dsimp only
    rw [callFini_trace]; split
    · rfl
    · simp [exitLoop]
  rw [cut_of_any, List.any_reverse, ← show s.buf = (ats rs).take 8 from hb]
  have hA : callNode act fini s .atexit = callAtexit act s.buf.length s := rfl
  cases cxaFirst
  · -- [cxa, atexit, fini]
    show exitLoop act fini [.cxa, .atexit, .fini] s = _
    rw [exitLoop, hnode s hc]
    dsimp only
    rw [if_neg (by decide), List.nil_append, exitLoop, hA]
    rw [t2, t1, hfin]
    split
    · rfl
    · rename_i h
      rw [cut_none act _ (by rw [List.any_reverse]; simpa using h)]
  · show exitLoop act fini [.atexit, .cxa, .fini] s = _
    rw [exitLoop, hA]
    rw [t2, t1]
    split
    · rfl
    · rename_i h
      rw [cut_none act _ (by rw [List.any_reverse]; simpa using h)]
      rw [exitLoop, hnode _ (by rw [hempty, hc])]
      dsimp only
      rw [if_neg (by decide), List.nil_append, hfin]

/-- C12.  With `__cxa_atexit` too, and handlers that return and register nothing: each table is run last-in
first-out exactly once, one table after the other, before the destructors. -/
theorem exit_runs_both (act : Nat → Act) (fini : List Nat) (cxaFirst : Bool) (rs : List Reg)
    (hact : ∀ f, (act f).cxaRegs = [] ∧ (act f).regs = [] ∧ (act f).exits = false) :
    program act fini cxaFirst rs =
      (if cxaFirst then ((ats rs).take 8).reverse ++ ((cxas rs).take 8).reverse
       else ((cxas rs).take 8).reverse ++ ((ats rs).take 8).reverse) ++ fini := by
  obtain ⟨hb, hc⟩ := register_tables rs {} (by simp) (by simp)
  simp only [List.nil_append, List.length_nil, Nat.sub_zero] at hb hc
  unfold program
  generalize (register rs {}).1 = s at hb hc
  have hrun : ∀ (s : State) f, runHandler act s f = s := by
    intro s f; unfold runHandler; rw [(hact f).1, (hact f).2.1]; rfl
  have hx : ∀ l : List Nat, l.any (fun f => (act f).exits) = false := by
    intro l; rw [List.any_eq_false]; intro f _; simp [(hact f).2.2]
  have e1 : ∀ p (s : State), (callAtexit act p s).st = s := by
    intro p; induction p with
    | zero => intro s; rfl
    | succ p ih => intro s; unfold callAtexit; dsimp only; rw [(hact _).2.2, hrun]; exact ih s
  have e2 : ∀ p (s : State), (callCxa act p s).st = s := by
    intro p; induction p with
    | zero => intro s; rfl
    | succ p ih => intro s; unfold callCxa; dsimp only; rw [(hact _).2.2, hrun]; exact ih s
  obtain ⟨t1, t2, -⟩ := callAtexit_trace act s.buf.length s (Nat.le_refl _)
  obtain ⟨u1, u2, -⟩ := callCxa_trace act s.cxa.length s (Nat.le_refl _)
  rw [List.take_length, cut_none act _ (hx _)] at t1
  rw [List.take_length, cut_none act _ (hx _)] at u1
  rw [hx] at t2 u2
  have hA : callNode act fini s .atexit = callAtexit act s.buf.length s := rfl
  have hC : callNode act fini s .cxa = callCxa act s.cxa.length s := rfl
  have hfin : exitLoop act fini [.fini] s = fini := by
    unfold exitLoop callNode; dsimp only
    rw [callFini_trace, callFini_ended, hx, cut_none act _ (hx _)]; simp [exitLoop]
  cases cxaFirst
  · show exitLoop act fini [.cxa, .atexit, .fini] s = _
    rw [exitLoop, hC]
    rw [u2, u1, e2, exitLoop, hA]
    rw [t2, t1, e1, hfin]
    simp [MAX, hb, hc]
  · show exitLoop act fini [.atexit, .cxa, .fini] s = _
    rw [exitLoop, hA]
    rw [t2, t1, e1, exitLoop, hC]
    rw [u2, u1, e2, hfin]
    simp [MAX, hb, hc]

/-- Non-vacuity: three handlers, the last of which registers another; destructor 9. -/
example : program (fun f => if f = 3 then { regs := [7] } else {}) [9] true [.at 1, .at 2, .at 3] = [3, 2, 1, 9] := by
  decide
example : program (fun _ => {}) [9] false [.at 1, .cxa 4, .at 2, .cxa 5] = [5, 4, 2, 1, 9] := by decide

/-- Finding: ISO C (7.24.4.4p3) runs handlers registered during `exit`; here handler 7, registered by handler 3,
is never called. -/
theorem late_handler_lost :
    7 ∉ program (fun f => if f = 3 then { regs := [7] } else {}) [] true [.at 1, .at 2, .at 3] := by decide

/-- Finding: ISO C requires room for at least 32 handlers; the ninth is refused. -/
theorem ninth_refused :
    (register [.at 1, .at 2, .at 3, .at 4, .at 5, .at 6, .at 7, .at 8, .at 9] {}).2 = [0, 0, 0, 0, 0, 0, 0, 0, 1] := by
  decide

end Verif.Atexit

/-!
# Buffered output (C07) and the list of open streams (C45)

`_fwrite`, `_fflush` of `libsrc/stdio/_file.c`, `fwrite.c`, `fputc.c`, `_file.h`, `_fileman.c`.

The system call `write` is modelled by a list of outcomes to come (`os`), one per call; when the list is used up every
further call succeeds completely.  A store outside `wbuf[0..wcapa)` and a division by zero give `none`.
-/
namespace Verif.FileOut

/-- Outcome of `write(fd, wbuf, wp)`: everything written, `k` bytes written (all of them if `k` is at least the
length), or -1. -/
inductive Outcome
  | all
  | short (k : Nat)
  | error
deriving DecidableEq

/-- An output stream, libsrc/stdio/_file.h:24-35.  `pending` is `wbuf[0..wp)`; `out` collects what the system has
received.  `binary` is `FF_BINARY`; `FF_WRITE` is set. -/
structure F where
  wcapa : Nat
  binary : Bool
  pending : List Nat
  out : List Nat
  os : List Outcome
deriving DecidableEq

/-- `_fflush`, libsrc/stdio/_file.c:102-113; the Boolean is "returned 0". -/
def flush (f : F) : F × Bool :=
  if f.pending.length > 0 then
    match f.os with
    | [] => ({ f with out := f.out ++ f.pending, pending := [] }, true)
    | .all :: os => ({ f with out := f.out ++ f.pending, pending := [], os := os }, true)
    | .error :: os => ({ f with os := os }, false)
    | .short k :: os =>
      if f.pending.length ≤ k then ({ f with out := f.out ++ f.pending, pending := [], os := os }, true)
      else ({ f with out := f.out ++ f.pending.take k, os := os }, false)
  else (f, true)

/-- The loop of `_fwrite`, libsrc/stdio/_file.c:90-99: new stream and returned count (`i` bytes done before). -/
def writeLoop : List Nat → F → Nat → Option (F × Nat)
  | [], f, i => some (f, i)
  | c :: cs, f, i =>
    if f.pending.length < f.wcapa then
      let f := { f with pending := f.pending ++ [c] }
      if f.pending.length ≥ f.wcapa ∨ (c = 10 ∧ f.binary = false) then
        match flush f with
        | (f, true) => writeLoop cs f (i + 1)
        | (f, false) => some (f, i)
      else writeLoop cs f (i + 1)
    else none

/-- `_fwrite`, libsrc/stdio/_file.c:84-100; `none` as count is `EOF`. -/
def write (f : F) (data : List Nat) : Option (F × Option Nat) :=
  if f.pending.length ≥ f.wcapa then
    match flush f with
    | (f, false) => some (f, none)
    | (f, true) => (writeLoop data f 0).map fun r => (r.1, some r.2)
  else (writeLoop data f 0).map fun r => (r.1, some r.2)

/-- `fwrite`, libsrc/stdio/fwrite.c:6-12, on a writable stream, for `size * count` bytes of data; `size = 0` divides
by zero. -/
def fwrite (f : F) (size : Nat) (data : List Nat) : Option (F × Nat) :=
  (write f data).bind fun
    | (f, none) => some (f, 0)
    | (f, some n) => if size = 0 then none else some (f, n / size)

/-- `fputc`, libsrc/stdio/fputc.c:8-13 and `_fputc`, libsrc/stdio/_file.h:46-50; `none` is `EOF`. -/
def fputc (f : F) (c : Nat) : Option (F × Option Nat) :=
  (write f [c % 256]).map fun r => (r.1, if r.2 = some 1 then some (c % 256) else none)

/-- A client's calls. -/
inductive Op
  | fwrite (size : Nat) (data : List Nat)
  | fputc (c : Nat)
  | fflush

/-- What a call reports: items written by `fwrite`, success of `fputc`/`fflush` as 1/0. -/
def step (f : F) : Op → Option (F × Nat)
  | .fwrite size data => fwrite f size data
  | .fputc c => (fputc f c).map fun r => (r.1, if r.2.isSome then 1 else 0)
  | .fflush => let r := flush f; some (r.1, if r.2 then 1 else 0)

def run (f : F) : List Op → Option (F × List Nat)
  | [] => some (f, [])
  | op :: ops => (step f op).bind fun r => (run r.1 ops).map fun q => (q.1, r.2 :: q.2)

/-! ## Specification -/

/-- The bytes a call hands over. -/
def Op.bytes : Op → List Nat
  | .fwrite _ data => data
  | .fputc c => [c % 256]
  | .fflush => []

/-- What a fully successful call reports. -/
def Op.success : Op → Nat
  | .fwrite size data => data.length / size
  | .fputc _ => 1
  | .fflush => 1

/-- The calls that do not divide by zero. -/
def Op.ok : Op → Prop
  | .fwrite size _ => size ≠ 0
  | _ => True

/-! ## Proofs -/

theorem flush_capa (f : F) : (flush f).1.wcapa = f.wcapa ∧ (flush f).1.binary = f.binary := by
  unfold flush; repeat' split
  all_goals exact ⟨rfl, rfl⟩

/-- Flushing never grows the buffer; on success it is empty. -/
theorem flush_len (f : F) : (flush f).1.pending.length ≤ f.pending.length ∧
    ((flush f).2 = true → (flush f).1.pending = []) := by
  unfold flush
  split
  · split
    · exact ⟨Nat.zero_le _, fun _ => rfl⟩
    · exact ⟨Nat.zero_le _, fun _ => rfl⟩
    · exact ⟨Nat.le_refl _, fun h => by cases h⟩
    · split
      · exact ⟨Nat.zero_le _, fun _ => rfl⟩
      · exact ⟨Nat.le_refl _, fun h => by cases h⟩
  · rename_i h
    refine ⟨Nat.le_refl _, fun _ => ?_⟩
    exact List.eq_nil_of_length_eq_zero (by dsimp only; omega)

/-- The loop never stores outside the buffer. -/
theorem writeLoop_safe (data : List Nat) (f : F) (i : Nat) (hc : 0 < f.wcapa) (h : f.pending.length < f.wcapa) :
    ∃ f' n, writeLoop data f i = some (f', n) ∧ f'.wcapa = f.wcapa ∧ f'.pending.length ≤ f.wcapa ∧
      f'.binary = f.binary ∧ i ≤ n ∧ n ≤ i + data.length := by
  induction data generalizing f i with
  | nil => exact ⟨f, i, rfl, rfl, by omega, rfl, Nat.le_refl _, Nat.le_refl _⟩
  | cons c cs ih =>
    unfold writeLoop
    rw [if_pos h]
    dsimp only
    have hl1 : (f.pending ++ [c]).length = f.pending.length + 1 := by simp
    split
    · have h1 := flush_capa { f with pending := f.pending ++ [c] }
      have h2 := flush_len { f with pending := f.pending ++ [c] }
      dsimp only at h1 h2
      split
      · rename_i f2 heq
        rw [heq] at h1 h2
        have hnil := h2.2 rfl
        dsimp only at h1 hnil
        obtain ⟨f', n, k1, k2, k3, k4, k5, k6⟩ := ih f2 (i + 1) (by rw [h1.1]; exact hc) (by rw [hnil, h1.1]; exact hc)
        exact ⟨f', n, k1, by rw [k2, h1.1], by rw [h1.1] at k3; exact k3, by rw [k4, h1.2], by omega, by rw [List.length_cons]; omega⟩
      · rename_i f2 heq
        rw [heq] at h1 h2
        dsimp only at h1 h2
        exact ⟨f2, i, rfl, h1.1, by omega, h1.2, Nat.le_refl _, by omega⟩
    · rename_i hn
      have hlt : (f.pending ++ [c]).length < f.wcapa := by
        rcases Nat.lt_or_ge (f.pending ++ [c]).length f.wcapa with h | h
        · exact h
        · exact absurd (Or.inl h) hn
      obtain ⟨f', n, k1, k2, k3, k4, k5, k6⟩ := ih { f with pending := f.pending ++ [c] } (i + 1) hc hlt
      exact ⟨f', n, k1, k2, k3, k4, by omega, by rw [List.length_cons]; omega⟩

theorem write_safe (data : List Nat) (f : F) (hc : 0 < f.wcapa) (h : f.pending.length ≤ f.wcapa) :
    ∃ f' n, write f data = some (f', n) ∧ f'.wcapa = f.wcapa ∧ f'.pending.length ≤ f.wcapa ∧ f'.binary = f.binary := by
  unfold write
  split
  · have h1 := flush_capa f
    have h2 := flush_len f
    split
    · rename_i f2 heq
      rw [heq] at h1 h2
      exact ⟨f2, none, rfl, h1.1, by dsimp only at h2; omega, h1.2⟩
    · rename_i f2 heq
      rw [heq] at h1 h2
      have hnil := h2.2 rfl
      dsimp only at h1 hnil
      obtain ⟨f', n, k1, k2, k3, k4, _, _⟩ := writeLoop_safe data f2 0 (by rw [h1.1]; exact hc) (by rw [hnil, h1.1]; exact hc)
      exact ⟨f', some n, by rw [k1]; rfl, by rw [k2, h1.1], by rw [h1.1] at k3; exact k3, by rw [k4, h1.2]⟩
  · obtain ⟨f', n, k1, k2, k3, k4, _, _⟩ := writeLoop_safe data f 0 hc (by omega)
    exact ⟨f', some n, by rw [k1]; rfl, k2, k3, k4⟩

theorem step_safe (f : F) (op : Op) (hop : op.ok) (hc : 0 < f.wcapa) (h : f.pending.length ≤ f.wcapa) :
    ∃ f' r, step f op = some (f', r) ∧ f'.wcapa = f.wcapa ∧ f'.pending.length ≤ f.wcapa ∧ f'.binary = f.binary := by
  cases op with
  | fwrite size data =>
    obtain ⟨f', n, k1, k2, k3, k4⟩ := write_safe data f hc h
    rw [step, fwrite, k1]
    cases n with
    | none => exact ⟨f', 0, rfl, k2, k3, k4⟩
    | some n =>
      simp only [Option.bind_some]
      rw [if_neg (show ¬ size = 0 from hop)]
      exact ⟨f', _, rfl, k2, k3, k4⟩
  | fputc c =>
    obtain ⟨f', n, k1, k2, k3, k4⟩ := write_safe [c % 256] f hc h
    refine ⟨f', if (if n = some 1 then some (c % 256) else none).isSome then 1 else 0, ?_, k2, k3, k4⟩
    · rw [step, fputc, k1]; rfl
  | fflush =>
    have h1 := flush_capa f
    have h2 := flush_len f
    exact ⟨(flush f).1, _, rfl, h1.1, by omega, h1.2⟩

/-- C07.  Whatever the system does with each `write`, no sequence of output calls ever stores outside the stream's
buffer. -/
theorem buffer_never_overflows (f : F) (ops : List Op) (hops : ∀ op ∈ ops, op.ok) (hc : 0 < f.wcapa)
    (h : f.pending.length ≤ f.wcapa) :
    ∃ f' rs, run f ops = some (f', rs) ∧ f'.pending.length ≤ f'.wcapa := by
  induction ops generalizing f with
  | nil => exact ⟨f, [], rfl, h⟩
  | cons op ops ih =>
    obtain ⟨f1, r, k1, k2, k3, _⟩ := step_safe f op (hops op (by simp)) hc h
    obtain ⟨f', rs, j1, j2⟩ := ih f1 (fun o ho => hops o (by simp [ho])) (by omega) (by omega)
    exact ⟨f', r :: rs, by rw [run, k1]; simp [j1], j2⟩

theorem flush_all (f : F) (h : ∀ o ∈ f.os, o = .all) :
    (flush f).2 = true ∧ (flush f).1.pending = [] ∧ (flush f).1.out = f.out ++ f.pending ∧
      (∀ o ∈ (flush f).1.os, o = .all) := by
  unfold flush
  split
  · split
    · rename_i h0; exact ⟨rfl, rfl, rfl, h⟩
    · rename_i os heq
      exact ⟨rfl, rfl, rfl, fun o ho => h o (by rw [heq]; simp [show o ∈ os from ho])⟩
    · rename_i os heq
      have := h .error (by rw [heq]; simp)
      cases this
    · rename_i k os heq
      have := h (.short k) (by rw [heq]; simp)
      cases this
  · rename_i h0
    have : f.pending = [] := List.eq_nil_of_length_eq_zero (by omega)
    exact ⟨rfl, this, by rw [this, List.append_nil], h⟩

theorem writeLoop_all (data : List Nat) (f : F) (i : Nat) (hc : 0 < f.wcapa) (h : f.pending.length < f.wcapa)
    (ho : ∀ o ∈ f.os, o = .all) (hnl : f.binary = false → 10 ∉ f.pending) :
    ∃ f', writeLoop data f i = some (f', i + data.length) ∧ f'.out ++ f'.pending = f.out ++ f.pending ++ data ∧
      f'.wcapa = f.wcapa ∧ f'.binary = f.binary ∧ f'.pending.length < f.wcapa ∧ (∀ o ∈ f'.os, o = .all) ∧
      (f.binary = false → 10 ∉ f'.pending) := by
  induction data generalizing f i with
  | nil => exact ⟨f, rfl, by simp, rfl, rfl, h, ho, hnl⟩
  | cons c cs ih =>
    unfold writeLoop
    rw [if_pos h]
    dsimp only
    split
    · have h1 := flush_capa { f with pending := f.pending ++ [c] }
      have h2 := flush_all { f with pending := f.pending ++ [c] } ho
      dsimp only at h1 h2
      split
      · rename_i f2 heq
        rw [heq] at h1 h2
        dsimp only at h1 h2
        obtain ⟨f', k1, k2, k3, k4, k5, k6, k7⟩ := ih f2 (i + 1) (by rw [h1.1]; exact hc)
          (by rw [h2.2.1, h1.1]; exact hc) h2.2.2.2 (by intro _; rw [h2.2.1]; simp)
        refine ⟨f', by rw [k1, List.length_cons]; congr 2; omega, ?_, by rw [k3, h1.1], by rw [k4, h1.2],
          by rw [h1.1] at k5; exact k5, k6, by rw [h1.2] at k7; exact k7⟩
        rw [k2, h2.2.1, h2.2.2.1]; simp
      · rename_i f2 heq
        rw [heq] at h2
        exact absurd h2.1 (by simp)
    · rename_i hn
      have hlt : (f.pending ++ [c]).length < f.wcapa := by
        rcases Nat.lt_or_ge (f.pending ++ [c]).length f.wcapa with h | h
        · exact h
        · exact absurd (Or.inl h) hn
      obtain ⟨f', k1, k2, k3, k4, k5, k6, k7⟩ := ih { f with pending := f.pending ++ [c] } (i + 1) hc hlt ho
        (by
          intro hb hm
          rw [List.mem_append] at hm
          rcases hm with hm | hm
          · exact hnl hb hm
          · rw [List.mem_singleton] at hm
            exact hn (Or.inr ⟨hm.symm, hb⟩))
      exact ⟨f', by rw [k1, List.length_cons]; congr 2; omega, by rw [k2]; simp, k3, k4, k5, k6, k7⟩

theorem write_all (data : List Nat) (f : F) (hc : 0 < f.wcapa) (h : f.pending.length < f.wcapa)
    (ho : ∀ o ∈ f.os, o = .all) (hnl : f.binary = false → 10 ∉ f.pending) :
    ∃ f', write f data = some (f', some data.length) ∧ f'.out ++ f'.pending = f.out ++ f.pending ++ data ∧
      f'.wcapa = f.wcapa ∧ f'.binary = f.binary ∧ f'.pending.length < f.wcapa ∧ (∀ o ∈ f'.os, o = .all) ∧
      (f.binary = false → 10 ∉ f'.pending) := by
  unfold write
  rw [if_neg (by omega)]
  obtain ⟨f', k1, k2⟩ := writeLoop_all data f 0 hc h ho hnl
  exact ⟨f', by rw [k1, Nat.zero_add]; rfl, k2⟩

theorem step_all (f : F) (op : Op) (hop : op.ok) (hc : 0 < f.wcapa) (h : f.pending.length < f.wcapa)
    (ho : ∀ o ∈ f.os, o = .all) (hnl : f.binary = false → 10 ∉ f.pending) :
    ∃ f', step f op = some (f', op.success) ∧ f'.out ++ f'.pending = f.out ++ f.pending ++ op.bytes ∧
      f'.wcapa = f.wcapa ∧ f'.binary = f.binary ∧ f'.pending.length < f.wcapa ∧ (∀ o ∈ f'.os, o = .all) ∧
      (f.binary = false → 10 ∉ f'.pending) := by
  cases op with
  | fwrite size data =>
    obtain ⟨f', k1, k2⟩ := write_all data f hc h ho hnl
    refine ⟨f', ?_, k2⟩
    rw [step, fwrite, k1]
    simp only [Option.bind_some]
    rw [if_neg (show ¬ size = 0 from hop)]
    rfl
  | fputc c =>
    obtain ⟨f', k1, k2⟩ := write_all [c % 256] f hc h ho hnl
    refine ⟨f', ?_, k2⟩
    rw [step, fputc, k1]; rfl
  | fflush =>
    have h1 := flush_capa f
    have h2 := flush_all f ho
    refine ⟨(flush f).1, ?_, ?_, h1.1, h1.2, ?_, h2.2.2.2, fun _ => by rw [h2.2.1]; simp⟩
    · rw [step, h2.1]; rfl
    · rw [h2.2.1, h2.2.2.1]; simp [Op.bytes]
    · rw [h2.2.1]; exact hc

/-- C07.  If the system accepts every `write` completely, then for every sequence of output calls the bytes the
system received followed by the bytes still buffered are exactly the bytes handed over, once each and in order; every
call reports complete success; and on a text stream no completed line is left in the buffer. -/
theorem output_in_order (wcapa : Nat) (binary : Bool) (ops : List Op) (hops : ∀ op ∈ ops, op.ok) (hc : 0 < wcapa) :
    ∃ f', run ⟨wcapa, binary, [], [], []⟩ ops = some (f', ops.map Op.success) ∧
      f'.out ++ f'.pending = ops.flatMap Op.bytes ∧ (binary = false → 10 ∉ f'.pending) := by
  suffices H : ∀ (ops : List Op) (f : F), (∀ op ∈ ops, op.ok) → 0 < f.wcapa → f.pending.length < f.wcapa →
      (∀ o ∈ f.os, o = .all) → (f.binary = false → 10 ∉ f.pending) →
      ∃ f', run f ops = some (f', ops.map Op.success) ∧
        f'.out ++ f'.pending = f.out ++ f.pending ++ ops.flatMap Op.bytes ∧ (f.binary = false → 10 ∉ f'.pending) by
    obtain ⟨f', k1, k2, k3⟩ := H ops ⟨wcapa, binary, [], [], []⟩ hops hc hc (by intro o ho; cases ho) (by simp)
    exact ⟨f', k1, by rw [k2]; simp, k3⟩
  intro ops
  induction ops with
  | nil => intro f _ _ _ _ hnl; exact ⟨f, rfl, by simp, hnl⟩
  | cons op ops ih =>
    intro f hops hc h ho hnl
    obtain ⟨f1, k1, k2, k3, k4, k5, k6, k7⟩ := step_all f op (hops op (by simp)) hc h ho hnl
    obtain ⟨f', j1, j2, j3⟩ := ih f1 (fun o ho => hops o (by simp [ho])) (by omega) (by omega) k6 (by rw [k4]; exact k7)
    refine ⟨f', by rw [run, k1]; simp [j1], ?_, by rw [← k4]; exact j3⟩
    rw [j2, k2]; simp

/-- C07.  A flush that reports success leaves nothing in the buffer: everything handed over has reached the system. -/
theorem flush_delivers (wcapa : Nat) (binary : Bool) (ops : List Op) (hops : ∀ op ∈ ops, op.ok) (hc : 0 < wcapa) :
    ∃ f', run ⟨wcapa, binary, [], [], []⟩ (ops ++ [.fflush]) = some (f', (ops ++ [Op.fflush]).map Op.success) ∧
      f'.out = ops.flatMap Op.bytes := by
  suffices H : ∀ (ops : List Op) (f f' : F) (rs : List Nat), run f ops = some (f', rs) →
      run f (ops ++ [.fflush]) = some ((flush f').1, rs ++ [if (flush f').2 then 1 else 0]) by
    obtain ⟨f', k1, k2, k3⟩ := output_in_order wcapa binary (ops ++ [.fflush])
      (by intro op hop; rw [List.mem_append] at hop; rcases hop with h | h
          · exact hops op h
          · rw [List.mem_singleton] at h; rw [h]; trivial) hc
    obtain ⟨f2, j1, j2, j3⟩ := output_in_order wcapa binary ops hops hc
    have hr := H ops _ f2 _ j1
    rw [hr] at k1
    injection k1 with k1
    injection k1 with e1 e2
    refine ⟨f', by rw [hr, e1, e2], ?_⟩
    rw [List.map_append] at e2
    have e3 := List.append_cancel_left e2
    have hok : (flush f2).2 = true := by
      by_cases h : (flush f2).2 = true
      · exact h
      · rw [if_neg h] at e3; simp [Op.success] at e3
    have hnil := (flush_len f2).2 hok
    rw [e1] at hnil
    rw [hnil, List.append_nil] at k2
    rw [k2]; simp [Op.bytes]
  intro ops
  induction ops with
  | nil =>
    intro f f' rs h
    rw [run] at h
    injection h with h; injection h with h1 h2
    rw [← h1, ← h2]; rfl
  | cons op ops ih =>
    intro f f' rs h
    rw [run] at h
    rw [List.cons_append, run]
    cases hs : step f op with
    | none => rw [hs] at h; cases h
    | some r =>
      rw [hs] at h
      simp only [Option.bind_some] at h ⊢
      cases hr : run r.1 ops with
      | none => rw [hr] at h; cases h
      | some q =>
        rw [hr] at h
        simp only [Option.map_some] at h
        injection h with h; injection h with h1 h2
        rw [ih r.1 q.1 q.2 hr, ← h1, ← h2]; rfl

/-! ### When `write` fails -/

/-- Every outcome is complete success or an error that transfers nothing. -/
def Clean (f : F) : Prop := ∀ o ∈ f.os, o = .all ∨ o = .error

theorem flush_clean (f : F) (h : Clean f) :
    (flush f).1.out ++ (flush f).1.pending = f.out ++ f.pending ∧ Clean (flush f).1 := by
  unfold flush
  split
  · split
    · exact ⟨by simp, h⟩
    · rename_i os heq
      exact ⟨by simp, fun o ho => h o (by rw [heq]; simp [show o ∈ os from ho])⟩
    · rename_i os heq
      exact ⟨rfl, fun o ho => h o (by rw [heq]; simp [show o ∈ os from ho])⟩
    · rename_i k os heq
      have := h (.short k) (by rw [heq]; simp)
      rcases this with h | h <;> cases h
  · exact ⟨rfl, h⟩

theorem writeLoop_clean (data : List Nat) (f : F) (i : Nat) (hc : 0 < f.wcapa) (h : f.pending.length < f.wcapa)
    (ho : Clean f) :
    ∃ f' n m, writeLoop data f i = some (f', i + n) ∧ f'.out ++ f'.pending = f.out ++ f.pending ++ data.take m ∧
      Clean f' ∧ n ≤ data.length ∧ (m = n ∧ n = data.length ∨ m = n + 1 ∧ n < data.length) := by
  induction data generalizing f i with
  | nil => exact ⟨f, 0, 0, rfl, by simp, ho, Nat.le_refl _, Or.inl ⟨rfl, rfl⟩⟩
  | cons c cs ih =>
    unfold writeLoop
    rw [if_pos h]
    dsimp only
    split
    · have h1 := flush_capa { f with pending := f.pending ++ [c] }
      have h2 := flush_clean { f with pending := f.pending ++ [c] } ho
      have h3 := flush_len { f with pending := f.pending ++ [c] }
      dsimp only at h1 h2 h3
      split
      · rename_i f2 heq
        rw [heq] at h1 h2 h3
        dsimp only at h1 h2 h3
        have hnil := h3.2 rfl
        obtain ⟨f', n, m, k1, k2, k3, k4, k5⟩ := ih f2 (i + 1) (by rw [h1.1]; exact hc)
          (by rw [hnil, h1.1]; exact hc) h2.2
        refine ⟨f', n + 1, m + 1, by rw [k1]; congr 2; omega, ?_, k3, by rw [List.length_cons]; omega,
          by rw [List.length_cons]; omega⟩
        rw [k2, h2.1]; simp
      · rename_i f2 heq
        rw [heq] at h1 h2
        dsimp only at h2
        refine ⟨f2, 0, 1, rfl, ?_, h2.2, by omega, Or.inr ⟨rfl, by rw [List.length_cons]; omega⟩⟩
        rw [h2.1]; simp
    · rename_i hn
      have hlt : (f.pending ++ [c]).length < f.wcapa := by
        rcases Nat.lt_or_ge (f.pending ++ [c]).length f.wcapa with h | h
        · exact h
        · exact absurd (Or.inl h) hn
      obtain ⟨f', n, m, k1, k2, k3, k4, k5⟩ := ih { f with pending := f.pending ++ [c] } (i + 1) hc hlt ho
      exact ⟨f', n + 1, m + 1, by rw [k1]; congr 2; omega, by rw [k2]; simp, k3, by rw [List.length_cons]; omega,
        by rw [List.length_cons]; omega⟩

/-- C07, partial.  If every `write` either accepts everything or fails without accepting anything, then bytes
received plus bytes buffered grow by a prefix of the data handed over: nothing is lost, duplicated or reordered.  The
reported count `n` is the length of that prefix when all is written, but one less than it after a failure.
Missing: partial writes, which duplicate bytes (`short_write_duplicates`), and an exact count on failure
(`failed_count_duplicates`). -/
theorem output_with_errors_partial (f : F) (data : List Nat) (hc : 0 < f.wcapa) (h : f.pending.length ≤ f.wcapa)
    (ho : Clean f) :
    ∃ f' r m, write f data = some (f', r) ∧ f'.out ++ f'.pending = f.out ++ f.pending ++ data.take m ∧
      (r = some data.length ∧ m = data.length ∨ r = none ∧ m = 0 ∨ ∃ n, r = some n ∧ n < data.length ∧ m = n + 1) := by
  unfold write
  split
  · have h1 := flush_capa f
    have h2 := flush_clean f ho
    have h3 := flush_len f
    split
    · rename_i f2 heq
      rw [heq] at h2
      exact ⟨f2, none, 0, rfl, by rw [h2.1]; simp, Or.inr (Or.inl ⟨rfl, rfl⟩)⟩
    · rename_i f2 heq
      rw [heq] at h1 h2 h3
      have hnil := h3.2 rfl
      dsimp only at h1 hnil h2
      obtain ⟨f', n, m, k1, k2, k3, k4, k5⟩ := writeLoop_clean data f2 0 (by rw [h1.1]; exact hc)
        (by rw [hnil, h1.1]; exact hc) h2.2
      refine ⟨f', some n, m, by rw [k1, Nat.zero_add]; rfl, by rw [k2, h2.1], ?_⟩
      rcases k5 with ⟨e1, e2⟩ | ⟨e1, e2⟩
      · exact Or.inl ⟨by rw [e2], by omega⟩
      · exact Or.inr (Or.inr ⟨n, rfl, e2, e1⟩)
  · obtain ⟨f', n, m, k1, k2, k3, k4, k5⟩ := writeLoop_clean data f 0 hc (by omega) ho
    refine ⟨f', some n, m, by rw [k1, Nat.zero_add]; rfl, k2, ?_⟩
    rcases k5 with ⟨e1, e2⟩ | ⟨e1, e2⟩
    · exact Or.inl ⟨by rw [e2], by omega⟩
    · exact Or.inr (Or.inr ⟨n, rfl, e2, e1⟩)

/-- The code as it is: after a partial `write` the whole buffer is sent again. -/
theorem short_write_duplicates :
    ∃ f', run ⟨4, true, [], [], [.short 2]⟩ [.fwrite 1 [1, 2, 3], .fflush, .fflush] = some (f', [3, 0, 1]) ∧
      f'.out = [1, 2, 1, 2, 3] := ⟨⟨4, true, [], [1, 2, 1, 2, 3], []⟩, by decide, rfl⟩

/-- The code as it is: a text stream whose line flush fails reports the newline as not written although it is in
the buffer, so a caller that continues at the reported position writes it twice. -/
theorem failed_count_duplicates :
    ∃ f', run ⟨4, false, [], [], [.error]⟩ [.fwrite 1 [65, 10], .fwrite 1 [10], .fflush] = some (f', [1, 1, 1]) ∧
      f'.out = [65, 10, 10] := ⟨⟨4, false, [], [65, 10, 10], []⟩, by decide, rfl⟩

/-- The code as it is: `fwrite` with `size` 0 divides by zero. -/
theorem fwrite_size_zero_traps (f : F) (hc : 0 < f.wcapa) (h : f.pending.length < f.wcapa) : fwrite f 0 [] = none := by
  unfold fwrite write
  rw [if_neg (by omega)]
  rfl

/-- Non-vacuity: 3 calls on a 4-byte text buffer. -/
example : run ⟨4, false, [], [], []⟩ [.fwrite 2 [1, 2, 3, 4, 5, 6], .fputc 10, .fputc 300] =
    some (⟨4, false, [44], [1, 2, 3, 4, 5, 6, 10], []⟩, [3, 1, 1]) := by decide

/-! ## The list of open streams -/

/-- `_add_opened_file`, libsrc/stdio/_fileman.c:12-25 (`realloc` succeeds). -/
def addOpened (fs : List Nat) (fp : Nat) : List Nat := fs ++ [fp]

/-- `_remove_opened_file`, libsrc/stdio/_fileman.c:27-40. -/
def removeOpened (fs : List Nat) (fp : Nat) : List Nat :=
  match fs.idxOf? fp with
  | none => fs
  | some i => if i < fs.length - 1 then (fs.set i (fs.getD (fs.length - 1) 0)).dropLast else fs.dropLast

/-- Streams opened and closed. -/
inductive FOp
  | opened (fp : Nat)
  | closed (fp : Nat)

/-- The list of open streams after a history (latest first). -/
def fileman : List FOp → List Nat
  | [] => []
  | .opened fp :: ops => addOpened (fileman ops) fp
  | .closed fp :: ops => removeOpened (fileman ops) fp

/-- Streams that are open after a history in which every pointer is opened at most once at a time. -/
def openStreams : List FOp → List Nat
  | [] => []
  | .opened fp :: ops => fp :: openStreams ops
  | .closed fp :: ops => (openStreams ops).erase fp

theorem removeOpened_perm (fs : List Nat) (fp : Nat) : (removeOpened fs fp).Perm (fs.erase fp) := by
  unfold removeOpened
  cases hi : fs.idxOf? fp with
  | none =>
    have : fp ∉ fs := by
      rw [List.idxOf?_eq_none_iff] at hi; exact hi
    rw [List.erase_of_not_mem this]
  | some i =>
    have hidx : i < fs.length ∧ fs[i]? = some fp := by
      rw [List.idxOf?] at hi
      rw [List.findIdx?_eq_some_iff_getElem] at hi
      obtain ⟨h, h1, _⟩ := hi
      exact ⟨h, by rw [List.getElem?_eq_getElem h]; simp at h1; rw [h1]⟩
    obtain ⟨hl, hget⟩ := hidx
    -- split fs at i
    have hsplit : fs = fs.take i ++ fp :: fs.drop (i + 1) := by
      have h0 : fs.drop i = fp :: fs.drop (i + 1) := by
        rw [List.drop_eq_getElem_cons hl]
        rw [List.getElem?_eq_getElem hl] at hget
        injection hget with hget; rw [hget]
      rw [← h0, List.take_append_drop]
    have herase : (fs.erase fp).Perm (fs.take i ++ fs.drop (i + 1)) := by
      have hm : fp ∈ fs := List.mem_of_getElem? hget
      have p1 : fs.Perm (fp :: fs.erase fp) := List.perm_cons_erase hm
      have p2 : fs.Perm (fp :: (fs.take i ++ fs.drop (i + 1))) := by
        conv => lhs; rw [hsplit]
        exact List.perm_middle
      exact (p1.symm.trans p2).cons_inv
    refine List.Perm.trans ?_ herase.symm
    dsimp only
    split
    · rename_i hlt
      generalize hb : fs.drop (i + 1) = b at *
      have hbl : b.length = fs.length - (i + 1) := by rw [← hb, List.length_drop]
      generalize ha : fs.take i = a at *
      have hal : a.length = i := by rw [← ha, List.length_take]; omega
      obtain ⟨b', x, hx⟩ : ∃ b' x, b = b' ++ [x] := by
        rcases List.eq_nil_or_concat b with h | ⟨b', x, h⟩
        · rw [h] at hbl; simp at hbl; omega
        · exact ⟨b', x, by rw [h, List.concat_eq_append]⟩
      have hlast : fs.getD (fs.length - 1) 0 = x := by
        have hlen : fs.length = a.length + (b'.length + 2) := by rw [hsplit, hx]; simp
        rw [List.getD_eq_getElem?_getD, hlen]
        conv => lhs; rw [hsplit]
        rw [List.getElem?_append_right (by omega), hx]
        rw [show a.length + (b'.length + 2) - 1 - a.length = b'.length + 1 by omega, List.getElem?_cons_succ,
          List.getElem?_append_right (Nat.le_refl _), Nat.sub_self]
        rfl
      rw [hlast]
      have hset : fs.set i x = a ++ x :: b := by
        conv => lhs; rw [hsplit]
        rw [List.set_append_right _ _ (by omega), hal, Nat.sub_self]; rfl
      rw [hset, hx, show a ++ x :: (b' ++ [x]) = (a ++ x :: b') ++ [x] by simp, List.dropLast_concat]
      exact List.Perm.append_left a (by
        have := List.perm_append_comm (l₁ := [x]) (l₂ := b')
        exact this)
    · rename_i hlt
      have hd : fs.drop (i + 1) = [] := List.drop_eq_nil_of_le (by omega)
      rw [hd, List.append_nil]
      conv => lhs; rw [hsplit, hd]
      rw [List.dropLast_concat]

/-- C45.  For every history of opened and closed streams the table flushed by the exit destructor holds exactly the
streams still open (each once), so none is left unflushed and no closed stream is touched. -/
theorem fileman_exact (ops : List FOp) : (fileman ops).Perm (openStreams ops) := by
  induction ops with
  | nil => exact List.Perm.refl _
  | cons op ops ih =>
    cases op with
    | opened fp =>
      rw [fileman, openStreams, addOpened]
      exact (List.perm_append_singleton fp _).trans (ih.cons fp)
    | closed fp =>
      rw [fileman, openStreams]
      exact (removeOpened_perm _ fp).trans (ih.erase fp)

/-- Non-vacuity: three streams, the first one closed. -/
example : fileman [.closed 1, .opened 3, .opened 2, .opened 1] = [3, 2] := by decide

end Verif.FileOut

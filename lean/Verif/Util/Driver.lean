/-!
# C85: what the driver reports and leaves behind does not depend on the schedule

`xcc` runs the preprocessor, the compiler proper and the assembler as three
concurrent processes joined by two pipes, and waits for whichever ends first.
This file models the driver (src/xcc/main.c) and the three children as a
transition system in which at every point any process that can move may be the
next one to move, and in which the kernel may hand back ended children in any
order.  Pipes have an arbitrary capacity, a reader sees the end of its input
only when no process holds the write end any more, and file descriptors are
inherited the way `fork` inherits them.

The specification (`Succeeds`, `objectOf`) knows nothing of processes: it runs
the three tools one after the other on complete inputs.

Not modelled: failure of `fork`, `pipe`, `dup`, `mkstemps`; interrupted waits;
a signal from outside; reuse of process numbers; the text the tools print.
-/

namespace Verif.Driver

/-! ## The tools -/

/-- What the three tools do on one source.  A tool is described by what it
writes and the status it ends with, as a function of the bytes it has read:
* `cpp` (src/cpp/cpp.c:9-70) does not read a pipe: it writes `text` and ends
  with `cppSt`, however it ends;
* `cc1` (src/cc/cc1.c:43-182) reads its standard input to the end before it
  generates anything (`compile1` then `gen`/`emit_code`); it may die earlier
  (`exit(1)` on a fatal error, an assertion, failing `execvp`), which is
  `ccDies` of what it has read so far;
* `as` (src/as/as.c:14-55,125-217) reads its standard input to the end
  (`parse_file`) before it opens the object file (`emit_elf_obj`,
  src/as/emit_elf.c:484); `asDies` is an earlier death.
Simplification: reading and writing is byte by byte, so block-buffered output
is only one of the modelled schedules; statuses of deaths are `n + 1`, i.e. a
tool that dies early does not claim success. -/
structure Tools where
  text : List UInt8
  cppSt : Nat
  ccDies : List UInt8 → Option Nat
  ccOut : List UInt8 → List UInt8 × Nat
  asDies : List UInt8 → Option Nat
  asOut : List UInt8 → Except Nat (List UInt8)

/-- src/xcc/main.c:159-164. -/
inductive OutType
  | preprocess | assembly | object | executable
  deriving DecidableEq, Repr

/-- `out_type > OutAssembly`, src/xcc/main.c:170,188. -/
def OutType.hasAs : OutType → Bool
  | .preprocess => false
  | .assembly => false
  | .object => true
  | .executable => true

/-- `cc1_cmd` is NULL only when preprocessing, src/xcc/main.c:196. -/
def OutType.hasCc : OutType → Bool
  | .preprocess => false
  | _ => true

/-! ## Processes -/

/-- A child of the driver as the kernel sees it. -/
inductive Child (α : Type) where
  | none                   -- not started
  | run (s : α)
  | zombie (st : Nat)      -- ended, not waited for
  | reaped                 -- ended and waited for
  deriving Repr, DecidableEq

/-- `kill(pid, SIGKILL)`, src/xcc/main.c:124,134,202.  The signal takes effect
at once: a process it is sent to runs no further instruction of its own. -/
def Child.kill {α} : Child α → Child α
  | .run _ => .zombie 9
  | c => c

/-- Does the process hold file descriptors?  (What `fork` at src/xcc/main.c:24-29
gave it, until it ends.) -/
def Child.alive {α} : Child α → Bool
  | .run _ => true
  | _ => false

/-- Is it a child `waitpid` (src/xcc/main.c:31-41) can still return? -/
def Child.waitable {α} : Child α → Bool
  | .run _ => true
  | .zombie _ => true
  | _ => false

/-- `cc1` at work: parsing its input (src/cc/cc1.c:43-47), then writing
(src/cc/cc1.c:176-179). -/
inductive CcRun where
  | reading (acc : List UInt8)
  | writing (rest : List UInt8) (st : Nat)
  deriving Repr, DecidableEq

/-- `as` at work: reading its input (src/as/as.c:14-55), then about to write the
object file (src/as/as.c:208). -/
inductive AsRun where
  | reading (acc : List UInt8)
  | emitting (obj : List UInt8)
  deriving Repr, DecidableEq

/-- Where the driver is in `compile_csource` and `compile`,
src/xcc/main.c:188-194 (`startAs`), :102-106, :109-111, :113-141 (`loop`),
:201-204 (`after`), :205-208 (`close`), :209 (`waitLast`). -/
inductive Pc where
  | startAs | startCc | startCpp | loop | after | close | waitLast | finished
  deriving Repr, DecidableEq

/-- The driver's variables (src/xcc/main.c:98-113,185-186), its children, the two
pipes and the files. -/
structure St where
  pc : Pc
  res : Nat
  running : Nat
  cppPid : Bool            -- cpp_pid != -1
  ccPid : Bool             -- cc_pid != -1
  asPid : Bool             -- as_pid != -1
  p1 : Bool                -- the driver holds both ends of cc_fd
  p2 : Bool                -- the driver holds both ends of as_fd
  cpp : Child (List UInt8) -- what is left to write
  cc : Child CcRun
  as : Child AsRun
  q1 : List UInt8          -- in the pipe cc_fd
  q2 : List UInt8          -- in the pipe as_fd
  out : List UInt8         -- written to the output file of -E or -S
  obj : Option (List UInt8) -- the object file
  removed : Bool           -- remove(ofn) has been called
  deriving Repr, DecidableEq

/-- Entering `compile_csource` (src/xcc/main.c:166-184) with the object file's
path holding `old`; for an executable the path is a fresh, empty file made by
`mkstemps`. -/
def init (m : OutType) (old : Option (List UInt8)) : St where
  pc := .startAs
  res := 0
  running := 0
  cppPid := false
  ccPid := false
  asPid := false
  p1 := false
  p2 := false
  cpp := .none
  cc := .none
  as := .none
  q1 := []
  q2 := []
  out := []
  obj := if m = .executable then some [] else old
  removed := false

/-- Which child `waitpid` returns, src/xcc/main.c:33,40. -/
inductive Who where
  | cpp | cc | as
  deriving Repr, DecidableEq

/-- Who moves next: the processes started at src/xcc/main.c:103,110,192, or the
driver. -/
inductive Actor where
  | cpp | cc | as
  | driver (w : Who)
  deriving Repr, DecidableEq

/-- One move of `cpp`: it writes into the pipe, waiting while it is full, or
straight into the output file when only preprocessing (src/xcc/main.c:98-111).
Its reader never disappears: the driver and `cpp` itself hold a read end. -/
def cppStep (t : Tools) (m : OutType) (cap : Nat) (s : St) : Option St :=
  match s.cpp with
  | .run [] => some { s with cpp := .zombie t.cppSt }
  | .run (b :: r) =>
    if m.hasCc = false then some { s with cpp := .run r, out := s.out ++ [b] }
    else if s.q1.length < cap then some { s with cpp := .run r, q1 := s.q1 ++ [b] }
    else none
  | _ => none

/-- One move of `cc1`.  The write ends of its input are held by the driver
(until src/xcc/main.c:127-128) and by `cpp`; `pipe_exec` has closed its own
(:78-79).  Its output goes to the assembler's pipe, of which it holds a read
end itself (`as_fd` is inherited), or to the output file. -/
def ccStep (t : Tools) (m : OutType) (cap : Nat) (s : St) : Option St :=
  match s.cc with
  | .run (.reading acc) =>
    match t.ccDies acc with
    | some n => some { s with cc := .zombie (n + 1) }
    | none =>
      match s.q1 with
      | b :: q => some { s with cc := .run (.reading (acc ++ [b])), q1 := q }
      | [] =>
        if s.p1 = false ∧ s.cpp.alive = false then
          some { s with cc := .run (.writing (t.ccOut acc).1 (t.ccOut acc).2) }
        else none
  | .run (.writing [] st) => some { s with cc := .zombie st }
  | .run (.writing (b :: r) st) =>
    if m.hasAs = false then
      some { s with cc := .run (.writing r st), out := s.out ++ [b] }
    else if s.q2.length < cap then
      some { s with cc := .run (.writing r st), q2 := s.q2 ++ [b] }
    else none
  | _ => none

/-- One move of `as`.  The write ends of its input are held by the driver
(until src/xcc/main.c:206-207), by `cc1`, and by `cpp`, which has inherited
them.  Writing the object file is one step (simplification). -/
def asStep (t : Tools) (s : St) : Option St :=
  match s.as with
  | .run (.reading acc) =>
    match t.asDies acc with
    | some n => some { s with as := .zombie (n + 1) }
    | none =>
      match s.q2 with
      | b :: q => some { s with as := .run (.reading (acc ++ [b])), q2 := q }
      | [] =>
        if s.p2 = false ∧ s.cpp.alive = false ∧ s.cc.alive = false then
          match t.asOut acc with
          | .error n => some { s with as := .zombie (n + 1) }
          | .ok o => some { s with as := .run (.emitting o) }
        else none
  | .run (.emitting o) => some { s with as := .zombie 0, obj := some o }
  | _ => none

/-- `waitpid` has nobody to wait for and fails, src/xcc/main.c:33-34,138-140. -/
def noKids (s : St) : Bool :=
  !s.cpp.waitable && !s.cc.waitable && !s.as.waitable

/-- `waitpid(0 or -1, &status, 0)` returning child `w`, src/xcc/main.c:31-41. -/
def reap (w : Who) (s : St) : Option (Nat × St) :=
  match w with
  | .cpp => match s.cpp with
    | .zombie st => some (st, { s with cpp := .reaped })
    | _ => none
  | .cc => match s.cc with
    | .zombie st => some (st, { s with cc := .reaped })
    | _ => none
  | .as => match s.as with
    | .zombie st => some (st, { s with as := .reaped })
    | _ => none

/-- The body of the waiting loop once child `w` has been handed back with
`status`, src/xcc/main.c:115-140.  `break` leaves for `.after`; otherwise
`--running`.  A child that is neither `cpp` nor `cc1` is only counted. -/
def loopBody (w : Who) (status : Nat) (s : St) : St :=
  let s := { s with res := s.res ||| status }
  match w with
  | .cpp =>
    let s := { s with cppPid := false }
    if s.ccPid then
      if status ≠ 0 then { s with cc := s.cc.kill, pc := .after }
      else { s with p1 := false, running := s.running - 1 }
    else { s with running := s.running - 1 }
  | .cc =>
    let s := { s with ccPid := false }
    if s.cppPid then { s with cpp := s.cpp.kill, pc := .after }
    else { s with running := s.running - 1 }
  | .as => { s with running := s.running - 1 }

/-- One move of the driver in `compile_csource` and `compile`,
src/xcc/main.c:97-143,166-215.  `w` is the child the kernel hands back if the
move is a wait.  Note `.close`: `as_pid` is set to -1 *before* it is passed to
`wait_process`, so the last wait is for any child. -/
def driverStep (t : Tools) (m : OutType) (w : Who) (s : St) : Option St :=
  match s.pc with
  | .startAs =>
    if m.hasAs then
      some { s with pc := .startCc, as := .run (.reading []), p2 := true, asPid := true }
    else some { s with pc := .startCc }
  | .startCc =>
    if m.hasCc then
      some { s with pc := .startCpp, cc := .run (.reading []), p1 := true, ccPid := true,
                    running := s.running + 1 }
    else some { s with pc := .startCpp }
  | .startCpp =>
    some { s with pc := .loop, cpp := .run t.text, cppPid := true, running := s.running + 1 }
  | .loop =>
    if s.running = 0 then some { s with pc := .after }
    else if noKids s then some { s with res := s.res ||| 1, running := s.running - 1 }
    else match reap w s with
      | none => none
      | some (status, s') => some (loopBody w status s')
  | .after =>
    if s.res ≠ 0 ∧ s.asPid = true then
      some { s with pc := .close, as := s.as.kill, removed := true,
                    obj := if m = .executable then s.obj else none }
    else some { s with pc := .close }
  | .close =>
    if s.asPid then some { s with pc := .waitLast, p2 := false, asPid := false }
    else some { s with pc := .finished }
  | .waitLast =>
    if noKids s then some { s with res := 1, pc := .finished }
    else match reap w s with
      | none => none
      | some (status, s') => some { s' with res := s'.res ||| status, pc := .finished }
  | .finished => none

/-- One move of whoever is next (the processes of src/xcc/main.c:97-215). -/
def step (t : Tools) (m : OutType) (cap : Nat) : Actor → St → Option St
  | .cpp, s => cppStep t m cap s
  | .cc, s => ccStep t m cap s
  | .as, s => asStep t s
  | .driver w, s => driverStep t m w s

/-- A schedule of src/xcc/main.c:97-215 and its children, move by move. -/
def run (t : Tools) (m : OutType) (cap : Nat) : List Actor → St → Option St
  | [], s => some s
  | a :: as, s => match step t m cap a s with
    | none => none
    | some s' => run t m cap as s'

/-! ## Specification: the tools one after the other -/

/-- The tool dies at some point while reading `input`. -/
def Dies (dies : List UInt8 → Option Nat) (input : List UInt8) : Prop :=
  ∃ p, p <+: input ∧ dies p ≠ none

/-- The assembly text. -/
def Tools.asm (t : Tools) : List UInt8 := (t.ccOut t.text).1

/-- Preprocessing and, if asked for, compiling succeed. -/
def FrontOk (t : Tools) (m : OutType) : Prop :=
  t.cppSt = 0 ∧ (m.hasCc = true → ¬ Dies t.ccDies t.text ∧ (t.ccOut t.text).2 = 0)

/-- Assembling succeeds and yields `o`. -/
def Assembles (t : Tools) (o : List UInt8) : Prop :=
  ¬ Dies t.asDies t.asm ∧ t.asOut t.asm = .ok o

/-- Every tool asked for succeeds on the complete output of the one before. -/
def Succeeds (t : Tools) (m : OutType) : Prop :=
  FrontOk t m ∧ (m.hasAs = true → ∃ o, Assembles t o)

/-- The text -E or -S writes. -/
def Tools.textOf (t : Tools) : OutType → List UInt8
  | .preprocess => t.text
  | .assembly => t.asm
  | _ => []
end Verif.Driver

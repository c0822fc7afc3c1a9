import Verif.Util.Leb128
/-!
# C80: linking WebAssembly objects

`src/wcc/wasm_linker.c` combines object files: it resolves symbols (:608-786), gives functions and data their final numbers and addresses
(:847-998), builds the table for indirect calls (:1000-1056) and patches every relocated place (:1058-1178).

The model keeps the structure of the files (symbol tables, code, data segments) and takes the code of a function as opaque.  Names, objects and
positions are numbers.  `Ent` is a `SymbolInfo*`: an object, a position in its symbol table, and the symbol.

The specification says what a reference means (`Means`): the one strong definition of the name, else the first weak one, else an import; a local symbol means
the definition in its own file.

Simplifications: events (tags) are left out; arithmetic is unbounded (sizes below 2^32); messages of archive members, which the code prints but does not
count (:661), count as failure; the file the linker makes itself for `__wasm_call_ctors` (:672-722) is one of the files; the order in which hash tables are iterated is a parameter, and the theorems hold for every order.
-/

namespace Verif.WLink

/-- Kinds of symbols (wasm_obj.h:19-26). -/
inductive Kind | func | data | glob
deriving DecidableEq, Repr

/-- A symbol (`SymbolInfo`, wasm_obj.h:78-112).  `loc`: BINDING_LOCAL and VISIBILITY_HIDDEN, which the compiler sets together (emit_wasm.c:588-589, 631-632);
`wasi`: the module of an import is WASI_MODULE_NAME. -/
structure Sym where
  name : Nat
  kind : Kind
  undef : Bool := false
  loc : Bool := false
  weak : Bool := false
  idx : Nat := 0
  off : Nat := 0
  p2 : Nat := 0
  wasi : Bool := false
deriving DecidableEq, Repr

/-- A data segment (`DataSegmentForLink`, wasm_linker.c:228-232). -/
structure Seg where
  start : Nat
  bytes : List Nat
deriving DecidableEq, Repr

/-- An object file (`WasmObj`, wasm_obj.h:114-153).  `code`: the functions defined; `elems`: the functions whose address is taken. -/
structure Obj where
  nimp : Nat
  code : List Nat
  segs : List Seg
  syms : List Sym
  elems : List Nat
deriving DecidableEq, Repr

/-- A symbol in a file (`SymbolInfo*`). -/
structure Ent where
  o : Nat
  k : Nat
  s : Sym
deriving DecidableEq, Repr

/-- The hash tables `linker->defined` and `linker->unresolved` (C13: finite maps); the latter has null entries for exports (wasm_linker.c:1590-1593). -/
structure St where
  D : Nat → Option Ent
  U : Nat → Option (Option Ent)

/-- `table_put`, `table_delete`. -/
def upd {α} (f : Nat → α) (n : Nat) (v : α) : Nat → α := fun x => if x = n then v else f x

/-- What happens to the tables, in order: an archive member is about to be loaded because it defines `n` (:657), a symbol of a file is entered. -/
inductive Ev
  | del (n : Nat)
  | sym (e : Ent)

/-- `unre != NULL && unre->kind != sym->kind` (:627-628). -/
def badKind (st : St) (s : Sym) : Bool :=
  match st.U s.name with
  | some (some u) => u.s.kind ≠ s.kind
  | _ => false

/-- The body of the loop of `resolve_symbols_wasmobj` (:608-641); `none`: a message. -/
def step (st : St) : Ev → Option St
  | .del n => some ⟨st.D, upd st.U n none⟩
  | .sym e =>
    if e.s.undef then
      match st.D e.s.name with
      | none => some ⟨st.D, upd st.U e.s.name (some (some e))⟩
      | some p => if p.s.kind = e.s.kind then some st else none
    else if e.s.loc then some st
    else
      match st.D e.s.name with
      | none => if badKind st e.s then none else some ⟨upd st.D e.s.name (some e), upd st.U e.s.name none⟩
      | some p =>
        if !p.s.weak && !e.s.weak then none
        else if badKind st e.s then none
        else some ⟨if e.s.weak then st.D else upd st.D e.s.name (some e), upd st.U e.s.name none⟩

/-- All of them. -/
def run : St → List Ev → Option St
  | st, [] => some st
  | st, ev :: l => (step st ev).bind fun st => run st l

/-- The symbols of file `o`. -/
def entries (objs : Nat → Obj) (o : Nat) : List Ent := (objs o).syms.zipIdx.map fun p => ⟨o, p.2, p.1⟩

/-- The events of resolution (`resolve_symbols` :728-738, `resolve_symbols_archive` :647-670): the files in the order they are looked at, with the
name that made an archive member load. -/
def events (objs : Nat → Obj) (script : List (Option Nat × Nat)) : List Ev :=
  script.flatMap fun p => (match p.1 with | some n => [.del n] | none => []) ++ (entries objs p.2).map .sym

/-- Unresolved symbols at the end (:747-782): functions of WASI become imports, `__stack_pointer` and `__curbrk` are provided. -/
def okUnres (sp cb : Nat) (U : Nat → Option (Option Ent)) (n : Nat) : Bool :=
  match U n with
  | none => true
  | some none => false
  | some (some e) => if e.s.kind = .func then e.s.wasi else n == sp || n == cb

/-- The tables after :747-782. -/
def settle (st : St) : St where
  D n := match st.U n with
    | some (some e) => if e.s.kind = .func then st.D n else some e
    | _ => st.D n
  U n := match st.U n with
    | some (some e) => if e.s.kind = .func then some (some e) else none
    | _ => none

/-- The tables after all files have been looked at (:728-740); exports are entered first, without a symbol (:1590-1593). -/
def load (objs : Nat → Obj) (script : List (Option Nat × Nat)) (exports : List Nat) : Option St :=
  run ⟨fun _ => none, fun n => if n ∈ exports then some none else none⟩ (events objs script)

/-- `resolve_symbols` (:724-786) with the exports (:1590-1593); `uo` is the order of iteration of the table of unresolved symbols. -/
def resolve (objs : Nat → Obj) (script : List (Option Nat × Nat)) (exports : List Nat) (sp cb : Nat) (uo : List Nat) : Option St :=
  (load objs script exports).bind fun st =>
    if uo.all (okUnres sp cb st.U) then some (settle st) else none

/-- The imports, in the order they are numbered (:757) and written (`out_import_section` :1187-1201). -/
def imports (st : St) (uo : List Nat) : List Nat := uo.filter fun n => (st.U n).isSome

/-- `defined_count[SIK_SYMTAB_FUNCTION]` when file `o` is reached (`renumber_symbols` :884-902, :880). -/
def fbase (objs : Nat → Obj) : List Nat → Nat → Nat → Nat
  | [], _, acc => acc
  | o' :: fs, o, acc => if o' = o then acc else fbase objs fs o (acc + (objs o').code.length)

/-- `combined_index` of a function (:757, :860): for an import its place in the list, for a definition its place among the functions of all files.  Only
asked for targets of relocations, for which it has been set. -/
def comb (objs : Nat → Obj) (fs : List Nat) (imps : List Nat) (e : Ent) : Nat :=
  if e.s.undef then imps.idxOf e.s.name
  else e.s.idx + fbase objs fs e.o imps.length - (objs e.o).nimp

/-- The symbol a relocation refers to (:1135-1137). -/
def target (st : St) (e : Ent) : Ent :=
  match st.D e.s.name with
  | some t => t
  | none =>
    match st.U e.s.name with
    | some (some t) => t
    | _ => e

/-- What a function index of the linked module stands for: an import or code. -/
inductive Fn
  | imp (n : Nat)
  | body (b : Nat)
deriving DecidableEq, Repr

/-- The function index space of the linked module: imports first (WebAssembly 2.5), then the code sections of the files in order
(`out_code_section` :1431-1468). -/
def space (objs : Nat → Obj) (fs : List Nat) (imps : List Nat) : List Fn :=
  imps.map .imp ++ fs.flatMap fun o => (objs o).code.map .body

/-- `renumber_indirect_functions_wasmobj` (:1000-1034): the symbols whose functions go into the table. -/
def indirects (objs : Nat → Obj) (st : St) (o : Nat) : List (Option Ent) :=
  (objs o).elems.map fun i =>
    match (entries objs o).find? fun e => e.s.kind == .func && e.s.idx == i with
    | none => none
    | some e =>
      if e.s.loc then some e
      else
        match st.D e.s.name with
        | some t => some t
        | none => match st.U e.s.name with
          | some (some t) => some t
          | _ => none

/-- The table of functions: null before INDIRECT_FUNCTION_TABLE_START_INDEX, which is 1 (`out_elems_section` :1405-1429). -/
def table (objs : Nat → Obj) (fs imps : List Nat) (ents : List Ent) : List (Option Nat) :=
  none :: ents.map fun e => some (comb objs fs imps e)

/-- `indirect_index` (:1051-1055): the last place of the symbol. -/
def indirIdx (ents : List Ent) (e : Ent) : Nat :=
  match ents.zipIdx.reverse.find? fun p => p.1 == e with
  | some p => p.2 + 1
  | none => 0

/-! ## Data -/

/-- `ALIGN` (C25, util.h). -/
def alignUp (a n : Nat) : Nat := (a + n - 1) / n * n

/-- The largest alignment of the data of a file (`remap_data_address_wasmobj` :947-956). -/
def maxP (o : Obj) : Nat := (o.syms.filter fun s => s.kind == .data && !s.undef).foldl (fun m s => max m s.p2) 0

/-- Where the data of a file goes, and the next free address (:959-968). -/
def place (o : Obj) (addr : Nat) : Nat × Nat :=
  let a := alignUp addr (2 ^ maxP o)
  (a, o.segs.foldl (fun m s => max m (a + s.start + s.bytes.length)) a)

/-- The address at which the data of file `o` begins (`remap_data_address` :983-998). -/
def dbase (objs : Nat → Obj) : List Nat → Nat → Nat → Nat
  | [], _, addr => addr
  | o' :: fs, o, addr => if o' = o then (place (objs o') addr).1 else dbase objs fs o (place (objs o') addr).2

/-- The end of all data. -/
def dend (objs : Nat → Obj) : List Nat → Nat → Nat
  | [], addr => addr
  | o' :: fs, addr => dend objs fs (place (objs o') addr).2

/-- `sym->data.address` (:971-979). -/
def addrOf (objs : Nat → Obj) (fs : List Nat) (stack : Nat) (e : Ent) : Option Nat :=
  ((objs e.o).segs[e.s.idx]?).map fun g => dbase objs fs e.o stack + g.start + e.s.off

/-- Trailing zeros are not written (:1478-1481). -/
def trim (l : List Nat) : List Nat := (l.reverse.dropWhile (· == 0)).reverse

/-- `out_data_section` (:1470-1530): segments with their final addresses; empty ones are left out. -/
def outSegs (objs : Nat → Obj) (fs : List Nat) (stack : Nat) : List (Nat × List Nat) :=
  (fs.flatMap fun o => (objs o).segs.map fun g => (dbase objs fs o stack + g.start, trim g.bytes)).filter fun p => !p.2.isEmpty

/-- Specification: memory at the start of a WebAssembly module: zero, then the segments in order. -/
def image : List (Nat × List Nat) → Nat → Nat
  | [], _ => 0
  | (a, bs) :: l, x =>
    if a ≤ x ∧ x < a + bs.length ∧ image.covered l x = false then bs.getD (x - a) 0 else image l x
where
  /-- Does a later segment overwrite the place? -/
  covered : List (Nat × List Nat) → Nat → Bool
    | [], _ => false
    | (a, bs) :: l, x => decide (a ≤ x ∧ x < a + bs.length) || covered l x

/-- The alignments of the segments are attached to data symbols in order (`read_linking` :407-427), undefined ones included. -/
def segInfo : List Sym → List Nat → Option (List Sym)
  | ss, [] => some ss
  | [], _ :: _ => none
  | s :: ss, p :: ps =>
    if s.kind = .data then (segInfo ss ps).map ({ s with p2 := p } :: ·) else (segInfo ss (p :: ps)).map (s :: ·)

/-! ## Bytes -/

/-- `put_varuint32` (:1074-1087): the bytes there say how long the number is; `none`: it does not fit. -/
def putU : Nat → List Nat → Nat → Option (List Nat)
  | _, [], _ => none
  | c, b :: l, x =>
    if b < 128 then (if x > 127 then none else some (x :: l))
    else if c ≥ 5 then none
    else (putU (c + 1) l (x / 128)).map ((x % 128 + 128) :: ·)

/-- `put_varint32` (:1058-1072); `>>` is arithmetic. -/
def putS : List Nat → Int → Option (List Nat)
  | b0 :: b1 :: b2 :: b3 :: b4 :: l, x =>
    if b0 < 128 ∨ b1 < 128 ∨ b2 < 128 ∨ b3 < 128 ∨ 128 ≤ b4 then none
    else some (((x % 128).toNat + 128) :: ((x / 128 % 128).toNat + 128) :: ((x / 128 / 128 % 128).toNat + 128) ::
      ((x / 128 / 128 / 128 % 128).toNat + 128) :: (x / 128 / 128 / 128 / 128 % 128).toNat :: l)
  | _, _ => none

/-- `put_i32` (:1089-1094). -/
def putI : List Nat → Int → Option (List Nat)
  | _ :: _ :: _ :: _ :: l, x =>
    some ((x % 256).toNat :: (x / 256 % 256).toNat :: (x / 256 / 256 % 256).toNat :: (x / 256 / 256 / 256 % 256).toNat :: l)
  | _, _ => none

/-- `read_uleb128` (:45-57); `none`: the shift of an `int` overflows. -/
def readU : Nat → Nat → List Nat → Option (Nat × List Nat)
  | _, _, [] => none
  | sh, acc, b :: l =>
    if sh ≥ 32 ∨ b % 128 * 2 ^ sh ≥ 2 ^ 31 then none
    else if b < 128 then some (acc ||| b % 128 * 2 ^ sh, l)
    else readU (sh + 7) (acc ||| b % 128 * 2 ^ sh) l

/-- `read_leb128` (:28-43). -/
def readS : Nat → Nat → List Nat → Option (Int × List Nat)
  | _, _, [] => none
  | sh, acc, b :: l =>
    if sh ≥ 32 ∨ b % 128 * 2 ^ sh ≥ 2 ^ 31 then none
    else if b < 128 then some (((acc ||| b % 128 * 2 ^ sh : Nat) : Int) - (if b / 64 % 2 = 1 then 2 ^ sh else 0), l)
    else readS (sh + 7) (acc ||| b % 128 * 2 ^ sh) l

/-! ## Specification of symbol resolution -/

/-- A definition of `n` that other files see. -/
def Ent.defs (n : Nat) (e : Ent) : Bool := !e.s.undef && !e.s.loc && e.s.name == n

/-- All symbols, in the order the files are looked at. -/
def allEnts (objs : Nat → Obj) (script : List (Option Nat × Nat)) : List Ent := script.flatMap fun p => entries objs p.2

/-- `e` is *the* definition of `n`: the strong one, or else the first. -/
def TheDef (all : List Ent) (n : Nat) (e : Ent) : Prop :=
  e ∈ all ∧ e.defs n = true ∧
    (e.s.weak = false ∨ ((∀ x ∈ all, x.defs n = true → x.s.weak = true) ∧ ∃ l1 l2, all = l1 ++ e :: l2 ∧ ∀ x ∈ l1, x.defs n = false))

/-- The symbol a reference `e` means. -/
inductive Refers (all : List Ent) : Ent → Ent → Prop
  | own {e} : e.s.undef = false → e.s.loc = true → Refers all e e
  | glob {e d} : (e.s.undef = true ∨ e.s.loc = false) → TheDef all e.s.name d → Refers all e d

/-- What calling `e` reaches. -/
inductive Means (objs : Nat → Obj) (all : List Ent) : Ent → Fn → Prop
  | body {e d b} : Refers all e d → (objs d.o).code[d.s.idx - (objs d.o).nimp]? = some b → Means objs all e (.body b)
  | imp {e} : (e.s.undef = true ∨ e.s.loc = false) → (∀ x ∈ all, x.defs e.s.name = false) → Means objs all e (.imp e.s.name)
/-! ## Helper lemmas: resolution -/

/-- The symbols among the events. -/
def syms (l : List Ev) : List Ent := l.filterMap fun | .sym e => some e | .del _ => none

theorem syms_append (a b : List Ev) : syms (a ++ b) = syms a ++ syms b := by simp [syms]

theorem syms_map (l : List Ent) : syms (l.map .sym) = l := by
  induction l with
  | nil => rfl
  | cons e l ih => simp only [syms, List.map_cons, List.filterMap_cons] at ih ⊢; rw [ih]

theorem syms_events (objs : Nat → Obj) (script : List (Option Nat × Nat)) : syms (events objs script) = allEnts objs script := by
  induction script with
  | nil => rfl
  | cons p l ih =>
    simp only [events, allEnts, List.flatMap_cons] at ih ⊢
    rw [syms_append, syms_append, syms_map, ih]
    cases p.1 <;> simp [syms]

/-- The definition among the symbols seen. -/
def pick (n : Nat) (seen : List Ent) : Option Ent :=
  match seen.find? fun e => e.defs n && !e.s.weak with
  | some e => some e
  | none => seen.find? fun e => e.defs n

/-- The invariant. -/
structure Inv (st : St) (seen : List Ent) : Prop where
  d : ∀ n, st.D n = pick n seen
  u : ∀ n e, st.U n = some (some e) → e.s.undef = true ∧ e.s.name = n ∧ e ∈ seen
  x : ∀ n, st.D n ≠ none → st.U n = none

theorem pick_other {n : Nat} {seen : List Ent} {e : Ent} (h : e.defs n = false) : pick n (seen ++ [e]) = pick n seen := by
  simp only [pick, List.find?_append]
  rw [show List.find? (fun e => e.defs n && !e.s.weak) [e] = none by simp [h]]
  rw [show List.find? (fun e => e.defs n) [e] = none by simp [h]]
  simp

theorem pick_none {n : Nat} {seen : List Ent} (h : pick n seen = none) : ∀ e ∈ seen, e.defs n = false := by
  simp only [pick] at h
  split at h
  · cases h
  · intro e he
    have := List.find?_eq_none.mp h e he
    simpa using this

theorem pick_weak {n : Nat} {seen : List Ent} {p : Ent} (h : pick n seen = some p) (hw : p.s.weak = true) :
    seen.find? (fun e => e.defs n && !e.s.weak) = none ∧ seen.find? (fun e => e.defs n) = some p := by
  simp only [pick] at h
  split at h
  · rename_i e he
    cases h
    have := List.find?_some he
    simp [hw] at this
  · rename_i he
    exact ⟨he, h⟩

theorem pick_mem {n : Nat} {seen : List Ent} {p : Ent} (h : pick n seen = some p) : p ∈ seen ∧ p.defs n = true := by
  simp only [pick] at h
  split at h
  · rename_i e he
    cases h
    have := List.find?_some he
    simp only [Bool.and_eq_true] at this
    exact ⟨List.mem_of_find?_eq_some he, this.1⟩
  · have := List.find?_some h
    exact ⟨List.mem_of_find?_eq_some h, this⟩

theorem Ent.defs_name {n : Nat} {e : Ent} (h : e.s.name ≠ n) : e.defs n = false := by simp [Ent.defs, h]

theorem step_inv {st st' : St} {seen : List Ent} (i : Inv st seen) (ev : Ev) (h : step st ev = some st') : Inv st' (seen ++ syms [ev]) := by
  cases ev with
  | del n =>
    simp only [step, Option.some.injEq] at h; subst h
    simp only [syms, List.filterMap_cons, List.filterMap_nil, List.append_nil]
    refine ⟨i.d, fun m e hm => ?_, fun m hm => ?_⟩
    · simp only [upd] at hm; split at hm
      · cases hm
      · exact i.u m e hm
    · simp only [upd]; split
      · rfl
      · exact i.x m hm
  | sym e =>
    rw [show syms [Ev.sym e] = [e] from rfl]
    simp only [step] at h
    split at h
    · rename_i hu
      have hd : ∀ n, e.defs n = false := fun n => by simp [Ent.defs, hu]
      split at h
      · rename_i hD
        cases h
        refine ⟨fun n => by rw [pick_other (hd n)]; exact i.d n, fun n x hx => ?_, fun n hn => ?_⟩
        · simp only [upd] at hx; split at hx
          · rename_i hn; cases hx; exact ⟨hu, hn.symm, by simp⟩
          · obtain ⟨a, b, c⟩ := i.u n x hx; exact ⟨a, b, by simp [c]⟩
        · simp only [upd]; split
          · rename_i hnn; subst hnn; exact absurd hD hn
          · exact i.x n hn
      · split at h
        · cases h
          exact ⟨fun n => by rw [pick_other (hd n)]; exact i.d n, fun n x hx => by
            obtain ⟨a, b, c⟩ := i.u n x hx; exact ⟨a, b, by simp [c]⟩, i.x⟩
        · cases h
    · rename_i hu
      split at h
      · rename_i hl
        have hd : ∀ n, e.defs n = false := fun n => by simp [Ent.defs, hl]
        cases h
        exact ⟨fun n => by rw [pick_other (hd n)]; exact i.d n, fun n x hx => by
          obtain ⟨a, b, c⟩ := i.u n x hx; exact ⟨a, b, by simp [c]⟩, i.x⟩
      · rename_i hl
        have hself : e.defs e.s.name = true := by simp [Ent.defs]; exact ⟨by simpa using hu, by simpa using hl⟩
        split at h
        · rename_i hD
          split at h
          · cases h
          · cases h
            refine ⟨fun n => ?_, fun n x hx => ?_, fun n hn => ?_⟩
            · simp only [upd]; split
              · rename_i hn; subst hn
                have hp := (i.d e.s.name).symm.trans hD
                have hno := pick_none hp
                have f1 : seen.find? (fun x => x.defs e.s.name && !x.s.weak) = none :=
                  List.find?_eq_none.mpr fun x hx => by simp [hno x hx]
                have f2 : seen.find? (fun x => x.defs e.s.name) = none :=
                  List.find?_eq_none.mpr fun x hx => by simp [hno x hx]
                simp only [pick, List.find?_append, f1, f2, Option.none_or, List.find?_cons, List.find?_nil, hself, Bool.true_and]
                cases e.s.weak <;> simp
              · rename_i hn
                rw [pick_other (Ent.defs_name (Ne.symm hn))]; exact i.d n
            · simp only [upd] at hx; split at hx
              · cases hx
              · obtain ⟨a, b, c⟩ := i.u n x hx; exact ⟨a, b, by simp [c]⟩
            · simp only [upd] at hn ⊢; split
              · rfl
              · rename_i hnn; rw [if_neg hnn] at hn; exact i.x n hn
        · rename_i p hD
          split at h
          · cases h
          · rename_i hdup
            split at h
            · cases h
            · cases h
              have hp := (i.d e.s.name).symm.trans hD
              refine ⟨fun n => ?_, fun n x hx => ?_, fun n hn => ?_⟩
              · by_cases hn : n = e.s.name
                · subst hn
                  cases hw : e.s.weak with
                  | true =>
                    simp only [if_true]
                    rw [i.d e.s.name]
                    simp only [pick, List.find?_append]
                    rw [show List.find? (fun x => x.defs e.s.name && !x.s.weak) [e] = none by simp [hw], Option.or_none]
                    cases hf : seen.find? (fun x => x.defs e.s.name && !x.s.weak) with
                    | some y => rfl
                    | none =>
                      simp only [pick, hf] at hp
                      simp [hp]
                  | false =>
                    rw [hw] at hdup
                    have hpw : p.s.weak = true := by simpa using hdup
                    obtain ⟨f1, f2⟩ := pick_weak hp hpw
                    simp only [upd, Bool.false_eq_true, if_false, if_true, pick, List.find?_append, f1, Option.none_or,
                      List.find?_cons, hself, hw, Bool.not_false, Bool.and_self]
                · rw [pick_other (Ent.defs_name (Ne.symm hn))]
                  rw [← i.d n]
                  split
                  · rfl
                  · simp [upd, hn]
              · simp only [upd] at hx; split at hx
                · cases hx
                · obtain ⟨a, b, c⟩ := i.u n x hx; exact ⟨a, b, by simp [c]⟩
              · simp only [upd] at hn ⊢; split
                · rfl
                · rename_i hnn
                  refine i.x n ?_
                  split at hn
                  · exact hn
                  · simpa [upd, hnn] using hn

theorem run_inv : ∀ (l : List Ev) {st st' : St} {seen : List Ent}, Inv st seen → run st l = some st' → Inv st' (seen ++ syms l) := by
  intro l
  induction l with
  | nil => intro st st' seen i h; simp only [run, Option.some.injEq] at h; subst h; simpa [syms] using i
  | cons ev l ih =>
    intro st st' seen i h
    simp only [run, Option.bind_eq_some_iff] at h
    obtain ⟨s1, h1, h2⟩ := h
    have := ih (step_inv i ev h1) h2
    rw [show ev :: l = [ev] ++ l from rfl, syms_append, ← List.append_assoc]
    exact this

theorem run_append : ∀ (a b : List Ev) (st : St), run st (a ++ b) = (run st a).bind fun s => run s b := by
  intro a
  induction a with
  | nil => intro b st; rfl
  | cons ev a ih =>
    intro b st
    simp only [List.cons_append, run]
    cases step st ev with
    | none => rfl
    | some s => simp only [Option.bind_some]; exact ih b s

/-- An undefined symbol stays in one of the tables, unless an archive member was loaded for it. -/
theorem step_keep {st st' : St} {seen : List Ent} (i : Inv st seen) (ev : Ev) (h : step st ev = some st') (n : Nat)
    (hk : st.D n ≠ none ∨ ∃ u, st.U n = some (some u)) : (st'.D n ≠ none ∨ ∃ u, st'.U n = some (some u)) ∨ ev = .del n := by
  have i' := step_inv i ev h
  cases ev with
  | del m =>
    simp only [step, Option.some.injEq] at h; subst h
    by_cases hm : m = n
    · exact Or.inr (by rw [hm])
    · refine Or.inl ?_
      simpa [upd, Ne.symm hm] using hk
  | sym e =>
    refine Or.inl ?_
    by_cases hd : st'.D n = none
    · refine Or.inr ?_
      have hp := (i'.d n).symm.trans hd
      have hno := pick_none hp
      have hDn : st.D n = none := by
        rw [i.d n]
        simp only [pick]
        rw [List.find?_eq_none.mpr fun x hx => by simp [hno x (by simp [hx])]]
        exact List.find?_eq_none.mpr fun x hx => by simp [hno x (by simp [hx])]
      have hed : e.defs n = false := hno e (by simp [syms])
      rcases hk with hk | ⟨u, hk⟩
      · exact absurd hDn hk
      · simp only [step] at h
        split at h
        · split at h
          · cases h
            simp only [upd]; split
            · exact ⟨_, rfl⟩
            · exact ⟨u, hk⟩
          · split at h
            · cases h; exact ⟨u, hk⟩
            · cases h
        · rename_i hu
          split at h
          · cases h; exact ⟨u, hk⟩
          · rename_i hl
            have hne : e.s.name ≠ n := by
              intro hn
              have : e.defs n = true := by simp [Ent.defs, hn]; exact ⟨by simpa using hu, by simpa using hl⟩
              rw [this] at hed; cases hed
            split at h
            · split at h
              · cases h
              · cases h; exact ⟨u, by simp [upd, Ne.symm hne, hk]⟩
            · split at h
              · cases h
              · split at h
                · cases h
                · cases h; exact ⟨u, by simp [upd, Ne.symm hne, hk]⟩
    · exact Or.inl hd

theorem run_keep : ∀ (l : List Ev) {st st' : St} {seen : List Ent}, Inv st seen → run st l = some st' → ∀ n,
    ((st.D n ≠ none ∨ ∃ u, st.U n = some (some u)) ∨ ∃ e ∈ syms l, e.s.undef = true ∧ e.s.name = n) →
    (st'.D n ≠ none ∨ ∃ u, st'.U n = some (some u)) ∨ .del n ∈ l := by
  intro l
  induction l with
  | nil =>
    intro st st' seen i h n hk
    simp only [run, Option.some.injEq] at h; subst h
    rcases hk with hk | ⟨e, he, _⟩
    · exact Or.inl hk
    · cases he
  | cons ev l ih =>
    intro st st' seen i h n hk
    simp only [run, Option.bind_eq_some_iff] at h
    obtain ⟨s1, h1, h2⟩ := h
    have i1 := step_inv i ev h1
    have next : (((s1.D n ≠ none ∨ ∃ u, s1.U n = some (some u)) ∨ ∃ e ∈ syms l, e.s.undef = true ∧ e.s.name = n)) ∨ ev = .del n := by
      rcases hk with hk | ⟨e, he, hu, hn⟩
      · rcases step_keep i ev h1 n hk with h | h
        · exact Or.inl (Or.inl h)
        · exact Or.inr h
      · rw [show ev :: l = [ev] ++ l from rfl, syms_append] at he
        rcases List.mem_append.mp he with he | he
        · cases ev with
          | del m => cases he
          | sym x =>
            simp only [syms, List.filterMap_cons, List.filterMap_nil, List.mem_singleton] at he
            subst he
            refine Or.inl (Or.inl ?_)
            simp only [step, hu, if_true] at h1
            split at h1
            · cases h1; exact Or.inr ⟨e, by simp [upd, hn]⟩
            · rename_i p hp
              split at h1
              · cases h1; exact Or.inl (by rw [← hn, hp]; simp)
              · cases h1
        · exact Or.inl (Or.inr ⟨e, he, hu, hn⟩)
    rcases next with hk | hd
    · rcases ih i1 h2 n hk with h | h
      · exact Or.inl h
      · exact Or.inr (by simp [h])
    · exact Or.inr (by simp [hd])

theorem init_inv (ex : List Nat) : Inv ⟨fun _ => none, fun n => if n ∈ ex then some none else none⟩ [] := by
  refine ⟨fun n => rfl, fun n e h => ?_, fun n h => absurd rfl h⟩
  simp only at h; split at h <;> cases h

/-- Archive members define what they were loaded for. -/
def Truthful (objs : Nat → Obj) (script : List (Option Nat × Nat)) : Prop :=
  ∀ p ∈ script, ∀ n, p.1 = some n → ∃ e ∈ entries objs p.2, e.defs n = true

theorem del_mem {objs script n} (h : Ev.del n ∈ events objs script) : ∃ p ∈ script, p.1 = some n := by
  simp only [events, List.mem_flatMap, List.mem_append, List.mem_map] at h
  obtain ⟨p, hp, h | ⟨_, _, h⟩⟩ := h
  · refine ⟨p, hp, ?_⟩
    cases hq : p.1 with
    | none => rw [hq] at h; cases h
    | some m => rw [hq] at h; simp at h; rw [h]
  · cases h

/-- `uo` enumerates the table of unresolved symbols (C13, `table_iterate`). -/
def Iterates (objs : Nat → Obj) (script : List (Option Nat × Nat)) (ex uo : List Nat) : Prop :=
  ∀ s0, load objs script ex = some s0 → ∀ n, s0.U n ≠ none → n ∈ uo

/-- What a successful resolution gives: the definitions are those of the specification, a name without definition that is referred to is in the other table. -/
theorem resolve_spec {objs script ex sp cb uo st} (ht : Truthful objs script) (h : resolve objs script ex sp cb uo = some st) :
    ∃ s0, load objs script ex = some s0 ∧ st = settle s0 ∧ uo.all (okUnres sp cb s0.U) = true ∧ Inv s0 (allEnts objs script) ∧
      ∀ n, s0.D n = none → (∃ e ∈ allEnts objs script, e.s.undef = true ∧ e.s.name = n) → ∃ u, s0.U n = some (some u) := by
  simp only [resolve, Option.bind_eq_some_iff] at h
  obtain ⟨s0, h1, h2⟩ := h
  split at h2
  · rename_i hok
    cases h2
    have i := run_inv _ (init_inv ex) h1
    rw [syms_events, List.nil_append] at i
    refine ⟨s0, h1, rfl, hok, i, fun n hn ⟨e, he, hu, hen⟩ => ?_⟩
    rcases run_keep _ (init_inv ex) h1 n (Or.inr ⟨e, by rw [syms_events]; exact he, hu, hen⟩) with h | h
    · rcases h with h | h
      · exact absurd hn h
      · exact h
    · obtain ⟨p, hp, hpn⟩ := del_mem h
      obtain ⟨d, hd, hdd⟩ := ht p hp n hpn
      have := pick_none ((i.d n).symm.trans hn) d (List.mem_flatMap.mpr ⟨p, hp, hd⟩)
      rw [hdd] at this; cases this
  · cases h2

theorem pick_theDef {n : Nat} {all : List Ent} {d : Ent} (h : pick n all = some d) : TheDef all n d := by
  obtain ⟨hm, hd⟩ := pick_mem h
  refine ⟨hm, hd, ?_⟩
  cases hw : d.s.weak with
  | false => exact Or.inl rfl
  | true =>
    obtain ⟨f1, f2⟩ := pick_weak h hw
    refine Or.inr ⟨fun x hx hxd => ?_, ?_⟩
    · have := List.find?_eq_none.mp f1 x hx
      simpa [hxd] using this
    · obtain ⟨_, l1, l2, e, hl⟩ := List.find?_eq_some_iff_append.mp f2
      exact ⟨l1, l2, e, fun x hx => by simpa using hl x hx⟩
/-! ## Helper lemmas: numbers -/

theorem space_at (objs : Nat → Obj) (o i b : Nat) (hb : (objs o).code[i]? = some b) : ∀ (fs : List Nat) (pre : List Fn), o ∈ fs →
    (pre ++ fs.flatMap fun o => (objs o).code.map Fn.body)[fbase objs fs o pre.length + i]? = some (.body b) := by
  intro fs
  induction fs with
  | nil => intro pre h; cases h
  | cons o' fs ih =>
    intro pre h
    rw [List.flatMap_cons, ← List.append_assoc]
    simp only [fbase]
    by_cases ho : o' = o
    · subst ho
      rw [if_pos rfl]
      have hi : i < (objs o').code.length := (List.getElem?_eq_some_iff.mp hb).1
      rw [List.getElem?_append_left (by simp only [List.length_append, List.length_map]; omega), List.getElem?_append_right (by omega)]
      simp [hb]
    · rw [if_neg ho]
      have := ih (pre ++ (objs o').code.map Fn.body) (by cases h with | head => exact absurd rfl ho | tail _ h => exact h)
      rwa [List.length_append, List.length_map] at this

theorem fbase_ge (objs : Nat → Obj) (o : Nat) : ∀ (fs : List Nat) (a : Nat), a ≤ fbase objs fs o a := by
  intro fs
  induction fs with
  | nil => intro a; exact Nat.le_refl _
  | cons o' fs ih =>
    intro a; simp only [fbase]; split
    · exact Nat.le_refl _
    · exact Nat.le_trans (Nat.le_add_right _ _) (ih _)

/-- Function symbols point into the code of their file. -/
def CodeOk (objs : Nat → Obj) (all : List Ent) : Prop :=
  ∀ e ∈ all, e.s.kind = .func → e.s.undef = false → (objs e.o).nimp ≤ e.s.idx ∧ e.s.idx < (objs e.o).nimp + (objs e.o).code.length

theorem mem_entries {objs : Nat → Obj} {o : Nat} {e : Ent} (h : e ∈ entries objs o) : e.o = o ∧ (objs o).syms[e.k]? = some e.s := by
  simp only [entries, List.mem_map] at h
  obtain ⟨p, hp, rfl⟩ := h
  refine ⟨rfl, ?_⟩
  obtain ⟨s, k⟩ := p
  exact List.mem_zipIdx_iff_getElem?.mp hp

theorem all_file {objs : Nat → Obj} {script : List (Option Nat × Nat)} {e : Ent} (h : e ∈ allEnts objs script) : ∃ p ∈ script, p.2 = e.o := by
  simp only [allEnts, List.mem_flatMap] at h
  obtain ⟨p, hp, he⟩ := h
  exact ⟨p, hp, (mem_entries he).1.symm⟩

theorem comb_def {objs : Nat → Obj} {fs imps : List Nat} {all : List Ent} (hwf : CodeOk objs all) {d : Ent} (hd : d ∈ all) (hk : d.s.kind = .func)
    (hu : d.s.undef = false) (ho : d.o ∈ fs) :
    ∃ b, (objs d.o).code[d.s.idx - (objs d.o).nimp]? = some b ∧ (space objs fs imps)[comb objs fs imps d]? = some (.body b) := by
  obtain ⟨h1, h2⟩ := hwf d hd hk hu
  have hlt : d.s.idx - (objs d.o).nimp < (objs d.o).code.length := by omega
  refine ⟨(objs d.o).code[d.s.idx - (objs d.o).nimp], List.getElem?_eq_getElem hlt, ?_⟩
  have := space_at objs d.o _ _ (List.getElem?_eq_getElem hlt) fs (imps.map Fn.imp) ho
  rw [List.length_map] at this
  simp only [comb, hu, Bool.false_eq_true, if_false, space]
  rw [show d.s.idx + fbase objs fs d.o imps.length - (objs d.o).nimp = fbase objs fs d.o imps.length + (d.s.idx - (objs d.o).nimp) by omega]
  exact this

/-- The hypotheses under which a reference to `e` is resolved correctly: all symbols of that name have the same kind; a file's own symbol shares its name with no
symbol of another file. -/
structure Clean (all : List Ent) (e : Ent) : Prop where
  kind : ∀ x ∈ all, x.s.name = e.s.name → x.s.kind = e.s.kind
  own : e.s.undef = false → e.s.loc = true → ∀ x ∈ all, x.s.name = e.s.name → x.s.undef = false ∧ x.s.loc = true

/-- The target of a reference. -/
theorem target_cases {objs script ex sp cb uo st} (ht : Truthful objs script) (h : resolve objs script ex sp cb uo = some st) {e : Ent}
    (he : e ∈ allEnts objs script) (hk : e.s.kind ≠ .glob) (hsp : e.s.kind = .data → e.s.name ≠ sp ∧ e.s.name ≠ cb)
    (hall : Iterates objs script ex uo) (hc : Clean (allEnts objs script) e) :
    Refers (allEnts objs script) e (target st e) ∨
    (e.s.kind = .func ∧ (e.s.undef = true ∨ e.s.loc = false) ∧ (∀ x ∈ allEnts objs script, x.defs e.s.name = false) ∧
      (target st e).s.undef = true ∧ (target st e).s.name = e.s.name ∧ e.s.name ∈ imports st uo) := by
  obtain ⟨s0, hl, rfl, hok, i, hu⟩ := resolve_spec ht h
  have hall' := hall s0 hl
  cases hD : s0.D e.s.name with
  | some d =>
    have hUn := i.x e.s.name (by rw [hD]; simp)
    have htd : TheDef (allEnts objs script) e.s.name d := pick_theDef ((i.d _).symm.trans hD)
    have hgl : e.s.undef = true ∨ e.s.loc = false := by
      cases h1 : e.s.undef with
      | true => exact Or.inl rfl
      | false =>
        cases h2 : e.s.loc with
        | false => exact Or.inr rfl
        | true =>
          obtain ⟨hm, hdf, _⟩ := htd
          have hdf' := hdf
          simp only [Ent.defs, Bool.and_eq_true, beq_iff_eq] at hdf
          have := (hc.own h1 h2 d hm hdf.2).2
          rw [this] at hdf; simp at hdf
    refine Or.inl ?_
    have : target (settle s0) e = d := by simp [target, settle, hUn, hD]
    rw [this]; exact .glob hgl htd
  | none =>
    have hno := pick_none ((i.d _).symm.trans hD)
    by_cases hgl : e.s.undef = true ∨ e.s.loc = false
    · have hund : e.s.undef = true := by
        rcases hgl with h1 | h1
        · exact h1
        · have h2 := hno e he
          simpa [Ent.defs, h1] using h2
      obtain ⟨u, hU⟩ := hu e.s.name hD ⟨e, he, hund, rfl⟩
      obtain ⟨uu, un, um⟩ := i.u _ _ hU
      have uk := hc.kind u um un
      have hin := hall' e.s.name (by rw [hU]; simp)
      have hok' := List.all_eq_true.mp hok _ hin
      cases hek : e.s.kind with
      | glob => exact absurd hek hk
      | data =>
        rw [hek] at uk
        simp [okUnres, hU, uk, (hsp hek).1, (hsp hek).2] at hok'
      | func =>
        rw [hek] at uk
        have ht' : target (settle s0) e = u := by simp [target, settle, hU, hD, uk]
        rw [ht']
        refine Or.inr ⟨rfl, hgl, hno, uu, un, ?_⟩
        simp only [imports, List.mem_filter, hin, true_and]
        simp [settle, hU, uk]
    · have h1 : e.s.undef = false := by cases hh : e.s.undef <;> simp_all
      have h2 : e.s.loc = true := by cases hh : e.s.loc <;> simp_all
      have hnu : ∀ u, s0.U e.s.name ≠ some (some u) := by
        intro u hU
        obtain ⟨uu, un, um⟩ := i.u _ _ hU
        have := (hc.own h1 h2 u um un).1
        rw [uu] at this; cases this
      refine Or.inl ?_
      have : target (settle s0) e = e := by
        simp only [target, settle]
        cases hU : s0.U e.s.name with
        | none => simp [hD]
        | some v =>
          cases v with
          | none => simp [hD]
          | some u => exact absurd hU (hnu u)
      rw [this]; exact .own h1 h2

theorem refers_mem {all : List Ent} {e d : Ent} (he : e ∈ all) (h : Refers all e d) : d ∈ all ∧ d.s.name = e.s.name ∧ d.s.undef = false := by
  cases h with
  | own h1 _ => exact ⟨he, rfl, h1⟩
  | glob _ htd =>
    obtain ⟨hm, hd, _⟩ := htd
    simp only [Ent.defs, Bool.and_eq_true, beq_iff_eq] at hd
    exact ⟨hm, hd.2, by simpa using hd.1.1⟩

/-! ## Theorems: functions -/

/-- **A call calls the function it names**: if linking succeeds, the number written into every place that refers to the function symbol `e` is, in the function
index space of the linked module, the function `e` means: the one of its own file if it is local, the strong definition or else the first weak one,
whichever file or archive member has it, or the imported function if there is no definition.  (Partial: the names are *clean*, see `static_wrong`.) -/
theorem func_ref_partial {objs script ex sp cb uo st fs} (ht : Truthful objs script) (h : resolve objs script ex sp cb uo = some st)
    (hall : Iterates objs script ex uo) (hfs : ∀ p ∈ script, p.2 ∈ fs)
    (hwf : CodeOk objs (allEnts objs script)) {e : Ent} (he : e ∈ allEnts objs script) (hk : e.s.kind = .func)
    (hc : Clean (allEnts objs script) e) :
    ∃ f, Means objs (allEnts objs script) e f ∧ (space objs fs (imports st uo))[comb objs fs (imports st uo) (target st e)]? = some f := by
  rcases target_cases ht h he (by rw [hk]; decide) (by rw [hk]; nofun) hall hc with hr | ⟨_, hgl, hno, hu, hn, hin⟩
  · obtain ⟨hm, hn, hu⟩ := refers_mem he hr
    have hk' : (target st e).s.kind = .func := by rw [hc.kind _ hm hn, hk]
    obtain ⟨p, hp, hpo⟩ := all_file hm
    obtain ⟨b, hb, hs⟩ := comb_def (imps := imports st uo) hwf hm hk' hu (hpo ▸ hfs p hp)
    exact ⟨.body b, .body hr hb, hs⟩
  · refine ⟨.imp e.s.name, .imp hgl hno, ?_⟩
    simp only [comb, hu, if_true, space, hn]
    have hlt := List.idxOf_lt_length_of_mem hin
    rw [List.getElem?_append_left (by simpa using hlt), List.getElem?_map, List.getElem?_eq_getElem hlt]
    simp
/-- **Two definitions of a name are refused.** -/
theorem duplicate_refused {objs script ex sp cb uo n l1 l2 l3} {a b : Ent} (hs : allEnts objs script = l1 ++ a :: (l2 ++ b :: l3))
    (ha : a.defs n = true) (hb : b.defs n = true) (haw : a.s.weak = false) (hbw : b.s.weak = false) :
    resolve objs script ex sp cb uo = none := by
  cases hl : load objs script ex with
  | none => simp [resolve, hl]
  | some s0 =>
    exfalso
    simp only [load] at hl
    have hs' : syms (events objs script) = (l1 ++ a :: l2) ++ (b :: l3) := by rw [syms_events, hs]; simp
    obtain ⟨ev1, ev2, e1, e2, e3⟩ := List.filterMap_eq_append_iff.mp hs'
    obtain ⟨ev3, x, ev4, f1, f2, f3, f4⟩ := List.filterMap_eq_cons_iff.mp e3
    have hx : x = .sym b := by
      cases x with
      | del => simp at f3
      | sym y => simp only [Option.some.injEq] at f3; rw [f3]
    subst hx
    rw [e1, f1, ← List.append_assoc, run_append] at hl
    simp only [Option.bind_eq_some_iff, run] at hl
    obtain ⟨s1, g1, s2, g2, _⟩ := hl
    have i := run_inv _ (init_inv ex) g1
    have hsy : syms (ev1 ++ ev3) = l1 ++ a :: l2 := by
      rw [syms_append]
      have : syms ev3 = [] := List.filterMap_eq_nil_iff.mpr f2
      rw [this, List.append_nil]; exact e2
    rw [hsy, List.nil_append] at i
    simp only [Ent.defs, Bool.and_eq_true, beq_iff_eq, Bool.not_eq_true'] at hb
    obtain ⟨⟨b1, b2⟩, b3⟩ := hb
    have hD : ∃ p, s1.D n = some p ∧ p.s.weak = false := by
      rw [i.d n]
      simp only [pick]
      have : ((l1 ++ a :: l2).find? fun e => e.defs n && !e.s.weak) ≠ none := by
        intro hn
        have := List.find?_eq_none.mp hn a (by simp)
        simp [ha, haw] at this
      cases hf : (l1 ++ a :: l2).find? fun e => e.defs n && !e.s.weak with
      | none => exact absurd hf this
      | some p =>
        have := List.find?_some hf
        simp only [Bool.and_eq_true, Bool.not_eq_true'] at this
        exact ⟨p, rfl, this.2⟩
    obtain ⟨p, hp, hpw⟩ := hD
    subst b3
    simp [step, b1, b2, hp, hpw, hbw] at g2

/-- **A name that is used must be defined**: a symbol that no file defines, and that is neither a WASI function nor one the linker provides, makes linking fail. -/
theorem undefined_refused {objs script ex sp cb uo} (ht : Truthful objs script) (hall : Iterates objs script ex uo) {e : Ent}
    (he : e ∈ allEnts objs script) (hu : e.s.undef = true) (hno : ∀ x ∈ allEnts objs script, x.defs e.s.name = false)
    (hw : ∀ x ∈ allEnts objs script, x.s.name = e.s.name → if x.s.kind = .func then x.s.wasi = false else e.s.name ≠ sp ∧ e.s.name ≠ cb) :
    resolve objs script ex sp cb uo = none := by
  cases h : resolve objs script ex sp cb uo with
  | none => rfl
  | some st =>
    exfalso
    obtain ⟨s0, hl, rfl, hok, i, hun⟩ := resolve_spec ht h
    have hD : s0.D e.s.name = none := by
      rw [i.d]; simp only [pick]
      rw [List.find?_eq_none.mpr fun x hx => by simp [hno x hx]]
      exact List.find?_eq_none.mpr fun x hx => by simp [hno x hx]
    obtain ⟨u, hU⟩ := hun _ hD ⟨e, he, hu, rfl⟩
    obtain ⟨_, un, um⟩ := i.u _ _ hU
    have := List.all_eq_true.mp hok _ (hall s0 hl e.s.name (by rw [hU]; simp))
    have hw' := hw u um un
    simp only [okUnres, hU] at this
    split at hw'
    · rename_i hk; simp [hk, hw'] at this
    · rename_i hk; simp [hk, hw'.1, hw'.2] at this

/-- Every symbol that is to be exported is defined. -/
theorem export_defined {objs script ex sp cb uo st n} (hex : n ∈ ex) (h : resolve objs script ex sp cb uo = some st) (ht : Truthful objs script)
    (hall : Iterates objs script ex uo) (hnu : ∀ x ∈ allEnts objs script, x.s.name = n → x.s.undef = false) :
    ∃ d, st.D n = some d ∧ TheDef (allEnts objs script) n d := by
  obtain ⟨s0, hl, rfl, hok, i, hun⟩ := resolve_spec ht h
  have hUu : ∀ u, s0.U n ≠ some (some u) := fun u hU => by
    obtain ⟨a, b, c⟩ := i.u _ _ hU
    rw [hnu u c b] at a; cases a
  cases hD : s0.D n with
  | some d =>
    refine ⟨d, ?_, pick_theDef ((i.d n).symm.trans hD)⟩
    simp [settle, i.x n (by rw [hD]; simp), hD]
  | none =>
    exfalso
    -- the entry made for the export stays until the symbol is defined
    have key : ∀ (l : List Ev) (st st' : St) (seen : List Ent), Inv st seen → run st l = some st' →
        (st.D n ≠ none ∨ st.U n ≠ none ∨ .del n ∈ l) → st'.D n ≠ none ∨ st'.U n ≠ none ∨ .del n ∈ l := by
      intro l
      induction l with
      | nil => intro st st' seen _ h hh; simp only [run, Option.some.injEq] at h; subst h; exact hh
      | cons ev l ih =>
        intro st st' seen i h hh
        simp only [run, Option.bind_eq_some_iff] at h
        obtain ⟨s1, h1, h2⟩ := h
        by_cases hdel : Ev.del n ∈ ev :: l
        · exact Or.inr (Or.inr hdel)
        have hh' : st.D n ≠ none ∨ st.U n ≠ none := by
          rcases hh with h | h | h
          · exact Or.inl h
          · exact Or.inr h
          · exact absurd h hdel
        have : s1.D n ≠ none ∨ s1.U n ≠ none := by
          cases ev with
          | del m =>
            have hm : n ≠ m := fun hm => hdel (by simp [hm])
            simp only [step, Option.some.injEq] at h1; subst h1
            simpa [upd, hm] using hh'
          | sym e =>
            simp only [step] at h1
            by_cases hn : n = e.s.name
            · subst hn
              split at h1
              · split at h1
                · cases h1; exact Or.inr (by simp [upd])
                · rename_i p hp
                  split at h1
                  · cases h1; exact Or.inl (by rw [hp]; simp)
                  · cases h1
              · split at h1
                · cases h1; exact hh'
                · split at h1
                  · split at h1
                    · cases h1
                    · cases h1; exact Or.inl (by simp [upd])
                  · rename_i p hp
                    split at h1
                    · cases h1
                    · split at h1
                      · cases h1
                      · cases h1; refine Or.inl ?_
                        show (if e.s.weak = true then st.D else upd st.D e.s.name (some e)) e.s.name ≠ none
                        split
                        · rw [hp]; simp
                        · simp [upd]
            · split at h1
              · split at h1
                · cases h1; simpa [upd, hn] using hh'
                · split at h1
                  · cases h1; exact hh'
                  · cases h1
              · split at h1
                · cases h1; exact hh'
                · split at h1
                  · split at h1
                    · cases h1
                    · cases h1; simpa [upd, hn] using hh'
                  · split at h1
                    · cases h1
                    · split at h1
                      · cases h1
                      · cases h1
                        show (if e.s.weak = true then st.D else upd st.D e.s.name (some e)) n ≠ none ∨ _
                        split
                        · simpa [upd, hn] using hh'
                        · simpa [upd, hn] using hh'
        rcases ih s1 st' _ (step_inv i ev h1) h2 (by rcases this with h | h; exact Or.inl h; exact Or.inr (Or.inl h)) with h | h | h
        · exact Or.inl h
        · exact Or.inr (Or.inl h)
        · exact Or.inr (Or.inr (by simp [h]))
    rcases key _ _ _ _ (init_inv ex) hl (Or.inr (Or.inl (by simp [hex]))) with h | h | h
    · exact h hD
    · have := List.all_eq_true.mp hok _ (hall s0 hl n h)
      cases hU : s0.U n with
      | none => exact h hU
      | some v =>
        cases v with
        | none => simp [okUnres, hU] at this
        | some u => exact hUu u hU
    · obtain ⟨p, hp, hpn⟩ := del_mem h
      obtain ⟨d, hd, hdd⟩ := ht p hp n hpn
      have := pick_none ((i.d n).symm.trans hD) d (List.mem_flatMap.mpr ⟨p, hp, hd⟩)
      rw [hdd] at this; cases this

/-! ## Theorems: function pointers -/

/-- The last place of a symbol is a place of the symbol. -/
theorem indirIdx_at {ents : List Ent} {e : Ent} (h : e ∈ ents) : ∃ i, indirIdx ents e = i + 1 ∧ ents[i]? = some e := by
  simp only [indirIdx]
  cases hf : ents.zipIdx.reverse.find? fun p => p.1 == e with
  | none =>
    have := List.find?_eq_none.mp hf
    obtain ⟨i, hi, he⟩ := List.getElem_of_mem h
    exact absurd (this (e, i) (by rw [List.mem_reverse]; exact List.mem_zipIdx_iff_getElem?.mpr (by rw [List.getElem?_eq_getElem hi, he]))) (by simp)
  | some p =>
    have h1 := List.find?_some hf
    have h2 := List.mem_of_find?_eq_some hf
    rw [List.mem_reverse] at h2
    obtain ⟨x, i⟩ := p
    have h3 := List.mem_zipIdx_iff_getElem?.mp h2
    simp at h1 h3
    exact ⟨i, rfl, by rw [h3, h1]⟩

/-- **A function pointer calls the function it was taken from**: if the table was built (`ents`), for every function symbol `e` of a file that lists it among the
functions whose address is taken, the value written for `&e` is, in the table of the linked module, the function `e` means. -/
theorem pointer_ref_partial {objs script ex sp cb uo st fs} {ents : List Ent} (ht : Truthful objs script) (h : resolve objs script ex sp cb uo = some st)
    (hall : Iterates objs script ex uo) (hfs : ∀ p ∈ script, p.2 ∈ fs)
    (hwf : CodeOk objs (allEnts objs script)) {e : Ent} (he : e ∈ allEnts objs script) (hk : e.s.kind = .func)
    (hc : Clean (allEnts objs script) e) (hents : fs.flatMap (indirects objs st) = ents.map some)
    (hel : e.s.idx ∈ (objs e.o).elems) (hun : e.s.undef = true → e.s.loc = false)
    (huniq : ∀ x ∈ entries objs e.o, x.s.kind = .func → x.s.idx = e.s.idx → x = e) :
    ∃ i f, (table objs fs (imports st uo) ents)[indirIdx ents (target st e)]? = some (some i) ∧
      (space objs fs (imports st uo))[i]? = some f ∧ Means objs (allEnts objs script) e f := by
  obtain ⟨f, hm, hs⟩ := func_ref_partial ht h hall hfs hwf he hk hc
  refine ⟨_, f, ?_, hs, hm⟩
  have hmem : target st e ∈ ents := by
    obtain ⟨p, hp, hpo⟩ := all_file he
    have hent : e ∈ entries objs e.o := by
      simp only [allEnts, List.mem_flatMap] at he
      obtain ⟨q, _, hq⟩ := he
      rwa [← (mem_entries hq).1] at hq
    have hf : (entries objs e.o).find? (fun x => x.s.kind == .func && x.s.idx == e.s.idx) = some e := by
      cases hf : (entries objs e.o).find? (fun x => x.s.kind == .func && x.s.idx == e.s.idx) with
      | none => exact absurd (List.find?_eq_none.mp hf e hent) (by simp [hk])
      | some x =>
        have h1 := List.find?_some hf
        simp at h1
        rw [huniq x (List.mem_of_find?_eq_some hf) h1.1 h1.2]
    have hin : ∃ o, o ∈ indirects objs st e.o ∧ ∃ r, o = r ∧ (e.s.loc = true → r = some e) ∧ (e.s.loc = false → r = match st.D e.s.name with
        | some t => some t
        | none => match st.U e.s.name with
          | some (some t) => some t
          | _ => none) := by
      refine ⟨_, List.mem_map.mpr ⟨e.s.idx, hel, rfl⟩, _, rfl, ?_, ?_⟩
      · intro hl; simp only [hf, hl, if_true]
      · intro hl; simp only [hf, hl, Bool.false_eq_true, if_false]
    obtain ⟨o, ho, r, rfl, h1, h2⟩ := hin
    have hmem' : o ∈ fs.flatMap (indirects objs st) := List.mem_flatMap.mpr ⟨e.o, hpo ▸ hfs p hp, ho⟩
    rw [hents] at hmem'
    obtain ⟨x, hx, hxo⟩ := List.mem_map.mp hmem'
    cases hl : e.s.loc with
    | true =>
      have hnu : e.s.undef = false := by
        cases hh : e.s.undef with
        | false => rfl
        | true => rw [hun hh] at hl; cases hl
      rcases target_cases ht h he (by rw [hk]; decide) (by rw [hk]; nofun) hall hc with hr | ⟨_, hgl, _⟩
      · have : target st e = e := by
          generalize target st e = d at hr
          cases hr with
          | own => rfl
          | glob hg => rcases hg with hg | hg <;> simp_all
        rw [this]
        have := h1 hl
        rw [← hxo] at this; cases this; exact hx
      · rcases hgl with hg | hg <;> simp_all
    | false =>
      have h3 := h2 hl
      rw [← hxo] at h3
      simp only [target]
      split at h3
      · cases h3; exact hx
      · split at h3
        · cases h3; exact hx
        · cases h3
  obtain ⟨i, hi, hei⟩ := indirIdx_at hmem
  simp [table, hi, hei]
/-! ## Theorems: data -/

/-- **A variable's name means the variable**: every reference to a data symbol is given the address of the definition it means. (Partial: clean names.) -/
theorem data_ref_partial {objs script ex sp cb uo st} (ht : Truthful objs script) (h : resolve objs script ex sp cb uo = some st)
    (hall : Iterates objs script ex uo) {e : Ent} (he : e ∈ allEnts objs script) (hk : e.s.kind = .data)
    (hsp : e.s.name ≠ sp ∧ e.s.name ≠ cb) (hc : Clean (allEnts objs script) e) : Refers (allEnts objs script) e (target st e) := by
  rcases target_cases ht h he (by rw [hk]; decide) (fun _ => hsp) hall hc with hr | ⟨hf, _⟩
  · exact hr
  · rw [hk] at hf; cases hf

theorem alignUp_ge (a n : Nat) (hn : 0 < n) : a ≤ alignUp a n := by
  simp only [alignUp]
  have h1 := Nat.div_add_mod (a + n - 1) n
  have h2 := Nat.mod_lt (a + n - 1) hn
  have h3 : n * ((a + n - 1) / n) = (a + n - 1) / n * n := Nat.mul_comm _ _
  omega

theorem alignUp_dvd (a n : Nat) : n ∣ alignUp a n := Nat.dvd_mul_left _ _

theorem foldl_end (a : Nat) : ∀ (gs : List Seg) (m : Nat),
    m ≤ gs.foldl (fun m s => max m (a + s.start + s.bytes.length)) m ∧
    ∀ g ∈ gs, a + g.start + g.bytes.length ≤ gs.foldl (fun m s => max m (a + s.start + s.bytes.length)) m := by
  intro gs
  induction gs with
  | nil => intro m; exact ⟨Nat.le_refl _, fun _ h => by cases h⟩
  | cons g gs ih =>
    intro m
    obtain ⟨h1, h2⟩ := ih (max m (a + g.start + g.bytes.length))
    refine ⟨by rw [List.foldl_cons]; omega, fun g' hg' => ?_⟩
    rw [List.foldl_cons]
    rcases List.mem_cons.mp hg' with rfl | hg'
    · omega
    · exact h2 g' hg'

theorem place_ge (o : Obj) (addr : Nat) : addr ≤ (place o addr).1 ∧ (place o addr).1 ≤ (place o addr).2 :=
  ⟨alignUp_ge _ _ (Nat.pow_pos (by decide)), (foldl_end _ _ _).1⟩

theorem place_end (o : Obj) (addr : Nat) : ∀ g ∈ o.segs, (place o addr).1 + g.start + g.bytes.length ≤ (place o addr).2 := (foldl_end _ _ _).2

/-- The segments of all files, laid out. -/
def lay (objs : Nat → Obj) : List Nat → Nat → List (Nat × List Nat)
  | [], _ => []
  | o :: fs, addr => (objs o).segs.map (fun g => ((place (objs o) addr).1 + g.start, g.bytes)) ++ lay objs fs (place (objs o) addr).2

theorem lay_eq (objs : Nat → Obj) : ∀ (fs : List Nat) (addr : Nat), fs.Nodup →
    (fs.flatMap fun o => (objs o).segs.map fun g => (dbase objs fs o addr + g.start, g.bytes)) = lay objs fs addr := by
  intro fs
  induction fs with
  | nil => intro addr _; rfl
  | cons o fs ih =>
    intro addr hn
    rw [List.nodup_cons] at hn
    rw [List.flatMap_cons]
    simp only [lay, dbase, if_true]
    congr 1
    rw [← ih _ hn.2]
    simp only [List.flatMap]
    congr 1
    apply List.map_congr_left
    intro x hx
    have : o ≠ x := fun h => hn.1 (h ▸ hx)
    simp only [if_neg this]

theorem lay_ge (objs : Nat → Obj) : ∀ (fs : List Nat) (addr : Nat), ∀ p ∈ lay objs fs addr, addr ≤ p.1 ∧ p.1 + p.2.length ≤ dend objs fs addr := by
  intro fs
  induction fs with
  | nil => intro addr p h; cases h
  | cons o fs ih =>
    intro addr p h
    obtain ⟨h1, h2⟩ := place_ge (objs o) addr
    simp only [lay, List.mem_append, List.mem_map] at h
    have hd : ∀ (l : List Nat) (a : Nat), a ≤ dend objs l a := by
      intro l
      induction l with
      | nil => intro a; exact Nat.le_refl _
      | cons x l ih => intro a; have := place_ge (objs x) a; have := ih (place (objs x) a).2; simp only [dend]; omega
    simp only [dend]
    rcases h with ⟨g, hg, rfl⟩ | h
    · have := place_end (objs o) addr g hg
      have := hd fs (place (objs o) addr).2
      simp only; omega
    · have := ih _ p h; omega

/-- Segments that do not overlap. -/
def Apart (p q : Nat × List Nat) : Prop := p.1 + p.2.length ≤ q.1 ∨ q.1 + q.2.length ≤ p.1

/-- The segments of a file do not overlap. -/
def SegsOk (o : Obj) : Prop := (o.segs.map fun g => (g.start, g.bytes)).Pairwise Apart

theorem lay_apart (objs : Nat → Obj) : ∀ (fs : List Nat) (addr : Nat), (∀ o ∈ fs, SegsOk (objs o)) → (lay objs fs addr).Pairwise Apart := by
  intro fs
  induction fs with
  | nil => intro addr _; exact .nil
  | cons o fs ih =>
    intro addr hok
    simp only [lay]
    refine List.pairwise_append.mpr ⟨?_, ih _ (fun x hx => hok x (by simp [hx])), ?_⟩
    · have := hok o (by simp)
      simp only [SegsOk, List.pairwise_map] at this ⊢
      exact this.imp fun h => by simp only [Apart] at h ⊢; omega
    · intro p hp q hq
      obtain ⟨g, hg, rfl⟩ := List.mem_map.mp hp
      have := place_end (objs o) addr g hg
      have := lay_ge objs fs _ q hq
      simp only [Apart]; omega

theorem trim_spec (l : List Nat) : ∃ n, l = trim l ++ List.replicate n 0 := by
  refine ⟨(l.reverse.takeWhile (· == 0)).length, ?_⟩
  have h1 : l.reverse = l.reverse.takeWhile (· == 0) ++ l.reverse.dropWhile (· == 0) := (List.takeWhile_append_dropWhile).symm
  have h2 : l.reverse.takeWhile (· == 0) = List.replicate (l.reverse.takeWhile (· == 0)).length 0 := by
    apply List.eq_replicate_of_mem
    intro x hx
    have := List.all_eq_true.mp (List.all_takeWhile (p := (· == 0)) (l := l.reverse)) x hx
    simpa using this
  have h3 := congrArg List.reverse h1
  rw [List.reverse_reverse, List.reverse_append] at h3
  conv => lhs; rw [h3]
  simp only [trim]
  congr 1
  rw [h2, List.reverse_replicate, List.length_replicate]

/-- What is written of the segments. -/
def written (L : List (Nat × List Nat)) : List (Nat × List Nat) := (L.map fun p => (p.1, trim p.2)).filter fun p => !p.2.isEmpty

theorem trim_len (l : List Nat) : (trim l).length ≤ l.length := by
  obtain ⟨n, h⟩ := trim_spec l
  have := congrArg List.length h
  rw [List.length_append] at this; omega

theorem written_cons (p : Nat × List Nat) (L : List (Nat × List Nat)) (x : Nat) :
    image (written (p :: L)) x = (if p.1 ≤ x ∧ x < p.1 + (trim p.2).length ∧ image.covered (written L) x = false then (trim p.2).getD (x - p.1) 0
      else image (written L) x) := by
  have hw : written (p :: L) = if (trim p.2).isEmpty then written L else (p.1, trim p.2) :: written L := by
    simp only [written, List.map_cons, List.filter_cons]
    cases (trim p.2).isEmpty <;> rfl
  rw [hw]
  cases ht : trim p.2 with
  | nil =>
    have hc : ¬ (p.1 ≤ x ∧ x < p.1 + ([] : List Nat).length ∧ image.covered (written L) x = false) := by rw [List.length_nil]; omega
    rw [if_neg hc]; rfl
  | cons a l => simp [image]

theorem outside : ∀ (L : List (Nat × List Nat)) (x : Nat), (∀ p ∈ L, x < p.1 ∨ p.1 + p.2.length ≤ x) →
    image (written L) x = 0 ∧ image.covered (written L) x = false := by
  intro L
  induction L with
  | nil => intro x _; exact ⟨rfl, rfl⟩
  | cons p L ih =>
    intro x h
    obtain ⟨h1, h2⟩ := ih x fun q hq => h q (by simp [hq])
    have hp := h p (by simp)
    have := trim_len p.2
    refine ⟨?_, ?_⟩
    · rw [written_cons, if_neg (by omega)]; exact h1
    · simp only [written, List.map_cons, List.filter_cons] at h2 ⊢
      split
      · simp only [image.covered, h2, Bool.or_false, decide_eq_false_iff_not]; omega
      · exact h2

theorem image_at : ∀ (L : List (Nat × List Nat)), L.Pairwise Apart → ∀ a bs j, (a, bs) ∈ L → j < bs.length →
    image (written L) (a + j) = bs.getD j 0 := by
  intro L
  induction L with
  | nil => intro _ a bs j h; cases h
  | cons p L ih =>
    intro hp a bs j hm hj
    rw [List.pairwise_cons] at hp
    rw [written_cons]
    rcases List.mem_cons.mp hm with rfl | hm
    · obtain ⟨h1, h2⟩ := outside L (a + j) fun q hq => by
        have := hp.1 q hq
        simp only [Apart] at this; omega
      obtain ⟨n, hn⟩ := trim_spec bs
      by_cases hlt : j < (trim bs).length
      · rw [if_pos ⟨by omega, by simpa using hlt, h2⟩]
        simp only [Nat.add_sub_cancel_left]
        conv => rhs; rw [hn]
        simp [List.getD_eq_getElem?_getD, List.getElem?_append_left hlt]
      · rw [if_neg (by simp only; omega), h1]
        conv => rhs; rw [hn]
        rw [List.getD_eq_getElem?_getD, List.getElem?_append_right (by omega), List.getElem?_replicate]
        split <;> rfl
    · have hap := hp.1 (a, bs) hm
      simp only [Apart] at hap
      have := trim_len p.2
      rw [if_neg (by omega)]
      exact ih hp.2 a bs j hm hj

/-- **Variables start with their values**: when the linked module starts, every byte of every data segment of every file is at the place its symbols were told,
whatever was left out because it is zero. -/
theorem data_image {objs fs stack o} {i j : Nat} {g : Seg} (hn : fs.Nodup) (hok : ∀ o ∈ fs, SegsOk (objs o)) (ho : o ∈ fs) (hg : (objs o).segs[i]? = some g)
    (hj : j < g.bytes.length) : image (outSegs objs fs stack) (dbase objs fs o stack + g.start + j) = g.bytes.getD j 0 := by
  have heq : outSegs objs fs stack = written (lay objs fs stack) := by
    rw [← lay_eq objs fs stack hn]
    simp only [outSegs, written, List.map_flatMap, List.map_map]
    rfl
  rw [heq]
  refine image_at _ (lay_apart objs fs stack hok) _ _ _ ?_ hj
  rw [← lay_eq objs fs stack hn]
  exact List.mem_flatMap.mpr ⟨o, ho, List.mem_map.mpr ⟨g, List.mem_of_getElem? hg, rfl⟩⟩

/-- **Data, stack and heap are apart**: all data lies above the stack and below the address where the heap begins. -/
theorem data_bounds {objs fs stack o} {i : Nat} {g : Seg} (hn : fs.Nodup) (ho : o ∈ fs) (hg : (objs o).segs[i]? = some g) :
    stack ≤ dbase objs fs o stack + g.start ∧ dbase objs fs o stack + g.start + g.bytes.length ≤ alignUp (dend objs fs stack) 16 := by
  have h1 := lay_ge objs fs stack (dbase objs fs o stack + g.start, g.bytes) (by
    rw [← lay_eq objs fs stack hn]
    exact List.mem_flatMap.mpr ⟨o, ho, List.mem_map.mpr ⟨g, List.mem_of_getElem? hg, rfl⟩⟩)
  have := alignUp_ge (dend objs fs stack) 16 (by decide)
  simp only at h1; omega

/-- Different segments of the program do not overlap. -/
theorem data_apart {objs fs stack o o'} {i i' : Nat} {g g' : Seg} (hok : ∀ o ∈ fs, SegsOk (objs o)) (ho : o ∈ fs) (ho' : o' ∈ fs)
    (hne : o ≠ o') (hg : (objs o).segs[i]? = some g) (hg' : (objs o').segs[i']? = some g') :
    Apart (dbase objs fs o stack + g.start, g.bytes) (dbase objs fs o' stack + g'.start, g'.bytes) := by
  induction fs generalizing stack with
  | nil => cases ho
  | cons x fs ih =>
    have hge : ∀ (l : List Nat) (y a : Nat), a ≤ dbase objs l y a := by
      intro l
      induction l with
      | nil => intro y a; exact Nat.le_refl _
      | cons z l ih =>
        intro y a
        have := place_ge (objs z) a
        simp only [dbase]; split
        · omega
        · have := ih y (place (objs z) a).2; omega
    simp only [dbase]
    by_cases h1 : x = o
    · subst h1
      rw [if_pos rfl, if_neg hne]
      have := place_end (objs x) stack g (List.mem_of_getElem? hg)
      have := hge fs o' (place (objs x) stack).2
      simp only [Apart]; omega
    · by_cases h2 : x = o'
      · subst h2
        rw [if_pos rfl, if_neg h1]
        have := place_end (objs x) stack g' (List.mem_of_getElem? hg')
        have := hge fs o (place (objs x) stack).2
        simp only [Apart]; omega
      · rw [if_neg h1, if_neg h2]
        exact ih (fun o h => hok o (by simp [h])) (by cases ho with | head => exact absurd rfl h1 | tail _ h => exact h)
          (by cases ho' with | head => exact absurd rfl h2 | tail _ h => exact h)

theorem maxP_ge (o : Obj) : ∀ s ∈ o.syms, s.kind = .data → s.undef = false → s.p2 ≤ maxP o := by
  have key : ∀ (l : List Sym) (m : Nat), m ≤ l.foldl (fun m s => max m s.p2) m ∧ ∀ s ∈ l, s.p2 ≤ l.foldl (fun m s => max m s.p2) m := by
    intro l
    induction l with
    | nil => intro m; exact ⟨Nat.le_refl _, fun _ h => by cases h⟩
    | cons a l ih =>
      intro m
      obtain ⟨h1, h2⟩ := ih (max m a.p2)
      refine ⟨by rw [List.foldl_cons]; omega, fun s hs => ?_⟩
      rw [List.foldl_cons]
      rcases List.mem_cons.mp hs with rfl | hs
      · omega
      · exact h2 s hs
  intro s hs hk hu
  exact (key _ 0).2 s (List.mem_filter.mpr ⟨hs, by simp [hk, hu]⟩)

/-- **Alignment is kept**: a variable whose place in its file is a multiple of the alignment recorded for it has an address that is a multiple of it.  (Partial:
the alignment recorded need not be that of the variable, see `align_wrong`.) -/
theorem data_aligned_partial {objs fs stack a} {e : Ent} {g : Seg} (ho : e.o ∈ fs) (he : e.s ∈ (objs e.o).syms) (hk : e.s.kind = .data)
    (hu : e.s.undef = false) (hg : (objs e.o).segs[e.s.idx]? = some g) (hal : 2 ^ e.s.p2 ∣ g.start + e.s.off)
    (ha : addrOf objs fs stack e = some a) : 2 ^ e.s.p2 ∣ a := by
  have key : ∀ (fs : List Nat) (addr : Nat), e.o ∈ fs → 2 ^ maxP (objs e.o) ∣ dbase objs fs e.o addr := by
    intro fs
    induction fs with
    | nil => intro _ h; cases h
    | cons x fs ih =>
      intro addr h
      simp only [dbase]
      by_cases hx : x = e.o
      · rw [if_pos hx, hx]; exact alignUp_dvd _ _
      · rw [if_neg hx]; exact ih _ (by cases h with | head => exact absurd rfl hx | tail _ h => exact h)
  simp only [addrOf, hg, Option.map_some, Option.some.injEq] at ha
  subst ha
  rw [Nat.add_assoc]
  exact Nat.dvd_add (Nat.dvd_trans (Nat.pow_dvd_pow 2 (maxP_ge _ _ he hk hu)) (key fs stack ho)) hal

/-- When a file has no undefined data symbols, the alignments go to the right symbols: the `k`-th data symbol gets the `k`-th. -/
theorem segInfo_right : ∀ (ss : List Sym) (ps : List Nat) (ss' : List Sym), segInfo ss ps = some ss' →
    (ss.filter fun s => s.kind == .data).length = ps.length → (ss'.filter fun s => s.kind == .data).map Sym.p2 = ps := by
  intro ss
  induction ss with
  | nil =>
    intro ps ss' h hl
    cases ps with
    | nil => simp only [segInfo, Option.some.injEq] at h; subst h; rfl
    | cons => simp [segInfo] at h
  | cons s ss ih =>
    intro ps ss' h hl
    cases ps with
    | nil =>
      simp only [segInfo, Option.some.injEq] at h; subst h
      have : List.filter (fun s => s.kind == Kind.data) (s :: ss) = [] := List.eq_nil_of_length_eq_zero hl
      rw [this]; rfl
    | cons p ps =>
      simp only [segInfo] at h
      split at h
      · rename_i hk
        obtain ⟨t, ht, rfl⟩ := Option.map_eq_some_iff.mp h
        have := ih ps t ht (by simpa [hk] using hl)
        simp [hk, this]
      · rename_i hk
        obtain ⟨t, ht, rfl⟩ := Option.map_eq_some_iff.mp h
        have := ih (p :: ps) t ht (by simpa [hk] using hl)
        simpa [hk] using this

/-! ## Theorems: bytes -/

open Verif.Util (decodeU decodeS)

/-- **A patched number reads as the number**, occupies the bytes the old one did, and leaves what follows alone. -/
theorem patch_unsigned : ∀ (l : List Nat) (c x : Nat) (l' rest : List Nat) (v : Nat), putU c l x = some l' → decodeU l = some (v, rest) →
    decodeU l' = some (x, rest) ∧ l'.length = l.length := by
  intro l
  induction l with
  | nil => intro c x l' rest v h; cases h
  | cons b l ih =>
    intro c x l' rest v h hd
    simp only [putU] at h
    simp only [decodeU] at hd
    split at h
    · rename_i hb
      rw [if_pos hb] at hd
      cases hd
      split at h
      · cases h
      · cases h
        exact ⟨by rw [decodeU, if_pos (by omega)], rfl⟩
    · rename_i hb
      rw [if_neg hb] at hd
      split at h
      · cases h
      · obtain ⟨t, ht, rfl⟩ := Option.map_eq_some_iff.mp h
        obtain ⟨q, hq, hq2⟩ := Option.map_eq_some_iff.mp hd
        obtain ⟨v', r'⟩ := q
        simp only [Prod.mk.injEq] at hq2
        obtain ⟨_, rfl⟩ := hq2
        obtain ⟨h1, h2⟩ := ih _ _ _ _ _ ht hq
        refine ⟨?_, by simp [h2]⟩
        rw [decodeU, if_neg (by omega), h1]
        simp only [Option.map_some, Option.some.injEq, Prod.mk.injEq, and_true]
        omega

/-- Five bytes, as the compiler leaves (C16), are enough for every number. -/
theorem patch_fits {b0 b1 b2 b3 b4 x : Nat} {l : List Nat} (h0 : 128 ≤ b0) (h1 : 128 ≤ b1) (h2 : 128 ≤ b2) (h3 : 128 ≤ b3) (h4 : b4 < 128)
    (hx : x < 2 ^ 32) : (putU 0 (b0 :: b1 :: b2 :: b3 :: b4 :: l) x).isSome = true := by
  have : ¬ x / 128 / 128 / 128 / 128 > 127 := by omega
  simp [putU, Nat.not_lt.mpr h0, Nat.not_lt.mpr h1, Nat.not_lt.mpr h2, Nat.not_lt.mpr h3, h4, this]

/-- The signed variant, for function pointers in code. -/
theorem patch_signed {l l' : List Nat} {x : Int} (h : putS l x = some l') (hx : -2 ^ 31 ≤ x ∧ x < 2 ^ 31) :
    decodeS l' = some (x, l.drop 5) ∧ l'.length = l.length := by
  match l with
  | [] | [_] | [_, _] | [_, _, _] | [_, _, _, _] => simp [putS] at h
  | b0 :: b1 :: b2 :: b3 :: b4 :: l =>
    simp only [putS] at h
    split at h
    · cases h
    · cases h
      refine ⟨?_, rfl⟩
      simp only [decodeS]
      rw [if_neg (by omega), if_neg (by omega), if_neg (by omega), if_neg (by omega), if_pos (by omega)]
      simp only [Option.map_some, List.drop_succ_cons, List.drop_zero, Option.some.injEq, Prod.mk.injEq, and_true]
      split <;> omega

/-- Addresses in data: little endian, modulo 2^32. -/
theorem patch_word {l l' : List Nat} {x : Int} (h : putI l x = some l') :
    ∃ a b c d, l' = a :: b :: c :: d :: l.drop 4 ∧ a < 256 ∧ b < 256 ∧ c < 256 ∧ d < 256 ∧
      ((a + 256 * b + 65536 * c + 16777216 * d : Nat) : Int) = x % 2 ^ 32 := by
  match l with
  | [] | [_] | [_, _] | [_, _, _] => simp [putI] at h
  | b0 :: b1 :: b2 :: b3 :: l =>
    simp only [putI, Option.some.injEq] at h
    subst h
    exact ⟨_, _, _, _, rfl, by omega, by omega, by omega, by omega, by omega⟩

theorem or_add {acc sh v : Nat} (h : acc < 2 ^ sh) : acc ||| v * 2 ^ sh = acc + v * 2 ^ sh := by
  have := Nat.two_pow_add_eq_or_of_lt h v
  rw [Nat.or_comm, Nat.mul_comm v, ← this, Nat.add_comm]

/-- **Numbers in object files are read back**: every encoding of at most five bytes of a number below 2^31. -/
theorem read_unsigned : ∀ (l rest : List Nat) (v sh acc : Nat), decodeU l = some (v, rest) → (∀ b ∈ l, b < 256) → acc < 2 ^ sh → v * 2 ^ sh < 2 ^ 31 →
    sh + 7 * (l.length - rest.length) ≤ 38 → readU sh acc l = some (acc + v * 2 ^ sh, rest) ∧ rest.length < l.length := by
  intro l
  induction l with
  | nil => intro rest v sh acc h; cases h
  | cons b l ih =>
    intro rest v sh acc h hby ha hv hl
    have hb := hby b (by simp)
    simp only [decodeU] at h
    split at h
    · rename_i hlt
      cases h
      have hm : b % 128 = b := Nat.mod_eq_of_lt hlt
      have : l.length < (b :: l).length := by simp
      simp only [List.length_cons] at hl
      refine ⟨?_, this⟩
      simp only [readU, hm]
      rw [if_neg (by omega), if_pos hlt, or_add ha]
    · rename_i hge
      obtain ⟨⟨v', r'⟩, hq, hq2⟩ := Option.map_eq_some_iff.mp h
      simp only [Prod.mk.injEq] at hq2
      obtain ⟨rfl, rfl⟩ := hq2
      have e1 : 2 ^ (sh + 7) = 2 ^ sh * 128 := by rw [Nat.pow_add]
      have e2 : (b % 128 + 128 * v') * 2 ^ sh = b % 128 * 2 ^ sh + v' * 2 ^ (sh + 7) := by
        rw [e1, Nat.add_mul]; congr 1; rw [Nat.mul_comm 128, Nat.mul_assoc, Nat.mul_comm 128]
      have hle : b % 128 * 2 ^ sh ≤ 127 * 2 ^ sh := Nat.mul_le_mul_right _ (by omega)
      have hlen := (ih r' v' 0 0 hq (fun x hx => hby x (by simp [hx])) (by simp)) 
      have hr : r'.length < l.length := by
        clear hlen ih h hv hl e2 hby
        induction l generalizing v' r' with
        | nil => cases hq
        | cons c l ih =>
          simp only [decodeU] at hq
          split at hq
          · cases hq; simp
          · obtain ⟨⟨_, _⟩, h1, h2⟩ := Option.map_eq_some_iff.mp hq
            simp only [Prod.mk.injEq] at h2
            have := ih _ _ h1
            rw [← h2.2]; simp only [List.length_cons]; omega
      simp only [List.length_cons] at hl
      have := ih r' v' (sh + 7) (acc + b % 128 * 2 ^ sh) hq (fun x hx => hby x (by simp [hx])) (by omega) (by omega) (by omega)
      refine ⟨?_, by simp only [List.length_cons]; omega⟩
      simp only [readU]
      rw [if_neg (by omega), if_neg hge, or_add ha, this.1, e2, Nat.add_assoc]

/-- What the linker makes of a signed number: right when it is not negative; **wrong for every negative one**. -/
theorem read_signed : ∀ (l rest : List Nat) (v : Int) (sh acc : Nat), decodeS l = some (v, rest) → (∀ b ∈ l, b < 256) → acc < 2 ^ sh →
    sh + 7 * (l.length - rest.length) ≤ 28 →
    rest.length < l.length ∧
    readS sh acc l = some ((acc : Int) + v * 2 ^ sh + (if v < 0 then 127 * 2 ^ (sh + 7 * (l.length - rest.length - 1)) else 0), rest) := by
  intro l
  induction l with
  | nil => intro rest v sh acc h; cases h
  | cons b l ih =>
    intro rest v sh acc h hby ha hl
    have hb := hby b (by simp)
    have hpow : ∀ n, n ≤ 21 → b % 128 * 2 ^ n < 2 ^ 31 := by
      intro n hn
      calc b % 128 * 2 ^ n ≤ 127 * 2 ^ 21 := Nat.mul_le_mul (by omega) (Nat.pow_le_pow_right (by decide) hn)
        _ < 2 ^ 31 := by decide
    have e1 : 2 ^ (sh + 7) = 2 ^ sh * 128 := by rw [Nat.pow_add]
    have hle : b % 128 * 2 ^ sh ≤ 127 * 2 ^ sh := Nat.mul_le_mul_right _ (by omega)
    simp only [decodeS] at h
    split at h
    · rename_i hlt
      cases h
      have hm : b % 128 = b := Nat.mod_eq_of_lt hlt
      simp only [List.length_cons] at hl
      refine ⟨by simp, ?_⟩
      have hp := hpow sh (by omega)
      simp only [readS]
      rw [if_neg (by omega), if_pos hlt, or_add ha]
      simp only [hm, List.length_cons]
      rw [show l.length + 1 - l.length - 1 = 0 by omega]
      by_cases h64 : b < 64
      · rw [if_pos h64, if_neg (by omega), if_neg (by omega)]
        simp
      · rw [if_neg h64, if_pos (by omega), if_pos (by omega)]
        simp only [Option.some.injEq, Prod.mk.injEq, and_true, Nat.mul_zero, Nat.add_zero]
        push_cast
        generalize (2 : Int) ^ sh = P
        rw [Int.sub_mul]; omega
    · rename_i hge
      obtain ⟨⟨v', r'⟩, hq, hq2⟩ := Option.map_eq_some_iff.mp h
      simp only [Prod.mk.injEq] at hq2
      obtain ⟨rfl, rfl⟩ := hq2
      have hr : r'.length < l.length := by
        clear ih h hl hby
        induction l generalizing v' r' with
        | nil => cases hq
        | cons c l ih =>
          simp only [decodeS] at hq
          split at hq
          · cases hq; simp
          · obtain ⟨⟨_, _⟩, h1, h2⟩ := Option.map_eq_some_iff.mp hq
            simp only [Prod.mk.injEq] at h2
            have := ih _ _ h1
            rw [← h2.2]; simp only [List.length_cons]; omega
      simp only [List.length_cons] at hl
      have := ih r' v' (sh + 7) (acc + b % 128 * 2 ^ sh) hq (fun x hx => hby x (by simp [hx])) (by omega) (by omega)
      refine ⟨by simp only [List.length_cons]; omega, ?_⟩
      have hp := hpow sh (by omega)
      simp only [readS]
      rw [if_neg (by omega), if_neg hge, or_add ha, this.2]
      simp only [List.length_cons]
      rw [show sh + 7 * (l.length + 1 - r'.length - 1) = sh + 7 + 7 * (l.length - r'.length - 1) by omega]
      have hs : ((b % 128 : Nat) + 128 * v' < 0) ↔ v' < 0 := by omega
      simp only [hs, Option.some.injEq, Prod.mk.injEq, and_true]
      have e3 : (2 : Int) ^ (sh + 7) = 2 ^ sh * 128 := by rw [Int.pow_add]; rfl
      rw [e3]
      push_cast
      generalize (2 : Int) ^ sh = P
      rw [Int.add_mul, Int.mul_comm 128 v', Int.mul_assoc, Int.mul_comm 128 P]
      omega
theorem lebBytes_byte (v : Int) : ∀ b ∈ Verif.Util.lebBytes v, b < 256 := by
  induction hn : v.natAbs using Nat.strongRecOn generalizing v with
  | ind n ih =>
    intro b hb
    unfold Verif.Util.lebBytes at hb
    split at hb
    · simp at hb; omega
    · rename_i hlt
      rcases List.mem_cons.mp hb with rfl | hb
      · rw [Verif.Util.or80 _ (by omega)]; omega
      · exact ih _ (by omega) (v / 128) rfl b hb

/-- An addend that is not negative is read back. -/
theorem addend_ok (v : Int) (h : 0 ≤ v ∧ v < 2 ^ 27) (rest : List Nat) (hr : ∀ b ∈ rest, b < 256) :
    readS 0 0 (Verif.Util.lebBytes v ++ rest) = some (v, rest) := by
  have hl := Verif.Util.lebBytes_length 3 v (by omega) (by omega)
  have hd := Verif.Util.decodeS_lebBytes v rest
  have := (read_signed _ _ _ 0 0 hd (fun b hb => by
    rcases List.mem_append.mp hb with hb | hb
    · exact lebBytes_byte v b hb
    · exact hr b hb) (by decide) (by simp only [List.length_append]; omega)).2
  rw [this, if_neg (by omega)]
  simp

/-! ## Findings -/

/-- The code loses every negative addend: `int *p = a - 1;` points 127, or 127·128, ... too high. -/
theorem addend_negative_wrong (v : Int) (h : -2 ^ 27 ≤ v ∧ v < 0) (rest : List Nat) (hr : ∀ b ∈ rest, b < 256) :
    ∃ w, readS 0 0 (Verif.Util.lebBytes v ++ rest) = some (w, rest) ∧ w ≠ v ∧ w = v + 127 * 2 ^ (7 * ((Verif.Util.lebBytes v).length - 1)) := by
  have hl := Verif.Util.lebBytes_length 3 v (by omega) (by omega)
  have hd := Verif.Util.decodeS_lebBytes v rest
  have := (read_signed _ _ _ 0 0 hd (fun b hb => by
    rcases List.mem_append.mp hb with hb | hb
    · exact lebBytes_byte v b hb
    · exact hr b hb) (by decide) (by simp only [List.length_append]; omega)).2
  rw [if_pos h.2] at this
  have hlen : (Verif.Util.lebBytes v ++ rest).length - rest.length - 1 = (Verif.Util.lebBytes v).length - 1 := by simp only [List.length_append]; omega
  rw [hlen] at this
  refine ⟨_, this, ?_, by simp⟩
  have hp : (0 : Int) < 2 ^ (0 + 7 * ((Verif.Util.lebBytes v).length - 1)) := Int.pow_pos (by decide)
  simp only [Int.ofNat_eq_natCast, Int.cast_ofNat_Int, Int.pow_zero, Int.mul_one]
  omega

/-- Two files: the first has its own `static` function 7, the second a global one. -/
def twoF : Nat → Obj
  | 0 => ⟨0, [10], [], [⟨7, .func, false, true, false, 0, 0, 0, false⟩], []⟩
  | _ => ⟨0, [20], [], [⟨7, .func, false, false, false, 0, 0, 0, false⟩], []⟩

/-- The code calls the other file's function instead of the `static` one of the same file. -/
theorem static_wrong : ∃ st e, resolve twoF [(none, 0), (none, 1)] [] 0 0 [] = some st ∧ e ∈ allEnts twoF [(none, 0), (none, 1)] ∧
    Means twoF (allEnts twoF [(none, 0), (none, 1)]) e (.body 10) ∧
    (space twoF [0, 1] (imports st []))[comb twoF [0, 1] (imports st []) (target st e)]? = some (.body 20) := by
  refine ⟨_, ⟨0, 0, ⟨7, .func, false, true, false, 0, 0, 0, false⟩⟩, rfl, by decide, .body (.own rfl rfl) rfl, ?_⟩
  decide

/-- The code misplaces a variable: its alignment went to an `extern` variable declared before it. -/
theorem align_wrong : ∃ ss, segInfo [⟨1, .data, true, false, false, 0, 0, 0, false⟩, ⟨2, .data, false, false, false, 0, 0, 0, false⟩] [3] = some ss ∧
    ∃ e ∈ entries (fun _ => ⟨0, [], [⟨0, [1, 2, 3, 4, 5, 6, 7, 8]⟩], ss, []⟩) 1, e.s.name = 2 ∧
      addrOf (fun o => if o = 0 then ⟨0, [], [⟨0, [9]⟩], [], []⟩ else ⟨0, [], [⟨0, [1, 2, 3, 4, 5, 6, 7, 8]⟩], ss, []⟩) [0, 1] 4096 e = some 4097 := by
  refine ⟨_, rfl, ⟨1, 1, ⟨2, .data, false, false, false, 0, 0, 0, false⟩⟩, by decide, rfl, by decide⟩

/-! ## Non-vacuity -/

/-- `main` (1) calls `f` (2), which an archive member defines weakly and another file strongly, and the WASI function 3; it takes the address of `f`. -/
def three : Nat → Obj
  | 0 => ⟨2, [100], [], [⟨1, .func, false, false, false, 2, 0, 0, false⟩, ⟨2, .func, true, false, false, 0, 0, 0, false⟩,
      ⟨3, .func, true, false, false, 1, 0, 0, true⟩], [0]⟩
  | 1 => ⟨0, [200], [⟨0, [0, 5, 0]⟩], [⟨2, .func, false, false, true, 0, 0, 0, false⟩, ⟨4, .data, false, true, false, 0, 1, 2, false⟩], []⟩
  | _ => ⟨1, [300, 301], [⟨0, [6]⟩], [⟨3, .func, true, false, false, 0, 0, 0, true⟩, ⟨5, .func, false, true, false, 1, 0, 0, false⟩,
      ⟨2, .func, false, false, false, 2, 0, 0, false⟩], []⟩

def threeScript : List (Option Nat × Nat) := [(none, 0), (some 2, 1), (none, 2)]

def threeF : Ent := ⟨0, 1, ⟨2, .func, true, false, false, 0, 0, 0, false⟩⟩

theorem three_truthful : Truthful three threeScript := by
  intro p hp n hn
  simp only [threeScript, List.mem_cons, List.not_mem_nil, or_false] at hp
  rcases hp with rfl | rfl | rfl
  · cases hn
  · cases hn; exact ⟨⟨1, 0, ⟨2, .func, false, false, true, 0, 0, 0, false⟩⟩, by decide, by decide⟩
  · cases hn

theorem three_iterates : Iterates three threeScript [1] [3] := by
  intro s0 h n hn
  simp [load, threeScript, events, entries, three, run, step, upd, badKind] at h
  subst h
  by_cases h3 : n = 3
  · simp [h3]
  · exfalso; revert hn; simp [upd]; intros; simp_all

example : ∃ st, resolve three threeScript [1] 90 91 [3] = some st ∧
    (space three [0, 1, 2] (imports st [3]))[comb three [0, 1, 2] (imports st [3]) (target st threeF)]? = some (.body 301) ∧
    ∃ f, Means three (allEnts three threeScript) threeF f ∧
      (space three [0, 1, 2] (imports st [3]))[comb three [0, 1, 2] (imports st [3]) (target st threeF)]? = some f := by
  refine ⟨_, rfl, by decide, ?_⟩
  exact func_ref_partial (ex := [1]) (sp := 90) (cb := 91) (uo := [3]) three_truthful rfl three_iterates (by decide)
    (by unfold CodeOk; decide) (by decide) rfl ⟨by decide, by decide⟩

example : ∃ st, resolve three threeScript [1] 90 91 [3] = some st ∧
    ∃ i f, (table three [0, 1, 2] (imports st [3]) [⟨2, 2, ⟨2, .func, false, false, false, 2, 0, 0, false⟩⟩])[
      indirIdx [⟨2, 2, ⟨2, .func, false, false, false, 2, 0, 0, false⟩⟩] (target st threeF)]? = some (some i) ∧
      (space three [0, 1, 2] (imports st [3]))[i]? = some f ∧ Means three (allEnts three threeScript) threeF f := by
  refine ⟨_, rfl, ?_⟩
  exact pointer_ref_partial (ex := [1]) (sp := 90) (cb := 91) (uo := [3]) three_truthful rfl three_iterates (by decide)
    (by unfold CodeOk; decide) (by decide) rfl ⟨by decide, by decide⟩ (by decide) (by decide) (by decide) (by decide)

example : resolve twoF [(none, 1), (none, 2)] [] 0 0 [] = none :=
  duplicate_refused (n := 7) (l1 := []) (l2 := []) (l3 := []) (a := ⟨1, 0, ⟨7, .func, false, false, false, 0, 0, 0, false⟩⟩)
    (b := ⟨2, 0, ⟨7, .func, false, false, false, 0, 0, 0, false⟩⟩) rfl rfl rfl rfl rfl

example : image (outSegs three [0, 1, 2] 4096) (dbase three [0, 1, 2] 1 4096 + 0 + 1) = 5 :=
  data_image (g := ⟨0, [0, 5, 0]⟩) (i := 0) (by decide) (by unfold SegsOk Apart; decide) (by decide) rfl (by decide)

example : image (outSegs three [0, 1, 2] 4096) 4099 = 6 := by decide

example : ∃ d, ∃ st, resolve three threeScript [1] 90 91 [3] = some st ∧ st.D 1 = some d ∧ TheDef (allEnts three threeScript) 1 d := by
  have h := export_defined (objs := three) (script := threeScript) (ex := [1]) (sp := 90) (cb := 91) (uo := [3]) (n := 1) (by decide) rfl three_truthful
    three_iterates (by decide)
  obtain ⟨d, h1, h2⟩ := h
  exact ⟨d, _, rfl, h1, h2⟩

example : putU 0 [0x80, 0x80, 0x80, 0x80, 0, 77] 300 = some [0xac, 0x82, 0x80, 0x80, 0, 77] := by decide
example : putS [0x80, 0x80, 0x80, 0x80, 0, 77] 300 = some [0xac, 0x82, 0x80, 0x80, 0, 77] := by decide
example : readS 0 0 (Verif.Util.lebBytes (-4)) = some (123, []) := by decide +kernel

end Verif.WLink

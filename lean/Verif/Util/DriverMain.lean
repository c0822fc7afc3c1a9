import Verif.Util.DriverProps

/-!
# C85: the whole command line

`do_compile` (src/xcc/main.c:529-613): the sources one after the other, then
the linker, over the files they leave.  Each C source is compiled under some
schedule of the transition system in `Verif.Util.Driver`.
-/

namespace Verif.Driver

/-- A path.  `temp n` is the n-th name made by `mkstemps` in this run
(src/xcc/main.c:174-182): a name no other file has. -/
inductive FileName where
  | user (path : String)
  | temp (n : Nat)
  deriving DecidableEq, Repr

/-- An argument added to `ld_cmd`, src/xcc/main.c:199,241,542,587. -/
inductive LdArg where
  | flag (a : String)
  | file (f : FileName)
  deriving DecidableEq, Repr

/-- An entry of `opts->sources` with its type already taken from the extension
or -x (src/xcc/main.c:533-576).  `outfn` is the output path of that source:
`-o`, or the source's name with another extension, or none (standard output). -/
inductive Item where
  | empty
  | flag (a : String)
  | unknown
  | csrc (t : Tools) (outfn : Option String)
  | asrc (path : String) (result : Except Nat (List UInt8)) (outfn : Option String)
  | file (path : String)

/-- The files, `ld_cmd` and the temporary names used so far
(`remove_on_exit`, src/xcc/main.c:88). -/
structure World where
  fs : FileName → Option (List UInt8)
  ld : List LdArg
  tmps : Nat

/-- The file at a path replaced or removed (src/xcc/main.c:203 and the outputs
of the tools). -/
def World.set (w : World) (f : FileName) (c : Option (List UInt8)) : World :=
  { w with fs := fun g => if g = f then c else w.fs g }

/-- Where the object of a C source goes, src/xcc/main.c:168-183. -/
def objPath (m : OutType) (outfn : Option String) (w : World) : FileName :=
  match m, outfn with
  | .object, some f => .user f
  | _, _ => .temp w.tmps

/-- The world after `compile_csource` has ended in state `s`,
src/xcc/main.c:166-215. -/
def afterC (m : OutType) (outfn : Option String) (s : St) (w : World) : World :=
  match m with
  | .preprocess => match outfn with
    | some f => w.set (.user f) (some s.out)
    | none => w
  | .assembly => match outfn with
    | some f => w.set (.user f) (some s.out)
    | none => w
  | .object => match outfn with
    | some f => w.set (.user f) s.obj
    | none => { w.set (.temp w.tmps) s.obj with tmps := w.tmps + 1 }
  | .executable =>
    let w1 := { w.set (.temp w.tmps) s.obj with
                tmps := w.tmps + 1, ld := w.ld ++ [.file (.temp w.tmps)] }
    match outfn with
    | some f => if s.removed then w1.set (.user f) none else w1
    | none => w1

/-- Where the object of an assembly source goes, src/xcc/main.c:219-228. -/
def asmObj (m : OutType) (path : String) (outfn : Option String) : FileName :=
  match m, outfn with
  | .object, some f => .user f
  | _, _ => .user (path ++ ".o")

/-- `compile_asm`, src/xcc/main.c:217-244: the status and the world after it.
With -E or -S the assembler is started without an input and fails. -/
def compileAsm (m : OutType) (path : String) (result : Except Nat (List UInt8))
    (outfn : Option String) (w : World) : Nat × World :=
  if m.hasAs = false then (256, w)
  else
    let f := asmObj m path outfn
    let r : Nat × World := match result with
      | .ok o => (0, w.set f (some o))
      | .error n => (n + 1, w)
    if m = .executable then (r.1, { r.2 with ld := r.2.ld ++ [.file f] }) else r

/-- The loop over the sources, src/xcc/main.c:533-592: it stops at the first
source that fails.  `Sources m cap items w res w'`: some schedule ends with
`res` and `w'`. -/
inductive Sources (m : OutType) (cap : Nat) : List Item → World → Nat → World → Prop
  | nil {w} : Sources m cap [] w 0 w
  | empty {rest w r w'} : Sources m cap rest w r w' → Sources m cap (.empty :: rest) w r w'
  | flag {a rest w r w'} : Sources m cap rest { w with ld := w.ld ++ [.flag a] } r w' →
      Sources m cap (.flag a :: rest) w r w'
  | unknown {rest w} : Sources m cap (.unknown :: rest) w 1 w
  | cOk {t outfn rest w r w' acts s} :
      run t m cap acts (init m (w.fs (objPath m outfn w))) = some s → s.pc = .finished → s.res = 0 →
      Sources m cap rest (afterC m outfn s w) r w' → Sources m cap (.csrc t outfn :: rest) w r w'
  | cFail {t outfn rest w acts s} :
      run t m cap acts (init m (w.fs (objPath m outfn w))) = some s → s.pc = .finished → s.res ≠ 0 →
      Sources m cap (.csrc t outfn :: rest) w s.res (afterC m outfn s w)
  | aOk {path result outfn rest w r w'} :
      (compileAsm m path result outfn w).1 = 0 →
      Sources m cap rest (compileAsm m path result outfn w).2 r w' →
      Sources m cap (.asrc path result outfn :: rest) w r w'
  | aFail {path result outfn rest w} :
      (compileAsm m path result outfn w).1 ≠ 0 →
      Sources m cap (.asrc path result outfn :: rest) w (compileAsm m path result outfn w).1
        (compileAsm m path result outfn w).2
  | file {path rest w r w'} :
      Sources m cap rest
        (if m = .executable then { w with ld := w.ld ++ [.file (.user path)] } else w) r w' →
      Sources m cap (.file path :: rest) w r w'

/-- What an argument is to the linker (started at src/xcc/main.c:606): a flag, or
what the file holds. -/
abbrev LdIn := String ⊕ Option (List UInt8)

/-- The argument as the linker finds it when it starts, src/xcc/main.c:606. -/
def look (fs : FileName → Option (List UInt8)) : LdArg → LdIn
  | .flag a => .inl a
  | .file f => .inr (fs f)

/-- `remove_tmp_files` at exit, src/xcc/main.c:90-95. -/
def cleanUp (w : World) : World :=
  { w with fs := fun g => match g with
      | .temp n => if n < w.tmps then none else w.fs (.temp n)
      | .user p => w.fs (.user p) }

/-- `do_compile` for an executable with exit status and final world,
src/xcc/main.c:594-613 and `main`, :671-761.  `link` is the linker with the arguments given
before and after these (`-L`, `crt0.a`, `-lc`); `out` is the
name of the executable. -/
inductive Xcc (link : List LdIn → Except Nat (List UInt8)) (cap : Nat) (out : String) :
    List Item → World → Nat → World → Prop
  | failed {items w r w'} : Sources .executable cap items w r w' → r ≠ 0 →
      Xcc link cap out items w 1 (cleanUp w')
  | unlinked {items w w' n} : Sources .executable cap items w 0 w' →
      link (w'.ld.map (look w'.fs)) = .error n →
      Xcc link cap out items w 1 (cleanUp w')
  | linked {items w w' e} : Sources .executable cap items w 0 w' →
      link (w'.ld.map (look w'.fs)) = .ok e →
      Xcc link cap out items w 0 (cleanUp (w'.set (.user out) (some e)))

/-! ## Specification -/

/-- The sources in order give the linker these inputs. -/
inductive Built (given : String → Option (List UInt8)) : List Item → List LdIn → Prop
  | nil : Built given [] []
  | empty {rest ins} : Built given rest ins → Built given (.empty :: rest) ins
  | flag {a rest ins} : Built given rest ins → Built given (.flag a :: rest) (.inl a :: ins)
  | csrc {t outfn rest ins o} : FrontOk t .executable → Assembles t o → Built given rest ins →
      Built given (.csrc t outfn :: rest) (.inr (some o) :: ins)
  | asrc {path o outfn rest ins} : Built given rest ins →
      Built given (.asrc path (.ok o) outfn :: rest) (.inr (some o) :: ins)
  | file {path rest ins} : Built given rest ins →
      Built given (.file path :: rest) (.inr (given path) :: ins)

/-- The paths assembly sources write their objects to. -/
def made : List Item → List String
  | [] => []
  | .asrc path _ _ :: rest => (path ++ ".o") :: made rest
  | _ :: rest => made rest

/-- The objects and archives given on the command line. -/
def givenFiles : List Item → List String
  | [] => []
  | .file path :: rest => path :: givenFiles rest
  | _ :: rest => givenFiles rest

/-- No object made on the way overwrites another one or a given file. -/
def NoClash (items : List Item) : Prop :=
  (made items).Nodup ∧ ∀ f ∈ givenFiles items, f ∉ made items

/-! ## Proofs -/

theorem afterC_ok {t cap outfn w acts s}
    (h : run t .executable cap acts (init .executable (w.fs (objPath .executable outfn w))) = some s)
    (hf : s.pc = .finished) (hr : s.res = 0) :
    ∃ o, Assembles t o ∧ afterC .executable outfn s w =
      { fs := fun g => if g = .temp w.tmps then some o else w.fs g,
        ld := w.ld ++ [.file (.temp w.tmps)], tmps := w.tmps + 1 } := by
  obtain ⟨o, ho, hobj⟩ := object_every_schedule h hf hr rfl
  refine ⟨o, ho, ?_⟩
  have I := inv_run (inv_init t .executable _) h
  have hrm : s.removed = false := by
    cases hx : s.removed with
    | false => rfl
    | true => exact absurd hr (I.noObj hx).2.1
  cases outfn <;> simp [afterC, World.set, hobj, hrm]

/-- A successful run touches only new temporary files and the objects of the
assembly sources. -/
theorem frame {cap items w r w'} (h : Sources .executable cap items w r w') : r = 0 →
    (∀ n, n < w.tmps → w'.fs (.temp n) = w.fs (.temp n)) ∧
    (∀ p, p ∉ made items → w'.fs (.user p) = w.fs (.user p)) ∧ w.tmps ≤ w'.tmps := by
  induction h with
  | nil => intro _; exact ⟨fun _ _ => rfl, fun _ _ => rfl, Nat.le_refl _⟩
  | empty _ ih => intro hr; simpa [made] using ih hr
  | flag _ ih => intro hr; simpa [made] using ih hr
  | unknown => intro hr; cases hr
  | cOk h1 h2 h3 _ ih =>
    intro hr
    obtain ⟨o, -, e⟩ := afterC_ok h1 h2 h3
    obtain ⟨i1, i2, i3⟩ := ih hr
    rw [e] at i1 i2 i3
    dsimp only at i1 i2 i3
    refine ⟨?_, ?_, by omega⟩
    · intro n hn
      rw [i1 n (by omega)]
      have : n ≠ _ := Nat.ne_of_lt hn
      simp [this]
    · intro p hp
      rw [i2 p (by simpa [made] using hp)]
      simp
  | cFail h1 h2 h3 => intro hr; exact absurd hr h3
  | @aOk path result outfn rest w r w' h1 _ ih =>
    intro hr
    obtain ⟨i1, i2, i3⟩ := ih hr
    cases result with
    | error n => simp [compileAsm, OutType.hasAs] at h1
    | ok o =>
      simp only [compileAsm, OutType.hasAs, asmObj, World.set, made, if_true, Bool.true_eq_false,
        if_false] at i1 i2 i3 ⊢
      refine ⟨?_, ?_, i3⟩
      · intro n hn
        rw [i1 n hn]
        simp
      · intro p hp
        simp only [List.mem_cons, not_or] at hp
        rw [i2 p hp.2]
        simp [hp.1]
  | aFail h1 => intro hr; exact absurd hr h1
  | file _ ih =>
    intro hr
    simpa [made] using ih hr

/-- What the linker is given after a successful run. -/
theorem gives {cap items w r w'} (h : Sources .executable cap items w r w') : r = 0 → NoClash items →
    ∀ given, (∀ f ∈ givenFiles items, w.fs (.user f) = given f) →
    ∃ args ins, w'.ld = w.ld ++ args ∧ args.map (look w'.fs) = ins ∧ Built given items ins := by
  induction h with
  | nil => intro _ _ given _; exact ⟨[], [], by simp, rfl, .nil⟩
  | empty _ ih =>
    intro hr hc given hg
    obtain ⟨args, ins, e1, e2, e3⟩ := ih hr (by simpa [NoClash, made, givenFiles] using hc) given hg
    exact ⟨args, ins, e1, e2, .empty e3⟩
  | @flag a rest w r w' _ ih =>
    intro hr hc given hg
    obtain ⟨args, ins, e1, e2, e3⟩ := ih hr (by simpa [NoClash, made, givenFiles] using hc) given hg
    refine ⟨.flag a :: args, .inl a :: ins, by simp [e1], by simp [look, e2], .flag e3⟩
  | unknown => intro hr; cases hr
  | @cOk t outfn rest w r w' acts s h1 h2 h3 hs ih =>
    intro hr hc given hg
    obtain ⟨o, ho, e⟩ := afterC_ok h1 h2 h3
    have hok := (status_every_schedule h1 h2).1 h3
    have fr := frame hs hr
    rw [e] at ih fr
    obtain ⟨args, ins, e1, e2, e3⟩ := ih hr (by simpa [NoClash, made, givenFiles] using hc) given
      (by intro f hf; simpa using hg f (by simpa [givenFiles] using hf))
    refine ⟨.file (.temp w.tmps) :: args, .inr (some o) :: ins, by simp [e1], ?_, .csrc hok.1 ho e3⟩
    have := fr.1 w.tmps (by simp)
    simp [look, e2, this]
  | cFail h1 h2 h3 => intro hr; exact absurd hr h3
  | @aOk path result outfn rest w r w' h1 hs ih =>
    intro hr hc given hg
    cases result with
    | error n => simp [compileAsm, OutType.hasAs] at h1
    | ok o =>
      have fr := frame hs hr
      simp only [compileAsm, OutType.hasAs, asmObj, World.set, if_true, Bool.true_eq_false,
        if_false] at ih fr
      simp only [NoClash, made, givenFiles, List.nodup_cons, List.mem_cons, not_or] at hc
      obtain ⟨args, ins, e1, e2, e3⟩ := ih hr ⟨hc.1.2, fun f hf => (hc.2 f hf).2⟩ given
        (by
          intro f hf
          have : f ≠ path ++ ".o" := (hc.2 f hf).1
          simpa [this] using hg f (by simpa [givenFiles] using hf))
      refine ⟨.file (.user (path ++ ".o")) :: args, .inr (some o) :: ins, by simp [e1], ?_, .asrc e3⟩
      have := fr.2.1 (path ++ ".o") hc.1.1
      simp [look, e2, this]
  | aFail h1 => intro hr; exact absurd hr h1
  | @file path rest w r w' hs ih =>
    intro hr hc given hg
    have fr := frame hs hr
    simp only [if_true] at ih fr
    simp only [NoClash, made, givenFiles, List.mem_cons, forall_eq_or_imp] at hc
    obtain ⟨args, ins, e1, e2, e3⟩ := ih hr ⟨hc.1, hc.2.2⟩ given
      (fun f hf => hg f (by simp [givenFiles, hf]))
    refine ⟨.file (.user path) :: args, .inr (given path) :: ins, by simp [e1], ?_, .file e3⟩
    have h1 := fr.2.1 path hc.2.1
    have h2 := hg path (by simp [givenFiles])
    simp only [List.map_cons, look, e2, h1, h2]

/-- Sources that can be built are built. -/
theorem builds {cap items w r w'} (h : Sources .executable cap items w r w') :
    ∀ given ins, Built given items ins → r = 0 := by
  induction h with
  | nil => intro _ _ _; rfl
  | empty _ ih => intro g ins hb; cases hb with | empty hb => exact ih g _ hb
  | flag _ ih => intro g ins hb; cases hb with | flag hb => exact ih g _ hb
  | unknown => intro g ins hb; cases hb
  | cOk _ _ _ _ ih => intro g ins hb; cases hb with | csrc _ _ hb => exact ih g _ hb
  | cFail h1 h2 h3 =>
    intro g ins hb
    cases hb with
    | csrc hf ha hb => exact absurd ((status_every_schedule h1 h2).2 ⟨hf, fun _ => ⟨_, ha⟩⟩) h3
  | aOk _ _ ih => intro g ins hb; cases hb with | asrc hb => exact ih g _ hb
  | aFail h1 =>
    intro g ins hb
    cases hb with
    | asrc hb => simp [compileAsm, OutType.hasAs] at h1
  | file _ ih => intro g ins hb; cases hb with | file hb => exact ih g _ hb

theorem built_unique {g items} : ∀ {a b}, Built g items a → Built g items b → a = b := by
  induction items with
  | nil => intro a b ha hb; cases ha; cases hb; rfl
  | cons x rest ih =>
    intro a b ha hb
    cases ha with
    | empty ha => cases hb with | empty hb => exact ih ha hb
    | flag ha => cases hb with | flag hb => rw [ih ha hb]
    | csrc _ h1 ha => cases hb with
      | csrc _ h2 hb =>
        have e := h1.2.symm.trans h2.2
        injection e with e
        rw [ih ha hb, e]
    | asrc ha => cases hb with | asrc hb => rw [ih ha hb]
    | file ha => cases hb with | file hb => rw [ih ha hb]

/-- `xcc` building an executable exits with 0 exactly if every source can be
built, one tool after the other, and the linker accepts exactly those objects,
libraries and flags in the order of the command line; and then the executable
is what the linker makes of them. -/
theorem executable_every_schedule {link : List LdIn → Except Nat (List UInt8)} {cap : Nat}
    {out : String} {items : List Item} {fs : FileName → Option (List UInt8)} {code : Nat} {w' : World}
    (h : Xcc link cap out items ⟨fs, [], 0⟩ code w') (hc : NoClash items) :
    (code = 0 ↔ ∃ ins e, Built (fun p => fs (.user p)) items ins ∧ link ins = .ok e) ∧
    (code = 0 → ∀ ins, Built (fun p => fs (.user p)) items ins →
      ∃ e, link ins = .ok e ∧ w'.fs (.user out) = some e) := by
  cases h with
  | failed hs hr =>
    refine ⟨⟨fun h => by simp at h, ?_⟩, fun h => by simp at h⟩
    rintro ⟨ins, e, hb, -⟩
    exact absurd (builds hs _ _ hb) hr
  | unlinked hs hl =>
    obtain ⟨args, ins, e1, e2, e3⟩ := gives hs rfl hc (fun p => fs (.user p)) (fun _ _ => rfl)
    simp only [List.nil_append] at e1
    rw [e1, e2] at hl
    refine ⟨⟨fun h => by simp at h, ?_⟩, fun h => by simp at h⟩
    rintro ⟨ins', e, hb, hl'⟩
    rw [built_unique hb e3, hl] at hl'
    cases hl'
  | linked hs hl =>
    rename_i w1 e
    obtain ⟨args, ins, e1, e2, e3⟩ := gives hs rfl hc (fun p => fs (.user p)) (fun _ _ => rfl)
    simp only [List.nil_append] at e1
    rw [e1, e2] at hl
    refine ⟨⟨fun _ => ⟨ins, e, e3, hl⟩, fun _ => rfl⟩, fun _ ins' hb => ?_⟩
    refine ⟨e, by rw [built_unique hb e3]; exact hl, ?_⟩
    simp [cleanUp, World.set]

theorem temps_only {cap items w r w'} (h : Sources .executable cap items w r w') :
    (∀ n, w.tmps ≤ n → w.fs (.temp n) = none) → ∀ n, w'.tmps ≤ n → w'.fs (.temp n) = none := by
  have hC : ∀ (outfn : Option String) (s : St) (w : World), (∀ n, w.tmps ≤ n → w.fs (.temp n) = none) →
      ∀ n, (afterC .executable outfn s w).tmps ≤ n → (afterC .executable outfn s w).fs (.temp n) = none := by
    intro outfn s w hw n hn
    have e : (afterC .executable outfn s w).tmps = w.tmps + 1 := by
      cases outfn with
      | none => rfl
      | some f => simp only [afterC]; split <;> rfl
    have e2 : (afterC .executable outfn s w).fs (.temp n) = if n = w.tmps then s.obj else w.fs (.temp n) := by
      cases outfn with
      | none => simp [afterC, World.set]
      | some f => simp only [afterC]; split <;> simp [World.set]
    rw [e] at hn
    rw [e2, if_neg (by omega)]
    exact hw n (by omega)
  have hA : ∀ path result outfn (w : World), (∀ n, w.tmps ≤ n → w.fs (.temp n) = none) →
      ∀ n, (compileAsm .executable path result outfn w).2.tmps ≤ n →
        (compileAsm .executable path result outfn w).2.fs (.temp n) = none := by
    intro path result outfn w hw n hn
    cases result <;> simp [compileAsm, OutType.hasAs, asmObj, World.set] at hn ⊢ <;> exact hw n hn
  induction h with
  | nil => exact fun hw => hw
  | empty _ ih => exact ih
  | flag _ ih => exact ih
  | unknown => exact fun hw => hw
  | cOk _ _ _ _ ih => exact fun hw => ih (hC _ _ _ hw)
  | cFail _ _ _ => exact fun hw => hC _ _ _ hw
  | aOk _ _ ih => exact fun hw => ih (hA _ _ _ _ hw)
  | aFail _ => exact fun hw => hA _ _ _ _ hw
  | file _ ih => exact ih

/-- Whatever happens, no temporary object is left. -/
theorem no_temporary_left {link : List LdIn → Except Nat (List UInt8)} {cap : Nat}
    {out : String} {items : List Item} {fs : FileName → Option (List UInt8)} {code : Nat} {w' : World}
    (h : Xcc link cap out items ⟨fs, [], 0⟩ code w') (hfresh : ∀ n, fs (.temp n) = none) :
    ∀ n, w'.fs (.temp n) = none := by
  have key : ∀ w1 : World, (∀ n, w1.tmps ≤ n → w1.fs (.temp n) = none) →
      ∀ n, (cleanUp w1).fs (.temp n) = none := by
    intro w1 hw n
    simp only [cleanUp]
    split
    · rfl
    · exact hw n (by omega)
  cases h with
  | failed hs _ => exact key _ (temps_only hs (fun n _ => hfresh n))
  | unlinked hs _ => exact key _ (temps_only hs (fun n _ => hfresh n))
  | linked hs _ =>
    refine key _ ?_
    intro n hn
    simpa [World.set] using temps_only hs (fun n _ => hfresh n) n hn

/-! ## The hypotheses are met -/

/-- `xcc a.c b.s c.o -lm`. -/
def someItems : List Item :=
  [.csrc accepted none, .asrc "b.s" (.ok [7]) none, .file "c.o", .flag "-lm"]

example : NoClash someItems := by
  simp [NoClash, someItems, made, givenFiles]

def someFiles : FileName → Option (List UInt8)
  | .user p => if p = "c.o" then some [8] else none
  | .temp _ => none

def oneByte : List Actor :=
  [.driver .as, .driver .as, .driver .as, .cpp, .cc, .cpp, .cpp, .cc, .driver .cpp, .cc, .cc, .as,
   .cc, .as, .cc, .driver .cc, .driver .cc, .driver .cc, .driver .cc, .as, .as, .driver .as]

example : ∃ w', Xcc (fun ins => if ins.length = 4 then .ok [42] else .error 0) 1 "a.out" someItems
    ⟨someFiles, [], 0⟩ 0 w' := by
  refine ⟨_, .linked (e := [42]) (.cOk (acts := oneByte) rfl rfl rfl (.aOk rfl (.file (.flag .nil)))) ?_⟩
  rfl

example : ∃ w', Xcc (fun _ => .ok [42]) 8 "a.out"
    [.csrc missingHeader (some "a.out"), .csrc accepted (some "a.out")] ⟨someFiles, [], 0⟩ 1 w' := by
  refine ⟨_, .failed (.cFail (acts := [.driver .as, .driver .as, .driver .as, .cpp, .cc, .cpp,
    .driver .cpp, .driver .cpp, .driver .cpp, .driver .cc]) rfl rfl ?_) ?_⟩ <;> decide

end Verif.Driver

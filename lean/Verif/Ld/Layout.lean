import Verif.Util.Align

/-!
# C40: the layout of an executable

Model of `collect_sections_elfobj`, `add_elf_section`, `ld_calc_address`, `output_exe`,
`prepare_section_lists`, `prepare_section_groups`, `collect_section_data` of src/ld/ld.c, of `data_align` and
`put_padding` of src/util/util.c. Relocation, which changes section contents before they are collected but not
their sizes, is C41; the bytes of the ELF header and of the program headers are not modelled beyond their number.
-/

namespace Verif.LdLayout

open Verif.Align

/-- A section of an object file (`ElfSectionInfo`, elfobj.h): `nobits` is `sh_type == SHT_NOBITS`. -/
structure Sec where
  name : String
  align : Nat
  size : Nat
  nobits : Bool
  content : List Nat
deriving DecidableEq, Repr

/-- ld.c:48-66 `LinkElem`; the vector of sections of an element is flattened into the list. -/
inductive Elem
  | sec (s : Sec)
  | sym (n : String)
  | align (a : Nat)
deriving DecidableEq, Repr

/-- ld.c:444-466, 500-508, 573-585 `collect_sections_elfobj` for every file: sections named `n`, in order. An object
is its list of non-empty program sections (elfobj.c:104-124). -/
def named (objs : List (List Sec)) (n : String) : List Elem :=
  (objs.flatMap (fun o => o.filter (fun s => s.name == n))).map .sec

/-- ld.c:967-971 `kCodeSectionNames`. -/
def textElems (objs : List (List Sec)) : List Elem := named objs ".text" ++ named objs ".rodata"

/-- ld.c:972-986 `kDataSectionNames`. -/
def dataElems (objs : List (List Sec)) : List Elem :=
  named objs ".data" ++ ([.align 8, .sym "__init_array_start"] ++ (named objs ".init_array" ++
    ([.sym "__init_array_end", .sym "__fini_array_start"] ++ (named objs ".fini_array" ++
      ([.sym "__fini_array_end"] ++ named objs ".bss")))))

/-- ld.c:22-25. -/
def progStart : Nat := 0x100
def loadAddress : Nat := 0x1000000 + progStart
def dataAlign : Nat := 0x1000

/-- ld.c:1050-1070 `prepare_section_groups`: the alignment of a group, from its initial value. -/
def groupAlign (a0 : Nat) : List Elem → Nat
  | [] => a0
  | .sec s :: es => groupAlign (if s.align > a0 then s.align else a0) es
  | .sym _ :: es => groupAlign a0 es
  | .align a :: es => groupAlign (if a > a0 then a else a0) es

/-- Result of the address calculation. -/
structure Placed where
  addr : Nat
  secs : List (Sec × Nat)
  syms : List (String × Nat)
deriving DecidableEq, Repr

/-- ld.c:597-632, the loop over the elements of a group. (The update of `secgroup->align`, lines 613-614, has no
effect after `prepare_section_groups`.) -/
def layout (addr : Nat) : List Elem → Placed
  | [] => ⟨addr, [], []⟩
  | .sec s :: es =>
    let a := alignMacro addr s.align
    let r := layout (a + s.size) es
    ⟨r.addr, (s, a) :: r.secs, r.syms⟩
  | .sym n :: es =>
    let r := layout addr es
    ⟨r.addr, r.secs, (n, addr) :: r.syms⟩
  | .align a :: es => layout (alignMacro addr a) es

/-- ld.c:616-617. -/
def bssSize : List Elem → Nat
  | [] => 0
  | .sec s :: es => (if s.nobits then s.size else 0) + bssSize es
  | _ :: es => bssSize es

/-- util.c:480-492 `data_align`. (The parameter is an `int`; alignments of 2^31 and more are excluded below.) -/
def dsAlign (ds : List Nat) (a : Nat) : List Nat := ds ++ List.replicate (alignMacro ds.length a - ds.length) 0

/-- ld.c:541-554, 1075-1103 `collect_section_data`. -/
def collect (ds : List Nat) : List Elem → List Nat
  | [] => ds
  | .sec s :: es => collect (if s.nobits then ds else dsAlign ds s.align ++ s.content) es
  | .sym _ :: es => collect ds es
  | .align a :: es => collect (dsAlign ds a) es

/-- A PT_LOAD program header (elfutil.c:27-46). -/
structure Phdr where
  offset : Nat
  vaddr : Nat
  filesz : Nat
  memsz : Nat
deriving DecidableEq, Repr

/-- util.c:256-265 `put_padding`. -/
def putPadding (file : List Nat) (start : Nat) : List Nat := file ++ List.replicate (start - file.length) 0

/-- ld.c:709-719, one turn of the loop: `(addr, file)`. -/
def outGroup (st : Nat × List Nat) (galign : Nat) (ds : List Nat) : Nat × List Nat :=
  let addr := alignMacro st.1 galign
  if ds.length = 0 then (addr, st.2) else (addr + ds.length, putPadding st.2 addr ++ ds)

/-- The executable, with the addresses given to sections and symbols. -/
structure Image where
  file : List Nat
  phdrs : List Phdr
  secs : List (Sec × Nat)
  syms : List (String × Nat)

/-- ld.c:682-724 `output_exe` after ld.c:1133-1145. `hdr k` are the bytes of the ELF header and `k` program
headers. -/
def link (hdr : Nat → List Nat) (objs : List (List Sec)) : Image :=
  let ta := groupAlign 1 (textElems objs)
  let da := groupAlign dataAlign (dataElems objs)
  let ts := alignMacro loadAddress ta
  let tr := layout ts (textElems objs)
  let dst := alignMacro tr.addr da
  let dr := layout dst (dataElems objs)
  let tds := collect [] (textElems objs)
  let dds := collect [] (dataElems objs)
  let bss := bssSize (dataElems objs)
  let ph1 : Phdr := ⟨progStart, ts, tds.length, tds.length⟩
  let off := if dds.length > 0 then alignMacro (progStart + tds.length) dataAlign else progStart + tds.length
  let ph2 : Phdr := ⟨off, dst, dds.length, dds.length + bss⟩
  let phs := if dds.length > 0 ∨ bss > 0 then [ph1, ph2] else [ph1]
  let file := outGroup (outGroup (progStart, hdr phs.length) ta tds) da dds
  ⟨file.2, phs, tr.secs ++ dr.secs, tr.syms ++ dr.syms⟩

/-! ### Specification: the program loader -/

/-- Byte of a segment at address `a`. -/
def Phdr.at (p : Phdr) (file : List Nat) (a : Nat) : Option Nat :=
  if p.vaddr ≤ a ∧ a < p.vaddr + p.filesz then file[p.offset + (a - p.vaddr)]?
  else if p.vaddr ≤ a ∧ a < p.vaddr + p.memsz then some 0
  else none

/-- The memory the program starts with: `none` where nothing is mapped. -/
def memory (phs : List Phdr) (file : List Nat) (a : Nat) : Option Nat :=
  phs.findSome? (fun p => p.at file a)

/-- Names the linker knows. -/
def Known (n : String) : Prop :=
  n ∈ [".text", ".rodata", ".data", ".init_array", ".fini_array", ".bss"]

/-- Inputs considered: alignments are powers of two, at most 256 in the code segment (the file offset of the
segment) and at most a page in the data segment; exactly the `.bss` sections have no content; everything fits. -/
structure Good (hdr : Nat → List Nat) (objs : List (List Sec)) : Prop where
  pow : ∀ o ∈ objs, ∀ s ∈ o, ∃ k, s.align = 2 ^ k
  text : ∀ o ∈ objs, ∀ s ∈ o, s.name = ".text" ∨ s.name = ".rodata" → s.align ≤ 0x100
  data : ∀ o ∈ objs, ∀ s ∈ o, s.align ≤ 0x1000
  nobits : ∀ o ∈ objs, ∀ s ∈ o, s.nobits = true ↔ s.name = ".bss"
  content : ∀ o ∈ objs, ∀ s ∈ o, s.nobits = false → s.content.length = s.size
  small : ((objs.flatMap id).map (fun s => s.size + s.align)).sum ≤ 2 ^ 59
  hdr : ∀ k, (hdr k).length ≤ 0x100

/-! ### Lemmas -/

/-- Sections of a list of elements. -/
def secsOf : List Elem → List Sec
  | [] => []
  | .sec s :: es => s :: secsOf es
  | _ :: es => secsOf es

/-- Bound on the growth of the address. -/
def weight : List Elem → Nat
  | [] => 0
  | .sec s :: es => s.size + s.align + weight es
  | .sym _ :: es => weight es
  | .align a :: es => a + weight es

/-- All alignments are powers of two, at most `2^g`. -/
def AlignOk (g : Nat) (es : List Elem) : Prop :=
  ∀ e ∈ es, match e with
    | .sec s => ∃ k, k ≤ g ∧ s.align = 2 ^ k
    | .sym _ => True
    | .align a => ∃ k, k ≤ g ∧ a = 2 ^ k

theorem AlignOk.tail {g : Nat} {e : Elem} {es : List Elem} (h : AlignOk g (e :: es)) : AlignOk g es :=
  fun x hx => h x (List.mem_cons_of_mem _ hx)

theorem layout_append (e1 e2 : List Elem) : ∀ addr, layout addr (e1 ++ e2) =
    ⟨(layout (layout addr e1).addr e2).addr, (layout addr e1).secs ++ (layout (layout addr e1).addr e2).secs,
      (layout addr e1).syms ++ (layout (layout addr e1).addr e2).syms⟩ := by
  induction e1 with
  | nil => intro addr; rfl
  | cons e e1 ih =>
    intro addr
    cases e with
    | sec s => simp only [List.cons_append, layout, ih]
    | sym n => simp only [List.cons_append, layout, ih]
    | align a => simp only [List.cons_append, layout, ih]

theorem collect_append (e1 e2 : List Elem) : ∀ ds, collect ds (e1 ++ e2) = collect (collect ds e1) e2 := by
  induction e1 with
  | nil => intro ds; rfl
  | cons e e1 ih =>
    intro ds
    cases e <;> simp only [List.cons_append, collect, ih]

theorem secsOf_append (e1 e2 : List Elem) : secsOf (e1 ++ e2) = secsOf e1 ++ secsOf e2 := by
  induction e1 with
  | nil => rfl
  | cons e e1 ih => cases e <;> simp [secsOf, ih]

theorem weight_append (e1 e2 : List Elem) : weight (e1 ++ e2) = weight e1 + weight e2 := by
  induction e1 with
  | nil => simp [weight]
  | cons e e1 ih => cases e <;> simp [weight, ih] <;> omega

theorem bssSize_append (e1 e2 : List Elem) : bssSize (e1 ++ e2) = bssSize e1 + bssSize e2 := by
  induction e1 with
  | nil => simp [bssSize]
  | cons e e1 ih => cases e <;> simp [bssSize, ih] <;> omega

/-- The macro in the range we use. -/
theorem macro_ok {x a g : Nat} (hg : g < 64) (ha : ∃ k, k ≤ g ∧ a = 2 ^ k) (hx : x + a ≤ 2 ^ 64) :
    alignMacro x a = alignUp x a ∧ 0 < a := by
  obtain ⟨k, hk, rfl⟩ := ha
  exact ⟨alignMacro_eq x k (by omega) hx, Nat.two_pow_pos k⟩

/-- Addresses grow; sections are aligned, in order, disjoint. -/
theorem layout_gen {g : Nat} (hg : g < 64) : ∀ (es : List Elem) (addr : Nat), AlignOk g es → addr + weight es ≤ 2 ^ 63 →
    addr ≤ (layout addr es).addr ∧ (layout addr es).addr ≤ addr + weight es ∧
    (∀ p ∈ (layout addr es).secs, addr ≤ p.2 ∧ p.2 + p.1.size ≤ (layout addr es).addr ∧ p.1.align ∣ p.2) ∧
    (layout addr es).secs.Pairwise (fun p q => p.2 + p.1.size ≤ q.2) ∧
    (layout addr es).secs.map Prod.fst = secsOf es := by
  intro es
  induction es with
  | nil => intro addr _ _; simp [layout, weight, secsOf]
  | cons e es ih =>
    intro addr hok hw
    have hhead := hok e (by simp)
    cases e with
    | sym n =>
      simp only [layout, weight, secsOf] at hw ⊢
      exact ih addr hok.tail hw
    | align a =>
      simp only [layout, weight, secsOf] at hw hhead ⊢
      obtain ⟨hm, hpos⟩ := macro_ok hg hhead (x := addr) (by omega)
      rw [hm]
      have h1 := le_alignUp addr a hpos
      have h2 := alignUp_lt addr a hpos
      obtain ⟨i1, i2, i3, i4, i5⟩ := ih (alignUp addr a) hok.tail (by omega)
      refine ⟨by omega, by omega, fun p hp => ?_, i4, i5⟩
      obtain ⟨j1, j2, j3⟩ := i3 p hp
      exact ⟨by omega, j2, j3⟩
    | sec s =>
      simp only [layout, weight, secsOf] at hw hhead ⊢
      obtain ⟨hm, hpos⟩ := macro_ok hg hhead (x := addr) (by omega)
      rw [hm]
      have h1 := le_alignUp addr s.align hpos
      have h2 := alignUp_lt addr s.align hpos
      obtain ⟨i1, i2, i3, i4, i5⟩ := ih (alignUp addr s.align + s.size) hok.tail (by omega)
      refine ⟨by omega, by omega, fun p hp => ?_, ?_, by simp [i5]⟩
      · rcases List.mem_cons.1 hp with rfl | hp
        · exact ⟨h1, i1, dvd_alignUp _ _⟩
        · obtain ⟨j1, j2, j3⟩ := i3 p hp
          exact ⟨by omega, j2, j3⟩
      · refine List.pairwise_cons.2 ⟨fun q hq => (i3 q hq).1, i4⟩

theorem alignUp_base {g S x a : Nat} (hS : 2 ^ g ∣ S) (ha : ∃ k, k ≤ g ∧ a = 2 ^ k) :
    alignUp (S + x) a = S + alignUp x a := by
  obtain ⟨k, hk, rfl⟩ := ha
  rw [Nat.add_comm S x, alignUp_add x S _ (Nat.two_pow_pos k) (Nat.dvd_trans (Nat.pow_dvd_pow 2 hk) hS), Nat.add_comm]

theorem dsAlign_length {ds : List Nat} {a : Nat} (hpos : 0 < a) (hm : alignMacro ds.length a = alignUp ds.length a) :
    (dsAlign ds a).length = alignUp ds.length a := by
  have := le_alignUp ds.length a hpos
  simp only [dsAlign, List.length_append, List.length_replicate, hm]
  omega

/-- Sections with contents: data collected and addresses agree. -/
theorem layout_data {g S : Nat} (hg : g < 64) (hS : 2 ^ g ∣ S) : ∀ (es : List Elem) (ds : List Nat), AlignOk g es →
    (∀ s ∈ secsOf es, s.nobits = false ∧ s.content.length = s.size) → S + ds.length + weight es ≤ 2 ^ 63 →
    (layout (S + ds.length) es).addr = S + (collect ds es).length ∧ ds <+: collect ds es ∧
    ∀ p ∈ (layout (S + ds.length) es).secs, ∃ k, p.2 = S + k ∧
      (k + p.1.size ≤ (collect ds es).length ∧ ((collect ds es).drop k).take p.1.size = p.1.content) := by
  intro es
  induction es with
  | nil => intro ds _ _ _; exact ⟨rfl, List.prefix_refl _, fun p hp => (by cases hp)⟩
  | cons e es ih =>
    intro ds hok hc hw
    have hhead := hok e (by simp)
    cases e with
    | sym n =>
      simp only [layout, weight, collect, secsOf] at hw hc ⊢
      exact ih ds hok.tail hc hw
    | align a =>
      simp only [layout, weight, collect, secsOf] at hw hc hhead ⊢
      obtain ⟨hm, hpos⟩ := macro_ok hg hhead (x := S + ds.length) (by omega)
      obtain ⟨hm2, _⟩ := macro_ok hg hhead (x := ds.length) (by omega)
      have hlen := dsAlign_length hpos hm2
      rw [hm, alignUp_base hS hhead, ← hlen]
      have h2 := alignUp_lt ds.length a hpos
      obtain ⟨i1, i2, i3⟩ := ih (dsAlign ds a) hok.tail hc (by omega)
      exact ⟨i1, (List.prefix_append _ _).trans i2, i3⟩
    | sec s =>
      simp only [layout, weight, collect, secsOf] at hw hc hhead ⊢
      obtain ⟨hm, hpos⟩ := macro_ok hg hhead (x := S + ds.length) (by omega)
      obtain ⟨hm2, _⟩ := macro_ok hg hhead (x := ds.length) (by omega)
      have hlen := dsAlign_length hpos hm2
      obtain ⟨hn, hcl⟩ := hc s (by simp)
      have h2 := alignUp_lt ds.length s.align hpos
      rw [if_neg (by simp [hn]), hm, alignUp_base hS hhead, ← hlen]
      have hl : (dsAlign ds s.align ++ s.content).length = (dsAlign ds s.align).length + s.size := by
        rw [List.length_append, hcl]
      obtain ⟨i1, i2, i3⟩ := ih (dsAlign ds s.align ++ s.content) hok.tail
        (fun t ht => hc t (List.mem_cons_of_mem _ ht)) (by omega)
      rw [hl, ← Nat.add_assoc] at i1 i3
      refine ⟨i1, ((List.prefix_append _ _).trans (List.prefix_append _ _)).trans i2, fun p hp => ?_⟩
      rcases List.mem_cons.1 hp with rfl | hp
      · refine ⟨(dsAlign ds s.align).length, rfl, ?_, ?_⟩
        · have := i2.length_le
          show (dsAlign ds s.align).length + s.size ≤ _
          omega
        · obtain ⟨t, ht⟩ := i2
          rw [← ht]
          simp only [List.append_assoc, List.drop_left']
          rw [← hcl, List.take_left']
          rfl
      · exact i3 p hp

/-- `.bss` sections leave the data alone. -/
theorem collect_bss : ∀ (es : List Elem) (ds : List Nat), (∀ e ∈ es, ∃ s, e = .sec s ∧ s.nobits = true) →
    collect ds es = ds := by
  intro es
  induction es with
  | nil => intro ds _; rfl
  | cons e es ih =>
    intro ds h
    obtain ⟨s, rfl, hs⟩ := h e (by simp)
    simp only [collect, hs, if_true]
    exact ih ds (fun e he => h e (List.mem_cons_of_mem _ he))

theorem groupAlign_pow {g : Nat} : ∀ (es : List Elem) (a0 : Nat), AlignOk g es → (∃ k, k ≤ g ∧ a0 = 2 ^ k) →
    ∃ k, k ≤ g ∧ groupAlign a0 es = 2 ^ k ∧ a0 ≤ 2 ^ k ∧ AlignOk k es := by
  intro es
  induction es with
  | nil => rintro a0 _ ⟨k, hk, rfl⟩; exact ⟨k, hk, rfl, Nat.le_refl _, fun e he => (by cases he)⟩
  | cons e es ih =>
    intro a0 hok h0
    have hhead := hok e (by simp)
    cases e with
    | sym n =>
      simp only [groupAlign]
      obtain ⟨k, h1, h2, h3, h4⟩ := ih a0 hok.tail h0
      refine ⟨k, h1, h2, h3, fun e he => ?_⟩
      rcases List.mem_cons.1 he with rfl | he
      · trivial
      · exact h4 e he
    | align a =>
      simp only [groupAlign] at hhead ⊢
      obtain ⟨k, h1, h2, h3, h4⟩ := ih (if a > a0 then a else a0) hok.tail (by split <;> assumption)
      have hle : a0 ≤ 2 ^ k ∧ a ≤ 2 ^ k := by split at h3 <;> omega
      refine ⟨k, h1, h2, hle.1, fun e he => ?_⟩
      rcases List.mem_cons.1 he with rfl | he
      · obtain ⟨j, _, rfl⟩ := hhead
        exact ⟨j, (Nat.pow_le_pow_iff_right (by omega)).1 hle.2, rfl⟩
      · exact h4 e he
    | sec s =>
      simp only [groupAlign] at hhead ⊢
      obtain ⟨k, h1, h2, h3, h4⟩ := ih (if s.align > a0 then s.align else a0) hok.tail (by split <;> assumption)
      have hle : a0 ≤ 2 ^ k ∧ s.align ≤ 2 ^ k := by split at h3 <;> omega
      refine ⟨k, h1, h2, hle.1, fun e he => ?_⟩
      rcases List.mem_cons.1 he with rfl | he
      · obtain ⟨j, _, hj⟩ := hhead
        exact ⟨j, (Nat.pow_le_pow_iff_right (by omega)).1 (hj ▸ hle.2), hj⟩
      · exact h4 e he

/-! #### The pieces -/

/-- All sections of the objects named `n`. -/
def secsNamed (objs : List (List Sec)) (n : String) : List Sec :=
  objs.flatMap (fun o => o.filter (fun s => s.name == n))

theorem secsOf_map (l : List Sec) : secsOf (l.map .sec) = l := by
  induction l with
  | nil => rfl
  | cons s l ih => simp [secsOf, ih]

theorem secsOf_named (objs : List (List Sec)) (n : String) : secsOf (named objs n) = secsNamed objs n :=
  secsOf_map _

theorem mem_secsNamed {objs : List (List Sec)} {n : String} {s : Sec} :
    s ∈ secsNamed objs n ↔ ∃ o ∈ objs, s ∈ o ∧ s.name = n := by
  simp [secsNamed]

theorem weight_map_filter (l : List Sec) (n : String) :
    weight ((l.filter (fun s => s.name == n)).map .sec) ≤ (l.map (fun s => s.size + s.align)).sum := by
  induction l with
  | nil => simp [weight]
  | cons s l ih =>
    rw [List.filter_cons]
    split
    · simp only [List.map_cons, weight, List.sum_cons]; omega
    · simp only [List.map_cons, List.sum_cons]; omega

theorem weight_named {hdr : Nat → List Nat} {objs : List (List Sec)} (h : Good hdr objs) (n : String) :
    weight (named objs n) ≤ 2 ^ 59 := by
  refine Nat.le_trans ?_ h.small
  have : named objs n = (((objs.flatMap id).filter (fun s => s.name == n)).map .sec) := by
    unfold named
    rw [List.filter_flatMap]
    rfl
  rw [this]
  exact weight_map_filter _ _

theorem alignOk_append {g : Nat} {e1 e2 : List Elem} (h1 : AlignOk g e1) (h2 : AlignOk g e2) : AlignOk g (e1 ++ e2) := by
  intro e he
  rcases List.mem_append.1 he with he | he
  · exact h1 e he
  · exact h2 e he

theorem alignOk_named {g : Nat} {objs : List (List Sec)} {n : String}
    (h : ∀ s ∈ secsNamed objs n, ∃ k, k ≤ g ∧ s.align = 2 ^ k) : AlignOk g (named objs n) := by
  intro e he
  obtain ⟨s, hs, rfl⟩ := List.mem_map.1 he
  exact h s hs

theorem pow_le {hdr : Nat → List Nat} {objs : List (List Sec)} (h : Good hdr objs) {n : String} {g : Nat} {s : Sec}
    (hs : s ∈ secsNamed objs n) (hle : s.align ≤ 2 ^ g) : ∃ k, k ≤ g ∧ s.align = 2 ^ k := by
  obtain ⟨o, ho, hso, _⟩ := mem_secsNamed.1 hs
  obtain ⟨k, hk⟩ := h.pow o ho s hso
  exact ⟨k, (Nat.pow_le_pow_iff_right (by omega)).1 (hk ▸ hle), hk⟩

/-- The data elements before `.bss`. -/
def preElems (objs : List (List Sec)) : List Elem :=
  named objs ".data" ++ ([.align 8, .sym "__init_array_start"] ++ (named objs ".init_array" ++
    ([.sym "__init_array_end", .sym "__fini_array_start"] ++ (named objs ".fini_array" ++
      [.sym "__fini_array_end"]))))

theorem dataElems_eq (objs : List (List Sec)) : dataElems objs = preElems objs ++ named objs ".bss" := by
  simp [dataElems, preElems]

section
variable {hdr : Nat → List Nat} {objs : List (List Sec)} (h : Good hdr objs)
include h

theorem text_ok : AlignOk 8 (textElems objs) := by
  apply alignOk_append <;> apply alignOk_named <;> intro s hs <;> apply pow_le h hs
  all_goals
    obtain ⟨o, ho, hso, hn⟩ := mem_secsNamed.1 hs
    exact h.text o ho s hso (by simp [hn])

theorem named_ok (n : String) : AlignOk 12 (named objs n) := by
  apply alignOk_named
  intro s hs
  apply pow_le h hs
  obtain ⟨o, ho, hso, _⟩ := mem_secsNamed.1 hs
  exact h.data o ho s hso

theorem pre_ok : AlignOk 12 (preElems objs) := by
  unfold preElems
  refine alignOk_append (named_ok h _) (alignOk_append ?_ (alignOk_append (named_ok h _) (alignOk_append ?_
    (alignOk_append (named_ok h _) ?_))))
  · intro e he
    simp only [List.mem_cons, List.not_mem_nil, or_false] at he
    rcases he with rfl | rfl
    · exact ⟨3, by omega, rfl⟩
    · trivial
  · intro e he
    simp only [List.mem_cons, List.not_mem_nil, or_false] at he
    rcases he with rfl | rfl <;> trivial
  · intro e he
    simp only [List.mem_cons, List.not_mem_nil, or_false] at he
    subst he; trivial

theorem data_ok : AlignOk 12 (dataElems objs) := by
  rw [dataElems_eq]
  exact alignOk_append (pre_ok h) (named_ok h _)

theorem named_content {n : String} (hn : n ≠ ".bss") :
    ∀ s ∈ secsNamed objs n, s.nobits = false ∧ s.content.length = s.size := by
  intro s hs
  obtain ⟨o, ho, hso, hnm⟩ := mem_secsNamed.1 hs
  have hnb : s.nobits = false := by
    cases hb : s.nobits with
    | false => rfl
    | true => exact absurd (hnm ▸ (h.nobits o ho s hso).1 hb) hn
  exact ⟨hnb, h.content o ho s hso hnb⟩

theorem text_content : ∀ s ∈ secsOf (textElems objs), s.nobits = false ∧ s.content.length = s.size := by
  unfold textElems
  rw [secsOf_append, secsOf_named, secsOf_named]
  intro s hs
  rcases List.mem_append.1 hs with hs | hs
  · exact named_content h (by decide) s hs
  · exact named_content h (by decide) s hs

theorem pre_content : ∀ s ∈ secsOf (preElems objs), s.nobits = false ∧ s.content.length = s.size := by
  unfold preElems
  simp only [secsOf_append, secsOf_named, secsOf, List.nil_append, List.append_nil]
  intro s hs
  rcases List.mem_append.1 hs with hs | hs
  · exact named_content h (by decide) s hs
  rcases List.mem_append.1 hs with hs | hs
  · exact named_content h (by decide) s hs
  · exact named_content h (by decide) s hs

theorem bss_nobits : ∀ e ∈ named objs ".bss", ∃ s, e = .sec s ∧ s.nobits = true := by
  intro e he
  obtain ⟨s, hs, rfl⟩ := List.mem_map.1 he
  obtain ⟨o, ho, hso, hnm⟩ := mem_secsNamed.1 hs
  exact ⟨s, rfl, (h.nobits o ho s hso).2 hnm⟩

theorem text_weight : weight (textElems objs) ≤ 2 ^ 60 := by
  unfold textElems
  rw [weight_append]
  have h1 := weight_named h ".text"
  have h2 := weight_named h ".rodata"
  omega

theorem pre_weight : weight (preElems objs) ≤ 2 ^ 61 := by
  unfold preElems
  simp only [weight_append, weight]
  have h1 := weight_named h ".data"
  have h2 := weight_named h ".init_array"
  have h3 := weight_named h ".fini_array"
  omega

end

/-- What `link` computes for good inputs. -/
structure Facts (hdr : Nat → List Nat) (objs : List (List Sec)) : Prop where
  ts : alignMacro loadAddress (groupAlign 1 (textElems objs)) = loadAddress
  taddr : (layout loadAddress (textElems objs)).addr = loadAddress + (collect [] (textElems objs)).length
  tfile : alignMacro progStart (groupAlign 1 (textElems objs)) = progStart
  tlen : (collect [] (textElems objs)).length ≤ 2 ^ 60
  da : groupAlign dataAlign (dataElems objs) = 0x1000
  dfile : alignMacro (progStart + (collect [] (textElems objs)).length) 0x1000 =
    alignUp (progStart + (collect [] (textElems objs)).length) 0x1000
  dst : alignMacro (loadAddress + (collect [] (textElems objs)).length) 0x1000 =
    0x1000000 + alignUp (progStart + (collect [] (textElems objs)).length) 0x1000

theorem facts {hdr : Nat → List Nat} {objs : List (List Sec)} (h : Good hdr objs) : Facts hdr objs := by
  obtain ⟨tk, ht1, ht2, _, ht4⟩ := groupAlign_pow (textElems objs) 1 (text_ok h) ⟨0, by omega, rfl⟩
  obtain ⟨dk, hd1, hd2, hd3, _⟩ := groupAlign_pow (dataElems objs) dataAlign (data_ok h) ⟨12, by omega, rfl⟩
  have hdvd : (2 : Nat) ^ tk ∣ 0x100 := Nat.pow_dvd_pow 2 (n := 8) ht1
  have hle : (2 : Nat) ^ tk ≤ 256 := Nat.le_of_dvd (by omega) hdvd
  have hw := text_weight h
  have e1 : alignMacro loadAddress (2 ^ tk) = loadAddress := by
    rw [alignMacro_eq _ _ (by omega) (by unfold loadAddress progStart; omega),
      alignUp_of_dvd _ _ (Nat.two_pow_pos _) (Nat.dvd_trans hdvd ⟨0x10001, by decide⟩)]
  have e2 : alignMacro progStart (2 ^ tk) = progStart := by
    rw [alignMacro_eq _ _ (by omega) (by unfold progStart; omega), alignUp_of_dvd progStart _ (Nat.two_pow_pos _) hdvd]
  have hdata := layout_data (g := 8) (S := loadAddress) (by omega) ⟨0x10001, by decide⟩ (textElems objs) [] (text_ok h)
    (text_content h) (by simp only [List.length_nil]; unfold loadAddress progStart; omega)
  have hgen := layout_gen (g := 8) (by omega) (textElems objs) loadAddress (text_ok h)
    (by unfold loadAddress progStart; omega)
  have hl : (collect [] (textElems objs)).length ≤ 2 ^ 60 := by
    have a1 := hdata.1
    have a2 := hgen.2.1
    simp only [List.length_nil, Nat.add_zero] at a1
    omega
  have hdk : dk = 12 := by
    have : 12 ≤ dk := (Nat.pow_le_pow_iff_right (a := 2) (by omega)).1 hd3
    omega
  refine ⟨by rw [ht2]; exact e1, by simpa using hdata.1, by rw [ht2]; exact e2, hl, by rw [hd2, hdk],
    alignMacro_eq _ 12 (by omega) (by unfold progStart; omega), ?_⟩
  rw [show (0x1000 : Nat) = 2 ^ 12 from rfl, alignMacro_eq _ 12 (by omega) (by unfold loadAddress progStart; omega),
    ← alignUp_base (g := 12) (S := 0x1000000) ⟨0x1000, by decide⟩ ⟨12, by omega, rfl⟩]
  congr 1
  unfold loadAddress
  omega

/-- Text bytes. -/
def tds (objs : List (List Sec)) : List Nat := collect [] (textElems objs)
/-- Data bytes. -/
def dds (objs : List (List Sec)) : List Nat := collect [] (dataElems objs)
/-- File offset of the data. -/
def dof (objs : List (List Sec)) : Nat := alignUp (progStart + (tds objs).length) 0x1000

/-- The link in closed form. -/
theorem link_eq {hdr : Nat → List Nat} {objs : List (List Sec)} (h : Good hdr objs) :
    let ph1 : Phdr := ⟨progStart, loadAddress, (tds objs).length, (tds objs).length⟩
    let ph2 : Phdr := ⟨if (dds objs).length > 0 then dof objs else progStart + (tds objs).length, 0x1000000 + dof objs,
      (dds objs).length, (dds objs).length + bssSize (dataElems objs)⟩
    let phs := if (dds objs).length > 0 ∨ bssSize (dataElems objs) > 0 then [ph1, ph2] else [ph1]
    let f1 := if (tds objs).length = 0 then hdr phs.length else putPadding (hdr phs.length) progStart ++ tds objs
    let f2 := if (dds objs).length = 0 then f1 else putPadding f1 (dof objs) ++ dds objs
    link hdr objs = ⟨f2, phs,
      (layout loadAddress (textElems objs)).secs ++ (layout (0x1000000 + dof objs) (dataElems objs)).secs,
      (layout loadAddress (textElems objs)).syms ++ (layout (0x1000000 + dof objs) (dataElems objs)).syms⟩ := by
  intro ph1 ph2 phs f1 f2
  have F := facts h
  have hst : alignMacro (layout loadAddress (textElems objs)).addr 0x1000 = 0x1000000 + dof objs := by
    rw [F.taddr]; exact F.dst
  unfold link
  simp only [F.ts, F.da]
  rw [hst]
  have hout : (outGroup (outGroup (progStart, hdr phs.length) (groupAlign 1 (textElems objs)) (tds objs)) 0x1000
      (dds objs)).2 = f2 := by
    have h1 : outGroup (progStart, hdr phs.length) (groupAlign 1 (textElems objs)) (tds objs) =
        (progStart + (tds objs).length, f1) := by
      unfold outGroup
      simp only [F.tfile, f1]
      split
      · rename_i h0; rw [h0]; rfl
      · rfl
    rw [h1]
    unfold outGroup
    simp only [f2]
    rw [show alignMacro (progStart + (tds objs).length) 0x1000 = dof objs from F.dfile]
    split <;> rfl
  rw [show alignMacro (progStart + (collect [] (textElems objs)).length) dataAlign = dof objs from F.dfile]
  exact congrArg (fun f => Image.mk f phs _ _) hout

/-! #### Theorems -/

theorem append_at {f ds : List Nat} {X k : Nat} (hf : f.length ≤ X) (hk : k < ds.length) :
    (putPadding f X ++ ds)[X + k]? = ds[k]? := by
  have hl : (putPadding f X).length = X := by
    simp only [putPadding, List.length_append, List.length_replicate]; omega
  rw [List.getElem?_append_right (by omega), hl]
  congr 1
  omega

theorem putPadding_prefix (f ds : List Nat) (X : Nat) : f <+: putPadding f X ++ ds := by
  unfold putPadding
  rw [List.append_assoc]
  exact List.prefix_append _ _

/-- Reading bytes out of the loaded image. -/
theorem memory_link {hdr : Nat → List Nat} {objs : List (List Sec)} (h : Good hdr objs) :
    (∀ k, k < (tds objs).length →
      memory (link hdr objs).phdrs (link hdr objs).file (loadAddress + k) = (tds objs)[k]?) ∧
    (∀ k, k < (dds objs).length →
      memory (link hdr objs).phdrs (link hdr objs).file (0x1000000 + dof objs + k) = (dds objs)[k]?) ∧
    (∀ k, (dds objs).length ≤ k → k < (dds objs).length + bssSize (dataElems objs) →
      memory (link hdr objs).phdrs (link hdr objs).file (0x1000000 + dof objs + k) = some 0) := by
  have he := link_eq h
  simp only at he
  have hD : progStart + (tds objs).length ≤ dof objs := le_alignUp _ _ (by omega)
  generalize hph1 : (⟨progStart, loadAddress, (tds objs).length, (tds objs).length⟩ : Phdr) = ph1 at he
  generalize hph2 : (⟨if (dds objs).length > 0 then dof objs else progStart + (tds objs).length, 0x1000000 + dof objs,
      (dds objs).length, (dds objs).length + bssSize (dataElems objs)⟩ : Phdr) = ph2 at he
  generalize hphs : (if (dds objs).length > 0 ∨ bssSize (dataElems objs) > 0 then [ph1, ph2] else [ph1]) = phs at he
  generalize hf1 : (if (tds objs).length = 0 then hdr phs.length
    else putPadding (hdr phs.length) progStart ++ tds objs) = f1 at he
  generalize hf2 : (if (dds objs).length = 0 then f1 else putPadding f1 (dof objs) ++ dds objs) = f2 at he
  rw [he]
  simp only
  have hhd := h.hdr phs.length
  have hl1 : f1.length ≤ progStart + (tds objs).length := by
    rw [← hf1]
    unfold progStart
    split
    · omega
    · simp only [putPadding, List.length_append, List.length_replicate]; omega
  have hpre : f1 <+: f2 := by
    rw [← hf2]
    split
    · exact List.prefix_refl _
    · exact putPadding_prefix _ _ _
  have hfirst : ∃ l, phs = ph1 :: l := by
    rw [← hphs]; split <;> exact ⟨_, rfl⟩
  have hp1 : ∀ a, loadAddress + (tds objs).length ≤ a → ph1.at f2 a = none := by
    intro a ha
    rw [← hph1]
    unfold Phdr.at
    rw [if_neg (by simp only; omega), if_neg (by simp only; omega)]
  have hload : loadAddress = 0x1000000 + progStart := rfl
  refine ⟨?_, ?_, ?_⟩
  · intro k hk
    obtain ⟨l, hl⟩ := hfirst
    have hat : ph1.at f2 (loadAddress + k) = (tds objs)[k]? := by
      rw [← hph1]
      unfold Phdr.at
      rw [if_pos (by simp only; omega)]
      simp only
      rw [show progStart + (loadAddress + k - loadAddress) = progStart + k by omega]
      have : f1[progStart + k]? = (tds objs)[k]? := by
        rw [← hf1, if_neg (by omega)]
        exact append_at hhd hk
      rw [← this]
      obtain ⟨t, rfl⟩ := hpre
      rw [List.getElem?_append_left]
      have hne : f1[progStart + k]? ≠ none := by rw [this]; simp; omega
      rw [Ne, List.getElem?_eq_none_iff] at hne
      omega
    rw [hl]
    unfold memory
    rw [List.findSome?_cons, hat]
    obtain ⟨v, hv⟩ : ∃ v, (tds objs)[k]? = some v := ⟨_, List.getElem?_eq_getElem hk⟩
    rw [hv]
  · intro k hk
    rw [← hphs, if_pos (.inl (by omega))]
    unfold memory
    rw [List.findSome?_cons, hp1 _ (by omega)]
    simp only [List.findSome?_cons, List.findSome?_nil]
    have hat : ph2.at f2 (0x1000000 + dof objs + k) = (dds objs)[k]? := by
      rw [← hph2]
      unfold Phdr.at
      rw [if_pos (by simp only; omega)]
      simp only
      rw [if_pos (by omega), show dof objs + (0x1000000 + dof objs + k - (0x1000000 + dof objs)) = dof objs + k by omega,
        ← hf2, if_neg (by omega)]
      exact append_at (by omega) hk
    rw [hat]
    obtain ⟨v, hv⟩ : ∃ v, (dds objs)[k]? = some v := ⟨_, List.getElem?_eq_getElem hk⟩
    rw [hv]
  · intro k hk1 hk2
    rw [← hphs, if_pos (by omega)]
    unfold memory
    rw [List.findSome?_cons, hp1 _ (by omega)]
    simp only [List.findSome?_cons, List.findSome?_nil]
    have hat : ph2.at f2 (0x1000000 + dof objs + k) = some 0 := by
      rw [← hph2]
      unfold Phdr.at
      rw [if_neg (by simp only; omega), if_pos (by simp only; omega)]
    rw [hat]

theorem dds_eq {hdr : Nat → List Nat} {objs : List (List Sec)} (h : Good hdr objs) :
    dds objs = collect [] (preElems objs) := by
  unfold dds
  rw [dataElems_eq, collect_append, collect_bss _ _ (bss_nobits h)]

theorem dof_dvd (objs : List (List Sec)) : 2 ^ 12 ∣ 0x1000000 + dof objs :=
  Nat.dvd_add ⟨0x1000, by decide⟩ (dvd_alignUp _ _)

theorem dof_le {hdr : Nat → List Nat} {objs : List (List Sec)} (h : Good hdr objs) : dof objs ≤ 2 ^ 61 := by
  have h1 := (facts h).tlen
  have h2 := alignUp_lt (progStart + (tds objs).length) 0x1000 (by omega)
  unfold dof
  unfold progStart at h2 ⊢
  have : (tds objs).length ≤ 2 ^ 60 := h1
  omega

/-- The sections of the data group. -/
theorem data_secs {hdr : Nat → List Nat} {objs : List (List Sec)} (h : Good hdr objs) :
    (layout (0x1000000 + dof objs) (dataElems objs)).secs =
      (layout (0x1000000 + dof objs) (preElems objs)).secs ++
      (layout (0x1000000 + dof objs + (dds objs).length) (named objs ".bss")).secs ∧
    (layout (0x1000000 + dof objs) (preElems objs)).addr = 0x1000000 + dof objs + (dds objs).length ∧
    (dds objs).length ≤ 2 ^ 61 := by
  have hw := pre_weight h
  have hd := dof_le h
  have hdata := layout_data (g := 12) (S := 0x1000000 + dof objs) (by omega) (dof_dvd objs) (preElems objs) [] (pre_ok h)
    (pre_content h) (by simp only [List.length_nil]; omega)
  have hgen := layout_gen (g := 12) (by omega) (preElems objs) (0x1000000 + dof objs) (pre_ok h) (by omega)
  rw [← dds_eq h] at hdata
  simp only [List.length_nil, Nat.add_zero] at hdata
  refine ⟨?_, hdata.1, ?_⟩
  · rw [dataElems_eq, layout_append, hdata.1]
  · have a1 := hdata.1
    have a2 := hgen.2.1
    omega

theorem content_at {ds content : List Nat} {k size i : Nat} (h : (ds.drop k).take size = content) (hi : i < size) :
    content[i]? = ds[k + i]? := by
  rw [← h, List.getElem?_take, if_pos hi, List.getElem?_drop]

/-- **C40**: in the executable every section of one of the known names is placed once, in order, aligned and disjoint from the
others; when the program is loaded its contents are at that address (zeros for `.bss`, as far as the segment extends);
the headers can be mapped: file offsets agree with addresses modulo the page size and no page is shared.

Partial: a `.bss` section is covered only up to the end of the segment, which is too early if there is padding between
`.bss` sections (`bss_beyond_segment`); see `bss_covered` for inputs without padding. -/
theorem layout_correct_partial {hdr : Nat → List Nat} {objs : List (List Sec)} (h : Good hdr objs) :
    (link hdr objs).secs.map Prod.fst =
      [".text", ".rodata", ".data", ".init_array", ".fini_array", ".bss"].flatMap (secsNamed objs) ∧
    (∀ p ∈ (link hdr objs).secs, p.1.align ∣ p.2) ∧
    (link hdr objs).secs.Pairwise (fun p q => p.2 + p.1.size ≤ q.2) ∧
    (∀ p ∈ (link hdr objs).secs, p.1.nobits = false → ∀ i < p.1.size,
      memory (link hdr objs).phdrs (link hdr objs).file (p.2 + i) = p.1.content[i]?) ∧
    (∀ p ∈ (link hdr objs).secs, p.1.nobits = true → ∀ i < p.1.size,
      (∃ q ∈ (link hdr objs).phdrs, q.vaddr ≤ p.2 + i ∧ p.2 + i < q.vaddr + q.memsz) →
      memory (link hdr objs).phdrs (link hdr objs).file (p.2 + i) = some 0) ∧
    (∀ q ∈ (link hdr objs).phdrs, q.filesz ≤ q.memsz ∧
      (q.filesz > 0 → q.offset % 0x1000 = q.vaddr % 0x1000 ∧ q.offset + q.filesz ≤ (link hdr objs).file.length)) ∧
    (link hdr objs).phdrs.Pairwise (fun p q => p.vaddr + p.memsz ≤ q.vaddr ∧ q.vaddr % 0x1000 = 0) := by
  obtain ⟨m1, m2, m3⟩ := memory_link h
  have he := link_eq h
  simp only at he
  have hD : progStart + (tds objs).length ≤ dof objs := le_alignUp _ _ (by omega)
  have hload : loadAddress = 0x1000000 + progStart := rfl
  have hps : progStart = 0x100 := rfl
  have F := facts h
  have htl : (tds objs).length ≤ 2 ^ 60 := F.tlen
  have hdo := dof_le h
  obtain ⟨ds1, ds2, ds3⟩ := data_secs h
  have tgen := layout_gen (g := 8) (by omega) (textElems objs) loadAddress (text_ok h)
    (by have := text_weight h; omega)
  have tdat := layout_data (g := 8) (S := loadAddress) (by omega) ⟨0x10001, by decide⟩ (textElems objs) [] (text_ok h)
    (text_content h) (by have := text_weight h; simp only [List.length_nil]; omega)
  simp only [List.length_nil, Nat.add_zero] at tdat
  have pgen := layout_gen (g := 12) (by omega) (preElems objs) (0x1000000 + dof objs) (pre_ok h)
    (by have := pre_weight h; omega)
  have pdat := layout_data (g := 12) (S := 0x1000000 + dof objs) (by omega) (dof_dvd objs) (preElems objs) [] (pre_ok h)
    (pre_content h) (by have := pre_weight h; simp only [List.length_nil]; omega)
  rw [← dds_eq h] at pdat
  simp only [List.length_nil, Nat.add_zero] at pdat
  have bgen := layout_gen (g := 12) (by omega) (named objs ".bss") (0x1000000 + dof objs + (dds objs).length)
    (named_ok h ".bss") (by have := weight_named h ".bss"; omega)
  have taddr : (layout loadAddress (textElems objs)).addr = loadAddress + (tds objs).length := F.taddr
  have hsecs : (link hdr objs).secs = (layout loadAddress (textElems objs)).secs ++
      ((layout (0x1000000 + dof objs) (preElems objs)).secs ++
      (layout (0x1000000 + dof objs + (dds objs).length) (named objs ".bss")).secs) := by
    rw [he]; simp only; rw [ds1]
  have hphs : ∀ q ∈ (link hdr objs).phdrs, q = ⟨progStart, loadAddress, (tds objs).length, (tds objs).length⟩ ∨
      (q = ⟨if (dds objs).length > 0 then dof objs else progStart + (tds objs).length, 0x1000000 + dof objs,
      (dds objs).length, (dds objs).length + bssSize (dataElems objs)⟩) := by
    rw [he]
    simp only
    intro q hq
    split at hq
    · simpa using hq
    · left; simpa using hq
  refine ⟨?_, ?_, ?_, ?_, ?_, ?_, ?_⟩
  · rw [hsecs, List.map_append, List.map_append, tgen.2.2.2.2, pgen.2.2.2.2, bgen.2.2.2.2]
    simp only [textElems, preElems, secsOf_append, secsOf_named, secsOf, List.flatMap_cons, List.flatMap_nil,
      List.append_nil, List.nil_append, List.append_assoc]
  · intro p hp
    rw [hsecs] at hp
    rcases List.mem_append.1 hp with hp | hp
    · exact (tgen.2.2.1 p hp).2.2
    rcases List.mem_append.1 hp with hp | hp
    · exact (pgen.2.2.1 p hp).2.2
    · exact (bgen.2.2.1 p hp).2.2
  · rw [hsecs]
    refine List.pairwise_append.2 ⟨tgen.2.2.2.1, List.pairwise_append.2 ⟨pgen.2.2.2.1, bgen.2.2.2.1, ?_⟩, ?_⟩
    · intro p hp q hq
      have a1 := (pgen.2.2.1 p hp).2.1
      have a2 := (bgen.2.2.1 q hq).1
      omega
    · intro p hp q hq
      have a1 := (tgen.2.2.1 p hp).2.1
      have a2 : 0x1000000 + dof objs ≤ q.2 := by
        rcases List.mem_append.1 hq with hq | hq
        · exact (pgen.2.2.1 q hq).1
        · have := (bgen.2.2.1 q hq).1
          omega
      omega
  · intro p hp hnb i hi
    rw [hsecs] at hp
    rcases List.mem_append.1 hp with hp | hp
    · obtain ⟨k, hk1, hk2, hk3⟩ := tdat.2.2 p hp
      have hk2' : k + p.1.size ≤ (tds objs).length := hk2
      rw [hk1, Nat.add_assoc, m1 _ (by omega), content_at hk3 hi]
      rfl
    rcases List.mem_append.1 hp with hp | hp
    · obtain ⟨k, hk1, hk2, hk3⟩ := pdat.2.2 p hp
      rw [hk1, Nat.add_assoc, m2 _ (by omega), content_at hk3 hi]
    · exfalso
      have hm : p.1 ∈ secsOf (named objs ".bss") := by
        rw [← bgen.2.2.2.2]; exact List.mem_map.2 ⟨p, hp, rfl⟩
      rw [secsOf_named] at hm
      obtain ⟨o, ho, hso, hn⟩ := mem_secsNamed.1 hm
      rw [(h.nobits o ho p.1 hso).2 hn] at hnb
      cases hnb
  · rintro p hp hnb i hi ⟨q, hq, hq1, hq2⟩
    rw [hsecs] at hp
    have hpb : p ∈ (layout (0x1000000 + dof objs + (dds objs).length) (named objs ".bss")).secs := by
      rcases List.mem_append.1 hp with hp | hp
      · have hm : p.1 ∈ secsOf (textElems objs) := by
          rw [← tgen.2.2.2.2]; exact List.mem_map.2 ⟨p, hp, rfl⟩
        rw [(text_content h _ hm).1] at hnb; cases hnb
      rcases List.mem_append.1 hp with hp | hp
      · have hm : p.1 ∈ secsOf (preElems objs) := by
          rw [← pgen.2.2.2.2]; exact List.mem_map.2 ⟨p, hp, rfl⟩
        rw [(pre_content h _ hm).1] at hnb; cases hnb
      · exact hp
    have a1 := (bgen.2.2.1 p hpb).1
    have hk : ∃ k, p.2 + i = 0x1000000 + dof objs + k := ⟨p.2 + i - (0x1000000 + dof objs), by omega⟩
    obtain ⟨k, hk⟩ := hk
    rw [hk]
    refine m3 k (by omega) ?_
    rcases hphs q hq with rfl | rfl
    · simp only at hq1 hq2; omega
    · simp only at hq1 hq2; omega
  · intro q hq
    have hlen : (link hdr objs).file.length = (if (dds objs).length = 0 then
        (if (tds objs).length = 0 then (hdr (link hdr objs).phdrs.length).length else progStart + (tds objs).length)
        else dof objs + (dds objs).length) := by
      rw [he]
      simp only
      have hh := h.hdr (if (dds objs).length > 0 ∨ bssSize (dataElems objs) > 0 then
        [(⟨progStart, loadAddress, (tds objs).length, (tds objs).length⟩ : Phdr),
        ⟨if (dds objs).length > 0 then dof objs else progStart + (tds objs).length, 0x1000000 + dof objs,
          (dds objs).length, (dds objs).length + bssSize (dataElems objs)⟩] else
        [⟨progStart, loadAddress, (tds objs).length, (tds objs).length⟩]).length
      split
      · split
        · rfl
        · simp only [putPadding, List.length_append, List.length_replicate]; omega
      · split
        · simp only [putPadding, List.length_append, List.length_replicate]; omega
        · simp only [putPadding, List.length_append, List.length_replicate]; omega
    rcases hphs q hq with rfl | rfl
    · refine ⟨Nat.le_refl _, fun hpos => ⟨(by show progStart % 0x1000 = loadAddress % 0x1000; decide), ?_⟩⟩
      simp only at hpos ⊢
      rw [hlen]
      split
      · rw [if_neg (by omega)]; omega
      · omega
    · refine ⟨Nat.le_add_right _ _, fun hpos => ?_⟩
      simp only at hpos ⊢
      rw [if_pos hpos, hlen, if_neg (by omega)]
      exact ⟨by omega, Nat.le_refl _⟩
  · rw [he]
    simp only
    split
    · refine List.pairwise_cons.2 ⟨?_, List.pairwise_singleton _ _⟩
      intro q hq
      rw [List.mem_singleton] at hq
      subst hq
      simp only
      have := dof_dvd objs
      omega
    · exact List.pairwise_singleton _ _

/-! #### `.bss` without padding, and the arrays of initialisers -/

/-- Sections that follow each other without padding. -/
def Tight (l : List Sec) : Prop := ∀ s ∈ l, s.align ∈ [1, 2, 4, 8] ∧ 8 ∣ s.size

theorem tight_align {a x : Nat} (ha : a ∈ [1, 2, 4, 8]) (h8 : 8 ∣ x) (hx : x ≤ 2 ^ 63) : alignMacro x a = x := by
  have : ∃ k, k ≤ 3 ∧ a = 2 ^ k := by
    simp only [List.mem_cons, List.not_mem_nil, or_false] at ha
    rcases ha with rfl | rfl | rfl | rfl
    · exact ⟨0, by omega, rfl⟩
    · exact ⟨1, by omega, rfl⟩
    · exact ⟨2, by omega, rfl⟩
    · exact ⟨3, by omega, rfl⟩
  obtain ⟨k, hk, rfl⟩ := this
  have hle : (2 : Nat) ^ k ∣ 2 ^ 3 := Nat.pow_dvd_pow 2 hk
  have hle2 := Nat.le_of_dvd (by omega) hle
  rw [alignMacro_eq x k (by omega) (by omega), alignUp_of_dvd _ _ (Nat.two_pow_pos _) (Nat.dvd_trans hle h8)]

theorem layout_tight : ∀ (l : List Sec) (x : Nat), Tight l → 8 ∣ x → x + weight (l.map .sec) ≤ 2 ^ 63 →
    (layout x (l.map .sec)).addr = x + (l.map Sec.size).sum ∧ 8 ∣ (layout x (l.map .sec)).addr := by
  intro l
  induction l with
  | nil => intro x _ h8 _; exact ⟨by simp [layout], h8⟩
  | cons s l ih =>
    intro x ht h8 hw
    obtain ⟨ha, hs⟩ := ht s (by simp)
    simp only [List.map_cons, layout, weight, List.sum_cons] at hw ⊢
    rw [tight_align ha h8 (by omega)]
    obtain ⟨i1, i2⟩ := ih (x + s.size) (fun t htm => ht t (List.mem_cons_of_mem _ htm)) (Nat.dvd_add h8 hs) (by omega)
    exact ⟨by rw [i1]; omega, i2⟩

theorem collect_tight : ∀ (l : List Sec) (ds : List Nat), Tight l → (∀ s ∈ l, s.nobits = false ∧ s.content.length = s.size) →
    8 ∣ ds.length → ds.length + weight (l.map .sec) ≤ 2 ^ 63 → collect ds (l.map .sec) = ds ++ l.flatMap Sec.content := by
  intro l
  induction l with
  | nil => intro ds _ _ _ _; simp [collect]
  | cons s l ih =>
    intro ds ht hc h8 hw
    obtain ⟨ha, hs⟩ := ht s (by simp)
    obtain ⟨hn, hcl⟩ := hc s (by simp)
    simp only [List.map_cons, collect, weight, List.flatMap_cons] at hw ⊢
    have hds : dsAlign ds s.align = ds := by
      unfold dsAlign
      rw [tight_align ha h8 (by omega)]
      simp
    rw [if_neg (by simp [hn]), hds, ih (ds ++ s.content) (fun t htm => ht t (List.mem_cons_of_mem _ htm))
      (fun t htm => hc t (List.mem_cons_of_mem _ htm))
      (by rw [List.length_append, hcl]; exact Nat.dvd_add h8 hs) (by rw [List.length_append, hcl]; omega)]
    simp

theorem named_syms (objs : List (List Sec)) (n : String) (x : Nat) : (layout x (named objs n)).syms = [] := by
  unfold named
  generalize objs.flatMap _ = l
  induction l generalizing x with
  | nil => rfl
  | cons s l ih => simp only [List.map_cons, layout]; exact ih _

theorem sum_content (l : List Sec) (h : ∀ s ∈ l, s.nobits = false ∧ s.content.length = s.size) :
    (l.map Sec.size).sum = (l.flatMap Sec.content).length := by
  induction l with
  | nil => rfl
  | cons s l ih =>
    rw [List.map_cons, List.sum_cons, List.flatMap_cons, List.length_append, (h s (by simp)).2,
      ih (fun t ht => h t (List.mem_cons_of_mem _ ht))]

/-- The data segment taken apart. -/
theorem data_split {hdr : Nat → List Nat} {objs : List (List Sec)} (h : Good hdr objs)
    (hi : Tight (secsNamed objs ".init_array")) (hf : Tight (secsNamed objs ".fini_array")) :
    ∃ d0 : List Nat, 8 ∣ d0.length ∧
      dds objs = d0 ++ (secsNamed objs ".init_array").flatMap Sec.content ++
        (secsNamed objs ".fini_array").flatMap Sec.content ∧
      8 ∣ (dds objs).length ∧
      (layout (0x1000000 + dof objs) (dataElems objs)).syms =
        [("__init_array_start", 0x1000000 + dof objs + d0.length),
         ("__init_array_end", 0x1000000 + dof objs + d0.length +
            ((secsNamed objs ".init_array").flatMap Sec.content).length),
         ("__fini_array_start", 0x1000000 + dof objs + d0.length +
            ((secsNamed objs ".init_array").flatMap Sec.content).length),
         ("__fini_array_end", 0x1000000 + dof objs + d0.length +
            ((secsNamed objs ".init_array").flatMap Sec.content).length +
            ((secsNamed objs ".fini_array").flatMap Sec.content).length)] := by
  have hdo := dof_le h
  have hw1 := weight_named h ".data"
  have hw2 := weight_named h ".init_array"
  have hw3 := weight_named h ".fini_array"
  have hci := named_content h (n := ".init_array") (by decide)
  have hcf := named_content h (n := ".fini_array") (by decide)
  have hD8 : 8 ∣ 0x1000000 + dof objs := Nat.dvd_trans ⟨512, by decide⟩ (dof_dvd objs)
  have ldat := layout_data (g := 12) (S := 0x1000000 + dof objs) (by omega) (dof_dvd objs) (named objs ".data") []
    (named_ok h _) (by rw [secsOf_named]; exact named_content h (by decide)) (by simp only [List.length_nil]; omega)
  have lgen := layout_gen (g := 12) (by omega) (named objs ".data") (0x1000000 + dof objs) (named_ok h _) (by omega)
  simp only [List.length_nil, Nat.add_zero] at ldat
  have hlen : (collect [] (named objs ".data")).length ≤ 2 ^ 59 := by
    have a1 := ldat.1
    have a2 := lgen.2.1
    omega
  have hm1 : alignMacro (collect [] (named objs ".data")).length 8 = alignUp (collect [] (named objs ".data")).length 8 :=
    alignMacro_eq _ 3 (by omega) (by omega)
  have hd0 := dsAlign_length (a := 8) (by omega) hm1
  have hlt := alignUp_lt (collect [] (named objs ".data")).length 8 (by omega)
  generalize hd : dsAlign (collect [] (named objs ".data")) 8 = d0 at hd0
  have h80 : 8 ∣ d0.length := by rw [hd0]; exact dvd_alignUp _ _
  have hA : alignMacro (layout (0x1000000 + dof objs) (named objs ".data")).addr 8 = 0x1000000 + dof objs + d0.length := by
    rw [ldat.1, hd0, ← alignUp_base (g := 12) (dof_dvd objs) ⟨3, by omega, rfl⟩]
    exact alignMacro_eq _ 3 (by omega) (by omega)
  obtain ⟨hB1, hB2⟩ := layout_tight (secsNamed objs ".init_array") (0x1000000 + dof objs + d0.length) hi
    (Nat.dvd_add hD8 h80) (by
      have : weight ((secsNamed objs ".init_array").map .sec) = weight (named objs ".init_array") := rfl
      omega)
  have hsi := sum_content _ hci
  have hsf := sum_content _ hcf
  have hlen2 : ((secsNamed objs ".init_array").flatMap Sec.content).length ≤ 2 ^ 59 := by
    have g := layout_gen (g := 12) (by omega) (named objs ".init_array") 0 (named_ok h _) (by omega)
    have g2 := layout_tight (secsNamed objs ".init_array") 0 hi ⟨0, rfl⟩ (by
      have : weight ((secsNamed objs ".init_array").map .sec) = weight (named objs ".init_array") := rfl
      omega)
    have g3 : (layout 0 (named objs ".init_array")).addr = 0 + ((secsNamed objs ".init_array").map Sec.size).sum := g2.1
    have g4 := g.2.1
    omega
  rw [hsi] at hB1
  have h81 : 8 ∣ (d0 ++ (secsNamed objs ".init_array").flatMap Sec.content).length := by
    rw [List.length_append]
    rw [hB1] at hB2
    omega
  obtain ⟨hC1, hC2⟩ := layout_tight (secsNamed objs ".fini_array") (0x1000000 + dof objs + d0.length +
      ((secsNamed objs ".init_array").flatMap Sec.content).length) hf
    (hB1 ▸ hB2) (by
      have : weight ((secsNamed objs ".fini_array").map .sec) = weight (named objs ".fini_array") := rfl
      omega)
  rw [hsf] at hC1
  have hcol : dds objs = d0 ++ (secsNamed objs ".init_array").flatMap Sec.content ++
        (secsNamed objs ".fini_array").flatMap Sec.content := by
    rw [dds_eq h]
    unfold preElems
    simp only [collect_append, collect]
    rw [hd]
    have c1 := collect_tight (secsNamed objs ".init_array") d0 hi hci h80 (by
      have : weight ((secsNamed objs ".init_array").map .sec) = weight (named objs ".init_array") := rfl
      omega)
    have c2 := collect_tight (secsNamed objs ".fini_array") (d0 ++ (secsNamed objs ".init_array").flatMap Sec.content) hf hcf
      h81 (by
      have : weight ((secsNamed objs ".fini_array").map .sec) = weight (named objs ".fini_array") := rfl
      rw [List.length_append]
      omega)
    show collect (collect d0 ((secsNamed objs ".init_array").map .sec)) ((secsNamed objs ".fini_array").map .sec) = _
    rw [c1, c2]
  refine ⟨d0, h80, hcol, ?_, ?_⟩
  · rw [hcol, List.length_append, List.length_append]
    rw [hC1] at hC2
    omega
  · unfold dataElems
    simp only [layout_append, layout, named_syms, List.nil_append, List.append_nil]
    rw [hA]
    have hB1' : (layout (0x1000000 + dof objs + d0.length) (named objs ".init_array")).addr = _ := hB1
    have hC1' : (layout (0x1000000 + dof objs + d0.length +
      ((secsNamed objs ".init_array").flatMap Sec.content).length) (named objs ".fini_array")).addr = _ := hC1
    rw [hB1', hC1']
    rfl

/-- **C40 (initialisers)**: the symbols `__init_array_start` and `__init_array_end`, which the startup code walks
between, enclose exactly the contents of all `.init_array` sections in link order; likewise `.fini_array`. -/
theorem init_array_symbols {hdr : Nat → List Nat} {objs : List (List Sec)} (h : Good hdr objs)
    (hi : Tight (secsNamed objs ".init_array")) (hf : Tight (secsNamed objs ".fini_array")) :
    ∀ n ∈ [("__init_array_start", "__init_array_end", ".init_array"),
           ("__fini_array_start", "__fini_array_end", ".fini_array")],
    ∃ a b, (n.1, a) ∈ (link hdr objs).syms ∧ (n.2.1, b) ∈ (link hdr objs).syms ∧ 8 ∣ a ∧
      b = a + ((secsNamed objs n.2.2).flatMap Sec.content).length ∧
      ∀ i < ((secsNamed objs n.2.2).flatMap Sec.content).length,
        memory (link hdr objs).phdrs (link hdr objs).file (a + i) = ((secsNamed objs n.2.2).flatMap Sec.content)[i]? := by
  obtain ⟨d0, h80, hcol, h8, hsy⟩ := data_split h hi hf
  obtain ⟨_, m2, _⟩ := memory_link h
  have hD8 : 8 ∣ 0x1000000 + dof objs := Nat.dvd_trans ⟨512, by decide⟩ (dof_dvd objs)
  have hsyms : (link hdr objs).syms = (layout loadAddress (textElems objs)).syms ++
      (layout (0x1000000 + dof objs) (dataElems objs)).syms := by
    have he := link_eq h
    simp only at he
    rw [he]
  have hl : (dds objs).length = d0.length + ((secsNamed objs ".init_array").flatMap Sec.content).length +
      ((secsNamed objs ".fini_array").flatMap Sec.content).length := by
    rw [hcol, List.length_append, List.length_append]
  have h82 : 8 ∣ ((secsNamed objs ".init_array").flatMap Sec.content).length := by
    rw [← sum_content _ (named_content h (n := ".init_array") (by decide))]
    have : ∀ l : List Sec, Tight l → 8 ∣ (l.map Sec.size).sum := by
      intro l
      induction l with
      | nil => intro _; exact ⟨0, rfl⟩
      | cons s l ih =>
        intro ht
        rw [List.map_cons, List.sum_cons]
        exact Nat.dvd_add (ht s (by simp)).2 (ih (fun t htm => ht t (List.mem_cons_of_mem _ htm)))
    exact this _ hi
  rw [hsyms, hsy]
  intro n hn
  simp only [List.mem_cons, List.not_mem_nil, or_false] at hn
  rcases hn with rfl | rfl
  · refine ⟨_, _, List.mem_append_right _ (List.mem_cons_self), List.mem_append_right _
      (List.mem_cons_of_mem _ List.mem_cons_self), Nat.dvd_add hD8 h80, rfl, fun i hi => ?_⟩
    simp only at hi ⊢
    rw [Nat.add_assoc, m2 _ (by omega), hcol, List.append_assoc, List.getElem?_append_right (by omega),
      List.getElem?_append_left (by omega)]
    congr 1
    omega
  · refine ⟨_, _, List.mem_append_right _ (List.mem_cons_of_mem _ (List.mem_cons_of_mem _ List.mem_cons_self)),
      List.mem_append_right _ (List.mem_cons_of_mem _ (List.mem_cons_of_mem _ (List.mem_cons_of_mem _ List.mem_cons_self))),
      Nat.dvd_add (Nat.dvd_add hD8 h80) h82, rfl, fun i hi => ?_⟩
    simp only at hi ⊢
    rw [Nat.add_assoc, Nat.add_assoc, m2 _ (by omega), hcol, List.getElem?_append_right (by rw [List.length_append]; omega)]
    congr 1
    rw [List.length_append]
    omega

/-- **C40 (bss)**: without padding between the `.bss` sections they are covered by the data segment completely and read
as zero. -/
theorem bss_covered {hdr : Nat → List Nat} {objs : List (List Sec)} (h : Good hdr objs)
    (hi : Tight (secsNamed objs ".init_array")) (hf : Tight (secsNamed objs ".fini_array"))
    (hb : Tight (secsNamed objs ".bss")) :
    ∀ p ∈ (link hdr objs).secs, p.1.nobits = true → ∀ i < p.1.size,
      memory (link hdr objs).phdrs (link hdr objs).file (p.2 + i) = some 0 := by
  intro p hp hnb i hi'
  refine (layout_correct_partial h).2.2.2.2.1 p hp hnb i hi' ?_
  obtain ⟨d0, h80, hcol, h8, _⟩ := data_split h hi hf
  have hdo := dof_le h
  obtain ⟨ds1, ds2, ds3⟩ := data_secs h
  have hw := weight_named h ".bss"
  have hD8 : 8 ∣ 0x1000000 + dof objs := Nat.dvd_trans ⟨512, by decide⟩ (dof_dvd objs)
  have bgen := layout_gen (g := 12) (by omega) (named objs ".bss") (0x1000000 + dof objs + (dds objs).length)
    (named_ok h ".bss") (by omega)
  obtain ⟨t1, _⟩ := layout_tight (secsNamed objs ".bss") (0x1000000 + dof objs + (dds objs).length) hb
    (Nat.dvd_add hD8 h8) (by
      have : weight ((secsNamed objs ".bss").map .sec) = weight (named objs ".bss") := rfl
      omega)
  have t1' : (layout (0x1000000 + dof objs + (dds objs).length) (named objs ".bss")).addr = _ := t1
  have hsize : bssSize (dataElems objs) = ((secsNamed objs ".bss").map Sec.size).sum := by
    rw [dataElems_eq, bssSize_append]
    have hz : ∀ es : List Elem, (∀ s ∈ secsOf es, s.nobits = false) → bssSize es = 0 := by
      intro es
      induction es with
      | nil => intro _; rfl
      | cons e es ih =>
        intro hs
        cases e with
        | sec s =>
          simp only [bssSize, secsOf] at hs ⊢
          rw [hs s (by simp), ih (fun t ht => hs t (List.mem_cons_of_mem _ ht))]
          rfl
        | sym n => exact ih hs
        | align a => exact ih hs
    rw [hz _ (fun s hs => (pre_content h s hs).1), Nat.zero_add]
    have hs : ∀ l : List Sec, (∀ s ∈ l, s.nobits = true) → bssSize (l.map .sec) = (l.map Sec.size).sum := by
      intro l
      induction l with
      | nil => intro _; rfl
      | cons s l ih =>
        intro hs
        simp only [List.map_cons, bssSize, List.sum_cons]
        rw [hs s (by simp), ih (fun t ht => hs t (List.mem_cons_of_mem _ ht))]
        rfl
    refine hs _ (fun s hs => ?_)
    obtain ⟨o, ho, hso, hnm⟩ := mem_secsNamed.1 hs
    exact (h.nobits o ho s hso).2 hnm
  have he := link_eq h
  simp only at he
  have hsecs : (link hdr objs).secs = (layout loadAddress (textElems objs)).secs ++
      ((layout (0x1000000 + dof objs) (preElems objs)).secs ++
      (layout (0x1000000 + dof objs + (dds objs).length) (named objs ".bss")).secs) := by
    rw [he]; simp only; rw [ds1]
  rw [hsecs] at hp
  have hpb : p ∈ (layout (0x1000000 + dof objs + (dds objs).length) (named objs ".bss")).secs := by
    rcases List.mem_append.1 hp with hp | hp
    · have tgen := layout_gen (g := 8) (by omega) (textElems objs) loadAddress (text_ok h)
        (by have := text_weight h; have : loadAddress = 0x1000100 := rfl; omega)
      have hm : p.1 ∈ secsOf (textElems objs) := by
        rw [← tgen.2.2.2.2]; exact List.mem_map.2 ⟨p, hp, rfl⟩
      rw [(text_content h _ hm).1] at hnb; cases hnb
    rcases List.mem_append.1 hp with hp | hp
    · have pgen := layout_gen (g := 12) (by omega) (preElems objs) (0x1000000 + dof objs) (pre_ok h)
        (by have := pre_weight h; omega)
      have hm : p.1 ∈ secsOf (preElems objs) := by
        rw [← pgen.2.2.2.2]; exact List.mem_map.2 ⟨p, hp, rfl⟩
      rw [(pre_content h _ hm).1] at hnb; cases hnb
    · exact hp
  have a1 := bgen.2.2.1 p hpb
  refine ⟨⟨if (dds objs).length > 0 then dof objs else progStart + (tds objs).length, 0x1000000 + dof objs,
      (dds objs).length, (dds objs).length + bssSize (dataElems objs)⟩, ?_, ?_, ?_⟩
  · rw [he]
    simp only
    rw [if_pos (by omega)]
    simp
  · simp only; omega
  · simp only; omega

/-! #### Concrete cases and findings -/

def exHdr (k : Nat) : List Nat := List.replicate (64 + 56 * k) 1

/-- Two objects with code, data, an initialiser and `.bss`. -/
def exObjs : List (List Sec) :=
  [[⟨".text", 16, 3, false, [1, 2, 3]⟩, ⟨".data", 4, 5, false, [4, 5, 6, 7, 8]⟩, ⟨".bss", 8, 16, true, []⟩],
   [⟨".text", 16, 2, false, [9, 10]⟩, ⟨".init_array", 8, 8, false, [1, 0, 0, 0, 0, 0, 0, 1]⟩, ⟨".bss", 8, 8, true, []⟩]]

example : (link exHdr exObjs).secs.map Prod.snd =
    [0x1000100, 0x1000110, 0x1001000, 0x1001008, 0x1001010, 0x1001020] := by decide +kernel
example : (link exHdr exObjs).phdrs = [⟨0x100, 0x1000100, 18, 18⟩, ⟨0x1000, 0x1001000, 16, 40⟩] := by decide +kernel
example : Tight (secsNamed exObjs ".init_array") ∧ Tight (secsNamed exObjs ".fini_array") ∧
    Tight (secsNamed exObjs ".bss") := by unfold Tight; decide +kernel

example : Good (fun k => if k > 2 then [] else exHdr k) exObjs := by
  refine ⟨?_, ?_, ?_, ?_, ?_, by decide, fun k => ?_⟩
  · have : ∀ o ∈ exObjs, ∀ s ∈ o, s.align = 2 ^ 2 ∨ s.align = 2 ^ 3 ∨ s.align = 2 ^ 4 := by decide
    intro o ho s hs
    rcases this o ho s hs with h | h | h <;> exact ⟨_, h⟩
  · decide
  · decide
  · decide
  · decide
  · split
    · decide
    · simp only [exHdr, List.length_replicate]
      omega

/-- **Finding**: padding between `.bss` sections is not counted in the size of the segment: here the last 16 bytes of the
second `.bss` section lie beyond the last page of the segment. -/
theorem bss_beyond_segment :
    ∃ p ∈ (link (fun _ => []) [[⟨".bss", 8, 8, true, []⟩], [⟨".bss", 32, 0x1000 - 8, true, []⟩]]).secs,
      p.1.nobits = true ∧ ∃ i < p.1.size,
      memory (link (fun _ => []) [[⟨".bss", 8, 8, true, []⟩], [⟨".bss", 32, 0x1000 - 8, true, []⟩]]).phdrs
        (link (fun _ => []) [[⟨".bss", 8, 8, true, []⟩], [⟨".bss", 32, 0x1000 - 8, true, []⟩]]).file (p.2 + i) = none ∧
      (∀ q ∈ (link (fun _ => []) [[⟨".bss", 8, 8, true, []⟩], [⟨".bss", 32, 0x1000 - 8, true, []⟩]]).phdrs,
        alignUp (q.vaddr + q.memsz) 0x1000 ≤ p.2 + i) := by
  refine ⟨(⟨".bss", 32, 0x1000 - 8, true, []⟩, 0x1001020), by decide +kernel, rfl, 0x1000 - 9, by decide, by decide +kernel,
    by decide +kernel⟩

/-- **Finding**: a code section aligned to more than 256 bytes gives a file offset that disagrees with the address: the
executable cannot be mapped. -/
theorem text_align_512 :
    (link exHdr [[⟨".text", 512, 1, false, [7]⟩]]).phdrs = [⟨0x100, 0x1000200, 1, 1⟩] ∧
    memory (link exHdr [[⟨".text", 512, 1, false, [7]⟩]]).phdrs (link exHdr [[⟨".text", 512, 1, false, [7]⟩]]).file 0x1000200
      = some 0 := by decide +kernel

/-- **Finding**: a data section aligned to more than a page likewise. -/
theorem data_align_8192 :
    (link exHdr [[⟨".text", 1, 1, false, [7]⟩, ⟨".data", 0x4000, 1, false, [9]⟩]]).phdrs.map Phdr.offset = [0x100, 0x1000] ∧
    (link exHdr [[⟨".text", 1, 1, false, [7]⟩, ⟨".data", 0x4000, 1, false, [9]⟩]]).file[0x4000]? = some 9 ∧
    (link exHdr [[⟨".text", 1, 1, false, [7]⟩, ⟨".data", 0x4000, 1, false, [9]⟩]]).phdrs.map Phdr.vaddr =
      [0x1000100, 0x1004000] := by decide +kernel

/-- **Finding**: a section whose name is not one of the six is left out of the executable without a message. -/
theorem unknown_section_dropped (hdr : Nat → List Nat) (objs : List (List Sec)) (h : Good hdr objs) (s : Sec)
    (hs : ¬ Known s.name) : ∀ a, (s, a) ∉ (link hdr objs).secs := by
  intro a ha
  have h1 := (layout_correct_partial h).1
  have h2 : s ∈ (link hdr objs).secs.map Prod.fst := List.mem_map.2 ⟨_, ha, rfl⟩
  rw [h1, List.mem_flatMap] at h2
  obtain ⟨n, hn, hsn⟩ := h2
  obtain ⟨_, _, _, rfl⟩ := mem_secsNamed.1 hsn
  exact hs hn

end Verif.LdLayout

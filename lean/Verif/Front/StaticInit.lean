/-
Initial images of static objects (C54).

Models /repo/src/cc/frontend/cc_misc.c:121-268 (`construct_initial_value`) with the callbacks of
/repo/src/cc/backend/emit_code.c:149-233, the sizes and alignments of
/repo/src/cc/frontend/type.c:140-242, and what the assembler makes of `.p2align`, `.byte` ... and
`.ascii`.

Simplifications: no bit-fields (their units are `Verif.Bitfield.static_init_correct`) and no flexible
array members; the bytes of a constant (a number, or an address, which the linker fills in) and of a
string literal are given by arbitrary functions; a failed assertion and a reported error are `none`.
-/
import Verif.Util.Align
import Verif.Front.Init
import Verif.Front.Struct
import Mathlib.Data.List.GetD

namespace Verif.StaticInit
open Verif.Align Verif.Init
open Verif.Struct (Al)

/-! ### Model -/

/-- A type: scalars by their size. -/
inductive T where
  | num (s : Nat)
  | arr (n : Nat) (t : T)
  | str (ms : List T)
  | uni (ms : List T)

mutual
/-- `align_size`, type.c:218-242; for structures and unions the maximum, type.c:177-183. -/
def T.align : T → Nat
  | .num s => s
  | .arr _ t => t.align
  | .str ms => aligns ms
  | .uni ms => aligns ms
def aligns : List T → Nat
  | [] => 1
  | m :: ms => max m.align (aligns ms)
end

mutual
/-- `type_size`, type.c:187-216, with `calc_struct_size`, type.c:140-185. -/
def T.size : T → Nat
  | .num s => s
  | .arr n t => t.size * n
  | .str ms => alignUp (strEnd 0 ms) (aligns ms)
  | .uni ms => alignUp (maxSize ms) (aligns ms)
/-- The offset behind the last member, from `off` on, type.c:160-163. -/
def strEnd : Nat → List T → Nat
  | off, [] => off
  | off, m :: ms => strEnd (alignUp off m.align + m.size) ms
/-- The size of the largest member, type.c:174-175. -/
def maxSize : List T → Nat
  | [] => 0
  | m :: ms => max m.size (maxSize ms)
end

/-- What is written to the assembler file. -/
inductive Ev where
  | align (a : Nat)
  | data (bs : List UInt8)

/-- The bytes of constants: `num e s` as a number of `s` bytes; `lit e` of a string literal with its
terminating NUL. -/
structure Bytes (E : Type) where
  num : E → Nat → List UInt8
  lit : E → Option (List UInt8)

variable {E : Type}

/-- `emit_string`, emit_code.c:207-233: cut off or filled up with NULs. -/
def strData (bs : List UInt8) (size : Nat) : List UInt8 :=
  bs.take size ++ List.replicate (size - bs.length) 0

/-- `emit_align`, cc_misc.c:230-235: only where the offset is not aligned. -/
def alignEv (off a : Nat) : List Ev := if off % a ≠ 0 then [.align a] else []

/-- The padding at the end, cc_misc.c:251-263. -/
def padEv (size off : Nat) : List Ev :=
  if size ≠ off then [.data (List.replicate (size - off) 0)] else []

/-- Some results one after the other. -/
def cat : List (Option (List Ev)) → Option (List Ev)
  | [] => some []
  | r :: rs => r.bind fun es => (cat rs).map fun fs => es ++ fs

/-- The member initializers of a structure or union, cc_misc.c:206: `none` where it asserts. -/
def parts (n : Nat) : Tr E → Option (List (Tr E))
  | .null => some (List.replicate n .null)
  | .node cs => if cs.length = n then some cs else none
  | .leaf _ => none

def Tr.isNull : Tr E → Bool
  | .null => true
  | _ => false

mutual
/-- `construct_initial_value`, cc_misc.c:121-268. -/
def emit (b : Bytes E) : T → Tr E → Option (List Ev)
  | .num s, .null => some [.data (List.replicate s 0)]
  | .num s, .leaf e => some [.data (b.num e s)]
  | .num _, .node _ => none
  | .arr n t, .null => cat (List.replicate n (emit b t .null))
  | .arr n t, .node cs => cat (cs.map (emit b t) ++ List.replicate (n - cs.length) (emit b t .null))
  | .arr n t, .leaf e => (b.lit e).map fun bs => [.data (strData bs (t.size * n))]
  | .str ms, tr =>
    (parts ms.length tr).bind fun cs =>
      (emitStr b 0 ms cs).map fun es => es ++ padEv (T.size (.str ms)) (strEnd 0 ms)
  | .uni ms, tr =>
    (parts ms.length tr).bind fun cs =>
      if cs.all Tr.isNull then
        (emitFirst b ms).map fun es => es ++ padEv (T.size (.uni ms)) ((ms.head?.map T.size).getD 0)
      else
        (emitUni b 0 ms cs).map fun r => r.1 ++ padEv (T.size (.uni ms)) r.2
/-- The loop over the members of a structure, cc_misc.c:209-243. -/
def emitStr (b : Bytes E) : Nat → List T → List (Tr E) → Option (List Ev)
  | off, m :: ms, c :: cs =>
    (emit b m c).bind fun es =>
      (emitStr b (alignUp off m.align + m.size) ms cs).map fun fs => alignEv off m.align ++ es ++ fs
  | _, _, _ => some []
/-- The loop over the members of a union with its final offset: every member with an initializer,
cc_misc.c:228-242. -/
def emitUni (b : Bytes E) : Nat → List T → List (Tr E) → Option (List Ev × Nat)
  | off, m :: ms, c :: cs =>
    if Tr.isNull c then emitUni b off ms cs
    else
      (emit b m c).bind fun es =>
        (emitUni b (alignUp off m.align + m.size) ms cs).map fun r => (alignEv off m.align ++ es ++ r.1, r.2)
  | off, _, _ => some ([], off)
/-- A union without initializer: the first member, cc_misc.c:244-248. -/
def emitFirst (b : Bytes E) : List T → Option (List Ev)
  | m :: _ => emit b m .null
  | [] => none
end

/-- What the assembler puts in the section, the location counter being `pc`. -/
def place : Nat → List Ev → List UInt8
  | _, [] => []
  | pc, .align a :: es => List.replicate (alignUp pc a - pc) 0 ++ place (pc + (alignUp pc a - pc)) es
  | pc, .data bs :: es => bs ++ place (pc + bs.length) es

/-! ### Specification -/

/-- `o` is the offset of member `i` (type `c`) of a type: consecutive elements of an array; in a
structure behind the members before it, aligned; 0 in a union. -/
def T.member : T → Nat → Option (Nat × T)
  | .num _, _ => none
  | .arr n t, i => if i < n then some (t.size * i, t) else none
  | .str ms, i => (ms[i]?).map fun m => (alignUp (strEnd 0 (ms.take i)) m.align, m)
  | .uni ms, i => (ms[i]?).map fun m => (0, m)

/-- Offset and type of the sub-object at a path. -/
def T.sub : T → Path → Option (Nat × T)
  | t, [] => some (0, t)
  | t, i :: p => (t.member i).bind fun x => (x.2.sub p).map fun y => (x.1 + y.1, y.2)

/-- The bytes of an expression for an object of type `t`. -/
def objBytes (b : Bytes E) (e : E) (t : T) : List UInt8 :=
  match t with
  | .num s => b.num e s
  | _ => strData ((b.lit e).getD []) t.size

/-- The bytes of an object of type `t` with value `v`: each expression at the place of its object, the
rest is zero. -/
structure Image (b : Bytes E) (t : T) (v : Val E) (bs : List UInt8) : Prop where
  size : bs.length = t.size
  value : ∀ p e o c, v p = some e → t.sub p = some (o, c) → ∀ j < c.size,
    bs.getD (o + j) 0 = (objBytes b e c).getD j 0
  zero : ∀ x, (∀ p e o c, v p = some e → t.sub p = some (o, c) → ¬ (o ≤ x ∧ x < o + c.size)) →
    bs.getD x 0 = 0

/-- Scalars have sizes 1, 2, 4, 8, and unions have members. -/
inductive T.Ok : T → Prop
  | num {s : Nat} : s = 1 ∨ s = 2 ∨ s = 4 ∨ s = 8 → T.Ok (.num s)
  | arr {n : Nat} {t : T} : T.Ok t → T.Ok (.arr n t)
  | str {ms : List T} : (∀ m ∈ ms, T.Ok m) → T.Ok (.str ms)
  | uni {ms : List T} : ms ≠ [] → (∀ m ∈ ms, T.Ok m) → T.Ok (.uni ms)

/-- The number has as many bytes as asked for. -/
def Bytes.Ok (b : Bytes E) : Prop := ∀ e s, (b.num e s).length = s

/-- The initializer has the shape of the type (see `shape_flat`), constants for whole arrays are string
literals, and at most one member of each union has an initializer. -/
inductive Shape (b : Bytes E) : T → Tr E → Prop
  | null {t : T} : Shape b t .null
  | leaf {s : Nat} {e : E} : Shape b (.num s) (.leaf e)
  | string {n : Nat} {t : T} {e : E} : b.lit e ≠ none → Shape b (.arr n t) (.leaf e)
  | arr {n : Nat} {t : T} {cs : List (Tr E)} : cs.length ≤ n → (∀ c ∈ cs, Shape b t c) →
      Shape b (.arr n t) (.node cs)
  | str {ms : List T} {cs : List (Tr E)} : cs.length = ms.length →
      (∀ (i : Nat) m c, ms[i]? = some m → cs[i]? = some c → Shape b m c) → Shape b (.str ms) (.node cs)
  | uni {ms : List T} {cs : List (Tr E)} : cs.length = ms.length →
      (∀ (i : Nat) m c, ms[i]? = some m → cs[i]? = some c → Shape b m c) →
      (∀ (i j : Nat) c d, cs[i]? = some c → cs[j]? = some d → Tr.isNull c = false → Tr.isNull d = false → i = j) →
      Shape b (.uni ms) (.node cs)

/-! ### Sizes and alignments -/

theorem al_aligns : ∀ {ms : List T}, (∀ m ∈ ms, Al m.align) → Al (aligns ms) := by
  intro ms
  induction ms with
  | nil => intro _; exact .inl rfl
  | cons m ms ih =>
    intro h
    rw [aligns]
    exact (h m (by simp)).max (ih fun m hm => h m (by simp [hm]))

theorem ok_al : ∀ (N : Nat) (t : T), sizeOf t ≤ N → t.Ok → Al t.align := by
  intro N
  induction N with
  | zero => intro t h; cases t <;> simp at h
  | succ N ih =>
    intro t hN h
    cases h with
    | num hs => rw [T.align]; exact hs
    | arr ht =>
      rw [T.align]
      exact ih _ (by simp at hN; omega) ht
    | str hm =>
      rw [T.align]
      refine al_aligns fun m hmem => ih m ?_ (hm m hmem)
      have := List.sizeOf_lt_of_mem hmem
      simp at hN; omega
    | uni _ hm =>
      rw [T.align]
      refine al_aligns fun m hmem => ih m ?_ (hm m hmem)
      have := List.sizeOf_lt_of_mem hmem
      simp at hN; omega

theorem T.Ok.al {t : T} (h : t.Ok) : Al t.align := ok_al _ t (le_refl _) h

theorem le_aligns : ∀ {ms : List T} {m : T}, m ∈ ms → m.align ≤ aligns ms := by
  intro ms
  induction ms with
  | nil => intro m h; simp at h
  | cons x ms ih =>
    intro m h
    rw [aligns]
    rcases List.mem_cons.1 h with rfl | h
    · exact le_max_left _ _
    · exact le_trans (ih h) (le_max_right _ _)

theorem dvd_aligns {ms : List T} (hok : ∀ m ∈ ms, T.Ok m) {m : T} (h : m ∈ ms) : m.align ∣ aligns ms :=
  (hok m h).al.dvd (al_aligns fun m hm => (hok m hm).al) (le_aligns h)

theorem align_dvd_size : ∀ {t : T}, t.Ok → t.align ∣ t.size := by
  intro t
  induction t using T.rec (motive_2 := fun _ => True) with
  | num s => intro _; simp [T.align, T.size]
  | arr n t ih =>
    intro h
    cases h with
    | arr ht =>
      rw [T.align, T.size]
      exact Nat.dvd_trans (ih ht) (Nat.dvd_mul_right _ _)
  | str ms => intro h; rw [T.align, T.size]; exact dvd_alignUp _ _
  | uni ms => intro h; rw [T.align, T.size]; exact dvd_alignUp _ _
  | nil => trivial
  | cons => trivial

theorem le_strEnd : ∀ (ms : List T) (off : Nat), (∀ m ∈ ms, T.Ok m) → off ≤ strEnd off ms := by
  intro ms
  induction ms with
  | nil => intro off _; rw [strEnd]
  | cons m ms ih =>
    intro off h
    rw [strEnd]
    have := ih (alignUp off m.align + m.size) (fun m hm => h m (by simp [hm]))
    have := le_alignUp off m.align (h m (by simp)).al.pos
    omega

theorem le_maxSize : ∀ {ms : List T} {m : T}, m ∈ ms → m.size ≤ maxSize ms := by
  intro ms
  induction ms with
  | nil => intro m h; simp at h
  | cons x ms ih =>
    intro m h
    rw [maxSize]
    rcases List.mem_cons.1 h with rfl | h
    · exact le_max_left _ _
    · exact le_trans (ih h) (le_max_right _ _)

theorem strEnd_append : ∀ (a c : List T) (off : Nat), strEnd off (a ++ c) = strEnd (strEnd off a) c := by
  intro a
  induction a with
  | nil => intro c off; simp [strEnd]
  | cons m a ih => intro c off; simp only [List.cons_append, strEnd]; exact ih c _

theorem member_bound {t c : T} {i o : Nat} (hok : t.Ok) (h : t.member i = some (o, c)) :
    o + c.size ≤ t.size ∧ c.Ok := by
  cases hok with
  | num => simp [T.member] at h
  | @arr n t ht =>
    simp only [T.member] at h
    split at h
    · rename_i hi
      simp only [Option.some.injEq, Prod.mk.injEq] at h
      obtain ⟨rfl, rfl⟩ := h
      refine ⟨?_, ht⟩
      rw [T.size, ← Nat.mul_succ]
      exact Nat.mul_le_mul_left _ hi
    · simp at h
  | @str ms hm =>
    simp only [T.member] at h
    obtain ⟨m, hi, h⟩ := Option.map_eq_some_iff.1 h
    simp only [Prod.mk.injEq] at h
    obtain ⟨rfl, rfl⟩ := h
    have hmem := List.mem_of_getElem? hi
    refine ⟨?_, hm m hmem⟩
    have hsplit : ms = ms.take i ++ m :: ms.drop (i + 1) := by
      obtain ⟨hlt, hg⟩ := List.getElem?_eq_some_iff.1 hi
      rw [← hg, List.cons_getElem_drop_succ, List.take_append_drop]
    have h1 : alignUp (strEnd 0 (ms.take i)) m.align + m.size ≤ strEnd 0 ms := by
      conv_rhs => rw [hsplit, strEnd_append, strEnd]
      exact le_strEnd _ _ (fun x hx => hm x (List.mem_of_mem_drop hx))
    rw [T.size]
    have := le_alignUp (strEnd 0 ms) (aligns ms) (al_aligns fun m hm' => (hm m hm').al).pos
    omega
  | @uni ms _ hm =>
    simp only [T.member] at h
    obtain ⟨m, hi, h⟩ := Option.map_eq_some_iff.1 h
    simp only [Prod.mk.injEq] at h
    obtain ⟨rfl, rfl⟩ := h
    have hmem := List.mem_of_getElem? hi
    refine ⟨?_, hm m hmem⟩
    rw [T.size]
    have := le_alignUp (maxSize ms) (aligns ms) (al_aligns fun m hm' => (hm m hm').al).pos
    have := le_maxSize hmem
    omega

theorem sub_bound : ∀ {p : Path} {t c : T} {o : Nat}, t.Ok → t.sub p = some (o, c) → o + c.size ≤ t.size := by
  intro p
  induction p with
  | nil =>
    intro t c o _ h
    simp only [T.sub, Option.some.injEq, Prod.mk.injEq] at h
    obtain ⟨rfl, rfl⟩ := h
    omega
  | cons i p ih =>
    intro t c o hok h
    simp only [T.sub] at h
    obtain ⟨⟨o1, c1⟩, hmem, h⟩ := Option.bind_eq_some_iff.1 h
    obtain ⟨⟨o2, c2⟩, hsub, h⟩ := Option.map_eq_some_iff.1 h
    simp only [Prod.mk.injEq] at h hsub
    obtain ⟨rfl, rfl⟩ := h
    obtain ⟨h1, h2⟩ := member_bound hok hmem
    have := ih h2 hsub
    omega

/-! ### The assembler -/

theorem place_append (es fs : List Ev) : ∀ pc, place pc (es ++ fs) = place pc es ++ place (pc + (place pc es).length) fs := by
  induction es with
  | nil => intro pc; simp [place]
  | cons e es ih =>
    intro pc
    cases e with
    | data bs =>
      simp only [List.cons_append, place, ih, List.append_assoc, List.length_append]
      rw [Nat.add_assoc]
    | align a =>
      simp only [List.cons_append, place, ih, List.append_assoc, List.length_append, List.length_replicate]
      rw [Nat.add_assoc]

theorem align_shift {base off a : Nat} (ha : 0 < a) (h : a ∣ base) :
    alignUp (base + off) a - (base + off) = alignUp off a - off := by
  obtain ⟨k, rfl⟩ := h
  have : alignUp (a * k + off) a = a * k + alignUp off a := by
    unfold alignUp
    rw [show a * k + off + a - 1 = off + a - 1 + a * k by omega, Nat.add_mul_div_left _ _ ha, Nat.add_mul,
      Nat.mul_comm k a]
    omega
  omega

theorem place_alignEv {base off a : Nat} (ha : 0 < a) (h : a ∣ base) (es : List Ev) :
    place (base + off) (alignEv off a ++ es) =
      List.replicate (alignUp off a - off) 0 ++ place (base + alignUp off a) es := by
  have hle := le_alignUp off a ha
  unfold alignEv
  split
  · simp only [List.cons_append, List.nil_append, place]
    rw [align_shift ha h, show base + off + (alignUp off a - off) = base + alignUp off a by omega]
  · rename_i hz
    have : alignUp off a = off := alignUp_of_dvd _ _ ha (Nat.dvd_of_mod_eq_zero (by simpa using hz))
    rw [this]
    simp

theorem getD_replicate (n x : Nat) : (List.replicate n (0 : UInt8)).getD x 0 = 0 := by
  rw [List.getD_eq_getElem?_getD, List.getElem?_replicate]
  split <;> rfl

/-! ### Composite objects -/

/-- The bytes of member `i` are those of an image of its value. -/
def Agrees (b : Bytes E) (v : Val E) (bs : List UInt8) (i o : Nat) (c : T) : Prop :=
  ∃ bi, Image b c (fun p => v (i :: p)) bi ∧ ∀ j < c.size, bs.getD (o + j) 0 = bi.getD j 0

theorem compose {b : Bytes E} {t : T} {v : Val E} {bs : List UInt8} (hok : t.Ok) (hsize : bs.length = t.size)
    (h0 : v [] = none)
    (hm : ∀ i o c, t.member i = some (o, c) → (∀ p, v (i :: p) = none) ∨ Agrees b v bs i o c)
    (hz : ∀ x, bs.getD x 0 = 0 ∨ ∃ i o c, t.member i = some (o, c) ∧ o ≤ x ∧ x < o + c.size ∧ Agrees b v bs i o c) :
    Image b t v bs := by
  refine ⟨hsize, ?_, ?_⟩
  · intro p e o c hv hs j hj
    cases p with
    | nil => rw [h0] at hv; simp at hv
    | cons i p =>
      simp only [T.sub] at hs
      obtain ⟨⟨o1, c1⟩, hmem, hs⟩ := Option.bind_eq_some_iff.1 hs
      obtain ⟨⟨o2, c2⟩, hsub, hs⟩ := Option.map_eq_some_iff.1 hs
      simp only [Prod.mk.injEq] at hs hsub
      obtain ⟨rfl, rfl⟩ := hs
      rcases hm i o1 c1 hmem with h | ⟨bi, himg, hag⟩
      · rw [h p] at hv; simp at hv
      · have := himg.value p e o2 c2 hv hsub j hj
        have hb := sub_bound (member_bound hok hmem).2 hsub
        rw [← this, Nat.add_assoc]
        exact hag (o2 + j) (by omega)
  · intro x hx
    rcases hz x with h | ⟨i, o, c, hmem, h1, h2, bi, himg, hag⟩
    · exact h
    · have h3 := hag (x - o) (by omega)
      rw [show o + (x - o) = x by omega] at h3
      rw [h3]
      refine himg.zero _ ?_
      intro p e o2 c2 hv hsub hb
      exact hx (i :: p) e (o + o2) c2 hv (by simp [T.sub, hmem, hsub]) (by omega)

/-- Arrays. -/
theorem cat_elems {b : Bytes E} {t : T} (hok : t.Ok)
    (ih : ∀ tr, Shape b t tr → ∃ es, emit b t tr = some es ∧ ∀ pc, t.align ∣ pc → Image b t tr.read (place pc es)) :
    ∀ (ds : List (Tr E)), (∀ d ∈ ds, Shape b t d) → ∃ es, cat (ds.map (emit b t)) = some es ∧
      ∀ pc, t.align ∣ pc → (place pc es).length = t.size * ds.length ∧
        ∀ (i : Nat) d, ds[i]? = some d → ∃ bi, Image b t d.read bi ∧
          ∀ j < t.size, (place pc es).getD (t.size * i + j) 0 = bi.getD j 0 := by
  intro ds
  induction ds with
  | nil => intro _; exact ⟨[], rfl, fun pc _ => ⟨by simp [place], by simp⟩⟩
  | cons d ds ihd =>
    intro hs
    obtain ⟨es, he, hes⟩ := ih d (hs d (by simp))
    obtain ⟨fs, hf, hfs⟩ := ihd (fun x hx => hs x (by simp [hx]))
    refine ⟨es ++ fs, by simp [cat, he, hf], fun pc hpc => ?_⟩
    have himg := hes pc hpc
    obtain ⟨h1, h2⟩ := hfs (pc + t.size) (Nat.dvd_add hpc (align_dvd_size hok))
    rw [place_append, himg.size]
    refine ⟨by rw [List.length_append, himg.size, h1, List.length_cons, Nat.mul_succ, Nat.add_comm], ?_⟩
    intro i d' hi
    cases i with
    | zero =>
      simp only [List.getElem?_cons_zero, Option.some.injEq] at hi
      subst hi
      refine ⟨_, himg, fun j hj => ?_⟩
      rw [List.getD_append _ _ _ _ (by rw [himg.size]; omega)]
      simp
    | succ i =>
      obtain ⟨bi, hb1, hb2⟩ := h2 i d' (by simpa using hi)
      refine ⟨bi, hb1, fun j hj => ?_⟩
      rw [← hb2 j hj, List.getD_append_right _ _ _ _ (by rw [himg.size, Nat.mul_succ]; omega), himg.size]
      congr 1
      rw [Nat.mul_succ]
      omega

/-- Structures. -/
theorem emitStr_spec {b : Bytes E} : ∀ (ms : List T) (cs : List (Tr E)) (off : Nat), cs.length = ms.length →
    (∀ m ∈ ms, T.Ok m) →
    (∀ m ∈ ms, ∀ tr, Shape b m tr → ∃ es, emit b m tr = some es ∧
      ∀ pc, m.align ∣ pc → Image b m tr.read (place pc es)) →
    (∀ (i : Nat) m c, ms[i]? = some m → cs[i]? = some c → Shape b m c) →
    ∃ es, emitStr b off ms cs = some es ∧ ∀ base, (∀ m ∈ ms, m.align ∣ base) →
      (place (base + off) es).length = strEnd off ms - off ∧
      (∀ (i : Nat) m c, ms[i]? = some m → cs[i]? = some c → ∃ bi, Image b m c.read bi ∧
        ∀ j < m.size, (place (base + off) es).getD (alignUp (strEnd off (ms.take i)) m.align + j - off) 0 =
          bi.getD j 0) ∧
      ∀ x, (place (base + off) es).getD x 0 = 0 ∨ ∃ (i : Nat) (m : T), ms[i]? = some m ∧
        alignUp (strEnd off (ms.take i)) m.align ≤ off + x ∧
        off + x < alignUp (strEnd off (ms.take i)) m.align + m.size := by
  intro ms
  induction ms with
  | nil =>
    intro cs off hl _ _ _
    refine ⟨[], by rw [emitStr]; simp, fun base _ => ⟨by simp [place, strEnd], by simp, fun x => .inl (by simp [place])⟩⟩
  | cons m ms ihm =>
    intro cs off hl hok ih hs
    cases cs with
    | nil => simp at hl
    | cons c cs =>
      obtain ⟨es, he, hes⟩ := ih m (by simp) c (hs 0 m c rfl rfl)
      obtain ⟨fs, hf, hfs⟩ := ihm cs (alignUp off m.align + m.size) (by simpa using hl)
        (fun x hx => hok x (by simp [hx])) (fun x hx => ih x (by simp [hx]))
        (fun i x y hx hy => hs (i + 1) x y (by simpa using hx) (by simpa using hy))
      refine ⟨alignEv off m.align ++ es ++ fs, by rw [emitStr, he, Option.bind_some, hf]; rfl, fun base hbase => ?_⟩
      have hpos := (hok m (by simp)).al.pos
      have hle := le_alignUp off m.align hpos
      have hme : m.align ∣ base + alignUp off m.align := Nat.dvd_add (hbase m (by simp)) (dvd_alignUp _ _)
      have himg := hes _ hme
      obtain ⟨h1, h2, h3⟩ := hfs base (fun x hx => hbase x (by simp [hx]))
      have hend := le_strEnd ms (alignUp off m.align + m.size) (fun x hx => hok x (by simp [hx]))
      rw [List.append_assoc, place_alignEv hpos (hbase m (by simp)), place_append, himg.size,
        Nat.add_assoc base]
      generalize place (base + alignUp off m.align) es = B1 at *
      generalize place (base + (alignUp off m.align + m.size)) fs = B2 at *
      have hB1 := himg.size
      refine ⟨?_, ?_, ?_⟩
      · simp only [List.length_append, List.length_replicate, hB1, h1, strEnd]
        omega
      · intro i m' c' hi hc
        cases i with
        | zero =>
          simp only [List.getElem?_cons_zero, Option.some.injEq] at hi hc
          subst hi hc
          refine ⟨B1, himg, fun j hj => ?_⟩
          simp only [List.take_zero, strEnd]
          rw [List.getD_append_right _ _ _ _ (by rw [List.length_replicate]; omega), List.length_replicate,
            List.getD_append _ _ _ _ (by rw [hB1]; omega)]
          congr 1
          omega
        | succ i =>
          obtain ⟨bi, hb1, hb2⟩ := h2 i m' c' (by simpa using hi) (by simpa using hc)
          refine ⟨bi, hb1, fun j hj => ?_⟩
          have hi' : ms[i]? = some m' := by simpa using hi
          have hm' := hok m' (by simp [List.mem_of_getElem? hi'])
          have hge : alignUp off m.align + m.size ≤ alignUp (strEnd (alignUp off m.align + m.size) (ms.take i)) m'.align :=
            le_trans (le_strEnd _ _ (fun x hx => hok x (by simp [List.mem_of_mem_take hx]))) (le_alignUp _ _ hm'.al.pos)
          simp only [List.take_succ_cons, strEnd]
          rw [← hb2 j hj, List.getD_append_right _ _ _ _ (by rw [List.length_replicate]; omega),
            List.getD_append_right _ _ _ _ (by rw [List.length_replicate, hB1]; omega), List.length_replicate, hB1]
          congr 1
          omega
      · intro x
        by_cases hx1 : x < alignUp off m.align - off
        · left
          rw [List.getD_append _ _ _ _ (by rw [List.length_replicate]; omega), getD_replicate]
        · by_cases hx2 : x < alignUp off m.align - off + m.size
          · right
            refine ⟨0, m, rfl, ?_, ?_⟩ <;> simp only [List.take_zero, strEnd] <;> omega
          · rw [List.getD_append_right _ _ _ _ (by rw [List.length_replicate]; omega),
              List.getD_append_right _ _ _ _ (by rw [List.length_replicate, hB1]; omega), List.length_replicate, hB1]
            rcases h3 (x - (alignUp off m.align - off) - m.size) with h | ⟨i, m', hi, ha, hb⟩
            · exact .inl h
            · right
              refine ⟨i + 1, m', by simpa using hi, ?_, ?_⟩ <;> simp only [List.take_succ_cons, strEnd] <;> omega

theorem place_padEv (pc size off : Nat) (h : off ≤ size) :
    place pc (padEv size off) = List.replicate (size - off) 0 := by
  unfold padEv
  split
  · simp [place]
  · rename_i h2
    have : size = off := by simpa using h2
    subst this
    simp [place]

/-! ### Unions -/

theorem emitUni_null {b : Bytes E} : ∀ (ms : List T) (cs : List (Tr E)) (off : Nat),
    (∀ c ∈ cs, Tr.isNull c = true) → emitUni b off ms cs = some ([], off) := by
  intro ms
  induction ms with
  | nil => intro cs off _; rw [emitUni]; simp
  | cons m ms ih =>
    intro cs off h
    cases cs with
    | nil => rw [emitUni]; simp
    | cons c cs =>
      rw [emitUni, if_pos (h c (by simp))]
      exact ih cs off (fun c hc => h c (by simp [hc]))

theorem emitUni_single {b : Bytes E} : ∀ (ms : List T) (cs : List (Tr E)) (k : Nat) (m : T) (c : Tr E),
    (∀ m ∈ ms, T.Ok m) → ms[k]? = some m → cs[k]? = some c → Tr.isNull c = false →
    (∀ (i : Nat) d, cs[i]? = some d → Tr.isNull d = false → i = k) →
    emitUni b 0 ms cs = (emit b m c).map fun es => (es, m.size) := by
  intro ms
  induction ms with
  | nil => intro cs k m c _ h; simp at h
  | cons x ms ih =>
    intro cs k m c hok hm hc hn hone
    cases cs with
    | nil => simp at hc
    | cons y cs =>
      cases k with
      | zero =>
        simp only [List.getElem?_cons_zero, Option.some.injEq] at hm hc
        subst hm hc
        have h0 : alignUp 0 x.align = 0 := alignUp_of_dvd _ _ (hok x (by simp)).al.pos (Nat.dvd_zero _)
        rw [emitUni, if_neg (by simp [hn]), h0, emitUni_null]
        · cases emit b x y <;> simp [alignEv]
        · intro d hd
          obtain ⟨i, hi⟩ := List.getElem?_of_mem hd
          by_contra hdn
          have := hone (i + 1) d (by simpa using hi) (by simpa using hdn)
          omega
      | succ k =>
        have hy : Tr.isNull y = true := by
          by_contra hyn
          have := hone 0 y rfl (by simpa using hyn)
          omega
        rw [emitUni, if_pos hy]
        refine ih cs k m c (fun m hm => hok m (by simp [hm])) (by simpa using hm) (by simpa using hc) hn ?_
        intro i d hi hd
        have := hone (i + 1) d (by simpa using hi) hd
        omega

theorem read_null : (Tr.null : Tr E).read = fun _ => none := by
  funext p
  cases p <;> simp [Tr.read]

theorem isNull_eq {c : Tr E} (h : Tr.isNull c = true) : c = .null := by
  cases c <;> simp_all [Tr.isNull]

/-- An object of which nothing is initialised. -/
theorem image_zero {b : Bytes E} {t : T} {bs : List UInt8} (h1 : bs.length = t.size)
    (h2 : ∀ x, bs.getD x 0 = 0) : Image b t (fun _ => none) bs :=
  ⟨h1, fun _ _ _ _ h => by simp at h, fun x _ => h2 x⟩

theorem image_zero_all {b : Bytes E} {t : T} {bs : List UInt8} (h : Image b t (fun _ => none) bs) (x : Nat) :
    bs.getD x 0 = 0 := h.zero x fun _ _ _ _ h => by simp at h

theorem image_num {b : Bytes E} (hb : b.Ok) {s : Nat} {e : E} : Image b (.num s) (Tr.leaf e).read (b.num e s) := by
  refine ⟨by rw [hb, T.size], ?_, ?_⟩
  · intro p e' o c hv hs j hj
    cases p with
    | nil =>
      simp only [Tr.read, if_true, Option.some.injEq] at hv
      simp only [T.sub, Option.some.injEq, Prod.mk.injEq] at hs
      obtain ⟨rfl, rfl⟩ := hs
      subst hv
      rw [objBytes, Nat.zero_add]
    | cons i p => simp [Tr.read] at hv
  · intro x hx
    have := hx [] e 0 (.num s) (by simp [Tr.read]) (by simp [T.sub])
    rw [List.getD_eq_default]
    rw [hb]
    simp only [T.size] at this
    omega

theorem strData_length (bs : List UInt8) (size : Nat) : (strData bs size).length = size := by
  simp only [strData, List.length_append, List.length_take, List.length_replicate]
  omega

theorem image_string {b : Bytes E} {n : Nat} {t : T} {e : E} {bs : List UInt8} (h : b.lit e = some bs) :
    Image b (.arr n t) (Tr.leaf e).read (strData bs (t.size * n)) := by
  refine ⟨by rw [strData_length, T.size], ?_, ?_⟩
  · intro p e' o c hv hs j hj
    cases p with
    | nil =>
      simp only [Tr.read, if_true, Option.some.injEq] at hv
      simp only [T.sub, Option.some.injEq, Prod.mk.injEq] at hs
      obtain ⟨rfl, rfl⟩ := hs
      subst hv
      rw [objBytes, Nat.zero_add, h, T.size]
      · rfl
      · simp
    | cons i p => simp [Tr.read] at hv
  · intro x hx
    have := hx [] e 0 (.arr n t) (by simp [Tr.read]) (by simp [T.sub])
    rw [List.getD_eq_default]
    rw [strData_length]
    simp only [T.size] at this
    omega

theorem read_node (cs : List (Tr E)) (i : Nat) (p : Path) :
    (Tr.node cs).read (i :: p) = (cs[i]?).bind fun c => c.read p := by
  rw [Tr.read, List.getD_eq_getElem?_getD]
  cases cs[i]?
  · simp [read_null]
  · rfl

/-- The constants and the padding of a static object are its image. -/
theorem emit_image {b : Bytes E} (hb : b.Ok) : ∀ (N : Nat) (t : T), sizeOf t ≤ N → t.Ok → ∀ tr, Shape b t tr →
    ∃ es, emit b t tr = some es ∧ ∀ pc, t.align ∣ pc → Image b t tr.read (place pc es) := by
  intro N
  induction N with
  | zero => intro t h; cases t <;> simp at h
  | succ N ih =>
    intro t hN hok tr hs
    cases hok with
    | @num s hsz =>
      cases hs with
      | null =>
        refine ⟨_, by rw [emit], fun pc _ => ?_⟩
        rw [read_null]
        exact image_zero (by simp [place, T.size]) (fun x => by simp only [place, List.append_nil]; exact getD_replicate _ _)
      | @leaf _ e =>
        refine ⟨_, by rw [emit], fun pc _ => ?_⟩
        simp only [place, List.append_nil]
        exact image_num hb
    | @arr n t ht =>
      have iht := ih t (by simp at hN; omega) ht
      have key : ∀ ds : List (Tr E), ds.length = n → (∀ d ∈ ds, Shape b t d) → ∀ v : Val E, v [] = none →
          (∀ (i : Nat) d, ds[i]? = some d → ∀ p, v (i :: p) = d.read p) →
          ∃ es, cat (ds.map (emit b t)) = some es ∧ ∀ pc, t.align ∣ pc → Image b (.arr n t) v (place pc es) := by
        intro ds hlen hds v hv0 hv
        obtain ⟨es, he, hes⟩ := cat_elems ht iht ds hds
        refine ⟨es, he, fun pc hpc => ?_⟩
        obtain ⟨h1, h2⟩ := hes pc hpc
        have hag : ∀ i < n, Agrees b v (place pc es) i (t.size * i) t := by
          intro i hi
          obtain ⟨d, hd⟩ : ∃ d, ds[i]? = some d := ⟨_, List.getElem?_eq_getElem (by omega)⟩
          obtain ⟨bi, hb1, hb2⟩ := h2 i d hd
          refine ⟨bi, ?_, hb2⟩
          have : (fun p => v (i :: p)) = d.read := funext fun p => hv i d hd p
          rw [this]
          exact hb1
        refine compose (.arr ht) (by rw [h1, hlen, T.size]) hv0 ?_ ?_
        · intro i o c hm
          simp only [T.member] at hm
          split at hm
          · rename_i hi
            simp only [Option.some.injEq, Prod.mk.injEq] at hm
            obtain ⟨rfl, rfl⟩ := hm
            exact .inr (hag i hi)
          · simp at hm
        · intro x
          by_cases hx : x < t.size * n
          · right
            have hpos : 0 < t.size := by
              rcases Nat.eq_zero_or_pos t.size with h | h
              · rw [h] at hx; simp at hx
              · exact h
            have hi : x / t.size < n := Nat.div_lt_of_lt_mul hx
            have := Nat.div_add_mod x t.size
            have := Nat.mod_lt x hpos
            exact ⟨x / t.size, _, t, by simp [T.member, hi], by omega, by omega, hag _ hi⟩
          · left
            exact List.getD_eq_default _ _ (by rw [h1, hlen]; omega)
      simp only [T.align]
      cases hs with
      | null =>
        have := key (List.replicate n .null) (by simp) (by simp; intro _; exact .null) (fun _ => none) rfl (by
          intro i d hd p
          have : d = .null := by
            have := List.mem_of_getElem? hd
            exact (List.mem_replicate.1 this).2
          rw [this, read_null])
        rw [List.map_replicate] at this
        rw [emit, read_null]
        exact this
      | @string _ _ e hl =>
        obtain ⟨bs, hbs⟩ := Option.ne_none_iff_exists'.1 hl
        refine ⟨_, by rw [emit, hbs]; rfl, fun pc _ => ?_⟩
        simp only [place, List.append_nil]
        exact image_string hbs
      | @arr _ _ cs hlen hcs =>
        have := key (cs ++ List.replicate (n - cs.length) .null) (by simp; omega) (by
            intro d hd
            rcases List.mem_append.1 hd with hd | hd
            · exact hcs d hd
            · rw [(List.mem_replicate.1 hd).2]
              exact .null) (Tr.node cs).read (by simp [Tr.read]) (by
          intro i d hd p
          rw [read_node]
          by_cases hi : i < cs.length
          · rw [List.getElem?_append_left hi] at hd
            rw [hd]; rfl
          · rw [List.getElem?_append_right (by omega)] at hd
            have := (List.mem_replicate.1 (List.mem_of_getElem? hd)).2
            rw [List.getElem?_eq_none (by omega), this, read_null]; rfl)
        rw [List.map_append, List.map_replicate] at this
        rw [emit]
        exact this
    | @str ms hm =>
      have key : ∀ cs : List (Tr E), cs.length = ms.length →
          (∀ (i : Nat) m c, ms[i]? = some m → cs[i]? = some c → Shape b m c) → ∀ v : Val E, v [] = none →
          (∀ (i : Nat) c, cs[i]? = some c → ∀ p, v (i :: p) = c.read p) →
          ∃ es, (emitStr b 0 ms cs).map (fun es => es ++ padEv (T.size (.str ms)) (strEnd 0 ms)) = some es ∧
            ∀ pc, aligns ms ∣ pc → Image b (.str ms) v (place pc es) := by
        intro cs hlen hcs v hv0 hv
        obtain ⟨es, he, hes⟩ := emitStr_spec (b := b) ms cs 0 hlen hm (fun m hmem => ih m (by
          have := List.sizeOf_lt_of_mem hmem
          simp at hN; omega) (hm m hmem)) hcs
        refine ⟨_, by rw [he]; rfl, fun pc hpc => ?_⟩
        obtain ⟨h1, h2, h3⟩ := hes pc (fun m hmem => Nat.dvd_trans (dvd_aligns hm hmem) hpc)
        have hle : strEnd 0 ms ≤ T.size (.str ms) := by
          rw [T.size]
          exact le_alignUp _ _ (al_aligns fun m hm' => (hm m hm').al).pos
        rw [place_append, place_padEv _ _ _ hle]
        rw [Nat.add_zero] at h1 h2 h3
        generalize place pc es = B at *
        have hbd : ∀ {i : Nat} {m : T}, ms[i]? = some m →
            alignUp (strEnd 0 (ms.take i)) m.align + m.size ≤ strEnd 0 ms := by
          intro i m hi
          have hsplit : ms = ms.take i ++ m :: ms.drop (i + 1) := by
            obtain ⟨hlt, hg⟩ := List.getElem?_eq_some_iff.1 hi
            rw [← hg, List.cons_getElem_drop_succ, List.take_append_drop]
          conv_rhs => rw [hsplit, strEnd_append, strEnd]
          exact le_strEnd _ _ (fun x hx => hm x (List.mem_of_mem_drop hx))
        have hag : ∀ {i : Nat} {m : T}, ms[i]? = some m →
            Agrees b v (B ++ List.replicate (T.size (.str ms) - strEnd 0 ms) 0) i
              (alignUp (strEnd 0 (ms.take i)) m.align) m := by
          intro i m hi
          obtain ⟨c, hc⟩ : ∃ c, cs[i]? = some c := by
            obtain ⟨hlt, _⟩ := List.getElem?_eq_some_iff.1 hi
            exact ⟨_, List.getElem?_eq_getElem (by omega)⟩
          obtain ⟨bi, hb1, hb2⟩ := h2 i m c hi hc
          refine ⟨bi, ?_, fun j hj => ?_⟩
          · have : (fun p => v (i :: p)) = c.read := funext fun p => hv i c hc p
            rw [this]
            exact hb1
          · rw [← hb2 j hj, List.getD_append _ _ _ _ (by rw [h1]; have := hbd hi; omega)]
            rfl
        refine compose (.str hm) ?_ hv0 ?_ ?_
        · rw [List.length_append, h1, List.length_replicate]; omega
        · intro i o c hmem
          simp only [T.member] at hmem
          obtain ⟨m, hi, h⟩ := Option.map_eq_some_iff.1 hmem
          simp only [Prod.mk.injEq] at h
          obtain ⟨rfl, rfl⟩ := h
          exact .inr (hag hi)
        · intro x
          by_cases hx : x < B.length
          · rw [List.getD_append _ _ _ _ hx]
            rcases h3 x with h | ⟨i, m, hi, ha, hb⟩
            · exact .inl h
            · right
              exact ⟨i, _, m, by simp [T.member, hi], by omega, by omega, hag hi⟩
          · left
            rw [List.getD_append_right _ _ _ _ (by omega), getD_replicate]
      simp only [T.align]
      cases hs with
      | null =>
        rw [emit, parts, read_null]
        refine key _ (by simp) ?_ _ rfl ?_
        · intro i m c _ hc
          rw [(List.mem_replicate.1 (List.mem_of_getElem? hc)).2]
          exact .null
        · intro i c hc p
          rw [(List.mem_replicate.1 (List.mem_of_getElem? hc)).2, read_null]
      | @str _ cs hlen hcs =>
        rw [emit, parts, if_pos hlen]
        refine key cs hlen hcs _ (by simp [Tr.read]) ?_
        intro i c hc p
        rw [read_node, hc]; rfl
    | @uni ms hne hm =>
      have hle : ∀ m ∈ ms, m.size ≤ T.size (.uni ms) := by
        intro m hmem
        rw [T.size]
        exact le_trans (le_maxSize hmem) (le_alignUp _ _ (al_aligns fun m hm' => (hm m hm').al).pos)
      have ihm : ∀ m ∈ ms, ∀ tr, Shape b m tr → ∃ es, emit b m tr = some es ∧
          ∀ pc, m.align ∣ pc → Image b m tr.read (place pc es) := fun m hmem => ih m (by
        have := List.sizeOf_lt_of_mem hmem
        simp at hN; omega) (hm m hmem)
      -- nothing initialised
      have hnull : ∃ es, (emitFirst b ms).map (fun es => es ++ padEv (T.size (.uni ms)) ((ms.head?.map T.size).getD 0)) = some es ∧
          ∀ pc, aligns ms ∣ pc → Image b (.uni ms) (fun _ => none) (place pc es) := by
        cases ms with
        | nil => exact absurd rfl hne
        | cons m ms =>
          obtain ⟨es, he, hes⟩ := ihm m (by simp) .null .null
          refine ⟨_, by rw [emitFirst, he]; rfl, fun pc hpc => ?_⟩
          have himg := hes pc (Nat.dvd_trans (dvd_aligns hm (by simp)) hpc)
          rw [read_null] at himg
          simp only [List.head?_cons, Option.map_some, Option.getD_some]
          rw [place_append, place_padEv _ _ _ (hle m (by simp))]
          refine image_zero ?_ ?_
          · have := hle m (by simp)
            rw [List.length_append, himg.size, List.length_replicate]; omega
          · intro x
            by_cases hx : x < (place pc es).length
            · rw [List.getD_append _ _ _ _ hx]
              exact image_zero_all himg x
            · rw [List.getD_append_right _ _ _ _ (by omega), getD_replicate]
      simp only [T.align]
      cases hs with
      | null =>
        rw [emit, parts, read_null]
        rw [Option.bind_some, if_pos (by simp [Tr.isNull])]
        exact hnull
      | @uni _ cs hlen hcs hone =>
        rw [emit, parts, if_pos hlen, Option.bind_some]
        by_cases hall : cs.all Tr.isNull = true
        · rw [if_pos hall]
          have : (Tr.node cs).read = fun _ => none := by
            funext p
            cases p with
            | nil => simp [Tr.read]
            | cons i p =>
              rw [read_node]
              cases hc : cs[i]? with
              | none => rfl
              | some c =>
                rw [Option.bind_some, isNull_eq (List.all_eq_true.1 hall c (List.mem_of_getElem? hc)), read_null]
          rw [this]
          exact hnull
        · rw [if_neg hall]
          obtain ⟨k, c, hk, hn⟩ : ∃ (k : Nat) (c : Tr E), cs[k]? = some c ∧ Tr.isNull c = false := by
            rw [List.all_eq_true] at hall
            push Not at hall
            obtain ⟨c, hc, hn⟩ := hall
            obtain ⟨k, hk⟩ := List.getElem?_of_mem hc
            exact ⟨k, c, hk, by simpa using hn⟩
          obtain ⟨m, hmk⟩ : ∃ m, ms[k]? = some m := by
            obtain ⟨hlt, _⟩ := List.getElem?_eq_some_iff.1 hk
            exact ⟨_, List.getElem?_eq_getElem (by omega)⟩
          have hmem := List.mem_of_getElem? hmk
          obtain ⟨es, he, hes⟩ := ihm m hmem c (hcs k m c hmk hk)
          rw [emitUni_single ms cs k m c hm hmk hk hn (fun i d hd hdn => hone i k d c hd hk hdn hn), he]
          refine ⟨_, rfl, fun pc hpc => ?_⟩
          have himg := hes pc (Nat.dvd_trans (dvd_aligns hm hmem) hpc)
          have hl := hle m hmem
          dsimp only
          rw [place_append, place_padEv _ _ _ hl]
          have hsz := himg.size
          generalize place pc es = B at *
          have hag : Agrees b (Tr.node cs).read (B ++ List.replicate (T.size (.uni ms) - m.size) 0) k 0 m := by
            refine ⟨B, ?_, fun j hj => ?_⟩
            · have : (fun p => (Tr.node cs).read (k :: p)) = c.read := by
                funext p
                rw [read_node, hk]; rfl
              rw [this]
              exact himg
            · rw [Nat.zero_add, List.getD_append _ _ _ _ (by omega)]
          refine compose (.uni hne hm) ?_ (by simp [Tr.read]) ?_ ?_
          · rw [List.length_append, hsz, List.length_replicate]; omega
          · intro i o c' hmem'
            simp only [T.member] at hmem'
            obtain ⟨m', hi, h⟩ := Option.map_eq_some_iff.1 hmem'
            simp only [Prod.mk.injEq] at h
            obtain ⟨rfl, rfl⟩ := h
            by_cases hik : i = k
            · subst hik
              rw [hmk] at hi
              cases hi
              exact .inr hag
            · left
              intro p
              rw [read_node]
              cases hc : cs[i]? with
              | none => rfl
              | some d =>
                have : Tr.isNull d = true := by
                  by_contra hdn
                  exact hik (hone i k d c hc hk (by simpa using hdn) hn)
                rw [Option.bind_some, isNull_eq this, read_null]
          · intro x
            by_cases hx : x < m.size
            · right
              exact ⟨k, 0, m, by simp [T.member, hmk], by omega, by omega, hag⟩
            · left
              rw [List.getD_append_right _ _ _ _ (by omega), getD_replicate]

/-! ### From the initialiser as written -/

mutual
/-- The type without the sizes of the scalars. -/
def T.erase : T → Ty
  | .num _ => .scalar
  | .arr n t => .arr (some n) t.erase
  | .str ms => .str (erases ms)
  | .uni ms => .uni (erases ms)
def erases : List T → List Ty
  | [] => []
  | m :: ms => m.erase :: erases ms
end

theorem erases_map : ∀ ms : List T, erases ms = ms.map T.erase := by
  intro ms
  induction ms with
  | nil => rfl
  | cons m ms ih => rw [erases, ih, List.map_cons]

theorem erase_child (t : T) (i : Nat) : t.erase.child i = (t.member i).map fun x => x.2.erase := by
  cases t with
  | num s => rw [T.erase]; rfl
  | arr n t =>
    rw [T.erase, Ty.child, T.member]
    split <;> rfl
  | str ms =>
    rw [T.erase, Ty.child, T.member, erases_map, List.getElem?_map]
    cases ms[i]? <;> rfl
  | uni ms =>
    rw [T.erase, Ty.child, T.member, erases_map, List.getElem?_map]
    cases ms[i]? <;> rfl

theorem erase_at : ∀ (p : Path) (t : T), t.erase.at p = (t.sub p).map fun x => x.2.erase := by
  intro p
  induction p with
  | nil => intro t; simp [Ty.at, T.sub]
  | cons i p ih =>
    intro t
    rw [Ty.at, erase_child, T.sub]
    cases h : t.member i with
    | none => rfl
    | some x =>
      simp only [Option.map_some, Option.bind_some]
      rw [ih, Option.map_map]
      rfl

theorem erase_not (t : T) : t.erase ≠ .hole ∧ t.erase ≠ .pad := by
  cases t <;> simp [T.erase]

theorem erase_noPad (t : T) : NoPad t.erase := by
  refine ⟨?_, ?_, ?_⟩
  · intro p h
    rw [erase_at] at h
    obtain ⟨x, -, h⟩ := Option.map_eq_some_iff.1 h
    exact (erase_not x.2).2 h
  · intro p n h
    rw [erase_at] at h
    obtain ⟨⟨o, c⟩, -, h⟩ := Option.map_eq_some_iff.1 h
    cases c with
    | arr n t =>
      simp only [T.erase, Ty.arr.injEq] at h
      exact (erase_not t).1 h.2
    | _ => simp [T.erase] at h
  · intro p s _ h hc
    rw [erase_at] at h
    obtain ⟨⟨o, c⟩, -, rfl⟩ := Option.map_eq_some_iff.1 h
    rw [erase_child] at hc
    obtain ⟨x, -, h⟩ := Option.map_eq_some_iff.1 hc
    exact (erase_not x.2).1 h

theorem sub_ok : ∀ {p : Path} {t c : T} {o : Nat}, t.Ok → t.sub p = some (o, c) → c.Ok := by
  intro p
  induction p with
  | nil =>
    intro t c o hok h
    simp only [T.sub, Option.some.injEq, Prod.mk.injEq] at h
    rw [← h.2]; exact hok
  | cons i p ih =>
    intro t c o hok h
    simp only [T.sub] at h
    obtain ⟨⟨o1, c1⟩, hmem, h⟩ := Option.bind_eq_some_iff.1 h
    obtain ⟨⟨o2, c2⟩, hsub, h⟩ := Option.map_eq_some_iff.1 h
    simp only [Prod.mk.injEq] at h hsub
    obtain ⟨rfl, rfl⟩ := h
    exact ih (member_bound hok hmem).2 hsub

theorem erase_wf {t : T} (hok : t.Ok) : Wf t.erase := by
  constructor
  · intro p ms h
    rw [erase_at] at h
    obtain ⟨⟨o, c⟩, hs, h⟩ := Option.map_eq_some_iff.1 h
    have := sub_ok hok hs
    cases this with
    | @uni ns hne _ =>
      simp only [T.erase, Ty.uni.injEq] at h
      rw [← h, erases_map]
      simpa using hne
    | _ => simp [T.erase] at h
  · intro p u h
    rw [erase_at] at h
    obtain ⟨⟨o, c⟩, -, h⟩ := Option.map_eq_some_iff.1 h
    cases c <;> simp [T.erase] at h

/-- As `Shape`, only the first members of unions have initializers. -/
inductive Pick (b : Bytes E) : T → Tr E → Prop
  | null {t : T} : Pick b t .null
  | leaf {s : Nat} {e : E} : Pick b (.num s) (.leaf e)
  | string {n : Nat} {t : T} {e : E} : b.lit e ≠ none → Pick b (.arr n t) (.leaf e)
  | arr {n : Nat} {t : T} {cs : List (Tr E)} : cs.length ≤ n → (∀ c ∈ cs, Pick b t c) →
      Pick b (.arr n t) (.node cs)
  | str {ms : List T} {cs : List (Tr E)} : cs.length = ms.length →
      (∀ (i : Nat) m c, ms[i]? = some m → cs[i]? = some c → Pick b m c) → Pick b (.str ms) (.node cs)
  | uni {ms : List T} {cs : List (Tr E)} : cs.length = ms.length →
      (∀ (i : Nat) m c, ms[i]? = some m → cs[i]? = some c → Pick b m c) →
      (∀ (i : Nat) c, cs[i]? = some c → Tr.isNull c = false → i = 0) →
      Pick b (.uni ms) (.node cs)

theorem pick_shape {b : Bytes E} : ∀ (N : Nat) (t : T), sizeOf t ≤ N → ∀ tr, Pick b t tr → Shape b t tr := by
  intro N
  induction N with
  | zero => intro t h; cases t <;> simp at h
  | succ N ih =>
    intro t hN tr h
    cases h with
    | null => exact .null
    | leaf => exact .leaf
    | string h => exact .string h
    | arr hl hc => exact .arr hl fun c hm => ih _ (by simp at hN; omega) c (hc c hm)
    | str hl hc =>
      refine .str hl fun i m c hi hci => ih m ?_ c (hc i m c hi hci)
      have := List.sizeOf_lt_of_mem (List.mem_of_getElem? hi)
      simp at hN; omega
    | uni hl hc h0 =>
      refine .uni hl (fun i m c hi hci => ih m ?_ c (hc i m c hi hci)) ?_
      · have := List.sizeOf_lt_of_mem (List.mem_of_getElem? hi)
        simp at hN; omega
      · intro i j c d hi hj hc hd
        rw [h0 i c hi hc, h0 j d hj hd]

/-- On the way the first members of unions only are entered. -/
def Firsts : Ty → Path → Prop
  | _, [] => True
  | t, i :: p => ((∃ ms, t = .uni ms) → i = 0) ∧ ∀ c, t.child i = some c → Firsts c p

theorem slot_firsts {stop : Ty → Bool} : ∀ (q : Path) (t : Ty), Slot stop t q → Firsts t q := by
  intro q
  induction q with
  | nil => intro t _; trivial
  | cons i q ih =>
    rintro t ⟨-, c, hp, h⟩
    refine ⟨fun ⟨ms, hms⟩ => hp.uni ms hms, fun c' hc' => ?_⟩
    rw [hp.child] at hc'
    cases hc'
    exact ih c h

theorem cand_firsts {stop : Ty → Bool} : ∀ (cur : Path) (t : Ty) (q : Path), Firsts t cur.dropLast →
    Cand stop t cur q → Firsts t q := by
  intro cur
  induction cur with
  | nil => intro t q _ h; simp [Cand] at h
  | cons k s ih =>
    intro t q hf h
    have hpart : ∀ {j : Nat} {q' : Path} {c : Ty}, Part t j c → Slot stop c q' → Firsts t (j :: q') := by
      intro j q' c hp hs
      refine ⟨fun ⟨ms, hms⟩ => hp.uni ms hms, fun c' hc' => ?_⟩
      rw [hp.child] at hc'
      cases hc'
      exact slot_firsts q' c hs
    cases s with
    | nil =>
      obtain ⟨j, q', c, rfl, -, hp, hs⟩ := h
      exact hpart hp hs
    | cons a s =>
      rcases h with ⟨j, q', c, rfl, -, hp, hs⟩ | ⟨q', c, rfl, hc, hcand⟩
      · exact hpart hp hs
      · rw [List.dropLast_cons_of_ne_nil (by simp)] at hf
        refine ⟨hf.1, fun c' hc' => ?_⟩
        rw [hc] at hc'
        cases hc'
        exact ih c q' (hf.2 c hc) hcand

theorem firsts_dropLast : ∀ (q : Path) (t : Ty), Firsts t q → Firsts t q.dropLast := by
  intro q
  induction q with
  | nil => intro t _; trivial
  | cons i q ih =>
    intro t h
    cases q with
    | nil => trivial
    | cons j q =>
      rw [List.dropLast_cons_of_ne_nil (by simp)]
      exact ⟨h.1, fun c hc => ih c (h.2 c hc)⟩

theorem pick_get {b : Bytes E} {t c : T} {cs : List (Tr E)} {i o : Nat} (h : Pick b t (.node cs))
    (hm : t.member i = some (o, c)) : Pick b c (cs.getD i .null) := by
  rw [List.getD_eq_getElem?_getD]
  cases hc : cs[i]? with
  | none => exact .null
  | some d =>
    rw [Option.getD_some]
    cases h with
    | arr hl h =>
      simp only [T.member] at hm
      split at hm
      · cases hm; exact h d (List.mem_of_getElem? hc)
      · simp at hm
    | str hl h =>
      simp only [T.member] at hm
      obtain ⟨m, hi, h'⟩ := Option.map_eq_some_iff.1 hm
      cases h'
      exact h i _ d hi hc
    | uni hl h h0 =>
      simp only [T.member] at hm
      obtain ⟨m, hi, h'⟩ := Option.map_eq_some_iff.1 hm
      cases h'
      exact h i _ d hi hc

theorem pick_set {b : Bytes E} {t c : T} {cs : List (Tr E)} {i o : Nat} (h : Pick b t (.node cs))
    (hm : t.member i = some (o, c)) (h0 : (∃ ms, t = .uni ms) → i = 0) {x : Tr E} (hx : Pick b c x) :
    Pick b t (.node (cs.set i x)) := by
  cases h with
  | @arr n t _ hl h =>
    simp only [T.member] at hm
    split at hm
    · cases hm
      refine .arr (by simpa using hl) fun d hd => ?_
      rcases List.mem_or_eq_of_mem_set hd with hd | rfl
      · exact h d hd
      · exact hx
    · simp at hm
  | @str ms _ hl h =>
    simp only [T.member] at hm
    obtain ⟨m, hi, h'⟩ := Option.map_eq_some_iff.1 hm
    cases h'
    refine .str (by simpa using hl) fun j m d hj hd => ?_
    rw [List.getElem?_set] at hd
    split at hd
    · rename_i hij
      subst hij
      rw [hi] at hj
      cases hj
      split at hd
      · cases hd; exact hx
      · simp at hd
    · exact h j m d hj hd
  | @uni ms _ hl h h1 =>
    have hz := h0 ⟨ms, rfl⟩
    subst hz
    simp only [T.member] at hm
    obtain ⟨m, hi, h'⟩ := Option.map_eq_some_iff.1 hm
    cases h'
    refine .uni (by simpa using hl) (fun j m d hj hd => ?_) (fun j d hd hn => ?_)
    · rw [List.getElem?_set] at hd
      split at hd
      · rename_i hij
        subst hij
        rw [hi] at hj
        cases hj
        split at hd
        · cases hd; exact hx
        · simp at hd
      · exact h j m d hj hd
    · rw [List.getElem?_set] at hd
      split at hd
      · rename_i hij; exact hij.symm
      · exact h1 j d hd hn

theorem pick_reserve {b : Bytes E} {t : T} {tr : Tr E} (h : reserve t.erase = some tr) : Pick b t tr := by
  have hnull : ∀ {n i : Nat} {c : Tr E}, (List.replicate n (Tr.null : Tr E))[i]? = some c → c = .null := by
    intro n i c h
    exact (List.mem_replicate.1 (List.mem_of_getElem? h)).2
  cases t with
  | num s => simp [T.erase, reserve] at h
  | arr n t =>
    simp only [T.erase, reserve, Option.some.injEq] at h
    subst h
    refine .arr (by simp) fun c hc => ?_
    rw [(List.mem_replicate.1 hc).2]
    exact .null
  | str ms =>
    simp only [T.erase, reserve, Option.some.injEq, erases_map, List.length_map] at h
    subst h
    refine .str (by simp) fun i m c _ hc => ?_
    rw [hnull hc]
    exact .null
  | uni ms =>
    simp only [T.erase, reserve, Option.some.injEq, erases_map, List.length_map] at h
    subst h
    refine .uni (by simp) (fun i m c _ hc => ?_) (fun i c hc hn => ?_)
    · rw [hnull hc]
      exact .null
    · rw [hnull hc] at hn
      simp [Tr.isNull] at hn

theorem extend_erase {t : T} {cs ds : List (Tr E)} {i : Nat} (h : extend t.erase cs i = some ds) : ds = cs := by
  unfold extend at h
  split at h
  · simpa using h.symm
  · cases t <;> simp [T.erase] at h

theorem erase_uni {t : T} (h : ∃ ms, t = .uni ms) : ∃ ms, t.erase = .uni ms := by
  obtain ⟨ms, rfl⟩ := h
  exact ⟨erases ms, by rw [T.erase]⟩

theorem store_pick {b : Bytes E} : ∀ (q : Path) (t c : T) (o : Nat) (tr tr' x : Tr E),
    store t.erase tr q x = some tr' → t.sub q = some (o, c) → Firsts t.erase q → Pick b t tr → Pick b c x →
    Pick b t tr' := by
  intro q
  induction q with
  | nil => intro t c o tr tr' x h; simp [store] at h
  | cons i q ih =>
    intro t c o tr tr' x h hs hf hp hx
    simp only [T.sub] at hs
    obtain ⟨⟨o1, c1⟩, hmem, hs⟩ := Option.bind_eq_some_iff.1 hs
    obtain ⟨⟨o2, c2⟩, hsub, hs⟩ := Option.map_eq_some_iff.1 hs
    simp only [Prod.mk.injEq] at hs hsub
    obtain ⟨rfl, rfl⟩ := hs
    have hch : t.erase.child i = some c1.erase := by rw [erase_child, hmem]; rfl
    have h0 : (∃ ms, t = .uni ms) → i = 0 := fun h => hf.1 (erase_uni h)
    cases q with
    | nil =>
      simp only [T.sub, Option.some.injEq, Prod.mk.injEq] at hsub
      obtain ⟨-, rfl⟩ := hsub
      cases tr with
      | node cs =>
        simp only [store] at h
        obtain ⟨ds, hd, rfl⟩ := Option.map_eq_some_iff.1 h
        rw [extend_erase hd]
        exact pick_set hp hmem h0 hx
      | _ => simp [store] at h
    | cons j q =>
      cases tr with
      | node cs =>
        simp only [store, hch] at h
        obtain ⟨ds, hd, h⟩ := Option.bind_eq_some_iff.1 h
        obtain ⟨ce, hce, h⟩ := Option.bind_eq_some_iff.1 h
        cases hce
        obtain ⟨sub, hsb, h⟩ := Option.bind_eq_some_iff.1 h
        obtain ⟨sub', hst, rfl⟩ := Option.map_eq_some_iff.1 h
        rw [extend_erase hd] at hsb ⊢
        have hps : Pick b c1 sub := by
          split at hsb
          · rename_i es hes
            cases hsb
            rw [← hes]
            exact pick_get hp hmem
          · exact pick_reserve hsb
        exact pick_set hp hmem h0 (ih c1 _ _ sub sub' x hst hsub (hf.2 _ hch) hps hx)
      | _ => simp [store] at h

/-- Only string literals initialise arrays and structures as a whole: other such expressions are not
constant (6.7.9p4). -/
def Static (env : Env E) (b : Bytes E) : Prop :=
  ∀ e (t : T), t.erase.isMulti = true → (env.whole e t.erase = true ∨ env.str e t.erase = true) →
    ∃ n c, t = .arr n c ∧ b.lit e ≠ none

theorem erase_scalar {t : T} (h : t.erase.isMulti = false) : ∃ s, t = .num s := by
  cases t <;> simp [T.erase, Ty.isMulti] at h
  exact ⟨_, rfl⟩

theorem pick_leaf {b : Bytes E} {t : T} (h : t.erase.isMulti = false) (e : E) : Pick b t (.leaf e) := by
  obtain ⟨s, rfl⟩ := erase_scalar h
  exact .leaf

mutual
theorem flat_pick {env : Env E} {b : Bytes E} (hst : Static env b) (n : Nat) :
    ∀ (i : Init E) (t : T) (tr : Tr E), i.Plain → flat env n t.erase i = .ok tr → Pick b t tr
  | .single e, t, tr, _, h => by
    simp only [flat] at h
    split at h
    · simp at h
    · rename_i hm
      simp only [Res.ok.injEq] at h
      subst h
      cases ht : t.erase.isMulti with
      | false => exact pick_leaf ht e
      | true =>
        obtain ⟨n, c, rfl, hl⟩ := hst e t ht (.inl (by simpa [ht] using hm))
        exact .string hl
  | .multi its, t, tr, hpl, h => by
    simp only [flat] at h
    split at h
    · rename_i ht
      split at h
      · rename_i e he
        simp only [Res.ok.injEq] at h
        subst h
        unfold strOnly at he
        split at he
        · rename_i e' he'
          split at he
          · rename_i hs
            simp only [Option.some.injEq] at he
            subst he
            obtain ⟨n, c, rfl, hl⟩ := hst e' t ht (.inr hs)
            exact .string hl
          · simp at he
        · simp at he
      · rename_i he
        obtain ⟨tr0, h0, h⟩ := bind_ok h
        simp only [Init.Plain] at hpl
        exact items_pick hst n its t [0] tr0 tr hpl ⟨0, [], t.erase, rfl, rfl, ht⟩ trivial
          (pick_reserve (ofOption_ok h0)) h
    · rename_i ht
      have ht : t.erase.isMulti = false := by simpa using ht
      unfold scalarItem at h
      split at h
      · cases h
        exact pick_leaf ht _
      · split at h
        · cases h
          exact pick_leaf ht _
        · simp at h
theorem items_pick {env : Env E} {b : Bytes E} (hst : Static env b) (n : Nat) :
    ∀ (its : Items E) (root : T) (cur : List Nat) (tr tr' : Tr E), its.Plain →
      CurOk root.erase cur → Firsts root.erase cur.reverse.dropLast → Pick b root tr →
      flatItems env n root.erase its cur tr = .ok tr' → Pick b root tr'
  | .nil, root, cur, tr, tr', _, _, _, hp, h => by
    simp only [flatItems, Res.ok.injEq] at h
    rw [← h]; exact hp
  | .cons d i its, root, cur, tr, tr', hpl, hcur, hfc, hp, h => by
    simp only [Items.Plain] at hpl
    obtain ⟨rfl, hpi, hps⟩ := hpl
    simp only [flatItems] at h
    obtain ⟨⟨q, s⟩, hq, h⟩ := bind_ok h
    obtain ⟨x, hx, h2⟩ := bind_ok h
    obtain ⟨tr1, h1, h3⟩ := bind_ok h2
    have hstore := ofOption_ok h1
    simp only at hx hstore h3
    simp only [locate, if_true] at hq
    obtain ⟨hf, hat⟩ := find_first (erase_noPad root) hcur hq
    simp only at hf hat
    have hat' := hat
    rw [erase_at] at hat'
    obtain ⟨⟨o, c⟩, hsub, hs⟩ := Option.map_eq_some_iff.1 hat'
    simp only at hs
    subst hs
    have hfq := cand_firsts _ _ _ hfc hf.1
    have hxp := flat_pick hst n i c x hpi hx
    have hne := cand_ne hf.1
    refine items_pick hst n its root (succRev q) tr1 tr' hps (curOk_succ hne hat) ?_
      (store_pick q root c o tr tr1 x hstore hsub hfq hp hxp) h3
    rw [after_succRev hne, after, List.dropLast_concat]
    exact firsts_dropLast q _ hfq
end

/-! ### Property theorems -/

/-- **C54.** The bytes emitted for a static object whose flattened initialiser is `tr` are the image of
its value: every constant at the offset of its (sub-)object, everything else zero, as many bytes as
the object has.  (Partial: at most one member of each union has an initialiser, see
`union_two_members_wrong`; no bit-fields.) -/
theorem static_image_partial {b : Bytes E} (hb : b.Ok) {t : T} (hok : t.Ok) {tr : Tr E} (hs : Shape b t tr)
    {pc : Nat} (hpc : t.align ∣ pc) :
    ∃ es, emit b t tr = some es ∧ Image b t tr.read (place pc es) := by
  obtain ⟨es, h1, h2⟩ := emit_image hb _ t (le_refl _) hok tr hs
  exact ⟨es, h1, h2 pc hpc⟩

/-- **C54, from the source on.** An initialiser without designators that ISO 6.7.9 gives the value
`v` puts the image of `v` into the section. -/
theorem static_init_partial {env : Env E} (henv : env.Ok) {b : Bytes E} (hb : b.Ok) (hst : Static env b)
    {t : T} (hok : t.Ok) {i : Init E} (hi : i.Plain) {v : Val E} {c : Prop}
    (hv : Value env t.erase i v c) {pc : Nat} (hpc : t.align ∣ pc) :
    ∃ N, ∀ n ≥ N, ∃ tr es, flat env n t.erase i = .ok tr ∧ emit b t tr = some es ∧
      Image b t v (place pc es) := by
  obtain ⟨N, tr, h⟩ := (flat_correct_partial henv (erase_noPad t) (erase_wf hok) hi).1 v c hv
  refine ⟨N, fun n hn => ?_⟩
  obtain ⟨h1, h2⟩ := h n hn
  obtain ⟨es, h3, h4⟩ := static_image_partial hb hok (pick_shape _ t (le_refl _) tr (flat_pick hst n i t tr hi h1)) hpc
  exact ⟨tr, es, h1, h3, h2 ▸ h4⟩

/-- Two images of the same value are the same bytes, unless parts of the value overlap: the
specification leaves no byte open. -/
theorem image_unique {b : Bytes E} {t : T} {v : Val E} {bs cs : List UInt8} (h1 : Image b t v bs)
    (h2 : Image b t v cs) : bs = cs := by
  apply List.ext_getElem (by rw [h1.size, h2.size])
  intro x hx1 hx2
  have hg : bs.getD x 0 = cs.getD x 0 := by
    by_cases h : ∃ p e o c, v p = some e ∧ t.sub p = some (o, c) ∧ o ≤ x ∧ x < o + c.size
    · obtain ⟨p, e, o, c, hv, hs, ha, hb⟩ := h
      have e1 := h1.value p e o c hv hs (x - o) (by omega)
      have e2 := h2.value p e o c hv hs (x - o) (by omega)
      rw [show o + (x - o) = x by omega] at e1 e2
      rw [e1, e2]
    · have hno : ∀ p e o c, v p = some e → t.sub p = some (o, c) → ¬ (o ≤ x ∧ x < o + c.size) :=
        fun p e o c hv hs hx => h ⟨p, e, o, c, hv, hs, hx.1, hx.2⟩
      rw [h1.zero x hno, h2.zero x hno]
  rwa [List.getD_eq_getElem _ _ hx1, List.getD_eq_getElem _ _ hx2] at hg

/-! ### Concrete cases -/

/-- Numbers, little endian; 200 is the string literal "hi". -/
def b0 : Bytes Nat where
  num e s := (List.range s).map fun k => UInt8.ofNat (e / 256 ^ k)
  lit e := if e = 200 then some [104, 105, 0] else none

theorem b0_ok : b0.Ok := fun e s => by simp [b0]

/-- String literals initialise arrays. -/
def env1 : Env Nat where
  agg e := e == 200
  whole e t :=
    match t with
    | .arr _ .scalar => e == 200
    | _ => false
  str e t :=
    match t with
    | .arr _ .scalar => e == 200
    | _ => false
  zero := 0

theorem env1_ok : env1.Ok where
  whole e t h := by
    simp only [env1] at h ⊢
    split at h
    · exact h
    · simp at h
  str e t h := by
    simp only [env1] at h ⊢
    split at h
    · exact h
    · simp at h

theorem env1_static : Static env1 b0 := by
  intro e t _ h
  have h2 : (match t.erase with | .arr _ .scalar => e == 200 | _ => false) = true := h.elim id id
  split at h2
  · rename_i he
    have h3 := eq_of_beq h2
    cases t with
    | arr n c => exact ⟨n, c, rfl, by simp [b0, h3]⟩
    | _ => simp [T.erase] at he
  · simp at h2

/-- `struct { char c; int x[2]; char s[4]; union { short h; long l; } u; char z; }` -/
def tEx : T := .str [.num 1, .arr 2 (.num 4), .arr 4 (.num 1), .uni [.num 2, .num 8], .num 1]

theorem tEx_ok : tEx.Ok := by
  refine .str fun m hm => ?_
  simp only [List.mem_cons, List.not_mem_nil, or_false] at hm
  rcases hm with rfl | rfl | rfl | rfl | rfl
  · exact .num (by simp)
  · exact .arr (.num (by simp))
  · exact .arr (.num (by simp))
  · refine .uni (by simp) fun m hm => ?_
    simp only [List.mem_cons, List.not_mem_nil, or_false] at hm
    rcases hm with rfl | rfl <;> exact .num (by simp)
  · exact .num (by simp)

/-- What is emitted at location 0. -/
def bytesOf (t : T) (i : Init Nat) : Option (List UInt8) :=
  match flat env1 20 t.erase i with
  | .ok tr => (emit b0 t tr).map (place 0)
  | _ => none

/-- `{ 1, { 2 }, "hi", 300, 9 }`. -/
def iEx : Init Nat :=
  .multi (.cons [] (.single 1) (.cons [] (.multi (.ofList [2])) (.cons [] (.single 200)
    (.cons [] (.single 300) (.cons [] (.single 9) .nil)))))

example : tEx.size = 32 ∧ tEx.align = 8 := by decide +kernel

example : bytesOf tEx iEx = some [1, 0, 0, 0, 2, 0, 0, 0, 0, 0, 0, 0, 104, 105, 0, 0,
    44, 1, 0, 0, 0, 0, 0, 0, 9, 0, 0, 0, 0, 0, 0, 0] := by decide +kernel

/-- The hypotheses of both theorems can be met: ISO gives `iEx` a value. -/
example : ∃ v c, Value env1 tEx.erase iEx v c := by
  have h : ∃ tr, flat env1 20 tEx.erase iEx = .ok tr := by
    have hb : (bytesOf tEx iEx).isSome = true := by decide +kernel
    unfold bytesOf at hb
    split at hb
    · rename_i tr h; exact ⟨tr, h⟩
    · simp at hb
  obtain ⟨tr, h⟩ := h
  obtain ⟨v, c, hv, -⟩ := flat_sound env1_ok.whole 20 _ _ tr (erase_noPad tEx) h
  exact ⟨v, c, hv⟩

example : iEx.Plain := by simp [iEx, Init.Plain, Items.Plain, Items.ofList]

/-! ### Findings -/

/-- `struct { union { int a, b; } u; int c; }` -/
def tTwo : T := .str [.uni [.num 4, .num 4], .num 4]

/-- `{ .u.a = 1, .u.b = 2, .c = 3 }` -/
def iTwo : Init Nat :=
  .multi (.cons [0, 0] (.single 1) (.cons [0, 1] (.single 2) (.cons [1] (.single 3) .nil)))

/-- **Finding.** The later designator must win (6.7.9p19), but both members of the union are emitted:
there are 12 bytes for an object of 8, `u.b` is 1 and `c` is 2. -/
theorem union_two_members_wrong :
    bytesOf tTwo iTwo = some [1, 0, 0, 0, 2, 0, 0, 0, 3, 0, 0, 0] ∧ tTwo.size = 8 ∧
    tTwo.sub [1] = some (4, .num 4) := by
  refine ⟨by decide +kernel, by decide +kernel, ?_⟩
  have h : alignUp (strEnd 0 [T.uni [.num 4, .num 4]]) (T.num 4).align = 4 := by decide +kernel
  simp [T.sub, T.member, tTwo, h]

end Verif.StaticInit

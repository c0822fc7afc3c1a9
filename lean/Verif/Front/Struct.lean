import Verif.Util.Align
import Mathlib.Data.List.Forall2
/-!
# Layout of structures and unions, bit-fields included (C25, and the layout half of C26)

Model of `calc_struct_size`, `calc_bitfield_size`, `type_size` and `align_size`
(src/cc/frontend/type.c:55-242).  A member is seen through the four facts these functions use: the
size and alignment of its type, its fixnum kind and its bit-field width.  `L` is the size of `long`: 8
for the native targets (type.c:47), 4 for wasm (src/wcc/wcc.c:110-115).

Simplification: sizes are unbounded naturals (`size_t` is 64 bits), so a structure larger than the
address space is not modelled, and `ALIGN` is `alignUp`, which it equals for powers of two
(`Verif.Align.alignMacro_eq`).
-/
namespace Verif.Struct
open Verif.Align

/-! ## Model -/

/-- type.c:47-48 `fixnum_size_table` / `fixnum_align_table` (equal), indexed by `FixnumKind`
(type.h:17-25: char, short, int, long, llong, enum, bool). -/
def fxSize (L k : Nat) : Nat :=
  match k with
  | 0 => 1
  | 1 => 2
  | 2 => 4
  | 3 => L
  | 4 => 8
  | _ => 4

/-- type.h:56-66 `MemberInfo`, as far as the layout looks at it.  `kind` is `type->fixnum.kind` and is
only meaningful for bit-fields. -/
structure Mem where
  size : Nat
  align : Nat
  kind : Nat := 0
  active : Bool := false
  width : Nat := 0
deriving DecidableEq, Repr

/-- The fields of `MemberInfo` the layout computes: `offset`, `bitfield.position`, `bitfield.base_kind`.
They are zeroed by the parser (parser_type.c:150). -/
structure Placed where
  offset : Nat
  position : Nat
  base : Nat
deriving DecidableEq, Repr

/-- type.c:71-73: the least significant set bit of `remain`. -/
def lsb : Nat → Nat → Nat → Nat
  | 0, _, s => s
  | f + 1, r, s => if r &&& s ≠ 0 then s else lsb f r (2 * s)

/-- type.c:56-88: the kind of the storage unit a run of bit-fields starts with.  `none` is the failed
assertion of `get_fixnum_type` (type.c:262) for a `_Bool` bit-field. -/
def startKind (L size : Nat) (m : Mem) : Option Nat :=
  if size % m.align = 0 then
    if m.kind = 5 then some 2 else if m.kind ≤ 4 then some m.kind else none
  else
    let s := lsb 64 (size % m.align) 1
    if s < 4 then some (if fxSize L 2 ≤ s then 2 else if fxSize L 1 ≤ s then 1 else 0)
    else some (if s ≤ fxSize L 2 then 2 else if s ≤ fxSize L 3 then 3 else 4)

/-- type.c:99-113: the kind of the unit once a field ending at bit `need` is added: the current kind if it
fits, else the first larger kind it fits in. -/
def widen (L kind need : Nat) : Option Nat :=
  if need ≤ 8 * fxSize L kind then some kind
  else ((List.range 5).filter (fun k => kind < k)).find? (fun k => need ≤ 8 * fxSize L k)

/-- type.c:90-117: the bit positions given to a run of bit-fields, the final kind of the unit, and the
members left over. -/
def run (L : Nat) : Nat → Nat → List Mem → List Nat × Nat × List Mem
  | kind, _, [] => ([], kind, [])
  | kind, pos, m :: ms =>
    if pos = 8 * fxSize L kind then ([], kind, m :: ms)
    else if m.width = 0 then ([], kind, m :: ms)
    else match widen L kind (pos + m.width) with
      | none => ([], kind, m :: ms)
      | some k => (pos :: (run L k (pos + m.width) ms).1, (run L k (pos + m.width) ms).2)

/-- type.c:149-181 (structures): the loop over the members, with the size and alignment so far.  The
fuel is the number of members; it is never exhausted (`calcStruct_total`). -/
def lay (L : Nat) : Nat → Nat → Nat → List Mem → Option (List Placed × Nat × Nat)
  | _, size, ma, [] => some ([], size, ma)
  | 0, _, _, _ :: _ => none
  | f + 1, size, ma, m :: ms =>
    if m.active then
      if m.width = 0 then
        match lay L f size ma ms with
        | none => none
        | some (ps, s, a) => some (⟨0, 0, 0⟩ :: ps, s, a)
      else
        match startKind L size m with
        | none => none
        | some k =>
          let (pos, kind, rest) := run L k 0 (m :: ms)
          let off := alignUp size (fxSize L kind)
          match lay L f (off + fxSize L kind) (max ma (fxSize L kind)) rest with
          | none => none
          | some (ps, s, a) => some (pos.map (fun p => ⟨off, p, kind⟩) ++ ps, s, a)
    else
      let off := alignUp size m.align
      match lay L f (off + m.size) (max ma m.align) ms with
      | none => none
      | some (ps, s, a) => some (⟨off, 0, 0⟩ :: ps, s, a)

/-- type.c:164-176 (unions): every member at offset 0; a bit-field takes the unit of its declared type and
does not take part in the alignment. -/
def layU (L : Nat) : Nat → Nat → List Mem → List Placed × Nat × Nat
  | size, ma, [] => ([], size, ma)
  | size, ma, m :: ms =>
    let r := layU L (max size m.size) (if 0 < m.width then ma else max ma m.align) ms
    ((if 0 < m.width then ⟨0, 0, m.kind⟩ else ⟨0, 0, 0⟩) :: r.1, r.2)

/-- The outcome of `calc_struct_size`: the members, `sinfo->size` and `sinfo->align`. -/
structure Layout where
  placed : List Placed
  size : Nat
  align : Nat
deriving DecidableEq, Repr

/-- type.c:140-185 `calc_struct_size`. -/
def calcStruct (L : Nat) (isUnion : Bool) (ms : List Mem) : Option Layout :=
  if isUnion then
    let (ps, s, a) := layU L 0 1 ms
    some ⟨ps, alignUp s a, a⟩
  else
    match lay L ms.length 0 1 ms with
    | none => none
    | some (ps, s, a) => some ⟨ps, alignUp s a, a⟩

/-! ## Specification -/

/-- Alignments are 1, 2, 4 or 8. -/
def Al (a : Nat) : Prop := a = 1 ∨ a = 2 ∨ a = 4 ∨ a = 8

/-- What the parser guarantees about a member (parser_type.c:92-110): a bit-field is of integer type and no
wider than it; every other member has width 0. -/
structure Mem.Ok (L : Nat) (m : Mem) : Prop where
  al : Al m.align
  mult : m.align ∣ m.size
  plain : m.active = false → m.width = 0
  bits : m.active = true → m.kind ≤ 6 ∧ m.size = fxSize L m.kind ∧ m.align = fxSize L m.kind ∧ m.width ≤ 8 * m.size

/-- The end of the storage a placed member is accessed through: its own bytes, or the unit of a
bit-field. -/
def stop (L : Nat) (x : Mem × Placed) : Nat :=
  x.2.offset + if x.1.active then fxSize L x.2.base else x.1.size

/-- A zero-width bit-field occupies nothing. -/
def Void (x : Mem × Placed) : Prop := x.1.active = true ∧ x.1.width = 0

/-- `x` lies before `y`: in earlier bytes, or in earlier bits of the same storage unit. -/
def Before (L : Nat) (x y : Mem × Placed) : Prop :=
  Void x ∨ Void y ∨ stop L x ≤ y.2.offset ∨
    (x.1.active = true ∧ y.1.active = true ∧ x.2.offset = y.2.offset ∧ x.2.base = y.2.base ∧
      x.2.position + x.1.width ≤ y.2.position)

/-- A member is well placed in a structure of the given size. -/
def Inside (L size : Nat) (x : Mem × Placed) : Prop :=
  Void x ∨ (stop L x ≤ size ∧
    (x.1.active = false → x.1.align ∣ x.2.offset) ∧
    (x.1.active = true → x.2.base ≤ 4 ∧ fxSize L x.2.base ∣ x.2.offset ∧
      x.2.position + x.1.width ≤ 8 * fxSize L x.2.base))

/-- Offsets for plain members: aligned, in order, starting at `from`. -/
def Offsets : Nat → List Mem → List Nat → Nat → Prop
  | start, [], [], stop => start ≤ stop
  | start, m :: ms, o :: os, stop => start ≤ o ∧ m.align ∣ o ∧ Offsets (o + m.size) ms os stop
  | _, _, _, _ => False

/-! ## Lemmas -/

theorem fxAl {L k : Nat} (hL : L = 4 ∨ L = 8) : Al (fxSize L k) := by
  unfold fxSize Al
  split <;> omega

theorem Al.pos {a : Nat} (h : Al a) : 0 < a := by
  unfold Al at h; omega

theorem Al.dvd {a b : Nat} (ha : Al a) (hb : Al b) (h : a ≤ b) : a ∣ b := by
  unfold Al at *
  rcases ha with rfl | rfl | rfl | rfl <;> rcases hb with rfl | rfl | rfl | rfl <;> omega

theorem Al.max {a b : Nat} (ha : Al a) (hb : Al b) : Al (max a b) := by
  unfold Al at *; omega

theorem fx_mono {L a b : Nat} (hL : L = 4 ∨ L = 8) (h : a ≤ b) (hb : b ≤ 4) : fxSize L a ≤ fxSize L b := by
  have h1 : a = 0 ∨ a = 1 ∨ a = 2 ∨ a = 3 ∨ a = 4 := by omega
  have h2 : b = 0 ∨ b = 1 ∨ b = 2 ∨ b = 3 ∨ b = 4 := by omega
  rcases h1 with rfl | rfl | rfl | rfl | rfl <;> rcases h2 with rfl | rfl | rfl | rfl | rfl <;>
    simp only [fxSize] <;> omega

theorem widen_spec {L kind need k : Nat} (hk : kind ≤ 4) (h : widen L kind need = some k) :
    kind ≤ k ∧ k ≤ 4 ∧ need ≤ 8 * fxSize L k := by
  unfold widen at h
  split at h
  · cases h; omega
  · have h1 := List.mem_of_find?_eq_some h
    have h2 := List.find?_some h
    simp only [List.mem_filter, List.mem_range, decide_eq_true_eq] at h1 h2
    omega

theorem widen_min {L kind need k : Nat} (h : widen L kind need = some k) :
    k = kind ∨ ∀ j, kind ≤ j → j < k → 8 * fxSize L j < need := by
  unfold widen at h
  split at h
  · cases h; exact Or.inl rfl
  · rename_i hn
    right
    intro j h1 h2
    rcases Nat.eq_or_lt_of_le h1 with rfl | h1
    · omega
    rw [List.find?_eq_some_iff_append] at h
    obtain ⟨hp, as, bs, he, hb⟩ := h
    have hs : List.Pairwise (· < ·) ((List.range 5).filter (fun k => decide (kind < k))) :=
      List.Pairwise.filter _ List.pairwise_lt_range
    have hk5 : k < 5 := by
      have : k ∈ (List.range 5).filter (fun k => decide (kind < k)) := by rw [he]; simp
      simp only [List.mem_filter, List.mem_range] at this
      omega
    have hj : j ∈ (List.range 5).filter (fun k => decide (kind < k)) := by
      simp only [List.mem_filter, List.mem_range, decide_eq_true_eq]; omega
    rw [he] at hj hs
    rw [List.mem_append, List.mem_cons] at hj
    rcases hj with hj | hj | hj
    · have := hb j hj
      simp only [Bool.not_eq_true', decide_eq_false_iff_not] at this
      omega
    · omega
    · have := (List.pairwise_append.1 hs).2.1
      have := (List.pairwise_cons.1 this).1 j hj
      omega

theorem widen_total {L kind need : Nat} (hk : kind ≤ 4) (h : need ≤ 64) : ∃ k, widen L kind need = some k := by
  unfold widen
  split
  · exact ⟨_, rfl⟩
  · rename_i hn
    have hk4 : kind ≠ 4 := by
      intro e; subst e; simp only [fxSize] at hn; omega
    have : ((List.range 5).filter (fun k => decide (kind < k))).find? (fun k => decide (need ≤ 8 * fxSize L k)) ≠ none := by
      rw [Ne, List.find?_eq_none]
      intro hc
      have := hc 4 (by simp only [List.mem_filter, List.mem_range, decide_eq_true_eq]; omega)
      simp only [fxSize, decide_eq_true_eq] at this
      omega
    exact Option.ne_none_iff_exists'.1 this

/-- What a run of bit-fields looks like. -/
theorem run_spec {L : Nat} (hL : L = 4 ∨ L = 8) (ms : List Mem) : ∀ (kind pos : Nat), kind ≤ 4 → pos ≤ 8 * fxSize L kind →
    ∃ pre, ms = pre ++ (run L kind pos ms).2.2 ∧ pre.length = (run L kind pos ms).1.length ∧
      kind ≤ (run L kind pos ms).2.1 ∧ (run L kind pos ms).2.1 ≤ 4 ∧
      (∀ x ∈ pre.zip (run L kind pos ms).1, 0 < x.1.width ∧ pos ≤ x.2 ∧ x.2 + x.1.width ≤ 8 * fxSize L (run L kind pos ms).2.1) ∧
      (pre.zip (run L kind pos ms).1).Pairwise (fun x y => x.2 + x.1.width ≤ y.2) ∧
      ((run L kind pos ms).2.1 = kind ∨
        ∀ j, kind ≤ j → j < (run L kind pos ms).2.1 → 8 * fxSize L j < pos + (pre.map (·.width)).sum) := by
  induction ms with
  | nil =>
    intro kind pos hk hp
    exact ⟨[], rfl, rfl, Nat.le_refl _, hk, (by simp), (by simp), Or.inl rfl⟩
  | cons m ms ih =>
    intro kind pos hk hp
    have stopped : ∃ pre, m :: ms = pre ++ (m :: ms) ∧ pre.length = ([] : List Nat).length ∧
      kind ≤ kind ∧ kind ≤ 4 ∧
      (∀ x ∈ pre.zip ([] : List Nat), 0 < x.1.width ∧ pos ≤ x.2 ∧ x.2 + x.1.width ≤ 8 * fxSize L kind) ∧
      (pre.zip ([] : List Nat)).Pairwise (fun x y => x.2 + x.1.width ≤ y.2) ∧
      (kind = kind ∨ ∀ j, kind ≤ j → j < kind → 8 * fxSize L j < pos + (pre.map (·.width)).sum) :=
      ⟨[], rfl, rfl, Nat.le_refl _, hk, (by simp), (by simp), Or.inl rfl⟩
    unfold run
    by_cases h1 : pos = 8 * fxSize L kind
    · rw [if_pos h1]; exact stopped
    rw [if_neg h1]
    by_cases h2 : m.width = 0
    · rw [if_pos h2]; exact stopped
    rw [if_neg h2]
    cases hw : widen L kind (pos + m.width) with
    | none => exact stopped
    | some k =>
      obtain ⟨w1, w2, w3⟩ := widen_spec hk hw
      obtain ⟨pre, e1, e2, e3, e4, e5, e6, e7⟩ := ih k (pos + m.width) w2 w3
      simp only
      generalize run L k (pos + m.width) ms = r at *
      refine ⟨m :: pre, ?_, ?_, by omega, e4, ?_, ?_, ?_⟩
      · rw [List.cons_append, ← e1]
      · simp [e2]
      · intro x hx
        rw [List.zip_cons_cons, List.mem_cons] at hx
        rcases hx with rfl | hx
        · have := fx_mono hL e3 e4
          refine ⟨by simp only; omega, Nat.le_refl _, by simp only; omega⟩
        · have := e5 x hx
          omega
      · rw [List.zip_cons_cons, List.pairwise_cons]
        refine ⟨?_, e6⟩
        intro x hx
        exact (e5 x hx).2.1
      · simp only [List.map_cons, List.sum_cons]
        rcases e7 with e7 | e7
        · rcases widen_min hw with h | h
          · left; omega
          · right
            intro j j1 j2
            have := h j j1 (by omega)
            omega
        · right
          intro j j1 j2
          by_cases hj : k ≤ j
          · have := e7 j hj j2
            omega
          · rcases widen_min hw with h | h
            · omega
            · have := h j j1 (by omega)
              omega

theorem lsb_small (r : Nat) (h0 : 0 < r) (h8 : r < 8) :
    (lsb 64 r 1 = 1) ∨ (lsb 64 r 1 = 2 ∧ r % 2 = 0) ∨ (lsb 64 r 1 = 4 ∧ r = 4) := by
  have h : r = 1 ∨ r = 2 ∨ r = 3 ∨ r = 4 ∨ r = 5 ∨ r = 6 ∨ r = 7 := by omega
  rcases h with rfl | rfl | rfl | rfl | rfl | rfl | rfl <;> decide

theorem startKind_spec {L size k : Nat} {m : Mem} (hL : L = 4 ∨ L = 8) (hm : m.Ok L) (ha : m.active = true)
    (h : startKind L size m = some k) : k ≤ 4 ∧ fxSize L k ∣ size := by
  obtain ⟨hk6, hsz, hal, hw⟩ := hm.bits ha
  have hmal := hm.al
  unfold startKind at h
  split at h
  · rename_i h0
    have hd := Nat.dvd_of_mod_eq_zero h0
    rw [hal] at hd
    split at h
    · rename_i h5
      cases h
      rw [h5] at hd
      exact ⟨by omega, hd⟩
    · split at h
      · cases h
        exact ⟨by omega, hd⟩
      · cases h
  · rename_i h0
    have hlt : size % m.align < m.align := Nat.mod_lt _ hmal.pos
    have h8 : m.align ≤ 8 := by unfold Al at hmal; omega
    have hl := lsb_small (size % m.align) (by omega) (by omega)
    simp only at h
    have hsize : size % m.align = size % m.align := rfl
    rcases hl with hl | ⟨hl, hr⟩ | ⟨hl, hr⟩
    · rw [hl] at h
      simp [fxSize] at h
      subst h
      exact ⟨by omega, Nat.one_dvd _⟩
    · rw [hl] at h
      simp [fxSize] at h
      subst h
      refine ⟨by omega, ?_⟩
      simp only [fxSize]
      unfold Al at hmal
      rcases hmal with e | e | e | e <;> rw [e] at h0 hr <;> omega
    · rw [hl] at h
      simp [fxSize] at h
      subst h
      refine ⟨by omega, ?_⟩
      simp only [fxSize]
      unfold Al at hmal
      rcases hmal with e | e | e | e <;> rw [e] at h0 hr <;> omega

/-- A run that starts a unit takes at least its first bit-field. -/
theorem run_ne {L k : Nat} {m : Mem} {ms : List Mem} (hL : L = 4 ∨ L = 8) (hk : k ≤ 4) (hw : 0 < m.width) (hw2 : m.width ≤ 64) :
    (run L k 0 (m :: ms)).2.2.length ≤ ms.length := by
  have hp := (fxAl (k := k) hL).pos
  obtain ⟨k', hk'⟩ := widen_total (L := L) (need := 0 + m.width) hk (by omega)
  obtain ⟨_, w2, w3⟩ := widen_spec hk hk'
  unfold run
  rw [if_neg (by omega), if_neg (by omega), hk']
  obtain ⟨pre, e1, _⟩ := run_spec hL ms k' (0 + m.width) w2 w3
  have := congrArg List.length e1
  rw [List.length_append] at this
  simp only
  omega

/-- Everything the layout loop promises, for the members it is given. -/
theorem lay_spec {L : Nat} (hL : L = 4 ∨ L = 8) : ∀ (f : Nat) (ms : List Mem) (size ma : Nat) (ps : List Placed) (s a : Nat),
    (∀ m ∈ ms, m.Ok L) → Al ma → lay L f size ma ms = some (ps, s, a) →
    ps.length = ms.length ∧ size ≤ s ∧ ma ≤ a ∧ Al a ∧
      (∀ x ∈ ms.zip ps, Inside L s x ∧ (Void x ∨ (size ≤ x.2.offset ∧ (x.1.active = false → x.1.align ≤ a) ∧
        (x.1.active = true → fxSize L x.2.base ≤ a)))) ∧
      (ms.zip ps).Pairwise (Before L) := by
  intro f
  induction f with
  | zero =>
    intro ms size ma ps s a hok hma h
    cases ms with
    | nil => simp only [lay] at h; cases h; simp [hma]
    | cons m ms => simp [lay] at h
  | succ f ih =>
    intro ms size ma ps s a hok hma h
    cases ms with
    | nil => simp only [lay] at h; cases h; simp [hma]
    | cons m ms =>
      have hm : m.Ok L := hok m List.mem_cons_self
      simp only [lay] at h
      by_cases hact : m.active = true
      · rw [if_pos hact] at h
        by_cases hw : m.width = 0
        · rw [if_pos hw] at h
          cases hl : lay L f size ma ms with
          | none => rw [hl] at h; cases h
          | some t =>
            obtain ⟨qs, s1, a1⟩ := t
            rw [hl] at h
            cases h
            obtain ⟨i1, i2, i3, i4, i5, i6⟩ := ih ms size ma qs s a (fun x hx => hok x (List.mem_cons_of_mem _ hx)) hma hl
            have hv : Void (m, (⟨0, 0, 0⟩ : Placed)) := ⟨hact, hw⟩
            refine ⟨by simp [i1], i2, i3, i4, ?_, ?_⟩
            · intro x hx
              rw [List.zip_cons_cons, List.mem_cons] at hx
              rcases hx with rfl | hx
              · exact ⟨Or.inl hv, Or.inl hv⟩
              · exact i5 x hx
            · rw [List.zip_cons_cons, List.pairwise_cons]
              exact ⟨fun y _ => Or.inl hv, i6⟩
        · rw [if_neg hw] at h
          cases hs : startKind L size m with
          | none => rw [hs] at h; cases h
          | some k =>
            rw [hs] at h
            simp only at h
            obtain ⟨hk4, hkd⟩ := startKind_spec hL hm hact hs
            obtain ⟨pre, e1, e2, e3, e4, e5, e6, e7⟩ := run_spec hL (m :: ms) k 0 hk4 (Nat.zero_le _)
            generalize run L k 0 (m :: ms) = r at *
            obtain ⟨pos, kind, rest⟩ := r
            simp only at *
            have hal : Al (fxSize L kind) := fxAl hL
            have hle := le_alignUp size (fxSize L kind) hal.pos
            have hdv := dvd_alignUp size (fxSize L kind)
            generalize alignUp size (fxSize L kind) = off at *
            cases hl : lay L f (off + fxSize L kind) (max ma (fxSize L kind)) rest with
            | none => rw [hl] at h; cases h
            | some t =>
              obtain ⟨qs, s1, a1⟩ := t
              rw [hl] at h
              cases h
              have hokr : ∀ x ∈ rest, x.Ok L := fun x hx => hok x (by rw [e1]; exact List.mem_append_right _ hx)
              obtain ⟨i1, i2, i3, i4, i5, i6⟩ := ih rest _ _ qs s a hokr (hma.max hal) hl
              rw [e1]
              have hz : (pre ++ rest).zip (pos.map (fun p => (⟨off, p, kind⟩ : Placed)) ++ qs) =
                  (pre.zip pos).map (fun x => (x.1, (⟨off, x.2, kind⟩ : Placed))) ++ rest.zip qs := by
                rw [List.zip_append (by simp [e2]), List.zip_map_right]
                rfl
              have hact' : ∀ x ∈ pre.zip pos, x.1.active = true := by
                intro x hx
                have hxm : x.1 ∈ pre := (List.of_mem_zip hx).1
                have hxo := (hok x.1 (by rw [e1]; exact List.mem_append_left _ hxm)).plain
                have := (e5 x hx).1
                cases hb : x.1.active with
                | false => have := hxo hb; omega
                | true => rfl
              refine ⟨by simp [i1, ← e2], by omega, by omega, i4, ?_, ?_⟩
              · rw [hz]
                intro x hx
                rw [List.mem_append, List.mem_map] at hx
                rcases hx with ⟨y, hy, rfl⟩ | hx
                · obtain ⟨y1, y2, y3⟩ := e5 y hy
                  have ha := hact' y hy
                  refine ⟨Or.inr ⟨?_, ?_, ?_⟩, Or.inr ⟨by simp only; omega, ?_, ?_⟩⟩
                  · simp only [stop, ha, if_true]; omega
                  · simp only; intro hf; rw [ha] at hf; cases hf
                  · simp only; intro _; exact ⟨e4, hdv, y3⟩
                  · simp only; intro hf; rw [ha] at hf; cases hf
                  · simp only; intro _; omega
                · obtain ⟨j1, j2⟩ := i5 x hx
                  refine ⟨j1, ?_⟩
                  rcases j2 with j2 | ⟨j2, j3, j4⟩
                  · exact Or.inl j2
                  · exact Or.inr ⟨by omega, j3, j4⟩
              · rw [hz, List.pairwise_append, List.pairwise_map]
                refine ⟨?_, i6, ?_⟩
                · refine List.Pairwise.imp_of_mem ?_ e6
                  intro x y hx hy hxy
                  exact Or.inr (Or.inr (Or.inr ⟨hact' x hx, hact' y hy, rfl, rfl, hxy⟩))
                · intro x hx y hy
                  rw [List.mem_map] at hx
                  obtain ⟨z, hz1, rfl⟩ := hx
                  rcases (i5 y hy).2 with hv | ⟨j2, _⟩
                  · exact Or.inr (Or.inl hv)
                  · refine Or.inr (Or.inr (Or.inl ?_))
                    simp only [stop, hact' z hz1, if_true]
                    exact j2
      · have hact' : m.active = false := by simpa using hact
        rw [if_neg hact] at h
        have hal := hm.al
        have hle := le_alignUp size m.align hal.pos
        have hdv := dvd_alignUp size m.align
        generalize alignUp size m.align = off at *
        cases hl : lay L f (off + m.size) (max ma m.align) ms with
        | none => rw [hl] at h; cases h
        | some t =>
          obtain ⟨qs, s1, a1⟩ := t
          rw [hl] at h
          cases h
          obtain ⟨i1, i2, i3, i4, i5, i6⟩ := ih ms _ _ qs s a (fun x hx => hok x (List.mem_cons_of_mem _ hx)) (hma.max hal) hl
          have hst : stop L (m, (⟨off, 0, 0⟩ : Placed)) = off + m.size := by simp [stop, hact']
          refine ⟨by simp [i1], by omega, by omega, i4, ?_, ?_⟩
          · intro x hx
            rw [List.zip_cons_cons, List.mem_cons] at hx
            rcases hx with rfl | hx
            · refine ⟨Or.inr ⟨by rw [hst]; omega, fun _ => hdv, ?_⟩, Or.inr ⟨hle, fun _ => by simp only; omega, ?_⟩⟩
              · intro hf; exact absurd hf hact
              · intro hf; exact absurd hf hact
            · obtain ⟨j1, j2⟩ := i5 x hx
              refine ⟨j1, ?_⟩
              rcases j2 with j2 | ⟨j2, j3, j4⟩
              · exact Or.inl j2
              · exact Or.inr ⟨by omega, j3, j4⟩
          · rw [List.zip_cons_cons, List.pairwise_cons]
            refine ⟨?_, i6⟩
            intro y hy
            rcases (i5 y hy).2 with hv | ⟨j2, _⟩
            · exact Or.inr (Or.inl hv)
            · exact Or.inr (Or.inr (Or.inl (by rw [hst]; exact j2)))

theorem lay_total {L : Nat} (hL : L = 4 ∨ L = 8) : ∀ (f : Nat) (ms : List Mem) (size ma : Nat), ms.length ≤ f →
    (∀ m ∈ ms, m.Ok L ∧ m.kind ≠ 6) → ∃ r, lay L f size ma ms = some r := by
  intro f
  induction f with
  | zero =>
    intro ms size ma hl _
    cases ms with
    | nil => exact ⟨_, rfl⟩
    | cons m ms => simp at hl
  | succ f ih =>
    intro ms size ma hl hok
    cases ms with
    | nil => exact ⟨_, rfl⟩
    | cons m ms =>
      rw [List.length_cons] at hl
      have hm := (hok m List.mem_cons_self).1
      have hm6 := (hok m List.mem_cons_self).2
      have hr : ∀ x ∈ ms, x.Ok L ∧ x.kind ≠ 6 := fun x hx => hok x (List.mem_cons_of_mem _ hx)
      simp only [lay]
      by_cases hact : m.active = true
      · rw [if_pos hact]
        obtain ⟨hk6, hsz, hal, hwd⟩ := hm.bits hact
        by_cases hw : m.width = 0
        · rw [if_pos hw]
          obtain ⟨r, e⟩ := ih ms size ma (by omega) hr
          rw [e]
          exact ⟨_, rfl⟩
        · rw [if_neg hw]
          have hs : ∃ k, startKind L size m = some k := by
            unfold startKind
            split
            · split
              · exact ⟨_, rfl⟩
              · rw [if_pos (by omega)]; exact ⟨_, rfl⟩
            · simp only
              split <;> exact ⟨_, rfl⟩
          obtain ⟨k, hs⟩ := hs
          rw [hs]
          obtain ⟨hk4, _⟩ := startKind_spec hL hm hact hs
          have h8 : fxSize L m.kind ≤ 8 := by
            have := fxAl (k := m.kind) hL
            unfold Al at this; omega
          have hne := run_ne (ms := ms) hL hk4 (by omega : 0 < m.width) (by omega)
          obtain ⟨pre, e1, _⟩ := run_spec hL (m :: ms) k 0 hk4 (Nat.zero_le _)
          simp only
          generalize run L k 0 (m :: ms) = r at *
          obtain ⟨pos, kind, rest⟩ := r
          simp only at *
          obtain ⟨r, e⟩ := ih rest (alignUp size (fxSize L kind) + fxSize L kind) (max ma (fxSize L kind)) (by omega)
            (fun x hx => hok x (by rw [e1]; exact List.mem_append_right _ hx))
          rw [e]
          exact ⟨_, rfl⟩
      · rw [if_neg hact]
        obtain ⟨r, e⟩ := ih ms (alignUp size m.align + m.size) (max ma m.align) (by omega) hr
        simp only [e]
        exact ⟨_, rfl⟩

/-! ## Theorems -/

/-- **C25.** The layout of a structure: members are placed in declaration order without overlap (bit-fields
may share a storage unit, in disjoint bits), aligned, inside the structure; the structure's alignment is a
multiple of the alignment of everything in it and its size a multiple of its alignment. -/
theorem struct_sound {L : Nat} (hL : L = 4 ∨ L = 8) (ms : List Mem) (r : Layout) (hok : ∀ m ∈ ms, m.Ok L)
    (h : calcStruct L false ms = some r) :
    r.placed.length = ms.length ∧
    (ms.zip r.placed).Pairwise (Before L) ∧
    (∀ x ∈ ms.zip r.placed, Inside L r.size x ∧
      (¬ Void x → (if x.1.active then fxSize L x.2.base else x.1.align) ∣ r.align)) ∧
    Al r.align ∧ r.align ∣ r.size := by
  unfold calcStruct at h
  simp only [Bool.false_eq_true, if_false] at h
  cases hl : lay L ms.length 0 1 ms with
  | none => rw [hl] at h; cases h
  | some t =>
    obtain ⟨ps, s, a⟩ := t
    rw [hl] at h
    cases h
    obtain ⟨i1, i2, i3, i4, i5, i6⟩ := lay_spec hL _ ms 0 1 ps s a hok (Or.inl rfl) hl
    have hle := le_alignUp s a i4.pos
    refine ⟨i1, i6, ?_, i4, dvd_alignUp s a⟩
    intro x hx
    obtain ⟨j1, j2⟩ := i5 x hx
    have hxm := hok x.1 (List.of_mem_zip hx).1
    constructor
    · rcases j1 with j | ⟨j, j3, j4⟩
      · exact Or.inl j
      · exact Or.inr ⟨by simp only; omega, j3, j4⟩
    · intro hv
      rcases j2 with j2 | ⟨_, j3, j4⟩
      · exact absurd j2 hv
      · cases hb : x.1.active with
        | true => simp only [if_true]; exact (fxAl hL).dvd i4 (j4 hb)
        | false => simp only [Bool.false_eq_true, if_false]; exact hxm.al.dvd i4 (j3 hb)

/-- **C25.** The layout is always computed, unless a `_Bool` bit-field is present. -/
theorem calcStruct_total {L : Nat} (hL : L = 4 ∨ L = 8) (isUnion : Bool) (ms : List Mem) (hok : ∀ m ∈ ms, m.Ok L ∧ m.kind ≠ 6) :
    ∃ r, calcStruct L isUnion ms = some r := by
  unfold calcStruct
  cases isUnion with
  | true => exact ⟨_, rfl⟩
  | false =>
    obtain ⟨r, e⟩ := lay_total hL ms.length ms 0 1 (Nat.le_refl _) hok
    simp only [Bool.false_eq_true, if_false, e]
    exact ⟨_, rfl⟩

theorem lay_plain {L : Nat} : ∀ (f : Nat) (ms : List Mem) (size ma : Nat) (ps : List Placed) (s a : Nat),
    (∀ m ∈ ms, m.active = false ∧ Al m.align) → lay L f size ma ms = some (ps, s, a) →
    Offsets size ms (ps.map (·.offset)) s ∧
    (∀ os e from', from' ≥ size → Offsets from' ms os e → s ≤ e ∧ List.Forall₂ (fun p o => p.offset ≤ o) ps os) ∧
    a = ms.foldl (fun a m => max a m.align) ma := by
  intro f
  induction f with
  | zero =>
    intro ms size ma ps s a hok h
    cases ms with
    | cons m ms => simp [lay] at h
    | nil =>
      simp only [lay] at h; cases h
      refine ⟨by simp [Offsets], ?_, rfl⟩
      intro os e fr hf ho
      cases os with
      | nil => simp only [Offsets] at ho; exact ⟨by omega, .nil⟩
      | cons => simp [Offsets] at ho
  | succ f ih =>
    intro ms size ma ps s a hok h
    cases ms with
    | nil =>
      simp only [lay] at h; cases h
      refine ⟨by simp [Offsets], ?_, rfl⟩
      intro os e fr hf ho
      cases os with
      | nil => simp only [Offsets] at ho; exact ⟨by omega, .nil⟩
      | cons => simp [Offsets] at ho
    | cons m ms =>
      obtain ⟨hact, hal⟩ := hok m List.mem_cons_self
      simp only [lay, hact, Bool.false_eq_true, if_false] at h
      cases hl : lay L f (alignUp size m.align + m.size) (max ma m.align) ms with
      | none => rw [hl] at h; cases h
      | some t =>
        obtain ⟨qs, s1, a1⟩ := t
        rw [hl] at h
        cases h
        obtain ⟨i1, i2, i3⟩ := ih ms _ _ qs s a (fun x hx => hok x (List.mem_cons_of_mem _ hx)) hl
        refine ⟨?_, ?_, ?_⟩
        · simp only [List.map_cons, Offsets]
          exact ⟨le_alignUp _ _ hal.pos, dvd_alignUp _ _, i1⟩
        · intro os e fr hf ho
          cases os with
          | nil => simp [Offsets] at ho
          | cons o os =>
            simp only [Offsets] at ho
            obtain ⟨h1, h2, h3⟩ := ho
            have hle := alignUp_le size m.align o hal.pos h2 (by omega)
            obtain ⟨k1, k2⟩ := i2 os e (o + m.size) (by omega) h3
            exact ⟨k1, .cons hle k2⟩
        · rw [i3]; rfl

/-- **C25, minimality.** For members that are not bit-fields the layout satisfies the placement rules, and any
other placement obeying them (with a size that is a multiple of the same alignment) has every member at the
same or a higher offset, and is at least as large. -/
theorem struct_minimal {L : Nat} (ms : List Mem) (r : Layout) (hok : ∀ m ∈ ms, m.active = false ∧ Al m.align)
    (h : calcStruct L false ms = some r) :
    Offsets 0 ms (r.placed.map (·.offset)) r.size ∧
    (r.align = 1 ∨ ∃ m ∈ ms, m.align = r.align) ∧
    ∀ os size, Offsets 0 ms os size → r.align ∣ size →
      r.size ≤ size ∧ List.Forall₂ (fun p o => p.offset ≤ o) r.placed os := by
  unfold calcStruct at h
  simp only [Bool.false_eq_true, if_false] at h
  cases hl : lay L ms.length 0 1 ms with
  | none => rw [hl] at h; cases h
  | some t =>
    obtain ⟨ps, s, a⟩ := t
    rw [hl] at h
    cases h
    obtain ⟨i1, i2, i3⟩ := lay_plain _ ms 0 1 ps s a hok hl
    have hmax : ∀ (l : List Mem) (x : Nat), l.foldl (fun a m => max a m.align) x = x ∨
        ∃ m ∈ l, m.align = l.foldl (fun a m => max a m.align) x := by
      intro l
      induction l with
      | nil => intro x; exact Or.inl rfl
      | cons m l ih =>
        intro x
        rw [List.foldl_cons]
        rcases ih (max x m.align) with e | ⟨m', hm', e⟩
        · rw [e]
          by_cases hx : m.align ≤ x
          · left; omega
          · right; exact ⟨m, List.mem_cons_self, by omega⟩
        · exact Or.inr ⟨m', List.mem_cons_of_mem _ hm', e⟩
    have hmono : ∀ (ms : List Mem) (os : List Nat) (st e e' : Nat), e ≤ e' → Offsets st ms os e → Offsets st ms os e' := by
      intro ms
      induction ms with
      | nil =>
        intro os st e e' he ho
        cases os with
        | nil => simp only [Offsets] at *; omega
        | cons => simp [Offsets] at ho
      | cons m ms ih =>
        intro os st e e' he ho
        cases os with
        | nil => simp [Offsets] at ho
        | cons o os =>
          simp only [Offsets] at *
          exact ⟨ho.1, ho.2.1, ih _ _ _ _ he ho.2.2⟩
    have hapos : 0 < a := by
      rcases hmax ms 1 with e | ⟨m, hm, e⟩
      · omega
      · have := (hok m hm).2.pos; omega
    refine ⟨hmono _ _ _ _ _ (le_alignUp s a hapos) i1, ?_, ?_⟩
    · simp only [i3]; exact hmax ms 1
    · intro os size ho hd
      obtain ⟨k1, k2⟩ := i2 os size 0 (Nat.le_refl _) ho
      exact ⟨alignUp_le s a size hapos hd k1, k2⟩

/-- **C26, layout.** Nothing is wasted in front of a bit-field: the unit a run starts with is one the current
size is already aligned for, and the unit only grows when the fields would not fit in a smaller one. -/
theorem bitfield_tight {L size : Nat} (hL : L = 4 ∨ L = 8) (m : Mem) (ms : List Mem) (hm : m.Ok L) (ha : m.active = true)
    (k : Nat) (h : startKind L size m = some k) :
    fxSize L k ∣ size ∧ ∃ pre, m :: ms = pre ++ (run L k 0 (m :: ms)).2.2 ∧
      ((run L k 0 (m :: ms)).2.1 = k ∨
        ∀ j, k ≤ j → j < (run L k 0 (m :: ms)).2.1 → 8 * fxSize L j < (pre.map (·.width)).sum) := by
  obtain ⟨hk4, hd⟩ := startKind_spec hL hm ha h
  obtain ⟨pre, e1, _, _, _, _, _, e7⟩ := run_spec hL (m :: ms) k 0 hk4 (Nat.zero_le _)
  refine ⟨hd, pre, e1, ?_⟩
  rw [Nat.zero_add] at e7
  exact e7

theorem layU_spec {L : Nat} (ms : List Mem) : ∀ (size ma : Nat), (∀ m ∈ ms, m.Ok L) → Al ma →
    (layU L size ma ms).1.length = ms.length ∧ Al (layU L size ma ms).2.2 ∧ ma ≤ (layU L size ma ms).2.2 ∧
    size ≤ (layU L size ma ms).2.1 ∧
    (∀ x ∈ ms.zip (layU L size ma ms).1, x.2.offset = 0 ∧ x.2.position = 0 ∧ x.1.size ≤ (layU L size ma ms).2.1 ∧
      (0 < x.1.width → x.2.base = x.1.kind) ∧ (x.1.width = 0 → x.1.align ≤ (layU L size ma ms).2.2)) ∧
    (∀ e, size ≤ e → (∀ m ∈ ms, m.size ≤ e) → (layU L size ma ms).2.1 ≤ e) := by
  induction ms with
  | nil => intro size ma _ h; simp [layU, h]
  | cons m ms ih =>
    intro size ma hok hma
    have hm := hok m List.mem_cons_self
    have hal : Al (if 0 < m.width then ma else max ma m.align) := by
      split
      · exact hma
      · exact hma.max hm.al
    obtain ⟨i1, i2, i3, i4, i5, i6⟩ := ih (max size m.size) _ (fun x hx => hok x (List.mem_cons_of_mem _ hx)) hal
    simp only [layU]
    generalize layU L (max size m.size) (if 0 < m.width then ma else max ma m.align) ms = r at *
    refine ⟨by simp [i1], i2, ?_, by omega, ?_, ?_⟩
    · split at i3 <;> omega
    · intro x hx
      rw [List.zip_cons_cons, List.mem_cons] at hx
      rcases hx with rfl | hx
      · by_cases hw : 0 < m.width
        · simp only [hw, if_true, true_and, forall_true_left]
          exact ⟨by omega, fun h => by omega⟩
        · simp only [hw, if_false, true_and]
          rw [if_neg hw] at i3
          exact ⟨by omega, fun h => h.elim, fun _ => by omega⟩
      · exact i5 x hx
    · intro e h1 h2
      have := h2 m List.mem_cons_self
      exact i6 e (by omega) (fun x hx => h2 x (List.mem_cons_of_mem _ hx))

/-- **C25, unions (partial).** Every member is at offset 0 and inside the union, the size is a multiple of the
alignment and is the least such size, and the alignment is a multiple of every member's alignment.  Missing: the
last part for bit-fields, whose alignment the union ignores (`union_bitfield_unaligned`). -/
theorem union_sound_partial {L : Nat} (ms : List Mem) (r : Layout) (hok : ∀ m ∈ ms, m.Ok L)
    (h : calcStruct L true ms = some r) :
    r.placed.length = ms.length ∧
    (∀ x ∈ ms.zip r.placed, x.2.offset = 0 ∧ x.1.size ≤ r.size ∧ x.2.position + x.1.width ≤ 8 * r.size ∧
      (x.1.active = false → x.1.align ∣ r.align)) ∧
    Al r.align ∧ r.align ∣ r.size ∧ (∀ size, (∀ m ∈ ms, m.size ≤ size) → r.align ∣ size → r.size ≤ size) := by
  unfold calcStruct at h
  simp only [if_true] at h
  obtain ⟨i1, i2, i3, i4, i5, i6⟩ := layU_spec ms 0 1 hok (Or.inl rfl)
  cases h
  generalize layU L 0 1 ms = t at *
  obtain ⟨ps, s, a⟩ := t
  simp only at *
  have hle := le_alignUp s a i2.pos
  refine ⟨i1, ?_, i2, dvd_alignUp s a, ?_⟩
  · intro x hx
    obtain ⟨j1, j2, j3, j4, j5⟩ := i5 x hx
    have hxm := hok x.1 (List.of_mem_zip hx).1
    refine ⟨j1, by omega, ?_, ?_⟩
    · cases hb : x.1.active with
      | false => have := hxm.plain hb; omega
      | true => have := (hxm.bits hb).2.2.2; omega
    · intro hb
      exact hxm.al.dvd i2 (j5 (hxm.plain hb))
  · intro size h1 h2
    exact alignUp_le s a size i2.pos h2 (i6 size (Nat.zero_le _) h1)

/-! ### Types of any depth -/

mutual
/-- The types `type_size` accepts: integers by kind, floating point by kind, pointers, arrays (`none` for a
flexible array member), structures and unions, and the rest (functions, `void`). -/
inductive Ty where
  | fix (k : Fin 7)
  | flo (k : Fin 3)
  | ptr
  | arr (t : Ty) (n : Option Nat)
  | agg (isUnion : Bool) (ms : Mems)
  | other
/-- Members with an optional bit-field width. -/
inductive Mems where
  | nil
  | cons (t : Ty) (bit : Option Nat) (ms : Mems)
end

/-- type.c:50-51 `flonum_size_table` (float, double, long double). -/
def floSize (k : Nat) : Nat := if k = 0 then 4 else 8

mutual
/-- type.c:187-242 `type_size` and `align_size` together.  `none` when the structure's own layout trips an
assertion, or when the parser rejects a bit-field (parser_type.c:87-110). -/
def meas (L : Nat) : Ty → Option (Nat × Nat)
  | .fix k => some (fxSize L k.1, fxSize L k.1)
  | .flo k => some (floSize k.1, floSize k.1)
  | .ptr => some (fxSize L 3, fxSize L 3)
  | .arr t n =>
    match meas L t with
    | none => none
    | some (s, a) => some (s * n.getD 0, a)
  | .agg u ms =>
    match memsOf L ms with
    | none => none
    | some l =>
      match calcStruct L u l with
      | none => none
      | some r => some (r.size, r.align)
  | .other => some (1, 1)
/-- parser_type.c:66-170 `parse_struct`: the members handed to the layout.  A bit-field must have integer
type and at most as many bits as that type. -/
def memsOf (L : Nat) : Mems → Option (List Mem)
  | .nil => some []
  | .cons t bit ms =>
    match meas L t, memsOf L ms with
    | some (s, a), some l =>
      match bit, t with
      | none, _ => some ({ size := s, align := a } :: l)
      | some w, .fix k => if w ≤ 8 * s then some ({ size := s, align := a, kind := k.1, active := true, width := w } :: l) else none
      | some _, _ => none
    | _, _ => none
end

theorem calc_al {L : Nat} (hL : L = 4 ∨ L = 8) (u : Bool) (ms : List Mem) (r : Layout) (hok : ∀ m ∈ ms, m.Ok L)
    (h : calcStruct L u ms = some r) : Al r.align ∧ r.align ∣ r.size := by
  cases u with
  | true => obtain ⟨_, _, h3, h4, _⟩ := union_sound_partial ms r hok h; exact ⟨h3, h4⟩
  | false => obtain ⟨_, _, _, h4, h5⟩ := struct_sound hL ms r hok h; exact ⟨h4, h5⟩

mutual
/-- **C25, all types.** The alignment of every type is 1, 2, 4 or 8 and divides its size, so the elements of an
array of it are all aligned. -/
theorem type_aligned {L : Nat} (hL : L = 4 ∨ L = 8) (t : Ty) (s a : Nat) (h : meas L t = some (s, a)) : Al a ∧ a ∣ s := by
  cases t with
  | fix k => simp only [meas] at h; cases h; exact ⟨fxAl hL, Nat.dvd_refl _⟩
  | flo k =>
    simp only [meas] at h; cases h
    refine ⟨?_, Nat.dvd_refl _⟩
    unfold floSize Al; split <;> omega
  | ptr => simp only [meas] at h; cases h; exact ⟨fxAl hL, Nat.dvd_refl _⟩
  | other => simp only [meas] at h; cases h; exact ⟨Or.inl rfl, Nat.dvd_refl _⟩
  | arr t n =>
    simp only [meas] at h
    cases hm : meas L t with
    | none => rw [hm] at h; cases h
    | some p =>
      obtain ⟨s1, a1⟩ := p
      rw [hm] at h
      cases h
      obtain ⟨h1, h2⟩ := type_aligned hL t s1 a hm
      exact ⟨h1, Nat.dvd_trans h2 (Nat.dvd_mul_right _ _)⟩
  | agg u ms =>
    simp only [meas] at h
    cases hm : memsOf L ms with
    | none => rw [hm] at h; cases h
    | some l =>
      rw [hm] at h
      simp only at h
      cases hc : calcStruct L u l with
      | none => rw [hc] at h; cases h
      | some r =>
        rw [hc] at h
        cases h
        exact calc_al hL u l r (members_ok hL ms l hm) hc
/-- **C25.** The members the parser hands to the layout always satisfy its preconditions. -/
theorem members_ok {L : Nat} (hL : L = 4 ∨ L = 8) (ms : Mems) (l : List Mem) (h : memsOf L ms = some l) : ∀ m ∈ l, m.Ok L := by
  cases ms with
  | nil => simp only [memsOf] at h; cases h; simp
  | cons t bit ms =>
    simp only [memsOf] at h
    cases hm : meas L t with
    | none => rw [hm] at h; cases h
    | some p =>
      obtain ⟨s, a⟩ := p
      cases hl : memsOf L ms with
      | none => rw [hm, hl] at h; cases h
      | some l' =>
        rw [hm, hl] at h
        simp only at h
        obtain ⟨h1, h2⟩ := type_aligned hL t s a hm
        have ih := members_ok hL ms l' hl
        cases bit with
        | none =>
          cases h
          intro m hmm
          rw [List.mem_cons] at hmm
          rcases hmm with rfl | hmm
          · exact ⟨h1, h2, fun _ => rfl, fun hf => by cases hf⟩
          · exact ih m hmm
        | some w =>
          cases t with
          | fix k =>
            simp only at h
            split at h
            · rename_i hw
              cases h
              simp only [meas] at hm
              cases hm
              intro m hmm
              rw [List.mem_cons] at hmm
              rcases hmm with rfl | hmm
              · exact ⟨h1, h2, fun hf => (by cases hf), fun _ => ⟨by have := k.2; simp only; omega, rfl, rfl, hw⟩⟩
              · exact ih m hmm
            · cases h
          | flo => cases h
          | ptr => cases h
          | arr => cases h
          | agg => cases h
          | other => cases h
end

/-! ### Findings -/

/-- **C25, finding.** A union does not take on the alignment of its bit-fields: `union { char c; int b:4; }` has
size 4 but alignment 1, so in `struct { char x; union {...} u; }` the `int` unit of `b` is at offset 1. -/
theorem union_bitfield_unaligned :
    meas 8 (.agg true (.cons (.fix 0) none (.cons (.fix 2) (some 4) .nil))) = some (4, 1) ∧
    ∃ l r, memsOf 8 (.cons (.fix 0) none (.cons (.agg true (.cons (.fix 0) none (.cons (.fix 2) (some 4) .nil))) none .nil)) = some l ∧
      calcStruct 8 false l = some r ∧ r.placed.map (·.offset) = [0, 1] ∧ r.size = 5 := by
  refine ⟨by decide, _, _, rfl, rfl, by decide, by decide⟩

/-- **C25, finding.** A `_Bool` bit-field that starts a unit trips the assertion of `get_fixnum_type`. -/
theorem bool_bitfield_asserts (w : Nat) (hw : 0 < w) :
    calcStruct 8 false [{ size := 4, align := 4, kind := 6, active := true, width := w }] = none := by
  simp only [calcStruct, List.length_cons, List.length_nil, lay, startKind, Bool.false_eq_true, if_false, if_true]
  rw [if_neg (by omega)]
  simp

/-! ### The theorems are not vacuous -/

/-- `struct { char a; short b; int x:5; int y:20; int :0; long z:40; char t; }` on a native target. -/
def sample : Mems :=
  .cons (.fix 0) none (.cons (.fix 1) none (.cons (.fix 2) (some 5) (.cons (.fix 2) (some 20) (.cons (.fix 2) (some 0)
    (.cons (.fix 3) (some 40) (.cons (.fix 0) none .nil))))))

example : ∃ l r, memsOf 8 sample = some l ∧ calcStruct 8 false l = some r ∧
    r.placed = [⟨0, 0, 0⟩, ⟨2, 0, 0⟩, ⟨4, 0, 2⟩, ⟨4, 5, 2⟩, ⟨0, 0, 0⟩, ⟨8, 0, 3⟩, ⟨16, 0, 0⟩] ∧ r.size = 24 ∧ r.align = 8 := by
  refine ⟨_, _, rfl, rfl, by decide, by decide, by decide⟩
example : meas 8 (.arr (.agg false sample) (some 3)) = some (72, 8) := by decide
example : meas 4 (.agg false (.cons (.fix 0) none (.cons (.fix 3) none (.cons (.flo 1) none .nil)))) = some (16, 8) := by decide
example : startKind 8 6 { size := 8, align := 8, kind := 3, active := true, width := 20 } = some 1 := by decide
example : (run 8 1 0 [{ size := 8, align := 8, kind := 3, active := true, width := 20 }]).2.1 = 2 := by decide
example : ∀ m ∈ ([⟨1, 1, 0, false, 0⟩, ⟨8, 8, 0, false, 0⟩] : List Mem), m.active = false ∧ Al m.align := by
  simp [Al]
example : calcStruct 8 true [⟨1, 1, 0, false, 0⟩, ⟨6, 2, 0, false, 0⟩, ⟨4, 4, 0, false, 0⟩] =
    some ⟨[⟨0, 0, 0⟩, ⟨0, 0, 0⟩, ⟨0, 0, 0⟩], 8, 4⟩ := by decide

end Verif.Struct

import Verif.As.RvAsm
import Verif.Util.Wrap
/-!
# Relocation in the linker (src/ld/ld.c)

Model of `calc_rela_sym_address` and `resolve_rela_elfobj`. Section contents are lists of bytes; a read or write outside the
section, and a failing `assert`, is `none`. Addresses are `uint64_t`, modelled as `Nat` below `2^64`. Reading the relocation
table from the file is not modelled: the relocations are given.
-/
namespace Verif.Reloc
open Verif.Field Verif.Util Verif.RvIsa
open Verif.RvAsm (imm utype itype)

/-! ## Model -/

/-- Relocation kinds of the `switch` in ld.c:253-387, all three architectures together. -/
inductive Kind
  | x64_64 | x64_pc32 | x64_plt32
  | a64_abs64 | a64_adrPage | a64_addLo12 | a64_call26 | a64_gotPage | a64_gotLo12
  | rv_64 | rv_call | rv_relax | rv_pcrelHi20 | rv_hi20 | rv_pcrelLo12 | rv_lo12 | rv_rvcJump | rv_jal | rv_branch
  | rv_rvcBranch
  | other
  deriving DecidableEq, Repr

/-- A relocation with the address `calc_rela_sym_address` gives for it (ld.c:247-248). -/
structure Rela where
  kind : Kind
  ofs : Nat
  addr : Nat
  deriving DecidableEq, Repr

/-- `uint64_t` subtraction. -/
def sub64 (a b : Nat) : Nat := (((a : Int) - (b : Int)) % 2 ^ 64).toNat

/-- `int64_t offset = address - pc` (ld.c:299, 329, …). -/
def off (address pc : Nat) : Int := toS 64 ((address : Int) - (pc : Int))

/-- ld.c:251: `pc`. -/
def pcOf (base : Nat) (r : Rela) : Nat := (base + r.ofs) % 2 ^ 64

/-- ld.c:163 `SWIZZLE_JAL`. -/
def swizzleJal (o : Int) : Nat := imm o 20 20 <<< 31 ||| imm o 10 1 <<< 21 ||| imm o 11 11 <<< 20 ||| imm o 19 12 <<< 12
/-- ld.c:164-167 `SWIZZLE_C_J`. -/
def swizzleCJ (o : Int) : Nat :=
  imm o 11 11 <<< 12 ||| imm o 4 4 <<< 11 ||| imm o 9 8 <<< 9 ||| imm o 10 10 <<< 8 ||| imm o 6 6 <<< 7
    ||| imm o 7 7 <<< 6 ||| imm o 3 1 <<< 3 ||| imm o 5 5 <<< 2
/-- ld.c:168-170 `SWIZZLE_C_BXX`. -/
def swizzleCB (o : Int) : Nat :=
  imm o 8 8 <<< 12 ||| imm o 4 3 <<< 10 ||| imm o 7 6 <<< 5 ||| imm o 2 1 <<< 3 ||| imm o 5 5 <<< 2
/-- ld.c:171-173 `SWIZZLE_BXX`. -/
def swizzleB (o : Int) : Nat := imm o 12 12 <<< 31 ||| imm o 10 5 <<< 25 ||| imm o 4 1 <<< 8 ||| imm o 11 11 <<< 7
/-- ld.c:178 `W_JAL`: `UTYPE` of the swizzled offset. -/
def wJal (rd : Nat) (o : Int) : Nat := utype (swizzleJal o) rd 0x6f
/-- ld.c:179-180 `P_NOP`. -/
def pNop : Nat := itype 0 0 0x00 0 0x13

/-- What one relocation does: nothing, count an error, or rewrite `n` bytes at `o`; `f` maps the old contents to the new,
`none` being a failing `assert`. -/
inductive Act
  | nothing
  | unhandled
  | write (n o : Nat) (f : Nat → Option Nat)

/-- ld.c:277-278: `assert` on the distance of `R_RISCV_CALL` and the others. -/
def inB (o : Int) (k : Nat) : Bool := decide (o < 2 ^ k) && decide (o ≥ -2 ^ k)

/-- ld.c:267-275: `R_AARCH64_ADR_PREL_PG_HI21`. -/
def adrPage (address pc old : Nat) : Nat :=
  let d := (((address >>> 12 : Nat) : Int) - ((pc >>> 12 : Nat) : Int)) % 2 ^ 32
  (old &&& 0x9f00001f) ||| (d.toNat &&& 0x03) <<< 29 ||| (d.toNat &&& 0x1ffffc) <<< 3
/-- ld.c:276-281: `R_AARCH64_ADD_ABS_LO12_NC`. -/
def addLo12 (address old : Nat) : Nat := (old &&& 0xffc003ff) ||| ((address <<< 10) &&& 0x3ffc00)
/-- ld.c:282-287: `R_AARCH64_CALL26`. -/
def call26 (address pc old : Nat) : Nat := (old &&& 0xfc000000) ||| ((sub64 address pc >>> 2) &&& 0x3ffffff)
/-- ld.c:322-332: the rounded word of `R_RISCV_PCREL_HI20` and `R_RISCV_HI20`. -/
def hi20 (o : Int) (old : Nat) : Nat :=
  let o' := if o % 4096 ≥ 2048 then o + 4096 else o
  (old &&& 0xfff) ||| ((o' % 2 ^ 32).toNat &&& 0xfffff000)
/-- ld.c:351-353: `R_RISCV_PCREL_LO12_I` and `R_RISCV_LO12_I`. -/
def lo12 (o : Int) (old : Nat) : Nat := (old &&& 0xfffff) ||| ((o % 2 ^ 32).toNat &&& 0xfff) <<< 20

/-- ld.c:245-392, the body of the loop for one relocation; `p2`, `p1` are the two relocations before it. The outer `none` is an
`assert` that does not depend on the contents. -/
def act (base : Nat) (p2 p1 : Option Rela) (r : Rela) : Option Act :=
  let pc := pcOf base r
  let o := off r.addr pc
  match r.kind with
  | .x64_64 | .a64_abs64 | .rv_64 => some (.write 8 r.ofs (fun _ => some r.addr))
  | .x64_pc32 | .x64_plt32 => some (.write 4 r.ofs (fun _ => some (sub64 r.addr pc % 2 ^ 32)))
  | .a64_adrPage => some (.write 4 r.ofs (fun w => some (adrPage r.addr pc w)))
  | .a64_addLo12 => some (.write 4 r.ofs (fun w => some (addLo12 r.addr w)))
  | .a64_call26 => some (.write 4 r.ofs (fun w => some (call26 r.addr pc w)))
  | .a64_gotPage | .a64_gotLo12 => none
  | .rv_call => if inB o 19 then some (.write 4 r.ofs (fun _ => some (wJal 1 o))) else none
  | .rv_relax =>
    match p1 with
    | none => none
    | some q =>
      match q.kind with
      | .rv_call => some (.write 4 (r.ofs + 4) (fun _ => some pNop))
      | .rv_pcrelHi20 | .rv_pcrelLo12 | .rv_hi20 | .rv_lo12 => some .nothing
      | _ => none
  | .rv_pcrelHi20 => if inB o 31 then some (.write 4 r.ofs (fun w => some (hi20 o w))) else none
  | .rv_hi20 => if inB (off r.addr 0) 31 then some (.write 4 r.ofs (fun w => some (hi20 (off r.addr 0) w))) else none
  | .rv_pcrelLo12 =>
    match p2 with
    | none => none
    | some h =>
      if h.kind = .rv_pcrelHi20 ∧ inB (off h.addr (pcOf base h)) 31 = true then
        some (.write 4 r.ofs (fun w => some (lo12 (off h.addr (pcOf base h)) w)))
      else none
  | .rv_lo12 =>
    match p2 with
    | none => none
    | some h =>
      if h.kind = .rv_hi20 ∧ inB (off h.addr 0) 31 = true then
        some (.write 4 r.ofs (fun w => some (lo12 (off h.addr 0) w)))
      else none
  | .rv_rvcJump =>
    if inB o 11 then
      some (.write 2 r.ofs (fun w => if w &&& 0xe003 = 0xa001 then some ((w &&& 0xe003) ||| swizzleCJ o) else none))
    else none
  | .rv_jal =>
    if inB o 19 then
      some (.write 4 r.ofs (fun w => if w &&& 0x7f = 0x6f then some ((w &&& 0x7f) ||| swizzleJal o) else none))
    else none
  | .rv_branch => if inB o 13 then some (.write 4 r.ofs (fun w => some ((w &&& 0x01fff07f) ||| swizzleB o))) else none
  | .rv_rvcBranch =>
    if inB o 8 then
      some (.write 2 r.ofs (fun w => if w &&& 0xc003 = 0xc001 then some ((w &&& 0xe383) ||| swizzleCB o) else none))
    else none
  | .other => some .unhandled

/-- Little-endian value of bytes. -/
def ofBytes : List Nat → Nat
  | [] => 0
  | b :: bs => b + 256 * ofBytes bs
/-- Little-endian bytes of a value. -/
def toBytes : Nat → Nat → List Nat
  | 0, _ => []
  | n + 1, v => v % 256 :: toBytes n (v / 256)

/-- `*(uintN_t*)p` as an rvalue. -/
def load (n o : Nat) (m : List Nat) : Option Nat :=
  if o + n ≤ m.length then some (ofBytes ((m.drop o).take n)) else none
/-- `*(uintN_t*)p = v`. -/
def put (n o v : Nat) (m : List Nat) : List Nat := m.take o ++ toBytes n v ++ m.drop (o + n)

/-- The effect of one relocation on contents and `error_count`. -/
def exec (a : Act) (m : List Nat) (e : Nat) : Option (List Nat × Nat) :=
  match a with
  | .nothing => some (m, e)
  | .unhandled => some (m, e + 1)
  | .write n o f =>
    match load n o m with
    | none => none
    | some w =>
      match f w with
      | none => none
      | some v => some (put n o v m, e)

/-- ld.c:243-393: the loop over the relocations of one section placed at `base`. -/
def resolve (base : Nat) : Option Rela → Option Rela → List Rela → List Nat → Nat → Option (List Nat × Nat)
  | _, _, [], m, e => some (m, e)
  | p2, p1, r :: rs, m, e =>
    match act base p2 p1 r with
    | none => none
    | some a =>
      match exec a m e with
      | none => none
      | some (m', e') => resolve base p1 (some r) rs m' e'

/-! ## Specification -/

/-- A displacement takes the machine from `pc` to `addr`. -/
def Reaches (pc : Nat) (o : Int) (addr : Nat) : Prop := ((pc : Int) + o) % 2 ^ 64 = addr

/-- The bytes a relocation may change: start and length (psABI documents of the three architectures; `R_RISCV_RELAX` covers
the second instruction of a call pair). -/
def span (p1 : Option Rela) (r : Rela) : Nat × Nat :=
  match r.kind with
  | .x64_64 | .a64_abs64 | .rv_64 => (r.ofs, 8)
  | .rv_rvcJump | .rv_rvcBranch => (r.ofs, 2)
  | .rv_relax => match p1 with
    | some q => if q.kind = .rv_call then (r.ofs + 4, 4) else (0, 0)
    | none => (0, 0)
  | .other => (0, 0)
  | _ => (r.ofs, 4)

def spans : Option Rela → List Rela → List (Nat × Nat)
  | _, [] => []
  | p1, r :: rs => span p1 r :: spans (some r) rs

/-- Disjoint byte ranges. -/
def Apart (s t : Nat × Nat) : Prop := s.1 + s.2 ≤ t.1 ∨ t.1 + t.2 ≤ s.1

/-- Instructions whose 12-bit immediate `R_RISCV_*LO12_I` fills in. -/
def setLo : RV → Int → Option RV
  | .opImm .addi rd rs _, v => some (.opImm .addi rd rs v)
  | .load f rd rs _, v => some (.load f rd rs v)
  | .fload d rd rs _, v => some (.fload d rd rs v)
  | .jalr rd rs _, v => some (.jalr rd rs v)
  | _, _ => none

/-- A 12-bit immediate. -/
def Im12 (v : Int) : Prop := -2048 ≤ v ∧ v < 2048

/-- What relocation `r` (after `p2`, `p1`) promises about the contents `m1` of the linked section, `m0` being the contents
before. Instructions keep everything but the field, and the field makes the machine reach the address. -/
def Meets (base : Nat) (p2 p1 : Option Rela) (r : Rela) (m0 m1 : List Nat) : Prop :=
  let pc := pcOf base r
  match r.kind with
  | .x64_64 | .a64_abs64 | .rv_64 => load 8 r.ofs m1 = some r.addr
  | .x64_pc32 | .x64_plt32 => ∃ w, load 4 r.ofs m1 = some w ∧ Reaches pc (sext 32 w) r.addr
  | .a64_adrPage => ∃ w0 w, load 4 r.ofs m0 = some w0 ∧ load 4 r.ofs m1 = some w
      ∧ field w 4 0 = field w0 4 0 ∧ field w 28 24 = field w0 28 24 ∧ field w 31 31 = field w0 31 31
      ∧ Reaches (pc / 4096 * 4096) (sext 21 (field w 23 5 * 4 + field w 30 29) * 4096) (r.addr / 4096 * 4096)
  | .a64_addLo12 => ∃ w0 w, load 4 r.ofs m0 = some w0 ∧ load 4 r.ofs m1 = some w
      ∧ field w 9 0 = field w0 9 0 ∧ field w 31 22 = field w0 31 22 ∧ field w 21 10 = r.addr % 4096
  | .a64_call26 => ∃ w0 w, load 4 r.ofs m0 = some w0 ∧ load 4 r.ofs m1 = some w
      ∧ field w 31 26 = field w0 31 26 ∧ Reaches pc (sext 26 (field w 25 0) * 4) r.addr
  | .rv_call => ∃ w o, load 4 r.ofs m1 = some w ∧ decode32 w = some (.jal 1 o) ∧ Reaches pc o r.addr
  | .rv_relax => (∃ q, p1 = some q ∧ q.kind = .rv_call) →
      ∃ w, load 4 (r.ofs + 4) m1 = some w ∧ decode32 w = some (.opImm .addi 0 0 0)
  | .rv_pcrelHi20 => ∃ w0 w, load 4 r.ofs m0 = some w0 ∧ load 4 r.ofs m1 = some w
      ∧ ∀ rd i, decode32 w0 = some (.auipc rd i) → ∃ hi, decode32 w = some (.auipc rd hi)
        ∧ ∀ lo, Im12 lo → ((pc : Int) + hi + lo - r.addr) % 4096 = 0 → Reaches pc (hi + lo) r.addr
  | .rv_hi20 => ∃ w0 w, load 4 r.ofs m0 = some w0 ∧ load 4 r.ofs m1 = some w
      ∧ ∀ rd i, decode32 w0 = some (.lui rd i) → ∃ hi, decode32 w = some (.lui rd hi)
        ∧ ∀ lo, Im12 lo → (hi + lo - r.addr) % 4096 = 0 → Reaches 0 (hi + lo) r.addr
  | .rv_pcrelLo12 => ∃ h w0 w, p2 = some h ∧ load 4 r.ofs m0 = some w0 ∧ load 4 r.ofs m1 = some w
      ∧ ∃ lo, Im12 lo ∧ ((pcOf base h : Int) + lo - h.addr) % 4096 = 0
        ∧ ∀ i i', decode32 w0 = some i → setLo i lo = some i' → decode32 w = some i'
  | .rv_lo12 => ∃ h w0 w, p2 = some h ∧ load 4 r.ofs m0 = some w0 ∧ load 4 r.ofs m1 = some w
      ∧ ∃ lo, Im12 lo ∧ (lo - h.addr) % 4096 = 0
        ∧ ∀ i i', decode32 w0 = some i → setLo i lo = some i' → decode32 w = some i'
  | .rv_rvcJump => ∃ w o, load 2 r.ofs m1 = some w ∧ decode16 w = some (.jal 0 o) ∧ Reaches pc o r.addr
  | .rv_jal => ∃ w0 w, load 4 r.ofs m0 = some w0 ∧ load 4 r.ofs m1 = some w
      ∧ ∀ rd i, decode32 w0 = some (.jal rd i) → ∃ o, decode32 w = some (.jal rd o) ∧ Reaches pc o r.addr
  | .rv_branch => ∃ w0 w, load 4 r.ofs m0 = some w0 ∧ load 4 r.ofs m1 = some w
      ∧ ∀ f a b i, decode32 w0 = some (.branch f a b i) → ∃ o, decode32 w = some (.branch f a b o) ∧ Reaches pc o r.addr
  | .rv_rvcBranch => ∃ w0 w, load 2 r.ofs m0 = some w0 ∧ load 2 r.ofs m1 = some w
      ∧ ∀ f a b i, decode16 w0 = some (.branch f a b i) → ∃ o, decode16 w = some (.branch f a b o) ∧ Reaches pc o r.addr
  | .a64_gotPage | .a64_gotLo12 | .other => False

/-- What the linker does not check: the field can hold the distance, and a `jal` has no link register. -/
def Fits (base : Nat) (r : Rela) (m0 : List Nat) : Prop :=
  let pc := pcOf base r
  let o := off r.addr pc
  match r.kind with
  | .x64_pc32 | .x64_plt32 => -2 ^ 31 ≤ o ∧ o < 2 ^ 31
  | .a64_adrPage => -2 ^ 20 ≤ (r.addr / 4096 : Int) - (pc / 4096 : Int) ∧ (r.addr / 4096 : Int) - (pc / 4096 : Int) < 2 ^ 20
  | .a64_call26 => o % 4 = 0 ∧ -2 ^ 27 ≤ o ∧ o < 2 ^ 27
  | .rv_call | .rv_rvcJump | .rv_rvcBranch => o % 2 = 0
  | .rv_jal => o % 2 = 0 ∧ ∀ w0, load 4 r.ofs m0 = some w0 → field w0 11 7 = 0
  | .rv_branch => o % 2 = 0 ∧ -2 ^ 12 ≤ o ∧ o < 2 ^ 12
  | .rv_pcrelHi20 => o < 2 ^ 31 - 2048
  | .rv_hi20 => off r.addr 0 < 2 ^ 31 - 2048
  | _ => True

/-! ## Lemmas: bytes -/

theorem toBytes_length (n v : Nat) : (toBytes n v).length = n := by
  induction n generalizing v with
  | zero => rfl
  | succ n ih => simp [toBytes, ih]

theorem ofBytes_toBytes (n v : Nat) : ofBytes (toBytes n v) = v % 256 ^ n := by
  induction n generalizing v with
  | zero => simp [toBytes, ofBytes, Nat.mod_one]
  | succ n ih =>
    simp only [toBytes, ofBytes, ih]
    rw [Nat.pow_succ, Nat.mul_comm (256 ^ n) 256, Nat.mod_mul]

theorem load_congr {n o : Nat} {m m' : List Nat} (hl : m'.length = m.length)
    (h : ∀ i, o ≤ i → i < o + n → m'[i]? = m[i]?) : load n o m' = load n o m := by
  unfold load
  rw [hl]
  split
  · congr 2
    apply List.ext_getElem?
    intro i
    simp only [List.getElem?_take, List.getElem?_drop]
    split
    · exact h _ (by omega) (by omega)
    · rfl
  · rfl

theorem put_length {n o v : Nat} {m : List Nat} (h : o + n ≤ m.length) : (put n o v m).length = m.length := by
  simp [put, toBytes_length]; omega

theorem load_put {n o v : Nat} {m : List Nat} (h : o + n ≤ m.length) : load n o (put n o v m) = some (v % 256 ^ n) := by
  unfold load
  rw [put_length h, if_pos h, ← ofBytes_toBytes]
  congr 2
  unfold put
  rw [List.append_assoc, List.drop_append_of_le_length (by simp; omega)]
  rw [List.drop_eq_nil_of_le (by simp; omega), List.nil_append, List.take_append_of_le_length (by simp [toBytes_length])]
  rw [List.take_of_length_le (by simp [toBytes_length])]

theorem put_frame {n o v i : Nat} {m : List Nat} (h : o + n ≤ m.length) (hi : i < o ∨ o + n ≤ i) :
    (put n o v m)[i]? = m[i]? := by
  unfold put
  rcases hi with hi | hi
  · rw [List.append_assoc, List.getElem?_append_left (by simp; omega), List.getElem?_take, if_pos hi]
  · rw [List.getElem?_append_right (by simp [toBytes_length]; omega), List.getElem?_drop]
    simp only [List.length_append, List.length_take, toBytes_length]
    congr 1
    omega

/-! ## Lemmas: the loop -/

/-- The bytes an action writes. -/
def Act.span : Act → Nat × Nat
  | .write n o _ => (o, n)
  | _ => (0, 0)

theorem act_span {base : Nat} {p2 p1 : Option Rela} {r : Rela} {a : Act} (h : act base p2 p1 r = some a) :
    a.span = Reloc.span p1 r := by
  obtain ⟨k, o, ad⟩ := r
  cases k
  case rv_relax =>
    cases p1 with
    | none => cases h
    | some q =>
      obtain ⟨kq, oq, aq⟩ := q
      cases kq <;> cases h <;> rfl
  case rv_pcrelLo12 =>
    cases p2 with
    | none => cases h
    | some q => simp only [act] at h; split at h <;> cases h; rfl
  case rv_lo12 =>
    cases p2 with
    | none => cases h
    | some q => simp only [act] at h; split at h <;> cases h; rfl
  case rv_call => simp only [act] at h; split at h <;> cases h; rfl
  case rv_pcrelHi20 => simp only [act] at h; split at h <;> cases h; rfl
  case rv_hi20 => simp only [act] at h; split at h <;> cases h; rfl
  case rv_rvcJump => simp only [act] at h; split at h <;> cases h; rfl
  case rv_jal => simp only [act] at h; split at h <;> cases h; rfl
  case rv_branch => simp only [act] at h; split at h <;> cases h; rfl
  case rv_rvcBranch => simp only [act] at h; split at h <;> cases h; rfl
  all_goals cases h
  all_goals rfl

theorem exec_frame {a : Act} {m m' : List Nat} {e e' : Nat} (h : exec a m e = some (m', e')) :
    m'.length = m.length ∧ ∀ i, (i < a.span.1 ∨ a.span.1 + a.span.2 ≤ i) → m'[i]? = m[i]? := by
  cases a with
  | nothing => cases h; exact ⟨rfl, fun _ _ => rfl⟩
  | unhandled => cases h; exact ⟨rfl, fun _ _ => rfl⟩
  | write n o f =>
    simp only [exec] at h
    split at h
    · cases h
    · rename_i w hw
      split at h
      · cases h
      · cases h
        have hb : o + n ≤ m.length := by
          unfold load at hw; split at hw
          · assumption
          · cases hw
        exact ⟨put_length hb, fun i hi => put_frame hb hi⟩

theorem exec_errors {a : Act} {m m' : List Nat} {e e' : Nat} (h : exec a m e = some (m', e')) :
    e ≤ e' ∧ (a = .unhandled → e < e') := by
  cases a with
  | nothing => cases h; exact ⟨Nat.le_refl _, fun h => by cases h⟩
  | unhandled => cases h; exact ⟨by omega, fun _ => by omega⟩
  | write n o f =>
    simp only [exec] at h
    split at h
    · cases h
    · split at h <;> cases h
      exact ⟨Nat.le_refl _, fun h => by cases h⟩

/-- The relocations with the two before each. -/
def ctx : Option Rela → Option Rela → List Rela → List (Option Rela × Option Rela × Rela)
  | _, _, [] => []
  | p2, p1, r :: rs => (p2, p1, r) :: ctx p1 (some r) rs

/-- What an action leaves behind. -/
def Done (a : Act) (m0 m1 : List Nat) : Prop :=
  match a with
  | .write n o f => ∃ w v, load n o m0 = some w ∧ f w = some v ∧ load n o m1 = some (v % 256 ^ n)
  | _ => True

theorem exec_done {a : Act} {m m' : List Nat} {e e' : Nat} (h : exec a m e = some (m', e')) : Done a m m' := by
  cases a with
  | nothing => trivial
  | unhandled => trivial
  | write n o f =>
    simp only [exec] at h
    split at h
    · cases h
    · rename_i w hw
      split at h
      · cases h
      · rename_i v hv
        cases h
        have hb : o + n ≤ m.length := by
          unfold load at hw; split at hw
          · assumption
          · cases hw
        exact ⟨w, v, hw, hv, load_put hb⟩

theorem resolve_errors {base : Nat} {p2 p1 : Option Rela} {rs : List Rela} {m m' : List Nat} {e e' : Nat}
    (h : resolve base p2 p1 rs m e = some (m', e')) : e ≤ e' := by
  induction rs generalizing p2 p1 m e with
  | nil => cases h; exact Nat.le_refl _
  | cons r rs ih =>
    simp only [resolve] at h
    split at h
    · cases h
    · split at h
      · cases h
      · rename_i a ha _ m2 e2 he
        have := ih h
        have := (exec_errors he).1
        omega

theorem resolve_frame {base : Nat} {p2 p1 : Option Rela} {rs : List Rela} {m m' : List Nat} {e e' : Nat}
    (h : resolve base p2 p1 rs m e = some (m', e')) :
    m'.length = m.length ∧ ∀ i, (∀ s ∈ spans p1 rs, i < s.1 ∨ s.1 + s.2 ≤ i) → m'[i]? = m[i]? := by
  induction rs generalizing p2 p1 m e with
  | nil => cases h; exact ⟨rfl, fun _ _ => rfl⟩
  | cons r rs ih =>
    simp only [resolve] at h
    split at h
    · cases h
    · rename_i a ha
      split at h
      · cases h
      · rename_i m2 e2 he
        have h1 := ih h
        have h2 := exec_frame he
        rw [act_span ha] at h2
        refine ⟨h1.1.trans h2.1, fun i hi => ?_⟩
        rw [h1.2 i (fun s hs => hi s (by simp [spans, hs])), h2.2 i (hi _ (by simp [spans]))]

theorem resolve_done {base : Nat} {p2 p1 : Option Rela} {rs : List Rela} {m m' : List Nat} {e e' : Nat}
    (h : resolve base p2 p1 rs m e = some (m', e')) (hd : (spans p1 rs).Pairwise Apart) :
    ∀ c ∈ ctx p2 p1 rs, ∃ a, act base c.1 c.2.1 c.2.2 = some a ∧ Done a m m' ∧ (a = .unhandled → e < e') := by
  induction rs generalizing p2 p1 m e with
  | nil => intro c hc; cases hc
  | cons r rs ih =>
    simp only [resolve] at h
    split at h
    · cases h
    · rename_i a ha
      split at h
      · cases h
      · rename_i m2 e2 he
        simp only [spans, List.pairwise_cons] at hd
        have hf := exec_frame he
        rw [act_span ha] at hf
        have hr := resolve_frame h
        intro c hc
        simp only [ctx, List.mem_cons] at hc
        rcases hc with rfl | hc
        · refine ⟨a, ha, ?_, fun hu => Nat.lt_of_lt_of_le ((exec_errors he).2 hu) (resolve_errors h)⟩
          have hdn := exec_done he
          cases a with
          | nothing => trivial
          | unhandled => trivial
          | write n o f =>
            obtain ⟨w, v, h1, h2, h3⟩ := hdn
            refine ⟨w, v, h1, h2, ?_⟩
            rw [← h3]
            apply load_congr hr.1
            intro i hi1 hi2
            apply hr.2
            intro s hs
            have := hd.1 s hs
            rw [← act_span ha] at this
            simp only [Apart, Act.span] at this
            omega
        · obtain ⟨b, hb, hbd, hbe⟩ := ih h hd.2 c hc
          refine ⟨b, hb, ?_, fun hu => Nat.lt_of_le_of_lt (exec_errors he).1 (hbe hu)⟩
          cases b with
          | nothing => trivial
          | unhandled => trivial
          | write n o f =>
            obtain ⟨w, v, h1, h2, h3⟩ := hbd
            refine ⟨w, v, ?_, h2, h3⟩
            rw [← h1]
            symm
            apply load_congr hf.1
            intro i hi1 hi2
            apply hf.2
            have hsp : Reloc.span c.2.1 c.2.2 ∈ spans (some r) rs := by
              clear ih h hd hr hf he hb hbe h1 h2 h3
              revert hc
              generalize p1 = q2, (some r) = q1
              intro hc
              induction rs generalizing q2 q1 with
              | nil => cases hc
              | cons x xs ihx =>
                simp only [ctx, List.mem_cons] at hc
                simp only [spans, List.mem_cons]
                rcases hc with rfl | hc
                · exact Or.inl rfl
                · exact Or.inr (ihx _ _ hc)
            have := hd.1 _ hsp
            rw [← act_span hb] at this
            simp only [Apart, Act.span] at this
            omega

/-! ## Lemmas: distances -/

theorem off_spec (a p : Nat) : -2 ^ 63 ≤ off a p ∧ off a p < 2 ^ 63 ∧ (off a p - ((a : Int) - p)) % 2 ^ 64 = 0 := by
  simp only [off, toS]
  split <;> omega

theorem off_reaches (a p : Nat) (ha : a < 2 ^ 64) : Reaches p (off a p) a := by
  have := off_spec a p
  unfold Reaches
  omega

theorem reaches_congr {p : Nat} {o o' : Int} {a : Nat} (h : Reaches p o a) (e : (o' - o) % 2 ^ 64 = 0) : Reaches p o' a := by
  unfold Reaches at *
  omega

theorem sext_of (n v : Nat) (i : Int) (hn : 0 < n) (hv : (v : Int) = i % 2 ^ n) (h : -2 ^ (n - 1) ≤ i ∧ i < 2 ^ (n - 1)) :
    sext n v = i := by
  obtain ⟨k, rfl⟩ : ∃ k, n = k + 1 := ⟨n - 1, by omega⟩
  simp only [Nat.add_sub_cancel] at h
  unfold sext
  simp only [Nat.add_sub_cancel]
  have e : (2 : Int) ^ (k + 1) = 2 * 2 ^ k := by rw [Int.pow_succ, Int.mul_comm]
  have e2 : ((2 ^ k : Nat) : Int) = (2 : Int) ^ k := by push_cast; rfl
  rw [e] at hv ⊢
  generalize hK : (2 : Int) ^ k = K at *
  generalize (2 ^ k : Nat) = K' at *
  have hpos : 0 < K := by rw [← hK]; exact Int.pow_pos (by decide)
  by_cases h0 : 0 ≤ i
  · rw [Int.emod_eq_of_lt h0 (by omega)] at hv
    rw [if_pos (by omega)]; exact hv
  · have : i % (2 * K) = i + 2 * K := by
      rw [← Int.add_emod_right, Int.emod_eq_of_lt (by omega) (by omega)]
    rw [this] at hv
    rw [if_neg (by omega)]; omega

theorem inB_iff (o : Int) (k : Nat) : inB o k = true ↔ -2 ^ k ≤ o ∧ o < 2 ^ k := by
  simp only [inB, Bool.and_eq_true, decide_eq_true_eq]
  constructor <;> intro h <;> exact ⟨h.2, h.1⟩

/-! ## Lemmas: words -/

open Verif.RvAsm (imm_lt utype_fields itype_fields)

theorem swizzleJal_fields (o : Int) : swizzleJal o < 2 ^ 32 ∧ swizzleJal o % 4096 = 0
    ∧ field (swizzleJal o) 31 31 = imm o 20 20 ∧ field (swizzleJal o) 19 12 = imm o 19 12
    ∧ field (swizzleJal o) 20 20 = imm o 11 11 ∧ field (swizzleJal o) 30 21 = imm o 10 1 := by
  have h1 := imm_lt o 20 20
  have h2 := imm_lt o 10 1
  have h3 := imm_lt o 11 11
  have h4 := imm_lt o 19 12
  have : swizzleJal o = imm o 20 20 * 2 ^ 31 + imm o 10 1 * 2 ^ 21 + imm o 11 11 * 2 ^ 20 + imm o 19 12 * 2 ^ 12 := by
    unfold swizzleJal
    simp only [Nat.shiftLeft_eq]
    exact or4 31 21 20 (by omega) (by omega) (by omega) (by omega) (by omega) (by omega)
  rw [this]
  simp only [field]
  omega

theorem swizzleB_fields (o : Int) : swizzleB o < 2 ^ 32 ∧ field (swizzleB o) 6 0 = 0 ∧ field (swizzleB o) 14 12 = 0
    ∧ field (swizzleB o) 19 15 = 0 ∧ field (swizzleB o) 24 20 = 0
    ∧ field (swizzleB o) 31 31 = imm o 12 12 ∧ field (swizzleB o) 7 7 = imm o 11 11
    ∧ field (swizzleB o) 30 25 = imm o 10 5 ∧ field (swizzleB o) 11 8 = imm o 4 1 := by
  have h1 := imm_lt o 12 12
  have h2 := imm_lt o 10 5
  have h3 := imm_lt o 4 1
  have h4 := imm_lt o 11 11
  have : swizzleB o = imm o 12 12 * 2 ^ 31 + imm o 10 5 * 2 ^ 25 + imm o 4 1 * 2 ^ 8 + imm o 11 11 * 2 ^ 7 := by
    unfold swizzleB
    simp only [Nat.shiftLeft_eq]
    exact or4 31 25 8 (by omega) (by omega) (by omega) (by omega) (by omega) (by omega)
  rw [this]
  simp only [field]
  omega

theorem swizzleCB_fields (o : Int) : swizzleCB o < 2 ^ 13 ∧ field (swizzleCB o) 1 0 = 0 ∧ field (swizzleCB o) 9 7 = 0
    ∧ field (swizzleCB o) 12 12 = imm o 8 8 ∧ field (swizzleCB o) 6 5 = imm o 7 6
    ∧ field (swizzleCB o) 2 2 = imm o 5 5 ∧ field (swizzleCB o) 11 10 = imm o 4 3 ∧ field (swizzleCB o) 4 3 = imm o 2 1 := by
  have h1 := imm_lt o 8 8
  have h2 := imm_lt o 4 3
  have h3 := imm_lt o 7 6
  have h4 := imm_lt o 2 1
  have h5 := imm_lt o 5 5
  have : swizzleCB o = imm o 8 8 * 2 ^ 12 + imm o 4 3 * 2 ^ 10 + imm o 7 6 * 2 ^ 5 + imm o 2 1 * 2 ^ 3 + imm o 5 5 * 2 ^ 2 := by
    unfold swizzleCB
    simp only [Nat.shiftLeft_eq]
    exact or5 12 10 5 3 (by omega) (by omega) (by omega) (by omega) (by omega) (by omega) (by omega) (by omega)
  rw [this]
  simp only [field]
  omega

theorem swizzleCJ_fields (o : Int) : swizzleCJ o < 2 ^ 13 ∧ field (swizzleCJ o) 1 0 = 0
    ∧ field (swizzleCJ o) 12 12 = imm o 11 11 ∧ field (swizzleCJ o) 8 8 = imm o 10 10
    ∧ field (swizzleCJ o) 10 9 = imm o 9 8 ∧ field (swizzleCJ o) 6 6 = imm o 7 7 ∧ field (swizzleCJ o) 7 7 = imm o 6 6
    ∧ field (swizzleCJ o) 2 2 = imm o 5 5 ∧ field (swizzleCJ o) 11 11 = imm o 4 4 ∧ field (swizzleCJ o) 5 3 = imm o 3 1 := by
  have h1 := imm_lt o 11 11
  have h2 := imm_lt o 4 4
  have h3 := imm_lt o 9 8
  have h4 := imm_lt o 10 10
  have h5 := imm_lt o 6 6
  have h6 := imm_lt o 7 7
  have h7 := imm_lt o 3 1
  have h8 := imm_lt o 5 5
  have : swizzleCJ o = imm o 11 11 * 2 ^ 12 + imm o 4 4 * 2 ^ 11 + imm o 9 8 * 2 ^ 9 + imm o 10 10 * 2 ^ 8
      + imm o 6 6 * 2 ^ 7 + imm o 7 7 * 2 ^ 6 + imm o 3 1 * 2 ^ 3 + imm o 5 5 * 2 ^ 2 := by
    unfold swizzleCJ
    simp only [Nat.shiftLeft_eq]
    refine Eq.trans (congrArg (fun x => x ||| imm o 5 5 * 2 ^ 2) (or7 12 11 9 8 7 6 (by omega) (by omega) (by omega) (by omega)
      (by omega) (by omega) (by omega) (by omega) (by omega) (by omega) (by omega) (by omega))) ?_
    exact or2 3 (by omega) (by omega)
  rw [this]
  simp only [field]
  omega

theorem imm_cast (o : Int) (t b : Nat) : ((imm o t b : Nat) : Int) = o / 2 ^ b % 2 ^ (t + 1 - b) := by
  unfold imm
  rw [Int.toNat_of_nonneg]
  exact Int.emod_nonneg _ (Int.ne_of_gt (Int.pow_pos (by decide)))

theorem cj_bits (o : Int) (he : o % 2 = 0) :
    o / 2048 % 2 * 2048 + o / 1024 % 2 * 1024 + o / 256 % 4 * 256 + o / 128 % 2 * 128 + o / 64 % 2 * 64 + o / 32 % 2 * 32
      + o / 16 % 2 * 16 + o / 2 % 8 * 2 = o % 4096 := by
  have a1 : o % 4096 = o / 2048 % 2 * 2048 + o % 2048 := by omega
  have a2 : o % 2048 = o / 1024 % 2 * 1024 + o % 1024 := by omega
  have a3 : o % 1024 = o / 256 % 4 * 256 + o % 256 := by omega
  have a4 : o % 256 = o / 128 % 2 * 128 + o % 128 := by omega
  have a5 : o % 128 = o / 64 % 2 * 64 + o % 64 := by omega
  have a6 : o % 64 = o / 32 % 2 * 32 + o % 32 := by omega
  have a7 : o % 32 = o / 16 % 2 * 16 + o % 16 := by omega
  have a8 : o % 16 = o / 2 % 8 * 2  := by omega
  rw [a1, a2, a3, a4, a5, a6, a7, a8]
  simp only [Int.add_assoc]
theorem cb_bits (o : Int) (he : o % 2 = 0) :
    o / 256 % 2 * 256 + o / 64 % 4 * 64 + o / 32 % 2 * 32 + o / 8 % 4 * 8 + o / 2 % 4 * 2 = o % 512 := by
  have a1 : o % 512 = o / 256 % 2 * 256 + o % 256 := by omega
  have a2 : o % 256 = o / 64 % 4 * 64 + o % 64 := by omega
  have a3 : o % 64 = o / 32 % 2 * 32 + o % 32 := by omega
  have a4 : o % 32 = o / 8 % 4 * 8 + o % 8 := by omega
  have a5 : o % 8 = o / 2 % 4 * 2 := by omega
  rw [a1, a2, a3, a4, a5]
  simp only [Int.add_assoc]

theorem jImm_of (o : Int) (w : Nat) (h : -2 ^ 20 ≤ o ∧ o < 2 ^ 20) (he : o % 2 = 0) (h1 : field w 31 31 = imm o 20 20)
    (h2 : field w 19 12 = imm o 19 12) (h3 : field w 20 20 = imm o 11 11) (h4 : field w 30 21 = imm o 10 1) : jImm w = o := by
  unfold jImm
  rw [h1, h2, h3, h4]
  apply sext_of 21 _ _ (by omega) _ (by omega)
  simp only [imm]
  omega

theorem bImm_of (o : Int) (w : Nat) (h : -2 ^ 12 ≤ o ∧ o < 2 ^ 12) (he : o % 2 = 0) (h1 : field w 31 31 = imm o 12 12)
    (h2 : field w 7 7 = imm o 11 11) (h3 : field w 30 25 = imm o 10 5) (h4 : field w 11 8 = imm o 4 1) : bImm w = o := by
  unfold bImm
  rw [h1, h2, h3, h4]
  apply sext_of 13 _ _ (by omega) _ (by omega)
  simp only [imm]
  omega

theorem cbImm_of (o : Int) (w : Nat) (h : -2 ^ 8 ≤ o ∧ o < 2 ^ 8) (he : o % 2 = 0) (h1 : field w 12 12 = imm o 8 8)
    (h2 : field w 6 5 = imm o 7 6) (h3 : field w 2 2 = imm o 5 5) (h4 : field w 11 10 = imm o 4 3)
    (h5 : field w 4 3 = imm o 2 1) : cbImm w = o := by
  unfold cbImm
  rw [h1, h2, h3, h4, h5]
  apply sext_of 9 _ _ (by omega) _ (by omega)
  have := cb_bits o he
  simp only [Int.natCast_add, Int.natCast_mul, imm_cast]
  exact this

theorem cjImm_of (o : Int) (w : Nat) (h : -2 ^ 11 ≤ o ∧ o < 2 ^ 11) (he : o % 2 = 0) (h1 : field w 12 12 = imm o 11 11)
    (h2 : field w 8 8 = imm o 10 10) (h3 : field w 10 9 = imm o 9 8) (h4 : field w 6 6 = imm o 7 7)
    (h5 : field w 7 7 = imm o 6 6) (h6 : field w 2 2 = imm o 5 5) (h7 : field w 11 11 = imm o 4 4)
    (h8 : field w 5 3 = imm o 3 1) : cjImm w = o := by
  unfold cjImm
  rw [h1, h2, h3, h4, h5, h6, h7, h8]
  apply sext_of 12 _ _ (by omega) _ (by omega)
  have := cj_bits o he
  simp only [Int.natCast_add, Int.natCast_mul, imm_cast]
  exact this

/-- A masked field joined with the rest. -/
theorem field_keep {w m s hi lo : Nat} (hm : field m hi lo = 2 ^ (hi + 1 - lo) - 1) (hs : field s hi lo = 0) :
    field (w &&& m ||| s) hi lo = field w hi lo := by
  rw [field_or, field_mask_keep _ _ _ _ hm, hs, Nat.or_zero]
theorem field_set {w m s hi lo : Nat} (hm : field m hi lo = 0) : field (w &&& m ||| s) hi lo = field s hi lo := by
  rw [field_or, field_mask_clear _ _ _ _ hm, Nat.zero_or]

/-- Major opcode of an instruction. -/
def opcodeOf : RV → Nat
  | .op f _ _ _ => match f with
    | .addw | .subw | .sllw | .srlw | .sraw | .mulw | .divw | .divuw | .remw | .remuw => 0b0111011
    | _ => 0b0110011
  | .opImm f _ _ _ => match f with
    | .addiw | .slliw | .srliw | .sraiw => 0b0011011
    | _ => 0b0010011
  | .lui _ _ => 0b0110111
  | .auipc _ _ => 0b0010111
  | .load _ _ _ _ => 0b0000011
  | .store _ _ _ _ => 0b0100011
  | .fload _ _ _ _ => 0b0000111
  | .fstore _ _ _ _ => 0b0100111
  | .jal _ _ => 0b1101111
  | .jalr _ _ _ => 0b1100111
  | .branch _ _ _ _ => 0b1100011
  | .ecall => 0b1110011
  | .ebreak => 0b1110011
  | _ => 0b1010011

theorem opcode_decode {w : Nat} {i : RV} (h : decode32 w = some i) : field w 6 0 = opcodeOf i := by
  unfold decode32 at h
  simp only at h
  split at h
  case h_3 e =>
    rw [e]; unfold decImm at h
    repeat' (first | contradiction | (cases h; rfl) | split at h)
  case h_4 e =>
    rw [e]; unfold decImm32 at h
    repeat' (first | contradiction | (cases h; rfl) | split at h)
  case h_15 e =>
    rw [e]
    unfold decFp decInt at h
    simp only at h
    repeat' (first | contradiction | (cases h; rfl) | split at h)
  case h_1 e => rw [e]; unfold decOp at h; split at h <;> cases h <;> rfl
  case h_2 e => rw [e]; unfold decOp32 at h; split at h <;> cases h <;> rfl
  case h_7 e => rw [e]; unfold decLoad at h; split at h <;> cases h <;> rfl
  case h_8 e => rw [e]; unfold decStore at h; split at h <;> cases h <;> rfl
  case h_11 e => rw [e]; unfold decBr at h; split at h <;> cases h <;> rfl
  case h_16 => cases h
  all_goals
    rename_i e
    rw [e]
    repeat' (first | contradiction | (cases h; rfl) | split at h)

theorem mask_lt {w m s n : Nat} (hm : m < 2 ^ n) (hs : s < 2 ^ n) : w &&& m ||| s < 2 ^ n :=
  Nat.or_lt_two_pow (Nat.and_lt_two_pow _ hm) hs

theorem mod_word {v : Nat} (h : v < 2 ^ 32) : v % 256 ^ 4 = v := Nat.mod_eq_of_lt (by omega)
theorem mod_half {v : Nat} (h : v < 2 ^ 16) : v % 256 ^ 2 = v := Nat.mod_eq_of_lt (by omega)

theorem wJal_decode (rd : Nat) (o : Int) (hd : rd < 32) (h : -2 ^ 20 ≤ o ∧ o < 2 ^ 20) (he : o % 2 = 0) :
    wJal rd o < 2 ^ 32 ∧ decode32 (wJal rd o) = some (.jal rd o) := by
  obtain ⟨a1, -, a3, a4, a5⟩ := utype_fields (swizzleJal o) rd 0x6f hd (by omega) _ rfl
  obtain ⟨s1, s2, s3, s4, s5, s6⟩ := swizzleJal_fields o
  refine ⟨a1, ?_⟩
  have hi : imm (swizzleJal o) 31 12 = swizzleJal o / 4096 := by
    simp only [imm]; omega
  rw [hi] at a5
  have : jImm (wJal rd o) = o := by
    apply jImm_of o _ h he
    · rw [← s3]; simp only [field, wJal] at *; omega
    · rw [← s4]; simp only [field, wJal] at *; omega
    · rw [← s5]; simp only [field, wJal] at *; omega
    · rw [← s6]; simp only [field, wJal] at *; omega
  simp only [wJal] at *
  simp only [decode32, a3, a4, this]

theorem jal_patch {w : Nat} {o : Int} (h : -2 ^ 20 ≤ o ∧ o < 2 ^ 20) (he : o % 2 = 0) (hw : w &&& 0x7f = 0x6f) :
    w &&& 0x7f ||| swizzleJal o < 2 ^ 32 ∧ decode32 (w &&& 0x7f ||| swizzleJal o) = some (.jal 0 o) := by
  obtain ⟨s1, s2, s3, s4, s5, s6⟩ := swizzleJal_fields o
  rw [hw]
  have e : 0x6f ||| swizzleJal o = swizzleJal o + 0x6f := by rw [Nat.or_comm]; exact or2 12 (by omega) (by omega)
  rw [e]
  generalize swizzleJal o = z at *
  refine ⟨by omega, ?_⟩
  have : jImm (z + 0x6f) = o := by
    apply jImm_of o _ h he
    · rw [← s3]; simp only [field] at *; omega
    · rw [← s4]; simp only [field] at *; omega
    · rw [← s5]; simp only [field] at *; omega
    · rw [← s6]; simp only [field] at *; omega
  have h1 : field (z + 0x6f) 6 0 = 0x6f := by simp only [field]; omega
  have h2 : field (z + 0x6f) 11 7 = 0 := by simp only [field]; omega
  simp only [decode32, h1, h2, this]

theorem jal_rd {w rd : Nat} {i : Int} (h : decode32 w = some (.jal rd i)) : field w 11 7 = rd := by
  have := opcode_decode h
  simp only [opcodeOf] at this
  simp only [decode32, this] at h
  cases h; rfl

theorem branch_patch {w : Nat} {o : Int} (h : -2 ^ 12 ≤ o ∧ o < 2 ^ 12) (he : o % 2 = 0) {f : BrOp} {a b : Nat} {i : Int}
    (hw : decode32 w = some (.branch f a b i)) :
    decode32 (w &&& 0x01fff07f ||| swizzleB o) = some (.branch f a b o) := by
  obtain ⟨s0, s1, s2, s3, s4, s5, s6, s7, s8⟩ := swizzleB_fields o
  have hop := opcode_decode hw
  simp only [opcodeOf] at hop
  simp only [decode32, hop] at hw
  have k1 : field (w &&& 0x01fff07f ||| swizzleB o) 6 0 = 0b1100011 := (field_keep (by decide) s1).trans hop
  have k2 : field (w &&& 0x01fff07f ||| swizzleB o) 14 12 = field w 14 12 := field_keep (by decide) s2
  have k3 : field (w &&& 0x01fff07f ||| swizzleB o) 19 15 = field w 19 15 := field_keep (by decide) s3
  have k4 : field (w &&& 0x01fff07f ||| swizzleB o) 24 20 = field w 24 20 := field_keep (by decide) s4
  have k5 : bImm (w &&& 0x01fff07f ||| swizzleB o) = o :=
    bImm_of o _ h he ((field_set (by decide)).trans s5) ((field_set (by decide)).trans s6) ((field_set (by decide)).trans s7)
      ((field_set (by decide)).trans s8)
  simp only [decode32, k1, k2, k3, k4, k5]
  cases hb : decBr (field w 14 12) with
  | none => rw [hb] at hw; cases hw
  | some g => rw [hb] at hw; cases hw; rfl

theorem cj_patch {w : Nat} {o : Int} (h : -2 ^ 11 ≤ o ∧ o < 2 ^ 11) (he : o % 2 = 0) (hw : w &&& 0xe003 = 0xa001) :
    w &&& 0xe003 ||| swizzleCJ o < 2 ^ 16 ∧ decode16 (w &&& 0xe003 ||| swizzleCJ o) = some (.jal 0 o) := by
  obtain ⟨s0, s1, s2, s3, s4, s5, s6, s7, s8, s9⟩ := swizzleCJ_fields o
  refine ⟨mask_lt (by omega) (by omega), ?_⟩
  have q1 : field (w &&& 0xe003) 1 0 = 1 := by rw [hw]; decide
  have q2 : field (w &&& 0xe003) 15 13 = 5 := by rw [hw]; decide
  have k0 : field (w &&& 0xe003 ||| swizzleCJ o) 1 0 = 1 := by rw [field_or, q1, s1]; rfl
  have k1 : field (w &&& 0xe003 ||| swizzleCJ o) 15 13 = 5 := by
    rw [field_or, q2, field_small _ 15 13 s0]; rfl
  have k2 : cjImm (w &&& 0xe003 ||| swizzleCJ o) = o :=
    cjImm_of o _ h he ((field_set (by decide)).trans s2) ((field_set (by decide)).trans s3) ((field_set (by decide)).trans s4)
      ((field_set (by decide)).trans s5) ((field_set (by decide)).trans s6) ((field_set (by decide)).trans s7)
      ((field_set (by decide)).trans s8) ((field_set (by decide)).trans s9)
  have k3 : (w &&& 0xe003 ||| swizzleCJ o) % 4 = 1 := by
    simp only [field] at k0; omega
  simp only [decode16, k3, decC1, k1, k2]

theorem cb_patch {w : Nat} {o : Int} (h : -2 ^ 8 ≤ o ∧ o < 2 ^ 8) (he : o % 2 = 0) (hw : w &&& 0xc003 = 0xc001) :
    w &&& 0xe383 ||| swizzleCB o < 2 ^ 16 ∧ ∀ f a b i, decode16 w = some (.branch f a b i) →
      decode16 (w &&& 0xe383 ||| swizzleCB o) = some (.branch f a b o) := by
  obtain ⟨s0, s1, s2, s3, s4, s5, s6, s7⟩ := swizzleCB_fields o
  refine ⟨mask_lt (by omega) (by omega), ?_⟩
  intro f a b i hd
  have q1 : field w 1 0 = 1 := by
    rw [← field_mask_keep w 0xc003 1 0 (by decide), hw]; decide
  have q2 : field w 15 14 = 3 := by
    rw [← field_mask_keep w 0xc003 15 14 (by decide), hw]; decide
  have q3 : field w 15 13 = 6 ∨ field w 15 13 = 7 := by simp only [field] at *; omega
  have q4 : w % 4 = 1 := by simp only [field] at q1; omega
  have k0 : field (w &&& 0xe383 ||| swizzleCB o) 1 0 = 1 := (field_keep (by decide) s1).trans q1
  have k1 : field (w &&& 0xe383 ||| swizzleCB o) 15 13 = field w 15 13 :=
    field_keep (by decide) (field_small _ 15 13 s0)
  have k2 : field (w &&& 0xe383 ||| swizzleCB o) 9 7 = field w 9 7 := field_keep (by decide) s2
  have k3 : cbImm (w &&& 0xe383 ||| swizzleCB o) = o :=
    cbImm_of o _ h he ((field_set (by decide)).trans s3) ((field_set (by decide)).trans s4) ((field_set (by decide)).trans s5)
      ((field_set (by decide)).trans s6) ((field_set (by decide)).trans s7)
  have k4 : (w &&& 0xe383 ||| swizzleCB o) % 4 = 1 := by
    simp only [field] at k0; omega
  rcases q3 with q | q
  · rw [q] at k1
    simp only [decode16, q4, decC1, q] at hd
    simp only [decode16, k4, decC1, k1, k2, k3]
    cases hd; rfl
  · rw [q] at k1
    simp only [decode16, q4, decC1, q] at hd
    simp only [decode16, k4, decC1, k1, k2, k3]
    cases hd; rfl

theorem hi20_fields (o : Int) (w : Nat) : hi20 o w < 2 ^ 32 ∧ field (hi20 o w) 6 0 = field w 6 0
    ∧ field (hi20 o w) 11 7 = field w 11 7
    ∧ (field (hi20 o w) 31 12 : Int) = ((o + 2048) / 4096) % 2 ^ 20 := by
  unfold hi20
  simp only []
  generalize hx : (if o % 4096 ≥ 2048 then o + 4096 else o) = x
  have hz : (((x % 2 ^ 32).toNat : Nat) : Int) = x % 2 ^ 32 := by omega
  generalize (x % 2 ^ 32).toNat = z at hz
  refine ⟨mask_lt (by omega) (Nat.and_lt_two_pow _ (by omega)), ?_, ?_, ?_⟩
  · exact field_keep (by decide) (field_mask_clear _ _ _ _ (by decide))
  · exact field_keep (by decide) (field_mask_clear _ _ _ _ (by decide))
  · rw [field_set (by decide), field_mask_keep _ _ _ _ (by decide)]
    have : field z 31 12 = z / 4096 := by simp only [field]; omega
    rw [this]
    split at hx <;> omega

/-- The upper part reaches the page the lower part completes. -/
theorem hi20_value {o : Int} {w : Nat} (h : -2 ^ 31 ≤ o ∧ o < 2 ^ 31 - 2048) :
    sext 20 (field (hi20 o w) 31 12) * 4096 = (o + 2048) / 4096 * 4096 := by
  rw [sext_of 20 _ ((o + 2048) / 4096) (by omega) (hi20_fields o w).2.2.2 (by omega)]

theorem lo12_fields (o : Int) (w : Nat) : lo12 o w < 2 ^ 32 ∧ field (lo12 o w) 6 0 = field w 6 0
    ∧ field (lo12 o w) 11 7 = field w 11 7 ∧ field (lo12 o w) 14 12 = field w 14 12
    ∧ field (lo12 o w) 19 15 = field w 19 15 ∧ (field (lo12 o w) 31 20 : Int) = o % 4096 := by
  unfold lo12
  have hz : (((o % 2 ^ 32).toNat : Nat) : Int) = o % 2 ^ 32 := by omega
  generalize (o % 2 ^ 32).toNat = z at hz
  have e : z &&& 0xfff = z % 4096 := Nat.and_two_pow_sub_one_eq_mod z 12
  rw [e]
  have hl : z % 4096 < 2 ^ 12 := by omega
  refine ⟨mask_lt (by omega) (by rw [Nat.shiftLeft_eq]; omega), ?_, ?_, ?_, ?_, ?_⟩
  · exact field_keep (by decide) (field_shl_below _ _ _ _ (by omega))
  · exact field_keep (by decide) (field_shl_below _ _ _ _ (by omega))
  · exact field_keep (by decide) (field_shl_below _ _ _ _ (by omega))
  · exact field_keep (by decide) (field_shl_below _ _ _ _ (by omega))
  · rw [field_set (by decide), field_shl_eq _ _ _ hl]
    omega

theorem lo12_patch {o : Int} {w : Nat} {i i' : RV} (hw : decode32 w = some i)
    (hs : setLo i (sext 12 (field (lo12 o w) 31 20)) = some i') : decode32 (lo12 o w) = some i' := by
  obtain ⟨-, k1, k2, k3, k4, -⟩ := lo12_fields o w
  have hop := opcode_decode hw
  generalize lo12 o w = z at *
  rw [hop] at k1
  cases i with
  | opImm f rd rs v =>
    cases f with
    | addi =>
      simp only [opcodeOf] at hop k1
      simp only [decode32, hop] at hw
      simp only [decode32, k1, k2, k3, k4]
      simp only [setLo] at hs
      unfold decImm at hw ⊢
      split at hw <;> first | contradiction | (cases hw; cases hs; rfl) | skip
      all_goals first | cases hw | (split at hw <;> first | cases hw | (split at hw <;> cases hw))
    | _ => cases hs
  | load f rd rs v =>
    simp only [opcodeOf] at hop k1
    simp only [decode32, hop] at hw
    simp only [decode32, k1, k2, k3, k4]
    simp only [setLo] at hs
    cases hl : decLoad (field w 14 12) with
    | none => rw [hl] at hw; cases hw
    | some g => rw [hl] at hw; cases hw; cases hs; rfl
  | fload d rd rs v =>
    simp only [opcodeOf] at hop k1
    simp only [decode32, hop] at hw
    simp only [decode32, k1, k2, k3, k4]
    simp only [setLo] at hs
    split at hw
    · rename_i e; cases hw; cases hs; rw [if_pos e]
    · rename_i e; split at hw
      · rename_i e2; cases hw; cases hs; rw [if_neg e, if_pos e2]
      · cases hw
  | jalr rd rs v =>
    simp only [opcodeOf] at hop k1
    simp only [decode32, hop] at hw
    simp only [decode32, k1, k2, k3, k4]
    simp only [setLo] at hs
    split at hw
    · rename_i e; cases hw; cases hs; rw [if_pos e]
    · cases hw
  | _ => cases hs

theorem adrPage_fields (a p w : Nat) (ha : a < 2 ^ 64) (hp : p < 2 ^ 64) :
    adrPage a p w < 2 ^ 32 ∧ field (adrPage a p w) 4 0 = field w 4 0
    ∧ field (adrPage a p w) 28 24 = field w 28 24 ∧ field (adrPage a p w) 31 31 = field w 31 31
    ∧ ((field (adrPage a p w) 23 5 * 4 + field (adrPage a p w) 30 29 : Nat) : Int)
      = ((a / 4096 : Nat) - (p / 4096 : Nat) : Int) % 2 ^ 21 := by
  unfold adrPage
  simp only [Nat.shiftRight_eq_div_pow]
  have hz : ((((((a / 2 ^ 12 : Nat) : Int) - ((p / 2 ^ 12 : Nat) : Int)) % 2 ^ 32).toNat : Nat) : Int)
      = (((a / 2 ^ 12 : Nat) : Int) - ((p / 2 ^ 12 : Nat) : Int)) % 2 ^ 32 := by omega
  generalize ((((a / 2 ^ 12 : Nat) : Int) - ((p / 2 ^ 12 : Nat) : Int)) % 2 ^ 32).toNat = z at hz
  have e1 : z &&& 0x03 = z % 4 := Nat.and_two_pow_sub_one_eq_mod z 2
  have e2 : (z &&& 0x1ffffc) <<< 3 = (field z 20 2) <<< 5 := by
    apply Nat.eq_of_testBit_eq
    intro i
    have hc : (0x1ffffc : Nat) = (2 ^ 19 - 1) <<< 2 := by decide
    rw [hc]
    simp only [Nat.testBit_shiftLeft, Nat.testBit_and, testBit_field, Nat.testBit_two_pow_sub_one]
    by_cases h3 : i ≥ 5
    · have : i - 3 ≥ 2 := by omega
      have h4 : 2 + (i - 5) = i - 3 := by omega
      have h5 : i - 3 - 2 = i - 5 := by omega
      have h6 : i ≥ 3 := by omega
      simp [h3, this, h4, h5, h6, Bool.and_comm]
    · have : ¬ i - 3 ≥ 2 := by omega
      simp [h3, this]
  rw [e1, e2, Nat.or_assoc]
  have hf : field z 20 2 = z / 4 % 2 ^ 19 := rfl
  have hs : (z % 4) <<< 29 ||| field z 20 2 <<< 5 = z % 4 * 2 ^ 29 + z / 4 % 2 ^ 19 * 2 ^ 5 := by
    rw [hf]
    simp only [Nat.shiftLeft_eq]
    exact or2 29 (by omega) (by omega)
  rw [hs]
  have hl : z % 4 * 2 ^ 29 + z / 4 % 2 ^ 19 * 2 ^ 5 < 2 ^ 32 := by omega
  refine ⟨mask_lt (by omega) hl, field_keep (by decide) ?_, field_keep (by decide) ?_, field_keep (by decide) ?_, ?_⟩
  · simp only [field]; omega
  · simp only [field]; omega
  · simp only [field]; omega
  · rw [field_set (by decide), field_set (by decide)]
    have g1 : field (z % 4 * 2 ^ 29 + z / 4 % 2 ^ 19 * 2 ^ 5) 23 5 = z / 4 % 2 ^ 19 := by simp only [field]; omega
    have g2 : field (z % 4 * 2 ^ 29 + z / 4 % 2 ^ 19 * 2 ^ 5) 30 29 = z % 4 := by simp only [field]; omega
    rw [g1, g2]
    omega

theorem addLo12_fields (a w : Nat) : addLo12 a w < 2 ^ 32 ∧ field (addLo12 a w) 9 0 = field w 9 0
    ∧ field (addLo12 a w) 31 22 = field w 31 22 ∧ field (addLo12 a w) 21 10 = a % 4096 := by
  unfold addLo12
  have e : (a <<< 10) &&& 0x3ffc00 = (a % 4096) <<< 10 := by
    have hc : (0x3ffc00 : Nat) = (2 ^ 12 - 1) <<< 10 := by decide
    rw [hc, ← Nat.shiftLeft_and_distrib, Nat.and_two_pow_sub_one_eq_mod]
  rw [e]
  have hl : a % 4096 < 2 ^ 12 := by omega
  refine ⟨mask_lt (by omega) (by rw [Nat.shiftLeft_eq]; omega), ?_, ?_, ?_⟩
  · exact field_keep (by decide) (field_shl_below _ _ _ _ (by omega))
  · exact field_keep (by decide) (field_shl_above _ _ _ _ hl (by omega))
  · rw [field_set (by decide), field_shl_eq _ _ _ hl]

theorem call26_fields (a p w : Nat) : call26 a p w < 2 ^ 32 ∧ field (call26 a p w) 31 26 = field w 31 26
    ∧ (field (call26 a p w) 25 0 : Int) = off a p / 4 % 2 ^ 26 := by
  unfold call26
  have e : (sub64 a p >>> 2) &&& 0x3ffffff = sub64 a p / 4 % 2 ^ 26 := by
    rw [Nat.shiftRight_eq_div_pow]; exact Nat.and_two_pow_sub_one_eq_mod _ 26
  rw [e]
  have hl : sub64 a p / 4 % 2 ^ 26 < 2 ^ 26 := by omega
  refine ⟨mask_lt (by omega) (by omega), ?_, ?_⟩
  · exact field_keep (by decide) (field_small _ _ _ hl)
  · rw [field_set (by decide)]
    have := off_spec a p
    simp only [field, sub64]
    omega

theorem lo_ok (a p w : Nat) : Im12 (sext 12 (field (lo12 (off a p) w) 31 20))
    ∧ ((p : Int) + sext 12 (field (lo12 (off a p) w) 31 20) - a) % 4096 = 0 := by
  obtain ⟨g0, g1, g2, g3, g4, g5⟩ := lo12_fields (off a p) w
  have hoh := off_spec a p
  constructor
  · unfold Im12 sext
    split <;> omega
  · unfold sext
    split <;> omega

theorem hi_ok (a p : Nat) (ha : a < 2 ^ 64) (lo : Int) (hlo : Im12 lo)
    (hm : ((p : Int) + (off a p + 2048) / 4096 * 4096 + lo - a) % 4096 = 0) :
    Reaches p ((off a p + 2048) / 4096 * 4096 + lo) a := by
  have hre := off_reaches a p ha
  have hos := off_spec a p
  unfold Im12 at hlo
  unfold Reaches at *
  omega

/-! ## Theorems -/

theorem meets_of_done {base : Nat} {p2 p1 : Option Rela} {r : Rela} {m0 m1 : List Nat} {a : Act}
    (ha : act base p2 p1 r = some a) (hd : Done a m0 m1) (hu : a ≠ .unhandled) (hf : Fits base r m0)
    (hr : r.addr < 2 ^ 64) : Meets base p2 p1 r m0 m1 := by
  obtain ⟨k, ofs, addr⟩ := r
  have hre := off_reaches addr (pcOf base ⟨k, ofs, addr⟩) hr
  have hpc : pcOf base ⟨k, ofs, addr⟩ < 2 ^ 64 := Nat.mod_lt _ (by omega)
  have hos := off_spec addr (pcOf base ⟨k, ofs, addr⟩)
  generalize hP : pcOf base ⟨k, ofs, addr⟩ = pc at *
  cases k <;> simp only [Meets, hP] <;> simp only [Fits, hP] at hf
  case x64_64 =>
    simp only [act, Option.some.injEq] at ha; subst ha
    obtain ⟨w, v, h1, h2, h3⟩ := hd
    cases h2
    rw [h3, Nat.mod_eq_of_lt (by simpa using hr)]
  case a64_abs64 =>
    simp only [act, Option.some.injEq] at ha; subst ha
    obtain ⟨w, v, h1, h2, h3⟩ := hd
    cases h2
    rw [h3, Nat.mod_eq_of_lt (by simpa using hr)]
  case rv_64 =>
    simp only [act, Option.some.injEq] at ha; subst ha
    obtain ⟨w, v, h1, h2, h3⟩ := hd
    cases h2
    rw [h3, Nat.mod_eq_of_lt (by simpa using hr)]
  case x64_pc32 =>
    simp only [act, hP, Option.some.injEq] at ha; subst ha
    obtain ⟨w, v, h1, h2, h3⟩ := hd
    cases h2
    refine ⟨_, h3, ?_⟩
    rw [mod_word (Nat.mod_lt _ (by omega)), sext_of 32 _ (off addr pc) (by omega) (by simp only [sub64]; omega) hf]
    exact hre
  case x64_plt32 =>
    simp only [act, hP, Option.some.injEq] at ha; subst ha
    obtain ⟨w, v, h1, h2, h3⟩ := hd
    cases h2
    refine ⟨_, h3, ?_⟩
    rw [mod_word (Nat.mod_lt _ (by omega)), sext_of 32 _ (off addr pc) (by omega) (by simp only [sub64]; omega) hf]
    exact hre
  case a64_adrPage =>
    simp only [act, hP, Option.some.injEq] at ha; subst ha
    obtain ⟨w, v, h1, h2, h3⟩ := hd
    cases h2
    obtain ⟨g0, g1, g2, g3, g4⟩ := adrPage_fields addr pc w hr hpc
    rw [mod_word g0] at h3
    refine ⟨_, _, h1, h3, g1, g2, g3, ?_⟩
    rw [sext_of 21 _ ((addr / 4096 : Nat) - (pc / 4096 : Nat) : Int) (by omega) g4 (by omega)]
    have hr' : addr < 2 ^ 64 := hr
    unfold Reaches
    omega
  case a64_addLo12 =>
    simp only [act, Option.some.injEq] at ha; subst ha
    obtain ⟨w, v, h1, h2, h3⟩ := hd
    cases h2
    obtain ⟨g0, g1, g2, g3⟩ := addLo12_fields addr w
    rw [mod_word g0] at h3
    exact ⟨_, _, h1, h3, g1, g2, g3⟩
  case a64_call26 =>
    simp only [act, hP, Option.some.injEq] at ha; subst ha
    obtain ⟨w, v, h1, h2, h3⟩ := hd
    cases h2
    obtain ⟨g0, g1, g2⟩ := call26_fields addr pc w
    rw [mod_word g0] at h3
    refine ⟨_, _, h1, h3, g1, ?_⟩
    rw [sext_of 26 _ _ (by omega) g2 (by omega)]
    have : off addr pc / 4 * 4 = off addr pc := by omega
    rw [this]; exact hre
  case a64_gotPage => cases ha
  case a64_gotLo12 => cases ha
  case rv_call =>
    simp only [act, hP] at ha
    split at ha
    · rename_i hb
      rw [inB_iff] at hb
      cases ha
      obtain ⟨w, v, h1, h2, h3⟩ := hd
      cases h2
      obtain ⟨g0, g1⟩ := wJal_decode 1 (off addr pc) (by omega) (by omega) hf
      rw [mod_word g0] at h3
      exact ⟨_, _, h3, g1, hre⟩
    · cases ha
  case rv_relax =>
    rintro ⟨q, rfl, hq⟩
    obtain ⟨kq, oq, aq⟩ := q
    simp only at hq
    subst hq
    cases ha
    obtain ⟨w, v, h1, h2, h3⟩ := hd
    cases h2
    exact ⟨_, h3, by decide⟩
  case rv_pcrelHi20 =>
    simp only [act, hP] at ha
    split at ha
    · rename_i hb
      rw [inB_iff] at hb
      cases ha
      obtain ⟨w, v, h1, h2, h3⟩ := hd
      cases h2
      obtain ⟨g0, g1, g2, g3⟩ := hi20_fields (off addr pc) w
      rw [mod_word g0] at h3
      refine ⟨_, _, h1, h3, ?_⟩
      intro rd i hw
      have hop := opcode_decode hw
      simp only [opcodeOf] at hop
      simp only [decode32, hop] at hw
      rw [hop] at g1
      refine ⟨(off addr pc + 2048) / 4096 * 4096, ?_, ?_⟩
      · simp only [decode32, g1, g2, hi20_value ⟨hb.1, hf⟩]
        cases hw; rfl
      · intro lo hlo hm
        exact hi_ok addr pc hr lo hlo hm
    · cases ha
  case rv_hi20 =>
    simp only [act] at ha
    split at ha
    · rename_i hb
      rw [inB_iff] at hb
      cases ha
      obtain ⟨w, v, h1, h2, h3⟩ := hd
      cases h2
      obtain ⟨g0, g1, g2, g3⟩ := hi20_fields (off addr 0) w
      rw [mod_word g0] at h3
      refine ⟨_, _, h1, h3, ?_⟩
      intro rd i hw
      have hop := opcode_decode hw
      simp only [opcodeOf] at hop
      simp only [decode32, hop] at hw
      rw [hop] at g1
      refine ⟨(off addr 0 + 2048) / 4096 * 4096, ?_, ?_⟩
      · simp only [decode32, g1, g2, hi20_value ⟨hb.1, hf⟩]
        cases hw; rfl
      · intro lo hlo hm
        exact hi_ok addr 0 hr lo hlo (by rw [Int.natCast_zero, Int.zero_add]; exact hm)
    · cases ha
  case rv_pcrelLo12 =>
    cases p2 with
    | none => cases ha
    | some h =>
      simp only [act] at ha
      split at ha
      · cases ha
        obtain ⟨w, v, h1, h2, h3⟩ := hd
        cases h2
        have g0 := (lo12_fields (off h.addr (pcOf base h)) w).1
        obtain ⟨l1, l2⟩ := lo_ok h.addr (pcOf base h) w
        rw [mod_word g0] at h3
        refine ⟨h, _, _, rfl, h1, h3, sext 12 (field (lo12 (off h.addr (pcOf base h)) w) 31 20), l1, l2, ?_⟩
        · intro i i' hi hs
          exact lo12_patch hi hs
      · cases ha
  case rv_lo12 =>
    cases p2 with
    | none => cases ha
    | some h =>
      simp only [act] at ha
      split at ha
      · cases ha
        obtain ⟨w, v, h1, h2, h3⟩ := hd
        cases h2
        have g0 := (lo12_fields (off h.addr 0) w).1
        obtain ⟨l1, l2⟩ := lo_ok h.addr 0 w
        rw [mod_word g0] at h3
        refine ⟨h, _, _, rfl, h1, h3, sext 12 (field (lo12 (off h.addr 0) w) 31 20), l1, ?_, ?_⟩
        · rw [Int.natCast_zero, Int.zero_add] at l2; exact l2
        · intro i i' hi hs
          exact lo12_patch hi hs
      · cases ha
  case rv_rvcJump =>
    simp only [act, hP] at ha
    split at ha
    · rename_i hb
      rw [inB_iff] at hb
      cases ha
      obtain ⟨w, v, h1, h2, h3⟩ := hd
      simp only at h2
      split at h2
      · rename_i hw
        cases h2
        obtain ⟨g0, g1⟩ := cj_patch (o := off addr pc) (by omega) hf hw
        rw [mod_half g0] at h3
        exact ⟨_, _, h3, g1, hre⟩
      · cases h2
    · cases ha
  case rv_jal =>
    simp only [act, hP] at ha
    split at ha
    · rename_i hb
      rw [inB_iff] at hb
      cases ha
      obtain ⟨w, v, h1, h2, h3⟩ := hd
      simp only at h2
      split at h2
      · rename_i hw
        cases h2
        obtain ⟨g0, g1⟩ := jal_patch (o := off addr pc) (by omega) hf.1 hw
        rw [mod_word g0] at h3
        refine ⟨_, _, h1, h3, ?_⟩
        intro rd i hdw
        have e := jal_rd hdw
        rw [hf.2 w h1] at e
        subst e
        exact ⟨_, g1, hre⟩
      · cases h2
    · cases ha
  case rv_branch =>
    simp only [act, hP] at ha
    split at ha
    · cases ha
      obtain ⟨w, v, h1, h2, h3⟩ := hd
      cases h2
      rw [mod_word (mask_lt (by omega) (swizzleB_fields _).1)] at h3
      exact ⟨_, _, h1, h3, fun f a b i hw => ⟨_, branch_patch (by omega) hf.1 hw, hre⟩⟩
    · cases ha
  case rv_rvcBranch =>
    simp only [act, hP] at ha
    split at ha
    · rename_i hb
      rw [inB_iff] at hb
      cases ha
      obtain ⟨w, v, h1, h2, h3⟩ := hd
      simp only at h2
      split at h2
      · rename_i hw
        cases h2
        obtain ⟨g0, g1⟩ := cb_patch (o := off addr pc) (by omega) hf hw
        rw [mod_half g0] at h3
        exact ⟨_, _, h1, h3, fun f a b i hd => ⟨_, g1 f a b i hd, hre⟩⟩
      · cases h2
    · cases ha
  case other => cases ha; exact absurd rfl hu

/-- **C41.** When the linker finishes a section's relocations without error, every relocation holds in the result, and bytes no
relocation covers are unchanged. Missing: distances the linker does not check (`Fits`), see the findings below. -/
theorem resolve_correct_partial (base : Nat) (rs : List Rela) (m0 m1 : List Nat)
    (h : resolve base none none rs m0 0 = some (m1, 0)) (hd : (spans none rs).Pairwise Apart)
    (hr : ∀ r ∈ rs, r.addr < 2 ^ 64) (hf : ∀ r ∈ rs, Fits base r m0) :
    (∀ c ∈ ctx none none rs, Meets base c.1 c.2.1 c.2.2 m0 m1)
    ∧ m1.length = m0.length
    ∧ ∀ i, (∀ s ∈ spans none rs, i < s.1 ∨ s.1 + s.2 ≤ i) → m1[i]? = m0[i]? := by
  have hm : ∀ (q2 q1 : Option Rela) (xs : List Rela) c, c ∈ ctx q2 q1 xs → c.2.2 ∈ xs := by
    intro q2 q1 xs
    induction xs generalizing q2 q1 with
    | nil => intro c hc; cases hc
    | cons x xs ih =>
      intro c hc
      simp only [ctx, List.mem_cons] at hc
      rcases hc with rfl | hc
      · simp
      · exact List.mem_cons_of_mem _ (ih _ _ c hc)
  refine ⟨fun c hc => ?_, resolve_frame h⟩
  obtain ⟨a, ha, hdn, hu⟩ := resolve_done h hd c hc
  exact meets_of_done ha hdn (fun e => absurd (hu e) (by omega)) (hf _ (hm _ _ _ _ hc)) (hr _ (hm _ _ _ _ hc))

/-- The hypotheses hold for a `la` pair followed by a call, linked at `0x10000`. -/
example : resolve 0x10000 none none
    [⟨.rv_pcrelHi20, 0, 0x12abc⟩, ⟨.rv_relax, 0, 0⟩, ⟨.rv_pcrelLo12, 4, 0x12abc⟩, ⟨.rv_relax, 4, 0⟩, ⟨.rv_call, 8, 0x10100⟩,
      ⟨.rv_relax, 8, 0⟩]
    [0x17, 5, 0, 0, 0x13, 5, 5, 0, 0x97, 0, 0, 0, 0xe7, 0x80, 0, 0] 0
    = some ([0x17, 0x35, 0, 0, 0x13, 5, 0xc5, 0xab, 0xef, 0, 0x80, 0x0f, 0x13, 0, 0, 0], 0) := by decide +kernel
example : (spans none
    [⟨.rv_pcrelHi20, 0, 0x12abc⟩, ⟨.rv_relax, 0, 0⟩, ⟨.rv_pcrelLo12, 4, 0x12abc⟩, ⟨.rv_relax, 4, 0⟩, ⟨.rv_call, 8, 0x10100⟩,
      ⟨.rv_relax, 8, 0⟩]).Pairwise Apart := by
  simp [spans, span, Apart]

theorem auipc_page {w rd : Nat} {hi : Int} (h : decode32 w = some (.auipc rd hi)) : hi % 4096 = 0 := by
  have hop := opcode_decode h
  simp only [opcodeOf] at hop
  simp only [decode32, hop] at h
  cases h
  omega

/-- **C41.** An `auipc`/`addi` pair with its `PCREL_HI20` and `PCREL_LO12_I` relocations computes the address exactly and keeps
its registers. -/
theorem pcrel_pair_partial (base : Nat) (rs : List Rela) (m0 m1 : List Nat)
    (h : resolve base none none rs m0 0 = some (m1, 0)) (hd : (spans none rs).Pairwise Apart)
    (hr : ∀ r ∈ rs, r.addr < 2 ^ 64) (hf : ∀ r ∈ rs, Fits base r m0)
    (hi lo : Rela) (c1 c2 c3 : Option Rela) (kh : hi.kind = .rv_pcrelHi20) (kl : lo.kind = .rv_pcrelLo12)
    (ch : (c1, c2, hi) ∈ ctx none none rs) (cl : (some hi, c3, lo) ∈ ctx none none rs)
    (wh wl rd rd' rx : Nat) (i j : Int)
    (eh : load 4 hi.ofs m0 = some wh) (dh : decode32 wh = some (.auipc rd i))
    (el : load 4 lo.ofs m0 = some wl) (dl : decode32 wl = some (.opImm .addi rd' rx j)) :
    ∃ wh' wl' i' j', load 4 hi.ofs m1 = some wh' ∧ load 4 lo.ofs m1 = some wl' ∧ decode32 wh' = some (.auipc rd i')
      ∧ decode32 wl' = some (.opImm .addi rd' rx j') ∧ Reaches (pcOf base hi) (i' + j') hi.addr := by
  have H := (resolve_correct_partial base rs m0 m1 h hd hr hf).1
  have Hh := H _ ch
  have Hl := H _ cl
  simp only [Meets, kh] at Hh
  simp only [Meets, kl] at Hl
  obtain ⟨w0, w, a1, a2, a3⟩ := Hh
  rw [eh] at a1; cases a1
  obtain ⟨i', b1, b2⟩ := a3 rd i dh
  obtain ⟨q, v0, v, hq, d1, d2, j', d3, d4, d5⟩ := Hl
  cases hq
  rw [el] at d1; cases d1
  have hp := auipc_page b1
  refine ⟨w, v, i', j', a2, d2, b1, d5 _ _ dl rfl, b2 j' d3 ?_⟩
  omega

/-! ## Findings -/

theorem put_load_some {n o : Nat} {m : List Nat} (h : o + n ≤ m.length) : ∃ w, load n o m = some w := by
  unfold load; rw [if_pos h]; exact ⟨_, rfl⟩

/-- **Finding.** A PC-relative x86-64 reference whose target is 2 GiB or more away is truncated without any error. -/
theorem pc32_truncated (base ofs addr : Nat) (m : List Nat) (hb : ofs + 4 ≤ m.length)
    (hfar : ¬ (-2 ^ 31 ≤ off addr (pcOf base ⟨.x64_pc32, ofs, addr⟩) ∧ off addr (pcOf base ⟨.x64_pc32, ofs, addr⟩) < 2 ^ 31)) :
    ∃ m1 w, resolve base none none [⟨.x64_pc32, ofs, addr⟩] m 0 = some (m1, 0) ∧ load 4 ofs m1 = some w
      ∧ ¬ Reaches (pcOf base ⟨.x64_pc32, ofs, addr⟩) (sext 32 w) addr := by
  obtain ⟨w0, hw⟩ := put_load_some hb
  have hos := off_spec addr (pcOf base ⟨.x64_pc32, ofs, addr⟩)
  generalize hP : pcOf base ⟨.x64_pc32, ofs, addr⟩ = pc at *
  refine ⟨put 4 ofs (sub64 addr pc % 2 ^ 32) m, _, ?_, load_put hb, ?_⟩
  · simp only [resolve, act, exec, hP, hw]
  · unfold Reaches sext
    split <;> omega
example : ¬ (-2 ^ 31 ≤ off 0x100000000 (pcOf 0 ⟨.x64_pc32, 0, 0x100000000⟩)
    ∧ off 0x100000000 (pcOf 0 ⟨.x64_pc32, 0, 0x100000000⟩) < 2 ^ 31) := by decide

/-- **Finding.** A RISC-V branch between 4 KiB and 8 KiB away passes the `assert` (which allows ±8 KiB) although the field
holds ±4 KiB: whatever the instruction was, it now branches somewhere else. -/
theorem branch_truncated (base ofs addr : Nat) (m : List Nat) (hb : ofs + 4 ≤ m.length)
    (hfar : (2 ^ 12 ≤ off addr (pcOf base ⟨.rv_branch, ofs, addr⟩) ∧ off addr (pcOf base ⟨.rv_branch, ofs, addr⟩) < 2 ^ 13)
      ∨ (-2 ^ 13 ≤ off addr (pcOf base ⟨.rv_branch, ofs, addr⟩) ∧ off addr (pcOf base ⟨.rv_branch, ofs, addr⟩) < -2 ^ 12)) :
    ∃ m1 w, resolve base none none [⟨.rv_branch, ofs, addr⟩] m 0 = some (m1, 0) ∧ load 4 ofs m1 = some w
      ∧ ∀ f a b o, decode32 w = some (.branch f a b o) → ¬ Reaches (pcOf base ⟨.rv_branch, ofs, addr⟩) o addr := by
  obtain ⟨w0, hw⟩ := put_load_some hb
  have hos := off_spec addr (pcOf base ⟨.rv_branch, ofs, addr⟩)
  generalize hP : pcOf base ⟨.rv_branch, ofs, addr⟩ = pc at *
  have hin : inB (off addr pc) 13 = true := by rw [inB_iff]; omega
  refine ⟨put 4 ofs (w0 &&& 0x01fff07f ||| swizzleB (off addr pc)) m, _, ?_, load_put hb, ?_⟩
  · simp only [resolve, act, exec, hP, hw, hin, if_true]
  · intro f a b o hd
    have hop := opcode_decode hd
    simp only [opcodeOf] at hop
    simp only [decode32, hop] at hd
    have ho : -2 ^ 12 ≤ o ∧ o < 2 ^ 12 := by
      cases hb : decBr (field ((w0 &&& 0x01fff07f ||| swizzleB (off addr pc)) % 256 ^ 4) 14 12) with
      | none => rw [hb] at hd; cases hd
      | some g =>
        rw [hb] at hd
        cases hd
        generalize (w0 &&& 0x01fff07f ||| swizzleB (off addr pc)) % 256 ^ 4 = z
        have z1 := field_lt z 31 31
        have z2 := field_lt z 7 7
        have z3 := field_lt z 30 25
        have z4 := field_lt z 11 8
        unfold bImm sext
        split <;> omega
    unfold Reaches
    omega
example : (2 ^ 12 ≤ off 0x1800 (pcOf 0 ⟨.rv_branch, 0, 0x1800⟩) ∧ off 0x1800 (pcOf 0 ⟨.rv_branch, 0, 0x1800⟩) < 2 ^ 13) := by
  decide

/-- **Finding.** `R_RISCV_JAL` clears the link register: a relocated `jal ra, f` no longer saves the return address. -/
theorem jal_link_lost : decode32 0xef = some (.jal 1 0)
    ∧ resolve 0 none none [⟨.rv_jal, 0, 0x100⟩] [0xef, 0, 0, 0] 0 = some ([0x6f, 0, 0, 0x10], 0)
    ∧ decode32 0x1000006f = some (.jal 0 0x100) := by decide +kernel

/-- **Finding.** The last 2 KiB of the ±2 GiB the `assert` of `R_RISCV_HI20` admits are loaded 4 GiB too low. -/
theorem hi20_wraps (o : Int) (w : Nat) (h : 2 ^ 31 - 2048 ≤ o ∧ o < 2 ^ 31) :
    inB o 31 = true ∧ sext 20 (field (hi20 o w) 31 12) * 4096 + (o - (o + 2048) / 4096 * 4096) = o - 2 ^ 32 := by
  refine ⟨by rw [inB_iff]; omega, ?_⟩
  have h1 := (hi20_fields o w).2.2.2
  unfold sext
  split <;> omega
example : (2 : Int) ^ 31 - 2048 ≤ 2 ^ 31 - 1 := by decide

/-- **Finding.** Calls of more than 512 KiB are not linked at all (failing `assert`), though the instruction pair the assembler
reserved would reach. -/
theorem far_call_rejected (base ofs addr : Nat) (m : List Nat) (e : Nat) (rs : List Rela)
    (hfar : 2 ^ 19 ≤ off addr (pcOf base ⟨.rv_call, ofs, addr⟩)) :
    resolve base none none (⟨.rv_call, ofs, addr⟩ :: rs) m e = none := by
  have : inB (off addr (pcOf base ⟨.rv_call, ofs, addr⟩)) 19 = false := by
    cases hb : inB (off addr (pcOf base ⟨.rv_call, ofs, addr⟩)) 19 with
    | false => rfl
    | true => rw [inB_iff] at hb; omega
  simp only [resolve, act, this]
  rfl
example : (2 : Int) ^ 19 ≤ off 0x90000 (pcOf 0x1000 ⟨.rv_call, 0, 0x90000⟩) := by decide

/-! ## Symbol addresses -/

/-- `st_shndx` (elf.h): a section, the common pseudo section, or another reserved value. -/
inductive Shndx | sec (i : Nat) | common
  deriving DecidableEq, Repr

inductive Bind | «local» | global | weak
  deriving DecidableEq, Repr

/-- `Elf64_Sym`, the fields the linker uses. -/
structure Sym where
  bind : Bind
  isSection : Bool
  shndx : Shndx
  value : Nat
  name : String := ""
  deriving DecidableEq, Repr

/-- What `calc_rela_sym_address` reads of an object: the load address of each section (`progbits.address`), the bss section
(`nobit_shndx`) and the symbols. -/
structure Obj where
  secAddr : List Nat
  nobit : Option Nat
  syms : List Sym

/-- ld.c:182-214 `calc_rela_sym_address`. `glob` is `ld_symbol_address` (ld.c:124-154); its failure trips the `assert`. The early
`return (uint64_t)-1` for a local common symbol without bss is kept. -/
def calcAddr (glob : String → Option Nat) (ob : Obj) (symIdx : Nat) (addend : Int) : Option Nat :=
  match ob.syms[symIdx]? with
  | none => none
  | some s =>
    match s.bind with
    | .local =>
      if s.isSection then
        (ob.secAddr[symIdx]?).map (fun a => (((a : Int) + addend) % 2 ^ 64).toNat)
      else
        match s.shndx, ob.nobit with
        | .sec i, _ => (ob.secAddr[i]?).map (fun a => (((a : Int) + s.value + addend) % 2 ^ 64).toNat)
        | .common, none => some (2 ^ 64 - 1)
        | .common, some i => (ob.secAddr[i]?).map (fun a => (((a : Int) + s.value + addend) % 2 ^ 64).toNat)
    | _ => (glob s.name).map (fun a => (((a : Int) + addend) % 2 ^ 64).toNat)

/-- emit_elf.c:322-328: non-empty sections are numbered from 1, the others keep index 0. -/
def assignIdx : Nat → List Nat → List Nat
  | _, [] => []
  | c, 0 :: ss => 0 :: assignIdx c ss
  | c, (_ + 1) :: ss => (c + 1) :: assignIdx (c + 1) ss

/-- emit_elf.c:97-104: the section symbols, in the same order. -/
def secSyms : List (Nat × Nat) → List Sym
  | [] => []
  | (0, _) :: ss => secSyms ss
  | (_ + 1, i) :: ss => ⟨.local, true, .sec i, 0, ""⟩ :: secSyms ss

/-- emit_elf.c:91-104: the symbol table starts with the null symbol and the section symbols; `rest` are the labels. -/
def symtab (sizes : List Nat) (rest : List Sym) : List Sym :=
  ⟨.local, false, .sec 0, 0, ""⟩ :: (secSyms (sizes.zip (assignIdx 0 sizes)) ++ rest)

/-- Meaning of a symbol: where its section was placed, plus its value. -/
def symMeans (glob : String → Option Nat) (ob : Obj) (s : Sym) : Option Nat :=
  match s.bind with
  | .local =>
    match s.shndx with
    | .sec i => (ob.secAddr[i]?).map (· + s.value)
    | .common => (ob.nobit.bind (ob.secAddr[·]?)).map (· + s.value)
  | _ => glob s.name

theorem secSyms_index (sizes : List Nat) (c k : Nat) (s : Sym)
    (h : (secSyms (sizes.zip (assignIdx c sizes)))[k]? = some s) : s = ⟨.local, true, .sec (c + k + 1), 0, ""⟩ := by
  induction sizes generalizing c k with
  | nil => simp [secSyms] at h
  | cons z zs ih =>
    cases z with
    | zero => exact ih c k (by simpa [assignIdx, secSyms] using h)
    | succ z =>
      simp only [assignIdx, List.zip_cons_cons, secSyms] at h
      cases k with
      | zero => cases h; rfl
      | succ k =>
        rw [List.getElem?_cons_succ] at h
        have := ih (c + 1) k h
        rw [this]
        congr 2
        omega

/-- **C41.** In the objects xcc's assembler writes, a relocation against any symbol (a section symbol, a local label, a global)
is resolved to the meaning of the symbol plus the addend. Missing: a local common symbol in an object without bss. -/
theorem calcAddr_correct_partial (glob : String → Option Nat) (ob : Obj) (sizes : List Nat) (rest : List Sym) (k : Nat) (s : Sym)
    (addend : Int) (hs : ob.syms = symtab sizes rest) (hrest : ∀ t ∈ rest, t.isSection = false)
    (hk : ob.syms[k]? = some s) (hc : s.shndx = .common → ob.nobit ≠ none) :
    calcAddr glob ob k addend = (symMeans glob ob s).map (fun a => (((a : Int) + addend) % 2 ^ 64).toNat) := by
  have hsec : s.isSection = true → s.shndx = .sec k ∧ s.value = 0 := by
    intro ht
    rw [hs] at hk
    unfold symtab at hk
    cases k with
    | zero => simp only [List.getElem?_cons_zero, Option.some.injEq] at hk; subst hk; cases ht
    | succ k =>
      rw [List.getElem?_cons_succ] at hk
      by_cases hl : k < (secSyms (sizes.zip (assignIdx 0 sizes))).length
      · rw [List.getElem?_append_left hl] at hk
        have := secSyms_index sizes 0 k s hk
        subst this
        exact ⟨by rw [Nat.zero_add], rfl⟩
      · rw [List.getElem?_append_right (by omega)] at hk
        have := hrest s (List.mem_of_getElem? hk)
        rw [this] at ht; cases ht
  unfold calcAddr symMeans
  rw [hk]
  obtain ⟨b, t, x, v, n⟩ := s
  cases b
  case «local» =>
    cases t
    case true =>
      obtain ⟨h1, h2⟩ := hsec rfl
      simp only at h1 h2
      subst h1 h2
      simp only [if_true, Option.map_map]
      cases ob.secAddr[k]? <;> simp
    case false =>
      cases x with
      | sec i =>
        simp only [Option.map_map]
        cases ob.secAddr[i]? <;> simp
      | common =>
        cases hn : ob.nobit with
        | none => exact absurd hn (hc rfl)
        | some i =>
          simp only [Option.map_map, Option.bind_some]
          cases ob.secAddr[i]? <;> simp
  all_goals simp

/-- The hypotheses hold for an object with `.text`, an empty `.rodata` and `.data`: symbol 2 is `.data`, symbol 3 a label in it. -/
example : calcAddr (fun _ => none) ⟨[0, 0x1000, 0x2000], none, symtab [16, 0, 8] [⟨.local, false, .sec 2, 4, "x"⟩]⟩ 2 4 = some 0x2004
    ∧ calcAddr (fun _ => none) ⟨[0, 0x1000, 0x2000], none, symtab [16, 0, 8] [⟨.local, false, .sec 2, 4, "x"⟩]⟩ 3 0 = some 0x2004 := by
  decide

/-- **Finding.** A section symbol is taken for the section with the number of the *symbol*, not the one it names (`st_shndx`):
in an object of another assembler whose first section symbol is for section 2, references into section 2 go to section 1. -/
theorem section_symbol_by_index :
    let ob : Obj := ⟨[0, 0x1000, 0x2000], none, [⟨.local, false, .sec 0, 0, ""⟩, ⟨.local, true, .sec 2, 0, ""⟩]⟩
    calcAddr (fun _ => none) ob 1 0 = some 0x1000 ∧ symMeans (fun _ => none) ob ⟨.local, true, .sec 2, 0, ""⟩ = some 0x2000 := by
  decide

end Verif.Reloc

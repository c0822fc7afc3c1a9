/-!
# Byte memory used by the models of libsrc

Addresses are `Nat`s, bytes `Nat`s below 256.  `m a = none` means that `a` is not
part of any object: reading or writing it is undefined behaviour in C and makes the
model return `none`.  Address arithmetic does not wrap (no object ends at the top of
the address space).
-/
namespace Verif.Mem

abbrev Mem := Nat → Option Nat

/-- Read one byte. -/
def ld (m : Mem) (a : Nat) : Option Nat := m a

/-- Write one byte to a mapped address. -/
def st (m : Mem) (a v : Nat) : Option Mem :=
  if (m a).isSome then some (fun x => if x = a then some v else m x) else none

/-- Value of a `char` holding byte `b` where `char` is signed (x86-64, RISC-V under
xcc: `tyChar` has `is_unsigned=false`, src/cc/frontend/type.c:12). -/
def schar (b : Nat) : Int := if b < 128 then b else (b : Int) - 256

/-- All addresses of `[a, a+n)` are mapped. -/
def Mapped (m : Mem) (a n : Nat) : Prop := ∀ i < n, (m (a + i)).isSome

/-- `m` holds the bytes `l` from address `a`. -/
def Holds (m : Mem) (a : Nat) : List Nat → Prop
  | [] => True
  | c :: cs => m a = some c ∧ Holds m (a + 1) cs

/-- `m` holds at `a` the NUL-terminated string `s` (bytes without the NUL). -/
def CStr (m : Mem) (a : Nat) : List Nat → Prop
  | [] => m a = some 0
  | c :: cs => m a = some c ∧ c ≠ 0 ∧ CStr m (a + 1) cs

theorem st_mapped {m : Mem} {a v : Nat} (h : (m a).isSome) :
    st m a v = some (fun x => if x = a then some v else m x) := if_pos h

theorem Mapped.tail {m : Mem} {a n : Nat} (h : Mapped m a (n + 1)) : Mapped m (a + 1) n := by
  intro i hi
  have := h (i + 1) (by omega)
  rwa [show a + (i + 1) = a + 1 + i by omega] at this

theorem Mapped.head {m : Mem} {a n : Nat} (h : Mapped m a (n + 1)) : (m a).isSome := h 0 (by omega)

theorem Mapped.mono {m m' : Mem} (hm : ∀ x, (m x).isSome → (m' x).isSome) {a n : Nat}
    (h : Mapped m a n) : Mapped m' a n := fun i hi => hm _ (h i hi)

theorem upd_isSome (m : Mem) (a v : Nat) (h : (m a).isSome) (x : Nat) :
    (if x = a then some v else m x : Option Nat).isSome = (m x).isSome := by
  split
  · rename_i hx; subst hx; simp [h]
  · rfl

theorem Holds.get {m : Mem} {a : Nat} {l : List Nat} (h : Holds m a l) (i : Nat) (hi : i < l.length) :
    m (a + i) = some l[i] := by
  induction l generalizing a i with
  | nil => simp at hi
  | cons c cs ih =>
    cases i with
    | zero => simpa using h.1
    | succ i =>
      have := ih h.2 i (by simpa using hi)
      rw [show a + (i + 1) = a + 1 + i by omega]; simpa using this

theorem holds_of_get {m : Mem} {a : Nat} {l : List Nat} (h : ∀ i, (hi : i < l.length) → m (a + i) = some l[i]) :
    Holds m a l := by
  induction l generalizing a with
  | nil => trivial
  | cons c cs ih =>
    refine ⟨h 0 (Nat.zero_lt_succ _), ih fun i hi => ?_⟩
    have := h (i + 1) (by simpa using hi)
    rw [show a + 1 + i = a + (i + 1) by omega]; simpa using this

theorem CStr.holds {m : Mem} {a : Nat} {s : List Nat} (h : CStr m a s) : Holds m a (s ++ [0]) := by
  induction s generalizing a with
  | nil => exact ⟨h, trivial⟩
  | cons c cs ih => exact ⟨h.1, ih h.2.2⟩

theorem CStr.ne_zero {m : Mem} {a : Nat} {s : List Nat} (h : CStr m a s) : ∀ c ∈ s, c ≠ 0 := by
  induction s generalizing a with
  | nil => simp
  | cons c cs ih =>
    intro x hx
    rcases List.mem_cons.1 hx with rfl | hx
    · exact h.2.1
    · exact ih h.2.2 x hx

theorem cstr_of_holds {m : Mem} {a : Nat} {s : List Nat} (h : Holds m a (s ++ [0])) (hz : ∀ c ∈ s, c ≠ 0) :
    CStr m a s := by
  induction s generalizing a with
  | nil => exact h.1
  | cons c cs ih => exact ⟨h.1, hz c (by simp), ih h.2 (fun x hx => hz x (by simp [hx]))⟩

theorem Holds.mapped {m : Mem} {a : Nat} {l : List Nat} (h : Holds m a l) : Mapped m a l.length :=
  fun i hi => by rw [h.get i hi]; rfl

/-- A memory with the bytes `l` at `a` and nothing else. -/
def ofBytes (a : Nat) (l : List Nat) : Mem := fun x => if a ≤ x then l[x - a]? else none

theorem ofBytes_holds (a : Nat) (l : List Nat) : Holds (ofBytes a l) a l :=
  holds_of_get fun i hi => by simp [ofBytes, hi]

end Verif.Mem

import Verif.As.X64Text
/-
What the compiler writes is what the assembler reads (C76), x86-64: proofs about the model in X64Text.
-/
namespace Verif.X64Text
open Verif.Util Verif.X64
open Verif.AsmExpr (chk)

/-! ## Specification: what can be written -/

/-- A 64-bit constant. -/
def I64 (v : Int) : Prop := -2 ^ 63 ≤ v ∧ v < 2 ^ 63

/-- A label: a letter, `_` or `.`, then such characters and digits; not a number like `.5`. -/
def LabelOk (l : Str) : Prop :=
  ∃ c t, l = c :: t ∧ isLabel1 c = true ∧ (∀ x ∈ t, isLabelC x = true) ∧ ¬(c = 46 ∧ isDigit (hd t) = true)

/-- Memory operands as the compiler writes them: `offset_indirect` takes an `int`, constant addresses are 32 bits. -/
def MemOk (m : Mem) : Prop :=
  match m.base, m.index with
  | some b, none => b < 16 ∧ X64Enc.im32 m.disp
  | some b, some (i, k) => b < 16 ∧ i < 16 ∧ k < 4 ∧ X64Enc.im32 m.disp
  | none, none => 0 ≤ m.disp ∧ m.disp < 2 ^ 32
  | none, some _ => False

/-- Memory operands without an index register or a constant address. -/
def MemB (m : Mem) : Prop := MemOk m ∧ m.base.isSome = true ∧ m.index = none

/-- Operand sizes a conversion goes between. -/
def ExtOk (s d : Rg) : Prop := s.z.bits < d.z.bits

/-- The instructions the assembler has a mnemonic and an operand combination for, with operands that exist. -/
def Writable : LI → Prop
  | .a (.i x) => match x with
    | .mov s d | .alu _ s d | .test s d => X64Enc.Wf s ∧ X64Enc.Wf d ∧ s.z = d.z
    | .movI v d | .aluI _ v d => I64 v ∧ X64Enc.Wf d
    | .movx _ s d => X64Enc.Wf s ∧ X64Enc.Wf d ∧ ExtOk s d
    | .un _ d | .md _ d | .sh _ d => X64Enc.Wf d
    | .shI _ c d => c < 2 ^ 63 ∧ X64Enc.Wf d
    | .cwtl | .cltd | .cqto => True
    | .set cc d => cc < 16 ∧ X64Enc.Wf d ∧ d.z = .b
    | .lea m d => MemOk m ∧ m.base.isSome = true ∧ X64Enc.Wf d ∧ d.z = .q
    | .load m d => MemOk m ∧ X64Enc.Wf d
    | .store s m => MemOk m ∧ m.index = none ∧ X64Enc.Wf s
    | .storeI _ v m => MemOk m ∧ m.index = none ∧ I64 v
  | .a (.aluM o m d) => (o = .add ∨ o = .sub) ∧ MemOk m ∧ m.base.isSome = true ∧ X64Enc.Wf d
  | .a (.aluMI o z v m) => (o = .add ∨ o = .sub) ∧ z = .q ∧ MemB m ∧ I64 v
  | .a (.unM o _ m) => (o = .inc ∨ o = .dec) ∧ MemB m
  | .a (.push n) | .a (.pop n) | .a (.jmpR n) | .a (.callR n) => n < 16
  | .a (.pushI v) => I64 v
  | .a (.jmpM m) => MemOk m ∧ m.base.isSome = true
  | .a .ret | .a .syscall | .a .endbr => True
  | .a (.int v) => v < 2 ^ 63
  | .a (.sse o s x d) => ¬(o = .sqrt ∧ s = true) ∧ x < 16 ∧ d < 16
  | .a (.sseLoad _ m d) | .a (.sseStore _ d m) => MemB m ∧ d < 16
  | .a (.cvtI2F _ s d) | .a (.cvtF2I _ d s) => X64Enc.Wf s ∧ (s.z = .l ∨ s.z = .q) ∧ d < 16
  | .a (.jmp _) | .a (.jcc _ _) | .a (.call _) | .a (.leaRip _ _) | .a (.loadRip _ _) => False
  | .jmp l | .call l => LabelOk l
  | .jcc cc l => cc < 16 ∧ LabelOk l
  | .lea l v d => LabelOk l ∧ 0 ≤ v ∧ v < 2 ^ 63 ∧ X64Enc.Wf d ∧ d.z = .q
  | .load l v d => LabelOk l ∧ 0 ≤ v ∧ v < 2 ^ 63 ∧ X64Enc.Wf d

/-! ## Characters -/

/-- What ends a number, a name or an operand: nothing, or one of `()+,-`. -/
def Brk (p : Str) : Prop := p = [] ∨ ∃ c t, p = c :: t ∧ (c = 40 ∨ c = 41 ∨ c = 43 ∨ c = 44 ∨ c = 45)
/-- What ends an expression. -/
def End (p : Str) : Prop := p = [] ∨ ∃ c t, p = c :: t ∧ (c = 40 ∨ c = 41 ∨ c = 44)
/-- What ends an operand. -/
def Fin (p : Str) : Prop := p = [] ∨ ∃ t, p = 44 :: t

theorem End.brk {p : Str} (h : End p) : Brk p := by
  rcases h with h | ⟨c, t, h, hc⟩
  · exact .inl h
  · exact .inr ⟨c, t, h, by omega⟩

theorem Fin.fin {p : Str} (h : Fin p) : End p := by
  rcases h with h | ⟨t, h⟩
  · exact .inl h
  · exact .inr ⟨_, t, h, by omega⟩

theorem brk_hd {p : Str} (h : Brk p) :
    isLabelC (hd p) = false ∧ isAlnum (hd p) = false ∧ isDigit (hd p) = false ∧ digitVal (hd p) = 99 ∧
    isSpace (hd p) = false ∧ low (hd p) ≠ 120 ∧ low (hd p) ≠ 101 ∧ hd p ≠ 46 ∧ hd p ≠ 58 ∧ isDigit (low (hd p)) = false := by
  rcases h with h | ⟨c, t, h, hc⟩
  · subst h; decide
  · subst h
    rcases hc with hc | hc | hc | hc | hc <;> subst hc <;> simp only [hd, List.headD_cons] <;> decide

theorem tw (f : Nat → Bool) : ∀ (a r : Str), (∀ c ∈ a, f c = true) → (r = [] ∨ f (hd r) = false) →
    (a ++ r).takeWhile f = a ∧ (a ++ r).dropWhile f = r
  | [], r, _, h => by
    rcases h with h | h
    · subst h; exact ⟨rfl, rfl⟩
    · cases r with
      | nil => exact ⟨rfl, rfl⟩
      | cons c r =>
        simp only [hd, List.headD_cons] at h
        simp [h]
  | c :: a, r, ha, h => by
    obtain ⟨x, y⟩ := tw f a r (fun c hc => ha c (by simp [hc])) h
    have := ha c (by simp)
    simp [this, x, y]

theorem skipWs_id {p : Str} (h : p = [] ∨ isSpace (hd p) = false) : skipWs p = p :=
  (tw isSpace [] p (fun _ h => nomatch h) h).2

theorem skipWs_brk {p : Str} (h : Brk p) : skipWs p = p := skipWs_id (.inr (brk_hd h).2.2.2.2.1)

/-! ## Numbers -/

theorem digit_ok : ∀ d, d < 16 → digitVal (digit d) = d ∧ isAlnum (digit d) = true ∧ (d < 10 → isDigit (digit d) = true) ∧
    (digit d = 48 ↔ d = 0) ∧ isSpace (digit d) = false := by decide

/-- The digits of a number. -/
structure Num (base n : Nat) (ds : Str) : Prop where
  ne : ds ≠ []
  ok : ∀ c ∈ ds, ∃ d, d < base ∧ c = digit d
  val : valOf base ds = n
  zero : hd ds = 48 → ds = [48]

theorem digits_num (base : Nat) (hb : 1 < base) (h16 : base ≤ 16) : ∀ (f n : Nat) (acc : Str), n < base ^ f → 0 < f →
    ∃ ds, digits base f n acc = ds ++ acc ∧ Num base n ds ∧ (n ≠ 0 → hd ds ≠ 48)
  | 0, _, _, _, h => absurd h (by omega)
  | f + 1, n, acc, hn, _ => by
    have hm : n % base < base := Nat.mod_lt _ (by omega)
    obtain ⟨v1, _, _, v4, _⟩ := digit_ok (n % base) (by omega)
    unfold digits
    split
    · rename_i h0
      have hlt : n < base := by
        rcases Nat.lt_or_ge n base with h | h
        · exact h
        · have := Nat.div_pos h (by omega)
          omega
      rw [Nat.mod_eq_of_lt hlt] at *
      refine ⟨[digit n], rfl, ⟨by simp, ?_, ?_, ?_⟩, ?_⟩
      · intro c hc
        exact ⟨n, hlt, by simpa using hc⟩
      · simp [valOf, v1]
      · intro h
        simp only [hd, List.headD_cons] at h
        rw [h]
      · intro hz h
        simp only [hd, List.headD_cons] at h
        exact hz (v4.1 h)
    · rename_i h0
      have hlt : n / base < base ^ f := by
        rw [Nat.div_lt_iff_lt_mul (by omega)]
        rw [Nat.pow_succ] at hn
        exact hn
      have hf : 0 < f := by
        rcases Nat.eq_zero_or_pos f with h | h
        · subst h
          exact absurd (Nat.lt_one_iff.1 (show n / base < 1 from hlt)) h0
        · exact h
      obtain ⟨ds, e, N, hz⟩ := digits_num base hb h16 f (n / base) (digit (n % base) :: acc) hlt hf
      refine ⟨ds ++ [digit (n % base)], by rw [e]; simp, ⟨by simp, ?_, ?_, ?_⟩, ?_⟩
      · intro c hc
        rcases List.mem_append.1 hc with h | h
        · exact N.ok c h
        · exact ⟨_, hm, by simpa using h⟩
      · have := N.val
        unfold valOf at this ⊢
        rw [List.foldl_append, this]
        simp only [List.foldl_cons, List.foldl_nil, v1]
        exact Nat.div_add_mod' n base
      · intro h
        obtain ⟨c, t, hc⟩ := List.exists_cons_of_ne_nil N.ne
        subst hc
        exact absurd h (hz h0)
      · intro _ h
        obtain ⟨c, t, hc⟩ := List.exists_cons_of_ne_nil N.ne
        subst hc
        exact hz h0 h

theorem dec_num {n : Nat} (h : n < 2 ^ 64) : Num 10 n (digits 10 20 n []) := by
  obtain ⟨ds, e, N, _⟩ := digits_num 10 (by decide) (by decide) 20 n [] (Nat.lt_trans h (by decide)) (by decide)
  rw [e, List.append_nil]
  exact N

theorem hex_num {n : Nat} (h : n < 2 ^ 64) : Num 16 n (digits 16 20 n []) := by
  obtain ⟨ds, e, N, _⟩ := digits_num 16 (by decide) (by decide) 20 n [] (Nat.lt_trans h (by decide)) (by decide)
  rw [e, List.append_nil]
  exact N

/-- A number behind which something else comes is read. -/
theorem strtoul_num {base n : Nat} (hb : base = 10 ∨ base = 16) {ds r : Str} (N : Num base n ds) (hn : n < 2 ^ 64)
    (hr : Brk r) : strtoul base (ds ++ r) = some (n, r) := by
  obtain ⟨c, t, hc⟩ := List.exists_cons_of_ne_nil N.ne
  have hb16 : base ≤ 16 := by omega
  have dok : ∀ x ∈ ds, digitVal x < base ∧ isSpace x = false ∧ x ≠ 45 ∧ x ≠ 43 ∧ low x ≠ 120 := by
    intro x hx
    obtain ⟨d, hd', e⟩ := N.ok x hx
    subst e
    have : ∀ d, d < 16 → isSpace (digit d) = false ∧ digit d ≠ 45 ∧ digit d ≠ 43 ∧ low (digit d) ≠ 120 := by decide
    obtain ⟨v1, _⟩ := digit_ok d (by omega)
    exact ⟨by omega, this d (by omega)⟩
  have hd0 : hd (ds ++ r) = c := by subst hc; rfl
  obtain ⟨c1, c2, c3, c4, _⟩ := dok c (by subst hc; simp)
  have hw : skipWs (ds ++ r) = ds ++ r := skipWs_id (.inr (by rw [hd0]; exact c2))
  obtain ⟨h1, h2⟩ := tw (fun c => decide (digitVal c < base)) ds r (fun x hx => by simpa using (dok x hx).1)
    (.inr (by rw [(brk_hd hr).2.2.2.1]; simp; omega))
  have h16 : ¬(base = 16 ∧ c = 48 ∧ low (hd (ds ++ r).tail) = 120 ∧ isXdigit (hd (ds ++ r).tail.tail) = true) := by
    rintro ⟨_, _, h, _⟩
    subst hc
    cases t with
    | nil => exact (brk_hd hr).2.2.2.2.2.1 h
    | cons x t => exact (dok x (by simp)).2.2.2.2 h
  unfold strtoul
  simp only
  rw [hw, hd0, if_neg (show ¬(c = 45 ∨ c = 43) by omega), hd0, if_neg h16, h1, h2, if_neg N.ne, N.val, if_neg (by omega)]
  have : (c == 45) = false := by simpa using c3
  rw [this]
  rfl

theorem toS_self {v : Int} (h : I64 v) : toS 64 v = v := by
  unfold I64 at h
  unfold toS
  simp only
  split <;> omega

theorem num_hd {n : Nat} {ds : Str} (N : Num 10 n ds) (r : Str) : isDigit (hd (ds ++ r)) = true := by
  obtain ⟨c, t, hc⟩ := List.exists_cons_of_ne_nil N.ne
  obtain ⟨d, h10, e⟩ := N.ok c (by subst hc; simp)
  subst hc
  show isDigit c = true
  rw [e]
  exact (digit_ok d (by omega)).2.2.1 h10

theorem isDigit_ne {c : Nat} (h : isDigit c = true) : c ≠ 45 ∧ c ≠ 37 ∧ c ≠ 42 ∧ c ≠ 36 ∧ isSpace c = false ∧ c ≠ 58 := by
  unfold isDigit at h
  unfold isSpace
  simp at h ⊢
  omega

theorem imm_nat {n : Nat} {ds r : Str} (N : Num 10 n ds) (hn : n < 2 ^ 64) (hr : Brk r) : immNat (ds ++ r) = some (n, r) := by
  have hs := strtoul_num (.inl rfl) N hn hr
  obtain ⟨c, t, hc⟩ := List.exists_cons_of_ne_nil N.ne
  have hd0 : hd (ds ++ r) = hd ds := by subst hc; rfl
  obtain ⟨_, _, _, _, _, b1, _, _, _, b2⟩ := brk_hd hr
  unfold immNat
  split
  · rename_i h
    rw [hd0] at h
    have e := N.zero h
    subst e
    have ht : ([48] ++ r).tail = r := rfl
    rw [ht, if_neg b1, if_neg (by rw [b2]; decide)]
    exact hs
  · exact hs

theorem immediate_show {v : Int} {r : Str} (hv : I64 v) (hr : Brk r) : immediate (showInt v ++ r) = some (v, r) := by
  have hv' := hv
  unfold I64 at hv'
  unfold showInt
  split
  · have N := dec_num (n := (-v).toNat) (by omega)
    have e : (-((-v).toNat : Int)) = v := by omega
    unfold immediate
    rw [if_pos (by rfl)]
    show (immNat (digits 10 20 (-v).toNat [] ++ r)).map _ = _
    rw [imm_nat N (by omega) hr]
    simp only [Option.map_some, e, toS_self hv]
  · have N := dec_num (n := v.toNat) (by omega)
    have e : ((v.toNat : Int)) = v := by omega
    unfold immediate
    rw [if_neg (isDigit_ne (num_hd N r)).1, imm_nat N (by omega) hr]
    simp [e, toS_self hv]

/-! ## Tokens and expressions -/

theorem cons_hd {p : Str} (h : hd p ≠ 0) : p ≠ [] := by
  intro e
  subst e
  exact h rfl

theorem fetch_dec {n : Nat} {ds r : Str} (N : Num 10 n ds) (hn : n < 2 ^ 63) (hr : Brk r) :
    fetchTok (ds ++ r) = some (.fix n, r) := by
  have hdig := num_hd N r
  have hs := strtoul_num (.inl rfl) N (Nat.lt_trans hn (by decide)) hr
  obtain ⟨b0, _, _, _, _, b1, b2, b3, _, _⟩ := brk_hd hr
  have hw : skipWs (ds ++ r) = ds ++ r := skipWs_id (.inr (isDigit_ne hdig).2.2.2.2.1)
  have hx : ¬(hd (ds ++ r) = 48 ∧ low (hd (ds ++ r).tail) = 120 ∧ isXdigit (hd ((ds ++ r).drop 2)) = true) := by
    rintro ⟨h, h', _⟩
    obtain ⟨c, t, hc⟩ := List.exists_cons_of_ne_nil N.ne
    have e := N.zero (by subst hc; exact h)
    subst e
    exact b1 h'
  have hne : ds ++ r ≠ [] := by
    intro e
    exact N.ne (List.append_eq_nil_iff.1 e).1
  unfold fetchTok
  simp only
  rw [hw, if_neg hne, if_pos hdig, if_neg hx, hs]
  simp only
  rw [if_neg (by rintro (h | h) <;> contradiction)]
  have : toS 64 (n : Int) = n := toS_self (by unfold I64; omega)
  rw [this]

theorem fetch_hex {n : Nat} {ds r : Str} (N : Num 16 n ds) (hn : n < 2 ^ 63) (hr : Brk r) :
    fetchTok (c!"0x" ++ ds ++ r) = some (.fix n, r) := by
  have hs := strtoul_num (.inr rfl) N (Nat.lt_trans hn (by decide)) hr
  obtain ⟨b0, _, _, _, _, b1, b2, b3, _, _⟩ := brk_hd hr
  obtain ⟨c, t, hc⟩ := List.exists_cons_of_ne_nil N.ne
  have hx : isXdigit (hd (ds ++ r)) = true := by
    obtain ⟨d, h16, e⟩ := N.ok c (by subst hc; simp)
    subst hc
    show isXdigit c = true
    rw [e]
    unfold isXdigit
    rw [(digit_ok d h16).1]
    simpa using h16
  unfold fetchTok
  simp only
  have hw : skipWs (c!"0x" ++ ds ++ r) = 48 :: 120 :: (ds ++ r) := rfl
  rw [hw, if_neg (by simp), if_pos (by rfl), if_pos ⟨rfl, rfl, hx⟩]
  show (match strtoul 16 (ds ++ r) with | none => none | some (v, q) => _) = _
  rw [hs]
  simp only
  rw [if_neg (by rintro (h | h) <;> contradiction)]
  have : toS 64 (n : Int) = n := toS_self (by unfold I64; omega)
  rw [this]

theorem isLabel1_ne {c : Nat} (h : isLabel1 c = true) : isDigit c = false ∧ isSpace c = false ∧ c ≠ 34 ∧ c ≠ 43 ∧ c ≠ 45 ∧
    c ≠ 42 ∧ c ≠ 47 ∧ c ≠ 37 ∧ c ≠ 36 ∧ c ≠ 58 := by
  unfold isLabel1 isAlpha at h
  unfold isDigit isSpace
  simp at h ⊢
  omega

theorem fetch_label {l r : Str} (h : LabelOk l) (hr : Brk r) : fetchTok (l ++ r) = some (.label l, r) := by
  obtain ⟨c, t, e, h1, ht, hdot⟩ := h
  subst e
  obtain ⟨n1, n2, n3, n4, n5, n6, n7, _⟩ := isLabel1_ne h1
  obtain ⟨b0, _, bd, _⟩ := brk_hd hr
  have hw : skipWs (c :: (t ++ r)) = c :: (t ++ r) := skipWs_id (.inr n2)
  obtain ⟨w1, w2⟩ := tw isLabelC t r ht (.inr b0)
  have hd' : ¬(c = 46 ∧ isDigit (hd (t ++ r)) = true) := by
    rintro ⟨h, h'⟩
    cases t with
    | nil =>
      rw [List.nil_append, bd] at h'
      cases h'
    | cons x t => exact hdot ⟨h, h'⟩
  have hh : hd (c :: (t ++ r)) = c := rfl
  unfold fetchTok
  simp only [List.cons_append]
  rw [hw]
  simp only [hh]
  rw [if_neg (List.cons_ne_nil _ _), if_neg (by rw [n1]; decide), if_neg n3, if_neg n4, if_neg n5, if_neg n6, if_neg n7,
    if_neg (show ¬(c = 46 ∧ isDigit (hd (c :: (t ++ r)).tail) = true) from hd'),
    if_pos h1]
  show some (Tok.label (c :: (t ++ r).takeWhile isLabelC), (t ++ r).dropWhile isLabelC) = _
  rw [w1, w2]

/-- Nothing is taken at the end of an expression. -/
theorem fetch_end {r : Str} (h : End r) : ∃ t, fetchTok r = some (t, r) ∧ (t = .eof ∨ t = .unknown) := by
  rcases h with h | ⟨c, t, h, hc⟩
  · subst h
    exact ⟨_, rfl, .inl rfl⟩
  · subst h
    rcases hc with hc | hc | hc <;> subst hc <;> exact ⟨_, rfl, .inr rfl⟩

theorem opLoop_end {opf : Tok → Option AsmExpr.Op} {f : PS → Option (Option Ex × PS)} {n : Nat} {e : Ex} {r : Str} {pre : Option Tok}
    {t : Tok} (h : peek ⟨r, pre⟩ = some (t, ⟨r, some t⟩)) (ho : opf t = none) :
    opLoop opf f (n + 1) e ⟨r, pre⟩ = some (some e, ⟨r, some t⟩) := by
  simp [opLoop, h, ho]

theorem peek_none {r r' : Str} {t : Tok} (h : fetchTok r = some (t, r')) : peek ⟨r, none⟩ = some (t, ⟨r', some t⟩) := by
  simp [peek, h]

theorem peek_some {r : Str} {t : Tok} : peek ⟨r, some t⟩ = some (t, ⟨r, some t⟩) := rfl

/-- An operand at the end of an expression. -/
theorem parseAdd_end {n : Nat} {s : PS} {e : Ex} {r : Str} (hu : unary (n + 1) s = some (some e, ⟨r, none⟩)) (hr : End r) :
    ∃ t, parseAdd (n + 1) s = some (some e, ⟨r, some t⟩) := by
  obtain ⟨t, ht, hk⟩ := fetch_end hr
  have hm : mulOp t = none := by rcases hk with h | h <;> subst h <;> rfl
  have ha : addOp t = none := by rcases hk with h | h <;> subst h <;> rfl
  refine ⟨t, ?_⟩
  simp [parseAdd, parseMul, hu, opLoop_end (peek_none ht) hm, opLoop_end (peek_some (r := r) (t := t)) ha]

theorem parseExpr_of {p r : Str} {e : Ex} (hu : ∀ n, unary (n + 2) ⟨p, none⟩ = some (some e, ⟨r, none⟩)) (hr : End r) :
    parseExpr p = some (some e, r) := by
  obtain ⟨t, h⟩ := parseAdd_end (hu p.length) hr
  simp [parseExpr, h]

theorem chk_self {v : Int} (h : I64 v) : chk v = some v := if_pos h

theorem expr_int {v : Int} {r : Str} (hv : -2 ^ 63 < v ∧ v < 2 ^ 63) (hr : End r) :
    parseExpr (showInt v ++ r) = some (some (.fix v), r) := by
  apply parseExpr_of _ hr
  intro n
  unfold showInt
  split
  · have N := dec_num (n := (-v).toNat) (by omega)
    have hf := fetch_dec N (by omega) hr.brk
    have h1 : fetchTok (45 :: (digits 10 20 (-v).toNat [] ++ r)) = some (.sub, digits 10 20 (-v).toNat [] ++ r) := rfl
    have e : (-((-v).toNat : Int)) = v := by omega
    generalize (-v).toNat = k at *
    simp [unary, peek_none h1, PS.eat, peek_none hf, e, chk_self (v := v) (by unfold I64; omega)]
  · have N := dec_num (n := v.toNat) (by omega)
    have hf := fetch_dec N (by omega) hr.brk
    have e : ((v.toNat : Int)) = v := by omega
    generalize v.toNat = k at *
    simp [unary, peek_none hf, PS.eat, e]

theorem expr_label {l r : Str} (h : LabelOk l) (hr : End r) : parseExpr (l ++ r) = some (some (.label l), r) := by
  apply parseExpr_of _ hr
  intro n
  simp [unary, peek_none (fetch_label h hr.brk), PS.eat]

theorem expr_hex {n : Nat} {r : Str} (hn : n < 2 ^ 63) (hr : End r) :
    parseExpr (c!"0x" ++ digits 16 20 n [] ++ r) = some (some (.fix n), r) := by
  apply parseExpr_of _ hr
  intro k
  have hf : fetchTok (48 :: 120 :: (digits 16 20 n [] ++ r)) = _ :=
    fetch_hex (hex_num (Nat.lt_trans hn (by decide))) hn hr.brk
  simp [unary, peek_none hf, PS.eat]

theorem parseMul_of {n : Nat} {s : PS} {e : Ex} {r r' : Str} {t : Tok} (hu : unary (n + 1) s = some (some e, ⟨r, none⟩))
    (hf : fetchTok r = some (t, r')) (hm : mulOp t = none) : parseMul (n + 1) s = some (some e, ⟨r', some t⟩) := by
  simp [parseMul, hu, opLoop, peek_none hf, hm]

/-- Label plus or minus number. -/
theorem expr_sum {l r : Str} {o : Nat} {op : AsmExpr.Op} (ho : (o = 43 ∧ op = .add) ∨ (o = 45 ∧ op = .sub)) (h : LabelOk l) {n : Nat}
    (hn : n < 2 ^ 63) (hr : End r) :
    parseExpr (l ++ o :: (digits 10 20 n [] ++ r)) = some (some (.bop op (.label l) (.fix n)), r) := by
  have N := dec_num (Nat.lt_trans hn (by decide))
  have hb : Brk (o :: (digits 10 20 n [] ++ r)) := .inr ⟨_, _, rfl, by omega⟩
  have f1 := fetch_label h hb
  have f2 := fetch_dec N hn hr.brk
  obtain ⟨t, f3, hk⟩ := fetch_end hr
  have hm : mulOp t = none := by rcases hk with h | h <;> subst h <;> rfl
  have ha : addOp t = none := by rcases hk with h | h <;> subst h <;> rfl
  obtain ⟨k, hk⟩ : ∃ k, (l ++ o :: (digits 10 20 n [] ++ r)).length + 2 = k + 3 := by
    refine ⟨(l ++ o :: (digits 10 20 n [] ++ r)).length - 1, ?_⟩
    have : 0 < (l ++ o :: (digits 10 20 n [] ++ r)).length := by simp; omega
    omega
  have u1 : unary (k + 3) ⟨l ++ o :: (digits 10 20 n [] ++ r), none⟩ = some (some (.label l), ⟨o :: (digits 10 20 n [] ++ r), none⟩) := by
    simp [unary, peek_none f1, PS.eat]
  have u2 : unary (k + 3) ⟨digits 10 20 n [] ++ r, none⟩ = some (some (.fix n), ⟨r, none⟩) := by
    simp [unary, peek_none f2, PS.eat]
  have m2 := parseMul_of u2 f3 hm
  unfold parseExpr
  rw [hk]
  rcases ho with ⟨h, h'⟩ | ⟨h, h'⟩ <;> subst h <;> subst h'
  · have f4 : fetchTok (43 :: (digits 10 20 n [] ++ r)) = some (.add, digits 10 20 n [] ++ r) := rfl
    have m1 := parseMul_of u1 f4 rfl
    simp [parseAdd, m1, opLoop, peek_some, show addOp .add = some .add from rfl, PS.eat, m2, combine, ha]
  · have f4 : fetchTok (45 :: (digits 10 20 n [] ++ r)) = some (.sub, digits 10 20 n [] ++ r) := rfl
    have m1 := parseMul_of u1 f4 rfl
    simp [parseAdd, m1, opLoop, peek_some, show addOp .sub = some .sub from rfl, PS.eat, m2, combine, ha]

/-- No expression. -/
theorem expr_none (t : Str) : parseExpr (40 :: t) = some (none, 40 :: t) := by
  have f : fetchTok (40 :: t) = some (.unknown, 40 :: t) := rfl
  simp [parseExpr, parseAdd, parseMul, unary, peek_none f]

/-! ## Registers -/

theorem lab_low {a c : Nat} (h : low c = low a) (ha : isLabelC a = true) : isLabelC c = true := by
  unfold low at h
  unfold isLabelC isLabel1 isAlpha isDigit at *
  simp at h ha ⊢
  split at h <;> split at h <;> omega

theorem ciPrefix_eq : ∀ (n name r : Str), n.map low = name.map low → ciPrefix n (name ++ r) = some r
  | [], [], _, _ => rfl
  | [], _ :: _, _, h => by simp at h
  | _ :: _, [], _, h => by simp at h
  | a :: n, c :: name, r, h => by
    simp only [List.map_cons, List.cons.injEq] at h
    simp only [List.cons_append, ciPrefix]
    rw [if_pos h.1.symm]
    exact ciPrefix_eq n name r h.2

theorem ciPrefix_exact : ∀ (n name r q : Str), (∀ c ∈ n, isLabelC c = true) → (∀ c ∈ name, isLabelC c = true) →
    isLabelC (hd r) = false → ciPrefix n (name ++ r) = some q → isLabelC (hd q) = false → n.map low = name.map low
  | [], [], _, _, _, _, _, _, _ => rfl
  | [], c :: name, r, q, _, hn, _, h, hq => by
    simp only [ciPrefix, Option.some.injEq] at h
    subst h
    have : isLabelC c = false := hq
    rw [hn c (by simp)] at this
    cases this
  | a :: n, [], r, q, ha, _, hr, h, _ => by
    cases r with
    | nil => simp [ciPrefix] at h
    | cons c r =>
      simp only [List.nil_append, ciPrefix] at h
      split at h
      · rename_i hl
        have : isLabelC c = false := hr
        rw [lab_low hl (ha a (by simp))] at this
        cases this
      · cases h
  | a :: n, c :: name, r, q, ha, hn, hr, h, hq => by
    simp only [List.cons_append, ciPrefix] at h
    split at h
    · rename_i hl
      have := ciPrefix_exact n name r q (fun c hc => ha c (by simp [hc])) (fun c hc => hn c (by simp [hc])) hr h hq
      simp [this, hl]
    · cases h

theorem findSome_name (nm r : Str) (hnm : ∀ c ∈ nm, isLabelC c = true) (hr : isLabelC (hd r) = false) (x : Str × RegT) :
    ∀ tbl : List (Str × RegT), (∀ e ∈ tbl, ∀ c ∈ e.1, isLabelC c = true) →
    tbl.find? (fun e => e.1.map low == nm.map low) = some x →
    tbl.findSome? (fun (n, r') => match ciPrefix n (nm ++ r) with
      | some q => if isLabelC (hd q) then none else some (r', q)
      | none => none) = some (x.2, r)
  | [], _, h => by simp at h
  | e :: tbl, he, h => by
    obtain ⟨en, er⟩ := e
    rw [List.find?_cons] at h
    rw [List.findSome?_cons]
    by_cases hx : en.map low = nm.map low
    · rw [show (en.map low == nm.map low) = true by simpa using hx] at h
      injection h with h
      subst h
      dsimp only
      rw [ciPrefix_eq _ _ _ hx]
      simp only [hr]
      rfl
    · rw [show (en.map low == nm.map low) = false by simpa using hx] at h
      have ih := findSome_name nm r hnm hr x tbl (fun e' h' => he e' (by simp [h'])) h
      have : (match ciPrefix en (nm ++ r) with
        | some q => if isLabelC (hd q) then none else some (er, q)
        | none => none) = none := by
        split
        · rename_i q hq
          split
          · rfl
          · rename_i hl
            exact absurd (ciPrefix_exact _ _ _ _ (he (en, er) (by simp)) hnm hr hq (by simpa using hl)) hx
        · rfl
      dsimp only
      rw [this]
      exact ih

theorem regTable_lab : ∀ e ∈ regTable, ∀ c ∈ e.1, isLabelC c = true := by decide +kernel

theorem reg_tab_lo : ∀ z ∈ Sz.all, ∀ n, n < 16 →
    regTable.find? (fun e => e.1.map low == (regName ⟨z, n, false⟩).map low) = some (regName ⟨z, n, false⟩, .g ⟨z, n, false⟩) ∧
    (∀ c ∈ regName ⟨z, n, false⟩, isAlnum c = true) ∧
    xmmTable.findIdx? (fun m => (regName ⟨z, n, false⟩).map low == m.map low) = none := by decide +kernel

theorem reg_tab_hi : ∀ n, n < 4 →
    regTable.find? (fun e => e.1.map low == (regName ⟨.b, n, true⟩).map low) = some (regName ⟨.b, n, true⟩, .g ⟨.b, n, true⟩) ∧
    (∀ c ∈ regName ⟨.b, n, true⟩, isAlnum c = true) ∧
    xmmTable.findIdx? (fun m => (regName ⟨.b, n, true⟩).map low == m.map low) = none := by decide +kernel

theorem mem_all (z : Sz) : z ∈ Sz.all := by cases z <;> decide

theorem reg_tab {g : Rg} (h : X64Enc.Wf g) :
    regTable.find? (fun e => e.1.map low == (regName g).map low) = some (regName g, .g g) ∧
    (∀ c ∈ regName g, isAlnum c = true) ∧ xmmTable.findIdx? (fun m => (regName g).map low == m.map low) = none := by
  obtain ⟨z, n, hi⟩ := g
  cases hi with
  | false => exact reg_tab_lo z (mem_all z) n h.1
  | true =>
    obtain ⟨e, h4⟩ := h.2 rfl
    dsimp only at e h4
    subst e
    exact reg_tab_hi n h4

theorem alnum_label {c : Nat} (h : isAlnum c = true) : isLabelC c = true := by
  unfold isLabelC isLabel1
  unfold isAlnum at h
  simp at h ⊢
  rcases h with h | h <;> simp [h]

theorem findReg_show {g : Rg} (h : X64Enc.Wf g) {r : Str} (hr : Brk r) : findReg (regName g ++ r) = some (.g g, r) := by
  obtain ⟨h1, h2, _⟩ := reg_tab h
  exact findSome_name _ r (fun c hc => alnum_label (h2 c hc)) (brk_hd hr).1 _ _ regTable_lab h1

theorem findReg_rip {r : Str} (hr : Brk r) : findReg (c!"rip" ++ r) = some (.rip, r) :=
  findSome_name (c!"rip") r (by decide) (brk_hd hr).1 (c!"rip", .rip) _ regTable_lab (by decide +kernel)

theorem findReg_q {n : Nat} (h : n < 16) {r : Str} (hr : Brk r) : findReg (regName (q64 n) ++ r) = some (.g (q64 n), r) :=
  findReg_show ⟨h, fun e => by simp [q64] at e⟩ hr

theorem reg64_q (n : Nat) : reg64? (.g (q64 n)) = some n := rfl

theorem parseReg_reg {g : Rg} (h : X64Enc.Wf g) {r : Str} (hr : Brk r) : parseReg (regName g ++ r) = some (.reg g, regFlag g, r) := by
  obtain ⟨_, h2, h3⟩ := reg_tab h
  obtain ⟨w1, _⟩ := tw isAlnum (regName g) r h2 (.inr (brk_hd hr).2.1)
  have : findXmm (regName g ++ r) = none := by
    unfold findXmm
    simp only
    rw [w1, h3]
    rfl
  simp [parseReg, this, findReg_show h hr]

theorem xmm_tab : ∀ n, n < 16 → (∀ c ∈ xmmName n, isAlnum c = true) ∧
    xmmTable.findIdx? (fun m => (xmmName n).map low == m.map low) = some n := by decide +kernel

theorem parseReg_xmm {n : Nat} (h : n < 16) {r : Str} (hr : Brk r) : parseReg (xmmName n ++ r) = some (.xmm n, XMM, r) := by
  obtain ⟨h2, h3⟩ := xmm_tab n h
  obtain ⟨w1, w2⟩ := tw isAlnum (xmmName n) r h2 (.inr (brk_hd hr).2.1)
  have : findXmm (xmmName n ++ r) = some (n, r) := by
    unfold findXmm
    simp only
    rw [w1, w2, h3]
    rfl
  simp [parseReg, this]

/-! ## Operands -/

/-- The part of an operand in parentheses behind the base register. -/
def ixTail (r : Str) : Option (Nat × Nat) → Str
  | none => 41 :: r
  | some (i, k) => 44 :: 37 :: (regName (q64 i) ++ (if k = 0 then 41 :: r else 44 :: (showInt (2 ^ k) ++ 41 :: r)))

/-- The index as it is read. -/
def ixOf : Option (Nat × Nat) → Option (Nat × Option Int)
  | none => none
  | some (i, k) => some (i, if k = 0 then none else some (2 ^ k))

theorem ixTail_brk (r : Str) (ix : Option (Nat × Nat)) : Brk (ixTail r ix) := by
  cases ix with
  | none => exact .inr ⟨_, _, rfl, by omega⟩
  | some x => exact .inr ⟨_, _, rfl, by omega⟩

def IxOk : Option (Nat × Nat) → Prop
  | none => True
  | some (i, k) => i < 16 ∧ k < 4

theorem pow_i {k : Nat} (h : k < 4) : (2 : Int) ^ k = 1 ∨ (2 : Int) ^ k = 2 ∨ (2 : Int) ^ k = 4 ∨ (2 : Int) ^ k = 8 := by
  have : k = 0 ∨ k = 1 ∨ k = 2 ∨ k = 3 := by omega
  rcases this with h | h | h | h <;> subst h <;> simp

theorem parseIndex_show {ix : Option (Nat × Nat)} (h : IxOk ix) (r : Str) : parseIndex (ixTail r ix) = some (ixOf ix, r) := by
  cases ix with
  | none => rfl
  | some x =>
    obtain ⟨i, k⟩ := x
    obtain ⟨hi, hk⟩ := h
    have hs : ∀ t : Str, skipWs (37 :: t) = 37 :: t := fun t => skipWs_id (.inr rfl)
    have hs44 : ∀ t : Str, skipWs (44 :: t) = 44 :: t := fun t => skipWs_id (.inr rfl)
    have hs41 : ∀ t : Str, skipWs (41 :: t) = 41 :: t := fun t => skipWs_id (.inr rfl)
    by_cases h0 : k = 0
    · have hf := findReg_q hi (r := 41 :: r) (.inr ⟨_, _, rfl, by omega⟩)
      simp [parseIndex, ixTail, ixOf, h0, hs, hs44, hs41, hd, hf, reg64_q]
    · have hf := findReg_q hi (r := 44 :: (showInt (2 ^ k) ++ 41 :: r)) (.inr ⟨_, _, rfl, by omega⟩)
      have hp := pow_i hk
      have he := expr_int (v := 2 ^ k) (r := 41 :: r) (by omega) (.inr ⟨_, _, rfl, by omega⟩)
      have hw : skipWs (showInt (2 ^ k) ++ 41 :: r) = showInt (2 ^ k) ++ 41 :: r := by
        apply skipWs_id
        right
        unfold showInt
        rw [if_neg (by omega)]
        exact (isDigit_ne (num_hd (dec_num (by omega)) _)).2.2.2.2.1
      simp [parseIndex, ixTail, ixOf, h0, hs, hs44, hs41, hd, hf, reg64_q, hw, he]

/-- The operand of `parse_indirect_register`. -/
def indOpd (b : Nat) (ix : Option (Nat × Nat)) (e : Ex) : Opd × Nat :=
  match ixOf ix with
  | none => (.ind (some b) e, IND)
  | some (i, k) => (.iind b i k e, IIND)

theorem parseInd_show {b : Nat} {ix : Option (Nat × Nat)} (hb : b < 16) (h : IxOk ix) (e : Ex) (r : Str) :
    parseInd e (regName (q64 b) ++ ixTail r ix) = some ((indOpd b ix e).1, (indOpd b ix e).2, r) := by
  unfold parseInd indOpd
  simp only [findReg_q hb (ixTail_brk r ix), Option.bind_eq_bind, Option.bind_some, parseIndex_show h]
  cases ixOf ix with
  | none => simp [reg64?, q64]
  | some x => simp [reg64?, q64]

theorem parseInd_rip (e : Ex) (r : Str) : parseInd e (c!"rip" ++ 41 :: r) = some (.ind none e, IND, r) := by
  unfold parseInd
  rw [findReg_rip (.inr ⟨_, _, rfl, by omega⟩)]
  rfl

theorem indirect_eq (b : Nat) (ix : Option (Nat × Nat)) (r : Str) :
    indirect b ix ++ r = 40 :: 37 :: (regName (q64 b) ++ ixTail r ix) := by
  cases ix with
  | none => simp [indirect, ixTail]
  | some x =>
    obtain ⟨i, k⟩ := x
    by_cases h : k = 0 <;> simp [indirect, ixTail, h]

/-- The first character of a written expression. -/
def Plain (p : Str) : Prop := hd p ≠ 37 ∧ hd p ≠ 42 ∧ hd p ≠ 36

theorem showInt_hd (v : Int) (hv : I64 v) (r : Str) : Plain (showInt v ++ r) ∧ isSpace (hd (showInt v ++ r)) = false ∧
    hd (showInt v ++ r) ≠ 58 := by
  unfold I64 at hv
  unfold showInt Plain
  split
  · simp [hd, isSpace]
  · have := isDigit_ne (num_hd (dec_num (n := v.toNat) (by omega)) r)
    exact ⟨⟨this.2.1, this.2.2.1, this.2.2.2.1⟩, this.2.2.2.2.1, this.2.2.2.2.2⟩

/-- `parse_operand` from the expression on. -/
def afterExpr (e : Option Ex) (q : Str) : Option (Option (Opd × Nat × Str)) :=
  let p := skipWs q
  if hd p ≠ 40 then
    match e with
    | none => some none
    | some (.label l) => some (some (.dir (.label l), EXP, p))
    | some (.fix v) => some (some (.dir (.fix v), EXP, p))
    | some _ => none
  else if hd p.tail = 37 then (parseInd (e.getD (.fix 0)) (p.drop 2)).map some
  else some none

/-- Operands that are not registers, constants or behind `*`. -/
theorem operand_plain (fl : Nat) {p : Str} (h : Plain p) {e : Option Ex} {q : Str} (he : parseExpr p = some (e, q)) :
    parseOperand fl p = afterExpr e q := by
  obtain ⟨h1, h2, h3⟩ := h
  unfold parseOperand
  rw [if_neg (by rintro ⟨_, h⟩; exact h1 h), if_neg (by rintro ⟨_, h, _⟩; exact h2 h), if_neg (by rintro ⟨_, h⟩; exact h2 h),
    if_neg (by rintro ⟨_, h⟩; exact h3 h), he]
  rfl

theorem operand_ind (fl : Nat) {p : Str} (h : Plain p) {e : Option Ex} {t : Str} (he : parseExpr p = some (e, 40 :: 37 :: t)) :
    parseOperand fl p = (parseInd (e.getD (.fix 0)) t).map some := by
  rw [operand_plain fl h he]
  unfold afterExpr
  rw [skipWs_id (p := 40 :: 37 :: t) (.inr rfl)]
  rfl

theorem operand_mem (fl : Nat) {v : Int} {b : Nat} {ix : Option (Nat × Nat)} (hv : X64Enc.im32 v) (hb : b < 16) (h : IxOk ix) (r : Str) :
    parseOperand fl (offsetIndirect v b ix ++ r) = some (some ((indOpd b ix (.fix v)).1, (indOpd b ix (.fix v)).2, r)) := by
  unfold X64Enc.im32 at hv
  unfold offsetIndirect
  split
  · rename_i h0
    subst h0
    rw [indirect_eq, operand_ind fl (e := none) (by simp [Plain, hd]) (expr_none _)]
    simp [parseInd_show hb h]
  · rw [List.append_assoc, indirect_eq]
    rw [operand_ind fl (showInt_hd v (by unfold I64; omega) _).1
      (expr_int (by omega) (.inr ⟨_, _, rfl, by omega⟩))]
    simp [parseInd_show hb h]

theorem operand_dir (fl : Nat) {p r : Str} (h : Plain p) {e : Ex} (hx : (∃ l, e = .label l) ∨ ∃ v, e = .fix v)
    (he : parseExpr p = some (some e, r)) (hr : Fin r) : parseOperand fl p = some (some (.dir e, EXP, r)) := by
  rw [operand_plain fl h he]
  unfold afterExpr
  simp only
  rw [skipWs_brk hr.fin.brk, if_pos]
  · rcases hx with ⟨l, h⟩ | ⟨v, h⟩ <;> subst h <;> rfl
  · rcases hr with h | ⟨t, h⟩ <;> subst h <;> simp [hd]

theorem label_plain {l : Str} (h : LabelOk l) (r : Str) : Plain (l ++ r) ∧ isSpace (hd (l ++ r)) = false ∧ hd (l ++ r) ≠ 58 := by
  obtain ⟨c, t, e, h1, _⟩ := h
  subst e
  obtain ⟨_, n2, _, _, _, n6, _, n8, n9, n10⟩ := isLabel1_ne h1
  exact ⟨⟨n8, n6, n9⟩, n2, n10⟩

/-- How an operand is read. -/
def opdOf : WO → Opd
  | .reg g => .reg g
  | .xmm n => .xmm n
  | .im v => .imm v
  | .ofs v b => .ind (some b) (.fix v)
  | .idx v b i k => .iind b i (if k = 0 then none else some (2 ^ k)) (.fix v)
  | .abs v => .dir (.fix (v % 2 ^ 32))
  | .rip l v => .ind none (if v > 0 then .bop .add (.label l) (.fix v) else if v < 0 then .bop .sub (.label l) (.fix (-v)) else .label l)
  | .lab l => .dir (.label l)
  | .star (.ofs v b) => .dind b (if v = 0 then none else some (.fix v))
  | .star (.idx v b i k) => .diind b i (if k = 0 then none else some (2 ^ k)) (if v = 0 then none else some (.fix v))
  | .star (.reg g) => .dreg g.n
  | .star _ => .dreg 0

/-- Its flag, and the flags one of which must be asked for. -/
def flagOf : WO → Nat
  | .reg g => regFlag g
  | .xmm _ => XMM
  | .im _ => IMM
  | .ofs _ _ => IND
  | .idx _ _ _ _ => IIND
  | .abs _ => EXP
  | .rip _ _ => IND
  | .lab _ => EXP
  | .star (.ofs _ _) => DEI
  | .star (.idx _ _ _ _) => DEII
  | .star _ => DER

def needOf : WO → Nat
  | .reg _ | .xmm _ => ANY ||| R8CL ||| XMM
  | .im _ => IMM
  | .star (.reg _) => DER
  | .star _ => DEI
  | _ => 0

/-- Operands that exist. -/
def WOk : WO → Prop
  | .reg g => X64Enc.Wf g
  | .xmm n => n < 16
  | .im v => I64 v
  | .ofs v b => X64Enc.im32 v ∧ b < 16
  | .idx v b i k => X64Enc.im32 v ∧ b < 16 ∧ i < 16 ∧ k < 4
  | .abs _ => True
  | .rip l v => LabelOk l ∧ -2 ^ 63 < v ∧ v < 2 ^ 63
  | .lab l => LabelOk l
  | .star (.reg g) => g.n < 16 ∧ g = q64 g.n
  | .star (.ofs v b) => X64Enc.im32 v ∧ b < 16
  | .star (.idx v b i k) => X64Enc.im32 v ∧ b < 16 ∧ i < 16 ∧ k < 4
  | .star _ => False

def accB (fl need : Nat) : Bool := need == 0 || hit fl need

theorem acc_hit {fl need : Nat} (h : accB fl need = true) (h0 : need ≠ 0) : hit fl need = true := by
  unfold accB at h
  simpa [h0] using h

theorem parseDind_show {v : Int} {b : Nat} {ix : Option (Nat × Nat)} (hv : X64Enc.im32 v) (hb : b < 16) (h : IxOk ix) (r : Str) :
    parseDind (offsetIndirect v b ix ++ r) = some (match ixOf ix with
      | none => (.dind b (if v = 0 then none else some (.fix v)), DEI, r)
      | some (i, k) => (.diind b i k (if v = 0 then none else some (.fix v)), DEII, r)) := by
  have hv' := hv
  unfold X64Enc.im32 at hv'
  have he : parseExpr (offsetIndirect v b ix ++ r) = some (if v = 0 then none else some (.fix v), 40 :: 37 :: (regName (q64 b) ++ ixTail r ix)) := by
    unfold offsetIndirect
    split
    · rw [indirect_eq]
      exact expr_none _
    · rw [List.append_assoc, indirect_eq]
      exact expr_int (by omega) (.inr ⟨_, _, rfl, by omega⟩)
  unfold parseDind
  rw [he]
  simp only [Option.bind_eq_bind, Option.bind_some]
  rw [skipWs_id (p := 40 :: 37 :: (regName (q64 b) ++ ixTail r ix)) (.inr rfl)]
  simp only [hd, List.headD_cons, List.tail_cons, List.drop_succ_cons, List.drop_zero, findReg_q hb (ixTail_brk r ix), Option.bind_some,
    parseIndex_show h]
  cases ixOf ix with
  | none => simp [reg64?, q64]
  | some x => simp [reg64?, q64]

theorem offset_hd {v : Int} (hv : X64Enc.im32 v) (b : Nat) (ix : Option (Nat × Nat)) (r : Str) :
    Plain (offsetIndirect v b ix ++ r) ∧ isSpace (hd (offsetIndirect v b ix ++ r)) = false ∧ hd (offsetIndirect v b ix ++ r) ≠ 58 := by
  unfold X64Enc.im32 at hv
  unfold offsetIndirect
  split
  · rw [indirect_eq]
    simp [Plain, hd, isSpace]
  · rw [List.append_assoc]
    exact showInt_hd v (by unfold I64; omega) _

theorem operand_show {w : WO} (h : WOk w) {r : Str} (hr : Fin r) {fl : Nat} (ha : accB fl (needOf w) = true) :
    parseOperand fl (showO w ++ r) = some (some (opdOf w, flagOf w, r)) := by
  cases w with
  | reg g =>
    have := acc_hit (need := ANY ||| R8CL ||| XMM) ha (by decide)
    unfold parseOperand
    rw [if_pos ⟨this, rfl⟩]
    show (parseReg (regName g ++ r)).map some = _
    rw [parseReg_reg h hr.fin.brk]
    rfl
  | xmm n =>
    have := acc_hit (need := ANY ||| R8CL ||| XMM) ha (by decide)
    unfold parseOperand
    rw [if_pos ⟨this, rfl⟩]
    show (parseReg (xmmName n ++ r)).map some = _
    rw [parseReg_xmm h hr.fin.brk]
    rfl
  | im v =>
    have := acc_hit (need := IMM) ha (by decide)
    have hh : hd (showO (.im v) ++ r) = 36 := rfl
    unfold parseOperand
    rw [hh, if_neg (by rintro ⟨_, h⟩; cases h), if_neg (by rintro ⟨_, h, _⟩; cases h), if_neg (by rintro ⟨_, h⟩; cases h),
      if_pos ⟨this, rfl⟩]
    show (immediate (showInt v ++ r)).map _ = _
    rw [immediate_show h hr.fin.brk]
    rfl
  | ofs v b => exact operand_mem fl h.1 h.2 (ix := none) trivial r
  | idx v b i k => exact operand_mem fl h.1 h.2.1 (ix := some (i, k)) h.2.2 r
  | abs v =>
    have he := expr_hex (n := (v % 2 ^ 32).toNat) (by omega) hr.fin
    have e : (((v % 2 ^ 32).toNat : Nat) : Int) = v % 2 ^ 32 := by omega
    rw [e] at he
    exact operand_dir fl (p := showHex v ++ r) ⟨(by decide : (48 : Nat) ≠ 37), (by decide : (48 : Nat) ≠ 42), (by decide : (48 : Nat) ≠ 36)⟩ (.inr ⟨_, rfl⟩) he hr
  | rip l v =>
    obtain ⟨hl, h1, h2⟩ := h
    show parseOperand fl (labelIndirect l v ++ r) = some (some (.ind none _, IND, r))
    unfold labelIndirect
    have end40 : End (40 :: 37 :: (c!"rip" ++ 41 :: r)) := .inr ⟨_, _, rfl, by omega⟩
    by_cases hp : v > 0
    · rw [if_pos hp, if_pos hp]
      have hs : showInt v = digits 10 20 v.toNat [] := by unfold showInt; rw [if_neg (by omega)]
      have e : ((v.toNat : Nat) : Int) = v := by omega
      have he := expr_sum (.inl ⟨rfl, rfl⟩) hl (n := v.toNat) (by omega) end40
      rw [e] at he
      have ht : l ++ c!"+" ++ showInt v ++ c!"(%rip)" ++ r = l ++ 43 :: (digits 10 20 v.toNat [] ++ 40 :: 37 :: (c!"rip" ++ 41 :: r)) := by
        simp [hs]
      rw [ht, operand_ind fl (label_plain hl _).1 he]
      show (parseInd _ (c!"rip" ++ 41 :: r)).map some = _
      rw [parseInd_rip]
      rfl
    · by_cases hn : v < 0
      · rw [if_neg hp, if_pos hn, if_neg hp, if_pos hn]
        have hs : showInt (-v) = digits 10 20 (-v).toNat [] := by unfold showInt; rw [if_neg (by omega)]
        have e : (((-v).toNat : Nat) : Int) = -v := by omega
        have he := expr_sum (.inr ⟨rfl, rfl⟩) hl (n := (-v).toNat) (by omega) end40
        rw [e] at he
        have ht : l ++ c!"-" ++ showInt (-v) ++ c!"(%rip)" ++ r = l ++ 45 :: (digits 10 20 (-v).toNat [] ++ 40 :: 37 :: (c!"rip" ++ 41 :: r)) := by
          simp [hs]
        rw [ht, operand_ind fl (label_plain hl _).1 he]
        show (parseInd _ (c!"rip" ++ 41 :: r)).map some = _
        rw [parseInd_rip]
        rfl
      · rw [if_neg hp, if_neg hn, if_neg hp, if_neg hn]
        have he := expr_label hl end40
        have ht : l ++ c!"(%rip)" ++ r = l ++ 40 :: 37 :: (c!"rip" ++ 41 :: r) := by simp
        rw [ht, operand_ind fl (label_plain hl _).1 he]
        show (parseInd _ (c!"rip" ++ 41 :: r)).map some = _
        rw [parseInd_rip]
        rfl
  | lab l => exact operand_dir fl (label_plain h r).1 (.inl ⟨_, rfl⟩) (expr_label h hr.fin) hr
  | star w =>
    have hh : hd (showO (.star w) ++ r) = 42 := rfl
    have htl : (showO (.star w) ++ r).tail = showO w ++ r := rfl
    have mem : ∀ (v : Int) (b : Nat) (ix : Option (Nat × Nat)), X64Enc.im32 v → b < 16 → IxOk ix → showO w = offsetIndirect v b ix →
        hit fl DEI = true → parseOperand fl (showO (.star w) ++ r) = some (some (match ixOf ix with
      | none => (.dind b (if v = 0 then none else some (.fix v)), DEI, r)
      | some (i, k) => (.diind b i k (if v = 0 then none else some (.fix v)), DEII, r))) := by
      intro v b ix hv hb hi hw hit
      unfold parseOperand
      rw [hh, htl, if_neg (by rintro ⟨_, h⟩; cases h), if_neg (by rintro ⟨_, _, h⟩; rw [hw] at h; exact (offset_hd hv b ix r).1.1 h),
        if_pos ⟨hit, rfl⟩, hw, parseDind_show hv hb hi]
      rfl
    cases w with
    | reg g =>
      obtain ⟨hg, e⟩ := h
      have := acc_hit (need := DER) ha (by decide)
      unfold parseOperand
      rw [hh, htl, if_neg (by rintro ⟨_, h⟩; cases h), if_pos ⟨this, rfl, rfl⟩]
      have hd2 : (showO (.star (.reg g)) ++ r).drop 2 = regName g ++ r := rfl
      rw [hd2, e, findReg_q hg hr.fin.brk]
      rfl
    | ofs v b => exact mem v b none h.1 h.2 trivial rfl (acc_hit ha (by decide))
    | idx v b i k => exact mem v b (some (i, k)) h.1 h.2.1 h.2.2 rfl (acc_hit ha (by decide))
    | xmm _ => exact h.elim
    | im _ => exact h.elim
    | abs _ => exact h.elim
    | rip _ _ => exact h.elim
    | lab _ => exact h.elim
    | star _ => exact h.elim

/-! ## Lines -/

theorem showO_hd : ∀ {w : WO}, WOk w → ∀ r : Str, isSpace (hd (showO w ++ r)) = false ∧ hd (showO w ++ r) ≠ 58 := by
  intro w h r
  cases w with
  | reg g => exact ⟨rfl, (by decide : (37 : Nat) ≠ 58)⟩
  | xmm n => exact ⟨rfl, (by decide : (37 : Nat) ≠ 58)⟩
  | im v => exact ⟨rfl, (by decide : (36 : Nat) ≠ 58)⟩
  | ofs v b => exact (offset_hd h.1 b none r).2
  | idx v b i k => exact (offset_hd h.1 b (some (i, k)) r).2
  | abs v => exact ⟨rfl, (by decide : (48 : Nat) ≠ 58)⟩
  | rip l v =>
    have := fun t => (label_plain h.1 t).2
    show isSpace (hd (labelIndirect l v ++ r)) = false ∧ hd (labelIndirect l v ++ r) ≠ 58
    unfold labelIndirect
    split
    · have h := this (c!"+" ++ (showInt v ++ (c!"(%rip)" ++ r)))
      simp only [List.append_assoc] at h ⊢
      exact h
    · split
      · have h := this (c!"-" ++ (showInt (-v) ++ (c!"(%rip)" ++ r)))
        simp only [List.append_assoc] at h ⊢
        exact h
      · have h := this (c!"(%rip)" ++ r)
        simp only [List.append_assoc] at h ⊢
        exact h
  | lab l => exact (label_plain h r).2
  | star w => exact ⟨rfl, (by decide : (42 : Nat) ≠ 58)⟩

/-- The operands behind the first. -/
def tailT : List WO → Str
  | [] => []
  | w :: ws => 44 :: 32 :: (showO w ++ tailT ws)

def headT : List WO → Str
  | [] => []
  | w :: ws => showO w ++ tailT ws

theorem tailT_fin (ws : List WO) : Fin (tailT ws) := by
  cases ws with
  | nil => exact .inl rfl
  | cons w ws => exact .inr ⟨_, rfl⟩

/-- The candidate that remains for operands that need and have the given flags. -/
def pick : Nat → Nat → List Cand → List (Nat × Nat) → Option Op
  | 0, _, cs, [] => cs.head?.map (·.1)
  | 0, _, _, _ :: _ => none
  | _ + 1, i, cs, [] =>
    if union i cs = 0 ∨ (i > 0 ∧ (cs.head?.map fun c => c.2.getD i 0) = some 0) then cs.head?.map (·.1) else none
  | n + 1, i, cs, (need, r) :: ws =>
    if union i cs ≠ 0 ∧ accB (union i cs) need = true then pick n (i + 1) (cs.filter fun c => hit (c.2.getD i 0) r) ws else none

def nf (w : WO) : Nat × Nat := (needOf w, flagOf w)

theorem head_pair {cs : List Cand} {o : Op} (h : cs.head?.map (·.1) = some o) (a : List Opd) :
    cs.head?.map (fun c => (c.1, a)) = some (o, a) := by
  cases cs with
  | nil => simp at h
  | cons c cs => simp at h ⊢; exact h

theorem opnds_tail : ∀ (ws : List WO) (n i : Nat) (cs : List Cand) (acc : List Opd) (o : Op), (∀ w ∈ ws, WOk w) → 0 < i →
    pick n i cs (ws.map nf) = some o → opnds n i cs acc (tailT ws) = some (some (o, acc ++ ws.map opdOf), [])
  | [], 0, i, cs, acc, o, _, _, h => by
    simp only [List.map_nil, pick] at h
    simp [opnds, tailT, head_pair h]
  | _ :: _, 0, _, _, _, _, _, _, h => by simp [pick] at h
  | [], n + 1, i, cs, acc, o, _, hi, h => by
    simp only [List.map_nil, pick] at h
    split at h
    · rename_i hc
      show opnds (n + 1) i cs acc [] = _
      simp only [List.map_nil, List.append_nil]
      by_cases h0 : union i cs = 0
      · unfold opnds
        simp only [h0]
        rw [if_pos trivial, head_pair h]
      · have hc := (hc.resolve_left h0).2
        unfold opnds
        simp only
        rw [if_neg h0, if_pos (show i > 0 ∧ hd ([] : Str) ≠ 44 from ⟨hi, by decide⟩), if_pos hc, head_pair h]
    · cases h
  | w :: ws, n + 1, i, cs, acc, o, hw, hi, h => by
    simp only [List.map_cons, nf, pick] at h
    split at h
    · rename_i hc
      obtain ⟨h0, ha⟩ := hc
      have ho := operand_show (hw w (by simp)) (tailT_fin ws) ha
      have hs : skipWs (32 :: (showO w ++ tailT ws)) = showO w ++ tailT ws := by
        rw [show skipWs (32 :: (showO w ++ tailT ws)) = skipWs (showO w ++ tailT ws) from rfl]
        exact skipWs_id (.inr (showO_hd (hw w (by simp)) _).1)
      have ih := opnds_tail ws n (i + 1) _ (acc ++ [opdOf w]) o (fun w' h' => hw w' (by simp [h'])) (by omega) h
      show opnds (n + 1) i cs acc (44 :: 32 :: (showO w ++ tailT ws)) = _
      unfold opnds
      simp only
      rw [if_neg h0, if_neg (show ¬(i > 0 ∧ hd (44 :: 32 :: (showO w ++ tailT ws)) ≠ 44) from fun h => h.2 rfl), if_pos hi]
      rw [show (44 :: 32 :: (showO w ++ tailT ws)).tail = 32 :: (showO w ++ tailT ws) from rfl, hs, ho]
      simp only [Option.bind_eq_bind, Option.bind_some]
      rw [skipWs_brk (tailT_fin ws).fin.brk, ih]
      simp
    · cases h

theorem opnds_head (ws : List WO) (n : Nat) (cs : List Cand) (o : Op) (hw : ∀ w ∈ ws, WOk w)
    (h : pick (n + 1) 0 cs (ws.map nf) = some o) : opnds (n + 1) 0 cs [] (headT ws) = some (some (o, ws.map opdOf), []) := by
  cases ws with
  | nil =>
    simp only [List.map_nil, pick] at h
    split at h
    · rename_i hc
      show opnds (n + 1) 0 cs [] [] = _
      unfold opnds
      simp only
      rw [if_pos (hc.resolve_right (by simp)), head_pair h]
      rfl
    · cases h
  | cons w ws =>
    simp only [List.map_cons, nf, pick] at h
    split at h
    · rename_i hc
      obtain ⟨h0, ha⟩ := hc
      have ho := operand_show (hw w (by simp)) (tailT_fin ws) ha
      have ih := opnds_tail ws n 1 _ [opdOf w] o (fun w' h' => hw w' (by simp [h'])) (by omega) h
      show opnds (n + 1) 0 cs [] (showO w ++ tailT ws) = _
      unfold opnds
      simp only
      rw [if_neg h0, if_neg (show ¬(0 > 0 ∧ hd (showO w ++ tailT ws) ≠ 44) from fun h => absurd h.1 (by decide)),
        if_neg (show ¬(0 > 0) by decide), ho]
      simp only [Option.bind_eq_bind, Option.bind_some]
      rw [skipWs_brk (tailT_fin ws).fin.brk]
      exact ih
    · cases h

/-- Mnemonics: a letter, then letters and digits. -/
def NameOk (n : Str) : Bool := isAlpha (hd n) && n.all isAlnum

/-- The candidate of a mnemonic. -/
def sel (name : Str) (fs : List (Nat × Nat)) : Option Op :=
  if NameOk name then (instTable.find? fun e => name.map low == e.1.map low).bind fun e => pick 2 0 e.2 fs else none

/-- What follows the mnemonic. -/
def restT : List WO → Str
  | [] => []
  | w :: ws => 32 :: headT (w :: ws)

/-- The text of a line. -/
theorem emitAsm_eq (name : Str) (ws : List WO) (h : ws.length ≤ 2) :
    emitAsm name ws = 9 :: (name ++ restT ws) := by
  match ws, h with
  | [], _ => simp [emitAsm, restT]
  | [a], _ => simp [emitAsm, headT, tailT, restT]
  | [a, b], _ => simp [emitAsm, headT, tailT, restT]

theorem alpha_hd {c : Nat} (h : isAlpha c = true) : isSpace c = false ∧ c ≠ 34 ∧ c ≠ 46 ∧ isAlnum c = true := by
  refine ⟨?_, ?_, ?_, by simp [isAlnum, h]⟩
  all_goals
    unfold isAlpha at h
    simp at h
  · simp [isSpace]; omega
  · omega
  · omega

theorem line_read {name : Str} {ws : List WO} {o : Op} (hl : ws.length ≤ 2) (hw : ∀ w ∈ ws, WOk w)
    (h : sel name (ws.map nf) = some o) : readLine (emitAsm name ws) = some (.inst o (ws.map opdOf)) := by
  unfold sel at h
  split at h
  · rename_i hn
    unfold NameOk at hn
    simp only [Bool.and_eq_true, List.all_eq_true] at hn
    obtain ⟨n1, n2⟩ := hn
    cases name with
    | nil => cases n1
    | cons c t =>
    have n1 : isAlpha c = true := n1
    obtain ⟨c1, c2, c3, _⟩ := alpha_hd n1
    cases hf : instTable.find? (fun e => (c :: t).map low == e.1.map low) with
    | none => rw [hf] at h; cases h
    | some e =>
    rw [hf] at h
    have h : pick 2 0 e.2 (ws.map nf) = some o := h
    have ho := opnds_head ws 1 e.2 o hw h
    -- what follows the mnemonic
    obtain ⟨u, hu⟩ : ∃ u : Str, u = restT ws := ⟨_, rfl⟩
    have hu1 : u = [] ∨ ∃ v, u = 32 :: v := by
      cases ws with
      | nil => exact .inl hu
      | cons w ws => exact .inr ⟨_, hu⟩
    have hu2 : skipWs u = headT ws ∧ hd (headT ws) ≠ 58 := by
      cases ws with
      | nil => subst hu; exact ⟨rfl, by decide⟩
      | cons w ws =>
        have := showO_hd (hw w (by simp)) (tailT ws)
        subst hu
        refine ⟨?_, this.2⟩
        show skipWs (showO w ++ tailT ws) = _
        exact skipWs_id (.inr this.1)
    have hu3 : ∀ f : Nat → Bool, f 32 = false → u = [] ∨ f (hd u) = false := by
      intro f hf
      rcases hu1 with h | ⟨v, h⟩
      · exact .inl h
      · subst h; exact .inr hf
    have hsk : skipWs (emitAsm (c :: t) ws) = c :: t ++ u := by
      rw [emitAsm_eq _ _ hl, ← hu]
      rw [show skipWs (9 :: (c :: t ++ u)) = skipWs (c :: t ++ u) from rfl]
      exact skipWs_id (.inr c1)
    obtain ⟨_, t2⟩ := tw isLabelC t u (fun x hx => alnum_label (n2 x (by simp [hx]))) (hu3 _ (by decide))
    obtain ⟨a1, a2⟩ := tw (fun c => isAlnum c || c == 46) (c :: t) u (fun x hx => by simp [n2 x hx])
      (hu3 (fun c => isAlnum c || c == 46) (by decide))
    have hpi : parseInst (c :: t ++ u) = some (some (o, ws.map opdOf), []) := by
      unfold parseInst findOp
      simp only
      rw [a1, a2, hf, if_pos (by
        rcases hu1 with h | ⟨v, h⟩
        · exact .inl h
        · subst h; exact .inr rfl)]
      simp only [Option.map_some]
      rw [hu2.1]
      exact ho
    unfold readLine
    simp only
    rw [hsk, if_neg (by simp), if_neg (show ¬hd (c :: t ++ u) = 34 from c2)]
    rw [show (c :: t ++ u).tail = t ++ u from rfl, t2, hu2.1]
    rw [if_neg (by
      rcases hu1 with h | ⟨v, h⟩ <;> subst h <;> simp [hd]), if_neg hu2.2,
      if_neg (show ¬hd (c :: t ++ u) = 46 from c3), hpi]
    rfl
  · cases h

/-! ## What is written is what is read -/

theorem rw_of {x : LI} {name : Str} {ws : List WO} {o : Op} (hf : form x = some (name, ws)) (hl : ws.length ≤ 2)
    (hw : ∀ w ∈ ws, WOk w) (hs : sel name (ws.map nf) = some o) (hi : instOf o (ws.map opdOf) = some x) :
    ∃ t, write x = some t ∧ readIns t = some x := by
  refine ⟨emitAsm name ws, by simp [write, hf], ?_⟩
  unfold readIns
  rw [line_read hl hw hs]
  exact hi

/-- All flags a register of a size can have. -/
def rfs : Sz → List Nat
  | .b => [1, 17]
  | .w => [2]
  | .l => [4]
  | .q => [8]

theorem rfs_of (g : Rg) : regFlag g ∈ rfs g.z := by
  obtain ⟨z, n, hi⟩ := g
  cases z
  · unfold regFlag
    simp only
    split <;> decide
  all_goals exact List.mem_cons_self

theorem nf_reg (g : Rg) : nf (.reg g) = (4127, regFlag g) := rfl
theorem nf_xmm (n : Nat) : nf (.xmm n) = (4127, 4096) := rfl
theorem nf_im (v : Int) : nf (.im v) = (32, 32) := rfl

theorem memW_ok {m : Mem} (h : MemOk m) : WOk (memW m) ∧ memOf (opdOf (memW m)) = some m := by
  obtain ⟨b, ix, v⟩ := m
  cases b with
  | none =>
    cases ix with
    | none =>
      refine ⟨trivial, ?_⟩
      have h : 0 ≤ v ∧ v < 2 ^ 32 := h
      show some _ = _
      rw [Int.emod_eq_of_lt h.1 h.2]
    | some x => exact h.elim
  | some b =>
    cases ix with
    | none => exact ⟨⟨h.2, h.1⟩, rfl⟩
    | some x =>
      obtain ⟨i, k⟩ := x
      obtain ⟨h1, h2, h3, h4⟩ := h
      refine ⟨⟨h4, h1, h2, h3⟩, ?_⟩
      have : k = 0 ∨ k = 1 ∨ k = 2 ∨ k = 3 := by omega
      rcases this with h | h | h | h <;> subst h <;> rfl

theorem memW_star {m : Mem} (h : MemOk m) (hb : m.base.isSome = true) :
    WOk (.star (memW m)) ∧ memOf (opdOf (.star (memW m))) = some m ∧
    ((m.index = none ∧ nf (.star (memW m)) = (1024, 1024)) ∨ (m.index ≠ none ∧ nf (.star (memW m)) = (1024, 2048))) := by
  obtain ⟨b, ix, v⟩ := m
  cases b with
  | none => cases hb
  | some b =>
    have h0 : ∀ v : Int, (match (if v = 0 then none else some (Ex.fix v)) with
      | none => some (0 : Int)
      | some (.fix v) => some v
      | _ => none) = some v := by
      intro v
      by_cases h : v = 0 <;> simp [h]
    cases ix with
    | none =>
      refine ⟨⟨h.2, h.1⟩, ?_, .inl ⟨rfl, rfl⟩⟩
      show (match (if v = 0 then none else some (Ex.fix v)) with
      | none => some (0 : Int)
      | some (.fix v) => some v
      | _ => none).map _ = _
      rw [h0]
      rfl
    | some x =>
      obtain ⟨i, k⟩ := x
      obtain ⟨h1, h2, h3, h4⟩ := h
      refine ⟨⟨h4, h1, h2, h3⟩, ?_, .inr ⟨nofun, rfl⟩⟩
      show (match (if v = 0 then none else some (Ex.fix v)) with
      | none => some (0 : Int)
      | some (.fix v) => some v
      | _ => none).bind _ = _
      rw [h0]
      have : k = 0 ∨ k = 1 ∨ k = 2 ∨ k = 3 := by omega
      rcases this with h | h | h | h <;> subst h <;> rfl

/-- The flags of a memory operand. -/
theorem nf_mem {m : Mem} (h : MemOk m) :
    (m.base.isSome = true ∧ m.index = none ∧ nf (memW m) = (0, 128)) ∨ (m.base.isSome = true ∧ m.index ≠ none ∧ nf (memW m) = (0, 256)) ∨
    (m.base.isSome = false ∧ m.index = none ∧ nf (memW m) = (0, 64)) := by
  obtain ⟨b, ix, v⟩ := m
  cases b with
  | none =>
    cases ix with
    | none => exact .inr (.inr ⟨rfl, rfl, rfl⟩)
    | some x => exact h.elim
  | some b =>
    cases ix with
    | none => exact .inl ⟨rfl, rfl, rfl⟩
    | some x => exact .inr (.inl ⟨rfl, nofun, rfl⟩)

/-- All selections of mnemonics with two registers of the same size. -/
theorem sel_rr : ∀ z ∈ Sz.all, ∀ f ∈ rfs z, ∀ g ∈ rfs z,
    sel (c!"mov") [(4127, f), (4127, g)] = some .movRR ∧ sel (c!"test") [(4127, f), (4127, g)] = some .test ∧
    sel (aluName .add) [(4127, f), (4127, g)] = some (.aluRR .add) ∧ sel (aluName .or) [(4127, f), (4127, g)] = some (.aluRR .or) ∧
    sel (aluName .and) [(4127, f), (4127, g)] = some (.aluRR .and) ∧ sel (aluName .sub) [(4127, f), (4127, g)] = some (.aluRR .sub) ∧
    sel (aluName .xor) [(4127, f), (4127, g)] = some (.aluRR .xor) ∧ sel (aluName .cmp) [(4127, f), (4127, g)] = some (.aluRR .cmp) := by
  decide +kernel

theorem sel_x : ∀ z ∈ Sz.all, ∀ y ∈ Sz.all, z.bits < y.bits → ∀ f ∈ rfs z, ∀ g ∈ rfs y,
    sel (c!"movsx") [(4127, f), (4127, g)] = some (.movx true) ∧ sel (c!"movzx") [(4127, f), (4127, g)] = some (.movx false) := by
  decide +kernel

theorem sel_r1 : ∀ z ∈ Sz.all, ∀ f ∈ rfs z,
    sel (c!"mov") [(32, 32), (4127, f)] = some .movImR ∧ sel (c!"mov") [(0, 128), (4127, f)] = some .movIR ∧
     sel (c!"mov") [(0, 256), (4127, f)] = some .movIIR ∧ sel (c!"mov") [(0, 64), (4127, f)] = some .movDR ∧
     sel (c!"mov") [(4127, f), (0, 128)] = some .movRI ∧ sel (c!"mov") [(4127, f), (0, 64)] = some .movRD := by
  decide +kernel

theorem sel_r2 : ∀ z ∈ Sz.all, ∀ f ∈ rfs z,
    sel (aluName .add) [(32, 32), (4127, f)] = some (.aluImR .add) ∧ sel (aluName .or) [(32, 32), (4127, f)] = some (.aluImR .or) ∧
     sel (aluName .and) [(32, 32), (4127, f)] = some (.aluImR .and) ∧ sel (aluName .sub) [(32, 32), (4127, f)] = some (.aluImR .sub) ∧
     sel (aluName .xor) [(32, 32), (4127, f)] = some (.aluImR .xor) ∧ sel (aluName .cmp) [(32, 32), (4127, f)] = some (.aluImR .cmp) := by
  decide +kernel

theorem sel_r3 : ∀ z ∈ Sz.all, ∀ f ∈ rfs z,
    sel (aluName .add) [(0, 128), (4127, f)] = some (.aluIR .add) ∧ sel (aluName .sub) [(0, 128), (4127, f)] = some (.aluIR .sub) ∧
     sel (aluName .add) [(0, 256), (4127, f)] = some (.aluIIR .add) ∧ sel (aluName .sub) [(0, 256), (4127, f)] = some (.aluIIR .sub) := by
  decide +kernel

theorem sel_r4 : ∀ z ∈ Sz.all, ∀ f ∈ rfs z,
    sel (unName .not) [(4127, f)] = some (.un .not) ∧ sel (unName .neg) [(4127, f)] = some (.un .neg) ∧
     sel (unName .inc) [(4127, f)] = some (.un .inc) ∧ sel (unName .dec) [(4127, f)] = some (.un .dec) := by
  decide +kernel

theorem sel_r5 : ∀ z ∈ Sz.all, ∀ f ∈ rfs z,
    sel (mdName .mul) [(4127, f)] = some (.md .mul) ∧ sel (mdName .div) [(4127, f)] = some (.md .div) ∧
     sel (mdName .idiv) [(4127, f)] = some (.md .idiv) := by
  decide +kernel

theorem sel_r6 : ∀ z ∈ Sz.all, ∀ f ∈ rfs z,
    sel (shName .shl) [(4127, 17), (4127, f)] = some (.shR .shl) ∧ sel (shName .shr) [(4127, 17), (4127, f)] = some (.shR .shr) ∧
     sel (shName .sar) [(4127, 17), (4127, f)] = some (.shR .sar) ∧ sel (shName .shl) [(32, 32), (4127, f)] = some (.shImR .shl) ∧
     sel (shName .shr) [(32, 32), (4127, f)] = some (.shImR .shr) ∧ sel (shName .sar) [(32, 32), (4127, f)] = some (.shImR .sar) := by
  decide +kernel

theorem sel_r7 : ∀ z ∈ Sz.all, ∀ f ∈ rfs z,
    (z = .l ∨ z = .q) → ∀ s ∈ [true, false], sel (c!"cvtsi2" ++ sd s) [(4127, f), (4127, 4096)] = some (.cvtI2F s) ∧
     sel (if s then c!"cvttss2si" else c!"cvttsd2si") [(4127, 4096), (4127, f)] = some (.cvtF2I s) := by
  decide +kernel

theorem sel_set : ∀ cc, cc < 16 → (∀ f ∈ rfs .b, sel (c!"set" ++ ccName cc) [(4127, f)] = some (.set cc)) ∧
    sel (c!"j" ++ ccName cc) [(0, 64)] = some (.jcc cc) := by
  decide +kernel

theorem sel_q : sel (c!"lea") [(0, 128), (4127, 8)] = some .leaIR ∧ sel (c!"lea") [(0, 256), (4127, 8)] = some .leaIIR ∧
    sel (c!"push") [(4127, 8)] = some .pushR ∧ sel (c!"push") [(32, 32)] = some .pushIm ∧ sel (c!"pop") [(4127, 8)] = some .pop ∧
    sel (c!"jmp") [(512, 512)] = some .jmpDer ∧ sel (c!"jmp") [(1024, 1024)] = some .jmpDei ∧ sel (c!"jmp") [(1024, 2048)] = some .jmpDeii ∧
    sel (c!"jmp") [(0, 64)] = some .jmpD ∧ sel (c!"call") [(0, 64)] = some .callD ∧ sel (c!"call") [(512, 512)] = some .callDer ∧
    sel (c!"int") [(32, 32)] = some .int ∧ sel (aluName .add ++ c!"q") [(32, 32), (0, 128)] = some (.aluQ .add) ∧
    sel (aluName .sub ++ c!"q") [(32, 32), (0, 128)] = some (.aluQ .sub) := by
  decide +kernel

theorem sel_z : ∀ z ∈ Sz.all, sel (c!"mov" ++ szName z) [(32, 32), (0, 128)] = some (.movImI z) ∧
    sel (c!"mov" ++ szName z) [(32, 32), (0, 64)] = some (.movImD z) ∧ sel (unName .inc ++ szName z) [(0, 128)] = some (.unM .inc z) ∧
    sel (unName .dec ++ szName z) [(0, 128)] = some (.unM .dec z) := by
  decide +kernel

/-- The operations on floating-point registers. -/
def sses : List Sse := [.mov, .add, .mul, .sub, .div, .sqrt, .cvt, .xor, .ucomi, .comi]

theorem sel_sse : (∀ o ∈ sses, ∀ s ∈ [true, false], ¬(o = .sqrt ∧ s = true) →
      sel (sseName o s) [(4127, 4096), (4127, 4096)] = some (.sse o s)) ∧
    (∀ s ∈ [true, false], sel (c!"mov" ++ sd s) [(0, 128), (4127, 4096)] = some (.sseIX s) ∧
      sel (c!"mov" ++ sd s) [(4127, 4096), (0, 128)] = some (.sseXI s)) := by
  decide +kernel

theorem opd_reg (g : Rg) : opdOf (.reg g) = .reg g := rfl
theorem opd_xmm (n : Nat) : opdOf (.xmm n) = .xmm n := rfl
theorem opd_im (v : Int) : opdOf (.im v) = .imm v := rfl

theorem wok2 {a b : WO} (ha : WOk a) (hb : WOk b) : ∀ w ∈ [a, b], WOk w := by
  intro w h
  simp only [List.mem_cons, List.not_mem_nil, or_false] at h
  rcases h with h | h <;> subst h <;> assumption

theorem wok1 {a : WO} (ha : WOk a) : ∀ w ∈ [a], WOk w := by
  intro w h
  simp only [List.mem_cons, List.not_mem_nil, or_false] at h
  subst h
  exact ha

theorem wf_cl : X64Enc.Wf ⟨.b, 1, false⟩ := ⟨by decide, nofun⟩
theorem wf_q {n : Nat} (h : n < 16) : X64Enc.Wf (q64 n) := ⟨h, nofun⟩
theorem mem_bool (s : Bool) : s ∈ [true, false] := by cases s <;> decide
theorem mem_sse (o : Sse) : o ∈ sses := by cases o <;> decide
theorem i64_nat {c : Nat} (h : c < 2 ^ 63) : I64 c := by unfold I64; omega

/-- C76: every instruction the compiler writes is read by the assembler as that instruction.  For each one with a
mnemonic and operands that exist (`Writable`), the text `emit_asm` writes (`write`) is a line on which the assembler
finds the instruction, with the same operands (`readIns`). -/
theorem read_write_partial {x : LI} (h : Writable x) : ∃ t, write x = some t ∧ readIns t = some x := by
  cases x with
  | a x =>
    cases x with
    | i x =>
      cases x with
      | mov s d =>
        obtain ⟨hs, hd, e⟩ := h
        have hr := rfs_of d
        rw [← e] at hr
        exact rw_of rfl (by simp) (wok2 (a := .reg s) (b := .reg d) hs hd) (sel_rr s.z (mem_all _) _ (rfs_of s) _ hr).1 rfl
      | movI v d =>
        obtain ⟨hv, hd⟩ := h
        exact rw_of rfl (by simp) (wok2 (a := .im v) (b := .reg d) hv hd) (sel_r1 d.z (mem_all _) _ (rfs_of d)).1 rfl
      | movx sx s d =>
        obtain ⟨hs, hd, e⟩ := h
        have := sel_x s.z (mem_all _) d.z (mem_all _) e _ (rfs_of s) _ (rfs_of d)
        cases sx with
        | true => exact rw_of rfl (by simp) (wok2 (a := .reg s) (b := .reg d) hs hd) this.1 rfl
        | false => exact rw_of rfl (by simp) (wok2 (a := .reg s) (b := .reg d) hs hd) this.2 rfl
      | alu o s d =>
        obtain ⟨hs, hd, e⟩ := h
        have hr := rfs_of d
        rw [← e] at hr
        have := sel_rr s.z (mem_all _) _ (rfs_of s) _ hr
        have hw := wok2 (a := .reg s) (b := .reg d) hs hd
        cases o with
        | add => exact rw_of rfl (by simp) hw this.2.2.1 rfl
        | or => exact rw_of rfl (by simp) hw this.2.2.2.1 rfl
        | and => exact rw_of rfl (by simp) hw this.2.2.2.2.1 rfl
        | sub => exact rw_of rfl (by simp) hw this.2.2.2.2.2.1 rfl
        | xor => exact rw_of rfl (by simp) hw this.2.2.2.2.2.2.1 rfl
        | cmp => exact rw_of rfl (by simp) hw this.2.2.2.2.2.2.2 rfl
      | aluI o v d =>
        obtain ⟨hv, hd⟩ := h
        have := sel_r2 d.z (mem_all _) _ (rfs_of d)
        have hw := wok2 (a := .im v) (b := .reg d) hv hd
        cases o with
        | add => exact rw_of rfl (by simp) hw this.1 rfl
        | or => exact rw_of rfl (by simp) hw this.2.1 rfl
        | and => exact rw_of rfl (by simp) hw this.2.2.1 rfl
        | sub => exact rw_of rfl (by simp) hw this.2.2.2.1 rfl
        | xor => exact rw_of rfl (by simp) hw this.2.2.2.2.1 rfl
        | cmp => exact rw_of rfl (by simp) hw this.2.2.2.2.2 rfl
      | test s d =>
        obtain ⟨hs, hd, e⟩ := h
        have hr := rfs_of d
        rw [← e] at hr
        exact rw_of rfl (by simp) (wok2 (a := .reg s) (b := .reg d) hs hd) (sel_rr s.z (mem_all _) _ (rfs_of s) _ hr).2.1 rfl
      | un o d =>
        have := sel_r4 d.z (mem_all _) _ (rfs_of d)
        have hw := wok1 (a := .reg d) h
        cases o with
        | not => exact rw_of rfl (by simp) hw this.1 rfl
        | neg => exact rw_of rfl (by simp) hw this.2.1 rfl
        | inc => exact rw_of rfl (by simp) hw this.2.2.1 rfl
        | dec => exact rw_of rfl (by simp) hw this.2.2.2 rfl
      | md o d =>
        have := sel_r5 d.z (mem_all _) _ (rfs_of d)
        have hw := wok1 (a := .reg d) h
        cases o with
        | mul => exact rw_of rfl (by simp) hw this.1 rfl
        | div => exact rw_of rfl (by simp) hw this.2.1 rfl
        | idiv => exact rw_of rfl (by simp) hw this.2.2 rfl
      | sh o d =>
        have := sel_r6 d.z (mem_all _) _ (rfs_of d)
        have hw := wok2 (a := .reg ⟨.b, 1, false⟩) (b := .reg d) wf_cl h
        cases o with
        | shl => exact rw_of rfl (by simp) hw this.1 rfl
        | shr => exact rw_of rfl (by simp) hw this.2.1 rfl
        | sar => exact rw_of rfl (by simp) hw this.2.2.1 rfl
      | shI o c d =>
        obtain ⟨hc, hd⟩ := h
        have := sel_r6 d.z (mem_all _) _ (rfs_of d)
        have hw := wok2 (a := .im c) (b := .reg d) (i64_nat hc) hd
        have hi : ∀ o, instOf (.shImR o) [.imm c, .reg d] = some (.a (.i (.shI o c d))) := by
          intro o
          show (if (0 : Int) ≤ c then some (LI.a (.i (.shI o (c : Int).toNat d))) else none) = _
          rw [if_pos (by omega), Int.toNat_natCast]
        cases o with
        | shl => exact rw_of rfl (by simp) hw this.2.2.2.1 (hi _)
        | shr => exact rw_of rfl (by simp) hw this.2.2.2.2.1 (hi _)
        | sar => exact rw_of rfl (by simp) hw this.2.2.2.2.2 (hi _)
      | cwtl => exact rw_of rfl (by simp) nofun (by decide +kernel : sel (c!"cwtl") [] = some .cwtl) rfl
      | cltd => exact rw_of rfl (by simp) nofun (by decide +kernel : sel (c!"cltd") [] = some .cltd) rfl
      | cqto => exact rw_of rfl (by simp) nofun (by decide +kernel : sel (c!"cqto") [] = some .cqto) rfl
      | set cc d =>
        obtain ⟨hc, hd, e⟩ := h
        have hr := rfs_of d
        rw [e] at hr
        exact rw_of rfl (by simp) (wok1 (a := .reg d) hd) ((sel_set cc hc).1 _ hr) rfl
      | lea m d =>
        obtain ⟨hm, hb, hd, e⟩ := h
        obtain ⟨w, hmo⟩ := memW_ok hm
        have hr : nf (.reg d) = (4127, 8) := by rw [nf_reg, regFlag, e]; rfl
        have hw := wok2 (a := memW m) (b := .reg d) w hd
        rcases nf_mem hm with ⟨_, _, hn⟩ | ⟨_, _, hn⟩ | ⟨hb', _⟩
        · refine rw_of rfl (by simp) hw (o := .leaIR) ?_ ?_
          · simp only [List.map_cons, List.map_nil, hn, hr]; exact sel_q.1
          · simp only [List.map_cons, List.map_nil, instOf, opd_reg, opd_xmm, opd_im, hmo]
        · refine rw_of rfl (by simp) hw (o := .leaIIR) ?_ ?_
          · simp only [List.map_cons, List.map_nil, hn, hr]; exact sel_q.2.1
          · simp only [List.map_cons, List.map_nil, instOf, opd_reg, opd_xmm, opd_im, hmo, Option.map_some]
        · rw [hb] at hb'; cases hb'
      | load m d =>
        obtain ⟨hm, hd⟩ := h
        obtain ⟨w, hmo⟩ := memW_ok hm
        have hw := wok2 (a := memW m) (b := .reg d) w hd
        have hs := sel_r1 d.z (mem_all _) _ (rfs_of d)
        rcases nf_mem hm with ⟨_, _, hn⟩ | ⟨_, _, hn⟩ | ⟨_, _, hn⟩
        · refine rw_of rfl (by simp) hw (o := .movIR) ?_ ?_
          · simp only [List.map_cons, List.map_nil, hn, nf_reg]; exact hs.2.1
          · simp only [List.map_cons, List.map_nil, instOf, opd_reg, opd_xmm, opd_im, hmo]
        · refine rw_of rfl (by simp) hw (o := .movIIR) ?_ ?_
          · simp only [List.map_cons, List.map_nil, hn, nf_reg]; exact hs.2.2.1
          · simp only [List.map_cons, List.map_nil, instOf, opd_reg, opd_xmm, opd_im, hmo, Option.map_some]
        · refine rw_of rfl (by simp) hw (o := .movDR) ?_ ?_
          · simp only [List.map_cons, List.map_nil, hn, nf_reg]; exact hs.2.2.2.1
          · simp only [List.map_cons, List.map_nil, instOf, opd_reg, opd_xmm, opd_im, hmo, Option.map_some]
      | store s m =>
        obtain ⟨hm, hi, hs⟩ := h
        obtain ⟨w, hmo⟩ := memW_ok hm
        have hw := wok2 (a := .reg s) (b := memW m) hs w
        have hs := sel_r1 s.z (mem_all _) _ (rfs_of s)
        rcases nf_mem hm with ⟨_, _, hn⟩ | ⟨_, h, _⟩ | ⟨_, _, hn⟩
        · refine rw_of rfl (by simp) hw (o := .movRI) ?_ ?_
          · simp only [List.map_cons, List.map_nil, hn, nf_reg]; exact hs.2.2.2.2.1
          · simp only [List.map_cons, List.map_nil, instOf, opd_reg, opd_xmm, opd_im, hmo, Option.map_some]
        · exact absurd hi h
        · refine rw_of rfl (by simp) hw (o := .movRD) ?_ ?_
          · simp only [List.map_cons, List.map_nil, hn, nf_reg]; exact hs.2.2.2.2.2
          · simp only [List.map_cons, List.map_nil, instOf, opd_reg, opd_xmm, opd_im, hmo, Option.map_some]
      | storeI z v m =>
        obtain ⟨hm, hi, hv⟩ := h
        obtain ⟨w, hmo⟩ := memW_ok hm
        have hw := wok2 (a := .im v) (b := memW m) hv w
        have hs := sel_z z (mem_all _)
        rcases nf_mem hm with ⟨_, _, hn⟩ | ⟨_, h, _⟩ | ⟨_, _, hn⟩
        · refine rw_of rfl (by simp) hw (o := .movImI z) ?_ ?_
          · simp only [List.map_cons, List.map_nil, hn, nf_im]; exact hs.1
          · simp only [List.map_cons, List.map_nil, instOf, opd_reg, opd_xmm, opd_im, hmo, Option.map_some]
        · exact absurd hi h
        · refine rw_of rfl (by simp) hw (o := .movImD z) ?_ ?_
          · simp only [List.map_cons, List.map_nil, hn, nf_im]; exact hs.2.1
          · simp only [List.map_cons, List.map_nil, instOf, opd_reg, opd_xmm, opd_im, hmo, Option.map_some]
    | aluM o m d =>
      obtain ⟨ho, hm, hb, hd⟩ := h
      obtain ⟨w, hmo⟩ := memW_ok hm
      have hw := wok2 (a := memW m) (b := .reg d) w hd
      have hs := sel_r3 d.z (mem_all _) _ (rfs_of d)
      rcases nf_mem hm with ⟨_, _, hn⟩ | ⟨_, _, hn⟩ | ⟨hb', _⟩
      · refine rw_of rfl (by simp) hw (o := .aluIR o) ?_ ?_
        · simp only [List.map_cons, List.map_nil, hn, nf_reg]
          rcases ho with h | h <;> subst h
          · exact hs.1
          · exact hs.2.1
        · simp only [List.map_cons, List.map_nil, instOf, opd_reg, opd_xmm, opd_im, hmo, Option.map_some]
      · refine rw_of rfl (by simp) hw (o := .aluIIR o) ?_ ?_
        · simp only [List.map_cons, List.map_nil, hn, nf_reg]
          rcases ho with h | h <;> subst h
          · exact hs.2.2.1
          · exact hs.2.2.2
        · simp only [List.map_cons, List.map_nil, instOf, opd_reg, opd_xmm, opd_im, hmo, Option.map_some]
      · rw [hb] at hb'; cases hb'
    | aluMI o z v m =>
      obtain ⟨ho, hz, ⟨hm, hb, hi⟩, hv⟩ := h
      subst hz
      obtain ⟨w, hmo⟩ := memW_ok hm
      have hw := wok2 (a := .im v) (b := memW m) hv w
      rcases nf_mem hm with ⟨_, _, hn⟩ | ⟨_, h, _⟩ | ⟨hb', _⟩
      · refine rw_of rfl (by simp) hw (o := .aluQ o) ?_ ?_
        · simp only [List.map_cons, List.map_nil, hn, nf_im]
          rcases ho with h | h <;> subst h
          · exact sel_q.2.2.2.2.2.2.2.2.2.2.2.2.1
          · exact sel_q.2.2.2.2.2.2.2.2.2.2.2.2.2
        · simp only [List.map_cons, List.map_nil, instOf, opd_reg, opd_xmm, opd_im, hmo, Option.map_some]
      · exact absurd hi h
      · rw [hb] at hb'; cases hb'
    | unM o z m =>
      obtain ⟨ho, hm, hb, hi⟩ := h
      obtain ⟨w, hmo⟩ := memW_ok hm
      have hw := wok1 (a := memW m) w
      have hs := sel_z z (mem_all _)
      rcases nf_mem hm with ⟨_, _, hn⟩ | ⟨_, h, _⟩ | ⟨hb', _⟩
      · refine rw_of rfl (by simp) hw (o := .unM o z) ?_ ?_
        · simp only [List.map_cons, List.map_nil, hn]
          rcases ho with h | h <;> subst h
          · exact hs.2.2.1
          · exact hs.2.2.2
        · simp only [List.map_cons, List.map_nil, instOf, hmo, Option.map_some]
      · exact absurd hi h
      · rw [hb] at hb'; cases hb'
    | push n => exact rw_of rfl (by simp) (wok1 (a := .reg (q64 n)) (wf_q h)) sel_q.2.2.1 rfl
    | pop n => exact rw_of rfl (by simp) (wok1 (a := .reg (q64 n)) (wf_q h)) sel_q.2.2.2.2.1 rfl
    | pushI v => exact rw_of rfl (by simp) (wok1 (a := .im v) h) sel_q.2.2.2.1 rfl
    | jmpR n => exact rw_of rfl (by simp) (wok1 (a := .star (.reg (q64 n))) ⟨h, rfl⟩) sel_q.2.2.2.2.2.1 rfl
    | jmpM m =>
      obtain ⟨w, hmo, hn⟩ := memW_star h.1 h.2
      rcases hn with ⟨_, hn⟩ | ⟨_, hn⟩
      · refine rw_of rfl (by simp) (wok1 w) (o := .jmpDei) ?_ ?_
        · simp only [List.map_cons, List.map_nil, hn]; exact sel_q.2.2.2.2.2.2.1
        · simp only [List.map_cons, List.map_nil, instOf, hmo, Option.map_some]
      · refine rw_of rfl (by simp) (wok1 w) (o := .jmpDeii) ?_ ?_
        · simp only [List.map_cons, List.map_nil, hn]; exact sel_q.2.2.2.2.2.2.2.1
        · simp only [List.map_cons, List.map_nil, instOf, hmo, Option.map_some]
    | callR n => exact rw_of rfl (by simp) (wok1 (a := .star (.reg (q64 n))) ⟨h, rfl⟩) sel_q.2.2.2.2.2.2.2.2.2.2.1 rfl
    | ret => exact rw_of rfl (by simp) nofun (by decide +kernel : sel (c!"ret") [] = some .ret) rfl
    | syscall => exact rw_of rfl (by simp) nofun (by decide +kernel : sel (c!"syscall") [] = some .syscall) rfl
    | endbr => exact rw_of rfl (by simp) nofun (by decide +kernel : sel (c!"endbr64") [] = some .endbr) rfl
    | int v =>
      refine rw_of rfl (by simp) (wok1 (a := .im v) (i64_nat h)) sel_q.2.2.2.2.2.2.2.2.2.2.2.1 ?_
      show (if (0 : Int) ≤ v then some (LI.a (.int (v : Int).toNat)) else none) = _
      rw [if_pos (by omega), Int.toNat_natCast]
    | sse o s x d =>
      obtain ⟨ho, hx, hd⟩ := h
      exact rw_of rfl (by simp) (wok2 (a := .xmm x) (b := .xmm d) hx hd) (sel_sse.1 o (mem_sse o) s (mem_bool s) ho) rfl
    | sseLoad s m d =>
      obtain ⟨⟨hm, hb, hi⟩, hd⟩ := h
      obtain ⟨w, hmo⟩ := memW_ok hm
      rcases nf_mem hm with ⟨_, _, hn⟩ | ⟨_, h, _⟩ | ⟨hb', _⟩
      · refine rw_of rfl (by simp) (wok2 (a := memW m) (b := .xmm d) w hd) (o := .sseIX s) ?_ ?_
        · simp only [List.map_cons, List.map_nil, hn, nf_xmm]; exact (sel_sse.2 s (mem_bool s)).1
        · simp only [List.map_cons, List.map_nil, instOf, opd_reg, opd_xmm, opd_im, hmo, Option.map_some]
      · exact absurd hi h
      · rw [hb] at hb'; cases hb'
    | sseStore s d m =>
      obtain ⟨⟨hm, hb, hi⟩, hd⟩ := h
      obtain ⟨w, hmo⟩ := memW_ok hm
      rcases nf_mem hm with ⟨_, _, hn⟩ | ⟨_, h, _⟩ | ⟨hb', _⟩
      · refine rw_of rfl (by simp) (wok2 (a := .xmm d) (b := memW m) hd w) (o := .sseXI s) ?_ ?_
        · simp only [List.map_cons, List.map_nil, hn, nf_xmm]; exact (sel_sse.2 s (mem_bool s)).2
        · simp only [List.map_cons, List.map_nil, instOf, opd_reg, opd_xmm, opd_im, hmo, Option.map_some]
      · exact absurd hi h
      · rw [hb] at hb'; cases hb'
    | cvtI2F s g d =>
      obtain ⟨hg, hz, hd⟩ := h
      exact rw_of rfl (by simp) (wok2 (a := .reg g) (b := .xmm d) hg hd) (sel_r7 g.z (mem_all _) _ (rfs_of g) hz s (mem_bool s)).1 rfl
    | cvtF2I s d g =>
      obtain ⟨hg, hz, hd⟩ := h
      exact rw_of rfl (by simp) (wok2 (a := .xmm d) (b := .reg g) hd hg) (sel_r7 g.z (mem_all _) _ (rfs_of g) hz s (mem_bool s)).2 rfl
    | jmp _ => exact h.elim
    | jcc _ _ => exact h.elim
    | call _ => exact h.elim
    | leaRip _ _ => exact h.elim
    | loadRip _ _ => exact h.elim
  | jmp l => exact rw_of rfl (by simp) (wok1 (a := .lab l) h) sel_q.2.2.2.2.2.2.2.2.1 rfl
  | jcc cc l => exact rw_of rfl (by simp) (wok1 (a := .lab l) h.2) (sel_set cc h.1).2 rfl
  | call l => exact rw_of rfl (by simp) (wok1 (a := .lab l) h) sel_q.2.2.2.2.2.2.2.2.2.1 rfl
  | lea l v d =>
    obtain ⟨hl, h1, h2, hd, e⟩ := h
    have hr : nf (.reg d) = (4127, 8) := by rw [nf_reg, regFlag, e]; rfl
    refine rw_of rfl (by simp) (wok2 (a := .rip l v) (b := .reg d) ⟨hl, by omega, h2⟩ hd) (o := .leaIR) ?_ ?_
    · simp only [List.map_cons, List.map_nil, hr]; exact sel_q.1
    · by_cases hp : v > 0
      · simp [instOf, opdOf, hp, memOf, ripOf]
      · have : v = 0 := by omega
        subst this
        rfl
  | load l v d =>
    obtain ⟨hl, h1, h2, hd⟩ := h
    refine rw_of rfl (by simp) (wok2 (a := .rip l v) (b := .reg d) ⟨hl, by omega, h2⟩ hd) (o := .movIR) ?_ ?_
    · exact (sel_r1 d.z (mem_all _) _ (rfs_of d)).2.1
    · by_cases hp : v > 0
      · simp [instOf, opdOf, hp, memOf, ripOf]
      · have : v = 0 := by omega
        subst this
        rfl

/-- Two instructions are never written the same. -/
theorem write_inj {x y : LI} (hx : Writable x) (hy : Writable y) (h : write x = write y) : x = y := by
  obtain ⟨t, t1, t2⟩ := read_write_partial hx
  obtain ⟨u, u1, u2⟩ := read_write_partial hy
  rw [t1, u1] at h
  injection h with h
  subst h
  rw [t2] at u2
  injection u2

/-! ## Examples: the hypotheses are met -/

example : Writable (.a (.i (.load { base := some 5, index := some (12, 3), disp := -40 } ⟨.l, 9, false⟩))) :=
  ⟨⟨by decide, by decide, by decide, by decide⟩, by decide, nofun⟩
example : write (.a (.i (.load { base := some 5, index := some (12, 3), disp := -40 } ⟨.l, 9, false⟩)))
    = some (c!"\tmov -40(%rbp,%r12,8), %r9d") := by decide +kernel
example : readIns (c!"\tmov -40(%rbp,%r12,8), %r9d")
    = some (.a (.i (.load { base := some 5, index := some (12, 3), disp := -40 } ⟨.l, 9, false⟩))) := by decide +kernel
example : Writable (.jcc 12 (c!".L5")) := ⟨by decide, 46, c!"L5", rfl, by decide, by decide, by decide⟩
example : write (.jcc 12 (c!".L5")) = some (c!"\tjl .L5") := by decide +kernel
example : Writable (.lea (c!"tbl") 16 ⟨.q, 0, false⟩) :=
  ⟨⟨116, c!"bl", rfl, by decide, by decide, by decide⟩, by decide, by decide, ⟨by decide, nofun⟩, rfl⟩
example : write (.lea (c!"tbl") 16 ⟨.q, 0, false⟩) = some (c!"\tlea tbl+16(%rip), %rax") := by decide +kernel
example : Writable (.a (.i (.movI (-2 ^ 63) ⟨.q, 0, false⟩))) := ⟨⟨by decide, by decide⟩, by decide, nofun⟩
example : readIns (c!"\tmov $-9223372036854775808, %rax") = some (.a (.i (.movI (-2 ^ 63) ⟨.q, 0, false⟩))) := by decide +kernel

/-! ## Findings -/

/-- A label with a negative offset, as `label_indirect` (src/cc/arch/x64/emit_x64.c:51-58) writes it, is not accepted:
`calc_expr` adds to a label only.  (The offsets of `IR_IOFS` are 0, src/cc/backend/ir.c:251-256.) -/
theorem rip_neg_wrong : ∃ t, write (.lea (c!"tbl") (-8) ⟨.q, 0, false⟩) = some t ∧ t = c!"\tlea tbl-8(%rip), %rax" ∧
    (∃ o os, readLine t = some (.inst o os)) ∧ readIns t = none := by
  refine ⟨_, rfl, ?_, ⟨.leaIR, [.ind none (.bop .sub (.label (c!"tbl")) (.fix 8)), .reg ⟨.q, 0, false⟩], ?_⟩, ?_⟩ <;> decide +kernel

/-- Constant addresses are written with 32 bits: a store to address -1 is read as one to 4294967295, which the encoder
refuses. -/
theorem store_neg_wrong : ∃ t, write (.a (.i (.storeI .l 5 { base := none, disp := -1 }))) = some t ∧
    t = c!"\tmovl $5, 0xffffffff" ∧ readIns t = some (.a (.i (.storeI .l 5 { base := none, disp := 4294967295 }))) ∧
    X64Enc.enc (.i (.storeI .l 5 { base := none, disp := 4294967295 })) = none := by
  refine ⟨_, rfl, ?_, ?_, ?_⟩ <;> decide +kernel

/-- Addresses that differ by 2^32 are written the same: the access goes to the wrong address without a message. -/
theorem store_high_wrong : write (.a (.i (.storeI .l 5 { base := none, disp := 0x100001234 })))
    = write (.a (.i (.storeI .l 5 { base := none, disp := 0x1234 }))) := by decide +kernel

/-- A known mnemonic with a combination of operands the table does not have is dropped without a message: operands of
different sizes, a 32-bit address, an operand too few, a store of a constant to an address without size. -/
theorem dropped_wrong : readLine (c!"mov %al, %ebx") = some .nothing ∧ readLine (c!"lea 8(%rbp), %eax") = some .nothing ∧
    readLine (c!"mov %eax") = some .nothing ∧ readLine (c!"mov $5, (%rax)") = some .nothing := by decide +kernel

/-- What follows a label on its line is dropped without a message. -/
theorem label_rest_wrong : readLine (c!"foo: ret") = some (.label (c!"foo")) ∧ readLine (c!"foo: bar baz") = some (.label (c!"foo")) := by
  decide +kernel

/-- A second label behind a jump is swallowed by the token the expression parser reads ahead. -/
theorem jmp_rest_wrong : readIns (c!"jmp foo bar") = some (.jmp (c!"foo")) := by decide +kernel

/-- `4-1(%rax)` is the address `%rax + 5`: the offset's `-1` is a token of its own, subtracted as a negative number. -/
theorem offset_expr_wrong : readIns (c!"mov 4-1(%rax), %rbx")
    = some (.a (.i (.load { base := some 0, disp := 5 } ⟨.q, 3, false⟩))) := by decide +kernel

end Verif.X64Text

/-!
# `Vector` (src/util/util.c:353-425)

`data` is the raw allocation: one slot per element of the capacity, `none` for a
slot never written.  Element values are an arbitrary type `V` with a `null`.
Allocation failure (`realloc_or_die` exits) and `int` overflow of the capacity
(more than 2^30 elements) are not modelled.  Reading an unwritten slot or touching
a slot outside the allocation is the failure outcome `none`.
-/
namespace Verif.Vec

variable {V : Type} [DecidableEq V]

/-! ## Model -/

/-- `Vector` of src/util/util.h: `data`, `capacity`, `len`. -/
structure Vec (V : Type) where
  data : List (Option V)
  capacity : Nat
  len : Nat

/-- src/util/util.c:366-370 `vec_init`. -/
def init : Vec V := { data := [], capacity := 0, len := 0 }

/-- src/util/util.c:372-374 `vec_clear`. -/
def clear (v : Vec V) : Vec V := { v with len := 0 }

/-- `data[i] = e` inside the allocation. -/
def store (d : List (Option V)) (i : Nat) (e : V) : Option (List (Option V)) :=
  if i < d.length then some (d.set i (some e)) else none

/-- `memmove(&data[dst], &data[src], n * sizeof)` inside the allocation
(libsrc's own `memmove` is the subject of C04). -/
def move (d : List (Option V)) (dst src n : Nat) : Option (List (Option V)) :=
  if dst + n ≤ d.length ∧ src + n ≤ d.length then
    some (d.take dst ++ (d.drop src).take n ++ d.drop (dst + n))
  else none

/-- src/util/util.c:376-385 `vec_push`; `realloc` keeps the old slots. -/
def push (v : Vec V) (e : V) : Option (Vec V) := do
  let cap := if v.capacity ≤ v.len then (if v.capacity ≤ 0 then 16 else v.capacity <<< 1) else v.capacity
  let data := if v.capacity ≤ v.len then
      v.data.take cap ++ List.replicate (cap - v.data.length) none else v.data
  let data ← store data v.len e
  some { data, capacity := cap, len := v.len + 1 }

/-- src/util/util.c:387-389 `vec_pop`; the returned value, `null` when empty. -/
def pop (null : V) (v : Vec V) : Option (V × Vec V) :=
  if v.len > 0 then do
    let slot ← v.data[v.len - 1]?
    let e ← slot
    some (e, { v with len := v.len - 1 })
  else some (null, v)

/-- src/util/util.c:391-403 `vec_insert`. -/
def insert (null : V) (v : Vec V) (pos : Int) (e : V) : Option (Vec V) :=
  let len := v.len
  if pos < 0 ∨ pos > len then some v
  else
    let p := pos.toNat
    if p < len then do
      let v ← push v null
      let data ← move v.data (p + 1) p (len - p)
      let data ← store data p e
      some { v with data }
    else push v e

/-- src/util/util.c:405-412 `vec_remove_at`. -/
def removeAt (v : Vec V) (index : Int) : Option (Vec V) :=
  if index < 0 ∨ index ≥ v.len then some v
  else do
    let i := index.toNat
    let d := v.len - i - 1
    let data ← (if d > 0 then move v.data i (i + 1) d else some v.data)
    some { v with data, len := v.len - 1 }

/-- The loop of `vec_contains` (src/util/util.c:414-420) from index `i`, `n` elements left. -/
def containsLoop (v : Vec V) (e : V) : Nat → Nat → Option Bool
  | _, 0 => some false
  | i, n + 1 => do
    let slot ← v.data[i]?
    let x ← slot
    if x = e then some true else containsLoop v e (i + 1) n

def contains (v : Vec V) (e : V) : Option Bool := containsLoop v e 0 v.len

/-- src/util/util.c:422-425 `vec_concat`, `src` being another vector. -/
def concatLoop (src : Vec V) : Nat → Nat → Vec V → Option (Vec V)
  | _, 0, dst => some dst
  | i, n + 1, dst => do
    let slot ← src.data[i]?
    let x ← slot
    let dst ← push dst x
    concatLoop src (i + 1) n dst

def concat (dst src : Vec V) : Option (Vec V) := concatLoop src 0 src.len dst

/-- The operations a client can perform, with what it sees. -/
inductive Op (V : Type) where
  | push (e : V)
  | pop
  | insert (pos : Int) (e : V)
  | removeAt (i : Int)
  | contains (e : V)
  | get (i : Nat)
  | clear
  | length
  /-- append the vector built by pushing these elements -/
  | concatOf (l : List V)

inductive Obs (V : Type) where
  | unit
  | val (v : V)
  | bool (b : Bool)
  | nat (n : Nat)
  | opt (v : Option V)
  deriving DecidableEq

/-- Build a vector by pushing. -/
def pushAll : List V → Vec V → Option (Vec V)
  | [], v => some v
  | e :: es, v => do
    let v ← push v e
    pushAll es v

/-- One client call on the C vector.  `get` is `i < len ? data[i] : (not accessed)`. -/
def step (null : V) (v : Vec V) : Op V → Option (Vec V × Obs V)
  | .push e => (push v e).map (·, .unit)
  | .pop => (pop null v).map fun (e, v) => (v, .val e)
  | .insert p e => (insert null v p e).map (·, .unit)
  | .removeAt i => (removeAt v i).map (·, .unit)
  | .contains e => (contains v e).map fun b => (v, .bool b)
  | .get i => if i < v.len then do
      let slot ← v.data[i]?
      let x ← slot
      some (v, .opt (some x)) else some (v, .opt none)
  | .clear => some (clear v, .unit)
  | .length => some (v, .nat v.len)
  | .concatOf l => do
    let src ← pushAll l init
    (concat v src).map (·, .unit)

def run (null : V) : List (Op V) → Vec V → Option (Vec V × List (Obs V))
  | [], v => some (v, [])
  | o :: os, v => do
    let (v, ob) ← step null v o
    let (v, obs) ← run null os v
    some (v, ob :: obs)

/-! ## Specification: a mathematical list -/

def specStep (null : V) (l : List V) : Op V → List V × Obs V
  | .push e => (l ++ [e], .unit)
  | .pop => (l.dropLast, .val (l.getLast?.getD null))
  | .insert p e => (if 0 ≤ p ∧ p ≤ l.length then l.insertIdx p.toNat e else l, .unit)
  | .removeAt i => (if 0 ≤ i then l.eraseIdx i.toNat else l, .unit)
  | .contains e => (l, .bool (decide (e ∈ l)))
  | .get i => (l, .opt l[i]?)
  | .clear => ([], .unit)
  | .length => (l, .nat l.length)
  | .concatOf l' => (l ++ l', .unit)

def specRun (null : V) : List (Op V) → List V → List V × List (Obs V)
  | [], l => (l, [])
  | o :: os, l =>
    let (l, ob) := specStep null l o
    let (l, obs) := specRun null os l
    (l, ob :: obs)

/-! ## Proof -/

/-- The vector represents the list: written prefix, then spare slots. -/
def Rep (v : Vec V) (l : List V) : Prop :=
  ∃ rest, v.data = l.map some ++ rest ∧ v.len = l.length ∧ v.capacity = v.data.length

omit [DecidableEq V] in
theorem Rep.get {v : Vec V} {l : List V} (h : Rep v l) (i : Nat) (hi : i < l.length) :
    v.data[i]? = some (some l[i]) := by
  obtain ⟨rest, hd, _, _⟩ := h
  rw [hd, List.getElem?_append_left (by simpa using hi)]
  simp [hi]

omit [DecidableEq V] in
theorem rep_init : Rep (init : Vec V) [] := ⟨[], rfl, rfl, rfl⟩

omit [DecidableEq V] in
theorem push_spec {v : Vec V} {l : List V} (h : Rep v l) (e : V) :
    ∃ v', push v e = some v' ∧ Rep v' (l ++ [e]) := by
  obtain ⟨rest, hd, hl, hc⟩ := h
  have key : ∀ (rest' : List (Option V)) (cap : Nat), rest' ≠ [] → cap = l.length + rest'.length →
      ∃ v', (store (l.map some ++ rest') v.len e).bind
        (fun data => some ({ data, capacity := cap, len := v.len + 1 } : Vec V)) = some v' ∧
        Rep v' (l ++ [e]) := by
    intro rest' cap hne hcap
    obtain ⟨r, rs, rfl⟩ := List.exists_cons_of_ne_nil hne
    rw [store, if_pos (by simp [hl])]
    refine ⟨_, rfl, rs, ?_, by simp [hl], by simp [hl, hcap]⟩
    simp [hl, List.set_append]
  unfold push
  simp only [Option.bind_eq_bind]
  by_cases hfull : v.capacity ≤ v.len
  · have hr : rest = [] := by
      have := hc; rw [hd] at this; simp at this
      exact List.length_eq_zero_iff.1 (by omega)
    subst hr
    simp only [List.append_nil] at hd
    simp only [if_pos hfull]
    have hgt : (if v.capacity ≤ 0 then 16 else v.capacity <<< 1) > v.capacity := by
      split
      · omega
      · rw [Nat.shiftLeft_eq]; omega
    generalize (if v.capacity ≤ 0 then 16 else v.capacity <<< 1) = cap at hgt ⊢
    have hlen : v.data.length = l.length := by rw [hd]; simp
    rw [List.take_of_length_le (by omega), hd]
    refine key _ _ ?_ ?_
    · simp; omega
    · simp; omega
  · simp only [if_neg hfull]
    rw [hd]
    refine key rest v.capacity ?_ ?_
    · rintro rfl; rw [hd] at hc; simp at hc; omega
    · rw [hc, hd]; simp

omit [DecidableEq V] in
theorem pushAll_spec (es : List V) {v : Vec V} {l : List V} (h : Rep v l) :
    ∃ v', pushAll es v = some v' ∧ Rep v' (l ++ es) := by
  induction es generalizing v l with
  | nil => exact ⟨v, rfl, by simpa using h⟩
  | cons e es ih =>
    obtain ⟨v1, h1, hr⟩ := push_spec h e
    obtain ⟨v2, h2, hr2⟩ := ih hr
    exact ⟨v2, by simp [pushAll, h1, h2], by simpa using hr2⟩

omit [DecidableEq V] in
theorem concat_spec {dst src : Vec V} {l s : List V} (h : Rep dst l) (hs : Rep src s) :
    ∃ v', concat dst src = some v' ∧ Rep v' (l ++ s) := by
  have : ∀ (n i : Nat) (dst : Vec V) (l : List V), Rep dst l → i + n = s.length →
      ∃ v', concatLoop src i n dst = some v' ∧ Rep v' (l ++ s.drop i) := by
    intro n
    induction n with
    | zero =>
      intro i dst l h hi
      exact ⟨dst, rfl, by simpa [List.drop_of_length_le (show s.length ≤ i by omega)] using h⟩
    | succ n ih =>
      intro i dst l h hi
      have hlt : i < s.length := by omega
      obtain ⟨v1, h1, hr⟩ := push_spec h s[i]
      obtain ⟨v2, h2, hr2⟩ := ih (i + 1) v1 _ hr (by omega)
      refine ⟨v2, by simp [concatLoop, hs.get i hlt, h1, h2], ?_⟩
      rw [List.drop_eq_getElem_cons hlt]
      simpa using hr2
  obtain ⟨_, _, hl, _⟩ := id hs
  have := this src.len 0 dst l h (by omega)
  simpa [concat] using this

omit [DecidableEq V] in
theorem insertIdx_eq (l : List V) (p : Nat) (e : V) (h : p ≤ l.length) :
    l.insertIdx p e = l.take p ++ e :: l.drop p := by
  induction l generalizing p with
  | nil => simp at h; subst h; rfl
  | cons x xs ih =>
    cases p with
    | zero => simp
    | succ p => simp [ih p (by simpa using h)]

omit [DecidableEq V] in
theorem insert_spec (null : V) {v : Vec V} {l : List V} (h : Rep v l) (pos : Int) (e : V) :
    ∃ v', insert null v pos e = some v' ∧
      Rep v' (if 0 ≤ pos ∧ pos ≤ l.length then l.insertIdx pos.toNat e else l) := by
  have hlen : v.len = l.length := by
    obtain ⟨_, _, hl, _⟩ := h; exact hl
  unfold insert
  simp only [hlen]
  by_cases hr : pos < 0 ∨ pos > l.length
  · rw [if_pos hr, if_neg (by omega)]
    exact ⟨v, rfl, h⟩
  · rw [if_neg hr, if_pos (show 0 ≤ pos ∧ pos ≤ l.length by omega)]
    obtain ⟨p, rfl⟩ : ∃ p : Nat, pos = p := ⟨pos.toNat, by omega⟩
    simp only [Int.toNat_natCast]
    by_cases hp : p < l.length
    · rw [if_pos hp]
      obtain ⟨v1, h1, rest, hd, hl1, hc1⟩ := push_spec h null
      simp only [h1, Option.bind_eq_bind, Option.bind_some]
      have hdl : v1.data.length = l.length + 1 + rest.length := by rw [hd]; simp; omega
      rw [move, if_pos (by omega)]
      simp only [Option.bind_some]
      have hmoved : v1.data.take (p + 1) ++ (v1.data.drop p).take (l.length - p) ++
          v1.data.drop (p + 1 + (l.length - p)) =
          (l.take (p + 1)).map some ++ (l.drop p).map some ++ rest := by
        have e1 : v1.data.take (p + 1) = (l.take (p + 1)).map some := by
          rw [hd, List.map_append, List.append_assoc, List.take_append_of_le_length (by simp; omega),
            List.map_take]
        have e2 : (v1.data.drop p).take (l.length - p) = (l.drop p).map some := by
          rw [hd, List.map_append, List.append_assoc, List.drop_append_of_le_length (by simp; omega),
            List.take_append_of_le_length (by simp), ← List.map_drop,
            List.take_of_length_le (by simp)]
        have e3 : v1.data.drop (p + 1 + (l.length - p)) = rest := by
          rw [hd, List.drop_append, List.drop_of_length_le (by simp; omega)]
          have : p + 1 + (l.length - p) - (List.map some (l ++ [null])).length = 0 := by
            simp; omega
          rw [this]; simp
        rw [e1, e2, e3]
      rw [hmoved, store, if_pos (by simp; omega)]
      refine ⟨_, rfl, rest, ?_, ?_, ?_⟩
      · have : l.take (p + 1) = l.take p ++ [l[p]] := by
          rw [List.take_add_one]; simp [hp]
        rw [this]
        have hlp : (l.take p).length = p := by simp; omega
        simp only [List.map_append, List.append_assoc, List.map_cons, List.map_nil]
        rw [List.set_append, if_neg (by simp; omega)]
        simp only [List.length_map, hlp, Nat.sub_self, List.cons_append, List.nil_append, List.set_cons_zero]
        rw [insertIdx_eq _ _ _ (by omega)]; simp
      · rw [List.length_insertIdx]; simp [hl1]; omega
      · simp only [List.length_set, List.length_append, List.length_map, List.length_take,
          List.length_drop]
        rw [hc1, hdl]; omega
    · have : p = l.length := by omega
      rw [if_neg hp]
      subst this
      simpa using push_spec h e

omit [DecidableEq V] in
theorem removeAt_spec {v : Vec V} {l : List V} (h : Rep v l) (i : Int) :
    ∃ v', removeAt v i = some v' ∧ Rep v' (if 0 ≤ i then l.eraseIdx i.toNat else l) := by
  obtain ⟨rest, hd, hl, hc⟩ := id h
  unfold removeAt
  simp only [hl]
  by_cases hr : i < 0 ∨ i ≥ l.length
  · rw [if_pos hr]
    refine ⟨v, rfl, ?_⟩
    split
    · rw [List.eraseIdx_of_length_le (by omega)]; exact h
    · exact h
  · rw [if_neg hr, if_pos (show 0 ≤ i by omega)]
    obtain ⟨p, rfl⟩ : ∃ p : Nat, i = p := ⟨i.toNat, by omega⟩
    simp only [Int.toNat_natCast]
    have hp : p < l.length := by omega
    have hdl : v.data.length = l.length + rest.length := by rw [hd]; simp
    by_cases hg : l.length - p - 1 > 0
    · rw [if_pos hg, move, if_pos (by omega)]
      simp only [Option.bind_eq_bind, Option.bind_some]
      refine ⟨_, rfl, v.data.drop (p + (l.length - p - 1)), ?_, ?_, ?_⟩
      · show _ = _
        have e1 : v.data.take p = (l.take p).map some := by
          rw [hd, List.take_append_of_le_length (by simp; omega), List.map_take]
        have e2 : (v.data.drop (p + 1)).take (l.length - p - 1) = (l.drop (p + 1)).map some := by
          rw [hd, List.drop_append_of_le_length (by simp; omega),
            List.take_append_of_le_length (by simp; omega), ← List.map_drop,
            List.take_of_length_le (by simp; omega)]
        simp only [e1, e2, List.eraseIdx_eq_take_drop_succ, List.map_append]
      · rw [List.length_eraseIdx_of_lt hp]
      · simp only [List.length_append, List.length_take, List.length_drop]
        omega
    · rw [if_neg hg]
      simp only [Option.bind_eq_bind, Option.bind_some]
      refine ⟨_, rfl, v.data.drop p, ?_, ?_, hc⟩
      · show v.data = _
        have : l.eraseIdx p = l.take p := by
          rw [List.eraseIdx_eq_take_drop_succ, List.drop_of_length_le (by omega)]; simp
        rw [this]
        have e1 : v.data.take p = (l.take p).map some := by
          rw [hd, List.take_append_of_le_length (by simp; omega), List.map_take]
        rw [← e1, List.take_append_drop]
      · rw [List.length_eraseIdx_of_lt hp]

theorem contains_spec {v : Vec V} {l : List V} (h : Rep v l) (e : V) :
    contains v e = some (decide (e ∈ l)) := by
  have : ∀ (n i : Nat), i + n = l.length → containsLoop v e i n = some (decide (e ∈ l.drop i)) := by
    intro n
    induction n with
    | zero =>
      intro i hi
      simp [containsLoop, List.drop_of_length_le (show l.length ≤ i by omega)]
    | succ n ih =>
      intro i hi
      have hlt : i < l.length := by omega
      simp only [containsLoop, h.get i hlt, Option.bind_eq_bind, Option.bind_some, ih (i + 1) (by omega)]
      rw [List.drop_eq_getElem_cons hlt]
      by_cases hx : l[i] = e
      · rw [if_pos hx]; simp [hx]
      · rw [if_neg hx]; simp only [List.mem_cons, Ne.symm hx, false_or]
  obtain ⟨_, _, hl, _⟩ := id h
  have := this v.len 0 (by omega)
  simpa [contains] using this

theorem step_spec (null : V) {v : Vec V} {l : List V} (h : Rep v l) (o : Op V) :
    ∃ v', step null v o = some (v', (specStep null l o).2) ∧ Rep v' (specStep null l o).1 := by
  obtain ⟨rest, hd, hl, hc⟩ := id h
  cases o with
  | push e =>
    obtain ⟨v', h1, h2⟩ := push_spec h e
    exact ⟨v', by simp [step, h1, specStep], h2⟩
  | insert p e =>
    obtain ⟨v', h1, h2⟩ := insert_spec null h p e
    exact ⟨v', by simp [step, h1, specStep], h2⟩
  | removeAt i =>
    obtain ⟨v', h1, h2⟩ := removeAt_spec h i
    exact ⟨v', by simp [step, h1, specStep], h2⟩
  | contains e => exact ⟨v, by simp [step, contains_spec h, specStep], h⟩
  | get i =>
    refine ⟨v, ?_, h⟩
    simp only [step, specStep, hl]
    split
    · rename_i hi; simp [h.get i hi, hi]
    · rename_i hi; simp; omega
  | clear => exact ⟨clear v, rfl, v.data, by simp [clear, specStep], rfl, hc⟩
  | length => exact ⟨v, by simp [step, specStep, hl], h⟩
  | concatOf s =>
    obtain ⟨v1, h1, h2⟩ := pushAll_spec s (rep_init (V := V))
    obtain ⟨v2, h3, h4⟩ := concat_spec h h2
    exact ⟨v2, by simp [step, h1, h3, specStep], by simpa [specStep] using h4⟩
  | pop =>
    simp only [step, pop, hl, specStep]
    rcases List.eq_nil_or_concat l with rfl | ⟨l', x, hlx⟩
    · exact ⟨v, by simp, by simpa using h⟩
    · rw [List.concat_eq_append] at hlx
      subst hlx
      have := h.get l'.length (by simp)
      simp only [List.length_append, List.length_cons, List.length_nil, Nat.zero_add,
        Nat.add_sub_cancel, gt_iff_lt, Nat.zero_lt_succ, if_true, this,
        Option.bind_eq_bind, Option.bind_some]
      refine ⟨{ v with len := l'.length }, by simp, some x :: rest, ?_, by simp, hc⟩
      simpa using hd

theorem run_spec (null : V) (ops : List (Op V)) {v : Vec V} {l : List V} (h : Rep v l) :
    ∃ v', run null ops v = some (v', (specRun null ops l).2) ∧ Rep v' (specRun null ops l).1 := by
  induction ops generalizing v l with
  | nil => exact ⟨v, rfl, h⟩
  | cons o os ih =>
    obtain ⟨v1, h1, hr1⟩ := step_spec null h o
    obtain ⟨v2, h2, hr2⟩ := ih hr1
    exact ⟨v2, by simp [run, h1, h2, specRun], by simpa [specRun] using hr2⟩

/-- **C15.** For every history of vector operations starting from `vec_init`, no
access leaves the allocation or reads an unwritten slot, and everything the client
sees is what the mathematical list gives. -/
theorem vec_refines_list (null : V) (ops : List (Op V)) :
    (run null ops (init : Vec V)).map (·.2) = some (specRun null ops []).2 := by
  obtain ⟨v', h, _⟩ := run_spec null ops (rep_init (V := V))
  simp [h]

/-- Non-vacuity: a history with inserts in the middle, a rejected insert, removals and pops. -/
example : (specRun 0 [.push 1, .push 2, .insert 1 7, .insert 9 3, .removeAt 0, .contains 7, .pop, .length,
    .pop, .pop, .concatOf [4, 5], .get 1] []).2 =
    [.unit, .unit, .unit, .unit, .unit, .bool true, .val 2, .nat 1, .val 7, .val 0, .unit, .opt (some 5)] := by
  decide

end Verif.Vec

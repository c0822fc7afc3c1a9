/-!
# Hash table and name interning (C13, C14)

`src/util/table.c`, `src/util/table.h`.  A key is a pointer to an interned `Name`; it is modelled by a natural
number, with its hash given by an arbitrary function `hash`.  A value is a pointer, `0` being `NULL`.

Simplifications: `malloc` succeeds (a failure in `adjust_capacity` is ignored by the C code); `int capacity` does
not overflow (2^30 entries).
-/
namespace Verif.Table

/-- `TableEntry`, src/util/table.h:24-27.  Empty slot: `key = NULL`, `value = NULL`; tombstone: `key = NULL`,
`value` not `NULL`. -/
structure Entry where
  key : Option Nat
  value : Nat
deriving DecidableEq, Inhabited

/-- An entry as initialised by `adjust_capacity`, src/util/table.c:94-98. -/
def Entry.empty : Entry := ⟨none, 0⟩

/-- `Table`, src/util/table.h:29-34; `capacity` is the length of `entries`. -/
structure Table where
  entries : List Entry
  count : Nat
  used : Nat
deriving DecidableEq

variable (hash : Nat → Nat)

/-- The loop of `find_entry`, src/util/table.c:73-88.  Result: index of the entry; `none` when `fuel` runs out, i.e.
the C loop would go on. -/
def findLoop (es : List Entry) (key : Nat) : Nat → Nat → Option Nat → Option Nat
  | 0, _, _ => none
  | fuel + 1, index, tomb =>
    let e := es.getD index default
    let next := (index + 1) % es.length
    match e.key with
    | none =>
      if e.value = 0 then some (tomb.getD index)
      else findLoop es key fuel next (if tomb = none then some index else tomb)
    | some k => if k = key then some index else findLoop es key fuel next tomb

/-- `find_entry`, src/util/table.c:73-88. -/
def findEntry (es : List Entry) (key : Nat) : Option Nat :=
  findLoop es key (es.length + 1) (hash key % es.length) none

/-- The copying loop of `adjust_capacity`, src/util/table.c:103-112. -/
def copyLoop : List Entry → List Entry → Nat → Option (List Entry × Nat)
  | [], new, n => some (new, n)
  | e :: old, new, n =>
    match e.key with
    | none => copyLoop old new n
    | some k =>
      match findEntry hash new k with
      | none => none
      | some i => copyLoop old (new.set i ⟨some k, e.value⟩) (n + 1)

/-- `adjust_capacity`, src/util/table.c:90-118. -/
def adjust (t : Table) (cap : Nat) : Option Table :=
  (copyLoop hash t.entries (List.replicate cap Entry.empty) 0).map fun r => ⟨r.1, r.2, r.2⟩

/-- `table_init`, src/util/table.c:127-130. -/
def init : Table := ⟨[], 0, 0⟩

/-- `table_try_get`, src/util/table.c:143-154 (`none`: not found; outer `none`: does not end). -/
def tryGet (t : Table) (key : Nat) : Option (Option Nat) :=
  if t.count = 0 then some none
  else (findEntry hash t.entries key).map fun i =>
    let e := t.entries.getD i default
    if e.key = none then none else some e.value

/-- `table_get`, src/util/table.c:132-141 (`0` is `NULL`). -/
def get (t : Table) (key : Nat) : Option Nat :=
  if t.count = 0 then some 0
  else (findEntry hash t.entries key).map fun i =>
    let e := t.entries.getD i default
    if e.key = none then 0 else e.value

/-- The growing step at the start of `table_put`, src/util/table.c:157-163. -/
def grow (t : Table) : Option Table :=
  if t.used ≥ t.entries.length / 2 then
    let cap := t.entries.length * 2 - 1
    adjust hash t (if cap < 15 then 15 else cap)
  else some t

/-- `table_put`, src/util/table.c:156-176: the new table and `is_new_key`. -/
def put (t : Table) (key value : Nat) : Option (Table × Bool) :=
  (grow hash t).bind fun t =>
    (findEntry hash t.entries key).map fun i =>
      let e := t.entries.getD i default
      let isNew := e.key = none
      (⟨t.entries.set i ⟨some key, value⟩,
        if isNew then t.count + 1 else t.count,
        if isNew ∧ e.value = 0 then t.used + 1 else t.used⟩, isNew)

/-- `table_delete`, src/util/table.c:178-192.  The tombstone's value is the entry's own address, here index + 1. -/
def delete (t : Table) (key : Nat) : Option (Table × Bool) :=
  if t.count = 0 then some (t, false)
  else (findEntry hash t.entries key).map fun i =>
    let e := t.entries.getD i default
    if e.key = none then (t, false)
    else (⟨t.entries.set i ⟨none, i + 1⟩, t.count - 1, t.used⟩, true)

/-- `table_iterate`, src/util/table.c:194-208: the next entry at or after `iterator` and the new iterator
(`none` for -1). -/
def iterate (t : Table) (iterator : Nat) : Option (Nat × Nat × Nat) :=
  if h : iterator < t.entries.length then
    match t.entries[iterator].key with
    | some k => some (iterator + 1, k, t.entries[iterator].value)
    | none => iterate t (iterator + 1)
  else none
termination_by t.entries.length - iterator

/-- The idiom `for (int it = 0; (it = table_iterate(table, it, &k, &v)) != -1; )` used all over the compiler. -/
def iterAll (t : Table) : Nat → Nat → List (Nat × Nat)
  | 0, _ => []
  | fuel + 1, it =>
    match iterate t it with
    | none => []
    | some (it', k, v) => (k, v) :: iterAll t fuel it'

/-! ## Specification: a finite map given by the history -/

/-- Operations of a client. -/
inductive Op
  | put (k v : Nat)
  | delete (k : Nat)

/-- The map a history denotes. -/
def spec : List Op → Nat → Option Nat
  | [], _ => none
  | .put k v :: ops, x => if x = k then some v else spec ops x
  | .delete k :: ops, x => if x = k then none else spec ops x

/-- The table after a history (most recent operation first). -/
def run : List Op → Option Table
  | [] => some init
  | .put k v :: ops => (run ops).bind fun t => (put hash t k v).map Prod.fst
  | .delete k :: ops => (run ops).bind fun t => (delete hash t k).map Prod.fst

/-! ## Invariant -/

/-- The slot has never been used since the last rehash. -/
def Entry.isEmpty (e : Entry) : Bool := e.key.isNone && e.value == 0

/-- The `d`-th slot probed for a key with hash `h`. -/
def pos (cap h d : Nat) : Nat := (h + d) % cap

structure Inv (t : Table) : Prop where
  used : t.used = t.entries.countP (fun e => !e.isEmpty)
  count : t.count = t.entries.countP (fun e => e.key.isSome)
  cap : t.entries = [] ∨ (15 ≤ t.entries.length ∧ t.used ≤ t.entries.length / 2)
  path : ∀ i k v : Nat, t.entries[i]? = some ⟨some k, v⟩ →
    ∃ d, d < t.entries.length ∧ pos t.entries.length (hash k) d = i ∧
      ∀ e, e < d → ∃ s, t.entries[pos t.entries.length (hash k) e]? = some s ∧ s.isEmpty = false
  uniq : ∀ i j k v w : Nat, t.entries[i]? = some ⟨some k, v⟩ → t.entries[j]? = some ⟨some k, w⟩ → i = j

/-- What the table stores for `k`. -/
def Has (es : List Entry) (k v : Nat) : Prop := ∃ i : Nat, es[i]? = some ⟨some k, v⟩

theorem exists_least (P : Nat → Prop) [DecidablePred P] (n : Nat) (h : P n) :
    ∃ m, m ≤ n ∧ P m ∧ ∀ k, k < m → ¬ P k := by
  induction n using Nat.strongRecOn with
  | ind n ih =>
    by_cases hx : ∃ k, k < n ∧ P k
    · obtain ⟨k, hk, hp⟩ := hx
      obtain ⟨m, h1, h2, h3⟩ := ih k hk hp
      exact ⟨m, by omega, h2, h3⟩
    · exact ⟨n, Nat.le_refl _, h, fun k hk hp => hx ⟨k, hk, hp⟩⟩

theorem pos_succ (cap h d : Nat) : (pos cap h d + 1) % cap = pos cap h (d + 1) := by
  unfold pos; rw [Nat.mod_add_mod]; rfl

theorem pos_lt (cap h d : Nat) (hc : 0 < cap) : pos cap h d < cap := Nat.mod_lt _ hc

theorem pos_surj (cap h i : Nat) (hi : i < cap) : ∃ d, d < cap ∧ pos cap h d = i := by
  refine ⟨(i + (cap - h % cap)) % cap, Nat.mod_lt _ (by omega), ?_⟩
  unfold pos
  have hlt : h % cap < cap := Nat.mod_lt _ (by omega)
  rw [Nat.add_mod_mod, ← Nat.mod_add_mod]
  have : h % cap + (i + (cap - h % cap)) = i + cap := by omega
  rw [this, Nat.add_mod_right, Nat.mod_eq_of_lt hi]

/-- The probing loop stops at the first slot that is empty or holds the key. -/
theorem findLoop_spec (es : List Entry) (key h : Nat) (hc : 0 < es.length) (n d : Nat) (tomb : Option Nat) (fuel : Nat)
    (hpass : ∀ e, e < n → ∃ s, es[pos es.length h (d + e)]? = some s ∧ s.isEmpty = false ∧ s.key ≠ some key)
    (s : Entry) (hstop : es[pos es.length h (d + n)]? = some s) (hs : s.isEmpty = true ∨ s.key = some key)
    (hf : n < fuel) :
    ∃ i, findLoop es key fuel (pos es.length h d) tomb = some i ∧
      (s.key = some key → i = pos es.length h (d + n)) ∧
      (s.isEmpty = true → tomb = some i ∨ (tomb = none ∧ ∃ e, e ≤ n ∧ i = pos es.length h (d + e) ∧
        ∃ s', es[i]? = some s' ∧ s'.key = none)) := by
  induction n generalizing d tomb fuel with
  | zero =>
    cases fuel with
    | zero => omega
    | succ fuel =>
      rw [Nat.add_zero] at hstop ⊢
      unfold findLoop
      have hg : es.getD (pos es.length h d) default = s := by
        rw [List.getD_eq_getElem?_getD, hstop]; rfl
      simp only [hg]
      rcases hs with hs | hs
      · unfold Entry.isEmpty at hs
        simp only [Bool.and_eq_true, Option.isNone_iff_eq_none, beq_iff_eq] at hs
        rw [hs.1, hs.2]
        simp only [if_pos]
        refine ⟨_, rfl, ⟨fun hh => absurd hh (by simp), fun _ => ?_⟩⟩
        cases tomb with
        | some x => left; rfl
        | none =>
          right
          exact ⟨rfl, 0, Nat.le_refl _, rfl, s, hstop, hs.1⟩
      · rw [hs]
        simp only [if_pos]
        refine ⟨_, rfl, fun _ => rfl, fun hh => ?_⟩
        unfold Entry.isEmpty at hh; rw [hs] at hh; simp at hh
  | succ n ih =>
    cases fuel with
    | zero => omega
    | succ fuel =>
      obtain ⟨s0, h1, h2, h3⟩ := hpass 0 (by omega)
      rw [Nat.add_zero] at h1
      have hg : es.getD (pos es.length h d) default = s0 := by
        rw [List.getD_eq_getElem?_getD, h1]; rfl
      have hpass' : ∀ e, e < n → ∃ s, es[pos es.length h (d + 1 + e)]? = some s ∧ s.isEmpty = false ∧ s.key ≠ some key := by
        intro e he
        have := hpass (e + 1) (by omega)
        rw [show d + (e + 1) = d + 1 + e by omega] at this
        exact this
      rw [show d + (n + 1) = d + 1 + n by omega] at hstop ⊢
      unfold findLoop
      simp only [hg, pos_succ]
      cases hk : s0.key with
      | some k =>
        dsimp only
        have : k ≠ key := by intro e; rw [hk, e] at h3; exact h3 rfl
        rw [if_neg this]
        obtain ⟨i, k1, k2, k3⟩ := ih (d + 1) tomb fuel hpass' hstop (by omega)
        refine ⟨i, k1, k2, fun hh => ?_⟩
        rcases k3 hh with h | ⟨h, e, he, h'⟩
        · exact Or.inl h
        · exact Or.inr ⟨h, e + 1, by omega, by rw [show d + (e + 1) = d + 1 + e by omega]; exact h'⟩
      | none =>
        dsimp only
        have hv : s0.value ≠ 0 := by
          intro e; unfold Entry.isEmpty at h2; rw [hk, e] at h2; simp at h2
        rw [if_neg hv]
        obtain ⟨i, k1, k2, k3⟩ := ih (d + 1) (if tomb = none then some (pos es.length h d) else tomb) fuel hpass' hstop
          (by omega)
        refine ⟨i, k1, k2, fun hh => ?_⟩
        cases tomb with
        | some x =>
          simp only [if_neg (show ¬ (some x = none) by simp)] at k3
          rcases k3 hh with h | ⟨h, _⟩
          · exact Or.inl h
          · cases h
        | none =>
          simp only [if_pos] at k3
          rcases k3 hh with h | ⟨h, _⟩
          · right
            injection h with h
            exact ⟨rfl, 0, by omega, h.symm, s0, by rw [← h]; exact h1, hk⟩
          · cases h

/-- Facts of the invariant that only concern the slots. -/
structure Slots (es : List Entry) : Prop where
  path : ∀ i k v : Nat, es[i]? = some ⟨some k, v⟩ →
    ∃ d, d < es.length ∧ pos es.length (hash k) d = i ∧
      ∀ e, e < d → ∃ s, es[pos es.length (hash k) e]? = some s ∧ s.isEmpty = false
  uniq : ∀ i j k v w : Nat, es[i]? = some ⟨some k, v⟩ → es[j]? = some ⟨some k, w⟩ → i = j

/-- `find_entry` on a table with at least one empty slot: it ends; it finds the key if it is there, otherwise a
free slot on the key's probe path. -/
theorem findEntry_spec (es : List Entry) (hI : Slots hash es) (key : Nat)
    (hempty : ∃ (j : Nat) (s : Entry), es[j]? = some s ∧ s.isEmpty = true) :
    ∃ i, findEntry hash es key = some i ∧ i < es.length ∧
      ((∃ v, es[i]? = some ⟨some key, v⟩) ∨
       ((∀ j v : Nat, es[j]? ≠ some ⟨some key, v⟩) ∧ (∃ v, es[i]? = some ⟨none, v⟩) ∧
        ∃ d, d < es.length ∧ pos es.length (hash key) d = i ∧
          ∀ e, e < d → ∃ s, es[pos es.length (hash key) e]? = some s ∧ s.isEmpty = false)) := by
  obtain ⟨j, sj, hj, hje⟩ := hempty
  have hjl : j < es.length := by
    rcases Nat.lt_or_ge j es.length with h | h
    · exact h
    · rw [List.getElem?_eq_none h] at hj; cases hj
  have hc : 0 < es.length := by omega
  obtain ⟨d0, hd0, hp0⟩ := pos_surj es.length (hash key) j hjl
  have hget : ∀ d, ∃ s, es[pos es.length (hash key) d]? = some s := fun d =>
    ⟨_, List.getElem?_eq_getElem (pos_lt _ _ _ hc)⟩
  obtain ⟨n, hn, hstop, hmin⟩ := exists_least
    (fun d => (es.getD (pos es.length (hash key) d) default).isEmpty = true ∨
      (es.getD (pos es.length (hash key) d) default).key = some key) d0
    (by left; rw [hp0, List.getD_eq_getElem?_getD, hj]; exact hje)
  have hgetD : ∀ d s, es[pos es.length (hash key) d]? = some s → es.getD (pos es.length (hash key) d) default = s := by
    intro d s h; rw [List.getD_eq_getElem?_getD, h]; rfl
  obtain ⟨s, hs⟩ := hget n
  rw [hgetD n s hs] at hstop
  have hpass : ∀ e, e < n → ∃ s, es[pos es.length (hash key) (0 + e)]? = some s ∧ s.isEmpty = false ∧ s.key ≠ some key := by
    intro e he
    obtain ⟨s', hs'⟩ := hget e
    have := hmin e he
    rw [hgetD e s' hs'] at this
    rw [Nat.zero_add]
    refine ⟨s', hs', ?_, fun h => this (Or.inr h)⟩
    cases hb : s'.isEmpty with
    | false => rfl
    | true => exact absurd (Or.inl hb) this
  have h0 : pos es.length (hash key) 0 = hash key % es.length := by unfold pos; rw [Nat.add_zero]
  obtain ⟨i, k1, k2, k3⟩ := findLoop_spec es key (hash key) hc n 0 none (es.length + 1) hpass s
    (by rw [Nat.zero_add]; exact hs) hstop (by omega)
  rw [Nat.zero_add] at k2
  refine ⟨i, by unfold findEntry; rw [← h0]; exact k1, ?_⟩
  rcases hstop with hst | hst
  · -- stopped at an empty slot: the key is absent
    rcases k3 hst with h | ⟨_, e, he, hi, s', hs', hk'⟩
    · cases h
    · refine ⟨by rw [hi]; exact pos_lt _ _ _ hc, Or.inr ⟨?_, ⟨s'.value, by rw [hs', ← hk']⟩, e, by omega, ?_, ?_⟩⟩
      · intro j' v hj'
        obtain ⟨d', hd', hp', hpath⟩ := hI.path j' key v hj'
        rcases Nat.lt_trichotomy d' n with h | h | h
        · obtain ⟨s2, a1, a2, a3⟩ := hpass d' h
          rw [Nat.zero_add, hp', hj'] at a1
          injection a1 with a1
          rw [← a1] at a3; exact a3 rfl
        · rw [h] at hp'
          rw [hp', hj'] at hs
          injection hs with hs
          rw [← hs] at hst
          simp [Entry.isEmpty] at hst
        · obtain ⟨s2, a1, a2⟩ := hpath n h
          rw [hs] at a1
          injection a1 with a1
          rw [← a1, hst] at a2; cases a2
      · rw [hi, Nat.zero_add]
      · intro e' he'
        obtain ⟨s2, a1, a2, a3⟩ := hpass e' (by omega)
        rw [Nat.zero_add] at a1
        exact ⟨s2, a1, a2⟩
  · have hi := k2 hst
    refine ⟨by rw [hi]; exact pos_lt _ _ _ hc, Or.inl ⟨s.value, ?_⟩⟩
    rw [hi, hs, ← hst]

/-- Writing a non-empty entry that is not a new occurrence of another key keeps the probe paths. -/
theorem Slots.set (es : List Entry) (hI : Slots hash es) (i : Nat) (hi : i < es.length) (new : Entry)
    (hne : new.isEmpty = false)
    (hk : ∀ k, new.key = some k →
      (∀ j v : Nat, es[j]? = some ⟨some k, v⟩ → j = i) ∧
      ∃ d, d < es.length ∧ pos es.length (hash k) d = i ∧
        ∀ e, e < d → ∃ s, es[pos es.length (hash k) e]? = some s ∧ s.isEmpty = false) :
    Slots hash (es.set i new) := by
  have hget : ∀ (j : Nat) s, es[j]? = some s → s.isEmpty = false → ∃ s', (es.set i new)[j]? = some s' ∧ s'.isEmpty = false := by
    intro j s h h'
    by_cases hij : i = j
    · exact ⟨new, by rw [hij]; exact List.getElem?_set_self (by omega), hne⟩
    · exact ⟨s, by rw [List.getElem?_set_ne hij]; exact h, h'⟩
  constructor
  · intro j k v h
    rw [List.length_set]
    by_cases hij : i = j
    · have hj : (es.set i new)[j]? = some new := by rw [← hij]; exact List.getElem?_set_self hi
      rw [hj] at h
      injection h with h
      obtain ⟨_, d, h1, h2, h3⟩ := hk k (by rw [h])
      refine ⟨d, h1, by rw [h2, hij], fun e he => ?_⟩
      obtain ⟨s, a1, a2⟩ := h3 e he
      exact hget _ s a1 a2
    · rw [List.getElem?_set_ne hij] at h
      obtain ⟨d, h1, h2, h3⟩ := hI.path j k v h
      refine ⟨d, h1, h2, fun e he => ?_⟩
      obtain ⟨s, a1, a2⟩ := h3 e he
      exact hget _ s a1 a2
  · intro j j' k v w h h'
    by_cases hij : i = j
    · by_cases hij' : i = j'
      · omega
      · have hj : (es.set i new)[j]? = some new := by rw [← hij]; exact List.getElem?_set_self hi
        rw [hj] at h; injection h with h
        rw [List.getElem?_set_ne hij'] at h'
        have := (hk k (by rw [h])).1 j' w h'
        omega
    · rw [List.getElem?_set_ne hij] at h
      by_cases hij' : i = j'
      · have hj : (es.set i new)[j']? = some new := by rw [← hij']; exact List.getElem?_set_self hi
        rw [hj] at h'; injection h' with h'
        have := (hk k (by rw [h'])).1 j v h
        omega
      · rw [List.getElem?_set_ne hij'] at h'
        exact hI.uniq j j' k v w h h'

/-- What is stored after writing a slot. -/
theorem has_set (es : List Entry) (i : Nat) (hi : i < es.length) (new : Entry) (k v : Nat) :
    Has (es.set i new) k v ↔ new = ⟨some k, v⟩ ∨ ∃ j, j ≠ i ∧ es[j]? = some ⟨some k, v⟩ := by
  constructor
  · rintro ⟨j, h⟩
    by_cases hij : i = j
    · rw [← hij, List.getElem?_set_self hi] at h
      injection h with h
      exact Or.inl h
    · rw [List.getElem?_set_ne hij] at h
      exact Or.inr ⟨j, fun e => hij e.symm, h⟩
  · rintro (h | ⟨j, hj, h⟩)
    · exact ⟨i, by rw [List.getElem?_set_self hi, h]⟩
    · exact ⟨j, by rw [List.getElem?_set_ne (fun e => hj e.symm)]; exact h⟩

theorem exists_empty (es : List Entry) (h : es.countP (fun e => !e.isEmpty) < es.length) :
    ∃ (j : Nat) (s : Entry), es[j]? = some s ∧ s.isEmpty = true := by
  induction es with
  | nil => simp at h
  | cons e es ih =>
    cases he : e.isEmpty with
    | true => exact ⟨0, e, rfl, he⟩
    | false =>
      rw [List.countP_cons, if_pos (by simp [he]), List.length_cons] at h
      obtain ⟨j, s, h1, h2⟩ := ih (by omega)
      exact ⟨j + 1, s, by rw [List.getElem?_cons_succ]; exact h1, h2⟩

theorem countP_set_add (p : Entry → Bool) (es : List Entry) (i : Nat) (old new : Entry) (h : es[i]? = some old) :
    (es.set i new).countP p + (if p old then 1 else 0) = es.countP p + (if p new then 1 else 0) := by
  induction es generalizing i with
  | nil => cases h
  | cons e es ih =>
    cases i with
    | zero =>
      rw [List.getElem?_cons_zero] at h
      injection h with h
      rw [List.set_cons_zero, List.countP_cons, List.countP_cons, h]
      omega
    | succ i =>
      rw [List.getElem?_cons_succ] at h
      rw [List.set_cons_succ, List.countP_cons, List.countP_cons]
      have := ih i h
      omega

/-- Inserting into a table with room: what `find_entry` + write does. -/
theorem insert_spec (es : List Entry) (hI : Slots hash es) (key value : Nat)
    (hroom : es.countP (fun e => !e.isEmpty) < es.length) :
    ∃ i old, findEntry hash es key = some i ∧ es[i]? = some old ∧ i < es.length ∧
      Slots hash (es.set i ⟨some key, value⟩) ∧
      (∀ k v, Has (es.set i ⟨some key, value⟩) k v ↔ if k = key then v = value else Has es k v) ∧
      (old.key = some key ∨ old.key = none ∧ ∀ v, ¬ Has es key v) := by
  obtain ⟨i, h1, h2, h3⟩ := findEntry_spec hash es hI key (exists_empty es hroom)
  have hhas : ∀ k v : Nat, (∀ j w : Nat, es[j]? = some ⟨some key, w⟩ → j = i) →
      (∀ k', k' ≠ key → ∀ w, es[i]? ≠ some ⟨some k', w⟩) →
      (Has (es.set i ⟨some key, value⟩) k v ↔ if k = key then v = value else Has es k v) := by
    intro k v hu hu'
    rw [has_set es i h2]
    by_cases hk : k = key
    · rw [if_pos hk]
      constructor
      · rintro (h | ⟨j, hj, h⟩)
        · injection h with _ h; exact h.symm
        · rw [hk] at h; exact absurd (hu j v h) hj
      · rintro rfl; left; rw [hk]
    · rw [if_neg hk]
      constructor
      · rintro (h | ⟨j, hj, h⟩)
        · injection h with h _; injection h with h; exact absurd h.symm hk
        · exact ⟨j, h⟩
      · rintro ⟨j, h⟩
        right
        refine ⟨j, ?_, h⟩
        rintro rfl
        exact hu' k hk v h
  rcases h3 with ⟨v, hv⟩ | ⟨habs, ⟨v, hv⟩, d, hd1, hd2, hd3⟩
  · refine ⟨i, _, h1, hv, h2, ?_, fun k w => hhas k w (fun j w h => hI.uniq _ _ _ _ _ h hv) ?_, Or.inl rfl⟩
    · apply Slots.set hash es hI i h2 ⟨some key, value⟩ rfl
      intro k hk
      injection hk with hk
      subst hk
      exact ⟨fun j w h => hI.uniq _ _ _ _ _ h hv, hI.path i key v hv⟩
    · intro k' hk' w h
      rw [hv] at h; injection h with h; injection h with h _; injection h with h
      exact hk' h.symm
  · refine ⟨i, _, h1, hv, h2, ?_, fun k w => hhas k w (fun j w h => absurd h (habs j w)) ?_,
      Or.inr ⟨rfl, fun v ⟨j, h⟩ => habs j v h⟩⟩
    · apply Slots.set hash es hI i h2 ⟨some key, value⟩ rfl
      intro k hk
      injection hk with hk
      subst hk
      exact ⟨fun j w h => absurd h (habs j w), d, hd1, hd2, hd3⟩
    · intro k' hk' w h
      rw [hv] at h; injection h with h; injection h with h _; cases h

theorem keys_le_used (es : List Entry) :
    es.countP (fun e => e.key.isSome) ≤ es.countP (fun e => !e.isEmpty) := by
  apply List.countP_mono_left
  intro e _ h
  unfold Entry.isEmpty
  cases hk : e.key with
  | none => rw [hk] at h; cases h
  | some k => rfl

/-- The copying loop of `adjust_capacity`. -/
theorem copyLoop_spec (old new : List Entry) (n : Nat) (hI : Slots hash new)
    (hn : n = new.countP (fun e => !e.isEmpty)) (hn' : n = new.countP (fun e => e.key.isSome))
    (hroom : n + old.countP (fun e => e.key.isSome) < new.length)
    (hd : ∀ i j k v w : Nat, old[i]? = some ⟨some k, v⟩ → old[j]? = some ⟨some k, w⟩ → i = j)
    (hdis : ∀ k v w, Has old k v → ¬ Has new k w) :
    ∃ new' n', copyLoop hash old new n = some (new', n') ∧ Slots hash new' ∧ new'.length = new.length ∧
      n' = new'.countP (fun e => !e.isEmpty) ∧ n' = new'.countP (fun e => e.key.isSome) ∧
      n' = n + old.countP (fun e => e.key.isSome) ∧
      ∀ k v, Has new' k v ↔ Has new k v ∨ Has old k v := by
  induction old generalizing new n with
  | nil =>
    refine ⟨new, n, rfl, hI, rfl, hn, hn', by simp, fun k v => ?_⟩
    constructor
    · exact Or.inl
    · rintro (h | ⟨i, h⟩)
      · exact h
      · cases h
  | cons e old ih =>
    have hd' : ∀ i j k v w : Nat, old[i]? = some ⟨some k, v⟩ → old[j]? = some ⟨some k, w⟩ → i = j := by
      intro i j k v w h1 h2
      have := hd (i + 1) (j + 1) k v w (by rw [List.getElem?_cons_succ]; exact h1)
        (by rw [List.getElem?_cons_succ]; exact h2)
      omega
    have hcons : ∀ k v, Has (e :: old) k v ↔ e = ⟨some k, v⟩ ∨ Has old k v := by
      intro k v
      constructor
      · rintro ⟨i, h⟩
        cases i with
        | zero => rw [List.getElem?_cons_zero] at h; injection h with h; exact Or.inl h
        | succ i => rw [List.getElem?_cons_succ] at h; exact Or.inr ⟨i, h⟩
      · rintro (h | ⟨i, h⟩)
        · exact ⟨0, by rw [List.getElem?_cons_zero, h]⟩
        · exact ⟨i + 1, by rw [List.getElem?_cons_succ]; exact h⟩
    unfold copyLoop
    cases hk : e.key with
    | none =>
      dsimp only
      rw [List.countP_cons, if_neg (by simp [hk])] at hroom
      obtain ⟨new', n', k1, k2, k3, k4, k5, k6, k7⟩ := ih new n hI hn hn' (by omega) hd'
        (fun k v w h => hdis k v w ((hcons k v).2 (Or.inr h)))
      refine ⟨new', n', k1, k2, k3, k4, k5, ?_, fun k v => ?_⟩
      · rw [List.countP_cons, if_neg (by simp [hk])]; omega
      · rw [k7, hcons]
        constructor
        · rintro (h | h)
          · exact Or.inl h
          · exact Or.inr (Or.inr h)
        · rintro (h | h | h)
          · exact Or.inl h
          · rw [h] at hk; cases hk
          · exact Or.inr h
    | some key =>
      dsimp only
      rw [List.countP_cons, if_pos (by simp [hk])] at hroom
      have he : e = ⟨some key, e.value⟩ := by rw [← hk]
      have habs : ∀ v, ¬ Has new key v := fun v => hdis key e.value v ((hcons key e.value).2 (Or.inl he))
      obtain ⟨i, oldE, a1, a2, a3, a4, a5, a6⟩ := insert_spec hash new hI key e.value (by omega)
      rw [a1]
      dsimp only
      have hoe : oldE.key = none ∧ oldE.value = 0 ∨ False := by
        rcases a6 with h | ⟨h, _⟩
        · exact absurd ⟨i, by rw [a2, ← h]⟩ (habs oldE.value)
        · left
          refine ⟨h, ?_⟩
          -- no tombstones in the new table: non-empty = has key
          by_cases hv : oldE.value = 0
          · exact hv
          · exfalso
            have c1 := countP_set_add (fun e => !e.isEmpty) new i oldE ⟨some 0, 0⟩ a2
            have c2 := countP_set_add (fun e => e.key.isSome) new i oldE ⟨some 0, 0⟩ a2
            have c3 := keys_le_used (new.set i ⟨some 0, 0⟩)
            have e1 : oldE.isEmpty = false := by unfold Entry.isEmpty; simp [hv]
            simp only [e1, h, Bool.not_false, if_pos, Option.isSome_none, Option.isSome_some,
              show (⟨some 0, 0⟩ : Entry).isEmpty = false from rfl] at c1 c2
            simp at c1 c2
            omega
      rcases hoe with ⟨hk0, hv0⟩ | hoe
      · have c1 := countP_set_add (fun e => !e.isEmpty) new i oldE ⟨some key, e.value⟩ a2
        have c2 := countP_set_add (fun e => e.key.isSome) new i oldE ⟨some key, e.value⟩ a2
        have e1 : oldE.isEmpty = true := by unfold Entry.isEmpty; simp [hk0, hv0]
        simp only [e1, hk0, show (⟨some key, e.value⟩ : Entry).isEmpty = false from rfl] at c1 c2
        simp at c1 c2
        obtain ⟨new', n', k1, k2, k3, k4, k5, k6, k7⟩ := ih (new.set i ⟨some key, e.value⟩) (n + 1) a4 (by omega) (by omega)
          (by rw [List.length_set]; omega) hd' (by
            intro k v w h hh
            rw [a5] at hh
            by_cases hkk : k = key
            · obtain ⟨j, hj⟩ := h
              have := hd 0 (j + 1) key e.value v (by rw [List.getElem?_cons_zero, ← he])
                (by rw [List.getElem?_cons_succ, ← hkk]; exact hj)
              omega
            · rw [if_neg hkk] at hh
              exact hdis k v w ((hcons k v).2 (Or.inr h)) hh)
        refine ⟨new', n', k1, k2, by rw [k3, List.length_set], k4, k5, ?_, fun k v => ?_⟩
        · rw [List.countP_cons, if_pos (by simp [hk])]; omega
        · rw [k7, a5, hcons]
          by_cases hkk : k = key
          · rw [if_pos hkk]
            constructor
            · rintro (h | h)
              · right; left; rw [he, hkk, h]
              · exact Or.inr (Or.inr h)
            · rintro (h | h | h)
              · rw [hkk] at h; exact absurd h (habs v)
              · left; rw [h]
              · exact Or.inr h
          · rw [if_neg hkk]
            constructor
            · rintro (h | h)
              · exact Or.inl h
              · exact Or.inr (Or.inr h)
            · rintro (h | h | h)
              · exact Or.inl h
              · rw [h] at hk; injection hk with hk; exact absurd hk hkk
              · exact Or.inr h
      · exact hoe.elim

theorem replicate_slots (cap : Nat) : Slots hash (List.replicate cap Entry.empty) := by
  have h : ∀ i k v : Nat, (List.replicate cap Entry.empty)[i]? ≠ some ⟨some k, v⟩ := by
    intro i k v h
    rw [List.getElem?_replicate] at h
    split at h
    · injection h with h; injection h with h _; cases h
    · cases h
  exact ⟨fun i k v h' => absurd h' (h i k v), fun i j k v w h' => absurd h' (h i k v)⟩

theorem count_replicate (cap : Nat) (p : Entry → Bool) (h : p Entry.empty = false) :
    (List.replicate cap Entry.empty).countP p = 0 := by
  rw [List.countP_eq_zero]
  intro e he
  rw [List.eq_of_mem_replicate he, h]; simp

/-- The growing step keeps the contents and makes room for one more key. -/
theorem grow_spec (t : Table) (hI : Inv hash t) :
    ∃ t', grow hash t = some t' ∧ Inv hash t' ∧ t'.used < t'.entries.length / 2 ∧ 15 ≤ t'.entries.length ∧
      ∀ k v, Has t'.entries k v ↔ Has t.entries k v := by
  unfold grow
  split
  · rename_i hge
    have hcap : t.count ≤ t.entries.length / 2 + 0 ∧ t.count ≤ t.used := by
      have h1 := keys_le_used t.entries
      have hu := hI.used; have hcn := hI.count
      refine ⟨?_, by omega⟩
      rcases hI.cap with h | h
      · rw [h] at hcn; simp at hcn; omega
      · omega
    generalize hnc : (if t.entries.length * 2 - 1 < 15 then 15 else t.entries.length * 2 - 1) = nc
    have hnc15 : 15 ≤ nc ∧ t.entries.length ≤ nc ∧ (t.entries ≠ [] → t.entries.length / 2 < nc / 2) ∧
        (t.entries.length = 0 → 0 < nc / 2) := by
      rcases hI.cap with h | h
      · rw [h] at hnc ⊢
        simp at hnc ⊢
        omega
      · split at hnc <;> omega
    obtain ⟨new', n', k1, k2, k3, k4, k5, k6, k7⟩ := copyLoop_spec hash t.entries (List.replicate nc Entry.empty) 0
      (replicate_slots hash nc) (count_replicate nc _ rfl).symm (count_replicate nc _ rfl).symm
      (by
        rw [List.length_replicate, ← hI.count]
        rcases hI.cap with h | h
        · have := hI.count; rw [h] at this; simp at this; omega
        · omega) hI.uniq
      (by
        rintro k v w _ ⟨i, h⟩
        rw [List.getElem?_replicate] at h
        split at h
        · injection h with h; injection h with h _; cases h
        · cases h)
    have hlen : new'.length = nc := by rw [k3, List.length_replicate]
    refine ⟨⟨new', n', n'⟩, by unfold adjust; dsimp only; rw [hnc, k1]; rfl, ⟨k4, k5, Or.inr ⟨by rw [hlen]; omega, ?_⟩, k2.path, k2.uniq⟩,
      ?_, by dsimp only; rw [hlen]; omega, ?_⟩
    · dsimp only
      rw [hlen, k6, ← hI.count]
      rcases hI.cap with h | h
      · have := hI.count; rw [h] at this; simp at this; omega
      · omega
    · dsimp only
      rw [hlen, k6, ← hI.count]
      rcases hI.cap with h | h
      · have := hI.count; rw [h] at this; simp at this
        have h0 : t.entries.length = 0 := by rw [h]; rfl
        have := hnc15.2.2.2 h0
        omega
      · have hne : t.entries ≠ [] := by intro e; rw [e] at h; simp at h
        have := hnc15.2.2.1 hne
        omega
    · intro k v
      dsimp only
      rw [k7]
      constructor
      · rintro (⟨i, h⟩ | h)
        · exfalso
          rw [List.getElem?_replicate] at h
          split at h
          · injection h with h; injection h with h _; cases h
          · cases h
        · exact h
      · exact Or.inr
  · rename_i hlt
    refine ⟨t, rfl, hI, by omega, ?_, fun _ _ => Iff.rfl⟩
    rcases hI.cap with h | h
    · rw [h] at hlt; simp at hlt
    · exact h.1

/-- `table_put` keeps the invariant, never loops, and updates the map; the result says whether the key was new. -/
theorem put_spec (t : Table) (hI : Inv hash t) (key value : Nat) :
    ∃ t' b, put hash t key value = some (t', b) ∧ Inv hash t' ∧
      (∀ k v, Has t'.entries k v ↔ if k = key then v = value else Has t.entries k v) ∧
      (b = true ↔ ∀ v, ¬ Has t.entries key v) := by
  obtain ⟨t1, g1, g2, g3, g4, g5⟩ := grow_spec hash t hI
  have hS : Slots hash t1.entries := ⟨g2.path, g2.uniq⟩
  obtain ⟨i, old, a1, a2, a3, a4, a5, a6⟩ := insert_spec hash t1.entries hS key value
    (by rw [← g2.used]; omega)
  have hD : t1.entries.getD i default = old := by rw [List.getD_eq_getElem?_getD, a2]; rfl
  unfold put
  rw [g1]
  simp only [Option.bind_some, a1, Option.map_some, hD]
  refine ⟨_, _, rfl, ⟨?_, ?_, Or.inr ?_, a4.path, a4.uniq⟩, ?_, ?_⟩
  · have c1 := countP_set_add (fun e => !e.isEmpty) t1.entries i old ⟨some key, value⟩ a2
    rw [← g2.used] at c1
    simp only [show (⟨some key, value⟩ : Entry).isEmpty = false from rfl] at c1
    dsimp only
    by_cases h : old.key = none ∧ old.value = 0
    · rw [if_pos h]
      have : old.isEmpty = true := by unfold Entry.isEmpty; simp [h.1, h.2]
      rw [this] at c1; simp at c1; omega
    · rw [if_neg h]
      have : old.isEmpty = false := by
        unfold Entry.isEmpty
        cases hk : old.key with
        | none => simp; intro e; exact h ⟨hk, e⟩
        | some k => rfl
      rw [this] at c1; simp at c1; omega
  · have c1 := countP_set_add (fun e => e.key.isSome) t1.entries i old ⟨some key, value⟩ a2
    rw [← g2.count] at c1
    dsimp only
    by_cases h : old.key = none
    · rw [if_pos h]; rw [h] at c1; simp at c1; omega
    · rw [if_neg h]
      have : old.key.isSome = true := by
        cases hk : old.key with
        | none => exact absurd hk h
        | some k => rfl
      rw [this] at c1; simp at c1; omega
  · dsimp only
    rw [List.length_set]
    split <;> omega
  · intro k v
    dsimp only
    rw [a5]
    split
    · exact Iff.rfl
    · exact g5 k v
  · rw [decide_eq_true_iff]
    constructor
    · intro h v hv
      rcases a6 with h' | ⟨_, h'⟩
      · rw [h'] at h; cases h
      · exact h' v ((g5 key v).2 hv)
    · intro h
      rcases a6 with h' | ⟨h', _⟩
      · exact absurd ((g5 key old.value).1 ⟨i, by rw [a2, ← h']⟩) (h old.value)
      · exact h'

theorem no_keys (es : List Entry) (h : es.countP (fun e => e.key.isSome) = 0) (k v : Nat) : ¬ Has es k v := by
  rintro ⟨i, hi⟩
  rw [List.countP_eq_zero] at h
  exact h _ (List.mem_of_getElem? hi) rfl

theorem inv_room (t : Table) (hI : Inv hash t) (hc : t.count ≠ 0) :
    t.entries.countP (fun e => !e.isEmpty) < t.entries.length := by
  rcases hI.cap with h | h
  · have := hI.count; rw [h] at this; simp at this; omega
  · rw [← hI.used]; omega

/-- `table_delete`. -/
theorem delete_spec (t : Table) (hI : Inv hash t) (key : Nat) :
    ∃ t' b, delete hash t key = some (t', b) ∧ Inv hash t' ∧
      (∀ k v, Has t'.entries k v ↔ k ≠ key ∧ Has t.entries k v) ∧
      (b = true ↔ ∃ v, Has t.entries key v) := by
  unfold delete
  split
  · rename_i h0
    rw [hI.count] at h0
    have hn := no_keys t.entries h0
    exact ⟨t, false, rfl, hI, fun k v => ⟨fun h => absurd h (hn k v), fun h => h.2⟩,
      by simp; intro v; exact hn key v⟩
  · rename_i h0
    have hS : Slots hash t.entries := ⟨hI.path, hI.uniq⟩
    obtain ⟨i, h1, h2, h3⟩ := findEntry_spec hash t.entries hS key (exists_empty _ (inv_room hash t hI h0))
    simp only [h1, Option.map_some]
    rcases h3 with ⟨v, hv⟩ | ⟨habs, ⟨v, hv⟩, _⟩
    · have hD : t.entries.getD i default = ⟨some key, v⟩ := by rw [List.getD_eq_getElem?_getD, hv]; rfl
      simp only [hD]
      rw [if_neg (by simp)]
      have hne : (⟨none, i + 1⟩ : Entry).isEmpty = false := by simp [Entry.isEmpty]
      have hS' := Slots.set hash t.entries hS i h2 ⟨none, i + 1⟩ hne (fun k hk => by cases hk)
      refine ⟨_, _, rfl, ⟨?_, ?_, ?_, hS'.path, hS'.uniq⟩, ?_, ?_⟩
      · have c1 := countP_set_add (fun e => !e.isEmpty) t.entries i _ ⟨none, i + 1⟩ hv
        rw [← hI.used] at c1
        simp only [hne, show (⟨some key, v⟩ : Entry).isEmpty = false from rfl] at c1
        dsimp only; simp at c1; omega
      · have c1 := countP_set_add (fun e => e.key.isSome) t.entries i _ ⟨none, i + 1⟩ hv
        rw [← hI.count] at c1
        dsimp only; simp at c1; omega
      · rcases hI.cap with h | h
        · left; dsimp only; rw [h]; rfl
        · right; dsimp only; rw [List.length_set]; exact h
      · intro k w
        dsimp only
        rw [has_set _ _ h2]
        constructor
        · rintro (h | ⟨j, hj, h⟩)
          · injection h with h _; cases h
          · refine ⟨?_, j, h⟩
            rintro rfl
            exact hj (hI.uniq _ _ _ _ _ h hv)
        · rintro ⟨hk, j, h⟩
          right
          refine ⟨j, ?_, h⟩
          rintro rfl
          rw [hv] at h; injection h with h; injection h with h _; injection h with h
          exact hk h.symm
      · simp; exact ⟨v, i, hv⟩
    · have hD : t.entries.getD i default = ⟨none, v⟩ := by rw [List.getD_eq_getElem?_getD, hv]; rfl
      simp only [hD]
      rw [if_pos trivial]
      refine ⟨t, false, rfl, hI, fun k w => ?_, ?_⟩
      · constructor
        · intro h
          refine ⟨?_, h⟩
          rintro rfl
          obtain ⟨j, h⟩ := h
          exact habs j w h
        · exact fun h => h.2
      · simp
        intro w ⟨j, h⟩
        exact habs j w h

theorem init_inv : Inv hash init :=
  ⟨rfl, rfl, Or.inl rfl, fun i k v h => (by cases h), fun i j k v w h => (by cases h)⟩

/-- The table built by a history exists (no probe loops for ever), satisfies the invariant and stores exactly
what the specification says. -/
theorem run_spec (ops : List Op) :
    ∃ t, run hash ops = some t ∧ Inv hash t ∧ ∀ k v, Has t.entries k v ↔ spec ops k = some v := by
  induction ops with
  | nil =>
    refine ⟨init, rfl, init_inv hash, fun k v => ⟨?_, fun h => by cases h⟩⟩
    rintro ⟨i, h⟩; cases h
  | cons op ops ih =>
    obtain ⟨t, h1, h2, h3⟩ := ih
    cases op with
    | put k0 v0 =>
      obtain ⟨t', b, p1, p2, p3, _⟩ := put_spec hash t h2 k0 v0
      refine ⟨t', by rw [run, h1]; simp [p1], p2, fun k v => ?_⟩
      rw [p3, spec]
      split
      · simp [eq_comm]
      · exact h3 k v
    | delete k0 =>
      obtain ⟨t', b, p1, p2, p3, _⟩ := delete_spec hash t h2 k0
      refine ⟨t', by rw [run, h1]; simp [p1], p2, fun k v => ?_⟩
      rw [p3, spec, h3]
      split
      · rename_i h; simp [h]
      · rename_i h; simp [h]

/-! ## Theorems -/

/-- C13.  For every history of `table_put`/`table_delete` and every hash function, all operations terminate and
`table_try_get` returns exactly the value most recently put for the key and not deleted since. -/
theorem tryGet_correct (ops : List Op) (k : Nat) :
    ∃ t, run hash ops = some t ∧ tryGet hash t k = some (spec ops k) := by
  obtain ⟨t, h1, h2, h3⟩ := run_spec hash ops
  refine ⟨t, h1, ?_⟩
  unfold tryGet
  split
  · rename_i h0
    rw [h2.count] at h0
    have hn := no_keys t.entries h0 k
    cases hs : spec ops k with
    | none => rfl
    | some v => exact absurd ((h3 k v).2 hs) (hn v)
  · rename_i h0
    have hS : Slots hash t.entries := ⟨h2.path, h2.uniq⟩
    obtain ⟨i, a1, a2, a3⟩ := findEntry_spec hash t.entries hS k (exists_empty _ (inv_room hash t h2 h0))
    rw [a1]
    simp only [Option.map_some]
    rcases a3 with ⟨v, hv⟩ | ⟨habs, ⟨v, hv⟩, _⟩
    · have hD : t.entries.getD i default = ⟨some k, v⟩ := by rw [List.getD_eq_getElem?_getD, hv]; rfl
      rw [hD, (h3 k v).1 ⟨i, hv⟩]; simp
    · have hD : t.entries.getD i default = ⟨none, v⟩ := by rw [List.getD_eq_getElem?_getD, hv]; rfl
      rw [hD]
      cases hs : spec ops k with
      | none => simp
      | some w =>
        obtain ⟨j, hj⟩ := (h3 k w).2 hs
        exact absurd hj (habs j w)

/-- C13.  `table_get` returns the stored value, or `NULL` if there is none. -/
theorem get_correct (ops : List Op) (k : Nat) :
    ∃ t, run hash ops = some t ∧ get hash t k = some ((spec ops k).getD 0) := by
  obtain ⟨t, h1, h2⟩ := tryGet_correct hash ops k
  refine ⟨t, h1, ?_⟩
  unfold tryGet at h2
  unfold get
  split
  · rename_i h0
    rw [if_pos h0] at h2
    injection h2 with h2
    rw [← h2]; rfl
  · rename_i h0
    rw [if_neg h0] at h2
    cases hf : findEntry hash t.entries k with
    | none => rw [hf] at h2; cases h2
    | some i =>
      rw [hf] at h2
      simp only [Option.map_some] at h2 ⊢
      injection h2 with h2
      rw [← h2]
      split <;> rfl

/-- C13.  The results of `table_put` and `table_delete`: whether the key was new, and whether it was there. -/
theorem results_correct (ops : List Op) (k v : Nat) :
    ∃ t, run hash ops = some t ∧
      (∃ t', put hash t k v = some (t', (spec ops k).isNone)) ∧
      (∃ t', delete hash t k = some (t', (spec ops k).isSome)) := by
  obtain ⟨t, h1, h2, h3⟩ := run_spec hash ops
  refine ⟨t, h1, ?_, ?_⟩
  · obtain ⟨t', b, p1, _, _, p4⟩ := put_spec hash t h2 k v
    refine ⟨t', ?_⟩
    rw [p1]
    congr 2
    rw [Bool.eq_iff_iff, p4]
    cases hs : spec ops k with
    | none => simp; intro w hw; rw [h3, hs] at hw; cases hw
    | some w => simp; exact ⟨w, (h3 k w).2 hs⟩
  · obtain ⟨t', b, p1, _, _, p4⟩ := delete_spec hash t h2 k
    refine ⟨t', ?_⟩
    rw [p1]
    congr 2
    rw [Bool.eq_iff_iff, p4]
    cases hs : spec ops k with
    | none => simp; intro w hw; rw [h3, hs] at hw; cases hw
    | some w => simp; exact ⟨w, (h3 k w).2 hs⟩

theorem iterate_spec (t : Table) (i : Nat) :
    (iterate t i = none ∧ (t.entries.drop i).filterMap (fun e => e.key.map fun k => (k, e.value)) = []) ∨
    (∃ it k v, iterate t i = some (it, k, v) ∧ i < it ∧ it ≤ t.entries.length ∧
      (t.entries.drop i).filterMap (fun e => e.key.map fun k => (k, e.value)) =
        (k, v) :: (t.entries.drop it).filterMap (fun e => e.key.map fun k => (k, e.value))) := by
  unfold iterate
  split
  · rename_i h
    rw [List.drop_eq_getElem_cons h, List.filterMap_cons]
    split
    · rename_i k hk
      right
      exact ⟨i + 1, k, _, rfl, by omega, h, by rw [hk]; rfl⟩
    · rename_i hk
      rw [hk]
      rcases iterate_spec t (i + 1) with ⟨h1, h2⟩ | ⟨it, k, v, h1, h2, h3, h4⟩
      · exact Or.inl ⟨h1, h2⟩
      · exact Or.inr ⟨it, k, v, h1, by omega, h3, h4⟩
  · rename_i h
    left
    rw [List.drop_eq_nil_of_le (by omega)]
    exact ⟨rfl, rfl⟩
termination_by t.entries.length - i

theorem iterAll_spec (t : Table) (fuel i : Nat) (hf : t.entries.length < fuel + i) :
    iterAll t fuel i = (t.entries.drop i).filterMap (fun e => e.key.map fun k => (k, e.value)) := by
  induction fuel generalizing i with
  | zero =>
    rw [List.drop_eq_nil_of_le (by omega)]; rfl
  | succ fuel ih =>
    unfold iterAll
    rcases iterate_spec t i with ⟨h1, h2⟩ | ⟨it, k, v, h1, h2, h3, h4⟩
    · rw [h1, h2]
    · rw [h1, h4]
      dsimp only
      rw [ih it (by omega)]

theorem filterMap_nodup (es : List Entry)
    (hu : ∀ i j k v w : Nat, es[i]? = some ⟨some k, v⟩ → es[j]? = some ⟨some k, w⟩ → i = j) :
    ((es.filterMap (fun e => e.key.map fun k => (k, e.value))).map Prod.fst).Nodup := by
  induction es with
  | nil => simp
  | cons e es ih =>
    have ih := ih (fun i j k v w h1 h2 => by
      have := hu (i + 1) (j + 1) k v w (by rw [List.getElem?_cons_succ]; exact h1)
        (by rw [List.getElem?_cons_succ]; exact h2)
      omega)
    rw [List.filterMap_cons]
    cases hk : e.key with
    | none => exact ih
    | some k =>
      simp only [Option.map_some, List.map_cons, List.nodup_cons]
      refine ⟨?_, ih⟩
      intro hm
      obtain ⟨⟨k', v⟩, h1, h2⟩ := List.mem_map.1 hm
      obtain ⟨e', h3, h4⟩ := List.mem_filterMap.1 h1
      obtain ⟨j, hj⟩ := List.getElem?_of_mem h3
      cases hk' : e'.key with
      | none => rw [hk'] at h4; cases h4
      | some k2 =>
        rw [hk'] at h4
        simp only [Option.map_some, Option.some.injEq, Prod.mk.injEq] at h4
        have h2 : k' = k := h2
        have := hu 0 (j + 1) k e.value e'.value (by rw [List.getElem?_cons_zero, ← hk])
          (by rw [List.getElem?_cons_succ, hj, ← h2, ← h4.1, ← hk'])
        omega

/-- C13.  Iterating over the table enumerates exactly the live bindings, each once. -/
theorem iterate_correct (ops : List Op) :
    ∃ t, run hash ops = some t ∧
      (∀ k v, (k, v) ∈ iterAll t (t.entries.length + 1) 0 ↔ spec ops k = some v) ∧
      ((iterAll t (t.entries.length + 1) 0).map Prod.fst).Nodup := by
  obtain ⟨t, h1, h2, h3⟩ := run_spec hash ops
  refine ⟨t, h1, ?_, ?_⟩
  · intro k v
    rw [iterAll_spec t _ 0 (by omega), List.drop_zero, ← h3, List.mem_filterMap]
    constructor
    · rintro ⟨e, he, h⟩
      obtain ⟨i, hi⟩ := List.getElem?_of_mem he
      cases hk : e.key with
      | none => rw [hk] at h; cases h
      | some k' =>
        rw [hk] at h
        simp only [Option.map_some, Option.some.injEq, Prod.mk.injEq] at h
        exact ⟨i, by rw [hi, ← h.1, ← h.2, ← hk]⟩
    · rintro ⟨i, hi⟩
      exact ⟨_, List.mem_of_getElem? hi, rfl⟩
  · rw [iterAll_spec t _ 0 (by omega), List.drop_zero]
    exact filterMap_nodup t.entries h2.uniq

/-- Non-vacuity: a history with colliding keys, a deletion, a re-insertion through the tombstone and growth
(9 keys force a second rehash from 15 to 29 slots). -/
def exHist : List Op :=
  [.put 7 70, .delete 3, .put 3 31, .delete 1, .put 9 1, .put 8 1, .put 7 1, .put 6 1, .put 5 1, .put 4 1, .put 3 30,
   .put 2 20, .put 1 10]
example : (run (fun _ => 5) exHist).map (fun t => (t.count, t.used, t.entries.length)) = some (7, 9, 29) := by decide
example : spec exHist 7 = some 70 ∧ spec exHist 3 = none ∧ spec exHist 2 = some 20 := by decide

end Verif.Table

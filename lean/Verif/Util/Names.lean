import Verif.Util.Table
/-!
# Name interning (C14)

`alloc_name`, `find_name_table`, `hash_string` of `src/util/table.c`.  `Name` objects live in a list; a pointer is an
index into it.  Simplification: the text stays unchanged after `alloc_name` (with `make_copy` false that is the
caller's duty), `malloc` succeeds and the text is shorter than 2^31 bytes.
-/
namespace Verif.Names
open Verif.Table

/-- `hash_string`, src/util/table.c:8-15 (FNV-1a on `uint32_t`). -/
def hashString (text : List Nat) : Nat :=
  text.foldl (fun h c => ((h ^^^ c) * 16777619) % 2 ^ 32) 2166136261

/-- The `Name` objects allocated so far (src/util/table.h:10-14) and `name_table` (src/util/table.c:19). -/
structure State where
  names : List (List Nat)
  table : Table

/-- `key->hash` of the name object with index `p`: it was computed from its text, src/util/table.c:42,57. -/
def hashOf (names : List (List Nat)) (p : Nat) : Nat := hashString (names.getD p [])

/-- The loop of `find_name_table`, src/util/table.c:26-37; outer `none`: out of fuel. -/
def findNameLoop (names : List (List Nat)) (es : List Entry) (text : List Nat) : Nat → Nat → Option (Option Nat)
  | 0, _ => none
  | fuel + 1, index =>
    let e := es.getD index default
    let next := (index + 1) % es.length
    match e.key with
    | none => if e.value = 0 then some none else findNameLoop names es text fuel next
    | some k =>
      if (names.getD k []).length = text.length ∧ hashOf names k = hashString text ∧ names.getD k [] = text
      then some (some k)
      else findNameLoop names es text fuel next

/-- `find_name_table`, src/util/table.c:21-38. -/
def findName (s : State) (text : List Nat) : Option (Option Nat) :=
  if s.table.count = 0 then some none
  else findNameLoop s.names s.table.entries text (s.table.entries.length + 1) (hashString text % s.table.entries.length)

/-- `alloc_name`, src/util/table.c:40-65: the new state and the pointer returned. -/
def allocName (s : State) (text : List Nat) : Option (State × Nat) :=
  (findName s text).bind fun
    | some p => some (s, p)
    | none =>
      let names := s.names ++ [text]
      (put (hashOf names) s.table s.names.length (s.names.length + 1)).map fun r => (⟨names, r.1⟩, s.names.length)

/-- A history of `alloc_name` calls from start-up. -/
def runFrom (s : State) : List (List Nat) → Option (State × List Nat)
  | [] => some (s, [])
  | t :: ts => (allocName s t).bind fun r => (runFrom r.1 ts).map fun q => (q.1, r.2 :: q.2)

/-- The state at start-up. -/
def start : State := ⟨[], init⟩

/-! ## Proofs -/

structure Good (s : State) : Prop where
  inv : Inv (hashOf s.names) s.table
  keys : ∀ p, (∃ v, Has s.table.entries p v) ↔ p < s.names.length
  nodup : s.names.Nodup

theorem findNameLoop_spec (names : List (List Nat)) (es : List Entry) (text : List Nat) (h : Nat) (hc : 0 < es.length)
    (n d fuel : Nat)
    (hpass : ∀ e, e < n → ∃ s, es[pos es.length h (d + e)]? = some s ∧ s.isEmpty = false ∧
      ∀ k, s.key = some k → names.getD k [] ≠ text)
    (s : Entry) (hstop : es[pos es.length h (d + n)]? = some s)
    (hs : s.isEmpty = true ∨ ∃ k, s.key = some k ∧ names.getD k [] = text)
    (hf : n < fuel) :
    findNameLoop names es text fuel (pos es.length h d) = some s.key := by
  induction n generalizing d fuel with
  | zero =>
    cases fuel with
    | zero => omega
    | succ fuel =>
      rw [Nat.add_zero] at hstop
      unfold findNameLoop
      have hg : es.getD (pos es.length h d) default = s := by
        rw [List.getD_eq_getElem?_getD, hstop]; rfl
      simp only [hg]
      rcases hs with hs | ⟨k, hk, ht⟩
      · unfold Entry.isEmpty at hs
        simp only [Bool.and_eq_true, Option.isNone_iff_eq_none, beq_iff_eq] at hs
        rw [hs.1, hs.2]; simp
      · rw [hk]
        dsimp only
        rw [if_pos ⟨by rw [ht], by unfold hashOf; rw [ht], ht⟩]
  | succ n ih =>
    cases fuel with
    | zero => omega
    | succ fuel =>
      obtain ⟨s0, h1, h2, h3⟩ := hpass 0 (by omega)
      rw [Nat.add_zero] at h1
      have hg : es.getD (pos es.length h d) default = s0 := by
        rw [List.getD_eq_getElem?_getD, h1]; rfl
      have ih := ih (d + 1) fuel (by
        intro e he
        have := hpass (e + 1) (by omega)
        rw [show d + (e + 1) = d + 1 + e by omega] at this
        exact this) (by rw [show d + 1 + n = d + (n + 1) by omega]; exact hstop) (by omega)
      unfold findNameLoop
      simp only [hg, pos_succ]
      cases hk : s0.key with
      | some k =>
        dsimp only
        rw [if_neg (fun hh => h3 k hk hh.2.2)]
        exact ih
      | none =>
        dsimp only
        have hv : s0.value ≠ 0 := by
          intro e; unfold Entry.isEmpty at h2; rw [hk, e] at h2; simp at h2
        rw [if_neg hv]
        exact ih

theorem getD_lt (names : List (List Nat)) (p : Nat) (h : p < names.length) : names.getD p [] = names[p] := by
  rw [List.getD_eq_getElem?_getD, List.getElem?_eq_getElem h]; rfl

theorem idx_inj (names : List (List Nat)) (hn : names.Nodup) (p q : Nat) (hp : p < names.length) (hq : q < names.length)
    (h : names.getD p [] = names.getD q []) : p = q := by
  rw [getD_lt _ _ hp, getD_lt _ _ hq] at h
  rcases Nat.lt_trichotomy p q with hlt | hlt | hlt
  · exact absurd h (List.pairwise_iff_getElem.1 hn p q hp hq hlt)
  · exact hlt
  · exact absurd h.symm (List.pairwise_iff_getElem.1 hn q p hq hp hlt)

/-- `find_name_table` ends and finds the name with that text iff there is one. -/
theorem findName_spec (s : State) (hg : Good s) (text : List Nat) :
    ∃ r, findName s text = some r ∧
      (∀ p, r = some p → s.names[p]? = some text) ∧ (r = none → text ∉ s.names) := by
  have hmem : ∀ (p : Nat) (v : Entry), s.table.entries[p]? = some v → ∀ k, v.key = some k → k < s.names.length := by
    intro p v h k hk
    exact (hg.keys k).1 ⟨v.value, p, by rw [h, ← hk]⟩
  unfold findName
  split
  · rename_i h0
    refine ⟨none, rfl, by simp, fun _ hm => ?_⟩
    obtain ⟨p, hp⟩ := List.getElem?_of_mem hm
    have hpl : p < s.names.length := by
      rcases Nat.lt_or_ge p s.names.length with h | h
      · exact h
      · rw [List.getElem?_eq_none h] at hp; cases hp
    obtain ⟨v, hv⟩ := (hg.keys p).2 hpl
    rw [hg.inv.count] at h0
    exact no_keys _ h0 p v hv
  · rename_i h0
    obtain ⟨j, sj, hj, hje⟩ := exists_empty _ (inv_room _ s.table hg.inv h0)
    generalize hes : s.table.entries = es at *
    have hjl : j < es.length := by
      rcases Nat.lt_or_ge j es.length with h | h
      · exact h
      · rw [List.getElem?_eq_none h] at hj; cases hj
    have hc : 0 < es.length := by omega
    obtain ⟨d0, hd0, hp0⟩ := pos_surj es.length (hashString text) j hjl
    have hget : ∀ d, ∃ s, es[pos es.length (hashString text) d]? = some s := fun d =>
      ⟨_, List.getElem?_eq_getElem (pos_lt _ _ _ hc)⟩
    have hgetD : ∀ d s, es[pos es.length (hashString text) d]? = some s →
        es.getD (pos es.length (hashString text) d) default = s := by
      intro d s h; rw [List.getD_eq_getElem?_getD, h]; rfl
    obtain ⟨n, hn, hstop, hmin⟩ := exists_least
      (fun d => (es.getD (pos es.length (hashString text) d) default).isEmpty = true ∨
        (es.getD (pos es.length (hashString text) d) default).key.map (fun k => s.names.getD k []) = some text) d0
      (by left; rw [hp0, List.getD_eq_getElem?_getD, hj]; exact hje)
    obtain ⟨sn, hs⟩ := hget n
    rw [hgetD n sn hs] at hstop
    have hpass : ∀ e, e < n → ∃ s1, es[pos es.length (hashString text) (0 + e)]? = some s1 ∧ s1.isEmpty = false ∧
        ∀ k, s1.key = some k → s.names.getD k [] ≠ text := by
      intro e he
      obtain ⟨s', hs'⟩ := hget e
      have := hmin e he
      rw [hgetD e s' hs'] at this
      rw [Nat.zero_add]
      refine ⟨s', hs', ?_, fun k hk h => this (Or.inr (by rw [hk, Option.map_some, h]))⟩
      cases hb : s'.isEmpty with
      | false => rfl
      | true => exact absurd (Or.inl hb) this
    have hloop := findNameLoop_spec s.names es text (hashString text) hc n 0 (es.length + 1) hpass sn
      (by rw [Nat.zero_add]; exact hs)
      (by
        rcases hstop with h | h
        · exact Or.inl h
        · right
          cases hk : sn.key with
          | none => rw [hk] at h; cases h
          | some k => rw [hk, Option.map_some] at h; injection h with h; exact ⟨k, rfl, h⟩)
      (by omega)
    have hp00 : pos es.length (hashString text) 0 = hashString text % es.length := by unfold pos; rw [Nat.add_zero]
    rw [hp00] at hloop
    refine ⟨sn.key, hloop, ?_, ?_⟩
    · intro p hp
      have hpl := hmem _ sn hs p hp
      rcases hstop with h | h
      · unfold Entry.isEmpty at h; rw [hp] at h; simp at h
      · rw [hp, Option.map_some] at h
        injection h with h
        rw [getD_lt _ _ hpl] at h
        rw [List.getElem?_eq_getElem hpl, h]
    · intro hnone hm
      have hemp : sn.isEmpty = true := by
        rcases hstop with h | h
        · exact h
        · rw [hnone] at h; cases h
      obtain ⟨p, hp⟩ := List.getElem?_of_mem hm
      have hpl : p < s.names.length := by
        rcases Nat.lt_or_ge p s.names.length with h | h
        · exact h
        · rw [List.getElem?_eq_none h] at hp; cases hp
      obtain ⟨v, i, hv⟩ := (hg.keys p).2 hpl
      have hpt : s.names.getD p [] = text := by rw [List.getD_eq_getElem?_getD, hp]; rfl
      have hh : hashOf s.names p = hashString text := by unfold hashOf; rw [hpt]
      rw [hes] at hv
      obtain ⟨d', hd', hp', hpath⟩ := hg.inv.path i p v (by rw [hes]; exact hv)
      rw [hes, hh] at hp' hpath
      rcases Nat.lt_trichotomy d' n with h | h | h
      · obtain ⟨s2, a1, a2, a3⟩ := hpass d' h
        rw [Nat.zero_add, hp', hv] at a1
        injection a1 with a1
        rw [← a1] at a3; exact a3 p rfl hpt
      · rw [h] at hp'
        rw [hp', hv] at hs
        injection hs with hs
        rw [← hs] at hemp
        simp [Entry.isEmpty] at hemp
      · obtain ⟨s2, a1, a2⟩ := hpath n h
        rw [hs] at a1
        injection a1 with a1
        rw [← a1, hemp] at a2; cases a2

/-- The table invariant depends only on the hashes of the keys present. -/
theorem Inv.congr {hash hash' : Nat → Nat} {t : Table} (hI : Inv hash t)
    (h : ∀ k v, Has t.entries k v → hash' k = hash k) : Inv hash' t := by
  refine ⟨hI.used, hI.count, hI.cap, ?_, hI.uniq⟩
  intro i k v hv
  rw [h k v ⟨i, hv⟩]
  exact hI.path i k v hv

theorem allocName_spec (s : State) (hg : Good s) (text : List Nat) :
    ∃ s' p, allocName s text = some (s', p) ∧ Good s' ∧ s'.names[p]? = some text ∧ s.names <+: s'.names := by
  obtain ⟨r, h1, h2, h3⟩ := findName_spec s hg text
  unfold allocName
  rw [h1]
  cases r with
  | some p => exact ⟨s, p, rfl, hg, h2 p rfl, List.prefix_refl _⟩
  | none =>
    have hI : Inv (hashOf (s.names ++ [text])) s.table := by
      apply Inv.congr hg.inv
      intro k v hk
      have := (hg.keys k).1 ⟨v, hk⟩
      unfold hashOf
      rw [List.getD_eq_getElem?_getD, List.getD_eq_getElem?_getD, List.getElem?_append_left this]
    obtain ⟨t', b, p1, p2, p3, _⟩ := put_spec (hashOf (s.names ++ [text])) s.table hI s.names.length (s.names.length + 1)
    refine ⟨⟨s.names ++ [text], t'⟩, s.names.length, ?_, ⟨p2, ?_, ?_⟩, ?_, ?_⟩
    · simp [p1]
    · intro p
      dsimp only
      simp only [p3]
      rw [List.length_append, List.length_singleton]
      by_cases hp : p = s.names.length
      · simp [hp]
      · simp only [if_neg hp]
        rw [hg.keys p]
        omega
    · dsimp only
      rw [List.nodup_append]
      refine ⟨hg.nodup, by simp, ?_⟩
      intro a ha b hb e
      rw [List.mem_singleton] at hb
      rw [e, hb] at ha
      exact h3 rfl ha
    · dsimp only
      rw [List.getElem?_append_right (Nat.le_refl _), Nat.sub_self]; rfl
    · exact List.prefix_append _ _

theorem runFrom_spec (ts : List (List Nat)) (s : State) (hg : Good s) :
    ∃ s' ps, runFrom s ts = some (s', ps) ∧ Good s' ∧ s.names <+: s'.names ∧ ps.length = ts.length ∧
      ∀ (i p : Nat) (t : List Nat), ps[i]? = some p → ts[i]? = some t → s'.names[p]? = some t := by
  induction ts generalizing s with
  | nil => exact ⟨s, [], rfl, hg, List.prefix_refl _, rfl, fun i p t h => by cases h⟩
  | cons t ts ih =>
    obtain ⟨s1, p, a1, a2, a3, a4⟩ := allocName_spec s hg t
    obtain ⟨s2, ps, b1, b2, b3, b4, b5⟩ := ih s1 a2
    refine ⟨s2, p :: ps, ?_, b2, a4.trans b3, by simp [b4], ?_⟩
    · rw [runFrom, a1]; simp [b1]
    · intro i q u hq hu
      cases i with
      | zero =>
        rw [List.getElem?_cons_zero] at hq hu
        injection hq with hq; injection hu with hu
        obtain ⟨r, hr⟩ := b3
        have : p < s1.names.length := by
          rcases Nat.lt_or_ge p s1.names.length with h | h
          · exact h
          · rw [List.getElem?_eq_none h] at a3; cases a3
        rw [← hr, List.getElem?_append_left (by omega), ← hq, ← hu]; exact a3
      | succ i =>
        rw [List.getElem?_cons_succ] at hq hu
        exact b5 i q u hq hu

theorem start_good : Good start := by
  refine ⟨init_inv _, ?_, List.nodup_nil⟩
  intro p
  constructor
  · rintro ⟨v, i, h⟩; cases h
  · intro h; cases h

/-- C14.  For every history of `alloc_name` calls: every call returns, and two calls return the same object iff
their texts are equal. -/
theorem interning_injective (texts : List (List Nat)) :
    ∃ s ps, runFrom start texts = some (s, ps) ∧ ps.length = texts.length ∧
      ∀ (i j p q : Nat) (t u : List Nat), texts[i]? = some t → texts[j]? = some u → ps[i]? = some p → ps[j]? = some q →
        (p = q ↔ t = u) := by
  obtain ⟨s, ps, h1, h2, _, h4, h5⟩ := runFrom_spec texts start start_good
  refine ⟨s, ps, h1, h4, ?_⟩
  intro i j p q t u ht hu hp hq
  have e1 := h5 i p t hp ht
  have e2 := h5 j q u hq hu
  constructor
  · rintro rfl
    rw [e1] at e2; injection e2
  · rintro rfl
    have hpl : p < s.names.length := by
      rcases Nat.lt_or_ge p s.names.length with h | h
      · exact h
      · rw [List.getElem?_eq_none h] at e1; cases e1
    have hql : q < s.names.length := by
      rcases Nat.lt_or_ge q s.names.length with h | h
      · exact h
      · rw [List.getElem?_eq_none h] at e2; cases e2
    apply idx_inj s.names h2.nodup p q hpl hql
    rw [List.getD_eq_getElem?_getD, List.getD_eq_getElem?_getD, e1, e2]

/-- C14.  Every object returned keeps the text it was created for. -/
theorem interning_text (texts : List (List Nat)) :
    ∃ s ps, runFrom start texts = some (s, ps) ∧
      ∀ (i : Nat) (t : List Nat), texts[i]? = some t → ∃ p : Nat, ps[i]? = some p ∧ s.names[p]? = some t := by
  obtain ⟨s, ps, h1, h2, _, h4, h5⟩ := runFrom_spec texts start start_good
  refine ⟨s, ps, h1, ?_⟩
  intro i t ht
  have hi : i < texts.length := by
    rcases Nat.lt_or_ge i texts.length with h | h
    · exact h
    · rw [List.getElem?_eq_none h] at ht; cases ht
  have hp : ps[i]? = some (ps[i]'(by omega)) := List.getElem?_eq_getElem (by omega)
  exact ⟨_, hp, h5 i _ t hp ht⟩

/-- Non-vacuity: "ab", "", "ab", "b". -/
example : (runFrom start [[97, 98], [], [97, 98], [98]]).map Prod.snd = some [0, 1, 0, 2] := by decide +kernel

end Verif.Names

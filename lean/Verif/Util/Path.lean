/-!
# Path handling: `join_paths` and `is_fullpath` (src/util/util.c:153-229)

Strings are lists of bytes without the terminating NUL; 47 is `/`, 46 is `.`.
`sb` elements (a pointer and a length into the source string) are the byte lists
they denote.  Allocation failure is not modelled.
-/
namespace Verif.Path

abbrev Str := List Nat

def dot : Str := [46]
def dotdot : Str := [46, 46]

/-! ## Model -/

theorem dropWhile_len (f : Nat → Bool) (p : Str) : (p.dropWhile f).length ≤ p.length :=
  (List.dropWhile_sublist f).length_le

/-- The inner scanning loop of `join_paths` (src/util/util.c:189-200): skip slashes,
take up to the next slash (`strchr`), repeat. -/
def comps (p : Str) : List Str :=
  match h : p.dropWhile (· == 47) with
  | [] => []
  | c :: cs =>
    (c :: cs).takeWhile (· != 47) :: comps ((c :: cs).dropWhile (· != 47))
termination_by p.length
decreasing_by
  have h1 := dropWhile_len (· == 47) p
  rw [h] at h1
  have hc : c ≠ 47 := by
    intro hc
    have := List.head?_dropWhile_not (· == 47) p
    rw [h] at this
    simp [hc] at this
  have h2 : ((c :: cs).dropWhile (· != 47)).length ≤ cs.length := by
    rw [List.dropWhile_cons_of_pos (by simpa using hc)]
    exact dropWhile_len _ _
  simp at h1; omega

/-- `enum Top` (src/util/util.c:172-176). -/
inductive Top where
  | other | rootdir | curdir
  deriving DecidableEq, Repr

/-- The locals `sb`, `parent_count`, `top`. -/
structure St where
  elems : List Str := []
  parent : Nat := 0
  top : Top := .other

/-- One component (src/util/util.c:201-219); `none` is the `return NULL`. -/
def step (st : St) (c : Str) : Option St :=
  if c = dot then
    some (if st.elems = [] ∧ st.top = .other then { st with top := .curdir } else st)
  else if c = dotdot then
    if st.elems ≠ [] then some { st with elems := st.elems.dropLast }
    else if st.top = .rootdir then none
    else some { st with parent := st.parent + 1, top := .other }
  else some { st with elems := st.elems ++ [c] }

/-- One iteration of the outer loop (src/util/util.c:180-220). -/
def joinOne (st : St) (p : Str) : Option St :=
  let st := if p.head? = some 47 then { elems := [], parent := 0, top := .rootdir } else st
  (comps p).foldlM step st

/-- `sb_join(&sb, "/")` (src/util/util.c:582-612). -/
def sbJoin (l : List Str) : Str := List.intercalate [47] l

/-- src/util/util.c:168-229 `join_paths`. -/
def joinPaths (paths : List Str) : Option Str := do
  let st ← paths.foldlM joinOne {}
  let elems := List.replicate st.parent dotdot ++ st.elems
  let elems := match st.top with
    | .curdir => dot :: elems
    | .rootdir => (if elems.length > 0 then [] else [47]) :: elems
    | .other => elems
  some (sbJoin elems)

/-- The search loop of `is_fullpath` (src/util/util.c:156-165): `strstr(p, "/..")`
scans to the first occurrence; the loop continues three characters later. -/
def fullScan : Str → Bool
  | 47 :: 46 :: 46 :: rest =>
    if rest.head? = some 47 ∨ rest = [] then false else fullScan rest
  | _ :: rest => fullScan rest
  | [] => true

/-- src/util/util.c:153-166 `is_fullpath`. -/
def isFullpath (f : Str) : Bool := if f.head? ≠ some 47 then false else fullScan f

/-! ## Specification: walking the directory tree -/

/-- Segments between slashes, including empty ones. -/
def segs : Str → List Str
  | [] => [[]]
  | c :: cs =>
    if c = 47 then [] :: segs cs
    else match segs cs with
      | [] => [[c]]
      | s :: ss => (c :: s) :: ss

/-- The components of a path: the non-empty segments. -/
def components (p : Str) : List Str := (segs p).filter (· ≠ [])

/-- A directory is the list of names leading to it from the root. -/
abbrev Loc := List Str

/-- Move by one component; leaving the root upwards is an error. -/
def move (l : Loc) (c : Str) : Option Loc :=
  if c = dot then some l
  else if c = dotdot then (if l = [] then none else some l.dropLast)
  else some (l ++ [c])

/-- Follow a path from the current directory.  An absolute path starts at the root
wherever one was (even if one was nowhere). -/
def follow (cwd : Option Loc) (p : Str) : Option Loc := do
  let start ← (if p.head? = some 47 then some [] else cwd)
  (components p).foldlM move start

/-- The same, but once an error has happened it stays. -/
def followStrict (cwd : Loc) (p : Str) : Option Loc :=
  (components p).foldlM move (if p.head? = some 47 then [] else cwd)

/-! ## Lemmas -/

theorem segs_ne_nil (p : Str) : segs p ≠ [] := by
  cases p with
  | nil => simp [segs]
  | cons c cs =>
    simp only [segs]; split
    · simp
    · split <;> simp

theorem segs_slash (p : Str) : segs (47 :: p) = [] :: segs p := by simp [segs]

/-- Slash-free prefix up to a slash or the end. -/
theorem segs_split (a b : Str) (ha : 47 ∉ a) : segs (a ++ 47 :: b) = a :: segs b := by
  induction a with
  | nil => simp [segs]
  | cons c cs ih =>
    have hc : c ≠ 47 := by rintro rfl; simp at ha
    simp only [List.cons_append, segs, if_neg hc]
    rw [ih (by intro h; exact ha (by simp [h]))]

theorem segs_noslash (a : Str) (ha : 47 ∉ a) : segs a = [a] := by
  induction a with
  | nil => rfl
  | cons c cs ih =>
    have hc : c ≠ 47 := by rintro rfl; simp at ha
    simp only [segs, if_neg hc]
    rw [ih (by intro h; exact ha (by simp [h]))]

theorem components_slash (p : Str) : components (47 :: p) = components p := by
  simp [components, segs_slash]

theorem components_dropSlash (p : Str) : components (p.dropWhile (· == 47)) = components p := by
  induction p with
  | nil => rfl
  | cons c cs ih =>
    by_cases hc : c = 47
    · subst hc
      rw [List.dropWhile_cons_of_pos (by simp), ih, components_slash]
    · rw [List.dropWhile_cons_of_neg (by simpa using hc)]

theorem takeWhile_noslash (p : Str) : 47 ∉ p.takeWhile (· != 47) := by
  have : ∀ x ∈ p.takeWhile (· != 47), x ≠ 47 := by
    induction p with
    | nil => simp
    | cons c cs ih =>
      intro x hx
      by_cases hc : c = 47
      · rw [List.takeWhile_cons_of_neg (by simpa using hc)] at hx; cases hx
      · rw [List.takeWhile_cons_of_pos (by simpa using hc)] at hx
        rcases List.mem_cons.1 hx with rfl | hx
        · exact hc
        · exact ih x hx
  exact fun h => this 47 h rfl

theorem dropWhile_cases (p : Str) :
    p.dropWhile (· != 47) = [] ∨ ∃ b, p.dropWhile (· != 47) = 47 :: b := by
  cases h : p.dropWhile (· != 47) with
  | nil => exact .inl rfl
  | cons c cs =>
    right
    have := List.head?_dropWhile_not (· != 47) p
    rw [h] at this
    simp at this
    exact ⟨cs, by rw [this]⟩

theorem comps_eq (p : Str) : comps p = components p := by
  induction hn : p.length using Nat.strongRecOn generalizing p with
  | ind n ih =>
    rw [← components_dropSlash]
    rw [comps]
    split
    · rename_i h; simp [h, components, segs]
    · rename_i c cs h
      have hc : c ≠ 47 := by
        intro hc
        have := List.head?_dropWhile_not (· == 47) p
        rw [h] at this
        simp [hc] at this
      have hlen : ((c :: cs).dropWhile (· != 47)).length < n := by
        have h1 := dropWhile_len (· == 47) p
        rw [h] at h1
        rw [List.dropWhile_cons_of_pos (by simpa using hc)]
        have := dropWhile_len (· != 47) cs
        simp at h1; omega
      rw [ih _ hlen _ rfl, h]
      have hne : (c :: cs).takeWhile (· != 47) ≠ [] := by
        rw [List.takeWhile_cons_of_pos (by simpa using hc)]; simp
      conv => rhs; rw [← List.takeWhile_append_dropWhile (p := (· != 47)) (l := c :: cs)]
      rcases dropWhile_cases (c :: cs) with h0 | ⟨b, hb⟩
      · rw [h0, List.append_nil]
        simp only [components, segs_noslash _ (takeWhile_noslash _)]
        rw [List.filter_cons_of_pos (by simpa using hne)]
        simp [segs]
      · rw [hb, components_slash]
        simp only [components, segs_split _ _ (takeWhile_noslash _)]
        rw [List.filter_cons_of_pos (by simpa using hne)]

/-- A file name: not empty, no slash. -/
def IsSeg (s : Str) : Prop := s ≠ [] ∧ 47 ∉ s
/-- A proper name: also neither `.` nor `..`. -/
def IsName (s : Str) : Prop := IsSeg s ∧ s ≠ dot ∧ s ≠ dotdot

theorem segs_noslash_mem (p : Str) : ∀ s ∈ segs p, 47 ∉ s := by
  induction p with
  | nil => simp [segs]
  | cons c cs ih =>
    simp only [segs]
    split
    · intro s hs; rcases List.mem_cons.1 hs with rfl | h
      · simp
      · exact ih s h
    · rename_i hc
      cases h : segs cs with
      | nil => exact absurd h (segs_ne_nil cs)
      | cons x xs =>
        rw [h] at ih
        intro s hs
        rcases List.mem_cons.1 hs with rfl | hs
        · have := ih x (by simp)
          simp only [List.mem_cons, not_or]; exact ⟨Ne.symm hc, this⟩
        · exact ih s (by simp [hs])

theorem components_isSeg (p : Str) : ∀ s ∈ components p, IsSeg s := by
  intro s hs
  simp only [components, List.mem_filter, decide_eq_true_eq] at hs
  exact ⟨by simpa using hs.2, segs_noslash_mem p s hs.1⟩

theorem intercalate_cons2 (a b : Str) (l : List Str) :
    sbJoin (a :: b :: l) = a ++ 47 :: sbJoin (b :: l) := by
  simp [sbJoin, List.intercalate]

theorem segs_sbJoin (l : List Str) (h : ∀ s ∈ l, 47 ∉ s) (hne : l ≠ []) : segs (sbJoin l) = l := by
  induction l with
  | nil => contradiction
  | cons a l ih =>
    cases l with
    | nil => simpa [sbJoin, List.intercalate] using segs_noslash a (h a (by simp))
    | cons b l =>
      rw [intercalate_cons2, segs_split _ _ (h a (by simp)), ih (fun s hs => h s (by simp [hs])) (by simp)]

theorem components_sbJoin (l : List Str) (h : ∀ s ∈ l, IsSeg s) : components (sbJoin l) = l := by
  cases l with
  | nil => simp [sbJoin, List.intercalate, components, segs]
  | cons a l =>
    rw [components, segs_sbJoin _ (fun s hs => (h s hs).2) (by simp)]
    exact List.filter_eq_self.2 (fun s hs => by simpa using (h s hs).1)

theorem sbJoin_head (l : List Str) (h : ∀ s ∈ l, IsSeg s) : (sbJoin l).head? ≠ some 47 := by
  cases l with
  | nil => simp [sbJoin, List.intercalate]
  | cons a l =>
    obtain ⟨ha, hs⟩ := h a (by simp)
    obtain ⟨x, xs, rfl⟩ := List.exists_cons_of_ne_nil ha
    have hx : x ≠ 47 := by rintro rfl; simp at hs
    cases l with
    | nil => simpa [sbJoin, List.intercalate] using hx
    | cons b l => rw [intercalate_cons2]; simpa using hx

/-- What a state means for a given current directory. -/
def den (st : St) (cwd : Loc) : Option Loc :=
  if st.top = .rootdir then some st.elems
  else if st.parent ≤ cwd.length then some (cwd.take (cwd.length - st.parent) ++ st.elems)
  else none

def Inv (st : St) : Prop := (st.top = .rootdir → st.parent = 0) ∧ ∀ s ∈ st.elems, IsName s

theorem isSeg_dot : IsSeg dot := by simp [IsSeg, dot]
theorem isSeg_dotdot : IsSeg dotdot := by simp [IsSeg, dotdot]

theorem step_spec {st st' : St} {c : Str} (hi : Inv st) (hc : IsSeg c) (h : step st c = some st') :
    Inv st' ∧ (∀ cwd, den st' cwd = (den st cwd).bind (move · c)) ∧ st'.parent ≤ st.parent + 1 ∧
      st.parent ≤ st'.parent := by
  unfold step at h
  split at h
  · rename_i hd
    cases h
    split
    · rename_i ht
      refine ⟨⟨by simp, hi.2⟩, fun cwd => ?_, by simp, by simp⟩
      simp only [den, ht.2, move, if_pos hd]
      simp
    · refine ⟨hi, fun cwd => ?_, by omega, by omega⟩
      simp [move, if_pos hd]
  · rename_i hd
    split at h
    · rename_i hdd
      split at h
      · rename_i hne
        cases h
        refine ⟨⟨hi.1, fun s hs => hi.2 s ((List.dropLast_sublist _).mem hs)⟩, fun cwd => ?_, by simp, by simp⟩
        simp only [den, move, if_neg hd, if_pos hdd]
        split
        · simp [hne]
        · split
          · simp [hne, List.dropLast_append_of_ne_nil]
          · rfl
      · rename_i he
        simp only [ne_eq, Decidable.not_not] at he
        split at h
        · cases h
        · rename_i hr
          cases h
          refine ⟨⟨by simp, hi.2⟩, fun cwd => ?_, by simp, by simp⟩
          simp only [den, if_neg hr, he, List.append_nil]
          rw [if_neg (by simp)]
          by_cases h1 : st.parent + 1 ≤ cwd.length
          · rw [if_pos h1, if_pos (by omega)]
            simp only [Option.bind_some, move, if_neg hd, if_pos hdd]
            rw [if_neg (by
              intro h0
              have := congrArg List.length h0
              simp at this; omega)]
            congr 1
            rw [List.dropLast_eq_take, List.take_take, List.length_take]
            congr 1; omega
          · rw [if_neg h1]
            split
            · rename_i h2
              have : cwd.length - st.parent = 0 := by omega
              simp [this, move, if_neg hd, if_pos hdd]
            · rfl
    · rename_i hdd
      cases h
      refine ⟨⟨hi.1, ?_⟩, fun cwd => ?_, by simp, by simp⟩
      · intro s hs
        rcases List.mem_append.1 hs with h | h
        · exact hi.2 s h
        · simp at h; subst h; exact ⟨hc, hd, hdd⟩
      · simp only [den, move, if_neg hd, if_neg hdd]
        split
        · rfl
        · split <;> simp

theorem step_none {st : St} {c : Str} (hi : Inv st) (h : step st c = none) (cwd : Loc) :
    (den st cwd).bind (move · c) = none := by
  unfold step at h
  split at h
  · cases h
  · rename_i hd
    split at h
    · rename_i hdd
      split at h
      · cases h
      · rename_i he
        simp only [ne_eq, Decidable.not_not] at he
        split at h
        · rename_i hr
          simp [den, hr, he, move, if_neg hd, if_pos hdd]
        · cases h
    · cases h

theorem foldlM_bind_none {α β : Type} (f : β → α → Option β) (l : List α) (x : Option β) (h : x = none) :
    x.bind (fun b => l.foldlM f b) = none := by subst h; rfl

theorem steps_spec (l : List Str) (hl : ∀ c ∈ l, IsSeg c) {st st' : St} (hi : Inv st)
    (h : l.foldlM step st = some st') :
    Inv st' ∧ (∀ cwd, den st' cwd = (den st cwd).bind (fun d => l.foldlM move d)) ∧
      st'.parent ≤ st.parent + l.length := by
  induction l generalizing st with
  | nil =>
    simp only [List.foldlM_nil, Option.pure_def, Option.some.injEq] at h
    subst h
    exact ⟨hi, fun cwd => by simp, by simp⟩
  | cons c cs ih =>
    simp only [List.foldlM_cons, Option.bind_eq_bind, Option.bind_eq_some_iff] at h
    obtain ⟨st1, h1, h2⟩ := h
    obtain ⟨hi1, hd1, hp1, _⟩ := step_spec hi (hl c (by simp)) h1
    obtain ⟨hi2, hd2, hp2⟩ := ih (fun x hx => hl x (by simp [hx])) hi1 h2
    refine ⟨hi2, fun cwd => ?_, by simp; omega⟩
    rw [hd2, hd1, Option.bind_assoc]
    rfl

theorem steps_none (l : List Str) (hl : ∀ c ∈ l, IsSeg c) {st : St} (hi : Inv st)
    (h : l.foldlM step st = none) (cwd : Loc) :
    (den st cwd).bind (fun d => l.foldlM move d) = none := by
  induction l generalizing st with
  | nil => simp at h
  | cons c cs ih =>
    simp only [List.foldlM_cons, Option.bind_eq_bind] at h ⊢
    rw [← Option.bind_assoc]
    cases h1 : step st c with
    | none => rw [step_none hi h1]; rfl
    | some st1 =>
      obtain ⟨hi1, hd1, _, _⟩ := step_spec hi (hl c (by simp)) h1
      rw [h1] at h
      rw [← hd1]
      exact ih (fun x hx => hl x (by simp [hx])) hi1 h

/-- State at the start of a path. -/
def start (st : St) (p : Str) : St :=
  if p.head? = some 47 then { elems := [], parent := 0, top := .rootdir } else st

theorem joinOne_eq (st : St) (p : Str) : joinOne st p = (components p).foldlM step (start st p) := by
  rw [joinOne, comps_eq]; rfl

theorem start_inv {st : St} (hi : Inv st) (p : Str) : Inv (start st p) := by
  unfold start; split
  · exact ⟨by simp, by simp⟩
  · exact hi

theorem start_den (st : St) (p : Str) (cwd : Loc) :
    den (start st p) cwd = (if p.head? = some 47 then some [] else den st cwd) := by
  unfold start; split <;> simp [den]

theorem joinOne_spec {st st' : St} (hi : Inv st) (p : Str) (h : joinOne st p = some st') :
    Inv st' ∧ (∀ cwd, den st' cwd = follow (den st cwd) p) ∧
      st'.parent ≤ st.parent + (components p).length := by
  rw [joinOne_eq] at h
  obtain ⟨h1, h2, h3⟩ := steps_spec _ (components_isSeg p) (start_inv hi p) h
  refine ⟨h1, fun cwd => ?_, ?_⟩
  · rw [h2, start_den]; rfl
  · have : (start st p).parent ≤ st.parent := by unfold start; split <;> simp
    omega

theorem joins_spec (ps : List Str) {st st' : St} (hi : Inv st) (h : ps.foldlM joinOne st = some st') :
    Inv st' ∧ ∀ cwd, den st' cwd = ps.foldl follow (den st cwd) := by
  induction ps generalizing st with
  | nil =>
    simp only [List.foldlM_nil, Option.pure_def, Option.some.injEq] at h
    subst h
    exact ⟨hi, fun cwd => rfl⟩
  | cons p ps ih =>
    simp only [List.foldlM_cons, Option.bind_eq_bind, Option.bind_eq_some_iff] at h
    obtain ⟨st1, h1, h2⟩ := h
    obtain ⟨hi1, hd1, _⟩ := joinOne_spec hi p h1
    obtain ⟨hi2, hd2⟩ := ih hi1 h2
    exact ⟨hi2, fun cwd => by rw [hd2, hd1]; rfl⟩

theorem inv_init : Inv {} := ⟨by simp, by simp⟩
theorem den_init (cwd : Loc) : den {} cwd = some cwd := by simp [den]

theorem moves_names (l : List Str) (h : ∀ s ∈ l, IsName s) (d : Loc) :
    l.foldlM move d = some (d ++ l) := by
  induction l generalizing d with
  | nil => simp
  | cons a l ih =>
    obtain ⟨_, h1, h2⟩ := h a (by simp)
    simp only [List.foldlM_cons, move, if_neg h1, if_neg h2, Option.bind_eq_bind, Option.bind_some]
    rw [ih (fun s hs => h s (by simp [hs]))]; simp

theorem moves_ups (n : Nat) (d : Loc) :
    (List.replicate n dotdot).foldlM move d =
      if n ≤ d.length then some (d.take (d.length - n)) else none := by
  induction n generalizing d with
  | zero => simp
  | succ n ih =>
    simp only [List.replicate_succ, List.foldlM_cons, Option.bind_eq_bind]
    have : move d dotdot = if d = [] then none else some d.dropLast := by
      simp [move, dot, dotdot]
    rw [this]
    split
    · rename_i h; subst h; simp
    · rename_i h
      have hpos : d.length > 0 := List.length_pos_iff.2 h
      simp only [Option.bind_some, ih, List.length_dropLast]
      by_cases hle : n + 1 ≤ d.length
      · rw [if_pos hle, if_pos (by omega), List.dropLast_eq_take, List.take_take]
        congr 2; omega
      · rw [if_neg hle, if_neg (by omega)]

/-- The components of the final result. -/
def finalComps (st : St) : List Str :=
  (if st.top = .curdir then [dot] else []) ++ (List.replicate st.parent dotdot ++ st.elems)

theorem elems_isSeg {st : St} (hi : Inv st) :
    ∀ s ∈ List.replicate st.parent dotdot ++ st.elems, IsSeg s := by
  intro s hs
  rcases List.mem_append.1 hs with h | h
  · rw [(List.mem_replicate.1 h).2]; exact isSeg_dotdot
  · exact (hi.2 s h).1

/-- Rendering and re-parsing the result. -/
theorem render_spec {st : St} (hi : Inv st) {s : Str}
    (h : (let elems := List.replicate st.parent dotdot ++ st.elems
          let elems := match st.top with
            | .curdir => dot :: elems
            | .rootdir => (if elems.length > 0 then [] else [47]) :: elems
            | .other => elems
          sbJoin elems) = s) :
    components s = finalComps st ∧ (s.head? = some 47 ↔ st.top = .rootdir) := by
  subst h
  have hs := elems_isSeg hi
  simp only
  unfold finalComps
  generalize hg : List.replicate st.parent dotdot ++ st.elems = es at hs ⊢
  cases ht : st.top with
  | other => simpa [components_sbJoin es hs] using sbJoin_head es hs
  | curdir =>
    have hs' : ∀ s ∈ dot :: es, IsSeg s := by
      intro s h; rcases List.mem_cons.1 h with rfl | h
      · exact isSeg_dot
      · exact hs s h
    simpa [components_sbJoin _ hs'] using sbJoin_head _ hs'
  | rootdir =>
    cases es with
    | nil => simp [sbJoin, List.intercalate, components, segs]
    | cons a l =>
      simp only [List.length_cons, gt_iff_lt, Nat.zero_lt_succ, if_true, intercalate_cons2]
      simp [components_slash, components_sbJoin _ hs]

/-! ## Theorems -/

/-- **C19.** Whatever the current directory, following the single path returned by
`join_paths` leads to the same directory (or to the same failure) as following the
given paths one after the other. -/
theorem joinPaths_follow (ps : List Str) (s : Str) (h : joinPaths ps = some s) (cwd : Loc) :
    follow (some cwd) s = ps.foldl follow (some cwd) := by
  simp only [joinPaths, Option.bind_eq_bind, Option.bind_eq_some_iff, Option.some.injEq] at h
  obtain ⟨st, hst, hr⟩ := h
  obtain ⟨hi, hd⟩ := joins_spec ps inv_init hst
  obtain ⟨hc, hroot⟩ := render_spec hi hr
  rw [← den_init cwd, ← hd, den_init]
  simp only [follow, hc, finalComps, Option.bind_eq_bind]
  by_cases ht : st.top = .rootdir
  · rw [if_pos (hroot.2 ht)]
    simp [ht, hi.1 ht, moves_names _ hi.2, den]
  · rw [if_neg (fun hh => ht (hroot.1 hh))]
    have hdot : ∀ l : List Str, ((if st.top = .curdir then [dot] else []) ++ l).foldlM move cwd = l.foldlM move cwd := by
      intro l; split
      · simp [List.foldlM_cons, move]
      · rfl
    rw [Option.bind_some, hdot, List.foldlM_append, moves_ups]
    simp only [den, if_neg ht, Option.bind_eq_bind]
    split
    · simp [moves_names _ hi.2]
    · rfl

/-- **C19.** The result is in normal form: an optional leading `.`, then a block of
`..`, then proper names; an absolute result has no `.` and no `..` at all. -/
theorem joinPaths_normal (ps : List Str) (s : Str) (h : joinPaths ps = some s) :
    ∃ (d : List Str) (k : Nat) (names : List Str), components s = d ++ (List.replicate k dotdot ++ names) ∧
      (d = [] ∨ d = [dot]) ∧ (∀ n ∈ names, n ≠ dot ∧ n ≠ dotdot) ∧
      (s.head? = some 47 → d = [] ∧ k = 0) := by
  simp only [joinPaths, Option.bind_eq_bind, Option.bind_eq_some_iff, Option.some.injEq] at h
  obtain ⟨st, hst, hr⟩ := h
  obtain ⟨hi, _⟩ := joins_spec ps inv_init hst
  obtain ⟨hc, hroot⟩ := render_spec hi hr
  refine ⟨_, st.parent, st.elems, hc, ?_, fun n hn => (hi.2 n hn).2, ?_⟩
  · split <;> simp
  · intro hh
    have ht := hroot.1 hh
    exact ⟨by simp [ht], hi.1 ht⟩

theorem joins_none (ps : List Str) {st : St} (hi : Inv st) (h : ps.foldlM joinOne st = none) (cwd : Loc) :
    (den st cwd).bind (fun d => ps.foldlM followStrict d) = none := by
  induction ps generalizing st with
  | nil => simp at h
  | cons p ps ih =>
    cases hdn : den st cwd with
    | none => rfl
    | some d =>
      simp only [List.foldlM_cons, Option.bind_eq_bind, Option.bind_some] at h ⊢
      have hfs : followStrict d p = (den (start st p) cwd).bind (fun d => (components p).foldlM move d) := by
        rw [start_den, hdn, followStrict]; split <;> rfl
      cases h1 : joinOne st p with
      | none =>
        rw [joinOne_eq] at h1
        have := steps_none _ (components_isSeg p) (start_inv hi p) h1 cwd
        rw [hfs, this]; rfl
      | some st1 =>
        rw [h1] at h
        rw [joinOne_eq] at h1
        obtain ⟨hi1, hd1, _⟩ := steps_spec _ (components_isSeg p) (start_inv hi p) h1
        rw [hfs, ← hd1]
        exact ih hi1 h

/-- Total number of components. -/
def total (ps : List Str) : Nat := (ps.map fun p => (components p).length).sum

theorem joins_some (ps : List Str) {st st' : St} (hi : Inv st) (h : ps.foldlM joinOne st = some st')
    (cwd : Loc) (hlen : st.parent + total ps ≤ cwd.length) :
    ((den st cwd).bind (fun d => ps.foldlM followStrict d)).isSome := by
  have hsome : ∀ st : St, st.parent ≤ cwd.length → ∃ d, den st cwd = some d := by
    intro st h; unfold den; rw [if_pos h]; split
    · exact ⟨_, rfl⟩
    · exact ⟨_, rfl⟩
  induction ps generalizing st with
  | nil =>
    obtain ⟨d, hd⟩ := hsome st (by omega)
    simp [hd]
  | cons p ps ih =>
    simp only [total, List.map_cons, List.sum_cons] at hlen
    simp only [List.foldlM_cons, Option.bind_eq_bind, Option.bind_eq_some_iff] at h ⊢
    obtain ⟨st1, h1, h2⟩ := h
    obtain ⟨d, hd⟩ := hsome st (by omega)
    obtain ⟨hi1, hd1, hp⟩ := joinOne_spec hi p h1
    have hfs : followStrict d p = den st1 cwd := by
      rw [hd1, hd, followStrict, follow]; split <;> rfl
    rw [hd, Option.bind_some, hfs]
    exact ih hi1 h2 (by unfold total; omega)

/-- **C19.** `join_paths` fails exactly when the paths cannot be followed from *any*
directory, i.e. when some `..` climbs above the root after an absolute path; it never
silently clips such a `..`. -/
theorem joinPaths_none_iff (ps : List Str) :
    joinPaths ps = none ↔ ∀ cwd : Loc, ps.foldlM followStrict cwd = none := by
  have hj : joinPaths ps = none ↔ ps.foldlM joinOne {} = none := by
    unfold joinPaths
    cases ps.foldlM joinOne {} <;> simp
  rw [hj]
  constructor
  · intro h cwd
    have := joins_none ps inv_init h cwd
    rwa [den_init] at this
  · intro h
    cases hs : ps.foldlM joinOne {} with
    | none => rfl
    | some st =>
      have := joins_some ps inv_init hs (List.replicate (total ps) dot) (by simp)
      rw [den_init, Option.bind_some, h] at this
      simp at this

theorem fullScan_spec (p : Str) (s : Str) (ss : List Str) (h : segs p = s :: ss) :
    fullScan p = decide (dotdot ∉ ss) := by
  induction hn : p.length using Nat.strongRecOn generalizing p s ss with
  | ind n ih =>
    unfold fullScan
    split
    · rename_i rest
      have hseg : segs (46 :: 46 :: rest) = match segs rest with
          | [] => [] | x :: xs => (46 :: 46 :: x) :: xs := by
        cases hr : segs rest with
        | nil => exact absurd hr (segs_ne_nil _)
        | cons x xs => simp [segs, hr]
      rw [segs_slash, hseg] at h
      cases hr : segs rest with
      | nil => exact absurd hr (segs_ne_nil _)
      | cons x xs =>
        rw [hr] at h
        simp only [List.cons.injEq] at h
        obtain ⟨_, hss⟩ := h
        subst hss
        have hx : (rest.head? = some 47 ∨ rest = []) ↔ x = [] := by
          cases rest with
          | nil => simp [segs] at hr; simp [hr.1]
          | cons c cs =>
            by_cases hc : c = 47
            · subst hc; rw [segs_slash] at hr; simp at hr; simp [hr.1]
            · simp only [segs, if_neg hc] at hr
              cases hcs : segs cs with
              | nil => exact absurd hcs (segs_ne_nil _)
              | cons y ys => rw [hcs] at hr; simp at hr; simp [hc, ← hr.1]
        split
        · rename_i hcond
          have := hx.1 hcond
          simp [this, dotdot]
        · rename_i hcond
          have hxne : x ≠ [] := fun h => hcond (hx.2 h)
          rw [ih rest.length (by subst hn; simp; omega) rest x xs hr rfl]
          have : dotdot ≠ 46 :: 46 :: x := by simp [dotdot]; exact hxne
          simp [this]
    · rename_i c rest hnot
      by_cases hc : c = 47
      · subst hc
        rw [segs_slash] at h
        simp only [List.cons.injEq] at h
        obtain ⟨_, hss⟩ := h
        cases hr : segs rest with
        | nil => exact absurd hr (segs_ne_nil _)
        | cons x xs =>
          rw [ih rest.length (by subst hn; simp) rest x xs hr rfl, ← hss, hr]
          have : dotdot ≠ x := by
            rintro rfl
            cases rest with
            | nil => simp [segs, dotdot] at hr
            | cons a r1 =>
              have ha : a ≠ 47 := by rintro rfl; rw [segs_slash] at hr; simp [dotdot] at hr
              simp only [segs, if_neg ha] at hr
              cases h1 : segs r1 with
              | nil => exact absurd h1 (segs_ne_nil _)
              | cons y ys =>
                rw [h1] at hr; simp only [dotdot, List.cons.injEq] at hr
                obtain ⟨⟨ha46, hy⟩, _⟩ := hr
                cases r1 with
                | nil => simp [segs] at h1; rw [← h1.1] at hy; cases hy
                | cons b r2 =>
                  have hb : b ≠ 47 := by
                    rintro rfl; rw [segs_slash] at h1; simp at h1; rw [← h1.1] at hy; cases hy
                  simp only [segs, if_neg hb] at h1
                  cases h2 : segs r2 with
                  | nil => exact absurd h2 (segs_ne_nil _)
                  | cons z zs =>
                    rw [h2] at h1; simp only [List.cons.injEq] at h1
                    rw [← h1.1] at hy; simp only [List.cons.injEq] at hy
                    exact hnot r2 rfl (by rw [ha46, hy.1])
          simp [this]
      · simp only [segs, if_neg hc] at h
        cases hr : segs rest with
        | nil => exact absurd hr (segs_ne_nil _)
        | cons x xs =>
          rw [hr] at h; simp only [List.cons.injEq] at h
          rw [ih rest.length (by subst hn; simp) rest x xs hr rfl, h.2]
    · simp [segs] at h; simp [h.2]

/-- **C19.** `is_fullpath` accepts exactly the absolute paths without a `..` component. -/
theorem isFullpath_iff (p : Str) :
    isFullpath p = true ↔ p.head? = some 47 ∧ dotdot ∉ components p := by
  unfold isFullpath
  by_cases hh : p.head? = some 47
  · rw [if_neg (by simpa using hh)]
    cases p with
    | nil => simp at hh
    | cons c cs =>
      simp at hh; subst hh
      rw [fullScan_spec (47 :: cs) [] (segs cs) (segs_slash cs)]
      rw [decide_eq_true_iff]
      simp [components, segs_slash, dotdot]
  · simp [hh]

/-- Non-vacuity: `join_paths("/a/b", "../c")` is `/a/c`; `("x", "../../y")` is `../y`;
`("/", "..")` is rejected. -/
example : joinPaths [[47, 97, 47, 98], [46, 46, 47, 99]] = some [47, 97, 47, 99] := by
  simp [joinPaths, joinOne, comps_eq, components, segs, step, dot, dotdot, sbJoin, List.intercalate]
example : joinPaths [[120], [46, 46, 47, 46, 46, 47, 121]] = some [46, 46, 47, 121] := by
  simp [joinPaths, joinOne, comps_eq, components, segs, step, dot, dotdot, sbJoin, List.intercalate]
example : joinPaths [[47], [46, 46]] = none := by
  simp [joinPaths, joinOne, comps_eq, components, segs, step, dot, dotdot]

end Verif.Path

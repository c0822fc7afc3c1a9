/-!
# Logical source lines

src/util/util.c `getline_chomp`, `getline_cat`, `getline_cont`: how the
preprocessor and the compiler read lines.  The file is the list of its bytes;
memory is there.
-/

namespace Verif.Lines

/-! ## Model -/

/-- `getline` as src/util/util.c:106 calls it: the next line with its newline, and
the rest; `none` is -1. -/
def getline (t : List Nat) : Option (List Nat × List Nat) :=
  match t with
  | [] => none
  | _ => match t.dropWhile (· ≠ 10) with
    | [] => some (t, [])
    | c :: r => some (t.takeWhile (· ≠ 10) ++ [c], r)

/-- The last byte is `c`: the tests at src/util/util.c:110,112,143. -/
def ends (c : Nat) (l : List Nat) : Bool := l.getLast? = some c

/-- `getline_chomp`, src/util/util.c:105-116. -/
def chomped (t : List Nat) : Option (List Nat × List Nat) :=
  match getline t with
  | none => none
  | some (l, r) =>
    let l := if ends 10 l then l.dropLast else l
    some (if ends 13 l then l.dropLast else l, r)

theorem getline_lt {t l r : List Nat} (h : getline t = some (l, r)) : r.length < t.length := by
  cases t with
  | nil => cases h
  | cons a t =>
    simp only [getline] at h
    have hs : ((a :: t).dropWhile (· ≠ 10)).length ≤ (a :: t).length := (List.dropWhile_sublist _).length_le
    split at h
    · simp only [Option.some.injEq, Prod.mk.injEq] at h
      rw [← h.2]
      simp
    · rename_i c r' hd
      simp only [Option.some.injEq, Prod.mk.injEq] at h
      rw [hd] at hs
      rw [← h.2]
      simp only [List.length_cons] at hs ⊢
      omega

theorem chomped_lt {t l r : List Nat} (h : chomped t = some (l, r)) : r.length < t.length := by
  simp only [chomped] at h
  split at h
  · cases h
  · rename_i hg
    simp only [Option.some.injEq, Prod.mk.injEq] at h
    have := getline_lt hg
    rw [← h.2]
    exact this

/-- The loop of `getline_cont` with `getline_cat`, src/util/util.c:118-149: the
line, the number of lines read and the rest. -/
def cont (acc : List Nat) (n : Nat) (t : List Nat) : List Nat × Nat × List Nat :=
  if ends 92 acc then
    match h : chomped t with
    | none => (acc.dropLast, n + 1, t)
    | some (l, r) => cont (acc.dropLast ++ l) (n + 1) r
  else (acc, n + 1, t)
termination_by t.length
decreasing_by exact chomped_lt h

/-- `getline_cont`, src/util/util.c:138-153.  `n` is `*plineno`. -/
def getlineCont (n : Nat) (t : List Nat) : Option (List Nat × Nat × List Nat) :=
  match chomped t with
  | none => none
  | some (l, r) => some (cont l n r)

/-- The loop of the readers, src/cpp/preprocessor.c:803, src/cc/frontend/lexer.c:310:
the lines with the line number after each.  `fuel` bounds their number. -/
def readAll : Nat → Nat → List Nat → List (List Nat × Nat)
  | 0, _, _ => []
  | fuel + 1, n, t => match getlineCont n t with
    | none => []
    | some (l, m, r) => (l, m) :: readAll fuel m r

/-! ## Specification: C11 5.1.1.2, phase 2 -/

/-- Each backslash immediately followed by a newline is deleted. -/
def splice : List Nat → List Nat
  | 92 :: 10 :: t => splice t
  | c :: t => c :: splice t
  | [] => []

/-- The lines of a text in which every line ends with a newline. -/
def linesOf : List Nat → List (List Nat)
  | [] => []
  | 10 :: t => [] :: linesOf t
  | c :: t => match linesOf t with
    | [] => [[c]]
    | l :: ls => (c :: l) :: ls

/-- The text of physical lines. -/
def text (ls : List (List Nat)) : List Nat := (ls.map (· ++ [10])).flatten

/-- A physical line: no newline inside, no carriage return at the end. -/
def LineOk (l : List Nat) : Prop := 10 ∉ l ∧ l.getLast? ≠ some 13

/-- The file does not end with a continued line, which C does not define.  And
(see `backslash_before_empty`) the line before an empty one that continues it has
something other than a backslash before its last. -/
def FileOk : List (List Nat) → Prop
  | [] => True
  | [l] => LineOk l ∧ ends 92 l = false
  | l :: l' :: ls => LineOk l ∧
      (ends 92 l = true → l' = [] → ∃ c, l.dropLast.getLast? = some c ∧ c ≠ 92) ∧ FileOk (l' :: ls)

/-! ## One line -/

theorem ends_append {c : Nat} {a l : List Nat} (h : l ≠ []) : ends c (a ++ l) = ends c l := by
  simp [ends, h]

theorem getline_text {l : List Nat} (h : 10 ∉ l) (r : List Nat) :
    getline (l ++ 10 :: r) = some (l ++ [10], r) := by
  have hl : ∀ x ∈ l, decide (x ≠ 10) = true := by
    intro x hx
    have : x ≠ 10 := by
      rintro rfl
      exact h hx
    simpa using this
  have h1 : (l ++ 10 :: r).dropWhile (· ≠ 10) = 10 :: r := by
    rw [List.dropWhile_append_of_pos hl]
    rfl
  have h2 : (l ++ 10 :: r).takeWhile (· ≠ 10) = l := by
    rw [List.takeWhile_append_of_pos hl]
    simp
  have h3 : ∃ a b, l ++ 10 :: r = a :: b := by
    cases l with
    | nil => exact ⟨_, _, rfl⟩
    | cons a b => exact ⟨_, _, rfl⟩
  obtain ⟨a, b, h3⟩ := h3
  rw [h3] at h1 h2 ⊢
  simp only [getline, h1, h2]

theorem chomped_text {l : List Nat} (h : LineOk l) (r : List Nat) : chomped (l ++ 10 :: r) = some (l, r) := by
  have h1 : ends 10 (l ++ [10]) = true := by simp [ends]
  have h2 : ends 13 l = false := by
    simp only [ends, decide_eq_false_iff_not]
    exact h.2
  simp only [chomped, getline_text h.1, h1, if_true, List.dropLast_concat, h2, Bool.false_eq_true, if_false]

/-- Joining physical lines: the line, how many, and those left. -/
def join : List (List Nat) → List Nat × Nat × List (List Nat)
  | [] => ([], 0, [])
  | l :: ls => if ends 92 l then (l.dropLast ++ (join ls).1, 1 + (join ls).2.1, (join ls).2.2) else (l, 1, ls)

theorem text_cons (l : List Nat) (ls : List (List Nat)) : text (l :: ls) = l ++ 10 :: text ls := by
  simp [text]

theorem dropLast_append {pre l : List Nat} (h : l ≠ []) : (pre ++ l).dropLast = pre ++ l.dropLast :=
  List.dropLast_append_of_ne_nil h

theorem FileOk.line {l : List Nat} {ls : List (List Nat)} (h : FileOk (l :: ls)) : LineOk l := by
  cases ls with
  | nil => exact h.1
  | cons l' ls => exact h.1

theorem FileOk.tail {l : List Nat} {ls : List (List Nat)} (h : FileOk (l :: ls)) : FileOk ls := by
  cases ls with
  | nil => trivial
  | cons l' ls => exact h.2.2

theorem cont_join : ∀ (ls : List (List Nat)) (l pre : List Nat) (n : Nat), FileOk (l :: ls) →
    (l = [] → ends 92 pre = false) →
    cont (pre ++ l) n (text ls) = (pre ++ (join (l :: ls)).1, n + (join (l :: ls)).2.1, text (join (l :: ls)).2.2)
  | ls, l, pre, n, h, hp => by
    by_cases he : ends 92 l = true
    · have hl : l ≠ [] := by
        rintro rfl
        simp [ends] at he
      have hacc : ends 92 (pre ++ l) = true := by rw [ends_append hl, he]
      cases ls with
      | nil =>
        rw [h.2] at he
        cases he
      | cons l' ls' =>
        have hch := chomped_text (h.tail.line) (text ls')
        rw [← text_cons] at hch
        rw [cont.eq_def, if_pos hacc]
        have ih := cont_join ls' l' (pre ++ l.dropLast) (n + 1) h.tail (by
          intro hl'
          obtain ⟨c, hc, hne⟩ := h.2.1 he hl'
          have hnil : l.dropLast ≠ [] := by
            intro h0
            rw [h0] at hc
            cases hc
          rw [ends_append hnil, ends, hc]
          simpa using hne)
        split
        · rename_i hn
          rw [hch] at hn
          cases hn
        · rename_i a b hs
          rw [hch] at hs
          simp only [Option.some.injEq, Prod.mk.injEq] at hs
          rw [← hs.1, ← hs.2, dropLast_append hl, ih, join.eq_def (l :: l' :: ls')]
          simp only [he, if_true, List.append_assoc, Prod.mk.injEq, true_and, and_true]
          omega
    · have hacc : ends 92 (pre ++ l) = false := by
        cases hl : l with
        | nil => rw [List.append_nil]; exact hp hl
        | cons a b =>
          rw [← hl, ends_append (by rw [hl]; simp)]
          simpa using he
      rw [cont.eq_def, hacc]
      simp [join, he]

theorem splice_line {l : List Nat} (h : 10 ∉ l) (t : List Nat) :
    splice (l ++ 10 :: t) = if ends 92 l then l.dropLast ++ splice t else l ++ 10 :: splice t := by
  induction l with
  | nil => simp [splice, ends]
  | cons c l ih =>
    have hc : c ≠ 10 := by
      rintro rfl
      simp at h
    have hl : 10 ∉ l := fun hx => h (by simp [hx])
    cases l with
    | nil =>
      by_cases h92 : c = 92
      · subst h92
        simp [splice, ends]
      · simp [splice, ends, h92]
    | cons d l =>
      have hd : d ≠ 10 := by
        rintro rfl
        simp at hl
      have hs : splice (c :: d :: l ++ 10 :: t) = c :: splice (d :: l ++ 10 :: t) := by
        simp only [List.cons_append]
        rw [splice]
        intro t' _ h2
        simp only [List.cons.injEq] at h2
        exact hd h2.1
      have he : ends 92 (c :: d :: l) = ends 92 (d :: l) := ends_append (a := [c]) (by simp)
      rw [hs, ih hl, he]
      split <;> simp

/-- What `join` takes of a file, as text. -/
theorem join_text : ∀ (ls : List (List Nat)), ls ≠ [] → FileOk ls → ∃ c, text ls = c ++ text (join ls).2.2 ∧
    splice c = (join ls).1 ++ [10] ∧ (∀ t, splice (c ++ t) = splice c ++ splice t) ∧ c.count 10 = (join ls).2.1 ∧
    FileOk (join ls).2.2 ∧ (join ls).2.2.length < ls.length ∧ 10 ∉ (join ls).1
  | [], hne, _ => absurd rfl hne
  | l :: ls, _, h => by
    have hl := h.line
    have hcount : l.count 10 = 0 := List.count_eq_zero.2 hl.1
    by_cases he : ends 92 l = true
    · cases ls with
      | nil =>
        rw [h.2] at he
        cases he
      | cons l' ls' =>
        obtain ⟨c, h1, h2, h3, h4, h5, h6, h7⟩ := join_text (l' :: ls') (by simp) h.tail
        have hj : join (l :: l' :: ls') = (l.dropLast ++ (join (l' :: ls')).1, 1 + (join (l' :: ls')).2.1,
            (join (l' :: ls')).2.2) := by
          rw [join.eq_def]
          simp only [he, if_true]
        rw [hj]
        refine ⟨l ++ 10 :: c, ?_, ?_, ?_, ?_, h5, ?_, ?_⟩
        · rw [text_cons, h1]
          simp
        · rw [splice_line hl.1, he, if_pos rfl, h2]
          simp
        · intro t
          rw [List.append_assoc, List.cons_append, splice_line hl.1, splice_line hl.1, he, if_pos rfl, if_pos rfl,
            h3]
          simp
        · rw [List.count_append, List.count_cons_self, hcount, h4]
          show 0 + ((join (l' :: ls')).2.1 + 1) = 1 + (join (l' :: ls')).2.1
          omega
        · simp only [List.length_cons] at h6 ⊢
          omega
        · simp only [List.mem_append, not_or]
          exact ⟨fun hx => hl.1 (List.dropLast_subset _ hx), h7⟩
    · have hj : join (l :: ls) = (l, 1, ls) := by
        rw [join.eq_def]
        simp only [he, if_false, Bool.false_eq_true]
      have he' : ends 92 l = false := by simpa using he
      rw [hj]
      refine ⟨l ++ [10], ?_, ?_, ?_, ?_, h.tail, by simp, hl.1⟩
      · rw [text_cons]
        simp
      · rw [splice_line hl.1, he']
        simp [splice]
      · intro t
        rw [List.append_assoc, List.cons_append, List.nil_append, splice_line hl.1, splice_line hl.1, he']
        simp [splice]
      · simp [hcount]

/-- C91 (partial, see `FileOk`): a call takes the text of one logical line: the
line is that text spliced, and the line number goes up by the newlines in it. -/
theorem one_line_partial {ls : List (List Nat)} (hne : ls ≠ []) (h : FileOk ls) (n : Nat) :
    ∃ l m r c, getlineCont n (text ls) = some (l, m, r) ∧ text ls = c ++ r ∧ splice c = l ++ [10] ∧ 10 ∉ l ∧
      m = n + c.count 10 := by
  obtain ⟨c, h1, h2, _, h4, _, _, h7⟩ := join_text ls hne h
  refine ⟨(join ls).1, n + (join ls).2.1, text (join ls).2.2, c, ?_, h1, h2, h7, by rw [h4]⟩
  cases ls with
  | nil => exact absurd rfl hne
  | cons l ls =>
    have := cont_join ls l [] n h (by simp [ends])
    rw [List.nil_append, List.nil_append] at this
    rw [getlineCont, text_cons, chomped_text h.line]
    simp only [this]

theorem linesOf_line {l : List Nat} (h : 10 ∉ l) (t : List Nat) : linesOf (l ++ 10 :: t) = l :: linesOf t := by
  induction l with
  | nil => simp [linesOf]
  | cons c l ih =>
    have hc : c ≠ 10 := by
      rintro rfl
      simp at h
    rw [List.cons_append, linesOf]
    · rw [ih (fun hx => h (by simp [hx]))]
    · exact hc

theorem text_length (ls : List (List Nat)) : ls.length ≤ (text ls).length := by
  induction ls with
  | nil => simp
  | cons l ls ih =>
    rw [text_cons]
    simp only [List.length_append, List.length_cons]
    omega

/-- C91 (partial, see `FileOk`): a file is read as the lines of its text after
splicing, and at the end the line number is the number of its newlines. -/
theorem all_lines_partial : ∀ (fuel : Nat) (ls : List (List Nat)) (n : Nat), FileOk ls → ls.length < fuel →
    (readAll fuel n (text ls)).map (·.1) = linesOf (splice (text ls)) ∧
    ∀ x, (readAll fuel n (text ls)).getLast? = some x → x.2 = n + (text ls).count 10
  | 0, ls, n, _, hf => by simp at hf
  | fuel + 1, ls, n, h, hf => by
    cases ls with
    | nil => simp [readAll, text, getlineCont, chomped, getline, splice, linesOf]
    | cons l ls =>
      obtain ⟨c, h1, h2, h3, h4, h5, h6, h7⟩ := join_text (l :: ls) (by simp) h
      have hg : getlineCont n (text (l :: ls)) =
          some ((join (l :: ls)).1, n + (join (l :: ls)).2.1, text (join (l :: ls)).2.2) := by
        have := cont_join ls l [] n h (by simp [ends])
        rw [List.nil_append, List.nil_append] at this
        rw [getlineCont, text_cons, chomped_text h.line]
        simp only [this]
      obtain ⟨i1, i2⟩ := all_lines_partial fuel (join (l :: ls)).2.2 (n + (join (l :: ls)).2.1) h5 (by omega)
      have hr : readAll (fuel + 1) n (text (l :: ls)) = ((join (l :: ls)).1, n + (join (l :: ls)).2.1) ::
          readAll fuel (n + (join (l :: ls)).2.1) (text (join (l :: ls)).2.2) := by
        rw [readAll, hg]
      rw [hr]
      constructor
      · rw [List.map_cons, i1, h1, h3, h2, List.append_assoc, List.cons_append, List.nil_append, linesOf_line h7]
      · intro x hx
        rw [h1, List.count_append, h4]
        cases hrest : readAll fuel (n + (join (l :: ls)).2.1) (text (join (l :: ls)).2.2) with
        | nil =>
          rw [hrest] at hx i1
          simp only [List.getLast?_singleton, Option.some.injEq] at hx
          have h0 : (join (l :: ls)).2.2 = [] := by
            cases hj : (join (l :: ls)).2.2 with
            | nil => rfl
            | cons a b =>
              exfalso
              obtain ⟨c', g1, g2, g3, _, _, _, g7⟩ := join_text (a :: b) (by simp) (by rw [← hj]; exact h5)
              rw [hj, g1, g3, g2, List.append_assoc, List.cons_append, List.nil_append, linesOf_line g7] at i1
              simp at i1
          rw [h0, ← hx]
          simp [text]
        | cons y ys =>
          have := i2 x (by rw [hrest] at hx ⊢; simpa using hx)
          omega

/-- Finding: a line that ends with two backslashes, before an empty line: the first
backslash takes the empty line's newline as well (src/util/util.c:143 looks at the
joined line).  The lines should be `a\` and `b`; `ab` is read. -/
theorem backslash_before_empty : readAll 9 0 [97, 92, 92, 10, 10, 98, 10] = [([97, 98], 3)] ∧
    linesOf (splice [97, 92, 92, 10, 10, 98, 10]) = [[97, 92], [98]] := by
  decide +kernel

/-- A macro over three lines, the last one empty, and another line. -/
example : FileOk [[97, 92], [98, 32, 92], [], [99]] ∧
    readAll 9 0 (text [[97, 92], [98, 32, 92], [], [99]]) = [([97, 98, 32], 3), ([99], 4)] := by
  refine ⟨?_, by decide +kernel⟩
  simp [FileOk, LineOk, ends]

/-! ## Other line ends -/

/-- The same lines: a line may end with carriage return and newline in the first
text, and the last newline may be missing. -/
inductive Same : List Nat → List Nat → Prop
  | nil : Same [] []
  | lf {l s t} : LineOk l → Same s t → Same (l ++ 10 :: s) (l ++ 10 :: t)
  | crlf {l s t} : LineOk l → Same s t → Same (l ++ 13 :: 10 :: s) (l ++ 10 :: t)
  | last {l} : l ≠ [] → LineOk l → Same l (l ++ [10])

theorem chomped_crlf {l : List Nat} (h : 10 ∉ l) (r : List Nat) : chomped (l ++ 13 :: 10 :: r) = some (l, r) := by
  have h0 : l ++ 13 :: 10 :: r = (l ++ [13]) ++ 10 :: r := by simp
  have h1 : ends 10 (l ++ [13] ++ [10]) = true := by simp [ends]
  have h2 : ends 13 (l ++ [13]) = true := by simp [ends]
  rw [h0, chomped, getline_text (by simpa using h)]
  simp only [h1, if_true, List.dropLast_concat, h2]

theorem chomped_last {l : List Nat} (hne : l ≠ []) (h : LineOk l) : chomped l = some (l, []) := by
  have hl : ∀ x ∈ l, decide (x ≠ 10) = true := by
    intro x hx
    have : x ≠ 10 := by
      rintro rfl
      exact h.1 hx
    simpa using this
  have hd : l.dropWhile (· ≠ 10) = [] := by
    have := List.dropWhile_append_of_pos (l₂ := []) hl
    simpa using this
  have h10 : ends 10 l = false := by
    simp only [ends, decide_eq_false_iff_not]
    intro hx
    exact h.1 (List.mem_of_getLast? hx)
  have h13 : ends 13 l = false := by
    simp only [ends, decide_eq_false_iff_not]
    exact h.2
  have hg : getline l = some (l, []) := by
    cases l with
    | nil => exact absurd rfl hne
    | cons a b => simp only [getline, hd]
  simp only [chomped, hg, h10, h13, Bool.false_eq_true, if_false]

theorem Same.chomped {s t : List Nat} (h : Same s t) : (s = [] ∧ t = []) ∨
    ∃ l s' t', chomped s = some (l, s') ∧ chomped t = some (l, t') ∧ Same s' t' := by
  cases h with
  | nil => exact .inl ⟨rfl, rfl⟩
  | lf hl h => exact .inr ⟨_, _, _, chomped_text hl _, chomped_text hl _, h⟩
  | crlf hl h => exact .inr ⟨_, _, _, chomped_crlf hl.1 _, chomped_text hl _, h⟩
  | last hne hl => exact .inr ⟨_, _, _, chomped_last hne hl, chomped_text hl [], .nil⟩

theorem Same.cont : ∀ (k : Nat) {s t : List Nat}, s.length ≤ k → Same s t → ∀ (acc : List Nat) (n : Nat),
    ∃ a m s' t', cont acc n s = (a, m, s') ∧ cont acc n t = (a, m, t') ∧ Same s' t'
  | k, s, t, hk, h, acc, n => by
    by_cases he : ends 92 acc = true
    · rcases h.chomped with ⟨rfl, rfl⟩ | ⟨l, s', t', h1, h2, h3⟩
      · refine ⟨acc.dropLast, n + 1, [], [], ?_, ?_, .nil⟩ <;>
        · rw [cont.eq_def, if_pos he]
          split
          · rfl
          · rename_i hc
            simp [Lines.chomped, getline] at hc
      · have hlt := chomped_lt h1
        cases k with
        | zero => omega
        | succ k =>
          obtain ⟨a, m, s'', t'', g1, g2, g3⟩ := Same.cont k (by omega) h3 (acc.dropLast ++ l) (n + 1)
          refine ⟨a, m, s'', t'', ?_, ?_, g3⟩
          · rw [cont.eq_def, if_pos he]
            split
            · rename_i hc
              rw [h1] at hc
              cases hc
            · rename_i hc
              rw [h1] at hc
              cases hc
              exact g1
          · rw [cont.eq_def, if_pos he]
            split
            · rename_i hc
              rw [h2] at hc
              cases hc
            · rename_i hc
              rw [h2] at hc
              cases hc
              exact g2
    · exact ⟨acc, n + 1, s, t, by rw [cont.eq_def, if_neg he], by rw [cont.eq_def, if_neg he], h⟩

/-- C91: carriage returns before newlines, and a missing newline at the end, make no
difference to the lines and their numbers. -/
theorem line_ends_alike : ∀ (fuel n : Nat) {s t : List Nat}, Same s t → readAll fuel n s = readAll fuel n t
  | 0, _, _, _, _ => rfl
  | fuel + 1, n, s, t, h => by
    rcases h.chomped with ⟨rfl, rfl⟩ | ⟨l, s', t', h1, h2, h3⟩
    · rfl
    · obtain ⟨a, m, s'', t'', g1, g2, g3⟩ := Same.cont s'.length (Nat.le_refl _) h3 l n
      simp only [readAll, getlineCont, h1, h2, g1, g2]
      rw [line_ends_alike fuel m g3]

/-- `a\` and `b` with carriage returns, then `c` without an end. -/
example : Same [97, 92, 13, 10, 98, 13, 10, 99] [97, 92, 10, 98, 10, 99, 10] ∧
    readAll 9 0 [97, 92, 13, 10, 98, 13, 10, 99] = [([97, 98], 2), ([99], 3)] := by
  refine ⟨?_, by decide +kernel⟩
  exact .crlf (l := [97, 92]) (by simp [LineOk]) (.crlf (l := [98]) (by simp [LineOk])
    (.last (l := [99]) (by decide) (by simp [LineOk])))

end Verif.Lines

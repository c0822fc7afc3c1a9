/-
The line and caret under an error message: `show_error_line` (src/util/util.c:288-299).
-/
namespace Verif.ErrorLine

/-- src/util/util.c:288-299 `show_error_line`: the bytes written to the error stream.  `pos` is
`p - line` after conversion to `size_t`, so a `p` before the line is a very large `pos`.
Simplification: `len` is a natural number; a negative `int` acts as 0. -/
def showErrorLine (line : List Char) (pos len : Nat) : List Char :=
  line ++ ['\n'] ++
    if pos ≤ line.length then
      (line.take pos).map (fun c => if c = '\t' then '\t' else ' ') ++
        ['^'] ++ List.replicate (len - 1) '~' ++ ['\n']
    else []

/-! ## Specification: where a terminal puts things -/

/-- A terminal with tab stops every `w` columns: the column after writing `c` in column `col`.
This is specification, not code: every character but a tab is one column wide. -/
def advance (w : Nat) (col : Nat) (c : Char) : Nat :=
  if c = '\t' then (col / w + 1) * w else col + 1

/-- Specification: the column after writing a text that starts in column 0. -/
def column (w : Nat) (s : List Char) : Nat := s.foldl (advance w) 0

/-- Helper: the padding moves the cursor just as the text above it does. -/
theorem pad_column (w : Nat) (s : List Char) (col : Nat) :
    (s.map (fun c => if c = '\t' then '\t' else ' ')).foldl (advance w) col =
      s.foldl (advance w) col := by
  induction s generalizing col with
  | nil => rfl
  | cons c s ih =>
    simp only [List.map_cons, List.foldl_cons]
    rw [ih]
    congr 1
    by_cases h : c = '\t'
    · simp [h]
    · simp [h, advance]

/-- C96: whatever the line, the position in it, and the width of the terminal's tab stops, the
output is the line itself and then one line made of blanks, one caret and `len - 1` tildes, and
the caret stands in the very column in which the character at that position was shown. -/
theorem caret_under_position (w : Nat) (before after : List Char) (len : Nat) :
    ∃ pad, showErrorLine (before ++ after) before.length len =
        (before ++ after) ++ '\n' :: (pad ++ '^' :: (List.replicate (len - 1) '~' ++ ['\n'])) ∧
      (∀ c ∈ pad, c = ' ' ∨ c = '\t') ∧ column w pad = column w before := by
  refine ⟨before.map (fun c => if c = '\t' then '\t' else ' '), ?_, ?_, pad_column w before 0⟩
  · simp [showErrorLine]
  · intro c hc
    obtain ⟨d, _, rfl⟩ := List.mem_map.1 hc
    by_cases h : d = '\t' <;> simp [h]

example : showErrorLine "\tx = y;".toList 5 1 = "\tx = y;\n\t    ^\n".toList := by decide
example : column 8 "\tx = ".toList = 12 := by decide

/-- C96: a position outside the line shows the line and no caret at all. -/
theorem no_caret_outside (line : List Char) (pos len : Nat) (h : line.length < pos) :
    showErrorLine line pos len = line ++ ['\n'] := by
  simp [showErrorLine, Nat.not_le.2 h]

example : showErrorLine "ab".toList 3 1 = "ab\n".toList := by decide

/-- C96: a mark of `len ≥ 1` characters is exactly `len` wide, whatever the line. -/
theorem mark_width (before after : List Char) (len : Nat) (h : 1 ≤ len) :
    ∃ pad mark, showErrorLine (before ++ after) before.length len =
        (before ++ after) ++ '\n' :: (pad ++ mark ++ ['\n']) ∧
      pad.length = before.length ∧ mark.length = len ∧ '^' ∉ pad ∧ mark.head? = some '^' := by
  refine ⟨before.map (fun c => if c = '\t' then '\t' else ' '),
    '^' :: List.replicate (len - 1) '~', ?_, by simp, by simp; omega, ?_, rfl⟩
  · simp [showErrorLine]
  · intro hc
    obtain ⟨d, _, hd⟩ := List.mem_map.1 hc
    by_cases h' : d = '\t' <;> simp [h'] at hd

example : showErrorLine "a foo b".toList 2 3 = "a foo b\n  ^~~\n".toList := by decide

/-- C96, finding: the mark does not stop at the end of the line: with a `len` larger than what is
left of the line it runs past it. -/
theorem mark_may_overrun : showErrorLine "ab".toList 1 4 = "ab\n ^~~~\n".toList := by decide

end Verif.ErrorLine

import Verif.Wasm.Stmt
/-!
# Code with loose ends

The body of a switch contains an `end` at each label: it nests as a list of segments.  How they nest once the blocks are put in
front, and how they run.
-/
namespace Verif.Wasm

/-- Open blocks and what is in them, innermost first. -/
def push : List Code → Code → Option Code → List (Code × Option Code) → List (Code × Option Code)
  | [], c, e, s => (c, e) :: s
  | [x], c, e, s => (x.app c, e) :: s
  | x :: y :: r, c, e, s => (x, none) :: push (y :: r) c e s

/-- `ts` nests as the segments `X`. -/
def Segs (ts : List Tok) (X : List Code) : Prop :=
  X ≠ [] ∧ ∀ rest c e s, nest rest = some ((c, e) :: s) → nest (ts ++ rest) = some (push X c e s)

/-- Segments after segments. -/
def join : List Code → List Code → List Code
  | [], B => B
  | [x], [] => [x]
  | [x], y :: B => x.app y :: B
  | x :: y :: A, B => x :: join (y :: A) B

theorem Segs.frag {ts : List Tok} {C : Code} : Segs ts [C] ↔ Frag ts C := by
  constructor
  · rintro ⟨_, h⟩ rest c e s hr
    exact h rest c e s hr
  · exact fun h => ⟨by simp, fun rest c e s hr => h rest c e s hr⟩

theorem Segs.end_ : Segs [.end_] [.done, .done] := by
  refine ⟨by simp, fun rest c e s h => ?_⟩
  simp [nest, h, push, Code.app]

theorem push_cons (x : Code) {r : List Code} (h : r ≠ []) (c : Code) (e : Option Code) (s : List (Code × Option Code)) :
    push (x :: r) c e s = (x, none) :: push r c e s := by
  cases r with
  | nil => exact absurd rfl h
  | cons y r => rfl

theorem join_ne {A B : List Code} (h : A ≠ []) : join A B ≠ [] := by
  match A, B with
  | [], _ => exact absurd rfl h
  | [x], [] => simp [join]
  | [x], y :: B => simp [join]
  | x :: y :: A, B => simp [join]

theorem join_cons (x : Code) {A : List Code} (h : A ≠ []) (B : List Code) : join (x :: A) B = x :: join A B := by
  cases A with
  | nil => exact absurd rfl h
  | cons y A => rfl

theorem push_join {A B : List Code} (hA : A ≠ []) (hB : B ≠ []) (c : Code) (e : Option Code) (s : List (Code × Option Code)) :
    ∃ c' e' s', push B c e s = (c', e') :: s' ∧ push (join A B) c e s = push A c' e' s' := by
  induction A with
  | nil => exact absurd rfl hA
  | cons x A ih =>
    cases A with
    | nil =>
      match B with
      | [] => exact absurd rfl hB
      | [y] => exact ⟨y.app c, e, s, rfl, by simp [join, push, Code.app_assoc]⟩
      | y :: z :: B => exact ⟨y, none, push (z :: B) c e s, rfl, by simp [join, push]⟩
    | cons y A =>
      obtain ⟨c', e', s', h1, h2⟩ := ih (by simp)
      refine ⟨c', e', s', h1, ?_⟩
      rw [join_cons x (by simp), push_cons x (join_ne (by simp)), push_cons x (by simp), h2]

theorem Segs.append {a b : List Tok} {A B : List Code} (ha : Segs a A) (hb : Segs b B) : Segs (a ++ b) (join A B) := by
  refine ⟨join_ne ha.1, fun rest c e s hr => ?_⟩
  obtain ⟨c', e', s', h1, h2⟩ := push_join ha.1 hb.1 c e s
  rw [List.append_assoc, h2]
  exact ha.2 _ _ _ _ (by rw [hb.2 _ _ _ _ hr, h1])

/-- The segments, once all their blocks are open. -/
def fold : List Code → Code
  | [] => .done
  | [x] => x
  | x :: y :: r => fold (.block none x y :: r)
termination_by X => X.length

theorem fold_one (x : Code) : fold [x] = x := by rw [fold]
theorem fold_two (x y : Code) (r : List Code) : fold (x :: y :: r) = fold (.block none x y :: r) := by rw [fold]

theorem Segs.block {ts : List Tok} {x y : Code} {r : List Code} (h : Segs ts (x :: y :: r)) :
    Segs (.block none :: ts) (.block none x y :: r) := by
  refine ⟨by simp, fun rest c e s hr => ?_⟩
  have h := h.2 rest c e s hr
  cases r with
  | nil =>
    simp only [push] at h
    simp [nest, h, push, Code.app]
  | cons z r =>
    simp only [push] at h
    simp [nest, h, push]

theorem Segs.fold {ts : List Tok} {x : Code} {r : List Code} (h : Segs ts (x :: r)) :
    Frag (List.replicate r.length (.block none) ++ ts) (fold (x :: r)) := by
  induction r generalizing ts x with
  | nil => rw [fold_one]; exact Segs.frag.1 h
  | cons y r ih =>
    rw [fold_two]
    have := ih h.block
    rwa [List.length_cons, List.replicate_succ', List.append_assoc, List.singleton_append]

/-- A branch out of the first segment. -/
theorem run_fold (E : Env) (m : Nat) (x : Code) (r : List Code) (ρ : St) :
    exec E m (Verif.Wasm.fold (x :: r)) [] ρ =
      match exec E m x [] ρ with
      | .ok s ρ' => if r = [] then .ok s ρ' else if s = [] then exec E m (Verif.Wasm.fold r) [] ρ' else .stuck
      | .br j s ρ' => if j < r.length then exec E m (Verif.Wasm.fold (r.drop j)) [] ρ' else .br (j - r.length) s ρ'
      | q => q := by
  induction r generalizing x ρ with
  | nil =>
    rw [fold_one]
    cases exec E m x [] ρ <;> simp
  | cons y r ih =>
    rw [fold_two, ih]
    simp only [exec]
    cases hx : exec E m x [] ρ with
    | ok s ρ' =>
      simp only [leave, Wasm.fall, Option.toList_none, List.map_eq_nil_iff]
      by_cases hs : s = []
      · subst hs
        simp only [if_true, List.append_nil, List.cons_ne_nil, if_false]
        rw [ih]
      · simp [hs]
    | br j s ρ' =>
      cases j with
      | zero =>
        simp only [leave, Wasm.fall, Option.toList_none, List.length_nil, List.take_zero, List.map_nil, if_true, List.append_nil]
        simp only [List.length_cons, Nat.zero_lt_succ, if_true, List.drop_zero]
        rw [ih]
      | succ j =>
        simp only [leave, List.length_cons, Nat.add_lt_add_iff_right, List.drop_succ_cons, Nat.add_sub_add_right]
    | _ => simp [leave]

theorem join_length {A B : List Code} (hA : A ≠ []) (hB : B ≠ []) : (join A B).length + 1 = A.length + B.length := by
  induction A with
  | nil => exact absurd rfl hA
  | cons x A ih =>
    cases A with
    | nil =>
      cases B with
      | nil => exact absurd rfl hB
      | cons y B => simp [join]; omega
    | cons y A =>
      rw [join_cons x (by simp), List.length_cons]
      have := ih (by simp)
      simp only [List.length_cons] at this ⊢
      omega

theorem join_drop {A B : List Code} (j : Nat) (h : j < A.length) : (join A B).drop j = join (A.drop j) B := by
  induction A generalizing j with
  | nil => simp at h
  | cons x A ih =>
    cases j with
    | zero => rfl
    | succ j =>
      cases A with
      | nil => simp at h
      | cons y A =>
        rw [join_cons x (by simp), List.drop_succ_cons, List.drop_succ_cons]
        exact ih j (by simpa using h)

/-- Dropping into the second part. -/
theorem join_drop' {A B : List Code} (hA : A ≠ []) (j : Nat) (h : 1 ≤ j) : (join A B).drop (A.length - 1 + j) = B.drop j := by
  induction A with
  | nil => exact absurd rfl hA
  | cons x A ih =>
    cases A with
    | nil =>
      cases B with
      | nil => simp [join]; omega
      | cons y B =>
        obtain ⟨j, rfl⟩ : ∃ i, j = i + 1 := ⟨j - 1, by omega⟩
        simp [join]
    | cons y A =>
      rw [join_cons x (by simp)]
      have := ih (by simp)
      simp only [List.length_cons, Nat.add_sub_cancel] at this ⊢
      rw [show A.length + 1 + j = A.length + j + 1 by omega, List.drop_succ_cons, this]

/-- What the first segments do, the segments joined do, and go on with the others. -/
theorem run_join (E : Env) (m : Nat) (B : List Code) (hB : B ≠ []) : ∀ (k : Nat) (A : List Code), A.length ≤ k → A ≠ [] → ∀ ρ,
    exec E m (Verif.Wasm.fold (join A B)) [] ρ =
      match exec E m (Verif.Wasm.fold A) [] ρ with
      | .ok s ρ' => if s = [] then exec E m (Verif.Wasm.fold B) [] ρ' else exec E m (Verif.Wasm.fold (join A B)) [] ρ
      | .br j s ρ' => if B.length ≤ j + 1 then .br (j + 1 - B.length) s ρ' else exec E m (Verif.Wasm.fold (join A B)) [] ρ
      | q => q := by
  intro k
  induction k with
  | zero =>
    intro A hk hA
    exact absurd (List.length_eq_zero_iff.1 (by omega)) hA
  | succ k ih =>
    intro A hk hA ρ
    cases A with
    | nil => exact absurd rfl hA
    | cons x A =>
      cases A with
      | nil =>
        cases B with
        | nil => exact absurd rfl hB
        | cons y B =>
          rw [fold_one, show join [x] (y :: B) = x.app y :: B from rfl, run_fold, exec_app]
          cases hx : exec E m x [] ρ with
          | ok s ρ' =>
            simp only [Res.bind]
            by_cases hs : s = []
            · subst hs
              rw [if_pos rfl, run_fold]
            · rw [if_neg hs]
          | br j s ρ' =>
            simp only [Res.bind, List.length_cons]
            by_cases h : B.length + 1 ≤ j + 1
            · rw [if_pos h, if_neg (by omega), show j + 1 - (B.length + 1) = j - B.length by omega]
            · rw [if_neg h]
          | _ => rfl
      | cons y A =>
        rw [join_cons x (by simp)]
        have hl : (join (y :: A) B).length + 1 = A.length + 1 + B.length := join_length (by simp) hB
        have hb : 0 < B.length := List.length_pos_iff.2 hB
        rw [run_fold E m x (join (y :: A) B), run_fold E m x (y :: A)]
        cases hx : exec E m x [] ρ with
        | ok s ρ' =>
          simp only [join_ne (A := y :: A) (B := B) (by simp), if_false, List.cons_ne_nil]
          by_cases hs : s = []
          · subst hs
            simp only [if_true]
            exact ih (y :: A) (by simpa using hk) (by simp) ρ'
          · simp [hs]
        | br j s ρ' =>
          simp only
          by_cases h : j < (y :: A).length
          · rw [if_pos h, if_pos (by simp at h; omega), join_drop j h]
            refine ih _ ?_ ?_ ρ'
            · simp at hk ⊢; omega
            · simpa using h
          · rw [if_neg h]
            simp only [List.length_cons] at h ⊢
            by_cases h2 : B.length ≤ j - (A.length + 1) + 1
            · rw [if_pos h2, if_neg (by omega)]
              congr 1
              omega
            · rw [if_neg h2]
        | _ => rfl

end Verif.Wasm

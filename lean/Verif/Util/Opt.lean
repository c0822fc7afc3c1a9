/-!
# Command lines

src/util/util.c `optparse`, the loop around it in the linker and in the driver, and
the option tables of the six programs.  Words are lists of bytes without the
terminating zero.
-/

namespace Verif.Opt

/-! ## Model -/

abbrev Word := List Nat

/-- src/util/util.h:122-124. -/
inductive HasArg | no | req | opt
  deriving DecidableEq

/-- `struct option`, src/util/util.h:126-130. -/
structure Option' where
  name : Word
  has : HasArg
  val : Nat := 0
  deriving DecidableEq

/-- What a call returns (src/util/util.c:676,684,715,720): -1, an option with `optarg`, or `'?'`. -/
inductive Res
  | done
  | option (val : Nat) (arg : Option Word)
  | unknown
  deriving DecidableEq

/-- `optarg = q + (c == '=' ? 1 : 0)`, src/util/util.c:698. -/
def dropEq (q : Word) : Word :=
  match q with
  | 61 :: a => a
  | _ => q

/-- The loop over the table, src/util/util.c:688-717.  `p` is the word behind the
dash, `next` is `argv[optind]` if there is one; also how many more words are taken. -/
def scan (p : Word) (next : Option Word) : List Option' → Res × Nat
  | [] => (.unknown, 0)
  | o :: os =>
    if o.name.isPrefixOf p then
      let v := if o.val = 0 then p.headD 0 else o.val
      let q := p.drop o.name.length
      match o.has with
      | .no => if q = [] then (.option v none, 0) else if q.headD 0 = 61 then (.unknown, 0) else scan p next os
      | .req =>
        if q ≠ [] then (.option v (some (dropEq q)), 0)
        else match next with
          | some w => (.option v (some w), 1)
          | none => (.unknown, 0)
      | .opt => if q ≠ [] then (.option v (some (dropEq q)), 0) else (.option v none, 0)
    else scan p next os

/-- `optparse`, src/util/util.c:669-722: the result and the new `optind`. -/
def optparse (t : List Option') (argv : List Word) (i : Nat) : Res × Nat :=
  let i := if i = 0 then 1 else i
  match argv[i]? with
  | none => (.done, i)
  | some w =>
    if w.headD 0 ≠ 45 ∨ w.drop 1 = [] then (.done, i)
    else ((scan (w.drop 1) argv[i + 1]? t).1, i + 1 + (scan (w.drop 1) argv[i + 1]? t).2)

/-- What the callers see: the cases of src/xcc/main.c:353-525. -/
inductive Item
  | operand (w : Word)
  | option (val : Nat) (arg : Option Word)
  | bad (w : Word)
  deriving DecidableEq

/-- The loop of src/ld/ld.c:903-912 and src/xcc/main.c:351-359: operands may come
anywhere; an unknown option is reported as `argv[optind - 1]` (ld.c:944,
main.c:459).  Not modelled: `-fuse-ld` of the driver takes another word
(main.c:483).  `fuel` bounds the number of words. -/
def loop (t : List Option') (argv : List Word) : Nat → Nat → List Item
  | 0, _ => []
  | fuel + 1, i =>
    match optparse t argv i with
    | (.done, j) => match argv[j]? with
      | none => []
      | some w => .operand w :: loop t argv fuel (j + 1)
    | (.option v a, j) => .option v a :: loop t argv fuel j
    | (.unknown, j) => .bad (argv[j - 1]?.getD []) :: loop t argv fuel j

/-- `main`: `optind` starts at 0, src/util/util.c:665. -/
def run (t : List Option') (argv : List Word) : List Item := loop t argv (argv.length + 1) 0

/-! ## Specification -/

/-- The word behind the dash can be read as this option: it begins with the name,
and behind the name of an option without argument comes nothing or `=`. -/
def Accepts (o : Option') (p : Word) : Prop :=
  ∃ q, p = o.name ++ q ∧ (o.has = .no → q = [] ∨ ∃ a, q = 61 :: a)

/-- The option meant: the one with the longest name. -/
def Best (t : List Option') (o : Option') (p : Word) : Prop :=
  o ∈ t ∧ Accepts o p ∧ ∀ e ∈ t, Accepts e p → e.name.length ≤ o.name.length

/-- The code of an option: its own, or the first letter. -/
def key (o : Option') : Nat := if o.val = 0 then o.name.headD 0 else o.val

/-- How a command line is to be read. -/
inductive Parse (t : List Option') : List Word → List Item → Prop
  | nil : Parse t [] []
  | operand {w ws is} : (w.headD 0 ≠ 45 ∨ w = [45]) → Parse t ws is → Parse t (w :: ws) (.operand w :: is)
  /-- `-c` -/
  | flag {o ws is} : Best t o o.name → o.has ≠ .req → Parse t ws is →
      Parse t ((45 :: o.name) :: ws) (.option (key o) none :: is)
  /-- `-o file` -/
  | separate {o a ws is} : Best t o o.name → o.has = .req → Parse t ws is →
      Parse t ((45 :: o.name) :: a :: ws) (.option (key o) (some a) :: is)
  /-- `-ofile` -/
  | joined {o a ws is} : Best t o (o.name ++ a) → o.has ≠ .no → a ≠ [] → a.headD 0 ≠ 61 → Parse t ws is →
      Parse t ((45 :: (o.name ++ a)) :: ws) (.option (key o) (some a) :: is)
  /-- `-std=c99` -/
  | equals {o a ws is} : Best t o (o.name ++ 61 :: a) → o.has ≠ .no → Parse t ws is →
      Parse t ((45 :: (o.name ++ 61 :: a)) :: ws) (.option (key o) (some a) :: is)
  /-- `-o` as the last word -/
  | missing {o} : Best t o o.name → o.has = .req → Parse t [45 :: o.name] [.bad (45 :: o.name)]
  /-- `-c=1` -/
  | noArgument {o a ws is} : Best t o (o.name ++ 61 :: a) → o.has = .no → Parse t ws is →
      Parse t ((45 :: (o.name ++ 61 :: a)) :: ws) (.bad (45 :: (o.name ++ 61 :: a)) :: is)
  | unknown {p ws is} : p ≠ [] → (∀ o ∈ t, ¬ Accepts o p) → Parse t ws is →
      Parse t ((45 :: p) :: ws) (.bad (45 :: p) :: is)

/-- A table in which no name is a prefix of a later one, and none is empty. -/
def TableOk (t : List Option') : Prop :=
  t.Pairwise (fun e o => e.name.isPrefixOf o.name = false) ∧ ∀ o ∈ t, o.name ≠ []

instance (t : List Option') : Decidable (TableOk t) := by unfold TableOk; infer_instance

/-! ## The first entry that accepts -/

/-- `Accepts`, computed. -/
def acc (p : Word) (o : Option') : Bool :=
  o.name.isPrefixOf p && (o.has ≠ .no || p.drop o.name.length = [] || (p.drop o.name.length).headD 0 = 61)

theorem acc_iff (p : Word) (o : Option') : acc p o = true ↔ Accepts o p := by
  simp only [acc, Accepts, Bool.and_eq_true, Bool.or_eq_true, List.isPrefixOf_iff_prefix, decide_eq_true_eq]
  constructor
  · rintro ⟨⟨q, rfl⟩, h⟩
    refine ⟨q, rfl, fun hn => ?_⟩
    simp only [hn, ne_eq, not_true, List.drop_left, false_or] at h
    rcases h with h | h
    · exact .inl h
    · cases q with
      | nil => exact .inl rfl
      | cons c a =>
        simp only [List.headD_cons] at h
        exact .inr ⟨a, by rw [h]⟩
  · rintro ⟨q, rfl, h⟩
    refine ⟨⟨q, rfl⟩, ?_⟩
    simp only [List.drop_left]
    by_cases hn : o.has = .no
    · rcases h hn with rfl | ⟨a, rfl⟩
      · exact .inl (.inr rfl)
      · exact .inr rfl
    · exact .inl (.inl hn)

/-- What is done with the entry found. -/
def finish (p : Word) (next : Option Word) (o : Option') : Res × Nat :=
  let v := if o.val = 0 then p.headD 0 else o.val
  let q := p.drop o.name.length
  match o.has with
  | .no => if q = [] then (.option v none, 0) else (.unknown, 0)
  | .req =>
    if q ≠ [] then (.option v (some (dropEq q)), 0)
    else match next with
      | some w => (.option v (some w), 1)
      | none => (.unknown, 0)
  | .opt => if q ≠ [] then (.option v (some (dropEq q)), 0) else (.option v none, 0)

theorem scan_find (p : Word) (next : Option Word) (t : List Option') :
    scan p next t = match t.find? (acc p) with
      | none => (.unknown, 0)
      | some o => finish p next o := by
  induction t with
  | nil => rfl
  | cons o os ih =>
    rw [scan, List.find?_cons]
    by_cases hp : o.name.isPrefixOf p = true
    · simp only [hp, if_true]
      cases hh : o.has with
      | no =>
        by_cases hq : p.drop o.name.length = []
        · have ha : acc p o = true := by simp [acc, hp, hq]
          simp only [hq, if_true, ha, finish, hh]
        · by_cases h61 : (p.drop o.name.length).headD 0 = 61
          · have ha : acc p o = true := by
              simp only [acc, hp, h61, decide_true, Bool.or_true, Bool.and_true]
            simp only [hq, h61, if_true, if_false, ha, finish, hh]
          · have ha : acc p o = false := by
              simp only [acc, hp, hh, hq, h61, ne_eq, not_true, decide_false, Bool.or_false, Bool.and_false]
            simp only [hq, h61, if_false, ha, ih]
      | req =>
        have ha : acc p o = true := by simp [acc, hp, hh]
        simp only [ha, finish, hh]
      | opt =>
        have ha : acc p o = true := by simp [acc, hp, hh]
        simp only [ha, finish, hh]
    · have ha : acc p o = false := by simp [acc, hp]
      simp only [hp, ha, ih, if_false, Bool.false_eq_true]

theorem prefix_longer {a b p : Word} (ha : a <+: p) (hb : b <+: p) (h : ¬ a <+: b) : b.length ≤ a.length := by
  rcases Nat.le_total a.length b.length with h' | h'
  · exact absurd (List.prefix_of_prefix_length_le ha hb h') h
  · exact h'

theorem find_best {t : List Option'} (ht : TableOk t) {p : Word} {o : Option'}
    (h : t.find? (acc p) = some o) : Best t o p := by
  obtain ⟨ho, as, bs, rfl, hno⟩ := List.find?_eq_some_iff_append.1 h
  have hacc := (acc_iff p o).1 ho
  refine ⟨by simp, hacc, fun e he hea => ?_⟩
  simp only [List.mem_append, List.mem_cons] at he
  rcases he with he | rfl | he
  · have := hno e he
    rw [(acc_iff p e).2 hea] at this
    simp at this
  · exact Nat.le_refl _
  · have hpw := (List.pairwise_append.1 ht.1).2.1
    have hne := (List.pairwise_cons.1 hpw).1 e he
    obtain ⟨q, hq, _⟩ := hacc
    obtain ⟨q', hq', _⟩ := hea
    exact prefix_longer ⟨q, hq.symm⟩ ⟨q', hq'.symm⟩ (by
      rw [← List.isPrefixOf_iff_prefix, hne]
      simp)

theorem pre_self (w : Word) : w.isPrefixOf w = true := by
  rw [List.isPrefixOf_iff_prefix]
  exact List.prefix_refl w

theorem same_name {t : List Option'} (ht : TableOk t) {a b : Option'} (ha : a ∈ t) (hb : b ∈ t)
    (h : a.name = b.name) : a = b := by
  replace ht := ht.1
  induction t with
  | nil => cases ha
  | cons o os ih =>
    have hc := List.pairwise_cons.1 ht
    simp only [List.mem_cons] at ha hb
    rcases ha with rfl | ha <;> rcases hb with rfl | hb
    · rfl
    · have := hc.1 b hb
      rw [h, pre_self] at this
      cases this
    · have := hc.1 a ha
      rw [h, pre_self] at this
      cases this
    · exact ih ha hb hc.2

theorem best_find {t : List Option'} (ht : TableOk t) {p : Word} {o : Option'}
    (h : Best t o p) : t.find? (acc p) = some o := by
  cases hf : t.find? (acc p) with
  | none =>
    have := List.find?_eq_none.1 hf o h.1
    exact absurd ((acc_iff p o).2 h.2.1) this
  | some e =>
    have hb := find_best ht hf
    have h1 := h.2.2 e hb.1 hb.2.1
    have h2 := hb.2.2 o h.1 h.2.1
    obtain ⟨q, hq, _⟩ := h.2.1
    obtain ⟨q', hq', _⟩ := hb.2.1
    have hn : e.name = o.name := by
      have h3 : e.name ++ q' = o.name ++ q := by rw [← hq, ← hq']
      exact (List.append_inj h3 (by omega)).1
    rw [same_name ht hb.1 h.1 hn]

theorem find_none {t : List Option'} {p : Word} (h : ∀ o ∈ t, ¬ Accepts o p) : t.find? (acc p) = none := by
  rw [List.find?_eq_none]
  intro o ho ha
  exact h o ho ((acc_iff p o).1 ha)

/-! ## The loop -/

/-- What the words from `optind` on give: `loop` over the suffix. -/
def words (t : List Option') : Nat → List Word → List Item
  | 0, _ => []
  | _ + 1, [] => []
  | fuel + 1, w :: ws =>
    if w.headD 0 ≠ 45 ∨ w.drop 1 = [] then .operand w :: words t fuel ws
    else match scan (w.drop 1) ws.head? t with
      | (.option v a, k) => .option v a :: words t fuel (ws.drop k)
      | (_, k) => .bad ((w :: ws)[k]?.getD []) :: words t fuel (ws.drop k)

theorem scan_done (p : Word) (next : Option Word) (t : List Option') : (scan p next t).1 ≠ .done := by
  rw [scan_find]
  cases t.find? (acc p) with
  | none => simp
  | some o =>
    simp only [finish]
    cases o.has <;> simp only <;> repeat' split
    all_goals simp

theorem loop_words (t : List Option') (argv : List Word) : ∀ (fuel i : Nat), 1 ≤ i →
    loop t argv fuel i = words t fuel (argv.drop i)
  | 0, _, _ => by simp [loop, words]
  | fuel + 1, i, hi => by
    have hi0 : i ≠ 0 := by omega
    rw [loop, optparse]
    simp only [hi0, if_false]
    cases hw : argv[i]? with
    | none =>
      have : argv.drop i = [] := by
        rw [List.getElem?_eq_none_iff] at hw
        exact List.drop_eq_nil_of_le hw
      simp only [hw, this, words]
    | some w =>
      have hd : argv.drop i = w :: argv.drop (i + 1) := by
        obtain ⟨hlt, rfl⟩ := List.getElem?_eq_some_iff.1 hw
        exact List.drop_eq_getElem_cons hlt
      have hh : (argv.drop (i + 1)).head? = argv[i + 1]? := by simp
      rw [hd, words, hh]
      by_cases hc : w.headD 0 ≠ 45 ∨ w.drop 1 = []
      · simp only [if_pos hc, hw]
        rw [loop_words t argv fuel (i + 1) (by omega)]
      · simp only [if_neg hc]
        have hnd := scan_done (w.drop 1) argv[i + 1]? t
        cases hs : scan (w.drop 1) argv[i + 1]? t with
        | mk r k =>
          rw [hs] at hnd
          have hdd : (argv.drop (i + 1)).drop k = argv.drop (i + 1 + k) := by rw [List.drop_drop]
          cases r with
          | done => exact absurd rfl hnd
          | option v a =>
            simp only [hdd]
            rw [loop_words t argv fuel (i + 1 + k) (by omega)]
          | unknown =>
            simp only [hdd]
            rw [loop_words t argv fuel (i + 1 + k) (by omega), ← hd, List.getElem?_drop]
            have : i + 1 + k - 1 = i + k := by omega
            rw [this]

theorem words_parse {t : List Option'} (ht : TableOk t) : ∀ (fuel : Nat) (ws : List Word), ws.length < fuel →
    Parse t ws (words t fuel ws)
  | 0, _, h => by simp at h
  | fuel + 1, [], _ => .nil
  | fuel + 1, w :: ws, h => by
    simp only [List.length_cons] at h
    have ih0 := words_parse ht fuel ws (by omega)
    rw [words]
    by_cases hc : w.headD 0 ≠ 45 ∨ w.drop 1 = []
    · rw [if_pos hc]
      by_cases h45 : w.headD 0 = 45
      · refine .operand (.inr ?_) ih0
        cases w with
        | nil => simp at h45
        | cons c w =>
          simp only [List.headD_cons] at h45
          rcases hc with hc | hc
          · simp [h45] at hc
          · simp only [List.drop_succ_cons, List.drop_zero] at hc
            rw [h45, hc]
      · exact .operand (.inl h45) ih0
    · rw [if_neg hc]
      obtain ⟨p, rfl⟩ : ∃ p, w = 45 :: p := by
        cases w with
        | nil => simp at hc
        | cons c w =>
          simp only [List.headD_cons, not_or, Decidable.not_not] at hc
          exact ⟨w, by rw [hc.1]⟩
      simp only [List.headD_cons, List.drop_succ_cons, List.drop_zero, not_or] at hc
      rw [List.drop_succ_cons, List.drop_zero, scan_find]
      cases hf : t.find? (acc p) with
      | none =>
        refine .unknown hc.2 (fun o ho ha => ?_) ih0
        exact List.find?_eq_none.1 hf o ho ((acc_iff p o).2 ha)
      | some o =>
        have hb := find_best ht hf
        obtain ⟨q, rfl, hq⟩ := hb.2.1
        have hne := ht.2 o hb.1
        have hk : (if o.val = 0 then (o.name ++ q).headD 0 else o.val) = key o := by
          rw [key]
          cases hn : o.name with
          | nil => exact absurd hn hne
          | cons c n => rfl
        simp only [finish, hk, List.drop_left]
        cases hh : o.has with
        | no =>
          rcases hq hh with rfl | ⟨a, rfl⟩
          · rw [List.append_nil] at hb ⊢
            exact .flag hb (by simp [hh]) ih0
          · exact .noArgument hb hh ih0
        | req =>
          cases q with
          | nil =>
            rw [List.append_nil] at hb ⊢
            cases ws with
            | nil =>
              cases fuel with
              | zero => omega
              | succ fuel => exact .missing hb hh
            | cons a ws =>
              simp only [List.length_cons] at h
              exact .separate hb hh (words_parse ht fuel ws (by omega))
          | cons c a =>
            by_cases h61 : c = 61
            · subst h61
              exact .equals hb (by simp [hh]) ih0
            · have hd : dropEq (c :: a) = c :: a := by
                simp only [dropEq]
                split
                · rename_i heq
                  simp only [List.cons.injEq] at heq
                  exact absurd heq.1 h61
                · rfl
              simp only [ne_eq, reduceCtorEq, not_false_eq_true, if_true, hd]
              exact .joined hb (by simp [hh]) (by simp) (by simpa using h61) ih0
        | opt =>
          cases q with
          | nil =>
            rw [List.append_nil] at hb ⊢
            exact .flag hb (by simp [hh]) ih0
          | cons c a =>
            by_cases h61 : c = 61
            · subst h61
              exact .equals hb (by simp [hh]) ih0
            · have hd : dropEq (c :: a) = c :: a := by
                simp only [dropEq]
                split
                · rename_i heq
                  simp only [List.cons.injEq] at heq
                  exact absurd heq.1 h61
                · rfl
              simp only [ne_eq, reduceCtorEq, not_false_eq_true, if_true, hd]
              exact .joined hb (by simp [hh]) (by simp) (by simpa using h61) ih0

theorem dropEq_other {a : Word} (h : a.headD 0 ≠ 61) : dropEq a = a := by
  simp only [dropEq]
  split
  · simp at h
  · rfl

theorem key_eq {o : Option'} (h : o.name ≠ []) (q : Word) :
    (if o.val = 0 then (o.name ++ q).headD 0 else o.val) = key o := by
  rw [key]
  cases hn : o.name with
  | nil => exact absurd hn h
  | cons c n => rfl

theorem dash {p : Word} (h : p ≠ []) : ¬ ((45 :: p).headD 0 ≠ 45 ∨ (45 :: p).drop 1 = []) := by
  simpa using h

theorem parse_words {t : List Option'} (ht : TableOk t) {ws : List Word} {is : List Item} (h : Parse t ws is) :
    ∀ fuel, ws.length < fuel → words t fuel ws = is := by
  induction h with
  | nil =>
    intro fuel hf
    cases fuel <;> simp [words]
  | operand hw _ ih =>
    intro fuel hf
    cases fuel with
    | zero => simp at hf
    | succ fuel =>
      rw [words, if_pos, ih fuel (by simpa using hf)]
      rcases hw with hw | rfl
      · exact .inl hw
      · exact .inr rfl
  | @flag o ws is hb hr _ ih =>
    intro fuel hf
    cases fuel with
    | zero => simp at hf
    | succ fuel =>
      have hne := ht.2 _ hb.1
      have hk := key_eq hne []
      rw [List.append_nil, List.headD_eq_head?_getD] at hk
      rw [words, if_neg (dash hne), List.drop_succ_cons, List.drop_zero, scan_find, best_find ht hb]
      cases hh : o.has with
      | req => exact absurd hh hr
      | no => simp [finish, hh, hk, ih fuel (by simpa using hf)]
      | opt => simp [finish, hh, hk, ih fuel (by simpa using hf)]
  | @separate o a ws is hb hr _ ih =>
    intro fuel hf
    cases fuel with
    | zero => simp at hf
    | succ fuel =>
      have hne := ht.2 _ hb.1
      have hk := key_eq hne []
      rw [List.append_nil, List.headD_eq_head?_getD] at hk
      simp only [List.length_cons] at hf
      rw [words, if_neg (dash hne), List.drop_succ_cons, List.drop_zero, scan_find, best_find ht hb]
      simp [finish, hr, hk, ih fuel (by omega)]
  | @joined o a ws is hb hn ha h61 _ ih =>
    intro fuel hf
    cases fuel with
    | zero => simp at hf
    | succ fuel =>
      have hne := ht.2 _ hb.1
      rw [words, if_neg (dash (by simp [hne])), List.drop_succ_cons, List.drop_zero, scan_find, best_find ht hb]
      have := ih fuel (by simpa using hf)
      cases hh : o.has with
      | no => exact absurd hh hn
      | req => simp only [finish, hh, key_eq hne, List.drop_left, ne_eq, ha, not_false_eq_true, if_true,
          dropEq_other h61, List.drop_zero, this]
      | opt => simp only [finish, hh, key_eq hne, List.drop_left, ne_eq, ha, not_false_eq_true, if_true,
          dropEq_other h61, List.drop_zero, this]
  | @equals o a ws is hb hn _ ih =>
    intro fuel hf
    cases fuel with
    | zero => simp at hf
    | succ fuel =>
      have hne := ht.2 _ hb.1
      rw [words, if_neg (dash (by simp [hne])), List.drop_succ_cons, List.drop_zero, scan_find, best_find ht hb]
      have := ih fuel (by simpa using hf)
      cases hh : o.has with
      | no => exact absurd hh hn
      | req => simp only [finish, hh, key_eq hne, List.drop_left, ne_eq, reduceCtorEq, not_false_eq_true, if_true,
          dropEq, List.drop_zero, this]
      | opt => simp only [finish, hh, key_eq hne, List.drop_left, ne_eq, reduceCtorEq, not_false_eq_true, if_true,
          dropEq, List.drop_zero, this]
  | @missing o hb hr =>
    intro fuel hf
    cases fuel with
    | zero => simp at hf
    | succ fuel =>
      have hne := ht.2 _ hb.1
      rw [words, if_neg (dash hne), List.drop_succ_cons, List.drop_zero, scan_find, best_find ht hb]
      cases fuel <;> simp [finish, hr, words]
  | @noArgument o a ws is hb hn _ ih =>
    intro fuel hf
    cases fuel with
    | zero => simp at hf
    | succ fuel =>
      have hne := ht.2 _ hb.1
      rw [words, if_neg (dash (by simp [hne])), List.drop_succ_cons, List.drop_zero, scan_find, best_find ht hb]
      simp [finish, hn, ih fuel (by simpa using hf)]
  | @unknown p ws is hp hno _ ih =>
    intro fuel hf
    cases fuel with
    | zero => simp at hf
    | succ fuel =>
      rw [words, if_neg (dash hp), List.drop_succ_cons, List.drop_zero, scan_find, find_none hno]
      simp [ih fuel (by simpa using hf)]

/-! ## Theorems -/

theorem run_words (t : List Option') (a0 : Word) (ws : List Word) :
    run t (a0 :: ws) = words t (ws.length + 2) ws := by
  have h : loop t (a0 :: ws) (ws.length + 2) 0 = loop t (a0 :: ws) (ws.length + 2) 1 := by
    rw [loop.eq_def, loop.eq_def _ _ _ 1]
    rfl
  rw [run, List.length_cons, h, loop_words t _ _ 1 (by omega)]
  rfl

/-- C92: a command line is read in the one way its words can be read: each word is
an operand, an option (the one with the longest name that fits), the argument of
the option before it, or reported. -/
theorem command_line_read {t : List Option'} (ht : TableOk t) (a0 : Word) (ws : List Word) (is : List Item) :
    run t (a0 :: ws) = is ↔ Parse t ws is := by
  rw [run_words]
  constructor
  · rintro rfl
    exact words_parse ht _ ws (by omega)
  · intro h
    exact parse_words ht h _ (by omega)

/-- C92: a call moves on by one or two words, not behind the end, or stands at an
operand or the end and stays there. -/
theorem call_progress (t : List Option') (argv : List Word) {i : Nat} (hi : 1 ≤ i) (hle : i ≤ argv.length) :
    (optparse t argv i).2 ≤ argv.length ∧
    (((optparse t argv i).1 = .done ∧ (optparse t argv i).2 = i ∧
        (i = argv.length ∨ ∃ w, argv[i]? = some w ∧ (w.headD 0 ≠ 45 ∨ w = [45]))) ∨
      ((optparse t argv i).1 ≠ .done ∧ i < (optparse t argv i).2 ∧ (optparse t argv i).2 ≤ i + 2)) := by
  have hi0 : i ≠ 0 := by omega
  simp only [optparse, hi0, if_false]
  cases hw : argv[i]? with
  | none =>
    rw [List.getElem?_eq_none_iff] at hw
    exact ⟨hle, .inl ⟨rfl, rfl, .inl (by omega)⟩⟩
  | some w =>
    have hlt : i < argv.length := (List.getElem?_eq_some_iff.1 hw).1
    by_cases hc : w.headD 0 ≠ 45 ∨ w.drop 1 = []
    · simp only [if_pos hc]
      refine ⟨hle, .inl ⟨trivial, trivial, .inr ⟨w, rfl, ?_⟩⟩⟩
      by_cases h45 : w.headD 0 = 45
      · cases w with
        | nil => simp at h45
        | cons c w =>
          simp only [List.headD_cons] at h45
          rcases hc with hc | hc
          · simp [h45] at hc
          · simp only [List.drop_succ_cons, List.drop_zero] at hc
            exact .inr (by rw [h45, hc])
      · exact .inl h45
    · simp only [if_neg hc]
      have hk : (scan (w.drop 1) argv[i + 1]? t).2 = 0 ∨
          ((scan (w.drop 1) argv[i + 1]? t).2 = 1 ∧ i + 1 < argv.length) := by
        rw [scan_find]
        cases t.find? (acc (w.drop 1)) with
        | none => exact .inl rfl
        | some o =>
          simp only [finish]
          cases o.has with
          | no => simp only; split <;> exact .inl rfl
          | opt => simp only; split <;> exact .inl rfl
          | req =>
            simp only
            split
            · exact .inl rfl
            · cases hn : argv[i + 1]? with
              | none => exact .inl rfl
              | some x => exact .inr ⟨rfl, (List.getElem?_eq_some_iff.1 hn).1⟩
      refine ⟨by omega, .inr ⟨scan_done _ _ _, by omega, by omega⟩⟩

/-! ## The tables -/

/-- The bytes of a name. -/
def w (s : String) : Word := s.toList.map Char.toNat

/-- src/xcc/main.c:310-349; the codes from 128 on are those of the enumeration at
main.c:289-308. -/
def xccTable : List Option' := [
  ⟨w "c", .no, 0⟩, ⟨w "E", .no, 0⟩, ⟨w "S", .no, 0⟩, ⟨w "I", .req, 0⟩, ⟨w "isystem", .req, 134⟩,
  ⟨w "idirafter", .req, 135⟩, ⟨w "D", .req, 0⟩, ⟨w "C", .no, 0⟩, ⟨w "o", .req, 0⟩, ⟨w "x", .req, 0⟩,
  ⟨w "O", .opt, 0⟩, ⟨w "l", .req, 0⟩, ⟨w "L", .req, 0⟩, ⟨w "nodefaultlibs", .no, 131⟩, ⟨w "nostdlib", .no, 132⟩,
  ⟨w "nostdinc", .no, 133⟩, ⟨w "Xlinker", .req, 136⟩, ⟨w "shared", .no, 137⟩, ⟨w "-help", .no, 128⟩,
  ⟨w "-version", .no, 129⟩, ⟨w "dumpversion", .no, 130⟩, ⟨w "f", .opt, 0⟩, ⟨w "W", .opt, 0⟩, ⟨w "g", .opt, 0⟩,
  ⟨w "ansi", .no, 138⟩, ⟨w "std", .opt, 139⟩, ⟨w "pedantic", .no, 140⟩, ⟨w "MMD", .no, 141⟩,
  ⟨w "no-pie", .no, 142⟩, ⟨w "-apply-ssa", .no, 143⟩]

/-- src/cc/cc1.c:56-71. -/
def cc1Table : List Option' := [
  ⟨w "-version", .no, 86⟩, ⟨w "O", .opt, 0⟩, ⟨w "fno-", .opt, 128⟩, ⟨w "f", .opt, 0⟩, ⟨w "Wno-", .opt, 129⟩,
  ⟨w "W", .req, 0⟩, ⟨w "-apply-ssa", .no, 130⟩]

/-- src/cpp/cpp.c:19-27, with the codes at cpp.c:13-17. -/
def cppTable : List Option' := [
  ⟨w "I", .req, 0⟩, ⟨w "isystem", .req, 128⟩, ⟨w "idirafter", .req, 129⟩, ⟨w "D", .req, 0⟩, ⟨w "C", .no, 0⟩,
  ⟨w "-version", .no, 86⟩]

/-- src/as/as.c:127-131. -/
def asTable : List Option' := [⟨w "o", .req, 0⟩, ⟨w "-version", .no, 86⟩]

/-- src/ld/ld.c:888-898, with the codes at ld.c:880-886. -/
def ldTable : List Option' := [
  ⟨w "o", .req, 0⟩, ⟨w "e", .req, 0⟩, ⟨w "l", .req, 0⟩, ⟨w "L", .req, 0⟩, ⟨w "Map", .req, 130⟩,
  ⟨w "-version", .no, 86⟩, ⟨w "no-pie", .no, 131⟩]

/-- src/wcc/wcc.c:283-321, with the codes at wcc.c:260-282. -/
def wccTable : List Option' := [
  ⟨w "c", .no, 0⟩, ⟨w "E", .no, 0⟩, ⟨w "I", .req, 0⟩, ⟨w "isystem", .req, 138⟩, ⟨w "idirafter", .req, 139⟩,
  ⟨w "l", .req, 0⟩, ⟨w "L", .req, 0⟩, ⟨w "D", .req, 0⟩, ⟨w "C", .no, 0⟩, ⟨w "o", .req, 0⟩, ⟨w "x", .req, 0⟩,
  ⟨w "e", .req, 0⟩, ⟨w "nodefaultlibs", .no, 135⟩, ⟨w "nostdlib", .no, 136⟩, ⟨w "nostdinc", .no, 137⟩,
  ⟨w "-import-module-name", .req, 134⟩, ⟨w "-verbose", .no, 131⟩, ⟨w "-entry-point", .req, 132⟩,
  ⟨w "-stack-size", .req, 133⟩, ⟨w "-help", .no, 128⟩, ⟨w "-version", .no, 129⟩, ⟨w "dumpversion", .no, 130⟩,
  ⟨w "fno-", .opt, 140⟩, ⟨w "f", .opt, 0⟩, ⟨w "Wno-", .opt, 141⟩, ⟨w "W", .opt, 0⟩, ⟨w "O", .req, 142⟩,
  ⟨w "g", .req, 143⟩, ⟨w "ansi", .no, 144⟩, ⟨w "std", .req, 145⟩, ⟨w "pedantic", .no, 146⟩, ⟨w "MMD", .no, 147⟩]

/-- C92: the six programs' tables have no entry that hides another. -/
theorem tables_ok : TableOk xccTable ∧ TableOk wccTable ∧ TableOk cc1Table ∧ TableOk cppTable ∧
    TableOk asTable ∧ TableOk ldTable := by
  decide +kernel

/-- C92: no two options of the driver, or of another program, have the same code. -/
theorem codes_distinct : (xccTable.map key).Nodup ∧ (wccTable.map key).Nodup ∧ (cc1Table.map key).Nodup ∧
    (cppTable.map key).Nodup ∧ (asTable.map key).Nodup ∧ (ldTable.map key).Nodup := by
  decide +kernel

/-! ## The driver -/

/-- `-l`, src/xcc/main.c:438-454: the word passed on to the linker, from
`argv[optind - 1]`.  `none` is undefined: `sb_append(&sb, "-l", optarg)` takes
`optarg` as the end of the string literal, so all bytes between the literal and the
argument are copied (src/util/util.c:580, `end - start`). -/
def libWord (last : Word) : Option Word := if (w "-l").isPrefixOf last then some last else none

/-- C92 (partial, see `lib_separate_undefined`): `-lfoo` is passed on as it is. -/
theorem lib_joined_partial (a0 a : Word) (ws : List Word) (ha : a ≠ []) :
    (∃ b, optparse xccTable (a0 :: (w "-l" ++ a) :: ws) 1 = (.option 108 (some b), 2)) ∧
    libWord (w "-l" ++ a) = some (w "-l" ++ a) := by
  have hb : Best xccTable ⟨w "l", .req, 0⟩ (w "l" ++ a) := by
    refine find_best tables_ok.1 ?_
    simp [xccTable, acc, w]
  have hw : w "-l" ++ a = 45 :: (w "l" ++ a) := rfl
  refine ⟨?_, ?_⟩
  · refine ⟨dropEq a, ?_⟩
    have hd : ¬ ((45 :: (w "l" ++ a)).headD 0 ≠ 45 ∨ (45 :: (w "l" ++ a)).drop 1 = []) := dash (by simp [w])
    rw [hw]
    simp only [optparse, List.getElem?_cons_succ, List.getElem?_cons_zero, Nat.succ_ne_zero, if_false]
    rw [if_neg hd, List.drop_succ_cons, List.drop_zero, scan_find, best_find tables_ok.1 hb]
    simp only [finish, List.drop_left, ne_eq, ha, not_false_eq_true, if_true]
    rfl
  · rw [libWord, if_pos]
    rw [List.isPrefixOf_iff_prefix]
    exact ⟨a, rfl⟩

/-- Finding: `-l foo`, a library in the next word, is taken as that option, and then
undefined, unless the word itself begins with `-l`. -/
theorem lib_separate_undefined (a0 a : Word) (ws : List Word) (ha : (w "-l").isPrefixOf a = false) :
    optparse xccTable (a0 :: w "-l" :: a :: ws) 1 = (.option 108 (some a), 3) ∧ libWord a = none := by
  refine ⟨?_, by simp [libWord, ha]⟩
  have hb : Best xccTable ⟨w "l", .req, 0⟩ (w "l") := find_best tables_ok.1 (by decide +kernel)
  have hd : ¬ ((45 :: w "l").headD 0 ≠ 45 ∨ (45 :: w "l").drop 1 = []) := dash (by simp [w])
  have hw : w "-l" = 45 :: w "l" := rfl
  rw [hw]
  simp only [optparse, List.getElem?_cons_succ, List.getElem?_cons_zero, Nat.succ_ne_zero, if_false]
  rw [if_neg hd, List.drop_succ_cons, List.drop_zero, scan_find, best_find tables_ok.1 hb]
  rfl

/-- Finding: `-` is never an unknown option, so the driver's code for reading the
source from the standard input (src/xcc/main.c:460-464) is never reached; `-` is
taken as the name of a file. -/
theorem dash_is_operand {t : List Option'} (ht : TableOk t) (a0 : Word) (ws : List Word) :
    .bad [45] ∉ run t (a0 :: ws) := by
  have h := (command_line_read ht a0 ws _).1 rfl
  generalize run t (a0 :: ws) = is at h
  induction h with
  | nil => simp
  | operand _ _ ih => simpa using ih
  | flag _ _ _ ih => simpa using ih
  | separate _ _ _ ih => simpa using ih
  | joined _ _ _ _ _ ih => simpa using ih
  | equals _ _ _ ih => simpa using ih
  | missing hb _ =>
    have := ht.2 _ hb.1
    simpa using fun h => this h
  | noArgument hb _ _ ih => simpa using ih
  | unknown hp _ _ ih =>
    simp only [List.mem_cons, not_or]
    refine ⟨?_, ih⟩
    intro h
    simp only [Item.bad.injEq, List.cons.injEq, true_and] at h
    exact hp h.symm

/-- Finding: in the WebAssembly compiler `-g` and `-O` require an argument, so
`wcc -g a.c` takes `a.c` as that argument, which it ignores, and has no source. -/
theorem wcc_debug_takes_source (a0 a : Word) :
    run wccTable [a0, w "-g", a] = [.option 143 (some a)] ∧ run wccTable [a0, w "-O", a] = [.option 142 (some a)] := by
  have hg : Best wccTable ⟨w "g", .req, 143⟩ (w "g") := find_best tables_ok.2.1 (by decide +kernel)
  have hO : Best wccTable ⟨w "O", .req, 142⟩ (w "O") := find_best tables_ok.2.1 (by decide +kernel)
  exact ⟨(command_line_read tables_ok.2.1 a0 _ _).2 (.separate hg rfl .nil),
    (command_line_read tables_ok.2.1 a0 _ _).2 (.separate hO rfl .nil)⟩

/-- `xcc -c a.c -oa.o -std=c99 -O -I inc - -zz -D` -/
example : run xccTable [w "xcc", w "-c", w "a.c", w "-oa.o", w "-std=c99", w "-O", w "-I", w "inc", w "-", w "-zz",
      w "-D"] =
    [.option 99 none, .operand (w "a.c"), .option 111 (some (w "a.o")), .option 139 (some (w "c99")),
     .option 79 none, .option 73 (some (w "inc")), .operand [45], .bad (w "-zz"), .bad (w "-D")] := by
  decide +kernel

/-- In the compiler `-fno-x` is `fno-` with `x`, and `-fx` is `f`. -/
example : run cc1Table [w "cc1", w "-fno-x", w "-fx", w "-c"] =
    [.option 128 (some (w "x")), .option 102 (some (w "x")), .bad (w "-c")] := by
  decide +kernel

end Verif.Opt

/-
The SSA form that `make_ssa` yields is strict if the function reads only its parameters before it assigns them; so
copy propagation applies to it (C61).

/repo/src/cc/backend/ssa.c:15-196, /repo/src/cc/backend/optimize.c:636-664 (the first passes with `-O`).
-/
import Verif.Backend.CopyProp

namespace Verif.CopyProp
open Verif.Ir Verif.Edges Verif.Ssa

variable {K V S : Type}

section
variable {mem param : Nat → Bool} {n0 : Nat} {blocks : List (Block K V)} {frm : Nat → List Nat}

/-! ### The two notions of liveness agree on a function without phi functions -/

theorem reads_toIr {i : Ins K V} {x : Nat} : Reads i x ↔ (toIr i).opr1 = some x ∨ (toIr i).opr2 = some x := by
  have : ∀ o : Option (Opr V), o = some (.reg x) ↔ o.bind regOf = some x := by
    intro o
    cases o with
    | none => simp
    | some o => cases o <;> simp [regOf]
  simp only [Reads, toIr, this]

theorem regOf_iff {o : Opr V} {x : Nat} : o = .reg x ↔ regOf o = some x := by cases o <;> simp [regOf]

theorem lastReads_lastIr {l : Last K V} {x : Nat} : LastReads x l ↔ RegFlow.UseBeforeDef (lastIr l) x := by
  constructor
  · intro h
    cases l with
    | next => exact h.elim
    | jmp c => exact h.elim
    | cjmp k o1 o2 c =>
      refine ⟨[], _, [], rfl, ?_, by simp⟩
      exact h.imp regOf_iff.1 regOf_iff.1
    | tjmp o bs => exact ⟨[], _, [], rfl, .inl (regOf_iff.1 h), by simp⟩
  · rintro ⟨pre, ir, post, h1, h2, _⟩
    have hm : ir ∈ lastIr l := by rw [h1]; simp
    cases l with
    | next => simp [lastIr] at hm
    | jmp c => simp [lastIr] at hm
    | cjmp k o1 o2 c =>
      simp only [lastIr, List.mem_singleton] at hm
      subst hm
      exact h2.imp regOf_iff.2 regOf_iff.2
    | tjmp o bs =>
      simp only [lastIr, List.mem_singleton] at hm
      subst hm
      rcases h2 with h2 | h2
      · exact regOf_iff.2 h2
      · cases h2

theorem Input.irs (h : Input mem n0 blocks frm) (b : Nat) : irsOf blocks b = (code blocks b).body.map toIr ++ lastIr (code blocks b).last := by
  unfold irsOf code
  rw [List.getD_eq_getElem?_getD]
  cases blocks[b]? with
  | none => rfl
  | some B => rfl

theorem code_nophi (h : Input mem n0 blocks frm) (b : Nat) : (code blocks b).phis = [] := by
  unfold code
  rw [List.getD_eq_getElem?_getD]
  cases hb : blocks[b]? with
  | none => rfl
  | some B => exact h.nophi B (List.mem_of_getElem? hb)

theorem live_flow (h : Input mem n0 blocks frm) {x b : Nat} {is : List (Ins K V)} (hl : Live blocks frm x b is) :
    RegFlow.UseBeforeDef (is.map toIr ++ lastIr (code blocks b).last) x ∨
    (¬ RegFlow.Writes (is.map toIr) x ∧ ∃ c, b ∈ frm c ∧ RegFlow.LiveIn (irsOf blocks) frm x c) := by
  induction hl with
  | use hr => exact .inl ⟨[], _, _, rfl, reads_toIr.1 hr, by simp⟩
  | @skip b i is hd _ ih =>
    rcases ih with h1 | ⟨h1, h2⟩
    · exact .inl (ubd_cons h1 hd)
    · refine .inr ⟨?_, h2⟩
      rintro ⟨ir, h3, h4⟩
      rw [List.map_cons] at h3
      rcases List.mem_cons.1 h3 with rfl | h3
      · exact hd h4
      · exact h1 ⟨ir, h3, h4⟩
  | last hl => exact .inl (lastReads_lastIr.1 hl)
  | edge _ hφ _ => rw [code_nophi h] at hφ; cases hφ
  | @next b c hbc _ _ ih =>
    refine .inr ⟨(by rintro ⟨ir, h3, _⟩; cases h3), c, hbc, ?_⟩
    rw [← Input.irs h c] at ih
    rcases ih with h1 | ⟨h1, d, h2, h3⟩
    · exact .use h1
    · refine .step h2 ?_ h3
      rw [Input.irs h c]
      exact fun hw => h1 (writes_last hw)

theorem liveIn_of_live (h : Input mem n0 blocks frm) {x b : Nat} (hl : Live blocks frm x b (code blocks b).body) : RegFlow.LiveIn (irsOf blocks) frm x b := by
  have := live_flow h hl
  rw [← Input.irs h b] at this
  rcases this with h1 | ⟨h1, d, h2, h3⟩
  · exact .use h1
  · refine .step h2 ?_ h3
    rw [Input.irs h b]
    exact fun hw => h1 (writes_last hw)

theorem live_of_ubd {x b : Nat} : ∀ (is : List (Ins K V)), RegFlow.UseBeforeDef (is.map toIr ++ lastIr (code blocks b).last) x → Live blocks frm x b is
  | [], h => .last (lastReads_lastIr.2 h)
  | i :: is, h => by
    obtain ⟨pre, ir, post, h1, h2, h3⟩ := h
    cases pre with
    | nil =>
      simp only [List.map_cons, List.cons_append, List.nil_append, List.cons.injEq] at h1
      rw [← h1.1] at h2
      exact .use (reads_toIr.2 h2)
    | cons j pre =>
      simp only [List.map_cons, List.cons_append, List.cons.injEq] at h1
      refine .skip ?_ (live_of_ubd is ⟨pre, ir, post, h1.2, h2, fun i hi => h3 i (List.mem_cons_of_mem _ hi)⟩)
      have := h3 j (List.mem_cons_self ..)
      rw [← h1.1] at this
      exact this

theorem live_back {x b : Nat} (hl : Live blocks frm x b []) : ∀ (is : List (Ins K V)), ¬ RegFlow.Writes (is.map toIr) x → Live blocks frm x b is
  | [], _ => hl
  | i :: is, h => .skip (fun hd => h ⟨toIr i, List.mem_cons_self .., hd⟩) (live_back hl is (fun ⟨ir, h1, h2⟩ => h ⟨ir, List.mem_cons_of_mem _ h1, h2⟩))

theorem live_of_liveIn (h : Input mem n0 blocks frm) {x b : Nat} (hl : RegFlow.LiveIn (irsOf blocks) frm x b) : Live blocks frm x b (code blocks b).body := by
  induction hl with
  | use hu => rw [Input.irs h] at hu; exact live_of_ubd _ hu
  | @step b c hbc hw _ ih =>
    apply live_back (.next hbc (by rw [code_nophi h]; simp) ih)
    intro hw'
    apply hw
    rw [Input.irs h]
    obtain ⟨ir, h1, h2⟩ := hw'
    exact ⟨ir, List.mem_append_left _ h1, h2⟩

/-! ### Renamed registers are live where the originals are -/

theorem renOpr_reg {cur : Cur} {o : Opr V} {v : Nat} (hm : mem v = false) (h : renOpr mem cur o = .reg v) : ∃ x, o = .reg x ∧ mem x = false ∧ cur x = v := by
  cases o with
  | const w => simp [renOpr] at h
  | reg x =>
    simp only [renOpr, Opr.reg.injEq, renReg] at h
    split at h
    · rename_i hx; subst h; rw [hm] at hx; cases hx
    · rename_i hx; exact ⟨x, rfl, by simpa using hx, h⟩

theorem code_withPhis {n b : Nat} {st : St K V} (hb : b < n) : code (withPhis mem n frm st) b =
    { st.code b with phis := insertPhis mem frm st.ra.of st.ins st.outs (List.range' 1 (n - 1)) (fun _ => 0) b } := by
  simp [code, withPhis, hb]

theorem code_withPhis_ge {n b : Nat} {st : St K V} (hb : n ≤ b) : code (withPhis mem n frm st) b = emptyBlock := by
  simp only [code, List.getD_eq_getElem?_getD]
  rw [List.getElem?_eq_none (by simpa [withPhis] using hb)]
  rfl

theorem rows_length (of : Nat → Nat) (outs : Nat → List Nat) : ∀ (ps : List Nat) (fv : Cur), (rows of outs ps fv).1.length = ps.length
  | [], _ => rfl
  | p :: ps, fv => by simp [rows, rows_length of outs ps]

theorem reach_frm (h : Input mem n0 blocks frm) {p c : Nat} (hp : p ∈ frm c) : Reach (succ blocks) p ∧ Reach (succ blocks) c := by
  have := h.edges.mem.1 hp
  exact ⟨this.1, this.1.step this.2⟩

theorem greach_iff (h : Input mem n0 blocks frm) {b : Nat} : GReach frm b ↔ Reach (succ blocks) b := by
  constructor
  · intro hb
    induction hb with
    | zero => exact .zero
    | step _ hp _ => exact (reach_frm h hp).2
  · intro hb
    induction hb with
    | zero => exact .zero
    | step hp hc ih => exact ih.step (h.edges.mem.2 ⟨hp, hc⟩)

theorem Input.graph (h : Input mem n0 blocks frm) : Graph frm :=
  ⟨h.start, fun _ _ hp => (greach_iff h).2 (reach_frm h hp).1⟩

/-- The renamed function, block by block. -/
structure Ren (mem : Nat → Bool) (n0 : Nat) (blocks : List (Block K V)) (frm : Nat → List Nat) (st : St K V) (cin cout : Nat → Cur) : Prop where
  good : ∀ b, Reach (succ blocks) b → Ssa.Good n0 st.ra (cin b)
  body : ∀ b, Reach (succ blocks) b → Renamed mem st.ra.Ver (cin b) (code blocks b).body (cout b) (st.code b).body
  last : ∀ b, Reach (succ blocks) b → (st.code b).last = renLast mem (cout b) (code blocks b).last
  start : cin 0 = id
  single : ∀ b p, frm b = [p] → ∀ x, RegFlow.LiveIn (irsOf blocks) frm x b → mem x = false → cin b x = cout p x
  phi : ∀ c, ∀ φ ∈ insertPhis (V := V) mem frm st.ra.of st.ins st.outs (List.range' 1 (blocks.length - 1)) (fun _ => 0) c,
    2 ≤ (frm c).length ∧ mem φ.dst = false ∧ φ.params.length = (frm c).length ∧
    ∃ x, mem x = false ∧ RegFlow.LiveIn (irsOf blocks) frm x c ∧ φ.dst = cin c x ∧
      ∀ (k p : Nat), (frm c)[k]? = some p → φ.params[k]? = some (.reg (cout p x)) ∧ mem (cout p x) = false
  merged : ∀ c, 2 ≤ (frm c).length → ∀ x, mem x = false → RegFlow.LiveIn (irsOf blocks) frm x c →
    ∃ φ ∈ insertPhis (V := V) mem frm st.ra.of st.ins st.outs (List.range' 1 (blocks.length - 1)) (fun _ => 0) c, φ.dst = cin c x

theorem Input.ren (h : Input mem n0 blocks frm) (param : Nat → Bool) : ∃ fl cin cout,
    RegFlow.analyze (irsOf blocks) frm blocks.length (RegFlow.fuelFor frm blocks.length) = some fl ∧
    Ren mem n0 blocks frm (transform mem param n0 blocks frm fl) cin cout := by
  obtain ⟨fl, cin, cout, hfl, hin, hout, hnd, hok, done, hD⟩ := h.transform param
  refine ⟨fl, cin, cout, hfl, ?_⟩
  generalize Ssa.transform mem param n0 blocks frm fl = st at hok hD ⊢
  have hvm : ∀ v x, st.ra.Ver v x → mem x = false → mem v = false := fun v x hv hx => ver_mem hok h.mem hv hx
  have houtlow : ∀ p, ∀ x ∈ fl.outs p, x < n0 := fun p x hx => by
    obtain ⟨c, _, h6⟩ := (hout p x).1 hx
    exact h.live_low h6
  have hcr : ∀ c, 2 ≤ (frm c).length → Reach (succ blocks) c ∧ c ∈ List.range' 1 (blocks.length - 1) := by
    intro c hc
    cases hf : frm c with
    | nil => rw [hf] at hc; simp at hc
    | cons p ps =>
      have hp : p ∈ frm c := by rw [hf]; exact List.mem_cons_self ..
      refine ⟨(reach_frm h hp).2, ?_⟩
      have h1 := h.wf _ _ (h.edges.mem.1 hp).2
      have h2 : c ≠ 0 := by rintro rfl; rw [h.start] at hp; cases hp
      rw [List.mem_range'_1]; omega
  refine ⟨fun b hb => (hD b hb).gin, fun b hb => (hD b hb).body, fun b hb => (hD b hb).last, (hD 0 .zero).start h.start, ?_, ?_, ?_⟩
  · intro b p hp x hl hm
    have hpb : p ∈ frm b := by rw [hp]; simp
    exact ((hD b (reach_frm h hpb).2).single p hp).2 x ((hout p x).2 ⟨b, hpb, hl⟩) hm
  · intro c φ hφ
    by_cases hlen : (frm c).length < 2
    · rw [(insertPhis_spec st.ra.of st.ins st.outs c _ _).1 hlen] at hφ; cases hφ
    obtain ⟨hc, hcm⟩ := hcr c (by omega)
    obtain ⟨fv, hphi⟩ := (insertPhis_spec (V := V) (mem := mem) (frm := frm) st.ra.of st.ins st.outs c (List.range' 1 (blocks.length - 1)) (fun _ => 0)).2
      (by omega) hcm
    rw [hphi] at hφ
    obtain ⟨w, hw, rfl⟩ := List.mem_map.1 hφ
    obtain ⟨hw1, hw2⟩ := List.mem_filter.1 hw
    have hmw : mem w = false := by simpa using hw2
    rw [(hD c hc).ins] at hw1
    obtain ⟨x, hx1, hx2⟩ := List.mem_map.1 hw1
    have hmx : mem x = false := by
      cases hm : mem x with
      | false => rfl
      | true =>
        simp only [renReg, hm, if_true] at hx2
        subst hx2
        rw [hm] at hmw; cases hmw
    simp only [renReg, hmx, Bool.false_eq_true, if_false] at hx2
    have hl := (hin c x).1 hx1
    have hxlow := h.live_low hl
    refine ⟨by omega, hmw, by simp [rows_length], x, hmx, hl, hx2.symm, ?_⟩
    intro k p hk
    have hp : p ∈ frm c := List.mem_of_getElem? hk
    obtain ⟨f, hf1, hf2⟩ := rows_spec (mem := mem) hok (outs := st.outs) (outs0 := fl.outs) (cout := cout) houtlow (frm c)
      (fun p' hp' => ⟨(hD p' (h.edges.mem.1 hp').1).gout, (hD p' (h.edges.mem.1 hp').1).outs⟩) fv k p hk
    have hg := (hD p (reach_frm h hp).1).gout x hxlow
    refine ⟨?_, hvm _ _ hg hmx⟩
    simp only [List.getElem?_map, hf1, Option.map_some]
    rw [← hx2, ((hD c hc).gin x hxlow).2, hf2 x ((hout p x).2 ⟨c, hp, hl⟩)]
    simp [renReg, hmx]
  · intro c hlen x hm hl
    obtain ⟨hc, hcm⟩ := hcr c hlen
    obtain ⟨fv, hphi⟩ := (insertPhis_spec (V := V) (mem := mem) (frm := frm) st.ra.of st.ins st.outs c (List.range' 1 (blocks.length - 1)) (fun _ => 0)).2
      hlen hcm
    rw [hphi]
    have hmem : cin c x ∈ (st.ins c).filter (fun v => !mem v) := by
      rw [List.mem_filter]
      constructor
      · rw [(hD c hc).ins]
        refine List.mem_map.2 ⟨x, (hin c x).2 hl, by simp [renReg, hm]⟩
      · simp [hvm _ _ ((hD c hc).gin x (h.live_low hl)) hm]
    exact ⟨_, List.mem_map_of_mem hmem, rfl⟩

/-- A register that is live in the result is the current version of a register that is live in the function. -/
theorem Ren.live (h : Input mem n0 blocks frm) {st : St K V} {cin cout : Nat → Cur} (hr : Ren mem n0 blocks frm st cin cout) {v b : Nat} (hm : mem v = false) {is' : List (Ins K V)}
    (hl : Live (withPhis mem blocks.length frm st) frm v b is') : Reach (succ blocks) b → ∀ cur is, Renamed mem st.ra.Ver cur is (cout b) is' →
    ∃ x, mem x = false ∧ cur x = v ∧ Live blocks frm x b is := by
  have hcode : ∀ c, Reach (succ blocks) c → (code (withPhis mem blocks.length frm st) c).phis =
      insertPhis mem frm st.ra.of st.ins st.outs (List.range' 1 (blocks.length - 1)) (fun _ => 0) c ∧
      (code (withPhis mem blocks.length frm st) c).body = (st.code c).body ∧ (code (withPhis mem blocks.length frm st) c).last = (st.code c).last := by
    intro c hc
    have hlt : c < blocks.length := by
      cases hc with
      | zero => exact List.length_pos_iff.2 h.ne
      | step _ hc => exact h.wf _ _ hc
    rw [code_withPhis hlt]
    exact ⟨rfl, rfl, rfl⟩
  induction hl with
  | @use b i' is' hrd =>
    intro hb cur is hren
    have key : ∀ (i : Ins K V), i'.o1 = i.o1.map (renOpr mem cur) → i'.o2 = i.o2.map (renOpr mem cur) → ∃ x, mem x = false ∧ cur x = v ∧ Reads i x := by
      intro i h1 h2
      rcases hrd with hrd | hrd
      · rw [h1] at hrd
        obtain ⟨o, h3, h4⟩ := Option.map_eq_some_iff.1 hrd
        obtain ⟨x, rfl, h5, h6⟩ := renOpr_reg hm h4
        exact ⟨x, h5, h6, .inl h3⟩
      · rw [h2] at hrd
        obtain ⟨o, h3, h4⟩ := Option.map_eq_some_iff.1 hrd
        obtain ⟨x, rfl, h5, h6⟩ := renOpr_reg hm h4
        exact ⟨x, h5, h6, .inr h3⟩
    cases hren with
    | keep h1 h2 =>
      obtain ⟨x, h3, h4, h5⟩ := key _ rfl rfl
      exact ⟨x, h3, h4, .use h5⟩
    | dst h1 h2 h3 h4 =>
      rename_i i is d w
      obtain ⟨x, h3, h4, h5⟩ := key i rfl rfl
      exact ⟨x, h3, h4, .use h5⟩
  | @skip b i' is' hd _ ih =>
    intro hb cur is hren
    cases hren with
    | keep h1 h2 =>
      obtain ⟨x, h3, h4, h5⟩ := ih hb _ _ h2
      refine ⟨x, h3, h4, .skip (fun hx => ?_) h5⟩
      rw [h1 x hx] at h3; cases h3
    | dst h1 h2 h3 h4 =>
      rename_i i is d w
      obtain ⟨x, h5, h6, h7⟩ := ih hb _ _ h4
      have hxd : x ≠ d := by
        rintro rfl
        simp only [Cur.set, if_true] at h6
        exact hd (by rw [h6])
      refine ⟨x, h5, ?_, .skip (fun hx => ?_) h7⟩
      · simpa [Cur.set, hxd] using h6
      · rw [h1] at hx
        exact hxd (Option.some.inj hx).symm
  | @last b hl =>
    intro hb cur is hren
    cases hren
    rw [(hcode b hb).2.2, hr.last b hb] at hl
    cases hcl : (code blocks b).last with
    | next => rw [hcl] at hl; exact hl.elim
    | jmp c => rw [hcl] at hl; exact hl.elim
    | cjmp k o1 o2 c =>
      rw [hcl] at hl
      rcases hl with hl | hl
      · obtain ⟨x, h4, h5, h6⟩ := renOpr_reg hm hl
        exact ⟨x, h5, h6, .last (by rw [hcl]; exact .inl h4)⟩
      · obtain ⟨x, h4, h5, h6⟩ := renOpr_reg hm hl
        exact ⟨x, h5, h6, .last (by rw [hcl]; exact .inr h4)⟩
    | tjmp o bs =>
      rw [hcl] at hl
      obtain ⟨x, h4, h5, h6⟩ := renOpr_reg hm hl
      exact ⟨x, h5, h6, .last (by rw [hcl]; exact h4)⟩
  | @edge b c k φ hk hφ hp =>
    intro hb cur is hren
    cases hren
    have hbc : b ∈ frm c := List.mem_of_getElem? hk
    rw [(hcode c (reach_frm h hbc).2).1] at hφ
    obtain ⟨_, _, _, x, hmx, hlx, _, h4⟩ := hr.phi c φ hφ
    have h5 := (h4 k b hk).1
    rw [hp] at h5
    simp only [Option.some.injEq, Opr.reg.injEq] at h5
    exact ⟨x, hmx, h5.symm, .next hbc (by rw [code_nophi h]; simp) (live_of_liveIn h hlx)⟩
  | @next b c hbc hn _ ih =>
    intro hb cur is hren
    cases hren
    have hc := (reach_frm h hbc).2
    obtain ⟨x, h1, h2, h3⟩ := ih hc (cin c) (code blocks c).body (by rw [(hcode c hc).2.1]; exact hr.body c hc)
    have hlx := liveIn_of_live h h3
    refine ⟨x, h1, ?_, .next hbc (by rw [code_nophi h]; simp) h3⟩
    by_cases hlen : 2 ≤ (frm c).length
    · obtain ⟨φ, h4, h5⟩ := hr.merged c hlen x h1 hlx
      exact absurd (h5.trans h2) (hn φ (by rw [(hcode c hc).1]; exact h4))
    · have hf : frm c = [b] := by
        match hf : frm c, hlen, hbc with
        | [q], _, hbc => rw [List.mem_singleton] at hbc; rw [hbc]
        | q :: r :: l, hlen, _ => simp at hlen
      rw [← hr.single c b hf x hlx h1]
      exact h2

/-- The SSA form of a function that reads no register but its parameters before it assigns them is strict. -/
theorem makeSsa_strict (h : Input mem n0 blocks frm) (hclear : ∀ b, ¬ Reach (succ blocks) b → ∀ B, blocks[b]? = some B → B.body = [])
    (hparam : ∀ x, n0 ≤ x → param x = false)
    (hinit : ∀ x, mem x = false → Live blocks frm x 0 (code blocks 0).body → param x = true) :
    ∃ blocks', makeSsa mem param n0 blocks frm = some blocks' ∧ Strict mem param frm blocks' := by
  obtain ⟨fl, cin, cout, hfl, hr⟩ := Input.ren h param
  obtain ⟨P, h1, h2, h3⟩ := makeSsa_single param h hclear
  refine ⟨P, h1, ?_⟩
  have hP : P = withPhis mem blocks.length frm (Ssa.transform mem param n0 blocks frm fl) := by
    rw [makeSsa, hfl] at h1
    exact (Option.some.inj h1).symm
  generalize Ssa.transform mem param n0 blocks frm fl = st at hr hP
  subst hP
  have hlt : ∀ c, Reach (succ blocks) c → c < blocks.length := by
    intro c hc
    cases hc with
    | zero => exact List.length_pos_iff.2 h.ne
    | step _ hc => exact h.wf _ _ hc
  have hphis : ∀ c, ∀ φ ∈ (code (withPhis mem blocks.length frm st) c).phis,
      φ ∈ insertPhis (V := V) mem frm st.ra.of st.ins st.outs (List.range' 1 (blocks.length - 1)) (fun _ => 0) c := by
    intro c φ hφ
    by_cases hc : c < blocks.length
    · rw [code_withPhis hc] at hφ; exact hφ
    · rw [code_withPhis_ge (by omega)] at hφ; cases hφ
  refine ⟨h2, ?_, ?_, ?_, ?_, ?_⟩
  · intro B hB x hx hm
    by_cases hlow : x < n0
    · exact h3 B hB x hx hm hlow
    · exact hparam x (by omega)
  · intro v hm hl
    obtain ⟨x, h4, h5, h6⟩ := hr.live h hm hl .zero (cin 0) (code blocks 0).body (by rw [code_withPhis (hlt 0 .zero)]; exact hr.body 0 .zero)
    rw [hr.start] at h5
    have : x = v := h5
    subst this
    exact hinit x hm h6
  · intro B hB φ hφ
    obtain ⟨c, hc⟩ := List.mem_iff_getElem?.1 hB
    have hcB : code (withPhis mem blocks.length frm st) c = B := by simp [code, hc]
    obtain ⟨_, h4, h5, x, h6, h7, h8, h9⟩ := hr.phi c φ (hphis c φ (by rw [hcB]; exact hφ))
    refine ⟨h4, ?_⟩
    intro y hy
    obtain ⟨k, hk⟩ := List.mem_iff_getElem?.1 hy
    have hkl : k < (frm c).length := by rw [← h5]; exact (List.getElem?_eq_some_iff.1 hk).1
    obtain ⟨h10, h11⟩ := h9 k _ (List.getElem?_eq_getElem hkl)
    rw [hk] at h10
    simp only [Option.some.injEq, Opr.reg.injEq] at h10
    rw [h10]; exact h11
  · intro c φ hφ
    exact (hr.phi c φ (hphis c φ hφ)).2.2.1
  · intro b c hb hc
    have hbr := (greach_iff h).1 hb
    apply h.edges.mem.2 ⟨hbr, ?_⟩
    have hbl := hlt b hbr
    simp only [succ, code_some hbl]
    simp only [succ] at hc
    rw [code_some (blocks := withPhis mem blocks.length frm st) (by simpa [withPhis] using hbl)] at hc
    rw [code_withPhis hbl] at hc
    simp only at hc
    rw [hr.last b hbr] at hc
    have hlen : (withPhis mem blocks.length frm st).length = blocks.length := by simp [withPhis]
    rw [hlen] at hc
    cases hl : (code blocks b).last <;> rw [hl] at hc <;> exact hc

end

theorem copyProp_mono [DecidableEq V] {c : Params K V} {frm : Nat → List Nat} : ∀ (n : Nat) {m : Nat} {P Q : List (Block K V)}, copyProp c frm n P = some Q → n ≤ m →
    copyProp c frm m P = some Q
  | 0, _, _, _, h, _ => by cases h
  | n + 1, 0, _, _, _, hm => by omega
  | n + 1, m + 1, P, Q, h, hm => by
    unfold copyProp at h ⊢
    dsimp only at h ⊢
    split at h
    · rename_i ha
      rw [if_pos ha]
      exact copyProp_mono n h (by omega)
    · rename_i ha
      rw [if_neg ha]; exact h

theorem used_finite (blocks : List (Block K V)) : ∃ L : List Nat, ∀ x, Used blocks x → x ∈ L := by
  refine ⟨blocks.flatMap fun B => B.phis.flatMap (fun φ => φ.params.filterMap regOf) ++ B.body.flatMap (fun i => i.o1.toList.filterMap regOf ++ i.o2.toList.filterMap regOf) ++
    match B.last with
    | .cjmp _ o1 o2 _ => [o1, o2].filterMap regOf
    | .tjmp o _ => [o].filterMap regOf
    | _ => [], ?_⟩
  rintro x ⟨B, hB, hx⟩
  refine List.mem_flatMap.2 ⟨B, hB, ?_⟩
  simp only [List.mem_append, List.mem_flatMap, List.mem_filterMap]
  rcases hx with ⟨φ, h1, h2⟩ | ⟨i, h1, h2⟩ | h
  · exact .inl (.inl ⟨φ, h1, _, h2, rfl⟩)
  · refine .inl (.inr ⟨i, h1, ?_⟩)
    rcases h2 with h2 | h2
    · exact .inl ⟨.reg x, by rw [h2]; simp, rfl⟩
    · exact .inr ⟨.reg x, by rw [h2]; simp, rfl⟩
  · refine .inr ?_
    cases hl : B.last with
    | next => rw [hl] at h; exact h.elim
    | jmp c => rw [hl] at h; exact h.elim
    | cjmp k o1 o2 c =>
      rw [hl] at h
      simp only [List.mem_filterMap]
      rcases h with h | h
      · exact ⟨o1, by simp, by rw [h]; rfl⟩
      · exact ⟨o2, by simp, by rw [h]; rfl⟩
    | tjmp o bs =>
      rw [hl] at h
      simp only [List.mem_filterMap]
      exact ⟨o, by simp, by rw [show o = .reg x from h]; rfl⟩

/-- **C61**: with `-O`, the translation to SSA form and copy propagation yield a function that does what the given one
does, if it reads no register but its parameters before it assigns them. -/
theorem ssa_copyProp_refines [DecidableEq V] {M : Machine K V S} {c : Params K V} {param : Nat → Bool} {n0 : Nat} {blocks : List (Block K V)} {frm : Nat → List Nat}
    (hc : c.Ok M) (h : Input c.mem n0 blocks frm) (hclear : ∀ b, ¬ Reach (succ blocks) b → ∀ B, blocks[b]? = some B → B.body = [])
    (hparam : ∀ x, n0 ≤ x → param x = false)
    (hinit : ∀ x, c.mem x = false → Live blocks frm x 0 (code blocks 0).body → param x = true) :
    ∃ P Q N, makeSsa c.mem param n0 blocks frm = some P ∧ (∀ n, N < n → copyProp c frm n P = some Q) ∧
      Refines M c.mem ⟨blocks, frm⟩ ⟨Q, frm⟩ ∧ Strict c.mem param frm Q := by
  obtain ⟨P, h1, h2⟩ := makeSsa_strict h hclear hparam hinit
  obtain ⟨P', h1', h3⟩ := makeSsa_refines M param h
  rw [h1] at h1'
  cases h1'
  obtain ⟨L, hL⟩ := used_finite P
  obtain ⟨Q, h4, h5, _⟩ := copyProp_good (M := M) hc (Input.graph h) (L.length + 1) L P h2 hL (by omega)
  exact ⟨P, Q, L.length, h1, fun n hn => copyProp_mono _ h4 hn, h3.trans h5.refines, h5.strict⟩

/-! ### Example: a loop that counts -/

/-- `i = 0; while (i ? 9) { j = i; i = j + 1; } return i;`: `true` is a move, `false` adds; register 1 lives in memory. -/
def loop : List (Block Bool Nat) :=
  [⟨[], [⟨true, some 0, some (.const 0), none⟩], .next⟩,
   ⟨[], [], .cjmp false (.reg 0) (.const 9) 3⟩,
   ⟨[], [⟨true, some 2, some (.reg 0), none⟩, ⟨false, some 0, some (.reg 2), some (.const 1)⟩], .jmp 1⟩,
   ⟨[], [⟨false, none, some (.reg 0), some (.reg 1)⟩], .next⟩]

def loopFold (i : Ins Bool Nat) : Option (Ins Bool Nat) :=
  match i with
  | ⟨false, d, some (.const a), some (.const b)⟩ => some ⟨true, d, some (.const (a + b)), none⟩
  | _ => none

def loopParams : Params Bool Nat := ⟨fun r => r == 1, fun _ => false, true, id, loopFold, fun _ => none⟩

def adder : Machine Bool Nat (List Nat) :=
  { exec := fun k a b s => .ok (if k then a.getD 0 else a.getD 0 + b.getD 0, s)
    test := fun _ a b => a == b
    index := id
    get := fun s r => s.getD r 0
    set := fun s r v => s.set r v }

theorem loop_ok : loopParams.Ok adder := by
  refine ⟨?_, rfl, ?_, by intro l l' h; cases h⟩
  · intro k hk v w s
    have : k = true := hk
    subst this; rfl
  · intro i i' h
    simp only [loopParams, loopFold] at h
    split at h
    · simp only [Option.some.injEq] at h
      subst h
      refine ⟨rfl, ?_, fun _ _ _ _ => rfl⟩
      intro x hx
      rcases hx with hx | hx <;> simp at hx
    · cases h

theorem loop_frm : fromBbs loop = fun b => if b = 1 then [0, 2] else if b = 2 then [1] else if b = 3 then [1] else [] := by
  funext b
  by_cases h1 : b = 1
  · subst h1; simp [fromBbs, loop, detect, succ, succs, addEdges, List.range, List.range.loop, List.erase]
  · by_cases h2 : b = 2
    · subst h2; simp [fromBbs, loop, detect, succ, succs, addEdges, List.range, List.range.loop, List.erase]
    · by_cases h3 : b = 3
      · subst h3; simp [fromBbs, loop, detect, succ, succs, addEdges, List.range, List.range.loop, List.erase]
      · simp [fromBbs, loop, detect, succ, succs, addEdges, List.range, List.range.loop, List.erase, h1, h2, h3]

theorem loop_wf : WellFormed loop := by
  intro b c
  have : b = 0 ∨ b = 1 ∨ b = 2 ∨ b = 3 ∨ 4 ≤ b := by omega
  rcases this with h | h | h | h | h
  · subst h; simp [succ, succs, loop]; omega
  · subst h; simp [succ, succs, loop]; omega
  · subst h; simp [succ, succs, loop]; omega
  · subst h; simp [succ, succs, loop]
  · have : loop[b]? = none := List.getElem?_eq_none (by simpa [loop] using h)
    simp [succ, this]

theorem loop_input : Input (fun r => r == 1) 3 loop (fromBbs loop) :=
  ⟨loop_wf, by simp [loop], fromBbs_exact loop_wf (by simp [loop]), by rw [loop_frm]; rfl, by decide, by
    intro B hB ir hir r hr
    simp only [loop, List.mem_cons, List.not_mem_nil, or_false] at hB
    rcases hB with rfl | rfl | rfl | rfl <;> simp [blockIrs, lastIr, toIr, regOf] at hir <;>
      (try rcases hir with rfl | rfl) <;> (try subst hir) <;> simp at hr <;> omega, by
    intro r hr
    simp; omega⟩

theorem loop_clear : ∀ b, ¬ Reach (succ loop) b → ∀ B, loop[b]? = some B → B.body = [] := by
  intro b hb B hB
  exfalso
  apply hb
  have h0 : Reach (succ loop) 0 := .zero
  have h1 : Reach (succ loop) 1 := h0.step (by simp [succ, succs, loop])
  have h2 : Reach (succ loop) 2 := h1.step (by simp [succ, succs, loop])
  have h3 : Reach (succ loop) 3 := h1.step (by simp [succ, succs, loop])
  have : b < 4 := (List.getElem?_eq_some_iff.1 hB).1
  have : b = 0 ∨ b = 1 ∨ b = 2 ∨ b = 3 := by omega
  rcases this with rfl | rfl | rfl | rfl <;> assumption

/-- No register is read before it is assigned. -/
theorem loop_init (x : Nat) (hm : (x == 1) = false) (hl : Live loop (fromBbs loop) x 0 (code loop 0).body) : false = true := by
  exfalso
  have hlow := Input.live_low loop_input (liveIn_of_live loop_input hl)
  have hx : x = 0 ∨ x = 2 := by
    have : x ≠ 1 := by simpa using hm
    omega
  have hno : ∀ b, b < 4 → ¬ RegFlow.UseBeforeDef (irsOf loop b) 2 := by
    intro b hb
    rintro ⟨pre, ir, post, h1, h2, h3⟩
    have hir : ir ∈ irsOf loop b := by rw [h1]; simp
    have : b = 0 ∨ b = 1 ∨ b = 2 ∨ b = 3 := by omega
    rcases this with rfl | rfl | rfl | rfl
    · simp [irsOf, loop, blockIrs, lastIr, toIr, regOf] at hir
      subst hir; simp at h2
    · simp [irsOf, loop, blockIrs, lastIr, toIr, regOf] at hir
      subst hir; simp at h2
    · simp only [irsOf, loop, blockIrs, List.getElem?_cons_succ, List.getElem?_cons_zero, List.map_cons, List.cons_append] at h1
      cases pre with
      | nil =>
        simp only [List.nil_append, List.cons.injEq] at h1
        rw [← h1.1] at h2
        simp [toIr, regOf] at h2
      | cons p pre =>
        simp only [List.cons_append, List.cons.injEq] at h1
        have := h3 p (List.mem_cons_self ..)
        rw [← h1.1] at this
        exact this rfl
    · simp [irsOf, loop, blockIrs, lastIr, toIr, regOf] at hir
      subst hir; simp at h2
  rcases hx with rfl | rfl
  · have hl : Live loop (fromBbs loop) 0 0 [⟨true, some 0, some (.const 0), none⟩] := hl
    cases hl with
    | use h => rcases h with h | h <;> cases h
    | skip h _ => exact h rfl
  · have h2 : ∀ b, RegFlow.LiveIn (irsOf loop) (fromBbs loop) 2 b → False := by
      intro b h
      induction h with
      | @use b h =>
        by_cases hb : b < 4
        · exact hno b hb h
        · rw [(Input.dom loop_input b (by simpa [loop] using hb)).1] at h
          obtain ⟨pre, ir, post, h4, _⟩ := h
          simp at h4
      | step _ _ _ ih => exact ih
    exact h2 0 (liveIn_of_live loop_input hl)

/-- The hypotheses of `ssa_copyProp_refines` hold for the loop. -/
example : ∃ P Q N, makeSsa loopParams.mem (fun _ => false) 3 loop (fromBbs loop) = some P ∧ (∀ n, N < n → copyProp loopParams (fromBbs loop) n P = some Q) ∧
    Refines adder loopParams.mem ⟨loop, fromBbs loop⟩ ⟨Q, fromBbs loop⟩ ∧ Strict loopParams.mem (fun _ => false) (fromBbs loop) Q :=
  ssa_copyProp_refines loop_ok loop_input loop_clear (fun _ _ => rfl) loop_init

/-- The SSA form of the loop: the copy 2 of 3 is replaced in the next instruction. -/
example : copyProp loopParams (fromBbs loop) 5
    [⟨[], [⟨true, some 0, some (.const 0), none⟩], .next⟩,
     ⟨[⟨3, [.reg 0, .reg 4]⟩], [], .cjmp false (.reg 3) (.const 9) 3⟩,
     ⟨[], [⟨true, some 2, some (.reg 3), none⟩, ⟨false, some 4, some (.reg 2), some (.const 1)⟩], .jmp 1⟩,
     ⟨[], [⟨false, none, some (.reg 3), some (.reg 1)⟩], .next⟩] =
    some [⟨[], [⟨true, some 0, some (.const 0), none⟩], .next⟩,
     ⟨[⟨3, [.const 0, .reg 4]⟩], [], .cjmp false (.reg 3) (.const 9) 3⟩,
     ⟨[], [⟨true, some 2, some (.reg 3), none⟩, ⟨false, some 4, some (.reg 3), some (.const 1)⟩], .jmp 1⟩,
     ⟨[], [⟨false, none, some (.reg 3), some (.reg 1)⟩], .next⟩] := by
  rw [loop_frm]; decide +kernel

/-- A phi function with one value becomes a move, and its result is replaced: `3` by `0`, after it `0` by the constant;
a second round is needed for the jump before it. -/
example : copyProp loopParams (fromBbs loop) 5
    [⟨[], [⟨true, some 0, some (.const 5), none⟩], .next⟩,
     ⟨[⟨3, [.reg 0, .reg 3]⟩], [], .cjmp false (.reg 3) (.const 9) 3⟩,
     ⟨[], [⟨false, some 4, some (.reg 3), some (.const 1)⟩], .jmp 1⟩,
     ⟨[], [⟨false, none, some (.reg 3), some (.reg 1)⟩], .next⟩] =
    some [⟨[], [⟨true, some 0, some (.const 5), none⟩], .next⟩,
     ⟨[], [⟨true, some 3, some (.const 5), none⟩], .cjmp false (.const 5) (.const 9) 3⟩,
     ⟨[], [⟨true, some 4, some (.const 6), none⟩], .jmp 1⟩,
     ⟨[], [⟨false, none, some (.const 5), some (.reg 1)⟩], .next⟩] := by
  rw [loop_frm]; decide +kernel

end Verif.CopyProp

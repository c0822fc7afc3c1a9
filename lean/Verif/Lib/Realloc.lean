import Verif.Lib.Malloc

/-!
# What the allocator leaves alone, and realloc

libsrc/stdlib/realloc.c on the model of `malloc` and `free` (`Verif.Lib.Malloc`).
-/

namespace Verif.Malloc

/-- No unit of a block in `live` differs. -/
def Same (live : List Blk) (st st' : St) : Prop :=
  ∀ b ∈ live, ∀ u, b.has u → st'.nxt u = st.nxt u ∧ st'.size u = st.size u

theorem Same.trans {live : List Blk} {a b c : St} (h : Same live a b) (h' : Same live b c) : Same live a c :=
  fun x hx u hu => ⟨(h' x hx u hu).1.trans (h x hx u hu).1, (h' x hx u hu).2.trans (h x hx u hu).2⟩

section
variable {B : Nat} {c : Cfg} {F : List (Nat × Nat)}

theorem Inv.morecore_same (h : Inv B c F) (nu : Nat) (hpos : 0 < nu) (hnu : nu * 16 + 4095 < 2 ^ 63) :
    ∃ ok st', Malloc.morecore (F.length + 1) c.st nu = some (ok, st') ∧ Same c.live c.st st' := by
  have hcu : coreUnits nu < 2 ^ 59 ∧ nu ≤ coreUnits nu ∧ 0 < coreUnits nu := by
    unfold coreUnits; rw [Nat.mod_eq_of_lt (by omega)]; omega
  rcases sbrk_cases c.st (coreUnits nu) hcu.1 with ⟨st', e, e1, e2, e3, e4, e5, e6⟩ | ⟨st', p, e, e1, e2, e3, e4, e5, e6, e7, e8⟩
  · refine ⟨false, st', ?_, fun b _ u _ => by rw [e1, e2]; exact ⟨rfl, rfl⟩⟩
    unfold Malloc.morecore; dsimp only; rw [e]
  · have hbrk := h.brk
    have hlim := h.lim
    have hfl : FL B ({ st' with size := upd st'.size p (u32 (coreUnits nu)) } : St).nxt
        ({ st' with size := upd st'.size p (u32 (coreUnits nu)) } : St).size F := by
      dsimp only
      rw [e1, e2]
      obtain ⟨f1, f2, f3, f4, f5⟩ := h.fl
      refine ⟨f1, f2, f3, fun f hf => ?_, f5⟩
      have hb := h.free_bound f hf
      by_cases hfp : f.1 = p
      · by_cases hfB : f.1 = B
        · omega
        · have := f5 f hf hfB; omega
      · rw [upd_ne _ _ _ _ hfp]; exact f4 f hf
    obtain ⟨st2, F', g1, g2, g3, g4, g5, -, g7, g8, g9, g10, g11⟩ := hfl.free_spec
      (by dsimp only; rw [e3]; exact h.freep) p (coreUnits nu)
      (by dsimp only; rw [upd_same, u32_of_lt (by omega)]) hcu.2.2 (by omega)
      (fun f hf => by have := h.free_bound f hf; omega) (by omega) (fun f hf => h.free_end f hf)
    dsimp only at g5
    refine ⟨true, st2, ?_, fun b hb u hu => ?_⟩
    · unfold Malloc.morecore
      dsimp only
      rw [e]
      dsimp only
      rw [g1 _ (Nat.lt_succ_self _)]; rfl
    · have hbnd := h.live_bound b hb
      have hup : u ≠ p := by
        unfold Blk.has at hu
        omega
      have := g5 u hup (h.live_not_addr b hb u hu)
      rw [this.1, this.2, upd_ne _ _ _ _ hup, e1, e2]
      exact ⟨rfl, rfl⟩

theorem Inv.take_same (h : Inv B c F) (nunits pp a : Nat) (hpp : pp ∈ F.map Prod.fst) (ha : a ∈ F.map Prod.fst)
    (hnext : c.st.nxt pp = a) (hfit : nunits ≤ c.st.size a) (hpos : 0 < nunits) :
    Same c.live c.st (Malloc.take c.st nunits pp a).2 := by
  obtain ⟨F', r, t1, t2, t3, t4, t5, t6, t7, -⟩ :=
    h.fl.take_spec nunits pp a hpp ha hnext hfit hpos (fun f hf => h.free_end f hf)
  intro b hb u hu
  have hbnd := h.live_bound b hb
  have := t7 u (h.live_not_cov b hb u hu) (by unfold Blk.has at hu; omega)
  exact ⟨this.2, this.1⟩

theorem malloc_det {st : St} {n f g : Nat} {r r' : Option Nat × St} (h : Malloc.malloc f st n = some r)
    (h' : Malloc.malloc g st n = some r') : r = r' := by
  have h1 := mallocLoop_mono _ _ g _ _ _ _ h
  have h2 := mallocLoop_mono _ _ f _ _ _ _ h'
  rw [Nat.add_comm, h2] at h1
  exact (Option.some.inj h1).symm

theorem Inv.malloc_same (h : Inv B c F) {n : Nat} (hn : n ≤ 2 ^ 63 - 8192) {fuel : Nat} {r : Option Nat} {st' : St}
    (hm : Malloc.malloc fuel c.st n = some (r, st')) : Same c.live c.st st' := by
  have hu : unitsFor n = (n + 15) / 16 + 1 := by
    unfold unitsFor; rw [Nat.mod_eq_of_lt (by omega)]; rfl
  have hpos : 0 < unitsFor n := by omega
  rcases h.fl.search h.freep (unitsFor n) with ⟨pp, a, k1, k2, k3, k4, k, -, k6⟩ | ⟨hall, k, hk, pp, hw⟩
  · have e : Malloc.malloc (k + (0 + 1)) c.st n = some (some (Malloc.take c.st (unitsFor n) pp a).1,
        (Malloc.take c.st (unitsFor n) pp a).2) := k6 0
    have := malloc_det hm e
    simp only [Prod.mk.injEq] at this
    rw [this.2]
    exact h.take_same _ _ _ k1 k2 k3 k4 hpos
  · obtain ⟨ok, st1, F', m1, m2, m3, m4⟩ := h.morecore (unitsFor n) hpos (by omega)
    obtain ⟨ok', st1', q1, q2⟩ := h.morecore_same (unitsFor n) hpos (by omega)
    rw [m1 _ (Nat.lt_succ_self _)] at q1
    cases q1
    have hfpsz : c.st.size c.st.freep < unitsFor n := by
      obtain ⟨f, hf, e⟩ := List.mem_map.1 h.freep
      rw [← e, h.fl.sz f hf]; exact hall f hf
    cases ok with
    | false =>
      have e : Malloc.malloc (k + ((F.length + 1) + 1)) c.st n = some (none, st1) := by
        unfold Malloc.malloc
        rw [hw, mallocLoop, if_neg (by omega), if_pos rfl, m1 _ (by omega)]
      have := malloc_det hm e
      simp only [Prod.mk.injEq] at this
      rw [this.2]
      exact q2
    | true =>
      obtain ⟨f, hf, hfs⟩ := m4 rfl
      rcases m2.fl.search m2.freep (unitsFor n) with ⟨pp', a, k1, k2, k3, k4, k', hk', k6⟩ | ⟨hall', _⟩
      · have e : Malloc.malloc (k + ((k' + ((F.length) + 1)) + 1)) c.st n =
            some (some (Malloc.take st1 (unitsFor n) pp' a).1, (Malloc.take st1 (unitsFor n) pp' a).2) := by
          unfold Malloc.malloc
          rw [hw, mallocLoop, if_neg (by omega), if_pos rfl, m1 _ (by omega)]
          exact k6 _
        have := malloc_det hm e
        simp only [Prod.mk.injEq] at this
        rw [this.2]
        exact q2.trans (m2.take_same _ _ _ k1 k2 k3 k4 hpos)
      · have := hall' f hf; omega

theorem Inv.free_same (h : Inv B c F) {l₁ l₂ : List Blk} {b : Blk} (hl : c.live = l₁ ++ b :: l₂) {fuel : Nat}
    {st' : St} (hf : Malloc.free fuel c.st b.a = some st') : Same (l₁ ++ l₂) c.st st' := by
  have hb : b ∈ c.live := by rw [hl]; simp
  obtain ⟨l1, l2, l3⟩ := h.liveSz b hb
  have hbnd := h.live_bound b hb
  have hbrk := h.brk
  have hlim := h.lim
  obtain ⟨st2, F', g1, g2, g3, g4, g5, -⟩ := h.fl.free_spec h.freep b.a b.s l1 l2 hbnd.1
    (fun f hf => (h.free b hb f hf).symm) (by omega) (fun f hf => h.free_end f hf)
  have e1 := free_mono _ (F.length + 1) _ _ _ hf
  rw [g1 _ (by omega)] at e1
  cases e1
  intro x hx u hu
  have hxl : x ∈ c.live := by
    rw [hl]
    simp only [List.mem_append, List.mem_cons] at hx ⊢
    rcases hx with hx | hx
    · exact .inl hx
    · exact .inr (.inr hx)
  have hne : u ≠ b.a := by
    have hd := h.disj
    rw [hl] at hd
    have hp := List.pairwise_append.1 hd
    unfold Blk.has at hu
    rcases List.mem_append.1 hx with hx | hx
    · have := hp.2.2 x hx b (by simp)
      omega
    · have := (List.pairwise_cons.1 hp.2.1).1 x hx
      omega
  have := g5 u hne (h.live_not_addr x hxl u hu)
  exact ⟨this.2, this.1⟩

end

/-- C03: `malloc`, whether it succeeds or not, leaves all live blocks as they are, and
`free` all others. -/
theorem contents_kept {B : Nat} {c₀ c : Cfg} (h0 : Start B c₀) (h : Steps c₀ c) :
    (∀ n ≤ 2 ^ 63 - 8192, ∀ fuel r st', malloc fuel c.st n = some (r, st') → Same c.live c.st st') ∧
    (∀ l₁ b l₂, c.live = l₁ ++ b :: l₂ → ∀ fuel st', free fuel c.st b.a = some st' → Same (l₁ ++ l₂) c.st st') := by
  obtain ⟨F, hF⟩ := reachable_inv h0 h
  exact ⟨fun n hn fuel r st' hm => hF.malloc_same hn hm, fun l₁ b l₂ hl fuel st' hf => hF.free_same hl hf⟩

/-! ## realloc -/

/-- `memcpy(buf, p, …)`, libsrc/stdlib/realloc.c:18, in units; `k` of them.  Simplified:
the last unit is copied whole, where the code stops at the byte; the bytes behind are
part of both blocks and hold nothing. -/
def copyUnits (st : St) (a a' k : Nat) : St :=
  { st with
    nxt := fun x => if a' < x ∧ x < a' + 1 + k then st.nxt (a + (x - a')) else st.nxt x
    size := fun x => if a' < x ∧ x < a' + 1 + k then st.size (a + (x - a')) else st.size x }

/-- `realloc` of a block, libsrc/stdlib/realloc.c:5-22; `a` and the result are header
addresses.  Outer `none`: a loop does not end. -/
def realloc (fuel : Nat) (st : St) (a size : Nat) : Option (Option Nat × St) :=
  if size = 0 then (free fuel st a).map fun st => (none, st)
  else match malloc fuel st size with
    | none => none
    | some (none, st) => some (none, st)
    | some (some a', st) =>
      let s := (st.size a - 1) * 16
      let k := ((if size > s then s else size) + 15) / 16
      (free fuel (copyUnits st a a' k) a).map fun st => (some a', st)

/-- C94: a block that is reallocated has its contents as far as both sizes go, room
for the new size, and no other block changes; the allocator is in a state it could have
reached by calls of `malloc` and `free`, so the theorems of C03 hold after it. -/
theorem realloc_moves {B : Nat} {c₀ c : Cfg} (h0 : Start B c₀) (h : Steps c₀ c) {l₁ l₂ : List Blk} {b : Blk}
    (hl : c.live = l₁ ++ b :: l₂) {size fuel a' : Nat} {st' : St} (hs : size ≤ 2 ^ 63 - 8192)
    (hr : realloc fuel c.st b.a size = some (some a', st')) :
    ∃ s, Steps c₀ ⟨st', ⟨a', s, size⟩ :: (l₁ ++ l₂)⟩ ∧ size ≤ 16 * (s - 1) ∧
      (∀ k, 16 * k < b.n → 16 * k < size →
        st'.nxt (a' + 1 + k) = c.st.nxt (b.a + 1 + k) ∧ st'.size (a' + 1 + k) = c.st.size (b.a + 1 + k)) ∧
      Same (l₁ ++ l₂) c.st st' := by
  have hb : b ∈ c.live := by rw [hl]; simp
  obtain ⟨F, hF⟩ := reachable_inv h0 h
  unfold realloc at hr
  by_cases hz : size = 0
  · rw [if_pos hz] at hr
    cases hf : free fuel c.st b.a with
    | none => rw [hf] at hr; cases hr
    | some x => rw [hf] at hr; cases hr
  · rw [if_neg hz] at hr
    cases hm : malloc fuel c.st size with
    | none => rw [hm] at hr; cases hr
    | some r =>
      obtain ⟨r, st1⟩ := r
      rw [hm] at hr
      cases r with
      | none => cases hr
      | some a1 =>
        dsimp only at hr
        generalize hk : ((if size > (st1.size b.a - 1) * 16 then (st1.size b.a - 1) * 16 else size) + 15) / 16 = k at hr
        cases hf : free fuel (copyUnits st1 b.a a1 k) b.a with
        | none => rw [hf] at hr; cases hr
        | some st2 =>
          rw [hf] at hr
          simp only [Option.map_some, Option.some.injEq, Prod.mk.injEq] at hr
          obtain ⟨rfl, rfl⟩ := hr
          have s1 : Steps c₀ ⟨st1, ⟨a1, st1.size a1, size⟩ :: c.live⟩ := .tail h (.alloc hs hm)
          obtain ⟨F1, hF1⟩ := reachable_inv h0 s1
          have hnew := hF1.liveSz ⟨a1, st1.size a1, size⟩ (by simp)
          dsimp only at hnew
          have hbz := hF.liveSz b hb
          have hsame1 := hF.malloc_same hs hm
          have hbsz : st1.size b.a = b.s := by
            rw [(hsame1 b hb b.a ⟨Nat.le_refl _, by omega⟩).2]
            exact hbz.1
          rw [hbsz] at hk
          have hkle : k ≤ st1.size a1 - 1 := by
            split at hk <;> omega
          have hwr : ∀ u, (∀ x ∈ (⟨a1, st1.size a1, size⟩ :: c.live : List Blk), ¬ (x.a < u ∧ u < x.a + x.s)) →
              (copyUnits st1 b.a a1 k).nxt u = st1.nxt u ∧ (copyUnits st1 b.a a1 k).size u = st1.size u := by
            intro u hu
            have hn := hu ⟨a1, st1.size a1, size⟩ (by simp)
            dsimp only at hn
            have hno : ¬ (a1 < u ∧ u < a1 + 1 + k) := by omega
            simp only [copyUnits, if_neg hno, and_self]
          have s2 : Steps c₀ ⟨copyUnits st1 b.a a1 k, ⟨a1, st1.size a1, size⟩ :: c.live⟩ := .tail s1 (.write hwr)
          obtain ⟨F2, hF2⟩ := reachable_inv h0 s2
          have hl2 : (⟨copyUnits st1 b.a a1 k, ⟨a1, st1.size a1, size⟩ :: c.live⟩ : Cfg).live =
              (⟨a1, st1.size a1, size⟩ :: l₁) ++ b :: l₂ := by
            simp [hl]
          have s3 := Steps.tail s2 (.release hl2 hf)
          have hsame2 := hF2.free_same hl2 hf
          dsimp only at hsame2
          have hdis := (List.pairwise_cons.1 hF1.disj).1
          dsimp only at hdis
          refine ⟨st1.size a1, s3, hnew.2.2, ?_, ?_⟩
          · intro j hj1 hj2
            have hjk : j < k := by
              split at hk <;> omega
            have e2 := hsame2 ⟨a1, st1.size a1, size⟩ (by simp) (a1 + 1 + j) (by
              unfold Blk.has
              dsimp only
              omega)
            have hin : a1 < a1 + 1 + j ∧ a1 + 1 + j < a1 + 1 + k := by omega
            have e3 : b.a + (a1 + 1 + j - a1) = b.a + 1 + j := by omega
            have e1 := hsame1 b hb (b.a + 1 + j) (by
              unfold Blk.has
              omega)
            rw [e2.1, e2.2]
            simp only [copyUnits, if_pos hin, e3]
            exact e1
          · intro x hx u hu
            have hxl : x ∈ c.live := by
              rw [hl]
              simp only [List.mem_append, List.mem_cons] at hx ⊢
              rcases hx with hx | hx
              · exact .inl hx
              · exact .inr (.inr hx)
            have e2 := hsame2 x (by
              simp only [List.cons_append, List.mem_cons]
              exact .inr hx) u hu
            have hd := hdis x hxl
            have hno : ¬ (a1 < u ∧ u < a1 + 1 + k) := by
              unfold Blk.has at hu
              omega
            have e1 := hsame1 x hxl u hu
            rw [e2.1, e2.2]
            simp only [copyUnits, if_neg hno]
            exact e1

/-- C94: if there is no memory, the block and all others stay. -/
theorem realloc_fails {B : Nat} {c₀ c : Cfg} (h0 : Start B c₀) (h : Steps c₀ c) {b : Blk}
    {size fuel : Nat} {st' : St} (hs : size ≤ 2 ^ 63 - 8192) (hz : size ≠ 0)
    (hr : realloc fuel c.st b.a size = some (none, st')) : Steps c₀ ⟨st', c.live⟩ ∧ Same c.live c.st st' := by
  obtain ⟨F, hF⟩ := reachable_inv h0 h
  unfold realloc at hr
  rw [if_neg hz] at hr
  cases hm : malloc fuel c.st size with
  | none => rw [hm] at hr; cases hr
  | some r =>
    obtain ⟨r, st1⟩ := r
    rw [hm] at hr
    cases r with
    | none =>
      simp only [Option.some.injEq, Prod.mk.injEq, true_and] at hr
      subst hr
      exact ⟨.tail h (.allocFail hs hm), hF.malloc_same hs hm⟩
    | some a1 =>
      dsimp only at hr
      revert hr
      generalize free fuel _ b.a = o
      intro hr
      cases o with
      | none => cases hr
      | some x => cases hr

/-- C94: size 0 frees the block. -/
theorem realloc_zero {B : Nat} {c₀ c : Cfg} (h0 : Start B c₀) (h : Steps c₀ c) {l₁ l₂ : List Blk} {b : Blk}
    (hl : c.live = l₁ ++ b :: l₂) {fuel : Nat} {r : Option Nat} {st' : St}
    (hr : realloc fuel c.st b.a 0 = some (r, st')) :
    r = none ∧ Steps c₀ ⟨st', l₁ ++ l₂⟩ ∧ Same (l₁ ++ l₂) c.st st' := by
  obtain ⟨F, hF⟩ := reachable_inv h0 h
  unfold realloc at hr
  rw [if_pos rfl] at hr
  cases hf : free fuel c.st b.a with
  | none => rw [hf] at hr; cases hr
  | some x =>
    rw [hf] at hr
    simp only [Option.map_some, Option.some.injEq, Prod.mk.injEq] at hr
    obtain ⟨rfl, rfl⟩ := hr
    exact ⟨rfl, .tail h (.release hl hf), hF.free_same hl hf⟩

/-- malloc(20) at 501 in the machine of `exSt`, a store, realloc to 100 bytes: the
stored unit is in the new block. -/
example : ((malloc 20 exSt 20).bind fun r1 =>
    (realloc 20 { r1.2 with nxt := upd r1.2.nxt 510 77 } 509 100).map fun r2 =>
      (r1.1, r2.1, r2.2.nxt 502)) = some (some 509, some 501, 77) := by
  decide

/-- C94: `realloc` ends. -/
theorem realloc_ends {B : Nat} {c₀ c : Cfg} (h0 : Start B c₀) (h : Steps c₀ c) {l₁ l₂ : List Blk} {b : Blk}
    (hl : c.live = l₁ ++ b :: l₂) {size : Nat} (hs : size ≤ 2 ^ 63 - 8192) :
    ∃ fuel r, realloc fuel c.st b.a size = some r := by
  have hb : b ∈ c.live := by rw [hl]; simp
  by_cases hz : size = 0
  · obtain ⟨fuel, st', hf⟩ := (calls_terminate h0 h).2 b hb
    exact ⟨fuel, (none, st'), by rw [realloc, if_pos hz, hf]; rfl⟩
  · obtain ⟨fuel, ⟨r, st1⟩, hm⟩ := (calls_terminate h0 h).1 size hs
    cases r with
    | none => exact ⟨fuel, (none, st1), by rw [realloc, if_neg hz, hm]⟩
    | some a1 =>
      have s1 : Steps c₀ ⟨st1, ⟨a1, st1.size a1, size⟩ :: c.live⟩ := .tail h (.alloc hs hm)
      obtain ⟨F, hF⟩ := reachable_inv h0 h
      obtain ⟨F1, hF1⟩ := reachable_inv h0 s1
      have hnew := hF1.liveSz ⟨a1, st1.size a1, size⟩ (by simp)
      dsimp only at hnew
      generalize hk : ((if size > (st1.size b.a - 1) * 16 then (st1.size b.a - 1) * 16 else size) + 15) / 16 = k
      have hkle : k ≤ st1.size a1 - 1 := by
        split at hk <;> omega
      have hwr : ∀ u, (∀ x ∈ (⟨a1, st1.size a1, size⟩ :: c.live : List Blk), ¬ (x.a < u ∧ u < x.a + x.s)) →
          (copyUnits st1 b.a a1 k).nxt u = st1.nxt u ∧ (copyUnits st1 b.a a1 k).size u = st1.size u := by
        intro u hu
        have hn := hu ⟨a1, st1.size a1, size⟩ (by simp)
        dsimp only at hn
        have hno : ¬ (a1 < u ∧ u < a1 + 1 + k) := by omega
        simp only [copyUnits, if_neg hno, and_self]
      have s2 : Steps c₀ ⟨copyUnits st1 b.a a1 k, ⟨a1, st1.size a1, size⟩ :: c.live⟩ := .tail s1 (.write hwr)
      obtain ⟨fuel', st2, hf⟩ := (calls_terminate h0 s2).2 b (by simp [hb])
      refine ⟨fuel + fuel', (some a1, st2), ?_⟩
      have hm' : malloc (fuel + fuel') c.st size = some (some a1, st1) := mallocLoop_mono _ _ _ _ _ _ _ hm
      have hf' := free_mono fuel' fuel _ _ _ hf
      rw [Nat.add_comm] at hf'
      rw [realloc, if_neg hz, hm']
      dsimp only at hf' ⊢
      rw [hk, hf']
      rfl

end Verif.Malloc

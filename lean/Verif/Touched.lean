/-
Executions in which a kernel has failed, of programs with tasks that do not test the status:
which locations are as before.
-/
import Verif.Partial

namespace Verif.Sched

universe u v w

variable {K : Type w} {L : Type u} {V : Type v}

/-- What is known about a state of a region: `D` are the tasks that have started, `C` those that have
started while the status was zero. -/
structure THist (p : List (GTask K L V)) (mem0 : L → V) (s : GState L V) (D C : Set Nat) : Prop where
  frame : ∀ x, (∀ i ∈ D, ∀ t, p[i]? = some t → ∀ e ∈ t.evs, x ∉ e.wr) → s.mem x = mem0 x
  run : ∀ i j c, s.pc i = .running j c → i ∈ D
  wait : ∀ i, s.pc i = .waiting → i ∉ D
  sub : C ⊆ D
  guard : ∀ i ∈ D, ∀ t, p[i]? = some t → t.guard = true → i ∈ C
  closed : ∀ i ∈ C, ∀ b, Edge (plain p) b i → b ∈ C ∧ s.pc b = .done
  zero : s.status = 0 → ∀ i, s.pc i = .done → i ∈ C
  zeroD : s.status = 0 → D ⊆ C
  code : ∀ i j c, s.pc i = .running j c → ∃ t m, p[i]? = some t ∧ c = t.code m
  fail : s.status ≠ 0 → ∃ i ∈ C, (∃ t m, p[i]? = some t ∧ t.code m = s.status) ∧
    ∀ j ∈ C, ¬ Relation.TransGen (Edge (plain p)) i j

theorem THist.closed' {p : List (GTask K L V)} {mem0 : L → V} {s : GState L V} {D C : Set Nat}
    (h : THist p mem0 s D C) {i b : Nat} (hi : i ∈ C)
    (hT : Relation.TransGen (Edge (plain p)) b i) : b ∈ C ∧ s.pc b = .done := by
  induction hT using Relation.TransGen.head_induction_on with
  | single e => exact h.closed _ hi _ e
  | head e _ ih => exact h.closed _ ih.1 _ e

theorem THist.init (p : List (GTask K L V)) (mem0 : L → V) :
    THist p mem0 (GState.init mem0 0) ∅ ∅ where
  frame := fun _ _ => rfl
  run := by intro i j c h; simp [GState.init] at h
  wait := by intro i _; simp
  sub := fun _ h => h
  guard := by intro i h; simp at h
  closed := by intro i h; simp at h
  zero := by intro _ i h; simp [GState.init] at h
  zeroD := fun _ _ h => h
  code := by intro i j c h; simp [GState.init] at h
  fail := by intro h; simp [GState.init] at h

theorem THist.step {p : List (GTask K L V)} {mem0 : L → V} {s s' : GState L V} {D C : Set Nat}
    (hs : ∀ t ∈ p, ∀ e ∈ t.evs, e.Sound) (hu : ∀ t ∈ p, t.guard = false → ∀ m, t.code m = 0)
    (h : THist p mem0 s D C) (hst : GStep p s s') :
    ∃ D' C', THist p mem0 s' D' C' := by
  cases hst with
  | start i t ht hw hr hg =>
    have hiD := h.wait i hw
    have hfr : ∀ x, (∀ k ∈ insert i D, ∀ t, p[k]? = some t → ∀ e ∈ t.evs, x ∉ e.wr) → s.mem x = mem0 x :=
      fun x hx => h.frame x fun k hk => hx k (Or.inr hk)
    have hrun : ∀ k j c, Function.update s.pc i (.running 0 (t.code s.mem)) k = .running j c → k ∈ insert i D := by
      intro k j c hk
      by_cases hki : k = i
      · subst hki; simp
      · exact Or.inr (h.run k j c (by simpa [Function.update_of_ne hki] using hk))
    have hwait : ∀ k, Function.update s.pc i (.running 0 (t.code s.mem)) k = .waiting → k ∉ insert i D := by
      intro k hk
      by_cases hki : k = i
      · subst hki; simp at hk
      · rintro (h1 | h1)
        · exact hki h1
        · exact h.wait k (by simpa [Function.update_of_ne hki] using hk) h1
    have hcode : ∀ k j c, Function.update s.pc i (.running 0 (t.code s.mem)) k = .running j c →
        ∃ t m, p[k]? = some t ∧ c = t.code m := by
      intro k j c hk
      by_cases hki : k = i
      · subst hki
        simp only [Function.update_self, PC.running.injEq] at hk
        exact ⟨t, s.mem, ht, hk.2.symm⟩
      · exact h.code k j c (by simpa [Function.update_of_ne hki] using hk)
    by_cases h0 : s.status = 0
    · refine ⟨insert i D, insert i C, hfr, hrun, hwait, ?_, ?_, ?_, ?_, fun _ => Set.insert_subset_insert (h.zeroD h0), ?_, ?_⟩
      · rintro k (rfl | hk)
        · exact Or.inl rfl
        · exact Or.inr (h.sub hk)
      · rintro k (rfl | hk) t' ht' hg'
        · exact Or.inl rfl
        · exact Or.inr (h.guard k hk t' ht' hg')
      · intro k hk b hb
        have hbd : b ∈ C ∧ s.pc b = .done := by
          rcases hk with rfl | hk
          · exact ⟨h.zero h0 b (hr b hb), hr b hb⟩
          · exact h.closed k hk b hb
        have hne : b ≠ i := by rintro rfl; exact hiD (h.sub hbd.1)
        exact ⟨Or.inr hbd.1, by simpa [Function.update_of_ne hne] using hbd.2⟩
      · intro _ k hk
        by_cases hki : k = i
        · subst hki; simp
        · exact Or.inr (h.zero h0 k (by simpa [Function.update_of_ne hki] using hk))
      · exact hcode
      · intro h1; exact absurd h0 h1
    · have hng : t.guard ≠ true := fun hgt => h0 (hg hgt)
      refine ⟨insert i D, C, hfr, hrun, hwait, fun k hk => Or.inr (h.sub hk), ?_, ?_, fun h1 => absurd h1 h0,
        fun h1 => absurd h1 h0, hcode, h.fail⟩
      · rintro k (rfl | hk) t' ht' hg'
        · rw [ht] at ht'; cases ht'; exact absurd hg' hng
        · exact h.guard k hk t' ht' hg'
      · intro k hk b hb
        have hbd := h.closed k hk b hb
        have hne : b ≠ i := by rintro rfl; exact hiD (h.sub hbd.1)
        exact ⟨hbd.1, by simpa [Function.update_of_ne hne] using hbd.2⟩
  | event i j c t e ht hp' he =>
    have hiD := h.run i j c hp'
    refine ⟨D, C, ?_, ?_, ?_, h.sub, h.guard, ?_, ?_, h.zeroD, ?_, h.fail⟩
    · intro x hx
      dsimp only
      rw [(hs t (List.mem_of_getElem? ht) e (List.mem_of_getElem? he)).frame _ _
        (hx i hiD t ht e (List.mem_of_getElem? he))]
      exact h.frame x hx
    · intro k j' c' hk
      by_cases hki : k = i
      · subst hki; exact hiD
      · exact h.run k j' c' (by simpa [Function.update_of_ne hki] using hk)
    · intro k hk
      by_cases hki : k = i
      · subst hki; simp at hk
      · exact h.wait k (by simpa [Function.update_of_ne hki] using hk)
    · intro k hk b hb
      have hbd := h.closed k hk b hb
      have hne : b ≠ i := by
        rintro rfl; have := hbd.2; rw [hp'] at this; cases this
      exact ⟨hbd.1, by simpa [Function.update_of_ne hne] using hbd.2⟩
    · intro h0 k hk
      by_cases hki : k = i
      · subst hki; simp at hk
      · exact h.zero h0 k (by simpa [Function.update_of_ne hki] using hk)
    · intro k j' c' hk
      by_cases hki : k = i
      · subst hki
        simp only [Function.update_self, PC.running.injEq] at hk
        obtain ⟨t', m, h1, h2⟩ := h.code k j c hp'
        exact ⟨t', m, h1, hk.2 ▸ h2⟩
      · exact h.code k j' c' (by simpa [Function.update_of_ne hki] using hk)
  | finish i c t ht hp' =>
    have hiD := h.run i _ c hp'
    obtain ⟨t0, m0, ht0, hc⟩ := h.code i _ c hp'
    have hgu : c ≠ 0 → i ∈ C := by
      intro hc0
      refine h.guard i hiD t0 ht0 ?_
      cases hgt : t0.guard
      · exact absurd (hc.trans (hu t0 (List.mem_of_getElem? ht0) hgt m0)) hc0
      · rfl
    have hz : (if c = 0 then s.status else c) = 0 → s.status = 0 := by
      intro h0
      split at h0
      · exact h0
      · exact absurd h0 (by assumption)
    refine ⟨D, C, h.frame, ?_, ?_, h.sub, h.guard, ?_, ?_, fun h0 => h.zeroD (hz h0), ?_, ?_⟩
    · intro k j' c' hk
      by_cases hki : k = i
      · subst hki; exact hiD
      · exact h.run k j' c' (by simpa [Function.update_of_ne hki] using hk)
    · intro k hk
      by_cases hki : k = i
      · subst hki; simp at hk
      · exact h.wait k (by simpa [Function.update_of_ne hki] using hk)
    · intro k hk b hb
      have hbd := h.closed k hk b hb
      refine ⟨hbd.1, ?_⟩
      by_cases hbi : b = i
      · subst hbi; simp
      · simpa [Function.update_of_ne hbi] using hbd.2
    · intro h0 k hk
      by_cases hki : k = i
      · subst hki; exact h.zeroD (hz h0) hiD
      · exact h.zero (hz h0) k (by simpa [Function.update_of_ne hki] using hk)
    · intro k j' c' hk
      by_cases hki : k = i
      · subst hki; simp at hk
      · exact h.code k j' c' (by simpa [Function.update_of_ne hki] using hk)
    · intro h0
      dsimp only at h0 ⊢
      split
      · rename_i hc0
        rw [if_pos hc0] at h0
        exact h.fail h0
      · rename_i hc0
        refine ⟨i, hgu hc0, ⟨t0, m0, ht0, hc.symm⟩, fun j hj hT => ?_⟩
        have := (h.closed' hj hT).2
        rw [hp'] at this; cases this
  | skip i hi hw hsk =>
    have hiD := h.wait i hw
    refine ⟨D, C, h.frame, ?_, ?_, h.sub, h.guard, ?_, ?_, h.zeroD, ?_, h.fail⟩
    · intro k j' c' hk
      by_cases hki : k = i
      · subst hki; simp at hk
      · exact h.run k j' c' (by simpa [Function.update_of_ne hki] using hk)
    · intro k hk
      by_cases hki : k = i
      · subst hki; simp at hk
      · exact h.wait k (by simpa [Function.update_of_ne hki] using hk)
    · intro k hk b hb
      have hbd := h.closed k hk b hb
      refine ⟨hbd.1, ?_⟩
      by_cases hbi : b = i
      · subst hbi; simp
      · simpa [Function.update_of_ne hbi] using hbd.2
    · intro h0; exact absurd h0 hsk
    · intro k j' c' hk
      by_cases hki : k = i
      · subst hki; simp at hk
      · exact h.code k j' c' (by simpa [Function.update_of_ne hki] using hk)

theorem THist.reach {p : List (GTask K L V)} {mem0 : L → V} {s : GState L V}
    (hs : ∀ t ∈ p, ∀ e ∈ t.evs, e.Sound) (hu : ∀ t ∈ p, t.guard = false → ∀ m, t.code m = 0)
    (h : GReach p (GState.init mem0 0) s) : ∃ D C, THist p mem0 s D C := by
  induction h with
  | refl => exact ⟨_, _, THist.init p mem0⟩
  | tail _ hz ih =>
    obtain ⟨D, C, h⟩ := ih
    exact h.step hs hu hz

end Verif.Sched

namespace Verif.Tile

open Verif.Layout Verif.Sched

universe u v

variable {M : Type u} {α : Type v}

/-- **Failing executions.**  If an execution fails, there is a task that can fail such that every location all
whose writers test the status and depend on that task is unchanged.  Nothing is assumed about conflicts
between tasks: the program may have data races. -/
theorem GExec.untouched {env : M → MatEnv} {P : List (GTTask (M × Nat × Nat) α)}
    {mem mem' : M × Nat → α} {st : Int} (hu : ∀ t ∈ P, t.guard = false → ∀ s, t.code s = 0)
    (h : GExec env P mem mem' st) (hst : st ≠ 0) :
    ∃ (i : Nat) (t : GTTask (M × Nat × Nat) α), P[i]? = some t ∧ (∃ s, t.code s = st) ∧
      ∀ x, (∀ n t, P[n]? = some t → ∀ a k l, t.task.wr a k l → eloc env a k l = x →
          t.guard = true ∧ Relation.TransGen (TEdge (tasks P)) i n) → mem' x = mem x := by
  obtain ⟨Ts, s, hI, hr, hf, rfl, rfl⟩ := h
  have hget : ∀ (i : Nat) T, Ts[i]? = some T → ∃ t, P[i]? = some t ∧ GImpl (eloc env) (ekey env) t T :=
    fun i T hT => forall₂_getElem? hI i _ hT
  obtain ⟨D, C, hh⟩ := THist.reach (p := Ts)
    (by
      intro T hT e he
      obtain ⟨i, hi⟩ := List.mem_iff_getElem?.mp hT
      obtain ⟨t, _, ht⟩ := hget i T hi
      exact ht.impl.sound e he)
    (by
      intro T hT hg m
      obtain ⟨i, hi⟩ := List.mem_iff_getElem?.mp hT
      obtain ⟨t, hti, ht⟩ := hget i T hi
      rw [ht.code]
      exact hu t (List.mem_of_getElem? hti) (by rw [← ht.guard]; exact hg) _) hr
  obtain ⟨i, hiC, ⟨T, m, hT, hm⟩, hno⟩ := hh.fail hst
  obtain ⟨t, hti, ht⟩ := hget i T hT
  refine ⟨i, t, hti, ⟨_, by rw [ht.code] at hm; exact hm⟩, fun x hx => hh.frame x fun n hn T' hT' e he hxw => ?_⟩
  obtain ⟨t', ht', hI'⟩ := hget n T' hT'
  obtain ⟨a, k, l, hwr, hl⟩ := hI'.impl.wrIn e he x hxw
  obtain ⟨h1, h2⟩ := hx n t' ht' a k l hwr hl
  exact hno n (hh.guard n hn T' hT' (by rw [hI'.guard]; exact h1))
    (Relation.TransGen.mono (edge_lift (forall₂_plain hI)) _ _ h2)

section
variable {nb : Nat} {dims : Nat → Nat × Nat} {ld : Nat → Nat} {st : Nat → Stor}

/-- **Driver theorem**, failure: there is a task that can fail such that an element of an output array is
unchanged if that task, or one that depends on it, names the tile of the element as output. -/
theorem gdrv_untouched (hnb : 0 < nb) (hld : ∀ k, (dims k).1 ≤ ld k)
    (hsq : ∀ k, stSq (st k) (dims k).1 (dims k).2) {ins outs W : List Nat}
    (hW : ∀ k ∈ W, k ∉ outs) {P : List (GTTask (Buf × Nat × Nat) α)}
    (hPt : OnTilesW W (tasks P)) (hu : ∀ t ∈ P, t.guard = false → ∀ s, t.code s = 0)
    {mem mem' : Buf × Nat → α} {stat : Int}
    (h : GExec (drvEnvK nb dims ld st) (gdriverK nb dims st ins P outs) mem mem' stat) (hst : stat ≠ 0) :
    ∃ (i : Nat) (t0 : GTTask (Buf × Nat × Nat) α), P[i]? = some t0 ∧ (∃ s, t0.code s = stat) ∧
      ∀ k ∈ outs, ∀ z,
        (∀ m n, m < (tMat nb dims k).d.mt → n < (tMat nb dims k).d.nt →
          (∃ i j, i < tdim (dims k).1 nb m ∧ j < tdim (dims k).2 nb n ∧ z = m * nb + i + (n * nb + j) * ld k) →
          ∃ (j : Nat) (t : GTTask (Buf × Nat × Nat) α), P[j]? = some t ∧
            ((tMat nb dims k).at' m n, true) ∈ t.task.deps ∧
            (j = i ∨ Relation.TransGen (TEdge (tasks P)) i j)) →
        mem' (.usr k, z) = mem (.usr k, z) := by
  have hwf := drvEnvK_wf (nb := nb) hnb hld hsq
  set I := okT (ins.flatMap fun k => copyK (α := α) (st k) (tMat nb dims k) (uMat nb dims k) (tMat nb dims k)) with hI
  set O := okT (outs.flatMap fun k => copyK (α := α) (st k) (tMat nb dims k) (tMat nb dims k) (uMat nb dims k)) with hO
  have hDr : gdriverK nb dims st ins P outs = I ++ (P ++ O) := by simp [gdriverK, hI, hO]
  have htI : tasks I = ins.flatMap fun k => copyK (α := α) (st k) (tMat nb dims k) (uMat nb dims k) (tMat nb dims k) := by
    rw [hI, tasks_okT]
  have htO : tasks O = outs.flatMap fun k => copyK (α := α) (st k) (tMat nb dims k) (tMat nb dims k) (uMat nb dims k) := by
    rw [hO, tasks_okT]
  rw [hDr] at h
  obtain ⟨i, t0, hi, ⟨s0, hs0⟩, hx⟩ := h.untouched (by
    intro t ht hg s
    rcases List.mem_append.mp ht with ht | ht
    · obtain ⟨_, _, rfl⟩ := List.mem_map.mp ht; rfl
    rcases List.mem_append.mp ht with ht | ht
    · exact hu t ht hg s
    · obtain ⟨_, _, rfl⟩ := List.mem_map.mp ht; rfl) hst
  have hge : I.length ≤ i := by
    by_contra hlt
    rw [List.getElem?_append_left (by omega)] at hi
    obtain ⟨_, _, rfl⟩ := List.mem_map.mp (List.mem_of_getElem? hi)
    exact hst hs0.symm
  obtain ⟨i, rfl⟩ := Nat.exists_eq_add_of_le hge
  rw [List.getElem?_append_right (by omega), Nat.add_sub_cancel_left] at hi
  have hil : i < P.length := by
    by_contra hlt
    rw [List.getElem?_append_right (by omega)] at hi
    obtain ⟨_, _, rfl⟩ := List.mem_map.mp (List.mem_of_getElem? hi)
    exact hst hs0.symm
  rw [List.getElem?_append_left hil] at hi
  refine ⟨i, t0, hi, ⟨s0, hs0⟩, ?_⟩
  intro k hk z hz
  refine hx _ fun n t' hn a k' l' hw' hl => ?_
  have hn' : (tasks (I ++ (P ++ O)))[n]? = some t'.task := by
    unfold tasks; rw [List.getElem?_map, hn]; rfl
  have hau : a.1 = .usr k := congrArg Prod.fst hl
  have hnotI : t' ∉ I := by
    intro ht
    obtain ⟨q, hq⟩ := ins_writes hnb hsq ins t'.task (by rw [← htI]; exact List.mem_map.mpr ⟨t', ht, rfl⟩) _ _ _ hw'
    rw [hau] at hq; cases hq
  have hnotP : t' ∉ P := by
    intro ht
    rcases hPt t'.task (List.mem_map.mpr ⟨t', ht, rfl⟩) _ _ _ hw' with ⟨q, hq⟩ | ⟨q, hm, hq⟩
    · rw [hau] at hq; cases hq
    · rw [hau] at hq; cases hq
      exact hW _ hm hk
  have hnI : I.length + P.length ≤ n := by
    by_contra hlt
    have : t' ∈ I ++ P := by
      rw [← List.append_assoc, List.getElem?_append_left (by simp; omega)] at hn
      exact List.mem_of_getElem? hn
    rcases List.mem_append.mp this with h | h
    · exact hnotI h
    · exact hnotP h
  have hO' : t' ∈ O := by
    rw [← List.append_assoc, List.getElem?_append_right (by simp; omega)] at hn
    exact List.mem_of_getElem? hn
  obtain ⟨tt, htt, rfl⟩ := List.mem_map.mp hO'
  refine ⟨rfl, ?_⟩
  obtain ⟨q, hq, htt⟩ := List.mem_flatMap.mp htt
  obtain ⟨m1, n1, hm1, hn1, rfl⟩ := copyK_mem htt
  obtain ⟨rfl, hrect⟩ := hw'
  obtain rfl : q = k := by simpa [uMat, TMat.full, TMat.at'] using hau
  have hn1' := ((mem_cpCols (stSq_tiles hnb (hsq q)) hm1).mp hn1).1
  obtain ⟨h1, h2⟩ := (cp_rect (al_t hnb q) hm1 hn1').mp hrect
  have hlu : eloc (drvEnvK nb dims ld st) ((uMat nb dims q).at' m1 n1) k' l' =
      (.usr q, m1 * nb + k' + (n1 * nb + l') * ld q) := by
    show (_, _) = _
    simp only [uMat, TMat.full, TMat.at', general, Nat.zero_div, Nat.add_zero]
    rw [MatEnv.off_lapack (l := ld q) rfl]
    simp only [drvEnvK]
    congr 1
    ring
  obtain ⟨j, t, hj, hw, hij⟩ := hz m1 n1 hm1 hn1' ⟨k', l', h1, h2, (congrArg Prod.snd (hl.symm.trans hlu))⟩
  have hjl : j < P.length := by rw [List.getElem?_eq_some_iff] at hj; exact hj.1
  have hjF : (tasks (I ++ (P ++ O)))[I.length + j]? = some t.task := by
    rw [tasks_append, List.getElem?_append_right (by simp), tasks_length, Nat.add_sub_cancel_left,
      tasks_append, List.getElem?_append_left (by simpa using hjl)]
    simp [tasks, hj]
  have hT : Relation.TransGen (TEdge (tasks (I ++ (P ++ O)))) (I.length + j) n :=
    Relation.TransGen.single ⟨by omega, _, _, hjF, hn', Or.inr ⟨_, hw, _, List.mem_cons_self, rfl, Or.inl rfl⟩⟩
  rcases hij with rfl | hij
  · exact hT
  · refine Relation.TransGen.trans ?_ hT
    rw [tasks_append, tasks_append]
    have := ttrans_append_right (tasks I) (ttrans_append_left (tasks O) hij)
    rwa [tasks_length] at this
end

end Verif.Tile

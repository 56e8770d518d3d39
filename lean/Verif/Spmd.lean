/-
Programs executed by a fixed team of ranks in phases separated by barriers (the body of
`plasma_core_zgetrf` and similar kernels).
-/
import Verif.Ops

namespace Verif.Tile

open Verif.Sched

universe u v w x

section
variable {M : Type u} {α : Type v}

/-- The program of `size` ranks: in phase number `i` rank `r` does `phs[i] r`; a barrier
(`plasma_barrier_wait`, property C38) separates the phases, so that everything of phase `i`
happens before everything of phase `i+1`.  No order is imposed between the ranks inside a
phase. -/
def spmd (size : Nat) (phs : List (Nat → TTask M α)) : List (TTask M α) :=
  phs.zipIdx.flatMap fun p => (List.range size).map fun r =>
    { p.1 r with phase := p.2, deps := [] }

/-- What the ranks compute in one phase when they run one after the other. -/
noncomputable def phaseRun (size : Nat) (ph : Nat → TTask M α) (s : Store M α) : Store M α :=
  texec ((List.range size).map ph) s

/-- Sequential meaning of a phase program. -/
noncomputable def phasesRun (size : Nat) (phs : List (Nat → TTask M α)) (s : Store M α) : Store M α :=
  phs.foldl (fun s ph => phaseRun size ph s) s

@[simp] theorem phasesRun_nil (size : Nat) (s : Store M α) : phasesRun size [] s = s := rfl
@[simp] theorem phasesRun_cons (size : Nat) (ph : Nat → TTask M α) (phs) (s : Store M α) :
    phasesRun size (ph :: phs) s = phasesRun size phs (phaseRun size ph s) := rfl
theorem phasesRun_append (size : Nat) (p q : List (Nat → TTask M α)) (s : Store M α) :
    phasesRun size (p ++ q) s = phasesRun size q (phasesRun size p s) := by
  simp [phasesRun, List.foldl_append]
theorem phasesRun_flatMap {ι : Type w} (size : Nat) (l : List ι) (g : ι → List (Nat → TTask M α))
    (s : Store M α) :
    phasesRun size (l.flatMap g) s = l.foldl (fun s x => phasesRun size (g x) s) s := by
  induction l generalizing s with
  | nil => rfl
  | cons x l ih => simp only [List.flatMap_cons, phasesRun_append, ih, List.foldl_cons]

/-- Two ranks never conflict inside a phase. -/
def RaceFree (size : Nat) (ph : Nat → TTask M α) : Prop :=
  ∀ r r', r < size → r' < size → r ≠ r' → ¬ TConflict (ph r) (ph r')

theorem texec_map_run (l : List Nat) (f g : Nat → TTask M α) (h : ∀ r s, (f r).run s = (g r).run s)
    (s : Store M α) : texec (l.map f) s = texec (l.map g) s := by
  induction l generalizing s with
  | nil => rfl
  | cons x l ih => simp only [List.map_cons, texec_cons, h, ih]

theorem texec_spmd (size : Nat) (phs : List (Nat → TTask M α)) (s : Store M α) :
    texec (spmd size phs) s = phasesRun size phs s := by
  unfold spmd
  generalize 0 = k
  induction phs generalizing s k with
  | nil => rfl
  | cons ph phs ih =>
    rw [List.zipIdx_cons, List.flatMap_cons, texec_append, ih, phasesRun_cons]
    congr 1
    refine texec_map_run (List.range size) _ ph ?_ s
    intro r s; rfl

theorem mem_spmd {size : Nat} {phs : List (Nat → TTask M α)} {t : TTask M α} :
    t ∈ spmd size phs ↔ ∃ (i : Nat) (ph : Nat → TTask M α) (r : Nat), phs[i]? = some ph ∧ r < size ∧ t = { ph r with phase := i, deps := [] } := by
  unfold spmd
  simp only [List.mem_flatMap, List.mem_map, List.mem_range, Prod.exists, List.mem_zipIdx_iff_getElem?]
  constructor
  · rintro ⟨ph, i, h, r, hr, rfl⟩; exact ⟨i, ph, r, h, hr, rfl⟩
  · rintro ⟨i, ph, r, h, hr, rfl⟩; exact ⟨ph, i, h, r, hr, rfl⟩

theorem spmd_getElem (size : Nat) (phs : List (Nat → TTask M α)) (i : Nat) :
    (spmd size phs)[i]? = (phs[i / size]?).bind fun ph =>
      if 0 < size then some { ph (i % size) with phase := i / size, deps := [] } else none := by
  unfold spmd
  have key : ∀ (k i : Nat), ((phs.zipIdx k).flatMap fun p => (List.range size).map fun r =>
      { p.1 r with phase := p.2, deps := [] })[i]? = (phs[i / size]?).bind fun ph =>
      if 0 < size then some { ph (i % size) with phase := k + i / size, deps := [] } else none := by
    intro k i
    induction phs generalizing k i with
    | nil => simp
    | cons ph phs ih =>
      rw [List.zipIdx_cons, List.flatMap_cons]
      rcases Nat.eq_zero_or_pos size with h0 | h0
      · subst h0
        simp only [List.range_zero, List.map_nil, List.nil_append, Nat.lt_irrefl, if_false]
        simp
      · rcases Nat.lt_or_ge i size with h | h
        · rw [List.getElem?_append_left (by simpa using h), Nat.div_eq_of_lt h, Nat.mod_eq_of_lt h]
          simp [h0, List.getElem?_range h]
        · rw [List.getElem?_append_right (by simpa using h)]
          simp only [List.length_map, List.length_range]
          rw [ih]
          have e1 : i / size = (i - size) / size + 1 := by
            conv_lhs => rw [show i = (i - size) + size by omega]
            exact Nat.add_div_right _ h0
          have e2 : i % size = (i - size) % size := by
            conv_lhs => rw [show i = (i - size) + size by omega]
            simp
          rw [e1, e2, List.getElem?_cons_succ]
          simp only [Nat.add_assoc, Nat.add_comm 1]
  have := key 0 i
  simpa using this

/-- A race-free phase program has all its conflicts ordered by the barriers. -/
theorem spmd_covered {size : Nat} {phs : List (Nat → TTask M α)} (h : ∀ ph ∈ phs, RaceFree size ph) :
    TCovered (spmd size phs) := by
  intro i j t t' hij hi hj hc
  have hi' := hi; have hj' := hj
  rw [spmd_getElem] at hi' hj'
  rcases Nat.eq_zero_or_pos size with h0 | h0
  · subst h0; simp at hi'
  simp only [h0, if_true] at hi' hj'
  rw [Option.bind_eq_some_iff] at hi' hj'
  obtain ⟨ph, hp, e1⟩ := hi'
  obtain ⟨ph', hp', e2⟩ := hj'
  have hle : i / size ≤ j / size := Nat.div_le_div_right (by omega)
  rcases Nat.lt_or_ge (i / size) (j / size) with hlt | hge
  · apply Relation.TransGen.single
    refine ⟨hij, t, t', hi, hj, Or.inl ?_⟩
    simp only [Option.some.injEq] at e1 e2
    rw [← e1, ← e2]; exact hlt
  · exfalso
    have he : i / size = j / size := by omega
    rw [he] at hp e1
    rw [hp'] at hp
    obtain rfl := Option.some.inj hp
    simp only [Option.some.injEq] at e1 e2
    have hne : i % size ≠ j % size := by
      intro hm
      have h1 := Nat.div_add_mod i size
      have h2 := Nat.div_add_mod j size
      rw [he, hm] at h1
      omega
    refine h _ (List.mem_of_getElem? hp') _ _ (Nat.mod_lt _ h0) (Nat.mod_lt _ h0) hne ?_
    rw [← e1, ← e2] at hc
    exact hc

/-- In a race-free phase every rank works on the values from before the phase. -/
theorem phaseRun_wr {size : Nat} {ph : Nat → TTask M α} (hr : RaceFree size ph)
    (hl : ∀ r, r < size → (ph r).Local) (s : Store M α) {r : Nat} (h : r < size) {x i j}
    (hw : (ph r).wr x i j) : phaseRun size ph s x i j = (ph r).f s x i j := by
  unfold phaseRun
  have key : ∀ (l : List Nat), l.Nodup → (∀ r' ∈ l, r' < size) → ∀ (s0 s1 : Store M α),
      (∀ x i j, (ph r).rd x i j ∨ (ph r).wr x i j → s0 x i j = s1 x i j) → 
      (r ∈ l → texec (l.map ph) s1 x i j = (ph r).f s0 x i j) ∧
      (r ∉ l → ∀ x i j, (ph r).rd x i j ∨ (ph r).wr x i j → texec (l.map ph) s1 x i j = s1 x i j) := by
    intro l
    induction l with
    | nil => intro _ _ s0 s1 _; exact ⟨fun h => by simp at h, fun _ _ _ _ _ => rfl⟩
    | cons r' l ih =>
      intro hn hlt s0 s1 hs
      have hn' := List.nodup_cons.mp hn
      simp only [List.map_cons, texec_cons]
      by_cases he : r' = r
      · subst he
        refine ⟨fun _ => ?_, fun h => by simp at h⟩
        rw [((ih hn'.2 (fun q hq => hlt q (by simp [hq])) _ _ (fun _ _ _ _ => rfl)).2 hn'.1) x i j (Or.inr hw),
          TTask.run_wr _ _ hw]
        exact (hl r' h s0 s1 hs x i j hw).symm
      · have hfr : ∀ x i j, (ph r).rd x i j ∨ (ph r).wr x i j → (ph r').run s1 x i j = s1 x i j := by
          intro x i j hx
          apply TTask.run_frame
          intro hw'
          exact hr r' r (hlt r' (by simp)) h he ⟨x, i, j, Or.inl ⟨hw', hx⟩⟩
        have := ih hn'.2 (fun q hq => hlt q (by simp [hq])) s0 ((ph r').run s1)
          (fun x i j hx => by rw [hfr x i j hx, hs x i j hx])
        refine ⟨fun hm => this.1 ?_, fun hm x i j hx => ?_⟩
        · rcases List.mem_cons.mp hm with h' | h'
          · exact absurd h'.symm he
          · exact h'
        · rw [this.2 (fun h' => hm (by simp [h'])) x i j hx, hfr x i j hx]
  exact (key (List.range size) List.nodup_range (fun r' hr' => List.mem_range.mp hr') s s
    (fun _ _ _ _ => rfl)).1 (List.mem_range.mpr h)

theorem phaseRun_frame {size : Nat} {ph : Nat → TTask M α} (s : Store M α) {x i j}
    (hw : ∀ r, r < size → ¬ (ph r).wr x i j) : phaseRun size ph s x i j = s x i j := by
  unfold phaseRun
  have key : ∀ (l : List Nat), (∀ r' ∈ l, r' < size) → ∀ s, texec (l.map ph) s x i j = s x i j := by
    intro l
    induction l with
    | nil => intro _ s; rfl
    | cons r l ih =>
      intro hlt s
      simp only [List.map_cons, texec_cons]
      rw [ih (fun q hq => hlt q (by simp [hq])), TTask.run_frame _ _ (hw r (hlt r (by simp)))]
  exact key _ (fun r' hr' => List.mem_range.mp hr') s

/-- **Barrier-separated phases.**  For every interleaving of the ranks that respects the
barriers, with every kernel spread over time as one likes inside its footprint, the result is
the sequential meaning of the phases. -/
theorem spmd_run {X : Type w} {K : Type x} {size : Nat} {phs : List (Nat → TTask M α)}
    (h : ∀ ph ∈ phs, RaceFree size ph) (hl : ∀ ph ∈ phs, ∀ r, r < size → (ph r).Local)
    {loc : M → Nat → Nat → X} {key : M → K} {valid : Foot M} (hinj : InjOn loc valid)
    (hin : ∀ ph ∈ phs, ∀ r, r < size → (ph r).Inside valid)
    {Ts : List (Task K X α)} {sch} (hI : List.Forall₂ (TaskImpl loc key) (spmd size phs) Ts)
    (hs : Legal Ts sch) (mem : X → α) {a i j} (hv : valid a i j) :
    runSched Ts sch mem (loc a i j) = phasesRun size phs (view loc mem) a i j := by
  rw [← texec_spmd]
  refine (run_correct hinj ?_ ?_ (spmd_covered h) hI hs mem).1 a i j hv
  · intro t ht
    obtain ⟨i, ph, r, hp, hr, rfl⟩ := mem_spmd.mp ht
    exact hl ph (List.mem_of_getElem? hp) r hr
  · intro t ht
    obtain ⟨i, ph, r, hp, hr, rfl⟩ := mem_spmd.mp ht
    exact hin ph (List.mem_of_getElem? hp) r hr

end

end Verif.Tile

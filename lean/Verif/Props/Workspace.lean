/-
C53: scratch buffers.
-/
import Verif.Workspace

namespace Verif.Props

open Verif.WS

/-- **C53.** Let the workspace be created by parallel regions of `team1` and `team2` threads and used in a region of
`T` threads, `T ≤ team2 ≤ team1`.  Then creation touches only the array of pointers; if it reports success, then at
every moment of every execution of the region all bodies that are running hold pairwise different buffers that were
not live before the creation, and no access misses the array.

The hypothesis on the team sizes is not checked or enforced by the code (`C53_refuted_creation`, `C53_refuted_outside`,
`C53_refuted_null`). -/
theorem C53_buffers_partial {team1 team2 T : Nat} (h12 : team2 ≤ team1) (hT : T ≤ team2) {h : Heap} {o : Out}
    (hc : Create team1 team2 h o) :
    ∃ ws failed h', o = .done ws failed h' ∧ (failed = false → ∀ s, Reach ws T s →
      s.bad = false ∧
      (∀ t task buf, s.run t = some (task, buf) → ∃ b, buf = some b ∧ b ∉ h ∧ b ∈ h') ∧
      ∀ t t' task task' buf buf', t ≠ t' → s.run t = some (task, buf) → s.run t' = some (task', buf') → buf ≠ buf') := by
  obtain ⟨order, hperm, hf⟩ := hc
  have hmem : ∀ t, t ∈ order ↔ t < team2 := fun t => by rw [hperm.mem_iff, List.mem_range]
  have hnd : order.Nodup := hperm.nodup_iff.mpr List.nodup_range
  obtain ⟨ws, f', h', ho, hn, hsub, -, -, hall, hdis, -⟩ := fill_ok hf (fun t ht => by
    show t < team1; have := (hmem t).mp ht; omega)
  refine ⟨ws, f', h', ho, fun hff s hs => ?_⟩
  obtain ⟨i1, i2⟩ := reach_inv hs
  refine ⟨?_, ?_, ?_⟩
  · by_contra hb
    have := i2 (by simpa using hb)
    rw [hn] at this
    dsimp only at this
    omega
  · intro t task buf ht
    obtain ⟨a1, a2⟩ := i1 t _ ht
    obtain ⟨b, e1, e2, e3⟩ := hall hnd hff t ((hmem t).mpr (by omega))
    exact ⟨b, a2.trans e1, e2, e3⟩
  · intro t t' task task' buf buf' hne ht ht' e
    obtain ⟨a1, a2⟩ := i1 t _ ht
    obtain ⟨a1', a2'⟩ := i1 t' _ ht'
    obtain ⟨b, e1, -, -⟩ := hall hnd hff t ((hmem t).mpr (by omega))
    dsimp only at a2 a2'
    exact hdis hnd t ((hmem t).mpr (by omega)) t' ((hmem t').mpr (by omega)) hne b e1 (by rw [← a2', ← e, a2, e1])

/-- Creation with two teams of 4 threads succeeds for some heap, and two bodies can be running. -/
example : ∃ ws h', Create 4 4 ∅ (.done ws false h') ∧ ∃ s, Reach ws 4 s ∧ (s.run 0).isSome ∧ (s.run 3).isSome := by
  obtain ⟨ws, h', hf⟩ := fill_exists ⟨4, fun _ => none⟩ false ∅ (List.range 4) (by simp)
  refine ⟨ws, h', ⟨_, List.Perm.refl _, hf⟩, _, .step (.step .init (.start (t := 0) (task := 7) (by omega) rfl))
    (.start (t := 3) (task := 9) (by omega) rfl), ?_, ?_⟩
  · rfl
  · rfl

/-- **C53, refuted (creation).** If the second parallel region of `plasma_workspace_create` gets more threads than the
first, every execution writes outside the array of pointers. -/
theorem C53_refuted_creation {team1 team2 : Nat} (h : team1 < team2) {hp : Heap} {o : Out}
    (hc : Create team1 team2 hp o) : o = .ub := by
  obtain ⟨order, hperm, hf⟩ := hc
  exact fill_oob hf ⟨team1, by rw [hperm.mem_iff, List.mem_range]; exact h, le_rfl⟩

/-- **C53, refuted (use).** If the region executing the tasks gets more threads than the array has pointers, some
execution reads outside the array. -/
theorem C53_refuted_outside {ws : Space} {T : Nat} (h : ws.nthread < T) : ∃ s, Reach ws T s ∧ s.bad = true :=
  ⟨_, .step .init (.start (t := ws.nthread) (task := 0) h rfl), by simp⟩

/-- **C53, refuted (NULL).** If it gets more threads than the second region of the creation but not more than the
first, some execution runs a body on a NULL buffer, although creation reported success. -/
theorem C53_refuted_null {team1 team2 T : Nat} (h12 : team2 ≤ team1) (h2 : team2 < T) {hp h' : Heap} {ws : Space}
    (hc : Create team1 team2 hp (.done ws false h')) : ∃ s task, Reach ws T s ∧ s.run team2 = some (task, none) := by
  obtain ⟨order, hperm, hf⟩ := hc
  have hmem : ∀ t, t ∈ order ↔ t < team2 := fun t => by rw [hperm.mem_iff, List.mem_range]
  obtain ⟨ws', f', h'', ho, -, -, -, hfr, -⟩ := fill_ok hf (fun t ht => by
    show t < team1; have := (hmem t).mp ht; omega)
  simp only [Out.done.injEq] at ho
  obtain ⟨rfl, -, -⟩ := ho
  refine ⟨_, 0, .step .init (.start (t := team2) (task := 0) h2 rfl), ?_⟩
  simp only [Function.update_self]
  rw [hfr team2 (by rw [hmem]; omega)]

example : ∃ ws h', Create 4 2 ∅ (.done ws false h') := by
  obtain ⟨ws, h', hf⟩ := fill_exists ⟨4, fun _ => none⟩ false ∅ (List.range 2) (by
    intro t ht; have := List.mem_range.mp ht; show t < 4; omega)
  exact ⟨ws, h', _, List.Perm.refl _, hf⟩

end Verif.Props

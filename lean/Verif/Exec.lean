/-
Executions of drivers: any legal schedule of any realisation of the created tasks.
-/
import Verif.Gemm

namespace Verif.Tile

open Verif.Layout Verif.Sched

universe u v

variable {M : Type u} {α : Type v}

/-- `Exec env P mem mem'`: starting from memory `mem`, the tasks `P` may end in memory
`mem'`.  The tasks are realised by arbitrary event sequences inside their footprints
(`TaskImpl`), `depend` items are matched by tile address, and the events are
interleaved in any way that respects the dependences (`Legal`). -/
def Exec (env : M → MatEnv) (P : List (TTask (M × Nat × Nat) α)) (mem mem' : M × Nat → α) : Prop :=
  ∃ Ts sch, List.Forall₂ (TaskImpl (eloc env) (ekey env)) P Ts ∧ Legal Ts sch ∧
    mem' = runSched Ts sch mem

theorem Exec.correct {env : M → MatEnv} {P : List (TTask (M × Nat × Nat) α)}
    {mem mem' : M × Nat → α} (hwf : ∀ a, (env a).WF) (hl : ∀ t ∈ P, t.Local)
    (hin : ∀ t ∈ P, t.Inside (evalid env)) (hc : TCovered P) (h : Exec env P mem mem') :
    (∀ t i j, evalid env t i j → mem' (eloc env t i j) = texec P (view (eloc env) mem) t i j) ∧
    (∀ x, (∀ t ∈ P, ∀ a i j, t.wr a i j → eloc env a i j ≠ x) → mem' x = mem x) := by
  obtain ⟨Ts, sch, hI, hs, rfl⟩ := h
  exact run_correct (env_inj hwf) hl hin hc hI hs mem

/-- Final contents of a matrix. -/
theorem Exec.el {env : M → MatEnv} {P : List (TTask (M × Nat × Nat) α)}
    {mem mem' : M × Nat → α} (hwf : ∀ a, (env a).WF) (hg : Good (evalid env) P)
    (h : Exec env P mem mem') {b : Nat} {U : TMat M} (hU : Fits env b U) {r c : Nat}
    (hr : r < U.d.m) (hc : c < U.d.n) :
    U.el (view (eloc env) mem') r c = U.el (texec P (view (eloc env) mem)) r c := by
  have := (Exec.correct hwf hg.loc hg.ins (tcovered_of_declared hg.decl) h).1
    (U.at' (r / b) (c / b)) (r % b) (c % b)
    (hU.valid (mod_lt_tdim hU.al.pos hr) (mod_lt_tdim hU.al.pos hc))
  simpa [TMat.el, view, hU.al.mb, hU.al.nb] using this

/-- Locations of buffers that no task writes are unchanged. -/
theorem Exec.frame_buf {env : M → MatEnv} {P : List (TTask (M × Nat × Nat) α)}
    {mem mem' : M × Nat → α} (hwf : ∀ a, (env a).WF) (hg : Good (evalid env) P)
    (h : Exec env P mem mem') {a : M} (hw : Writes (fun t => t.1 ≠ a) P) (x : Nat) :
    mem' (a, x) = mem (a, x) := by
  apply (Exec.correct hwf hg.loc hg.ins (tcovered_of_declared hg.decl) h).2
  intro t ht a' i j hwr he
  exact hw t ht a' i j hwr (congrArg Prod.fst he)

/-- Locations of a LAPACK-layout buffer outside the matrix are unchanged. -/
theorem Exec.frame_pad {env : M → MatEnv} {P : List (TTask (M × Nat × Nat) α)}
    {mem mem' : M × Nat → α} (hwf : ∀ a, (env a).WF) (hg : Good (evalid env) P)
    (h : Exec env P mem mem') {a : M} {l b m n : Nat} (he : env a = ⟨.lapack l, b, b, m, n⟩) (x : Nat)
    (hx : ∀ i j, i < m → j < n → x ≠ i + j * l) :
    mem' (a, x) = mem (a, x) := by
  apply (Exec.correct hwf hg.loc hg.ins (tcovered_of_declared hg.decl) h).2
  rintro t ht ⟨a', p, q⟩ i j hwr hel
  have hv := hg.ins t ht _ _ _ (Or.inr hwr)
  have h1 : a' = a := congrArg Prod.fst hel
  subst h1
  have h2 : (env a').off p q i j = x := congrArg Prod.snd hel
  simp only [evalid, he, tileOK_iff] at hv
  rw [he, MatEnv.off_lapack (l := l) rfl] at h2
  apply hx _ _ hv.1.2.1 hv.1.2.2.2
  rw [← h2]; ring

/-- No tasks, no effect. -/
theorem Exec.nil {env : M → MatEnv} {mem mem' : M × Nat → α} (h : Exec env [] mem mem') :
    mem' = mem := by
  obtain ⟨Ts, sch, hI, hs, rfl⟩ := h
  cases hI
  have := hs.perm
  rw [show occs ([] : List (Task (M × Nat) (M × Nat) α)) = [] from rfl, List.perm_nil] at this
  rw [this]; rfl

/-- Every good program has an execution, so statements about all executions are not
vacuous. -/
theorem Exec.exists {env : M → MatEnv} {P : List (TTask (M × Nat × Nat) α)}
    (hwf : ∀ a, (env a).WF) (hl : ∀ t ∈ P, t.Local) (hin : ∀ t ∈ P, t.Inside (evalid env))
    (mem : M × Nat → α) : ∃ mem', Exec env P mem mem' := by
  refine ⟨_, P.map (atomicImpl (eloc env) (ekey env)), _, ?_, legal_seq _, rfl⟩
  rw [List.forall₂_map_right_iff, List.forall₂_same]
  intro t ht
  exact atomicImpl_ok (env_inj hwf) (hl t ht) (hin t ht)

/-- A `full` matrix fits an environment entry with its dimensions. -/
theorem fits_full {env : M → MatEnv} {id : M} {k : Kind} {b m n : Nat} (hb : 0 < b)
    (he : env id = ⟨k, b, b, m, n⟩) (hk : k = .tile ∨ ∃ l, k = .lapack l) :
    Fits env b (TMat.full id b m n) where
  al := TMat.al_full id hb m n
  mb := by simp [TMat.full, he]
  nb := by simp [TMat.full, he]
  rows := by simp [TMat.full, he, general]
  cols := by simp [TMat.full, he, general]
  st := by
    intro _ _ _ _ _
    rcases hk with rfl | ⟨l, rfl⟩ <;> simp [TMat.full, he, MatEnv.stored]

end Verif.Tile

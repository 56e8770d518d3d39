/-
Executions in a chosen order: used to show what a failing program may leave in memory.
-/
import Verif.Jump

namespace Verif.Tile

open Verif.Sched

universe u v

variable {M : Type u} {α : Type v}

/-- Items of the `depend` clauses, by address. -/
def dkeys (env : M → MatEnv) (t : TTask (M × Nat × Nat) α) : List ((M × Nat) × Bool) := t.deps.map fun d => (ekey env d.1, d.2)

/-- Some item of both lists has the same address and one of the two is an output. -/
def KDep {X : Type u} (l l' : List (X × Bool)) : Prop := ∃ d ∈ l, ∃ d' ∈ l', d.1 = d'.1 ∧ (d.2 = true ∨ d'.2 = true)

/-- Task `i` depends on no task outside of `o`. -/
def RdyO (env : M → MatEnv) (P : List (GTTask (M × Nat × Nat) α)) (o : List Nat) (i : Nat) (t : GTTask (M × Nat × Nat) α) : Prop :=
  ∀ (b : Nat) x, b < i → b ∉ o → P[b]? = some x → ¬ x.task.phase < t.task.phase ∧ ¬ KDep (dkeys env x.task) (dkeys env t.task)

/-- The tasks of `P` with numbers in `o`, last one first, can be run one after the other without failure, from `s0` to `s`. -/
inductive Sch (env : M → MatEnv) (P : List (GTTask (M × Nat × Nat) α)) (s0 : Store (M × Nat × Nat) α) : List Nat → Store (M × Nat × Nat) α → Prop
  | nil : Sch env P s0 [] s0
  | cons {o : List Nat} {s : Store (M × Nat × Nat) α} (h : Sch env P s0 o s) (i : Nat) (t : GTTask (M × Nat × Nat) α) (ht : P[i]? = some t) (hi : i ∉ o)
      (hr : RdyO env P o i t) (hc : t.code s = 0) : Sch env P s0 (i :: o) (t.task.run s)

/-- One task over memory, unrestricted events. -/
noncomputable def atomicG (env : M → MatEnv) (t : GTTask (M × Nat × Nat) α) : GTask (M × Nat) (M × Nat) α where
  toTask := atomicImpl (eloc env) (ekey env) t.task
  guard := t.guard
  code := fun m => t.code (view (eloc env) m)

section
variable {env : M → MatEnv} {P : List (GTTask (M × Nat × Nat) α)}

theorem rdyO_ready {o : List Nat} {i : Nat} {t : GTTask (M × Nat × Nat) α} (ht : P[i]? = some t) (hr : RdyO env P o i t)
    {g : GState (M × Nat) α} (hd : ∀ b ∈ o, g.pc b = .done) : Ready (P.map (atomicG env)) g i := by
  rintro b ⟨hbi, x, y, hx, hy, hxy⟩
  by_contra hn
  have hbo : b ∉ o := fun h => hn (hd b h)
  rw [plain, List.getElem?_map, List.getElem?_map] at hx hy
  rw [ht] at hy
  obtain rfl : atomicImpl (eloc env) (ekey env) t.task = y := by simpa [atomicG] using hy
  obtain ⟨x', hx', e⟩ := Option.map_eq_some_iff.mp hx
  obtain ⟨x'', hx'', e'⟩ := Option.map_eq_some_iff.mp hx'
  subst e'
  subst e
  obtain ⟨h1, h2⟩ := hr b x'' hbi hbo hx''
  rcases hxy with h | h
  · exact h1 h
  · exact h2 h

/-- Running one ready task. -/
theorem run_one (hN : ∀ x ∈ P, x.task.Inside (evalid env)) (hwf : ∀ a, (env a).WF) {i : Nat} {t : GTTask (M × Nat × Nat) α} (ht : P[i]? = some t)
    {g : GState (M × Nat) α} (hw : g.pc i = .waiting) (hr : Ready (P.map (atomicG env)) g i) (h0 : g.status = 0) :
    ∃ g', GReach (P.map (atomicG env)) g g' ∧ g'.status = t.code (view (eloc env) g.mem) ∧ g'.pc = Function.update g.pc i .done ∧
      (∀ a k l, evalid env a k l → view (eloc env) g'.mem a k l = t.task.run (view (eloc env) g.mem) a k l) := by
  have hPt : (P.map (atomicG env))[i]? = some (atomicG env t) := by rw [List.getElem?_map, ht]; rfl
  have s1 := GStep.start g i _ hPt hw hr (fun _ => h0)
  have s2 := GStep.event (p := P.map (atomicG env)) ⟨g.mem, g.status, Function.update g.pc i (.running 0 ((atomicG env t).code g.mem))⟩ i 0
    ((atomicG env t).code g.mem) (atomicG env t) _ hPt (by simp) (show (atomicG env t).evs[0]? = some _ from rfl)
  have s3 := GStep.finish (p := P.map (atomicG env)) ⟨memRun (eloc env) t.task g.mem, g.status,
    Function.update (Function.update g.pc i (.running 0 ((atomicG env t).code g.mem))) i (.running 1 ((atomicG env t).code g.mem))⟩ i
    ((atomicG env t).code g.mem) (atomicG env t) hPt (by simp [atomicG, atomicImpl])
  refine ⟨_, ((Relation.ReflTransGen.refl.tail s1).tail s2).tail s3, ?_, ?_, ?_⟩
  · show (if (atomicG env t).code g.mem = 0 then g.status else (atomicG env t).code g.mem) = (atomicG env t).code g.mem
    split
    · rename_i h; rw [h0, h]
    · rfl
  · simp
  · intro a k l hv
    exact memRun_view (env_inj hwf) (hN t (List.mem_of_getElem? ht)) g.mem hv

/-- A schedule is a beginning of an execution. -/
theorem Sch.reach (hwf : ∀ a, (env a).WF) (hL : ∀ x ∈ P, x.task.Local) (hN : ∀ x ∈ P, x.task.Inside (evalid env)) (hco : CodeOK P)
    (mem : M × Nat → α) {o : List Nat} {s : Store (M × Nat × Nat) α} (h : Sch env P (view (eloc env) mem) o s) :
    ∃ g, GReach (P.map (atomicG env)) (GState.init mem 0) g ∧ g.status = 0 ∧ (∀ b ∈ o, g.pc b = .done) ∧ (∀ b, b ∉ o → g.pc b = .waiting) ∧
      ∀ a k l, evalid env a k l → view (eloc env) g.mem a k l = s a k l := by
  induction h with
  | nil => exact ⟨_, .refl, rfl, by simp, fun _ _ => rfl, fun _ _ _ _ => rfl⟩
  | cons h i t ht hi hr hc ih =>
    obtain ⟨g, g1, g2, g3, g4, g5⟩ := ih
    have hm := List.mem_of_getElem? ht
    obtain ⟨g', k1, k2, k3, k4⟩ := run_one hN hwf ht (g4 i hi) (rdyO_ready ht hr g3) g2
    refine ⟨g', g1.trans k1, ?_, ?_, ?_, ?_⟩
    · rw [k2, ← hc]
      exact hco.loc t hm _ _ fun a k l hrw => g5 a k l (hN t hm a k l hrw)
    · intro b hb
      rw [k3]
      by_cases e : b = i
      · subst e; simp
      · rw [Function.update_of_ne e]
        exact g3 b ((List.mem_cons.mp hb).resolve_left e)
    · intro b hb
      rw [List.mem_cons, not_or] at hb
      rw [k3, Function.update_of_ne hb.1]
      exact g4 b hb.2
    · intro a k l hv
      rw [k4 a k l hv]
      exact run_congr (hL t hm) (hN t hm) g5 a k l hv

/-- **Executions in a chosen order.** After the tasks of a schedule a ready task that fails may be run, and nothing after it. -/
theorem Sch.fails (hwf : ∀ a, (env a).WF) (hL : ∀ x ∈ P, x.task.Local) (hN : ∀ x ∈ P, x.task.Inside (evalid env)) (hco : CodeOK P)
    (mem : M × Nat → α) {o : List Nat} {s : Store (M × Nat × Nat) α} (h : Sch env P (view (eloc env) mem) o s)
    {i : Nat} {t : GTTask (M × Nat × Nat) α} (ht : P[i]? = some t) (hi : i ∉ o) (hr : RdyO env P o i t) (hc : t.code s ≠ 0) :
    ∃ mem', GExec env P mem mem' (t.code s) ∧ ∀ a k l, evalid env a k l → view (eloc env) mem' a k l = t.task.run s a k l := by
  have hm := List.mem_of_getElem? ht
  obtain ⟨g, g1, g2, g3, g4, g5⟩ := h.reach hwf hL hN hco mem
  obtain ⟨g', k1, k2, k3, k4⟩ := run_one hN hwf ht (g4 i hi) (rdyO_ready ht hr g3) g2
  have hcode : t.code (view (eloc env) g.mem) = t.code s := hco.loc t hm _ _ fun a k l hrw => g5 a k l (hN t hm a k l hrw)
  rw [hcode] at k2
  obtain ⟨f, f1, f2, f3, f4⟩ := GReach.skip_all (P.map (atomicG env)) g' (by rw [k2]; exact hc) (by
    intro b _
    rw [k3]
    by_cases e : b = i
    · subst e; right; simp
    · rw [Function.update_of_ne e]
      by_cases hb : b ∈ o
      · exact Or.inr (g3 b hb)
      · exact Or.inl (g4 b hb))
  refine ⟨f.mem, ⟨_, f, ?_, (g1.trans k1).trans f1, f2, rfl, by rw [f3, k2]⟩, ?_⟩
  · rw [List.forall₂_map_right_iff, List.forall₂_same]
    intro x hx
    exact ⟨atomicImpl_ok (env_inj hwf) (hL x hx) (hN x hx), rfl, rfl⟩
  · intro a k l hv
    rw [f4, k4 a k l hv]
    exact run_congr (hL t hm) (hN t hm) g5 a k l hv
end

end Verif.Tile

/-
Per-thread scratch buffers (control/workspace.c) and their use inside task bodies.
-/
import Mathlib.Data.Finset.Basic
import Mathlib.Data.List.Perm.Basic
import Mathlib.Data.Fintype.EquivFin

namespace Verif.WS

/-- `plasma_workspace_t` (include/plasma_workspace.h:22-27): the number of threads and the array of pointers;
`none` is `NULL`.  Length and type of the buffers are left out. -/
structure Space where
  nthread : Nat
  spaces : Nat → Option Nat

/-- The set of live allocations. -/
abbrev Heap := Finset Nat

/-- `malloc`: a block that is not live, or `NULL`. -/
inductive Malloc : Heap → Option Nat → Heap → Prop
  | ok {h : Heap} {b : Nat} : b ∉ h → Malloc h (some b) (insert b h)
  | fail {h : Heap} : Malloc h none h

/-- Outcome of filling the array: an access outside the array of pointers, or the workspace, the flag
`info = PlasmaErrorOutOfMemory` and the heap. -/
inductive Out
  | ub
  | done (ws : Space) (failed : Bool) (h : Heap)

/-- The second parallel region of `plasma_workspace_create` (control/workspace.c:37-43); the threads execute its
body in the order of the list. -/
inductive Fill : Space → Bool → Heap → List Nat → Out → Prop
  | nil {ws f h} : Fill ws f h [] (.done ws f h)
  | oob {ws f h tid l} : ws.nthread ≤ tid → Fill ws f h (tid :: l) .ub
  | step {ws f h tid l r h' o} : tid < ws.nthread → Malloc h r h' →
      Fill ⟨ws.nthread, Function.update ws.spaces tid r⟩ (f || r.isNone) h' l o → Fill ws f h (tid :: l) o

/-- `plasma_workspace_create` (control/workspace.c:16-48): `team1` and `team2` are the numbers of threads of its two
parallel regions, the array of pointers is cleared by `calloc` (taken to succeed). -/
def Create (team1 team2 : Nat) (h : Heap) (o : Out) : Prop :=
  ∃ order : List Nat, order.Perm (List.range team2) ∧ Fill ⟨team1, fun _ => none⟩ false h order o

/-- A parallel region executing tasks: `run t` is the task body thread `t` is executing together with the buffer
it obtained, `bad` records an access outside the array of pointers. -/
structure St where
  run : Nat → Option (Nat × Option Nat)
  bad : Bool

/-- No body is running. -/
def St.init : St := ⟨fun _ => none, false⟩

/-- One step of a parallel region of `T` threads.  A thread that is not inside a body starts a task and fetches
`work.spaces[omp_get_thread_num()]` (core_blas/core_zgeqrt.c:180-186, core_zunmqr.c:247-253, core_ztsqrt.c:223-229 and
the other kernels with a `plasma_workspace_t`); a thread finishes its body.  Bodies contain no task scheduling
point, so a thread executes one at a time. -/
inductive Step (ws : Space) (T : Nat) : St → St → Prop
  | start {s : St} {t task : Nat} : t < T → s.run t = none →
      Step ws T s ⟨Function.update s.run t (some (task, ws.spaces t)), s.bad || decide (ws.nthread ≤ t)⟩
  | finish {s : St} {t : Nat} : t < T → (s.run t).isSome → Step ws T s ⟨Function.update s.run t none, s.bad⟩

/-- States reachable from the start of the region. -/
inductive Reach (ws : Space) (T : Nat) : St → Prop
  | init : Reach ws T St.init
  | step {s s'} : Reach ws T s → Step ws T s s' → Reach ws T s'

/-! ### Filling the array -/

theorem fill_ok {ws : Space} {f : Bool} {h : Heap} {l : List Nat} {o : Out} (hf : Fill ws f h l o) :
    (∀ t ∈ l, t < ws.nthread) → ∃ ws' f' h', o = .done ws' f' h' ∧ ws'.nthread = ws.nthread ∧ h ⊆ h' ∧
      (f' = false → f = false) ∧
      (∀ t, t ∉ l → ws'.spaces t = ws.spaces t) ∧
      (l.Nodup → f' = false → ∀ t ∈ l, ∃ b, ws'.spaces t = some b ∧ b ∉ h ∧ b ∈ h') ∧
      (l.Nodup → ∀ t ∈ l, ∀ t' ∈ l, t ≠ t' → ∀ b, ws'.spaces t = some b → ws'.spaces t' ≠ some b) ∧
      (l.Nodup → ∀ t ∈ l, ∀ b, ws'.spaces t = some b → b ∉ h) := by
  induction hf with
  | nil => intro _; exact ⟨_, _, _, rfl, rfl, Finset.Subset.refl _, id, fun _ _ => rfl, by simp, by simp, by simp⟩
  | oob hge => intro hl; exact absurd (hl _ (List.mem_cons_self ..)) (by omega)
  | @step ws f h tid l r h1 o hlt hm _ ih =>
    intro hl
    obtain ⟨ws', f', h', ho, hn, hsub, hff, hfr, hall, hdis, hfre⟩ := ih (fun t ht => hl t (List.mem_cons_of_mem _ ht))
    have hsub1 : h ⊆ h1 := by
      cases hm with
      | ok => exact Finset.subset_insert _ _
      | fail => exact Finset.Subset.refl _
    have hr : ∀ b, r = some b → b ∉ h ∧ b ∈ h1 := by
      intro b hb
      cases hm with
      | ok hnb => simp only [Option.some.injEq] at hb; subst hb; exact ⟨hnb, Finset.mem_insert_self _ _⟩
      | fail => simp at hb
    refine ⟨ws', f', h', ho, hn, hsub1.trans hsub, ?_, ?_, ?_, ?_, ?_⟩
    · intro hf'; have := hff hf'; cases f <;> simp_all
    · intro t ht
      rw [List.mem_cons, not_or] at ht
      rw [hfr t ht.2]
      exact Function.update_of_ne ht.1 ..
    · intro hnd hf' t ht
      rw [List.nodup_cons] at hnd
      rcases List.mem_cons.mp ht with rfl | ht
      · have e := hfr t hnd.1
        dsimp only at e
        rw [Function.update_self] at e
        have h2 : r.isNone = false := by have := hff hf'; cases f <;> simp_all
        cases hrb : r with
        | none => rw [hrb] at h2; simp at h2
        | some b => exact ⟨b, e.trans hrb, (hr b hrb).1, hsub (hr b hrb).2⟩
      · obtain ⟨b, e1, e2, e3⟩ := hall hnd.2 hf' t ht
        exact ⟨b, e1, fun hb => e2 (hsub1 hb), e3⟩
    · intro hnd
      rw [List.nodup_cons] at hnd
      have hself : ws'.spaces tid = r := by
        have e := hfr tid hnd.1
        dsimp only at e
        rwa [Function.update_self] at e
      intro t ht t' ht' hne b hb hb'
      rcases List.mem_cons.mp ht with e | htl <;> rcases List.mem_cons.mp ht' with e' | htl'
      · exact hne (e.trans e'.symm)
      · subst e; exact hfre hnd.2 t' htl' b hb' (hr b (hself.symm.trans hb)).2
      · subst e'; exact hfre hnd.2 t htl b hb (hr b (hself.symm.trans hb')).2
      · exact hdis hnd.2 t htl t' htl' hne b hb hb'
    · intro hnd
      rw [List.nodup_cons] at hnd
      have hself : ws'.spaces tid = r := by
        have e := hfr tid hnd.1
        dsimp only at e
        rwa [Function.update_self] at e
      intro t ht b hb
      rcases List.mem_cons.mp ht with rfl | ht
      · exact (hr b (hself.symm.trans hb)).1
      · exact fun h => hfre hnd.2 t ht b hb (hsub1 h)

theorem fill_oob {ws : Space} {f : Bool} {h : Heap} {l : List Nat} {o : Out} (hf : Fill ws f h l o) :
    (∃ t ∈ l, ws.nthread ≤ t) → o = .ub := by
  induction hf with
  | nil => rintro ⟨t, ht, -⟩; simp at ht
  | oob _ => intro _; rfl
  | @step ws f h tid l r h1 o hlt hm _ ih =>
    rintro ⟨t, ht, hge⟩
    rcases List.mem_cons.mp ht with rfl | ht
    · omega
    · exact ih ⟨t, ht, hge⟩

theorem fill_exists (ws : Space) (f : Bool) (h : Heap) (l : List Nat) (hl : ∀ t ∈ l, t < ws.nthread) :
    ∃ ws' h', Fill ws f h l (.done ws' f h') := by
  induction l generalizing ws h with
  | nil => exact ⟨ws, h, .nil⟩
  | cons t l ih =>
    obtain ⟨b, hb⟩ := Infinite.exists_notMem_finset (α := Nat) h
    obtain ⟨ws', h', hf⟩ := ih ⟨ws.nthread, Function.update ws.spaces t (some b)⟩ (insert b h)
      (fun t' ht' => hl t' (List.mem_cons_of_mem _ ht'))
    exact ⟨ws', h', .step (hl t (List.mem_cons_self ..)) (.ok hb) (by simpa using hf)⟩

/-! ### Using it -/

theorem reach_inv {ws : Space} {T : Nat} {s : St} (h : Reach ws T s) :
    (∀ t x, s.run t = some x → t < T ∧ x.2 = ws.spaces t) ∧ (s.bad = true → ws.nthread < T) := by
  induction h with
  | init => exact ⟨by simp [St.init], by simp [St.init]⟩
  | @step s s' _ hs ih =>
    cases hs with
    | @start t task ht hr =>
      refine ⟨fun t' x hx => ?_, fun hb => ?_⟩
      · by_cases e : t' = t
        · subst e
          simp only [Function.update_self, Option.some.injEq] at hx
          subst hx
          exact ⟨ht, rfl⟩
        · simp only [Function.update_of_ne e] at hx
          exact ih.1 t' x hx
      · simp only [Bool.or_eq_true, decide_eq_true_eq] at hb
        rcases hb with hb | hb
        · exact ih.2 hb
        · omega
    | @finish t ht hr =>
      refine ⟨fun t' x hx => ?_, ih.2⟩
      by_cases e : t' = t
      · subst e; simp at hx
      · simp only [Function.update_of_ne e] at hx
        exact ih.1 t' x hx

end Verif.WS

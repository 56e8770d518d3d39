/-
C38, C39: the panel barrier.
-/
import Verif.Barrier

namespace Verif.Props

open Verif.Barrier

/-- **C38** (separation).  With `P` threads using a barrier of size `P`, in every
reachable state no thread has returned from more calls than any other has begun: nobody
leaves its `r`-th call before everybody has made theirs. -/
theorem C38_barrier_separates {P : Nat} {s : St P} (h : Reach P s) (t u : Fin P) :
    (s.th t).rets ≤ (s.th u).calls := by
  obtain ⟨R, hI⟩ := inv_reach (Nat.lt_of_le_of_lt (Nat.zero_le _) t.2) h
  have h1 := hI.th t
  have h2 := hI.th u
  unfold Th.ok at h1 h2
  split at h1 <;> split at h2 <;> omega

/-- **C38** (progress).  Once every thread has made its `r`-th call, either all have
returned from it or some thread inside a call can take a useful step; and, whatever the
interleaving, at most `4*P` useful steps fit before the next call begins.  Hence under
any scheduler that does not starve runnable threads everybody returns. -/
theorem C38_barrier_progress {P : Nat} {s : St P} (h : Reach P s) (r : Nat)
    (hcalls : ∀ t, r ≤ (s.th t).calls) :
    ((∀ t, r ≤ (s.th t).rets) ∨ ∃ t s', Inner P t s s') ∧
    (∀ n s', Run P n s s' → n ≤ 4 * P ∧ Reach P s') := by
  constructor
  · by_cases hs : ∃ t s', Inner P t s s'
    · exact Or.inr hs
    · left
      intro t
      obtain ⟨R, hI⟩ := inv_reach (Nat.lt_of_le_of_lt (Nat.zero_le _) t.2) h
      exact inv_stuck hI hcalls (fun t s' h' => hs ⟨t, s', h'⟩) t
  · intro n s' hr
    refine ⟨le_trans (run_bound hr) (left_le _), ?_⟩
    induction hr with
    | nil => exact h
    | cons t h1 _ ih =>
      refine ih (h.step t (.inner _ _ h1)) ?_
      intro u
      refine le_trans (hcalls u) ?_
      cases h1 <;> rename_i hx <;> by_cases hu : u = t <;>
        simp_all [St.set, Function.update_of_ne]

/-- Two threads can pass the barrier: the thread that arrives last completes the round. -/
example : ∃ s : St 2, Reach 2 s ∧ (∀ t, 1 ≤ (s.th t).calls) ∧ (s.th 1).rets = 1 := by
  have s0 : Reach 2 (St.init 2) := .init
  have s1 := s0.step 0 (.enter _ 0 0 rfl)
  have s2 := s1.step 0 (.inner _ _ (.add _ 0 1 0 rfl))
  have s3 := s2.step 1 (.enter _ 0 0 rfl)
  have s4 := s3.step 1 (.inner _ _ (.add _ 0 1 0 rfl))
  have s5 := s4.step 1 (.inner _ _ (.casOk _ 0 1 0 rfl rfl))
  have s6 := s5.step 1 (.inner _ _ (.load _ 1 0 rfl))
  have s7 := s6.step 1 (.inner _ _ (.store _ 0 1 0 rfl))
  exact ⟨_, s7, by decide, rfl⟩

/-- **C39.**  If fewer threads than the barrier size ever run the panel, no thread ever
returns from the barrier. -/
theorem C39_too_few_runners {P Q : Nat} (hQ : Q < P) {s : St Q} (h : Reach P s) (t : Fin Q) :
    (s.th t).rets = 0 :=
  ((few_inv hQ h).2.2 t).1

/-- A single runner of a two-rank panel really gets stuck in the loop. -/
example : ∃ s : St 1, Reach 2 s ∧ (s.th 0).pc = .spin 0 := by
  have s0 : Reach 2 (St.init 1) := .init
  have s1 := s0.step 0 (.enter _ 0 0 rfl)
  have s2 := s1.step 0 (.inner _ _ (.add _ 0 1 0 rfl))
  have s3 := s2.step 0 (.inner _ _ (.casFail _ 0 1 0 rfl (by decide)))
  exact ⟨_, s3, rfl⟩

end Verif.Props

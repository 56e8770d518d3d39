/-
The panel barrier (control/barrier.c) as a small-step transition system: one step per
memory operation, threads interleaved arbitrarily.
-/
import Mathlib.Algebra.BigOperators.Fin
import Mathlib.Data.Fintype.BigOperators
import Mathlib.Algebra.Order.BigOperators.Group.Finset
import Mathlib.Tactic.Linarith

namespace Verif.Barrier

open Finset

set_option linter.unusedSimpArgs false

/-- Program points of `plasma_barrier_wait` (control/barrier.c:21-31).  `spin` also
stands for the point after a failed compare-and-swap. -/
inductive Pc
  | out                  -- not inside a call
  | add (old : Nat)      -- passed_old read (line 23), before the fetch-and-add (line 25)
  | cas (old : Nat)      -- before the compare-and-swap (line 26)
  | load                 -- before reading `passed` in `passed++` (line 27)
  | store (v : Nat)      -- before writing `v+1` back (line 27)
  | spin (old : Nat)     -- in the loop (line 29)
  deriving DecidableEq

/-- One thread: program point, number of `plasma_barrier_wait` calls begun and number
of calls returned from. -/
structure Th where
  pc : Pc
  calls : Nat
  rets : Nat
  deriving DecidableEq

/-- Shared barrier (include/plasma_barrier.h:19-22) and threads.  Simplifications:
sequentially consistent memory (`__sync` builtins are full barriers, `passed` is
volatile) and unbounded counters. -/
structure St (Q : Nat) where
  count : Nat
  passed : Nat
  th : Fin Q → Th

/-- `plasma_barrier_init` (control/barrier.c:14-18), all threads outside. -/
def St.init (Q : Nat) : St Q := ⟨0, 0, fun _ => ⟨.out, 0, 0⟩⟩

/-- Replace the local state of thread `t`. -/
def St.set {Q : Nat} (s : St Q) (t : Fin Q) (x : Th) : St Q := { s with th := Function.update s.th t x }

/-- Steps that make progress inside a call, by thread `t` of `Q`, on a barrier of size `P`
(control/barrier.c:25-29). -/
inductive Inner {Q : Nat} (P : Nat) (t : Fin Q) : St Q → St Q → Prop
  | add (s : St Q) (old c r) (h : s.th t = ⟨.add old, c, r⟩) :
      Inner P t s { s.set t ⟨.cas old, c, r⟩ with count := s.count + 1 }
  | casOk (s : St Q) (old c r) (h : s.th t = ⟨.cas old, c, r⟩) (hc : s.count = P) :
      Inner P t s { s.set t ⟨.load, c, r⟩ with count := 0 }
  | casFail (s : St Q) (old c r) (h : s.th t = ⟨.cas old, c, r⟩) (hc : s.count ≠ P) :
      Inner P t s (s.set t ⟨.spin old, c, r⟩)
  | load (s : St Q) (c r) (h : s.th t = ⟨.load, c, r⟩) :
      Inner P t s (s.set t ⟨.store s.passed, c, r⟩)
  | store (s : St Q) (v c r) (h : s.th t = ⟨.store v, c, r⟩) :
      Inner P t s { s.set t ⟨.out, c, r + 1⟩ with passed := v + 1 }
  | leave (s : St Q) (old c r) (h : s.th t = ⟨.spin old, c, r⟩) (hp : s.passed ≠ old) :
      Inner P t s (s.set t ⟨.out, c, r + 1⟩)

/-- All steps: beginning a call (reading `passed`, control/barrier.c:23), progress
inside a call, and a fruitless turn of the spin loop. -/
inductive Step {Q : Nat} (P : Nat) (t : Fin Q) : St Q → St Q → Prop
  | enter (s : St Q) (c r) (h : s.th t = ⟨.out, c, r⟩) :
      Step P t s (s.set t ⟨.add s.passed, c + 1, r⟩)
  | inner (s s' : St Q) (h : Inner P t s s') : Step P t s s'
  | spin (s : St Q) (old c r) (h : s.th t = ⟨.spin old, c, r⟩) (hp : s.passed = old) : Step P t s s

/-- States reachable by any interleaving. -/
inductive Reach {Q : Nat} (P : Nat) : St Q → Prop
  | init : Reach P (St.init Q)
  | step {s s'} (t) : Reach P s → Step P t s s' → Reach P s'

/-- Calls whose fetch-and-add has been executed. -/
def Th.adds (x : Th) : Nat := match x.pc with
  | .add _ => x.calls - 1
  | _ => x.calls

theorem adds_out (c r) : (Th.mk .out c r).adds = c := rfl
theorem adds_add (o c r) : (Th.mk (.add o) c r).adds = c - 1 := rfl
theorem adds_cas (o c r) : (Th.mk (.cas o) c r).adds = c := rfl
theorem adds_load (c r) : (Th.mk .load c r).adds = c := rfl
theorem adds_store (o c r) : (Th.mk (.store o) c r).adds = c := rfl
theorem adds_spin (o c r) : (Th.mk (.spin o) c r).adds = c := rfl

/-- What thread `x` may look like after `R` rounds have been completed by a successful
compare-and-swap, given the value of `passed`. -/
def Th.ok (R passed : Nat) (x : Th) : Prop := match x.pc with
  | .out => x.calls = R ∧ x.rets = R ∧ passed = R
  | .add old => x.calls = R + 1 ∧ x.rets = R ∧ old = R ∧ passed = R
  | .cas old => (x.calls = R + 1 ∧ x.rets = R ∧ old = R ∧ passed = R) ∨
      (x.calls = R ∧ x.rets + 1 = R ∧ old + 1 = R)
  | .spin old => (x.calls = R + 1 ∧ x.rets = R ∧ old = R ∧ passed = R) ∨
      (x.calls = R ∧ x.rets + 1 = R ∧ old + 1 = R)
  | .load => x.calls = R ∧ x.rets + 1 = R ∧ passed + 1 = R
  | .store v => x.calls = R ∧ x.rets + 1 = R ∧ passed + 1 = R ∧ v + 1 = R

/-- The thread is completing the round. -/
def Th.winner (x : Th) : Bool := match x.pc with
  | .load | .store _ => true
  | _ => false

theorem sum_update {Q : Nat} (f : Th → Nat) (g : Fin Q → Th) (t : Fin Q) (x : Th) :
    (∑ u, f (Function.update g t x u)) + f (g t) = (∑ u, f (g u)) + f x := by
  classical
  have h1 := Finset.add_sum_erase univ (fun u => f (Function.update g t x u)) (mem_univ t)
  have h2 := Finset.add_sum_erase univ (fun u => f (g u)) (mem_univ t)
  have h3 : ∑ u ∈ univ.erase t, f (Function.update g t x u) = ∑ u ∈ univ.erase t, f (g u) := by
    apply Finset.sum_congr rfl
    intro u hu
    rw [Function.update_of_ne (Finset.ne_of_mem_erase hu)]
  simp only [Function.update_self] at h1
  omega

/-- Number of threads that have arrived in round `R+1`. -/
def arrived {Q : Nat} (g : Fin Q → Th) (R : Nat) : Nat := ∑ u, if (g u).adds = R + 1 then 1 else 0

/-- Inductive invariant. -/
structure Inv {Q : Nat} (P : Nat) (R : Nat) (s : St Q) : Prop where
  th : ∀ t, (s.th t).ok R s.passed
  count : s.count = arrived s.th R
  passed : s.passed = R ∨ s.passed + 1 = R ∧ ∃ t, (s.th t).winner
  one : ∀ t u, (s.th t).winner → (s.th u).winner → t = u
  full : s.count = P → ∃ t old, (s.th t).pc = .cas old

theorem arrived_le {Q : Nat} (g : Fin Q → Th) (R : Nat) : arrived g R ≤ Q := by
  have : arrived g R ≤ ∑ _u : Fin Q, 1 := Finset.sum_le_sum (fun u _ => by split <;> omega)
  simpa using this

theorem arrived_full {Q : Nat} {g : Fin Q → Th} {R : Nat} (h : arrived g R = Q) (t : Fin Q) :
    (g t).adds = R + 1 := by
  by_contra hne
  have : arrived g R < ∑ _u : Fin Q, 1 := by
    apply Finset.sum_lt_sum (fun u _ => by split <;> omega)
    exact ⟨t, mem_univ t, by rw [if_neg hne]; exact Nat.one_pos⟩
  simp at this
  omega

theorem arrived_update {Q : Nat} (g : Fin Q → Th) (R : Nat) (t : Fin Q) (x : Th) :
    arrived (Function.update g t x) R + (if (g t).adds = R + 1 then 1 else 0) =
      arrived g R + (if x.adds = R + 1 then 1 else 0) := by
  have := sum_update (fun x => if x.adds = R + 1 then 1 else 0) g t x
  simpa [arrived] using this

theorem arrived_update' {Q : Nat} (g : Fin Q → Th) (R : Nat) (t : Fin Q) (x y : Th) (a b : Nat)
    (h : g t = y) (ha : y.adds = a) (hb : x.adds = b) :
    arrived (Function.update g t x) R + (if a = R + 1 then 1 else 0) =
      arrived g R + (if b = R + 1 then 1 else 0) := by
  subst ha hb h
  exact arrived_update g R t x

theorem inv_init {P Q : Nat} (hP : 0 < P) : Inv P 0 (St.init Q) := by
  refine ⟨fun t => ?_, ?_, Or.inl rfl, ?_, ?_⟩
  · simp [St.init, Th.ok]
  · simp [St.init, arrived, Th.adds]
  · intro t u h; simp [St.init, Th.winner] at h
  · intro h; simp [St.init] at h; omega

theorem inv_enter {Q R P : Nat} {s : St Q} (hI : Inv P R s) (t : Fin Q) (c r : Nat)
    (h : s.th t = ⟨.out, c, r⟩) : Inv P R (s.set t ⟨.add s.passed, c + 1, r⟩) := by
  have ht := hI.th t
  rw [h] at ht
  obtain ⟨h1, h2, h3⟩ : c = R ∧ r = R ∧ s.passed = R := ht
  refine ⟨?_, ?_, Or.inl h3, ?_, ?_⟩
  · intro u
    by_cases hu : u = t
    · subst hu
      simp only [St.set, Function.update_self]
      exact ⟨show c + 1 = R + 1 by omega, h2, h3, h3⟩
    · simp only [St.set, Function.update_of_ne hu]
      exact hI.th u
  · have := arrived_update' s.th R t ⟨.add s.passed, c + 1, r⟩ _ c (c + 1 - 1) h rfl rfl
    rw [if_neg (by omega), if_neg (by omega)] at this
    show s.count = arrived (Function.update s.th t _) R
    rw [hI.count]; omega
  · intro u v hu hv
    have key : ∀ w, ((s.set t ⟨.add s.passed, c + 1, r⟩).th w).winner = true → (s.th w).winner = true := by
      intro w hw
      by_cases hwt : w = t
      · subst hwt; simp [St.set, Th.winner] at hw
      · simpa [St.set, Function.update_of_ne hwt] using hw
    exact hI.one u v (key u hu) (key v hv)
  · intro hc
    obtain ⟨u, old, hu⟩ := hI.full hc
    refine ⟨u, old, ?_⟩
    have : u ≠ t := by rintro rfl; rw [h] at hu; simp at hu
    simpa [St.set, Function.update_of_ne this] using hu

theorem inv_inner {Q R : Nat} {s s' : St Q} (hI : Inv Q R s) (t : Fin Q) (h : Inner Q t s s') :
    ∃ R', Inv Q R' s' := by
  cases h with
  | add old c r h =>
    have ht := hI.th t
    rw [h] at ht
    obtain ⟨h1, h2, h3, h4⟩ : c = R + 1 ∧ r = R ∧ old = R ∧ s.passed = R := ht
    refine ⟨R, ?_, ?_, Or.inl h4, ?_, ?_⟩
    · intro u
      by_cases hu : u = t
      · subst hu
        simp only [St.set, Function.update_self]
        exact Or.inl ⟨h1, h2, h3, h4⟩
      · simp only [St.set, Function.update_of_ne hu]
        exact hI.th u
    · have := arrived_update' s.th R t ⟨.cas old, c, r⟩ _ (c - 1) c h rfl rfl
      rw [if_neg (by omega), if_pos (by omega)] at this
      show s.count + 1 = arrived (Function.update s.th t _) R
      rw [hI.count]; omega
    · intro u v hu hv
      have key : ∀ w, ((s.set t ⟨.cas old, c, r⟩).th w).winner = true → (s.th w).winner = true := by
        intro w hw
        by_cases hwt : w = t
        · subst hwt; simp [St.set, Th.winner] at hw
        · simpa [St.set, Function.update_of_ne hwt] using hw
      exact hI.one u v (key u hu) (key v hv)
    · intro _
      exact ⟨t, old, by simp [St.set]⟩
  | casOk old c r h hc =>
    have hall : ∀ u, (s.th u).adds = R + 1 := fun u => arrived_full (by rw [← hI.count, hc]) u
    have hin : ∀ u, ((∃ o, (s.th u).pc = .cas o ∧ o = R) ∨ (∃ o, (s.th u).pc = .spin o ∧ o = R)) ∧
        (s.th u).calls = R + 1 ∧ (s.th u).rets = R ∧ s.passed = R := by
      intro u
      have h1 := hI.th u
      have h2 := hall u
      unfold Th.ok at h1
      unfold Th.adds at h2
      split at h1 <;> rename_i hpc <;> simp only [hpc] at h2 <;> simp only [hpc] <;>
        simp <;> omega
    have hp := (hin t).2.2.2
    refine ⟨R + 1, ?_, ?_, Or.inr ⟨by show s.passed + 1 = R + 1; omega, t, by simp [St.set, Th.winner]⟩, ?_, ?_⟩
    · intro u
      by_cases hu : u = t
      · subst hu
        have := hin u
        rw [h] at this
        simp only [St.set, Function.update_self]
        show c = R + 1 ∧ r + 1 = R + 1 ∧ s.passed + 1 = R + 1
        simp at this
        omega
      · simp only [St.set, Function.update_of_ne hu]
        obtain ⟨h1 | h1, h2, h3, h4⟩ := hin u
        all_goals
          obtain ⟨o, ho, hoR⟩ := h1
          unfold Th.ok
          rw [ho]
          right
          omega
    · show 0 = arrived (Function.update s.th t _) (R + 1)
      have : arrived s.th (R + 1) = 0 := by
        unfold arrived
        apply Finset.sum_eq_zero
        intro u _
        rw [if_neg]
        have := hall u
        omega
      have h2 := arrived_update s.th (R + 1) t ⟨.load, c, r⟩
      have h3 := hall t
      rw [h] at h3
      simp only [Th.adds] at h3
      rw [if_neg (by have := hall t; omega), if_neg (by simp only [Th.adds]; omega)] at h2
      omega
    · intro u v hu hv
      have key : ∀ w, ((s.set t ⟨.load, c, r⟩).th w).winner = true → w = t := by
        intro w hw
        by_contra hwt
        simp only [St.set, Function.update_of_ne hwt] at hw
        unfold Th.winner at hw
        obtain ⟨h1 | h1, _⟩ := hin w
        all_goals
          obtain ⟨o, ho, _⟩ := h1
          rw [ho] at hw
          simp at hw
      rw [key u hu, key v hv]
    · intro h0
      have h0 : (0 : Nat) = Q := h0
      exact absurd t.2 (by omega)
  | casFail old c r h hc =>
    have ht := hI.th t
    rw [h] at ht
    have ht' : (c = R + 1 ∧ r = R ∧ old = R ∧ s.passed = R) ∨ (c = R ∧ r + 1 = R ∧ old + 1 = R) := ht
    have key : ∀ w, ((s.set t ⟨.spin old, c, r⟩).th w).winner = true ↔ (s.th w).winner = true := by
      intro w
      by_cases hwt : w = t
      · subst hwt; simp [St.set, Th.winner, h]
      · simp [St.set, Function.update_of_ne hwt]
    refine ⟨R, ?_, ?_, ?_, ?_, ?_⟩
    · intro u
      by_cases hu : u = t
      · subst hu
        simp only [St.set, Function.update_self]
        exact ht'
      · simp only [St.set, Function.update_of_ne hu]
        exact hI.th u
    · have := arrived_update' s.th R t ⟨.spin old, c, r⟩ _ c c h rfl rfl
      show s.count = arrived (Function.update s.th t _) R
      rw [hI.count]; omega
    · rcases hI.passed with hp | ⟨hp, w, hw⟩
      · exact Or.inl hp
      · exact Or.inr ⟨hp, w, (key w).mpr hw⟩
    · intro u v hu hv
      exact hI.one u v ((key u).mp hu) ((key v).mp hv)
    · intro h'
      exact absurd h' hc
  | load c r h =>
    have ht := hI.th t
    rw [h] at ht
    obtain ⟨h1, h2, h3⟩ : c = R ∧ r + 1 = R ∧ s.passed + 1 = R := ht
    have key : ∀ w, ((s.set t ⟨.store s.passed, c, r⟩).th w).winner = true ↔ (s.th w).winner = true := by
      intro w
      by_cases hwt : w = t
      · subst hwt; simp [St.set, Th.winner, h]
      · simp [St.set, Function.update_of_ne hwt]
    refine ⟨R, ?_, ?_, ?_, ?_, ?_⟩
    · intro u
      by_cases hu : u = t
      · subst hu
        simp only [St.set, Function.update_self]
        exact ⟨h1, h2, h3, h3⟩
      · simp only [St.set, Function.update_of_ne hu]
        exact hI.th u
    · have := arrived_update' s.th R t ⟨.store s.passed, c, r⟩ _ c c h rfl rfl
      show s.count = arrived (Function.update s.th t _) R
      rw [hI.count]; omega
    · rcases hI.passed with hp | ⟨hp, w, hw⟩
      · exact Or.inl hp
      · exact Or.inr ⟨hp, w, (key w).mpr hw⟩
    · intro u v hu hv
      exact hI.one u v ((key u).mp hu) ((key v).mp hv)
    · intro hc
      obtain ⟨u, old, hu⟩ := hI.full hc
      refine ⟨u, old, ?_⟩
      have : u ≠ t := by rintro rfl; rw [h] at hu; simp at hu
      simpa [St.set, Function.update_of_ne this] using hu
  | store v c r h =>
    have ht := hI.th t
    rw [h] at ht
    obtain ⟨h1, h2, h3, h4⟩ : c = R ∧ r + 1 = R ∧ s.passed + 1 = R ∧ v + 1 = R := ht
    have hw : (s.th t).winner = true := by rw [h]; rfl
    refine ⟨R, ?_, ?_, Or.inl h4, ?_, ?_⟩
    · intro u
      by_cases hu : u = t
      · subst hu
        simp only [St.set, Function.update_self]
        exact ⟨h1, h2, h4⟩
      · simp only [St.set, Function.update_of_ne hu]
        have hx := hI.th u
        have hnw : ¬ (s.th u).winner = true := fun hw' => hu (hI.one u t hw' hw)
        unfold Th.ok at hx ⊢
        unfold Th.winner at hnw
        split at hx <;> rename_i hpc <;> simp only [hpc] at hnw ⊢ <;> simp at hnw <;> omega
    · have := arrived_update' s.th R t ⟨.out, c, r + 1⟩ _ c c h rfl rfl
      show s.count = arrived (Function.update s.th t _) R
      rw [hI.count]; omega
    · intro u w hu hw'
      have key : ∀ w, ((s.set t ⟨.out, c, r + 1⟩).th w).winner = true → (s.th w).winner = true := by
        intro w hw
        by_cases hwt : w = t
        · subst hwt; simp [St.set, Th.winner] at hw
        · simpa [St.set, Function.update_of_ne hwt] using hw
      exact hI.one u w (key u hu) (key w hw')
    · intro hc
      obtain ⟨u, old, hu⟩ := hI.full hc
      refine ⟨u, old, ?_⟩
      have : u ≠ t := by rintro rfl; rw [h] at hu; simp at hu
      simpa [St.set, Function.update_of_ne this] using hu
  | leave old c r h hp =>
    have ht := hI.th t
    rw [h] at ht
    have ht' : (c = R + 1 ∧ r = R ∧ old = R ∧ s.passed = R) ∨ (c = R ∧ r + 1 = R ∧ old + 1 = R) := ht
    have hpR : s.passed = R := by rcases hI.passed with h | h <;> omega
    have key : ∀ w, ((s.set t ⟨.out, c, r + 1⟩).th w).winner = true ↔ (s.th w).winner = true := by
      intro w
      by_cases hwt : w = t
      · subst hwt; simp [St.set, Th.winner, h]
      · simp [St.set, Function.update_of_ne hwt]
    refine ⟨R, ?_, ?_, Or.inl hpR, ?_, ?_⟩
    · intro u
      by_cases hu : u = t
      · subst hu
        simp only [St.set, Function.update_self]
        exact ⟨show c = R by omega, show r + 1 = R by omega, hpR⟩
      · simp only [St.set, Function.update_of_ne hu]
        exact hI.th u
    · have := arrived_update' s.th R t ⟨.out, c, r + 1⟩ _ c c h rfl rfl
      show s.count = arrived (Function.update s.th t _) R
      rw [hI.count]; omega
    · intro u v hu hv
      exact hI.one u v ((key u).mp hu) ((key v).mp hv)
    · intro hc
      obtain ⟨u, o, hu⟩ := hI.full hc
      refine ⟨u, o, ?_⟩
      have : u ≠ t := by rintro rfl; rw [h] at hu; simp at hu
      simpa [St.set, Function.update_of_ne this] using hu

theorem inv_reach {Q : Nat} (hQ : 0 < Q) {s : St Q} (h : Reach Q s) : ∃ R, Inv Q R s := by
  induction h with
  | init => exact ⟨0, inv_init hQ⟩
  | step t _ hs ih =>
    obtain ⟨R, hI⟩ := ih
    cases hs with
    | enter c r h => exact ⟨R, inv_enter hI t c r h⟩
    | inner _ h => exact inv_inner hI t h
    | spin _ _ _ _ => exact ⟨R, hI⟩

/-- Remaining work of a thread inside its call. -/
def Th.left (x : Th) : Nat := match x.pc with
  | .out => 0
  | .add _ => 4
  | .cas _ => 3
  | .load => 2
  | .store _ => 1
  | .spin _ => 1

theorem left_decreases {Q P : Nat} {t : Fin Q} {s s' : St Q} (h : Inner P t s s') :
    (∑ u, (s'.th u).left) < ∑ u, (s.th u).left := by
  cases h with
  | add old c r h | casOk old c r h hc | casFail old c r h hc | leave old c r h hp | load c r h
  | store v c r h =>
    all_goals
      simp only [St.set]
      refine Nat.lt_of_add_lt_add_right (n := (s.th t).left) ?_
      rw [sum_update, h]
      simp [Th.left]

/-- Executions in which no call begins and every step makes progress. -/
inductive Run {Q : Nat} (P : Nat) : Nat → St Q → St Q → Prop
  | nil (s) : Run P 0 s s
  | cons {n s s' s''} (t) : Inner P t s s' → Run P n s' s'' → Run P (n + 1) s s''

theorem run_bound {Q P n : Nat} {s s' : St Q} (h : Run P n s s') : n ≤ ∑ u, (s.th u).left := by
  induction h with
  | nil => omega
  | cons t h1 _ ih => have := left_decreases h1; omega

theorem left_le {Q : Nat} (g : Fin Q → Th) : (∑ u, (g u).left) ≤ 4 * Q := by
  have : (∑ u, (g u).left) ≤ ∑ _u : Fin Q, 4 :=
    Finset.sum_le_sum (fun u _ => by unfold Th.left; split <;> omega)
  simpa [mul_comm] using this

theorem inv_stuck {Q R r : Nat} {s : St Q} (hI : Inv Q R s) (hcalls : ∀ t, r ≤ (s.th t).calls)
    (hstuck : ∀ t s', ¬ Inner Q t s s') (t : Fin Q) : r ≤ (s.th t).rets := by
  have hpc : ∀ t, (s.th t).pc = .out ∨ ∃ old, (s.th t).pc = .spin old ∧ s.passed = old := by
    intro t
    rcases hx : s.th t with ⟨pc, c, r'⟩
    cases pc with
    | out => exact Or.inl rfl
    | add old => exact absurd (Inner.add s old c r' hx) (hstuck t _)
    | cas old =>
      by_cases hc : s.count = Q
      · exact absurd (Inner.casOk s old c r' hx hc) (hstuck t _)
      · exact absurd (Inner.casFail s old c r' hx hc) (hstuck t _)
    | load => exact absurd (Inner.load s c r' hx) (hstuck t _)
    | store v => exact absurd (Inner.store s v c r' hx) (hstuck t _)
    | spin old =>
      by_cases hp : s.passed = old
      · exact Or.inr ⟨old, rfl, hp⟩
      · exact absurd (Inner.leave s old c r' hx hp) (hstuck t _)
  have hpR : s.passed = R := by
    rcases hI.passed with h | ⟨_, w, hw⟩
    · exact h
    · unfold Th.winner at hw
      rcases hpc w with h | ⟨o, h, _⟩ <;> rw [h] at hw <;> simp at hw
  by_cases hr : R + 1 ≤ r
  · -- everybody has arrived: somebody is before the compare-and-swap
    exfalso
    have hall : arrived s.th R = Q := by
      have h1 : ∀ u, (s.th u).adds = R + 1 := by
        intro u
        unfold Th.adds
        have h1 := hI.th u
        unfold Th.ok at h1
        have := hcalls u
        rcases hpc u with h | ⟨o, h, _⟩ <;> simp only [h] at h1 ⊢ <;> omega
      unfold arrived
      rw [Finset.sum_congr rfl (fun u _ => if_pos (h1 u))]
      simp
    obtain ⟨u, o, hu⟩ := hI.full (by rw [hI.count, hall])
    rcases hpc u with h | ⟨o', h, _⟩ <;> rw [h] at hu <;> simp at hu
  · have hx := hI.th t
    unfold Th.ok at hx
    rcases hpc t with h | ⟨o, h, h'⟩ <;> simp only [h] at hx <;> have := hcalls t <;> omega

/-- Invariant with fewer runners than the barrier size: nobody ever leaves. -/
theorem few_inv {Q P : Nat} (hQP : Q < P) {s : St Q} (h : Reach P s) :
    s.passed = 0 ∧ s.count ≤ ∑ u, (if (s.th u).adds = 0 then 0 else 1) ∧
    (∀ t, (s.th t).rets = 0 ∧ ((s.th t).pc = .out ∧ (s.th t).calls = 0 ∨
      (s.th t).calls = 1 ∧ ((s.th t).pc = .add 0 ∨ (s.th t).pc = .cas 0 ∨ (s.th t).pc = .spin 0))) := by
  have cle : ∀ g : Fin Q → Th, (∑ u, (if (g u).adds = 0 then 0 else 1)) < P := by
    intro g
    have : (∑ u, (if (g u).adds = 0 then 0 else 1)) ≤ ∑ _u : Fin Q, 1 :=
      Finset.sum_le_sum (fun u _ => by split <;> omega)
    simp at this
    omega
  have upd : ∀ (g : Fin Q → Th) t x, (∑ u, (if (Function.update g t x u).adds = 0 then 0 else 1)) +
      (if (g t).adds = 0 then 0 else 1) =
      (∑ u, (if (g u).adds = 0 then 0 else 1)) + (if x.adds = 0 then 0 else 1) := fun g t x =>
    sum_update (fun x => if x.adds = 0 then 0 else 1) g t x
  induction h with
  | init => exact ⟨rfl, by simp [St.init, Th.adds], fun t => ⟨rfl, Or.inl ⟨rfl, rfl⟩⟩⟩
  | @step s _ t _ hs ih =>
    obtain ⟨i1, i2, i3⟩ := ih
    have hall : ∀ (s : St Q) x, (∀ u, (s.th u).rets = 0 ∧ ((s.th u).pc = .out ∧ (s.th u).calls = 0 ∨
        (s.th u).calls = 1 ∧ ((s.th u).pc = .add 0 ∨ (s.th u).pc = .cas 0 ∨ (s.th u).pc = .spin 0))) →
        (x.rets = 0 ∧ (x.pc = .out ∧ x.calls = 0 ∨
        x.calls = 1 ∧ (x.pc = .add 0 ∨ x.pc = .cas 0 ∨ x.pc = .spin 0))) →
        (∀ u, ((s.set t x).th u).rets = 0 ∧ (((s.set t x).th u).pc = .out ∧ ((s.set t x).th u).calls = 0 ∨
        ((s.set t x).th u).calls = 1 ∧ (((s.set t x).th u).pc = .add 0 ∨ ((s.set t x).th u).pc = .cas 0 ∨
          ((s.set t x).th u).pc = .spin 0))) := by
      intro s x h1 h2 u
      by_cases hu : u = t
      · subst hu; simpa [St.set] using h2
      · simpa [St.set, Function.update_of_ne hu] using h1 u
    cases hs with
    | enter c r h =>
      have ht := i3 t
      rw [h] at ht
      simp at ht
      obtain ⟨rfl, rfl⟩ := ht
      refine ⟨i1, ?_, hall s _ i3 (by simp [i1])⟩
      have := upd s.th t ⟨.add s.passed, 1, 0⟩
      rw [h] at this
      show s.count ≤ ∑ u, (if (Function.update s.th t _ u).adds = 0 then 0 else 1)
      simp only [adds_out, adds_add, adds_cas, adds_load, adds_store, adds_spin] at this
      simp at this
      show s.count ≤ ∑ u, (if (Function.update s.th t ⟨.add s.passed, 1, 0⟩ u).adds = 0 then 0 else 1)
      omega
    | inner s' h =>
      cases h with
      | add old c r h =>
        have ht := i3 t
        rw [h] at ht
        simp at ht
        obtain ⟨rfl, rfl, rfl⟩ := ht
        refine ⟨i1, ?_, hall s _ i3 (by simp)⟩
        have := upd s.th t ⟨.cas 0, 1, 0⟩
        rw [h] at this
        show s.count + 1 ≤ ∑ u, (if (Function.update s.th t _ u).adds = 0 then 0 else 1)
        simp only [adds_out, adds_add, adds_cas, adds_load, adds_store, adds_spin] at this
        simp at this
        omega
      | casOk old c r h hc =>
        have := cle s.th
        omega
      | casFail old c r h hc =>
        have ht := i3 t
        rw [h] at ht
        simp at ht
        obtain ⟨rfl, rfl, rfl⟩ := ht
        refine ⟨i1, ?_, hall s _ i3 (by simp)⟩
        have := upd s.th t ⟨.spin 0, 1, 0⟩
        rw [h] at this
        show s.count ≤ ∑ u, (if (Function.update s.th t _ u).adds = 0 then 0 else 1)
        simp only [adds_out, adds_add, adds_cas, adds_load, adds_store, adds_spin] at this
        simp at this
        omega
      | load c r h => have ht := i3 t; rw [h] at ht; simp at ht
      | store v c r h => have ht := i3 t; rw [h] at ht; simp at ht
      | leave old c r h hp =>
        have ht := i3 t
        rw [h] at ht
        simp at ht
        omega
    | spin old c r h hp => exact ⟨i1, i2, i3⟩

end Verif.Barrier

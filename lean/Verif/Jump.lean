/-
Executions in which a task overtakes independent tasks: used to show that returned values can
depend on the schedule.
-/
import Verif.DriverG

namespace Verif.Sched

universe u v w

variable {K : Type w} {L : Type u} {V : Type v}

/-- A step of a prefix of the program is a step of the program, and concerns no later task. -/
theorem GStep.prefix {p : List (GTask K L V)} (q : List (GTask K L V)) {s s' : GState L V} (h : GStep p s s') :
    GStep (p ++ q) s s' ∧ ∀ k, p.length ≤ k → s'.pc k = s.pc k := by
  have hlt : ∀ {i : Nat} {t : GTask K L V}, p[i]? = some t → i < p.length ∧ (p ++ q)[i]? = some t := by
    intro i t ht
    have hi : i < p.length := by
      by_contra hn
      rw [List.getElem?_eq_none (by omega)] at ht; cases ht
    exact ⟨hi, by rw [List.getElem?_append_left hi]; exact ht⟩
  cases h with
  | start i t ht hw hr hg =>
    obtain ⟨hi, ht'⟩ := hlt ht
    refine ⟨.start s i t ht' hw ?_ hg, fun k hk => by simp [show k ≠ i by omega]⟩
    intro b hb
    obtain ⟨hbi, x, y, hx, hy, hd⟩ := hb
    apply hr
    refine ⟨hbi, x, y, ?_, ?_, hd⟩
    · rw [plain, List.map_append, List.getElem?_append_left (by simp; omega)] at hx; exact hx
    · rw [plain, List.map_append, List.getElem?_append_left (by simp; omega)] at hy; exact hy
  | event i j c t e ht hp he =>
    obtain ⟨hi, ht'⟩ := hlt ht
    exact ⟨.event s i j c t e ht' hp he, fun k hk => by simp [show k ≠ i by omega]⟩
  | finish i c t ht hp =>
    obtain ⟨hi, ht'⟩ := hlt ht
    exact ⟨.finish s i c t ht' hp, fun k hk => by simp [show k ≠ i by omega]⟩
  | skip i hi hw hs =>
    exact ⟨.skip s i (by simp; omega) hw hs, fun k hk => by simp [show k ≠ i by omega]⟩

theorem GReach.prefix {p : List (GTask K L V)} (q : List (GTask K L V)) {s s' : GState L V} (h : GReach p s s') :
    GReach (p ++ q) s s' ∧ ∀ k, p.length ≤ k → s'.pc k = s.pc k := by
  induction h with
  | refl => exact ⟨.refl, fun _ _ => rfl⟩
  | tail _ hst ih =>
    obtain ⟨h1, h2⟩ := hst.prefix q
    exact ⟨ih.1.tail h1, fun k hk => (h2 k hk).trans (ih.2 k hk)⟩

/-- After a failure the waiting tasks may be dropped. -/
theorem GReach.skip_all (p : List (GTask K L V)) (s : GState L V) (h0 : s.status ≠ 0)
    (hpc : ∀ i < p.length, s.pc i = .waiting ∨ s.pc i = .done) :
    ∃ s', GReach p s s' ∧ s'.Final p ∧ s'.status = s.status ∧ s'.mem = s.mem := by
  suffices h : ∀ n ≤ p.length, ∃ s', GReach p s s' ∧ (∀ i < n, s'.pc i = .done) ∧
      (∀ i < p.length, s'.pc i = .waiting ∨ s'.pc i = .done) ∧ s'.status = s.status ∧ s'.mem = s.mem by
    obtain ⟨s', h1, h2, -, h3, h4⟩ := h p.length le_rfl
    exact ⟨s', h1, h2, h3, h4⟩
  intro n
  induction n with
  | zero => intro _; exact ⟨s, .refl, by simp, hpc, rfl, rfl⟩
  | succ n ih =>
    intro hn
    obtain ⟨s', h1, h2, h3, h4, h5⟩ := ih (by omega)
    rcases h3 n (by omega) with hw | hd
    · refine ⟨_, h1.tail (.skip s' n (by omega) hw (by rw [h4]; exact h0)), ?_, ?_, h4, h5⟩
      · intro i hi
        by_cases e : i = n
        · subst e; simp
        · simp only [Function.update_of_ne e]; exact h2 i (by omega)
      · intro i hi
        by_cases e : i = n
        · subst e; simp
        · simp only [Function.update_of_ne e]; exact h3 i hi
    · refine ⟨s', h1, fun i hi => ?_, h3, h4, h5⟩
      by_cases e : i = n
      · subst e; exact hd
      · exact h2 i (by omega)

/-- If the prefix `p` can be completed, and task `t` depends on nothing between it and `p`, then
`t` may be executed next; if it fails, its code is the final status. -/
theorem GReach.jump {p q r : List (GTask K L V)} {t : GTask K L V} {s0 s : GState L V}
    (hr : GReach p s0 s) (hf : s.Final p) (h0 : s.status = 0) (hw : ∀ k, p.length ≤ k → s0.pc k = .waiting)
    (hind : ∀ x ∈ q, ¬ DepOn x.toTask t.toTask) (hc : t.code s.mem ≠ 0) :
    ∃ s', GReach (p ++ (q ++ t :: r)) s0 s' ∧ s'.Final (p ++ (q ++ t :: r)) ∧ s'.status = t.code s.mem := by
  obtain ⟨h1, h2⟩ := hr.prefix (q ++ t :: r)
  set P := p ++ (q ++ t :: r) with hP
  have hPt : P[p.length + q.length]? = some t := by
    rw [hP, List.getElem?_append_right (by omega), List.getElem?_append_right (by omega)]
    simp
  have hwt : ∀ k, p.length ≤ k → s.pc k = .waiting := fun k hk => (h2 k hk).trans (hw k hk)
  have hready : Ready P s (p.length + q.length) := by
    rintro b ⟨hb, x, y, hx, hy, hd⟩
    by_cases hbp : b < p.length
    · exact hf b hbp
    · exfalso
      rw [plain, List.getElem?_map, hPt] at hy
      obtain rfl : t.toTask = y := by simpa using hy
      have hxx : ∃ z ∈ q, z.toTask = x := by
        rw [plain, List.getElem?_map, hP, List.getElem?_append_right (by omega),
          List.getElem?_append_left (by omega)] at hx
        obtain ⟨z, hz, e⟩ := Option.map_eq_some_iff.mp hx
        exact ⟨z, List.mem_of_getElem? hz, e⟩
      obtain ⟨z, hz, rfl⟩ := hxx
      exact hind z hz hd
  have hst := GStep.start s _ t hPt (hwt _ (by omega)) hready (fun _ => h0)
  obtain ⟨s1, r1, r2, r3⟩ := GReach.run_task hPt (t.code s.mem) t.evs.length 0
    ⟨s.mem, s.status, Function.update s.pc (p.length + q.length) (.running 0 (t.code s.mem))⟩ (by omega) (by simp)
  have hfin := GStep.finish s1 _ _ t hPt r2
  obtain ⟨s', g1, g2, g3, -⟩ := GReach.skip_all P
    ⟨s1.mem, if t.code s.mem = 0 then s1.status else t.code s.mem, Function.update s1.pc (p.length + q.length) .done⟩
    (by simp [hc]) (by
      intro i hi
      by_cases e : i = p.length + q.length
      · subst e; right; simp
      · simp only [Function.update_of_ne e, r3 i e]
        by_cases hip : i < p.length
        · right; exact hf i hip
        · left; exact hwt i (by omega))
  refine ⟨s', ((h1.tail hst).trans (r1.tail hfin)).trans g1, g2, ?_⟩
  rw [g3]
  simp [hc]

end Verif.Sched

namespace Verif.Tile

open Verif.Sched

universe u v

variable {M : Type u} {α : Type v}

/-- A task that depends on none of the tasks `Q` created between the conversions `I` and itself
may be the one whose code is returned. -/
theorem GExec.jump {env : M → MatEnv} {I Q R : List (GTTask (M × Nat × Nat) α)} {t : GTTask (M × Nat × Nat) α} (hwf : ∀ a, (env a).WF)
    (hgI : Good (evalid env) (tasks I)) (hIc : CodeOK I) (hIs : Safe I) (hL : ∀ x ∈ tasks (I ++ (Q ++ t :: R)), x.Local)
    (hN : ∀ x ∈ tasks (I ++ (Q ++ t :: R)), x.Inside (evalid env)) (hco : CodeOK [t])
    (hind : ∀ x ∈ Q, ¬ x.task.phase < t.task.phase ∧
      ∀ d ∈ x.task.deps, ∀ d' ∈ t.task.deps, ekey env d.1 ≠ ekey env d'.1) (mem : M × Nat → α)
    (hc : t.code (texec (tasks I) (view (eloc env) mem)) ≠ 0) :
    ∃ mem', GExec env (I ++ (Q ++ t :: R)) mem mem' (t.code (texec (tasks I) (view (eloc env) mem))) := by
  let F : GTTask (M × Nat × Nat) α → GTask (M × Nat) (M × Nat) α := fun t =>
    { toTask := atomicImpl (eloc env) (ekey env) t.task
      guard := t.guard
      code := fun m => t.code (view (eloc env) m) }
  have hF : ∀ P : List (GTTask (M × Nat × Nat) α), (∀ x ∈ tasks P, x.Local) → (∀ x ∈ tasks P, x.Inside (evalid env)) →
      List.Forall₂ (GImpl (eloc env) (ekey env)) P (P.map F) := by
    intro P hP1 hP2
    rw [List.forall₂_map_right_iff, List.forall₂_same]
    intro t ht
    have htm : t.task ∈ tasks P := List.mem_map.mpr ⟨t, ht, rfl⟩
    exact ⟨atomicImpl_ok (env_inj hwf) (hP1 _ htm) (hP2 _ htm), rfl, rfl⟩
  obtain ⟨s, h1, h2⟩ := guarded_exists (I.map F) mem 0
  have hx : GExec env I mem s.mem s.status := ⟨_, s, hF _ hgI.loc hgI.ins, h1, h2, rfl, rfl⟩
  have h0 : s.status = 0 := by
    by_contra hne
    obtain ⟨i, -, hi, -⟩ := hx.failure hwf hgI hIc hne
    rw [show tcode I _ i = 0 by unfold tcode; split <;> [exact hIs _ (List.mem_of_getElem? (by assumption)) _; rfl]] at hi
    exact hne hi.symm
  rw [h0] at hx
  obtain ⟨hex, -⟩ := hx.success hwf hgI hIc
  have hv := (Exec.correct hwf hgI.loc hgI.ins (tcovered_of_declared hgI.decl) hex).1
  have htm : t.task ∈ tasks (I ++ (Q ++ t :: R)) := by simp [tasks]
  have hcode : t.code (view (eloc env) s.mem) = t.code (texec (tasks I) (view (eloc env) mem)) :=
    hco.loc t List.mem_cons_self _ _ fun a i j h => hv a i j (hN _ htm a i j h)
  obtain ⟨s', r1, r2, r3⟩ := GReach.jump (q := Q.map F) (r := R.map F) (t := F t) h1 h2 h0 (fun _ _ => rfl)
    (by
      intro x hx hd
      obtain ⟨y, hy, rfl⟩ := List.mem_map.mp hx
      obtain ⟨k1, k2⟩ := hind y hy
      rcases hd with hd | ⟨d, hd, d', hd', e, -⟩
      · exact k1 hd
      · obtain ⟨e1, he1, rfl⟩ := List.mem_map.mp hd
        obtain ⟨e2, he2, rfl⟩ := List.mem_map.mp hd'
        exact k2 e1 he1 e2 he2 e)
    (by show t.code (view (eloc env) s.mem) ≠ 0; rw [hcode]; exact hc)
  refine ⟨s'.mem, _, s', hF _ hL hN, ?_, ?_, rfl, ?_⟩
  · simpa using r1
  · simpa using r2
  · rw [r3]; exact hcode.symm

end Verif.Tile

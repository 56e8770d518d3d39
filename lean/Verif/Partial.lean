/-
Executions in which a kernel has failed: which tasks have run, and what memory holds.
-/
import Verif.DriverG

namespace Verif.Sched

universe u v w

variable {K : Type w} {L : Type u} {V : Type v}

/-- The members of a list whose position, counted from `n`, lies in `D`. -/
noncomputable def keep {β : Type*} (D : Set Nat) : List β → Nat → List β
  | [], _ => []
  | t :: p, n => by classical exact if n ∈ D then t :: keep D p (n + 1) else keep D p (n + 1)

/-- What is known about a state of a region whose tasks are all guarded: `D` are the tasks
that have started, `sch` the events executed. -/
structure PHist (p : List (GTask K L V)) (mem0 : L → V) (s : GState L V) (D : Set Nat)
    (sch : List Occ) : Prop where
  nodup : sch.Nodup
  mem : s.mem = runSched (plain p) sch mem0
  iff : ∀ i e, (i, e) ∈ sch ↔ i ∈ D ∧ ∃ t, p[i]? = some t ∧ e < (s.pc i).prog t.evs.length
  order : sch.Pairwise fun a b =>
    ¬ (a.1 = b.1 ∧ b.2 < a.2) ∧ ¬ Relation.TransGen (Edge (plain p)) b.1 a.1
  run : ∀ i j c, s.pc i = .running j c → i ∈ D
  wait : ∀ i, s.pc i = .waiting → i ∉ D
  closed : ∀ i ∈ D, ∀ b, Edge (plain p) b i → b ∈ D ∧ s.pc b = .done
  zero : s.status = 0 → ∀ i, s.pc i = .done → i ∈ D
  codes : ∀ i ∈ D, ∀ b, Relation.TransGen (Edge (plain p)) b i → seqCode p mem0 b = 0
  fail : s.status ≠ 0 → ∃ i ∈ D, seqCode p mem0 i = s.status

theorem PHist.closed' {p : List (GTask K L V)} {mem0 : L → V} {s : GState L V} {D : Set Nat}
    {sch : List Occ} (h : PHist p mem0 s D sch) {i b : Nat} (hi : i ∈ D)
    (hT : Relation.TransGen (Edge (plain p)) b i) : b ∈ D ∧ s.pc b = .done := by
  induction hT using Relation.TransGen.head_induction_on with
  | single e => exact h.closed _ hi _ e
  | head e _ ih => exact h.closed _ ih.1 _ e

theorem PHist.init (p : List (GTask K L V)) (mem0 : L → V) :
    PHist p mem0 (GState.init mem0 0) ∅ [] where
  nodup := List.nodup_nil
  mem := rfl
  iff := by intro i e; simp
  order := List.Pairwise.nil
  run := by intro i j c h; simp [GState.init] at h
  wait := by intro i _; simp
  closed := by intro i h; simp at h
  zero := by intro _ i h; simp [GState.init] at h
  codes := by intro i h; simp at h
  fail := by intro h; simp [GState.init] at h

theorem PHist.step {p : List (GTask K L V)} {mem0 : L → V} {s s' : GState L V} {D : Set Nat}
    {sch : List Occ} (hgd : ∀ t ∈ p, t.guard = true) (hI : GInv p mem0 s)
    (h : PHist p mem0 s D sch) (hst : GStep p s s') : ∃ D' sch', PHist p mem0 s' D' sch' := by
  cases hst with
  | start i t ht hw hr hg =>
    have h0 : s.status = 0 := hg (hgd t (List.mem_of_getElem? ht))
    have hiD := h.wait i hw
    refine ⟨insert i D, sch, h.nodup, h.mem, ?_, h.order, ?_, ?_, ?_, ?_, ?_, ?_⟩
    · intro k e
      rw [h.iff]
      by_cases hk : k = i
      · subst hk; simp [PC.prog, hiD]
      · simp [Function.update_of_ne hk, hk]
    · intro k j c hk
      by_cases hki : k = i
      · subst hki; simp
      · exact Or.inr (h.run k j c (by simpa [Function.update_of_ne hki] using hk))
    · intro k hk
      by_cases hki : k = i
      · subst hki; simp at hk
      · rintro (h1 | h1)
        · exact hki h1
        · exact h.wait k (by simpa [Function.update_of_ne hki] using hk) h1
    · intro k hk b hb
      have hbd : b ∈ D ∧ s.pc b = .done := by
        rcases hk with rfl | hk
        · exact ⟨h.zero h0 b (hr b hb), hr b hb⟩
        · exact h.closed k hk b hb
      have hne : b ≠ i := by rintro rfl; exact hiD hbd.1
      exact ⟨Or.inr hbd.1, by simpa [Function.update_of_ne hne] using hbd.2⟩
    · intro _ k hk
      by_cases hki : k = i
      · subst hki; simp
      · exact Or.inr (h.zero h0 k (by simpa [Function.update_of_ne hki] using hk))
    · intro k hk b hb
      rcases hk with rfl | hk
      · rcases Relation.TransGen.tail'_iff.mp hb with ⟨c, hbc, hck⟩
        have hc := hr c hck
        rcases Relation.reflTransGen_iff_eq_or_transGen.mp hbc with h1 | h1
        · rw [← h1]; exact hI.ok h0 c hc
        · exact hI.ok h0 b (h.closed' (h.zero h0 c hc) h1).2
      · exact h.codes k hk b hb
    · intro h1; exact absurd h0 h1
  | event i j c t e ht hp he =>
    have hiD := h.run i j c hp
    have hj : j < t.evs.length := by
      rw [List.getElem?_eq_some_iff] at he; exact he.1
    have hnot : (i, j) ∉ sch := by
      rw [h.iff]; rintro ⟨_, t', ht', hlt⟩
      rw [hp] at hlt; simp [PC.prog] at hlt
    refine ⟨D, sch ++ [(i, j)], ?_, ?_, ?_, ?_, ?_, ?_, ?_, ?_, h.codes, h.fail⟩
    · rw [List.nodup_append]
      refine ⟨h.nodup, List.nodup_singleton _, ?_⟩
      intro a ha b hb
      simp at hb; subst hb
      rintro rfl; exact hnot ha
    · dsimp only
      rw [h.mem]
      simp only [runSched, List.map_append, execL_append, List.map_cons, List.map_nil, execL_cons,
        execL_nil]
      simp [occRun, evAt, plain_get ht, he]
    · intro k e'
      rw [List.mem_append, h.iff]
      by_cases hk : k = i
      · subst hk
        simp only [Function.update_self, PC.prog, hp, List.mem_singleton, Prod.mk.injEq, true_and]
        constructor
        · rintro (⟨_, t', h1, h2⟩ | rfl)
          · exact ⟨hiD, t', h1, by omega⟩
          · exact ⟨hiD, t, ht, by omega⟩
        · rintro ⟨_, t', h1, h2⟩
          rcases Nat.lt_or_ge e' j with h3 | h3
          · exact Or.inl ⟨hiD, t', h1, h3⟩
          · right; omega
      · simp [hk]
    · rw [List.pairwise_append]
      refine ⟨h.order, List.pairwise_singleton _ _, ?_⟩
      intro a ha b hb
      simp at hb; subst hb
      obtain ⟨a1, a2⟩ := a
      obtain ⟨ha1, t', ht', hlt⟩ := (h.iff a1 a2).mp ha
      refine ⟨?_, ?_⟩
      · rintro ⟨h1, h2⟩
        dsimp only at h1 h2
        subst h1
        rw [hp] at hlt; simp [PC.prog] at hlt; omega
      · intro hT
        have := (h.closed' ha1 hT).2
        rw [hp] at this; cases this
    · intro k j' c' hk
      by_cases hki : k = i
      · subst hki; exact hiD
      · exact h.run k j' c' (by simpa [Function.update_of_ne hki] using hk)
    · intro k hk
      by_cases hki : k = i
      · subst hki; simp at hk
      · exact h.wait k (by simpa [Function.update_of_ne hki] using hk)
    · intro k hk b hb
      have hbd := h.closed k hk b hb
      have hne : b ≠ i := by
        rintro rfl; have := hbd.2; rw [hp] at this; cases this
      exact ⟨hbd.1, by simpa [Function.update_of_ne hne] using hbd.2⟩
    · intro h0 k hk
      by_cases hki : k = i
      · subst hki; simp at hk
      · exact h.zero h0 k (by simpa [Function.update_of_ne hki] using hk)
  | finish i c t ht hp =>
    have hiD := h.run i _ c hp
    refine ⟨D, sch, h.nodup, h.mem, ?_, h.order, ?_, ?_, ?_, ?_, h.codes, ?_⟩
    · intro k e
      rw [h.iff]
      by_cases hk : k = i
      · subst hk
        refine and_congr_right fun _ => ⟨?_, ?_⟩
        all_goals
          rintro ⟨t', h1, h2⟩
          refine ⟨t', h1, ?_⟩
          rw [ht] at h1; cases h1
          simpa [hp, PC.prog] using h2
      · simp [Function.update_of_ne hk]
    · intro k j' c' hk
      by_cases hki : k = i
      · subst hki; exact hiD
      · exact h.run k j' c' (by simpa [Function.update_of_ne hki] using hk)
    · intro k hk
      by_cases hki : k = i
      · subst hki; simp at hk
      · exact h.wait k (by simpa [Function.update_of_ne hki] using hk)
    · intro k hk b hb
      have hbd := h.closed k hk b hb
      refine ⟨hbd.1, ?_⟩
      by_cases hbi : b = i
      · subst hbi; simp
      · simpa [Function.update_of_ne hbi] using hbd.2
    · intro h0 k hk
      by_cases hki : k = i
      · subst hki; exact hiD
      · refine h.zero ?_ k (by simpa [Function.update_of_ne hki] using hk)
        dsimp only at h0
        split at h0
        · exact h0
        · exact absurd h0 (by assumption)
    · intro h0
      dsimp only at h0 ⊢
      split
      · rename_i hc
        rw [if_pos hc] at h0
        exact h.fail h0
      · exact ⟨i, hiD, (hI.run i _ c hp).1.symm⟩
  | skip i hi hw hs =>
    have hiD := h.wait i hw
    refine ⟨D, sch, h.nodup, h.mem, ?_, h.order, ?_, ?_, ?_, ?_, h.codes, h.fail⟩
    · intro k e
      rw [h.iff]
      by_cases hk : k = i
      · subst hk; simp [hiD]
      · simp [Function.update_of_ne hk]
    · intro k j' c' hk
      by_cases hki : k = i
      · subst hki; simp at hk
      · exact h.run k j' c' (by simpa [Function.update_of_ne hki] using hk)
    · intro k hk
      by_cases hki : k = i
      · subst hki; simp at hk
      · exact h.wait k (by simpa [Function.update_of_ne hki] using hk)
    · intro k hk b hb
      have hbd := h.closed k hk b hb
      refine ⟨hbd.1, ?_⟩
      by_cases hbi : b = i
      · subst hbi; simp
      · simpa [Function.update_of_ne hbi] using hbd.2
    · intro h0; exact absurd h0 hs

theorem PHist.reach {p : List (GTask K L V)} {fp : Nat → Set L} {mem0 : L → V} {s : GState L V}
    (hp : GWell p fp) (hgd : ∀ t ∈ p, t.guard = true) (h : GReach p (GState.init mem0 0) s) :
    ∃ D sch, PHist p mem0 s D sch := by
  induction h with
  | refl => exact ⟨_, _, PHist.init p mem0⟩
  | tail hm hz ih =>
    obtain ⟨D, sch, h⟩ := ih
    exact h.step hgd (GInv.reach hp hm) hz

/-- Executing the occurrences of the tasks in `D` is executing those tasks. -/
theorem execL_keep (q : List (Task K L V)) (D : Set Nat) [DecidablePred (· ∈ D)] :
    ∀ (p : List (Task K L V)) (n : Nat), (∀ i, q[n + i]? = p[i]?) → ∀ s,
      execL (((occsFrom p n).filter fun o => decide (o.1 ∈ D)).map (occRun q)) s = seqExec (keep D p n) s := by
  intro p
  induction p with
  | nil => intro n _ s; rfl
  | cons t p ih =>
    intro n hq s
    have h0 : q[n]? = some t := by simpa using hq 0
    have hrec := ih (n + 1) (fun i => by have := hq (i + 1); rw [show n + 1 + i = n + (i + 1) by omega, this]; simp)
    simp only [occsFrom, List.filter_append, List.map_append, execL_append]
    by_cases hn : n ∈ D
    · have e1 : (((List.range t.evs.length).map fun e => (n, e)).filter fun o => decide (o.1 ∈ D)) =
          (List.range t.evs.length).map fun e => (n, e) := by
        rw [List.filter_eq_self]; intro a ha
        obtain ⟨e, _, rfl⟩ := List.mem_map.mp ha
        simpa using hn
      have e2 : keep D (t :: p) n = t :: keep D p (n + 1) := by simp [keep, hn]
      rw [e1, hrec, e2]
      have e3 : ((List.range t.evs.length).map fun e => (n, e)).map (occRun q) = t.evs.map Ev.run := by
        apply List.ext_getElem
        · simp
        · intro i h1 h2
          simp at h2
          simp [occRun, evAt, h0, h2]
      rw [e3]; rfl
    · have e1 : (((List.range t.evs.length).map fun e => (n, e)).filter fun o => decide (o.1 ∈ D)) = [] := by
        rw [List.filter_eq_nil_iff]; intro a ha
        obtain ⟨e, _, rfl⟩ := List.mem_map.mp ha
        simpa using hn
      have e2 : keep D (t :: p) n = keep D p (n + 1) := by simp [keep, hn]
      rw [e1, e2, ← hrec]; rfl

/-- **Partial executions.**  A region whose tasks are all guarded, started with status
zero, executes the tasks of a set `D` closed under dependences; its memory is that of the
sequential execution of these tasks, no task before a task of `D` fails, and the status, if
not zero, is the code of a task in `D`. -/
theorem guarded_partial {p : List (GTask K L V)} {fp : Nat → Set L} {mem0 : L → V}
    {s : GState L V} (hp : GWell p fp) (hgd : ∀ t ∈ p, t.guard = true)
    (h : GReach p (GState.init mem0 0) s) (hf : s.Final p) :
    ∃ D : Set Nat, s.mem = seqExec (keep D (plain p) 0) mem0 ∧
      (∀ i ∈ D, ∀ b, Relation.TransGen (Edge (plain p)) b i → b ∈ D ∧ seqCode p mem0 b = 0) ∧
      (s.status ≠ 0 → ∃ i ∈ D, seqCode p mem0 i = s.status) := by
  classical
  obtain ⟨D, sch, hh⟩ := PHist.reach hp hgd h
  refine ⟨D, ?_, fun i hi b hb => ⟨(hh.closed' hi hb).1, hh.codes i hi b hb⟩, hh.fail⟩
  rw [hh.mem, ← execL_keep (plain p) D (plain p) 0 (by simp)]
  have hnd : (occs (plain p)).Nodup := by
    refine List.Pairwise.imp ?_ (occsFrom_pairwise (plain p) 0)
    rintro a b hab rfl
    rcases hab with h | ⟨_, h⟩ <;> omega
  have hall : ∀ o ∈ sch, ∃ t e, (plain p)[o.1]? = some t ∧ t.evs[o.2]? = some e := by
    rintro ⟨o1, o2⟩ ho
    obtain ⟨_, t, h1, h2⟩ := (hh.iff _ _).mp ho
    have hi : o1 < p.length := by rw [List.getElem?_eq_some_iff] at h1; exact h1.1
    rw [hf o1 hi] at h2
    have h3 : o2 < t.evs.length := h2
    exact ⟨t.toTask, t.evs[o2], plain_get h1, List.getElem?_eq_getElem h3⟩
  refine trace (occRun (plain p)) occLt sch _ ?_ ((occsFrom_pairwise (plain p) 0).filter _) ?_ mem0
  · show sch.Perm ((occs (plain p)).filter _)
    rw [List.perm_ext_iff_of_nodup hh.nodup (hnd.filter _)]
    rintro ⟨i, e⟩
    rw [hh.iff, List.mem_filter, mem_occs, decide_eq_true_iff]
    constructor
    · rintro ⟨hD, t, h1, h2⟩
      have hi : i < p.length := by rw [List.getElem?_eq_some_iff] at h1; exact h1.1
      rw [hf i hi] at h2
      exact ⟨⟨t.toTask, plain_get h1, h2⟩, hD⟩
    · rintro ⟨⟨t, h1, h2⟩, hD⟩
      obtain ⟨g, h3, rfl⟩ := plain_get' h1
      have hi : i < p.length := by rw [List.getElem?_eq_some_iff] at h3; exact h3.1
      exact ⟨hD, g, h3, by rw [hf i hi]; exact h2⟩
  · refine List.Pairwise.imp_of_mem ?_ hh.order
    intro a b ha hb hab hlt t
    obtain ⟨ta, ea, hta, hea⟩ := hall a ha
    obtain ⟨tb, eb, htb, heb⟩ := hall b hb
    have hra : occRun (plain p) a = ea.run := by simp [occRun, evAt, hta, hea]
    have hrb : occRun (plain p) b = eb.run := by simp [occRun, evAt, htb, heb]
    rw [hra, hrb]
    obtain ⟨ga, hga, rfl⟩ := plain_get' hta
    obtain ⟨gb, hgb, rfl⟩ := plain_get' htb
    have hsa : ea.Sound := hp.sound ga (List.mem_of_getElem? hga) ea (List.mem_of_getElem? hea)
    have hsb : eb.Sound := hp.sound gb (List.mem_of_getElem? hgb) eb (List.mem_of_getElem? heb)
    rcases hlt with hlt | ⟨h1, h2⟩
    · symm
      apply comm_of_not_conflict hsb hsa
      intro hconf
      exact hab.2 (hp.cov b.1 a.1 _ _ hlt htb hta
        ⟨eb, List.mem_of_getElem? heb, ea, List.mem_of_getElem? hea, hconf⟩)
    · exact absurd ⟨h1.symm, h2⟩ hab.1

end Verif.Sched

namespace Verif.Tile

open Verif.Layout Verif.Sched

universe u v

variable {M : Type u} {α : Type v}

theorem keep_forall₂ {β γ : Type*} {R : β → γ → Prop} {l : List β} {l' : List γ} (D : Set Nat)
    (h : List.Forall₂ R l l') : ∀ n, List.Forall₂ R (keep D l n) (keep D l' n) := by
  classical
  induction h with
  | nil => intro n; exact .nil
  | cons h1 h2 ih =>
    intro n
    simp only [keep]
    split
    · exact .cons h1 (ih _)
    · exact ih _

theorem keep_sublist {β : Type*} (D : Set Nat) : ∀ (l : List β) (n : Nat), (keep D l n).Sublist l := by
  classical
  intro l
  induction l with
  | nil => intro n; exact List.Sublist.refl _
  | cons a l ih =>
    intro n
    simp only [keep]
    split
    · exact (ih _).cons_cons _
    · exact (ih _).cons _

theorem keep_append {β : Type*} (D : Set Nat) : ∀ (l l' : List β) (n : Nat),
    keep D (l ++ l') n = keep D l n ++ keep D l' (n + l.length) := by
  classical
  intro l
  induction l with
  | nil => intro l' n; simp [keep]
  | cons a l ih =>
    intro l' n
    simp only [List.cons_append, keep, ih, List.length_cons, show n + 1 + l.length = n + (l.length + 1) by omega]
    split <;> simp

/-- The tasks kept up to position `n`. -/
theorem keep_take_succ {β : Type*} (D : Set Nat) (l : List β) {n : Nat} {t : β} (h : l[n]? = some t) :
    keep D (l.take (n + 1)) 0 = keep D (l.take n) 0 ++ (by classical exact if n ∈ D then [t] else []) := by
  classical
  have hn : n < l.length := by rw [List.getElem?_eq_some_iff] at h; exact h.1
  rw [List.take_succ, h, keep_append]
  congr 1
  simp only [Option.toList_some, keep, Nat.zero_add, List.length_take, Nat.min_eq_left hn.le]

/-- Executing only the tasks of a set `D` closed under dependences gives, at a location
all whose writers before `n` are in `D`, the value of the sequential execution up to `n`. -/
theorem keep_clean {P : List (TTask M α)} (hl : ∀ t ∈ P, t.Local) (hc : TCovered P) {D : Set Nat}
    (hD : ∀ i ∈ D, ∀ b, Relation.TransGen (TEdge P) b i → b ∈ D) (s : Store M α) :
    ∀ n ≤ P.length, ∀ a k l, (∀ j < n, ∀ t, P[j]? = some t → t.wr a k l → j ∈ D) →
      texec (keep D (P.take n) 0) s a k l = texec (P.take n) s a k l := by
  classical
  intro n
  induction n with
  | zero => intro _ a k l _; rfl
  | succ n ih =>
    intro hn a k l hcl
    have ht : P[n]? = some P[n] := List.getElem?_eq_getElem (by omega)
    rw [keep_take_succ D P ht, List.take_succ, ht]
    simp only [Option.toList_some, texec_append, texec_cons, texec_nil]
    have hprev := ih (by omega) a k l (fun j hj => hcl j (by omega))
    by_cases hw : P[n].wr a k l
    · have hnD := hcl n (by omega) _ ht hw
      rw [if_pos hnD]
      simp only [texec_cons, texec_nil]
      unfold TTask.run
      rw [if_pos hw, if_pos hw]
      refine hl _ (List.mem_of_getElem? ht) _ _ (fun a' k' l' hf => ?_) a k l hw
      refine ih (by omega) a' k' l' fun j hj t hjt hjw => ?_
      exact hD n hnD j (hc j n t _ hj hjt ht ⟨a', k', l', Or.inl ⟨hjw, hf⟩⟩)
    · have e2 : ∀ s' : Store M α, P[n].run s' a k l = s' a k l := by
        intro s'; unfold TTask.run; rw [if_neg hw]
      rw [e2]
      split
      · simp only [texec_cons, texec_nil, e2]; exact hprev
      · exact hprev

/-- Executing only the tasks of a set closed under dependences: at each location, either
all writers have run and the value is that of the sequential execution, or the value is
that of the sequential execution up to some writer that has not run. -/
theorem keep_value {P : List (TTask M α)} (hl : ∀ t ∈ P, t.Local) (hc : TCovered P) {D : Set Nat}
    (hD : ∀ i ∈ D, ∀ b, Relation.TransGen (TEdge P) b i → b ∈ D) (s : Store M α) (a : M) (k l : Nat) :
    ((∀ j t, P[j]? = some t → t.wr a k l → j ∈ D) ∧
      texec (keep D P 0) s a k l = texec P s a k l) ∨
    ∃ n t, P[n]? = some t ∧ t.wr a k l ∧ n ∉ D ∧ (∀ j < n, ∀ t, P[j]? = some t → t.wr a k l → j ∈ D) ∧
      texec (keep D P 0) s a k l = texec (P.take n) s a k l := by
  classical
  by_cases h : ∀ j t, P[j]? = some t → t.wr a k l → j ∈ D
  · left
    refine ⟨h, ?_⟩
    have := keep_clean hl hc hD s P.length (Nat.le_refl _) a k l (fun j _ => h j)
    rwa [List.take_length] at this
  · right
    have hex : ∃ n, ∃ t, P[n]? = some t ∧ t.wr a k l ∧ n ∉ D := by
      by_contra hno
      apply h
      intro j t h1 h2
      by_contra h3
      exact hno ⟨j, t, h1, h2, h3⟩
    obtain ⟨t, h1, h2, h3⟩ := Nat.find_spec hex
    have hmin : ∀ j < Nat.find hex, ∀ t, P[j]? = some t → t.wr a k l → j ∈ D := by
      intro j hj t h4 h5
      by_contra h6
      exact Nat.find_min hex hj ⟨t, h4, h5, h6⟩
    refine ⟨Nat.find hex, t, h1, h2, h3, hmin, ?_⟩
    have hlen : Nat.find hex ≤ P.length := by
      rw [List.getElem?_eq_some_iff] at h1; exact h1.1.le
    rw [← keep_clean hl hc hD s _ hlen a k l hmin]
    -- later writers depend on this one
    have hdrop : ∀ (m : Nat), m + Nat.find hex ≤ P.length →
        texec (keep D (P.take (m + Nat.find hex)) 0) s a k l =
          texec (keep D (P.take (Nat.find hex)) 0) s a k l := by
      intro m
      induction m with
      | zero => intro _; rw [Nat.zero_add]
      | succ m ih =>
        intro hm
        have ht : P[m + Nat.find hex]? = some P[m + Nat.find hex] := List.getElem?_eq_getElem (by omega)
        rw [show m + 1 + Nat.find hex = m + Nat.find hex + 1 by omega, keep_take_succ D P ht, texec_append,
          ← ih (by omega)]
        split
        · rename_i hin
          simp only [texec_cons, texec_nil]
          unfold TTask.run
          rw [if_neg]
          intro hw
          rcases Nat.eq_zero_or_pos m with rfl | hpos
          · rw [Nat.zero_add] at hin; exact h3 hin
          · exact h3 (hD _ hin _ (hc _ _ t _ (by omega) h1 ht ⟨a, k, l, Or.inl ⟨h2, Or.inr hw⟩⟩))
        · rfl
    have := hdrop (P.length - Nat.find hex) (by omega)
    rwa [Nat.sub_add_cancel hlen, List.take_length] at this

/-- **Partial executions of tile programs.**  Every execution of a program whose tasks are
all guarded runs a set `D` of tasks that is closed under dependences: no task before a task
of `D` fails, the status, if not zero, is the code of a task in `D`, and memory holds what
executing the tasks in `D` in program order leaves. -/
theorem GExec.partialC {env : M → MatEnv} {P : List (GTTask (M × Nat × Nat) α)}
    {mem mem' : M × Nat → α} {st : Int} (hwf : ∀ a, (env a).WF) (hg : GoodC (evalid env) (tasks P))
    (hc : CodeOK P) (hgd : ∀ t ∈ P, t.guard = true) (h : GExec env P mem mem' st) :
    ∃ D : Set Nat,
      (∀ i ∈ D, ∀ b, Relation.TransGen (TEdge (tasks P)) b i →
        b ∈ D ∧ tcode P (view (eloc env) mem) b = 0) ∧
      (st ≠ 0 → ∃ i ∈ D, tcode P (view (eloc env) mem) i = st) ∧
      ∀ a i j, evalid env a i j →
        mem' (eloc env a i j) = texec (keep D (tasks P) 0) (view (eloc env) mem) a i j := by
  obtain ⟨Ts, s, hI, hr, hf, rfl, rfl⟩ := h
  obtain ⟨fp, hw⟩ := gwellC hwf hg hc hI
  have hgT : ∀ T ∈ Ts, T.guard = true := by
    intro T hT
    obtain ⟨i, hi, rfl⟩ := List.getElem_of_mem hT
    obtain ⟨t, ht, hTi⟩ := forall₂_getElem? hI i _ (List.getElem?_eq_getElem hi)
    rw [hTi.guard]; exact hgd t (List.mem_of_getElem? ht)
  obtain ⟨D, h1, h2, h3⟩ := guarded_partial hw hgT hr hf
  refine ⟨D, ?_, ?_, ?_⟩
  · intro i hi b hb
    have := h2 i hi b (Relation.TransGen.mono (edge_lift (forall₂_plain hI)) _ _ hb)
    rw [seqCode_eqC hwf hg hc hI] at this
    exact this
  · intro h0
    obtain ⟨i, hi, h4⟩ := h3 h0
    exact ⟨i, hi, by rw [← seqCode_eqC hwf hg hc hI]; exact h4⟩
  · intro a i j hv
    rw [h1]
    exact (seqExec_view (env_inj hwf) (keep D (tasks P) 0) (keep D (plain Ts) 0)
      (fun t ht => hg.loc t ((keep_sublist D _ _).subset ht))
      (fun t ht => hg.ins t ((keep_sublist D _ _).subset ht))
      (keep_forall₂ D (forall₂_plain hI) 0) mem).1 a i j hv

/-- At a location written by one task only: either the task has run, or the location is
unchanged. -/
theorem keep_once {P : List (TTask M α)} (hl : ∀ t ∈ P, t.Local) (hc : TCovered P) {D : Set Nat}
    (hD : ∀ i ∈ D, ∀ b, Relation.TransGen (TEdge P) b i → b ∈ D) (s : Store M α) {a : M} {k l : Nat}
    (hu : ∀ (j j' : Nat) (t t' : TTask M α), j < j' → P[j]? = some t → P[j']? = some t' → t.wr a k l → ¬ t'.wr a k l) :
    texec (keep D P 0) s a k l = s a k l ∨
    ((∀ j t, P[j]? = some t → t.wr a k l → j ∈ D) ∧
      texec (keep D P 0) s a k l = texec P s a k l) := by
  rcases keep_value hl hc hD s a k l with h | ⟨n, t, h1, h2, h3, h4, h5⟩
  · exact Or.inr h
  · left
    rw [h5]
    refine WritesE.frame (W := fun x i j => ¬ (x = a ∧ i = k ∧ j = l)) ?_ s (by simp)
    rintro t' ht' x i j hw ⟨rfl, rfl, rfl⟩
    obtain ⟨m, hm, rfl⟩ := List.getElem_of_mem ht'
    have hmn : m < n ∧ m < P.length := by rw [List.length_take] at hm; omega
    have hm' : P[m]? = some ((P.take n)[m]) := by
      rw [List.getElem_take]; exact List.getElem?_eq_getElem (by omega)
    exact hu m n _ _ (by omega) hm' h1 hw h2

section
variable {nb : Nat} {dims : Nat → Nat × Nat} {ld : Nat → Nat} {st : Nat → Stor}

theorem copyK_mem {st : Stor} {A U V : TMat M} {t : TTask (M × Nat × Nat) α}
    (h : t ∈ copyK st A U V) : ∃ m n, m < A.d.mt ∧ n ∈ cpCols st A.d.nt m ∧
      t = lacpyRect (cpLo A.d.i A.d.mb m) (cpHi A.d.i A.d.m A.d.mb A.d.mt m)
        (cpLo A.d.j A.d.nb n) (cpHi A.d.j A.d.n A.d.nb A.d.nt n) (U.at' m n) (V.at' m n) := by
  obtain ⟨m, hm, h⟩ := List.mem_flatMap.mp h
  obtain ⟨n, hn, rfl⟩ := List.mem_map.mp h
  exact ⟨m, n, List.mem_range.mp hm, hn, rfl⟩

/-- The tasks that copy tiles back write different locations. -/
theorem outs_pairwise {outs : List Nat} (houts : outs.Nodup) :
    (outs.flatMap fun k => copyK (α := α) (st k) (tMat nb dims k) (tMat nb dims k) (uMat nb dims k)).Pairwise
      fun t t' => ∀ x i j, t.wr x i j → ¬ t'.wr x i j := by
  rw [List.pairwise_flatMap]
  constructor
  · intro k _
    unfold copyK
    rw [List.pairwise_flatMap]
    constructor
    · intro m _
      rw [List.pairwise_map]
      refine List.Pairwise.imp ?_ nodup_cpCols
      rintro n n' hnn x i j ⟨rfl, _⟩ ⟨h, _⟩
      rw [TMat.at'_inj] at h
      exact hnn h.2
    · refine List.Pairwise.imp ?_ List.nodup_range
      intro m m' hmm t ht t' ht' x i j hw hw'
      obtain ⟨n, _, rfl⟩ := List.mem_map.mp ht
      obtain ⟨n', _, rfl⟩ := List.mem_map.mp ht'
      have h := hw.1.symm.trans hw'.1
      rw [TMat.at'_inj] at h
      exact hmm h.1
  · refine List.Pairwise.imp ?_ houts
    intro k k' hkk t ht t' ht' x i j hw hw'
    obtain ⟨m, n, _, _, rfl⟩ := copyK_mem ht
    obtain ⟨m', n', _, _, rfl⟩ := copyK_mem ht'
    have h := hw.1.symm.trans hw'.1
    simp [uMat, TMat.full, TMat.at'] at h
    exact hkk h.1

/-- **Driver theorem**, any outcome.  Each element of an output array is either unchanged or
has the value the sequential execution gives it; in the second case all tasks that write
the corresponding element of the tile matrix have run.  The tasks that have run are closed
under dependences, no task before one of them fails, and the status, if not zero, is the
code of one of them. -/
theorem gdrv_partial (hnb : 0 < nb) (hld : ∀ k, (dims k).1 ≤ ld k)
    (hsq : ∀ k, stSq (st k) (dims k).1 (dims k).2) {ins outs W : List Nat}
    (hins : ins.Nodup) (houts : outs.Nodup) (hW : ∀ k ∈ W, k ∉ outs) {P : List (GTTask (Buf × Nat × Nat) α)}
    (hPt : OnTilesW W (tasks P)) (hC : CodeOK P) (hgd : ∀ t ∈ P, t.guard = true)
    (hg : GoodC (evalid (drvEnvK nb dims ld st)) (tasks (gdriverK nb dims st ins P outs)))
    {mem mem' : Buf × Nat → α} {stat : Int}
    (h : GExec (drvEnvK nb dims ld st) (gdriverK nb dims st ins P outs) mem mem' stat) :
    ∃ s : Store (Buf × Nat × Nat) α,
      (∀ k ∈ ins, ∀ r c, r < (dims k).1 → c < (dims k).2 → stOK (st k) (r / nb) (c / nb) →
        (tMat nb dims k).el s r c = mem (.usr k, r + c * ld k)) ∧
      (∀ k r c, (uMat nb dims k).el s r c = mem (.usr k, r + c * ld k)) ∧
      ∃ D : Set Nat,
        (∀ i ∈ D, ∀ b, Relation.TransGen (TEdge (tasks P)) b i → b ∈ D ∧ tcode P s b = 0) ∧
        (stat ≠ 0 → ∃ i ∈ D, tcode P s i = stat) ∧
        ∀ k ∈ outs, ∀ r c, r < (dims k).1 → c < (dims k).2 →
          mem' (.usr k, r + c * ld k) = mem (.usr k, r + c * ld k) ∨
          (stOK (st k) (r / nb) (c / nb) ∧
            mem' (.usr k, r + c * ld k) = (tMat nb dims k).el (texec (tasks P) s) r c ∧
            ∀ j t, P[j]? = some t → t.task.wr ((tMat nb dims k).at' (r / nb) (c / nb)) (r % nb) (c % nb) →
              j ∈ D ∧ tcode P s j = 0) := by
  have hwf := drvEnvK_wf (nb := nb) hnb hld hsq
  have hcode : CodeOK (gdriverK nb dims st ins P outs) := ((CodeOK.ok _).append hC).append (CodeOK.ok _)
  have hgd' : ∀ t ∈ gdriverK nb dims st ins P outs, t.guard = true := by
    intro t ht
    simp only [gdriverK, List.mem_append] at ht
    rcases ht with (h | h) | h
    · obtain ⟨_, _, rfl⟩ := List.mem_map.mp h; rfl
    · exact hgd t h
    · obtain ⟨_, _, rfl⟩ := List.mem_map.mp h; rfl
  have hU := u_el_mem (α := α) (dims := dims) (ld := ld) (st := st) hnb
  obtain ⟨D0, hD1, hD2, hD3⟩ := h.partialC hwf hg hcode hgd'
  set I := okT (ins.flatMap fun k => copyK (α := α) (st k) (tMat nb dims k) (uMat nb dims k) (tMat nb dims k)) with hI
  set O := okT (outs.flatMap fun k => copyK (α := α) (st k) (tMat nb dims k) (tMat nb dims k) (uMat nb dims k)) with hO
  have hDr : gdriverK nb dims st ins P outs = I ++ (P ++ O) := by simp [gdriverK, hI, hO]
  have htI : tasks I = ins.flatMap fun k => copyK (α := α) (st k) (tMat nb dims k) (uMat nb dims k) (tMat nb dims k) := by
    rw [hI, tasks_okT]
  have htO : tasks O = outs.flatMap fun k => copyK (α := α) (st k) (tMat nb dims k) (tMat nb dims k) (uMat nb dims k) := by
    rw [hO, tasks_okT]
  have hcP : ∀ i, i < P.length → tcode (I ++ (P ++ O)) (view (eloc (drvEnvK nb dims ld st)) mem) (I.length + i) =
      tcode P (texec (tasks I) (view (eloc (drvEnvK nb dims ld st)) mem)) i := by
    intro i hi
    rw [tcode_append_right, tcode_append_left _ _ _ hi]
  have hUs : ∀ k r c, (uMat nb dims k).el (texec (tasks I) (view (eloc (drvEnvK nb dims ld st)) mem)) r c =
      mem (.usr k, r + c * ld k) := by
    intro k r c
    rw [htI, u_el_frame (ins_onTiles hnb hsq ins) (by simp)]
    exact hU mem k r c
  rw [hDr] at hD1 hD2 hD3 hg
  have hlenE : ∀ {b i : Nat}, Relation.TransGen (TEdge (tasks P)) b i → i < P.length := by
    intro b i hbi
    rcases Relation.TransGen.tail'_iff.mp hbi with ⟨c, _, _, t, t', _, h2, _⟩
    rw [List.getElem?_eq_some_iff] at h2
    obtain ⟨h2, _⟩ := h2
    simpa using h2
  have hlenB : ∀ {b i : Nat}, Relation.TransGen (TEdge (tasks P)) b i → b < P.length := by
    intro b i hbi
    rcases Relation.TransGen.head'_iff.mp hbi with ⟨c, ⟨_, t, t', h1, _, _⟩, _⟩
    rw [List.getElem?_eq_some_iff] at h1
    obtain ⟨h1, _⟩ := h1
    simpa using h1
  refine ⟨texec (tasks I) (view (eloc (drvEnvK nb dims ld st)) mem), ?_, hUs, {i | I.length + i ∈ D0}, ?_, ?_, ?_⟩
  · rw [htI]; exact gdriverK_ins hnb hsq hins mem
  · intro i hi b hb
    have hb' : Relation.TransGen (TEdge (tasks (I ++ (P ++ O)))) (I.length + b) (I.length + i) := by
      rw [tasks_append, tasks_append]
      have := ttrans_append_right (tasks I) (ttrans_append_left (tasks O) hb)
      rwa [tasks_length] at this
    have := hD1 _ hi _ hb'
    exact ⟨this.1, by rw [← hcP b (hlenB hb)]; exact this.2⟩
  · intro h0
    obtain ⟨i, hi, h1⟩ := hD2 h0
    have hge : I.length ≤ i := by
      by_contra hlt
      rw [tcode_append_left _ _ _ (by omega), hI, tcode_ok] at h1
      exact h0 h1.symm
    obtain ⟨j, rfl⟩ := Nat.exists_eq_add_of_le hge
    have hjl : j < P.length := by
      by_contra hlt
      rw [tcode_append_right] at h1
      obtain ⟨k, rfl⟩ := Nat.exists_eq_add_of_le (Nat.le_of_not_lt hlt)
      rw [tcode_append_right, hO, tcode_ok] at h1
      exact h0 h1.symm
    exact ⟨j, hi, by rw [← hcP j hjl]; exact h1⟩
  · intro k hk r c hr hc
    have hcl : ∀ i ∈ D0, ∀ b, Relation.TransGen (TEdge (tasks (I ++ (P ++ O)))) b i → b ∈ D0 :=
      fun i hi b hb => (hD1 i hi b hb).1
    have hval := hD3 ((uMat nb dims k).at' (r / nb) (c / nb)) (r % nb) (c % nb)
      ((fitsK_u (ld := ld) (st := st) hnb k).valid (mod_lt_tdim hnb hr) (mod_lt_tdim hnb hc))
    have hel : ∀ s : Store (Buf × Nat × Nat) α, (uMat nb dims k).el s r c =
        s ((uMat nb dims k).at' (r / nb) (c / nb)) (r % nb) (c % nb) := by
      intro s; rfl
    have hm1 : mem' (eloc (drvEnvK nb dims ld st) ((uMat nb dims k).at' (r / nb) (c / nb)) (r % nb) (c % nb)) =
        mem' (.usr k, r + c * ld k) := by
      rw [← hU mem' k r c, hel]; rfl
    rw [hm1] at hval
    have hnotP : ∀ t ∈ tasks I ++ tasks P, ¬ t.wr ((uMat nb dims k).at' (r / nb) (c / nb)) (r % nb) (c % nb) := by
      intro t ht hw
      rcases List.mem_append.mp ht with ht | ht
      · rw [htI] at ht
        obtain ⟨k', hk'⟩ := ins_writes hnb hsq ins t ht _ _ _ hw
        simp [uMat, TMat.full, TMat.at'] at hk'
      · rcases hPt t ht _ _ _ hw with ⟨k', hk'⟩ | ⟨k', hm, hk'⟩
        · simp [uMat, TMat.full, TMat.at'] at hk'
        · simp [uMat, TMat.full, TMat.at'] at hk'
          subst hk'; exact hW _ hm hk
    have hF : tasks (I ++ (P ++ O)) = (tasks I ++ tasks P) ++ tasks O := by simp
    have hidx : ∀ j t, (tasks (I ++ (P ++ O)))[j]? = some t →
        t.wr ((uMat nb dims k).at' (r / nb) (c / nb)) (r % nb) (c % nb) →
        ∃ j', j = (tasks I ++ tasks P).length + j' ∧ (tasks O)[j']? = some t := by
      intro j t hj hw
      rw [hF] at hj
      by_cases hlt : j < (tasks I ++ tasks P).length
      · rw [List.getElem?_append_left hlt] at hj
        exact absurd hw (hnotP t (List.mem_of_getElem? hj))
      · refine ⟨j - (tasks I ++ tasks P).length, by omega, ?_⟩
        rwa [List.getElem?_append_right (by omega)] at hj
    have huniq : ∀ (j j' : Nat) (t t' : TTask (Buf × Nat × Nat) α), j < j' → (tasks (I ++ (P ++ O)))[j]? = some t →
        (tasks (I ++ (P ++ O)))[j']? = some t' → t.wr ((uMat nb dims k).at' (r / nb) (c / nb)) (r % nb) (c % nb) →
        ¬ t'.wr ((uMat nb dims k).at' (r / nb) (c / nb)) (r % nb) (c % nb) := by
      intro j j' t t' hjj hj hj' hw hw'
      obtain ⟨o, rfl, ho⟩ := hidx j t hj hw
      obtain ⟨o', rfl, ho'⟩ := hidx j' t' hj' hw'
      have hp := outs_pairwise (α := α) (nb := nb) (dims := dims) (st := st) houts
      rw [← htO, List.pairwise_iff_getElem] at hp
      rw [List.getElem?_eq_some_iff] at ho ho'
      obtain ⟨l1, rfl⟩ := ho
      obtain ⟨l2, rfl⟩ := ho'
      exact hp o o' l1 l2 (by omega) _ _ _ hw hw'
    rcases keep_once hg.loc hg.cov hcl (view (eloc (drvEnvK nb dims ld st)) mem)
      (a := (uMat nb dims k).at' (r / nb) (c / nb)) (k := r % nb) (l := c % nb) huniq with h1 | ⟨h1, h2⟩
    · left
      rw [hval, h1]; exact hU mem k r c
    · have hval := hval.trans h2
      change _ = (uMat nb dims k).el (texec (tasks (I ++ (P ++ O))) (view (eloc (drvEnvK nb dims ld st)) mem)) r c at hval
      rw [hF, texec_append, texec_append, htO, copyK_outs_el hnb hsq houts _ hk hr hc] at hval
      by_cases hst : stOK (st k) (r / nb) (c / nb)
      · right
        rw [if_pos hst] at hval
        refine ⟨hst, hval, ?_⟩
        intro j t hj hw
        -- the task that copies the tile back
        have hA := al_t (dims := dims) hnb k
        have hm := hA.row_mt (r := r) hr
        have hn := hA.col_nt (r := c) hc
        obtain ⟨o, ho⟩ : ∃ o, (tasks O)[o]? = some (lacpyRect (α := α)
            (cpLo (tMat nb dims k).d.i (tMat nb dims k).d.mb (r / nb))
            (cpHi (tMat nb dims k).d.i (tMat nb dims k).d.m (tMat nb dims k).d.mb (tMat nb dims k).d.mt (r / nb))
            (cpLo (tMat nb dims k).d.j (tMat nb dims k).d.nb (c / nb))
            (cpHi (tMat nb dims k).d.j (tMat nb dims k).d.n (tMat nb dims k).d.nb (tMat nb dims k).d.nt (c / nb))
            ((tMat nb dims k).at' (r / nb) (c / nb)) ((uMat nb dims k).at' (r / nb) (c / nb))) := by
          rw [← List.mem_iff_getElem?, htO, List.mem_flatMap]
          refine ⟨k, hk, List.mem_flatMap.mpr ⟨r / nb, List.mem_range.mpr hm, List.mem_map.mpr ⟨c / nb, ?_, rfl⟩⟩⟩
          exact (mem_cpCols (stSq_tiles hnb (hsq k)) hm).mpr ⟨hn, hst⟩
        have hrect := (cp_rect hA hm hn).mpr
          ⟨mod_lt_tdim hnb (show r < (tMat nb dims k).d.m from hr), mod_lt_tdim hnb (show c < (tMat nb dims k).d.n from hc)⟩
        have hoF : (tasks (I ++ (P ++ O)))[(tasks I ++ tasks P).length + o]? = (tasks O)[o]? := by
          rw [hF, List.getElem?_append_right (by omega), Nat.add_sub_cancel_left]
        rw [ho] at hoF
        have hoD := h1 _ _ hoF ⟨rfl, hrect⟩
        have hjl : j < P.length := by rw [List.getElem?_eq_some_iff] at hj; exact hj.1
        have hjF : (tasks (I ++ (P ++ O)))[I.length + j]? = some t.task := by
          rw [tasks_append, List.getElem?_append_right (by simp), tasks_length, Nat.add_sub_cancel_left,
            tasks_append, List.getElem?_append_left (by simpa using hjl)]
          simp [tasks, hj]
        have hT := hg.cov _ _ _ _ (by simp; omega) hjF hoF
          ⟨_, _, _, Or.inl ⟨hw, Or.inl ⟨rfl, hrect⟩⟩⟩
        have := hD1 _ hoD _ hT
        exact ⟨this.1, by rw [← hcP j hjl]; exact this.2⟩
      · left
        rw [if_neg hst] at hval
        rw [hval, u_el_frame hPt (fun hm => hW k hm hk), hUs]

end

end Verif.Tile

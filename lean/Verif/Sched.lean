/-
Task schedules.

PLASMA creates OpenMP tasks from one thread (`#pragma omp master`) in program
order; every task carries `depend(in:..)`, `depend(out:..)`, `depend(inout:..)`
list items (core_blas/core_zgemm.c:82-91 and the other `plasma_core_omp_*`
functions).  The runtime may execute the tasks in any order, and the bodies of
unrelated tasks concurrently, as long as a task does not start before every task
it depends on has completed.

This file models that: events with footprints, tasks as lists of events, legal
executions as arbitrary interleavings, and the theorem that executions of
"covered" programs all compute the result of the sequential program.
-/
import Mathlib.Data.Set.Basic
import Mathlib.Data.List.Basic
import Mathlib.Data.List.Perm.Basic
import Mathlib.Logic.Relation
import Mathlib.Data.Prod.Lex

namespace Verif.Sched

universe u v w

/-- One atomic memory event of a task body: what it may read, what it may write,
and its effect.  `run` is total; soundness of the footprint is `Ev.Sound`. -/
structure Ev (L : Type u) (V : Type v) where
  rd : Set L
  wr : Set L
  run : (L → V) → (L → V)

/-- The declared footprint of an event is honest. -/
structure Ev.Sound {L : Type u} {V : Type v} (e : Ev L V) : Prop where
  frame : ∀ s l, l ∉ e.wr → e.run s l = s l
  loc : ∀ s t, (∀ l, l ∈ e.rd ∨ l ∈ e.wr → s l = t l) → ∀ l, l ∈ e.wr → e.run s l = e.run t l

/-- Two events conflict when one writes something the other reads or writes. -/
def Conflict {L : Type u} {V : Type v} (e f : Ev L V) : Prop :=
  ∃ l, (l ∈ e.wr ∧ (l ∈ f.rd ∨ l ∈ f.wr)) ∨ (l ∈ e.rd ∧ l ∈ f.wr)

theorem comm_of_not_conflict {L : Type u} {V : Type v} {e f : Ev L V}
    (he : e.Sound) (hf : f.Sound) (h : ¬ Conflict e f) (s : L → V) :
    e.run (f.run s) = f.run (e.run s) := by
  have hn : ∀ l, ¬ ((l ∈ e.wr ∧ (l ∈ f.rd ∨ l ∈ f.wr)) ∨ (l ∈ e.rd ∧ l ∈ f.wr)) :=
    fun l hl => h ⟨l, hl⟩
  have h1 : ∀ l, l ∈ e.wr → l ∉ f.rd ∧ l ∉ f.wr := fun l hl =>
    ⟨fun k => hn l (Or.inl ⟨hl, Or.inl k⟩), fun k => hn l (Or.inl ⟨hl, Or.inr k⟩)⟩
  have h2 : ∀ l, l ∈ e.rd → l ∉ f.wr := fun l hl k => hn l (Or.inr ⟨hl, k⟩)
  funext l
  by_cases hle : l ∈ e.wr
  · have hlf : l ∉ f.wr := (h1 l hle).2
    rw [hf.frame _ _ hlf]
    apply he.loc _ _ _ l hle
    intro l' hl'
    apply hf.frame
    rcases hl' with h' | h'
    · exact h2 _ h'
    · exact (h1 _ h').2
  · rw [he.frame _ _ hle]
    by_cases hlf : l ∈ f.wr
    · symm
      apply hf.loc _ _ _ l hlf
      intro l' hl'
      apply he.frame
      intro hw
      rcases hl' with h' | h'
      · exact (h1 _ hw).1 h'
      · exact (h1 _ hw).2 h'
    · rw [hf.frame _ _ hlf, hf.frame _ _ hlf, he.frame _ _ hle]

/-- Execute a list of state transformers in order. -/
def execL {S : Type u} (fs : List (S → S)) (s : S) : S := fs.foldl (fun s f => f s) s

@[simp] theorem execL_nil {S : Type u} (s : S) : execL ([] : List (S → S)) s = s := rfl
@[simp] theorem execL_cons {S : Type u} (f : S → S) (fs : List (S → S)) (s : S) :
    execL (f :: fs) s = execL fs (f s) := rfl
theorem execL_append {S : Type u} (fs gs : List (S → S)) (s : S) :
    execL (fs ++ gs) s = execL gs (execL fs s) := by
  simp [execL, List.foldl_append]

/-- A transformer commuting with each of `fs` can be pulled to the front. -/
theorem execL_pull {S : Type u} {ι : Type v} (f : ι → S → S) (a : ι) :
    ∀ (p q : List ι) (s : S), (∀ x ∈ p, ∀ t, f a (f x t) = f x (f a t)) →
      execL ((p ++ a :: q).map f) s = execL ((a :: (p ++ q)).map f) s := by
  intro p
  induction p with
  | nil => intro q s _; rfl
  | cons x p ih =>
    intro q s h
    have := ih q (f x s) (fun y hy => h y (List.mem_cons_of_mem _ hy))
    simp only [List.cons_append, List.map_cons, execL_cons] at this ⊢
    rw [this, h x (List.mem_cons_self ..)]

/-- **Trace theorem.**  If `l₁` is in canonical order (`Pairwise lt`) and `l₂` is
a rearrangement that swaps (relative to the canonical order) only commuting
transformers, then both compute the same state. -/
theorem trace {S : Type u} {ι : Type v} (f : ι → S → S) (lt : ι → ι → Prop) :
    ∀ (l₂ l₁ : List ι), l₂.Perm l₁ → l₁.Pairwise lt →
      l₂.Pairwise (fun a b => lt b a → ∀ t, f a (f b t) = f b (f a t)) →
      ∀ s, execL (l₂.map f) s = execL (l₁.map f) s := by
  intro l₂
  induction l₂ with
  | nil => intro l₁ h _ _ s; rw [List.nil_perm.mp h]
  | cons a t ih =>
    intro l₁ hp hc h2 s
    have hmem : a ∈ l₁ := hp.subset (List.mem_cons_self ..)
    obtain ⟨p, q, rfl⟩ := List.append_of_mem hmem
    have hp' : t.Perm (p ++ q) := by
      have h3 : (a :: t).Perm (a :: (p ++ q)) := hp.trans (List.perm_middle)
      exact h3.cons_inv
    have hcs : (p ++ q).Pairwise lt := by
      exact List.Pairwise.sublist ((List.Sublist.refl p).append (List.sublist_cons_self a q)) hc
    have h2' := List.pairwise_cons.mp h2
    rw [execL_pull f a p q s]
    · simp only [List.map_cons, execL_cons]
      exact ih (p ++ q) hp' hcs h2'.2 (f a s)
    · intro x hx t'
      have hxt : x ∈ t := hp'.symm.subset (List.mem_append_left _ hx)
      apply h2'.1 x hxt
      have := List.pairwise_append.mp hc
      exact this.2.2 x hx a (List.mem_cons_self ..)

/-- A task: its phase (number of `taskwait`s executed by the creating thread
before the task was created), its `depend` list items (key, is-output) and the
atomic events of its body in program order. -/
structure Task (K : Type w) (L : Type u) (V : Type v) where
  phase : Nat
  deps : List (K × Bool)
  evs : List (Ev L V)

variable {K : Type w} {L : Type u} {V : Type v}

/-- Direct dependence of a later task on an earlier one: a common depend key with
at least one output mode, or a `taskwait` in between. -/
def DepOn (t t' : Task K L V) : Prop :=
  t.phase < t'.phase ∨ ∃ d ∈ t.deps, ∃ d' ∈ t'.deps, d.1 = d'.1 ∧ (d.2 = true ∨ d'.2 = true)

/-- `Edge p i j`: task `j` of program `p` directly depends on task `i`. -/
def Edge (p : List (Task K L V)) (i j : Nat) : Prop :=
  i < j ∧ ∃ t t', p[i]? = some t ∧ p[j]? = some t' ∧ DepOn t t'

/-- Event occurrences: (task index, event index). -/
abbrev Occ := Nat × Nat

/-- Canonical (creation, program) order of event occurrences. -/
def occLt (a b : Occ) : Prop := a.1 < b.1 ∨ (a.1 = b.1 ∧ a.2 < b.2)

/-- The event at an occurrence. -/
def evAt (p : List (Task K L V)) (o : Occ) : Option (Ev L V) :=
  (p[o.1]?).bind fun t => t.evs[o.2]?

/-- Effect of an occurrence (identity if there is no such event). -/
def occRun (p : List (Task K L V)) (o : Occ) : (L → V) → (L → V) :=
  match evAt p o with
  | some e => e.run
  | none => id

/-- Occurrences of the tasks of `p`, starting with index `n`, in sequential order. -/
def occsFrom : List (Task K L V) → Nat → List Occ
  | [], _ => []
  | t :: p, n => (List.range t.evs.length).map (fun e => (n, e)) ++ occsFrom p (n+1)

/-- All event occurrences in sequential order. -/
def occs (p : List (Task K L V)) : List Occ := occsFrom p 0

/-- Sequential semantics: task after task in creation order. -/
def seqExec (p : List (Task K L V)) (s : L → V) : L → V :=
  execL (p.map fun t => execL (t.evs.map Ev.run)) s

/-- A legal execution: every event exactly once, each task's events in order, and
no event of a task before an event of a task it directly depends on. -/
structure Legal (p : List (Task K L V)) (sch : List Occ) : Prop where
  perm : sch.Perm (occs p)
  order : sch.Pairwise fun a b =>
    ¬ (a.1 = b.1 ∧ b.2 < a.2) ∧ ¬ Edge p b.1 a.1

/-- Final state of an execution. -/
def runSched (p : List (Task K L V)) (sch : List Occ) (s : L → V) : L → V :=
  execL (sch.map (occRun p)) s

/-- Conflicting events of different tasks are always ordered by the dependence
graph (possibly through other tasks). -/
def Covered (p : List (Task K L V)) : Prop :=
  ∀ i j t t', i < j → p[i]? = some t → p[j]? = some t' →
    (∃ e ∈ t.evs, ∃ f ∈ t'.evs, Conflict e f) → Relation.TransGen (Edge p) i j

theorem occsFrom_fst_ge (p : List (Task K L V)) :
    ∀ n o, o ∈ occsFrom p n → n ≤ o.1 := by
  induction p with
  | nil => intro n o h; simp [occsFrom] at h
  | cons t p ih =>
    intro n o h
    simp only [occsFrom, List.mem_append, List.mem_map, List.mem_range] at h
    rcases h with ⟨e, _, rfl⟩ | h
    · exact Nat.le_refl _
    · exact Nat.le_of_succ_le (ih _ _ h)

theorem occsFrom_pairwise (p : List (Task K L V)) :
    ∀ n, (occsFrom p n).Pairwise occLt := by
  induction p with
  | nil => intro n; simp [occsFrom]
  | cons t p ih =>
    intro n
    simp only [occsFrom]
    rw [List.pairwise_append]
    refine ⟨?_, ih _, ?_⟩
    · rw [List.pairwise_map]
      have := List.pairwise_lt_range (n := t.evs.length)
      exact this.imp (fun h => Or.inr ⟨rfl, h⟩)
    · intro a ha b hb
      simp only [List.mem_map, List.mem_range] at ha
      obtain ⟨e, _, rfl⟩ := ha
      exact Or.inl (occsFrom_fst_ge p _ _ hb)

theorem mem_occsFrom (p : List (Task K L V)) :
    ∀ n o, o ∈ occsFrom p n ↔ n ≤ o.1 ∧ ∃ t, p[o.1 - n]? = some t ∧ o.2 < t.evs.length := by
  induction p with
  | nil => intro n o; simp [occsFrom]
  | cons t p ih =>
    intro n o
    obtain ⟨o1, o2⟩ := o
    simp only [occsFrom, List.mem_append, List.mem_map, List.mem_range, ih, Prod.mk.injEq]
    constructor
    · rintro (⟨e, he, rfl, rfl⟩ | ⟨h1, t', h2, h3⟩)
      · exact ⟨Nat.le_refl _, t, by simp, he⟩
      · refine ⟨by omega, t', ?_, h3⟩
        have : o1 - n = (o1 - (n+1)) + 1 := by omega
        rw [this]; simpa using h2
    · rintro ⟨h1, t', h2, h3⟩
      by_cases h : o1 = n
      · subst h
        simp at h2; subst h2
        exact Or.inl ⟨o2, h3, rfl, rfl⟩
      · right
        refine ⟨by omega, t', ?_, h3⟩
        have : o1 - n = (o1 - (n+1)) + 1 := by omega
        rw [this] at h2; simpa using h2

theorem mem_occs (p : List (Task K L V)) (o : Occ) :
    o ∈ occs p ↔ ∃ t, p[o.1]? = some t ∧ o.2 < t.evs.length := by
  simp [occs, mem_occsFrom]

/-- Sequential execution is execution of the canonical occurrence list. -/
theorem execL_occsFrom (q : List (Task K L V)) :
    ∀ (p : List (Task K L V)) (n : Nat), (∀ i, q[n + i]? = p[i]?) → ∀ s,
      execL ((occsFrom p n).map (occRun q)) s = seqExec p s := by
  intro p
  induction p with
  | nil => intro n _ s; rfl
  | cons t p ih =>
    intro n h s
    simp only [occsFrom, List.map_append, execL_append, seqExec, List.map_cons, execL_cons]
    have ht : q[n]? = some t := by simpa using h 0
    have h1 : ((List.range t.evs.length).map (fun e => (n, e))).map (occRun q)
        = t.evs.map Ev.run := by
      apply List.ext_getElem
      · simp
      · intro i h1 h2
        simp at h1 h2
        simp [occRun, evAt, ht, h1]
    rw [h1]
    have := ih (n+1) (fun i => by
      have := h (i+1)
      rw [show n + 1 + i = n + (i+1) by omega, this]; simp) (execL (t.evs.map Ev.run) s)
    simpa [seqExec] using this

theorem execL_occs (p : List (Task K L V)) (s : L → V) :
    execL ((occs p).map (occRun p)) s = seqExec p s :=
  execL_occsFrom p p 0 (by simp) s

/-- If every task has at least one event, ordering along direct dependences gives
ordering along chains of dependences. -/
theorem Legal.trans {p : List (Task K L V)} {sch : List Occ} (h : Legal p sch)
    (hne : ∀ t ∈ p, t.evs ≠ []) :
    sch.Pairwise fun a b => ¬ Relation.TransGen (Edge p) b.1 a.1 := by
  -- work with positions
  rw [List.pairwise_iff_getElem]
  have hord := List.pairwise_iff_getElem.mp h.order
  -- claim: a chain i →⁺ j forces every event of i to be before every event of j
  have key : ∀ i j, Relation.TransGen (Edge p) i j →
      ∀ (x y : Nat) (hx : x < sch.length) (hy : y < sch.length),
        sch[x].1 = i → sch[y].1 = j → x < y := by
    intro i j hij
    induction hij with
    | single e =>
      intro x y hx hy h1 h2
      by_contra hc
      have hxy : y ≤ x := by omega
      rcases Nat.lt_or_ge y x with hlt | hge
      · have := (hord y x hy hx hlt).2
        rw [h1, h2] at this
        exact this e
      · have : x = y := by omega
        subst this
        have := e.1
        omega
    | tail _ e ih =>
      rename_i b c _
      intro x y hx hy h1 h2
      obtain ⟨hlt, t, t', hb, hc', hd⟩ := e
      have htm : t ∈ p := List.mem_of_getElem? hb
      have hpos : 0 < t.evs.length := List.length_pos_iff.mpr (hne t htm)
      have hmem : (b, 0) ∈ sch := h.perm.symm.subset ((mem_occs p _).mpr ⟨t, hb, hpos⟩)
      obtain ⟨z, hz, hzz⟩ := List.getElem_of_mem hmem
      have hxz := ih x z hx hz h1 (by rw [hzz])
      have hzy : z < y := by
        by_contra hcon
        rcases Nat.lt_or_ge y z with hlt' | hge
        · have := (hord y z hy hz hlt').2
          rw [h2, hzz] at this
          exact this ⟨hlt, t, t', hb, hc', hd⟩
        · have : z = y := by omega
          subst this
          rw [hzz] at h2
          simp at h2
          omega
      omega
  intro x y hx hy hxy hT
  have := key _ _ hT y x hy hx rfl rfl
  omega

/-- **Schedule independence.**  Every legal execution (arbitrary interleaving of
the atomic events of tasks that are not ordered by the dependence graph) of a
covered program of honest events ends in the state of the sequential program. -/
theorem schedule_independence (p : List (Task K L V))
    (hs : ∀ t ∈ p, ∀ e ∈ t.evs, e.Sound) (hne : ∀ t ∈ p, t.evs ≠ [])
    (hc : Covered p) (sch : List Occ) (hl : Legal p sch) (s : L → V) :
    runSched p sch s = seqExec p s := by
  rw [← execL_occs]
  apply trace (occRun p) occLt sch (occs p) hl.perm (occsFrom_pairwise p 0)
  have htr := hl.trans hne
  have hord := hl.order
  have hall : ∀ o ∈ sch, ∃ t e, p[o.1]? = some t ∧ t.evs[o.2]? = some e := by
    intro o ho
    obtain ⟨t, h1, h2⟩ := (mem_occs p o).mp (hl.perm.subset ho)
    exact ⟨t, t.evs[o.2], h1, by simp [h2]⟩
  have h3 := (htr.and hord)
  refine List.Pairwise.imp_of_mem ?_ h3
  intro a b ha hb hab hlt t
  obtain ⟨ta, ea, hta, hea⟩ := hall a ha
  obtain ⟨tb, eb, htb, heb⟩ := hall b hb
  have hra : occRun p a = ea.run := by simp [occRun, evAt, hta, hea]
  have hrb : occRun p b = eb.run := by simp [occRun, evAt, htb, heb]
  rw [hra, hrb]
  have hsa : ea.Sound := hs ta (List.mem_of_getElem? hta) ea (List.mem_of_getElem? hea)
  have hsb : eb.Sound := hs tb (List.mem_of_getElem? htb) eb (List.mem_of_getElem? heb)
  rcases hlt with hlt | ⟨h1, h2⟩
  · symm
    apply comm_of_not_conflict hsb hsa
    intro hconf
    exact hab.1 (hc b.1 a.1 tb ta hlt htb hta
      ⟨eb, List.mem_of_getElem? heb, ea, List.mem_of_getElem? hea, hconf⟩)
  · exact absurd ⟨h1.symm, h2⟩ hab.2.1

/-- If every location has an owner key and every task declares the owner key of
everything it touches (in output mode for what it writes), the program is covered. -/
theorem covered_of_owner (p : List (Task K L V)) (own : L → K)
    (hr : ∀ t ∈ p, ∀ e ∈ t.evs, ∀ l ∈ e.rd, ∃ b, (own l, b) ∈ t.deps)
    (hw : ∀ t ∈ p, ∀ e ∈ t.evs, ∀ l ∈ e.wr, (own l, true) ∈ t.deps) :
    Covered p := by
  intro i j t t' hij hi hj ⟨e, he, f, hf, l, hl⟩
  have ht := List.mem_of_getElem? hi
  have ht' := List.mem_of_getElem? hj
  apply Relation.TransGen.single
  refine ⟨hij, t, t', hi, hj, Or.inr ?_⟩
  rcases hl with ⟨h1, h2⟩ | ⟨h1, h2⟩
  · have hd := hw t ht e he l h1
    rcases h2 with h2 | h2
    · obtain ⟨b, hb⟩ := hr t' ht' f hf l h2
      exact ⟨_, hd, _, hb, rfl, Or.inl rfl⟩
    · exact ⟨_, hd, _, hw t' ht' f hf l h2, rfl, Or.inl rfl⟩
  · obtain ⟨b, hb⟩ := hr t ht e he l h1
    exact ⟨_, hb, _, hw t' ht' f hf l h2, rfl, Or.inr rfl⟩

end Verif.Sched

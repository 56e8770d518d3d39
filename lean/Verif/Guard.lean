/-
Guarded tasks and the sequence status.

Most `plasma_core_omp_*` functions wrap the kernel call in
`if (sequence->status == PlasmaSuccess)` (for example core_blas/core_zgemm.c:82-91,
core_blas/core_zpotrf.c:72-81); kernels that may fail call `plasma_request_fail`
(control/async.c:17-25), which stores the code in `sequence->status`; the functions
`plasma_pz*` and `plasma_omp_z*` create no tasks once the status is set
(compute/pzpotrf.c:31-32).

This file models that as a small-step system over the tasks of `Verif.Sched`.
Simplification: reading and writing `sequence->status` is atomic (in the C code these
are plain accesses to a shared `int`).
-/
import Verif.Sched
import Mathlib.Data.List.Nodup

namespace Verif.Sched

universe u v w

variable {K : Type w} {L : Type u} {V : Type v}

/-- A task with its guard and the status code its kernel returns, as a function of
the memory on entry (core_blas/core_zpotrf.c:66-82).  `code = 0` is success. -/
structure GTask (K : Type w) (L : Type u) (V : Type v) extends Task K L V where
  guard : Bool := true
  code : (L → V) → Int := fun _ => 0

/-- Progress of one task: not started; `j` events executed, kernel will return `c`;
finished or dropped. -/
inductive PC
  | waiting
  | running (j : Nat) (c : Int)
  | done
  deriving DecidableEq

/-- State of a parallel region: memory, `sequence->status`, progress of the tasks. -/
structure GState (L : Type u) (V : Type v) where
  mem : L → V
  status : Int
  pc : Nat → PC

/-- The tasks without guards. -/
def plain (p : List (GTask K L V)) : List (Task K L V) := p.map GTask.toTask

/-- All tasks that task `i` directly depends on have finished. -/
def Ready (p : List (GTask K L V)) (s : GState L V) (i : Nat) : Prop :=
  ∀ b, Edge (plain p) b i → s.pc b = .done

/-- One step of a parallel region.
`start`: a ready task starts; if it is guarded it has found the status to be zero.
`event`: the next memory event of a running task.
`finish`: the kernel returns; a non-zero code becomes the status
(control/async.c:17-25, the last writer wins).
`skip`: once the status is non-zero a task may do nothing, because its guard fails or
because it was never created. -/
inductive GStep (p : List (GTask K L V)) : GState L V → GState L V → Prop
  | start (s : GState L V) (i : Nat) (t : GTask K L V) (ht : p[i]? = some t)
      (hw : s.pc i = .waiting) (hr : Ready p s i) (hg : t.guard = true → s.status = 0) :
      GStep p s ⟨s.mem, s.status, Function.update s.pc i (.running 0 (t.code s.mem))⟩
  | event (s : GState L V) (i j : Nat) (c : Int) (t : GTask K L V) (e : Ev L V)
      (ht : p[i]? = some t) (hp : s.pc i = .running j c) (he : t.evs[j]? = some e) :
      GStep p s ⟨e.run s.mem, s.status, Function.update s.pc i (.running (j + 1) c)⟩
  | finish (s : GState L V) (i : Nat) (c : Int) (t : GTask K L V) (ht : p[i]? = some t)
      (hp : s.pc i = .running t.evs.length c) :
      GStep p s ⟨s.mem, if c = 0 then s.status else c, Function.update s.pc i .done⟩
  | skip (s : GState L V) (i : Nat) (hi : i < p.length) (hw : s.pc i = .waiting)
      (hs : s.status ≠ 0) :
      GStep p s ⟨s.mem, s.status, Function.update s.pc i .done⟩

/-- Start of a parallel region with status `st`. -/
def GState.init (mem : L → V) (st : Int) : GState L V := ⟨mem, st, fun _ => .waiting⟩

/-- All tasks have finished (the barrier at the end of the parallel region). -/
def GState.Final (p : List (GTask K L V)) (s : GState L V) : Prop := ∀ i < p.length, s.pc i = .done

/-- Reachability. -/
abbrev GReach (p : List (GTask K L V)) : GState L V → GState L V → Prop :=
  Relation.ReflTransGen (GStep p)

/-! ### After a failure -/

/-- A non-zero status stays non-zero. -/
theorem GStep.status_ne {p : List (GTask K L V)} {s s' : GState L V} (h : GStep p s s')
    (hs : s.status ≠ 0) : s'.status ≠ 0 := by
  cases h with
  | start => exact hs
  | event => exact hs
  | finish i c t ht hp =>
    dsimp only
    split
    · exact hs
    · assumption
  | skip => exact hs

theorem GReach.status_ne {p : List (GTask K L V)} {s s' : GState L V} (h : GReach p s s')
    (hs : s.status ≠ 0) : s'.status ≠ 0 := by
  induction h with
  | refl => exact hs
  | tail _ h ih => exact h.status_ne ih

/-- After a failure the guarded tasks that have not started do not start, and memory
changes only through events of tasks that were running at that time or are not
guarded. -/
theorem GReach.after_failure {p : List (GTask K L V)} {s s' : GState L V} (h : GReach p s s')
    (hsound : ∀ t ∈ p, ∀ e ∈ t.evs, e.Sound) (hs : s.status ≠ 0) :
    (∀ i t, p[i]? = some t → t.guard = true → s.pc i = .waiting →
      s'.pc i = .waiting ∨ s'.pc i = .done) ∧
    (∀ i j c, s'.pc i = .running j c → (∃ t, p[i]? = some t ∧ t.guard = false) ∨
      ∃ j' c', s.pc i = .running j' c') ∧
    (∀ x, (∀ i t, p[i]? = some t →
        (t.guard = false ∨ ∃ j c, s.pc i = .running j c) → ∀ e ∈ t.evs, x ∉ e.wr) →
      s'.mem x = s.mem x) := by
  induction h with
  | refl => exact ⟨fun _ _ _ _ h => Or.inl h, fun i j c h => Or.inr ⟨j, c, h⟩, fun _ _ => rfl⟩
  | @tail m z hm hz ih =>
    obtain ⟨ih1, ih2, ih3⟩ := ih
    have hms : m.status ≠ 0 := GReach.status_ne hm hs
    cases hz with
    | start i t ht hw hr hg =>
      have hgf : t.guard = false := by
        cases hc : t.guard with
        | false => rfl
        | true => exact absurd (hg hc) hms
      refine ⟨?_, ?_, ih3⟩
      · intro k t' hk hg' hwk
        by_cases hki : k = i
        · subst hki
          rw [ht] at hk; cases hk
          rw [hgf] at hg'; cases hg'
        · simpa [Function.update_of_ne hki] using ih1 k t' hk hg' hwk
      · intro k j c hkc
        by_cases hki : k = i
        · subst hki; exact Or.inl ⟨t, ht, hgf⟩
        · exact ih2 k j c (by simpa [Function.update_of_ne hki] using hkc)
    | event i j c t e ht hp he =>
      refine ⟨?_, ?_, ?_⟩
      · intro k t' hk hg' hwk
        by_cases hki : k = i
        · subst hki
          rcases ih1 k t' hk hg' hwk with h | h <;> rw [hp] at h <;> cases h
        · simpa [Function.update_of_ne hki] using ih1 k t' hk hg' hwk
      · intro k j' c' hkc
        by_cases hki : k = i
        · subst hki; exact ih2 k j c hp
        · exact ih2 k j' c' (by simpa [Function.update_of_ne hki] using hkc)
      · intro x hx
        dsimp only
        rw [(hsound t (List.mem_of_getElem? ht) e (List.mem_of_getElem? he)).frame, ih3 x hx]
        apply hx i t ht _ e (List.mem_of_getElem? he)
        rcases ih2 i j c hp with ⟨t', ht', h⟩ | h
        · rw [ht] at ht'; cases ht'; exact Or.inl h
        · exact Or.inr h
    | finish i c t ht hp =>
      refine ⟨?_, ?_, ih3⟩
      · intro k t' hk hg' hwk
        by_cases hki : k = i
        · subst hki; right; simp
        · simpa [Function.update_of_ne hki] using ih1 k t' hk hg' hwk
      · intro k j' c' hkc
        by_cases hki : k = i
        · subst hki; simp at hkc
        · exact ih2 k j' c' (by simpa [Function.update_of_ne hki] using hkc)
    | skip i hi hw hst =>
      refine ⟨?_, ?_, ih3⟩
      · intro k t' hk hg' hwk
        by_cases hki : k = i
        · subst hki; right; simp
        · simpa [Function.update_of_ne hki] using ih1 k t' hk hg' hwk
      · intro k j' c' hkc
        by_cases hki : k = i
        · subst hki; simp at hkc
        · exact ih2 k j' c' (by simpa [Function.update_of_ne hki] using hkc)

/-- Memory that no task writes does not change. -/
theorem GReach.frame {p : List (GTask K L V)} {s s' : GState L V} (h : GReach p s s')
    (hsound : ∀ t ∈ p, ∀ e ∈ t.evs, e.Sound) (x : L) (hx : ∀ t ∈ p, ∀ e ∈ t.evs, x ∉ e.wr) :
    s'.mem x = s.mem x := by
  induction h with
  | refl => rfl
  | @tail m z hm hz ih =>
    cases hz with
    | event i j c t e ht hp he =>
      dsimp only
      rw [(hsound t (List.mem_of_getElem? ht) e (List.mem_of_getElem? he)).frame, ih]
      exact hx t (List.mem_of_getElem? ht) e (List.mem_of_getElem? he)
    | _ => exact ih

/-! ### Histories of executions without failure -/

/-- Number of events executed. -/
def PC.prog (n : Nat) : PC → Nat
  | .waiting => 0
  | .running j _ => j
  | .done => n

/-- `sch` is the history of a state reached without failure. -/
structure Hist (p : List (GTask K L V)) (mem0 : L → V) (s : GState L V) (sch : List Occ) : Prop where
  nodup : sch.Nodup
  mem : s.mem = runSched (plain p) sch mem0
  iff : ∀ i e, (i, e) ∈ sch ↔ ∃ t, p[i]? = some t ∧ e < (s.pc i).prog t.evs.length
  le : ∀ i t j c, p[i]? = some t → s.pc i = .running j c → j ≤ t.evs.length
  order : sch.Pairwise fun a b =>
    ¬ (a.1 = b.1 ∧ b.2 < a.2) ∧ ¬ Relation.TransGen (Edge (plain p)) b.1 a.1
  closed : ∀ i, s.pc i ≠ .waiting → Ready p s i

theorem Hist.closed' {p : List (GTask K L V)} {mem0 : L → V} {s : GState L V} {sch : List Occ}
    (h : Hist p mem0 s sch) {i b : Nat} (hi : s.pc i ≠ .waiting)
    (hT : Relation.TransGen (Edge (plain p)) b i) : s.pc b = .done := by
  induction hT using Relation.TransGen.head_induction_on with
  | single e => exact h.closed _ hi _ e
  | head e _ ih => exact h.closed _ (by rw [ih]; simp) _ e

theorem Ready.closed' {p : List (GTask K L V)} {mem0 : L → V} {s : GState L V} {sch : List Occ}
    (h : Hist p mem0 s sch) {i b : Nat} (hi : Ready p s i)
    (hT : Relation.TransGen (Edge (plain p)) b i) : s.pc b = .done := by
  rcases Relation.TransGen.tail'_iff.mp hT with ⟨c, hbc, hci⟩
  have hc := hi c hci
  rcases Relation.reflTransGen_iff_eq_or_transGen.mp hbc with h1 | h1
  · rw [← h1]; exact hc
  · exact h.closed' (by rw [hc]; simp) h1

/-- The empty history. -/
theorem Hist.init (p : List (GTask K L V)) (mem0 : L → V) (st : Int) :
    Hist p mem0 (GState.init mem0 st) [] where
  nodup := List.nodup_nil
  mem := rfl
  iff := by intro i e; simp [GState.init, PC.prog]
  le := by intro i t j c _ h; simp [GState.init] at h
  order := List.Pairwise.nil
  closed := by intro i h; simp [GState.init] at h

theorem plain_get {p : List (GTask K L V)} {i : Nat} {t : GTask K L V} (h : p[i]? = some t) :
    (plain p)[i]? = some t.toTask := by simp [plain, h]

theorem plain_get' {p : List (GTask K L V)} {i : Nat} {t : Task K L V}
    (h : (plain p)[i]? = some t) : ∃ g, p[i]? = some g ∧ g.toTask = t := by
  simpa [plain] using h

/-- Histories extend along steps that end without failure. -/
theorem Hist.step {p : List (GTask K L V)} {mem0 : L → V} {s s' : GState L V} {sch : List Occ}
    (h : Hist p mem0 s sch) (hst : GStep p s s') (h0 : s.status = 0) (h0' : s'.status = 0) :
    ∃ sch', Hist p mem0 s' sch' := by
  cases hst with
  | start i t ht hw hr hg =>
    refine ⟨sch, h.nodup, h.mem, ?_, ?_, h.order, ?_⟩
    · intro k e
      rw [h.iff]
      by_cases hk : k = i
      · subst hk; simp [hw, PC.prog]
      · simp [Function.update_of_ne hk]
    · intro k t' j c hk hkc
      by_cases hki : k = i
      · subst hki; simp at hkc; omega
      · exact h.le k t' j c hk (by simpa [Function.update_of_ne hki] using hkc)
    · intro k hk b hb
      have hbi : b ≠ i ∨ s.pc b = .done := by
        by_cases hki : k = i
        · subst hki; left; intro hbi; have := hb.1; omega
        · right; exact h.closed k (by simpa [Function.update_of_ne hki] using hk) b hb
      have hbd : s.pc b = .done := by
        by_cases hki : k = i
        · subst hki; exact hr b hb
        · exact h.closed k (by simpa [Function.update_of_ne hki] using hk) b hb
      have hne : b ≠ i := by
        rintro rfl; rw [hw] at hbd; cases hbd
      simpa [Function.update_of_ne hne] using hbd
  | event i j c t e ht hp he =>
    have hj : j < t.evs.length := by
      rw [List.getElem?_eq_some_iff] at he; exact he.1
    have hnot : (i, j) ∉ sch := by
      rw [h.iff]; rintro ⟨t', ht', hlt⟩
      rw [hp] at hlt; simp [PC.prog] at hlt
    refine ⟨sch ++ [(i, j)], ?_, ?_, ?_, ?_, ?_, ?_⟩
    · rw [List.nodup_append]
      refine ⟨h.nodup, List.nodup_singleton _, ?_⟩
      intro a ha b hb
      simp at hb; subst hb
      rintro rfl; exact hnot ha
    · dsimp only
      rw [h.mem]
      simp only [runSched, List.map_append, execL_append, List.map_cons, List.map_nil, execL_cons,
        execL_nil]
      simp [occRun, evAt, plain_get ht, he]
    · intro k e'
      rw [List.mem_append, h.iff]
      by_cases hk : k = i
      · subst hk
        simp only [Function.update_self, PC.prog, hp, List.mem_singleton, Prod.mk.injEq, true_and]
        constructor
        · rintro (⟨t', h1, h2⟩ | rfl)
          · exact ⟨t', h1, by omega⟩
          · exact ⟨t, ht, by omega⟩
        · rintro ⟨t', h1, h2⟩
          rcases Nat.lt_or_ge e' j with h3 | h3
          · exact Or.inl ⟨t', h1, h3⟩
          · right; omega
      · simp [hk]
    · intro k t' j' c' hk hkc
      by_cases hki : k = i
      · subst hki; rw [ht] at hk; cases hk; simp at hkc; omega
      · exact h.le k t' j' c' hk (by simpa [Function.update_of_ne hki] using hkc)
    · rw [List.pairwise_append]
      refine ⟨h.order, List.pairwise_singleton _ _, ?_⟩
      intro a ha b hb
      simp at hb; subst hb
      obtain ⟨a1, a2⟩ := a
      obtain ⟨t', ht', hlt⟩ := (h.iff a1 a2).mp ha
      refine ⟨?_, ?_⟩
      · rintro ⟨h1, h2⟩
        dsimp only at h1 h2
        subst h1
        rw [hp] at hlt; simp [PC.prog] at hlt; omega
      · intro hT
        have : s.pc i = .done := by
          apply h.closed' (i := a1) _ hT
          intro hw; rw [hw] at hlt; simp [PC.prog] at hlt
        rw [hp] at this; cases this
    · intro k hk b hb
      have hbd : s.pc b = .done := by
        by_cases hki : k = i
        · subst hki; exact h.closed k (by rw [hp]; simp) b hb
        · exact h.closed k (by simpa [Function.update_of_ne hki] using hk) b hb
      have hne : b ≠ i := by
        rintro rfl; rw [hp] at hbd; cases hbd
      simpa [Function.update_of_ne hne] using hbd
  | finish i c t ht hp =>
    refine ⟨sch, h.nodup, h.mem, ?_, ?_, h.order, ?_⟩
    · intro k e
      rw [h.iff]
      by_cases hk : k = i
      · subst hk
        constructor
        · rintro ⟨t', h1, h2⟩
          refine ⟨t', h1, ?_⟩
          rw [ht] at h1; cases h1
          simpa [hp, PC.prog] using h2
        · rintro ⟨t', h1, h2⟩
          refine ⟨t', h1, ?_⟩
          rw [ht] at h1; cases h1
          simpa [hp, PC.prog] using h2
      · simp [Function.update_of_ne hk]
    · intro k t' j c hk hkc
      by_cases hki : k = i
      · subst hki; simp at hkc
      · exact h.le k t' j c hk (by simpa [Function.update_of_ne hki] using hkc)
    · intro k hk b hb
      by_cases hbi : b = i
      · subst hbi; simp
      · show Function.update s.pc i PC.done b = _
        rw [Function.update_of_ne hbi]
        by_cases hki : k = i
        · subst hki; exact h.closed k (by rw [hp]; simp) b hb
        · exact h.closed k (by simpa [Function.update_of_ne hki] using hk) b hb
  | skip i hi hw hs => exact absurd h0 hs

/-- A complete history is a legal schedule. -/
theorem Hist.legal {p : List (GTask K L V)} {mem0 : L → V} {s : GState L V} {sch : List Occ}
    (h : Hist p mem0 s sch) (hf : s.Final p) : Legal (plain p) sch where
  perm := by
    have hnd : (occs (plain p)).Nodup := by
      refine List.Pairwise.imp ?_ (occsFrom_pairwise (plain p) 0)
      rintro a b hab rfl
      rcases hab with h | ⟨_, h⟩ <;> omega
    rw [List.perm_ext_iff_of_nodup h.nodup hnd]
    rintro ⟨i, e⟩
    rw [h.iff, mem_occs]
    constructor
    · rintro ⟨t, h1, h2⟩
      have hi : i < p.length := by
        rw [List.getElem?_eq_some_iff] at h1; exact h1.1
      rw [hf i hi] at h2
      exact ⟨t.toTask, plain_get h1, h2⟩
    · rintro ⟨t, h1, h2⟩
      obtain ⟨g, h3, rfl⟩ := plain_get' h1
      have hi : i < p.length := by
        rw [List.getElem?_eq_some_iff] at h3; exact h3.1
      exact ⟨g, h3, by rw [hf i hi]; exact h2⟩
  order := h.order.imp fun {a b} hab => ⟨hab.1, fun he => hab.2 (.single he)⟩

/-! ### The code a kernel returns is the one of the sequential program -/

theorem occsFrom_split (p : List (Task K L V)) : ∀ (i n : Nat),
    occsFrom p n = occsFrom (p.take i) n ++ occsFrom (p.drop i) (n + (p.take i).length) := by
  induction p with
  | nil => intro i n; simp [occsFrom]
  | cons t p ih =>
    intro i n
    cases i with
    | zero => simp [occsFrom]
    | succ i =>
      simp only [List.take_succ_cons, List.drop_succ_cons, occsFrom, List.length_cons, List.append_assoc]
      rw [ih i (n + 1)]
      congr 3
      omega

/-- Canonical order with the probe of task `i` just before its events. -/
def probeLt (i : Nat) : Option Occ → Option Occ → Prop
  | some a, some b => occLt a b
  | some a, none => a.1 < i
  | none, some b => i ≤ b.1
  | none, none => False

/-- Effect with a probe that records `code`. -/
def probeRun (p : List (Task K L V)) (code : (L → V) → Int) :
    Option Occ → (L → V) × Int → (L → V) × Int
  | some o, s => (occRun p o s.1, s.2)
  | none, s => (s.1, code s.1)

theorem execL_probe (p : List (Task K L V)) (code : (L → V) → Int) (l : List Occ) :
    ∀ s : (L → V) × Int, execL ((l.map some).map (probeRun p code)) s
      = (execL (l.map (occRun p)) s.1, s.2) := by
  induction l with
  | nil => intro s; rfl
  | cons a l ih => intro s; simp only [List.map_cons, execL_cons, ih]; rfl

/-- Conflicts with the footprint `fp i` of the code of task `i` are ordered. -/
structure CodeCovered (p : List (GTask K L V)) (fp : Nat → Set L) : Prop where
  before : ∀ i j t t', j < i → p[i]? = some t → p[j]? = some t' →
    (∃ e ∈ t'.evs, ∃ x ∈ e.wr, x ∈ fp i) → Relation.TransGen (Edge (plain p)) j i
  after : ∀ i j t t', i < j → p[i]? = some t → p[j]? = some t' →
    (∃ e ∈ t'.evs, ∃ x ∈ e.wr, x ∈ fp i) → Relation.TransGen (Edge (plain p)) i j
  loc : ∀ i t, p[i]? = some t → ∀ m m', (∀ x ∈ fp i, m x = m' x) → t.code m = t.code m'

/-- When a task starts without an earlier failure, its code is the one it has in the
sequential execution. -/
theorem Hist.code {p : List (GTask K L V)} {mem0 : L → V} {s : GState L V} {sch : List Occ}
    {fp : Nat → Set L} (h : Hist p mem0 s sch)
    (hs : ∀ t ∈ p, ∀ e ∈ t.evs, e.Sound) (hc : Covered (plain p)) (hcc : CodeCovered p fp)
    {i : Nat} {t : GTask K L V} (ht : p[i]? = some t) (hw : s.pc i = .waiting)
    (hr : Ready p s i) : t.code s.mem = t.code (seqExec ((plain p).take i) mem0) := by
  classical
  have hi : i < p.length := by rw [List.getElem?_eq_some_iff] at ht; exact ht.1
  have hlen : ((plain p).take i).length = i := by simp [plain]; omega
  let rest := (occs (plain p)).filter (fun o => o ∉ sch)
  let A := occsFrom ((plain p).take i) 0
  let B := occsFrom ((plain p).drop i) i
  have hAB : occs (plain p) = A ++ B := by
    have := occsFrom_split (plain p) i 0
    rw [hlen] at this
    simpa [occs, A, B] using this
  have hnd : (occs (plain p)).Nodup := by
    refine List.Pairwise.imp ?_ (occsFrom_pairwise (plain p) 0)
    rintro a b hab rfl
    rcases hab with h | ⟨_, h⟩ <;> omega
  have hsub : ∀ o ∈ sch, o ∈ occs (plain p) := by
    rintro ⟨k, e⟩ ho
    obtain ⟨t', h1, h2⟩ := (h.iff k e).mp ho
    rw [mem_occs]
    refine ⟨t'.toTask, plain_get h1, ?_⟩
    cases hk : s.pc k with
    | waiting => rw [hk] at h2; simp [PC.prog] at h2
    | running j c => rw [hk] at h2; simp [PC.prog] at h2; have := h.le k t' j c h1 hk; show e < t'.evs.length; omega
    | done => rw [hk] at h2; exact h2
  have hperm : (sch ++ rest).Perm (A ++ B) := by
    rw [← hAB]
    rw [List.perm_ext_iff_of_nodup _ hnd]
    · intro o
      rw [List.mem_append]
      constructor
      · rintro (ho | ho)
        · exact hsub o ho
        · exact (List.mem_filter.mp ho).1
      · intro ho
        by_cases hos : o ∈ sch
        · exact Or.inl hos
        · exact Or.inr (List.mem_filter.mpr ⟨ho, by simpa using hos⟩)
    · rw [List.nodup_append]
      refine ⟨h.nodup, hnd.filter _, ?_⟩
      rintro a ha b hb rfl
      have := (List.mem_filter.mp hb).2
      simp at this
      exact this ha
  have hA : ∀ o ∈ A, o.1 < i := by
    intro o ho
    obtain ⟨t', h1, _⟩ := (mem_occs _ _).mp ho
    rw [List.getElem?_eq_some_iff] at h1
    have := h1.1
    omega
  have hB : ∀ o ∈ B, i ≤ o.1 := fun o ho => occsFrom_fst_ge _ _ _ ho
  -- the two extended schedules
  have key := trace (probeRun (plain p) t.code) (probeLt i)
    (sch.map some ++ none :: rest.map some) (A.map some ++ none :: B.map some)
    (by
      have h1 : (sch.map some ++ none :: rest.map some).Perm (none :: (sch ++ rest).map some) := by
        rw [List.map_append]; exact List.perm_middle
      have h2 : (A.map some ++ none :: B.map some).Perm (none :: (A ++ B).map some) := by
        rw [List.map_append]; exact List.perm_middle
      exact h1.trans ((List.Perm.cons _ (hperm.map _)).trans h2.symm))
    (by
      have hpw : (A ++ B).Pairwise occLt := by rw [← hAB]; exact occsFrom_pairwise _ 0
      rw [List.pairwise_append] at hpw ⊢
      refine ⟨?_, ?_, ?_⟩
      · rw [List.pairwise_map]; exact hpw.1
      · rw [List.pairwise_cons]
        refine ⟨?_, ?_⟩
        · intro b hb
          obtain ⟨o, ho, rfl⟩ := List.mem_map.mp hb
          exact hB o ho
        · rw [List.pairwise_map]; exact hpw.2.1
      · intro a ha b hb
        obtain ⟨o, ho, rfl⟩ := List.mem_map.mp ha
        rcases List.mem_cons.mp hb with rfl | hb
        · exact hA o ho
        · obtain ⟨o', ho', rfl⟩ := List.mem_map.mp hb
          exact hpw.2.2 o ho o' ho')
    (by
      -- commutation
      have hall : ∀ o ∈ occs (plain p), ∃ g e, p[o.1]? = some g ∧ g.evs[o.2]? = some e ∧
          occRun (plain p) o = e.run ∧ e ∈ g.evs ∧ e.Sound := by
        intro o ho
        obtain ⟨t', h1, h2⟩ := (mem_occs (plain p) o).mp ho
        obtain ⟨g, h3, rfl⟩ := plain_get' h1
        refine ⟨g, g.evs[o.2], h3, by simp [h2], by simp [occRun, evAt, h1, h2], ?_, ?_⟩
        · exact List.getElem_mem _
        · exact hs g (List.mem_of_getElem? h3) _ (List.getElem_mem _)
      have hocc : ∀ a b, a ∈ occs (plain p) → b ∈ occs (plain p) → b.1 < a.1 →
          ¬ Relation.TransGen (Edge (plain p)) b.1 a.1 → ∀ s : (L → V) × Int,
          probeRun (plain p) t.code (some a) (probeRun (plain p) t.code (some b) s)
            = probeRun (plain p) t.code (some b) (probeRun (plain p) t.code (some a) s) := by
        intro a b ha hb hlt hT s
        obtain ⟨ga, ea, hga, hea, hra, hma, hsa⟩ := hall a ha
        obtain ⟨gb, eb, hgb, heb, hrb, hmb, hsb⟩ := hall b hb
        simp only [probeRun, hra, hrb, Prod.mk.injEq, and_true]
        symm
        apply comm_of_not_conflict hsb hsa
        intro hconf
        exact hT (hc b.1 a.1 gb.toTask ga.toTask hlt (plain_get hgb) (plain_get hga)
          ⟨eb, hmb, ea, hma, hconf⟩)
      have hprobe : ∀ a, a ∈ occs (plain p) →
          (∀ g e, p[a.1]? = some g → e ∈ g.evs → ∀ x ∈ e.wr, x ∉ fp i) → ∀ s : (L → V) × Int,
          probeRun (plain p) t.code none (probeRun (plain p) t.code (some a) s)
            = probeRun (plain p) t.code (some a) (probeRun (plain p) t.code none s) := by
        intro a ha hx s
        obtain ⟨ga, ea, hga, hea, hra, hma, hsa⟩ := hall a ha
        simp only [probeRun, hra, Prod.mk.injEq, true_and]
        apply hcc.loc i t ht
        intro x hxf
        apply hsa.frame
        intro hxw
        exact hx ga ea hga hma x hxw hxf
      have hnw : ∀ o ∈ sch, s.pc o.1 ≠ .waiting := by
        rintro ⟨k, e⟩ ho hwk
        obtain ⟨t', h1, h2⟩ := (h.iff k e).mp ho
        dsimp only at hwk
        rw [hwk] at h2; simp [PC.prog] at h2
      have hrest : ∀ o ∈ rest, o ∈ occs (plain p) ∧ o ∉ sch := by
        intro o ho
        have := List.mem_filter.mp ho
        exact ⟨this.1, by simpa using this.2⟩
      have hdone : ∀ o ∈ occs (plain p), s.pc o.1 = .done → o ∈ sch := by
        rintro ⟨k, e⟩ ho hd
        obtain ⟨g, _, h3, _, _, _, _⟩ := hall _ ho
        obtain ⟨t', h1, h2⟩ := (mem_occs (plain p) _).mp ho
        obtain ⟨g, h3, rfl⟩ := plain_get' h1
        rw [h.iff]
        dsimp only at hd
        exact ⟨g, h3, by rw [hd]; exact h2⟩
      rw [List.pairwise_append]
      refine ⟨?_, ?_, ?_⟩
      · rw [List.pairwise_map]
        refine List.Pairwise.imp_of_mem ?_ h.order
        intro a b ha hb hab hlt
        rcases hlt with hlt | ⟨h1, h2⟩
        · exact hocc a b (hsub a ha) (hsub b hb) hlt hab.2
        · exact absurd ⟨h1.symm, h2⟩ hab.1
      · rw [List.pairwise_cons]
        refine ⟨?_, ?_⟩
        · intro b hb hlt
          obtain ⟨o, ho, rfl⟩ := List.mem_map.mp hb
          have ho' := hrest o ho
          have hlt' : o.1 < i := hlt
          refine hprobe o ho'.1 ?_
          intro g e hg he x hxw hxf
          have hT := hcc.before i o.1 t g hlt' ht hg ⟨e, he, x, hxw, hxf⟩
          exact ho'.2 (hdone o ho'.1 (Ready.closed' h hr hT))
        · rw [List.pairwise_map]
          have : rest.Pairwise occLt :=
            List.Pairwise.sublist List.filter_sublist (occsFrom_pairwise (plain p) 0)
          refine this.imp ?_
          intro a b hab hlt
          exfalso
          have hlt' : occLt b a := hlt
          rcases hab with h1 | ⟨h1, h2⟩ <;> rcases hlt' with h3 | ⟨h3, h4⟩ <;> omega
      · intro a ha b hb hlt
        obtain ⟨o, ho, rfl⟩ := List.mem_map.mp ha
        rcases List.mem_cons.mp hb with rfl | hb
        · have hlt' : i ≤ o.1 := hlt
          have hne : o.1 ≠ i := by
            intro he; apply hnw o ho; rw [he]; exact hw
          intro s'
          symm
          refine hprobe o (hsub o ho) ?_ s'
          intro g e hg he x hxw hxf
          have hT := hcc.after i o.1 t g (by omega) ht hg ⟨e, he, x, hxw, hxf⟩
          have := h.closed' (hnw o ho) hT
          rw [hw] at this; cases this
        · obtain ⟨o', ho', rfl⟩ := List.mem_map.mp hb
          have ho'' := hrest o' ho'
          have hlt' : occLt o' o := hlt
          rcases hlt' with h1 | ⟨h1, h2⟩
          · refine hocc o o' (hsub o ho) ho''.1 h1 ?_
            intro hT
            exact ho''.2 (hdone o' ho''.1 (h.closed' (hnw o ho) hT))
          · exfalso
            apply ho''.2
            obtain ⟨o1, o2⟩ := o
            obtain ⟨o1', o2'⟩ := o'
            dsimp only at h1 h2
            subst h1
            obtain ⟨t', h3, h4⟩ := (h.iff _ _).mp ho
            exact (h.iff _ _).mpr ⟨t', h3, by omega⟩)
    (mem0, 0)
  -- read off the probe
  simp only [List.map_append, List.map_cons, execL_append, execL_cons] at key
  have e1 := execL_probe (plain p) t.code sch (mem0, 0)
  have e2 := execL_probe (plain p) t.code A (mem0, 0)
  rw [e1, e2] at key
  have e3 := execL_probe (plain p) t.code rest
    (probeRun (plain p) t.code none (execL (sch.map (occRun (plain p))) mem0, 0))
  have e4 := execL_probe (plain p) t.code B
    (probeRun (plain p) t.code none (execL (A.map (occRun (plain p))) mem0, 0))
  dsimp only at key
  rw [e3, e4] at key
  have k2 := congrArg Prod.snd key
  simp only [probeRun] at k2
  have hAe : execL (A.map (occRun (plain p))) mem0 = seqExec ((plain p).take i) mem0 := by
    rw [← execL_occs]
    congr 1
    apply List.map_congr_left
    intro o ho
    have : o.1 < i := hA o ho
    simp [occRun, evAt, this]
  rw [hAe] at k2
  rw [h.mem]
  exact k2

/-! ### Outcomes -/

/-- Status code of task `i` in the sequential execution. -/
def seqCode (p : List (GTask K L V)) (mem0 : L → V) (i : Nat) : Int :=
  match p[i]? with
  | some t => t.code (seqExec ((plain p).take i) mem0)
  | none => 0

/-- Invariant of a region started with status zero. -/
structure GInv (p : List (GTask K L V)) (mem0 : L → V) (s : GState L V) : Prop where
  hist : s.status = 0 → ∃ sch, Hist p mem0 s sch
  run : ∀ i j c, s.pc i = .running j c → c = seqCode p mem0 i ∧
    (c ≠ 0 → ∀ b, Relation.TransGen (Edge (plain p)) b i → seqCode p mem0 b = 0)
  fail : s.status ≠ 0 → ∃ i, i < p.length ∧ seqCode p mem0 i = s.status ∧
    ∀ b, Relation.TransGen (Edge (plain p)) b i → seqCode p mem0 b = 0
  ok : s.status = 0 → ∀ i, s.pc i = .done → seqCode p mem0 i = 0

/-- What is assumed about a guarded program: honest events, conflicts ordered, codes
depend on data whose writers are ordered, kernels that can fail are guarded. -/
structure GWell (p : List (GTask K L V)) (fp : Nat → Set L) : Prop where
  sound : ∀ t ∈ p, ∀ e ∈ t.evs, e.Sound
  cov : Covered (plain p)
  ccov : CodeCovered p fp
  unguarded : ∀ t ∈ p, t.guard = false → ∀ m, t.code m = 0

theorem GInv.init (p : List (GTask K L V)) (mem0 : L → V) : GInv p mem0 (GState.init mem0 0) where
  hist := fun _ => ⟨[], Hist.init p mem0 0⟩
  run := by intro i j c h; simp [GState.init] at h
  fail := by intro h; simp [GState.init] at h
  ok := by intro _ i h; simp [GState.init] at h

theorem GInv.step {p : List (GTask K L V)} {fp : Nat → Set L} {mem0 : L → V} {s s' : GState L V}
    (hp : GWell p fp) (h : GInv p mem0 s) (hst : GStep p s s') : GInv p mem0 s' := by
  refine ⟨?_, ?_, ?_, ?_⟩
  · intro h0'
    have h0 : s.status = 0 := by
      by_contra hne
      exact hst.status_ne hne h0'
    obtain ⟨sch, hsch⟩ := h.hist h0
    exact hsch.step hst h0 h0'
  · cases hst with
    | start i t ht hw hr hg =>
      intro k j c hk
      by_cases hki : k = i
      · subst hki
        simp only [Function.update_self, PC.running.injEq] at hk
        obtain ⟨_, rfl⟩ := hk
        by_cases h0 : s.status = 0
        · obtain ⟨sch, hsch⟩ := h.hist h0
          have hcode := hsch.code hp.sound hp.cov hp.ccov ht hw hr
          refine ⟨by rw [hcode]; simp [seqCode, ht], ?_⟩
          intro _ b hb
          exact h.ok h0 b (Ready.closed' hsch hr hb)
        · have hgf : t.guard = false := by
            cases hc : t.guard with
            | false => rfl
            | true => exact absurd (hg hc) h0
          have hz := hp.unguarded t (List.mem_of_getElem? ht) hgf
          refine ⟨by simp [seqCode, ht, hz], fun hne => absurd (hz _) hne⟩
      · exact h.run k j c (by simpa [Function.update_of_ne hki] using hk)
    | event i j c t e ht hp' he =>
      intro k j' c' hk
      by_cases hki : k = i
      · subst hki
        simp only [Function.update_self, PC.running.injEq] at hk
        obtain ⟨_, rfl⟩ := hk
        exact h.run k j c hp'
      · exact h.run k j' c' (by simpa [Function.update_of_ne hki] using hk)
    | finish i c t ht hp' =>
      intro k j' c' hk
      by_cases hki : k = i
      · subst hki; simp at hk
      · exact h.run k j' c' (by simpa [Function.update_of_ne hki] using hk)
    | skip i hi hw hs =>
      intro k j' c' hk
      by_cases hki : k = i
      · subst hki; simp at hk
      · exact h.run k j' c' (by simpa [Function.update_of_ne hki] using hk)
  · cases hst with
    | start => exact h.fail
    | event => exact h.fail
    | finish i c t ht hp' =>
      intro hne
      dsimp only at hne ⊢
      by_cases hc : c = 0
      · rw [if_pos hc] at hne ⊢
        exact h.fail hne
      · rw [if_neg hc]
        obtain ⟨h1, h2⟩ := h.run i _ c hp'
        refine ⟨i, ?_, h1.symm, h2 hc⟩
        rw [List.getElem?_eq_some_iff] at ht; exact ht.1
    | skip => exact h.fail
  · cases hst with
    | start i t ht hw hr hg =>
      intro h0 k hk
      by_cases hki : k = i
      · subst hki; simp at hk
      · exact h.ok h0 k (by simpa [Function.update_of_ne hki] using hk)
    | event i j c t e ht hp' he =>
      intro h0 k hk
      by_cases hki : k = i
      · subst hki; simp at hk
      · exact h.ok h0 k (by simpa [Function.update_of_ne hki] using hk)
    | finish i c t ht hp' =>
      intro h0 k hk
      dsimp only at h0
      have hc : c = 0 := by
        by_contra hc
        rw [if_neg hc] at h0
        exact hc h0
      rw [if_pos hc] at h0
      by_cases hki : k = i
      · subst hki
        rw [← (h.run k _ c hp').1, hc]
      · exact h.ok h0 k (by simpa [Function.update_of_ne hki] using hk)
    | skip i hi hw hs =>
      intro h0 k hk
      exact absurd h0 hs

theorem GInv.reach {p : List (GTask K L V)} {fp : Nat → Set L} {mem0 : L → V} {s : GState L V}
    (hp : GWell p fp) (h : GReach p (GState.init mem0 0) s) : GInv p mem0 s := by
  induction h with
  | refl => exact GInv.init p mem0
  | tail _ hz ih => exact ih.step hp hz

/-- **Success**: a region that ends with status zero executed every task, its memory is
that of a legal schedule, and no kernel of the sequential program fails. -/
theorem guarded_success {p : List (GTask K L V)} {fp : Nat → Set L} {mem0 : L → V}
    {s : GState L V} (hp : GWell p fp) (h : GReach p (GState.init mem0 0) s) (hf : s.Final p)
    (h0 : s.status = 0) :
    (∃ sch, Legal (plain p) sch ∧ s.mem = runSched (plain p) sch mem0) ∧
    ∀ i, seqCode p mem0 i = 0 := by
  have hI := GInv.reach hp h
  obtain ⟨sch, hsch⟩ := hI.hist h0
  refine ⟨⟨sch, hsch.legal hf, hsch.mem⟩, ?_⟩
  intro i
  by_cases hi : i < p.length
  · exact hI.ok h0 i (hf i hi)
  · have : p[i]? = none := by rw [List.getElem?_eq_none_iff]; omega
    simp [seqCode, this]

/-- **Failure**: a region that ends with a non-zero status ends with the code that some
task has in the sequential program, no task it depends on failing there. -/
theorem guarded_failure {p : List (GTask K L V)} {fp : Nat → Set L} {mem0 : L → V}
    {s : GState L V} (hp : GWell p fp) (h : GReach p (GState.init mem0 0) s)
    (h0 : s.status ≠ 0) :
    ∃ i, i < p.length ∧ seqCode p mem0 i = s.status ∧
      ∀ b, Relation.TransGen (Edge (plain p)) b i → seqCode p mem0 b = 0 :=
  (GInv.reach hp h).fail h0

/-! ### Executions exist -/

/-- A started task can be run to its end. -/
theorem GReach.run_task {p : List (GTask K L V)} {i : Nat} {t : GTask K L V} (ht : p[i]? = some t)
    (c : Int) : ∀ (n j : Nat) (s : GState L V), j + n = t.evs.length → s.pc i = .running j c →
    ∃ s', GReach p s s' ∧ s'.pc i = .running t.evs.length c ∧ (∀ k, k ≠ i → s'.pc k = s.pc k) := by
  intro n
  induction n with
  | zero => intro j s hj hs; exact ⟨s, .refl, by rw [hs]; congr 1, fun _ _ => rfl⟩
  | succ n ih =>
    intro j s hj hs
    have hlt : j < t.evs.length := by omega
    obtain ⟨s', h1, h2, h3⟩ := ih (j + 1)
      ⟨t.evs[j].run s.mem, s.status, Function.update s.pc i (.running (j + 1) c)⟩ (by omega) (by simp)
    refine ⟨s', .head (.event s i j c t _ ht hs (by simp [hlt])) h1, h2, ?_⟩
    intro k hk
    rw [h3 k hk]; simp [hk]

/-- The tasks can be executed one after the other, so every region has an execution. -/
theorem guarded_exists (p : List (GTask K L V)) (mem0 : L → V) (st : Int) :
    ∃ s, GReach p (GState.init mem0 st) s ∧ s.Final p := by
  suffices h : ∀ n ≤ p.length, ∃ s, GReach p (GState.init mem0 st) s ∧ (∀ i < n, s.pc i = .done) ∧
      ∀ i, n ≤ i → s.pc i = .waiting by
    obtain ⟨s, h1, h2, _⟩ := h p.length (Nat.le_refl _)
    exact ⟨s, h1, h2⟩
  intro n
  induction n with
  | zero => intro _; exact ⟨_, .refl, by simp, fun _ _ => rfl⟩
  | succ n ih =>
    intro hn
    obtain ⟨s, h1, h2, h3⟩ := ih (by omega)
    have hw := h3 n (Nat.le_refl _)
    have ht : p[n]? = some p[n] := List.getElem?_eq_getElem (by omega)
    by_cases h0 : s.status = 0
    · have hr : Ready p s n := fun b hb => h2 b hb.1
      obtain ⟨s', r1, r2, r3⟩ := GReach.run_task ht (p[n].code s.mem) p[n].evs.length 0
        ⟨s.mem, s.status, Function.update s.pc n (.running 0 (p[n].code s.mem))⟩ (by omega) (by simp)
      refine ⟨_, (h1.tail (.start s n _ ht hw hr (fun _ => h0))).trans
        (r1.tail (.finish s' n _ _ ht r2)), ?_, ?_⟩
      · intro i hi
        by_cases hin : i = n
        · subst hin; simp
        · have := r3 i hin
          simp only [Function.update_of_ne hin] at this
          simp only [Function.update_of_ne hin, this]
          exact h2 i (by omega)
      · intro i hi
        have hin : i ≠ n := by omega
        have := r3 i hin
        simp only [Function.update_of_ne hin] at this
        simp only [Function.update_of_ne hin, this]
        exact h3 i (by omega)
    · refine ⟨_, h1.tail (.skip s n (by omega) hw h0), ?_, ?_⟩
      · intro i hi
        by_cases hin : i = n
        · subst hin; simp
        · simp only [Function.update_of_ne hin]
          exact h2 i (by omega)
      · intro i hi
        have hin : i ≠ n := by omega
        simp only [Function.update_of_ne hin]
        exact h3 i (by omega)

end Verif.Sched

/-
Tile stores, tile tasks and their execution over real memory.

A *tile store* gives every element (tile, row in tile, column in tile) a value.  A *tile task* says which elements it may read and write
and what it computes; a *layout* maps elements to memory locations.  The theorem
`run_correct` says: if the layout is injective on the elements in use and
conflicting tasks are ordered by their `depend` clauses, then every legal
execution over memory computes, at every element, what the sequential tile program
computes, and leaves every other location alone.
-/
import Verif.Sched

namespace Verif.Tile

open Verif.Sched

universe u v w x

/-- Values of the elements of tiles.  Arguments: tile (usually matrix, tile row,
tile column), row inside the tile, column inside the tile (all zero based). -/
abbrev Store (M : Type u) (α : Type v) := M → Nat → Nat → α

/-- A set of tile elements. -/
abbrev Foot (M : Type u) := M → Nat → Nat → Prop

/-- One OpenMP task as created by a `plasma_core_omp_*` function: the tiles named
in its `depend` clauses (with `true` for `out`/`inout`), the elements the kernel
reads and writes, and the values it computes for the written elements.
Simplification: `f` is the effect of the whole kernel call (CBLAS/LAPACK call or
core_blas loop nest); `TaskImpl` below says how it may be spread over time. -/
structure TTask (M : Type u) (α : Type v) where
  phase : Nat := 0
  deps : List ((M) × Bool)
  rd : Foot M
  wr : Foot M
  f : Store M α → Store M α

namespace TTask
variable {M : Type u} {α : Type v}

/-- The written values depend only on the declared footprint. -/
def Local (t : TTask M α) : Prop :=
  ∀ s s', (∀ a i j, t.rd a i j ∨ t.wr a i j → s a i j = s' a i j) →
    ∀ a i j, t.wr a i j → t.f s a i j = t.f s' a i j

/-- Every touched tile is named in a `depend` clause, written tiles in output mode. -/
def Declared (t : TTask M α) : Prop :=
  (∀ a i j, t.rd a i j → ∃ b, (a, b) ∈ t.deps) ∧
  (∀ a i j, t.wr a i j → (a, true) ∈ t.deps)

/-- The task stays inside the set `valid`. -/
def Inside (t : TTask M α) (valid : Foot M) : Prop :=
  ∀ a i j, t.rd a i j ∨ t.wr a i j → valid a i j

open Classical in
/-- Effect of a task on a tile store. -/
noncomputable def run (t : TTask M α) (s : Store M α) : Store M α := fun a i j =>
  if t.wr a i j then t.f s a i j else s a i j

theorem run_wr (t : TTask M α) (s : Store M α) {a i j} (h : t.wr a i j) :
    t.run s a i j = t.f s a i j := by simp [run, h]

theorem run_frame (t : TTask M α) (s : Store M α) {a i j} (h : ¬ t.wr a i j) :
    t.run s a i j = s a i j := by simp [run, h]

end TTask

section
variable {M : Type u} {α : Type v} {X : Type w} {K : Type x}

/-- Sequential execution of a tile program. -/
noncomputable def texec (P : List (TTask M α)) (s : Store M α) : Store M α :=
  P.foldl (fun s t => t.run s) s

@[simp] theorem texec_nil (s : Store M α) : texec ([] : List (TTask M α)) s = s := rfl
@[simp] theorem texec_cons (t : TTask M α) (P : List (TTask M α)) (s : Store M α) :
    texec (t :: P) s = texec P (t.run s) := rfl
theorem texec_append (P Q : List (TTask M α)) (s : Store M α) :
    texec (P ++ Q) s = texec Q (texec P s) := by simp [texec, List.foldl_append]

/-- Read a memory through a layout. -/
def view (loc : M → Nat → Nat → X) (mem : X → α) : Store M α :=
  fun a i j => mem (loc a i j)

open Classical in
/-- Effect of a task on memory: the value computed for element `e` is stored at
`loc e`. -/
noncomputable def memRun (loc : M → Nat → Nat → X) (t : TTask M α) (mem : X → α) :
    X → α := fun x =>
  if h : ∃ a i j, t.wr a i j ∧ loc a i j = x then
    t.f (view loc mem) h.choose h.choose_spec.choose h.choose_spec.choose_spec.choose
  else mem x

/-- Distinct elements of `valid` have distinct locations. -/
def InjOn (loc : M → Nat → Nat → X) (valid : Foot M) : Prop :=
  ∀ a i j a' i' j', valid a i j → valid a' i' j' →
    loc a i j = loc a' i' j' → a = a' ∧ i = i' ∧ j = j'

/-- A memory-level realisation of a tile task: any non-empty list of atomic events
inside the task's footprint whose composition is the kernel's effect, with the
`depend` items given by tile addresses. -/
structure TaskImpl (loc : M → Nat → Nat → X) (key : M → K)
    (t : TTask M α) (T : Task K X α) : Prop where
  phase : T.phase = t.phase
  deps : T.deps = t.deps.map fun d => (key d.1, d.2)
  ne : T.evs ≠ []
  sound : ∀ e ∈ T.evs, e.Sound
  rdIn : ∀ e ∈ T.evs, ∀ x ∈ e.rd, ∃ a i j, (t.rd a i j ∨ t.wr a i j) ∧ loc a i j = x
  wrIn : ∀ e ∈ T.evs, ∀ x ∈ e.wr, ∃ a i j, t.wr a i j ∧ loc a i j = x
  eff : ∀ mem, execL (T.evs.map Ev.run) mem = memRun loc t mem

/-- Direct dependence between tile tasks. -/
def TDepOn (t t' : TTask M α) : Prop :=
  t.phase < t'.phase ∨ ∃ d ∈ t.deps, ∃ d' ∈ t'.deps, d.1 = d'.1 ∧ (d.2 = true ∨ d'.2 = true)

/-- Direct dependence between tasks of a tile program. -/
def TEdge (P : List (TTask M α)) (i j : Nat) : Prop :=
  i < j ∧ ∃ t t', P[i]? = some t ∧ P[j]? = some t' ∧ TDepOn t t'

/-- Conflicts between tile tasks. -/
def TConflict (t t' : TTask M α) : Prop :=
  ∃ a i j, (t.wr a i j ∧ (t'.rd a i j ∨ t'.wr a i j)) ∨
    (t.rd a i j ∧ t'.wr a i j)

/-- All conflicts of the tile program are ordered by its dependences. -/
def TCovered (P : List (TTask M α)) : Prop :=
  ∀ i j t t', i < j → P[i]? = some t → P[j]? = some t' → TConflict t t' →
    Relation.TransGen (TEdge P) i j

theorem tcovered_of_declared {P : List (TTask M α)} (h : ∀ t ∈ P, t.Declared) : TCovered P := by
  intro i j t t' hij hi hj ⟨a, k, l, hc⟩
  have ht := h t (List.mem_of_getElem? hi)
  have ht' := h t' (List.mem_of_getElem? hj)
  apply Relation.TransGen.single
  refine ⟨hij, t, t', hi, hj, Or.inr ?_⟩
  rcases hc with ⟨h1, h2 | h2⟩ | ⟨h1, h2⟩
  · obtain ⟨b, hb⟩ := ht'.1 _ _ _ h2
    exact ⟨_, ht.2 _ _ _ h1, _, hb, rfl, Or.inl rfl⟩
  · exact ⟨_, ht.2 _ _ _ h1, _, ht'.2 _ _ _ h2, rfl, Or.inl rfl⟩
  · obtain ⟨b, hb⟩ := ht.1 _ _ _ h1
    exact ⟨_, hb, _, ht'.2 _ _ _ h2, rfl, Or.inr rfl⟩

variable {loc : M → Nat → Nat → X} {key : M → K}

theorem memRun_wr {valid : Foot M} (hinj : InjOn loc valid) {t : TTask M α}
    (hin : t.Inside valid) (mem : X → α) {a i j} (h : t.wr a i j) :
    memRun loc t mem (loc a i j) = t.f (view loc mem) a i j := by
  have hx : ∃ a' i' j', t.wr a' i' j' ∧ loc a' i' j' = loc a i j :=
    ⟨a, i, j, h, rfl⟩
  unfold memRun
  rw [dif_pos hx]
  have hs := hx.choose_spec.choose_spec.choose_spec
  have he := hinj _ _ _ _ _ _ (hin _ _ _ (Or.inr hs.1)) (hin _ _ _ (Or.inr h)) hs.2
  obtain ⟨h1, h2, h3⟩ := he
  congr 1

theorem memRun_frame {t : TTask M α} (mem : X → α) {x : X}
    (h : ∀ a i j, t.wr a i j → loc a i j ≠ x) :
    memRun loc t mem x = mem x := by
  unfold memRun
  rw [dif_neg]
  rintro ⟨a, i, j, h1, h2⟩
  exact h _ _ _ h1 h2

/-- One task over memory simulates the task over the tile store. -/
theorem memRun_view {valid : Foot M} (hinj : InjOn loc valid) {t : TTask M α}
    (hin : t.Inside valid) (mem : X → α) {a i j} (hv : valid a i j) :
    view loc (memRun loc t mem) a i j = t.run (view loc mem) a i j := by
  by_cases h : t.wr a i j
  · rw [t.run_wr _ h]
    exact memRun_wr hinj hin mem h
  · rw [t.run_frame _ h]
    apply memRun_frame
    intro a' i' j' h1 h2
    have := hinj _ _ _ _ _ _ (hin _ _ _ (Or.inr h1)) hv h2
    obtain ⟨rfl, rfl, rfl⟩ := this
    exact h h1

theorem run_congr {valid : Foot M} {t : TTask M α} (hl : t.Local) (hin : t.Inside valid)
    {s s' : Store M α} (h : ∀ a i j, valid a i j → s a i j = s' a i j) :
    ∀ a i j, valid a i j → t.run s a i j = t.run s' a i j := by
  intro a i j hv
  by_cases hw : t.wr a i j
  · rw [t.run_wr _ hw, t.run_wr _ hw]
    exact hl _ _ (fun a i j h' => h _ _ _ (hin _ _ _ h')) _ _ _ hw
  · rw [t.run_frame _ hw, t.run_frame _ hw]
    exact h _ _ _ hv

theorem texec_congr {valid : Foot M} (P : List (TTask M α))
    (hl : ∀ t ∈ P, t.Local) (hin : ∀ t ∈ P, t.Inside valid) :
    ∀ (s s' : Store M α), (∀ a i j, valid a i j → s a i j = s' a i j) →
    ∀ a i j, valid a i j → texec P s a i j = texec P s' a i j := by
  induction P with
  | nil => intro s s' h; exact h
  | cons t P ih =>
    intro s s' h
    simp only [texec_cons]
    apply ih (fun t' ht => hl t' (List.mem_cons_of_mem _ ht))
      (fun t' ht => hin t' (List.mem_cons_of_mem _ ht))
    exact run_congr (hl t (List.mem_cons_self ..)) (hin t (List.mem_cons_self ..)) h

/-- Sequential execution over memory. -/
theorem seqExec_view {valid : Foot M} (hinj : InjOn loc valid) :
    ∀ (P : List (TTask M α)) (Ts : List (Task K X α)),
    (∀ t ∈ P, t.Local) → (∀ t ∈ P, t.Inside valid) →
    List.Forall₂ (TaskImpl loc key) P Ts → ∀ mem,
    (∀ a i j, valid a i j →
      seqExec Ts mem (loc a i j) = texec P (view loc mem) a i j) ∧
    (∀ x, (∀ t ∈ P, ∀ a i j, t.wr a i j → loc a i j ≠ x) → seqExec Ts mem x = mem x) := by
  intro P
  induction P with
  | nil =>
    intro Ts _ _ h mem
    cases h
    exact ⟨fun _ _ _ _ => rfl, fun _ _ => rfl⟩
  | cons t P ih =>
    intro Ts hl hin h mem
    cases h with
    | cons h1 h2 =>
      rename_i T Ts'
      have hih := ih Ts' (fun t' ht => hl t' (List.mem_cons_of_mem _ ht))
        (fun t' ht => hin t' (List.mem_cons_of_mem _ ht)) h2 (memRun loc t mem)
      have he : seqExec (T :: Ts') mem = seqExec Ts' (memRun loc t mem) := by
        simp only [seqExec, List.map_cons, execL_cons]
        rw [h1.eff]
      rw [he]
      constructor
      · intro a i j hv
        rw [hih.1 _ _ _ hv, texec_cons]
        apply texec_congr (valid := valid) P (fun t' ht => hl t' (List.mem_cons_of_mem _ ht))
          (fun t' ht => hin t' (List.mem_cons_of_mem _ ht)) _ _ _ _ _ _ hv
        intro a i j hv
        exact memRun_view hinj (hin t (List.mem_cons_self ..)) mem hv
      · intro x hx
        rw [hih.2 x (fun t' ht => hx t' (List.mem_cons_of_mem _ ht))]
        exact memRun_frame mem (hx t (List.mem_cons_self ..))

theorem forall₂_getElem? {β : Type*} {γ : Type*} {R : β → γ → Prop} {l : List β} {l' : List γ}
    (h : List.Forall₂ R l l') : ∀ (i : Nat) (y : γ), l'[i]? = some y → ∃ x, l[i]? = some x ∧ R x y := by
  induction h with
  | nil => intro i y hy; simp at hy
  | cons h1 h2 ih =>
    intro i y hy
    cases i with
    | zero => simp at hy; subst hy; exact ⟨_, by simp, h1⟩
    | succ i => simpa using ih i y (by simpa using hy)

theorem forall₂_getElem?' {β : Type*} {γ : Type*} {R : β → γ → Prop} {l : List β} {l' : List γ}
    (h : List.Forall₂ R l l') : ∀ (i : Nat) (x : β), l[i]? = some x → ∃ y, l'[i]? = some y ∧ R x y := by
  induction h with
  | nil => intro i y hy; simp at hy
  | cons h1 h2 ih =>
    intro i y hy
    cases i with
    | zero => simp at hy; subst hy; exact ⟨_, by simp, h1⟩
    | succ i => simpa using ih i y (by simpa using hy)

/-- Coverage of the tile program gives coverage of the memory-level program. -/
theorem covered_lift {valid : Foot M} (hinj : InjOn loc valid) {P : List (TTask M α)}
    {Ts : List (Task K X α)} (hin : ∀ t ∈ P, t.Inside valid)
    (hI : List.Forall₂ (TaskImpl loc key) P Ts) (hc : TCovered P) : Covered Ts := by
  have hedge : ∀ i j, TEdge P i j → Edge Ts i j := by
    rintro i j ⟨hij, t, t', hi, hj, hd⟩
    obtain ⟨T, hT, hTi⟩ := forall₂_getElem?' hI i t hi
    obtain ⟨T', hT', hTi'⟩ := forall₂_getElem?' hI j t' hj
    refine ⟨hij, T, T', hT, hT', ?_⟩
    rcases hd with hd | ⟨d, hd, d', hd', h1, h2⟩
    · left; rw [hTi.phase, hTi'.phase]; exact hd
    · right
      refine ⟨(key d.1, d.2), ?_, (key d'.1, d'.2), ?_, ?_, h2⟩
      · rw [hTi.deps]; exact List.mem_map_of_mem hd
      · rw [hTi'.deps]; exact List.mem_map_of_mem hd'
      · simp [h1]
  intro i j T T' hij hi hj ⟨e, he, f, hf, l, hl⟩
  obtain ⟨t, ht, hTi⟩ := forall₂_getElem? hI i T hi
  obtain ⟨t', ht', hTi'⟩ := forall₂_getElem? hI j T' hj
  have hti := hin t (List.mem_of_getElem? ht)
  have hti' := hin t' (List.mem_of_getElem? ht')
  have hconf : TConflict t t' := by
    rcases hl with ⟨h1, h2⟩ | ⟨h1, h2⟩
    · obtain ⟨a, k, l', hw, rfl⟩ := hTi.wrIn e he l h1
      have : ∃ a' k' l'', (t'.rd a' k' l'' ∨ t'.wr a' k' l'') ∧
          loc a' k' l'' = loc a k l' := by
        rcases h2 with h2 | h2
        · exact hTi'.rdIn f hf _ h2
        · obtain ⟨a', k', l'', h3, h4⟩ := hTi'.wrIn f hf _ h2
          exact ⟨a', k', l'', Or.inr h3, h4⟩
      obtain ⟨a', k', l'', h3, h4⟩ := this
      obtain ⟨rfl, rfl, rfl⟩ :=
        hinj _ _ _ _ _ _ (hti' _ _ _ h3) (hti _ _ _ (Or.inr hw)) h4
      exact ⟨_, _, _, Or.inl ⟨hw, h3⟩⟩
    · obtain ⟨a', k', l'', h3, h4⟩ := hTi.rdIn e he l h1
      obtain ⟨a, k, l', hw, rfl⟩ := hTi'.wrIn f hf l h2
      obtain ⟨rfl, rfl, rfl⟩ :=
        hinj _ _ _ _ _ _ (hti _ _ _ h3) (hti' _ _ _ (Or.inr hw)) h4
      rcases h3 with h3 | h3
      · exact ⟨_, _, _, Or.inr ⟨h3, hw⟩⟩
      · exact ⟨_, _, _, Or.inl ⟨h3, Or.inr hw⟩⟩
  have := hc i j t t' hij ht ht' hconf
  exact Relation.TransGen.mono hedge _ _ this

/-- **Main execution theorem**: every legal execution of any realisation of a
covered tile program computes the sequential tile semantics at every valid element
and changes no location other than those of written elements. -/
theorem run_correct {valid : Foot M} (hinj : InjOn loc valid) {P : List (TTask M α)}
    {Ts : List (Task K X α)} (hl : ∀ t ∈ P, t.Local) (hin : ∀ t ∈ P, t.Inside valid)
    (hc : TCovered P) (hI : List.Forall₂ (TaskImpl loc key) P Ts)
    {sch : List Occ} (hs : Legal Ts sch) (mem : X → α) :
    (∀ a i j, valid a i j →
      runSched Ts sch mem (loc a i j) = texec P (view loc mem) a i j) ∧
    (∀ x, (∀ t ∈ P, ∀ a i j, t.wr a i j → loc a i j ≠ x) →
      runSched Ts sch mem x = mem x) := by
  have hseq := seqExec_view hinj P Ts hl hin hI mem
  have himpl : ∀ T ∈ Ts, ∃ t, TaskImpl loc key t T := by
    intro T hT
    obtain ⟨i, hi, hT'⟩ := List.getElem_of_mem hT
    obtain ⟨t, _, ht⟩ := forall₂_getElem? hI i T (by rw [List.getElem?_eq_getElem hi, hT'])
    exact ⟨t, ht⟩
  have := schedule_independence Ts
    (fun T hT e he => by obtain ⟨t, ht⟩ := himpl T hT; exact ht.sound e he)
    (fun T hT => by obtain ⟨t, ht⟩ := himpl T hT; exact ht.ne)
    (covered_lift hinj hin hI hc) sch hs mem
  rw [this]
  exact hseq

/-- The realisation of a task as a single atomic event. -/
noncomputable def atomicImpl (loc : M → Nat → Nat → X) (key : M → K)
    (t : TTask M α) : Task K X α where
  phase := t.phase
  deps := t.deps.map fun d => (key d.1, d.2)
  evs := [{ rd := {x | ∃ a i j, (t.rd a i j ∨ t.wr a i j) ∧ loc a i j = x}
            wr := {x | ∃ a i j, t.wr a i j ∧ loc a i j = x}
            run := memRun loc t }]

/-- Realisations exist, so the theorems quantifying over them are not vacuous. -/
theorem atomicImpl_ok {valid : Foot M} (hinj : InjOn loc valid) {t : TTask M α}
    (hl : t.Local) (hin : t.Inside valid) : TaskImpl loc key t (atomicImpl loc key t) where
  phase := rfl
  deps := rfl
  ne := by simp [atomicImpl]
  sound := by
    intro e he
    simp only [atomicImpl, List.mem_singleton] at he
    subst he
    constructor
    · intro s l hl'
      apply memRun_frame
      intro a i j hw he
      exact hl' ⟨a, i, j, hw, he⟩
    · rintro s s' hs l ⟨a, i, j, hw, rfl⟩
      simp only [memRun_wr hinj hin _ hw]
      apply hl _ _ _ _ _ _ hw
      intro a i j h
      exact hs _ (Or.inl ⟨a, i, j, h, rfl⟩)
  rdIn := by
    intro e he
    simp only [atomicImpl, List.mem_singleton] at he
    subst he
    exact fun x hx => hx
  wrIn := by
    intro e he
    simp only [atomicImpl, List.mem_singleton] at he
    subst he
    exact fun x hx => hx
  eff := by intro mem; simp [atomicImpl]

/-- The sequential order is a legal execution. -/
theorem legal_seq (Ts : List (Task K X α)) : Legal Ts (occs Ts) where
  perm := List.Perm.refl _
  order := by
    have := occsFrom_pairwise Ts 0
    refine this.imp ?_
    rintro ⟨a1, a2⟩ ⟨b1, b2⟩ h
    constructor
    · rintro ⟨h1, h2⟩
      rcases h with h | ⟨_, h⟩ <;> simp at h h1 h2 <;> omega
    · rintro ⟨h1, _⟩
      rcases h with h | ⟨h, _⟩ <;> simp at h h1 <;> omega

end

end Verif.Tile

/-
Executions of drivers whose kernels may fail: tile tasks with guards and status codes.
-/
import Verif.Guard
import Verif.DriverK

namespace Verif.Tile

open Verif.Layout Verif.Sched

universe u v

variable {M : Type u} {α : Type v}

/-- A tile task with its guard and the status code of its kernel as a function of the
tile contents on entry (core_blas/core_zpotrf.c:66-82, control/async.c:17-25). -/
structure GTTask (M : Type u) (α : Type v) where
  task : TTask M α
  guard : Bool := true
  code : Store M α → Int := fun _ => 0

/-- Guarded tasks whose kernels do not fail. -/
def okT (P : List (TTask M α)) : List (GTTask M α) := P.map fun t => { task := t }

/-- The tasks of a guarded program. -/
def tasks (P : List (GTTask M α)) : List (TTask M α) := P.map GTTask.task

@[simp] theorem tasks_okT (P : List (TTask M α)) : tasks (okT P) = P := by
  unfold tasks okT
  rw [List.map_map]
  exact List.map_id P
@[simp] theorem tasks_append (P Q : List (GTTask M α)) : tasks (P ++ Q) = tasks P ++ tasks Q := by
  simp [tasks]
@[simp] theorem tasks_cons (t : GTTask M α) (P : List (GTTask M α)) :
    tasks (t :: P) = t.task :: tasks P := rfl
@[simp] theorem tasks_nil : tasks ([] : List (GTTask M α)) = [] := rfl
@[simp] theorem okT_append (P Q : List (TTask M α)) : okT (P ++ Q) = okT P ++ okT Q := by
  simp [okT]
@[simp] theorem okT_length (P : List (TTask M α)) : (okT P).length = P.length := by simp [okT]
@[simp] theorem tasks_length (P : List (GTTask M α)) : (tasks P).length = P.length := by simp [tasks]
theorem tasks_flatMap {ι : Type*} (l : List ι) (f : ι → List (GTTask M α)) :
    tasks (l.flatMap f) = l.flatMap fun i => tasks (f i) := by
  simp [tasks, List.map_flatMap]

/-- Codes depend on the declared footprint only, and kernels that may fail are guarded. -/
structure CodeOK (P : List (GTTask M α)) : Prop where
  loc : ∀ t ∈ P, ∀ s s' : Store M α, (∀ a i j, t.task.rd a i j ∨ t.task.wr a i j → s a i j = s' a i j) →
    t.code s = t.code s'
  unguarded : ∀ t ∈ P, t.guard = false → ∀ s, t.code s = 0

theorem CodeOK.nil : CodeOK ([] : List (GTTask M α)) := ⟨by simp, by simp⟩
theorem CodeOK.ok (P : List (TTask M α)) : CodeOK (okT P) := by
  constructor
  · intro t ht; obtain ⟨_, _, rfl⟩ := List.mem_map.mp ht; intros; rfl
  · intro t ht; obtain ⟨_, _, rfl⟩ := List.mem_map.mp ht; intros; rfl
theorem CodeOK.append {P Q : List (GTTask M α)} (hP : CodeOK P) (hQ : CodeOK Q) : CodeOK (P ++ Q) := by
  constructor
  · intro t ht
    rcases List.mem_append.mp ht with h | h
    · exact hP.loc t h
    · exact hQ.loc t h
  · intro t ht
    rcases List.mem_append.mp ht with h | h
    · exact hP.unguarded t h
    · exact hQ.unguarded t h
theorem CodeOK.cons {t : GTTask M α} {P : List (GTTask M α)} (ht : CodeOK [t]) (hP : CodeOK P) :
    CodeOK (t :: P) := CodeOK.append ht hP
theorem CodeOK.flatMap {ι : Type*} {l : List ι} {f : ι → List (GTTask M α)}
    (h : ∀ i ∈ l, CodeOK (f i)) : CodeOK (l.flatMap f) := by
  constructor
  · intro t ht
    obtain ⟨i, hi, ht⟩ := List.mem_flatMap.mp ht
    exact (h i hi).loc t ht
  · intro t ht
    obtain ⟨i, hi, ht⟩ := List.mem_flatMap.mp ht
    exact (h i hi).unguarded t ht

/-- Status code of task `i` when the tasks before it are executed in order from `s`. -/
noncomputable def tcode (P : List (GTTask M α)) (s : Store M α) (i : Nat) : Int :=
  match P[i]? with
  | some t => t.code (texec ((tasks P).take i) s)
  | none => 0

theorem tcode_append_left (P Q : List (GTTask M α)) (s : Store M α) {i : Nat} (hi : i < P.length) :
    tcode (P ++ Q) s i = tcode P s i := by
  unfold tcode
  rw [List.getElem?_append_left hi, tasks_append, List.take_append_of_le_length (by simpa using hi.le)]

theorem tcode_append_right (P Q : List (GTTask M α)) (s : Store M α) (i : Nat) :
    tcode (P ++ Q) s (P.length + i) = tcode Q (texec (tasks P) s) i := by
  unfold tcode
  rw [List.getElem?_append_right (by omega), Nat.add_sub_cancel_left]
  cases Q[i]? with
  | none => rfl
  | some t =>
    dsimp only
    rw [tasks_append, List.take_append, List.take_of_length_le (by simp), texec_append]
    simp

theorem tcode_ok (P : List (TTask M α)) (s : Store M α) (i : Nat) : tcode (okT P) s i = 0 := by
  unfold tcode okT
  rw [List.getElem?_map]
  cases P[i]? <;> rfl

theorem tcode_cons_zero (t : GTTask M α) (P : List (GTTask M α)) (s : Store M α) :
    tcode (t :: P) s 0 = t.code s := rfl

theorem tcode_cons_succ (t : GTTask M α) (P : List (GTTask M α)) (s : Store M α) (i : Nat) :
    tcode (t :: P) s (i + 1) = tcode P (t.task.run s) i := by
  unfold tcode; simp

theorem tcode_len (P : List (GTTask M α)) (s : Store M α) {i : Nat} (hi : P.length ≤ i) :
    tcode P s i = 0 := by
  unfold tcode; rw [List.getElem?_eq_none_iff.mpr hi]

/-- A realisation of a guarded tile task in memory. -/
structure GImpl {X K : Type*} (loc : M → Nat → Nat → X) (key : M → K)
    (t : GTTask M α) (T : GTask K X α) : Prop where
  impl : TaskImpl loc key t.task T.toTask
  guard : T.guard = t.guard
  code : T.code = fun m => t.code (view loc m)

/-- `GExec env P mem mem' st`: the guarded tasks `P`, started with status zero in memory
`mem`, may end in memory `mem'` with `sequence->status` equal to `st`. -/
def GExec (env : M → MatEnv) (P : List (GTTask (M × Nat × Nat) α)) (mem mem' : M × Nat → α)
    (st : Int) : Prop :=
  ∃ Ts s, List.Forall₂ (GImpl (eloc env) (ekey env)) P Ts ∧ GReach Ts (GState.init mem 0) s ∧
    s.Final Ts ∧ mem' = s.mem ∧ st = s.status

theorem forall₂_plain {X K : Type*} {loc : M → Nat → Nat → X} {key : M → K}
    {P : List (GTTask M α)} {Ts : List (GTask K X α)} (h : List.Forall₂ (GImpl loc key) P Ts) :
    List.Forall₂ (TaskImpl loc key) (tasks P) (plain Ts) := by
  unfold tasks plain
  rw [List.forall₂_map_left_iff, List.forall₂_map_right_iff]
  exact h.imp fun _ _ h => h.impl

/-- Dependences of the tile program are dependences of its realisation. -/
theorem edge_lift {X K : Type*} {loc : M → Nat → Nat → X} {key : M → K}
    {P : List (TTask M α)} {Ts : List (Task K X α)} (hI : List.Forall₂ (TaskImpl loc key) P Ts)
    (i j : Nat) (h : TEdge P i j) : Edge Ts i j := by
  obtain ⟨hij, t, t', hi, hj, hd⟩ := h
  obtain ⟨T, hT, hTi⟩ := forall₂_getElem?' hI i t hi
  obtain ⟨T', hT', hTi'⟩ := forall₂_getElem?' hI j t' hj
  refine ⟨hij, T, T', hT, hT', ?_⟩
  rcases hd with hd | ⟨d, hd, d', hd', h1, h2⟩
  · left; rw [hTi.phase, hTi'.phase]; exact hd
  · right
    refine ⟨(key d.1, d.2), ?_, (key d'.1, d'.2), ?_, ?_, h2⟩
    · rw [hTi.deps]; exact List.mem_map_of_mem hd
    · rw [hTi'.deps]; exact List.mem_map_of_mem hd'
    · simp [h1]

/-- As `Good`, with the conflicts ordered by the dependences in some way. -/
structure GoodC {M : Type u} {α : Type v} (valid : Foot M) (P : List (TTask M α)) : Prop where
  loc : ∀ t ∈ P, t.Local
  ins : ∀ t ∈ P, t.Inside valid
  cov : TCovered P

theorem Good.toC {M : Type u} {α : Type v} {valid : Foot M} {P : List (TTask M α)} (h : Good valid P) :
    GoodC valid P := ⟨h.loc, h.ins, tcovered_of_declared h.decl⟩

/-- Realisations of good guarded programs are well behaved. -/
theorem gwellC {env : M → MatEnv} {P : List (GTTask (M × Nat × Nat) α)} (hwf : ∀ a, (env a).WF)
    (hg : GoodC (evalid env) (tasks P)) (hc : CodeOK P) {Ts : List (GTask (M × Nat) (M × Nat) α)}
    (hI : List.Forall₂ (GImpl (eloc env) (ekey env)) P Ts) :
    ∃ fp, GWell Ts fp := by
  have hinj := env_inj hwf
  have hP := forall₂_plain hI
  have hdecl : ∀ i j t t', i < j → P[i]? = some t → P[j]? = some t' → TConflict t.task t'.task →
      Relation.TransGen (Edge (plain Ts)) i j := by
    intro i j t t' hij hi hj hconf
    have := hg.cov i j t.task t'.task hij (by simp [tasks, hi]) (by simp [tasks, hj])
      hconf
    exact Relation.TransGen.mono (edge_lift hP) _ _ this
  refine ⟨fun i => {x | ∃ t, P[i]? = some t ∧ ∃ a k l, (t.task.rd a k l ∨ t.task.wr a k l) ∧
    eloc env a k l = x}, ?_, ?_, ?_, ?_⟩
  · intro T hT e he
    obtain ⟨i, hi, rfl⟩ := List.getElem_of_mem hT
    obtain ⟨t, _, ht⟩ := forall₂_getElem? hI i _ (List.getElem?_eq_getElem hi)
    exact ht.impl.sound e he
  · exact covered_lift hinj hg.ins hP (hg.cov)
  · constructor
    · intro i j T T' hij hi hj ⟨e, he, x, hxw, t, ht, a, k, l, hrw, hx⟩
      obtain ⟨t', ht', hTi'⟩ := forall₂_getElem? hI j T' hj
      obtain ⟨a', k', l', hw', hx'⟩ := hTi'.impl.wrIn e he x hxw
      refine hdecl j i t' t hij ht' ht ?_
      have h1 := hg.ins t.task (List.mem_map.mpr ⟨t, List.mem_of_getElem? ht, rfl⟩) _ _ _ hrw
      have h2 := hg.ins t'.task (List.mem_map.mpr ⟨t', List.mem_of_getElem? ht', rfl⟩) _ _ _ (Or.inr hw')
      obtain ⟨rfl, rfl, rfl⟩ := hinj _ _ _ _ _ _ h1 h2 (hx.trans hx'.symm)
      exact ⟨_, _, _, Or.inl ⟨hw', hrw⟩⟩
    · intro i j T T' hij hi hj ⟨e, he, x, hxw, t, ht, a, k, l, hrw, hx⟩
      obtain ⟨t', ht', hTi'⟩ := forall₂_getElem? hI j T' hj
      obtain ⟨a', k', l', hw', hx'⟩ := hTi'.impl.wrIn e he x hxw
      refine hdecl i j t t' hij ht ht' ?_
      have h1 := hg.ins t.task (List.mem_map.mpr ⟨t, List.mem_of_getElem? ht, rfl⟩) _ _ _ hrw
      have h2 := hg.ins t'.task (List.mem_map.mpr ⟨t', List.mem_of_getElem? ht', rfl⟩) _ _ _ (Or.inr hw')
      obtain ⟨rfl, rfl, rfl⟩ := hinj _ _ _ _ _ _ h1 h2 (hx.trans hx'.symm)
      rcases hrw with hrw | hrw
      · exact ⟨_, _, _, Or.inr ⟨hrw, hw'⟩⟩
      · exact ⟨_, _, _, Or.inl ⟨hrw, Or.inr hw'⟩⟩
    · intro i T hi m m' hm
      obtain ⟨t, ht, hTi⟩ := forall₂_getElem? hI i T hi
      rw [hTi.code]
      apply hc.loc t (List.mem_of_getElem? ht)
      intro a k l h
      exact hm _ ⟨t, ht, a, k, l, h, rfl⟩
  · intro T hT hgd m
    obtain ⟨i, hi, rfl⟩ := List.getElem_of_mem hT
    obtain ⟨t, ht, hTi⟩ := forall₂_getElem? hI i _ (List.getElem?_eq_getElem hi)
    rw [hTi.code]
    exact hc.unguarded t (List.mem_of_getElem? ht) (by rw [← hTi.guard]; exact hgd) _

theorem forall₂_take {β γ : Type*} {R : β → γ → Prop} {l : List β} {l' : List γ}
    (h : List.Forall₂ R l l') : ∀ n, List.Forall₂ R (l.take n) (l'.take n) := by
  induction h with
  | nil => intro n; simp
  | cons h1 h2 ih =>
    intro n
    cases n with
    | zero => simp
    | succ n => simp only [List.take_succ_cons]; exact .cons h1 (ih n)

/-- Codes in memory are codes of the tile program. -/
theorem seqCode_eqC {env : M → MatEnv} {P : List (GTTask (M × Nat × Nat) α)} (hwf : ∀ a, (env a).WF)
    (hg : GoodC (evalid env) (tasks P)) (hc : CodeOK P) {Ts : List (GTask (M × Nat) (M × Nat) α)}
    (hI : List.Forall₂ (GImpl (eloc env) (ekey env)) P Ts) (mem : M × Nat → α) (i : Nat) :
    seqCode Ts mem i = tcode P (view (eloc env) mem) i := by
  unfold seqCode tcode
  cases hi : Ts[i]? with
  | none =>
    have : P[i]? = none := by
      rw [List.getElem?_eq_none_iff] at hi ⊢
      rw [hI.length_eq]; exact hi
    rw [this]
  | some T =>
    obtain ⟨t, ht, hTi⟩ := forall₂_getElem? hI i T hi
    rw [ht]
    dsimp only
    rw [hTi.code]
    apply hc.loc t (List.mem_of_getElem? ht)
    intro a k l h
    have hv := hg.ins t.task (List.mem_map.mpr ⟨t, List.mem_of_getElem? ht, rfl⟩) _ _ _ h
    have := seqExec_view (env_inj hwf) ((tasks P).take i) ((plain Ts).take i)
      (fun t ht => hg.loc t (List.mem_of_mem_take ht)) (fun t ht => hg.ins t (List.mem_of_mem_take ht))
      (forall₂_take (forall₂_plain hI) i) mem
    exact this.1 a k l hv

/-- **Success** of a guarded program: it is an execution of all its tasks, and no kernel
of the sequential program fails. -/
theorem GExec.successC {env : M → MatEnv} {P : List (GTTask (M × Nat × Nat) α)}
    {mem mem' : M × Nat → α} (hwf : ∀ a, (env a).WF) (hg : GoodC (evalid env) (tasks P))
    (hc : CodeOK P) (h : GExec env P mem mem' 0) :
    Exec env (tasks P) mem mem' ∧ ∀ i, tcode P (view (eloc env) mem) i = 0 := by
  obtain ⟨Ts, s, hI, hr, hf, rfl, h0⟩ := h
  obtain ⟨fp, hw⟩ := gwellC hwf hg hc hI
  obtain ⟨⟨sch, h1, h2⟩, h3⟩ := guarded_success hw hr hf h0.symm
  refine ⟨⟨plain Ts, sch, forall₂_plain hI, h1, h2⟩, ?_⟩
  intro i
  rw [← seqCode_eqC hwf hg hc hI]; exact h3 i

/-- **Failure** of a guarded program: the status is the code of a task of the sequential
program, and no task it depends on fails there. -/
theorem GExec.failureC {env : M → MatEnv} {P : List (GTTask (M × Nat × Nat) α)}
    {mem mem' : M × Nat → α} {st : Int} (hwf : ∀ a, (env a).WF) (hg : GoodC (evalid env) (tasks P))
    (hc : CodeOK P) (h : GExec env P mem mem' st) (h0 : st ≠ 0) :
    ∃ i, i < P.length ∧ tcode P (view (eloc env) mem) i = st ∧
      ∀ b, Relation.TransGen (TEdge (tasks P)) b i → tcode P (view (eloc env) mem) b = 0 := by
  obtain ⟨Ts, s, hI, hr, hf, rfl, rfl⟩ := h
  obtain ⟨fp, hw⟩ := gwellC hwf hg hc hI
  obtain ⟨i, hi, h1, h2⟩ := guarded_failure hw hr h0
  refine ⟨i, by rw [hI.length_eq]; exact hi, by rw [← seqCode_eqC hwf hg hc hI]; exact h1, ?_⟩
  intro b hb
  rw [← seqCode_eqC hwf hg hc hI]
  exact h2 b (Relation.TransGen.mono (edge_lift (forall₂_plain hI)) _ _ hb)

theorem GExec.success {env : M → MatEnv} {P : List (GTTask (M × Nat × Nat) α)}
    {mem mem' : M × Nat → α} (hwf : ∀ a, (env a).WF) (hg : Good (evalid env) (tasks P))
    (hc : CodeOK P) (h : GExec env P mem mem' 0) :
    Exec env (tasks P) mem mem' ∧ ∀ i, tcode P (view (eloc env) mem) i = 0 :=
  h.successC hwf hg.toC hc

theorem GExec.failure {env : M → MatEnv} {P : List (GTTask (M × Nat × Nat) α)}
    {mem mem' : M × Nat → α} {st : Int} (hwf : ∀ a, (env a).WF) (hg : Good (evalid env) (tasks P))
    (hc : CodeOK P) (h : GExec env P mem mem' st) (h0 : st ≠ 0) :
    ∃ i, i < P.length ∧ tcode P (view (eloc env) mem) i = st ∧
      ∀ b, Relation.TransGen (TEdge (tasks P)) b i → tcode P (view (eloc env) mem) b = 0 :=
  h.failureC hwf hg.toC hc h0

/-- Locations no task writes keep their value, whatever the outcome. -/
theorem GExec.frame {env : M → MatEnv} {P : List (GTTask (M × Nat × Nat) α)}
    {mem mem' : M × Nat → α} {st : Int} (h : GExec env P mem mem' st) (x : M × Nat)
    (hx : ∀ t ∈ tasks P, ∀ a i j, t.wr a i j → eloc env a i j ≠ x) : mem' x = mem x := by
  obtain ⟨Ts, s, hI, hr, hf, rfl, rfl⟩ := h
  have hT : ∀ T ∈ Ts, ∃ t ∈ P, GImpl (eloc env) (ekey env) t T := by
    intro T hT
    obtain ⟨i, hi, rfl⟩ := List.getElem_of_mem hT
    obtain ⟨t, ht, hTi⟩ := forall₂_getElem? hI i _ (List.getElem?_eq_getElem hi)
    exact ⟨t, List.mem_of_getElem? ht, hTi⟩
  refine GReach.frame hr ?_ x ?_
  · intro T h e he
    obtain ⟨t, _, ht⟩ := hT T h
    exact ht.impl.sound e he
  · intro T h e he hxw
    obtain ⟨t, htP, ht⟩ := hT T h
    obtain ⟨a, i, j, hw, hl⟩ := ht.impl.wrIn e he x hxw
    exact hx t.task (List.mem_map.mpr ⟨t, htP, rfl⟩) a i j hw hl

/-- Buffers no task writes keep their contents. -/
theorem GExec.frame_buf {env : M → MatEnv} {P : List (GTTask (M × Nat × Nat) α)}
    {mem mem' : M × Nat → α} {st : Int} (h : GExec env P mem mem' st) {a : M}
    (hw : Writes (fun t => t.1 ≠ a) (tasks P)) (x : Nat) : mem' (a, x) = mem (a, x) := by
  apply h.frame
  intro t ht a' i j hwr he
  exact hw t ht a' i j hwr (congrArg Prod.fst he)

/-- Locations of a LAPACK-layout buffer outside the matrix keep their contents. -/
theorem GExec.frame_pad {env : M → MatEnv} {P : List (GTTask (M × Nat × Nat) α)}
    {mem mem' : M × Nat → α} {st : Int} (hg : Good (evalid env) (tasks P)) (h : GExec env P mem mem' st)
    {a : M} {l b m n : Nat} (he : env a = ⟨.lapack l, b, b, m, n⟩) (x : Nat)
    (hx : ∀ i j, i < m → j < n → x ≠ i + j * l) :
    mem' (a, x) = mem (a, x) := by
  apply h.frame
  rintro t ht ⟨a', p, q⟩ i j hwr hel
  have hv := hg.ins t ht _ _ _ (Or.inr hwr)
  have h1 : a' = a := congrArg Prod.fst hel
  subst h1
  have h2 : (env a').off p q i j = x := congrArg Prod.snd hel
  simp only [evalid, he, tileOK_iff] at hv
  rw [he, MatEnv.off_lapack (l := l) rfl] at h2
  apply hx _ _ hv.1.2.1 hv.1.2.2.2
  rw [← h2]; ring

/-- Every good guarded program has an execution. -/
theorem GExec.exists {env : M → MatEnv} {P : List (GTTask (M × Nat × Nat) α)}
    (hwf : ∀ a, (env a).WF) (hg : Good (evalid env) (tasks P)) (mem : M × Nat → α) :
    ∃ mem' st, GExec env P mem mem' st := by
  let Ts : List (GTask (M × Nat) (M × Nat) α) := P.map fun t =>
    { toTask := atomicImpl (eloc env) (ekey env) t.task
      guard := t.guard
      code := fun m => t.code (view (eloc env) m) }
  obtain ⟨s, h1, h2⟩ := guarded_exists Ts mem 0
  refine ⟨s.mem, s.status, Ts, s, ?_, h1, h2, rfl, rfl⟩
  rw [List.forall₂_map_right_iff, List.forall₂_same]
  intro t ht
  have htm : t.task ∈ tasks P := List.mem_map.mpr ⟨t, ht, rfl⟩
  exact ⟨atomicImpl_ok (env_inj hwf) (hg.loc _ htm) (hg.ins _ htm), rfl, rfl⟩

/-! ### Chains of kernels that may fail -/

/-- Any two tasks of `P` that may fail are ordered by the dependence graph. -/
def FChain (P : List (GTTask M α)) : Prop :=
  ∀ i j t t', i < j → P[i]? = some t → P[j]? = some t' → (∃ s, t.code s ≠ 0) → (∃ s, t'.code s ≠ 0) →
    Relation.TransGen (TEdge (tasks P)) i j

/-- Every task of `P` that may fail is, or is followed along dependences by, a task that
writes tile `a`. -/
def FTip (P : List (GTTask M α)) (a : M) : Prop :=
  ∀ i t, P[i]? = some t → (∃ s, t.code s ≠ 0) →
    ∃ j t', P[j]? = some t' ∧ (a, true) ∈ t'.task.deps ∧
      Relation.ReflTransGen (TEdge (tasks P)) i j

theorem tedge_append_left {P : List (TTask M α)} (Q : List (TTask M α)) {i j : Nat} (h : TEdge P i j) :
    TEdge (P ++ Q) i j := by
  obtain ⟨hij, t, t', hi, hj, hd⟩ := h
  refine ⟨hij, t, t', ?_, ?_, hd⟩
  · rw [List.getElem?_append_left (by rw [List.getElem?_eq_some_iff] at hi; exact hi.1)]; exact hi
  · rw [List.getElem?_append_left (by rw [List.getElem?_eq_some_iff] at hj; exact hj.1)]; exact hj

theorem tedge_append_right (P : List (TTask M α)) {Q : List (TTask M α)} {i j : Nat} (h : TEdge Q i j) :
    TEdge (P ++ Q) (P.length + i) (P.length + j) := by
  obtain ⟨hij, t, t', hi, hj, hd⟩ := h
  refine ⟨by omega, t, t', ?_, ?_, hd⟩
  · rw [List.getElem?_append_right (by omega), Nat.add_sub_cancel_left]; exact hi
  · rw [List.getElem?_append_right (by omega), Nat.add_sub_cancel_left]; exact hj

theorem ttrans_append_left {P : List (TTask M α)} (Q : List (TTask M α)) {i j : Nat}
    (h : Relation.TransGen (TEdge P) i j) : Relation.TransGen (TEdge (P ++ Q)) i j :=
  Relation.TransGen.mono (fun _ _ h => tedge_append_left Q h) _ _ h

theorem ttrans_append_right (P : List (TTask M α)) {Q : List (TTask M α)} {i j : Nat}
    (h : Relation.TransGen (TEdge Q) i j) :
    Relation.TransGen (TEdge (P ++ Q)) (P.length + i) (P.length + j) :=
  Relation.TransGen.lift (fun i => P.length + i) (fun _ _ h => tedge_append_right P h) _ _ h

/-- No task of `P` fails. -/
def Safe (P : List (GTTask M α)) : Prop := ∀ t ∈ P, ∀ s, t.code s = 0

theorem safe_ok (P : List (TTask M α)) : Safe (okT P) := by
  intro t ht s; obtain ⟨_, _, rfl⟩ := List.mem_map.mp ht; rfl

theorem FTip.nil (a : M) : FTip ([] : List (GTTask M α)) a := by intro i t h; simp at h

theorem FTip.append {P Q : List (GTTask M α)} {a : M} (h : FTip P a) (hQ : Safe Q) : FTip (P ++ Q) a := by
  intro i t hi hs
  rcases Nat.lt_or_ge i P.length with hlt | hge
  · rw [List.getElem?_append_left hlt] at hi
    obtain ⟨j, t', hj, hd, hr⟩ := h i t hi hs
    refine ⟨j, t', ?_, hd, ?_⟩
    · rw [List.getElem?_append_left (by rw [List.getElem?_eq_some_iff] at hj; exact hj.1)]; exact hj
    · rw [tasks_append]
      exact Relation.ReflTransGen.mono (fun _ _ h => tedge_append_left _ h) _ _ hr
  · rw [List.getElem?_append_right hge] at hi
    obtain ⟨s, hs⟩ := hs
    exact absurd (hQ t (List.mem_of_getElem? hi) s) hs

/-- A task that depends on tile `a` comes after every task that may fail. -/
theorem FTip.last {P : List (GTTask M α)} {a : M} (h : FTip P a) {t : GTTask M α} {m : Bool}
    (ht : (a, m) ∈ t.task.deps) {i : Nat} {t' : GTTask M α} (hi : P[i]? = some t')
    (hs : ∃ s, t'.code s ≠ 0) : Relation.TransGen (TEdge (tasks (P ++ [t]))) i P.length := by
  obtain ⟨j, t'', hj, hd, hr⟩ := h i t' hi hs
  have hj' : j < P.length := by rw [List.getElem?_eq_some_iff] at hj; exact hj.1
  have h1 : Relation.ReflTransGen (TEdge (tasks (P ++ [t]))) i j := by
    rw [tasks_append]
    exact Relation.ReflTransGen.mono (fun _ _ h => tedge_append_left _ h) _ _ hr
  refine Relation.TransGen.tail' h1 ⟨hj', t''.task, t.task, ?_, ?_, ?_⟩
  · rw [tasks_append, List.getElem?_append_left (by simpa using hj')]; simp [tasks, hj]
  · simp [tasks]
  · exact Or.inr ⟨_, hd, _, ht, rfl, Or.inl rfl⟩

/-- The tip moves from tile `a` to tile `a'` over a task that depends on `a` and writes
`a'`. -/
theorem FTip.move {P : List (GTTask M α)} {a a' : M} (h : FTip P a) {t : GTTask M α} {m : Bool}
    (ht : (a, m) ∈ t.task.deps) (ht' : (a', true) ∈ t.task.deps) : FTip (P ++ [t]) a' := by
  intro i t' hi hs
  have hlast : (P ++ [t])[P.length]? = some t := by simp
  rcases Nat.lt_or_ge i P.length with hlt | hge
  · rw [List.getElem?_append_left hlt] at hi
    exact ⟨P.length, t, hlast, ht', (h.last ht hi hs).to_reflTransGen⟩
  · have : i = P.length := by
      rw [List.getElem?_eq_some_iff] at hi
      obtain ⟨hi, _⟩ := hi
      simp at hi; omega
    subst this
    exact ⟨P.length, t, hlast, ht', .refl⟩

theorem FChain.nil : FChain ([] : List (GTTask M α)) := by intro i j t t' _ h; simp at h

theorem FChain.append {P Q : List (GTTask M α)} (h : FChain P) (hQ : Safe Q) : FChain (P ++ Q) := by
  intro i j t t' hij hi hj hs hs'
  have hj' : j < P.length := by
    by_contra hc
    rw [List.getElem?_append_right (by omega)] at hj
    obtain ⟨s, hs'⟩ := hs'
    exact hs' (hQ t' (List.mem_of_getElem? hj) s)
  rw [List.getElem?_append_left hj'] at hj
  rw [List.getElem?_append_left (by omega)] at hi
  rw [tasks_append]
  exact ttrans_append_left _ (h i j t t' hij hi hj hs hs')

theorem FChain.append_left {P Q : List (GTTask M α)} (h : FChain Q) (hP : Safe P) : FChain (P ++ Q) := by
  intro i j t t' hij hi hj hs hs'
  have hi' : P.length ≤ i := by
    by_contra hc
    rw [List.getElem?_append_left (by omega)] at hi
    obtain ⟨s, hs⟩ := hs
    exact hs (hP t (List.mem_of_getElem? hi) s)
  rw [List.getElem?_append_right hi'] at hi
  rw [List.getElem?_append_right (by omega)] at hj
  have := ttrans_append_right (tasks P) (h (i - P.length) (j - P.length) t t' (by omega) hi hj hs hs')
  rw [tasks_append]
  simp only [tasks_length] at this
  rwa [Nat.add_sub_of_le hi', Nat.add_sub_of_le (by omega)] at this

theorem FChain.snoc {P : List (GTTask M α)} {a : M} (h : FChain P) (hT : FTip P a) {t : GTTask M α}
    {m : Bool} (ht : (a, m) ∈ t.task.deps) : FChain (P ++ [t]) := by
  intro i j t' t'' hij hi hj hs hs'
  have hjl : j ≤ P.length := by
    rw [List.getElem?_eq_some_iff] at hj
    obtain ⟨hj, _⟩ := hj
    simp at hj; omega
  rcases Nat.lt_or_ge j P.length with hlt | hge
  · rw [List.getElem?_append_left hlt] at hj
    rw [List.getElem?_append_left (by omega)] at hi
    rw [tasks_append]
    exact ttrans_append_left _ (h i j t' t'' hij hi hj hs hs')
  · have : j = P.length := by omega
    subst this
    rw [List.getElem?_append_left (by omega)] at hi
    exact hT.last ht hi hs

/-- With a chain of tasks that may fail, a failed program reports the first failure of the
sequential program. -/
theorem GExec.firstC {env : M → MatEnv} {P : List (GTTask (M × Nat × Nat) α)}
    {mem mem' : M × Nat → α} {st : Int} (hwf : ∀ a, (env a).WF) (hg : GoodC (evalid env) (tasks P))
    (hc : CodeOK P) (hch : FChain P) (h : GExec env P mem mem' st) (h0 : st ≠ 0) :
    ∃ i, i < P.length ∧ tcode P (view (eloc env) mem) i = st ∧
      ∀ b < i, tcode P (view (eloc env) mem) b = 0 := by
  obtain ⟨i, hi, h1, h2⟩ := h.failureC hwf hg hc h0
  refine ⟨i, hi, h1, ?_⟩
  intro b hb
  by_contra hne
  apply hne
  apply h2
  have hgi : P[i]? = some P[i] := List.getElem?_eq_getElem hi
  have hgb : P[b]? = some P[b] := List.getElem?_eq_getElem (by omega)
  refine hch b i _ _ hb hgb hgi ⟨texec ((tasks P).take b) (view (eloc env) mem), ?_⟩
    ⟨texec ((tasks P).take i) (view (eloc env) mem), ?_⟩
  · simpa [tcode, hgb] using hne
  · intro hz
    apply h0
    rw [← h1]
    simpa [tcode, hgi] using hz

theorem GExec.first {env : M → MatEnv} {P : List (GTTask (M × Nat × Nat) α)}
    {mem mem' : M × Nat → α} {st : Int} (hwf : ∀ a, (env a).WF) (hg : Good (evalid env) (tasks P))
    (hc : CodeOK P) (hch : FChain P) (h : GExec env P mem mem' st) (h0 : st ≠ 0) :
    ∃ i, i < P.length ∧ tcode P (view (eloc env) mem) i = st ∧
      ∀ b < i, tcode P (view (eloc env) mem) b = 0 :=
  h.firstC hwf hg.toC hc hch h0

/-! ### Drivers -/

/-- Tasks of a driver whose tile algorithm may fail, in one parallel region
(compute/zpotrf.c:130-141). -/
def gdriverK (nb : Nat) (dims : Nat → Nat × Nat) (st : Nat → Stor) (ins : List Nat)
    (P : List (GTTask (Buf × Nat × Nat) α)) (outs : List Nat) : List (GTTask (Buf × Nat × Nat) α) :=
  okT (ins.flatMap fun k => copyK (st k) (tMat nb dims k) (uMat nb dims k) (tMat nb dims k)) ++ P ++
  okT (outs.flatMap fun k => copyK (st k) (tMat nb dims k) (tMat nb dims k) (uMat nb dims k))

variable {nb : Nat} {dims : Nat → Nat × Nat} {ld : Nat → Nat} {st : Nat → Stor}

theorem tasks_gdriverK (ins outs : List Nat) (P : List (GTTask (Buf × Nat × Nat) α)) :
    tasks (gdriverK nb dims st ins P outs) = driverK nb dims st ins (tasks P) outs := by
  simp [gdriverK, driverK]

/-- Only output arrays change, and only inside the matrix, whatever the outcome. -/
theorem gdriverK_frame (hnb : 0 < nb)
    (hsq : ∀ k, stSq (st k) (dims k).1 (dims k).2) {ins outs : List Nat}
    {P : List (GTTask (Buf × Nat × Nat) α)}
    (hP : Good (evalid (drvEnvK nb dims ld st)) (tasks P)) (hPt : OnTiles (tasks P))
    {mem mem' : Buf × Nat → α} {stat : Int}
    (h : GExec (drvEnvK nb dims ld st) (gdriverK nb dims st ins P outs) mem mem' stat) :
    (∀ k, k ∉ outs → ∀ x, mem' (.usr k, x) = mem (.usr k, x)) ∧
    (∀ k x, (∀ i j, i < (dims k).1 → j < (dims k).2 → x ≠ i + j * ld k) →
      mem' (.usr k, x) = mem (.usr k, x)) := by
  have hg := driverK_good (ins := ins) (outs := outs) hnb hsq hP
  constructor
  · intro k hk x
    apply h.frame_buf
    rw [tasks_gdriverK]
    refine Writes.append (Writes.append ?_ ?_) ?_
    · refine Writes.flatMap fun k' _ => Writes.mono (copyK_writes (stSq_tiles hnb (hsq k'))) ?_
      rintro t ⟨m, n, rfl, -⟩
      simp [tMat, TMat.full, TMat.at']
    · refine Writes.mono hPt ?_
      rintro t ⟨k', hk'⟩; rw [hk']; simp
    · refine Writes.flatMap fun k' hk' => Writes.mono (copyK_writes (stSq_tiles hnb (hsq k'))) ?_
      rintro t ⟨m, n, rfl, -⟩
      simp only [uMat, TMat.full, TMat.at', ne_eq, Buf.usr.injEq]
      rintro rfl; exact hk hk'
  · intro k x hx
    exact GExec.frame_pad (by rw [tasks_gdriverK]; exact hg) h rfl x hx

theorem gdriverK_ins (hnb : 0 < nb)
    (hsq : ∀ k, stSq (st k) (dims k).1 (dims k).2) {ins : List Nat}
    (hins : ins.Nodup) (mem : Buf × Nat → α) :
    ∀ k ∈ ins, ∀ r c, r < (dims k).1 → c < (dims k).2 → stOK (st k) (r / nb) (c / nb) →
      (tMat nb dims k).el (texec (ins.flatMap fun k => copyK (st k) (tMat nb dims k) (uMat nb dims k) (tMat nb dims k))
        (view (eloc (drvEnvK nb dims ld st)) mem)) r c = mem (.usr k, r + c * ld k) := by
  intro k hk r c hr hc hst
  rw [copyK_ins_el hnb hsq hins _ hk hr hc hst]
  exact el_view_lapack (env := drvEnvK nb dims ld st) (id := .usr k) hnb rfl mem r c

/-- **Driver theorem**, success: as `driverK_correct`, and no kernel of the sequential tile
algorithm fails. -/
theorem gdriverK_success (hnb : 0 < nb) (hld : ∀ k, (dims k).1 ≤ ld k)
    (hsq : ∀ k, stSq (st k) (dims k).1 (dims k).2) {ins outs : List Nat}
    (hins : ins.Nodup) (houts : outs.Nodup) {P : List (GTTask (Buf × Nat × Nat) α)}
    (hP : Good (evalid (drvEnvK nb dims ld st)) (tasks P)) (hPt : OnTiles (tasks P)) (hC : CodeOK P)
    {mem mem' : Buf × Nat → α}
    (h : GExec (drvEnvK nb dims ld st) (gdriverK nb dims st ins P outs) mem mem' 0) :
    ∃ s : Store (Buf × Nat × Nat) α,
      (∀ k ∈ ins, ∀ r c, r < (dims k).1 → c < (dims k).2 → stOK (st k) (r / nb) (c / nb) →
        (tMat nb dims k).el s r c = mem (.usr k, r + c * ld k)) ∧
      (∀ i, tcode P s i = 0) ∧
      (∀ k ∈ outs, ∀ r c, r < (dims k).1 → c < (dims k).2 →
        mem' (.usr k, r + c * ld k) =
          if stOK (st k) (r / nb) (c / nb) then (tMat nb dims k).el (texec (tasks P) s) r c
          else mem (.usr k, r + c * ld k)) := by
  have hwf := drvEnvK_wf (nb := nb) hnb hld hsq
  have hg := driverK_good (ins := ins) (outs := outs) hnb hsq hP
  have hcode : CodeOK (gdriverK nb dims st ins P outs) := ((CodeOK.ok _).append hC).append (CodeOK.ok _)
  obtain ⟨hx, hz⟩ := h.success hwf (by rw [tasks_gdriverK]; exact hg) hcode
  rw [tasks_gdriverK] at hx
  refine ⟨_, gdriverK_ins hnb hsq hins mem, ?_, ?_⟩
  · intro i
    by_cases hi : i < P.length
    · have h1 := hz ((okT (ins.flatMap fun k => copyK (α := α) (st k) (tMat nb dims k) (uMat nb dims k) (tMat nb dims k))).length + i)
      unfold gdriverK at h1
      rw [List.append_assoc, tcode_append_right, tcode_append_left _ _ _ hi, tasks_okT] at h1
      exact h1
    · exact tcode_len _ _ (by omega)
  · intro k hk r c hr hc
    have h1 := Exec.el hwf hg hx (fitsK_u hnb k) (r := r) (c := c) hr hc
    have h2 : ∀ mem : Buf × Nat → α, (uMat nb dims k).el (view (eloc (drvEnvK nb dims ld st)) mem) r c
        = mem (.usr k, r + c * ld k) :=
      fun mem => el_view_lapack (env := drvEnvK nb dims ld st) (id := .usr k) hnb rfl mem r c
    rw [← h2 mem, ← h2 mem', h1]
    simp only [driverK, texec_append]
    rw [copyK_outs_el hnb hsq houts _ hk hr hc]
    have hwin : Writes (fun t => ∃ k, t.1 = .til k) (ins.flatMap fun k =>
        copyK (α := α) (st k) (tMat nb dims k) (uMat nb dims k) (tMat nb dims k)) := by
      refine Writes.flatMap fun k' _ => Writes.mono (copyK_writes (stSq_tiles hnb (hsq k'))) ?_
      rintro t ⟨m, n, rfl, -⟩; exact ⟨k', rfl⟩
    split
    · rfl
    · have hf : ∀ P' : List (TTask (Buf × Nat × Nat) α), Writes (fun t => ∃ k, t.1 = .til k) P' →
          ∀ s, (uMat nb dims k).el (texec P' s) r c = (uMat nb dims k).el s r c := by
        intro P' hP' s
        simp only [TMat.el]
        rw [hP'.frame s]
        rintro ⟨k', hk'⟩
        simp [uMat, TMat.full, TMat.at'] at hk'
      rw [hf _ hPt, hf _ hwin]

/-- **Driver theorem**, failure: the status is the code of a kernel of the sequential tile
algorithm; no kernel it depends on fails, and with a chain of kernels that may fail it is
the first. -/
theorem gdriverK_failure (hnb : 0 < nb) (hld : ∀ k, (dims k).1 ≤ ld k)
    (hsq : ∀ k, stSq (st k) (dims k).1 (dims k).2) {ins outs : List Nat}
    (hins : ins.Nodup) {P : List (GTTask (Buf × Nat × Nat) α)}
    (hP : Good (evalid (drvEnvK nb dims ld st)) (tasks P)) (hC : CodeOK P)
    {mem mem' : Buf × Nat → α} {stat : Int}
    (h : GExec (drvEnvK nb dims ld st) (gdriverK nb dims st ins P outs) mem mem' stat)
    (h0 : stat ≠ 0) :
    ∃ s : Store (Buf × Nat × Nat) α,
      (∀ k ∈ ins, ∀ r c, r < (dims k).1 → c < (dims k).2 → stOK (st k) (r / nb) (c / nb) →
        (tMat nb dims k).el s r c = mem (.usr k, r + c * ld k)) ∧
      ∃ i, i < P.length ∧ tcode P s i = stat ∧ (FChain P → ∀ b < i, tcode P s b = 0) := by
  have hwf := drvEnvK_wf (nb := nb) hnb hld hsq
  have hg := driverK_good (ins := ins) (outs := outs) hnb hsq hP
  have hcode : CodeOK (gdriverK nb dims st ins P outs) := ((CodeOK.ok _).append hC).append (CodeOK.ok _)
  refine ⟨_, gdriverK_ins hnb hsq hins mem, ?_⟩
  obtain ⟨i, hi, h1, h2⟩ := h.failure hwf (by rw [tasks_gdriverK]; exact hg) hcode h0
  set I := okT (ins.flatMap fun k => copyK (α := α) (st k) (tMat nb dims k) (uMat nb dims k) (tMat nb dims k)) with hI
  set O := okT (outs.flatMap fun k => copyK (α := α) (st k) (tMat nb dims k) (tMat nb dims k) (uMat nb dims k)) with hO
  have hge : I.length ≤ i := by
    by_contra hlt
    rw [show gdriverK nb dims st ins P outs = I ++ (P ++ O) by simp [gdriverK, hI, hO],
      tcode_append_left _ _ _ (by omega), hI, tcode_ok] at h1
    exact h0 h1.symm
  obtain ⟨j, rfl⟩ := Nat.exists_eq_add_of_le hge
  have hcod : ∀ b, tcode (gdriverK nb dims st ins P outs) (view (eloc (drvEnvK nb dims ld st)) mem) (I.length + b)
      = tcode (P ++ O) (texec (tasks I) (view (eloc (drvEnvK nb dims ld st)) mem)) b := by
    intro b
    rw [show gdriverK nb dims st ins P outs = I ++ (P ++ O) by simp [gdriverK, hI, hO],
      tcode_append_right]
  rw [hcod] at h1
  have hjl : j < P.length := by
    by_contra hlt
    obtain ⟨k, rfl⟩ := Nat.exists_eq_add_of_le (Nat.le_of_not_lt hlt)
    rw [tcode_append_right, hO, tcode_ok] at h1
    exact h0 h1.symm
  have htI : tasks I = ins.flatMap fun k => copyK (α := α) (st k) (tMat nb dims k) (uMat nb dims k) (tMat nb dims k) := by
    rw [hI, tasks_okT]
  rw [htI, tcode_append_left _ _ _ hjl] at h1
  refine ⟨j, hjl, h1, ?_⟩
  intro hch b hb
  by_contra hne
  have hgj : P[j]? = some P[j] := List.getElem?_eq_getElem hjl
  have hgb : P[b]? = some P[b] := List.getElem?_eq_getElem (by omega)
  have hT := hch b j _ _ hb hgb hgj
    ⟨_, show P[b].code _ ≠ 0 from by simpa [tcode, hgb] using hne⟩
    ⟨_, show P[j].code _ ≠ 0 from by
      intro hz; apply h0; rw [← h1]; simpa [tcode, hgj] using hz⟩
  have hT' := ttrans_append_right (tasks I) (ttrans_append_left (tasks O) hT)
  have h3 := h2 (I.length + b) (by
    rw [show gdriverK nb dims st ins P outs = I ++ (P ++ O) by simp [gdriverK, hI, hO], tasks_append,
      tasks_append]
    simpa using hT')
  rw [hcod, htI, tcode_append_left _ _ _ (by omega)] at h3
  exact hne h3

theorem gdriverK_exists (hnb : 0 < nb) (hld : ∀ k, (dims k).1 ≤ ld k)
    (hsq : ∀ k, stSq (st k) (dims k).1 (dims k).2) {ins outs : List Nat}
    {P : List (GTTask (Buf × Nat × Nat) α)}
    (hP : Good (evalid (drvEnvK nb dims ld st)) (tasks P)) (mem : Buf × Nat → α) :
    ∃ mem' stat, GExec (drvEnvK nb dims ld st) (gdriverK nb dims st ins P outs) mem mem' stat :=
  GExec.exists (drvEnvK_wf hnb hld hsq) (by rw [tasks_gdriverK]; exact driverK_good hnb hsq hP) mem

end Verif.Tile

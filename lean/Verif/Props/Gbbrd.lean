/-
Properties of the bulge chasing, compute/pzgbbrd_static.c: C72.
-/
import Verif.BulgeExec

namespace Verif.Props

open Verif.Sched Verif.Tile Verif.Bulge

universe v

section
variable {𝕜 : Type v} [RCLike 𝕜]

/-- Realisations of the kernels by sequences of memory accesses. -/
def ChaseImpl (up : Bool) (n nb cores : Nat) (Ts : List (Task CM (CM × Nat) 𝕜)) : Prop :=
  List.Forall₂ (TaskImpl (chaseLoc up n nb) id) (chaseProg 𝕜 par up n nb (allcores n nb cores)) Ts

/-- States that the team of threads can reach in the parallel region (compute/pzgbbrd_static.c:101-178). -/
def ChaseReach (n nb cores : Nat) (Ts : List (Task CM (CM × Nat) 𝕜)) (σ : St) : Prop :=
  Reach n nb (allcores n nb cores) (cntOf n nb Ts) (coreid nb (allcores n nb cores)) σ

/-- The parallel region turns memory `mem` into `mem'`: some realisation, some interleaving of the threads. -/
def ChaseExec (up : Bool) (n nb cores : Nat) (mem mem' : CM × Nat → 𝕜) : Prop :=
  ∃ Ts σ, ChaseImpl up n nb cores Ts ∧ ChaseReach n nb cores Ts σ ∧ Done σ ∧ mem' = runSched Ts (traceOf n nb σ.hist) mem

variable {up : Bool} {n nb cores : Nat}

/-- Kernels can be realised, so the statements are not about nothing. -/
theorem chaseImpl_exists (hn : 2 ≤ n) (hnb : 0 < nb) : ∃ Ts : List (Task CM (CM × Nat) 𝕜), ChaseImpl up n nb cores Ts := by
  refine ⟨(chaseProg 𝕜 par up n nb (allcores n nb cores)).map (atomicImpl (chaseLoc up n nb) id), ?_⟩
  unfold ChaseImpl
  rw [List.forall₂_map_right_iff, List.forall₂_same]
  intro t ht
  obtain ⟨b, hb, rfl⟩ := List.mem_map.mp ht
  have hb := mem_blocks.mp hb
  refine atomicImpl_ok chase_inj ?_ ?_
  · intro s s' h x i j hx
    exact (kern_within hn hnb hb).1 s s' (fun x i j hx => h x i j (Or.inl hx)) x i j hx
  · intro x i j hx
    exact foot_valid hn hnb hb (hx.elim id id)

/-- **C72, no deadlock.** In every state that the threads can reach, either all threads are done or one of them can proceed;
an execution has at most `total` actions; and from every state the end can be reached. -/
theorem C72_progress (hn : 2 ≤ n) (hnb : 0 < nb) {Ts : List (Task CM (CM × Nat) 𝕜)} {σ : St} (hr : ChaseReach n nb cores Ts σ) :
    (Done σ ∨ ∃ σ', Step σ σ') ∧ σ.hist.length ≤ total n nb (allcores n nb cores) (cntOf n nb Ts) ∧
    (∀ σ', Step σ σ' → σ'.hist.length = σ.hist.length + 1) ∧ ∃ σ', Relation.ReflTransGen Step σ σ' ∧ Done σ' := by
  have hinv := reach_inv hn hnb hr
  refine ⟨?_, hinv.bound hn hnb, fun σ' h => step_length h, reach_done hn hnb hr⟩
  by_cases hd : Done σ
  · exact Or.inl hd
  · exact Or.inr (progress hn hnb hinv hd)

/-- **C72, one result.** Every complete execution, by any number of threads and with any interleaving, leaves what the blocks
compute one after the other, sweep by sweep, and changes nothing else. -/
theorem C72_result (hn : 2 ≤ n) (hnb : 0 < nb) {mem mem' : CM × Nat → 𝕜} (h : ChaseExec up n nb cores mem mem') :
    (∀ x i j, chaseValid up n nb x i j → mem' (chaseLoc up n nb x i j) =
      (blocks n nb).foldl (fun s b => kern par up n nb b s) (fun x i j => mem (chaseLoc up n nb x i j)) x i j) ∧
    ∀ l, (∀ x i j, chaseValid up n nb x i j → chaseLoc up n nb x i j ≠ l) → mem' l = mem l := by
  obtain ⟨Ts, σ, hI, hr, hd, rfl⟩ := h
  exact chase_exec hn hnb hI hr hd mem

/-- Executions exist. -/
theorem C72_exists (hn : 2 ≤ n) (hnb : 0 < nb) (mem : CM × Nat → 𝕜) : ∃ mem', ChaseExec up n nb cores mem mem' := by
  obtain ⟨Ts, hI⟩ := chaseImpl_exists (𝕜 := 𝕜) (up := up) (cores := cores) hn hnb
  obtain ⟨σ, h1, h2⟩ := reach_done hn hnb (Relation.ReflTransGen.refl : Reach n nb (allcores n nb cores) (cntOf n nb Ts)
    (coreid nb (allcores n nb cores)) (start n nb (allcores n nb cores) (cntOf n nb Ts) (coreid nb (allcores n nb cores))))
  exact ⟨_, Ts, σ, hI, h1, h2, rfl⟩

/-- Executions of any two teams agree. -/
theorem C72_threads {cores' : Nat} (hn : 2 ≤ n) (hnb : 0 < nb) {mem mem' mem'' : CM × Nat → 𝕜}
    (h : ChaseExec up n nb cores mem mem') (h' : ChaseExec up n nb cores' mem mem'') : mem' = mem'' := by
  obtain ⟨h1, h2⟩ := C72_result hn hnb h
  obtain ⟨h3, h4⟩ := C72_result hn hnb h'
  funext l
  by_cases hl : ∃ x i j, chaseValid up n nb x i j ∧ chaseLoc up n nb x i j = l
  · obtain ⟨x, i, j, hv, rfl⟩ := hl
    rw [h1 x i j hv, h3 x i j hv]
  · have : ∀ x i j, chaseValid up n nb x i j → chaseLoc up n nb x i j ≠ l := fun x i j hv e => hl ⟨x, i, j, hv, e⟩
    rw [h2 l this, h4 l this]

end

section
variable {up : Bool} {n nb cores : Nat}

/-- **C72, memory safety.** Every block is taken by one of the threads that exist; every entry of `ss_progress` that is read or
written is inside the allocation of `2*nbtiles+shift+cores+10` integers; every element that a kernel touches is inside the band
array of `(3*nb+1)*minmn` elements, resp. inside `VQ`, `VP`, `TAUQ`, `TAUP` of `2*minmn` elements. -/
theorem C72_safe (hn : 2 ≤ n) (hnb : 0 < nb) (hc : 0 < cores) {cnt : Blk → Nat} {b : Blk} (hb : b ∈ enum n nb) :
    coreid nb (allcores n nb cores) b < cores ∧
    (∀ x v, Kind.wait x v ∈ acts n nb (allcores n nb cores) cnt b → x < 2 * nbtiles n nb + 3 + cores + 10) ∧
    (∀ x v, Kind.set x v ∈ acts n nb (allcores n nb cores) cnt b → x < 2 * nbtiles n nb + 3 + cores + 10) ∧
    ∀ x i j, foot par up n nb b x i j → (chaseLoc up n nb x i j).2 < if x = .a then (3 * nb + 1) * n else 2 * n := by
  have hb := ((enum_spec hn hnb).1 b).mp hb
  refine ⟨coreid_lt hc, fun x v h => (table_bound hn hnb hb h).1 x v rfl, fun x v h => (table_bound hn hnb hb h).2 x v rfl,
    fun x i j h => chase_bound (foot_valid hn hnb hb h)⟩

/-- A kernel touches nothing else, and depends on nothing else. -/
theorem C72_foot {𝕜 : Type v} [RCLike 𝕜] (hn : 2 ≤ n) (hnb : 0 < nb) {b : Blk} (hb : b ∈ enum n nb) (s s' : Store CM 𝕜) :
    (∀ x i j, ¬ foot par up n nb b x i j → kern par up n nb b s x i j = s x i j) ∧
    ((∀ x i j, foot par up n nb b x i j → s x i j = s' x i j) →
      ∀ x i j, foot par up n nb b x i j → kern par up n nb b s x i j = kern par up n nb b s' x i j) := by
  have hb := ((enum_spec hn hnb).1 b).mp hb
  exact ⟨(kern_within hn hnb hb).2 s, (kern_within hn hnb hb).1 s s'⟩

/-- **C72, all the work is met exactly once.** -/
theorem C72_blocks (hn : 2 ≤ n) (hnb : 0 < nb) : (enum n nb).Nodup ∧ (enum n nb).Perm (blocks n nb) := by
  have h := (enum_spec hn hnb)
  have hd : (enum n nb).Nodup := h.2.imp fun h => h.2
  refine ⟨hd, ?_⟩
  exact (List.perm_ext_iff_of_nodup hd blocks_nodup).mpr fun b => (h.1 b).trans mem_blocks.symm

/-- There is nothing to do for one column. -/
theorem C72_one : enum 1 nb = [] := rfl

end

/-- A 7 by 7 upper band with `nb = 2` and three threads: the blocks of the first sweep, and executions exist. -/
example : (enum 7 2).filter (fun b => b.2 = 1) = [(1, 1), (2, 1), (3, 1), (4, 1), (5, 1)] ∧
    ∀ mem : CM × Nat → ℂ, ∃ mem', ChaseExec true 7 2 3 mem mem' :=
  ⟨by decide +kernel, fun mem => C72_exists (by omega) (by omega) mem⟩

end Verif.Props

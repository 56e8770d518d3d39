/-
The common shape of PLASMA drivers: allocate tile matrices, translate the user's
arrays to tile layout, run the tile algorithm, translate results back, in one
parallel region (e.g. compute/zgemm.c:187-246, compute/zpotrf.c:100-150).
-/
import Verif.Exec

namespace Verif.Tile

open Verif.Layout Verif.Sched

universe u v

variable {α : Type v}

/-- Memory of a driver call: user array `k` has `(dims k).1` rows, `(dims k).2` columns
and leading dimension `ld k`; the driver allocates one tile matrix of the same size
for it.  Assumption: distinct arrays do not overlap. -/
def drvEnv (nb : Nat) (dims : Nat → Nat × Nat) (ld : Nat → Nat) : Buf → MatEnv
  | .usr k => ⟨.lapack (ld k), nb, nb, (dims k).1, (dims k).2⟩
  | .til k => ⟨.tile, nb, nb, (dims k).1, (dims k).2⟩

/-- User array `k` cut into tiles. -/
def uMat (nb : Nat) (dims : Nat → Nat × Nat) (k : Nat) : TMat Buf :=
  .full (.usr k) nb (dims k).1 (dims k).2
/-- Tile matrix `k` as created by `plasma_desc_general_create`. -/
def tMat (nb : Nat) (dims : Nat → Nat × Nat) (k : Nat) : TMat Buf :=
  .full (.til k) nb (dims k).1 (dims k).2

/-- Tasks of a driver: `plasma_omp_zge2desc` for the arrays `ins`, the tile algorithm
`P`, `plasma_omp_zdesc2ge` for the arrays `outs`. -/
def driver (nb : Nat) (dims : Nat → Nat × Nat) (ins : List Nat) (P : List (TTask (Buf × Nat × Nat) α))
    (outs : List Nat) : List (TTask (Buf × Nat × Nat) α) :=
  (ins.flatMap fun k => pzge2desc (uMat nb dims k) (tMat nb dims k)) ++ P ++
  (outs.flatMap fun k => pzdesc2ge (tMat nb dims k) (uMat nb dims k))

variable {nb : Nat} {dims : Nat → Nat × Nat} {ld : Nat → Nat}

theorem drvEnv_wf (hnb : 0 < nb) (hld : ∀ k, (dims k).1 ≤ ld k) : ∀ a, (drvEnv nb dims ld a).WF := by
  intro a
  cases a with
  | usr k => exact ⟨hnb, hnb, by simp [drvEnv, hld k], by simp [drvEnv], by simp [drvEnv]⟩
  | til k => exact ⟨hnb, hnb, by simp [drvEnv], by simp [drvEnv], by simp [drvEnv]⟩

theorem fits_u (hnb : 0 < nb) (k : Nat) : Fits (drvEnv nb dims ld) nb (uMat nb dims k) :=
  fits_full hnb rfl (Or.inr ⟨_, rfl⟩)
theorem fits_t (hnb : 0 < nb) (k : Nat) : Fits (drvEnv nb dims ld) nb (tMat nb dims k) :=
  fits_full hnb rfl (Or.inl rfl)

theorem al_u (hnb : 0 < nb) (k : Nat) : (uMat nb dims k).Al nb := TMat.al_full _ hnb _ _
theorem al_t (hnb : 0 < nb) (k : Nat) : (tMat nb dims k).Al nb := TMat.al_full _ hnb _ _

theorem ge2desc_good (hnb : 0 < nb) (k : Nat) :
    Good (evalid (drvEnv nb dims ld)) (pzge2desc (α := α) (uMat nb dims k) (tMat nb dims k)) :=
  copyTasks_good (al_t hnb k) (fits_u hnb k) (fits_t hnb k) le_rfl le_rfl le_rfl le_rfl

theorem desc2ge_good (hnb : 0 < nb) (k : Nat) :
    Good (evalid (drvEnv nb dims ld)) (pzdesc2ge (α := α) (tMat nb dims k) (uMat nb dims k)) :=
  copyTasks_good (al_t hnb k) (fits_t hnb k) (fits_u hnb k) le_rfl le_rfl le_rfl le_rfl

theorem driver_good (hnb : 0 < nb) {ins outs : List Nat} {P : List (TTask (Buf × Nat × Nat) α)}
    (hP : Good (evalid (drvEnv nb dims ld)) P) :
    Good (evalid (drvEnv nb dims ld)) (driver nb dims ins P outs) :=
  ((Good.flatMap fun k _ => ge2desc_good hnb k).append hP).append
    (Good.flatMap fun k _ => desc2ge_good hnb k)

/-- The tile algorithm works on tile matrices only. -/
def OnTiles (P : List (TTask (Buf × Nat × Nat) α)) : Prop := Writes (fun t => ∃ k, t.1 = .til k) P

theorem copy_within {A U V : TMat Buf} {D : Buf × Nat × Nat → Prop}
    (hU : ∀ m n, D (U.at' m n)) (hV : ∀ m n, D (V.at' m n)) :
    Within D (copyTasks (α := α) A U V) := by
  constructor
  · intro t ht
    obtain ⟨m, _, ht⟩ := List.mem_flatMap.mp ht
    obtain ⟨n, _, rfl⟩ := List.mem_map.mp ht
    exact (lacpyRect_within (hU m n) (hV m n)).1 _ (List.mem_singleton.mpr rfl)
  · intro t ht
    obtain ⟨m, _, ht⟩ := List.mem_flatMap.mp ht
    obtain ⟨n, _, rfl⟩ := List.mem_map.mp ht
    exact (lacpyRect_within (hU m n) (hV m n)).2 _ (List.mem_singleton.mpr rfl)

theorem tMat_el_congr {s s' : Store (Buf × Nat × Nat) α} {k : Nat}
    (h : ∀ m n, s (.til k, m, n) = s' (.til k, m, n)) (r c : Nat) :
    (tMat nb dims k).el s r c = (tMat nb dims k).el s' r c := by
  simp only [TMat.el, TMat.at', tMat, TMat.full]; rw [h]

theorem copyIns_el (hnb : 0 < nb) {ins : List Nat} (hins : ins.Nodup) (s : Store (Buf × Nat × Nat) α)
    {k : Nat} (hk : k ∈ ins) {r c : Nat} (hr : r < (dims k).1) (hc : c < (dims k).2) :
    (tMat nb dims k).el
      (texec (ins.flatMap fun k => pzge2desc (uMat nb dims k) (tMat nb dims k)) s) r c =
    (uMat nb dims k).el s r c := by
  have := copyTasks_el (al_t (dims := dims) hnb k)
    (al_u (dims := dims) hnb k) (al_t (dims := dims) hnb k)
    (by simp [uMat, tMat, TMat.full]) s (r := r) (c := c) hr hc
  rw [← this]
  apply tMat_el_congr
  intro m n
  rw [texec_indep (D := fun k t => t.1 = .usr k ∨ t.1 = .til k) hins ?_ ?_ s hk (Or.inr rfl)]
  · rfl
  · intro k _
    exact copy_within (fun _ _ => Or.inl rfl) (fun _ _ => Or.inr rfl)
  · intro k _ k' _ hkk
    refine Writes.mono (copyTasks_writes (A := tMat nb dims k')) ?_
    intro t ht
    simp only [tMat, TMat.full] at ht
    simp [ht, hkk]

theorem copyOuts_el (hnb : 0 < nb) {outs : List Nat} (houts : outs.Nodup) (s : Store (Buf × Nat × Nat) α)
    {k : Nat} (hk : k ∈ outs) {r c : Nat} (hr : r < (dims k).1) (hc : c < (dims k).2) :
    (uMat nb dims k).el
      (texec (outs.flatMap fun k => pzdesc2ge (tMat nb dims k) (uMat nb dims k)) s) r c =
    (tMat nb dims k).el s r c := by
  have := copyTasks_el (al_t (dims := dims) hnb k)
    (al_t (dims := dims) hnb k) (al_u (dims := dims) hnb k)
    (by simp [uMat, tMat, TMat.full]) s (r := r) (c := c) hr hc
  rw [← this]
  simp only [TMat.el]
  rw [texec_indep (D := fun k t => t.1 = .usr k ∨ t.1 = .til k) houts ?_ ?_ s hk (Or.inl rfl)]
  · rfl
  · intro k _
    exact copy_within (fun _ _ => Or.inr rfl) (fun _ _ => Or.inl rfl)
  · intro k _ k' _ hkk
    refine Writes.mono (copyTasks_writes (A := tMat nb dims k')) ?_
    intro t ht
    simp only [uMat, TMat.full] at ht
    simp [ht, hkk]

/-- **Driver theorem.**  For every execution of a driver there is a tile store `s`
holding the user's input matrices such that every output array ends up with the
result of the sequential tile algorithm on `s`; nothing else of the user's memory
changes. -/
theorem driver_correct (hnb : 0 < nb) (hld : ∀ k, (dims k).1 ≤ ld k) {ins outs : List Nat}
    (hins : ins.Nodup) (houts : outs.Nodup) {P : List (TTask (Buf × Nat × Nat) α)}
    (hP : Good (evalid (drvEnv nb dims ld)) P) (hPt : OnTiles P) {mem mem' : Buf × Nat → α}
    (h : Exec (drvEnv nb dims ld) (driver nb dims ins P outs) mem mem') :
    ∃ s : Store (Buf × Nat × Nat) α,
      (∀ k ∈ ins, ∀ r c, r < (dims k).1 → c < (dims k).2 →
        (tMat nb dims k).el s r c = mem (.usr k, r + c * ld k)) ∧
      (∀ k ∈ outs, ∀ r c, r < (dims k).1 → c < (dims k).2 →
        mem' (.usr k, r + c * ld k) = (tMat nb dims k).el (texec P s) r c) ∧
      (∀ k, k ∉ outs → ∀ x, mem' (.usr k, x) = mem (.usr k, x)) ∧
      (∀ k x, (∀ i j, i < (dims k).1 → j < (dims k).2 → x ≠ i + j * ld k) →
        mem' (.usr k, x) = mem (.usr k, x)) := by
  have hwf := drvEnv_wf (nb := nb) hnb hld
  have hg := driver_good (ins := ins) (outs := outs) hnb hP
  refine ⟨texec (ins.flatMap fun k => pzge2desc (uMat nb dims k) (tMat nb dims k))
    (view (eloc (drvEnv nb dims ld)) mem), ?_, ?_, ?_, ?_⟩
  · intro k hk r c hr hc
    rw [copyIns_el hnb hins _ hk hr hc]
    exact el_view_lapack (env := drvEnv nb dims ld) (id := .usr k) hnb rfl mem r c
  · intro k hk r c hr hc
    have h1 := Exec.el hwf hg h (fits_u hnb k) (r := r) (c := c) hr hc
    have h2 : (uMat nb dims k).el (view (eloc (drvEnv nb dims ld)) mem') r c
        = mem' (.usr k, r + c * ld k) := el_view_lapack (env := drvEnv nb dims ld) (id := .usr k) hnb rfl mem' r c
    rw [← h2, h1]
    simp only [driver, texec_append]
    rw [copyOuts_el hnb houts _ hk hr hc]
  · intro k hk x
    apply Exec.frame_buf hwf hg h
    refine Writes.append (Writes.append ?_ ?_) ?_
    · refine Writes.flatMap fun k' _ => Writes.mono (copyTasks_writes (A := tMat nb dims k')) ?_
      intro t ht; rw [ht]; simp [tMat, TMat.full]
    · refine Writes.mono hPt ?_
      rintro t ⟨k', hk'⟩; rw [hk']; simp
    · refine Writes.flatMap fun k' hk' => Writes.mono (copyTasks_writes (A := tMat nb dims k')) ?_
      intro t ht; rw [ht]
      simp only [uMat, TMat.full, ne_eq, Buf.usr.injEq]
      rintro rfl; exact hk hk'
  · intro k x hx
    exact Exec.frame_pad hwf hg h rfl x hx

theorem driver_exists (hnb : 0 < nb) (hld : ∀ k, (dims k).1 ≤ ld k) {ins outs : List Nat}
    {P : List (TTask (Buf × Nat × Nat) α)} (hP : Good (evalid (drvEnv nb dims ld)) P)
    (mem : Buf × Nat → α) :
    ∃ mem', Exec (drvEnv nb dims ld) (driver nb dims ins P outs) mem mem' :=
  Exec.exists (drvEnv_wf hnb hld) (driver_good hnb hP).loc (driver_good hnb hP).ins mem

end Verif.Tile

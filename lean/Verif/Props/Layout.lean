/-
C03-C08: descriptors, tile layout, layout conversion, views, schedules.
-/
import Verif.Desc
import Verif.Driver

namespace Verif.Props

open Verif.Layout Verif.Tile Verif.Sched

universe u v

/-- Where the program finds element `(r, c)` of the matrix described by `A`: tile
`(r/mb, c/nb)`, in-tile position `(r%mb, c%nb)`. -/
def elOff (A : Layout.Desc) (r c : Nat) : Nat := A.off (r / A.mb) (c / A.nb) (r % A.mb) (c % A.nb)

/-- The elements of tile `(m, n)` of a matrix of `gm × gn` elements in `mb × nb` tiles:
in-tile indices whose global position is inside the matrix. -/
def InTile (mb nb gm gn m n i j : Nat) : Prop :=
  i < mb ∧ j < nb ∧ m * mb + i < gm ∧ n * nb + j < gn

theorem inTile_iff {mb nb gm gn m n i j : Nat} :
    InTile mb nb gm gn m n i j ↔ TileOK mb nb gm gn m n i j := by
  rw [tileOK_iff]; unfold InTile; tauto

theorem general_off {mb nb gm gn : Nat} (hmb : 0 < mb) (hnb : 0 < nb) (m n i j : Nat) :
    (general mb nb gm gn 0 0 gm gn).off m n i j = goff mb nb gm gn m n i j := by
  rw [(wfgen_general hmb hnb gm gn 0 0 gm gn).off_eq]
  simp [general]

/-- **C03.** In a matrix created by `plasma_desc_general_create`, distinct (tile, row,
column) triples have distinct addresses, all inside the `gm*gn` allocated elements, and
every allocated element belongs to exactly one tile. -/
theorem C03_tile_layout {mb nb : Nat} (hmb : 0 < mb) (hnb : 0 < nb) (gm gn : Nat) :
    let A := general mb nb gm gn 0 0 gm gn
    (∀ m n i j, InTile mb nb gm gn m n i j → A.off m n i j < gm * gn) ∧
    (∀ m n i j m' n' i' j', InTile mb nb gm gn m n i j → InTile mb nb gm gn m' n' i' j' →
      A.off m n i j = A.off m' n' i' j' → (m, n, i, j) = (m', n', i', j')) ∧
    (∀ x, x < gm * gn → ∃ m n i j, InTile mb nb gm gn m n i j ∧ A.off m n i j = x) ∧
    (∀ m n i j, InTile mb nb gm gn m n i j ↔ m < A.mt ∧ n < A.nt ∧ i < A.mview m ∧ j < A.nview n) := by
  intro A
  have hoff : ∀ m n i j, A.off m n i j = goff mb nb gm gn m n i j := general_off hmb hnb
  refine ⟨?_, ?_, ?_, ?_⟩
  · intro m n i j h
    rw [hoff]; exact goff_lt hmb hnb (inTile_iff.mp h)
  · intro m n i j m' n' i' j' h h' he
    rw [hoff, hoff] at he
    obtain ⟨rfl, rfl, rfl, rfl⟩ := goff_inj hmb hnb (inTile_iff.mp h) (inTile_iff.mp h') he
    rfl
  · intro x hx
    obtain ⟨m, n, i, j, h1, h2⟩ := goff_surj hmb hnb hx
    exact ⟨m, n, i, j, inTile_iff.mpr h1, by rw [hoff]; exact h2⟩
  · intro m n i j
    have hmt : A.mt = ceilDiv gm mb := ntiles_zero gm mb hmb
    have hnt : A.nt = ceilDiv gn nb := ntiles_zero gn nb hnb
    have hmv : m * mb < gm → A.mview m = tdim gm mb m := fun hm => by
      rw [← tdim_eq_view hmb hm]
      simp only [Layout.Desc.mview, hmt]
      simp [A, general]
    have hnv : n * nb < gn → A.nview n = tdim gn nb n := fun hn => by
      rw [← tdim_eq_view hnb hn]
      simp only [Layout.Desc.nview, hnt]
      simp [A, general]
    rw [hmt, hnt, lt_ceilDiv hmb, lt_ceilDiv hnb]
    unfold InTile
    constructor
    · rintro ⟨h1, h2, h3, h4⟩
      refine ⟨by omega, by omega, ?_, ?_⟩
      · rw [hmv (by omega), tdim_row]; exact ⟨h1, h3⟩
      · rw [hnv (by omega), tdim_row]; exact ⟨h2, h4⟩
    · rintro ⟨h1, h2, h3, h4⟩
      rw [hmv h1, tdim_row] at h3
      rw [hnv h2, tdim_row] at h4
      exact ⟨h3.1, h4.1, h3.2, h4.2⟩

/-- A matrix with incomplete tiles in both directions meets the hypotheses of C03. -/
example : (0 < 3) ∧ (0 < 2) ∧ InTile 3 2 7 5 2 2 0 0 ∧
    (general 3 2 7 5 0 0 7 5).off 2 2 0 0 = 34 := by
  refine ⟨by decide, by decide, by unfold InTile; decide, by decide⟩

/-- Environment for a layout round trip: source array 0 and destination array 1 with
their own leading dimensions, one tile matrix. -/
def rtEnv (nb m n lda ldb : Nat) : Buf → MatEnv
  | .usr 0 => ⟨.lapack lda, nb, nb, m, n⟩
  | .usr 1 => ⟨.lapack ldb, nb, nb, m, n⟩
  | .til 0 => ⟨.tile, nb, nb, m, n⟩
  | _ => ⟨.tile, 1, 1, 0, 0⟩

/-- **C04.** `plasma_omp_zge2desc` followed by `plasma_omp_zdesc2ge` into another array
reproduces the matrix at the destination, changes nothing else of the destination and
nothing of the source, under every schedule of the copy tasks. -/
theorem C04_round_trip {α : Type v} {nb : Nat} (hnb : 0 < nb) (m n lda ldb : Nat) (hlda : m ≤ lda)
    (hldb : m ≤ ldb) (mem mem' : Buf × Nat → α)
    (h : Exec (rtEnv nb m n lda ldb)
      (pzge2desc (.full (.usr 0) nb m n) (.full (.til 0) nb m n) ++
       pzdesc2ge (.full (.til 0) nb m n) (.full (.usr 1) nb m n)) mem mem') :
    (∀ i j, i < m → j < n → mem' (.usr 1, i + j * ldb) = mem (.usr 0, i + j * lda)) ∧
    (∀ x, (∀ i j, i < m → j < n → x ≠ i + j * ldb) → mem' (.usr 1, x) = mem (.usr 1, x)) ∧
    (∀ x, mem' (.usr 0, x) = mem (.usr 0, x)) := by
  have hwf : ∀ a, (rtEnv nb m n lda ldb a).WF := by
    intro a
    unfold rtEnv
    split <;> refine ⟨?_, ?_, ?_, ?_, ?_⟩ <;> simp_all
  have f0 := fits_full (env := rtEnv nb m n lda ldb) (id := .usr 0) hnb rfl (Or.inr ⟨_, rfl⟩)
  have f1 := fits_full (env := rtEnv nb m n lda ldb) (id := .usr 1) hnb rfl (Or.inr ⟨_, rfl⟩)
  have g0 := fits_full (env := rtEnv nb m n lda ldb) (id := .til 0) hnb rfl (Or.inl rfl)
  have hg : Good (evalid (rtEnv nb m n lda ldb))
      (pzge2desc (α := α) (.full (.usr 0) nb m n) (.full (.til 0) nb m n) ++
       pzdesc2ge (.full (.til 0) nb m n) (.full (.usr 1) nb m n)) :=
    (copyTasks_good g0.al f0 g0 le_rfl le_rfl le_rfl le_rfl).append
      (copyTasks_good g0.al g0 f1 le_rfl le_rfl le_rfl le_rfl)
  refine ⟨?_, ?_, ?_⟩
  · intro i j hi hj
    have h1 := Exec.el hwf hg h f1 (r := i) (c := j) hi hj
    rw [el_view_lapack (env := rtEnv nb m n lda ldb) (id := .usr 1) hnb rfl mem' i j] at h1
    rw [h1, texec_append]
    have e1 := copyTasks_el g0.al g0.al f1.al (by simp [TMat.full])
      (texec (pzge2desc (α := α) (.full (.usr 0) nb m n) (.full (.til 0) nb m n))
        (view (eloc (rtEnv nb m n lda ldb)) mem)) (r := i) (c := j) hi hj
    have e2 := copyTasks_el g0.al f0.al g0.al (by simp [TMat.full])
        (view (eloc (rtEnv nb m n lda ldb)) mem) (r := i) (c := j) hi hj
    exact (e1.trans e2).trans
      (el_view_lapack (env := rtEnv nb m n lda ldb) (id := .usr 0) hnb rfl mem i j)
  · exact fun x hx => Exec.frame_pad hwf hg h rfl x hx
  · refine fun x => Exec.frame_buf hwf hg h (Writes.append ?_ ?_) x
    · exact Writes.mono (copyTasks_writes (A := .full (.til 0) nb m n)) (by
        intro t ht; rw [ht]; simp [TMat.full])
    · exact Writes.mono (copyTasks_writes (A := .full (.til 0) nb m n)) (by
        intro t ht; rw [ht]; simp [TMat.full])

example : (0 < 3) ∧ (7 : Nat) ≤ 9 ∧ (7 : Nat) ≤ 8 ∧
    (pzge2desc (α := ℤ) (.full (Buf.usr 0) 3 7 5) (.full (.til 0) 3 7 5)).length = 6 := by decide

/-! ### Views -/

/-- `plasma_desc_view` (control/descriptor.c:374-397); the fatal-error branches for
out-of-range views are excluded by hypotheses of the theorems. -/
def descView (A : Layout.Desc) (i j m n : Nat) : Layout.Desc :=
  { A with
    i := A.i + i, j := A.j + j, m := m, n := n
    mt := ntiles (A.i + i) m A.mb
    nt := ntiles (A.j + j) n A.nb }

/-- **C07.** Element `(r, c)` of a tile-aligned view is element `(i+r, j+c)` of its
parent; it stays inside the parent's allocation; views of views compose. -/
theorem C07_views (A : Layout.Desc) (hA : WFGen A) (i j m n : Nat) (hi : A.mb ∣ i) (hj : A.nb ∣ j) :
    (∀ r c, elOff (descView A i j m n) r c = elOff A (i + r) (j + c)) ∧
    (A.mb ∣ A.i → A.nb ∣ A.j → A.i + i + m ≤ A.gm → A.j + j + n ≤ A.gn →
      ∀ r c, r < m → c < n → elOff (descView A i j m n) r c < A.gm * A.gn) ∧
    (∀ i' j' m' n', descView (descView A i j m n) i' j' m' n' = descView A (i + i') (j + j') m' n') := by
  have hB : WFGen (descView A i j m n) := ⟨hA.type, hA.mb, hA.nb, hA.A21, hA.A12, hA.A22⟩
  obtain ⟨p, rfl⟩ := hi
  obtain ⟨q, rfl⟩ := hj
  refine ⟨?_, ?_, ?_⟩
  · intro r c
    unfold elOff
    rw [hB.off_eq, hA.off_eq]
    simp only [descView]
    rw [Nat.add_mul_div_left _ _ hA.mb, Nat.add_mul_div_left _ _ hA.nb, Nat.mul_add_div hA.mb,
      Nat.mul_add_div hA.nb, Nat.mul_add_mod, Nat.mul_add_mod]
    congr 1 <;> omega
  · rintro ⟨p', hp'⟩ ⟨q', hq'⟩ hm hn r c hr hc
    unfold elOff
    rw [hB.off_eq]
    apply goff_lt hA.mb hA.nb
    rw [tileOK_iff]
    simp only [descView]
    have m1 := Nat.mod_lt r hA.mb
    have m2 := Nat.mod_lt c hA.nb
    have d1 := Nat.div_add_mod r A.mb
    have d2 := Nat.div_add_mod c A.nb
    rw [hp', hq', ← Nat.mul_add, ← Nat.mul_add, Nat.mul_div_cancel_left _ hA.mb,
      Nat.mul_div_cancel_left _ hA.nb]
    have e1 : (r / A.mb + (p' + p)) * A.mb = A.mb * (r / A.mb) + A.mb * p' + A.mb * p := by ring
    have e2 : (c / A.nb + (q' + q)) * A.nb = A.nb * (c / A.nb) + A.nb * q' + A.nb * q := by ring
    omega
  · intro i' j' m' n'
    simp only [descView, Nat.add_assoc]

example : WFGen (general 2 3 9 10 0 0 9 10) ∧ 2 ∣ 4 ∧ 3 ∣ 6 ∧ 0 + 4 + 5 ≤ 9 :=
  ⟨wfgen_general (by decide) (by decide) _ _ _ _ _ _, by decide, by decide, by decide⟩

/-! ### Schedules -/

/-- Memory after running the tasks one after the other in creation order. -/
noncomputable def seqMem {M : Type u} {α : Type v} (env : M → MatEnv)
    (P : List (TTask (M × Nat × Nat) α)) (mem : M × Nat → α) : M × Nat → α :=
  P.foldl (fun s t => memRun (eloc env) t s) mem

/-- **C08.** If every task of a program names the tiles it touches in its `depend`
clauses, every execution of every realisation of the tasks (instruction-level
interleavings included) ends in exactly the memory of the sequential execution. -/
theorem C08_schedule_independence {M : Type u} {α : Type v} (env : M → MatEnv)
    (hwf : ∀ a, (env a).WF) (P : List (TTask (M × Nat × Nat) α))
    (hdecl : ∀ t ∈ P, t.Declared) (hin : ∀ t ∈ P, t.Inside (evalid env))
    (mem mem' : M × Nat → α) (h : Exec env P mem mem') : mem' = seqMem env P mem := by
  obtain ⟨Ts, sch, hI, hs, rfl⟩ := h
  have himpl : ∀ T ∈ Ts, ∃ t, TaskImpl (eloc env) (ekey env) t T := by
    intro T hT
    obtain ⟨i, hi, hT'⟩ := List.getElem_of_mem hT
    obtain ⟨t, _, ht⟩ := forall₂_getElem? hI i T (by rw [List.getElem?_eq_getElem hi, hT'])
    exact ⟨t, ht⟩
  rw [schedule_independence Ts
    (fun T hT e he => by obtain ⟨t, ht⟩ := himpl T hT; exact ht.sound e he)
    (fun T hT => by obtain ⟨t, ht⟩ := himpl T hT; exact ht.ne)
    (covered_lift (env_inj hwf) hin hI (tcovered_of_declared hdecl)) sch hs mem]
  have key : ∀ (P : List (TTask (M × Nat × Nat) α)) Ts,
      List.Forall₂ (TaskImpl (eloc env) (ekey env)) P Ts → ∀ mem, seqExec Ts mem = seqMem env P mem := by
    intro P Ts hI
    induction hI with
    | nil => intro mem; rfl
    | cons h1 _ ih =>
      intro mem
      have := h1.eff mem
      simp only [seqExec, List.map_cons, execL_cons, seqMem, List.foldl_cons] at *
      rw [this]
      exact ih _
  exact key P Ts hI mem

/-- The layout-conversion program is one for which the hypotheses of C08 hold. -/
example : ∀ t ∈ pzge2desc (α := ℤ) (uMat 2 (fun _ => (5, 3)) 0) (tMat 2 (fun _ => (5, 3)) 0),
    t.Local ∧ t.Declared ∧ t.Inside (evalid (drvEnv 2 (fun _ => (5, 3)) (fun _ => 6))) := by
  intro t ht
  have := ge2desc_good (α := ℤ) (nb := 2) (dims := fun _ => (5, 3)) (ld := fun _ => 6) (by decide) 0
  exact ⟨this.loc t ht, this.decl t ht, this.ins t ht⟩

end Verif.Props

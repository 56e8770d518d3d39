/-
Tasks that touch several tiles: empty tasks, tasks whose body makes several kernel calls, and
tasks given by their effect on (row, column) positions of a matrix.
-/
import Verif.Par

namespace Verif.Tile

open Verif.Layout

universe u v w

section
variable {M : Type u} {α : Type v}

/-- A task with `depend` clauses and no effect ("dummy task"). -/
def nopT (deps : List (M × Bool)) : TTask M α where
  deps := deps
  rd := fun _ _ _ => False
  wr := fun _ _ _ => False
  f := id

theorem nopT_run (deps : List (M × Bool)) (s : Store M α) : (nopT deps).run s = s := by
  funext x i j; exact TTask.run_frame _ _ (fun h => h)

theorem nopT_local (deps : List (M × Bool)) : (nopT deps : TTask M α).Local := by
  intro s s' _ a i j h; exact h.elim

theorem nopT_inside (deps : List (M × Bool)) {valid : Foot M} : (nopT deps : TTask M α).Inside valid := by
  rintro a i j (h | h) <;> exact h.elim

theorem nopT_declared (deps : List (M × Bool)) : (nopT deps : TTask M α).Declared :=
  ⟨fun _ _ _ h => h.elim, fun _ _ _ h => h.elim⟩

theorem texec_nops (P : List (TTask M α)) (h : ∀ t ∈ P, ∃ d, t = nopT d) (s : Store M α) :
    texec P s = s := by
  induction P generalizing s with
  | nil => rfl
  | cons t P ih =>
    obtain ⟨d, rfl⟩ := h t (by simp)
    rw [texec_cons, nopT_run, ih (fun t ht => h t (by simp [ht]))]

/-- A task whose body performs the kernel calls `Q` one after the other. -/
noncomputable def seqT (deps : List (M × Bool)) (Q : List (TTask M α)) : TTask M α where
  deps := deps
  rd := fun x i j => ∃ t ∈ Q, t.rd x i j
  wr := fun x i j => ∃ t ∈ Q, t.wr x i j
  f := texec Q

theorem texec_frame_el {Q : List (TTask M α)} {s : Store M α} {x i j}
    (h : ¬ ∃ t ∈ Q, t.wr x i j) : texec Q s x i j = s x i j := by
  induction Q generalizing s with
  | nil => rfl
  | cons t Q ih =>
    rw [texec_cons, ih (fun ⟨t', h1, h2⟩ => h ⟨t', List.mem_cons_of_mem _ h1, h2⟩)]
    exact t.run_frame s (fun hw => h ⟨t, by simp, hw⟩)

theorem seqT_run (deps : List (M × Bool)) (Q : List (TTask M α)) (s : Store M α) :
    (seqT deps Q).run s = texec Q s := by
  funext x i j
  by_cases h : (seqT deps Q).wr x i j
  · rw [TTask.run_wr _ _ h]; rfl
  · rw [TTask.run_frame _ _ h, texec_frame_el (by exact h)]

theorem seqT_local {deps : List (M × Bool)} {Q : List (TTask M α)} (h : ∀ t ∈ Q, t.Local) :
    (seqT deps Q).Local := by
  intro s s' hs a i j hw
  exact texec_congr (valid := fun x i j => (seqT deps Q).rd x i j ∨ (seqT deps Q).wr x i j) Q h
    (fun t ht x i j hx => hx.elim (fun h => Or.inl ⟨t, ht, h⟩) (fun h => Or.inr ⟨t, ht, h⟩))
    s s' hs a i j (Or.inr hw)

theorem seqT_inside {deps : List (M × Bool)} {Q : List (TTask M α)} {valid : Foot M}
    (h : ∀ t ∈ Q, t.Inside valid) : (seqT deps Q).Inside valid := by
  rintro a i j (⟨t, ht, hr⟩ | ⟨t, ht, hr⟩)
  · exact h t ht a i j (Or.inl hr)
  · exact h t ht a i j (Or.inr hr)

/-- The body declares its accesses if every kernel call is covered by the clauses. -/
theorem seqT_declared {deps : List (M × Bool)} {Q : List (TTask M α)}
    (h1 : ∀ t ∈ Q, ∀ a i j, t.rd a i j → ∃ b, (a, b) ∈ deps)
    (h2 : ∀ t ∈ Q, ∀ a i j, t.wr a i j → (a, true) ∈ deps) : (seqT deps Q).Declared := by
  constructor
  · rintro a i j ⟨t, ht, hr⟩; exact h1 t ht a i j hr
  · rintro a i j ⟨t, ht, hr⟩; exact h2 t ht a i j hr

end

/-! ### Tasks by matrix positions -/

namespace TMat
variable {M : Type u} {α : Type v}

/-- Global row of row `i` of tile `x`. -/
def row (A : TMat M) (x : M × Nat × Nat) (i : Nat) : Nat := (x.2.1 - A.d.i / A.d.mb) * A.d.mb + i

/-- Global column of column `j` of tile `x`. -/
def col (A : TMat M) (x : M × Nat × Nat) (j : Nat) : Nat := (x.2.2 - A.d.j / A.d.nb) * A.d.nb + j

/-- The elements of the matrix at positions in `R`. -/
def reg (A : TMat M) (R : Nat → Nat → Prop) : Foot (M × Nat × Nat) := fun x i j =>
  x.1 = A.id ∧ A.d.i / A.d.mb ≤ x.2.1 ∧ A.d.j / A.d.nb ≤ x.2.2 ∧ i < A.d.mb ∧ j < A.d.nb ∧
    R (A.row x i) (A.col x j)

theorem row_at (A : TMat M) (r n : Nat) : A.row (A.at' (r / A.d.mb) n) (r % A.d.mb) = r := by
  simp only [row, at', Nat.add_sub_cancel]
  rw [Nat.mul_comm]; exact Nat.div_add_mod _ _

theorem col_at (A : TMat M) (m c : Nat) : A.col (A.at' m (c / A.d.nb)) (c % A.d.nb) = c := by
  simp only [col, at', Nat.add_sub_cancel]
  rw [Nat.mul_comm]; exact Nat.div_add_mod _ _

theorem reg_at (A : TMat M) (hm : 0 < A.d.mb) (hn : 0 < A.d.nb) (R : Nat → Nat → Prop) (r c : Nat) :
    A.reg R (A.at' (r / A.d.mb) (c / A.d.nb)) (r % A.d.mb) (c % A.d.nb) ↔ R r c := by
  unfold reg
  rw [row_at A, col_at A]
  simp [at', Nat.mod_lt _ hm, Nat.mod_lt _ hn]

theorem reg_iff {A : TMat M} {R : Nat → Nat → Prop} {x : M × Nat × Nat} {i j : Nat} :
    A.reg R x i j ↔ ∃ r c, R r c ∧ x = A.at' (r / A.d.mb) (c / A.d.nb) ∧ i = r % A.d.mb ∧
      j = c % A.d.nb ∧ 0 < A.d.mb ∧ 0 < A.d.nb := by
  constructor
  · rintro ⟨h1, h2, h3, h4, h5, h6⟩
    refine ⟨_, _, h6, ?_, ?_, ?_, by omega, by omega⟩
    · unfold row col at'
      rw [div_of_tile h4, div_of_tile h5]
      ext <;> simp <;> first | exact h1 | omega
    · unfold row; rw [mod_of_tile h4]
    · unfold col; rw [mod_of_tile h5]
  · rintro ⟨r, c, hR, rfl, rfl, rfl, hm, hn⟩
    exact (reg_at A hm hn R r c).mpr hR

theorem reg_id {A : TMat M} {R : Nat → Nat → Prop} {x : M × Nat × Nat} {i j : Nat}
    (h : A.reg R x i j) : x.1 = A.id := h.1

theorem el_eq_of_reg {A : TMat M} {R : Nat → Nat → Prop} (hm : 0 < A.d.mb) (hn : 0 < A.d.nb)
    {s s' : Store (M × Nat × Nat) α} (h : ∀ x i j, A.reg R x i j → s x i j = s' x i j)
    {r c : Nat} (hr : R r c) : A.el s r c = A.el s' r c :=
  h _ _ _ ((reg_at A hm hn R r c).mpr hr)

end TMat

section
variable {M : Type u} {α : Type v}

/-- A task computing `g` at the positions `R` of the matrix `A`. -/
def gop (deps : List ((M × Nat × Nat) × Bool)) (rd : Foot (M × Nat × Nat)) (A : TMat M)
    (R : Nat → Nat → Prop) (g : Store (M × Nat × Nat) α → Nat → Nat → α) :
    TTask (M × Nat × Nat) α where
  deps := deps
  rd := rd
  wr := A.reg R
  f := fun s x i j => g s (A.row x i) (A.col x j)

variable {deps : List ((M × Nat × Nat) × Bool)} {rd : Foot (M × Nat × Nat)} {A : TMat M}
  {R : Nat → Nat → Prop} {g : Store (M × Nat × Nat) α → Nat → Nat → α}

theorem gop_in (hm : 0 < A.d.mb) (hn : 0 < A.d.nb) (s : Store (M × Nat × Nat) α) {r c : Nat}
    (h : R r c) : A.el ((gop deps rd A R g).run s) r c = g s r c := by
  unfold TMat.el
  rw [TTask.run_wr _ _ ((A.reg_at hm hn R r c).mpr h)]
  simp only [gop, A.row_at, A.col_at]

theorem gop_out (hm : 0 < A.d.mb) (hn : 0 < A.d.nb) (s : Store (M × Nat × Nat) α) {r c : Nat}
    (h : ¬ R r c) : A.el ((gop deps rd A R g).run s) r c = A.el s r c := by
  unfold TMat.el
  rw [TTask.run_frame _ _ (fun hw => h ((A.reg_at hm hn R r c).mp hw))]

theorem gop_ne (s : Store (M × Nat × Nat) α) {x : M × Nat × Nat} (h : x.1 ≠ A.id) :
    (gop deps rd A R g).run s x = s x := by
  funext i j
  exact TTask.run_frame _ _ (fun hw => h hw.1)

theorem gop_el_ne (s : Store (M × Nat × Nat) α) {B : TMat M} (h : B.id ≠ A.id) (r c : Nat) :
    B.el ((gop deps rd A R g).run s) r c = B.el s r c := by
  unfold TMat.el
  rw [gop_ne s (by exact h)]

theorem gop_local
    (h : ∀ s s' : Store (M × Nat × Nat) α, (∀ x i j, rd x i j ∨ A.reg R x i j → s x i j = s' x i j) →
      ∀ r c, R r c → g s r c = g s' r c) : (gop deps rd A R g).Local := by
  intro s s' hs x i j hw
  exact h s s' hs _ _ hw.2.2.2.2.2

end

end Verif.Tile

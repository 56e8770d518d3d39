/-
C93: which of the four combinations of `side` and `trans` `plasma_pzunmqr_blgtrd` gets right.
-/
import Verif.Props.Blgtrd

namespace Verif.Props

open Verif.Blg Verif.Layout Verif.Qr Verif.Sched Finset Matrix

universe v

section
variable {α : Type v} [CommRing α] [StarRing α]

/-- **C93, the part that holds.** Without transposition from the left, `E` becomes `Q·E`; with conjugate transposition from the right, `E` becomes `E·Qᴴ`.
(Missing: the other two combinations, which are wrong, see below.) -/
theorem C93_op_partial {N NB V NE : Nat} {Va Ta : Nat → α} (hNB : 2 ≤ NB) (hV : 0 < V) (hs : Stored N NB V Va) {P1 P2 : Nat} (hP1 : 0 < P1) (hP2 : 0 < P2)
    {T0 T1 : Nat → α} (h1 : LarftExec N NB V P1 Va Ta T0 T1) {E E' : Nat → Nat → α} :
    (UnmExec true false N NB V NE P2 Va T1 E E' →
      (of fun (r : Fin N) (c : Fin NE) => E' r c) = bulgeQ N NB V Va Ta * of fun (r : Fin N) (c : Fin NE) => E r c) ∧
    (UnmExec false true N NB V NE P2 Va T1 E E' →
      (of fun (r : Fin NE) (c : Fin N) => E' r c) = (of fun (r : Fin NE) (c : Fin N) => E r c) * (bulgeQ N NB V Va Ta)ᴴ) := by
  constructor
  · intro h2
    ext r c
    exact (C87_left hNB hV hs hP1 hP2 h1 h2).1 r c c.2
  · intro h2
    ext r c
    exact (C87_right hNB hV hs hP1 hP2 h1 h2).1 r c r.2

end

/-- With one reflector in a block and real numbers, the transposed block is the block itself. -/
theorem unmAct_ct {left ct : Bool} {N NB NE P : Nat} {Va T : Nat → ℚ} {a : Nat × (Nat × Nat)} {E : Nat → Nat → ℚ} :
    unmAct left ct N NB 1 NE P Va T a E = unmAct left (!ct) N NB 1 NE P Va T a E := by
  have hK : vn N NB 1 a.2 = 0 ∨ vn N NB 1 a.2 = 1 := by have := vn_le (N := N) (NB := NB) (V := 1) a.2; omega
  unfold unmAct
  split
  · rename_i h
    have hK : vn N NB 1 a.2 = 1 := by omega
    rw [hK]
    have ho : ∀ (c : Bool) (t : Nat → Nat → ℚ), opU c t 0 0 = t 0 0 := fun c t => by
      unfold opU; cases c <;> simp
    cases left <;> funext i j <;> simp only [Bool.false_eq_true, if_true, if_false] <;> unfold larfbAt larfbGemm <;>
      simp [ho]
  · rfl

/-- So the executions do not depend on `trans`. -/
theorem unm_ct {left ct : Bool} {N NB NE P : Nat} {Va T : Nat → ℚ} {E E' : Nat → Nat → ℚ} (h : UnmExec left ct N NB 1 NE P Va T E E') :
    UnmExec left (!ct) N NB 1 NE P Va T E E' := by
  obtain ⟨sch, h1, h2⟩ := h
  refine ⟨sch, h1, h2.trans ?_⟩
  congr 2
  funext x E
  exact unmAct_ct

/-- Order 3, width 2, one sweep in a block: the reflectors `(1,1)` and `(1)`. -/
def blgW : Nat → ℚ := fun x => if x < 3 then 1 else 0

/-- Their scalars, with which both factors are orthogonal. -/
def blgWt : Nat → ℚ := fun x => if x = 0 then 1 else if x = 1 then 2 else 0

theorem blgW_stored : Stored 3 2 1 blgW := by
  have hr : ∀ {s q : Nat}, Blg.IsRefl 3 2 s q → s < 2 ∧ q = 0 := fun {s q} h => by
    unfold Blg.IsRefl at h
    omega
  constructor
  · intro s q h
    obtain ⟨h1, rfl⟩ := hr h
    interval_cases s <;> rfl
  · intro x h
    have h0 : x ≠ 0 := h 0 0 0 (by decide) (by decide)
    have h1 : x ≠ 1 := h 0 0 1 (by decide) (by decide)
    have h2 : x ≠ 2 := h 1 0 0 (by decide) (by decide)
    unfold blgW
    rw [if_neg (by omega)]

theorem blgW_q : bulgeQ 3 2 1 blgW blgWt = !![1, 0, 0; 0, 0, 1; 0, -1, 0] := by decide +kernel

/-- **C93, refuted for (left, conjugate transpose).** Every execution, by any number of threads, multiplies by `Q` instead of `Qᴴ`: order 3, real orthogonal
`Q`, `E` the identity. -/
theorem C93_left_conj_refuted {P1 P2 : Nat} (hP1 : 0 < P1) (hP2 : 0 < P2) {T0 T1 : Nat → ℚ} (h1 : LarftExec 3 2 1 P1 blgW blgWt T0 T1)
    {E E' : Nat → Nat → ℚ} (hE : ∀ i j, E i j = if i = j then 1 else 0) (h2 : UnmExec true true 3 2 1 3 P2 blgW T1 E E') :
    (bulgeQ 3 2 1 blgW blgWt)ᴴ * bulgeQ 3 2 1 blgW blgWt = 1 ∧
    (of fun r c : Fin 3 => E' r c) = bulgeQ 3 2 1 blgW blgWt * (of fun r c : Fin 3 => E r c) ∧
    (of fun r c : Fin 3 => E' r c) ≠ (bulgeQ 3 2 1 blgW blgWt)ᴴ * of fun r c : Fin 3 => E r c := by
  have h3 : UnmExec true false 3 2 1 3 P2 blgW T1 E E' := unm_ct (ct := true) h2
  have e := (C93_op_partial (NE := 3) (E := E) (E' := E') (by omega) (by omega) blgW_stored hP1 hP2 h1).1 h3
  have hI : (of fun r c : Fin 3 => E r c) = 1 := by
    ext r c
    rw [of_apply, hE, one_apply]
    simp only [Fin.ext_iff]
  refine ⟨by rw [blgW_q]; decide +kernel, e, ?_⟩
  rw [e, hI, Matrix.mul_one, Matrix.mul_one, blgW_q]
  decide +kernel

/-- **C93, refuted for (right, no transpose).** Every execution multiplies by `Qᴴ` instead of `Q`. -/
theorem C93_right_plain_refuted {P1 P2 : Nat} (hP1 : 0 < P1) (hP2 : 0 < P2) {T0 T1 : Nat → ℚ} (h1 : LarftExec 3 2 1 P1 blgW blgWt T0 T1)
    {E E' : Nat → Nat → ℚ} (hE : ∀ i j, E i j = if i = j then 1 else 0) (h2 : UnmExec false false 3 2 1 3 P2 blgW T1 E E') :
    (of fun r c : Fin 3 => E' r c) = (of fun r c : Fin 3 => E r c) * (bulgeQ 3 2 1 blgW blgWt)ᴴ ∧
    (of fun r c : Fin 3 => E' r c) ≠ (of fun r c : Fin 3 => E r c) * bulgeQ 3 2 1 blgW blgWt := by
  have h3 : UnmExec false true 3 2 1 3 P2 blgW T1 E E' := unm_ct (ct := false) h2
  have e := (C93_op_partial (NE := 3) (E := E) (E' := E') (by omega) (by omega) blgW_stored hP1 hP2 h1).2 h3
  have hI : (of fun r c : Fin 3 => E r c) = 1 := by
    ext r c
    rw [of_apply, hE, one_apply]
    simp only [Fin.ext_iff]
  refine ⟨e, ?_⟩
  rw [e, hI, Matrix.one_mul, Matrix.one_mul, blgW_q]
  decide +kernel

/-- The hypotheses are met, with two and three threads. -/
example (left ct : Bool) : ∃ (T1 : Nat → ℚ) (E' : Nat → Nat → ℚ), LarftExec 3 2 1 2 blgW blgWt (fun _ => 7) T1 ∧
    UnmExec left ct 3 2 1 3 3 blgW T1 (fun i j => if i = j then 1 else 0) E' := by
  obtain ⟨s1, h1⟩ := inter_exists 2 (larftProg 3 2 1 2)
  obtain ⟨s2, h2⟩ := inter_exists 3 (unmProg 3 2 1 3 3)
  exact ⟨_, _, ⟨s1, h1, rfl⟩, s2, h2, rfl⟩

end Verif.Props

/-
C41: what the drivers return for illegal arguments.
-/
import Verif.ArgCheck
import Verif.Props.Gemm
import Verif.Props.Potrf

namespace Verif.Props.Args

open Verif.ArgCheck

/-- `-i` for the first position `i` (from 1) at which the list is false, 0 if there is none. -/
def firstBad (l : List Bool) : Int :=
  if l.findIdx (fun b => !b) < l.length then -((l.findIdx fun b => !b) + 1 : Nat) else 0

theorem firstBad_zero {l : List Bool} : firstBad l = 0 ↔ ∀ b ∈ l, b = true := by
  unfold firstBad
  split
  · rename_i h
    obtain ⟨b, hb, hf⟩ := List.findIdx_lt_length.mp h
    constructor
    · intro h0; omega
    · intro h0; rw [h0 b hb] at hf; simp at hf
  · rename_i h
    refine ⟨fun _ b hb => ?_, fun _ => rfl⟩
    by_contra hne
    exact h (List.findIdx_lt_length.mpr ⟨b, hb, by simpa using hne⟩)

/-- Reading of `firstBad`: the argument at the position reported is illegal and all before
it are legal. -/
theorem firstBad_spec {l : List Bool} {i : Nat} : firstBad l = -((i + 1 : Nat) : Int) ↔
    l[i]? = some false ∧ ∀ j, j < i → l[j]? = some true := by
  unfold firstBad
  split
  · rename_i h
    have h1 := List.findIdx_getElem (w := h)
    constructor
    · intro he
      have he' : l.findIdx (fun b => !b) = i := by omega
      subst he'
      refine ⟨?_, fun j hj => ?_⟩
      · rw [List.getElem?_eq_getElem h]; simpa using h1
      · have := List.not_of_lt_findIdx hj
        rw [List.getElem?_eq_getElem (by omega)]; simpa using this
    · rintro ⟨h2, h3⟩
      have : l.findIdx (fun b => !b) = i := by
        rcases Nat.lt_trichotomy (l.findIdx fun b => !b) i with hlt | heq | hgt
        · have := h3 _ hlt
          rw [List.getElem?_eq_getElem h] at this
          simp at this
          rw [this] at h1; simp at h1
        · exact heq
        · have := List.not_of_lt_findIdx hgt
          rw [List.getElem?_eq_getElem (by omega)] at h2
          simp at h2 this
          rw [this] at h2; simp at h2
      rw [this]
  · rename_i h
    constructor
    · intro he; omega
    · rintro ⟨h2, -⟩
      exact absurd (List.findIdx_lt_length.mpr ⟨false, List.mem_of_getElem? h2, rfl⟩) h

theorem firstBad_cons (b : Bool) (l : List Bool) :
    firstBad (b :: l) = if b then (if firstBad l = 0 then 0 else firstBad l - 1) else -1 := by
  unfold firstBad
  rw [List.findIdx_cons]
  cases b
  · simp
  · simp only [Bool.not_true, cond_false, List.length_cons, if_true]
    by_cases h : l.findIdx (fun b => !b) < l.length
    · rw [if_pos (by omega), if_pos h, if_neg (by omega)]; omega
    · rw [if_neg (by omega), if_neg h, if_pos rfl]

theorem firstBad_nil : firstBad [] = 0 := rfl

/-- `firstBad` counted from position `i`. -/
def fb (i : Int) : List Bool → Int
  | [] => 0
  | b :: l => if b then fb (i - 1) l else i

theorem fb_eq (l : List Bool) : ∀ i : Int, i < 0 →
    fb i l = if firstBad l = 0 then 0 else firstBad l + i + 1 := by
  induction l with
  | nil => intro i _; rfl
  | cons b l ih =>
    intro i hi
    have hle : firstBad l ≤ 0 := by unfold firstBad; split <;> omega
    rw [firstBad_cons, fb, ih (i - 1) (by omega)]
    cases b
    · simp
    · by_cases h : firstBad l = 0
      · simp [h]
      · simp only [if_true, h, if_false]
        rw [if_neg (by omega)]
        omega

theorem firstBad_eq (l : List Bool) : firstBad l = fb (-1) l := by
  rw [fb_eq l _ (by omega)]; split <;> omega

theorem fb_skip {i : Int} {l : List Bool} {x : Int} (h : x = fb (i - 1) l) :
    x = fb i (true :: l) := h

theorem fb_step {c : Prop} [Decidable c] {b : Bool} {i v : Int} {l : List Bool} {x : Int}
    (hv : v = i) (hc : c ↔ ¬ b = true) (h : x = fb (i - 1) l) :
    (if c then v else x) = fb i (b :: l) := by
  by_cases hb : b = true
  · rw [if_neg (fun h' => hc.mp h' hb), h, hb, fb, if_pos rfl]
  · rw [if_pos (hc.mpr hb), hv, fb, if_neg hb]

/-- The value 0 comes out exactly in the legal case, all other values are negative. -/
def Rej (x y : Int) : Prop := (x = 0 ↔ y = 0) ∧ x ≤ 0

theorem rej_skip {i : Int} {l : List Bool} {x : Int} (h : Rej x (fb (i - 1) l)) :
    Rej x (fb i (true :: l)) := h

theorem rej_step {c : Prop} [Decidable c] {b : Bool} {i v : Int} {l : List Bool} {x : Int}
    (hv : v < 0) (hi : i < 0) (hc : c ↔ ¬ b = true) (h : Rej x (fb (i - 1) l)) :
    Rej (if c then v else x) (fb i (b :: l)) := by
  by_cases hb : b = true
  · rw [if_neg (fun h' => hc.mp h' hb), hb]; exact h
  · rw [if_pos (hc.mpr hb), fb, if_neg hb]; exact ⟨by omega, by omega⟩

theorem rej_step2 {c c' : Prop} [Decidable c] [Decidable c'] {b : Bool} {i v : Int}
    {l : List Bool} {x : Int} (hv : v < 0) (hi : i < 0) (hc : c ∨ c' ↔ ¬ b = true)
    (h : Rej x (fb (i - 1) l)) : Rej (if c then v else if c' then v else x) (fb i (b :: l)) := by
  have := rej_step hv hi hc h
  by_cases h1 : c
  · rw [if_pos h1]; rwa [if_pos (Or.inl h1)] at this
  · rw [if_neg h1]
    by_cases h2 : c'
    · rw [if_pos h2]; rwa [if_pos (Or.inr h2)] at this
    · rw [if_neg h2]; rwa [if_neg (by tauto)] at this

theorem rej_nil {i : Int} : Rej 0 (fb i []) := ⟨Iff.rfl, le_refl _⟩

/-- Solves `condition in the code ↔ argument not legal`. -/
macro "cond_tac" : tactic => `(tactic| (
  simp only [List.contains_cons, List.contains_nil, Bool.or_false, Bool.or_eq_true, beq_iff_eq,
    decide_eq_true_eq]
  first | done | omega | (split <;> omega) | tauto | (simp; done) | (simp; tauto) | (simp; omega)))

/-- Solves the equations between argument checks and documented legality. -/
macro "args_tac" : tactic => `(tactic| (
  rw [firstBad_eq]
  repeat' first
    | exact rfl
    | apply fb_skip
    | refine fb_step (by decide) ?_ ?_
  all_goals cond_tac))

/-- The same for `plasma_zgesdd`, which looks twice at its second argument. -/
macro "args_tac_gesdd" : tactic => `(tactic| (
  rw [firstBad_eq]
  refine (show Rej _ _ from ?_)
  refine rej_step (by decide) (by decide) ?_ (rej_step2 (by decide) (by decide) ?_ ?_)
  repeat' first
    | exact rej_nil
    | apply rej_skip
    | refine rej_step (by decide) (by decide) ?_ ?_
  all_goals cond_tac))

/-- The same for `Rej`. -/
macro "args_tac_iff" : tactic => `(tactic| (
  rw [firstBad_eq]
  refine (show Rej _ _ from ?_)
  repeat' first
    | exact rej_nil
    | apply rej_skip
    | refine rej_step (by decide) (by decide) ?_ ?_
  all_goals cond_tac))

/-- `plasma_dzamax`: the first illegal argument. -/
theorem C41_dzamax (colrow m n lda : Int) :
    dzamaxArgs colrow m n lda = firstBad [[Columnwise, Rowwise].contains colrow, decide (0 ≤ m), decide (0 ≤ n),
      true, decide (1 ≤ lda ∧ m ≤ lda), true] := by
  unfold dzamaxArgs; args_tac

/-- `plasma_zcgbsv`: `nrhs`, `ldab`, `ldb`, `ldx` are reported at the positions they have in `plasma_zcgesv`; `kl` and `ku` are not checked. -/
theorem C41_zcgbsv_wrong : ∃ n kl ku nrhs ldab ldb ldx : Int,
    zcgbsvArgs n kl ku nrhs ldab ldb ldx ≠ firstBad [decide (0 ≤ n), decide (0 ≤ kl), decide (0 ≤ ku),
      decide (0 ≤ nrhs), true, decide (1 ≤ ldab ∧ 1+kl+ku ≤ ldab),
      true, true, decide (1 ≤ ldb ∧ n ≤ ldb),
      true, decide (1 ≤ ldx ∧ n ≤ ldx), true] :=
  ⟨1, 0, 0, (-1), 1, 1, 1, by decide⟩

/-- `plasma_zcgesv`: the first illegal argument. -/
theorem C41_zcgesv (n nrhs lda ldb ldx : Int) :
    zcgesvArgs n nrhs lda ldb ldx = firstBad [decide (0 ≤ n), decide (0 ≤ nrhs), true,
      decide (1 ≤ lda ∧ n ≤ lda), true, true,
      decide (1 ≤ ldb ∧ n ≤ ldb), true, decide (1 ≤ ldx ∧ n ≤ ldx),
      true] := by
  unfold zcgesvArgs; args_tac

/-- `plasma_zcposv`: the first illegal argument. -/
theorem C41_zcposv (uplo n nrhs lda ldb ldx : Int) :
    zcposvArgs uplo n nrhs lda ldb ldx = firstBad [[Upper, Lower].contains uplo, decide (0 ≤ n), decide (0 ≤ nrhs),
      true, decide (1 ≤ lda ∧ n ≤ lda), true,
      decide (1 ≤ ldb ∧ n ≤ ldb), true, decide (1 ≤ ldx ∧ n ≤ ldx),
      true] := by
  unfold zcposvArgs; args_tac

/-- `plasma_zgbmm`: `lda`, `ldb`, `ldc` are reported at the positions they have in `plasma_zgemm`. -/
theorem C41_zgbmm_wrong : ∃ transa transb m n k kl ku lda ldb ldc : Int,
    zgbmmArgs transa transb m n k kl ku lda ldb ldc ≠ firstBad [[NoTrans, ArgCheck.Trans, ConjTrans].contains transa, [NoTrans, ArgCheck.Trans, ConjTrans].contains transb, decide (0 ≤ m),
      decide (0 ≤ n), decide (0 ≤ k), decide (0 ≤ kl ∧ kl < m),
      decide (0 ≤ ku ∧ ku < k), true, true,
      decide (1 ≤ lda ∧ (if transa = NoTrans then m else k) ≤ lda), true, decide (1 ≤ ldb ∧ (if transb = NoTrans then k else n) ≤ ldb),
      true, true, decide (1 ≤ ldc ∧ m ≤ ldc)] :=
  ⟨NoTrans, NoTrans, 1, 1, 1, 0, 0, 0, 1, 1, by decide⟩

/-- `plasma_zgbmm` returns 0 exactly for legal arguments and something negative
otherwise.  Missing: the position. -/
theorem C41_zgbmm_partial (transa transb m n k kl ku lda ldb ldc : Int) :
    (zgbmmArgs transa transb m n k kl ku lda ldb ldc = 0 ↔ firstBad [[NoTrans, ArgCheck.Trans, ConjTrans].contains transa, [NoTrans, ArgCheck.Trans, ConjTrans].contains transb, decide (0 ≤ m),
      decide (0 ≤ n), decide (0 ≤ k), decide (0 ≤ kl ∧ kl < m),
      decide (0 ≤ ku ∧ ku < k), true, true,
      decide (1 ≤ lda ∧ (if transa = NoTrans then m else k) ≤ lda), true, decide (1 ≤ ldb ∧ (if transb = NoTrans then k else n) ≤ ldb),
      true, true, decide (1 ≤ ldc ∧ m ≤ ldc)] = 0) ∧ zgbmmArgs transa transb m n k kl ku lda ldb ldc ≤ 0 := by
  unfold zgbmmArgs; args_tac_iff

/-- `plasma_zgbsv`: `ldb` is argument 9, reported as 8. -/
theorem C41_zgbsv_wrong : ∃ n kl ku nrhs ldab ldb : Int,
    zgbsvArgs n kl ku nrhs ldab ldb ≠ firstBad [decide (0 ≤ n), decide (0 ≤ kl), decide (0 ≤ ku),
      decide (0 ≤ nrhs), true, decide (1 ≤ ldab ∧ 1+kl+ku ≤ ldab),
      true, true, decide (1 ≤ ldb ∧ n ≤ ldb)] :=
  ⟨2, 0, 0, 1, 1, 1, by decide⟩

/-- `plasma_zgbsv` returns 0 exactly for legal arguments and something negative
otherwise.  Missing: the position. -/
theorem C41_zgbsv_partial (n kl ku nrhs ldab ldb : Int) :
    (zgbsvArgs n kl ku nrhs ldab ldb = 0 ↔ firstBad [decide (0 ≤ n), decide (0 ≤ kl), decide (0 ≤ ku),
      decide (0 ≤ nrhs), true, decide (1 ≤ ldab ∧ 1+kl+ku ≤ ldab),
      true, true, decide (1 ≤ ldb ∧ n ≤ ldb)] = 0) ∧ zgbsvArgs n kl ku nrhs ldab ldb ≤ 0 := by
  unfold zgbsvArgs; args_tac_iff

/-- `plasma_zgbtrf`: the first illegal argument. -/
theorem C41_zgbtrf (m n kl ku ldab : Int) :
    zgbtrfArgs m n kl ku ldab = firstBad [decide (0 ≤ m), decide (0 ≤ n), decide (0 ≤ kl),
      decide (0 ≤ ku), true, decide (1 ≤ ldab ∧ 1+kl+ku ≤ ldab),
      true] := by
  unfold zgbtrfArgs; args_tac

/-- `plasma_zgbtrs`: the first illegal argument. -/
theorem C41_zgbtrs (trans n kl ku nrhs ldab ldb : Int) :
    zgbtrsArgs trans n kl ku nrhs ldab ldb = firstBad [[NoTrans, ArgCheck.Trans, ConjTrans].contains trans, decide (0 ≤ n), decide (0 ≤ kl),
      decide (0 ≤ ku), decide (0 ≤ nrhs), true,
      decide (1 ≤ ldab ∧ 1+kl+ku ≤ ldab), true, true,
      decide (1 ≤ ldb ∧ n ≤ ldb)] := by
  unfold zgbtrsArgs; args_tac

/-- `plasma_zgeadd`: the first illegal argument. -/
theorem C41_zgeadd (transa m n pA lda pB ldb : Int) :
    zgeaddArgs transa m n pA lda pB ldb = firstBad [[NoTrans, ArgCheck.Trans, ConjTrans].contains transa, decide (0 ≤ m), decide (0 ≤ n),
      true, decide (pA ≠ 0), decide (1 ≤ lda ∧ (if transa = NoTrans then m else n) ≤ lda),
      true, decide (pB ≠ 0), decide (1 ≤ ldb ∧ m ≤ ldb)] := by
  unfold zgeaddArgs; args_tac

/-- `plasma_zgeinv`: `lda` is compared with `n` instead of the number of rows `m`: a leading dimension smaller than the number of rows is accepted. -/
theorem C41_zgeinv_wrong : ∃ m n lda : Int,
    zgeinvArgs m n lda ≠ firstBad [decide (0 ≤ m), decide (0 ≤ n), true,
      decide (1 ≤ lda ∧ m ≤ lda), true] :=
  ⟨2, 1, 1, by decide⟩

/-- `plasma_zgelqf`: the first illegal argument. -/
theorem C41_zgelqf (m n lda : Int) :
    zgelqfArgs m n lda = firstBad [decide (0 ≤ m), decide (0 ≤ n), true,
      decide (1 ≤ lda ∧ m ≤ lda), true] := by
  unfold zgelqfArgs; args_tac

/-- `plasma_zgelqs`: the first illegal argument. -/
theorem C41_zgelqs (m n nrhs lda ldb : Int) :
    zgelqsArgs m n nrhs lda ldb = firstBad [decide (0 ≤ m), decide (0 ≤ n ∧ m ≤ n), decide (0 ≤ nrhs),
      true, decide (1 ≤ lda ∧ m ≤ lda), true,
      true, decide (1 ≤ ldb ∧ n ≤ ldb)] := by
  unfold zgelqsArgs; args_tac

/-- `plasma_zgels`: an illegal `trans` gives PlasmaErrorIllegalValue (-103). -/
theorem C41_zgels_wrong : ∃ trans m n nrhs lda ldb : Int,
    zgelsArgs trans m n nrhs lda ldb ≠ firstBad [[NoTrans, ConjTrans].contains trans, decide (0 ≤ m), decide (0 ≤ n),
      decide (0 ≤ nrhs), true, decide (1 ≤ lda ∧ m ≤ lda),
      true, true, decide (1 ≤ ldb ∧ m ≤ ldb ∧ n ≤ ldb)] :=
  ⟨0, 1, 1, 1, 1, 1, by decide⟩

/-- `plasma_zgels` returns 0 exactly for legal arguments and something negative
otherwise.  Missing: the position. -/
theorem C41_zgels_partial (trans m n nrhs lda ldb : Int) :
    (zgelsArgs trans m n nrhs lda ldb = 0 ↔ firstBad [[NoTrans, ConjTrans].contains trans, decide (0 ≤ m), decide (0 ≤ n),
      decide (0 ≤ nrhs), true, decide (1 ≤ lda ∧ m ≤ lda),
      true, true, decide (1 ≤ ldb ∧ m ≤ ldb ∧ n ≤ ldb)] = 0) ∧ zgelsArgs trans m n nrhs lda ldb ≤ 0 := by
  unfold zgelsArgs; args_tac_iff

/-- `plasma_zgemm`: the first illegal argument. -/
theorem C41_zgemm (transa transb m n k lda ldb ldc : Int) :
    zgemmArgs transa transb m n k lda ldb ldc = firstBad [[NoTrans, ArgCheck.Trans, ConjTrans].contains transa, [NoTrans, ArgCheck.Trans, ConjTrans].contains transb, decide (0 ≤ m),
      decide (0 ≤ n), decide (0 ≤ k), true,
      true, decide (1 ≤ lda ∧ (if transa = NoTrans then m else k) ≤ lda), true,
      decide (1 ≤ ldb ∧ (if transb = NoTrans then k else n) ≤ ldb), true, true,
      decide (1 ≤ ldc ∧ m ≤ ldc)] := by
  unfold zgemmArgs; args_tac

/-- `plasma_zgeqrf`: the first illegal argument. -/
theorem C41_zgeqrf (m n lda : Int) :
    zgeqrfArgs m n lda = firstBad [decide (0 ≤ m), decide (0 ≤ n), true,
      decide (1 ≤ lda ∧ m ≤ lda), true] := by
  unfold zgeqrfArgs; args_tac

/-- `plasma_zgeqrs`: the first illegal argument. -/
theorem C41_zgeqrs (m n nrhs lda ldb : Int) :
    zgeqrsArgs m n nrhs lda ldb = firstBad [decide (0 ≤ m), decide (0 ≤ n ∧ n ≤ m), decide (0 ≤ nrhs),
      true, decide (1 ≤ lda ∧ m ≤ lda), true,
      true, decide (1 ≤ ldb ∧ m ≤ ldb)] := by
  unfold zgeqrsArgs; args_tac

/-- `plasma_zgesdd`: `ldu` and `ldvt` are arguments 10 and 12, reported as 9 and 11. -/
theorem C41_zgesdd_wrong : ∃ jobu jobvt m n lda ldu ldvt : Int,
    zgesddArgs jobu jobvt m n lda ldu ldvt ≠ firstBad [[NoVec, AllVec, SomeVec].contains jobu, decide (([NoVec, AllVec, SomeVec].contains jobvt) = true ∧ jobvt = jobu), decide (0 ≤ m),
      decide (0 ≤ n), true, decide (1 ≤ lda ∧ m ≤ lda),
      true, true, true,
      decide (1 ≤ ldu ∧ (jobu ≠ NoVec → m ≤ ldu)), true, decide (1 ≤ ldvt ∧ (jobvt = AllVec → n ≤ ldvt) ∧ (jobvt = SomeVec → min m n ≤ ldvt))] :=
  ⟨NoVec, NoVec, 1, 1, 1, 0, 1, by decide⟩

/-- `plasma_zgesdd` returns 0 exactly for legal arguments and something negative
otherwise.  Missing: the position. -/
theorem C41_zgesdd_partial (jobu jobvt m n lda ldu ldvt : Int) :
    (zgesddArgs jobu jobvt m n lda ldu ldvt = 0 ↔ firstBad [[NoVec, AllVec, SomeVec].contains jobu, decide (([NoVec, AllVec, SomeVec].contains jobvt) = true ∧ jobvt = jobu), decide (0 ≤ m),
      decide (0 ≤ n), true, decide (1 ≤ lda ∧ m ≤ lda),
      true, true, true,
      decide (1 ≤ ldu ∧ (jobu ≠ NoVec → m ≤ ldu)), true, decide (1 ≤ ldvt ∧ (jobvt = AllVec → n ≤ ldvt) ∧ (jobvt = SomeVec → min m n ≤ ldvt))] = 0) ∧ zgesddArgs jobu jobvt m n lda ldu ldvt ≤ 0 := by
  unfold zgesddArgs; args_tac_gesdd

/-- `plasma_zgesv`: the first illegal argument. -/
theorem C41_zgesv (n nrhs lda ldb : Int) :
    zgesvArgs n nrhs lda ldb = firstBad [decide (0 ≤ n), decide (0 ≤ nrhs), true,
      decide (1 ≤ lda ∧ n ≤ lda), true, true,
      decide (1 ≤ ldb ∧ n ≤ ldb)] := by
  unfold zgesvArgs; args_tac

/-- `plasma_zgeswp`: the first illegal argument. -/
theorem C41_zgeswp (colrow m n lda : Int) :
    zgeswpArgs colrow m n lda = firstBad [[Columnwise, Rowwise].contains colrow, decide (0 ≤ m), decide (0 ≤ n),
      true, decide (1 ≤ lda ∧ m ≤ lda), true,
      true] := by
  unfold zgeswpArgs; args_tac

/-- `plasma_zgetrf`: the first illegal argument. -/
theorem C41_zgetrf (m n lda : Int) :
    zgetrfArgs m n lda = firstBad [decide (0 ≤ m), decide (0 ≤ n), true,
      decide (1 ≤ lda ∧ m ≤ lda), true] := by
  unfold zgetrfArgs; args_tac

/-- `plasma_zgetri`: the first illegal argument. -/
theorem C41_zgetri (n lda : Int) :
    zgetriArgs n lda = firstBad [decide (0 ≤ n), true, decide (1 ≤ lda ∧ n ≤ lda),
      true] := by
  unfold zgetriArgs; args_tac

/-- `plasma_zgetri_aux`: the first illegal argument. -/
theorem C41_zgetri_aux (n lda : Int) :
    zgetri_auxArgs n lda = firstBad [decide (0 ≤ n), true, decide (1 ≤ lda ∧ n ≤ lda)] := by
  unfold zgetri_auxArgs; args_tac

/-- `plasma_zgetrs`: every argument after `trans` is reported one position too low. -/
theorem C41_zgetrs_wrong : ∃ trans n nrhs lda ldb : Int,
    zgetrsArgs trans n nrhs lda ldb ≠ firstBad [[NoTrans, ArgCheck.Trans, ConjTrans].contains trans, decide (0 ≤ n), decide (0 ≤ nrhs),
      true, decide (1 ≤ lda ∧ n ≤ lda), true,
      true, decide (1 ≤ ldb ∧ n ≤ ldb)] :=
  ⟨NoTrans, (-1), 1, 1, 1, by decide⟩

/-- `plasma_zgetrs` returns 0 exactly for legal arguments and something negative
otherwise.  Missing: the position. -/
theorem C41_zgetrs_partial (trans n nrhs lda ldb : Int) :
    (zgetrsArgs trans n nrhs lda ldb = 0 ↔ firstBad [[NoTrans, ArgCheck.Trans, ConjTrans].contains trans, decide (0 ≤ n), decide (0 ≤ nrhs),
      true, decide (1 ≤ lda ∧ n ≤ lda), true,
      true, decide (1 ≤ ldb ∧ n ≤ ldb)] = 0) ∧ zgetrsArgs trans n nrhs lda ldb ≤ 0 := by
  unfold zgetrsArgs; args_tac_iff

/-- `plasma_zhemm`: the first illegal argument. -/
theorem C41_zhemm (side uplo m n lda ldb ldc : Int) :
    zhemmArgs side uplo m n lda ldb ldc = firstBad [[Left, Right].contains side, [Upper, Lower].contains uplo, decide (0 ≤ m),
      decide (0 ≤ n), true, true,
      decide (1 ≤ lda ∧ (if side = Left then m else n) ≤ lda), true, decide (1 ≤ ldb ∧ m ≤ ldb),
      true, true, decide (1 ≤ ldc ∧ m ≤ ldc)] := by
  unfold zhemmArgs; args_tac

/-- `plasma_zsymm`: the first illegal argument. -/
theorem C41_zsymm (side uplo m n lda ldb ldc : Int) :
    zsymmArgs side uplo m n lda ldb ldc = firstBad [[Left, Right].contains side, [Upper, Lower].contains uplo, decide (0 ≤ m),
      decide (0 ≤ n), true, true,
      decide (1 ≤ lda ∧ (if side = Left then m else n) ≤ lda), true, decide (1 ≤ ldb ∧ m ≤ ldb),
      true, true, decide (1 ≤ ldc ∧ m ≤ ldc)] := by
  unfold zsymmArgs; args_tac

/-- `plasma_zher2k`: the first illegal argument. -/
theorem C41_zher2k (uplo trans n k lda ldb ldc : Int) :
    zher2kArgs uplo trans n k lda ldb ldc = firstBad [[Upper, Lower].contains uplo, [NoTrans, ConjTrans].contains trans, decide (0 ≤ n),
      decide (0 ≤ k), true, true,
      decide (1 ≤ lda ∧ (if trans = NoTrans then n else k) ≤ lda), true, decide (1 ≤ ldb ∧ (if trans = NoTrans then n else k) ≤ ldb),
      true, true, decide (1 ≤ ldc ∧ n ≤ ldc)] := by
  unfold zher2kArgs; args_tac

/-- `plasma_zsyr2k`: the first illegal argument. -/
theorem C41_zsyr2k (uplo trans n k lda ldb ldc : Int) :
    zsyr2kArgs uplo trans n k lda ldb ldc = firstBad [[Upper, Lower].contains uplo, [NoTrans, ArgCheck.Trans].contains trans, decide (0 ≤ n),
      decide (0 ≤ k), true, true,
      decide (1 ≤ lda ∧ (if trans = NoTrans then n else k) ≤ lda), true, decide (1 ≤ ldb ∧ (if trans = NoTrans then n else k) ≤ ldb),
      true, true, decide (1 ≤ ldc ∧ n ≤ ldc)] := by
  unfold zsyr2kArgs; args_tac

/-- `plasma_zherk`: the first illegal argument. -/
theorem C41_zherk (uplo trans n k lda ldc : Int) :
    zherkArgs uplo trans n k lda ldc = firstBad [[Upper, Lower].contains uplo, [NoTrans, ConjTrans].contains trans, decide (0 ≤ n),
      decide (0 ≤ k), true, true,
      decide (1 ≤ lda ∧ (if trans = NoTrans then n else k) ≤ lda), true, true,
      decide (1 ≤ ldc ∧ n ≤ ldc)] := by
  unfold zherkArgs; args_tac

/-- `plasma_zsyrk`: the first illegal argument. -/
theorem C41_zsyrk (uplo trans n k lda ldc : Int) :
    zsyrkArgs uplo trans n k lda ldc = firstBad [[Upper, Lower].contains uplo, [NoTrans, ArgCheck.Trans].contains trans, decide (0 ≤ n),
      decide (0 ≤ k), true, true,
      decide (1 ≤ lda ∧ (if trans = NoTrans then n else k) ≤ lda), true, true,
      decide (1 ≤ ldc ∧ n ≤ ldc)] := by
  unfold zsyrkArgs; args_tac

/-- `plasma_zhesv`: `nrhs`, `lda`, `ldb` are arguments 3, 5, 11, reported as 5, 7, 10. -/
theorem C41_zhesv_wrong : ∃ uplo n nrhs lda ldb : Int,
    zhesvArgs uplo n nrhs lda ldb ≠ firstBad [decide (uplo = Lower), decide (0 ≤ n), decide (0 ≤ nrhs),
      true, decide (1 ≤ lda ∧ n ≤ lda), true,
      true, true, true,
      true, decide (1 ≤ ldb ∧ n ≤ ldb)] :=
  ⟨Lower, 1, (-1), 1, 1, by decide⟩

/-- `plasma_zhesv` returns 0 exactly for legal arguments and something negative
otherwise.  Missing: the position. -/
theorem C41_zhesv_partial (uplo n nrhs lda ldb : Int) :
    (zhesvArgs uplo n nrhs lda ldb = 0 ↔ firstBad [decide (uplo = Lower), decide (0 ≤ n), decide (0 ≤ nrhs),
      true, decide (1 ≤ lda ∧ n ≤ lda), true,
      true, true, true,
      true, decide (1 ≤ ldb ∧ n ≤ ldb)] = 0) ∧ zhesvArgs uplo n nrhs lda ldb ≤ 0 := by
  unfold zhesvArgs; args_tac_iff

/-- `plasma_zhetrs`: `nrhs`, `lda`, `ldb` are arguments 3, 5, 11, reported as 5, 7, 10. -/
theorem C41_zhetrs_wrong : ∃ uplo n nrhs lda ldb : Int,
    zhetrsArgs uplo n nrhs lda ldb ≠ firstBad [decide (uplo = Lower), decide (0 ≤ n), decide (0 ≤ nrhs),
      true, decide (1 ≤ lda ∧ n ≤ lda), true,
      true, true, true,
      true, decide (1 ≤ ldb ∧ n ≤ ldb)] :=
  ⟨Lower, 1, (-1), 1, 1, by decide⟩

/-- `plasma_zhetrs` returns 0 exactly for legal arguments and something negative
otherwise.  Missing: the position. -/
theorem C41_zhetrs_partial (uplo n nrhs lda ldb : Int) :
    (zhetrsArgs uplo n nrhs lda ldb = 0 ↔ firstBad [decide (uplo = Lower), decide (0 ≤ n), decide (0 ≤ nrhs),
      true, decide (1 ≤ lda ∧ n ≤ lda), true,
      true, true, true,
      true, decide (1 ≤ ldb ∧ n ≤ ldb)] = 0) ∧ zhetrsArgs uplo n nrhs lda ldb ≤ 0 := by
  unfold zhetrsArgs; args_tac_iff

/-- `plasma_zhetrf`: the first illegal argument. -/
theorem C41_zhetrf (uplo n lda : Int) :
    zhetrfArgs uplo n lda = firstBad [decide (uplo = Lower), decide (0 ≤ n), true,
      decide (1 ≤ lda ∧ n ≤ lda), true, true,
      true, true] := by
  unfold zhetrfArgs; args_tac

/-- `plasma_zlacpy`: the first illegal argument, for shapes a transposed copy supports. -/
theorem C41_zlacpy (uplo transa m n lda ldb : Int) (h : transa = NoTrans ∨ m = n) :
    zlacpyArgs uplo transa m n lda ldb = firstBad [[General, Upper, Lower].contains uplo,
      [NoTrans, ArgCheck.Trans, ConjTrans].contains transa, decide (0 ≤ m), decide (0 ≤ n), true,
      decide (1 ≤ lda ∧ m ≤ lda), true,
      decide (1 ≤ ldb ∧ (if transa = NoTrans then m else n) ≤ ldb)] := by
  unfold zlacpyArgs
  rw [if_neg (show ¬ (transa ≠ NoTrans ∧ m ≠ n) by omega)]
  args_tac

/-- `plasma_zlacpy`: a transposed copy of a rectangular matrix is rejected as argument 3. -/
theorem C41_zlacpy_square (uplo transa m n lda ldb : Int)
    (h1 : uplo = General ∨ uplo = Upper ∨ uplo = Lower)
    (h2 : transa = ArgCheck.Trans ∨ transa = ConjTrans) (hm : 0 ≤ m) (hn : 0 ≤ n) (h : m ≠ n) :
    zlacpyArgs uplo transa m n lda ldb = -3 := by
  unfold zlacpyArgs
  rw [if_neg (by omega), if_neg (by omega), if_neg (by omega), if_neg (by omega),
    if_pos ⟨by rcases h2 with h2 | h2 <;> rw [h2] <;> decide, h⟩]

/-- `plasma_zlag2c`: the first illegal argument. -/
theorem C41_zlag2c (m n lda ldas : Int) :
    zlag2cArgs m n lda ldas = firstBad [decide (0 ≤ m), decide (0 ≤ n), true,
      decide (1 ≤ lda ∧ m ≤ lda), true, decide (1 ≤ ldas ∧ m ≤ ldas)] := by
  unfold zlag2cArgs; args_tac

/-- `plasma_zlangb`: the first illegal argument. -/
theorem C41_zlangb (norm m n kl ku ldab : Int) :
    zlangbArgs norm m n kl ku ldab = firstBad [[MaxNorm, OneNorm, InfNorm, FrobeniusNorm].contains norm, decide (0 ≤ m), decide (0 ≤ n),
      decide (0 ≤ kl), decide (0 ≤ ku), true,
      decide (1 ≤ ldab ∧ 1+kl+ku ≤ ldab)] := by
  unfold zlangbArgs; args_tac

/-- `plasma_zlange`: the first illegal argument. -/
theorem C41_zlange (norm m n lda : Int) :
    zlangeArgs norm m n lda = firstBad [[MaxNorm, OneNorm, InfNorm, FrobeniusNorm].contains norm, decide (0 ≤ m), decide (0 ≤ n),
      true, decide (1 ≤ lda ∧ m ≤ lda)] := by
  unfold zlangeArgs; args_tac

/-- `plasma_zlanhe`: the first illegal argument. -/
theorem C41_zlanhe (norm uplo n lda : Int) :
    zlanheArgs norm uplo n lda = firstBad [[MaxNorm, OneNorm, InfNorm, FrobeniusNorm].contains norm, [Upper, Lower].contains uplo, decide (0 ≤ n),
      true, decide (1 ≤ lda ∧ n ≤ lda)] := by
  unfold zlanheArgs; args_tac

/-- `plasma_zlansy`: the first illegal argument. -/
theorem C41_zlansy (norm uplo n lda : Int) :
    zlansyArgs norm uplo n lda = firstBad [[MaxNorm, OneNorm, InfNorm, FrobeniusNorm].contains norm, [Upper, Lower].contains uplo, decide (0 ≤ n),
      true, decide (1 ≤ lda ∧ n ≤ lda)] := by
  unfold zlansyArgs; args_tac

/-- `plasma_zlantr`: the first illegal argument. -/
theorem C41_zlantr (norm uplo diag m n lda : Int) :
    zlantrArgs norm uplo diag m n lda = firstBad [[MaxNorm, OneNorm, InfNorm, FrobeniusNorm].contains norm, [Upper, Lower].contains uplo, [NonUnit, Unit].contains diag,
      decide (0 ≤ m), decide (0 ≤ n), true,
      decide (1 ≤ lda ∧ m ≤ lda)] := by
  unfold zlantrArgs; args_tac

/-- `plasma_zlascl`: the first illegal argument. -/
theorem C41_zlascl (uplo : Int) (cfrom cto : Dbl) (m n lda : Int) :
    zlasclArgs uplo cfrom cto m n lda = firstBad [[General, Upper, Lower].contains uplo, decide (¬ cfrom.isZero ∧ ¬ cfrom.isNaN), decide (¬ cto.isNaN),
      decide (0 ≤ m), decide (0 ≤ n), true,
      decide (1 ≤ lda ∧ m ≤ lda)] := by
  unfold zlasclArgs; args_tac

/-- `plasma_zlaset`: `lda` is argument 7, reported as 5. -/
theorem C41_zlaset_wrong : ∃ uplo m n lda : Int,
    zlasetArgs uplo m n lda ≠ firstBad [[General, Upper, Lower].contains uplo, decide (0 ≤ m), decide (0 ≤ n),
      true, true, true,
      decide (1 ≤ lda ∧ m ≤ lda)] :=
  ⟨General, 1, 1, 0, by decide⟩

/-- `plasma_zlaset` returns 0 exactly for legal arguments and something negative
otherwise.  Missing: the position. -/
theorem C41_zlaset_partial (uplo m n lda : Int) :
    (zlasetArgs uplo m n lda = 0 ↔ firstBad [[General, Upper, Lower].contains uplo, decide (0 ≤ m), decide (0 ≤ n),
      true, true, true,
      decide (1 ≤ lda ∧ m ≤ lda)] = 0) ∧ zlasetArgs uplo m n lda ≤ 0 := by
  unfold zlasetArgs; args_tac_iff

/-- `plasma_zlauum`: the first illegal argument. -/
theorem C41_zlauum (uplo n lda : Int) :
    zlauumArgs uplo n lda = firstBad [[Upper, Lower].contains uplo, decide (0 ≤ n), true,
      decide (1 ≤ lda ∧ n ≤ lda)] := by
  unfold zlauumArgs; args_tac

/-- `plasma_zpoinv`: the first illegal argument. -/
theorem C41_zpoinv (uplo n lda : Int) :
    zpoinvArgs uplo n lda = firstBad [[Upper, Lower].contains uplo, decide (0 ≤ n), true,
      decide (1 ≤ lda ∧ n ≤ lda)] := by
  unfold zpoinvArgs; args_tac

/-- `plasma_zpotrf`: the first illegal argument. -/
theorem C41_zpotrf (uplo n lda : Int) :
    zpotrfArgs uplo n lda = firstBad [[Upper, Lower].contains uplo, decide (0 ≤ n), true,
      decide (1 ≤ lda ∧ n ≤ lda)] := by
  unfold zpotrfArgs; args_tac

/-- `plasma_zpotri`: the first illegal argument. -/
theorem C41_zpotri (uplo n lda : Int) :
    zpotriArgs uplo n lda = firstBad [[Upper, Lower].contains uplo, decide (0 ≤ n), true,
      decide (1 ≤ lda ∧ n ≤ lda)] := by
  unfold zpotriArgs; args_tac

/-- `plasma_zpbsv`: the first illegal argument. -/
theorem C41_zpbsv (uplo n kd nrhs ldab ldb : Int) :
    zpbsvArgs uplo n kd nrhs ldab ldb = firstBad [[Upper, Lower].contains uplo, decide (0 ≤ n), decide (0 ≤ kd),
      decide (0 ≤ nrhs), true, decide (kd < ldab),
      true, decide (1 ≤ ldb ∧ n ≤ ldb)] := by
  unfold zpbsvArgs; args_tac

/-- `plasma_zpbtrf`: the first illegal argument. -/
theorem C41_zpbtrf (uplo n kd ldab : Int) :
    zpbtrfArgs uplo n kd ldab = firstBad [[Upper, Lower].contains uplo, decide (0 ≤ n), decide (0 ≤ kd),
      true, decide (kd < ldab)] := by
  unfold zpbtrfArgs; args_tac

/-- `plasma_zpbtrs`: `kd`, `nrhs`, `ldab`, `ldb` are arguments 3, 4, 6, 8, reported as 4, 5, 7, 10. -/
theorem C41_zpbtrs_wrong : ∃ uplo n kd nrhs ldab ldb : Int,
    zpbtrsArgs uplo n kd nrhs ldab ldb ≠ firstBad [[Upper, Lower].contains uplo, decide (0 ≤ n), decide (0 ≤ kd),
      decide (0 ≤ nrhs), true, decide (1 ≤ ldab ∧ 1+kd ≤ ldab),
      true, decide (1 ≤ ldb ∧ n ≤ ldb)] :=
  ⟨Upper, 1, (-1), 1, 1, 1, by decide⟩

/-- `plasma_zpbtrs` returns 0 exactly for legal arguments and something negative
otherwise.  Missing: the position. -/
theorem C41_zpbtrs_partial (uplo n kd nrhs ldab ldb : Int) :
    (zpbtrsArgs uplo n kd nrhs ldab ldb = 0 ↔ firstBad [[Upper, Lower].contains uplo, decide (0 ≤ n), decide (0 ≤ kd),
      decide (0 ≤ nrhs), true, decide (1 ≤ ldab ∧ 1+kd ≤ ldab),
      true, decide (1 ≤ ldb ∧ n ≤ ldb)] = 0) ∧ zpbtrsArgs uplo n kd nrhs ldab ldb ≤ 0 := by
  unfold zpbtrsArgs; args_tac_iff

/-- `plasma_zposv`: the first illegal argument. -/
theorem C41_zposv (uplo n nrhs lda ldb : Int) :
    zposvArgs uplo n nrhs lda ldb = firstBad [[Upper, Lower].contains uplo, decide (0 ≤ n), decide (0 ≤ nrhs),
      true, decide (1 ≤ lda ∧ n ≤ lda), true,
      decide (1 ≤ ldb ∧ n ≤ ldb)] := by
  unfold zposvArgs; args_tac

/-- `plasma_zpotrs`: the first illegal argument. -/
theorem C41_zpotrs (uplo n nrhs lda ldb : Int) :
    zpotrsArgs uplo n nrhs lda ldb = firstBad [[Upper, Lower].contains uplo, decide (0 ≤ n), decide (0 ≤ nrhs),
      true, decide (1 ≤ lda ∧ n ≤ lda), true,
      decide (1 ≤ ldb ∧ n ≤ ldb)] := by
  unfold zpotrsArgs; args_tac

/-- `plasma_ztradd`: the first illegal argument. -/
theorem C41_ztradd (uplo transa m n pA lda pB ldb : Int) :
    ztraddArgs uplo transa m n pA lda pB ldb = firstBad [[Upper, Lower].contains uplo, [NoTrans, ArgCheck.Trans, ConjTrans].contains transa, decide (0 ≤ m),
      decide (0 ≤ n), true, decide (pA ≠ 0),
      decide (1 ≤ lda ∧ (if transa = NoTrans then m else n) ≤ lda), true, decide (pB ≠ 0),
      decide (1 ≤ ldb ∧ m ≤ ldb)] := by
  unfold ztraddArgs; args_tac

/-- `plasma_ztrmm`: `lda` and `ldb` are arguments 9 and 11, reported as 8 and 10. -/
theorem C41_ztrmm_wrong : ∃ side uplo transa diag m n lda ldb : Int,
    ztrmmArgs side uplo transa diag m n lda ldb ≠ firstBad [[Left, Right].contains side, [Upper, Lower].contains uplo, [NoTrans, ArgCheck.Trans, ConjTrans].contains transa,
      [NonUnit, Unit].contains diag, decide (0 ≤ m), decide (0 ≤ n),
      true, true, decide (1 ≤ lda ∧ (if side = Left then m else n) ≤ lda),
      true, decide (1 ≤ ldb ∧ m ≤ ldb)] :=
  ⟨Left, Upper, NoTrans, Unit, 1, 1, 0, 1, by decide⟩

/-- `plasma_ztrmm` returns 0 exactly for legal arguments and something negative
otherwise.  Missing: the position. -/
theorem C41_ztrmm_partial (side uplo transa diag m n lda ldb : Int) :
    (ztrmmArgs side uplo transa diag m n lda ldb = 0 ↔ firstBad [[Left, Right].contains side, [Upper, Lower].contains uplo, [NoTrans, ArgCheck.Trans, ConjTrans].contains transa,
      [NonUnit, Unit].contains diag, decide (0 ≤ m), decide (0 ≤ n),
      true, true, decide (1 ≤ lda ∧ (if side = Left then m else n) ≤ lda),
      true, decide (1 ≤ ldb ∧ m ≤ ldb)] = 0) ∧ ztrmmArgs side uplo transa diag m n lda ldb ≤ 0 := by
  unfold ztrmmArgs; args_tac_iff

/-- `plasma_ztrsm`: `lda` and `ldb` are arguments 9 and 11, reported as 8 and 10. -/
theorem C41_ztrsm_wrong : ∃ side uplo transa diag m n lda ldb : Int,
    ztrsmArgs side uplo transa diag m n lda ldb ≠ firstBad [[Left, Right].contains side, [Upper, Lower].contains uplo, [NoTrans, ArgCheck.Trans, ConjTrans].contains transa,
      [NonUnit, Unit].contains diag, decide (0 ≤ m), decide (0 ≤ n),
      true, true, decide (1 ≤ lda ∧ (if side = Left then m else n) ≤ lda),
      true, decide (1 ≤ ldb ∧ m ≤ ldb)] :=
  ⟨Left, Upper, NoTrans, Unit, 1, 1, 0, 1, by decide⟩

/-- `plasma_ztrsm` returns 0 exactly for legal arguments and something negative
otherwise.  Missing: the position. -/
theorem C41_ztrsm_partial (side uplo transa diag m n lda ldb : Int) :
    (ztrsmArgs side uplo transa diag m n lda ldb = 0 ↔ firstBad [[Left, Right].contains side, [Upper, Lower].contains uplo, [NoTrans, ArgCheck.Trans, ConjTrans].contains transa,
      [NonUnit, Unit].contains diag, decide (0 ≤ m), decide (0 ≤ n),
      true, true, decide (1 ≤ lda ∧ (if side = Left then m else n) ≤ lda),
      true, decide (1 ≤ ldb ∧ m ≤ ldb)] = 0) ∧ ztrsmArgs side uplo transa diag m n lda ldb ≤ 0 := by
  unfold ztrsmArgs; args_tac_iff

/-- `plasma_ztrtri`: the first illegal argument. -/
theorem C41_ztrtri (uplo diag n lda : Int) :
    ztrtriArgs uplo diag n lda = firstBad [[Upper, Lower].contains uplo, [NonUnit, Unit].contains diag, decide (0 ≤ n),
      true, decide (1 ≤ lda ∧ n ≤ lda)] := by
  unfold ztrtriArgs; args_tac

/-- `plasma_zunglq`: the first illegal argument. -/
theorem C41_zunglq (m n k lda ldq : Int) :
    zunglqArgs m n k lda ldq = firstBad [decide (0 ≤ m), decide (m ≤ n), decide (0 ≤ k ∧ k ≤ m),
      true, decide (1 ≤ lda ∧ m ≤ lda), true,
      true, decide (1 ≤ ldq ∧ m ≤ ldq)] := by
  unfold zunglqArgs; args_tac

/-- `plasma_zungqr`: the first illegal argument. -/
theorem C41_zungqr (m n k lda ldq : Int) :
    zungqrArgs m n k lda ldq = firstBad [decide (0 ≤ m), decide (0 ≤ n ∧ n ≤ m), decide (0 ≤ k ∧ k ≤ n),
      true, decide (1 ≤ lda ∧ m ≤ lda), true,
      true, decide (1 ≤ ldq ∧ m ≤ ldq)] := by
  unfold zungqrArgs; args_tac

/-- `plasma_zunmlq`: the first illegal argument. -/
theorem C41_zunmlq (side trans m n k lda ldc : Int) :
    zunmlqArgs side trans m n k lda ldc = firstBad [[Left, Right].contains side, [NoTrans, ConjTrans].contains trans, decide (0 ≤ m),
      decide (0 ≤ n), decide (0 ≤ k ∧ k ≤ (if side = Left then m else n)), true,
      decide (1 ≤ lda ∧ k ≤ lda), true, true,
      decide (1 ≤ ldc ∧ m ≤ ldc)] := by
  unfold zunmlqArgs; args_tac

/-- `plasma_zunmqr`: the first illegal argument. -/
theorem C41_zunmqr (side trans m n k lda ldc : Int) :
    zunmqrArgs side trans m n k lda ldc = firstBad [[Left, Right].contains side, [NoTrans, ConjTrans].contains trans, decide (0 ≤ m),
      decide (0 ≤ n), decide (0 ≤ k ∧ k ≤ (if side = Left then m else n)), true,
      decide (1 ≤ lda ∧ (if side = Left then m else n) ≤ lda), true, true,
      decide (1 ≤ ldc ∧ m ≤ ldc)] := by
  unfold zunmqrArgs; args_tac
/-- `plasma_zgeinv` for square matrices, the only case with an inverse.  Missing: `m ≠ n`. -/
theorem C41_zgeinv_partial (n lda : Int) :
    zgeinvArgs n n lda = firstBad [decide (0 ≤ n), decide (0 ≤ n), true, decide (1 ≤ lda ∧ n ≤ lda), true] := by
  unfold zgeinvArgs; args_tac

/-- `plasma_zcgbsv` with `kl, ku ≥ 0` rejects exactly illegal arguments.  Missing: the position,
and the check of `kl` and `ku`. -/
theorem C41_zcgbsv_partial (n kl ku nrhs ldab ldb ldx : Int) (hl : 0 ≤ kl) (hu : 0 ≤ ku) :
    (zcgbsvArgs n kl ku nrhs ldab ldb ldx = 0 ↔ firstBad [decide (0 ≤ n), decide (0 ≤ kl), decide (0 ≤ ku),
      decide (0 ≤ nrhs), true, decide (1 ≤ ldab ∧ 1+kl+ku ≤ ldab),
      true, true, decide (1 ≤ ldb ∧ n ≤ ldb),
      true, decide (1 ≤ ldx ∧ n ≤ ldx), true] = 0) ∧ zcgbsvArgs n kl ku nrhs ldab ldb ldx ≤ 0 := by
  unfold zcgbsvArgs
  simp only [hl, hu, decide_true]
  args_tac_iff

/-- `plasma_zgesdd` with legal arguments still returns -12, the number of the argument `ldvt`,
when the matrix is smaller than a tile. -/
theorem C41_zgesdd_small (nb jobu jobvt m n lda ldu ldvt : Int)
    (h : zgesddArgs jobu jobvt m n lda ldu ldvt = 0) (h0 : 0 < min m n) (h1 : min m n < nb) :
    zgesddPre nb jobu jobvt m n lda ldu ldvt = some (-12) := by
  unfold zgesddPre
  rw [if_neg (by simp [h]), if_neg (by omega), if_pos h1]

example : zgesddArgs NoVec NoVec 3 4 3 1 1 = 0 ∧ (0 : Int) < min 3 4 ∧ (min 3 4 : Int) < 256 := by decide

/-! ### Complete calls -/

open Verif.Tile Verif.Layout Verif.Props

universe v

open scoped ComplexOrder

/-- A driver call as a relation between the memory before and after and the value returned:
`PlasmaErrorNotInitialized` without a context, then the argument checks, then the body
(compute/zgemm.c:111-174, compute/zpotrf.c:78-98 and the same lines of the other drivers). -/
def Call {Mem : Type v} (init : Bool) (check : Int) (body : Mem → Mem → Int → Prop)
    (mem mem' : Mem) (ret : Int) : Prop :=
  if init = false then mem' = mem ∧ ret = -101
  else if check ≠ 0 then mem' = mem ∧ ret = check
  else body mem mem' ret

/-- Meaning of a legal `transa` (include/plasma_types.h:72-75). -/
def transOf (t : Int) : Tile.Trans :=
  if t = NoTrans then .noTrans else if t = ArgCheck.Trans then .trans else .conjTrans

/-- Meaning of a legal `uplo` (include/plasma_types.h:77-78). -/
def uploOf (u : Int) : Uplo := if u = Upper then .upper else .lower

/-- `plasma_zgemm` (compute/zgemm.c:105-246) as called from C, for any values of the
arguments; allocation succeeds. -/
def plasmaZgemm {α : Type v} [CommRing α] [StarRing α] [DecidableEq α] (init : Bool) (nb : Nat)
    (transa transb m n k : Int) (alpha : α) (lda ldb : Int) (beta : α) (ldc : Int) :
    (Buf × Nat → α) → (Buf × Nat → α) → Int → Prop :=
  Call init (zgemmArgs transa transb m n k lda ldb ldc) fun mem mem' ret =>
    ret = 0 ∧ Exec (drvEnv nb (gemmDims (transOf transa) (transOf transb) m.toNat n.toNat k.toNat)
        (ld3 lda.toNat ldb.toNat ldc.toNat))
      (zgemm nb (transOf transa) (transOf transb) m.toNat n.toNat k.toNat alpha beta) mem mem'

theorem transOf_eq {t : Int} (h : t = NoTrans ∨ t = ArgCheck.Trans ∨ t = ConjTrans) :
    transOf t = .noTrans ↔ t = NoTrans := by
  unfold transOf
  rcases h with rfl | rfl | rfl <;> simp

/-- **C41 for `plasma_zgemm`, complete call.** For every combination of argument values the
call either leaves all memory alone and returns minus the position of the first illegal
argument, or all arguments are legal, 0 is returned and `pC` holds the product. -/
theorem C41_zgemm_call {α : Type v} [CommRing α] [StarRing α] [DecidableEq α] {nb : Nat}
    (hnb : 0 < nb) (transa transb m n k : Int) (alpha : α) (lda ldb : Int) (beta : α) (ldc : Int)
    (mem mem' : Buf × Nat → α) (ret : Int)
    (h : plasmaZgemm true nb transa transb m n k alpha lda ldb beta ldc mem mem' ret) :
    ret = firstBad [[NoTrans, ArgCheck.Trans, ConjTrans].contains transa,
      [NoTrans, ArgCheck.Trans, ConjTrans].contains transb, decide (0 ≤ m), decide (0 ≤ n), decide (0 ≤ k),
      true, true, decide (1 ≤ lda ∧ (if transa = NoTrans then m else k) ≤ lda), true,
      decide (1 ≤ ldb ∧ (if transb = NoTrans then k else n) ≤ ldb), true, true,
      decide (1 ≤ ldc ∧ m ≤ ldc)] ∧
    (ret ≠ 0 → mem' = mem) ∧
    (ret = 0 → ∀ i j : Nat, i < m → j < n →
      mem' (.usr 2, i + j * ldc.toNat) = beta * mem (.usr 2, i + j * ldc.toNat) +
        alpha * ∑ l ∈ Finset.range k.toNat,
          opE (transOf transa) (fun p q => mem (.usr 0, p + q * lda.toNat)) i l *
          opE (transOf transb) (fun p q => mem (.usr 1, p + q * ldb.toNat)) l j) := by
  rw [← C41_zgemm]
  unfold plasmaZgemm Call at h
  rw [if_neg (by simp)] at h
  split at h
  · rename_i hc
    exact ⟨h.2, fun _ => h.1, fun h0 => absurd (h.2 ▸ h0) hc⟩
  · rename_i hc
    have hc : zgemmArgs transa transb m n k lda ldb ldc = 0 := by simpa using hc
    obtain ⟨rfl, hx⟩ := h
    refine ⟨hc.symm, fun h0 => absurd rfl h0, fun _ i j hi hj => ?_⟩
    have hleg := firstBad_zero.mp ((C41_zgemm ..).symm.trans hc)
    simp only [List.mem_cons, List.not_mem_nil, or_false, forall_eq_or_imp, forall_eq,
      List.contains_cons, List.contains_nil, Bool.or_false, Bool.or_eq_true, beq_iff_eq,
      decide_eq_true_eq, true_and] at hleg
    obtain ⟨hta, htb, hm, hn, hk, hla, hlb, hlc1, hlc⟩ := hleg
    refine C01_gemm hnb _ _ _ _ _ _ _ _ ?_ alpha beta mem mem' hx i j (by omega) (by omega)
    refine ⟨?_, ?_, by omega⟩
    · simp only [transOf_eq hta]
      obtain ⟨h1, h2⟩ := hla
      split <;> rename_i hh <;> simp only [hh, if_true, if_false] at h2 <;> omega
    · simp only [transOf_eq htb]
      obtain ⟨h1, h2⟩ := hlb
      split <;> rename_i hh <;> simp only [hh, if_true, if_false] at h2 <;> omega

/-- `plasma_zpotrf` (compute/zpotrf.c:74-150) as called from C; allocation succeeds. -/
noncomputable def plasmaZpotrf {𝕜 : Type} [RCLike 𝕜] [DecidableEq 𝕜] (init : Bool) (nb : Nat)
    (pk : Uplo → Nat → Tl 𝕜 → Tl 𝕜) (info : Uplo → Nat → Tl 𝕜 → Nat) (dv : 𝕜 → 𝕜 → 𝕜)
    (uplo n lda : Int) : (Buf × Nat → 𝕜) → (Buf × Nat → 𝕜) → Int → Prop :=
  Call init (zpotrfArgs uplo n lda) fun mem mem' ret =>
    GExec (drvEnvK nb (potDims n.toNat) (ld1 lda.toNat) (fun _ => some (uploOf uplo)))
      (zpotrf nb pk info dv (uploOf uplo) n.toNat) mem mem' ret

/-- **C41 for `plasma_zpotrf`, complete call.** A negative value returned is minus the position
of the first illegal argument and comes with unchanged memory; 0 means the matrix is positive
definite; a positive value is the order of the first leading minor that is not. -/
theorem C41_zpotrf_call {𝕜 : Type} [RCLike 𝕜] [DecidableEq 𝕜] {nb : Nat} (hnb : 0 < nb)
    {pk : Uplo → Nat → Tl 𝕜 → Tl 𝕜} {info : Uplo → Nat → Tl 𝕜 → Nat} (hpk : IsPotrf pk info)
    {dv : 𝕜 → 𝕜 → 𝕜} (hdv : IsDiv dv) (uplo n lda : Int) (mem mem' : Buf × Nat → 𝕜) (ret : Int)
    (h : plasmaZpotrf true nb pk info dv uplo n lda mem mem' ret) :
    (ret < 0 ↔ firstBad [[Upper, Lower].contains uplo, decide (0 ≤ n), true,
      decide (1 ≤ lda ∧ n ≤ lda)] ≠ 0) ∧
    (ret < 0 → mem' = mem ∧ ret = firstBad [[Upper, Lower].contains uplo, decide (0 ≤ n), true,
      decide (1 ≤ lda ∧ n ≤ lda)]) ∧
    (ret = 0 → (herM (uploOf uplo) (arr mem 0 lda.toNat) n.toNat).PosDef) ∧
    (0 < ret → ret ≤ n ∧ ¬ (herM (uploOf uplo) (arr mem 0 lda.toNat) ret.toNat).PosDef ∧
      ∀ p, p < ret.toNat → (herM (uploOf uplo) (arr mem 0 lda.toNat) p).PosDef) := by
  rw [← C41_zpotrf]
  unfold plasmaZpotrf Call at h
  rw [if_neg (by simp)] at h
  have hneg : zpotrfArgs uplo n lda ≤ 0 := by unfold zpotrfArgs; split_ifs <;> decide
  split at h
  · rename_i hc
    obtain ⟨h1, rfl⟩ := h
    exact ⟨⟨fun _ => hc, fun _ => by omega⟩, fun _ => ⟨h1, rfl⟩, fun h0 => absurd h0 hc, fun h0 => by omega⟩
  · rename_i hc
    have hc : zpotrfArgs uplo n lda = 0 := by simpa using hc
    have hleg := firstBad_zero.mp ((C41_zpotrf ..).symm.trans hc)
    simp only [List.mem_cons, List.not_mem_nil, or_false, forall_eq_or_imp, forall_eq,
      List.contains_cons, List.contains_nil, Bool.or_false, Bool.or_eq_true, beq_iff_eq,
      decide_eq_true_eq, true_and] at hleg
    obtain ⟨-, hn, hl1, hl⟩ := hleg
    obtain ⟨h1, h2, -⟩ := C16_potrf_info hnb hpk hdv (uploOf uplo) n.toNat lda.toNat (by omega) mem mem' ret h
    have hnn : 0 ≤ ret := by
      by_cases h0 : ret = 0
      · omega
      · obtain ⟨p, hp, -⟩ := h2 h0; omega
    refine ⟨⟨fun h => by omega, fun h => absurd hc h⟩, fun h => by omega, h1.mp, fun h0 => ?_⟩
    obtain ⟨p, rfl, hp1, hp2, hp3, hp4⟩ := h2 (by omega)
    refine ⟨by omega, ?_, ?_⟩
    · simpa using hp3
    · intro q hq; exact hp4 q (by simpa using hq)

/-- Legal calls with non-trivial work, and calls rejected for their second and eighth argument. -/
example (mem : Buf × Nat → ℤ) :
    (∃ mem', plasmaZgemm true 2 NoTrans ArgCheck.Trans 5 3 4 2 7 8 3 9 mem mem' 0) ∧
    plasmaZgemm true 2 NoTrans 7 5 3 4 2 7 8 3 9 mem mem (-2) ∧
    plasmaZgemm true 2 NoTrans ArgCheck.Trans 5 3 4 2 4 8 3 9 mem mem (-8) := by
  refine ⟨?_, ⟨rfl, rfl⟩, ⟨rfl, rfl⟩⟩
  obtain ⟨mem', h⟩ := driver_exists (nb := 2) (dims := gemmDims .noTrans .trans 5 3 4) (ld := ld3 7 8 9)
    (by decide) (gemm_ld (by simp [GemmLd])) (ompZgemm_good (α := ℤ) (alpha := 2) (beta := 3) (by decide)) mem
  exact ⟨mem', rfl, h⟩

example : firstBad [[Upper, Lower].contains (5 : Int), false] = -1 ∧ firstBad [true, false, true] = -2 := by
  decide

end Verif.Props.Args

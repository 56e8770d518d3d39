/-
The common part of `plasma_zhetrf` and `plasma_zhesv`.
-/
import Verif.HesvEnv
import Verif.GbtrfProof
import Verif.LUSing

set_option linter.unusedSectionVars false

namespace Verif.Aasen

open Verif.Tile Verif.Layout Verif.LU Verif.Panel Verif.Heswp Finset

universe u v w

section
variable {M : Type u} [DecidableEq M] {α : Type v} [Field α] [StarRing α] [DecidableEq α] {γ : Type w}
  [LinearOrder γ] {E : IntCode α} {mag : α → γ} {dv : α → α → α} {big : α → Bool}
  {ib mpt : Nat} {env : M → MatEnv} {z : AC} {Z : AM M} {Q : TMat M}

/-- Codes of the band factorization. -/
theorem gb_code_range {b N kl ku : Nat} {A P : TMat M} (hdv : IsDiv dv) (hmag : IsMag mag) (h : GbOK b N kl ku A P ib mpt) (rg : Bool) (s : Store (M × Nat × Nat) α) {i : Nat}
    (hn : tcode (pzgbtrf rg E mag dv big ib mpt A P) s i ≠ 0) :
    ∃ q : Nat, tcode (pzgbtrf rg E mag dv big ib mpt A P) s i = (q : Int) ∧ 1 ≤ q ∧ q ≤ N := by
  have hmt : min A.d.mt A.d.nt = A.d.mt := by rw [h.nt, Nat.min_self]
  unfold pzgbtrf at hn ⊢
  rw [hmt] at hn ⊢
  have hsh := funext (gbStep_shape (E := E) (P := P) (mag := mag) (dv := dv) (big := big) (ib := ib)
    (mpt := mpt) (A := A) rg)
  rw [hsh, ← List.append_nil (List.flatMap _ _)] at hn ⊢
  have hU : ∀ k : Nat, Safe ([] : List (GTTask (M × Nat × Nat) α)) := fun k t ht => by simp at ht
  obtain ⟨k, hk, rfl⟩ := usteps_nonzero hU (fun k => safe_okT _) (hU 0) hn
  rw [usteps_code hU hk] at hn ⊢
  simp only at hn ⊢
  generalize texec _ (texec _ s) = s' at hn ⊢
  unfold gbCode at hn ⊢
  by_cases h0 : infov (gbOut mag dv big ib mpt A k s') = 0
  · rw [if_pos h0] at hn; exact absurd rfl hn
  · rw [if_neg h0]
    have h1 := ((panel_ok (h.cfg hk) hmag hdv big _ (by rfl) (s' := gbOut mag dv big ib mpt A k s') rfl).2 h0).1
    have h2 : (gbCfg ib mpt A k).mn ≤ gbMak A k := Nat.min_le_left _ _
    have h3 : gbMak A k ≤ A.d.m - k * A.d.mb := Nat.min_le_left _ _
    have hkN := h.lt.mp hk
    rw [h.m, h.a.mb] at h3
    rw [h.a.mb]
    exact ⟨_, rfl, by omega, by omega⟩

/-- With zeros in the other tiles the band matrix is `T`. -/
theorem gbX_triT {b N : Nat} {T : TMat M} (hb : 0 < b) {s : Store (M × Nat × Nat) α}
    (h : ∀ g h, g < N → h < N → bTile none b b b (g / b) (h / b) → ¬ (g / b ≤ h / b + 1 ∧ h / b ≤ g / b + 1) → T.el s g h = 0)
    {r c : Nat} (hr : r < N) (hc : c < N) : gbX b b b T s r c = triT b (T.el s) r c := by
  unfold gbX triT
  by_cases h1 : r / b ≤ c / b + 1 ∧ c / b ≤ r / b + 1
  · rw [if_pos h1, if_pos]
    by_contra hB
    have := bTile_far hb hB
    omega
  · rw [if_neg h1]
    by_cases h2 : bTile none b b b (r / b) (c / b)
    · rw [if_pos h2, h r c hr hc h2 h1]
    · rw [if_neg h2]

/-- The result of the two factorizations: `T0` is the matrix `T` before its factorization. -/
structure HDone (E : IntCode α) (z : AC) (Z : AM M) (Q : TMat M) (A0 : Nat → Nat → α) (s : Store (M × Nat × Nat) α) (T0 : Nat → Nat → α) : Prop where
  rng : ∀ i, i < z.N → i + 1 ≤ E.dec (Z.P.el s i 0) ∧ E.dec (Z.P.el s i 0) ≤ z.N
  fst : ∀ i, i < z.b → i < z.N → E.dec (Z.P.el s i 0) = i + 1
  eq : ∀ r c, r < z.N → c < z.N → A0 (perm (pv E Z.P s) 0 z.N r) (perm (pv E Z.P s) 0 z.N c) =
    ∑ g ∈ range z.N, ∑ h ∈ range z.N, Lf z.b (Z.A.el s) r g * T0 g h * star (Lf z.b (Z.A.el s) c h)
  up : ∀ r g, r < z.N → g < z.N → r ≤ g → Lf z.b (Z.A.el s) r g = if r = g then 1 else 0
  herm : ∀ g h, g < z.N → h < z.N → star (T0 g h) = T0 h g
  band : ∀ g h, g + z.b < h ∨ h + z.b < g → T0 g h = 0
  lu : GbDone E z.b z.N z.b z.b Z.T Q T0 s

theorem HDone.isLf (hb : 0 < z.b) {A0 T0 : Nat → Nat → α} {s : Store (M × Nat × Nat) α} (h : HDone E z Z Q A0 s T0) : IsLf z.b z.N (Z.A.el s) (Lf z.b (Z.A.el s)) where
  up := h.up
  left := by
    intro r g hr hg hgb
    unfold Lf
    rw [if_pos hgb]
  low := by
    intro r g hr hbg hgr
    unfold Lf
    have := Nat.div_mul_le_self g z.b
    rw [if_neg (by omega), if_neg (by omega)]

/-- The two factorizations, from codes that are all zero. -/
theorem hetrf_store (hz : z.OK) (hbN : z.b ≤ z.N) (hZ : AMOK z Z) (hF : AFit env z Z) (hg : GbOK z.b z.N z.b z.b Z.T Q ib mpt)
    (hq : Q.id ≠ Z.A.id ∧ Q.id ≠ Z.W.id ∧ Q.id ≠ Z.P.id) (hmag : IsMag mag) (hdv : IsDiv dv) {rg : Bool} {s : Store (M × Nat × Nat) α}
    (hS : AStart env E z Z s)
    (hT : ∀ g h, g < z.N → h < z.N → bTile none z.b z.b z.b (g / z.b) (h / z.b) → ¬ (g / z.b ≤ h / z.b + 1 ∧ h / z.b ≤ g / z.b + 1) → Z.T.el s g h = 0)
    (hc : ∀ i, tcode (hetrfL rg E mag dv big ib mpt z Z Q) s i = 0) :
    ∃ T0, HDone E z Z Q (herm (Z.A.el s)) (texec (tasks (hetrfL rg E mag dv big ib mpt z Z Q)) s) T0 := by
  have hb := hz.b
  have hc1 : ∀ i, tcode (pzhetrfAasen E mag dv big z Z) s i = 0 := by
    intro i
    by_cases hi : i < (pzhetrfAasen E mag dv big z Z).length
    · have := hc i
      unfold hetrfL at this
      rwa [tcode_append_left _ _ _ hi] at this
    · exact tcode_len _ _ (by omega)
  obtain ⟨s1, hs1⟩ : ∃ s1, s1 = texec (tasks (pzhetrfAasen E mag dv big z Z)) s := ⟨_, rfl⟩
  have hD := aasen_store hz hbN hZ hF hmag hdv hS hc1
  rw [← hs1] at hD
  have hc2 : ∀ i, tcode (pzgbtrf rg E mag dv big ib mpt Z.T Q) s1 i = 0 := by
    intro i
    have := hc ((pzhetrfAasen E mag dv big z Z).length + i)
    unfold hetrfL at this
    rwa [tcode_append_right, ← hs1] at this
  have hX : ∀ r c, r < z.N → c < z.N → gbX z.b z.b z.b Z.T s1 r c = triT z.b (Z.T.el s1) r c := fun r c hr hc =>
    gbX_triT hb (fun g h hg hh hB hn => by rw [hD.far g h hg hh hB hn]; exact hT g h hg hh hB hn) hr hc
  obtain ⟨T0, hT0⟩ : ∃ T0 : Nat → Nat → α, T0 = fun r c => if r ≤ c + z.b ∧ c ≤ r + z.b then triT z.b (Z.T.el s1) r c else 0 := ⟨_, rfl⟩
  have eT : ∀ r c, r < z.N → c < z.N → T0 r c = triT z.b (Z.T.el s1) r c := by
    intro r c hr hc
    rw [hT0]
    simp only
    split
    · rfl
    · exact (hD.band r c hr hc (by omega)).symm
  have hTb : Banded z.b z.b T0 := by
    intro r c h
    rw [hT0]
    exact if_neg (by omega)
  have hlu := pzgbtrf_ok hdv hmag hg rg (Or.inl hTb) s1 (fun r c hr hc => by rw [hX r c hr hc, eT r c hr hc]) hc2
  have hwr := pzgbtrf_writes (E := E) (mag := mag) (dv := dv) (big := big) hg rg
  obtain ⟨s2, hs2⟩ : ∃ s2, s2 = texec (tasks (pzgbtrf rg E mag dv big ib mpt Z.T Q)) s1 := ⟨_, rfl⟩
  rw [← hs2] at hlu
  have e2 : texec (tasks (hetrfL rg E mag dv big ib mpt z Z Q)) s = s2 := by
    unfold hetrfL
    rw [tasks_append, texec_append, ← hs1, hs2]
  have eq : ∀ X : TMat M, X.id ≠ Z.T.id → X.id ≠ Q.id → X.el s2 = X.el s1 := by
    intro X h1 h2
    funext r c
    unfold TMat.el
    rw [hs2, hwr.frame s1]
    rintro (h | h)
    · exact h1 h
    · exact h2 h
  have eA : Z.A.el s2 = Z.A.el s1 := eq _ hZ.at' hq.1.symm
  have eP : Z.P.el s2 = Z.P.el s1 := eq _ hZ.tp.symm hq.2.2.symm
  have epv : pv E Z.P s2 = pv E Z.P s1 := by funext i; unfold pv; rw [eP]
  rw [e2]
  refine ⟨T0, ?_, ?_, ?_, ?_, ?_, ?_, hlu⟩
  · rw [eP]; exact hD.rng
  · rw [eP]; exact hD.fst
  · intro r c hr hc
    rw [eA, epv, hD.eq r c hr hc]
    refine sum_congr rfl fun g hg => sum_congr rfl fun h hh => ?_
    rw [mem_range] at hg hh
    rw [eT g h hg hh]
  · rw [eA]; exact hD.up
  · intro g h hg hh
    rw [eT g h hg hh, eT h g hh hg]; exact hD.herm g h hg hh
  · intro g h hor
    exact hTb g h (by omega)

/-- The result depends on these matrices only. -/
theorem HDone.congr {A0 T0 : Nat → Nat → α} {s s' : Store (M × Nat × Nat) α} (h : HDone E z Z Q A0 s T0) (hA : Z.A.el s' = Z.A.el s)
    (hT : Z.T.el s' = Z.T.el s) (hP : Z.P.el s' = Z.P.el s) (hQ : Q.el s' = Q.el s) : HDone E z Z Q A0 s' T0 := by
  have epv : pv E Z.P s' = pv E Z.P s := by funext i; unfold pv; rw [hP]
  have eqv : pv E Q s' = pv E Q s := by funext i; unfold pv; rw [hQ]
  have eX : gbX z.b z.b z.b Z.T s' = gbX z.b z.b z.b Z.T s := by funext r c; unfold gbX; rw [hT]
  refine ⟨by rw [hP]; exact h.rng, by rw [hP]; exact h.fst, by rw [hA, epv]; exact h.eq, by rw [hA]; exact h.up, h.herm, h.band, ?_⟩
  refine ⟨?_, by rw [eqv, eX]; exact h.lu.inv, by rw [eX]; exact h.lu.dia, by rw [eX]; exact h.lu.low⟩
  intro i hi
  rw [hQ, eqv]
  exact h.lu.rng i hi

/-- The solve. -/
theorem HDone.solve (hdv : IsDiv dv) {A0 T0 : Nat → Nat → α} {s : Store (M × Nat × Nat) α} (h : HDone E z Z Q A0 s T0) (hb : 0 < z.b) {Nn : Nat}
    {B : TMat M} (hs : HsOK z.b z.N Nn Z.A Z.T Z.P Q B) (φ : Nat) (rg : Bool) {r c : Nat} (hr : r < z.N) (hc : c < Nn) :
    ∑ l ∈ range z.N, A0 r l * B.el (texec (hetrsL φ rg E dv Z.A Z.T Z.P Q B) s) l c = B.el s r c := by
  refine hetrsL_el hdv hs φ rg s (fun i hi => ?_) (fun i hi hib => ?_) (h.isLf hb) h.eq h.lu.rng h.lu.inv h.lu.dia hr hc
  · have := h.rng i hi; omega
  · unfold pv; rw [h.fst i hib hi]; rfl

/-- A matrix with these factors is nonsingular. -/
theorem HDone.indep (hdv : IsDiv dv) {A0 T0 : Nat → Nat → α} {s : Store (M × Nat × Nat) α} (h : HDone E z Z Q A0 s T0) (hb : 0 < z.b) {Nn : Nat}
    {B : TMat M} (hs : HsOK z.b z.N Nn Z.A Z.T Z.P Q B) (hn : 0 < Nn) : ColsIndep z.N z.N A0 := by
  have hsur : ∀ y : Fin z.N → α, ∃ x : Fin z.N → α, Matrix.mulVec (Matrix.of fun i j : Fin z.N => A0 i j) x = y := by
    intro y
    obtain ⟨s', hs'⟩ : ∃ s' : Store (M × Nat × Nat) α, s' = fun x i j => if x.1 = B.id then
      (if h : B.row x i < z.N then y ⟨B.row x i, h⟩ else 0) else s x i j := ⟨_, rfl⟩
    have hel : ∀ X : TMat M, X.id ≠ B.id → X.el s' = X.el s := by
      intro X hX
      funext r c
      unfold TMat.el
      rw [hs']
      exact if_neg hX
    have h' : HDone E z Z Q A0 s' T0 := h.congr (hel _ hs.ab) (hel _ hs.tb.ab) (hel _ hs.pb) (hel _ hs.tb.bp.symm)
    have hB : ∀ r, (hr : r < z.N) → B.el s' r 0 = y ⟨r, hr⟩ := by
      intro r hr
      have e : B.row (B.at' (r / B.d.mb) (0 / B.d.nb)) (r % B.d.mb) = r := B.row_at r _
      unfold TMat.el
      rw [hs']
      simp only
      rw [if_pos (show (B.at' (r / B.d.mb) (0 / B.d.nb)).1 = B.id from rfl)]
      simp only [e]
      rw [dif_pos hr]
    refine ⟨fun l => B.el (texec (hetrsL 0 false E dv Z.A Z.T Z.P Q B) s') l 0, ?_⟩
    funext i
    rw [← hB i i.2, ← h'.solve hdv hb hs 0 false i.2 hn, Finset.sum_range]
    rfl
  intro x hx c hc
  have hinj : Function.Injective (Matrix.mulVec (Matrix.of fun i j : Fin z.N => A0 i j)) :=
    (Matrix.mulVec_injective_iff_isUnit).mpr (Matrix.mulVec_surjective_iff_isUnit.mp hsur)
  have h0 : Matrix.mulVec (Matrix.of fun i j : Fin z.N => A0 i j) (fun l => x l) = Matrix.mulVec (Matrix.of fun i j : Fin z.N => A0 i j) 0 := by
    rw [Matrix.mulVec_zero]
    funext i
    have := hx i i.2
    rw [Finset.sum_range] at this
    exact this
  exact congrFun (hinj h0) ⟨c, hc⟩

/-- Arrays written by the factorizations. -/
theorem hetrfL_writes (hz : z.OK) (hZ : AMOK z Z) (hg : GbOK z.b z.N z.b z.b Z.T Q ib mpt) (rg : Bool) :
    Writes (fun x => x.1 = Z.A.id ∨ x.1 = Z.T.id ∨ x.1 = Z.W.id ∨ x.1 = Z.P.id ∨ x.1 = Q.id) (tasks (hetrfL rg E mag dv big ib mpt z Z Q)) := by
  unfold hetrfL
  rw [tasks_append]
  refine Writes.append ?_ ((pzgbtrf_writes hg rg).mono ?_)
  · intro t ht x i j hx
    rw [prog_labs] at ht
    obtain ⟨l, hl, rfl⟩ := List.mem_map.mp ht
    rcases (aTask_ft hz hZ hl).2 x i j hx with ⟨m, c, rfl, -⟩ | ⟨q, rfl, -⟩ | ⟨h, -⟩ | ⟨rfl, -⟩
    · exact Or.inl rfl
    · exact Or.inr (Or.inr (Or.inl rfl))
    · exact Or.inr (Or.inl h)
    · exact Or.inr (Or.inr (Or.inr (Or.inl rfl)))
  · rintro x (h | h)
    · exact Or.inr (Or.inl h)
    · exact Or.inr (Or.inr (Or.inr (Or.inr h)))

/-- Codes of the two factorizations. -/
theorem hetrf_code_range (hz : z.OK) (hmag : IsMag mag) (hdv : IsDiv dv) (hg : GbOK z.b z.N z.b z.b Z.T Q ib mpt) {rg : Bool}
    {s : Store (M × Nat × Nat) α} {i : Nat} (h0 : tcode (hetrfL rg E mag dv big ib mpt z Z Q) s i ≠ 0) :
    ∃ q : Nat, tcode (hetrfL rg E mag dv big ib mpt z Z Q) s i = (q : Int) ∧ 1 ≤ q ∧ q ≤ z.N := by
  unfold hetrfL at h0 ⊢
  by_cases hi : i < (pzhetrfAasen E mag dv big z Z).length
  · rw [tcode_append_left _ _ _ hi] at h0 ⊢
    unfold tcode at h0 ⊢
    rw [List.getElem?_eq_getElem hi] at h0 ⊢
    simp only at h0 ⊢
    obtain ⟨⟨k, st', q⟩, hl, e⟩ := List.mem_map.mp (List.getElem_mem hi)
    rw [← e] at h0 ⊢
    generalize texec _ s = s' at h0 ⊢
    replace h0 : (if st' = 4 then panelC mag dv big z Z k else fun _ => 0) s' ≠ 0 := h0
    show ∃ q : Nat, (if st' = 4 then panelC mag dv big z Z k else fun _ => 0) s' = (q : Int) ∧ 1 ≤ q ∧ q ≤ z.N
    by_cases h4 : st' = 4
    · rw [if_pos h4] at h0 ⊢
      obtain ⟨q, h1, h2, h3⟩ := panelC_range hz hmag hdv ((lab_facts hl).2.2.1 (by omega) (by omega)) _ h0
      exact ⟨q, h1, by omega, h3⟩
    · rw [if_neg h4] at h0
      exact absurd rfl h0
  · obtain ⟨j, rfl⟩ := Nat.exists_eq_add_of_le (Nat.le_of_not_lt hi)
    rw [tcode_append_right] at h0 ⊢
    exact gb_code_range hdv hmag hg rg _ h0

theorem pre_phase {k : Nat} : ∀ t ∈ preT (M := M) dv z Z k, t.phase = 0 := by
  intro t ht
  unfold preT hT diagTT w3T diagHT at ht
  simp only [List.mem_append, List.mem_flatMap, List.mem_ite_nil_right, List.mem_cons, List.mem_map, List.not_mem_nil, or_false] at ht
  split_ifs at ht <;> simp only [List.mem_append, List.mem_flatMap, List.mem_ite_nil_right, List.mem_cons, List.mem_map, List.not_mem_nil, or_false] at ht <;>
  aesop (add norm simp [kGemm, kAdd, kCpL, kExp, kHegst, ker])

theorem aTask_phase (l : ALab) : (aTask E mag dv big z Z l).phase = 0 := by
  unfold aTask
  split
  · rename_i k i
    rcases h : (preT dv z Z k)[i]? with _ | t
    · rfl
    · exact pre_phase t (List.mem_of_getElem? h)
  · split <;> rfl
  all_goals rfl

/-- Phases of the two factorizations. -/
theorem hetrfL_phase {rg : Bool} : ∀ t ∈ tasks (hetrfL rg E mag dv big ib mpt z Z Q), t.phase = 0 := by
  intro t ht
  unfold hetrfL at ht
  rw [tasks_append] at ht
  rcases List.mem_append.mp ht with ht | ht
  · rw [prog_labs] at ht
    obtain ⟨l, -, rfl⟩ := List.mem_map.mp ht
    exact aTask_phase l
  · rw [pzgbtrf_labs] at ht
    obtain ⟨l, -, rfl⟩ := List.mem_map.mp ht
    unfold gbLab
    split_ifs <;> rfl

/-- The tasks of a driver, with conversions `I`, a solve `R` and conversions `O`. -/
theorem hetrf_goodC (hz : z.OK) (hZ : AMOK z Z) (hF : AFit env z Z)
    (hg : GbFit env z.b z.N z.b z.b Z.T Q ib mpt) {rg : Bool} (hon : ∀ k, k < Z.T.d.mt → gbSec rg Z.T k = true)
    (hq : Q.id ≠ Z.A.id ∧ Q.id ≠ Z.W.id ∧ Q.id ≠ Z.P.id)
    {I R O : List (TTask (M × Nat × Nat) α)} {p : Nat} (hgI : GoodC (evalid env) I) (hI : ∀ t ∈ I, t.phase = 0)
    (hgR : GoodC (evalid env) R) (hR : ∀ t ∈ R, 1 < t.phase ∧ t.phase < p) (hgO : GoodC (evalid env) O) (hO : ∀ t ∈ O, t.phase = p) (hp : 1 < p) :
    GoodC (evalid env) (I ++ ((tasks (hetrfL rg E mag dv big ib mpt z Z Q)).map (phT 1) ++ R) ++ O) := by
  have hgL := hetrfL_good (E := E) (mag := mag) (dv := dv) (big := big) hz hZ hF hg hon hq
  have hL0 := hetrfL_phase (E := E) (mag := mag) (dv := dv) (big := big) (ib := ib) (mpt := mpt) (z := z) (Z := Z) (Q := Q) (rg := rg)
  set L := hetrfL rg E mag dv big ib mpt z Z Q with hL
  have hgL1 : GoodC (evalid env) ((tasks L).map (phT 1)) := goodC_phT hgL hL0
  refine GoodC.phases (GoodC.phases hgI (GoodC.phases hgL1 hgR ?_) ?_) hgO ?_
  · intro t ht t' ht'
    rw [phT_mem t ht]; exact (hR t' ht').1
  · intro t ht t' ht'
    rw [hI t ht]
    rcases List.mem_append.mp ht' with h | h
    · rw [phT_mem t' h]; exact Nat.one_pos
    · have := (hR t' h).1; omega
  · intro t ht t' ht'
    rw [hO t' ht']
    simp only [List.mem_append] at ht
    rcases ht with ht | ht | ht
    · rw [hI t ht]; omega
    · rw [phT_mem t ht]; exact hp
    · exact (hR t ht).2

/-- **Core.** Input conversions `I`, the factorizations, tasks `R` that cannot fail, output conversions `O`. -/
theorem hetrf_core (hwf : ∀ a, (env a).WF) (hz : z.OK) (hbN : z.b ≤ z.N) (hZ : AMOK z Z) (hF : AFit env z Z)
    (hg : GbFit env z.b z.N z.b z.b Z.T Q ib mpt) {rg : Bool} (hon : ∀ k, k < Z.T.d.mt → gbSec rg Z.T k = true)
    (hq : Q.id ≠ Z.A.id ∧ Q.id ≠ Z.W.id ∧ Q.id ≠ Z.P.id) (hmag : IsMag mag) (hdv : IsDiv dv)
    {I R O : List (TTask (M × Nat × Nat) α)} {p : Nat} (hgI : GoodC (evalid env) I) (hI : ∀ t ∈ I, t.phase = 0)
    (hgR : GoodC (evalid env) R) (hR : ∀ t ∈ R, 1 < t.phase ∧ t.phase < p) (hgO : GoodC (evalid env) O) (hO : ∀ t ∈ O, t.phase = p) (hp : 1 < p)
    {mem mem' : M × Nat → α} {st : Int}
    (hS : AStart env E z Z (texec I (view (eloc env) mem)))
    (hT : ∀ g h, g < z.N → h < z.N → bTile none z.b z.b z.b (g / z.b) (h / z.b) → ¬ (g / z.b ≤ h / z.b + 1 ∧ h / z.b ≤ g / z.b + 1) →
      Z.T.el (texec I (view (eloc env) mem)) g h = 0)
    (hx : GExec env (okT I ++ (phG 1 (hetrfL rg E mag dv big ib mpt z Z Q) ++ okT R) ++ okT O) mem mem' st) :
    GoodC (evalid env) (I ++ ((tasks (hetrfL rg E mag dv big ib mpt z Z Q)).map (phT 1) ++ R) ++ O) ∧
    (st = 0 → Exec env (I ++ ((tasks (hetrfL rg E mag dv big ib mpt z Z Q)).map (phT 1) ++ R) ++ O) mem mem' ∧
      ∃ T0, HDone E z Z Q (herm (Z.A.el (texec I (view (eloc env) mem))))
        (texec (tasks (hetrfL rg E mag dv big ib mpt z Z Q)) (texec I (view (eloc env) mem))) T0) ∧
    (st ≠ 0 → ∃ q : Nat, st = (q : Int) ∧ 1 ≤ q ∧ q ≤ z.N) ∧
    (st = 0 ↔ ∀ i, tcode (hetrfL rg E mag dv big ib mpt z Z Q) (texec I (view (eloc env) mem)) i = 0) := by
  have hg' := hetrf_goodC (E := E) (mag := mag) (dv := dv) (big := big) hz hZ hF hg hon hq hgI hI hgR hR hgO hO hp
  have hcL := hetrfL_codeOK (E := E) (mag := mag) (dv := dv) (big := big) hz hZ hg.ok rg
  set L := hetrfL rg E mag dv big ib mpt z Z Q with hL
  have e1 : tasks (phG 1 L ++ okT R) = (tasks L).map (phT 1) ++ R := by
    rw [tasks_append, tasks_okT, tasks_phG]
  have hg2 : GoodC (evalid env) (I ++ tasks (phG 1 L ++ okT R) ++ O) := by rw [e1]; exact hg'
  have hco : CodeOK (phG 1 L ++ okT R) := (phG_codeOK hcL).append (CodeOK.ok _)
  set s := texec I (view (eloc env) mem) with hs
  have hcode : ∀ i, tcode (phG 1 L ++ okT R) s i = tcode L s i := by
    intro i
    by_cases hi : i < (phG 1 L).length
    · rw [tcode_append_left _ _ _ hi, tcode_phG]
    · obtain ⟨j, rfl⟩ := Nat.exists_eq_add_of_le (Nat.le_of_not_lt hi)
      rw [tcode_append_right, tcode_ok, tcode_len]
      have : (phG 1 L).length = L.length := by simp [phG]
      omega
  refine ⟨hg', ?_, ?_, ?_, ?_⟩
  rotate_left 2
  · rintro rfl i
    rw [← hcode]
    exact (sand_success hwf hg2 hco hx).2 i
  · intro h0
    by_contra h1
    obtain ⟨i, hi⟩ := sand_failure_some hwf hg2 hco hx h1
    rw [hcode, h0] at hi
    exact h1 hi.symm
  · rintro rfl
    obtain ⟨hx', hc⟩ := sand_success hwf hg2 hco hx
    rw [e1] at hx'
    exact ⟨hx', hetrf_store hz hbN hZ hF hg.ok hq hmag hdv hS hT (fun i => by rw [← hL, ← hcode]; exact hc i)⟩
  · intro h0
    obtain ⟨i, hi⟩ := sand_failure_some hwf hg2 hco hx h0
    rw [hcode] at hi
    rw [← hi] at h0 ⊢
    exact hetrf_code_range hz hmag hdv hg.ok h0

end

end Verif.Aasen

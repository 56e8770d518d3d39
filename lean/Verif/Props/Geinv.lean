/-
Properties of `plasma_zgeinv`.
-/
import Verif.Geinv
import Verif.Props.Getri
import Verif.Props.LuRace
import Verif.ArgCheck

set_option linter.unusedSectionVars false

namespace Verif.Props

open Verif.Layout Verif.Sched Verif.Tile Verif.LU Verif.Panel Finset
open Verif.ArgCheck (zgeinvArgs)

universe u v w

section
variable {α : Type v} {nb : Nat} {dims : Nat → Nat × Nat} {ld : Nat → Nat} {st : Nat → Stor}

/-- **Driver theorem**, failure: the status is that of a task before which no task fails. -/
theorem gdrvC_failure_pred (hnb : 0 < nb) (hld : ∀ k, (dims k).1 ≤ ld k)
    (hsq : ∀ k, stSq (st k) (dims k).1 (dims k).2) {ins outs : List Nat}
    (hins : ins.Nodup) {P : List (GTTask (Buf × Nat × Nat) α)} (hC : CodeOK P)
    (hg : GoodC (evalid (drvEnvK nb dims ld st)) (tasks (gdriverK nb dims st ins P outs)))
    {mem mem' : Buf × Nat → α} {stat : Int}
    (h : GExec (drvEnvK nb dims ld st) (gdriverK nb dims st ins P outs) mem mem' stat)
    (h0 : stat ≠ 0) :
    ∃ s : Store (Buf × Nat × Nat) α,
      (∀ k ∈ ins, ∀ r c, r < (dims k).1 → c < (dims k).2 → stOK (st k) (r / nb) (c / nb) →
        (tMat nb dims k).el s r c = mem (.usr k, r + c * ld k)) ∧
      ∃ i, tcode P s i = stat ∧ ∀ j, Relation.TransGen (TEdge (tasks P)) j i → tcode P s j = 0 := by
  have hwf := drvEnvK_wf (nb := nb) hnb hld hsq
  have hcode : CodeOK (gdriverK nb dims st ins P outs) := ((CodeOK.ok _).append hC).append (CodeOK.ok _)
  refine ⟨_, gdriverK_ins hnb hsq hins mem, ?_⟩
  obtain ⟨i, hi, h1, h2⟩ := h.failureC hwf hg hcode h0
  set I := okT (ins.flatMap fun k => copyK (α := α) (st k) (tMat nb dims k) (uMat nb dims k) (tMat nb dims k)) with hI
  set O := okT (outs.flatMap fun k => copyK (α := α) (st k) (tMat nb dims k) (tMat nb dims k) (uMat nb dims k)) with hO
  have hD : gdriverK nb dims st ins P outs = I ++ (P ++ O) := by simp [gdriverK, hI, hO]
  rw [hD] at h1 h2
  have hge : I.length ≤ i := by
    by_contra hlt
    rw [tcode_append_left _ _ _ (by omega), hI, tcode_ok] at h1
    exact h0 h1.symm
  obtain ⟨j, rfl⟩ := Nat.exists_eq_add_of_le hge
  rw [tcode_append_right] at h1
  have hjl : j < P.length := by
    by_contra hlt
    obtain ⟨k, rfl⟩ := Nat.exists_eq_add_of_le (Nat.le_of_not_lt hlt)
    rw [tcode_append_right, hO, tcode_ok] at h1
    exact h0 h1.symm
  have htI : tasks I = ins.flatMap fun k => copyK (α := α) (st k) (tMat nb dims k) (uMat nb dims k) (tMat nb dims k) := by
    rw [hI, tasks_okT]
  rw [htI, tcode_append_left _ _ _ hjl] at h1
  refine ⟨j, h1, fun b hb => ?_⟩
  have hbl : b < P.length := by
    by_contra hlt
    have : ∀ {x y}, Relation.TransGen (TEdge (tasks P)) x y → x < y := by
      intro x y h
      induction h with
      | single h => exact h.1
      | tail _ h ih => exact lt_trans ih h.1
    have := this hb
    omega
  have := h2 (I.length + b) ?_
  · rwa [tcode_append_right, htI, tcode_append_left _ _ _ hbl] at this
  · rw [tasks_append, tasks_append]
    have := ttrans_append_right (tasks I) (ttrans_append_left (tasks O) hb)
    rwa [tasks_length] at this

end

section
variable {α : Type v} [Field α] [StarRing α] [DecidableEq α] {γ : Type w} [LinearOrder γ]

/-- `plasma_omp_zgeinv` (compute/zgeinv.c:192-236) for valid arguments.  The master thread tests
the status before it creates the tasks of each of the functions; here they are always created. -/
noncomputable def ompZgeinv (rg : Bool) (E : IntCode α) (mag : α → γ) (tk : Uplo → Diag → Nat → Tl α → Tl α)
    (info : Uplo → Diag → Nat → Tl α → Nat) (dv : α → α → α) (big : α → Bool) (ib mpt : Nat) (A P W : TMat Buf) :
    List (GTTask (Buf × Nat × Nat) α) :=
  if A.d.m = 0 ∨ A.d.n = 0 then [] else
    pzgetrf rg E mag dv big ib mpt A P ++
      (pztrtri tk info dv .upper .nonUnit A ++ (pzgetriAux dv A W ++ rawT (pzgeswp rg E false false A P)))

/-- Tasks created by `plasma_zgeinv` (compute/zgeinv.c:62-145) for a matrix with `m = n` and
otherwise valid arguments: array 0 is `A`, array 1 is `ipiv`, tile matrix 2 is the `n`-by-`nb`
workspace `W`. -/
noncomputable def zgeinv (rg : Bool) (E : IntCode α) (mag : α → γ) (tk : Uplo → Diag → Nat → Tl α → Tl α)
    (info : Uplo → Diag → Nat → Tl α → Nat) (dv : α → α → α) (big : α → Bool) (nb ib mpt n : Nat) :
    List (GTTask (Buf × Nat × Nat) α) :=
  if n = 0 then [] else
    gdriverK nb (gsDims n nb) (fun _ => none) [0]
      (ompZgeinv rg E mag tk info dv big ib mpt (tMat nb (gsDims n nb) 0) (uMat nb (gsDims n nb) 1)
        (tMat nb (gsDims n nb) 2)) [0]

variable {E : IntCode α} {mag : α → γ} {tk : Uplo → Diag → Nat → Tl α → Tl α} {info : Uplo → Diag → Nat → Tl α → Nat}
  {dv : α → α → α} {big : α → Bool} {nb ib mpt n lda : Nat}

theorem tasks_ompZgeinv {rg : Bool} {A P W : TMat Buf} (h : ¬ (A.d.m = 0 ∨ A.d.n = 0)) :
    tasks (ompZgeinv rg E mag tk info dv big ib mpt A P W) =
      (tasks (pzgetrf rg E mag dv big ib mpt A P) ++ (tasks (pztrtri tk info dv .upper .nonUnit A) ++
        tasks (pzgetriAux dv A W))) ++ pzgeswp rg E false false A P := by
  unfold ompZgeinv
  rw [if_neg h]
  simp [tasks_append]

theorem geinv_anch (htk : IsTrtri tk info) (hnb : 0 < nb) (hib : 0 < ib) (hmpt : 0 < mpt) :
    AnchPath (tMat nb (gsDims n nb) 0)
      (tasks (pzgetrf true E mag dv big ib mpt (tMat nb (gsDims n nb) 0) (uMat nb (gsDims n nb) 1)) ++
      (tasks (pztrtri tk info dv .upper .nonUnit (tMat nb (gsDims n nb) 0)) ++
        tasks (pzgetriAux dv (tMat nb (gsDims n nb) 0) (tMat nb (gsDims n nb) 2)))) := by
  have hok := gi_ok (n := n) hnb
  have hg := gi_good (dv := dv) (n := n) htk hnb (ld := fun _ => 0)
  have hl := pzgetrf_good (E := E) (mag := mag) (dv := dv) (big := big) (gsv_fit (n := n) (nrhs := nb) (lda := 0) (ldb := 0) hnb hib hmpt)
  rw [← List.append_assoc]
  refine AnchPath.anchor (fun t ht => ?_) ?_
    (pzgetriAux_anch hok (env := drvEnvK nb (gsDims n nb) (fun _ => 0) (fun _ => none)) (fitsK_gen hnb rfl)
      (fitsK_gen hnb rfl) rfl rfl)
  · rcases List.mem_append.mp ht with ht | ht
    · exact hl.decl t ht
    · exact hg.decl t (List.mem_append_left _ ht)
  · intro t _ m q k l hm hq _
    exact pzgetriAux_dep hm (by rw [hok.mt, ← hok.nt]; exact hq)

theorem zgeinv_goodC (htk : IsTrtri tk info) (hnb : 0 < nb) (hib : 0 < ib) (hmpt : 0 < mpt) (hn : ¬ n = 0) :
    GoodC (evalid (drvEnvK nb (gsDims n nb) (gsLd n lda n) (fun _ => none)))
      (tasks (gdriverK nb (gsDims n nb) (fun _ => none) [0]
        (ompZgeinv true E mag tk info dv big ib mpt (tMat nb (gsDims n nb) 0) (uMat nb (gsDims n nb) 1)
          (tMat nb (gsDims n nb) 2)) [0])) := by
  have hn' : ¬ ((tMat nb (gsDims n nb) 0).d.m = 0 ∨ (tMat nb (gsDims n nb) 0).d.n = 0) := by
    show ¬ (n = 0 ∨ n = 0); omega
  rw [tasks_gdriverK, tasks_ompZgeinv hn']
  have hg1 := (pzgetrf_good (E := E) (mag := mag) (dv := dv) (big := big)
    (gsv_fit (n := n) (nrhs := nb) (lda := lda) (ldb := n) hnb hib hmpt)).append
    (gi_good (dv := dv) (n := n) htk hnb (ld := gsLd n lda n))
  have h0 := driverK_good (α := α) (ins := [0]) (outs := [0]) (ld := gsLd n lda n) hnb (gs_sq (n := n) (nrhs := nb)) hg1
  have ha := geinv_anch (E := E) (mag := mag) (dv := dv) (big := big) (n := n) htk hnb hib hmpt
  unfold driverK at h0 ⊢
  set L1 := tasks (pzgetrf true E mag dv big ib mpt (tMat nb (gsDims n nb) 0) (uMat nb (gsDims n nb) 1)) ++
      (tasks (pztrtri tk info dv .upper .nonUnit (tMat nb (gsDims n nb) 0)) ++
        tasks (pzgetriAux dv (tMat nb (gsDims n nb) 0) (tMat nb (gsDims n nb) 2))) with hL1
  set I := [0].flatMap fun k => copyK (α := α) none (tMat nb (gsDims n nb) k) (uMat nb (gsDims n nb) k)
    (tMat nb (gsDims n nb) k) with hI
  set O := [0].flatMap fun k => copyK (α := α) none (tMat nb (gsDims n nb) k) (tMat nb (gsDims n nb) k)
    (uMat nb (gsDims n nb) k) with hO
  set S := pzgeswp true E false false (tMat nb (gsDims n nb) 0) (uMat nb (gsDims n nb) 1) with hS
  have e1 : I ++ (L1 ++ S) ++ O = (I ++ L1) ++ S ++ O := by simp
  rw [e1]
  have hne : (tMat nb (gsDims n nb) 0).id ≠ (uMat nb (gsDims n nb) 1).id := by simp [tMat, uMat, TMat.full]
  have hfit : SwpFit (drvEnvK nb (gsDims n nb) (gsLd n lda n) (fun _ => none)) nb (tMat nb (gsDims n nb) 0)
      (uMat nb (gsDims n nb) 1) (tMat nb (gsDims n nb) 0).d.n :=
    ⟨fitsK_gen hnb rfl, fitsK_u hnb 1, hne, rfl, le_refl n⟩
  refine ⟨?_, ?_, ?_⟩
  · intro t ht
    rcases List.mem_append.mp ht with ht | ht
    · rcases List.mem_append.mp ht with ht | ht
      · exact h0.loc t (List.mem_append_left _ ht)
      · exact pzgeswp_cols_local hfit.fa.al hfit.fp.al t ht
    · exact h0.loc t (List.mem_append_right _ ht)
  · intro t ht
    rcases List.mem_append.mp ht with ht | ht
    · rcases List.mem_append.mp ht with ht | ht
      · exact h0.ins t (List.mem_append_left _ ht)
      · exact pzgeswp_cols_inside hfit t ht
    · exact h0.ins t (List.mem_append_right _ ht)
  · refine geswp_cov_colsW (al_t hnb 0) (al_u hnb 1) hne rfl (le_refl n) h0.decl (AnchPath.append ?_ ha)
    intro i t ht m q k l hm hq hx
    have htI := List.mem_of_getElem? ht
    obtain ⟨n', hn', hdep⟩ := anchRows_of (A := tMat nb (gsDims n nb) 0) (L := I)
      (fun t ht => h0.decl t (List.mem_append_left _ (List.mem_append_left _ ht)))
      (fun t ht x i j hr => by
        obtain ⟨k, hk⟩ := ins_reads ht hr
        rw [hk]; simp [tMat, TMat.full]) t htI m q k l hm hq hx
    exact ⟨i, t, n', ht, hn', hdep, Relation.ReflTransGen.refl⟩

theorem ompZgeinv_codeOK (htk : IsTrtri tk info) {rg : Bool} {A P W : TMat Buf} {b : Nat} (hL : LuOK b A P ib mpt)
    (hm : A.d.m = n) (hn : A.d.n = n) : CodeOK (ompZgeinv rg E mag tk info dv big ib mpt A P W) := by
  unfold ompZgeinv
  split
  · exact CodeOK.nil
  · exact (pzgetrf_codeOK hL rg).append ((pztrtri_codeOK htk hL.a hm hn).append
      (pzgetriAux_codeOK.append (codeOK_raw _)))

/-- A task of `pztrtri` that fails inverts the diagonal tile with the zero it reports. -/
theorem trtri_task (htk : IsTrtri tk info) {M : Type u} [DecidableEq M] {A : TMat M} {b N : Nat} (hA : A.Al b)
    (hm : A.d.m = N) (hn : A.d.n = N) {s : Store (M × Nat × Nat) α} {i : Nat}
    (hi : tcode (pztrtri tk info dv .upper .nonUnit A) s i ≠ 0) :
    ∃ (t : GTTask (M × Nat × Nat) α) (r : Nat), (pztrtri tk info dv .upper .nonUnit A)[i]? = some t ∧ r < N ∧
      A.el s r r = 0 ∧ (A.at' (r / b) (r / b), true) ∈ t.task.deps := by
  obtain ⟨-, r, h2, h3, h4⟩ := pztrtri_bad (dv := dv) (u := .upper) (d := .nonUnit) htk hA hm hn s hi
  have hb := hA.pos
  unfold tcode at hi h2
  cases ht : (pztrtri tk info dv .upper .nonUnit A)[i]? with
  | none => rw [ht] at hi; exact absurd rfl hi
  | some t =>
    rw [ht] at hi h2
    dsimp only at hi h2
    refine ⟨t, r, rfl, h3, h4, ?_⟩
    have hmem := List.mem_of_getElem? ht
    rw [pztrtri_eq hA hm hn] at hmem
    obtain ⟨k, hk, hmem⟩ := List.mem_flatMap.mp hmem
    unfold tiStep at hmem
    rcases List.mem_append.mp hmem with hmem | hmem
    · exact absurd (safe_ok _ t hmem _) hi
    · rw [List.mem_singleton] at hmem
      subst hmem
      simp only [coreTrtri] at h2 hi
      have hne : info .upper .nonUnit (tdim N b k)
          (texec ((tasks (pztrtri tk info dv .upper .nonUnit A)).take i) s (pt .upper A (k, k))) ≠ 0 := by
        intro h0; simp [h0] at hi
      obtain ⟨j, hj⟩ := Nat.exists_eq_succ_of_ne_zero hne
      obtain ⟨-, g2, -⟩ := htk.bad _ _ _ _ j hj
      rw [tdim_row] at g2
      rw [if_pos hne, hj] at h2
      have hr : r = b * k + j := by push_cast at h2; omega
      have hq : r / b = k := by rw [hr, Nat.mul_add_div hb, Nat.div_eq_of_lt g2.1, Nat.add_zero]
      rw [hq]
      simp [coreTrtri, op0, pt]

/-- The tasks after the factorization, on tiles that hold the factors of `A0`. -/
theorem geinv_core (htk : IsTrtri tk info) (hdv : IsDiv dv) (hnb : 0 < nb) (rg : Bool)
    (s : Store (Buf × Nat × Nat) α) {A0 : Nat → Nat → α}
    (hp : ∀ i, i < n → 1 ≤ E.dec ((uMat nb (gsDims n nb) 1).el s i 0) ∧
      E.dec ((uMat nb (gsDims n nb) 1).el s i 0) ≤ n)
    (hlu : ∀ r c, r < n → c < n → A0 (perm (pv E (uMat nb (gsDims n nb) 1) s) 0 n r) c =
      ∑ l ∈ range n, luL ((tMat nb (gsDims n nb) 0).el s) r l * luU ((tMat nb (gsDims n nb) 0).el s) l c)
    (hz : ∀ i, tcode (pztrtri tk info dv .upper .nonUnit (tMat nb (gsDims n nb) 0)) s i = 0)
    {i j : Nat} (hi : i < n) (hj : j < n) :
    ∑ l ∈ range n, (tMat nb (gsDims n nb) 0).el (texec (pzgeswp rg E false false (tMat nb (gsDims n nb) 0)
        (uMat nb (gsDims n nb) 1)) (texec (tasks (pzgetriAux dv (tMat nb (gsDims n nb) 0) (tMat nb (gsDims n nb) 2)))
        (texec (tasks (pztrtri tk info dv .upper .nonUnit (tMat nb (gsDims n nb) 0))) s))) i l * A0 l j =
      (if i = j then 1 else 0) := by
  set A := tMat nb (gsDims n nb) 0 with hAd
  set W := tMat nb (gsDims n nb) 2 with hWd
  set P := uMat nb (gsDims n nb) 1 with hPd
  have hA : A.Al nb := al_t hnb 0
  set s1 := texec (tasks (pztrtri tk info dv .upper .nonUnit A)) s with hs1
  set s2 := texec (tasks (pzgetriAux dv A W)) s1 with hs2
  have hP2 : P.el s2 = P.el s := by
    funext r c
    simp only [TMat.el]
    rw [hs2, pzgetriAux_writes.frame s1, hs1, (pztrtri_writes (N := n) hA rfl rfl).frame s]
    · simp [hPd, hAd, tMat, uMat, TMat.full, TMat.at']
    · simp [hPd, hAd, hWd, tMat, uMat, TMat.full, TMat.at']
  have hpv : pv E P s2 = pv E P s := by funext i; unfold pv; rw [hP2]
  have hpl : ∀ i, i < n → pv E P s i < n := fun i hi => by have := hp i hi; unfold pv; omega
  have hne : A.id ≠ P.id := by simp [hAd, hPd, tMat, uMat, TMat.full]
  have hinv := low_inv (fun r c hr hc => pztrtri_ok (N := n) htk hdv hA rfl rfl s hz (r := r) (c := c) hr hc)
  rw [trE_upper, trE_upper] at hinv
  refine getri_math (π := perm (pv E P s) 0 n) (L := luL (A.el s)) (U := luU (A.el s))
    (X := A.el s2) (Z := luU (A.el s1)) (fun r hr => perm_lt (le_refl _) hpl hr)
    (fun r hr => perm_inv_lt (le_refl _) hpl hr) hlu ?_ ?_ ?_ hi hj
  · intro r c hr hc
    exact inv_comm hinv r c hr hc
  · intro r c hr hc
    rw [← pzgetriAux_el (n := n) hdv (gi_ok hnb) s1 hr hc]
    refine sum_congr rfl fun l hl => ?_
    rw [mem_range] at hl
    congr 1
    unfold luL
    by_cases hcl : c < l
    · rw [if_pos hcl, if_pos hcl, hs1,
        pztrtri_frame (N := n) hA rfl rfl s (Or.inl (by simp only [inTri]; omega))]
    · rw [if_neg hcl, if_neg hcl]
  · intro r c hr hc
    have := (pzgeswp_cols_eff (E := E) (P := P) hA hne rg false s2 (fun i hi => by
      rw [hP2]; exact hp i hi)).1 r c hr hc
    refine this.trans ?_
    rw [hpv, show false = !true from rfl, swpPerm_inv, swpPerm_fwd]
    rfl

theorem geinv_writes {rg : Bool} (hnb : 0 < nb) (hn : ¬ n = 0) :
    OnTilesW [1] (tasks (ompZgeinv rg E mag tk info dv big ib mpt (tMat nb (gsDims n nb) 0) (uMat nb (gsDims n nb) 1)
          (tMat nb (gsDims n nb) 2))) := by
  rw [tasks_ompZgeinv (show ¬ (n = 0 ∨ n = 0) by omega)]
  refine Writes.append (Writes.append ((pzgetrf_writes rg).mono fun x hx => ?_)
    ((gi_writes hnb).mono fun x hx => ?_)) (pzgeswp_writes.mono fun x hx => Or.inl ⟨0, hx⟩)
  · rcases hx with hx | hx
    · exact Or.inl ⟨0, hx⟩
    · exact Or.inr ⟨1, by simp, hx⟩
  · rcases hx with hx | hx
    · exact Or.inl ⟨0, hx⟩
    · exact Or.inl ⟨2, hx⟩

theorem geinv_rest_safe {rg : Bool} {A P W : TMat Buf} :
    Safe (pzgetriAux dv A W ++ rawT (pzgeswp rg E false false A P)) := ompZgetri_safe

/-- Where the status of `plasma_omp_zgeinv` comes from: never from the inversion of the factor. -/
theorem geinv_fail (htk : IsTrtri tk info) (hdv : IsDiv dv) (hmag : IsMag mag) {rg : Bool} {A P W : TMat Buf}
    {b : Nat} (h : LuOK b A P ib mpt) (hm : A.d.m = n) (hn : A.d.n = n) (hn0 : 0 < n)
    (s : Store (Buf × Nat × Nat) α) {i : Nat}
    (hi : tcode (ompZgeinv rg E mag tk info dv big ib mpt A P W) s i ≠ 0)
    (hz : ∀ j, Relation.TransGen (TEdge (tasks (ompZgeinv rg E mag tk info dv big ib mpt A P W))) j i →
      tcode (ompZgeinv rg E mag tk info dv big ib mpt A P W) s j = 0) :
    ∃ q : Nat, q < n ∧ tcode (ompZgeinv rg E mag tk info dv big ib mpt A P W) s i = ((q + 1 : Nat) : Int) ∧
      FailAt n (A.el s) q := by
  have hmn : ¬ (A.d.m = 0 ∨ A.d.n = 0) := by omega
  have hb := h.a.pos
  unfold ompZgeinv at hi hz ⊢
  simp only [if_neg hmn] at hi hz ⊢
  set F := pzgetrf rg E mag dv big ib mpt A P with hF
  set Tr := pztrtri tk info dv .upper .nonUnit A with hTr
  set R := pzgetriAux dv A W ++ rawT (pzgeswp rg E false false A P) with hR
  by_cases hlt : i < F.length
  · rw [tcode_append_left _ _ _ hlt] at hi ⊢
    have hlow : ∀ j, j < i → tcode F s j = 0 := by
      intro j hj
      by_contra hne
      have hch := pzgetrf_chain (E := E) (mag := mag) (dv := dv) (big := big) (ib := ib) (mpt := mpt) (A := A) (P := P) rg
      rw [← hF] at hch
      have e1 := List.getElem?_eq_getElem hlt
      have e2 := List.getElem?_eq_getElem (show j < F.length by omega)
      have h1 : ∃ s, (F[i]).code s ≠ 0 := ⟨_, by unfold tcode at hi; rw [e1] at hi; exact hi⟩
      have h2 : ∃ s, (F[j]'(by omega)).code s ≠ 0 := ⟨_, by unfold tcode at hne; rw [e2] at hne; exact hne⟩
      have := hz j (by rw [tasks_append]; exact ttrans_append_left _ (hch j i _ _ hj e2 e1 h2 h1))
      rw [tcode_append_left _ _ _ (by omega)] at this
      exact hne this
    obtain ⟨q, hq, h1, h2⟩ := pzgetrf_fail hdv hmag h rg s hi hlow
    rw [hm] at h2
    exact ⟨q, by omega, h1, h2⟩
  · obtain ⟨j, rfl⟩ := Nat.exists_eq_add_of_le (Nat.le_of_not_lt hlt)
    exfalso
    rw [tcode_append_right] at hi
    have hj : j < Tr.length := by
      by_contra hc
      obtain ⟨k, rfl⟩ := Nat.exists_eq_add_of_le (Nat.le_of_not_lt hc)
      rw [tcode_append_right] at hi
      exact hi (tcode_safe0 geinv_rest_safe _ _)
    rw [tcode_append_left _ _ _ hj] at hi
    obtain ⟨t, r, ht, hr, hr0, hd⟩ := trtri_task htk h.a hm hn hi
    have hK : r / b < min A.d.mt A.d.nt := by
      have h1 := h.a.lt_mt (k := r / b)
      have h2 := h.a.lt_nt (k := r / b)
      have : r / b * b ≤ r := Nat.div_mul_le_self r b
      rw [hm] at h1; rw [hn] at h2
      have := h1.mpr (by omega)
      have := h2.mpr (by omega)
      omega
    refine lu_diag (E := E) (P := P) (big := big) hdv hmag h rg (K := r / b + 1) hK s (fun k hk => ?_) (c := r) ?_ hr0
    · exact lu_before rg hK (Q := Tr ++ R) (q := j) (t := t) ((List.getElem?_append_left hj).trans ht) hd hz
        (by omega)
    · have : r < (r / b + 1) * b := by
        rw [Nat.add_mul, Nat.one_mul]; exact Nat.lt_div_mul_add hb
      omega

/-- **C63.** `plasma_zgeinv` for a square matrix with array sections of depend clauses matched by
region.  It returns 0 exactly if the columns of `A` are independent.  Then array `A` holds the
inverse, on both sides, and `ipiv` valid pivots.  Otherwise it returns one plus the index of the
first column that depends on the columns before it, whatever the order of the tasks.  Only `A` and
`ipiv` change. -/
theorem C63_geinv_partial (htk : IsTrtri tk info) (hdv : IsDiv dv) (hmag : IsMag mag) (hnb : 0 < nb) (hib : 0 < ib)
    (hmpt : 0 < mpt) (hl : n ≤ lda) (mem mem' : Buf × Nat → α) (stat : Int)
    (hx : GExec (drvEnvK nb (gsDims n nb) (gsLd n lda n) (fun _ => none))
      (zgeinv true E mag tk info dv big nb ib mpt n) mem mem' stat) :
    (stat = 0 ↔ ColsIndep n n (arr mem 0 lda)) ∧
    (stat = 0 →
      (∀ i j, i < n → j < n →
        ∑ l ∈ range n, arr mem' 0 lda i l * arr mem 0 lda l j = (if i = j then 1 else 0) ∧
        ∑ l ∈ range n, arr mem 0 lda i l * arr mem' 0 lda l j = (if i = j then 1 else 0)) ∧
      (∀ i, i < n → 1 ≤ E.dec (mem' (.usr 1, i)) ∧ i ≤ ipv E mem' i ∧ ipv E mem' i < n)) ∧
    (stat ≠ 0 → ∃ q : Nat, q < n ∧ stat = ((q + 1 : Nat) : Int) ∧
      ColsIndep n q (arr mem 0 lda) ∧ ColDep n q (arr mem 0 lda)) ∧
    (∀ k x, (k = 0 → ∀ i j, i < n → j < n → x ≠ i + j * lda) → (k = 1 → n ≤ x) →
      mem' (.usr k, x) = mem (.usr k, x)) := by
  unfold zgeinv at hx
  split at hx
  · rename_i hq
    subst hq
    have h0 : stat = 0 := status_zero hnb (gs_ld (n := 0) (nrhs := nb) hl (le_refl 0)) gs_sq (by intro t ht; simp at ht)
      CodeOK.nil (by rw [show tasks ([] : List (GTTask (Buf × Nat × Nat) α)) = [] from rfl]; exact Good.nil.toC) hx
    exact ⟨⟨fun _ x _ c hc => by omega, fun _ => h0⟩, fun _ => ⟨fun i j hi => by omega, fun i hi => by omega⟩,
      fun h => absurd h0 h, fun k x _ _ => hx.frame _ (by simp [tasks])⟩
  rename_i hq
  have hg := zgeinv_goodC (E := E) (mag := mag) (dv := dv) (big := big) (lda := lda) htk hnb hib hmpt hq
  have hw := geinv_writes (E := E) (mag := mag) (tk := tk) (info := info) (dv := dv) (big := big) (ib := ib) (mpt := mpt)
    (rg := true) hnb hq
  have hfit := gsv_fit (n := n) (nrhs := nb) (lda := lda) (ldb := n) hnb hib hmpt
  set A := tMat nb (gsDims n nb) 0 with hAd
  set W := tMat nb (gsDims n nb) 2 with hWd
  set P := uMat nb (gsDims n nb) 1 with hPd
  have hA : A.Al nb := al_t hnb 0
  have hmn : ¬ (A.d.m = 0 ∨ A.d.n = 0) := by show ¬ (n = 0 ∨ n = 0); omega
  have hC : CodeOK (ompZgeinv true E mag tk info dv big ib mpt A P W) := ompZgeinv_codeOK (n := n) htk hfit.ok rfl rfl
  have hfail : stat ≠ 0 → ∃ q : Nat, q < n ∧ stat = ((q + 1 : Nat) : Int) ∧
      ColsIndep n q (arr mem 0 lda) ∧ ColDep n q (arr mem 0 lda) := by
    intro h0
    obtain ⟨s, hin, i, hi, hb⟩ := gdrvC_failure_pred hnb (gs_ld (nrhs := nb) hl (le_refl n)) gs_sq (by simp) hC hg hx h0
    obtain ⟨q, hqn, hq', hf⟩ := geinv_fail (n := n) htk hdv hmag hfit.ok rfl rfl (by omega) s (by rw [hi]; exact h0) hb
    have hA0 : ∀ r c, r < n → c < n → A.el s r c = arr mem 0 lda r c := fun r c hr hc' =>
      hin 0 (by simp) r c hr hc' trivial
    obtain ⟨hci, x, hcd⟩ := hf.cols
    refine ⟨q, hqn, by rw [← hi, hq'], fun y hy c hc => ?_, ⟨x, fun r hr => ?_⟩⟩
    · refine hci y (fun r hr => ?_) c hc
      rw [← hy r hr]
      refine Finset.sum_congr rfl fun c hc => ?_
      rw [mem_range] at hc
      rw [hA0 r c hr (by omega)]
    · rw [← hA0 r q hr (by omega), hcd r hr]
      refine Finset.sum_congr rfl fun c hc => ?_
      rw [mem_range] at hc
      rw [hA0 r c hr (by omega)]
  have hok : stat = 0 →
      (∀ i j, i < n → j < n →
        ∑ l ∈ range n, arr mem' 0 lda i l * arr mem 0 lda l j = (if i = j then 1 else 0)) ∧
      (∀ i, i < n → 1 ≤ E.dec (mem' (.usr 1, i)) ∧ i ≤ ipv E mem' i ∧ ipv E mem' i < n) := by
    rintro rfl
    obtain ⟨s, hin, hu, hc, hout, hout', -⟩ := gdrvC_success hnb (gs_ld (nrhs := nb) hl (le_refl n)) gs_sq (by simp)
      (by simp) (by simp) hw hC hg hx
    rw [tasks_ompZgeinv hmn, texec_append, texec_append, texec_append] at hout hout'
    unfold ompZgeinv at hc
    simp only [if_neg hmn] at hc
    have hd := pzgetrf_ok hdv hmag hfit.ok true s (fun i => by
      by_cases hi : i < (pzgetrf true E mag dv big ib mpt A P).length
      · rw [← tcode_append_left _ _ _ hi]; exact hc i
      · exact tcode_len _ _ (by omega))
    set s1 := texec (tasks (pzgetrf true E mag dv big ib mpt A P)) s with hs1
    have hz : ∀ i, tcode (pztrtri tk info dv .upper .nonUnit A) s1 i = 0 := fun i => by
      by_cases hi : i < (pztrtri tk info dv .upper .nonUnit A).length
      · rw [← tcode_append_left _ _ _ hi, hs1, ← tcode_append_right]; exact hc _
      · exact tcode_len _ _ (by omega)
    have hminn : min A.d.m A.d.n = n := Nat.min_self n
    have hAe : ∀ r c, r < n → c < n → A.el s r c = arr mem 0 lda r c := fun r c hr hc =>
      hin 0 (by simp) r c hr hc trivial
    have hrng : ∀ i, i < n → 1 ≤ E.dec (P.el s1 i 0) ∧ i ≤ pv E P s1 i ∧ pv E P s1 i < n := fun i hi =>
      hd.rng i (by rw [hminn]; exact hi)
    have hlu : ∀ r c, r < n → c < n → arr mem 0 lda (perm (pv E P s1) 0 n r) c =
        ∑ l ∈ range n, luL (A.el s1) r l * luU (A.el s1) l c := by
      intro r c hr hc'
      have hlt : perm (pv E P s1) 0 n r < n := perm_lt (le_refl _) (fun i hi => (hrng i hi).2.2) hr
      rw [← hAe _ _ hlt hc']
      have := hd.lu r c hr hc'
      rw [hminn] at this
      rw [this, luE_prod (A.el s1) (m := n) (n := n) hr hc', Nat.min_self]
    refine ⟨fun i j hi hj => ?_, fun i hi => ?_⟩
    · have key := geinv_core (E := E) htk hdv hnb true s1 (A0 := arr mem 0 lda) (fun i hi => by
        have := hrng i hi
        unfold pv at this
        rw [← hPd]
        exact ⟨this.1, by omega⟩) hlu hz hi hj
      rw [← key]
      refine sum_congr rfl fun l hl => ?_
      rw [mem_range] at hl
      have := hout 0 (by simp) i l hi hl
      rw [if_pos (show stOK none _ _ from trivial)] at this
      exact congrArg (· * _) this
    · have hP' : mem' (.usr 1, i) = P.el s1 i 0 := by
        have := hout' 1 (by simp) i 0 hi (by show 0 < 1; decide)
        rw [Nat.zero_mul, Nat.add_zero] at this
        refine this.trans ?_
        show P.el _ i 0 = _
        simp only [TMat.el]
        rw [pzgeswp_writes.frame, pzgetriAux_writes.frame, (pztrtri_writes (N := n) hA rfl rfl).frame s1]
        · simp [hPd, hAd, tMat, uMat, TMat.full, TMat.at']
        · simp [hPd, hAd, hWd, tMat, uMat, TMat.full, TMat.at']
        · simp [hPd, hAd, tMat, uMat, TMat.full, TMat.at']
      have : ipv E mem' i = pv E P s1 i := by unfold ipv pv; rw [hP']
      rw [this, hP']
      exact hrng i hi
  refine ⟨⟨fun h0 => ?_, fun hi => ?_⟩, fun h0 => ⟨fun i j hi hj => ⟨(hok h0).1 i j hi hj,
    inv_comm (hok h0).1 i j hi hj⟩, (hok h0).2⟩, hfail, ?_⟩
  · intro x hx0 c hc
    have h1 := (hok h0).1
    have : x c = ∑ i ∈ range n, arr mem' 0 lda c i * ∑ j ∈ range n, arr mem 0 lda i j * x j := by
      have e : x c = ∑ j ∈ range n, (if c = j then 1 else 0) * x j := by
        simp [Finset.sum_ite_eq, mem_range, hc]
      rw [e]
      simp only [Finset.mul_sum]
      rw [Finset.sum_comm]
      refine sum_congr rfl fun j hj => ?_
      rw [← h1 c j hc (mem_range.mp hj), Finset.sum_mul]
      exact sum_congr rfl fun l _ => mul_assoc _ _ _
    rw [this]
    refine sum_eq_zero fun i hi => ?_
    rw [hx0 i (mem_range.mp hi), mul_zero]
  · by_contra h0
    obtain ⟨q, hq, -, -, hd⟩ := hfail h0
    exact hd.not_indep hq hi
  · obtain ⟨f1, f2⟩ := gdrvC_frame hnb gs_sq hw hg.ins hx
    intro k x h0 h1
    rcases k with _ | _ | k
    · exact f2 0 x (h0 rfl)
    · refine f2 1 x fun i j hi hj e => ?_
      have : j = 0 := by have : j < 1 := hj; omega
      subst this
      have h3 := h1 rfl
      have : i < n := hi
      rw [Nat.zero_mul] at e
      omega
    · exact f1 _ (by simp) (by simp) x

/-- **C63**, refutation: with depend array sections matched by base address only, `plasma_zgeinv`
has a data race as soon as the matrix has more than three tile rows. -/
theorem C63_geinv_order_refuted (hnb : 0 < nb) (hib : 0 < ib) (hmpt : 0 < mpt) (hn : 3 * nb < n) :
    Race (tasks (zgeinv false E mag tk info dv big nb ib mpt n)) := by
  have hmn : ¬ ((tMat nb (gsDims n nb) 0).d.m = 0 ∨ (tMat nb (gsDims n nb) 0).d.n = 0) := by
    show ¬ (n = 0 ∨ n = 0); omega
  unfold zgeinv ompZgeinv
  rw [if_neg (show ¬ n = 0 by omega), if_neg hmn, tasks_gdriverK, tasks_append]
  have := lu_race (E := E) (mag := mag) (dv := dv) (big := big) (dims := gsDims n nb) hnb hib hmpt
    (by show (n, 1) = (min n n, 1); rw [Nat.min_self]) (show 3 * nb < n from hn) (show nb < n by omega)
    (ins := []) (by simp)
  unfold driverK
  rw [List.append_assoc, List.append_assoc]
  exact this _

/-- Shapes for an `m`-by-`n` call of `plasma_zgeinv`: `A`, `ipiv`, workspace (compute/zgeinv.c:99-116). -/
def giDims (m n nb : Nat) : Nat → Nat × Nat
  | 0 => (m, n)
  | 1 => (min m n, 1)
  | 2 => (n, nb)
  | _ => (0, 0)

/-- **C63**, refutation for rectangular matrices: `plasma_zgeinv` accepts an `m`-by-`n` matrix with more
tile rows than tile columns, then writes a tile below the last tile of its `n`-by-`nb` workspace. -/
theorem C63_geinv_rectangular_refuted {m : Nat} (hnb : 0 < nb) (hn : 0 < n) (h : ceilDiv n nb < ceilDiv m nb)
    (hl : n ≤ lda) (rg : Bool) :
    zgeinvArgs m n lda = 0 ∧
    ∃ t ∈ tasks (ompZgeinv rg E mag tk info dv big ib mpt (tMat nb (giDims m n nb) 0) (uMat nb (giDims m n nb) 1)
        (tMat nb (giDims m n nb) 2)), ∃ r, (tMat nb (giDims m n nb) 2).d.mt ≤ r ∧ t.wr (.til 2, r, 0) 0 0 := by
  refine ⟨by unfold zgeinvArgs; simp; omega, ?_⟩
  have hm : 0 < m := by
    rcases Nat.eq_zero_or_pos m with rfl | h0
    · have : ceilDiv 0 nb = 0 := Nat.div_eq_of_lt (by omega)
      omega
    · exact h0
  have hA : (tMat nb (giDims m n nb) 0).Al nb := al_t hnb 0
  have hW : (tMat nb (giDims m n nb) 2).Al nb := al_t hnb 2
  have hmt : (tMat nb (giDims m n nb) 0).d.mt = ceilDiv m nb := hA.mt_eq
  have hwt : (tMat nb (giDims m n nb) 2).d.mt = ceilDiv n nb := hW.mt_eq
  have hw1 : 0 < (tMat nb (giDims m n nb) 2).d.mt := hW.lt_mt.mpr (by show 0 * nb < n; omega)
  have hnt : 0 < (tMat nb (giDims m n nb) 0).d.nt := hA.lt_nt.mpr (by show 0 * nb < n; omega)
  rw [tasks_ompZgeinv (show ¬ (m = 0 ∨ n = 0) by omega), tasks_pzgetriAux]
  refine ⟨coreLacpy none .noTrans ((tMat nb (giDims m n nb) 0).d.mview (ceilDiv n nb))
    ((tMat nb (giDims m n nb) 0).d.nview 0) ((tMat nb (giDims m n nb) 0).at' (ceilDiv n nb) 0)
    ((tMat nb (giDims m n nb) 2).at' (ceilDiv n nb) 0), ?_, ceilDiv n nb, by omega, ?_⟩
  · refine List.mem_append_left _ (List.mem_append_right _ (List.mem_append_right _ ?_))
    refine List.mem_flatMap.mpr ⟨0, by simp [hmt]; omega, List.mem_append_left _ ?_⟩
    unfold giCopyT
    refine List.mem_append_right _ (List.mem_flatMap.mpr ⟨ceilDiv n nb, ?_, by simp⟩)
    rw [mem_span]; omega
  · have e1 : 0 < (tMat nb (giDims m n nb) 0).d.mview (ceilDiv n nb) := by
      rw [hA.mview (by omega)]
      have := hA.lt_mt.mp (show ceilDiv n nb < (tMat nb (giDims m n nb) 0).d.mt by omega)
      unfold tdim; omega
    have e2 : 0 < (tMat nb (giDims m n nb) 0).d.nview 0 := by
      rw [hA.nview hnt]
      have := hA.lt_nt.mp hnt
      unfold tdim; omega
    exact ⟨by simp [TMat.at', tMat, TMat.full, general], mem_lacpyDst.mpr ((mem_lacpyIdx (Or.inl rfl)).mpr ⟨e1, e2, trivial⟩)⟩

theorem zgeinv_exists (htk : IsTrtri tk info) (hnb : 0 < nb) (hib : 0 < ib) (hmpt : 0 < mpt) (hl : n ≤ lda) (hn : 0 < n)
    (mem : Buf × Nat → α) : ∃ mem' stat,
    GExec (drvEnvK nb (gsDims n nb) (gsLd n lda n) (fun _ => none))
      (zgeinv true E mag tk info dv big nb ib mpt n) mem mem' stat := by
  unfold zgeinv
  rw [if_neg (by omega)]
  have hg := zgeinv_goodC (E := E) (mag := mag) (dv := dv) (big := big) (n := n) (lda := lda) htk hnb hib hmpt (by omega)
  exact GExec.existsI (drvEnvK_wf hnb (gs_ld (nrhs := nb) hl (le_refl n)) gs_sq) hg.loc hg.ins mem

end

/-! ### Cases meeting the hypotheses -/

/-- The matrix `[2 4; 1 2]`, of rank one. -/
def giEx : Buf × Nat → ℚ
  | (.usr 0, 0) => 2
  | (.usr 0, 1) => 1
  | (.usr 0, 2) => 4
  | (.usr 0, 3) => 2
  | _ => 0

/-- `C63_geinv_partial`, tiles of size 1: for `[1 3; 2 4]` an execution returning 0 exists, for
`[2 4; 1 2]` one returning 2. -/
example : ∃ (tk : Uplo → Diag → Nat → Tl ℚ → Tl ℚ) (info : Uplo → Diag → Nat → Tl ℚ → Nat), IsTrtri tk info ∧
    (∃ mem', GExec (drvEnvK 1 (gsDims 2 1) (gsLd 2 2 2) (fun _ => none))
      (zgeinv true ratCode (fun x : ℚ => |x|) tk info qdv (fun _ => true) 1 1 1 2) gsEx mem' 0) ∧
    (∃ mem', GExec (drvEnvK 1 (gsDims 2 1) (gsLd 2 2 2) (fun _ => none))
      (zgeinv true ratCode (fun x : ℚ => |x|) tk info qdv (fun _ => true) 1 1 1 2) giEx mem' 2) := by
  obtain ⟨tk, info, htk⟩ := exists_isTrtri (α := ℚ)
  have hmag : IsMag (fun x : ℚ => |x|) := ⟨fun x hx => by simpa using hx⟩
  refine ⟨tk, info, htk, ?_, ?_⟩
  · obtain ⟨mem', stat, hx⟩ := zgeinv_exists (E := ratCode) (mag := fun x : ℚ => |x|) (dv := qdv)
      (big := fun _ => true) (nb := 1) (ib := 1) (mpt := 1) (n := 2) (lda := 2) htk (by decide) (by decide) (by decide)
      (by decide) (by decide) gsEx
    have := (C63_geinv_partial htk qdv_isDiv hmag (by decide) (by decide) (by decide) (le_refl 2) gsEx mem' stat
      hx).1.mpr fun x h c hc => by
        have h0 := h 0 (by decide)
        have h1 := h 1 (by decide)
        simp [Finset.sum_range_succ, arr, gsEx] at h0 h1
        have hc' : c < 2 := hc
        interval_cases c <;> linarith
    exact ⟨mem', this ▸ hx⟩
  · obtain ⟨mem', stat, hx⟩ := zgeinv_exists (E := ratCode) (mag := fun x : ℚ => |x|) (dv := qdv)
      (big := fun _ => true) (nb := 1) (ib := 1) (mpt := 1) (n := 2) (lda := 2) htk (by decide) (by decide) (by decide)
      (by decide) (by decide) giEx
    obtain ⟨h1, -, h3, -⟩ := C63_geinv_partial htk qdv_isDiv hmag (by decide) (by decide) (by decide) (le_refl 2) giEx
      mem' stat hx
    have h0 : stat ≠ 0 := fun h => by
      have := h1.mp h (fun c => if c = 0 then 2 else -1) (fun r hr => by
        interval_cases r <;> simp [Finset.sum_range_succ, arr, giEx] <;> norm_num) 1 (by decide)
      simp at this
    obtain ⟨q, hq, hs, -, x, hd⟩ := h3 h0
    have : q = 1 := by
      interval_cases q
      · have := hd 0 (by decide)
        simp [arr, giEx] at this
      · rfl
    subst this
    exact ⟨mem', by rw [hs] at hx; exact_mod_cast hx⟩

/-- `C63_geinv_order_refuted` for four tile rows, `C63_geinv_rectangular_refuted` for a 3-by-1 matrix and tiles of size 1. -/
example (tk : Uplo → Diag → Nat → Tl ℚ → Tl ℚ) (info : Uplo → Diag → Nat → Tl ℚ → Nat) :
    Race (tasks (zgeinv false ratCode (fun x : ℚ => |x|) tk info qdv (fun _ => true) 1 1 1 4)) ∧
    ceilDiv 1 1 < ceilDiv 3 1 ∧ zgeinvArgs (3 : Nat) (1 : Nat) (1 : Nat) = 0 :=
  ⟨C63_geinv_order_refuted (by decide) (by decide) (by decide) (by decide), by decide, by decide⟩

end Verif.Props

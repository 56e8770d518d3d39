/-
Properties of the LU factorization `plasma_zgetrf`.
-/
import Verif.Props.Geswp
import Verif.GetrfBase

set_option linter.unusedSectionVars false

namespace Verif.Props

open Verif.Layout Verif.Sched Verif.Tile Verif.LU Verif.Panel Finset

universe v w

section
variable {α : Type v} [Field α] [StarRing α] [DecidableEq α] {γ : Type w} [LinearOrder γ]

/-- Array 0 is the matrix, array 1 the pivots. -/
def luDims (m n : Nat) : Nat → Nat × Nat
  | 0 => (m, n)
  | 1 => (min m n, 1)
  | _ => (0, 0)

/-- Leading dimensions. -/
def luLd (m n lda : Nat) : Nat → Nat
  | 0 => lda
  | 1 => min m n
  | _ => 0

theorem lu_sq {m n : Nat} : ∀ k, stSq ((fun _ => none : Nat → Stor) k) (luDims m n k).1 (luDims m n k).2 :=
  fun _ => Or.inl rfl

theorem lu_ld {m n lda : Nat} (h : m ≤ lda) : ∀ k, (luDims m n k).1 ≤ luLd m n lda k := by
  intro k; rcases k with _ | _ | k <;> simp [luDims, luLd, h]

/-- `plasma_omp_zgetrf(A, ipiv)` for a valid descriptor (compute/zgetrf.c:115-149). -/
noncomputable def ompZgetrf (rg : Bool) (E : IntCode α) (mag : α → γ) (dv : α → α → α) (big : α → Bool)
    (ib mpt : Nat) (A P : TMat Buf) : List (GTTask (Buf × Nat × Nat) α) :=
  if A.d.m = 0 ∨ A.d.n = 0 then [] else pzgetrf rg E mag dv big ib mpt A P

/-- `plasma_zgetrf(m, n, pA, lda, ipiv)` for valid arguments (compute/zgetrf.c:48-109): a call
that finds memory `mem` may leave `mem'` and return `ret`.  There are two parallel regions; the
second one runs only if the status is 0 after the first, and otherwise the status becomes
`min(m,n) + status` (control/async.c:17-25).  `ib` and `mpt` are the inner block size and the
number of panel threads. -/
def ZgetrfRun (rg : Bool) (E : IntCode α) (mag : α → γ) (dv : α → α → α) (big : α → Bool) (nb ib mpt m n lda : Nat)
    (mem mem' : Buf × Nat → α) (ret : Int) : Prop :=
  if min m n = 0 then mem' = mem ∧ ret = 0 else
    ∃ mem1 st,
      GExec (drvEnvK nb (luDims m n) (luLd m n lda) (fun _ => none))
        (gdriverK nb (luDims m n) (fun _ => none) [0]
          (ompZgetrf rg E mag dv big ib mpt (tMat nb (luDims m n) 0) (uMat nb (luDims m n) 1)) []) mem mem1 st ∧
      if st = 0 then
        GExec (drvEnvK nb (luDims m n) (luLd m n lda) (fun _ => none))
          (gdriverK nb (luDims m n) (fun _ => none) [] [] [0]) mem1 mem' ret
      else mem' = mem1 ∧ ret = (min m n : Nat) + st

variable {E : IntCode α} {mag : α → γ} {dv : α → α → α} {big : α → Bool} {nb ib mpt m n lda : Nat}

theorem lu_fit (hnb : 0 < nb) (hib : 0 < ib) (hmpt : 0 < mpt) :
    LuFit (drvEnvK nb (luDims m n) (luLd m n lda) (fun _ => none)) nb (tMat nb (luDims m n) 0)
      (uMat nb (luDims m n) 1) ib mpt :=
  ⟨⟨al_t hnb 0, al_u hnb 1, by simp [tMat, uMat, TMat.full], rfl, rfl, hib, hmpt⟩, fitsK_gen hnb rfl, fitsK_u hnb 1⟩

/-- How list items of `depend` clauses are matched: by region, or by base address provided the
matrix has at most three tile rows or at most one tile column (see C23). -/
def LuMatch (rg : Bool) (nb m n : Nat) : Prop := rg = true ∨ m ≤ 3 * nb ∨ n ≤ nb

theorem lu_good {rg : Bool} (hrg : LuMatch rg nb m n) (hnb : 0 < nb) (hib : 0 < ib) (hmpt : 0 < mpt) :
    GoodC (evalid (drvEnvK nb (luDims m n) (luLd m n lda) (fun _ => none)))
      (tasks (gdriverK nb (luDims m n) (fun _ => none) [0]
          (pzgetrf rg E mag dv big ib mpt (tMat nb (luDims m n) 0) (uMat nb (luDims m n) 1)) [])) := by
  rw [tasks_gdriverK]
  by_cases hr : rg = true
  · subst hr
    exact (driverK_good hnb lu_sq (pzgetrf_good (lu_fit hnb hib hmpt))).toC
  have hs := hrg.resolve_left hr
  have hr' : rg = false := by simpa using hr
  subst hr'
  have hfit := lu_fit (m := m) (n := n) (lda := lda) hnb hib hmpt
  have h0 := driverK_good (α := α) (P := []) (ld := luLd m n lda) (ins := [0]) (outs := []) hnb
    (lu_sq (m := m) (n := n)) Good.nil
  unfold driverK at h0 ⊢
  set I := [0].flatMap fun k => copyK (α := α) none (tMat nb (luDims m n) k) (uMat nb (luDims m n) k)
    (tMat nb (luDims m n) k) with hI
  simp only [List.flatMap_nil, List.append_nil] at h0 ⊢
  refine ⟨fun t ht => ?_, fun t ht => ?_, ?_⟩
  · rcases List.mem_append.mp ht with ht | ht
    · exact h0.loc t ht
    · exact pzgetrf_loc hfit.ok false t ht
  · rcases List.mem_append.mp ht with ht | ht
    · exact h0.ins t ht
    · exact pzgetrf_ins hfit false t ht
  · have hid : ∀ t ∈ I, (∀ x i j, t.rd x i j → x.1 = .usr 0) ∧ ∀ x i j, t.wr x i j → x.1 = .til 0 := by
      intro t ht
      simp only [hI, List.flatMap_cons, List.flatMap_nil, List.append_nil, copyK, List.mem_flatMap, List.mem_map] at ht
      obtain ⟨m', _, n', _, rfl⟩ := ht
      constructor
      · rintro x i j ⟨rfl, _⟩; rfl
      · rintro x i j ⟨rfl, _⟩; rfl
    have hL : ∀ t ∈ tasks (pzgetrf false E mag dv big ib mpt (tMat nb (luDims m n) 0) (uMat nb (luDims m n) 1)),
        ∀ x i j, t.rd x i j ∨ t.wr x i j → (∃ m' c, x = (tMat nb (luDims m n) 0).at' m' c) ∨ x.1 = .usr 1 :=
      fun t ht x i j hx => (pzgetrf_out hfit.ok t ht x i j hx).imp id fun ⟨q, c, e⟩ => by rw [e]; rfl
    refine TCovered.pre (A := tMat nb (luDims m n) 0) h0.decl (pzgetrf_cov hfit.ok) ?_ ?_ (pzgetrf_pre hfit.ok ?_)
    · intro t ht t' ht' x i j hr hw
      have h1 := (hid t ht).1 x i j hr
      rcases hL t' ht' x i j (Or.inr hw) with ⟨m', c, rfl⟩ | h2
      · exact absurd h1 (by simp [tMat, TMat.full, TMat.at'])
      · rw [h1] at h2; simp at h2
    · intro t ht t' ht' x i j hw hx
      have h1 := (hid t ht).2 x i j hw
      rcases hL t' ht' x i j hx with h2 | h2
      · exact h2
      · rw [h1] at h2; simp at h2
    · rcases hs with hs | hs
      · left
        by_contra hc
        have := hfit.ok.a.lt_mt.mp (show 3 < _ by omega)
        have : 3 * nb < m := this
        omega
      · right
        by_contra hc
        have := hfit.ok.a.lt_nt.mp (show 1 < _ by omega)
        have : 1 * nb < n := this
        omega

theorem lu_good2 (hnb : 0 < nb) :
    GoodC (evalid (drvEnvK nb (luDims m n) (luLd m n lda) (fun _ => none)))
      (tasks (gdriverK (α := α) nb (luDims m n) (fun _ => none) [] [] [0])) := by
  rw [tasks_gdriverK]
  exact (driverK_good hnb lu_sq Good.nil).toC

theorem lu_onTiles {rg : Bool} : OnTilesW [1]
    (tasks (pzgetrf rg E mag dv big ib mpt (tMat nb (luDims m n) 0) (uMat nb (luDims m n) 1))) :=
  (pzgetrf_writes rg).mono fun x hx => by
    rcases hx with hx | hx
    · exact Or.inl ⟨0, hx⟩
    · exact Or.inr ⟨1, by simp, hx⟩

/-- What the second parallel region does. -/
theorem lu_region2 (hnb : 0 < nb) (hl : m ≤ lda) {mem1 mem' : Buf × Nat → α} {ret : Int}
    (h : GExec (drvEnvK nb (luDims m n) (luLd m n lda) (fun _ => none))
          (gdriverK nb (luDims m n) (fun _ => none) [] [] [0]) mem1 mem' ret) :
    ret = 0 ∧
    (∀ r c, r < m → c < n → arr mem' 0 lda r c =
      (tMat nb (luDims m n) 0).el (view (eloc (drvEnvK nb (luDims m n) (luLd m n lda) (fun _ => none))) mem1) r c) ∧
    (∀ k x, (k = 0 → ∀ i j, i < m → j < n → x ≠ i + j * lda) → mem' (.usr k, x) = mem1 (.usr k, x)) := by
  have hg := lu_good2 (α := α) (m := m) (n := n) (lda := lda) hnb
  have hC : CodeOK (gdriverK (α := α) nb (luDims m n) (fun _ => none) [] [] [0]) :=
    ((CodeOK.ok _).append CodeOK.nil).append (CodeOK.ok _)
  have h0 : ret = 0 := by
    refine status_zero hnb (lu_ld hl) lu_sq ?_ hC hg h
    intro t ht s
    unfold gdriverK at ht
    rcases List.mem_append.mp ht with ht | ht
    · rcases List.mem_append.mp ht with ht | ht
      · exact safe_ok _ t ht s
      · simp at ht
    · exact safe_ok _ t ht s
  subst h0
  have hwf := drvEnvK_wf (nb := nb) hnb (lu_ld (n := n) hl) lu_sq
  obtain ⟨hx, -⟩ := h.successC hwf hg hC
  obtain ⟨f1, f2⟩ := gdrvC_frame (W := []) hnb lu_sq (by intro t ht; simp [tasks] at ht) hg.ins h
  refine ⟨rfl, fun r c hr hc => ?_, fun k x hk => ?_⟩
  · have h1 := Exec.elC hwf hg hx (fitsK_u hnb 0) (r := r) (c := c) hr hc
    rw [u_el_mem hnb] at h1
    rw [show arr mem' 0 lda r c = mem' (.usr 0, r + c * luLd m n lda 0) from rfl, h1, tasks_gdriverK]
    simp only [driverK, texec_append]
    rw [copyK_outs_el hnb lu_sq (by simp) _ (by simp) hr hc, if_pos (show stOK none _ _ from trivial)]
    rfl
  · by_cases hk0 : k = 0
    · subst hk0; exact f2 0 x (hk rfl)
    · exact f1 k (by simpa using hk0) (by simp) x

theorem perm_interch (p : Nat → Nat) (K : Nat) (X : Nat → Nat → α) (r c : Nat) :
    interch (List.range K) p X r c = X (perm p 0 K r) c := by
  rw [interch_permL, ← permL_range', List.range_eq_range']

/-- **C22.** For all dimensions, tile sizes, inner block sizes, panel thread counts and every
execution of `plasma_zgetrf` that returns 0 (list items of `depend` clauses matched by
region, or by base address if there are at most three tile rows or one tile column): the pivots are in range, `P*A = L*U` where `P` applies the interchanges `i ↔ ipiv[i]-1`
in order, `L` is unit lower and `U` upper trapezoidal as stored in the array, and `U` has a
nonzero diagonal; nothing outside the matrix and `ipiv[0..min(m,n)-1]` changes. -/
theorem C22_getrf_partial {rg : Bool} (hrg : LuMatch rg nb m n) (hdv : IsDiv dv) (hmag : IsMag mag) (hnb : 0 < nb) (hib : 0 < ib) (hmpt : 0 < mpt)
    (hl : m ≤ lda) (mem mem' : Buf × Nat → α)
    (hx : ZgetrfRun rg E mag dv big nb ib mpt m n lda mem mem' 0) :
    (∀ i, i < min m n → 1 ≤ E.dec (mem' (.usr 1, i)) ∧ i ≤ ipv E mem' i ∧ ipv E mem' i < m) ∧
    (∀ r c, r < m → c < n → interch (List.range (min m n)) (ipv E mem') (arr mem 0 lda) r c =
      ∑ l ∈ range (min m n), luL (arr mem' 0 lda) r l * luU (arr mem' 0 lda) l c) ∧
    (∀ i, i < min m n → arr mem' 0 lda i i ≠ 0) ∧
    (∀ k x, (k = 0 → ∀ i j, i < m → j < n → x ≠ i + j * lda) → (k = 1 → min m n ≤ x) →
      mem' (.usr k, x) = mem (.usr k, x)) := by
  unfold ZgetrfRun at hx
  split at hx
  · rename_i hq
    obtain ⟨rfl, -⟩ := hx
    exact ⟨fun i hi => by omega, fun r c hr hc => by omega, fun i hi => by omega, fun _ _ _ _ => rfl⟩
  rename_i hq
  obtain ⟨mem1, st, h1, h2⟩ := hx
  have hmn : ¬ ((tMat nb (luDims m n) 0).d.m = 0 ∨ (tMat nb (luDims m n) 0).d.n = 0) := by
    show ¬ (m = 0 ∨ n = 0); omega
  unfold ompZgetrf at h1
  rw [if_neg hmn] at h1
  have hfit := lu_fit (m := m) (n := n) (lda := lda) hnb hib hmpt
  have hg := lu_good (E := E) (mag := mag) (dv := dv) (big := big) (m := m) (n := n) (lda := lda) hrg hnb hib hmpt
  have hC := pzgetrf_codeOK (E := E) (mag := mag) (dv := dv) (big := big) hfit.ok rg
  have hCd : CodeOK (gdriverK nb (luDims m n) (fun _ => none) [0]
      (pzgetrf rg E mag dv big ib mpt (tMat nb (luDims m n) 0) (uMat nb (luDims m n) 1)) []) :=
    ((CodeOK.ok _).append hC).append (CodeOK.ok _)
  have hwf := drvEnvK_wf (nb := nb) hnb (lu_ld (n := n) hl) lu_sq
  have hst : st = 0 := by
    by_contra h0
    rw [if_neg h0] at h2
    obtain ⟨s, -, i, hi, hb⟩ := gdrvC_failure hnb (lu_ld hl) lu_sq (by simp) hC (pzgetrf_chain rg) hg h1 h0
    obtain ⟨q, -, hq', -⟩ := pzgetrf_fail hdv hmag hfit.ok rg s (by rw [hi]; exact h0) hb
    rw [hi] at hq'
    have := h2.2
    omega
  subst hst
  rw [if_pos rfl] at h2
  obtain ⟨-, hA, hF⟩ := lu_region2 hnb hl h2
  obtain ⟨s, hin, hu, hc, -, hout, htile⟩ := gdrvC_success hnb (lu_ld hl) lu_sq (by simp) (by simp) (by simp)
    lu_onTiles hC hg h1
  obtain ⟨f1, f2⟩ := gdrvC_frame hnb lu_sq lu_onTiles hg.ins h1
  set A := tMat nb (luDims m n) 0 with hAd
  set P := uMat nb (luDims m n) 1 with hPd
  have hd := pzgetrf_ok hdv hmag hfit.ok rg s hc
  set s' := texec (tasks (pzgetrf rg E mag dv big ib mpt A P)) s with hs'
  have hA' : ∀ r c, r < m → c < n → arr mem' 0 lda r c = A.el s' r c := fun r c hr hc' => by
    rw [hA r c hr hc']; exact htile 0 rfl r c hr hc'
  have hP' : ∀ i, i < min m n → mem' (.usr 1, i) = P.el s' i 0 := fun i hi => by
    rw [hF 1 i (by simp), ← hout 1 (by simp) i 0 hi (by show 0 < 1; decide), Nat.zero_mul, Nat.add_zero]
  have hpv : ∀ i, i < min m n → ipv E mem' i = pv E P s' i := fun i hi => by unfold ipv pv; rw [hP' i hi]
  have hA0 : ∀ r c, r < m → c < n → A.el s r c = arr mem 0 lda r c := fun r c hr hc' =>
    hin 0 (by simp) r c hr hc' trivial
  refine ⟨fun i hi => ?_, fun r c hr hc' => ?_, fun i hi => ?_, fun k x hk hk1 => ?_⟩
  · rw [hpv i hi, hP' i hi]; exact hd.rng i hi
  · rw [perm_interch, perm_congr (q := pv E P s') fun i _ hi => hpv i (by omega)]
    have hlt : perm (pv E P s') 0 (min m n) r < m :=
      perm_lt (Nat.min_le_left _ _) (fun i hi => (hd.rng i hi).2.2) hr
    rw [← hA0 _ _ hlt hc']
    refine (hd.lu r c hr hc').trans ?_
    rw [luE_prod (A.el s') (m := m) (n := n) hr hc']
    refine Finset.sum_congr rfl fun l hl' => ?_
    rw [mem_range] at hl'
    unfold luL luU
    rw [hA' r l hr (by omega), hA' l c (by omega) hc']
  · rw [hA' i i (by omega) (by omega)]; exact hd.dia i hi
  · rw [hF k x hk]
    by_cases hk1' : k = 1
    · subst hk1'
      refine f2 1 x fun i j hi hj e => ?_
      have : j = 0 := by have : j < 1 := hj; omega
      subst this
      have h3 := hk1 rfl
      have : i < min m n := hi
      rw [Nat.zero_mul] at e
      omega
    · exact f1 k (by simp) (by simpa using hk1') x

/-- **C43.** Every execution of `plasma_zgetrf` returns 0 or `min(m,n) + i` where column `i` is
the first column of the matrix that is a linear combination of the columns before it; in the
latter case the matrix is returned unchanged.  The return value is 0 exactly when the first
`min(m,n)` columns are linearly independent. -/
theorem C43_getrf_singular_partial {rg : Bool} (hrg : LuMatch rg nb m n) (hdv : IsDiv dv) (hmag : IsMag mag) (hnb : 0 < nb) (hib : 0 < ib)
    (hmpt : 0 < mpt) (hl : m ≤ lda) (mem mem' : Buf × Nat → α) (ret : Int)
    (hx : ZgetrfRun rg E mag dv big nb ib mpt m n lda mem mem' ret) :
    (ret = 0 ↔ ColsIndep m (min m n) (arr mem 0 lda)) ∧
    (ret ≠ 0 → ∃ q : Nat, q < min m n ∧ ret = (min m n : Nat) + ((q + 1 : Nat) : Int) ∧
      ColsIndep m q (arr mem 0 lda) ∧ ColDep m q (arr mem 0 lda) ∧
      ∀ k x, (k = 1 → min m n ≤ x) → mem' (.usr k, x) = mem (.usr k, x)) := by
  have hfail : ret ≠ 0 → ∃ q : Nat, q < min m n ∧ ret = (min m n : Nat) + ((q + 1 : Nat) : Int) ∧
      ColsIndep m q (arr mem 0 lda) ∧ ColDep m q (arr mem 0 lda) ∧
      ∀ k x, (k = 1 → min m n ≤ x) → mem' (.usr k, x) = mem (.usr k, x) := by
    intro h0
    unfold ZgetrfRun at hx
    split at hx
    · exact absurd hx.2 h0
    rename_i hq
    obtain ⟨mem1, st, h1, h2⟩ := hx
    have hmn : ¬ ((tMat nb (luDims m n) 0).d.m = 0 ∨ (tMat nb (luDims m n) 0).d.n = 0) := by
      show ¬ (m = 0 ∨ n = 0); omega
    unfold ompZgetrf at h1
    rw [if_neg hmn] at h1
    by_cases hst : st = 0
    · rw [if_pos hst] at h2
      exact absurd (lu_region2 hnb hl h2).1 h0
    rw [if_neg hst] at h2
    have hfit := lu_fit (m := m) (n := n) (lda := lda) hnb hib hmpt
    have hg := lu_good (E := E) (mag := mag) (dv := dv) (big := big) (m := m) (n := n) (lda := lda) hrg hnb hib hmpt
    have hC := pzgetrf_codeOK (E := E) (mag := mag) (dv := dv) (big := big) hfit.ok rg
    obtain ⟨s, hin, i, hi, hb⟩ := gdrvC_failure hnb (lu_ld hl) lu_sq (by simp) hC (pzgetrf_chain rg) hg h1 hst
    obtain ⟨q, hqm, hq', hf⟩ := pzgetrf_fail hdv hmag hfit.ok rg s (by rw [hi]; exact hst) hb
    obtain ⟨f1, f2⟩ := gdrvC_frame hnb lu_sq lu_onTiles hg.ins h1
    have hA0 : ∀ r c, r < m → c < n → (tMat nb (luDims m n) 0).el s r c = arr mem 0 lda r c := fun r c hr hc' =>
      hin 0 (by simp) r c hr hc' trivial
    have hqm' : q < min m n := hqm
    obtain ⟨hci, x, hcd⟩ := hf.cols
    refine ⟨q, hqm, by rw [h2.2, ← hi, hq'], fun y hy c hc => ?_, ⟨x, fun r hr => ?_⟩, fun k x hk => ?_⟩
    · refine hci y (fun r hr => ?_) c hc
      rw [← hy r hr]
      refine Finset.sum_congr rfl fun c hc => ?_
      rw [mem_range] at hc
      rw [hA0 r c hr (by omega)]
    · rw [← hA0 r q hr (by omega), hcd r hr]
      refine Finset.sum_congr rfl fun c hc => ?_
      rw [mem_range] at hc
      rw [hA0 r c hr (by omega)]
    · rw [h2.1]
      by_cases hk1 : k = 1
      · subst hk1
        refine f2 1 x fun i j hi hj e => ?_
        have : j = 0 := by have : j < 1 := hj; omega
        subst this
        have h3 := hk rfl
        have : i < min m n := hi
        rw [Nat.zero_mul] at e
        omega
      · exact f1 k (by simp) (by simpa using hk1) x
  refine ⟨⟨fun h0 => ?_, fun hi => ?_⟩, hfail⟩
  · subst h0
    obtain ⟨h1, h2, h3, -⟩ := C22_getrf_partial hrg hdv hmag hnb hib hmpt hl mem mem' hx
    refine indep_of_lu (X := arr mem' 0 lda) (π := perm (ipv E mem') 0 (min m n))
      (fun r hr => perm_lt (Nat.min_le_left _ _) (fun i hi => (h1 i hi).2.2) hr) (Nat.min_le_left _ _)
      (fun r c hr hc => ?_) h3
    refine (perm_interch (ipv E mem') (min m n) (arr mem 0 lda) r c).symm.trans ?_
    exact h2 r c hr (by omega)
  · by_contra h0
    obtain ⟨q, hq, -, -, hd, -⟩ := hfail h0
    exact hd.not_indep hq hi

/-- **C43**, refutation of the LAPACK convention.  Whenever the matrix is singular the value
returned is larger than `min(m,n)`, so it is not an index `i` of a diagonal element of `U` (let alone
of the one at which the elimination stopped), and no factors are returned. -/
theorem C43_getrf_singular_refuted {rg : Bool} (hrg : LuMatch rg nb m n) (hdv : IsDiv dv) (hmag : IsMag mag) (hnb : 0 < nb) (hib : 0 < ib)
    (hmpt : 0 < mpt) (hl : m ≤ lda) (mem mem' : Buf × Nat → α) (ret : Int)
    (hs : ¬ ColsIndep m (min m n) (arr mem 0 lda))
    (hx : ZgetrfRun rg E mag dv big nb ib mpt m n lda mem mem' ret) :
    ((min m n : Nat) : Int) < ret ∧ ∀ x, mem' (.usr 0, x) = mem (.usr 0, x) := by
  obtain ⟨h1, h2⟩ := C43_getrf_singular_partial hrg hdv hmag hnb hib hmpt hl mem mem' ret hx
  obtain ⟨q, -, hq, -, -, hf⟩ := h2 fun h0 => hs (h1.mp h0)
  exact ⟨by omega, fun x => hf 0 x (by simp)⟩

theorem zgetrf_exists {rg : Bool} (hrg : LuMatch rg nb m n) (hnb : 0 < nb) (hib : 0 < ib) (hmpt : 0 < mpt) (hl : m ≤ lda) (mem : Buf × Nat → α) :
    ∃ mem' ret, ZgetrfRun rg E mag dv big nb ib mpt m n lda mem mem' ret := by
  unfold ZgetrfRun
  split
  · exact ⟨mem, 0, rfl, rfl⟩
  rename_i hq
  have hmn : ¬ ((tMat nb (luDims m n) 0).d.m = 0 ∨ (tMat nb (luDims m n) 0).d.n = 0) := by
    show ¬ (m = 0 ∨ n = 0); omega
  have hwf := drvEnvK_wf (nb := nb) hnb (lu_ld (n := n) hl) lu_sq
  have hg := lu_good (E := E) (mag := mag) (dv := dv) (big := big) (m := m) (n := n) (lda := lda) hrg hnb hib hmpt
  obtain ⟨mem1, st, h1⟩ := GExec.existsI hwf hg.loc hg.ins mem
  unfold ompZgetrf
  rw [if_neg hmn]
  by_cases hst : st = 0
  · have hg2 := lu_good2 (α := α) (m := m) (n := n) (lda := lda) hnb
    obtain ⟨mem', ret, h2⟩ := GExec.existsI hwf hg2.loc hg2.ins mem1
    exact ⟨mem', ret, mem1, st, h1, by rw [if_pos hst]; exact h2⟩
  · exact ⟨mem1, _, mem1, st, h1, by rw [if_neg hst]; exact ⟨rfl, rfl⟩⟩

end

/-! ### Cases meeting the hypotheses -/



/-- The matrix with rows `(0,1,2)` and `(3,4,5)`, leading dimension 2. -/
def luEx : Buf × Nat → ℚ
  | (.usr 0, x) => 3 * (x % 2 : Nat) + (x / 2 : Nat)
  | _ => 0

/-- The 2×2 matrix of ones. -/
def luSing : Buf × Nat → ℚ
  | (.usr 0, _) => 1
  | _ => 0

/-- A 2×3 matrix that needs a pivot, tiles of size 1: an execution returning 0 exists. -/
example : ∃ mem', IsDiv qdv ∧ IsMag (fun x : ℚ => |x|) ∧
    ZgetrfRun true ratCode (fun x : ℚ => |x|) qdv (fun _ => true) 1 1 1 2 3 2 luEx mem' 0 := by
  have hdv : IsDiv qdv := qdv_isDiv
  have hmag : IsMag (fun x : ℚ => |x|) := ⟨fun x hx => by simpa using hx⟩
  obtain ⟨mem', ret, hx⟩ := zgetrf_exists (rg := true) (Or.inl rfl) (E := ratCode) (mag := fun x : ℚ => |x|) (dv := qdv)
    (big := fun _ => true) (nb := 1) (ib := 1) (mpt := 1) (m := 2) (n := 3) (lda := 2) (by decide) (by decide)
    (by decide) (by decide) luEx
  have h := (C43_getrf_singular_partial (rg := true) (Or.inl rfl) hdv hmag (by decide) (by decide) (by decide) (by decide) luEx mem' ret hx).1.mpr
    (fun x h c hc => by
      have h0 := h 0 (by decide)
      have h1 := h 1 (by decide)
      simp [Finset.sum_range_succ, arr, luEx] at h0 h1
      have hc' : c < 2 := hc
      interval_cases c
      · rw [h0] at h1; linarith
      · exact h0)
  exact ⟨mem', hdv, hmag, h ▸ hx⟩

/-- `C43_getrf_singular_refuted`: the 2×2 matrix of ones is singular, and `plasma_zgetrf` returns
4 for it. -/
example : ¬ ColsIndep 2 (min 2 2) (arr luSing 0 2) ∧ ∃ mem',
    ZgetrfRun true ratCode (fun x : ℚ => |x|) qdv (fun _ => true) 1 1 1 2 2 2 luSing mem' 4 := by
  have hs : ¬ ColsIndep 2 (min 2 2) (arr luSing 0 2) := fun h => by
    have := h (fun c => if c = 0 then 1 else -1) (fun r _ => by simp [Finset.sum_range_succ, arr, luSing]) 0 (by decide)
    simp at this
  have hdv : IsDiv qdv := qdv_isDiv
  have hmag : IsMag (fun x : ℚ => |x|) := ⟨fun x hx => by simpa using hx⟩
  obtain ⟨mem', ret, hx⟩ := zgetrf_exists (rg := true) (Or.inl rfl) (E := ratCode) (mag := fun x : ℚ => |x|) (dv := qdv)
    (big := fun _ => true) (nb := 1) (ib := 1) (mpt := 1) (m := 2) (n := 2) (lda := 2) (by decide) (by decide)
    (by decide) (by decide) luSing
  obtain ⟨h1, h2⟩ := C43_getrf_singular_partial (rg := true) (Or.inl rfl) hdv hmag (by decide) (by decide) (by decide) (by decide) luSing mem' ret hx
  obtain ⟨q, hq, hr, -, ⟨x, hd⟩, -⟩ := h2 fun h0 => hs (h1.mp h0)
  have hq1 : q = 1 := by
    have : q < 2 := hq
    interval_cases q
    · have := hd 0 (by decide)
      simp [arr, luSing] at this
    · rfl
  subst hq1
  exact ⟨hs, mem', by rw [hr] at hx; exact hx⟩

end Verif.Props

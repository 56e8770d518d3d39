/-
Properties of `plasma_zgetri`.
-/
import Verif.Getri
import Verif.Props.LuSolve
import Verif.Props.Trtri

set_option linter.unusedSectionVars false

namespace Verif.Props

open Verif.Layout Verif.Sched Verif.Tile Verif.LU Verif.Panel Finset

universe u v w

section
variable {α : Type v} {nb : Nat} {dims : Nat → Nat × Nat} {ld : Nat → Nat} {st : Nat → Stor} {E : IntCode α}

/-- A driver whose tile algorithm ends with column interchanges of a tile matrix. -/
theorem colsDrv_goodC (hnb : 0 < nb) (hsq : ∀ k, stSq (st k) (dims k).1 (dims k).2) {ins outs : List Nat}
    {kA kP : Nat} (hkP : kP ∉ outs) (hst : st kA = none) (hPm : (dims kA).2 ≤ (dims kP).1) (hPn : (dims kP).2 = 1)
    {L1 : List (TTask (Buf × Nat × Nat) α)} (h1 : Good (evalid (drvEnvK nb dims ld st)) L1)
    (hw : Writes (fun x => x.1 ≠ .usr kP) L1) (ha : AnchPath (tMat nb dims kA) L1) {rg fwd : Bool} :
    GoodC (evalid (drvEnvK nb dims ld st)) (driverK nb dims st ins
      (L1 ++ pzgeswp rg E false fwd (tMat nb dims kA) (uMat nb dims kP)) outs) := by
  have h0 := driverK_good (α := α) (ins := ins) (outs := outs) hnb hsq h1
  unfold driverK at h0 ⊢
  set I := ins.flatMap fun k => copyK (α := α) (st k) (tMat nb dims k) (uMat nb dims k) (tMat nb dims k) with hI
  set O := outs.flatMap fun k => copyK (α := α) (st k) (tMat nb dims k) (tMat nb dims k) (uMat nb dims k) with hO
  set W := pzgeswp rg E false fwd (tMat nb dims kA) (uMat nb dims kP) with hW
  have e1 : I ++ (L1 ++ W) ++ O = (I ++ L1) ++ W ++ O := by simp
  rw [e1]
  have hne : (tMat nb dims kA).id ≠ (uMat nb dims kP).id := by simp [tMat, uMat, TMat.full]
  have hfit : SwpFit (drvEnvK nb dims ld st) nb (tMat nb dims kA) (uMat nb dims kP) (tMat nb dims kA).d.n :=
    ⟨fitsK_gen hnb hst, fitsK_u hnb kP, hne, hPn, hPm⟩
  have hP : ∀ t ∈ (I ++ L1) ++ O, ∀ a i j, t.wr a i j → a.1 ≠ (uMat nb dims kP).id := by
    intro t ht a i j hwr
    have hI' := ins_writes (α := α) hnb hsq ins
    have hO' := outs_writes (α := α) hnb hsq outs
    have : t ∈ I ∨ t ∈ L1 ∨ t ∈ O := by
      simp only [List.mem_append] at ht ⊢; tauto
    rcases this with ht | ht | ht
    · obtain ⟨k, hk⟩ := hI' t ht a i j hwr
      rw [hk]; simp [uMat, TMat.full]
    · exact hw t ht a i j hwr
    · obtain ⟨k, hk, hk'⟩ := hO' t ht a i j hwr
      rw [hk']
      simp only [uMat, TMat.full]
      intro e; cases e; exact hkP hk
  refine ⟨?_, ?_, ?_⟩
  · intro t ht
    rcases List.mem_append.mp ht with ht | ht
    · rcases List.mem_append.mp ht with ht | ht
      · exact h0.loc t (List.mem_append_left _ ht)
      · exact pzgeswp_cols_local hfit.fa.al hfit.fp.al t ht
    · exact h0.loc t (List.mem_append_right _ ht)
  · intro t ht
    rcases List.mem_append.mp ht with ht | ht
    · rcases List.mem_append.mp ht with ht | ht
      · exact h0.ins t (List.mem_append_left _ ht)
      · exact pzgeswp_cols_inside hfit t ht
    · exact h0.ins t (List.mem_append_right _ ht)
  · refine geswp_cov_cols (al_t hnb kA) hne (tcovered_of_declared h0.decl) hP
      (fun t ht => h0.decl t (List.mem_append_right _ ht)) (AnchPath.append ?_ ha)
    intro i t ht m n k l hm hn hx
    have htI := List.mem_of_getElem? ht
    obtain ⟨n', hn', hdep⟩ := anchRows_of (A := tMat nb dims kA) (L := I)
      (fun t ht => h0.decl t (List.mem_append_left _ (List.mem_append_left _ ht)))
      (fun t ht x i j hr => by
        obtain ⟨k, hk⟩ := ins_reads ht hr
        rw [hk]; simp [tMat, TMat.full]) t htI m n k l hm hn hx
    exact ⟨i, t, n', ht, hn', hdep, Relation.ReflTransGen.refl⟩

/-- **Driver theorem**, failure, without an order of the tasks that may fail. -/
theorem gdrvC_failure_any (hnb : 0 < nb) (hld : ∀ k, (dims k).1 ≤ ld k)
    (hsq : ∀ k, stSq (st k) (dims k).1 (dims k).2) {ins outs : List Nat}
    (hins : ins.Nodup) {P : List (GTTask (Buf × Nat × Nat) α)} (hC : CodeOK P)
    (hg : GoodC (evalid (drvEnvK nb dims ld st)) (tasks (gdriverK nb dims st ins P outs)))
    {mem mem' : Buf × Nat → α} {stat : Int}
    (h : GExec (drvEnvK nb dims ld st) (gdriverK nb dims st ins P outs) mem mem' stat)
    (h0 : stat ≠ 0) :
    ∃ s : Store (Buf × Nat × Nat) α,
      (∀ k ∈ ins, ∀ r c, r < (dims k).1 → c < (dims k).2 → stOK (st k) (r / nb) (c / nb) →
        (tMat nb dims k).el s r c = mem (.usr k, r + c * ld k)) ∧
      ∃ i, tcode P s i = stat := by
  have hwf := drvEnvK_wf (nb := nb) hnb hld hsq
  have hcode : CodeOK (gdriverK nb dims st ins P outs) := ((CodeOK.ok _).append hC).append (CodeOK.ok _)
  refine ⟨_, gdriverK_ins hnb hsq hins mem, ?_⟩
  obtain ⟨i, hi, h1, -⟩ := h.failureC hwf hg hcode h0
  set I := okT (ins.flatMap fun k => copyK (α := α) (st k) (tMat nb dims k) (uMat nb dims k) (tMat nb dims k)) with hI
  set O := okT (outs.flatMap fun k => copyK (α := α) (st k) (tMat nb dims k) (tMat nb dims k) (uMat nb dims k)) with hO
  have hD : gdriverK nb dims st ins P outs = I ++ (P ++ O) := by simp [gdriverK, hI, hO]
  rw [hD] at h1
  have hge : I.length ≤ i := by
    by_contra hlt
    rw [tcode_append_left _ _ _ (by omega), hI, tcode_ok] at h1
    exact h0 h1.symm
  obtain ⟨j, rfl⟩ := Nat.exists_eq_add_of_le hge
  rw [tcode_append_right] at h1
  have hjl : j < P.length := by
    by_contra hlt
    obtain ⟨k, rfl⟩ := Nat.exists_eq_add_of_le (Nat.le_of_not_lt hlt)
    rw [tcode_append_right, hO, tcode_ok] at h1
    exact h0 h1.symm
  rw [tcode_append_left _ _ _ hjl] at h1
  rw [hI, tasks_okT] at h1
  exact ⟨j, h1⟩

end

section
variable {α : Type v} [Field α] [StarRing α] [DecidableEq α] {γ : Type w} [LinearOrder γ]

/-- `plasma_omp_zgetri` (compute/zgetri.c:182-227) for valid arguments.  The master thread tests
the status before it creates the tasks of `plasma_pzgetri_aux` and `plasma_pzgeswp`; here they
are always created. -/
def ompZgetri (rg : Bool) (E : IntCode α) (tk : Uplo → Diag → Nat → Tl α → Tl α)
    (info : Uplo → Diag → Nat → Tl α → Nat) (dv : α → α → α) (A P W : TMat Buf) :
    List (GTTask (Buf × Nat × Nat) α) :=
  if A.d.n = 0 then [] else
    pztrtri tk info dv .upper .nonUnit A ++ (pzgetriAux dv A W ++ rawT (pzgeswp rg E false false A P))

/-- Tasks created by `plasma_zgetri` (compute/zgetri.c:58-135) for valid arguments: array 0 is
`A`, array 1 is `ipiv`, tile matrix 2 is the `n`-by-`nb` workspace `W`. -/
def zgetri (rg : Bool) (E : IntCode α) (tk : Uplo → Diag → Nat → Tl α → Tl α)
    (info : Uplo → Diag → Nat → Tl α → Nat) (dv : α → α → α) (nb n : Nat) : List (GTTask (Buf × Nat × Nat) α) :=
  if n = 0 then [] else
    gdriverK nb (gsDims n nb) (fun _ => none) [0]
      (ompZgetri rg E tk info dv (tMat nb (gsDims n nb) 0) (uMat nb (gsDims n nb) 1) (tMat nb (gsDims n nb) 2)) [0]

variable {E : IntCode α} {mag : α → γ} {tk : Uplo → Diag → Nat → Tl α → Tl α} {info : Uplo → Diag → Nat → Tl α → Nat}
  {dv : α → α → α} {big : α → Bool} {nb ib mpt n lda : Nat}

theorem gi_ok (hnb : 0 < nb) : GiOK nb n (tMat nb (gsDims n nb) 0) (tMat nb (gsDims n nb) 2) :=
  ⟨al_t hnb 0, rfl, rfl, by simp [tMat, TMat.full]⟩

theorem gi_good (htk : IsTrtri tk info) (hnb : 0 < nb) {ld : Nat → Nat} :
    Good (evalid (drvEnvK nb (gsDims n nb) ld (fun _ => none)))
      (tasks (pztrtri tk info dv .upper .nonUnit (tMat nb (gsDims n nb) 0)) ++
        tasks (pzgetriAux dv (tMat nb (gsDims n nb) 0) (tMat nb (gsDims n nb) 2))) :=
  (pztrtri_good (N := n) htk ((fitsK_gen hnb rfl).mono fun _ _ _ => trivial) rfl rfl).append
    (pzgetriAux_good (gi_ok hnb) (fitsK_gen hnb rfl) (fitsK_gen hnb rfl) rfl rfl)

theorem gi_writes (hnb : 0 < nb) : Writes (fun x => x.1 = .til 0 ∨ x.1 = .til 2)
      (tasks (pztrtri tk info dv .upper .nonUnit (tMat nb (gsDims n nb) 0)) ++
        tasks (pzgetriAux dv (tMat nb (gsDims n nb) 0) (tMat nb (gsDims n nb) 2))) :=
  Writes.append ((pztrtri_writes (N := n) (al_t hnb 0) rfl rfl).mono fun x hx => Or.inl hx) pzgetriAux_writes

theorem gi_anch (htk : IsTrtri tk info) (hnb : 0 < nb) : AnchPath (tMat nb (gsDims n nb) 0)
      (tasks (pztrtri tk info dv .upper .nonUnit (tMat nb (gsDims n nb) 0)) ++
        tasks (pzgetriAux dv (tMat nb (gsDims n nb) 0) (tMat nb (gsDims n nb) 2))) := by
  have hok := gi_ok (n := n) hnb
  have hg := gi_good (dv := dv) (n := n) htk hnb (ld := fun _ => 0)
  refine AnchPath.anchor (fun t ht => hg.decl t (List.mem_append_left _ ht)) ?_
    (pzgetriAux_anch hok (env := drvEnvK nb (gsDims n nb) (fun _ => 0) (fun _ => none)) (fitsK_gen hnb rfl)
      (fitsK_gen hnb rfl) rfl rfl)
  intro t _ m q k l hm hq _
  exact pzgetriAux_dep hm (by rw [hok.mt, ← hok.nt]; exact hq)

theorem tasks_ompZgetri {rg : Bool} {A P W : TMat Buf} (h : ¬ A.d.n = 0) :
    tasks (ompZgetri rg E tk info dv A P W) = (tasks (pztrtri tk info dv .upper .nonUnit A) ++
      tasks (pzgetriAux dv A W)) ++ pzgeswp rg E false false A P := by
  unfold ompZgetri
  rw [if_neg h]
  simp [tasks_append]

theorem ompZgetri_safe {rg : Bool} {A P W : TMat Buf} :
    Safe (pzgetriAux dv A W ++ rawT (pzgeswp rg E false false A P)) := Safe.append pzgetriAux_safe (safe_raw _)

theorem ompZgetri_code {rg : Bool} {A P W : TMat Buf} (h : ¬ A.d.n = 0) (s : Store (Buf × Nat × Nat) α) (i : Nat) :
    tcode (ompZgetri rg E tk info dv A P W) s i = tcode (pztrtri tk info dv .upper .nonUnit A) s i := by
  unfold ompZgetri
  rw [if_neg h]
  by_cases hi : i < (pztrtri tk info dv .upper .nonUnit A).length
  · rw [tcode_append_left _ _ _ hi]
  · obtain ⟨j, rfl⟩ := Nat.exists_eq_add_of_le (Nat.le_of_not_lt hi)
    rw [tcode_append_right, tcode_safe0 ompZgetri_safe, tcode_len _ _ (by omega)]

theorem ompZgetri_codeOK (htk : IsTrtri tk info) {rg : Bool} {A P W : TMat Buf} {b : Nat} (hA : A.Al b)
    (hm : A.d.m = n) (hn : A.d.n = n) : CodeOK (ompZgetri rg E tk info dv A P W) := by
  unfold ompZgetri
  split
  · exact CodeOK.nil
  · exact (pztrtri_codeOK htk hA hm hn).append (pzgetriAux_codeOK.append (codeOK_raw _))

theorem zgetri_goodC (htk : IsTrtri tk info) (hnb : 0 < nb) (hn : ¬ n = 0) {rg : Bool} {ld : Nat → Nat} :
    GoodC (evalid (drvEnvK nb (gsDims n nb) ld (fun _ => none)))
      (tasks (gdriverK nb (gsDims n nb) (fun _ => none) [0]
        (ompZgetri rg E tk info dv (tMat nb (gsDims n nb) 0) (uMat nb (gsDims n nb) 1) (tMat nb (gsDims n nb) 2)) [0])) := by
  rw [tasks_gdriverK, tasks_ompZgetri (show ¬ (tMat nb (gsDims n nb) 0).d.n = 0 from hn)]
  refine colsDrv_goodC (kA := 0) (kP := 1) hnb gs_sq (by simp) rfl (le_refl n) rfl (gi_good htk hnb) ?_
    (gi_anch htk hnb)
  exact (gi_writes hnb).mono fun x hx => by rcases hx with hx | hx <;> rw [hx] <;> simp

/-- The mathematics of `plasma_omp_zgetri`: with `A0[π r, :] = L*U`, `Z` the inverse of `U`,
`X*L = Z` and `Y[:, c] = X[:, π⁻¹ c]`, the matrix `Y` is the inverse of `A0`. -/
theorem getri_math {π : Equiv.Perm Nat} {A0 L U X Y Z : Nat → Nat → α} (h1 : ∀ r, r < n → π r < n)
    (h2 : ∀ r, r < n → π⁻¹ r < n)
    (hlu : ∀ r c, r < n → c < n → A0 (π r) c = ∑ l ∈ range n, L r l * U l c)
    (hZ : ∀ r c, r < n → c < n → ∑ l ∈ range n, Z r l * U l c = if r = c then 1 else 0)
    (hX : ∀ r c, r < n → c < n → ∑ l ∈ range n, X r l * L l c = Z r c)
    (hY : ∀ r c, r < n → c < n → Y r c = X r (π⁻¹ c)) {r c : Nat} (hr : r < n) (hc : c < n) :
    ∑ l ∈ range n, Y r l * A0 l c = if r = c then 1 else 0 := by
  rw [← sum_perm h1 h2 (fun l => Y r l * A0 l c), ← hZ r c hr hc]
  calc ∑ l ∈ range n, Y r (π l) * A0 (π l) c
      = ∑ l ∈ range n, X r l * ∑ k ∈ range n, L l k * U k c := by
        refine sum_congr rfl fun l hl => ?_
        rw [mem_range] at hl
        rw [hY r _ hr (h1 l hl), hlu l c hl hc]; simp
    _ = ∑ k ∈ range n, (∑ l ∈ range n, X r l * L l k) * U k c := by
        simp only [mul_sum, sum_mul]
        rw [sum_comm]
        exact sum_congr rfl fun _ _ => sum_congr rfl fun _ _ => by ring
    _ = _ := sum_congr rfl fun k hk => by rw [hX r k hr (mem_range.mp hk)]

/-- **C25, getri.** Let the array `A` hold factors `L` and `U` with `P*A0 = L*U`, `P` given by
`ipiv`.  Every execution of `plasma_zgetri` (whether array sections match by region or by base
address) returns 0 exactly when no diagonal element of `U` is zero.  Then the array holds the
inverse of `A0`.  Otherwise the value returned is the position (from 1) of a zero diagonal
element.  Nothing but `A` changes. -/
theorem C25_getri (htk : IsTrtri tk info) (hdv : IsDiv dv) (hnb : 0 < nb) (rg : Bool) (hl : n ≤ lda)
    (mem mem' : Buf × Nat → α) (stat : Int) (A0 : Nat → Nat → α) (hp : IpivIn E mem n)
    (hlu : ∀ r c, r < n → c < n → interch (List.range n) (ipv E mem) A0 r c =
      ∑ l ∈ range n, luL (arr mem 0 lda) r l * luU (arr mem 0 lda) l c)
    (hx : GExec (drvEnvK nb (gsDims n nb) (gsLd n lda n) (fun _ => none)) (zgetri rg E tk info dv nb n)
      mem mem' stat) :
    (stat = 0 ↔ ∀ i, i < n → arr mem 0 lda i i ≠ 0) ∧
    (stat = 0 → ∀ i j, i < n → j < n →
      ∑ l ∈ range n, arr mem' 0 lda i l * A0 l j = (if i = j then 1 else 0) ∧
      ∑ l ∈ range n, A0 i l * arr mem' 0 lda l j = (if i = j then 1 else 0)) ∧
    (stat ≠ 0 → ∃ p : Nat, stat = (p : Int) + 1 ∧ p < n ∧ arr mem 0 lda p p = 0) ∧
    (∀ k x, (k = 0 → ∀ i j, i < n → j < n → x ≠ i + j * lda) → mem' (.usr k, x) = mem (.usr k, x)) := by
  unfold zgetri at hx
  split at hx
  · rename_i hq
    subst hq
    have h0 : stat = 0 := status_zero hnb (gs_ld (n := 0) (nrhs := nb) hl (le_refl 0)) gs_sq (by intro t ht; simp at ht)
      CodeOK.nil (by rw [show tasks ([] : List (GTTask (Buf × Nat × Nat) α)) = [] from rfl]; exact Good.nil.toC) hx
    exact ⟨⟨fun _ i hi => by omega, fun _ => h0⟩, fun _ i j hi => by omega, fun h => absurd h0 h,
      fun k x _ => hx.frame _ (by simp [tasks])⟩
  rename_i hq
  have hg := zgetri_goodC (E := E) (dv := dv) htk hnb hq (rg := rg) (ld := gsLd n lda n)
  set A := tMat nb (gsDims n nb) 0 with hAd
  set W := tMat nb (gsDims n nb) 2 with hWd
  set P := uMat nb (gsDims n nb) 1 with hPd
  have hA : A.Al nb := al_t hnb 0
  have hn' : ¬ A.d.n = 0 := hq
  have hC : CodeOK (ompZgetri rg E tk info dv A P W) := ompZgetri_codeOK (n := n) htk hA rfl rfl
  have hw : OnTilesW [] (tasks (ompZgetri rg E tk info dv A P W)) := by
    rw [tasks_ompZgetri hn']
    refine Writes.append ((gi_writes hnb).mono fun x hx => ?_) (pzgeswp_writes.mono fun x hx => Or.inl ⟨0, hx⟩)
    rcases hx with hx | hx
    · exact Or.inl ⟨0, hx⟩
    · exact Or.inl ⟨2, hx⟩
  have m1 : stat = 0 → (∀ i, i < n → arr mem 0 lda i i ≠ 0) ∧ (∀ i j, i < n → j < n →
      ∑ l ∈ range n, arr mem' 0 lda i l * A0 l j = (if i = j then 1 else 0)) := by
    rintro rfl
    obtain ⟨s, hin, hu, hz, hout, -⟩ := gdrvC_success hnb (gs_ld (nrhs := nb) hl (le_refl n)) gs_sq (by simp) (by simp)
      (by simp) hw hC hg hx
    rw [tasks_ompZgetri hn', texec_append, texec_append] at hout
    have hz' : ∀ i, tcode (pztrtri tk info dv .upper .nonUnit A) s i = 0 := fun i => by
      rw [← ompZgetri_code (rg := rg) (E := E) (P := P) (W := W) hn']; exact hz i
    have hAe : ∀ r c, r < n → c < n → A.el s r c = arr mem 0 lda r c := fun r c hr hc =>
      hin 0 (by simp) r c hr hc trivial
    have hPe : ∀ i, P.el s i 0 = mem (.usr 1, i) := by
      intro i
      have := hu 1 i 0
      rw [Nat.zero_mul, Nat.add_zero] at this
      exact this
    set s1 := texec (tasks (pztrtri tk info dv .upper .nonUnit A)) s with hs1
    set s2 := texec (tasks (pzgetriAux dv A W)) s1 with hs2
    have hP2 : P.el s2 = P.el s := by
      funext r c
      simp only [TMat.el]
      rw [hs2, pzgetriAux_writes.frame s1, hs1, (pztrtri_writes (N := n) hA rfl rfl).frame s]
      · simp [hPd, hAd, tMat, uMat, TMat.full, TMat.at']
      · simp [hPd, hAd, hWd, tMat, uMat, TMat.full, TMat.at']
    have hpv : pv E P s2 = ipv E mem := by funext i; unfold pv ipv; rw [hP2, hPe]
    have hpl : ∀ i, i < n → ipv E mem i < n := fun i hi => by have := hp i hi; unfold ipv; omega
    have hne : A.id ≠ P.id := by simp [hAd, hPd, tMat, uMat, TMat.full]
    have hinv := low_inv (fun r c hr hc => pztrtri_ok (N := n) htk hdv hA rfl rfl s hz' (r := r) (c := c) hr hc)
    rw [trE_upper, trE_upper] at hinv
    refine ⟨fun i hi => ?_, fun i j hi hj => ?_⟩
    · rw [← hAe i i hi hi]
      exact (pztrtri_zero (N := n) htk hA rfl rfl s).mp hz' rfl i hi
    · refine getri_math (π := perm (ipv E mem) 0 n) (L := luL (arr mem 0 lda)) (U := luU (arr mem 0 lda))
        (X := A.el s2) (Z := luU (A.el s1)) (fun r hr => perm_lt (le_refl _) hpl hr)
        (fun r hr => perm_inv_lt (le_refl _) hpl hr) ?_ ?_ ?_ ?_ hi hj
      · intro r c hr hc
        exact (perm_interch (ipv E mem) n A0 r c).symm.trans (hlu r c hr hc)
      · intro r c hr hc
        rw [← inv_comm hinv r c hr hc]
        refine sum_congr rfl fun l hl => ?_
        unfold luU
        rw [hAe l c (mem_range.mp hl) hc]
      · intro r c hr hc
        rw [← pzgetriAux_el (n := n) hdv (gi_ok hnb) s1 hr hc]
        refine sum_congr rfl fun l hl => ?_
        rw [mem_range] at hl
        congr 1
        unfold luL
        by_cases hcl : c < l
        · rw [if_pos hcl, if_pos hcl, hs1,
            pztrtri_frame (N := n) hA rfl rfl s (Or.inl (by simp only [inTri]; omega)), hAe l c hl hc]
        · rw [if_neg hcl, if_neg hcl]
      · intro r c hr hc
        have hO := hout 0 (by simp) r c hr hc
        rw [if_pos (show stOK none _ _ from trivial)] at hO
        refine hO.trans ?_
        have := (pzgeswp_cols_eff (E := E) (P := P) hA hne rg false s2 (fun i hi => by
          rw [hP2, hPe]; exact hp i hi)).1 r c hr hc
        refine this.trans ?_
        rw [hpv, show false = !true from rfl, swpPerm_inv, swpPerm_fwd]
        rfl
  have m2 : stat ≠ 0 → ∃ p : Nat, stat = (p : Int) + 1 ∧ p < n ∧ arr mem 0 lda p p = 0 := by
    intro h0
    obtain ⟨s, hin, i, hi⟩ := gdrvC_failure_any hnb (gs_ld (nrhs := nb) hl (le_refl n)) gs_sq (by simp) hC hg hx h0
    rw [ompZgetri_code hn'] at hi
    obtain ⟨-, r, h2, h3, h4⟩ := pztrtri_bad (N := n) htk hA rfl rfl s (i := i) (by rw [hi]; exact h0)
    refine ⟨r, by rw [← hi]; exact h2, h3, ?_⟩
    rw [← h4]
    exact (hin 0 (by simp) r r h3 h3 trivial).symm
  refine ⟨⟨fun h => (m1 h).1, fun h => ?_⟩, fun h i j hi hj => ⟨(m1 h).2 i j hi hj, ?_⟩, m2, ?_⟩
  · by_contra h0
    obtain ⟨p, -, hp, hz⟩ := m2 h0
    exact h p hp hz
  · exact inv_comm (m1 h).2 i j hi hj
  · obtain ⟨f1, f2⟩ := gdrvC_frame hnb gs_sq hw hg.ins hx
    intro k x hk
    by_cases hk0 : k = 0
    · subst hk0; exact f2 0 x (hk rfl)
    · exact f1 k (by simpa using hk0) (by simp) x

/-- **C25.** `plasma_zgetrf` with return value 0 followed by `plasma_zgetri`: the second call
returns 0 and the array holds the inverse of the original matrix. -/
theorem C25_getrf_getri_partial (htk : IsTrtri tk info) (hdv : IsDiv dv) (hmag : IsMag mag) (hnb : 0 < nb)
    (hib : 0 < ib) (hmpt : 0 < mpt) {nb' : Nat} (hnb' : 0 < nb') (rg : Bool) (hl : n ≤ lda)
    (mem mem1 mem' : Buf × Nat → α) (stat : Int)
    (hf : ZgetrfRun true E mag dv big nb ib mpt n n lda mem mem1 0)
    (hx : GExec (drvEnvK nb' (gsDims n nb') (gsLd n lda n) (fun _ => none)) (zgetri rg E tk info dv nb' n)
      mem1 mem' stat) :
    stat = 0 ∧ ∀ i j, i < n → j < n →
      ∑ l ∈ range n, arr mem' 0 lda i l * arr mem 0 lda l j = (if i = j then 1 else 0) ∧
      ∑ l ∈ range n, arr mem 0 lda i l * arr mem' 0 lda l j = (if i = j then 1 else 0) := by
  obtain ⟨h1, h2, h3, h4⟩ := C22_getrf_partial (Or.inl rfl) hdv hmag hnb hib hmpt hl mem mem1 hf
  rw [Nat.min_self] at h1 h2 h3
  obtain ⟨k1, k2, -⟩ := C25_getri (E := E) htk hdv hnb' rg hl mem1 mem' stat (arr mem 0 lda)
    (fun i hi => ⟨(h1 i hi).1, by have := h1 i hi; unfold ipv at this; omega⟩) h2 hx
  exact ⟨k1.mpr h3, k2 (k1.mpr h3)⟩

theorem zgetri_exists (htk : IsTrtri tk info) (hnb : 0 < nb) (rg : Bool) (hl : n ≤ lda) (hn : 0 < n)
    (mem : Buf × Nat → α) : ∃ mem' stat,
    GExec (drvEnvK nb (gsDims n nb) (gsLd n lda n) (fun _ => none)) (zgetri rg E tk info dv nb n) mem mem' stat := by
  unfold zgetri
  rw [if_neg (by omega)]
  have hg := zgetri_goodC (E := E) (dv := dv) (n := n) htk hnb (by omega) (rg := rg) (ld := gsLd n lda n)
  exact GExec.existsI (drvEnvK_wf hnb (gs_ld (nrhs := nb) hl (le_refl n)) gs_sq) hg.loc hg.ins mem

end

/-! ### A case meeting the hypotheses -/

/-- `C25_getri` for `A0 = [2 10; 1 3]` with factors `L = [1 0; 2 1]`, `U = [1 3; 0 4]`, pivots
`2, 2` and tiles of size 1: an execution returning 0 exists. -/
example : ∃ (tk : Uplo → Diag → Nat → Tl ℚ → Tl ℚ) (info : Uplo → Diag → Nat → Tl ℚ → Nat), IsTrtri tk info ∧
    IpivIn ratCode gsEx 2 ∧
    (∀ r c, r < 2 → c < 2 → interch (List.range 2) (ipv ratCode gsEx)
        (fun i j => if i = 0 then (if j = 0 then 2 else 10) else (if j = 0 then 1 else 3)) r c =
      ∑ l ∈ range 2, luL (arr gsEx 0 2) r l * luU (arr gsEx 0 2) l c) ∧
    ∃ mem', GExec (drvEnvK 1 (gsDims 2 1) (gsLd 2 2 2) (fun _ => none))
      (zgetri false ratCode tk info qdv 1 2) gsEx mem' 0 := by
  obtain ⟨tk, info, htk⟩ := exists_isTrtri (α := ℚ)
  have hp : IpivIn ratCode gsEx 2 := fun i hi => by simp [ratCode, gsEx]
  have hlu : ∀ r c, r < 2 → c < 2 → interch (List.range 2) (ipv ratCode gsEx)
        (fun i j => if i = 0 then (if j = 0 then 2 else 10) else (if j = 0 then 1 else 3)) r c =
      ∑ l ∈ range 2, luL (arr gsEx 0 2) r l * luU (arr gsEx 0 2) l c := by
    intro r c hr hc
    have e : ∀ i, ipv ratCode gsEx i = 1 := fun i => by simp [ipv, ratCode, gsEx]
    interval_cases r <;> interval_cases c <;>
      simp [interch, e, List.range_succ, Finset.sum_range_succ, luL, luU, arr, gsEx] <;> norm_num
  obtain ⟨mem', stat, hx⟩ := zgetri_exists (E := ratCode) (dv := qdv) (lda := 2) htk (nb := 1) (by decide) false
    (le_refl 2) (by decide) gsEx
  have := (C25_getri htk qdv_isDiv (by decide) false (le_refl 2) gsEx mem' stat _ hp hlu hx).1.mpr fun i hi => by
    interval_cases i <;> simp [arr, gsEx]
  exact ⟨tk, info, htk, hp, hlu, mem', this ▸ hx⟩

end Verif.Props

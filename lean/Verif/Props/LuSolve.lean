/-
Properties of `plasma_zgetrs` and `plasma_zgesv`.
-/
import Verif.Props.Lu
import Verif.LuSolve

set_option linter.unusedSectionVars false

namespace Verif.Props

open Verif.Layout Verif.Sched Verif.Tile Verif.LU Verif.Panel Finset

universe u v w

section
variable {M : Type u} [DecidableEq M] {α : Type v} [Field α] [StarRing α] [DecidableEq α] {b : Nat}
  {A B : TMat M} {dv : α → α → α}

/-- Each task of a solve from the left writes the tile column of `B` it touches. -/
theorem pztrsm_anch (hB : B.Al b) (hab : A.id ≠ B.id) {u : Uplo} {t : Trans} {d : Diag} :
    AnchCols B (pztrsm dv .left u t d 1 A B) := by
  intro x hx m n k l hm hn h
  rw [pztrsm_eq hB rfl rfl] at hx
  obtain ⟨kk, hk, hx⟩ := List.mem_flatMap.mp hx
  obtain ⟨p, hp, hx⟩ := List.mem_flatMap.mp hx
  rw [List.mem_range] at hk
  rw [mem_trIdx hk] at hp
  rw [List.mem_singleton] at hx
  subst hx
  have hmt : B.d.mt = ceilDiv (trN .left B.d.m B.d.n) b := hB.mt_eq
  have hlt : ∀ j, j < ceilDiv B.d.m b → ord (trFwd .left u t) (ceilDiv B.d.m b) j < B.d.mt := by
    intro j hj
    rw [hmt]
    show _ < ceilDiv B.d.m b
    unfold ord; split <;> omega
  unfold trTask at h ⊢
  rw [if_pos rfl] at h ⊢
  have hneA : ∀ i j, B.at' m n ≠ A.at' i j := fun i j e => hab (congrArg Prod.fst e).symm
  split at h
  · rename_i hpk
    rw [if_pos hpk]
    refine ⟨ord (trFwd .left u t) (ceilDiv B.d.m b) p.1, hlt _ hp.2.1, ?_⟩
    unfold coreTrsm op1 at h ⊢
    rcases h with h | h
    · exact absurd h.1 (hneA _ _)
    · have := h.1
      unfold trB at this ⊢
      rw [if_pos rfl, TMat.at'_inj] at this
      rw [if_pos rfl, this.2]
      simp
  · rename_i hpk
    rw [if_neg hpk]
    refine ⟨ord (trFwd .left u t) (ceilDiv B.d.m b) p.1, hlt _ hp.2.1, ?_⟩
    unfold coreGemm op2 at h ⊢
    have hn' : n = p.2 := by
      rcases h with (h | h) | h
      · exfalso
        have := h.1
        split at this
        · exact hneA _ _ this
        · exact hneA _ _ this
      · have := h.1
        unfold trB at this
        rw [if_pos rfl, TMat.at'_inj] at this
        exact this.2
      · have := h.1
        unfold trB at this
        rw [if_pos rfl, TMat.at'_inj] at this
        exact this.2
    subst hn'
    simp [trB]

end

section
variable {α : Type v} {nb : Nat} {dims : Nat → Nat × Nat} {ld : Nat → Nat} {st : Nat → Stor} {E : IntCode α}

/-- A driver whose tile algorithm contains the row interchanges of a tile matrix. -/
theorem rowsDrv_goodC (hnb : 0 < nb) (hsq : ∀ k, stSq (st k) (dims k).1 (dims k).2) {ins outs : List Nat}
    {kB kP : Nat} (hkP : kP ∉ outs) (hst : st kB = none) (hPm : (dims kB).1 ≤ (dims kP).1) (hPn : (dims kP).2 = 1)
    {L1 L2 : List (TTask (Buf × Nat × Nat) α)} (h1 : Good (evalid (drvEnvK nb dims ld st)) L1)
    (h2 : Good (evalid (drvEnvK nb dims ld st)) L2)
    (hw : Writes (fun x => x.1 ≠ .usr kP) (L1 ++ L2)) (ha : AnchCols (tMat nb dims kB) L1) {rg fwd : Bool} :
    GoodC (evalid (drvEnvK nb dims ld st)) (driverK nb dims st ins
      (L1 ++ pzgeswp rg E true fwd (tMat nb dims kB) (uMat nb dims kP) ++ L2) outs) := by
  have h0 := driverK_good (α := α) (ins := ins) (outs := outs) hnb hsq (h1.append h2)
  unfold driverK at h0 ⊢
  set I := ins.flatMap fun k => copyK (α := α) (st k) (tMat nb dims k) (uMat nb dims k) (tMat nb dims k) with hI
  set O := outs.flatMap fun k => copyK (α := α) (st k) (tMat nb dims k) (tMat nb dims k) (uMat nb dims k) with hO
  set W := pzgeswp rg E true fwd (tMat nb dims kB) (uMat nb dims kP) with hW
  have e0 : I ++ (L1 ++ L2) ++ O = (I ++ L1) ++ (L2 ++ O) := by simp
  have e1 : I ++ (L1 ++ W ++ L2) ++ O = (I ++ L1) ++ W ++ (L2 ++ O) := by simp
  rw [e0] at h0
  rw [e1]
  have hne : (tMat nb dims kB).id ≠ (uMat nb dims kP).id := by simp [tMat, uMat, TMat.full]
  have hfit : SwpFit (drvEnvK nb dims ld st) nb (tMat nb dims kB) (uMat nb dims kP) (tMat nb dims kB).d.m :=
    ⟨fitsK_gen hnb hst, fitsK_u hnb kP, hne, hPn, hPm⟩
  have hP : ∀ t ∈ (I ++ L1) ++ (L2 ++ O), ∀ a i j, t.wr a i j → a.1 ≠ (uMat nb dims kP).id := by
    intro t ht a i j hwr
    have hI' := ins_writes (α := α) hnb hsq ins
    have hO' := outs_writes (α := α) hnb hsq outs
    have : t ∈ I ∨ t ∈ L1 ++ L2 ∨ t ∈ O := by
      simp only [List.mem_append] at ht ⊢; tauto
    rcases this with ht | ht | ht
    · obtain ⟨k, hk⟩ := hI' t ht a i j hwr
      rw [hk]; simp [uMat, TMat.full]
    · exact hw t ht a i j hwr
    · obtain ⟨k, hk, hk'⟩ := hO' t ht a i j hwr
      rw [hk']
      simp only [uMat, TMat.full]
      intro e; cases e; exact hkP hk
  refine ⟨?_, ?_, ?_⟩
  · intro t ht
    rcases List.mem_append.mp ht with ht | ht
    · rcases List.mem_append.mp ht with ht | ht
      · exact h0.loc t (List.mem_append_left _ ht)
      · exact pzgeswp_rows_local hfit.fa.al hfit.fp.al t ht
    · exact h0.loc t (List.mem_append_right _ ht)
  · intro t ht
    rcases List.mem_append.mp ht with ht | ht
    · rcases List.mem_append.mp ht with ht | ht
      · exact h0.ins t (List.mem_append_left _ ht)
      · exact pzgeswp_rows_inside hfit t ht
    · exact h0.ins t (List.mem_append_right _ ht)
  · refine cov_rows_anch (al_t hnb kB) hne h0.decl hP (AnchCols.append ?_ ha)
    refine anchCols_of (fun t ht => h0.decl t (List.mem_append_left _ (List.mem_append_left _ ht))) ?_
    intro t ht x i j hr
    obtain ⟨k, hk⟩ := ins_reads ht hr
    rw [hk]; simp [tMat, TMat.full]

end

section
variable {α : Type v} [Field α] [StarRing α] [DecidableEq α] {γ : Type w} [LinearOrder γ]

/-- Arrays of the solvers: 0 is `A`, 1 is `ipiv`, 2 is `B`. -/
def gsDims (n nrhs : Nat) : Nat → Nat × Nat
  | 0 => (n, n)
  | 1 => (n, 1)
  | 2 => (n, nrhs)
  | _ => (0, 0)

/-- Leading dimensions. -/
def gsLd (n lda ldb : Nat) : Nat → Nat
  | 0 => lda
  | 1 => n
  | 2 => ldb
  | _ => 0

theorem gs_sq {n nrhs : Nat} : ∀ k, stSq ((fun _ => none : Nat → Stor) k) (gsDims n nrhs k).1 (gsDims n nrhs k).2 :=
  fun _ => Or.inl rfl

theorem gs_ld {n nrhs lda ldb : Nat} (h : n ≤ lda) (h' : n ≤ ldb) :
    ∀ k, (gsDims n nrhs k).1 ≤ gsLd n lda ldb k := by
  intro k; rcases k with _ | _ | _ | k <;> simp [gsDims, gsLd, h, h']

/-- `plasma_omp_zgetrs` (compute/zgetrs.c:124-194) for valid arguments. -/
def ompZgetrs (rg : Bool) (E : IntCode α) (dv : α → α → α) (t : Trans) (A P B : TMat Buf) :
    List (GTTask (Buf × Nat × Nat) α) :=
  if A.d.n = 0 ∨ B.d.n = 0 then [] else
  if t = .noTrans then
    rawT (pzgeswp rg E true true B P) ++
      (okT (pztrsm dv .left .lower .noTrans .unit 1 A B) ++ okT (pztrsm dv .left .upper .noTrans .nonUnit 1 A B))
  else
    (okT (pztrsm dv .left .upper t .nonUnit 1 A B) ++ okT (pztrsm dv .left .lower t .unit 1 A B)) ++
      rawT (pzgeswp rg E true false B P)

/-- Tasks created by `plasma_zgetrs` (compute/zgetrs.c:25-119) for valid arguments. -/
def zgetrs (rg : Bool) (E : IntCode α) (dv : α → α → α) (nb : Nat) (t : Trans) (n nrhs : Nat) :
    List (GTTask (Buf × Nat × Nat) α) :=
  if min n nrhs = 0 then [] else
    gdriverK nb (gsDims n nrhs) (fun _ => none) [0, 2]
      (ompZgetrs rg E dv t (tMat nb (gsDims n nrhs) 0) (uMat nb (gsDims n nrhs) 1) (tMat nb (gsDims n nrhs) 2)) [2]

variable {E : IntCode α} {mag : α → γ} {dv : α → α → α} {big : α → Bool} {nb ib mpt n nrhs lda ldb : Nat}

theorem tasks_ompZgetrs {rg : Bool} {t : Trans} {A P B : TMat Buf} (h : ¬ (A.d.n = 0 ∨ B.d.n = 0)) :
    tasks (ompZgetrs rg E dv t A P B) = getrsL rg E dv t A P B := by
  unfold ompZgetrs getrsL
  rw [if_neg h]
  split <;> simp [tasks_append, tasks_okT]

theorem ompZgetrs_codeOK {rg : Bool} {t : Trans} {A P B : TMat Buf} : CodeOK (ompZgetrs rg E dv t A P B) := by
  unfold ompZgetrs
  split
  · exact CodeOK.nil
  split
  · exact (codeOK_raw _).append ((CodeOK.ok _).append (CodeOK.ok _))
  · exact ((CodeOK.ok _).append (CodeOK.ok _)).append (codeOK_raw _)

theorem Safe.append {β : Type v} {M : Type u} {P Q : List (GTTask (M × Nat × Nat) β)} (h : Safe P) (h' : Safe Q) :
    Safe (P ++ Q) := by
  intro t ht s
  rcases List.mem_append.mp ht with ht | ht
  · exact h t ht s
  · exact h' t ht s

theorem ompZgetrs_safe {rg : Bool} {t : Trans} {A P B : TMat Buf} : Safe (ompZgetrs rg E dv t A P B) := by
  unfold ompZgetrs
  split
  · intro t ht; simp at ht
  split
  · exact Safe.append (safe_raw _) (Safe.append (safe_ok _) (safe_ok _))
  · exact Safe.append (Safe.append (safe_ok _) (safe_ok _)) (safe_raw _)

theorem gs_trsm_good (hnb : 0 < nb) {u : Uplo} {t : Trans} {d : Diag} :
    Good (evalid (drvEnvK nb (gsDims n nrhs) (gsLd n lda ldb) (fun _ => none)))
      (pztrsm dv .left u t d 1 (tMat nb (gsDims n nrhs) 0) (tMat nb (gsDims n nrhs) 2)) :=
  pztrsm_good ((fitsK_gen hnb rfl).mono fun _ _ _ => trivial) (fitsK_gen hnb rfl) rfl rfl (le_refl n) (le_refl n)

theorem gs_good (hnb : 0 < nb) {rg : Bool} {t : Trans} {ins outs : List Nat} (h1 : 1 ∉ outs) :
    GoodC (evalid (drvEnvK nb (gsDims n nrhs) (gsLd n lda ldb) (fun _ => none)))
      (driverK nb (gsDims n nrhs) (fun _ => none) ins
        (getrsL rg E dv t (tMat nb (gsDims n nrhs) 0) (uMat nb (gsDims n nrhs) 1) (tMat nb (gsDims n nrhs) 2)) outs) := by
  have hB := al_t (dims := gsDims n nrhs) hnb 2
  have hab : (tMat nb (gsDims n nrhs) 0).id ≠ (tMat nb (gsDims n nrhs) 2).id := by simp [tMat, TMat.full]
  have hw : ∀ {u t d}, Writes (fun x => x.1 ≠ .usr 1)
      (pztrsm dv .left u t d 1 (tMat nb (gsDims n nrhs) 0) (tMat nb (gsDims n nrhs) 2)) := fun {u t d} =>
    (pztrsm_writes hB rfl rfl).mono fun x hx => by rw [hx]; simp [tMat, TMat.full]
  unfold getrsL
  split
  · refine rowsDrv_goodC (L1 := []) (kB := 2) (kP := 1) hnb gs_sq h1 rfl (le_refl n) rfl Good.nil
      ((gs_trsm_good hnb).append (gs_trsm_good hnb)) (hw.append hw) ?_
    intro t ht; simp at ht
  · have := rowsDrv_goodC (α := α) (E := E) (ins := ins) (ld := gsLd n lda ldb) (L2 := []) (rg := rg) (fwd := false)
      hnb gs_sq h1 (kB := 2) (kP := 1) (dims := gsDims n nrhs) (st := fun _ => none) rfl (le_refl n) rfl
      ((gs_trsm_good (dv := dv) (u := .upper) (t := t) (d := .nonUnit) hnb).append
        (gs_trsm_good (dv := dv) (u := .lower) (t := t) (d := .unit) hnb)) Good.nil
      (by rw [List.append_nil]; exact hw.append hw) ((pztrsm_anch hB hab).append (pztrsm_anch hB hab))
    rwa [List.append_nil] at this

/-- **C24, getrs.** Let the array `A` hold factors `L` and `U` with `P*A0 = L*U` and nonzero
diagonal, `P` given by `ipiv`.  Every execution of `plasma_zgetrs` (whether array sections match
by region or by base address) returns 0 and `X` with `op(A0)*X = B`; nothing but `B` changes. -/
theorem C24_getrs (hdv : IsDiv dv) (hnb : 0 < nb) (rg : Bool) (t : Trans) (hl : n ≤ lda) (hl' : n ≤ ldb)
    (mem mem' : Buf × Nat → α) (stat : Int) (A0 : Nat → Nat → α) (hp : IpivIn E mem n)
    (hd : ∀ i, i < n → arr mem 0 lda i i ≠ 0)
    (hlu : ∀ r c, r < n → c < n → interch (List.range n) (ipv E mem) A0 r c =
      ∑ l ∈ range n, luL (arr mem 0 lda) r l * luU (arr mem 0 lda) l c)
    (hx : GExec (drvEnvK nb (gsDims n nrhs) (gsLd n lda ldb) (fun _ => none)) (zgetrs rg E dv nb t n nrhs)
      mem mem' stat) :
    stat = 0 ∧
    (∀ i j, i < n → j < nrhs → ∑ l ∈ range n, opE t A0 i l * arr mem' 2 ldb l j = arr mem 2 ldb i j) ∧
    (∀ k x, (k = 2 → ∀ i j, i < n → j < nrhs → x ≠ i + j * ldb) → mem' (.usr k, x) = mem (.usr k, x)) := by
  unfold zgetrs at hx
  split at hx
  · rename_i hq
    refine ⟨?_, fun i j hi hj => by omega, fun k x _ => hx.frame _ (by simp [tasks])⟩
    exact status_zero hnb (gs_ld (nrhs := nrhs) hl hl') gs_sq (by intro t ht; simp at ht) CodeOK.nil
      (by rw [show tasks ([] : List (GTTask (Buf × Nat × Nat) α)) = [] from rfl]; exact Good.nil.toC) hx
  rename_i hq
  have hmn : ¬ ((tMat nb (gsDims n nrhs) 0).d.n = 0 ∨ (tMat nb (gsDims n nrhs) 2).d.n = 0) := by
    show ¬ (n = 0 ∨ nrhs = 0); omega
  have hg : GoodC (evalid (drvEnvK nb (gsDims n nrhs) (gsLd n lda ldb) (fun _ => none)))
      (tasks (gdriverK nb (gsDims n nrhs) (fun _ => none) [0, 2]
      (ompZgetrs rg E dv t (tMat nb (gsDims n nrhs) 0) (uMat nb (gsDims n nrhs) 1) (tMat nb (gsDims n nrhs) 2)) [2])) := by
    rw [tasks_gdriverK, tasks_ompZgetrs hmn]; exact gs_good hnb (by simp)
  have hst : stat = 0 := status_zero hnb (gs_ld hl hl') gs_sq
    (Safe.append (Safe.append (safe_ok _) ompZgetrs_safe) (safe_ok _))
    (((CodeOK.ok _).append ompZgetrs_codeOK).append (CodeOK.ok _)) hg hx
  subst hst
  set A := tMat nb (gsDims n nrhs) 0 with hAd
  set B := tMat nb (gsDims n nrhs) 2 with hBd
  set P := uMat nb (gsDims n nrhs) 1 with hPd
  have hB : B.Al nb := al_t hnb 2
  have hw : OnTilesW [] (tasks (ompZgetrs rg E dv t A P B)) := by
    rw [tasks_ompZgetrs hmn]
    exact (getrsL_writes hB).mono fun x hx => Or.inl ⟨2, hx⟩
  obtain ⟨f1, f2⟩ := gdrvC_frame hnb gs_sq hw hg.ins hx
  obtain ⟨s, hin, hu, -, hout, -⟩ := gdrvC_success hnb (gs_ld hl hl') gs_sq (by simp) (by simp) (by simp) hw
    ompZgetrs_codeOK hg hx
  rw [tasks_ompZgetrs hmn] at hout
  have hAe : ∀ r c, r < n → c < n → A.el s r c = arr mem 0 lda r c := fun r c hr hc =>
    hin 0 (by simp) r c hr hc trivial
  have hBe : ∀ r c, r < n → c < nrhs → B.el s r c = arr mem 2 ldb r c := fun r c hr hc =>
    hin 2 (by simp) r c hr hc trivial
  have hPe : ∀ i, P.el s i 0 = mem (.usr 1, i) := by
    intro i
    have := hu 1 i 0
    rw [Nat.zero_mul, Nat.add_zero] at this
    exact this
  have hpv : pv E P s = ipv E mem := by funext i; unfold pv ipv; rw [hPe]
  refine ⟨rfl, fun i j hi hj => ?_, fun k x hk => ?_⟩
  · have key := getrsL_el (b := nb) (E := E) (dv := dv) hdv (al_t hnb 0) hB (by simp [hAd, hBd, tMat, TMat.full])
      (P := P) (by simp [hPd, hBd, tMat, uMat, TMat.full]) rg t s (fun i hi => by rw [hPe]; exact hp i hi)
      (A := A) (fun i hi => by rw [hAe i i hi hi]; exact hd i hi) (A0 := A0) (fun r c hr hc => ?_) (r := i) (c := j) hi hj
    · rw [hBe i j hi hj] at key
      rw [← key]
      refine sum_congr rfl fun l hl => ?_
      rw [mem_range] at hl
      have := hout 2 (by simp) l j hl hj
      rw [if_pos (show stOK none _ _ from trivial)] at this
      congr 1
    · have hr' : r < n := hr
      have hc' : c < n := hc
      rw [hpv]
      refine (perm_interch (ipv E mem) n A0 r c).symm.trans ((hlu r c hr' hc').trans ?_)
      refine sum_congr rfl fun l hl => ?_
      have hl' : l < n := mem_range.mp hl
      unfold luL luU
      rw [hAe r l hr' hl', hAe l c hl' hc']
  · by_cases hk2 : k = 2
    · subst hk2; exact f2 2 x (hk rfl)
    · exact f1 k (by simpa using hk2) (by simp) x

/-- **C24, getrf and getrs.** `plasma_zgetrf` with return value 0 followed by `plasma_zgetrs`:
`op(A)*X = B` for the original `A` and `B`. -/
theorem C24_getrf_getrs_partial (hdv : IsDiv dv) (hmag : IsMag mag) (hnb : 0 < nb) (hib : 0 < ib) (hmpt : 0 < mpt)
    {nb' : Nat} (hnb' : 0 < nb') (rg : Bool) (t : Trans) (hl : n ≤ lda) (hl' : n ≤ ldb)
    (mem mem1 mem' : Buf × Nat → α) (stat : Int)
    (hf : ZgetrfRun true E mag dv big nb ib mpt n n lda mem mem1 0)
    (hx : GExec (drvEnvK nb' (gsDims n nrhs) (gsLd n lda ldb) (fun _ => none)) (zgetrs rg E dv nb' t n nrhs)
      mem1 mem' stat) :
    stat = 0 ∧
    (∀ i j, i < n → j < nrhs →
      ∑ l ∈ range n, opE t (arr mem 0 lda) i l * arr mem' 2 ldb l j = arr mem 2 ldb i j) := by
  obtain ⟨h1, h2, h3, h4⟩ := C22_getrf_partial (Or.inl rfl) hdv hmag hnb hib hmpt hl mem mem1 hf
  rw [Nat.min_self] at h1 h2 h3 h4
  obtain ⟨k1, k2, -⟩ := C24_getrs (E := E) hdv hnb' rg t hl hl' mem1 mem' stat (arr mem 0 lda)
    (fun i hi => ⟨(h1 i hi).1, by have := h1 i hi; unfold ipv at this; omega⟩) h3 h2 hx
  refine ⟨k1, fun i j hi hj => ?_⟩
  rw [k2 i j hi hj]
  exact h4 2 _ (by simp) (by simp)

/-- `plasma_omp_zgesv` (compute/zgesv.c:119-171) for valid arguments.  The master thread tests
the status before it creates the interchange tasks; here they are always created. -/
noncomputable def ompZgesv (rg : Bool) (E : IntCode α) (mag : α → γ) (dv : α → α → α) (big : α → Bool) (ib mpt : Nat)
    (A P B : TMat Buf) : List (GTTask (Buf × Nat × Nat) α) :=
  if A.d.n = 0 ∨ B.d.n = 0 then [] else
    pzgetrf rg E mag dv big ib mpt A P ++
    (rawT (pzgeswp rg E true true B P) ++
      (okT (pztrsm dv .left .lower .noTrans .unit 1 A B) ++ okT (pztrsm dv .left .upper .noTrans .nonUnit 1 A B)))

/-- Tasks created by `plasma_zgesv` (compute/zgesv.c:25-114) for valid arguments. -/
noncomputable def zgesv (rg : Bool) (E : IntCode α) (mag : α → γ) (dv : α → α → α) (big : α → Bool) (nb ib mpt n nrhs : Nat) :
    List (GTTask (Buf × Nat × Nat) α) :=
  if min n nrhs = 0 then [] else
    gdriverK nb (gsDims n nrhs) (fun _ => none) [0, 2]
      (ompZgesv rg E mag dv big ib mpt (tMat nb (gsDims n nrhs) 0) (uMat nb (gsDims n nrhs) 1) (tMat nb (gsDims n nrhs) 2))
      [0, 2]

theorem gsv_fit (hnb : 0 < nb) (hib : 0 < ib) (hmpt : 0 < mpt) :
    LuFit (drvEnvK nb (gsDims n nrhs) (gsLd n lda ldb) (fun _ => none)) nb (tMat nb (gsDims n nrhs) 0)
      (uMat nb (gsDims n nrhs) 1) ib mpt :=
  ⟨⟨al_t hnb 0, al_u hnb 1, by simp [tMat, uMat, TMat.full], (Nat.min_self n).symm, rfl, hib, hmpt⟩,
    fitsK_gen hnb rfl, fitsK_u hnb 1⟩

theorem gsv_swp_good (hnb : 0 < nb) {fwd : Bool} :
    Good (evalid (drvEnvK nb (gsDims n nrhs) (gsLd n lda ldb) (fun _ => none)))
      (pzgeswp true E true fwd (tMat nb (gsDims n nrhs) 2) (uMat nb (gsDims n nrhs) 1)) :=
  pzgeswp_rows_good ⟨fitsK_gen hnb rfl, fitsK_u hnb 1, by simp [tMat, uMat, TMat.full], rfl, le_refl n⟩ rfl

theorem tasks_ompZgesv {A P B : TMat Buf} (h : ¬ (A.d.n = 0 ∨ B.d.n = 0)) :
    tasks (ompZgesv true E mag dv big ib mpt A P B) =
      tasks (pzgetrf true E mag dv big ib mpt A P) ++ getrsL true E dv .noTrans A P B := by
  unfold ompZgesv getrsL
  rw [if_neg h, if_pos rfl]
  simp [tasks_append, tasks_okT]

theorem gsv_good (hnb : 0 < nb) (hib : 0 < ib) (hmpt : 0 < mpt) {ins outs : List Nat}
    (h : ¬ (n = 0 ∨ nrhs = 0)) :
    GoodC (evalid (drvEnvK nb (gsDims n nrhs) (gsLd n lda ldb) (fun _ => none)))
      (tasks (gdriverK nb (gsDims n nrhs) (fun _ => none) ins
        (ompZgesv true E mag dv big ib mpt (tMat nb (gsDims n nrhs) 0) (uMat nb (gsDims n nrhs) 1)
          (tMat nb (gsDims n nrhs) 2)) outs)) := by
  rw [tasks_gdriverK, tasks_ompZgesv h]
  refine (driverK_good hnb gs_sq ((pzgetrf_good (gsv_fit hnb hib hmpt)).append ?_)).toC
  unfold getrsL
  rw [if_pos rfl]
  exact (gsv_swp_good hnb).append ((gs_trsm_good hnb).append (gs_trsm_good hnb))

theorem gsv_codeOK {A P B : TMat Buf} {b : Nat} (h : LuOK b A P ib mpt) :
    CodeOK (ompZgesv true E mag dv big ib mpt A P B) := by
  unfold ompZgesv
  split
  · exact CodeOK.nil
  · exact (pzgetrf_codeOK h true).append ((codeOK_raw _).append ((CodeOK.ok _).append (CodeOK.ok _)))

theorem gsv_safe {A P B : TMat Buf} : Safe (rawT (pzgeswp true E true true B P) ++
      (okT (pztrsm dv .left .lower .noTrans .unit 1 A B) ++ okT (pztrsm dv .left .upper .noTrans .nonUnit 1 A B))) :=
  Safe.append (safe_raw _) (Safe.append (safe_ok _) (safe_ok _))

theorem gsv_chain {A P B : TMat Buf} : FChain (ompZgesv true E mag dv big ib mpt A P B) := by
  unfold ompZgesv
  split
  · intro i j t t' _ hi; simp at hi
  · exact (pzgetrf_chain true).append gsv_safe

theorem gsv_code {A P B : TMat Buf} (h : ¬ (A.d.n = 0 ∨ B.d.n = 0)) (s : Store (Buf × Nat × Nat) α) (i : Nat) :
    tcode (ompZgesv true E mag dv big ib mpt A P B) s i = tcode (pzgetrf true E mag dv big ib mpt A P) s i := by
  unfold ompZgesv
  rw [if_neg h]
  by_cases hi : i < (pzgetrf true E mag dv big ib mpt A P).length
  · rw [tcode_append_left _ _ _ hi]
  · obtain ⟨j, rfl⟩ := Nat.exists_eq_add_of_le (Nat.le_of_not_lt hi)
    rw [tcode_append_right, tcode_safe0 gsv_safe, tcode_len _ _ (by omega)]

theorem gsv_onTiles (hnb : 0 < nb) (h : ¬ (n = 0 ∨ nrhs = 0)) : OnTilesW [1]
    (tasks (ompZgesv true E mag dv big ib mpt (tMat nb (gsDims n nrhs) 0) (uMat nb (gsDims n nrhs) 1)
          (tMat nb (gsDims n nrhs) 2))) := by
  rw [tasks_ompZgesv h]
  refine Writes.append ((pzgetrf_writes true).mono fun x hx => ?_) ((getrsL_writes (al_t hnb 2)).mono fun x hx => ?_)
  · rcases hx with hx | hx
    · exact Or.inl ⟨0, hx⟩
    · exact Or.inr ⟨1, by simp, hx⟩
  · exact Or.inl ⟨2, hx⟩

/-- **C24, gesv.** Every execution of `plasma_zgesv` (array sections matched by region) returns 0
exactly when `A` is nonsingular (its columns are independent).  Then `A*X = B` for the original
`A` and `B`, and the factors and pivots are those of a factorization of `A`.  Otherwise the value
returned is the number of the first column that depends on the columns before it.  Nothing but
`A`, `B` and `ipiv` changes. -/
theorem C24_gesv_partial (hdv : IsDiv dv) (hmag : IsMag mag) (hnb : 0 < nb) (hib : 0 < ib) (hmpt : 0 < mpt)
    (hl : n ≤ lda) (hl' : n ≤ ldb) (hr : 0 < nrhs) (mem mem' : Buf × Nat → α) (stat : Int)
    (hx : GExec (drvEnvK nb (gsDims n nrhs) (gsLd n lda ldb) (fun _ => none))
      (zgesv true E mag dv big nb ib mpt n nrhs) mem mem' stat) :
    (stat = 0 ↔ ColsIndep n n (arr mem 0 lda)) ∧
    (stat = 0 →
      (∀ i j, i < n → j < nrhs →
        ∑ l ∈ range n, arr mem 0 lda i l * arr mem' 2 ldb l j = arr mem 2 ldb i j) ∧
      (∀ i, i < n → 1 ≤ E.dec (mem' (.usr 1, i)) ∧ i ≤ ipv E mem' i ∧ ipv E mem' i < n) ∧
      (∀ r c, r < n → c < n → interch (List.range n) (ipv E mem') (arr mem 0 lda) r c =
        ∑ l ∈ range n, luL (arr mem' 0 lda) r l * luU (arr mem' 0 lda) l c) ∧
      (∀ i, i < n → arr mem' 0 lda i i ≠ 0)) ∧
    (stat ≠ 0 → ∃ q : Nat, q < n ∧ stat = ((q + 1 : Nat) : Int) ∧
      ColsIndep n q (arr mem 0 lda) ∧ ColDep n q (arr mem 0 lda)) ∧
    (∀ k x, (k = 0 → ∀ i j, i < n → j < n → x ≠ i + j * lda) → (k = 1 → n ≤ x) →
      (k = 2 → ∀ i j, i < n → j < nrhs → x ≠ i + j * ldb) → mem' (.usr k, x) = mem (.usr k, x)) := by
  unfold zgesv at hx
  split at hx
  · rename_i hq
    have hn0 : n = 0 := by omega
    subst hn0
    have h0 : stat = 0 := status_zero hnb (gs_ld (nrhs := nrhs) hl hl') gs_sq (by intro t ht; simp at ht) CodeOK.nil
      (by rw [show tasks ([] : List (GTTask (Buf × Nat × Nat) α)) = [] from rfl]; exact Good.nil.toC) hx
    exact ⟨⟨fun _ x _ c hc => by omega, fun _ => h0⟩, fun _ => ⟨fun i j hi => by omega, fun i hi => by omega,
      fun r c hr => by omega, fun i hi => by omega⟩, fun h => absurd h0 h, fun k x _ _ _ => hx.frame _ (by simp [tasks])⟩
  rename_i hq
  have hmn : ¬ (n = 0 ∨ nrhs = 0) := by omega
  set A := tMat nb (gsDims n nrhs) 0 with hAd
  set B := tMat nb (gsDims n nrhs) 2 with hBd
  set P := uMat nb (gsDims n nrhs) 1 with hPd
  have hmn' : ¬ (A.d.n = 0 ∨ B.d.n = 0) := hmn
  have hfit := gsv_fit (n := n) (nrhs := nrhs) (lda := lda) (ldb := ldb) hnb hib hmpt
  have hg := gsv_good (E := E) (mag := mag) (dv := dv) (big := big) (lda := lda) (ldb := ldb) hnb hib hmpt
    (ins := [0, 2]) (outs := [0, 2]) hmn
  have hC := gsv_codeOK (E := E) (mag := mag) (dv := dv) (big := big) (B := B) hfit.ok
  have hw := gsv_onTiles (E := E) (mag := mag) (dv := dv) (big := big) (ib := ib) (mpt := mpt) hnb hmn
  have hB : B.Al nb := al_t hnb 2
  have hfail : stat ≠ 0 → ∃ q : Nat, q < n ∧ stat = ((q + 1 : Nat) : Int) ∧
      ColsIndep n q (arr mem 0 lda) ∧ ColDep n q (arr mem 0 lda) := by
    intro h0
    obtain ⟨s, hin, i, hi, hb⟩ := gdrvC_failure hnb (gs_ld hl hl') gs_sq (by simp) hC gsv_chain hg hx h0
    rw [gsv_code hmn'] at hi
    obtain ⟨q, hqm, hq', hf⟩ := pzgetrf_fail hdv hmag hfit.ok true s (by rw [hi]; exact h0)
      (fun j hj => by rw [← gsv_code hmn']; exact hb j hj)
    have hA0 : ∀ r c, r < n → c < n → A.el s r c = arr mem 0 lda r c := fun r c hr hc' =>
      hin 0 (by simp) r c hr hc' trivial
    have hqn : q < n := lt_of_lt_of_le hqm (Nat.min_le_left n n)
    obtain ⟨hci, x, hcd⟩ := hf.cols
    refine ⟨q, hqn, by rw [← hi, hq'], fun y hy c hc => ?_, ⟨x, fun r hr => ?_⟩⟩
    · refine hci y (fun r hr => ?_) c hc
      rw [← hy r hr]
      refine Finset.sum_congr rfl fun c hc => ?_
      rw [mem_range] at hc
      rw [hA0 r c hr (by omega)]
    · rw [← hA0 r q hr (by omega), hcd r hr]
      refine Finset.sum_congr rfl fun c hc => ?_
      rw [mem_range] at hc
      rw [hA0 r c hr (by omega)]
  have hok : stat = 0 →
      (∀ i j, i < n → j < nrhs →
        ∑ l ∈ range n, arr mem 0 lda i l * arr mem' 2 ldb l j = arr mem 2 ldb i j) ∧
      (∀ i, i < n → 1 ≤ E.dec (mem' (.usr 1, i)) ∧ i ≤ ipv E mem' i ∧ ipv E mem' i < n) ∧
      (∀ r c, r < n → c < n → interch (List.range n) (ipv E mem') (arr mem 0 lda) r c =
        ∑ l ∈ range n, luL (arr mem' 0 lda) r l * luU (arr mem' 0 lda) l c) ∧
      (∀ i, i < n → arr mem' 0 lda i i ≠ 0) := by
    intro h0
    subst h0
    obtain ⟨s, hin, hu, hc, hout, hout', -⟩ := gdrvC_success hnb (gs_ld hl hl') gs_sq (by simp) (by simp) (by simp) hw
      hC hg hx
    rw [tasks_ompZgesv hmn', texec_append] at hout hout'
    have hd := pzgetrf_ok hdv hmag hfit.ok true s (fun i => by rw [← gsv_code hmn']; exact hc i)
    set s1 := texec (tasks (pzgetrf true E mag dv big ib mpt A P)) s with hs1
    have hminn : min A.d.m A.d.n = n := Nat.min_self n
    have hAe : ∀ r c, r < n → c < n → A.el s r c = arr mem 0 lda r c := fun r c hr hc =>
      hin 0 (by simp) r c hr hc trivial
    have hB1 : ∀ r c, r < n → c < nrhs → B.el s1 r c = arr mem 2 ldb r c := fun r c hr hc => by
      have e : B.el s1 r c = B.el s r c := by
        simp only [TMat.el]
        rw [hs1, (pzgetrf_writes true).frame s]
        simp [hAd, hBd, hPd, tMat, uMat, TMat.full, TMat.at']
      rw [e]; exact hin 2 (by simp) r c hr hc trivial
    have hA' : ∀ r c, r < n → c < n → arr mem' 0 lda r c = A.el s1 r c := fun r c hr hc' => by
      have := hout 0 (by simp) r c hr hc'
      rw [if_pos (show stOK none _ _ from trivial)] at this
      refine this.trans ?_
      show A.el _ r c = _
      simp only [TMat.el]
      rw [(getrsL_writes hB).frame s1]
      simp [hAd, hBd, tMat, TMat.full, TMat.at']
    have hP' : ∀ i, i < n → mem' (.usr 1, i) = P.el s1 i 0 := fun i hi => by
      have := hout' 1 (by simp) i 0 hi (by show 0 < 1; decide)
      rw [Nat.zero_mul, Nat.add_zero] at this
      refine this.trans ?_
      show P.el _ i 0 = _
      simp only [TMat.el]
      rw [(getrsL_writes hB).frame s1]
      simp [hPd, hBd, tMat, uMat, TMat.full, TMat.at']
    have hpv : ∀ i, i < n → ipv E mem' i = pv E P s1 i := fun i hi => by unfold ipv pv; rw [hP' i hi]
    have hrng : ∀ i, i < n → 1 ≤ E.dec (P.el s1 i 0) ∧ i ≤ pv E P s1 i ∧ pv E P s1 i < n := fun i hi =>
      hd.rng i (by rw [hminn]; exact hi)
    have hlu : ∀ r c, r < n → c < n → arr mem 0 lda (perm (pv E P s1) 0 n r) c =
        ∑ l ∈ range n, luL (A.el s1) r l * luU (A.el s1) l c := by
      intro r c hr hc'
      have hlt : perm (pv E P s1) 0 n r < n := perm_lt (le_refl _) (fun i hi => (hrng i hi).2.2) hr
      rw [← hAe _ _ hlt hc']
      have := hd.lu r c hr hc'
      rw [hminn] at this
      rw [this, luE_prod (A.el s1) (m := n) (n := n) hr hc', Nat.min_self]
    have hdia : ∀ i, i < n → A.el s1 i i ≠ 0 := fun i hi => hd.dia i (by rw [hminn]; exact hi)
    refine ⟨fun i j hi hj => ?_, fun i hi => ?_, fun r c hr hc' => ?_, fun i hi => ?_⟩
    · have key := getrsL_el (b := nb) (E := E) (dv := dv) hdv (al_t hnb 0) hB (by simp [hAd, hBd, tMat, TMat.full])
        (P := P) (by simp [hPd, hBd, tMat, uMat, TMat.full]) true .noTrans s1 (fun i hi => by
          have := hrng i hi; unfold pv at this; exact ⟨this.1, by have : B.d.m = n := rfl; omega⟩)
        (A := A) hdia (A0 := arr mem 0 lda) hlu (r := i) (c := j) hi hj
      rw [hB1 i j hi hj] at key
      rw [← key]
      refine sum_congr rfl fun l hl => ?_
      rw [mem_range] at hl
      have := hout 2 (by simp) l j hl hj
      rw [if_pos (show stOK none _ _ from trivial)] at this
      exact congrArg _ this
    · rw [hpv i hi, hP' i hi]; exact hrng i hi
    · rw [perm_interch, perm_congr (q := pv E P s1) fun i _ hi => hpv i (by omega), hlu r c hr hc']
      refine sum_congr rfl fun l hl => ?_
      rw [mem_range] at hl
      unfold luL luU
      rw [hA' r l hr hl, hA' l c hl hc']
    · rw [hA' i i hi hi]; exact hdia i hi
  refine ⟨⟨fun h0 => ?_, fun hi => ?_⟩, hok, hfail, ?_⟩
  · obtain ⟨-, h1, h2, h3⟩ := hok h0
    refine indep_of_lu (X := arr mem' 0 lda) (π := perm (ipv E mem') 0 n)
      (fun r hr => perm_lt (le_refl _) (fun i hi => (h1 i hi).2.2) hr) (le_refl _) (fun r c hr hc => ?_) h3
    exact (perm_interch (ipv E mem') n (arr mem 0 lda) r c).symm.trans (h2 r c hr hc)
  · by_contra h0
    obtain ⟨q, hq, -, -, hd⟩ := hfail h0
    exact hd.not_indep hq hi
  · obtain ⟨f1, f2⟩ := gdrvC_frame hnb gs_sq hw hg.ins hx
    intro k x h0 h1 h2
    rcases k with _ | _ | _ | k
    · exact f2 0 x (h0 rfl)
    · refine f2 1 x fun i j hi hj e => ?_
      have : j = 0 := by have : j < 1 := hj; omega
      subst this
      have h3 := h1 rfl
      have : i < n := hi
      rw [Nat.zero_mul] at e
      omega
    · exact f2 2 x (h2 rfl)
    · exact f1 (k + 3) (by simp) (by simp) x

theorem zgetrs_exists (hnb : 0 < nb) (rg : Bool) (t : Trans) (hl : n ≤ lda) (hl' : n ≤ ldb) (hn : 0 < n)
    (hr : 0 < nrhs) (mem : Buf × Nat → α) : ∃ mem' stat,
    GExec (drvEnvK nb (gsDims n nrhs) (gsLd n lda ldb) (fun _ => none)) (zgetrs rg E dv nb t n nrhs) mem mem' stat := by
  have hmn : ¬ ((tMat nb (gsDims n nrhs) 0).d.n = 0 ∨ (tMat nb (gsDims n nrhs) 2).d.n = 0) := by
    show ¬ (n = 0 ∨ nrhs = 0); omega
  unfold zgetrs
  rw [if_neg (by omega)]
  have hg := gs_good (E := E) (dv := dv) (n := n) (nrhs := nrhs) (lda := lda) (ldb := ldb) hnb (rg := rg) (t := t)
    (ins := [0, 2]) (outs := [2]) (by simp)
  refine GExec.existsI (drvEnvK_wf hnb (gs_ld hl hl') gs_sq) ?_ ?_ mem <;> rw [tasks_gdriverK, tasks_ompZgetrs hmn]
  · exact hg.loc
  · exact hg.ins

theorem zgesv_exists (hnb : 0 < nb) (hib : 0 < ib) (hmpt : 0 < mpt) (hl : n ≤ lda) (hl' : n ≤ ldb) (hn : 0 < n)
    (hr : 0 < nrhs) (mem : Buf × Nat → α) : ∃ mem' stat,
    GExec (drvEnvK nb (gsDims n nrhs) (gsLd n lda ldb) (fun _ => none)) (zgesv true E mag dv big nb ib mpt n nrhs)
      mem mem' stat := by
  unfold zgesv
  rw [if_neg (by omega)]
  have hg := gsv_good (E := E) (mag := mag) (dv := dv) (big := big) (lda := lda) (ldb := ldb) hnb hib hmpt
    (ins := [0, 2]) (outs := [0, 2]) (n := n) (nrhs := nrhs) (by omega)
  exact GExec.existsI (drvEnvK_wf hnb (gs_ld hl hl') gs_sq) hg.loc hg.ins mem

end

/-! ### Cases meeting the hypotheses -/

/-- Factors `L = [1 0; 2 1]`, `U = [1 3; 0 4]`, pivots `2, 2`, right-hand sides all 1. -/
def gsEx : Buf × Nat → ℚ
  | (.usr 0, 0) => 1
  | (.usr 0, 1) => 2
  | (.usr 0, 2) => 3
  | (.usr 0, 3) => 4
  | (.usr 1, _) => 2
  | (.usr 2, _) => 1
  | _ => 0

/-- `C24_getrs` for the conjugate transpose of `A0 = [2 10; 1 3]` and three right-hand sides. -/
example : IpivIn ratCode gsEx 2 ∧ (∀ i, i < 2 → arr gsEx 0 2 i i ≠ 0) ∧
    (∀ r c, r < 2 → c < 2 → interch (List.range 2) (ipv ratCode gsEx)
        (fun i j => if i = 0 then (if j = 0 then 2 else 10) else (if j = 0 then 1 else 3)) r c =
      ∑ l ∈ range 2, luL (arr gsEx 0 2) r l * luU (arr gsEx 0 2) l c) ∧
    ∃ mem' stat, GExec (drvEnvK 1 (gsDims 2 3) (gsLd 2 2 2) (fun _ => none))
      (zgetrs false ratCode qdv 1 .conjTrans 2 3) gsEx mem' stat := by
  refine ⟨fun i hi => ?_, fun i hi => ?_, fun r c hr hc => ?_, ?_⟩
  · simp [ratCode, gsEx]
  · interval_cases i <;> simp [arr, gsEx]
  · have e : ∀ i, ipv ratCode gsEx i = 1 := fun i => by simp [ipv, ratCode, gsEx]
    interval_cases r <;> interval_cases c <;>
      simp [interch, e, List.range_succ, Finset.sum_range_succ, luL, luU, arr, gsEx] <;> norm_num
  · exact zgetrs_exists (by decide) false .conjTrans (by decide) (by decide) (by decide) (by decide) gsEx

/-- `C24_gesv_partial`: the matrix `[1 3; 2 4]`, tiles of size 1; an execution returning 0 exists. -/
example : ∃ mem', GExec (drvEnvK 1 (gsDims 2 3) (gsLd 2 2 2) (fun _ => none))
    (zgesv true ratCode (fun x : ℚ => |x|) qdv (fun _ => true) 1 1 1 2 3) gsEx mem' 0 := by
  have hmag : IsMag (fun x : ℚ => |x|) := ⟨fun x hx => by simpa using hx⟩
  obtain ⟨mem', stat, hx⟩ := zgesv_exists (E := ratCode) (mag := fun x : ℚ => |x|) (dv := qdv) (big := fun _ => true)
    (nb := 1) (ib := 1) (mpt := 1) (n := 2) (nrhs := 3) (lda := 2) (ldb := 2) (by decide) (by decide) (by decide)
    (by decide) (by decide) (by decide) (by decide) gsEx
  have := (C24_gesv_partial qdv_isDiv hmag (by decide) (by decide) (by decide) (by decide) (by decide) (by decide)
    gsEx mem' stat hx).1.mpr fun x h c hc => by
      have h0 := h 0 (by decide)
      have h1 := h 1 (by decide)
      simp [Finset.sum_range_succ, arr, gsEx] at h0 h1
      have hc' : c < 2 := hc
      interval_cases c <;> linarith
  exact ⟨mem', this ▸ hx⟩

end Verif.Props

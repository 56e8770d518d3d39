/-
Properties of `plasma_zgeswp`: C21.
-/
import Verif.GeswpProof
import Verif.LUSing
import Verif.Props.Posv

namespace Verif.Props

open Verif.Layout Verif.Tile Verif.Sched Verif.LU Verif.Panel Finset

universe v w

section
variable {M : Type w} {α : Type v}

/-- Tasks without a test of the status of the sequence. -/
def rawT (P : List (TTask M α)) : List (GTTask M α) := P.map fun t => { task := t, guard := false }

@[simp] theorem tasks_rawT (P : List (TTask M α)) : tasks (rawT P) = P := by
  unfold tasks rawT
  rw [List.map_map]
  exact List.map_id' P

theorem safe_raw (P : List (TTask M α)) : Safe (rawT P) := by
  intro t ht s
  obtain ⟨t', _, rfl⟩ := List.mem_map.mp ht
  rfl

theorem codeOK_raw (P : List (TTask M α)) : CodeOK (rawT P) := by
  constructor
  · intro t ht s s' _
    obtain ⟨t', _, rfl⟩ := List.mem_map.mp ht
    rfl
  · intro t ht s _
    obtain ⟨t', _, rfl⟩ := List.mem_map.mp ht
    rfl

theorem tcode_safe0 {P : List (GTTask M α)} (h : Safe P) (s : Store M α) (i : Nat) : tcode P s i = 0 := by
  unfold tcode
  split
  · rename_i t ht
    exact h t (List.mem_of_getElem? ht) _
  · rfl

end

section
variable {α : Type v} {nb : Nat} {dims : Nat → Nat × Nat} {ld : Nat → Nat} {st : Nat → Stor}

/-- The copies to tile storage read user arrays only. -/
theorem ins_reads {ins : List Nat} {t : TTask (Buf × Nat × Nat) α}
    (ht : t ∈ ins.flatMap fun k => copyK (α := α) (st k) (tMat nb dims k) (uMat nb dims k) (tMat nb dims k))
    {x : Buf × Nat × Nat} {i j : Nat} (hr : t.rd x i j) : ∃ k, x.1 = .usr k := by
  obtain ⟨k, _, ht⟩ := List.mem_flatMap.mp ht
  unfold copyK at ht
  obtain ⟨m, _, ht⟩ := List.mem_flatMap.mp ht
  obtain ⟨n, _, rfl⟩ := List.mem_map.mp ht
  exact ⟨k, by rw [hr.1]; rfl⟩

/-- If no task can fail the status stays 0. -/
theorem status_zero (hnb : 0 < nb) (hld : ∀ k, (dims k).1 ≤ ld k)
    (hsq : ∀ k, stSq (st k) (dims k).1 (dims k).2) {P : List (GTTask (Buf × Nat × Nat) α)} (hs : Safe P)
    (hC : CodeOK P) (hg : GoodC (evalid (drvEnvK nb dims ld st)) (tasks P)) {mem mem' : Buf × Nat → α} {stat : Int}
    (h : GExec (drvEnvK nb dims ld st) P mem mem' stat) : stat = 0 := by
  by_contra h0
  obtain ⟨i, _, hi, _⟩ := h.failureC (drvEnvK_wf hnb hld hsq) hg hC h0
  rw [tcode_safe0 hs] at hi
  exact h0 hi.symm

/-- Each task of `L` touching tile column `n` of `A` writes this column, according to its clauses. -/
def AnchCols {M : Type w} (A : TMat M) (L : List (TTask (M × Nat × Nat) α)) : Prop :=
  ∀ t ∈ L, ∀ m n k l, m < A.d.mt → n < A.d.nt → t.rd (A.at' m n) k l ∨ t.wr (A.at' m n) k l →
    ∃ m', m' < A.d.mt ∧ (A.at' m' n, true) ∈ t.deps

/-- The same for tile rows. -/
def AnchRows {M : Type w} (A : TMat M) (L : List (TTask (M × Nat × Nat) α)) : Prop :=
  ∀ t ∈ L, ∀ m n k l, m < A.d.mt → n < A.d.nt → t.rd (A.at' m n) k l ∨ t.wr (A.at' m n) k l →
    ∃ n', n' < A.d.nt ∧ (A.at' m n', true) ∈ t.deps

theorem AnchCols.append {M : Type w} {A : TMat M} {L L' : List (TTask (M × Nat × Nat) α)} (h : AnchCols A L)
    (h' : AnchCols A L') : AnchCols A (L ++ L') := by
  intro t ht
  rcases List.mem_append.mp ht with ht | ht
  · exact h t ht
  · exact h' t ht

/-- Accesses that are writes are such. -/
theorem anchCols_of {M : Type w} {A : TMat M} {L : List (TTask (M × Nat × Nat) α)} (hd : ∀ t ∈ L, t.Declared)
    (hr : ∀ t ∈ L, ∀ x i j, t.rd x i j → x.1 ≠ A.id) : AnchCols A L := by
  rintro t ht m n k l hm hn (h | h)
  · exact absurd rfl (hr t ht _ _ _ h)
  · exact ⟨m, hm, (hd t ht).2 _ _ _ h⟩

theorem anchRows_of {M : Type w} {A : TMat M} {L : List (TTask (M × Nat × Nat) α)} (hd : ∀ t ∈ L, t.Declared)
    (hr : ∀ t ∈ L, ∀ x i j, t.rd x i j → x.1 ≠ A.id) : AnchRows A L := by
  rintro t ht m n k l hm hn (h | h)
  · exact absurd rfl (hr t ht _ _ _ h)
  · exact ⟨n, hn, (hd t ht).2 _ _ _ h⟩

theorem cov_rows_anch {M : Type w} {b : Nat} {E : IntCode α} {A P : TMat M} {rg fwd : Bool} (hA : A.Al b)
    (hne : A.id ≠ P.id) {L1 L2 : List (TTask (M × Nat × Nat) α)} (hd : ∀ t ∈ L1 ++ L2, t.Declared)
    (hP : ∀ t ∈ L1 ++ L2, ∀ a i j, t.wr a i j → a.1 ≠ P.id) (h1 : AnchCols A L1) :
    TCovered (L1 ++ pzgeswp rg E true fwd A P ++ L2) := by
  refine geswp_cov_rows hA hne (tcovered_of_declared hd) hP (fun t ht => hd t (List.mem_append_right _ ht)) ?_
  intro i t ht m n k l hm hn h
  obtain ⟨m', hm', hdep⟩ := h1 t (List.mem_of_getElem? ht) m n k l hm hn h
  exact ⟨i, t, m', ht, hm', hdep, Relation.ReflTransGen.refl⟩

theorem cov_cols_anch {M : Type w} {b : Nat} {E : IntCode α} {A P : TMat M} {rg fwd : Bool} (hA : A.Al b)
    (hne : A.id ≠ P.id) {L1 L2 : List (TTask (M × Nat × Nat) α)} (hd : ∀ t ∈ L1 ++ L2, t.Declared)
    (hP : ∀ t ∈ L1 ++ L2, ∀ a i j, t.wr a i j → a.1 ≠ P.id) (h1 : AnchRows A L1) :
    TCovered (L1 ++ pzgeswp rg E false fwd A P ++ L2) := by
  refine geswp_cov_cols hA hne (tcovered_of_declared hd) hP (fun t ht => hd t (List.mem_append_right _ ht)) ?_
  intro i t ht m n k l hm hn h
  obtain ⟨n', hn', hdep⟩ := h1 t (List.mem_of_getElem? ht) m n k l hm hn h
  exact ⟨i, t, n', ht, hn', hdep, Relation.ReflTransGen.refl⟩

end

/-! ### The driver -/

section
variable {α : Type v} (E : IntCode α)

/-- Length of the pivot array used: rows (columns) of the matrix (compute/pzgeswp.c:56, 99). -/
def swLen (rowwise : Bool) (m n : Nat) : Nat := if rowwise then m else n

/-- Array 0 is the matrix, array 1 the pivots. -/
def swDims (rowwise : Bool) (m n : Nat) : Nat → Nat × Nat
  | 0 => (m, n)
  | 1 => (swLen rowwise m n, 1)
  | _ => (0, 0)

/-- Leading dimensions; the pivot array is contiguous. -/
def swLd (rowwise : Bool) (m n lda : Nat) : Nat → Nat
  | 0 => lda
  | 1 => swLen rowwise m n
  | _ => 0

/-- Tasks created by `plasma_zgeswp` (compute/zgeswp.c:22-102) and `plasma_omp_zgeswp`
(compute/zgeswp.c:105-146) for valid arguments and `incx = 1` (`fwd`) or `-1`.  The interchange
tasks do not test the status. -/
def zgeswp (rg : Bool) (nb : Nat) (rowwise fwd : Bool) (m n : Nat) : List (GTTask (Buf × Nat × Nat) α) :=
  if min n m = 0 then [] else
    gdriverK nb (swDims rowwise m n) (fun _ => none) [0]
      (rawT (if min m n = 0 then [] else
        pzgeswp rg E rowwise fwd (tMat nb (swDims rowwise m n) 0) (uMat nb (swDims rowwise m n) 1))) [0]

/-- The pivot `ipiv[i]` as a row (column) number starting at 0. -/
def ipv (mem : Buf × Nat → α) (i : Nat) : Nat := E.dec (mem (.usr 1, i)) - 1

/-- The contents of `ipiv[0..K-1]` are in range. -/
def IpivIn (mem : Buf × Nat → α) (K : Nat) : Prop :=
  ∀ i, i < K → 1 ≤ E.dec (mem (.usr 1, i)) ∧ E.dec (mem (.usr 1, i)) ≤ K

theorem sw_sq {rowwise : Bool} {m n : Nat} : ∀ k, stSq ((fun _ => none : Nat → Stor) k)
    (swDims rowwise m n k).1 (swDims rowwise m n k).2 := fun _ => Or.inl rfl

theorem sw_ld {rowwise : Bool} {m n lda : Nat} (h : m ≤ lda) :
    ∀ k, (swDims rowwise m n k).1 ≤ swLd rowwise m n lda k := by
  intro k; rcases k with _ | _ | k <;> simp [swDims, swLd, h]

variable {E}

theorem swpPerm_interch (fwd : Bool) (K : Nat) (p : Nat → Nat) (X : Nat → Nat → α) (r c : Nat) :
    X (swpPerm fwd K p r) c = interch (if fwd then List.range K else (List.range K).reverse) p X r c := by
  rw [interch_permL]
  unfold swpPerm swpOrd
  cases fwd <;> simp [List.range_eq_range']

theorem sw_goodC {nb : Nat} (hnb : 0 < nb) {rg rowwise fwd : Bool} {m n lda : Nat} :
    GoodC (evalid (drvEnvK nb (swDims rowwise m n) (swLd rowwise m n lda) (fun _ => none)))
      (driverK nb (swDims rowwise m n) (fun _ => none) [0]
        (pzgeswp rg E rowwise fwd (tMat nb (swDims rowwise m n) 0) (uMat nb (swDims rowwise m n) 1)) [0]) := by
  have h0 := driverK_good (α := α) (dims := swDims rowwise m n) (ld := swLd rowwise m n lda) (ins := [0]) (outs := [0])
    hnb sw_sq Good.nil
  unfold driverK at h0 ⊢
  rw [List.append_nil] at h0
  have hne : (tMat nb (swDims rowwise m n) 0).id ≠ (uMat nb (swDims rowwise m n) 1).id := by
    simp [tMat, uMat, TMat.full]
  have hP : ∀ t ∈ ([0].flatMap fun k => copyK (α := α) ((fun _ => none : Nat → Stor) k) (tMat nb (swDims rowwise m n) k)
        (uMat nb (swDims rowwise m n) k) (tMat nb (swDims rowwise m n) k)) ++
      ([0].flatMap fun k => copyK (α := α) ((fun _ => none : Nat → Stor) k) (tMat nb (swDims rowwise m n) k)
        (tMat nb (swDims rowwise m n) k) (uMat nb (swDims rowwise m n) k)), ∀ a i j, t.wr a i j →
      a.1 ≠ (uMat nb (swDims rowwise m n) 1).id := by
    intro t ht a i j hw
    rcases List.mem_append.mp ht with ht | ht
    · obtain ⟨k, hk⟩ := ins_writes hnb sw_sq [0] t ht a i j hw
      rw [hk]; simp [uMat, TMat.full]
    · obtain ⟨k, hk, hk'⟩ := outs_writes hnb sw_sq [0] t ht a i j hw
      rw [hk']
      simp only [List.mem_singleton] at hk
      subst hk
      simp [uMat, TMat.full]
  have hrd : ∀ t ∈ ([0].flatMap fun k => copyK (α := α) ((fun _ => none : Nat → Stor) k) (tMat nb (swDims rowwise m n) k)
        (uMat nb (swDims rowwise m n) k) (tMat nb (swDims rowwise m n) k)), ∀ x i j, t.rd x i j →
        x.1 ≠ (tMat nb (swDims rowwise m n) 0).id := by
    intro t ht x i j hr
    obtain ⟨k, hk⟩ := ins_reads ht hr
    rw [hk]; simp [tMat, TMat.full]
  have hfit : SwpFit (drvEnvK nb (swDims rowwise m n) (swLd rowwise m n lda) (fun _ => none)) nb
      (tMat nb (swDims rowwise m n) 0) (uMat nb (swDims rowwise m n) 1) (swLen rowwise m n) :=
    ⟨fitsK_gen hnb rfl, fitsK_u hnb 1, hne, rfl, le_refl _⟩
  have hloc : ∀ t ∈ pzgeswp rg E rowwise fwd (tMat nb (swDims rowwise m n) 0) (uMat nb (swDims rowwise m n) 1),
      t.Local ∧ t.Inside (evalid (drvEnvK nb (swDims rowwise m n) (swLd rowwise m n lda) (fun _ => none))) := by
    intro t ht
    cases rowwise
    · exact ⟨pzgeswp_cols_local hfit.fa.al hfit.fp.al t ht, pzgeswp_cols_inside hfit t ht⟩
    · exact ⟨pzgeswp_rows_local hfit.fa.al hfit.fp.al t ht, pzgeswp_rows_inside hfit t ht⟩
  refine ⟨?_, ?_, ?_⟩
  · intro t ht
    rcases List.mem_append.mp ht with ht | ht
    · rcases List.mem_append.mp ht with ht | ht
      · exact h0.loc t (List.mem_append_left _ ht)
      · exact (hloc t ht).1
    · exact h0.loc t (List.mem_append_right _ ht)
  · intro t ht
    rcases List.mem_append.mp ht with ht | ht
    · rcases List.mem_append.mp ht with ht | ht
      · exact h0.ins t (List.mem_append_left _ ht)
      · exact (hloc t ht).2
    · exact h0.ins t (List.mem_append_right _ ht)
  · cases rowwise
    · exact cov_cols_anch (al_t hnb 0) hne h0.decl hP
        (anchRows_of (fun t ht => h0.decl t (List.mem_append_left _ ht)) hrd)
    · exact cov_rows_anch (al_t hnb 0) hne h0.decl hP
        (anchCols_of (fun t ht => h0.decl t (List.mem_append_left _ ht)) hrd)

/-- **C21.** Every execution of `plasma_zgeswp` (whether array sections in `depend` clauses match
by region or by base address) returns 0 and applies the interchanges `i ↔ ipiv[i]-1` one after
the other, in increasing order for `incx = 1` and in decreasing order for `incx = -1`, to the
rows (columns); the pivots, padding and all other arrays are unchanged. -/
theorem C21_geswp {nb : Nat} (hnb : 0 < nb) (rg rowwise fwd : Bool) (m n lda : Nat) (hl : m ≤ lda)
    (mem mem' : Buf × Nat → α) (st : Int) (hp : IpivIn E mem (swLen rowwise m n))
    (hx : GExec (drvEnvK nb (swDims rowwise m n) (swLd rowwise m n lda) (fun _ => none))
      (zgeswp E rg nb rowwise fwd m n) mem mem' st) :
    st = 0 ∧
    (∀ r c, r < m → c < n → arr mem' 0 lda r c =
      if rowwise then
        interch (if fwd then List.range m else (List.range m).reverse) (ipv E mem) (arr mem 0 lda) r c
      else
        interch (if fwd then List.range n else (List.range n).reverse) (ipv E mem)
          (fun j i => arr mem 0 lda i j) c r) ∧
    (∀ k x, (k = 0 → ∀ i j, i < m → j < n → x ≠ i + j * lda) → mem' (.usr k, x) = mem (.usr k, x)) := by
  unfold zgeswp at hx
  split at hx
  · rename_i hq
    refine ⟨?_, fun r c hr hc => by omega, fun k x _ => hx.frame _ (by simp [tasks])⟩
    exact status_zero hnb (sw_ld hl) sw_sq (by intro t ht; simp at ht) CodeOK.nil
      (by rw [show tasks ([] : List (GTTask (Buf × Nat × Nat) α)) = [] from rfl]; exact Good.nil.toC) hx
  · rename_i hq
    rw [if_neg (by omega)] at hx
    set A := tMat nb (swDims rowwise m n) 0 with hA
    set P := uMat nb (swDims rowwise m n) 1 with hP
    have hg : GoodC (evalid (drvEnvK nb (swDims rowwise m n) (swLd rowwise m n lda) (fun _ => none)))
        (tasks (gdriverK nb (swDims rowwise m n) (fun _ => none) [0] (rawT (pzgeswp rg E rowwise fwd A P)) [0])) := by
      rw [tasks_gdriverK, tasks_rawT]; exact sw_goodC hnb
    have hw : OnTilesW [] (tasks (rawT (pzgeswp rg E rowwise fwd A P))) := by
      rw [tasks_rawT]
      exact pzgeswp_writes.mono fun x hx => Or.inl ⟨0, hx⟩
    have hst : st = 0 := by
      refine status_zero hnb (sw_ld hl) sw_sq ?_ ?_ hg hx
      · intro t ht s
        unfold gdriverK at ht
        rcases List.mem_append.mp ht with ht | ht
        · rcases List.mem_append.mp ht with ht | ht
          · exact safe_ok _ t ht s
          · exact safe_raw _ t ht s
        · exact safe_ok _ t ht s
      · exact ((CodeOK.ok _).append (codeOK_raw _)).append (CodeOK.ok _)
    subst hst
    obtain ⟨f1, f2⟩ := gdrvC_frame hnb sw_sq hw hg.ins hx
    obtain ⟨s, hin, hu, -, hout, -⟩ := gdrvC_success hnb (sw_ld hl) sw_sq (by simp) (by simp) (by simp) hw
      (codeOK_raw _) hg hx
    refine ⟨rfl, fun r c hr hc => ?_, fun k x hk => ?_⟩
    · have hAe : ∀ r c, r < m → c < n → A.el s r c = arr mem 0 lda r c := fun r c hr hc =>
        hin 0 (by simp) r c hr hc trivial
      have hPe : ∀ i, P.el s i 0 = mem (.usr 1, i) := by
        intro i
        have := hu 1 i 0
        rw [Nat.zero_mul, Nat.add_zero] at this
        exact this
      have hpv : ∀ i, pv E P s i = ipv E mem i := fun i => by unfold pv ipv; rw [hPe]
      have hO : arr mem' 0 lda r c = A.el (texec (pzgeswp rg E rowwise fwd A P) s) r c := by
        have := hout 0 (by simp) r c hr hc
        rw [if_pos (show stOK none _ _ from trivial), tasks_rawT] at this
        exact this
      rw [hO]
      have hne : A.id ≠ P.id := by simp [hA, hP, tMat, uMat, TMat.full]
      have hpin : PvIn E P (swLen rowwise m n) s := fun i hi => by rw [hPe]; exact hp i hi
      cases rowwise
      · rw [if_neg (by simp), (pzgeswp_cols_eff (al_t hnb 0) hne rg fwd s hpin).1 r c hr hc,
          ← swpPerm_interch]
        have hlt : swpPerm fwd n (pv E P s) c < n := swpPerm_lt (fun i hi => by
          have := hpin i hi
          have e : swLen false m n = n := rfl
          rw [e] at this
          unfold pv; omega) hc
        rw [show A.d.n = n from rfl, hAe _ _ hr hlt, swpPerm_congr fun i _ => hpv i]
      · rw [if_pos rfl, (pzgeswp_rows_eff (al_t hnb 0) hne rg fwd s hpin).1 r c hr hc,
          ← swpPerm_interch]
        have hlt : swpPerm fwd m (pv E P s) r < m := swpPerm_lt (fun i hi => by
          have := hpin i hi
          have e : swLen true m n = m := rfl
          rw [e] at this
          unfold pv; omega) hr
        rw [show A.d.m = m from rfl, hAe _ _ hlt hc, swpPerm_congr fun i _ => hpv i]
    · by_cases hk0 : k = 0
      · subst hk0; exact f2 0 x (hk rfl)
      · exact f1 k (by simpa using hk0) (by simp) x

/-- **C21.** A call with `incx = 1` followed by a call with `incx = -1`, or the other way round,
restores the matrix. -/
theorem C21_geswp_inverse {nb : Nat} (hnb : 0 < nb) (rg rowwise fwd : Bool) (m n lda : Nat) (hl : m ≤ lda)
    (mem mem1 mem' : Buf × Nat → α) (st st' : Int) (hp : IpivIn E mem (swLen rowwise m n))
    (hx : GExec (drvEnvK nb (swDims rowwise m n) (swLd rowwise m n lda) (fun _ => none))
      (zgeswp E rg nb rowwise fwd m n) mem mem1 st)
    (hx' : GExec (drvEnvK nb (swDims rowwise m n) (swLd rowwise m n lda) (fun _ => none))
      (zgeswp E rg nb rowwise (!fwd) m n) mem1 mem' st') :
    ∀ k x, mem' (.usr k, x) = mem (.usr k, x) := by
  obtain ⟨-, h1, h2⟩ := C21_geswp hnb rg rowwise fwd m n lda hl mem mem1 st hp hx
  have hi : ∀ x, mem1 (.usr 1, x) = mem (.usr 1, x) := fun x => h2 1 x (by simp)
  have hp' : IpivIn E mem1 (swLen rowwise m n) := fun i hi' => by rw [hi]; exact hp i hi'
  obtain ⟨-, h3, h4⟩ := C21_geswp hnb rg rowwise (!fwd) m n lda hl mem1 mem' st' hp' hx'
  have hv : ipv E mem1 = ipv E mem := by funext i; unfold ipv; rw [hi]
  rw [hv] at h3
  intro k x
  by_cases hk : k = 0 ∧ ∃ i j, i < m ∧ j < n ∧ x = i + j * lda
  · obtain ⟨rfl, i, j, hi', hj', rfl⟩ := hk
    have h5 := h3 i j hi' hj'
    show arr mem' 0 lda i j = arr mem 0 lda i j
    rw [h5]
    have hlt : ∀ fwd r, r < swLen rowwise m n → swpPerm fwd (swLen rowwise m n) (ipv E mem) r < swLen rowwise m n :=
      fun fwd r hr => swpPerm_lt (fun i hi => by have := hp i hi; unfold ipv; omega) hr
    cases rowwise
    · rw [if_neg (by simp), ← swpPerm_interch, h1 _ _ hi' (show swpPerm (!fwd) n (ipv E mem) j < n from hlt _ _ hj'), if_neg (by simp), ← swpPerm_interch,
        swpPerm_inv]
      simp
    · rw [if_pos rfl, ← swpPerm_interch, h1 _ _ (show swpPerm (!fwd) m (ipv E mem) i < m from hlt _ _ hi') hj', if_pos rfl, ← swpPerm_interch, swpPerm_inv]
      simp
  · have hk' : k = 0 → ∀ i j, i < m → j < n → x ≠ i + j * lda := fun h i j hi hj e => hk ⟨h, i, j, hi, hj, e⟩
    rw [h4 k x hk', h2 k x hk']

theorem zgeswp_exists {nb : Nat} (hnb : 0 < nb) (rg rowwise fwd : Bool) (m n lda : Nat) (hl : m ≤ lda)
    (mem : Buf × Nat → α) : ∃ mem' st,
      GExec (drvEnvK nb (swDims rowwise m n) (swLd rowwise m n lda) (fun _ => none))
        (zgeswp E rg nb rowwise fwd m n) mem mem' st := by
  unfold zgeswp
  split
  · exact GExec.existsI (drvEnvK_wf hnb (sw_ld hl) sw_sq) (by simp [tasks]) (by simp [tasks]) mem
  · rw [if_neg (by omega)]
    have hg := sw_goodC (E := E) hnb (rg := rg) (rowwise := rowwise) (fwd := fwd) (m := m) (n := n) (lda := lda)
    refine GExec.existsI (drvEnvK_wf hnb (sw_ld hl) sw_sq) ?_ ?_ mem <;> rw [tasks_gdriverK, tasks_rawT]
    · exact hg.loc
    · exact hg.ins

end

/-- A code of the integers in the rationals. -/
def ratCode : IntCode ℚ := ⟨fun n => (n : ℚ), fun q => q.num.toNat, fun n => by simp⟩

/-- Three rows `10, 20, 30` (two columns, leading dimension 4) and pivots `3, 3, 3`. -/
def swEx : Buf × Nat → ℚ
  | (.usr 0, x) => 10 * ((x % 4 : Nat) + 1) + (x / 4 : Nat)
  | (.usr 1, _) => 3
  | _ => 0

/-- `C21_geswp`: the hypotheses are met, and the interchanges `0↔2, 1↔2` give rows `30, 10, 20`. -/
example : IpivIn ratCode swEx (swLen true 3 2) ∧ ∃ mem',
    GExec (drvEnvK 2 (swDims true 3 2) (swLd true 3 2 4) (fun _ => none))
      (zgeswp ratCode false 2 true true 3 2) swEx mem' 0 ∧
    arr mem' 0 4 0 0 = 30 ∧ arr mem' 0 4 1 0 = 10 ∧ arr mem' 0 4 2 1 = 21 := by
  have hp : IpivIn ratCode swEx (swLen true 3 2) := fun i _ => by simp [ratCode, swEx, swLen]
  obtain ⟨mem', st, hx⟩ := zgeswp_exists (E := ratCode) (nb := 2) (by decide) false true true 3 2 4 (by decide) swEx
  obtain ⟨h0, h1, _⟩ := C21_geswp (by decide) false true true 3 2 4 (by decide) swEx mem' st hp hx
  have e : ∀ i, ipv ratCode swEx i = 2 := fun i => by simp [ipv, ratCode, swEx]
  refine ⟨hp, mem', h0 ▸ hx, ?_, ?_, ?_⟩
  · rw [h1 0 0 (by decide) (by decide)]
    simp [interch, e, List.range_succ, swEx, arr, Equiv.swap_apply_def]; norm_num
  · rw [h1 1 0 (by decide) (by decide)]
    simp [interch, e, List.range_succ, swEx, arr, Equiv.swap_apply_def]
  · rw [h1 2 1 (by decide) (by decide)]
    simp [interch, e, List.range_succ, swEx, arr, Equiv.swap_apply_def]; norm_num

end Verif.Props

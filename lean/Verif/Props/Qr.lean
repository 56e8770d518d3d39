/-
Properties of the QR factorization and of the application and generation of its unitary factor: C33, C34.
-/
import Verif.QrGood
import Verif.DriverT
import Verif.AuxNests
import Verif.LKern
import Mathlib.Analysis.Complex.Basic
import Verif.Props.Tree

namespace Verif.Props

open Verif.Layout Verif.Tile Verif.Tree Verif.Qr Verif.Fact Finset Matrix

universe v

set_option linter.unusedSectionVars false

/-! ### Programs -/

/-- `householder_mode` (include/plasma_context.h:36): `none` is `PlasmaFlatHouseholder`, `some conc` is
`PlasmaTreeHouseholder` with `conc` threads. -/
abbrev HMode := Option Nat

/-- `plasma_descT_create` (control/descriptor.c:400-424). -/
def descT (hm : HMode) (ib : Nat) (A : Desc) : Desc :=
  general ib A.nb (A.mt * ib) ((if hm.isSome then 2 * A.nt else A.nt) * A.nb) 0 0
    (A.mt * ib) ((if hm.isSome then 2 * A.nt else A.nt) * A.nb)

section
variable {α : Type v} [CommRing α] [StarRing α]

/-- `plasma_omp_zgeqrf` (compute/zgeqrf.c:218-268) for valid descriptors. -/
noncomputable def ompZgeqrf {M : Type} (K : QrKern α) (hm : HMode) (A T : TMat M) : List (TTask (M × Nat × Nat) α) :=
  if min A.d.m A.d.n = 0 then [] else
    match hm with
    | none => pzgeqrf K A T
    | some conc => pzgeqrfTree K (treeList A.d.mt A.d.nt conc) A T

/-- `plasma_omp_zunmqr` (compute/zunmqr.c:286-351) for valid descriptors. -/
noncomputable def ompZunmqr {M : Type} (hm : HMode) (l t : Bool) (A T C : TMat M) : List (TTask (M × Nat × Nat) α) :=
  if C.d.m = 0 ∨ C.d.n = 0 ∨ A.d.m = 0 ∨ A.d.n = 0 then [] else
    match hm with
    | none => pzunmqr l t A T C
    | some conc => pzunmqrTree l t (treeList A.d.mt A.d.nt conc) A T C

/-- `plasma_omp_zungqr` (compute/zungqr.c:230-283) for valid descriptors. -/
noncomputable def ompZungqr {M : Type} (hm : HMode) (A T Q : TMat M) : List (TTask (M × Nat × Nat) α) :=
  if Q.d.n = 0 then [] else
    pzlaset none 0 1 Q ++
    match hm with
    | none => pzungqr A T Q
    | some conc => pzungqrTree (treeList A.d.mt A.d.nt conc) A T Q

/-- Dimensions: array 0 is `A`, array 1 is `T`, array 2 is `C` or `Q`. -/
def qrDims (a c : Nat × Nat) (k : Nat) : Nat × Nat := if k = 0 then a else if k = 2 then c else (0, 0)

/-- Leading dimensions. -/
def qrLd (lda ldc k : Nat) : Nat := if k = 0 then lda else ldc

/-- The matrix `T` for an `m` by `n` matrix. -/
def qrT (hm : HMode) (ib nb m n : Nat) : TMat Buf := ⟨.usr 1, descT hm ib (general nb nb m n 0 0 m n)⟩

/-- Memory of the QR routines: `A` is `a.1` by `a.2` with leading dimension `lda`, `C` is `c.1` by `c.2` with leading
dimension `ldc`, `T` is the matrix made by the factorization of an `m` by `n` matrix. -/
def qrEnv (hm : HMode) (ib nb m n : Nat) (a : Nat × Nat) (lda : Nat) (c : Nat × Nat) (ldc : Nat) : Buf → MatEnv :=
  drvEnvT nb (qrDims a c) (qrLd lda ldc) 1 ib ((qrT hm ib nb m n).d.m, (qrT hm ib nb m n).d.n)

/-- Tasks created by `plasma_zgeqrf` (compute/zgeqrf.c:73-168) for valid arguments. -/
noncomputable def zgeqrf (K : QrKern α) (hm : HMode) (ib nb m n : Nat) : List (TTask (Buf × Nat × Nat) α) :=
  if min m n = 0 then [] else
    driverV nb (qrDims (m, n) (0, 0)) (qrDims (m, n) (0, 0)) [0]
      (ompZgeqrf K hm (tVw nb (qrDims (m, n) (0, 0)) (qrDims (m, n) (0, 0)) 0) (qrT hm ib nb m n)) [0]

/-- Tasks created by `plasma_zunmqr` (compute/zunmqr.c:97-223) for valid arguments: `C` is `cm` by `cn`, there are `k`
reflectors, `T` was made by the factorization of an `m` by `n` matrix. -/
noncomputable def zunmqr (hm : HMode) (ib nb m n : Nat) (l t : Bool) (cm cn k : Nat) :
    List (TTask (Buf × Nat × Nat) α) :=
  let am := if l then cm else cn
  let dims := qrDims (am, k) (cm, cn)
  if cm = 0 ∨ cn = 0 ∨ k = 0 then [] else
    driverV nb dims dims [0, 2] (ompZunmqr hm l t (tVw nb dims dims 0) (qrT hm ib nb m n) (tVw nb dims dims 2)) [2]

/-- Tasks created by `plasma_zungqr` (compute/zungqr.c:73-179) for valid arguments `qm`, `qn`, `k`: the descriptors of
`A` and `Q` are `qm` by `k` parts of `qm` by `qn` matrices. -/
noncomputable def zungqr (hm : HMode) (ib nb m n : Nat) (qm qn k : Nat) : List (TTask (Buf × Nat × Nat) α) :=
  let dims := qrDims (qm, qn) (qm, qn)
  let vw := qrDims (qm, k) (qm, k)
  if qn = 0 then [] else
    driverV nb dims vw [0, 2] (ompZungqr hm (tVw nb dims vw 0) (qrT hm ib nb m n) (tVw nb dims vw 2)) [2]

end

/-- Array `k` of the user as an `m` by `n` matrix with leading dimension `ld`. -/
def uArr {α : Type v} (mem : Buf × Nat → α) (k ld m n : Nat) : Matrix (Fin m) (Fin n) α :=
  Matrix.of fun i j => mem (.usr k, i + j * ld)

/-- Upper triangle (trapezoid) of array `k`. -/
def uArrU {α : Type v} [Zero α] (mem : Buf × Nat → α) (k ld m n : Nat) : Matrix (Fin m) (Fin n) α :=
  Matrix.of fun i j => if (i : Nat) ≤ j then mem (.usr k, i + j * ld) else 0

/-! ### Auxiliary facts -/

section
variable {α : Type v} [CommRing α] [StarRing α]

/-- The list of operations of a mode. -/
def hOps (hm : HMode) (mt nt : Nat) : List Op :=
  match hm with
  | none => flatOps mt nt
  | some conc => treeList mt nt conc

/-- The `T` columns of a mode. -/
def hOff {M : Type} (hm : HMode) (T : TMat M) : Nat → Nat := if hm.isSome then t2 T else id

/-- There are threads. -/
def HMode.ok (hm : HMode) : Prop := ∀ c, hm = some c → 0 < c

theorem hOps_ok {hm : HMode} (h : HMode.ok hm) {mt nt : Nat} (hmt : 0 < mt) (hnt : 0 < nt) : OpsOK mt nt (hOps hm mt nt) := by
  cases hm with
  | none => exact flatOps_ok _ _
  | some c => exact treeList_ok hmt hnt (h c rfl)

theorem hOps_min {hm : HMode} (h : HMode.ok hm) {mt nt : Nat} (hmt : 0 < mt) (hnt : 0 < nt) :
    hOps hm mt (min mt nt) = hOps hm mt nt := by
  have hmin : min mt (min mt nt) = min mt nt := by omega
  cases hm with
  | none => show flatOps _ _ = flatOps _ _; unfold flatOps; rw [hmin]
  | some c =>
    obtain ⟨ops, h1, -⟩ := C32_tree hmt hnt (h c rfl)
    obtain ⟨ops', h1', -⟩ := C32_tree (nt := min mt nt) hmt (by omega) (h c rfl)
    have e : ∀ f, treeOps f mt (min mt nt) c = treeOps f mt nt c := fun f => by unfold treeOps; rw [hmin]
    show treeList _ _ _ = treeList _ _ _
    unfold treeList
    rw [h1' _ le_rfl, h1 _ le_rfl]
    have := h1' (2 * (mt * (min mt nt)) + 2 * (mt * nt)) (by omega)
    rw [e, h1 _ (by omega)] at this
    injection this with this
    exact this.symm

theorem ceilDiv_pos {m b : Nat} (hb : 0 < b) (hm : 0 < m) : 0 < ceilDiv m b := by
  rw [lt_ceilDiv hb]; omega

theorem ceilDiv_le {m n b : Nat} (hb : 0 < b) (h : m ≤ n) : ceilDiv m b ≤ ceilDiv n b := by
  by_contra hc
  have := (lt_ceilDiv (m := m) (k := ceilDiv n b) hb).mp (by omega)
  have h2 := (lt_ceilDiv (m := n) (k := ceilDiv n b) hb).not.mp (by omega)
  omega

theorem ceilDiv_min {m n b : Nat} (hb : 0 < b) : ceilDiv (min m n) b = min (ceilDiv m b) (ceilDiv n b) := by
  rcases Nat.le_total m n with h | h
  · have := ceilDiv_le hb h
    rw [Nat.min_eq_left h, Nat.min_eq_left this]
  · have := ceilDiv_le hb h
    rw [Nat.min_eq_right h, Nat.min_eq_right this]

theorem ceilDiv_mul {k b : Nat} (hb : 0 < b) : ceilDiv (k * b) b = k := by
  have h1 := lt_ceilDiv (m := k * b) (k := k) hb
  rcases Nat.eq_zero_or_pos k with rfl | hk
  · by_contra h
    have := (lt_ceilDiv (m := 0 * b) (k := 0) hb).mp (by omega)
    omega
  · have h2 := (lt_ceilDiv (m := k * b) (k := k - 1) hb).mpr (Nat.mul_lt_mul_of_pos_right (by omega) hb)
    omega

theorem ompZgeqrf_eq {M : Type} {b : Nat} {K : QrKern α} {hm : HMode} {A T : TMat M} (hA : A.Al b)
    (h0 : min A.d.m A.d.n ≠ 0) :
    ompZgeqrf K hm A T = (hOps hm A.d.mt A.d.nt).flatMap (facT K T.d.mb (hOff hm T) A T) := by
  unfold ompZgeqrf
  rw [if_neg h0]
  cases hm with
  | none => exact pzgeqrf_eq K hA
  | some c => rfl

theorem ompZunmqr_left {M : Type} {b : Nat} {hm : HMode} {t : Bool} {A T C : TMat M} (hA : A.Al b) (hC : C.Al b)
    (hCm : C.d.m = A.d.m) (h0 : ¬ (C.d.m = 0 ∨ C.d.n = 0 ∨ A.d.m = 0 ∨ A.d.n = 0)) :
    ompZunmqr (α := α) hm true t A T C = (if t then hOps hm A.d.mt A.d.nt else (hOps hm A.d.mt A.d.nt).reverse).flatMap
      (updL t T.d.mb (hOff hm T) A T C (List.range C.d.nt)) := by
  unfold ompZunmqr
  rw [if_neg h0]
  cases hm with
  | none => exact pzunmqr_left_eq hA hC hCm
  | some c => rfl

theorem ompZunmqr_right {M : Type} {b : Nat} {hm : HMode} {t : Bool} {A T C : TMat M} (hA : A.Al b) (hC : C.Al b)
    (hCm : C.d.n = A.d.m) (h0 : ¬ (C.d.m = 0 ∨ C.d.n = 0 ∨ A.d.m = 0 ∨ A.d.n = 0)) :
    ompZunmqr (α := α) hm false t A T C = (if t then (hOps hm A.d.mt A.d.nt).reverse else hOps hm A.d.mt A.d.nt).flatMap
      (updR t T.d.mb (hOff hm T) A T C (List.range C.d.mt)) := by
  unfold ompZunmqr
  rw [if_neg h0]
  cases hm with
  | none => exact pzunmqr_right_eq hA hC hCm
  | some c => rfl

theorem ompZungqr_eq {M : Type} {b : Nat} {hm : HMode} {A T C : TMat M} (hA : A.Al b) (hC : C.Al b)
    (hCm : C.d.m = A.d.m) (h0 : C.d.n ≠ 0) :
    ompZungqr (α := α) hm A T C = pzlaset none 0 1 C ++ (hOps hm A.d.mt A.d.nt).reverse.flatMap
      fun o => updL false T.d.mb (hOff hm T) A T C (span o.col C.d.nt) o := by
  unfold ompZungqr
  rw [if_neg h0]
  cases hm with
  | none => rw [show hOff none T = id from rfl]; exact congrArg _ (pzungqr_eq hA hC hCm)
  | some c => rfl

/-! #### The matrix `T` -/

theorem qrT_mb (hm : HMode) (ib nb m n : Nat) : (qrT hm ib nb m n).d.mb = ib := rfl

theorem qrT_nt {hm : HMode} {ib nb m n : Nat} (hnb : 0 < nb) :
    (qrT hm ib nb m n).d.nt = if hm.isSome then 2 * ceilDiv n nb else ceilDiv n nb := by
  have e : (general nb nb m n 0 0 m n).nt = ceilDiv n nb := by
    show ntiles 0 n nb = _
    rw [ntiles_zero _ _ hnb]
  show ntiles 0 ((if hm.isSome then 2 * (general nb nb m n 0 0 m n).nt else (general nb nb m n 0 0 m n).nt) * nb) nb = _
  rw [ntiles_zero _ _ hnb, ceilDiv_mul hnb, e]

/-- The `T` tiles in use exist. -/
theorem qrT_valid {hm : HMode} {ib nb m n : Nat} (hnb : 0 < nb) {a c : Nat × Nat} {lda ldc : Nat}
    {ops : List Op} (ho : ∀ o ∈ ops, o.inB (ceilDiv m nb) (ceilDiv n nb)) :
    ∀ o ∈ ops, TtV (evalid (qrEnv hm ib nb m n a lda c ldc)) ib nb (hOff hm (qrT hm ib nb m n)) (qrT hm ib nb m n) o := by
  intro o h i j hi hj
  have ho := ho o h
  have em : (general nb nb m n 0 0 m n).mt = ceilDiv m nb := by
    show ntiles 0 m nb = _
    rw [ntiles_zero _ _ hnb]
  have en : (general nb nb m n 0 0 m n).nt = ceilDiv n nb := by
    show ntiles 0 n nb = _
    rw [ntiles_zero _ _ hnb]
  have h1 : o.row < ceilDiv m nb := by
    cases o with
    | ge => exact ho.2
    | ts => exact ho.2.2
    | tt => exact ho.2.2
  have h2 : opTc (hOff hm (qrT hm ib nb m n)) o < (qrT hm ib nb m n).d.nt := by
    have hnt := qrT_nt (hm := hm) (ib := ib) (m := m) (n := n) hnb
    cases hm with
    | none =>
      rw [hnt, if_neg (by decide)]
      cases o with
      | ge => exact ho.1
      | ts => exact ho.1
      | tt => exact ho.1
    | some c =>
      rw [hnt, if_pos (show (some c).isSome = true from rfl)]
      cases o with
      | ge j k => have : j < _ := ho.1; show j < _; omega
      | ts j m' k =>
        have h' : j < _ := ho.1
        show j + (qrT (some c) ib nb m n).d.nt / 2 < _
        rw [hnt, if_pos (show (some c).isSome = true from rfl)]; omega
      | tt j m' k =>
        have h' : j < _ := ho.1
        show j + (qrT (some c) ib nb m n).d.nt / 2 < _
        rw [hnt, if_pos (show (some c).isSome = true from rfl)]; omega
  have hnt' : (qrT hm ib nb m n).d.n = (qrT hm ib nb m n).d.nt * nb := by
    rw [qrT_nt hnb]
    show (if hm.isSome then 2 * (general nb nb m n 0 0 m n).nt else (general nb nb m n 0 0 m n).nt) * nb = _
    rw [en]
  have hm' : (qrT hm ib nb m n).d.m = ceilDiv m nb * ib := by
    show (general nb nb m n 0 0 m n).mt * ib = _
    rw [em]
  refine ⟨?_, ?_⟩
  · show TileOK ib nb _ _ (o.row + 0 / _) (_ + 0 / _) i j
    rw [Nat.zero_div, Nat.zero_div, Nat.add_zero, Nat.add_zero, tileOK_iff]
    show i < ib ∧ o.row * ib + i < (qrT hm ib nb m n).d.m ∧ j < nb ∧ _ * nb + j < (qrT hm ib nb m n).d.n
    rw [hnt', hm']
    refine ⟨hi, ?_, hj, ?_⟩
    · have : (o.row + 1) * ib ≤ ceilDiv m nb * ib := Nat.mul_le_mul_right _ h1
      rw [Nat.add_mul] at this; omega
    · have : (opTc (hOff hm (qrT hm ib nb m n)) o + 1) * nb ≤ (qrT hm ib nb m n).d.nt * nb := Nat.mul_le_mul_right _ h2
      rw [Nat.add_mul] at this; omega
  · exact trivial

theorem qrT_nodup {hm : HMode} (h : HMode.ok hm) {ib nb m n : Nat} (hnb : 0 < nb) {mt nt : Nat} (hmt : 0 < mt)
    (hnt : 0 < nt) (hn : nt = ceilDiv n nb) :
    ((hOps hm mt nt).map (opTt (hOff hm (qrT hm ib nb m n)) (qrT hm ib nb m n))).Nodup := by
  cases hm with
  | none => exact nodup_flat _ _ _
  | some c =>
    have ho := treeList_ok hmt hnt (h c rfl)
    refine nodup_tree ho.legal (fun o h => lt_of_lt_of_le (ho.col o h) (Nat.min_le_right ..)) ?_
    rw [qrT_nt hnb, if_pos (show (some c).isSome = true from rfl), hn]
    omega

theorem al_mt {nb : Nat} (hnb : 0 < nb) {dims vw : Nat → Nat × Nat} {k : Nat} :
    (tVw nb dims vw k).d.mt = ceilDiv (vw k).1 nb := (al_tVw hnb k).mt_eq

theorem al_nt {nb : Nat} (hnb : 0 < nb) {dims vw : Nat → Nat × Nat} {k : Nat} :
    (tVw nb dims vw k).d.nt = ceilDiv (vw k).2 nb := (al_tVw hnb k).nt_eq

theorem tiles_vw {nb : Nat} (hnb : 0 < nb) {dims vw : Nat → Nat × Nat} {ld : Nat → Nat} {kt ib : Nat} {gT : Nat × Nat} {k : Nat}
    (hv : (vw k).1 ≤ (dims k).1 ∧ (vw k).2 ≤ (dims k).2) :
    TilesV (evalid (drvEnvT nb dims ld kt ib gT)) nb (tVw nb dims vw k) := fun _ _ _ _ hi hj =>
  (fits_tVw hnb hv).valid hi hj

/-! ### The later calls -/

/-- Facts about the factorization that the later calls rely on: memory `mem'` holds the reflectors of `Q`. -/
def Holds (hm : HMode) (ib nb m n lda : Nat) (mem' : Buf × Nat → α) (Q : Matrix (Fin m) (Fin m) α) : Prop :=
  ∃ (A : TMat Buf) (s : Store (Buf × Nat × Nat) α), A.Al nb ∧
    Q = qAll nb m n ib (hOff hm (qrT hm ib nb m n)) A (qrT hm ib nb m n) s (hOps hm (ceilDiv m nb) (ceilDiv n nb)) ∧
    (∀ r c, r < m → c < n → A.el s r c = mem' (.usr 0, r + c * lda)) ∧
    ∀ o ∈ hOps hm (ceilDiv m nb) (ceilDiv n nb), ∀ i j, i < ib → j < nb →
      s (opTt (hOff hm (qrT hm ib nb m n)) (qrT hm ib nb m n) o) i j =
        mem' (eloc (qrEnv hm ib nb m n (0, 0) 0 (0, 0) 0) (opTt (hOff hm (qrT hm ib nb m n)) (qrT hm ib nb m n) o) i j)

theorem eloc_T {hm : HMode} {ib nb m n : Nat} {a c a' c' : Nat × Nat} {lda ldc lda' ldc' : Nat} {t : Buf × Nat × Nat}
    (ht : t.1 = .usr 1) (i j : Nat) :
    eloc (qrEnv hm ib nb m n a lda c ldc) t i j = eloc (qrEnv hm ib nb m n a' lda' c' ldc') t i j := by
  obtain ⟨t1, t2, t3⟩ := t
  dsimp only at ht
  subst ht
  rfl

/-- `Q` seen by a later call. -/
theorem holds_later {hm : HMode} (hok : HMode.ok hm) {ib nb m n lda : Nat} (hnb : 0 < nb) (h0 : min m n ≠ 0)
    {mem' mem1 : Buf × Nat → α} {Q : Matrix (Fin m) (Fin m) α} (hQ : Holds hm ib nb m n lda mem' Q)
    (hA1 : ∀ r c, r < m → c < min m n → mem1 (.usr 0, r + c * lda) = mem' (.usr 0, r + c * lda))
    (hT1 : ∀ x, mem1 (.usr 1, x) = mem' (.usr 1, x)) {A1 : TMat Buf} (hAl : A1.Al nb)
    {s1 : Store (Buf × Nat × Nat) α} (hs1 : ∀ r c, r < m → c < min m n → A1.el s1 r c = mem1 (.usr 0, r + c * lda))
    {a c : Nat × Nat} {lda' ldc' : Nat}
    (hsT : ∀ t i j, t.1 = .usr 1 → s1 t i j = mem1 (eloc (qrEnv hm ib nb m n a lda' c ldc') t i j)) :
    qAll nb m (min m n) ib (hOff hm (qrT hm ib nb m n)) A1 (qrT hm ib nb m n) s1
      (hOps hm (ceilDiv m nb) (ceilDiv (min m n) nb)) = Q := by
  obtain ⟨A, s, hAl', hQe, hs, hsT'⟩ := hQ
  have hmt := ceilDiv_pos (m := m) hnb (by omega)
  have hnt := ceilDiv_pos (m := n) hnb (by omega)
  rw [ceilDiv_min hnb, hOps_min hok hmt hnt, hQe, ← qAll_min hnb (hOps_ok hok hmt hnt)]
  refine qAll_agree hAl hAl' (ops_inB (hOps_ok hok hmt hnt)) ?_ ?_
  · intro r c hr hc
    rw [hs1 r c hr hc, hs r c hr (by omega), hA1 r c hr hc]
  · intro o ho i j hi hj
    rw [hsT _ i j rfl, hsT' o ho i j hi hj, eloc_T (a' := (0, 0)) (c' := (0, 0)) (lda' := 0) (ldc' := 0) rfl]
    exact hT1 _

theorem qrLd_ok {a c : Nat × Nat} {lda ldc : Nat} (h1 : a.1 ≤ lda) (h2 : c.1 ≤ ldc) :
    ∀ k, k ≠ 1 → (qrDims a c k).1 ≤ qrLd lda ldc k := by
  intro k hk
  unfold qrDims qrLd
  by_cases hk0 : k = 0
  · simp [hk0, h1]
  · by_cases hk2 : k = 2
    · simp [hk2, h2]
    · simp [hk0, hk2]

/-- `C` is overwritten by `op(Q) C` or `C op(Q)`. -/
theorem unmqr_holds {hm : HMode} (hok : HMode.ok hm) {ib nb m n lda : Nat} (hnb : 0 < nb) (hib : 0 < ib) (h0 : min m n ≠ 0)
    (hlda : m ≤ lda) {mem' mem1 : Buf × Nat → α} {Q : Matrix (Fin m) (Fin m) α} (hQ : Holds hm ib nb m n lda mem' Q)
    (hA1 : ∀ r c, r < m → c < min m n → mem1 (.usr 0, r + c * lda) = mem' (.usr 0, r + c * lda))
    (hT1 : ∀ x, mem1 (.usr 1, x) = mem' (.usr 1, x)) {l t : Bool} {cm cn ldc : Nat} (hldc : cm ≤ ldc)
    (hd : (if l then cm else cn) = m) {mem2 : Buf × Nat → α}
    (h : Exec (qrEnv hm ib nb m n (m, min m n) lda (cm, cn) ldc) (zunmqr hm ib nb m n l t cm cn (min m n)) mem1 mem2) :
    (∀ r c, r < cm → c < cn → mem2 (.usr 2, r + c * ldc) =
      if l then lmul (qop t Q) (fun i j => mem1 (.usr 2, i + j * ldc)) r c
      else rmul (fun i j => mem1 (.usr 2, i + j * ldc)) (qop t Q) r c) ∧
    (∀ k x, k ≠ 2 ∨ (∀ i j, i < cm → j < cn → x ≠ i + j * ldc) → mem2 (.usr k, x) = mem1 (.usr k, x)) := by
  unfold zunmqr at h
  dsimp only at h
  rw [hd] at h
  by_cases hc0 : cm = 0 ∨ cn = 0
  · rw [if_pos (by omega)] at h
    rw [Exec.nil h]
    exact ⟨fun r c hr hc => by omega, fun _ _ _ => rfl⟩
  rw [if_neg (by omega)] at h
  set dims := qrDims (m, min m n) (cm, cn) with hdims
  have d0 : dims 0 = (m, min m n) := rfl
  have d2 : dims 2 = (cm, cn) := rfl
  have hmt := ceilDiv_pos (m := m) hnb (by omega)
  have hnt := ceilDiv_pos (m := n) hnb (by omega)
  have hnt' := ceilDiv_pos (m := min m n) hnb (by omega)
  have hAl : (tVw nb dims dims 0).Al nb := al_tVw hnb 0
  have hCl : (tVw nb dims dims 2).Al nb := al_tVw hnb 2
  have hin : ∀ o ∈ hOps hm (ceilDiv m nb) (ceilDiv (min m n) nb), o.inB (tVw nb dims dims 0).d.mt (tVw nb dims dims 0).d.nt := by
    intro o ho
    rw [al_mt hnb, al_nt hnb]
    exact ops_inB (hOps_ok hok hmt hnt') o ho
  have hin' : ∀ o ∈ hOps hm (ceilDiv m nb) (ceilDiv (min m n) nb), o.inB (ceilDiv m nb) (ceilDiv n nb) := by
    rw [ceilDiv_min hnb, hOps_min hok hmt hnt]
    exact ops_inB (hOps_ok hok hmt hnt)
  have hTv := qrT_valid (hm := hm) (ib := ib) (m := m) (n := n) (a := (m, min m n)) (c := (cm, cn)) (lda := lda) (ldc := ldc)
    hnb hin'
  have vA : TilesV (evalid (qrEnv hm ib nb m n (m, min m n) lda (cm, cn) ldc)) nb (tVw nb dims dims 0) :=
    tiles_vw hnb ⟨le_rfl, le_rfl⟩
  have vC : TilesV (evalid (qrEnv hm ib nb m n (m, min m n) lda (cm, cn) ldc)) nb (tVw nb dims dims 2) :=
    tiles_vw hnb ⟨le_rfl, le_rfl⟩
  have hn0 : ¬ ((tVw nb dims dims 2).d.m = 0 ∨ (tVw nb dims dims 2).d.n = 0 ∨ (tVw nb dims dims 0).d.m = 0 ∨
      (tVw nb dims dims 0).d.n = 0) := by
    show ¬ (cm = 0 ∨ cn = 0 ∨ m = 0 ∨ min m n = 0)
    omega
  have hops : hOps hm (tVw nb dims dims 0).d.mt (tVw nb dims dims 0).d.nt = hOps hm (ceilDiv m nb) (ceilDiv (min m n) nb) := by
    rw [al_mt hnb, al_nt hnb, d0]
  have hld : ∀ k, k ≠ 1 → (dims k).1 ≤ qrLd lda ldc k := by
    intro k hk
    rw [hdims]
    unfold qrDims qrLd
    by_cases hk0 : k = 0
    · simp [hk0, hlda]
    · by_cases hk2 : k = 2
      · simp [hk2, hldc]
      · simp [hk0, hk2]
  have hio : ∀ k, k ∈ [0, 2] → k ≠ 1 ∧ (dims k).1 ≤ (dims k).1 ∧ (dims k).2 ≤ (dims k).2 := fun k hk => by
    simp only [List.mem_cons, List.not_mem_nil, or_false] at hk
    exact ⟨by omega, le_rfl, le_rfl⟩
  have hg : Good (evalid (qrEnv hm ib nb m n (m, min m n) lda (cm, cn) ldc))
      (ompZunmqr (α := α) hm l t (tVw nb dims dims 0) (qrT hm ib nb m n) (tVw nb dims dims 2)) := by
    cases l with
    | true =>
      have hd : cm = m := hd
      rw [ompZunmqr_left hAl hCl (by exact hd) hn0, hops]
      refine Good.flatMap fun o ho => ?_
      have ho' : o ∈ hOps hm (ceilDiv m nb) (ceilDiv (min m n) nb) := by
        cases t
        · exact List.mem_reverse.mp ho
        · exact ho
      exact updL_good hAl hCl hd vA vC (fun n hn => List.mem_range.mp hn) (hin o ho') (hTv o ho')
    | false =>
      have hd : cn = m := hd
      rw [ompZunmqr_right hAl hCl (by exact hd) hn0, hops]
      refine Good.flatMap fun o ho => ?_
      have ho' : o ∈ hOps hm (ceilDiv m nb) (ceilDiv (min m n) nb) := by
        cases t
        · exact ho
        · exact List.mem_reverse.mp ho
      exact updR_good hAl hCl hd vA vC (fun n hn => List.mem_range.mp hn) (hin o ho') (hTv o ho')
  have hw : Writes (fun x => x.1 = .til 2)
      (ompZunmqr (α := α) hm l t (tVw nb dims dims 0) (qrT hm ib nb m n) (tVw nb dims dims 2)) := by
    cases l with
    | true =>
      rw [ompZunmqr_left hAl hCl (by exact hd) hn0]
      refine Writes.flatMap fun o _ => Writes.mono (updL_writes o) ?_
      rintro x ⟨_, _, _, _, rfl⟩; rfl
    | false =>
      rw [ompZunmqr_right hAl hCl (by exact hd) hn0]
      refine Writes.flatMap fun o _ => Writes.mono (updR_writes o) ?_
      rintro x ⟨_, _, _, _, rfl⟩; rfl
  obtain ⟨s1, e1, e2, e3, e4, e5, e6⟩ := drvT_correct hnb hib hld (by decide) (by decide) hio
    (fun k hk => hio k (by simp only [List.mem_cons, List.not_mem_nil, or_false] at hk; simp [hk])) hg
    (hw.mono fun x hx => Or.inl ⟨2, hx⟩) h
  have hq := holds_later hok hnb h0 hQ hA1 hT1 hAl (s1 := s1) (fun r c hr hc => e1 0 (by simp) r c hr hc) e2
  refine ⟨fun r c hr hc => ?_, ?_⟩
  · have e := e3 2 (by simp) r c hr hc
    rw [show qrLd lda ldc 2 = ldc from rfl] at e
    rw [e]
    have hin1 : ∀ i j, i < cm → j < cn → (tVw nb dims dims 2).el s1 i j = mem1 (.usr 2, i + j * ldc) :=
      fun i j hi hj => e1 2 (by simp) i j hi hj
    cases l with
    | true =>
      have hd : cm = m := hd
      rw [ompZunmqr_left hAl hCl (by exact hd) hn0, hops,
        unmqr_left (mm := m) (na := min m n) hAl hCl rfl rfl hd (fun e => by cases e) (fun e => by cases e) hin s1 (by omega) hc]
      rw [show (qrT hm ib nb m n).d.mb = ib from rfl, hq, if_pos rfl]
      exact lmul_congr (by omega) fun l hl => hin1 l c (by omega) hc
    | false =>
      have hd : cn = m := hd
      rw [ompZunmqr_right hAl hCl (by exact hd) hn0, hops,
        unmqr_right (mm := m) (na := min m n) hAl hCl rfl rfl hd (fun e => by cases e) (fun e => by cases e) hin s1 hr (by omega)]
      rw [show (qrT hm ib nb m n).d.mb = ib from rfl, hq, if_neg (by decide)]
      exact rmul_congr (by omega) fun l hl => hin1 r l hr (by omega)
  · intro k x hk
    by_cases hk1 : k = 1
    · subst hk1
      exact drvT_frameT hnb hib hld hio
        (fun k hk => hio k (by simp only [List.mem_cons, List.not_mem_nil, or_false] at hk; simp [hk])) hg
        (hw.mono fun x hx => ⟨2, hx⟩) h x
    · by_cases hk2 : k = 2
      · subst hk2
        refine e6 2 x (by decide) ?_
        rcases hk with hk | hk
        · exact absurd rfl hk
        · exact hk
      · exact e5 k (by simp [hk2]) hk1 x

/-- The first `k` columns of `Q` are generated; nothing else is written. -/
theorem ungqr_holds {hm : HMode} (hok : HMode.ok hm) {ib nb m n lda : Nat} (hnb : 0 < nb) (hib : 0 < ib) (h0 : min m n ≠ 0)
    (hlda : m ≤ lda) {mem' mem1 : Buf × Nat → α} {Q : Matrix (Fin m) (Fin m) α} (hQ : Holds hm ib nb m n lda mem' Q)
    (hA1 : ∀ r c, r < m → c < min m n → mem1 (.usr 0, r + c * lda) = mem' (.usr 0, r + c * lda))
    (hT1 : ∀ x, mem1 (.usr 1, x) = mem' (.usr 1, x)) {qn ldq : Nat} (hldq : m ≤ ldq)
    (hk : min m n ≤ qn) {mem2 : Buf × Nat → α}
    (h : Exec (qrEnv hm ib nb m n (m, qn) lda (m, qn) ldq) (zungqr hm ib nb m n m qn (min m n)) mem1 mem2) :
    (∀ r c (hr : r < m) (hc : c < min m n), mem2 (.usr 2, r + c * ldq) = Q ⟨r, hr⟩ ⟨c, by omega⟩) ∧
    (∀ k x, k ≠ 2 ∨ (∀ i j, i < m → j < min m n → x ≠ i + j * ldq) → mem2 (.usr k, x) = mem1 (.usr k, x)) := by
  unfold zungqr at h
  dsimp only at h
  rw [if_neg (by omega)] at h
  set dims := qrDims (m, qn) (m, qn) with hdims
  set vw := qrDims (m, min m n) (m, min m n) with hvw
  have d0 : vw 0 = (m, min m n) := rfl
  have d2 : vw 2 = (m, min m n) := rfl
  have hmt := ceilDiv_pos (m := m) hnb (by omega)
  have hnt := ceilDiv_pos (m := n) hnb (by omega)
  have hnt' := ceilDiv_pos (m := min m n) hnb (by omega)
  have hAl : (tVw nb dims vw 0).Al nb := al_tVw hnb 0
  have hCl : (tVw nb dims vw 2).Al nb := al_tVw hnb 2
  have hok' := hOps_ok hok hmt hnt'
  have hin : ∀ o ∈ hOps hm (ceilDiv m nb) (ceilDiv (min m n) nb), o.inB (tVw nb dims vw 0).d.mt (tVw nb dims vw 0).d.nt := by
    intro o ho
    rw [al_mt hnb, al_nt hnb]
    exact ops_inB hok' o ho
  have hin' : ∀ o ∈ hOps hm (ceilDiv m nb) (ceilDiv (min m n) nb), o.inB (ceilDiv m nb) (ceilDiv n nb) := by
    rw [ceilDiv_min hnb, hOps_min hok hmt hnt]
    exact ops_inB (hOps_ok hok hmt hnt)
  have hTv := qrT_valid (hm := hm) (ib := ib) (m := m) (n := n) (a := (m, qn)) (c := (m, qn)) (lda := lda) (ldc := ldq)
    hnb hin'
  have vA : TilesV (evalid (qrEnv hm ib nb m n (m, qn) lda (m, qn) ldq)) nb (tVw nb dims vw 0) :=
    tiles_vw hnb ⟨le_rfl, hk⟩
  have vC : TilesV (evalid (qrEnv hm ib nb m n (m, qn) lda (m, qn) ldq)) nb (tVw nb dims vw 2) :=
    tiles_vw hnb ⟨le_rfl, hk⟩
  have hn0 : (tVw nb dims vw 2).d.n ≠ 0 := h0
  have hops : hOps hm (tVw nb dims vw 0).d.mt (tVw nb dims vw 0).d.nt = hOps hm (ceilDiv m nb) (ceilDiv (min m n) nb) := by
    rw [al_mt hnb, al_nt hnb, d0]
  have hld : ∀ k, k ≠ 1 → (dims k).1 ≤ qrLd lda ldq k := by
    intro k hk
    rw [hdims]
    unfold qrDims qrLd
    by_cases hk0 : k = 0
    · simp [hk0, hlda]
    · by_cases hk2 : k = 2
      · simp [hk2, hldq]
      · simp [hk0, hk2]
  have hio : ∀ k, k ∈ [0, 2] → k ≠ 1 ∧ (vw k).1 ≤ (dims k).1 ∧ (vw k).2 ≤ (dims k).2 := fun k hk' => by
    simp only [List.mem_cons, List.not_mem_nil, or_false] at hk'
    rcases hk' with rfl | rfl
    · exact ⟨by omega, le_rfl, hk⟩
    · exact ⟨by omega, le_rfl, hk⟩
  have hg : Good (evalid (qrEnv hm ib nb m n (m, qn) lda (m, qn) ldq))
      (ompZungqr (α := α) hm (tVw nb dims vw 0) (qrT hm ib nb m n) (tVw nb dims vw 2)) := by
    rw [ompZungqr_eq hAl hCl rfl hn0, hops]
    have hfit : FitsOn (qrEnv hm ib nb m n (m, qn) lda (m, qn) ldq) nb (stOK none) (tVw nb dims vw 2) :=
      FitsOn.mono (fits_tVw hnb ⟨le_rfl, hk⟩) fun _ _ _ => trivial
    refine Good.append (pzlaset_good hfit) (Good.flatMap fun o ho => ?_)
    have ho' := List.mem_reverse.mp ho
    exact updL_good hAl hCl rfl vA vC (fun n hn => (mem_span.mp hn).2) (hin o ho') (hTv o ho')
  have hw : Writes (fun x => x.1 = .til 2)
      (ompZungqr (α := α) hm (tVw nb dims vw 0) (qrT hm ib nb m n) (tVw nb dims vw 2)) := by
    rw [ompZungqr_eq hAl hCl rfl hn0]
    refine (pzlaset_writes hCl).append (Writes.flatMap fun o _ => Writes.mono (updL_writes o) ?_)
    rintro x ⟨_, _, _, _, rfl⟩; rfl
  have hio2 : ∀ k, k ∈ [2] → k ≠ 1 ∧ (vw k).1 ≤ (dims k).1 ∧ (vw k).2 ≤ (dims k).2 :=
    fun k hk => hio k (by simp only [List.mem_cons, List.not_mem_nil, or_false] at hk; simp [hk])
  obtain ⟨s1, e1, e2, e3, e4, e5, e6⟩ := drvT_correct hnb hib hld (by decide) (by decide) hio hio2 hg
    (hw.mono fun x hx => Or.inl ⟨2, hx⟩) h
  have hls : Writes (fun x => x.1 = .til 2) (pzlaset (α := α) none 0 1 (tVw nb dims vw 2)) := pzlaset_writes hCl
  have hq := holds_later hok hnb h0 hQ hA1 hT1 hAl (s1 := texec (pzlaset none 0 1 (tVw nb dims vw 2)) s1)
    (a := (m, qn)) (c := (m, qn)) (lda' := lda) (ldc' := ldq)
    (fun r c hr hc => by
      have e : mem1 (.usr 0, r + c * lda) = (tVw nb dims vw 0).el s1 r c := (e1 0 (by simp) r c hr hc).symm
      rw [e]
      unfold TMat.el
      rw [hls.frame s1 (x := (tVw nb dims vw 0).at' _ _) (fun e => by cases e)])
    (fun t i j ht => by
      have e : mem1 (eloc (qrEnv hm ib nb m n (m, qn) lda (m, qn) ldq) t i j) = s1 t i j := (e2 t i j ht).symm
      rw [e, hls.frame s1 (x := t) (fun e => by rw [ht] at e; cases e)])
  refine ⟨fun r c hr hc => ?_, ?_⟩
  · have e := e3 2 (by simp) r c hr hc
    rw [show qrLd lda ldq 2 = ldq from rfl] at e
    rw [e, ompZungqr_eq hAl hCl rfl hn0, hops, texec_append]
    have ho := hok'
    rw [show ceilDiv m nb = (tVw nb dims vw 0).d.mt by rw [al_mt hnb, d0],
      show ceilDiv (min m n) nb = (tVw nb dims vw 0).d.nt by rw [al_nt hnb, d0]] at ho
    have := ungqr_el (mm := m) (na := min m n) (ib := ib) (off := hOff hm (qrT hm ib nb m n)) hAl hCl rfl rfl rfl
      (T := qrT hm ib nb m n) (fun e => by cases e) (fun e => by cases e) rowInv_init ho.legal
      (fun o h => lt_of_lt_of_le (ho.col o h) (Nat.min_le_right ..)) (fun r c _ => by simp [init])
      (texec (pzlaset none 0 1 (tVw nb dims vw 2)) s1)
      (fun r c hr hc => by
        rw [pzlaset_el hCl _ (by exact hr) hc, if_pos (show stOK none r c from trivial)]
        rfl) hr (show c < (tVw nb dims vw 2).d.n from hc)
    rw [hops] at this
    rw [show (qrT hm ib nb m n).d.mb = ib from rfl, this, hq]
    unfold lmul
    rw [dif_pos hr, Finset.sum_eq_single (⟨c, by omega⟩ : Fin m)]
    · simp [idE]
    · intro l _ hl
      have : (l : Nat) ≠ c := fun e => hl (Fin.ext e)
      simp [idE, this]
    · intro h; exact absurd (mem_univ _) h
  · intro k x hk
    by_cases hk1 : k = 1
    · subst hk1
      exact drvT_frameT hnb hib hld hio hio2 hg (hw.mono fun x hx => ⟨2, hx⟩) h x
    · by_cases hk2 : k = 2
      · subst hk2
        refine e6 2 x (by decide) ?_
        rcases hk with hk | hk
        · exact absurd rfl hk
        · exact hk
      · exact e5 k (by simp [hk2]) hk1 x

/-- In tree mode `T` is zero before the call.  `plasma_descT_create` allocates `T` without initializing it
(control/descriptor.c:400-424), and the kernel for two triangles uses what it finds there (core_blas/core_zpemv.c:165-166). -/
def TClean (hm : HMode) (mem : Buf × Nat → α) : Prop := hm = none ∨ ∀ x, mem (.usr 1, x) = 0

theorem flatOps_tt {mt nt : Nat} {o : Op} (h : o ∈ flatOps mt nt) : isTT o = false := by
  unfold flatOps flatTree at h
  obtain ⟨k, -, h⟩ := List.mem_flatMap.1 h
  rcases List.mem_cons.1 h with rfl | h
  · rfl
  · obtain ⟨i, -, rfl⟩ := List.mem_map.1 h
    rfl

/-- The factorization. -/
theorem geqrf_holds {K : QrKern α} (hK : QrSpec K) {hm : HMode} (hok : HMode.ok hm) {ib nb m n lda : Nat} (hnb : 0 < nb)
    (hib : 0 < ib) (h0 : min m n ≠ 0) (hlda : m ≤ lda) {mem mem' : Buf × Nat → α}
    (h : Exec (qrEnv hm ib nb m n (m, n) lda (0, 0) 0) (zgeqrf K hm ib nb m n) mem mem') :
    (TClean hm mem → ∃ Q : Matrix (Fin m) (Fin m) α, Q ∈ unitaryGroup (Fin m) α ∧ Holds hm ib nb m n lda mem' Q ∧
      (∀ r c, r < m → c < n →
        lmul Q (triu fun i j => mem' (.usr 0, i + j * lda)) r c = mem (.usr 0, r + c * lda))) ∧
      (∀ k x, k ≠ 1 → k ≠ 0 ∨ (∀ i j, i < m → j < n → x ≠ i + j * lda) → mem' (.usr k, x) = mem (.usr k, x)) := by
  unfold zgeqrf at h
  rw [if_neg h0] at h
  set dims := qrDims (m, n) (0, 0) with hdims
  have d0 : dims 0 = (m, n) := rfl
  have hmt := ceilDiv_pos (m := m) hnb (by omega)
  have hnt := ceilDiv_pos (m := n) hnb (by omega)
  have hAl : (tVw nb dims dims 0).Al nb := al_tVw hnb 0
  have hops : hOps hm (tVw nb dims dims 0).d.mt (tVw nb dims dims 0).d.nt = hOps hm (ceilDiv m nb) (ceilDiv n nb) := by
    rw [al_mt hnb, al_nt hnb, d0]
  have ho : OpsOK (tVw nb dims dims 0).d.mt (tVw nb dims dims 0).d.nt (hOps hm (ceilDiv m nb) (ceilDiv n nb)) := by
    rw [al_mt hnb, al_nt hnb]
    exact hOps_ok hok hmt hnt
  have hTv := qrT_valid (hm := hm) (ib := ib) (m := m) (n := n) (a := (m, n)) (c := (0, 0)) (lda := lda) (ldc := 0)
    hnb (ops_inB (hOps_ok hok hmt hnt))
  have vA : TilesV (evalid (qrEnv hm ib nb m n (m, n) lda (0, 0) 0)) nb (tVw nb dims dims 0) :=
    tiles_vw hnb ⟨le_rfl, le_rfl⟩
  have hld : ∀ k, k ≠ 1 → (dims k).1 ≤ qrLd lda 0 k := by
    intro k hk
    rw [hdims]
    unfold qrDims qrLd
    by_cases hk0 : k = 0
    · simp [hk0, hlda]
    · by_cases hk2 : k = 2
      · simp [hk2]
      · simp [hk0, hk2]
  have hio : ∀ k, k ∈ [0] → k ≠ 1 ∧ (dims k).1 ≤ (dims k).1 ∧ (dims k).2 ≤ (dims k).2 := fun k hk => by
    simp only [List.mem_cons, List.not_mem_nil, or_false] at hk
    exact ⟨by omega, le_rfl, le_rfl⟩
  rw [ompZgeqrf_eq hAl h0, hops, show (qrT hm ib nb m n).d.mb = ib from rfl] at h
  have hTA : (qrT hm ib nb m n).id ≠ (tVw nb dims dims 0).id := fun e => by cases e
  obtain ⟨s, e1, e2, e3, e4, e5, e6⟩ := drvT_correct hnb hib hld (by decide) (by decide) hio hio
    (fac_good hK hAl hTA vA (ops_inB ho) hTv)
    (fac_writes.mono fun x hx => hx.elim (fun h => Or.inl ⟨0, h⟩) Or.inr) h
  refine ⟨fun hc => ?_, ?_⟩
  have hz : ∀ o ∈ hOps hm (ceilDiv m nb) (ceilDiv n nb), ZeroT ib nb (hOff hm (qrT hm ib nb m n)) (qrT hm ib nb m n) s o := by
    intro o ho htt i j _ _
    rcases hc with hc | hc
    · subst hc
      rw [flatOps_tt ho] at htt
      cases htt
    · rw [e2 _ i j rfl]
      exact hc _
  obtain ⟨f1, f2⟩ := fac_ok hK hib (mm := m) (na := n) hAl rfl rfl hTA ho (qrT_nodup hok hnb hmt hnt rfl) s hz
  refine ⟨_, f1, ⟨tVw nb dims dims 0, _, hAl, rfl, fun r c hr hc => (e3 0 (by simp) r c hr hc).symm, ?_⟩, ?_⟩
  · intro o ho' i j hi hj
    rw [← e4 _ i j rfl (hTv o ho' i j hi hj)]
    exact congrArg mem' (eloc_T rfl i j)
  · intro r c hr hc
    rw [show mem (.usr 0, r + c * lda) = (tVw nb dims dims 0).el s r c from (e1 0 (by simp) r c hr hc).symm, ← f2 r c hr hc]
    unfold lmul
    rw [dif_pos hr, dif_pos hr]
    refine sum_congr rfl fun l _ => ?_
    congr 1
    unfold triu
    dsimp only
    split_ifs
    · exact e3 0 (by simp) l c l.2 hc
    · rfl
  · intro k x hk1 hk
    by_cases hk0 : k = 0
    · subst hk0
      refine e6 0 x hk1 ?_
      rcases hk with hk | hk
      · exact absurd rfl hk
      · exact hk
    · exact e5 k (by simp [hk0]) hk1 x

/-- An execution of the factorization exists. -/
theorem geqrf_exists {K : QrKern α} (hK : QrSpec K) {hm : HMode} (hok : HMode.ok hm) {ib nb m n lda : Nat} (hnb : 0 < nb)
    (hib : 0 < ib) (hlda : m ≤ lda) (mem : Buf × Nat → α) :
    ∃ mem', Exec (qrEnv hm ib nb m n (m, n) lda (0, 0) 0) (zgeqrf K hm ib nb m n) mem mem' := by
  by_cases h0 : min m n = 0
  · unfold zgeqrf
    rw [if_pos h0]
    exact Exec.exists (drvEnvT_wf hnb hib (qrLd_ok hlda le_rfl)) (by simp) (by simp) mem
  unfold zgeqrf
  rw [if_neg h0]
  set dims := qrDims (m, n) (0, 0) with hdims
  have d0 : dims 0 = (m, n) := rfl
  have hmt := ceilDiv_pos (m := m) hnb (by omega)
  have hnt := ceilDiv_pos (m := n) hnb (by omega)
  have hAl : (tVw nb dims dims 0).Al nb := al_tVw hnb 0
  have hops : hOps hm (tVw nb dims dims 0).d.mt (tVw nb dims dims 0).d.nt = hOps hm (ceilDiv m nb) (ceilDiv n nb) := by
    rw [al_mt hnb, al_nt hnb, d0]
  have ho : OpsOK (tVw nb dims dims 0).d.mt (tVw nb dims dims 0).d.nt (hOps hm (ceilDiv m nb) (ceilDiv n nb)) := by
    rw [al_mt hnb, al_nt hnb]
    exact hOps_ok hok hmt hnt
  have hTv := qrT_valid (hm := hm) (ib := ib) (m := m) (n := n) (a := (m, n)) (c := (0, 0)) (lda := lda) (ldc := 0)
    hnb (ops_inB (hOps_ok hok hmt hnt))
  have vA : TilesV (evalid (qrEnv hm ib nb m n (m, n) lda (0, 0) 0)) nb (tVw nb dims dims 0) :=
    tiles_vw hnb ⟨le_rfl, le_rfl⟩
  have hio : ∀ k, k ∈ [0] → k ≠ 1 ∧ (dims k).1 ≤ (dims k).1 ∧ (dims k).2 ≤ (dims k).2 := fun k hk => by
    simp only [List.mem_cons, List.not_mem_nil, or_false] at hk
    exact ⟨by omega, le_rfl, le_rfl⟩
  rw [ompZgeqrf_eq hAl h0, hops, show (qrT hm ib nb m n).d.mb = ib from rfl]
  have hTA : (qrT hm ib nb m n).id ≠ (tVw nb dims dims 0).id := fun e => by cases e
  exact drvT_exists hnb hib (qrLd_ok hlda le_rfl) hio hio (fac_good hK hAl hTA vA (ops_inB ho) hTv) mem

/-- An execution of the application exists. -/
theorem unmqr_exists {hm : HMode} (hok : HMode.ok hm) {ib nb m n lda : Nat} (hnb : 0 < nb) (hib : 0 < ib) (h0 : min m n ≠ 0)
    (hlda : m ≤ lda) {l t : Bool} {cm cn ldc : Nat} (hldc : cm ≤ ldc) (hd : (if l then cm else cn) = m)
    (mem1 : Buf × Nat → α) :
    ∃ mem2, Exec (qrEnv hm ib nb m n (m, min m n) lda (cm, cn) ldc) (zunmqr hm ib nb m n l t cm cn (min m n)) mem1 mem2 := by
  unfold zunmqr
  dsimp only
  rw [hd]
  by_cases hc0 : cm = 0 ∨ cn = 0
  · rw [if_pos (by omega)]
    exact Exec.exists (drvEnvT_wf hnb hib (qrLd_ok hlda hldc)) (by simp) (by simp) mem1
  rw [if_neg (by omega)]
  set dims := qrDims (m, min m n) (cm, cn) with hdims
  have d0 : dims 0 = (m, min m n) := rfl
  have d2 : dims 2 = (cm, cn) := rfl
  have hmt := ceilDiv_pos (m := m) hnb (by omega)
  have hnt := ceilDiv_pos (m := n) hnb (by omega)
  have hnt' := ceilDiv_pos (m := min m n) hnb (by omega)
  have hAl : (tVw nb dims dims 0).Al nb := al_tVw hnb 0
  have hCl : (tVw nb dims dims 2).Al nb := al_tVw hnb 2
  have hin : ∀ o ∈ hOps hm (ceilDiv m nb) (ceilDiv (min m n) nb), o.inB (tVw nb dims dims 0).d.mt (tVw nb dims dims 0).d.nt := by
    intro o ho
    rw [al_mt hnb, al_nt hnb]
    exact ops_inB (hOps_ok hok hmt hnt') o ho
  have hin' : ∀ o ∈ hOps hm (ceilDiv m nb) (ceilDiv (min m n) nb), o.inB (ceilDiv m nb) (ceilDiv n nb) := by
    rw [ceilDiv_min hnb, hOps_min hok hmt hnt]
    exact ops_inB (hOps_ok hok hmt hnt)
  have hTv := qrT_valid (hm := hm) (ib := ib) (m := m) (n := n) (a := (m, min m n)) (c := (cm, cn)) (lda := lda) (ldc := ldc)
    hnb hin'
  have vA : TilesV (evalid (qrEnv hm ib nb m n (m, min m n) lda (cm, cn) ldc)) nb (tVw nb dims dims 0) :=
    tiles_vw hnb ⟨le_rfl, le_rfl⟩
  have vC : TilesV (evalid (qrEnv hm ib nb m n (m, min m n) lda (cm, cn) ldc)) nb (tVw nb dims dims 2) :=
    tiles_vw hnb ⟨le_rfl, le_rfl⟩
  have hn0 : ¬ ((tVw nb dims dims 2).d.m = 0 ∨ (tVw nb dims dims 2).d.n = 0 ∨ (tVw nb dims dims 0).d.m = 0 ∨
      (tVw nb dims dims 0).d.n = 0) := by
    show ¬ (cm = 0 ∨ cn = 0 ∨ m = 0 ∨ min m n = 0)
    omega
  have hops : hOps hm (tVw nb dims dims 0).d.mt (tVw nb dims dims 0).d.nt = hOps hm (ceilDiv m nb) (ceilDiv (min m n) nb) := by
    rw [al_mt hnb, al_nt hnb, d0]
  have hio : ∀ k, k ∈ [0, 2] → k ≠ 1 ∧ (dims k).1 ≤ (dims k).1 ∧ (dims k).2 ≤ (dims k).2 := fun k hk => by
    simp only [List.mem_cons, List.not_mem_nil, or_false] at hk
    exact ⟨by omega, le_rfl, le_rfl⟩
  have hg : Good (evalid (qrEnv hm ib nb m n (m, min m n) lda (cm, cn) ldc))
      (ompZunmqr (α := α) hm l t (tVw nb dims dims 0) (qrT hm ib nb m n) (tVw nb dims dims 2)) := by
    cases l with
    | true =>
      have hd : cm = m := hd
      rw [ompZunmqr_left hAl hCl (by exact hd) hn0, hops]
      refine Good.flatMap fun o ho => ?_
      have ho' : o ∈ hOps hm (ceilDiv m nb) (ceilDiv (min m n) nb) := by
        cases t
        · exact List.mem_reverse.mp ho
        · exact ho
      exact updL_good hAl hCl hd vA vC (fun n hn => List.mem_range.mp hn) (hin o ho') (hTv o ho')
    | false =>
      have hd : cn = m := hd
      rw [ompZunmqr_right hAl hCl (by exact hd) hn0, hops]
      refine Good.flatMap fun o ho => ?_
      have ho' : o ∈ hOps hm (ceilDiv m nb) (ceilDiv (min m n) nb) := by
        cases t
        · exact ho
        · exact List.mem_reverse.mp ho
      exact updR_good hAl hCl hd vA vC (fun n hn => List.mem_range.mp hn) (hin o ho') (hTv o ho')
  exact drvT_exists hnb hib (qrLd_ok hlda hldc) hio
    (fun k hk => hio k (by simp only [List.mem_cons, List.not_mem_nil, or_false] at hk; simp [hk])) hg mem1

/-- An execution of the generation exists. -/
theorem ungqr_exists {hm : HMode} (hok : HMode.ok hm) {ib nb m n lda : Nat} (hnb : 0 < nb) (hib : 0 < ib) (h0 : min m n ≠ 0)
    (hlda : m ≤ lda) {qn ldq : Nat} (hldq : m ≤ ldq) (hk : min m n ≤ qn) (mem1 : Buf × Nat → α) :
    ∃ mem2, Exec (qrEnv hm ib nb m n (m, qn) lda (m, qn) ldq) (zungqr hm ib nb m n m qn (min m n)) mem1 mem2 := by
  unfold zungqr
  dsimp only
  rw [if_neg (by omega)]
  set dims := qrDims (m, qn) (m, qn) with hdims
  set vw := qrDims (m, min m n) (m, min m n) with hvw
  have d0 : vw 0 = (m, min m n) := rfl
  have d2 : vw 2 = (m, min m n) := rfl
  have hmt := ceilDiv_pos (m := m) hnb (by omega)
  have hnt := ceilDiv_pos (m := n) hnb (by omega)
  have hnt' := ceilDiv_pos (m := min m n) hnb (by omega)
  have hAl : (tVw nb dims vw 0).Al nb := al_tVw hnb 0
  have hCl : (tVw nb dims vw 2).Al nb := al_tVw hnb 2
  have hin : ∀ o ∈ hOps hm (ceilDiv m nb) (ceilDiv (min m n) nb), o.inB (tVw nb dims vw 0).d.mt (tVw nb dims vw 0).d.nt := by
    intro o ho
    rw [al_mt hnb, al_nt hnb]
    exact ops_inB (hOps_ok hok hmt hnt') o ho
  have hin' : ∀ o ∈ hOps hm (ceilDiv m nb) (ceilDiv (min m n) nb), o.inB (ceilDiv m nb) (ceilDiv n nb) := by
    rw [ceilDiv_min hnb, hOps_min hok hmt hnt]
    exact ops_inB (hOps_ok hok hmt hnt)
  have hTv := qrT_valid (hm := hm) (ib := ib) (m := m) (n := n) (a := (m, qn)) (c := (m, qn)) (lda := lda) (ldc := ldq)
    hnb hin'
  have vA : TilesV (evalid (qrEnv hm ib nb m n (m, qn) lda (m, qn) ldq)) nb (tVw nb dims vw 0) :=
    tiles_vw hnb ⟨le_rfl, hk⟩
  have vC : TilesV (evalid (qrEnv hm ib nb m n (m, qn) lda (m, qn) ldq)) nb (tVw nb dims vw 2) :=
    tiles_vw hnb ⟨le_rfl, hk⟩
  have hn0 : (tVw nb dims vw 2).d.n ≠ 0 := h0
  have hops : hOps hm (tVw nb dims vw 0).d.mt (tVw nb dims vw 0).d.nt = hOps hm (ceilDiv m nb) (ceilDiv (min m n) nb) := by
    rw [al_mt hnb, al_nt hnb, d0]
  have hio : ∀ k, k ∈ [0, 2] → k ≠ 1 ∧ (vw k).1 ≤ (dims k).1 ∧ (vw k).2 ≤ (dims k).2 := fun k hk => by
    simp only [List.mem_cons, List.not_mem_nil, or_false] at hk
    rcases hk with rfl | rfl
    · exact ⟨by omega, le_rfl, by assumption⟩
    · exact ⟨by omega, le_rfl, by assumption⟩
  have hg : Good (evalid (qrEnv hm ib nb m n (m, qn) lda (m, qn) ldq))
      (ompZungqr (α := α) hm (tVw nb dims vw 0) (qrT hm ib nb m n) (tVw nb dims vw 2)) := by
    rw [ompZungqr_eq hAl hCl rfl hn0, hops]
    have hfit : FitsOn (qrEnv hm ib nb m n (m, qn) lda (m, qn) ldq) nb (stOK none) (tVw nb dims vw 2) :=
      FitsOn.mono (fits_tVw hnb ⟨le_rfl, hk⟩) fun _ _ _ => trivial
    refine Good.append (pzlaset_good hfit) (Good.flatMap fun o ho => ?_)
    have ho' := List.mem_reverse.mp ho
    exact updL_good hAl hCl rfl vA vC (fun n hn => (mem_span.mp hn).2) (hin o ho') (hTv o ho')
  exact drvT_exists hnb hib (qrLd_ok hlda hldq) hio
    (fun k hk => hio k (by simp only [List.mem_cons, List.not_mem_nil, or_false] at hk; simp [hk])) hg mem1

/-- Without reflectors nothing changes. -/
theorem ungqr_frame0 {hm : HMode} {ib nb m n lda : Nat} (hnb : 0 < nb) (hib : 0 < ib) (h0 : min m n = 0)
    (hlda : m ≤ lda) {mem1 mem2 : Buf × Nat → α} {qn ldq : Nat} (hldq : m ≤ ldq)
    (h : Exec (qrEnv hm ib nb m n (m, qn) lda (m, qn) ldq) (zungqr hm ib nb m n m qn (min m n)) mem1 mem2)
    (k x : Nat) : mem2 (.usr k, x) = mem1 (.usr k, x) := by
  unfold zungqr at h
  dsimp only at h
  by_cases hq : qn = 0
  · rw [if_pos hq] at h
    rw [Exec.nil h]
  rw [if_neg hq] at h
  set dims := qrDims (m, qn) (m, qn) with hdims
  set vw := qrDims (m, min m n) (m, min m n) with hvw
  have hP : ompZungqr (α := α) hm (tVw nb dims vw 0) (qrT hm ib nb m n) (tVw nb dims vw 2) = [] := by
    unfold ompZungqr
    rw [if_pos (show (tVw nb dims vw 2).d.n = 0 from h0)]
  rw [hP] at h
  have hio : ∀ k, k ∈ [0, 2] → k ≠ 1 ∧ (vw k).1 ≤ (dims k).1 ∧ (vw k).2 ≤ (dims k).2 := fun k hk' => by
    simp only [List.mem_cons, List.not_mem_nil, or_false] at hk'
    rcases hk' with rfl | rfl
    · exact ⟨by omega, le_rfl, show min m n ≤ qn by omega⟩
    · exact ⟨by omega, le_rfl, show min m n ≤ qn by omega⟩
  have hio2 : ∀ k, k ∈ [2] → k ≠ 1 ∧ (vw k).1 ≤ (dims k).1 ∧ (vw k).2 ≤ (dims k).2 :=
    fun k hk => hio k (by simp only [List.mem_cons, List.not_mem_nil, or_false] at hk; simp [hk])
  have hg : Good (evalid (qrEnv hm ib nb m n (m, qn) lda (m, qn) ldq)) ([] : List (TTask (Buf × Nat × Nat) α)) :=
    Good.nil
  by_cases hk1 : k = 1
  · subst hk1
    exact drvT_frameT hnb hib (qrLd_ok hlda hldq) hio hio2 hg (by intro t ht; cases ht) h x
  obtain ⟨s1, e1, e2, e3, e4, e5, e6⟩ := drvT_correct hnb hib (qrLd_ok hlda hldq) (by decide) (by decide) hio hio2 hg
    (by intro t ht; cases ht) h
  by_cases hk2 : k = 2
  · subst hk2
    refine e6 2 x (by decide) fun i j _ hj => ?_
    have : j < min m n := hj
    omega
  · exact e5 k (by simp [hk2]) hk1 x

/-! ### C33 and C34 -/

theorem lmul_mul {m n : Nat} {Q : Matrix (Fin m) (Fin m) α} {X : Nat → Nat → α} {Y : Matrix (Fin m) (Fin n) α}
    (h : ∀ (i : Fin m) (j : Fin n), Y i j = X i j) (r : Fin m) (c : Fin n) : (Q * Y) r c = lmul Q X r c := by
  rw [Matrix.mul_apply]
  unfold lmul
  rw [dif_pos r.2]
  exact sum_congr rfl fun l _ => by rw [h]

theorem rmul_mul {m n : Nat} {Q : Matrix (Fin n) (Fin n) α} {X : Nat → Nat → α} {Y : Matrix (Fin m) (Fin n) α}
    (h : ∀ (i : Fin m) (j : Fin n), Y i j = X i j) (r : Fin m) (c : Fin n) : (Y * Q) r c = rmul X Q r c := by
  rw [Matrix.mul_apply]
  unfold rmul
  rw [dif_pos c.2]
  exact sum_congr rfl fun l _ => by rw [h]

/-- What the later calls do with the `Q` of a factorization: `plasma_zunmqr` from the left and from the right and
`plasma_zungqr`, in every memory `mem1` with the same reflectors and the same `T` as the memory `mem'` after the
factorization. -/
structure AppliesQ (hm : HMode) (ib nb m n lda : Nat) (mem' : Buf × Nat → α) (Q : Matrix (Fin m) (Fin m) α) : Prop where
  left : ∀ (mem1 mem2 : Buf × Nat → α) (t : Bool) (cn ldc : Nat), m ≤ ldc →
    (∀ r c, r < m → c < min m n → mem1 (.usr 0, r + c * lda) = mem' (.usr 0, r + c * lda)) →
    (∀ x, mem1 (.usr 1, x) = mem' (.usr 1, x)) →
    Exec (qrEnv hm ib nb m n (m, min m n) lda (m, cn) ldc) (zunmqr hm ib nb m n true t m cn (min m n)) mem1 mem2 →
    uArr mem2 2 ldc m cn = (if t then Qᴴ else Q) * uArr mem1 2 ldc m cn ∧
    (∀ k x, k ≠ 2 ∨ (∀ i j, i < m → j < cn → x ≠ i + j * ldc) → mem2 (.usr k, x) = mem1 (.usr k, x))
  right : ∀ (mem1 mem2 : Buf × Nat → α) (t : Bool) (cm ldc : Nat), cm ≤ ldc →
    (∀ r c, r < m → c < min m n → mem1 (.usr 0, r + c * lda) = mem' (.usr 0, r + c * lda)) →
    (∀ x, mem1 (.usr 1, x) = mem' (.usr 1, x)) →
    Exec (qrEnv hm ib nb m n (m, min m n) lda (cm, m) ldc) (zunmqr hm ib nb m n false t cm m (min m n)) mem1 mem2 →
    uArr mem2 2 ldc cm m = uArr mem1 2 ldc cm m * (if t then Qᴴ else Q) ∧
    (∀ k x, k ≠ 2 ∨ (∀ i j, i < cm → j < m → x ≠ i + j * ldc) → mem2 (.usr k, x) = mem1 (.usr k, x))
  gen : ∀ (mem1 mem2 : Buf × Nat → α) (qn ldq : Nat), m ≤ ldq → min m n ≤ qn →
    (∀ r c, r < m → c < min m n → mem1 (.usr 0, r + c * lda) = mem' (.usr 0, r + c * lda)) →
    (∀ x, mem1 (.usr 1, x) = mem' (.usr 1, x)) →
    Exec (qrEnv hm ib nb m n (m, qn) lda (m, qn) ldq) (zungqr hm ib nb m n m qn (min m n)) mem1 mem2 →
    uArr mem2 2 ldq m (min m n) = Q.submatrix id (Fin.castLE (Nat.min_le_left m n)) ∧
    (∀ k x, k ≠ 2 ∨ (∀ i j, i < m → j < min m n → x ≠ i + j * ldq) → mem2 (.usr k, x) = mem1 (.usr k, x))

theorem applies_of_holds {hm : HMode} (hok : HMode.ok hm) {ib nb m n lda : Nat} (hnb : 0 < nb) (hib : 0 < ib)
    (h0 : min m n ≠ 0) (hlda : m ≤ lda) {mem' : Buf × Nat → α} {Q : Matrix (Fin m) (Fin m) α}
    (hQ : Holds hm ib nb m n lda mem' Q) : AppliesQ hm ib nb m n lda mem' Q where
  left mem1 mem2 t cn ldc hl hA hT h := by
    obtain ⟨e1, e2⟩ := unmqr_holds hok hnb hib h0 hlda hQ hA hT hl (l := true) rfl h
    refine ⟨Matrix.ext fun r c => ?_, e2⟩
    rw [lmul_mul (Y := uArr mem1 2 ldc _ _) (X := fun i j => mem1 (.usr 2, i + j * ldc)) (fun _ _ => rfl)]
    exact (e1 r c r.2 c.2).trans (if_pos rfl)
  right mem1 mem2 t cm ldc hl hA hT h := by
    obtain ⟨e1, e2⟩ := unmqr_holds hok hnb hib h0 hlda hQ hA hT hl (l := false) rfl h
    refine ⟨Matrix.ext fun r c => ?_, e2⟩
    rw [rmul_mul (Y := uArr mem1 2 ldc _ _) (X := fun i j => mem1 (.usr 2, i + j * ldc)) (fun _ _ => rfl)]
    exact (e1 r c r.2 c.2).trans (if_neg (by decide))
  gen mem1 mem2 qn ldq hl hk hA hT h := by
    obtain ⟨e1, e2⟩ := ungqr_holds hok hnb hib h0 hlda hQ hA hT hl hk h
    exact ⟨Matrix.ext fun r c => e1 r c r.2 c.2, e2⟩

end

section
variable {𝕜 : Type v} [RCLike 𝕜]

/-- Factorization and later calls. -/
theorem geqrf_all {hm : HMode} (hok : HMode.ok hm) {ib nb m n lda : Nat} (hnb : 0 < nb) (hib : 0 < ib) (hlda : m ≤ lda)
    {mem mem' : Buf × Nat → 𝕜}
    (h : Exec (qrEnv hm ib nb m n (m, n) lda (0, 0) 0) (zgeqrf lkern hm ib nb m n) mem mem') :
    (TClean hm mem → ∃ Q : Matrix (Fin m) (Fin m) 𝕜, Q ∈ unitaryGroup (Fin m) 𝕜 ∧
      Q * uArrU mem' 0 lda m n = uArr mem 0 lda m n ∧ AppliesQ hm ib nb m n lda mem' Q) ∧
      (∀ k x, k ≠ 1 → k ≠ 0 ∨ (∀ i j, i < m → j < n → x ≠ i + j * lda) → mem' (.usr k, x) = mem (.usr k, x)) := by
  by_cases h0 : min m n = 0
  · have hmn : m = 0 ∨ n = 0 := by omega
    unfold zgeqrf at h
    rw [if_pos h0] at h
    have e := Exec.nil h
    subst e
    have nl : ∀ mem1 mem2 : Buf × Nat → 𝕜, ∀ l t cm cn a c ldc, Exec (qrEnv hm ib nb m n a lda c ldc)
        (zunmqr hm ib nb m n l t cm cn (min m n)) mem1 mem2 → mem2 = mem1 := by
      intro mem1 mem2 l t cm cn a c ldc h
      unfold zunmqr at h
      dsimp only at h
      rw [if_pos (by omega)] at h
      exact Exec.nil h
    refine ⟨fun _ => ⟨1, Submonoid.one_mem _, Matrix.ext fun r c => ?_, ⟨?_, ?_, ?_⟩⟩, fun _ _ _ _ => rfl⟩
    · exfalso
      have := r.2
      have := c.2
      omega
    · intro mem1 mem2 t cn ldc _ _ _ h
      have e := nl _ _ _ _ _ _ _ _ _ h
      subst e
      exact ⟨by cases t <;> simp, fun _ _ _ => rfl⟩
    · intro mem1 mem2 t cn ldc _ _ _ h
      have e := nl _ _ _ _ _ _ _ _ _ h
      subst e
      exact ⟨by cases t <;> simp, fun _ _ _ => rfl⟩
    · intro mem1 mem2 qn ldq hl _ _ _ h
      refine ⟨Matrix.ext fun r c => by have := c.2; omega, fun k x _ => ?_⟩
      exact ungqr_frame0 hnb hib h0 hlda hl h k x
  · obtain ⟨h1, h4⟩ := geqrf_holds lkern_spec hok hnb hib h0 hlda h
    refine ⟨fun hc => ?_, h4⟩
    obtain ⟨Q, h1, h2, h3⟩ := h1 hc
    refine ⟨Q, h1, Matrix.ext fun r c => ?_, applies_of_holds hok hnb hib h0 hlda h2⟩
    rw [lmul_mul (Y := uArrU mem' 0 lda m n) (X := triu fun i j => mem' (.usr 0, i + j * lda)) (fun _ _ => rfl)]
    exact h3 r c r.2 c.2

/-- **C33**, part.  After `plasma_zgeqrf`, in flat mode and in tree mode with any number of threads, there is a unitary
`Q` with `Q R = A`, where `R` is the upper triangle (trapezoid) of the result and `A` the matrix before the call.

Missing: in tree mode the array of `T` has to be zero before the call, which nothing in the library sees to; see
`C61_geqrf_stale` for what happens if it is not. -/
theorem C33_geqrf_partial {hm : HMode} (hok : HMode.ok hm) {ib nb m n lda : Nat} (hnb : 0 < nb) (hib : 0 < ib) (hlda : m ≤ lda)
    {mem mem' : Buf × Nat → 𝕜} (hc : TClean hm mem)
    (h : Exec (qrEnv hm ib nb m n (m, n) lda (0, 0) 0) (zgeqrf lkern hm ib nb m n) mem mem') :
    ∃ Q : Matrix (Fin m) (Fin m) 𝕜, Q ∈ unitaryGroup (Fin m) 𝕜 ∧ Q * uArrU mem' 0 lda m n = uArr mem 0 lda m n := by
  obtain ⟨Q, h1, h2, -⟩ := (geqrf_all hok hnb hib hlda h).1 hc
  exact ⟨Q, h1, h2⟩

/-- **C33**, part: in flat mode whatever `T` holds before the call. -/
theorem C33_geqrf_flat {ib nb m n lda : Nat} (hnb : 0 < nb) (hib : 0 < ib) (hlda : m ≤ lda) {mem mem' : Buf × Nat → 𝕜}
    (h : Exec (qrEnv none ib nb m n (m, n) lda (0, 0) 0) (zgeqrf lkern none ib nb m n) mem mem') :
    ∃ Q : Matrix (Fin m) (Fin m) 𝕜, Q ∈ unitaryGroup (Fin m) 𝕜 ∧ Q * uArrU mem' 0 lda m n = uArr mem 0 lda m n :=
  C33_geqrf_partial (by intro c h; cases h) hnb hib hlda (Or.inl rfl) h

/-- **C33**, part: whatever `T` holds before the call, nothing outside the matrix and `T` changes. -/
theorem C33_frame {hm : HMode} (hok : HMode.ok hm) {ib nb m n lda : Nat} (hnb : 0 < nb) (hib : 0 < ib) (hlda : m ≤ lda)
    {mem mem' : Buf × Nat → 𝕜}
    (h : Exec (qrEnv hm ib nb m n (m, n) lda (0, 0) 0) (zgeqrf lkern hm ib nb m n) mem mem') :
    ∀ k x, k ≠ 1 → k ≠ 0 ∨ (∀ i j, i < m → j < n → x ≠ i + j * lda) → mem' (.usr k, x) = mem (.usr k, x) :=
  (geqrf_all hok hnb hib hlda h).2

/-- Executions exist, from a memory in which `T` is zero and from any other. -/
example (mem : Buf × Nat → ℂ) :
    ∃ mem', Exec (qrEnv (some 4) 3 5 12 7 (12, 7) 13 (0, 0) 0) (zgeqrf lkern (some 4) 3 5 12 7) mem mem' :=
  geqrf_exists lkern_spec (by intro c h; cases h; omega) (by omega) (by omega) (by omega) mem

/-- **C34**, part.  There is one unitary `Q` with `Q R = A` such that all later calls in the same mode (same number of
threads) with the reflectors and `T` of the factorization use exactly this `Q`: `plasma_zunmqr` multiplies `C` by `Q` or
`Q^H` from the side asked for, `plasma_zungqr` stores the leading `min(m, n)` columns of `Q`; nothing else changes.

Missing: `plasma_zungqr` with more columns than reflectors, see `C34_ungqr_refuted`; tree mode with a `T` that is not
zero before the factorization, see `C61_geqrf_stale`. -/
theorem C34_apply_partial {hm : HMode} (hok : HMode.ok hm) {ib nb m n lda : Nat} (hnb : 0 < nb) (hib : 0 < ib)
    (hlda : m ≤ lda) {mem mem' : Buf × Nat → 𝕜} (hc : TClean hm mem)
    (h : Exec (qrEnv hm ib nb m n (m, n) lda (0, 0) 0) (zgeqrf lkern hm ib nb m n) mem mem') :
    ∃ Q : Matrix (Fin m) (Fin m) 𝕜, Q ∈ unitaryGroup (Fin m) 𝕜 ∧ Q * uArrU mem' 0 lda m n = uArr mem 0 lda m n ∧
      AppliesQ hm ib nb m n lda mem' Q := by
  obtain ⟨Q, h1, h2, h3⟩ := (geqrf_all hok hnb hib hlda h).1 hc
  exact ⟨Q, h1, h2, h3⟩

/-- **C34**, part: applying `Q` and then `Q^H` (or the other way round) from the left restores `C`.  Missing as in `C34_apply_partial`. -/
theorem C34_restore_left_partial {hm : HMode} (hok : HMode.ok hm) {ib nb m n lda : Nat} (hnb : 0 < nb) (hib : 0 < ib)
    (hlda : m ≤ lda) {mem mem' mem1 mem2 mem3 : Buf × Nat → 𝕜} (hc : TClean hm mem)
    (h : Exec (qrEnv hm ib nb m n (m, n) lda (0, 0) 0) (zgeqrf lkern hm ib nb m n) mem mem')
    (hA : ∀ r c, r < m → c < min m n → mem1 (.usr 0, r + c * lda) = mem' (.usr 0, r + c * lda))
    (hT : ∀ x, mem1 (.usr 1, x) = mem' (.usr 1, x)) {t : Bool} {cn ldc : Nat} (hldc : m ≤ ldc)
    (h1 : Exec (qrEnv hm ib nb m n (m, min m n) lda (m, cn) ldc) (zunmqr hm ib nb m n true t m cn (min m n)) mem1 mem2)
    (h2 : Exec (qrEnv hm ib nb m n (m, min m n) lda (m, cn) ldc) (zunmqr hm ib nb m n true (!t) m cn (min m n)) mem2 mem3) :
    uArr mem3 2 ldc m cn = uArr mem1 2 ldc m cn := by
  obtain ⟨Q, hu, -, hq⟩ := (geqrf_all hok hnb hib hlda h).1 hc
  obtain ⟨e1, f1⟩ := hq.left _ _ _ _ _ hldc hA hT h1
  obtain ⟨e2, -⟩ := hq.left _ _ _ _ _ hldc (fun r c hr hc => by rw [f1 0 _ (Or.inl (by decide)), hA r c hr hc])
    (fun x => by rw [f1 1 _ (Or.inl (by decide)), hT]) h2
  rw [e2, e1, ← Matrix.mul_assoc]
  have hu1 : Qᴴ * Q = 1 := (mem_unitaryGroup_iff').mp hu
  have hu2 : Q * Qᴴ = 1 := (mem_unitaryGroup_iff).mp hu
  cases t <;> simp [hu1, hu2]

/-- **C34**, part: the same from the right.  Missing as in `C34_apply_partial`. -/
theorem C34_restore_right_partial {hm : HMode} (hok : HMode.ok hm) {ib nb m n lda : Nat} (hnb : 0 < nb) (hib : 0 < ib)
    (hlda : m ≤ lda) {mem mem' mem1 mem2 mem3 : Buf × Nat → 𝕜} (hc : TClean hm mem)
    (h : Exec (qrEnv hm ib nb m n (m, n) lda (0, 0) 0) (zgeqrf lkern hm ib nb m n) mem mem')
    (hA : ∀ r c, r < m → c < min m n → mem1 (.usr 0, r + c * lda) = mem' (.usr 0, r + c * lda))
    (hT : ∀ x, mem1 (.usr 1, x) = mem' (.usr 1, x)) {t : Bool} {cm ldc : Nat} (hldc : cm ≤ ldc)
    (h1 : Exec (qrEnv hm ib nb m n (m, min m n) lda (cm, m) ldc) (zunmqr hm ib nb m n false t cm m (min m n)) mem1 mem2)
    (h2 : Exec (qrEnv hm ib nb m n (m, min m n) lda (cm, m) ldc) (zunmqr hm ib nb m n false (!t) cm m (min m n)) mem2 mem3) :
    uArr mem3 2 ldc cm m = uArr mem1 2 ldc cm m := by
  obtain ⟨Q, hu, -, hq⟩ := (geqrf_all hok hnb hib hlda h).1 hc
  obtain ⟨e1, f1⟩ := hq.right _ _ _ _ _ hldc hA hT h1
  obtain ⟨e2, -⟩ := hq.right _ _ _ _ _ hldc (fun r c hr hc => by rw [f1 0 _ (Or.inl (by decide)), hA r c hr hc])
    (fun x => by rw [f1 1 _ (Or.inl (by decide)), hT]) h2
  rw [e2, e1, Matrix.mul_assoc]
  have hu1 : Qᴴ * Q = 1 := (mem_unitaryGroup_iff').mp hu
  have hu2 : Q * Qᴴ = 1 := (mem_unitaryGroup_iff).mp hu
  cases t <;> simp [hu1, hu2]

/-- The hypotheses can be met: factor, then apply, in tree mode. -/
example : ∃ mem mem' mem2 : Buf × Nat → ℂ, TClean (some 4) mem ∧ mem (.usr 0, 3) ≠ 0 ∧
    Exec (qrEnv (some 4) 3 5 12 7 (12, 7) 13 (0, 0) 0) (zgeqrf lkern (some 4) 3 5 12 7) mem mem' ∧
    Exec (qrEnv (some 4) 3 5 12 7 (12, 7) 13 (12, 6) 12) (zunmqr (some 4) 3 5 12 7 true true 12 6 7) mem' mem2 := by
  have hok : HMode.ok (some 4) := by intro c h; cases h; omega
  obtain ⟨mem', h1⟩ := geqrf_exists (lkern_spec (𝕜 := ℂ)) (n := 7) (lda := 13) hok (nb := 5) (m := 12) (ib := 3) (by omega)
    (by omega) (by omega) (fun x => if x.1 = .usr 0 then 1 else 0)
  obtain ⟨mem2, h2⟩ := unmqr_exists (n := 7) (lda := 13) hok (nb := 5) (m := 12) (ib := 3) (by omega)
    (by omega) (by omega) (by omega) (l := true) (t := true) (cm := 12) (cn := 6) (ldc := 12) (by omega) rfl mem'
  exact ⟨_, mem', mem2, Or.inr fun x => by simp, by simp, h1, h2⟩

/-- **C34** fails for `plasma_zungqr` with more columns than reflectors (`k < n ≤ m` in the notation of
compute/zungqr.c:36-47): the remaining columns of the array are never written (the descriptor of `Q` has `k` columns,
compute/zungqr.c:123-130).  If the array is zero before the call, the result does not have orthonormal columns. -/
theorem C34_ungqr_refuted {hm : HMode} (hok : HMode.ok hm) {ib nb m n qn : Nat} (hnb : 0 < nb) (hib : 0 < ib)
    (hk : n < qn) (hqm : qn ≤ m) {mem mem' mem2 : Buf × Nat → 𝕜} (h0 : ∀ x, mem (.usr 2, x) = 0) (hc : TClean hm mem)
    (h : Exec (qrEnv hm ib nb m n (m, n) m (0, 0) 0) (zgeqrf lkern hm ib nb m n) mem mem')
    (h2 : Exec (qrEnv hm ib nb m n (m, qn) m (m, qn) m) (zungqr hm ib nb m n m qn n) mem' mem2) :
    (uArr mem2 2 m m qn)ᴴ * uArr mem2 2 m m qn ≠ 1 := by
  obtain ⟨hQ, hf⟩ := geqrf_all hok hnb hib le_rfl h
  obtain ⟨Q, -, -, hq⟩ := hQ hc
  have hmin : min m n = n := by omega
  obtain ⟨-, e⟩ := hq.gen mem' mem2 qn m le_rfl (by omega) (fun _ _ _ _ => rfl) (fun _ => rfl) (by rw [hmin]; exact h2)
  intro he
  have h1 := congrFun (congrFun he ⟨n, hk⟩) ⟨n, hk⟩
  rw [Matrix.mul_apply, Matrix.one_apply_eq] at h1
  have hz : ∀ r : Fin m, uArr mem2 2 m m qn r ⟨n, hk⟩ = 0 := by
    intro r
    show mem2 (.usr 2, (r : Nat) + n * m) = 0
    rw [e 2 _ (Or.inr fun i j hi hj heq => ?_), hf 2 _ (by decide) (Or.inl (by decide)), h0]
    have hr := r.2
    have : (j + 1) * m ≤ n * m := Nat.mul_le_mul_right _ (by omega)
    rw [Nat.add_mul] at this
    omega
  simp [hz] at h1

/-- Such executions exist. -/
example : ∃ mem mem' mem2 : Buf × Nat → ℂ, (∀ x, mem (.usr 2, x) = 0) ∧ TClean none mem ∧
    Exec (qrEnv none 1 1 2 1 (2, 1) 2 (0, 0) 0) (zgeqrf lkern none 1 1 2 1) mem mem' ∧
    Exec (qrEnv none 1 1 2 1 (2, 2) 2 (2, 2) 2) (zungqr none 1 1 2 1 2 2 1) mem' mem2 := by
  have hok : HMode.ok none := by intro c h; cases h
  obtain ⟨mem', h1⟩ := geqrf_exists (lkern_spec (𝕜 := ℂ)) (n := 1) (lda := 2) hok (nb := 1) (m := 2) (ib := 1) (by omega)
    (by omega) (by omega) (fun _ => 0)
  obtain ⟨mem2, h2⟩ := ungqr_exists (n := 1) (lda := 2) hok (nb := 1) (m := 2) (ib := 1) (by omega)
    (by omega) (by omega) (by omega) (qn := 2) (ldq := 2) (by omega) (by omega) mem'
  exact ⟨_, mem', mem2, fun _ => rfl, Or.inl rfl, h1, h2⟩

end

end Verif.Props

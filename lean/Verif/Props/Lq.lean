/-
Properties of the LQ factorization and of the application and generation of its unitary factor: C36.
-/
import Verif.LqGood
import Verif.Props.Qr

namespace Verif.Props

open Verif.Layout Verif.Tile Verif.Tree Verif.Qr Verif.Fact Finset Matrix

universe v

set_option linter.unusedSectionVars false

/-! ### Programs -/

section
variable {α : Type v} [CommRing α] [StarRing α]

/-- `plasma_omp_zgelqf` (compute/zgelqf.c:216-261) for valid descriptors. -/
noncomputable def ompZgelqf {M : Type} (K : QrKern α) (hm : HMode) (A T : TMat M) : List (TTask (M × Nat × Nat) α) :=
  if min A.d.m A.d.n = 0 then [] else
    match hm with
    | none => pzgelqf K A T
    | some conc => pzgelqfTree K (treeList A.d.nt A.d.mt conc) A T

/-- `plasma_omp_zunmlq` (compute/zunmlq.c:285-350) for valid descriptors. -/
noncomputable def ompZunmlq {M : Type} (hm : HMode) (l t : Bool) (A T C : TMat M) : List (TTask (M × Nat × Nat) α) :=
  if C.d.m = 0 ∨ C.d.n = 0 ∨ A.d.m = 0 ∨ A.d.n = 0 then [] else
    match hm with
    | none => pzunmlq l t A T C
    | some conc => pzunmlqTree l t (treeList A.d.nt A.d.mt conc) A T C

/-- `plasma_omp_zunglq` (compute/zunglq.c:230-283) for valid descriptors. -/
noncomputable def ompZunglq {M : Type} (hm : HMode) (A T Q : TMat M) : List (TTask (M × Nat × Nat) α) :=
  if Q.d.m = 0 then [] else
    pzlaset none 0 1 Q ++
    match hm with
    | none => pzunglq A T Q
    | some conc => pzunglqTree (treeList A.d.nt A.d.mt conc) A T Q

/-- Tasks created by `plasma_zgelqf` (compute/zgelqf.c:71-166) for valid arguments. -/
noncomputable def zgelqf (K : QrKern α) (hm : HMode) (ib nb m n : Nat) : List (TTask (Buf × Nat × Nat) α) :=
  if min m n = 0 then [] else
    driverV nb (qrDims (m, n) (0, 0)) (qrDims (m, n) (0, 0)) [0]
      (ompZgelqf K hm (tVw nb (qrDims (m, n) (0, 0)) (qrDims (m, n) (0, 0)) 0) (qrT hm ib nb m n)) [0]

/-- Tasks created by `plasma_zunmlq` (compute/zunmlq.c:95-221) for valid arguments: `C` is `cm` by `cn`, there are `k`
reflectors, `T` was made by the factorization of an `m` by `n` matrix. -/
noncomputable def zunmlq (hm : HMode) (ib nb m n : Nat) (l t : Bool) (cm cn k : Nat) :
    List (TTask (Buf × Nat × Nat) α) :=
  let an := if l then cm else cn
  let dims := qrDims (k, an) (cm, cn)
  if cm = 0 ∨ cn = 0 ∨ k = 0 then [] else
    driverV nb dims dims [0, 2] (ompZunmlq hm l t (tVw nb dims dims 0) (qrT hm ib nb m n) (tVw nb dims dims 2)) [2]

/-- Tasks created by `plasma_zunglq` (compute/zunglq.c:73-179) for valid arguments `qm`, `qn`, `k`: the descriptors of
`A` and `Q` are `k` by `qn` parts of `qm` by `qn` matrices. -/
noncomputable def zunglq (hm : HMode) (ib nb m n : Nat) (qm qn k : Nat) : List (TTask (Buf × Nat × Nat) α) :=
  let dims := qrDims (qm, qn) (qm, qn)
  let vw := qrDims (k, qn) (k, qn)
  if qm = 0 then [] else
    driverV nb dims vw [0, 2] (ompZunglq hm (tVw nb dims vw 0) (qrT hm ib nb m n) (tVw nb dims vw 2)) [2]

end

/-- Lower triangle (trapezoid) of array `k`. -/
def uArrL {α : Type v} [Zero α] (mem : Buf × Nat → α) (k ld m n : Nat) : Matrix (Fin m) (Fin n) α :=
  Matrix.of fun i j => if (j : Nat) ≤ i then mem (.usr k, i + j * ld) else 0

/-! ### Auxiliary facts -/

section
variable {α : Type v} [CommRing α] [StarRing α]

theorem ompZgelqf_eq {M : Type} {b : Nat} {K : QrKern α} {hm : HMode} {A T : TMat M} (hA : A.Al b)
    (h0 : min A.d.m A.d.n ≠ 0) :
    ompZgelqf K hm A T = (hOps hm A.d.nt A.d.mt).flatMap (lfacT K T.d.mb (hOff hm T) A T) := by
  unfold ompZgelqf
  rw [if_neg h0]
  cases hm with
  | none => exact pzgelqf_eq K hA
  | some c => rfl

theorem ompZunmlq_left {M : Type} {b : Nat} {hm : HMode} {t : Bool} {A T C : TMat M} (hA : A.Al b) (hC : C.Al b)
    (hCm : C.d.m = A.d.n) (h0 : ¬ (C.d.m = 0 ∨ C.d.n = 0 ∨ A.d.m = 0 ∨ A.d.n = 0)) :
    ompZunmlq (α := α) hm true t A T C = (if t then (hOps hm A.d.nt A.d.mt).reverse else hOps hm A.d.nt A.d.mt).flatMap
      (lupdL false t T.d.mb (hOff hm T) A T C (List.range C.d.nt)) := by
  unfold ompZunmlq
  rw [if_neg h0]
  cases hm with
  | none => exact pzunmlq_left_eq hA hC hCm
  | some c => rfl

theorem ompZunmlq_right {M : Type} {b : Nat} {hm : HMode} {t : Bool} {A T C : TMat M} (hA : A.Al b) (hC : C.Al b)
    (hCm : C.d.n = A.d.n) (h0 : ¬ (C.d.m = 0 ∨ C.d.n = 0 ∨ A.d.m = 0 ∨ A.d.n = 0)) :
    ompZunmlq (α := α) hm false t A T C = (if t then hOps hm A.d.nt A.d.mt else (hOps hm A.d.nt A.d.mt).reverse).flatMap
      (lupdR false t T.d.mb (hOff hm T) A T C (List.range C.d.mt)) := by
  unfold ompZunmlq
  rw [if_neg h0]
  cases hm with
  | none => exact pzunmlq_right_eq hA hC hCm
  | some c => rfl

theorem ompZunglq_eq {M : Type} {b : Nat} {hm : HMode} {A T C : TMat M} (hA : A.Al b) (hC : C.Al b)
    (hCm : C.d.n = A.d.n) (h0 : C.d.m ≠ 0) :
    ompZunglq (α := α) hm A T C = pzlaset none 0 1 C ++ (hOps hm A.d.nt A.d.mt).reverse.flatMap
      fun o => lupdR true false T.d.mb (hOff hm T) A T C (span o.col C.d.mt) o := by
  unfold ompZunglq
  rw [if_neg h0]
  cases hm with
  | none => rw [show hOff none T = id from rfl]; exact congrArg _ (pzunglq_eq hA hC hCm)
  | some c => rfl

/-! #### The matrix `T` -/

/-- The `T` tiles in use exist. -/
theorem lqT_valid {hm : HMode} {ib nb m n : Nat} (hnb : 0 < nb) {a c : Nat × Nat} {lda ldc : Nat}
    {ops : List Op} (ho : ∀ o ∈ ops, o.inB (ceilDiv n nb) (ceilDiv m nb)) :
    ∀ o ∈ ops, LTtV (evalid (qrEnv hm ib nb m n a lda c ldc)) ib nb (hOff hm (qrT hm ib nb m n)) (qrT hm ib nb m n) o := by
  have em : (general nb nb m n 0 0 m n).mt = ceilDiv m nb := by
    show ntiles 0 m nb = _
    rw [ntiles_zero _ _ hnb]
  have en : (general nb nb m n 0 0 m n).nt = ceilDiv n nb := by
    show ntiles 0 n nb = _
    rw [ntiles_zero _ _ hnb]
  have hnt := qrT_nt (hm := hm) (ib := ib) (m := m) (n := n) hnb
  have hnt' : (qrT hm ib nb m n).d.n = (qrT hm ib nb m n).d.nt * nb := by
    rw [qrT_nt hnb]
    show (if hm.isSome then 2 * (general nb nb m n 0 0 m n).nt else (general nb nb m n 0 0 m n).nt) * nb = _
    rw [en]
  have hm' : (qrT hm ib nb m n).d.m = ceilDiv m nb * ib := by
    show (general nb nb m n 0 0 m n).mt * ib = _
    rw [em]
  have key : ∀ r c', r < ceilDiv m nb → c' < (qrT hm ib nb m n).d.nt → ∀ i j, i < ib → j < nb →
      evalid (qrEnv hm ib nb m n a lda c ldc) ((qrT hm ib nb m n).at' r c') i j := by
    intro r c' h1 h2 i j hi hj
    refine ⟨?_, trivial⟩
    show TileOK ib nb _ _ (r + 0 / _) (_ + 0 / _) i j
    rw [Nat.zero_div, Nat.zero_div, Nat.add_zero, Nat.add_zero, tileOK_iff]
    show i < ib ∧ r * ib + i < (qrT hm ib nb m n).d.m ∧ j < nb ∧ _ * nb + j < (qrT hm ib nb m n).d.n
    rw [hnt', hm']
    refine ⟨hi, ?_, hj, ?_⟩
    · have : (r + 1) * ib ≤ ceilDiv m nb * ib := Nat.mul_le_mul_right _ h1
      rw [Nat.add_mul] at this; omega
    · have : (c' + 1) * nb ≤ (qrT hm ib nb m n).d.nt * nb := Nat.mul_le_mul_right _ h2
      rw [Nat.add_mul] at this; omega
  have hc : ∀ k, k < ceilDiv n nb → k < (qrT hm ib nb m n).d.nt ∧ hOff hm (qrT hm ib nb m n) k < (qrT hm ib nb m n).d.nt := by
    intro k hk
    cases hm with
    | none =>
      rw [if_neg (by decide)] at hnt
      exact ⟨by omega, show k < _ by omega⟩
    | some c =>
      rw [if_pos (show (some c).isSome = true from rfl)] at hnt
      refine ⟨by omega, ?_⟩
      show k + (qrT (some c) ib nb m n).d.nt / 2 < _
      omega
  intro o h i j hi hj
  have ho := ho o h
  cases o with
  | ge j' k => exact key _ _ ho.1 (hc k ho.2).1 i j hi hj
  | ts j' m' k => exact key _ _ ho.1 (hc m' ho.2.2).2 i j hi hj
  | tt j' m' k => exact key _ _ ho.1 (hc m' ho.2.2).2 i j hi hj

/-- Correspondence of the `T` tiles with those of the QR factorization of the transposed matrix. -/
def lFlip (hm : HMode) (ib nb m n : Nat) : Flip Buf where
  tid := .usr 1
  pos r c := if hm.isSome ∧ ¬ c < (qrT hm ib nb n m).d.nt / 2 then
    (c - (qrT hm ib nb n m).d.nt / 2, r + (qrT hm ib nb m n).d.nt / 2) else (c, r)
  dom r _ := hm.isSome → r < (qrT hm ib nb m n).d.nt / 2
  inj := by
    intro r c r' c' h h' e
    generalize (qrT hm ib nb n m).d.nt / 2 = H at *
    generalize (qrT hm ib nb m n).d.nt / 2 = H' at *
    split at e <;> split at e <;> simp only [Prod.mk.injEq] at e
    · next h1 h2 => omega
    · next h1 h2 => have := h' h1.1; omega
    · next h1 h2 => have := h h2.1; omega
    · omega

theorem lFlip_ok {hm : HMode} {ib nb m n : Nat} (hnb : 0 < nb) {ops : List Op}
    (ho : ∀ o ∈ ops, o.inB (ceilDiv n nb) (ceilDiv m nb)) :
    ∀ o ∈ ops, TSim (lFlip hm ib nb m n) (hOff hm (qrT hm ib nb m n)) (hOff hm (qrT hm ib nb n m))
      (qrT hm ib nb m n) (qrT hm ib nb n m) o := by
  have hnt := qrT_nt (hm := hm) (ib := ib) (m := m) (n := n) hnb
  have hnt' := qrT_nt (hm := hm) (ib := ib) (m := n) (n := m) hnb
  have hz : ∀ r c, (qrT hm ib nb n m).at' r c = (.usr 1, r, c) := fun r c => by
    show (Buf.usr 1, r + 0 / _, c + 0 / _) = _
    rw [Nat.zero_div, Nat.zero_div]; rfl
  have hz' : ∀ r c, (qrT hm ib nb m n).at' r c = (.usr 1, r, c) := fun r c => by
    show (Buf.usr 1, r + 0 / _, c + 0 / _) = _
    rw [Nat.zero_div, Nat.zero_div]; rfl
  have hn : ∀ r c, (lFlip hm ib nb m n).nm (.usr 1, r, c) = (.usr 1, (lFlip hm ib nb m n).pos r c) := fun r c => by
    unfold Flip.nm
    exact if_pos rfl
  have hd : ∀ r c, r < ceilDiv n nb → (lFlip hm ib nb m n).ok (.usr 1, r, c) := fun r c h _ hs => by
    rw [if_pos hs] at hnt
    show r < _
    omega
  have h1 : ∀ j k, j < ceilDiv m nb → (lFlip hm ib nb m n).pos k j = (j, k) := fun j k hj => by
    refine if_neg ?_
    rintro ⟨hs, hlt⟩
    rw [if_pos hs] at hnt'
    omega
  have h2 : ∀ j k, j < ceilDiv m nb → (lFlip hm ib nb m n).pos k (hOff hm (qrT hm ib nb n m) j) =
      (j, hOff hm (qrT hm ib nb m n) k) := fun j k hj => by
    cases hm with
    | none => rfl
    | some c =>
      show (if _ then _ else _) = (j, k + (qrT (some c) ib nb m n).d.nt / 2)
      unfold hOff
      rw [if_pos (show (some c).isSome = true from rfl)]
      unfold Qr.t2
      rw [if_pos ⟨rfl, by omega⟩, Nat.add_sub_cancel]
  intro o h
  have ho := ho o h
  cases o with
  | ge j k =>
    refine ⟨rfl, ?_, ?_⟩
    · show Flip.ok _ ((qrT hm ib nb n m).at' k j)
      rw [hz]; exact hd _ _ ho.2
    · show (qrT hm ib nb m n).at' j k = Flip.nm _ ((qrT hm ib nb n m).at' k j)
      rw [hz, hz', hn, h1 _ _ ho.1]
  | ts j m' k =>
    refine ⟨rfl, ?_, ?_⟩
    · show Flip.ok _ ((qrT hm ib nb n m).at' m' _)
      rw [hz]; exact hd _ _ ho.2.2
    · show (qrT hm ib nb m n).at' j _ = Flip.nm _ ((qrT hm ib nb n m).at' m' (hOff hm (qrT hm ib nb n m) j))
      rw [hz, hz', hn, h2 _ _ ho.1]
  | tt j m' k =>
    refine ⟨rfl, ?_, ?_⟩
    · show Flip.ok _ ((qrT hm ib nb n m).at' m' _)
      rw [hz]; exact hd _ _ ho.2.2
    · show (qrT hm ib nb m n).at' j _ = Flip.nm _ ((qrT hm ib nb n m).at' m' (hOff hm (qrT hm ib nb n m) j))
      rw [hz, hz', hn, h2 _ _ ho.1]

/-! ### The later calls -/

/-- `Q` of the LQ factorization of an `m` by `n` matrix, from `k` rows of reflectors. -/
noncomputable def lqQ (hm : HMode) (ib nb m n k : Nat) (A : TMat Buf) (s : Store (Buf × Nat × Nat) α) (ops : List Op) :
    Matrix (Fin n) (Fin n) α :=
  lqAll (lFlip hm ib nb m n) nb k n ib (hOff hm (qrT hm ib nb n m)) A (qrT hm ib nb n m) s ops

/-- Facts about the factorization that the later calls rely on: memory `mem'` holds the reflectors of `Q`. -/
def LHolds (hm : HMode) (ib nb m n lda : Nat) (mem' : Buf × Nat → α) (Q : Matrix (Fin n) (Fin n) α) : Prop :=
  ∃ (A : TMat Buf) (s : Store (Buf × Nat × Nat) α), A.Al nb ∧ A.id ≠ .usr 1 ∧
    Q = lqQ hm ib nb m n m A s (hOps hm (ceilDiv n nb) (ceilDiv m nb)) ∧
    (∀ r c, r < m → c < n → A.el s r c = mem' (.usr 0, r + c * lda)) ∧
    ∀ o ∈ hOps hm (ceilDiv n nb) (ceilDiv m nb), ∀ i j, i < ib → j < nb →
      s (lTt (hOff hm (qrT hm ib nb m n)) (qrT hm ib nb m n) o) i j =
        mem' (eloc (qrEnv hm ib nb m n (0, 0) 0 (0, 0) 0) (lTt (hOff hm (qrT hm ib nb m n)) (qrT hm ib nb m n) o) i j)

theorem lTt_fst {M : Type} (off : Nat → Nat) (T : TMat M) (o : Op) : (lTt off T o).1 = T.id := by
  cases o <;> rfl

/-- `Q` seen by a later call. -/
theorem lholds_later {hm : HMode} (hok : HMode.ok hm) {ib nb m n lda : Nat} (hnb : 0 < nb) (h0 : min m n ≠ 0)
    {mem' mem1 : Buf × Nat → α} {Q : Matrix (Fin n) (Fin n) α} (hQ : LHolds hm ib nb m n lda mem' Q)
    (hA1 : ∀ r c, r < min m n → c < n → mem1 (.usr 0, r + c * lda) = mem' (.usr 0, r + c * lda))
    (hT1 : ∀ x, mem1 (.usr 1, x) = mem' (.usr 1, x)) {A1 : TMat Buf} (hAl : A1.Al nb) (hid : A1.id ≠ .usr 1)
    {s1 : Store (Buf × Nat × Nat) α} (hs1 : ∀ r c, r < min m n → c < n → A1.el s1 r c = mem1 (.usr 0, r + c * lda))
    {a c : Nat × Nat} {lda' ldc' : Nat}
    (hsT : ∀ t i j, t.1 = .usr 1 → s1 t i j = mem1 (eloc (qrEnv hm ib nb m n a lda' c ldc') t i j)) :
    lqQ hm ib nb m n (min m n) A1 s1 (hOps hm (ceilDiv n nb) (ceilDiv (min m n) nb)) = Q := by
  obtain ⟨A, s, hAl', hid', hQe, hs, hsT'⟩ := hQ
  have hmt := ceilDiv_pos (m := m) hnb (by omega)
  have hnt := ceilDiv_pos (m := n) hnb (by omega)
  have hops : hOps hm (ceilDiv n nb) (ceilDiv (min m n) nb) = hOps hm (ceilDiv n nb) (ceilDiv m nb) := by
    rw [Nat.min_comm, ceilDiv_min hnb, hOps_min hok hnt hmt]
  have hin := ops_inB (hOps_ok hok hnt hmt)
  rw [hops, hQe]
  have e : lqQ hm ib nb m n m A s (hOps hm (ceilDiv n nb) (ceilDiv m nb)) =
      lqQ hm ib nb m n (min m n) A s (hOps hm (ceilDiv n nb) (ceilDiv m nb)) := by
    unfold lqQ lqAll
    rw [Nat.min_comm m n, qAll_min hnb (hOps_ok hok hnt hmt)]
  rw [e]
  refine lqAll_agree (F := lFlip hm ib nb m n) (F' := lFlip hm ib nb m n) (T := qrT hm ib nb m n) (T1 := qrT hm ib nb m n)
    (off := hOff hm (qrT hm ib nb m n)) hAl hAl' hid hid' hin (lFlip_ok hnb hin) (lFlip_ok hnb hin) ?_ ?_
  · intro r c hr hc
    rw [hs1 r c hr hc, hs r c (by omega) hc, hA1 r c hr hc]
  · intro o ho i j hi hj
    rw [hsT _ i j (lTt_fst ..), hsT' o ho i j hi hj,
      eloc_T (a' := (0, 0)) (c' := (0, 0)) (lda' := 0) (ldc' := 0) (lTt_fst ..)]
    have : (eloc (qrEnv hm ib nb m n (0, 0) 0 (0, 0) 0) (lTt (hOff hm (qrT hm ib nb m n)) (qrT hm ib nb m n) o) i j).1 =
        .usr 1 := lTt_fst ..
    rw [← Prod.mk.eta (p := eloc (qrEnv hm ib nb m n (0, 0) 0 (0, 0) 0)
      (lTt (hOff hm (qrT hm ib nb m n)) (qrT hm ib nb m n) o) i j), this]
    exact hT1 _

/-- Footprints of the application. -/
theorem unmlq_gw {hm : HMode} (hok : HMode.ok hm) {ib nb m n lda : Nat} (hnb : 0 < nb) (h0 : min m n ≠ 0) {l t : Bool}
    {cm cn ldc : Nat} (hd : (if l then cm else cn) = n) (hc0 : ¬ (cm = 0 ∨ cn = 0)) :
    Good (evalid (qrEnv hm ib nb m n (min m n, n) lda (cm, cn) ldc))
      (ompZunmlq (α := α) hm l t (tVw nb (qrDims (min m n, n) (cm, cn)) (qrDims (min m n, n) (cm, cn)) 0) (qrT hm ib nb m n)
        (tVw nb (qrDims (min m n, n) (cm, cn)) (qrDims (min m n, n) (cm, cn)) 2)) ∧
    Writes (fun x => x.1 = .til 2)
      (ompZunmlq (α := α) hm l t (tVw nb (qrDims (min m n, n) (cm, cn)) (qrDims (min m n, n) (cm, cn)) 0) (qrT hm ib nb m n)
        (tVw nb (qrDims (min m n, n) (cm, cn)) (qrDims (min m n, n) (cm, cn)) 2)) := by
  set dims := qrDims (min m n, n) (cm, cn) with hdims
  have d0 : dims 0 = (min m n, n) := rfl
  have hmt := ceilDiv_pos (m := m) hnb (by omega)
  have hnt := ceilDiv_pos (m := n) hnb (by omega)
  have hmt' := ceilDiv_pos (m := min m n) hnb (by omega)
  have hAl : (tVw nb dims dims 0).Al nb := al_tVw hnb 0
  have hCl : (tVw nb dims dims 2).Al nb := al_tVw hnb 2
  have hops : hOps hm (tVw nb dims dims 0).d.nt (tVw nb dims dims 0).d.mt = hOps hm (ceilDiv n nb) (ceilDiv (min m n) nb) := by
    rw [al_mt hnb, al_nt hnb, d0]
  have hin : ∀ o ∈ hOps hm (ceilDiv n nb) (ceilDiv (min m n) nb), o.inB (tVw nb dims dims 0).d.nt (tVw nb dims dims 0).d.mt := by
    intro o ho
    rw [al_mt hnb, al_nt hnb]
    exact ops_inB (hOps_ok hok hnt hmt') o ho
  have hin' : ∀ o ∈ hOps hm (ceilDiv n nb) (ceilDiv (min m n) nb), o.inB (ceilDiv n nb) (ceilDiv m nb) := by
    rw [Nat.min_comm, ceilDiv_min hnb, hOps_min hok hnt hmt]
    exact ops_inB (hOps_ok hok hnt hmt)
  have hTv := lqT_valid (hm := hm) (ib := ib) (m := m) (n := n) (a := (min m n, n)) (c := (cm, cn)) (lda := lda) (ldc := ldc)
    hnb hin'
  have vA : TilesV (evalid (qrEnv hm ib nb m n (min m n, n) lda (cm, cn) ldc)) nb (tVw nb dims dims 0) :=
    tiles_vw hnb ⟨le_rfl, le_rfl⟩
  have vC : TilesV (evalid (qrEnv hm ib nb m n (min m n, n) lda (cm, cn) ldc)) nb (tVw nb dims dims 2) :=
    tiles_vw hnb ⟨le_rfl, le_rfl⟩
  have hn0 : ¬ ((tVw nb dims dims 2).d.m = 0 ∨ (tVw nb dims dims 2).d.n = 0 ∨ (tVw nb dims dims 0).d.m = 0 ∨
      (tVw nb dims dims 0).d.n = 0) := by
    show ¬ (cm = 0 ∨ cn = 0 ∨ min m n = 0 ∨ n = 0)
    omega
  cases l with
  | true =>
    have hd : cm = n := hd
    rw [ompZunmlq_left hAl hCl (by exact hd) hn0, hops]
    refine ⟨Good.flatMap fun o ho => ?_, Writes.flatMap fun o _ => lupdL_writes o⟩
    have ho' : o ∈ hOps hm (ceilDiv n nb) (ceilDiv (min m n) nb) := by
      cases t
      · exact ho
      · exact List.mem_reverse.mp ho
    exact lupdL_good hAl hCl hd vA vC (fun n hn => List.mem_range.mp hn) (hin o ho') (hTv o ho')
  | false =>
    have hd : cn = n := hd
    rw [ompZunmlq_right hAl hCl (by exact hd) hn0, hops]
    refine ⟨Good.flatMap fun o ho => ?_, Writes.flatMap fun o _ => lupdR_writes o⟩
    have ho' : o ∈ hOps hm (ceilDiv n nb) (ceilDiv (min m n) nb) := by
      cases t
      · exact List.mem_reverse.mp ho
      · exact ho
    exact lupdR_good hAl hCl hd vA vC (fun n hn => List.mem_range.mp hn) (hin o ho') (hTv o ho')

/-- `C` is overwritten by `op(Q) C` or `C op(Q)`. -/
theorem unmlq_holds {hm : HMode} (hok : HMode.ok hm) {ib nb m n lda : Nat} (hnb : 0 < nb) (hib : 0 < ib) (h0 : min m n ≠ 0)
    (hlda : m ≤ lda) {mem' mem1 : Buf × Nat → α} {Q : Matrix (Fin n) (Fin n) α} (hQ : LHolds hm ib nb m n lda mem' Q)
    (hA1 : ∀ r c, r < min m n → c < n → mem1 (.usr 0, r + c * lda) = mem' (.usr 0, r + c * lda))
    (hT1 : ∀ x, mem1 (.usr 1, x) = mem' (.usr 1, x)) {l t : Bool} {cm cn ldc : Nat} (hldc : cm ≤ ldc)
    (hd : (if l then cm else cn) = n) {mem2 : Buf × Nat → α}
    (h : Exec (qrEnv hm ib nb m n (min m n, n) lda (cm, cn) ldc) (zunmlq hm ib nb m n l t cm cn (min m n)) mem1 mem2) :
    (∀ r c, r < cm → c < cn → mem2 (.usr 2, r + c * ldc) =
      if l then lmul (qop t Q) (fun i j => mem1 (.usr 2, i + j * ldc)) r c
      else rmul (fun i j => mem1 (.usr 2, i + j * ldc)) (qop t Q) r c) ∧
    (∀ k x, k ≠ 2 ∨ (∀ i j, i < cm → j < cn → x ≠ i + j * ldc) → mem2 (.usr k, x) = mem1 (.usr k, x)) := by
  unfold zunmlq at h
  dsimp only at h
  rw [hd] at h
  by_cases hc0 : cm = 0 ∨ cn = 0
  · rw [if_pos (by omega)] at h
    rw [Exec.nil h]
    exact ⟨fun r c hr hc => by omega, fun _ _ _ => rfl⟩
  rw [if_neg (by omega)] at h
  obtain ⟨hg, hw⟩ := unmlq_gw (α := α) hok (ib := ib) (lda := lda) (ldc := ldc) hnb h0 (t := t) hd hc0
  set dims := qrDims (min m n, n) (cm, cn) with hdims
  have d0 : dims 0 = (min m n, n) := rfl
  have hmt := ceilDiv_pos (m := m) hnb (by omega)
  have hnt := ceilDiv_pos (m := n) hnb (by omega)
  have hmt' := ceilDiv_pos (m := min m n) hnb (by omega)
  have hAl : (tVw nb dims dims 0).Al nb := al_tVw hnb 0
  have hCl : (tVw nb dims dims 2).Al nb := al_tVw hnb 2
  have hops : hOps hm (tVw nb dims dims 0).d.nt (tVw nb dims dims 0).d.mt = hOps hm (ceilDiv n nb) (ceilDiv (min m n) nb) := by
    rw [al_mt hnb, al_nt hnb, d0]
  have hin : ∀ o ∈ hOps hm (ceilDiv n nb) (ceilDiv (min m n) nb), o.inB (tVw nb dims dims 0).d.nt (tVw nb dims dims 0).d.mt := by
    intro o ho
    rw [al_mt hnb, al_nt hnb]
    exact ops_inB (hOps_ok hok hnt hmt') o ho
  have hin' : ∀ o ∈ hOps hm (ceilDiv n nb) (ceilDiv (min m n) nb), o.inB (ceilDiv n nb) (ceilDiv m nb) := by
    rw [Nat.min_comm, ceilDiv_min hnb, hOps_min hok hnt hmt]
    exact ops_inB (hOps_ok hok hnt hmt)
  have hn0 : ¬ ((tVw nb dims dims 2).d.m = 0 ∨ (tVw nb dims dims 2).d.n = 0 ∨ (tVw nb dims dims 0).d.m = 0 ∨
      (tVw nb dims dims 0).d.n = 0) := by
    show ¬ (cm = 0 ∨ cn = 0 ∨ min m n = 0 ∨ n = 0)
    omega
  have hld : ∀ k, k ≠ 1 → (dims k).1 ≤ qrLd lda ldc k := qrLd_ok (show min m n ≤ lda by omega) hldc
  have hio : ∀ k, k ∈ [0, 2] → k ≠ 1 ∧ (dims k).1 ≤ (dims k).1 ∧ (dims k).2 ≤ (dims k).2 := fun k hk => by
    simp only [List.mem_cons, List.not_mem_nil, or_false] at hk
    exact ⟨by omega, le_rfl, le_rfl⟩
  have hio2 : ∀ k, k ∈ [2] → k ≠ 1 ∧ (dims k).1 ≤ (dims k).1 ∧ (dims k).2 ≤ (dims k).2 :=
    fun k hk => hio k (by simp only [List.mem_cons, List.not_mem_nil, or_false] at hk; simp [hk])
  obtain ⟨s1, e1, e2, e3, e4, e5, e6⟩ := drvT_correct hnb hib hld (by decide) (by decide) hio hio2 hg
    (hw.mono fun x hx => Or.inl ⟨2, hx⟩) h
  have hq := lholds_later hok hnb h0 hQ hA1 hT1 hAl (fun e => by cases e) (s1 := s1)
    (fun r c hr hc => e1 0 (by simp) r c hr hc) e2
  refine ⟨fun r c hr hc => ?_, ?_⟩
  · have e := e3 2 (by simp) r c hr hc
    rw [show qrLd lda ldc 2 = ldc from rfl] at e
    rw [e]
    have hin1 : ∀ i j, i < cm → j < cn → (tVw nb dims dims 2).el s1 i j = mem1 (.usr 2, i + j * ldc) :=
      fun i j hi hj => e1 2 (by simp) i j hi hj
    cases l with
    | true =>
      have hd : cm = n := hd
      rw [ompZunmlq_left hAl hCl (by exact hd) hn0, hops, show (qrT hm ib nb m n).d.mb = ib from rfl,
        unmlq_left (F := lFlip hm ib nb m n) (T' := qrT hm ib nb n m) (off' := hOff hm (qrT hm ib nb n m)) (mm := min m n)
          (na := n) false hAl hCl rfl rfl hd (fun e => by cases e) (fun e => by cases e) (fun e => by cases e) rfl hin
          (lFlip_ok hnb hin') s1 (by omega) hc]
      unfold lqQ at hq
      rw [hq, if_pos rfl]
      exact lmul_congr (by omega) fun l hl => hin1 l c (by omega) hc
    | false =>
      have hd : cn = n := hd
      rw [ompZunmlq_right hAl hCl (by exact hd) hn0, hops, show (qrT hm ib nb m n).d.mb = ib from rfl,
        unmlq_right (F := lFlip hm ib nb m n) (T' := qrT hm ib nb n m) (off' := hOff hm (qrT hm ib nb n m)) (mm := min m n)
          (na := n) false hAl hCl rfl rfl hd (fun e => by cases e) (fun e => by cases e) (fun e => by cases e) rfl hin
          (lFlip_ok hnb hin') s1 hr (by omega)]
      unfold lqQ at hq
      rw [hq, if_neg (by decide)]
      exact rmul_congr (by omega) fun l hl => hin1 r l hr (by omega)
  · intro k x hk
    by_cases hk1 : k = 1
    · subst hk1
      exact drvT_frameT hnb hib hld hio hio2 hg (hw.mono fun x hx => ⟨2, hx⟩) h x
    · by_cases hk2 : k = 2
      · subst hk2
        refine e6 2 x (by decide) ?_
        rcases hk with hk | hk
        · exact absurd rfl hk
        · exact hk
      · exact e5 k (by simp [hk2]) hk1 x

/-- Footprints of the generation. -/
theorem unglq_gw {hm : HMode} (hok : HMode.ok hm) {ib nb m n lda : Nat} (hnb : 0 < nb) (h0 : min m n ≠ 0)
    {qm ldq : Nat} (hk : min m n ≤ qm) :
    Good (evalid (qrEnv hm ib nb m n (qm, n) lda (qm, n) ldq))
      (ompZunglq (α := α) hm (tVw nb (qrDims (qm, n) (qm, n)) (qrDims (min m n, n) (min m n, n)) 0) (qrT hm ib nb m n)
        (tVw nb (qrDims (qm, n) (qm, n)) (qrDims (min m n, n) (min m n, n)) 2)) ∧
    Writes (fun x => x.1 = .til 2)
      (ompZunglq (α := α) hm (tVw nb (qrDims (qm, n) (qm, n)) (qrDims (min m n, n) (min m n, n)) 0) (qrT hm ib nb m n)
        (tVw nb (qrDims (qm, n) (qm, n)) (qrDims (min m n, n) (min m n, n)) 2)) := by
  set dims := qrDims (qm, n) (qm, n) with hdims
  set vw := qrDims (min m n, n) (min m n, n) with hvw
  have d0 : vw 0 = (min m n, n) := rfl
  have hmt := ceilDiv_pos (m := m) hnb (by omega)
  have hnt := ceilDiv_pos (m := n) hnb (by omega)
  have hmt' := ceilDiv_pos (m := min m n) hnb (by omega)
  have hAl : (tVw nb dims vw 0).Al nb := al_tVw hnb 0
  have hCl : (tVw nb dims vw 2).Al nb := al_tVw hnb 2
  have hops : hOps hm (tVw nb dims vw 0).d.nt (tVw nb dims vw 0).d.mt = hOps hm (ceilDiv n nb) (ceilDiv (min m n) nb) := by
    rw [al_mt hnb, al_nt hnb, d0]
  have hin : ∀ o ∈ hOps hm (ceilDiv n nb) (ceilDiv (min m n) nb), o.inB (tVw nb dims vw 0).d.nt (tVw nb dims vw 0).d.mt := by
    intro o ho
    rw [al_mt hnb, al_nt hnb]
    exact ops_inB (hOps_ok hok hnt hmt') o ho
  have hin' : ∀ o ∈ hOps hm (ceilDiv n nb) (ceilDiv (min m n) nb), o.inB (ceilDiv n nb) (ceilDiv m nb) := by
    rw [Nat.min_comm, ceilDiv_min hnb, hOps_min hok hnt hmt]
    exact ops_inB (hOps_ok hok hnt hmt)
  have hTv := lqT_valid (hm := hm) (ib := ib) (m := m) (n := n) (a := (qm, n)) (c := (qm, n)) (lda := lda) (ldc := ldq)
    hnb hin'
  have vA : TilesV (evalid (qrEnv hm ib nb m n (qm, n) lda (qm, n) ldq)) nb (tVw nb dims vw 0) :=
    tiles_vw hnb ⟨hk, le_rfl⟩
  have vC : TilesV (evalid (qrEnv hm ib nb m n (qm, n) lda (qm, n) ldq)) nb (tVw nb dims vw 2) :=
    tiles_vw hnb ⟨hk, le_rfl⟩
  have hn0 : (tVw nb dims vw 2).d.m ≠ 0 := h0
  rw [ompZunglq_eq hAl hCl rfl hn0, hops]
  have hfit : FitsOn (qrEnv hm ib nb m n (qm, n) lda (qm, n) ldq) nb (stOK none) (tVw nb dims vw 2) :=
    FitsOn.mono (fits_tVw hnb ⟨hk, le_rfl⟩) fun _ _ _ => trivial
  refine ⟨Good.append (pzlaset_good hfit) (Good.flatMap fun o ho => ?_),
    (pzlaset_writes hCl).append (Writes.flatMap fun o _ => lupdR_writes o)⟩
  have ho' := List.mem_reverse.mp ho
  exact lupdR_good hAl hCl rfl vA vC (fun n hn => (mem_span.mp hn).2) (hin o ho') (hTv o ho')

/-- The first `k` rows of `Q` are generated; nothing else is written. -/
theorem unglq_holds {hm : HMode} (hok : HMode.ok hm) {ib nb m n lda : Nat} (hnb : 0 < nb) (hib : 0 < ib) (h0 : min m n ≠ 0)
    {mem' mem1 : Buf × Nat → α} {Q : Matrix (Fin n) (Fin n) α} (hQ : LHolds hm ib nb m n lda mem' Q)
    (hA1 : ∀ r c, r < min m n → c < n → mem1 (.usr 0, r + c * lda) = mem' (.usr 0, r + c * lda))
    (hT1 : ∀ x, mem1 (.usr 1, x) = mem' (.usr 1, x)) {qm ldq : Nat} (hlda : qm ≤ lda) (hldq : qm ≤ ldq)
    (hk : min m n ≤ qm) {mem2 : Buf × Nat → α}
    (h : Exec (qrEnv hm ib nb m n (qm, n) lda (qm, n) ldq) (zunglq hm ib nb m n qm n (min m n)) mem1 mem2) :
    (∀ r c (hr : r < min m n) (hc : c < n), mem2 (.usr 2, r + c * ldq) = Q ⟨r, by omega⟩ ⟨c, hc⟩) ∧
    (∀ k x, k ≠ 2 ∨ (∀ i j, i < min m n → j < n → x ≠ i + j * ldq) → mem2 (.usr k, x) = mem1 (.usr k, x)) := by
  unfold zunglq at h
  dsimp only at h
  rw [if_neg (by omega)] at h
  obtain ⟨hg, hw⟩ := unglq_gw (α := α) hok (ib := ib) (lda := lda) (ldq := ldq) hnb h0 hk
  set dims := qrDims (qm, n) (qm, n) with hdims
  set vw := qrDims (min m n, n) (min m n, n) with hvw
  have d0 : vw 0 = (min m n, n) := rfl
  have hmt := ceilDiv_pos (m := m) hnb (by omega)
  have hnt := ceilDiv_pos (m := n) hnb (by omega)
  have hmt' := ceilDiv_pos (m := min m n) hnb (by omega)
  have hAl : (tVw nb dims vw 0).Al nb := al_tVw hnb 0
  have hCl : (tVw nb dims vw 2).Al nb := al_tVw hnb 2
  have hok' := hOps_ok hok hnt hmt'
  have hops : hOps hm (tVw nb dims vw 0).d.nt (tVw nb dims vw 0).d.mt = hOps hm (ceilDiv n nb) (ceilDiv (min m n) nb) := by
    rw [al_mt hnb, al_nt hnb, d0]
  have hin' : ∀ o ∈ hOps hm (ceilDiv n nb) (ceilDiv (min m n) nb), o.inB (ceilDiv n nb) (ceilDiv m nb) := by
    rw [Nat.min_comm, ceilDiv_min hnb, hOps_min hok hnt hmt]
    exact ops_inB (hOps_ok hok hnt hmt)
  have hn0 : (tVw nb dims vw 2).d.m ≠ 0 := h0
  have hld : ∀ k, k ≠ 1 → (dims k).1 ≤ qrLd lda ldq k := qrLd_ok hlda hldq
  have hio : ∀ k, k ∈ [0, 2] → k ≠ 1 ∧ (vw k).1 ≤ (dims k).1 ∧ (vw k).2 ≤ (dims k).2 := fun k hk' => by
    simp only [List.mem_cons, List.not_mem_nil, or_false] at hk'
    rcases hk' with rfl | rfl
    · exact ⟨by omega, hk, le_rfl⟩
    · exact ⟨by omega, hk, le_rfl⟩
  have hio2 : ∀ k, k ∈ [2] → k ≠ 1 ∧ (vw k).1 ≤ (dims k).1 ∧ (vw k).2 ≤ (dims k).2 :=
    fun k hk => hio k (by simp only [List.mem_cons, List.not_mem_nil, or_false] at hk; simp [hk])
  obtain ⟨s1, e1, e2, e3, e4, e5, e6⟩ := drvT_correct hnb hib hld (by decide) (by decide) hio hio2 hg
    (hw.mono fun x hx => Or.inl ⟨2, hx⟩) h
  have hls : Writes (fun x => x.1 = .til 2) (pzlaset (α := α) none 0 1 (tVw nb dims vw 2)) := pzlaset_writes hCl
  have hq := lholds_later hok hnb h0 hQ hA1 hT1 hAl (fun e => by cases e)
    (s1 := texec (pzlaset none 0 1 (tVw nb dims vw 2)) s1)
    (a := (qm, n)) (c := (qm, n)) (lda' := lda) (ldc' := ldq)
    (fun r c hr hc => by
      have e : mem1 (.usr 0, r + c * lda) = (tVw nb dims vw 0).el s1 r c := (e1 0 (by simp) r c hr hc).symm
      rw [e]
      unfold TMat.el
      rw [hls.frame s1 (x := (tVw nb dims vw 0).at' _ _) (fun e => by cases e)])
    (fun t i j ht => by
      have e : mem1 (eloc (qrEnv hm ib nb m n (qm, n) lda (qm, n) ldq) t i j) = s1 t i j := (e2 t i j ht).symm
      rw [e, hls.frame s1 (x := t) (fun e => by rw [ht] at e; cases e)])
  refine ⟨fun r c hr hc => ?_, ?_⟩
  · have e := e3 2 (by simp) r c hr hc
    rw [show qrLd lda ldq 2 = ldq from rfl] at e
    rw [e, ompZunglq_eq hAl hCl rfl hn0, hops, texec_append]
    have ho : OpsOK (tVw nb dims vw 0).d.nt (tVw nb dims vw 0).d.mt (hOps hm (ceilDiv n nb) (ceilDiv (min m n) nb)) := by
      rw [al_mt hnb, al_nt hnb]
      exact hok'
    have := unglq_el (F := lFlip hm ib nb m n) (T' := qrT hm ib nb n m) (off' := hOff hm (qrT hm ib nb n m)) (mm := min m n)
      (na := n) (ib := ib) (off := hOff hm (qrT hm ib nb m n)) true hAl hCl rfl rfl rfl (fun e => by cases e)
      (T := qrT hm ib nb m n) (fun e => by cases e) (fun e => by cases e) rfl ho (lFlip_ok hnb hin')
      (texec (pzlaset none 0 1 (tVw nb dims vw 2)) s1)
      (fun r c hr hc => by
        rw [pzlaset_el hCl _ hr (by exact hc), if_pos (show stOK none r c from trivial)]
        rfl) (show r < (tVw nb dims vw 2).d.m from hr) hc
    unfold lqQ at hq
    rw [show (qrT hm ib nb m n).d.mb = ib from rfl, this, hq]
    unfold rmul
    rw [dif_pos hc, Finset.sum_eq_single (⟨r, by omega⟩ : Fin n)]
    · simp [idE]
    · intro l _ hl
      have : r ≠ (l : Nat) := fun e => hl (Fin.ext e.symm)
      simp [idE, this]
    · intro h; exact absurd (mem_univ _) h
  · intro k x hk
    by_cases hk1 : k = 1
    · subst hk1
      exact drvT_frameT hnb hib hld hio hio2 hg (hw.mono fun x hx => ⟨2, hx⟩) h x
    · by_cases hk2 : k = 2
      · subst hk2
        refine e6 2 x (by decide) ?_
        rcases hk with hk | hk
        · exact absurd rfl hk
        · exact hk
      · exact e5 k (by simp [hk2]) hk1 x

/-- The factorization. -/
theorem gelqf_holds {K : QrKern α} (hK : QrSpec K) {hm : HMode} (hok : HMode.ok hm) {ib nb m n lda : Nat} (hnb : 0 < nb)
    (hib : 0 < ib) (h0 : min m n ≠ 0) (hlda : m ≤ lda) {mem mem' : Buf × Nat → α}
    (h : Exec (qrEnv hm ib nb m n (m, n) lda (0, 0) 0) (zgelqf K hm ib nb m n) mem mem') :
    (TClean hm mem → ∃ Q : Matrix (Fin n) (Fin n) α, Q ∈ unitaryGroup (Fin n) α ∧ LHolds hm ib nb m n lda mem' Q ∧
      (∀ r c, r < m → c < n →
        rmul (tril fun i j => mem' (.usr 0, i + j * lda)) Q r c = mem (.usr 0, r + c * lda))) ∧
      (∀ k x, k ≠ 1 → k ≠ 0 ∨ (∀ i j, i < m → j < n → x ≠ i + j * lda) → mem' (.usr k, x) = mem (.usr k, x)) := by
  unfold zgelqf at h
  rw [if_neg h0] at h
  set dims := qrDims (m, n) (0, 0) with hdims
  have d0 : dims 0 = (m, n) := rfl
  have hmt := ceilDiv_pos (m := m) hnb (by omega)
  have hnt := ceilDiv_pos (m := n) hnb (by omega)
  have hAl : (tVw nb dims dims 0).Al nb := al_tVw hnb 0
  have hops : hOps hm (tVw nb dims dims 0).d.nt (tVw nb dims dims 0).d.mt = hOps hm (ceilDiv n nb) (ceilDiv m nb) := by
    rw [al_mt hnb, al_nt hnb, d0]
  have ho : OpsOK (tVw nb dims dims 0).d.nt (tVw nb dims dims 0).d.mt (hOps hm (ceilDiv n nb) (ceilDiv m nb)) := by
    rw [al_mt hnb, al_nt hnb]
    exact hOps_ok hok hnt hmt
  have hin := ops_inB (hOps_ok hok hnt hmt)
  have hTv := lqT_valid (hm := hm) (ib := ib) (m := m) (n := n) (a := (m, n)) (c := (0, 0)) (lda := lda) (ldc := 0) hnb hin
  have vA : TilesV (evalid (qrEnv hm ib nb m n (m, n) lda (0, 0) 0)) nb (tVw nb dims dims 0) :=
    tiles_vw hnb ⟨le_rfl, le_rfl⟩
  have hld : ∀ k, k ≠ 1 → (dims k).1 ≤ qrLd lda 0 k := qrLd_ok hlda le_rfl
  have hio : ∀ k, k ∈ [0] → k ≠ 1 ∧ (dims k).1 ≤ (dims k).1 ∧ (dims k).2 ≤ (dims k).2 := fun k hk => by
    simp only [List.mem_cons, List.not_mem_nil, or_false] at hk
    exact ⟨by omega, le_rfl, le_rfl⟩
  rw [ompZgelqf_eq hAl h0, hops, show (qrT hm ib nb m n).d.mb = ib from rfl] at h
  have hTA : (qrT hm ib nb m n).id ≠ (tVw nb dims dims 0).id := fun e => by cases e
  obtain ⟨s, e1, e2, e3, e4, e5, e6⟩ := drvT_correct hnb hib hld (by decide) (by decide) hio hio
    (lfac_good hK hAl hTA vA (ops_inB ho) hTv)
    (lfac_writes.mono fun x hx => hx.elim (fun h => Or.inl ⟨0, h⟩) Or.inr) h
  refine ⟨fun hc => ?_, ?_⟩
  have hz : ∀ o ∈ hOps hm (ceilDiv n nb) (ceilDiv m nb), isTT o = true → ∀ i j, i < ib → j < nb →
      s (lTt (hOff hm (qrT hm ib nb m n)) (qrT hm ib nb m n) o) i j = 0 := by
    intro o ho htt i j _ _
    rcases hc with hc | hc
    · subst hc
      rw [flatOps_tt ho] at htt
      cases htt
    · rw [e2 _ i j (lTt_fst ..)]
      have e : ∀ x : Buf × Nat, x.1 = .usr 1 → mem x = 0 := fun x hx => by
        obtain ⟨y, z⟩ := x
        cases hx
        exact hc _
      exact e _ (lTt_fst ..)
  obtain ⟨f1, f2⟩ := lfac_ok (F := lFlip hm ib nb m n) (T' := qrT hm ib nb n m) (off' := hOff hm (qrT hm ib nb n m))
    (T := qrT hm ib nb m n) (off := hOff hm (qrT hm ib nb m n)) hK hib (mm := m) (na := n) hAl rfl rfl (fun e => by cases e) ho
    (qrT_nodup hok hnb hnt hmt rfl) rfl (lFlip_ok hnb hin) s hz
  refine ⟨_, f1, ⟨tVw nb dims dims 0, _, hAl, (fun e => by cases e), rfl,
    fun r c hr hc => (e3 0 (by simp) r c hr hc).symm, ?_⟩, ?_⟩
  · intro o ho' i j hi hj
    rw [← e4 _ i j (lTt_fst ..) (hTv o ho' i j hi hj)]
    exact congrArg mem' (eloc_T (lTt_fst ..) i j)
  · intro r c hr hc
    rw [show mem (.usr 0, r + c * lda) = (tVw nb dims dims 0).el s r c from (e1 0 (by simp) r c hr hc).symm, ← f2 r c hr hc]
    unfold rmul
    rw [dif_pos hc, dif_pos hc]
    refine sum_congr rfl fun l _ => ?_
    congr 1
    unfold tril
    dsimp only
    split_ifs
    · exact e3 0 (by simp) r l hr l.2
    · rfl
  · intro k x hk1 hk
    by_cases hk0 : k = 0
    · subst hk0
      refine e6 0 x hk1 ?_
      rcases hk with hk | hk
      · exact absurd rfl hk
      · exact hk
    · exact e5 k (by simp [hk0]) hk1 x

/-- An execution of the factorization exists. -/
theorem gelqf_exists {K : QrKern α} (hK : QrSpec K) {hm : HMode} (hok : HMode.ok hm) {ib nb m n lda : Nat} (hnb : 0 < nb)
    (hib : 0 < ib) (hlda : m ≤ lda) (mem : Buf × Nat → α) :
    ∃ mem', Exec (qrEnv hm ib nb m n (m, n) lda (0, 0) 0) (zgelqf K hm ib nb m n) mem mem' := by
  by_cases h0 : min m n = 0
  · unfold zgelqf
    rw [if_pos h0]
    exact Exec.exists (drvEnvT_wf hnb hib (qrLd_ok hlda le_rfl)) (by simp) (by simp) mem
  unfold zgelqf
  rw [if_neg h0]
  set dims := qrDims (m, n) (0, 0) with hdims
  have d0 : dims 0 = (m, n) := rfl
  have hmt := ceilDiv_pos (m := m) hnb (by omega)
  have hnt := ceilDiv_pos (m := n) hnb (by omega)
  have hAl : (tVw nb dims dims 0).Al nb := al_tVw hnb 0
  have hops : hOps hm (tVw nb dims dims 0).d.nt (tVw nb dims dims 0).d.mt = hOps hm (ceilDiv n nb) (ceilDiv m nb) := by
    rw [al_mt hnb, al_nt hnb, d0]
  have ho : OpsOK (tVw nb dims dims 0).d.nt (tVw nb dims dims 0).d.mt (hOps hm (ceilDiv n nb) (ceilDiv m nb)) := by
    rw [al_mt hnb, al_nt hnb]
    exact hOps_ok hok hnt hmt
  have hin := ops_inB (hOps_ok hok hnt hmt)
  have hTv := lqT_valid (hm := hm) (ib := ib) (m := m) (n := n) (a := (m, n)) (c := (0, 0)) (lda := lda) (ldc := 0) hnb hin
  have vA : TilesV (evalid (qrEnv hm ib nb m n (m, n) lda (0, 0) 0)) nb (tVw nb dims dims 0) :=
    tiles_vw hnb ⟨le_rfl, le_rfl⟩
  have hio : ∀ k, k ∈ [0] → k ≠ 1 ∧ (dims k).1 ≤ (dims k).1 ∧ (dims k).2 ≤ (dims k).2 := fun k hk => by
    simp only [List.mem_cons, List.not_mem_nil, or_false] at hk
    exact ⟨by omega, le_rfl, le_rfl⟩
  rw [ompZgelqf_eq hAl h0, hops, show (qrT hm ib nb m n).d.mb = ib from rfl]
  have hTA : (qrT hm ib nb m n).id ≠ (tVw nb dims dims 0).id := fun e => by cases e
  exact drvT_exists hnb hib (qrLd_ok hlda le_rfl) hio hio (lfac_good hK hAl hTA vA (ops_inB ho) hTv) mem

/-- An execution of the application exists. -/
theorem unmlq_exists {hm : HMode} (hok : HMode.ok hm) {ib nb m n lda : Nat} (hnb : 0 < nb) (hib : 0 < ib) (h0 : min m n ≠ 0)
    (hlda : m ≤ lda) {l t : Bool} {cm cn ldc : Nat} (hldc : cm ≤ ldc) (hd : (if l then cm else cn) = n)
    (mem1 : Buf × Nat → α) :
    ∃ mem2, Exec (qrEnv hm ib nb m n (min m n, n) lda (cm, cn) ldc) (zunmlq hm ib nb m n l t cm cn (min m n)) mem1 mem2 := by
  have hl : (min m n, n).1 ≤ lda := show min m n ≤ lda by omega
  unfold zunmlq
  dsimp only
  rw [hd]
  by_cases hc0 : cm = 0 ∨ cn = 0
  · rw [if_pos (by omega)]
    exact Exec.exists (drvEnvT_wf hnb hib (qrLd_ok hl hldc)) (by simp) (by simp) mem1
  rw [if_neg (by omega)]
  have hio : ∀ k, k ∈ [0, 2] → k ≠ 1 ∧ (qrDims (min m n, n) (cm, cn) k).1 ≤ (qrDims (min m n, n) (cm, cn) k).1 ∧
      (qrDims (min m n, n) (cm, cn) k).2 ≤ (qrDims (min m n, n) (cm, cn) k).2 := fun k hk => by
    simp only [List.mem_cons, List.not_mem_nil, or_false] at hk
    exact ⟨by omega, le_rfl, le_rfl⟩
  exact drvT_exists hnb hib (qrLd_ok hl hldc) hio
    (fun k hk => hio k (by simp only [List.mem_cons, List.not_mem_nil, or_false] at hk; simp [hk]))
    (unmlq_gw hok hnb h0 hd hc0).1 mem1

/-- An execution of the generation exists. -/
theorem unglq_exists {hm : HMode} (hok : HMode.ok hm) {ib nb m n lda : Nat} (hnb : 0 < nb) (hib : 0 < ib) (h0 : min m n ≠ 0)
    {qm ldq : Nat} (hlda : qm ≤ lda) (hldq : qm ≤ ldq) (hk : min m n ≤ qm) (mem1 : Buf × Nat → α) :
    ∃ mem2, Exec (qrEnv hm ib nb m n (qm, n) lda (qm, n) ldq) (zunglq hm ib nb m n qm n (min m n)) mem1 mem2 := by
  unfold zunglq
  dsimp only
  rw [if_neg (by omega)]
  have hio : ∀ k, k ∈ [0, 2] → k ≠ 1 ∧ (qrDims (min m n, n) (min m n, n) k).1 ≤ (qrDims (qm, n) (qm, n) k).1 ∧
      (qrDims (min m n, n) (min m n, n) k).2 ≤ (qrDims (qm, n) (qm, n) k).2 := fun k hk' => by
    simp only [List.mem_cons, List.not_mem_nil, or_false] at hk'
    rcases hk' with rfl | rfl
    · exact ⟨by omega, hk, le_rfl⟩
    · exact ⟨by omega, hk, le_rfl⟩
  exact drvT_exists hnb hib (qrLd_ok hlda hldq) hio
    (fun k hk => hio k (by simp only [List.mem_cons, List.not_mem_nil, or_false] at hk; simp [hk]))
    (unglq_gw hok hnb h0 hk).1 mem1

/-- Without reflectors nothing changes. -/
theorem unglq_frame0 {hm : HMode} {ib nb m n lda : Nat} (hnb : 0 < nb) (hib : 0 < ib) (h0 : min m n = 0)
    {mem1 mem2 : Buf × Nat → α} {qm ldq : Nat} (hlda : qm ≤ lda) (hldq : qm ≤ ldq)
    (h : Exec (qrEnv hm ib nb m n (qm, n) lda (qm, n) ldq) (zunglq hm ib nb m n qm n (min m n)) mem1 mem2)
    (k x : Nat) : mem2 (.usr k, x) = mem1 (.usr k, x) := by
  unfold zunglq at h
  dsimp only at h
  by_cases hq : qm = 0
  · rw [if_pos hq] at h
    rw [Exec.nil h]
  rw [if_neg hq] at h
  set dims := qrDims (qm, n) (qm, n) with hdims
  set vw := qrDims (min m n, n) (min m n, n) with hvw
  have hP : ompZunglq (α := α) hm (tVw nb dims vw 0) (qrT hm ib nb m n) (tVw nb dims vw 2) = [] := by
    unfold ompZunglq
    rw [if_pos (show (tVw nb dims vw 2).d.m = 0 from h0)]
  rw [hP] at h
  have hio : ∀ k, k ∈ [0, 2] → k ≠ 1 ∧ (vw k).1 ≤ (dims k).1 ∧ (vw k).2 ≤ (dims k).2 := fun k hk' => by
    simp only [List.mem_cons, List.not_mem_nil, or_false] at hk'
    rcases hk' with rfl | rfl
    · exact ⟨by omega, show min m n ≤ qm by omega, le_rfl⟩
    · exact ⟨by omega, show min m n ≤ qm by omega, le_rfl⟩
  have hio2 : ∀ k, k ∈ [2] → k ≠ 1 ∧ (vw k).1 ≤ (dims k).1 ∧ (vw k).2 ≤ (dims k).2 :=
    fun k hk => hio k (by simp only [List.mem_cons, List.not_mem_nil, or_false] at hk; simp [hk])
  have hg : Good (evalid (qrEnv hm ib nb m n (qm, n) lda (qm, n) ldq)) ([] : List (TTask (Buf × Nat × Nat) α)) :=
    Good.nil
  by_cases hk1 : k = 1
  · subst hk1
    exact drvT_frameT hnb hib (qrLd_ok hlda hldq) hio hio2 hg (by intro t ht; cases ht) h x
  obtain ⟨s1, e1, e2, e3, e4, e5, e6⟩ := drvT_correct hnb hib (qrLd_ok hlda hldq) (by decide) (by decide) hio hio2 hg
    (by intro t ht; cases ht) h
  by_cases hk2 : k = 2
  · subst hk2
    refine e6 2 x (by decide) fun i j hi _ => ?_
    have : i < min m n := hi
    omega
  · exact e5 k (by simp [hk2]) hk1 x

/-! ### C36 -/

/-- What the later calls do with the `Q` of a factorization: `plasma_zunmlq` from the left and from the right and
`plasma_zunglq`, in every memory `mem1` with the same reflectors and the same `T` as the memory `mem'` after the
factorization. -/
structure AppliesLQ (hm : HMode) (ib nb m n lda : Nat) (mem' : Buf × Nat → α) (Q : Matrix (Fin n) (Fin n) α) : Prop where
  left : ∀ (mem1 mem2 : Buf × Nat → α) (t : Bool) (cn ldc : Nat), n ≤ ldc →
    (∀ r c, r < min m n → c < n → mem1 (.usr 0, r + c * lda) = mem' (.usr 0, r + c * lda)) →
    (∀ x, mem1 (.usr 1, x) = mem' (.usr 1, x)) →
    Exec (qrEnv hm ib nb m n (min m n, n) lda (n, cn) ldc) (zunmlq hm ib nb m n true t n cn (min m n)) mem1 mem2 →
    uArr mem2 2 ldc n cn = (if t then Qᴴ else Q) * uArr mem1 2 ldc n cn ∧
    (∀ k x, k ≠ 2 ∨ (∀ i j, i < n → j < cn → x ≠ i + j * ldc) → mem2 (.usr k, x) = mem1 (.usr k, x))
  right : ∀ (mem1 mem2 : Buf × Nat → α) (t : Bool) (cm ldc : Nat), cm ≤ ldc →
    (∀ r c, r < min m n → c < n → mem1 (.usr 0, r + c * lda) = mem' (.usr 0, r + c * lda)) →
    (∀ x, mem1 (.usr 1, x) = mem' (.usr 1, x)) →
    Exec (qrEnv hm ib nb m n (min m n, n) lda (cm, n) ldc) (zunmlq hm ib nb m n false t cm n (min m n)) mem1 mem2 →
    uArr mem2 2 ldc cm n = uArr mem1 2 ldc cm n * (if t then Qᴴ else Q) ∧
    (∀ k x, k ≠ 2 ∨ (∀ i j, i < cm → j < n → x ≠ i + j * ldc) → mem2 (.usr k, x) = mem1 (.usr k, x))
  gen : ∀ (mem1 mem2 : Buf × Nat → α) (qm ldq : Nat), qm ≤ lda → qm ≤ ldq → min m n ≤ qm →
    (∀ r c, r < min m n → c < n → mem1 (.usr 0, r + c * lda) = mem' (.usr 0, r + c * lda)) →
    (∀ x, mem1 (.usr 1, x) = mem' (.usr 1, x)) →
    Exec (qrEnv hm ib nb m n (qm, n) lda (qm, n) ldq) (zunglq hm ib nb m n qm n (min m n)) mem1 mem2 →
    uArr mem2 2 ldq (min m n) n = Q.submatrix (Fin.castLE (Nat.min_le_right m n)) id ∧
    (∀ k x, k ≠ 2 ∨ (∀ i j, i < min m n → j < n → x ≠ i + j * ldq) → mem2 (.usr k, x) = mem1 (.usr k, x))

theorem applies_of_lholds {hm : HMode} (hok : HMode.ok hm) {ib nb m n lda : Nat} (hnb : 0 < nb) (hib : 0 < ib)
    (h0 : min m n ≠ 0) (hlda : m ≤ lda) {mem' : Buf × Nat → α} {Q : Matrix (Fin n) (Fin n) α}
    (hQ : LHolds hm ib nb m n lda mem' Q) : AppliesLQ hm ib nb m n lda mem' Q where
  left mem1 mem2 t cn ldc hl hA hT h := by
    obtain ⟨e1, e2⟩ := unmlq_holds hok hnb hib h0 hlda hQ hA hT hl (l := true) rfl h
    refine ⟨Matrix.ext fun r c => ?_, e2⟩
    rw [lmul_mul (Y := uArr mem1 2 ldc _ _) (X := fun i j => mem1 (.usr 2, i + j * ldc)) (fun _ _ => rfl)]
    exact (e1 r c r.2 c.2).trans (if_pos rfl)
  right mem1 mem2 t cm ldc hl hA hT h := by
    obtain ⟨e1, e2⟩ := unmlq_holds hok hnb hib h0 hlda hQ hA hT hl (l := false) rfl h
    refine ⟨Matrix.ext fun r c => ?_, e2⟩
    rw [rmul_mul (Y := uArr mem1 2 ldc _ _) (X := fun i j => mem1 (.usr 2, i + j * ldc)) (fun _ _ => rfl)]
    exact (e1 r c r.2 c.2).trans (if_neg (by decide))
  gen mem1 mem2 qm ldq hl hl' hk hA hT h := by
    obtain ⟨e1, e2⟩ := unglq_holds hok hnb hib h0 hQ hA hT hl hl' hk h
    exact ⟨Matrix.ext fun r c => e1 r c r.2 c.2, e2⟩

end

section
variable {𝕜 : Type v} [RCLike 𝕜]

/-- Factorization and later calls. -/
theorem gelqf_all {hm : HMode} (hok : HMode.ok hm) {ib nb m n lda : Nat} (hnb : 0 < nb) (hib : 0 < ib) (hlda : m ≤ lda)
    {mem mem' : Buf × Nat → 𝕜}
    (h : Exec (qrEnv hm ib nb m n (m, n) lda (0, 0) 0) (zgelqf llkern hm ib nb m n) mem mem') :
    (TClean hm mem → ∃ Q : Matrix (Fin n) (Fin n) 𝕜, Q ∈ unitaryGroup (Fin n) 𝕜 ∧
      uArrL mem' 0 lda m n * Q = uArr mem 0 lda m n ∧ AppliesLQ hm ib nb m n lda mem' Q) ∧
      (∀ k x, k ≠ 1 → k ≠ 0 ∨ (∀ i j, i < m → j < n → x ≠ i + j * lda) → mem' (.usr k, x) = mem (.usr k, x)) := by
  by_cases h0 : min m n = 0
  · have hmn : m = 0 ∨ n = 0 := by omega
    unfold zgelqf at h
    rw [if_pos h0] at h
    have e := Exec.nil h
    subst e
    have nl : ∀ mem1 mem2 : Buf × Nat → 𝕜, ∀ l t cm cn a c ldc, Exec (qrEnv hm ib nb m n a lda c ldc)
        (zunmlq hm ib nb m n l t cm cn (min m n)) mem1 mem2 → mem2 = mem1 := by
      intro mem1 mem2 l t cm cn a c ldc h
      unfold zunmlq at h
      dsimp only at h
      rw [if_pos (by omega)] at h
      exact Exec.nil h
    refine ⟨fun _ => ⟨1, Submonoid.one_mem _, Matrix.ext fun r c => ?_, ⟨?_, ?_, ?_⟩⟩, fun _ _ _ _ => rfl⟩
    · exfalso
      have := r.2
      have := c.2
      omega
    · intro mem1 mem2 t cn ldc _ _ _ h
      have e := nl _ _ _ _ _ _ _ _ _ h
      subst e
      exact ⟨by cases t <;> simp, fun _ _ _ => rfl⟩
    · intro mem1 mem2 t cn ldc _ _ _ h
      have e := nl _ _ _ _ _ _ _ _ _ h
      subst e
      exact ⟨by cases t <;> simp, fun _ _ _ => rfl⟩
    · intro mem1 mem2 qm ldq hl hl' _ _ _ h
      refine ⟨Matrix.ext fun r c => by have := r.2; omega, fun k x _ => ?_⟩
      exact unglq_frame0 hnb hib h0 hl hl' h k x
  · obtain ⟨h1, h4⟩ := gelqf_holds llkern_spec hok hnb hib h0 hlda h
    refine ⟨fun hc => ?_, h4⟩
    obtain ⟨Q, h1, h2, h3⟩ := h1 hc
    refine ⟨Q, h1, Matrix.ext fun r c => ?_, applies_of_lholds hok hnb hib h0 hlda h2⟩
    rw [rmul_mul (Y := uArrL mem' 0 lda m n) (X := tril fun i j => mem' (.usr 0, i + j * lda)) (fun _ _ => rfl)]
    exact h3 r c r.2 c.2

/-- **C36**, factorization, part.  After `plasma_zgelqf`, in flat mode and in tree mode with any number of threads, there
is a unitary `Q` with `L Q = A`, where `L` is the lower triangle (trapezoid) of the result and `A` the matrix before the
call.

Missing: in tree mode the array of `T` has to be zero before the call, which nothing in the library sees to; see
`C61_geqrf_stale` for what happens if it is not (in the QR factorization). -/
theorem C36_gelqf_partial {hm : HMode} (hok : HMode.ok hm) {ib nb m n lda : Nat} (hnb : 0 < nb) (hib : 0 < ib) (hlda : m ≤ lda)
    {mem mem' : Buf × Nat → 𝕜} (hc : TClean hm mem)
    (h : Exec (qrEnv hm ib nb m n (m, n) lda (0, 0) 0) (zgelqf llkern hm ib nb m n) mem mem') :
    ∃ Q : Matrix (Fin n) (Fin n) 𝕜, Q ∈ unitaryGroup (Fin n) 𝕜 ∧ uArrL mem' 0 lda m n * Q = uArr mem 0 lda m n := by
  obtain ⟨Q, h1, h2, -⟩ := (gelqf_all hok hnb hib hlda h).1 hc
  exact ⟨Q, h1, h2⟩

/-- **C36**, factorization, part: in flat mode whatever `T` holds before the call. -/
theorem C36_gelqf_flat {ib nb m n lda : Nat} (hnb : 0 < nb) (hib : 0 < ib) (hlda : m ≤ lda) {mem mem' : Buf × Nat → 𝕜}
    (h : Exec (qrEnv none ib nb m n (m, n) lda (0, 0) 0) (zgelqf llkern none ib nb m n) mem mem') :
    ∃ Q : Matrix (Fin n) (Fin n) 𝕜, Q ∈ unitaryGroup (Fin n) 𝕜 ∧ uArrL mem' 0 lda m n * Q = uArr mem 0 lda m n :=
  C36_gelqf_partial (by intro c h; cases h) hnb hib hlda (Or.inl rfl) h

/-- **C36**, part: whatever `T` holds before the call, nothing outside the matrix and `T` changes. -/
theorem C36_frame {hm : HMode} (hok : HMode.ok hm) {ib nb m n lda : Nat} (hnb : 0 < nb) (hib : 0 < ib) (hlda : m ≤ lda)
    {mem mem' : Buf × Nat → 𝕜}
    (h : Exec (qrEnv hm ib nb m n (m, n) lda (0, 0) 0) (zgelqf llkern hm ib nb m n) mem mem') :
    ∀ k x, k ≠ 1 → k ≠ 0 ∨ (∀ i j, i < m → j < n → x ≠ i + j * lda) → mem' (.usr k, x) = mem (.usr k, x) :=
  (gelqf_all hok hnb hib hlda h).2

/-- Executions exist, from a memory in which `T` is zero and from any other. -/
example (mem : Buf × Nat → ℂ) :
    ∃ mem', Exec (qrEnv (some 4) 3 5 7 12 (7, 12) 8 (0, 0) 0) (zgelqf llkern (some 4) 3 5 7 12) mem mem' :=
  gelqf_exists llkern_spec (by intro c h; cases h; omega) (by omega) (by omega) (by omega) mem

/-- **C36**, part.  There is one unitary `Q` with `L Q = A` such that all later calls in the same mode (same number of
threads) with the reflectors and `T` of the factorization use exactly this `Q`: `plasma_zunmlq` multiplies `C` by `Q` or
`Q^H` from the side asked for, `plasma_zunglq` stores the leading `min(m, n)` rows of `Q`; nothing else changes.

Missing: `plasma_zunglq` with more rows than reflectors, see `C36_unglq_refuted`; tree mode with a `T` that is not zero
before the factorization. -/
theorem C36_apply_partial {hm : HMode} (hok : HMode.ok hm) {ib nb m n lda : Nat} (hnb : 0 < nb) (hib : 0 < ib)
    (hlda : m ≤ lda) {mem mem' : Buf × Nat → 𝕜} (hc : TClean hm mem)
    (h : Exec (qrEnv hm ib nb m n (m, n) lda (0, 0) 0) (zgelqf llkern hm ib nb m n) mem mem') :
    ∃ Q : Matrix (Fin n) (Fin n) 𝕜, Q ∈ unitaryGroup (Fin n) 𝕜 ∧ uArrL mem' 0 lda m n * Q = uArr mem 0 lda m n ∧
      AppliesLQ hm ib nb m n lda mem' Q := by
  obtain ⟨Q, h1, h2, h3⟩ := (gelqf_all hok hnb hib hlda h).1 hc
  exact ⟨Q, h1, h2, h3⟩

/-- **C36**, part: applying `Q` and then `Q^H` (or the other way round) from the left restores `C`.  Missing as in `C36_apply_partial`. -/
theorem C36_restore_left_partial {hm : HMode} (hok : HMode.ok hm) {ib nb m n lda : Nat} (hnb : 0 < nb) (hib : 0 < ib)
    (hlda : m ≤ lda) {mem mem' mem1 mem2 mem3 : Buf × Nat → 𝕜} (hc : TClean hm mem)
    (h : Exec (qrEnv hm ib nb m n (m, n) lda (0, 0) 0) (zgelqf llkern hm ib nb m n) mem mem')
    (hA : ∀ r c, r < min m n → c < n → mem1 (.usr 0, r + c * lda) = mem' (.usr 0, r + c * lda))
    (hT : ∀ x, mem1 (.usr 1, x) = mem' (.usr 1, x)) {t : Bool} {cn ldc : Nat} (hldc : n ≤ ldc)
    (h1 : Exec (qrEnv hm ib nb m n (min m n, n) lda (n, cn) ldc) (zunmlq hm ib nb m n true t n cn (min m n)) mem1 mem2)
    (h2 : Exec (qrEnv hm ib nb m n (min m n, n) lda (n, cn) ldc) (zunmlq hm ib nb m n true (!t) n cn (min m n)) mem2 mem3) :
    uArr mem3 2 ldc n cn = uArr mem1 2 ldc n cn := by
  obtain ⟨Q, hu, -, hq⟩ := (gelqf_all hok hnb hib hlda h).1 hc
  obtain ⟨e1, f1⟩ := hq.left _ _ _ _ _ hldc hA hT h1
  obtain ⟨e2, -⟩ := hq.left _ _ _ _ _ hldc (fun r c hr hc => by rw [f1 0 _ (Or.inl (by decide)), hA r c hr hc])
    (fun x => by rw [f1 1 _ (Or.inl (by decide)), hT]) h2
  rw [e2, e1, ← Matrix.mul_assoc]
  have hu1 : Qᴴ * Q = 1 := (mem_unitaryGroup_iff').mp hu
  have hu2 : Q * Qᴴ = 1 := (mem_unitaryGroup_iff).mp hu
  cases t <;> simp [hu1, hu2]

/-- **C36**, part: the same from the right.  Missing as in `C36_apply_partial`. -/
theorem C36_restore_right_partial {hm : HMode} (hok : HMode.ok hm) {ib nb m n lda : Nat} (hnb : 0 < nb) (hib : 0 < ib)
    (hlda : m ≤ lda) {mem mem' mem1 mem2 mem3 : Buf × Nat → 𝕜} (hc : TClean hm mem)
    (h : Exec (qrEnv hm ib nb m n (m, n) lda (0, 0) 0) (zgelqf llkern hm ib nb m n) mem mem')
    (hA : ∀ r c, r < min m n → c < n → mem1 (.usr 0, r + c * lda) = mem' (.usr 0, r + c * lda))
    (hT : ∀ x, mem1 (.usr 1, x) = mem' (.usr 1, x)) {t : Bool} {cm ldc : Nat} (hldc : cm ≤ ldc)
    (h1 : Exec (qrEnv hm ib nb m n (min m n, n) lda (cm, n) ldc) (zunmlq hm ib nb m n false t cm n (min m n)) mem1 mem2)
    (h2 : Exec (qrEnv hm ib nb m n (min m n, n) lda (cm, n) ldc) (zunmlq hm ib nb m n false (!t) cm n (min m n)) mem2 mem3) :
    uArr mem3 2 ldc cm n = uArr mem1 2 ldc cm n := by
  obtain ⟨Q, hu, -, hq⟩ := (gelqf_all hok hnb hib hlda h).1 hc
  obtain ⟨e1, f1⟩ := hq.right _ _ _ _ _ hldc hA hT h1
  obtain ⟨e2, -⟩ := hq.right _ _ _ _ _ hldc (fun r c hr hc => by rw [f1 0 _ (Or.inl (by decide)), hA r c hr hc])
    (fun x => by rw [f1 1 _ (Or.inl (by decide)), hT]) h2
  rw [e2, e1, Matrix.mul_assoc]
  have hu1 : Qᴴ * Q = 1 := (mem_unitaryGroup_iff').mp hu
  have hu2 : Q * Qᴴ = 1 := (mem_unitaryGroup_iff).mp hu
  cases t <;> simp [hu1, hu2]

/-- The hypotheses can be met: factor, then apply, in tree mode. -/
example : ∃ mem mem' mem2 : Buf × Nat → ℂ, TClean (some 4) mem ∧ mem (.usr 0, 3) ≠ 0 ∧
    Exec (qrEnv (some 4) 3 5 7 12 (7, 12) 8 (0, 0) 0) (zgelqf llkern (some 4) 3 5 7 12) mem mem' ∧
    Exec (qrEnv (some 4) 3 5 7 12 (7, 12) 8 (12, 6) 12) (zunmlq (some 4) 3 5 7 12 true true 12 6 7) mem' mem2 := by
  have hok : HMode.ok (some 4) := by intro c h; cases h; omega
  obtain ⟨mem', h1⟩ := gelqf_exists (llkern_spec (𝕜 := ℂ)) (n := 12) (lda := 8) hok (nb := 5) (m := 7) (ib := 3) (by omega)
    (by omega) (by omega) (fun x => if x.1 = .usr 0 then 1 else 0)
  obtain ⟨mem2, h2⟩ := unmlq_exists (n := 12) (lda := 8) hok (nb := 5) (m := 7) (ib := 3) (by omega)
    (by omega) (by omega) (by omega) (l := true) (t := true) (cm := 12) (cn := 6) (ldc := 12) (by omega) rfl mem'
  exact ⟨_, mem', mem2, Or.inr fun x => by simp, by simp, h1, h2⟩

/-- **C36** fails for `plasma_zunglq` with more rows than reflectors (`k < m ≤ n` in the notation of
compute/zunglq.c:37-48): the remaining rows of the array are never written (the descriptor of `Q` has `k` rows,
compute/zunglq.c:123-130).  If the array is zero before the call, the result does not have orthonormal rows. -/
theorem C36_unglq_refuted {hm : HMode} (hok : HMode.ok hm) {ib nb m n qm : Nat} (hnb : 0 < nb) (hib : 0 < ib)
    (hk : m < qm) (hqn : qm ≤ n) {mem mem' mem2 : Buf × Nat → 𝕜} (h0 : ∀ x, mem (.usr 2, x) = 0) (hc : TClean hm mem)
    (h : Exec (qrEnv hm ib nb m n (m, n) qm (0, 0) 0) (zgelqf llkern hm ib nb m n) mem mem')
    (h2 : Exec (qrEnv hm ib nb m n (qm, n) qm (qm, n) qm) (zunglq hm ib nb m n qm n m) mem' mem2) :
    uArr mem2 2 qm qm n * (uArr mem2 2 qm qm n)ᴴ ≠ 1 := by
  obtain ⟨hQ, hf⟩ := gelqf_all hok hnb hib (by omega) h
  obtain ⟨Q, -, -, hq⟩ := hQ hc
  have hmin : min m n = m := by omega
  obtain ⟨-, e⟩ := hq.gen mem' mem2 qm qm le_rfl le_rfl (by omega) (fun _ _ _ _ => rfl) (fun _ => rfl)
    (by rw [hmin]; exact h2)
  intro he
  have h1 := congrFun (congrFun he ⟨m, hk⟩) ⟨m, hk⟩
  rw [Matrix.mul_apply, Matrix.one_apply_eq] at h1
  have hz : ∀ c : Fin n, uArr mem2 2 qm qm n ⟨m, hk⟩ c = 0 := by
    intro c
    show mem2 (.usr 2, m + (c : Nat) * qm) = 0
    rw [e 2 _ (Or.inr fun i j hi hj heq => ?_), hf 2 _ (by decide) (Or.inl (by decide)), h0]
    have e1 : (m + (c : Nat) * qm) % qm = m := by rw [Nat.add_mul_mod_self_right, Nat.mod_eq_of_lt hk]
    have e2 : (i + j * qm) % qm = i := by rw [Nat.add_mul_mod_self_right, Nat.mod_eq_of_lt (by omega)]
    rw [heq, e2] at e1
    omega
  simp [hz] at h1

/-- Such executions exist. -/
example : ∃ mem mem' mem2 : Buf × Nat → ℂ, (∀ x, mem (.usr 2, x) = 0) ∧ TClean none mem ∧
    Exec (qrEnv none 1 1 1 2 (1, 2) 2 (0, 0) 0) (zgelqf llkern none 1 1 1 2) mem mem' ∧
    Exec (qrEnv none 1 1 1 2 (2, 2) 2 (2, 2) 2) (zunglq none 1 1 1 2 2 2 1) mem' mem2 := by
  have hok : HMode.ok none := by intro c h; cases h
  obtain ⟨mem', h1⟩ := gelqf_exists (llkern_spec (𝕜 := ℂ)) (n := 2) (lda := 2) hok (nb := 1) (m := 1) (ib := 1) (by omega)
    (by omega) (by omega) (fun _ => 0)
  obtain ⟨mem2, h2⟩ := unglq_exists (n := 2) (lda := 2) hok (nb := 1) (m := 1) (ib := 1) (by omega)
    (by omega) (by omega) (qm := 2) (ldq := 2) (by omega) (by omega) (by omega) mem'
  exact ⟨_, mem', mem2, fun _ => rfl, Or.inl rfl, h1, h2⟩

end

end Verif.Props

/-
Application of the unitary matrices of the reduction to band form: compute/zgesdd.c:686-702, 743-761.
-/
import Verif.Ge2gbVec
import Verif.Ge2gbGood

namespace Verif.Qr

open Verif.Layout Verif.Tile Verif.Tree Finset Matrix

universe u v

set_option linter.unusedSectionVars false

section
variable {M : Type u} {α : Type v} [CommRing α] [StarRing α] {A T C : TMat M} {b ib : Nat} {K : QrKern α}

/-- `Q1` is applied to `U` (compute/zgesdd.c:691-702). -/
noncomputable def applyQ (A T U : TMat M) : List (TTask (M × Nat × Nat) α) :=
  if A.d.m < A.d.n then
    pzunmqr true false (A.sub A.d.mb 0 (A.d.m - A.d.mb) (A.d.n - A.d.nb)) (T.sub T.d.mb 0 (T.d.m - T.d.mb) (T.d.n - T.d.nb))
      (U.sub U.d.mb 0 (U.d.m - U.d.mb) U.d.n)
  else pzunmqr true false A T U

/-- `P1` is applied to `VT` (compute/zgesdd.c:749-760). -/
noncomputable def applyP (A T VT : TMat M) : List (TTask (M × Nat × Nat) α) :=
  if A.d.m < A.d.n then pzunmlq false false A T VT
  else
    pzunmlq false false (A.sub 0 A.d.nb (A.d.m - A.d.mb) (A.d.n - A.d.nb)) (T.sub 0 T.d.nb (T.d.m - T.d.mb) (T.d.n - T.d.nb))
      (VT.sub 0 VT.d.nb VT.d.m (VT.d.n - VT.d.nb))

/-- Product of the QR panels of the reduction. -/
noncomputable def allQ (b ib : Nat) (A T : TMat M) (s : Store (M × Nat × Nat) α) : Matrix (Fin A.d.m) (Fin A.d.m) α :=
  if A.d.m < A.d.n then redQ b ib A T s 1 (A.d.mt - 1) else redQ b ib A T s 0 A.d.nt

/-- Product of the LQ panels of the reduction. -/
noncomputable def allP (b ib : Nat) (A T : TMat M) (s : Store (M × Nat × Nat) α) : Matrix (Fin A.d.n) (Fin A.d.n) α :=
  if A.d.m < A.d.n then redP b ib A T s 0 A.d.mt else redP b ib A T s 1 (A.d.nt - 1)

theorem ceilDiv_sub (hb : 0 < b) (m : Nat) : ceilDiv (m - b) b = ceilDiv m b - 1 := by
  have key : ∀ k, k < ceilDiv (m - b) b ↔ k < ceilDiv m b - 1 := by
    intro k
    rw [lt_ceilDiv hb, show k < ceilDiv m b - 1 ↔ k + 1 < ceilDiv m b by omega, lt_ceilDiv hb, Nat.add_mul, Nat.one_mul]
    omega
  have h1 := key (ceilDiv (m - b) b)
  have h2 := key (ceilDiv m b - 1)
  omega

theorem ceilDiv_mono (hb : 0 < b) {m n : Nat} (h : m ≤ n) : ceilDiv m b ≤ ceilDiv n b := by
  by_contra h'
  have h1 : ceilDiv n b < ceilDiv m b := by omega
  have h2 : ¬ ceilDiv n b < ceilDiv n b := lt_irrefl _
  rw [lt_ceilDiv hb] at h1 h2
  omega

/-- Stores that agree on the elements of `A` and on `T`. -/
structure SameAT (b ib : Nat) (A T : TMat M) (s s2 : Store (M × Nat × Nat) α) : Prop where
  el : ∀ r c, r < A.d.m → c < A.d.n → A.el s r c = A.el s2 r c
  tt : ∀ r c, r < A.d.mt → c < A.d.nt → ∀ i j, i < ib → j < b → s (T.at' r c) i j = s2 (T.at' r c) i j

variable {s s2 : Store (M × Nat × Nat) α}

theorem qAll_same (hA : A.Al b) (h1 : 0 < T.d.mb) (h2 : 0 < T.d.nb) (hS : SameAT b ib A T s s2) {p q m n m' n' : Nat}
    (hm : p * b + m ≤ A.d.m) (hn : q * b + n ≤ A.d.n) :
    qAll b m n ib id (A.sub (p * b) (q * b) m n) (T.sub (p * T.d.mb) (q * T.d.nb) m' n') s
      (flatOps (A.sub (p * b) (q * b) m n).d.mt (A.sub (p * b) (q * b) m n).d.nt) =
    qAll b m n ib id (A.sub (p * b) (q * b) m n) (T.sub (p * T.d.mb) (q * T.d.nb) m' n') s2
      (flatOps (A.sub (p * b) (q * b) m n).d.mt (A.sub (p * b) (q * b) m n).d.nt) := by
  have aV := sub_al' hA p q m n
  refine qAll_agree aV aV (ops_inB (flatOps_ok _ _)) (fun r c hr hc => ?_) fun o ho i j hi hj => ?_
  · rw [sub_el' hA, sub_el' hA]
    exact hS.el _ _ (by omega) (by omega)
  · have := ops_inB (flatOps_ok _ _) o ho
    rw [opTt, subT_at' h1 h2]
    refine hS.tt _ _ (sub_row hA hm (inB_row this)) (sub_col (p := p) (m := m) hA hn ?_) i j hi hj
    cases o <;> exact this.1

theorem lqAll_same (hA : A.Al b) (hT : T.id ≠ A.id) (h1 : 0 < T.d.mb) (h2 : 0 < T.d.nb) (hS : SameAT b ib A T s s2) {p q m n m' n' : Nat}
    (hm : p * b + m ≤ A.d.m) (hn : q * b + n ≤ A.d.n) :
    lqAll (tFlip T.id) b m n ib id (A.sub (p * b) (q * b) m n) (T.sub (p * T.d.mb) (q * T.d.nb) m' n').trp s
      (flatOps (A.sub (p * b) (q * b) m n).d.nt (A.sub (p * b) (q * b) m n).d.mt) =
    lqAll (tFlip T.id) b m n ib id (A.sub (p * b) (q * b) m n) (T.sub (p * T.d.mb) (q * T.d.nb) m' n').trp s2
      (flatOps (A.sub (p * b) (q * b) m n).d.nt (A.sub (p * b) (q * b) m n).d.mt) := by
  have aV := sub_al' hA p q m n
  refine lqAll_agree (F := tFlip T.id) (F' := tFlip T.id) aV aV hT.symm hT.symm (ops_inB (flatOps_ok _ _))
    (T := T.sub (p * T.d.mb) (q * T.d.nb) m' n') (T1 := T.sub (p * T.d.mb) (q * T.d.nb) m' n') (off := id)
    (fun o _ => tFlip_ok (T.sub (p * T.d.mb) (q * T.d.nb) m' n') o)
    (fun o _ => tFlip_ok (T.sub (p * T.d.mb) (q * T.d.nb) m' n') o) (fun r c hr hc => ?_) fun o ho i j hi hj => ?_
  · rw [sub_el' hA, sub_el' hA]
    exact hS.el _ _ (by omega) (by omega)
  · have := ops_inB (flatOps_ok _ _) o ho
    rw [lTt_eq, subT_at' h1 h2]
    exact hS.tt _ _ (sub_row (q := q) (n := n) hA hm (inB_col this)) (sub_col (p := p) (m := m) hA hn (inB_row this)) i j hi hj

/-- `plasma_pzunmqr` with the views from tile row `p`. -/
theorem unmqr_view (hA : A.Al b) (hC : C.Al b) (h1 : T.d.mb = ib) (hib : 0 < ib) (h2 : 0 < T.d.nb) (hS : SameAT b ib A T s s2)
    (hAC : A.id ≠ C.id) (hTC : T.id ≠ C.id) (hCm : C.d.m = A.d.m) {p n m' n' N : Nat} (hp : p * b ≤ A.d.m) (hn : n ≤ A.d.n)
    (hmin : min (ceilDiv (A.d.m - p * b) b) (ceilDiv n b) = N) (hN : N ≤ A.d.nt)
    (hK : ∀ k, k < N → min (tdim (A.d.m - p * b) b k) (tdim n b k) = min (tdim (A.d.m - p * b) b k) (A.d.nview k))
    {r c : Nat} (hr : r < A.d.m) (hc : c < C.d.n) :
    C.el (texec (pzunmqr true false (A.sub (p * b) (0 * b) (A.d.m - p * b) n) (T.sub (p * T.d.mb) (0 * T.d.nb) m' n')
      (C.sub (p * b) (0 * b) (A.d.m - p * b) C.d.n)) s) r c = lmul (redQ b ib A T s2 p N) (C.el s) r c := by
  have hTm : 0 < T.d.mb := by rw [h1]; exact hib
  have aV := sub_al' hA p 0 (A.d.m - p * b) n
  have aC := sub_al' hC p 0 (A.d.m - p * b) C.d.n
  have e := redQ_view (ib := ib) (A' := A.sub (p * b) (0 * b) (A.d.m - p * b) n) (T' := T.sub (p * T.d.mb) (0 * T.d.nb) m' n')
    (mx := A.d.m - p * b) (nx := n) (nt := ceilDiv n b) hA hTm h2 rfl rfl hmin hN hK
    (fun r c => by rw [sub_at' hA, Nat.zero_add]) (fun r c => by rw [tsub_at hTm h2, Nat.zero_add]) s2
  have em : (A.sub (p * b) (0 * b) (A.d.m - p * b) n).d.mt = ceilDiv (A.d.m - p * b) b := aV.mt_eq
  have en : (A.sub (p * b) (0 * b) (A.d.m - p * b) n).d.nt = ceilDiv n b := aV.nt_eq
  have hq := qAll_same (m' := m') (n' := n') hA hTm h2 hS (p := p) (q := 0) (m := A.d.m - p * b) (n := n) (by omega) (by omega)
  rw [em, en] at hq
  rw [← e, pzunmqr_left_eq aV aC rfl]
  have hin := ops_inB (flatOps_ok (A.sub (p * b) (0 * b) (A.d.m - p * b) n).d.mt (A.sub (p * b) (0 * b) (A.d.m - p * b) n).d.nt)
  by_cases hrp : r < p * b
  · rw [lmul_gemb_out _ _ (fun l _ => by show p * b + l ≠ r; omega)]
    unfold TMat.el
    refine congrFun (congrFun (Writes.frame (W := fun x => ∃ r c, x = (C.sub (p * b) (0 * b) (A.d.m - p * b) C.d.n).at' r c)
      (Writes.flatMap fun o _ => Writes.mono (updL_writes o) ?_) s ?_) _) _
    · rintro x ⟨r, n, _, _, e⟩; exact ⟨r, n, e⟩
    · rintro ⟨r', c', e⟩
      rw [sub_at' hC] at e
      have h3 := (TMat.at'_inj.mp e).1
      have h4 : r / C.d.mb < p := by rw [hC.mb, Nat.div_lt_iff_lt_mul hA.pos]; exact hrp
      omega
  · obtain ⟨i, rfl⟩ := Nat.exists_eq_add_of_le (Nat.le_of_not_lt hrp)
    have hi : i < A.d.m - p * b := by omega
    have hin' := lmul_gemb_in (rowMap_add A.d.m (p * b)) (qAll b (A.d.m - p * b) n ib id (A.sub (p * b) (0 * b) (A.d.m - p * b) n)
      (T.sub (p * T.d.mb) (0 * T.d.nb) m' n') s2 (flatOps (ceilDiv (A.d.m - p * b) b) (ceilDiv n b))) (C.el s) hi c
    refine Eq.trans ?_ hin'.symm
    have h5 := unmqr_left (ib := ib) (t := false) (off := id) (T := T.sub (p * T.d.mb) (0 * T.d.nb) m' n') aV aC (mm := A.d.m - p * b)
      (na := n) rfl rfl rfl hTC hAC hin s hi (c := c) hc
    have h6 : ∀ (st : Store (M × Nat × Nat) α) r c, (C.sub (p * b) (0 * b) (A.d.m - p * b) C.d.n).el st r c = C.el st (p * b + r) c :=
      fun st r c => by rw [sub_el' hC, Nat.zero_mul, Nat.zero_add]
    rw [h6] at h5
    rw [show (T.sub (p * T.d.mb) (0 * T.d.nb) m' n').d.mb = ib from h1]
    refine h5.trans ?_
    rw [em, en]
    show lmul (qAll _ _ _ _ _ _ _ _ _) _ i c = _
    rw [hq]
    refine lmul_eq hi fun l _ => ?_
    rw [h6]

/-- `plasma_pzunmlq` with the views from tile column `q`. -/
theorem unmlq_view (hA : A.Al b) (hC : C.Al b) (hTA : T.id ≠ A.id) (h1 : T.d.mb = ib) (hib : 0 < ib) (h2 : 0 < T.d.nb)
    (hS : SameAT b ib A T s s2) (hAC : A.id ≠ C.id) (hTC : T.id ≠ C.id) (hCn : C.d.n = A.d.n) {q m m' n' N : Nat}
    (hq : q * b ≤ A.d.n) (hm : m ≤ A.d.m)
    (hmin : min (ceilDiv (A.d.n - q * b) b) (ceilDiv m b) = N) (hN : N ≤ A.d.mt)
    (hK : ∀ k, k < N → min (tdim (A.d.n - q * b) b k) (tdim m b k) = min (tdim (A.d.n - q * b) b k) (A.d.mview k))
    {r c : Nat} (hr : r < C.d.m) (hc : c < A.d.n) :
    C.el (texec (pzunmlq false false (A.sub (0 * b) (q * b) m (A.d.n - q * b)) (T.sub (0 * T.d.mb) (q * T.d.nb) m' n')
      (C.sub (0 * b) (q * b) C.d.m (A.d.n - q * b))) s) r c = rmul (C.el s) (redP b ib A T s2 q N) r c := by
  have hTm : 0 < T.d.mb := by rw [h1]; exact hib
  have aV := sub_al' hA 0 q m (A.d.n - q * b)
  have aC := sub_al' hC 0 q C.d.m (A.d.n - q * b)
  have e := redP_view (ib := ib) (A' := A.sub (0 * b) (q * b) m (A.d.n - q * b)) (T' := T.sub (0 * T.d.mb) (q * T.d.nb) m' n')
    (nx := A.d.n - q * b) (mx := m) (mt := ceilDiv m b) hA hTm h2 rfl rfl hmin hN hK
    (fun r c => by rw [sub_at' hA, Nat.zero_add]) (fun r c => by rw [tsub_at hTm h2, Nat.zero_add]) s2
  have em : (A.sub (0 * b) (q * b) m (A.d.n - q * b)).d.mt = ceilDiv m b := aV.mt_eq
  have en : (A.sub (0 * b) (q * b) m (A.d.n - q * b)).d.nt = ceilDiv (A.d.n - q * b) b := aV.nt_eq
  have hq' := lqAll_same (m' := m') (n' := n') hA hTA hTm h2 hS (p := 0) (q := q) (m := m) (n := A.d.n - q * b) (by omega) (by omega)
  rw [em, en] at hq'
  rw [← e, pzunmlq_right_eq aV aC rfl]
  have hin := ops_inB (flatOps_ok (A.sub (0 * b) (q * b) m (A.d.n - q * b)).d.nt (A.sub (0 * b) (q * b) m (A.d.n - q * b)).d.mt)
  have hnt : (C.sub (0 * b) (q * b) C.d.m (A.d.n - q * b)).d.nt = (A.sub (0 * b) (q * b) m (A.d.n - q * b)).d.nt := by
    rw [aC.nt_eq, aV.nt_eq]; rfl
  by_cases hcq : c < q * b
  · rw [rmul_gemb_out _ _ (fun l _ => by show q * b + l ≠ c; omega)]
    unfold TMat.el
    refine congrFun (congrFun (Writes.frame (W := fun x => ∃ r c, x = (C.sub (0 * b) (q * b) C.d.m (A.d.n - q * b)).at' r c)
      (Writes.flatMap fun o ho => Writes.mono (lupdR_writes_tiles (N := (A.sub (0 * b) (q * b) m (A.d.n - q * b)).d.mt) ?_) ?_) s ?_) _) _
    · rw [hnt]
      refine hin o ?_
      simpa using ho
    · rintro x ⟨r, n, _, _, e⟩; exact ⟨r, n, e⟩
    · rintro ⟨r', c', e⟩
      rw [sub_at' hC] at e
      have h3 := (TMat.at'_inj.mp e).2
      have h4 : c / C.d.nb < q := by rw [hC.nb, Nat.div_lt_iff_lt_mul hA.pos]; exact hcq
      omega
  · obtain ⟨i, rfl⟩ := Nat.exists_eq_add_of_le (Nat.le_of_not_lt hcq)
    have hi : i < A.d.n - q * b := by omega
    have hin' := rmul_gemb_in (rowMap_add A.d.n (q * b)) (lqAll (tFlip T.id) b m (A.d.n - q * b) ib id (A.sub (0 * b) (q * b) m (A.d.n - q * b))
      (T.sub (0 * T.d.mb) (q * T.d.nb) m' n').trp s2 (flatOps (ceilDiv (A.d.n - q * b) b) (ceilDiv m b))) (C.el s) hi r
    refine Eq.trans ?_ hin'.symm
    have h5 := unmlq_right (ib := ib) (t := false) (F := tFlip T.id) (T' := (T.sub (0 * T.d.mb) (q * T.d.nb) m' n').trp) (off := id) (off' := id)
      (T := T.sub (0 * T.d.mb) (q * T.d.nb) m' n') false aV aC (mm := m)
      (na := A.d.n - q * b) rfl rfl rfl hTA.symm hTC.symm hAC rfl hin (fun o _ => tFlip_ok (T.sub (0 * T.d.mb) (q * T.d.nb) m' n') o) s (r := r) hr hi
    have h6 : ∀ (st : Store (M × Nat × Nat) α) r c, (C.sub (0 * b) (q * b) C.d.m (A.d.n - q * b)).el st r c = C.el st r (q * b + c) :=
      fun st r c => by rw [sub_el' hC, Nat.zero_mul, Nat.zero_add]
    rw [h6] at h5
    rw [show (T.sub (0 * T.d.mb) (q * T.d.nb) m' n').d.mb = ib from h1]
    refine h5.trans ?_
    rw [em, en]
    show rmul _ (lqAll _ _ _ _ _ _ _ _ _ _) r i = _
    rw [hq']
    refine rmul_eq hi fun l _ => ?_
    rw [h6]

/-! ### The calls of `plasma_zgesdd` -/

theorem sub_self (hA : A.d.mt = ntiles A.d.i A.d.m A.d.mb) (hA' : A.d.nt = ntiles A.d.j A.d.n A.d.nb) :
    A.sub 0 0 A.d.m A.d.n = A := by
  obtain ⟨id, d⟩ := A
  unfold TMat.sub
  simp only [Nat.add_zero] at hA hA' ⊢
  rw [← hA, ← hA']

/-- **`Q1` is applied to `U`.** -/
theorem applyQ_el (hA : A.Al b) (hC : C.Al b) (h1 : T.d.mb = ib) (hib : 0 < ib) (h2 : 0 < T.d.nb) (hS : SameAT b ib A T s s2)
    (hAC : A.id ≠ C.id) (hTC : T.id ≠ C.id) (hCm : C.d.m = A.d.m) (hbm : b ≤ A.d.m) (hTd : T.sub 0 0 T.d.m T.d.n = T)
    {r c : Nat} (hr : r < A.d.m) (hc : c < C.d.n) :
    C.el (texec (applyQ A T C) s) r c = lmul (allQ b ib A T s2) (C.el s) r c := by
  have hb := hA.pos
  unfold applyQ allQ
  by_cases hmn : A.d.m < A.d.n
  · rw [if_pos hmn, if_pos hmn]
    have := unmqr_view (p := 1) (n := A.d.n - b) (m' := T.d.m - T.d.mb) (n' := T.d.n - T.d.nb) (N := A.d.mt - 1) hA hC h1 hib h2 hS
      hAC hTC hCm (by omega) (by omega) ?_ ?_ ?_ hr hc
    · rw [Nat.one_mul, Nat.one_mul, Nat.zero_mul, Nat.zero_mul] at this
      rw [hA.mb, hA.nb, hC.mb, hCm]
      exact this
    · rw [Nat.one_mul, ceilDiv_sub hb, ceilDiv_sub hb, hA.mt_eq]
      have := ceilDiv_mono hb (le_of_lt hmn)
      omega
    · have := ceilDiv_mono hb (le_of_lt hmn)
      rw [hA.mt_eq, hA.nt_eq]; omega
    · intro k hk
      rw [hA.nview (by have := ceilDiv_mono hb (le_of_lt hmn); rw [hA.nt_eq]; rw [hA.mt_eq] at hk; omega)]
      unfold tdim
      omega
  · rw [if_neg hmn, if_neg hmn]
    have := unmqr_view (p := 0) (n := A.d.n) (m' := T.d.m) (n' := T.d.n) (N := A.d.nt) hA hC h1 hib h2 hS
      hAC hTC hCm (by omega) le_rfl ?_ le_rfl ?_ hr hc
    · simp only [Nat.zero_mul, Nat.sub_zero] at this
      rw [sub_self (by rw [hA.mt, hA.mb]) (by rw [hA.nt, hA.nb]), hTd, show C.sub 0 0 A.d.m C.d.n = C by rw [← hCm]; exact sub_self (by rw [hC.mt, hC.mb]) (by rw [hC.nt, hC.nb])] at this
      exact this
    · rw [Nat.zero_mul, Nat.sub_zero, hA.nt_eq]
      have := ceilDiv_mono hb (Nat.le_of_not_lt hmn)
      omega
    · intro k hk
      rw [hA.nview hk]

/-- **`P1` is applied to `VT`.** -/
theorem applyP_el (hA : A.Al b) (hC : C.Al b) (hTA : T.id ≠ A.id) (h1 : T.d.mb = ib) (hib : 0 < ib) (h2 : 0 < T.d.nb)
    (hS : SameAT b ib A T s s2) (hAC : A.id ≠ C.id) (hTC : T.id ≠ C.id) (hCn : C.d.n = A.d.n) (hbn : b ≤ A.d.n)
    (hTd : T.sub 0 0 T.d.m T.d.n = T) {r c : Nat} (hr : r < C.d.m) (hc : c < A.d.n) :
    C.el (texec (applyP A T C) s) r c = rmul (C.el s) (allP b ib A T s2) r c := by
  have hb := hA.pos
  unfold applyP allP
  by_cases hmn : A.d.m < A.d.n
  · rw [if_pos hmn, if_pos hmn]
    have := unmlq_view (q := 0) (m := A.d.m) (m' := T.d.m) (n' := T.d.n) (N := A.d.mt) hA hC hTA h1 hib h2 hS
      hAC hTC hCn (by omega) le_rfl ?_ le_rfl ?_ hr hc
    · simp only [Nat.zero_mul, Nat.sub_zero] at this
      rw [sub_self (by rw [hA.mt, hA.mb]) (by rw [hA.nt, hA.nb]), hTd, show C.sub 0 0 C.d.m A.d.n = C by rw [← hCn]; exact sub_self (by rw [hC.mt, hC.mb]) (by rw [hC.nt, hC.nb])] at this
      exact this
    · rw [Nat.zero_mul, Nat.sub_zero, hA.mt_eq]
      have := ceilDiv_mono hb (le_of_lt hmn)
      omega
    · intro k hk
      rw [hA.mview hk]
  · rw [if_neg hmn, if_neg hmn]
    have hle := ceilDiv_mono hb (Nat.le_of_not_lt hmn)
    have := unmlq_view (q := 1) (m := A.d.m - b) (m' := T.d.m - T.d.mb) (n' := T.d.n - T.d.nb) (N := A.d.nt - 1) hA hC hTA h1 hib h2 hS
      hAC hTC hCn (by omega) (by omega) ?_ ?_ ?_ hr hc
    · rw [Nat.one_mul, Nat.one_mul, Nat.zero_mul, Nat.zero_mul] at this
      rw [hA.mb, hA.nb, hC.nb, hCn]
      exact this
    · rw [Nat.one_mul, ceilDiv_sub hb, ceilDiv_sub hb, hA.nt_eq]
      omega
    · rw [hA.mt_eq, hA.nt_eq]; omega
    · intro k hk
      rw [hA.mview (by rw [hA.mt_eq]; rw [hA.nt_eq] at hk; omega)]
      unfold tdim
      omega

/-- **Band reduction** with the matrices that are applied afterwards. -/
theorem ge2gb_vec (hK : QrSpec K) (hib : 0 < ib) (hA : A.Al b) (hT : T.id ≠ A.id) (hTb : T.d.mb = ib) (hTn : 0 < T.d.nb)
    (s : Store (M × Nat × Nat) α) {s' : Store (M × Nat × Nat) α} (hs' : s' = texec (pzge2gb K A T) s) :
    (allQ b ib A T s' ∈ unitaryGroup (Fin A.d.m) α ∧ allP b ib A T s' ∈ unitaryGroup (Fin A.d.n) α) ∧
    mat A.d.m A.d.n (A.el s) = allQ b ib A T s' *
      mat A.d.m A.d.n (mask (if A.d.m < A.d.n then LBand b else UBand b) (A.el s')) * allP b ib A T s' := by
  unfold allQ allP
  by_cases hmn : A.d.m < A.d.n
  · simp only [if_pos hmn]
    exact ge2gb_wide_vec hK hib hA hT hTb hTn hmn s hs'
  · simp only [if_neg hmn]
    exact ge2gb_tall_vec hK hib hA hT hTb hTn (Nat.le_of_not_lt hmn) s hs'

/-! ### What the tasks touch -/

variable {valid : Foot (M × Nat × Nat)}

theorem applyQ_form (hA : A.Al b) (hC : C.Al b) (hCm : C.d.m = A.d.m) (hbm : b ≤ A.d.m) (hTd : T.sub 0 0 T.d.m T.d.n = T) :
    ∃ p n m' n', p * b ≤ A.d.m ∧ n ≤ A.d.n ∧ applyQ (α := α) A T C = pzunmqr true false (A.sub (p * b) (0 * b) (A.d.m - p * b) n)
      (T.sub (p * T.d.mb) (0 * T.d.nb) m' n') (C.sub (p * b) (0 * b) (A.d.m - p * b) C.d.n) := by
  unfold applyQ
  by_cases hmn : A.d.m < A.d.n
  · refine ⟨1, A.d.n - b, T.d.m - T.d.mb, T.d.n - T.d.nb, by omega, by omega, ?_⟩
    rw [if_pos hmn, Nat.one_mul, Nat.one_mul, Nat.zero_mul, Nat.zero_mul, hA.mb, hA.nb, hC.mb, hCm]
  · refine ⟨0, A.d.n, T.d.m, T.d.n, by omega, le_rfl, ?_⟩
    rw [if_neg hmn]
    simp only [Nat.zero_mul, Nat.sub_zero]
    rw [sub_self (by rw [hA.mt, hA.mb]) (by rw [hA.nt, hA.nb]), hTd, ← hCm, sub_self (by rw [hC.mt, hC.mb]) (by rw [hC.nt, hC.nb])]

theorem applyP_form (hA : A.Al b) (hC : C.Al b) (hCn : C.d.n = A.d.n) (hbn : b ≤ A.d.n) (hTd : T.sub 0 0 T.d.m T.d.n = T) :
    ∃ q m m' n', q * b ≤ A.d.n ∧ m ≤ A.d.m ∧ applyP (α := α) A T C = pzunmlq false false (A.sub (0 * b) (q * b) m (A.d.n - q * b))
      (T.sub (0 * T.d.mb) (q * T.d.nb) m' n') (C.sub (0 * b) (q * b) C.d.m (A.d.n - q * b)) := by
  unfold applyP
  by_cases hmn : A.d.m < A.d.n
  · refine ⟨0, A.d.m, T.d.m, T.d.n, by omega, le_rfl, ?_⟩
    rw [if_pos hmn]
    simp only [Nat.zero_mul, Nat.sub_zero]
    rw [sub_self (by rw [hA.mt, hA.mb]) (by rw [hA.nt, hA.nb]), hTd, ← hCn, sub_self (by rw [hC.mt, hC.mb]) (by rw [hC.nt, hC.nb])]
  · refine ⟨1, A.d.m - b, T.d.m - T.d.mb, T.d.n - T.d.nb, by omega, by omega, ?_⟩
    rw [if_neg hmn, Nat.one_mul, Nat.one_mul, Nat.zero_mul, Nat.zero_mul, hA.mb, hA.nb, hC.nb, hCn]

theorem applyQ_good (hA : A.Al b) (hC : C.Al b) (hCm : C.d.m = A.d.m) (hbm : b ≤ A.d.m) (hTd : T.sub 0 0 T.d.m T.d.n = T)
    (vA : TilesV valid b A) (vC : TilesV valid b C) (vT : TV valid T.d.mb b A T) (t1 : 0 < T.d.mb) (t2 : 0 < T.d.nb) :
    Good valid (applyQ (α := α) A T C) := by
  obtain ⟨p, n, m', n', hp, hn, e⟩ := applyQ_form (α := α) hA hC hCm hbm hTd
  rw [e]
  have aV := sub_al' hA p 0 (A.d.m - p * b) n
  have aC := sub_al' hC p 0 (A.d.m - p * b) C.d.n
  have hm : p * b + (A.d.m - p * b) ≤ A.d.m := by omega
  rw [pzunmqr_left_eq aV aC rfl]
  refine Good.flatMap fun o ho => ?_
  have := ops_inB (flatOps_ok _ _) o (List.mem_reverse.mp ho)
  refine updL_good aV aC rfl (sub_tilesV hA vA hm (by omega)) (sub_tilesV hC vC (by omega) (by omega)) (fun _ h => List.mem_range.mp h) this ?_
  intro i j hi hj
  rw [opTt, subT_at' t1 t2]
  refine vT _ _ (sub_row hA hm (inB_row this)) (sub_col (p := p) (q := 0) (m := A.d.m - p * b) (n := n) hA (by omega) ?_) i j hi hj
  cases o <;> exact this.1

theorem applyP_good (hA : A.Al b) (hC : C.Al b) (hCn : C.d.n = A.d.n) (hbn : b ≤ A.d.n) (hTd : T.sub 0 0 T.d.m T.d.n = T)
    (vA : TilesV valid b A) (vC : TilesV valid b C) (vT : TV valid T.d.mb b A T) (t1 : 0 < T.d.mb) (t2 : 0 < T.d.nb) :
    Good valid (applyP (α := α) A T C) := by
  obtain ⟨q, m, m', n', hq, hm, e⟩ := applyP_form (α := α) hA hC hCn hbn hTd
  rw [e]
  have aV := sub_al' hA 0 q m (A.d.n - q * b)
  have aC := sub_al' hC 0 q C.d.m (A.d.n - q * b)
  have hn : q * b + (A.d.n - q * b) ≤ A.d.n := by omega
  rw [pzunmlq_right_eq aV aC rfl]
  refine Good.flatMap fun o ho => ?_
  have := ops_inB (flatOps_ok _ _) o (List.mem_reverse.mp ho)
  refine lupdR_good aV aC rfl (sub_tilesV hA vA (by omega) hn) (sub_tilesV hC vC (by omega) (by omega)) (fun _ h => List.mem_range.mp h) this ?_
  intro i j hi hj
  rw [lTt_eq, subT_at' t1 t2]
  exact vT _ _ (sub_row (p := 0) (q := q) (m := m) (n := A.d.n - q * b) hA (by omega) (inB_col this))
    (sub_col (p := 0) (m := m) hA hn (inB_row this)) i j hi hj

theorem applyQ_writes (hA : A.Al b) (hC : C.Al b) (hCm : C.d.m = A.d.m) (hbm : b ≤ A.d.m) (hTd : T.sub 0 0 T.d.m T.d.n = T) :
    Writes (fun x => x.1 = C.id) (applyQ (α := α) A T C) := by
  obtain ⟨p, n, m', n', hp, hn, e⟩ := applyQ_form (α := α) hA hC hCm hbm hTd
  rw [e, pzunmqr_left_eq (sub_al' hA p 0 (A.d.m - p * b) n) (sub_al' hC p 0 (A.d.m - p * b) C.d.n) rfl]
  refine Writes.flatMap fun o _ => Writes.mono (updL_writes o) ?_
  rintro x ⟨r, n, _, _, rfl⟩
  rfl

theorem applyP_writes (hA : A.Al b) (hC : C.Al b) (hCn : C.d.n = A.d.n) (hbn : b ≤ A.d.n) (hTd : T.sub 0 0 T.d.m T.d.n = T) :
    Writes (fun x => x.1 = C.id) (applyP (α := α) A T C) := by
  obtain ⟨q, m, m', n', hq, hm, e⟩ := applyP_form (α := α) hA hC hCn hbn hTd
  have aV := sub_al' hA 0 q m (A.d.n - q * b)
  have aC := sub_al' hC 0 q C.d.m (A.d.n - q * b)
  rw [e, pzunmlq_right_eq aV aC rfl]
  refine Writes.flatMap fun o ho => Writes.mono (lupdR_writes_tiles (N := (A.sub (0 * b) (q * b) m (A.d.n - q * b)).d.mt) ?_) ?_
  · have := ops_inB (flatOps_ok _ _) o (List.mem_reverse.mp ho)
    rw [aC.nt_eq]
    rw [aV.nt_eq] at this
    exact this
  · rintro x ⟨r, n, _, _, rfl⟩
    rfl

end

end Verif.Qr

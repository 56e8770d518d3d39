/-
Reduction of a general matrix to band form: footprints of compute/pzge2gb.c, and the copy of the band into LAPACK
band storage, compute/pzgecpy_tile2lapack_band.c.
-/
import Verif.Ge2gbBand
import Verif.AuxNests

namespace Verif.Qr

open Verif.Layout Verif.Tile Verif.Tree Finset Matrix

universe u v

set_option linter.unusedSectionVars false

section
variable {M : Type u} {α : Type v} [CommRing α] [StarRing α] {A B T : TMat M} {b ib : Nat} {K : QrKern α}
  {valid : Foot (M × Nat × Nat)}

/-! ### Reduction to band form -/

theorem subT_at' (h1 : 0 < T.d.mb) (h2 : 0 < T.d.nb) (p q m n r c : Nat) :
    (T.sub (p * T.d.mb) (q * T.d.nb) m n).at' r c = T.at' (p + r) (q + c) := by
  have e1 : (T.d.i + p * T.d.mb) / T.d.mb = T.d.i / T.d.mb + p := by rw [Nat.add_mul_div_right _ _ h1]
  have e2 : (T.d.j + q * T.d.nb) / T.d.nb = T.d.j / T.d.nb + q := by rw [Nat.add_mul_div_right _ _ h2]
  show (T.id, r + (T.d.i + p * T.d.mb) / T.d.mb, c + (T.d.j + q * T.d.nb) / T.d.nb) =
    (T.id, p + r + T.d.i / T.d.mb, q + c + T.d.j / T.d.nb)
  rw [e1, e2]
  congr 2 <;> omega

theorem sub_tilesV (hA : A.Al b) (vA : TilesV valid b A) {p q m n : Nat} (hm : p * b + m ≤ A.d.m) (hn : q * b + n ≤ A.d.n) :
    TilesV valid b (A.sub (p * b) (q * b) m n) := by
  intro r c i j hi hj
  rw [sub_at' hA]
  refine vA _ _ _ _ ?_ ?_
  · have hi : i < tdim m b r := hi
    rw [tdim_row] at hi ⊢
    rw [Nat.add_mul]; omega
  · have hj : j < tdim n b c := hj
    rw [tdim_row] at hj ⊢
    rw [Nat.add_mul]; omega

/-- Tile rows of a view exist in the matrix. -/
theorem sub_row (hA : A.Al b) {p q m n r : Nat} (hm : p * b + m ≤ A.d.m) (h : r < (A.sub (p * b) (q * b) m n).d.mt) :
    p + r < A.d.mt := by
  rw [(sub_al' hA p q m n).mt_eq, lt_ceilDiv hA.pos] at h
  rw [hA.mt_eq, lt_ceilDiv hA.pos, Nat.add_mul]
  have h : r * b < m := h
  omega

theorem sub_col (hA : A.Al b) {p q m n c : Nat} (hn : q * b + n ≤ A.d.n) (h : c < (A.sub (p * b) (q * b) m n).d.nt) :
    q + c < A.d.nt := by
  rw [(sub_al' hA p q m n).nt_eq, lt_ceilDiv hA.pos] at h
  rw [hA.nt_eq, lt_ceilDiv hA.pos, Nat.add_mul]
  have h : c * b < n := h
  omega

/-- The `T` tiles of the matrix exist. -/
def TV (valid : Foot (M × Nat × Nat)) (ib b : Nat) (A T : TMat M) : Prop :=
  ∀ r c, r < A.d.mt → c < A.d.nt → ∀ i j, i < ib → j < b → valid (T.at' r c) i j

theorem qr_good (hK : QrSpec K) (hA : A.Al b) (hT : T.id ≠ A.id) (vA : TilesV valid b A) (vT : TV valid T.d.mb b A T)
    (t1 : 0 < T.d.mb) (t2 : 0 < T.d.nb) {p q m n m' n' : Nat} (hm : p * b + m ≤ A.d.m) (hn : q * b + n ≤ A.d.n) :
    Good valid (pzgeqrf K (A.sub (p * b) (q * b) m n) (T.sub (p * T.d.mb) (q * T.d.nb) m' n')) := by
  have aV := sub_al' hA p q m n
  rw [pzgeqrf_eq K aV]
  refine fac_good (T := T.sub (p * T.d.mb) (q * T.d.nb) m' n') hK aV hT (sub_tilesV hA vA hm hn) (ops_inB (flatOps_ok _ _)) fun o ho => ?_
  have := ops_inB (flatOps_ok _ _) o ho
  intro i j hi hj
  rw [opTt, subT_at' t1 t2]
  refine vT _ _ (sub_row hA hm (inB_row this)) (sub_col (p := p) (m := m) hA hn ?_) i j hi hj
  cases o <;> exact this.1

theorem unmqr_good (hA : A.Al b) (vA : TilesV valid b A) (vT : TV valid T.d.mb b A T)
    (t1 : 0 < T.d.mb) (t2 : 0 < T.d.nb) {p q q' m n n2 m' n' : Nat} (hm : p * b + m ≤ A.d.m) (hn : q * b + n ≤ A.d.n)
    (hn2 : q' * b + n2 ≤ A.d.n) :
    Good valid (pzunmqr (α := α) true true (A.sub (p * b) (q * b) m n) (T.sub (p * T.d.mb) (q * T.d.nb) m' n')
      (A.sub (p * b) (q' * b) m n2)) := by
  have aV := sub_al' hA p q m n
  have aC := sub_al' hA p q' m n2
  rw [pzunmqr_left_eq aV aC rfl]
  refine Good.flatMap fun o ho => ?_
  have := ops_inB (flatOps_ok _ _) o ho
  refine updL_good aV aC rfl (sub_tilesV hA vA hm hn) (sub_tilesV hA vA hm hn2) (fun _ h => List.mem_range.mp h) this ?_
  intro i j hi hj
  rw [opTt, subT_at' t1 t2]
  refine vT _ _ (sub_row hA hm (inB_row this)) (sub_col (p := p) (m := m) hA hn ?_) i j hi hj
  cases o <;> exact this.1

theorem lTt_eq (o : Op) : lTt id T o = T.at' o.col o.row := by cases o <;> rfl

theorem lq_good (hK : QrSpec K) (hA : A.Al b) (hT : T.id ≠ A.id) (vA : TilesV valid b A) (vT : TV valid T.d.mb b A T)
    (t1 : 0 < T.d.mb) (t2 : 0 < T.d.nb) {p q m n m' n' : Nat} (hm : p * b + m ≤ A.d.m) (hn : q * b + n ≤ A.d.n) :
    Good valid (pzgelqf K (A.sub (p * b) (q * b) m n) (T.sub (p * T.d.mb) (q * T.d.nb) m' n')) := by
  have aV := sub_al' hA p q m n
  rw [pzgelqf_eq K aV]
  refine lfac_good (T := T.sub (p * T.d.mb) (q * T.d.nb) m' n') hK aV hT (sub_tilesV hA vA hm hn) (ops_inB (flatOps_ok _ _)) fun o ho => ?_
  have := ops_inB (flatOps_ok _ _) o ho
  intro i j hi hj
  rw [lTt_eq, subT_at' t1 t2]
  exact vT _ _ (sub_row (q := q) (n := n) hA hm (inB_col this)) (sub_col (p := p) (m := m) hA hn (inB_row this)) i j hi hj

theorem unmlq_good (hA : A.Al b) (vA : TilesV valid b A) (vT : TV valid T.d.mb b A T)
    (t1 : 0 < T.d.mb) (t2 : 0 < T.d.nb) {p p' q m n m2 m' n' : Nat} (hm : p * b + m ≤ A.d.m) (hn : q * b + n ≤ A.d.n)
    (hm2 : p' * b + m2 ≤ A.d.m) :
    Good valid (pzunmlq (α := α) false true (A.sub (p * b) (q * b) m n) (T.sub (p * T.d.mb) (q * T.d.nb) m' n')
      (A.sub (p' * b) (q * b) m2 n)) := by
  have aV := sub_al' hA p q m n
  have aC := sub_al' hA p' q m2 n
  rw [pzunmlq_right_eq aV aC rfl]
  refine Good.flatMap fun o ho => ?_
  have := ops_inB (flatOps_ok _ _) o ho
  refine lupdR_good aV aC rfl (sub_tilesV hA vA hm hn) (sub_tilesV hA vA hm2 hn) (fun _ h => List.mem_range.mp h) this ?_
  intro i j hi hj
  rw [lTt_eq, subT_at' t1 t2]
  exact vT _ _ (sub_row (q := q) (n := n) hA hm (inB_col this)) (sub_col (p := p) (m := m) hA hn (inB_row this)) i j hi hj

theorem nview_in (hA : A.Al b) {k : Nat} (hk : k < A.d.nt) : k * b + A.d.nview k ≤ A.d.n := by
  have : k * b < A.d.n := by rw [← lt_ceilDiv hA.pos, ← hA.nt_eq]; exact hk
  rw [hA.nview hk]; unfold tdim; omega

theorem mview_in (hA : A.Al b) {k : Nat} (hk : k < A.d.mt) : k * b + A.d.mview k ≤ A.d.m := by
  have : k * b < A.d.m := by rw [← lt_ceilDiv hA.pos, ← hA.mt_eq]; exact hk
  rw [hA.mview hk]; unfold tdim; omega

theorem tile_lt_m (hA : A.Al b) {k : Nat} (hk : k < A.d.mt) : k * b < A.d.m := by
  rw [← lt_ceilDiv hA.pos, ← hA.mt_eq]; exact hk

theorem tile_lt_n (hA : A.Al b) {k : Nat} (hk : k < A.d.nt) : k * b < A.d.n := by
  rw [← lt_ceilDiv hA.pos, ← hA.nt_eq]; exact hk

theorem nt_le_mt (hA : A.Al b) (h : A.d.n ≤ A.d.m) {k : Nat} (hk : k < A.d.nt) : k < A.d.mt := by
  have := tile_lt_n hA hk
  rw [hA.mt_eq, lt_ceilDiv hA.pos]; omega

theorem mt_le_nt (hA : A.Al b) (h : A.d.m ≤ A.d.n) {k : Nat} (hk : k < A.d.mt) : k < A.d.nt := by
  have := tile_lt_m hA hk
  rw [hA.nt_eq, lt_ceilDiv hA.pos]; omega

theorem pzge2gb_good (hK : QrSpec K) (hA : A.Al b) (hT : T.id ≠ A.id) (vA : TilesV valid b A) (vT : TV valid T.d.mb b A T)
    (t1 : 0 < T.d.mb) (t2 : 0 < T.d.nb) : Good valid (pzge2gb K A T) := by
  unfold pzge2gb
  rw [hA.mb, hA.nb]
  refine Good.ite (fun hmn => Good.flatMap fun k hk => ?_) (fun hmn => Good.flatMap fun k hk => ?_)
  · rw [List.mem_range] at hk
    have h1 := tile_lt_n hA hk
    have h2 := nt_le_mt hA hmn hk
    have h3 := nview_in hA hk
    have h4 := mview_in hA h2
    have e1 : (k + 1) * b = k * b + b := by rw [Nat.add_mul, Nat.one_mul]
    refine (qr_good hK hA hT vA vT t1 t2 (by omega) h3).append
      ((Good.ite (fun h => ?_) fun _ => Good.nil).append (Good.ite (fun h => ?_) fun _ => Good.nil))
    · have := tile_lt_n hA h
      exact unmqr_good hA vA vT t1 t2 (by omega) h3 (by omega)
    · have := tile_lt_n hA h
      exact (lq_good hK hA hT vA vT t1 t2 h4 (by omega)).append (unmlq_good hA vA vT t1 t2 h4 (by omega) (by omega))
  · rw [List.mem_range] at hk
    have h1 := tile_lt_m hA hk
    have h2 := mt_le_nt hA (by omega) hk
    have h3 := mview_in hA hk
    have h4 := nview_in hA h2
    have e1 : (k + 1) * b = k * b + b := by rw [Nat.add_mul, Nat.one_mul]
    refine (lq_good hK hA hT vA vT t1 t2 h3 (by omega)).append
      ((Good.ite (fun h => ?_) fun _ => Good.nil).append (Good.ite (fun h => ?_) fun _ => Good.nil))
    · have := tile_lt_m hA h
      exact unmlq_good hA vA vT t1 t2 h3 (by omega) (by omega)
    · have := tile_lt_m hA h
      exact (qr_good hK hA hT vA vT t1 t2 (by omega) h4).append (unmqr_good hA vA vT t1 t2 (by omega) h4 (by omega))

theorem pzge2gb_writes (hA : A.Al b) : Writes (fun x => x.1 = A.id ∨ x.1 = T.id) (pzge2gb K A T) := by
  have w1 : ∀ p q m n i' j' m' n', Writes (fun x => x.1 = A.id ∨ x.1 = T.id)
      (pzgeqrf K (A.sub (p * b) (q * b) m n) (T.sub i' j' m' n')) := fun p q m n i' j' m' n' => by
    rw [pzgeqrf_eq K (sub_al' hA p q m n)]
    exact fac_writes
  have w2 : ∀ p q m n i' j' m' n', Writes (fun x => x.1 = A.id ∨ x.1 = T.id)
      (pzgelqf K (A.sub (p * b) (q * b) m n) (T.sub i' j' m' n')) := fun p q m n i' j' m' n' => by
    rw [pzgelqf_eq K (sub_al' hA p q m n)]
    refine (lfac_writes_tiles (ops_inB (flatOps_ok _ _))).mono ?_
    rintro x (⟨r, c, _, _, rfl⟩ | ⟨r, c, rfl⟩)
    exacts [Or.inl rfl, Or.inr rfl]
  have w3 : ∀ p q q' m n n2 i' j' m' n', Writes (fun x => x.1 = A.id ∨ x.1 = T.id)
      (pzunmqr (α := α) true true (A.sub (p * b) (q * b) m n) (T.sub i' j' m' n') (A.sub (p * b) (q' * b) m n2)) :=
    fun p q q' m n n2 i' j' m' n' => by
    rw [pzunmqr_left_eq (sub_al' hA p q m n) (sub_al' hA p q' m n2) rfl]
    refine Writes.flatMap fun o ho => (updL_writes o).mono ?_
    rintro x ⟨r, c, _, _, rfl⟩
    exact Or.inl rfl
  have w4 : ∀ p p' q m n m2 i' j' m' n', Writes (fun x => x.1 = A.id ∨ x.1 = T.id)
      (pzunmlq (α := α) false true (A.sub (p * b) (q * b) m n) (T.sub i' j' m' n') (A.sub (p' * b) (q * b) m2 n)) :=
    fun p p' q m n m2 i' j' m' n' => by
    rw [pzunmlq_right_eq (sub_al' hA p q m n) (sub_al' hA p' q m2 n) rfl]
    refine Writes.flatMap fun o ho => Writes.mono (lupdR_writes_tiles (N := (A.sub (p * b) (q * b) m n).d.mt) ?_) ?_
    · have := ops_inB (flatOps_ok _ _) o ho
      rwa [(sub_al' hA p' q m2 n).nt_eq, show (A.sub (p' * b) (q * b) m2 n).d.n = (A.sub (p * b) (q * b) m n).d.n from rfl,
        ← (sub_al' hA p q m n).nt_eq]
    · rintro x ⟨r, c, _, _, rfl⟩
      exact Or.inl rfl
  unfold pzge2gb
  rw [hA.mb, hA.nb]
  refine Writes.ite (fun hmn => Writes.flatMap fun k hk => ?_) (fun hmn => Writes.flatMap fun k hk => ?_)
  · exact Writes.append (w1 _ _ _ _ _ _ _ _) (Writes.append (Writes.ite (fun _ => w3 _ _ _ _ _ _ _ _ _ _) fun _ => Writes.nil)
      (Writes.ite (fun _ => Writes.append (w2 _ _ _ _ _ _ _ _) (w4 _ _ _ _ _ _ _ _ _ _)) fun _ => Writes.nil))
  · exact Writes.append (w2 _ _ _ _ _ _ _ _) (Writes.append (Writes.ite (fun _ => w4 _ _ _ _ _ _ _ _ _ _) fun _ => Writes.nil)
      (Writes.ite (fun _ => Writes.append (w1 _ _ _ _ _ _ _ _) (w3 _ _ _ _ _ _ _ _ _ _)) fun _ => Writes.nil))

/-! ### The views are inside the matrices -/

/-- `plasma_desc_view` accepts the submatrix: the tests of control/descriptor.c:376-380 (otherwise the program exits). -/
def ViewOK (d : Desc) (i j m n : Nat) : Prop := d.i + i + m ≤ d.gm ∧ d.j + j + n ≤ d.gn

/-- Every `plasma_desc_view` of `plasma_pzge2gb` at step `k` (compute/pzge2gb.c:41,42,51-53,61,62,69-71 and 84,85,94-96,
104,105,111-113). -/
def Ge2gbViews (A T : Desc) (k : Nat) : Prop :=
  if A.n ≤ A.m then
    ViewOK A (k * A.mb) (k * A.nb) (A.m - k * A.mb) (A.nview k) ∧
    ViewOK T (k * T.mb) (k * T.nb) (T.m - k * T.mb) (A.nview k) ∧
    (k + 1 < A.nt → ViewOK A (k * A.mb) ((k + 1) * A.nb) (A.m - k * A.mb) (A.n - (k + 1) * A.nb) ∧
      ViewOK A (k * A.mb) ((k + 1) * A.nb) (A.mview k) (A.n - (k + 1) * A.nb) ∧
      ViewOK T (k * T.mb) ((k + 1) * T.nb) T.mb (T.n - (k + 1) * T.nb) ∧
      ViewOK A ((k + 1) * A.mb) ((k + 1) * A.nb) (A.m - (k + 1) * A.mb) (A.n - (k + 1) * A.nb))
  else
    ViewOK A (k * A.mb) (k * A.nb) (A.mview k) (A.n - k * A.nb) ∧
    ViewOK T (k * T.mb) (k * T.nb) T.mb (T.n - k * T.nb) ∧
    (k + 1 < A.mt → ViewOK A ((k + 1) * A.mb) (k * A.nb) (A.m - (k + 1) * A.mb) (A.n - k * A.nb) ∧
      ViewOK A ((k + 1) * A.mb) (k * A.nb) (A.m - (k + 1) * A.mb) (A.nview k) ∧
      ViewOK T ((k + 1) * T.mb) (k * T.nb) (T.m - (k + 1) * T.mb) (A.nview k) ∧
      ViewOK A ((k + 1) * A.mb) ((k + 1) * A.nb) (A.m - (k + 1) * A.mb) (A.n - (k + 1) * A.nb))

theorem ge2gb_views (hA : A.Al b) (ha : A.d.i + A.d.m ≤ A.d.gm ∧ A.d.j + A.d.n ≤ A.d.gn)
    (ht : T.d.i + T.d.m ≤ T.d.gm ∧ T.d.j + T.d.n ≤ T.d.gn) (htn : T.d.nb = b)
    (htm' : T.d.m = A.d.mt * T.d.mb) (htn' : T.d.n = A.d.nt * b) {k : Nat} (hk : k < A.d.mt) (hk' : k < A.d.nt) :
    Ge2gbViews A.d T.d k := by
  have h1 := tile_lt_m hA hk
  have h2 := tile_lt_n hA hk'
  have h3 := mview_in hA hk
  have h4 := nview_in hA hk'
  have h4b := nview_le hA hk'
  have t1 : (k + 1) * T.d.mb ≤ T.d.m := by rw [htm']; exact Nat.mul_le_mul_right _ hk
  have t2 : (k + 1) * b ≤ T.d.n := by rw [htn']; exact Nat.mul_le_mul_right _ hk'
  have e1 : (k + 1) * b = k * b + b := by rw [Nat.add_mul, Nat.one_mul]
  have e2 : (k + 1) * T.d.mb = k * T.d.mb + T.d.mb := by rw [Nat.add_mul, Nat.one_mul]
  unfold Ge2gbViews ViewOK
  rw [hA.mb, hA.nb, htn]
  split
  · refine ⟨by omega, by omega, fun h => ?_⟩
    have h5 := tile_lt_n hA h
    have t3 : (k + 1 + 1) * b ≤ T.d.n := by rw [htn']; exact Nat.mul_le_mul_right _ h
    have e3 : (k + 1 + 1) * b = (k + 1) * b + b := by rw [Nat.add_mul, Nat.one_mul]
    refine ⟨by omega, by omega, by omega, by omega⟩
  · refine ⟨by omega, by omega, fun h => ?_⟩
    have h5 := tile_lt_m hA h
    have t3 : (k + 1 + 1) * T.d.mb ≤ T.d.m := by rw [htm']; exact Nat.mul_le_mul_right _ h
    have e3 : (k + 1 + 1) * T.d.mb = (k + 1) * T.d.mb + T.d.mb := by rw [Nat.add_mul, Nat.one_mul]
    refine ⟨by omega, by omega, by omega, by omega⟩

/-! ### Copy of the band -/

/-- `plasma_pzgecpy_tile2lapack_band` (compute/pzgecpy_tile2lapack_band.c:31-95), upper or lower band: `B` is the band
array cut into tiles, tile `(j, j)` at `pA_band(nb, j)` and tile `(j, j+1)` at `pA_band(0, j+1)` (upper) or tile `(j, j)`
at `pA_band(0, j)` and tile `(j+1, j)` at `pA_band(nb, j)` (lower), with leading dimension `lda_band-1`. -/
def bandCpy (up : Bool) (A B : TMat M) : List (TTask (M × Nat × Nat) α) :=
  (List.range (min A.d.mt A.d.nt)).flatMap fun j =>
    if up then
      coreLacpy (some .upper) .noTrans (A.d.mview j) (A.d.nview j) (A.at' j j) (B.at' j j) ::
      if j + 1 < min A.d.mt A.d.nt then
        [coreLacpy (some .lower) .noTrans (A.d.mview j) (A.d.nview (j + 1)) (A.at' j (j + 1)) (B.at' j (j + 1))] else []
    else
      coreLacpy (some .lower) .noTrans (A.d.mview j) (A.d.nview j) (A.at' j j) (B.at' j j) ::
      if j + 1 < min A.d.mt A.d.nt then
        [coreLacpy (some .upper) .noTrans (A.d.mview (j + 1)) (A.d.nview j) (A.at' (j + 1) j) (B.at' (j + 1) j)] else []

/-- Tiles of the band. -/
def bandTiles (up : Bool) (t : Nat) : List (Nat × Nat) :=
  (List.range t).flatMap fun j => (j, j) :: if j + 1 < t then [if up then (j, j + 1) else (j + 1, j)] else []

/-- The part of a band tile. -/
def bcSel (up : Bool) (p : Nat × Nat) : Uplo := if up = decide (p.1 = p.2) then .upper else .lower

/-- The task of a band tile. -/
def bcTask (up : Bool) (A B : TMat M) (p : Nat × Nat) : TTask (M × Nat × Nat) α :=
  coreLacpy (some (bcSel up p)) .noTrans (A.d.mview p.1) (A.d.nview p.2) (A.at' p.1 p.2) (B.at' p.1 p.2)

theorem bandCpy_eq (up : Bool) : bandCpy (α := α) up A B = (bandTiles up (min A.d.mt A.d.nt)).map (bcTask up A B) := by
  unfold bandCpy bandTiles
  rw [List.map_flatMap]
  refine List.flatMap_congr fun j _ => ?_
  cases up
  · simp only [Bool.false_eq_true, if_false, List.map_cons]
    refine congrArg₂ _ ?_ ?_
    · unfold bcTask bcSel; simp
    · split
      · unfold bcTask bcSel; simp
      · rfl
  · simp only [if_true, List.map_cons]
    refine congrArg₂ _ ?_ ?_
    · unfold bcTask bcSel; simp
    · split
      · unfold bcTask bcSel; simp
      · rfl

theorem mem_bandTiles {up : Bool} {t : Nat} {p : Nat × Nat} :
    p ∈ bandTiles up t ↔ p.1 < t ∧ p.2 < t ∧ (p.1 = p.2 ∨ if up then p.2 = p.1 + 1 else p.1 = p.2 + 1) := by
  obtain ⟨x, y⟩ := p
  unfold bandTiles
  rw [List.mem_flatMap]
  constructor
  · rintro ⟨j, hj, h⟩
    rw [List.mem_range] at hj
    rcases List.mem_cons.mp h with h | h
    · cases h; exact ⟨hj, hj, Or.inl rfl⟩
    · split at h
      · cases up <;> (simp at h; obtain ⟨rfl, rfl⟩ := h)
        · exact ⟨by omega, by omega, Or.inr rfl⟩
        · exact ⟨by omega, by omega, Or.inr rfl⟩
      · cases h
  · rintro ⟨h1, h2, h3⟩
    dsimp only at h1 h2 h3
    rcases h3 with rfl | h3
    · exact ⟨x, List.mem_range.mpr h1, List.mem_cons_self ..⟩
    · cases up
      · simp only [Bool.false_eq_true, if_false] at h3 ⊢
        subst h3
        exact ⟨y, List.mem_range.mpr h2, List.mem_cons_of_mem _ (by rw [if_pos h1]; simp)⟩
      · simp only [if_true] at h3 ⊢
        subst h3
        exact ⟨x, List.mem_range.mpr h1, List.mem_cons_of_mem _ (by rw [if_pos h2]; simp)⟩

theorem nodup_bandTiles (up : Bool) (t : Nat) : (bandTiles up t).Nodup := by
  unfold bandTiles
  rw [List.nodup_flatMap]
  constructor
  · intro j _
    rw [List.nodup_cons]
    constructor
    · split
      · cases up <;> simp
      · simp
    · split <;> simp
  · refine List.Pairwise.imp ?_ List.nodup_range
    intro a c hac x hx hy
    have hm : ∀ {a} {x : Nat × Nat}, x ∈ ((a, a) :: if a + 1 < t then [if up then (a, a + 1) else (a + 1, a)] else []) →
        min x.1 x.2 = a := by
      intro a x hx
      rcases List.mem_cons.mp hx with rfl | h
      · simp
      · split at h
        · rw [List.mem_singleton] at h
          subst h
          cases up <;> simp
        · cases h
    exact hac ((hm hx).symm.trans (hm hy))

/-- Band of the requested shape. -/
def BandP (up : Bool) (b r c : Nat) : Prop := if up then UBand b r c else LBand b r c

theorem bandP_split (hb : 0 < b) {up : Bool} {r c : Nat} : BandP up b r c ↔
    (r / b = c / b ∨ if up then c / b = r / b + 1 else r / b = c / b + 1) ∧
      stOK (some (bcSel up (r / b, c / b))) (r % b) (c % b) := by
  have h1 := Nat.div_add_mod r b
  have h2 := Nat.div_add_mod c b
  have h3 := Nat.mod_lt r hb
  have h4 := Nat.mod_lt c hb
  have key : ∀ x y, y + 1 ≤ x → b * y + b ≤ b * x := fun x y h => by
    have := Nat.mul_le_mul_left b h
    rw [Nat.mul_add, Nat.mul_one] at this
    exact this
  have k1 := key (r / b) (c / b)
  have k2 := key (c / b) (r / b)
  have k3 := key (r / b) (c / b + 1)
  have k4 := key (c / b) (r / b + 1)
  have e1 : b * (r / b + 1) = b * (r / b) + b := by rw [Nat.mul_add, Nat.mul_one]
  have e2 : b * (c / b + 1) = b * (c / b) + b := by rw [Nat.mul_add, Nat.mul_one]
  have k5 : r / b = c / b → b * (r / b) = b * (c / b) := fun h => by rw [h]
  have k6 : r / b = c / b + 1 → b * (r / b) = b * (c / b) + b := fun h => by rw [h, e2]
  have k7 : c / b = r / b + 1 → b * (c / b) = b * (r / b) + b := fun h => by rw [h, e1]
  rw [e1] at k4
  rw [e2] at k3
  unfold BandP bcSel stOK inTri UBand LBand
  generalize r / b = x at *
  generalize c / b = y at *
  generalize b * x = bx at *
  generalize b * y = by' at *
  cases up <;> by_cases hxy : x = y <;> simp [hxy] <;> omega

theorem mview_ok (hA : A.Al b) {r : Nat} (hr : r < A.d.m) : r % b < A.d.mview (r / b) := by
  rw [hA.mview (hA.row_mt hr)]; exact mod_lt_tdim hA.pos hr

theorem nview_ok (hA : A.Al b) {r : Nat} (hr : r < A.d.n) : r % b < A.d.nview (r / b) := by
  rw [hA.nview (hA.col_nt hr)]; exact mod_lt_tdim hA.pos hr

/-- The band is copied, the rest of the array stays. -/
theorem bandCpy_el (up : Bool) (hA : A.Al b) (hB : B.Al b) (hab : A.id ≠ B.id) (s : Store (M × Nat × Nat) α) {r c : Nat}
    (hr : r < A.d.m) (hc : c < A.d.n) (hr' : r < A.d.n) (hc' : c < A.d.m) :
    B.el (texec (bandCpy up A B) s) r c = mask (BandP up b) (A.el s) r c + mask (fun r c => ¬ BandP up b r c) (B.el s) r c := by
  classical
  have hb := hA.pos
  rw [bandCpy_eq, List.map_eq_flatMap]
  have hw : ∀ p, Writes (fun t => t = B.at' p.1 p.2) [bcTask (α := α) up A B p] := fun p => by unfold bcTask; exact writes_op1 rfl
  by_cases hp : (r / b, c / b) ∈ bandTiles up (min A.d.mt A.d.nt)
  · have hin : ∀ p, Within (fun t => t.1 = A.id ∨ t = B.at' p.1 p.2) [bcTask (α := α) up A B p] :=
      fun p => Within.op1 coreLacpy_local (Or.inl rfl) (Or.inr rfl)
    have := par (o := fun p : Nat × Nat => B.at' p.1 p.2) (body := fun p => [bcTask (α := α) up A B p]) (nodup_bandTiles up _)
      (fun p _ q _ h => Prod.ext (TMat.at'_inj.mp h).1 (TMat.at'_inj.mp h).2)
      (fun p _ => (hin p).mono fun t ht => ht.imp (fun h q _ e => by rw [e] at h; exact hab h.symm) id)
      (fun p _ => hw p) s hp
    simp only at this
    have e : B.el (texec ((bandTiles up (min A.d.mt A.d.nt)).flatMap fun p => [bcTask (α := α) up A B p]) s) r c =
        texec [bcTask (α := α) up A B (r / b, c / b)] s (B.at' (r / b) (c / b)) (r % b) (c % b) := by
      rw [← this]; simp only [TMat.el, hB.mb, hB.nb]
    rw [e, texec_cons, texec_nil]
    have h3 : r / b = c / b ∨ if up then c / b = r / b + 1 else r / b = c / b + 1 := (mem_bandTiles.mp hp).2.2
    unfold bcTask
    rw [coreLacpy_run (Or.inl rfl) s (by rw [if_pos rfl]; exact ⟨mview_ok hA hr, nview_ok hA hc⟩)]
    by_cases hB' : BandP up b r c
    · rw [mask_pos hB', mask_neg (fun h => h hB'), add_zero]
      have := ((bandP_split hb).mp hB').2
      refine (if_pos (by simpa [stTr] using this)).trans ?_
      simp [opE, TMat.el, hA.mb, hA.nb]
    · rw [mask_neg hB', mask_pos hB', zero_add]
      refine (if_neg (fun h => hB' ((bandP_split hb).mpr ⟨h3, by simpa [stTr] using h⟩))).trans ?_
      simp [TMat.el, hB.mb, hB.nb]
  · have hB' : ¬ BandP up b r c := by
      intro h
      apply hp
      rw [mem_bandTiles]
      refine ⟨?_, ?_, ((bandP_split hb).mp h).1⟩
      · exact lt_min (hA.row_mt hr) (hA.col_nt hr')
      · exact lt_min (hA.row_mt hc') (hA.col_nt hc)
    rw [mask_neg hB', mask_pos hB', zero_add]
    unfold TMat.el
    rw [hB.mb, hB.nb, par_frame (o := fun p : Nat × Nat => B.at' p.1 p.2) (body := fun p => [bcTask (α := α) up A B p]) (fun p _ => hw p)]
    intro q hq he
    rw [TMat.at'_inj] at he
    apply hp
    rwa [show (r / b, c / b) = q from Prod.ext he.1 he.2]

theorem bandCpy_writes (up : Bool) : Writes (fun x => x.1 = B.id) (bandCpy (α := α) up A B) := by
  rw [bandCpy_eq]
  exact Writes.map fun p _ => by unfold bcTask; exact writes_op1 rfl

/-- The elements of the band of the band array exist. -/
def BandV (valid : Foot (M × Nat × Nat)) (up : Bool) (b : Nat) (A B : TMat M) : Prop :=
  ∀ m n i j, m * b + i < min A.d.m A.d.n → n * b + j < min A.d.m A.d.n → i < b → j < b →
    BandP up b (m * b + i) (n * b + j) → valid (B.at' m n) i j

/-- The elements of a band tile that are copied. -/
theorem bc_foot {up : Bool} (hA : A.Al b) (hup : if up then A.d.n ≤ A.d.m else A.d.m ≤ A.d.n) {p : Nat × Nat}
    (hp : p ∈ bandTiles up (min A.d.mt A.d.nt)) {i j : Nat}
    (hij : (i, j) ∈ (lacpyIdx (some (bcSel up p)) .noTrans (A.d.mview p.1) (A.d.nview p.2)).map (lacpyDst .noTrans)) :
    p.1 * b + i < min A.d.m A.d.n ∧ p.2 * b + j < min A.d.m A.d.n ∧ i < b ∧ j < b ∧
      BandP up b (p.1 * b + i) (p.2 * b + j) := by
  have hb := hA.pos
  obtain ⟨h1, h2, h3⟩ := mem_bandTiles.mp hp
  rw [lt_min_iff] at h1 h2
  rw [mem_lacpyDst, if_pos rfl, mem_lacpyIdx (Or.inl rfl), hA.mview h1.1, hA.nview h2.2, tdim_row, tdim_row] at hij
  obtain ⟨⟨q1, q2⟩, ⟨q3, q4⟩, q5⟩ := hij
  have d1 : (p.1 * b + i) / b = p.1 := by rw [Nat.mul_comm, Nat.mul_add_div hb, Nat.div_eq_of_lt q1, Nat.add_zero]
  have d2 : (p.2 * b + j) / b = p.2 := by rw [Nat.mul_comm, Nat.mul_add_div hb, Nat.div_eq_of_lt q3, Nat.add_zero]
  have d3 : (p.1 * b + i) % b = i := by rw [Nat.mul_comm, Nat.mul_add_mod, Nat.mod_eq_of_lt q1]
  have d4 : (p.2 * b + j) % b = j := by rw [Nat.mul_comm, Nat.mul_add_mod, Nat.mod_eq_of_lt q3]
  have hB : BandP up b (p.1 * b + i) (p.2 * b + j) := by
    rw [bandP_split hb, d1, d2, d3, d4]
    exact ⟨h3, q5⟩
  refine ⟨?_, ?_, q1, q3, hB⟩ <;>
  · unfold BandP UBand LBand at hB
    cases up <;> simp at hB hup <;> omega

theorem bandCpy_good (up : Bool) (hA : A.Al b) (hup : if up then A.d.n ≤ A.d.m else A.d.m ≤ A.d.n) (vA : TilesV valid b A)
    (vB : BandV valid up b A B) : Good valid (bandCpy (α := α) up A B) := by
  have hb := hA.pos
  rw [bandCpy_eq]
  refine Good.map fun p hp => Good.single coreLacpy_local op1_declared ?_
  obtain ⟨h1, h2, h3⟩ := mem_bandTiles.mp hp
  rw [lt_min_iff] at h1 h2
  unfold bcTask coreLacpy
  refine op1_inside ?_ ?_
  · intro i j hij
    rw [mem_lacpyIdx (Or.inl rfl), hA.mview h1.1, hA.nview h2.2] at hij
    exact vA _ _ _ _ hij.1 hij.2.1
  · intro i j hij
    obtain ⟨q1, q2, q3, q4, q5⟩ := bc_foot hA hup hp hij
    exact vB _ _ _ _ q1 q2 q3 q4 q5

/-- Only elements of the band are written. -/
theorem bandCpy_writesE (up : Bool) (hA : A.Al b) (hup : if up then A.d.n ≤ A.d.m else A.d.m ≤ A.d.n) :
    WritesE (fun x i j => ∃ m n, x = B.at' m n ∧ m * b + i < min A.d.m A.d.n ∧ n * b + j < min A.d.m A.d.n ∧ i < b ∧ j < b ∧
      BandP up b (m * b + i) (n * b + j)) (bandCpy (α := α) up A B) := by
  rw [bandCpy_eq]
  refine WritesE.map fun p hp => WritesE.single fun x i j hw => ?_
  exact ⟨p.1, p.2, hw.1, bc_foot hA hup hp hw.2⟩

end

end Verif.Qr

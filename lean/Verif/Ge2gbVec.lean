/-
The unitary matrices of the reduction to band form as `plasma_pzunmqr` and `plasma_pzunmlq` apply them afterwards:
compute/pzge2gb.c, compute/zgesdd.c:679-705, 735-765.
-/
import Verif.Ge2gbBand

namespace Verif.Qr

open Verif.Layout Verif.Tile Verif.Tree Finset Matrix

universe u v

set_option linter.unusedSectionVars false

section
variable {α : Type v} [CommRing α] [StarRing α]

/-! ### Nested embeddings -/

theorem selM_selM {m d e : Nat} {f g : Nat → Nat} (hg : ∀ l, l < e → g l < d) :
    selM α m d f * selM α d e g = selM α m e (fun l => f (g l)) := by
  ext i j
  rw [mul_apply]
  unfold selM
  rw [Finset.sum_eq_single (⟨g j, hg j j.2⟩ : Fin d)]
  · simp only [of_apply, if_true, mul_one]
  · intro l _ hl
    simp only [of_apply]
    rw [if_neg (c := (l : Nat) = g j) (fun h => hl (Fin.ext h)), mul_zero]
  · intro h; exact absurd (Finset.mem_univ _) h

theorem gemb_gemb {m d e : Nat} {f g : Nat → Nat} (hg : ∀ l, l < e → g l < d) (q : Matrix (Fin e) (Fin e) α) :
    gemb m f (gemb d g q) = gemb m (fun l => f (g l)) q := by
  unfold gemb
  rw [← selM_selM hg, conjTranspose_mul, add_sub_cancel_left]
  simp only [Matrix.mul_assoc]

theorem gemb_congr {m d : Nat} {f g : Nat → Nat} (h : ∀ l, l < d → f l = g l) (q : Matrix (Fin d) (Fin d) α) :
    gemb m f q = gemb m g q := by
  have : selM α m d f = selM α m d g := by
    ext i l
    unfold selM
    simp only [of_apply, h l l.2]
  unfold gemb
  rw [this]

theorem gemb_self {m : Nat} {f : Nat → Nat} (h : ∀ l, l < m → f l = l) (q : Matrix (Fin m) (Fin m) α) : gemb m f q = q := by
  have : selM α m m f = 1 := by
    ext i l
    unfold selM
    rw [of_apply, h l l.2, Matrix.one_apply]
    simp only [Fin.ext_iff]
  unfold gemb
  rw [this, conjTranspose_one]
  simp

theorem gemb_prod {m d : Nat} {f : Nat → Nat} (h : RowMap m d f) (L : List (Matrix (Fin d) (Fin d) α)) :
    gemb m f L.prod = (L.map (gemb m f)).prod := by
  induction L with
  | nil => exact gemb_one
  | cons q L ih => rw [List.prod_cons, ← gemb_mul h, ih, List.map_cons, List.prod_cons]

end

section
variable {M : Type u} {α : Type v} [CommRing α] [StarRing α] {A A' T T' V : TMat M} {b ib : Nat}

/-! ### An operation seen from two views -/

theorem gemb_wy {m d d' k k' : Nat} {f f' : Nat → Nat} {v v' t t' : Nat → Nat → α} (hd : d = d') (hk : k = k')
    (hv : v = v') (ht : t = t') (hf : ∀ l, l < d → f l = f' l) :
    gemb m f (wy d k ib v t) = gemb m f' (wy d' k' ib v' t') := by
  subst hd hk hv ht
  exact gemb_congr hf _

theorem opRho_lt' {mm : Nat} {k : Nat} (hk : k * b < mm) {l : Nat} (hl : l < opDim b mm (.ge k k)) :
    opRho b mm (.ge k k) l < mm := by
  have hl : l < min b (mm - k * b) := hl
  show k * b + l < mm
  omega

theorem opRho_lt2 {mm : Nat} {j k m : Nat} (hk : k * b < mm) (hm : m * b < mm) {l : Nat} (hl : l < opDim b mm (.ts j m k)) :
    opRho b mm (.ts j m k) l < mm := by
  have hl : l < min b (mm - k * b) + min b (mm - m * b) := hl
  show (if l < min b (mm - k * b) then k * b + l else m * b + (l - min b (mm - k * b))) < mm
  split <;> omega

/-- A panel of the list of operations of a view is the list of operations of the panel. -/
theorem tree_view {m mx nx my w p k : Nat} (hmx : mx = m - p * b) (hmy : my = m - (p + k) * b) (hb : 0 < b) (hk : k * b < mx)
    (hw : w ≤ b)
    (hK : min (tdim mx b k) (tdim nx b k) = min (tdim mx b k) w)
    (hA : ∀ r, A'.at' (k + r) k = V.at' r 0) (hT : ∀ r, T'.at' (k + r) k = T.at' r 0) (s : Store (M × Nat × Nat) α) :
    gemb m (fun i => p * b + i) ((flatTree k k (ceilDiv mx b - k)).map (opQ b mx nx ib id A' T' s)).prod =
      gemb m (fun i => (p + k) * b + i) ((flatTree 0 0 (ceilDiv my b)).map (opQ b my w ib id V T s)).prod := by
  have hpk : (p + k) * b = p * b + k * b := Nat.add_mul _ _ _
  have hd : ∀ r, tdim mx b (k + r) = tdim my b r := fun r => by
    have : (k + r) * b = k * b + r * b := Nat.add_mul _ _ _
    unfold tdim; omega
  have hd0 : tdim mx b k = tdim my b 0 := hd 0
  have hmt : ceilDiv mx b - k = ceilDiv my b := by
    apply Nat.le_antisymm
    · by_contra h
      have h1 : k + ceilDiv my b < ceilDiv mx b := by omega
      have h2 : ¬ ceilDiv my b < ceilDiv my b := lt_irrefl _
      rw [lt_ceilDiv hb] at h1 h2
      have : (k + ceilDiv my b) * b = k * b + ceilDiv my b * b := Nat.add_mul _ _ _
      omega
    · by_contra h
      have h1 : ceilDiv mx b - k < ceilDiv my b := by omega
      have h2 : ¬ ceilDiv mx b < ceilDiv mx b := lt_irrefl _
      have h3 : k < ceilDiv mx b := by rw [lt_ceilDiv hb]; exact hk
      rw [lt_ceilDiv hb] at h1 h2
      have h4 : ceilDiv mx b = k + (ceilDiv mx b - k) := by omega
      have h5 : (k + (ceilDiv mx b - k)) * b = k * b + (ceilDiv mx b - k) * b := Nat.add_mul _ _ _
      rw [← h4] at h5
      omega
  rw [gemb_prod (hmx ▸ rowMap_add m (p * b)), gemb_prod (hmy ▸ rowMap_add m ((p + k) * b)), List.map_map, List.map_map]
  unfold flatTree
  simp only [List.map_cons, List.prod_cons, List.map_map]
  have hw0 : tdim w b 0 = w := by unfold tdim; omega
  have e1 : gemb m (fun i => p * b + i) (opQ b mx nx ib id A' T' s (.ge k k)) =
      gemb m (fun i => (p + k) * b + i) (opQ b my w ib id V T s (.ge 0 0)) := by
    unfold opQ
    rw [gemb_gemb (fun l hl => opRho_lt' hk hl), gemb_gemb (fun l hl => opRho_lt' (by omega) hl)]
    unfold opq
    refine gemb_wy hd0 ?_ ?_ ?_ ?_
    · show min (tdim mx b k) (tdim nx b k) = min (tdim my b 0) (tdim w b 0)
      rw [hK, hd0, hw0]
    · show geV (s (A'.at' k k)) = geV (s (V.at' 0 0))
      have := hA 0
      rw [Nat.add_zero] at this
      rw [this]
    · show s (T'.at' k k) = s (T.at' 0 0)
      have := hT 0
      rw [Nat.add_zero] at this
      rw [this]
    · intro l _
      show p * b + (k * b + l) = (p + k) * b + (0 * b + l)
      omega
  have e2 : ∀ r, 0 < r → r * b < my → gemb m (fun i => p * b + i) (opQ b mx nx ib id A' T' s (.ts k (k + r) k)) =
      gemb m (fun i => (p + k) * b + i) (opQ b my w ib id V T s (.ts 0 r 0)) := by
    intro r hr hrm
    have hkr : (k + r) * b = k * b + r * b := Nat.add_mul _ _ _
    have hbr : b ≤ r * b := Nat.le_mul_of_pos_left b hr
    unfold opQ
    rw [gemb_gemb (fun l hl => opRho_lt2 hk (by omega) hl), gemb_gemb (fun l hl => opRho_lt2 (by omega) hrm hl)]
    unfold opq
    refine gemb_wy ?_ ?_ ?_ ?_ ?_
    · show tdim mx b k + tdim mx b (k + r) = tdim my b 0 + tdim my b r
      rw [hd, hd0]
    · show min (tdim mx b k + tdim mx b (k + r)) (tdim nx b k) = min (tdim my b 0 + tdim my b r) (tdim w b 0)
      rw [hd, ← hd0, hw0]
      have h1 : tdim mx b k = b := by unfold tdim; omega
      have h2 : tdim nx b k ≤ b := Nat.min_le_left _ _
      rw [h1] at hK ⊢
      omega
    · show tsV (tdim mx b k) (s (A'.at' (k + r) k)) = tsV (tdim my b 0) (s (V.at' r 0))
      rw [hA, hd0]
    · show s (T'.at' (k + r) k) = s (T.at' r 0)
      rw [hT]
    · intro l _
      show p * b + (if l < tdim mx b k then k * b + l else (k + r) * b + (l - tdim mx b k)) =
        (p + k) * b + (if l < tdim my b 0 then 0 * b + l else r * b + (l - tdim my b 0))
      rw [hd0]
      split <;> omega
  rw [hmt]
  show gemb m _ (opQ b mx nx ib id A' T' s (.ge k k)) * _ = gemb m _ (opQ b my w ib id V T s (.ge 0 0)) * _
  rw [e1]
  refine congrArg _ (congrArg List.prod ?_)
  rw [show List.range' (k + 1) (ceilDiv my b - 1) = (List.range' (0 + 1) (ceilDiv my b - 1)).map (k + ·) from ?_, List.map_map]
  · refine List.map_congr_left fun r hr => ?_
    rw [List.mem_range'_1] at hr
    refine e2 r (by omega) ?_
    rw [← lt_ceilDiv hb]
    omega
  · rw [List.map_add_range']

/-! ### The product of the panels -/

/-- Product of the matrices of the panels at the tiles `(p + k, q + k)`. -/
noncomputable def qPans (b ib : Nat) (A : TMat M) (Tk : Nat → TMat M) (s : Store (M × Nat × Nat) α) (p q : Nat) (w : Nat → Nat) :
    Nat → Matrix (Fin A.d.m) (Fin A.d.m) α
  | 0 => 1
  | k + 1 => qPans b ib A Tk s p q w k * qPan b ib A (Tk k) s (p + k) (q + k) (w k)

theorem qPan_congr {s s' : Store (M × Nat × Nat) α} {p q w : Nat} (hA : A.Al b) (hw : w ≤ b)
    (h1 : ∀ r, s (A.at' (p + r) q) = s' (A.at' (p + r) q)) (h2 : ∀ r, s (T.at' r 0) = s' (T.at' r 0)) :
    qPan b ib A T s p q w = qPan b ib A T s' p q w := by
  have aV := sub_al' hA p q (A.d.m - p * b) w
  have hVnt : (A.sub (p * b) (q * b) (A.d.m - p * b) w).d.nt ≤ 1 := by rw [aV.nt_eq]; exact ceilDiv_le_one hA.pos hw
  unfold qPan qAll
  refine congrArg _ (congrArg List.prod (List.map_congr_left fun o h => ?_))
  have h3 := inB_col (ops_inB (flatOps_ok _ _) o h)
  have h4 : o.col = 0 := by omega
  refine opQ_congr ?_ ?_
  · rw [sub_at' hA, h4]
    exact h1 _
  · have : opTc id o = 0 := by cases o <;> exact h4
    rw [this]
    exact h2 _

theorem qPans_congr {s s' : Store (M × Nat × Nat) α} {Tk : Nat → TMat M} {p q : Nat} {w : Nat → Nat} (hA : A.Al b) {N : Nat}
    (hw : ∀ k, k < N → w k ≤ b)
    (h1 : ∀ k, k < N → ∀ r, s (A.at' (p + k + r) (q + k)) = s' (A.at' (p + k + r) (q + k)))
    (h2 : ∀ k, k < N → ∀ r, s ((Tk k).at' r 0) = s' ((Tk k).at' r 0)) :
    qPans b ib A Tk s p q w N = qPans b ib A Tk s' p q w N := by
  induction N with
  | zero => rfl
  | succ N ih =>
    unfold qPans
    rw [ih (fun k hk => hw k (by omega)) (fun k hk => h1 k (by omega)) (fun k hk => h2 k (by omega)),
      qPan_congr hA (hw N (by omega)) (h1 N (by omega)) (h2 N (by omega))]

/-- **The operations of a view give the product of the panels.** -/
theorem qAll_view {mx nx p q N : Nat} {Tk : Nat → TMat M} {w : Nat → Nat} (hA : A.Al b) (hmx : mx = A.d.m - p * b)
    (hN : ∀ k, k < N → k * b < mx) (hw : ∀ k, k < N → 0 < w k ∧ w k ≤ b)
    (hK : ∀ k, k < N → min (tdim mx b k) (tdim nx b k) = min (tdim mx b k) (w k))
    (hA' : ∀ r c, A'.at' r c = A.at' (p + r) (q + c))
    (hT : ∀ k, k < N → ∀ r, T'.at' (k + r) k = (Tk k).at' r 0) (s : Store (M × Nat × Nat) α) :
    gemb A.d.m (fun i => p * b + i)
      (qAll b mx nx ib id A' T' s ((List.range N).flatMap fun k => flatTree k k (ceilDiv mx b - k))) =
      qPans b ib A Tk s p q w N := by
  induction N with
  | zero => exact gemb_one
  | succ N ih =>
    have hR : RowMap A.d.m mx (fun i => p * b + i) := hmx ▸ rowMap_add A.d.m (p * b)
    unfold qAll at ih ⊢
    rw [List.range_succ, List.flatMap_append, List.map_append, List.prod_append, ← gemb_mul hR,
      ih (fun k hk => hN k (by omega)) (fun k hk => hw k (by omega)) (fun k hk => hK k (by omega)) (fun k hk => hT k (by omega)),
      List.flatMap_singleton]
    show _ = qPans b ib A Tk s p q w N * qPan b ib A (Tk N) s (p + N) (q + N) (w N)
    refine congrArg (qPans b ib A Tk s p q w N * ·) ?_
    have hb := hA.pos
    have aV := sub_al' hA (p + N) (q + N) (A.d.m - (p + N) * b) (w N)
    have h0 := hw N (by omega)
    have hpN : (p + N) * b = p * b + N * b := Nat.add_mul _ _ _
    have hNx := hN N (by omega)
    have hnt : (A.sub ((p + N) * b) ((q + N) * b) (A.d.m - (p + N) * b) (w N)).d.nt = 1 := by
      refine Nat.le_antisymm (by rw [aV.nt_eq]; exact ceilDiv_le_one hb h0.2) ?_
      show 0 < _
      rw [aV.nt_eq, lt_ceilDiv hb, Nat.zero_mul]
      exact h0.1
    have hmt : (A.sub ((p + N) * b) ((q + N) * b) (A.d.m - (p + N) * b) (w N)).d.mt = ceilDiv (A.d.m - (p + N) * b) b := aV.mt_eq
    have hmt0 : 0 < ceilDiv (A.d.m - (p + N) * b) b := by rw [lt_ceilDiv hb]; omega
    unfold qPan qAll
    rw [hnt, hmt]
    have hfo : flatOps (ceilDiv (A.d.m - (p + N) * b) b) 1 = flatTree 0 0 (ceilDiv (A.d.m - (p + N) * b) b) := by
      unfold flatOps
      rw [Nat.min_eq_right hmt0]
      simp
    rw [hfo]
    refine tree_view hmx rfl hb hNx h0.2 (hK N (by omega)) (fun r => ?_) (hT N (by omega)) s
    rw [hA', sub_at' hA]
    congr 1 <;> omega

/-! ### The matrices of the reduction -/

theorem tsub_at (h1 : 0 < T.d.mb) (h2 : 0 < T.d.nb) (p q m n r c : Nat) :
    (T.sub (p * T.d.mb) (q * T.d.nb) m n).at' r c = T.at' (p + r) (q + c) := by
  have e1 : (T.d.i + p * T.d.mb) / T.d.mb = T.d.i / T.d.mb + p := Nat.add_mul_div_right _ _ h1
  have e2 : (T.d.j + q * T.d.nb) / T.d.nb = T.d.j / T.d.nb + q := Nat.add_mul_div_right _ _ h2
  show (T.id, r + (T.d.i + p * T.d.mb) / T.d.mb, c + (T.d.j + q * T.d.nb) / T.d.nb) =
    (T.id, p + r + T.d.i / T.d.mb, q + c + T.d.j / T.d.nb)
  rw [e1, e2]
  congr 2 <;> omega

theorem lPan_eq (s : Store (M × Nat × Nat) α) (p q h : Nat) :
    lPan b ib A T s p q h = (qPan b ib A.trp T.trp ((tFlip T.id).tr s) q p h)ᴴ := by
  unfold lPan qPan lqAll
  rw [gemb_star]
  rfl

/-- Product of the QR panels of the first `N` steps (compute/pzge2gb.c:41-46 for `p = 0`, 89-94 for `p = 1`). -/
noncomputable def redQ (b ib : Nat) (A T : TMat M) (s : Store (M × Nat × Nat) α) (p N : Nat) : Matrix (Fin A.d.m) (Fin A.d.m) α :=
  qPans b ib A (fun k => T.sub ((p + k) * T.d.mb) (k * T.d.nb) (T.d.m - (p + k) * T.d.mb) (A.d.nview k)) s p 0 A.d.nview N

/-- Product of the LQ panels of the first `N` steps (compute/pzge2gb.c:58-63 for `q = 1`, 76-81 for `q = 0`). -/
noncomputable def redP (b ib : Nat) (A T : TMat M) (s : Store (M × Nat × Nat) α) (q N : Nat) : Matrix (Fin A.d.n) (Fin A.d.n) α :=
  (qPans b ib A.trp (fun k => (T.sub (k * T.d.mb) ((q + k) * T.d.nb) T.d.mb (T.d.n - (q + k) * T.d.nb)).trp)
    ((tFlip T.id).tr s) q 0 A.d.mview N)ᴴ

theorem redQ_zero (s : Store (M × Nat × Nat) α) (p : Nat) : redQ b ib A T s p 0 = 1 := rfl

theorem redP_zero (s : Store (M × Nat × Nat) α) (q : Nat) : redP b ib A T s q 0 = 1 := conjTranspose_one

theorem redQ_succ (s : Store (M × Nat × Nat) α) (p k : Nat) : redQ b ib A T s p (k + 1) = redQ b ib A T s p k *
    qPan b ib A (T.sub ((p + k) * T.d.mb) (k * T.d.nb) (T.d.m - (p + k) * T.d.mb) (A.d.nview k)) s (p + k) k (A.d.nview k) := by
  unfold redQ
  rw [qPans, Nat.zero_add]

theorem redP_succ (s : Store (M × Nat × Nat) α) (q k : Nat) : redP b ib A T s q (k + 1) =
    lPan b ib A (T.sub (k * T.d.mb) ((q + k) * T.d.nb) T.d.mb (T.d.n - (q + k) * T.d.nb)) s k (q + k) (A.d.mview k) *
    redP b ib A T s q k := by
  unfold redP
  rw [qPans, lPan_eq]
  refine (conjTranspose_mul _ _).trans ?_
  rw [Nat.zero_add]
  rfl

theorem redQ_congr {s s' : Store (M × Nat × Nat) α} (hA : A.Al b) (h1 : 0 < T.d.mb) (h2 : 0 < T.d.nb) {p N : Nat} (hN : N ≤ A.d.nt)
    (h : ∀ i j, j < N → s (A.at' i j) = s' (A.at' i j) ∧ s (T.at' i j) = s' (T.at' i j)) :
    redQ b ib A T s p N = redQ b ib A T s' p N := by
  refine qPans_congr hA (fun k hk => nview_le hA (by omega)) (fun k hk r => ?_) fun k hk r => ?_
  · exact (h _ _ (by omega)).1
  · rw [tsub_at h1 h2]
    exact (h _ _ (by omega)).2

theorem redP_congr {s s' : Store (M × Nat × Nat) α} (hA : A.Al b) (h1 : 0 < T.d.mb) (h2 : 0 < T.d.nb) {q N : Nat} (hN : N ≤ A.d.mt)
    (h : ∀ i j, i < N → s (A.at' i j) = s' (A.at' i j) ∧ s (T.at' i j) = s' (T.at' i j)) :
    redP b ib A T s q N = redP b ib A T s' q N := by
  unfold redP
  refine congrArg _ (qPans_congr (trp_al hA) (fun k hk => nview_le (trp_al hA) (by show k < A.d.mt; omega)) (fun k hk r => ?_) fun k hk r => ?_)
  · unfold Flip.tr
    refine congrArg _ ?_
    rw [tFlip_nm]
    exact (h _ (q + k + r) (by omega)).1
  · unfold Flip.tr
    refine congrArg _ ?_
    rw [tFlip_nm]
    show s ((T.sub (k * T.d.mb) ((q + k) * T.d.nb) T.d.mb (T.d.n - (q + k) * T.d.nb)).at' 0 r) =
      s' ((T.sub (k * T.d.mb) ((q + k) * T.d.nb) T.d.mb (T.d.n - (q + k) * T.d.nb)).at' 0 r)
    rw [tsub_at h1 h2]
    exact (h _ _ (by omega)).2

/-- **The matrix that `plasma_pzunmqr` applies** for the view of `A` and `T` from tile row `p` is the product of the QR panels. -/
theorem redQ_view {mx nx mt nt p N : Nat} (hA : A.Al b) (h1 : 0 < T.d.mb) (h2 : 0 < T.d.nb) (hmx : mx = A.d.m - p * b)
    (hmt : mt = ceilDiv mx b) (hmin : min mt nt = N) (hN : N ≤ A.d.nt)
    (hK : ∀ k, k < N → min (tdim mx b k) (tdim nx b k) = min (tdim mx b k) (A.d.nview k))
    (hA' : ∀ r c, A'.at' r c = A.at' (p + r) c) (hT' : ∀ r c, T'.at' r c = T.at' (p + r) c) (s : Store (M × Nat × Nat) α) :
    gemb A.d.m (fun i => p * b + i) (qAll b mx nx ib id A' T' s (flatOps mt nt)) = redQ b ib A T s p N := by
  have hb := hA.pos
  unfold flatOps redQ
  rw [hmin, hmt]
  refine qAll_view hA hmx (fun k hk => ?_) (fun k hk => ⟨?_, nview_le hA (by omega)⟩) hK
    (fun r c => by rw [hA', Nat.zero_add]) (fun k hk r => ?_) s
  · rw [← lt_ceilDiv hb, ← hmt]; omega
  · have hk : k < A.d.nt := by omega
    have := hA.nview hk
    rw [hA.nt_eq, lt_ceilDiv hb] at hk
    unfold tdim at this
    omega
  · rw [tsub_at h1 h2, hT']
    congr 1; omega

/-- **The matrix that `plasma_pzunmlq` applies** for the view of `A` and `T` from tile column `q` is the product of the LQ panels. -/
theorem redP_view {mx nx mt nt q N : Nat} (hA : A.Al b) (h1 : 0 < T.d.mb) (h2 : 0 < T.d.nb) (hnx : nx = A.d.n - q * b)
    (hnt : nt = ceilDiv nx b) (hmin : min nt mt = N) (hN : N ≤ A.d.mt)
    (hK : ∀ k, k < N → min (tdim nx b k) (tdim mx b k) = min (tdim nx b k) (A.d.mview k))
    (hA' : ∀ r c, A'.at' r c = A.at' r (q + c)) (hT' : ∀ r c, T'.at' r c = T.at' r (q + c)) (s : Store (M × Nat × Nat) α) :
    gemb A.d.n (fun i => q * b + i) (lqAll (tFlip T.id) b mx nx ib id A' T'.trp s (flatOps nt mt)) = redP b ib A T s q N := by
  have hb := hA.pos
  have trpat : ∀ (X Y : TMat M) (r c r' c' : Nat), X.at' c r = Y.at' c' r' → X.trp.at' r c = Y.trp.at' r' c' := by
    intro X Y r c r' c' e
    have e' : (X.id, c + X.d.i / X.d.mb, r + X.d.j / X.d.nb) = (Y.id, c' + Y.d.i / Y.d.mb, r' + Y.d.j / Y.d.nb) := e
    show (X.id, r + X.d.j / X.d.nb, c + X.d.i / X.d.mb) = (Y.id, r' + Y.d.j / Y.d.nb, c' + Y.d.i / Y.d.mb)
    simp only [Prod.mk.injEq] at e' ⊢
    exact ⟨e'.1, e'.2.2, e'.2.1⟩
  unfold lqAll redP
  rw [← gemb_star]
  refine congrArg _ ?_
  unfold flatOps
  rw [hmin, hnt]
  refine qAll_view (A := A.trp) (trp_al hA) hnx (fun k hk => ?_) (fun k hk => ⟨?_, nview_le (trp_al hA) (by show k < A.d.mt; omega)⟩) hK
    (fun r c => trpat _ _ _ _ _ _ (by rw [hA', Nat.zero_add])) (fun k hk r => trpat _ _ _ _ _ _ ?_) _
  · rw [← lt_ceilDiv hb, ← hnt]; omega
  · have hk : k < A.d.mt := by omega
    have := hA.mview hk
    rw [hA.mt_eq, lt_ceilDiv hb] at hk
    unfold tdim at this
    show 0 < A.d.mview k
    omega
  · rw [tsub_at h1 h2, hT']
    congr 1; omega

/-- What a step leaves alone. -/
theorem step_frame {s s' : Store (M × Nat × Nat) α} (hT : T.id ≠ A.id) (h1 : 0 < T.d.mb) (h2 : 0 < T.d.nb) {p q m n : Nat}
    (hF : ∀ x, (∀ r c, x ≠ A.at' (p + r) (q + c)) → (∀ r c, x ≠ (T.sub (p * T.d.mb) (q * T.d.nb) m n).at' r c) → s' x = s x)
    {i j : Nat} (h : i < p ∨ j < q) : s (A.at' i j) = s' (A.at' i j) ∧ s (T.at' i j) = s' (T.at' i j) := by
  constructor
  · refine (hF _ (fun r c e => ?_) fun r c e => ?_).symm
    · have := TMat.at'_inj.mp e; omega
    · exact TMat.at'_ne (show A.id ≠ (T.sub (p * T.d.mb) (q * T.d.nb) m n).id from hT.symm) e
  · refine (hF _ (fun r c e => TMat.at'_ne hT e) fun r c e => ?_).symm
    rw [tsub_at h1 h2] at e
    have := TMat.at'_inj.mp e; omega

variable {K : QrKern α}

/-- **Band reduction of a tall matrix** with the matrices given by the reflectors that the reduction leaves in `A` and `T`. -/
theorem ge2gb_tall_vec (hK : QrSpec K) (hib : 0 < ib) (hA : A.Al b) (hT : T.id ≠ A.id) (hTb : T.d.mb = ib) (hTn : 0 < T.d.nb)
    (hmn : A.d.n ≤ A.d.m) (s : Store (M × Nat × Nat) α) {s' : Store (M × Nat × Nat) α} (hs' : s' = texec (pzge2gb K A T) s) :
    (redQ b ib A T s' 0 A.d.nt ∈ unitaryGroup (Fin A.d.m) α ∧ redP b ib A T s' 1 (A.d.nt - 1) ∈ unitaryGroup (Fin A.d.n) α) ∧
    mat A.d.m A.d.n (A.el s) = redQ b ib A T s' 0 A.d.nt * mat A.d.m A.d.n (mask (UBand b) (A.el s')) * redP b ib A T s' 1 (A.d.nt - 1) := by
  have hb := hA.pos
  have hTm : 0 < T.d.mb := by rw [hTb]; exact hib
  unfold pzge2gb at hs'
  rw [if_pos hmn, hA.mb, hA.nb] at hs'
  have key : ∀ k, k ≤ A.d.nt → ∀ sk : Store (M × Nat × Nat) α, sk = texec ((List.range k).flatMap fun k =>
      pzgeqrf K (A.sub (k * b) (k * b) (A.d.m - k * b) (A.d.nview k))
        (T.sub (k * T.d.mb) (k * T.d.nb) (T.d.m - k * T.d.mb) (A.d.nview k)) ++
      ((if k + 1 < A.d.nt then
        pzunmqr true true (A.sub (k * b) (k * b) (A.d.m - k * b) (A.d.nview k))
          (T.sub (k * T.d.mb) (k * T.d.nb) (T.d.m - k * T.d.mb) (A.d.nview k))
          (A.sub (k * b) ((k + 1) * b) (A.d.m - k * b) (A.d.n - (k + 1) * b)) else []) ++
      if k + 1 < A.d.nt then
        pzgelqf K (A.sub (k * b) ((k + 1) * b) (A.d.mview k) (A.d.n - (k + 1) * b))
          (T.sub (k * T.d.mb) ((k + 1) * T.d.nb) T.d.mb (T.d.n - (k + 1) * T.d.nb)) ++
        pzunmlq false true (A.sub (k * b) ((k + 1) * b) (A.d.mview k) (A.d.n - (k + 1) * b))
          (T.sub (k * T.d.mb) ((k + 1) * T.d.nb) T.d.mb (T.d.n - (k + 1) * T.d.nb))
          (A.sub ((k + 1) * b) ((k + 1) * b) (A.d.m - (k + 1) * b) (A.d.n - (k + 1) * b)) else [])) s →
      (redQ b ib A T sk 0 (k) ∈ unitaryGroup (Fin A.d.m) α ∧ redP b ib A T sk 1 (min (k) (A.d.nt - 1)) ∈ unitaryGroup (Fin A.d.n) α) ∧
      mat A.d.m A.d.n (A.el s) = redQ b ib A T sk 0 (k) *
        mat A.d.m A.d.n (mask (fun r c => (k * b ≤ r ∧ k * b ≤ c) ∨ UBand b r c) (A.el sk)) * redP b ib A T sk 1 (min (k) (A.d.nt - 1)) := by
    intro k
    induction k with
    | zero =>
      intro _ sk hsk
      have hsk : sk = s := hsk
      subst hsk
      have : mat A.d.m A.d.n (mask (fun r c => (0 * b ≤ r ∧ 0 * b ≤ c) ∨ UBand b r c) (A.el sk)) = mat A.d.m A.d.n (A.el sk) := by
        ext r c
        refine mask_pos (R := fun r c => (0 * b ≤ r ∧ 0 * b ≤ c) ∨ _) (Or.inl ⟨?_, ?_⟩) <;> omega
      rw [this, Nat.zero_min, redQ_zero, redP_zero, Matrix.one_mul, Matrix.mul_one]
      exact ⟨⟨one_mem _, one_mem _⟩, rfl⟩
    | succ k ih =>
      intro hk sk hsk
      obtain ⟨⟨hu1, hu2⟩, ih⟩ := ih (by omega) _ rfl
      rw [List.range_succ, List.flatMap_append, texec_append, List.flatMap_singleton, ← List.append_assoc, texec_append] at hsk
      set s0 := texec ((List.range k).flatMap _) s
      have hkn : k * b < A.d.n := by rw [← lt_ceilDiv hb, ← hA.nt_eq]; omega
      have hkm : k < A.d.mt := by rw [hA.mt_eq, lt_ceilDiv hb]; omega
      have hk1 : (k + 1) * b = k * b + b := by rw [Nat.add_mul, Nat.one_mul]
      set s1 := texec _ s0 with hs1
      obtain ⟨G, hG, ⟨eG, hF⟩, e1⟩ := pat_qr (T := T.sub (k * T.d.mb) (k * T.d.nb) (T.d.m - k * T.d.mb) (A.d.nview k))
        hK hib hA hT hTb (p := k) (q := k) (nview_le hA (by omega)) (g := k + 1 < A.d.nt)
        (fun h => by rw [hA.nt_eq, lt_ceilDiv hb]; exact h) s0 hs1 (nview_end hA (by omega))
        (R := fun r c => (k * b ≤ r ∧ k * b ≤ c) ∨ UBand b r c) (R' := fun r c => (k * b ≤ r ∧ k * b + b ≤ c) ∨ UBand b r c)
        (fun r c h1 h2 h3 h4 => by unfold UBand; omega) (fun r c h1 h2 h3 => by unfold UBand; omega)
        (fun r c h1 h2 h3 h4 => by unfold UBand; omega)
      have f1 := fun i j h => step_frame hT hTm hTn hF (i := i) (j := j) h
      have hmk : min k (A.d.nt - 1) = k := by omega
      rw [hmk] at ih hu2
      rw [redQ_congr hA hTm hTn (by omega) (fun i j hj => f1 i j (Or.inr hj)),
        redP_congr hA hTm hTn (by omega) (fun i j hj => f1 i j (Or.inl hj)), e1] at ih
      rw [redQ_congr hA hTm hTn (by omega) (fun i j hj => f1 i j (Or.inr hj))] at hu1
      rw [redP_congr hA hTm hTn (by omega) (fun i j hj => f1 i j (Or.inl hj))] at hu2
      have q1 : redQ b ib A T s1 0 (k + 1) = redQ b ib A T s1 0 k * G := by rw [redQ_succ, eG, Nat.zero_add]
      by_cases hl : k + 1 < A.d.nt
      · have hmv : A.d.mview k = b := by
          rw [hA.nt_eq, lt_ceilDiv hb] at hl
          refine mview_full hA (Nat.lt_succ_self k) ?_
          rw [hA.mt_eq, lt_ceilDiv hb]
          show (k + 1) * b < A.d.m
          omega
        rw [if_pos hl] at hsk
        obtain ⟨G', hG', ⟨eG', hF'⟩, e2⟩ := pat_lq (T := T.sub (k * T.d.mb) ((k + 1) * T.d.nb) T.d.mb (T.d.n - (k + 1) * T.d.nb))
          hK hib hA hT hTb (p := k) (q := k + 1) (le_of_eq hmv) (g := True) (fun _ => trivial) s1
          hsk (Or.inr hmv)
          (R := fun r c => (k * b ≤ r ∧ k * b + b ≤ c) ∨ UBand b r c)
          (R' := fun r c => ((k + 1) * b ≤ r ∧ (k + 1) * b ≤ c) ∨ UBand b r c)
          (fun r c h1 h2 h3 h4 => by unfold UBand; omega) (fun r c h1 h2 h3 => by unfold UBand; omega)
          (fun r c h1 h2 h3 h4 => by unfold UBand; omega)
        have f2 := fun i j h => step_frame hT hTm hTn hF' (i := i) (j := j) h
        have q2 : redQ b ib A T sk 0 (k + 1) = redQ b ib A T s1 0 k * G := by
          rw [← q1]
          exact (redQ_congr hA hTm hTn (by omega) (fun i j hj => f2 i j (Or.inr hj))).symm
        have p2 : redP b ib A T sk 1 (min (k + 1) (A.d.nt - 1)) = G' * redP b ib A T s1 1 k := by
          rw [show min (k + 1) (A.d.nt - 1) = k + 1 by omega, redP_succ, Nat.add_comm 1 k, eG',
            redP_congr hA hTm hTn (by omega) (fun i j hj => f2 i j (Or.inl hj))]
        rw [q2, p2]
        refine ⟨⟨mul_mem hu1 hG, mul_mem hG' hu2⟩, ?_⟩
        rw [ih, e2]
        simp only [Matrix.mul_assoc]
      · rw [if_neg hl] at hsk
        have hsk : sk = s1 := hsk
        subst hsk
        have hn : A.d.n ≤ (k + 1) * b := by
          rw [hA.nt_eq, lt_ceilDiv hb] at hl
          omega
        have : mat A.d.m A.d.n (mask (fun r c => (k * b ≤ r ∧ k * b + b ≤ c) ∨ UBand b r c) (A.el s1)) =
            mat A.d.m A.d.n (mask (fun r c => ((k + 1) * b ≤ r ∧ (k + 1) * b ≤ c) ∨ UBand b r c) (A.el s1)) := by
          ext r c
          have := c.2
          rw [mat_apply, mat_apply]
          refine mask_congr ?_ fun _ => rfl
          unfold UBand; omega
        rw [q1, show min (k + 1) (A.d.nt - 1) = k by omega]
        refine ⟨⟨mul_mem hu1 hG, hu2⟩, ?_⟩
        rw [ih, this]
        simp only [Matrix.mul_assoc]
  have := key A.d.nt le_rfl s' hs'
  rw [show min A.d.nt (A.d.nt - 1) = A.d.nt - 1 by omega] at this
  have hn : A.d.n ≤ A.d.nt * b := by
    have : ¬ A.d.nt < A.d.nt := lt_irrefl _
    rw [hA.nt_eq, lt_ceilDiv hb, ← hA.nt_eq] at this
    omega
  have e : mat A.d.m A.d.n (mask (fun r c => (A.d.nt * b ≤ r ∧ A.d.nt * b ≤ c) ∨ UBand b r c) (A.el s')) =
      mat A.d.m A.d.n (mask (UBand b) (A.el s')) := by
    ext r c
    have := c.2
    rw [mat_apply, mat_apply]
    refine mask_congr ?_ fun _ => rfl
    unfold UBand; omega
  rw [e] at this
  exact this

/-- **Band reduction of a wide matrix** with the matrices given by the reflectors that the reduction leaves in `A` and `T`. -/
theorem ge2gb_wide_vec (hK : QrSpec K) (hib : 0 < ib) (hA : A.Al b) (hT : T.id ≠ A.id) (hTb : T.d.mb = ib) (hTn : 0 < T.d.nb)
    (hmn : A.d.m < A.d.n) (s : Store (M × Nat × Nat) α) {s' : Store (M × Nat × Nat) α} (hs' : s' = texec (pzge2gb K A T) s) :
    (redQ b ib A T s' 1 (A.d.mt - 1) ∈ unitaryGroup (Fin A.d.m) α ∧ redP b ib A T s' 0 A.d.mt ∈ unitaryGroup (Fin A.d.n) α) ∧
    mat A.d.m A.d.n (A.el s) = redQ b ib A T s' 1 (A.d.mt - 1) * mat A.d.m A.d.n (mask (LBand b) (A.el s')) * redP b ib A T s' 0 A.d.mt := by
  have hb := hA.pos
  have hTm : 0 < T.d.mb := by rw [hTb]; exact hib
  unfold pzge2gb at hs'
  rw [if_neg (by omega), hA.mb, hA.nb] at hs'
  have key : ∀ k, k ≤ A.d.mt → ∀ sk : Store (M × Nat × Nat) α, sk = texec ((List.range k).flatMap fun k =>
      pzgelqf K (A.sub (k * b) (k * b) (A.d.mview k) (A.d.n - k * b))
        (T.sub (k * T.d.mb) (k * T.d.nb) T.d.mb (T.d.n - k * T.d.nb)) ++
      ((if k + 1 < A.d.mt then
        pzunmlq false true (A.sub (k * b) (k * b) (A.d.mview k) (A.d.n - k * b))
          (T.sub (k * T.d.mb) (k * T.d.nb) T.d.mb (T.d.n - k * T.d.nb))
          (A.sub ((k + 1) * b) (k * b) (A.d.m - (k + 1) * b) (A.d.n - k * b)) else []) ++
      if k + 1 < A.d.mt then
        pzgeqrf K (A.sub ((k + 1) * b) (k * b) (A.d.m - (k + 1) * b) (A.d.nview k))
          (T.sub ((k + 1) * T.d.mb) (k * T.d.nb) (T.d.m - (k + 1) * T.d.mb) (A.d.nview k)) ++
        pzunmqr true true (A.sub ((k + 1) * b) (k * b) (A.d.m - (k + 1) * b) (A.d.nview k))
          (T.sub ((k + 1) * T.d.mb) (k * T.d.nb) (T.d.m - (k + 1) * T.d.mb) (A.d.nview k))
          (A.sub ((k + 1) * b) ((k + 1) * b) (A.d.m - (k + 1) * b) (A.d.n - (k + 1) * b)) else [])) s →
      (redQ b ib A T sk 1 (min (k) (A.d.mt - 1)) ∈ unitaryGroup (Fin A.d.m) α ∧ redP b ib A T sk 0 (k) ∈ unitaryGroup (Fin A.d.n) α) ∧
      mat A.d.m A.d.n (A.el s) = redQ b ib A T sk 1 (min (k) (A.d.mt - 1)) *
        mat A.d.m A.d.n (mask (fun r c => (k * b ≤ r ∧ k * b ≤ c) ∨ LBand b r c) (A.el sk)) * redP b ib A T sk 0 (k) := by
    intro k
    induction k with
    | zero =>
      intro _ sk hsk
      have hsk : sk = s := hsk
      subst hsk
      have : mat A.d.m A.d.n (mask (fun r c => (0 * b ≤ r ∧ 0 * b ≤ c) ∨ LBand b r c) (A.el sk)) = mat A.d.m A.d.n (A.el sk) := by
        ext r c
        refine mask_pos (R := fun r c => (0 * b ≤ r ∧ 0 * b ≤ c) ∨ _) (Or.inl ⟨?_, ?_⟩) <;> omega
      rw [this, Nat.zero_min, redQ_zero, redP_zero, Matrix.one_mul, Matrix.mul_one]
      exact ⟨⟨one_mem _, one_mem _⟩, rfl⟩
    | succ k ih =>
      intro hk sk hsk
      obtain ⟨⟨hu1, hu2⟩, ih⟩ := ih (by omega) _ rfl
      rw [List.range_succ, List.flatMap_append, texec_append, List.flatMap_singleton, ← List.append_assoc, texec_append] at hsk
      set s0 := texec ((List.range k).flatMap _) s
      have hkm : k * b < A.d.m := by rw [← lt_ceilDiv hb, ← hA.mt_eq]; omega
      have hkn : k < A.d.nt := by rw [hA.nt_eq, lt_ceilDiv hb]; omega
      have hk1 : (k + 1) * b = k * b + b := by rw [Nat.add_mul, Nat.one_mul]
      set s1 := texec _ s0 with hs1
      obtain ⟨G, hG, ⟨eG, hF⟩, e1⟩ := pat_lq (T := T.sub (k * T.d.mb) (k * T.d.nb) T.d.mb (T.d.n - k * T.d.nb))
        hK hib hA hT hTb (p := k) (q := k) (mview_le hA (by omega)) (g := k + 1 < A.d.mt)
        (fun h => by rw [hA.mt_eq, lt_ceilDiv hb]; exact h) s0 hs1 (mview_end hA (by omega))
        (R := fun r c => (k * b ≤ r ∧ k * b ≤ c) ∨ LBand b r c) (R' := fun r c => (k * b + b ≤ r ∧ k * b ≤ c) ∨ LBand b r c)
        (fun r c h1 h2 h3 h4 => by unfold LBand; omega) (fun r c h1 h2 h3 => by unfold LBand; omega)
        (fun r c h1 h2 h3 h4 => by unfold LBand; omega)
      have f1 := fun i j h => step_frame hT hTm hTn hF (i := i) (j := j) h
      have hmk : min k (A.d.mt - 1) = k := by omega
      rw [hmk] at ih hu1
      rw [redQ_congr hA hTm hTn (by omega) (fun i j hj => f1 i j (Or.inr hj)),
        redP_congr hA hTm hTn (by omega) (fun i j hj => f1 i j (Or.inl hj)), e1] at ih
      rw [redQ_congr hA hTm hTn (by omega) (fun i j hj => f1 i j (Or.inr hj))] at hu1
      rw [redP_congr hA hTm hTn (by omega) (fun i j hj => f1 i j (Or.inl hj))] at hu2
      have q1 : redP b ib A T s1 0 (k + 1) = G * redP b ib A T s1 0 k := by rw [redP_succ, eG, Nat.zero_add]
      by_cases hl : k + 1 < A.d.mt
      · have hnv : A.d.nview k = b := by
          rw [hA.mt_eq, lt_ceilDiv hb] at hl
          refine nview_full hA (Nat.lt_succ_self k) ?_
          rw [hA.nt_eq, lt_ceilDiv hb]
          show (k + 1) * b < A.d.n
          omega
        rw [if_pos hl] at hsk
        obtain ⟨G', hG', ⟨eG', hF'⟩, e2⟩ := pat_qr (T := T.sub ((k + 1) * T.d.mb) (k * T.d.nb) (T.d.m - (k + 1) * T.d.mb) (A.d.nview k))
          hK hib hA hT hTb (p := k + 1) (q := k) (le_of_eq hnv) (g := True) (fun _ => trivial) s1
          hsk (Or.inr hnv)
          (R := fun r c => (k * b + b ≤ r ∧ k * b ≤ c) ∨ LBand b r c)
          (R' := fun r c => ((k + 1) * b ≤ r ∧ (k + 1) * b ≤ c) ∨ LBand b r c)
          (fun r c h1 h2 h3 h4 => by unfold LBand; omega) (fun r c h1 h2 h3 => by unfold LBand; omega)
          (fun r c h1 h2 h3 h4 => by unfold LBand; omega)
        have f2 := fun i j h => step_frame hT hTm hTn hF' (i := i) (j := j) h
        have q2 : redP b ib A T sk 0 (k + 1) = G * redP b ib A T s1 0 k := by
          rw [← q1]
          exact (redP_congr hA hTm hTn (by omega) (fun i j hj => f2 i j (Or.inl hj))).symm
        have p2 : redQ b ib A T sk 1 (min (k + 1) (A.d.mt - 1)) = redQ b ib A T s1 1 k * G' := by
          rw [show min (k + 1) (A.d.mt - 1) = k + 1 by omega, redQ_succ, Nat.add_comm 1 k, eG',
            redQ_congr hA hTm hTn (by omega) (fun i j hj => f2 i j (Or.inr hj))]
        rw [q2, p2]
        refine ⟨⟨mul_mem hu1 hG', mul_mem hG hu2⟩, ?_⟩
        rw [ih, e2]
        simp only [Matrix.mul_assoc]
      · rw [if_neg hl] at hsk
        have hsk : sk = s1 := hsk
        subst hsk
        have hn : A.d.m ≤ (k + 1) * b := by
          rw [hA.mt_eq, lt_ceilDiv hb] at hl
          omega
        have : mat A.d.m A.d.n (mask (fun r c => (k * b + b ≤ r ∧ k * b ≤ c) ∨ LBand b r c) (A.el s1)) =
            mat A.d.m A.d.n (mask (fun r c => ((k + 1) * b ≤ r ∧ (k + 1) * b ≤ c) ∨ LBand b r c) (A.el s1)) := by
          ext r c
          have := r.2
          rw [mat_apply, mat_apply]
          refine mask_congr ?_ fun _ => rfl
          unfold LBand; omega
        rw [q1, show min (k + 1) (A.d.mt - 1) = k by omega]
        refine ⟨⟨hu1, mul_mem hG hu2⟩, ?_⟩
        rw [ih, this]
        simp only [Matrix.mul_assoc]
  have := key A.d.mt le_rfl s' hs'
  rw [show min A.d.mt (A.d.mt - 1) = A.d.mt - 1 by omega] at this
  have hn : A.d.m ≤ A.d.mt * b := by
    have : ¬ A.d.mt < A.d.mt := lt_irrefl _
    rw [hA.mt_eq, lt_ceilDiv hb, ← hA.mt_eq] at this
    omega
  have e : mat A.d.m A.d.n (mask (fun r c => (A.d.mt * b ≤ r ∧ A.d.mt * b ≤ c) ∨ LBand b r c) (A.el s')) =
      mat A.d.m A.d.n (mask (LBand b) (A.el s')) := by
    ext r c
    have := r.2
    rw [mat_apply, mat_apply]
    refine mask_congr ?_ fun _ => rfl
    unfold LBand; omega
  rw [e] at this
  exact this

end

end Verif.Qr

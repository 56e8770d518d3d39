/-
C05, C06, C54: descriptor creation and checking over the integers.
-/
import Verif.Desc

namespace Verif.Props

open Verif.Desc

/-- `t` is the number of tiles of size `b` needed for `m` elements (the ceiling). -/
def IsCeil (t m b : Int) : Prop := m ≤ t * b ∧ t * b < m + b

/-- Legal geometry: positive tile sizes, non-negative aligned window inside the matrix. -/
structure Geom (precision mb nb lm ln i j m n : Int) : Prop where
  hprec : precision = 2 ∨ precision = 3 ∨ precision = 4 ∨ precision = 5
  hmb : 0 < mb
  hnb : 0 < nb
  hi : 0 ≤ i
  hj : 0 ≤ j
  hm : 0 ≤ m
  hn : 0 ≤ n
  hrows : i + m ≤ lm
  hcols : j + n ≤ ln
  hai : mb ∣ i
  haj : nb ∣ j
  hbi : i = 0 ∨ i < lm
  hbj : j = 0 ∨ j < ln

theorem add_self_ediv (a : Int) {b : Int} (hb : 0 < b) : (a + b) / b = a / b + 1 := by
  have := Int.add_mul_ediv_right a 1 (show b ≠ 0 by omega)
  rwa [one_mul] at this

theorem ceil_mt {i m b : Int} (hb : 0 < b) (hi : 0 ≤ i) (hm : 0 ≤ m) (hd : b ∣ i) :
    IsCeil (if m = 0 then 0 else (i + m - 1).tdiv b - i.tdiv b + 1) m b := by
  unfold IsCeil
  split
  · omega
  · rename_i h
    obtain ⟨k, rfl⟩ := hd
    rw [Int.tdiv_eq_ediv_of_nonneg (by omega), Int.tdiv_eq_ediv_of_nonneg hi,
      Int.mul_ediv_cancel_left _ (by omega)]
    have e : b * k + m - 1 = (m - 1) + b * k := by ring
    rw [e, Int.add_mul_ediv_left _ _ (by omega)]
    have h1 := Int.mul_ediv_add_emod (m - 1) b
    have h2 := Int.emod_nonneg (m - 1) (show b ≠ 0 by omega)
    have h3 := Int.emod_lt_of_pos (m - 1) hb
    have e2 : ((m - 1) / b + k - k + 1) * b = b * ((m - 1) / b) + b := by ring
    rw [e2]
    omega

theorem ceil_gmt {m b : Int} (hb : 0 < b) (hm : 0 ≤ m) :
    IsCeil (if m.tmod b = 0 then m.tdiv b else m.tdiv b + 1) m b := by
  unfold IsCeil
  rw [Int.tdiv_eq_ediv_of_nonneg hm, Int.tmod_eq_emod_of_nonneg hm]
  have h1 := Int.mul_ediv_add_emod m b
  have h2 := Int.emod_nonneg m (show b ≠ 0 by omega)
  have h3 := Int.emod_lt_of_pos m hb
  split
  · have e2 : (m / b) * b = b * (m / b) := by ring
    rw [e2]; omega
  · have e2 : (m / b + 1) * b = b * (m / b) + b := by ring
    rw [e2]; omega

theorem generalCheck_iff (A : ZDesc) : generalCheck A = true ↔
    ((A.precision = 2 ∨ A.precision = 3 ∨ A.precision = 4 ∨ A.precision = 5) ∧ 0 < A.mb ∧ 0 < A.nb ∧
    0 ≤ A.m ∧ 0 ≤ A.n ∧ A.m ≤ A.gm ∧ A.n ≤ A.gn ∧ (A.i ≤ 0 ∨ A.i < A.gm) ∧ (A.j ≤ 0 ∨ A.j < A.gn) ∧
    A.i + A.m ≤ A.gm ∧ A.j + A.n ≤ A.gn ∧ A.mb ∣ A.i ∧ A.nb ∣ A.j) := by
  unfold generalCheck precOK
  rw [Int.dvd_iff_tmod_eq_zero, Int.dvd_iff_tmod_eq_zero]
  constructor
  · intro h
    split_ifs at h
    all_goals simp_all
    all_goals omega
  · rintro ⟨h1, h2, h3, h4, h5, h6, h7, h8, h9, h10, h11, h12, h13⟩
    rw [if_neg, if_neg, if_neg, if_neg, if_neg, if_neg, if_neg]
    · simp [h12, h13]
    all_goals first | omega | simp [h1]

theorem Geom.check {precision mb nb lm ln i j m n : Int} (h : Geom precision mb nb lm ln i j m n)
    (A : ZDesc) (e1 : A.precision = precision) (e2 : A.mb = mb) (e3 : A.nb = nb) (e4 : A.gm = lm)
    (e5 : A.gn = ln) (e6 : A.i = i) (e7 : A.j = j) (e8 : A.m = m) (e9 : A.n = n) :
    generalCheck A = true := by
  obtain ⟨h1, h2, h3, h4, h5, h6, h7, h8, h9, h10, h11, h12, h13⟩ := h
  subst e1 e2 e3 e4 e5 e6 e7 e8 e9
  rw [generalCheck_iff]
  exact ⟨h1, h2, h3, h6, h7, by omega, by omega, by omega, by omega, h8, h9, h10, h11⟩

/-- **C05** (general matrices).  With positive tile sizes and a consistent aligned
window, `plasma_desc_general_create` succeeds, its descriptor passes the check, records
the requested geometry, and its tile counts are ceilings. -/
theorem C05_general {precision mb nb lm ln i j m n : Int} (h : Geom precision mb nb lm ln i j m n) :
    ∃ A, generalCreate true true precision mb nb lm ln i j m n = .ok A ∧ check A = true ∧
      (A.gm, A.gn, A.i, A.j, A.m, A.n, A.mb, A.nb) = (lm, ln, i, j, m, n, mb, nb) ∧
      IsCeil A.mt m mb ∧ IsCeil A.nt n nb ∧ IsCeil A.gmt lm mb ∧ IsCeil A.gnt ln nb := by
  have hc : check (generalInit precision mb nb lm ln i j m n) = true :=
    h.check _ rfl rfl rfl rfl rfl rfl rfl rfl rfl
  refine ⟨generalInit precision mb nb lm ln i j m n, ?_, hc, rfl, ceil_mt h.hmb h.hi h.hm h.hai,
    ceil_mt h.hnb h.hj h.hn h.haj, ceil_gmt h.hmb ?_, ceil_gmt h.hnb ?_⟩
  · have := h.hmb; have := h.hnb
    unfold generalCreate
    rw [if_neg (by simp), if_neg (by omega)]
    simp only [hc, not_true_eq_false, if_false]
  · have := h.hi; have := h.hm; have := h.hrows; omega
  · have := h.hj; have := h.hn; have := h.hcols; omega

example : Geom 5 3 2 7 5 3 2 4 3 := by constructor <;> decide

/-- **C05** (triangular matrices). -/
theorem C05_triangular {precision mb nb lm ln i j m n : Int} {uplo : Ty} (hu : uplo = .upper ∨ uplo = .lower)
    (h : Geom precision mb nb lm ln i j m n) :
    ∃ A, triangularCreate true true precision uplo mb nb lm ln i j m n = .ok A ∧ check A = true ∧
      A.type = uplo ∧
      (A.gm, A.gn, A.i, A.j, A.m, A.n, A.mb, A.nb) = (lm, ln, i, j, m, n, mb, nb) ∧
      IsCeil A.mt m mb ∧ IsCeil A.nt n nb ∧ IsCeil A.gmt lm mb ∧ IsCeil A.gnt ln nb := by
  have hc : check (triangularInit precision uplo mb nb lm ln i j m n) = true := by
    have hg : generalCheck (triangularInit precision uplo mb nb lm ln i j m n) = true :=
      h.check _ rfl rfl rfl rfl rfl rfl rfl rfl rfl
    have ht : (triangularInit precision uplo mb nb lm ln i j m n).type = uplo := rfl
    unfold check
    rw [ht]
    rcases hu with rfl | rfl <;> exact hg
  refine ⟨triangularInit precision uplo mb nb lm ln i j m n, ?_, hc, rfl, rfl, ceil_mt h.hmb h.hi h.hm h.hai,
    ceil_mt h.hnb h.hj h.hn h.haj, ceil_gmt h.hmb ?_, ceil_gmt h.hnb ?_⟩
  · have := h.hmb; have := h.hnb
    unfold triangularCreate
    rw [if_neg (by simp), if_neg (by omega)]
    simp only [hc, not_true_eq_false, if_false]
  · have := h.hi; have := h.hm; have := h.hrows; omega
  · have := h.hj; have := h.hn; have := h.hcols; omega

/-- Row count passed by the Cholesky band drivers (compute/zpbtrf.c:118-124,
compute/zpbsv.c:143-149, compute/zpbtrs.c:132-138): `nb*(1+(kd+nb-1)/nb)`. -/
def pbRows (nb kd : Int) : Int := nb * (1 + (kd + nb - 1).tdiv nb)

/-- Row count passed by the LU band drivers (compute/zgbtrf.c:100-109,
compute/zgbsv.c:116-125): `(tku+tkl+1)*nb`. -/
def gbRows (nb kl ku : Int) : Int :=
  ((ku + kl + nb - 1).tdiv nb + (kl + nb - 1).tdiv nb + 1) * nb

theorem bandCheck_ok {A : ZDesc}
    (h1 : A.precision = 2 ∨ A.precision = 3 ∨ A.precision = 4 ∨ A.precision = 5) (h2 : 0 < A.mb)
    (h3 : 0 < A.nb) (h4 : 0 ≤ A.m) (h5 : 0 ≤ A.n) (h6 : A.n ≤ A.gn)
    (h7 : A.uplo = .general → A.mb * ((2 * A.kl + A.ku + A.mb).tdiv A.mb) ≤ A.gm)
    (h8 : A.uplo = .upper → A.mb * ((A.ku + A.mb).tdiv A.mb) ≤ A.gm)
    (h9 : A.uplo = .upper → A.mb * ((A.kl + A.mb).tdiv A.mb) ≤ A.gm)
    (h10 : A.i = 0) (h11 : A.j = 0) (h14 : A.kl < A.m) (h15 : A.ku < A.n) : bandCheck A = true := by
  unfold bandCheck precOK
  rw [if_neg (by simp [h1]), if_neg (by omega), if_neg (by omega), if_neg (by omega), if_neg ?_, if_neg (by omega),
    if_neg (by omega), if_neg (by simp [h10, h11]), if_neg (by omega)]
  rintro (⟨a, b⟩ | ⟨a, b⟩ | ⟨a, b⟩)
  · have := h7 a; omega
  · have := h8 a; omega
  · have := h9 a; omega

theorem floor_le_ceil {nb k : Int} (hnb : 0 < nb) (hk : 0 ≤ k) :
    nb * ((k + nb).tdiv nb) ≤ nb * (1 + (k + nb - 1).tdiv nb) := by
  rw [Int.tdiv_eq_ediv_of_nonneg (by omega), Int.tdiv_eq_ediv_of_nonneg (by omega)]
  apply Int.mul_le_mul_of_nonneg_left _ (by omega)
  have : (k + nb) / nb ≤ (k + nb - 1 + nb) / nb := Int.ediv_le_ediv hnb (by omega)
  rw [add_self_ediv (k + nb - 1) hnb] at this
  omega

theorem ediv_add_le {a b nb : Int} (hnb : 0 < nb) :
    (a + b) / nb ≤ (a + nb - 1) / nb + (b + nb - 1) / nb := by
  have h1 := Int.mul_ediv_add_emod (a + nb - 1) nb
  have h2 := Int.emod_lt_of_pos (a + nb - 1) hnb
  have h3 := Int.mul_ediv_add_emod (b + nb - 1) nb
  have h4 := Int.emod_lt_of_pos (b + nb - 1) hnb
  have : (a + b) / nb < (a + nb - 1) / nb + (b + nb - 1) / nb + 1 := by
    apply Int.ediv_lt_of_lt_mul hnb
    have : ((a + nb - 1) / nb + (b + nb - 1) / nb + 1) * nb =
      nb * ((a + nb - 1) / nb) + nb * ((b + nb - 1) / nb) + nb := by ring
    omega
  omega

/-- **C05** (band matrices, as created by the band drivers).  The full claim would
also cover half-bandwidths `kd ≥ n`, which the drivers accept as legal arguments; see
`C05_band_wide_rejected`. -/
theorem C05_band_partial {nb n kl ku kd : Int} (hnb : 0 < nb) (hkl : 0 ≤ kl) (hku : 0 ≤ ku)
    (hkl' : kl < n) (hku' : ku < n) (hkd : 0 ≤ kd) (hkd' : kd < n) :
    (∀ uplo, uplo = .upper ∨ uplo = .lower → ∃ A,
      bandCreate true true 5 uplo nb nb (pbRows nb kd) n 0 0 n n kd kd = .ok A ∧ check A = true ∧
      IsCeil A.nt n nb ∧ (A.kl, A.ku, A.n) = (kd, kd, n)) ∧
    (∃ A, bandCreate true true 5 .general nb nb (gbRows nb kl ku) n 0 0 n n kl ku = .ok A ∧
      check A = true ∧ IsCeil A.nt n nb ∧ (A.kl, A.ku, A.n) = (kl, ku, n)) := by
  constructor
  · intro uplo hu
    have hc : check (bandInit 5 uplo nb nb (pbRows nb kd) n 0 0 n n kd kd) = true := by
      show bandCheck _ = true
      apply bandCheck_ok
      · exact Or.inr (Or.inr (Or.inr rfl))
      · exact hnb
      · exact hnb
      · exact (by omega : 0 ≤ n)
      · exact (by omega : 0 ≤ n)
      · exact le_refl n
      · intro h
        have : uplo = .general := h
        rcases hu with rfl | rfl <;> simp at this
      · intro _; exact floor_le_ceil hnb hkd
      · intro _; exact floor_le_ceil hnb hkd
      · rfl
      · rfl
      · exact hkd'
      · exact hkd'
    refine ⟨_, ?_, hc, ceil_mt hnb le_rfl (by omega) (dvd_zero _), rfl⟩
    unfold bandCreate
    rw [if_neg (by simp), if_neg (by omega)]
    simp only [hc, not_true_eq_false, if_false]
  · have hc : check (bandInit 5 .general nb nb (gbRows nb kl ku) n 0 0 n n kl ku) = true := by
      show bandCheck _ = true
      apply bandCheck_ok
      · exact Or.inr (Or.inr (Or.inr rfl))
      · exact hnb
      · exact hnb
      · exact (by omega : 0 ≤ n)
      · exact (by omega : 0 ≤ n)
      · exact le_refl n
      · intro _
        show nb * ((2 * kl + ku + nb).tdiv nb) ≤ gbRows nb kl ku
        unfold gbRows
        rw [Int.tdiv_eq_ediv_of_nonneg (by omega), Int.tdiv_eq_ediv_of_nonneg (by omega),
          Int.tdiv_eq_ediv_of_nonneg (by omega), add_self_ediv _ hnb, mul_comm]
        apply Int.mul_le_mul_of_nonneg_right _ (by omega)
        have := ediv_add_le (a := ku + kl) (b := kl) hnb
        have e : ku + kl + kl = 2 * kl + ku := by ring
        rw [e] at this
        omega
      · intro h
        exact absurd h (by simp [bandInit])
      · intro h
        exact absurd h (by simp [bandInit])
      · rfl
      · rfl
      · exact hkl'
      · exact hku'
    refine ⟨_, ?_, hc, ceil_mt hnb le_rfl (by omega) (dvd_zero _), rfl⟩
    unfold bandCreate
    rw [if_neg (by simp), if_neg (by omega)]
    simp only [hc, not_true_eq_false, if_false]

example : (0 : Int) < 4 ∧ (0 : Int) ≤ 3 ∧ (3 : Int) < 10 := by decide

/-- The missing part of C05: every half-bandwidth `kd ≥ n ≥ 1` is rejected by
`plasma_desc_general_band_create` although the drivers treat it as a legal argument
(LAPACK allows it). -/
theorem C05_band_wide_rejected {nb n kd : Int} (hnb : 0 < nb) (hkd : n ≤ kd) (uplo : Ty) :
    bandCreate true true 5 uplo nb nb (pbRows nb kd) n 0 0 n n kd kd = .err errIllegalValue := by
  have hc : check (bandInit 5 uplo nb nb (pbRows nb kd) n 0 0 n n kd kd) = false := by
    show bandCheck _ = false
    unfold bandCheck
    split_ifs with h1 h2 h3 h4 h5 h6 h7 h8 h9
    all_goals first | rfl | skip
    exact absurd (Or.inl (by show kd + 1 > n; omega)) h9
  unfold bandCreate
  rw [if_neg (by simp), if_neg (by omega)]
  simp only [hc]
  simp

/-- **C06** is false: a zero tile size is undefined behaviour (integer division by
zero) in all three create functions, whatever the other arguments. -/
theorem C06_zero_tile_ub (alloc : Bool) (precision mb nb lm ln i j m n kl ku : Int) (uplo : Ty)
    (h : mb = 0 ∨ nb = 0) :
    generalCreate true alloc precision mb nb lm ln i j m n = .ub ∧
    triangularCreate true alloc precision uplo mb nb lm ln i j m n = .ub ∧
    bandCreate true alloc precision uplo mb nb lm ln i j m n kl ku = .ub := by
  unfold generalCreate triangularCreate bandCreate
  simp [h]

/-- **C06** (the part that holds): negative tile sizes are rejected with
`PlasmaErrorIllegalValue` and never cause undefined behaviour. -/
theorem C06_negative_tile_partial (alloc : Bool) (precision mb nb lm ln i j m n kl ku : Int) (uplo : Ty)
    (h0 : mb ≠ 0) (h1 : nb ≠ 0) (h : mb < 0 ∨ nb < 0) :
    generalCreate true alloc precision mb nb lm ln i j m n = .err errIllegalValue ∧
    (uplo = .upper ∨ uplo = .lower →
      triangularCreate true alloc precision uplo mb nb lm ln i j m n = .err errIllegalValue) ∧
    bandCreate true alloc precision uplo mb nb lm ln i j m n kl ku = .err errIllegalValue := by
  have hz : ¬ (mb = 0 ∨ nb = 0) := by omega
  have key : ∀ A : ZDesc, (A.mb < 0 ∨ A.nb < 0) → generalCheck A = false ∧ bandCheck A = false := by
    intro A hA
    have : A.mb ≤ 0 ∨ A.nb ≤ 0 := by omega
    unfold generalCheck bandCheck
    simp [this]
  refine ⟨?_, ?_, ?_⟩
  · have : check (generalInit precision mb nb lm ln i j m n) = false := (key _ h).1
    unfold generalCreate
    simp [this, hz]
  · intro hu
    have hg : generalCheck (triangularInit precision uplo mb nb lm ln i j m n) = false := (key _ h).1
    have : check (triangularInit precision uplo mb nb lm ln i j m n) = false := by
      unfold check
      have ht : (triangularInit precision uplo mb nb lm ln i j m n).type = uplo := rfl
      rw [ht]
      rcases hu with rfl | rfl <;> exact hg
    unfold triangularCreate
    simp [this, hz]
  · have : check (bandInit precision uplo mb nb lm ln i j m n kl ku) = false := (key _ h).2
    unfold bandCreate
    simp [this, hz]

example : generalCreate true true 5 0 4 8 8 0 0 8 8 = .ub ∧
    generalCreate true true 5 (-4) 4 8 8 0 0 8 8 = .err errIllegalValue := by decide

/-- **C54** (the part that holds).  A descriptor accepted by `plasma_desc_check` whose
offsets are non-negative describes a window inside the matrix. -/
theorem C54_checked_window_partial (A : ZDesc) (ht : A.type = .general) (h : check A = true)
    (hi : 0 ≤ A.i) (hj : 0 ≤ A.j) (r c : Int) (hr : 0 ≤ r) (hr' : r < A.m) (hc : 0 ≤ c) (hc' : c < A.n) :
    0 ≤ A.i + r ∧ A.i + r < A.gm ∧ 0 ≤ A.j + c ∧ A.j + c < A.gn := by
  have h1 : generalCheck A = true := by
    unfold check at h; rw [ht] at h; exact h
  rw [generalCheck_iff] at h1
  omega

/-- **C54** is false without that restriction: negative offsets are accepted, by the
check and by create, and make the first tile's address precede the allocation. -/
theorem C54_negative_offset_accepted :
    ∃ A, generalCreate true true 5 4 4 8 8 (-4) 0 8 8 = .ok A ∧ check A = true ∧
      tileAddrGeneral A 0 0 < 0 :=
  ⟨generalInit 5 4 4 8 8 (-4) 0 8 8, by decide, by decide, by decide⟩

end Verif.Props

/-
Solving with the factors of `plasma_zhetrf`: `plasma_omp_zhetrs` (compute/zhetrs.c:301-350) and the second half of
`plasma_omp_zhesv` (compute/zhesv.c:344-391).
-/
import Verif.Gels
import Verif.LuSolve
import Verif.TbsmP

set_option linter.unusedSectionVars false

namespace Verif.Tile

open Verif.Layout Verif.Sched Verif.LU Verif.Panel Finset

universe u v

variable {M : Type u} [DecidableEq M] {α : Type v}

/-! ### Views that start at the second tile row -/

variable {A B T P Q : TMat M} {b N Nn : Nat}

theorem TMat.subr_al (hA : A.Al b) (m n : Nat) : (A.sub b 0 m n).Al b where
  pos := hA.pos
  mb := hA.mb
  nb := hA.nb
  i := by show (A.d.i + b) % b = 0; rw [Nat.add_mod_right, hA.i]
  j := hA.j
  mt := by show ntiles (A.d.i + b) m A.d.mb = _; rw [hA.mb]; rfl
  nt := by show ntiles (A.d.j + 0) n A.d.nb = _; rw [hA.nb]; rfl

theorem TMat.subr_at (hA : A.Al b) (m n q p : Nat) : (A.sub b 0 m n).at' q p = A.at' (q + 1) p := by
  show (A.id, q + (A.d.i + b) / A.d.mb, p + (A.d.j + 0) / A.d.nb) = (A.id, q + 1 + A.d.i / A.d.mb, p + A.d.j / A.d.nb)
  rw [hA.mb, Nat.add_div_right _ hA.pos, Nat.add_zero]
  congr 2
  omega

theorem TMat.subr_el (hA : A.Al b) (m n : Nat) (s : Store (M × Nat × Nat) α) (r c : Nat) :
    (A.sub b 0 m n).el s r c = A.el s (r + b) c := by
  unfold TMat.el
  rw [subr_at hA]
  show s (A.at' (r / A.d.mb + 1) (c / A.d.nb)) (r % A.d.mb) (c % A.d.nb) = _
  rw [hA.mb, Nat.add_div_right _ hA.pos, Nat.add_mod_right]

theorem TMat.subr_fits {env : M → MatEnv} {R R' : Nat → Nat → Prop} (hA : FitsOn env b R A) {m n : Nat} (hm : b + m ≤ A.d.m)
    (hn : n ≤ A.d.n) (hR : ∀ q p, R' q p → R (q + 1) p) : FitsOn env b R' (A.sub b 0 m n) where
  al := subr_al hA.al m n
  mb := hA.mb
  nb := hA.nb
  rows := by have := hA.rows; show A.d.i + b + m ≤ _; exact le_trans (by omega) hA.rows
  cols := by have := hA.cols; show A.d.j + 0 + n ≤ _; exact le_trans (by omega) hA.cols
  st := by
    intro q p i j h
    have := hA.st (q + 1) p i j (hR q p h)
    have e : q + (A.d.i + b) / b = q + 1 + A.d.i / b := by rw [Nat.add_div_right _ hA.al.pos]; omega
    show (env A.id).stored (q + (A.d.i + b) / b) (p + (A.d.j + 0) / b) i j
    rw [e]; exact this

section
variable [Field α] [StarRing α] [DecidableEq α] {dv : α → α → α} {E : IntCode α}

/-- Tasks created by the solve (compute/zhetrs.c:303-349, compute/zhesv.c:344-391).  `P` are the interchanges of the
Aasen factorization, `Q` those of the band factorization of `T`.  The phases are those of the `taskwait`s; the first one
used is `φ + 1`. -/
def hetrsL (φ : Nat) (rg : Bool) (E : IntCode α) (dv : α → α → α) (A T P Q B : TMat M) : List (TTask (M × Nat × Nat) α) :=
  (if A.d.nb < A.d.m then
    (pzgeswp rg E true true B P).map (phT (φ + 1)) ++
      (pztrsm dv .left .lower .noTrans .unit 1 (A.sub A.d.nb 0 (A.d.m - A.d.nb) (A.d.n - A.d.nb))
        (B.sub B.d.nb 0 (B.d.m - B.d.nb) B.d.n)).map (phT (φ + 2)) else []) ++
  gbSolve (φ + 3) E dv .noTrans T Q B ++
  (if A.d.nb < A.d.m then
    (pztrsm dv .left .lower .conjTrans .unit 1 (A.sub A.d.nb 0 (A.d.m - A.d.nb) (A.d.n - A.d.nb))
        (B.sub B.d.nb 0 (B.d.m - B.d.nb) B.d.n)).map (phT (φ + 3 + 2 * (B.d.mt * B.d.nt))) ++
      (pzgeswp rg E true false B P).map (phT (φ + 4 + 2 * (B.d.mt * B.d.nt))) else [])

/-- The matrices of the solve. -/
structure HsOK (b N Nn : Nat) (A T P Q B : TMat M) : Prop where
  a : A.Al b
  am : A.d.m = N
  an : A.d.n = N
  tb : TbOK b N Nn b b T B Q 1 1
  ab : A.id ≠ B.id
  pb : P.id ≠ B.id

/-- A solve with the rows from `b` on leaves the first `b` rows. -/
theorem trsm_keep_top (hB : B.Al b) {u : Uplo} {t : Trans} {d : Diag} {al : α} {m n : Nat} (s : Store (M × Nat × Nat) α) {r c : Nat}
    (hr : r < b) : B.el (texec (pztrsm dv .left u t d al A (B.sub b 0 m n)) s) r c = B.el s r c := by
  have hw : Writes (fun x => ∃ q q', x = B.at' (q + 1) q') (pztrsm dv .left u t d al A (B.sub b 0 m n)) := by
    rw [pztrsm_eq (TMat.subr_al hB m n) rfl rfl]
    refine Writes.flatMap fun k _ => Writes.flatMap fun q _ => ?_
    intro t' ht x i j h
    rw [List.mem_singleton] at ht
    subst ht
    unfold trTask at h
    rw [if_pos rfl] at h
    split at h
    · obtain ⟨rfl, h⟩ := h
      exact ⟨_, _, TMat.subr_at hB m n _ _⟩
    · obtain ⟨rfl, h⟩ := h
      exact ⟨_, _, TMat.subr_at hB m n _ _⟩
  unfold TMat.el
  rw [hw.frame s]
  rintro ⟨q, q', e⟩
  obtain ⟨e1, -⟩ := TMat.at'_inj.mp e
  rw [hB.mb, Nat.div_eq_of_lt hr] at e1
  omega

/-- The lower triangular factor: unit diagonal, the first `b` columns are those of the identity, and column `g ≥ b` is stored
in column `g - b`. -/
structure IsLf (b N : Nat) (X L : Nat → Nat → α) : Prop where
  up : ∀ r g, r < N → g < N → r ≤ g → L r g = if r = g then 1 else 0
  left : ∀ r g, r < N → g < N → g < b → L r g = if r = g then 1 else 0
  low : ∀ r g, r < N → b ≤ g → g < r → L r g = X r (g - b)

theorem IsLf.tr {X L : Nat → Nat → α} (h : IsLf b N X L) {i j : Nat} (hi : i + b < N) (hj : j + b < N) :
    trE .lower .unit (fun r c => X (r + b) c) i j = L (i + b) (j + b) := by
  rw [trE_lower]
  unfold luL
  by_cases h1 : j < i
  · rw [if_pos h1, h.low _ _ hi (by omega) (by omega), Nat.add_sub_cancel]
  · rw [if_neg h1, h.up _ _ hi hj (by omega)]
    by_cases h2 : j = i
    · rw [if_pos h2, if_pos (by omega)]
    · rw [if_neg h2, if_neg (by omega)]

theorem sum_split {f : Nat → α} (hb : b ≤ N) : ∑ l ∈ range N, f l = ∑ l ∈ range b, f l + ∑ l ∈ range (N - b), f (l + b) := by
  have : N = b + (N - b) := by omega
  conv_lhs => rw [this]
  rw [sum_range_add]
  simp only [Nat.add_comm b]

theorem sum_delta {f : Nat → α} {r : Nat} (g : Nat → α) (hr : r < N) (h : ∀ l, l < N → g l = if r = l then 1 else 0) :
    ∑ l ∈ range N, g l * f l = f r := by
  rw [sum_eq_single_of_mem r (mem_range.mpr hr)]
  · rw [h r hr, if_pos rfl, one_mul]
  · intro l hl hne
    rw [h l (mem_range.mp hl), if_neg (Ne.symm hne), zero_mul]

theorem perm_idn (n : Nat) : perm (fun i => i) 0 n = 1 := by
  induction n with
  | zero => rfl
  | succ n ih =>
    show perm (fun i => i) 0 n * Equiv.swap (0 + n) (0 + n) = 1
    rw [ih, Equiv.swap_self]; rfl

/-- The forward solve with the view. -/
theorem hetrs_fw (hdv : IsDiv dv) (hA : A.Al b) (hB : B.Al b) (hab : A.id ≠ B.id) (hm : B.d.m = N) (hn : B.d.n = Nn) (hbN : b < N)
    {q q' : Nat} (s : Store (M × Nat × Nat) α) {L : Nat → Nat → α} (hL : IsLf b N (A.el s) L) {r c : Nat} (hr : r < N) (hc : c < Nn) :
    ∑ l ∈ range N, L r l * B.el (texec (pztrsm dv .left .lower .noTrans .unit 1 (A.sub b 0 q q') (B.sub b 0 (N - b) Nn)) s) l c =
      B.el s r c := by
  set s' := texec (pztrsm dv .left .lower .noTrans .unit 1 (A.sub b 0 q q') (B.sub b 0 (N - b) Nn)) s with hs'
  have htop : ∀ r, r < b → B.el s' r c = B.el s r c := fun r hr => trsm_keep_top hB s hr
  by_cases hrb : r < b
  · rw [sum_delta (fun l => L r l) hr, htop r hrb]
    intro l hl
    by_cases h : l < b
    · exact hL.left r l hr hl h
    · exact hL.up r l hr hl (by omega)
  · have key := trsm_left_el hdv (TMat.subr_al hA q q') (TMat.subr_al hB (N - b) Nn) hab (u := .lower) (t := .noTrans) (d := .unit) s
      (fun i hi => by rw [trE_lower]; unfold luL; simp) (r := r - b) (c := c) (by show r - b < N - b; omega) hc
    rw [← hs', TMat.subr_el hB] at key
    rw [sum_split (Nat.le_of_lt hbN), sum_eq_zero, zero_add]
    · rw [show r - b + b = r by omega] at key
      rw [← key]
      refine sum_congr rfl fun l hl => ?_
      replace hl : l < N - b := mem_range.mp hl
      rw [TMat.subr_el hB]
      congr 1
      have e : (A.sub b 0 q q').el s = fun r c => A.el s (r + b) c := by funext r c; exact TMat.subr_el hA q q' s r c
      rw [e]
      have := hL.tr (i := r - b) (j := l) (by omega) (by omega)
      rw [show r - b + b = r by omega] at this
      exact this.symm
    · intro l hl
      rw [mem_range] at hl
      rw [hL.left r l hr (by omega) hl, if_neg (by omega), zero_mul]

/-- The backward solve with the conjugate transpose of the view. -/
theorem hetrs_bw (hdv : IsDiv dv) (hA : A.Al b) (hB : B.Al b) (hab : A.id ≠ B.id) (hm : B.d.m = N) (hn : B.d.n = Nn) (hbN : b < N)
    {q q' : Nat} (s : Store (M × Nat × Nat) α) {L : Nat → Nat → α} (hL : IsLf b N (A.el s) L) {r c : Nat} (hr : r < N) (hc : c < Nn) :
    ∑ l ∈ range N, star (L l r) * B.el (texec (pztrsm dv .left .lower .conjTrans .unit 1 (A.sub b 0 q q') (B.sub b 0 (N - b) Nn)) s) l c =
      B.el s r c := by
  set s' := texec (pztrsm dv .left .lower .conjTrans .unit 1 (A.sub b 0 q q') (B.sub b 0 (N - b) Nn)) s with hs'
  have htop : ∀ r, r < b → B.el s' r c = B.el s r c := fun r hr => trsm_keep_top hB s hr
  by_cases hrb : r < b
  · rw [sum_delta (fun l => star (L l r)) hr, htop r hrb]
    intro l hl
    rw [hL.left l r hl hr hrb]
    by_cases h : l = r
    · rw [if_pos h, if_pos h.symm, star_one]
    · rw [if_neg h, if_neg (Ne.symm h), star_zero]
  · have key := trsm_left_el hdv (TMat.subr_al hA q q') (TMat.subr_al hB (N - b) Nn) hab (u := .lower) (t := .conjTrans) (d := .unit) s
      (fun i hi => by rw [trE_lower]; unfold luL; simp) (r := r - b) (c := c) (by show r - b < N - b; omega) hc
    rw [← hs', TMat.subr_el hB] at key
    rw [sum_split (Nat.le_of_lt hbN), sum_eq_zero, zero_add]
    · rw [show r - b + b = r by omega] at key
      rw [← key]
      refine sum_congr rfl fun l hl => ?_
      replace hl : l < N - b := mem_range.mp hl
      rw [TMat.subr_el hB]
      congr 1
      have e : (A.sub b 0 q q').el s = fun r c => A.el s (r + b) c := by funext r c; exact TMat.subr_el hA q q' s r c
      rw [e]
      have := hL.tr (i := l) (j := r - b) (by omega) (by omega)
      rw [show r - b + b = r by omega] at this
      simp only [opE]
      rw [this]
    · intro l hl
      rw [mem_range] at hl
      rw [hL.up l r (by omega) hr (by omega), if_neg (by omega), star_zero, zero_mul]

/-- The solve: with `P*X0*P^T = L*T0*L^H` and the band factorization of `T0`, the result solves `X0 * X = B`. -/
theorem hetrsL_el (hdv : IsDiv dv) (h : HsOK b N Nn A T P Q B) (φ : Nat) (rg : Bool) (s : Store (M × Nat × Nat) α)
    {X0 T0 L : Nat → Nat → α} (hp : PvIn E P N s) (hp0 : ∀ i, i < N → i < b → pv E P s i = i) (hL : IsLf b N (A.el s) L)
    (hf : ∀ r c, r < N → c < N → X0 (perm (pv E P s) 0 N r) (perm (pv E P s) 0 N c) =
      ∑ g ∈ range N, ∑ h ∈ range N, L r g * T0 g h * star (L c h))
    (hq : PvOK E Q N N s) (hinv : LUInv N N T0 (lazyM (pv E Q s) (lzi b) N (gbX b b b T s)) (perm (pv E Q s) 0 N) N)
    (hd : ∀ c, c < N → gbX b b b T s c c ≠ 0) {r c : Nat} (hr : r < N) (hc : c < Nn) :
    ∑ l ∈ range N, X0 r l * B.el (texec (hetrsL φ rg E dv A T P Q B) s) l c = B.el s r c := by
  have hpl : ∀ i, i < N → pv E P s i < N := fun i hi => by have := hp i hi; unfold pv; omega
  set π := perm (pv E P s) 0 N with hπ
  have h1 : ∀ r, r < N → π r < N := fun r hr => perm_lt (le_refl _) hpl hr
  have h2 : ∀ r, r < N → π⁻¹ r < N := fun r hr => perm_inv_lt (le_refl _) hpl hr
  have hb := h.a.pos
  -- the algebra
  have alg : ∀ (B0 Y1 Y2 Y3 X : Nat → α), (∀ r, r < N → ∑ l ∈ range N, L r l * Y1 l = B0 (π r)) →
      (∀ r, r < N → ∑ l ∈ range N, T0 r l * Y2 l = Y1 r) → (∀ r, r < N → ∑ l ∈ range N, star (L l r) * Y3 l = Y2 r) →
      (∀ r, r < N → X (π r) = Y3 r) → ∑ l ∈ range N, X0 r l * X l = B0 r := by
    intro B0 Y1 Y2 Y3 X e1 e2 e3 e4
    have er : π (π⁻¹ r) = r := by simp
    have hr' := h2 r hr
    rw [← er, ← e1 _ hr', ← sum_perm h1 h2]
    calc _ = ∑ l ∈ range N, ∑ g ∈ range N, ∑ h ∈ range N, L (π⁻¹ r) g * (T0 g h * (star (L l h) * Y3 l)) := by
          refine sum_congr rfl fun l hl => ?_
          rw [mem_range] at hl
          rw [hf _ _ hr' hl, e4 l hl, sum_mul]
          refine sum_congr rfl fun g _ => ?_
          rw [sum_mul]
          exact sum_congr rfl fun q _ => by ring
      _ = ∑ g ∈ range N, L (π⁻¹ r) g * ∑ h ∈ range N, T0 g h * ∑ l ∈ range N, star (L l h) * Y3 l := by
          rw [sum_comm]
          refine sum_congr rfl fun g _ => ?_
          rw [sum_comm, mul_sum]
          refine sum_congr rfl fun q _ => ?_
          rw [mul_sum, mul_sum]
      _ = _ := by
          refine sum_congr rfl fun g hg => ?_
          rw [mem_range] at hg
          rw [← e2 g hg]
          congr 1
          refine sum_congr rfl fun q hq => ?_
          rw [e3 q (mem_range.mp hq)]
  -- the tasks
  have hTel : ∀ s1 : Store (M × Nat × Nat) α, (∀ x, x.1 ≠ B.id → s1 x = s x) → ∀ Z : TMat M, Z.id ≠ B.id → Z.el s1 = Z.el s := by
    intro s1 he Z hZ
    funext i j
    unfold TMat.el
    rw [he _ (by simpa [TMat.at'] using hZ)]
  have hsol : ∀ s1 : Store (M × Nat × Nat) α, (∀ x, x.1 ≠ B.id → s1 x = s x) → ∀ r, r < N →
      ∑ l ∈ range N, T0 r l * B.el (texec (gbSolve (φ + 3) E dv .noTrans T Q B) s1) l c = B.el s1 r c := by
    intro s1 he r hr
    have eT := hTel s1 he T h.tb.ab
    have eQ := hTel s1 he Q h.tb.bp.symm
    have epv : pv E Q s1 = pv E Q s := by funext i; unfold pv; rw [eQ]
    have eX : gbX b b b T s1 = gbX b b b T s := by funext r c; unfold gbX; rw [eT]
    have := gbSolve_el (X0 := T0) hdv h.tb (φ + 3) .noTrans s1 (E := E) (by
        intro i hi; rw [epv, eQ]; exact hq i hi) (by rw [epv, eX]; exact hinv) (fun c hc => by rw [eX]; exact hd c hc) hr hc
    exact this
  unfold hetrsL
  rw [h.a.nb, h.am, h.an, h.tb.b.nb, h.tb.m, h.tb.n]
  by_cases hbN : b < N
  · rw [if_pos hbN, if_pos hbN]
    simp only [texec_append, texec_phT]
    obtain ⟨a1, a2⟩ := pzgeswp_rows_eff (E := E) h.tb.b h.pb.symm rg true s (by rw [h.tb.m]; exact hp)
    set s1 := texec (pzgeswp rg E true true B P) s with hs1
    set s2 := texec (pztrsm dv .left .lower .noTrans .unit 1 (A.sub b 0 (N - b) (N - b)) (B.sub b 0 (N - b) Nn)) s1 with hs2
    have b2 : ∀ x, x.1 ≠ B.id → s2 x = s x := fun x hx => by
      rw [hs2, (pztrsm_writes (TMat.subr_al h.tb.b (N - b) Nn) rfl rfl).frame s1 hx, a2 x hx]
    set s3 := texec (gbSolve (φ + 3) E dv .noTrans T Q B) s2 with hs3
    have b3 : ∀ x, x.1 ≠ B.id → s3 x = s x := fun x hx => by rw [hs3, gbSolve_writes.frame s2 hx, b2 x hx]
    set s4 := texec (pztrsm dv .left .lower .conjTrans .unit 1 (A.sub b 0 (N - b) (N - b)) (B.sub b 0 (N - b) Nn)) s3 with hs4
    have b4 : ∀ x, x.1 ≠ B.id → s4 x = s x := fun x hx => by
      rw [hs4, (pztrsm_writes (TMat.subr_al h.tb.b (N - b) Nn) rfl rfl).frame s3 hx, b3 x hx]
    have hPe : pv E P s4 = pv E P s := by funext i; unfold pv; rw [hTel s4 b4 P h.pb]
    obtain ⟨c1, -⟩ := pzgeswp_rows_eff (E := E) h.tb.b h.pb.symm rg false s4 (by
      intro i hi; rw [hTel s4 b4 P h.pb, h.tb.m]; exact hp i (by rw [← h.tb.m]; exact hi))
    set s5 := texec (pzgeswp rg E true false B P) s4 with hs5
    rw [h.tb.m] at a1 c1
    rw [h.tb.n] at a1 c1
    refine alg (fun l => B.el s l c) (fun l => B.el s2 l c) (fun l => B.el s3 l c) (fun l => B.el s4 l c) (fun l => B.el s5 l c) ?_ ?_ ?_ ?_
    · intro r hr
      have := hetrs_fw hdv h.a h.tb.b h.ab h.tb.m h.tb.n hbN (q := N - b) (q' := N - b) s1 (L := L)
        (by rw [hTel s1 a2 A h.ab]; exact hL) hr hc
      rw [this, a1 r c hr hc, swpPerm_fwd]
    · intro r hr; exact hsol s2 b2 r hr
    · intro r hr
      exact hetrs_bw hdv h.a h.tb.b h.ab h.tb.m h.tb.n hbN (q := N - b) (q' := N - b) s3 (L := L)
        (by rw [hTel s3 b3 A h.ab]; exact hL) hr hc
    · intro r hr
      show B.el s5 (π r) c = B.el s4 r c
      rw [c1 (π r) c (h1 r hr) hc, hPe, show (false : Bool) = !true from rfl, swpPerm_inv, swpPerm_fwd, ← hπ]
      simp
  · rw [if_neg hbN, if_neg hbN, List.nil_append, List.append_nil]
    have hπ1 : ∀ r, r < N → π r = r := fun r hr => by
      rw [hπ]
      have : perm (pv E P s) 0 N = perm (fun i => i) 0 N := perm_congr fun i _ hi => hp0 i (by omega) (by omega)
      rw [this]
      rw [perm_idn]; rfl
    have hLd : ∀ r l, r < N → l < N → L r l = if r = l then 1 else 0 := fun r l hr hl => hL.left r l hr hl (by omega)
    set s3 := texec (gbSolve (φ + 3) E dv .noTrans T Q B) s with hs3
    refine alg (fun l => B.el s l c) (fun l => B.el s l c) (fun l => B.el s3 l c) (fun l => B.el s3 l c) (fun l => B.el s3 l c) ?_ ?_ ?_ ?_
    · intro r hr
      rw [sum_delta (fun l => L r l) hr fun l hl => hLd r l hr hl, hπ1 r hr]
    · intro r hr; exact hsol s (fun _ _ => rfl) r hr
    · intro r hr
      rw [sum_delta (fun l => star (L l r)) hr]
      intro l hl
      rw [hLd l r hl hr]
      by_cases h : l = r
      · rw [if_pos h, if_pos h.symm, star_one]
      · rw [if_neg h, if_neg (Ne.symm h), star_zero]
    · intro r hr
      show B.el s3 (π r) c = B.el s3 r c
      rw [hπ1 r hr]

theorem hetrsL_writes (h : HsOK b N Nn A T P Q B) {φ : Nat} {rg : Bool} : Writes (fun x => x.1 = B.id) (hetrsL φ rg E dv A T P Q B) := by
  unfold hetrsL
  rw [h.tb.b.nb]
  have ht : ∀ t p, Writes (fun x => x.1 = B.id) ((pztrsm dv .left .lower t .unit 1 (A.sub A.d.nb 0 (A.d.m - A.d.nb) (A.d.n - A.d.nb))
        (B.sub b 0 (B.d.m - b) B.d.n)).map (phT p)) := fun t p =>
    writes_phT (pztrsm_writes (TMat.subr_al h.tb.b _ _) rfl rfl)
  refine Writes.append (Writes.append ?_ gbSolve_writes) ?_
  · split
    · exact (writes_phT pzgeswp_writes).append (ht _ _)
    · intro t ht; simp at ht
  · split
    · exact (ht _ _).append (writes_phT pzgeswp_writes)
    · intro t ht; simp at ht

end

end Verif.Tile

/-
Solving with the factors of `plasma_pzgetrf`: the row interchanges of the right-hand sides and
the two triangular solves.
-/
import Verif.GeswpProof
import Verif.LUSing

set_option linter.unusedSectionVars false

namespace Verif.LU

open Finset Verif.Tile

universe v

section
variable {α : Type v} [Field α]

theorem trE_lower (X : Nat → Nat → α) : trE .lower .unit X = luL X := by
  funext i j
  unfold trE luL
  by_cases h : i = j
  · subst h; simp
  · have h' : ¬ j = i := fun e => h e.symm
    by_cases h2 : j < i
    · simp [h, h2, inTri, h2.le]
    · simp [h, h', h2, inTri, show ¬ j ≤ i by omega]

theorem trE_upper (X : Nat → Nat → α) : trE .upper .nonUnit X = luU X := by
  funext i j
  unfold trE luU
  by_cases h : i = j
  · subst h; simp
  · simp [h, inTri]

theorem sum_perm {n : Nat} {π : Equiv.Perm Nat} (h1 : ∀ r, r < n → π r < n) (h2 : ∀ r, r < n → π⁻¹ r < n)
    (f : Nat → α) : ∑ l ∈ range n, f (π l) = ∑ l ∈ range n, f l := by
  refine Finset.sum_nbij' π (π⁻¹ : Equiv.Perm Nat) ?_ ?_ ?_ ?_ ?_
  · intro l hl; rw [mem_range] at hl ⊢; exact h1 l hl
  · intro l hl; rw [mem_range] at hl ⊢; exact h2 l hl
  · intro l _; simp
  · intro l _; simp
  · intro l _; rfl

theorem lu_solve_no {n : Nat} {A0 F : Nat → Nat → α} {π : Equiv.Perm Nat} (h2 : ∀ r, r < n → π⁻¹ r < n)
    (hlu : ∀ r c, r < n → c < n → A0 (π r) c = ∑ l ∈ range n, luL F r l * luU F l c) {B Y X : Nat → α}
    (hL : ∀ r, r < n → ∑ l ∈ range n, luL F r l * Y l = B (π r))
    (hU : ∀ r, r < n → ∑ l ∈ range n, luU F r l * X l = Y r) {r : Nat} (hr : r < n) :
    ∑ l ∈ range n, A0 r l * X l = B r := by
  have hr' := h2 r hr
  have e : π (π⁻¹ r) = r := by simp
  rw [← e, ← hL _ hr']
  calc _ = ∑ l ∈ range n, ∑ q ∈ range n, luL F (π⁻¹ r) q * (luU F q l * X l) := by
        refine sum_congr rfl fun l hl => ?_
        rw [mem_range] at hl
        rw [hlu _ _ hr' hl, sum_mul]
        exact sum_congr rfl fun q _ => by ring
    _ = _ := by
        rw [sum_comm]
        refine sum_congr rfl fun q hq => ?_
        rw [mem_range] at hq
        rw [← mul_sum, hU q hq]

theorem lu_solve_tr {n : Nat} {A0 F : Nat → Nat → α} {π : Equiv.Perm Nat} (g : α →+* α)
    (h1 : ∀ r, r < n → π r < n) (h2 : ∀ r, r < n → π⁻¹ r < n)
    (hlu : ∀ r c, r < n → c < n → A0 (π r) c = ∑ l ∈ range n, luL F r l * luU F l c) {B Y Z : Nat → α}
    (hU : ∀ r, r < n → ∑ l ∈ range n, g (luU F l r) * Y l = B r)
    (hL : ∀ r, r < n → ∑ l ∈ range n, g (luL F l r) * Z l = Y r) {r : Nat} (hr : r < n) :
    ∑ l ∈ range n, g (A0 l r) * Z (π⁻¹ l) = B r := by
  rw [← sum_perm h1 h2, ← hU r hr]
  calc _ = ∑ l ∈ range n, ∑ q ∈ range n, g (luU F q r) * (g (luL F l q) * Z l) := by
        refine sum_congr rfl fun l hl => ?_
        rw [mem_range] at hl
        rw [hlu _ _ hl hr, map_sum, sum_mul]
        refine sum_congr rfl fun q _ => ?_
        rw [map_mul]; simp; ring
    _ = _ := by
        rw [sum_comm]
        refine sum_congr rfl fun q hq => ?_
        rw [mem_range] at hq
        rw [← mul_sum, hL q hq]

/-- The ring homomorphism of a transposition. -/
def cjT [StarRing α] (t : Trans) : α →+* α := if t = .conjTrans then starRingEnd α else RingHom.id α

theorem opE_cjT [StarRing α] {t : Trans} (ht : t ≠ .noTrans) (X : Nat → Nat → α) (r l : Nat) :
    opE t X r l = cjT t (X l r) := by
  cases t
  · exact absurd rfl ht
  · rfl
  · rfl

end

end Verif.LU

namespace Verif.Tile

open Finset Verif.LU Verif.Layout

universe u v

section
variable {M : Type u} [DecidableEq M] {α : Type v} [Field α] [StarRing α] [DecidableEq α] {b : Nat} {E : IntCode α}
  {A P B : TMat M} {dv : α → α → α}

/-- The solves of `plasma_omp_zgetrs` (compute/zgetrs.c:169-193). -/
def getrsL (rg : Bool) (E : IntCode α) (dv : α → α → α) (t : Trans) (A P B : TMat M) :
    List (TTask (M × Nat × Nat) α) :=
  if t = .noTrans then
    pzgeswp rg E true true B P ++
      (pztrsm dv .left .lower .noTrans .unit 1 A B ++ pztrsm dv .left .upper .noTrans .nonUnit 1 A B)
  else
    (pztrsm dv .left .upper t .nonUnit 1 A B ++ pztrsm dv .left .lower t .unit 1 A B) ++
      pzgeswp rg E true false B P

theorem trsm_A (hB : B.Al b) (hab : A.id ≠ B.id) {u : Uplo} {t : Trans} {d : Diag} (s : Store (M × Nat × Nat) α) :
    A.el (texec (pztrsm dv .left u t d 1 A B) s) = A.el s := by
  funext r c
  simp only [TMat.el]
  rw [(pztrsm_writes hB rfl rfl).frame s]
  simpa [TMat.at'] using hab

theorem trsm_P (hB : B.Al b) (hpb : P.id ≠ B.id) {u : Uplo} {t : Trans} {d : Diag} (s : Store (M × Nat × Nat) α) :
    P.el (texec (pztrsm dv .left u t d 1 A B) s) = P.el s := by
  funext r c
  simp only [TMat.el]
  rw [(pztrsm_writes hB rfl rfl).frame s]
  simpa [TMat.at'] using hpb

theorem trsm_left_el (hdv : IsDiv dv) (hA : A.Al b) (hB : B.Al b) (hab : A.id ≠ B.id) {u : Uplo} {t : Trans}
    {d : Diag} (s : Store (M × Nat × Nat) α) (hd : ∀ i, i < B.d.m → trE u d (A.el s) i i ≠ 0) {r c : Nat}
    (hr : r < B.d.m) (hc : c < B.d.n) :
    ∑ l ∈ range B.d.m, opE t (trE u d (A.el s)) r l * B.el (texec (pztrsm dv .left u t d 1 A B) s) l c =
      B.el s r c := by
  have := pztrsm_el (sd := .left) (u := u) (t := t) (d := d) hdv hA hB hab rfl rfl (one_ne_zero (α := α)) s hd r c
    hr hc
  simpa only [trN, trP, trT, trEl, if_true, one_mul] using this

/-- The solution with the stored factors. -/
theorem getrsL_el (hdv : IsDiv dv) (hA : A.Al b) (hB : B.Al b) (hab : A.id ≠ B.id) (hpb : P.id ≠ B.id) (rg : Bool)
    (t : Trans) (s : Store (M × Nat × Nat) α) (hp : PvIn E P B.d.m s) (hd : ∀ i, i < B.d.m → A.el s i i ≠ 0)
    {A0 : Nat → Nat → α} (hlu : ∀ r c, r < B.d.m → c < B.d.m →
      A0 (perm (pv E P s) 0 B.d.m r) c = ∑ l ∈ range B.d.m, luL (A.el s) r l * luU (A.el s) l c)
    {r c : Nat} (hr : r < B.d.m) (hc : c < B.d.n) :
    ∑ l ∈ range B.d.m, opE t A0 r l * B.el (texec (getrsL rg E dv t A P B) s) l c = B.el s r c := by
  have hpl : ∀ i, i < B.d.m → pv E P s i < B.d.m := fun i hi => by have := hp i hi; unfold pv; omega
  have h1 : ∀ r, r < B.d.m → perm (pv E P s) 0 B.d.m r < B.d.m := fun r hr => perm_lt (le_refl _) hpl hr
  have h2 : ∀ r, r < B.d.m → (perm (pv E P s) 0 B.d.m)⁻¹ r < B.d.m := fun r hr => perm_inv_lt (le_refl _) hpl hr
  have hdL : ∀ (X : Nat → Nat → α) i, trE .lower .unit X i i ≠ 0 := fun X i => by rw [trE_lower]; simp [luL]
  have hdU : ∀ (s' : Store (M × Nat × Nat) α), A.el s' = A.el s → ∀ i, i < B.d.m →
      trE .upper .nonUnit (A.el s') i i ≠ 0 := fun s' he i hi => by
    rw [trE_upper, he]; simpa [luU] using hd i hi
  unfold getrsL
  by_cases ht : t = .noTrans
  · subst ht
    rw [if_pos rfl, texec_append, texec_append]
    obtain ⟨e1, e2⟩ := pzgeswp_rows_eff hB hpb.symm rg true s hp
    set s1 := texec (pzgeswp rg E true true B P) s with hs1
    set s2 := texec (pztrsm dv .left .lower .noTrans .unit 1 A B) s1 with hs2
    have hA1 : A.el s1 = A.el s := by
      funext r c; simp only [TMat.el]; rw [e2 _ (by simpa [TMat.at'] using hab)]
    have hA2 : A.el s2 = A.el s := (trsm_A hB hab s1).trans hA1
    refine lu_solve_no (Y := fun l => B.el s2 l c) (B := fun l => B.el s l c) h2 hlu (fun r hr => ?_)
      (fun r hr => ?_) hr
    · have := trsm_left_el (u := .lower) (t := .noTrans) (d := .unit) hdv hA hB hab s1 (fun i _ => hdL _ i) hr hc
      rw [e1 r c hr hc, swpPerm_fwd, trE_lower, hA1] at this
      exact this
    · have := trsm_left_el (u := .upper) (t := .noTrans) (d := .nonUnit) hdv hA hB hab s2 (hdU s2 hA2) hr hc
      rw [trE_upper, hA2] at this
      exact this
  · rw [if_neg ht, texec_append, texec_append]
    set s1 := texec (pztrsm dv .left .upper t .nonUnit 1 A B) s with hs1
    set s2 := texec (pztrsm dv .left .lower t .unit 1 A B) s1 with hs2
    have hA1 : A.el s1 = A.el s := trsm_A hB hab s
    have hP2 : P.el s2 = P.el s := (trsm_P hB hpb s1).trans (trsm_P hB hpb s)
    have hpv : pv E P s2 = pv E P s := by funext i; unfold pv; rw [hP2]
    obtain ⟨e1, -⟩ := pzgeswp_rows_eff hB hpb.symm rg false s2 (fun i hi => by rw [hP2]; exact hp i hi)
    have hπ : swpPerm false B.d.m (pv E P s2) = (perm (pv E P s) 0 B.d.m)⁻¹ := by
      rw [show false = !true from rfl, swpPerm_inv, swpPerm_fwd, hpv]
    have key := lu_solve_tr (A0 := A0) (F := A.el s) (π := perm (pv E P s) 0 B.d.m) (cjT t) h1 h2 hlu
      (Y := fun l => B.el s1 l c) (Z := fun l => B.el s2 l c) (B := fun l => B.el s l c) (fun r hr => ?_)
      (fun r hr => ?_) hr
    · rw [← key]
      refine sum_congr rfl fun l hl => ?_
      rw [mem_range] at hl
      rw [opE_cjT ht, e1 l c hl hc, hπ]
    · have := trsm_left_el (u := .upper) (t := t) (d := .nonUnit) hdv hA hB hab s (hdU s rfl) hr hc
      rw [trE_upper] at this
      simp only [opE_cjT ht] at this
      exact this
    · have := trsm_left_el (u := .lower) (t := t) (d := .unit) hdv hA hB hab s1 (fun i _ => hdL _ i) hr hc
      rw [trE_lower, hA1] at this
      simp only [opE_cjT ht] at this
      exact this

theorem getrsL_writes (hB : B.Al b) {rg : Bool} {t : Trans} :
    Writes (fun x => x.1 = B.id) (getrsL rg E dv t A P B) := by
  unfold getrsL
  split
  · exact pzgeswp_writes.append ((pztrsm_writes hB rfl rfl).append (pztrsm_writes hB rfl rfl))
  · exact ((pztrsm_writes hB rfl rfl).append (pztrsm_writes hB rfl rfl)).append pzgeswp_writes

end

end Verif.Tile

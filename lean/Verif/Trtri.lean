/-
Model of the triangular inversion `pztrtri`, and its correctness at tile level.
-/
import Verif.Potrf

namespace Verif.Tile

open Verif.Layout Finset

universe u v

/-! ### The kernel -/

section kernel
variable {M : Type u} {α : Type v} [Field α] [StarRing α] [DecidableEq α]

/-- `LAPACKE_ztrtri_work` on an `n × n` tile (core_blas/core_ztrtri.c:59-66), by its LAPACK
specification in exact arithmetic: for a non-unit matrix with a zero on the diagonal,
`info` is the (one-based) position of the first one and the contents of the triangle are
left open; otherwise `info = 0` and the triangle is that of the inverse.  The diagonal of
a unit triangular matrix is not used. -/
structure IsTrtri (tk : Uplo → Diag → Nat → Tl α → Tl α) (info : Uplo → Diag → Nat → Tl α → Nat) : Prop where
  loc : ∀ u d n T T', (∀ i j, triD u d n i j → T i j = T' i j) → info u d n T = info u d n T' ∧
    ∀ i j, triD u d n i j → tk u d n T i j = tk u d n T' i j
  ok : ∀ u d n T, info u d n T = 0 → ∀ i j, i < n → j < n →
    ∑ l ∈ range n, trE u d T i l * trE u d (tk u d n T) l j = if i = j then 1 else 0
  sing : ∀ u n T, (∃ i, i < n ∧ T i i = 0) → info u .nonUnit n T ≠ 0
  bad : ∀ u d n T i, info u d n T = i + 1 → d = .nonUnit ∧ i < n ∧ T i i = 0 ∧ ∀ j, j < i → T j j ≠ 0

omit [StarRing α] [DecidableEq α] in
/-- A triangular solution of `T X = I` is triangular, with ones on the diagonal if `T` has. -/
theorem tri_inv_tri {n : Nat} {low : Bool} {T X : Nat → Nat → α}
    (hd : ∀ i, i < n → T i i ≠ 0) (ht : ∀ i l, i < n → l < n → (if low then i < l else l < i) → T i l = 0)
    (h : ∀ i j, i < n → j < n → ∑ l ∈ range n, T i l * X l j = if i = j then 1 else 0) :
    (∀ i j, i < n → j < n → (if low then i < j else j < i) → X i j = 0) ∧
    (∀ i, i < n → T i i * X i i = 1) := by
  have key : ∀ i j, i < n → j < n → (if low then i < j else j < i) → X i j = 0 := by
    intro i j hi hj hij
    cases low
    · simp only [Bool.false_eq_true, if_false] at hij ht
      have := tri_unique (low := false) (N := n - (j + 1)) (T := fun a b => T (j + 1 + a) (j + 1 + b))
        (x := fun l => X (j + 1 + l) j) (y := fun _ => 0) (fun a ha => hd _ (by omega))
        (fun a l ha hl hal => ht _ _ (by omega) (by omega) (by simp at hal; omega)) ?_ (i - (j + 1)) (by omega)
      · rw [show j + 1 + (i - (j + 1)) = i by omega] at this; exact this
      · intro a ha
        have h1 := h (j + 1 + a) j (by omega) hj
        rw [if_neg (by omega)] at h1
        rw [show n = j + 1 + (n - (j + 1)) by omega, sum_range_add] at h1
        rw [sum_eq_zero (s := range (j + 1))] at h1
        · rw [zero_add] at h1; rw [h1]; simp
        · intro l hl; rw [mem_range] at hl
          rw [ht _ _ (by omega) (by omega) (by omega), zero_mul]
    · simp only [if_true] at hij ht
      refine tri_unique (low := true) (N := j) (T := T) (x := fun l => X l j) (y := fun _ => 0)
        (fun a ha => hd _ (by omega)) (fun a l ha hl hal => ht _ _ (by omega) (by omega) (by simpa using hal)) ?_ i hij
      intro a ha
      have h1 := h a j (by omega) hj
      rw [if_neg (by omega)] at h1
      rw [show n = j + (n - j) by omega, sum_range_add] at h1
      rw [sum_eq_zero (s := range (n - j)), add_zero] at h1
      · rw [h1]; simp
      · intro l hl; rw [mem_range] at hl
        rw [ht _ _ (by omega) (by omega) (by omega), zero_mul]
  refine ⟨key, ?_⟩
  intro i hi
  have h1 := h i i hi hi
  rw [if_pos rfl, sum_eq_single i] at h1
  · exact h1
  · intro l hl hne
    rw [mem_range] at hl
    by_cases hc : (if low then i < l else l < i)
    · rw [ht i l hi hl hc, zero_mul]
    · rw [key l i hl hi (by cases low <;> simp at hc ⊢ <;> omega), mul_zero]
  · intro hn; exact absurd (mem_range.mpr hi) hn

/-- There is such a kernel. -/
theorem exists_isTrtri : ∃ tk info, IsTrtri (α := α) tk info := by
  classical
  let dv : α → α → α := fun x y => x / y
  have hdv : IsDiv dv := ⟨fun _ _ _ => rfl⟩
  let tk : Uplo → Diag → Nat → Tl α → Tl α := fun u d n T i j =>
    trsmK dv .left u .noTrans d n n 1 T (fun a b => if a = b then 1 else 0) i j
  let P : Diag → Nat → Tl α → Prop := fun d n T => d = .nonUnit ∧ ∃ i, i < n ∧ T i i = 0
  let info : Uplo → Diag → Nat → Tl α → Nat := fun _ d n T => if h : P d n T then Nat.find h.2 + 1 else 0
  refine ⟨tk, info, ?_, ?_, ?_, ?_⟩
  · intro u d n T T' h
    refine ⟨?_, ?_⟩
    · have hP : ∀ i, d = .nonUnit → i < n → T i i = T' i i := by
        intro i hd hi
        exact h i i ⟨hi, hi, by cases u <;> simp [inTri], by simp [hd]⟩
      have e : P d n T ↔ P d n T' := by
        constructor
        · rintro ⟨hd, i, hi, h0⟩; exact ⟨hd, i, hi, by rw [← hP i hd hi]; exact h0⟩
        · rintro ⟨hd, i, hi, h0⟩; exact ⟨hd, i, hi, by rw [hP i hd hi]; exact h0⟩
      simp only [info]
      by_cases hc : P d n T
      · rw [dif_pos hc, dif_pos (e.mp hc)]
        congr 1
        apply Nat.find_congr'
        intro i
        constructor
        · rintro ⟨hi, h0⟩; exact ⟨hi, by rw [← hP i hc.1 hi]; exact h0⟩
        · rintro ⟨hi, h0⟩; exact ⟨hi, by rw [hP i hc.1 hi]; exact h0⟩
      · rw [dif_neg hc, dif_neg (fun h => hc (e.mpr h))]
    · intro i j hij
      exact trsmK_congr (by simpa using h) (fun _ _ _ => rfl) ⟨hij.1, hij.2.1⟩
  · intro u d n T h
    have hno : ¬ P d n T := by
      intro hc; simp only [info, dif_pos hc] at h; omega
    have hd : ∀ i, i < n → trE u d T i i ≠ 0 := by
      intro i hi h0
      unfold trE at h0
      rw [if_pos rfl] at h0
      by_cases hdd : d = .unit
      · rw [if_pos hdd] at h0; exact one_ne_zero h0
      · rw [if_neg hdd] at h0
        exact hno ⟨by cases d <;> simp_all, i, hi, h0⟩
    have hsol : ∀ i j, i < n → j < n → ∑ l ∈ range n, trE u d T i l * tk u d n T l j = if i = j then 1 else 0 := by
      intro i j hi hj
      have := trsmK_spec hdv (sd := .left) (u := u) (t := .noTrans) (d := d) (m := n) (n := n) (one_ne_zero (α := α))
        (X := T) (Y := fun a b => if a = b then 1 else 0) (by simpa [trN] using hd) (r := i) (c := j) (by simpa [trN] using hi)
      simpa [trN, trT, trEl, opE] using this
    obtain ⟨h1, h2⟩ := tri_inv_tri (low := decide (u = .lower)) hd (fun i l _ _ hil => by
      apply trE_out; unfold inTri; cases u <;> simp at hil ⊢ <;> omega) hsol
    intro i j hi hj
    rw [← hsol i j hi hj]
    refine sum_congr rfl fun l hl => ?_
    rw [mem_range] at hl
    congr 1
    by_cases hlj : inTri u l j
    · by_cases hne : l = j
      · subst hne
        unfold trE
        rw [if_pos rfl]
        by_cases hdd : d = .unit
        · have := h2 l hl
          unfold trE at this
          rw [if_pos rfl, if_pos hdd, one_mul] at this
          rw [if_pos hdd, this]
        · rw [if_neg hdd]
      · exact trE_off hlj hne
    · rw [trE_out hlj]
      symm
      apply h1 l j hl hj
      unfold inTri at hlj
      cases u <;> simp at hlj ⊢ <;> omega
  · intro u n T h
    simp only [info]
    rw [dif_pos ⟨rfl, h⟩]; omega
  · intro u d n T i h
    simp only [info] at h
    by_cases hc : P d n T
    · rw [dif_pos hc] at h
      have hi : Nat.find hc.2 = i := by omega
      have := Nat.find_spec hc.2
      rw [hi] at this
      refine ⟨hc.1, this.1, this.2, ?_⟩
      intro j hj h0
      exact Nat.find_min hc.2 (m := j) (by omega) ⟨by omega, h0⟩
    · rw [dif_neg hc] at h; omega

/-- `plasma_core_omp_ztrtri` (core_blas/core_ztrtri.c:69-84). -/
def coreTrtri (tk : Uplo → Diag → Nat → Tl α → Tl α) (info : Uplo → Diag → Nat → Tl α → Nat) (u : Uplo) (d : Diag)
    (n : Nat) (a : M) (iinfo : Nat) : GTTask M α where
  task := op0 a (triD u d n) (tk u d n)
  code := fun s => if info u d n (s a) ≠ 0 then (iinfo : Int) + info u d n (s a) else 0

/-- `plasma_pztrtri` (compute/pztrtri.c:27-129). -/
def pztrtri (tk : Uplo → Diag → Nat → Tl α → Tl α) (info : Uplo → Diag → Nat → Tl α → Nat) (dv : α → α → α)
    (u : Uplo) (d : Diag) (A : TMat M) : List (GTTask (M × Nat × Nat) α) :=
  if u = .lower then
    (List.range A.d.nt).flatMap fun k =>
      okT (((span (k+1) A.d.mt).map fun m =>
            coreTrsm dv .right .lower .noTrans d (A.d.mview m) (A.d.nview k) (-1) (A.at' k k) (A.at' m k)) ++
          (((span (k+1) A.d.mt).flatMap fun m => (List.range k).map fun n =>
            coreGemm .noTrans .noTrans (A.d.mview m) (A.d.nview n) (min (A.d.nview k) (A.d.mview k)) 1
              (A.at' m k) (A.at' k n) 1 (A.at' m n)) ++
          (List.range k).map fun n =>
            coreTrsm dv .left .lower .noTrans d (A.d.mview k) (A.d.nview n) 1 (A.at' k k) (A.at' k n))) ++
      [coreTrtri tk info .lower d (A.d.nview k) (A.at' k k) (A.d.nb * k)]
  else
    (List.range A.d.mt).flatMap fun k =>
      okT (((span (k+1) A.d.nt).map fun n =>
            coreTrsm dv .left .upper .noTrans d (A.d.mview k) (A.d.nview n) (-1) (A.at' k k) (A.at' k n)) ++
          ((List.range k).flatMap fun m =>
            ((span (k+1) A.d.nt).map fun n =>
              coreGemm .noTrans .noTrans (A.d.mview m) (A.d.nview n) (min (A.d.nview k) (A.d.mview k)) 1
                (A.at' m k) (A.at' k n) 1 (A.at' m n)) ++
            [coreTrsm dv .right .upper .noTrans d (A.d.mview m) (A.d.nview k) 1 (A.at' k k) (A.at' m k)])) ++
      [coreTrtri tk info .upper d (A.d.mview k) (A.at' k k) (A.d.nb * k)]

end kernel

/-! ### Arithmetic of one step -/

/-- State of the in-place inversion after `q` columns: `L` is the original matrix, `X` the
current one; the leading block holds the inverse, the rows below `-L21 L11^{-1}`, the
remaining columns are unchanged. -/
structure TriInv {α : Type v} [Field α] (N q : Nat) (L X : Nat → Nat → α) : Prop where
  done : ∀ r c, r < N → c < q → ∑ l ∈ range q, L r l * X l c =
    (if r = c then 1 else 0) - (if r < q then 0 else X r c)
  rest : ∀ r c, r < N → q ≤ c → X r c = L r c

theorem TriInv.step {α : Type v} [Field α] {N q w : Nat} {L X X' : Nat → Nat → α} (h : TriInv N q L X)
    (hL : ∀ r l, r < l → L r l = 0) (hX : ∀ r l, r < l → X' r l = 0)
    (ha : ∀ r c, r < q → X' r c = X r c)
    (hb : ∀ i c, i < w → c < q → ∑ l ∈ range w, L (q + i) (q + l) * X' (q + l) c = X (q + i) c)
    (hc : ∀ i j, i < w → j < w → ∑ l ∈ range w, L (q + i) (q + l) * X' (q + l) (q + j) = if i = j then 1 else 0)
    (hd : ∀ r j, q + w ≤ r → r < N → j < w → ∑ l ∈ range w, X' r (q + l) * L (q + l) (q + j) = - X r (q + j))
    (he : ∀ r c, q + w ≤ r → r < N → c < q → X' r c = X r c + ∑ l ∈ range w, X' r (q + l) * X (q + l) c)
    (hf : ∀ r c, r < N → q + w ≤ c → X' r c = X r c) : TriInv N (q + w) L X' where
  done := by
    intro r c hr hcq
    rw [sum_range_add]
    by_cases hcq' : c < q
    · have e1 : ∑ l ∈ range q, L r l * X' l c = ∑ l ∈ range q, L r l * X l c := by
        refine sum_congr rfl fun l hl => ?_
        rw [mem_range] at hl
        rw [ha l c hl]
      rw [e1, h.done r c hr hcq']
      by_cases hrq : r < q
      · rw [if_pos hrq, if_pos (show r < q + w by omega), sum_eq_zero, add_zero]
        intro l _
        rw [hL r (q + l) (by omega), zero_mul]
      · rw [if_neg hrq]
        by_cases hrw : r < q + w
        · rw [if_pos hrw]
          obtain ⟨i, rfl⟩ := Nat.exists_eq_add_of_le (Nat.le_of_not_lt hrq)
          rw [hb i c (by omega) hcq']; ring
        · rw [if_neg hrw, he r c (by omega) hr hcq']
          have e2 : ∑ l ∈ range w, L r (q + l) * X' (q + l) c = - ∑ l ∈ range w, X' r (q + l) * X (q + l) c := by
            have e3 : ∀ l ∈ range w, L r (q + l) * X' (q + l) c =
                - ∑ l' ∈ range w, X' r (q + l') * (L (q + l') (q + l) * X' (q + l) c) := by
              intro l hl
              rw [mem_range] at hl
              rw [← h.rest r (q + l) hr (by omega)]
              have := hd r l (by omega) hr hl
              rw [show X r (q + l) = - ∑ l' ∈ range w, X' r (q + l') * L (q + l') (q + l) by rw [this, neg_neg],
                neg_mul, sum_mul]
              congr 1
              refine sum_congr rfl fun l' _ => ?_
              rw [mul_assoc]
            rw [sum_congr rfl e3, sum_neg_distrib, sum_comm]
            congr 1
            refine sum_congr rfl fun l' hl' => ?_
            rw [mem_range] at hl'
            rw [← mul_sum, hb l' c hl' hcq']
          rw [e2]; ring
    · obtain ⟨j, rfl⟩ := Nat.exists_eq_add_of_le (Nat.le_of_not_lt hcq')
      have e1 : ∑ l ∈ range q, L r l * X' l (q + j) = 0 := by
        refine sum_eq_zero fun l hl => ?_
        rw [mem_range] at hl
        rw [hX l (q + j) (by omega), mul_zero]
      rw [e1, zero_add]
      by_cases hrq : r < q
      · rw [if_pos (show r < q + w by omega), if_neg (show ¬ r = q + j by omega), sub_zero]
        refine sum_eq_zero fun l _ => ?_
        rw [hL r (q + l) (by omega), zero_mul]
      · by_cases hrw : r < q + w
        · rw [if_pos hrw]
          obtain ⟨i, rfl⟩ := Nat.exists_eq_add_of_le (Nat.le_of_not_lt hrq)
          rw [hc i j (by omega) (by omega), sub_zero]
          by_cases hij : i = j
          · rw [if_pos hij, if_pos (by omega)]
          · rw [if_neg hij, if_neg (by omega)]
        · rw [if_neg hrw, if_neg (show ¬ r = q + j by omega), zero_sub]
          have e3 : ∀ l ∈ range w, L r (q + l) * X' (q + l) (q + j) =
              - ∑ l' ∈ range w, X' r (q + l') * (L (q + l') (q + l) * X' (q + l) (q + j)) := by
            intro l hl
            rw [mem_range] at hl
            rw [← h.rest r (q + l) hr (by omega)]
            have := hd r l (by omega) hr hl
            rw [show X r (q + l) = - ∑ l' ∈ range w, X' r (q + l') * L (q + l') (q + l) by rw [this, neg_neg],
              neg_mul, sum_mul]
            congr 1
            refine sum_congr rfl fun l' _ => ?_
            rw [mul_assoc]
          rw [sum_congr rfl e3, sum_neg_distrib, sum_comm]
          congr 1
          rw [sum_eq_single j]
          · rw [← mul_sum, hc j j (by omega) (by omega), if_pos rfl, mul_one]
          · intro l' hl' hne
            rw [mem_range] at hl'
            rw [← mul_sum, hc l' j hl' (by omega), if_neg hne, mul_zero]
          · intro hn; exact absurd (mem_range.mpr (show j < w by omega)) hn
  rest := by
    intro r c hr hcq
    rw [hf r c hr hcq, h.rest r c hr (by omega)]

/-! ### The lower view -/

section step
variable {M : Type u} {α : Type v} [Field α] [StarRing α] [DecidableEq α]

/-- An array, transposed for an upper triangle. -/
def lowT (u : Uplo) (A : Nat → Nat → α) (r c : Nat) : α := if u = .lower then A r c else A c r

/-- The triangular matrix described by an array, in the lower view. -/
def lowTr (u : Uplo) (d : Diag) (A : Nat → Nat → α) : Nat → Nat → α := trE .lower d (lowT u A)

omit [StarRing α] [DecidableEq α] in
theorem lowTr_eq (u : Uplo) (d : Diag) (A : Nat → Nat → α) (r c : Nat) :
    lowTr u d A r c = if u = .lower then trE u d A r c else trE u d A c r := by
  cases u
  · simp only [lowTr, lowT, trE, inTri, reduceCtorEq, if_false]
    by_cases h : r = c
    · subst h; simp
    · rw [if_neg h, if_neg (Ne.symm h)]
  · simp only [lowTr, lowT, if_true, trE]

omit [StarRing α] [DecidableEq α] in
theorem lowTr_zero {u : Uplo} {d : Diag} {A : Nat → Nat → α} {r c : Nat} (h : r < c) :
    lowTr u d A r c = 0 := trE_out (by simp only [inTri]; omega)

omit [Field α] [StarRing α] [DecidableEq α] in
theorem lowT_el {u : Uplo} {A : TMat M} {b : Nat} (hA : A.Al b) (s : Store (M × Nat × Nat) α)
    {m n i j : Nat} (hi : i < b) (hj : j < b) :
    lowT u (A.el s) (m * b + i) (n * b + j) = lowT u (s (pt u A (m, n))) i j := by
  unfold lowT pt
  cases u
  · simp only [reduceCtorEq, if_false]; rw [hA.el_tile s hj hi]
  · simp only [if_true]; rw [hA.el_tile s hi hj]

omit [StarRing α] [DecidableEq α] in
theorem lowTr_el_diag {u : Uplo} {d : Diag} {A : TMat M} {b : Nat} (hA : A.Al b) (s : Store (M × Nat × Nat) α)
    {m i j : Nat} (hi : i < b) (hj : j < b) :
    lowTr u d (A.el s) (m * b + i) (m * b + j) = lowTr u d (s (pt u A (m, m))) i j := by
  unfold lowTr trE
  rw [lowT_el hA s hi hj]
  simp [inTri]

omit [StarRing α] [DecidableEq α] in
theorem lowTr_el_off {u : Uplo} {d : Diag} {A : TMat M} {b : Nat} (hA : A.Al b) (s : Store (M × Nat × Nat) α)
    {m n i j : Nat} (hnm : n < m) (hi : i < b) (hj : j < b) :
    lowTr u d (A.el s) (m * b + i) (n * b + j) = lowT u (s (pt u A (m, n))) i j := by
  have : (n + 1) * b ≤ m * b := Nat.mul_le_mul_right _ hnm
  rw [Nat.add_mul] at this
  unfold lowTr
  rw [trE_off (by simp only [inTri]; omega) (by omega), lowT_el hA s hi hj]

/-- The other side. -/
def pside' (u : Uplo) : Side := if u = .lower then .left else .right

variable {dv : α → α → α} {u : Uplo} {d : Diag}

theorem ti_trsmR (hdv : IsDiv dv) {m n : Nat} {a c : M} {alpha : α} (ha : alpha ≠ 0) (s : Store M α)
    (hd : ∀ i, i < n → trE u d (s a) i i ≠ 0) {i j : Nat} (hi : i < m) (hj : j < n) :
    ∑ l ∈ range n,
      lowT u ((coreTrsm dv (pside u) u .noTrans d (pr u m n) (pr u n m) alpha a c).run s c) i l *
        lowTr u d (s a) l j = alpha * lowT u (s c) i j := by
  cases u
  · simp only [pside, pr, reduceCtorEq, if_false, lowT, lowTr_eq]
    have h := trsmK_spec hdv (sd := .left) (u := .upper) (t := .noTrans) (d := d) (m := n)
      (n := m) (alpha := alpha) ha (X := s a) (Y := s c) hd (r := j) (c := i) hj
    simp only [trN, trT, trEl, if_true, opE] at h
    rw [← h]
    refine sum_congr rfl fun l hl => ?_
    rw [mem_range] at hl
    rw [coreTrsm_run s ⟨hl, hi⟩, mul_comm]
  · simp only [pside, pr, if_true, lowT, lowTr_eq]
    have h := trsmK_spec hdv (sd := .right) (u := .lower) (t := .noTrans) (d := d) (m := m)
      (n := n) (alpha := alpha) ha (X := s a) (Y := s c) hd (r := j) (c := i) hj
    simp only [trN, trT, trEl, if_false, reduceCtorEq, opE] at h
    rw [← h]
    refine sum_congr rfl fun l hl => ?_
    rw [mem_range] at hl
    rw [coreTrsm_run s ⟨hi, hl⟩, mul_comm]

theorem ti_trsmL (hdv : IsDiv dv) {m n : Nat} {a c : M} {alpha : α} (ha : alpha ≠ 0) (s : Store M α)
    (hd : ∀ i, i < m → trE u d (s a) i i ≠ 0) {i j : Nat} (hi : i < m) (hj : j < n) :
    ∑ l ∈ range m, lowTr u d (s a) i l *
      lowT u ((coreTrsm dv (pside' u) u .noTrans d (pr u m n) (pr u n m) alpha a c).run s c) l j =
        alpha * lowT u (s c) i j := by
  cases u
  · simp only [pside', pr, reduceCtorEq, if_false, lowT, lowTr_eq]
    have h := trsmK_spec hdv (sd := .right) (u := .upper) (t := .noTrans) (d := d) (m := n)
      (n := m) (alpha := alpha) ha (X := s a) (Y := s c) hd (r := i) (c := j) hi
    simp only [trN, trT, trEl, if_false, reduceCtorEq, opE] at h
    rw [← h]
    refine sum_congr rfl fun l hl => ?_
    rw [mem_range] at hl
    rw [coreTrsm_run s ⟨hj, hl⟩]
  · simp only [pside', pr, if_true, lowT, lowTr_eq]
    have h := trsmK_spec hdv (sd := .left) (u := .lower) (t := .noTrans) (d := d) (m := m)
      (n := n) (alpha := alpha) ha (X := s a) (Y := s c) hd (r := i) (c := j) hi
    simp only [trN, trT, trEl, if_true, opE] at h
    rw [← h]
    refine sum_congr rfl fun l hl => ?_
    rw [mem_range] at hl
    rw [coreTrsm_run s ⟨hl, hj⟩]

omit [DecidableEq α] in
theorem ti_gemm {m n k : Nat} {a b c : M} (s : Store M α) {i j : Nat} (hi : i < m) (hj : j < n) :
    lowT u ((coreGemm .noTrans .noTrans (pr u m n) (pr u n m) k 1 (if u = .lower then a else b)
        (if u = .lower then b else a) 1 c).run s c) i j =
      lowT u (s c) i j + ∑ l ∈ range k, lowT u (s a) i l * lowT u (s b) l j := by
  cases u
  · simp only [lowT, pr, reduceCtorEq, if_false]
    rw [gemm_run s ⟨hj, hi⟩]
    simp only [opE, one_mul]
    congr 1
    exact sum_congr rfl fun l _ => mul_comm _ _
  · simp only [lowT, pr, if_true]
    rw [gemm_run s ⟨hi, hj⟩]
    simp only [opE, one_mul]

variable {tk : Uplo → Diag → Nat → Tl α → Tl α} {info : Uplo → Diag → Nat → Tl α → Nat}

omit [StarRing α] [DecidableEq α] in
/-- The inverse in the lower view. -/
theorem IsTrtri.low (h : IsTrtri tk info) {n : Nat} {T : Tl α} (h0 : info u d n T = 0) {i j : Nat}
    (hi : i < n) (hj : j < n) :
    ∑ l ∈ range n, lowTr u d T i l * lowTr u d (tk u d n T) l j = if i = j then 1 else 0 := by
  cases u
  · let P : Matrix (Fin n) (Fin n) α := Matrix.of fun i j => trE .upper d T i j
    let Q : Matrix (Fin n) (Fin n) α := Matrix.of fun i j => trE .upper d (tk .upper d n T) i j
    have hPQ : P * Q = 1 := by
      ext i j
      rw [Matrix.mul_apply, Matrix.one_apply]
      have := h.ok .upper d n T h0 i j i.2 j.2
      rw [← Fin.sum_univ_eq_sum_range (fun l => trE .upper d T i l * trE .upper d (tk .upper d n T) l j)] at this
      simp only [P, Q, Matrix.of_apply]
      rw [this]; simp [Fin.ext_iff]
    have hQP : Q * P = 1 := mul_eq_one_comm.mp hPQ
    have := congrFun (congrFun hQP ⟨j, hj⟩) ⟨i, hi⟩
    rw [Matrix.mul_apply, Matrix.one_apply] at this
    simp only [P, Q, Matrix.of_apply, Fin.mk.injEq] at this
    rw [Fin.sum_univ_eq_sum_range (fun l => trE .upper d (tk .upper d n T) j l * trE .upper d T l i)] at this
    simp only [lowTr_eq, reduceCtorEq, if_false]
    simp only [eq_comm (a := i)]
    rw [← this]
    exact sum_congr rfl fun l _ => mul_comm _ _
  · simp only [lowTr_eq, if_true]
    exact h.ok .lower d n T h0 i j hi hj

omit [StarRing α] [DecidableEq α] in
theorem IsTrtri.ne (h : IsTrtri tk info) {n : Nat} {T : Tl α} (h0 : info u d n T = 0) {i : Nat}
    (hi : i < n) : trE u d T i i ≠ 0 := by
  unfold trE
  rw [if_pos rfl]
  cases d
  · simp only [reduceCtorEq, if_false]
    intro hz
    exact h.sing u n T ⟨i, hi, hz⟩ h0
  · simp

/-! ### One step -/

variable {A : TMat M} {b N : Nat}

/-- Tiles updated in step `k` before the diagonal tile, in order of creation. -/
def tiIdx (u : Uplo) (K k : Nat) : List (Nat × Nat) :=
  if u = .lower then
    ((span (k+1) K).map fun m => (m, k)) ++
      (((span (k+1) K).flatMap fun m => (List.range k).map fun n => (m, n)) ++
      (List.range k).map fun n => (k, n))
  else
    ((span (k+1) K).map fun n => (n, k)) ++
      (List.range k).flatMap fun m => ((span (k+1) K).map fun n => (n, m)) ++ [(k, m)]

/-- The task of step `k` that updates tile `p`. -/
def tiTask (dv : α → α → α) (u : Uplo) (d : Diag) (A : TMat M) (b N k : Nat) (p : Nat × Nat) :
    TTask (M × Nat × Nat) α :=
  if p.2 = k then
    coreTrsm dv (pside u) u .noTrans d (pr u (tdim N b p.1) (tdim N b k)) (pr u (tdim N b k) (tdim N b p.1)) (-1)
      (pt u A (k, k)) (pt u A p)
  else if p.1 = k then
    coreTrsm dv (pside' u) u .noTrans d (pr u (tdim N b k) (tdim N b p.2)) (pr u (tdim N b p.2) (tdim N b k)) 1
      (pt u A (k, k)) (pt u A p)
  else
    coreGemm .noTrans .noTrans (pr u (tdim N b p.1) (tdim N b p.2)) (pr u (tdim N b p.2) (tdim N b p.1)) (tdim N b k) 1
      (if u = .lower then pt u A (p.1, k) else pt u A (k, p.2))
      (if u = .lower then pt u A (k, p.2) else pt u A (p.1, k)) 1 (pt u A p)

/-- Step `k`. -/
def tiStep (tk : Uplo → Diag → Nat → Tl α → Tl α) (info : Uplo → Diag → Nat → Tl α → Nat) (dv : α → α → α)
    (u : Uplo) (d : Diag) (A : TMat M) (b N k : Nat) : List (GTTask (M × Nat × Nat) α) :=
  okT ((tiIdx u (ceilDiv N b) k).map (tiTask dv u d A b N k)) ++
    [coreTrtri tk info u d (tdim N b k) (pt u A (k, k)) (b * k)]

theorem mem_tiIdx {K k : Nat} (hk : k < K) {p : Nat × Nat} :
    p ∈ tiIdx u K k ↔ k ≤ p.1 ∧ p.1 < K ∧ p.2 ≤ k ∧ p ≠ (k, k) := by
  obtain ⟨m, n⟩ := p
  unfold tiIdx
  rw [Ne, Prod.mk.injEq]
  cases u
  · simp only [reduceCtorEq, if_false, List.mem_append, List.mem_map, List.mem_flatMap, mem_span, Prod.mk.injEq,
      List.mem_range, List.mem_singleton]
    constructor
    · rintro (⟨x, hx, rfl, rfl⟩ | ⟨x, hx, ⟨y, hy, rfl, rfl⟩ | ⟨rfl, rfl⟩⟩) <;> omega
    · rintro ⟨h1, h2, h3, h4⟩
      by_cases hn : k = n
      · exact Or.inl ⟨m, by omega, rfl, hn⟩
      · refine Or.inr ⟨n, by omega, ?_⟩
        by_cases hm : m = k
        · exact Or.inr ⟨hm, rfl⟩
        · exact Or.inl ⟨m, by omega, rfl, rfl⟩
  · simp only [if_true, List.mem_append, List.mem_map, List.mem_flatMap, mem_span, Prod.mk.injEq,
      List.mem_range]
    constructor
    · rintro (⟨x, hx, rfl, rfl⟩ | ⟨x, hx, y, hy, rfl, rfl⟩ | ⟨x, hx, rfl, rfl⟩) <;> omega
    · rintro ⟨h1, h2, h3, h4⟩
      by_cases hn : k = n
      · exact Or.inl ⟨m, by omega, rfl, hn⟩
      · refine Or.inr ?_
        by_cases hm : k = m
        · exact Or.inr ⟨n, by omega, hm, rfl⟩
        · exact Or.inl ⟨m, by omega, n, by omega, rfl, rfl⟩

theorem pztrtri_eq (hA : A.Al b) (hm : A.d.m = N) (hn : A.d.n = N) :
    pztrtri tk info dv u d A = (List.range (ceilDiv N b)).flatMap (tiStep tk info dv u d A b N) := by
  have hmt : A.d.mt = ceilDiv N b := by rw [hA.mt_eq, hm]
  have hnt : A.d.nt = ceilDiv N b := by rw [hA.nt_eq, hn]
  have hmv : ∀ k, k < ceilDiv N b → A.d.mview k = tdim N b k := fun k hk => by
    rw [hA.mview (by omega), hm]
  have hnv : ∀ k, k < ceilDiv N b → A.d.nview k = tdim N b k := fun k hk => by
    rw [hA.nview (by omega), hn]
  unfold pztrtri
  cases u
  · simp only [reduceCtorEq, if_false, hnt, hmt, hA.nb]
    apply List.flatMap_congr
    intro k hk
    rw [List.mem_range] at hk
    unfold tiStep tiIdx
    simp only [reduceCtorEq, if_false]
    rw [List.map_append, List.map_map, List.map_flatMap]
    congr 1
    · congr 1
      congr 1
      · apply List.map_congr_left
        intro m hm
        rw [mem_span] at hm
        simp only [Function.comp, tiTask, if_true, pside, pr, pt, reduceCtorEq, if_false]
        rw [hmv k hk, hnv m (by omega)]
      · apply List.flatMap_congr
        intro m hm
        rw [List.mem_range] at hm
        have hmk : m ≠ k := by omega
        rw [List.map_append, List.map_map, List.map_singleton]
        congr 1
        · apply List.map_congr_left
          intro n hn
          rw [mem_span] at hn
          have h1 : n ≠ k := by omega
          simp only [Function.comp, tiTask, pr, pt, reduceCtorEq, if_false, h1, hmk]
          rw [hmv k hk, hnv k hk, hmv m (by omega), hnv n (by omega), Nat.min_self]
        · simp only [tiTask, pside', pr, pt, reduceCtorEq, if_false, hmk, if_true]
          rw [hnv k hk, hmv m (by omega)]
    · simp only [pt, reduceCtorEq, if_false]
      rw [hmv k hk]
  · simp only [if_true, hnt, hmt, hA.nb]
    apply List.flatMap_congr
    intro k hk
    rw [List.mem_range] at hk
    unfold tiStep tiIdx
    simp only [if_true]
    rw [List.map_append, List.map_append, List.map_map, List.map_map, List.map_flatMap]
    congr 1
    · congr 1
      congr 1
      · apply List.map_congr_left
        intro m hm
        rw [mem_span] at hm
        simp only [Function.comp, tiTask, if_true, pside, pr, pt]
        rw [hnv k hk, hmv m (by omega)]
      · congr 1
        · apply List.flatMap_congr
          intro m hm
          rw [mem_span] at hm
          have hmk : m ≠ k := by omega
          rw [List.map_map]
          apply List.map_congr_left
          intro n hn
          rw [List.mem_range] at hn
          have h1 : n ≠ k := by omega
          simp only [Function.comp, tiTask, pr, pt, if_true, if_false, h1, hmk]
          rw [hmv k hk, hnv k hk, hmv m (by omega), hnv n (by omega), Nat.min_self]
        · apply List.map_congr_left
          intro n hn
          rw [List.mem_range] at hn
          have h1 : n ≠ k := by omega
          simp only [Function.comp, tiTask, pside', pr, pt, if_false, h1, if_true]
          rw [hmv k hk, hnv n (by omega)]
    · simp only [pt, if_true]
      rw [hnv k hk]

/-- `p` is updated before `q` in step `k`. -/
def TiBefore (k : Nat) (p q : Nat × Nat) : Prop :=
  p ≠ q ∧ p ≠ (k, k) ∧ (q.2 = k → q.1 ≠ k → p.2 = k) ∧ (p.1 = k → q.1 ≠ k → p.2 ≠ q.2)

theorem tiIdx_pairwise (K k : Nat) : (tiIdx u K k ++ [(k, k)]).Pairwise (TiBefore k) := by
  have hcol : ∀ n, n ≤ k → ((span (k+1) K).map fun m => (m, n)).Pairwise (TiBefore k) := by
    intro n _
    rw [List.pairwise_map]
    refine List.Pairwise.imp_of_mem ?_ (nodup_span (lo := k+1) (hi := K))
    intro a b ha hb hab
    rw [mem_span] at ha hb
    refine ⟨?_, ?_, ?_, ?_⟩
    · simpa using hab
    · simp; omega
    · intro h _; exact h
    · intro h; simp at h; omega
  have hrow : ∀ m, k ≤ m → ((List.range k).map fun n => (m, n)).Pairwise (TiBefore k) := by
    intro m _
    rw [List.pairwise_map]
    refine List.Pairwise.imp_of_mem ?_ (List.nodup_range (n := k))
    intro a b ha hb hab
    rw [List.mem_range] at ha hb
    refine ⟨?_, ?_, ?_, ?_⟩
    · simpa using hab
    · simp; omega
    · intro h; simp at h; omega
    · intro _ _; exact hab
  rw [List.pairwise_append]
  refine ⟨?_, List.pairwise_singleton _ _, ?_⟩
  · unfold tiIdx
    cases u
    · simp only [reduceCtorEq, if_false]
      rw [List.pairwise_append]
      refine ⟨hcol k (le_refl _), ?_, ?_⟩
      · rw [List.pairwise_flatMap]
        constructor
        · intro m hm
          rw [List.mem_range] at hm
          rw [List.pairwise_append]
          refine ⟨hcol m (le_of_lt hm), List.pairwise_singleton _ _, ?_⟩
          intro a ha b hb
          obtain ⟨n, hn, rfl⟩ := List.mem_map.mp ha
          rw [List.mem_singleton] at hb
          subst hb
          rw [mem_span] at hn
          refine ⟨?_, ?_, ?_, ?_⟩
          · simp; omega
          · simp; omega
          · intro h; simp at h; omega
          · intro h; simp at h; omega
        · refine List.Pairwise.imp_of_mem ?_ (List.nodup_range (n := k))
          intro a b ha hb hab x hx y hy
          rw [List.mem_range] at ha hb
          have hx2 : x.2 = a := by
            rw [List.mem_append, List.mem_map, List.mem_singleton] at hx
            rcases hx with ⟨_, _, rfl⟩ | rfl <;> rfl
          have hy2 : y.2 = b := by
            rw [List.mem_append, List.mem_map, List.mem_singleton] at hy
            rcases hy with ⟨_, _, rfl⟩ | rfl <;> rfl
          refine ⟨?_, ?_, ?_, ?_⟩
          · rintro rfl; omega
          · rintro rfl; simp at hx2; omega
          · intro h; omega
          · intro _ _; omega
      · intro a ha b hb
        obtain ⟨m, hm, rfl⟩ := List.mem_map.mp ha
        rw [mem_span] at hm
        obtain ⟨n, hn, hb⟩ := List.mem_flatMap.mp hb
        rw [List.mem_range] at hn
        have hb2 : b.2 = n := by
          rw [List.mem_append, List.mem_map, List.mem_singleton] at hb
          rcases hb with ⟨_, _, rfl⟩ | rfl <;> rfl
        refine ⟨?_, ?_, ?_, ?_⟩
        · rintro rfl; simp at hb2; omega
        · simp; omega
        · intro h; omega
        · intro h; simp at h; omega
    · simp only [if_true]
      rw [List.pairwise_append, List.pairwise_append]
      refine ⟨hcol k (le_refl _), ⟨?_, hrow k (le_refl _), ?_⟩, ?_⟩
      · rw [List.pairwise_flatMap]
        constructor
        · intro m hm
          rw [mem_span] at hm
          exact hrow m (by omega)
        · refine List.Pairwise.imp_of_mem ?_ (nodup_span (lo := k+1) (hi := K))
          intro a b ha hb hab x hx y hy
          rw [mem_span] at ha hb
          obtain ⟨n, hn, rfl⟩ := List.mem_map.mp hx
          obtain ⟨n', hn', rfl⟩ := List.mem_map.mp hy
          rw [List.mem_range] at hn hn'
          refine ⟨?_, ?_, ?_, ?_⟩
          · simp [hab]
          · simp; omega
          · intro h; simp at h; omega
          · intro h; simp at h; omega
      · intro x hx y hy
        obtain ⟨m, hm, hx⟩ := List.mem_flatMap.mp hx
        obtain ⟨n, hn, rfl⟩ := List.mem_map.mp hx
        obtain ⟨n', hn', rfl⟩ := List.mem_map.mp hy
        rw [List.mem_range] at hn hn'
        rw [mem_span] at hm
        refine ⟨?_, ?_, ?_, ?_⟩
        · simp; omega
        · simp; omega
        · intro h; simp at h; omega
        · intro h; simp at h; omega
      · intro x hx y hy
        obtain ⟨m, hm, rfl⟩ := List.mem_map.mp hx
        rw [mem_span] at hm
        have hy2 : y.2 < k := by
          rw [List.mem_append, List.mem_flatMap, List.mem_map] at hy
          rcases hy with ⟨_, _, hy⟩ | ⟨_, hy, rfl⟩
          · obtain ⟨_, hn, rfl⟩ := List.mem_map.mp hy
            simpa using hn
          · simpa using hy
        refine ⟨?_, ?_, ?_, ?_⟩
        · rintro rfl; simp at hy2
        · simp; omega
        · intro h; omega
        · intro h; simp at h; omega
  · intro x hx y hy
    rw [List.mem_singleton] at hy
    subst hy
    have hne : x ≠ (k, k) := by
      rintro rfl
      unfold tiIdx at hx
      cases u
      · simp only [reduceCtorEq, if_false, List.mem_append, List.mem_map, List.mem_flatMap, mem_span, Prod.mk.injEq,
          List.mem_range, List.mem_singleton] at hx
        rcases hx with ⟨x, hx, h1, h2⟩ | ⟨x, hx, ⟨y, hy, h1, h2⟩ | ⟨h1, h2⟩⟩ <;> omega
      · simp only [if_true, List.mem_append, List.mem_map, List.mem_flatMap, mem_span, Prod.mk.injEq,
          List.mem_range] at hx
        rcases hx with ⟨x, hx, h1, h2⟩ | ⟨x, hx, y, hy, h1, h2⟩ | ⟨x, hx, h1, h2⟩ <;> omega
    exact ⟨hne, hne, fun _ h => absurd rfl h, fun _ h => absurd rfl h⟩

/-- All tasks of step `k`. -/
def tiBody (tk : Uplo → Diag → Nat → Tl α → Tl α) (dv : α → α → α) (u : Uplo) (d : Diag) (A : TMat M)
    (b N k : Nat) (p : Nat × Nat) : List (TTask (M × Nat × Nat) α) :=
  if p = (k, k) then [op0 (pt u A p) (triD u d (tdim N b k)) (tk u d (tdim N b k))]
  else [tiTask dv u d A b N k p]

theorem tasks_tiStep {k : Nat} (hk : k < ceilDiv N b) : tasks (tiStep tk info dv u d A b N k) =
    (tiIdx u (ceilDiv N b) k ++ [(k, k)]).flatMap (tiBody tk dv u d A b N k) := by
  unfold tiStep
  rw [tasks_append, tasks_okT, List.flatMap_append, map_flatMap_sing, List.flatMap_singleton]
  congr 1
  · apply List.flatMap_congr
    intro p hp
    rw [mem_tiIdx hk] at hp
    rw [tiBody, if_neg hp.2.2.2]
  · simp [tiBody, coreTrtri, tasks]

/-- Tiles used by the task that updates `p`. -/
def tiD (u : Uplo) (A : TMat M) (k : Nat) (p : Nat × Nat) (x : M × Nat × Nat) : Prop :=
  x = pt u A p ∨ ((p.2 = k ∨ p.1 = k) ∧ x = pt u A (k, k)) ∨
    (p.2 ≠ k ∧ p.1 ≠ k ∧ (x = pt u A (p.1, k) ∨ x = pt u A (k, p.2)))

theorem tiBody_writes (k : Nat) (p : Nat × Nat) :
    Writes (fun x => x = pt u A p) (tiBody tk dv u d A b N k p) := by
  unfold tiBody
  refine Writes.ite (fun _ => writes_op0 rfl) (fun _ => ?_)
  unfold tiTask
  refine single_ite (writes_op1 rfl) (single_ite (writes_op1 rfl) (writes_op2 rfl))

theorem tiBody_within (htk : IsTrtri tk info) (k : Nat) (p : Nat × Nat) :
    Within (tiD u A k p) (tiBody tk dv u d A b N k p) := by
  unfold tiBody
  refine Within.ite (fun _ => Within.op0 (op0_local fun C C' h => (htk.loc u d _ C C' h).2) (Or.inl rfl))
    (fun _ => ?_)
  unfold tiTask
  by_cases h1 : p.2 = k
  · rw [if_pos h1]
    exact Within.op1 coreTrsm_local (Or.inr (Or.inl ⟨Or.inl h1, rfl⟩)) (Or.inl rfl)
  · rw [if_neg h1]
    by_cases h2 : p.1 = k
    · rw [if_pos h2]
      exact Within.op1 coreTrsm_local (Or.inr (Or.inl ⟨Or.inr h2, rfl⟩)) (Or.inl rfl)
    · rw [if_neg h2]
      refine gemm_within ?_ ?_ (Or.inl rfl)
      · split
        · exact Or.inr (Or.inr ⟨h1, h2, Or.inl rfl⟩)
        · exact Or.inr (Or.inr ⟨h1, h2, Or.inr rfl⟩)
      · split
        · exact Or.inr (Or.inr ⟨h1, h2, Or.inr rfl⟩)
        · exact Or.inr (Or.inr ⟨h1, h2, Or.inl rfl⟩)

/-- Which version of each tile a task of step `k` sees. -/
theorem tiStep_tile (htk : IsTrtri tk info) {k : Nat} (hk : k < ceilDiv N b) (s : Store (M × Nat × Nat) α)
    {p : Nat × Nat} (hp : p ∈ tiIdx u (ceilDiv N b) k ++ [(k, k)]) {s' : Store (M × Nat × Nat) α}
    (h1 : ∀ x, x ≠ pt u A (p.1, k) ∨ p.2 = k ∨ p.1 = k → s' x = s x)
    (h2 : p.2 ≠ k → p.1 ≠ k → s' (pt u A (p.1, k)) = texec (tasks (tiStep tk info dv u d A b N k)) s (pt u A (p.1, k))) :
    texec (tasks (tiStep tk info dv u d A b N k)) s (pt u A p) =
      texec (tiBody tk dv u d A b N k p) s' (pt u A p) := by
  rw [tasks_tiStep hk] at *
  refine par_mixed (R := TiBefore k) (D := tiD u A k) (tiIdx_pairwise _ k) (fun p => Or.inl rfl) ?_
    (fun p _ => tiBody_within htk k p) (fun p _ => tiBody_writes k p) s hp ?_ ?_ ?_ ?_
  · rintro p q ⟨hpq, -⟩ h
    rw [pt_inj] at h; exact hpq h
  · apply h1
    rw [Ne, pt_inj, Prod.ext_iff]
    by_cases h : p.2 = k
    · exact Or.inr (Or.inl h)
    · exact Or.inl (fun hc => h hc.2)
  · rintro q hq ⟨hqp, hqk, hc1, hc2⟩ (h | ⟨_, h⟩ | ⟨h3, h4, h | h⟩) <;> rw [pt_inj] at h
    · exact absurd h hqp
    · exact absurd h hqk
    · rw [h]; exact h2 h3 h4
    · rw [h] at hc2; exact absurd rfl (hc2 rfl h4)
  · rintro q hq ⟨hpq, hpk, hc1, hc2⟩ (h | ⟨h3, h⟩ | ⟨h3, h4, h | h⟩) <;> rw [pt_inj] at h
    · exact absurd h.symm hpq
    · apply h1
      by_cases h5 : p.2 = k
      · exact Or.inr (Or.inl h5)
      · exact Or.inr (Or.inr (h3.resolve_left h5))
    · rw [h] at hc1; exact absurd (hc1 rfl h4) h3
    · apply h1
      left
      rw [h, Ne, pt_inj, Prod.mk.injEq]
      intro hc; exact h4 hc.1.symm
  · intro x hx hno
    by_cases hc : x ≠ pt u A (p.1, k) ∨ p.2 = k ∨ p.1 = k
    · exact h1 x hc
    · push Not at hc
      rw [hc.1]
      exfalso
      refine hno (p.1, k) ?_ hc.1
      rw [List.mem_append] at hp ⊢
      rcases hp with hp | hp
      · rw [mem_tiIdx hk] at hp
        left
        rw [mem_tiIdx hk]
        refine ⟨hp.1, hp.2.1, le_refl _, ?_⟩
        simp [hc.2.2]
      · rw [List.mem_singleton] at hp
        rw [hp] at hc
        exact absurd rfl hc.2.1

theorem tiStep_frame {k : Nat} (hk : k < ceilDiv N b) (s : Store (M × Nat × Nat) α) {x : M × Nat × Nat}
    (hx : ∀ p ∈ tiIdx u (ceilDiv N b) k ++ [(k, k)], x ≠ pt u A p) :
    texec (tasks (tiStep tk info dv u d A b N k)) s x = s x := by
  rw [tasks_tiStep hk]
  exact par_frame (fun p _ => tiBody_writes k p) s hx

theorem tiStep_inv (htk : IsTrtri tk info) (hdv : IsDiv dv) (hA : A.Al b) {k : Nat} (hk : k < ceilDiv N b)
    (s : Store (M × Nat × Nat) α) {L : Nat → Nat → α} (hL0 : ∀ r l, r < l → L r l = 0)
    (h : TriInv N (min (k * b) N) L (lowTr u d (A.el s)))
    (hinfo : info u d (tdim N b k) (s (pt u A (k, k))) = 0) :
    TriInv N (min ((k + 1) * b) N) L
      (lowTr u d (A.el (texec (tasks (tiStep tk info dv u d A b N k)) s))) := by
  classical
  have hb := hA.pos
  set F := texec (tasks (tiStep tk info dv u d A b N k)) s with hF
  set w := tdim N b k with hw
  have hkN : k * b < N := by rw [lt_ceilDiv hb] at hk; exact hk
  have hlt : ∀ {m i}, m * b + i < N → i < b → i < tdim N b m := by
    intro m i h1 h2; rw [tdim_row]; exact ⟨h2, h1⟩
  have hmK : ∀ {m i}, m * b + i < N → m < ceilDiv N b := by
    intro m i h1; rw [lt_ceilDiv hb]; omega
  have hwN : ∀ i, i < w → i < b ∧ k * b + i < N := fun i hi => by rw [hw, tdim_row] at hi; exact hi
  have hww : ∀ i, i < b → k * b + i < N → i < w := fun i h1 h2 => hlt h2 h1
  have hq : min (k * b) N = k * b := by omega
  have hwle : w ≤ b := tdim_le
  have hq2 : min ((k + 1) * b) N = k * b + w := by
    rw [Nat.add_mul, Nat.one_mul]
    rcases Nat.lt_or_ge N (k * b + b) with hc | hc
    · have h1 : N - k * b ≤ w := by
        by_contra h2
        have := hww w (by omega) (by omega)
        omega
      have h2 : w ≤ N - k * b := by
        by_contra h2
        have := hwN (N - k * b) (by omega)
        omega
      omega
    · have : w = b := by
        by_contra hne
        have := hww w (by omega) (by omega)
        omega
      omega
  rw [hq] at h
  rw [hq2]
  have hne : ∀ i, i < w → trE u d (s (pt u A (k, k))) i i ≠ 0 := fun i hi => htk.ne hinfo hi
  -- the diagonal tile
  have hdg : ∀ i j, i < w → j < w → lowTr u d (F (pt u A (k, k))) i j =
      lowTr u d (tk u d w (s (pt u A (k, k)))) i j := by
    intro i j hi hj
    have := tiStep_tile (dv := dv) (u := u) (d := d) (A := A) (b := b) (N := N) htk hk s (p := (k, k))
      (by simp) (s' := s) (fun _ _ => rfl) (fun h => absurd rfl h)
    rw [← hF] at this
    rw [this]
    simp only [tiBody, if_true, texec_cons, texec_nil]
    have e : ∀ i j, i < w → j < w → trE u d ((op0 (pt u A (k, k)) (triD u d (tdim N b k)) (tk u d (tdim N b k))).run s
        (pt u A (k, k))) i j = trE u d (tk u d w (s (pt u A (k, k)))) i j := by
      intro i j hi hj
      refine trE_congr (n := w) hi hj fun i j hij => ?_
      rw [op0_self, paste_in hij]
    rw [lowTr_eq, lowTr_eq, e i j hi hj, e j i hj hi]
  -- the other tiles
  have htile : ∀ p, p ∈ tiIdx u (ceilDiv N b) k → p.2 = k ∨ p.1 = k → F (pt u A p) =
      (tiTask dv u d A b N k p).run s (pt u A p) := by
    intro p hp hc
    have := tiStep_tile (dv := dv) (u := u) (d := d) (A := A) (b := b) (N := N) htk hk s (p := p)
      (List.mem_append_left _ hp) (s' := s) (fun _ _ => rfl) (fun h1 h2 => absurd hc (by simp [h1, h2]))
    rw [← hF] at this
    rw [mem_tiIdx hk] at hp
    rw [this, tiBody, if_neg hp.2.2.2]
    rfl
  have htile2 : ∀ p, p ∈ tiIdx u (ceilDiv N b) k → p.2 ≠ k → p.1 ≠ k → F (pt u A p) =
      (tiTask dv u d A b N k p).run (Function.update s (pt u A (p.1, k)) (F (pt u A (p.1, k)))) (pt u A p) := by
    intro p hp hc1 hc2
    have := tiStep_tile (dv := dv) (u := u) (d := d) (A := A) (b := b) (N := N) htk hk s (p := p)
      (List.mem_append_left _ hp) (s' := Function.update s (pt u A (p.1, k)) (F (pt u A (p.1, k))))
      (fun x hx => Function.update_of_ne (hx.resolve_right (by simp [hc1, hc2])) _ _)
      (fun h1 h2 => by rw [Function.update_self])
    rw [← hF] at this
    rw [mem_tiIdx hk] at hp
    rw [this, tiBody, if_neg hp.2.2.2]
    rfl
  have hFr : ∀ m n, m < k ∨ k < n → F (pt u A (m, n)) = s (pt u A (m, n)) := by
    intro m n hmn
    rw [hF, tiStep_frame hk]
    intro p hp he
    rw [pt_inj] at he
    subst he
    rw [List.mem_append, mem_tiIdx hk, List.mem_singleton, Prod.mk.injEq] at hp
    rcases hp with hp | hp
    · simp only at hp; omega
    · omega
  have hLkk : ∀ i l, i < w → l < w → L (k * b + i) (k * b + l) = lowTr u d (s (pt u A (k, k))) i l := by
    intro i l hi hl
    rw [← h.rest _ _ (hwN i hi).2 (by omega), lowTr_el_diag hA s (hwN i hi).1 (hwN l hl).1]
  refine h.step hL0 (fun r l hrl => lowTr_zero hrl) ?_ ?_ ?_ ?_ ?_ ?_
  · -- finished rows
    intro r c hr
    have hrb : r / b < k := by rw [Nat.div_lt_iff_lt_mul hb]; exact hr
    have : lowT u (A.el F) r c = lowT u (A.el s) r c := by
      rw [← divmod r b, ← divmod c b, lowT_el hA _ (Nat.mod_lt _ hb) (Nat.mod_lt _ hb),
        lowT_el hA _ (Nat.mod_lt _ hb) (Nat.mod_lt _ hb), hFr _ _ (Or.inl hrb)]
    unfold lowTr trE
    rw [this]
  · -- row of tiles `k`
    intro i c hi hc
    obtain ⟨n, j, hj, rfl⟩ : ∃ m i, i < b ∧ c = m * b + i :=
      ⟨c / b, c % b, Nat.mod_lt _ hb, (divmod c b).symm⟩
    have hnk : n < k := by
      by_contra hcc
      have : k * b ≤ n * b := Nat.mul_le_mul_right _ (by omega)
      omega
    have hp : (k, n) ∈ tiIdx u (ceilDiv N b) k := by
      rw [mem_tiIdx hk]; exact ⟨le_refl _, hk, by simpa using le_of_lt hnk, by simp; omega⟩
    have hbn : tdim N b n = b := tdim_full hb rfl (by omega)
    have ht := htile _ hp (Or.inr rfl)
    rw [tiTask, if_neg (show ¬ n = k by omega), if_pos rfl] at ht
    have := ti_trsmL (u := u) (d := d) hdv (m := w) (n := tdim N b n) (a := pt u A (k, k)) (c := pt u A (k, n)) (alpha := 1)
      one_ne_zero s hne hi (by rw [hbn]; exact hj)
    rw [← ht, one_mul] at this
    rw [lowTr_el_off hA s hnk (hwN i hi).1 hj, ← this]
    refine sum_congr rfl fun l hl => ?_
    rw [mem_range] at hl
    rw [hLkk i l hi hl, lowTr_el_off hA F hnk (hwN l hl).1 hj]
  · -- the diagonal tile
    intro i j hi hj
    rw [← htk.low hinfo hi hj]
    refine sum_congr rfl fun l hl => ?_
    rw [mem_range] at hl
    rw [hLkk i l hi hl, lowTr_el_diag hA F (hwN l hl).1 (hwN j hj).1, hdg l j hl hj]
  · -- column of tiles `k`
    intro r j hr hrN hj
    obtain ⟨m, i, hi, rfl⟩ : ∃ m i, i < b ∧ r = m * b + i :=
      ⟨r / b, r % b, Nat.mod_lt _ hb, (divmod r b).symm⟩
    have hkm : k < m := by
      by_contra hcc
      rcases Nat.lt_or_ge m k with h1 | h1
      · have : (m + 1) * b ≤ k * b := Nat.mul_le_mul_right _ h1
        rw [Nat.add_mul] at this; omega
      · have : m = k := by omega
        subst this
        have := hww i hi hrN
        omega
    have hp : (m, k) ∈ tiIdx u (ceilDiv N b) k := by
      rw [mem_tiIdx hk]; exact ⟨le_of_lt hkm, hmK hrN, le_refl _, by simp; omega⟩
    have ht := htile _ hp (Or.inl rfl)
    rw [tiTask, if_pos rfl] at ht
    have := ti_trsmR (u := u) (d := d) hdv (m := tdim N b m) (n := w) (a := pt u A (k, k)) (c := pt u A (m, k)) (alpha := -1)
      (neg_ne_zero.mpr one_ne_zero) s hne (hlt hrN hi) hj
    rw [← ht, neg_one_mul] at this
    rw [lowTr_el_off hA s hkm hi (hwN j hj).1, ← this]
    refine sum_congr rfl fun l hl => ?_
    rw [mem_range] at hl
    rw [hLkk l j hl hj, lowTr_el_off hA F hkm hi (hwN l hl).1]
  · -- the rest
    intro r c hr hrN hc
    obtain ⟨m, i, hi, rfl⟩ : ∃ m i, i < b ∧ r = m * b + i :=
      ⟨r / b, r % b, Nat.mod_lt _ hb, (divmod r b).symm⟩
    obtain ⟨n, j, hj, rfl⟩ : ∃ m i, i < b ∧ c = m * b + i :=
      ⟨c / b, c % b, Nat.mod_lt _ hb, (divmod c b).symm⟩
    have hkm : k < m := by
      by_contra hcc
      rcases Nat.lt_or_ge m k with h1 | h1
      · have : (m + 1) * b ≤ k * b := Nat.mul_le_mul_right _ h1
        rw [Nat.add_mul] at this; omega
      · have : m = k := by omega
        subst this
        have := hww i hi hrN
        omega
    have hnk : n < k := by
      by_contra hcc
      have : k * b ≤ n * b := Nat.mul_le_mul_right _ (by omega)
      omega
    have hp : (m, n) ∈ tiIdx u (ceilDiv N b) k := by
      rw [mem_tiIdx hk]; exact ⟨le_of_lt hkm, hmK hrN, le_of_lt hnk, by simp; omega⟩
    have hbn : tdim N b n = b := tdim_full hb rfl (by omega)
    have ht := htile2 _ hp (show n ≠ k by omega) (show m ≠ k by omega)
    rw [tiTask, if_neg (show ¬ n = k by omega), if_neg (show ¬ m = k by omega)] at ht
    have := ti_gemm (u := u) (m := tdim N b m) (n := tdim N b n) (k := w) (a := pt u A (m, k)) (b := pt u A (k, n)) (c := pt u A (m, n))
      (Function.update s (pt u A (m, k)) (F (pt u A (m, k)))) (hlt hrN hi) (show j < tdim N b n by rw [hbn]; exact hj)
    rw [← ht, Function.update_self, Function.update_of_ne (show pt u A (m, n) ≠ pt u A (m, k) by
        rw [Ne, pt_inj, Prod.mk.injEq]; omega), Function.update_of_ne (show pt u A (k, n) ≠ pt u A (m, k) by
        rw [Ne, pt_inj, Prod.mk.injEq]; omega)] at this
    rw [lowTr_el_off hA F (by omega) hi hj, lowTr_el_off hA s (by omega) hi hj, this]
    congr 1
    refine sum_congr rfl fun l hl => ?_
    rw [mem_range] at hl
    rw [lowTr_el_off hA F hkm hi (hwN l hl).1, lowTr_el_off hA s hnk (hwN l hl).1 hj]
  · -- columns not reached yet
    intro r c hrN hc
    by_cases hrc : r < c
    · rw [lowTr_zero hrc, lowTr_zero hrc]
    have hcb : k < c / b := by
      by_contra hcc
      have h1 := divmod c b
      have h2 := Nat.mod_lt c hb
      rcases Nat.lt_or_ge (c / b) k with h3 | h3
      · have : (c / b + 1) * b ≤ k * b := Nat.mul_le_mul_right _ h3
        rw [Nat.add_mul] at this; omega
      · have h4 : c / b = k := by omega
        rw [h4] at h1
        have := hww (c % b) h2 (by omega)
        omega
    have : lowT u (A.el F) r c = lowT u (A.el s) r c := by
      rw [← divmod r b, ← divmod c b, lowT_el hA _ (Nat.mod_lt _ hb) (Nat.mod_lt _ hb),
        lowT_el hA _ (Nat.mod_lt _ hb) (Nat.mod_lt _ hb), hFr _ _ (Or.inr hcb)]
    unfold lowTr trE
    rw [this]

/-! ### All steps -/

section codes
variable {M' : Type u} {β : Type v} {t : Nat → GTTask M' β} {R : Nat → List (TTask M' β)}

/-- Codes of a program of steps, each with one task that may fail at its end. -/
theorem steps_last (K : Nat) (s : Store M' β) :
    (∀ k, k < K → ∃ i, tcode ((List.range K).flatMap fun k => okT (R k) ++ [t k]) s i =
      (t k).code (texec (R k) (texec (tasks ((List.range k).flatMap fun k => okT (R k) ++ [t k])) s))) ∧
    (∀ i, tcode ((List.range K).flatMap fun k => okT (R k) ++ [t k]) s i ≠ 0 → ∃ k, k < K ∧
      tcode ((List.range K).flatMap fun k => okT (R k) ++ [t k]) s i =
      (t k).code (texec (R k) (texec (tasks ((List.range k).flatMap fun k => okT (R k) ++ [t k])) s))) := by
  induction K with
  | zero => exact ⟨fun k hk => absurd hk (Nat.not_lt_zero _), fun i h => absurd (by simp [tcode]) h⟩
  | succ K ih =>
    obtain ⟨h1, h2⟩ := ih
    rw [List.range_succ, List.flatMap_append, List.flatMap_singleton]
    set P := (List.range K).flatMap fun k => okT (R k) ++ [t k] with hP
    have hlast : ∀ s, tcode (okT (R K) ++ [t K]) s ((okT (R K)).length + 0) = (t K).code (texec (R K) s) := by
      intro s
      rw [tcode_append_right, tcode_cons_zero, tasks_okT]
    constructor
    · intro k hk
      rcases Nat.lt_or_ge k K with hlt | hge
      · obtain ⟨i, hi⟩ := h1 k hlt
        by_cases hiP : i < P.length
        · exact ⟨i, by rw [tcode_append_left _ _ _ hiP]; exact hi⟩
        · refine ⟨(P ++ (okT (R K) ++ [t K])).length, ?_⟩
          rw [tcode_len _ _ (le_refl _), ← hi, tcode_len _ _ (by omega)]
      · have : k = K := by omega
        subst this
        exact ⟨P.length + ((okT (R k)).length + 0), by rw [tcode_append_right, hlast]⟩
    · intro i hi
      by_cases hiP : i < P.length
      · rw [tcode_append_left _ _ _ hiP] at hi ⊢
        obtain ⟨k, hk, h⟩ := h2 i hi
        exact ⟨k, by omega, h⟩
      · obtain ⟨j, rfl⟩ := Nat.exists_eq_add_of_le (Nat.le_of_not_lt hiP)
        rw [tcode_append_right] at hi ⊢
        by_cases hj : j < (okT (R K)).length
        · rw [tcode_append_left _ _ _ hj, tcode_ok] at hi
          exact absurd rfl hi
        · obtain ⟨j', rfl⟩ := Nat.exists_eq_add_of_le (Nat.le_of_not_lt hj)
          cases j' with
          | zero => exact ⟨K, by omega, hlast _⟩
          | succ j' =>
            rw [tcode_append_right, tcode_cons_succ] at hi
            exact absurd (by simp [tcode]) hi

end codes

theorem tiR_frame {k : Nat} (hk : k < ceilDiv N b) (s : Store (M × Nat × Nat) α) :
    texec ((tiIdx u (ceilDiv N b) k).map (tiTask dv u d A b N k)) s (pt u A (k, k)) = s (pt u A (k, k)) := by
  refine Writes.frame (W := fun x => ∃ p ∈ tiIdx u (ceilDiv N b) k, x = pt u A p) ?_ s ?_
  · rw [map_flatMap_sing]
    refine Writes.flatMap fun p hp => Writes.mono ?_ (fun x hx => ⟨p, hp, hx⟩)
    unfold tiTask
    exact single_ite (writes_op1 rfl) (single_ite (writes_op1 rfl) (writes_op2 rfl))
  · rintro ⟨p, hp, he⟩
    rw [pt_inj] at he
    rw [mem_tiIdx hk] at hp
    exact hp.2.2.2 he.symm

/-- Diagonal tiles keep their contents until their own step. -/
theorem tiPre_frame {k m : Nat} (hkm : k ≤ m) (hk : k ≤ ceilDiv N b) (s : Store (M × Nat × Nat) α) :
    texec (tasks ((List.range k).flatMap (tiStep tk info dv u d A b N))) s (pt u A (m, m)) = s (pt u A (m, m)) := by
  induction k with
  | zero => rfl
  | succ k ih =>
    rw [List.range_succ, List.flatMap_append, List.flatMap_singleton, tasks_append, texec_append,
      tiStep_frame (by omega), ih (by omega) (by omega)]
    intro p hp he
    rw [pt_inj] at he
    subst he
    rw [List.mem_append, mem_tiIdx (by omega), List.mem_singleton, Prod.mk.injEq] at hp
    rcases hp with hp | hp
    · simp only at hp; omega
    · omega

/-- The codes of `pztrtri` are those of the diagonal kernels on the original tiles. -/
theorem pztrtri_codes (hA : A.Al b) (hm : A.d.m = N) (hn : A.d.n = N) (s : Store (M × Nat × Nat) α) :
    (∀ k, k < ceilDiv N b → ∃ i, tcode (pztrtri tk info dv u d A) s i =
      (coreTrtri tk info u d (tdim N b k) (pt u A (k, k)) (b * k)).code s) ∧
    (∀ i, tcode (pztrtri tk info dv u d A) s i ≠ 0 → ∃ k, k < ceilDiv N b ∧
      tcode (pztrtri tk info dv u d A) s i =
      (coreTrtri tk info u d (tdim N b k) (pt u A (k, k)) (b * k)).code s) := by
  have key : ∀ k, k < ceilDiv N b → (coreTrtri tk info u d (tdim N b k) (pt u A (k, k)) (b * k)).code
      (texec ((tiIdx u (ceilDiv N b) k).map (tiTask dv u d A b N k))
        (texec (tasks ((List.range k).flatMap (tiStep tk info dv u d A b N))) s)) =
      (coreTrtri tk info u d (tdim N b k) (pt u A (k, k)) (b * k)).code s := by
    intro k hk
    simp only [coreTrtri]
    rw [tiR_frame hk, tiPre_frame (le_refl _) (le_of_lt hk)]
  obtain ⟨h1, h2⟩ := steps_last (t := fun k => coreTrtri tk info u d (tdim N b k) (pt u A (k, k)) (b * k))
    (R := fun k => (tiIdx u (ceilDiv N b) k).map (tiTask dv u d A b N k)) (ceilDiv N b) s
  rw [pztrtri_eq hA hm hn]
  refine ⟨fun k hk => ?_, fun i hi => ?_⟩
  · obtain ⟨i, hi⟩ := h1 k hk
    exact ⟨i, hi.trans (key k hk)⟩
  · obtain ⟨k, hk, h⟩ := h2 i hi
    exact ⟨k, hk, h.trans (key k hk)⟩

/-- Without a failing kernel no diagonal element of a non-unit matrix is zero. -/
theorem pztrtri_zero (htk : IsTrtri tk info) (hA : A.Al b) (hm : A.d.m = N) (hn : A.d.n = N)
    (s : Store (M × Nat × Nat) α) :
    (∀ i, tcode (pztrtri tk info dv u d A) s i = 0) ↔ (d = .nonUnit → ∀ r, r < N → A.el s r r ≠ 0) := by
  have hb := hA.pos
  obtain ⟨h1, h2⟩ := pztrtri_codes (tk := tk) (info := info) (dv := dv) (u := u) (d := d) hA hm hn s
  have hel : ∀ k i, i < b → A.el s (k * b + i) (k * b + i) = s (pt u A (k, k)) i i := by
    intro k i hi
    rw [hA.el_tile s hi hi]; unfold pt; split <;> rfl
  constructor
  · intro h0 hd r hr hz
    subst hd
    have hk : r / b < ceilDiv N b := by rw [lt_ceilDiv hb]; exact lt_of_le_of_lt (Nat.div_mul_le_self _ _) hr
    obtain ⟨i, hi⟩ := h1 (r / b) hk
    rw [h0 i] at hi
    simp only [coreTrtri] at hi
    have := htk.sing u (tdim N b (r / b)) (s (pt u A (r / b, r / b)))
      ⟨r % b, by rw [tdim_row]; exact ⟨Nat.mod_lt _ hb, by rw [divmod]; exact hr⟩, by
        rw [← hel _ _ (Nat.mod_lt _ hb), divmod]; exact hz⟩
    rw [if_pos this] at hi
    omega
  · intro h i
    by_contra hi
    obtain ⟨k, hk, he⟩ := h2 i hi
    rw [he] at hi
    simp only [coreTrtri] at hi
    have hne : info u d (tdim N b k) (s (pt u A (k, k))) ≠ 0 := by intro h0; simp [h0] at hi
    obtain ⟨j, hj⟩ := Nat.exists_eq_succ_of_ne_zero hne
    obtain ⟨g1, g2, g3, -⟩ := htk.bad u d _ _ j hj
    rw [tdim_row] at g2
    refine h g1 _ g2.2 ?_
    rw [hel _ _ g2.1]; exact g3

/-- A non-zero code is the position of a zero on the diagonal. -/
theorem pztrtri_bad (htk : IsTrtri tk info) (hA : A.Al b) (hm : A.d.m = N) (hn : A.d.n = N)
    (s : Store (M × Nat × Nat) α) {i : Nat} (hi : tcode (pztrtri tk info dv u d A) s i ≠ 0) :
    d = .nonUnit ∧ ∃ r : Nat, tcode (pztrtri tk info dv u d A) s i = (r : Int) + 1 ∧ r < N ∧ A.el s r r = 0 := by
  obtain ⟨k, hk, he⟩ := (pztrtri_codes (tk := tk) (info := info) (dv := dv) (u := u) (d := d) hA hm hn s).2 i hi
  rw [he] at hi ⊢
  simp only [coreTrtri] at hi ⊢
  have hne : info u d (tdim N b k) (s (pt u A (k, k))) ≠ 0 := by intro h0; simp [h0] at hi
  obtain ⟨j, hj⟩ := Nat.exists_eq_succ_of_ne_zero hne
  obtain ⟨g1, g2, g3, -⟩ := htk.bad u d _ _ j hj
  rw [tdim_row] at g2
  refine ⟨g1, k * b + j, ?_, g2.2, ?_⟩
  · rw [if_pos hne, hj]; push_cast; ring
  · rw [hA.el_tile s g2.1 g2.1]
    unfold pt at g3
    rwa [ite_self] at g3

/-- Without a failing kernel, the tiles hold the inverse. -/
theorem pztrtri_ok (htk : IsTrtri tk info) (hdv : IsDiv dv) (hA : A.Al b) (hm : A.d.m = N) (hn : A.d.n = N)
    (s : Store (M × Nat × Nat) α) (hz : ∀ i, tcode (pztrtri tk info dv u d A) s i = 0)
    {r c : Nat} (hr : r < N) (hc : c < N) :
    ∑ l ∈ range N, lowTr u d (A.el s) r l *
      lowTr u d (A.el (texec (tasks (pztrtri tk info dv u d A)) s)) l c = if r = c then 1 else 0 := by
  have hb := hA.pos
  have hinfo : ∀ k, k < ceilDiv N b → info u d (tdim N b k) (s (pt u A (k, k))) = 0 := by
    intro k hk
    obtain ⟨i, hi⟩ := (pztrtri_codes (tk := tk) (info := info) (dv := dv) (u := u) (d := d) hA hm hn s).1 k hk
    rw [hz i] at hi
    simp only [coreTrtri] at hi
    by_contra hne
    rw [if_pos hne] at hi
    omega
  have inv : ∀ K, K ≤ ceilDiv N b → TriInv N (min (K * b) N) (lowTr u d (A.el s))
      (lowTr u d (A.el (texec (tasks ((List.range K).flatMap (tiStep tk info dv u d A b N))) s))) := by
    intro K
    induction K with
    | zero =>
      intro _
      rw [Nat.zero_mul, Nat.zero_min]
      exact ⟨fun r c _ hc => absurd hc (Nat.not_lt_zero _), fun r c _ _ => rfl⟩
    | succ K ih =>
      intro hK
      rw [List.range_succ, List.flatMap_append, List.flatMap_singleton, tasks_append, texec_append]
      refine tiStep_inv htk hdv hA (by omega) _ (fun r l h => lowTr_zero h) (ih (by omega)) ?_
      rw [tiPre_frame (le_refl _) (by omega)]
      exact hinfo K (by omega)
  have h := inv _ (le_refl _)
  have hmin : min (ceilDiv N b * b) N = N := by
    have := (lt_ceilDiv (m := N) (k := ceilDiv N b) hb).not.mp (Nat.lt_irrefl _)
    omega
  rw [hmin] at h
  rw [pztrtri_eq hA hm hn]
  have := h.done r c hr hc
  rw [if_pos hr, sub_zero] at this
  exact this

/-! ### Footprints, codes -/

/-- Only elements of the selected triangle are written, and not the diagonal of a unit
triangular matrix. -/
theorem pztrtri_frame (hA : A.Al b) (hm : A.d.m = N) (hn : A.d.n = N) (s : Store (M × Nat × Nat) α)
    {r c : Nat} (h : ¬ inTri u r c ∨ (d = .unit ∧ r = c)) :
    A.el (texec (tasks (pztrtri tk info dv u d A)) s) r c = A.el s r c := by
  have hb := hA.pos
  have key : ∀ x y i j, x < y → i < b → j < b → x * b + i < y * b + j := by
    intro x y i j h hi hj
    have : (x + 1) * b ≤ y * b := Nat.mul_le_mul_right _ h
    rw [Nat.add_mul] at this; omega
  rw [pztrtri_eq hA hm hn, tasks_flatMap]
  simp only [TMat.el, hA.mb, hA.nb]
  refine WritesE.frame (W := fun t i j => ∃ p : Nat × Nat, t = pt u A p ∧ i < b ∧ j < b ∧
    inTri u ((if u = .lower then p.1 else p.2) * b + i) ((if u = .lower then p.2 else p.1) * b + j) ∧
    (d = .unit → (if u = .lower then p.1 else p.2) * b + i ≠ (if u = .lower then p.2 else p.1) * b + j))
    ?_ s ?_
  · refine WritesE.flatMap fun k hk => ?_
    rw [List.mem_range] at hk
    unfold tiStep
    rw [tasks_append, tasks_okT]
    refine WritesE.append (WritesE.map fun p hp => ?_) (WritesE.single ?_)
    · rw [mem_tiIdx hk] at hp
      have hlt : p.2 < p.1 := by
        obtain ⟨m, n⟩ := p
        have h4 := hp.2.2.2
        rw [Ne, Prod.mk.injEq] at h4
        simp only at hp ⊢
        omega
      have off : ∀ i j, i < pr u (tdim N b p.1) (tdim N b p.2) → j < pr u (tdim N b p.2) (tdim N b p.1) → i < b ∧ j < b ∧
          inTri u ((if u = .lower then p.1 else p.2) * b + i) ((if u = .lower then p.2 else p.1) * b + j) ∧
          (d = .unit → (if u = .lower then p.1 else p.2) * b + i ≠ (if u = .lower then p.2 else p.1) * b + j) := by
        intro i j hi hj
        have h1 : i < b := lt_of_lt_of_le hi (by unfold pr; split <;> exact tdim_le)
        have h2 : j < b := lt_of_lt_of_le hj (by unfold pr; split <;> exact tdim_le)
        refine ⟨h1, h2, ?_⟩
        cases u
        · simp only [reduceCtorEq, if_false, inTri]
          have := key _ _ _ _ hlt h1 h2
          exact ⟨by omega, fun _ => by omega⟩
        · simp only [if_true, inTri]
          have := key _ _ _ _ hlt h2 h1
          exact ⟨by omega, fun _ => by omega⟩
      apply WritesE.single
      unfold tiTask
      by_cases h1 : p.2 = k
      · rw [if_pos h1, ← h1]
        rintro x i j ⟨rfl, hij⟩
        exact ⟨p, rfl, off i j hij.1 hij.2⟩
      · rw [if_neg h1]
        by_cases h2 : p.1 = k
        · rw [if_pos h2, ← h2]
          rintro x i j ⟨rfl, hij⟩
          exact ⟨p, rfl, off i j hij.1 hij.2⟩
        · rw [if_neg h2]
          rintro x i j ⟨rfl, hij⟩
          exact ⟨p, rfl, off i j hij.1 hij.2⟩
    · rintro x i j ⟨rfl, hij⟩
      refine ⟨(k, k), rfl, lt_of_lt_of_le hij.1 tdim_le, lt_of_lt_of_le hij.2.1 tdim_le, ?_⟩
      simp only [ite_self]
      refine ⟨inTri_diag hij.2.2.1, fun hd => ?_⟩
      have := hij.2.2.2 hd
      omega
  · rintro ⟨p, h1, _, _, h4, h5⟩
    have hrc : inTri u r c ∧ (d = .unit → r ≠ c) := by
      unfold pt at h1
      cases u
      · simp only [reduceCtorEq, if_false] at h1 h4 h5
        rw [TMat.at'_inj] at h1
        rw [← h1.1, ← h1.2, divmod, divmod] at h4 h5
        exact ⟨h4, h5⟩
      · simp only [if_true] at h1 h4 h5
        rw [TMat.at'_inj] at h1
        rw [← h1.1, ← h1.2, divmod, divmod] at h4 h5
        exact ⟨h4, h5⟩
    rcases h with h | ⟨h, h'⟩
    · exact h hrc.1
    · exact hrc.2 h h'

theorem pztrtri_writes (hA : A.Al b) (hm : A.d.m = N) (hn : A.d.n = N) :
    Writes (fun t => t.1 = A.id) (tasks (pztrtri tk info dv u d A)) := by
  have hid : ∀ p, (pt u A p).1 = A.id := by intro p; unfold pt; split <;> rfl
  rw [pztrtri_eq hA hm hn, tasks_flatMap]
  refine Writes.flatMap fun k hk => ?_
  rw [List.mem_range] at hk
  rw [tasks_tiStep hk]
  exact Writes.flatMap fun p _ => Writes.mono (tiBody_writes k p) (fun x hx => by rw [hx, hid])

theorem pztrtri_codeOK (htk : IsTrtri tk info) (hA : A.Al b) (hm : A.d.m = N) (hn : A.d.n = N) :
    CodeOK (pztrtri tk info dv u d A) := by
  rw [pztrtri_eq hA hm hn]
  refine CodeOK.flatMap fun k _ => CodeOK.append (CodeOK.ok _) ⟨?_, ?_⟩
  · intro t ht s s' hs
    rw [List.mem_singleton] at ht
    subst ht
    simp only [coreTrtri]
    rw [(htk.loc u d _ (s (pt u A (k, k))) (s' (pt u A (k, k))) fun i j hij => hs _ _ _ (Or.inr ⟨rfl, hij⟩)).1]
  · intro t ht hg
    rw [List.mem_singleton] at ht
    subst ht; simp [coreTrtri] at hg

theorem pztrtri_good {env : M → MatEnv} (htk : IsTrtri tk info) (hA : FitsOn env b (inTri u) A)
    (hm : A.d.m = N) (hn : A.d.n = N) :
    Good (evalid env) (tasks (pztrtri tk info dv u d A)) := by
  have hv : ∀ m n, n ≤ m → ∀ i j, Tile.box (pr u (tdim N b m) (tdim N b n)) (pr u (tdim N b n) (tdim N b m)) i j →
      evalid env (pt u A (m, n)) i j := by
    intro m n hnm i j hij
    cases u
    · simp only [pt, pr, reduceCtorEq, if_false] at hij ⊢
      exact hA.validOn hnm (by rw [hm]; exact hij.1) (by rw [hn]; exact hij.2)
    · simp only [pt, pr, if_true] at hij ⊢
      exact hA.validOn hnm (by rw [hm]; exact hij.1) (by rw [hn]; exact hij.2)
  have hvd : ∀ m i j, i < tdim N b m → j < tdim N b m → evalid env (pt u A (m, m)) i j := by
    intro m i j hi hj
    refine hv m m (le_refl _) i j ⟨?_, ?_⟩ <;> unfold pr <;> rw [ite_self] <;> assumption
  rw [pztrtri_eq hA.al hm hn, tasks_flatMap]
  refine Good.flatMap fun k hk => ?_
  rw [List.mem_range] at hk
  unfold tiStep
  rw [tasks_append, tasks_okT]
  refine Good.append (Good.map fun p hp => ?_) ?_
  · rw [mem_tiIdx hk] at hp
    obtain ⟨m, n⟩ := p
    simp only at hp
    unfold tiTask
    by_cases h1 : n = k
    · rw [if_pos h1]
      subst h1
      refine Good.single coreTrsm_local op1_declared (op1_inside ?_ (hv m n (by omega)))
      rintro i j ⟨hi, hj, -⟩
      have : (if pside u = .left then pr u (tdim N b m) (tdim N b n) else pr u (tdim N b n) (tdim N b m)) = tdim N b n := by
        cases u <;> simp [pside, pr]
      rw [this] at hi hj
      exact hvd n i j hi hj
    · rw [if_neg h1]
      by_cases h2 : m = k
      · rw [if_pos h2]
        subst h2
        refine Good.single coreTrsm_local op1_declared (op1_inside ?_ (hv m n (by omega)))
        rintro i j ⟨hi, hj, -⟩
        have : (if pside' u = .left then pr u (tdim N b m) (tdim N b n) else pr u (tdim N b n) (tdim N b m)) = tdim N b m := by
          cases u <;> simp [pside', pr]
        rw [this] at hi hj
        exact hvd m i j hi hj
      · rw [if_neg h2]
        have e1 := hv m k (by omega)
        have e2 := hv k n (by omega)
        refine gemm_single_good ?_ ?_ (hv m n (by omega))
        · cases u
          · simpa [pr] using e2
          · simpa [pr] using e1
        · cases u
          · simpa [pr] using e1
          · simpa [pr] using e2
  · exact Good.single (op0_local fun C C' h => (htk.loc u d _ C C' h).2) op0_declared
      (op0_inside fun i j hij => hvd k i j hij.1 hij.2.1)

end step

end Verif.Tile

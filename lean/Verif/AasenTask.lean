/-
The tasks of `plasma_pzhetrf_aasen` (compute/pzhetrf_aasen.c:46-635), lower triangle, with their `depend` clauses.
-/
import Verif.Aasen
import Verif.GbtrfGood

namespace Verif.Aasen

open Verif.Tile Verif.Layout Verif.LU Verif.Panel Verif.Heswp Finset

set_option linter.unusedSectionVars false

universe u v w

/-- The matrices of a call: `A`, the band matrix `T`, the workspace `W` and `ipiv`. -/
structure AM (M : Type u) where
  A : TMat M
  T : TMat M
  W : TMat M
  P : TMat M

section
variable {M : Type u} (z : AC) (Z : AM M)

/-- `A(m,n)` (compute/pzhetrf_aasen.c:22); `L(m,n)` is `A(m,n-1)` (line 23). -/
def AM.a (m n : Nat) : M × Nat × Nat := Z.A.at' m n
/-- `Tgb(m,n)` (compute/pzhetrf_aasen.c:27). -/
def AM.g (m n : Nat) : M × Nat × Nat := Z.T.at' m n
/-- `W(0)` (compute/pzhetrf_aasen.c:30). -/
def AM.w0 : M × Nat × Nat := Z.W.at' 0 0
/-- `H(m,k) = W2(m)`: the view starts at tile 1 (compute/pzhetrf_aasen.c:32,40,65-66). -/
def AM.h (m : Nat) : M × Nat × Nat := Z.W.at' (1 + m) 0
/-- `W3(m)` (compute/pzhetrf_aasen.c:34,67-68). -/
def AM.w3 (m : Nat) : M × Nat × Nat := Z.W.at' (1 + z.mt + m) 0
/-- `T(m,n) = W4(m + (m-n)*A.mt)` (compute/pzhetrf_aasen.c:26,36,69-70). -/
def AM.t (m n : Nat) : M × Nat × Nat := Z.W.at' (1 + 2 * z.mt + (m + (m - n) * z.mt)) 0
/-- `W5(m)` (compute/pzhetrf_aasen.c:38,71-72). -/
def AM.w5 (m : Nat) : M × Nat × Nat := Z.W.at' (1 + 4 * z.mt + m) 0
/-- The base address `ipiv + q*nb` of the sections of `ipiv`. -/
def AM.p (q : Nat) : M × Nat × Nat := Z.P.at' q 0
end

section
variable {M : Type u} {α : Type v}

/-- A kernel on tiles: it may read the `da` part of tile `a` and the `db` part of tile `b`, and update the `dc` part of tile `c`. -/
def ker (a b c : M) (da db dc : Nat × Nat) (K : Tl α → Tl α → Tl α → Tl α) : TTask M α :=
  op2 a (box da.1 da.2) b (box db.1 db.2) c (box dc.1 dc.2) K

/-- The result of the kernel depends on the given parts only, and the rest of the third tile is left. -/
structure KerOK (da db dc : Nat × Nat) (K : Tl α → Tl α → Tl α → Tl α) : Prop where
  cg : ∀ A A' B B' C C' : Tl α, (∀ i j, box da.1 da.2 i j → A i j = A' i j) → (∀ i j, box db.1 db.2 i j → B i j = B' i j) →
    (∀ i j, box dc.1 dc.2 i j → C i j = C' i j) → ∀ i j, box dc.1 dc.2 i j → K A B C i j = K A' B' C' i j
  fr : ∀ (A B C : Tl α) i j, ¬ box dc.1 dc.2 i j → K A B C i j = C i j

theorem KerOK.loc {a b c : M} {da db dc : Nat × Nat} {K : Tl α → Tl α → Tl α → Tl α} (h : KerOK da db dc K) : (ker a b c da db dc K).Local :=
  op2_local fun _ _ _ _ _ _ h1 h2 h3 => h.cg _ _ _ _ _ _ h1 h2 h3

theorem KerOK.run [DecidableEq M] {a b c : M} {da db dc : Nat × Nat} {K : Tl α → Tl α → Tl α → Tl α} (h : KerOK da db dc K) (s : Store M α) :
    (ker a b c da db dc K).run s = Function.update s c (K (s a) (s b) (s c)) := by
  funext x i j
  by_cases hx : x = c
  · subst hx
    rw [Function.update_self]
    by_cases hb : box dc.1 dc.2 i j
    · exact TTask.run_wr _ _ ⟨rfl, hb⟩
    · rw [h.fr _ _ _ _ _ hb]
      exact TTask.run_frame _ _ fun h' => hb h'.2
  · rw [Function.update_of_ne hx]
    exact TTask.run_frame _ _ fun h' => hx h'.1

/-- Tiles that agree on the parts that matter. -/
theorem KerOK.eq {da db dc : Nat × Nat} {K : Tl α → Tl α → Tl α → Tl α} (h : KerOK da db dc K) {A A' B B' C : Tl α}
    (h1 : ∀ i j, box da.1 da.2 i j → A i j = A' i j) (h2 : ∀ i j, box db.1 db.2 i j → B i j = B' i j) : K A B C = K A' B' C := by
  funext i j
  by_cases hb : box dc.1 dc.2 i j
  · exact h.cg _ _ _ _ _ _ h1 h2 (fun _ _ _ => rfl) i j hb
  · rw [h.fr _ _ _ _ _ hb, h.fr _ _ _ _ _ hb]

end

section
variable {M : Type u} {α : Type v} [Field α] [StarRing α] [DecidableEq α]

/-- Stored shape of `op(X)` of size `m`-by-`n`. -/
def dimT (t : Trans) (m n : Nat) : Nat × Nat := if t = .noTrans then (m, n) else (n, m)

/-- `plasma_core_zgemm`. -/
def kGemm (ta tb : Trans) (m n k : Nat) (al : α) (a b : M) (be : α) (c : M) : TTask M α :=
  ker a b c (dimT ta m k) (dimT tb k n) (m, n) fun A B C => gm ta tb m n k al A B be C
/-- `plasma_core_zgeadd`. -/
def kAdd (m n : Nat) (a c : M) : TTask M α := ker a a c (m, n) (m, n) (m, n) fun A _ C => addK m n A C
/-- `plasma_core_zlacpy`, lower triangle. -/
def kCpL (n : Nat) (a c : M) : TTask M α := ker a a c (n, n) (n, n) (n, n) fun A _ C => cpL n A C
/-- `plasma_core_zlacpy`, upper triangle. -/
def kCpU (m n : Nat) (a c : M) : TTask M α := ker a a c (m, n) (m, n) (m, n) fun A _ C => cpU m n A C
/-- `plasma_core_zlacpy`, conjugate transpose onto itself. -/
def kExp (n : Nat) (c : M) : TTask M α := ker c c c (n, n) (n, n) (n, n) fun _ _ C => expandK n C
/-- `plasma_core_zlaset`. -/
def kSetU (m n : Nat) (c : M) : TTask M α := ker c c c (m, n) (m, n) (m, n) fun _ _ C => setU m n C
/-- `plasma_core_zhegst`. -/
def kHegst (dv : α → α → α) (n : Nat) (a c : M) : TTask M α := ker a a c (n, n) (n, n) (n, n) fun A _ C => hegstK dv n C A
/-- `plasma_core_ztrsm(PlasmaRight, PlasmaLower, PlasmaConjTrans, PlasmaUnit, …)`. -/
def kTrsm (dv : α → α → α) (m n : Nat) (a c : M) : TTask M α :=
  ker a a c (n, n) (n, n) (m, n) fun A _ C i j => if i < m ∧ j < n then trsmK dv .right .lower .conjTrans .unit m n 1 A C i j else C i j
/-- `plasma_core_zlacpy`, general, not transposed. -/
def kCp (m n : Nat) (a c : M) : TTask M α := ker a a c (m, n) (m, n) (m, n) fun A _ C i j => if i < m ∧ j < n then A i j else C i j
/-- `plasma_core_zlacpy`, general, conjugate transposed: an `m`-by-`n` matrix becomes `n`-by-`m`. -/
def kCpC (m n : Nat) (a c : M) : TTask M α := ker a a c (m, n) (m, n) (n, m) fun A _ C i j => if i < n ∧ j < m then star (A j i) else C i j

theorem gm_ok {ta tb : Trans} {m n k : Nat} {al be : α} :
    KerOK (dimT ta m k) (dimT tb k n) (m, n) fun A B C : Tl α => gm ta tb m n k al A B be C := by
  constructor
  · intro A A' B B' C C' h1 h2 h3 i j hb
    replace hb : i < m ∧ j < n := hb
    unfold gm
    rw [if_pos hb, if_pos hb, h3 i j hb]
    congr 2
    refine sum_congr rfl fun l hl => ?_
    rw [mem_range] at hl
    congr 1
    · cases ta <;> simp only [opE] <;> rw [h1] <;> simp only [dimT, if_true, if_false, reduceCtorEq, box] <;> exact ⟨by first | exact hb.1 | exact hl, by first | exact hb.1 | exact hl⟩
    · cases tb <;> simp only [opE] <;> rw [h2] <;> simp only [dimT, if_true, if_false, reduceCtorEq, box] <;> exact ⟨by first | exact hb.2 | exact hl, by first | exact hb.2 | exact hl⟩
  · intro A B C i j hb
    exact if_neg hb

theorem add_ok {m n : Nat} : KerOK (m, n) (m, n) (m, n) fun A _ C : Tl α => addK m n A C := by
  constructor
  · intro A A' B B' C C' h1 _ h3 i j hb
    replace hb : i < m ∧ j < n := hb
    simp only [addK]; rw [if_pos hb, if_pos hb, h1 i j hb, h3 i j hb]
  · intro A B C i j hb; exact if_neg hb

theorem cpL_ok {n : Nat} : KerOK (n, n) (n, n) (n, n) fun A _ C : Tl α => cpL n A C := by
  constructor
  · intro A A' B B' C C' h1 _ h3 i j hb
    simp only [cpL]; rw [h1 i j hb, h3 i j hb]
  · intro A B C i j hb
    exact if_neg fun h => hb ⟨h.2, lt_of_le_of_lt h.1 h.2⟩

theorem cpU_ok {m n : Nat} : KerOK (m, n) (m, n) (m, n) fun A _ C : Tl α => cpU m n A C := by
  constructor
  · intro A A' B B' C C' h1 _ h3 i j hb
    simp only [cpU]; rw [h1 i j hb, h3 i j hb]
  · intro A B C i j hb
    exact if_neg fun h => hb ⟨h.2.1, h.2.2⟩

theorem exp_ok {n : Nat} : KerOK (n, n) (n, n) (n, n) fun _ _ C : Tl α => expandK n C := by
  constructor
  · intro A A' B B' C C' _ _ h3 i j hb
    simp only [expandK]; rw [h3 i j hb, h3 j i ⟨hb.2, hb.1⟩]
  · intro A B C i j hb
    exact if_neg fun h => hb ⟨lt_of_le_of_lt h.1 h.2, h.2⟩

theorem setU_ok {m n : Nat} : KerOK (m, n) (m, n) (m, n) fun _ _ C : Tl α => setU m n C := by
  constructor
  · intro A A' B B' C C' _ _ h3 i j hb
    simp only [setU]; rw [h3 i j hb]
  · intro A B C i j hb
    exact if_neg fun h => hb ⟨h.2.1, h.2.2⟩

theorem hegst_ok {dv : α → α → α} {n : Nat} : KerOK (n, n) (n, n) (n, n) fun A _ C : Tl α => hegstK dv n C A := by
  constructor
  · intro A A' B B' C C' h1 _ h3 i j hb
    simp only [hegstK]
    by_cases h : j ≤ i ∧ i < n
    · rw [if_pos h, if_pos h]
      have hA : ∀ i j, triD .lower .unit (if Side.right = .left then n else n) i j → A i j = A' i j := fun i j h => h1 i j ⟨by simpa using h.1, by simpa using h.2.1⟩
      refine trsmK_congr hA (fun i j hb => trsmK_congr (by simpa using hA) (fun i j hb => ?_) hb) hb
      unfold herm
      split
      · exact h3 i j hb
      · rw [h3 j i ⟨hb.2, hb.1⟩]
    · rw [if_neg h, if_neg h]; exact h3 i j hb
  · intro A B C i j hb
    exact if_neg fun h => hb ⟨h.2, lt_of_le_of_lt h.1 h.2⟩

theorem trsm_ok {dv : α → α → α} {m n : Nat} : KerOK (n, n) (n, n) (m, n) fun A _ C : Tl α => fun i j =>
    if i < m ∧ j < n then trsmK dv .right .lower .conjTrans .unit m n 1 A C i j else C i j := by
  constructor
  · intro A A' B B' C C' h1 _ h3 i j hb
    replace hb : i < m ∧ j < n := hb
    rw [if_pos hb, if_pos hb]
    exact trsmK_congr (fun i j h => h1 i j ⟨by simpa using h.1, by simpa using h.2.1⟩) h3 hb
  · intro A B C i j hb; exact if_neg hb

theorem cp_ok {m n : Nat} : KerOK (m, n) (m, n) (m, n) fun A _ C : Tl α => fun i j => if i < m ∧ j < n then A i j else C i j := by
  constructor
  · intro A A' B B' C C' h1 _ h3 i j hb
    replace hb : i < m ∧ j < n := hb
    rw [if_pos hb, if_pos hb]; exact h1 i j hb
  · intro A B C i j hb; exact if_neg hb

theorem cpC_ok {m n : Nat} : KerOK (m, n) (m, n) (n, m) fun A _ C : Tl α => fun i j => if i < n ∧ j < m then star (A j i) else C i j := by
  constructor
  · intro A A' B B' C C' h1 _ h3 i j hb
    replace hb : i < n ∧ j < m := hb
    rw [if_pos hb, if_pos hb, h1 j i ⟨hb.2, hb.1⟩]
  · intro A B C i j hb; exact if_neg hb

/-! ### The tasks -/

section tasks
variable [DecidableEq M] {γ : Type w} [LinearOrder γ] (E : IntCode α) (mag : α → γ) (dv : α → α → α) (big : α → Bool) (z : AC) (Z : AM M)

/-- `H(m,k)` (compute/pzhetrf_aasen.c:86-116). -/
def hT (k m : Nat) : List (TTask (M × Nat × Nat) α) :=
  [kGemm .noTrans .conjTrans (z.mv m) (z.mv k) (z.mv m) 1 (Z.t z m m) (Z.a k (m - 1)) 0 (Z.h m)] ++
  (if 1 < m then [kGemm .noTrans .conjTrans (z.mv m) (z.mv k) z.b 1 (Z.t z m (m - 1)) (Z.a k (m - 1 - 1)) 1 (Z.h m)] else []) ++
  [kGemm .conjTrans .conjTrans (z.mv m) (z.mv k) (z.mv (m + 1)) 1 (Z.t z (m + 1) m) (Z.a k m) 1 (Z.h m)]

/-- `W3` (compute/pzhetrf_aasen.c:121-159). -/
def w3T (k : Nat) : List (TTask (M × Nat × Nat) α) :=
  ((List.range' 1 (k - 1)).map fun m => kGemm .noTrans .noTrans (z.mv k) (z.mv k) (z.mv m) (-1) (Z.a k (m - 1)) (Z.h m)
    (if m < (k - 1) + 1 then 0 else 1) (Z.w3 z ((m - 1) % (k - 1)))) ++
  (tree (k - 1)).map fun p => kAdd (z.mv k) (z.mv k) (Z.w3 z p.2) (Z.w3 z p.1)

/-- `T(k,k)` (compute/pzhetrf_aasen.c:119-216). -/
def diagTT (k : Nat) : List (TTask (M × Nat × Nat) α) :=
  (if 1 < k then w3T z Z k ++ [kCpL (z.mv k) (Z.a k k) (Z.t z k k), kAdd (z.mv k) (z.mv k) (Z.w3 z 0) (Z.t z k k)]
   else [kCpL (z.mv k) (Z.a k k) (Z.t z k k), kExp (z.mv k) (Z.t z k k)]) ++
  (if 0 < k then
    (if 1 < k then
      [kGemm .noTrans .noTrans (z.mv k) z.b (z.mv k) 1 (Z.a k (k - 1)) (Z.t z k (k - 1)) 0 Z.w0,
       kGemm .noTrans .conjTrans (z.mv k) (z.mv k) z.b (-1) Z.w0 (Z.a k (k - 1 - 1)) 1 (Z.t z k k)] else []) ++
    [kHegst dv (z.mv k) (Z.a k (k - 1)) (Z.t z k k), kExp (z.mv k) (Z.t z k k)] else [])

/-- `H(k,k)` (compute/pzhetrf_aasen.c:218-244). -/
def diagHT (k : Nat) : List (TTask (M × Nat × Nat) α) :=
  (if 1 < k then [kGemm .noTrans .conjTrans (z.mv k) (z.mv k) z.b 1 (Z.t z k (k - 1)) (Z.a k (k - 1 - 1)) 0 (Z.h k)] else []) ++
  (if k + 1 < z.mt ∧ 0 < k then
    [kGemm .noTrans .conjTrans (z.mv k) (z.mv k) (z.mv k) 1 (Z.t z k k) (Z.a k (k - 1)) (if 1 < k then 1 else 0) (Z.h k)] else [])

/-- The tasks of a step before the update of column `k` (compute/pzhetrf_aasen.c:85-244). -/
def preT (k : Nat) : List (TTask (M × Nat × Nat) α) :=
  ((List.range' 1 (k - 1)).flatMap (hT z Z k)) ++ diagTT dv z Z k ++ diagHT z Z k

/-- The workspace `W5` is used (compute/pzhetrf_aasen.c:248). -/
def useW5 (k : Nat) : Prop := z.mt - k < z.mth

instance (k : Nat) : Decidable (useW5 z k) := inferInstanceAs (Decidable (_ < _))

/-- A product into `W5` (compute/pzhetrf_aasen.c:250-288).  The dependence on `a2 = L(k, A.mt-1)` (line 260) names a tile above the
diagonal, hence an address that means nothing; it is left out, which allows more executions. -/
noncomputable def w5MT (k n : Nat) : TTask (M × Nat × Nat) α :=
  seqT [(Z.a k (n - 1), false), (Z.h n, false), (Z.w5 z (((n - 1) % w5num z k) * (z.mt - k - 1)), true)]
    ((List.range' (k + 1) (z.mt - k - 1)).map fun m =>
      kGemm .noTrans .noTrans (z.mv m) (z.mv k) (z.mv n) (-1) (Z.a m (n - 1)) (Z.h n) (if n < w5num z k + 1 then 0 else 1)
        (Z.w5 z ((m - k - 1) + ((n - 1) % w5num z k) * (z.mt - k - 1))))

/-- A sum in `W5` (compute/pzhetrf_aasen.c:289-329). -/
noncomputable def w5ST (k : Nat) (p : Nat × Nat) : TTask (M × Nat × Nat) α :=
  seqT [(Z.w5 z (p.2 * (z.mt - k - 1)), false), (Z.w5 z (p.1 * (z.mt - k - 1)), true)]
    ((List.range' (k + 1) (z.mt - k - 1)).map fun m =>
      kAdd (z.mv m) (z.mv k) (Z.w5 z ((m - k - 1) + p.2 * (z.mt - k - 1))) (Z.w5 z ((m - k - 1) + p.1 * (z.mt - k - 1))))

/-- The sum is added to column `k` (compute/pzhetrf_aasen.c:330-363). -/
noncomputable def w5AT (k : Nat) : TTask (M × Nat × Nat) α :=
  seqT [(Z.w5 z 0, false), (Z.a k k, false), (Z.a (z.mt - 1) k, false), (Z.a (k + 1) k, true)]
    ((List.range' (k + 1) (z.mt - k - 1)).map fun m => kAdd (z.mv m) (z.mv k) (Z.w5 z (m - k - 1)) (Z.a m k))

/-- The update of column `k` by column `n` of `L` (compute/pzhetrf_aasen.c:365-409).  Here and in `w5MT`, `w5ST`, `w5AT` the kernels of the
task are tasks of their own, on different tiles, and the task waits for them; the model runs them in order. -/
noncomputable def colT (k n : Nat) : TTask (M × Nat × Nat) α :=
  seqT [(Z.a k (n - 1), false), (Z.a (z.mt - 1) (n - 1), false), (Z.h n, false), (Z.a k k, false), (Z.a (z.mt - 1) k, false),
      (Z.a (k + 1) k, true)]
    ((List.range' (k + 1) (z.mt - k - 1)).map fun m =>
      kGemm .noTrans .noTrans (z.mv m) (z.mv k) (z.mv n) (-1) (Z.a m (n - 1)) (Z.h n) 1 (Z.a m k))

/-- Number of pivots of a panel (compute/pzhetrf_aasen.c:419-428). -/
def pcnt (k : Nat) : Nat := min (z.N - (k + 1) * z.b) (z.mv k)

/-- The panel task (compute/pzhetrf_aasen.c:412-485).  Once the sequence has failed the task only shifts the pivots; the model does
nothing then: nothing is claimed about the contents of the arrays in that case. -/
noncomputable def panelT (k : Nat) : TTask (M × Nat × Nat) α where
  deps := [(Z.a (k + 1) k, true), (Z.a (z.mt - 1) k, true), (Z.p (k + 1), true)]
  rd := fun _ _ _ => False
  wr := fun x i j =>
    Z.A.reg (fun r c => (k + 1) * z.b ≤ r ∧ r < z.N ∧ k * z.b ≤ c ∧ c < k * z.b + z.mv k) x i j ∨
    Z.P.reg (fun i j => (k + 1) * z.b ≤ i ∧ i < (k + 1) * z.b + pcnt z k ∧ j = 0) x i j
  f := fun s x i j =>
    if x.1 = Z.A.id then
      num (pCfg z k) (pOut mag dv big z k (Z.A.el s)) (Z.A.row x i - (k + 1) * z.b) (Z.A.col x j - k * z.b)
    else E.enc (pivv (pOut mag dv big z k (Z.A.el s)) (Z.P.row x i - (k + 1) * z.b) + (k + 1) * z.b)

/-- Status of the panel task (compute/pzhetrf_aasen.c:469-471). -/
noncomputable def panelC (k : Nat) (s : Store (M × Nat × Nat) α) : Int :=
  if infov (pOut mag dv big z k (Z.A.el s)) = 0 then 0
  else (((k + 1) * z.b + infov (pOut mag dv big z k (Z.A.el s)) : Nat) : Int)

/-- Row interchanged with row `i`.  A pivot outside of the matrix, a memory error in C, is ignored; there is none as long as the
sequence has not failed. -/
def pvC (s : Store (M × Nat × Nat) α) (i : Nat) : Nat :=
  if i ≤ E.dec (Z.P.el s i 0) - 1 ∧ E.dec (Z.P.el s i 0) - 1 < z.N then E.dec (Z.P.el s i 0) - 1 else i

/-- Rows of the previous columns of `L` (compute/pzhetrf_aasen.c:490-511). -/
def rowT (k n : Nat) : TTask (M × Nat × Nat) α :=
  gop [(Z.p (k + 1), false), (Z.a (k + 1) (n - 1), true), (Z.a (z.mt - 1) (n - 1), true)]
    (Z.P.reg fun i j => (k + 1) * z.b ≤ i ∧ i < (k + 1) * z.b + pcnt z k ∧ j = 0) Z.A
    (fun r c => (k + 1) * z.b ≤ r ∧ r < z.N ∧ (n - 1) * z.b ≤ c ∧ c < (n - 1) * z.b + z.b)
    (fun s => interch (List.range' ((k + 1) * z.b) (pcnt z k)) (pvC E z Z s) (Z.A.el s))

/-- Symmetric interchanges of the rest of the matrix (compute/pzhetrf_aasen.c:543-575). -/
def symT (k : Nat) : TTask (M × Nat × Nat) α :=
  gop [(Z.p (k + 1), false), (Z.a (k + 1) (k + 1), true), (Z.a (z.mt - 1) (k + 1), true)]
    (Z.P.reg fun i j => (k + 1) * z.b ≤ i ∧ i < (k + 1) * z.b + pcnt z k ∧ j = 0) Z.A
    (fun r c => (k + 1) * z.b ≤ c ∧ c ≤ r ∧ r < z.N)
    (fun s => heswp z.N z.b ((k + 1) * z.b) (min z.mpt (z.mt - (k + 1))) (pvC E z Z s) (pcnt z k) (Z.A.el s))

/-- Copy to the band matrix (compute/pzhetrf_aasen.c:578-626).  For `k = 0` the tiles `Tin10` and `Tout01` are `T(0,0)` and `Tgb(0,0)`, and
for the last `k` the tiles `Tin21` and `Tout21` are those of the diagonal. -/
noncomputable def copyTT (k : Nat) : TTask (M × Nat × Nat) α :=
  seqT [(Z.t z k (k - 1), false), (Z.t z k k, false), (Z.t z (min (k + 1) (z.mt - 1)) k, false),
      (Z.g (k - 1) k, true), (Z.g k k, true), (Z.g (min (k + 1) (z.mt - 1)) k, true), (Z.g (k - (Z.T.d.kut - 1)) k, true)]
    ([kCp (z.mv k) (z.mv k) (Z.t z k k) (Z.g k k)] ++
     (if k + 1 < z.mt then [kCp (z.mv (k + 1)) (z.mv k) (Z.t z (k + 1) k) (Z.g (k + 1) k)] else []) ++
     (if 0 < k then [kCpC (z.mv k) (z.mv (k - 1)) (Z.t z k (k - 1)) (Z.g (k - 1) k)] else []))

/-- Labels of the tasks: step, place in the step, number. -/
abbrev ALab := Nat × Nat × Nat

/-- The task with a label. -/
noncomputable def aTask : ALab → TTask (M × Nat × Nat) α
  | (k, 0, i) => ((preT dv z Z k)[i]?).getD (kExp 0 Z.w0)
  | (k, 1, n) => if useW5 z k then w5MT z Z k n else colT z Z k n
  | (k, 2, i) => w5ST z Z k (((tree (w5num z k))[i]?).getD (0, 0))
  | (k, 3, _) => w5AT z Z k
  | (k, 4, _) => panelT E mag dv big z Z k
  | (k, 5, n) => rowT E z Z k n
  | (k, 6, _) => kCpU (z.mv (k + 1)) (z.mv k) (Z.a (k + 1) k) (Z.t z (k + 1) k)
  | (k, 7, _) => kSetU (z.mv (k + 1)) (z.mv k) (Z.a (k + 1) k)
  | (k, 8, _) => kTrsm dv (z.mv (k + 1)) (z.mv k) (Z.a k (k - 1)) (Z.t z (k + 1) k)
  | (k, 9, _) => symT E z Z k
  | (k, _, _) => copyTT z Z k

/-- Labels of the tasks of a step. -/
def aStepLabs (k : Nat) : List ALab :=
  ((List.range (preT dv z Z k).length).map fun i => (k, 0, i)) ++
  (if k + 1 < z.mt then
    (if 0 < k then
      ((List.range' 1 k).map fun n => (k, 1, n)) ++
      (if useW5 z k then ((List.range (tree (w5num z k)).length).map fun i => (k, 2, i)) ++ [(k, 3, 0)] else []) else []) ++
    [(k, 4, 0)] ++ ((List.range' 1 k).map fun n => (k, 5, n)) ++ [(k, 6, 0), (k, 7, 0)] ++ (if 0 < k then [(k, 8, 0)] else []) ++ [(k, 9, 0)]
   else []) ++ [(k, 10, 0)]

/-- Labels of all tasks, in the order in which they are created (compute/pzhetrf_aasen.c:79-627). -/
def aLabs : List ALab := (List.range z.mt).flatMap (aStepLabs dv z Z)

/-- The task with its status.  The update of column `k`, `plasma_core_omp_zlaset`, the symmetric interchanges and the copy to the band matrix
do not look at the status. -/
noncomputable def aG (l : ALab) : GTTask (M × Nat × Nat) α where
  task := aTask E mag dv big z Z l
  guard := decide (l.2.1 ≠ 1 ∧ l.2.1 ≠ 2 ∧ l.2.1 ≠ 3 ∧ l.2.1 ≠ 7 ∧ l.2.1 ≠ 9 ∧ l.2.1 < 10)
  code := if l.2.1 = 4 then panelC mag dv big z Z l.1 else fun _ => 0

/-- `plasma_pzhetrf_aasen`. -/
noncomputable def pzhetrfAasen : List (GTTask (M × Nat × Nat) α) := (aLabs dv z Z).map (aG E mag dv big z Z)

end tasks
end

end Verif.Aasen

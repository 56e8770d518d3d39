/-
Triangular solve: compute/pztrsm.c and its kernel.
-/
import Verif.TriMath
import Verif.Symm

namespace Verif.Tile

open Verif.Layout Finset

universe u v

variable {M : Type u} {α : Type v}

section
variable [CommRing α] [StarRing α] [DecidableEq α]

/-- Result of a triangular solve with one tile (BLAS documentation of ztrsm): zero if
`alpha` is zero, substitution with `op(A)` otherwise. -/
def trsmK (dv : α → α → α) (sd : Side) (u : Uplo) (t : Trans) (d : Diag) (m n : Nat) (alpha : α)
    (A B : Tl α) : Tl α := fun i j =>
  if alpha = 0 then 0
  else if sd = .left then tsolve dv (opLow u t) m (opE t (trE u d A)) (fun l => alpha * B l j) i
  else tsolve dv (!opLow u t) n (fun r l => opE t (trE u d A) l r) (fun l => alpha * B i l) j

/-- `plasma_core_omp_ztrsm` (core_blas/core_ztrsm.c:103-127), by the BLAS specification in
exact arithmetic. -/
def coreTrsm (dv : α → α → α) (sd : Side) (u : Uplo) (t : Trans) (d : Diag) (m n : Nat) (alpha : α)
    (a b : M) : TTask M α :=
  op1 a (triD u d (if sd = .left then m else n)) b (box m n) (trsmK dv sd u t d m n alpha)

/-- `plasma_pztrsm` (compute/pztrsm.c:28-311).  `dv` is floating-point division; the
leading-dimension arguments are those of the tiles passed. -/
def pztrsm (dv : α → α → α) (sd : Side) (u : Uplo) (t : Trans) (d : Diag) (alpha : α)
    (A B : TMat M) : List (TTask (M × Nat × Nat) α) :=
  if sd = .left then
    if u = .upper then
      if t = .noTrans then
        (List.range B.d.mt).flatMap fun k =>
          ((List.range B.d.nt).map fun n =>
            coreTrsm dv sd u t d (B.d.mview (B.d.mt-k-1)) (B.d.nview n) (if k = 0 then alpha else 1)
              (A.at' (B.d.mt-k-1) (B.d.mt-k-1)) (B.at' (B.d.mt-k-1) n)) ++
          (span (k+1) B.d.mt).flatMap fun m => (List.range B.d.nt).map fun n =>
            coreGemm .noTrans .noTrans B.d.mb (B.d.nview n) (B.d.mview (B.d.mt-k-1)) (-1)
              (A.at' (B.d.mt-1-m) (B.d.mt-k-1)) (B.at' (B.d.mt-k-1) n)
              (if k = 0 then alpha else 1) (B.at' (B.d.mt-1-m) n)
      else
        (List.range B.d.mt).flatMap fun k =>
          ((List.range B.d.nt).map fun n =>
            coreTrsm dv sd u t d (B.d.mview k) (B.d.nview n) (if k = 0 then alpha else 1)
              (A.at' k k) (B.at' k n)) ++
          (span (k+1) B.d.mt).flatMap fun m => (List.range B.d.nt).map fun n =>
            coreGemm t .noTrans (B.d.mview m) (B.d.nview n) B.d.mb (-1)
              (A.at' k m) (B.at' k n) (if k = 0 then alpha else 1) (B.at' m n)
    else
      if t = .noTrans then
        (List.range B.d.mt).flatMap fun k =>
          ((List.range B.d.nt).map fun n =>
            coreTrsm dv sd u t d (B.d.mview k) (B.d.nview n) (if k = 0 then alpha else 1)
              (A.at' k k) (B.at' k n)) ++
          (span (k+1) B.d.mt).flatMap fun m => (List.range B.d.nt).map fun n =>
            coreGemm .noTrans .noTrans (B.d.mview m) (B.d.nview n) B.d.mb (-1)
              (A.at' m k) (B.at' k n) (if k = 0 then alpha else 1) (B.at' m n)
      else
        (List.range B.d.mt).flatMap fun k =>
          ((List.range B.d.nt).map fun n =>
            coreTrsm dv sd u t d (B.d.mview (B.d.mt-k-1)) (B.d.nview n) (if k = 0 then alpha else 1)
              (A.at' (B.d.mt-k-1) (B.d.mt-k-1)) (B.at' (B.d.mt-k-1) n)) ++
          (span (k+1) B.d.mt).flatMap fun m => (List.range B.d.nt).map fun n =>
            coreGemm t .noTrans B.d.mb (B.d.nview n) (B.d.mview (B.d.mt-k-1)) (-1)
              (A.at' (B.d.mt-k-1) (B.d.mt-1-m)) (B.at' (B.d.mt-k-1) n)
              (if k = 0 then alpha else 1) (B.at' (B.d.mt-1-m) n)
  else
    if u = .upper then
      if t = .noTrans then
        (List.range B.d.nt).flatMap fun k =>
          ((List.range B.d.mt).map fun m =>
            coreTrsm dv sd u t d (B.d.mview m) (B.d.nview k) (if k = 0 then alpha else 1)
              (A.at' k k) (B.at' m k)) ++
          (List.range B.d.mt).flatMap fun m => (span (k+1) B.d.nt).map fun n =>
            coreGemm .noTrans .noTrans (B.d.mview m) (B.d.nview n) B.d.mb (-1)
              (B.at' m k) (A.at' k n) (if k = 0 then alpha else 1) (B.at' m n)
      else
        (List.range B.d.nt).flatMap fun k => (List.range B.d.mt).flatMap fun m =>
          coreTrsm dv sd u t d (B.d.mview m) (B.d.nview (B.d.nt-k-1)) alpha
            (A.at' (B.d.nt-k-1) (B.d.nt-k-1)) (B.at' m (B.d.nt-k-1)) ::
          (span (k+1) B.d.nt).map fun n =>
            coreGemm .noTrans t (B.d.mview m) B.d.nb (B.d.nview (B.d.nt-k-1)) (dv (-1) alpha)
              (B.at' m (B.d.nt-k-1)) (A.at' (B.d.nt-1-n) (B.d.nt-k-1)) 1 (B.at' m (B.d.nt-1-n))
    else
      if t = .noTrans then
        (List.range B.d.nt).flatMap fun k => (List.range B.d.mt).flatMap fun m =>
          coreTrsm dv sd u t d (B.d.mview m) (B.d.nview (B.d.nt-k-1)) (if k = 0 then alpha else 1)
            (A.at' (B.d.nt-k-1) (B.d.nt-k-1)) (B.at' m (B.d.nt-k-1)) ::
          (span (k+1) B.d.nt).map fun n =>
            coreGemm .noTrans .noTrans (B.d.mview m) B.d.nb (B.d.nview (B.d.nt-k-1)) (-1)
              (B.at' m (B.d.nt-k-1)) (A.at' (B.d.nt-k-1) (B.d.nt-1-n))
              (if k = 0 then alpha else 1) (B.at' m (B.d.nt-1-n))
      else
        (List.range B.d.nt).flatMap fun k => (List.range B.d.mt).flatMap fun m =>
          coreTrsm dv sd u t d (B.d.mview m) (B.d.nview k) alpha (A.at' k k) (B.at' m k) ::
          (span (k+1) B.d.nt).map fun n =>
            coreGemm .noTrans t (B.d.mview m) (B.d.nview n) B.d.mb (dv (-1) alpha)
              (B.at' m k) (A.at' n k) 1 (B.at' m n)

end

/-! ### Kernel -/

section
variable [CommRing α] [StarRing α] [DecidableEq α] {dv : α → α → α}
  {sd : Side} {u : Uplo} {t : Trans} {d : Diag} {m n : Nat} {alpha : α}

omit [DecidableEq α] in
theorem op_trE_congr {A A' : Nat → Nat → α} {n i j : Nat} (hi : i < n) (hj : j < n)
    (h : ∀ i j, triD u d n i j → A i j = A' i j) :
    opE t (trE u d A) i j = opE t (trE u d A') i j := by
  cases t <;> simp only [opE]
  · exact trE_congr hi hj h
  · exact trE_congr hj hi h
  · rw [trE_congr hj hi h]

theorem trsmK_congr {A A' B B' : Tl α} (hA : ∀ i j, triD u d (if sd = .left then m else n) i j → A i j = A' i j)
    (hB : ∀ i j, box m n i j → B i j = B' i j) {i j : Nat} (hij : box m n i j) :
    trsmK dv sd u t d m n alpha A B i j = trsmK dv sd u t d m n alpha A' B' i j := by
  unfold trsmK
  split
  · rfl
  · cases sd
    · simp only [if_true] at hA ⊢
      exact tsolve_congr (fun i l hi hl => op_trE_congr hi hl hA)
        (fun l hl => by rw [hB l j ⟨hl, hij.2⟩]) i hij.1
    · simp only [reduceCtorEq, if_false] at hA ⊢
      exact tsolve_congr (fun i l hi hl => op_trE_congr hl hi hA)
        (fun l hl => by rw [hB i l ⟨hij.1, hl⟩]) j hij.2

theorem coreTrsm_local {a b : M} : (coreTrsm dv sd u t d m n alpha a b).Local :=
  op1_local (fun _ _ _ _ hA hC _ _ hij => trsmK_congr hA hC hij)

theorem coreTrsm_run {a b : M} (s : Store M α) {i j : Nat} (hij : box m n i j) :
    (coreTrsm dv sd u t d m n alpha a b).run s b i j = trsmK dv sd u t d m n alpha (s a) (s b) i j := by
  unfold coreTrsm; rw [op1_self, paste_in hij]

end

/-! ### Uniform description of the nests -/

theorem single_ite {β : Type v} {C : List β → Prop} {c : Prop} [Decidable c] {x y : β} (hx : C [x])
    (hy : C [y]) : C [if c then x else y] := by
  split
  · exact hx
  · exact hy

/-- Direction of the substitution. -/
def trFwd (sd : Side) (u : Uplo) (t : Trans) : Bool :=
  if sd = .left then opLow u t else !opLow u t

/-- Tiles handled in step `k`, in order of creation: tile `(j, q)` is in block `j` of the
order of substitution and in line `q` of the other direction; `(k, q)` is solved,
`(j, q)` with `j > k` is updated. -/
def trIdx (sd : Side) (u : Uplo) (t : Trans) (K Q k : Nat) : List (Nat × Nat) :=
  if sd = .left then
    (List.range Q).map (fun q => (k, q)) ++
      (span (k+1) K).flatMap fun j => (List.range Q).map fun q => (j, q)
  else if u = .upper ∧ t = .noTrans then
    (List.range Q).map (fun q => (k, q)) ++
      (List.range Q).flatMap fun q => (span (k+1) K).map fun j => (j, q)
  else
    (List.range Q).flatMap fun q => (k, q) :: (span (k+1) K).map fun j => (j, q)

theorem mem_trIdx {sd : Side} {u : Uplo} {t : Trans} {K Q k : Nat} (hk : k < K) {p : Nat × Nat} :
    p ∈ trIdx sd u t K Q k ↔ k ≤ p.1 ∧ p.1 < K ∧ p.2 < Q := by
  obtain ⟨j, q⟩ := p
  unfold trIdx
  split
  · simp only [List.mem_append, List.mem_map, List.mem_flatMap, List.mem_range, mem_span, Prod.mk.injEq]
    constructor
    · rintro (⟨x, hx, rfl, rfl⟩ | ⟨y, hy, x, hx, rfl, rfl⟩) <;> omega
    · rintro ⟨h1, h2, h3⟩
      by_cases hj : k = j
      · exact Or.inl ⟨q, h3, hj, rfl⟩
      · exact Or.inr ⟨j, by omega, q, h3, rfl, rfl⟩
  · split
    · simp only [List.mem_append, List.mem_map, List.mem_flatMap, List.mem_range, mem_span, Prod.mk.injEq]
      constructor
      · rintro (⟨x, hx, rfl, rfl⟩ | ⟨y, hy, x, hx, rfl, rfl⟩) <;> omega
      · rintro ⟨h1, h2, h3⟩
        by_cases hj : k = j
        · exact Or.inl ⟨q, h3, hj, rfl⟩
        · exact Or.inr ⟨q, h3, j, by omega, rfl, rfl⟩
    · simp only [List.mem_map, List.mem_flatMap, List.mem_range, mem_span, List.mem_cons, Prod.mk.injEq]
      constructor
      · rintro ⟨y, hy, ⟨rfl, rfl⟩ | ⟨x, hx, rfl, rfl⟩⟩ <;> omega
      · rintro ⟨h1, h2, h3⟩
        by_cases hj : k = j
        · exact ⟨q, h3, Or.inl ⟨hj.symm, rfl⟩⟩
        · exact ⟨q, h3, Or.inr ⟨j, by omega, rfl, rfl⟩⟩

/-- `p` precedes `p'` in step `k`. -/
def TrBefore (k : Nat) (p p' : Nat × Nat) : Prop := p ≠ p' ∧ ¬ (p'.1 = k ∧ p'.2 = p.2)

theorem trIdx_pairwise {sd : Side} {u : Uplo} {t : Trans} {K Q k : Nat} :
    (trIdx sd u t K Q k).Pairwise (TrBefore k) := by
  have hrow : ∀ j, ((List.range Q).map fun q => (j, q)).Pairwise (TrBefore k) := by
    intro j
    rw [List.pairwise_map]
    exact List.Pairwise.imp (fun h => ⟨fun he => h (Prod.mk.inj he).2, fun he => h he.2.symm⟩)
      List.nodup_range
  have hcol : ∀ q, ((span (k+1) K).map fun j => (j, q)).Pairwise (TrBefore k) := by
    intro q
    rw [List.pairwise_map]
    refine List.Pairwise.imp_of_mem ?_ (nodup_span (lo := k+1) (hi := K))
    intro a b ha hb hab
    rw [mem_span] at hb
    exact ⟨fun he => hab (Prod.mk.inj he).1, fun he => by have := he.1; simp only at this; omega⟩
  unfold trIdx
  split
  · rw [List.pairwise_append]
    refine ⟨hrow k, ?_, ?_⟩
    · rw [List.pairwise_flatMap]
      refine ⟨fun j _ => hrow j, ?_⟩
      refine List.Pairwise.imp_of_mem ?_ (nodup_span (lo := k+1) (hi := K))
      intro a b ha hb hab x hx y hy
      rw [mem_span] at hb
      obtain ⟨_, _, rfl⟩ := List.mem_map.mp hx
      obtain ⟨_, _, rfl⟩ := List.mem_map.mp hy
      exact ⟨fun he => hab (Prod.mk.inj he).1, fun he => by have := he.1; simp only at this; omega⟩
    · intro x hx y hy
      obtain ⟨_, _, rfl⟩ := List.mem_map.mp hx
      obtain ⟨j, hj, hy⟩ := List.mem_flatMap.mp hy
      obtain ⟨_, _, rfl⟩ := List.mem_map.mp hy
      rw [mem_span] at hj
      exact ⟨fun he => by have := (Prod.mk.inj he).1; omega,
        fun he => by have := he.1; simp only at this; omega⟩
  · split
    · rw [List.pairwise_append]
      refine ⟨hrow k, ?_, ?_⟩
      · rw [List.pairwise_flatMap]
        refine ⟨fun q _ => hcol q, ?_⟩
        refine List.Pairwise.imp_of_mem ?_ (List.nodup_range (n := Q))
        intro a b ha hb hab x hx y hy
        obtain ⟨_, _, rfl⟩ := List.mem_map.mp hx
        obtain ⟨_, _, rfl⟩ := List.mem_map.mp hy
        exact ⟨fun he => hab (Prod.mk.inj he).2, fun he => hab he.2.symm⟩
      · intro x hx y hy
        obtain ⟨_, _, rfl⟩ := List.mem_map.mp hx
        obtain ⟨_, _, hy⟩ := List.mem_flatMap.mp hy
        obtain ⟨j, hj, rfl⟩ := List.mem_map.mp hy
        rw [mem_span] at hj
        exact ⟨fun he => by have := (Prod.mk.inj he).1; omega,
          fun he => by have := he.1; simp only at this; omega⟩
    · rw [List.pairwise_flatMap]
      refine ⟨fun q _ => ?_, ?_⟩
      · rw [List.pairwise_cons]
        refine ⟨?_, hcol q⟩
        intro y hy
        obtain ⟨j, hj, rfl⟩ := List.mem_map.mp hy
        rw [mem_span] at hj
        exact ⟨fun he => by have := (Prod.mk.inj he).1; omega,
          fun he => by have := he.1; simp only at this; omega⟩
      · refine List.Pairwise.imp_of_mem ?_ (List.nodup_range (n := Q))
        intro a b ha hb hab x hx y hy
        have h1 : x.2 = a := by
          rcases List.mem_cons.mp hx with rfl | hx
          · rfl
          · obtain ⟨_, _, rfl⟩ := List.mem_map.mp hx; rfl
        have h2 : y.2 = b := by
          rcases List.mem_cons.mp hy with rfl | hy
          · rfl
          · obtain ⟨_, _, rfl⟩ := List.mem_map.mp hy; rfl
        exact ⟨fun he => hab (by rw [← h1, he, h2]), fun he => hab (by rw [← h1, ← he.2, h2])⟩

section
variable [CommRing α] [StarRing α] [DecidableEq α]

/-- Factor of the solves of step `k`. -/
def trLa (sd : Side) (t : Trans) (alpha : α) (k : Nat) : α :=
  if sd = .right ∧ t ≠ .noTrans then alpha else if k = 0 then alpha else 1
/-- Factor of the updated tile. -/
def trGb (sd : Side) (t : Trans) (alpha : α) (k : Nat) : α :=
  if sd = .right ∧ t ≠ .noTrans then 1 else if k = 0 then alpha else 1
/-- Factor of the product. -/
def trGa (dv : α → α → α) (sd : Side) (t : Trans) (alpha : α) : α :=
  if sd = .right ∧ t ≠ .noTrans then dv (-1) alpha else -1

/-- Tile `(j, q)` of `B`. -/
def trB (sd : Side) (fwd : Bool) (K : Nat) (B : TMat M) (p : Nat × Nat) : M × Nat × Nat :=
  if sd = .left then B.at' (ord fwd K p.1) p.2 else B.at' p.2 (ord fwd K p.1)

/-- The task for tile `p` in step `k`. -/
def trTask (dv : α → α → α) (sd : Side) (u : Uplo) (t : Trans) (d : Diag) (alpha : α)
    (A B : TMat M) (b Mm Nn k : Nat) (p : Nat × Nat) : TTask (M × Nat × Nat) α :=
  if sd = .left then
    if p.1 = k then
      coreTrsm dv sd u t d (tdim Mm b (ord (trFwd sd u t) (ceilDiv Mm b) k)) (tdim Nn b p.2)
        (trLa sd t alpha k)
        (A.at' (ord (trFwd sd u t) (ceilDiv Mm b) k) (ord (trFwd sd u t) (ceilDiv Mm b) k))
        (trB sd (trFwd sd u t) (ceilDiv Mm b) B p)
    else
      coreGemm t .noTrans (tdim Mm b (ord (trFwd sd u t) (ceilDiv Mm b) p.1)) (tdim Nn b p.2)
        (tdim Mm b (ord (trFwd sd u t) (ceilDiv Mm b) k)) (trGa dv sd t alpha)
        (if t = .noTrans then
          A.at' (ord (trFwd sd u t) (ceilDiv Mm b) p.1) (ord (trFwd sd u t) (ceilDiv Mm b) k)
         else A.at' (ord (trFwd sd u t) (ceilDiv Mm b) k) (ord (trFwd sd u t) (ceilDiv Mm b) p.1))
        (trB sd (trFwd sd u t) (ceilDiv Mm b) B (k, p.2)) (trGb sd t alpha k)
        (trB sd (trFwd sd u t) (ceilDiv Mm b) B p)
  else
    if p.1 = k then
      coreTrsm dv sd u t d (tdim Mm b p.2) (tdim Nn b (ord (trFwd sd u t) (ceilDiv Nn b) k))
        (trLa sd t alpha k)
        (A.at' (ord (trFwd sd u t) (ceilDiv Nn b) k) (ord (trFwd sd u t) (ceilDiv Nn b) k))
        (trB sd (trFwd sd u t) (ceilDiv Nn b) B p)
    else
      coreGemm .noTrans t (tdim Mm b p.2) (tdim Nn b (ord (trFwd sd u t) (ceilDiv Nn b) p.1))
        (tdim Nn b (ord (trFwd sd u t) (ceilDiv Nn b) k)) (trGa dv sd t alpha)
        (trB sd (trFwd sd u t) (ceilDiv Nn b) B (k, p.2))
        (if t = .noTrans then
          A.at' (ord (trFwd sd u t) (ceilDiv Nn b) k) (ord (trFwd sd u t) (ceilDiv Nn b) p.1)
         else A.at' (ord (trFwd sd u t) (ceilDiv Nn b) p.1) (ord (trFwd sd u t) (ceilDiv Nn b) k))
        (trGb sd t alpha k) (trB sd (trFwd sd u t) (ceilDiv Nn b) B p)

theorem tdim_full {N b t K : Nat} (hb : 0 < b) (hK : K = ceilDiv N b) (h : t + 1 < K) : tdim N b t = b := by
  rw [hK] at h
  rw [← tdim_eq_view hb, if_pos h]
  rw [← lt_ceilDiv hb]; omega

variable {dv : α → α → α} {sd : Side} {u : Uplo} {t : Trans} {d : Diag} {alpha : α} {A B : TMat M}
  {b Mm Nn : Nat}

/-- Order of the triangular matrix, and the other dimension. -/
def trN (sd : Side) (Mm Nn : Nat) : Nat := if sd = .left then Mm else Nn
def trP (sd : Side) (Mm Nn : Nat) : Nat := if sd = .left then Nn else Mm

theorem pztrsm_eq (hB : B.Al b) (hm : B.d.m = Mm) (hn : B.d.n = Nn) :
    pztrsm dv sd u t d alpha A B =
      (List.range (ceilDiv (trN sd Mm Nn) b)).flatMap fun k =>
        (trIdx sd u t (ceilDiv (trN sd Mm Nn) b) (ceilDiv (trP sd Mm Nn) b) k).flatMap fun p =>
          [trTask dv sd u t d alpha A B b Mm Nn k p] := by
  have hmv : ∀ m, m < ceilDiv Mm b → B.d.mview m = tdim Mm b m := fun m h => by
    rw [hB.mview (by rw [hB.mt_eq, hm]; exact h), hm]
  have hnv : ∀ m, m < ceilDiv Nn b → B.d.nview m = tdim Nn b m := fun m h => by
    rw [hB.nview (by rw [hB.nt_eq, hn]; exact h), hn]
  have hmt : B.d.mt = ceilDiv Mm b := by rw [hB.mt_eq, hm]
  have hnt : B.d.nt = ceilDiv Nn b := by rw [hB.nt_eq, hn]
  unfold pztrsm
  rw [hmt, hnt, hB.mb, hB.nb]
  cases sd <;> cases u <;> cases t
  all_goals
    simp only [if_true, reduceCtorEq, if_false, trN, trP]
    refine List.flatMap_congr fun k hk => ?_
    rw [List.mem_range] at hk
    simp only [← List.map_eq_flatMap, trIdx, if_true, if_false, reduceCtorEq, and_true, and_false,
      List.map_append, List.map_map, List.map_flatMap, List.map_cons]
  all_goals first
    | refine congrArg₂ _ (List.map_congr_left fun n hn => ?_)
        (List.flatMap_congr fun m hm => List.map_congr_left fun n hn => ?_)
    | refine List.flatMap_congr fun m hm => congrArg₂ _ ?_ (List.map_congr_left fun n hn => ?_)
  all_goals
    simp only [List.mem_range, mem_span] at *
    simp only [Function.comp, trTask, trB, trLa, trGa, trGb, trFwd, opLow, ord, if_true, if_false,
      reduceCtorEq, decide_true, decide_false, Bool.not_true, Bool.not_false, beq_self_eq_true,
      and_true, and_false, ne_eq, not_true_eq_false, not_false_eq_true, Bool.false_eq_true,
      Bool.true_beq, Bool.false_beq]
  all_goals
    try simp only [show ceilDiv Mm b - k - 1 = ceilDiv Mm b - 1 - k by omega,
      show ceilDiv Nn b - k - 1 = ceilDiv Nn b - 1 - k by omega]
    first
      | rw [if_neg (show ¬ m = k by omega)]
      | rw [if_neg (show ¬ n = k by omega)]
      | skip
    congr 1 <;> first
      | exact hmv _ (by omega)
      | exact hnv _ (by omega)
      | (symm; apply tdim_full (K := ceilDiv Mm b) hB.pos rfl; omega)
      | (symm; apply tdim_full (K := ceilDiv Nn b) hB.pos rfl; omega)

/-! ### One step -/

/-- The triangular matrix, transposed for a solve from the right. -/
def trT (sd : Side) (u : Uplo) (t : Trans) (d : Diag) (X : Nat → Nat → α) (r l : Nat) : α :=
  if sd = .left then opE t (trE u d X) r l else opE t (trE u d X) l r

/-- The right-hand side, transposed for a solve from the right. -/
def trEl (sd : Side) (X : Nat → Nat → α) (r c : Nat) : α := if sd = .left then X r c else X c r

omit [DecidableEq α] in
theorem op_trE_diag (hA : A.Al b) (s : Store (M × Nat × Nat) α) {k i l : Nat} (hi : i < b) (hl : l < b) :
    opE t (trE u d (s (A.at' k k))) i l = opE t (trE u d (A.el s)) (k * b + i) (k * b + l) := by
  have h : ∀ i l, i < b → l < b →
      trE u d (s (A.at' k k)) i l = trE u d (A.el s) (k * b + i) (k * b + l) := by
    intro i l hi hl
    unfold trE
    rw [hA.el_tile s hi hl]
    have e1 : k * b + i = k * b + l ↔ i = l := by omega
    have e2 : inTri u (k * b + i) (k * b + l) ↔ inTri u i l := by
      unfold inTri; cases u <;> simp
    simp only [e1, e2]
  cases t <;> simp only [opE] <;> rw [h _ _ (by assumption) (by assumption)]

omit [DecidableEq α] in
theorem op_trE_off (hA : A.Al b) (s : Store (M × Nat × Nat) α) {x y i l : Nat} (hi : i < b) (hl : l < b)
    (hxy : if opLow u t then y < x else x < y) :
    opE t (s (if t = .noTrans then A.at' x y else A.at' y x)) i l =
      opE t (trE u d (A.el s)) (x * b + i) (y * b + l) := by
  have key : ∀ {x y i l}, i < b → l < b → x < y → x * b + i < y * b + l := by
    intro x y i l hi hl h
    have : (x + 1) * b ≤ y * b := Nat.mul_le_mul_right _ h
    rw [Nat.add_mul] at this; omega
  cases t <;> cases u <;> simp [opLow] at hxy <;> simp only [opE, if_true, if_false, reduceCtorEq]
  all_goals
    have k1 := key hi hl hxy
    have k2 := key hl hi hxy
    first
      | rw [trE_off (by unfold inTri; simp only; omega) (by omega), hA.el_tile s hi hl]
      | rw [trE_off (by unfold inTri; simp only; omega) (by omega), hA.el_tile s hl hi]

theorem trsmK_spec {α : Type v} [Field α] [StarRing α] [DecidableEq α] {dv : α → α → α} (hdv : IsDiv dv)
    {sd : Side} {u : Uplo} {t : Trans} {d : Diag} {m n : Nat} {alpha : α} (ha : alpha ≠ 0) {X Y : Tl α}
    (hd : ∀ i, i < trN sd m n → trE u d X i i ≠ 0) {r c : Nat} (hr : r < trN sd m n) :
    ∑ l ∈ range (trN sd m n), trT sd u t d X r l * trEl sd (trsmK dv sd u t d m n alpha X Y) l c =
      alpha * trEl sd Y r c := by
  have hdd : ∀ i, i < trN sd m n → opE t (trE u d X) i i ≠ 0 := by
    intro i hi
    cases t <;> simpa [opE] using hd i hi
  have htri : ∀ i l, (if opLow u t then i < l else l < i) → opE t (trE u d X) i l = 0 :=
    fun i l h => op_tri_zero h
  unfold trT trEl trsmK trN at *
  cases sd
  · simp only [if_true, if_neg ha] at hr hdd ⊢
    exact tsolve_spec hdv hr (hdd r hr) (fun l _ h => htri r l h)
  · simp only [reduceCtorEq, if_false, if_neg ha] at hr hdd ⊢
    refine tsolve_spec (T := fun r l => opE t (trE u d X) l r) hdv hr (hdd r hr) (fun l _ h => htri l r ?_)
    cases hh : opLow u t <;> simpa [hh] using h

omit [CommRing α] [StarRing α] [DecidableEq α] in
theorem trB_inj {fwd : Bool} {K : Nat} {p q : Nat × Nat} (hp : p.1 < K) (hq : q.1 < K)
    (h : trB sd fwd K B p = trB sd fwd K B q) : p = q := by
  unfold trB at h
  split at h <;> rw [TMat.at'_inj] at h
  · exact Prod.ext (ord_inj hp hq h.1) h.2
  · exact Prod.ext (ord_inj hp hq h.2) h.1

theorem trTask_writes {k : Nat} {p : Nat × Nat} :
    Writes (fun x => x = trB sd (trFwd sd u t) (ceilDiv (trN sd Mm Nn) b) B p)
      [trTask dv sd u t d alpha A B b Mm Nn k p] := by
  unfold trTask trN
  cases sd <;> simp only [if_true, reduceCtorEq, if_false] <;> refine single_ite ?_ ?_ <;>
    first | exact writes_op1 rfl | exact writes_op2 rfl

theorem trTask_within {k : Nat} {p : Nat × Nat} :
    Within (fun x => x.1 = A.id ∨ x = trB sd (trFwd sd u t) (ceilDiv (trN sd Mm Nn) b) B (k, p.2) ∨
        x = trB sd (trFwd sd u t) (ceilDiv (trN sd Mm Nn) b) B p)
      [trTask dv sd u t d alpha A B b Mm Nn k p] := by
  have ha : ∀ (c : Prop) [Decidable c] (x y z w : Nat), (if c then A.at' x y else A.at' z w).1 = A.id := by
    intro c _ x y z w; split <;> rfl
  unfold trTask trN
  cases sd <;> simp only [if_true, reduceCtorEq, if_false] <;> refine single_ite ?_ ?_ <;>
    first
    | exact Within.op1 coreTrsm_local (Or.inl rfl) (Or.inr (Or.inr rfl))
    | exact gemm_within (Or.inl (ha ..)) (Or.inr (Or.inl rfl)) (Or.inr (Or.inr rfl))
    | exact gemm_within (Or.inr (Or.inl rfl)) (Or.inl (ha ..)) (Or.inr (Or.inr rfl))

/-- Tasks of step `k`. -/
def trStep (dv : α → α → α) (sd : Side) (u : Uplo) (t : Trans) (d : Diag) (alpha : α)
    (A B : TMat M) (b Mm Nn k : Nat) : List (TTask (M × Nat × Nat) α) :=
  (trIdx sd u t (ceilDiv (trN sd Mm Nn) b) (ceilDiv (trP sd Mm Nn) b) k).flatMap fun p =>
    [trTask dv sd u t d alpha A B b Mm Nn k p]

theorem trStep_frame {k : Nat} (hk : k < ceilDiv (trN sd Mm Nn) b) (s : Store (M × Nat × Nat) α)
    {x : M × Nat × Nat}
    (hx : ∀ p : Nat × Nat, k ≤ p.1 → p.1 < ceilDiv (trN sd Mm Nn) b →
      x ≠ trB sd (trFwd sd u t) (ceilDiv (trN sd Mm Nn) b) B p) :
    texec (trStep dv sd u t d alpha A B b Mm Nn k) s x = s x :=
  par_frame (o := trB sd (trFwd sd u t) (ceilDiv (trN sd Mm Nn) b) B) (fun _ _ => trTask_writes) s
    (fun p hp => by rw [mem_trIdx hk] at hp; exact hx p hp.1 hp.2.1)

theorem trB_id {fwd : Bool} {K : Nat} {p : Nat × Nat} : (trB sd fwd K B p).1 = B.id := by
  unfold trB; split <;> rfl

theorem trStep_tile (hab : A.id ≠ B.id) {k : Nat} (hk : k < ceilDiv (trN sd Mm Nn) b)
    (s : Store (M × Nat × Nat) α) {p : Nat × Nat} (h1 : k ≤ p.1) (h2 : p.1 < ceilDiv (trN sd Mm Nn) b)
    (h3 : p.2 < ceilDiv (trP sd Mm Nn) b) {s' : Store (M × Nat × Nat) α}
    (hs1 : s' (trB sd (trFwd sd u t) (ceilDiv (trN sd Mm Nn) b) B p) =
      s (trB sd (trFwd sd u t) (ceilDiv (trN sd Mm Nn) b) B p))
    (hs2 : ∀ x, x.1 = A.id → s' x = s x)
    (hs3 : k ≠ p.1 → s' (trB sd (trFwd sd u t) (ceilDiv (trN sd Mm Nn) b) B (k, p.2)) =
      texec (trStep dv sd u t d alpha A B b Mm Nn k) s
        (trB sd (trFwd sd u t) (ceilDiv (trN sd Mm Nn) b) B (k, p.2))) :
    texec (trStep dv sd u t d alpha A B b Mm Nn k) s
        (trB sd (trFwd sd u t) (ceilDiv (trN sd Mm Nn) b) B p) =
      (trTask dv sd u t d alpha A B b Mm Nn k p).run s'
        (trB sd (trFwd sd u t) (ceilDiv (trN sd Mm Nn) b) B p) := by
  have hmem : p ∈ trIdx sd u t (ceilDiv (trN sd Mm Nn) b) (ceilDiv (trP sd Mm Nn) b) k :=
    (mem_trIdx hk).mpr ⟨h1, h2, h3⟩
  have hpw : (trIdx sd u t (ceilDiv (trN sd Mm Nn) b) (ceilDiv (trP sd Mm Nn) b) k).Pairwise
      (fun p q => TrBefore k p q ∧ p.1 < ceilDiv (trN sd Mm Nn) b ∧ q.1 < ceilDiv (trN sd Mm Nn) b) :=
    List.Pairwise.imp_of_mem (fun ha hb h => ⟨h, ((mem_trIdx hk).mp ha).2.1, ((mem_trIdx hk).mp hb).2.1⟩)
      trIdx_pairwise
  refine Eq.trans (par_final (o := trB sd (trFwd sd u t) (ceilDiv (trN sd Mm Nn) b) B)
    (D := fun p x => x.1 = A.id ∨ x = trB sd (trFwd sd u t) (ceilDiv (trN sd Mm Nn) b) B (k, p.2) ∨
        x = trB sd (trFwd sd u t) (ceilDiv (trN sd Mm Nn) b) B p) hpw
    (fun p => Or.inr (Or.inr rfl)) ?_ (fun _ _ => trTask_within) (fun _ _ => trTask_writes) s hmem
    (s' := s') hs1 ?_) ?_
  · rintro p q ⟨⟨hne, hlt⟩, hp, hq⟩ (h | h | h)
    · rw [trB_id] at h; exact hab h.symm
    · have := trB_inj hq hk h
      exact hlt ⟨by rw [this], by rw [this]⟩
    · exact hne (trB_inj hq hp h).symm
  · rintro x (h | rfl | rfl) hx
    · rw [hs2 x h]; symm
      refine trStep_frame hk s fun p _ _ he => ?_
      rw [he, trB_id] at h; exact hab h.symm
    · exact hs3 fun he => hx (by rw [he])
    · exact absurd rfl hx
  · simp only [texec_cons, texec_nil]

theorem trStep_A (hab : A.id ≠ B.id) {k : Nat} (hk : k < ceilDiv (trN sd Mm Nn) b)
    (s : Store (M × Nat × Nat) α) {x : M × Nat × Nat} (hx : x.1 = A.id) :
    texec (trStep dv sd u t d alpha A B b Mm Nn k) s x = s x :=
  trStep_frame hk s fun p _ _ he => hab (by rw [← hx, he, trB_id])

omit [CommRing α] [StarRing α] [DecidableEq α] in
theorem trEl_tile (hB : B.Al b) (s : Store (M × Nat × Nat) α) {fwd : Bool} {K r c j : Nat}
    (hr : r / b = ord fwd K j) :
    trEl sd (B.el s) r c = trEl sd (s (trB sd fwd K B (j, c / b))) (r % b) (c % b) := by
  unfold trEl trB TMat.el
  rw [hB.mb, hB.nb]
  cases sd <;> simp only [if_true, reduceCtorEq, if_false, hr]

/-- Updated blocks of step `k`. -/
theorem trStep_upd (hA : A.Al b) (hB : B.Al b) (hab : A.id ≠ B.id) {k j r c : Nat} (hkj : k < j)
    (hj : j < ceilDiv (trN sd Mm Nn) b) (hr : r < trN sd Mm Nn) (hc : c < trP sd Mm Nn)
    (hrj : r / b = ord (trFwd sd u t) (ceilDiv (trN sd Mm Nn) b) j) (s : Store (M × Nat × Nat) α) :
    trEl sd (B.el (texec (trStep dv sd u t d alpha A B b Mm Nn k) s)) r c =
      trGb sd t alpha k * trEl sd (B.el s) r c + trGa dv sd t alpha *
        bsum (trN sd Mm Nn) b (ord (trFwd sd u t) (ceilDiv (trN sd Mm Nn) b) k) (fun l =>
          trT sd u t d (A.el s) r l *
            trEl sd (B.el (texec (trStep dv sd u t d alpha A B b Mm Nn k) s)) l c) := by
  classical
  have hb := hB.pos
  have hk : k < ceilDiv (trN sd Mm Nn) b := by omega
  have hq : c / b < ceilDiv (trP sd Mm Nn) b := by
    rw [lt_ceilDiv hb]; have := Nat.div_mul_le_self c b; omega
  set S := texec (trStep dv sd u t d alpha A B b Mm Nn k) s with hS
  set K := ceilDiv (trN sd Mm Nn) b with hK
  have htile := trStep_tile (d := d) (dv := dv) (u := u) (t := t) (alpha := alpha) hab hk s (p := (j, c / b))
    hkj.le hj hq
    (s' := fun x => if x = trB sd (trFwd sd u t) K B (j, c / b) then s x else
      if x = trB sd (trFwd sd u t) K B (k, c / b) then S x else s x)
    (if_pos rfl) (fun x hx => by
      rw [if_neg, if_neg] <;> (intro he; rw [he, trB_id] at hx; exact hab hx.symm))
    (fun _ => by
      rw [if_neg, if_pos rfl]
      intro he; have := congrArg Prod.fst (trB_inj (sd := sd) hk hj he); simp only at this; omega)
  have hne : trB sd (trFwd sd u t) K B (k, c / b) ≠ trB sd (trFwd sd u t) K B (j, c / b) := by
    intro he; have := congrArg Prod.fst (trB_inj (sd := sd) hk hj he); simp only at this; omega
  rw [trEl_tile hB S hrj, trEl_tile hB s hrj]
  have hbs : bsum (trN sd Mm Nn) b (ord (trFwd sd u t) K k) (fun l =>
        trT sd u t d (A.el s) r l * trEl sd (B.el S) l c) =
      ∑ l ∈ range (tdim (trN sd Mm Nn) b (ord (trFwd sd u t) K k)),
        trT sd u t d (A.el s) r (ord (trFwd sd u t) K k * b + l) *
          trEl sd (S (trB sd (trFwd sd u t) K B (k, c / b))) l (c % b) := by
    refine Finset.sum_congr rfl fun l hl => ?_
    rw [Finset.mem_range] at hl
    have hlb : l < b := lt_of_lt_of_le hl tdim_le
    dsimp only
    rw [trEl_tile hB S (j := k) (fwd := trFwd sd u t) (K := K) (by rw [div_of_tile hlb]), mod_of_tile hlb]
  rw [hbs]
  have hord : if trFwd sd u t then ord (trFwd sd u t) K k < ord (trFwd sd u t) K j
      else ord (trFwd sd u t) K j < ord (trFwd sd u t) K k := by
    unfold ord; split <;> omega
  have hrm : r = ord (trFwd sd u t) K j * b + r % b := by rw [← hrj, divmod]
  have hrb : r % b < b := Nat.mod_lt _ hb
  have hrt : r % b < tdim (trN sd Mm Nn) b (ord (trFwd sd u t) K j) := by
    rw [← hrj]; exact mod_lt_tdim hb hr
  have hct : c % b < tdim (trP sd Mm Nn) b (c / b) := mod_lt_tdim hb hc
  have hAt : ∀ (x y : Nat), (fun x => if x = trB sd (trFwd sd u t) K B (j, c / b) then s x else
      if x = trB sd (trFwd sd u t) K B (k, c / b) then S x else s x) (A.at' x y) = s (A.at' x y) := by
    intro x y
    simp only
    rw [if_neg, if_neg] <;> (intro he; have := congrArg Prod.fst he; rw [trB_id] at this; exact hab this)
  have hAt' : ∀ (x y : Nat), (fun x => if x = trB sd (trFwd sd u t) K B (j, c / b) then s x else
      if x = trB sd (trFwd sd u t) K B (k, c / b) then S x else s x)
        (if t = .noTrans then A.at' x y else A.at' y x) = s (if t = .noTrans then A.at' x y else A.at' y x) := by
    intro x y; by_cases h : t = .noTrans
    · simp only [h, if_true]; rw [h] at hAt; exact hAt x y
    · simp only [if_neg h]; exact hAt y x
  have htile' : S (trB sd (trFwd sd u t) K B (j, c / b)) = _ := htile
  rw [htile']
  clear htile htile' hbs
  clear_value S K
  cases sd
  · simp only [trEl, trN, trP, if_true, trTask, if_neg (show ¬ j = k by omega)] at *
    rw [← hK, gemm_run _ ⟨hrt, hct⟩]
    simp only [if_true, if_neg hne]
    rw [hAt']
    congr 2
    refine Finset.sum_congr rfl fun l hl => ?_
    rw [Finset.mem_range] at hl
    have hlb : l < b := lt_of_lt_of_le hl tdim_le
    rw [op_trE_off (d := d) hA s hrb hlb (by simpa [trFwd] using hord)]
    simp only [trT, if_true, opE]
    rw [← hrm]
  · simp only [trEl, trN, trP, reduceCtorEq, if_false, trTask, if_neg (show ¬ j = k by omega)] at *
    rw [← hK, gemm_run _ ⟨hct, hrt⟩]
    simp only [if_true, if_neg hne]
    rw [hAt']
    congr 2
    refine Finset.sum_congr rfl fun l hl => ?_
    rw [Finset.mem_range] at hl
    have hlb : l < b := lt_of_lt_of_le hl tdim_le
    rw [op_trE_off (d := d) hA s hlb hrb (by
      simp only [trFwd, reduceCtorEq, if_false] at hord ⊢
      cases hh : opLow u t <;> simp only [hh] at hord ⊢ <;> simpa using hord)]
    simp only [trT, reduceCtorEq, if_false, opE]
    rw [← hrm, mul_comm]

/-- Blocks solved in earlier steps. -/
theorem trStep_keep (hB : B.Al b) {k j r c : Nat} (hjk : j < k) (hk : k < ceilDiv (trN sd Mm Nn) b)
    (hrj : r / b = ord (trFwd sd u t) (ceilDiv (trN sd Mm Nn) b) j) (s : Store (M × Nat × Nat) α) :
    trEl sd (B.el (texec (trStep dv sd u t d alpha A B b Mm Nn k) s)) r c = trEl sd (B.el s) r c := by
  rw [trEl_tile hB _ hrj, trEl_tile hB s hrj, trStep_frame hk s]
  intro p h1 h2 he
  have := congrArg Prod.fst (trB_inj (sd := sd) (by omega) h2 he)
  simp only at this; omega

/-- Solved blocks of step `k`, tile by tile. -/
theorem trStep_diag (hB : B.Al b) (hab : A.id ≠ B.id) {k r c : Nat}
    (hk : k < ceilDiv (trN sd Mm Nn) b) (hr : r < trN sd Mm Nn) (hc : c < trP sd Mm Nn)
    (hrk : r / b = ord (trFwd sd u t) (ceilDiv (trN sd Mm Nn) b) k) (s : Store (M × Nat × Nat) α) :
    trEl sd (B.el (texec (trStep dv sd u t d alpha A B b Mm Nn k) s)) r c =
      trEl sd (trsmK dv sd u t d
        (if sd = .left then tdim Mm b (ord (trFwd sd u t) (ceilDiv (trN sd Mm Nn) b) k) else tdim Mm b (c / b))
        (if sd = .left then tdim Nn b (c / b) else tdim Nn b (ord (trFwd sd u t) (ceilDiv (trN sd Mm Nn) b) k))
        (trLa sd t alpha k)
        (s (A.at' (ord (trFwd sd u t) (ceilDiv (trN sd Mm Nn) b) k)
          (ord (trFwd sd u t) (ceilDiv (trN sd Mm Nn) b) k)))
        (s (trB sd (trFwd sd u t) (ceilDiv (trN sd Mm Nn) b) B (k, c / b)))) (r % b) (c % b) := by
  have hb := hB.pos
  have hq : c / b < ceilDiv (trP sd Mm Nn) b := by
    rw [lt_ceilDiv hb]; have := Nat.div_mul_le_self c b; omega
  have htile := trStep_tile (d := d) (dv := dv) (u := u) (t := t) (alpha := alpha) hab hk s (p := (k, c / b))
    le_rfl hk hq (s' := s) rfl (fun _ _ => rfl) (fun h => absurd rfl h)
  rw [trEl_tile hB _ hrk, htile]
  have hrt : r % b < tdim (trN sd Mm Nn) b (ord (trFwd sd u t) (ceilDiv (trN sd Mm Nn) b) k) := by
    rw [← hrk]; exact mod_lt_tdim hb hr
  have hct : c % b < tdim (trP sd Mm Nn) b (c / b) := mod_lt_tdim hb hc
  cases sd
  · simp only [trEl, trN, trP, if_true, trTask] at *
    rw [coreTrsm_run _ ⟨hrt, hct⟩]
  · simp only [trEl, trN, trP, reduceCtorEq, if_false, if_true, trTask] at *
    rw [coreTrsm_run _ ⟨hct, hrt⟩]

end

section
variable [Field α] [StarRing α] [DecidableEq α] {dv : α → α → α} {sd : Side} {u : Uplo} {t : Trans}
  {d : Diag} {alpha : α} {A B : TMat M} {b Mm Nn : Nat}

omit [DecidableEq α] in
theorem trE_diag_tile (hA : A.Al b) (s : Store (M × Nat × Nat) α) {k i : Nat} (hi : i < b) :
    trE u d (s (A.at' k k)) i i = trE u d (A.el s) (k * b + i) (k * b + i) :=
  op_trE_diag (t := .noTrans) hA s hi hi

theorem trStep_solve (hdv : IsDiv dv) (hA : A.Al b) (hB : B.Al b) (hab : A.id ≠ B.id) {k r c : Nat}
    (hk : k < ceilDiv (trN sd Mm Nn) b) (hr : r < trN sd Mm Nn) (hc : c < trP sd Mm Nn)
    (hrk : r / b = ord (trFwd sd u t) (ceilDiv (trN sd Mm Nn) b) k) (s : Store (M × Nat × Nat) α)
    (hd : ∀ i, i < trN sd Mm Nn → trE u d (A.el s) i i ≠ 0) (hla : trLa sd t alpha k ≠ 0) :
    bsum (trN sd Mm Nn) b (ord (trFwd sd u t) (ceilDiv (trN sd Mm Nn) b) k) (fun l =>
        trT sd u t d (A.el s) r l *
          trEl sd (B.el (texec (trStep dv sd u t d alpha A B b Mm Nn k) s)) l c) =
      trLa sd t alpha k * trEl sd (B.el s) r c := by
  have hb := hB.pos
  set K := ceilDiv (trN sd Mm Nn) b with hK
  set σ := ord (trFwd sd u t) K k with hσ
  have hrb : r % b < b := Nat.mod_lt _ hb
  have e : bsum (trN sd Mm Nn) b σ (fun l =>
        trT sd u t d (A.el s) r l *
          trEl sd (B.el (texec (trStep dv sd u t d alpha A B b Mm Nn k) s)) l c) =
      ∑ i ∈ range (tdim (trN sd Mm Nn) b σ), trT sd u t d (s (A.at' σ σ)) (r % b) i *
        trEl sd (trsmK dv sd u t d
        (if sd = .left then tdim Mm b σ else tdim Mm b (c / b))
        (if sd = .left then tdim Nn b (c / b) else tdim Nn b σ) (trLa sd t alpha k)
        (s (A.at' σ σ)) (s (trB sd (trFwd sd u t) K B (k, c / b)))) i (c % b) := by
    refine Finset.sum_congr rfl fun i hi => ?_
    rw [Finset.mem_range] at hi
    have hib : i < b := lt_of_lt_of_le hi tdim_le
    dsimp only
    rw [trStep_diag hB hab hk (by rw [tdim_row] at hi; exact hi.2) hc (div_of_tile hib), mod_of_tile hib]
    congr 1
    have hrm : r = σ * b + r % b := by rw [← hrk, divmod]
    rw [show trT sd u t d (A.el s) r (σ * b + i) = trT sd u t d (A.el s) (σ * b + r % b) (σ * b + i) by
      rw [← hrm]]
    unfold trT
    split
    · exact (op_trE_diag hA s hrb hib).symm
    · exact (op_trE_diag hA s hib hrb).symm
  rw [e, trEl_tile hB s hrk]
  have hN : trN sd (if sd = .left then tdim Mm b σ else tdim Mm b (c / b))
      (if sd = .left then tdim Nn b (c / b) else tdim Nn b σ) = tdim (trN sd Mm Nn) b σ := by
    unfold trN; cases sd <;> simp
  have := trsmK_spec (t := t) hdv hla (X := s (A.at' σ σ)) (Y := s (trB sd (trFwd sd u t) K B (k, c / b)))
    (sd := sd) (u := u) (d := d)
    (m := if sd = .left then tdim Mm b σ else tdim Mm b (c / b))
    (n := if sd = .left then tdim Nn b (c / b) else tdim Nn b σ) (r := r % b) (c := c % b)
    (by
      intro i hi
      rw [hN] at hi
      rw [trE_diag_tile hA s (lt_of_lt_of_le hi tdim_le)]
      rw [tdim_row] at hi
      exact hd _ hi.2)
    (by rw [hN, ← hrk]; exact mod_lt_tdim hb hr)
  rw [hN] at this
  exact this

omit [Field α] [StarRing α] [DecidableEq α] in
/-- Prefix of the computation. -/
theorem texec_range_succ {f : Nat → List (TTask (M × Nat × Nat) α)} (k : Nat)
    (s : Store (M × Nat × Nat) α) :
    texec ((List.range (k+1)).flatMap f) s = texec (f k) (texec ((List.range k).flatMap f) s) := by
  rw [List.range_succ, List.flatMap_append, texec_append, List.flatMap_singleton]

theorem trSteps_A (hab : A.id ≠ B.id) {k : Nat} (hk : k ≤ ceilDiv (trN sd Mm Nn) b)
    (s : Store (M × Nat × Nat) α) {x : M × Nat × Nat} (hx : x.1 = A.id) :
    texec ((List.range k).flatMap (trStep dv sd u t d alpha A B b Mm Nn)) s x = s x := by
  induction k with
  | zero => rfl
  | succ k ih => rw [texec_range_succ, trStep_A hab (by omega) _ hx, ih (by omega)]

theorem trSteps_Ael (hab : A.id ≠ B.id) {k : Nat} (hk : k ≤ ceilDiv (trN sd Mm Nn) b)
    (s : Store (M × Nat × Nat) α) :
    A.el (texec ((List.range k).flatMap (trStep dv sd u t d alpha A B b Mm Nn)) s) = A.el s := by
  funext r c
  simp only [TMat.el]
  rw [trSteps_A hab hk s (by rfl)]

/-- **Triangular solve, tile algorithm.** -/
theorem pztrsm_el (hdv : IsDiv dv) (hA : A.Al b) (hB : B.Al b) (hab : A.id ≠ B.id)
    (hm : B.d.m = Mm) (hn : B.d.n = Nn) (ha : alpha ≠ 0) (s : Store (M × Nat × Nat) α)
    (hd : ∀ i, i < trN sd Mm Nn → trE u d (A.el s) i i ≠ 0) :
    ∀ r c, r < trN sd Mm Nn → c < trP sd Mm Nn →
      ∑ l ∈ range (trN sd Mm Nn), trT sd u t d (A.el s) r l *
          trEl sd (B.el (texec (pztrsm dv sd u t d alpha A B) s)) l c =
        alpha * trEl sd (B.el s) r c := by
  have hb := hB.pos
  have hla : ∀ k, trLa sd t alpha k ≠ 0 := by
    intro k; unfold trLa; split_ifs <;> simp [ha]
  rw [pztrsm_eq hB hm hn]
  set E : Nat → Nat → Nat → α := fun k r c =>
    trEl sd (B.el (texec ((List.range k).flatMap (trStep dv sd u t d alpha A B b Mm Nn)) s)) r c with hE
  have hAel : ∀ k, k < ceilDiv (trN sd Mm Nn) b →
      A.el (texec ((List.range k).flatMap (trStep dv sd u t d alpha A B b Mm Nn)) s) = A.el s :=
    fun k hk => trSteps_Ael hab hk.le s
  have := trsm_math (fwd := trFwd sd u t) (N := trN sd Mm Nn) (P := trP sd Mm Nn) hb
    (T := trT sd u t d (A.el s)) (E := E) (la := trLa sd t alpha) (gb := trGb sd t alpha)
    (ga := fun _ => trGa dv sd t alpha) (alpha := alpha)
    (by unfold trLa; split <;> simp)
    (by
      intro k; unfold trLa trGb
      by_cases hc : sd = .right ∧ t ≠ .noTrans
      · rw [if_pos hc, if_pos hc, if_pos hc, mul_one]
      · rw [if_neg hc, if_neg hc, if_neg hc, if_neg (Nat.succ_ne_zero k), one_mul])
    (by
      intro k; unfold trLa trGa
      by_cases hc : sd = .right ∧ t ≠ .noTrans
      · rw [if_pos hc, if_pos hc, hdv.eq _ _ ha]; field_simp
      · rw [if_neg hc, if_neg hc, if_neg (Nat.succ_ne_zero k), one_mul])
    (by
      intro k hk r c hr hc hrk
      simp only [hE, texec_range_succ]
      have := trStep_solve hdv hA hB hab hk hr hc hrk
        (texec ((List.range k).flatMap (trStep dv sd u t d alpha A B b Mm Nn)) s)
        (by rw [hAel k hk]; exact hd) (hla k)
      rw [hAel k hk] at this
      exact this)
    (by
      intro k hk j hkj hj r c hr hc hrj
      simp only [hE, texec_range_succ]
      have := trStep_upd (dv := dv) (d := d) (alpha := alpha) hA hB hab hkj hj hr hc hrj
        (texec ((List.range k).flatMap (trStep dv sd u t d alpha A B b Mm Nn)) s)
      rw [hAel k hk] at this
      exact this)
    (by
      intro k hk j hjk r c hr hc hrj
      simp only [hE, texec_range_succ]
      exact trStep_keep hB hjk hk hrj _)
    (by
      intro r l hr hl h
      unfold trT
      split
      · rename_i hs
        exact op_tri_zero (by simpa [trFwd, hs] using h)
      · rename_i hs
        refine op_tri_zero ?_
        simp only [trFwd, hs, if_false] at h
        cases hh : opLow u t <;> simpa [hh] using h)
  exact this

/-- With `alpha = 0` the result is zero, if the diagonal has no zero; in the nests that do
not fold `alpha` into the first step, the diagonal does not matter. -/
theorem pztrsm_zero (hdv : IsDiv dv) (hA : A.Al b) (hB : B.Al b) (hab : A.id ≠ B.id)
    (hm : B.d.m = Mm) (hn : B.d.n = Nn) (s : Store (M × Nat × Nat) α)
    (hd : (sd = .right ∧ t ≠ .noTrans) ∨ ∀ i, i < trN sd Mm Nn → trE u d (A.el s) i i ≠ 0) :
    ∀ r c, r < trN sd Mm Nn → c < trP sd Mm Nn →
      trEl sd (B.el (texec (pztrsm dv sd u t d 0 A B) s)) r c = 0 := by
  have hb := hB.pos
  rw [pztrsm_eq hB hm hn]
  change ∀ r c, r < trN sd Mm Nn → c < trP sd Mm Nn → trEl sd (B.el (texec
    ((List.range (ceilDiv (trN sd Mm Nn) b)).flatMap (trStep dv sd u t d 0 A B b Mm Nn)) s)) r c = 0
  have hK0 : ∀ m n l i j, trEl sd (trsmK dv sd u t d m n 0 l i) j = fun _ => 0 := by
    intro m n l i j; funext x; simp [trEl, trsmK]
  -- after `k` steps: solved blocks are zero, and all blocks if `alpha` is folded in
  have key : ∀ k, k ≤ ceilDiv (trN sd Mm Nn) b → ∀ r c, r < trN sd Mm Nn → c < trP sd Mm Nn →
      ∀ j, j < ceilDiv (trN sd Mm Nn) b → r / b = ord (trFwd sd u t) (ceilDiv (trN sd Mm Nn) b) j →
      (j < k ∨ (0 < k ∧ ¬ (sd = .right ∧ t ≠ .noTrans))) →
      trEl sd (B.el (texec ((List.range k).flatMap (trStep dv sd u t d 0 A B b Mm Nn)) s)) r c = 0 := by
    intro k
    induction k with
    | zero => intro _ r c _ _ j _ _ h; omega
    | succ k ih =>
      intro hk r c hr hc j hj hrj hjk
      have hk' : k < ceilDiv (trN sd Mm Nn) b := hk
      rw [texec_range_succ]
      set s1 := texec ((List.range k).flatMap (trStep dv sd u t d 0 A B b Mm Nn)) s with hs1
      have hAel : A.el s1 = A.el s := trSteps_Ael hab (by omega) s
      -- the solved blocks
      have hsol : ∀ r c, r < trN sd Mm Nn → c < trP sd Mm Nn →
          r / b = ord (trFwd sd u t) (ceilDiv (trN sd Mm Nn) b) k →
          trEl sd (B.el (texec (trStep dv sd u t d 0 A B b Mm Nn k) s1)) r c = 0 := by
        intro r c hr hc hrk
        rw [trStep_diag hB hab hk' hr hc hrk]
        by_cases hla : trLa sd t (0 : α) k = 0
        · rw [hla, hK0]
        · have hf : ¬ (sd = .right ∧ t ≠ .noTrans) := by
            intro h; apply hla; unfold trLa; rw [if_pos h]
          have hk0 : 0 < k := by
            rcases Nat.eq_zero_or_pos k with h | h
            · exfalso; apply hla; unfold trLa; rw [if_neg hf, if_pos h]
            · exact h
          have hdd := hd.resolve_left hf
          have hz : ∀ i x, i < trN sd Mm Nn → x < trP sd Mm Nn →
              i / b = ord (trFwd sd u t) (ceilDiv (trN sd Mm Nn) b) k → trEl sd (B.el s1) i x = 0 :=
            fun i x hi hx hib => ih (by omega) i x hi hx k hk' hib (Or.inr ⟨hk0, hf⟩)
          set σ := ord (trFwd sd u t) (ceilDiv (trN sd Mm Nn) b) k with hσ
          have hde : ∀ i, i < tdim (trN sd Mm Nn) b σ → opE t (trE u d (s1 (A.at' σ σ))) i i ≠ 0 := by
            intro i hi
            rw [op_trE_diag hA s1 (lt_of_lt_of_le hi tdim_le) (lt_of_lt_of_le hi tdim_le), hAel]
            rw [tdim_row] at hi
            have := hdd _ hi.2
            cases t <;> simpa [opE] using this
          have hz' : ∀ l, l < tdim (trN sd Mm Nn) b σ → trLa sd t (0 : α) k *
              trEl sd (s1 (trB sd (trFwd sd u t) (ceilDiv (trN sd Mm Nn) b) B (k, c / b))) l (c % b) = 0 := by
            intro l hl
            have hlb := lt_of_lt_of_le hl tdim_le
            have := hz (σ * b + l) c (by rw [tdim_row] at hl; exact hl.2) hc (div_of_tile hlb)
            rw [trEl_tile (j := k) hB s1 (div_of_tile hlb), mod_of_tile hlb] at this
            rw [this, mul_zero]
          have hrt : r % b < tdim (trN sd Mm Nn) b σ := by
            rw [← hrk]; exact mod_lt_tdim hb hr
          unfold trEl trsmK
          rw [if_neg hla, if_neg hla]
          clear_value s1 σ
          cases sd
          · simp only [if_true, trEl, trN, trP] at *
            exact tsolve_zero hdv hz' hde hrt
          · simp only [reduceCtorEq, if_false, trEl, trN, trP] at *
            exact tsolve_zero (T := fun r l => opE t (trE u d (s1 (A.at' σ σ))) l r) hdv hz' hde hrt
      rcases Nat.lt_trichotomy j k with h | h | h
      · rw [trStep_keep hB h hk' hrj]
        exact ih (by omega) r c hr hc j hj hrj (Or.inl h)
      · subst h; exact hsol r c hr hc hrj
      · have hf : ¬ (sd = .right ∧ t ≠ .noTrans) := by
          rcases hjk with h' | h'
          · omega
          · exact h'.2
        rw [trStep_upd hA hB hab h hj hr hc hrj]
        have e1 : bsum (trN sd Mm Nn) b (ord (trFwd sd u t) (ceilDiv (trN sd Mm Nn) b) k) (fun l =>
          trT sd u t d (A.el s1) r l *
            trEl sd (B.el (texec (trStep dv sd u t d 0 A B b Mm Nn k) s1)) l c) =
          bsum (trN sd Mm Nn) b (ord (trFwd sd u t) (ceilDiv (trN sd Mm Nn) b) k) (fun _ => (0 : α)) :=
          bsum_congr fun l hl hlb => by rw [hsol l c hl hc hlb, mul_zero]
        rw [e1]
        have e2 : trGb sd t (0 : α) k * trEl sd (B.el s1) r c = 0 := by
          rcases Nat.eq_zero_or_pos k with h0 | h0
          · unfold trGb; rw [if_neg hf, if_pos h0, zero_mul]
          · rw [ih (by omega) r c hr hc j hj hrj (Or.inr ⟨h0, hf⟩), mul_zero]
        rw [e2]; simp [bsum]
  intro r c hr hc
  have hrt : r / b < ceilDiv (trN sd Mm Nn) b := by
    rw [lt_ceilDiv hb]; have := Nat.div_mul_le_self r b; omega
  exact key _ le_rfl r c hr hc (ord (trFwd sd u t) (ceilDiv (trN sd Mm Nn) b) (r / b)) (ord_lt hrt)
    (ord_ord hrt).symm (Or.inl (ord_lt hrt))

end

section
variable [CommRing α] [StarRing α] [DecidableEq α] {dv : α → α → α} {sd : Side} {u : Uplo} {t : Trans}
  {d : Diag} {alpha : α} {A B : TMat M} {b Mm Nn : Nat}

theorem pztrsm_writes (hB : B.Al b) (hm : B.d.m = Mm) (hn : B.d.n = Nn) :
    Writes (fun x => x.1 = B.id) (pztrsm dv sd u t d alpha A B) := by
  rw [pztrsm_eq hB hm hn]
  exact Writes.flatMap fun k _ => Writes.flatMap fun p _ => trTask_writes.mono fun x hx => by rw [hx, trB_id]

/-- The tasks touch stored elements only; of `A` only tiles of the selected triangle. -/
theorem pztrsm_good {env : M → MatEnv} (hA : FitsOn env b (inTri u) A) (hB : Fits env b B)
    (hm : B.d.m = Mm) (hn : B.d.n = Nn) (hAm : trN sd Mm Nn ≤ A.d.m) (hAn : trN sd Mm Nn ≤ A.d.n) :
    Good (evalid env) (pztrsm dv sd u t d alpha A B) := by
  rw [pztrsm_eq hB.al hm hn]
  refine Good.flatMap fun k hk => Good.flatMap fun p hp => ?_
  rw [List.mem_range] at hk
  rw [mem_trIdx hk] at hp
  have hmono : ∀ {x y : Nat}, x ≤ y → ∀ {i}, tdim x b i ≤ tdim y b i := by
    intro x y h i; unfold tdim; omega
  have hAd : ∀ {x : Nat} {i j}, triD u d (tdim (trN sd Mm Nn) b x) i j → evalid env (A.at' x x) i j := by
    intro x i j h
    exact hA.validOn (by unfold inTri; cases u <;> simp) (lt_of_lt_of_le h.1 (hmono hAm))
      (lt_of_lt_of_le h.2.1 (hmono hAn))
  have hAo : ∀ {x y : Nat} {i j}, inTri u x y → i < tdim (trN sd Mm Nn) b x → j < tdim (trN sd Mm Nn) b y →
      evalid env (A.at' x y) i j := by
    intro x y i j h hi hj
    exact hA.validOn h (lt_of_lt_of_le hi (hmono hAm)) (lt_of_lt_of_le hj (hmono hAn))
  have hord : p.1 ≠ k → if trFwd sd u t then
        ord (trFwd sd u t) (ceilDiv (trN sd Mm Nn) b) k < ord (trFwd sd u t) (ceilDiv (trN sd Mm Nn) b) p.1
      else ord (trFwd sd u t) (ceilDiv (trN sd Mm Nn) b) p.1 < ord (trFwd sd u t) (ceilDiv (trN sd Mm Nn) b) k := by
    intro hne; unfold ord; split <;> omega
  have hBb : ∀ (x y : Nat) i j, box (tdim Mm b x) (tdim Nn b y) i j → evalid env (B.at' x y) i j :=
    fun x y => hB.box (by rw [hm]) (by rw [hn])
  unfold trTask
  cases sd
  · simp only [if_true, trN, trP, trB] at *
    by_cases hpk : p.1 = k
    · rw [if_pos hpk]
      exact Good.single coreTrsm_local op1_declared (op1_inside
        (fun i j h => hAd (by simpa using h)) (by rw [← hpk]; exact hBb _ _))
    · rw [if_neg hpk]
      have ho := hord hpk
      refine gemm_single_good ?_ ?_ (hBb _ _)
      · intro i j h
        by_cases ht : t = .noTrans
        · rw [if_pos ht] at h ⊢
          refine hAo ?_ h.1 h.2
          cases u <;> simp [trFwd, opLow, ht, inTri] at ho ⊢ <;> omega
        · rw [if_neg ht] at h ⊢
          refine hAo ?_ h.1 h.2
          cases u <;> simp [trFwd, opLow, ht, inTri] at ho ⊢ <;> omega
      · simp only [if_true]; exact hBb _ _
  · simp only [if_false, reduceCtorEq, trN, trP, trB] at *
    by_cases hpk : p.1 = k
    · rw [if_pos hpk]
      exact Good.single coreTrsm_local op1_declared (op1_inside
        (fun i j h => hAd (by simpa using h)) (by rw [← hpk]; exact hBb _ _))
    · rw [if_neg hpk]
      have ho := hord hpk
      refine gemm_single_good ?_ ?_ (hBb _ _)
      · simp only [if_true]; exact hBb _ _
      · intro i j h
        by_cases ht : t = .noTrans
        · rw [if_pos ht] at h ⊢
          refine hAo ?_ h.1 h.2
          cases u <;> simp [trFwd, opLow, ht, inTri] at ho ⊢ <;> omega
        · rw [if_neg ht] at h ⊢
          refine hAo ?_ h.1 h.2
          cases u <;> simp [trFwd, opLow, ht, inTri] at ho ⊢ <;> omega

end

/-- A triangular system has at most one solution. -/
theorem tri_unique {α : Type v} [Field α] {low : Bool} {N : Nat} {T : Nat → Nat → α} {x y : Nat → α}
    (hd : ∀ i, i < N → T i i ≠ 0) (ht : ∀ i l, i < N → l < N → (if low then i < l else l < i) → T i l = 0)
    (h : ∀ i, i < N → ∑ l ∈ range N, T i l * x l = ∑ l ∈ range N, T i l * y l) :
    ∀ i, i < N → x i = y i := by
  have key : ∀ i, i < N → (∀ l, l < N → (if low then l < i else i < l) → x l = y l) → x i = y i := by
    intro i hi hl
    have h1 := h i hi
    rw [← sub_eq_zero, ← Finset.sum_sub_distrib, Finset.sum_eq_single i] at h1
    · rw [← mul_sub] at h1
      exact sub_eq_zero.mp ((mul_eq_zero.mp h1).resolve_left (hd i hi))
    · intro l hlN hne
      rw [Finset.mem_range] at hlN
      by_cases hc : (if low then l < i else i < l)
      · rw [hl l hlN hc, sub_self]
      · rw [ht i l hi hlN (by cases low <;> simp at hc ⊢ <;> omega)]; simp
    · intro hn; exact absurd (Finset.mem_range.mpr hi) hn
  intro i hi
  cases low
  · obtain ⟨j, rfl⟩ : ∃ j, i = N - 1 - j := ⟨N - 1 - i, by omega⟩
    induction j using Nat.strong_induction_on with
    | _ j ih =>
      refine key _ hi fun l hl hlt => ?_
      simp only [Bool.false_eq_true, if_false] at hlt
      have := ih (N - 1 - l) (by omega) (by omega)
      rwa [show N - 1 - (N - 1 - l) = l by omega] at this
  · induction i using Nat.strong_induction_on with
    | _ i ih =>
      refine key _ hi fun l hl hlt => ?_
      simp only [if_true] at hlt
      exact ih l hlt hl

end Verif.Tile

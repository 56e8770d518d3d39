/-
Matrix multiplication: layout conversion, the kernel, the tile algorithm and the
driver (compute/pzge2desc.c, compute/pzdesc2ge.c, core_blas/core_zlacpy.c,
core_blas/core_zgemm.c, compute/pzgemm.c, compute/zgemm.c).
-/
import Verif.Env
import Mathlib.Algebra.BigOperators.Ring.Finset

namespace Verif.Tile

open Verif.Layout Finset

universe u v

variable {M : Type u} {α : Type v}

/-- Rows/columns `lo ≤ i < hi` of a tile. -/
def rect (y1 y2 x1 x2 : Nat) : Nat → Nat → Prop := fun i j => y1 ≤ i ∧ i < y2 ∧ x1 ≤ j ∧ j < x2

/-- `plasma_core_omp_zlacpy(PlasmaGeneral, PlasmaNoTrans, ..)` between rectangles with
the same position in two tiles (core_blas/core_zlacpy.c:66-72,114-129). -/
def lacpyRect (y1 y2 x1 x2 : Nat) (a c : M) : TTask M α :=
  op1 a (rect y1 y2 x1 x2) c (rect y1 y2 x1 x2) fun A _ => A

/-- First/last row copied for tile row `m` (compute/pzge2desc.c:41-44). -/
def cpLo (i mb m : Nat) : Nat := if m = 0 then i % mb else 0
/-- See `cpLo`. -/
def cpHi (i sz mb mt m : Nat) : Nat := if m + 1 = mt then (i + sz - 1) % mb + 1 else mb

/-- `plasma_pzge2desc` (compute/pzge2desc.c:22-56); `U` is the user array cut into the
tiles of `A`.  Simplification: the tile element address `bdl[x1*A.nb+y1]` is modelled
as row `y1`, column `x1` of the tile, which is what it is whenever the descriptor is
tile-aligned (`x1 = y1 = 0`), the only case `plasma_desc_check` admits. -/
def pzge2desc (U A : TMat M) : List (TTask (M × Nat × Nat) α) :=
  (List.range A.d.mt).flatMap fun m => (List.range A.d.nt).map fun n =>
    lacpyRect (cpLo A.d.i A.d.mb m) (cpHi A.d.i A.d.m A.d.mb A.d.mt m)
      (cpLo A.d.j A.d.nb n) (cpHi A.d.j A.d.n A.d.nb A.d.nt n) (U.at' m n) (A.at' m n)

/-- `plasma_pzdesc2ge` (compute/pzdesc2ge.c:22-56). -/
def pzdesc2ge (A U : TMat M) : List (TTask (M × Nat × Nat) α) :=
  (List.range A.d.mt).flatMap fun m => (List.range A.d.nt).map fun n =>
    lacpyRect (cpLo A.d.i A.d.mb m) (cpHi A.d.i A.d.m A.d.mb A.d.mt m)
      (cpLo A.d.j A.d.nb n) (cpHi A.d.j A.d.n A.d.nb A.d.nt n) (A.at' m n) (U.at' m n)

/-- `plasma_core_omp_zgemm` (core_blas/core_zgemm.c:89-136): one `cblas_zgemm` call,
by its BLAS specification, in exact arithmetic. -/
def coreGemm [CommRing α] [StarRing α] (ta tb : Trans) (m n k : Nat) (alpha : α) (a b : M)
    (beta : α) (c : M) : TTask M α :=
  op2 a (if ta = .noTrans then box m k else box k m) b (if tb = .noTrans then box k n else box n k)
    c (box m n)
    fun A B C i j => beta * C i j + alpha * ∑ l ∈ range k, opE ta A i l * opE tb B l j

/-- `plasma_pzgemm` for general matrices (compute/pzgemm.c:31-138). -/
def pzgemm [CommRing α] [StarRing α] [DecidableEq α] (ta tb : Trans) (alpha : α) (A B : TMat M)
    (beta : α) (C : TMat M) : List (TTask (M × Nat × Nat) α) :=
  (List.range C.d.mt).flatMap fun m => (List.range C.d.nt).flatMap fun n =>
    let mvcm := C.d.mview m
    let nvcn := C.d.nview n
    let inner_k := if ta = .noTrans then A.d.n else A.d.m
    if alpha = 0 ∨ inner_k = 0 then
      [coreGemm ta tb mvcm nvcn 0 alpha (A.at' 0 0) (B.at' 0 0) beta (C.at' m n)]
    else if ta = .noTrans then
      if tb = .noTrans then
        (List.range A.d.nt).map fun k =>
          coreGemm ta tb mvcm nvcn (A.d.nview k) alpha (A.at' m k) (B.at' k n)
            (if k = 0 then beta else 1) (C.at' m n)
      else
        (List.range A.d.nt).map fun k =>
          coreGemm ta tb mvcm nvcn (A.d.nview k) alpha (A.at' m k) (B.at' n k)
            (if k = 0 then beta else 1) (C.at' m n)
    else
      if tb = .noTrans then
        (List.range A.d.mt).map fun k =>
          coreGemm ta tb mvcm nvcn (A.d.mview k) alpha (A.at' k m) (B.at' k n)
            (if k = 0 then beta else 1) (C.at' m n)
      else
        (List.range A.d.mt).map fun k =>
          coreGemm ta tb mvcm nvcn (A.d.mview k) alpha (A.at' k m) (B.at' n k)
            (if k = 0 then beta else 1) (C.at' m n)

/-- `plasma_omp_zgemm` after its argument checks (compute/zgemm.c:370-380). -/
def ompZgemm [CommRing α] [StarRing α] [DecidableEq α] (ta tb : Trans) (alpha : α) (A B : TMat M)
    (beta : α) (C : TMat M) : List (TTask (M × Nat × Nat) α) :=
  let k := if ta = .noTrans then A.d.n else A.d.m
  if C.d.m = 0 ∨ C.d.n = 0 ∨ ((alpha = 0 ∨ k = 0) ∧ beta = 1) then []
  else pzgemm ta tb alpha A B beta C

/-- User arrays and tile matrices of a driver, by position in the argument list. -/
inductive Buf | usr (k : Nat) | til (k : Nat)
  deriving DecidableEq, Repr

/-! ### Layout conversion -/

theorem cp_rect {A : TMat M} {b m n i j : Nat} (h : A.Al b) (hm : m < A.d.mt) (hn : n < A.d.nt) :
    rect (cpLo A.d.i A.d.mb m) (cpHi A.d.i A.d.m A.d.mb A.d.mt m)
      (cpLo A.d.j A.d.nb n) (cpHi A.d.j A.d.n A.d.nb A.d.nt n) i j ↔
    i < tdim A.d.m b m ∧ j < tdim A.d.n b n := by
  have key : ∀ {o sz mt k : Nat}, o % b = 0 → mt = ceilDiv sz b → k < mt →
      cpHi o sz b mt k = tdim sz b k := by
    intro o sz mt k ho hmt hk
    rw [hmt] at hk
    have hk' := (lt_ceilDiv h.pos).mp hk
    rw [← tdim_eq_view h.pos hk']
    unfold cpHi
    rw [hmt]
    obtain ⟨q, rfl⟩ := Nat.dvd_of_mod_eq_zero ho
    by_cases hl : k + 1 = ceilDiv sz b
    · rw [if_pos hl, if_neg (by omega)]
      have hpos : 0 < sz := by omega
      rw [show b * q + sz - 1 = b * q + (sz - 1) by omega, Nat.mul_add_mod]
      have hdm := Nat.div_add_mod (sz - 1) b
      have hlt := Nat.mod_lt (sz - 1) h.pos
      by_cases h1 : (sz - 1) % b + 1 = b
      · have hz : sz % b = 0 := by
          have : sz = b * ((sz - 1) / b + 1) := by rw [Nat.mul_add]; omega
          rw [this]; exact Nat.mul_mod_right _ _
        rw [if_pos hz]; exact h1
      · have hz : sz % b = (sz - 1) % b + 1 := by
          have : sz = b * ((sz - 1) / b) + ((sz - 1) % b + 1) := by omega
          conv_lhs => rw [this]
          rw [Nat.mul_add_mod, Nat.mod_eq_of_lt (by omega)]
        rw [if_neg (by omega), hz]
    · rw [if_neg hl, if_pos (by omega)]
  have lo : ∀ {o k : Nat}, o % b = 0 → cpLo o b k = 0 := by
    intro o k ho; unfold cpLo; split <;> simp [ho]
  rw [h.mb, h.nb, key h.i h.mt_eq hm, key h.j h.nt_eq hn, lo h.i, lo h.j]
  simp [rect]

/-- Copying between two matrices cut into the same tiles. -/
def copyTasks (A U V : TMat M) : List (TTask (M × Nat × Nat) α) :=
  (List.range A.d.mt).flatMap fun m => (List.range A.d.nt).map fun n =>
    lacpyRect (cpLo A.d.i A.d.mb m) (cpHi A.d.i A.d.m A.d.mb A.d.mt m)
      (cpLo A.d.j A.d.nb n) (cpHi A.d.j A.d.n A.d.nb A.d.nt n) (U.at' m n) (V.at' m n)

theorem lacpyRect_within {y1 y2 x1 x2 : Nat} {a c : M} {D : M → Prop} (ha : D a) (hc : D c) :
    Within D [lacpyRect (α := α) y1 y2 x1 x2 a c] := by
  constructor
  · intro t ht
    simp only [List.mem_singleton] at ht; subst ht
    exact op1_local (fun A A' _ _ hA _ i j hij => hA i j hij)
  · intro t ht
    simp only [List.mem_singleton] at ht; subst ht
    exact op1_inside (fun _ _ _ => ha) (fun _ _ _ => hc)

theorem copyTasks_good {env : M → MatEnv} {b : Nat} {A U V : TMat M} (hA : A.Al b)
    (hU : Fits env b U) (hV : Fits env b V) (hUm : A.d.m ≤ U.d.m) (hUn : A.d.n ≤ U.d.n)
    (hVm : A.d.m ≤ V.d.m) (hVn : A.d.n ≤ V.d.n) :
    Good (evalid env) (copyTasks (α := α) A U V) := by
  refine Good.flatMap fun m hm => Good.map fun n hn => ?_
  rw [List.mem_range] at hm hn
  refine Good.single ?_ op1_declared ?_
  · exact op1_local (fun A A' _ _ hA _ i j hij => hA i j hij)
  · apply op1_inside
    · intro i j hij
      rw [cp_rect hA hm hn] at hij
      apply hU.valid <;> [have := hij.1; have := hij.2] <;> rw [tdim_row] at * <;> omega
    · intro i j hij
      rw [cp_rect hA hm hn] at hij
      apply hV.valid <;> [have := hij.1; have := hij.2] <;> rw [tdim_row] at * <;> omega

theorem copyTasks_writes {A U V : TMat M} :
    Writes (fun t => t.1 = V.id) (copyTasks (α := α) A U V) :=
  Writes.flatMap fun _ _ => Writes.map fun _ _ => writes_op1 rfl

theorem copyTasks_el {b : Nat} {A U V : TMat M} (hA : A.Al b) (hU : U.Al b) (hV : V.Al b)
    (hne : U.id ≠ V.id) (s : Store (M × Nat × Nat) α) {r c : Nat} (hr : r < A.d.m) (hc : c < A.d.n) :
    V.el (texec (copyTasks A U V) s) r c = U.el s r c := by
  have hb := hA.pos
  unfold copyTasks
  have e : ∀ m, (List.range A.d.nt).map (fun n =>
      lacpyRect (α := α) (cpLo A.d.i A.d.mb m) (cpHi A.d.i A.d.m A.d.mb A.d.mt m)
      (cpLo A.d.j A.d.nb n) (cpHi A.d.j A.d.n A.d.nb A.d.nt n) (U.at' m n) (V.at' m n)) =
      (List.range A.d.nt).flatMap (fun n =>
      [lacpyRect (α := α) (cpLo A.d.i A.d.mb m) (cpHi A.d.i A.d.m A.d.mb A.d.mt m)
      (cpLo A.d.j A.d.nb n) (cpHi A.d.j A.d.n A.d.nb A.d.nt n) (U.at' m n) (V.at' m n)]) := by
    intro m; rw [List.map_eq_flatMap]
  simp only [e]
  rw [flatMap_product]
  simp only [TMat.el, hV.mb, hV.nb, hU.mb, hU.nb]
  have hm := hA.row_mt hr
  have hn := hA.col_nt hc
  rw [texec_indep (D := fun p t => t = U.at' p.1 p.2 ∨ t = V.at' p.1 p.2) ?_ ?_ ?_ s
    (x := (r / b, c / b)) ?_ (Or.inr rfl)]
  · simp only [texec_cons, texec_nil]
    unfold lacpyRect
    rw [op1_self, paste_in]
    rw [cp_rect hA hm hn]
    exact ⟨mod_lt_tdim hb hr, mod_lt_tdim hb hc⟩
  · exact List.nodup_range.product List.nodup_range
  · intro p _
    exact lacpyRect_within (Or.inl rfl) (Or.inr rfl)
  · intro p _ q _ hpq
    apply writes_op1
    rintro (h | h)
    · exact TMat.at'_ne hne.symm h
    · rw [TMat.at'_inj] at h
      exact hpq (Prod.ext h.1 h.2)
  · simp only [SProd.sprod]
    rw [List.pair_mem_product]
    simp [hm, hn]

/-! ### The kernel and its accumulation loops -/

section ring
variable [CommRing α] [StarRing α]

theorem coreGemm_local {ta tb : Trans} {m n k : Nat} {alpha beta : α} {a b c : M} :
    (coreGemm ta tb m n k alpha a b beta c).Local := by
  apply op2_local
  intro A A' B B' C C' hA hB hC i j hij
  rw [hC i j hij]
  congr 2
  apply Finset.sum_congr rfl
  intro l hl
  rw [mem_range] at hl
  congr 1
  · cases ta <;> simp only [opE] <;> rw [hA] <;> simp [box] <;> first | exact ⟨hij.1, hl⟩ | exact ⟨hl, hij.1⟩
  · cases tb <;> simp only [opE] <;> rw [hB] <;> simp [box] <;> first | exact ⟨hij.2, hl⟩ | exact ⟨hl, hij.2⟩

/-- The accumulation loop: the first call applies `beta`, the others add. -/
theorem gemm_acc {ta tb : Trans} {m n : Nat} {kd : Nat → Nat} {alpha beta : α} {fa fb : Nat → M} {c : M}
    (ha : ∀ k, fa k ≠ c) (hb : ∀ k, fb k ≠ c) (s : Store M α) (K : Nat) {i j : Nat}
    (hij : box m n i j) :
    texec ((List.range K).map fun k =>
      coreGemm ta tb m n (kd k) alpha (fa k) (fb k) (if k = 0 then beta else 1) c) s c i j =
    if K = 0 then s c i j else
      beta * s c i j + alpha * ∑ k ∈ range K, ∑ l ∈ range (kd k), opE ta (s (fa k)) i l * opE tb (s (fb k)) l j := by
  induction K with
  | zero => simp
  | succ K ih =>
    rw [List.range_succ, List.map_append, texec_append]
    simp only [List.map_cons, List.map_nil, texec_cons, texec_nil]
    have hw : Writes (fun t => t = c) ((List.range K).map fun k =>
      coreGemm ta tb m n (kd k) alpha (fa k) (fb k) (if k = 0 then beta else 1) c) :=
      Writes.map fun _ _ => writes_op2 rfl
    conv_lhs => unfold coreGemm
    rw [op2_self, paste_in hij]
    have e : ∀ t, t ≠ c → texec ((List.range K).map fun k =>
      op2 (fa k) (if ta = .noTrans then box m (kd k) else box (kd k) m) (fb k)
        (if tb = .noTrans then box (kd k) n else box n (kd k))
        c (box m n)
        fun A B C i j => (if k = 0 then beta else 1) * C i j + alpha * ∑ l ∈ range (kd k), opE ta A i l * opE tb B l j) s t = s t :=
      fun t ht => hw.frame s ht
    rw [e _ (ha K), e _ (hb K)]
    have ih' := ih
    unfold coreGemm at ih'
    rw [ih', sum_range_succ]
    by_cases hK : K = 0
    · subst hK; simp
    · simp only [hK, if_false, Nat.succ_ne_zero]
      ring

end ring

end Verif.Tile

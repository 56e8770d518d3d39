/-
Triangular band solve with row interchanges: compute/pztbsm.c with `ipiv != NULL`.
-/
import Verif.Tbsm
import Verif.Phase
import Verif.GbtrfGood
import Verif.LuSolve

namespace Verif.Tile

open Verif.Layout Verif.LU Verif.Panel Finset

set_option linter.unusedSectionVars false

universe u v

variable {M : Type u} {α : Type v}

section model
variable [CommRing α] [StarRing α] [DecidableEq α]

/-- The interchanges done by the master thread after a `taskwait`: `plasma_core_zgeswp` on the
view of all rows of tile column `n` of `B` with the pivots of tile row `k`
(compute/pztbsm.c:121-131 and 188-199).  The view has `A.m` rows; `A.m = B.m` in all callers. -/
def tbSwp (E : IntCode α) (A B P : TMat M) (fwd : Bool) (k n : Nat) : TTask (M × Nat × Nat) α :=
  swpRows [] E B P 0 (n * A.d.nb) (n * A.d.nb + B.d.nview n) fwd (k * A.d.nb + 1) (k * A.d.nb + B.d.mview k)

/-- `plasma_pztbsm(PlasmaLeft, PlasmaLower, t, d, alpha, A, B, ipiv)` with `ipiv != NULL`
(compute/pztbsm.c:110-202).  The phases express the `taskwait`s: what is created before a
`taskwait` is complete before the interchanges done by the master, and what is created after them
starts later.  The first phase used for tasks is `φ`. -/
def pztbsmP (φ : Nat) (E : IntCode α) (dv : α → α → α) (t : Trans) (d : Diag) (alpha : α) (A B P : TMat M) :
    List (TTask (M × Nat × Nat) α) :=
  if t = .noTrans then
    (List.range B.d.mt).flatMap fun k =>
      ((List.range B.d.nt).flatMap fun n =>
        [phT (φ + 2 * (k * B.d.nt + n) + 1) (tbSwp E A B P true k n),
         phT (φ + 2 * (k * B.d.nt + n) + 2)
          (coreTrsm dv .left .lower t d (B.d.mview k) (B.d.nview n) (if k = 0 then alpha else 1)
            (A.at' k k) (B.at' k n))]) ++
      (span (k+1) (min (k+A.d.klt) A.d.mt)).flatMap fun m => (List.range B.d.nt).map fun n =>
        phT (φ + 2 * ((k + 1) * B.d.nt))
          (coreGemm .noTrans .noTrans (B.d.mview m) (B.d.nview n) B.d.mb (-1)
            (A.at' m k) (B.at' k n) (if k = 0 then alpha else 1) (B.at' m n))
  else
    (List.range B.d.mt).flatMap fun k =>
      ((span (B.d.mt-k-1+1) (min (B.d.mt-k-1+A.d.klt) A.d.mt)).flatMap fun m =>
        (List.range B.d.nt).map fun n =>
          phT (φ + 2 * (k * B.d.nt))
            (coreGemm t .noTrans (B.d.mview (B.d.mt-k-1)) (B.d.nview n) (B.d.mview m) (-1)
              (A.at' m (B.d.mt-k-1)) (B.at' m n) (if k = 0 then alpha else 1) (B.at' (B.d.mt-k-1) n))) ++
      (List.range B.d.nt).flatMap fun n =>
        [phT (φ + 2 * (k * B.d.nt + n))
          (coreTrsm dv .left .lower t d (B.d.mview (B.d.mt-k-1)) (B.d.nview n) (if k = 0 then alpha else 1)
            (A.at' (B.d.mt-k-1) (B.d.mt-k-1)) (B.at' (B.d.mt-k-1) n)),
         phT (φ + 2 * (k * B.d.nt + n) + 1) (tbSwp E A B P false (B.d.mt-k-1) n)]

end model

section
variable [DecidableEq M] [Field α] [StarRing α] [DecidableEq α] {b N Nn kl ku : Nat} {E : IntCode α} {A B P : TMat M}
  {dv : α → α → α} {ib mpt : Nat} {t : Trans}

/-- The descriptors of a solve. -/
structure TbOK (b N Nn kl ku : Nat) (A B P : TMat M) (ib mpt : Nat) : Prop where
  g : GbOK b N kl ku A P ib mpt
  b : B.Al b
  m : B.d.m = N
  n : B.d.n = Nn
  ab : A.id ≠ B.id
  bp : B.id ≠ P.id

theorem TbOK.mt (h : TbOK b N Nn kl ku A B P ib mpt) : B.d.mt = ceilDiv N b := by rw [h.b.mt_eq, h.m]
theorem TbOK.nt (h : TbOK b N Nn kl ku A B P ib mpt) : B.d.nt = ceilDiv Nn b := by rw [h.b.nt_eq, h.n]
theorem TbOK.amt (h : TbOK b N Nn kl ku A B P ib mpt) : A.d.mt = ceilDiv N b := by rw [h.g.a.mt_eq, h.g.m]
theorem TbOK.mv (h : TbOK b N Nn kl ku A B P ib mpt) {k : Nat} (hk : k < ceilDiv N b) : B.d.mview k = tdim N b k := by
  rw [h.b.mview (by rw [h.mt]; exact hk), h.m]
theorem TbOK.nv (h : TbOK b N Nn kl ku A B P ib mpt) {k : Nat} (hk : k < ceilDiv Nn b) : B.d.nview k = tdim Nn b k := by
  rw [h.b.nview (by rw [h.nt]; exact hk), h.n]

theorem tdim_min {N b k : Nat} : tdim N b k = min b (N - k * b) := by
  have : ∀ i, i < tdim N b k ↔ i < min b (N - k * b) := by
    intro i; rw [tdim_row]; omega
  have h1 := this (tdim N b k)
  have h2 := this (min b (N - k * b))
  omega

/-- Effect of the interchanges on one tile column. -/
theorem tbSwp_eff (h : TbOK b N Nn kl ku A B P ib mpt) {k n : Nat} (hk : k < ceilDiv N b) (hn : n < ceilDiv Nn b)
    (fwd : Bool) (s : Store (M × Nat × Nat) α) (hp : PvOK E P N N s) :
    let s' := (tbSwp E A B P fwd k n).run s
    let ρ := perm (pv E P s) (k * b) (min N (k * b + b) - k * b)
    (∀ r c, r < N → c < Nn → c / b = n → B.el s' r c = B.el s ((if fwd then ρ else ρ⁻¹) r) c) ∧
    (∀ r c, c / b ≠ n → B.el s' r c = B.el s r c) ∧
    (∀ x, x.1 ≠ B.id → s' x = s x) := by
  intro s' ρ
  have hb := h.b.pos
  have hkm := (lt_ceilDiv hb).mp hk
  have hmv := h.mv hk
  have hnv := h.nv hn
  rw [tdim_min] at hmv hnv
  obtain ⟨e1, e2, e3⟩ := swpRows_eff (E := E) (P := P) h.b [] (lo := 0) (c0 := n * A.d.nb)
    (c1 := n * A.d.nb + B.d.nview n) (k1 := k * A.d.nb + 1) (k2 := k * A.d.nb + B.d.mview k) (fwd := fwd) s
  have hρ : permL (swpOrd fwd (k * A.d.nb + 1) (k * A.d.nb + B.d.mview k)) (pivAt E P 0 B.d.m s) =
      if fwd then ρ else ρ⁻¹ := by
    have hpe : permL (List.range' (k * b) (min N (k * b + b) - k * b)) (pivAt E P 0 N s) = ρ := by
      rw [permL_range']
      apply perm_congr
      intro i h1 h2
      refine pivAt_of ⟨Nat.zero_le _, ?_⟩
      exact (hp i (by omega)).2.2
    unfold swpOrd
    rw [h.g.a.nb, h.m, hmv, show k * b + 1 - 1 = k * b by omega,
      show k * b + min b (N - k * b) - k * b = min N (k * b + b) - k * b by omega]
    cases fwd
    · rw [if_neg (by simp), if_neg (by simp), permL_reverse, hpe]
    · rw [if_pos rfl, if_pos rfl, hpe]
  refine ⟨?_, ?_, e3⟩
  · intro r c hr hc hcn
    have h1 := Nat.div_mul_le_self c b
    have h2 := lt_succ_div_mul hb c
    rw [hcn] at h1 h2
    rw [Nat.add_mul, Nat.one_mul] at h2
    rw [← hρ]
    exact e1 r c (Nat.zero_le _) (by rw [h.m]; exact hr) (by rw [h.g.a.nb]; exact h1) (by rw [h.g.a.nb, hnv]; omega)
  · intro r c hcn
    apply e2
    rintro ⟨_, _, h3, h4⟩
    rw [h.g.a.nb] at h3 h4
    exact hcn (div_tile h3 (by omega))

/-- Interchanges in all columns. -/
theorem tbSwps_eff (h : TbOK b N Nn kl ku A B P ib mpt) {k : Nat} (hk : k < ceilDiv N b)
    (fwd : Bool) (s : Store (M × Nat × Nat) α) (hp : PvOK E P N N s) :
    let s' := texec ((List.range (ceilDiv Nn b)).map fun n => tbSwp E A B P fwd k n) s
    let ρ := perm (pv E P s) (k * b) (min N (k * b + b) - k * b)
    (∀ r c, r < N → c < Nn → B.el s' r c = B.el s ((if fwd then ρ else ρ⁻¹) r) c) ∧
    (∀ x, x.1 ≠ B.id → s' x = s x) := by
  intro s' ρ
  have hb := h.b.pos
  have key : ∀ J, J ≤ ceilDiv Nn b →
      (∀ r c, r < N → c < Nn → c / b < J → B.el (texec ((List.range J).map fun n => tbSwp E A B P fwd k n) s) r c =
        B.el s ((if fwd then ρ else ρ⁻¹) r) c) ∧
      (∀ r c, J ≤ c / b → B.el (texec ((List.range J).map fun n => tbSwp E A B P fwd k n) s) r c = B.el s r c) ∧
      (∀ x, x.1 ≠ B.id → texec ((List.range J).map fun n => tbSwp E A B P fwd k n) s x = s x) := by
    intro J
    induction J with
    | zero => exact fun _ => ⟨fun _ _ _ _ hh => absurd hh (Nat.not_lt_zero _), fun _ _ _ => rfl, fun _ _ => rfl⟩
    | succ J ih =>
      intro hJ
      obtain ⟨i1, i2, i3⟩ := ih (by omega)
      rw [List.range_succ, List.map_append, texec_append]
      simp only [List.map_cons, List.map_nil, texec_cons, texec_nil]
      set s1 := texec ((List.range J).map fun n => tbSwp E A B P fwd k n) s with hs1
      have hPel : ∀ i, P.el s1 i 0 = P.el s i 0 := fun i => by
        unfold TMat.el; rw [i3 _ h.bp.symm]
      have hpv : pv E P s1 = pv E P s := by
        funext i; unfold pv; rw [hPel]
      have hp1 : PvOK E P N N s1 := by
        intro i hi
        have := hp i hi
        rw [hpv, hPel]
        exact this
      obtain ⟨e1, e2, e3⟩ := tbSwp_eff h hk (show J < ceilDiv Nn b by omega) fwd s1 hp1
      rw [hpv] at e1
      refine ⟨?_, ?_, ?_⟩
      · intro r c hr hc hcJ
        by_cases hcj : c / b = J
        · rw [e1 r c hr hc hcj, i2 _ _ (by omega)]
        · rw [e2 r c hcj, i1 r c hr hc (by omega)]
      · intro r c hcJ
        rw [e2 r c (by omega), i2 r c (by omega)]
      · intro x hx
        rw [e3 x hx, i3 x hx]
  obtain ⟨k1, k2, k3⟩ := key _ (le_refl _)
  refine ⟨fun r c hr hc => k1 r c hr hc ?_, k3⟩
  rw [lt_ceilDiv hb]; have := Nat.div_mul_le_self c b; omega

/-- Interchanges and solves in different tile columns do not touch the same storage. -/
theorem tb_noconf (h : TbOK b N Nn kl ku A B P ib mpt) {k n n' : Nat} (hne : n ≠ n') (hn : n < ceilDiv Nn b)
    {u : Uplo} {d : Diag} {mm nn : Nat} {al : α} {fwd : Bool} :
    ¬ TConflict (tbSwp E A B P fwd k n) (coreTrsm dv .left u t d mm nn al (A.at' k k) (B.at' k n')) := by
  have hnv := h.nv hn
  rw [tdim_min] at hnv
  have hw : ∀ x i j, (tbSwp E A B P fwd k n).wr x i j → ∃ m, x = B.at' m n := by
    intro x i j hx
    obtain ⟨r, c, hR, rfl⟩ := reg_tile (R := fun r c => 0 ≤ r ∧ r < B.d.m ∧ n * A.d.nb ≤ c ∧ c < n * A.d.nb + B.d.nview n) h.b hx
    rw [h.g.a.nb] at hR
    exact ⟨r / b, by rw [div_tile hR.2.2.1 (by omega)]⟩
  rintro ⟨x, i, j, ⟨h1, h2 | h2⟩ | ⟨h1, h2⟩⟩
  · obtain ⟨m, rfl⟩ := hw _ _ _ h1
    obtain ⟨e, _⟩ := h2
    exact h.ab (congrArg Prod.fst e).symm
  · obtain ⟨m, rfl⟩ := hw _ _ _ h1
    obtain ⟨e, _⟩ := h2
    exact hne (TMat.at'_inj.mp e).2
  · obtain ⟨e, _⟩ := h2
    subst e
    exact h.bp h1.1

theorem tbSwp_local (h : TbOK b N Nn kl ku A B P ib mpt) {k n : Nat} (hk : k < ceilDiv N b) {fwd : Bool} :
    (tbSwp E A B P fwd k n).Local := by
  refine swpRows_local h.b h.g.p (Nat.zero_le _) ?_
  have := h.mv hk
  rw [tdim_min] at this
  have hkm := (lt_ceilDiv h.b.pos).mp hk
  rw [h.g.a.nb, this, h.m]
  omega

theorem tconflict_symm {t t' : TTask M α} (h : TConflict t t') : TConflict t' t := by
  obtain ⟨a, i, j, ⟨h1, h2 | h2⟩ | ⟨h1, h2⟩⟩ := h
  · exact ⟨a, i, j, Or.inr ⟨h2, h1⟩⟩
  · exact ⟨a, i, j, Or.inl ⟨h2, Or.inr h1⟩⟩
  · exact ⟨a, i, j, Or.inl ⟨h2, Or.inl h1⟩⟩

/-! ### The lower factor -/

/-- A step of the forward solve, without phases: all interchanges, then a step of the band solve
without interchanges. -/
def fwStep (E : IntCode α) (dv : α → α → α) (d : Diag) (A B P : TMat M) (b N Nn k : Nat) :
    List (TTask (M × Nat × Nat) α) :=
  ((List.range (ceilDiv Nn b)).map fun n => tbSwp E A B P true k n) ++
    tbStep dv .lower .noTrans d 1 A B b N Nn A.d.klt k

/-- A step of the backward solve: a step of the band solve, then all interchanges. -/
def bwStep (E : IntCode α) (dv : α → α → α) (t : Trans) (d : Diag) (A B P : TMat M) (b N Nn k : Nat) :
    List (TTask (M × Nat × Nat) α) :=
  tlStep dv t d 1 A B b N Nn A.d.klt k ++
    ((List.range (ceilDiv Nn b)).map fun n => tbSwp E A B P false (ceilDiv N b - 1 - k) n)

theorem texec_flatMap_congr {ι : Type*} {l : List ι} {f g : ι → List (TTask M α)}
    (h : ∀ x ∈ l, ∀ s, texec (f x) s = texec (g x) s) (s : Store M α) :
    texec (l.flatMap f) s = texec (l.flatMap g) s := by
  induction l generalizing s with
  | nil => rfl
  | cons x l ih =>
    rw [List.flatMap_cons, List.flatMap_cons, texec_append, texec_append, h x List.mem_cons_self,
      ih fun y hy => h y (List.mem_cons_of_mem _ hy)]

theorem pairwise_lt_range {n : Nat} {R : Nat → Nat → Prop} (h : ∀ i j, i < j → j < n → R i j) :
    (List.range n).Pairwise R :=
  List.Pairwise.imp_of_mem (fun _ hb hab => h _ _ hab (List.mem_range.mp hb)) List.pairwise_lt_range


theorem phT_flatMap {ι κ : Type*} {l : List ι} {q : List κ} {p : Nat} {g : ι → κ → TTask M α} (s : Store M α) :
    texec (l.flatMap fun m => q.map fun n => phT p (g m n)) s = texec (l.flatMap fun m => q.map (g m)) s := by
  refine texec_flatMap_congr (fun m _ s => ?_) s
  have e : (q.map fun n => phT p (g m n)) = (q.map (g m)).map (phT p) := by rw [List.map_map]; rfl
  rw [e, texec_phT]

theorem tbStep_lower (h : TbOK b N Nn kl ku A B P ib mpt) {k : Nat} (hk : k < ceilDiv N b) {d : Diag} :
    ((List.range (ceilDiv Nn b)).map fun n =>
          coreTrsm dv .left .lower .noTrans d (B.d.mview k) (B.d.nview n) (if k = 0 then (1 : α) else 1) (A.at' k k) (B.at' k n)) ++
        (span (k+1) (min (k+A.d.klt) (ceilDiv N b))).flatMap (fun m => (List.range (ceilDiv Nn b)).map fun n =>
          coreGemm .noTrans .noTrans (B.d.mview m) (B.d.nview n) b (-1)
            (A.at' m k) (B.at' k n) (if k = 0 then (1 : α) else 1) (B.at' m n)) =
      tbStep dv .lower .noTrans d 1 A B b N Nn A.d.klt k := by
  simp only [tbStep, ← List.map_eq_flatMap, tbIdx, tbJs, bkt, if_true, if_false, reduceCtorEq, and_true, and_false,
    List.map_append, List.map_map, List.map_flatMap, List.map_cons, List.flatMap_map, Nat.min_comm (k + A.d.klt)]
  refine congrArg₂ _ (List.map_congr_left fun n hn => ?_)
      (List.flatMap_congr fun m hm => List.map_congr_left fun n hn => ?_)
  all_goals
    simp only [List.mem_range, mem_span] at *
    simp only [Function.comp, trTask, trB, trLa, trGa, trGb, trFwd, opLow, ord, if_true, if_false,
      reduceCtorEq, decide_true, decide_false, Bool.not_true, Bool.not_false, beq_self_eq_true,
      and_true, and_false, ne_eq, not_true_eq_false, not_false_eq_true, Bool.false_eq_true,
      Bool.true_beq, Bool.false_beq]
  all_goals
    first
      | rw [if_neg (show ¬ m = k by omega)]
      | skip
    congr 1 <;> first
      | exact h.mv (by omega)
      | exact h.nv (by omega)
      | (symm; apply tdim_full (K := ceilDiv N b) h.b.pos rfl; omega)

theorem pztbsmP_fw (h : TbOK b N Nn kl ku A B P ib mpt) (φ : Nat) (d : Diag) (s : Store (M × Nat × Nat) α) :
    texec (pztbsmP φ E dv .noTrans d 1 A B P) s =
      texec ((List.range (ceilDiv N b)).flatMap (fwStep E dv d A B P b N Nn)) s := by
  unfold pztbsmP
  rw [if_pos rfl, h.mt, h.nt, h.amt, h.b.mb]
  refine texec_flatMap_congr (fun k hk s => ?_) s
  rw [List.mem_range] at hk
  rw [texec_append]
  have e1 : texec ((List.range (ceilDiv Nn b)).flatMap fun n =>
        [phT (φ + 2 * (k * ceilDiv Nn b + n) + 1) (tbSwp E A B P true k n),
         phT (φ + 2 * (k * ceilDiv Nn b + n) + 2)
          (coreTrsm dv .left .lower .noTrans d (B.d.mview k) (B.d.nview n) (if k = 0 then (1 : α) else 1)
            (A.at' k k) (B.at' k n))]) s =
      texec (((List.range (ceilDiv Nn b)).map fun n => tbSwp E A B P true k n) ++
        (List.range (ceilDiv Nn b)).map fun n =>
          coreTrsm dv .left .lower .noTrans d (B.d.mview k) (B.d.nview n) (if k = 0 then (1 : α) else 1) (A.at' k k) (B.at' k n)) s := by
    rw [← texec_unzip]
    · refine texec_flatMap_congr (fun n _ s => ?_) s
      rfl
    · refine pairwise_lt_range fun i j hij hj s => ?_
      refine run_comm coreTrsm_local (tbSwp_local h hk) (fun hc => ?_) s
      exact tb_noconf h (by omega) hj (tconflict_symm hc)
  rw [e1, phT_flatMap, fwStep, texec_append, ← texec_append, tbStep_lower h hk, ← texec_append]

theorem bsum_Ico {β : Type v} [AddCommMonoid β] {N b t : Nat} (f : Nat → β) :
    bsum N b t f = ∑ l ∈ Ico (t * b) (min N (t * b + b)), f l := by
  unfold bsum
  rw [tdim_min, Finset.sum_Ico_eq_sum_range, show min b (N - t * b) = min N (t * b + b) - t * b by omega]

theorem sum_bsum_Ico {β : Type v} [AddCommMonoid β] {N b lo hi : Nat} (f : Nat → β) (h : lo ≤ hi) :
    ∑ m ∈ Ico lo hi, bsum N b m f = ∑ l ∈ Ico (lo * b) (min N (hi * b)), f l := by
  induction hi, h using Nat.le_induction with
  | base => rw [Ico_self, sum_empty, Ico_eq_empty (by omega), sum_empty]
  | succ hi hle ih =>
    have hm := Nat.mul_le_mul_right b hle
    rw [sum_Ico_succ_top hle, ih, bsum_Ico, Nat.add_mul, Nat.one_mul]
    rcases Nat.le_total N (hi * b) with h1 | h1
    · rw [Ico_eq_empty (a := hi * b) (by omega), sum_empty, add_zero]
      congr 2; omega
    · rw [Nat.min_eq_right h1]
      exact sum_Ico_consecutive f hm (by omega)

/-- The sum of a row of a unit triangle. -/
theorem sum_unit {X : Nat → Nat → α} {y : Nat → α} {lo hi r : Nat} (hr : lo ≤ r) :
    ∑ l ∈ Ico lo hi, trE .lower .unit X r l * y l =
      ∑ l ∈ Ico lo (min r hi), X r l * y l + if r < hi then y r else 0 := by
  split
  · rename_i hrh
    rw [Nat.min_eq_left hrh.le, ← sum_Ico_consecutive _ hr hrh.le, sum_eq_sum_Ico_succ_bot hrh]
    have e1 : ∑ l ∈ Ico (r + 1) hi, trE .lower .unit X r l * y l = 0 := sum_eq_zero fun l hl => by
      rw [mem_Ico] at hl
      unfold trE
      rw [if_neg (by omega), if_neg (by simp only [inTri]; omega), zero_mul]
    rw [e1, add_zero]
    congr 1
    · refine sum_congr rfl fun l hl => ?_
      rw [mem_Ico] at hl
      unfold trE
      rw [if_neg (by omega), if_pos (by simp only [inTri]; omega)]
    · unfold trE; rw [if_pos rfl, if_pos rfl, one_mul]
  · rename_i hrh
    rw [Nat.min_eq_right (by omega), add_zero]
    refine sum_congr rfl fun l hl => ?_
    rw [mem_Ico] at hl
    unfold trE
    rw [if_neg (by omega), if_pos (by simp only [inTri]; omega)]

theorem pv_congr {s s' : Store (M × Nat × Nat) α} (h : ∀ i j, s' (P.at' i j) = s (P.at' i j)) : pv E P s' = pv E P s := by
  funext i; unfold pv TMat.el; rw [h]

theorem PvOK.congr {m K : Nat} {s s' : Store (M × Nat × Nat) α} (h : ∀ i j, s' (P.at' i j) = s (P.at' i j)) (hp : PvOK E P m K s) :
    PvOK E P m K s' := by
  intro i hi
  have := hp i hi
  have e : P.el s' i 0 = P.el s i 0 := by unfold TMat.el; rw [h]
  rw [pv_congr h, e]
  exact this

/-- One step of the forward solve. -/
theorem fwStep_el (hdv : IsDiv dv) (h : TbOK b N Nn kl ku A B P ib mpt) {k : Nat} (hk : k < ceilDiv N b)
    (s : Store (M × Nat × Nat) α) (hp : PvOK E P N N s) :
    let s' := texec (fwStep E dv .unit A B P b N Nn k) s
    (∀ r c, r < k * b → c < Nn → B.el s' r c = B.el s r c) ∧
    (∀ r c, k * b ≤ r → r < N → c < Nn → B.el s (perm (pv E P s) (k * b) (min N (k * b + b) - k * b) r) c =
      ∑ l ∈ Ico (k * b) (min r (min N (k * b + b))), gbX b kl ku A s r l * B.el s' l c + B.el s' r c) ∧
    (∀ x, x.1 ≠ B.id → s' x = s x) := by
  have hb := h.b.pos
  have hkm := (lt_ceilDiv hb).mp hk
  have hklt := h.g.klt_pos
  obtain ⟨w1, w2⟩ := tbSwps_eff h hk true s hp
  simp only [if_true] at w1
  dsimp only
  unfold fwStep
  rw [texec_append]
  set s1 := texec ((List.range (ceilDiv Nn b)).map fun n => tbSwp E A B P true k n) s with hs1
  set s' := texec (tbStep dv .lower .noTrans .unit 1 A B b N Nn A.d.klt k) s1 with hs'
  have hA1 : A.el s1 = A.el s := by
    funext r c; unfold TMat.el; rw [w2 _ h.ab]
  have hfr : ∀ x, x.1 ≠ B.id → s' x = s1 x := fun x hx => tbStep_frame hk hklt s1 fun p _ _ _ he =>
    hx (by rw [he, trB_id])
  have hgb : trGb .left .noTrans (1 : α) k = 1 := by simp [trGb]
  have hga : trGa dv .left .noTrans (1 : α) = -1 := by simp [trGa]
  have hla : trLa .left .noTrans (1 : α) k = 1 := by simp [trLa]
  have hord : ∀ j, ord (trFwd .left .lower .noTrans) (ceilDiv N b) j = j := fun j => rfl
  have hin : ∀ j, k ≤ j → j < ceilDiv N b → j < k + A.d.klt → ∀ r c, c < Nn → r / b = j →
      B.el s' r c = B.el (texec (trStep dv .left .lower .noTrans .unit 1 A B b N Nn k) s1) r c := by
    intro j h1 h2 h3 r c hc hrj
    have e := fun S : Store (M × Nat × Nat) α => trEl_tile (sd := .left) (fwd := trFwd .left .lower .noTrans) h.b S
      (K := ceilDiv N b) (c := c) (j := j) (r := r) hrj
    simp only [trEl, if_true] at e
    have hcq : c / b < ceilDiv Nn b := by
      rw [lt_ceilDiv hb]; have := Nat.div_mul_le_self c b; omega
    rw [e, e, hs', tbStep_eq h.ab hk hklt s1 (p := (j, c / b)) h1 h2 h3 hcq]
  have hout : ∀ j, j < ceilDiv N b → j < k ∨ k + A.d.klt ≤ j → ∀ r c, r / b = j → B.el s' r c = B.el s1 r c := by
    intro j hj hj' r c hrj
    have e := fun S : Store (M × Nat × Nat) α => trEl_tile (sd := .left) (fwd := trFwd .left .lower .noTrans) h.b S
      (K := ceilDiv N b) (c := c) (j := j) (r := r) hrj
    simp only [trEl, if_true] at e
    rw [e, e, hs', tbStep_frame hk hklt s1]
    intro p h1 h2 h3 he
    have := congrArg Prod.fst (trB_inj (sd := .left) hj h2 he)
    simp only at this; omega
  have htile : ∀ r, r < N → r / b < ceilDiv N b := fun r hr => by
    rw [lt_ceilDiv hb]; have := Nat.div_mul_le_self r b; omega
  have hpr : ∀ i, i < N → i ≤ pv E P s i ∧ pv E P s i < N := fun i hi => (hp i hi).2
  refine ⟨?_, ?_, fun x hx => (hfr x hx).trans (w2 x hx)⟩
  · intro r c hr hc
    have hrk : r / b < k := (Nat.div_lt_iff_lt_mul hb).mpr hr
    rw [hout (r / b) (by omega) (Or.inl hrk) r c rfl, w1 r c (by omega) hc, perm_fix (fun i _ h3 => (hpr i (by omega)).1) hr]
  · intro r c hr hrN hc
    rw [← w1 r c hrN hc]
    have hkr : k ≤ r / b := (Nat.le_div_iff_mul_le hb).mpr hr
    have hX : ∀ l, l ∈ Ico (k * b) (min r (min N (k * b + b))) → r < (k + A.d.klt) * b → gbX b kl ku A s r l = A.el s1 r l := by
      intro l hl hrk
      rw [mem_Ico] at hl
      unfold gbX
      rw [if_pos ((bTile_col hb hl.1 (by omega) hr h.g.klt).mpr hrk), hA1]
    rcases Nat.lt_or_ge r (k * b + b) with hrb | hrb
    · have hrk : r / b = k := div_tile hr hrb
      have := trStep_solve (sd := .left) (Mm := N) (Nn := Nn) (u := .lower) (t := .noTrans) (d := .unit) (alpha := (1 : α))
        hdv h.g.a h.b h.ab hk hrN hc hrk s1 (fun i _ => by unfold trE; rw [if_pos rfl, if_pos rfl]; exact one_ne_zero)
        (by rw [hla]; exact one_ne_zero)
      rw [hla, one_mul] at this
      simp only [trN, trT, trEl, if_true, opE] at this
      rw [hord] at this
      rw [← this]
      rw [show bsum N b k _ = bsum N b k (fun l => trE .lower .unit (A.el s1) r l * B.el s' l c) from
        bsum_congr fun l hl hlb => by rw [hin k le_rfl hk (by omega) l c hc hlb], bsum_Ico, sum_unit hr, if_pos (by omega)]
      congr 1
      refine sum_congr rfl fun l hl => ?_
      rw [hX l hl]
      have : k * b + b ≤ (k + A.d.klt) * b := by
        rw [Nat.add_mul]; have := Nat.le_mul_of_pos_left b hklt; omega
      omega
    · have hkr' : k < r / b := (Nat.le_div_iff_mul_le hb).mpr (by rw [Nat.succ_mul]; omega)
      by_cases hrk : r < (k + A.d.klt) * b
      · have hj := (Nat.div_lt_iff_lt_mul hb).mpr hrk
        have := trStep_upd (sd := .left) (Mm := N) (Nn := Nn) (dv := dv) (u := .lower) (t := .noTrans) (d := .unit) (alpha := (1 : α))
          h.g.a h.b h.ab hkr' (htile r hrN) hrN hc rfl s1
        rw [hgb, hga] at this
        simp only [trN, trT, trEl, if_true, opE] at this
        rw [← hin _ hkr (htile r hrN) hj r c hc rfl] at this
        rw [this, hord]
        rw [show bsum N b k (fun l => trE .lower .unit (A.el s1) r l *
            B.el (texec (trStep dv .left .lower .noTrans .unit 1 A B b N Nn k) s1) l c) =
            bsum N b k (fun l => trE .lower .unit (A.el s1) r l * B.el s' l c) from
          bsum_congr fun l hl hlb => by rw [hin k le_rfl hk (by omega) l c hc hlb], bsum_Ico, sum_unit hr, if_neg (by omega)]
        rw [show ∑ l ∈ Ico (k * b) (min r (min N (k * b + b))), gbX b kl ku A s r l * B.el s' l c =
          ∑ l ∈ Ico (k * b) (min r (min N (k * b + b))), A.el s1 r l * B.el s' l c from
          sum_congr rfl fun l hl => by rw [hX l hl hrk]]
        ring
      · have hj : k + A.d.klt ≤ r / b := (Nat.le_div_iff_mul_le hb).mpr (by omega)
        rw [hout _ (htile r hrN) (Or.inr hj) r c rfl]
        rw [sum_eq_zero, zero_add]
        intro l hl
        rw [mem_Ico] at hl
        unfold gbX
        rw [if_neg, zero_mul]
        exact fun hh => hrk ((bTile_col hb hl.1 (by omega) hr h.g.klt).mp hh)

theorem min_tile (N k b : Nat) : min N ((k + 1) * b) = min N (k * b + b) := by rw [Nat.add_mul, Nat.one_mul]

/-- The forward solve with the unit lower factor and the interchanges. -/
theorem pztbsmP_fw_el (hdv : IsDiv dv) (h : TbOK b N Nn kl ku A B P ib mpt) (φ : Nat)
    (s : Store (M × Nat × Nat) α) (hp : PvOK E P N N s) :
    let s' := texec (pztbsmP φ E dv .noTrans .unit 1 A B P) s
    (∀ r c, r < N → c < Nn → B.el s (perm (pv E P s) 0 N r) c =
      ∑ l ∈ range r, lazyM (pv E P s) (lzi b) N (gbX b kl ku A s) r l * B.el s' l c + B.el s' r c) ∧
    ∀ x, x.1 ≠ B.id → s' x = s x := by
  have hb := h.b.pos
  dsimp only
  rw [pztbsmP_fw h]
  have key : ∀ K, K ≤ ceilDiv N b →
      (∀ c, c < Nn → FwInv N (pv E P s) (lzi b) (gbX b kl ku A s) (fun r => B.el s r c) (min N (K * b))
        (fun r => B.el (texec ((List.range K).flatMap (fwStep E dv .unit A B P b N Nn)) s) r c)) ∧
      ∀ x, x.1 ≠ B.id → texec ((List.range K).flatMap (fwStep E dv .unit A B P b N Nn)) s x = s x := by
    intro K
    induction K with
    | zero =>
      intro _
      refine ⟨fun c hc => ?_, fun _ _ => rfl⟩
      rw [Nat.zero_mul, Nat.min_zero]
      exact FwInv.init _ _ _ _ _
    | succ K ih =>
      intro hK
      obtain ⟨i1, i2⟩ := ih (by omega)
      have hKm := (lt_ceilDiv hb).mp (show K < ceilDiv N b by omega)
      rw [texec_range_succ]
      set s1 := texec ((List.range K).flatMap (fwStep E dv .unit A B P b N Nn)) s with hs1
      have hPs : ∀ i j, s1 (P.at' i j) = s (P.at' i j) := fun i j => i2 _ h.bp.symm
      have hAs : gbX b kl ku A s1 = gbX b kl ku A s := by
        funext r c; unfold gbX TMat.el; rw [i2 _ h.ab]
      obtain ⟨e1, e2, e3⟩ := fwStep_el hdv h (show K < ceilDiv N b by omega) s1 (hp.congr hPs)
      rw [pv_congr hPs, hAs] at e2
      refine ⟨fun c hc => ?_, fun x hx => (e3 x hx).trans (i2 x hx)⟩
      rw [min_tile]
      have hmin : min N (K * b) = K * b := by omega
      have := i1 c hc
      rw [hmin] at this
      refine FwInv.step this (by omega) (by omega) (fun i hi => (hp i (by omega)).2) ?_ ?_ ?_ ?_
      · intro c hc; exact lzi_le hb hc
      · intro c h1 h2; (unfold lzi; rw [div_tile h1 (by omega), Nat.add_mul, Nat.one_mul]; omega)
      · intro r hr; exact e1 r c hr hc
      · intro r hr hrN; exact e2 r c hr hrN hc
  obtain ⟨k1, k2⟩ := key _ (le_refl _)
  refine ⟨fun r c hr hc => ?_, k2⟩
  have := k1 c hc
  have hN : N ≤ ceilDiv N b * b := Nat.le_of_not_lt fun hlt => by
    have := (lt_ceilDiv hb).mpr hlt; omega
  rw [Nat.min_eq_left hN] at this
  exact this.done hr

/-! ### The transposed lower factor -/

theorem pztbsmP_bw (h : TbOK b N Nn kl ku A B P ib mpt) (φ : Nat) (d : Diag) (ht : t ≠ .noTrans) (s : Store (M × Nat × Nat) α) :
    texec (pztbsmP φ E dv t d 1 A B P) s =
      texec ((List.range (ceilDiv N b)).flatMap (bwStep E dv t d A B P b N Nn)) s := by
  unfold pztbsmP
  rw [if_neg ht, h.mt, h.nt, h.amt]
  refine texec_flatMap_congr (fun k hk s => ?_) s
  rw [List.mem_range] at hk
  simp only [show ceilDiv N b - k - 1 = ceilDiv N b - 1 - k by omega]
  set κ := ceilDiv N b - 1 - k with hκ
  have hκl : κ < ceilDiv N b := by omega
  rw [texec_append, phT_flatMap]
  generalize hs1 : texec _ s = s1
  have e1 : texec ((List.range (ceilDiv Nn b)).flatMap fun n =>
        [phT (φ + 2 * (k * ceilDiv Nn b + n))
          (coreTrsm dv .left .lower t d (B.d.mview κ) (B.d.nview n) (if k = 0 then (1 : α) else 1)
            (A.at' κ κ) (B.at' κ n)),
          phT (φ + 2 * (k * ceilDiv Nn b + n) + 1) (tbSwp E A B P false κ n)]) s1 =
      texec (((List.range (ceilDiv Nn b)).map fun n =>
          coreTrsm dv .left .lower t d (B.d.mview κ) (B.d.nview n) (if k = 0 then (1 : α) else 1) (A.at' κ κ) (B.at' κ n)) ++
        (List.range (ceilDiv Nn b)).map fun n => tbSwp E A B P false κ n) s1 := by
    rw [← texec_unzip]
    · refine texec_flatMap_congr (fun n _ s => ?_) s1
      rfl
    · refine pairwise_lt_range fun i j hij hj s => ?_
      refine run_comm (tbSwp_local h hκl) coreTrsm_local (fun hc => ?_) s
      exact tb_noconf h (by omega) (by omega) hc
  rw [e1, texec_append, bwStep, texec_append]
  congr 1
  unfold tlStep
  rw [← hκ, texec_append, ← hs1]
  have e2 : ((List.range (ceilDiv Nn b)).map fun n =>
          coreTrsm dv .left .lower t d (B.d.mview κ) (B.d.nview n) (if k = 0 then (1 : α) else 1) (A.at' κ κ) (B.at' κ n)) =
      (List.range (ceilDiv Nn b)).flatMap fun n =>
        [coreTrsm dv .left .lower t d (tdim N b κ) (tdim Nn b n) (if k = 0 then (1 : α) else 1) (A.at' κ κ) (B.at' κ n)] := by
    rw [← List.map_eq_flatMap]
    refine List.map_congr_left fun n hn => ?_
    rw [h.mv hκl, h.nv (List.mem_range.mp hn)]
  rw [e2]
  congr 1
  refine congrFun (congrArg texec (List.flatMap_congr fun m hm => ?_)) s
  unfold tlRow
  rw [← List.map_eq_flatMap]
  refine List.map_congr_left fun n hn => ?_
  rw [mem_span] at hm
  rw [h.mv hκl, h.nv (List.mem_range.mp hn), h.mv (by omega)]

/-- The conjugation of the transpose. -/
def opS (t : Trans) (x : α) : α := if t = .conjTrans then star x else x

theorem opE_opS {t : Trans} (ht : t ≠ .noTrans) (X : Nat → Nat → α) (i j : Nat) : opE t X i j = opS t (X j i) := by
  cases t <;> simp [opE, opS] at ht ⊢

theorem opS_zero : opS t (0 : α) = 0 := by unfold opS; split <;> simp
theorem opS_one : opS t (1 : α) = 1 := by unfold opS; split <;> simp

/-- The sum of a column of a unit triangle. -/
theorem sum_unit_col {X : Nat → Nat → α} {y : Nat → α} {lo hi l : Nat} (hl : lo ≤ l) (hlh : l < hi) :
    ∑ r ∈ Ico lo hi, opS t (trE .lower .unit X r l) * y r =
      ∑ r ∈ Ico (l + 1) hi, opS t (X r l) * y r + y l := by
  rw [← sum_Ico_consecutive _ hl hlh.le, sum_eq_sum_Ico_succ_bot hlh]
  have e1 : ∑ r ∈ Ico lo l, opS t (trE .lower .unit X r l) * y r = 0 := sum_eq_zero fun r hr => by
    rw [mem_Ico] at hr
    unfold trE
    rw [if_neg (by omega), if_neg (by simp only [inTri]; omega), opS_zero, zero_mul]
  rw [e1, zero_add, add_comm]
  congr 1
  · refine sum_congr rfl fun r hr => ?_
    rw [mem_Ico] at hr
    unfold trE
    rw [if_neg (by omega), if_pos (by simp only [inTri]; omega)]
  · unfold trE; rw [if_pos rfl, if_pos rfl, opS_one, one_mul]

/-- One step of the backward solve. -/
theorem bwStep_el (hdv : IsDiv dv) (h : TbOK b N Nn kl ku A B P ib mpt) (ht : t ≠ .noTrans) {k : Nat} (hk : k < ceilDiv N b)
    (s : Store (M × Nat × Nat) α) (hp : PvOK E P N N s) :
    let κ := ceilDiv N b - 1 - k
    let s1 := texec (tlStep dv t .unit 1 A B b N Nn A.d.klt k) s
    let s' := texec (bwStep E dv t .unit A B P b N Nn k) s
    (∀ l c, l < N → c < Nn → ¬ (κ * b ≤ l ∧ l < min N (κ * b + b)) → B.el s1 l c = B.el s l c) ∧
    (∀ l c, κ * b ≤ l → l < min N (κ * b + b) → c < Nn →
      B.el s l c = ∑ r ∈ Ico (l + 1) N, opS t (gbX b kl ku A s r l) * B.el s1 r c + B.el s1 l c) ∧
    (∀ r c, r < N → c < Nn → B.el s' r c = B.el s1 ((perm (pv E P s) (κ * b) (min N (κ * b + b) - κ * b)).symm r) c) ∧
    (∀ x, x.1 ≠ B.id → s' x = s x) := by
  intro κ s1 s'
  have hb := h.b.pos
  have hκ : κ < ceilDiv N b := by omega
  have hκm := (lt_ceilDiv hb).mp hκ
  have hklt := h.g.klt_pos
  have hfr : ∀ x, x.1 ≠ B.id → s1 x = s x := fun x hx =>
    (tlStep_writes (dv := dv) (t := t) (d := .unit) (A := A) (B := B) (b := b) (Mm := N) (Nn := Nn) (kt := A.d.klt) (k := k)
      (alpha := (1 : α))).frame s (fun ⟨n, he⟩ => hx (by rw [he]; rfl))
  have hPs : ∀ i j, s1 (P.at' i j) = s (P.at' i j) := fun i j => hfr _ h.bp.symm
  obtain ⟨w1, w2⟩ := tbSwps_eff h hκ false s1 (hp.congr hPs)
  rw [pv_congr hPs] at w1
  simp only [Bool.false_eq_true, if_false] at w1
  have hs' : s' = texec ((List.range (ceilDiv Nn b)).map fun n => tbSwp E A B P false κ n) s1 := by
    show texec (bwStep E dv t .unit A B P b N Nn k) s = _
    unfold bwStep; rw [texec_append]
  have hout : ∀ l c, l / b ≠ κ → B.el s1 l c = B.el s l c := by
    intro l c hl
    unfold TMat.el
    refine congrFun (congrFun ((tlStep_writes (dv := dv) (t := t) (d := .unit) (A := A) (B := B) (b := b) (Mm := N) (Nn := Nn)
      (kt := A.d.klt) (k := k) (alpha := (1 : α))).frame s (fun ⟨n, he⟩ => hl ?_)) _) _
    rw [← h.b.mb]
    exact (TMat.at'_inj.mp he).1
  refine ⟨?_, ?_, ?_, ?_⟩
  · intro l c hl hc hh
    apply hout
    intro he
    have h1 := Nat.div_mul_le_self l b
    have h2 := lt_succ_div_mul hb l
    rw [he] at h1 h2
    rw [Nat.add_mul, Nat.one_mul] at h2
    exact hh ⟨h1, by omega⟩
  · intro l c h1 h2 hc
    have hlk : l / b = κ := div_tile h1 (by omega)
    have := tlStep_el (kt := A.d.klt) (d := .unit) hdv h.g.a h.b h.ab ht hk (show l < N by omega) hc hlk s
      (fun i _ => by unfold trE; rw [if_pos rfl, if_pos rfl]; exact one_ne_zero)
    change bsum N b κ (fun l_1 => opE t (trE .lower .unit (A.el s)) l l_1 * B.el s1 l_1 c) = _ at this
    rw [eq_sub_iff_add_eq] at this
    rw [← this]
    simp only [opE_opS ht]
    rw [bsum_Ico, sum_unit_col h1 h2, sum_bsum_Ico _ (by omega)]
    have e2 : ∑ r ∈ Ico ((κ + 1) * b) (min N (min (κ + A.d.klt) (ceilDiv N b) * b)), opS t (trE .lower .unit (A.el s) r l) * B.el s r c =
        ∑ r ∈ Ico (min N (κ * b + b)) N, opS t (gbX b kl ku A s r l) * B.el s1 r c := by
      have e3 : ∑ r ∈ Ico ((κ + 1) * b) (min N (min (κ + A.d.klt) (ceilDiv N b) * b)), opS t (trE .lower .unit (A.el s) r l) * B.el s r c =
          ∑ r ∈ Ico ((κ + 1) * b) (min N (min (κ + A.d.klt) (ceilDiv N b) * b)), opS t (gbX b kl ku A s r l) * B.el s1 r c := by
        refine sum_congr rfl fun r hr => ?_
        rw [mem_Ico, Nat.add_mul, Nat.one_mul] at hr
        have hrk : κ + 1 ≤ r / b := (Nat.le_div_iff_mul_le hb).mpr (by rw [Nat.add_mul]; omega)
        have hle := Nat.mul_le_mul_right b (Nat.min_le_left (κ + A.d.klt) (ceilDiv N b))
        unfold trE gbX
        rw [if_neg (by omega), if_pos (by simp only [inTri]; omega),
          if_pos ((bTile_col hb h1 (by omega) (by omega) h.g.klt).mpr (by omega)), hout r c (by omega)]
      rw [e3]
      have hNc : N ≤ ceilDiv N b * b := Nat.le_of_not_lt fun hlt => by
        have := (lt_ceilDiv hb).mpr hlt; omega
      apply sum_subset
      · intro r hr
        rw [mem_Ico] at hr ⊢
        rw [Nat.add_mul] at hr; omega
      · intro r hr hr'
        rw [mem_Ico] at hr hr'
        rw [Nat.add_mul, Nat.one_mul] at hr'
        have hge : ¬ r < (κ + A.d.klt) * b := by
          intro hlt
          apply hr'
          refine ⟨by omega, ?_⟩
          rcases Nat.le_total (κ + A.d.klt) (ceilDiv N b) with hx | hx
          · rw [Nat.min_eq_left hx]; omega
          · rw [Nat.min_eq_right hx]; omega
        unfold gbX
        rw [if_neg, opS_zero, zero_mul]
        exact fun hh => hge ((bTile_col hb h1 (by omega) (by omega) h.g.klt).mp hh)
    rw [e2, ← sum_Ico_consecutive (fun r => opS t (gbX b kl ku A s r l) * B.el s1 r c) (show l + 1 ≤ min N (κ * b + b) by omega)
      (Nat.min_le_left _ _)]
    rw [show ∑ r ∈ Ico (l + 1) (min N (κ * b + b)), opS t (gbX b kl ku A s r l) * B.el s1 r c =
      ∑ r ∈ Ico (l + 1) (min N (κ * b + b)), opS t (A.el s r l) * B.el s1 r c from sum_congr rfl fun r hr => by
        rw [mem_Ico] at hr
        unfold gbX
        rw [if_pos]
        rw [bTile_col hb h1 (by omega) (by omega) h.g.klt, Nat.add_mul]
        have := Nat.le_mul_of_pos_left b hklt
        omega]
    ring
  · intro r c hr hc
    rw [hs']; exact w1 r c hr hc
  · intro x hx
    rw [hs', w2 x hx, hfr x hx]

/-- The backward solve with the transposed unit lower factor and the interchanges undone. -/
theorem pztbsmP_bw_el (hdv : IsDiv dv) (h : TbOK b N Nn kl ku A B P ib mpt) (φ : Nat) (ht : t ≠ .noTrans)
    (s : Store (M × Nat × Nat) α) (hp : PvOK E P N N s) :
    let s' := texec (pztbsmP φ E dv t .unit 1 A B P) s
    (∀ l c, l < N → c < Nn → B.el s l c =
      ∑ r ∈ Ico (l + 1) N, opS t (lazyM (pv E P s) (lzi b) N (gbX b kl ku A s) r l) * B.el s' (perm (pv E P s) 0 N r) c +
        B.el s' (perm (pv E P s) 0 N l) c) ∧
    ∀ x, x.1 ≠ B.id → s' x = s x := by
  have hb := h.b.pos
  dsimp only
  rw [pztbsmP_bw h _ _ ht]
  have hNc : N ≤ ceilDiv N b * b := Nat.le_of_not_lt fun hlt => by
    have := (lt_ceilDiv hb).mpr hlt; omega
  have key : ∀ K, K ≤ ceilDiv N b →
      (∀ c, c < Nn → BwInv N (opS t) (pv E P s) (lazyM (pv E P s) (lzi b) N (gbX b kl ku A s)) (fun r => B.el s r c)
        (min N ((ceilDiv N b - K) * b))
        (fun r => B.el (texec ((List.range K).flatMap (bwStep E dv t .unit A B P b N Nn)) s) r c)) ∧
      ∀ x, x.1 ≠ B.id → texec ((List.range K).flatMap (bwStep E dv t .unit A B P b N Nn)) s x = s x := by
    intro K
    induction K with
    | zero =>
      intro _
      refine ⟨fun c hc => ?_, fun _ _ => rfl⟩
      rw [Nat.sub_zero, Nat.min_eq_left hNc]
      exact BwInv.init _ _ _ _ _
    | succ K ih =>
      intro hK
      obtain ⟨i1, i2⟩ := ih (by omega)
      rw [texec_range_succ]
      set s1 := texec ((List.range K).flatMap (bwStep E dv t .unit A B P b N Nn)) s with hs1
      have hPs : ∀ i j, s1 (P.at' i j) = s (P.at' i j) := fun i j => i2 _ h.bp.symm
      have hAs : gbX b kl ku A s1 = gbX b kl ku A s := by
        funext r c; unfold gbX TMat.el; rw [i2 _ h.ab]
      obtain ⟨e1, e2, e3, e4⟩ := bwStep_el hdv h ht (show K < ceilDiv N b by omega) s1 (hp.congr hPs)
      rw [pv_congr hPs] at e3
      rw [hAs] at e2
      refine ⟨fun c hc => ?_, fun x hx => (e4 x hx).trans (i2 x hx)⟩
      set κ := ceilDiv N b - 1 - K with hκ
      have hκm := (lt_ceilDiv hb).mp (show κ < ceilDiv N b by omega)
      have hI := i1 c hc
      rw [show ceilDiv N b - K = κ + 1 by omega, min_tile] at hI
      rw [show ceilDiv N b - (K + 1) = κ by omega, Nat.min_eq_right hκm.le]
      refine BwInv.step (v1 := fun r => B.el (texec (tlStep dv t .unit 1 A B b N Nn A.d.klt K) s1) r c)
        (X := gbX b kl ku A s) hI (by omega) (by omega) (fun i hi => (hp i hi).2) ?_ ?_ ?_ ?_
      · intro r c' h1 h2 _ _
        unfold lazyM
        rw [if_pos (by omega)]
        have : lzi b c' = κ * b + b := by
          unfold lzi
          rw [div_tile h1 (by omega), Nat.add_mul, Nat.one_mul]
        rw [this]
        rcases Nat.le_total N (κ * b + b) with hx | hx
        · rw [Nat.min_eq_left hx, Nat.sub_eq_zero_of_le hx, Nat.sub_self]; rfl
        · rw [Nat.min_eq_right hx]
      · intro l h1 h2
        exact (hI.2 l h2).symm.trans (e2 l c h1 h2 hc)
      · intro l hl hh
        exact e1 l c hl hc hh
      · intro r hr
        exact e3 r c hr hc
  obtain ⟨k1, k2⟩ := key _ (le_refl _)
  refine ⟨fun l c hl hc => ?_, k2⟩
  have := (k1 c hc).1 l (by rw [Nat.sub_self, Nat.zero_mul, Nat.min_zero]; omega) hl
  rw [Nat.sub_self, Nat.zero_mul, Nat.min_zero, Nat.sub_zero] at this
  exact this

/-! ### Schedules -/

variable {env : M → MatEnv}

/-- Tile `(m, n)` of a triangle inside the tile band. -/
theorem inBandT_lower (h : GbOK b N kl ku A P ib mpt) {m n : Nat} (hm : inBandT .lower (bkt .lower A.d) m n) :
    bTile none b kl ku m n := by
  simp only [inBandT, bkt, reduceCtorEq, if_false, if_true] at hm
  rw [h.klt] at hm
  exact bTile_idx h.a.pos (k := n) (by omega) (by omega) le_rfl (by generalize (ku + kl + b - 1) / b = x; omega)

theorem inBandT_upper (h : GbOK b N kl ku A P ib mpt) {m n : Nat} (hm : inBandT .upper (bkt .upper A.d) m n) :
    bTile none b kl ku m n := by
  simp only [inBandT, bkt, reduceCtorEq, if_false, if_true] at hm
  rw [h.kut] at hm
  exact bTile_idx h.a.pos (k := m) le_rfl (by generalize (kl + b - 1) / b = x; omega) (by omega) (by omega)

/-- Every task is a task of the solve without interchanges, or does interchanges. -/
theorem mem_pztbsmP {φ : Nat} {d : Diag} {al : α} {x : TTask (M × Nat × Nat) α} (hx : x ∈ pztbsmP φ E dv t d al A B P) :
    (∃ p, ∃ y ∈ pztbsm dv .left .lower t d al A B, x = phT p y) ∨
    (∃ p k n fwd, k < B.d.mt ∧ n < B.d.nt ∧ x = phT p (tbSwp E A B P fwd k n)) := by
  unfold pztbsmP at hx
  unfold pztbsm
  rw [if_pos rfl, if_neg (by simp)]
  split at hx
  · rename_i ht
    subst ht
    rw [if_pos rfl]
    simp only [List.mem_flatMap, List.mem_append, List.mem_cons, List.mem_map, List.mem_range, List.not_mem_nil, or_false] at hx ⊢
    obtain ⟨k, hk, ⟨n, hn, rfl | rfl⟩ | ⟨m, hm, n, hn, rfl⟩⟩ := hx
    · exact Or.inr ⟨_, k, n, true, hk, hn, rfl⟩
    · exact Or.inl ⟨_, _, ⟨k, hk, Or.inl ⟨n, hn, rfl⟩⟩, rfl⟩
    · exact Or.inl ⟨_, _, ⟨k, hk, Or.inr ⟨m, hm, n, hn, rfl⟩⟩, rfl⟩
  · rename_i ht
    rw [if_neg ht]
    simp only [List.mem_flatMap, List.mem_append, List.mem_cons, List.mem_map, List.mem_range, List.not_mem_nil, or_false] at hx ⊢
    obtain ⟨k, hk, ⟨m, hm, n, hn, rfl⟩ | ⟨n, hn, rfl | rfl⟩⟩ := hx
    · exact Or.inl ⟨_, _, ⟨k, hk, Or.inl ⟨m, hm, n, hn, rfl⟩⟩, rfl⟩
    · exact Or.inl ⟨_, _, ⟨k, hk, Or.inr ⟨n, hn, rfl⟩⟩, rfl⟩
    · exact Or.inr ⟨_, B.d.mt - k - 1, n, false, by omega, hn, rfl⟩

theorem pztbsmP_writes {φ : Nat} {d : Diag} {al : α} : Writes (fun x => x.1 = B.id) (pztbsmP φ E dv t d al A B P) := by
  intro x hx a i j hw
  rcases mem_pztbsmP hx with ⟨p, y, hy, rfl⟩ | ⟨p, k, n, fwd, _, _, rfl⟩
  · exact pztbsm_writes y hy a i j hw
  · exact hw.1

theorem pztbsmP_loc (h : TbOK b N Nn kl ku A B P ib mpt) (fa : FitsOn env b (bTile none b kl ku) A) (fb : Fits env b B)
    (fp : Fits env b P) {φ : Nat} {d : Diag} {al : α} :
    ∀ x ∈ pztbsmP φ E dv t d al A B P, x.Local ∧ x.Inside (evalid env) := by
  have hg := pztbsm_good (dv := dv) (t := t) (d := d) (alpha := al) (Mm := N) (Nn := Nn)
    (fa.mono fun _ _ h' => inBandT_lower h.g h') fb h.g.klt_pos h.g.m h.g.n h.m h.n
  intro x hx
  rcases mem_pztbsmP hx with ⟨p, y, hy, rfl⟩ | ⟨p, k, n, fwd, hk, hn, rfl⟩
  · exact ⟨hg.loc y hy, hg.ins y hy⟩
  · rw [h.mt] at hk
    rw [h.nt] at hn
    refine ⟨tbSwp_local h hk, ?_⟩
    have hkm := (lt_ceilDiv h.b.pos).mp hk
    have hnm := (lt_ceilDiv h.b.pos).mp hn
    have h1 := h.mv hk
    have h2 := h.nv hn
    rw [tdim_min] at h1 h2
    rintro y i j (hw | hw)
    · refine reg_inside (R := fun i j => i ∈ swpOrd fwd (k * A.d.nb + 1) (k * A.d.nb + B.d.mview k) ∧ j = 0) fp ?_ hw
      intro r c hR
      rw [mem_swpOrd, h.g.a.nb, h1] at hR
      rw [h.g.Pn, h.g.Pm]
      omega
    · refine reg_inside (R := fun r c => 0 ≤ r ∧ r < B.d.m ∧ n * A.d.nb ≤ c ∧ c < n * A.d.nb + B.d.nview n) fb ?_ hw
      intro r c hR
      rw [h.g.a.nb, h2] at hR
      rw [h.n]
      exact ⟨hR.2.1, by omega⟩

theorem pztbsmP_phases (φ : Nat) {d : Diag} {al : α} :
    PhSeq φ (φ + 2 * (B.d.mt * B.d.nt)) (pztbsmP φ E dv t d al A B P) := by
  have hD : ∀ p (mm nn k n : Nat) {c : α}, (phT p (coreTrsm dv .left .lower t d mm nn c (A.at' k k) (B.at' k n))).Declared :=
    fun p mm nn k n c => phT_declared op1_declared
  have hG : ∀ p (tt : Trans) (mm nn kk : Nat) (x y z : M × Nat × Nat) {c : α},
      (phT p (coreGemm tt .noTrans mm nn kk (-1) x y c z)).Declared :=
    fun p tt mm nn kk x y z c => phT_declared op2_declared
  unfold pztbsmP
  split
  · have := PhSeq.range (f := fun k => φ + 2 * (k * B.d.nt)) (n := B.d.mt) (g := fun k =>
      ((List.range B.d.nt).flatMap fun n =>
        [phT (φ + 2 * (k * B.d.nt + n) + 1) (tbSwp E A B P true k n),
         phT (φ + 2 * (k * B.d.nt + n) + 2)
          (coreTrsm dv .left .lower t d (B.d.mview k) (B.d.nview n) (if k = 0 then al else 1)
            (A.at' k k) (B.at' k n))]) ++
      (span (k+1) (min (k+A.d.klt) A.d.mt)).flatMap fun m => (List.range B.d.nt).map fun n =>
        phT (φ + 2 * ((k + 1) * B.d.nt))
          (coreGemm .noTrans .noTrans (B.d.mview m) (B.d.nview n) B.d.mb (-1)
            (A.at' m k) (B.at' k n) (if k = 0 then al else 1) (B.at' m n))) ?_
    · skip
      rw [Nat.zero_mul, Nat.mul_zero, Nat.add_zero] at this
      exact this
    · intro k _
      refine PhSeq.append (mid := φ + 2 * ((k + 1) * B.d.nt)) ?_ (PhSeq.const fun x hx => ?_)
      · have := PhSeq.range (f := fun n => φ + 2 * (k * B.d.nt + n)) (n := B.d.nt) (g := fun n =>
          [phT (φ + 2 * (k * B.d.nt + n) + 1) (tbSwp E A B P true k n),
           phT (φ + 2 * (k * B.d.nt + n) + 2)
            (coreTrsm dv .left .lower t d (B.d.mview k) (B.d.nview n) (if k = 0 then al else 1)
              (A.at' k k) (B.at' k n))]) ?_
        · skip
          rw [Nat.add_zero] at this
          rw [Nat.add_mul, Nat.one_mul]
          exact this
        · intro n _
          refine ⟨by omega, ?_, ?_⟩
          · refine List.pairwise_pair.mpr (Or.inl ?_)
            show φ + 2 * (k * B.d.nt + n) + 1 < φ + 2 * (k * B.d.nt + n) + 2
            omega
          · intro x hx
            simp only [List.mem_cons, List.not_mem_nil, or_false] at hx
            rcases hx with rfl | rfl
            · simp only [phT]
              exact ⟨by omega, by omega, fun _ => by omega, fun _ => by omega⟩
            · refine ⟨?_, ?_, fun _ => ?_, fun _ => ?_⟩
              · simp only [phT]; omega
              · simp only [phT]; omega
              · exact hD _ _ _ _ _
              · exact hD _ _ _ _ _
      · simp only [List.mem_flatMap, List.mem_map] at hx
        obtain ⟨m, _, n, _, rfl⟩ := hx
        exact ⟨hG _ _ _ _ _ _ _ _, rfl⟩
  · have := PhSeq.range (f := fun k => φ + 2 * (k * B.d.nt)) (n := B.d.mt) (g := fun k =>
      ((span (B.d.mt-k-1+1) (min (B.d.mt-k-1+A.d.klt) A.d.mt)).flatMap fun m =>
        (List.range B.d.nt).map fun n =>
          phT (φ + 2 * (k * B.d.nt))
            (coreGemm t .noTrans (B.d.mview (B.d.mt-k-1)) (B.d.nview n) (B.d.mview m) (-1)
              (A.at' m (B.d.mt-k-1)) (B.at' m n) (if k = 0 then al else 1) (B.at' (B.d.mt-k-1) n))) ++
      (List.range B.d.nt).flatMap fun n =>
        [phT (φ + 2 * (k * B.d.nt + n))
          (coreTrsm dv .left .lower t d (B.d.mview (B.d.mt-k-1)) (B.d.nview n) (if k = 0 then al else 1)
            (A.at' (B.d.mt-k-1) (B.d.mt-k-1)) (B.at' (B.d.mt-k-1) n)),
         phT (φ + 2 * (k * B.d.nt + n) + 1) (tbSwp E A B P false (B.d.mt-k-1) n)]) ?_
    · skip
      rw [Nat.zero_mul, Nat.mul_zero, Nat.add_zero] at this
      exact this
    · intro k _
      refine PhSeq.append (mid := φ + 2 * (k * B.d.nt)) (PhSeq.const fun x hx => ?_) ?_
      · simp only [List.mem_flatMap, List.mem_map] at hx
        obtain ⟨m, _, n, _, rfl⟩ := hx
        exact ⟨hG _ _ _ _ _ _ _ _, rfl⟩
      · have := PhSeq.range (f := fun n => φ + 2 * (k * B.d.nt + n)) (n := B.d.nt) (g := fun n =>
          [phT (φ + 2 * (k * B.d.nt + n))
            (coreTrsm dv .left .lower t d (B.d.mview (B.d.mt-k-1)) (B.d.nview n) (if k = 0 then al else 1)
              (A.at' (B.d.mt-k-1) (B.d.mt-k-1)) (B.at' (B.d.mt-k-1) n)),
           phT (φ + 2 * (k * B.d.nt + n) + 1) (tbSwp E A B P false (B.d.mt-k-1) n)]) ?_
        · skip
          rw [Nat.add_zero] at this
          rw [Nat.add_mul, Nat.one_mul]
          exact this
        · intro n _
          refine ⟨by omega, ?_, ?_⟩
          · refine List.pairwise_pair.mpr (Or.inl ?_)
            show φ + 2 * (k * B.d.nt + n) < φ + 2 * (k * B.d.nt + n) + 1
            omega
          · intro x hx
            simp only [List.mem_cons, List.not_mem_nil, or_false] at hx
            rcases hx with rfl | rfl
            · refine ⟨?_, ?_, fun _ => ?_, fun _ => ?_⟩
              · simp only [phT]; omega
              · simp only [phT]; omega
              · exact hD _ _ _ _ _
              · exact hD _ _ _ _ _
            · simp only [phT]
              exact ⟨by omega, by omega, fun _ => by omega, fun _ => by omega⟩

theorem pztbsmP_late {φ : Nat} {d : Diag} {al : α} (hn : 0 < B.d.nt) :
    ∀ x ∈ pztbsmP φ E dv .noTrans d al A B P, φ < x.phase := by
  intro x hx
  unfold pztbsmP at hx
  rw [if_pos rfl] at hx
  simp only [List.mem_flatMap, List.mem_append, List.mem_cons, List.mem_map, List.mem_range, List.not_mem_nil, or_false] at hx
  obtain ⟨k, hk, ⟨n, hn, rfl | rfl⟩ | ⟨m, hm, n, hn, rfl⟩⟩ := hx
  · show φ < φ + 2 * (k * B.d.nt + n) + 1
    omega
  · show φ < φ + 2 * (k * B.d.nt + n) + 2
    omega
  · show φ < φ + 2 * ((k + 1) * B.d.nt)
    rw [Nat.add_mul]; omega

/-! ### The solve with the factors -/

/-- The two triangular solves of `plasma_omp_zgbtrs` (compute/zgbtrs.c:286-318) and `plasma_omp_zgbsv`
(compute/zgbsv.c:252-265).  The first phase used is `φ`. -/
def gbSolve (φ : Nat) (E : IntCode α) (dv : α → α → α) (t : Trans) (A P B : TMat M) : List (TTask (M × Nat × Nat) α) :=
  if t = .noTrans then
    pztbsmP φ E dv .noTrans .unit 1 A B P ++
      (pztbsm dv .left .upper .noTrans .nonUnit 1 A B).map (phT (φ + 2 * (B.d.mt * B.d.nt)))
  else
    (pztbsm dv .left .upper t .nonUnit 1 A B).map (phT φ) ++ pztbsmP φ E dv t .unit 1 A B P

/-- The upper factor seen by the band solve. -/
theorem gb_upper (h : GbOK b N kl ku A P ib mpt) (s : Store (M × Nat × Nat) α) {p : Nat → Nat} (hp : ∀ i, i < N → i ≤ p i)
    {r c : Nat} (hc : c < N) :
    trE .upper .nonUnit (bandT2 b (bkt .upper A.d) (A.el s)) r c = luU (lazyM p (lzi b) N (gbX b kl ku A s)) r c := by
  have hb := h.a.pos
  rw [trE_upper]
  unfold luU
  split
  · rename_i hrc
    have hl := lt_lzi (c := c) hb
    unfold lazyM
    rw [if_pos hc, perm_fix (fun i h1 h2 => hp i (by omega)) (show r < lzi b c by omega)]
    unfold bandT2 gbX
    have hrc' := Nat.div_le_div_right (c := b) hrc
    refine if_congr ?_ rfl rfl
    constructor
    · intro hh
      apply inBandT_upper h
      refine ⟨hrc', ?_⟩
      omega
    · intro hh
      have e2 := BPar.lt_bkt (k := ku + kl) (d := c / b - r / b) hb
      rw [Nat.sub_mul] at e2
      simp only [bTile] at hh
      have := e2.mpr (by have := Nat.mul_le_mul_right b hrc'; omega)
      simp only [bkt, if_true]
      rw [h.kut]
      generalize (ku + kl + b - 1) / b = x at this ⊢
      simp only [reduceCtorEq, if_false]
      omega
  · rfl

theorem sum_luL {n : Nat} {F : Nat → Nat → α} {y : Nat → α} {r : Nat} (hr : r < n) :
    ∑ l ∈ range n, luL F r l * y l = ∑ l ∈ range r, F r l * y l + y r := by
  have := sum_unit (X := F) (y := y) (lo := 0) (hi := n) (r := r) (Nat.zero_le _)
  rw [if_pos hr, Nat.min_eq_left hr.le, trE_lower] at this
  simpa using this

theorem sum_luL_tr {n : Nat} {F : Nat → Nat → α} {y : Nat → α} {l : Nat} (hl : l < n) :
    ∑ r ∈ range n, opS t (luL F r l) * y r = ∑ r ∈ Ico (l + 1) n, opS t (F r l) * y r + y l := by
  have := sum_unit_col (t := t) (X := F) (y := y) (lo := 0) (hi := n) (l := l) (Nat.zero_le _) hl
  rw [trE_lower] at this
  simpa using this

theorem opS_cjT (x : α) : opS t x = cjT t x := by
  unfold opS cjT; split <;> rfl

/-- **The solve**: with the factors of `X0` in `A` and the interchanges in `P`, the right-hand sides are replaced by the
solutions. -/
theorem gbSolve_el (hdv : IsDiv dv) (h : TbOK b N Nn kl ku A B P ib mpt) (φ : Nat) (t : Trans)
    (s : Store (M × Nat × Nat) α) {X0 : Nat → Nat → α} (hp : PvOK E P N N s)
    (hinv : LUInv N N X0 (lazyM (pv E P s) (lzi b) N (gbX b kl ku A s)) (perm (pv E P s) 0 N) N)
    (hd : ∀ c, c < N → gbX b kl ku A s c c ≠ 0) {r c : Nat} (hr : r < N) (hc : c < Nn) :
    ∑ l ∈ range N, opE t X0 r l * B.el (texec (gbSolve φ E dv t A P B) s) l c = B.el s r c := by
  have hpl : ∀ i, i < N → pv E P s i < N := fun i hi => (hp i hi).2.2
  have h1 : ∀ r, r < N → perm (pv E P s) 0 N r < N := fun r hr => perm_lt (le_refl _) hpl hr
  have h2 : ∀ r, r < N → (perm (pv E P s) 0 N)⁻¹ r < N := fun r hr => perm_inv_lt (le_refl _) hpl hr
  set F := lazyM (pv E P s) (lzi b) N (gbX b kl ku A s) with hF
  have hlu : ∀ r c, r < N → c < N → X0 (perm (pv E P s) 0 N r) c = ∑ l ∈ range N, luL F r l * luU F l c := by
    intro r c hr hc
    rw [hinv.done (by omega) hr hc, luE_prod F hr hc, Nat.min_self]
  have hdd : ∀ s' : Store (M × Nat × Nat) α, (∀ x, x.1 ≠ B.id → s' x = s x) → ∀ i, i < N →
      trE .upper .nonUnit (A.el s') i i ≠ 0 := by
    intro s' he i hi
    have := hd i hi
    unfold gbX at this
    rw [if_pos (inBandT_upper h.g ⟨le_rfl, by have := h.g.kut_pos; simp only [bkt, reduceCtorEq, if_false]; omega⟩)] at this
    unfold trE
    rw [if_pos rfl, if_neg (by simp)]
    unfold TMat.el at this ⊢
    rw [he _ h.ab]; exact this
  have hup : ∀ s' : Store (M × Nat × Nat) α, (∀ x, x.1 ≠ B.id → s' x = s x) → ∀ r l, l < N →
      trE .upper .nonUnit (bandT2 b (bkt .upper A.d) (A.el s')) r l = luU F r l := by
    intro s' he r l hl
    have : A.el s' = A.el s := by funext r c; unfold TMat.el; rw [he _ h.ab]
    rw [this]
    exact gb_upper h.g s (fun i hi => (hp i hi).2.1) hl
  unfold gbSolve
  by_cases ht : t = .noTrans
  · subst ht
    rw [if_pos rfl, texec_append, texec_phT]
    obtain ⟨e1, e2⟩ := pztbsmP_fw_el hdv h φ s hp
    set s1 := texec (pztbsmP φ E dv .noTrans .unit 1 A B P) s with hs1
    refine lu_solve_no (Y := fun l => B.el s1 l c) (B := fun l => B.el s l c) h2 hlu (fun r hr => ?_) (fun r hr => ?_) hr
    · rw [sum_luL hr]
      exact (e1 r c hr hc).symm
    · have := pztbsm_el (u := .upper) (t := .noTrans) (d := .nonUnit) hdv h.g.a h.b h.ab h.g.m h.m h.n
        (by simp only [bkt, reduceCtorEq, if_false]; exact h.g.kut_pos) s1 (hdd s1 e2) r c hr hc
      rw [← this]
      refine sum_congr rfl fun l hl => ?_
      rw [mem_range] at hl
      simp only [opE]
      rw [hup s1 e2 r l hl]
  · rw [if_neg ht, texec_append, texec_phT]
    set s1 := texec (pztbsm dv .left .upper t .nonUnit 1 A B) s with hs1
    have hfr : ∀ x, x.1 ≠ B.id → s1 x = s x := fun x hx => pztbsm_writes.frame s hx
    have hPs : ∀ i j, s1 (P.at' i j) = s (P.at' i j) := fun i j => hfr _ h.bp.symm
    have hAs : gbX b kl ku A s1 = gbX b kl ku A s := by
      funext r c; unfold gbX TMat.el; rw [hfr _ h.ab]
    obtain ⟨e1, -⟩ := pztbsmP_bw_el hdv h φ ht s1 (hp.congr hPs)
    rw [pv_congr hPs, hAs, ← hF] at e1
    set s2 := texec (pztbsmP φ E dv t .unit 1 A B P) s1 with hs2
    have key := lu_solve_tr (A0 := X0) (F := F) (π := perm (pv E P s) 0 N) (cjT t) h1 h2 hlu
      (Y := fun l => B.el s1 l c) (Z := fun l => B.el s2 (perm (pv E P s) 0 N l) c) (B := fun l => B.el s l c) (fun r hr => ?_)
      (fun r hr => ?_) hr
    · rw [← key]
      refine sum_congr rfl fun l hl => ?_
      rw [opE_cjT ht]
      simp
    · have := pztbsm_el (u := .upper) (t := t) (d := .nonUnit) hdv h.g.a h.b h.ab h.g.m h.m h.n
        (by simp only [bkt, reduceCtorEq, if_false]; exact h.g.kut_pos) s (hdd s fun _ _ => rfl) r c hr hc
      rw [← this]
      refine sum_congr rfl fun l hl => ?_
      rw [mem_range] at hl
      rw [opE_cjT ht, hup s (fun _ _ => rfl) l r hr]
    · simp only [← opS_cjT]
      rw [sum_luL_tr hr]
      exact (e1 r c hr hc).symm

theorem gbSolve_writes {φ : Nat} : Writes (fun x => x.1 = B.id) (gbSolve φ E dv t A P B) := by
  unfold gbSolve
  split
  · exact pztbsmP_writes.append (writes_phT pztbsm_writes)
  · exact (writes_phT pztbsm_writes).append pztbsmP_writes

theorem upper_good (h : TbOK b N Nn kl ku A B P ib mpt) (fa : FitsOn env b (bTile none b kl ku) A) (fb : Fits env b B) :
    Good (evalid env) (pztbsm dv .left .upper t .nonUnit 1 A B) :=
  pztbsm_good (Mm := N) (Nn := Nn) (fa.mono fun _ _ h' => inBandT_upper h.g h') fb h.g.kut_pos h.g.m h.g.n h.m h.n

theorem gbSolve_phases (h : TbOK b N Nn kl ku A B P ib mpt) (fa : FitsOn env b (bTile none b kl ku) A) (fb : Fits env b B)
    (φ : Nat) : PhSeq φ (φ + 2 * (B.d.mt * B.d.nt)) (gbSolve φ E dv t A P B) := by
  have hu : ∀ (t : Trans) p, PhSeq p p ((pztbsm dv .left .upper t .nonUnit 1 A B).map (phT p)) := by
    intro t p
    refine PhSeq.const fun x hx => ?_
    obtain ⟨y, hy, rfl⟩ := List.mem_map.mp hx
    exact ⟨(upper_good h fa fb).decl y hy, rfl⟩
  unfold gbSolve
  split
  · exact (pztbsmP_phases φ).append (hu _ _)
  · exact (hu _ _).append (pztbsmP_phases φ)

theorem gbSolve_loc (h : TbOK b N Nn kl ku A B P ib mpt) (fa : FitsOn env b (bTile none b kl ku) A) (fb : Fits env b B)
    (fp : Fits env b P) {φ : Nat} :
    ∀ x ∈ gbSolve φ E dv t A P B, x.Local ∧ x.Inside (evalid env) := by
  have hu : ∀ (t : Trans) p, ∀ x ∈ (pztbsm dv .left .upper t .nonUnit 1 A B).map (phT p), x.Local ∧ x.Inside (evalid env) := by
    intro t p x hx
    obtain ⟨y, hy, rfl⟩ := List.mem_map.mp hx
    exact ⟨(upper_good h fa fb).loc y hy, (upper_good h fa fb).ins y hy⟩
  intro x hx
  unfold gbSolve at hx
  split at hx
  · rcases List.mem_append.mp hx with hx | hx
    · exact pztbsmP_loc h fa fb fp x hx
    · exact hu _ _ x hx
  · rcases List.mem_append.mp hx with hx | hx
    · exact hu _ _ x hx
    · exact pztbsmP_loc h fa fb fp x hx

end

end Verif.Tile

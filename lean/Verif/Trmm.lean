/-
Triangular multiply: compute/pztrmm.c and its kernel.
-/
import Verif.Trsm
import Verif.AuxNests

namespace Verif.Tile

open Verif.Layout Finset

universe u v

variable {M : Type u} {α : Type v}

section
variable [CommRing α] [StarRing α] [DecidableEq α]

/-- Result of a triangular multiply with one tile (BLAS documentation of ztrmm). -/
def trmmK (sd : Side) (u : Uplo) (t : Trans) (d : Diag) (m n : Nat) (alpha : α)
    (A B : Tl α) : Tl α := fun i j =>
  if sd = .left then alpha * ∑ l ∈ range m, opE t (trE u d A) i l * B l j
  else alpha * ∑ l ∈ range n, B i l * opE t (trE u d A) l j

/-- `plasma_core_omp_ztrmm` (core_blas/core_ztrmm.c:113-133), by the BLAS specification in
exact arithmetic. -/
def coreTrmm (sd : Side) (u : Uplo) (t : Trans) (d : Diag) (m n : Nat) (alpha : α) (a b : M) : TTask M α :=
  op1 a (triD u d (if sd = .left then m else n)) b (box m n) (trmmK sd u t d m n alpha)

/-- `plasma_pztrmm` (compute/pztrmm.c:28-294). -/
def pztrmm (sd : Side) (u : Uplo) (t : Trans) (d : Diag) (alpha : α) (A B : TMat M) :
    List (TTask (M × Nat × Nat) α) :=
  if sd = .left then
    if u = .upper then
      if t = .noTrans then
        (List.range B.d.mt).flatMap fun m => (List.range B.d.nt).flatMap fun n =>
          coreTrmm sd u t d (B.d.mview m) (B.d.nview n) alpha (A.at' m m) (B.at' m n) ::
          (span (m+1) A.d.mt).map fun k =>
            coreGemm t .noTrans (B.d.mview m) (B.d.nview n) (A.d.nview k) alpha (A.at' m k) (B.at' k n)
              1 (B.at' m n)
      else
        (List.range B.d.mt).reverse.flatMap fun m => (List.range B.d.nt).flatMap fun n =>
          coreTrmm sd u t d (B.d.mview m) (B.d.nview n) alpha (A.at' m m) (B.at' m n) ::
          (List.range m).map fun k =>
            coreGemm t .noTrans (B.d.mview m) (B.d.nview n) B.d.mb alpha (A.at' k m) (B.at' k n)
              1 (B.at' m n)
    else
      if t = .noTrans then
        (List.range B.d.mt).reverse.flatMap fun m => (List.range B.d.nt).flatMap fun n =>
          coreTrmm sd u t d (B.d.mview m) (B.d.nview n) alpha (A.at' m m) (B.at' m n) ::
          (List.range m).map fun k =>
            coreGemm t .noTrans (B.d.mview m) (B.d.nview n) B.d.mb alpha (A.at' m k) (B.at' k n)
              1 (B.at' m n)
      else
        (List.range B.d.mt).flatMap fun m => (List.range B.d.nt).flatMap fun n =>
          coreTrmm sd u t d (B.d.mview m) (B.d.nview n) alpha (A.at' m m) (B.at' m n) ::
          (span (m+1) A.d.mt).map fun k =>
            coreGemm t .noTrans (B.d.mview m) (B.d.nview n) (A.d.mview k) alpha (A.at' k m) (B.at' k n)
              1 (B.at' m n)
  else
    if u = .upper then
      if t = .noTrans then
        (List.range B.d.nt).reverse.flatMap fun n => (List.range B.d.mt).flatMap fun m =>
          coreTrmm sd u t d (B.d.mview m) (B.d.nview n) alpha (A.at' n n) (B.at' m n) ::
          (List.range n).map fun k =>
            coreGemm .noTrans t (B.d.mview m) (B.d.nview n) B.d.mb alpha (B.at' m k) (A.at' k n)
              1 (B.at' m n)
      else
        (List.range B.d.nt).flatMap fun n => (List.range B.d.mt).flatMap fun m =>
          coreTrmm sd u t d (B.d.mview m) (B.d.nview n) alpha (A.at' n n) (B.at' m n) ::
          (span (n+1) A.d.mt).map fun k =>
            coreGemm .noTrans t (B.d.mview m) (B.d.nview n) (A.d.nview k) alpha (B.at' m k) (A.at' n k)
              1 (B.at' m n)
    else
      if t = .noTrans then
        (List.range B.d.nt).flatMap fun n => (List.range B.d.mt).flatMap fun m =>
          coreTrmm sd u t d (B.d.mview m) (B.d.nview n) alpha (A.at' n n) (B.at' m n) ::
          (span (n+1) A.d.mt).map fun k =>
            coreGemm .noTrans t (B.d.mview m) (B.d.nview n) (A.d.nview k) alpha (B.at' m k) (A.at' k n)
              1 (B.at' m n)
      else
        (List.range B.d.nt).reverse.flatMap fun n => (List.range B.d.mt).flatMap fun m =>
          coreTrmm sd u t d (B.d.mview m) (B.d.nview n) alpha (A.at' n n) (B.at' m n) ::
          (List.range n).map fun k =>
            coreGemm .noTrans t (B.d.mview m) (B.d.nview n) B.d.mb alpha (B.at' m k) (A.at' n k)
              1 (B.at' m n)

/-! ### Kernel -/

variable {sd : Side} {u : Uplo} {t : Trans} {d : Diag} {alpha : α}

omit [DecidableEq α] in
theorem trmmK_congr {m n : Nat} {A A' B B' : Tl α}
    (hA : ∀ i j, triD u d (if sd = .left then m else n) i j → A i j = A' i j)
    (hB : ∀ i j, box m n i j → B i j = B' i j) {i j : Nat} (hij : box m n i j) :
    trmmK sd u t d m n alpha A B i j = trmmK sd u t d m n alpha A' B' i j := by
  unfold trmmK
  cases sd
  · simp only [if_true] at hA ⊢
    congr 1
    refine Finset.sum_congr rfl fun l hl => ?_
    rw [Finset.mem_range] at hl
    rw [op_trE_congr hij.1 hl hA, hB l j ⟨hl, hij.2⟩]
  · simp only [reduceCtorEq, if_false] at hA ⊢
    congr 1
    refine Finset.sum_congr rfl fun l hl => ?_
    rw [Finset.mem_range] at hl
    rw [op_trE_congr hl hij.2 hA, hB i l ⟨hij.1, hl⟩]

omit [DecidableEq α] in
theorem coreTrmm_local {m n : Nat} {a b : M} : (coreTrmm sd u t d m n alpha a b).Local :=
  op1_local (fun _ _ _ _ hA hC _ _ hij => trmmK_congr hA hC hij)

omit [DecidableEq α] in
theorem coreTrmm_run {m n : Nat} {a b : M} (s : Store M α) {i j : Nat} (hij : box m n i j) :
    (coreTrmm sd u t d m n alpha a b).run s b i j = trmmK sd u t d m n alpha (s a) (s b) i j := by
  unfold coreTrmm; rw [op1_self, paste_in hij]

/-! ### Uniform description of the nests -/

/-- Tile with index `x` in the direction of the triangular matrix and `q` in the other. -/
def tmB (sd : Side) (B : TMat M) (x q : Nat) : M × Nat × Nat :=
  if sd = .left then B.at' x q else B.at' q x

/-- Blocks that contribute to block `x` besides the diagonal one. -/
def tmK (fwd : Bool) (K x : Nat) : List Nat := if fwd then List.range x else span (x+1) K

variable {A B : TMat M} {b Mm Nn : Nat}

/-- The product of an off-diagonal block. -/
def tmGemm (sd : Side) (t : Trans) (alpha : α) (A B : TMat M) (b Mm Nn x q k : Nat) :
    TTask (M × Nat × Nat) α :=
  if sd = .left then
    coreGemm t .noTrans (tdim Mm b x) (tdim Nn b q) (tdim Mm b k) alpha
      (if t = .noTrans then A.at' x k else A.at' k x) (B.at' k q) 1 (B.at' x q)
  else
    coreGemm .noTrans t (tdim Mm b q) (tdim Nn b x) (tdim Nn b k) alpha (B.at' q k)
      (if t = .noTrans then A.at' k x else A.at' x k) 1 (B.at' q x)

/-- The tasks for tile `(x, q)`. -/
def tmBody (sd : Side) (u : Uplo) (t : Trans) (d : Diag) (alpha : α) (A B : TMat M) (b Mm Nn : Nat)
    (p : Nat × Nat) : List (TTask (M × Nat × Nat) α) :=
  coreTrmm sd u t d (if sd = .left then tdim Mm b p.1 else tdim Mm b p.2)
    (if sd = .left then tdim Nn b p.2 else tdim Nn b p.1) alpha (A.at' p.1 p.1) (tmB sd B p.1 p.2) ::
  (tmK (trFwd sd u t) (ceilDiv (trN sd Mm Nn) b) p.1).map fun k =>
    tmGemm sd t alpha A B b Mm Nn p.1 p.2 k

/-- Tiles in order of treatment. -/
def tmIdx (fwd : Bool) (K Q : Nat) : List (Nat × Nat) :=
  loop2 (if fwd then (List.range K).reverse else List.range K) fun _ => List.range Q

omit [DecidableEq α] in
theorem pztrmm_eq (hA : A.Al b) (hB : B.Al b) (hm : B.d.m = Mm) (hn : B.d.n = Nn)
    (hAm : A.d.m = trN sd Mm Nn) (hAn : A.d.n = trN sd Mm Nn) :
    pztrmm sd u t d alpha A B =
      (tmIdx (trFwd sd u t) (ceilDiv (trN sd Mm Nn) b) (ceilDiv (trP sd Mm Nn) b)).flatMap
        (tmBody sd u t d alpha A B b Mm Nn) := by
  have hb := hB.pos
  have hmv : ∀ m, m < ceilDiv Mm b → B.d.mview m = tdim Mm b m := fun m h => by
    rw [hB.mview (by rw [hB.mt_eq, hm]; exact h), hm]
  have hnv : ∀ m, m < ceilDiv Nn b → B.d.nview m = tdim Nn b m := fun m h => by
    rw [hB.nview (by rw [hB.nt_eq, hn]; exact h), hn]
  have hmvA : ∀ m, m < ceilDiv (trN sd Mm Nn) b → A.d.mview m = tdim (trN sd Mm Nn) b m := fun m h => by
    rw [hA.mview (by rw [hA.mt_eq, hAm]; exact h), hAm]
  have hnvA : ∀ m, m < ceilDiv (trN sd Mm Nn) b → A.d.nview m = tdim (trN sd Mm Nn) b m := fun m h => by
    rw [hA.nview (by rw [hA.nt_eq, hAn]; exact h), hAn]
  have hmt : B.d.mt = ceilDiv Mm b := by rw [hB.mt_eq, hm]
  have hnt : B.d.nt = ceilDiv Nn b := by rw [hB.nt_eq, hn]
  have hAt : A.d.mt = ceilDiv (trN sd Mm Nn) b := by rw [hA.mt_eq, hAm]
  unfold pztrmm tmIdx loop2
  rw [hmt, hnt, hB.mb, hAt]
  cases sd <;> cases u <;> cases t
  all_goals
    simp only [if_true, reduceCtorEq, if_false, trN, trP, trFwd, opLow, decide_true, decide_false,
      Bool.not_true, Bool.not_false, beq_self_eq_true, Bool.false_eq_true, Bool.true_beq, Bool.false_beq,
      List.flatMap_assoc, List.flatMap_map] at *
    refine List.flatMap_congr fun m hm' => List.flatMap_congr fun n hn' => ?_
    simp only [List.mem_range, List.mem_reverse] at hm' hn'
    unfold tmBody
    simp only [if_true, reduceCtorEq, if_false, trN, trFwd, opLow, decide_true, decide_false,
      Bool.not_true, Bool.not_false, beq_self_eq_true, Bool.false_eq_true, Bool.true_beq, Bool.false_beq, tmK, tmB]
    refine congrArg₂ _ ?_ (List.map_congr_left fun k hk => ?_)
    · first | rw [hmv m hm', hnv n hn'] | rw [hmv n hn', hnv m hm']
    · simp only [List.mem_range, mem_span] at hk
      unfold tmGemm
      simp only [if_true, reduceCtorEq, if_false]
      first | rw [hmv m hm', hnv n hn'] | rw [hmv n hn', hnv m hm']
      first
        | rw [tdim_full hb rfl (t := k) (by omega)]
        | rw [hnvA k hk.2]
        | rw [hmvA k hk.2]


/-! ### Effect -/

omit [CommRing α] [StarRing α] [DecidableEq α] in
/-- A chain of tasks over one tile, each adding to it something computed from other tiles. -/
theorem acc_list {α : Type v} [AddCommMonoid α] {M : Type u} {c : M} {T : Nat → TTask M α} {l : List Nat}
    (hw : ∀ k, Writes (fun x => x = c) [T k]) (s0 : Store M α) {i j : Nat} (w : Nat → α)
    (hs : ∀ k ∈ l, ∀ s, (∀ x, x ≠ c → s x = s0 x) → (T k).run s c i j = s c i j + w k) (s : Store M α)
    (h0 : ∀ x, x ≠ c → s x = s0 x) :
    texec (l.map T) s c i j = s c i j + (l.map w).sum := by
  induction l generalizing s with
  | nil => simp
  | cons k l ih =>
    simp only [List.map_cons, texec_cons, List.sum_cons]
    rw [ih (fun k hk => hs k (by simp [hk])) _ ?_, hs k (by simp) s h0, add_assoc]
    intro x hx
    rw [← h0 x hx]
    exact (hw k).frame s hx

omit [CommRing α] [StarRing α] [DecidableEq α] in
theorem tmB_id {x q : Nat} : (tmB sd B x q).1 = B.id := by unfold tmB; split <;> rfl

omit [CommRing α] [StarRing α] [DecidableEq α] in
theorem tmB_inj {x q x' q' : Nat} (h : tmB sd B x q = tmB sd B x' q') : x = x' ∧ q = q' := by
  unfold tmB at h
  split at h <;> rw [TMat.at'_inj] at h
  · exact h
  · exact h.symm

omit [DecidableEq α] in
theorem tmGemm_writes {x q k : Nat} :
    Writes (fun y => y = tmB sd B x q) [tmGemm sd t alpha A B b Mm Nn x q k] := by
  unfold tmGemm tmB
  cases sd <;> simp only [if_true, reduceCtorEq, if_false] <;> exact writes_op2 rfl

omit [DecidableEq α] in
theorem tmGemm_within {x q k : Nat} :
    Within (fun y => y.1 = A.id ∨ y = tmB sd B k q ∨ y = tmB sd B x q)
      [tmGemm sd t alpha A B b Mm Nn x q k] := by
  have ha : ∀ (c : Prop) [Decidable c] (x y z w : Nat), (if c then A.at' x y else A.at' z w).1 = A.id := by
    intro c _ x y z w; split <;> rfl
  unfold tmGemm tmB
  cases sd <;> simp only [if_true, reduceCtorEq, if_false]
  · exact gemm_within (Or.inl (ha ..)) (Or.inr (Or.inl rfl)) (Or.inr (Or.inr rfl))
  · exact gemm_within (Or.inr (Or.inl rfl)) (Or.inl (ha ..)) (Or.inr (Or.inr rfl))

omit [DecidableEq α] in
theorem tmBody_writes {p : Nat × Nat} :
    Writes (fun y => y = tmB sd B p.1 p.2) (tmBody sd u t d alpha A B b Mm Nn p) := by
  unfold tmBody
  refine Writes.cons ?_ (Writes.map fun k _ => tmGemm_writes)
  unfold coreTrmm
  exact writes_op1 rfl

/-- Tiles read or written for tile `(x, q)`. -/
def TmD (sd : Side) (fwd : Bool) (A B : TMat M) (p : Nat × Nat) (y : M × Nat × Nat) : Prop :=
  y.1 = A.id ∨ ∃ k, (if fwd then k ≤ p.1 else p.1 ≤ k) ∧ y = tmB sd B k p.2

omit [DecidableEq α] in
theorem tmBody_within {p : Nat × Nat} :
    Within (TmD sd (trFwd sd u t) A B p) (tmBody sd u t d alpha A B b Mm Nn p) := by
  have hself : TmD sd (trFwd sd u t) A B p (tmB sd B p.1 p.2) := Or.inr ⟨p.1, by split <;> exact le_rfl, rfl⟩
  unfold tmBody
  refine Within.cons (Within.op1 coreTrmm_local (Or.inl rfl) hself) (Within.map fun k hk => ?_)
  refine tmGemm_within.mono ?_
  rintro y (h | h | h)
  · exact Or.inl h
  · refine Or.inr ⟨k, ?_, h⟩
    unfold tmK at hk
    split at hk <;> rename_i hf <;> simp only [hf, if_true, if_false, List.mem_range, mem_span, Bool.false_eq_true] at hk ⊢ <;> omega
  · rw [h]; exact hself

/-- `p` is treated before `p'`. -/
def TmBefore (fwd : Bool) (p p' : Nat × Nat) : Prop :=
  p ≠ p' ∧ if fwd then p'.1 ≤ p.1 else p.1 ≤ p'.1

theorem tmIdx_pairwise {fwd : Bool} {K Q : Nat} : (tmIdx fwd K Q).Pairwise (TmBefore fwd) := by
  unfold tmIdx loop2
  rw [List.pairwise_flatMap]
  constructor
  · intro x _
    rw [List.pairwise_map]
    refine List.Pairwise.imp ?_ (List.nodup_range (n := Q))
    intro a b hab
    exact ⟨fun h => hab (Prod.mk.inj h).2, by split <;> exact le_rfl⟩
  · have h : (if fwd then (List.range K).reverse else List.range K).Pairwise
        (fun a b => if fwd then b < a else a < b) := by
      cases fwd
      · simpa using List.pairwise_lt_range (n := K)
      · simp only [if_true]; rw [List.pairwise_reverse]; exact List.pairwise_lt_range (n := K)
    refine h.imp ?_
    intro a b hab x hx y hy
    simp only [List.mem_map, List.mem_range] at hx hy
    obtain ⟨_, _, rfl⟩ := hx
    obtain ⟨_, _, rfl⟩ := hy
    constructor
    · intro he
      have := (Prod.mk.inj he).1
      cases fwd <;> simp at hab <;> omega
    · cases fwd <;> simp at hab ⊢ <;> omega

theorem mem_tmIdx {fwd : Bool} {K Q : Nat} {p : Nat × Nat} : p ∈ tmIdx fwd K Q ↔ p.1 < K ∧ p.2 < Q := by
  unfold tmIdx
  rw [mem_loop2]
  cases fwd <;> simp

theorem mem_tmK {fwd : Bool} {K x k : Nat} :
    k ∈ tmK fwd K x ↔ if fwd then k < x else x < k ∧ k < K := by
  unfold tmK; cases fwd <;> simp [mem_span]

theorem nodup_tmK {fwd : Bool} {K x : Nat} : (tmK fwd K x).Nodup := by
  unfold tmK; split
  · exact List.nodup_range
  · exact nodup_span

/-- The contribution of the listed blocks and of the diagonal one is the whole sum. -/
theorem sum_tmK {β : Type v} [AddCommMonoid β] {fwd : Bool} {K x : Nat} (hx : x < K) (f : Nat → β)
    (h0 : ∀ k, k < K → (if fwd then x < k else k < x) → f k = 0) :
    f x + ((tmK fwd K x).map f).sum = ∑ k ∈ range K, f k := by
  classical
  rw [← List.sum_toFinset f nodup_tmK, ← Finset.sum_insert]
  · refine Finset.sum_subset ?_ ?_
    · intro k hk
      simp only [Finset.mem_insert, List.mem_toFinset, mem_tmK, Finset.mem_range] at hk ⊢
      rcases hk with rfl | hk
      · exact hx
      · cases fwd <;> simp at hk <;> omega
    · intro k hk hk'
      simp only [Finset.mem_insert, List.mem_toFinset, mem_tmK, Finset.mem_range, not_or] at hk hk'
      refine h0 k hk ?_
      cases fwd <;> simp at hk' ⊢ <;> omega
  · simp only [List.mem_toFinset, mem_tmK]
    cases fwd <;> simp

omit [CommRing α] [StarRing α] [DecidableEq α] in
theorem trEl_tmB (hB : B.Al b) (s : Store (M × Nat × Nat) α) (r c : Nat) :
    trEl sd (B.el s) r c = trEl sd (s (tmB sd B (r / b) (c / b))) (r % b) (c % b) := by
  unfold trEl tmB TMat.el
  rw [hB.mb, hB.nb]
  cases sd <;> simp only [if_true, reduceCtorEq, if_false]

omit [CommRing α] [StarRing α] [DecidableEq α] in
theorem trEl_tmB' (hB : B.Al b) (s : Store (M × Nat × Nat) α) {x i c : Nat} (hi : i < b) :
    trEl sd (B.el s) (x * b + i) c = trEl sd (s (tmB sd B x (c / b))) i (c % b) := by
  rw [trEl_tmB hB, div_of_tile hi, mod_of_tile hi]

omit [DecidableEq α] in
/-- **Triangular multiply**, element by element. -/
theorem pztrmm_el (hA : A.Al b) (hB : B.Al b) (hab : A.id ≠ B.id) (hm : B.d.m = Mm) (hn : B.d.n = Nn)
    (hAm : A.d.m = trN sd Mm Nn) (hAn : A.d.n = trN sd Mm Nn) (s : Store (M × Nat × Nat) α) {r c : Nat}
    (hr : r < trN sd Mm Nn) (hc : c < trP sd Mm Nn) :
    trEl sd (B.el (texec (pztrmm sd u t d alpha A B) s)) r c =
      alpha * ∑ l ∈ range (trN sd Mm Nn), trT sd u t d (A.el s) r l * trEl sd (B.el s) l c := by
  have hb := hB.pos
  have hx : r / b < ceilDiv (trN sd Mm Nn) b := by
    rw [lt_ceilDiv hb]; have := Nat.div_mul_le_self r b; omega
  have hq : c / b < ceilDiv (trP sd Mm Nn) b := by
    rw [lt_ceilDiv hb]; have := Nat.div_mul_le_self c b; omega
  rw [pztrmm_eq hA hB hm hn hAm hAn, trEl_tmB hB]
  rw [par_init (R := TmBefore (trFwd sd u t)) (o := fun p => tmB sd B p.1 p.2)
    (D := TmD sd (trFwd sd u t) A B) (p := (r / b, c / b)) tmIdx_pairwise
    (fun p => Or.inr ⟨p.1, by split <;> exact le_rfl, rfl⟩) ?_ (fun p _ => tmBody_within)
    (fun p _ => tmBody_writes) s (mem_tmIdx.mpr ⟨hx, hq⟩)]
  swap
  · rintro p q ⟨hne, h⟩ (h' | ⟨k, hk, h'⟩)
    · exact hab (by rw [← h', tmB_id])
    · obtain ⟨rfl, h2⟩ := tmB_inj h'
      refine hne (Prod.ext ?_ h2)
      cases hf : trFwd sd u t <;> simp only [hf, if_true, if_false, Bool.false_eq_true] at h hk <;> omega
  have hbs : ∑ l ∈ range (trN sd Mm Nn), trT sd u t d (A.el s) r l * trEl sd (B.el s) l c =
      ∑ k ∈ range (ceilDiv (trN sd Mm Nn) b), bsum (trN sd Mm Nn) b k
        (fun l => trT sd u t d (A.el s) r l * trEl sd (B.el s) l c) := (sum_tiles hb _).symm
  have hrm : r = r / b * b + r % b := (divmod r b).symm
  have hrb : r % b < b := Nat.mod_lt _ hb
  have hrt : r % b < tdim (trN sd Mm Nn) b (r / b) := mod_lt_tdim hb hr
  have hct : c % b < tdim (trP sd Mm Nn) b (c / b) := mod_lt_tdim hb hc
  rw [hbs, ← sum_tmK (fwd := trFwd sd u t) hx]
  swap
  · intro k hk hf
    refine Finset.sum_eq_zero fun l hl => ?_
    rw [Finset.mem_range] at hl
    have hlb : l < b := lt_of_lt_of_le hl tdim_le
    have key : ∀ {x y i l}, i < b → l < b → x < y → x * b + i < y * b + l := by
      intro x y i l hi hl h
      have : (x + 1) * b ≤ y * b := Nat.mul_le_mul_right _ h
      rw [Nat.add_mul] at this; omega
    rw [hrm]
    have : trT sd u t d (A.el s) (r / b * b + r % b) (k * b + l) = 0 := by
      unfold trT
      cases sd <;> simp only [if_true, reduceCtorEq, if_false, trFwd] at hf ⊢ <;> apply op_tri_zero <;>
        cases hh : opLow u t <;> simp only [hh, if_true, if_false, Bool.false_eq_true, Bool.not_true, Bool.not_false] at hf ⊢ <;>
        exact key (by assumption) (by assumption) hf
    dsimp only
    rw [this, zero_mul]
  -- the chain of products
  unfold tmBody
  rw [texec_cons]
  set c' := tmB sd B (r / b) (c / b) with hc'
  set s1 := (coreTrmm sd u t d (if sd = .left then tdim Mm b (r / b) else tdim Mm b (c / b))
    (if sd = .left then tdim Nn b (c / b) else tdim Nn b (r / b)) alpha (A.at' (r / b) (r / b)) c').run s with hs1
  have hs1f : ∀ x, x ≠ c' → s1 x = s x := by
    intro x hx; rw [hs1]; unfold coreTrmm; exact op1_ne _ hx
  have hAs : ∀ (s' : Store (M × Nat × Nat) α), (∀ x, x ≠ c' → s' x = s x) → ∀ x : M × Nat × Nat, x.1 = A.id →
      s' x = s x := by
    intro s' h x hx
    exact h x (fun he => hab (by rw [← hx, he, hc', tmB_id]))
  have haT : ∀ (x y : Nat), (if t = .noTrans then A.at' x y else A.at' y x).1 = A.id := by
    intro x y; split <;> rfl
  have hdiag : trEl sd (s1 c') (r % b) (c % b) =
      alpha * bsum (trN sd Mm Nn) b (r / b) (fun l => trT sd u t d (A.el s) r l * trEl sd (B.el s) l c) := by
    have hb2 : bsum (trN sd Mm Nn) b (r / b) (fun l => trT sd u t d (A.el s) r l * trEl sd (B.el s) l c) =
        ∑ l ∈ range (tdim (trN sd Mm Nn) b (r / b)),
          trT sd u t d (A.el s) r (r / b * b + l) * trEl sd (s c') l (c % b) := by
      refine Finset.sum_congr rfl fun l hl => ?_
      rw [Finset.mem_range] at hl
      have hlb : l < b := lt_of_lt_of_le hl tdim_le
      dsimp only
      rw [trEl_tmB' hB s hlb]
    rw [hb2, hs1]
    clear_value c'
    cases sd
    · simp only [trEl, trN, trP, trT, if_true] at *
      rw [coreTrmm_run _ ⟨hrt, hct⟩]
      simp only [trmmK, if_true]
      congr 1
      refine Finset.sum_congr rfl fun l hl => ?_
      rw [Finset.mem_range] at hl
      rw [op_trE_diag hA s hrb (lt_of_lt_of_le hl tdim_le), ← hrm]
    · simp only [trEl, trN, trP, trT, reduceCtorEq, if_false] at *
      rw [coreTrmm_run _ ⟨hct, hrt⟩]
      simp only [trmmK, reduceCtorEq, if_false]
      congr 1
      refine Finset.sum_congr rfl fun l hl => ?_
      rw [Finset.mem_range] at hl
      rw [op_trE_diag hA s (lt_of_lt_of_le hl tdim_le) hrb, ← hrm, mul_comm]
  have hoff : ∀ k ∈ tmK (trFwd sd u t) (ceilDiv (trN sd Mm Nn) b) (r / b), ∀ s' : Store (M × Nat × Nat) α,
      (∀ x, x ≠ c' → s' x = s x) →
      trEl sd ((tmGemm sd t alpha A B b Mm Nn (r / b) (c / b) k).run s' c') (r % b) (c % b) =
        trEl sd (s' c') (r % b) (c % b) + alpha * bsum (trN sd Mm Nn) b k
          (fun l => trT sd u t d (A.el s) r l * trEl sd (B.el s) l c) := by
    intro k hk s' hs'
    rw [mem_tmK] at hk
    have hne : tmB sd B k (c / b) ≠ c' := by
      rw [hc']; intro he
      have := (tmB_inj he).1
      cases hf : trFwd sd u t <;> simp only [hf, if_true, if_false, Bool.false_eq_true] at hk <;> omega
    have hb2 : bsum (trN sd Mm Nn) b k (fun l => trT sd u t d (A.el s) r l * trEl sd (B.el s) l c) =
        ∑ l ∈ range (tdim (trN sd Mm Nn) b k),
          trT sd u t d (A.el s) r (k * b + l) * trEl sd (s (tmB sd B k (c / b))) l (c % b) := by
      refine Finset.sum_congr rfl fun l hl => ?_
      rw [Finset.mem_range] at hl
      have hlb : l < b := lt_of_lt_of_le hl tdim_le
      dsimp only
      rw [trEl_tmB' hB s hlb]
    rw [hb2]
    have hk1 : if trFwd sd u t then k < r / b else r / b < k := by
      cases hf : trFwd sd u t <;> simp only [hf, if_true, if_false, Bool.false_eq_true] at hk ⊢
      · exact hk.1
      · exact hk
    have hBk := hs' _ hne
    have hA1 := hAs s' hs' _ (haT (r / b) k)
    have hA2 := hAs s' hs' _ (haT k (r / b))
    clear hdiag hb2 hbs hs1f hs1 s1
    clear_value c'
    subst hc'
    cases sd
    · simp only [trEl, trN, trP, trT, tmGemm, tmB, if_true] at *
      rw [gemm_run _ ⟨hrt, hct⟩, one_mul, hBk, hA1]
      congr 2
      refine Finset.sum_congr rfl fun l hl => ?_
      rw [Finset.mem_range] at hl
      have hlb : l < b := lt_of_lt_of_le hl tdim_le
      rw [op_trE_off (d := d) hA s hrb hlb (by simpa [trFwd] using hk1), ← hrm]
      simp only [opE]
    · simp only [trEl, trN, trP, trT, tmGemm, tmB, reduceCtorEq, if_false] at *
      rw [gemm_run _ ⟨hct, hrt⟩, one_mul, hBk, hA2]
      congr 2
      refine Finset.sum_congr rfl fun l hl => ?_
      rw [Finset.mem_range] at hl
      have hlb : l < b := lt_of_lt_of_le hl tdim_le
      rw [op_trE_off (d := d) hA s hlb hrb (by
        simp only [trFwd, reduceCtorEq, if_false] at hk1 ⊢
        cases hh : opLow u t <;> simp only [hh] at hk1 ⊢ <;> simpa using hk1), ← hrm]
      simp only [opE]
      rw [mul_comm]
  rw [mul_add, ← hdiag]
  have hsum : alpha * ((tmK (trFwd sd u t) (ceilDiv (trN sd Mm Nn) b) (r / b)).map fun k =>
      bsum (trN sd Mm Nn) b k fun l => trT sd u t d (A.el s) r l * trEl sd (B.el s) l c).sum =
      ((tmK (trFwd sd u t) (ceilDiv (trN sd Mm Nn) b) (r / b)).map fun k =>
      alpha * bsum (trN sd Mm Nn) b k fun l => trT sd u t d (A.el s) r l * trEl sd (B.el s) l c).sum := by
    rw [List.sum_map_mul_left]
  rw [hsum]
  have hw : ∀ k, Writes (fun x => x = c') [tmGemm sd t alpha A B b Mm Nn (r / b) (c / b) k] :=
    fun k => tmGemm_writes
  clear hdiag hsum hbs
  cases sd
  · simp only [trEl, if_true] at hoff ⊢
    exact acc_list hw s _ (fun k hk s' hs' => hoff k hk s' hs') s1 hs1f
  · simp only [trEl, reduceCtorEq, if_false] at hoff ⊢
    exact acc_list hw s _ (fun k hk s' hs' => hoff k hk s' hs') s1 hs1f

omit [DecidableEq α] in
theorem pztrmm_writes (hA : A.Al b) (hB : B.Al b) (hm : B.d.m = Mm) (hn : B.d.n = Nn)
    (hAm : A.d.m = trN sd Mm Nn) (hAn : A.d.n = trN sd Mm Nn) :
    Writes (fun x => x.1 = B.id) (pztrmm sd u t d alpha A B) := by
  rw [pztrmm_eq hA hB hm hn hAm hAn]
  exact Writes.flatMap fun p _ => tmBody_writes.mono fun x hx => by rw [hx, tmB_id]

omit [DecidableEq α] in
/-- The tasks touch stored elements only; of `A` only tiles of the selected triangle. -/
theorem pztrmm_good {env : M → MatEnv} (hA : FitsOn env b (inTri u) A) (hB : Fits env b B)
    (hm : B.d.m = Mm) (hn : B.d.n = Nn) (hAm : A.d.m = trN sd Mm Nn) (hAn : A.d.n = trN sd Mm Nn) :
    Good (evalid env) (pztrmm sd u t d alpha A B) := by
  rw [pztrmm_eq hA.al hB.al hm hn hAm hAn]
  refine Good.flatMap fun p hp => ?_
  have hAd : ∀ {x : Nat} {i j}, triD u d (tdim (trN sd Mm Nn) b x) i j → evalid env (A.at' x x) i j := by
    intro x i j h
    exact hA.validOn (by unfold inTri; cases u <;> simp) (by rw [hAm]; exact h.1) (by rw [hAn]; exact h.2.1)
  have hAo : ∀ {x y : Nat} {i j}, inTri u x y → i < tdim (trN sd Mm Nn) b x → j < tdim (trN sd Mm Nn) b y →
      evalid env (A.at' x y) i j := by
    intro x y i j h hi hj
    exact hA.validOn h (by rw [hAm]; exact hi) (by rw [hAn]; exact hj)
  have hBb : ∀ (x y : Nat) i j, box (tdim Mm b x) (tdim Nn b y) i j → evalid env (B.at' x y) i j :=
    fun x y => hB.box (by rw [hm]) (by rw [hn])
  unfold tmBody
  refine Good.cons ?_ (Good.map fun k hk => ?_)
  · refine Good.single coreTrmm_local op1_declared (op1_inside (fun i j h => hAd ?_) ?_)
    · unfold trN; cases sd <;> simpa using h
    · unfold tmB; cases sd <;> simp only [if_true, reduceCtorEq, if_false] <;> exact hBb _ _
  · rw [mem_tmK] at hk
    have hk1 : if trFwd sd u t then k < p.1 else p.1 < k := by
      cases hf : trFwd sd u t <;> simp only [hf, if_true, if_false, Bool.false_eq_true] at hk ⊢
      · exact hk.1
      · exact hk
    unfold tmGemm
    cases sd
    · simp only [if_true, trN] at *
      refine gemm_single_good ?_ ?_ (hBb _ _)
      · intro i j h
        by_cases ht : t = .noTrans
        · rw [if_pos ht] at h ⊢
          refine hAo ?_ h.1 h.2
          cases u <;> simp [trFwd, opLow, ht, inTri] at hk1 ⊢ <;> omega
        · rw [if_neg ht] at h ⊢
          refine hAo ?_ h.1 h.2
          cases u <;> simp [trFwd, opLow, ht, inTri] at hk1 ⊢ <;> omega
      · simp only [if_true]; exact hBb _ _
    · simp only [if_false, reduceCtorEq, trN] at *
      refine gemm_single_good ?_ ?_ (hBb _ _)
      · simp only [if_true]; exact hBb _ _
      · intro i j h
        by_cases ht : t = .noTrans
        · rw [if_pos ht] at h ⊢
          refine hAo ?_ h.1 h.2
          cases u <;> simp [trFwd, opLow, ht, inTri] at hk1 ⊢ <;> omega
        · rw [if_neg ht] at h ⊢
          refine hAo ?_ h.1 h.2
          cases u <;> simp [trFwd, opLow, ht, inTri] at hk1 ⊢ <;> omega

end

end Verif.Tile

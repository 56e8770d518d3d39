/-
Norms: tasks that reduce the tiles of a matrix into a work array, a `taskwait`, and a task that
reduces the work array (compute/pzlange.c, pzlansy.c, pzlanhe.c, pzlantr.c, pdzamax.c), inside
the synchronous driver.
-/
import Verif.DriverG
import Verif.GeswpProof
import Verif.Props.Geswp
import Mathlib.Analysis.RCLike.Basic

namespace Verif.Tile

open Verif.Layout Verif.Props Finset

set_option linter.unusedSectionVars false

universe u v

section
variable {M : Type u} {𝕜 : Type v} [RCLike 𝕜]

/-- A kernel call that reads tile `(m, n)` and computes `g` at the positions `R` of the work
array.  Real numbers are stored in the same memory as the complex numbers. -/
structure Blk (𝕜 : Type v) where
  m : Nat
  n : Nat
  R : Nat → Nat → Prop
  g : Tl 𝕜 → Nat → Nat → ℝ

/-- The task of such a kernel call.  The kernels declare `depend(in: A[..])` on the tile and
`depend(out: ..)` on a part of the work array.  The latter is left out: the model allows more
executions than the code, and only the `taskwait` orders these tasks with the reduction. -/
def blkT (A W : TMat M) (k : Blk 𝕜) : TTask (M × Nat × Nat) 𝕜 :=
  gop [(A.at' k.m k.n, false)]
    (fun x i j => x = A.at' k.m k.n ∧ box (A.d.mview k.m) (A.d.nview k.n) i j)
    W k.R (fun s r c => ((k.g (s (A.at' k.m k.n)) r c : ℝ) : 𝕜))

/-- The task after `#pragma omp taskwait`: reads the work array and writes the positions `R` of
the result. -/
def redT (W V : TMat M) (R : Nat → Nat → Prop) (red : (Nat → Nat → ℝ) → Nat → Nat → ℝ) :
    TTask (M × Nat × Nat) 𝕜 :=
  { gop [] (W.reg fun r c => r < W.d.m ∧ c < W.d.n) V R
      (fun s r c => ((red (fun p q => RCLike.re (W.el s p q)) r c : ℝ) : 𝕜)) with phase := 1 }

/-- Tasks of a norm computation. -/
def normP {ι : Type} (A W V : TMat M) (L : List ι) (blk : ι → Blk 𝕜) (R : Nat → Nat → Prop)
    (red : (Nat → Nat → ℝ) → Nat → Nat → ℝ) : List (TTask (M × Nat × Nat) 𝕜) :=
  (L.map fun i => blkT A W (blk i)) ++ [redT W V R red]

/-- The kernel calls `L` use existing tiles, read only elements of the tile, write inside the work array and
write different parts of it. -/
structure BlkOK {ι : Type} (A W : TMat M) (L : List ι) (blk : ι → Blk 𝕜) : Prop where
  nodup : L.Nodup
  tile : ∀ i ∈ L, (blk i).m < A.d.mt ∧ (blk i).n < A.d.nt
  reads : ∀ i ∈ L, ∀ a a' : Tl 𝕜,
    (∀ p q, p < A.d.mview (blk i).m → q < A.d.nview (blk i).n → a p q = a' p q) →
    ∀ r c, (blk i).R r c → (blk i).g a r c = (blk i).g a' r c
  inW : ∀ i ∈ L, ∀ r c, (blk i).R r c → r < W.d.m ∧ c < W.d.n
  one : ∀ i ∈ L, ∀ j ∈ L, ∀ r c, (blk i).R r c → (blk j).R r c → i = j

variable {b : Nat} {A W V : TMat M} {ι : Type} {L : List ι} {blk : ι → Blk 𝕜}

theorem blks_A (hAW : A.id ≠ W.id) (L : List ι) (blk : ι → Blk 𝕜) (s : Store (M × Nat × Nat) 𝕜)
    {x : M × Nat × Nat} (hx : x.1 ≠ W.id) :
    texec (L.map fun i => blkT A W (blk i)) s x = s x := by
  induction L generalizing s with
  | nil => rfl
  | cons i L ih =>
    rw [List.map_cons, texec_cons, ih]
    exact gop_ne s hx

theorem blks_out (hW : W.Al b) (L : List ι) (blk : ι → Blk 𝕜) (s : Store (M × Nat × Nat) 𝕜) {r c : Nat}
    (h : ∀ i ∈ L, ¬ (blk i).R r c) : W.el (texec (L.map fun i => blkT A W (blk i)) s) r c = W.el s r c := by
  induction L generalizing s with
  | nil => rfl
  | cons i L ih =>
    rw [List.map_cons, texec_cons, ih _ (fun j hj => h j (by simp [hj]))]
    exact gop_out (by rw [hW.mb]; exact hW.pos) (by rw [hW.nb]; exact hW.pos) s (h i (by simp))

theorem blks_in (hW : W.Al b) (hAW : A.id ≠ W.id) (hL : L.Nodup)
    (h1 : ∀ i ∈ L, ∀ j ∈ L, ∀ r c, (blk i).R r c → (blk j).R r c → i = j)
    (s : Store (M × Nat × Nat) 𝕜) {r c : Nat} {i : ι} (hi : i ∈ L) (hR : (blk i).R r c) :
    W.el (texec (L.map fun i => blkT A W (blk i)) s) r c =
      (((blk i).g (s (A.at' (blk i).m (blk i).n)) r c : ℝ) : 𝕜) := by
  induction L generalizing s with
  | nil => simp at hi
  | cons j L ih =>
    rw [List.map_cons, texec_cons]
    rw [List.nodup_cons] at hL
    rcases List.mem_cons.mp hi with rfl | hi
    · rw [blks_out hW]
      · exact gop_in (by rw [hW.mb]; exact hW.pos) (by rw [hW.nb]; exact hW.pos) s hR
      · intro j hj hR'
        have := h1 i (by simp) j (by simp [hj]) r c hR hR'
        exact hL.1 (this ▸ hj)
    · rw [ih hL.2 (fun i hi j hj => h1 i (by simp [hi]) j (by simp [hj])) _ hi]
      have : (blkT A W (blk j)).run s (A.at' (blk i).m (blk i).n) = s (A.at' (blk i).m (blk i).n) :=
        gop_ne s (by exact hAW)
      rw [this]

/-! ### The tasks are well behaved -/

theorem blkT_local (h : BlkOK A W L blk) {i : ι} (hi : i ∈ L) : (blkT A W (blk i)).Local := by
  apply gop_local
  intro s s' hs r c hR
  rw [h.reads i hi (s (A.at' (blk i).m (blk i).n)) (s' (A.at' (blk i).m (blk i).n)) ?_ r c hR]
  intro p q hp hq
  exact hs _ _ _ (Or.inl ⟨rfl, hp, hq⟩)

theorem blkT_inside {env : M → MatEnv} (h : BlkOK A W L blk) (hA : Fits env b A) (hW : Fits env b W) {i : ι}
    (hi : i ∈ L) : (blkT A W (blk i)).Inside (evalid env) := by
  obtain ⟨hm, hn⟩ := h.tile i hi
  rintro x p q (⟨rfl, hx⟩ | hx)
  · refine hA.box (le_of_eq rfl) (le_of_eq rfl) p q ?_
    rw [← hA.al.mview hm, ← hA.al.nview hn]; exact hx
  · exact reg_inside hW (h.inW i hi) hx

theorem redT_local {R : Nat → Nat → Prop} {red : (Nat → Nat → ℝ) → Nat → Nat → ℝ} (hW : W.Al b)
    (hred : ∀ w w', (∀ r c, r < W.d.m → c < W.d.n → w r c = w' r c) → ∀ r c, R r c → red w r c = red w' r c) :
    (redT (𝕜 := 𝕜) W V R red).Local := by
  have key : (gop (M := M) (α := 𝕜) [] (W.reg fun r c => r < W.d.m ∧ c < W.d.n) V R
      (fun s r c => ((red (fun p q => RCLike.re (W.el s p q)) r c : ℝ) : 𝕜))).Local := by
    refine gop_local ?_
    intro s s' hs r c hR
    congr 1
    refine hred _ _ (fun p q hp hq => ?_) r c hR
    congr 1
    exact TMat.el_eq_of_reg (R := fun r c => r < W.d.m ∧ c < W.d.n) (by rw [hW.mb]; exact hW.pos)
      (by rw [hW.nb]; exact hW.pos) (fun x i j hx => hs x i j (Or.inl hx)) ⟨hp, hq⟩
  exact key

theorem redT_inside {env : M → MatEnv} {R : Nat → Nat → Prop} {red : (Nat → Nat → ℝ) → Nat → Nat → ℝ}
    (hW : Fits env b W) (hV : Fits env b V) (hR : ∀ r c, R r c → r < V.d.m ∧ c < V.d.n) :
    (redT (𝕜 := 𝕜) W V R red).Inside (evalid env) := by
  rintro x p q (hx | hx)
  · exact reg_inside (R := fun r c => r < W.d.m ∧ c < W.d.n) hW (fun r c h => h) hx
  · exact reg_inside hV hR hx

/-- Conflicting tasks have a common dependence or different phases. -/
theorem tcovered_pairwise {P : List (TTask M 𝕜)} (h : P.Pairwise fun t t' => TConflict t t' → TDepOn t t') :
    TCovered P := by
  intro i j t t' hij hi hj hc
  refine Relation.TransGen.single ⟨hij, t, t', hi, hj, ?_⟩
  obtain ⟨hi', rfl⟩ := List.getElem?_eq_some_iff.mp hi
  obtain ⟨hj', rfl⟩ := List.getElem?_eq_some_iff.mp hj
  exact List.pairwise_iff_getElem.mp h i j hi' hj' hij hc

theorem depOn_of_declared {t t' : TTask M 𝕜} (ht : t.Declared) (ht' : t'.Declared) (hc : TConflict t t') :
    TDepOn t t' := by
  obtain ⟨a, k, l, hc⟩ := hc
  refine Or.inr ?_
  rcases hc with ⟨h1, h2 | h2⟩ | ⟨h1, h2⟩
  · obtain ⟨b, hb⟩ := ht'.1 _ _ _ h2
    exact ⟨_, ht.2 _ _ _ h1, _, hb, rfl, Or.inl rfl⟩
  · exact ⟨_, ht.2 _ _ _ h1, _, ht'.2 _ _ _ h2, rfl, Or.inl rfl⟩
  · obtain ⟨b, hb⟩ := ht.1 _ _ _ h1
    exact ⟨_, hb, _, ht'.2 _ _ _ h2, rfl, Or.inr rfl⟩

/-- Coverage of conversion tasks followed by a norm computation. -/
theorem normP_cov {R : Nat → Nat → Prop} {red : (Nat → Nat → ℝ) → Nat → Nat → ℝ}
    {C : List (TTask (M × Nat × Nat) 𝕜)} (h : BlkOK A W L blk)
    (hAW : A.id ≠ W.id) (hCd : ∀ t ∈ C, t.Declared)
    (hC : ∀ t ∈ C, ∀ x i j, t.rd x i j ∨ t.wr x i j → x.1 ≠ W.id ∧ x.1 ≠ V.id)
    (hCp : ∀ t ∈ C, t.phase = 0) :
    TCovered (C ++ normP A W V L blk R red) := by
  apply tcovered_pairwise
  unfold normP
  have hred : ∀ t : TTask (M × Nat × Nat) 𝕜, t.phase = 0 → TDepOn t (redT W V R red) := by
    intro t ht
    exact Or.inl (by rw [ht]; exact Nat.zero_lt_one)
  rw [List.pairwise_append]
  refine ⟨?_, ?_, ?_⟩
  · exact List.pairwise_of_forall_mem_list fun t ht t' ht' hc => depOn_of_declared (hCd t ht) (hCd t' ht') hc
  · rw [List.pairwise_append]
    refine ⟨?_, List.pairwise_singleton _ _, ?_⟩
    · rw [List.pairwise_map]
      refine h.nodup.imp_of_mem ?_
      rintro i j hi hj hij ⟨x, p, q, hc⟩
      exfalso
      rcases hc with ⟨h1, h2 | h2⟩ | ⟨h1, h2⟩
      · have e1 : x.1 = W.id := h1.1
        have e2 : x = A.at' (blk j).m (blk j).n := h2.1
        rw [e2] at e1; exact hAW e1
      · have e1 : W.reg (blk i).R x p q := h1
        have e2 : W.reg (blk j).R x p q := h2
        exact hij (h.one i hi j hj _ _ e1.2.2.2.2.2 e2.2.2.2.2.2)
      · have e1 : x.1 = W.id := h2.1
        have e2 : x = A.at' (blk i).m (blk i).n := h1.1
        rw [e2] at e1; exact hAW e1
    · intro t ht t' ht' _
      rw [List.mem_singleton] at ht'
      subst ht'
      obtain ⟨i, _, rfl⟩ := List.mem_map.mp ht
      exact hred _ rfl
  · intro t ht t' ht' hc
    rcases List.mem_append.mp ht' with ht' | ht'
    · obtain ⟨i, _, rfl⟩ := List.mem_map.mp ht'
      obtain ⟨x, p, q, hc⟩ := hc
      rcases hc with ⟨h1, h2 | h2⟩ | ⟨h1, h2⟩
      · have e2 : x = A.at' (blk i).m (blk i).n := h2.1
        subst e2
        exact Or.inr ⟨_, (hCd t ht).2 _ _ _ h1, (A.at' (blk i).m (blk i).n, false), by simp [blkT, gop], rfl, Or.inl rfl⟩
      · exact absurd h2.1 (hC t ht _ _ _ (Or.inr h1)).1
      · exact absurd h2.1 (hC t ht _ _ _ (Or.inl h1)).1
    · rw [List.mem_singleton] at ht'
      subst ht'
      exact hred _ (hCp t ht)

end

/-! ### The driver -/

section
variable {𝕜 : Type v} [RCLike 𝕜] {ι : Type}

/-- Array 0 is the matrix, array 1 the work array, array 2 the result. -/
def nmDims (m n : Nat) (w v : Nat × Nat) : Nat → Nat × Nat
  | 0 => (m, n)
  | 1 => w
  | 2 => v
  | _ => (0, 0)

/-- Leading dimensions; the work array and the result are contiguous. -/
def nmLd (lda : Nat) (w v : Nat × Nat) : Nat → Nat
  | 0 => lda
  | 1 => w.1
  | 2 => v.1
  | _ => 0

/-- The norm drivers (for example compute/zlange.c:115-177): a tile matrix and the work array are
allocated, the matrix is converted, the norm computed.  The work array and the result
are not converted. -/
def normDrv (nb m n : Nat) (w v : Nat × Nat) (L : List ι) (blk : ι → Blk 𝕜) (R : Nat → Nat → Prop)
    (red : (Nat → Nat → ℝ) → Nat → Nat → ℝ) : List (GTTask (Buf × Nat × Nat) 𝕜) :=
  gdriverK nb (nmDims m n w v) (fun _ => none) [0]
    (okT (normP (tMat nb (nmDims m n w v) 0) (uMat nb (nmDims m n w v) 1) (uMat nb (nmDims m n w v) 2) L blk R red)) []

theorem nm_sq {m n : Nat} {w v : Nat × Nat} : ∀ k, stSq ((fun _ => none : Nat → Stor) k)
    (nmDims m n w v k).1 (nmDims m n w v k).2 := fun _ => Or.inl rfl

theorem nm_ld {m n lda : Nat} {w v : Nat × Nat} (h : m ≤ lda) :
    ∀ k, (nmDims m n w v k).1 ≤ nmLd lda w v k := by
  intro k; rcases k with _ | _ | _ | k <;> simp [nmDims, nmLd, h]

theorem normDrv_good {nb : Nat} (hnb : 0 < nb) {m n lda : Nat} {w v : Nat × Nat} {L : List ι} {blk : ι → Blk 𝕜}
    {R : Nat → Nat → Prop} {red : (Nat → Nat → ℝ) → Nat → Nat → ℝ}
    (hB : BlkOK (tMat nb (nmDims m n w v) 0) (uMat nb (nmDims m n w v) 1) L blk)
    (hR : ∀ r c, R r c → r < v.1 ∧ c < v.2)
    (hred : ∀ a a', (∀ r c, r < w.1 → c < w.2 → a r c = a' r c) → ∀ r c, R r c → red a r c = red a' r c) :
    GoodC (evalid (drvEnvK nb (nmDims m n w v) (nmLd lda w v) (fun _ => none)))
      (tasks (normDrv (𝕜 := 𝕜) nb m n w v L blk R red)) := by
  unfold normDrv
  rw [tasks_gdriverK, tasks_okT]
  have h0 := driverK_good (α := 𝕜) (dims := nmDims m n w v) (ld := nmLd lda w v) (ins := [0]) (outs := [])
    hnb nm_sq Good.nil
  unfold driverK at h0 ⊢
  simp only [List.flatMap_nil, List.append_nil] at h0 ⊢
  set A := tMat nb (nmDims m n w v) 0 with hA
  set W := uMat nb (nmDims m n w v) 1 with hW
  set V := uMat nb (nmDims m n w v) 2 with hV
  have hAf : Fits (drvEnvK nb (nmDims m n w v) (nmLd lda w v) (fun _ => none)) nb A := fitsK_gen hnb rfl
  have hWf : Fits (drvEnvK nb (nmDims m n w v) (nmLd lda w v) (fun _ => none)) nb W := fitsK_u hnb 1
  have hVf : Fits (drvEnvK nb (nmDims m n w v) (nmLd lda w v) (fun _ => none)) nb V := fitsK_u hnb 2
  have hloc : ∀ t ∈ normP (𝕜 := 𝕜) A W V L blk R red, t.Local ∧
      t.Inside (evalid (drvEnvK nb (nmDims m n w v) (nmLd lda w v) (fun _ => none))) := by
    intro t ht
    rcases List.mem_append.mp ht with ht | ht
    · obtain ⟨i, hi, rfl⟩ := List.mem_map.mp ht
      exact ⟨blkT_local hB hi, blkT_inside hB hAf hWf hi⟩
    · rw [List.mem_singleton] at ht
      subst ht
      exact ⟨redT_local hWf.al hred, redT_inside hWf hVf hR⟩
  refine ⟨?_, ?_, ?_⟩
  · intro t ht
    rcases List.mem_append.mp ht with ht | ht
    · exact h0.loc t ht
    · exact (hloc t ht).1
  · intro t ht
    rcases List.mem_append.mp ht with ht | ht
    · exact h0.ins t ht
    · exact (hloc t ht).2
  · refine normP_cov hB (by simp [hA, hW, tMat, uMat, TMat.full]) h0.decl ?_ ?_
    · intro t ht x i j hx
      obtain ⟨k, hk, ht⟩ := List.mem_flatMap.mp ht
      rw [List.mem_singleton] at hk
      subst hk
      unfold copyK at ht
      obtain ⟨m, _, ht⟩ := List.mem_flatMap.mp ht
      obtain ⟨n, _, rfl⟩ := List.mem_map.mp ht
      rcases hx with hx | hx
      · rw [hx.1]; simp [hW, hV, uMat, TMat.full, TMat.at']
      · rw [hx.1]; simp [hW, hV, uMat, tMat, TMat.full, TMat.at']
    · intro t ht
      obtain ⟨k, hk, ht⟩ := List.mem_flatMap.mp ht
      unfold copyK at ht
      obtain ⟨m, _, ht⟩ := List.mem_flatMap.mp ht
      obtain ⟨n, _, rfl⟩ := List.mem_map.mp ht
      rfl

/-- The tile `(p, q)` of the matrix of the caller. -/
def tileOf (nb : Nat) (X : Nat → Nat → 𝕜) (p q : Nat) : Tl 𝕜 := fun i j => X (p * nb + i) (q * nb + j)

open Classical in
/-- Every execution of a norm driver returns the reduction of the kernel results. -/
theorem normDrv_correct {nb : Nat} (hnb : 0 < nb) {m n lda : Nat} (hl : m ≤ lda) {w v : Nat × Nat} {L : List ι}
    {blk : ι → Blk 𝕜} {R : Nat → Nat → Prop} {red : (Nat → Nat → ℝ) → Nat → Nat → ℝ}
    (hB : BlkOK (tMat nb (nmDims m n w v) 0) (uMat nb (nmDims m n w v) 1) L blk)
    (hR : ∀ r c, R r c → r < v.1 ∧ c < v.2)
    (hred : ∀ a a', (∀ r c, r < w.1 → c < w.2 → a r c = a' r c) → ∀ r c, R r c → red a r c = red a' r c)
    {mem mem' : Buf × Nat → 𝕜} {st : Int}
    (hx : GExec (drvEnvK nb (nmDims m n w v) (nmLd lda w v) (fun _ => none))
      (normDrv nb m n w v L blk R red) mem mem' st) :
    st = 0 ∧
    (∃ a : Nat → Nat → ℝ,
      (∀ i ∈ L, ∀ r c, (blk i).R r c →
        a r c = (blk i).g (tileOf nb (arr mem 0 lda) (blk i).m (blk i).n) r c) ∧
      (∀ r c, (∀ i ∈ L, ¬ (blk i).R r c) → a r c = RCLike.re (arr mem 1 w.1 r c)) ∧
      ∀ r c, R r c → arr mem' 2 v.1 r c = ((red a r c : ℝ) : 𝕜)) ∧
    (∀ k x, k ≠ 1 → (k = 2 → ∀ r c, r < v.1 → c < v.2 → x ≠ r + c * v.1) → mem' (.usr k, x) = mem (.usr k, x)) := by
  have hg := normDrv_good (lda := lda) hnb hB hR hred
  set A := tMat nb (nmDims m n w v) 0 with hA
  set W := uMat nb (nmDims m n w v) 1 with hW
  set V := uMat nb (nmDims m n w v) 2 with hV
  have hwr : OnTilesW [1, 2] (normP (𝕜 := 𝕜) A W V L blk R red) := by
    intro t ht x i j hw
    rcases List.mem_append.mp ht with ht | ht
    · obtain ⟨i, hi, rfl⟩ := List.mem_map.mp ht
      exact Or.inr ⟨1, by simp, hw.1⟩
    · rw [List.mem_singleton] at ht
      subst ht
      exact Or.inr ⟨2, by simp, hw.1⟩
  have hwr' : OnTilesW [1, 2] (tasks (okT (normP (𝕜 := 𝕜) A W V L blk R red))) := by rw [tasks_okT]; exact hwr
  unfold normDrv at hx
  have hst : st = 0 := by
    refine status_zero hnb (nm_ld hl) nm_sq ?_ ?_ hg hx
    · intro t ht s
      unfold normDrv gdriverK at ht
      rcases List.mem_append.mp ht with ht | ht
      · rcases List.mem_append.mp ht with ht | ht
        · exact safe_ok _ t ht s
        · exact safe_ok _ t ht s
      · exact safe_ok _ t ht s
    · exact ((CodeOK.ok _).append (CodeOK.ok _)).append (CodeOK.ok _)
  subst hst
  obtain ⟨f1, f2⟩ := gdrvC_frame hnb nm_sq hwr' hg.ins hx
  obtain ⟨s, hin, hu, -, -, hout, -⟩ := gdrvC_success hnb (nm_ld hl) nm_sq (by simp) (by simp) (by simp) hwr'
    (CodeOK.ok _) hg hx
  rw [tasks_okT] at hout
  have hAal : A.Al nb := al_t hnb 0
  have hWal : W.Al nb := al_u hnb 1
  have hVal : V.Al nb := al_u hnb 2
  have hAW : A.id ≠ W.id := by simp [hA, hW, tMat, uMat, TMat.full]
  refine ⟨rfl, ⟨fun r c => RCLike.re (W.el (texec (L.map fun i => blkT A W (blk i)) s) r c), ?_, ?_, ?_⟩, ?_⟩
  · intro i hi r c hRi
    dsimp only
    rw [blks_in hWal hAW hB.nodup hB.one s hi hRi, RCLike.ofReal_re]
    obtain ⟨hm, hn⟩ := hB.tile i hi
    refine hB.reads i hi _ _ (fun p q hp hq => ?_) r c hRi
    rw [hAal.mview hm] at hp
    rw [hAal.nview hn] at hq
    have hp' := tdim_row.mp hp
    have hq' := tdim_row.mp hq
    rw [← hAal.el_tile s hp'.1 hq'.1]
    exact hin 0 (by simp) _ _ hp'.2 hq'.2 trivial
  · intro r c hRi
    dsimp only
    rw [blks_out hWal L blk s hRi]
    congr 1
    exact hu 1 r c
  · intro r c hRc
    have hv := hR r c hRc
    have h1 : arr mem' 2 v.1 r c = V.el (texec (normP A W V L blk R red) s) r c := hout 2 (by simp) r c hv.1 hv.2
    rw [h1]
    unfold normP
    rw [texec_append]
    exact gop_in (deps := []) (rd := W.reg fun r c => r < W.d.m ∧ c < W.d.n)
      (g := fun s r c => ((red (fun p q => RCLike.re (W.el s p q)) r c : ℝ) : 𝕜))
      (by rw [hVal.mb]; exact hVal.pos) (by rw [hVal.nb]; exact hVal.pos)
      (texec (L.map fun i => blkT A W (blk i)) s) hRc
  · intro k x h1 h2
    by_cases hk : k = 2
    · subst hk
      exact f2 2 x (h2 rfl)
    · exact f1 k (by simp) (by simp [h1, hk]) x

end

end Verif.Tile

/-
C83: conversion between double and single precision.
-/
import Verif.Partial
import Verif.Props.AuxOps

namespace Verif.Props

open Verif.Tile Verif.Layout Verif.Sched

universe v

variable {α : Type v}

/-- The loop of LAPACK `zlag2c` over the positions `L`: an element that does not fit ends
it with code 1, the elements before it have been converted.  Memory holds values of both
precisions; `nar` is rounding to single precision and `ovf` tells that a real or imaginary
part lies outside the single-precision range (the kernel called by
core_blas/core_zlag2c.c:48-56; its body is LAPACK's). -/
def lag2cLoop (nar : α → α) (ovf : α → Bool) (A : Tl α) : List (Nat × Nat) → Tl α → Tl α × Int
  | [], S => (S, 0)
  | p :: L, S => if ovf (A p.1 p.2) then (S, 1)
      else lag2cLoop nar ovf A L fun i j => if i = p.1 ∧ j = p.2 then nar (A i j) else S i j

/-- Positions of an `m × n` tile, column by column. -/
def lagIdx (m n : Nat) : List (Nat × Nat) := (loop2 (List.range n) fun _ => List.range m).map Prod.swap

/-- `plasma_core_omp_zlag2c` (core_blas/core_zlag2c.c:48-80). -/
def coreLag2c {M : Type} (nar : α → α) (ovf : α → Bool) (m n : Nat) (a b : M) : GTTask M α where
  task := op1 a (rect 0 m 0 n) b (rect 0 m 0 n) fun A S => (lag2cLoop nar ovf A (lagIdx m n) S).1
  code := fun s => (lag2cLoop nar ovf (s a) (lagIdx m n) (s b)).2

/-- `plasma_pzlag2c` for general matrices (compute/pzlag2c.c:46-66). -/
def gzlag2c {M : Type} (nar : α → α) (ovf : α → Bool) (A As : TMat M) : List (GTTask (M × Nat × Nat) α) :=
  (List.range A.d.mt).flatMap fun m => (List.range A.d.nt).map fun n =>
    coreLag2c nar ovf (A.d.mview m) (A.d.nview n) (A.at' m n) (As.at' m n)

/-- `plasma_omp_zlag2c` (compute/zlag2c.c:188-235) with legal arguments. -/
def ompZlag2c {M : Type} (nar : α → α) (ovf : α → Bool) (A As : TMat M) : List (GTTask (M × Nat × Nat) α) :=
  if min A.d.m A.d.n = 0 then [] else gzlag2c nar ovf A As

/-- Tasks created by `plasma_zlag2c` (compute/zlag2c.c:58-148) with legal arguments; array
0 is `pA`, array 1 is `pAs`.  Both are translated, both ways. -/
def zlag2c (nb : Nat) (nar : α → α) (ovf : α → Bool) (m n : Nat) : List (GTTask (Buf × Nat × Nat) α) :=
  if min n m = 0 then []
  else gdriverK nb (auxDims .noTrans m n) (fun _ => none) [0, 1]
    (ompZlag2c nar ovf (tMat nb (auxDims .noTrans m n) 0) (tMat nb (auxDims .noTrans m n) 1)) [0, 1]

/-- `plasma_core_omp_clag2z` (core_blas/core_clag2z.c:48-70); `wid` is the conversion to
double precision. -/
def coreClag2z {M : Type} (wid : α → α) (m n : Nat) (a b : M) : TTask M α :=
  op1 a (rect 0 m 0 n) b (rect 0 m 0 n) fun S A => sweep (lagIdx m n) (fun i j _ => wid (S i j)) A

/-- `plasma_pclag2z` for general matrices (compute/pclag2z.c:26-48). -/
def pclag2z {M : Type} (wid : α → α) (As A : TMat M) : List (TTask (M × Nat × Nat) α) :=
  (List.range As.d.mt).flatMap fun m => (List.range As.d.nt).map fun n =>
    coreClag2z wid (As.d.mview m) (As.d.nview n) (As.at' m n) (A.at' m n)

/-- Tasks created by `plasma_clag2z` (compute/clag2z.c:58-144) with legal arguments; array 0
is `pA`, array 1 is `pAs`. -/
def clag2z (nb : Nat) (wid : α → α) (m n : Nat) : List (TTask (Buf × Nat × Nat) α) :=
  if min n m = 0 then []
  else driver nb (auxDims .noTrans m n) [1, 0]
    (if min (tMat nb (auxDims .noTrans m n) 1).d.m (tMat nb (auxDims .noTrans m n) 1).d.n = 0 then []
      else pclag2z wid (tMat nb (auxDims .noTrans m n) 1) (tMat nb (auxDims .noTrans m n) 0)) [1, 0]

/-! ### The kernel -/

theorem mem_lagIdx {m n i j : Nat} : (i, j) ∈ lagIdx m n ↔ i < m ∧ j < n := by
  rw [lagIdx, mem_swap, mem_loop2]
  simp [and_comm]

theorem nodup_lagIdx (m n : Nat) : (lagIdx m n).Nodup :=
  nodup_swap (nodup_loop2 List.nodup_range fun _ _ => List.nodup_range)

theorem lag2cLoop_code (nar : α → α) (ovf : α → Bool) (A : Tl α) (L : List (Nat × Nat)) : ∀ S : Tl α,
    (lag2cLoop nar ovf A L S).2 = if ∃ p ∈ L, ovf (A p.1 p.2) = true then 1 else 0 := by
  classical
  induction L with
  | nil => intro S; simp [lag2cLoop]
  | cons p L ih =>
    intro S
    unfold lag2cLoop
    by_cases h : ovf (A p.1 p.2) = true
    · rw [if_pos h, if_pos ⟨p, List.mem_cons_self, h⟩]
    · rw [if_neg h, ih]
      simp [h]

theorem lag2cLoop_val (nar : α → α) (ovf : α → Bool) (A : Tl α) (L : List (Nat × Nat))
    (hL : ∀ p ∈ L, ovf (A p.1 p.2) = false) (i j : Nat) : ∀ S : Tl α,
    (lag2cLoop nar ovf A L S).1 i j = if (i, j) ∈ L then nar (A i j) else S i j := by
  induction L with
  | nil => intro S; simp [lag2cLoop]
  | cons p L ih =>
    intro S
    unfold lag2cLoop
    rw [if_neg (by simp [hL p List.mem_cons_self]), ih (fun q hq => hL q (List.mem_cons_of_mem _ hq))]
    obtain ⟨p1, p2⟩ := p
    simp only [List.mem_cons, Prod.mk.injEq]
    by_cases h1 : (i, j) ∈ L <;> by_cases h2 : i = p1 ∧ j = p2 <;> simp [h1, h2]

theorem lag2cLoop_congr (nar : α → α) (ovf : α → Bool) {A A' : Tl α} (F : Nat → Nat → Prop)
    (L : List (Nat × Nat)) (hL : ∀ p ∈ L, F p.1 p.2) (hA : ∀ i j, F i j → A i j = A' i j) :
    ∀ S S' : Tl α, (∀ i j, F i j → S i j = S' i j) →
      (∀ i j, F i j → (lag2cLoop nar ovf A L S).1 i j = (lag2cLoop nar ovf A' L S').1 i j) ∧
      (lag2cLoop nar ovf A L S).2 = (lag2cLoop nar ovf A' L S').2 := by
  induction L with
  | nil => intro S S' hS; exact ⟨hS, rfl⟩
  | cons p L ih =>
    intro S S' hS
    unfold lag2cLoop
    have hp := hL p List.mem_cons_self
    rw [hA _ _ hp]
    split
    · exact ⟨hS, rfl⟩
    · refine ih (fun q hq => hL q (List.mem_cons_of_mem _ hq)) _ _ fun i j hij => ?_
      rw [hA i j hij, hS i j hij]

theorem lagIdx_rect {m n : Nat} : ∀ p ∈ lagIdx m n, rect 0 m 0 n p.1 p.2 := by
  rintro ⟨i, j⟩ h
  rw [mem_lagIdx] at h
  exact ⟨Nat.zero_le _, h.1, Nat.zero_le _, h.2⟩

section
variable {M : Type} {nar : α → α} {ovf : α → Bool}

theorem coreLag2c_local {m n : Nat} {a b : M} : (op1 a (rect 0 m 0 n) b (rect 0 m 0 n)
    fun A S => (lag2cLoop nar ovf A (lagIdx m n) S).1).Local :=
  op1_local fun _ _ _ _ hA hC i j hij =>
    (lag2cLoop_congr nar ovf (rect 0 m 0 n) (lagIdx m n) lagIdx_rect hA _ _ hC).1 i j hij

theorem coreLag2c_code {m n : Nat} {a b : M} : CodeOK [coreLag2c nar ovf m n a b] := by
  constructor
  · intro t ht s s' hs
    rw [List.mem_singleton] at ht; subst ht
    exact (lag2cLoop_congr nar ovf (rect 0 m 0 n) (lagIdx m n) lagIdx_rect
      (fun i j h => hs a i j (Or.inl ⟨rfl, h⟩)) _ _ (fun i j h => hs b i j (Or.inr ⟨rfl, h⟩))).2
  · intro t ht
    rw [List.mem_singleton] at ht; subst ht
    intro h; cases h

/-- The task for tile `p`. -/
def lagTask (nar : α → α) (ovf : α → Bool) (A As : TMat M) (b : Nat) (p : Nat × Nat) : GTTask (M × Nat × Nat) α :=
  coreLag2c nar ovf (tdim A.d.m b p.1) (tdim A.d.n b p.2) (A.at' p.1 p.2) (As.at' p.1 p.2)

theorem gzlag2c_eq {A As : TMat M} {b : Nat} (hA : A.Al b) :
    gzlag2c nar ovf A As = (rowIdx none A.d.mt A.d.nt).map (lagTask nar ovf A As b) := by
  unfold gzlag2c
  simp only [rowIdx, List.map_flatMap, List.map_map]
  refine List.flatMap_congr fun m hm => List.map_congr_left fun n hn => ?_
  rw [List.mem_range] at hm hn
  simp only [Function.comp, lagTask, hA.mview hm, hA.nview hn]

theorem gzlag2c_good {env : M → MatEnv} {A As : TMat M} {b : Nat} (hA : Fits env b A) (hS : Fits env b As)
    (hm : As.d.m = A.d.m) (hn : As.d.n = A.d.n) : Good (evalid env) (tasks (gzlag2c nar ovf A As)) := by
  rw [gzlag2c_eq hA.al, tasks, List.map_map]
  refine Good.map fun p _ => ?_
  show Good (evalid env) [op1 (A.at' p.1 p.2) (rect 0 (tdim A.d.m b p.1) 0 (tdim A.d.n b p.2)) (As.at' p.1 p.2)
    (rect 0 (tdim A.d.m b p.1) 0 (tdim A.d.n b p.2)) fun T S => (lag2cLoop nar ovf T (lagIdx (tdim A.d.m b p.1) (tdim A.d.n b p.2)) S).1]
  refine Good.single coreLag2c_local op1_declared (op1_inside ?_ ?_)
  · rintro i j ⟨_, h1, _, h2⟩; exact hA.valid h1 h2
  · rintro i j ⟨_, h1, _, h2⟩; exact hS.valid (by rw [hm]; exact h1) (by rw [hn]; exact h2)

theorem gzlag2c_codeOK (A As : TMat M) : CodeOK (gzlag2c nar ovf A As) := by
  unfold gzlag2c
  refine CodeOK.flatMap fun m _ => ?_
  rw [List.map_eq_flatMap]
  exact CodeOK.flatMap fun n _ => coreLag2c_code

theorem gzlag2c_guard (A As : TMat M) : ∀ t ∈ gzlag2c nar ovf A As, t.guard = true := by
  intro t ht
  obtain ⟨m, _, ht⟩ := List.mem_flatMap.mp ht
  obtain ⟨n, _, rfl⟩ := List.mem_map.mp ht
  rfl

theorem gzlag2c_writes (A As : TMat M) : Writes (fun x => x.1 = As.id) (tasks (gzlag2c nar ovf A As)) := by
  intro t ht x i j hw
  obtain ⟨g, hg, rfl⟩ := List.mem_map.mp ht
  obtain ⟨m, _, hg⟩ := List.mem_flatMap.mp hg
  obtain ⟨n, _, rfl⟩ := List.mem_map.mp hg
  obtain ⟨h1, _⟩ := hw
  rw [h1]; rfl

/-- Some element of tile `p` does not fit. -/
def TileOvf (ovf : α → Bool) (A : TMat M) (b : Nat) (s : Store (M × Nat × Nat) α) (p : Nat × Nat) : Prop :=
  ∃ i j, i < tdim A.d.m b p.1 ∧ j < tdim A.d.n b p.2 ∧ ovf (s (A.at' p.1 p.2) i j) = true

theorem gzlag2c_tcode {A As : TMat M} {b : Nat} (hA : A.Al b) (hab : A.id ≠ As.id)
    (s : Store (M × Nat × Nat) α) {i : Nat} {p : Nat × Nat} (hp : (rowIdx none A.d.mt A.d.nt)[i]? = some p) :
    (gzlag2c nar ovf A As)[i]? = some (lagTask nar ovf A As b p) ∧
    (TileOvf ovf A b s p → tcode (gzlag2c nar ovf A As) s i = 1) ∧
    (¬ TileOvf ovf A b s p → tcode (gzlag2c nar ovf A As) s i = 0) := by
  classical
  have h1 : (gzlag2c nar ovf A As)[i]? = some (lagTask nar ovf A As b p) := by
    rw [gzlag2c_eq hA, List.getElem?_map, hp]; rfl
  have h2 : tcode (gzlag2c nar ovf A As) s i = if TileOvf ovf A b s p then 1 else 0 := by
    unfold tcode
    rw [h1]
    simp only [lagTask, coreLag2c, lag2cLoop_code]
    have hfr : texec ((tasks (gzlag2c nar ovf A As)).take i) s (A.at' p.1 p.2) = s (A.at' p.1 p.2) := by
      refine Writes.frame (W := fun x => x.1 = As.id) ?_ s ?_
      · intro t ht; exact gzlag2c_writes A As t (List.mem_of_mem_take ht)
      · exact hab
    rw [hfr]
    refine if_congr ?_ rfl rfl
    constructor
    · rintro ⟨⟨x, y⟩, hm, ho⟩
      rw [mem_lagIdx] at hm
      exact ⟨x, y, hm.1, hm.2, ho⟩
    · rintro ⟨x, y, hx, hy, ho⟩
      exact ⟨(x, y), mem_lagIdx.mpr ⟨hx, hy⟩, ho⟩
  exact ⟨h1, fun h => by rw [h2, if_pos h], fun h => by rw [h2, if_neg h]⟩

/-- The converted matrix, in the tiles whose elements all fit. -/
theorem gzlag2c_el {A As : TMat M} {b : Nat} (hA : A.Al b) (hS : As.Al b) (hab : A.id ≠ As.id)
    (hm : As.d.m = A.d.m) (hn : As.d.n = A.d.n) (s : Store (M × Nat × Nat) α) {r c : Nat}
    (hr : r < A.d.m) (hc : c < A.d.n) (ho : ¬ TileOvf ovf A b s (r / b, c / b)) :
    As.el (texec (tasks (gzlag2c nar ovf A As)) s) r c = nar (A.el s r c) := by
  have hb := hA.pos
  have hidx : SelIdx none As.d.mt As.d.nt (rowIdx none A.d.mt A.d.nt) := by
    rw [hS.mt_eq, hS.nt_eq, hm, hn, ← hA.mt_eq, ← hA.nt_eq]; exact rowIdx_sel _ _ _
  rw [gzlag2c_eq hA, tasks, List.map_map]
  have e : (GTTask.task ∘ lagTask nar ovf A As b) = fun p => op1 (A.at' p.1 p.2) (rect 0 (tdim A.d.m b p.1) 0 (tdim A.d.n b p.2)) (As.at' p.1 p.2)
    (rect 0 (tdim A.d.m b p.1) 0 (tdim A.d.n b p.2)) fun T S => (lag2cLoop nar ovf T (lagIdx (tdim A.d.m b p.1) (tdim A.d.n b p.2)) S).1 := rfl
  rw [e]
  have := nest_el hS hidx (task := fun p => op1 (A.at' p.1 p.2) (rect 0 (tdim A.d.m b p.1) 0 (tdim A.d.n b p.2)) (As.at' p.1 p.2)
    (rect 0 (tdim A.d.m b p.1) 0 (tdim A.d.n b p.2)) fun T S => (lag2cLoop nar ovf T (lagIdx (tdim A.d.m b p.1) (tdim A.d.n b p.2)) S).1) (R := fun x => x = A.id)
    (fun h => hab h.symm) (fun p => writes_op1 rfl)
    (fun p => Within.op1 coreLag2c_local (Or.inl rfl) (Or.inr rfl)) s (r := r) (c := c)
    (by rw [hm]; exact hr) (by rw [hn]; exact hc) (v := nar (A.el s r c)) ?_
  · rw [this, if_pos (show stOK none r c from trivial)]
  · intro _
    rw [if_pos (show r / b = c / b → stOK none (r % b) (c % b) from fun _ => trivial)]
    have h1 := mod_lt_tdim hb hr
    have h2 := mod_lt_tdim hb hc
    rw [op1_self, paste_in ⟨Nat.zero_le _, h1, Nat.zero_le _, h2⟩, lag2cLoop_val, if_pos (mem_lagIdx.mpr ⟨h1, h2⟩)]
    · simp only [TMat.el, hA.mb, hA.nb]
    · rintro ⟨i, j⟩ hij
      rw [mem_lagIdx] at hij
      by_contra hne
      exact ho ⟨i, j, hij.1, hij.2, by simpa using hne⟩

theorem rowIdx_get {mt nt : Nat} {p : Nat × Nat} (h1 : p.1 < mt) (h2 : p.2 < nt) :
    ∃ i : Nat, (rowIdx none mt nt)[i]? = some p := by
  rw [← List.mem_iff_getElem?, (rowIdx_sel none mt nt).mem]
  exact ⟨h1, h2, trivial⟩

end

/-- An element of a tile matrix that does not fit lies in its tile. -/
theorem tileOvf_iff {M : Type} {ovf : α → Bool} {A : TMat M} {b : Nat} (hA : A.Al b)
    (s : Store (M × Nat × Nat) α) (p : Nat × Nat) :
    TileOvf ovf A b s p ↔
      ∃ i j, i < A.d.m ∧ j < A.d.n ∧ i / b = p.1 ∧ j / b = p.2 ∧ ovf (A.el s i j) = true := by
  have hb := hA.pos
  constructor
  · rintro ⟨i, j, hi, hj, ho⟩
    have h1 : p.1 * b + i < A.d.m ∧ i < b := by unfold tdim at hi; omega
    have h2 : p.2 * b + j < A.d.n ∧ j < b := by unfold tdim at hj; omega
    have e1 : (p.1 * b + i) / b = p.1 := by
      rw [Nat.add_comm, Nat.add_mul_div_right _ _ hb, Nat.div_eq_of_lt h1.2, Nat.zero_add]
    have e2 : (p.2 * b + j) / b = p.2 := by
      rw [Nat.add_comm, Nat.add_mul_div_right _ _ hb, Nat.div_eq_of_lt h2.2, Nat.zero_add]
    have e3 : (p.1 * b + i) % b = i := by rw [Nat.add_comm, Nat.add_mul_mod_self_right, Nat.mod_eq_of_lt h1.2]
    have e4 : (p.2 * b + j) % b = j := by rw [Nat.add_comm, Nat.add_mul_mod_self_right, Nat.mod_eq_of_lt h2.2]
    refine ⟨p.1 * b + i, p.2 * b + j, h1.1, h2.1, e1, e2, ?_⟩
    simp only [TMat.el, hA.mb, hA.nb, e1, e2, e3, e4]
    exact ho
  · rintro ⟨i, j, hi, hj, h1, h2, ho⟩
    simp only [TMat.el, hA.mb, hA.nb, h1, h2] at ho
    exact ⟨i % b, j % b, h1 ▸ mod_lt_tdim hb hi, h2 ▸ mod_lt_tdim hb hj, ho⟩


theorem gexec_nil {M : Type} {env : M → MatEnv} {mem mem' : M × Nat → α} {stat : Int}
    (hwf : ∀ a, (env a).WF) (h : GExec env [] mem mem' stat) : stat = 0 ∧ mem' = mem := by
  refine ⟨?_, ?_⟩
  · by_contra h0
    obtain ⟨i, hi, -⟩ := h.failure hwf (by simp [tasks, Good.nil]) CodeOK.nil h0
    exact absurd hi (Nat.not_lt_zero _)
  · funext x
    exact h.frame x (by simp [tasks])

/-- **C83, double to single.** Every execution of `plasma_zlag2c` returns 0 or 1; it returns
1 exactly when some element of `pA` does not fit.  If it returns 0, `pAs` holds the rounded
elements.  If it returns 1, each element of `pAs` is unchanged or the rounded element, and
unchanged in every tile that has an element that does not fit.  In both cases `pA` and
everything outside the `m × n` matrix in `pAs` are unchanged. -/
theorem C83_lag2c {nb : Nat} (hnb : 0 < nb) (nar : α → α) (ovf : α → Bool) (m n lda ldas : Nat)
    (hl : AuxLd .noTrans m n lda ldas) (mem mem' : Buf × Nat → α) (stat : Int)
    (h : GExec (drvEnvK nb (auxDims .noTrans m n) (ld2 lda ldas) (fun _ => none)) (zlag2c nb nar ovf m n) mem mem' stat) :
    (stat = 0 ∨ stat = 1) ∧
    (stat = 1 ↔ ∃ i j, i < m ∧ j < n ∧ ovf (mem (.usr 0, i + j * lda)) = true) ∧
    (stat = 0 → ∀ i j, i < m → j < n → mem' (.usr 1, i + j * ldas) = nar (mem (.usr 0, i + j * lda))) ∧
    (∀ i j, i < m → j < n → mem' (.usr 1, i + j * ldas) = mem (.usr 1, i + j * ldas) ∨
      (mem' (.usr 1, i + j * ldas) = nar (mem (.usr 0, i + j * lda)) ∧
        ∀ i' j', i' < m → j' < n → i' / nb = i / nb → j' / nb = j / nb →
          ovf (mem (.usr 0, i' + j' * lda)) = false)) ∧
    (∀ x, mem' (.usr 0, x) = mem (.usr 0, x)) ∧
    (∀ x, (∀ i j, i < m → j < n → x ≠ i + j * ldas) → mem' (.usr 1, x) = mem (.usr 1, x)) := by
  have hsq : ∀ k, stSq ((fun _ => none : Nat → Stor) k) (auxDims .noTrans m n k).1 (auxDims .noTrans m n k).2 :=
    fun _ => Or.inl rfl
  have hwf := drvEnvK_wf (nb := nb) hnb (aux_ld hl) hsq
  unfold zlag2c at h
  split at h
  · rename_i hq
    obtain ⟨rfl, rfl⟩ := gexec_nil hwf h
    refine ⟨Or.inl rfl, ⟨fun h => absurd h (by decide), ?_⟩, fun _ i j hi hj => by omega, fun i j hi hj => by omega,
      fun _ => rfl, fun _ _ => rfl⟩
    rintro ⟨i, j, hi, hj, _⟩; omega
  · rename_i hq
    set tA := tMat nb (auxDims .noTrans m n) 0 with htA
    set tS := tMat nb (auxDims .noTrans m n) 1 with htS
    have hA : tA.Al nb := al_t hnb 0
    have hS : tS.Al nb := al_t hnb 1
    have hab : tA.id ≠ tS.id := by simp [htA, htS, tMat, TMat.full]
    have hfA : Fits (drvEnvK nb (auxDims .noTrans m n) (ld2 lda ldas) (fun _ => none)) nb tA := fitsK_gen hnb rfl
    have hfS : Fits (drvEnvK nb (auxDims .noTrans m n) (ld2 lda ldas) (fun _ => none)) nb tS := fitsK_gen hnb rfl
    have homp : ompZlag2c nar ovf tA tS = gzlag2c nar ovf tA tS := by
      unfold ompZlag2c; rw [if_neg]; rw [Nat.min_comm]; exact hq
    rw [homp] at h
    have hPt : OnTilesW [] (tasks (gzlag2c nar ovf tA tS)) :=
      (gzlag2c_writes tA tS).mono fun _ hx => Or.inl ⟨1, hx⟩
    have hC : CodeOK (gzlag2c nar ovf tA tS) := gzlag2c_codeOK tA tS
    have hg := driverK_good (ins := [0, 1]) (outs := [0, 1]) hnb hsq (gzlag2c_good (nar := nar) (ovf := ovf) hfA hfS rfl rfl)
    rw [← tasks_gdriverK] at hg
    obtain ⟨s, hin, hu, D, hD1, hD2, hval⟩ := gdrv_partial hnb (aux_ld hl) hsq (by simp) (by simp) (by simp) hPt hC
      (gzlag2c_guard tA tS) hg.toC h
    have hAs : ∀ i j, i < m → j < n → tA.el s i j = mem (.usr 0, i + j * lda) :=
      fun i j hi hj => hin 0 (by simp) i j hi hj trivial
    have hto : ∀ p, TileOvf ovf tA nb s p ↔ ∃ i j, i < m ∧ j < n ∧ i / nb = p.1 ∧ j / nb = p.2 ∧
        ovf (mem (.usr 0, i + j * lda)) = true := by
      intro p
      rw [tileOvf_iff hA]
      constructor
      · rintro ⟨i, j, hi, hj, h1, h2, h3⟩
        exact ⟨i, j, hi, hj, h1, h2, by rw [← hAs i j hi hj]; exact h3⟩
      · rintro ⟨i, j, hi, hj, h1, h2, h3⟩
        exact ⟨i, j, hi, hj, h1, h2, by rw [hAs i j hi hj]; exact h3⟩
    have hfr := gdrvC_frame (ld := ld2 lda ldas) hnb hsq hPt hg.ins h
    have hnz : stat ≠ 0 → stat = 1 ∧ ∃ i j, i < m ∧ j < n ∧ ovf (mem (.usr 0, i + j * lda)) = true := by
      intro h0
      obtain ⟨i, _, hi⟩ := hD2 h0
      have hil : i < (rowIdx none tA.d.mt tA.d.nt).length := by
        by_contra hlt
        rw [tcode_len _ _ (by rw [gzlag2c_eq hA, List.length_map]; omega)] at hi
        exact h0 hi.symm
      obtain ⟨_, h2, h3⟩ := gzlag2c_tcode (nar := nar) (ovf := ovf) hA hab s (List.getElem?_eq_getElem hil)
      by_cases ho : TileOvf ovf tA nb s ((rowIdx none tA.d.mt tA.d.nt)[i])
      · obtain ⟨i', j', h5, h6, _, _, h7⟩ := (hto _).mp ho
        exact ⟨by rw [← hi, h2 ho], i', j', h5, h6, h7⟩
      · exact absurd (hi.symm.trans (h3 ho)) h0
    have hz : stat = 0 → (∀ p, p.1 < tA.d.mt → p.2 < tA.d.nt → ¬ TileOvf ovf tA nb s p) ∧
        ∀ i j, i < m → j < n → mem' (.usr 1, i + j * ldas) = nar (mem (.usr 0, i + j * lda)) := by
      rintro rfl
      obtain ⟨s', hin', _, hcode, hout, _⟩ := gdrvC_success hnb (aux_ld hl) hsq (by simp) (by simp) (by simp) hPt hC hg.toC h
      have hAs' : ∀ i j, i < m → j < n → tA.el s' i j = mem (.usr 0, i + j * lda) :=
        fun i j hi hj => hin' 0 (by simp) i j hi hj trivial
      have hno : ∀ p, p.1 < tA.d.mt → p.2 < tA.d.nt → ¬ TileOvf ovf tA nb s' p := by
        intro p hp1 hp2 ho
        obtain ⟨i, hi⟩ := rowIdx_get hp1 hp2
        have := (gzlag2c_tcode (nar := nar) (ovf := ovf) (As := tS) hA hab s' hi).2.1 ho
        rw [hcode i] at this
        exact absurd this (by decide)
      constructor
      · intro p hp1 hp2 ho
        apply hno p hp1 hp2
        rw [tileOvf_iff hA]
        obtain ⟨i, j, hi, hj, h1, h2, h3⟩ := (hto p).mp ho
        exact ⟨i, j, hi, hj, h1, h2, by rw [hAs' i j hi hj]; exact h3⟩
      · intro i j hi hj
        have := hout 1 (by simp) i j hi hj
        rw [if_pos (show stOK none (i / nb) (j / nb) from trivial)] at this
        simp only [ld2] at this
        rw [this, ← hAs' i j hi hj]
        exact gzlag2c_el hA hS hab rfl rfl s' hi hj (hno _ (hA.row_mt (show i < tA.d.m from hi)) (hA.col_nt (show j < tA.d.n from hj)))
    refine ⟨?_, ⟨?_, ?_⟩, fun h0 => (hz h0).2, ?_, ?_, ?_⟩
    · by_cases h0 : stat = 0
      · exact Or.inl h0
      · exact Or.inr (hnz h0).1
    · intro h1
      exact (hnz (by rw [h1]; decide)).2
    · rintro ⟨i, j, hi, hj, ho⟩
      by_contra hne
      by_cases h0 : stat = 0
      · refine (hz h0).1 (i / nb, j / nb) (hA.row_mt (show i < tA.d.m from hi)) (hA.col_nt (show j < tA.d.n from hj)) ?_
        exact (hto _).mpr ⟨i, j, hi, hj, rfl, rfl, ho⟩
      · exact hne (hnz h0).1
    · intro i j hi hj
      rcases hval 1 (by simp) i j hi hj with h1 | ⟨_, h1, h2⟩
      · exact Or.inl h1
      · right
        have hmt := hA.row_mt (show i < tA.d.m from hi)
        have hnt := hA.col_nt (show j < tA.d.n from hj)
        have hno : ¬ TileOvf ovf tA nb s (i / nb, j / nb) := by
          intro ho
          obtain ⟨q, hq'⟩ := rowIdx_get (p := (i / nb, j / nb)) hmt hnt
          obtain ⟨h3, h4, _⟩ := gzlag2c_tcode (nar := nar) (ovf := ovf) (As := tS) hA hab s hq'
          have h5 := (h2 q _ h3 ⟨rfl, Nat.zero_le _, mod_lt_tdim hnb (show i < tA.d.m from hi), Nat.zero_le _,
            mod_lt_tdim hnb (show j < tA.d.n from hj)⟩).2
          rw [h4 ho] at h5
          exact absurd h5 (by decide)
        constructor
        · simp only [ld2] at h1
          rw [h1, ← hAs i j hi hj]
          exact gzlag2c_el hA hS hab rfl rfl s hi hj hno
        · intro i' j' hi' hj' e1 e2
          by_contra hne
          exact hno ((hto _).mpr ⟨i', j', hi', hj', e1, e2, by simpa using hne⟩)
    · intro x
      by_cases hx : ∃ i j, i < m ∧ j < n ∧ x = i + j * lda
      · obtain ⟨i, j, hi, hj, rfl⟩ := hx
        rcases hval 0 (by simp) i j hi hj with h1 | ⟨_, h1, _⟩
        · exact h1
        · simp only [ld2] at h1
          rw [h1, ← hAs i j hi hj]
          simp only [TMat.el]
          rw [(gzlag2c_writes tA tS).frame]
          exact hab
      · exact hfr.2 0 x fun i j hi hj e => hx ⟨i, j, hi, hj, e⟩
    · intro x hx
      exact hfr.2 1 x hx


/-! ### Single to double -/

section
variable {M : Type} {wid : α → α}

theorem coreClag2z_local {m n : Nat} {a b : M} : (coreClag2z wid m n a b).Local :=
  op1_local fun _ _ _ _ hA hC i j hij => by
    rw [sweep_spec (nodup_lagIdx _ _), sweep_spec (nodup_lagIdx _ _), hA i j hij, hC i j hij]

theorem pclag2z_eq {As A : TMat M} {b : Nat} (hS : As.Al b) :
    pclag2z wid As A = (rowIdx none As.d.mt As.d.nt).map fun p =>
      coreClag2z wid (tdim As.d.m b p.1) (tdim As.d.n b p.2) (As.at' p.1 p.2) (A.at' p.1 p.2) := by
  unfold pclag2z
  simp only [rowIdx, List.map_flatMap, List.map_map]
  refine List.flatMap_congr fun m hm => List.map_congr_left fun n hn => ?_
  rw [List.mem_range] at hm hn
  simp only [Function.comp, hS.mview hm, hS.nview hn]

theorem pclag2z_good {env : M → MatEnv} {As A : TMat M} {b : Nat} (hS : Fits env b As) (hA : Fits env b A)
    (hm : A.d.m = As.d.m) (hn : A.d.n = As.d.n) : Good (evalid env) (pclag2z wid As A) := by
  rw [pclag2z_eq hS.al]
  refine Good.map fun p _ => ?_
  refine Good.single coreClag2z_local op1_declared (op1_inside ?_ ?_)
  · rintro i j ⟨_, h1, _, h2⟩; exact hS.valid h1 h2
  · rintro i j ⟨_, h1, _, h2⟩; exact hA.valid (by rw [hm]; exact h1) (by rw [hn]; exact h2)

theorem pclag2z_writes (As A : TMat M) : Writes (fun x => x.1 = A.id) (pclag2z wid As A) :=
  Writes.flatMap fun _ _ => Writes.map fun _ _ => writes_op1 rfl

theorem pclag2z_el {As A : TMat M} {b : Nat} (hS : As.Al b) (hA : A.Al b) (hab : As.id ≠ A.id)
    (hm : A.d.m = As.d.m) (hn : A.d.n = As.d.n) (s : Store (M × Nat × Nat) α) {r c : Nat}
    (hr : r < As.d.m) (hc : c < As.d.n) :
    A.el (texec (pclag2z wid As A) s) r c = wid (As.el s r c) := by
  have hb := hA.pos
  have hidx : SelIdx none A.d.mt A.d.nt (rowIdx none As.d.mt As.d.nt) := by
    rw [hA.mt_eq, hA.nt_eq, hm, hn, ← hS.mt_eq, ← hS.nt_eq]; exact rowIdx_sel _ _ _
  rw [pclag2z_eq hS]
  have := nest_el hA hidx (task := fun p =>
      coreClag2z wid (tdim As.d.m b p.1) (tdim As.d.n b p.2) (As.at' p.1 p.2) (A.at' p.1 p.2)) (R := fun x => x = As.id)
    (fun h => hab h.symm) (fun p => writes_op1 rfl)
    (fun p => Within.op1 coreClag2z_local (Or.inl rfl) (Or.inr rfl)) s (r := r) (c := c)
    (by rw [hm]; exact hr) (by rw [hn]; exact hc) (v := wid (As.el s r c)) ?_
  · rw [this, if_pos (show stOK none r c from trivial)]
  · intro _
    rw [if_pos (show r / b = c / b → stOK none (r % b) (c % b) from fun _ => trivial)]
    have h1 := mod_lt_tdim hb hr
    have h2 := mod_lt_tdim hb hc
    unfold coreClag2z
    rw [op1_self, paste_in ⟨Nat.zero_le _, h1, Nat.zero_le _, h2⟩, sweep_spec (nodup_lagIdx _ _),
      if_pos (mem_lagIdx.mpr ⟨h1, h2⟩)]
    simp only [TMat.el, hS.mb, hS.nb]

end

/-- **C83, single to double.** Every execution of `plasma_clag2z` leaves in `pA` the widened
elements of `pAs`; `pAs` and everything outside the `m × n` matrix in `pA` are unchanged. -/
theorem C83_lag2z {nb : Nat} (hnb : 0 < nb) (wid : α → α) (m n lda ldas : Nat)
    (hl : AuxLd .noTrans m n lda ldas) (mem mem' : Buf × Nat → α)
    (h : Exec (drvEnv nb (auxDims .noTrans m n) (ld2 lda ldas)) (clag2z nb wid m n) mem mem') :
    (∀ i j, i < m → j < n → mem' (.usr 0, i + j * lda) = wid (mem (.usr 1, i + j * ldas))) ∧
    (∀ x, mem' (.usr 1, x) = mem (.usr 1, x)) ∧
    (∀ x, (∀ i j, i < m → j < n → x ≠ i + j * lda) → mem' (.usr 0, x) = mem (.usr 0, x)) := by
  unfold clag2z at h
  split at h
  · rename_i hq
    rw [h.nil]
    exact ⟨fun i j hi hj => by omega, fun _ => rfl, fun _ _ => rfl⟩
  · rename_i hq
    set tA := tMat nb (auxDims .noTrans m n) 0 with htA
    set tS := tMat nb (auxDims .noTrans m n) 1 with htS
    have hq' : ¬ min tS.d.m tS.d.n = 0 := by rw [Nat.min_comm]; exact hq
    rw [if_neg hq'] at h
    have hA : tA.Al nb := al_t hnb 0
    have hS : tS.Al nb := al_t hnb 1
    have hab : tS.id ≠ tA.id := by simp [htA, htS, tMat, TMat.full]
    have ht1 : OnTiles (pclag2z wid tS tA) := (pclag2z_writes tS tA).mono fun _ hx => ⟨0, hx⟩
    obtain ⟨s, hin, hout, h3, h4⟩ := driver_correct hnb (aux_ld hl) (by simp) (by simp)
      (pclag2z_good (fits_t hnb 1) (fits_t hnb 0) rfl rfl) ht1 h
    have hSs : ∀ i j, i < m → j < n → tS.el s i j = mem (.usr 1, i + j * ldas) := hin 1 (by simp)
    refine ⟨fun i j hi hj => ?_, fun x => ?_, fun x hx => h4 0 x hx⟩
    · have := hout 0 (by simp) i j hi hj
      simp only [ld2] at this
      rw [this, ← hSs i j hi hj]
      exact pclag2z_el hS hA hab rfl rfl s hi hj
    · by_cases hx : ∃ i j, i < m ∧ j < n ∧ x = i + j * ldas
      · obtain ⟨i, j, hi, hj, rfl⟩ := hx
        have := hout 1 (by simp) i j hi hj
        simp only [ld2] at this
        rw [this, ← hSs i j hi hj]
        simp only [TMat.el]
        rw [(pclag2z_writes tS tA).frame]
        exact hab
      · exact h4 1 x fun i j hi hj e => hx ⟨i, j, hi, hj, e⟩

/-- **C83, round trip.** A single-precision matrix converted to double precision and back is
unchanged, and the conversion back succeeds.  `mem2` is the memory at the second call: the
arrays are those the first call left, the tile matrices are new. -/
theorem C83_round_trip {nb : Nat} (hnb : 0 < nb) (nar wid : α → α) (ovf : α → Bool) (m n lda ldas : Nat)
    (hl : AuxLd .noTrans m n lda ldas) (mem mem1 mem2 mem' : Buf × Nat → α) (stat : Int)
    (hs : ∀ i j, i < m → j < n → nar (wid (mem (.usr 1, i + j * ldas))) = mem (.usr 1, i + j * ldas) ∧
      ovf (wid (mem (.usr 1, i + j * ldas))) = false)
    (h1 : Exec (drvEnv nb (auxDims .noTrans m n) (ld2 lda ldas)) (clag2z nb wid m n) mem mem1)
    (hm : ∀ k x, mem2 (.usr k, x) = mem1 (.usr k, x))
    (h2 : GExec (drvEnvK nb (auxDims .noTrans m n) (ld2 lda ldas) (fun _ => none)) (zlag2c nb nar ovf m n) mem2 mem' stat) :
    stat = 0 ∧ ∀ x, mem' (.usr 1, x) = mem (.usr 1, x) := by
  obtain ⟨a1, a2, a3⟩ := C83_lag2z hnb wid m n lda ldas hl mem mem1 h1
  obtain ⟨b1, b2, b3, b4, b5, b6⟩ := C83_lag2c hnb nar ovf m n lda ldas hl mem2 mem' stat h2
  have h0 : stat = 0 := by
    rcases b1 with h | h
    · exact h
    · obtain ⟨i, j, hi, hj, ho⟩ := b2.mp h
      rw [hm, a1 i j hi hj, (hs i j hi hj).2] at ho
      exact absurd ho (by decide)
  refine ⟨h0, fun x => ?_⟩
  by_cases hx : ∃ i j, i < m ∧ j < n ∧ x = i + j * ldas
  · obtain ⟨i, j, hi, hj, rfl⟩ := hx
    rw [b3 h0 i j hi hj, hm, a1 i j hi hj, (hs i j hi hj).1]
  · rw [b6 x fun i j hi hj e => hx ⟨i, j, hi, hj, e⟩, hm, a2]

/-! ### Cases meeting the hypotheses -/

theorem zlag2c_exists {nb : Nat} (hnb : 0 < nb) (nar : α → α) (ovf : α → Bool) (m n lda ldas : Nat)
    (hl : AuxLd .noTrans m n lda ldas) (mem : Buf × Nat → α) : ∃ mem' stat,
    GExec (drvEnvK nb (auxDims .noTrans m n) (ld2 lda ldas) (fun _ => none)) (zlag2c nb nar ovf m n) mem mem' stat := by
  have hsq : ∀ k, stSq ((fun _ => none : Nat → Stor) k) (auxDims .noTrans m n k).1 (auxDims .noTrans m n k).2 :=
    fun _ => Or.inl rfl
  have hwf := drvEnvK_wf (nb := nb) hnb (aux_ld hl) hsq
  have hg : Good (evalid (drvEnvK nb (auxDims .noTrans m n) (ld2 lda ldas) (fun _ => none)))
      (tasks (zlag2c nb nar ovf m n)) := by
    unfold zlag2c ompZlag2c
    split
    · simp [tasks, Good.nil]
    · rw [tasks_gdriverK]
      refine driverK_good hnb hsq ?_
      split
      · simp [tasks, Good.nil]
      · exact gzlag2c_good (fitsK_gen hnb rfl) (fitsK_gen hnb rfl) rfl rfl
  exact GExec.existsI hwf hg.loc hg.ins mem

/-- A 3 × 2 matrix with one element that does not fit (an element above 100), in tiles of
size 2: every execution returns 1, and there are executions. -/
example : ∃ mem' stat, GExec (drvEnvK 2 (auxDims .noTrans 3 2) (ld2 4 3) (fun _ => none))
    (zlag2c 2 (fun x : ℤ => x / 10 * 10) (fun x => decide (100 < x)) 3 2)
    (fun x => if x = (.usr 0, 2) then 101 else 7) mem' stat ∧ stat = 1 := by
  obtain ⟨mem', stat, h⟩ := zlag2c_exists (nb := 2) (by decide) (fun x : ℤ => x / 10 * 10) (fun x => decide (100 < x)) 3 2 4 3
    (by simp [AuxLd]) (fun x => if x = (.usr 0, 2) then 101 else 7)
  refine ⟨mem', stat, h, ?_⟩
  have := (C83_lag2c (by decide) _ _ 3 2 4 3 (by simp [AuxLd]) _ _ _ h).2.1
  exact this.mpr ⟨2, 0, by decide, by decide, by decide⟩

/-- The round trip applies to a matrix of elements that survive it. -/
example : ∃ mem1 mem' stat, Exec (drvEnv 2 (auxDims .noTrans 3 2) (ld2 4 3)) (clag2z 2 (fun x : ℤ => x + 1) 3 2)
      (fun _ => 20) mem1 ∧
    GExec (drvEnvK 2 (auxDims .noTrans 3 2) (ld2 4 3) (fun _ => none))
      (zlag2c 2 (fun x : ℤ => x / 10 * 10) (fun x => decide (100 < x)) 3 2) mem1 mem' stat ∧
    stat = 0 ∧ mem' (.usr 1, 5) = 20 := by
  have hl : AuxLd .noTrans 3 2 4 3 := by simp [AuxLd]
  obtain ⟨mem1, h1⟩ := driver_exists (ins := [1, 0]) (outs := [1, 0]) (nb := 2) (by decide) (aux_ld hl)
    (pclag2z_good (wid := fun x : ℤ => x + 1) (fits_t (by decide) 1) (fits_t (by decide) 0) rfl rfl) (fun _ => 20)
  have h1' : Exec (drvEnv 2 (auxDims .noTrans 3 2) (ld2 4 3)) (clag2z 2 (fun x : ℤ => x + 1) 3 2)
      (fun _ => 20) mem1 := h1
  obtain ⟨mem', stat, h2⟩ := zlag2c_exists (nb := 2) (by decide) (fun x : ℤ => x / 10 * 10) (fun x => decide (100 < x)) 3 2 4 3
    hl mem1
  have := C83_round_trip (by decide) _ _ _ 3 2 4 3 hl _ _ _ _ _ (fun _ _ _ _ => by decide) h1' (fun _ _ => rfl) h2
  exact ⟨mem1, mem', stat, h1', h2, this.1, this.2 5⟩

end Verif.Props

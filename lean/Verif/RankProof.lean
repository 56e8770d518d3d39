/-
Correctness of the rank-k and rank-2k tile algorithms at element level.
-/
import Verif.Rank
import Verif.GemmProof

namespace Verif.Tile

open Verif.Layout Finset

universe u v

variable {M : Type u} {α : Type v}

/-- Block row / block column of the pair `(n, m)`, `n ≤ m`, in the selected triangle. -/
def ri (u : Uplo) (p : Nat × Nat) : Nat := if u = .lower then p.2 else p.1
/-- See `ri`. -/
def ci (u : Uplo) (p : Nat × Nat) : Nat := if u = .lower then p.1 else p.2

/-- The pairs visited by the triangular nests. -/
abbrev tp (nt mt : Nat) : List (Nat × Nat) := triPairs (List.range nt) (fun n => span (n+1) mt)

theorem mem_tp {nt mt : Nat} {p : Nat × Nat} :
    p ∈ tp nt mt ↔ p.1 < nt ∧ (p.2 = p.1 ∨ (p.1 < p.2 ∧ p.2 < mt)) := by
  rw [mem_triPairs, List.mem_range, mem_span]; omega

theorem nodup_tp {nt mt : Nat} : (tp nt mt).Nodup :=
  nodup_triPairs List.nodup_range (fun _ => nodup_span) (fun n => by rw [mem_span]; omega)

theorem tdim_le {m b k : Nat} : tdim m b k ≤ b := by unfold tdim; omega

/-- A triangular nest whose bodies own one tile each: value of an element in the
triangle, and frame for the elements outside it. -/
theorem tri_par {C : TMat M} {b N : Nat} (hC : C.Al b) (hm : C.d.m = N) (hn : C.d.n = N) {u : Uplo}
    {T : Nat × Nat → List (TTask (M × Nat × Nat) α)} {R : M → Prop} (hR : ¬ R C.id)
    (hin : ∀ p ∈ tp C.d.nt C.d.mt,
      Within (fun t => R t.1 ∨ t = C.at' (ri u p) (ci u p)) (T p))
    (hw : ∀ p ∈ tp C.d.nt C.d.mt,
      WritesE (fun t i j => t = C.at' (ri u p) (ci u p) ∧ i < b ∧ j < b ∧
        inTri u (ri u p * b + i) (ci u p * b + j)) (T p))
    (s : Store (M × Nat × Nat) α) {r c : Nat} (hr : r < N) (hc : c < N) :
    (inTri u r c → ∃ p ∈ tp C.d.nt C.d.mt, ri u p = r / b ∧ ci u p = c / b ∧
      C.el (texec ((tp C.d.nt C.d.mt).flatMap T) s) r c =
        texec (T p) s (C.at' (r / b) (c / b)) (r % b) (c % b)) ∧
    (¬ inTri u r c → C.el (texec ((tp C.d.nt C.d.mt).flatMap T) s) r c = C.el s r c) := by
  have hb := hC.pos
  have hnt : C.d.nt = C.d.mt := by rw [hC.mt_eq, hC.nt_eq, hm, hn]
  constructor
  · intro ht
    let p : Nat × Nat := if u = .lower then (c / b, r / b) else (r / b, c / b)
    have e1 : ri u p = r / b := by unfold ri; cases u <;> simp [p]
    have e2 : ci u p = c / b := by unfold ci; cases u <;> simp [p]
    have hrm := hC.row_mt (hm ▸ hr)
    have hcm := hC.row_mt (hm ▸ hc)
    have hp : p ∈ tp C.d.nt C.d.mt := by
      rw [mem_tp]
      cases u
      · have : r / b ≤ c / b := Nat.div_le_div_right ht
        simp only [p, reduceCtorEq, if_false]
        omega
      · have : c / b ≤ r / b := Nat.div_le_div_right ht
        simp only [p, if_true]
        omega
    refine ⟨p, hp, e1, e2, ?_⟩
    simp only [TMat.el, hC.mb, hC.nb]
    have h := par (o := fun p => C.at' (ri u p) (ci u p)) (body := T) nodup_tp ?_ ?_ ?_ s hp
    · simp only [e1, e2] at h
      rw [h]
    · intro p _ q _ h
      rw [TMat.at'_inj] at h
      unfold ri ci at h
      cases u <;> simp at h <;> exact Prod.ext (by omega) (by omega)
    · intro p hp
      refine (hin p hp).mono ?_
      rintro t (h | h)
      · left; rintro q _ rfl; exact hR h
      · right; exact h
    · intro p hp
      exact (hw p hp).writes fun x i j h => h.1
  · intro ht
    simp only [TMat.el, hC.mb, hC.nb]
    refine WritesE.frame (W := fun t i j => ∃ p, t = C.at' (ri u p) (ci u p) ∧ i < b ∧ j < b ∧
        inTri u (ri u p * b + i) (ci u p * b + j)) ?_ s ?_
    · refine WritesE.flatMap fun p hp => ?_
      intro t ht x i j hx
      exact ⟨p, hw p hp t ht x i j hx⟩
    · rintro ⟨p, h1, _, _, h4⟩
      rw [TMat.at'_inj] at h1
      rw [← h1.1, ← h1.2, divmod, divmod] at h4
      exact ht h4

theorem inTri_block {u : Uplo} {p : Nat × Nat} {b i j : Nat} (hp : p.1 < p.2) (hi : i < b)
    (hj : j < b) : inTri u (ri u p * b + i) (ci u p * b + j) := by
  have : (p.1 + 1) * b ≤ p.2 * b := Nat.mul_le_mul_right b hp
  rw [Nat.add_mul] at this
  cases u <;> simp [ri, ci, inTri] <;> omega

theorem inTri_diag {u : Uplo} {n b i j : Nat} (h : inTri u i j) :
    inTri u (n * b + i) (n * b + j) := by
  cases u <;> simp [inTri] at h ⊢ <;> omega

theorem inTri_diag_iff {u : Uplo} {n b i j : Nat} :
    inTri u (n * b + i) (n * b + j) ↔ inTri u i j := by
  cases u <;> simp [inTri]

section
variable [CommRing α] [StarRing α]

/-- The transposition argument of the second operand. -/
def t2 (h : Bool) (t : Trans) : Trans := if t = .noTrans then tt h else .noTrans

theorem opE_t2 {h : Bool} {t : Trans} (ht : t = .noTrans ∨ t = tt h) (A : Nat → Nat → α) (l j : Nat) :
    opE (t2 h t) A l j = cj h (opE t A j l) := by
  rcases ht with rfl | rfl <;> cases h <;> simp [t2, tt, opE, cj]

theorem coreRk_local {h : Bool} {re : α → α} {u : Uplo} {t : Trans} {n k : Nat} {alpha beta : α} {a c : M} :
    (coreRk h re u t n k alpha a beta c).Local := by
  apply op1_local
  intro A A' C C' hA hC i j hij
  rw [hC i j hij]
  congr 2
  apply Finset.sum_congr rfl
  intro l hl
  rw [mem_range] at hl
  have e : ∀ i, i < n → opE t A i l = opE t A' i l := by
    intro i hi
    cases t <;> simp only [opE] <;> rw [hA] <;> simp [box, hi, hl]
  rw [e i hij.1, e j hij.2.1]

theorem coreR2k_local {h : Bool} {re : α → α} {u : Uplo} {t : Trans} {n k : Nat} {alpha beta : α} {a b c : M} :
    (coreR2k h re u t n k alpha a b beta c).Local := by
  apply op2_local
  intro A A' B B' C C' hA hB hC i j hij
  rw [hC i j hij]
  have e : ∀ i l, i < n → l < k → opE t A i l = opE t A' i l := by
    intro i l hi hl
    cases t <;> simp only [opE] <;> rw [hA] <;> simp [box, hi, hl]
  have e' : ∀ i l, i < n → l < k → opE t B i l = opE t B' i l := by
    intro i l hi hl
    cases t <;> simp only [opE] <;> rw [hB] <;> simp [box, hi, hl]
  congr 1
  congr 1 <;> congr 1 <;> apply Finset.sum_congr rfl <;> intro l hl <;> rw [mem_range] at hl
  · rw [e i l hij.1 hl, e' j l hij.2.1 hl]
  · rw [e' i l hij.1 hl, e j l hij.2.1 hl]

/-- Shape of a rank-k operand. -/
structure RkShape (t : Trans) (N k : Nat) (A : TMat M) : Prop where
  am : (if t = .noTrans then A.d.m else A.d.n) = N
  an : (if t = .noTrans then A.d.n else A.d.m) = k

/-- Body of the rank-k nest for one tile and one inner block. -/
def rkT (h : Bool) (re : α → α) (u : Uplo) (t : Trans) (alpha : α) (A : TMat M) (beta : α)
    (C : TMat M) (b N k : Nat) (p : Nat × Nat) (l : Nat) : List (TTask (M × Nat × Nat) α) :=
  if p.2 = p.1 then
    [coreRk h re u t (tdim N b p.1) (tdim k b l) alpha (opTile t A p.1 l) (if l = 0 then beta else 1)
      (C.at' p.1 p.1)]
  else
    [coreGemm t (t2 h t) (tdim N b (ri u p)) (tdim N b (ci u p)) (tdim k b l) alpha
      (opTile t A (ri u p) l) (opTile t A (ci u p) l) (if l = 0 then beta else 1)
      (C.at' (ri u p) (ci u p))]

/-- Body of the rank-2k nest for one tile and one inner block. -/
def r2kT (h : Bool) (re : α → α) (u : Uplo) (t : Trans) (alpha : α) (A B : TMat M) (beta : α)
    (C : TMat M) (b N k : Nat) (p : Nat × Nat) (l : Nat) : List (TTask (M × Nat × Nat) α) :=
  if p.2 = p.1 then
    [coreR2k h re u t (tdim N b p.1) (tdim k b l) alpha (opTile t A p.1 l) (opTile t B p.1 l)
      (if l = 0 then beta else 1) (C.at' p.1 p.1)]
  else
    [coreGemm t (t2 h t) (tdim N b (ri u p)) (tdim N b (ci u p)) (tdim k b l) alpha
      (opTile t A (ri u p) l) (opTile t B (ci u p) l) (if l = 0 then beta else 1)
      (C.at' (ri u p) (ci u p)),
     coreGemm t (t2 h t) (tdim N b (ri u p)) (tdim N b (ci u p)) (tdim k b l) (cj h alpha)
      (opTile t B (ri u p) l) (opTile t A (ci u p) l) 1
      (C.at' (ri u p) (ci u p))]

theorem inner_view {t : Trans} {A : TMat M} {b N k : Nat} (hA : A.Al b) (hs : RkShape t N k A) :
    (t = .noTrans → A.d.nt = ceilDiv k b ∧ ∀ l ∈ List.range (ceilDiv k b), A.d.nview l = tdim k b l) ∧
    (t ≠ .noTrans → A.d.mt = ceilDiv k b ∧ ∀ l ∈ List.range (ceilDiv k b), A.d.mview l = tdim k b l) := by
  constructor <;> intro ht
  · have hk : A.d.n = k := by have := hs.an; simpa [ht] using this
    have hnt : A.d.nt = ceilDiv k b := by rw [hA.nt_eq, hk]
    refine ⟨hnt, fun l hl => ?_⟩
    rw [hA.nview (by rw [hnt]; exact List.mem_range.mp hl), hk]
  · have hk : A.d.m = k := by have := hs.an; simpa [ht] using this
    have hnt : A.d.mt = ceilDiv k b := by rw [hA.mt_eq, hk]
    refine ⟨hnt, fun l hl => ?_⟩
    rw [hA.mview (by rw [hnt]; exact List.mem_range.mp hl), hk]

theorem map_flatMap_sing {ι : Type} {β : Type v} (l : List ι) (f : ι → β) :
    l.map f = l.flatMap fun x => [f x] := List.map_eq_flatMap

theorem pzrk_eq {h : Bool} {re : α → α} {u : Uplo} {t : Trans} {alpha beta : α} {A C : TMat M}
    {b N k : Nat} (hA : A.Al b) (hC : C.Al b) (hm : C.d.m = N) (hn : C.d.n = N)
    (hs : RkShape t N k A) :
    pzrk h re u t alpha A beta C =
      (tp C.d.nt C.d.mt).flatMap fun p => (List.range (ceilDiv k b)).flatMap
        (rkT h re u t alpha A beta C b N k p) := by
  have hnt : C.d.nt = C.d.mt := by rw [hC.mt_eq, hC.nt_eq, hm, hn]
  have hmv : ∀ m, m < C.d.mt → C.d.mview m = tdim N b m := fun m h => by rw [hC.mview h, hm]
  have hnv : ∀ m, m < C.d.mt → C.d.nview m = tdim N b m := fun m h => by
    rw [hC.nview (hnt ▸ h), hn]
  obtain ⟨hv1, hv2⟩ := inner_view hA hs
  have key : ∀ (X : Nat → List (TTask (M × Nat × Nat) α)) (Y : Nat → Nat → List (TTask (M × Nat × Nat) α)),
      (∀ n < C.d.mt, X n = (List.range (ceilDiv k b)).flatMap (rkT h re u t alpha A beta C b N k (n, n))) →
      (∀ n < C.d.mt, ∀ m < C.d.mt, n < m → Y n m =
        (List.range (ceilDiv k b)).flatMap (rkT h re u t alpha A beta C b N k (n, m))) →
      (List.range C.d.nt).flatMap (fun n => X n ++ (span (n+1) C.d.mt).flatMap fun m => Y n m) =
      (tp C.d.nt C.d.mt).flatMap fun p => (List.range (ceilDiv k b)).flatMap
        (rkT h re u t alpha A beta C b N k p) := by
    intro X Y hX hY
    rw [flatMap_triPairs (fun n => by rw [mem_span]; omega)]
    apply List.flatMap_congr
    intro p hp
    rw [mem_tp] at hp
    obtain ⟨n, m⟩ := p
    simp only at hp ⊢
    split
    · rename_i he; subst he; rw [hX m (by omega)]
    · rw [hY n (by omega) m (by omega) (by omega)]
  unfold pzrk
  by_cases ht : t = .noTrans
  · obtain ⟨hK, hv⟩ := hv1 ht
    cases u
    all_goals
      simp only [ht, if_true, reduceCtorEq, if_false, hK, map_flatMap_sing]
      rw [← ht]
      apply key
      · intro n hn'
        apply List.flatMap_congr
        intro l hl
        simp only [rkT, if_true, hv l hl, hnv n hn', opTile, ht]
      · intro n hn' m hm' hnm
        apply List.flatMap_congr
        intro l hl
        have : m ≠ n := by omega
        simp only [rkT, this, if_false, hv l hl, hnv n hn', hmv m hm', opTile, ht, t2, if_true, ri, ci,
          reduceCtorEq]
  · obtain ⟨hK, hv⟩ := hv2 ht
    cases u
    all_goals
      simp only [ht, if_true, reduceCtorEq, if_false, hK, map_flatMap_sing]
      apply key
      · intro n hn'
        apply List.flatMap_congr
        intro l hl
        simp only [rkT, if_true, hv l hl, hnv n hn', opTile, ht, if_false]
      · intro n hn' m hm' hnm
        apply List.flatMap_congr
        intro l hl
        have : m ≠ n := by omega
        simp only [rkT, this, if_false, hv l hl, hnv n hn', hmv m hm', opTile, ht, t2, if_true, ri, ci,
          reduceCtorEq]

theorem pzr2k_eq {h : Bool} {re : α → α} {u : Uplo} {t : Trans} {alpha beta : α} {A B C : TMat M}
    {b N k : Nat} (hA : A.Al b) (hC : C.Al b) (hm : C.d.m = N) (hn : C.d.n = N)
    (hs : RkShape t N k A) :
    pzr2k h re u t alpha A B beta C =
      (tp C.d.nt C.d.mt).flatMap fun p => (List.range (ceilDiv k b)).flatMap
        (r2kT h re u t alpha A B beta C b N k p) := by
  have hnt : C.d.nt = C.d.mt := by rw [hC.mt_eq, hC.nt_eq, hm, hn]
  have hmv : ∀ m, m < C.d.mt → C.d.mview m = tdim N b m := fun m h => by rw [hC.mview h, hm]
  have hnv : ∀ m, m < C.d.mt → C.d.nview m = tdim N b m := fun m h => by
    rw [hC.nview (hnt ▸ h), hn]
  obtain ⟨hv1, hv2⟩ := inner_view hA hs
  have key : ∀ (X : Nat → List (TTask (M × Nat × Nat) α)) (Y : Nat → Nat → List (TTask (M × Nat × Nat) α)),
      (∀ n < C.d.mt, X n = (List.range (ceilDiv k b)).flatMap (r2kT h re u t alpha A B beta C b N k (n, n))) →
      (∀ n < C.d.mt, ∀ m < C.d.mt, n < m → Y n m =
        (List.range (ceilDiv k b)).flatMap (r2kT h re u t alpha A B beta C b N k (n, m))) →
      (List.range C.d.nt).flatMap (fun n => X n ++ (span (n+1) C.d.mt).flatMap fun m => Y n m) =
      (tp C.d.nt C.d.mt).flatMap fun p => (List.range (ceilDiv k b)).flatMap
        (r2kT h re u t alpha A B beta C b N k p) := by
    intro X Y hX hY
    rw [flatMap_triPairs (fun n => by rw [mem_span]; omega)]
    apply List.flatMap_congr
    intro p hp
    rw [mem_tp] at hp
    obtain ⟨n, m⟩ := p
    simp only at hp ⊢
    split
    · rename_i he; subst he; rw [hX m (by omega)]
    · rw [hY n (by omega) m (by omega) (by omega)]
  unfold pzr2k
  by_cases ht : t = .noTrans
  · obtain ⟨hK, hv⟩ := hv1 ht
    cases u
    all_goals
      simp only [ht, if_true, reduceCtorEq, if_false, hK, map_flatMap_sing]
      rw [← ht]
      apply key
      · intro n hn'
        apply List.flatMap_congr
        intro l hl
        simp only [r2kT, if_true, hv l hl, hnv n hn', opTile, ht]
      · intro n hn' m hm' hnm
        apply List.flatMap_congr
        intro l hl
        have : m ≠ n := by omega
        simp only [r2kT, this, if_false, hv l hl, hnv n hn', hmv m hm', opTile, ht, t2, if_true, ri, ci,
          reduceCtorEq]
  · obtain ⟨hK, hv⟩ := hv2 ht
    cases u
    all_goals
      simp only [ht, if_true, reduceCtorEq, if_false, hK, map_flatMap_sing]
      apply key
      · intro n hn'
        apply List.flatMap_congr
        intro l hl
        simp only [r2kT, if_true, hv l hl, hnv n hn', opTile, ht, if_false]
      · intro n hn' m hm' hnm
        apply List.flatMap_congr
        intro l hl
        have : m ≠ n := by omega
        simp only [r2kT, this, if_false, hv l hl, hnv n hn', hmv m hm', opTile, ht, t2, if_true, ri, ci,
          reduceCtorEq]

/-- Real scalars for the Hermitian variant. -/
structure RkScal (h : Bool) (re : α → α) (alpha beta : α) : Prop where
  hre : h = true → RePart re
  ha : h = true → star alpha = alpha
  hb : h = true → star beta = beta

theorem tri_owner {u : Uplo} {p : Nat × Nat} (h : p.2 = p.1) : ri u p = p.1 ∧ ci u p = p.1 := by
  unfold ri ci; split <;> simp [h]

omit [CommRing α] [StarRing α] in
theorem dre_block {h : Bool} {re : α → α} {b r c : Nat} (he : r / b = c / b) (x : α) :
    dre h re (r % b) (c % b) x = dre h re r c x := by
  unfold dre
  have : r % b = c % b ↔ r = c := by
    constructor
    · intro h'; rw [← Nat.div_add_mod r b, ← Nat.div_add_mod c b, he, h']
    · rintro rfl; rfl
  simp only [this]

omit [CommRing α] [StarRing α] in
theorem dre_off {h : Bool} {re : α → α} {r c : Nat} (hne : r ≠ c) (x : α) : dre h re r c x = x := by
  simp [dre, hne]

theorem dre_sa {h : Bool} {re : α → α} (hre : h = true → RePart re) {r c : Nat} {x : α}
    (hx : h = true → r = c → star x = x) : dre h re r c x = x := by
  unfold dre
  split
  · rename_i hh; exact (hre hh.1).fix x (hx hh.1 hh.2)
  · rfl

theorem star_dre {h : Bool} {re : α → α} (hre : h = true → RePart re) {r c : Nat} {x : α}
    (hh : h = true) (hrc : r = c) : star (dre h re r c x) = dre h re r c x := by
  unfold dre; rw [if_pos ⟨hh, hrc⟩]; exact (hre hh).sa x

section el
variable {h : Bool} {re : α → α} {u : Uplo} {t : Trans} {alpha beta : α} {A B C : TMat M} {b N k : Nat}

theorem rkT_writes (p : Nat × Nat) (l : Nat) (hp : p.1 ≤ p.2) :
    WritesE (fun t i j => t = C.at' (ri u p) (ci u p) ∧ i < b ∧ j < b ∧
        inTri u (ri u p * b + i) (ci u p * b + j)) (rkT h re u t alpha A beta C b N k p l) := by
  unfold rkT
  split
  · rename_i he
    obtain ⟨e1, e2⟩ := tri_owner (u := u) he
    apply WritesE.single
    rintro x i j ⟨rfl, hij⟩
    rw [e1, e2]
    exact ⟨rfl, lt_of_lt_of_le hij.1 tdim_le, lt_of_lt_of_le hij.2.1 tdim_le, inTri_diag hij.2.2⟩
  · apply WritesE.single
    rintro x i j ⟨rfl, hij⟩
    have h1 := lt_of_lt_of_le hij.1 (tdim_le (m := N) (b := b))
    have h2 := lt_of_lt_of_le hij.2 (tdim_le (m := N) (b := b))
    exact ⟨rfl, h1, h2, inTri_block (by omega) h1 h2⟩

theorem r2kT_writes (p : Nat × Nat) (l : Nat) (hp : p.1 ≤ p.2) :
    WritesE (fun t i j => t = C.at' (ri u p) (ci u p) ∧ i < b ∧ j < b ∧
        inTri u (ri u p * b + i) (ci u p * b + j)) (r2kT h re u t alpha A B beta C b N k p l) := by
  unfold r2kT
  split
  · rename_i he
    obtain ⟨e1, e2⟩ := tri_owner (u := u) he
    apply WritesE.single
    rintro x i j ⟨rfl, hij⟩
    rw [e1, e2]
    exact ⟨rfl, lt_of_lt_of_le hij.1 tdim_le, lt_of_lt_of_le hij.2.1 tdim_le, inTri_diag hij.2.2⟩
  · refine WritesE.cons ?_ ?_
    all_goals
      apply WritesE.single
      rintro x i j ⟨rfl, hij⟩
      have h1 := lt_of_lt_of_le hij.1 (tdim_le (m := N) (b := b))
      have h2 := lt_of_lt_of_le hij.2 (tdim_le (m := N) (b := b))
      exact ⟨rfl, h1, h2, inTri_block (by omega) h1 h2⟩

theorem rkT_within {R : M → Prop} (hR : R A.id) (p : Nat × Nat) (l : Nat) :
    Within (fun t => R t.1 ∨ t = C.at' (ri u p) (ci u p)) (rkT h re u t alpha A beta C b N k p l) := by
  have ho : ∀ x, R (opTile t A x l).1 := fun x => by rw [opTile_id]; exact hR
  unfold rkT
  split
  · rename_i he
    obtain ⟨e1, e2⟩ := tri_owner (u := u) he
    exact Within.op1 coreRk_local (Or.inl (ho _)) (Or.inr (by rw [e1, e2]))
  · exact gemm_within (Or.inl (ho _)) (Or.inl (ho _)) (Or.inr rfl)

theorem r2kT_within {R : M → Prop} (hR : R A.id) (hR' : R B.id) (p : Nat × Nat) (l : Nat) :
    Within (fun t => R t.1 ∨ t = C.at' (ri u p) (ci u p)) (r2kT h re u t alpha A B beta C b N k p l) := by
  have ho : ∀ x, R (opTile t A x l).1 := fun x => by rw [opTile_id]; exact hR
  have ho' : ∀ x, R (opTile t B x l).1 := fun x => by rw [opTile_id]; exact hR'
  unfold r2kT
  split
  · rename_i he
    obtain ⟨e1, e2⟩ := tri_owner (u := u) he
    exact Within.op2 coreR2k_local (Or.inl (ho _)) (Or.inl (ho' _)) (Or.inr (by rw [e1, e2]))
  · exact Within.cons (gemm_within (Or.inl (ho _)) (Or.inl (ho' _)) (Or.inr rfl))
      (gemm_within (Or.inl (ho' _)) (Or.inl (ho _)) (Or.inr rfl))

/-- One call of the rank-k nest, at element level. -/
theorem rkT_run (hA : A.Al b) (hC : C.Al b) (hac : A.id ≠ C.id)
    (ht : t = .noTrans ∨ t = tt h) {p : Nat × Nat} {r c : Nat} (hr : r < N) (hc : c < N)
    (htri : inTri u r c) (e1 : ri u p = r / b) (e2 : ci u p = c / b)
    (s s0 : Store (M × Nat × Nat) α) (hs : ∀ t, t ≠ C.at' (r / b) (c / b) → s t = s0 t) (l : Nat) :
    texec (rkT h re u t alpha A beta C b N k p l) s (C.at' (r / b) (c / b)) (r % b) (c % b) =
      (if l = 0 then beta else 1) * dre h re r c (s (C.at' (r / b) (c / b)) (r % b) (c % b)) +
      alpha * ∑ x ∈ range (tdim k b l),
        opE t (A.el s0) r (l * b + x) * cj h (opE t (A.el s0) c (l * b + x)) := by
  have hb := hC.pos
  have hA' : ∀ y, s (opTile t A y l) = s0 (opTile t A y l) := fun y =>
    hs _ (fun he => hac (by have := congrArg Prod.fst he; rwa [opTile_id] at this))
  have hE : ∀ q x, x ∈ range (tdim k b l) →
      opE t (s0 (opTile t A (q / b) l)) (q % b) x = opE t (A.el s0) q (l * b + x) := by
    intro q x hx
    rw [mem_range, tdim_row] at hx
    rw [opE_tile_left hA s0 (Nat.mod_lt q hb) hx.1, divmod]
  have hri := mod_lt_tdim hb hr
  have hci := mod_lt_tdim hb hc
  unfold rkT
  split
  · rename_i he
    obtain ⟨o1, o2⟩ := tri_owner (u := u) he
    have h1 : p.1 = r / b := by rw [← o1, e1]
    have h2 : p.1 = c / b := by rw [← o2, e2]
    have h12 : r / b = c / b := h1.symm.trans h2
    have hfc : tri u (tdim N b p.1) (r % b) (c % b) := by
      refine ⟨by rw [h1]; exact hri, by rw [h2]; exact hci, ?_⟩
      rw [← inTri_diag_iff (n := r / b) (b := b), divmod]
      rw [h12, divmod]; exact htri
    simp only [texec_cons, texec_nil]
    have htile : C.at' p.1 p.1 = C.at' (r / b) (c / b) := by rw [← h1, ← h2]
    rw [← htile]
    unfold coreRk
    rw [op1_self, paste_in hfc, dre_block h12, hA']
    congr 2
    apply Finset.sum_congr rfl
    intro x hx
    rw [← hE r x hx, ← hE c x hx, ← h1, ← h2]
  · rename_i he
    have hne : r ≠ c := by
      rintro rfl
      apply he
      have : ri u p = ci u p := e1.trans e2.symm
      unfold ri ci at this
      split at this <;> simp [this]
    rw [e1, e2]
    simp only [texec_cons, texec_nil]
    rw [gemm_run s ⟨hri, hci⟩, dre_off hne, hA', hA']
    congr 2
    apply Finset.sum_congr rfl
    intro x hx
    rw [opE_t2 ht, hE r x hx, hE c x hx]

/-- One round of the rank-2k nest, at element level. -/
theorem r2kT_run (hA : A.Al b) (hB : B.Al b) (hC : C.Al b) (hac : A.id ≠ C.id) (hbc : B.id ≠ C.id)
    (ht : t = .noTrans ∨ t = tt h) {p : Nat × Nat} {r c : Nat} (hr : r < N) (hc : c < N)
    (htri : inTri u r c) (e1 : ri u p = r / b) (e2 : ci u p = c / b)
    (s s0 : Store (M × Nat × Nat) α) (hs : ∀ t, t ≠ C.at' (r / b) (c / b) → s t = s0 t) (l : Nat) :
    texec (r2kT h re u t alpha A B beta C b N k p l) s (C.at' (r / b) (c / b)) (r % b) (c % b) =
      (if l = 0 then beta else 1) * dre h re r c (s (C.at' (r / b) (c / b)) (r % b) (c % b)) +
      (alpha * ∑ x ∈ range (tdim k b l),
        opE t (A.el s0) r (l * b + x) * cj h (opE t (B.el s0) c (l * b + x)) +
       cj h alpha * ∑ x ∈ range (tdim k b l),
        opE t (B.el s0) r (l * b + x) * cj h (opE t (A.el s0) c (l * b + x))) := by
  have hb := hC.pos
  have hne : ∀ y, opTile t A y l ≠ C.at' (r / b) (c / b) := fun y he =>
    hac (by have := congrArg Prod.fst he; rwa [opTile_id] at this)
  have hne' : ∀ y, opTile t B y l ≠ C.at' (r / b) (c / b) := fun y he =>
    hbc (by have := congrArg Prod.fst he; rwa [opTile_id] at this)
  have hA' : ∀ y, s (opTile t A y l) = s0 (opTile t A y l) := fun y => hs _ (hne y)
  have hB' : ∀ y, s (opTile t B y l) = s0 (opTile t B y l) := fun y => hs _ (hne' y)
  have hE : ∀ (Z : TMat M), Z.Al b → ∀ q x, x ∈ range (tdim k b l) →
      opE t (s0 (opTile t Z (q / b) l)) (q % b) x = opE t (Z.el s0) q (l * b + x) := by
    intro Z hZ q x hx
    rw [mem_range, tdim_row] at hx
    rw [opE_tile_left hZ s0 (Nat.mod_lt q hb) hx.1, divmod]
  have hri := mod_lt_tdim hb hr
  have hci := mod_lt_tdim hb hc
  unfold r2kT
  split
  · rename_i he
    obtain ⟨o1, o2⟩ := tri_owner (u := u) he
    have h1 : p.1 = r / b := by rw [← o1, e1]
    have h2 : p.1 = c / b := by rw [← o2, e2]
    have h12 : r / b = c / b := h1.symm.trans h2
    have hfc : tri u (tdim N b p.1) (r % b) (c % b) := by
      refine ⟨by rw [h1]; exact hri, by rw [h2]; exact hci, ?_⟩
      rw [← inTri_diag_iff (n := r / b) (b := b), divmod]
      rw [h12, divmod]; exact htri
    simp only [texec_cons, texec_nil]
    have htile : C.at' p.1 p.1 = C.at' (r / b) (c / b) := by rw [← h1, ← h2]
    rw [← htile]
    unfold coreR2k
    rw [op2_self, paste_in hfc, dre_block h12, hA', hB']
    congr 1
    congr 1 <;> congr 1 <;> apply Finset.sum_congr rfl <;> intro x hx
    · rw [← hE A hA r x hx, ← hE B hB c x hx, ← h1, ← h2]
    · rw [← hE B hB r x hx, ← hE A hA c x hx, ← h1, ← h2]
  · rename_i he
    have hne1 : r ≠ c := by
      rintro rfl
      apply he
      have : ri u p = ci u p := e1.trans e2.symm
      unfold ri ci at this
      split at this <;> simp [this]
    rw [e1, e2]
    simp only [texec_cons, texec_nil]
    rw [gemm_run _ ⟨hri, hci⟩, gemm_run _ ⟨hri, hci⟩, dre_off hne1]
    have hfr : ∀ (al be : α) (a' b' : M × Nat × Nat) (y : M × Nat × Nat), y ≠ C.at' (r / b) (c / b) →
        (coreGemm t (t2 h t) (tdim N b (r / b)) (tdim N b (c / b)) (tdim k b l) al a' b' be
          (C.at' (r / b) (c / b))).run s y = s y := by
      intro al be a' b' y hy
      unfold coreGemm; exact op2_ne s hy
    rw [hfr _ _ _ _ _ (hne' _), hfr _ _ _ _ _ (hne _), hA', hA', hB', hB', one_mul, add_assoc]
    congr 1
    congr 1 <;> congr 1 <;> apply Finset.sum_congr rfl <;> intro x hx
    · rw [opE_t2 ht, hE A hA r x hx, hE B hB c x hx]
    · rw [opE_t2 ht, hE A hA c x hx, hE B hB r x hx]

theorem star_sum_self {ι : Type} (t : Finset ι) (f : ι → α) :
    star (∑ l ∈ t, f l * star (f l)) = ∑ l ∈ t, f l * star (f l) := by
  rw [star_sum]
  apply Finset.sum_congr rfl
  intro l _
  rw [star_mul, star_star]

/-- Element-level effect of `pzrk` when the inner dimension is positive. -/
theorem pzrk_el (hA : A.Al b) (hC : C.Al b) (hm : C.d.m = N) (hn : C.d.n = N) (hs : RkShape t N k A)
    (hac : A.id ≠ C.id) (ht : t = .noTrans ∨ t = tt h) (hsc : RkScal h re alpha beta) (hk : 0 < k)
    (s : Store (M × Nat × Nat) α) {r c : Nat} (hr : r < N) (hc : c < N) :
    C.el (texec (pzrk h re u t alpha A beta C) s) r c =
      if inTri u r c then beta * dre h re r c (C.el s r c) +
        alpha * ∑ l ∈ range k, opE t (A.el s) r l * cj h (opE t (A.el s) c l)
      else C.el s r c := by
  have hb := hC.pos
  rw [pzrk_eq hA hC hm hn hs]
  have hle : ∀ p ∈ tp C.d.nt C.d.mt, p.1 ≤ p.2 := fun p hp => by rw [mem_tp] at hp; omega
  obtain ⟨h1, h2⟩ := tri_par (R := fun x => x = A.id) (u := u) hC hm hn (fun h => hac h.symm)
    (T := fun p => (List.range (ceilDiv k b)).flatMap (rkT h re u t alpha A beta C b N k p))
    (fun p _ => Within.flatMap fun l _ => rkT_within (R := fun x => x = A.id) rfl p l)
    (fun p hp => WritesE.flatMap fun l _ => rkT_writes p l (hle p hp)) s hr hc
  split
  · rename_i htri
    obtain ⟨p, hp, e1, e2, he⟩ := h1 htri
    rw [he]
    have hK : 0 < ceilDiv k b := (lt_ceilDiv hb).mpr (by omega)
    have hw : ∀ l, Writes (fun t => t = C.at' (r / b) (c / b)) (rkT h re u t alpha A beta C b N k p l) :=
      fun l => (rkT_writes p l (hle p hp)).writes fun x i j hx => by rw [hx.1, e1, e2]
    have hel : C.el s r c = s (C.at' (r / b) (c / b)) (r % b) (c % b) := by
      simp only [TMat.el, hC.mb, hC.nb]
    rw [acc_chain (c := C.at' (r / b) (c / b)) hw s (beta * dre h re r c (C.el s r c))
      (fun l => alpha * ∑ x ∈ range (tdim k b l),
        opE t (A.el s) r (l * b + x) * cj h (opE t (A.el s) c (l * b + x))) ?_ ?_ _ hK]
    · rw [← mul_sum, sum_tiles hb (fun l => opE t (A.el s) r l * cj h (opE t (A.el s) c l))]
    · intro s' hs' hs''
      rw [rkT_run hA hC hac ht hr hc htri e1 e2 s' s hs', hs'', if_pos rfl, hel]
    · intro l s' hs' hs''
      rw [rkT_run hA hC hac ht hr hc htri e1 e2 s' s hs', hs'', if_neg (by omega), one_mul]
      congr 1
      apply dre_sa hsc.hre
      intro hh hrc
      subst hrc
      rw [star_add, star_mul, star_dre hsc.hre hh rfl, hsc.hb hh, mul_comm, star_sum]
      congr 1
      apply Finset.sum_congr rfl
      intro x _
      rw [star_mul, hsc.ha hh, mul_comm]
      congr 1
      subst hh
      exact star_sum_self _ _
  · rename_i htri
    exact h2 htri

/-- Element-level effect of `pzr2k` when the inner dimension is positive. -/
theorem pzr2k_el (hA : A.Al b) (hB : B.Al b) (hC : C.Al b) (hm : C.d.m = N) (hn : C.d.n = N)
    (hs : RkShape t N k A) (hac : A.id ≠ C.id) (hbc : B.id ≠ C.id) (ht : t = .noTrans ∨ t = tt h)
    (hre : h = true → RePart re) (hbe : h = true → star beta = beta) (hk : 0 < k)
    (s : Store (M × Nat × Nat) α) {r c : Nat} (hr : r < N) (hc : c < N) :
    C.el (texec (pzr2k h re u t alpha A B beta C) s) r c =
      if inTri u r c then beta * dre h re r c (C.el s r c) +
        (alpha * ∑ l ∈ range k, opE t (A.el s) r l * cj h (opE t (B.el s) c l) +
         cj h alpha * ∑ l ∈ range k, opE t (B.el s) r l * cj h (opE t (A.el s) c l))
      else C.el s r c := by
  have hb := hC.pos
  rw [pzr2k_eq hA hC hm hn hs]
  have hle : ∀ p ∈ tp C.d.nt C.d.mt, p.1 ≤ p.2 := fun p hp => by rw [mem_tp] at hp; omega
  obtain ⟨h1, h2⟩ := tri_par (R := fun x => x = A.id ∨ x = B.id) (u := u) hC hm hn
    (by rintro (h | h); exacts [hac h.symm, hbc h.symm])
    (T := fun p => (List.range (ceilDiv k b)).flatMap (r2kT h re u t alpha A B beta C b N k p))
    (fun p _ => Within.flatMap fun l _ => r2kT_within (R := fun x => x = A.id ∨ x = B.id) (Or.inl rfl) (Or.inr rfl) p l)
    (fun p hp => WritesE.flatMap fun l _ => r2kT_writes p l (hle p hp)) s hr hc
  split
  · rename_i htri
    obtain ⟨p, hp, e1, e2, he⟩ := h1 htri
    rw [he]
    have hK : 0 < ceilDiv k b := (lt_ceilDiv hb).mpr (by omega)
    have hw : ∀ l, Writes (fun t => t = C.at' (r / b) (c / b)) (r2kT h re u t alpha A B beta C b N k p l) :=
      fun l => (r2kT_writes p l (hle p hp)).writes fun x i j hx => by rw [hx.1, e1, e2]
    have hel : C.el s r c = s (C.at' (r / b) (c / b)) (r % b) (c % b) := by
      simp only [TMat.el, hC.mb, hC.nb]
    rw [acc_chain (c := C.at' (r / b) (c / b)) hw s (beta * dre h re r c (C.el s r c))
      (fun l => alpha * ∑ x ∈ range (tdim k b l),
        opE t (A.el s) r (l * b + x) * cj h (opE t (B.el s) c (l * b + x)) +
        cj h alpha * ∑ x ∈ range (tdim k b l),
        opE t (B.el s) r (l * b + x) * cj h (opE t (A.el s) c (l * b + x))) ?_ ?_ _ hK]
    · rw [sum_add_distrib, ← mul_sum, ← mul_sum,
        sum_tiles hb (fun l => opE t (A.el s) r l * cj h (opE t (B.el s) c l)),
        sum_tiles hb (fun l => opE t (B.el s) r l * cj h (opE t (A.el s) c l))]
    · intro s' hs' hs''
      rw [r2kT_run hA hB hC hac hbc ht hr hc htri e1 e2 s' s hs', hs'', if_pos rfl, hel]
    · intro l s' hs' hs''
      rw [r2kT_run hA hB hC hac hbc ht hr hc htri e1 e2 s' s hs', hs'', if_neg (by omega), one_mul]
      congr 1
      apply dre_sa hre
      intro hh hrc
      subst hrc
      rw [star_add, star_mul, star_dre hre hh rfl, hbe hh, mul_comm, star_sum]
      congr 1
      apply Finset.sum_congr rfl
      intro x _
      subst hh
      simp only [cj, if_true, star_add, star_mul, star_sum, star_star]
      rw [add_comm]
      congr 1 <;> rw [mul_comm]
  · rename_i htri
    exact h2 htri

theorem opTile_valid {env : M → MatEnv} (hA : Fits env b A) (hs : RkShape t N k A) {x l r c : Nat}
    (hr : r ≤ tdim N b x) (hc : c ≤ tdim k b l) :
    ∀ i j, (if t = .noTrans then box r c else box c r) i j → evalid env (opTile t A x l) i j := by
  intro i j hij
  have h1 := hs.am
  have h2 := hs.an
  unfold opTile
  split at hij <;> rename_i htt <;> simp only [htt, if_true, if_false] at h1 h2 ⊢
  · exact hA.box (h1 ▸ hr) (h2 ▸ hc) _ _ hij
  · exact hA.box (h2 ▸ hc) (h1 ▸ hr) _ _ hij

theorem t2_foot {h : Bool} {t : Trans} {n k i j : Nat} :
    (if t2 h t = .noTrans then box k n else box n k) i j →
    (if t = .noTrans then box n k else box k n) i j := by
  unfold t2 tt
  by_cases ht : t = .noTrans
  · simp only [ht, if_true]; cases h <;> simp
  · simp [ht]

theorem pzrk_good {env : M → MatEnv} (hA : Fits env b A) (hC : Fits env b C) (hm : C.d.m = N)
    (hn : C.d.n = N) (hs : RkShape t N k A) : Good (evalid env) (pzrk h re u t alpha A beta C) := by
  rw [pzrk_eq hA.al hC.al hm hn hs]
  refine Good.flatMap fun p hp => Good.flatMap fun l hl => ?_
  unfold rkT
  refine Good.ite (fun _ => ?_) (fun _ => ?_)
  · refine Good.single coreRk_local op1_declared (op1_inside (opTile_valid hA hs le_rfl le_rfl) ?_)
    intro i j hij
    exact hC.box (r := tdim N b p.1) (c := tdim N b p.1) (by rw [hm]) (by rw [hn]) i j ⟨hij.1, hij.2.1⟩
  · refine gemm_single_good (opTile_valid hA hs le_rfl le_rfl)
      (fun i j hij => opTile_valid hA hs le_rfl le_rfl i j (t2_foot hij)) ?_
    exact hC.box (by rw [hm]) (by rw [hn])

theorem pzr2k_good {env : M → MatEnv} (hA : Fits env b A) (hB : Fits env b B) (hC : Fits env b C)
    (hm : C.d.m = N) (hn : C.d.n = N) (hs : RkShape t N k A) (hs' : RkShape t N k B) :
    Good (evalid env) (pzr2k h re u t alpha A B beta C) := by
  rw [pzr2k_eq hA.al hC.al hm hn hs]
  refine Good.flatMap fun p hp => Good.flatMap fun l hl => ?_
  unfold r2kT
  refine Good.ite (fun _ => ?_) (fun _ => ?_)
  · refine Good.single coreR2k_local op2_declared (op2_inside (opTile_valid hA hs le_rfl le_rfl)
      (opTile_valid hB hs' le_rfl le_rfl) ?_)
    intro i j hij
    exact hC.box (r := tdim N b p.1) (c := tdim N b p.1) (by rw [hm]) (by rw [hn]) i j ⟨hij.1, hij.2.1⟩
  · refine Good.cons ?_ ?_
    · exact gemm_single_good (opTile_valid hA hs le_rfl le_rfl)
        (fun i j hij => opTile_valid hB hs' le_rfl le_rfl i j (t2_foot hij))
        (hC.box (by rw [hm]) (by rw [hn]))
    · exact gemm_single_good (opTile_valid hB hs' le_rfl le_rfl)
        (fun i j hij => opTile_valid hA hs le_rfl le_rfl i j (t2_foot hij))
        (hC.box (by rw [hm]) (by rw [hn]))

theorem pzrk_writes (hA : A.Al b) (hC : C.Al b) (hm : C.d.m = N) (hn : C.d.n = N)
    (hs : RkShape t N k A) : Writes (fun t => t.1 = C.id) (pzrk h re u t alpha A beta C) := by
  rw [pzrk_eq hA hC hm hn hs]
  refine Writes.flatMap fun p hp => Writes.flatMap fun l _ => ?_
  rw [mem_tp] at hp
  exact (rkT_writes p l (by omega)).writes fun x i j hx => by rw [hx.1]; rfl

theorem pzr2k_writes (hA : A.Al b) (hC : C.Al b) (hm : C.d.m = N) (hn : C.d.n = N)
    (hs : RkShape t N k A) : Writes (fun t => t.1 = C.id) (pzr2k h re u t alpha A B beta C) := by
  rw [pzr2k_eq hA hC hm hn hs]
  refine Writes.flatMap fun p hp => Writes.flatMap fun l _ => ?_
  rw [mem_tp] at hp
  exact (r2kT_writes p l (by omega)).writes fun x i j hx => by rw [hx.1]; rfl

end el

end

end Verif.Tile

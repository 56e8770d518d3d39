/-
Footprints and locality of the LQ tasks; the literal loop nests without tree.
-/
import Verif.LqSim

namespace Verif.Qr

open Verif.Layout Verif.Tile Verif.Tree Finset Matrix

universe u v

section
variable {M : Type u} {α : Type v} [CommRing α] [StarRing α]

theorem lgeV_congr {v v' : Nat → Nat → α} {m k : Nat} (h : ∀ i j, upS k m i j → v i j = v' i j) :
    ∀ r j, r < m → j < k → geV (cT v) r j = geV (cT v') r j := by
  refine geV_congr fun i j hij => ?_
  unfold cT
  rw [h j i ⟨hij.1, hij.2.2, hij.2.1⟩]

theorem lstV_congr {tri : Bool} {v v' : Nat → Nat → α} {m1 m2 k : Nat} (h : ∀ i j, lvReg tri k m2 i j → v i j = v' i j) :
    ∀ r j, r < m1 + m2 → j < k → stV tri m1 (cT v) r j = stV tri m1 (cT v') r j := by
  refine stV_congr fun i j hij => ?_
  unfold cT
  rw [h j i]
  cases tri with
  | false => exact (show i < m2 ∧ j < k from hij).symm
  | true =>
    have hij : i ≤ j ∧ i < m2 ∧ j < k := hij
    exact show i ≤ j ∧ j < k ∧ i < m2 from ⟨hij.1, hij.2.2, hij.2.1⟩

theorem unmlqL_good {valid : Foot M} {t : Bool} {m n k ib : Nat} {V T C : M}
    (hV : ∀ i j, upS k m i j → valid V i j) (hT : ∀ i j, tReg ib k i j → valid T i j)
    (hC : ∀ i j, box m n i j → valid C i j) : Good valid [unmlqL (α := α) t m n k ib V T C] := by
  refine Good.single (op2_local ?_) op2_declared (op2_inside hV hT hC)
  intro v v' τ τ' c c' hv ht hc i j hij
  rw [wy_congr (lgeV_congr hv) ht]
  exact lmul_congr hij.1 fun l hl => hc l j ⟨hl, hij.2⟩

theorem unmlqR_good {valid : Foot M} {t : Bool} {m n k ib : Nat} {V T C : M}
    (hV : ∀ i j, upS k n i j → valid V i j) (hT : ∀ i j, tReg ib k i j → valid T i j)
    (hC : ∀ i j, box m n i j → valid C i j) : Good valid [unmlqR (α := α) t m n k ib V T C] := by
  refine Good.single (op2_local ?_) op2_declared (op2_inside hV hT hC)
  intro v v' τ τ' c c' hv ht hc i j hij
  rw [wy_congr (lgeV_congr hv) ht]
  exact rmul_congr hij.2 fun l hl => hc i l ⟨hij.1, hl⟩

theorem stmlqL_good {valid : Foot M} {tri t : Bool} {m1 n m2 k ib : Nat} {A1 A2 V T : M} (hne : A1 ≠ A2)
    (h1 : ∀ i j, box m1 n i j → valid A1 i j) (h2 : ∀ i j, box m2 n i j → valid A2 i j)
    (hV : ∀ i j, lvReg tri k m2 i j → valid V i j) (hT : ∀ i j, tReg ib k i j → valid T i j) :
    Good valid [stmlqL (α := α) tri t m1 n m2 k ib A1 A2 V T] := by
  refine Good.single (wop_local (by simpa using hne) ?_) wop_declared (wop_inside ?_ ?_)
  · intro w hw s s' hr hwr i j hij
    have e1 := hr (V, lvReg tri k m2) (by simp)
    have e2 := hr (T, tReg ib k) (by simp)
    have e3 := hwr _ List.mem_cons_self
    have e4 := hwr _ (List.mem_cons_of_mem _ List.mem_cons_self)
    dsimp only at e1 e2 e3 e4
    have e : ∀ l, l < m1 + m2 → j < n → vstack m1 (s A1) (s A2) l j = vstack m1 (s' A1) (s' A2) l j := by
      intro l hl hj
      unfold vstack
      split
      · next h => exact e3 l j ⟨h, hj⟩
      · exact e4 _ j ⟨by omega, hj⟩
    simp only [List.mem_cons, List.not_mem_nil, or_false] at hw
    rcases hw with rfl | rfl
    · have hij : box m1 n i j := hij
      dsimp only
      rw [wy_congr (lstV_congr e1) e2]
      exact lmul_congr (by have := hij.1; omega) fun l hl => e l hl hij.2
    · have hij : box m2 n i j := hij
      dsimp only
      rw [wy_congr (lstV_congr e1) e2]
      exact lmul_congr (by have := hij.1; omega) fun l hl => e l hl hij.2
  · intro p hp
    simp only [List.mem_cons, List.not_mem_nil, or_false] at hp
    rcases hp with rfl | rfl
    exacts [hV, hT]
  · intro p hp
    simp only [List.mem_cons, List.not_mem_nil, or_false] at hp
    rcases hp with rfl | rfl
    exacts [h1, h2]

theorem stmlqR_good {valid : Foot M} {tri t : Bool} {m n1 n2 k ib : Nat} {A1 A2 V T : M} (hne : A1 ≠ A2)
    (h1 : ∀ i j, box m n1 i j → valid A1 i j) (h2 : ∀ i j, box m n2 i j → valid A2 i j)
    (hV : ∀ i j, lvReg tri k n2 i j → valid V i j) (hT : ∀ i j, tReg ib k i j → valid T i j) :
    Good valid [stmlqR (α := α) tri t m n1 n2 k ib A1 A2 V T] := by
  refine Good.single (wop_local (by simpa using hne) ?_) wop_declared (wop_inside ?_ ?_)
  · intro w hw s s' hr hwr i j hij
    have e1 := hr (V, lvReg tri k n2) (by simp)
    have e2 := hr (T, tReg ib k) (by simp)
    have e3 := hwr _ List.mem_cons_self
    have e4 := hwr _ (List.mem_cons_of_mem _ List.mem_cons_self)
    dsimp only at e1 e2 e3 e4
    have e : ∀ l, l < n1 + n2 → i < m → hstack n1 (s A1) (s A2) i l = hstack n1 (s' A1) (s' A2) i l := by
      intro l hl hj
      unfold hstack
      split
      · next h => exact e3 i l ⟨hj, h⟩
      · exact e4 i _ ⟨hj, by omega⟩
    simp only [List.mem_cons, List.not_mem_nil, or_false] at hw
    rcases hw with rfl | rfl
    · have hij : box m n1 i j := hij
      dsimp only
      rw [wy_congr (lstV_congr e1) e2]
      exact rmul_congr (by have := hij.2; omega) fun l hl => e l hl hij.1
    · have hij : box m n2 i j := hij
      dsimp only
      rw [wy_congr (lstV_congr e1) e2]
      exact rmul_congr (by have := hij.2; omega) fun l hl => e l hl hij.1
  · intro p hp
    simp only [List.mem_cons, List.not_mem_nil, or_false] at hp
    rcases hp with rfl | rfl
    exacts [hV, hT]
  · intro p hp
    simp only [List.mem_cons, List.not_mem_nil, or_false] at hp
    rcases hp with rfl | rfl
    exacts [h1, h2]

variable {K : QrKern α}

theorem gelqtT_good {valid : Foot M} (hK : QrSpec K) {m n ib : Nat} {A T : M} (hne : A ≠ T)
    (hA : ∀ i j, box m n i j → valid A i j) (hT : ∀ i j, tReg ib (min m n) i j → valid T i j) :
    Good valid [gelqtT K m n ib A T] := by
  refine Good.single (wop_local (by simpa using hne) ?_) wop_declared (wop_inside ?_ ?_)
  · intro w hw s s' hr hwr i j hij
    have e3 := hwr _ List.mem_cons_self
    dsimp only at e3
    have hl := hK.ge_loc n m ib (cT (s A)) (cT (s' A)) fun i j h => congrArg star (e3 j i h.symm)
    simp only [List.mem_cons, List.not_mem_nil, or_false] at hw
    rcases hw with rfl | rfl
    · have hij : i < m ∧ j < n := hij
      exact congrArg star (hl.1 j i hij.symm)
    · refine hl.2 i j ?_
      rw [Nat.min_comm]; exact hij
  · intro p hp; cases hp
  · intro p hp
    simp only [List.mem_cons, List.not_mem_nil, or_false] at hp
    rcases hp with rfl | rfl
    exacts [hA, hT]

theorem tslqtT_good {valid : Foot M} (hK : QrSpec K) {m n ib : Nat} {A1 A2 T : M} (h12 : A1 ≠ A2) (h1T : A1 ≠ T)
    (h2T : A2 ≠ T) (h1 : ∀ i j, loTo m i j → valid A1 i j)
    (h2 : ∀ i j, box m n i j → valid A2 i j) (hT : ∀ i j, tReg ib m i j → valid T i j) :
    Good valid [tslqtT K m n ib A1 A2 T] := by
  refine Good.single (wop_local (by simp [h12, h1T, h2T]) ?_) wop_declared (wop_inside ?_ ?_)
  · intro w hw s s' hr hwr i j hij
    have e3 := hwr _ List.mem_cons_self
    have e4 := hwr _ (List.mem_cons_of_mem _ List.mem_cons_self)
    have e5 := hwr _ (List.mem_cons_of_mem _ (List.mem_cons_of_mem _ List.mem_cons_self))
    dsimp only at e3 e4 e5
    have hl := hK.ts_loc n m ib (cT (s A1)) (cT (s' A1)) (cT (s A2)) (cT (s' A2)) (s T) (s' T)
      (fun i j h => congrArg star (e3 j i h)) (fun i j h => congrArg star (e4 j i h.symm)) e5
    simp only [List.mem_cons, List.not_mem_nil, or_false] at hw
    rcases hw with rfl | rfl | rfl
    · exact congrArg star (hl.1 j i hij)
    · have hij : i < m ∧ j < n := hij
      exact congrArg star (hl.2.1 j i hij.symm)
    · exact hl.2.2 i j hij
  · intro p hp; cases hp
  · intro p hp
    simp only [List.mem_cons, List.not_mem_nil, or_false] at hp
    rcases hp with rfl | rfl | rfl
    exacts [h1, h2, hT]

theorem ttlqtT_good {valid : Foot M} (hK : QrSpec K) {m n ib : Nat} {A1 A2 T : M} (h12 : A1 ≠ A2) (h1T : A1 ≠ T)
    (h2T : A2 ≠ T) (h1 : ∀ i j, loTo m i j → valid A1 i j)
    (h2 : ∀ i j, loBoxD m n i j → valid A2 i j) (hT : ∀ i j, tReg ib m i j → valid T i j) :
    Good valid [ttlqtT K m n ib A1 A2 T] := by
  refine Good.single (wop_local (by simp [h12, h1T, h2T]) ?_) wop_declared (wop_inside ?_ ?_)
  · intro w hw s s' hr hwr i j hij
    have e3 := hwr _ List.mem_cons_self
    have e4 := hwr _ (List.mem_cons_of_mem _ List.mem_cons_self)
    have e5 := hwr _ (List.mem_cons_of_mem _ (List.mem_cons_of_mem _ List.mem_cons_self))
    dsimp only at e3 e4 e5
    have hl := hK.tt_loc n m ib (cT (s A1)) (cT (s' A1)) (cT (s A2)) (cT (s' A2)) (s T) (s' T)
      (fun i j h => congrArg star (e3 j i h)) (fun i j h => congrArg star (e4 j i ⟨h.1, h.2.2, h.2.1⟩)) e5
    simp only [List.mem_cons, List.not_mem_nil, or_false] at hw
    rcases hw with rfl | rfl | rfl
    · exact congrArg star (hl.1 j i hij)
    · have hij : j ≤ i ∧ i < m ∧ j < n := hij
      exact congrArg star (hl.2.1 j i ⟨hij.1, hij.2.2, hij.2.1⟩)
    · exact hl.2.2 i j hij
  · intro p hp; cases hp
  · intro p hp
    simp only [List.mem_cons, List.not_mem_nil, or_false] at hp
    rcases hp with rfl | rfl | rfl
    exacts [h1, h2, hT]

/-! ### Loop nests -/

variable {b ib mm na : Nat} {off : Nat → Nat} {A T C : TMat M} {valid : Foot (M × Nat × Nat)}

/-- The `T` tiles of an operation exist. -/
def LTtV (valid : Foot (M × Nat × Nat)) (ib b : Nat) (off : Nat → Nat) (T : TMat M) (o : Op) : Prop :=
  ∀ i j, i < ib → j < b → valid (lTt off T o) i j

theorem mview_le (hA : A.Al b) {k : Nat} (hk : k < A.d.mt) : A.d.mview k ≤ b := by
  rw [hA.mview hk]; exact Nat.min_le_left ..

theorem lcnt_le (plus : Bool) (A : Desc) (j m k : Nat) : lcnt plus A j m k ≤ A.mview j := Nat.min_le_left ..

theorem lupdL_good {plus t : Bool} (hA : A.Al b) (hC : C.Al b) (hm : C.d.m = A.d.n) (vA : TilesV valid b A)
    (vC : TilesV valid b C) {cols : List Nat} (hcols : ∀ n ∈ cols, n < C.d.nt) {o : Op} (ho : o.inB A.d.nt A.d.mt)
    (vT : LTtV valid ib b off T o) : Good valid (lupdL (α := α) plus t ib off A T C cols o) := by
  have hmt : C.d.mt = A.d.nt := by rw [hA.nt_eq, hC.mt_eq, hm]
  have hs : ∀ j m k, j < A.d.mt → k < m → m < A.d.nt → ∀ tri, (∀ i i', i < ib → i' < b → valid (T.at' j (off m)) i i') →
      Good valid (cols.map fun n => stmlqL (α := α) tri t (C.d.mview k) (C.d.nview n) (C.d.mview m) (lcnt plus A.d j m k) ib
        (C.at' k n) (C.at' m n) (A.at' j m) (T.at' j (off m))) := by
    intro j m k hj hk hm' tri vT
    refine Good.map fun n hn => ?_
    have hnv := hC.nview (hcols n hn)
    have hmv := hC.mview (k := k) (by omega)
    have hmv' := hC.mview (k := m) (by omega)
    have hav := hA.nview hm'
    have hbv := hA.mview hj
    have hle := mview_le hA hj
    have hlc := lcnt_le plus A.d j m k
    refine stmlqL_good (at'_ne_row (by omega)) ?_ ?_ ?_ ?_
    · intro i i' h
      exact vC _ _ _ _ (by rw [← hmv]; exact h.1) (by rw [← hnv]; exact h.2)
    · intro i i' h
      exact vC _ _ _ _ (by rw [← hmv']; exact h.1) (by rw [← hnv]; exact h.2)
    · intro i i' h
      have h : i < lcnt plus A.d j m k ∧ i' < C.d.mview m := by
        cases tri with
        | false => exact h
        | true => exact (show _ ∧ _ from h).2
      exact vA _ _ _ _ (by rw [← hbv]; omega) (by rw [← hm, ← hmv']; exact h.2)
    · intro i i' h
      have := tReg_le (b := b) (by omega) h
      exact vT _ _ this.1 this.2
  cases o with
  | ge j k =>
    obtain ⟨hj, hk⟩ := ho
    refine Good.map fun n hn => ?_
    have hnv := hC.nview (hcols n hn)
    have hmv := hC.mview (k := k) (by omega)
    have hav := hA.nview hk
    have hbv := hA.mview hj
    have hle := mview_le hA hj
    refine unmlqL_good ?_ ?_ ?_
    · rintro i i' ⟨h1, h2, h3⟩
      exact vA _ _ _ _ (by rw [← hbv]; omega) (by rw [← hm, ← hmv]; exact h3)
    · intro i i' h
      have := tReg_le (b := b) (by omega) h
      exact vT _ _ this.1 this.2
    · intro i i' h
      exact vC _ _ _ _ (by rw [← hmv]; exact h.1) (by rw [← hnv]; exact h.2)
  | ts j m k => exact hs j m k ho.1 ho.2.1 ho.2.2 false vT
  | tt j m k => exact hs j m k ho.1 ho.2.1 ho.2.2 true vT

theorem lupdR_good {plus t : Bool} (hA : A.Al b) (hC : C.Al b) (hm : C.d.n = A.d.n) (vA : TilesV valid b A)
    (vC : TilesV valid b C) {rows : List Nat} (hrows : ∀ n ∈ rows, n < C.d.mt) {o : Op} (ho : o.inB A.d.nt A.d.mt)
    (vT : LTtV valid ib b off T o) : Good valid (lupdR (α := α) plus t ib off A T C rows o) := by
  have hmt : C.d.nt = A.d.nt := by rw [hA.nt_eq, hC.nt_eq, hm]
  have hs : ∀ j m k, j < A.d.mt → k < m → m < A.d.nt → ∀ tri, (∀ i i', i < ib → i' < b → valid (T.at' j (off m)) i i') →
      Good valid (rows.map fun r => stmlqR (α := α) tri t (C.d.mview r) (C.d.nview k) (C.d.nview m) (lcnt plus A.d j m k) ib
        (C.at' r k) (C.at' r m) (A.at' j m) (T.at' j (off m))) := by
    intro j m k hj hk hm' tri vT
    refine Good.map fun n hn => ?_
    have hnv := hC.mview (hrows n hn)
    have hmv := hC.nview (k := k) (by omega)
    have hmv' := hC.nview (k := m) (by omega)
    have hav := hA.nview hm'
    have hbv := hA.mview hj
    have hle := mview_le hA hj
    have hlc := lcnt_le plus A.d j m k
    refine stmlqR_good (at'_ne_col (by omega)) ?_ ?_ ?_ ?_
    · intro i i' h
      exact vC _ _ _ _ (by rw [← hnv]; exact h.1) (by rw [← hmv]; exact h.2)
    · intro i i' h
      exact vC _ _ _ _ (by rw [← hnv]; exact h.1) (by rw [← hmv']; exact h.2)
    · intro i i' h
      have h : i < lcnt plus A.d j m k ∧ i' < C.d.nview m := by
        cases tri with
        | false => exact h
        | true => exact (show _ ∧ _ from h).2
      exact vA _ _ _ _ (by rw [← hbv]; omega) (by rw [← hm, ← hmv']; exact h.2)
    · intro i i' h
      have := tReg_le (b := b) (by omega) h
      exact vT _ _ this.1 this.2
  cases o with
  | ge j k =>
    obtain ⟨hj, hk⟩ := ho
    refine Good.map fun n hn => ?_
    have hnv := hC.mview (hrows n hn)
    have hmv := hC.nview (k := k) (by omega)
    have hav := hA.nview hk
    have hbv := hA.mview hj
    have hle := mview_le hA hj
    refine unmlqR_good ?_ ?_ ?_
    · rintro i i' ⟨h1, h2, h3⟩
      exact vA _ _ _ _ (by rw [← hbv]; omega) (by rw [← hm, ← hmv]; exact h3)
    · intro i i' h
      have := tReg_le (b := b) (by omega) h
      exact vT _ _ this.1 this.2
    · intro i i' h
      exact vC _ _ _ _ (by rw [← hnv]; exact h.1) (by rw [← hmv]; exact h.2)
  | ts j m k => exact hs j m k ho.1 ho.2.1 ho.2.2 false vT
  | tt j m k => exact hs j m k ho.1 ho.2.1 ho.2.2 true vT

theorem lkerT_good (hK : QrSpec K) (hA : A.Al b) (hT : T.id ≠ A.id) (vA : TilesV valid b A) {o : Op}
    (ho : o.inB A.d.nt A.d.mt) (vT : LTtV valid ib b off T o) : Good valid [lkerT K ib off A T o] := by
  cases o with
  | ge j k =>
    obtain ⟨hj, hk⟩ := ho
    have hav := hA.nview hk
    have hbv := hA.mview hj
    have hle := mview_le hA hj
    refine gelqtT_good hK (TMat.at'_ne hT.symm) ?_ ?_
    · intro i i' h
      exact vA _ _ _ _ (by rw [← hbv]; exact h.1) (by rw [← hav]; exact h.2)
    · intro i i' h
      have := tReg_le (b := b) (by omega) h
      exact vT _ _ this.1 this.2
  | ts j m k =>
    obtain ⟨hj, hk, hm'⟩ := ho
    have hav := hA.nview hm'
    have hfv := nview_full hA hk hm'
    have hfv' := hA.nview (k := k) (by omega)
    have hbv := hA.mview hj
    have hle := mview_le hA hj
    refine tslqtT_good hK (at'_ne_col (by omega)) (TMat.at'_ne hT.symm) (TMat.at'_ne hT.symm) ?_ ?_ ?_
    · intro i i' h
      have h : i' ≤ i ∧ i < _ := h
      exact vA _ _ _ _ (by rw [← hbv]; exact h.2) (by rw [← hfv', hfv]; omega)
    · intro i i' h
      exact vA _ _ _ _ (by rw [← hbv]; exact h.1) (by rw [← hav]; exact h.2)
    · intro i i' h
      have := tReg_le (b := b) (by omega) h
      exact vT _ _ this.1 this.2
  | tt j m k =>
    obtain ⟨hj, hk, hm'⟩ := ho
    have hav := hA.nview hm'
    have hfv := nview_full hA hk hm'
    have hfv' := hA.nview (k := k) (by omega)
    have hbv := hA.mview hj
    have hle := mview_le hA hj
    refine ttlqtT_good hK (at'_ne_col (by omega)) (TMat.at'_ne hT.symm) (TMat.at'_ne hT.symm) ?_ ?_ ?_
    · intro i i' h
      have h : i' ≤ i ∧ i < _ := h
      exact vA _ _ _ _ (by rw [← hbv]; exact h.2) (by rw [← hfv', hfv]; omega)
    · intro i i' h
      exact vA _ _ _ _ (by rw [← hbv]; exact h.2.1) (by rw [← hav]; exact h.2.2)
    · intro i i' h
      have := tReg_le (b := b) (by omega) h
      exact vT _ _ this.1 this.2

theorem lfac_good (hK : QrSpec K) (hA : A.Al b) (hT : T.id ≠ A.id) (vA : TilesV valid b A) {ops : List Op}
    (ho : ∀ o ∈ ops, o.inB A.d.nt A.d.mt) (vT : ∀ o ∈ ops, LTtV valid ib b off T o) :
    Good valid (ops.flatMap (lfacT K ib off A T)) :=
  Good.flatMap fun o h => (lkerT_good hK hA hT vA (ho o h) (vT o h)).append
    (lupdR_good hA hA rfl vA vA (fun _ hn => (mem_span.mp hn).2) (ho o h) (vT o h))

theorem lupdL_writes {plus t : Bool} {cols : List Nat} (o : Op) :
    Writes (fun x => x.1 = C.id) (lupdL plus t ib off A T C cols o : List (TTask (M × Nat × Nat) α)) := by
  cases o with
  | ge j k => exact Writes.map fun n hn => writes_op2 rfl
  | ts j m k =>
    refine Writes.map fun n hn => writes_wop fun w hw => ?_
    simp only [List.mem_cons, List.not_mem_nil, or_false] at hw
    rcases hw with rfl | rfl <;> rfl
  | tt j m k =>
    refine Writes.map fun n hn => writes_wop fun w hw => ?_
    simp only [List.mem_cons, List.not_mem_nil, or_false] at hw
    rcases hw with rfl | rfl <;> rfl

theorem lupdR_writes {plus t : Bool} {rows : List Nat} (o : Op) :
    Writes (fun x => x.1 = C.id) (lupdR plus t ib off A T C rows o : List (TTask (M × Nat × Nat) α)) := by
  cases o with
  | ge j k => exact Writes.map fun n hn => writes_op2 rfl
  | ts j m k =>
    refine Writes.map fun n hn => writes_wop fun w hw => ?_
    simp only [List.mem_cons, List.not_mem_nil, or_false] at hw
    rcases hw with rfl | rfl <;> rfl
  | tt j m k =>
    refine Writes.map fun n hn => writes_wop fun w hw => ?_
    simp only [List.mem_cons, List.not_mem_nil, or_false] at hw
    rcases hw with rfl | rfl <;> rfl

theorem lfac_writes {ops : List Op} :
    Writes (fun x => x.1 = A.id ∨ x.1 = T.id) (ops.flatMap (lfacT K ib off A T)) := by
  refine Writes.flatMap fun o _ => ?_
  unfold lfacT
  rw [show ∀ (x : TTask (M × Nat × Nat) α) l, x :: l = [x] ++ l from fun _ _ => rfl]
  refine Writes.append ?_ (Writes.mono (lupdR_writes o) fun x h => Or.inl h)
  cases o with
  | ge j k =>
    refine writes_wop fun w hw => ?_
    simp only [List.mem_cons, List.not_mem_nil, or_false] at hw
    rcases hw with rfl | rfl
    exacts [Or.inl rfl, Or.inr rfl]
  | ts j m k =>
    refine writes_wop fun w hw => ?_
    simp only [List.mem_cons, List.not_mem_nil, or_false] at hw
    rcases hw with rfl | rfl | rfl
    exacts [Or.inl rfl, Or.inl rfl, Or.inr rfl]
  | tt j m k =>
    refine writes_wop fun w hw => ?_
    simp only [List.mem_cons, List.not_mem_nil, or_false] at hw
    rcases hw with rfl | rfl | rfl
    exacts [Or.inl rfl, Or.inl rfl, Or.inr rfl]

/-! ### The literal loop nests without tree -/

theorem lcnt_full (hA : A.Al b) (plus : Bool) {j m k : Nat} (hj : j < A.d.mt) (hk : k < m) (hm : m < A.d.nt) :
    lcnt plus A.d j m k = A.d.mview j := by
  have h1 : A.d.nview k = b := nview_full hA hk hm
  have h2 := mview_le hA hj
  unfold lcnt
  rw [h1]
  cases plus
  · simp only [Bool.false_eq_true, if_false]; omega
  · simp only [if_true]; omega

theorem pzgelqf_eq (K : QrKern α) (hA : A.Al b) :
    pzgelqf K A T = (flatOps A.d.nt A.d.mt).flatMap (lfacT K T.d.mb id A T) := by
  rw [flatMap_flatOps, Nat.min_comm]
  unfold pzgelqf
  refine flatMap_eq fun k hk => ?_
  rw [List.mem_range] at hk
  refine congrArg₂ _ rfl (flatMap_eq fun m hm => ?_)
  rw [mem_span] at hm
  unfold lfacT lkerT lupdR
  refine congrArg₂ _ rfl (List.map_congr_left fun n _ => ?_)
  have h1 : A.d.nview k = b := nview_full hA (m := m) (by omega) hm.2
  rw [lcnt_full hA true (by omega) hm.1 hm.2, h1, hA.nb]
  rfl

theorem pzunmlq_left_eq {t : Bool} (hA : A.Al b) (hC : C.Al b) (hm : C.d.m = A.d.n) :
    pzunmlq (α := α) true t A T C = (if t then (flatOps A.d.nt A.d.mt).reverse else flatOps A.d.nt A.d.mt).flatMap
      (lupdL false t T.d.mb id A T C (List.range C.d.nt)) := by
  have hmt : C.d.mt = A.d.nt := by rw [hA.nt_eq, hC.mt_eq, hm]
  have hg : ∀ k n, unmlqL (α := α) t (C.d.mview k) (C.d.nview n) (min (A.d.nview k) (A.d.mview k)) T.d.mb (A.at' k k)
      (T.at' k k) (C.at' k n) = unmlqL t (C.d.mview k) (C.d.nview n) (min (A.d.mview k) (A.d.nview k)) T.d.mb (A.at' k k)
      (T.at' k k) (C.at' k n) := fun k n => by rw [Nat.min_comm]
  have hs : ∀ k m, k < min A.d.mt A.d.nt → k + 1 ≤ m ∧ m < C.d.mt → ∀ n,
      stmlqL (α := α) false t C.d.mb (C.d.nview n) (C.d.mview m) (A.d.mview k) T.d.mb (C.at' k n) (C.at' m n)
        (A.at' k m) (T.at' k m) =
      stmlqL false t (C.d.mview k) (C.d.nview n) (C.d.mview m) (lcnt false A.d k m k) T.d.mb
        (C.at' k n) (C.at' m n) (A.at' k m) (T.at' k m) := by
    intro k m hk hm n
    have h1' : C.d.mview k = b := mview_full hC (m := m) (by omega) (by omega)
    rw [lcnt_full hA false (by omega) (by omega) (by omega), h1', hC.mb]
  unfold pzunmlq
  rw [if_pos rfl]
  cases t with
  | false =>
    rw [if_neg (by decide), if_neg (by decide), flatMap_flatOps, Nat.min_comm A.d.nt]
    refine flatMap_eq fun k hk => ?_
    rw [List.mem_range] at hk
    rw [hmt] at *
    exact congrArg₂ _ (List.map_congr_left fun n _ => hg k n)
      (flatMap_eq fun m hm => List.map_congr_left fun n _ => hs k m hk (mem_span.mp hm) n)
  | true =>
    rw [if_pos rfl, if_pos rfl, flatMap_flatOps_rev, Nat.min_comm A.d.nt]
    refine flatMap_eq fun k hk => ?_
    rw [List.mem_reverse, List.mem_range] at hk
    rw [hmt] at *
    exact congrArg₂ _ (flatMap_eq fun m hm => List.map_congr_left fun n _ =>
      hs k m hk (mem_span.mp (List.mem_reverse.mp hm)) n) (List.map_congr_left fun n _ => hg k n)

theorem pzunmlq_right_eq {t : Bool} (hA : A.Al b) (hC : C.Al b) (hm : C.d.n = A.d.n) :
    pzunmlq (α := α) false t A T C = (if t then flatOps A.d.nt A.d.mt else (flatOps A.d.nt A.d.mt).reverse).flatMap
      (lupdR false t T.d.mb id A T C (List.range C.d.mt)) := by
  have hmt : C.d.nt = A.d.nt := by rw [hA.nt_eq, hC.nt_eq, hm]
  have hg : ∀ k n, unmlqR (α := α) t (C.d.mview n) (C.d.nview k) (min (A.d.nview k) (A.d.mview k)) T.d.mb (A.at' k k)
      (T.at' k k) (C.at' n k) = unmlqR t (C.d.mview n) (C.d.nview k) (min (A.d.mview k) (A.d.nview k)) T.d.mb (A.at' k k)
      (T.at' k k) (C.at' n k) := fun k n => by rw [Nat.min_comm]
  have hs : ∀ k m, k < min A.d.mt A.d.nt → k + 1 ≤ m ∧ m < C.d.nt → ∀ n,
      stmlqR (α := α) false t (C.d.mview n) C.d.nb (C.d.nview m) (A.d.mview k) T.d.mb (C.at' n k) (C.at' n m)
        (A.at' k m) (T.at' k m) =
      stmlqR false t (C.d.mview n) (C.d.nview k) (C.d.nview m) (lcnt false A.d k m k) T.d.mb
        (C.at' n k) (C.at' n m) (A.at' k m) (T.at' k m) := by
    intro k m hk hm n
    have h1' : C.d.nview k = b := nview_full hC (m := m) (by omega) (by omega)
    rw [lcnt_full hA false (by omega) (by omega) (by omega), h1', hC.nb]
  unfold pzunmlq
  rw [if_neg (by decide)]
  cases t with
  | true =>
    rw [if_pos rfl, if_pos rfl, flatMap_flatOps, Nat.min_comm A.d.nt]
    refine flatMap_eq fun k hk => ?_
    rw [List.mem_range] at hk
    rw [hmt] at *
    exact congrArg₂ _ (List.map_congr_left fun n _ => hg k n)
      (flatMap_eq fun m hm => List.map_congr_left fun n _ => hs k m hk (mem_span.mp hm) n)
  | false =>
    rw [if_neg (by decide), if_neg (by decide), flatMap_flatOps_rev, Nat.min_comm A.d.nt]
    refine flatMap_eq fun k hk => ?_
    rw [List.mem_reverse, List.mem_range] at hk
    rw [hmt] at *
    exact congrArg₂ _ (flatMap_eq fun m hm => List.map_congr_left fun n _ =>
      hs k m hk (mem_span.mp (List.mem_reverse.mp hm)) n) (List.map_congr_left fun n _ => hg k n)

theorem pzunglq_eq (hA : A.Al b) (hC : C.Al b) (hm : C.d.n = A.d.n) :
    pzunglq (α := α) A T C = (flatOps A.d.nt A.d.mt).reverse.flatMap
      fun o => lupdR true false T.d.mb id A T C (span o.col C.d.mt) o := by
  have hmt : C.d.nt = A.d.nt := by rw [hA.nt_eq, hC.nt_eq, hm]
  rw [flatMap_flatOps_rev, Nat.min_comm A.d.nt]
  unfold pzunglq
  refine flatMap_eq fun k hk => ?_
  rw [List.mem_reverse, List.mem_range] at hk
  rw [hmt]
  refine congrArg₂ _ (flatMap_eq fun m hm => List.map_congr_left fun n _ => ?_) (List.map_congr_left fun n _ => ?_)
  · have hm := mem_span.mp (List.mem_reverse.mp hm)
    have h1' : C.d.nview k = b := nview_full hC (m := m) (by omega) (by omega)
    show _ = stmlqR false false (C.d.mview n) (C.d.nview k) (C.d.nview m) (lcnt true A.d k m k)
      T.d.mb (C.at' n k) (C.at' n m) (A.at' k m) (T.at' k m)
    rw [lcnt_full hA true (by omega) (by omega) (by omega), h1', hC.nb]
  · show unmlqR _ _ _ _ _ _ _ _ = unmlqR _ _ _ (min (A.d.mview k) (A.d.nview k)) _ _ _ _
    rw [Nat.min_comm]

end

end Verif.Qr

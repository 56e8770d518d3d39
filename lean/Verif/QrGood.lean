/-
Footprints and locality of the QR tasks; `Q` depends on the stored reflectors only.
-/
import Verif.QrProg

namespace Verif.Qr

open Verif.Layout Verif.Tile Verif.Tree Finset Matrix

universe u v

section
variable {M : Type u} {α : Type v} [CommRing α] [StarRing α]

theorem geV_congr {v v' : Nat → Nat → α} {m k : Nat} (h : ∀ i j, loBox m k i j → v i j = v' i j) :
    ∀ r j, r < m → j < k → geV v r j = geV v' r j := by
  intro r j hr hj
  unfold geV
  split
  · rfl
  · split
    · next h' => exact h r j ⟨h', hr, hj⟩
    · rfl

theorem stV_congr {tri : Bool} {v v' : Nat → Nat → α} {m1 m2 k : Nat} (h : ∀ i j, vReg tri m2 k i j → v i j = v' i j) :
    ∀ r j, r < m1 + m2 → j < k → stV tri m1 v r j = stV tri m1 v' r j := by
  intro r j hr hj
  cases tri with
  | false =>
    show tsV m1 v r j = tsV m1 v' r j
    unfold tsV
    split
    · rfl
    · exact h _ _ (show box m2 k (r - m1) j from ⟨by omega, hj⟩)
  | true =>
    show ttV m1 v r j = ttV m1 v' r j
    unfold ttV
    split
    · rfl
    · split
      · next h' => exact h _ _ (show upBox m2 k (r - m1) j from ⟨h', by omega, hj⟩)
      · rfl

theorem unmqrL_good {valid : Foot M} {t : Bool} {m n k ib : Nat} {V T C : M}
    (hV : ∀ i j, loBox m k i j → valid V i j) (hT : ∀ i j, tReg ib k i j → valid T i j)
    (hC : ∀ i j, box m n i j → valid C i j) : Good valid [unmqrL (α := α) t m n k ib V T C] := by
  refine Good.single (op2_local ?_) op2_declared (op2_inside hV hT hC)
  intro v v' τ τ' c c' hv ht hc i j hij
  rw [wy_congr (geV_congr hv) ht]
  exact lmul_congr hij.1 fun l hl => hc l j ⟨hl, hij.2⟩

theorem unmqrR_good {valid : Foot M} {t : Bool} {m n k ib : Nat} {V T C : M}
    (hV : ∀ i j, loBox n k i j → valid V i j) (hT : ∀ i j, tReg ib k i j → valid T i j)
    (hC : ∀ i j, box m n i j → valid C i j) : Good valid [unmqrR (α := α) t m n k ib V T C] := by
  refine Good.single (op2_local ?_) op2_declared (op2_inside hV hT hC)
  intro v v' τ τ' c c' hv ht hc i j hij
  rw [wy_congr (geV_congr hv) ht]
  exact rmul_congr hij.2 fun l hl => hc i l ⟨hij.1, hl⟩

theorem stmqrL_good {valid : Foot M} {tri t : Bool} {m1 n m2 k ib : Nat} {A1 A2 V T : M} (hne : A1 ≠ A2)
    (h1 : ∀ i j, box m1 n i j → valid A1 i j) (h2 : ∀ i j, box m2 n i j → valid A2 i j)
    (hV : ∀ i j, vReg tri m2 k i j → valid V i j) (hT : ∀ i j, tReg ib k i j → valid T i j) :
    Good valid [stmqrL (α := α) tri t m1 n m2 k ib A1 A2 V T] := by
  refine Good.single (wop_local (by simpa using hne) ?_) wop_declared (wop_inside ?_ ?_)
  · intro w hw s s' hr hwr i j hij
    have e1 := hr (V, vReg tri m2 k) (by simp)
    have e2 := hr (T, tReg ib k) (by simp)
    have e3 := hwr _ List.mem_cons_self
    have e4 := hwr _ (List.mem_cons_of_mem _ List.mem_cons_self)
    dsimp only at e1 e2 e3 e4
    have e : ∀ l, l < m1 + m2 → j < n → vstack m1 (s A1) (s A2) l j = vstack m1 (s' A1) (s' A2) l j := by
      intro l hl hj
      unfold vstack
      split
      · next h => exact e3 l j ⟨h, hj⟩
      · exact e4 _ j ⟨by omega, hj⟩
    simp only [List.mem_cons, List.not_mem_nil, or_false] at hw
    rcases hw with rfl | rfl
    · have hij : box m1 n i j := hij
      dsimp only
      rw [wy_congr (stV_congr e1) e2]
      exact lmul_congr (by have := hij.1; omega) fun l hl => e l hl hij.2
    · have hij : box m2 n i j := hij
      dsimp only
      rw [wy_congr (stV_congr e1) e2]
      exact lmul_congr (by have := hij.1; omega) fun l hl => e l hl hij.2
  · intro p hp
    simp only [List.mem_cons, List.not_mem_nil, or_false] at hp
    rcases hp with rfl | rfl
    exacts [hV, hT]
  · intro p hp
    simp only [List.mem_cons, List.not_mem_nil, or_false] at hp
    rcases hp with rfl | rfl
    exacts [h1, h2]

theorem stmqrR_good {valid : Foot M} {tri t : Bool} {m n1 n2 k ib : Nat} {A1 A2 V T : M} (hne : A1 ≠ A2)
    (h1 : ∀ i j, box m n1 i j → valid A1 i j) (h2 : ∀ i j, box m n2 i j → valid A2 i j)
    (hV : ∀ i j, vReg tri n2 k i j → valid V i j) (hT : ∀ i j, tReg ib k i j → valid T i j) :
    Good valid [stmqrR (α := α) tri t m n1 n2 k ib A1 A2 V T] := by
  refine Good.single (wop_local (by simpa using hne) ?_) wop_declared (wop_inside ?_ ?_)
  · intro w hw s s' hr hwr i j hij
    have e1 := hr (V, vReg tri n2 k) (by simp)
    have e2 := hr (T, tReg ib k) (by simp)
    have e3 := hwr _ List.mem_cons_self
    have e4 := hwr _ (List.mem_cons_of_mem _ List.mem_cons_self)
    dsimp only at e1 e2 e3 e4
    have e : ∀ l, l < n1 + n2 → i < m → hstack n1 (s A1) (s A2) i l = hstack n1 (s' A1) (s' A2) i l := by
      intro l hl hj
      unfold hstack
      split
      · next h => exact e3 i l ⟨hj, h⟩
      · exact e4 i _ ⟨hj, by omega⟩
    simp only [List.mem_cons, List.not_mem_nil, or_false] at hw
    rcases hw with rfl | rfl
    · have hij : box m n1 i j := hij
      dsimp only
      rw [wy_congr (stV_congr e1) e2]
      exact rmul_congr (by have := hij.2; omega) fun l hl => e l hl hij.1
    · have hij : box m n2 i j := hij
      dsimp only
      rw [wy_congr (stV_congr e1) e2]
      exact rmul_congr (by have := hij.2; omega) fun l hl => e l hl hij.1
  · intro p hp
    simp only [List.mem_cons, List.not_mem_nil, or_false] at hp
    rcases hp with rfl | rfl
    exacts [hV, hT]
  · intro p hp
    simp only [List.mem_cons, List.not_mem_nil, or_false] at hp
    rcases hp with rfl | rfl
    exacts [h1, h2]

variable {K : QrKern α}

theorem geqrtT_good {valid : Foot M} (hK : QrSpec K) {m n ib : Nat} {A T : M} (hne : A ≠ T)
    (hA : ∀ i j, box m n i j → valid A i j) (hT : ∀ i j, tReg ib (min m n) i j → valid T i j) :
    Good valid [geqrtT K m n ib A T] := by
  refine Good.single (wop_local (by simpa using hne) ?_) wop_declared (wop_inside ?_ ?_)
  · intro w hw s s' hr hwr i j hij
    have e3 := hwr _ List.mem_cons_self
    dsimp only at e3
    have hl := hK.ge_loc m n ib (s A) (s' A) e3
    simp only [List.mem_cons, List.not_mem_nil, or_false] at hw
    rcases hw with rfl | rfl
    exacts [hl.1 i j hij, hl.2 i j hij]
  · intro p hp; cases hp
  · intro p hp
    simp only [List.mem_cons, List.not_mem_nil, or_false] at hp
    rcases hp with rfl | rfl
    exacts [hA, hT]

theorem tsqrtT_good {valid : Foot M} (hK : QrSpec K) {m n ib : Nat} {A1 A2 T : M} (h12 : A1 ≠ A2) (h1T : A1 ≠ T)
    (h2T : A2 ≠ T) (h1 : ∀ i j, upTo n i j → valid A1 i j)
    (h2 : ∀ i j, box m n i j → valid A2 i j) (hT : ∀ i j, tReg ib n i j → valid T i j) :
    Good valid [tsqrtT K m n ib A1 A2 T] := by
  refine Good.single (wop_local (by simp [h12, h1T, h2T]) ?_) wop_declared (wop_inside ?_ ?_)
  · intro w hw s s' hr hwr i j hij
    have e3 := hwr _ List.mem_cons_self
    have e4 := hwr _ (List.mem_cons_of_mem _ List.mem_cons_self)
    have e5 := hwr _ (List.mem_cons_of_mem _ (List.mem_cons_of_mem _ List.mem_cons_self))
    dsimp only at e3 e4 e5
    have hl := hK.ts_loc m n ib (s A1) (s' A1) (s A2) (s' A2) (s T) (s' T) e3 e4 e5
    simp only [List.mem_cons, List.not_mem_nil, or_false] at hw
    rcases hw with rfl | rfl | rfl
    exacts [hl.1 i j hij, hl.2.1 i j hij, hl.2.2 i j hij]
  · intro p hp; cases hp
  · intro p hp
    simp only [List.mem_cons, List.not_mem_nil, or_false] at hp
    rcases hp with rfl | rfl | rfl
    exacts [h1, h2, hT]

theorem ttqrtT_good {valid : Foot M} (hK : QrSpec K) {m n ib : Nat} {A1 A2 T : M} (h12 : A1 ≠ A2) (h1T : A1 ≠ T)
    (h2T : A2 ≠ T) (h1 : ∀ i j, upTo n i j → valid A1 i j)
    (h2 : ∀ i j, upBox m n i j → valid A2 i j) (hT : ∀ i j, tReg ib n i j → valid T i j) :
    Good valid [ttqrtT K m n ib A1 A2 T] := by
  refine Good.single (wop_local (by simp [h12, h1T, h2T]) ?_) wop_declared (wop_inside ?_ ?_)
  · intro w hw s s' hr hwr i j hij
    have e3 := hwr _ List.mem_cons_self
    have e4 := hwr _ (List.mem_cons_of_mem _ List.mem_cons_self)
    have e5 := hwr _ (List.mem_cons_of_mem _ (List.mem_cons_of_mem _ List.mem_cons_self))
    dsimp only at e3 e4 e5
    have hl := hK.tt_loc m n ib (s A1) (s' A1) (s A2) (s' A2) (s T) (s' T) e3 e4 e5
    simp only [List.mem_cons, List.not_mem_nil, or_false] at hw
    rcases hw with rfl | rfl | rfl
    exacts [hl.1 i j hij, hl.2.1 i j hij, hl.2.2 i j hij]
  · intro p hp; cases hp
  · intro p hp
    simp only [List.mem_cons, List.not_mem_nil, or_false] at hp
    rcases hp with rfl | rfl | rfl
    exacts [h1, h2, hT]

/-! ### Loop nests -/

variable {b ib mm na : Nat} {off : Nat → Nat} {A T C : TMat M} {valid : Foot (M × Nat × Nat)}

/-- The tiles of a matrix exist. -/
def TilesV (valid : Foot (M × Nat × Nat)) (b : Nat) (A : TMat M) : Prop :=
  ∀ m n i j, i < tdim A.d.m b m → j < tdim A.d.n b n → valid (A.at' m n) i j

/-- The `T` tiles of an operation exist. -/
def TtV (valid : Foot (M × Nat × Nat)) (ib b : Nat) (off : Nat → Nat) (T : TMat M) (o : Op) : Prop :=
  ∀ i j, i < ib → j < b → valid (opTt off T o) i j

theorem tReg_le {k l c : Nat} (hk : k ≤ b) (h : tReg ib k l c) : l < ib ∧ c < b := by
  unfold tReg at h; omega

theorem at'_ne_row {k m n n' : Nat} (h : k ≠ m) : C.at' k n ≠ C.at' m n' := fun e => h (TMat.at'_inj.mp e).1

theorem at'_ne_col {k m n n' : Nat} (h : n ≠ n') : C.at' k n ≠ C.at' m n' := fun e => h (TMat.at'_inj.mp e).2

theorem updL_good {t : Bool} (hA : A.Al b) (hC : C.Al b) (hm : C.d.m = A.d.m) (vA : TilesV valid b A)
    (vC : TilesV valid b C) {cols : List Nat} (hcols : ∀ n ∈ cols, n < C.d.nt) {o : Op} (ho : o.inB A.d.mt A.d.nt)
    (vT : TtV valid ib b off T o) : Good valid (updL (α := α) t ib off A T C cols o) := by
  have hmt : C.d.mt = A.d.mt := by rw [hA.mt_eq, hC.mt_eq, hm]
  cases o with
  | ge j k =>
    obtain ⟨hj, hk⟩ := ho
    refine Good.map fun n hn => ?_
    have hnv := hC.nview (hcols n hn)
    have hmv := hC.mview (k := k) (by omega)
    have hav := hA.mview hk
    have hbv := hA.nview hj
    have hle := nview_le hA hj
    refine unmqrL_good ?_ ?_ ?_
    · rintro i i' ⟨h1, h2, h3⟩
      exact vA _ _ _ _ (by rw [← hm, ← hmv]; omega) (by rw [← hbv]; omega)
    · intro i i' h
      have := tReg_le (b := b) (by omega) h
      exact vT _ _ this.1 this.2
    · intro i i' h
      exact vC _ _ _ _ (by rw [← hmv]; exact h.1) (by rw [← hnv]; exact h.2)
  | ts j m k =>
    obtain ⟨hj, hk, hm'⟩ := ho
    refine Good.map fun n hn => ?_
    have hnv := hC.nview (hcols n hn)
    have hmv := hC.mview (k := k) (by omega)
    have hmv' := hC.mview (k := m) (by omega)
    have hav := hA.mview hm'
    have hbv := hA.nview hj
    have hle := nview_le hA hj
    refine stmqrL_good (at'_ne_row (by omega)) ?_ ?_ ?_ ?_
    · intro i i' h
      exact vC _ _ _ _ (by rw [← hmv]; exact h.1) (by rw [← hnv]; exact h.2)
    · intro i i' h
      exact vC _ _ _ _ (by rw [← hmv']; exact h.1) (by rw [← hnv]; exact h.2)
    · intro i i' h
      have h : box _ _ i i' := h
      exact vA _ _ _ _ (by rw [← hm, ← hmv']; exact h.1) (by rw [← hbv]; have := h.2; omega)
    · intro i i' h
      have := tReg_le (b := b) (by omega) h
      exact vT _ _ this.1 this.2
  | tt j m k =>
    obtain ⟨hj, hk, hm'⟩ := ho
    refine Good.map fun n hn => ?_
    have hnv := hC.nview (hcols n hn)
    have hmv := hC.mview (k := k) (by omega)
    have hmv' := hC.mview (k := m) (by omega)
    have hav := hA.mview hm'
    have hbv := hA.nview hj
    have hle := nview_le hA hj
    refine stmqrL_good (at'_ne_row (by omega)) ?_ ?_ ?_ ?_
    · intro i i' h
      exact vC _ _ _ _ (by rw [← hmv]; exact h.1) (by rw [← hnv]; exact h.2)
    · intro i i' h
      exact vC _ _ _ _ (by rw [← hmv']; exact h.1) (by rw [← hnv]; exact h.2)
    · intro i i' h
      have h : upBox _ _ i i' := h
      exact vA _ _ _ _ (by rw [← hm, ← hmv']; exact h.2.1) (by rw [← hbv]; have := h.2.2; omega)
    · intro i i' h
      have := tReg_le (b := b) (by omega) h
      exact vT _ _ this.1 this.2

theorem updR_good {t : Bool} (hA : A.Al b) (hC : C.Al b) (hm : C.d.n = A.d.m) (vA : TilesV valid b A)
    (vC : TilesV valid b C) {rows : List Nat} (hrows : ∀ n ∈ rows, n < C.d.mt) {o : Op} (ho : o.inB A.d.mt A.d.nt)
    (vT : TtV valid ib b off T o) : Good valid (updR (α := α) t ib off A T C rows o) := by
  have hmt : C.d.nt = A.d.mt := by rw [hA.mt_eq, hC.nt_eq, hm]
  cases o with
  | ge j k =>
    obtain ⟨hj, hk⟩ := ho
    refine Good.map fun n hn => ?_
    have hnv := hC.mview (hrows n hn)
    have hmv := hC.nview (k := k) (by omega)
    have hav := hA.mview hk
    have hbv := hA.nview hj
    have hle := nview_le hA hj
    refine unmqrR_good ?_ ?_ ?_
    · rintro i i' ⟨h1, h2, h3⟩
      exact vA _ _ _ _ (by rw [← hm, ← hmv]; omega) (by rw [← hbv]; omega)
    · intro i i' h
      have := tReg_le (b := b) (by omega) h
      exact vT _ _ this.1 this.2
    · intro i i' h
      exact vC _ _ _ _ (by rw [← hnv]; exact h.1) (by rw [← hmv]; exact h.2)
  | ts j m k =>
    obtain ⟨hj, hk, hm'⟩ := ho
    refine Good.map fun n hn => ?_
    have hnv := hC.mview (hrows n hn)
    have hmv := hC.nview (k := k) (by omega)
    have hmv' := hC.nview (k := m) (by omega)
    have hav := hA.mview hm'
    have hbv := hA.nview hj
    have hle := nview_le hA hj
    refine stmqrR_good (at'_ne_col (by omega)) ?_ ?_ ?_ ?_
    · intro i i' h
      exact vC _ _ _ _ (by rw [← hnv]; exact h.1) (by rw [← hmv]; exact h.2)
    · intro i i' h
      exact vC _ _ _ _ (by rw [← hnv]; exact h.1) (by rw [← hmv']; exact h.2)
    · intro i i' h
      have h : box _ _ i i' := h
      exact vA _ _ _ _ (by rw [← hm, ← hmv']; exact h.1) (by rw [← hbv]; have := h.2; omega)
    · intro i i' h
      have := tReg_le (b := b) (by omega) h
      exact vT _ _ this.1 this.2
  | tt j m k =>
    obtain ⟨hj, hk, hm'⟩ := ho
    refine Good.map fun n hn => ?_
    have hnv := hC.mview (hrows n hn)
    have hmv := hC.nview (k := k) (by omega)
    have hmv' := hC.nview (k := m) (by omega)
    have hav := hA.mview hm'
    have hbv := hA.nview hj
    have hle := nview_le hA hj
    refine stmqrR_good (at'_ne_col (by omega)) ?_ ?_ ?_ ?_
    · intro i i' h
      exact vC _ _ _ _ (by rw [← hnv]; exact h.1) (by rw [← hmv]; exact h.2)
    · intro i i' h
      exact vC _ _ _ _ (by rw [← hnv]; exact h.1) (by rw [← hmv']; exact h.2)
    · intro i i' h
      have h : upBox _ _ i i' := h
      exact vA _ _ _ _ (by rw [← hm, ← hmv']; exact h.2.1) (by rw [← hbv]; have := h.2.2; omega)
    · intro i i' h
      have := tReg_le (b := b) (by omega) h
      exact vT _ _ this.1 this.2

theorem kerT_good (hK : QrSpec K) (hA : A.Al b) (hT : T.id ≠ A.id) (vA : TilesV valid b A) {o : Op}
    (ho : o.inB A.d.mt A.d.nt) (vT : TtV valid ib b off T o) : Good valid [kerT K ib off A T o] := by
  cases o with
  | ge j k =>
    obtain ⟨hj, hk⟩ := ho
    have hav := hA.mview hk
    have hbv := hA.nview hj
    have hle := nview_le hA hj
    refine geqrtT_good hK (TMat.at'_ne hT.symm) ?_ ?_
    · intro i i' h
      exact vA _ _ _ _ (by rw [← hav]; exact h.1) (by rw [← hbv]; exact h.2)
    · intro i i' h
      have := tReg_le (b := b) (by omega) h
      exact vT _ _ this.1 this.2
  | ts j m k =>
    obtain ⟨hj, hk, hm'⟩ := ho
    have hav := hA.mview hm'
    have hfv := mview_full hA hk hm'
    have hfv' := hA.mview (k := k) (by omega)
    have hbv := hA.nview hj
    have hle := nview_le hA hj
    refine tsqrtT_good hK (at'_ne_row (by omega)) (TMat.at'_ne hT.symm) (TMat.at'_ne hT.symm) ?_ ?_ ?_
    · intro i i' h
      have h : i ≤ i' ∧ i' < _ := h
      exact vA _ _ _ _ (by rw [← hfv', hfv]; omega) (by rw [← hbv]; exact h.2)
    · intro i i' h
      exact vA _ _ _ _ (by rw [← hav]; exact h.1) (by rw [← hbv]; exact h.2)
    · intro i i' h
      have := tReg_le (b := b) (by omega) h
      exact vT _ _ this.1 this.2
  | tt j m k =>
    obtain ⟨hj, hk, hm'⟩ := ho
    have hav := hA.mview hm'
    have hfv := mview_full hA hk hm'
    have hfv' := hA.mview (k := k) (by omega)
    have hbv := hA.nview hj
    have hle := nview_le hA hj
    refine ttqrtT_good hK (at'_ne_row (by omega)) (TMat.at'_ne hT.symm) (TMat.at'_ne hT.symm) ?_ ?_ ?_
    · intro i i' h
      have h : i ≤ i' ∧ i' < _ := h
      exact vA _ _ _ _ (by rw [← hfv', hfv]; omega) (by rw [← hbv]; exact h.2)
    · intro i i' h
      exact vA _ _ _ _ (by rw [← hav]; exact h.2.1) (by rw [← hbv]; exact h.2.2)
    · intro i i' h
      have := tReg_le (b := b) (by omega) h
      exact vT _ _ this.1 this.2

theorem ops_inB {mt nt : Nat} {ops : List Op} (ho : OpsOK mt nt ops) : ∀ o ∈ ops, o.inB mt nt := by
  have key : ∀ l ts, LegalOps mt ts l → (∀ o ∈ l, o.col < min mt nt) → ∀ o ∈ l, o.inB mt nt := by
    intro l
    induction l with
    | nil => intro _ _ _ o h; cases h
    | cons o' l ih =>
      intro ts hL hc o ho'
      rcases List.mem_cons.mp ho' with rfl | ho'
      · exact ok_inB hL.1 (lt_of_lt_of_le (hc o List.mem_cons_self) (Nat.min_le_right ..))
      · exact ih _ hL.2 (fun o h => hc o (List.mem_cons_of_mem _ h)) o ho'
  exact key ops init ho.legal ho.col

theorem fac_good (hK : QrSpec K) (hA : A.Al b) (hT : T.id ≠ A.id) (vA : TilesV valid b A) {ops : List Op}
    (ho : ∀ o ∈ ops, o.inB A.d.mt A.d.nt) (vT : ∀ o ∈ ops, TtV valid ib b off T o) :
    Good valid (ops.flatMap (facT K ib off A T)) :=
  Good.flatMap fun o h => (kerT_good hK hA hT vA (ho o h) (vT o h)).append
    (updL_good hA hA rfl vA vA (fun _ hn => (mem_span.mp hn).2) (ho o h) (vT o h))

theorem fac_writes {ops : List Op} :
    Writes (fun x => x.1 = A.id ∨ x.1 = T.id) (ops.flatMap (facT K ib off A T)) := by
  refine Writes.flatMap fun o _ => ?_
  unfold facT
  rw [show ∀ (x : TTask (M × Nat × Nat) α) l, x :: l = [x] ++ l from fun _ _ => rfl]
  refine Writes.append ?_ ?_
  · cases o with
    | ge j k =>
      refine writes_wop fun w hw => ?_
      simp only [List.mem_cons, List.not_mem_nil, or_false] at hw
      rcases hw with rfl | rfl
      exacts [Or.inl rfl, Or.inr rfl]
    | ts j m k =>
      refine writes_wop fun w hw => ?_
      simp only [List.mem_cons, List.not_mem_nil, or_false] at hw
      rcases hw with rfl | rfl | rfl
      exacts [Or.inl rfl, Or.inl rfl, Or.inr rfl]
    | tt j m k =>
      refine writes_wop fun w hw => ?_
      simp only [List.mem_cons, List.not_mem_nil, or_false] at hw
      rcases hw with rfl | rfl | rfl
      exacts [Or.inl rfl, Or.inl rfl, Or.inr rfl]
  · refine Writes.mono (updL_writes o) ?_
    rintro x ⟨r, n, _, _, rfl⟩
    exact Or.inl rfl

/-! ### `Q` as a function of the stored reflectors -/

theorem opQ_agree {M' : Type u} {A' T' : TMat M'} (hA : A.Al b) (hA' : A'.Al b) {mt nt : Nat}
    {s : Store (M × Nat × Nat) α}
    {s' : Store (M' × Nat × Nat) α} (hE : ∀ r c, r < mm → c < na → A.el s r c = A'.el s' r c) {o : Op}
    (ho : o.inB mt nt) (hT : ∀ i j, i < ib → j < b → s (opTt off T o) i j = s' (opTt off T' o) i j) :
    opQ b mm na ib off A T s o = opQ b mm na ib off A' T' s' o := by
  have hb := hA.pos
  have hel : ∀ m n i j, i < tdim mm b m → j < tdim na b n → s (A.at' m n) i j = s' (A'.at' m n) i j := by
    intro m n i j hi hj
    have h1 := tdim_end hi
    have h2 := tdim_end hj
    rw [← hA.el_tile s h1.2 h2.2, ← hA'.el_tile s' h1.2 h2.2]
    exact hE _ _ h1.1 h2.1
  have htr : ∀ k, k ≤ b → ∀ l c, tReg ib k l c → s (opTt off T o) l c = s' (opTt off T' o) l c := fun k hk l c h =>
    hT _ _ (tReg_le hk h).1 (tReg_le hk h).2
  have htd : ∀ j, tdim na b j ≤ b := fun j => Nat.min_le_left ..
  unfold opQ opq
  congr 1
  cases o with
  | ge j k =>
    refine wy_congr (geV_congr fun i i' h => ?_) (htr _ ?_)
    · simp only [opDim, opK, loBox] at h
      exact hel _ _ _ _ h.2.1 (by simp only [Op.col]; omega)
    · simp only [opK]; have := htd j; omega
  | ts j m k =>
    refine wy_congr ?_ (htr _ ?_)
    · refine stV_congr (tri := false) fun i i' h => ?_
      have h : i < tdim mm b m ∧ i' < opK b mm na (.ts j m k) := h
      simp only [opK] at h
      exact hel _ _ _ _ h.1 (by simp only [Op.col]; omega)
    · simp only [opK]; have := htd j; omega
  | tt j m k =>
    refine wy_congr ?_ (htr _ ?_)
    · refine stV_congr (tri := true) fun i i' h => ?_
      have h : i ≤ i' ∧ i < tdim mm b m ∧ i' < opK b mm na (.tt j m k) := h
      simp only [opK] at h
      exact hel _ _ _ _ h.2.1 (by simp only [Op.col]; omega)
    · simp only [opK]; have := htd j; omega

theorem qAll_agree {M' : Type u} {A' T' : TMat M'} (hA : A.Al b) (hA' : A'.Al b) {mt nt : Nat} {ops : List Op}
    (ho : ∀ o ∈ ops, o.inB mt nt) {s : Store (M × Nat × Nat) α}
    {s' : Store (M' × Nat × Nat) α} (hE : ∀ r c, r < mm → c < na → A.el s r c = A'.el s' r c)
    (hT : ∀ o ∈ ops, ∀ i j, i < ib → j < b → s (opTt off T o) i j = s' (opTt off T' o) i j) :
    qAll b mm na ib off A T s ops = qAll b mm na ib off A' T' s' ops := by
  unfold qAll
  exact congrArg List.prod (List.map_congr_left fun o h => opQ_agree hA hA' hE (ho o h) (hT o h))

end

end Verif.Qr

/-
The three QR tile kernels as instances of the column algorithm, and their specification.
-/
import Verif.HouseQr
import Verif.Qr

namespace Verif.Qr

open Verif.Layout Verif.Tile Finset Matrix

universe v

section
variable {α : Type v} [CommRing α] [StarRing α]

/-- Reflectors that vanish outside the selected rows. -/
theorem wyBlk_gemb {m d k ib : Nat} {ρ : Nat → Nat} (h : RowMap m d ρ) {v v' t : Nat → Nat → α}
    (hin : ∀ l j, l < d → j < k → v' (ρ l) j = v l j) (hout : ∀ r j, r < m → j < k → (∀ l, l < d → ρ l ≠ r) → v' r j = 0) (b : Nat) :
    wyBlk m k ib v' t b = gemb m ρ (wyBlk d k ib v t b) := by
  unfold wyBlk gemb
  dsimp only
  have e : (Matrix.of fun (r : Fin m) (l : Fin (tdim k ib b)) => v' r (b * ib + l)) =
      selM α m d ρ * Matrix.of fun (r : Fin d) (l : Fin (tdim k ib b)) => v r (b * ib + l) := by
    ext r l
    have hl : b * ib + (l : Nat) < k := by have := l.2; unfold tdim at this; omega
    rw [Matrix.mul_apply]
    simp only [selM, Matrix.of_apply]
    by_cases hr : ∃ l', l' < d ∧ ρ l' = r
    · obtain ⟨l', hl', e⟩ := hr
      rw [sum_eq_single (⟨l', hl'⟩ : Fin d)]
      · rw [if_pos e.symm, one_mul, ← e, hin l' _ hl' hl]
      · intro q _ hq
        rw [if_neg, zero_mul]
        intro e'
        exact hq (Fin.ext (h.inj _ _ q.2 hl' (e'.symm.trans e.symm)))
      · intro hn; exact absurd (mem_univ _) hn
    · have hr' : ∀ l', l' < d → ρ l' ≠ r := fun l' hl' e => hr ⟨l', hl', e⟩
      rw [hout r _ r.2 hl hr', sum_eq_zero]
      intro q _
      rw [if_neg (fun e => hr' q q.2 e.symm), zero_mul]
  rw [e, Matrix.conjTranspose_mul]
  have e2 : ∀ W : Matrix (Fin d) (Fin d) α, 1 - W - 1 = -W := fun W => by abel
  rw [e2, Matrix.mul_neg, Matrix.neg_mul, ← sub_eq_add_neg]
  simp only [Matrix.mul_assoc]

theorem wy_gemb {m d k ib : Nat} {ρ : Nat → Nat} (h : RowMap m d ρ) {v v' t : Nat → Nat → α}
    (hin : ∀ l j, l < d → j < k → v' (ρ l) j = v l j) (hout : ∀ r j, r < m → j < k → (∀ l, l < d → ρ l ≠ r) → v' r j = 0) :
    wy m k ib v' t = gemb m ρ (wy d k ib v t) := by
  unfold wy
  generalize List.range (ceilDiv k ib) = L
  induction L with
  | nil => rw [List.map_nil, List.map_nil, List.prod_nil, List.prod_nil, gemb_one]
  | cons b L ih =>
    rw [List.map_cons, List.prod_cons, List.map_cons, List.prod_cons, ih, wyBlk_gemb h hin hout, gemb_mul h]

end

section
variable {𝕜 : Type v} [RCLike 𝕜]

/-- Support for one tile: everything below the diagonal. -/
def geSup : Sup := fun j r => decide (j < r)

/-- Support for a triangle (rows `0, …, n-1`) on top of a square tile. -/
def tsSup (n : Nat) : Sup := fun j r => decide (n ≤ r ∧ j < r)

/-- Support for a triangle on top of the upper trapezoid of an `m` by `n` tile (`mi = imin(j+1, m)`,
core_blas/core_zttqrt.c:151). -/
def ttSup (n m : Nat) : Sup := fun j r => decide (n ≤ r ∧ j < r ∧ r < n + min (j + 1) m)

theorem geSup_ok : SupOK geSup where
  below j r h := by simpa [geSup] using h
  mono j c r _ _ := by simp only [geSup, decide_eq_true_eq]; omega

theorem tsSup_ok (n : Nat) : SupOK (tsSup n) where
  below j r h := by simp only [tsSup, decide_eq_true_eq] at h; exact h.2
  mono j c r _ h := by simp only [tsSup, decide_eq_true_eq] at h ⊢; omega

theorem ttSup_ok (n m : Nat) : SupOK (ttSup n m) where
  below j r h := by simp only [ttSup, decide_eq_true_eq] at h; exact h.2.1
  mono j c r _ h := by simp only [ttSup, decide_eq_true_eq] at h ⊢; omega

/-- Operand of `zgeqrt`. -/
def geX (m n : Nat) (A : Tl 𝕜) : Tl 𝕜 := fun r c => if r < m ∧ c < n then A r c else 0

/-- Operand of `ztsqrt`: the triangle of `A1` on top of `A2`. -/
def tsX (m n : Nat) (A1 A2 : Tl 𝕜) : Tl 𝕜 := fun r c =>
  if r < n then (if r ≤ c ∧ c < n then A1 r c else 0) else if r - n < m ∧ c < n then A2 (r - n) c else 0

/-- Operand of `zttqrt`: the triangle of `A1` on top of the trapezoid of `A2`. -/
def ttX (m n : Nat) (A1 A2 : Tl 𝕜) : Tl 𝕜 := fun r c =>
  if r < n then (if r ≤ c ∧ c < n then A1 r c else 0)
  else if r - n ≤ c ∧ r - n < m ∧ c < n then A2 (r - n) c else 0

/-- `plasma_core_zgeqrt` on a tile (core_blas/core_zgeqrt.c:89-169). -/
noncomputable def geqrtK (m n ib : Nat) (A : Tl 𝕜) : HSt 𝕜 :=
  hqr m n (min m n) ib geSup ⟨geX m n A, fun _ _ => 0⟩

/-- `plasma_core_ztsqrt` on the stack of two tiles (core_blas/core_ztsqrt.c:86-210); only rows `0, …, n-1` of `A1` take
part. -/
noncomputable def tsqrtK (m n ib : Nat) (A1 A2 : Tl 𝕜) : HSt 𝕜 :=
  hqr (n + m) n n ib (tsSup n) ⟨tsX m n A1 A2, fun _ _ => 0⟩

/-- `plasma_core_zttqrt` on the stack of two tiles (core_blas/core_zttqrt.c:86-236). -/
noncomputable def ttqrtK (m n ib : Nat) (A1 A2 : Tl 𝕜) : HSt 𝕜 :=
  hqr (n + m) n n ib (ttSup n m) ⟨ttX m n A1 A2, fun _ _ => 0⟩

/-- The kernels. -/
noncomputable def hkern : QrKern 𝕜 where
  gA m n ib A := (geqrtK m n ib A).X
  gT m n ib A := (geqrtK m n ib A).T
  sA1 m n ib A1 A2 _ := (tsqrtK m n ib A1 A2).X
  sA2 m n ib A1 A2 _ := fun i j => (tsqrtK m n ib A1 A2).X (n + i) j
  sT m n ib A1 A2 _ := (tsqrtK m n ib A1 A2).T
  tA1 m n ib A1 A2 _ := (ttqrtK m n ib A1 A2).X
  tA2 m n ib A1 A2 _ := fun i j => (ttqrtK m n ib A1 A2).X (n + i) j
  tT m n ib A1 A2 _ := (ttqrtK m n ib A1 A2).T

/-- Rows `0, …, n-1` and the rows of the second tile in a stack whose first tile has `m1` rows. -/
def stRow (n m1 l : Nat) : Nat := if l < n then l else l - n + m1

theorem stRow_map {n m m1 : Nat} (h : n ≤ m1) : RowMap (m1 + m) (n + m) (stRow n m1) where
  lt l hl := by unfold stRow; split_ifs <;> omega
  inj l l' hl hl' e := by unfold stRow at e; split_ifs at e <;> omega

/-- Both two-tile kernels. -/
theorem st_spec {m n ib m1 : Nat} {sup : Sup} (hs : SupOK sup) (hib : 0 < ib) (hm1 : n ≤ m1) {X0 : Tl 𝕜}
    (hz : ∀ c, c < n → ∀ r, r < n + m → ¬ (r ≤ c ∨ sup c r) → X0 r c = 0) {v : Nat → Nat → 𝕜}
    (hv : ∀ r j, r < n + m → j < n → v (stRow n m1 r) j = hvec sup (hqr (n + m) n n ib sup ⟨X0, fun _ _ => 0⟩).X r j)
    (hv0 : ∀ r j, n ≤ r → r < m1 → j < n → v r j = 0) {Y : Nat → Nat → 𝕜}
    (hY : ∀ r c, r < n + m → c < n → Y (stRow n m1 r) c = X0 r c) (hY0 : ∀ r c, n ≤ r → r < m1 → c < n → Y r c = 0) :
    wy (m1 + m) n ib v (hqr (n + m) n n ib sup ⟨X0, fun _ _ => 0⟩).T ∈ unitaryGroup (Fin (m1 + m)) 𝕜 ∧
    ∀ i j, i < m1 + m → j < n →
      lmul (wy (m1 + m) n ib v (hqr (n + m) n n ib sup ⟨X0, fun _ _ => 0⟩).T)
        (vstack m1 (triu (hqr (n + m) n n ib sup ⟨X0, fun _ _ => 0⟩).X) (fun _ _ => 0)) i j = Y i j := by
  have hR := stRow_map (m := m) hm1
  obtain ⟨h1, h2⟩ := hqr_correct (n := n) hs hib (show n ≤ n + m by omega) (fun c hc hk => absurd hc (by omega))
    ⟨X0, fun _ _ => 0⟩ hz
  have hnot : ∀ r, (∀ l, l < n + m → stRow n m1 l ≠ r) → r < m1 + m → n ≤ r ∧ r < m1 := by
    intro r hr hlt
    by_contra hc
    by_cases h : r < n
    · exact hr r (by omega) (if_pos h)
    · refine hr (r - m1 + n) (by omega) ?_
      unfold stRow
      rw [if_neg (by omega)]
      omega
  rw [wy_gemb hR hv (fun r j hr' hj hr => by
    have := hnot r hr hr'
    exact hv0 r j this.1 this.2 hj)]
  refine ⟨gemb_unitary hR h1, fun i j hi hj => ?_⟩
  by_cases hr : ∃ l, l < n + m ∧ stRow n m1 l = i
  · obtain ⟨l, hl, rfl⟩ := hr
    rw [lmul_gemb_in hR _ _ hl, hY l j hl hj]
    refine Eq.trans ?_ (h2 l j hl hj)
    refine lmul_congr hl fun q hq => ?_
    unfold vstack stRow triu
    by_cases hqn : q < n
    · rw [if_pos hqn, if_pos (show q < m1 by omega)]
    · rw [if_neg hqn, if_neg (show ¬ q - n + m1 < m1 by omega), if_neg (show ¬ q ≤ j by omega)]
  · have hr' : ∀ l, l < n + m → stRow n m1 l ≠ i := fun l hl e => hr ⟨l, hl, e⟩
    have := hnot i hr' hi
    rw [lmul_gemb_out _ _ hr', hY0 i j this.1 this.2 hj]
    unfold vstack triu
    rw [if_pos this.2, if_neg (show ¬ i ≤ j by omega)]

/-- **The Householder kernels meet their specification.** -/
theorem hkern_spec : QrSpec (hkern : QrKern 𝕜) where
  ge_loc m n ib A A' h := by
    have e : geX m n A = geX m n A' := by
      funext r c
      unfold geX
      split_ifs with hc
      · exact h r c hc
      · rfl
    have e2 : geqrtK m n ib A = geqrtK m n ib A' := by unfold geqrtK; rw [e]
    exact ⟨fun _ _ _ => by show (geqrtK ..).X _ _ = _; rw [e2]; rfl, fun _ _ _ => by show (geqrtK ..).T _ _ = _; rw [e2]; rfl⟩
  ge_unit m n ib A hib := by
    have h := (hqr_correct (d := m) (n := n) (k := min m n) geSup_ok hib (by omega) (fun c hc hk => by omega)
      ⟨geX m n A, fun _ _ => 0⟩ (fun c hc r hr hz => absurd hz (by simp only [geSup, decide_eq_true_eq]; omega))).1
    refine Eq.mp ?_ h
    congr 1
    refine wy_congr (fun r j _ _ => ?_) fun _ _ _ => rfl
    show hvec _ _ _ _ = geV _ _ _
    unfold hvec geV geSup
    simp only [decide_eq_true_eq]
    rfl
  ge_eq m n ib A hib i j hi hj := by
    have h := (hqr_correct (d := m) (n := n) (k := min m n) geSup_ok hib (by omega) (fun c hc hk => by omega)
      ⟨geX m n A, fun _ _ => 0⟩ (fun c hc r hr hz => absurd hz (by simp only [geSup, decide_eq_true_eq]; omega))).2 i j hi hj
    rw [show A i j = geX m n A i j from (if_pos ⟨hi, hj⟩).symm]
    refine Eq.trans ?_ h
    congr 1
    refine wy_congr (fun r j _ _ => ?_) fun _ _ _ => rfl
    show geV _ _ _ = hvec _ _ _ _
    unfold hvec geV geSup
    simp only [decide_eq_true_eq]
    rfl
  ts_loc m n ib A1 A1' A2 A2' T T' h1 h2 _ := by
    have e : tsX m n A1 A2 = tsX m n A1' A2' := by
      funext r c
      unfold tsX
      split_ifs with hr hc hc
      · exact h1 r c hc
      · rfl
      · exact h2 _ c hc
      · rfl
    have e2 : tsqrtK m n ib A1 A2 = tsqrtK m n ib A1' A2' := by unfold tsqrtK; rw [e]
    exact ⟨fun _ _ _ => by show (tsqrtK ..).X _ _ = _; rw [e2]; rfl, fun _ _ _ => by show (tsqrtK ..).X _ _ = _; rw [e2]; rfl,
      fun _ _ _ => by show (tsqrtK ..).T _ _ = _; rw [e2]; rfl⟩
  ts_unit m n ib A1 A2 T m1 _ _ hib hm1 := 
    (st_spec (m := m) (n := n) (ib := ib) (m1 := m1) (tsSup_ok n) hib hm1 (X0 := tsX m n A1 A2)
      (fun c hc r hr hz => by
        simp only [tsSup, decide_eq_true_eq] at hz
        unfold tsX
        rw [if_pos (by omega), if_neg (by omega)])
      (v := tsV m1 fun i j => (tsqrtK m n ib A1 A2).X (n + i) j)
      (fun r j hr hj => by
        unfold tsV hvec stRow tsSup
        simp only [decide_eq_true_eq]
        by_cases h : r < n
        · rw [if_pos h, if_pos (show r < m1 by omega)]
          split_ifs <;> first | rfl | omega
        · rw [if_neg h, if_neg (show ¬ r - n + m1 < m1 by omega), show n + (r - n + m1 - m1) = r by omega]
          rw [if_neg (show ¬ r = j by omega), if_pos (by omega)]; rfl)
      (fun r j h1 h2 hj => by unfold tsV; rw [if_pos h2, if_neg (by omega)])
      (Y := vstack m1 (triu A1) A2)
      (fun r c hr hc => by
        unfold vstack stRow tsX triu
        by_cases h : r < n
        · rw [if_pos h, if_pos h, if_pos (show r < m1 by omega)]
          split_ifs <;> first | rfl | omega
        · rw [if_neg h, if_neg h, if_neg (show ¬ r - n + m1 < m1 by omega), show r - n + m1 - m1 = r - n by omega]
          split_ifs <;> first | rfl | omega)
      (fun r c h1 h2 hc => by unfold vstack triu; rw [if_pos h2, if_neg (by omega)])).1
  ts_eq m n ib A1 A2 T m1 _ _ hib hm1 i j hi hj := 
    (st_spec (m := m) (n := n) (ib := ib) (m1 := m1) (tsSup_ok n) hib hm1 (X0 := tsX m n A1 A2)
      (fun c hc r hr hz => by
        simp only [tsSup, decide_eq_true_eq] at hz
        unfold tsX
        rw [if_pos (by omega), if_neg (by omega)])
      (v := tsV m1 fun i j => (tsqrtK m n ib A1 A2).X (n + i) j)
      (fun r j hr hj => by
        unfold tsV hvec stRow tsSup
        simp only [decide_eq_true_eq]
        by_cases h : r < n
        · rw [if_pos h, if_pos (show r < m1 by omega)]
          split_ifs <;> first | rfl | omega
        · rw [if_neg h, if_neg (show ¬ r - n + m1 < m1 by omega), show n + (r - n + m1 - m1) = r by omega]
          rw [if_neg (show ¬ r = j by omega), if_pos (by omega)]; rfl)
      (fun r j h1 h2 hj => by unfold tsV; rw [if_pos h2, if_neg (by omega)])
      (Y := vstack m1 (triu A1) A2)
      (fun r c hr hc => by
        unfold vstack stRow tsX triu
        by_cases h : r < n
        · rw [if_pos h, if_pos h, if_pos (show r < m1 by omega)]
          split_ifs <;> first | rfl | omega
        · rw [if_neg h, if_neg h, if_neg (show ¬ r - n + m1 < m1 by omega), show r - n + m1 - m1 = r - n by omega]
          split_ifs <;> first | rfl | omega)
      (fun r c h1 h2 hc => by unfold vstack triu; rw [if_pos h2, if_neg (by omega)])).2 i j hi hj
  tt_loc m n ib A1 A1' A2 A2' T T' h1 h2 _ := by
    have e : ttX m n A1 A2 = ttX m n A1' A2' := by
      funext r c
      unfold ttX
      split_ifs with hr hc hc
      · exact h1 r c hc
      · rfl
      · exact h2 _ c hc
      · rfl
    have e2 : ttqrtK m n ib A1 A2 = ttqrtK m n ib A1' A2' := by unfold ttqrtK; rw [e]
    exact ⟨fun _ _ _ => by show (ttqrtK ..).X _ _ = _; rw [e2]; rfl, fun _ _ _ => by show (ttqrtK ..).X _ _ = _; rw [e2]; rfl,
      fun _ _ _ => by show (ttqrtK ..).T _ _ = _; rw [e2]; rfl⟩
  tt_unit m n ib A1 A2 T m1 _ _ hib hm1 _ := 
    (st_spec (m := m) (n := n) (ib := ib) (m1 := m1) (ttSup_ok n m) hib hm1 (X0 := ttX m n A1 A2)
      (fun c hc r hr hz => by
        simp only [ttSup, decide_eq_true_eq] at hz
        unfold ttX
        by_cases h : r < n
        · rw [if_pos h, if_neg (by omega)]
        · rw [if_neg h, if_neg (by omega)])
      (v := ttV m1 fun i j => (ttqrtK m n ib A1 A2).X (n + i) j)
      (fun r j hr hj => by
        unfold ttV hvec stRow ttSup
        simp only [decide_eq_true_eq]
        by_cases h : r < n
        · rw [if_pos h, if_pos (show r < m1 by omega)]
          split_ifs <;> first | rfl | omega
        · rw [if_neg h, if_neg (show ¬ r - n + m1 < m1 by omega), show n + (r - n + m1 - m1) = r by omega]
          rw [if_neg (show ¬ r = j by omega), show r - n + m1 - m1 = r - n by omega]; split_ifs <;> first | rfl | omega)
      (fun r j h1 h2 hj => by unfold ttV; rw [if_pos h2, if_neg (by omega)])
      (Y := vstack m1 (triu A1) (triu A2))
      (fun r c hr hc => by
        unfold vstack stRow ttX triu
        by_cases h : r < n
        · rw [if_pos h, if_pos h, if_pos (show r < m1 by omega)]
          split_ifs <;> first | rfl | omega
        · rw [if_neg h, if_neg h, if_neg (show ¬ r - n + m1 < m1 by omega), show r - n + m1 - m1 = r - n by omega]
          split_ifs <;> first | rfl | omega)
      (fun r c h1 h2 hc => by unfold vstack triu; rw [if_pos h2, if_neg (by omega)])).1
  tt_eq m n ib A1 A2 T m1 _ _ hib hm1 _ i j hi hj := 
    (st_spec (m := m) (n := n) (ib := ib) (m1 := m1) (ttSup_ok n m) hib hm1 (X0 := ttX m n A1 A2)
      (fun c hc r hr hz => by
        simp only [ttSup, decide_eq_true_eq] at hz
        unfold ttX
        by_cases h : r < n
        · rw [if_pos h, if_neg (by omega)]
        · rw [if_neg h, if_neg (by omega)])
      (v := ttV m1 fun i j => (ttqrtK m n ib A1 A2).X (n + i) j)
      (fun r j hr hj => by
        unfold ttV hvec stRow ttSup
        simp only [decide_eq_true_eq]
        by_cases h : r < n
        · rw [if_pos h, if_pos (show r < m1 by omega)]
          split_ifs <;> first | rfl | omega
        · rw [if_neg h, if_neg (show ¬ r - n + m1 < m1 by omega), show n + (r - n + m1 - m1) = r by omega]
          rw [if_neg (show ¬ r = j by omega), show r - n + m1 - m1 = r - n by omega]; split_ifs <;> first | rfl | omega)
      (fun r j h1 h2 hj => by unfold ttV; rw [if_pos h2, if_neg (by omega)])
      (Y := vstack m1 (triu A1) (triu A2))
      (fun r c hr hc => by
        unfold vstack stRow ttX triu
        by_cases h : r < n
        · rw [if_pos h, if_pos h, if_pos (show r < m1 by omega)]
          split_ifs <;> first | rfl | omega
        · rw [if_neg h, if_neg h, if_neg (show ¬ r - n + m1 < m1 by omega), show r - n + m1 - m1 = r - n by omega]
          split_ifs <;> first | rfl | omega)
      (fun r c h1 h2 hc => by unfold vstack triu; rw [if_pos h2, if_neg (by omega)])).2 i j hi hj

end

end Verif.Qr

/-
The kernels that factor two tiles, as the code computes them, put where the tile algorithms call them.
-/
import Verif.FactLq
import Verif.LqSim

namespace Verif.Fact

open Verif.Layout Verif.Tile Verif.Qr Verif.Pent Finset Matrix

universe v

section
variable {𝕜 : Type v} [RCLike 𝕜]

/-- Kernels made of the kernel for one tile (core_blas/core_zgeqrt.c:89-169, by the column algorithm of `hkern`) and two
kernels for two tiles. -/
noncomputable def kOf (S D : Nat → Nat → Nat → Tl 𝕜 → Tl 𝕜 → Tl 𝕜 → FSt 𝕜) : QrKern 𝕜 where
  gA := hkern.gA
  gT := hkern.gT
  sA1 m n ib A1 A2 T := (S m n ib A1 A2 T).A1
  sA2 m n ib A1 A2 T := (S m n ib A1 A2 T).A2
  sT m n ib A1 A2 T := (S m n ib A1 A2 T).T
  tA1 m n ib A1 A2 T := (D m n ib A1 A2 T).A1
  tA2 m n ib A1 A2 T := (D m n ib A1 A2 T).A2
  tT m n ib A1 A2 T := (D m n ib A1 A2 T).T

/-- Outcome of `plasma_core_ztsqrt` (core_blas/core_ztsqrt.c:86-210) with the workspace `W`; the operands if a call of BLAS
is rejected. -/
noncomputable def fsS (W : Tl 𝕜) (m n ib : Nat) (A1 A2 T : Tl 𝕜) : FSt 𝕜 := (ztsqrt m n ib W A1 A2 T).getD ⟨A1, A2, T⟩
/-- Outcome of `plasma_core_zttqrt` (core_blas/core_zttqrt.c:86-236). -/
noncomputable def fsD (W : Tl 𝕜) (m n ib : Nat) (A1 A2 T : Tl 𝕜) : FSt 𝕜 := (zttqrt m n ib W A1 A2 T).getD ⟨A1, A2, T⟩
/-- Outcome of `plasma_core_ztslqt` (core_blas/core_ztslqt.c:96-222) on `n` by `m` tiles, all conjugate transposed. -/
noncomputable def flS (W : Tl 𝕜) (m n ib : Nat) (A1 A2 T : Tl 𝕜) : FSt 𝕜 :=
  cs ((ztslqt n m ib n W (cT A1) (cT A2) T).getD ⟨cT A1, cT A2, T⟩)
/-- Outcome of `plasma_core_zttlqt` (core_blas/core_zttlqt.c:86-236) on `n` by `m` tiles, all conjugate transposed. -/
noncomputable def flD (W : Tl 𝕜) (m n ib : Nat) (A1 A2 T : Tl 𝕜) : FSt 𝕜 :=
  cs ((zttlqt n m ib W (cT A1) (cT A2) T).getD ⟨cT A1, cT A2, T⟩)

/-- The kernels of the QR factorization: `plasma_core_ztsqrt` (core_blas/core_ztsqrt.c:86-210), `plasma_core_zttqrt`
(core_blas/core_zttqrt.c:86-236), with whatever `T` holds before the call. -/
noncomputable def lkern : QrKern 𝕜 := kOf (fsS fun _ _ => 0) (fsD fun _ _ => 0)

/-- The kernels of the LQ factorization: `plasma_core_ztslqt` (core_blas/core_ztslqt.c:96-222), `plasma_core_zttlqt`
(core_blas/core_zttlqt.c:86-236), with whatever `T` holds before the call.  The tasks of the LQ nests transpose them
back (`tslqtT_eq`, `ttlqtT_eq`). -/
noncomputable def llkern : QrKern 𝕜 := kOf (flS fun _ _ => 0) (flD fun _ _ => 0)

theorem agr_of {tri : Bool} {n m ib : Nat} (hib : 0 < ib) {A1 A1' A2 A2' T T' : Tl 𝕜} (h1 : ∀ i j, upTo n i j → A1 i j = A1' i j)
    (h2 : ∀ i j, (if tri then upBox m n else box m n) i j → A2 i j = A2' i j) (h3 : ∀ l c, tReg ib n l c → T l c = T' l c) :
    Agr tri n m ib ⟨A1, A2, T⟩ ⟨A1', A2', T'⟩ where
  a1 r c h h' := h1 r c ⟨h, h'⟩
  a2 q c h h' := h2 q c (by
    unfold rowsV at h'
    cases tri
    · exact ⟨h', h⟩
    · simp only [if_true] at h' ⊢
      exact ⟨by omega, by omega, h⟩)
  t l c h h' := h3 l c ⟨h', by have := Nat.mod_lt c hib; omega, h⟩

theorem Agr.out {tri : Bool} {n m ib : Nat} {s t : FSt 𝕜} (h : Agr tri n m ib s t) :
    (∀ i j, upTo n i j → s.A1 i j = t.A1 i j) ∧
    (∀ i j, (if tri then upBox m n else box m n) i j → s.A2 i j = t.A2 i j) ∧
    (∀ l c, tReg ib n l c → s.T l c = t.T l c) := by
  refine ⟨fun i j h' => h.a1 i j h'.1 h'.2, fun i j h' => ?_, fun l c h' => h.t l c h'.2.2 h'.1⟩
  cases tri
  · exact h.a2 i j h'.2 h'.1
  · simp only [if_true] at h'
    exact h.a2 i j h'.2.2 (by have := h'.1; have := h'.2.1; simp only [rowsV, if_true]; omega)

/-- Reflectors and triangle of a state related to the reference factorization. -/
theorem Rel.parts {tri : Bool} {n m ib : Nat} {T0 : Tl 𝕜} {s : FSt 𝕜} {h : HSt 𝕜} (hR : Rel tri n m ib n T0 s h) :
    (∀ i j, i ≤ j → j < n → s.A1 i j = h.X i j) ∧
    (∀ i j, (if tri then upBox m n else box m n) i j → s.A2 i j = h.X (n + i) j) ∧
    (∀ l c, tReg ib n l c → s.T l c = h.T l c) := by
  refine ⟨hR.a1, fun i j h' => ?_, fun l c h' => hR.t c h'.2.2 l h'.1⟩
  cases tri
  · exact hR.a2 i j h'.2 h'.1
  · simp only [if_true] at h'
    exact hR.a2 i j h'.2.2 (by have := h'.1; have := h'.2.1; simp only [rowsV, if_true]; omega)

/-- What agreement with the reference factorization means for a square below the triangle: the reflectors left in `A2` and
`T` make a unitary matrix, and it takes the new triangle to the old pair. -/
theorem ts_of_rel {m n ib : Nat} (hm : 0 < m) (hn : 0 < n) (hib : 0 < ib) {A1 A2 T : Tl 𝕜} {s : FSt 𝕜}
    (hR : Rel false n m ib n T s (tsqrtK m n ib A1 A2)) {m1 : Nat} (hm1 : n ≤ m1) :
    wy (m1 + m) n ib (tsV m1 s.A2) s.T ∈ unitaryGroup (Fin (m1 + m)) 𝕜 ∧
    ∀ i j, i < m1 + m → j < n → lmul (wy (m1 + m) n ib (tsV m1 s.A2) s.T) (vstack m1 (triu s.A1) (fun _ _ => 0)) i j =
      vstack m1 (triu A1) A2 i j := by
  obtain ⟨h1, h2, h3⟩ := hR.parts
  have ew : wy (m1 + m) n ib (tsV m1 s.A2) s.T = wy (m1 + m) n ib (tsV m1 (hkern.sA2 m n ib A1 A2 T)) (hkern.sT m n ib A1 A2 T) := by
    refine wy_congr (fun r j hr hj => ?_) fun l c h => h3 l c h
    unfold tsV
    split_ifs
    · rfl
    · rfl
    · exact h2 (r - m1) j ⟨by omega, hj⟩
  rw [ew]
  refine ⟨hkern_spec.ts_unit m n ib A1 A2 T m1 hm hn hib hm1, fun i j hi hj => ?_⟩
  rw [← hkern_spec.ts_eq m n ib A1 A2 T m1 hm hn hib hm1 i j hi hj]
  refine lmul_congr hi fun q hq => ?_
  unfold vstack triu
  split_ifs with h5 h6
  · exact h1 q j h6 hj
  · rfl
  · rfl

/-- The same for a triangle below the triangle. -/
theorem tt_of_rel {m n ib : Nat} (hm : 0 < m) (hn : 0 < n) (hib : 0 < ib) {A1 A2 T : Tl 𝕜} {s : FSt 𝕜}
    (hR : Rel true n m ib n T s (ttqrtK m n ib A1 A2)) {m1 : Nat} (hm1 : n ≤ m1) :
    wy (m1 + m) n ib (ttV m1 s.A2) s.T ∈ unitaryGroup (Fin (m1 + m)) 𝕜 ∧
    ∀ i j, i < m1 + m → j < n → lmul (wy (m1 + m) n ib (ttV m1 s.A2) s.T) (vstack m1 (triu s.A1) (fun _ _ => 0)) i j =
      vstack m1 (triu A1) (triu A2) i j := by
  obtain ⟨h1, h2, h3⟩ := hR.parts
  have ew : wy (m1 + m) n ib (ttV m1 s.A2) s.T =
      wy (m1 + m) n ib (ttV m1 (hkern.tA2 m n ib A1 A2 fun _ _ => 0)) (hkern.tT m n ib A1 A2 fun _ _ => 0) := by
    refine wy_congr (fun r j hr hj => ?_) fun l c h => h3 l c h
    unfold ttV
    split_ifs with h4 h5 h6
    · rfl
    · rfl
    · exact h2 (r - m1) j ⟨h6, by omega, hj⟩
    · rfl
  rw [ew]
  refine ⟨hkern_spec.tt_unit m n ib A1 A2 _ m1 hm hn hib hm1 fun _ _ _ => rfl, fun i j hi hj => ?_⟩
  rw [← hkern_spec.tt_eq m n ib A1 A2 (fun _ _ => 0) m1 hm hn hib hm1 (fun _ _ _ => rfl) i j hi hj]
  refine lmul_congr hi fun q hq => ?_
  unfold vstack triu
  split_ifs with h5 h6
  · exact h1 q j h6 hj
  · rfl
  · rfl

/-- Kernels that agree with the reference factorization where it counts. -/
theorem kOf_spec {S D : Nat → Nat → Nat → Tl 𝕜 → Tl 𝕜 → Tl 𝕜 → FSt 𝕜}
    (hS : ∀ {m n ib}, 0 < m → 0 < n → 0 < ib → ∀ A1 A2 T, Rel false n m ib n T (S m n ib A1 A2 T) (tsqrtK m n ib A1 A2))
    (hD : ∀ {m n ib}, 0 < m → 0 < n → 0 < ib → ∀ A1 A2 T, (∀ l c, tReg ib n l c → T l c = 0) →
      Rel true n m ib n T (D m n ib A1 A2 T) (ttqrtK m n ib A1 A2))
    (hSl : ∀ {m n ib}, 0 < m → 0 < n → 0 < ib → ∀ A1 A1' A2 A2' T T', Agr false n m ib ⟨A1, A2, T⟩ ⟨A1', A2', T'⟩ →
      Agr false n m ib (S m n ib A1 A2 T) (S m n ib A1' A2' T'))
    (hDl : ∀ {m n ib}, 0 < m → 0 < n → 0 < ib → ∀ A1 A1' A2 A2' T T', Agr true n m ib ⟨A1, A2, T⟩ ⟨A1', A2', T'⟩ →
      Agr true n m ib (D m n ib A1 A2 T) (D m n ib A1' A2' T'))
    (hS0 : ∀ m n ib A1 A2 T, m = 0 ∨ n = 0 ∨ ib = 0 → S m n ib A1 A2 T = ⟨A1, A2, T⟩)
    (hD0 : ∀ m n ib A1 A2 T, m = 0 ∨ n = 0 ∨ ib = 0 → D m n ib A1 A2 T = ⟨A1, A2, T⟩) : QrSpec (kOf S D) where
  ge_loc := hkern_spec.ge_loc
  ge_unit := hkern_spec.ge_unit
  ge_eq := hkern_spec.ge_eq
  ts_loc m n ib A1 A1' A2 A2' T T' h1 h2 h3 := by
    by_cases h0 : m = 0 ∨ n = 0 ∨ ib = 0
    · simp only [kOf, hS0 _ _ _ _ _ _ h0]
      exact ⟨h1, h2, h3⟩
    · exact (hSl (by omega) (by omega) (by omega) _ _ _ _ _ _ (agr_of (tri := false) (by omega) h1 h2 h3)).out
  ts_unit m n ib A1 A2 T m1 hm hn hib hm1 := (ts_of_rel hm hn hib (hS hm hn hib A1 A2 T) hm1).1
  ts_eq m n ib A1 A2 T m1 hm hn hib hm1 := (ts_of_rel hm hn hib (hS hm hn hib A1 A2 T) hm1).2
  tt_loc m n ib A1 A1' A2 A2' T T' h1 h2 h3 := by
    by_cases h0 : m = 0 ∨ n = 0 ∨ ib = 0
    · simp only [kOf, hD0 _ _ _ _ _ _ h0]
      exact ⟨h1, h2, h3⟩
    · exact (hDl (by omega) (by omega) (by omega) _ _ _ _ _ _ (agr_of (tri := true) (by omega) h1 h2 h3)).out
  tt_unit m n ib A1 A2 T m1 hm hn hib hm1 hz := (tt_of_rel hm hn hib (hD hm hn hib A1 A2 T hz) hm1).1
  tt_eq m n ib A1 A2 T m1 hm hn hib hm1 hz := (tt_of_rel hm hn hib (hD hm hn hib A1 A2 T hz) hm1).2

theorem fsS_rel {m n ib : Nat} (hm : 0 < m) (hn : 0 < n) (hib : 0 < ib) (W A1 A2 T : Tl 𝕜) :
    Rel false n m ib n T (fsS W m n ib A1 A2 T) (tsqrtK m n ib A1 A2) := by
  obtain ⟨s, e, -, h⟩ := tsqrt_rel hm hn hib W A1 A2 T (fun _ _ => 0)
  unfold fsS
  rw [e]
  exact h

theorem fsD_rel {m n ib : Nat} (hm : 0 < m) (hn : 0 < n) (hib : 0 < ib) (W A1 A2 T : Tl 𝕜)
    (hz : ∀ j, j < n → 0 < j % ib → (ttqrtK m n ib A1 A2).T (j % ib) j ≠ 0 ∨ ∀ l, l < j % ib → T l j = 0) :
    Rel true n m ib n T (fsD W m n ib A1 A2 T) (ttqrtK m n ib A1 A2) := by
  obtain ⟨s, e, -, h⟩ := ttqrt_rel hm hn hib W A1 A2 T (fun _ _ => 0)
  unfold fsD
  rw [e]
  exact h hz

theorem flS_rel {m n ib : Nat} (hm : 0 < m) (hn : 0 < n) (hib : 0 < ib) (W A1 A2 T : Tl 𝕜) :
    Rel false n m ib n T (flS W m n ib A1 A2 T) (tsqrtK m n ib A1 A2) := by
  obtain ⟨s, e, -, h⟩ := tslqt_rel hn hm hib (le_refl n) W (cT A1) (cT A2) T (fun _ _ => 0)
  unfold flS
  rw [e]
  rw [cT_cT, cT_cT] at h
  exact h

theorem flD_rel {m n ib : Nat} (hm : 0 < m) (hn : 0 < n) (hib : 0 < ib) (W A1 A2 T : Tl 𝕜)
    (hz : ∀ j, j < n → 0 < j % ib → (ttqrtK m n ib A1 A2).T (j % ib) j ≠ 0 ∨ ∀ l, l < j % ib → T l j = 0) :
    Rel true n m ib n T (flD W m n ib A1 A2 T) (ttqrtK m n ib A1 A2) := by
  obtain ⟨s, e, -, h⟩ := ttlqt_rel hn hm hib W (cT A1) (cT A2) T (fun _ _ => 0)
  unfold flD
  rw [e]
  rw [cT_cT, cT_cT] at h
  exact h hz

theorem zero_of {n ib : Nat} (hib : 0 < ib) {T : Tl 𝕜} {P : Nat → Prop} (hz : ∀ l c, tReg ib n l c → T l c = 0) :
    ∀ j, j < n → 0 < j % ib → P j ∨ ∀ l, l < j % ib → T l j = 0 :=
  fun j hj _ => Or.inr fun l hl => hz l j ⟨by omega, by have := Nat.mod_lt j hib; omega, hj⟩

theorem qKern_spec (W W' : Tl 𝕜) : QrSpec (kOf (fsS W) (fsD W')) := by
  refine kOf_spec (fun hm hn hib => fsS_rel hm hn hib W)
    (fun hm hn hib A1 A2 T hz => fsD_rel hm hn hib W' A1 A2 T (zero_of hib hz))
    ?_ ?_ ?_ ?_
  · intro m n ib hm hn hib A1 A1' A2 A2' T T' h
    obtain ⟨F, hF, hS⟩ := tsqrt_scheme hm hn hib W
    obtain ⟨s, t, e1, e2, h'⟩ := assemble_agr hib hS hS h
    unfold fsS
    rw [hF, hF, e1, e2]
    exact h'
  · intro m n ib hm hn hib A1 A1' A2 A2' T T' h
    obtain ⟨F, hF, hS⟩ := ttqrt_scheme hm hn hib W'
    obtain ⟨s, t, e1, e2, h'⟩ := assemble_agr hib hS hS h
    unfold fsD
    rw [hF, hF, e1, e2]
    exact h'
  · intro m n ib A1 A2 T h
    unfold fsS ztsqrt
    rw [if_pos h]
    rfl
  · intro m n ib A1 A2 T h
    unfold fsD zttqrt
    rw [if_pos h]
    rfl

theorem cs_ct (A1 A2 T : Tl 𝕜) : cs ⟨cT A1, cT A2, T⟩ = ⟨A1, A2, T⟩ := by
  unfold cs
  rw [cT_cT, cT_cT]

theorem lKern_spec (W W' : Tl 𝕜) : QrSpec (kOf (flS W) (flD W')) := by
  refine kOf_spec (fun hm hn hib => flS_rel hm hn hib W)
    (fun hm hn hib A1 A2 T hz => flD_rel hm hn hib W' A1 A2 T (zero_of hib hz))
    ?_ ?_ ?_ ?_
  · intro m n ib hm hn hib A1 A1' A2 A2' T T' h
    obtain ⟨F, hF, hS⟩ := tslqt_scheme hn hm hib (le_refl n) W
    obtain ⟨s, t, e1, e2, h'⟩ := assemble_agr hib hS hS (s := ⟨cT A1, cT A2, T⟩) (t := ⟨cT A1', cT A2', T'⟩)
      (by rw [cs_ct, cs_ct]; exact h)
    unfold flS
    rw [hF, hF, e1, e2]
    exact h'
  · intro m n ib hm hn hib A1 A1' A2 A2' T T' h
    obtain ⟨F, hF, hS⟩ := ttlqt_scheme hn hm hib W'
    obtain ⟨s, t, e1, e2, h'⟩ := assemble_agr hib hS hS (s := ⟨cT A1, cT A2, T⟩) (t := ⟨cT A1', cT A2', T'⟩)
      (by rw [cs_ct, cs_ct]; exact h)
    unfold flD
    rw [hF, hF, e1, e2]
    exact h'
  · intro m n ib A1 A2 T h
    unfold flS ztslqt
    rw [if_pos (by omega)]
    exact cs_ct ..
  · intro m n ib A1 A2 T h
    unfold flD zttlqt
    rw [if_pos (by omega)]
    exact cs_ct ..

theorem lkern_spec : QrSpec (lkern : QrKern 𝕜) := qKern_spec ..

theorem llkern_spec : QrSpec (llkern : QrKern 𝕜) := lKern_spec ..

/-! ### The tasks of the LQ nests call the LQ kernels -/

variable {M : Type} [DecidableEq M]

theorem tslqtT_eq (m n ib : Nat) (A1 A2 T : M) : tslqtT (llkern : QrKern 𝕜) m n ib A1 A2 T =
    wop [] [⟨A1, loTo m, fun s => ((ztslqt m n ib m (fun _ _ => 0) (s A1) (s A2) (s T)).getD ⟨s A1, s A2, s T⟩).A1⟩,
      ⟨A2, box m n, fun s => ((ztslqt m n ib m (fun _ _ => 0) (s A1) (s A2) (s T)).getD ⟨s A1, s A2, s T⟩).A2⟩,
      ⟨T, tReg ib m, fun s => ((ztslqt m n ib m (fun _ _ => 0) (s A1) (s A2) (s T)).getD ⟨s A1, s A2, s T⟩).T⟩] := by
  unfold tslqtT llkern kOf flS cs
  simp only [cT_cT]

theorem ttlqtT_eq (m n ib : Nat) (A1 A2 T : M) : ttlqtT (llkern : QrKern 𝕜) m n ib A1 A2 T =
    wop [] [⟨A1, loTo m, fun s => ((zttlqt m n ib (fun _ _ => 0) (s A1) (s A2) (s T)).getD ⟨s A1, s A2, s T⟩).A1⟩,
      ⟨A2, loBoxD m n, fun s => ((zttlqt m n ib (fun _ _ => 0) (s A1) (s A2) (s T)).getD ⟨s A1, s A2, s T⟩).A2⟩,
      ⟨T, tReg ib m, fun s => ((zttlqt m n ib (fun _ _ => 0) (s A1) (s A2) (s T)).getD ⟨s A1, s A2, s T⟩).T⟩] := by
  unfold ttlqtT llkern kOf flD cs
  simp only [cT_cT]

end

end Verif.Fact

/-
Locality, bounds and dependences of the tasks of `plasma_pzhetrf_aasen`.
-/
import Verif.AasenProg

namespace Verif.Aasen

open Verif.Tile Verif.Layout Verif.LU Verif.Panel Verif.Heswp Finset

set_option linter.unusedSectionVars false

universe u v w

section
variable {M : Type u} [DecidableEq M] {α : Type v} [Field α] [StarRing α] [DecidableEq α] {γ : Type w} [LinearOrder γ]
  {E : IntCode α} {mag : α → γ} {dv : α → α → α} {big : α → Bool} {z : AC} {Z : AM M} {k : Nat} {env : M → MatEnv}

/-! ### Kernels that declare their accesses -/

/-- A kernel call. -/
inductive IsKer (t : TTask (M × Nat × Nat) α) : Prop
  | mk (a b c : M × Nat × Nat) (da db dc : Nat × Nat) (K : Tl α → Tl α → Tl α → Tl α) (h : KerOK da db dc K) (e : t = ker a b c da db dc K)

theorem IsKer.loc {t : TTask (M × Nat × Nat) α} (h : IsKer t) : t.Local := by
  obtain ⟨a, b, c, da, db, dc, K, h, rfl⟩ := h; exact h.loc
theorem IsKer.decl {t : TTask (M × Nat × Nat) α} (h : IsKer t) : t.Declared := by
  obtain ⟨a, b, c, da, db, dc, K, h, rfl⟩ := h; exact op2_declared

theorem isk_gemm {ta tb : Trans} {m n k : Nat} {al be : α} {a b c : M × Nat × Nat} : IsKer (kGemm ta tb m n k al a b be c) := ⟨_, _, _, _, _, _, _, gm_ok, rfl⟩
theorem isk_add {m n : Nat} {a c : M × Nat × Nat} : IsKer (kAdd (α := α) m n a c) := ⟨_, _, _, _, _, _, _, add_ok, rfl⟩
theorem isk_cpL {n : Nat} {a c : M × Nat × Nat} : IsKer (kCpL (α := α) n a c) := ⟨_, _, _, _, _, _, _, cpL_ok, rfl⟩
theorem isk_cpU {m n : Nat} {a c : M × Nat × Nat} : IsKer (kCpU (α := α) m n a c) := ⟨_, _, _, _, _, _, _, cpU_ok, rfl⟩
theorem isk_exp {n : Nat} {c : M × Nat × Nat} : IsKer (kExp (α := α) n c) := ⟨_, _, _, _, _, _, _, exp_ok, rfl⟩
theorem isk_setU {m n : Nat} {c : M × Nat × Nat} : IsKer (kSetU (α := α) m n c) := ⟨_, _, _, _, _, _, _, setU_ok, rfl⟩
theorem isk_hegst {n : Nat} {a c : M × Nat × Nat} : IsKer (kHegst (α := α) dv n a c) := ⟨_, _, _, _, _, _, _, hegst_ok, rfl⟩
theorem isk_trsm {m n : Nat} {a c : M × Nat × Nat} : IsKer (kTrsm (α := α) dv m n a c) := ⟨_, _, _, _, _, _, _, trsm_ok, rfl⟩
theorem isk_cp {m n : Nat} {a c : M × Nat × Nat} : IsKer (kCp (α := α) m n a c) := ⟨_, _, _, _, _, _, _, cp_ok, rfl⟩
theorem isk_cpC {m n : Nat} {a c : M × Nat × Nat} : IsKer (kCpC (α := α) m n a c) := ⟨_, _, _, _, _, _, _, cpC_ok, rfl⟩

/-- The first tasks of a step: a property of all kernels they consist of. -/
theorem pre_all {Q : TTask (M × Nat × Nat) α → Prop}
    (hg1 : ∀ m, 0 < m → m < k → Q (kGemm .noTrans .conjTrans (z.mv m) (z.mv k) (z.mv m) 1 (Z.t z m m) (Z.a k (m - 1)) 0 (Z.h m)))
    (hg2 : ∀ m, 1 < m → m < k → Q (kGemm .noTrans .conjTrans (z.mv m) (z.mv k) z.b 1 (Z.t z m (m - 1)) (Z.a k (m - 1 - 1)) 1 (Z.h m)))
    (hg3 : ∀ m, 0 < m → m < k → Q (kGemm .conjTrans .conjTrans (z.mv m) (z.mv k) (z.mv (m + 1)) 1 (Z.t z (m + 1) m) (Z.a k m) 1 (Z.h m)))
    (hw1 : ∀ m be q, 1 < k → 0 < m → m < k → q < k - 1 → Q (kGemm .noTrans .noTrans (z.mv k) (z.mv k) (z.mv m) (-1) (Z.a k (m - 1)) (Z.h m) be (Z.w3 z q)))
    (hw2 : ∀ p q, 1 < k → p < k - 1 → q < k - 1 → Q (kAdd (z.mv k) (z.mv k) (Z.w3 z p) (Z.w3 z q)))
    (hc : Q (kCpL (z.mv k) (Z.a k k) (Z.t z k k))) (he : Q (kExp (z.mv k) (Z.t z k k)))
    (ha : 1 < k → Q (kAdd (z.mv k) (z.mv k) (Z.w3 z 0) (Z.t z k k)))
    (hd1 : 1 < k → Q (kGemm .noTrans .noTrans (z.mv k) z.b (z.mv k) 1 (Z.a k (k - 1)) (Z.t z k (k - 1)) 0 Z.w0))
    (hd2 : 1 < k → Q (kGemm .noTrans .conjTrans (z.mv k) (z.mv k) z.b (-1) Z.w0 (Z.a k (k - 1 - 1)) 1 (Z.t z k k)))
    (hs : 0 < k → Q (kHegst dv (z.mv k) (Z.a k (k - 1)) (Z.t z k k)))
    (hh1 : 1 < k → Q (kGemm .noTrans .conjTrans (z.mv k) (z.mv k) z.b 1 (Z.t z k (k - 1)) (Z.a k (k - 1 - 1)) 0 (Z.h k)))
    (hh2 : ∀ be, 0 < k → Q (kGemm .noTrans .conjTrans (z.mv k) (z.mv k) (z.mv k) 1 (Z.t z k k) (Z.a k (k - 1)) be (Z.h k))) :
    ∀ t ∈ preT dv z Z k, Q t := by
  intro t ht
  unfold preT diagTT diagHT at ht
  rw [List.mem_append, List.mem_append] at ht
  rcases ht with (ht | ht) | ht
  · obtain ⟨m, hm, ht⟩ := List.mem_flatMap.mp ht
    rw [List.mem_range'_1] at hm
    unfold hT at ht
    simp only [List.mem_append, List.mem_singleton] at ht
    rcases ht with (rfl | ht) | rfl
    · exact hg1 m (by omega) (by omega)
    · split at ht
      · rw [List.mem_singleton] at ht; subst ht; exact hg2 m (by omega) (by omega)
      · cases ht
    · exact hg3 m (by omega) (by omega)
  · rw [List.mem_append] at ht
    rcases ht with ht | ht
    · split at ht
      · rename_i h1
        rw [List.mem_append] at ht
        rcases ht with ht | ht
        · unfold w3T at ht
          rw [List.mem_append] at ht
          rcases ht with ht | ht
          · obtain ⟨m, hm, rfl⟩ := List.mem_map.mp ht
            rw [List.mem_range'_1] at hm
            exact hw1 m _ _ h1 (by omega) (by omega) (Nat.mod_lt _ (by omega))
          · obtain ⟨p, hp, rfl⟩ := List.mem_map.mp ht
            have := tree_lt hp
            exact hw2 _ _ h1 this.2 this.1
        · simp only [List.mem_cons, List.not_mem_nil, or_false] at ht
          rcases ht with rfl | rfl
          · exact hc
          · exact ha h1
      · simp only [List.mem_cons, List.not_mem_nil, or_false] at ht
        rcases ht with rfl | rfl
        · exact hc
        · exact he
    · split at ht
      · rename_i h0
        rw [List.mem_append] at ht
        rcases ht with ht | ht
        · split at ht
          · rename_i h1
            simp only [List.mem_cons, List.not_mem_nil, or_false] at ht
            rcases ht with rfl | rfl
            · exact hd1 h1
            · exact hd2 h1
          · cases ht
        · simp only [List.mem_cons, List.not_mem_nil, or_false] at ht
          rcases ht with rfl | rfl
          · exact hs h0
          · exact he
      · cases ht
  · rw [List.mem_append] at ht
    rcases ht with ht | ht
    · split at ht
      · rw [List.mem_singleton] at ht; subst ht; exact hh1 (by assumption)
      · cases ht
    · split at ht
      · rename_i h1
        rw [List.mem_singleton] at ht; subst ht; exact hh2 _ h1.2
      · cases ht

theorem pre_ker : ∀ t ∈ preT (α := α) dv z Z k, IsKer t := by
  apply pre_all
  all_goals intros
  all_goals first
    | exact isk_gemm | exact isk_add | exact isk_cpL | exact isk_exp | exact isk_hegst

/-! ### Locality -/

theorem pCfg_ok (hz : z.OK) (hk : k + 1 < z.mt) : (pCfg z k).OK := by
  have hkN := hz.lt.mp hk
  have hmk := hz.mvb hk
  have hmpt := hz.mpt
  have hb := hz.b
  refine ⟨hz.b, hz.ib, ?_, ?_⟩ <;> simp only [pCfg] <;> omega

theorem pOut_congr (hz : z.OK) (hk : k + 1 < z.mt) {X Y : Nat → Nat → α}
    (h : ∀ r c, (k + 1) * z.b ≤ r → r < z.N → k * z.b ≤ c → c < k * z.b + z.mv k → X r c = Y r c) :
    ∀ p i c, pvalid (pCfg z k) p i c → pOut mag dv big z k X p i c = pOut mag dv big z k Y p i c := by
  intro p i c hv
  refine phases_congr (pCfg_ok hz hk) mag dv big ?_ hv
  intro p i c hv
  cases p with
  | a l =>
    rcases hv with ⟨l', e, hi, hr, hc⟩ | ⟨e, _⟩ | ⟨e | e, _⟩ | ⟨e, _⟩
    · cases e
      simp only [pCfg] at hr hc hi ⊢
      rw [h _ _ (by omega) (by omega) (by omega) (by omega)]
    all_goals cases e
  | _ => rfl

theorem pOut_num (hz : z.OK) {o o' : PS α}
    (hs : ∀ p i c, pvalid (pCfg z k) p i c → o p i c = o' p i c) {r c : Nat}
    (hr : r < (pCfg z k).M) (hc : c < (pCfg z k).N) : num (pCfg z k) o r c = num (pCfg z k) o' r c := by
  unfold num
  have hb : 0 < (pCfg z k).b := hz.b
  rw [hs]
  left
  refine ⟨_, rfl, Nat.mod_lt _ hb, ?_, hc⟩
  rw [divmod]; exact hr

theorem panel_same (hz : z.OK) (hZ : AMOK z Z) (hk : k + 1 < z.mt) {s s' : Store (M × Nat × Nat) α}
    (hs : ∀ x i j, (panelT E mag dv big z Z k).rd x i j ∨ (panelT E mag dv big z Z k).wr x i j → s x i j = s' x i j) :
    ∀ p i c, pvalid (pCfg z k) p i c → pOut mag dv big z k (Z.A.el s) p i c = pOut mag dv big z k (Z.A.el s') p i c := by
  refine pOut_congr hz hk fun r c h1 h2 h3 h4 => ?_
  exact TMat.el_eq_of_reg (A := Z.A) (R := fun r c => (k + 1) * z.b ≤ r ∧ r < z.N ∧ k * z.b ≤ c ∧ c < k * z.b + z.mv k)
    (by rw [hZ.a.mb]; exact hz.b) (by rw [hZ.a.nb]; exact hz.b) (fun x i j hx => hs x i j (Or.inr (Or.inl hx))) ⟨h1, h2, h3, h4⟩

theorem panelT_local (hz : z.OK) (hZ : AMOK z Z) (hk : k + 1 < z.mt) : (panelT E mag dv big z Z k).Local := by
  intro s s' hs x i j hw
  have hc := panel_same (E := E) (mag := mag) (dv := dv) (big := big) hz hZ hk hs
  simp only [panelT]
  rcases hw with hw | hw
  · rw [if_pos hw.1, if_pos hw.1]
    have h6 := hw.2.2.2.2.2
    refine pOut_num hz hc ?_ ?_ <;> simp only [pCfg] <;> omega
  · have hne : x.1 ≠ Z.A.id := by rw [hw.1]; exact hZ.ap.symm
    rw [if_neg hne, if_neg hne]
    unfold pivv
    rw [hc]
    right; left
    refine ⟨rfl, ?_, rfl⟩
    have h6 := hw.2.2.2.2.2
    unfold pcnt at h6
    unfold Cfg.mn
    simp only [pCfg]
    omega

theorem panelC_congr (hz : z.OK) (hZ : AMOK z Z) (hk : k + 1 < z.mt) {s s' : Store (M × Nat × Nat) α}
    (hs : ∀ x i j, (panelT E mag dv big z Z k).rd x i j ∨ (panelT E mag dv big z Z k).wr x i j → s x i j = s' x i j) :
    panelC mag dv big z Z k s = panelC mag dv big z Z k s' := by
  have hc := panel_same (E := E) (mag := mag) (dv := dv) (big := big) hz hZ hk hs
  unfold panelC infov
  rw [hc _ _ _ (Or.inr (Or.inr (Or.inr ⟨rfl, rfl, rfl⟩)))]

theorem pvC_congr (hz : z.OK) (hZ : AMOK z Z) {s s' : Store (M × Nat × Nat) α}
    (hs : ∀ x i j, Z.P.reg (fun i j => (k + 1) * z.b ≤ i ∧ i < (k + 1) * z.b + pcnt z k ∧ j = 0) x i j → s x i j = s' x i j) :
    ∀ i, (k + 1) * z.b ≤ i → i < (k + 1) * z.b + pcnt z k → pvC E z Z s i = pvC E z Z s' i := by
  intro i h1 h2
  unfold pvC
  rw [TMat.el_eq_of_reg (A := Z.P) (by rw [hZ.p.mb]; exact hz.b) (by rw [hZ.p.nb]; exact hz.b) hs ⟨h1, h2, rfl⟩]

theorem pcnt_le (hz : z.OK) (hk : k + 1 < z.mt) : (k + 1) * z.b + pcnt z k ≤ z.N ∧ pcnt z k ≤ z.b := by
  have := hz.lt.mp hk
  have := AC.mvle hz (show k < z.mt by omega)
  unfold pcnt; omega

theorem rowT_local (hz : z.OK) (hZ : AMOK z Z) (hk : k + 1 < z.mt) {n : Nat} : (rowT E z Z k n).Local := by
  have hpc := pcnt_le hz hk
  apply gop_local
  intro s s' hs r c hR
  rw [interch_permL, interch_permL, permL_range', permL_range']
  rw [perm_congr (pvC_congr (E := E) hz hZ (fun x i j h => hs x i j (Or.inl h)))]
  have hm := perm_range (p := pvC E z Z s') (lo := (k + 1) * z.b) (n := pcnt z k) (m := z.N)
    (fun i h1 h2 => pvC_ok s' (by omega)) hR.1 hR.2.1
  exact TMat.el_eq_of_reg (by rw [hZ.a.mb]; exact hz.b) (by rw [hZ.a.nb]; exact hz.b) (fun x i j h => hs x i j (Or.inr h)) ⟨hm.1, hm.2, hR.2.2⟩

theorem symT_local (hz : z.OK) (hZ : AMOK z Z) (hk : k + 1 < z.mt) : (symT E z Z k).Local := by
  have hpc := pcnt_le hz hk
  have hmpt := hz.mpt
  have hnt : 0 < min z.mpt (z.mt - (k + 1)) := by omega
  apply gop_local
  intro s s' hs r c hR
  have hp : ∀ (s : Store (M × Nat × Nat) α) i, (k + 1) * z.b ≤ i → i < (k + 1) * z.b + pcnt z k → i ≤ pvC E z Z s i ∧ pvC E z Z s i < z.N :=
    fun s i h1 h2 => pvC_ok s (by omega)
  rw [he_exec hz.b hnt rfl hpc.2 (hp s) heswp_exec, he_exec hz.b hnt rfl hpc.2 (hp s') heswp_exec, if_pos hR, if_pos hR]
  rw [perm_congr (pvC_congr (E := E) hz hZ (fun x i j h => hs x i j (Or.inl h)))]
  have m1 := perm_range (hp s') (r := r) (by omega) (by omega)
  have m2 := perm_range (hp s') (r := c) (by omega) (by omega)
  have he : ∀ r c, (k + 1) * z.b ≤ c → c ≤ r → r < z.N → Z.A.el s r c = Z.A.el s' r c := fun r c h1 h2 h3 =>
    TMat.el_eq_of_reg (R := fun r c => (k + 1) * z.b ≤ c ∧ c ≤ r ∧ r < z.N) (by rw [hZ.a.mb]; exact hz.b) (by rw [hZ.a.nb]; exact hz.b)
      (fun x i j h => hs x i j (Or.inr h)) ⟨h1, h2, h3⟩
  unfold herm
  split
  · exact he _ _ (by omega) (by omega) (by omega)
  · rw [he _ _ (by omega) (by omega) (by omega)]

theorem copyB_ker (k : Nat) : ∀ t ∈ ([kCp (α := α) (z.mv k) (z.mv k) (Z.t z k k) (Z.g k k)] ++
     (if k + 1 < z.mt then [kCp (z.mv (k + 1)) (z.mv k) (Z.t z (k + 1) k) (Z.g (k + 1) k)] else []) ++
     (if 0 < k then [kCpC (z.mv k) (z.mv (k - 1)) (Z.t z k (k - 1)) (Z.g (k - 1) k)] else [])), IsKer t := by
  intro t ht
  simp only [List.mem_append, List.mem_singleton] at ht
  rcases ht with (rfl | ht) | ht
  · exact isk_cp
  · split at ht
    · rw [List.mem_singleton] at ht; subst ht; exact isk_cp
    · cases ht
  · split at ht
    · rw [List.mem_singleton] at ht; subst ht; exact isk_cpC
    · cases ht

/-! ### Bounds -/

/-- The tiles that the function uses are allocated: the lower triangle of `A`, the band of `T`, all tiles of the workspace
(compute/zhetrf.c:143-166), and `ipiv` has `n` entries. -/
structure AFit (env : M → MatEnv) (z : AC) (Z : AM M) : Prop where
  fa : FitsOn env z.b (fun i j => j ≤ i) Z.A
  am : Z.A.d.m = z.N
  an : Z.A.d.n = z.N
  ft : FitsOn env z.b (bTile none z.b z.b z.b) Z.T
  tm : Z.T.d.m = z.N
  tn : Z.T.d.n = z.N
  w : ∀ q i j, q < 1 + 4 * z.mt + z.wmt → i < z.b → j < z.b → evalid env (Z.W.at' q 0) i j
  fp : Fits env z.b Z.P
  pm : Z.P.d.m = z.N
  pn : Z.P.d.n = 1

local macro "dim" : tactic => `(tactic| first | omega | (simp only [dimT, reduceCtorEq, if_false, if_true]; omega))

theorem ker_inside {V : Foot (M × Nat × Nat)} {a b c : M × Nat × Nat} {da db dc : Nat × Nat} {K : Tl α → Tl α → Tl α → Tl α}
    (ha : ∀ i j, i < da.1 → j < da.2 → V a i j) (hb : ∀ i j, i < db.1 → j < db.2 → V b i j)
    (hc : ∀ i j, i < dc.1 → j < dc.2 → V c i j) : (ker a b c da db dc K).Inside V :=
  op2_inside (fun i j h => ha i j h.1 h.2) (fun i j h => hb i j h.1 h.2) (fun i j h => hc i j h.1 h.2)

section
variable (hz : z.OK) (hF : AFit env z Z)
include hz hF

theorem in_a {m n mm nn : Nat} (hm : m < z.mt) (hn : n ≤ m) (h1 : mm ≤ z.mv m) (h2 : nn ≤ z.mv n) :
    ∀ i j, i < mm → j < nn → evalid env (Z.a m n) i j := by
  intro i j hi hj
  rw [hz.mv hm] at h1
  rw [hz.mv (by omega)] at h2
  exact hF.fa.validOn hn (by rw [hF.am]; omega) (by rw [hF.an]; omega)

theorem in_W {q mm nn : Nat} (hq : q < 1 + 4 * z.mt + z.wmt) (h1 : mm ≤ z.b) (h2 : nn ≤ z.b) :
    ∀ i j, i < mm → j < nn → evalid env (Z.W.at' q 0) i j := fun i j hi hj => hF.w q i j hq (by omega) (by omega)

theorem in_t {m n mm nn : Nat} (hm : m < z.mt) (hn : m - n ≤ 1) (h1 : mm ≤ z.b) (h2 : nn ≤ z.b) :
    ∀ i j, i < mm → j < nn → evalid env (Z.t z m n) i j := by
  refine in_W hz hF ?_ h1 h2
  have : (m - n) * z.mt ≤ 1 * z.mt := Nat.mul_le_mul_right _ hn
  omega
theorem in_h {m mm nn : Nat} (hm : m < z.mt) (h1 : mm ≤ z.b) (h2 : nn ≤ z.b) :
    ∀ i j, i < mm → j < nn → evalid env (Z.h m) i j := in_W hz hF (by omega) h1 h2
theorem in_w3 {m mm nn : Nat} (hm : m < z.mt) (h1 : mm ≤ z.b) (h2 : nn ≤ z.b) :
    ∀ i j, i < mm → j < nn → evalid env (Z.w3 z m) i j := in_W hz hF (by omega) h1 h2
theorem in_w0 {mm nn : Nat} (h1 : mm ≤ z.b) (h2 : nn ≤ z.b) :
    ∀ i j, i < mm → j < nn → evalid env Z.w0 i j := in_W hz hF (by omega) h1 h2
theorem in_w5 {k m p mm nn : Nat} (hm : m < z.mt - k - 1) (hp : p < w5num z k) (h1 : mm ≤ z.b) (h2 : nn ≤ z.b) :
    ∀ i j, i < mm → j < nn → evalid env (Z.w5 z (m + p * (z.mt - k - 1))) i j := by
  refine in_W hz hF ?_ h1 h2
  have h3 : (p + 1) * (z.mt - k - 1) ≤ z.wmt := by
    refine le_trans (Nat.mul_le_mul_right _ (show p + 1 ≤ z.wmt / (z.mt - k - 1) by unfold w5num at hp; omega)) (Nat.div_mul_le_self _ _)
  rw [Nat.succ_mul] at h3
  omega
theorem in_g {m n mm nn : Nat} (hm : m < z.mt) (hn : n < z.mt) (hmn : m ≤ n + 1) (hnm : n ≤ m + 1) (h1 : mm ≤ z.mv m) (h2 : nn ≤ z.mv n) :
    ∀ i j, i < mm → j < nn → evalid env (Z.g m n) i j := by
  intro i j hi hj
  rw [hz.mv hm] at h1
  rw [hz.mv hn] at h2
  have e1 : 1 + (z.b + z.b - 1) / z.b = 2 := by
    have := hz.b
    rw [show z.b + z.b - 1 = z.b * 1 + (z.b - 1) by omega, Nat.mul_add_div hz.b, Nat.div_eq_of_lt (by omega : z.b - 1 < z.b)]
  have e2 : 2 ≤ 1 + (z.b + z.b + z.b - 1) / z.b := by
    have : (z.b + z.b - 1) / z.b ≤ (z.b + z.b + z.b - 1) / z.b := Nat.div_le_div_right (by omega)
    omega
  exact hF.ft.validOn (bTile_idx hz.b (k := min m n) (by omega) (by rw [e1]; omega) (by omega) (by omega)) (by rw [hF.tm]; omega) (by rw [hF.tn]; omega)

theorem pre_inside (hk : k < z.mt) : ∀ t ∈ preT (α := α) dv z Z k, t.Inside (evalid env) := by
  have mv : ∀ m, m < z.mt → z.mv m ≤ z.b := fun m hm => AC.mvle hz hm
  have mvb : ∀ m, m + 1 < z.mt → z.mv m = z.b := fun m hm => hz.mvb hm
  have vk := mv k hk
  apply pre_all
  case hg1 =>
    intro m h0 hm
    have := mvb m (by omega)
    have := mvb (m - 1) (by omega)
    exact ker_inside (in_t hz hF (by omega) (by omega) (mv m (by omega)) (mv m (by omega)))
      (in_a hz hF hk (by omega) (le_refl _) (by dim)) (in_h hz hF (by omega) (mv m (by omega)) vk)
  case hg2 =>
    intro m h0 hm
    have := mvb m (by omega)
    have := mvb (m - 1 - 1) (by omega)
    exact ker_inside (in_t hz hF (by omega) (by omega) (mv m (by omega)) (le_refl _))
      (in_a hz hF hk (by omega) (le_refl _) (by dim)) (in_h hz hF (by omega) (mv m (by omega)) vk)
  case hg3 =>
    intro m h0 hm
    have := mvb m (by omega)
    exact ker_inside (in_t hz hF (by omega) (by omega) (mv (m + 1) (by omega)) (mv m (by omega)))
      (in_a hz hF hk (by omega) (le_refl _) (by have := mv (m + 1) (by omega); dim)) (in_h hz hF (by omega) (mv m (by omega)) vk)
  case hw1 =>
    intro m be q h1 h0 hm hq
    have := mvb m (by omega)
    have := mvb (m - 1) (by omega)
    exact ker_inside (in_a hz hF hk (by omega) (le_refl _) (by dim)) (in_h hz hF (by omega) (mv m (by omega)) vk)
      (in_w3 hz hF (by omega) vk vk)
  case hw2 =>
    intro p q h1 hp hq
    exact ker_inside (in_w3 hz hF (by omega) vk vk) (in_w3 hz hF (by omega) vk vk) (in_w3 hz hF (by omega) vk vk)
  case hc =>
    exact ker_inside (in_a hz hF hk (le_refl _) (le_refl _) (le_refl _)) (in_a hz hF hk (le_refl _) (le_refl _) (le_refl _)) (in_t hz hF hk (by omega) vk vk)
  case he => exact ker_inside (in_t hz hF hk (by omega) vk vk) (in_t hz hF hk (by omega) vk vk) (in_t hz hF hk (by omega) vk vk)
  case ha =>
    intro h1
    exact ker_inside (in_w3 hz hF (by omega) vk vk) (in_w3 hz hF (by omega) vk vk) (in_t hz hF hk (by omega) vk vk)
  case hd1 =>
    intro h1
    have := mvb (k - 1) (by omega)
    exact ker_inside (in_a hz hF hk (by omega) (le_refl _) (by dim)) (in_t hz hF hk (by omega) vk (le_refl _)) (in_w0 hz hF vk (le_refl _))
  case hd2 =>
    intro h1
    have := mvb (k - 1 - 1) (by omega)
    exact ker_inside (in_w0 hz hF vk (le_refl _)) (in_a hz hF hk (by omega) (le_refl _) (by dim)) (in_t hz hF hk (by omega) vk vk)
  case hs =>
    intro h1
    have := mvb (k - 1) (by omega)
    exact ker_inside (in_a hz hF hk (by omega) (le_refl _) (by dim)) (in_a hz hF hk (by omega) (le_refl _) (by dim)) (in_t hz hF hk (by omega) vk vk)
  case hh1 =>
    intro h1
    have := mvb (k - 1 - 1) (by omega)
    exact ker_inside (in_t hz hF hk (by omega) vk (le_refl _)) (in_a hz hF hk (by omega) (le_refl _) (by dim)) (in_h hz hF hk vk vk)
  case hh2 =>
    intro be h1
    have := mvb (k - 1) (by omega)
    exact ker_inside (in_t hz hF hk (by omega) vk vk) (in_a hz hF hk (by omega) (le_refl _) (by dim)) (in_h hz hF hk vk vk)

theorem w5M_inside (hk : k + 1 < z.mt) {n : Nat} (h0 : 0 < n) (hn : n ≤ k) : (w5MT (α := α) z Z k n).Inside (evalid env) := by
  refine seqT_inside fun t ht => ?_
  obtain ⟨m, hm, rfl⟩ := List.mem_map.mp ht
  rw [List.mem_range'_1] at hm
  have e1 := hz.mvb (show n + 1 < z.mt by omega)
  have e2 := hz.mvb (show n - 1 + 1 < z.mt by omega)
  have e3 := AC.mvle hz (show k < z.mt by omega)
  have e4 := AC.mvle hz (show m < z.mt by omega)
  exact ker_inside (in_a hz hF (by omega) (by omega) (le_refl _) (by dim)) (in_h hz hF (by omega) (by dim) e3)
    (in_w5 hz hF (by omega) (Nat.mod_lt _ (w5num_pos hk (show 0 < k by omega))) e4 e3)

theorem w5S_inside (hk : k + 1 < z.mt) {p : Nat × Nat} (hp : p ∈ tree (w5num z k)) : (w5ST (α := α) z Z k p).Inside (evalid env) := by
  refine seqT_inside fun t ht => ?_
  obtain ⟨m, hm, rfl⟩ := List.mem_map.mp ht
  rw [List.mem_range'_1] at hm
  have e3 := AC.mvle hz (show k < z.mt by omega)
  have e4 := AC.mvle hz (show m < z.mt by omega)
  have := tree_lt hp
  exact ker_inside (in_w5 hz hF (by omega) this.2 e4 e3) (in_w5 hz hF (by omega) this.2 e4 e3) (in_w5 hz hF (by omega) this.1 e4 e3)

theorem w5A_inside (h0 : 0 < k) (hk : k + 1 < z.mt) : (w5AT (α := α) z Z k).Inside (evalid env) := by
  refine seqT_inside fun t ht => ?_
  obtain ⟨m, hm, rfl⟩ := List.mem_map.mp ht
  rw [List.mem_range'_1] at hm
  have e3 := AC.mvle hz (show k < z.mt by omega)
  have e4 := AC.mvle hz (show m < z.mt by omega)
  have hw : ∀ i j, i < z.mv m → j < z.mv k → evalid env (Z.w5 z (m - k - 1)) i j := by
    have := in_w5 hz hF (show m - k - 1 < z.mt - k - 1 by omega) (w5num_pos hk h0) e4 e3
    rwa [Nat.zero_mul, Nat.add_zero] at this
  exact ker_inside hw hw (in_a hz hF (by omega) (by omega) (le_refl _) (le_refl _))

theorem col_inside (hk : k + 1 < z.mt) {n : Nat} (h0 : 0 < n) (hn : n ≤ k) : (colT (α := α) z Z k n).Inside (evalid env) := by
  refine seqT_inside fun t ht => ?_
  obtain ⟨m, hm, rfl⟩ := List.mem_map.mp ht
  rw [List.mem_range'_1] at hm
  have e1 := hz.mvb (show n + 1 < z.mt by omega)
  have e2 := hz.mvb (show n - 1 + 1 < z.mt by omega)
  have e3 := AC.mvle hz (show k < z.mt by omega)
  exact ker_inside (in_a hz hF (by omega) (by omega) (le_refl _) (by dim)) (in_h hz hF (by omega) (by dim) e3)
    (in_a hz hF (by omega) (by omega) (le_refl _) (le_refl _))

theorem in_P (hk : k + 1 < z.mt) {x : M × Nat × Nat} {i j : Nat}
    (h : Z.P.reg (fun i j => (k + 1) * z.b ≤ i ∧ i < (k + 1) * z.b + pcnt z k ∧ j = 0) x i j) : evalid env x i j := by
  have := pcnt_le hz hk
  refine reg_inside hF.fp ?_ h
  intro r c hR
  rw [hF.pm, hF.pn]
  omega

theorem in_A {R : Nat → Nat → Prop} (hR : ∀ r c, R r c → r < z.N ∧ c ≤ r) {x : M × Nat × Nat} {i j : Nat} (h : Z.A.reg R x i j) :
    evalid env x i j := by
  refine regOn_inside hF.fa ?_ h
  intro r c h
  have := hR r c h
  rw [hF.am, hF.an]
  exact ⟨this.1, by omega, Nat.div_le_div_right this.2⟩

theorem panelT_inside (hk : k + 1 < z.mt) : (panelT E mag dv big z Z k).Inside (evalid env) := by
  have e := hz.mvb hk
  rintro x i j (hw | hw | hw)
  · exact hw.elim
  · refine in_A hz hF ?_ hw
    intro r c hR
    rw [e, Nat.succ_mul] at hR
    omega
  · exact in_P hz hF hk hw

theorem rowT_inside (hk : k + 1 < z.mt) {n : Nat} (h0 : 0 < n) (hn : n ≤ k) : (rowT E z Z k n).Inside (evalid env) := by
  rintro x i j (hw | hw)
  · exact in_P hz hF hk hw
  · refine in_A (R := fun r c => (k + 1) * z.b ≤ r ∧ r < z.N ∧ (n - 1) * z.b ≤ c ∧ c < (n - 1) * z.b + z.b) hz hF ?_ hw
    intro r c hR
    have : (n - 1 + 1) * z.b ≤ (k + 1) * z.b := Nat.mul_le_mul_right _ (by omega)
    rw [Nat.succ_mul] at this
    omega

theorem symT_inside (hk : k + 1 < z.mt) : (symT E z Z k).Inside (evalid env) := by
  rintro x i j (hw | hw)
  · exact in_P hz hF hk hw
  · refine in_A (R := fun r c => (k + 1) * z.b ≤ c ∧ c ≤ r ∧ r < z.N) hz hF ?_ hw
    intro r c hR
    omega

theorem copyT_inside (hk : k < z.mt) : (copyTT (α := α) z Z k).Inside (evalid env) := by
  have mv : ∀ m, m < z.mt → z.mv m ≤ z.b := fun m hm => AC.mvle hz hm
  refine seqT_inside fun t ht => ?_
  simp only [List.mem_append, List.mem_singleton] at ht
  rcases ht with (rfl | ht) | ht
  · exact ker_inside (in_t hz hF hk (by omega) (mv k hk) (mv k hk)) (in_t hz hF hk (by omega) (mv k hk) (mv k hk))
      (in_g hz hF hk hk (by omega) (by omega) (le_refl _) (le_refl _))
  · split at ht
    · rename_i h1
      rw [List.mem_singleton] at ht; subst ht
      exact ker_inside (in_t hz hF h1 (by omega) (mv _ h1) (mv k hk)) (in_t hz hF h1 (by omega) (mv _ h1) (mv k hk))
        (in_g hz hF h1 hk (by omega) (by omega) (le_refl _) (le_refl _))
    · cases ht
  · split at ht
    · rename_i h1
      rw [List.mem_singleton] at ht; subst ht
      have h2 : k - 1 < z.mt := by omega
      exact ker_inside (in_t hz hF hk (by omega) (mv k hk) (mv _ h2)) (in_t hz hF hk (by omega) (mv k hk) (mv _ h2))
        (in_g hz hF h2 hk (by omega) (by omega) (le_refl _) (le_refl _))
    · cases ht

end

end

end Verif.Aasen

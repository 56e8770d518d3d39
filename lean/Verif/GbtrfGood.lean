/-
Locality, bounds and dependences of the band LU factorization `pzgbtrf`.
-/
import Verif.GbtrfProof
import Verif.GetrfBase

namespace Verif.Tile

open Verif.Layout Verif.LU Verif.Panel Finset

set_option linter.unusedSectionVars false

universe u v w

/-! ### Coverage from labels -/

section labels
variable {M : Type u} {α : Type v} {ι : Type w}

/-- Paths between labelled tasks. -/
def Reach (labs : List ι) (R : ι → ι → Prop) (f : ι → TTask M α) : ι → ι → Prop :=
  Relation.TransGen fun x y => x ∈ labs ∧ y ∈ labs ∧ R x y ∧ TDepOn (f x) (f y)

/-- A program whose tasks carry labels in increasing order is covered if the labels of
conflicting tasks are connected. -/
theorem tcovered_of_reach {labs : List ι} {R : ι → ι → Prop} (hR : labs.Pairwise R)
    (hasym : ∀ x y, R x y → ¬ R y x) {f : ι → TTask M α}
    (h : ∀ x ∈ labs, ∀ y ∈ labs, R x y → TConflict (f x) (f y) → Reach labs R f x y) :
    TCovered (labs.map f) := by
  have hpair : ∀ (i j : Nat) x y, i < j → labs[i]? = some x → labs[j]? = some y → R x y := by
    intro i j x y hij hi hj
    rw [List.getElem?_eq_some_iff] at hi hj
    obtain ⟨hi, rfl⟩ := hi
    obtain ⟨hj, rfl⟩ := hj
    exact List.pairwise_iff_getElem.mp hR i j hi hj hij
  have hlt : ∀ (i j : Nat) x y, R x y → labs[i]? = some x → labs[j]? = some y → i < j := by
    intro i j x y hxy hi hj
    rcases Nat.lt_trichotomy i j with h | h | h
    · exact h
    · subst h
      rw [hi] at hj
      cases hj
      exact absurd hxy (hasym _ _ hxy)
    · exact absurd (hpair j i y x h hj hi) (hasym _ _ hxy)
  have hstep : ∀ (i j : Nat) x y, labs[i]? = some x → labs[j]? = some y → R x y → TDepOn (f x) (f y) →
      TEdge (labs.map f) i j := by
    intro i j x y hi hj hxy hd
    exact ⟨hlt i j x y hxy hi hj, f x, f y, by rw [List.getElem?_map, hi]; rfl, by rw [List.getElem?_map, hj]; rfl, hd⟩
  have hpath : ∀ x y, Reach labs R f x y → ∀ (i j : Nat), labs[i]? = some x → labs[j]? = some y →
      Relation.TransGen (TEdge (labs.map f)) i j := by
    intro x y hr
    induction hr with
    | single hd => exact fun i j hi hj => Relation.TransGen.single (hstep i j _ _ hi hj hd.2.2.1 hd.2.2.2)
    | tail _ hd ih =>
      intro i j hi hj
      obtain ⟨m, hm⟩ := List.mem_iff_getElem?.mp hd.1
      exact Relation.TransGen.tail (ih i m hi hm) (hstep m j _ _ hm hj hd.2.2.1 hd.2.2.2)
  intro i j t t' hij hi hj hc
  rw [List.getElem?_map, Option.map_eq_some_iff] at hi hj
  obtain ⟨x, hx, rfl⟩ := hi
  obtain ⟨y, hy, rfl⟩ := hj
  exact hpath x y (h x (List.mem_of_getElem? hx) y (List.mem_of_getElem? hy) (hpair i j x y hij hx hy) hc) i j hx hy

end labels

section
variable {M : Type u} [DecidableEq M] {α : Type v} [Field α] [StarRing α] [DecidableEq α] {γ : Type w}
  [LinearOrder γ] {b N kl ku : Nat} {E : IntCode α} {A P : TMat M} {mag : α → γ} {dv : α → α → α} {big : α → Bool}
  {ib mpt : Nat} {env : M → MatEnv}

/-! ### Locality -/

/-- The result of the panel depends on the panel only. -/
theorem gbOut_congr (h : GbOK b N kl ku A P ib mpt) {k : Nat} (hk : k < A.d.mt)
    {s s' : Store (M × Nat × Nat) α}
    (hs : ∀ r c, k * b ≤ r → r < k * b + gbMak A k → k * b ≤ c → c < k * b + A.d.nview k → A.el s r c = A.el s' r c) :
    ∀ p i c, pvalid (gbCfg ib mpt A k) p i c →
      gbOut mag dv big ib mpt A k s p i c = gbOut mag dv big ib mpt A k s' p i c := by
  intro p i c hv
  refine phases_congr (h.cfg hk) mag dv big ?_ hv
  intro p i c hv
  unfold toPS
  cases p with
  | a l =>
    rcases hv with ⟨l', e, hi, hr, hc⟩ | ⟨e, _⟩ | ⟨e | e, _⟩ | ⟨e, _⟩
    · cases e
      simp only [gbCfg, h.a.mb] at hr hc hi ⊢
      rw [h.a.nb]
      rw [hs _ _ (by omega) (by omega) (by omega) (by omega)]
    all_goals cases e
  | _ => rfl

theorem gbOut_num (h : GbOK b N kl ku A P ib mpt) {k : Nat} (hk : k < A.d.mt) {s s' : Store (M × Nat × Nat) α}
    (hs : ∀ p i c, pvalid (gbCfg ib mpt A k) p i c →
      gbOut mag dv big ib mpt A k s p i c = gbOut mag dv big ib mpt A k s' p i c) {r c : Nat}
    (hr : r < (gbCfg ib mpt A k).M) (hc : c < (gbCfg ib mpt A k).N) :
    num (gbCfg ib mpt A k) (gbOut mag dv big ib mpt A k s) r c =
      num (gbCfg ib mpt A k) (gbOut mag dv big ib mpt A k s') r c := by
  unfold num
  have hb := (h.cfg hk).b
  rw [hs]
  left
  refine ⟨_, rfl, Nat.mod_lt _ hb, ?_, hc⟩
  rw [divmod]; exact hr

theorem gbPanelT_local (h : GbOK b N kl ku A P ib mpt) {k : Nat} (hk : k < A.d.mt)
    {d : List ((M × Nat × Nat) × Bool)} : (gbPanelT d E mag dv big ib mpt A P k).Local := by
  intro s s' hs x i j hw
  have hb := h.a.pos
  have hc := gbOut_congr (mag := mag) (dv := dv) (big := big) h hk (s := s) (s' := s') (fun r c h1 h2 h3 h4 =>
    TMat.el_eq_of_reg (A := A)
      (R := fun r c => k * A.d.mb ≤ r ∧ r < k * A.d.mb + gbMak A k ∧ k * A.d.nb ≤ c ∧ c < k * A.d.nb + A.d.nview k)
      (by rw [h.a.mb]; exact hb) (by rw [h.a.nb]; exact hb)
      (fun x i j hx => hs x i j (Or.inr (Or.inl hx))) (by rw [h.a.mb, h.a.nb]; exact ⟨h1, h2, h3, h4⟩))
  simp only [gbPanelT]
  rcases hw with hw | hw
  · rw [if_pos hw.1, if_pos hw.1]
    have h6 := hw.2.2.2.2.2
    refine gbOut_num h hk hc ?_ ?_ <;> simp only [gbCfg] <;> omega
  · have hne : x.1 ≠ A.id := by rw [hw.1]; exact h.ne.symm
    rw [if_neg hne, if_neg hne]
    unfold pivv
    rw [hc]
    right; left
    refine ⟨rfl, ?_, rfl⟩
    have h6 := hw.2.2.2.2.2
    unfold Cfg.mn
    simp only [gbCfg]
    omega

theorem gbCode_congr (h : GbOK b N kl ku A P ib mpt) {k : Nat} (hk : k < A.d.mt)
    {d : List ((M × Nat × Nat) × Bool)} {s s' : Store (M × Nat × Nat) α}
    (hs : ∀ x i j, (gbPanelT d E mag dv big ib mpt A P k).rd x i j ∨ (gbPanelT d E mag dv big ib mpt A P k).wr x i j →
      s x i j = s' x i j) : gbCode mag dv big ib mpt A k s = gbCode mag dv big ib mpt A k s' := by
  have hb := h.a.pos
  have hc := gbOut_congr (mag := mag) (dv := dv) (big := big) h hk (s := s) (s' := s') (fun r c h1 h2 h3 h4 =>
    TMat.el_eq_of_reg (A := A)
      (R := fun r c => k * A.d.mb ≤ r ∧ r < k * A.d.mb + gbMak A k ∧ k * A.d.nb ≤ c ∧ c < k * A.d.nb + A.d.nview k)
      (by rw [h.a.mb]; exact hb) (by rw [h.a.nb]; exact hb)
      (fun x i j hx => hs x i j (Or.inr (Or.inl hx))) (by rw [h.a.mb, h.a.nb]; exact ⟨h1, h2, h3, h4⟩))
  unfold gbCode infov
  rw [hc _ _ _ (Or.inr (Or.inr (Or.inr ⟨rfl, rfl, rfl⟩)))]

theorem gbAdjT_local (h : GbOK b N kl ku A P ib mpt) {k : Nat} : (gbAdjT E A P k).Local := by
  apply gop_local
  intro s s' hs r c hR
  rw [TMat.el_eq_of_reg (A := P)
    (R := fun i j => 0 < k ∧ k * A.d.mb ≤ i ∧ i < k * A.d.mb + min (gbMak A k) (A.d.nview k) ∧ j = 0)
    (by rw [h.p.mb]; exact h.p.pos) (by rw [h.p.nb]; exact h.p.pos)
    (fun x i j hx => hs x i j (Or.inr hx)) ⟨hR.1, hR.2.1, hR.2.2.1, rfl⟩]

theorem pivRel_mem {lo hi i : Nat} {s : Store (M × Nat × Nat) α} (h : lo ≤ i ∧ i < hi) :
    lo ≤ pivRel E P lo hi s i ∧ pivRel E P lo hi s i < hi := by
  unfold pivRel; split
  · constructor <;> omega
  · exact h

theorem gbSwp_local (h : GbOK b N kl ku A P ib mpt) {k n : Nat} (hk : k < A.d.mt) : (gbSwp E A P k n).Local := by
  have hmak := h.mak hk
  apply gop_local
  intro s s' hs r c hR
  rw [interch_permL, interch_permL]
  have hp : ∀ i ∈ List.range' (k * A.d.mb) (min (k * A.d.mb + A.d.mb) A.d.m - k * A.d.mb),
      pivRel E P (k * A.d.mb) (k * A.d.mb + gbMak A k) s i = pivRel E P (k * A.d.mb) (k * A.d.mb + gbMak A k) s' i := by
    intro i hi
    rw [List.mem_range'_1] at hi
    unfold pivRel
    rw [TMat.el_eq_of_reg (A := P) (R := fun i j => k * A.d.mb ≤ i ∧ i < min (k * A.d.mb + A.d.mb) A.d.m ∧ j = 0)
      (by rw [h.p.mb]; exact h.p.pos)
      (by rw [h.p.nb]; exact h.p.pos) (fun x i j h => hs x i j (Or.inl h)) ⟨by omega, by omega, rfl⟩]
  rw [permL_congr hp]
  have hb : ∀ i ∈ List.range' (k * A.d.mb) (min (k * A.d.mb + A.d.mb) A.d.m - k * A.d.mb),
      k * A.d.mb ≤ i ∧ i < k * A.d.mb + gbMak A k := by
    intro i hi
    rw [List.mem_range'_1] at hi
    rw [h.m, h.a.mb] at hi
    rw [h.a.mb]
    omega
  have hm := permL_mem (l := List.range' (k * A.d.mb) (min (k * A.d.mb + A.d.mb) A.d.m - k * A.d.mb))
    (p := pivRel E P (k * A.d.mb) (k * A.d.mb + gbMak A k) s') (lo := k * A.d.mb) (m := k * A.d.mb + gbMak A k)
    hb (fun i hi => pivRel_mem (hb i hi)) (r := r) ⟨hR.1, hR.2.1⟩
  exact TMat.el_eq_of_reg (by rw [h.a.mb]; exact h.a.pos)
      (by rw [h.a.nb]; exact h.a.pos) (fun x i j h => hs x i j (Or.inr h)) ⟨hm.1, hm.2, hR.2.2⟩

theorem gbUpdBody_local (h : GbOK b N kl ku A P ib mpt) {k n : Nat} (hk : k < A.d.mt) :
    ∀ t ∈ gbUpdBody E dv A P k n, t.Local := by
  intro t ht
  unfold gbUpdBody at ht
  simp only [List.cons_append, List.nil_append, List.mem_cons, List.mem_flatMap, List.not_mem_nil, or_false] at ht
  rcases ht with rfl | rfl | ⟨m, _, rfl⟩
  · exact gbSwp_local h hk
  · exact coreTrsm_local
  · exact coreGemm_local

/-! ### Bounds -/

/-- Memory of a band factorization: only the tiles of the band are stored. -/
structure GbFit (env : M → MatEnv) (b N kl ku : Nat) (A P : TMat M) (ib mpt : Nat) : Prop where
  ok : GbOK b N kl ku A P ib mpt
  fa : FitsOn env b (bTile none b kl ku) A
  fp : Fits env b P

theorem bTile_idx (hb : 0 < b) {k m n : Nat} (h1 : k ≤ m) (h2 : m < k + (1 + (kl + b - 1) / b)) (h3 : k ≤ n)
    (h4 : n < k + (1 + (ku + kl + b - 1) / b)) : bTile none b kl ku m n := by
  have := bTile_upd (kl := kl) (ku := ku) hb (k := k) (r := m * b) (c := n * b) (Nat.mul_le_mul_right _ h1)
    (Nat.mul_lt_mul_of_pos_right h2 hb) (Nat.mul_le_mul_right _ h3) (Nat.mul_lt_mul_of_pos_right h4 hb)
  rwa [Nat.mul_div_cancel _ hb, Nat.mul_div_cancel _ hb] at this

theorem regOn_inside {Q : Nat → Nat → Prop} (hA : FitsOn env b Q A) {R : Nat → Nat → Prop}
    (hR : ∀ r c, R r c → r < A.d.m ∧ c < A.d.n ∧ Q (r / b) (c / b))
    {x : M × Nat × Nat} {i j : Nat} (h : A.reg R x i j) : evalid env x i j := by
  obtain ⟨r, c, hr, rfl, rfl, rfl, _, _⟩ := TMat.reg_iff.mp h
  rw [hA.al.mb, hA.al.nb]
  have := hR r c hr
  exact hA.validOn this.2.2 (mod_lt_tdim hA.al.pos this.1) (mod_lt_tdim hA.al.pos this.2.1)

theorem gbPanelT_inside (h : GbFit env b N kl ku A P ib mpt) {k : Nat} (hk : k < A.d.mt)
    {d : List ((M × Nat × Nat) × Bool)} : (gbPanelT d E mag dv big ib mpt A P k).Inside (evalid env) := by
  have hkm := h.ok.lt.mp hk
  have hnv := h.ok.nv hk
  have hmak := h.ok.mak hk
  have hklt := h.ok.kltb k
  have hkut := h.ok.kutb k
  rintro x i j (hw | hw | hw)
  · exact hw.elim
  · refine regOn_inside h.fa ?_ hw
    intro r c hR
    rw [h.ok.a.mb, h.ok.a.nb] at hR
    refine ⟨by rw [h.ok.m]; omega, by rw [h.ok.n]; omega, ?_⟩
    refine bTile_upd h.ok.a.pos hR.1 ?_ hR.2.2.1 ?_
    · rw [← h.ok.klt]; omega
    · rw [← h.ok.kut]; omega
  · refine reg_inside h.fp ?_ hw
    intro r c hR
    rw [h.ok.a.mb] at hR
    rw [h.ok.Pm, h.ok.Pn]
    omega

theorem gbAdjT_inside (h : GbFit env b N kl ku A P ib mpt) {k : Nat} (hk : k < A.d.mt) :
    (gbAdjT E A P k).Inside (evalid env) := by
  have hkm := h.ok.lt.mp hk
  have hnv := h.ok.nv hk
  have hmak := h.ok.mak hk
  rintro x i j (hw | hw)
  · exact hw.elim
  · refine reg_inside (R := fun i j => 0 < k ∧ k * A.d.mb ≤ i ∧ i < k * A.d.mb + min (gbMak A k) (A.d.nview k) ∧ j = 0)
      h.fp ?_ hw
    intro r c hR
    rw [h.ok.a.mb] at hR
    rw [h.ok.Pm, h.ok.Pn]
    omega

theorem gbUpdBody_inside (h : GbFit env b N kl ku A P ib mpt) {k n : Nat} (hkn : k < n) (hn : n < A.d.mt)
    (hnk : n < k + A.d.kut) : ∀ t ∈ gbUpdBody E dv A P k n, t.Inside (evalid env) := by
  intro t ht
  have hb := h.ok.a.pos
  have hk : k < A.d.mt := by omega
  have hkm := h.ok.lt.mp hk
  have hnm := h.ok.lt.mp hn
  have hnv := h.ok.nv hn
  have hnvk := h.ok.nv hk
  have hmv := h.ok.mv hk
  have hmak := h.ok.mak hk
  have hklt := h.ok.kltb k
  have hkut := h.ok.kutb k
  have hnt := h.ok.nt
  have h4 : (k + 1) * b ≤ n * b := Nat.mul_le_mul_right _ hkn
  have h5 : (k + 1) * b = k * b + b := by ring
  have hkl0 := h.ok.klt_pos
  have hku0 := h.ok.kut_pos
  have htm : tdim A.d.m b k = A.d.mview k := (h.ok.a.mview hk).symm
  have htk : tdim A.d.n b k = A.d.nview k := (h.ok.a.nview (by omega)).symm
  have htn : tdim A.d.n b n = A.d.nview n := (h.ok.a.nview (by omega)).symm
  have hT : ∀ m c, k ≤ m → m < k + A.d.klt → k ≤ c → c < k + A.d.kut → bTile none b kl ku m c := by
    intro m c a1 a2 a3 a4
    exact bTile_idx hb a1 (by rw [← h.ok.klt]; exact a2) a3 (by rw [← h.ok.kut]; exact a4)
  have hbox : ∀ m c r q, bTile none b kl ku m c → r ≤ tdim A.d.m b m → q ≤ tdim A.d.n b c →
      ∀ i j, box r q i j → evalid env (A.at' m c) i j := fun m c r q hT hr hq i j hij =>
    h.fa.validOn hT (lt_of_lt_of_le hij.1 hr) (lt_of_lt_of_le hij.2 hq)
  unfold gbUpdBody at ht
  simp only [List.cons_append, List.nil_append, List.mem_cons, List.mem_flatMap, List.not_mem_nil, or_false] at ht
  rcases ht with rfl | rfl | ⟨m, hm, rfl⟩
  · rintro x i j (hw | hw)
    · refine reg_inside (R := fun i j => k * A.d.mb ≤ i ∧ i < min (k * A.d.mb + A.d.mb) A.d.m ∧ j = 0) h.fp ?_ hw
      intro r c hR
      rw [h.ok.Pm, h.ok.Pn]
      rw [h.ok.m] at hR
      omega
    · refine regOn_inside (R := fun r c => k * A.d.mb ≤ r ∧ r < k * A.d.mb + gbMak A k ∧ n * A.d.nb ≤ c ∧
        c < n * A.d.nb + A.d.nview n) h.fa ?_ hw
      intro r c hR
      rw [h.ok.a.mb, h.ok.a.nb] at hR
      refine ⟨by rw [h.ok.m]; omega, by rw [h.ok.n]; omega, ?_⟩
      refine bTile_upd hb hR.1 (by rw [← h.ok.klt]; omega) (by omega) ?_
      rw [← h.ok.kut]
      have : (n + 1) * b ≤ (k + A.d.kut) * b := Nat.mul_le_mul_right _ hnk
      rw [Nat.add_mul n 1 b] at this
      omega
  · refine op1_inside (fun i j hij => ?_) (hbox k n _ _ (hT k n ?_ ?_ ?_ ?_) ?_ ?_)
    · have hij' : i < A.d.mview k ∧ j < A.d.mview k := ⟨hij.1, hij.2.1⟩
      refine h.fa.validOn (hT k k (le_refl _) (by omega) (le_refl _) (by omega)) ?_ ?_ <;> omega
    all_goals omega
  · rw [mem_span] at hm
    have hmm := h.ok.lt.mp (show m < A.d.mt by omega)
    have htm' : tdim A.d.m b m = A.d.mview m := (h.ok.a.mview (by omega)).symm
    refine op2_inside (hbox m k _ _ (hT m k ?_ ?_ ?_ ?_) ?_ ?_) (hbox k n _ _ (hT k n ?_ ?_ ?_ ?_) ?_ ?_)
      (hbox m n _ _ (hT m n ?_ ?_ ?_ ?_) ?_ ?_)
    all_goals first
      | omega
      | (rw [htk, h.ok.a.nb]; omega)
      | (rw [htm, h.ok.a.nb]; omega)

/-! ### Dependences -/

/-- Labels of the tasks: `(k,k)` for the panel, `(k,n)` for the update of column `n`, `(k,nt)` for
the adjustment of the pivots. -/
def gbLabs (A : TMat M) : List (Nat × Nat) :=
  (List.range (min A.d.mt A.d.nt)).flatMap fun k =>
    ([k] ++ span (k + 1) (min A.d.nt (k + A.d.kut)) ++ [A.d.nt]).map fun j => (k, j)

/-- The task with a label. -/
noncomputable def gbLab (rg : Bool) (E : IntCode α) (mag : α → γ) (dv : α → α → α) (big : α → Bool)
    (ib mpt : Nat) (A P : TMat M) (l : Nat × Nat) : TTask (M × Nat × Nat) α :=
  if l.2 = l.1 then gbPanelT (gbPanelDeps rg A P l.1) E mag dv big ib mpt A P l.1
  else if l.2 < A.d.nt then gbUpdT rg E dv A P l.1 l.2 else gbAdjT E A P l.1

/-- Order of the labels. -/
def gbLt (x y : Nat × Nat) : Prop := x.1 < y.1 ∨ x.1 = y.1 ∧ x.2 < y.2

theorem pzgbtrf_labs (rg : Bool) :
    tasks (pzgbtrf rg E mag dv big ib mpt A P) = (gbLabs A).map (gbLab rg E mag dv big ib mpt A P) := by
  unfold pzgbtrf gbLabs
  rw [tasks_flatMap, List.map_flatMap]
  refine List.flatMap_congr fun k hk => ?_
  rw [List.mem_range] at hk
  unfold gbStep
  rw [tasks_append, tasks_okT, List.map_map]
  simp only [List.map_append, List.map_cons, List.map_nil, List.append_assoc]
  congr 1
  · simp [gbLab, tasks]
  · congr 1
    · refine List.map_congr_left fun n hn => ?_
      rw [mem_span] at hn
      simp only [Function.comp, gbLab]
      rw [if_neg (by omega), if_pos (by omega)]
    · simp only [Function.comp, gbLab]
      rw [if_neg (by omega), if_neg (by omega)]

theorem mem_gbLabs {l : Nat × Nat} : l ∈ gbLabs A ↔ l.1 < min A.d.mt A.d.nt ∧
    (l.2 = l.1 ∨ (l.1 < l.2 ∧ l.2 < A.d.nt ∧ l.2 < l.1 + A.d.kut) ∨ l.2 = A.d.nt) := by
  obtain ⟨k, j⟩ := l
  simp only [gbLabs, List.mem_flatMap, List.mem_range, List.mem_map, List.mem_append, List.mem_singleton, mem_span,
    Prod.mk.injEq]
  constructor
  · rintro ⟨k', hk, j', hj, rfl, rfl⟩
    refine ⟨hk, ?_⟩
    omega
  · rintro ⟨hk, hj⟩
    exact ⟨k, hk, j, by omega, rfl, rfl⟩

theorem gbLabs_sorted : (gbLabs A).Pairwise gbLt := by
  unfold gbLabs
  rw [List.pairwise_flatMap]
  constructor
  · intro k hk
    rw [List.mem_range] at hk
    rw [List.pairwise_map, List.pairwise_append, List.pairwise_append]
    refine ⟨⟨List.pairwise_singleton _ _, ?_, ?_⟩, List.pairwise_singleton _ _, ?_⟩
    · refine List.Pairwise.imp (R := fun a b => a < b) (fun h => Or.inr ⟨rfl, h⟩) ?_
      unfold span
      exact List.pairwise_lt_range'
    · intro x hx y hy
      rw [List.mem_singleton] at hx
      rw [mem_span] at hy
      exact Or.inr ⟨rfl, by simp only; omega⟩
    · intro x hx y hy
      rw [List.mem_append, List.mem_singleton, mem_span] at hx
      rw [List.mem_singleton] at hy
      exact Or.inr ⟨rfl, by simp only; omega⟩
  · refine List.Pairwise.imp (R := fun a b => a < b) ?_ List.pairwise_lt_range
    intro a b hab x hx y hy
    obtain ⟨_, _, rfl⟩ := List.mem_map.mp hx
    obtain ⟨_, _, rfl⟩ := List.mem_map.mp hy
    exact Or.inl hab

/-- Tiles that the task with a label touches. -/
theorem gbLab_foot (h : GbOK b N kl ku A P ib mpt) {rg : Bool} {l : Nat × Nat} (hl : l ∈ gbLabs A)
    {x : M × Nat × Nat} {i j : Nat}
    (hx : (gbLab rg E mag dv big ib mpt A P l).rd x i j ∨ (gbLab rg E mag dv big ib mpt A P l).wr x i j) :
    x = P.at' l.1 0 ∨ (∃ m, x = A.at' m l.1 ∧ l.2 < A.d.nt ∧
        (l.1 < l.2 → ¬ (gbLab rg E mag dv big ib mpt A P l).wr x i j)) ∨
      (∃ m, x = A.at' m l.2 ∧ l.1 < l.2 ∧ l.2 < A.d.nt) := by
  obtain ⟨k, n⟩ := l
  obtain ⟨hk, hl⟩ := mem_gbLabs.mp hl
  simp only at hk hl
  have hb := h.a.pos
  have hnt := h.nt
  have hk' : k < A.d.mt := by omega
  have hmak := h.mak hk'
  have hkv := h.nv hk'
  unfold gbLab at hx ⊢
  simp only at hx ⊢
  by_cases e1 : n = k
  · rw [if_pos e1] at hx
    rcases hx with hx | hx | hx
    · exact hx.elim
    · obtain ⟨r, c, hR, rfl⟩ := reg_tile h.a hx
      rw [h.a.nb] at hR
      refine Or.inr (Or.inl ⟨r / b, by rw [div_tile hR.2.2.1 (by omega)], by omega, fun hh => by omega⟩)
    · obtain ⟨r, c, hR, rfl⟩ := reg_tile h.p hx
      rw [h.a.mb] at hR
      rw [div_tile (k := k) (by omega) (by omega), hR.2.2, Nat.zero_div]
      exact Or.inl rfl
  · rw [if_neg e1] at hx ⊢
    by_cases e2 : n < A.d.nt
    · rw [if_pos e2] at hx ⊢
      have hkn : k < n := by omega
      have hnv := h.nv (show n < A.d.mt by omega)
      -- written tiles
      have hwr : ∀ x i j, (gbUpdT rg E dv A P k n).wr x i j → ∃ m, x = A.at' m n := by
        rintro x i j ⟨t, ht, hw⟩
        unfold gbUpdBody at ht
        simp only [List.cons_append, List.nil_append, List.mem_cons, List.mem_flatMap, List.not_mem_nil, or_false] at ht
        rcases ht with rfl | rfl | ⟨m, hm, rfl⟩
        · obtain ⟨r, c, hR, rfl⟩ := reg_tile (R := fun r c => k * A.d.mb ≤ r ∧ r < k * A.d.mb + gbMak A k ∧
            n * A.d.nb ≤ c ∧ c < n * A.d.nb + A.d.nview n) h.a hw
          rw [h.a.nb] at hR
          exact ⟨r / b, by rw [div_tile hR.2.2.1 (by omega)]⟩
        · obtain ⟨rfl, _⟩ := hw; exact ⟨_, rfl⟩
        · obtain ⟨rfl, _⟩ := hw; exact ⟨_, rfl⟩
      rcases hx with hx | hx
      · obtain ⟨t, ht, hr⟩ := hx
        unfold gbUpdBody at ht
        simp only [List.cons_append, List.nil_append, List.mem_cons, List.mem_flatMap, List.not_mem_nil, or_false] at ht
        have hnw : ∀ m, k < n → ¬ (gbUpdT rg E dv A P k n).wr (A.at' m k) i j := by
          intro m _ hw
          obtain ⟨m', e⟩ := hwr _ _ _ hw
          have := (TMat.at'_inj.mp e).2
          omega
        rcases ht with rfl | rfl | ⟨m, hm, rfl⟩
        · obtain ⟨r, c, hR, rfl⟩ := reg_tile (R := fun i j => k * A.d.mb ≤ i ∧ i < min (k * A.d.mb + A.d.mb) A.d.m ∧ j = 0) h.p hr
          rw [h.a.mb] at hR
          rw [div_tile (k := k) (by omega) (by omega), hR.2.2, Nat.zero_div]
          exact Or.inl rfl
        · obtain ⟨rfl, _⟩ := hr
          exact Or.inr (Or.inl ⟨_, rfl, e2, hnw _⟩)
        · rcases hr with ⟨rfl, _⟩ | ⟨rfl, _⟩
          · exact Or.inr (Or.inl ⟨_, rfl, e2, hnw _⟩)
          · exact Or.inr (Or.inr ⟨_, rfl, hkn, e2⟩)
      · obtain ⟨m, rfl⟩ := hwr _ _ _ hx
        exact Or.inr (Or.inr ⟨m, rfl, hkn, e2⟩)
    · rw [if_neg e2] at hx
      rcases hx with hx | hx
      · exact hx.elim
      · obtain ⟨r, c, hR, rfl⟩ := reg_tile (R := fun i j => 0 < k ∧ k * A.d.mb ≤ i ∧
          i < k * A.d.mb + min (gbMak A k) (A.d.nview k) ∧ j = 0) h.p hx
        rw [h.a.mb] at hR
        rw [div_tile (k := k) (by omega) (by omega), hR.2.2.2, Nat.zero_div]
        exact Or.inl rfl

/-- Tasks of one step are ordered through the pivots. -/
theorem gbLab_step {rg : Bool} {k j j' : Nat} (hj : j < j') (hj' : j' = A.d.nt ∨ j' < A.d.nt) :
    TDepOn (gbLab rg E mag dv big ib mpt A P (k, j)) (gbLab rg E mag dv big ib mpt A P (k, j')) := by
  refine Or.inr ⟨(P.at' k 0, true), ?_, (P.at' k 0, decide (j' = k ∨ j' < A.d.nt)), ?_, rfl, Or.inl rfl⟩
  · unfold gbLab
    simp only
    by_cases e1 : j = k
    · rw [if_pos e1]
      show _ ∈ gbPanelDeps rg A P k
      simp [gbPanelDeps]
    · rw [if_neg e1, if_pos (by omega)]
      show _ ∈ gbUpdDeps rg A P k j
      simp [gbUpdDeps]
  · unfold gbLab
    simp only
    by_cases e1 : j' = k
    · rw [if_pos e1]
      show _ ∈ gbPanelDeps rg A P k
      simp [gbPanelDeps, e1]
    · rw [if_neg e1]
      by_cases e2 : j' < A.d.nt
      · rw [if_pos e2]
        show _ ∈ gbUpdDeps rg A P k j'
        simp [gbUpdDeps, e2]
      · rw [if_neg e2]
        simp [gbAdjT, gop, e1, e2]

theorem gbLab_chain (h : GbOK b N kl ku A P ib mpt) {rg : Bool} (hon : ∀ k, 0 < k → k < A.d.mt → gbSec rg A k = true) {k n : Nat}
    (hkn : k < n) (hn : n < A.d.nt) (hnk : n < k + A.d.kut) (d : Nat) (hd : 0 < d) (hdn : k + d ≤ n) :
    Reach (gbLabs A) gbLt (gbLab rg E mag dv big ib mpt A P) (k, n) (k + d, n) := by
  have hnt := h.nt
  have hmem : ∀ e, k + e ≤ n → (k + e, n) ∈ gbLabs A := by
    intro e he
    rw [mem_gbLabs]
    simp only
    omega
  have hedge : ∀ e, k + e + 1 ≤ n →
      TDepOn (gbLab rg E mag dv big ib mpt A P (k + e, n)) (gbLab rg E mag dv big ib mpt A P (k + e + 1, n)) := by
    intro e he
    have hsec := hon (k + e + 1) (by omega) (by omega)
    refine Or.inr ⟨(A.at' (k + e + 1) n, true), ?_, (A.at' (k + e + 1) n, true), ?_, rfl, Or.inl rfl⟩
    · unfold gbLab
      simp only
      rw [if_neg (by omega), if_pos hn]
      show _ ∈ gbUpdDeps rg A P (k + e) n
      simp [gbUpdDeps, gsec, hsec]
    · unfold gbLab
      simp only
      by_cases e1 : n = k + e + 1
      · rw [if_pos e1]
        show _ ∈ gbPanelDeps rg A P (k + e + 1)
        rw [e1]
        simp [gbPanelDeps, gsec, hsec]
      · rw [if_neg e1, if_pos hn]
        show _ ∈ gbUpdDeps rg A P (k + e + 1) n
        simp [gbUpdDeps]
  induction d with
  | zero => omega
  | succ d ih =>
    have hs : (k + d, n) ∈ gbLabs A ∧ (k + d + 1, n) ∈ gbLabs A ∧ gbLt (k + d, n) (k + d + 1, n) ∧
        TDepOn (gbLab rg E mag dv big ib mpt A P (k + d, n)) (gbLab rg E mag dv big ib mpt A P (k + d + 1, n)) :=
      ⟨hmem d (by omega), hmem (d + 1) hdn, Or.inl (by simp only; omega), hedge d hdn⟩
    by_cases h0 : d = 0
    · subst h0
      exact Relation.TransGen.single hs
    · exact Relation.TransGen.tail (ih (by omega) (by omega)) hs

/-- The dependences of the factorization order all conflicts, provided no array section in a
`depend` clause is empty. -/
theorem pzgbtrf_cov (h : GbOK b N kl ku A P ib mpt) {rg : Bool}
    (hon : ∀ k, 0 < k → k < A.d.mt → gbSec rg A k = true) : TCovered (tasks (pzgbtrf rg E mag dv big ib mpt A P)) := by
  rw [pzgbtrf_labs]
  refine tcovered_of_reach gbLabs_sorted ?_ ?_
  · rintro ⟨a, b⟩ ⟨c, d⟩ h1 h2
    simp only [gbLt] at h1 h2
    omega
  have hnt := h.nt
  rintro ⟨k, j⟩ hx ⟨k', j'⟩ hy hlt hc
  obtain ⟨hk, hj⟩ := mem_gbLabs.mp hx
  obtain ⟨hk', hj'⟩ := mem_gbLabs.mp hy
  simp only at hk hj hk' hj'
  simp only [gbLt] at hlt
  rcases hlt with hlt | ⟨rfl, hlt⟩
  swap
  · exact Relation.TransGen.single ⟨hx, hy, Or.inr ⟨rfl, hlt⟩, gbLab_step hlt (by omega)⟩
  obtain ⟨a, p, q, hc⟩ := hc
  have f1 := gbLab_foot (rg := rg) (E := E) (mag := mag) (dv := dv) (big := big) h hx (x := a) (i := p) (j := q) (by tauto)
  have f2 := gbLab_foot (rg := rg) (E := E) (mag := mag) (dv := dv) (big := big) h hy (x := a) (i := p) (j := q) (by tauto)
  simp only at f1 f2
  have hne : ∀ m c m' c', P.at' m c ≠ A.at' m' c' := fun m c m' c' e => h.ne (congrArg Prod.fst e).symm
  have main : k < j → j < A.d.nt → j < k + A.d.kut → (k' ≤ j) → (j' = j ∨ k' = j) →
      Reach (gbLabs A) gbLt (gbLab rg E mag dv big ib mpt A P) (k, j) (k', j') := by
    intro a1 a2 a3 a4 a5
    have r1 := gbLab_chain (E := E) (mag := mag) (dv := dv) (big := big) h hon a1 a2 a3 (k' - k) (by omega) (by omega)
    rw [show k + (k' - k) = k' by omega] at r1
    rcases a5 with rfl | rfl
    · exact r1
    · by_cases e : j' = k'
      · rw [e]; exact r1
      · refine Relation.TransGen.tail r1 ⟨?_, hy, Or.inr ⟨rfl, by simp only; omega⟩, gbLab_step (by omega) (by omega)⟩
        exact mem_gbLabs.mpr ⟨hk', Or.inl rfl⟩
  rcases f1 with rfl | ⟨m, rfl, g1, g2⟩ | ⟨m, rfl, g1, g2⟩
  · rcases f2 with e | ⟨m, e, _⟩ | ⟨m, e, _⟩
    · have := (TMat.at'_inj.mp e).1; omega
    · exact absurd e (hne _ _ _ _)
    · exact absurd e (hne _ _ _ _)
  · rcases f2 with e | ⟨m', e, _⟩ | ⟨m', e, _⟩
    · exact absurd e.symm (hne _ _ _ _)
    · have := (TMat.at'_inj.mp e).2; omega
    · have := (TMat.at'_inj.mp e).2; omega
  · rcases f2 with e | ⟨m', e, g3, _⟩ | ⟨m', e, g3, g4⟩
    · exact absurd e.symm (hne _ _ _ _)
    · have := (TMat.at'_inj.mp e).2
      exact main g1 g2 (by omega) (by omega) (Or.inr this.symm)
    · have := (TMat.at'_inj.mp e).2
      exact main g1 g2 (by omega) (by omega) (Or.inl this.symm)

theorem pzgbtrf_good (h : GbFit env b N kl ku A P ib mpt) {rg : Bool}
    (hon : ∀ k, 0 < k → k < A.d.mt → gbSec rg A k = true) :
    GoodC (evalid env) (tasks (pzgbtrf rg E mag dv big ib mpt A P)) := by
  have hnt := h.ok.nt
  refine ⟨?_, ?_, pzgbtrf_cov h.ok hon⟩
  all_goals
    intro t ht
    rw [pzgbtrf_labs] at ht
    obtain ⟨⟨k, j⟩, hl, rfl⟩ := List.mem_map.mp ht
    rw [mem_gbLabs] at hl
    simp only at hl
    have hk : k < A.d.mt := by omega
    unfold gbLab
    simp only
    by_cases e1 : j = k
    · rw [if_pos e1]
      first | exact gbPanelT_local h.ok hk | exact gbPanelT_inside h hk
    · rw [if_neg e1]
      by_cases e2 : j < A.d.nt
      · rw [if_pos e2]
        first
          | exact seqT_local (gbUpdBody_local h.ok hk)
          | exact seqT_inside (gbUpdBody_inside h (by omega) (by omega) (by omega))
      · rw [if_neg e2]
        first | exact gbAdjT_local h.ok | exact gbAdjT_inside h hk

theorem pzgbtrf_codeOK (h : GbOK b N kl ku A P ib mpt) (rg : Bool) :
    CodeOK (pzgbtrf rg E mag dv big ib mpt A P) := by
  have hnt := h.nt
  unfold pzgbtrf
  refine CodeOK.flatMap fun k hk => ?_
  rw [List.mem_range] at hk
  unfold gbStep
  refine CodeOK.append ?_ (CodeOK.ok _)
  constructor
  · intro t ht s s' hs
    rw [List.mem_singleton] at ht
    subst ht
    exact gbCode_congr h (by omega) hs
  · intro t ht hg s
    rw [List.mem_singleton] at ht
    subst ht
    cases hg

theorem pzgbtrf_writes (h : GbOK b N kl ku A P ib mpt) (rg : Bool) :
    Writes (fun x => x.1 = A.id ∨ x.1 = P.id) (tasks (pzgbtrf rg E mag dv big ib mpt A P)) := by
  intro t ht a i j hw
  rw [pzgbtrf_labs] at ht
  obtain ⟨l, hl, rfl⟩ := List.mem_map.mp ht
  rcases gbLab_foot h hl (Or.inr hw) with rfl | ⟨m, rfl, _⟩ | ⟨m, rfl, _⟩
  · exact Or.inr rfl
  · exact Or.inl rfl
  · exact Or.inl rfl

/-- With at least one off-diagonal in the band, panels are executed one after the other. -/
theorem gb_chain (h : GbOK b N kl ku A P ib mpt) {rg : Bool} (hon : ∀ k, k < A.d.mt → gbSec rg A k = true)
    (hkut : 2 ≤ A.d.kut) {K : Nat} (hK0 : K ≤ A.d.mt) :
    FChain ((List.range K).flatMap (gbStep rg E mag dv big ib mpt A P)) ∧
    (K < A.d.mt → FTip ((List.range K).flatMap (gbStep rg E mag dv big ib mpt A P)) (A.at' K K)) := by
  have hnt := h.nt
  induction K with
  | zero => exact ⟨FChain.nil, fun _ => FTip.nil _⟩
  | succ K ih =>
    rw [List.range_succ, List.flatMap_append, List.flatMap_cons, List.flatMap_nil, List.append_nil]
    obtain ⟨i1, i2⟩ := ih (by omega)
    have i2 := i2 (by omega)
    have hsec := hon K (by omega)
    have hd : (A.at' K K, true) ∈ (gbPanelT (gbPanelDeps rg A P K) E mag dv big ib mpt A P K).deps := by
      show _ ∈ gbPanelDeps rg A P K
      simp [gbPanelDeps, gsec, hsec]
    have p1 := i1.snoc (t := { task := gbPanelT (gbPanelDeps rg A P K) E mag dv big ib mpt A P K
                               code := gbCode mag dv big ib mpt A K }) i2 hd
    have p2 := i2.move (t := { task := gbPanelT (gbPanelDeps rg A P K) E mag dv big ib mpt A P K
                               code := gbCode mag dv big ib mpt A K }) hd hd
    unfold gbStep
    rw [← List.append_assoc]
    refine ⟨p1.append (safe_okT _), fun hK1 => ?_⟩
    have hsec1 := hon (K + 1) hK1
    rw [span_cons (by omega), List.map_cons, List.cons_append,
      show ∀ (t : TTask (M × Nat × Nat) α) L, okT (t :: L) = [{ task := t }] ++ okT L from
      fun _ _ => rfl, ← List.append_assoc]
    refine FTip.append (p2.move (m := false) ?_ ?_) (safe_okT _)
    · show _ ∈ gbUpdDeps rg A P K (K + 1)
      simp [gbUpdDeps, gsec, hsec]
    · show _ ∈ gbUpdDeps rg A P K (K + 1)
      simp [gbUpdDeps, gsec, hsec1]

theorem pzgbtrf_chain (h : GbOK b N kl ku A P ib mpt) {rg : Bool} (hon : ∀ k, k < A.d.mt → gbSec rg A k = true)
    (hkut : 2 ≤ A.d.kut) : FChain (pzgbtrf rg E mag dv big ib mpt A P) := by
  unfold pzgbtrf
  rw [h.nt, Nat.min_self]
  exact (gb_chain h hon hkut (le_refl _)).1

end

end Verif.Tile

/-
`pzgetrf` and `pzgeswp` under region matching: every task declares the tiles it touches.
-/
import Verif.GetrfProof
import Verif.PanelRun

namespace Verif.Tile

open Verif.Layout Verif.LU Verif.Panel Finset

set_option linter.unusedSectionVars false

universe u v w

section
variable {M : Type u} {env : M → MatEnv} {b : Nat} {A P : TMat M}

theorem reg_inside (hA : Fits env b A) {R : Nat → Nat → Prop} (hR : ∀ r c, R r c → r < A.d.m ∧ c < A.d.n)
    {x : M × Nat × Nat} {i j : Nat} (h : A.reg R x i j) : evalid env x i j := by
  obtain ⟨r, c, hr, rfl, rfl, rfl, _, _⟩ := TMat.reg_iff.mp h
  rw [hA.al.mb, hA.al.nb]
  have := hR r c hr
  exact hA.valid (mod_lt_tdim hA.al.pos this.1) (mod_lt_tdim hA.al.pos this.2)

theorem reg_tile (hA : A.Al b) {R : Nat → Nat → Prop} {x : M × Nat × Nat} {i j : Nat} (h : A.reg R x i j) :
    ∃ r c, R r c ∧ x = A.at' (r / b) (c / b) := by
  obtain ⟨r, c, hr, rfl, rfl, rfl, _, _⟩ := TMat.reg_iff.mp h
  rw [hA.mb, hA.nb]
  exact ⟨r, c, hr, rfl⟩

theorem mem_sec {lo hi n m : Nat} {w : Bool} (h : lo ≤ m) (hm : m < hi) : (A.at' m n, w) ∈ secCol true A lo hi n w := by
  unfold secCol
  rw [if_pos rfl]
  exact List.mem_map.mpr ⟨m, mem_span.mpr ⟨h, hm⟩, rfl⟩

/-- A section up to the last but one tile together with the last tile. -/
theorem mem_sec' {lo n m : Nat} {w : Bool} (h : lo ≤ m) (hm : m < A.d.mt) :
    (A.at' m n, w) ∈ secCol true A lo (A.d.mt - 1) n w ∨ (A.at' m n, w) = (A.at' (A.d.mt - 1) n, w) := by
  by_cases h1 : m < A.d.mt - 1
  · exact Or.inl (mem_sec h h1)
  · right; rw [show m = A.d.mt - 1 by omega]

theorem row_tile (hA : A.Al b) {k r : Nat} (h1 : k * b ≤ r) (h2 : r < A.d.m) : k ≤ r / b ∧ r / b < A.d.mt :=
  ⟨(Nat.le_div_iff_mul_le hA.pos).mpr h1, hA.row_mt h2⟩

theorem div_tile {b k c : Nat} (h1 : k * b ≤ c) (h2 : c < k * b + b) : c / b = k := by
  rw [Nat.div_eq_iff (by omega)]; omega

end

section
variable {M : Type u} [DecidableEq M] {α : Type v} [Field α] [StarRing α] [DecidableEq α] {γ : Type w}
  [LinearOrder γ] {b : Nat} {E : IntCode α} {A P : TMat M} {mag : α → γ} {dv : α → α → α} {big : α → Bool}
  {ib mpt : Nat} {env : M → MatEnv}

/-- The result of the panel depends on the panel only. -/
theorem panelOut_congr (h : LuOK b A P ib mpt) {k : Nat} (hk : k < min A.d.mt A.d.nt)
    {s s' : Store (M × Nat × Nat) α}
    (hs : ∀ r c, k * b ≤ r → r < A.d.m → k * b ≤ c → c < k * b + A.d.nview k → A.el s r c = A.el s' r c) :
    ∀ p i c, pvalid (getrfCfg ib mpt A k) p i c →
      panelOut mag dv big ib mpt A k s p i c = panelOut mag dv big ib mpt A k s' p i c := by
  intro p i c hv
  refine phases_congr (h.cfg hk) mag dv big ?_ hv
  intro p i c hv
  unfold toPS
  cases p with
  | a l =>
    rcases hv with ⟨l', e, hi, hr, hc⟩ | ⟨e, _⟩ | ⟨e | e, _⟩ | ⟨e, _⟩
    · cases e
      simp only [getrfCfg, h.a.mb] at hr hc hi ⊢
      rw [h.a.nb]
      rw [hs _ _ (by omega) (by omega) (by omega) (by omega)]
    all_goals cases e
  | _ => rfl

theorem panelOut_num (h : LuOK b A P ib mpt) {k : Nat} (hk : k < min A.d.mt A.d.nt) {s s' : Store (M × Nat × Nat) α}
    (hs : ∀ p i c, pvalid (getrfCfg ib mpt A k) p i c →
      panelOut mag dv big ib mpt A k s p i c = panelOut mag dv big ib mpt A k s' p i c) {r c : Nat}
    (hr : r < (getrfCfg ib mpt A k).M) (hc : c < (getrfCfg ib mpt A k).N) :
    num (getrfCfg ib mpt A k) (panelOut mag dv big ib mpt A k s) r c =
      num (getrfCfg ib mpt A k) (panelOut mag dv big ib mpt A k s') r c := by
  unfold num
  have hb := (h.cfg hk).b
  rw [hs]
  left
  refine ⟨_, rfl, Nat.mod_lt _ hb, ?_, hc⟩
  rw [divmod]; exact hr

theorem panelT_local (h : LuOK b A P ib mpt) {k : Nat} (hk : k < min A.d.mt A.d.nt)
    {d : List ((M × Nat × Nat) × Bool)} : (panelT d E mag dv big ib mpt A P k).Local := by
  intro s s' hs x i j hw
  have hb := h.a.pos
  have hc := panelOut_congr (mag := mag) (dv := dv) (big := big) h hk (s := s) (s' := s') (fun r c h1 h2 h3 h4 =>
    TMat.el_eq_of_reg (A := A)
      (R := fun r c => k * A.d.mb ≤ r ∧ r < A.d.m ∧ k * A.d.nb ≤ c ∧ c < k * A.d.nb + A.d.nview k)
      (by rw [h.a.mb]; exact hb) (by rw [h.a.nb]; exact hb)
      (fun x i j hx => hs x i j (Or.inr (Or.inl hx))) (by rw [h.a.mb, h.a.nb]; exact ⟨h1, h2, h3, h4⟩))
  simp only [panelT]
  rcases hw with hw | hw
  · rw [if_pos hw.1, if_pos hw.1]
    have h6 := hw.2.2.2.2.2
    refine panelOut_num h hk hc ?_ ?_ <;> simp only [getrfCfg] <;> omega
  · have hne : x.1 ≠ A.id := by rw [hw.1]; exact h.ne.symm
    rw [if_neg hne, if_neg hne]
    unfold pivv
    rw [hc]
    right; left
    refine ⟨rfl, ?_, rfl⟩
    have h6 := hw.2.2.2.2.2
    unfold Cfg.mn
    simp only [getrfCfg]
    omega

theorem panelCode_congr (h : LuOK b A P ib mpt) {k : Nat} (hk : k < min A.d.mt A.d.nt)
    {d : List ((M × Nat × Nat) × Bool)} {s s' : Store (M × Nat × Nat) α}
    (hs : ∀ x i j, (panelT d E mag dv big ib mpt A P k).rd x i j ∨ (panelT d E mag dv big ib mpt A P k).wr x i j →
      s x i j = s' x i j) : panelCode mag dv big ib mpt A k s = panelCode mag dv big ib mpt A k s' := by
  have hb := h.a.pos
  have hc := panelOut_congr (mag := mag) (dv := dv) (big := big) h hk (s := s) (s' := s') (fun r c h1 h2 h3 h4 =>
    TMat.el_eq_of_reg (A := A)
      (R := fun r c => k * A.d.mb ≤ r ∧ r < A.d.m ∧ k * A.d.nb ≤ c ∧ c < k * A.d.nb + A.d.nview k)
      (by rw [h.a.mb]; exact hb) (by rw [h.a.nb]; exact hb)
      (fun x i j hx => hs x i j (Or.inr (Or.inl hx))) (by rw [h.a.mb, h.a.nb]; exact ⟨h1, h2, h3, h4⟩))
  unfold panelCode infov
  rw [hc _ _ _ (Or.inr (Or.inr (Or.inr ⟨rfl, rfl, rfl⟩)))]

theorem adjustT_local (h : LuOK b A P ib mpt) {k : Nat} {d : List ((M × Nat × Nat) × Bool)} :
    (adjustT d E A P k).Local := by
  apply gop_local
  intro s s' hs r c hR
  rw [TMat.el_eq_of_reg (A := P) (R := fun i j => k * A.d.mb ≤ i ∧ i < min A.d.m (k * A.d.mb + A.d.nview k) ∧ j = 0)
    (by rw [h.p.mb]; exact h.p.pos) (by rw [h.p.nb]; exact h.p.pos)
    (fun x i j hx => hs x i j (Or.inr hx)) ⟨hR.1, hR.2.1, rfl⟩]

/-- Memory of a factorization. -/
structure LuFit (env : M → MatEnv) (b : Nat) (A P : TMat M) (ib mpt : Nat) : Prop where
  ok : LuOK b A P ib mpt
  fa : Fits env b A
  fp : Fits env b P

theorem LuFit.panel_bounds (h : LuFit env b A P ib mpt) {k : Nat} (hk : k < min A.d.mt A.d.nt) :
    k * b < A.d.m ∧ k * b + A.d.nview k ≤ A.d.n ∧ A.d.nview k ≤ b := by
  have h1 := h.ok.step_m hk
  have h2 := h.ok.step_n hk
  have h3 := h.ok.nv (show k < A.d.nt by omega)
  omega

theorem panelT_inside (h : LuFit env b A P ib mpt) {k : Nat} (hk : k < min A.d.mt A.d.nt)
    {d : List ((M × Nat × Nat) × Bool)} : (panelT d E mag dv big ib mpt A P k).Inside (evalid env) := by
  obtain ⟨h1, h2, h3⟩ := h.panel_bounds hk
  rintro x i j (hw | hw | hw)
  · exact hw.elim
  · refine reg_inside h.fa ?_ hw
    intro r c hR
    rw [h.ok.a.mb, h.ok.a.nb] at hR
    omega
  · refine reg_inside h.fp ?_ hw
    intro r c hR
    rw [h.ok.a.mb] at hR
    rw [h.ok.Pm, h.ok.Pn]
    omega

theorem adjustT_inside (h : LuFit env b A P ib mpt) {k : Nat} (hk : k < min A.d.mt A.d.nt)
    {d : List ((M × Nat × Nat) × Bool)} : (adjustT d E A P k).Inside (evalid env) := by
  obtain ⟨h1, h2, h3⟩ := h.panel_bounds hk
  rintro x i j (hw | hw)
  · exact hw.elim
  · refine reg_inside (R := fun i j => k * A.d.mb ≤ i ∧ i < min A.d.m (k * A.d.mb + A.d.nview k) ∧ j = 0) h.fp ?_ hw
    intro r c hR
    rw [h.ok.a.mb] at hR
    rw [h.ok.Pm, h.ok.Pn]
    omega

theorem swpRows_inside (h : LuFit env b A P ib mpt) {B : TMat M} (fB : Fits env b B)
    {lo c0 c1 k1 k2 : Nat} {fwd : Bool} (hc : c1 ≤ B.d.n) (hk : k2 ≤ P.d.m)
    {d : List ((M × Nat × Nat) × Bool)} : (swpRows d E B P lo c0 c1 fwd k1 k2).Inside (evalid env) := by
  rintro x i j (hw | hw)
  · refine reg_inside (R := fun i j => i ∈ swpOrd fwd k1 k2 ∧ j = 0) h.fp ?_ hw
    intro r c hR
    rw [mem_swpOrd] at hR
    rw [h.ok.Pn]
    omega
  · exact reg_inside (R := fun r c => lo ≤ r ∧ r < B.d.m ∧ c0 ≤ c ∧ c < c1) fB (fun r c hR => ⟨hR.2.1, by omega⟩) hw

theorem panelT_declared (h : LuOK b A P ib mpt) {k : Nat} (hk : k < min A.d.mt A.d.nt) :
    (panelT (panelDeps true A P k) E mag dv big ib mpt A P k).Declared := by
  have hnv := h.nv (show k < A.d.nt by omega)
  refine ⟨fun _ _ _ hr => hr.elim, ?_⟩
  rintro x i j (hw | hw)
  · obtain ⟨r, c, hR, rfl⟩ := reg_tile h.a hw
    rw [h.a.mb, h.a.nb] at hR
    rw [div_tile hR.2.2.1 (by omega)]
    obtain ⟨q1, q2⟩ := row_tile h.a hR.1 hR.2.1
    show _ ∈ panelDeps true A P k
    unfold panelDeps
    rw [List.mem_append]
    rcases mem_sec' (A := A) (n := k) (w := true) q1 q2 with hm | hm
    · exact Or.inl hm
    · rw [hm]; simp
  · obtain ⟨r, c, hR, rfl⟩ := reg_tile h.p hw
    rw [h.a.mb] at hR
    rw [div_tile hR.1 (by omega), hR.2.2, Nat.zero_div]
    show _ ∈ panelDeps true A P k
    simp [panelDeps]

theorem adjustT_declared (h : LuOK b A P ib mpt) {k : Nat} (hk : k < min A.d.mt A.d.nt) {rg : Bool} :
    (adjustT (panelDeps rg A P k) E A P k).Declared := by
  have hnv := h.nv (show k < A.d.nt by omega)
  refine ⟨fun _ _ _ hr => hr.elim, ?_⟩
  intro x i j hw
  obtain ⟨r, c, hR, rfl⟩ := reg_tile (R := fun i j => k * A.d.mb ≤ i ∧ i < min A.d.m (k * A.d.mb + A.d.nview k) ∧ j = 0) h.p hw
  rw [h.a.mb] at hR
  rw [div_tile hR.1 (by omega), hR.2.2, Nat.zero_div]
  simp [adjustT, gop, panelDeps]

theorem updBody_local (h : LuOK b A P ib mpt) {k n : Nat} : ∀ t ∈ updBody E dv A P k n, t.Local := by
  intro t ht
  unfold updBody at ht
  simp only [List.cons_append, List.nil_append, List.mem_cons, List.mem_flatMap, List.not_mem_nil, or_false] at ht
  rcases ht with rfl | rfl | ⟨m, _, rfl⟩
  · exact swpRows_local h.a h.p (by omega) (by omega)
  · exact coreTrsm_local
  · exact coreGemm_local

theorem updBody_inside (h : LuFit env b A P ib mpt) {k n : Nat} (hk : k < A.d.mt) (hkn : k < n) (hn : n < A.d.nt) :
    ∀ t ∈ updBody E dv A P k n, t.Inside (evalid env) := by
  intro t ht
  have h1 := h.ok.nv hn
  have h2 := h.ok.a.lt_nt.mp hn
  have h3 := h.ok.a.lt_mt.mp hk
  have h4 : (k + 1) * b ≤ n * b := Nat.mul_le_mul_right _ hkn
  have h5 : (k + 1) * b = k * b + b := by ring
  have htn : tdim A.d.n b k = b := by rw [← h.ok.a.nview (by omega), h.ok.nv (by omega)]; omega
  unfold updBody at ht
  simp only [List.cons_append, List.nil_append, List.mem_cons, List.mem_flatMap, List.not_mem_nil, or_false] at ht
  rcases ht with rfl | rfl | ⟨m, hm, rfl⟩
  · refine swpRows_inside h h.fa ?_ ?_
    · rw [h.ok.a.nb]; omega
    · rw [h.ok.a.mb, h.ok.Pm]; omega
  · refine op1_inside (fun i j hij => ?_) (h.fa.box ?_ ?_)
    · have hij' : i < A.d.mview k ∧ j < A.d.mview k := ⟨hij.1, hij.2.1⟩
      refine h.fa.valid ?_ ?_
      · rw [← h.ok.a.mview hk]; exact hij'.1
      · rw [htn]; have := h.ok.mv hk; omega
    · rw [h.ok.a.mview hk]
    · rw [h.ok.a.nview hn]
  · rw [mem_span] at hm
    refine op2_inside (h.fa.box ?_ ?_) (h.fa.box ?_ ?_) (h.fa.box ?_ ?_)
    all_goals first | rw [h.ok.a.mview hm.2] | rw [h.ok.a.nview hn] | skip
    · rw [htn, h.ok.a.nb]
    · have h6 := h.ok.a.lt_mt.mp hm.2
      have h7 : (k + 1) * b ≤ m * b := Nat.mul_le_mul_right _ hm.1
      rw [h.ok.a.nb, ← h.ok.a.mview hk, h.ok.mv hk]; omega

theorem updT_declared (h : LuOK b A P ib mpt) {k n : Nat} (hk : k < A.d.mt) (hkn : k < n) (hn : n < A.d.nt) :
    (updT true E dv A P k n).Declared := by
  have hb := h.a.pos
  have h1 := h.nv hn
  have hin : ∀ m, k ≤ m → m < A.d.mt → ∃ w, (A.at' m k, w) ∈ updDeps true A P k n := by
    intro m q1 q2
    refine ⟨false, ?_⟩
    rcases mem_sec' (A := A) (n := k) (w := false) q1 q2 with hm | hm
    · simp [updDeps, hm]
    · rw [hm]; simp [updDeps]
  have hout : ∀ m, k ≤ m → m < A.d.mt → (A.at' m n, true) ∈ updDeps true A P k n := by
    intro m q1 q2
    rcases Nat.eq_or_lt_of_le q1 with rfl | q1
    · simp [updDeps]
    · rcases mem_sec' (A := A) (n := n) (w := true) q1 q2 with hm | hm
      · simp [updDeps, hm]
      · rw [hm]; simp [updDeps]
  apply seqT_declared
  · intro t ht a i j hr
    unfold updBody at ht
    simp only [List.cons_append, List.nil_append, List.mem_cons, List.mem_flatMap, List.not_mem_nil, or_false] at ht
    rcases ht with rfl | rfl | ⟨m, hm, rfl⟩
    · obtain ⟨r, c, hR, rfl⟩ := reg_tile (R := fun i j => i ∈ swpOrd true (k * A.d.mb + 1) (min (k * A.d.mb + A.d.mb) A.d.m) ∧ j = 0) h.p hr
      rw [mem_swpOrd, h.a.mb] at hR
      rw [div_tile (k := k) (by omega) (by omega), hR.2, Nat.zero_div]
      exact ⟨false, by simp [updDeps]⟩
    · obtain ⟨rfl, _⟩ := hr
      exact hin k (le_refl _) hk
    · rw [mem_span] at hm
      rcases hr with ⟨rfl, _⟩ | ⟨rfl, _⟩
      · exact hin m (by omega) hm.2
      · exact ⟨true, hout k (le_refl _) hk⟩
  · intro t ht a i j hw
    unfold updBody at ht
    simp only [List.cons_append, List.nil_append, List.mem_cons, List.mem_flatMap, List.not_mem_nil, or_false] at ht
    rcases ht with rfl | rfl | ⟨m, hm, rfl⟩
    · obtain ⟨r, c, hR, rfl⟩ := reg_tile (R := fun r c => k * A.d.mb ≤ r ∧ r < A.d.m ∧ n * A.d.nb ≤ c ∧ c < n * A.d.nb + A.d.nview n) h.a hw
      rw [h.a.mb, h.a.nb] at hR
      rw [div_tile (k := n) hR.2.2.1 (by omega)]
      obtain ⟨q1, q2⟩ := row_tile h.a hR.1 hR.2.1
      exact hout _ q1 q2
    · obtain ⟨rfl, _⟩ := hw
      exact hout k (le_refl _) hk
    · rw [mem_span] at hm
      obtain ⟨rfl, _⟩ := hw
      exact hout m (by omega) hm.2

theorem leftSwp_local (h : LuOK b A P ib mpt) {rg : Bool} {k : Nat} : (leftSwp rg E A P k).Local :=
  swpRows_local h.a h.p (by omega) (by omega)

theorem leftSwp_inside (h : LuFit env b A P ib mpt) {rg : Bool} {k : Nat} (hk : k < min A.d.mt A.d.nt - 1) :
    (leftSwp rg E A P k).Inside (evalid env) := by
  have h2 := h.ok.a.lt_nt.mp (show k + 1 < A.d.nt by omega)
  have h5 : (k + 1) * b = k * b + b := by ring
  refine swpRows_inside h h.fa ?_ ?_
  · rw [h.ok.a.nb]; omega
  · rw [h.ok.Pm]

theorem leftSwp_declared (h : LuOK b A P ib mpt) {k : Nat} : (leftSwp true E A P k).Declared := by
  constructor
  · intro x i j hr
    obtain ⟨r, c, hR, rfl⟩ := reg_tile (R := fun i j => i ∈ swpOrd true ((k + 1) * A.d.mb + 1) (min A.d.m A.d.n) ∧ j = 0) h.p hr
    rw [mem_swpOrd] at hR
    rw [hR.2, Nat.zero_div]
    refine ⟨false, ?_⟩
    have : (P.at' (r / b) 0, false) ∈ secCol true P 0 P.d.mt 0 false :=
      mem_sec (Nat.zero_le _) (h.p.row_mt (by rw [h.Pm]; omega))
    simp [leftSwp, swpRows, gop, this]
  · intro x i j hw
    obtain ⟨r, c, hR, rfl⟩ := reg_tile (R := fun r c => (k + 1) * A.d.mb ≤ r ∧ r < A.d.m ∧ k * A.d.nb ≤ c ∧ c < k * A.d.nb + A.d.nb) h.a hw
    rw [h.a.mb, h.a.nb] at hR
    rw [div_tile (k := k) hR.2.2.1 (by omega)]
    obtain ⟨q1, q2⟩ := row_tile h.a hR.1 hR.2.1
    rcases mem_sec' (A := A) (n := k) (w := true) q1 q2 with hm | hm
    · simp [leftSwp, swpRows, gop, hm]
    · rw [hm]; simp [leftSwp, swpRows, gop]

theorem nops_good {ι : Type*} {valid : Foot M} {l : List ι} {f : ι → List (M × Bool)} :
    Good valid (l.map fun m => nopT (α := α) (f m)) :=
  Good.map fun _ _ => Good.single (nopT_local _) (nopT_declared _) (nopT_inside _)

theorem pzgetrf_good (h : LuFit env b A P ib mpt) :
    Good (evalid env) (tasks (pzgetrf true E mag dv big ib mpt A P)) := by
  unfold pzgetrf
  rw [tasks_append, tasks_flatMap, tasks_okT]
  refine Good.append (Good.flatMap fun k hk => ?_) ?_
  · rw [List.mem_range] at hk
    unfold getrfStep
    rw [tasks_append, tasks_append, tasks_okT, tasks_okT]
    refine Good.append (Good.append nops_good ?_) (Good.map fun n hn => ?_)
    · exact Good.append (Q := [_]) (Good.single (panelT_local h.ok hk) (panelT_declared h.ok hk) (panelT_inside h hk))
        (Good.single (adjustT_local h.ok) (adjustT_declared h.ok hk) (adjustT_inside h hk))
    · rw [mem_span] at hn
      exact Good.single (seqT_local (updBody_local h.ok)) (updT_declared h.ok (by omega) hn.1 hn.2)
        (seqT_inside (updBody_inside h (by omega) hn.1 hn.2))
  · unfold getrfTail
    refine Good.append nops_good (Good.flatMap fun k hk => ?_)
    rw [List.mem_range] at hk
    exact Good.append (P := [_]) (Good.single (leftSwp_local h.ok) (leftSwp_declared h.ok) (leftSwp_inside h hk)) nops_good

theorem pzgetrf_codeOK (h : LuOK b A P ib mpt) (rg : Bool) : CodeOK (pzgetrf rg E mag dv big ib mpt A P) := by
  unfold pzgetrf
  refine CodeOK.append (CodeOK.flatMap fun k hk => ?_) (CodeOK.ok _)
  rw [List.mem_range] at hk
  unfold getrfStep
  refine CodeOK.append (CodeOK.append (CodeOK.ok _) ?_) (CodeOK.ok _)
  constructor
  · intro t ht s s' hs
    simp only [List.mem_cons, List.not_mem_nil, or_false] at ht
    rcases ht with rfl | rfl
    · exact panelCode_congr h hk hs
    · rfl
  · intro t ht hg s
    simp only [List.mem_cons, List.not_mem_nil, or_false] at ht
    rcases ht with rfl | rfl
    · cases hg
    · rfl

theorem pzgetrf_writes (rg : Bool) :
    Writes (fun x => x.1 = A.id ∨ x.1 = P.id) (tasks (pzgetrf rg E mag dv big ib mpt A P)) := by
  have hnop : ∀ {ι : Type} (l : List ι) (f : ι → List ((M × Nat × Nat) × Bool)),
      Writes (fun x => x.1 = A.id ∨ x.1 = P.id) (l.map fun m => nopT (α := α) (f m)) := by
    intro ι l f t ht a i j hw
    obtain ⟨m, _, rfl⟩ := List.mem_map.mp ht
    exact hw.elim
  unfold pzgetrf
  rw [tasks_append, tasks_flatMap, tasks_okT]
  refine Writes.append (Writes.flatMap fun k hk => ?_) ?_
  · unfold getrfStep
    rw [tasks_append, tasks_append, tasks_okT, tasks_okT]
    refine Writes.append (Writes.append (hnop _ _) ?_) (Writes.map fun n hn => ?_)
    · intro t ht a i j hw
      simp only [tasks_cons, tasks_nil, List.mem_cons, List.not_mem_nil, or_false] at ht
      rcases ht with rfl | rfl
      · rcases hw with hw | hw
        · exact Or.inl hw.1
        · exact Or.inr hw.1
      · exact Or.inr hw.1
    · intro t ht a i j hw
      simp only [List.mem_singleton] at ht
      subst ht
      obtain ⟨t, ht, hw⟩ := hw
      unfold updBody at ht
      simp only [List.cons_append, List.nil_append, List.mem_cons, List.mem_flatMap, List.not_mem_nil, or_false] at ht
      rcases ht with rfl | rfl | ⟨m, hm, rfl⟩
      · exact Or.inl hw.1
      · obtain ⟨rfl, _⟩ := hw; exact Or.inl rfl
      · obtain ⟨rfl, _⟩ := hw; exact Or.inl rfl
  · unfold getrfTail
    refine Writes.append (hnop _ _) (Writes.flatMap fun k hk => ?_)
    refine Writes.append (P := [_]) ?_ (hnop _ _)
    intro t ht a i j hw
    simp only [List.mem_singleton] at ht
    subst ht
    exact Or.inl hw.1

theorem span_cons {lo hi : Nat} (h : lo < hi) : span lo hi = lo :: span (lo + 1) hi := by
  unfold span
  rw [show hi - lo = (hi - (lo + 1)) + 1 by omega, List.range'_succ]

theorem getrf_chain (rg : Bool) {K : Nat} (hK0 : K ≤ A.d.nt) :
    FChain ((List.range K).flatMap (getrfStep rg E mag dv big ib mpt A P)) ∧
    (K < A.d.nt → FTip ((List.range K).flatMap (getrfStep rg E mag dv big ib mpt A P)) (A.at' (A.d.mt - 1) K)) := by
  induction K with
  | zero => exact ⟨FChain.nil, fun _ => FTip.nil _⟩
  | succ K ih =>
    rw [List.range_succ, List.flatMap_append, List.flatMap_cons, List.flatMap_nil, List.append_nil]
    have hK : K < A.d.nt := by omega
    · obtain ⟨i1, i2⟩ := ih (by omega)
      have i2 := i2 hK
      have n1 := i1.append (safe_okT ((span (K + 1) (A.d.mt - 1)).map fun m =>
        nopT (α := α) [(A.at' m K, false), (A.at' K K, true)]))
      have n2 := i2.append (safe_okT ((span (K + 1) (A.d.mt - 1)).map fun m =>
        nopT (α := α) [(A.at' m K, false), (A.at' K K, true)]))
      have hd : (A.at' (A.d.mt - 1) K, true) ∈ (panelT (panelDeps rg A P K) E mag dv big ib mpt A P K).deps := by
        show _ ∈ panelDeps rg A P K
        simp [panelDeps]
      have p1 := n1.snoc (t := { task := panelT (panelDeps rg A P K) E mag dv big ib mpt A P K
                                 code := panelCode mag dv big ib mpt A K }) n2 hd
      have p2 := n2.move (t := { task := panelT (panelDeps rg A P K) E mag dv big ib mpt A P K
                                 code := panelCode mag dv big ib mpt A K }) hd hd
      have hadj : Safe [({ task := adjustT (panelDeps rg A P K) E A P K, guard := false } : GTTask (M × Nat × Nat) α)] := by
        intro t ht s
        rw [List.mem_singleton] at ht; subst ht; rfl
      have e : getrfStep rg E mag dv big ib mpt A P K =
        okT ((span (K + 1) (A.d.mt - 1)).map fun m => nopT [(A.at' m K, false), (A.at' K K, true)]) ++
        [{ task := panelT (panelDeps rg A P K) E mag dv big ib mpt A P K, code := panelCode mag dv big ib mpt A K }] ++
        [{ task := adjustT (panelDeps rg A P K) E A P K, guard := false }] ++
        okT ((span (K + 1) A.d.nt).map fun n => updT rg E dv A P K n) := by
        rw [getrfStep_shape]; simp
      rw [e, ← List.append_assoc, ← List.append_assoc, ← List.append_assoc]
      refine ⟨((p1.append hadj).append (safe_okT _)), ?_⟩
      intro hK1
      have q := p2.append hadj
      rw [span_cons hK1, List.map_cons, show ∀ (t : TTask (M × Nat × Nat) α) L, okT (t :: L) = [{ task := t }] ++ okT L from
        fun _ _ => rfl, ← List.append_assoc]
      refine FTip.append (q.move (m := false) ?_ ?_) (safe_okT _)
      · show _ ∈ updDeps rg A P K (K + 1)
        simp [updDeps]
      · show _ ∈ updDeps rg A P K (K + 1)
        simp [updDeps]

theorem pzgetrf_chain (rg : Bool) : FChain (pzgetrf rg E mag dv big ib mpt A P) :=
  (getrf_chain rg (Nat.min_le_right _ _)).1.append (safe_okT _)

end

end Verif.Tile

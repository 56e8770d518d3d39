/-
Partial pivoting: the multipliers computed by the LU factorization are bounded, because every
pivot is an entry of largest magnitude among the candidates of its column.
-/
import Verif.GetrfProof

set_option linter.unusedSectionVars false

namespace Verif.Panel

open Verif.Layout Verif.LU Verif.Sched Verif.Tile Finset

universe u v w

variable {α : Type v} [Field α] [StarRing α] [DecidableEq α] {γ : Type w} [LinearOrder γ] {z : Cfg}

/-- In the first `K` columns of `X` every entry below the diagonal, multiplied by the diagonal
entry, is no larger than the diagonal entry. -/
def Dom (mag : α → γ) (X : Nat → Nat → α) (K m : Nat) : Prop :=
  ∀ c, c < K → ∀ r, c < r → r < m → mag (X r c * X c c) ≤ mag (X c c)

theorem Dom.mono {mag : α → γ} {X : Nat → Nat → α} {K K' m : Nat} (h : Dom mag X K m) (hK : K' ≤ K) :
    Dom mag X K' m := fun c hc r => h c (by omega) r

theorem Dom.congr {mag : α → γ} {X Y : Nat → Nat → α} {K m : Nat} (h : Dom mag X K m)
    (hXY : ∀ r c, c < K → c ≤ r → Y r c = X r c) : Dom mag Y K m := fun c hc r h1 h2 => by
  rw [hXY r c hc (by omega), hXY c c hc (le_refl _)]; exact h c hc r h1 h2

theorem inner_dom (h : z.OK) {mag : α → γ} (hmag : IsMag mag) {dv : α → α → α} (hdv : IsDiv dv)
    (big : α → Bool) {k j : Nat} (hk : k ≤ z.mn) (hkj : k ≤ j) (hj : j < k + z.kb k) {s : PS α}
    (hI : infov s = 0 → Dom mag (num z s) j z.M) :
    infov (phasesRun z.size [searchT z mag j, pivotT z mag k j, updateT z dv big k j] s) = 0 →
    Dom mag (num z (phasesRun z.size [searchT z mag j, pivotT z mag k j, updateT z dv big k j] s)) (j + 1) z.M := by
  obtain ⟨jp, h1, h2, -, ho, hb, hok, hmx, -⟩ := col_step h hmag hdv big hk hkj hj s
  generalize phasesRun z.size [searchT z mag j, pivotT z mag k j, updateT z dv big k j] s = s3 at *
  intro h3
  have hs0 : infov s = 0 := by
    by_contra hne
    rw [hb hne] at h3; exact hne h3
  have hnz : num z s jp j ≠ 0 := fun hz => by
    have := (hok hs0).1 hz
    omega
  obtain ⟨-, hel⟩ := (hok hs0).2 hnz
  have hD := hI hs0
  have hsw : ∀ r, j ≤ r → r < z.M → j ≤ Equiv.swap j jp r ∧ Equiv.swap j jp r < z.M := by
    intro r a1 a2
    rw [Equiv.swap_apply_def]
    split
    · omega
    · split <;> omega
  intro c hc r hcr hr
  by_cases hck : c < k
  · rw [ho r c (by omega), ho c c (by omega)]
    exact hD c (by omega) r hcr hr
  rcases Nat.lt_or_ge c j with hcj | hcj
  · rw [ho c c (by omega)]
    rcases Nat.lt_or_ge r j with hrj | hrj
    · rw [ho r c (by omega)]
      exact hD c hcj r hcr hr
    · rw [hel r c hrj hr (by omega) (by omega)]
      unfold elimE
      rw [if_pos (Or.inr hcj)]
      have := hsw r hrj hr
      exact hD c hcj _ (by omega) this.2
  · obtain rfl : c = j := by omega
    rw [hel r c (by omega) hr (by omega) hj, hel c c (le_refl _) (by omega) (by omega) hj]
    unfold elimE
    rw [if_neg (by omega), if_pos rfl, if_pos (Or.inl rfl), Equiv.swap_apply_left, div_mul_cancel₀ _ hnz]
    have := hsw r (by omega) hr
    exact hmx _ this.1 this.2

theorem inner_loop_dom (h : z.OK) {mag : α → γ} (hmag : IsMag mag) {dv : α → α → α} (hdv : IsDiv dv)
    (big : α → Bool) {k : Nat} (hk : k ≤ z.mn) {s : PS α} (hI : infov s = 0 → Dom mag (num z s) k z.M) :
    infov (phasesRun z.size ((List.range' k (z.kb k)).flatMap fun j =>
      [searchT z mag j, pivotT z mag k j, updateT z dv big k j]) s) = 0 →
    Dom mag (num z (phasesRun z.size ((List.range' k (z.kb k)).flatMap fun j =>
      [searchT z mag j, pivotT z mag k j, updateT z dv big k j]) s)) (k + z.kb k) z.M := by
  have key : ∀ n, n ≤ z.kb k → infov (phasesRun z.size ((List.range' k n).flatMap fun j =>
      [searchT z mag j, pivotT z mag k j, updateT z dv big k j]) s) = 0 →
    Dom mag (num z (phasesRun z.size ((List.range' k n).flatMap fun j =>
      [searchT z mag j, pivotT z mag k j, updateT z dv big k j]) s)) (k + n) z.M := by
    intro n
    induction n with
    | zero => intro _ h0; exact hI h0
    | succ n ih =>
      intro hn
      rw [List.range'_concat, Nat.one_mul, List.flatMap_append, phasesRun_append]
      simp only [List.flatMap_cons, List.flatMap_nil, List.append_nil]
      exact inner_dom h hmag hdv big hk (Nat.le_add_right k n) (by omega) (ih (by omega))
  exact key _ (le_refl _)

theorem outer_loop_dom (h : z.OK) {mag : α → γ} (hmag : IsMag mag) {dv : α → α → α} (hdv : IsDiv dv)
    (big : α → Bool) (s : PS α) :
    infov (phasesRun z.size ((blocks z).flatMap fun k =>
      ((List.range' k (z.kb k)).flatMap fun j => [searchT z mag j, pivotT z mag k j, updateT z dv big k j]) ++
      [rightT z dv k, gemmT z k]) s) = 0 →
    Dom mag (num z (phasesRun z.size ((blocks z).flatMap fun k =>
      ((List.range' k (z.kb k)).flatMap fun j => [searchT z mag j, pivotT z mag k j, updateT z dv big k j]) ++
      [rightT z dv k, gemmT z k]) s)) z.mn z.M := by
  have key : ∀ n, n ≤ ceilDiv z.mn z.ib → infov (phasesRun z.size
      (((List.range n).map (· * z.ib)).flatMap fun k =>
      ((List.range' k (z.kb k)).flatMap fun j => [searchT z mag j, pivotT z mag k j, updateT z dv big k j]) ++
      [rightT z dv k, gemmT z k]) s) = 0 → Dom mag (num z (phasesRun z.size
      (((List.range n).map (· * z.ib)).flatMap fun k =>
      ((List.range' k (z.kb k)).flatMap fun j => [searchT z mag j, pivotT z mag k j, updateT z dv big k j]) ++
      [rightT z dv k, gemmT z k]) s)) (min (n * z.ib) z.mn) z.M := by
    intro n
    induction n with
    | zero => intro _ _ c hc; omega
    | succ n ih =>
      intro hn
      have hlt : n * z.ib < z.mn := (lt_ceilDiv h.ib).mp (by omega)
      have h2 := ih (by omega)
      rw [Nat.min_eq_left (le_of_lt hlt)] at h2
      rw [List.range_succ, List.map_append, List.flatMap_append, phasesRun_append]
      simp only [List.map_cons, List.map_nil, List.flatMap_cons, List.flatMap_nil, List.append_nil]
      have e : min ((n + 1) * z.ib) z.mn = n * z.ib + z.kb (n * z.ib) := by
        rw [Nat.succ_mul]; unfold Cfg.kb; omega
      rw [e]
      have h3 := inner_loop_dom h hmag hdv big (le_of_lt hlt) h2
      generalize phasesRun z.size (((List.range n).map (· * z.ib)).flatMap fun k =>
        ((List.range' k (z.kb k)).flatMap fun j => [searchT z mag j, pivotT z mag k j, updateT z dv big k j]) ++
        [rightT z dv k, gemmT z k]) s = s0 at h3 ⊢
      rw [phasesRun_append]
      generalize phasesRun z.size ((List.range' (n * z.ib) (z.kb (n * z.ib))).flatMap fun j =>
        [searchT z mag j, pivotT z mag (n * z.ib) j, updateT z dv big (n * z.ib) j]) s0 = s1 at h3 ⊢
      simp only [phasesRun_cons, phasesRun_nil]
      obtain ⟨r1, r2, r3⟩ := right_eff h dv (le_of_lt hlt) s1
      generalize phaseRun z.size (rightT z dv (n * z.ib)) s1 = s2 at r1 r2 r3 ⊢
      obtain ⟨g1, g2, g3⟩ := gemm_eff h (n * z.ib) s2
      generalize phaseRun z.size (gemmT z (n * z.ib)) s2 = s3 at g1 g2 g3 ⊢
      intro h0
      refine (h3 (by rw [← r2, ← g2, h0])).congr fun r c hc _ => ?_
      rw [g3, if_neg (by omega), r3, if_neg (by omega)]
  have := key _ (le_refl _)
  have e : min (ceilDiv z.mn z.ib * z.ib) z.mn = z.mn := by
    have := (lt_ceilDiv (m := z.mn) (k := ceilDiv z.mn z.ib) h.ib).not.mp (Nat.lt_irrefl _)
    omega
  rw [e] at this
  exact this

/-- Interchanges of rows that lie below the diagonal of their column keep the bound. -/
theorem Dom.lazy {mag : α → γ} {X : Nat → Nat → α} {K m : Nat} {p lz : Nat → Nat} (h : Dom mag X K m)
    (hp : ∀ i, i < K → i ≤ p i ∧ p i < m) (hlz : ∀ c, c < lz c) : Dom mag (lazyM p lz K X) K m := by
  intro c hc r h1 h2
  rw [lazyM_diag (fun i hi => (hp i hi).1) (hlz c)]
  unfold lazyM
  rw [if_pos hc]
  rcases Nat.lt_or_ge r (lz c) with a | a
  · rw [perm_fix (fun i a1 a2 => (hp i (by omega)).1) a]
    exact h c hc r h1 h2
  · have := perm_range (p := p) (lo := lz c) (n := K - lz c) (m := m) (fun i a1 a2 => hp i (by omega)) a h2
    have := hlz c
    exact h c hc _ (by omega) (by omega)

/-- The multipliers of the panel are bounded. -/
theorem panel_dom (h : z.OK) {mag : α → γ} (hmag : IsMag mag) {dv : α → α → α} (hdv : IsDiv dv)
    (big : α → Bool) (s : PS α) (h0 : infov s = 0) {s' : PS α}
    (hs' : s' = phasesRun z.size (phases z mag dv big) s) (hi : infov s' = 0) :
    Dom mag (num z s') z.mn z.M := by
  unfold phases at hs'
  rw [phasesRun_append] at hs'
  have hO := outer_loop h hmag hdv big s h0
  have hD := outer_loop_dom h hmag hdv big s
  generalize phasesRun z.size ((blocks z).flatMap fun k =>
      ((List.range' k (z.kb k)).flatMap fun j => [searchT z mag j, pivotT z mag k j, updateT z dv big k j]) ++
      [rightT z dv k, gemmT z k]) s = s1 at hO hD hs'
  simp only [phasesRun_cons, phasesRun_nil] at hs'
  obtain ⟨l1, l2, l3⟩ := left_eff h s1
  rw [← hs'] at l1 l2 l3
  have hM := z.mn_M
  have hi1 : infov s1 = 0 := by rw [← l2, hi]
  obtain ⟨hp, -, -⟩ := hO.ok hi1
  have hpr : ∀ i, i < z.mn → prow z s1 0 i = pivv s1 i - 1 := fun i hi =>
    Cfg.clamp_of (hp i hi).2.1 (hp i hi).2.2
  have hL := (hD hi1).lazy (p := fun i => pivv s1 i - 1) (lz := lzi z.ib) (fun i hi => (hp i hi).2) (fun c => lt_lzi h.ib)
  have hnum : ∀ r c, r < z.M → num z s' r c = lazyM (fun i => pivv s1 i - 1) (lzi z.ib) z.mn (num z s1) r c := by
    intro r c hr
    rw [l3]
    unfold lazyM
    by_cases hc : c < z.mn
    · rw [if_pos hc]
      by_cases hz : lzi z.ib c < z.mn
      · rw [if_pos ⟨hr, hc, hz⟩]
        show num z s1 (perm _ (lzi z.ib c) (z.mn - lzi z.ib c) r) c = _
        rw [perm_congr (fun i _ a2 => hpr i (by omega))]
      · rw [if_neg (fun hh => hz hh.2.2), Nat.sub_eq_zero_of_le (by omega)]
        rfl
    · rw [if_neg hc, if_neg (fun hh => hc hh.2.1)]
  intro c hc r h1 h2
  rw [hnum r c h2, hnum c c (by omega)]
  exact hL c hc r h1 h2

/-- The first pivot of a panel with one column. -/
theorem panel_piv0 (h : z.OK) {mag : α → γ} (hmag : IsMag mag) {dv : α → α → α} (hdv : IsDiv dv)
    (big : α → Bool) (hmn : z.mn = 1) (s : PS α) :
    pivv (phasesRun z.size (phases z mag dv big) s) 0 = (best z mag (num z s) 0).2 + 1 := by
  have hkb : z.kb 0 = 1 := by have := h.ib; unfold Cfg.kb; omega
  have hbl : blocks z = [0] := by
    unfold blocks
    have e : ceilDiv z.mn z.ib = 1 := by
      have h1 := (lt_ceilDiv (m := z.mn) (k := 0) h.ib).mpr (by omega)
      have h2 := (lt_ceilDiv (m := z.mn) (k := 1) h.ib).not.mpr (by have := h.ib; omega)
      omega
    rw [e]
    simp
  unfold phases
  rw [phasesRun_append, hbl]
  simp only [List.flatMap_cons, List.flatMap_nil, List.append_nil, hkb, List.range'_one]
  rw [phasesRun_append]
  obtain ⟨jp, -, -, hp, -, -, -, -, hjp⟩ := col_step h hmag hdv big (k := 0) (j := 0) (by omega) (le_refl _)
    (by omega) s
  generalize phasesRun z.size [searchT z mag 0, pivotT z mag 0 0, updateT z dv big 0 0] s = s1 at hp ⊢
  simp only [phasesRun_cons, phasesRun_nil]
  obtain ⟨r1, r2, r3⟩ := right_eff h dv (k := 0) (by omega) s1
  generalize phaseRun z.size (rightT z dv 0) s1 = s2 at r1 r2 r3 ⊢
  obtain ⟨g1, g2, g3⟩ := gemm_eff h 0 s2
  generalize phaseRun z.size (gemmT z 0) s2 = s3 at g1 g2 g3 ⊢
  obtain ⟨l1, l2, l3⟩ := left_eff h s3
  rw [l1, g1, r1, if_pos ⟨le_refl _, by omega⟩, hp, if_pos rfl, hjp]
  omega

end Verif.Panel

namespace Verif.Tile

open Verif.Layout Verif.LU Verif.Panel Finset

universe u v w

variable {M : Type u} [DecidableEq M] {α : Type v} [Field α] [StarRing α] [DecidableEq α] {γ : Type w}
  [LinearOrder γ] {b : Nat} {E : IntCode α} {A P : TMat M} {mag : α → γ} {dv : α → α → α} {big : α → Bool}
  {ib mpt : Nat}

theorem getrf_step_dom (hdv : IsDiv dv) (hmag : IsMag mag) (h : LuOK b A P ib mpt) {k : Nat}
    (hk : k < min A.d.mt A.d.nt) (rg : Bool) {s : Store (M × Nat × Nat) α}
    (hI : Dom mag (A.el s) (min (min A.d.m A.d.n) (k * b)) A.d.m)
    (hi : infov (panelOut mag dv big ib mpt A k s) = 0) :
    Dom mag (A.el (texec (tasks (getrfStep rg E mag dv big ib mpt A P k)) s))
      (min (min A.d.m A.d.n) ((k + 1) * b)) A.d.m := by
  have hb := h.a.pos
  have hkm := h.step_m hk
  have hkn := h.step_n hk
  have hnv := h.nv (show k < A.d.nt by omega)
  have e1 : (k + 1) * b = k * b + b := by ring
  obtain ⟨o1, -⟩ := panel_ok (h.cfg hk) hmag hdv big (toPS A k s) rfl
    (s' := panelOut mag dv big ib mpt A k s) rfl
  have hD := panel_dom (h.cfg hk) hmag hdv big (toPS A k s) rfl
    (s' := panelOut mag dv big ib mpt A k s) rfl hi
  have hzM : (getrfCfg ib mpt A k).M = A.d.m - k * b := by simp only [getrfCfg, h.a.mb]
  have hzN : (getrfCfg ib mpt A k).N = A.d.nview k := rfl
  have hmn : (getrfCfg ib mpt A k).mn = min (A.d.m - k * b) (A.d.nview k) := by
    unfold Cfg.mn; rw [hzM, hzN]
  obtain ⟨hp, -, -⟩ := o1 hi
  rw [getrfStep_tasks]
  obtain ⟨p1, p2, p3, p4, p5⟩ := panel_eff (E := E) (mag := mag) (dv := dv) (big := big) h hk
    (panelDeps rg A P k) (panelDeps rg A P k) s
  generalize (adjustT (panelDeps rg A P k) E A P k).run
        ((panelT (panelDeps rg A P k) E mag dv big ib mpt A P k).run s) = s1 at p1 p2 p3 p4 p5 ⊢
  obtain ⟨u1, u2, u3⟩ := upds_eff (E := E) hdv h (show k < A.d.mt by omega) rg s1 (p := pv E P s1)
    (fun hlast i a1 a2 => by
      have := h.a.lt_nt.mp hlast
      obtain ⟨j, rfl⟩ := Nat.exists_eq_add_of_le a1
      have hj : j < (getrfCfg ib mpt A k).mn := by omega
      have := hp j hj
      refine ⟨rfl, ?_⟩
      unfold pv
      rw [p3 _ (by omega) (by omega), Nat.add_sub_cancel_left]
      rw [hzM] at this
      omega) (N := A.d.nt) (by omega) (le_refl _)
  generalize texec ((span (k + 1) A.d.nt).map fun n => updT rg E dv A P k n) s1 = s2 at u1 u2 u3 ⊢
  intro c hc r h1 h2
  rcases Nat.lt_or_ge c (k * b) with a | a
  · rw [u2 r c (by omega), p2 r c (by omega), u2 c c (by omega), p2 c c (by omega)]
    exact hI c (by omega) r h1 h2
  · rw [u2 r c (by omega), p1 r c (by omega) h2 a (by omega), u2 c c (by omega), p1 c c a (by omega) a (by omega)]
    exact hD _ (by omega) _ (by omega) (by omega)

theorem getrf_loop_dom (hdv : IsDiv dv) (hmag : IsMag mag) (h : LuOK b A P ib mpt) (rg : Bool)
    (s : Store (M × Nat × Nat) α) {K : Nat} (hK : K ≤ min A.d.mt A.d.nt)
    (hok : ∀ k, k < K → infov (panelOut mag dv big ib mpt A k
      (texec (tasks ((List.range k).flatMap (getrfStep rg E mag dv big ib mpt A P))) s)) = 0) :
    Dom mag (A.el (texec (tasks ((List.range K).flatMap (getrfStep rg E mag dv big ib mpt A P))) s))
      (min (min A.d.m A.d.n) (K * b)) A.d.m := by
  induction K with
  | zero => intro c hc; omega
  | succ K ih =>
    rw [List.range_succ, List.flatMap_append, List.flatMap_cons, List.flatMap_nil, List.append_nil, tasks_append,
      texec_append]
    exact getrf_step_dom hdv hmag h (by omega) rg (ih (by omega) fun k hk => hok k (by omega)) (hok K (by omega))

/-- **The multipliers of the LU factorization are bounded.** -/
theorem pzgetrf_dom (hdv : IsDiv dv) (hmag : IsMag mag) (h : LuOK b A P ib mpt) (rg : Bool)
    (s : Store (M × Nat × Nat) α) (hc : ∀ i, tcode (pzgetrf rg E mag dv big ib mpt A P) s i = 0) :
    Dom mag (A.el (texec (tasks (pzgetrf rg E mag dv big ib mpt A P)) s)) (min A.d.m A.d.n) A.d.m := by
  have hb := h.a.pos
  unfold pzgetrf at hc ⊢
  have hok : ∀ k, k < min A.d.mt A.d.nt → infov (panelOut mag dv big ib mpt A k
      (texec (tasks ((List.range k).flatMap (getrfStep rg E mag dv big ib mpt A P))) s)) = 0 := by
    rw [show getrfStep rg E mag dv big ib mpt A P = fun k => _ from funext (getrfStep_shape rg)] at hc
    intro k hk
    have := usteps_zero (fun k => safe_okT _) hc hk
    rw [nops_run] at this
    rw [show getrfStep rg E mag dv big ib mpt A P = fun k => _ from funext (getrfStep_shape rg)]
    by_contra hne
    simp only [panelCode, if_neg hne] at this
    omega
  have hI := getrf_loop hdv hmag h rg s (le_refl _) hok
  have hD := getrf_loop_dom hdv hmag h rg s (le_refl _) hok
  rw [tasks_append, texec_append, tasks_okT, tail_run]
  generalize texec (tasks ((List.range (min A.d.mt A.d.nt)).flatMap (getrfStep rg E mag dv big ib mpt A P))) s = s1 at hI hD ⊢
  have e : min (min A.d.m A.d.n) (min A.d.mt A.d.nt * b) = min A.d.m A.d.n := by
    have := min_le_steps h; omega
  have h1 := hI.rng
  rw [e] at h1 hD
  obtain ⟨i1, i2⟩ := left_eff h rg s1 h1 (le_refl _)
  generalize texec ((List.range (min A.d.mt A.d.nt - 1)).flatMap fun k => leftSwp rg E A P k ::
      ((span (k + 2) (A.d.mt - 1)).map fun m => nopT [(A.at' (k + 1) k, false), (A.at' m k, true)])) s1 = s' at i1 i2 ⊢
  have hL := hD.lazy (p := pv E P s1) (lz := lzi b) (fun i hi => (h1 i hi).2) (fun c => lt_lzi hb)
  intro c hc r hcr hr
  have hdiag : A.el s' c c = A.el s1 c c := by
    rw [i1 c c (by omega)]
    split
    · rw [perm_fix (fun i a1 a2 => (h1 i (by omega)).2.1) (lt_lzi hb)]
    · rfl
  rw [hdiag, i1 r c hr]
  split
  · have := hL c hc r hcr hr
    rw [lazyM_diag (fun i hi => (h1 i hi).2.1) (lt_lzi hb)] at this
    unfold lazyM at this
    rwa [if_pos hc] at this
  · exact hD c hc r hcr hr

theorem updDeps_frame {rg : Bool} {k lo hi : Nat} (s : Store (M × Nat × Nat) α) {x : M × Nat × Nat}
    (hx : x.1 ≠ A.id) : texec ((span lo hi).map fun n => updT rg E dv A P k n) s x = s x := by
  refine Writes.frame (W := fun x => x.1 = A.id) (Writes.map fun n hn => ?_) s hx
  intro t ht a i j hw
  simp only [List.mem_singleton] at ht
  subst ht
  obtain ⟨t, ht, hw⟩ := hw
  unfold updBody at ht
  simp only [List.cons_append, List.nil_append, List.mem_cons, List.mem_flatMap, List.not_mem_nil, or_false] at ht
  rcases ht with rfl | rfl | ⟨m, hm, rfl⟩
  · exact hw.1
  · obtain ⟨rfl, _⟩ := hw; rfl
  · obtain ⟨rfl, _⟩ := hw; rfl

/-- The first pivot survives the later steps. -/
theorem getrf_step_piv0 (h : LuOK b A P ib mpt) {k : Nat} (hk : k < min A.d.mt A.d.nt) (hk0 : 0 < k) (rg : Bool)
    (s : Store (M × Nat × Nat) α) :
    P.el (texec (tasks (getrfStep rg E mag dv big ib mpt A P k)) s) 0 0 = P.el s 0 0 := by
  have hb := h.a.pos
  rw [getrfStep_tasks]
  obtain ⟨-, -, -, p4, -⟩ := panel_eff (E := E) (mag := mag) (dv := dv) (big := big) h hk
    (panelDeps rg A P k) (panelDeps rg A P k) s
  rw [← p4 0 (by have : 0 < k * b := Nat.mul_pos hk0 hb; omega)]
  generalize (adjustT (panelDeps rg A P k) E A P k).run
        ((panelT (panelDeps rg A P k) E mag dv big ib mpt A P k).run s) = s1
  unfold TMat.el
  rw [updDeps_frame]
  exact h.ne.symm

theorem pzgetrf_piv0 (hdv : IsDiv dv) (hmag : IsMag mag) (h : LuOK b A P ib mpt) (hb1 : b = 1)
    (hm : 0 < min A.d.mt A.d.nt) (rg : Bool)
    (s : Store (M × Nat × Nat) α) (hc : ∀ i, tcode (pzgetrf rg E mag dv big ib mpt A P) s i = 0) :
    pv E P (texec (tasks (pzgetrf rg E mag dv big ib mpt A P)) s) 0 =
      (best (getrfCfg ib mpt A 0) mag (A.el s) 0).2 := by
  have hb := h.a.pos
  have hloop : ∀ K, 0 < K → K ≤ min A.d.mt A.d.nt →
      P.el (texec (tasks ((List.range K).flatMap (getrfStep rg E mag dv big ib mpt A P))) s) 0 0 =
      P.el (texec (tasks (getrfStep rg E mag dv big ib mpt A P 0)) s) 0 0 := by
    intro K
    induction K with
    | zero => intro h0; omega
    | succ K ih =>
      intro _ hK
      rw [List.range_succ, List.flatMap_append, List.flatMap_cons, List.flatMap_nil, List.append_nil, tasks_append,
        texec_append]
      by_cases hK0 : K = 0
      · subst hK0; rfl
      · rw [getrf_step_piv0 h (by omega) (by omega), ih (by omega) (by omega)]
  have hok : ∀ k, k < min A.d.mt A.d.nt → infov (panelOut mag dv big ib mpt A k
      (texec (tasks ((List.range k).flatMap (getrfStep rg E mag dv big ib mpt A P))) s)) = 0 := by
    unfold pzgetrf at hc
    rw [show getrfStep rg E mag dv big ib mpt A P = fun k => _ from funext (getrfStep_shape rg)] at hc
    intro k hk
    have := usteps_zero (fun k => safe_okT _) hc hk
    rw [nops_run] at this
    rw [show getrfStep rg E mag dv big ib mpt A P = fun k => _ from funext (getrfStep_shape rg)]
    by_contra hne
    simp only [panelCode, if_neg hne] at this
    omega
  have hI := getrf_loop hdv hmag h rg s (le_refl _) hok
  unfold pv pzgetrf
  rw [tasks_append, texec_append, tasks_okT, tail_run]
  have e : min (min A.d.m A.d.n) (min A.d.mt A.d.nt * b) = min A.d.m A.d.n := by
    have := min_le_steps h; omega
  have h1 := hI.rng
  rw [e] at h1
  have hP : ∀ s1, PvOK E P A.d.m (min A.d.m A.d.n) s1 → P.el (texec ((List.range (min A.d.mt A.d.nt - 1)).flatMap fun k => leftSwp rg E A P k ::
      ((span (k + 2) (A.d.mt - 1)).map fun m => nopT [(A.at' (k + 1) k, false), (A.at' m k, true)])) s1) 0 0 =
      P.el s1 0 0 := fun s1 h1 => by
    obtain ⟨i1, i2⟩ := left_eff h rg s1 h1 (le_refl _)
    unfold TMat.el; rw [i2]; exact h.ne.symm
  rw [hP _ h1, hloop _ hm (le_refl _), getrfStep_tasks]
  have hkm := h.step_m hm
  have hkn := h.step_n hm
  have hnv := h.nv (show 0 < A.d.nt by omega)
  obtain ⟨-, -, p3, -, -⟩ := panel_eff (E := E) (mag := mag) (dv := dv) (big := big) h hm
    (panelDeps rg A P 0) (panelDeps rg A P 0) s
  have hpv := p3 0 (by omega) (by omega)
  generalize (adjustT (panelDeps rg A P 0) E A P 0).run
        ((panelT (panelDeps rg A P 0) E mag dv big ib mpt A P 0).run s) = s1 at hpv ⊢
  have hu : P.el (texec ((span (0 + 1) A.d.nt).map fun n => updT rg E dv A P 0 n) s1) 0 0 = P.el s1 0 0 := by
    unfold TMat.el
    rw [updDeps_frame]
    exact h.ne.symm
  rw [hu, hpv]
  unfold panelOut
  rw [Nat.zero_mul, Nat.sub_zero, Nat.add_zero, panel_piv0 (h.cfg hm) hmag hdv big ?_ (toPS A 0 s)]
  · have hn : num (getrfCfg ib mpt A 0) (toPS A 0 s) = A.el s := by
      funext r c; rw [num_toPS h]; simp
    rw [hn]; omega
  · have hzM : (getrfCfg ib mpt A 0).M = A.d.m - 0 * b := by simp only [getrfCfg, h.a.mb]
    have hzN : (getrfCfg ib mpt A 0).N = A.d.nview 0 := rfl
    unfold Cfg.mn; rw [hzM, hzN]; omega

end Verif.Tile

/-
Correctness of the LU factorization `pzgetrf` at tile level.
-/
import Verif.Getrf

namespace Verif.Tile

open Verif.Layout Verif.LU Verif.Panel Finset

set_option linter.unusedSectionVars false

universe u v w

/-! ### Status codes of loops with one kernel per step that may fail -/

section codes
variable {M : Type u} {α : Type v}

theorem tcode_safe {P : List (GTTask M α)} (h : Safe P) (s : Store M α) (i : Nat) : tcode P s i = 0 := by
  unfold tcode
  cases hi : P[i]? with
  | none => rfl
  | some t => exact h t (List.mem_of_getElem? hi) _

variable {U V : Nat → List (GTTask M α)} {t : Nat → GTTask M α}

theorem usteps_split (K k : Nat) (hk : k < K) (f : Nat → List (GTTask M α)) :
    ∃ R, (List.range K).flatMap f = (List.range k).flatMap f ++ (f k ++ R) := by
  obtain ⟨d, rfl⟩ := Nat.exists_eq_add_of_lt hk
  refine ⟨((List.range d).map (k + 1 + ·)).flatMap f, ?_⟩
  rw [show k + d + 1 = k + (1 + d) by omega, List.range_add, List.flatMap_append, Nat.add_comm 1 d,
    List.range_succ_eq_map]
  simp only [List.map_cons, List.flatMap_cons, Nat.add_zero, List.map_map]
  congr 2
  rw [List.flatMap_map, List.flatMap_map]
  congr 1
  funext i
  simp only [Function.comp, Nat.succ_eq_add_one]
  congr 1; omega

theorem usteps_code (hU : ∀ k, Safe (U k)) {K k : Nat} (hk : k < K) (T : List (GTTask M α)) (s : Store M α) :
    tcode ((List.range K).flatMap (fun k => U k ++ [t k] ++ V k) ++ T) s
        (((List.range k).flatMap fun k => U k ++ [t k] ++ V k).length + (U k).length) =
      (t k).code (texec (tasks (U k)) (texec (tasks ((List.range k).flatMap fun k => U k ++ [t k] ++ V k)) s)) := by
  obtain ⟨R, hR⟩ := usteps_split K k hk (fun k => U k ++ [t k] ++ V k)
  rw [hR, List.append_assoc, tcode_append_right]
  rw [List.append_assoc, List.append_assoc, List.append_assoc, show (U k).length = (U k).length + 0 from rfl,
    tcode_append_right]
  rfl

theorem usteps_zero (hU : ∀ k, Safe (U k)) {K : Nat} {T : List (GTTask M α)} {s : Store M α}
    (h : ∀ i, tcode ((List.range K).flatMap (fun k => U k ++ [t k] ++ V k) ++ T) s i = 0) {k : Nat} (hk : k < K) :
    (t k).code (texec (tasks (U k)) (texec (tasks ((List.range k).flatMap fun k => U k ++ [t k] ++ V k)) s)) = 0 := by
  rw [← usteps_code hU hk T s]; exact h _

theorem usteps_nonzero (hU : ∀ k, Safe (U k)) (hV : ∀ k, Safe (V k)) {K : Nat} {T : List (GTTask M α)}
    (hT : Safe T) {s : Store M α} {i : Nat}
    (h : tcode ((List.range K).flatMap (fun k => U k ++ [t k] ++ V k) ++ T) s i ≠ 0) :
    ∃ k, k < K ∧ i = ((List.range k).flatMap fun k => U k ++ [t k] ++ V k).length + (U k).length := by
  induction K generalizing T with
  | zero => exact absurd (tcode_safe (by simpa using hT) s i) h
  | succ K ih =>
    rw [List.range_succ, List.flatMap_append, List.flatMap_cons, List.flatMap_nil, List.append_nil] at h
    by_cases hi : i < ((List.range K).flatMap fun k => U k ++ [t k] ++ V k).length
    · rw [List.append_assoc, tcode_append_left _ _ _ hi] at h
      obtain ⟨k, hk, e⟩ := ih (T := []) (by intro t ht; simp at ht) (by simpa using h)
      exact ⟨k, by omega, e⟩
    · obtain ⟨j, rfl⟩ := Nat.exists_eq_add_of_le (Nat.le_of_not_lt hi)
      refine ⟨K, by omega, ?_⟩
      rw [List.append_assoc, tcode_append_right] at h
      congr 1
      by_contra hne
      rcases Nat.lt_or_ge j (U K).length with hj | hj
      · rw [List.append_assoc, List.append_assoc, tcode_append_left _ _ _ hj, tcode_safe (hU K)] at h
        exact h rfl
      · obtain ⟨l, rfl⟩ := Nat.exists_eq_add_of_le hj
        rw [List.append_assoc, List.append_assoc, tcode_append_right] at h
        cases l with
        | zero => exact hne rfl
        | succ l =>
          rw [List.singleton_append, tcode_cons_succ, tcode_safe] at h
          · exact h rfl
          · intro t ht
            rcases List.mem_append.mp ht with h | h
            · exact hV K t h
            · exact hT t h

end codes

section
variable {M : Type u} [DecidableEq M] {α : Type v} [Field α] [StarRing α] [DecidableEq α] {γ : Type w}
  [LinearOrder γ] {b : Nat} {E : IntCode α} {A P : TMat M} {mag : α → γ} {dv : α → α → α} {big : α → Bool}
  {ib mpt : Nat}

/-- Row number `ipiv[i]-1`. -/
def pv (E : IntCode α) (P : TMat M) (s : Store (M × Nat × Nat) α) (i : Nat) : Nat := E.dec (P.el s i 0) - 1

/-- The pivots `< K` are in range. -/
def PvOK (E : IntCode α) (P : TMat M) (m K : Nat) (s : Store (M × Nat × Nat) α) : Prop :=
  ∀ i, i < K → 1 ≤ E.dec (P.el s i 0) ∧ i ≤ pv E P s i ∧ pv E P s i < m

/-- All updates of a step. -/
theorem upds_eff (hdv : IsDiv dv) (h : LuOK b A P ib mpt) {k : Nat} (hk : k < A.d.mt)
    (rg : Bool) (s : Store (M × Nat × Nat) α) {p : Nat → Nat}
    (hp : k + 1 < A.d.nt → ∀ i, k * b ≤ i → i < min A.d.m (k * b + b) →
      E.dec (P.el s i 0) - 1 = p i ∧ i ≤ p i ∧ p i < A.d.m)
    {N : Nat} (hkN : k + 1 ≤ N) (hN : N ≤ A.d.nt) :
    let s' := texec ((span (k + 1) N).map fun n => updT rg E dv A P k n) s
    (∀ r c, k * b ≤ r → r < A.d.m → k * b + b ≤ c → c < min A.d.n (N * b) →
      A.el s (perm p (k * b) (min A.d.m (k * b + b) - k * b) r) c =
        ∑ l ∈ Ico (k * b) (min r (k * b + b)), A.el s r l * A.el s' l c + A.el s' r c) ∧
    (∀ r c, ¬ (k * b ≤ r ∧ r < A.d.m ∧ k * b + b ≤ c ∧ c < min A.d.n (N * b)) → A.el s' r c = A.el s r c) ∧
    (∀ x, x.1 ≠ A.id → s' x = s x) := by
  have hb := h.a.pos
  have e1 : (k + 1) * b = k * b + b := by ring
  induction N with
  | zero => omega
  | succ N ih =>
    rcases Nat.lt_or_ge N (k + 1) with hlt | hge
    · obtain rfl : N = k := by omega
      intro s'
      have : s' = s := by
        show texec ((span (N + 1) (N + 1)).map _) s = s
        unfold span; rw [Nat.sub_self]; rfl
      rw [this]
      exact ⟨fun r c _ _ h3 h4 => by omega, fun _ _ _ => rfl, fun _ _ => rfl⟩
    · intro s'
      obtain ⟨i1, i2, i3⟩ := ih hge (by omega)
      set s1 := texec ((span (k + 1) N).map fun n => updT rg E dv A P k n) s with hs1
      have hs' : s' = (updT rg E dv A P k N).run s1 := by
        show texec ((span (k + 1) (N + 1)).map _) s = _
        have : span (k + 1) (N + 1) = span (k + 1) N ++ [N] := by
          unfold span
          rw [show N + 1 - (k + 1) = (N - (k + 1)) + 1 by omega, List.range'_concat]
          congr 2; omega
        rw [this, List.map_append, texec_append]
        rfl
      have hPs : ∀ i, P.el s1 i 0 = P.el s i 0 := fun i => by
        unfold TMat.el; rw [i3]; exact h.ne.symm
      obtain ⟨j1, j2, j3⟩ := upd_eff hdv h hk (n := N) (by omega) (by omega) rg s1 (p := p)
        (fun i a1 a2 => by rw [hPs]; exact hp (by omega) i a1 a2)
      rw [← hs'] at j1 j2 j3
      have hnv := h.nv (show N < A.d.nt by omega)
      have hNn := h.a.lt_nt.mp (show N < A.d.nt by omega)
      have e2 : (N + 1) * b = N * b + b := by ring
      have e3 : (k + 1) * b ≤ N * b := Nat.mul_le_mul_right _ hge
      rw [hnv] at j1 j2
      rw [e2]
      refine ⟨?_, ?_, ?_⟩
      · intro r c h1 h2 h3 h4
        rcases Nat.lt_or_ge c (N * b) with hc | hc
        · rw [i1 r c h1 h2 h3 (by omega), j2 r c (by omega)]
          congr 1
          refine sum_congr rfl fun l hl => ?_
          rw [mem_Ico] at hl
          rw [j2 l c (by omega)]
        · rw [← i2 _ c (by omega), j1 r c h1 h2 hc (by omega)]
          congr 1
          refine sum_congr rfl fun l hl => ?_
          rw [mem_Ico] at hl
          rw [i2 r l (by omega)]
      · intro r c hn
        rw [j2 r c (by omega), i2 r c (by omega)]
      · intro x hx; rw [j3 x hx, i3 x hx]

/-- State after `k` steps. -/
structure LuInv (E : IntCode α) (b : Nat) (A P : TMat M) (X0 : Nat → Nat → α) (k : Nat)
    (s : Store (M × Nat × Nat) α) : Prop where
  rng : PvOK E P A.d.m (min (min A.d.m A.d.n) (k * b)) s
  inv : LUInv A.d.m A.d.n X0 (lazyM (pv E P s) (lzi b) (min (min A.d.m A.d.n) (k * b)) (A.el s))
    (perm (pv E P s) 0 (min (min A.d.m A.d.n) (k * b))) (min (min A.d.m A.d.n) (k * b))
  dia : ∀ c, c < min (min A.d.m A.d.n) (k * b) → A.el s c c ≠ 0

theorem LuInv.init (s : Store (M × Nat × Nat) α) : LuInv E b A P (A.el s) 0 s := by
  have e : min (min A.d.m A.d.n) (0 * b) = 0 := by simp
  refine ⟨?_, ?_, ?_⟩
  · rw [e]; intro i hi; omega
  · rw [e]
    have : lazyM (pv E P s) (lzi b) 0 (A.el s) = A.el s := by
      funext r c; unfold lazyM; rw [if_neg (by omega)]
    rw [this]
    exact LUInv.init _ _ _
  · rw [e]; intro c hc; omega

theorem getrfStep_tasks (rg : Bool) (k : Nat) (s : Store (M × Nat × Nat) α) :
    texec (tasks (getrfStep rg E mag dv big ib mpt A P k)) s =
      texec ((span (k + 1) A.d.nt).map fun n => updT rg E dv A P k n)
        ((adjustT (panelDeps rg A P k) E A P k).run
          ((panelT (panelDeps rg A P k) E mag dv big ib mpt A P k).run s)) := by
  unfold getrfStep
  rw [tasks_append, tasks_append, tasks_okT, tasks_okT, texec_append, texec_append]
  rw [texec_nops (P := (span (k + 1) (A.d.mt - 1)).map _)]
  · rfl
  · intro t ht
    obtain ⟨m, _, rfl⟩ := List.mem_map.mp ht
    exact ⟨_, rfl⟩

/-- **One step** of the factorization. -/
theorem getrf_step (hdv : IsDiv dv) (hmag : IsMag mag) (h : LuOK b A P ib mpt) {k : Nat}
    (hk : k < min A.d.mt A.d.nt) (rg : Bool) {X0 : Nat → Nat → α} {s : Store (M × Nat × Nat) α}
    (hI : LuInv E b A P X0 k s) :
    (infov (panelOut mag dv big ib mpt A k s) = 0 →
      LuInv E b A P X0 (k + 1) (texec (tasks (getrfStep rg E mag dv big ib mpt A P k)) s)) ∧
    (infov (panelOut mag dv big ib mpt A k s) ≠ 0 →
      k * b + (infov (panelOut mag dv big ib mpt A k s) - 1) < min A.d.m A.d.n ∧
      FailAt A.d.m X0 (k * b + (infov (panelOut mag dv big ib mpt A k s) - 1))) := by
  have hb := h.a.pos
  have hkm := h.step_m hk
  have hkn := h.step_n hk
  have hnv := h.nv (show k < A.d.nt by omega)
  have e1 : (k + 1) * b = k * b + b := by ring
  obtain ⟨o1, o2⟩ := panel_ok (h.cfg hk) hmag hdv big (toPS A k s) rfl
    (s' := panelOut mag dv big ib mpt A k s) rfl
  have hzM : (getrfCfg ib mpt A k).M = A.d.m - k * b := by simp only [getrfCfg, h.a.mb]
  have hzN : (getrfCfg ib mpt A k).N = A.d.nview k := rfl
  have hmn : (getrfCfg ib mpt A k).mn = min (A.d.m - k * b) (A.d.nview k) := by
    unfold Cfg.mn; rw [hzM, hzN]
  have hK : min (min A.d.m A.d.n) (k * b) = k * b := by omega
  obtain ⟨hrng, hinv, hdia⟩ := hI
  rw [hK] at hrng hinv hdia
  have hnum : (fun r c => num (getrfCfg ib mpt A k) (toPS A k s) r c) =
      fun r c => A.el s (k * b + r) (k * b + c) := by
    funext r c; exact num_toPS h k s r c
  refine ⟨?_, ?_⟩
  · intro hi
    obtain ⟨hp, hL, hd⟩ := o1 hi
    rw [getrfStep_tasks]
    obtain ⟨p1, p2, p3, p4, p5⟩ := panel_eff (E := E) (mag := mag) (dv := dv) (big := big) h hk
      (panelDeps rg A P k) (panelDeps rg A P k) s
    generalize (adjustT (panelDeps rg A P k) E A P k).run
          ((panelT (panelDeps rg A P k) E mag dv big ib mpt A P k).run s) = s1 at p1 p2 p3 p4 p5 ⊢
    have hK' : min (min A.d.m A.d.n) ((k + 1) * b) = min A.d.m (k * b + A.d.nview k) := by
      rw [e1, hnv]; omega
    -- pivots after the panel
    have hpl : ∀ i, i < k * b → pv E P s1 i = pv E P s i := fun i hi => by
      unfold pv; rw [p4 i (by omega)]
    have hph : ∀ i, i < (getrfCfg ib mpt A k).mn →
        pv E P s1 (k * b + i) = k * b + (pivv (panelOut mag dv big ib mpt A k s) i - 1) := fun i hi => by
      have := (hp i hi).1
      unfold pv
      rw [p3 _ (by omega) (by omega), Nat.add_sub_cancel_left]
      omega
    have hr1 : PvOK E P A.d.m (min A.d.m (k * b + A.d.nview k)) s1 := by
      intro i hi
      rcases Nat.lt_or_ge i (k * b) with a | a
      · have := hrng i a
        rw [hpl i a]
        rw [p4 i (by omega)]
        exact this
      · obtain ⟨j, rfl⟩ := Nat.exists_eq_add_of_le a
        have hj : j < (getrfCfg ib mpt A k).mn := by omega
        have := hp j hj
        rw [hph j hj]
        rw [p3 _ (by omega) (by omega), Nat.add_sub_cancel_left]
        rw [hzM] at this
        omega
    -- updates
    obtain ⟨u1, u2, u3⟩ := upds_eff (E := E) hdv h (show k < A.d.mt by omega) rg s1 (p := pv E P s1)
      (fun hlast i a1 a2 => by
        have := h.a.lt_nt.mp hlast
        exact ⟨rfl, (hr1 i (by omega)).2⟩) (N := A.d.nt) (by omega) (le_refl _)
    have hPs : ∀ i, P.el (texec ((span (k + 1) A.d.nt).map fun n => updT rg E dv A P k n) s1) i 0 = P.el s1 i 0 :=
      fun i => by unfold TMat.el; rw [u3]; exact h.ne.symm
    generalize texec ((span (k + 1) A.d.nt).map fun n => updT rg E dv A P k n) s1 = s2 at u1 u2 u3 hPs ⊢
    have hpv : pv E P s2 = pv E P s1 := by funext i; unfold pv; rw [hPs]
    have hnt : A.d.n ≤ A.d.nt * b := Nat.le_of_not_lt fun hlt => by
      have := h.a.lt_nt.mpr hlt; omega
    have hmin : min A.d.n (A.d.nt * b) = A.d.n := by omega
    rw [hmin] at u1 u2
    have hX : ∀ r c, k * b ≤ r → r < A.d.m → k * b ≤ c → c < k * b + A.d.nview k →
        A.el s2 r c = num (getrfCfg ib mpt A k) (panelOut mag dv big ib mpt A k s) (r - k * b) (c - k * b) :=
      fun r c a1 a2 a3 a4 => by rw [u2 r c (by omega), p1 r c a1 a2 a3 a4]
    refine ⟨?_, ?_, ?_⟩
    · rw [hK']
      intro i hi
      rw [hpv, hPs]; exact hr1 i hi
    · rw [hK', hpv]
      refine LUInv.lazy_step (K := k * b) (w := A.d.nview k) (X := A.el s) ?_ (by omega) (by omega) rfl
        (fun i hi => (hr1 i hi).2) (fun c hc => lzi_le hb hc)
        (fun c a1 a2 => le_trans (by omega) (le_lzi hb a1)) ?_ ?_ ?_ ?_
      · rw [lazyM_congr (p' := pv E P s) hpl, perm_congr (q := pv E P s) (fun i _ hi => hpl i (by omega))]
        exact hinv
      · intro r c a1 a2; rw [u2 r c (by omega), p2 r c (by omega)]
      · intro r c a1 a2 a3; rw [u2 r c (by omega), p2 r c (by omega)]
      · intro r c a1 a2 a3 a4
        obtain ⟨i, rfl⟩ := Nat.exists_eq_add_of_le a1
        obtain ⟨j, rfl⟩ := Nat.exists_eq_add_of_le a3
        have e2 : min A.d.m (k * b + A.d.nview k) - k * b = (getrfCfg ib mpt A k).mn := by omega
        rw [e2, perm_shift (q := fun i => pivv (panelOut mag dv big ib mpt A k s) i - 1) hph]
        have := hL i j (by rw [hzM]; omega) (by rw [hzN]; omega)
        rw [num_toPS h] at this
        rw [this, luE, sum_Ico_eq_sum_range]
        rw [show min (k * b + i) (k * b + j + 1) - k * b = min i (j + 1) by omega]
        congr 1
        · refine sum_congr rfl fun l hl => ?_
          rw [mem_range] at hl
          rw [hX _ _ (by omega) (by omega) (by omega) (by omega),
            hX _ _ (by omega) (by omega) (by omega) (by omega)]
          simp only [Nat.add_sub_cancel_left]
        · rw [hX _ _ (by omega) (by omega) (by omega) (by omega)]
          simp only [Nat.add_sub_cancel_left, Nat.add_le_add_iff_left]
      · intro r c a1 a2 a3 a4
        have hlast : k + 1 < A.d.nt := h.a.lt_nt.mpr (by omega)
        have hnb : A.d.nview k = b := by
          have := h.a.lt_nt.mp hlast
          omega
        rw [hnb, ← p2 _ c (by omega), u1 r c a1 a2 (by omega) a4]
        congr 1
        refine sum_congr rfl fun l hl => ?_
        rw [mem_Ico] at hl
        rw [u2 r l (by omega)]
    · rw [hK']
      intro c hc
      rcases Nat.lt_or_ge c (k * b) with a | a
      · rw [u2 c c (by omega), p2 c c (by omega)]; exact hdia c a
      · rw [hX c c a (by omega) a (by omega)]
        exact hd _ (by omega)
  · intro hi
    obtain ⟨f1, f2⟩ := o2 hi
    rw [hzM, show num (getrfCfg ib mpt A k) (toPS A k s) = fun r c => A.el s (k * b + r) (k * b + c) from hnum] at f2
    rw [hmn] at f1
    refine ⟨by omega, ?_⟩
    refine FailAt.block hinv (by omega) (fun i hi => (hrng i hi).2) (fun c hc => lzi_le hb hc)
      (fun c a1 a2 => le_trans (by omega) (le_lzi hb a1)) (fun c => lt_lzi hb) hdia f2 (by omega)

/-- All steps. -/
theorem getrf_loop (hdv : IsDiv dv) (hmag : IsMag mag) (h : LuOK b A P ib mpt) (rg : Bool)
    (s : Store (M × Nat × Nat) α) {K : Nat} (hK : K ≤ min A.d.mt A.d.nt)
    (hok : ∀ k, k < K → infov (panelOut mag dv big ib mpt A k
      (texec (tasks ((List.range k).flatMap (getrfStep rg E mag dv big ib mpt A P))) s)) = 0) :
    LuInv E b A P (A.el s) K (texec (tasks ((List.range K).flatMap (getrfStep rg E mag dv big ib mpt A P))) s) := by
  induction K with
  | zero => exact LuInv.init s
  | succ K ih =>
    rw [List.range_succ, List.flatMap_append, List.flatMap_cons, List.flatMap_nil, List.append_nil, tasks_append,
      texec_append]
    exact (getrf_step hdv hmag h (by omega) rg (ih (by omega) fun k hk => hok k (by omega))).1 (hok K (by omega))

/-- The interchanges in the columns to the left. -/
theorem left_eff (h : LuOK b A P ib mpt) (rg : Bool) (s : Store (M × Nat × Nat) α)
    (hp : PvOK E P A.d.m (min A.d.m A.d.n) s) {K : Nat} (hK : K ≤ min A.d.mt A.d.nt - 1) :
    let s' := texec ((List.range K).flatMap fun k => leftSwp rg E A P k ::
      ((span (k + 2) (A.d.mt - 1)).map fun m => nopT [(A.at' (k + 1) k, false), (A.at' m k, true)])) s
    (∀ r c, r < A.d.m → A.el s' r c =
      if c < K * b then A.el s (perm (pv E P s) (lzi b c) (min A.d.m A.d.n - lzi b c) r) c else A.el s r c) ∧
    (∀ x, x.1 ≠ A.id → s' x = s x) := by
  have hb := h.a.pos
  induction K with
  | zero =>
    intro s'
    refine ⟨fun r c _ => ?_, fun _ _ => rfl⟩
    rw [if_neg (by omega)]; rfl
  | succ K ih =>
    intro s'
    obtain ⟨i1, i2⟩ := ih (by omega)
    have e1 : (K + 1) * b = K * b + b := by ring
    have hm := h.a.lt_mt.mp (show K + 1 < A.d.mt by omega)
    have hn := h.a.lt_nt.mp (show K + 1 < A.d.nt by omega)
    set s1 := texec ((List.range K).flatMap fun k => leftSwp rg E A P k ::
      ((span (k + 2) (A.d.mt - 1)).map fun m => nopT [(A.at' (k + 1) k, false), (A.at' m k, true)])) s with hs1
    have hs' : s' = (leftSwp rg E A P K).run s1 := by
      show texec ((List.range (K + 1)).flatMap _) s = _
      rw [List.range_succ, List.flatMap_append, List.flatMap_cons, List.flatMap_nil, List.append_nil, texec_append,
        texec_cons, texec_nops]
      intro t ht
      obtain ⟨m, _, rfl⟩ := List.mem_map.mp ht
      exact ⟨_, rfl⟩
    have hP : ∀ i, P.el s1 i 0 = P.el s i 0 := fun i => by unfold TMat.el; rw [i2]; exact h.ne.symm
    obtain ⟨w1, w2, w3⟩ := swpRows_eff (E := E) (P := P) h.a
      (secCol rg P 0 P.d.mt 0 false ++ secCol rg A (K + 1) (A.d.mt - 1) K true ++ [(A.at' (A.d.mt - 1) K, true)])
      (lo := (K + 1) * A.d.mb) (c0 := K * A.d.nb) (c1 := K * A.d.nb + A.d.nb) (fwd := true)
      (k1 := (K + 1) * A.d.mb + 1) (k2 := min A.d.m A.d.n) s1
    have hs2 : s' = (swpRows (secCol rg P 0 P.d.mt 0 false ++ secCol rg A (K + 1) (A.d.mt - 1) K true ++
      [(A.at' (A.d.mt - 1) K, true)]) E A P ((K + 1) * A.d.mb) (K * A.d.nb) (K * A.d.nb + A.d.nb) true
      ((K + 1) * A.d.mb + 1) (min A.d.m A.d.n)).run s1 := hs'
    rw [← hs2] at w1 w2 w3
    rw [h.a.mb, h.a.nb] at w1 w2
    have hperm : permL (swpOrd true ((K + 1) * b + 1) (min A.d.m A.d.n)) (pivAt E P ((K + 1) * b) A.d.m s1) =
        perm (pv E P s) ((K + 1) * b) (min A.d.m A.d.n - (K + 1) * b) := by
      unfold swpOrd
      rw [if_pos rfl, permL_range', Nat.add_sub_cancel]
      apply perm_congr
      intro i h1 h2
      obtain ⟨_, e2, e3⟩ := hp i (by omega)
      unfold pv at e2 e3
      rw [pivAt_of (by rw [hP]; omega), hP]
      rfl
    rw [hperm] at w1
    refine ⟨?_, fun x hx => by rw [w3 x hx, i2 x hx]⟩
    intro r c hr
    by_cases hc : K * b ≤ c ∧ c < K * b + b
    · have hq : c / b = K := by
        rw [Nat.div_eq_iff hb]; omega
      rw [if_pos (by omega)]
      have hl : lzi b c = (K + 1) * b := by unfold lzi; rw [hq]
      rw [hl]
      by_cases hr2 : (K + 1) * b ≤ r
      · rw [w1 r c hr2 hr hc.1 hc.2, i1, if_neg (by omega)]
        exact (perm_range (fun i a1 a2 => (hp i (by omega)).2) hr2 hr).2
      · rw [w2 r c (by omega), i1 r c hr, if_neg (by omega),
          perm_fix (fun i a1 a2 => (hp i (by omega)).2.1) (by omega)]
    · rw [w2 r c (by omega), i1 r c hr]
      by_cases hc2 : c < K * b
      · rw [if_pos hc2, if_pos (by omega)]
      · rw [if_neg hc2, if_neg (by omega)]

theorem tail_run (rg : Bool) (s : Store (M × Nat × Nat) α) :
    texec (getrfTail rg E A P) s =
      texec ((List.range (min A.d.mt A.d.nt - 1)).flatMap fun k => leftSwp rg E A P k ::
      ((span (k + 2) (A.d.mt - 1)).map fun m => nopT [(A.at' (k + 1) k, false), (A.at' m k, true)])) s := by
  unfold getrfTail
  rw [texec_append]
  congr 1
  apply texec_nops
  intro t ht
  obtain ⟨m, _, rfl⟩ := List.mem_map.mp ht
  exact ⟨_, rfl⟩

/-- `X0` with rows interchanged is the product of the factors in `A`, the pivots are in range. -/
structure LuDone (E : IntCode α) (A P : TMat M) (X0 : Nat → Nat → α) (s : Store (M × Nat × Nat) α) : Prop where
  rng : PvOK E P A.d.m (min A.d.m A.d.n) s
  lu : ∀ r c, r < A.d.m → c < A.d.n →
    X0 (perm (pv E P s) 0 (min A.d.m A.d.n) r) c = luE (A.el s) r c
  dia : ∀ c, c < min A.d.m A.d.n → A.el s c c ≠ 0

theorem min_le_steps (h : LuOK b A P ib mpt) : min A.d.m A.d.n ≤ min A.d.mt A.d.nt * b := by
  have h1 := h.a.lt_mt (k := min A.d.mt A.d.nt)
  have h2 := h.a.lt_nt (k := min A.d.mt A.d.nt)
  by_contra hc
  omega

theorem tail_ok (h : LuOK b A P ib mpt) (rg : Bool) {X0 : Nat → Nat → α} {s : Store (M × Nat × Nat) α}
    (hI : LuInv E b A P X0 (min A.d.mt A.d.nt) s) : LuDone E A P X0 (texec (getrfTail rg E A P) s) := by
  have hb := h.a.pos
  obtain ⟨h1, h2, h3⟩ := hI
  have e : min (min A.d.m A.d.n) (min A.d.mt A.d.nt * b) = min A.d.m A.d.n := by
    have := min_le_steps h; omega
  rw [e] at h1 h2 h3
  rw [tail_run]
  obtain ⟨i1, i2⟩ := left_eff h rg s h1 (le_refl _)
  have hP : ∀ i, P.el (texec ((List.range (min A.d.mt A.d.nt - 1)).flatMap fun k => leftSwp rg E A P k ::
      ((span (k + 2) (A.d.mt - 1)).map fun m => nopT [(A.at' (k + 1) k, false), (A.at' m k, true)])) s) i 0 =
      P.el s i 0 := fun i => by unfold TMat.el; rw [i2]; exact h.ne.symm
  generalize texec ((List.range (min A.d.mt A.d.nt - 1)).flatMap fun k => leftSwp rg E A P k ::
      ((span (k + 2) (A.d.mt - 1)).map fun m => nopT [(A.at' (k + 1) k, false), (A.at' m k, true)])) s = s' at i1 i2 hP ⊢
  have hpv : pv E P s' = pv E P s := by funext i; unfold pv; rw [hP]
  have hX : ∀ r c, r < A.d.m → A.el s' r c = lazyM (pv E P s) (lzi b) (min A.d.m A.d.n) (A.el s) r c := by
    intro r c hr
    rw [i1 r c hr]
    unfold lazyM
    have hml := min_le_steps h
    by_cases hc : c < (min A.d.mt A.d.nt - 1) * b
    · rw [if_pos hc, if_pos]
      by_cases h0 : min A.d.mt A.d.nt = 0
      · rw [h0] at hc; omega
      · have a1 := h.a.lt_mt.mp (show min A.d.mt A.d.nt - 1 < A.d.mt by omega)
        have a2 := h.a.lt_nt.mp (show min A.d.mt A.d.nt - 1 < A.d.nt by omega)
        omega
    · rw [if_neg hc]
      by_cases hc2 : c < min A.d.m A.d.n
      · rw [if_pos hc2]
        have := le_lzi hb (Nat.le_of_not_lt hc)
        have e2 : (min A.d.mt A.d.nt - 1) * b + b = (min A.d.mt A.d.nt - 1 + 1) * b := by ring
        have : min A.d.m A.d.n ≤ lzi b c := by
          by_cases h0 : min A.d.mt A.d.nt = 0
          · rw [h0] at hml; omega
          · rw [show min A.d.mt A.d.nt - 1 + 1 = min A.d.mt A.d.nt by omega] at e2
            omega
        rw [Nat.sub_eq_zero_of_le this]; rfl
      · rw [if_neg hc2]
  refine ⟨?_, ?_, ?_⟩
  · intro i hi; rw [hpv, hP]; exact h1 i hi
  · intro r c hr hc
    rw [hpv]
    exact LUInv.done (h2.congr (by omega) fun r c hr _ => (hX r c hr).symm) (le_refl _) hr hc
  · intro c hc
    rw [hX c c (by omega), lazyM_diag (fun i hi => (h1 i hi).2.1) (lt_lzi hb)]
    exact h3 c hc

theorem getrfStep_shape (rg : Bool) (k : Nat) : getrfStep rg E mag dv big ib mpt A P k =
    okT ((span (k + 1) (A.d.mt - 1)).map fun m => nopT [(A.at' m k, false), (A.at' k k, true)]) ++
    [{ task := panelT (panelDeps rg A P k) E mag dv big ib mpt A P k, code := panelCode mag dv big ib mpt A k }] ++
    ({ task := adjustT (panelDeps rg A P k) E A P k, guard := false } ::
      okT ((span (k + 1) A.d.nt).map fun n => updT rg E dv A P k n)) := by
  unfold getrfStep
  simp only [List.append_assoc, List.cons_append, List.nil_append]

theorem nops_run (k : Nat) (s : Store (M × Nat × Nat) α) :
    texec (tasks (okT ((span (k + 1) (A.d.mt - 1)).map fun m =>
      nopT (α := α) [(A.at' m k, false), (A.at' k k, true)]))) s = s := by
  rw [tasks_okT, texec_nops]
  intro t ht
  obtain ⟨m, _, rfl⟩ := List.mem_map.mp ht
  exact ⟨_, rfl⟩

theorem safe_okT (L : List (TTask (M × Nat × Nat) α)) : Safe (okT L) := by
  intro t ht s
  obtain ⟨x, _, rfl⟩ := List.mem_map.mp ht
  rfl

theorem safe_adjust (rg : Bool) (k : Nat) : Safe
    (({ task := adjustT (panelDeps rg A P k) E A P k, guard := false } : GTTask (M × Nat × Nat) α) ::
      okT ((span (k + 1) A.d.nt).map fun n => updT rg E dv A P k n)) := by
  intro t ht s
  rcases List.mem_cons.mp ht with rfl | ht
  · rfl
  · exact safe_okT _ t ht s

/-- **Success**: if no panel reports a zero pivot, the result is a factorization. -/
theorem pzgetrf_ok (hdv : IsDiv dv) (hmag : IsMag mag) (h : LuOK b A P ib mpt) (rg : Bool)
    (s : Store (M × Nat × Nat) α) (hc : ∀ i, tcode (pzgetrf rg E mag dv big ib mpt A P) s i = 0) :
    LuDone E A P (A.el s) (texec (tasks (pzgetrf rg E mag dv big ib mpt A P)) s) := by
  unfold pzgetrf at hc ⊢
  rw [show getrfStep rg E mag dv big ib mpt A P = fun k => _ from funext (getrfStep_shape rg)] at hc
  rw [tasks_append, texec_append, tasks_okT]
  apply tail_ok h
  apply getrf_loop hdv hmag h rg s (le_refl _)
  intro k hk
  have := usteps_zero (fun k => safe_okT _) hc hk
  rw [nops_run] at this
  rw [show getrfStep rg E mag dv big ib mpt A P = fun k => _ from funext (getrfStep_shape rg)]
  by_contra hne
  simp only [panelCode, if_neg hne] at this
  omega

/-- **Failure**: the first nonzero status is `j+1` for the first column `j` of `A` that depends on
the columns before it. -/
theorem pzgetrf_fail (hdv : IsDiv dv) (hmag : IsMag mag) (h : LuOK b A P ib mpt) (rg : Bool)
    (s : Store (M × Nat × Nat) α) {i : Nat} (hn : tcode (pzgetrf rg E mag dv big ib mpt A P) s i ≠ 0)
    (hf : ∀ j, j < i → tcode (pzgetrf rg E mag dv big ib mpt A P) s j = 0) :
    ∃ q : Nat, q < min A.d.m A.d.n ∧ tcode (pzgetrf rg E mag dv big ib mpt A P) s i = ((q + 1 : Nat) : Int) ∧
      FailAt A.d.m (A.el s) q := by
  unfold pzgetrf at hn hf ⊢
  have hsh := funext (getrfStep_shape (E := E) (P := P) (mag := mag) (dv := dv) (big := big) (ib := ib)
    (mpt := mpt) (A := A) rg)
  rw [hsh] at hn hf ⊢
  obtain ⟨k, hk, rfl⟩ := usteps_nonzero (fun k => safe_okT _) (safe_adjust rg) (safe_okT _) hn
  rw [usteps_code (fun k => safe_okT _) hk, nops_run] at hn ⊢
  have hok : ∀ l, l < k → infov (panelOut mag dv big ib mpt A l
      (texec (tasks ((List.range l).flatMap (getrfStep rg E mag dv big ib mpt A P))) s)) = 0 := by
    intro l hl
    have := hf (((List.range l).flatMap fun k => okT ((span (k + 1) (A.d.mt - 1)).map fun m =>
      nopT (α := α) [(A.at' m k, false), (A.at' k k, true)]) ++
    [{ task := panelT (panelDeps rg A P k) E mag dv big ib mpt A P k, code := panelCode mag dv big ib mpt A k }] ++
    ({ task := adjustT (panelDeps rg A P k) E A P k, guard := false } ::
      okT ((span (k + 1) A.d.nt).map fun n => updT rg E dv A P k n))).length +
      (okT ((span (l + 1) (A.d.mt - 1)).map fun m => nopT (α := α) [(A.at' m l, false), (A.at' l l, true)])).length) ?_
    · rw [usteps_code (fun k => safe_okT _) (by omega), nops_run, ← hsh] at this
      by_contra hne
      simp only [panelCode, if_neg hne] at this
      omega
    · obtain ⟨R, hR⟩ := usteps_split k l hl (fun k => okT ((span (k + 1) (A.d.mt - 1)).map fun m =>
          nopT (α := α) [(A.at' m k, false), (A.at' k k, true)]) ++
        [{ task := panelT (panelDeps rg A P k) E mag dv big ib mpt A P k, code := panelCode mag dv big ib mpt A k }] ++
        ({ task := adjustT (panelDeps rg A P k) E A P k, guard := false } ::
          okT ((span (k + 1) A.d.nt).map fun n => updT rg E dv A P k n)))
      rw [hR]
      simp only [List.length_append, List.length_cons]
      omega
  rw [← hsh] at hn ⊢
  have hI := getrf_loop hdv hmag h rg s (by omega) hok
  have hne : infov (panelOut mag dv big ib mpt A k
      (texec (tasks ((List.range k).flatMap (getrfStep rg E mag dv big ib mpt A P))) s)) ≠ 0 := by
    intro h0
    simp only [panelCode, if_pos h0] at hn
    exact hn rfl
  obtain ⟨q1, q2⟩ := (getrf_step hdv hmag h hk rg hI).2 hne
  refine ⟨_, q1, ?_, q2⟩
  simp only [panelCode, if_neg hne]
  rw [h.a.mb]
  congr 1
  omega

end

end Verif.Tile

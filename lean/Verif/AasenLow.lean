/-
Below the diagonal block: the panel, `T(k+1,k)` and the interchanges of `plasma_pzhetrf_aasen`.
-/
import Verif.AasenEff

namespace Verif.Aasen

open Verif.Tile Verif.Layout Verif.LU Verif.Panel Verif.Heswp Finset

set_option linter.unusedSectionVars false

universe v w

section
variable {α : Type v} [Field α] [StarRing α] [DecidableEq α] {γ : Type w} [LinearOrder γ]
variable {z : AC} {dv : α → α → α} {mag : α → γ} {big : α → Bool} {k : Nat}

theorem luE_prod {X : Nat → Nat → α} {v r c : Nat} (h1 : min r (c + 1) ≤ v) (h2 : r ≤ c → r < v) :
    luE X r c = ∑ l ∈ range v, (if r ≤ l then (if r = l then 1 else 0) else X r l) * (if l ≤ c then X l c else 0) := by
  have : ∀ l ∈ range v, (if r ≤ l then (if r = l then 1 else 0) else X r l) * (if l ≤ c then X l c else 0) =
      (if l ∈ range (min r (c + 1)) then X r l * X l c else 0) + (if l = r then (if r ≤ c then X r c else 0) else 0) := by
    intro l _
    simp only [mem_range]
    rcases Nat.lt_trichotomy r l with h | h | h
    · rw [if_pos (show r ≤ l by omega), if_neg (show ¬ r = l by omega), if_neg (show ¬ l < min r (c + 1) by omega),
        if_neg (show ¬ l = r by omega), zero_mul, zero_add]
    · subst h
      rw [if_pos (le_refl _), if_pos rfl, if_neg (show ¬ r < min r (c + 1) by omega), if_pos rfl, one_mul, zero_add]
    · rw [if_neg (by omega), if_neg (show ¬ l = r by omega), add_zero]
      by_cases hc : l ≤ c
      · rw [if_pos hc, if_pos (by omega)]
      · rw [if_neg hc, if_neg (by omega), mul_zero]
  rw [sum_congr rfl this, sum_add_distrib]
  unfold luE
  congr 1
  · rw [← sum_filter]
    refine sum_congr ?_ fun _ _ => rfl
    ext l
    simp only [mem_filter, mem_range]
    omega
  · rw [sum_ite_eq']
    by_cases h : r ≤ c
    · rw [if_pos h, if_pos (mem_range.mpr (h2 h))]
    · rw [if_neg h, ite_self]

theorem tri_upper {n l : Nat} {x : Nat → α} {B : Tl α} (h : ∀ j, j < l → j < n → ∑ u ∈ range n, x u * star (trE .lower .unit B j u) = 0) :
    ∀ u, u < l → u < n → x u = 0 := by
  intro u
  induction u using Nat.strong_induction_on with
  | _ u ih =>
    intro hl hn
    have := h u hl hn
    rw [sum_eq_single u] at this
    · simpa [trE] using this
    · intro v hv hne
      rw [mem_range] at hv
      rcases Nat.lt_or_gt_of_ne hne with h2 | h2
      · rw [ih v h2 (by omega) hv, zero_mul]
      · unfold trE
        rw [if_neg (by omega), if_neg (by simp [inTri]; omega), star_zero, mul_zero]
    · intro h3; exact absurd (mem_range.mpr hn) h3

/-- The part of a step below the diagonal block. -/
theorem low_eff (hz : z.OK) (hmag : IsMag mag) (hdv : IsDiv dv) (hk : k + 1 < z.mt) {s s' : AS α} (hs : s.st = 0)
    (ht : s.t (k + 1) k = fun _ _ => 0)
    (hs' : s' = symSwap z k (offT dv z k (rowSwap z k (panelS mag dv big z k s)))) {lo w : Nat} (hlo : lo = (k + 1) * z.b)
    (hw : w = min (z.N - lo) z.b) :
    (s'.st ≠ 0 → lo < s'.st ∧ s'.st ≤ z.N) ∧
    (s'.st = 0 → s'.tb = s.tb ∧ (∀ i, lo ≤ i → i < lo + w → i + 1 ≤ s'.piv i ∧ s'.piv i ≤ z.N) ∧
      (∀ i, ¬ (lo ≤ i ∧ i < lo + w) → s'.piv i = s.piv i) ∧
      (∀ r c, s'.a r c = if lo ≤ r ∧ r < z.N then
        if c < k * z.b then s.a (perm (fun i => s'.piv i - 1) lo w r) c else
        if c < lo then (if r ≤ c + z.b then (if r = c + z.b then 1 else 0) else s'.a r c) else
        if c ≤ r then herm s.a (perm (fun i => s'.piv i - 1) lo w r) (perm (fun i => s'.piv i - 1) lo w c) else s'.a r c
        else if r < lo then s.a r c else s'.a r c) ∧
      ∃ T, s'.t = (setT (k + 1) k T s).t ∧ (∀ l u, u < l → l < z.mv (k + 1) → T l u = 0) ∧
        ∀ r c, lo ≤ r → r < z.N → c < z.b → s.a (perm (fun i => s'.piv i - 1) lo w r) (k * z.b + c) =
          ∑ l ∈ range w, s'.a r (k * z.b + l) * (if 0 < k then ∑ u ∈ range z.b, T l u *
            star (trE .lower .unit (tl z.b s.a k (k - 1)) c u) else T l c)) := by
  have hb := hz.b
  have hkN := hz.lt.mp hk
  have hlob : lo = k * z.b + z.b := by rw [hlo, Nat.succ_mul]
  have hmk : z.mv k = z.b := hz.mvb hk
  have hmk1 : z.mv (k + 1) = w := by
    rw [hz.mv hk, hw]; unfold tdim; rw [← hlo, Nat.min_comm]
  obtain ⟨o, ho⟩ : ∃ o, o = pOut mag dv big z k s.a := ⟨_, rfl⟩
  have hpz : (pCfg z k).OK := by
    refine ⟨hb, hz.ib, ?_, ?_⟩
    · show 0 < min z.mpt (z.mt - (k + 1))
      have := hz.mpt; omega
    · show z.mv k ≤ z.b
      omega
  have hpan := panel_ok hpz hmag hdv big (fun x i c => match x with
    | .a l => (s.a ((k + 1) * z.b + (l * z.b + i)) (k * z.b + c), 0)
    | _ => (0, 0)) rfl (s' := o) ho
  have hmn : (pCfg z k).mn = w := by
    show min (z.N - (k + 1) * z.b) (z.mv k) = w
    rw [hmk, hw, hlo]
  have hM : (pCfg z k).M = z.N - lo := by rw [hlo]; rfl
  have hNN : (pCfg z k).N = z.b := hmk
  have hnum : ∀ r c, num (pCfg z k) (fun x i c => match x with
    | .a l => (s.a ((k + 1) * z.b + (l * z.b + i)) (k * z.b + c), 0)
    | _ => ((0 : α), 0)) r c = s.a (lo + r) (k * z.b + c) := by
    intro r c
    show s.a ((k + 1) * z.b + (r / z.b * z.b + r % z.b)) (k * z.b + c) = _
    rw [dm, hlo]
  rw [hmn, hM, hNN] at hpan
  have hP : panelS mag dv big z k s = { s with
      a := put z.b s.a (k + 1) k (z.N - lo) z.b (num (pCfg z k) o)
      piv := fun i => if lo ≤ i ∧ i < lo + w then pivv o (i - lo) + lo else s.piv i
      st := if infov o = 0 then 0 else lo + infov o } := by
    unfold panelS
    rw [if_neg (by omega), ← ho, ← hlo, hmk, ← hw]
  rw [hP] at hs'
  by_cases hi : infov o = 0
  swap
  · have : s'.st = lo + infov o := by
      rw [hs']
      unfold symSwap offT rowSwap setT
      simp only [if_neg hi, if_pos (show lo + infov o ≠ 0 by omega), if_neg (show ¬ (lo + infov o = 0 ∧ 0 < k) by omega)]
    have h2 := (hpan.2 hi).1
    refine ⟨fun _ => by omega, fun h => by omega⟩
  · obtain ⟨hp1, hp2, hp3⟩ := hpan.1 hi
    rw [if_pos hi] at hs'
    obtain ⟨pv, hpv⟩ : ∃ pv : Nat → Nat, pv = fun i => if lo ≤ i ∧ i < lo + w then pivv o (i - lo) + lo else s.piv i := ⟨_, rfl⟩
    rw [← hpv] at hs'
    have hpiv : ∀ i, lo ≤ i → i < lo + w → i + 1 ≤ pv i ∧ pv i ≤ z.N := by
      intro i h1 h2
      rw [hpv]; simp only
      rw [if_pos ⟨h1, h2⟩]
      have := hp1 (i - lo) (by omega)
      omega
    obtain ⟨π, hπ⟩ : ∃ π, π = perm (fun i => pv i - 1) lo w := ⟨_, rfl⟩
    have hpr : ∀ i, lo ≤ i → i < lo + w → i ≤ pv i - 1 ∧ pv i - 1 < z.N := fun i h1 h2 => by have := hpiv i h1 h2; omega
    have hπs : ∀ r, π (lo + r) = lo + perm (fun i => pivv o i - 1) 0 w r := by
      intro r
      rw [hπ]
      refine perm_shift (fun i hi => ?_) r
      rw [hpv]; simp only
      rw [if_pos (by omega), Nat.add_sub_cancel_left]
      have := hp1 i hi
      omega
    -- the stages
    have hR : rowSwap z k { s with a := put z.b s.a (k + 1) k (z.N - lo) z.b (num (pCfg z k) o), piv := pv, st := 0 } =
        { s with a := (fun r c => if c < k * z.b then put z.b s.a (k + 1) k (z.N - lo) z.b (num (pCfg z k) o) (π r) c else
            put z.b s.a (k + 1) k (z.N - lo) z.b (num (pCfg z k) o) r c), piv := pv, st := 0 } := by
      unfold rowSwap
      simp only [ne_eq, not_true, if_false, ← hlo, hmk, ← hw, interch_eq, ← hπ]
    rw [hR] at hs'
    obtain ⟨A2, hA2⟩ : ∃ A2 : Nat → Nat → α, A2 = fun r c => if c < k * z.b then
      put z.b s.a (k + 1) k (z.N - lo) z.b (num (pCfg z k) o) (π r) c else
            put z.b s.a (k + 1) k (z.N - lo) z.b (num (pCfg z k) o) r c := ⟨_, rfl⟩
    rw [← hA2] at hs'
    have vA2 : ∀ r c, A2 r c = if c < k * z.b then s.a (π r) c else
        if lo ≤ r ∧ r < z.N ∧ c < lo then num (pCfg z k) o (r - lo) (c - k * z.b) else s.a r c := by
      intro r c
      rw [hA2]; simp only
      by_cases hc : c < k * z.b
      · rw [if_pos hc, if_pos hc]
        unfold put
        rw [if_neg (by omega)]
      · rw [if_neg hc, if_neg hc]
        unfold put
        rw [← hlo]
        by_cases h : lo ≤ r ∧ r < z.N ∧ c < lo
        · rw [if_pos h, if_pos (by omega)]
        · rw [if_neg h, if_neg (by omega)]
    obtain ⟨A3, hA3⟩ : ∃ A3, A3 = put z.b A2 (k + 1) k (z.mv (k + 1)) (z.mv k) (setU (z.mv (k + 1)) (z.mv k) (tl z.b A2 (k + 1) k)) := ⟨_, rfl⟩
    have vA3 : ∀ r c, A3 r c = if lo ≤ r ∧ r < z.N ∧ k * z.b ≤ c ∧ c < lo ∧ r ≤ c + z.b then (if r = c + z.b then 1 else 0) else A2 r c := by
      intro r c
      rw [hA3, hmk1, hmk]
      unfold put setU tl
      rw [← hlo]
      by_cases h : lo ≤ r ∧ r < lo + w ∧ k * z.b ≤ c ∧ c < k * z.b + z.b
      · rw [if_pos h]
        rw [Nat.add_sub_cancel' h.1, Nat.add_sub_cancel' h.2.2.1]
        by_cases h2 : r ≤ c + z.b
        · rw [if_pos (show r - lo ≤ c - k * z.b ∧ r - lo < w ∧ c - k * z.b < z.b by omega),
            if_pos (show lo ≤ r ∧ r < z.N ∧ k * z.b ≤ c ∧ c < lo ∧ r ≤ c + z.b by omega)]
          by_cases h3 : r = c + z.b
          · rw [if_pos h3, if_pos (show r - lo = c - k * z.b by omega)]
          · rw [if_neg h3, if_neg (show ¬ r - lo = c - k * z.b by omega)]
        · rw [if_neg (show ¬ (r - lo ≤ c - k * z.b ∧ r - lo < w ∧ c - k * z.b < z.b) by omega),
            if_neg (show ¬ (lo ≤ r ∧ r < z.N ∧ k * z.b ≤ c ∧ c < lo ∧ r ≤ c + z.b) by omega)]
      · rw [if_neg h, if_neg (show ¬ (lo ≤ r ∧ r < z.N ∧ k * z.b ≤ c ∧ c < lo ∧ r ≤ c + z.b) by omega)]
    obtain ⟨U, hU⟩ : ∃ U : Tl α, U = cpU w z.b (tl z.b A2 (k + 1) k) (fun _ _ => 0) := ⟨_, rfl⟩
    have vU : ∀ l j, l < w → j < z.b → U l j = if l ≤ j then num (pCfg z k) o l j else 0 := by
      intro l j hl hj
      rw [hU]
      unfold cpU tl
      by_cases h : l ≤ j
      · rw [if_pos ⟨h, hl, hj⟩, if_pos h, vA2, if_neg (by omega), ← hlo, if_pos (by omega), Nat.add_sub_cancel_left,
          Nat.add_sub_cancel_left]
      · rw [if_neg (by omega), if_neg h]
    obtain ⟨T, hT⟩ : ∃ T : Tl α, T = if 0 < k then (fun i j => if i < w ∧ j < z.b then
      trsmK dv .right .lower .conjTrans .unit w z.b 1 (tl z.b A3 k (k - 1)) U i j else U i j) else U := ⟨_, rfl⟩
    have hO : offT dv z k { s with a := A2, piv := pv, st := 0 } =
        { setT (k + 1) k T s with a := A3, piv := pv, st := 0 } := by
      unfold offT setT
      simp only [ne_eq, not_true, if_false, true_and]
      by_cases h0 : 0 < k
      · rw [if_pos h0, hT, if_pos h0]
        simp only [Function.update_self, Function.update_idem, hA3, hmk1, hmk, hU, ht]
      · rw [if_neg h0, hT, if_neg h0]
        simp only [hA3, hmk1, hmk, hU, ht]
    rw [hO] at hs'
    have hS : s' = { setT (k + 1) k T s with a := (heswp z.N z.b lo (min z.mpt (z.mt - (k + 1))) (fun i => pv i - 1) w A3), piv := pv, st := 0 } := by
      rw [hs']
      unfold symSwap
      simp only [← hlo, hmk, ← hw]
    have hnt : 0 < min z.mpt (z.mt - (k + 1)) := by have := hz.mpt; omega
    have v4 := he_exec hb hnt hlo (show w ≤ z.b by omega) hpr
      (heswp_exec (n := z.N) (b := z.b) (lo := lo) (nt := min z.mpt (z.mt - (k + 1))) (p := fun i => pv i - 1) (w := w) (X := A3))
    have e_a : s'.a = heswp z.N z.b lo (min z.mpt (z.mt - (k + 1))) (fun i => pv i - 1) w A3 := by rw [hS]
    have e_p : s'.piv = pv := by rw [hS]
    rw [← hπ, ← e_a] at v4
    have hπr : ∀ r, lo ≤ r → r < z.N → lo ≤ π r ∧ π r < z.N := fun r h1 h2 => by rw [hπ]; exact perm_range hpr h1 h2
    have hπf : ∀ r, r < lo → π r = r := fun r h => by rw [hπ]; exact perm_fix (fun i h1 h2 => (hpr i h1 h2).1) h
    rw [e_p, ← hπ]
    have hst : s'.st = 0 := by rw [hS]
    refine ⟨fun h => absurd hst h, fun _ => ⟨by rw [hS]; rfl, hpiv, fun i h => ?_, ?_, T, by rw [hS], ?_, ?_⟩⟩
    · rw [hpv]; exact if_neg h
    · intro r c
      by_cases h1 : lo ≤ r ∧ r < z.N
      · rw [if_pos h1]
        by_cases h2 : c < k * z.b
        · rw [if_pos h2, v4, if_neg (by omega), vA3, if_neg (by omega), vA2, if_pos h2]
        · rw [if_neg h2]
          by_cases h3 : c < lo
          · rw [if_pos h3]
            by_cases h4 : r ≤ c + z.b
            · rw [if_pos h4, v4, if_neg (by omega), vA3, if_pos (by omega)]
            · rw [if_neg h4]
          · rw [if_neg h3]
            by_cases h4 : c ≤ r
            · rw [if_pos h4, v4, if_pos (by omega)]
              have hr' := hπr r h1.1 h1.2
              have hc' := hπr c (by omega) (by omega)
              have : ∀ x y, lo ≤ y → A3 x y = s.a x y := by
                intro x y hy
                rw [vA3, if_neg (by omega), vA2, if_neg (by omega), if_neg (by omega)]
              unfold herm
              rw [this _ _ hc'.1, this _ _ hr'.1]
            · rw [if_neg h4]
      · rw [if_neg h1]
        by_cases h2 : r < lo
        · rw [if_pos h2, v4, if_neg (by omega), vA3, if_neg (by omega), vA2, hπf r h2, if_neg (show ¬ (lo ≤ r ∧ r < z.N ∧ c < lo) by omega), ite_self]
        · rw [if_neg h2]
    · intro l u hul hl
      rw [hmk1] at hl
      by_cases h0 : 0 < k
      · have sT : ∀ j, j < z.b → ∑ u ∈ range z.b, T l u * star (trE .lower .unit (tl z.b A3 k (k - 1)) j u) = U l j := by
          intro j hj
          have := trsmK_spec hdv (sd := .right) (u := .lower) (t := .conjTrans) (d := .unit) (m := w) (n := z.b) (alpha := 1) one_ne_zero
            (X := tl z.b A3 k (k - 1)) (Y := U) (fun i _ => by simp [trE]) (r := j) (c := l) hj
          simp only [trN, trT, trEl, opE, reduceCtorEq, if_false, one_mul] at this
          rw [← this, hT, if_pos h0]
          refine sum_congr rfl fun u hu => ?_
          rw [if_pos ⟨hl, mem_range.mp hu⟩, mul_comm]
        refine tri_upper (n := z.b) (B := tl z.b A3 k (k - 1)) (fun j h1 h2 => ?_) u hul (by omega)
        rw [sT j h2, vU l j hl h2, if_neg (by omega)]
      · rw [hT, if_neg h0, vU l u hl (by omega), if_neg (by omega)]
    · intro r c h1 h2 hc
      obtain ⟨i, rfl⟩ : ∃ i, r = lo + i := ⟨r - lo, by omega⟩
      have e := hp2 i c (by omega) hc
      rw [hnum, ← hπs] at e
      rw [e, luE_prod (v := w) (by omega) (by omega)]
      refine sum_congr rfl fun l hl => ?_
      rw [mem_range] at hl
      congr 1
      · rw [v4, if_neg (show ¬ (lo ≤ k * z.b + l ∧ k * z.b + l ≤ lo + i ∧ lo + i < z.N) by omega), vA3]
        by_cases h : i ≤ l
        · rw [if_pos h, if_pos (show lo ≤ lo + i ∧ lo + i < z.N ∧ k * z.b ≤ k * z.b + l ∧ k * z.b + l < lo ∧
            lo + i ≤ k * z.b + l + z.b by omega)]
          by_cases h3 : i = l
          · rw [if_pos h3, if_pos (show lo + i = k * z.b + l + z.b by omega)]
          · rw [if_neg h3, if_neg (show ¬ lo + i = k * z.b + l + z.b by omega)]
        · rw [if_neg h, if_neg (show ¬ (lo ≤ lo + i ∧ lo + i < z.N ∧ k * z.b ≤ k * z.b + l ∧ k * z.b + l < lo ∧
            lo + i ≤ k * z.b + l + z.b) by omega), vA2, if_neg (by omega), if_pos (by omega), Nat.add_sub_cancel_left, Nat.add_sub_cancel_left]
      · rw [← vU l c hl hc]
        by_cases h0 : 0 < k
        · rw [if_pos h0]
          have := trsmK_spec hdv (sd := .right) (u := .lower) (t := .conjTrans) (d := .unit) (m := w) (n := z.b) (alpha := 1) one_ne_zero
            (X := tl z.b A3 k (k - 1)) (Y := U) (fun i _ => by simp [trE]) (r := c) (c := l) hc
          simp only [trN, trT, trEl, opE, reduceCtorEq, if_false, one_mul] at this
          rw [← this, hT, if_pos h0]
          refine sum_congr rfl fun u hu => ?_
          rw [if_pos ⟨hl, mem_range.mp hu⟩, mul_comm]
          congr 2
          have hB : ∀ x y, x < z.b → tl z.b A3 k (k - 1) x y = tl z.b s.a k (k - 1) x y := by
            intro x y hx
            unfold tl
            rw [vA3, if_neg (by omega), vA2, hπf _ (by omega), if_neg (show ¬ (lo ≤ k * z.b + x ∧ _ ∧ _) by omega), ite_self]
          unfold trE
          rw [hB _ _ hc]
        · rw [if_neg h0, hT, if_neg h0]

end

end Verif.Aasen

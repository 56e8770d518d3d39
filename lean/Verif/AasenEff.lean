/-
Effects of the parts of a step of the factorization of Aasen.
-/
import Verif.AasenMath

namespace Verif.Aasen

open Verif.Tile Verif.Layout Verif.LU Verif.Panel Verif.Heswp Finset

set_option linter.unusedSectionVars false

universe v w

/-! ### Loops -/

section
variable {β : Type v}

theorem fold_upd_ne {l : List Nat} {ix : Nat → Nat} {G : Nat → β → β} (f : Nat → β) {x : Nat} (hx : ∀ m ∈ l, ix m ≠ x) :
    l.foldl (fun f m => Function.update f (ix m) (G m (f (ix m)))) f x = f x := by
  induction l generalizing f with
  | nil => rfl
  | cons a l ih =>
    rw [List.foldl_cons, ih _ fun m hm => hx m (List.mem_cons_of_mem _ hm),
      Function.update_of_ne (fun e => hx a (List.mem_cons_self) e.symm)]

theorem fold_upd_mem {l : List Nat} (hl : l.Nodup) {ix : Nat → Nat} (hix : ∀ m ∈ l, ∀ m' ∈ l, ix m = ix m' → m = m')
    {G : Nat → β → β} (f : Nat → β) {m : Nat} (hm : m ∈ l) :
    l.foldl (fun f m => Function.update f (ix m) (G m (f (ix m)))) f (ix m) = G m (f (ix m)) := by
  induction l generalizing f with
  | nil => cases hm
  | cons a l ih =>
    rw [List.foldl_cons]
    rw [List.nodup_cons] at hl
    by_cases h : m = a
    · subst h
      rw [fold_upd_ne, Function.update_self]
      intro m' hm' e
      exact hl.1 (hix m' (List.mem_cons_of_mem _ hm') m List.mem_cons_self e ▸ hm')
    · have hm' : m ∈ l := by
        rcases List.mem_cons.mp hm with h' | h'
        · exact absurd h' h
        · exact h'
      rw [ih hl.2 (fun x hx y hy => hix x (List.mem_cons_of_mem _ hx) y (List.mem_cons_of_mem _ hy)) _ hm',
        Function.update_of_ne (fun e => h (hix m hm a List.mem_cons_self e))]

end

section
variable {α : Type v}

theorem fold_h (P : Nat → (Nat → Nat → α) → (Nat → Nat → Tl α) → (Nat → Tl α) → Nat → Tl α) (l : List Nat) (s : AS α) :
    l.foldl (fun s m => { s with h := P m s.a s.t s.h }) s = { s with h := l.foldl (fun h m => P m s.a s.t h) s.h } := by
  induction l generalizing s with
  | nil => rfl
  | cons a l ih => rw [List.foldl_cons, ih]; rfl

theorem fold_w3 {ι : Type} (P : ι → (Nat → Nat → α) → (Nat → Tl α) → (Nat → Tl α) → Nat → Tl α) (l : List ι) (s : AS α) :
    l.foldl (fun s m => { s with w3 := P m s.a s.h s.w3 }) s = { s with w3 := l.foldl (fun w m => P m s.a s.h w) s.w3 } := by
  induction l generalizing s with
  | nil => rfl
  | cons a l ih => rw [List.foldl_cons, ih]; rfl

theorem fold_w5 {ι : Type} (P : ι → (Nat → Nat → α) → (Nat → Tl α) → (Nat → Tl α) → Nat → Tl α) (l : List ι) (s : AS α) :
    l.foldl (fun s m => { s with w5 := P m s.a s.h s.w5 }) s = { s with w5 := l.foldl (fun w m => P m s.a s.h w) s.w5 } := by
  induction l generalizing s with
  | nil => rfl
  | cons a l ih => rw [List.foldl_cons, ih]; rfl

theorem fold_a {ι : Type} (P : ι → (Nat → Tl α) → (Nat → Tl α) → (Nat → Nat → α) → Nat → Nat → α) (l : List ι) (s : AS α) :
    l.foldl (fun s m => { s with a := P m s.h s.w5 s.a }) s = { s with a := l.foldl (fun X m => P m s.h s.w5 X) s.a } := by
  induction l generalizing s with
  | nil => rfl
  | cons a l ih => rw [List.foldl_cons, ih]; rfl

end

/-- Sizes for which the function is called. -/
structure AC.OK (z : AC) : Prop where
  b : 0 < z.b
  ib : 0 < z.ib
  mpt : 0 < z.mpt

namespace AC
variable {z : AC}
theorem OK.lt (hz : z.OK) {k : Nat} : k < z.mt ↔ k * z.b < z.N := lt_ceilDiv hz.b
theorem OK.mv (hz : z.OK) {k : Nat} (hk : k < z.mt) : z.mv k = tdim z.N z.b k := hmv_eq hz.b hk
theorem OK.mvb (hz : z.OK) {k : Nat} (hk : k + 1 < z.mt) : z.mv k = z.b := by
  rw [hz.mv (by omega)]
  rw [hz.lt, Nat.succ_mul] at hk
  unfold tdim; omega
end AC

section
variable {α : Type v} [Field α] [StarRing α] [DecidableEq α]
variable {z : AC} {dv : α → α → α} {k : Nat}

theorem gm_val {ta tb : Trans} {m n k : Nat} {alpha beta : α} {A B C : Tl α} {i j : Nat} (hi : i < m) (hj : j < n) :
    gm ta tb m n k alpha A B beta C i j = beta * C i j + alpha * ∑ l ∈ range k, opE ta A i l * opE tb B l j := if_pos ⟨hi, hj⟩

/-- `L(k,m)` for `m ≥ 1` as part of the factor. -/
theorem tl_Lf (hb : 0 < z.b) {X : Nat → Nat → α} {m i u : Nat} (hm : 0 < m) (hmk : m ≤ k) (hu : u < z.b) :
    tl z.b X k (m - 1) i u = Lf z.b X (k * z.b + i) (m * z.b + u) := by
  have e : m * z.b = (m - 1) * z.b + z.b := by rw [← Nat.succ_mul]; congr 1; omega
  have h1 : m * z.b ≤ k * z.b := Nat.mul_le_mul_right _ hmk
  unfold tl Lf
  rw [div_of_tile hu, if_neg (by omega), if_neg (by omega)]
  congr 1
  omega

theorem Lf_first (hb : 0 < z.b) {X : Nat → Nat → α} {r u : Nat} (hr : z.b ≤ r) (hu : u < z.b) : Lf z.b X r u = 0 := by
  unfold Lf; rw [if_pos hu, if_neg (by omega)]

/-! ### H -/

theorem hPre_eff (hz : z.OK) (hk : k < z.mt) {s : AS α} (hs : s.st = 0) :
    ∃ h', hPre z k s = { s with h := h' } ∧ ∀ m, 1 ≤ m → m < k → ∀ l j, l < z.mv m → j < z.mv k →
      h' m l j = Hf z.N z.b s.a s.t (m * z.b + l) (k * z.b + j) := by
  have hb := hz.b
  have hP := fold_h (fun m a t h => Function.update h m (
      let h0 := gm .noTrans .conjTrans (z.mv m) (z.mv k) (z.mv m) 1 (t m m) (tl z.b a k (m - 1)) 0 (h m)
      let h1 := if 1 < m then gm .noTrans .conjTrans (z.mv m) (z.mv k) z.b 1 (t m (m - 1)) (tl z.b a k (m - 1 - 1)) 1 h0 else h0
      gm .conjTrans .conjTrans (z.mv m) (z.mv k) (z.mv (m + 1)) 1 (t (m + 1) m) (tl z.b a k m) 1 h1)) (List.range' 1 (k - 1)) s
  have hP' : hPre z k s = _ := (by unfold hPre; exact if_neg (by omega) : hPre z k s = _).trans hP
  rw [hP']
  refine ⟨_, rfl, ?_⟩
  · intro m h1 hm l j hl hj
    have := fold_upd_mem (l := List.range' 1 (k - 1)) List.nodup_range' (ix := fun m => m) (fun _ _ _ _ e => e)
      (G := fun m h => 
        let h0 := gm .noTrans .conjTrans (z.mv m) (z.mv k) (z.mv m) 1 (s.t m m) (tl z.b s.a k (m - 1)) 0 h
        let h1 := if 1 < m then gm .noTrans .conjTrans (z.mv m) (z.mv k) z.b 1 (s.t m (m - 1)) (tl z.b s.a k (m - 1 - 1)) 1 h0 else h0
        gm .conjTrans .conjTrans (z.mv m) (z.mv k) (z.mv (m + 1)) 1 (s.t (m + 1) m) (tl z.b s.a k m) 1 h1) s.h (m := m)
      (by rw [List.mem_range'_1]; omega)
    dsimp only at this
    rw [this, gm_val hl hj]
    have hlb := hl
    rw [hz.mv (by omega), tdim_row] at hlb
    have hjb := hj
    rw [hz.mv (by omega), tdim_row] at hjb
    rw [Hf_block hb hlb.1 hlb.2, if_pos (show 0 < m by omega), ← hz.mv (show m < z.mt by omega), ← hz.mv (show m + 1 < z.mt by omega)]
    have e3 : ∑ u ∈ range (z.mv (m + 1)), opE .conjTrans (s.t (m + 1) m) l u * opE .conjTrans (tl z.b s.a k m) u j =
        ∑ u ∈ range (z.mv (m + 1)), star (s.t (m + 1) m u l) * star (Lf z.b s.a (k * z.b + j) ((m + 1) * z.b + u)) := by
      refine sum_congr rfl fun u hu => ?_
      rw [mem_range, hz.mv (by omega), tdim_row] at hu
      rw [← tl_Lf (k := k) (i := j) hb (show 0 < m + 1 by omega) (by omega) hu.1]
      rfl
    have e2 : ∑ u ∈ range (z.mv m), opE .noTrans (s.t m m) l u * opE .conjTrans (tl z.b s.a k (m - 1)) u j =
        ∑ u ∈ range (z.mv m), s.t m m l u * star (Lf z.b s.a (k * z.b + j) (m * z.b + u)) := by
      refine sum_congr rfl fun u hu => ?_
      rw [mem_range, hz.mv (by omega), tdim_row] at hu
      rw [← tl_Lf (k := k) (i := j) hb (show 0 < m by omega) (by omega) hu.1]
      rfl
    rw [e3]
    by_cases hm1 : 1 < m
    · rw [if_pos hm1, gm_val hl hj, gm_val hl hj, e2]
      have e1 : ∑ u ∈ range z.b, opE .noTrans (s.t m (m - 1)) l u * opE .conjTrans (tl z.b s.a k (m - 1 - 1)) u j =
          ∑ u ∈ range z.b, s.t m (m - 1) l u * star (Lf z.b s.a (k * z.b + j) ((m - 1) * z.b + u)) := by
        refine sum_congr rfl fun u hu => ?_
        rw [mem_range] at hu
        rw [← tl_Lf (k := k) (i := j) hb (show 0 < m - 1 by omega) (by omega) hu]
        rfl
      rw [e1]
      ring
    · rw [if_neg hm1, gm_val hl hj, e2]
      obtain rfl : m = 1 := by omega
      have e1 : ∑ u ∈ range z.b, s.t 1 (1 - 1) l u * star (Lf z.b s.a (k * z.b + j) ((1 - 1) * z.b + u)) = 0 := by
        refine sum_eq_zero fun u hu => ?_
        rw [mem_range] at hu
        have : 1 * z.b ≤ k * z.b := Nat.mul_le_mul_right _ (by omega)
        rw [Nat.sub_self, Nat.zero_mul, Nat.zero_add, Lf_first hb (by omega) hu, star_zero, mul_zero]
      rw [e1]
      ring

/-! ### The diagonal block of T -/

theorem w3Sum_eff (hz : z.OK) (hk : k < z.mt) (h1 : 1 < k) (s : AS α) :
    ∃ w, w3Sum z k s = { s with w3 := w } ∧ ∀ i j, i < z.mv k → j < z.mv k →
      w 0 i j = -∑ m ∈ range (k - 1), ∑ l ∈ range (z.mv (m + 1)), s.a (k * z.b + i) (m * z.b + l) * s.h (m + 1) l j := by
  have hP : w3Sum z k s = { s with w3 := ((tree (k - 1)).foldl (fun w p => Function.update w p.1 (addK (z.mv k) (z.mv k) (w p.2) (w p.1)))
      ((List.range' 1 (k - 1)).foldl (fun w m => Function.update w ((m - 1) % (k - 1))
      (gm .noTrans .noTrans (z.mv k) (z.mv k) (z.mv m) (-1) (tl z.b s.a k (m - 1)) (s.h m) (if m < (k - 1) + 1 then 0 else 1)
      (w ((m - 1) % (k - 1))))) s.w3)) } := by
    unfold w3Sum
    simp only
    rw [fold_w3 (fun m a h w => Function.update w ((m - 1) % (k - 1))
      (gm .noTrans .noTrans (z.mv k) (z.mv k) (z.mv m) (-1) (tl z.b a k (m - 1)) (h m) (if m < (k - 1) + 1 then 0 else 1)
      (w ((m - 1) % (k - 1))))) (List.range' 1 (k - 1)) s]
    rw [fold_w3 (fun (p : Nat × Nat) _ _ w => Function.update w p.1 (addK (z.mv k) (z.mv k) (w p.2) (w p.1)))]
  rw [hP]
  refine ⟨_, rfl, ?_⟩
  · intro i j hi hj
    obtain ⟨w1, hw1⟩ : ∃ w1, w1 = (List.range' 1 (k - 1)).foldl (fun w m => Function.update w ((m - 1) % (k - 1))
      (gm .noTrans .noTrans (z.mv k) (z.mv k) (z.mv m) (-1) (tl z.b s.a k (m - 1)) (s.h m) (if m < (k - 1) + 1 then 0 else 1)
      (w ((m - 1) % (k - 1))))) s.w3 := ⟨_, rfl⟩
    rw [← hw1]
    have hev : ∀ (L : List (Nat × Nat)) (w : Nat → Tl α), 
        (fun (q : Nat) => L.foldl (fun (w : Nat → Tl α) (p : Nat × Nat) => Function.update w p.1 (addK (z.mv k) (z.mv k) (w p.2) (w p.1))) w q i j) =
        L.foldl estep (fun q => w q i j) := by
      intro L
      induction L with
      | nil => intro w; rfl
      | cons p L ih =>
        intro w
        rw [List.foldl_cons, List.foldl_cons, ih]
        congr 1
        funext q
        unfold estep
        by_cases hq : q = p.1
        · subst hq; rw [Function.update_self, Function.update_self]; exact if_pos ⟨hi, hj⟩
        · rw [Function.update_of_ne hq, Function.update_of_ne hq]
    have := congrFun (hev (tree (k - 1)) w1) 0
    rw [this, tree_fold (by omega), ← sum_neg_distrib]
    refine sum_congr rfl fun m hm => ?_
    rw [mem_range] at hm
    have hmod : m % (k - 1) = m := Nat.mod_eq_of_lt hm
    have := fold_upd_mem (l := List.range' 1 (k - 1)) List.nodup_range' (ix := fun m => (m - 1) % (k - 1)) (by
        intro x hx y hy e
        rw [List.mem_range'_1] at hx hy
        rw [Nat.mod_eq_of_lt (by omega), Nat.mod_eq_of_lt (by omega)] at e
        omega)
      (G := fun m x => gm .noTrans .noTrans (z.mv k) (z.mv k) (z.mv m) (-1) (tl z.b s.a k (m - 1)) (s.h m)
        (if m < (k - 1) + 1 then 0 else 1) x) s.w3 (m := m + 1) (by rw [List.mem_range'_1]; omega)
    rw [Nat.add_sub_cancel, hmod, ← hw1] at this
    rw [this, gm_val hi hj, if_pos (by omega)]
    simp only [opE, tl]
    ring

/-- What `T(k,k)` is computed from. -/
def AhE (z : AC) (k : Nat) (s : AS α) (i j : Nat) : α :=
  s.a (k * z.b + i) (k * z.b + j) -
    (∑ m ∈ range (k - 1), ∑ l ∈ range (z.mv (m + 1)), s.a (k * z.b + i) (m * z.b + l) * s.h (m + 1) l j) -
    if 1 < k then ∑ u ∈ range z.b, (∑ v ∈ range (z.mv k), s.a (k * z.b + i) ((k - 1) * z.b + v) * s.t k (k - 1) v u) *
      star (s.a (k * z.b + j) ((k - 1 - 1) * z.b + u)) else 0

theorem hegst_low {n : Nat} {A B : Tl α} (hdv : IsDiv dv) {F : Nat → Nat → α} (hF : ∀ i j, j ≤ i → i < n → A i j = F i j)
    (hre : ∀ i, i < n → star (F i i) = F i i) :
    (∀ i j, i < n → j < n → star (expandK n (hegstK dv n A B) i j) = expandK n (hegstK dv n A B) j i) ∧
    ∀ i j, j ≤ i → i < n → ∑ u ∈ range n, trE .lower .unit B i u *
      ∑ v ∈ range n, expandK n (hegstK dv n A B) u v * star (trE .lower .unit B j v) = F i j := by
  obtain ⟨h1, h2⟩ := hegst_spec (A := A) (B := B) (n := n) hdv (fun i hi => by rw [hF i i (le_refl _) hi]; exact hre i hi)
  refine ⟨h1, fun i j hj hi => ?_⟩
  rw [h2 i j hi (by omega), herm, if_pos hj, hF i j hj hi]

theorem setT_t_self {m n : Nat} {Y : Tl α} {s : AS α} : (setT m n Y s).t m n = Y := by
  unfold setT; simp only; rw [Function.update_self, Function.update_self]

theorem setT_t_ne {m n m' n' : Nat} {Y : Tl α} {s : AS α} (h : m' ≠ m ∨ n' ≠ n) : (setT m n Y s).t m' n' = s.t m' n' := by
  unfold setT; simp only
  by_cases e : m' = m
  · subst e
    rw [Function.update_self, Function.update_of_ne (by omega)]
  · rw [Function.update_of_ne e]

theorem diagT_eff (hz : z.OK) (hdv : IsDiv dv) (hk : k < z.mt) {s : AS α} (hs : s.st = 0)
    (hre : ∀ i, i < z.mv k → star (AhE z k s i i) = AhE z k s i i) :
    ∃ w3 w Y, diagT dv z k s = { setT k k Y s with w3 := w3, w := w } ∧
      (∀ i j, i < z.mv k → j < z.mv k → star (Y i j) = Y j i) ∧
      ∀ i j, j ≤ i → i < z.mv k → (if 0 < k then ∑ u ∈ range (z.mv k), trE .lower .unit (tl z.b s.a k (k - 1)) i u *
        ∑ v ∈ range (z.mv k), Y u v * star (trE .lower .unit (tl z.b s.a k (k - 1)) j v) else Y i j) = AhE z k s i j := by
  have hsub : ∀ Y Y' : Tl α, ∀ s : AS α, setT k k Y (setT k k Y' s) = setT k k Y s := by
    intro Y Y' s
    unfold setT
    simp only [Function.update_self, Function.update_idem]
  unfold diagT
  rw [if_neg (by omega)]
  by_cases h1 : 1 < k
  · obtain ⟨w, hw, hw'⟩ := w3Sum_eff hz hk h1 s
    simp only [if_pos h1, if_pos (show 0 < k by omega), hw]
    refine ⟨w, gm .noTrans .noTrans (z.mv k) z.b (z.mv k) 1 (tl z.b s.a k (k - 1)) (s.t k (k - 1)) 0 s.w, expandK (z.mv k) (hegstK dv (z.mv k) (gm .noTrans .conjTrans (z.mv k) (z.mv k) z.b (-1)
        (gm .noTrans .noTrans (z.mv k) z.b (z.mv k) 1 (tl z.b s.a k (k - 1)) (s.t k (k - 1)) 0 s.w)
        (tl z.b s.a k (k - 1 - 1)) 1 (addK (z.mv k) (z.mv k) (w 0) (cpL (z.mv k) (tl z.b s.a k k) (s.t k k)))) (tl z.b s.a k (k - 1))), ?_, ?_⟩
    · unfold setT
      simp only [Function.update_self, Function.update_idem, Function.update_of_ne (show k - 1 ≠ k by omega)]
    · refine hegst_low hdv (F := AhE z k s) ?_ hre
      intro i j hj hi
      rw [gm_val hi (by omega)]
      have e1 : addK (z.mv k) (z.mv k) (w 0) (cpL (z.mv k) (tl z.b s.a k k) (s.t k k)) i j = w 0 i j + s.a (k * z.b + i) (k * z.b + j) := by
        unfold addK cpL
        rw [if_pos ⟨hi, by omega⟩, if_pos ⟨hj, hi⟩]
        rfl
      rw [e1, hw' i j hi (by omega)]
      unfold AhE
      rw [if_pos h1]
      have e2 : ∑ l ∈ range z.b, opE .noTrans (gm .noTrans .noTrans (z.mv k) z.b (z.mv k) 1 (tl z.b s.a k (k - 1)) (s.t k (k - 1)) 0 s.w) i l *
          opE .conjTrans (tl z.b s.a k (k - 1 - 1)) l j =
          ∑ u ∈ range z.b, (∑ v ∈ range (z.mv k), s.a (k * z.b + i) ((k - 1) * z.b + v) * s.t k (k - 1) v u) *
          star (s.a (k * z.b + j) ((k - 1 - 1) * z.b + u)) := by
        refine sum_congr rfl fun u hu => ?_
        rw [mem_range] at hu
        show gm .noTrans .noTrans (z.mv k) z.b (z.mv k) 1 (tl z.b s.a k (k - 1)) (s.t k (k - 1)) 0 s.w i u * star (tl z.b s.a k (k - 1 - 1) j u) = _
        rw [gm_val hi hu, zero_mul, zero_add, one_mul]
        rfl
      rw [e2]
      ring
  · have hlow : ∀ i j, j ≤ i → i < z.mv k → expandK (z.mv k) (cpL (z.mv k) (tl z.b s.a k k) (s.t k k)) i j = AhE z k s i j := by
      intro i j hj hi
      have hA : ∀ i j, AhE z k s i j = s.a (k * z.b + i) (k * z.b + j) := by
        intro i j
        unfold AhE
        rw [if_neg h1, show k - 1 = 0 by omega]
        simp
      unfold expandK
      by_cases hij : i ≤ j
      · obtain rfl : i = j := by omega
        rw [if_pos ⟨hij, hi⟩]
        unfold cpL
        rw [if_pos ⟨hj, hi⟩]
        have := hre i hi
        rw [hA] at this ⊢
        exact this
      · rw [if_neg (fun hh => hij hh.1)]
        unfold cpL
        rw [if_pos ⟨hj, hi⟩, hA]
        rfl
    simp only [if_neg h1]
    by_cases h0 : 0 < k
    · simp only [if_pos h0]
      refine ⟨s.w3, s.w, expandK (z.mv k) (hegstK dv (z.mv k) (expandK (z.mv k) (cpL (z.mv k) (tl z.b s.a k k) (s.t k k))) (tl z.b s.a k (k - 1))), ?_, ?_⟩
      · rw [hsub, setT_t_self]
        rfl
      · exact hegst_low hdv hlow hre
    · simp only [if_neg h0]
      refine ⟨s.w3, s.w, _, rfl, ?_, hlow⟩
      intro i j hi hj
      rcases Nat.lt_trichotomy i j with h | h | h
      · conv_lhs => unfold expandK
        rw [if_pos ⟨by omega, hj⟩, star_star]
        unfold expandK
        rw [if_neg (by omega)]
      · subst h
        rw [hlow i i (le_refl _) hi, hre i hi]
      · conv_rhs => unfold expandK
        rw [if_pos ⟨by omega, hi⟩]
        unfold expandK
        rw [if_neg (by omega)]

/-! ### H(k,k) -/

theorem diagH_eff (hz : z.OK) (hk : k < z.mt) {s : AS α} (hs : s.st = 0) :
    ∃ h', diagH z k s = { s with h := h' } ∧ (∀ m, m ≠ k → h' m = s.h m) ∧ (0 < k → k + 1 < z.mt →
      ∀ l j, l < z.mv k → j < z.mv k → h' k l j = Hf z.N z.b s.a s.t (k * z.b + l) (k * z.b + j)) := by
  have hb := hz.b
  have key : 0 < k → k + 1 < z.mt → ∀ l j, l < z.mv k → j < z.mv k → Hf z.N z.b s.a s.t (k * z.b + l) (k * z.b + j) =
      (if 1 < k then ∑ u ∈ range z.b, s.t k (k - 1) l u * star (s.a (k * z.b + j) ((k - 1 - 1) * z.b + u)) else 0) +
      ∑ u ∈ range (z.mv k), s.t k k l u * star (s.a (k * z.b + j) ((k - 1) * z.b + u)) := by
    intro h0 hk1 l j hl hj
    rw [hz.mv (by omega), tdim_row] at hl hj
    rw [Hf_block hb hl.1 hl.2, if_pos h0]
    have e3 : ∑ u ∈ range (tdim z.N z.b (k + 1)), star (s.t (k + 1) k u l) * star (Lf z.b s.a (k * z.b + j) ((k + 1) * z.b + u)) = 0 := by
      refine sum_eq_zero fun u hu => ?_
      rw [mem_range, tdim_row] at hu
      rw [Lf_zero (by rw [div_of_tile hu.1, Nat.succ_mul]; omega), star_zero, mul_zero]
    have e2 : ∑ u ∈ range (tdim z.N z.b k), s.t k k l u * star (Lf z.b s.a (k * z.b + j) (k * z.b + u)) =
        ∑ u ∈ range (z.mv k), s.t k k l u * star (s.a (k * z.b + j) ((k - 1) * z.b + u)) := by
      rw [hz.mv hk]
      refine sum_congr rfl fun u hu => ?_
      rw [mem_range, tdim_row] at hu
      rw [← tl_Lf hb h0 (le_refl k) hu.1]
      rfl
    rw [e3, e2, add_zero]
    congr 1
    by_cases h1 : 1 < k
    · rw [if_pos h1]
      refine sum_congr rfl fun u hu => ?_
      rw [mem_range] at hu
      rw [← tl_Lf hb (show 0 < k - 1 by omega) (show k - 1 ≤ k by omega) hu]
      rfl
    · rw [if_neg h1]
      refine sum_eq_zero fun u hu => ?_
      rw [mem_range] at hu
      have : 1 * z.b ≤ k * z.b := Nat.mul_le_mul_right _ (by omega)
      rw [show k - 1 = 0 by omega, Nat.zero_mul, Nat.zero_add, Lf_first hb (by omega) hu, star_zero, mul_zero]
  unfold diagH
  rw [if_neg (by omega)]
  by_cases h1 : 1 < k
  · simp only [if_pos h1]
    by_cases h2 : k + 1 < z.mt ∧ 0 < k
    · simp only [if_pos h2]
      refine ⟨_, rfl, ?_, ?_⟩
      · intro m hm
        rw [Function.update_of_ne hm, Function.update_of_ne hm]
      · intro h0 hk1 l j hl hj
        rw [Function.update_self, Function.update_self, gm_val hl hj, gm_val hl hj, key h0 hk1 l j hl hj, if_pos h1]
        simp only [opE, tl]
        ring
    · simp only [if_neg h2]
      exact ⟨_, rfl, fun m hm => Function.update_of_ne hm _ _, fun h0 hk1 => absurd ⟨hk1, h0⟩ h2⟩
  · simp only [if_neg h1]
    by_cases h2 : k + 1 < z.mt ∧ 0 < k
    · simp only [if_pos h2]
      refine ⟨_, rfl, fun m hm => Function.update_of_ne hm _ _, ?_⟩
      intro h0 hk1 l j hl hj
      rw [Function.update_self, gm_val hl hj, key h0 hk1 l j hl hj, if_neg h1]
      simp only [opE, tl]
      ring
    · simp only [if_neg h2]
      exact ⟨s.h, rfl, fun _ _ => rfl, fun h0 hk1 => absurd ⟨hk1, h0⟩ h2⟩

/-! ### The update of the column -/

theorem row_put (hz : z.OK) {F : (Nat → α) → Nat → Nat → α} {Y : (Nat → Nat → α) → Nat → Tl α}
    (hY : ∀ X m i j, i < z.mv m → j < z.mv k → Y X m i j = F (X (m * z.b + i)) (m * z.b + i) (k * z.b + j)) (X : Nat → Nat → α)
    (hk : k + 1 < z.mt) (r c : Nat) :
    (List.range' (k + 1) (z.mt - k - 1)).foldl (fun X m => put z.b X m k (z.mv m) (z.mv k) (Y X m)) X r c =
      if (k + 1) * z.b ≤ r ∧ r < z.N ∧ k * z.b ≤ c ∧ c < k * z.b + z.mv k then F (X r) r c else X r c := by
  have key : ∀ t, t ≤ z.mt - k - 1 → ∀ r c,
      (List.range' (k + 1) t).foldl (fun X m => put z.b X m k (z.mv m) (z.mv k) (Y X m)) X r c =
      if (k + 1) * z.b ≤ r ∧ r < min z.N ((k + 1 + t) * z.b) ∧ k * z.b ≤ c ∧ c < k * z.b + z.mv k then F (X r) r c else X r c := by
    intro t
    induction t with
    | zero =>
      intro _ r c
      rw [if_neg (by rw [Nat.add_zero]; omega)]
      rfl
    | succ t ih =>
      intro ht r c
      rw [List.range'_concat, List.foldl_append, Nat.one_mul]
      simp only [List.foldl_cons, List.foldl_nil]
      have ih := ih (by omega)
      generalize (List.range' (k + 1) t).foldl (fun X m => put z.b X m k (z.mv m) (z.mv k) (Y X m)) X = X1 at *
      have hm : k + 1 + t < z.mt := by omega
      have hmv := hz.mv hm
      have hmb := hz.lt.mp hm
      have e : (k + 1 + (t + 1)) * z.b = (k + 1 + t) * z.b + z.b := by rw [← Nat.add_assoc, Nat.succ_mul]
      have hle : (k + 1) * z.b ≤ (k + 1 + t) * z.b := Nat.mul_le_mul_right _ (by omega)
      have hd : tdim z.N z.b (k + 1 + t) = min z.b (z.N - (k + 1 + t) * z.b) := rfl
      unfold put
      by_cases h : (k + 1 + t) * z.b ≤ r ∧ r < (k + 1 + t) * z.b + z.mv (k + 1 + t) ∧ k * z.b ≤ c ∧ c < k * z.b + z.mv k
      · rw [if_pos h, hY _ _ _ _ (by omega) (by omega), if_pos (by omega)]
        rw [Nat.add_sub_cancel' h.1, Nat.add_sub_cancel' h.2.2.1]
        congr 1
        funext c'
        rw [ih, if_neg (by omega)]
      · rw [if_neg h, ih]
        have : ((k + 1) * z.b ≤ r ∧ r < min z.N ((k + 1 + t) * z.b) ∧ k * z.b ≤ c ∧ c < k * z.b + z.mv k) ↔
            ((k + 1) * z.b ≤ r ∧ r < min z.N ((k + 1 + (t + 1)) * z.b) ∧ k * z.b ≤ c ∧ c < k * z.b + z.mv k) := by
          omega
        simp only [this]
  rw [key _ (le_refl _)]
  have : ¬ z.mt < z.mt := Nat.lt_irrefl _
  rw [hz.lt] at this
  rw [show k + 1 + (z.mt - k - 1) = z.mt by omega, Nat.min_eq_left (by omega)]

theorem colDirect_eff (hz : z.OK) (hk : k + 1 < z.mt) (s : AS α) :
    ∃ a', colDirect z k s = { s with a := a' } ∧ ∀ r c, a' r c =
      if (k + 1) * z.b ≤ r ∧ r < z.N ∧ k * z.b ≤ c ∧ c < k * z.b + z.mv k then
        s.a r c - ∑ n ∈ range k, ∑ l ∈ range (z.mv (n + 1)), s.a r (n * z.b + l) * s.h (n + 1) l (c - k * z.b) else s.a r c := by
  have hP : colDirect z k s = { s with a := ((List.range' 1 k).foldl (fun X n => (List.range' (k + 1) (z.mt - k - 1)).foldl (fun X m =>
      put z.b X m k (z.mv m) (z.mv k) (gm .noTrans .noTrans (z.mv m) (z.mv k) (z.mv n) (-1) (tl z.b X m (n - 1)) (s.h n) 1 (tl z.b X m k)))
      X) s.a) } := by
    rw [← fold_a (fun n h _ X => (List.range' (k + 1) (z.mt - k - 1)).foldl (fun X m =>
      put z.b X m k (z.mv m) (z.mv k) (gm .noTrans .noTrans (z.mv m) (z.mv k) (z.mv n) (-1) (tl z.b X m (n - 1)) (h n) 1 (tl z.b X m k)))
      X) (List.range' 1 k) s]
    unfold colDirect
    congr 1
    funext s n
    exact fold_a (fun m h _ X =>
      put z.b X m k (z.mv m) (z.mv k) (gm .noTrans .noTrans (z.mv m) (z.mv k) (z.mv n) (-1) (tl z.b X m (n - 1)) (h n) 1 (tl z.b X m k)))
      (List.range' (k + 1) (z.mt - k - 1)) s
  rw [hP]
  refine ⟨_, rfl, ?_⟩
  have key : ∀ t, t ≤ k → ∀ r c, (List.range' 1 t).foldl (fun X n => (List.range' (k + 1) (z.mt - k - 1)).foldl (fun X m =>
      put z.b X m k (z.mv m) (z.mv k) (gm .noTrans .noTrans (z.mv m) (z.mv k) (z.mv n) (-1) (tl z.b X m (n - 1)) (s.h n) 1 (tl z.b X m k)))
      X) s.a r c = if (k + 1) * z.b ≤ r ∧ r < z.N ∧ k * z.b ≤ c ∧ c < k * z.b + z.mv k then
        s.a r c - ∑ n ∈ range t, ∑ l ∈ range (z.mv (n + 1)), s.a r (n * z.b + l) * s.h (n + 1) l (c - k * z.b) else s.a r c := by
    intro t
    induction t with
    | zero => intro _ r c; simp
    | succ t ih =>
      intro ht r c
      rw [List.range'_concat, List.foldl_append, Nat.one_mul]
      simp only [List.foldl_cons, List.foldl_nil]
      have ih := ih (by omega)
      generalize (List.range' 1 t).foldl (fun X n => (List.range' (k + 1) (z.mt - k - 1)).foldl (fun X m =>
        put z.b X m k (z.mv m) (z.mv k) (gm .noTrans .noTrans (z.mv m) (z.mv k) (z.mv n) (-1) (tl z.b X m (n - 1)) (s.h n) 1 (tl z.b X m k)))
        X) s.a = X1 at *
      rw [row_put hz (F := fun x r c => x c - ∑ l ∈ range (z.mv (t + 1)), x (t * z.b + l) * s.h (t + 1) l (c - k * z.b)) (by
        intro X m i j hi hj
        rw [gm_val hi hj, Nat.add_comm 1 t, Nat.add_sub_cancel, Nat.add_sub_cancel_left]
        simp only [opE, tl]
        ring) X1 hk]
      by_cases h : (k + 1) * z.b ≤ r ∧ r < z.N ∧ k * z.b ≤ c ∧ c < k * z.b + z.mv k
      · rw [if_pos h, if_pos h, ih, if_pos h, sum_range_succ, sub_sub]
        congr 2
        refine sum_congr rfl fun l hl => ?_
        rw [mem_range, hz.mv (by omega), tdim_row] at hl
        have : (t + 1) * z.b ≤ k * z.b := Nat.mul_le_mul_right _ (by omega)
        rw [Nat.succ_mul] at this
        rw [ih, if_neg (by omega)]
      · rw [if_neg h, if_neg h, ih, if_neg h]
  exact key k (le_refl _)

theorem slot_inj {c m m' q q' : Nat} (h : m < c) (h' : m' < c) (e : m + q * c = m' + q' * c) : m = m' ∧ q = q' := by
  have e1 := congrArg (· % c) e
  have e2 := congrArg (· / c) e
  simp only [Nat.add_mul_mod_self_right, Nat.mod_eq_of_lt h, Nat.mod_eq_of_lt h'] at e1
  simp only [Nat.add_mul_div_right _ _ (show 0 < c by omega), Nat.div_eq_of_lt h, Nat.div_eq_of_lt h'] at e2
  omega

theorem w5num_pos (hk : k + 1 < z.mt) (h0 : 0 < k) : 0 < w5num z k := by
  unfold w5num AC.wmt
  have : 1 ≤ 3 * z.mt / (z.mt - k - 1) := by
    rw [Nat.le_div_iff_mul_le (by omega)]; omega
  omega

theorem w5num_le : w5num z k ≤ k := by unfold w5num; omega

theorem w5_inner (q0 : Nat) (G : Nat → Tl α → Tl α) (w : Nat → Tl α) {mi q : Nat} (hmi : mi < z.mt - k - 1) :
    (List.range' (k + 1) (z.mt - k - 1)).foldl (fun w m => Function.update w ((m - k - 1) + q0 * (z.mt - k - 1))
      (G m (w ((m - k - 1) + q0 * (z.mt - k - 1))))) w (mi + q * (z.mt - k - 1)) =
    if q = q0 then G (k + 1 + mi) (w (mi + q0 * (z.mt - k - 1))) else w (mi + q * (z.mt - k - 1)) := by
  by_cases h : q = q0
  · subst h
    rw [if_pos rfl]
    have := fold_upd_mem (l := List.range' (k + 1) (z.mt - k - 1)) List.nodup_range' (ix := fun m => (m - k - 1) + q * (z.mt - k - 1))
      (by
        intro x hx y hy e
        rw [List.mem_range'_1] at hx hy
        have := (slot_inj (by omega) (by omega) e).1
        omega) (G := G) w (m := k + 1 + mi) (by rw [List.mem_range'_1]; omega)
    have e : k + 1 + mi - k - 1 = mi := by omega
    simp only [e] at this
    exact this
  · rw [if_neg h]
    refine fold_upd_ne (ix := fun m => (m - k - 1) + q0 * (z.mt - k - 1)) (G := G) w ?_
    intro x hx e
    rw [List.mem_range'_1] at hx
    exact h (slot_inj (by omega) hmi e).2.symm

theorem w5Mul_eff (hk : k + 1 < z.mt) (h0 : 0 < k) (s : AS α) :
    ∃ w, w5Mul z k s = { s with w5 := w } ∧ ∀ mi q i j, mi < z.mt - k - 1 → q < w5num z k → i < z.mv (k + 1 + mi) → j < z.mv k →
      w (mi + q * (z.mt - k - 1)) i j = -∑ n ∈ (range k).filter (fun n => n % w5num z k = q),
        ∑ l ∈ range (z.mv (n + 1)), s.a ((k + 1 + mi) * z.b + i) (n * z.b + l) * s.h (n + 1) l j := by
  have hP : w5Mul z k s = { s with w5 := ((List.range' 1 k).foldl (fun w n => (List.range' (k + 1) (z.mt - k - 1)).foldl (fun w m =>
      Function.update w ((m - k - 1) + ((n - 1) % w5num z k) * (z.mt - k - 1)) (gm .noTrans .noTrans (z.mv m) (z.mv k) (z.mv n) (-1)
        (tl z.b s.a m (n - 1)) (s.h n) (if n < w5num z k + 1 then 0 else 1) (w ((m - k - 1) + ((n - 1) % w5num z k) * (z.mt - k - 1)))))
      w) s.w5) } := by
    rw [← fold_w5 (fun n a h w => (List.range' (k + 1) (z.mt - k - 1)).foldl (fun w m =>
      Function.update w ((m - k - 1) + ((n - 1) % w5num z k) * (z.mt - k - 1)) (gm .noTrans .noTrans (z.mv m) (z.mv k) (z.mv n) (-1)
        (tl z.b a m (n - 1)) (h n) (if n < w5num z k + 1 then 0 else 1) (w ((m - k - 1) + ((n - 1) % w5num z k) * (z.mt - k - 1)))))
      w) (List.range' 1 k) s]
    unfold w5Mul
    congr 1
    funext s n
    exact fold_w5 (fun m a h w => Function.update w ((m - k - 1) + ((n - 1) % w5num z k) * (z.mt - k - 1)) (gm .noTrans .noTrans (z.mv m) (z.mv k) (z.mv n) (-1)
        (tl z.b a m (n - 1)) (h n) (if n < w5num z k + 1 then 0 else 1) (w ((m - k - 1) + ((n - 1) % w5num z k) * (z.mt - k - 1)))))
      (List.range' (k + 1) (z.mt - k - 1)) s
  rw [hP]
  refine ⟨_, rfl, ?_⟩
  have hn0 := w5num_pos hk h0
  have hnk := w5num_le (z := z) (k := k)
  have key : ∀ t, t ≤ k → ∀ mi q i j, mi < z.mt - k - 1 → q < w5num z k → i < z.mv (k + 1 + mi) → j < z.mv k → q < t →
      (List.range' 1 t).foldl (fun w n => (List.range' (k + 1) (z.mt - k - 1)).foldl (fun w m =>
      Function.update w ((m - k - 1) + ((n - 1) % w5num z k) * (z.mt - k - 1)) (gm .noTrans .noTrans (z.mv m) (z.mv k) (z.mv n) (-1)
        (tl z.b s.a m (n - 1)) (s.h n) (if n < w5num z k + 1 then 0 else 1) (w ((m - k - 1) + ((n - 1) % w5num z k) * (z.mt - k - 1)))))
      w) s.w5 (mi + q * (z.mt - k - 1)) i j = -∑ n ∈ (range t).filter (fun n => n % w5num z k = q),
        ∑ l ∈ range (z.mv (n + 1)), s.a ((k + 1 + mi) * z.b + i) (n * z.b + l) * s.h (n + 1) l j := by
    intro t
    induction t with
    | zero => intro _ mi q i j _ _ _ _ hq; omega
    | succ t ih =>
      intro ht mi q i j hmi hq hi hj hqt
      rw [List.range'_concat, List.foldl_append, Nat.one_mul]
      simp only [List.foldl_cons, List.foldl_nil]
      have ih := ih (by omega) mi q i j hmi hq hi hj
      generalize (List.range' 1 t).foldl (fun w n => (List.range' (k + 1) (z.mt - k - 1)).foldl (fun w m =>
        Function.update w ((m - k - 1) + ((n - 1) % w5num z k) * (z.mt - k - 1)) (gm .noTrans .noTrans (z.mv m) (z.mv k) (z.mv n) (-1)
          (tl z.b s.a m (n - 1)) (s.h n) (if n < w5num z k + 1 then 0 else 1) (w ((m - k - 1) + ((n - 1) % w5num z k) * (z.mt - k - 1)))))
        w) s.w5 = W at *
      rw [w5_inner ((1 + t - 1) % w5num z k) (fun m x => gm .noTrans .noTrans (z.mv m) (z.mv k) (z.mv (1 + t)) (-1)
          (tl z.b s.a m (1 + t - 1)) (s.h (1 + t)) (if 1 + t < w5num z k + 1 then 0 else 1) x) W hmi]
      rw [Nat.add_comm 1 t, Nat.add_sub_cancel, range_add_one, filter_insert]
      by_cases h : q = t % w5num z k
      · rw [if_pos h, if_pos h.symm, sum_insert (by simp), gm_val hi hj]
        by_cases h2 : t + 1 < w5num z k + 1
        · rw [if_pos h2]
          have hqt' : q = t := by rw [h, Nat.mod_eq_of_lt (by omega)]
          have : (range t).filter (fun n => n % w5num z k = q) = ∅ := by
            refine filter_eq_empty_iff.mpr fun n hn e => ?_
            rw [mem_range] at hn
            rw [Nat.mod_eq_of_lt (by omega)] at e
            omega
          rw [this, sum_empty]
          simp only [opE, tl]
          ring
        · rw [if_neg h2, ← h, ih (by omega)]
          simp only [opE, tl]
          ring
      · rw [if_neg h, if_neg (fun e => h e.symm)]
        refine ih ?_
        by_contra hc
        have : q = t := by omega
        exact h (by rw [← this, Nat.mod_eq_of_lt hq])
  intro mi q i j h1 h2 h3 h4
  exact key k (le_refl _) mi q i j h1 h2 h3 h4 (by omega)

theorem w5Sum_eff (hk : k + 1 < z.mt) (h0 : 0 < k) (s : AS α) :
    ∃ w, w5Sum z k s = { s with w5 := w } ∧ ∀ mi i j, mi < z.mt - k - 1 → i < z.mv (k + 1 + mi) → j < z.mv k →
      w mi i j = ∑ q ∈ range (w5num z k), s.w5 (mi + q * (z.mt - k - 1)) i j := by
  have hP : w5Sum z k s = { s with w5 := ((tree (w5num z k)).foldl (fun w p => (List.range' (k + 1) (z.mt - k - 1)).foldl (fun w m =>
      Function.update w ((m - k - 1) + p.1 * (z.mt - k - 1)) (addK (z.mv m) (z.mv k)
        (w ((m - k - 1) + p.2 * (z.mt - k - 1))) (w ((m - k - 1) + p.1 * (z.mt - k - 1))))) w) s.w5) } := by
    rw [← fold_w5 (fun (p : Nat × Nat) _ _ w => (List.range' (k + 1) (z.mt - k - 1)).foldl (fun w m =>
      Function.update w ((m - k - 1) + p.1 * (z.mt - k - 1)) (addK (z.mv m) (z.mv k)
        (w ((m - k - 1) + p.2 * (z.mt - k - 1))) (w ((m - k - 1) + p.1 * (z.mt - k - 1))))) w) (tree (w5num z k)) s]
    unfold w5Sum
    congr 1
    funext s p
    exact fold_w5 (fun m _ _ w => Function.update w ((m - k - 1) + p.1 * (z.mt - k - 1)) (addK (z.mv m) (z.mv k)
        (w ((m - k - 1) + p.2 * (z.mt - k - 1))) (w ((m - k - 1) + p.1 * (z.mt - k - 1)))))
      (List.range' (k + 1) (z.mt - k - 1)) s
  rw [hP]
  refine ⟨_, rfl, ?_⟩
  intro mi i j hmi hi hj
  have hone : ∀ (p : Nat × Nat), p.1 ≠ p.2 → ∀ (w : Nat → Tl α), ∀ q, (List.range' (k + 1) (z.mt - k - 1)).foldl (fun w m =>
      Function.update w ((m - k - 1) + p.1 * (z.mt - k - 1)) (addK (z.mv m) (z.mv k)
        (w ((m - k - 1) + p.2 * (z.mt - k - 1))) (w ((m - k - 1) + p.1 * (z.mt - k - 1))))) w (mi + q * (z.mt - k - 1)) i j =
      estep (fun q => w (mi + q * (z.mt - k - 1)) i j) p q := by
    intro p hp w q
    -- the tiles read are not written
    have hrw : ∀ (l : List Nat), (∀ m ∈ l, k + 1 ≤ m ∧ m < z.mt) → ∀ (w' : Nat → Tl α),
        (∀ m, k + 1 ≤ m → m < z.mt → w' ((m - k - 1) + p.2 * (z.mt - k - 1)) = w ((m - k - 1) + p.2 * (z.mt - k - 1))) →
        l.foldl (fun w m => Function.update w ((m - k - 1) + p.1 * (z.mt - k - 1)) (addK (z.mv m) (z.mv k)
          (w ((m - k - 1) + p.2 * (z.mt - k - 1))) (w ((m - k - 1) + p.1 * (z.mt - k - 1))))) w' =
        l.foldl (fun w' m => Function.update w' ((m - k - 1) + p.1 * (z.mt - k - 1)) (addK (z.mv m) (z.mv k)
          (w ((m - k - 1) + p.2 * (z.mt - k - 1))) (w' ((m - k - 1) + p.1 * (z.mt - k - 1))))) w' := by
      intro l
      induction l with
      | nil => intro _ w' _; rfl
      | cons m l ih =>
        intro hl w' hw'
        have hm := hl m List.mem_cons_self
        rw [List.foldl_cons, List.foldl_cons, hw' m hm.1 hm.2]
        refine ih (fun x hx => hl x (List.mem_cons_of_mem _ hx)) _ fun x h1 h2 => ?_
        rw [Function.update_of_ne (fun e => hp (slot_inj (by omega) (by omega) e).2.symm), hw' x h1 h2]
    rw [hrw _ (fun m hm => by rw [List.mem_range'_1] at hm; omega) w (fun _ _ _ => rfl)]
    rw [w5_inner p.1 (fun m x => addK (z.mv m) (z.mv k) (w ((m - k - 1) + p.2 * (z.mt - k - 1))) x) w hmi]
    unfold estep
    by_cases hq : q = p.1
    · subst hq
      rw [if_pos rfl, Function.update_self, show k + 1 + mi - k - 1 = mi by omega]
      exact if_pos ⟨hi, hj⟩
    · rw [if_neg hq, Function.update_of_ne hq]
  have hev : ∀ (L : List (Nat × Nat)), (∀ p ∈ L, p.1 ≠ p.2) → ∀ (w : Nat → Tl α),
      (fun (q : Nat) => L.foldl (fun (w : Nat → Tl α) (p : Nat × Nat) => (List.range' (k + 1) (z.mt - k - 1)).foldl (fun w m =>
      Function.update w ((m - k - 1) + p.1 * (z.mt - k - 1)) (addK (z.mv m) (z.mv k)
        (w ((m - k - 1) + p.2 * (z.mt - k - 1))) (w ((m - k - 1) + p.1 * (z.mt - k - 1))))) w) w (mi + q * (z.mt - k - 1)) i j) =
      L.foldl estep (fun q => w (mi + q * (z.mt - k - 1)) i j) := by
    intro L
    induction L with
    | nil => intro _ w; rfl
    | cons p L ih =>
      intro hL w
      rw [List.foldl_cons, List.foldl_cons, ih (fun x hx => hL x (List.mem_cons_of_mem _ hx))]
      congr 1
      funext q
      exact hone p (hL p List.mem_cons_self) w q
  have hne : ∀ p ∈ tree (w5num z k), p.1 ≠ p.2 := by
    have : ∀ R P d, 0 < d → ∀ p ∈ treePairs R P (2 * d), p.1 ≠ p.2 := by
      intro R
      induction R with
      | zero => intro P d _ p hp; cases hp
      | succ R ih =>
        intro P d hd p hp
        unfold treePairs at hp
        rw [List.mem_append] at hp
        rcases hp with hp | hp
        · rw [List.mem_map] at hp
          obtain ⟨x, _, rfl⟩ := hp
          show 2 * d * x ≠ 2 * d * x + 2 * d / 2
          omega
        · exact ih _ _ (by omega) p hp
    exact this _ _ 1 (by omega)
  have := congrFun (hev _ hne s.w5) 0
  simp only [Nat.zero_mul, Nat.add_zero] at this
  rw [this, tree_fold (w5num_pos hk h0)]

theorem colUpd_eff (hz : z.OK) (hk : k + 1 < z.mt) (s : AS α) :
    ∃ a' w', colUpd z k s = { s with a := a', w5 := w' } ∧ ∀ r c, a' r c =
      if (k + 1) * z.b ≤ r ∧ r < z.N ∧ k * z.b ≤ c ∧ c < k * z.b + z.mv k then
        s.a r c - ∑ n ∈ range k, ∑ l ∈ range (z.mv (n + 1)), s.a r (n * z.b + l) * s.h (n + 1) l (c - k * z.b) else s.a r c := by
  unfold colUpd
  by_cases h0 : 0 < k
  · rw [if_pos h0]
    by_cases h1 : z.mt - k < z.mth
    · rw [if_pos h1]
      obtain ⟨w1, e1, hw1⟩ := w5Mul_eff hk h0 s
      obtain ⟨w2, e2, hw2⟩ := w5Sum_eff hk h0 { s with w5 := w1 }
      rw [e1, e2]
      have hP : w5Add z k { s with w5 := w2 } = { s with w5 := w2, a := ((List.range' (k + 1) (z.mt - k - 1)).foldl (fun X m =>
          put z.b X m k (z.mv m) (z.mv k) (addK (z.mv m) (z.mv k) (w2 (m - k - 1)) (tl z.b X m k))) s.a) } :=
        fold_a (fun m _ w X => put z.b X m k (z.mv m) (z.mv k) (addK (z.mv m) (z.mv k) (w (m - k - 1)) (tl z.b X m k)))
          (List.range' (k + 1) (z.mt - k - 1)) { s with w5 := w2 }
      refine ⟨_, w2, hP, fun r c => ?_⟩
      rw [row_put hz (F := fun x r c => w2 (r / z.b - k - 1) (r % z.b) (c - k * z.b) + x c) (by
        intro X m i j hi hj
        have hib : i < z.b := lt_of_lt_of_le hi (hmv_le hz.b m)
        rw [div_of_tile hib, mod_of_tile hib, Nat.add_sub_cancel_left]
        exact if_pos ⟨hi, hj⟩) s.a hk]
      by_cases h : (k + 1) * z.b ≤ r ∧ r < z.N ∧ k * z.b ≤ c ∧ c < k * z.b + z.mv k
      · rw [if_pos h, if_pos h]
        have hdm := dm r z.b
        have hrb : k + 1 ≤ r / z.b := (Nat.le_div_iff_mul_le hz.b).mpr h.1
        have hrt : r / z.b < z.mt := by
          rw [hz.lt]; have := Nat.div_mul_le_self r z.b; omega
        obtain ⟨mi, hmi⟩ : ∃ mi, r / z.b = k + 1 + mi := ⟨r / z.b - (k + 1), by omega⟩
        have hrm : r % z.b < z.mv (k + 1 + mi) := by
          rw [← hmi, hz.mv hrt, tdim_row]
          exact ⟨Nat.mod_lt _ hz.b, by rw [hdm]; exact h.2.1⟩
        rw [hmi, show k + 1 + mi - k - 1 = mi by omega, hw2 mi (r % z.b) (c - k * z.b) (by omega) hrm (by omega)]
        have e3 : ∑ q ∈ range (w5num z k), w1 (mi + q * (z.mt - k - 1)) (r % z.b) (c - k * z.b) =
            -∑ n ∈ range k, ∑ l ∈ range (z.mv (n + 1)), s.a r (n * z.b + l) * s.h (n + 1) l (c - k * z.b) := by
          rw [← sum_fiberwise_of_maps_to (s := range k) (t := range (w5num z k)) (g := fun n => n % w5num z k)
            (fun n _ => mem_range.mpr (Nat.mod_lt _ (w5num_pos hk h0))), ← sum_neg_distrib]
          refine sum_congr rfl fun q hq => ?_
          rw [hw1 mi q _ _ (by omega) (mem_range.mp hq) hrm (by omega), ← hmi, hdm]
        rw [e3]
        ring
      · rw [if_neg h, if_neg h]
    · rw [if_neg h1]
      obtain ⟨a', e, ha⟩ := colDirect_eff hz hk s
      exact ⟨a', s.w5, e, ha⟩
  · rw [if_neg h0]
    refine ⟨s.a, s.w5, rfl, fun r c => ?_⟩
    rw [show k = 0 by omega]
    simp

end

end Verif.Aasen

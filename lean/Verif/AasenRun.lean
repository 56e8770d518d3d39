/-
The tasks of `plasma_pzhetrf_aasen` in program order compute what `stepsA` says.
-/
import Verif.AasenProof
import Verif.AasenTask

namespace Verif.Aasen

open Verif.Tile Verif.Layout Verif.LU Verif.Panel Verif.Heswp Finset

set_option linter.unusedSectionVars false

universe u v w

variable {M : Type u} {α : Type v} [Field α] [StarRing α] [DecidableEq α] [DecidableEq M]

/-- The four matrices are different and tiled by `b`. -/
structure AMOK (z : AC) (Z : AM M) : Prop where
  a : Z.A.Al z.b
  t : Z.T.Al z.b
  p : Z.P.Al z.b
  at' : Z.A.id ≠ Z.T.id
  aw : Z.A.id ≠ Z.W.id
  ap : Z.A.id ≠ Z.P.id
  tw : Z.T.id ≠ Z.W.id
  tp : Z.T.id ≠ Z.P.id
  wp : Z.W.id ≠ Z.P.id

section
variable (E : IntCode α) (z : AC) (Z : AM M)

/-- The state that a store represents. -/
def ab (s : Store (M × Nat × Nat) α) : AS α where
  a := Z.A.el s
  t := fun m n => if m < z.mt ∧ (m = n ∨ m = n + 1) then s (Z.t z m n) else fun _ _ => 0
  h := fun m => if m < z.mt then s (Z.h m) else fun _ _ => 0
  w3 := fun m => if m < z.mt then s (Z.w3 z m) else fun _ _ => 0
  w := s Z.w0
  w5 := fun m => s (Z.w5 z m)
  tb := Z.T.el s
  piv := fun i => E.dec (Z.P.el s i 0)
  st := 0
end

theorem AS.ext' {s s' : AS α} (h1 : s.a = s'.a) (h2 : s.t = s'.t) (h3 : s.h = s'.h) (h4 : s.w3 = s'.w3) (h5 : s.w = s'.w)
    (h6 : s.w5 = s'.w5) (h7 : s.tb = s'.tb) (h8 : s.piv = s'.piv) (h9 : s.st = s'.st) : s = s' := by
  cases s; cases s'; simp_all

theorem el_upd_ne {B : TMat M} {s : Store (M × Nat × Nat) α} {x : M × Nat × Nat} {Y : Tl α} (h : B.id ≠ x.1) :
    B.el (Function.update s x Y) = B.el s := by
  funext r c
  unfold TMat.el
  rw [Function.update_of_ne]
  intro e
  exact h (by rw [← e]; rfl)

theorem w_upd_ne {B : TMat M} {s : Store (M × Nat × Nat) α} {x : M × Nat × Nat} {Y : Tl α} (h : B.id ≠ x.1) (m n : Nat) :
    Function.update s x Y (B.at' m n) = s (B.at' m n) := by
  rw [Function.update_of_ne]
  intro e
  exact h (by rw [← e]; rfl)

theorem w_upd_i {B : TMat M} {s : Store (M × Nat × Nat) α} {Y : Tl α} {i j : Nat} (h : i ≠ j) :
    Function.update s (B.at' j 0) Y (B.at' i 0) = s (B.at' i 0) := by
  rw [Function.update_of_ne]
  intro e
  exact h (TMat.at'_inj.mp e).1

variable {E : IntCode α} {z : AC} {Z : AM M}

theorem ab_t (hZ : AMOK z Z) {m n : Nat} (hm : m < z.mt) (hn : m = n ∨ m = n + 1) (s : Store (M × Nat × Nat) α) (Y : Tl α) :
    ab E z Z (Function.update s (Z.t z m n) Y) = setT m n Y (ab E z Z s) := by
  have hv : (m - n) * z.mt = 0 ∨ (m - n) * z.mt = z.mt := by
    rcases hn with rfl | rfl
    · left; simp
    · right; simp
  refine AS.ext' (el_upd_ne hZ.aw) ?_ ?_ ?_ ?_ ?_ (el_upd_ne hZ.tw) ?_ rfl
  · funext m' n'
    show (if _ then _ else _) = Function.update (ab E z Z s).t m (Function.update ((ab E z Z s).t m) n Y) m' n'
    by_cases e1 : m' = m
    · subst e1
      rw [Function.update_self]
      by_cases e2 : n' = n
      · subst e2
        rw [Function.update_self, if_pos ⟨hm, hn⟩, Function.update_self]
      · rw [Function.update_of_ne e2]
        show _ = if _ then _ else _
        by_cases hc : m' < z.mt ∧ (m' = n' ∨ m' = n' + 1)
        · rw [if_pos hc, if_pos hc]
          refine w_upd_i ?_
          have : (m' - n') * z.mt = 0 ∧ m' = n' ∨ (m' - n') * z.mt = z.mt ∧ m' = n' + 1 := by
            rcases hc.2 with rfl | rfl
            · left; simp
            · right; simp
          rcases hn with rfl | rfl
          · simp only [Nat.sub_self, Nat.zero_mul]; omega
          · simp only [Nat.add_sub_cancel_left, Nat.one_mul]; omega
        · rw [if_neg hc, if_neg hc]
    · rw [Function.update_of_ne e1]
      show _ = if _ then _ else _
      by_cases hc : m' < z.mt ∧ (m' = n' ∨ m' = n' + 1)
      · rw [if_pos hc, if_pos hc]
        refine w_upd_i ?_
        have : (m' - n') * z.mt = 0 ∧ m' = n' ∨ (m' - n') * z.mt = z.mt ∧ m' = n' + 1 := by
          rcases hc.2 with rfl | rfl
          · left; simp
          · right; simp
        omega
      · rw [if_neg hc, if_neg hc]
  · funext m'
    show (if _ then _ else _) = if _ then _ else _
    by_cases hc : m' < z.mt
    · rw [if_pos hc, if_pos hc]; exact w_upd_i (by omega)
    · rw [if_neg hc, if_neg hc]
  · funext m'
    show (if _ then _ else _) = if _ then _ else _
    by_cases hc : m' < z.mt
    · rw [if_pos hc, if_pos hc]; exact w_upd_i (by omega)
    · rw [if_neg hc, if_neg hc]
  · exact w_upd_i (by omega)
  · funext m'
    exact w_upd_i (by omega)
  · show (fun i => E.dec _) = fun i => E.dec _
    rw [el_upd_ne hZ.wp.symm]

/-- Writing a tile of the workspace other than those of `T`. -/
theorem ab_w (hZ : AMOK z Z) {q : Nat} (hq : q < 1 + 2 * z.mt ∨ 1 + 4 * z.mt ≤ q) (s : Store (M × Nat × Nat) α) (Y : Tl α) :
    ab E z Z (Function.update s (Z.W.at' q 0) Y) = { ab E z Z s with
      h := (fun m => if m < z.mt then Function.update s (Z.W.at' q 0) Y (Z.h m) else fun _ _ => 0)
      w3 := (fun m => if m < z.mt then Function.update s (Z.W.at' q 0) Y (Z.w3 z m) else fun _ _ => 0)
      w := Function.update s (Z.W.at' q 0) Y Z.w0
      w5 := fun m => Function.update s (Z.W.at' q 0) Y (Z.w5 z m) } := by
  refine AS.ext' (el_upd_ne hZ.aw) ?_ rfl rfl rfl rfl (el_upd_ne hZ.tw) ?_ rfl
  · funext m n
    show (if _ then _ else _) = if _ then _ else _
    by_cases hc : m < z.mt ∧ (m = n ∨ m = n + 1)
    · rw [if_pos hc, if_pos hc]
      have hv : (m - n) * z.mt = 0 ∨ (m - n) * z.mt = z.mt := by
        rcases hc.2 with rfl | rfl
        · left; simp
        · right; simp
      exact w_upd_i (by omega)
    · rw [if_neg hc, if_neg hc]
  · show (fun i => E.dec _) = fun i => E.dec _
    rw [el_upd_ne hZ.wp.symm]

theorem ab_h (hZ : AMOK z Z) {m : Nat} (hm : m < z.mt) (s : Store (M × Nat × Nat) α) (Y : Tl α) :
    ab E z Z (Function.update s (Z.h m) Y) = { ab E z Z s with h := Function.update (ab E z Z s).h m Y } := by
  have := ab_w (E := E) hZ (q := 1 + m) (by omega) s Y
  refine this.trans (AS.ext' rfl rfl ?_ ?_ ?_ ?_ rfl rfl rfl)
  · funext m'
    show (if m' < z.mt then _ else _) = Function.update (ab E z Z s).h m Y m'
    by_cases e : m' = m
    · subst e
      rw [Function.update_self, if_pos hm]
      exact Function.update_self ..
    · rw [Function.update_of_ne e]
      show (if _ then _ else _) = if _ then _ else _
      by_cases hc : m' < z.mt
      · rw [if_pos hc, if_pos hc]; exact w_upd_i (by omega)
      · rw [if_neg hc, if_neg hc]
  · funext m'
    show (if _ then _ else _) = if _ then _ else _
    by_cases hc : m' < z.mt
    · rw [if_pos hc, if_pos hc]; exact w_upd_i (by omega)
    · rw [if_neg hc, if_neg hc]
  · exact w_upd_i (by omega)
  · funext m'
    exact w_upd_i (by omega)

theorem ab_w3 (hZ : AMOK z Z) {m : Nat} (hm : m < z.mt) (s : Store (M × Nat × Nat) α) (Y : Tl α) :
    ab E z Z (Function.update s (Z.w3 z m) Y) = { ab E z Z s with w3 := Function.update (ab E z Z s).w3 m Y } := by
  have := ab_w (E := E) hZ (q := 1 + z.mt + m) (by omega) s Y
  refine this.trans (AS.ext' rfl rfl ?_ ?_ ?_ ?_ rfl rfl rfl)
  · funext m'
    show (if _ then _ else _) = if _ then _ else _
    by_cases hc : m' < z.mt
    · rw [if_pos hc, if_pos hc]; exact w_upd_i (by omega)
    · rw [if_neg hc, if_neg hc]
  · funext m'
    show (if m' < z.mt then _ else _) = Function.update (ab E z Z s).w3 m Y m'
    by_cases e : m' = m
    · subst e
      rw [Function.update_self, if_pos hm]
      exact Function.update_self ..
    · rw [Function.update_of_ne e]
      show (if _ then _ else _) = if _ then _ else _
      by_cases hc : m' < z.mt
      · rw [if_pos hc, if_pos hc]; exact w_upd_i (by omega)
      · rw [if_neg hc, if_neg hc]
  · exact w_upd_i (by omega)
  · funext m'
    exact w_upd_i (by omega)

theorem ab_w0 (hZ : AMOK z Z) (s : Store (M × Nat × Nat) α) (Y : Tl α) :
    ab E z Z (Function.update s Z.w0 Y) = { ab E z Z s with w := Y } := by
  have := ab_w (E := E) hZ (q := 0) (by omega) s Y
  refine this.trans (AS.ext' rfl rfl ?_ ?_ ?_ ?_ rfl rfl rfl)
  · funext m'
    show (if _ then _ else _) = if _ then _ else _
    by_cases hc : m' < z.mt
    · rw [if_pos hc, if_pos hc]; exact w_upd_i (by omega)
    · rw [if_neg hc, if_neg hc]
  · funext m'
    show (if _ then _ else _) = if _ then _ else _
    by_cases hc : m' < z.mt
    · rw [if_pos hc, if_pos hc]; exact w_upd_i (by omega)
    · rw [if_neg hc, if_neg hc]
  · exact Function.update_self ..
  · funext m'
    exact w_upd_i (by omega)

theorem ab_w5 (hZ : AMOK z Z) {m : Nat} (s : Store (M × Nat × Nat) α) (Y : Tl α) :
    ab E z Z (Function.update s (Z.w5 z m) Y) = { ab E z Z s with w5 := Function.update (ab E z Z s).w5 m Y } := by
  have := ab_w (E := E) hZ (q := 1 + 4 * z.mt + m) (by omega) s Y
  refine this.trans (AS.ext' rfl rfl ?_ ?_ ?_ ?_ rfl rfl rfl)
  · funext m'
    show (if _ then _ else _) = if _ then _ else _
    by_cases hc : m' < z.mt
    · rw [if_pos hc, if_pos hc]; exact w_upd_i (by omega)
    · rw [if_neg hc, if_neg hc]
  · funext m'
    show (if _ then _ else _) = if _ then _ else _
    by_cases hc : m' < z.mt
    · rw [if_pos hc, if_pos hc]; exact w_upd_i (by omega)
    · rw [if_neg hc, if_neg hc]
  · exact w_upd_i (by omega)
  · funext m'
    show _ = Function.update (ab E z Z s).w5 m Y m'
    by_cases e : m' = m
    · subst e
      rw [Function.update_self]
      exact Function.update_self ..
    · rw [Function.update_of_ne e]
      exact w_upd_i (by omega)

/-- Writing part of a tile of a matrix. -/
theorem el_put {B : TMat M} {b : Nat} (hB : B.Al b) {m n mm nn : Nat} (hmm : mm ≤ b) (hnn : nn ≤ b) (s : Store (M × Nat × Nat) α) {Y : Tl α}
    (hY : ∀ i j, ¬ box mm nn i j → Y i j = s (B.at' m n) i j) :
    B.el (Function.update s (B.at' m n) Y) = put b (B.el s) m n mm nn Y := by
  have hb := hB.pos
  funext r c
  unfold TMat.el put
  rw [hB.mb, hB.nb]
  have hr := dm r b
  have hc := dm c b
  have hr' := Nat.mod_lt r hb
  have hc' := Nat.mod_lt c hb
  by_cases e : r / b = m ∧ c / b = n
  · obtain ⟨rfl, rfl⟩ := e
    rw [Function.update_self]
    by_cases hx : r % b < mm ∧ c % b < nn
    · rw [if_pos (by omega), show r - r / b * b = r % b by omega, show c - c / b * b = c % b by omega]
    · rw [if_neg (by omega), hY _ _ hx]
  · rw [Function.update_of_ne (fun h => e ⟨(TMat.at'_inj.mp h).1, (TMat.at'_inj.mp h).2⟩), if_neg]
    rintro ⟨h1, h2, h3, h4⟩
    exact e ⟨div_tile h1 (by omega), div_tile h3 (by omega)⟩

theorem ab_a (hZ : AMOK z Z) {m n mm nn : Nat} (hmm : mm ≤ z.b) (hnn : nn ≤ z.b) (s : Store (M × Nat × Nat) α) {Y : Tl α}
    (hY : ∀ i j, ¬ box mm nn i j → Y i j = s (Z.a m n) i j) :
    ab E z Z (Function.update s (Z.a m n) Y) = { ab E z Z s with a := put z.b (ab E z Z s).a m n mm nn Y } := by
  refine AS.ext' (el_put hZ.a hmm hnn s hY) ?_ ?_ ?_ ?_ ?_ ?_ ?_ rfl
  · funext m' n'
    show (if _ then _ else _) = if _ then _ else _
    by_cases hc : m' < z.mt ∧ (m' = n' ∨ m' = n' + 1)
    · rw [if_pos hc, if_pos hc]; exact w_upd_ne hZ.aw.symm _ _
    · rw [if_neg hc, if_neg hc]
  · funext m'
    show (if _ then _ else _) = if _ then _ else _
    by_cases hc : m' < z.mt
    · rw [if_pos hc, if_pos hc]; exact w_upd_ne hZ.aw.symm _ _
    · rw [if_neg hc, if_neg hc]
  · funext m'
    show (if _ then _ else _) = if _ then _ else _
    by_cases hc : m' < z.mt
    · rw [if_pos hc, if_pos hc]; exact w_upd_ne hZ.aw.symm _ _
    · rw [if_neg hc, if_neg hc]
  · exact w_upd_ne hZ.aw.symm _ _
  · funext m'; exact w_upd_ne hZ.aw.symm _ _
  · exact el_upd_ne hZ.at'.symm
  · show (fun i => E.dec _) = fun i => E.dec _
    rw [el_upd_ne hZ.ap.symm]

theorem ab_g (hZ : AMOK z Z) {m n mm nn : Nat} (hmm : mm ≤ z.b) (hnn : nn ≤ z.b) (s : Store (M × Nat × Nat) α) {Y : Tl α}
    (hY : ∀ i j, ¬ box mm nn i j → Y i j = s (Z.g m n) i j) :
    ab E z Z (Function.update s (Z.g m n) Y) = { ab E z Z s with tb := put z.b (ab E z Z s).tb m n mm nn Y } := by
  refine AS.ext' (el_upd_ne hZ.at') ?_ ?_ ?_ ?_ ?_ (el_put hZ.t hmm hnn s hY) ?_ rfl
  · funext m' n'
    show (if _ then _ else _) = if _ then _ else _
    by_cases hc : m' < z.mt ∧ (m' = n' ∨ m' = n' + 1)
    · rw [if_pos hc, if_pos hc]; exact w_upd_ne hZ.tw.symm _ _
    · rw [if_neg hc, if_neg hc]
  · funext m'
    show (if _ then _ else _) = if _ then _ else _
    by_cases hc : m' < z.mt
    · rw [if_pos hc, if_pos hc]; exact w_upd_ne hZ.tw.symm _ _
    · rw [if_neg hc, if_neg hc]
  · funext m'
    show (if _ then _ else _) = if _ then _ else _
    by_cases hc : m' < z.mt
    · rw [if_pos hc, if_pos hc]; exact w_upd_ne hZ.tw.symm _ _
    · rw [if_neg hc, if_neg hc]
  · exact w_upd_ne hZ.tw.symm _ _
  · funext m'; exact w_upd_ne hZ.tw.symm _ _
  · show (fun i => E.dec _) = fun i => E.dec _
    rw [el_upd_ne hZ.tp.symm]

/-! ### Tiles of the state -/

theorem rd_a (hZ : AMOK z Z) (s : Store (M × Nat × Nat) α) (m n : Nat) {i j : Nat} (hi : i < z.b) (hj : j < z.b) :
    s (Z.a m n) i j = tl z.b (ab E z Z s).a m n i j := by
  show _ = Z.A.el s (m * z.b + i) (n * z.b + j)
  unfold TMat.el
  rw [hZ.a.mb, hZ.a.nb, div_of_tile hi, div_of_tile hj, mod_of_tile hi, mod_of_tile hj]
  rfl

theorem rd_t {m n : Nat} (hm : m < z.mt) (hn : m = n ∨ m = n + 1) (s : Store (M × Nat × Nat) α) :
    s (Z.t z m n) = (ab E z Z s).t m n := (if_pos ⟨hm, hn⟩).symm
theorem rd_h {m : Nat} (hm : m < z.mt) (s : Store (M × Nat × Nat) α) : s (Z.h m) = (ab E z Z s).h m := (if_pos hm).symm
theorem rd_w3 {m : Nat} (hm : m < z.mt) (s : Store (M × Nat × Nat) α) : s (Z.w3 z m) = (ab E z Z s).w3 m := (if_pos hm).symm


/-! ### Kernels -/

/-- The parts of the tiles that a kernel reads are inside of tiles of size `b`. -/
structure In (b : Nat) (da db : Nat × Nat) : Prop where
  a1 : da.1 ≤ b
  a2 : da.2 ≤ b
  b1 : db.1 ≤ b
  b2 : db.2 ≤ b

/-- `X` and `Y` agree in a tile. -/
def Eqb (b : Nat) (X Y : Tl α) : Prop := ∀ i j, i < b → j < b → X i j = Y i j

theorem Eqb.rfl' {b : Nat} {X : Tl α} : Eqb b X X := fun _ _ _ _ => rfl
theorem Eqb.of {b : Nat} {X Y : Tl α} (h : X = Y) : Eqb b X Y := fun _ _ _ _ => by rw [h]
theorem eqb_a (hZ : AMOK z Z) (s : Store (M × Nat × Nat) α) (m n : Nat) : Eqb z.b (s (Z.a m n)) (tl z.b (ab E z Z s).a m n) :=
  fun _ _ h1 h2 => rd_a hZ s m n h1 h2

section ker
variable {da db dc : Nat × Nat} {K : Tl α → Tl α → Tl α → Tl α} {x y : M × Nat × Nat} {X Y : Tl α} {s : Store (M × Nat × Nat) α}

theorem ker_eq (hK : KerOK da db dc K) (hin : In z.b da db) (hx : Eqb z.b (s x) X) (hy : Eqb z.b (s y) Y) (C : Tl α) :
    K (s x) (s y) C = K X Y C :=
  hK.eq (fun i j h => hx i j (lt_of_lt_of_le h.1 hin.a1) (lt_of_lt_of_le h.2 hin.a2))
    (fun i j h => hy i j (lt_of_lt_of_le h.1 hin.b1) (lt_of_lt_of_le h.2 hin.b2))

theorem ker_h (hZ : AMOK z Z) (hK : KerOK da db dc K) (hin : In z.b da db) {m : Nat} (hm : m < z.mt) (hx : Eqb z.b (s x) X) (hy : Eqb z.b (s y) Y) :
    ab E z Z ((ker x y (Z.h m) da db dc K).run s) = { ab E z Z s with h := Function.update (ab E z Z s).h m (K X Y ((ab E z Z s).h m)) } := by
  rw [hK.run, ab_h hZ hm, ker_eq hK hin hx hy, rd_h (E := E) (Z := Z) hm s]

theorem ker_w3 (hZ : AMOK z Z) (hK : KerOK da db dc K) (hin : In z.b da db) {m : Nat} (hm : m < z.mt) (hx : Eqb z.b (s x) X) (hy : Eqb z.b (s y) Y) :
    ab E z Z ((ker x y (Z.w3 z m) da db dc K).run s) = { ab E z Z s with w3 := Function.update (ab E z Z s).w3 m (K X Y ((ab E z Z s).w3 m)) } := by
  rw [hK.run, ab_w3 hZ hm, ker_eq hK hin hx hy, rd_w3 (E := E) (Z := Z) hm s]

theorem ker_w5 (hZ : AMOK z Z) (hK : KerOK da db dc K) (hin : In z.b da db) {m : Nat} (hx : Eqb z.b (s x) X) (hy : Eqb z.b (s y) Y) :
    ab E z Z ((ker x y (Z.w5 z m) da db dc K).run s) = { ab E z Z s with w5 := Function.update (ab E z Z s).w5 m (K X Y ((ab E z Z s).w5 m)) } := by
  rw [hK.run, ab_w5 hZ, ker_eq hK hin hx hy]
  rfl

theorem ker_w0 (hZ : AMOK z Z) (hK : KerOK da db dc K) (hin : In z.b da db) (hx : Eqb z.b (s x) X) (hy : Eqb z.b (s y) Y) :
    ab E z Z ((ker x y Z.w0 da db dc K).run s) = { ab E z Z s with w := K X Y (ab E z Z s).w } := by
  rw [hK.run, ab_w0 hZ, ker_eq hK hin hx hy]
  rfl

theorem ker_t (hZ : AMOK z Z) (hK : KerOK da db dc K) (hin : In z.b da db) {m n : Nat} (hm : m < z.mt) (hn : m = n ∨ m = n + 1)
    (hx : Eqb z.b (s x) X) (hy : Eqb z.b (s y) Y) :
    ab E z Z ((ker x y (Z.t z m n) da db dc K).run s) = setT m n (K X Y ((ab E z Z s).t m n)) (ab E z Z s) := by
  rw [hK.run, ab_t hZ hm hn, ker_eq hK hin hx hy, rd_t (E := E) (Z := Z) hm hn s]

theorem put_congr {b : Nat} {W : Nat → Nat → α} {m n mm nn : Nat} {X Y : Tl α} (h : ∀ i j, box mm nn i j → X i j = Y i j) :
    put b W m n mm nn X = put b W m n mm nn Y := by
  funext r c
  unfold put
  split
  · next hc => exact h _ _ ⟨by omega, by omega⟩
  · rfl

theorem ker_a (hZ : AMOK z Z) (hK : KerOK da db dc K) (hin : In z.b da db) (h1 : dc.1 ≤ z.b) (h2 : dc.2 ≤ z.b) {m n : Nat}
    (hx : Eqb z.b (s x) X) (hy : Eqb z.b (s y) Y) :
    ab E z Z ((ker x y (Z.a m n) da db dc K).run s) =
      { ab E z Z s with a := put z.b (ab E z Z s).a m n dc.1 dc.2 (K X Y (tl z.b (ab E z Z s).a m n)) } := by
  rw [hK.run, ker_eq hK hin hx hy, ab_a hZ h1 h2 s (hK.fr _ _ _)]
  have := put_congr (b := z.b) (W := (ab E z Z s).a) (m := m) (n := n)
    (hK.cg X X Y Y (s (Z.a m n)) (tl z.b (ab E z Z s).a m n) (fun _ _ _ => rfl) (fun _ _ _ => rfl)
    (fun i j h => rd_a hZ s m n (lt_of_lt_of_le h.1 h1) (lt_of_lt_of_le h.2 h2)))
  rw [this]

theorem ker_g (hZ : AMOK z Z) (hK : KerOK da db dc K) (hin : In z.b da db) (h1 : dc.1 ≤ z.b) (h2 : dc.2 ≤ z.b) {m n : Nat}
    (hx : Eqb z.b (s x) X) (hy : Eqb z.b (s y) Y) {F : Tl α} (hF : ∀ i j, box dc.1 dc.2 i j → K X Y (s (Z.g m n)) i j = F i j) :
    ab E z Z ((ker x y (Z.g m n) da db dc K).run s) = { ab E z Z s with tb := put z.b (ab E z Z s).tb m n dc.1 dc.2 F } := by
  rw [hK.run, ker_eq hK hin hx hy, ab_g hZ h1 h2 s (hK.fr _ _ _), put_congr hF]
end ker

theorem ab_map {ι : Type w} {L : List ι} {f : ι → TTask (M × Nat × Nat) α} {g : AS α → ι → AS α}
    (h : ∀ x ∈ L, ∀ s, ab E z Z ((f x).run s) = g (ab E z Z s) x) (s : Store (M × Nat × Nat) α) :
    ab E z Z (texec (L.map f) s) = L.foldl g (ab E z Z s) := by
  induction L generalizing s with
  | nil => rfl
  | cons x L ih =>
    rw [List.map_cons, texec_cons, ih (fun y hy => h y (List.mem_cons_of_mem _ hy)), List.foldl_cons, h x (by simp)]

theorem ab_flatMap {ι : Type w} {L : List ι} {f : ι → List (TTask (M × Nat × Nat) α)} {g : AS α → ι → AS α}
    (h : ∀ x ∈ L, ∀ s, ab E z Z (texec (f x) s) = g (ab E z Z s) x) (s : Store (M × Nat × Nat) α) :
    ab E z Z (texec (L.flatMap f) s) = L.foldl g (ab E z Z s) := by
  induction L generalizing s with
  | nil => rfl
  | cons x L ih =>
    rw [List.flatMap_cons, texec_append, ih (fun y hy => h y (List.mem_cons_of_mem _ hy)), List.foldl_cons, h x (by simp)]

theorem dimT_le {b : Nat} {t : Trans} {m n : Nat} (hm : m ≤ b) (hn : n ≤ b) : (dimT t m n).1 ≤ b ∧ (dimT t m n).2 ≤ b := by
  unfold dimT; split <;> exact ⟨by assumption, by assumption⟩

theorem in_gm {b : Nat} {ta tb : Trans} {m n k : Nat} (hm : m ≤ b) (hn : n ≤ b) (hk : k ≤ b) : In b (dimT ta m k) (dimT tb k n) :=
  ⟨(dimT_le hm hk).1, (dimT_le hm hk).2, (dimT_le hk hn).1, (dimT_le hk hn).2⟩

theorem in_mn {b m n : Nat} (hm : m ≤ b) (hn : n ≤ b) : In b (m, n) (m, n) := ⟨hm, hn, hm, hn⟩

theorem AC.mvle (hz : z.OK) {k : Nat} (hk : k < z.mt) : z.mv k ≤ z.b := by
  rw [hz.mv hk]; exact Nat.min_le_left _ _

/-! ### The parts of a step -/

variable {k : Nat}

theorem hT_run (hz : z.OK) (hZ : AMOK z Z) (hk : k < z.mt) {m : Nat} (h0 : 0 < m) (hm : m < k) (s : Store (M × Nat × Nat) α) :
    ab E z Z (texec (hT z Z k m) s) = { ab E z Z s with h := Function.update (ab E z Z s).h m (hCol z k m (ab E z Z s)) } := by
  have v1 := AC.mvle hz hk
  have v2 := AC.mvle hz (show m < z.mt by omega)
  have v3 := AC.mvle hz (show m + 1 < z.mt by omega)
  have hm' : m < z.mt := by omega
  unfold hT hCol
  rw [texec_append, texec_append]
  obtain ⟨s1, h1⟩ : ∃ s1, s1 = (kGemm .noTrans .conjTrans (z.mv m) (z.mv k) (z.mv m) 1 (Z.t z m m) (Z.a k (m - 1)) 0 (Z.h m)).run s := ⟨_, rfl⟩
  have e1 := ker_h (E := E) (s := s) hZ (gm_ok (ta := .noTrans) (tb := .conjTrans) (m := z.mv m) (n := z.mv k) (k := z.mv m) (al := 1) (be := 0))
    (in_gm v2 v1 v2) hm' (Eqb.of (rd_t (E := E) (Z := Z) hm' (Or.inl rfl) s)) (eqb_a (E := E) hZ s k (m - 1))
  rw [show (ker _ _ _ _ _ _ _).run s = s1 from h1.symm] at e1
  rw [show texec [kGemm .noTrans .conjTrans (z.mv m) (z.mv k) (z.mv m) 1 (Z.t z m m) (Z.a k (m - 1)) 0 (Z.h m)] s = s1 from h1.symm]
  obtain ⟨s2, h2⟩ : ∃ s2, s2 = texec (if 1 < m then [kGemm .noTrans .conjTrans (z.mv m) (z.mv k) z.b 1 (Z.t z m (m - 1)) (Z.a k (m - 1 - 1)) 1 (Z.h m)] else []) s1 := ⟨_, rfl⟩
  rw [← h2]
  have e2 : ab E z Z s2 = { ab E z Z s with h := (Function.update (ab E z Z s).h m (
      let h0 := gm .noTrans .conjTrans (z.mv m) (z.mv k) (z.mv m) 1 ((ab E z Z s).t m m) (tl z.b (ab E z Z s).a k (m - 1)) 0 ((ab E z Z s).h m)
      if 1 < m then gm .noTrans .conjTrans (z.mv m) (z.mv k) z.b 1 ((ab E z Z s).t m (m - 1)) (tl z.b (ab E z Z s).a k (m - 1 - 1)) 1 h0 else h0)) } := by
    by_cases hc : 1 < m
    · rw [if_pos hc, texec_cons, texec_nil] at h2
      have e2 := ker_h (E := E) (s := s1) hZ (gm_ok (ta := .noTrans) (tb := .conjTrans) (m := z.mv m) (n := z.mv k) (k := z.b) (al := 1) (be := 1))
        (in_gm v2 v1 (le_refl _)) hm' (Eqb.of (rd_t (E := E) (Z := Z) (n := m - 1) hm' (Or.inr (by omega)) s1)) (eqb_a (E := E) hZ s1 k (m - 1 - 1))
      rw [show (ker _ _ _ _ _ _ _).run s1 = s2 from h2.symm] at e2
      rw [e2, e1]
      simp only [Function.update_self, Function.update_idem, if_pos hc]
    · rw [if_neg hc, texec_nil] at h2
      rw [h2, e1]
      simp only [if_neg hc]
  have e3 := ker_h (E := E) (s := s2) hZ (gm_ok (ta := .conjTrans) (tb := .conjTrans) (m := z.mv m) (n := z.mv k) (k := z.mv (m + 1)) (al := 1) (be := 1))
    (in_gm v2 v1 v3) hm' (Eqb.of (rd_t (E := E) (Z := Z) (show m + 1 < z.mt by omega) (Or.inr rfl) s2)) (eqb_a (E := E) hZ s2 k m)
  rw [texec_cons, texec_nil]
  refine e3.trans ?_
  rw [e2]
  simp only [Function.update_self, Function.update_idem]

theorem hPre_run (hz : z.OK) (hZ : AMOK z Z) (hk : k < z.mt) (s : Store (M × Nat × Nat) α) :
    ab E z Z (texec ((List.range' 1 (k - 1)).flatMap (hT z Z k)) s) = hPre z k (ab E z Z s) := by
  unfold hPre
  rw [if_neg (fun h => h rfl)]
  refine ab_flatMap (fun m hm s => ?_) s
  rw [List.mem_range'_1] at hm
  exact hT_run hz hZ hk (by omega) (by omega) s

theorem tree_lt {num : Nat} {p : Nat × Nat} (hp : p ∈ tree num) : p.1 < num ∧ p.2 < num := by
  have key : ∀ R P d, 0 < d → (P = 0 ∨ (P - 1) * d < num) → ∀ p ∈ treePairs R P (2 * d), p.1 < num ∧ p.2 < num := by
    intro R
    induction R with
    | zero => intro P d _ _ p hp; cases hp
    | succ R ih =>
      intro P d hd h p hp
      unfold treePairs at hp
      rcases List.mem_append.mp hp with hp | hp
      · obtain ⟨br, hbr, rfl⟩ := List.mem_map.mp hp
        rw [List.mem_range] at hbr
        have h' : (P - 1) * d < num := by rcases h with h | h <;> omega
        have h2 : (2 * br + 1) * d ≤ (P - 1) * d := Nat.mul_le_mul_right _ (by omega)
        have e1 : (2 * br + 1) * d = 2 * d * br + d := by ring
        simp only [Nat.mul_div_cancel_left _ (show 0 < 2 by omega)]
        omega
      · refine ih _ (2 * d) (by omega) ?_ p hp
        rcases h with h | h
        · left; omega
        · by_cases hP : P = 0
          · left; omega
          · right
            have h2 : (2 * ((P + 1) / 2 - 1)) * d ≤ (P - 1) * d := Nat.mul_le_mul_right _ (by omega)
            have e : ((P + 1) / 2 - 1) * (2 * d) = (2 * ((P + 1) / 2 - 1)) * d := by ring
            omega
  refine key _ num 1 (by omega) ?_ p hp
  omega

theorem w3_run (hz : z.OK) (hZ : AMOK z Z) (hk : k < z.mt) (h1 : 1 < k) (s : Store (M × Nat × Nat) α) :
    ab E z Z (texec (w3T z Z k) s) = w3Sum z k (ab E z Z s) := by
  have v1 := AC.mvle hz hk
  unfold w3T w3Sum
  rw [texec_append]
  rw [ab_map (g := fun (s : AS α) p => { s with w3 := Function.update s.w3 p.1 (addK (z.mv k) (z.mv k) (s.w3 p.2) (s.w3 p.1)) }) ?_ _]
  · rw [ab_map (g := fun (s : AS α) m => { s with w3 := (Function.update s.w3 ((m - 1) % (k - 1))
      (gm .noTrans .noTrans (z.mv k) (z.mv k) (z.mv m) (-1) (tl z.b s.a k (m - 1)) (s.h m) (if m < (k - 1) + 1 then 0 else 1)
      (s.w3 ((m - 1) % (k - 1))))) }) ?_ _]
    intro m hm s
    rw [List.mem_range'_1] at hm
    have v2 := AC.mvle hz (show m < z.mt by omega)
    have hq : (m - 1) % (k - 1) < z.mt := lt_of_lt_of_le (Nat.mod_lt _ (by omega)) (by omega)
    exact ker_w3 (E := E) (s := s) hZ gm_ok (in_gm v1 v1 v2) hq (eqb_a (E := E) hZ s k (m - 1)) (Eqb.of (rd_h (E := E) (Z := Z) (by omega) s))
  · intro p hp s
    have := tree_lt hp
    exact ker_w3 (E := E) (s := s) hZ add_ok (in_mn v1 v1) (by omega) (Eqb.of (rd_w3 (E := E) (Z := Z) (by omega) s)) Eqb.rfl'


variable {dv : α → α → α}

theorem setT_setT {m n : Nat} {X Y : Tl α} {s : AS α} : setT m n X (setT m n Y s) = setT m n X s := by
  unfold setT
  simp only [Function.update_self, Function.update_idem]

theorem setT_t {m n : Nat} {Y : Tl α} {s : AS α} : (setT m n Y s).t m n = Y := by
  unfold setT
  simp only [Function.update_self]

theorem setT_ne {m n n' : Nat} {Y : Tl α} {s : AS α} (h : n' ≠ n) : (setT m n Y s).t m n' = s.t m n' := by
  unfold setT
  simp only [Function.update_self, Function.update_of_ne h]

theorem diagT_run (hz : z.OK) (hZ : AMOK z Z) (hk : k < z.mt) (s : Store (M × Nat × Nat) α) :
    ab E z Z (texec (diagTT dv z Z k) s) = diagT dv z k (ab E z Z s) := by
  have v1 := AC.mvle hz hk
  have hb := le_refl z.b
  unfold diagTT diagT
  rw [if_neg (show ¬ (ab E z Z s).st ≠ 0 from fun h => h rfl), texec_append]
  obtain ⟨s1, h1⟩ : ∃ s1, s1 = texec (if 1 < k then w3T z Z k ++ [kCpL (z.mv k) (Z.a k k) (Z.t z k k), kAdd (z.mv k) (z.mv k) (Z.w3 z 0) (Z.t z k k)]
   else [kCpL (z.mv k) (Z.a k k) (Z.t z k k), kExp (z.mv k) (Z.t z k k)]) s := ⟨_, rfl⟩
  rw [← h1]
  have e1 : ab E z Z s1 = if 1 < k then
      let s := w3Sum z k (ab E z Z s)
      setT k k (addK (z.mv k) (z.mv k) (s.w3 0) (cpL (z.mv k) (tl z.b s.a k k) (s.t k k))) s
    else setT k k (expandK (z.mv k) (cpL (z.mv k) (tl z.b (ab E z Z s).a k k) ((ab E z Z s).t k k))) (ab E z Z s) := by
    by_cases hc : 1 < k
    · rw [if_pos hc, texec_append, texec_cons, texec_cons, texec_nil] at h1
      rw [if_pos hc]
      obtain ⟨s0, h0⟩ : ∃ s0, s0 = texec (w3T z Z k) s := ⟨_, rfl⟩
      have e0 : ab E z Z s0 = w3Sum z k (ab E z Z s) := by rw [h0]; exact w3_run hz hZ hk hc s
      rw [← h0] at h1
      have a1 := ker_t (E := E) (s := s0) hZ (cpL_ok (n := z.mv k)) (in_mn v1 v1) hk (Or.inl rfl) (eqb_a (E := E) hZ s0 k k) (eqb_a (E := E) hZ s0 k k)
      obtain ⟨s0', h0'⟩ : ∃ s0', s0' = (kCpL (z.mv k) (Z.a k k) (Z.t z k k)).run s0 := ⟨_, rfl⟩
      rw [show (ker _ _ _ _ _ _ _).run s0 = s0' from h0'.symm] at a1
      rw [← h0'] at h1
      have a2 := ker_t (E := E) (s := s0') hZ (add_ok (m := z.mv k) (n := z.mv k)) (in_mn v1 v1) hk (Or.inl rfl)
        (Eqb.of (rd_w3 (E := E) (Z := Z) (m := 0) (show 0 < z.mt by omega) s0')) (Eqb.of (rd_w3 (E := E) (Z := Z) (m := 0) (show 0 < z.mt by omega) s0'))
      rw [show (ker _ _ _ _ _ _ _).run s0' = s1 from h1.symm] at a2
      rw [a2, a1, setT_setT, setT_t, e0]
      rfl
    · rw [if_neg hc, texec_cons, texec_cons, texec_nil] at h1
      rw [if_neg hc]
      have a1 := ker_t (E := E) (s := s) hZ (cpL_ok (n := z.mv k)) (in_mn v1 v1) hk (Or.inl rfl) (eqb_a (E := E) hZ s k k) (eqb_a (E := E) hZ s k k)
      obtain ⟨s0', h0'⟩ : ∃ s0', s0' = (kCpL (z.mv k) (Z.a k k) (Z.t z k k)).run s := ⟨_, rfl⟩
      rw [show (ker _ _ _ _ _ _ _).run s = s0' from h0'.symm] at a1
      rw [← h0'] at h1
      have a2 := ker_t (E := E) (s := s0') hZ (exp_ok (n := z.mv k)) (in_mn v1 v1) hk (Or.inl rfl)
        (Eqb.of (rd_t (E := E) (Z := Z) (m := k) (n := k) hk (Or.inl rfl) s0')) (Eqb.of (rd_t (E := E) (Z := Z) (m := k) (n := k) hk (Or.inl rfl) s0'))
      rw [show (ker _ _ _ _ _ _ _).run s0' = s1 from h1.symm] at a2
      rw [a2, a1, setT_setT, setT_t]
  obtain ⟨S1, hS1⟩ : ∃ S1, S1 = if 1 < k then
      let s := w3Sum z k (ab E z Z s)
      setT k k (addK (z.mv k) (z.mv k) (s.w3 0) (cpL (z.mv k) (tl z.b s.a k k) (s.t k k))) s
    else setT k k (expandK (z.mv k) (cpL (z.mv k) (tl z.b (ab E z Z s).a k k) ((ab E z Z s).t k k))) (ab E z Z s) := ⟨_, rfl⟩
  rw [← hS1] at e1 ⊢
  by_cases h0 : 0 < k
  · rw [if_pos h0, if_pos h0, texec_append]
    obtain ⟨s2, h2⟩ : ∃ s2, s2 = texec (if 1 < k then
      [kGemm .noTrans .noTrans (z.mv k) z.b (z.mv k) 1 (Z.a k (k - 1)) (Z.t z k (k - 1)) 0 Z.w0,
       kGemm .noTrans .conjTrans (z.mv k) (z.mv k) z.b (-1) Z.w0 (Z.a k (k - 1 - 1)) 1 (Z.t z k k)] else []) s1 := ⟨_, rfl⟩
    rw [← h2]
    have e2 : ab E z Z s2 = if 1 < k then
        let s := { S1 with w := gm .noTrans .noTrans (z.mv k) z.b (z.mv k) 1 (tl z.b S1.a k (k - 1)) (S1.t k (k - 1)) 0 S1.w }
        setT k k (gm .noTrans .conjTrans (z.mv k) (z.mv k) z.b (-1) s.w (tl z.b s.a k (k - 1 - 1)) 1 (s.t k k)) s
      else S1 := by
      by_cases hc : 1 < k
      · rw [if_pos hc, texec_cons, texec_cons, texec_nil] at h2
        rw [if_pos hc]
        have a1 := ker_w0 (E := E) (s := s1) hZ (gm_ok (ta := .noTrans) (tb := .noTrans) (m := z.mv k) (n := z.b) (k := z.mv k) (al := 1) (be := 0))
          (in_gm v1 hb v1) (eqb_a (E := E) hZ s1 k (k - 1)) (Eqb.of (rd_t (E := E) (Z := Z) (m := k) (n := k - 1) hk (Or.inr (by omega)) s1))
        obtain ⟨s0', h0'⟩ : ∃ s0', s0' = (kGemm .noTrans .noTrans (z.mv k) z.b (z.mv k) 1 (Z.a k (k - 1)) (Z.t z k (k - 1)) 0 Z.w0).run s1 := ⟨_, rfl⟩
        rw [show (ker _ _ _ _ _ _ _).run s1 = s0' from h0'.symm] at a1
        rw [← h0'] at h2
        have a2 := ker_t (E := E) (s := s0') (x := Z.w0) hZ (gm_ok (ta := .noTrans) (tb := .conjTrans) (m := z.mv k) (n := z.mv k) (k := z.b) (al := -1) (be := 1))
          (in_gm v1 v1 hb) hk (Or.inl rfl) (X := (ab E z Z s0').w) Eqb.rfl' (eqb_a (E := E) hZ s0' k (k - 1 - 1))
        rw [show (ker _ _ _ _ _ _ _).run s0' = s2 from h2.symm] at a2
        rw [a2, a1, e1]
      · rw [if_neg hc, texec_nil] at h2
        rw [if_neg hc, h2, e1]
    obtain ⟨S2, hS2⟩ : ∃ S2, S2 = if 1 < k then
        let s := { S1 with w := gm .noTrans .noTrans (z.mv k) z.b (z.mv k) 1 (tl z.b S1.a k (k - 1)) (S1.t k (k - 1)) 0 S1.w }
        setT k k (gm .noTrans .conjTrans (z.mv k) (z.mv k) z.b (-1) s.w (tl z.b s.a k (k - 1 - 1)) 1 (s.t k k)) s
      else S1 := ⟨_, rfl⟩
    rw [← hS2] at e2 ⊢
    rw [texec_cons, texec_cons, texec_nil]
    have a1 := ker_t (E := E) (s := s2) hZ (hegst_ok (dv := dv) (n := z.mv k)) (in_mn v1 v1) hk (Or.inl rfl)
      (eqb_a (E := E) hZ s2 k (k - 1)) (eqb_a (E := E) hZ s2 k (k - 1))
    obtain ⟨s3, h3⟩ : ∃ s3, s3 = (kHegst dv (z.mv k) (Z.a k (k - 1)) (Z.t z k k)).run s2 := ⟨_, rfl⟩
    rw [show (ker _ _ _ _ _ _ _).run s2 = s3 from h3.symm] at a1
    rw [← h3]
    have a2 := ker_t (E := E) (s := s3) hZ (exp_ok (n := z.mv k)) (in_mn v1 v1) hk (Or.inl rfl)
        (Eqb.of (rd_t (E := E) (Z := Z) (m := k) (n := k) hk (Or.inl rfl) s3)) (Eqb.of (rd_t (E := E) (Z := Z) (m := k) (n := k) hk (Or.inl rfl) s3))
    refine a2.trans ?_
    rw [a1, setT_setT, setT_t, e2]
  · rw [if_neg h0, if_neg h0, texec_nil, e1]

theorem diagH_run (hz : z.OK) (hZ : AMOK z Z) (hk : k < z.mt) (s : Store (M × Nat × Nat) α) :
    ab E z Z (texec (diagHT z Z k) s) = diagH z k (ab E z Z s) := by
  have v1 := AC.mvle hz hk
  have hb := le_refl z.b
  unfold diagHT diagH
  rw [if_neg (show ¬ (ab E z Z s).st ≠ 0 from fun h => h rfl), texec_append]
  obtain ⟨s1, h1⟩ : ∃ s1, s1 = texec (if 1 < k then [kGemm .noTrans .conjTrans (z.mv k) (z.mv k) z.b 1 (Z.t z k (k - 1)) (Z.a k (k - 1 - 1)) 0 (Z.h k)] else []) s := ⟨_, rfl⟩
  rw [← h1]
  have e1 : ab E z Z s1 = if 1 < k then
      { ab E z Z s with h := (Function.update (ab E z Z s).h k
        (gm .noTrans .conjTrans (z.mv k) (z.mv k) z.b 1 ((ab E z Z s).t k (k - 1)) (tl z.b (ab E z Z s).a k (k - 1 - 1)) 0 ((ab E z Z s).h k))) }
    else ab E z Z s := by
    by_cases hc : 1 < k
    · rw [if_pos hc, texec_cons, texec_nil] at h1
      rw [if_pos hc, h1]
      exact ker_h (E := E) (s := s) hZ gm_ok (in_gm v1 v1 hb) hk (Eqb.of (rd_t (E := E) (Z := Z) (m := k) (n := k - 1) hk (Or.inr (by omega)) s))
        (eqb_a (E := E) hZ s k (k - 1 - 1))
    · rw [if_neg hc, texec_nil] at h1
      rw [if_neg hc, h1]
  rw [← e1]
  by_cases hc : k + 1 < z.mt ∧ 0 < k
  · rw [if_pos hc, if_pos hc, texec_cons, texec_nil]
    exact ker_h (E := E) (s := s1) hZ gm_ok (in_gm v1 v1 v1) hk (Eqb.of (rd_t (E := E) (Z := Z) (m := k) (n := k) hk (Or.inl rfl) s1))
      (eqb_a (E := E) hZ s1 k (k - 1))
  · rw [if_neg hc, if_neg hc, texec_nil]

theorem preT_run (hz : z.OK) (hZ : AMOK z Z) (hk : k < z.mt) (s : Store (M × Nat × Nat) α) :
    ab E z Z (texec (preT dv z Z k) s) = diagH z k (diagT dv z k (hPre z k (ab E z Z s))) := by
  unfold preT
  rw [texec_append, texec_append, diagH_run hz hZ hk, diagT_run hz hZ hk, hPre_run hz hZ hk]

theorem w5M_run (hz : z.OK) (hZ : AMOK z Z) (hk : k < z.mt) (s : Store (M × Nat × Nat) α) :
    ab E z Z (texec ((List.range' 1 k).map (w5MT z Z k)) s) = w5Mul z k (ab E z Z s) := by
  have v1 := AC.mvle hz hk
  unfold w5Mul
  refine ab_map (fun n hn s => ?_) s
  rw [List.mem_range'_1] at hn
  have v2 := AC.mvle hz (show n < z.mt by omega)
  unfold w5MT
  rw [seqT_run]
  refine ab_map (fun m hm s => ?_) s
  rw [List.mem_range'_1] at hm
  have v3 := AC.mvle hz (show m < z.mt by omega)
  exact ker_w5 (E := E) (s := s) hZ gm_ok (in_gm v3 v1 v2) (eqb_a (E := E) hZ s m (n - 1)) (Eqb.of (rd_h (E := E) (by omega) s))

theorem w5S_run (hz : z.OK) (hZ : AMOK z Z) (hk : k < z.mt) (s : Store (M × Nat × Nat) α) :
    ab E z Z (texec ((tree (w5num z k)).map (w5ST z Z k)) s) = w5Sum z k (ab E z Z s) := by
  have v1 := AC.mvle hz hk
  unfold w5Sum
  refine ab_map (fun p hp s => ?_) s
  unfold w5ST
  rw [seqT_run]
  refine ab_map (fun m hm s => ?_) s
  rw [List.mem_range'_1] at hm
  have v3 := AC.mvle hz (show m < z.mt by omega)
  exact ker_w5 (E := E) (s := s) hZ add_ok (in_mn v3 v1) Eqb.rfl' Eqb.rfl'

theorem w5A_run (hz : z.OK) (hZ : AMOK z Z) (hk : k < z.mt) (s : Store (M × Nat × Nat) α) :
    ab E z Z ((w5AT z Z k).run s) = w5Add z k (ab E z Z s) := by
  have v1 := AC.mvle hz hk
  unfold w5Add w5AT
  rw [seqT_run]
  refine ab_map (fun m hm s => ?_) s
  rw [List.mem_range'_1] at hm
  have v3 := AC.mvle hz (show m < z.mt by omega)
  exact ker_a (E := E) (s := s) hZ add_ok (in_mn v3 v1) v3 v1 Eqb.rfl' Eqb.rfl'

theorem col_run (hz : z.OK) (hZ : AMOK z Z) (hk : k < z.mt) (s : Store (M × Nat × Nat) α) :
    ab E z Z (texec ((List.range' 1 k).map (colT z Z k)) s) = colDirect z k (ab E z Z s) := by
  have v1 := AC.mvle hz hk
  unfold colDirect
  refine ab_map (fun n hn s => ?_) s
  rw [List.mem_range'_1] at hn
  have v2 := AC.mvle hz (show n < z.mt by omega)
  unfold colT
  rw [seqT_run]
  refine ab_map (fun m hm s => ?_) s
  rw [List.mem_range'_1] at hm
  have v3 := AC.mvle hz (show m < z.mt by omega)
  exact ker_a (E := E) (s := s) hZ gm_ok (in_gm v3 v1 v2) v3 v1 (eqb_a (E := E) hZ s m (n - 1)) (Eqb.of (rd_h (E := E) (by omega) s))


theorem ab_of {s s' : Store (M × Nat × Nat) α} (hW : ∀ q, s' (Z.W.at' q 0) = s (Z.W.at' q 0)) (hT : Z.T.el s' = Z.T.el s) :
    ab E z Z s' = { ab E z Z s with a := Z.A.el s', piv := fun i => E.dec (Z.P.el s' i 0) } := by
  refine AS.ext' rfl ?_ ?_ ?_ (hW _) ?_ hT rfl rfl
  · funext m n
    show (if m < z.mt ∧ (m = n ∨ m = n + 1) then s' (Z.W.at' _ 0) else _) = if m < z.mt ∧ (m = n ∨ m = n + 1) then s (Z.W.at' _ 0) else _
    rw [hW]
  · funext m
    show (if m < z.mt then s' (Z.W.at' _ 0) else _) = if m < z.mt then s (Z.W.at' _ 0) else _
    rw [hW]
  · funext m
    show (if m < z.mt then s' (Z.W.at' _ 0) else _) = if m < z.mt then s (Z.W.at' _ 0) else _
    rw [hW]
  · funext m
    exact hW _

theorem el_of_ne {B : TMat M} {s s' : Store (M × Nat × Nat) α} (h : ∀ x, x.1 = B.id → s' x = s x) : B.el s' = B.el s := by
  funext r c
  unfold TMat.el
  rw [h _ rfl]

/-- A task on the matrix `A` by global indices. -/
theorem ab_gop (hZ : AMOK z Z) {deps : List ((M × Nat × Nat) × Bool)} {rd : Foot (M × Nat × Nat)} {R : Nat → Nat → Prop}
    {g : Store (M × Nat × Nat) α → Nat → Nat → α} (s : Store (M × Nat × Nat) α) {X : Nat → Nat → α}
    (h1 : ∀ r c, R r c → g s r c = X r c) (h2 : ∀ r c, ¬ R r c → Z.A.el s r c = X r c) :
    ab E z Z ((gop deps rd Z.A R g).run s) = { ab E z Z s with a := X } := by
  have hb := hZ.a.pos
  have hne : ∀ x, x.1 ≠ Z.A.id → (gop deps rd Z.A R g).run s x = s x := fun x hx => gop_ne s hx
  refine (ab_of (s := s) (fun q => hne _ hZ.aw.symm) (el_of_ne fun x hx => hne x (by rw [hx]; exact hZ.at'.symm))).trans ?_
  have hP : Z.P.el ((gop deps rd Z.A R g).run s) = Z.P.el s := el_of_ne fun x hx => hne x (by rw [hx]; exact hZ.ap.symm)
  refine AS.ext' ?_ rfl rfl rfl rfl rfl rfl ?_ rfl
  · funext r c
    show Z.A.el ((gop deps rd Z.A R g).run s) r c = X r c
    by_cases hR : R r c
    · rw [gop_in (by rw [hZ.a.mb]; exact hb) (by rw [hZ.a.nb]; exact hb) s hR, h1 r c hR]
    · rw [gop_out (by rw [hZ.a.mb]; exact hb) (by rw [hZ.a.nb]; exact hb) s hR, h2 r c hR]
  · show (fun i => E.dec _) = fun i => E.dec _
    rw [hP]

variable {γ : Type w} [LinearOrder γ] {mag : α → γ} {big : α → Bool}

theorem panelT_run (hz : z.OK) (hZ : AMOK z Z) (hk : k + 1 < z.mt) (s : Store (M × Nat × Nat) α) (h0 : infov (pOut mag dv big z k (Z.A.el s)) = 0) :
    ab E z Z ((panelT E mag dv big z Z k).run s) = panelS mag dv big z k (ab E z Z s) := by
  have hb := hz.b
  have hne : ∀ x, x.1 ≠ Z.A.id → x.1 ≠ Z.P.id → (panelT E mag dv big z Z k).run s x = s x := by
    intro x h1 h2
    funext i j
    exact TTask.run_frame _ _ fun h => h.elim (fun h => h1 h.1) (fun h => h2 h.1)
  refine (ab_of (s := s) (fun q => hne _ hZ.aw.symm hZ.wp)
    (el_of_ne fun x hx => hne x (by rw [hx]; exact hZ.at'.symm) (by rw [hx]; exact hZ.tp))).trans ?_
  unfold panelS
  rw [if_neg (show ¬ (ab E z Z s).st ≠ 0 from fun h => h rfl)]
  have e : (ab E z Z s).a = Z.A.el s := rfl
  simp only [e, h0, if_true]
  have hA1 : 0 < Z.A.d.mb := by rw [hZ.a.mb]; exact hb
  have hA2 : 0 < Z.A.d.nb := by rw [hZ.a.nb]; exact hb
  have hP1 : 0 < Z.P.d.mb := by rw [hZ.p.mb]; exact hb
  have hP2 : 0 < Z.P.d.nb := by rw [hZ.p.nb]; exact hb
  have hkN := hz.lt.mp hk
  refine AS.ext' ?_ rfl rfl rfl rfl rfl rfl ?_ rfl
  · funext r c
    show Z.A.el ((panelT E mag dv big z Z k).run s) r c = put z.b (Z.A.el s) (k + 1) k (z.N - (k + 1) * z.b) (z.mv k) _ r c
    unfold put
    by_cases hR : (k + 1) * z.b ≤ r ∧ r < z.N ∧ k * z.b ≤ c ∧ c < k * z.b + z.mv k
    · rw [if_pos (by omega)]
      unfold TMat.el
      rw [TTask.run_wr _ _ (Or.inl ((Z.A.reg_at hA1 hA2 _ r c).mpr hR))]
      simp only [panelT]
      rw [if_pos (show (Z.A.at' (r / Z.A.d.mb) (c / Z.A.d.nb)).1 = Z.A.id from rfl), Z.A.row_at, Z.A.col_at]
      rfl
    · rw [if_neg (by omega)]
      unfold TMat.el
      rw [TTask.run_frame]
      rintro (h | h)
      · exact hR ((Z.A.reg_at hA1 hA2 _ r c).mp h)
      · exact hZ.ap h.1
  · funext i
    show E.dec (Z.P.el ((panelT E mag dv big z Z k).run s) i 0) = if _ then _ else E.dec (Z.P.el s i 0)
    by_cases hR : (k + 1) * z.b ≤ i ∧ i < (k + 1) * z.b + min (z.N - (k + 1) * z.b) (z.mv k)
    · rw [if_pos hR]
      unfold TMat.el
      rw [TTask.run_wr _ _ (Or.inr ((Z.P.reg_at hP1 hP2 _ i 0).mpr ⟨hR.1, hR.2, rfl⟩))]
      simp only [panelT]
      rw [if_neg (show (Z.P.at' (i / Z.P.d.mb) (0 / Z.P.d.nb)).1 ≠ Z.A.id from hZ.ap.symm), Z.P.row_at, E.dec_enc]
      rfl
    · rw [if_neg hR]
      unfold TMat.el
      rw [TTask.run_frame]
      rintro (h | h)
      · exact hZ.ap h.1.symm
      · have := (Z.P.reg_at hP1 hP2 _ i 0).mp h
        exact hR ⟨this.1, this.2.1⟩

/-- Pivots of a panel in range. -/
def PvR (z : AC) (k : Nat) (p : Nat → Nat) : Prop :=
  ∀ i, (k + 1) * z.b ≤ i → i < (k + 1) * z.b + pcnt z k → i ≤ p i - 1 ∧ p i - 1 < z.N

theorem pvC_eq {s : Store (M × Nat × Nat) α} (hp : PvR z k (ab E z Z s).piv) {i : Nat} (h1 : (k + 1) * z.b ≤ i)
    (h2 : i < (k + 1) * z.b + pcnt z k) : pvC E z Z s i = (ab E z Z s).piv i - 1 := by
  unfold pvC
  exact if_pos (hp i h1 h2)

theorem pvC_ok (s : Store (M × Nat × Nat) α) {i : Nat} (h2 : i < z.N) : i ≤ pvC E z Z s i ∧ pvC E z Z s i < z.N := by
  unfold pvC
  split
  · assumption
  · exact ⟨le_refl _, h2⟩

theorem rowT_run (hz : z.OK) (hZ : AMOK z Z) (hk : k + 1 < z.mt) (s : Store (M × Nat × Nat) α) (hp : PvR z k (ab E z Z s).piv) (n : Nat) :
    ab E z Z ((rowT E z Z k (n + 1)).run s) = { ab E z Z s with a := (fun r c => if n * z.b ≤ c ∧ c < n * z.b + z.b then
      interch (List.range' ((k + 1) * z.b) (pcnt z k)) (fun i => (ab E z Z s).piv i - 1) (ab E z Z s).a r c else (ab E z Z s).a r c) } := by
  have hkN := hz.lt.mp hk
  have hperm : perm (pvC E z Z s) ((k + 1) * z.b) (pcnt z k) = perm (fun i => (ab E z Z s).piv i - 1) ((k + 1) * z.b) (pcnt z k) :=
    perm_congr fun i h1 h2 => pvC_eq hp h1 h2
  refine ab_gop hZ s ?_ ?_
  · intro r c hR
    rw [Nat.add_sub_cancel] at hR
    rw [if_pos hR.2.2, interch_eq, interch_eq, hperm]
    rfl
  · intro r c hR
    by_cases hc : n * z.b ≤ c ∧ c < n * z.b + z.b
    · rw [if_pos hc, interch_eq]
      have : perm (fun i => (ab E z Z s).piv i - 1) ((k + 1) * z.b) (pcnt z k) r = r := by
        by_cases hr : r < (k + 1) * z.b
        · exact perm_fix (fun i h1 h2 => (hp i h1 h2).1) hr
        · refine perm_ge (m := z.N) hp ?_ ?_
          · unfold pcnt; omega
          · by_contra hc'
            exact hR ⟨by omega, by omega, by rw [Nat.add_sub_cancel]; exact hc.1, by rw [Nat.add_sub_cancel]; exact hc.2⟩
      rw [this]
      rfl
    · rw [if_neg hc]
      rfl

theorem rows_run (hz : z.OK) (hZ : AMOK z Z) (hk : k + 1 < z.mt) (s : Store (M × Nat × Nat) α) (hp : PvR z k (ab E z Z s).piv) :
    ab E z Z (texec ((List.range' 1 k).map (rowT E z Z k)) s) = rowSwap z k (ab E z Z s) := by
  unfold rowSwap
  rw [if_neg (show ¬ (ab E z Z s).st ≠ 0 from fun h => h rfl)]
  have key : ∀ j, ab E z Z (texec ((List.range' 1 j).map (rowT E z Z k)) s) = { ab E z Z s with a := (fun r c => if c < j * z.b then
      interch (List.range' ((k + 1) * z.b) (pcnt z k)) (fun i => (ab E z Z s).piv i - 1) (ab E z Z s).a r c else (ab E z Z s).a r c) } := by
    intro j
    induction j with
    | zero =>
      refine AS.ext' ?_ rfl rfl rfl rfl rfl rfl rfl rfl
      funext r c
      show _ = if _ then _ else _
      rw [if_neg (by omega)]
      rfl
    | succ j ih =>
      rw [List.range'_concat, List.map_append, texec_append, Nat.one_mul, List.map_cons, List.map_nil, texec_cons, texec_nil, Nat.add_comm 1 j]
      rw [rowT_run hz hZ hk _ (by rw [ih]; exact hp), ih]
      refine AS.ext' ?_ rfl rfl rfl rfl rfl rfl rfl rfl
      funext r c
      simp only [interch_eq]
      have : (j + 1) * z.b = j * z.b + z.b := Nat.succ_mul j z.b
      by_cases h1 : j * z.b ≤ c ∧ c < j * z.b + z.b
      · rw [if_pos h1, if_neg (show ¬ c < j * z.b by omega), if_pos (show c < (j + 1) * z.b by omega)]
      · rw [if_neg h1]
        by_cases h2 : c < j * z.b
        · rw [if_pos h2, if_pos (show c < (j + 1) * z.b by omega)]
        · rw [if_neg h2, if_neg (show ¬ c < (j + 1) * z.b by omega)]
  exact key k

theorem symT_run (hz : z.OK) (hZ : AMOK z Z) (hk : k + 1 < z.mt) (s : Store (M × Nat × Nat) α) (hp : PvR z k (ab E z Z s).piv) :
    ab E z Z ((symT E z Z k).run s) = symSwap z k (ab E z Z s) := by
  have hkN := hz.lt.mp hk
  have hmpt := hz.mpt
  have hnt : 0 < min z.mpt (z.mt - (k + 1)) := by omega
  have hw : pcnt z k ≤ z.b := by
    have := AC.mvle hz (show k < z.mt by omega)
    unfold pcnt; omega
  have e1 := he_exec (lo := (k + 1) * z.b) (n := z.N) (nt := min z.mpt (z.mt - (k + 1))) hz.b hnt rfl hw (p := pvC E z Z s)
    (fun i h1 h2 => pvC_ok s (by unfold pcnt at h2; omega)) (X := Z.A.el s) heswp_exec
  have e2 := he_exec (lo := (k + 1) * z.b) (n := z.N) (nt := min z.mpt (z.mt - (k + 1))) hz.b hnt rfl hw (p := fun i => (ab E z Z s).piv i - 1)
    hp (X := Z.A.el s) heswp_exec
  have hperm : perm (pvC E z Z s) ((k + 1) * z.b) (pcnt z k) = perm (fun i => (ab E z Z s).piv i - 1) ((k + 1) * z.b) (pcnt z k) :=
    perm_congr fun i h1 h2 => pvC_eq hp h1 h2
  refine ab_gop hZ s ?_ ?_
  · intro r c hR
    refine (e1 r c).trans (Eq.trans ?_ (e2 r c).symm)
    rw [if_pos hR, if_pos hR, hperm]
  · intro r c hR
    refine Eq.trans ?_ (e2 r c).symm
    rw [if_neg hR]

theorem offT_run (hz : z.OK) (hZ : AMOK z Z) (hk : k + 1 < z.mt) (s : Store (M × Nat × Nat) α) :
    ab E z Z (texec ([kCpU (z.mv (k + 1)) (z.mv k) (Z.a (k + 1) k) (Z.t z (k + 1) k), kSetU (z.mv (k + 1)) (z.mv k) (Z.a (k + 1) k)] ++
      (if 0 < k then [kTrsm dv (z.mv (k + 1)) (z.mv k) (Z.a k (k - 1)) (Z.t z (k + 1) k)] else [])) s) = offT dv z k (ab E z Z s) := by
  have v1 := AC.mvle hz (show k < z.mt by omega)
  have v2 := AC.mvle hz hk
  rw [texec_append, texec_cons, texec_cons, texec_nil]
  have a1 := ker_t (E := E) (s := s) hZ (cpU_ok (m := z.mv (k + 1)) (n := z.mv k)) (in_mn v2 v1) hk (Or.inr rfl)
    (eqb_a (E := E) hZ s (k + 1) k) (eqb_a (E := E) hZ s (k + 1) k)
  obtain ⟨s1, h1⟩ : ∃ s1, s1 = (kCpU (z.mv (k + 1)) (z.mv k) (Z.a (k + 1) k) (Z.t z (k + 1) k)).run s := ⟨_, rfl⟩
  rw [show (ker _ _ _ _ _ _ _).run s = s1 from h1.symm] at a1
  rw [← h1]
  have a2 := ker_a (E := E) (s := s1) hZ (setU_ok (m := z.mv (k + 1)) (n := z.mv k)) (in_mn v2 v1) v2 v1 (m := k + 1) (n := k)
    (x := Z.a (k + 1) k) (y := Z.a (k + 1) k) (eqb_a (E := E) hZ s1 (k + 1) k) (eqb_a (E := E) hZ s1 (k + 1) k)
  obtain ⟨s2, h2⟩ : ∃ s2, s2 = (kSetU (z.mv (k + 1)) (z.mv k) (Z.a (k + 1) k)).run s1 := ⟨_, rfl⟩
  rw [show (ker _ _ _ _ _ _ _).run s1 = s2 from h2.symm] at a2
  rw [← h2]
  unfold offT
  rw [if_neg (show ¬ (ab E z Z s).st ≠ 0 from fun h => h rfl)]
  rw [a1] at a2
  simp only
  rw [← a2]
  by_cases h0 : 0 < k
  · rw [if_pos h0, if_pos ⟨rfl, h0⟩, texec_cons, texec_nil]
    have a3 := ker_t (E := E) (s := s2) hZ (trsm_ok (dv := dv) (m := z.mv (k + 1)) (n := z.mv k)) (in_mn v1 v1) hk (Or.inr rfl)
      (eqb_a (E := E) hZ s2 k (k - 1)) (eqb_a (E := E) hZ s2 k (k - 1))
    rw [a2] at a3 ⊢
    exact a3
  · rw [if_neg h0, if_neg (fun h => h0 h.2), texec_nil]

theorem copyT_run (hz : z.OK) (hZ : AMOK z Z) (hk : k < z.mt) (s : Store (M × Nat × Nat) α) :
    ab E z Z ((copyTT z Z k).run s) = copyT z k (ab E z Z s) := by
  have v1 := AC.mvle hz hk
  unfold copyTT copyT
  rw [seqT_run, texec_append, texec_append, texec_cons, texec_nil]
  have a1 := ker_g (E := E) (s := s) hZ (cp_ok (m := z.mv k) (n := z.mv k)) (in_mn v1 v1) v1 v1 (m := k) (n := k)
    (Eqb.of (rd_t (E := E) (Z := Z) (m := k) (n := k) hk (Or.inl rfl) s)) (Eqb.of (rd_t (E := E) (Z := Z) (m := k) (n := k) hk (Or.inl rfl) s))
    (F := (ab E z Z s).t k k) (fun i j h => if_pos h)
  obtain ⟨s1, h1⟩ : ∃ s1, s1 = (kCp (z.mv k) (z.mv k) (Z.t z k k) (Z.g k k)).run s := ⟨_, rfl⟩
  rw [show (ker _ _ _ _ _ _ _).run s = s1 from h1.symm] at a1
  rw [← h1]
  obtain ⟨s2, h2⟩ : ∃ s2, s2 = texec (if k + 1 < z.mt then [kCp (z.mv (k + 1)) (z.mv k) (Z.t z (k + 1) k) (Z.g (k + 1) k)] else []) s1 := ⟨_, rfl⟩
  rw [← h2]
  have e2 : ab E z Z s2 = { ab E z Z s with tb := (
      let tb := put z.b (ab E z Z s).tb k k (z.mv k) (z.mv k) ((ab E z Z s).t k k)
      if k + 1 < z.mt then put z.b tb (k + 1) k (z.mv (k + 1)) (z.mv k) ((ab E z Z s).t (k + 1) k) else tb) } := by
    by_cases hc : k + 1 < z.mt
    · have v2 := AC.mvle hz hc
      rw [if_pos hc, texec_cons, texec_nil] at h2
      have a2 := ker_g (E := E) (s := s1) hZ (cp_ok (m := z.mv (k + 1)) (n := z.mv k)) (in_mn v2 v1) v2 v1 (m := k + 1) (n := k)
        (Eqb.of (rd_t (E := E) (Z := Z) (m := k + 1) (n := k) hc (Or.inr rfl) s1)) (Eqb.of (rd_t (E := E) (Z := Z) (m := k + 1) (n := k) hc (Or.inr rfl) s1))
        (F := (ab E z Z s1).t (k + 1) k) (fun i j h => if_pos h)
      rw [show (ker _ _ _ _ _ _ _).run s1 = s2 from h2.symm] at a2
      rw [a2, a1]
      simp only [if_pos hc]
    · rw [if_neg hc, texec_nil] at h2
      rw [h2, a1]
      simp only [if_neg hc]
  by_cases h0 : 0 < k
  · rw [if_pos h0, texec_cons, texec_nil]
    have v2 := AC.mvle hz (show k - 1 < z.mt by omega)
    have a3 := ker_g (E := E) (s := s2) hZ (cpC_ok (m := z.mv k) (n := z.mv (k - 1))) (in_mn v1 v2) v2 v1 (m := k - 1) (n := k)
      (Eqb.of (rd_t (E := E) (Z := Z) (m := k) (n := k - 1) hk (Or.inr (by omega)) s2)) (Eqb.of (rd_t (E := E) (Z := Z) (m := k) (n := k - 1) hk (Or.inr (by omega)) s2))
      (F := fun i j => star ((ab E z Z s2).t k (k - 1) j i)) (fun i j h => if_pos h)
    refine a3.trans ?_
    rw [e2]
    simp only [if_pos h0]
  · rw [if_neg h0, texec_nil, e2]
    simp only [if_neg h0]

end Verif.Aasen

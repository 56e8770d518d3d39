/-
Properties of `plasma_zgbset` (compute/zgbset.c): C82.
-/
import Verif.ArgCheck
import Verif.Props.AuxOps
import Mathlib.Tactic.Linarith
import Mathlib.Tactic.Ring
import Mathlib.Tactic.LinearCombination

set_option linter.unusedSectionVars false

namespace Verif.Props

open Verif.Tile Verif.Layout Verif.ArgCheck

universe v

/-- Arguments of a call `plasma_zlaset(PlasmaGeneral, m, n, 0, 0, pA+off, ld)`. -/
structure SetCall where
  m : Int
  n : Int
  off : Int
  ld : Int

/-- `for(; e > 0; e--)` (compute/zgbset.c:60, 66, 100, 105). -/
def downFrom (e : Int) : List Int := (List.range e.toNat).map fun t : Nat => e - (t : Int)

/-- Calls for `m >= n` (compute/zgbset.c:45-79). -/
def gbsetTall (m n kl ku lda : Int) : List SetCall :=
  (if kl + ku < m then [⟨m - kl - ku, n - 1, 1 + kl, lda + 1⟩] else []) ++
  ((downFrom (if kl + ku < m then ku - 1 else m - 1 - kl)).map fun e => ⟨1, if e < n then e else n, m - e, lda + 1⟩) ++
  ((downFrom (if kl + ku < m then kl - 1 else n - 1 - ku)).map fun e => ⟨1, e, lda * (n - e), lda + 1⟩) ++
  (if m > n + kl then [⟨m - n - kl, 1, lda * (n - 1) + (n + kl), lda⟩] else [])

/-- Calls for `m < n` (compute/zgbset.c:84-120). -/
def gbsetWide (m n kl ku lda : Int) : List SetCall :=
  (if kl + ku < m then [⟨m - kl - ku, m - 1, 1 + kl, lda + 1⟩] else []) ++
  ((downFrom (if kl + ku < m then ku - 1 else m - 1 - kl)).map fun e => ⟨1, e, m - e, lda + 1⟩) ++
  ((downFrom (if kl + ku < m then kl - 1 else m - 1 - ku)).map fun e => ⟨1, e, lda * (m - e), lda + 1⟩) ++
  ((List.range m.toNat).flatMap fun i : Nat =>
    let blcols : Int := if (i : Int) - (m - 1) + ku > 0 then (i : Int) - (m - 1) + ku else 0
    if n - (m + blcols) ≤ 0 then [] else [⟨1, n - (m + blcols), lda * (m + blcols) + i, lda⟩])

/-- The calls of `plasma_zlaset` made by `plasma_zgbset` (compute/zgbset.c:27-122).  Simplification: the products and sums do not overflow `int`. -/
def zgbset (m n kl ku lda : Int) : List SetCall :=
  if m = 0 ∨ n = 0 then [] else
  if kl < 0 ∨ kl > m - 1 then [] else
  if ku < 0 ∨ ku > n - 1 then [] else
  if m ≥ n then gbsetTall m n kl ku lda else gbsetWide m n kl ku lda

section
variable {α : Type v} [CommRing α] [StarRing α] [DecidableEq α]

/-- A call of `plasma_zlaset` (compute/zlaset.c:23-104) changes the memory around `pA` from `a` to `a'`; `a x` is the element at `pA + x`.  A call
with illegal arguments changes nothing; the returned value is not looked at.  The other call is some execution of its tasks. -/
inductive SetRun (nb : Nat) : SetCall → (Int → α) → (Int → α) → Prop
  | bad (c : SetCall) (a : Int → α) : zlasetArgs General c.m c.n c.ld ≠ 0 → SetRun nb c a a
  | run (c : SetCall) (a a' : Int → α) (mem mem' : Buf × Nat → α) : zlasetArgs General c.m c.n c.ld = 0 →
      (∀ x : Nat, mem (.usr 0, x) = a (c.off + x)) →
      Exec (drvEnv nb (oneDims c.m.toNat c.n.toNat) (ld2 c.ld.toNat 0)) (zlaset nb none c.m.toNat c.n.toNat 0 0) mem mem' →
      (∀ x : Nat, a' (c.off + x) = mem' (.usr 0, x)) → (∀ y, y < c.off → a' y = a y) → SetRun nb c a a'

/-- The calls one after the other. -/
inductive SetRuns (nb : Nat) : List SetCall → (Int → α) → (Int → α) → Prop
  | nil (a : Int → α) : SetRuns nb [] a a
  | cons {c : SetCall} {l : List SetCall} {a a1 a2 : Int → α} : SetRun nb c a a1 → SetRuns nb l a1 a2 → SetRuns nb (c :: l) a a2

/-- The elements set by a call. -/
def SetCall.cell (c : SetCall) (y : Int) : Prop := ∃ i j : Int, 0 ≤ i ∧ i < c.m ∧ 0 ≤ j ∧ j < c.n ∧ y = c.off + i + j * c.ld

/-- Legal arguments. -/
def SetCall.ok (c : SetCall) : Prop := 0 ≤ c.m ∧ 0 ≤ c.n ∧ 1 ≤ c.ld ∧ c.m ≤ c.ld

theorem SetCall.ok_iff (c : SetCall) : zlasetArgs General c.m c.n c.ld = 0 ↔ c.ok := by
  unfold zlasetArgs SetCall.ok
  simp only [ne_eq, not_true, false_and, if_false]
  split
  · constructor <;> intro h <;> omega
  · split
    · constructor <;> intro h <;> omega
    · split
      · constructor <;> intro h <;> omega
      · constructor <;> intro h <;> omega

open Classical in
theorem SetRun.eq {nb : Nat} (hnb : 0 < nb) {c : SetCall} {a a' : Int → α} (hok : c.ok) (h : SetRun nb c a a') (y : Int) :
    a' y = if c.cell y then 0 else a y := by
  cases h with
  | bad hb => exact absurd (c.ok_iff.mpr hok) hb
  | run _ mem mem' _ h1 hx h2 h3 =>
    obtain ⟨e1, e2, e3, e4⟩ := hok
    obtain ⟨k1, k2⟩ := C30_laset hnb none c.m.toNat c.n.toNat c.ld.toNat (by omega) (0 : α) 0 mem mem' hx
    by_cases hc : c.cell y
    · rw [if_pos hc]
      obtain ⟨i, j, i0, i1, j0, j1, rfl⟩ := hc
      have e : ((i.toNat + j.toNat * c.ld.toNat : Nat) : Int) = i + j * c.ld := by
        push_cast
        rw [Int.toNat_of_nonneg i0, Int.toNat_of_nonneg j0, Int.toNat_of_nonneg (by omega)]
      have := h2 (i.toNat + j.toNat * c.ld.toNat)
      rw [e, ← Int.add_assoc] at this
      rw [this, k1 _ _ (by omega) (by omega)]
      simp [stOK]
    · rw [if_neg hc]
      by_cases hy : y < c.off
      · exact h3 y hy
      · obtain ⟨x, hx'⟩ : ∃ x : Nat, y = c.off + x := ⟨(y - c.off).toNat, by omega⟩
        rw [hx', h2, ← h1, k2]
        intro i j hi hj e
        refine hc ⟨i, j, by omega, by omega, by omega, by omega, ?_⟩
        rw [hx', e]
        push_cast
        rw [Int.toNat_of_nonneg (by omega)]
        ring

open Classical in
theorem SetRuns.eq {nb : Nat} (hnb : 0 < nb) {l : List SetCall} {a a' : Int → α} (hok : ∀ c ∈ l, c.ok) (h : SetRuns nb l a a') (y : Int) :
    a' y = if ∃ c ∈ l, c.cell y then 0 else a y := by
  induction h with
  | nil a => simp
  | @cons c0 l _ _ _ h1 _ ih =>
    rw [ih fun c hc => hok c (List.mem_cons_of_mem _ hc), h1.eq hnb (hok _ List.mem_cons_self)]
    by_cases h2 : ∃ c ∈ l, SetCall.cell c y
    · rw [if_pos h2, if_pos]
      obtain ⟨c, hc, h⟩ := h2
      exact ⟨c, List.mem_cons_of_mem _ hc, h⟩
    · rw [if_neg h2]
      refine if_congr ⟨fun h => ⟨_, List.mem_cons_self, h⟩, ?_⟩ rfl rfl
      rintro ⟨c, hc, h⟩
      rcases List.mem_cons.mp hc with rfl | hc
      · exact h
      · exact absurd ⟨c, hc, h⟩ h2

/-- The places of `pA` that belong to the matrix but not to the band. -/
def OutBand (m n kl ku lda : Int) (y : Int) : Prop :=
  ∃ i j : Int, 0 ≤ i ∧ i < m ∧ 0 ≤ j ∧ j < n ∧ y = i + j * lda ∧ (i + ku < j ∨ j + kl < i)

theorem mem_downFrom {e x : Int} : x ∈ downFrom e ↔ 0 < x ∧ x ≤ e := by
  unfold downFrom
  rw [List.mem_map]
  constructor
  · rintro ⟨t, h, rfl⟩
    rw [List.mem_range] at h; omega
  · intro h; exact ⟨(e - x).toNat, List.mem_range.mpr (by omega), by omega⟩

/-- The elements set by `plasma_zgbset`. -/
theorem gbset_cells {m n kl ku lda : Int} (hm : 0 < m) (hn : 0 < n) (hkl : 0 ≤ kl ∧ kl < m) (hku : 0 ≤ ku ∧ ku < n) (y : Int) :
    (∃ c ∈ zgbset m n kl ku lda, c.cell y) ↔
      (kl + ku < m ∧ ∃ i j : Int, 0 ≤ i ∧ i < m - kl - ku ∧ 0 ≤ j ∧ j < min m n - 1 ∧ y = 1 + kl + i + j + j * lda) ∨
      (∃ e j : Int, 0 < e ∧ e ≤ (if kl + ku < m then ku - 1 else m - 1 - kl) ∧ 0 ≤ j ∧ j < e ∧ j < n ∧ y = m - e + j + j * lda) ∨
      (∃ e j : Int, 0 < e ∧ e ≤ (if kl + ku < m then kl - 1 else min m n - 1 - ku) ∧ 0 ≤ j ∧ j < e ∧ y = j + (min m n - e + j) * lda) ∨
      (n ≤ m ∧ n + kl < m ∧ ∃ i : Int, 0 ≤ i ∧ i < m - n - kl ∧ y = n + kl + i + (n - 1) * lda) ∨
      (m < n ∧ ∃ i j : Int, 0 ≤ i ∧ i < m ∧ m ≤ j ∧ i + ku < j ∧ j < n ∧ y = i + j * lda) := by
  unfold zgbset
  rw [if_neg (by omega), if_neg (by omega), if_neg (by omega)]
  constructor
  · rintro ⟨c, hc, i, j, i0, i1, j0, j1, rfl⟩
    split at hc
    · rename_i hmn
      have hmin : min m n = n := by omega
      rw [hmin]
      unfold gbsetTall at hc
      simp only [List.mem_append, List.mem_map, mem_downFrom] at hc
      rcases hc with ((hc | ⟨e, ⟨e1, e2⟩, rfl⟩) | ⟨e, ⟨e1, e2⟩, rfl⟩) | hc
      · split at hc
        · rename_i hw
          rw [List.mem_singleton] at hc
          subst hc
          exact Or.inl ⟨hw, i, j, i0, i1, j0, j1, by ring⟩
        · cases hc
      · refine Or.inr (Or.inl ⟨e, j, e1, e2, j0, ?_, ?_, ?_⟩)
        · change j < if e < n then e else n at j1
          split at j1 <;> omega
        · change j < if e < n then e else n at j1
          split at j1 <;> omega
        · have : i = 0 := by change i < 1 at i1; omega
          subst this
          show m - e + 0 + j * (lda + 1) = _; ring
      · refine Or.inr (Or.inr (Or.inl ⟨e, j, e1, e2, j0, j1, ?_⟩))
        have : i = 0 := by change i < 1 at i1; omega
        subst this
        show lda * (n - e) + 0 + j * (lda + 1) = _; ring
      · split at hc
        · rename_i hw
          rw [List.mem_singleton] at hc
          subst hc
          refine Or.inr (Or.inr (Or.inr (Or.inl ⟨hmn, hw, i, i0, i1, ?_⟩)))
          have : j = 0 := by change j < 1 at j1; omega
          subst this
          show lda * (n - 1) + (n + kl) + i + 0 * lda = _; ring
        · cases hc
    · rename_i hmn
      have hmin : min m n = m := by omega
      rw [hmin]
      unfold gbsetWide at hc
      simp only [List.mem_append, List.mem_map, mem_downFrom, List.mem_flatMap, List.mem_range] at hc
      rcases hc with ((hc | ⟨e, ⟨e1, e2⟩, rfl⟩) | ⟨e, ⟨e1, e2⟩, rfl⟩) | ⟨k, hk, hc⟩
      · split at hc
        · rename_i hw
          rw [List.mem_singleton] at hc
          subst hc
          exact Or.inl ⟨hw, i, j, i0, i1, j0, j1, by ring⟩
        · cases hc
      · have j1 : j < e := j1
        refine Or.inr (Or.inl ⟨e, j, e1, e2, j0, j1, ?_, ?_⟩)
        · split at e2 <;> omega
        · have : i = 0 := by change i < 1 at i1; omega
          subst this
          show m - e + 0 + j * (lda + 1) = _; ring
      · refine Or.inr (Or.inr (Or.inl ⟨e, j, e1, e2, j0, j1, ?_⟩))
        have : i = 0 := by change i < 1 at i1; omega
        subst this
        show lda * (m - e) + 0 + j * (lda + 1) = _; ring
      · generalize hb : (if (k : Int) - (m - 1) + ku > 0 then (k : Int) - (m - 1) + ku else 0) = b at hc
        split at hc
        · cases hc
        · rw [List.mem_singleton] at hc
          subst hc
          change j < n - (m + b) at j1
          have : i = 0 := by change i < 1 at i1; omega
          subst this
          refine Or.inr (Or.inr (Or.inr (Or.inr ⟨by omega, k, m + b + j, by omega, by omega, ?_, ?_, by omega, ?_⟩)))
          · split at hb <;> omega
          · split at hb <;> omega
          · show lda * (m + b) + k + 0 + j * lda = _; ring
  · intro h
    split
    · rename_i hmn
      have hmin : min m n = n := by omega
      rw [hmin] at h
      unfold gbsetTall
      simp only [List.mem_append, List.mem_map, mem_downFrom]
      rcases h with ⟨hw, i, j, i0, i1, j0, j1, rfl⟩ | ⟨e, j, e1, e2, j0, j1, j2, rfl⟩ | ⟨e, j, e1, e2, j0, j1, rfl⟩ | ⟨h1, h2, i, i0, i1, rfl⟩ | ⟨h1, -⟩
      · exact ⟨⟨m - kl - ku, n - 1, 1 + kl, lda + 1⟩, Or.inl (Or.inl (Or.inl (by rw [if_pos hw]; exact List.mem_singleton.mpr rfl))), i, j, i0, i1, j0, j1,
          by show _ = 1 + kl + i + j * (lda + 1); ring⟩
      · refine ⟨_, Or.inl (Or.inl (Or.inr ⟨e, ⟨e1, e2⟩, rfl⟩)), 0, j, le_refl _, Int.one_pos, j0, ?_, ?_⟩
        · show j < if e < n then e else n
          split <;> omega
        · show _ = m - e + 0 + j * (lda + 1); ring
      · exact ⟨_, Or.inl (Or.inr ⟨e, ⟨e1, e2⟩, rfl⟩), 0, j, le_refl _, Int.one_pos, j0, j1, by show _ = lda * (n - e) + 0 + j * (lda + 1); ring⟩
      · exact ⟨⟨m - n - kl, 1, lda * (n - 1) + (n + kl), lda⟩, Or.inr (by rw [if_pos h2]; exact List.mem_singleton.mpr rfl), i, 0, i0, i1, le_refl _, Int.one_pos,
          by show _ = lda * (n - 1) + (n + kl) + i + 0 * lda; ring⟩
      · omega
    · rename_i hmn
      have hmin : min m n = m := by omega
      rw [hmin] at h
      unfold gbsetWide
      simp only [List.mem_append, List.mem_map, mem_downFrom, List.mem_flatMap, List.mem_range]
      rcases h with ⟨hw, i, j, i0, i1, j0, j1, rfl⟩ | ⟨e, j, e1, e2, j0, j1, j2, rfl⟩ | ⟨e, j, e1, e2, j0, j1, rfl⟩ | ⟨h1, h2, i, i0, i1, rfl⟩ | ⟨h1, i, j, i0, i1, j0, j1, j2, rfl⟩
      · exact ⟨⟨m - kl - ku, m - 1, 1 + kl, lda + 1⟩, Or.inl (Or.inl (Or.inl (by rw [if_pos hw]; exact List.mem_singleton.mpr rfl))), i, j, i0, i1, j0, j1,
          by show _ = 1 + kl + i + j * (lda + 1); ring⟩
      · exact ⟨_, Or.inl (Or.inl (Or.inr ⟨e, ⟨e1, e2⟩, rfl⟩)), 0, j, le_refl _, Int.one_pos, j0, j1, by show _ = m - e + 0 + j * (lda + 1); ring⟩
      · exact ⟨_, Or.inl (Or.inr ⟨e, ⟨e1, e2⟩, rfl⟩), 0, j, le_refl _, Int.one_pos, j0, j1, by show _ = lda * (m - e) + 0 + j * (lda + 1); ring⟩
      · omega
      · obtain ⟨b, hb⟩ : ∃ b, b = (if ((i.toNat : Nat) : Int) - (m - 1) + ku > 0 then ((i.toNat : Nat) : Int) - (m - 1) + ku else 0) := ⟨_, rfl⟩
        have hb' : 0 ≤ b ∧ m + b ≤ j := by split at hb <;> omega
        refine ⟨⟨1, n - (m + b), lda * (m + b) + ((i.toNat : Nat) : Int), lda⟩, Or.inr ⟨i.toNat, by omega, ?_⟩, 0, j - (m + b), le_refl _, Int.one_pos, by omega, ?_, ?_⟩
        · rw [← hb, if_neg (by omega)]; exact List.mem_singleton.mpr rfl
        · show j - (m + b) < n - (m + b); omega
        · show _ = lda * (m + b) + ((i.toNat : Nat) : Int) + 0 + (j - (m + b)) * lda
          rw [Int.toNat_of_nonneg i0]; ring

theorem gbset_ok {m n kl ku lda : Int} (hlda : 1 ≤ lda ∧ m ≤ lda) : ∀ c ∈ zgbset m n kl ku lda, c.ok := by
  intro c hc
  unfold zgbset at hc
  split at hc
  · cases hc
  split at hc
  · cases hc
  split at hc
  · cases hc
  split at hc
  · unfold gbsetTall at hc
    simp only [List.mem_append, List.mem_map, mem_downFrom] at hc
    rcases hc with ((hc | ⟨e, ⟨e1, e2⟩, rfl⟩) | ⟨e, ⟨e1, e2⟩, rfl⟩) | hc
    · split at hc
      · rw [List.mem_singleton] at hc
        subst hc
        refine ⟨?_, ?_, ?_, ?_⟩ <;> simp only <;> omega
      · cases hc
    · refine ⟨?_, ?_, ?_, ?_⟩ <;> simp only
      · omega
      · split <;> omega
      · omega
      · omega
    · refine ⟨?_, ?_, ?_, ?_⟩ <;> simp only <;> omega
    · split at hc
      · rw [List.mem_singleton] at hc
        subst hc
        refine ⟨?_, ?_, ?_, ?_⟩ <;> simp only <;> omega
      · cases hc
  · unfold gbsetWide at hc
    simp only [List.mem_append, List.mem_map, mem_downFrom, List.mem_flatMap, List.mem_range] at hc
    rcases hc with ((hc | ⟨e, ⟨e1, e2⟩, rfl⟩) | ⟨e, ⟨e1, e2⟩, rfl⟩) | ⟨k, hk, hc⟩
    · split at hc
      · rw [List.mem_singleton] at hc
        subst hc
        refine ⟨?_, ?_, ?_, ?_⟩ <;> simp only <;> omega
      · cases hc
    · refine ⟨?_, ?_, ?_, ?_⟩ <;> simp only <;> omega
    · refine ⟨?_, ?_, ?_, ?_⟩ <;> simp only <;> omega
    · generalize (if (k : Int) - (m - 1) + ku > 0 then (k : Int) - (m - 1) + ku else 0) = b at hc
      split at hc
      · cases hc
      · rw [List.mem_singleton] at hc
        subst hc
        refine ⟨?_, ?_, ?_, ?_⟩ <;> simp only <;> omega

/-- When `plasma_zgbset` does what it says: the band is wide, or it is narrow enough for the shape of the matrix, and the columns of the skewed
window do not leave the matrix at the bottom unless that leads to the top of the next column. -/
def GbsetGood (m n kl ku lda : Int) : Prop :=
  m ≤ kl + ku ∨ ((m ≤ n ∨ kl + ku ≤ n) ∧ (lda = m ∨ min m n - 1 ≤ ku))

theorem gbset_out {m n kl ku lda : Int} (hm : 0 < m) (hn : 0 < n) (hkl : 0 ≤ kl ∧ kl < m) (hku : 0 ≤ ku ∧ ku < n)
    (hg : GbsetGood m n kl ku lda) (y : Int) : (∃ c ∈ zgbset m n kl ku lda, c.cell y) ↔ OutBand m n kl ku lda y := by
  rw [gbset_cells hm hn hkl hku]
  unfold GbsetGood at hg
  constructor
  · rintro (⟨hw, i, j, i0, i1, j0, j1, rfl⟩ | ⟨e, j, e1, e2, j0, j1, j2, rfl⟩ | ⟨e, j, e1, e2, j0, j1, rfl⟩ | ⟨h1, h2, i, i0, i1, rfl⟩ |
      ⟨h1, i, j, i0, i1, j0, j1, j2, rfl⟩)
    · by_cases hr : 1 + kl + i + j < m
      · exact ⟨1 + kl + i + j, j, by omega, hr, j0, by omega, rfl, Or.inr (by omega)⟩
      · have hl : lda = m := by omega
        refine ⟨1 + kl + i + j - m, j + 1, by omega, by omega, by omega, by omega, ?_, Or.inl (by omega)⟩
        rw [hl]; ring
    · refine ⟨m - e + j, j, by omega, by omega, j0, j2, rfl, Or.inr ?_⟩
      split at e2 <;> omega
    · refine ⟨j, min m n - e + j, j0, ?_, ?_, ?_, rfl, Or.inl ?_⟩ <;> split at e2 <;> omega
    · exact ⟨n + kl + i, n - 1, by omega, by omega, by omega, by omega, rfl, Or.inr (by omega)⟩
    · exact ⟨i, j, i0, i1, by omega, j2, rfl, Or.inl j1⟩
  · rintro ⟨r, c, r0, r1, c0, c1, rfl, h | h⟩
    · by_cases hc : c < min m n
      · by_cases hw : kl + ku < m
        · have hl : lda = m := by omega
          by_cases hd : c - r ≤ m - kl
          · refine Or.inl ⟨hw, r + m - kl - c, c - 1, by omega, by omega, by omega, by omega, ?_⟩
            rw [hl]; ring
          · refine Or.inr (Or.inr (Or.inl ⟨min m n - (c - r), r, by omega, ?_, r0, by omega, ?_⟩))
            · rw [if_pos hw]; omega
            · congr 2; omega
        · refine Or.inr (Or.inr (Or.inl ⟨min m n - (c - r), r, by omega, ?_, r0, by omega, ?_⟩))
          · rw [if_neg hw]; omega
          · congr 2; omega
      · exact Or.inr (Or.inr (Or.inr (Or.inr ⟨by omega, r, c, r0, r1, by omega, h, c1, rfl⟩)))
    · by_cases hw : kl + ku < m
      · by_cases hc : c < min m n - 1
        · by_cases hd : r - c ≤ m - ku
          · exact Or.inl ⟨hw, r - 1 - kl - c, c, by omega, by omega, c0, hc, by congr 1; omega⟩
          · refine Or.inr (Or.inl ⟨m - (r - c), c, by omega, ?_, c0, by omega, c1, by congr 1; omega⟩)
            rw [if_pos hw]; omega
        · refine Or.inr (Or.inr (Or.inr (Or.inl ⟨by omega, by omega, r - n - kl, by omega, by omega, ?_⟩)))
          have : c = n - 1 := by omega
          rw [this]; congr 1; omega
      · refine Or.inr (Or.inl ⟨m - (r - c), c, by omega, ?_, c0, by omega, c1, by congr 1; omega⟩)
        rw [if_neg hw]; omega

/-- Every call with legal arguments has an execution. -/
theorem SetRun.exists {nb : Nat} (hnb : 0 < nb) {c : SetCall} (hok : c.ok) (a : Int → α) : ∃ a', SetRun nb c a a' := by
  have h0 := hok
  obtain ⟨e1, e2, e3, e4⟩ := hok
  have hx : ∃ mem', Exec (drvEnv nb (oneDims c.m.toNat c.n.toNat) (ld2 c.ld.toNat 0)) (zlaset nb none c.m.toNat c.n.toNat (0 : α) 0)
      (fun x => match x with | (.usr 0, k) => a (c.off + k) | _ => 0) mem' := by
    unfold zlaset
    split
    · exact Exec.exists (drvEnv_wf hnb (one_ld (by omega))) (by simp) (by simp) _
    · exact driver_exists (ins := [0]) (outs := [0]) hnb (one_ld (by omega)) (ompZlaset_good hnb) _
  obtain ⟨mem', hx⟩ := hx
  refine ⟨fun y => if y < c.off then a y else mem' (.usr 0, (y - c.off).toNat), SetRun.run _ _ _ _ mem' (c.ok_iff.mpr h0) (fun x => rfl) hx ?_ ?_⟩
  · intro x
    show (if c.off + x < c.off then _ else _) = _
    rw [if_neg (by omega)]
    congr 2; omega
  · intro y hy
    exact if_pos hy

theorem SetRuns.exists {nb : Nat} (hnb : 0 < nb) {l : List SetCall} (hok : ∀ c ∈ l, c.ok) (a : Int → α) : ∃ a', SetRuns nb l a a' := by
  induction l generalizing a with
  | nil => exact ⟨a, .nil a⟩
  | cons c l ih =>
    obtain ⟨a1, h1⟩ := SetRun.exists hnb (hok c List.mem_cons_self) a
    obtain ⟨a2, h2⟩ := ih (fun c hc => hok c (List.mem_cons_of_mem _ hc)) a1
    exact ⟨a2, .cons h1 h2⟩

/-- **C82, part.** Under the condition `GbsetGood`, whatever way the tasks of the calls of `plasma_zlaset` are executed, `plasma_zgbset` sets the
elements outside of the band to zero and changes nothing else, neither the band nor the rest of the array. -/
theorem C82_gbset_partial {nb : Nat} (hnb : 0 < nb) {m n kl ku lda : Int} (hm : 0 < m) (hn : 0 < n) (hkl : 0 ≤ kl ∧ kl < m) (hku : 0 ≤ ku ∧ ku < n)
    (hlda : m ≤ lda) (hg : GbsetGood m n kl ku lda) (a a' : Int → α) (h : SetRuns nb (zgbset m n kl ku lda) a a') :
    (∀ y, OutBand m n kl ku lda y → a' y = 0) ∧ (∀ y, ¬ OutBand m n kl ku lda y → a' y = a y) := by
  classical
  have key := h.eq hnb (gbset_ok ⟨by omega, hlda⟩)
  constructor
  · intro y hy
    rw [key, if_pos ((gbset_out hm hn hkl hku hg y).mpr hy)]
  · intro y hy
    rw [key, if_neg fun h => hy ((gbset_out hm hn hkl hku hg y).mp h)]

/-- Illegal widths and empty matrices: nothing is changed. -/
theorem C82_illegal {nb : Nat} {m n kl ku lda : Int} (hi : m = 0 ∨ n = 0 ∨ kl < 0 ∨ m ≤ kl ∨ ku < 0 ∨ n ≤ ku) (a a' : Int → α)
    (h : SetRuns nb (zgbset m n kl ku lda) a a') : a' = a := by
  have : zgbset m n kl ku lda = [] := by
    unfold zgbset
    split
    · rfl
    · split
      · rfl
      · rw [if_pos (by omega)]
  rw [this] at h
  cases h; rfl

/-- A place of the matrix determines the row and the column. -/
theorem place_inj {lda i j i' j' : Int} (h0 : 0 ≤ i) (h1 : i < lda) (h2 : 0 ≤ i') (h3 : i' < lda) (h : i + j * lda = i' + j' * lda) : i = i' ∧ j = j' := by
  have h4 : (j - j') * lda = i' - i := by linear_combination h
  have h5 : j = j' := by
    by_contra hne
    rcases lt_or_gt_of_ne hne with h6 | h6
    · have : (j - j') * lda ≤ -1 * lda := Int.mul_le_mul_of_nonneg_right (by omega) (by omega)
      omega
    · have : 1 * lda ≤ (j - j') * lda := Int.mul_le_mul_of_nonneg_right (by omega) (by omega)
      omega
  subst h5
  exact ⟨by omega, rfl⟩

/-- **C82, refuted for tall matrices.** If `n < kl + ku < m` then `plasma_zgbset` sets the band element `A(0,ku)` to zero. -/
theorem C82_band_refuted {nb : Nat} (hnb : 0 < nb) {m n kl ku lda : Int} (hn : 0 < n) (hkl : 0 ≤ kl ∧ kl < m) (hku : 0 ≤ ku ∧ ku < n)
    (hlda : m ≤ lda) (h1 : n < kl + ku) (h2 : kl + ku < m) (a a' : Int → α) (h : SetRuns nb (zgbset m n kl ku lda) a a') :
    a' (0 + ku * lda) = 0 ∧ ¬ OutBand m n kl ku lda (0 + ku * lda) := by
  classical
  constructor
  · rw [h.eq hnb (gbset_ok ⟨by omega, hlda⟩), if_pos]
    rw [gbset_cells (by omega) hn hkl hku]
    refine Or.inr (Or.inr (Or.inl ⟨min m n - ku, 0, by omega, ?_, le_refl _, by omega, ?_⟩))
    · rw [if_pos h2]; omega
    · congr 2; omega
  · rintro ⟨i, j, i0, i1, j0, j1, e, hb⟩
    obtain ⟨rfl, rfl⟩ := place_inj (le_refl _) (by omega) i0 (by omega) e
    omega

/-- **C82, refuted for a leading dimension larger than `m`.** If the band is narrow then `plasma_zgbset` sets an element of the array to zero that is
not in the matrix. -/
theorem C82_padding_refuted {nb : Nat} (hnb : 0 < nb) {m n kl ku lda : Int} (hn : 0 < n) (hkl : 0 ≤ kl ∧ kl < m) (hku : 0 ≤ ku ∧ ku < min m n - 1)
    (hlda : m < lda) (h2 : kl + ku < m) (a a' : Int → α) (h : SetRuns nb (zgbset m n kl ku lda) a a') :
    a' (m + ku * lda) = 0 ∧ ¬ OutBand m n kl ku lda (m + ku * lda) := by
  classical
  constructor
  · rw [h.eq hnb (gbset_ok ⟨by omega, by omega⟩), if_pos]
    rw [gbset_cells (by omega) hn hkl (by omega)]
    exact Or.inl ⟨h2, m - kl - ku - 1, ku, by omega, by omega, hku.1, hku.2, by congr 1; omega⟩
  · rintro ⟨i, j, i0, i1, j0, j1, e, hb⟩
    obtain ⟨rfl, rfl⟩ := place_inj (by omega) (by omega) i0 (by omega) e
    omega

/-- **C82, characterisation.** The condition is necessary and sufficient. -/
theorem C82_gbset_iff [Nontrivial α] {nb : Nat} (hnb : 0 < nb) {m n kl ku lda : Int} (hm : 0 < m) (hn : 0 < n) (hkl : 0 ≤ kl ∧ kl < m) (hku : 0 ≤ ku ∧ ku < n)
    (hlda : m ≤ lda) :
    (∀ a a' : Int → α, SetRuns nb (zgbset m n kl ku lda) a a' →
      (∀ y, OutBand m n kl ku lda y → a' y = 0) ∧ (∀ y, ¬ OutBand m n kl ku lda y → a' y = a y)) ↔ GbsetGood m n kl ku lda := by
  constructor
  · intro hall
    obtain ⟨a', hr⟩ := SetRuns.exists (α := α) hnb (gbset_ok (m := m) (n := n) (kl := kl) (ku := ku) (lda := lda) ⟨by omega, hlda⟩) fun _ => 1
    obtain ⟨-, h2⟩ := hall _ _ hr
    by_contra hg
    unfold GbsetGood at hg
    by_cases hc : n < m ∧ n < kl + ku
    · obtain ⟨b1, b2⟩ := C82_band_refuted hnb hn hkl hku hlda hc.2 (by omega) _ _ hr
      rw [h2 _ b2] at b1
      exact one_ne_zero b1
    · obtain ⟨b1, b2⟩ := C82_padding_refuted hnb hn hkl ⟨hku.1, by omega⟩ (by omega) (by omega) _ _ hr
      rw [h2 _ b2] at b1
      exact one_ne_zero b1
  · intro hg a a' h
    exact C82_gbset_partial hnb hm hn hkl hku hlda hg a a' h

/-- **C82, refuted.** A diagonal matrix in an array with a leading dimension larger than its order: `A(0,1)` is not set to zero. -/
theorem C82_missed_refuted {nb : Nat} (hnb : 0 < nb) {n lda : Int} (hn : 2 ≤ n) (hlda : n < lda) (a a' : Int → α)
    (h : SetRuns nb (zgbset n n 0 0 lda) a a') : a' (0 + 1 * lda) = a (0 + 1 * lda) ∧ OutBand n n 0 0 lda (0 + 1 * lda) := by
  classical
  constructor
  · rw [h.eq hnb (gbset_ok ⟨by omega, by omega⟩), if_neg]
    rw [gbset_cells (by omega) (by omega) (by omega) (by omega), if_pos (by omega), if_pos (by omega)]
    rintro (⟨hw, i, j, i0, i1, j0, j1, e⟩ | ⟨e, j, e1, e2, -⟩ | ⟨e, j, e1, e2, -⟩ | ⟨h1, h2, -⟩ | ⟨h1, -⟩)
    · have hj : j = 0 ∨ 1 ≤ j := by omega
      rcases hj with rfl | hj
      · omega
      · have : 1 * lda ≤ j * lda := Int.mul_le_mul_of_nonneg_right hj (by omega)
        omega
    all_goals omega
  · exact ⟨0, 1, le_refl _, by omega, by omega, by omega, rfl, Or.inl (by omega)⟩

/-- **C82, refuted.** A matrix with a lower bandwidth larger than `n + 1`: memory in front of the array is set to zero. -/
theorem C82_underrun_refuted {nb : Nat} (hnb : 0 < nb) {m n kl ku lda : Int} (hn : 0 < n) (hkl : n + 2 ≤ kl ∧ kl < m) (hku : 0 ≤ ku ∧ ku < n)
    (hlda : m ≤ lda) (h2 : kl + ku < m) (a a' : Int → α) (h : SetRuns nb (zgbset m n kl ku lda) a a') : a' (-lda) = 0 ∧ -lda < 0 := by
  classical
  refine ⟨?_, by omega⟩
  rw [h.eq hnb (gbset_ok ⟨by omega, hlda⟩), if_pos]
  rw [gbset_cells (by omega) hn (by omega) hku]
  refine Or.inr (Or.inr (Or.inl ⟨n + 1, 0, by omega, ?_, le_refl _, by omega, ?_⟩))
  · rw [if_pos h2]; omega
  · have : min m n - (n + 1) + 0 = -1 := by omega
    rw [this]; ring

end

/-- A 4-by-4 matrix with one diagonal on each side of the main diagonal and leading dimension 4: executions exist, and they set `A(3,0)` and
leave `A(1,0)`. -/
example : ∃ a', SetRuns 2 (zgbset 4 4 1 1 4) (fun _ => (7 : ℚ)) a' ∧ a' 3 = 0 ∧ a' 1 = 7 := by
  obtain ⟨a', h⟩ := SetRuns.exists (nb := 2) (by decide) (gbset_ok (m := 4) (n := 4) (kl := 1) (ku := 1) (lda := 4) ⟨by omega, by omega⟩) (fun _ => (7 : ℚ))
  obtain ⟨h1, h2⟩ := C82_gbset_partial (by decide) (by decide) (by decide) (by decide) (by decide) (by decide)
    (Or.inr ⟨Or.inl (by decide), Or.inl rfl⟩) _ a' h
  refine ⟨a', h, h1 3 ⟨3, 0, by decide, by decide, by decide, by decide, by decide, Or.inr (by decide)⟩, h2 1 ?_⟩
  rintro ⟨i, j, i0, i1, j0, j1, e, hb⟩
  omega

/-- The same matrix with leading dimension 5: the condition does not hold. -/
example : ¬ GbsetGood 4 4 1 1 5 := by unfold GbsetGood; decide

/-- A column of 5 elements with two diagonals below: `A(0,0)` is lost. -/
example : ∃ a', SetRuns 2 (zgbset 5 1 2 0 5) (fun _ => (7 : ℚ)) a' ∧ a' 0 = 0 := by
  obtain ⟨a', h⟩ := SetRuns.exists (nb := 2) (by decide) (gbset_ok (m := 5) (n := 1) (kl := 2) (ku := 0) (lda := 5) ⟨by omega, by omega⟩) (fun _ => (7 : ℚ))
  exact ⟨a', h, by simpa using (C82_band_refuted (by decide) (by decide) (by decide) (by decide) (by decide) (by decide) (by decide) _ a' h).1⟩

/-- The arguments of the last refutations. -/
example : ∃ a', SetRuns 2 (zgbset 4 1 3 0 4) (fun _ => (7 : ℚ)) a' ∧ a' (-4) = 0 := by
  obtain ⟨a', h⟩ := SetRuns.exists (nb := 2) (by decide) (gbset_ok (m := 4) (n := 1) (kl := 3) (ku := 0) (lda := 4) ⟨by omega, by omega⟩) (fun _ => (7 : ℚ))
  exact ⟨a', h, by simpa using (C82_underrun_refuted (by decide) (by decide) (by decide) (by decide) (by decide) (by decide) _ a' h).1⟩

end Verif.Props

/-
Property C77: the symmetric interchanges of the factorization of Hermitian indefinite matrices.
-/
import Verif.Heswp
import Mathlib.Data.Complex.Basic

namespace Verif.Props

open Verif.Heswp Verif.LU

universe v
variable {α : Type v} [CommRing α] [StarRing α]

/-- Product of the interchanges `(lo p_lo) (lo+1 p_(lo+1)) …`, the first one outermost, stated by recursion. -/
def ichg (p : Nat → Nat) (lo : Nat) : Nat → Equiv.Perm Nat
  | 0 => 1
  | w + 1 => ichg p lo w * Equiv.swap (lo + w) (p (lo + w))

theorem ichg_eq (p : Nat → Nat) (lo w : Nat) : ichg p lo w = perm p lo w := by
  induction w with
  | zero => rfl
  | succ w ih =>
    show ichg p lo w * _ = _
    rw [ih]
    rfl

/-- **C77** `plasma_core_zheswp` called by any number of ranks, which work in any order between the barriers, replaces a Hermitian
matrix `S`, of which the lower triangle is stored from column `lo` on, by `S` with rows and columns interchanged by the pivots
`lo .. lo+w-1`, which lie in one tile.  Nothing else changes: neither columns left of `lo` nor the strict upper triangle. -/
theorem C77_heswp {n b nt q w : Nat} (hb : 0 < b) (hnt : 0 < nt) (hw : w ≤ b) {p : Nat → Nat}
    (hp : ∀ i, q * b ≤ i → i < q * b + w → i ≤ p i ∧ p i < n)
    {S X X' : Nat → Nat → α} (hS : ∀ r c, star (S r c) = S c r)
    (hX : ∀ r c, q * b ≤ c → c ≤ r → r < n → X r c = S r c)
    (h : HeExec n b (q * b) nt p w X X') (r c : Nat) :
    X' r c = if q * b ≤ c ∧ c ≤ r ∧ r < n then S (ichg p (q * b) w r) (ichg p (q * b) w c) else X r c := by
  rw [he_exec hb hnt rfl hw hp h, ichg_eq]
  split_ifs with hc
  · have hr : ∀ x, q * b ≤ x → x < n → q * b ≤ perm p (q * b) w x ∧ perm p (q * b) w x < n := by
      intro x h1 h2
      clear hc h hX
      induction w with
      | zero => exact ⟨h1, h2⟩
      | succ w ih =>
        have hpw := hp (q * b + w) (by omega) (by omega)
        have : ∀ y, q * b ≤ y → y < n → q * b ≤ perm p (q * b) w y ∧ perm p (q * b) w y < n := by
          clear h1 h2 x ih
          have hp' : ∀ i, q * b ≤ i → i < q * b + w → i ≤ p i ∧ p i < n := fun i h1 h2 => hp i h1 (by omega)
          clear hp hpw hw
          induction w with
          | zero => exact fun y h1 h2 => ⟨h1, h2⟩
          | succ w ih =>
            intro y h1 h2
            have hpw := hp' (q * b + w) (by omega) (by omega)
            refine ih (fun i h1 h2 => hp' i h1 (by omega)) _ ?_ ?_ <;> rw [Equiv.swap_apply_def] <;> split_ifs <;> omega
        refine this _ ?_ ?_ <;> rw [Equiv.swap_apply_def] <;> split_ifs <;> omega
    have h1 := hr r (by omega) hc.2.2
    have h2 := hr c hc.1 (by omega)
    unfold herm
    split_ifs with h3
    · exact hX _ _ h2.1 h3 h1.2
    · rw [hX _ _ h1.1 (by omega) h2.2, hS]
  · rfl

/-- **C77** The result does not depend on the number of ranks and their order. -/
theorem C77_threads {n b nt nt' q w : Nat} (hb : 0 < b) (hnt : 0 < nt) (hnt' : 0 < nt') (hw : w ≤ b) {p : Nat → Nat}
    (hp : ∀ i, q * b ≤ i → i < q * b + w → i ≤ p i ∧ p i < n) {X X1 X2 : Nat → Nat → α}
    (h1 : HeExec n b (q * b) nt p w X X1) (h2 : HeExec n b (q * b) nt' p w X X2) : X1 = X2 := by
  funext r c
  rw [he_exec hb hnt rfl hw hp h1, he_exec hb hnt' rfl hw hp h2]

/-- **C77** No element is exchanged by two ranks, or twice by one rank, between two barriers, so that the order is irrelevant, and
every element touched lies in the stored part of the matrix. -/
theorem C77_disjoint {n b nt q : Nat} (hb : 0 < b) (hnt : 0 < nt) {p1 p2 : Nat} (hq : p1 / b * b = q) (h12 : p1 ≤ p2) (h2 : p2 < n) :
    (heAll n b q nt p1 p2).Nodup ∧
    ∀ x ∈ heAll n b q nt p1 p2, (q ≤ x.p.2 ∧ x.p.2 ≤ x.p.1 ∧ x.p.1 < n) ∧ (q ≤ x.q.2 ∧ x.q.2 ≤ x.q.1 ∧ x.q.1 < n) ∧
      ∀ y ∈ heAll n b q nt p1 p2, (y.p = x.p ∨ y.p = x.q ∨ y.q = x.p ∨ y.q = x.q) → y = x := by
  rcases h12.lt_or_eq with h12 | rfl
  · refine ⟨heAll_nodup hb hq h12 h2, fun x hx => ?_⟩
    have hc := mem_canon hb hq h12 h2 hx
    have hin : ∀ y : Nat × Nat, canon n q p1 p2 y = some x → q ≤ y.2 ∧ y.2 ≤ y.1 ∧ y.1 < n := by
      intro y hy
      by_contra hn
      unfold canon at hy
      rw [if_pos hn] at hy
      cases hy
    refine ⟨hin _ hc.1, hin _ hc.2, fun y hy e => ?_⟩
    have hd := mem_canon hb hq h12 h2 hy
    rcases e with e | e | e | e
    · have := hd.1; rw [e, hc.1] at this; exact (Option.some.inj this).symm
    · have := hd.1; rw [e, hc.2] at this; exact (Option.some.inj this).symm
    · have := hd.2; rw [e, hc.1] at this; exact (Option.some.inj this).symm
    · have := hd.2; rw [e, hc.2] at this; exact (Option.some.inj this).symm
  · have : heAll n b q nt p1 p1 = [] := by simp [heAll, heRank]
    rw [this]
    simp

/-- C77 on a complex matrix of order five with tiles of order two and three ranks, pivots for the rows 2 and 3: element `(4, 3)`
becomes element `(2, 3)` of the Hermitian matrix, which is not stored. -/
example : let S : Nat → Nat → ℂ := fun r c => r + c + ((r : ℂ) - c) * Complex.I
    let X : Nat → Nat → ℂ := fun r c => if c ≤ r then S r c else 7
    heswp 5 2 2 3 (fun i => if i = 2 then 4 else i) 2 X 4 3 = S 2 3 ∧
    heswp 5 2 2 3 (fun i => if i = 2 then 4 else i) 2 X 3 4 = 7 := by
  intro S X
  have hS : ∀ r c, star (S r c) = S c r := by
    intro r c
    simp only [S, star_add, star_mul', star_sub, star_natCast]
    rw [show star Complex.I = -Complex.I from Complex.conj_I]
    ring
  have h := C77_heswp (n := 5) (b := 2) (nt := 3) (q := 1) (w := 2) (p := fun i => if i = 2 then 4 else i) (by omega) (by omega)
    (by omega) (by intro i h1 h2; split_ifs <;> omega) hS
    (X := X) (fun r c _ h _ => by simp only [X]; rw [if_pos h]) heswp_exec
  constructor
  · rw [show (2 : Nat) = 1 * 2 from rfl, h, if_pos (by omega)]
    rfl
  · rw [show (2 : Nat) = 1 * 2 from rfl, h, if_neg (by omega)]
    simp [X]

end Verif.Props

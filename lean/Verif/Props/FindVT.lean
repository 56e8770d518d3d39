/-
C94: the positions of the reflectors of the bulge chasing are computed without undefined behaviour.
-/
import Verif.FindVT
import Verif.Props.Blgtrd

namespace Verif.Props

open Verif.Blg

/-- **C94, the part that holds.** Tile size at least 4 and an array `V` of at most `2^31` elements: for every reflector, `findVTpos` with `Vblksiz = nb/4`
(compute/zgesdd.c:498) has no division by zero and no overflow, its results are the positions of C87, and they are inside of the arrays.
(Missing: smaller tiles and larger matrices, see below.) -/
theorem C94_positions_partial {N nb s q : Nat} (hnb : 4 ≤ nb) (hN : N < 2147483648) (hB : nb + nb / 4 < 2147483648)
    (hsize : ldv nb (nb / 4) * blkcnt N nb (nb / 4) * (nb / 4) ≤ 2147483648) (h : Blg.IsRefl N nb s q) :
    ∃ v t p b : Nat, findVTposI 2147483648 N nb (nb / 4 : Nat) s (rst nb s q : Nat) = some ((v : Int), (t : Int), (p : Int), (b : Int)) ∧
      v = vpos N nb (nb / 4) s (rst nb s q) ∧ t = taupos N nb (nb / 4) s (rst nb s q) ∧ p = tpos N nb (nb / 4) s (rst nb s q) ∧
      (∀ k, k < nb → v + k < ldv nb (nb / 4) * blkcnt N nb (nb / 4) * (nb / 4)) ∧ t < blkcnt N nb (nb / 4) * (nb / 4) := by
  have hV : 0 < nb / 4 := Nat.div_pos hnb (by omega)
  obtain ⟨h1, h2, -⟩ := C87_storage (by omega) hV h
  have h3 := h1 0 (by omega)
  have hst : rst nb s q < N := by
    unfold rst
    obtain ⟨h4, rfl | h5⟩ := h <;> omega
  have hst' : s < rst nb s q := by
    unfold rst
    omega
  exact ⟨_, _, _, _, findVTposI_nat hN (by omega) hV hB h.1 hst' hst (by omega), rfl, rfl, rfl, h1, h2⟩

/-- **C94, refuted for small tiles.** With `nb < 4` every call of `findVTpos` divides by zero. -/
theorem C94_small_tile_refuted {nb : Nat} (hnb : nb < 4) (N s st : Int) : findVTposI 2147483648 N nb (nb / 4 : Nat) s st = none := by
  unfold findVTposI
  rw [Nat.div_eq_of_lt hnb, if_pos (by simp)]

/-- **C94, refuted for large matrices.** With `nb = 256`, `min(m,n) = 60000` the position of the reflector of the last sweep overflows `int`. -/
theorem C94_overflow_refuted : Blg.IsRefl 60000 256 59998 0 ∧
    findVTposI 2147483648 (60000 : Nat) (256 : Nat) (256 / 4 : Nat) (59998 : Nat) (rst 256 59998 0 : Nat) = none := by
  constructor
  · unfold Blg.IsRefl; omega
  · decide +kernel

/-- The hypotheses are met: order 1000 with `nb = 256`; the size is computed from the loop of `findVTsiz`. -/
example : ldv 256 (256 / 4) * blkcnt 1000 256 (256 / 4) * (256 / 4) ≤ 2147483648 ∧ Blg.IsRefl 1000 256 300 2 ∧
    findVTposI 2147483648 (1000 : Nat) (256 : Nat) (256 / 4 : Nat) (300 : Nat) (rst 256 300 2 : Nat) = some (381568, 1196, 76588, 18) := by
  decide +kernel

end Verif.Props

/-
Conversion of a rectangular band matrix to tiles (`plasma_pzpb2desc` with `PlasmaGeneral`).
-/
import Verif.DriverB
import Verif.Gbmm

namespace Verif.Tile

open Verif.Layout Finset

universe u v

set_option linter.unusedSectionVars false

/-! ### Conversion of a rectangular band matrix -/

section conv
variable {M : Type u} {α : Type v}

theorem l2tR_in {R C b kl ku it jt : Nat} (hx : it * b < R) (hy : jt * b < C)
    (ht : bTile none b kl ku it jt) {i j : Nat} (hi : i < tdim R b it) (hj : j < tdim C b jt) :
    (((i : Int), (j : Int), true) ∈ l2tSteps none it jt (tdim R b it) (tdim C b jt) b kl ku ↔
      inB none b kl ku it jt (it * b + i) (jt * b + j)) ∧
    (((i : Int), (j : Int), false) ∈ l2tSteps none it jt (tdim R b it) (tdim C b jt) b kl ku ↔
      ¬ inB none b kl ku it jt (it * b + i) (jt * b + j)) := by
  rw [mem_l2t_true, mem_l2t_false]
  have e1 : ((jt : Int) - it) * b = jt * b - it * b := by ring
  have e2 : ((it : Int) - jt) * b = it * b - jt * b := by ring
  have f3 : it = jt → it * b = jt * b := fun h => by rw [h]
  have f4 : it < jt → it * b + b ≤ jt * b := fun h => by
    have := Nat.mul_le_mul_right b (show it + 1 ≤ jt from h)
    rw [Nat.add_mul] at this; omega
  have f5 : jt < it → jt * b + b ≤ it * b := fun h => by
    have := Nat.mul_le_mul_right b (show jt + 1 ≤ it from h)
    rw [Nat.add_mul] at this; omega
  have g1 : ((it * b : Nat) : Int) = (it : Int) * b := by push_cast; ring
  have g2 : ((jt * b : Nat) : Int) = (jt : Int) * b := by push_cast; ring
  have h1 : tdim R b it ≤ b := tdim_le
  have h2 : tdim C b jt ≤ b := tdim_le
  generalize tdim R b it = p at *
  generalize tdim C b jt = q at *
  simp only [inB, bTile, bJs, bJe, bIs, bIe] at *
  generalize hX : (it : Int) * b = X at *
  generalize hY : (jt : Int) * b = Y at *
  generalize it * b = x at *
  generalize jt * b = y at *
  simp only [e1, e2] at *
  constructor
  · split_ifs <;> omega
  · split_ifs <;> omega

/-- The kernel that converts tile `(it, jt)` of a matrix with `R` rows does not start to store zeros
left of the tile: its `j_end` (core_blas/core_zlacpy_band.c:64) is not negative. -/
def tileSafe (b kl ku R it jt : Nat) : Prop := it < jt → jt * b ≤ it * b + tdim R b it + (ku + kl) + 1

theorem l2tR_bound {R C b kl ku it jt : Nat} (hx : it * b < R) (hy : jt * b < C)
    (ht : bTile none b kl ku it jt) (hsf : tileSafe b kl ku R it jt) {i j : Int} {f : Bool}
    (h : (i, j, f) ∈ l2tSteps none it jt (tdim R b it) (tdim C b jt) b kl ku) :
    (0 ≤ i ∧ i < tdim R b it) ∧ 0 ≤ j ∧ j < tdim C b jt := by
  have h' : (i, j, true) ∈ l2tSteps none it jt (tdim R b it) (tdim C b jt) b kl ku ∨
      (i, j, false) ∈ l2tSteps none it jt (tdim R b it) (tdim C b jt) b kl ku := by
    cases f
    · exact Or.inr h
    · exact Or.inl h
  clear h
  unfold tileSafe at hsf
  rw [mem_l2t_true, mem_l2t_false] at h'
  have e1 : ((jt : Int) - it) * b = jt * b - it * b := by ring
  have e2 : ((it : Int) - jt) * b = it * b - jt * b := by ring
  have f3 : it = jt → it * b = jt * b := fun h => by rw [h]
  have f4 : it < jt → it * b + b ≤ jt * b := fun h => by
    have := Nat.mul_le_mul_right b (show it + 1 ≤ jt from h)
    rw [Nat.add_mul] at this; omega
  have f5 : jt < it → jt * b + b ≤ it * b := fun h => by
    have := Nat.mul_le_mul_right b (show jt + 1 ≤ it from h)
    rw [Nat.add_mul] at this; omega
  have g1 : ((it * b : Nat) : Int) = (it : Int) * b := by push_cast; ring
  have g2 : ((jt * b : Nat) : Int) = (jt : Int) * b := by push_cast; ring
  have h1 : tdim R b it ≤ b := tdim_le
  have h2 : tdim C b jt ≤ b := tdim_le
  generalize tdim R b it = p at *
  generalize tdim C b jt = q at *
  simp only [bTile, bJs, bJe, bIs, bIe] at *
  generalize hX : (it : Int) * b = X at *
  generalize hY : (jt : Int) * b = Y at *
  generalize it * b = x at *
  generalize jt * b = y at *
  simp only [e1, e2] at *
  split_ifs at h' <;> omega

/-- Tiles visited by `pzpb2desc`. -/
theorem mem_bandInR {A : TMat M} {b it jt : Nat} (hA : A.Al b) (h0 : 0 < A.d.m) :
    (jt < A.d.nt ∧ it ∈ span (msIn none A.d jt) (mEnd none A.d jt + 1)) ↔
      it * b < A.d.m ∧ jt * b < A.d.n ∧ bTile none b A.d.kl A.d.ku it jt := by
  have hb := hA.pos
  rw [hA.lt_nt]
  have e : (jt + 1) * b = jt * b + b := by ring
  simp only [msIn, mEnd, bTile, hA.nb]
  rw [mem_bspan hb, e]
  generalize it * b = x at *
  generalize jt * b = y at *
  omega

/-- All the kernels of `pzpb2desc` are safe in this sense. -/
def l2tSafe (b kl ku m n : Nat) : Prop :=
  ∀ it jt, it * b < m → jt * b < n → bTile none b kl ku it jt → tileSafe b kl ku m it jt

theorem coreL2tR_local [Zero α] {R C b kl ku it jt : Nat} (hx : it * b < R) (hy : jt * b < C)
    (ht : bTile none b kl ku it jt) (hsf : tileSafe b kl ku R it jt) {a c : M} :
    (coreL2t (α := α) none it jt (tdim R b it) (tdim C b jt) b kl ku a c).Local := by
  refine op1_local ?_
  rintro A A' D D' hA hD i j ⟨f, hf⟩
  have hbd := l2tR_bound hx hy ht hsf hf
  have h2 := l2tR_in hx hy ht (i := i) (j := j) (by omega) (by omega)
  by_cases h : inB none b kl ku it jt (it * b + i) (jt * b + j)
  · rw [l2tRun_in (h2.1.mpr h) (fun e => h2.2.mp e h), l2tRun_in (h2.1.mpr h) (fun e => h2.2.mp e h)]
    simpa using hA i j (h2.1.mpr h)
  · rw [l2tRun_in (h2.2.mpr h) (fun e => h (h2.1.mp e)), l2tRun_in (h2.2.mpr h) (fun e => h (h2.1.mp e))]
    rfl

theorem coreL2tR_run [Zero α] {R C b kl ku it jt : Nat} (hx : it * b < R) (hy : jt * b < C)
    (ht : bTile none b kl ku it jt) {a c : M} (s : Store M α) {i j : Nat} (hi : i < tdim R b it)
    (hj : j < tdim C b jt) :
    (coreL2t none it jt (tdim R b it) (tdim C b jt) b kl ku a c).run s c i j =
      if inB none b kl ku it jt (it * b + i) (jt * b + j) then s a i j else 0 := by
  have h2 := l2tR_in hx hy ht (i := i) (j := j) hi hj
  unfold coreL2t
  rw [op1_self]
  by_cases h : inB none b kl ku it jt (it * b + i) (jt * b + j)
  · rw [paste_in ⟨true, h2.1.mpr h⟩, l2tRun_in (h2.1.mpr h) (fun e => h2.2.mp e h), if_pos h]; rfl
  · rw [paste_in ⟨false, h2.2.mpr h⟩, l2tRun_in (h2.2.mpr h) (fun e => h (h2.1.mp e)), if_neg h]; rfl

/-- Converting to tiles: the copied elements, and zeros in the rest of every visited tile. -/
theorem pzpb2descR_el [Zero α] {U A : TMat M} {b : Nat} (hA : A.Al b) (hU : U.Al b)
    (hsf : l2tSafe b A.d.kl A.d.ku A.d.m A.d.n) (hid : U.id ≠ A.id) (s : Store (M × Nat × Nat) α) {r c : Nat}
    (hr : r < A.d.m) (hc : c < A.d.n) (ht : bTile none b A.d.kl A.d.ku (r / b) (c / b)) :
    A.el (texec (pzpb2desc none U A) s) r c =
      if inB none b A.d.kl A.d.ku (r / b) (c / b) r c then U.el s r c else 0 := by
  have hb := hA.pos
  have dr := divmod r b
  have dc := divmod c b
  have h0 : 0 < A.d.m := by omega
  have hx : r / b * b < A.d.m := by omega
  have hy : c / b * b < A.d.n := by omega
  have hin := (mem_bandInR hA h0).mpr ⟨hx, hy, ht⟩
  unfold pzpb2desc
  rw [flatMap_colPairs (fun m n => coreL2t none m n (min A.d.mb (A.d.m - m * A.d.mb))
    (min A.d.nb (A.d.n - n * A.d.nb)) A.d.mb A.d.kl A.d.ku (U.at' m n) (A.at' m n))]
  simp only [hA.mb, hA.nb]
  simp only [← show ∀ k, tdim A.d.m b k = min b (A.d.m - k * b) from fun _ => rfl,
    ← show ∀ k, tdim A.d.n b k = min b (A.d.n - k * b) from fun _ => rfl]
  unfold TMat.el
  rw [hA.mb, hA.nb, hU.mb, hU.nb]
  have hpm : (r / b, c / b) ∈ colPairs A.d.nt fun n => span (msIn none A.d n) (mEnd none A.d n + 1) :=
    mem_colPairs.mpr hin
  rw [show A.at' (r / b) (c / b) = (fun p : Nat × Nat => A.at' p.1 p.2) (r / b, c / b) from rfl,
    par (o := fun p : Nat × Nat => A.at' p.1 p.2) (nodup_colPairs fun _ => nodup_span) ?_ ?_ ?_ s hpm]
  · rw [texec_cons, texec_nil, coreL2tR_run hx hy ht s (mod_lt_tdim hb hr) (mod_lt_tdim hb hc), dr, dc]
  · intro p _ q _ h
    exact Prod.ext (TMat.at'_inj.mp h).1 (TMat.at'_inj.mp h).2
  · intro p hp
    obtain ⟨h1, h2, h3⟩ := (mem_bandInR hA h0).mp (mem_colPairs.mp hp)
    refine Within.op1 (coreL2tR_local h1 h2 h3 (hsf _ _ h1 h2 h3)) (Or.inl fun q _ => TMat.at'_ne hid) (Or.inr rfl)
  · intro p hp
    exact writes_op1 rfl

theorem pzpb2descR_good [Zero α] {env : M → MatEnv} {U A : TMat M} {b : Nat} (hA : A.Al b) (h0 : 0 < A.d.m)
    (hsf : l2tSafe b A.d.kl A.d.ku A.d.m A.d.n)
    (vA : ∀ m n i j, bTile none b A.d.kl A.d.ku m n → i < tdim A.d.m b m → j < tdim A.d.n b n →
      evalid env (A.at' m n) i j)
    (vU : ∀ m n i j, bTile none b A.d.kl A.d.ku m n → i < tdim A.d.m b m → j < tdim A.d.n b n →
      inB none b A.d.kl A.d.ku m n (m * b + i) (n * b + j) → evalid env (U.at' m n) i j) :
    Good (evalid env) (pzpb2desc (α := α) none U A) := by
  refine Good.flatMap fun n hn' => Good.map fun m hm' => ?_
  obtain ⟨h1, h2, h3⟩ := (mem_bandInR hA h0).mp ⟨List.mem_range.mp hn', hm'⟩
  rw [hA.mb, hA.nb]
  refine Good.single (coreL2tR_local h1 h2 h3 (hsf _ _ h1 h2 h3)) op1_declared (op1_inside ?_ ?_)
  · intro i j hf
    have := l2tR_bound h1 h2 h3 (hsf _ _ h1 h2 h3) hf
    exact vU m n i j h3 (by omega) (by omega) ((l2tR_in h1 h2 h3 (by omega) (by omega)).1.mp hf)
  · rintro i j ⟨f, hf⟩
    have := l2tR_bound h1 h2 h3 (hsf _ _ h1 h2 h3) hf
    exact vA m n i j h3 (by omega) (by omega)

theorem pzpb2desc_tiles [Zero α] {v : Stor} {U A : TMat M} : ∀ t ∈ pzpb2desc (α := α) v U A,
    t.phase = 0 ∧ (∀ x i j, t.rd x i j → x.1 = U.id) ∧ ∀ x i j, t.wr x i j → x.1 = A.id := by
  intro t ht
  obtain ⟨n, _, ht⟩ := List.mem_flatMap.mp ht
  obtain ⟨m, _, rfl⟩ := List.mem_map.mp ht
  refine ⟨rfl, ?_, ?_⟩
  · rintro x i j h
    rw [h.1]; rfl
  · rintro x i j h
    rw [h.1]; rfl

/-- Safety of all kernels, in terms of the last row of tiles: no column of tiles begins right of the
last row of the matrix by more than the bandwidths and left of the end of the bandwidths counted from
the end of its tile. -/
theorem l2tSafe_iff {b kl ku m n : Nat} (hb : 0 < b) :
    l2tSafe b kl ku m n ↔
      ∀ q, 0 < m → q * b < n → q * b < (m - 1) / b * b + b + (ku + kl) → q * b ≤ m + (ku + kl) + 1 := by
  constructor
  · intro h q hm hq h1
    by_cases hlt : (m - 1) / b < q
    · have hd := Nat.div_add_mod (m - 1) b
      have hm' := Nat.mod_lt (m - 1) hb
      rw [Nat.mul_comm] at hd
      have f : (m - 1) / b * b + b ≤ q * b := by
        have := Nat.mul_le_mul_right b (show (m - 1) / b + 1 ≤ q from hlt)
        rw [Nat.add_mul] at this; omega
      have := h ((m - 1) / b) q (by omega) hq ⟨h1, by omega⟩ hlt
      unfold tdim at this
      omega
    · have := Nat.mul_le_mul_right b (Nat.le_of_not_lt hlt)
      have := Nat.div_mul_le_self (m - 1) b
      omega
  · intro h it jt hi hj ht hlt
    obtain ⟨t1, t2⟩ := ht
    have hd := Nat.div_add_mod (m - 1) b
    have hm' := Nat.mod_lt (m - 1) hb
    rw [Nat.mul_comm] at hd
    have f : it * b + b ≤ jt * b := by
      have := Nat.mul_le_mul_right b (show it + 1 ≤ jt from hlt)
      rw [Nat.add_mul] at this; omega
    unfold tdim
    by_cases hl : it = (m - 1) / b
    · have := h jt (by omega) hj (by rw [← hl]; exact t1)
      rw [← hl] at hd
      omega
    · have hlt' : it < (m - 1) / b := by
        have : it ≤ (m - 1) / b := (Nat.le_div_iff_mul_le hb).mpr (by omega)
        omega
      have := Nat.mul_le_mul_right b (show it + 1 ≤ (m - 1) / b from hlt')
      rw [Nat.add_mul] at this
      omega

/-- Matrices that are not wider than high are safe. -/
theorem l2tSafe_tall {b kl ku m n : Nat} (hb : 0 < b) (h : n ≤ m) : l2tSafe b kl ku m n :=
  (l2tSafe_iff hb).mpr fun q _ _ _ => by omega

/-- So are matrices whose last tiles have full height. -/
theorem l2tSafe_full {b kl ku m n : Nat} (hb : 0 < b) (h : b ∣ m) : l2tSafe b kl ku m n := by
  refine (l2tSafe_iff hb).mpr fun q hm _ h1 => ?_
  obtain ⟨k, rfl⟩ := h
  have hk : 0 < k := Nat.pos_of_mul_pos_left hm
  have e : (b * k - 1) / b = k - 1 := by
    obtain ⟨k, rfl⟩ := Nat.exists_eq_add_of_le' hk
    rw [show b * (k + 1) - 1 = b * k + (b - 1) by rw [Nat.mul_add]; omega, Nat.mul_add_div hb,
      Nat.div_eq_of_lt (by omega)]
    omega
  rw [e] at h1
  have : (k - 1) * b + b = b * k := by
    obtain ⟨k, rfl⟩ := Nat.exists_eq_add_of_le' hk
    rw [Nat.add_sub_cancel]; ring
  omega

end conv

end Verif.Tile

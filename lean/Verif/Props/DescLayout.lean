/-
C03, C59: the layouts described by the descriptors that the creation functions return.
-/
import Verif.Props.Desc
import Verif.Props.Layout
import Verif.LayoutTri
import Verif.Mat

namespace Verif.Props

open Verif.Desc Verif.Layout Verif.Tile

/-- The same matrix type. -/
def mtype : Ty → MType
  | .general => .general
  | .band => .band
  | .upper => .upper
  | .lower => .lower

/-- The descriptor a tile address is computed from, for a `plasma_desc_t` without negative
fields. -/
def toDesc (A : ZDesc) : Layout.Desc where
  type := mtype A.type
  mb := A.mb.toNat
  nb := A.nb.toNat
  gm := A.gm.toNat
  gn := A.gn.toNat
  A21 := A.A21.toNat
  A12 := A.A12.toNat
  A22 := A.A22.toNat
  i := A.i.toNat
  j := A.j.toNat
  m := A.m.toNat
  n := A.n.toNat
  mt := A.mt.toNat
  nt := A.nt.toNat
  kl := A.kl.toNat
  ku := A.ku.toNat
  klt := A.klt.toNat
  kut := A.kut.toNat

theorem cast_sub_tmod (a b : Nat) : (a : Int) - (a : Int).tmod b = ((a - a % b : Nat) : Int) := by
  rw [← Int.ofNat_tmod, Nat.cast_sub (Nat.mod_le _ _)]

theorem cast_mt (i m b : Nat) (hb : 0 < b) :
    ((if (m : Int) = 0 then 0 else ((i : Int) + m - 1).tdiv b - (i : Int).tdiv b + 1) : Int) =
      (ntiles i m b : Nat) := by
  unfold ntiles
  by_cases h : m = 0
  · simp [h]
  · rw [if_neg (by exact_mod_cast h), if_neg h]
    have e : (i : Int) + m - 1 = ((i + m - 1 : Nat) : Int) := by omega
    have hle : i / b ≤ (i + m - 1) / b := Nat.div_le_div_right (by omega)
    rw [e, ← Int.ofNat_tdiv, ← Int.ofNat_tdiv]
    push_cast [Nat.cast_sub hle]
    rfl

theorem toDesc_general (p : Int) {mb nb : Nat} (hmb : 0 < mb) (hnb : 0 < nb) (lm ln i j m n : Nat) :
    toDesc (generalInit p mb nb lm ln i j m n) = general mb nb lm ln i j m n := by
  unfold toDesc generalInit general mtype
  simp only [cast_mt _ _ _ hmb, cast_mt _ _ _ hnb, cast_sub_tmod]
  simp only [← Int.ofNat_tmod, ← Nat.cast_mul, ← Nat.cast_add, Int.toNat_natCast]
  congr 1 <;> omega

theorem ok_general {ini al : Bool} {p mb nb lm ln i j m n : Int} {A : ZDesc}
    (h : generalCreate ini al p mb nb lm ln i j m n = .ok A) :
    A = generalInit p mb nb lm ln i j m n ∧ generalCheck A = true := by
  unfold generalCreate at h
  dsimp only at h
  split_ifs at h with h1 h2 h3 h4
  · cases h; exact ⟨rfl, by simpa [Desc.check, generalInit] using h3⟩

theorem ok_triangular {ini al : Bool} {p mb nb lm ln i j m n : Int} {uplo : Ty} (hu : uplo = .upper ∨ uplo = .lower)
    {A : ZDesc} (h : triangularCreate ini al p uplo mb nb lm ln i j m n = .ok A) :
    A = triangularInit p uplo mb nb lm ln i j m n ∧ generalCheck A = true := by
  unfold triangularCreate at h
  dsimp only at h
  split_ifs at h with h1 h2 h3 h4
  · cases h
    refine ⟨rfl, ?_⟩
    rcases hu with rfl | rfl <;> simpa [Desc.check, triangularInit] using h3

theorem ok_band {ini al : Bool} {p mb nb lm ln i j m n kl ku : Int} {uplo : Ty}
    {A : ZDesc} (h : bandCreate ini al p uplo mb nb lm ln i j m n kl ku = .ok A) :
    A = bandInit p uplo mb nb lm ln i j m n kl ku ∧ 0 < mb ∧ 0 < nb ∧ n ≤ ln := by
  unfold bandCreate at h
  dsimp only at h
  split_ifs at h with h1 h2 h3 h4
  · cases h
    refine ⟨rfl, ?_⟩
    have : bandCheck (bandInit p uplo mb nb lm ln i j m n kl ku) = true := by
      simpa [Desc.check, bandInit] using h3
    unfold bandCheck at this
    split_ifs at this with a1 a2 a3 a4
    simp only [bandInit, generalInit] at a2 a4
    omega

theorem toDesc_triangular (p : Int) {b : Nat} (hb : 0 < b) {uplo : Ty} (hu : uplo = .upper ∨ uplo = .lower)
    (g i j m n : Nat) :
    toDesc (triangularInit p uplo b b g g i j m n) = triangular (decide (uplo = .upper)) b g i j m n := by
  have hg := toDesc_general p hb hb g g i j m n
  unfold toDesc general at hg
  have hm : ((g : Int).tdiv b * (1 + (g : Int).tdiv b)).tdiv 2 = ((g / b * (1 + g / b) / 2 : Nat) : Int) := by
    rw [← Int.ofNat_tdiv]
    exact_mod_cast rfl
  simp only [Layout.Desc.mk.injEq] at hg
  unfold toDesc triangular triangularInit
  simp only [hm]
  simp only [Layout.Desc.mk.injEq]
  obtain ⟨g1, g2, g3, g4, g5, g6, g7, g8, g9, g10, g11, g12, g13, g14, g15, g16, g17, g18⟩ := hg
  refine ⟨?_, g2, g3, g4, g5, ?_, ?_, ?_, g9, g10, g11, g12, g13, g14, g15, g16, g17, g18⟩
  · rcases hu with rfl | rfl <;> rfl
  · rw [← Nat.cast_mul, ← Nat.cast_mul, Int.toNat_natCast]
  · rw [← Nat.cast_mul, ← Nat.cast_mul, Int.toNat_natCast]
  · rw [cast_sub_tmod, ← Int.ofNat_tmod, ← Nat.cast_mul, ← Nat.cast_mul, ← Nat.cast_mul, ← Nat.cast_add,
      Int.toNat_natCast]

theorem tri_window (up : Bool) (b g i j m n M N a c : Nat) :
    (triangular up b g i j m n).off M N a c = (triangular up b g 0 0 g g).off (M + i / b) (N + j / b) a c := by
  have h1 : i / b + M = M + i / b := by omega
  unfold Layout.Desc.off Layout.Desc.ld Layout.Desc.tile Layout.Desc.mmain Layout.Desc.tileTriangle
  cases up <;> simp [triangular, h1]

/-- Window elements, seen in the tiles of the whole matrix. -/
theorem window_ok {b o m g r : Nat} (hb : 0 < b) (ho : b ∣ o) (hm : o + m ≤ g) (hr : r < m) :
    r % b < tdim g b (r / b + o / b) := by
  obtain ⟨q, rfl⟩ := ho
  rw [Nat.mul_div_cancel_left _ hb, tdim_row]
  have m1 := Nat.mod_lt r hb
  have d1 := Nat.div_add_mod r b
  have e1 : (r / b + q) * b = b * (r / b) + b * q := by ring
  exact ⟨m1, by omega⟩

theorem elems_eq {b o r r' : Nat} (h1 : r / b + o = r' / b + o) (h2 : r % b = r' % b) : r = r' := by
  rw [← Nat.div_add_mod r b, ← Nat.div_add_mod r' b, h2, Nat.add_right_cancel h1]

/-- **C03** for what `plasma_desc_general_create` returns: every element of the described window has
its own place among the allocated elements; if the window is the whole matrix, every allocated
element is used. -/
theorem C03_create {ini al : Bool} {p : Int} {mb nb lm ln i j m n : Nat} {A : ZDesc}
    (h : generalCreate ini al p mb nb lm ln i j m n = .ok A) :
    (∀ r c, r < m → c < n → (elOff (toDesc A) r c : Int) < generalAlloc A) ∧
    (∀ r c r' c', r < m → c < n → r' < m → c' < n → elOff (toDesc A) r c = elOff (toDesc A) r' c' →
      r = r' ∧ c = c') ∧
    (m = lm → n = ln → ∀ x : Nat, (x : Int) < generalAlloc A → ∃ r c, r < m ∧ c < n ∧ elOff (toDesc A) r c = x) := by
  obtain ⟨rfl, hc⟩ := ok_general h
  rw [generalCheck_iff] at hc
  obtain ⟨-, hmb, hnb, -, -, -, -, -, -, hr, hc, hdi, hdj⟩ := hc
  simp only [generalInit] at hmb hnb hr hc hdi hdj
  norm_cast at hmb hnb hr hc hdi hdj
  rw [toDesc_general p hmb hnb]
  have hoff : ∀ r c, elOff (general mb nb lm ln i j m n) r c =
      goff mb nb lm ln (r / mb + i / mb) (c / nb + j / nb) (r % mb) (c % nb) := fun r c =>
    (wfgen_general hmb hnb lm ln i j m n).off_eq _ _ _ _
  have hal : generalAlloc (generalInit p mb nb lm ln i j m n) = ((lm * ln : Nat) : Int) := by
    push_cast; rfl
  rw [hal]
  refine ⟨fun r c h1 h2 => ?_, fun r c r' c' h1 h2 h3 h4 he => ?_, fun em en x hx => ?_⟩
  · rw [hoff]
    exact_mod_cast goff_lt hmb hnb ⟨window_ok hmb hdi hr h1, window_ok hnb hdj hc h2⟩
  · rw [hoff, hoff] at he
    obtain ⟨e1, e2, e3, e4⟩ := goff_inj hmb hnb ⟨window_ok hmb hdi hr h1, window_ok hnb hdj hc h2⟩
      ⟨window_ok hmb hdi hr h3, window_ok hnb hdj hc h4⟩ he
    exact ⟨elems_eq e1 e3, elems_eq e2 e4⟩
  · subst em en
    obtain rfl : i = 0 := by omega
    obtain rfl : j = 0 := by omega
    obtain ⟨M, N, a, c, ⟨ok1, ok2⟩, hx'⟩ := goff_surj hmb hnb (show x < m * n by exact_mod_cast hx)
    rw [tdim_row] at ok1 ok2
    refine ⟨M * mb + a, N * nb + c, ok1.2, ok2.2, ?_⟩
    rw [hoff, div_of_tile ok1.1, div_of_tile ok2.1, mod_of_tile ok1.1, mod_of_tile ok2.1, Nat.zero_div, Nat.zero_div]
    exact hx'

/-- A window in the middle of a matrix with incomplete tiles in both directions. -/
example : ∃ A, generalCreate true true 5 (3 : Nat) (2 : Nat) (7 : Nat) (5 : Nat) (3 : Nat) (2 : Nat) (4 : Nat) (3 : Nat) = .ok A ∧
    elOff (toDesc A) 3 2 = 34 ∧ generalAlloc A = 35 := ⟨_, rfl, by decide, by decide⟩

/-- **C59** (triangular storage).  In a square matrix with square tiles created by
`plasma_desc_triangular_create`, every element of a stored tile of the window has its own place among
the allocated elements.  The full claim, without the hypothesis that the matrix and the tiles are square,
is false: `C59_rectangular_refuted`. -/
theorem C59_triangular_partial {ini al : Bool} {p : Int} {uplo : Ty} (hu : uplo = .upper ∨ uplo = .lower)
    {b g i j m n : Nat} {A : ZDesc} (h : triangularCreate ini al p uplo b b g g i j m n = .ok A) :
    let stored := fun r c : Nat => r < m ∧ c < n ∧
      if uplo = .upper then (i + r) / b ≤ (j + c) / b else (j + c) / b ≤ (i + r) / b
    (∀ r c, stored r c → (elOff (toDesc A) r c : Int) < triangularAlloc b b g g) ∧
    (∀ r c r' c', stored r c → stored r' c' → elOff (toDesc A) r c = elOff (toDesc A) r' c' →
      r = r' ∧ c = c') := by
  obtain ⟨rfl, hc⟩ := ok_triangular hu h
  rw [generalCheck_iff] at hc
  obtain ⟨-, hb, -, -, -, -, -, -, -, hr, hc, hdi, hdj⟩ := hc
  simp only [triangularInit, generalInit] at hb hr hc hdi hdj
  norm_cast at hb hr hc hdi hdj
  rw [toDesc_triangular p hb hu]
  intro stored
  have hst : ∀ r c, stored r c → TileOK b b g g (r / b + i / b) (c / b + j / b) (r % b) (c % b) ∧
      if decide (uplo = .upper) = true then r / b + i / b ≤ c / b + j / b else c / b + j / b ≤ r / b + i / b := by
    rintro r c ⟨h1, h2, h3⟩
    refine ⟨⟨window_ok hb hdi hr h1, window_ok hb hdj hc h2⟩, ?_⟩
    obtain ⟨q, rfl⟩ := hdi
    obtain ⟨q', rfl⟩ := hdj
    rw [Nat.mul_add_div hb, Nat.mul_add_div hb] at h3
    rw [Nat.mul_div_cancel_left _ hb, Nat.mul_div_cancel_left _ hb]
    rcases hu with rfl | rfl
    · simp at h3 ⊢; omega
    · simp at h3 ⊢; omega
  have hoff : ∀ r c, elOff (triangular (decide (uplo = .upper)) b g i j m n) r c =
      (triangular (decide (uplo = .upper)) b g 0 0 g g).off (r / b + i / b) (c / b + j / b) (r % b) (c % b) :=
    fun r c => tri_window _ _ _ _ _ _ _ _ _ _ _
  have hal : triangularAlloc b b g g = (triSize b g : Nat) := by
    unfold triangularAlloc triSize
    rw [← Int.ofNat_tdiv, ← Int.ofNat_tmod]
    exact_mod_cast rfl
  refine ⟨fun r c h1 => ?_, fun r c r' c' h1 h2 he => ?_⟩
  · rw [hoff, hal]
    exact_mod_cast tri_off_lt hb (hst r c h1).1 (hst r c h1).2
  · rw [hoff, hoff] at he
    obtain ⟨e1, e2, e3, e4⟩ := tri_off_inj hb (hst r c h1).1 (hst r c h1).2 (hst r' c' h2).1 (hst r' c' h2).2 he
    exact ⟨elems_eq e1 e3, elems_eq e2 e4⟩

/-- The lower triangle of a matrix of order 5 in tiles of size 2: the last element is the last one
allocated. -/
example : ∃ A, triangularCreate true true 5 .lower (2 : Nat) (2 : Nat) (5 : Nat) (5 : Nat) (0 : Nat) (0 : Nat) (5 : Nat) (5 : Nat) = .ok A ∧
    elOff (toDesc A) 4 4 = 16 ∧ triangularAlloc 2 2 5 5 = 17 := ⟨_, rfl, by decide, by decide⟩

/-- **C59** is false for rectangular matrices and for rectangular tiles: the call returns
`PlasmaSuccess` (after printing a message in the first case) and the last stored tile lies outside
the allocation. -/
theorem C59_rectangular_refuted :
    (∃ A, triangularCreate true true 5 .lower 1 1 3 1 0 0 3 1 = .ok A ∧
      triangularAlloc 1 1 3 1 ≤ elOff (toDesc A) 2 0) ∧
    (∃ A, triangularCreate true true 5 .lower 1 2 2 2 0 0 2 2 = .ok A ∧
      triangularAlloc 1 2 2 2 ≤ elOff (toDesc A) 1 0) :=
  ⟨⟨_, rfl, by decide⟩, ⟨_, rfl, by decide⟩⟩

theorem toDesc_band (p : Int) (uplo : Ty) {b : Nat} (hb : 0 < b) (lm ln m n kl ku : Nat) :
    ∃ D : Layout.Desc, toDesc (bandInit p uplo b b lm ln (0 : Nat) (0 : Nat) m n kl ku) =
      { general b b lm ln 0 0 m n with
        type := .band
        kl := kl
        ku := ku
        klt := D.klt
        kut := if uplo = .general then 1 + (ku + kl + b - 1) / b else if uplo = .upper then 1 + (ku + b - 1) / b else 1 } := by
  refine ⟨toDesc (bandInit p uplo b b lm ln (0 : Nat) (0 : Nat) m n kl ku), ?_⟩
  have hg := toDesc_general p hb hb lm ln 0 0 m n
  unfold toDesc at hg ⊢
  unfold general at hg ⊢
  simp only [Layout.Desc.mk.injEq] at hg
  obtain ⟨g1, g2, g3, g4, g5, g6, g7, g8, g9, g10, g11, g12, g13, g14, g15, g16, g17, g18⟩ := hg
  simp only [Layout.Desc.mk.injEq]
  refine ⟨rfl, g2, g3, g4, g5, g6, g7, g8, g9, g10, g11, g12, g13, g14, Int.toNat_natCast _, Int.toNat_natCast _, trivial, ?_⟩
  have e1 : ((0 : Nat) : Int) + ku + kl + b - 1 = ((ku + kl + b - 1 : Nat) : Int) := by omega
  have e2 : ((0 : Nat) : Int) + ku + b - 1 = ((ku + b - 1 : Nat) : Int) := by omega
  unfold bandInit
  simp only [e1, e2, ← Int.ofNat_tdiv, Nat.zero_div]
  generalize (ku + kl + b - 1) / b = x
  generalize (ku + b - 1) / b = y
  split_ifs <;> omega

/-- Which elements of a band matrix are used: the band, one triangle of it for the Cholesky
routines, and the band with `kl` more superdiagonals (fill-in) for the LU routines. -/
def BandEl (uplo : Ty) (kl ku r c : Nat) : Prop :=
  match uplo with
  | .upper => r ≤ c ∧ c ≤ r + ku
  | .lower => c ≤ r ∧ r ≤ c + kl
  | _ => r ≤ c + kl ∧ c ≤ r + ku + kl

/-- **C59** (band storage).  In a band matrix created as the band drivers do, every element of the band
has its own place among the allocated elements. -/
theorem C59_band {ini al : Bool} {p : Int} {uplo : Ty} {b m n kl ku : Nat} {A : ZDesc}
    (h : bandCreate ini al p uplo b b
      (if uplo = .upper then pbRows b ku else if uplo = .lower then pbRows b kl else gbRows b kl ku)
      n 0 0 m n kl ku = .ok A) (hu : uplo ≠ .band) :
    (∀ r c, r < m → c < n → BandEl uplo kl ku r c → (elOff (toDesc A) r c : Int) < generalAlloc A) ∧
    (∀ r c r' c', r < m → c < n → BandEl uplo kl ku r c → r' < m → c' < n → BandEl uplo kl ku r' c' →
      elOff (toDesc A) r c = elOff (toDesc A) r' c' → r = r' ∧ c = c') := by
  obtain ⟨hA, hb, -, -⟩ := ok_band h
  norm_cast at hb
  clear h
  set T : Nat := if uplo = .upper then (ku + b - 1) / b else if uplo = .lower then (kl + b - 1) / b
    else (ku + kl + b - 1) / b + (kl + b - 1) / b with hT
  have hrows : (if uplo = .upper then pbRows b ku else if uplo = .lower then pbRows b kl else gbRows b kl ku) =
      (((T + 1) * b : Nat) : Int) := by
    have e1 : (ku : Int) + kl + b - 1 = ((ku + kl + b - 1 : Nat) : Int) := by omega
    have e2 : (ku : Int) + b - 1 = ((ku + b - 1 : Nat) : Int) := by omega
    have e3 : (kl : Int) + b - 1 = ((kl + b - 1 : Nat) : Int) := by omega
    unfold pbRows gbRows
    rw [e1, e2, e3, ← Int.ofNat_tdiv, ← Int.ofNat_tdiv, ← Int.ofNat_tdiv, hT]
    split_ifs <;> push_cast <;> ring
  rw [hrows] at hA
  subst hA
  have hal : generalAlloc (bandInit p uplo b b (((T + 1) * b : Nat) : Int) n 0 0 m n kl ku) =
      (((T + 1) * b * n : Nat) : Int) := by
    push_cast; rfl
  obtain ⟨D, hD⟩ := toDesc_band p uplo hb ((T + 1) * b) n m n kl ku
  simp only [Nat.cast_zero] at hD
  rw [hal, hD]
  set K : Nat := if uplo = .upper then (ku + b - 1) / b else if uplo = .lower then 0 else (ku + kl + b - 1) / b with hK
  have hkut : (if uplo = .general then 1 + (ku + kl + b - 1) / b else if uplo = .upper then 1 + (ku + b - 1) / b else 1) = 1 + K := by
    rw [hK]
    cases uplo <;> simp at hu ⊢
  rw [hkut]
  -- in-band elements are in stored tiles
  have key : ∀ r c, BandEl uplo kl ku r c → c / b ≤ K + r / b ∧ K + r / b - c / b < T + 1 := by
    intro r c hin
    have dr := Nat.div_add_mod r b
    have mr := Nat.mod_lt r hb
    have dc := Nat.div_add_mod c b
    have mc := Nat.mod_lt c hb
    have up : ∀ q, c ≤ r + q → c / b ≤ (q + b - 1) / b + r / b := by
      intro q hq
      have d := Nat.div_add_mod (q + b - 1) b
      have m' := Nat.mod_lt (q + b - 1) hb
      rw [Nat.le_iff_lt_add_one]
      apply Nat.div_lt_of_lt_mul
      have : b * ((q + b - 1) / b + r / b + 1) = b * ((q + b - 1) / b) + b * (r / b) + b := by ring
      omega
    have dn : ∀ q, r ≤ c + q → r / b ≤ (q + b - 1) / b + c / b := by
      intro q hq
      have d := Nat.div_add_mod (q + b - 1) b
      have m' := Nat.mod_lt (q + b - 1) hb
      rw [Nat.le_iff_lt_add_one]
      apply Nat.div_lt_of_lt_mul
      have : b * ((q + b - 1) / b + c / b + 1) = b * ((q + b - 1) / b) + b * (c / b) + b := by ring
      omega
    rw [hK, hT]
    cases uplo
    · have h1 := up (ku + kl) (by have := hin.2; omega)
      have h2 := dn kl hin.1
      simp; omega
    · exact absurd rfl hu
    · have h1 := up ku hin.2
      have h2 : r / b ≤ c / b := Nat.div_le_div_right hin.1
      simp; omega
    · have h1 := dn kl hin.2
      have h2 : c / b ≤ r / b := Nat.div_le_div_right hin.1
      simp; omega
  have hq : (T + 1) * b / b = T + 1 := Nat.mul_div_cancel _ hb
  have hoff : ∀ r c, BandEl uplo kl ku r c → elOff { general b b ((T + 1) * b) n 0 0 m n with
        type := .band, kl := kl, ku := ku, klt := D.klt, kut := 1 + K } r c =
      goff b b ((T + 1) * b) n (K + r / b - c / b) (c / b) (r % b) (c % b) := by
    intro r c hin
    have hk := (key r c hin).2
    unfold elOff Layout.Desc.off Layout.Desc.tile Layout.Desc.ld Layout.Desc.tileBand Layout.Desc.mmainBand
      Layout.Desc.mmain Layout.Desc.tileGeneral goff
    have e : 1 + K - 1 + r / b - c / b = K + r / b - c / b := by omega
    simp [general, e, hq, hk]
    split <;> rfl
  have hok : ∀ r c, c < n → BandEl uplo kl ku r c →
      TileOK b b ((T + 1) * b) n (K + r / b - c / b) (c / b) (r % b) (c % b) := by
    intro r c hc hin
    have hk := (key r c hin).2
    refine ⟨?_, ?_⟩
    · rw [tdim_row]
      have mr := Nat.mod_lt r hb
      refine ⟨mr, ?_⟩
      calc (K + r / b - c / b) * b + r % b < (K + r / b - c / b) * b + b := by omega
        _ = (K + r / b - c / b + 1) * b := by ring
        _ ≤ (T + 1) * b := Nat.mul_le_mul_right _ hk
    · have := window_ok (o := 0) hb (dvd_zero _) (by omega : 0 + n ≤ n) hc
      simpa using this
  refine ⟨fun r c hr hc hin => ?_, fun r c r' c' hr hc hin hr' hc' hin' he => ?_⟩
  · rw [hoff r c hin]
    exact_mod_cast goff_lt hb hb (hok r c hc hin)
  · rw [hoff r c hin, hoff r' c' hin'] at he
    obtain ⟨e1, e2, e3, e4⟩ := goff_inj hb hb (hok r c hc hin) (hok r' c' hc' hin') he
    have k1 := (key r c hin).1
    have k2 := (key r' c' hin').1
    exact ⟨elems_eq (o := 0) (b := b) (by omega) e3, elems_eq (o := 0) (b := b) (by omega) e4⟩

/-- A band matrix of order 7 with 2 sub- and 1 superdiagonal in tiles of size 2, with its fill-in. -/
example : ∃ A, bandCreate true true 5 .general (2 : Nat) (2 : Nat) (gbRows (2 : Nat) (2 : Nat) (1 : Nat)) (7 : Nat) 0 0
    (7 : Nat) (7 : Nat) (2 : Nat) (1 : Nat) = .ok A ∧ BandEl .general 2 1 0 3 ∧ generalAlloc A = 56 ∧
    elOff (toDesc A) 0 3 = 22 := ⟨_, rfl, by unfold BandEl; decide, by decide, by decide⟩

end Verif.Props

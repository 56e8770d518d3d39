/-
Drivers on band matrices: memory, conversions, and the driver theorem.
-/
import Verif.Band

namespace Verif.Tile

open Verif.Layout Verif.Sched

universe u v

section
variable {M : Type u} {α : Type v}

/-- Success of a guarded program between conversions that cannot fail. -/
theorem sandG_success {env : M → MatEnv} {I O P : List (GTTask (M × Nat × Nat) α)} (hwf : ∀ a, (env a).WF)
    (hg : GoodC (evalid env) (tasks I ++ tasks P ++ tasks O)) (hI : CodeOK I) (hC : CodeOK P) (hO : CodeOK O)
    {mem mem' : M × Nat → α} (h : GExec env (I ++ P ++ O) mem mem' 0) :
    Exec env (tasks I ++ tasks P ++ tasks O) mem mem' ∧
      ∀ i, tcode P (texec (tasks I) (view (eloc env) mem)) i = 0 := by
  have hcode : CodeOK (I ++ P ++ O) := (hI.append hC).append hO
  have e : tasks (I ++ P ++ O) = tasks I ++ tasks P ++ tasks O := by simp
  obtain ⟨hx, hz⟩ := h.successC hwf (by rw [e]; exact hg) hcode
  rw [e] at hx
  refine ⟨hx, fun i => ?_⟩
  by_cases hi : i < P.length
  · have h1 := hz (I.length + i)
    rw [List.append_assoc, tcode_append_right, tcode_append_left _ _ _ hi] at h1
    exact h1
  · exact tcode_len _ _ (by omega)

theorem tcode_safe {P : List (GTTask M α)} (h : Safe P) (s : Store M α) (i : Nat) : tcode P s i = 0 := by
  unfold tcode
  split
  · rename_i t ht
    exact h t (List.mem_of_getElem? ht) _
  · rfl

/-- Failure of a guarded program between conversions that cannot fail. -/
theorem sandG_failure {env : M → MatEnv} {I O P : List (GTTask (M × Nat × Nat) α)} (hwf : ∀ a, (env a).WF)
    (hg : GoodC (evalid env) (tasks I ++ tasks P ++ tasks O)) (hI : CodeOK I) (hC : CodeOK P) (hO : CodeOK O)
    (hIs : Safe I) (hOs : Safe O) (hch : FChain P) {mem mem' : M × Nat → α}
    {stat : Int} (h : GExec env (I ++ P ++ O) mem mem' stat) (h0 : stat ≠ 0) :
    ∃ i, tcode P (texec (tasks I) (view (eloc env) mem)) i = stat ∧
      ∀ b < i, tcode P (texec (tasks I) (view (eloc env) mem)) b = 0 := by
  have hcode : CodeOK (I ++ P ++ O) := (hI.append hC).append hO
  have e : tasks (I ++ P ++ O) = tasks I ++ tasks P ++ tasks O := by simp
  have hch' : FChain (I ++ P ++ O) := (hch.append_left hIs).append hOs
  obtain ⟨i, hi, h1, h2⟩ := h.firstC hwf (by rw [e]; exact hg) hcode hch' h0
  rw [List.append_assoc] at h1 h2
  have hge : I.length ≤ i := by
    by_contra hlt
    rw [tcode_append_left _ _ _ (by omega), tcode_safe hIs] at h1
    exact h0 h1.symm
  obtain ⟨j, rfl⟩ := Nat.exists_eq_add_of_le hge
  rw [tcode_append_right] at h1
  have hjl : j < P.length := by
    by_contra hlt
    obtain ⟨k, rfl⟩ := Nat.exists_eq_add_of_le (Nat.le_of_not_lt hlt)
    rw [tcode_append_right, tcode_safe hOs] at h1
    exact h0 h1.symm
  rw [tcode_append_left _ _ _ hjl] at h1
  refine ⟨j, h1, fun b hb => ?_⟩
  have := h2 (I.length + b) (by omega)
  rwa [tcode_append_right, tcode_append_left _ _ _ (by omega)] at this

/-- Without the chain of dependences: the status is the code of some task. -/
theorem sandG_failure_some {env : M → MatEnv} {I O P : List (GTTask (M × Nat × Nat) α)} (hwf : ∀ a, (env a).WF)
    (hg : GoodC (evalid env) (tasks I ++ tasks P ++ tasks O)) (hI : CodeOK I) (hC : CodeOK P) (hO : CodeOK O)
    (hIs : Safe I) (hOs : Safe O) {mem mem' : M × Nat → α}
    {stat : Int} (h : GExec env (I ++ P ++ O) mem mem' stat) (h0 : stat ≠ 0) :
    ∃ i, tcode P (texec (tasks I) (view (eloc env) mem)) i = stat := by
  have hcode : CodeOK (I ++ P ++ O) := (hI.append hC).append hO
  have e : tasks (I ++ P ++ O) = tasks I ++ tasks P ++ tasks O := by simp
  obtain ⟨i, hi, h1, -⟩ := h.failureC hwf (by rw [e]; exact hg) hcode h0
  rw [List.append_assoc] at h1
  have hge : I.length ≤ i := by
    by_contra hlt
    rw [tcode_append_left _ _ _ (by omega), tcode_safe hIs] at h1
    exact h0 h1.symm
  obtain ⟨j, rfl⟩ := Nat.exists_eq_add_of_le hge
  rw [tcode_append_right] at h1
  have hjl : j < P.length := by
    by_contra hlt
    obtain ⟨k, rfl⟩ := Nat.exists_eq_add_of_le (Nat.le_of_not_lt hlt)
    rw [tcode_append_right, tcode_safe hOs] at h1
    exact h0 h1.symm
  rw [tcode_append_left _ _ _ hjl] at h1
  exact ⟨j, h1⟩

/-- The same for conversions that test the status. -/
theorem sand_success {env : M → MatEnv} {I O : List (TTask (M × Nat × Nat) α)}
    {P : List (GTTask (M × Nat × Nat) α)} (hwf : ∀ a, (env a).WF)
    (hg : GoodC (evalid env) (I ++ tasks P ++ O)) (hC : CodeOK P) {mem mem' : M × Nat → α}
    (h : GExec env (okT I ++ P ++ okT O) mem mem' 0) :
    Exec env (I ++ tasks P ++ O) mem mem' ∧ ∀ i, tcode P (texec I (view (eloc env) mem)) i = 0 := by
  have := sandG_success hwf (by simpa using hg) (CodeOK.ok _) hC (CodeOK.ok _) h
  simpa using this

theorem sand_failure {env : M → MatEnv} {I O : List (TTask (M × Nat × Nat) α)}
    {P : List (GTTask (M × Nat × Nat) α)} (hwf : ∀ a, (env a).WF)
    (hg : GoodC (evalid env) (I ++ tasks P ++ O)) (hC : CodeOK P) (hch : FChain P) {mem mem' : M × Nat → α}
    {stat : Int} (h : GExec env (okT I ++ P ++ okT O) mem mem' stat) (h0 : stat ≠ 0) :
    ∃ i, tcode P (texec I (view (eloc env) mem)) i = stat ∧
      ∀ b < i, tcode P (texec I (view (eloc env) mem)) b = 0 := by
  have := sandG_failure hwf (by simpa using hg) (CodeOK.ok _) hC (CodeOK.ok _) (safe_ok _) (safe_ok _) hch h h0
  simpa using this

theorem sand_failure_some {env : M → MatEnv} {I O : List (TTask (M × Nat × Nat) α)}
    {P : List (GTTask (M × Nat × Nat) α)} (hwf : ∀ a, (env a).WF)
    (hg : GoodC (evalid env) (I ++ tasks P ++ O)) (hC : CodeOK P) {mem mem' : M × Nat → α}
    {stat : Int} (h : GExec env (okT I ++ P ++ okT O) mem mem' stat) (h0 : stat ≠ 0) :
    ∃ i, tcode P (texec I (view (eloc env) mem)) i = stat := by
  have := sandG_failure_some hwf (by simpa using hg) (CodeOK.ok _) hC (CodeOK.ok _) (safe_ok _) (safe_ok _) h h0
  simpa using this

end

/-! ### Memory -/

/-- Subdiagonals of the user's band array that the conversions may touch: `kl` of them
(compute/pzpb2desc.c:20-22, core_blas/core_zlacpy_band.c:82-97), with `b` more for `PlasmaGeneral`. -/
def uKl (v : Stor) (b kl : Nat) : Nat :=
  match v with
  | none => kl + b
  | some .upper => 0
  | some .lower => kl

/-- The offset of the main diagonal in the user's band array (compute/pzpb2desc.c:20-21). -/
def uKu (v : Stor) (kl ku : Nat) : Nat :=
  match v with
  | none => ku + kl
  | some .upper => ku
  | some .lower => 0

/-- Superdiagonals of the user's band array that the conversions may touch: those of the band
with its fill-in, and for `PlasmaGeneral` at least the `b-1` of a diagonal tile
(core_blas/core_zlacpy_band.c:82-97). -/
def uKt (v : Stor) (b kl ku : Nat) : Nat :=
  match v with
  | none => max (ku + kl) (b - 1)
  | some .upper => ku
  | some .lower => 0

/-- Tile rows of the allocation: `lm/nb` of compute/zpbtrf.c:119, compute/zgbtrf.c:93-95. -/
def bLmt (v : Stor) (b kl ku : Nat) : Nat :=
  match v with
  | none => (ku + kl + b - 1) / b + (kl + b - 1) / b + 1
  | some .upper => 1 + (ku + b - 1) / b
  | some .lower => 1 + (kl + b - 1) / b

/-- `A.kut` (control/descriptor.c:199-210). -/
def bKut (v : Stor) (b kl ku : Nat) : Nat :=
  match v with
  | none => 1 + (ku + kl + b - 1) / b
  | some .upper => 1 + (ku + b - 1) / b
  | some .lower => 1

/-- Parameters of a call of a band driver: tile size, storage, order, bandwidths, leading
dimension of the band array; right-hand sides, allocated tile rows and leading dimension of
`B`. -/
structure BPar where
  nb : Nat
  v : Stor
  n : Nat
  kl : Nat
  ku : Nat
  ldab : Nat
  nrhs : Nat
  lmb : Nat
  ldb : Nat

namespace BPar

/-- Memory of a band driver (compute/zpbtrf.c:118-123, compute/zpbsv.c:142-154): the user's
arrays `pAB` and `pB`, the tile matrices, and the pivots `ipiv`. -/
def env (p : BPar) : Buf → MatEnv
  | .usr 0 => ⟨.lband p.ldab (uKl p.v p.nb p.kl) (uKt p.v p.nb p.kl p.ku) (uKu p.v p.kl p.ku), p.nb, p.nb, p.n, p.n⟩
  | .til 0 => ⟨.band (bKut p.v p.nb p.kl p.ku) (bLmt p.v p.nb p.kl p.ku), p.nb, p.nb, p.n, p.n⟩
  | .usr 1 => ⟨.lapack p.ldb, p.nb, p.nb, p.n, p.nrhs⟩
  | .til 1 => ⟨.tile, p.nb, p.nb, p.lmb, p.nrhs⟩
  | .usr 2 => ⟨.lapack p.n, p.nb, p.nb, p.n, 1⟩
  | _ => ⟨.tile, p.nb, p.nb, 0, 0⟩

/-- The user's band array, cut into tiles. -/
def uA (p : BPar) : TMat Buf := TMat.full (.usr 0) p.nb p.n p.n
/-- The band descriptor (compute/zpbtrf.c:118-123). -/
def tA (p : BPar) : TMat Buf := bandT (.til 0) p.v p.nb (p.nb * bLmt p.v p.nb p.kl p.ku) p.n p.kl p.ku
/-- The user's right-hand sides. -/
def uB (p : BPar) : TMat Buf := TMat.full (.usr 1) p.nb p.n p.nrhs
/-- The descriptor of the right-hand sides (compute/zpbsv.c:153-154, compute/zpbtrs.c:143-144). -/
def tB (p : BPar) : TMat Buf := ⟨.til 1, general p.nb p.nb p.lmb p.nrhs 0 0 p.n p.nrhs⟩

/-- The pivots (compute/zgbsv.c:63-66), as a matrix with one column cut into tiles. -/
def uP (p : BPar) : TMat Buf := TMat.full (.usr 2) p.nb p.n 1

/-- Valid arguments. -/
structure OK (p : BPar) : Prop where
  pos : 0 < p.nb
  ldab : uKl p.v p.nb p.kl + uKt p.v p.nb p.kl p.ku + 1 ≤ p.ldab
  lmb : p.n ≤ p.lmb
  ldb : p.n ≤ p.ldb

/-- Address of element `(r, c)` of the user's band matrix: row `uKu + r - c` (which may be
negative), column `c`. -/
def addr (p : BPar) (r c : Nat) : Nat := uKu p.v p.kl p.ku + r + c * p.ldab - c

/-- Element `(r, c)` of the user's band matrix. -/
def ab {α : Type v} (p : BPar) (mem : Buf × Nat → α) (r c : Nat) : α :=
  mem (.usr 0, p.addr r c)

variable {p : BPar} {α : Type v}

theorem uKu_le (v : Stor) (b kl ku : Nat) : uKu v kl ku ≤ uKt v b kl ku := by
  rcases v with _ | _ | _ <;> simp [uKu, uKt]

theorem addr_eq (h : p.OK) {r c : Nat} (hc : c ≤ uKu p.v p.kl p.ku + r) :
    p.addr r c = (uKu p.v p.kl p.ku + r - c) + c * p.ldab := by
  unfold addr; omega

theorem OK.wf (h : p.OK) : ∀ a, (p.env a).WF := by
  have hp := h.pos
  have h1 := h.ldab
  have h2 := h.ldb
  have h3 := uKu_le p.v p.nb p.kl p.ku
  intro a
  unfold env
  split <;> constructor <;> simp <;> omega

theorem al_uA (h : p.OK) : p.uA.Al p.nb := TMat.al_full _ h.pos _ _
theorem al_tA (h : p.OK) : p.tA.Al p.nb := bandT_al _ _ h.pos _ _ _ _
theorem al_uB (h : p.OK) : p.uB.Al p.nb := TMat.al_full _ h.pos _ _
theorem al_tB (h : p.OK) : p.tB.Al p.nb :=
  ⟨h.pos, rfl, rfl, by simp [tB, general], by simp [tB, general], rfl, rfl⟩

theorem lt_bkt {b k d : Nat} (hb : 0 < b) : d < 1 + (k + b - 1) / b ↔ d * b < b + k := by
  rw [Nat.add_comm 1, Nat.lt_add_one_iff, Nat.le_div_iff_mul_le hb]
  omega

/-- Tiles in the band are stored. -/
theorem fits_tA (h : p.OK) : FitsOn p.env p.nb (bTile p.v p.nb p.kl p.ku) p.tA where
  al := al_tA h
  mb := rfl
  nb := rfl
  rows := by simp [tA, bandT, general, env]
  cols := by simp [tA, bandT, general, env]
  st := by
    intro m n i j ht
    have hb := h.pos
    have i0 : p.tA.d.i = 0 := rfl
    have j0 : p.tA.d.j = 0 := rfl
    rw [i0, j0, Nat.zero_div, Nat.add_zero, Nat.add_zero]
    show n ≤ (bKut p.v p.nb p.kl p.ku - 1) + m ∧ (bKut p.v p.nb p.kl p.ku - 1) + m - n < bLmt p.v p.nb p.kl p.ku
    have k1 : n - m < 1 + (p.ku + p.nb - 1) / p.nb ↔ n * p.nb - m * p.nb < p.nb + p.ku := by
      rw [lt_bkt hb, Nat.sub_mul]
    have k2 : m - n < 1 + (p.kl + p.nb - 1) / p.nb ↔ m * p.nb - n * p.nb < p.nb + p.kl := by
      rw [lt_bkt hb, Nat.sub_mul]
    have k3 : n - m < 1 + (p.ku + p.kl + p.nb - 1) / p.nb ↔ n * p.nb - m * p.nb < p.nb + (p.ku + p.kl) := by
      rw [lt_bkt hb, Nat.sub_mul]
    revert ht
    cases hv : p.v with
    | none =>
      simp only [bTile, bKut, bLmt]
      generalize (p.ku + p.kl + p.nb - 1) / p.nb = x3 at *
      generalize (p.kl + p.nb - 1) / p.nb = x2 at *
      generalize m * p.nb = X at *
      generalize n * p.nb = Y at *
      omega
    | some u =>
      cases u <;> simp only [bTile, bKut, bLmt] <;> generalize (p.ku + p.nb - 1) / p.nb = x1 at * <;>
      generalize (p.kl + p.nb - 1) / p.nb = x2 at * <;>
      generalize m * p.nb = X at * <;> generalize n * p.nb = Y at * <;> omega

theorem vA (h : p.OK) : ∀ m n i j, bTile p.v p.nb p.tA.d.kl p.tA.d.ku m n → i < tdim p.n p.nb m →
    j < tdim p.n p.nb n → evalid p.env (p.tA.at' m n) i j :=
  fun _ _ _ _ ht hi hj => (fits_tA h).validOn ht hi hj

theorem vU (h : p.OK) : ∀ m n i j, bTile p.v p.nb p.tA.d.kl p.tA.d.ku m n → i < tdim p.n p.nb m →
    j < tdim p.n p.nb n → inB p.v p.nb p.tA.d.kl p.tA.d.ku m n (m * p.nb + i) (n * p.nb + j) →
    evalid p.env (p.uA.at' m n) i j := by
  intro m n i j ht hi hj hB
  have hb := h.pos
  rw [tdim_row] at hi hj
  have e : p.uA.at' m n = (.usr 0, m, n) := by simp [uA, TMat.full, TMat.at', general]
  rw [e]
  refine ⟨?_, ?_⟩
  · show TileOK p.nb p.nb p.n p.n m n i j
    rw [tileOK_iff]
    omega
  · show n * p.nb + j ≤ uKt p.v p.nb p.kl p.ku + (m * p.nb + i) ∧ m * p.nb + i ≤ uKl p.v p.nb p.kl + (n * p.nb + j)
    change bTile p.v p.nb p.kl p.ku m n at ht
    change inB p.v p.nb p.kl p.ku m n (m * p.nb + i) (n * p.nb + j) at hB
    have f4 : m < n → m * p.nb + p.nb ≤ n * p.nb := fun h => by
      have := Nat.mul_le_mul_right p.nb (show m + 1 ≤ n from h)
      rw [Nat.add_mul] at this; omega
    have f5 : n < m → n * p.nb + p.nb ≤ m * p.nb := fun h => by
      have := Nat.mul_le_mul_right p.nb (show n + 1 ≤ m from h)
      rw [Nat.add_mul] at this; omega
    have f3 : m = n → m * p.nb = n * p.nb := fun h => by rw [h]
    revert ht hB
    cases hv : p.v with
    | none =>
      simp only [bTile, inB, uKl, uKt]
      generalize m * p.nb = X at *
      generalize n * p.nb = Y at *
      omega
    | some u =>
      cases u <;> simp only [bTile, inB, uKl, uKt] <;>
      generalize m * p.nb = X at * <;> generalize n * p.nb = Y at * <;> omega

theorem fits_uB (h : p.OK) : Fits p.env p.nb p.uB := fits_full (k := .lapack p.ldb) h.pos rfl (Or.inr ⟨_, rfl⟩)
theorem fits_tB (h : p.OK) : Fits p.env p.nb p.tB where
  al := al_tB h
  mb := rfl
  nb := rfl
  rows := by have := h.lmb; simpa [tB, general, env] using this
  cols := by simp [tB, general, env]
  st := fun _ _ _ _ _ => trivial

theorem uA_el (h : p.OK) (mem : Buf × Nat → α) (r c : Nat) :
    p.uA.el (view (eloc p.env) mem) r c = p.ab mem r c := by
  have e : ∀ m n, p.uA.at' m n = (.usr 0, m, n) := by
    intro m n; simp [uA, TMat.full, TMat.at', general]
  unfold TMat.el
  rw [e]
  show mem (.usr 0, uKu p.v p.kl p.ku + (r / p.nb * p.nb + r % p.nb) +
    (c / p.nb * p.nb + c % p.nb) * p.ldab - (c / p.nb * p.nb + c % p.nb)) = _
  rw [divmod, divmod]
  rfl

theorem uB_el (h : p.OK) (mem : Buf × Nat → α) (r c : Nat) :
    p.uB.el (view (eloc p.env) mem) r c = mem (.usr 1, r + c * p.ldb) :=
  el_view_lapack (env := p.env) (id := .usr 1) h.pos rfl mem r c

/-- The band: elements copied by the conversions, in user coordinates. -/
theorem inB_iff (u : Uplo) {b kl ku m n r c : Nat} :
    inB (some u) b kl ku m n r c ↔ if u = .upper then r ≤ c ∧ c ≤ r + ku else c ≤ r ∧ r ≤ c + kl := by
  cases u <;> simp [inB]

/-- Elements of the band lie in tiles of the band. -/
theorem bTile_of_inB {u : Uplo} {b kl ku r c : Nat} (hb : 0 < b)
    (h : inB (some u) b kl ku (r / b) (c / b) r c) : bTile (some u) b kl ku (r / b) (c / b) := by
  have dr := divmod r b
  have dc := divmod c b
  have hr := Nat.mod_lt r hb
  have hc := Nat.mod_lt c hb
  cases u
  · simp only [inB] at h
    simp only [bTile]
    refine ⟨Nat.div_le_div_right h.1, by omega⟩
  · simp only [inB] at h
    simp only [bTile]
    refine ⟨Nat.div_le_div_right h.1, by omega⟩

/-! ### The conversions in memory -/

variable [Zero α]

theorem in_good (h : p.OK) : Good (evalid p.env) (pzpb2desc (α := α) p.v p.uA p.tA) :=
  pzpb2desc_good (al_tA h) (N := p.n) rfl rfl (vA h) (vU h)

omit [Zero α] in
theorem out_good (h : p.OK) : Good (evalid p.env) (pzdesc2pb (α := α) p.v p.tA p.uA) :=
  pzdesc2pb_good (al_tA h) (N := p.n) rfl rfl (vA h) (vU h)

omit [Zero α] in
theorem geIn_good (h : p.OK) : Good (evalid p.env) (pzge2desc (α := α) p.uB p.tB) :=
  copyTasks_good (al_tB h) (fits_uB h) (fits_tB h) le_rfl le_rfl le_rfl le_rfl

omit [Zero α] in
theorem geOut_good (h : p.OK) : Good (evalid p.env) (pzdesc2ge (α := α) p.tB p.uB) :=
  copyTasks_good (al_tB h) (fits_tB h) (fits_uB h) le_rfl le_rfl le_rfl le_rfl

theorem in_el (h : p.OK) (mem : Buf × Nat → α) {r c : Nat} (hr : r < p.n) (hc : c < p.n)
    (ht : bTile p.v p.nb p.kl p.ku (r / p.nb) (c / p.nb)) :
    p.tA.el (texec (pzpb2desc p.v p.uA p.tA) (view (eloc p.env) mem)) r c =
      if inB p.v p.nb p.kl p.ku (r / p.nb) (c / p.nb) r c then p.ab mem r c else 0 := by
  rw [pzpb2desc_el (N := p.n) (al_tA h) (al_uA h) rfl rfl (by simp [uA, tA, TMat.full, bandT]) _ hr hc ht,
    uA_el h]
  rfl

/-- Final contents of a band tile matrix. -/
theorem exec_tA (h : p.OK) {P : List (TTask (Buf × Nat × Nat) α)} {mem mem' : Buf × Nat → α}
    (hg : GoodC (evalid p.env) P) (hx : Exec p.env P mem mem') {r c : Nat} (hr : r < p.n) (hc : c < p.n)
    (ht : bTile p.v p.nb p.kl p.ku (r / p.nb) (c / p.nb)) :
    p.tA.el (view (eloc p.env) mem') r c = p.tA.el (texec P (view (eloc p.env) mem)) r c := by
  have := (Exec.correct h.wf hg.loc hg.ins hg.cov hx).1
    (p.tA.at' (r / p.nb) (c / p.nb)) (r % p.nb) (c % p.nb)
    (vA h _ _ _ _ ht (mod_lt_tdim h.pos hr) (mod_lt_tdim h.pos hc))
  simpa [TMat.el, view, (al_tA h).mb, (al_tA h).nb] using this

/-- Final contents of the user's band array. -/
theorem exec_uA (h : p.OK) {P : List (TTask (Buf × Nat × Nat) α)} {mem mem' : Buf × Nat → α}
    (hg : GoodC (evalid p.env) P) (hx : Exec p.env P mem mem') {r c : Nat} (hr : r < p.n) (hc : c < p.n)
    (ht : bTile p.v p.nb p.kl p.ku (r / p.nb) (c / p.nb))
    (hB : inB p.v p.nb p.kl p.ku (r / p.nb) (c / p.nb) r c) :
    p.ab mem' r c = p.uA.el (texec P (view (eloc p.env) mem)) r c := by
  rw [← uA_el h]
  have := (Exec.correct h.wf hg.loc hg.ins hg.cov hx).1
    (p.uA.at' (r / p.nb) (c / p.nb)) (r % p.nb) (c % p.nb)
    (vU h _ _ _ _ ht (mod_lt_tdim h.pos hr) (mod_lt_tdim h.pos hc) (by rw [divmod, divmod]; exact hB))
  simpa [TMat.el, view, (al_uA h).mb, (al_uA h).nb] using this

/-- Final contents of the right-hand sides. -/
theorem exec_uB (h : p.OK) {P : List (TTask (Buf × Nat × Nat) α)} {mem mem' : Buf × Nat → α}
    (hg : GoodC (evalid p.env) P) (hx : Exec p.env P mem mem') {r c : Nat} (hr : r < p.n) (hc : c < p.nrhs) :
    mem' (.usr 1, r + c * p.ldb) = p.uB.el (texec P (view (eloc p.env) mem)) r c := by
  rw [← uB_el h mem']
  exact Exec.elC h.wf hg hx (fits_uB h) hr hc

/-- What a band driver may write: tiles, the band of `pAB`, and `pB`. -/
def WrB (p : BPar) (wA wB : Prop) : Foot (Buf × Nat × Nat) := fun t i j =>
  (∃ k, t.1 = .til k) ∨
  (wA ∧ ∃ m n, t = p.uA.at' m n ∧ i < tdim p.n p.nb m ∧ j < tdim p.n p.nb n ∧
    inB p.v p.nb p.kl p.ku m n (m * p.nb + i) (n * p.nb + j)) ∨
  (wB ∧ t.1 = .usr 1)

theorem _root_.Verif.Tile.WritesE.mono {M : Type u} {α : Type v} {W W' : Foot M} {P : List (TTask M α)} (h : WritesE W P)
    (hw : ∀ x i j, W x i j → W' x i j) : WritesE W' P := fun t ht x i j hx => hw x i j (h t ht x i j hx)

theorem in_wr (h : p.OK) {wA wB : Prop} : WritesE (p.WrB wA wB) (pzpb2desc (α := α) p.v p.uA p.tA) :=
  (pzpb2desc_wr (N := p.n) (al_tA h) rfl rfl).mono (by rintro x i j ⟨m, n, rfl, -⟩; exact Or.inl ⟨0, rfl⟩)

omit [Zero α] in
theorem out_wr (h : p.OK) {wB : Prop} : WritesE (p.WrB True wB) (pzdesc2pb (α := α) p.v p.tA p.uA) :=
  (pzdesc2pb_wr (N := p.n) (al_tA h) rfl rfl).mono (by
    rintro x i j ⟨m, n, rfl, -, -, -, h1, h2, h3⟩
    exact Or.inr (Or.inl ⟨trivial, m, n, rfl, h1, h2, h3⟩))

omit [Zero α] in
theorem tiles_wr {P : List (TTask (Buf × Nat × Nat) α)} (hP : OnTiles P) {wA wB : Prop} :
    WritesE (p.WrB wA wB) P := fun t ht x i j hx => Or.inl (hP t ht x i j hx)

omit [Zero α] in
theorem geIn_wr {wA wB : Prop} : WritesE (p.WrB wA wB) (pzge2desc (α := α) p.uB p.tB) :=
  tiles_wr ((copyTasks_writes (A := p.tB)).mono fun _ ht => ⟨1, ht⟩)

omit [Zero α] in
theorem geOut_wr {wA : Prop} : WritesE (p.WrB wA True) (pzdesc2ge (α := α) p.tB p.uB) := by
  have := copyTasks_writes (α := α) (A := p.tB) (U := p.tB) (V := p.uB)
  intro t ht x i j hx
  exact Or.inr (Or.inr ⟨trivial, this t ht x i j hx⟩)

omit [Zero α] in
/-- Locations outside the band and outside `pB` keep their value, whatever the outcome. -/
theorem frame (h : p.OK) {wA wB : Prop} {P : List (GTTask (Buf × Nat × Nat) α)} {mem mem' : Buf × Nat → α} {st : Int}
    (hw : WritesE (p.WrB wA wB) (tasks P)) (hin : ∀ t ∈ tasks P, t.Inside (evalid p.env))
    (hx : GExec p.env P mem mem' st) (k x : Nat)
    (h0 : wA → k = 0 → ∀ r c, r < p.n → c < p.n → inB p.v p.nb p.kl p.ku (r / p.nb) (c / p.nb) r c →
      x ≠ p.addr r c)
    (h1 : wB → k = 1 → ∀ r c, r < p.n → c < p.nrhs → x ≠ r + c * p.ldb) :
    mem' (.usr k, x) = mem (.usr k, x) := by
  apply hx.frame
  rintro t ht ⟨a, m, n⟩ i j hwr hel
  have ha : a = .usr k := congrArg Prod.fst hel
  subst ha
  have hel : (p.env (.usr k)).off m n i j = x := congrArg Prod.snd hel
  rcases hw t ht _ i j hwr with ⟨k', e⟩ | ⟨hA, m', n', e, hi, hj, hB⟩ | ⟨hB, e⟩
  · cases e
  · have e' : p.uA.at' m' n' = (.usr 0, m', n') := by simp [uA, TMat.full, TMat.at', general]
    rw [e'] at e
    obtain ⟨e1, e2⟩ := Prod.mk.inj e
    obtain ⟨e2, e3⟩ := Prod.mk.inj e2
    cases e1; subst e2; subst e3
    have hi' := hi
    have hj' := hj
    rw [tdim_row] at hi' hj'
    refine h0 hA rfl (m * p.nb + i) (n * p.nb + j) hi'.2 hj'.2 ?_ hel.symm
    rw [div_of_tile hi'.1, div_of_tile hj'.1]
    exact hB
  · cases e
    have hv := (hin t ht _ _ _ (Or.inr hwr)).1
    change TileOK p.nb p.nb p.n p.nrhs m n i j at hv
    rw [tileOK_iff] at hv
    refine h1 hB rfl (m * p.nb + i) (n * p.nb + j) hv.2.1 hv.2.2.2 ?_
    rw [← hel, MatEnv.off_lapack (l := p.ldb) rfl]
    show m * p.nb + i + p.ldb * (n * p.nb + j) = _
    ring

end BPar

/-- The address computed by the C code, over the integers: `bandA(m, n)` plus
`i + j*(lda-1)` (compute/pzpb2desc.c:20-22, core_blas/core_zlacpy_band.c:100). -/
def bandAddr (off lda nb m n i j : Int) : Int := lda * (nb * n) + off + nb * (m - n) + (i + j * (lda - 1))

/-- It is the address of the model. -/
theorem bandAddr_eq {p : BPar} (h : p.OK) {m n i j : Nat} :
    bandAddr (uKu p.v p.kl p.ku) p.ldab p.nb m n i j = ((p.env (.usr 0)).off m n i j : Int) := by
  have hl := h.ldab
  have p1 : n * p.nb + j ≤ (n * p.nb + j) * p.ldab := Nat.le_mul_of_pos_right _ (by omega)
  show _ = ((uKu p.v p.kl p.ku + (m * p.nb + i) + (n * p.nb + j) * p.ldab - (n * p.nb + j) : Nat) : Int)
  rw [Nat.cast_sub (by omega)]
  unfold bandAddr
  push_cast
  ring

end Verif.Tile

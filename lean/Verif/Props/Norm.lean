/-
Properties of the norm routines (C26, C27, C28) and of `plasma_dzamax` (C29).
-/
import Verif.Norm
import Verif.NormKern

namespace Verif.Props

open Verif.Layout Verif.Tile Verif.Norm Finset

set_option linter.unusedSectionVars false

universe v

/-- `PlasmaMaxNorm`, `PlasmaOneNorm`, `PlasmaInfNorm`, `PlasmaFrobeniusNorm`. -/
inductive NormK | max | one | inf | fro
  deriving DecidableEq, Repr

/-- The number `v` is the norm of the `m`-by-`n` matrix with the absolute values `F`. -/
def NormOf (k : NormK) (m n : Nat) (F : Nat → Nat → ℝ) (v : ℝ) : Prop :=
  match k with
  | .max => IsGreatest {x | ∃ r c, r < m ∧ c < n ∧ x = F r c} v
  | .one => IsGreatest {x | ∃ c, c < n ∧ x = ∑ r ∈ range m, F r c} v
  | .inf => IsGreatest {x | ∃ r, r < m ∧ x = ∑ c ∈ range n, F r c} v
  | .fro => v = Real.sqrt (∑ r ∈ range m, ∑ c ∈ range n, F r c ^ 2)

section spec
variable {m n : Nat} {F : Nat → Nat → ℝ} {v : ℝ}

theorem normOf_max (hm : 0 < m) (hn : 0 < n) (hF : ∀ r c, 0 ≤ F r c)
    (h : ∀ x, v ≤ x ↔ 0 ≤ x ∧ ∀ r < m, ∀ c < n, F r c ≤ x) : NormOf .max m n F v := by
  have := isGreatest_of_le (S := range m ×ˢ range n) (f := fun p => F p.1 p.2)
    ⟨(0, 0), by simp [hm, hn]⟩ (fun p _ => hF _ _) (v := v) (by
      intro x
      rw [h]
      refine and_congr_right fun _ => ⟨fun h p hp => ?_, fun h r hr c hc => ?_⟩
      · simp only [mem_product, mem_range] at hp
        exact h _ hp.1 _ hp.2
      · exact h (r, c) (by simp [hr, hc]))
  show IsGreatest _ v
  convert this using 1
  ext x
  constructor
  · rintro ⟨r, c, hr, hc, rfl⟩; exact ⟨(r, c), by simp [hr, hc], rfl⟩
  · rintro ⟨p, hp, rfl⟩
    simp only [mem_product, mem_range] at hp
    exact ⟨p.1, p.2, hp.1, hp.2, rfl⟩

theorem greatest_range {n : Nat} (hn : 0 < n) {f : Nat → ℝ} (hf : ∀ c, 0 ≤ f c)
    (h : ∀ x, v ≤ x ↔ 0 ≤ x ∧ ∀ c < n, f c ≤ x) : IsGreatest {x | ∃ c, c < n ∧ x = f c} v := by
  have := isGreatest_of_le (S := range n) (f := f) ⟨0, by simp [hn]⟩ (fun p _ => hf _) (v := v) (by
      intro x
      rw [h]
      simp only [mem_range])
  simpa only [mem_range] using this

theorem normOf_one (hn : 0 < n) (hF : ∀ r c, 0 ≤ F r c)
    (h : ∀ x, v ≤ x ↔ 0 ≤ x ∧ ∀ c < n, ∑ r ∈ range m, F r c ≤ x) : NormOf .one m n F v :=
  greatest_range hn (fun c => Finset.sum_nonneg fun r _ => hF r c) h

theorem normOf_inf (hm : 0 < m) (hF : ∀ r c, 0 ≤ F r c)
    (h : ∀ x, v ≤ x ↔ 0 ≤ x ∧ ∀ r < m, ∑ c ∈ range n, F r c ≤ x) : NormOf .inf m n F v :=
  greatest_range hm (fun r => Finset.sum_nonneg fun c _ => hF r c) h

end spec

section
variable {𝕜 : Type v} [RCLike 𝕜]

/-! ### Kernel calls -/

/-- A kernel that stores one number in `work(p, q)`. -/
def cellB (m n p q : Nat) (val : Tl 𝕜 → ℝ) : Blk 𝕜 := ⟨m, n, fun r c => r = p ∧ c = q, fun a _ _ => val a⟩

/-- A kernel that stores `len` numbers in column `q` of the work array from row `off` on. -/
def vecB (m n q off len : Nat) (val : Tl 𝕜 → Nat → ℝ) : Blk 𝕜 :=
  ⟨m, n, fun r c => c = q ∧ off ≤ r ∧ r < off + len, fun a r _ => val a (r - off)⟩

/-- A kernel that stores `scale` and `sumsq` in `work(p, q)` and `work(p, nt + q)`. -/
def pairB (m n p q nt : Nat) (val : Tl 𝕜 → ℝ × ℝ) : Blk 𝕜 :=
  ⟨m, n, fun r c => r = p ∧ (c = q ∨ c = nt + q), fun a _ c => if c = q then (val a).1 else (val a).2⟩

/-- Two tiles agree on the elements of the matrix. -/
def Agree (m n : Nat) (a a' : Tl 𝕜) : Prop := ∀ p q, p < m → q < n → a p q = a' p q

theorem colL_congr {a a' : Tl 𝕜} {m n : Nat} (h : Agree m n a a') {lo hi j : Nat} (hj : j < n) (hh : hi ≤ m) :
    colL a lo hi j = colL a' lo hi j := by
  unfold colL
  refine List.map_congr_left fun i hi' => h i j ?_ hj
  have := mem_span.mp hi'
  omega

theorem langeMax_congr {a a' : Tl 𝕜} {m n : Nat} (h : Agree m n a a') : langeMax m n a = langeMax m n a' := by
  refine eq_of_forall_ge_iff fun x => ?_
  rw [langeMax_le, langeMax_le]
  refine and_congr_right fun _ => ⟨fun h1 i hi j hj => ?_, fun h1 i hi j hj => ?_⟩
  · rw [← h i j hi hj]; exact h1 i hi j hj
  · rw [h i j hi hj]; exact h1 i hi j hj

theorem gessq_congr {lsq : ℝ × ℝ → List 𝕜 → ℝ × ℝ} {a a' : Tl 𝕜} {m n : Nat} (h : Agree m n a a') :
    gessq lsq m n a = gessq lsq m n a' := by
  unfold gessq
  refine List.foldl_ext _ _ _ fun p j hj => ?_
  rw [colL_congr h (List.mem_range.mp hj) le_rfl]

theorem langeAuxOne_congr {a a' : Tl 𝕜} {m n : Nat} {v : Nat → ℝ} (hm : 0 < m) (h : Agree m n a a') {k : Nat}
    (hk : k < n) : langeAuxOne m n a v k = langeAuxOne m n a' v k := by
  rw [langeAuxOne_eq hm hk, langeAuxOne_eq hm hk]
  exact Finset.sum_congr rfl fun i hi => by rw [h i k (mem_range.mp hi) hk]

theorem langeAuxInf_congr {a a' : Tl 𝕜} {m n : Nat} {v : Nat → ℝ} (h : Agree m n a a') {k : Nat}
    (hk : k < m) : langeAuxInf m n a v k = langeAuxInf m n a' v k := by
  rw [langeAuxInf_eq hk, langeAuxInf_eq hk]
  exact Finset.sum_congr rfl fun i hi => by rw [h k i hk (mem_range.mp hi)]

theorem lantrMax_congr {u : Uplo} {unit : Bool} {a a' : Tl 𝕜} {m n : Nat} (hm : 0 < m) (hn : 0 < n)
    (h : Agree m n a a') : lantrMax u unit m n a = lantrMax u unit m n a' := by
  refine eq_of_forall_ge_iff fun x => ?_
  rw [lantrMax_le hm hn, lantrMax_le hm hn]
  refine and_congr_right fun _ => ⟨fun h1 i hi j hj => ?_, fun h1 i hi j hj => ?_⟩
  · rw [← h i j hi hj]; exact h1 i hi j hj
  · rw [h i j hi hj]; exact h1 i hi j hj

theorem lantrAuxOne_congr {u : Uplo} {unit : Bool} {a a' : Tl 𝕜} {m n : Nat} {v : Nat → ℝ} (hm : 0 < m)
    (h : Agree m n a a') {k : Nat} (hk : k < n) : lantrAuxOne u unit m n a v k = lantrAuxOne u unit m n a' v k := by
  rw [lantrAuxOne_eq hm hk, lantrAuxOne_eq hm hk]
  exact Finset.sum_congr rfl fun i hi => by rw [h i k (mem_range.mp hi) hk]

theorem lantrAuxInf_congr {u : Uplo} {unit : Bool} {a a' : Tl 𝕜} {m n : Nat} {v : Nat → ℝ}
    (h : Agree m n a a') {k : Nat} (hk : k < m) : lantrAuxInf u unit m n a v k = lantrAuxInf u unit m n a' v k := by
  rw [lantrAuxInf_eq hk, lantrAuxInf_eq hk]
  exact Finset.sum_congr rfl fun i hi => by rw [h k i hk (mem_range.mp hi)]

theorem colSsq_congr {L : List Nat} {x0 x0' : Nat → ℝ} {lo hi : Nat → Nat} {f f' : Nat → Nat → ℝ} {p : ℝ × ℝ}
    (h0 : ∀ j ∈ L, x0 j = x0' j) (h1 : ∀ j ∈ L, ∀ i, lo j ≤ i → i < hi j → f i j = f' i j) :
    colSsq L x0 lo hi f p = colSsq L x0' lo hi f' p := by
  unfold colSsq
  refine List.foldl_ext _ _ _ fun p j hj => ?_
  rw [h0 j hj]
  refine List.foldl_ext _ _ _ fun p i hi => ?_
  have := mem_span.mp hi
  rw [h1 j hj i this.1 this.2]

theorem trssq_congr {u : Uplo} {unit : Bool} {a a' : Tl 𝕜} {m n : Nat} (hm : 0 < m) (h : Agree m n a a') :
    trssq u unit m n a = trssq u unit m n a' := by
  have hn : ∀ i j, i < m → j < n → ‖a i j‖ = ‖a' i j‖ := fun i j hi hj => by rw [h i j hi hj]
  cases u <;> cases unit <;> unfold trssq <;> dsimp only
  · refine colSsq_congr (fun j hj => hn _ _ hm (mem_span.mp hj).2) fun j hj i h1 h2 => hn _ _ (by omega) (mem_span.mp hj).2
  · rw [colSsq_congr (L := span 0 (min n m)) (f' := fun i j => ‖a' i j‖) (fun j _ => rfl) fun j hj i h1 h2 =>
      hn _ _ (by have := mem_span.mp hj; omega) (by have := mem_span.mp hj; omega)]
    exact colSsq_congr (fun j hj => hn _ _ hm (mem_span.mp hj).2) fun j hj i h1 h2 => hn _ _ (by omega) (mem_span.mp hj).2
  · refine colSsq_congr (fun j hj => ?_) fun j hj i h1 h2 => ?_
    · have := mem_span.mp hj; exact hn _ _ (by omega) (by omega)
    · have := mem_span.mp hj; exact hn _ _ (by omega) (by omega)
  · refine colSsq_congr (fun j hj => rfl) fun j hj i h1 h2 => ?_
    have := mem_span.mp hj; exact hn _ _ (by omega) (by omega)

theorem symA_congr {u : Uplo} {herm : Bool} {a a' : Nat → Nat → 𝕜} {n i j : Nat} (h : Agree n n a a')
    (hi : i < n) (hj : j < n) : symA u herm a i j = symA u herm a' i j := by
  unfold symA Norm.symE
  simp only [h i j hi hj, h j i hj hi, h i i hi hi]

theorem lansyMax_congr {u : Uplo} {herm : Bool} {a a' : Tl 𝕜} {n : Nat} (h : Agree n n a a') :
    lansyMax u herm n a = lansyMax u herm n a' := by
  refine eq_of_forall_ge_iff fun x => ?_
  rw [lansyMax_le, lansyMax_le]
  refine and_congr_right fun _ => ⟨fun h1 i hi j hj => ?_, fun h1 i hi j hj => ?_⟩
  · rw [← symA_congr h hi hj]; exact h1 i hi j hj
  · rw [symA_congr h hi hj]; exact h1 i hi j hj

theorem lansyAux_congr {u : Uplo} {herm : Bool} {a a' : Tl 𝕜} {n : Nat} {v : Nat → ℝ} (h : Agree n n a a') {k : Nat}
    (hk : k < n) : lansyAux u herm n a v k = lansyAux u herm n a' v k := by
  rw [lansyAux_eq hk, lansyAux_eq hk]
  exact Finset.sum_congr rfl fun i hi => symA_congr h hk (mem_range.mp hi)

theorem syssq_congr {lsq : ℝ × ℝ → List 𝕜 → ℝ × ℝ} {u : Uplo} {herm : Bool} {a a' : Tl 𝕜} {n : Nat}
    (h : Agree n n a a') : syssq lsq u herm n a = syssq lsq u herm n a' := by
  unfold syssq
  have e : ∀ p, (span 0 n).foldl (fun p i => ssqStep p (diagAbs herm (a i i))) p =
      (span 0 n).foldl (fun p i => ssqStep p (diagAbs herm (a' i i))) p := by
    intro p
    refine List.foldl_ext _ _ _ fun p i hi => ?_
    have := (mem_span.mp hi).2
    rw [h i i this this]
  cases u
  · dsimp only
    rw [e, List.foldl_ext (fun p j => lsq p (colL a 0 j j)) (fun p j => lsq p (colL a' 0 j j)) _ fun p j hj => by
      have := mem_span.mp hj
      rw [colL_congr h this.2 (by omega)]]
  · dsimp only
    rw [e, List.foldl_ext (fun p j => lsq p (colL a (j + 1) n j)) (fun p j => lsq p (colL a' (j + 1) n j)) _
      fun p j hj => by
        have := mem_span.mp hj
        rw [colL_congr h (by omega) le_rfl]]

/-! ### Task lists -/

theorem nodup_fst {γ : Type} {f : Nat → List (Nat × γ)} {k : Nat} (h1 : ∀ m, (f m).Nodup)
    (h2 : ∀ m, ∀ x ∈ f m, x.1 = m) : ((List.range k).flatMap f).Nodup := by
  rw [List.nodup_flatMap]
  refine ⟨fun m _ => h1 m, ?_⟩
  refine List.Pairwise.imp ?_ List.nodup_range
  intro a b hab
  simp only [Function.onFun, List.disjoint_left]
  intro x hx hx'
  exact hab ((h2 a x hx).symm.trans (h2 b x hx'))

/-- All tiles: the loops of `plasma_pzlange` and `plasma_pdzamax` (compute/pzlange.c:46-60, 68-79, 89-100,
110-121; compute/pdzamax.c:37-48, 60-71). -/
def geTiles (mt nt : Nat) : List (Nat × Nat) := (List.range mt).flatMap fun m => (List.range nt).map fun n => (m, n)

theorem mem_geTiles {mt nt : Nat} {p : Nat × Nat} : p ∈ geTiles mt nt ↔ p.1 < mt ∧ p.2 < nt := by
  unfold geTiles
  simp only [List.mem_flatMap, List.mem_map, List.mem_range]
  constructor
  · rintro ⟨m, hm, n, hn, rfl⟩; exact ⟨hm, hn⟩
  · rintro ⟨h1, h2⟩; exact ⟨p.1, h1, p.2, h2, rfl⟩

theorem nodup_geTiles {mt nt : Nat} : (geTiles mt nt).Nodup := by
  apply nodup_fst
  · intro m
    exact List.nodup_range.map (fun a b h => by simpa using h)
  · intro m x hx
    obtain ⟨n, _, rfl⟩ := List.mem_map.mp hx
    rfl

/-- The descriptor made by the drivers. -/
abbrev gD (nb m n : Nat) : Desc := general nb nb m n 0 0 m n

/-- Size of the work array (compute/zlange.c:128-143, zlansy.c:133-146, zlantr.c:147-162) as a matrix;
its columns have length `mt`, `n`, `m`, `mt`.  The last `n` (`m`) elements are used by `dlange` only and left out. -/
def nmWork (k : NormK) (D : Desc) : Nat × Nat :=
  match k with
  | .max => (D.mt, D.nt)
  | .one => (D.n, D.mt)
  | .inf => (D.m, D.nt)
  | .fro => (D.mt, 2 * D.nt)

/-! ### General matrices -/

/-- Kernel calls of `plasma_pzlange` (compute/pzlange.c:27-135).  `junk` is the contents of the work array seen
by kernels that store several numbers. -/
def langeBlk (lsq : ℝ × ℝ → List 𝕜 → ℝ × ℝ) (junk : Nat → ℝ) (k : NormK) (D : Desc) (t : Nat × Nat) : Blk 𝕜 :=
  match k with
  | .max => cellB t.1 t.2 t.1 t.2 (langeMax (D.mview t.1) (D.nview t.2))
  | .one => vecB t.1 t.2 t.1 (t.2 * D.nb) (D.nview t.2) fun a => langeAuxOne (D.mview t.1) (D.nview t.2) a junk
  | .inf => vecB t.1 t.2 t.2 (t.1 * D.mb) (D.mview t.1) fun a => langeAuxInf (D.mview t.1) (D.nview t.2) a junk
  | .fro => pairB t.1 t.2 t.1 t.2 D.nt (gessq lsq (D.mview t.1) (D.nview t.2))

/-- `scale[i]` for the work array. -/
def scl (D : Desc) (w : Nat → Nat → ℝ) (i : Nat) : ℝ := w (i % D.mt) (i / D.mt)

/-- `sumsq[i]`, where `sumsq = work + A.mt*A.nt`. -/
def smq (D : Desc) (w : Nat → Nat → ℝ) (i : Nat) : ℝ := w ((D.mt * D.nt + i) % D.mt) ((D.mt * D.nt + i) / D.mt)

/-- The reduction of `plasma_pzlange` (compute/pzlange.c:61-65, 80-86, 101-107, 122-126). -/
noncomputable def langeRed (k : NormK) (D : Desc) (w : Nat → Nat → ℝ) : ℝ :=
  match k with
  | .max => maxOf (allPos D.mt D.nt) fun p q => |w p q|
  | .one => infNorm D.n D.mt w
  | .inf => infNorm D.m D.nt w
  | .fro => gessqAux (D.mt * D.nt) (scl D w) (smq D w)

/-- Tasks of `plasma_zlange` (compute/zlange.c:76-178) for valid arguments.  Array 1 is the work array, array 2
the returned number; the quick return is a task storing 0. -/
noncomputable def zlange (lsq : ℝ × ℝ → List 𝕜 → ℝ × ℝ) (junk : Nat → ℝ) (k : NormK) (nb m n : Nat) :
    List (GTTask (Buf × Nat × Nat) 𝕜) :=
  if min m n = 0 then
    normDrv nb m n (nmWork k (gD nb m n)) (1, 1) ([] : List (Nat × Nat)) (langeBlk lsq junk k (gD nb m n))
      (fun r c => r = 0 ∧ c = 0) (fun _ _ _ => 0)
  else
    normDrv nb m n (nmWork k (gD nb m n)) (1, 1) (geTiles (gD nb m n).mt (gD nb m n).nt)
      (langeBlk lsq junk k (gD nb m n)) (fun r c => r = 0 ∧ c = 0) (fun w _ _ => langeRed k (gD nb m n) w)

/-! ### Preliminaries on the descriptor -/

theorem gD_al {nb : Nat} (hnb : 0 < nb) (m n : Nat) : (TMat.full () nb m n).Al nb := TMat.al_full () hnb m n

theorem gD_mv {nb m n k : Nat} (hnb : 0 < nb) (hk : k < (gD nb m n).mt) : (gD nb m n).mview k = tdim m nb k :=
  (gD_al hnb m n).mview hk

theorem gD_nv {nb m n k : Nat} (hnb : 0 < nb) (hk : k < (gD nb m n).nt) : (gD nb m n).nview k = tdim n nb k :=
  (gD_al hnb m n).nview hk

theorem gD_mt {nb m n : Nat} (hnb : 0 < nb) : (gD nb m n).mt = ceilDiv m nb := (gD_al hnb m n).mt_eq

theorem gD_nt {nb m n : Nat} (hnb : 0 < nb) : (gD nb m n).nt = ceilDiv n nb := (gD_al hnb m n).nt_eq

theorem tdim_pos {m b k : Nat} (hb : 0 < b) (h : k < ceilDiv m b) : 0 < tdim m b k := by
  have := (lt_ceilDiv hb).mp h
  unfold tdim; omega

theorem tdim_le {m b k : Nat} : tdim m b k ≤ b := by unfold tdim; omega

theorem tdim_end {m b k i : Nat} (h : i < tdim m b k) : k * b + i < m := by unfold tdim at h; omega

/-- Rows of a vector of the work array determine the tile. -/
theorem blk_row {b m k k' r : Nat} (h : k * b ≤ r ∧ r < k * b + tdim m b k)
    (h' : k' * b ≤ r ∧ r < k' * b + tdim m b k') : k = k' := by
  have h1 := tdim_le (m := m) (b := b) (k := k)
  have h2 := tdim_le (m := m) (b := b) (k := k')
  have e1 : r / b = k := by
    rw [show r = k * b + (r - k * b) by omega, div_of_tile (by omega)]
  have e2 : r / b = k' := by
    rw [show r = k' * b + (r - k' * b) by omega, div_of_tile (by omega)]
  omega

theorem row_split {b m r : Nat} (hb : 0 < b) (hr : r < m) :
    r / b < ceilDiv m b ∧ r / b * b ≤ r ∧ r < r / b * b + tdim m b (r / b) ∧ r - r / b * b = r % b := by
  have e1 : r / b * b + r % b = r := by rw [Nat.mul_comm]; exact Nat.div_add_mod r b
  have := mod_lt_tdim hb hr
  refine ⟨(lt_ceilDiv hb).mpr (by omega), by omega, by omega, by omega⟩

theorem scl_congr {D : Desc} {w w' : Nat → Nat → ℝ}
    (h : ∀ r c, r < D.mt → c < 2 * D.nt → w r c = w' r c) {i : Nat} (hi : i < D.mt * D.nt) :
    scl D w i = scl D w' i ∧ smq D w i = smq D w' i := by
  have hmt : 0 < D.mt := by by_contra h0; simp [Nat.eq_zero_of_not_pos h0] at hi
  have h1 : i / D.mt < D.nt := Nat.div_lt_of_lt_mul hi
  refine ⟨h _ _ (Nat.mod_lt _ hmt) (by omega), h _ _ (Nat.mod_lt _ hmt) ?_⟩
  rw [Nat.mul_add_div hmt]; omega

theorem smq_eq {D : Desc} (hmt : 0 < D.mt) (w : Nat → Nat → ℝ) (i : Nat) :
    smq D w i = w (i % D.mt) (D.nt + i / D.mt) := by
  unfold smq
  rw [Nat.mul_add_mod, Nat.mul_add_div hmt]

theorem fro_red {nb m n : Nat} (hnb : 0 < nb) (hm : 0 < m) (E : Nat → Nat → ℝ) {a : Nat → Nat → ℝ}
    (h : ∀ p < (gD nb m n).mt, ∀ q < (gD nb m n).nt, Ssq (a p q, a p ((gD nb m n).nt + q))
      (∑ j ∈ range (tdim n nb q), ∑ l ∈ range (tdim m nb p), E (p * nb + l) (q * nb + j))) :
    gessqAux ((gD nb m n).mt * (gD nb m n).nt) (scl (gD nb m n) a) (smq (gD nb m n) a) =
      Real.sqrt (∑ r ∈ range m, ∑ c ∈ range n, E r c) := by
  have hmt := gD_mt (m := m) (n := n) hnb
  have hnt := gD_nt (m := m) (n := n) hnb
  have hmt0 : 0 < (gD nb m n).mt := by rw [hmt]; exact (lt_ceilDiv hnb).mpr (by omega)
  rw [gessqAux_eq (t := fun i => ∑ j ∈ range (tdim n nb (i / (gD nb m n).mt)),
    ∑ l ∈ range (tdim m nb (i % (gD nb m n).mt)),
      E (i % (gD nb m n).mt * nb + l) (i / (gD nb m n).mt * nb + j))]
  · rw [sum_linear (fun p q => ∑ j ∈ range (tdim n nb q), ∑ l ∈ range (tdim m nb p),
      E (p * nb + l) (q * nb + j)), hmt, hnt, sum_tiles2 hnb E]
  · intro i hi
    rw [smq_eq hmt0]
    exact h _ (Nat.mod_lt _ hmt0) _ (Nat.div_lt_of_lt_mul hi)

theorem infNorm_congr {p q : Nat} {w w' : Nat → Nat → ℝ} (h : ∀ i < p, ∀ k < q, w i k = w' i k) :
    infNorm p q w = infNorm p q w' := by
  unfold infNorm
  refine List.foldl_ext _ _ _ fun v i hi => ?_
  rw [Finset.sum_congr rfl fun k hk => by rw [h i (List.mem_range.mp hi) k (mem_range.mp hk)]]

theorem maxOf_congr {L : List (Nat × Nat)} {w w' : Nat → Nat → ℝ} (h : ∀ p ∈ L, w p.1 p.2 = w' p.1 p.2) :
    maxOf L w = maxOf L w' := by
  unfold maxOf
  exact List.foldl_ext _ _ _ fun v p hp => by rw [h p hp]

theorem gessqAux_congr {N : Nat} {s s' q q' : Nat → ℝ} (h : ∀ i < N, s i = s' i ∧ q i = q' i) :
    gessqAux N s q = gessqAux N s' q' := by
  unfold gessqAux
  rw [List.foldl_ext (fun p i => ssqJoin p (s i, q i)) (fun p i => ssqJoin p (s' i, q' i)) _ fun p i hi => by
    obtain ⟨h1, h2⟩ := h i (List.mem_range.mp hi)
    rw [h1, h2]]

theorem langeRed_congr {k : NormK} {D : Desc} {w w' : Nat → Nat → ℝ}
    (h : ∀ r c, r < (nmWork k D).1 → c < (nmWork k D).2 → w r c = w' r c) : langeRed k D w = langeRed k D w' := by
  cases k
  · exact maxOf_congr (w := fun p q => |w p q|) (w' := fun p q => |w' p q|) fun p hp => by
      rw [h _ _ (mem_allPos.mp hp).1 (mem_allPos.mp hp).2]
  · exact infNorm_congr fun i hi k hk => h _ _ hi hk
  · exact infNorm_congr fun i hi k hk => h _ _ hi hk
  · exact gessqAux_congr fun i hi => scl_congr h hi

theorem langeBlk_ok {lsq : ℝ × ℝ → List 𝕜 → ℝ × ℝ} {junk : Nat → ℝ} {k : NormK} {nb m n : Nat} (hnb : 0 < nb)
    (v : Nat × Nat) {L : List (Nat × Nat)} (hLn : L.Nodup) (hL : ∀ p ∈ L, p.1 < (gD nb m n).mt ∧ p.2 < (gD nb m n).nt) :
    BlkOK (tMat nb (nmDims m n (nmWork k (gD nb m n)) v) 0) (uMat nb (nmDims m n (nmWork k (gD nb m n)) v) 1)
      L (langeBlk (𝕜 := 𝕜) lsq junk k (gD nb m n)) := by
  have hmt := gD_mt (m := m) (n := n) hnb
  have hnt := gD_nt (m := m) (n := n) hnb
  refine ⟨hLn, ?_, ?_, ?_, ?_⟩
  · intro t ht
    cases k <;> exact hL t ht
  · intro t ht a a' haa r c hR
    obtain ⟨h1, h2⟩ := hL t ht
    have e1 := gD_mv hnb h1
    have e2 := gD_nv hnb h2
    have haa' : Agree ((gD nb m n).mview t.1) ((gD nb m n).nview t.2) a a' := by cases k <;> exact haa
    cases k
    · exact langeMax_congr haa'
    · obtain ⟨-, -, hr⟩ : c = t.1 ∧ t.2 * nb ≤ r ∧ r < t.2 * nb + (gD nb m n).nview t.2 := hR
      refine langeAuxOne_congr (k := r - t.2 * nb) ?_ haa' ?_
      · rw [e1]; exact tdim_pos hnb (by rw [← hmt]; exact h1)
      · rw [e2] at hr ⊢
        have := tdim_pos (m := n) hnb (by rw [← hnt]; exact h2)
        omega
    · obtain ⟨-, -, hr⟩ : c = t.2 ∧ t.1 * nb ≤ r ∧ r < t.1 * nb + (gD nb m n).mview t.1 := hR
      refine langeAuxInf_congr (k := r - t.1 * nb) haa' ?_
      rw [e1] at hr ⊢
      have := tdim_pos (m := m) hnb (by rw [← hmt]; exact h1)
      omega
    · show (if c = t.2 then _ else _) = (if c = t.2 then _ else _)
      rw [gessq_congr haa']
  · intro t ht r c hR
    obtain ⟨h1, h2⟩ := hL t ht
    have e1 := gD_mv hnb h1
    have e2 := gD_nv hnb h2
    have key1 : r < t.1 * nb + tdim m nb t.1 → r < m := by
      intro h; unfold tdim at h
      have := (lt_ceilDiv (m := m) hnb).mp (by rw [← hmt]; exact h1); omega
    have key2 : r < t.2 * nb + tdim n nb t.2 → r < n := by
      intro h; unfold tdim at h
      have := (lt_ceilDiv (m := n) hnb).mp (by rw [← hnt]; exact h2); omega
    cases k
    · exact ⟨hR.1 ▸ h1, hR.2 ▸ h2⟩
    · refine ⟨key2 ?_, hR.1 ▸ h1⟩
      have := hR.2.2; rw [e2] at this; exact this
    · refine ⟨key1 ?_, hR.1 ▸ h2⟩
      have := hR.2.2; rw [e1] at this; exact this
    · refine ⟨hR.1 ▸ h1, ?_⟩
      show c < 2 * _
      rcases hR.2 with h | h <;> omega
  · intro t ht t' ht' r c hR hR'
    obtain ⟨h1, h2⟩ := hL t ht
    obtain ⟨h1', h2'⟩ := hL t' ht'
    cases k
    · exact Prod.ext (hR.1.symm.trans hR'.1) (hR.2.symm.trans hR'.2)
    · have hr := hR.2
      have hr' := hR'.2
      rw [gD_nv hnb h2] at hr
      rw [gD_nv hnb h2'] at hr'
      exact Prod.ext (hR.1.symm.trans hR'.1) (blk_row hr hr')
    · have hr := hR.2
      have hr' := hR'.2
      rw [gD_mv hnb h1] at hr
      rw [gD_mv hnb h1'] at hr'
      exact Prod.ext (blk_row hr hr') (hR.1.symm.trans hR'.1)
    · refine Prod.ext (hR.1.symm.trans hR'.1) ?_
      rcases hR.2 with h | h <;> rcases hR'.2 with h' | h' <;> omega

/-- Common part of the statements about norm drivers: the call succeeds, the number returned has the property `P`,
and no array of the caller is changed. -/
def Returns (mem mem' : Buf × Nat → 𝕜) (st : Int) (P : ℝ → Prop) : Prop :=
  st = 0 ∧ (∃ x : ℝ, mem' (.usr 2, 0) = (x : 𝕜) ∧ P x) ∧
    ∀ k i, k ≠ 1 → (k, i) ≠ (2, 0) → mem' (.usr k, i) = mem (.usr k, i)

theorem returns_of {ι : Type} {nb : Nat} (hnb : 0 < nb) {m n lda : Nat} (hl : m ≤ lda) {w : Nat × Nat} {L : List ι}
    {blk : ι → Blk 𝕜} {red : (Nat → Nat → ℝ) → ℝ} {P : ℝ → Prop}
    (hB : BlkOK (tMat nb (nmDims m n w (1, 1)) 0) (uMat nb (nmDims m n w (1, 1)) 1) L blk)
    (hred : ∀ a a', (∀ r c, r < w.1 → c < w.2 → a r c = a' r c) → red a = red a')
    {mem mem' : Buf × Nat → 𝕜} {st : Int}
    (hP : ∀ a : Nat → Nat → ℝ, (∀ i ∈ L, ∀ r c, (blk i).R r c →
        a r c = (blk i).g (tileOf nb (arr mem 0 lda) (blk i).m (blk i).n) r c) →
      (∀ r c, (∀ i ∈ L, ¬ (blk i).R r c) → a r c = RCLike.re (arr mem 1 w.1 r c)) → P (red a))
    (hx : GExec (drvEnvK nb (nmDims m n w (1, 1)) (nmLd lda w (1, 1)) (fun _ => none))
      (normDrv nb m n w (1, 1) L blk (fun r c => r = 0 ∧ c = 0) (fun a _ _ => red a)) mem mem' st) :
    Returns mem mem' st P := by
  obtain ⟨h1, ⟨a, h2, h3, h4⟩, h5⟩ := normDrv_correct hnb hl hB (fun r c h => by simp [h.1, h.2])
    (fun a a' h r c _ => hred a a' h) hx
  refine ⟨h1, ⟨red a, ?_, hP a h2 h3⟩, ?_⟩
  · have := h4 0 0 ⟨rfl, rfl⟩
    simpa [arr] using this
  · intro k i hk hki
    refine h5 k i hk fun e r c hr hc => ?_
    subst e
    simp only [Nat.lt_one_iff] at hr hc
    subst hr hc
    simpa using hki

/-- **C26.** Every execution of `plasma_zlange` returns the max, one, infinity or Frobenius norm of the matrix
of the caller and changes no array of the caller. -/
theorem C26_lange {nb : Nat} (hnb : 0 < nb) {lsq : ℝ × ℝ → List 𝕜 → ℝ × ℝ} (hlsq : IsLassq lsq) (junk : Nat → ℝ)
    (k : NormK) (m n lda : Nat) (hl : m ≤ lda) (mem mem' : Buf × Nat → 𝕜) (st : Int)
    (hx : GExec (drvEnvK nb (nmDims m n (nmWork k (gD nb m n)) (1, 1)) (nmLd lda (nmWork k (gD nb m n)) (1, 1))
      (fun _ => none)) (zlange lsq junk k nb m n) mem mem' st) :
    Returns mem mem' st fun x =>
      (min m n = 0 → x = 0) ∧ (0 < min m n → NormOf k m n (fun r c => ‖arr mem 0 lda r c‖) x) := by
  have hmt := gD_mt (m := m) (n := n) hnb
  have hnt := gD_nt (m := m) (n := n) hnb
  unfold zlange at hx
  split at hx
  · rename_i h0
    refine returns_of hnb hl (langeBlk_ok hnb (1, 1) (L := []) (by simp) (by simp)) (red := fun _ => 0)
      (fun _ _ _ => rfl) (fun a _ _ => ⟨fun _ => rfl, fun h => by omega⟩) hx
  · rename_i h0
    have hm : 0 < m := by omega
    have hn : 0 < n := by omega
    refine returns_of hnb hl (langeBlk_ok hnb (1, 1) (L := geTiles (gD nb m n).mt (gD nb m n).nt) nodup_geTiles
      fun p hp => mem_geTiles.mp hp) (red := fun w => langeRed k (gD nb m n) w) (fun a a' h => langeRed_congr h) ?_ hx
    intro a ha _
    refine ⟨fun h => absurd h h0, fun _ => ?_⟩
    have hF : ∀ r c, 0 ≤ ‖arr mem 0 lda r c‖ := fun r c => norm_nonneg _
    cases k
    · refine normOf_max hm hn hF (max_tiles hnb ?_ ?_ ?_)
      · intro p hp; rw [← hmt, ← hnt]; exact mem_allPos.mp hp
      · intro p hp x
        have hp' := mem_allPos.mp hp
        have := ha p (mem_geTiles.mpr hp') p.1 p.2 ⟨rfl, rfl⟩
        rw [this]
        show |langeMax _ _ _| ≤ x ↔ _
        rw [abs_of_nonneg (show 0 ≤ langeMax _ _ _ from maxOf_nonneg _ _), langeMax_le, gD_mv hnb hp'.1, gD_nv hnb hp'.2]
        rfl
      · intro p hp q hq hpq
        rw [← hmt] at hp; rw [← hnt] at hq
        exact absurd (mem_allPos.mpr ⟨hp, hq⟩) hpq
    · refine normOf_one hn hF ?_
      show ∀ x, infNorm n (gD nb m n).mt a ≤ x ↔ _
      rw [hmt]
      refine one_tiles hnb hF ?_
      intro c hc p hp
      obtain ⟨c1, c2, c3, c4⟩ := row_split hnb hc
      rw [← hmt] at hp
      rw [← hnt] at c1
      have e2 := gD_nv (m := m) hnb c1
      have := ha (p, c / nb) (mem_geTiles.mpr ⟨hp, c1⟩) c p ⟨rfl, c2, by
        show c < c / nb * nb + (gD nb m n).nview (c / nb)
        rw [e2]; exact c3⟩
      rw [this]
      show langeAuxOne ((gD nb m n).mview p) _ _ _ (c - c / nb * nb) = _
      rw [c4, langeAuxOne_eq (by rw [gD_mv hnb hp]; exact tdim_pos hnb (by rw [← hmt]; exact hp))
        (by show _ < (gD nb m n).nview (c / nb); rw [e2]; omega), gD_mv hnb hp]
      refine Finset.sum_congr rfl fun i _ => ?_
      show ‖arr mem 0 lda (p * nb + i) (c / nb * nb + c % nb)‖ = _
      rw [show c / nb * nb + c % nb = c by rw [Nat.mul_comm]; exact Nat.div_add_mod c nb]
    · refine normOf_inf hm hF ?_
      show ∀ x, infNorm m (gD nb m n).nt a ≤ x ↔ _
      rw [hnt]
      refine one_tiles (E := fun c r => ‖arr mem 0 lda r c‖) hnb (fun r c => hF c r) ?_
      intro r hr q hq
      obtain ⟨r1, r2, r3, r4⟩ := row_split hnb hr
      rw [← hnt] at hq
      rw [← hmt] at r1
      have e1 := gD_mv (n := n) hnb r1
      have := ha (r / nb, q) (mem_geTiles.mpr ⟨r1, hq⟩) r q ⟨rfl, r2, by
        show r < r / nb * nb + (gD nb m n).mview (r / nb)
        rw [e1]; exact r3⟩
      rw [this]
      show langeAuxInf _ ((gD nb m n).nview q) _ _ (r - r / nb * nb) = _
      rw [r4, langeAuxInf_eq (by show _ < (gD nb m n).mview (r / nb); rw [e1]; omega), gD_nv hnb hq]
      refine Finset.sum_congr rfl fun i _ => ?_
      show ‖arr mem 0 lda (r / nb * nb + r % nb) (q * nb + i)‖ = _
      rw [show r / nb * nb + r % nb = r by rw [Nat.mul_comm]; exact Nat.div_add_mod r nb]
    · refine fro_red hnb (by omega) (fun r c => ‖arr mem 0 lda r c‖ ^ 2) fun p hp q hq => ?_
      have hmem := mem_geTiles.mpr (show (p, q).1 < _ ∧ (p, q).2 < _ from ⟨hp, hq⟩)
      have s1 := ha _ hmem p q ⟨rfl, Or.inl rfl⟩
      have s2 := ha _ hmem p ((gD nb m n).nt + q) ⟨rfl, Or.inr rfl⟩
      rw [s1, s2]
      show Ssq ((if _ then _ else _), (if _ then _ else _)) _
      rw [if_pos rfl, if_neg (by show ¬ _ = _; omega)]
      show Ssq (gessq lsq _ _ _) _
      rw [gD_mv hnb hp, gD_nv hnb hq]
      exact gessq_eq hlsq

/-! ### Triangular matrices -/

/-- Tiles of a triangle: the loops of `plasma_pzlantr` (compute/pzlantr.c:44-75). -/
def trTiles (u : Uplo) (mt nt : Nat) : List (Nat × Nat) :=
  (List.range mt).flatMap fun m =>
    ((match u with
      | .lower => List.range (min m nt)
      | .upper => span (m + 1) nt).map fun n => (m, n)) ++ if m < nt then [(m, m)] else []

theorem mem_trTiles {u : Uplo} {mt nt : Nat} {p : Nat × Nat} :
    p ∈ trTiles u mt nt ↔ p.1 < mt ∧ p.2 < nt ∧ inTri u p.1 p.2 := by
  obtain ⟨m, n⟩ := p
  have hd : ∀ a, ((m, n) ∈ if a < nt then [(a, a)] else ([] : List (Nat × Nat))) ↔ a < nt ∧ m = a ∧ n = a := by
    intro a; split <;> simp_all
  cases u
  · simp only [trTiles, List.mem_flatMap, List.mem_append, List.mem_map, List.mem_range, mem_span, hd, inTri]
    constructor
    · rintro ⟨a, ha, ⟨b, hb, hab⟩ | h⟩
      · simp only [Prod.mk.injEq] at hab; omega
      · omega
    · rintro ⟨h1, h2, h3⟩
      refine ⟨m, h1, ?_⟩
      by_cases e : m = n
      · right; omega
      · left; exact ⟨n, by omega, rfl⟩
  · simp only [trTiles, List.mem_flatMap, List.mem_append, List.mem_map, List.mem_range, hd, inTri]
    constructor
    · rintro ⟨a, ha, ⟨b, hb, hab⟩ | h⟩
      · simp only [Prod.mk.injEq] at hab; omega
      · omega
    · rintro ⟨h1, h2, h3⟩
      refine ⟨m, h1, ?_⟩
      by_cases e : m = n
      · right; omega
      · left; exact ⟨n, by omega, rfl⟩

theorem nodup_trTiles {u : Uplo} {mt nt : Nat} : (trTiles u mt nt).Nodup := by
  apply nodup_fst
  · intro m
    rw [List.nodup_append]
    refine ⟨?_, by split <;> simp, ?_⟩
    · refine List.Nodup.map (fun a b h => by simpa using h) ?_
      cases u
      · exact nodup_span
      · exact List.nodup_range
    · intro x hx y hy
      obtain ⟨n, hn, rfl⟩ := List.mem_map.mp hx
      split at hy
      · rw [List.mem_singleton] at hy
        subst hy
        intro e
        simp only [Prod.mk.injEq, true_and] at e
        cases u
        · have := mem_span.mp hn; omega
        · have := List.mem_range.mp hn; omega
      · simp at hy
  · intro m x hx
    rcases List.mem_append.mp hx with h | h
    · obtain ⟨n, _, rfl⟩ := List.mem_map.mp h; rfl
    · split at h
      · rw [List.mem_singleton] at h; rw [h]
      · simp at h

/-- Kernel calls of `plasma_pzlantr` (compute/pzlantr.c:27-215); the diagonal tiles are handled by
`zlantr`, `zlantr_aux` and `ztrssq`. -/
noncomputable def lantrBlk (lsq : ℝ × ℝ → List 𝕜 → ℝ × ℝ) (junk : Nat → ℝ) (k : NormK) (u : Uplo) (unit : Bool) (D : Desc)
    (t : Nat × Nat) : Blk 𝕜 :=
  if t.1 = t.2 then
    match k with
    | .max => cellB t.1 t.2 t.1 t.2 (lantrMax u unit (D.mview t.1) (D.nview t.2))
    | .one => vecB t.1 t.2 t.1 (t.2 * D.nb) (D.nview t.2) fun a =>
        lantrAuxOne u unit (D.mview t.1) (D.nview t.2) a junk
    | .inf => vecB t.1 t.2 t.2 (t.1 * D.nb) (D.mview t.1) fun a =>
        lantrAuxInf u unit (D.mview t.1) (D.nview t.2) a junk
    | .fro => pairB t.1 t.2 t.1 t.2 D.nt (trssq u unit (D.mview t.1) (D.nview t.2))
  else langeBlk lsq junk k D t

/-- The reduction of `plasma_pzlantr` (compute/pzlantr.c:76-81, 119-125, 164-170, 208-212). -/
noncomputable def lantrRed (k : NormK) (u : Uplo) (D : Desc) (w : Nat → Nat → ℝ) : ℝ :=
  match k with
  | .max => maxOf (triPos u D.mt D.nt) fun p q => |w p q|
  | .one => infNorm D.n D.mt w
  | .inf => infNorm D.m D.nt w
  | .fro => gessqAux (D.mt * D.nt) (scl D w) (smq D w)

/-- Tasks of `plasma_zlantr` (compute/zlantr.c:89-199) for valid arguments. -/
noncomputable def zlantr (lsq : ℝ × ℝ → List 𝕜 → ℝ × ℝ) (junk : Nat → ℝ) (k : NormK) (u : Uplo) (unit : Bool)
    (nb m n : Nat) : List (GTTask (Buf × Nat × Nat) 𝕜) :=
  if min m n = 0 then
    normDrv nb m n (nmWork k (gD nb m n)) (1, 1) ([] : List (Nat × Nat)) (lantrBlk lsq junk k u unit (gD nb m n))
      (fun r c => r = 0 ∧ c = 0) (fun _ _ _ => 0)
  else
    normDrv nb m n (nmWork k (gD nb m n)) (1, 1) (trTiles u (gD nb m n).mt (gD nb m n).nt)
      (lantrBlk lsq junk k u unit (gD nb m n)) (fun r c => r = 0 ∧ c = 0) (fun w _ _ => lantrRed k u (gD nb m n) w)

theorem lantrBlk_shape {lsq : ℝ × ℝ → List 𝕜 → ℝ × ℝ} {junk : Nat → ℝ} {k : NormK} {u : Uplo} {unit : Bool}
    {nb m n : Nat} {t : Nat × Nat} :
    (lantrBlk lsq junk k u unit (gD nb m n) t).m = t.1 ∧ (lantrBlk lsq junk k u unit (gD nb m n) t).n = t.2 ∧
    (lantrBlk lsq junk k u unit (gD nb m n) t).R = (langeBlk lsq junk k (gD nb m n) t).R := by
  unfold lantrBlk
  split <;> cases k <;> exact ⟨rfl, rfl, rfl⟩

theorem langeBlk_shape {lsq : ℝ × ℝ → List 𝕜 → ℝ × ℝ} {junk : Nat → ℝ} {k : NormK} {D : Desc} {t : Nat × Nat} :
    (langeBlk lsq junk k D t).m = t.1 ∧ (langeBlk lsq junk k D t).n = t.2 := by
  cases k <;> exact ⟨rfl, rfl⟩

theorem blkOK_reuse {ι : Type} {M : Type*} {A W : TMat M} {L : List ι} {blk blk' : ι → Blk 𝕜}
    (h : BlkOK A W L blk) (hs : ∀ i ∈ L, (blk' i).m = (blk i).m ∧ (blk' i).n = (blk i).n ∧ (blk' i).R = (blk i).R)
    (hr : ∀ i ∈ L, ∀ a a', Agree (A.d.mview (blk i).m) (A.d.nview (blk i).n) a a' →
      ∀ r c, (blk i).R r c → (blk' i).g a r c = (blk' i).g a' r c) : BlkOK A W L blk' := by
  refine ⟨h.nodup, ?_, ?_, ?_, ?_⟩
  · intro i hi
    rw [(hs i hi).1, (hs i hi).2.1]; exact h.tile i hi
  · intro i hi a a' haa r c hR
    rw [(hs i hi).1, (hs i hi).2.1] at haa
    rw [(hs i hi).2.2] at hR
    exact hr i hi a a' haa r c hR
  · intro i hi r c hR
    rw [(hs i hi).2.2] at hR
    exact h.inW i hi r c hR
  · intro i hi j hj r c hR hR'
    rw [(hs i hi).2.2] at hR
    rw [(hs j hj).2.2] at hR'
    exact h.one i hi j hj r c hR hR'

theorem lantrBlk_ok {lsq : ℝ × ℝ → List 𝕜 → ℝ × ℝ} {junk : Nat → ℝ} {k : NormK} {u : Uplo} {unit : Bool} {nb m n : Nat}
    (hnb : 0 < nb) (v : Nat × Nat) {L : List (Nat × Nat)} (hLn : L.Nodup)
    (hL : ∀ p ∈ L, p.1 < (gD nb m n).mt ∧ p.2 < (gD nb m n).nt) :
    BlkOK (tMat nb (nmDims m n (nmWork k (gD nb m n)) v) 0) (uMat nb (nmDims m n (nmWork k (gD nb m n)) v) 1)
      L (lantrBlk (𝕜 := 𝕜) lsq junk k u unit (gD nb m n)) := by
  have hmt := gD_mt (m := m) (n := n) hnb
  have hnt := gD_nt (m := m) (n := n) hnb
  have h0 := langeBlk_ok (𝕜 := 𝕜) (lsq := lsq) (junk := junk) (k := k) hnb v hLn hL
  refine blkOK_reuse h0 (fun t _ => ?_) ?_
  · rw [langeBlk_shape.1, langeBlk_shape.2]; exact lantrBlk_shape
  · intro t ht a a' haa r c hR
    have haa' : Agree ((gD nb m n).mview t.1) ((gD nb m n).nview t.2) a a' := by cases k <;> exact haa
    obtain ⟨h1, h2⟩ := hL t ht
    have e1 := gD_mv hnb h1
    have e2 := gD_nv hnb h2
    have p1 := tdim_pos (m := m) hnb (by rw [← hmt]; exact h1)
    have p2 := tdim_pos (m := n) hnb (by rw [← hnt]; exact h2)
    unfold lantrBlk
    by_cases e : t.1 = t.2
    · rw [if_pos e]
      cases k
      · exact lantrMax_congr (by rw [e1]; exact p1) (by rw [e2]; exact p2) haa'
      · obtain ⟨-, -, hr⟩ : c = t.1 ∧ t.2 * nb ≤ r ∧ r < t.2 * nb + (gD nb m n).nview t.2 := hR
        refine lantrAuxOne_congr (k := r - t.2 * nb) ?_ haa' ?_
        · rw [e1]; exact p1
        · rw [e2] at hr ⊢; omega
      · obtain ⟨-, -, hr⟩ : c = t.2 ∧ t.1 * nb ≤ r ∧ r < t.1 * nb + (gD nb m n).mview t.1 := hR
        refine lantrAuxInf_congr (k := r - t.1 * nb) haa' ?_
        rw [e1] at hr ⊢; omega
      · show (if c = t.2 then _ else _) = (if c = t.2 then _ else _)
        rw [trssq_congr (by rw [e1]; exact p1) haa']
    · rw [if_neg e]
      exact h0.reads t ht a a' haa r c hR

theorem lantrRed_congr {k : NormK} {u : Uplo} {D : Desc} {w w' : Nat → Nat → ℝ}
    (h : ∀ r c, r < (nmWork k D).1 → c < (nmWork k D).2 → w r c = w' r c) : lantrRed k u D w = lantrRed k u D w' := by
  cases k
  · exact maxOf_congr (w := fun p q => |w p q|) (w' := fun p q => |w' p q|) fun p hp => by
      rw [h _ _ (mem_triPos.mp hp).1.1 (mem_triPos.mp hp).1.2]
  · exact infNorm_congr fun i hi k hk => h _ _ hi hk
  · exact infNorm_congr fun i hi k hk => h _ _ hi hk
  · exact gessqAux_congr fun i hi => scl_congr h hi

theorem inTri_tile {u : Uplo} {b p q i j : Nat} (hpq : p ≠ q) (hi : i < b) (hj : j < b) :
    (inTri u (p * b + i) (q * b + j) ↔ inTri u p q) ∧ p * b + i ≠ q * b + j := by
  rcases Nat.lt_or_gt_of_ne hpq with h | h
  · have := Nat.mul_le_mul_right b (show p + 1 ≤ q from h)
    rw [Nat.add_mul] at this
    cases u <;> simp only [inTri] <;> omega
  · have := Nat.mul_le_mul_right b (show q + 1 ≤ p from h)
    rw [Nat.add_mul] at this
    cases u <;> simp only [inTri] <;> omega

theorem triE_in {u : Uplo} {unit : Bool} {b p q i j : Nat} {x : ℝ} (hpq : p ≠ q) (hi : i < b) (hj : j < b)
    (h : inTri u p q) : triE u unit (p * b + i) (q * b + j) x = x := by
  obtain ⟨h1, h2⟩ := inTri_tile (u := u) hpq hi hj
  unfold triE
  rw [if_neg (fun e => h2 e.1), if_pos (h1.mpr h)]

theorem triE_out {u : Uplo} {unit : Bool} {b p q i j : Nat} {x : ℝ} (hpq : p ≠ q) (hi : i < b) (hj : j < b)
    (h : ¬ inTri u p q) : triE u unit (p * b + i) (q * b + j) x = 0 := by
  obtain ⟨h1, h2⟩ := inTri_tile (u := u) hpq hi hj
  unfold triE
  rw [if_neg (fun e => h2 e.1), if_neg (fun e => h (h1.mp e))]

theorem inTri_self {u : Uplo} {p : Nat} : inTri u p p := by cases u <;> exact le_rfl

/-- **C28.** Every execution of `plasma_zlantr` returns the norm of the (upper or lower, possibly unit)
triangular or trapezoidal part of the matrix.  `hz` is the `calloc` of compute/zlantr.c:152-161. -/
theorem C28_lantr {nb : Nat} (hnb : 0 < nb) {lsq : ℝ × ℝ → List 𝕜 → ℝ × ℝ} (hlsq : IsLassq lsq) (junk : Nat → ℝ)
    (k : NormK) (u : Uplo) (unit : Bool) (m n lda : Nat) (hl : m ≤ lda) (mem mem' : Buf × Nat → 𝕜) (st : Int)
    (hz : k ≠ .max → ∀ i, mem (.usr 1, i) = 0)
    (hx : GExec (drvEnvK nb (nmDims m n (nmWork k (gD nb m n)) (1, 1)) (nmLd lda (nmWork k (gD nb m n)) (1, 1))
      (fun _ => none)) (zlantr lsq junk k u unit nb m n) mem mem' st) :
    Returns mem mem' st fun x => (min m n = 0 → x = 0) ∧
      (0 < min m n → NormOf k m n (fun r c => triE u unit r c ‖arr mem 0 lda r c‖) x) := by
  have hmt := gD_mt (m := m) (n := n) hnb
  have hnt := gD_nt (m := m) (n := n) hnb
  unfold zlantr at hx
  split at hx
  · rename_i h0
    refine returns_of hnb hl (lantrBlk_ok hnb (1, 1) (L := []) (by simp) (by simp)) (red := fun _ => 0)
      (fun _ _ _ => rfl) (fun a _ _ => ⟨fun _ => rfl, fun h => by omega⟩) hx
  · rename_i h0
    have hm : 0 < m := by omega
    have hn : 0 < n := by omega
    refine returns_of hnb hl (lantrBlk_ok hnb (1, 1) (L := trTiles u (gD nb m n).mt (gD nb m n).nt) nodup_trTiles
      fun p hp => ⟨(mem_trTiles.mp hp).1, (mem_trTiles.mp hp).2.1⟩) (red := fun w => lantrRed k u (gD nb m n) w)
      (fun a a' h => lantrRed_congr h) ?_ hx
    intro a ha hb
    refine ⟨fun h => absurd h h0, fun _ => ?_⟩
    have hF : ∀ r c, 0 ≤ triE u unit r c ‖arr mem 0 lda r c‖ := fun r c => triE_nonneg (norm_nonneg _)
    have hz' : k ≠ .max → ∀ r c, (∀ t ∈ trTiles u (gD nb m n).mt (gD nb m n).nt,
        ¬ (langeBlk lsq junk k (gD nb m n) t).R r c) → a r c = 0 := by
      intro hk r c h
      have := hb r c (fun t ht => by rw [lantrBlk_shape.2.2]; exact h t ht)
      rw [this]
      simp [arr, hz hk]
    have hg : ∀ p q r c, p < (gD nb m n).mt → q < (gD nb m n).nt → inTri u p q →
        (langeBlk lsq junk k (gD nb m n) (p, q)).R r c →
        a r c = (lantrBlk lsq junk k u unit (gD nb m n) (p, q)).g (tileOf nb (arr mem 0 lda) p q) r c := by
      intro p q r c hp hq hpq hR
      have := ha (p, q) (mem_trTiles.mpr ⟨hp, hq, hpq⟩) r c (by rw [lantrBlk_shape.2.2]; exact hR)
      rwa [lantrBlk_shape.1, lantrBlk_shape.2.1] at this
    cases k
    · refine normOf_max hm hn hF (max_tiles hnb ?_ ?_ ?_)
      · intro p hp; rw [← hmt, ← hnt]; exact (mem_triPos.mp hp).1
      · rintro ⟨p, q⟩ hp x
        obtain ⟨⟨hp, hq⟩, hpq⟩ := mem_triPos.mp hp
        rw [hg p q p q hp hq hpq ⟨rfl, rfl⟩]
        dsimp only at hp hq hpq ⊢
        have e1 := gD_mv hnb hp
        have e2 := gD_nv hnb hq
        have p1 := tdim_pos (m := m) hnb (by rw [← hmt]; exact hp)
        have p2 := tdim_pos (m := n) hnb (by rw [← hnt]; exact hq)
        by_cases e : p = q
        · subst e
          unfold lantrBlk
          rw [if_pos rfl]
          show |lantrMax _ _ ((gD nb m n).mview p) ((gD nb m n).nview p) _| ≤ x ↔ _
          rw [e1, e2, abs_of_nonneg ((lantrMax_le p1 p2).mp le_rfl).1, lantrMax_le p1 p2]
          simp only [triE_shift]; rfl
        · unfold lantrBlk
          rw [if_neg e]
          show |langeMax ((gD nb m n).mview p) ((gD nb m n).nview q) _| ≤ x ↔ _
          rw [e1, e2, abs_of_nonneg (show 0 ≤ langeMax _ _ _ from maxOf_nonneg _ _), langeMax_le]
          refine and_congr_right fun _ => forall_congr' fun i => imp_congr_right fun hi => forall_congr' fun j =>
            imp_congr_right fun hj => ?_
          rw [triE_in e (lt_of_lt_of_le hi tdim_le) (lt_of_lt_of_le hj tdim_le) hpq]
          rfl
      · intro p hp q hq hpq i hi j hj
        have h1 : ¬ inTri u p q := fun h => hpq (mem_triPos.mpr ⟨⟨by rw [hmt]; exact hp, by rw [hnt]; exact hq⟩, h⟩)
        have h2 : p ≠ q := fun e => h1 (e ▸ inTri_self)
        rw [triE_out h2 (lt_of_lt_of_le hi tdim_le) (lt_of_lt_of_le hj tdim_le) h1]
    · refine normOf_one hn hF ?_
      show ∀ x, infNorm n (gD nb m n).mt a ≤ x ↔ _
      rw [hmt]
      refine one_tiles hnb hF ?_
      intro c hc p hp
      obtain ⟨c1, c2, c3, c4⟩ := row_split hnb hc
      rw [← hmt] at hp
      rw [← hnt] at c1
      have e1 := gD_mv (n := n) hnb hp
      have e2 := gD_nv (m := m) hnb c1
      have p1 := tdim_pos (m := m) hnb (by rw [← hmt]; exact hp)
      have ec : c / nb * nb + c % nb = c := by rw [Nat.mul_comm]; exact Nat.div_add_mod c nb
      have hcb := Nat.mod_lt c hnb
      have hR : (langeBlk lsq junk .one (gD nb m n) (p, c / nb)).R c p := ⟨rfl, c2, by
        show c < c / nb * nb + (gD nb m n).nview (c / nb)
        rw [e2]; exact c3⟩
      by_cases hpq : inTri u p (c / nb)
      · rw [hg p (c / nb) c p hp c1 hpq hR]
        by_cases e : p = c / nb
        · unfold lantrBlk
          rw [if_pos e]
          show lantrAuxOne _ _ ((gD nb m n).mview p) _ _ _ (c - c / nb * nb) = _
          rw [c4, e1, lantrAuxOne_eq p1 (by show _ < (gD nb m n).nview (c / nb); rw [e2]; omega)]
          refine Finset.sum_congr rfl fun i _ => ?_
          have : triE u unit (p * nb + i) c ‖arr mem 0 lda (p * nb + i) c‖ =
              triE u unit (p * nb + i) (p * nb + c % nb) ‖arr mem 0 lda (p * nb + i) c‖ := by
            rw [e, ec]
          rw [this, triE_shift]
          show triE u unit i (c % nb) ‖arr mem 0 lda (p * nb + i) (c / nb * nb + c % nb)‖ = _
          rw [ec]
        · unfold lantrBlk
          rw [if_neg e]
          show langeAuxOne ((gD nb m n).mview p) _ _ _ (c - c / nb * nb) = _
          rw [c4, e1, langeAuxOne_eq p1 (by show _ < (gD nb m n).nview (c / nb); rw [e2]; omega)]
          refine Finset.sum_congr rfl fun i hi => ?_
          have := triE_in (u := u) (unit := unit) (x := ‖arr mem 0 lda (p * nb + i) c‖) e
            (lt_of_lt_of_le (mem_range.mp hi) tdim_le) hcb hpq
          rw [ec] at this
          rw [this]
          show ‖arr mem 0 lda (p * nb + i) (c / nb * nb + c % nb)‖ = _
          rw [ec]
      · rw [hz' (by simp) c p]
        · have h2 : p ≠ c / nb := fun e => hpq (e ▸ inTri_self)
          refine (Finset.sum_eq_zero fun i hi => ?_).symm
          have := triE_out (u := u) (unit := unit) (x := ‖arr mem 0 lda (p * nb + i) c‖) h2
            (lt_of_lt_of_le (mem_range.mp hi) tdim_le) hcb hpq
          rwa [ec] at this
        · rintro ⟨p', q'⟩ ht ⟨h1, h2⟩
          obtain ⟨t1, t2, t3⟩ := mem_trTiles.mp ht
          have h2' : q' * nb ≤ c ∧ c < q' * nb + (gD nb m n).nview q' := h2
          rw [gD_nv hnb t2] at h2'
          have := blk_row h2' ⟨c2, c3⟩
          dsimp only at h1 t3
          subst this h1
          exact hpq t3
    · refine normOf_inf hm hF ?_
      show ∀ x, infNorm m (gD nb m n).nt a ≤ x ↔ _
      rw [hnt]
      refine one_tiles (E := fun c r => triE u unit r c ‖arr mem 0 lda r c‖) hnb (fun r c => hF c r) ?_
      intro r hr q hq
      obtain ⟨r1, r2, r3, r4⟩ := row_split hnb hr
      rw [← hnt] at hq
      rw [← hmt] at r1
      have e1 := gD_mv (n := n) hnb r1
      have e2 := gD_nv (m := m) hnb hq
      have er : r / nb * nb + r % nb = r := by rw [Nat.mul_comm]; exact Nat.div_add_mod r nb
      have hrb := Nat.mod_lt r hnb
      have hR : (langeBlk lsq junk .inf (gD nb m n) (r / nb, q)).R r q := ⟨rfl, r2, by
        show r < r / nb * nb + (gD nb m n).mview (r / nb)
        rw [e1]; exact r3⟩
      by_cases hpq : inTri u (r / nb) q
      · rw [hg (r / nb) q r q r1 hq hpq hR]
        by_cases e : r / nb = q
        · unfold lantrBlk
          rw [if_pos e]
          show lantrAuxInf _ _ _ ((gD nb m n).nview q) _ _ (r - r / nb * nb) = _
          rw [r4, e2, lantrAuxInf_eq (by show _ < (gD nb m n).mview (r / nb); rw [e1]; omega)]
          refine Finset.sum_congr rfl fun i _ => ?_
          have : triE u unit r (q * nb + i) ‖arr mem 0 lda r (q * nb + i)‖ =
              triE u unit (q * nb + r % nb) (q * nb + i) ‖arr mem 0 lda r (q * nb + i)‖ := by
            rw [← e, er]
          rw [this, triE_shift]
          show triE u unit (r % nb) i ‖arr mem 0 lda (r / nb * nb + r % nb) (q * nb + i)‖ = _
          rw [er]
        · unfold lantrBlk
          rw [if_neg e]
          show langeAuxInf _ ((gD nb m n).nview q) _ _ (r - r / nb * nb) = _
          rw [r4, e2, langeAuxInf_eq (by show _ < (gD nb m n).mview (r / nb); rw [e1]; omega)]
          refine Finset.sum_congr rfl fun i hi => ?_
          have := triE_in (u := u) (unit := unit) (x := ‖arr mem 0 lda r (q * nb + i)‖) e
            hrb (lt_of_lt_of_le (mem_range.mp hi) tdim_le) hpq
          rw [er] at this
          rw [this]
          show ‖arr mem 0 lda (r / nb * nb + r % nb) (q * nb + i)‖ = _
          rw [er]
      · rw [hz' (by simp) r q]
        · have h2 : r / nb ≠ q := fun e => hpq (e ▸ inTri_self)
          refine (Finset.sum_eq_zero fun i hi => ?_).symm
          have := triE_out (u := u) (unit := unit) (x := ‖arr mem 0 lda r (q * nb + i)‖) h2
            hrb (lt_of_lt_of_le (mem_range.mp hi) tdim_le) hpq
          rwa [er] at this
        · rintro ⟨p', q'⟩ ht ⟨h1, h2⟩
          obtain ⟨t1, t2, t3⟩ := mem_trTiles.mp ht
          have h2' : p' * nb ≤ r ∧ r < p' * nb + (gD nb m n).mview p' := h2
          rw [gD_mv hnb t1] at h2'
          have := blk_row h2' ⟨r2, r3⟩
          dsimp only at h1 t3
          subst this h1
          exact hpq t3
    · refine fro_red hnb (by omega) (fun r c => triE u unit r c ‖arr mem 0 lda r c‖ ^ 2) fun p hp q hq => ?_
      have e1 := gD_mv hnb hp
      have e2 := gD_nv hnb hq
      have p1 := tdim_pos (m := m) hnb (by rw [← hmt]; exact hp)
      by_cases hpq : inTri u p q
      · have s1 := hg p q p q hp hq hpq ⟨rfl, Or.inl rfl⟩
        have s2 := hg p q p ((gD nb m n).nt + q) hp hq hpq ⟨rfl, Or.inr rfl⟩
        rw [s1, s2]
        unfold lantrBlk
        by_cases e : p = q
        · subst e
          rw [if_pos rfl]
          show Ssq ((if _ then _ else _), (if _ then _ else _)) _
          rw [if_pos rfl, if_neg (by show ¬ _ = _; omega)]
          show Ssq (trssq _ _ ((gD nb m n).mview p) ((gD nb m n).nview p) _) _
          rw [e1, e2]
          simp only [triE_shift]
          exact trssq_eq p1
        · rw [if_neg e]
          show Ssq ((if _ then _ else _), (if _ then _ else _)) _
          rw [if_pos rfl, if_neg (by show ¬ _ = _; omega)]
          show Ssq (gessq lsq ((gD nb m n).mview p) ((gD nb m n).nview q) _) _
          rw [e1, e2]
          have := gessq_eq hlsq (m := tdim m nb p) (n := tdim n nb q) (a := tileOf nb (arr mem 0 lda) p q)
          convert this using 1
          refine Finset.sum_congr rfl fun j hj => Finset.sum_congr rfl fun i hi => ?_
          rw [triE_in e (lt_of_lt_of_le (mem_range.mp hi) tdim_le) (lt_of_lt_of_le (mem_range.mp hj) tdim_le) hpq]
          rfl
      · have hne : ∀ c, (c = q ∨ c = (gD nb m n).nt + q) → a p c = 0 := by
          intro c hc
          refine hz' (by simp) p c ?_
          rintro ⟨p', q'⟩ ht ⟨h1, h2⟩
          obtain ⟨t1, t2, t3⟩ := mem_trTiles.mp ht
          dsimp only at h1 h2 t1 t2 t3
          have : q = q' := by rcases hc with h | h <;> rcases h2 with h' | h' <;> omega
          subst this h1
          exact hpq t3
        rw [hne q (Or.inl rfl), hne _ (Or.inr rfl)]
        have h2 : p ≠ q := fun e => hpq (e ▸ inTri_self)
        rw [Finset.sum_eq_zero fun j hj => Finset.sum_eq_zero fun i hi => ?_]
        · exact ⟨le_rfl, le_rfl, by simp⟩
        · rw [triE_out h2 (lt_of_lt_of_le (mem_range.mp hi) tdim_le) (lt_of_lt_of_le (mem_range.mp hj) tdim_le) hpq]
          simp

/-! ### Symmetric and Hermitian matrices -/

/-- Kernel calls of `plasma_pzlansy`, `plasma_pzlanhe` as triples (row, column, second call for this tile)
(compute/pzlansy.c:44-72, 85-123, 138-164). -/
def syTiles (k : NormK) (u : Uplo) (nt : Nat) : List (Nat × Nat × Bool) :=
  (List.range nt).flatMap fun m =>
    ((match u with
      | .lower => List.range m
      | .upper => span (m + 1) nt).flatMap fun n =>
        (m, n, false) :: if k = NormK.one ∨ k = NormK.inf then [(m, n, true)] else []) ++ [(m, m, false)]

theorem mem_syTiles {k : NormK} {u : Uplo} {nt m n : Nat} {b : Bool} :
    (m, n, b) ∈ syTiles k u nt ↔ m < nt ∧ n < nt ∧ inTri u m n ∧ (b = true → (k = .one ∨ k = .inf) ∧ m ≠ n) := by
  have hd : ∀ a c : Nat, ((m, n, b) ∈ ((a, c, false) :: if k = .one ∨ k = .inf then [(a, c, true)] else [])) ↔
      (m = a ∧ n = c) ∧ (b = true → k = .one ∨ k = .inf) := by
    intro a c
    split
    · rename_i h
      cases b <;> simp [h]
    · rename_i h
      cases b <;> simp [h]
  cases u
  · simp only [syTiles, List.mem_flatMap, List.mem_append, List.mem_range, mem_span, hd, inTri, List.mem_singleton,
      Prod.mk.injEq]
    constructor
    · rintro ⟨a, ha, ⟨c, hc, ⟨rfl, rfl⟩, hb⟩ | ⟨rfl, rfl, rfl⟩⟩
      · exact ⟨ha, hc.2, by omega, fun h => ⟨hb h, by omega⟩⟩
      · exact ⟨ha, ha, le_rfl, by simp⟩
    · rintro ⟨h1, h2, h3, h4⟩
      refine ⟨m, h1, ?_⟩
      by_cases e : m = n
      · right
        cases b
        · exact ⟨rfl, e.symm, rfl⟩
        · exact absurd e (h4 rfl).2
      · left; exact ⟨n, by omega, ⟨rfl, rfl⟩, fun h => (h4 h).1⟩
  · simp only [syTiles, List.mem_flatMap, List.mem_append, List.mem_range, hd, inTri, List.mem_singleton,
      Prod.mk.injEq]
    constructor
    · rintro ⟨a, ha, ⟨c, hc, ⟨rfl, rfl⟩, hb⟩ | ⟨rfl, rfl, rfl⟩⟩
      · exact ⟨ha, by omega, by omega, fun h => ⟨hb h, by omega⟩⟩
      · exact ⟨ha, ha, le_rfl, by simp⟩
    · rintro ⟨h1, h2, h3, h4⟩
      refine ⟨m, h1, ?_⟩
      by_cases e : m = n
      · right
        cases b
        · exact ⟨rfl, e.symm, rfl⟩
        · exact absurd e (h4 rfl).2
      · left; exact ⟨n, by omega, ⟨rfl, rfl⟩, fun h => (h4 h).1⟩

theorem nodup_syTiles {k : NormK} {u : Uplo} {nt : Nat} : (syTiles k u nt).Nodup := by
  apply nodup_fst
  · intro m
    rw [List.nodup_append]
    have hmem : ∀ (c : Nat) (x : Nat × Nat × Bool), (x ∈ ((m, c, false) :: if k = .one ∨ k = .inf then [(m, c, true)] else [])) → x.2.1 = c := by
      intro c x hx
      rcases List.mem_cons.mp hx with rfl | h
      · rfl
      · split at h
        · rw [List.mem_singleton] at h; rw [h]
        · simp at h
    refine ⟨?_, by simp, ?_⟩
    · rw [List.nodup_flatMap]
      constructor
      · intro c _; split <;> simp
      · have : List.Nodup (match u with
          | .lower => List.range m
          | .upper => span (m + 1) nt) := by
          cases u
          · exact nodup_span
          · exact List.nodup_range
        refine List.Pairwise.imp ?_ this
        intro a b hab
        simp only [Function.onFun, List.disjoint_left]
        intro x hx hx'
        exact hab ((hmem a x hx).symm.trans (hmem b x hx'))
    · intro x hx y hy
      obtain ⟨c, hc, hxc⟩ := List.mem_flatMap.mp hx
      have := hmem c x hxc
      rw [List.mem_singleton] at hy
      subst hy
      intro e
      rw [e] at this
      dsimp only at this
      cases u
      · have := mem_span.mp hc; omega
      · have := List.mem_range.mp hc; omega
  · intro m x hx
    rcases List.mem_append.mp hx with h | h
    · obtain ⟨c, _, hxc⟩ := List.mem_flatMap.mp h
      rcases List.mem_cons.mp hxc with rfl | h
      · rfl
      · split at h
        · rw [List.mem_singleton] at h; rw [h]
        · simp at h
    · rw [List.mem_singleton] at h; rw [h]

/-- Kernel calls of `plasma_pzlansy` and `plasma_pzlanhe` (compute/pzlansy.c:27-172, pzlanhe.c:27-172). -/
noncomputable def lansyBlk (lsq : ℝ × ℝ → List 𝕜 → ℝ × ℝ) (junk : Nat → ℝ) (k : NormK) (u : Uplo) (herm : Bool) (D : Desc)
    (t : Nat × Nat × Bool) : Blk 𝕜 :=
  if t.1 = t.2.1 then
    match k with
    | .max => cellB t.1 t.1 t.1 t.1 (lansyMax u herm (D.mview t.1))
    | .one | .inf => vecB t.1 t.1 t.1 (t.1 * D.nb) (D.mview t.1) fun a => lansyAux u herm (D.mview t.1) a junk
    | .fro => pairB t.1 t.1 t.1 t.1 D.nt (syssq lsq u herm (D.mview t.1))
  else
    match k with
    | .max => cellB t.1 t.2.1 t.1 t.2.1 (langeMax (D.mview t.1) (D.nview t.2.1))
    | .one | .inf =>
      if t.2.2 then
        vecB t.1 t.2.1 t.2.1 (t.1 * D.nb) (D.mview t.1) fun a => langeAuxInf (D.mview t.1) (D.nview t.2.1) a junk
      else
        vecB t.1 t.2.1 t.1 (t.2.1 * D.nb) (D.nview t.2.1) fun a => langeAuxOne (D.mview t.1) (D.nview t.2.1) a junk
    | .fro =>
      match u with
      | .lower => pairB t.1 t.2.1 t.1 t.2.1 D.nt (gessq lsq (D.mview t.1) (D.nview t.2.1))
      | .upper => pairB t.1 t.2.1 t.2.1 t.1 D.nt (gessq lsq (D.mview t.1) (D.nview t.2.1))

/-- The reduction of `plasma_pzlansy`, `plasma_pzlanhe` (compute/pzlansy.c:73-78, 124-130, 165-170). -/
noncomputable def lansyRed (k : NormK) (u : Uplo) (D : Desc) (w : Nat → Nat → ℝ) : ℝ :=
  match k with
  | .max => maxOf (triPos u D.nt D.nt) fun p q => |w p q|
  | .one | .inf => infNorm D.n D.mt w
  | .fro => syssqAux D.mt D.nt (scl D w) (smq D w)

/-- Tasks of `plasma_zlansy` (`herm = false`) and `plasma_zlanhe` (`herm = true`) for valid arguments
(compute/zlansy.c:81-180, zlanhe.c:79-178). -/
noncomputable def zlansy (lsq : ℝ × ℝ → List 𝕜 → ℝ × ℝ) (junk : Nat → ℝ) (k : NormK) (u : Uplo) (herm : Bool)
    (nb n : Nat) : List (GTTask (Buf × Nat × Nat) 𝕜) :=
  if n = 0 then
    normDrv nb n n (nmWork k (gD nb n n)) (1, 1) ([] : List (Nat × Nat × Bool)) (lansyBlk lsq junk k u herm (gD nb n n))
      (fun r c => r = 0 ∧ c = 0) (fun _ _ _ => 0)
  else
    normDrv nb n n (nmWork k (gD nb n n)) (1, 1) (syTiles k u (gD nb n n).mt)
      (lansyBlk lsq junk k u herm (gD nb n n)) (fun r c => r = 0 ∧ c = 0) (fun w _ _ => lansyRed k u (gD nb n n) w)

theorem lansyBlk_mn {lsq : ℝ × ℝ → List 𝕜 → ℝ × ℝ} {junk : Nat → ℝ} {k : NormK} {u : Uplo} {herm : Bool} {D : Desc}
    {m n : Nat} {b : Bool} :
    (lansyBlk lsq junk k u herm D (m, n, b)).m = m ∧ (lansyBlk lsq junk k u herm D (m, n, b)).n = n := by
  unfold lansyBlk
  dsimp only
  split
  · rename_i h; subst h; cases k <;> exact ⟨rfl, rfl⟩
  · cases k <;> cases u <;> cases b <;> exact ⟨rfl, rfl⟩

/-- The part of the work array written by each call. -/
theorem lansyBlk_R {lsq : ℝ × ℝ → List 𝕜 → ℝ × ℝ} {junk : Nat → ℝ} {k : NormK} {u : Uplo} {herm : Bool} {nb N : Nat}
    (hnb : 0 < nb) {m n : Nat} {b : Bool} (hm : m < (gD nb N N).mt) (hn : n < (gD nb N N).nt) {r c : Nat} :
    (lansyBlk lsq junk k u herm (gD nb N N) (m, n, b)).R r c ↔
      match k with
      | .max => r = m ∧ c = n
      | .one | .inf => if b ∧ m ≠ n then c = n ∧ m * nb ≤ r ∧ r < m * nb + tdim N nb m
          else c = m ∧ n * nb ≤ r ∧ r < n * nb + tdim N nb n
      | .fro => (u = .lower ∧ r = m ∧ (c = n ∨ c = (gD nb N N).nt + n)) ∨
          (u = .upper ∧ r = n ∧ (c = m ∨ c = (gD nb N N).nt + m)) := by
  have e1 := gD_mv hnb hm
  have e2 := gD_nv hnb hn
  unfold lansyBlk
  dsimp only
  split
  · rename_i h; subst h
    cases k
    · exact Iff.rfl
    · dsimp only
      rw [if_neg (by simp)]
      show (c = m ∧ m * nb ≤ r ∧ r < m * nb + (gD nb N N).mview m) ↔ _
      rw [e1]
    · dsimp only
      rw [if_neg (by simp)]
      show (c = m ∧ m * nb ≤ r ∧ r < m * nb + (gD nb N N).mview m) ↔ _
      rw [e1]
    · show (r = m ∧ (c = m ∨ c = (gD nb N N).nt + m)) ↔ _
      cases u <;> simp
  · rename_i h
    cases k
    · exact Iff.rfl
    · dsimp only
      cases b
      · rw [if_neg (by simp), if_neg (by simp)]
        show (c = m ∧ n * nb ≤ r ∧ r < n * nb + (gD nb N N).nview n) ↔ _
        rw [e2]
      · rw [if_pos rfl, if_pos ⟨rfl, h⟩]
        show (c = n ∧ m * nb ≤ r ∧ r < m * nb + (gD nb N N).mview m) ↔ _
        rw [e1]
    · dsimp only
      cases b
      · rw [if_neg (by simp), if_neg (by simp)]
        show (c = m ∧ n * nb ≤ r ∧ r < n * nb + (gD nb N N).nview n) ↔ _
        rw [e2]
      · rw [if_pos rfl, if_pos ⟨rfl, h⟩]
        show (c = n ∧ m * nb ≤ r ∧ r < m * nb + (gD nb N N).mview m) ↔ _
        rw [e1]
    · cases u
      · simp only [reduceCtorEq, false_and, true_and, false_or]
        exact Iff.rfl
      · simp only [reduceCtorEq, false_and, true_and, or_false]
        exact Iff.rfl

theorem inTri_anti {u : Uplo} {m n : Nat} (h : inTri u m n) (h' : inTri u n m) : m = n := by
  cases u <;> simp only [inTri] at h h' <;> omega

theorem inTri_total {u : Uplo} (m n : Nat) : inTri u m n ∨ inTri u n m := by
  cases u <;> simp only [inTri] <;> omega

theorem lansyBlk_ok {lsq : ℝ × ℝ → List 𝕜 → ℝ × ℝ} {junk : Nat → ℝ} {k : NormK} {u : Uplo} {herm : Bool} {nb N : Nat}
    (hnb : 0 < nb) (v : Nat × Nat) {L : List (Nat × Nat × Bool)} (hLn : L.Nodup)
    (hL : ∀ m n b, (m, n, b) ∈ L → m < (gD nb N N).mt ∧ n < (gD nb N N).mt ∧ inTri u m n ∧
      (b = true → (k = .one ∨ k = .inf) ∧ m ≠ n)) :
    BlkOK (tMat nb (nmDims N N (nmWork k (gD nb N N)) v) 0) (uMat nb (nmDims N N (nmWork k (gD nb N N)) v) 1)
      L (lansyBlk (𝕜 := 𝕜) lsq junk k u herm (gD nb N N)) := by
  have hmt := gD_mt (m := N) (n := N) hnb
  have hnt := gD_nt (m := N) (n := N) hnb
  have hmn : (gD nb N N).nt = (gD nb N N).mt := hnt.trans hmt.symm
  refine ⟨hLn, ?_, ?_, ?_, ?_⟩
  · rintro ⟨m, n, b⟩ ht
    obtain ⟨h1, h2, -⟩ := hL m n b ht
    rw [lansyBlk_mn.1, lansyBlk_mn.2]
    exact ⟨h1, hmn ▸ h2⟩
  · rintro ⟨m, n, b⟩ ht a a' haa r c hR
    obtain ⟨h1, h2, h3, h4⟩ := hL m n b ht
    rw [lansyBlk_mn.1, lansyBlk_mn.2] at haa
    rw [lansyBlk_R hnb h1 (hmn ▸ h2)] at hR
    have e1 := gD_mv hnb h1
    have e2 := gD_nv hnb (hmn.symm ▸ h2 : n < (gD nb N N).nt)
    have p1 := tdim_pos (m := N) hnb (by rw [← hmt]; exact h1)
    have p2 := tdim_pos (m := N) hnb (by rw [← hmt]; exact h2)
    have haa1 : Agree ((gD nb N N).mview m) ((gD nb N N).nview n) a a' := haa
    rw [e1, e2] at haa1
    unfold lansyBlk
    dsimp only
    split
    · rename_i e
      subst e
      have aux : k = .one ∨ k = .inf → lansyAux u herm ((gD nb N N).mview m) a junk (r - m * nb) =
          lansyAux u herm ((gD nb N N).mview m) a' junk (r - m * nb) := by
        intro hk
        rw [e1]
        refine lansyAux_congr haa1 ?_
        have : r < m * nb + tdim N nb m := by
          rcases hk with rfl | rfl
          · dsimp only at hR; rw [if_neg (by simp)] at hR; exact hR.2.2
          · dsimp only at hR; rw [if_neg (by simp)] at hR; exact hR.2.2
        omega
      cases k
      · show lansyMax u herm ((gD nb N N).mview m) a = lansyMax u herm ((gD nb N N).mview m) a'
        rw [e1]; exact lansyMax_congr haa1
      · exact aux (Or.inl rfl)
      · exact aux (Or.inr rfl)
      · show (if c = m then (syssq lsq u herm ((gD nb N N).mview m) a).1 else (syssq lsq u herm ((gD nb N N).mview m) a).2) = _
        rw [e1, syssq_congr haa1, ← e1]
        rfl
    · rename_i e
      have aux : (k = .one ∨ k = .inf) → (if b = true then
            vecB m n n (m * nb) ((gD nb N N).mview m) fun a =>
              langeAuxInf ((gD nb N N).mview m) ((gD nb N N).nview n) a junk
          else vecB m n m (n * nb) ((gD nb N N).nview n) fun a =>
              langeAuxOne ((gD nb N N).mview m) ((gD nb N N).nview n) a junk).g a r c =
          (if b = true then
            vecB m n n (m * nb) ((gD nb N N).mview m) fun a =>
              langeAuxInf ((gD nb N N).mview m) ((gD nb N N).nview n) a junk
          else vecB m n m (n * nb) ((gD nb N N).nview n) fun a =>
              langeAuxOne ((gD nb N N).mview m) ((gD nb N N).nview n) a junk).g a' r c := by
        intro hk
        cases b
        · rw [if_neg (by simp)]
          show langeAuxOne _ _ a junk (r - n * nb) = langeAuxOne _ _ a' junk (r - n * nb)
          rw [e1, e2]
          refine langeAuxOne_congr p1 haa1 ?_
          have : r < n * nb + tdim N nb n := by
            rcases hk with rfl | rfl
            · dsimp only at hR; rw [if_neg (by simp)] at hR; exact hR.2.2
            · dsimp only at hR; rw [if_neg (by simp)] at hR; exact hR.2.2
          omega
        · rw [if_pos rfl]
          show langeAuxInf _ _ a junk (r - m * nb) = langeAuxInf _ _ a' junk (r - m * nb)
          rw [e1, e2]
          refine langeAuxInf_congr haa1 ?_
          have : r < m * nb + tdim N nb m := by
            rcases hk with rfl | rfl
            · dsimp only at hR; rw [if_pos ⟨rfl, e⟩] at hR; exact hR.2.2
            · dsimp only at hR; rw [if_pos ⟨rfl, e⟩] at hR; exact hR.2.2
          omega
      cases k
      · show langeMax ((gD nb N N).mview m) ((gD nb N N).nview n) a = langeMax ((gD nb N N).mview m) ((gD nb N N).nview n) a'
        rw [e1, e2]; exact langeMax_congr haa1
      · exact aux (Or.inl rfl)
      · exact aux (Or.inr rfl)
      · have := gessq_congr (lsq := lsq) haa1
        rw [← e1, ← e2] at this
        cases u
        · show (if c = m then _ else _) = (if c = m then _ else _)
          rw [this]
        · show (if c = n then _ else _) = (if c = n then _ else _)
          rw [this]
  · rintro ⟨m, n, b⟩ ht r c hR
    obtain ⟨h1, h2, h3, h4⟩ := hL m n b ht
    rw [lansyBlk_R hnb h1 (hmn ▸ h2)] at hR
    have key : ∀ x, x < (gD nb N N).mt → r < x * nb + tdim N nb x → r < N := by
      intro x hx h
      have := (lt_ceilDiv (m := N) hnb).mp (by rw [← hmt]; exact hx)
      unfold tdim at h; omega
    cases k
    · exact ⟨hR.1 ▸ h1, by rw [hR.2]; show n < (gD nb N N).nt; exact hmn ▸ h2⟩
    · dsimp only at hR
      split at hR
      · exact ⟨key m h1 hR.2.2, hR.1 ▸ h2⟩
      · exact ⟨key n h2 hR.2.2, hR.1 ▸ h1⟩
    · dsimp only at hR
      split at hR
      · exact ⟨key m h1 hR.2.2, by rw [hR.1]; show n < (gD nb N N).nt; exact hmn ▸ h2⟩
      · exact ⟨key n h2 hR.2.2, by rw [hR.1]; show m < (gD nb N N).nt; exact hmn ▸ h1⟩
    · show r < (gD nb N N).mt ∧ c < 2 * (gD nb N N).nt
      rw [hmn]
      rw [hmn] at hR
      omega
  · rintro ⟨m, n, b⟩ ht ⟨m', n', b'⟩ ht' r c hR hR'
    obtain ⟨h1, h2, h3, h4⟩ := hL m n b ht
    obtain ⟨h1', h2', h3', h4'⟩ := hL m' n' b' ht'
    rw [lansyBlk_R hnb h1 (hmn ▸ h2)] at hR
    rw [lansyBlk_R hnb h1' (hmn ▸ h2')] at hR'
    have hb : ¬ (k = .one ∨ k = .inf) → b = b' := by
      intro hk
      cases b <;> cases b' <;> simp_all
    have aux : ((if b ∧ m ≠ n then c = n ∧ m * nb ≤ r ∧ r < m * nb + tdim N nb m
          else c = m ∧ n * nb ≤ r ∧ r < n * nb + tdim N nb n)) →
        (if b' ∧ m' ≠ n' then c = n' ∧ m' * nb ≤ r ∧ r < m' * nb + tdim N nb m'
          else c = m' ∧ n' * nb ≤ r ∧ r < n' * nb + tdim N nb n') → (m, n, b) = (m', n', b') := by
      intro hR hR'
      split at hR <;> split at hR'
      · rename_i g g'
        have := blk_row hR.2 hR'.2
        rw [this, hR.1.symm.trans hR'.1, g.1, g'.1]
      · rename_i g g'
        have e1 := blk_row hR.2 hR'.2
        have e2 := hR.1.symm.trans hR'.1
        subst e1 e2
        exact absurd (inTri_anti h3 h3') g.2
      · rename_i g g'
        have e1 := blk_row hR.2 hR'.2
        have e2 := hR.1.symm.trans hR'.1
        subst e1 e2
        exact absurd (inTri_anti h3 h3') (fun e => g'.2 e.symm)
      · rename_i g g'
        have e1 := blk_row hR.2 hR'.2
        have e2 := hR.1.symm.trans hR'.1
        subst e1 e2
        have : b = b' := by
          cases b <;> cases b'
          · rfl
          · exact absurd ⟨rfl, (h4' rfl).2⟩ g'
          · exact absurd ⟨rfl, (h4 rfl).2⟩ g
          · rfl
        rw [this]
    cases k
    · rw [hR.1.symm.trans hR'.1, hR.2.symm.trans hR'.2, hb (by simp)]
    · exact aux hR hR'
    · exact aux hR hR'
    · dsimp only at hR hR'
      have : m = m' ∧ n = n' := by
        rw [hmn] at hR hR'
        cases u
        · simp only [reduceCtorEq, false_and, true_and, false_or] at hR hR'
          omega
        · simp only [reduceCtorEq, false_and, true_and, or_false] at hR hR'
          omega
      rw [this.1, this.2, hb (by simp)]

theorem syssqAux_congr {M K : Nat} {s s' q q' : Nat → ℝ} (h : ∀ i < M * K, s i = s' i ∧ q i = q' i) (hK : K ≤ M) :
    syssqAux M K s q = syssqAux M K s' q' := by
  have hlt : ∀ i j, i < K → j < K → M * j + i < M * K := by
    intro i j hi hj
    have := Nat.mul_le_mul_left M (show j + 1 ≤ K from hj)
    rw [Nat.mul_add] at this
    omega
  unfold syssqAux
  dsimp only
  have e1 : ∀ p, (List.range K).foldl (fun p j => (span (j + 1) K).foldl
      (fun p i => ssqJoin p (s (M * j + i), q (M * j + i))) p) p = (List.range K).foldl (fun p j => (span (j + 1) K).foldl
      (fun p i => ssqJoin p (s' (M * j + i), q' (M * j + i))) p) p := by
    intro p
    refine List.foldl_ext _ _ _ fun p j hj => List.foldl_ext _ _ _ fun p i hi => ?_
    obtain ⟨h1, h2⟩ := h _ (hlt i j (mem_span.mp hi).2 (List.mem_range.mp hj))
    rw [h1, h2]
  have e2 : ∀ p, (List.range K).foldl (fun p j => ssqJoin p (s (M * j + j), q (M * j + j))) p =
      (List.range K).foldl (fun p j => ssqJoin p (s' (M * j + j), q' (M * j + j))) p := by
    intro p
    refine List.foldl_ext _ _ _ fun p j hj => ?_
    obtain ⟨h1, h2⟩ := h _ (hlt j j (List.mem_range.mp hj) (List.mem_range.mp hj))
    rw [h1, h2]
  rw [e1, e2]

theorem lansyRed_congr {k : NormK} {u : Uplo} {nb N : Nat} (hnb : 0 < nb) {w w' : Nat → Nat → ℝ}
    (h : ∀ r c, r < (nmWork k (gD nb N N)).1 → c < (nmWork k (gD nb N N)).2 → w r c = w' r c) :
    lansyRed k u (gD nb N N) w = lansyRed k u (gD nb N N) w' := by
  have hmn : (gD nb N N).nt = (gD nb N N).mt := (gD_nt hnb).trans (gD_mt hnb).symm
  cases k
  · exact maxOf_congr (w := fun p q => |w p q|) (w' := fun p q => |w' p q|) fun p hp => by
      obtain ⟨⟨h1, h2⟩, -⟩ := mem_triPos.mp hp
      rw [h p.1 p.2 (show p.1 < (gD nb N N).mt from hmn ▸ h1) h2]
  · exact infNorm_congr fun i hi k hk => h _ _ hi hk
  · exact infNorm_congr fun i hi k hk => h _ _ hi (by show k < (gD nb N N).nt; rw [hmn]; exact hk)
  · exact syssqAux_congr (fun i hi => scl_congr h hi) (le_of_eq hmn)

theorem symA_shift {u : Uplo} {herm : Bool} {b p i j : Nat} {X : Nat → Nat → 𝕜} :
    symA u herm X (p * b + i) (p * b + j) = symA u herm (tileOf b X p p) i j := by
  unfold symA
  cases u
  · rw [symE_upper, symE_upper]
    simp only [Nat.add_left_cancel_iff, Nat.add_le_add_iff_left]
    rfl
  · rw [symE_lower, symE_lower]
    simp only [Nat.add_left_cancel_iff, Nat.add_le_add_iff_left]
    rfl

theorem symA_comm {u : Uplo} {herm : Bool} {X : Nat → Nat → 𝕜} {i j : Nat} : symA u herm X i j = symA u herm X j i :=
  symE_comm _ _ _ _ _

theorem symA_in {u : Uplo} {herm : Bool} {b p q i j : Nat} {X : Nat → Nat → 𝕜} (hpq : p ≠ q) (hi : i < b) (hj : j < b)
    (h : inTri u p q) : symA u herm X (p * b + i) (q * b + j) = ‖X (p * b + i) (q * b + j)‖ := by
  obtain ⟨h1, h2⟩ := inTri_tile (u := u) hpq hi hj
  unfold symA Norm.symE
  rw [if_neg h2, if_pos (h1.mpr h)]

/-- **C27.** Every execution of `plasma_zlansy` and `plasma_zlanhe` returns the norm of the full symmetric or
Hermitian matrix whose upper or lower triangle is stored in the array of the caller. -/
theorem C27_lansy {nb : Nat} (hnb : 0 < nb) {lsq : ℝ × ℝ → List 𝕜 → ℝ × ℝ} (hlsq : IsLassq lsq) (junk : Nat → ℝ)
    (k : NormK) (u : Uplo) (herm : Bool) (n lda : Nat) (hl : n ≤ lda) (mem mem' : Buf × Nat → 𝕜) (st : Int)
    (hx : GExec (drvEnvK nb (nmDims n n (nmWork k (gD nb n n)) (1, 1)) (nmLd lda (nmWork k (gD nb n n)) (1, 1))
      (fun _ => none)) (zlansy lsq junk k u herm nb n) mem mem' st) :
    Returns mem mem' st fun x => (n = 0 → x = 0) ∧
      (0 < n → NormOf k n n (symA u herm (arr mem 0 lda)) x) := by
  have hmt := gD_mt (m := n) (n := n) hnb
  have hnt := gD_nt (m := n) (n := n) hnb
  have hmn : (gD nb n n).nt = (gD nb n n).mt := hnt.trans hmt.symm
  unfold zlansy at hx
  split at hx
  · rename_i h0
    refine returns_of hnb hl (lansyBlk_ok hnb (1, 1) (L := []) (by simp) (by simp)) (red := fun _ => 0)
      (fun _ _ _ => rfl) (fun a _ _ => ⟨fun _ => rfl, fun h => by omega⟩) hx
  · rename_i h0
    refine returns_of hnb hl (lansyBlk_ok hnb (1, 1) (L := syTiles k u (gD nb n n).mt) nodup_syTiles
      fun p q b hp => mem_syTiles.mp hp) (red := fun w => lansyRed k u (gD nb n n) w)
      (fun a a' h => lansyRed_congr hnb h) ?_ hx
    intro a ha _
    refine ⟨fun h => absurd h h0, fun hn => ?_⟩
    have hF : ∀ r c, 0 ≤ symA u herm (arr mem 0 lda) r c := fun r c => symA_nonneg
    have hg : ∀ p q b r c, p < (gD nb n n).mt → q < (gD nb n n).mt → inTri u p q →
        (b = true → (k = .one ∨ k = .inf) ∧ p ≠ q) →
        (lansyBlk lsq junk k u herm (gD nb n n) (p, q, b)).R r c →
        a r c = (lansyBlk lsq junk k u herm (gD nb n n) (p, q, b)).g (tileOf nb (arr mem 0 lda) p q) r c := by
      intro p q b r c hp hq hpq hb hR
      have := ha (p, q, b) (mem_syTiles.mpr ⟨hp, hq, hpq, hb⟩) r c hR
      rwa [lansyBlk_mn.1, lansyBlk_mn.2] at this
    set X := arr mem 0 lda with hX
    have row : k = .one ∨ k = .inf → ∀ c < n, ∀ p < ceilDiv n nb,
        a c p = ∑ i ∈ range (tdim n nb p), symA u herm X (p * nb + i) c := by
      intro hk c hc p hp
      obtain ⟨c1, c2, c3, c4⟩ := row_split hnb hc
      rw [← hmt] at hp c1
      have e1 := gD_mv (n := n) hnb hp
      have e1' := gD_mv (n := n) hnb c1
      have e2 := gD_nv (m := n) hnb (hmn.symm ▸ c1 : c / nb < (gD nb n n).nt)
      have e2' := gD_nv (m := n) hnb (hmn.symm ▸ hp : p < (gD nb n n).nt)
      have p1 := tdim_pos (m := n) hnb (by rw [← hmt]; exact hp)
      have ec : c / nb * nb + c % nb = c := by rw [Nat.mul_comm]; exact Nat.div_add_mod c nb
      have hcb := Nat.mod_lt c hnb
      have hct : c % nb < tdim n nb (c / nb) := by omega
      by_cases e : p = c / nb
      · have hv : a c p = lansyAux u herm ((gD nb n n).mview p) (tileOf nb X p p) junk (c - p * nb) := by
          have := hg p p false c p hp hp inTri_self (by simp) (by
            rw [lansyBlk_R hnb hp (hmn ▸ hp)]
            rcases hk with rfl | rfl
            · dsimp only; rw [if_neg (by simp)]; rw [e]; exact ⟨rfl, c2, c3⟩
            · dsimp only; rw [if_neg (by simp)]; rw [e]; exact ⟨rfl, c2, c3⟩)
          rw [this]
          unfold lansyBlk
          dsimp only
          rw [if_pos rfl]
          rcases hk with rfl | rfl <;> rfl
        rw [hv, e1, e, c4, lansyAux_eq hct]
        refine Finset.sum_congr rfl fun i _ => ?_
        rw [symA_comm (i := c / nb * nb + i)]
        have := symA_shift (u := u) (herm := herm) (b := nb) (p := c / nb) (i := c % nb) (j := i) (X := X)
        rw [ec] at this
        exact this.symm
      · by_cases hpq : inTri u p (c / nb)
        · have hv : a c p = langeAuxOne ((gD nb n n).mview p) ((gD nb n n).nview (c / nb)) (tileOf nb X p (c / nb)) junk
              (c - c / nb * nb) := by
            have := hg p (c / nb) false c p hp c1 hpq (by simp) (by
              rw [lansyBlk_R hnb hp (hmn ▸ c1)]
              rcases hk with rfl | rfl
              · dsimp only; rw [if_neg (by simp)]; exact ⟨rfl, c2, c3⟩
              · dsimp only; rw [if_neg (by simp)]; exact ⟨rfl, c2, c3⟩)
            rw [this]
            unfold lansyBlk
            dsimp only
            rw [if_neg e]
            rcases hk with rfl | rfl
            · dsimp only; rw [if_neg (by simp)]; rfl
            · dsimp only; rw [if_neg (by simp)]; rfl
          rw [hv, e1, e2, c4, langeAuxOne_eq p1 hct]
          refine Finset.sum_congr rfl fun i hi => ?_
          have := symA_in (herm := herm) (X := X) e (lt_of_lt_of_le (mem_range.mp hi) tdim_le) hcb hpq
          rw [ec] at this
          rw [this]
          show ‖X (p * nb + i) (c / nb * nb + c % nb)‖ = _
          rw [ec]
        · have hqp : inTri u (c / nb) p := (inTri_total (u := u) p (c / nb)).resolve_left hpq
          have e' : c / nb ≠ p := fun h => e h.symm
          have hv : a c p = langeAuxInf ((gD nb n n).mview (c / nb)) ((gD nb n n).nview p) (tileOf nb X (c / nb) p) junk
              (c - c / nb * nb) := by
            have := hg (c / nb) p true c p c1 hp hqp (fun _ => ⟨hk, e'⟩) (by
              rw [lansyBlk_R hnb c1 (hmn ▸ hp)]
              rcases hk with rfl | rfl
              · dsimp only; rw [if_pos ⟨rfl, e'⟩]; exact ⟨rfl, c2, c3⟩
              · dsimp only; rw [if_pos ⟨rfl, e'⟩]; exact ⟨rfl, c2, c3⟩)
            rw [this]
            unfold lansyBlk
            dsimp only
            rw [if_neg e']
            rcases hk with rfl | rfl
            · dsimp only; rw [if_pos rfl]; rfl
            · dsimp only; rw [if_pos rfl]; rfl
          rw [hv, e1', e2', c4, langeAuxInf_eq hct]
          refine Finset.sum_congr rfl fun i hi => ?_
          have := symA_in (herm := herm) (X := X) e' hcb (lt_of_lt_of_le (mem_range.mp hi) tdim_le) hqp
          rw [ec] at this
          rw [symA_comm, this]
          show ‖X (c / nb * nb + c % nb) (p * nb + i)‖ = _
          rw [ec]
    cases k
    · refine normOf_max hn hn hF fun x => ?_
      rw [show lansyRed .max u (gD nb n n) a = maxOf (triPos u (gD nb n n).nt (gD nb n n).nt) (fun p q => |a p q|) from rfl]
      rw [maxOf_le, ← tiles_forall hnb (P := fun r c => symA u herm X r c ≤ x)]
      have dval : ∀ p < (gD nb n n).mt, |a p p| ≤ x ↔ 0 ≤ x ∧ ∀ i < tdim n nb p, ∀ j < tdim n nb p,
          symA u herm X (p * nb + i) (p * nb + j) ≤ x := by
        intro p hp
        rw [hg p p false p p hp hp inTri_self (by simp) (by rw [lansyBlk_R hnb hp (hmn ▸ hp)]; exact ⟨rfl, rfl⟩)]
        unfold lansyBlk
        dsimp only
        rw [if_pos rfl]
        show |lansyMax u herm ((gD nb n n).mview p) _| ≤ x ↔ _
        rw [gD_mv hnb hp, abs_of_nonneg (show 0 ≤ lansyMax _ _ _ _ from maxOf_nonneg _ _), lansyMax_le]
        simp only [symA_shift]
      have oval : ∀ p < (gD nb n n).mt, ∀ q < (gD nb n n).mt, inTri u p q → p ≠ q →
          (|a p q| ≤ x ↔ 0 ≤ x ∧ ∀ i < tdim n nb p, ∀ j < tdim n nb q,
          symA u herm X (p * nb + i) (q * nb + j) ≤ x) := by
        intro p hp q hq hpq e
        rw [hg p q false p q hp hq hpq (by simp) (by rw [lansyBlk_R hnb hp (hmn ▸ hq)]; exact ⟨rfl, rfl⟩)]
        unfold lansyBlk
        dsimp only
        rw [if_neg e]
        show |langeMax ((gD nb n n).mview p) ((gD nb n n).nview q) _| ≤ x ↔ _
        rw [gD_mv hnb hp, gD_nv hnb (hmn ▸ hq), abs_of_nonneg (show 0 ≤ langeMax _ _ _ from maxOf_nonneg _ _), langeMax_le]
        refine and_congr_right fun _ => forall_congr' fun i => imp_congr_right fun hi => forall_congr' fun j =>
          imp_congr_right fun hj => ?_
        rw [symA_in e (lt_of_lt_of_le hi tdim_le) (lt_of_lt_of_le hj tdim_le) hpq]
        rfl
      rw [hmn]
      refine and_congr_right fun hx0 => ⟨fun h p hp q hq i hi j hj => ?_, fun h p hp => ?_⟩
      · rw [← hmt] at hp hq
        rcases inTri_total (u := u) p q with hpq | hqp
        · have h1 := h (p, q) (mem_triPos.mpr ⟨⟨hp, hq⟩, hpq⟩)
          by_cases e : p = q
          · subst e; exact ((dval p hp).mp h1).2 i hi j hj
          · exact ((oval p hp q hq hpq e).mp h1).2 i hi j hj
        · have h1 := h (q, p) (mem_triPos.mpr ⟨⟨hq, hp⟩, hqp⟩)
          rw [symA_comm]
          by_cases e : q = p
          · subst e; exact ((dval q hp).mp h1).2 j hj i hi
          · exact ((oval q hq p hp hqp e).mp h1).2 j hj i hi
      · obtain ⟨p, q⟩ := p
        obtain ⟨⟨hp', hq⟩, hpq⟩ := mem_triPos.mp hp
        clear hp
        rename' hp' => hp
        dsimp only at hp hq hpq ⊢
        by_cases e : p = q
        · subst e
          exact (dval p hp).mpr ⟨hx0, fun i hi j hj => h p (hmt ▸ hp) p (hmt ▸ hp) i hi j hj⟩
        · exact (oval p hp q hq hpq e).mpr ⟨hx0, fun i hi j hj => h p (hmt ▸ hp) q (hmt ▸ hq) i hi j hj⟩
    · refine normOf_one hn hF ?_
      show ∀ x, infNorm n (gD nb n n).mt a ≤ x ↔ _
      rw [hmt]
      exact one_tiles hnb hF (row (Or.inl rfl))
    · refine normOf_inf hn hF ?_
      show ∀ x, infNorm n (gD nb n n).mt a ≤ x ↔ _
      rw [hmt]
      refine one_tiles (E := fun c r => symA u herm X r c) hnb (fun r c => hF c r) ?_
      intro c hc p hp
      rw [row (Or.inr rfl) c hc p hp]
      exact Finset.sum_congr rfl fun i _ => symA_comm
    · show syssqAux (gD nb n n).mt (gD nb n n).nt _ _ = _
      set T : Nat → Nat → ℝ := fun i j => ∑ jj ∈ range (tdim n nb j), ∑ ii ∈ range (tdim n nb i),
        symA u herm X (i * nb + ii) (j * nb + jj) ^ 2 with hT
      have hTc : ∀ i j, T i j = T j i := by
        intro i j
        rw [hT]
        dsimp only
        rw [Finset.sum_comm]
        exact Finset.sum_congr rfl fun ii _ => Finset.sum_congr rfl fun jj _ => by rw [symA_comm]
      have hmt0 : 0 < (gD nb n n).mt := by rw [hmt]; exact (lt_ceilDiv hnb).mpr (by omega)
      rw [hmn, syssqAux_eq (t := T), ← sum_symm hTc, hmt]
      · rw [hT, sum_tiles2 hnb (fun r c => symA u herm X r c ^ 2)]
      · intro j hj i hi hji
        rw [smq_eq hmt0]
        unfold scl
        rw [Nat.mul_add_mod, Nat.mod_eq_of_lt hi, Nat.mul_add_div hmt0, Nat.div_eq_of_lt hi, Nat.add_zero]
        by_cases e : i = j
        · subst e
          have s1 := hg i i false i i hi hi inTri_self (by simp)
            (by rw [lansyBlk_R hnb hi (hmn ▸ hi)]; cases u <;> simp)
          have s2 := hg i i false i ((gD nb n n).nt + i) hi hi inTri_self (by simp)
            (by rw [lansyBlk_R hnb hi (hmn ▸ hi)]; cases u <;> simp)
          rw [s1, s2]
          unfold lansyBlk
          dsimp only
          rw [if_pos rfl]
          show Ssq ((if _ then _ else _), (if _ then _ else _)) _
          rw [if_pos rfl, if_neg (by show ¬ _ = _; omega)]
          show Ssq (syssq lsq u herm ((gD nb n n).mview i) _) _
          rw [gD_mv hnb hi, hT]
          simp only [symA_shift]
          exact syssq_eq hlsq
        · cases u
          · have hpq : inTri .upper j i := hji
            have e' : j ≠ i := fun h => e h.symm
            have s1 := hg j i false i j hj hi hpq (by simp)
              (by rw [lansyBlk_R hnb hj (hmn ▸ hi)]; simp)
            have s2 := hg j i false i ((gD nb n n).nt + j) hj hi hpq (by simp)
              (by rw [lansyBlk_R hnb hj (hmn ▸ hi)]; simp)
            rw [s1, s2]
            unfold lansyBlk
            dsimp only
            rw [if_neg e']
            show Ssq ((if _ then _ else _), (if _ then _ else _)) _
            rw [if_pos rfl, if_neg (by show ¬ _ = _; omega)]
            show Ssq (gessq lsq ((gD nb n n).mview j) ((gD nb n n).nview i) _) _
            rw [gD_mv hnb hj, gD_nv hnb (hmn ▸ hi), hTc]
            have := gessq_eq hlsq (m := tdim n nb j) (n := tdim n nb i) (a := tileOf nb X j i)
            convert this using 1
            refine Finset.sum_congr rfl fun jj hjj => Finset.sum_congr rfl fun ii hii => ?_
            rw [symA_in e' (lt_of_lt_of_le (mem_range.mp hii) tdim_le) (lt_of_lt_of_le (mem_range.mp hjj) tdim_le) hpq]
            rfl
          · have hpq : inTri .lower i j := hji
            have s1 := hg i j false i j hi hj hpq (by simp)
              (by rw [lansyBlk_R hnb hi (hmn ▸ hj)]; simp)
            have s2 := hg i j false i ((gD nb n n).nt + j) hi hj hpq (by simp)
              (by rw [lansyBlk_R hnb hi (hmn ▸ hj)]; simp)
            rw [s1, s2]
            unfold lansyBlk
            dsimp only
            rw [if_neg e]
            show Ssq ((if _ then _ else _), (if _ then _ else _)) _
            rw [if_pos rfl, if_neg (by show ¬ _ = _; omega)]
            show Ssq (gessq lsq ((gD nb n n).mview i) ((gD nb n n).nview j) _) _
            rw [gD_mv hnb hi, gD_nv hnb (hmn ▸ hj)]
            have := gessq_eq hlsq (m := tdim n nb i) (n := tdim n nb j) (a := tileOf nb X i j)
            convert this using 1
            refine Finset.sum_congr rfl fun jj hjj => Finset.sum_congr rfl fun ii hii => ?_
            rw [symA_in e (lt_of_lt_of_le (mem_range.mp hii) tdim_le) (lt_of_lt_of_le (mem_range.mp hjj) tdim_le) hpq]
            rfl

/-! ### Largest entries of columns and rows -/

theorem amaxCol_congr {a a' : Tl 𝕜} {m n : Nat} {v : Nat → ℝ} (hm : 0 < m) (h : Agree m n a a') {k : Nat} (hk : k < n) :
    amaxCol (fun i j => cabs1 (a i j)) m n v k = amaxCol (fun i j => cabs1 (a' i j)) m n v k := by
  refine eq_of_forall_ge_iff fun x => ?_
  rw [amaxCol_le hm hk, amaxCol_le hm hk]
  exact forall_congr' fun i => imp_congr_right fun hi => by rw [h i k hi hk]

theorem amaxRow_congr {a a' : Tl 𝕜} {m n : Nat} {v : Nat → ℝ} (hn : 0 < n) (h : Agree m n a a') {k : Nat} (hk : k < m) :
    amaxRow (fun i j => cabs1 (a i j)) m n v k = amaxRow (fun i j => cabs1 (a' i j)) m n v k := by
  refine eq_of_forall_ge_iff fun x => ?_
  rw [amaxRow_le hn hk, amaxRow_le hn hk]
  exact forall_congr' fun i => imp_congr_right fun hi => by rw [h k i hk hi]

/-- Size of the work array (compute/dzamax.c:69-76): `.one` stands for `PlasmaColumnwise` (`cols = true`),
`.inf` for `PlasmaRowwise`. -/
def amaxK (cols : Bool) : NormK := if cols then .one else .inf

/-- Kernel calls of `plasma_pdzamax` (compute/pdzamax.c:37-48, 60-71). -/
noncomputable def amaxBlk (junk : Nat → ℝ) (cols : Bool) (D : Desc) (t : Nat × Nat) : Blk 𝕜 :=
  if cols then
    vecB t.1 t.2 t.1 (t.2 * D.nb) (D.nview t.2) fun a =>
      amaxCol (fun i j => cabs1 (a i j)) (D.mview t.1) (D.nview t.2) junk
  else
    vecB t.1 t.2 t.2 (t.1 * D.mb) (D.mview t.1) fun a =>
      amaxRow (fun i j => cabs1 (a i j)) (D.mview t.1) (D.nview t.2) junk

/-- The reduction of `plasma_pdzamax` (compute/pdzamax.c:49-54, 72-77): `damax` by rows of the work array. -/
noncomputable def amaxRed (junk : Nat → ℝ) (cols : Bool) (D : Desc) (w : Nat → Nat → ℝ) (r : Nat) : ℝ :=
  if cols then amaxRow (fun i j => |w i j|) D.n D.mt junk r else amaxRow (fun i j => |w i j|) D.m D.nt junk r

/-- Number of values returned. -/
def amaxLen (cols : Bool) (m n : Nat) : Nat := if cols then n else m

/-- Tasks of `plasma_dzamax` (compute/dzamax.c:21-110) for valid arguments; array 2 is `values`. -/
noncomputable def dzamax (junk : Nat → ℝ) (cols : Bool) (nb m n : Nat) : List (GTTask (Buf × Nat × Nat) 𝕜) :=
  if min n m = 0 then []
  else
    normDrv nb m n (nmWork (amaxK cols) (gD nb m n)) (amaxLen cols m n, 1) (geTiles (gD nb m n).mt (gD nb m n).nt)
      (amaxBlk junk cols (gD nb m n)) (fun r c => r < amaxLen cols m n ∧ c = 0) (fun w r _ => amaxRed junk cols (gD nb m n) w r)

theorem amaxBlk_ok {junk : Nat → ℝ} {cols : Bool} {nb m n : Nat} (hnb : 0 < nb) (v : Nat × Nat) :
    BlkOK (tMat nb (nmDims m n (nmWork (amaxK cols) (gD nb m n)) v) 0)
      (uMat nb (nmDims m n (nmWork (amaxK cols) (gD nb m n)) v) 1)
      (geTiles (gD nb m n).mt (gD nb m n).nt) (amaxBlk (𝕜 := 𝕜) junk cols (gD nb m n)) := by
  have hmt := gD_mt (m := m) (n := n) hnb
  have hnt := gD_nt (m := m) (n := n) hnb
  have h0 := langeBlk_ok (𝕜 := 𝕜) (lsq := fun p _ => p) (junk := junk) (k := amaxK cols) hnb v
    (L := geTiles (gD nb m n).mt (gD nb m n).nt) nodup_geTiles fun p hp => mem_geTiles.mp hp
  refine blkOK_reuse h0 (fun t _ => ?_) ?_
  · cases cols <;> exact ⟨rfl, rfl, rfl⟩
  · intro t ht a a' haa r c hR
    obtain ⟨h1, h2⟩ := mem_geTiles.mp ht
    have e1 := gD_mv hnb h1
    have e2 := gD_nv hnb h2
    have p1 := tdim_pos (m := m) hnb (by rw [← hmt]; exact h1)
    have p2 := tdim_pos (m := n) hnb (by rw [← hnt]; exact h2)
    unfold amaxBlk
    cases cols
    · rw [if_neg (by simp)]
      have haa' : Agree ((gD nb m n).mview t.1) ((gD nb m n).nview t.2) a a' := haa
      obtain ⟨-, -, hr⟩ : c = t.2 ∧ t.1 * nb ≤ r ∧ r < t.1 * nb + (gD nb m n).mview t.1 := hR
      refine amaxRow_congr (k := r - t.1 * nb) (by rw [e2]; exact p2) haa' ?_
      rw [e1] at hr ⊢; omega
    · rw [if_pos rfl]
      have haa' : Agree ((gD nb m n).mview t.1) ((gD nb m n).nview t.2) a a' := haa
      obtain ⟨-, -, hr⟩ : c = t.1 ∧ t.2 * nb ≤ r ∧ r < t.2 * nb + (gD nb m n).nview t.2 := hR
      refine amaxCol_congr (k := r - t.2 * nb) (by rw [e1]; exact p1) haa' ?_
      rw [e2] at hr ⊢; omega

theorem greatest_range1 {n : Nat} (hn : 0 < n) {f : Nat → ℝ} {v : ℝ}
    (h : ∀ x, v ≤ x ↔ ∀ c < n, f c ≤ x) : IsGreatest {x | ∃ c, c < n ∧ x = f c} v := by
  refine ⟨?_, ?_⟩
  · obtain ⟨c, hc, hmax⟩ := Finset.exists_max_image (range n) f ⟨0, by simpa using hn⟩
    refine ⟨c, mem_range.mp hc, le_antisymm ?_ ?_⟩
    · exact (h _).mpr fun c' hc' => hmax c' (mem_range.mpr hc')
    · exact (h v).mp le_rfl c (mem_range.mp hc)
  · rintro x ⟨c, hc, rfl⟩
    exact (h v).mp le_rfl c hc

/-- **C29.** Every execution of `plasma_dzamax` on a nonempty matrix stores in `values` the largest `|re| + |im|`
of each column (or row) and changes no other array of the caller. -/
theorem C29_amax {nb : Nat} (hnb : 0 < nb) (junk : Nat → ℝ) (cols : Bool) (m n lda : Nat) (hl : m ≤ lda)
    (h0 : 0 < min n m) (mem mem' : Buf × Nat → 𝕜) (st : Int)
    (hx : GExec (drvEnvK nb (nmDims m n (nmWork (amaxK cols) (gD nb m n)) (amaxLen cols m n, 1))
      (nmLd lda (nmWork (amaxK cols) (gD nb m n)) (amaxLen cols m n, 1))
      (fun _ => none)) (dzamax junk cols nb m n) mem mem' st) :
    st = 0 ∧
    (cols = true → ∀ c < n, ∃ x : ℝ, mem' (.usr 2, c) = (x : 𝕜) ∧
      IsGreatest {x | ∃ r, r < m ∧ x = cabs1 (arr mem 0 lda r c)} x) ∧
    (cols = false → ∀ r < m, ∃ x : ℝ, mem' (.usr 2, r) = (x : 𝕜) ∧
      IsGreatest {x | ∃ c, c < n ∧ x = cabs1 (arr mem 0 lda r c)} x) ∧
    ∀ k i, k ≠ 1 → (k = 2 → (if cols then n else m) ≤ i) → mem' (.usr k, i) = mem (.usr k, i) := by
  have hmt := gD_mt (m := m) (n := n) hnb
  have hnt := gD_nt (m := m) (n := n) hnb
  unfold dzamax at hx
  rw [if_neg (by omega)] at hx
  have hmt0 : 0 < (gD nb m n).mt := by rw [hmt]; exact (lt_ceilDiv hnb).mpr (by omega)
  have hnt0 : 0 < (gD nb m n).nt := by rw [hnt]; exact (lt_ceilDiv hnb).mpr (by omega)
  obtain ⟨h1, ⟨a, h2, -, h4⟩, h5⟩ := normDrv_correct hnb hl (amaxBlk_ok hnb _) (fun r c h => by
      refine ⟨h.1, ?_⟩
      show c < 1
      omega)
    (fun a a' h r c hR => by
      have hR1 := hR.1
      refine eq_of_forall_ge_iff fun x => ?_
      dsimp only [amaxRed]
      cases cols
      · rw [if_neg (by simp), if_neg (by simp), amaxRow_le hnt0 (show r < (gD nb m n).m from hR1),
          amaxRow_le hnt0 (show r < (gD nb m n).m from hR1)]
        exact forall_congr' fun j => imp_congr_right fun hj => by rw [h r j hR1 hj]
      · rw [if_pos rfl, if_pos rfl, amaxRow_le hmt0 (show r < (gD nb m n).n from hR1),
          amaxRow_le hmt0 (show r < (gD nb m n).n from hR1)]
        exact forall_congr' fun j => imp_congr_right fun hj => by rw [h r j hR1 hj]) hx
  refine ⟨h1, ?_, ?_, ?_⟩
  · rintro rfl c hc
    refine ⟨amaxRed junk true (gD nb m n) a c, ?_, ?_⟩
    · have := h4 c 0 ⟨hc, rfl⟩
      simpa [arr] using this
    · refine greatest_range1 (by omega) fun x => ?_
      dsimp only [amaxRed]
      rw [if_pos rfl, amaxRow_le hmt0 (show c < (gD nb m n).n from hc), hmt]
      obtain ⟨c1, c2, c3, c4⟩ := row_split hnb hc
      rw [← hnt] at c1
      have e2 := gD_nv (m := m) hnb c1
      have ec : c / nb * nb + c % nb = c := by rw [Nat.mul_comm]; exact Nat.div_add_mod c nb
      have hv : ∀ p < ceilDiv m nb, |a c p| ≤ x ↔ ∀ i < tdim m nb p, cabs1 (arr mem 0 lda (p * nb + i) c) ≤ x := by
        intro p hp
        have p1 := tdim_pos (m := m) hnb hp
        rw [← hmt] at hp
        have e1 := gD_mv (n := n) hnb hp
        have hct : c % nb < tdim n nb (c / nb) := by omega
        have := h2 (p, c / nb) (mem_geTiles.mpr ⟨hp, c1⟩) c p ⟨rfl, c2, by
          show c < c / nb * nb + (gD nb m n).nview (c / nb)
          rw [e2]; exact c3⟩
        have hv : a c p = amaxCol (fun i j => cabs1 (tileOf nb (arr mem 0 lda) p (c / nb) i j)) ((gD nb m n).mview p)
          ((gD nb m n).nview (c / nb)) junk (c - c / nb * nb) := this
        rw [c4, e1, e2] at hv
        have hnn : 0 ≤ a c p := by
          have := (amaxCol_le p1 hct (v := junk) (f := fun i j => cabs1 (tileOf nb (arr mem 0 lda) p (c / nb) i j))).mp
            (le_of_eq hv.symm) 0 p1
          exact le_trans cabs1_nonneg this
        rw [abs_of_nonneg hnn, hv, amaxCol_le p1 hct]
        refine forall_congr' fun i => imp_congr_right fun _ => ?_
        show cabs1 (arr mem 0 lda (p * nb + i) (c / nb * nb + c % nb)) ≤ x ↔ _
        rw [ec]
      constructor
      · intro h r hr
        obtain ⟨r1, r2, r3, r4⟩ := row_split hnb hr
        have := (hv (r / nb) r1).mp (h _ r1) (r % nb) (by omega)
        rwa [show r / nb * nb + r % nb = r by omega] at this
      · intro h p hp
        exact (hv p hp).mpr fun i hi => h _ (tdim_end hi)
  · rintro rfl r hr
    refine ⟨amaxRed junk false (gD nb m n) a r, ?_, ?_⟩
    · have := h4 r 0 ⟨hr, rfl⟩
      simpa [arr] using this
    · refine greatest_range1 (by omega) fun x => ?_
      dsimp only [amaxRed]
      rw [if_neg (by simp), amaxRow_le hnt0 (show r < (gD nb m n).m from hr), hnt]
      obtain ⟨r1, r2, r3, r4⟩ := row_split hnb hr
      rw [← hmt] at r1
      have e1 := gD_mv (n := n) hnb r1
      have er : r / nb * nb + r % nb = r := by rw [Nat.mul_comm]; exact Nat.div_add_mod r nb
      have hv : ∀ q < ceilDiv n nb, |a r q| ≤ x ↔ ∀ j < tdim n nb q, cabs1 (arr mem 0 lda r (q * nb + j)) ≤ x := by
        intro q hq
        have p2 := tdim_pos (m := n) hnb hq
        rw [← hnt] at hq
        have e2 := gD_nv (m := m) hnb hq
        have hrt : r % nb < tdim m nb (r / nb) := by omega
        have := h2 (r / nb, q) (mem_geTiles.mpr ⟨r1, hq⟩) r q ⟨rfl, r2, by
          show r < r / nb * nb + (gD nb m n).mview (r / nb)
          rw [e1]; exact r3⟩
        have hv : a r q = amaxRow (fun i j => cabs1 (tileOf nb (arr mem 0 lda) (r / nb) q i j))
          ((gD nb m n).mview (r / nb)) ((gD nb m n).nview q) junk (r - r / nb * nb) := this
        rw [r4, e1, e2] at hv
        have hnn : 0 ≤ a r q := by
          have := (amaxRow_le p2 hrt (v := junk) (f := fun i j => cabs1 (tileOf nb (arr mem 0 lda) (r / nb) q i j))).mp
            (le_of_eq hv.symm) 0 p2
          exact le_trans cabs1_nonneg this
        rw [abs_of_nonneg hnn, hv, amaxRow_le p2 hrt]
        refine forall_congr' fun i => imp_congr_right fun _ => ?_
        show cabs1 (arr mem 0 lda (r / nb * nb + r % nb) (q * nb + i)) ≤ x ↔ _
        rw [er]
      constructor
      · intro h c hc
        obtain ⟨c1, c2, c3, c4⟩ := row_split hnb hc
        have := (hv (c / nb) c1).mp (h _ c1) (c % nb) (by omega)
        rwa [show c / nb * nb + c % nb = c by omega] at this
      · intro h q hq
        exact (hv q hq).mpr fun i hi => h _ (tdim_end hi)
  · intro k i hk hki
    refine h5 k i hk fun e r c hr hc => ?_
    have := hki e
    simp only [amaxLen] at hr
    dsimp only at hc
    have hc0 : c = 0 := by omega
    subst hc0
    omega

/-! ### Consequences -/

theorem NormOf.unique {k : NormK} {m n : Nat} {F : Nat → Nat → ℝ} {x y : ℝ} (hx : NormOf k m n F x)
    (hy : NormOf k m n F y) : x = y := by
  cases k
  · exact IsGreatest.unique hx hy
  · exact IsGreatest.unique hx hy
  · exact IsGreatest.unique hx hy
  · exact Eq.trans hx (Eq.symm hy)

theorem NormOf.congr {k : NormK} {m n : Nat} {F G : Nat → Nat → ℝ} (h : ∀ r < m, ∀ c < n, F r c = G r c) {x : ℝ}
    (hx : NormOf k m n F x) : NormOf k m n G x := by
  cases k
  · have : {x | ∃ r c, r < m ∧ c < n ∧ x = F r c} = {x | ∃ r c, r < m ∧ c < n ∧ x = G r c} := by
      ext y
      constructor
      · rintro ⟨r, c, hr, hc, rfl⟩; exact ⟨r, c, hr, hc, h r hr c hc⟩
      · rintro ⟨r, c, hr, hc, rfl⟩; exact ⟨r, c, hr, hc, (h r hr c hc).symm⟩
    show IsGreatest _ x
    rw [← this]
    exact hx
  · have : {x | ∃ c, c < n ∧ x = ∑ r ∈ range m, F r c} = {x | ∃ c, c < n ∧ x = ∑ r ∈ range m, G r c} := by
      ext y
      constructor
      · rintro ⟨c, hc, rfl⟩; exact ⟨c, hc, Finset.sum_congr rfl fun r hr => h r (mem_range.mp hr) c hc⟩
      · rintro ⟨c, hc, rfl⟩; exact ⟨c, hc, Finset.sum_congr rfl fun r hr => (h r (mem_range.mp hr) c hc).symm⟩
    show IsGreatest _ x
    rw [← this]
    exact hx
  · have : {x | ∃ r, r < m ∧ x = ∑ c ∈ range n, F r c} = {x | ∃ r, r < m ∧ x = ∑ c ∈ range n, G r c} := by
      ext y
      constructor
      · rintro ⟨r, hr, rfl⟩; exact ⟨r, hr, Finset.sum_congr rfl fun c hc => h r hr c (mem_range.mp hc)⟩
      · rintro ⟨r, hr, rfl⟩; exact ⟨r, hr, Finset.sum_congr rfl fun c hc => (h r hr c (mem_range.mp hc)).symm⟩
    show IsGreatest _ x
    rw [← this]
    exact hx
  · show x = _
    rw [show x = _ from hx]
    congr 1
    exact Finset.sum_congr rfl fun r hr => Finset.sum_congr rfl fun c hc => by
      rw [h r (mem_range.mp hr) c (mem_range.mp hc)]

/-- **C27, independence.** The number returned depends only on the selected triangle, and for Hermitian matrices
only on the real parts of the diagonal: two calls on arrays that agree there return the same number, whatever the
executions and the contents of the rest. -/
theorem C27_other_triangle {nb : Nat} (hnb : 0 < nb) {lsq : ℝ × ℝ → List 𝕜 → ℝ × ℝ} (hlsq : IsLassq lsq)
    (junk junk' : Nat → ℝ) (k : NormK) (u : Uplo) (herm : Bool) (n lda : Nat) (hl : n ≤ lda)
    (mem mem' mem1 mem1' : Buf × Nat → 𝕜) (st st1 : Int)
    (hag : ∀ r < n, ∀ c < n, inTri u r c → r ≠ c → arr mem 0 lda r c = arr mem1 0 lda r c)
    (hdi : ∀ r < n, if herm then RCLike.re (arr mem 0 lda r r) = RCLike.re (arr mem1 0 lda r r)
      else arr mem 0 lda r r = arr mem1 0 lda r r)
    (hx : GExec (drvEnvK nb (nmDims n n (nmWork k (gD nb n n)) (1, 1)) (nmLd lda (nmWork k (gD nb n n)) (1, 1))
      (fun _ => none)) (zlansy lsq junk k u herm nb n) mem mem' st)
    (hx1 : GExec (drvEnvK nb (nmDims n n (nmWork k (gD nb n n)) (1, 1)) (nmLd lda (nmWork k (gD nb n n)) (1, 1))
      (fun _ => none)) (zlansy lsq junk' k u herm nb n) mem1 mem1' st1) :
    mem' (.usr 2, 0) = mem1' (.usr 2, 0) := by
  obtain ⟨-, ⟨x, e, h0, h1⟩, -⟩ := C27_lansy hnb hlsq junk k u herm n lda hl mem mem' st hx
  obtain ⟨-, ⟨y, e', h0', h1'⟩, -⟩ := C27_lansy hnb hlsq junk' k u herm n lda hl mem1 mem1' st1 hx1
  rw [e, e']
  congr 1
  rcases Nat.eq_zero_or_pos n with h | h
  · rw [h0 h, h0' h]
  · refine (h1 h).unique ((h1' h).congr fun r hr c hc => ?_)
    unfold symA Norm.symE
    by_cases erc : r = c
    · subst erc
      rw [if_pos rfl, if_pos rfl]
      have := hdi r hr
      unfold diagAbs
      cases herm
      · simp only [Bool.false_eq_true, if_false] at this ⊢; rw [this]
      · simp only [if_true] at this ⊢; rw [this]
    · rw [if_neg erc, if_neg erc]
      by_cases ht : inTri u r c
      · rw [if_pos ht, if_pos ht]; dsimp only; rw [hag r hr c hc ht erc]
      · rw [if_neg ht, if_neg ht]; dsimp only; rw [hag c hc r hr ((inTri_total (u := u) r c).resolve_left ht) (fun e => erc e.symm)]

/-- **C28, independence.** Entries outside the triangle, and the diagonal of a unit triangular matrix, have no
influence on the number returned. -/
theorem C28_outside {nb : Nat} (hnb : 0 < nb) {lsq : ℝ × ℝ → List 𝕜 → ℝ × ℝ} (hlsq : IsLassq lsq)
    (junk junk' : Nat → ℝ) (k : NormK) (u : Uplo) (unit : Bool) (m n lda : Nat) (hl : m ≤ lda)
    (mem mem' mem1 mem1' : Buf × Nat → 𝕜) (st st1 : Int)
    (hz : k ≠ .max → ∀ i, mem (.usr 1, i) = 0) (hz1 : k ≠ .max → ∀ i, mem1 (.usr 1, i) = 0)
    (hag : ∀ r < m, ∀ c < n, inTri u r c → (unit = true → r ≠ c) → arr mem 0 lda r c = arr mem1 0 lda r c)
    (hx : GExec (drvEnvK nb (nmDims m n (nmWork k (gD nb m n)) (1, 1)) (nmLd lda (nmWork k (gD nb m n)) (1, 1))
      (fun _ => none)) (zlantr lsq junk k u unit nb m n) mem mem' st)
    (hx1 : GExec (drvEnvK nb (nmDims m n (nmWork k (gD nb m n)) (1, 1)) (nmLd lda (nmWork k (gD nb m n)) (1, 1))
      (fun _ => none)) (zlantr lsq junk' k u unit nb m n) mem1 mem1' st1) :
    mem' (.usr 2, 0) = mem1' (.usr 2, 0) := by
  obtain ⟨-, ⟨x, e, h0, h1⟩, -⟩ := C28_lantr hnb hlsq junk k u unit m n lda hl mem mem' st hz hx
  obtain ⟨-, ⟨y, e', h0', h1'⟩, -⟩ := C28_lantr hnb hlsq junk' k u unit m n lda hl mem1 mem1' st1 hz1 hx1
  rw [e, e']
  congr 1
  rcases Nat.eq_zero_or_pos (min m n) with h | h
  · rw [h0 h, h0' h]
  · refine (h1 h).unique ((h1' h).congr fun r hr c hc => ?_)
    unfold triE
    by_cases hd : r = c ∧ unit = true
    · rw [if_pos hd, if_pos hd]
    · rw [if_neg hd, if_neg hd]
      by_cases ht : inTri u r c
      · rw [if_pos ht, if_pos ht, hag r hr c hc ht (fun hu e => hd ⟨e, hu⟩)]
      · rw [if_neg ht, if_neg ht]

/-- **C56, refuted.** The asynchronous function `plasma_omp_zlantr` takes the work array from its caller and
does not clear it.  With a work array holding 7 every execution of the same tasks returns at least 7 for the one
norm of the 2-by-2 identity. -/
theorem C56_dirty_work_refuted (lsq : ℝ × ℝ → List 𝕜 → ℝ × ℝ) (junk : Nat → ℝ) (mem mem' : Buf × Nat → 𝕜) (st : Int)
    (hid : ∀ r < 2, ∀ c < 2, arr mem 0 2 r c = if r = c then 1 else 0)
    (hw : ∀ i, mem (.usr 1, i) = ((7 : ℝ) : 𝕜))
    (hx : GExec (drvEnvK 1 (nmDims 2 2 (nmWork .one (gD 1 2 2)) (1, 1)) (nmLd 2 (nmWork .one (gD 1 2 2)) (1, 1))
      (fun _ => none)) (zlantr lsq junk .one .upper false 1 2 2) mem mem' st) :
    ∃ x : ℝ, mem' (.usr 2, 0) = (x : 𝕜) ∧ 7 ≤ x ∧
      ¬ NormOf .one 2 2 (fun r c => triE .upper false r c ‖arr mem 0 2 r c‖) x := by
  unfold zlantr at hx
  rw [if_neg (by decide)] at hx
  have := returns_of (P := fun x => 7 ≤ x) (red := fun w => lantrRed .one .upper (gD 1 2 2) w) Nat.one_pos le_rfl
    (lantrBlk_ok Nat.one_pos (1, 1) (L := trTiles .upper (gD 1 2 2).mt (gD 1 2 2).nt) nodup_trTiles
      fun p hp => ⟨(mem_trTiles.mp hp).1, (mem_trTiles.mp hp).2.1⟩)
    (fun a a' h => lantrRed_congr h) (fun a _ hb => by
      have h01 := hb 0 1 (by
        rintro ⟨p, q⟩ ht
        rw [lantrBlk_shape.2.2]
        rintro ⟨h1, h2, h3⟩
        obtain ⟨t1, t2, t3⟩ := mem_trTiles.mp ht
        simp only [inTri] at t3
        dsimp only at h1 h2
        have : (gD 1 2 2).nb = 1 := rfl
        rw [this] at h2
        omega)
      have hle := (infNorm_le (p := 2) (q := 2) (w := a) (x := infNorm 2 2 a)).mp le_rfl
      have h0 := hle.2 0 (by omega)
      simp only [Finset.sum_range_succ, Finset.sum_range_zero] at h0
      have e7 : a 0 1 = 7 := by
        rw [h01]
        simp only [arr, hw]
        simp
      rw [e7] at h0
      show 7 ≤ infNorm 2 2 a
      have := abs_nonneg (a 0 0)
      rw [abs_of_pos (show (0 : ℝ) < 7 by norm_num)] at h0
      linarith) hx
  obtain ⟨-, ⟨x, e, hx7⟩, -⟩ := this
  refine ⟨x, e, hx7, fun h => ?_⟩
  obtain ⟨⟨c, hc, hxc⟩, -⟩ := h
  have : x ≤ 1 := by
    rw [hxc]
    simp only [triE_upper, Finset.sum_range_succ, Finset.sum_range_zero]
    have h2 : c = 0 ∨ c = 1 := by omega
    rcases h2 with rfl | rfl
    · rw [hid 0 (by omega) 0 (by omega)]; simp
    · rw [hid 0 (by omega) 1 (by omega), hid 1 (by omega) 1 (by omega)]; simp
  linarith

/-- **C56, max norm.** For the max norm the contents of the work array before the call do not matter. -/
theorem C56_max_partial {nb : Nat} (hnb : 0 < nb) {lsq : ℝ × ℝ → List 𝕜 → ℝ × ℝ} (hlsq : IsLassq lsq)
    (junk junk' : Nat → ℝ) (u : Uplo) (unit : Bool) (m n lda : Nat) (hl : m ≤ lda)
    (mem mem' mem1 mem1' : Buf × Nat → 𝕜) (st st1 : Int)
    (hag : ∀ r < m, ∀ c < n, arr mem 0 lda r c = arr mem1 0 lda r c)
    (hx : GExec (drvEnvK nb (nmDims m n (nmWork .max (gD nb m n)) (1, 1)) (nmLd lda (nmWork .max (gD nb m n)) (1, 1))
      (fun _ => none)) (zlantr lsq junk .max u unit nb m n) mem mem' st)
    (hx1 : GExec (drvEnvK nb (nmDims m n (nmWork .max (gD nb m n)) (1, 1)) (nmLd lda (nmWork .max (gD nb m n)) (1, 1))
      (fun _ => none)) (zlantr lsq junk' .max u unit nb m n) mem1 mem1' st1) :
    mem' (.usr 2, 0) = mem1' (.usr 2, 0) :=
  C28_outside hnb hlsq junk junk' .max u unit m n lda hl mem mem' mem1 mem1' st st1 (fun h => absurd rfl h)
    (fun h => absurd rfl h) (fun r hr c hc _ _ => hag r hr c hc) hx hx1

/-! ### Executions exist -/

theorem normDrv_exists {ι : Type} {nb : Nat} (hnb : 0 < nb) {m n lda : Nat} (hl : m ≤ lda) {w v : Nat × Nat} {L : List ι}
    {blk : ι → Blk 𝕜} {R : Nat → Nat → Prop} {red : (Nat → Nat → ℝ) → Nat → Nat → ℝ}
    (hB : BlkOK (tMat nb (nmDims m n w v) 0) (uMat nb (nmDims m n w v) 1) L blk)
    (hR : ∀ r c, R r c → r < v.1 ∧ c < v.2)
    (hred : ∀ a a', (∀ r c, r < w.1 → c < w.2 → a r c = a' r c) → ∀ r c, R r c → red a r c = red a' r c)
    (mem : Buf × Nat → 𝕜) : ∃ mem' st, GExec (drvEnvK nb (nmDims m n w v) (nmLd lda w v) (fun _ => none))
      (normDrv nb m n w v L blk R red) mem mem' st := by
  have hg := normDrv_good (lda := lda) hnb hB hR hred
  exact GExec.existsI (drvEnvK_wf hnb (nm_ld hl) nm_sq) hg.loc hg.ins mem

theorem zlange_exists {nb : Nat} (hnb : 0 < nb) (lsq : ℝ × ℝ → List 𝕜 → ℝ × ℝ) (junk : Nat → ℝ) (k : NormK)
    (m n lda : Nat) (hl : m ≤ lda) (mem : Buf × Nat → 𝕜) :
    ∃ mem' st, GExec (drvEnvK nb (nmDims m n (nmWork k (gD nb m n)) (1, 1)) (nmLd lda (nmWork k (gD nb m n)) (1, 1))
      (fun _ => none)) (zlange lsq junk k nb m n) mem mem' st := by
  unfold zlange
  split
  · exact normDrv_exists hnb hl (langeBlk_ok hnb (1, 1) (L := []) (by simp) (by simp))
      (fun r c h => by simp [h.1, h.2]) (fun _ _ _ _ _ _ => rfl) mem
  · exact normDrv_exists hnb hl (langeBlk_ok hnb (1, 1) nodup_geTiles fun p hp => mem_geTiles.mp hp)
      (fun r c h => by simp [h.1, h.2]) (fun a a' h r c _ => langeRed_congr h) mem

theorem zlansy_exists {nb : Nat} (hnb : 0 < nb) (lsq : ℝ × ℝ → List 𝕜 → ℝ × ℝ) (junk : Nat → ℝ) (k : NormK) (u : Uplo)
    (herm : Bool) (n lda : Nat) (hl : n ≤ lda) (mem : Buf × Nat → 𝕜) :
    ∃ mem' st, GExec (drvEnvK nb (nmDims n n (nmWork k (gD nb n n)) (1, 1)) (nmLd lda (nmWork k (gD nb n n)) (1, 1))
      (fun _ => none)) (zlansy lsq junk k u herm nb n) mem mem' st := by
  unfold zlansy
  split
  · exact normDrv_exists hnb hl (lansyBlk_ok hnb (1, 1) (L := []) (by simp) (by simp))
      (fun r c h => by simp [h.1, h.2]) (fun _ _ _ _ _ _ => rfl) mem
  · exact normDrv_exists hnb hl (lansyBlk_ok hnb (1, 1) nodup_syTiles fun p q b hp => mem_syTiles.mp hp)
      (fun r c h => by simp [h.1, h.2]) (fun a a' h r c _ => lansyRed_congr hnb h) mem

theorem zlantr_exists {nb : Nat} (hnb : 0 < nb) (lsq : ℝ × ℝ → List 𝕜 → ℝ × ℝ) (junk : Nat → ℝ) (k : NormK) (u : Uplo)
    (unit : Bool) (m n lda : Nat) (hl : m ≤ lda) (mem : Buf × Nat → 𝕜) :
    ∃ mem' st, GExec (drvEnvK nb (nmDims m n (nmWork k (gD nb m n)) (1, 1)) (nmLd lda (nmWork k (gD nb m n)) (1, 1))
      (fun _ => none)) (zlantr lsq junk k u unit nb m n) mem mem' st := by
  unfold zlantr
  split
  · exact normDrv_exists hnb hl (lantrBlk_ok hnb (1, 1) (L := []) (by simp) (by simp))
      (fun r c h => by simp [h.1, h.2]) (fun _ _ _ _ _ _ => rfl) mem
  · exact normDrv_exists hnb hl (lantrBlk_ok hnb (1, 1) nodup_trTiles
      fun p hp => ⟨(mem_trTiles.mp hp).1, (mem_trTiles.mp hp).2.1⟩)
      (fun r c h => by simp [h.1, h.2]) (fun a a' h r c _ => lantrRed_congr h) mem

theorem dzamax_exists {nb : Nat} (hnb : 0 < nb) (junk : Nat → ℝ) (cols : Bool) (m n lda : Nat) (hl : m ≤ lda)
    (h0 : 0 < min n m) (mem : Buf × Nat → 𝕜) :
    ∃ mem' st, GExec (drvEnvK nb (nmDims m n (nmWork (amaxK cols) (gD nb m n)) (amaxLen cols m n, 1))
      (nmLd lda (nmWork (amaxK cols) (gD nb m n)) (amaxLen cols m n, 1))
      (fun _ => none)) (dzamax junk cols nb m n) mem mem' st := by
  unfold dzamax
  rw [if_neg (by omega)]
  have hmt0 : 0 < (gD nb m n).mt := by rw [gD_mt hnb]; exact (lt_ceilDiv hnb).mpr (by omega)
  have hnt0 : 0 < (gD nb m n).nt := by rw [gD_nt hnb]; exact (lt_ceilDiv hnb).mpr (by omega)
  refine normDrv_exists hnb hl (amaxBlk_ok hnb _) (fun r c h => ⟨h.1, by show c < 1; omega⟩)
    (fun a a' h r c hR => ?_) mem
  have hR1 := hR.1
  refine eq_of_forall_ge_iff fun x => ?_
  dsimp only [amaxRed]
  cases cols
  · rw [if_neg (by simp), if_neg (by simp), amaxRow_le hnt0 (show r < (gD nb m n).m from hR1),
      amaxRow_le hnt0 (show r < (gD nb m n).m from hR1)]
    exact forall_congr' fun j => imp_congr_right fun hj => by rw [h r j hR1 hj]
  · rw [if_pos rfl, if_pos rfl, amaxRow_le hmt0 (show r < (gD nb m n).n from hR1),
      amaxRow_le hmt0 (show r < (gD nb m n).n from hR1)]
    exact forall_congr' fun j => imp_congr_right fun hj => by rw [h r j hR1 hj]

/-- C26 on a 3-by-2 matrix stored with leading dimension 4 and tiles of size 2, entries `r + 10 c`: the max norm
is 12, so every execution returns 12, and there is one. -/
example : ∃ mem mem' : Buf × Nat → ℝ, ∃ st lsq, IsLassq (𝕜 := ℝ) lsq ∧
    GExec (drvEnvK 2 (nmDims 3 2 (nmWork .max (gD 2 3 2)) (1, 1)) (nmLd 4 (nmWork .max (gD 2 3 2)) (1, 1))
      (fun _ => none)) (zlange lsq (fun _ => 5) .max 2 3 2) mem mem' st ∧ mem' (.usr 2, 0) = 12 := by
  obtain ⟨lsq, hlsq⟩ := exists_lassq (𝕜 := ℝ)
  let mem : Buf × Nat → ℝ := fun p => ((p.2 % 4 + 10 * (p.2 / 4) : Nat) : ℝ)
  obtain ⟨mem', st, hx⟩ := zlange_exists (nb := 2) (by omega) lsq (fun _ => 5) .max 3 2 4 (by omega) mem
  refine ⟨mem, mem', st, lsq, hlsq, hx, ?_⟩
  obtain ⟨-, ⟨x, e, -, h⟩, -⟩ := C26_lange (by omega) hlsq _ .max 3 2 4 (by omega) mem mem' st hx
  have hv : NormOf .max 3 2 (fun r c => ‖arr mem 0 4 r c‖) 12 := by
    have hval : ∀ r c, r < 3 → ‖arr mem 0 4 r c‖ = ((r + 10 * c : Nat) : ℝ) := by
      intro r c hr
      simp only [arr, mem]
      rw [Real.norm_of_nonneg (Nat.cast_nonneg _)]
      congr 1
      omega
    refine ⟨⟨2, 1, by omega, by omega, ?_⟩, ?_⟩
    · dsimp only; rw [hval 2 1 (by omega)]; norm_num
    · rintro y ⟨r, c, hr, hc, rfl⟩
      dsimp only
      rw [hval r c hr]
      have : r + 10 * c ≤ 12 := by omega
      exact_mod_cast this
  rw [e]
  exact_mod_cast (h (by decide)).unique hv

/-- C27 on the 3-by-3 Hermitian matrix with `i` on the diagonal and 2 elsewhere in the lower triangle, garbage above:
the infinity norm is 4. -/
example : ∃ mem mem' : Buf × Nat → ℂ, ∃ st lsq, IsLassq (𝕜 := ℂ) lsq ∧
    GExec (drvEnvK 2 (nmDims 3 3 (nmWork .inf (gD 2 3 3)) (1, 1)) (nmLd 3 (nmWork .inf (gD 2 3 3)) (1, 1))
      (fun _ => none)) (zlansy lsq (fun _ => 5) .inf .lower true 2 3) mem mem' st ∧ mem' (.usr 2, 0) = 4 := by
  obtain ⟨lsq, hlsq⟩ := exists_lassq (𝕜 := ℂ)
  let mem : Buf × Nat → ℂ := fun p => if p.2 % 3 = p.2 / 3 then Complex.I else if p.2 % 3 > p.2 / 3 then 2 else 77
  obtain ⟨mem', st, hx⟩ := zlansy_exists (nb := 2) (by omega) lsq (fun _ => 5) .inf .lower true 3 3 (by omega) mem
  refine ⟨mem, mem', st, lsq, hlsq, hx, ?_⟩
  obtain ⟨-, ⟨x, e, -, h⟩, -⟩ := C27_lansy (by omega) hlsq _ .inf .lower true 3 3 (by omega) mem mem' st hx
  have hv : NormOf .inf 3 3 (symA .lower true (arr mem 0 3)) 4 := by
    have hval : ∀ r c, r < 3 → c < 3 → symA .lower true (arr mem 0 3) r c = if r = c then 0 else 2 := by
      intro r c hr hc
      unfold symA
      rw [symE_lower]
      by_cases h1 : r = c
      · subst h1
        rw [if_pos rfl, if_pos rfl]
        simp only [diagAbs, if_true, arr, mem]
        rw [if_pos (by omega)]
        simp
      · rw [if_neg h1, if_neg h1]
        by_cases h2 : c ≤ r
        · rw [if_pos h2]
          simp only [arr, mem]
          rw [if_neg (by omega), if_pos (by omega)]
          simp
        · rw [if_neg h2]
          simp only [arr, mem]
          rw [if_neg (by omega), if_pos (by omega)]
          simp
    have hsum : ∀ r, r < 3 → ∑ c ∈ range 3, symA .lower true (arr mem 0 3) r c = 4 := by
      intro r hr
      simp only [Finset.sum_range_succ, Finset.sum_range_zero]
      rw [hval r 0 hr (by omega), hval r 1 hr (by omega), hval r 2 hr (by omega)]
      have : r = 0 ∨ r = 1 ∨ r = 2 := by omega
      rcases this with rfl | rfl | rfl <;> norm_num
    refine ⟨⟨0, by omega, (hsum 0 (by omega)).symm⟩, ?_⟩
    rintro y ⟨r, hr, rfl⟩
    rw [hsum r hr]
  rw [e]
  rw [(h (by decide)).unique hv]
  simp

/-- C28 on the 2-by-3 unit upper trapezoidal matrix of ones, garbage on and below the diagonal: the one norm is 2. -/
example : ∃ mem mem' : Buf × Nat → ℝ, ∃ st lsq, IsLassq (𝕜 := ℝ) lsq ∧ (∀ i, mem (.usr 1, i) = 0) ∧
    GExec (drvEnvK 2 (nmDims 2 3 (nmWork .one (gD 2 2 3)) (1, 1)) (nmLd 2 (nmWork .one (gD 2 2 3)) (1, 1))
      (fun _ => none)) (zlantr lsq (fun _ => 5) .one .upper true 2 2 3) mem mem' st ∧ mem' (.usr 2, 0) = 2 := by
  obtain ⟨lsq, hlsq⟩ := exists_lassq (𝕜 := ℝ)
  let mem : Buf × Nat → ℝ := fun p => if p.1 = .usr 0 then (if p.2 % 2 < p.2 / 2 then 1 else 77) else 0
  have hz : ∀ i, mem (.usr 1, i) = 0 := fun i => by simp [mem]
  obtain ⟨mem', st, hx⟩ := zlantr_exists (nb := 2) (by omega) lsq (fun _ => 5) .one .upper true 2 3 2 (by omega) mem
  refine ⟨mem, mem', st, lsq, hlsq, hz, hx, ?_⟩
  obtain ⟨-, ⟨x, e, -, h⟩, -⟩ := C28_lantr (by omega) hlsq _ .one .upper true 2 3 2 (by omega) mem mem' st (fun _ => hz) hx
  have hv : NormOf .one 2 3 (fun r c => triE .upper true r c ‖arr mem 0 2 r c‖) 2 := by
    have hval : ∀ r c, r < 2 → triE .upper true r c ‖arr mem 0 2 r c‖ = if r ≤ c then 1 else 0 := by
      intro r c hr
      rw [triE_upper]
      by_cases h1 : r = c
      · rw [if_pos ⟨h1, rfl⟩, if_pos (by omega)]
      · rw [if_neg (fun h => h1 h.1)]
        by_cases h2 : r ≤ c
        · rw [if_pos h2, if_pos h2]
          simp only [arr, mem, if_true]
          rw [if_pos (by omega)]
          simp
        · rw [if_neg h2, if_neg h2]
    have hsum : ∀ c, ∑ r ∈ range 2, triE .upper true r c ‖arr mem 0 2 r c‖ = if c = 0 then 1 else 2 := by
      intro c
      simp only [Finset.sum_range_succ, Finset.sum_range_zero]
      rw [hval 0 c (by omega), hval 1 c (by omega), if_pos (Nat.zero_le _)]
      by_cases hc : c = 0
      · rw [if_neg (by omega), if_pos hc]; norm_num
      · rw [if_pos (by omega), if_neg hc]; norm_num
    refine ⟨⟨1, by omega, ?_⟩, ?_⟩
    · rw [hsum]; norm_num
    · rintro y ⟨c, hc, rfl⟩
      rw [hsum]
      split <;> norm_num
  rw [e]
  exact_mod_cast (h (by decide)).unique hv

/-- Executions with a dirty work array exist. -/
example (lsq : ℝ × ℝ → List ℝ → ℝ × ℝ) : ∃ mem mem' : Buf × Nat → ℝ, ∃ st,
    (∀ r < 2, ∀ c < 2, arr mem 0 2 r c = if r = c then 1 else 0) ∧ (∀ i, mem (.usr 1, i) = 7) ∧
    GExec (drvEnvK 1 (nmDims 2 2 (nmWork .one (gD 1 2 2)) (1, 1)) (nmLd 2 (nmWork .one (gD 1 2 2)) (1, 1))
      (fun _ => none)) (zlantr lsq (fun _ => 0) .one .upper false 1 2 2) mem mem' st := by
  let mem : Buf × Nat → ℝ := fun p => if p.1 = .usr 0 then (if p.2 % 2 = p.2 / 2 then 1 else 0) else 7
  obtain ⟨mem', st, hx⟩ := zlantr_exists (nb := 1) (by omega) lsq (fun _ => 0) .one .upper false 2 2 2 le_rfl mem
  refine ⟨mem, mem', st, ?_, fun i => by simp [mem], hx⟩
  intro r hr c hc
  simp only [arr, mem, if_true]
  by_cases h : r = c
  · rw [if_pos (by omega), if_pos h]
  · rw [if_neg (by omega), if_neg h]

/-- C29 by columns on a 2-by-2 matrix with `-3` in column 1. -/
example : ∃ mem mem' : Buf × Nat → ℝ, ∃ st,
    GExec (drvEnvK 1 (nmDims 2 2 (nmWork (amaxK true) (gD 1 2 2)) (amaxLen true 2 2, 1))
      (nmLd 2 (nmWork (amaxK true) (gD 1 2 2)) (amaxLen true 2 2, 1))
      (fun _ => none)) (dzamax (fun _ => 5) true 1 2 2) mem mem' st ∧ mem' (.usr 2, 1) = 3 := by
  let mem : Buf × Nat → ℝ := fun p => if p.2 = 2 then -3 else 1
  obtain ⟨mem', st, hx⟩ := dzamax_exists (nb := 1) (by omega) (fun _ => 5) true 2 2 2 le_rfl (by decide) mem
  refine ⟨mem, mem', st, hx, ?_⟩
  obtain ⟨-, h, -⟩ := C29_amax (by omega) (fun _ => 5) true 2 2 2 le_rfl (by decide) mem mem' st hx
  obtain ⟨x, e, hx⟩ := h rfl 1 (by omega)
  have hv : IsGreatest {x | ∃ r, r < 2 ∧ x = cabs1 (arr mem 0 2 r 1)} 3 := by
    refine ⟨⟨0, by omega, by simp [cabs1, arr, mem]⟩, ?_⟩
    rintro y ⟨r, hr, rfl⟩
    have : r = 0 ∨ r = 1 := by omega
    rcases this with rfl | rfl <;> simp [cabs1, arr, mem]
  rw [e]
  exact_mod_cast hx.unique hv

end

end Verif.Props

/-
Drivers whose tile matrices may be stored as a triangle of tiles
(`plasma_desc_triangular_create`, `plasma_omp_ztr2desc`, `plasma_omp_zdesc2tr`), e.g.
compute/zpotrf.c:100-150, compute/zposv.c:110-190.
-/
import Verif.Par

namespace Verif.Tile

open Verif.Layout Verif.Sched

universe u v

/-- Storage of the tile matrix of an array: general, or the tiles of one triangle. -/
abbrev Stor := Option Uplo

/-- Tile `(m, n)` is stored. -/
def stOK : Stor → Nat → Nat → Prop
  | none, _, _ => True
  | some u, m, n => inTri u m n

instance (st : Stor) (m n : Nat) : Decidable (stOK st m n) := by
  cases st <;> unfold stOK <;> infer_instance

/-- Tile columns copied for tile row `m`: all of them (compute/pzge2desc.c:39-40), or
`n_start <= n < n_end` (compute/pztr2desc.c:33-35, compute/pzdesc2tr.c:33-35). -/
def cpCols (st : Stor) (nt m : Nat) : List Nat :=
  match st with
  | none => List.range nt
  | some .upper => span m nt
  | some .lower => span 0 (m + 1)

variable {M : Type u} {α : Type v}

/-- Copy of the stored tiles of `U` to `V`; `A` is the descriptor: `plasma_pzge2desc`
(compute/pzge2desc.c:22-56), `plasma_pzdesc2ge` (compute/pzdesc2ge.c:22-56),
`plasma_pztr2desc` (compute/pztr2desc.c:22-51), `plasma_pzdesc2tr`
(compute/pzdesc2tr.c:22-52).  Same simplification as `pzge2desc`. -/
def copyK (st : Stor) (A U V : TMat M) : List (TTask (M × Nat × Nat) α) :=
  (List.range A.d.mt).flatMap fun m => (cpCols st A.d.nt m).map fun n =>
    lacpyRect (cpLo A.d.i A.d.mb m) (cpHi A.d.i A.d.m A.d.mb A.d.mt m)
      (cpLo A.d.j A.d.nb n) (cpHi A.d.j A.d.n A.d.nb A.d.nt n) (U.at' m n) (V.at' m n)

theorem copyK_none (A U V : TMat M) : copyK (α := α) none A U V = copyTasks A U V := rfl

/-- A triangular matrix is square. -/
def stSq (st : Stor) (m n : Nat) : Prop := st = none ∨ m = n

theorem mem_cpCols {st : Stor} {mt nt m n : Nat} (hs : stSq st mt nt) (hm : m < mt) :
    n ∈ cpCols st nt m ↔ n < nt ∧ stOK st m n := by
  unfold cpCols stOK inTri
  rcases hs with rfl | rfl
  · simp
  · split <;> simp [mem_span] <;> omega

theorem nodup_cpCols {st : Stor} {nt m : Nat} : (cpCols st nt m).Nodup := by
  unfold cpCols
  split <;> first | exact List.nodup_range | exact nodup_span

theorem copyK_good {env : M → MatEnv} {b : Nat} {st : Stor} {A U V : TMat M} (hA : A.Al b)
    (hs : stSq st A.d.mt A.d.nt)
    (hU : FitsOn env b (stOK st) U) (hV : FitsOn env b (stOK st) V) (hUm : A.d.m ≤ U.d.m)
    (hUn : A.d.n ≤ U.d.n) (hVm : A.d.m ≤ V.d.m) (hVn : A.d.n ≤ V.d.n) :
    Good (evalid env) (copyK (α := α) st A U V) := by
  refine Good.flatMap fun m hm => Good.map fun n hn => ?_
  rw [List.mem_range] at hm
  rw [mem_cpCols hs hm] at hn
  refine Good.single ?_ op1_declared ?_
  · exact op1_local (fun A A' _ _ hA _ i j hij => hA i j hij)
  · apply op1_inside
    · intro i j hij
      rw [cp_rect hA hm hn.1] at hij
      apply hU.validOn hn.2 <;> [have := hij.1; have := hij.2] <;> rw [tdim_row] at * <;> omega
    · intro i j hij
      rw [cp_rect hA hm hn.1] at hij
      apply hV.validOn hn.2 <;> [have := hij.1; have := hij.2] <;> rw [tdim_row] at * <;> omega

theorem copyK_writes {st : Stor} {A U V : TMat M} (hs : stSq st A.d.mt A.d.nt) :
    Writes (fun t => ∃ m n, t = V.at' m n ∧ stOK st m n) (copyK (α := α) st A U V) := by
  refine Writes.flatMap fun m hm => Writes.map fun n hn => writes_op1 ⟨m, n, rfl, ?_⟩
  rw [List.mem_range] at hm
  rw [mem_cpCols hs hm] at hn
  exact hn.2

theorem copyK_within {st : Stor} {A U V : TMat M} {D : M × Nat × Nat → Prop}
    (hU : ∀ m n, D (U.at' m n)) (hV : ∀ m n, D (V.at' m n)) :
    Within D (copyK (α := α) st A U V) :=
  Within.flatMap fun m _ => Within.map fun n _ => lacpyRect_within (hU m n) (hV m n)

theorem copyK_el {b : Nat} {st : Stor} {A U V : TMat M} (hA : A.Al b) (hU : U.Al b) (hV : V.Al b)
    (hs : stSq st A.d.mt A.d.nt)
    (hne : U.id ≠ V.id) (s : Store (M × Nat × Nat) α) {r c : Nat} (hr : r < A.d.m) (hc : c < A.d.n)
    (hst : stOK st (r / b) (c / b)) :
    V.el (texec (copyK st A U V) s) r c = U.el s r c := by
  have hb := hA.pos
  have hm := hA.row_mt hr
  have hn := hA.col_nt hc
  have e : copyK (α := α) st A U V =
      ((List.range A.d.mt).flatMap fun m => (cpCols st A.d.nt m).map fun n => (m, n)).flatMap fun p =>
        [lacpyRect (cpLo A.d.i A.d.mb p.1) (cpHi A.d.i A.d.m A.d.mb A.d.mt p.1)
          (cpLo A.d.j A.d.nb p.2) (cpHi A.d.j A.d.n A.d.nb A.d.nt p.2) (U.at' p.1 p.2) (V.at' p.1 p.2)] := by
    unfold copyK
    rw [List.flatMap_assoc]
    congr 1; funext m
    rw [List.flatMap_map, List.map_eq_flatMap]
  rw [e]
  simp only [TMat.el, hV.mb, hV.nb, hU.mb, hU.nb]
  rw [texec_indep (D := fun p t => t = U.at' p.1 p.2 ∨ t = V.at' p.1 p.2) ?_ ?_ ?_ s
    (x := (r / b, c / b)) ?_ (Or.inr rfl)]
  · simp only [texec_cons, texec_nil]
    unfold lacpyRect
    rw [op1_self, paste_in]
    rw [cp_rect hA hm hn]
    exact ⟨mod_lt_tdim hb hr, mod_lt_tdim hb hc⟩
  · rw [List.nodup_flatMap]
    refine ⟨fun m _ => nodup_cpCols.map fun a b h => (Prod.mk.inj h).2, ?_⟩
    refine List.Pairwise.imp ?_ List.nodup_range
    intro a b hab x hx hy
    obtain ⟨_, _, rfl⟩ := List.mem_map.mp hx
    obtain ⟨_, _, hy⟩ := List.mem_map.mp hy
    exact hab (Prod.mk.inj hy).1.symm
  · intro p _
    exact lacpyRect_within (Or.inl rfl) (Or.inr rfl)
  · intro p _ q _ hpq
    apply writes_op1
    rintro (h | h)
    · exact TMat.at'_ne hne.symm h
    · rw [TMat.at'_inj] at h
      exact hpq (Prod.ext h.1 h.2)
  · rw [List.mem_flatMap]
    exact ⟨r / b, by simpa using hm, List.mem_map.mpr ⟨c / b, (mem_cpCols hs hm).mpr ⟨hn, hst⟩, rfl⟩⟩

/-- Memory of a driver call; `st k` is the storage of tile matrix `k`. -/
def drvEnvK (nb : Nat) (dims : Nat → Nat × Nat) (ld : Nat → Nat) (st : Nat → Stor) : Buf → MatEnv
  | .usr k => ⟨.lapack (ld k), nb, nb, (dims k).1, (dims k).2⟩
  | .til k => ⟨match st k with | none => .tile | some u => .tri u, nb, nb, (dims k).1, (dims k).2⟩

/-- Tasks of a driver: translate the arrays `ins`, run `P`, translate the arrays `outs`
back. -/
def driverK (nb : Nat) (dims : Nat → Nat × Nat) (st : Nat → Stor) (ins : List Nat)
    (P : List (TTask (Buf × Nat × Nat) α)) (outs : List Nat) : List (TTask (Buf × Nat × Nat) α) :=
  (ins.flatMap fun k => copyK (st k) (tMat nb dims k) (uMat nb dims k) (tMat nb dims k)) ++ P ++
  (outs.flatMap fun k => copyK (st k) (tMat nb dims k) (tMat nb dims k) (uMat nb dims k))

variable {nb : Nat} {dims : Nat → Nat × Nat} {ld : Nat → Nat} {st : Nat → Stor}

theorem drvEnvK_none : drvEnvK nb dims ld (fun _ => none) = drvEnv nb dims ld := by
  funext a; cases a <;> rfl

theorem driverK_none {ins outs : List Nat} {P : List (TTask (Buf × Nat × Nat) α)} :
    driverK nb dims (fun _ => none) ins P outs = driver nb dims ins P outs := rfl

theorem drvEnvK_wf (hnb : 0 < nb) (hld : ∀ k, (dims k).1 ≤ ld k)
    (hsq : ∀ k, stSq (st k) (dims k).1 (dims k).2) : ∀ a, (drvEnvK nb dims ld st a).WF := by
  intro a
  cases a with
  | usr k => exact ⟨hnb, hnb, by simp [drvEnvK, hld k], by simp [drvEnvK], by simp [drvEnvK]⟩
  | til k =>
    cases hs : st k with
    | none => exact ⟨hnb, hnb, by simp [drvEnvK, hs], by simp [drvEnvK, hs], by simp [drvEnvK, hs]⟩
    | some u =>
      refine ⟨hnb, hnb, by simp [drvEnvK, hs], ?_, by simp [drvEnvK, hs]⟩
      intro u' _
      rcases hsq k with h | h
      · rw [hs] at h; cases h
      · exact ⟨rfl, h⟩

theorem fitsK_u (hnb : 0 < nb) (k : Nat) : Fits (drvEnvK nb dims ld st) nb (uMat nb dims k) :=
  fits_full hnb rfl (Or.inr ⟨_, rfl⟩)

theorem fitsK_t (hnb : 0 < nb) (k : Nat) :
    FitsOn (drvEnvK nb dims ld st) nb (stOK (st k)) (tMat nb dims k) where
  al := al_t hnb k
  mb := rfl
  nb := rfl
  rows := by simp [tMat, TMat.full, drvEnvK, general]
  cols := by simp [tMat, TMat.full, drvEnvK, general]
  st := by
    intro m n i j h
    simp only [tMat, TMat.full, drvEnvK, MatEnv.stored, general, Nat.zero_div, Nat.add_zero]
    cases hs : st k with
    | none => trivial
    | some u => rw [hs] at h; exact h

theorem fitsK_gen (hnb : 0 < nb) {k : Nat} (h : st k = none) :
    Fits (drvEnvK nb dims ld st) nb (tMat nb dims k) :=
  (fitsK_t hnb k).mono fun m n _ => by rw [h]; trivial

theorem stSq_tiles (hnb : 0 < nb) {k : Nat} (h : stSq (st k) (dims k).1 (dims k).2) :
    stSq (st k) (tMat nb dims k).d.mt (tMat nb dims k).d.nt := by
  rcases h with h | h
  · exact Or.inl h
  · right
    rw [(al_t (dims := dims) hnb k).mt_eq, (al_t (dims := dims) hnb k).nt_eq]
    simp [tMat, TMat.full, general, h]

theorem driverK_good (hnb : 0 < nb) (hsq : ∀ k, stSq (st k) (dims k).1 (dims k).2) {ins outs : List Nat}
    {P : List (TTask (Buf × Nat × Nat) α)} (hP : Good (evalid (drvEnvK nb dims ld st)) P) :
    Good (evalid (drvEnvK nb dims ld st)) (driverK nb dims st ins P outs) :=
  ((Good.flatMap fun k _ => copyK_good (al_t hnb k) (stSq_tiles hnb (hsq k))
      ((fitsK_u hnb k).mono fun _ _ _ => trivial) (fitsK_t hnb k) le_rfl le_rfl le_rfl le_rfl).append
      hP).append
    (Good.flatMap fun k _ => copyK_good (al_t hnb k) (stSq_tiles hnb (hsq k))
      (fitsK_t hnb k) ((fitsK_u hnb k).mono fun _ _ _ => trivial) le_rfl le_rfl le_rfl le_rfl)

theorem copyK_ins_el (hnb : 0 < nb) (hsq : ∀ k, stSq (st k) (dims k).1 (dims k).2) {ins : List Nat}
    (hins : ins.Nodup) (s : Store (Buf × Nat × Nat) α)
    {k : Nat} (hk : k ∈ ins) {r c : Nat} (hr : r < (dims k).1) (hc : c < (dims k).2)
    (hst : stOK (st k) (r / nb) (c / nb)) :
    (tMat nb dims k).el (texec (ins.flatMap fun k =>
        copyK (st k) (tMat nb dims k) (uMat nb dims k) (tMat nb dims k)) s) r c =
    (uMat nb dims k).el s r c := by
  have := copyK_el (al_t (dims := dims) hnb k)
    (al_u (dims := dims) hnb k) (al_t (dims := dims) hnb k) (stSq_tiles hnb (hsq k))
    (by simp [uMat, tMat, TMat.full]) s (r := r) (c := c) hr hc hst
  rw [← this]
  apply tMat_el_congr
  intro m n
  rw [texec_indep (D := fun k t => t.1 = .usr k ∨ t.1 = .til k) hins ?_ ?_ s hk (Or.inr rfl)]
  · intro k _
    exact copyK_within (fun _ _ => Or.inl rfl) (fun _ _ => Or.inr rfl)
  · intro k _ k' _ hkk
    refine Writes.mono (copyK_writes (stSq_tiles hnb (hsq k'))) ?_
    rintro t ⟨m, n, rfl, -⟩
    simp [tMat, TMat.full, TMat.at', hkk]

theorem copyK_outs_el (hnb : 0 < nb) (hsq : ∀ k, stSq (st k) (dims k).1 (dims k).2) {outs : List Nat}
    (houts : outs.Nodup) (s : Store (Buf × Nat × Nat) α)
    {k : Nat} (hk : k ∈ outs) {r c : Nat} (hr : r < (dims k).1) (hc : c < (dims k).2) :
    (uMat nb dims k).el (texec (outs.flatMap fun k =>
        copyK (st k) (tMat nb dims k) (tMat nb dims k) (uMat nb dims k)) s) r c =
    if stOK (st k) (r / nb) (c / nb) then (tMat nb dims k).el s r c else (uMat nb dims k).el s r c := by
  have hi : texec (outs.flatMap fun k =>
        copyK (st k) (tMat nb dims k) (tMat nb dims k) (uMat nb dims k)) s
        ((uMat nb dims k).at' (r / nb) (c / nb)) =
      texec (copyK (st k) (tMat nb dims k) (tMat nb dims k) (uMat nb dims k)) s
        ((uMat nb dims k).at' (r / nb) (c / nb)) := by
    rw [texec_indep (D := fun k t => t.1 = .usr k ∨ t.1 = .til k) houts ?_ ?_ s hk (Or.inl rfl)]
    · intro k _
      exact copyK_within (fun _ _ => Or.inr rfl) (fun _ _ => Or.inl rfl)
    · intro k _ k' _ hkk
      refine Writes.mono (copyK_writes (stSq_tiles hnb (hsq k'))) ?_
      rintro t ⟨m, n, rfl, -⟩
      simp [uMat, TMat.full, TMat.at', hkk]
  have e1 : ∀ s : Store (Buf × Nat × Nat) α, (uMat nb dims k).el s r c =
      s ((uMat nb dims k).at' (r / nb) (c / nb)) (r % nb) (c % nb) := fun s => rfl
  split
  · rename_i hst
    have := copyK_el (al_t (dims := dims) hnb k)
      (al_t (dims := dims) hnb k) (al_u (dims := dims) hnb k) (stSq_tiles hnb (hsq k))
      (by simp [uMat, tMat, TMat.full]) s (r := r) (c := c) hr hc hst
    rw [← this, e1, e1, hi]
  · rename_i hst
    rw [e1, e1, hi, (copyK_writes (stSq_tiles hnb (hsq k))).frame s]
    rintro ⟨m, n, he, h⟩
    rw [TMat.at'_inj] at he
    rw [he.1, he.2] at hst
    exact hst h

/-- **Driver theorem** for mixed storage: see `driver_correct`.  Elements in tiles that are
not stored keep their value. -/
theorem driverK_correct (hnb : 0 < nb) (hld : ∀ k, (dims k).1 ≤ ld k)
    (hsq : ∀ k, stSq (st k) (dims k).1 (dims k).2) {ins outs : List Nat}
    (hins : ins.Nodup) (houts : outs.Nodup) {P : List (TTask (Buf × Nat × Nat) α)}
    (hP : Good (evalid (drvEnvK nb dims ld st)) P) (hPt : OnTiles P) {mem mem' : Buf × Nat → α}
    (h : Exec (drvEnvK nb dims ld st) (driverK nb dims st ins P outs) mem mem') :
    ∃ s : Store (Buf × Nat × Nat) α,
      (∀ k ∈ ins, ∀ r c, r < (dims k).1 → c < (dims k).2 → stOK (st k) (r / nb) (c / nb) →
        (tMat nb dims k).el s r c = mem (.usr k, r + c * ld k)) ∧
      (∀ k ∈ outs, ∀ r c, r < (dims k).1 → c < (dims k).2 →
        mem' (.usr k, r + c * ld k) =
          if stOK (st k) (r / nb) (c / nb) then (tMat nb dims k).el (texec P s) r c
          else mem (.usr k, r + c * ld k)) ∧
      (∀ k, k ∉ outs → ∀ x, mem' (.usr k, x) = mem (.usr k, x)) ∧
      (∀ k x, (∀ i j, i < (dims k).1 → j < (dims k).2 → x ≠ i + j * ld k) →
        mem' (.usr k, x) = mem (.usr k, x)) := by
  have hwf := drvEnvK_wf (nb := nb) hnb hld hsq
  have hg := driverK_good (ins := ins) (outs := outs) hnb hsq hP
  have hwin : Writes (fun t => ∃ k, t.1 = .til k) (ins.flatMap fun k =>
      copyK (α := α) (st k) (tMat nb dims k) (uMat nb dims k) (tMat nb dims k)) := by
    refine Writes.flatMap fun k' _ => Writes.mono (copyK_writes (stSq_tiles hnb (hsq k'))) ?_
    rintro t ⟨m, n, rfl, -⟩; exact ⟨k', rfl⟩
  refine ⟨texec (ins.flatMap fun k => copyK (st k) (tMat nb dims k) (uMat nb dims k) (tMat nb dims k))
    (view (eloc (drvEnvK nb dims ld st)) mem), ?_, ?_, ?_, ?_⟩
  · intro k hk r c hr hc hst
    rw [copyK_ins_el hnb hsq hins _ hk hr hc hst]
    exact el_view_lapack (env := drvEnvK nb dims ld st) (id := .usr k) hnb rfl mem r c
  · intro k hk r c hr hc
    have h1 := Exec.el hwf hg h (fitsK_u hnb k) (r := r) (c := c) hr hc
    have h2 : ∀ mem : Buf × Nat → α, (uMat nb dims k).el (view (eloc (drvEnvK nb dims ld st)) mem) r c
        = mem (.usr k, r + c * ld k) :=
      fun mem => el_view_lapack (env := drvEnvK nb dims ld st) (id := .usr k) hnb rfl mem r c
    rw [← h2 mem, ← h2 mem', h1]
    simp only [driverK, texec_append]
    rw [copyK_outs_el hnb hsq houts _ hk hr hc]
    split
    · rfl
    · have hf : ∀ P' : List (TTask (Buf × Nat × Nat) α), Writes (fun t => ∃ k, t.1 = .til k) P' →
          ∀ s, (uMat nb dims k).el (texec P' s) r c = (uMat nb dims k).el s r c := by
        intro P' hP' s
        simp only [TMat.el]
        rw [hP'.frame s]
        rintro ⟨k', hk'⟩
        simp [uMat, TMat.full, TMat.at'] at hk'
      rw [hf P hPt, hf _ hwin]
  · intro k hk x
    apply Exec.frame_buf hwf hg h
    refine Writes.append (Writes.append ?_ ?_) ?_
    · refine Writes.mono hwin ?_
      rintro t ⟨k', hk'⟩; rw [hk']; simp
    · refine Writes.mono hPt ?_
      rintro t ⟨k', hk'⟩; rw [hk']; simp
    · refine Writes.flatMap fun k' hk' => Writes.mono (copyK_writes (stSq_tiles hnb (hsq k'))) ?_
      rintro t ⟨m, n, rfl, -⟩
      simp only [uMat, TMat.full, TMat.at', ne_eq, Buf.usr.injEq]
      rintro rfl; exact hk hk'
  · intro k x hx
    exact Exec.frame_pad hwf hg h rfl x hx

theorem driverK_exists (hnb : 0 < nb) (hld : ∀ k, (dims k).1 ≤ ld k)
    (hsq : ∀ k, stSq (st k) (dims k).1 (dims k).2) {ins outs : List Nat}
    {P : List (TTask (Buf × Nat × Nat) α)} (hP : Good (evalid (drvEnvK nb dims ld st)) P)
    (mem : Buf × Nat → α) :
    ∃ mem', Exec (drvEnvK nb dims ld st) (driverK nb dims st ins P outs) mem mem' :=
  Exec.exists (drvEnvK_wf hnb hld hsq) (driverK_good hnb hsq hP).loc (driverK_good hnb hsq hP).ins mem

end Verif.Tile

/-
Drivers whose tile algorithm also reads and writes user arrays directly (the pivot array of the
LU routines), and whose conflicts are ordered in any way.
-/
import Verif.GExec

namespace Verif.Tile

open Verif.Layout Verif.Sched

universe u v

section
variable {M : Type u} {α : Type v}

theorem Exec.elC {env : M → MatEnv} {P : List (TTask (M × Nat × Nat) α)}
    {mem mem' : M × Nat → α} (hwf : ∀ a, (env a).WF) (hg : GoodC (evalid env) P)
    (h : Exec env P mem mem') {b : Nat} {U : TMat M} (hU : Fits env b U) {r c : Nat}
    (hr : r < U.d.m) (hc : c < U.d.n) :
    U.el (view (eloc env) mem') r c = U.el (texec P (view (eloc env) mem)) r c := by
  have := (Exec.correct hwf hg.loc hg.ins hg.cov h).1
    (U.at' (r / b) (c / b)) (r % b) (c % b)
    (hU.valid (mod_lt_tdim hU.al.pos hr) (mod_lt_tdim hU.al.pos hc))
  simpa [TMat.el, view, hU.al.mb, hU.al.nb] using this

theorem GExec.frame_padI {env : M → MatEnv} {P : List (GTTask (M × Nat × Nat) α)}
    {mem mem' : M × Nat → α} {st : Int} (hg : ∀ t ∈ tasks P, t.Inside (evalid env))
    (h : GExec env P mem mem' st)
    {a : M} {l b m n : Nat} (he : env a = ⟨.lapack l, b, b, m, n⟩) (x : Nat)
    (hx : ∀ i j, i < m → j < n → x ≠ i + j * l) :
    mem' (a, x) = mem (a, x) := by
  apply h.frame
  rintro t ht ⟨a', p, q⟩ i j hwr hel
  have hv := hg t ht _ _ _ (Or.inr hwr)
  have h1 : a' = a := congrArg Prod.fst hel
  subst h1
  have h2 : (env a').off p q i j = x := congrArg Prod.snd hel
  simp only [evalid, he, tileOK_iff] at hv
  rw [he, MatEnv.off_lapack (l := l) rfl] at h2
  apply hx _ _ hv.1.2.1 hv.1.2.2.2
  rw [← h2]; ring

/-- A guarded program that is local and inside its memory has an execution. -/
theorem GExec.existsI {env : M → MatEnv} {P : List (GTTask (M × Nat × Nat) α)}
    (hwf : ∀ a, (env a).WF) (hl : ∀ t ∈ tasks P, t.Local) (hi : ∀ t ∈ tasks P, t.Inside (evalid env))
    (mem : M × Nat → α) : ∃ mem' st, GExec env P mem mem' st := by
  let Ts : List (GTask (M × Nat) (M × Nat) α) := P.map fun t =>
    { toTask := atomicImpl (eloc env) (ekey env) t.task
      guard := t.guard
      code := fun m => t.code (view (eloc env) m) }
  obtain ⟨s, h1, h2⟩ := guarded_exists Ts mem 0
  refine ⟨s.mem, s.status, Ts, s, ?_, h1, h2, rfl, rfl⟩
  rw [List.forall₂_map_right_iff, List.forall₂_same]
  intro t ht
  have htm : t.task ∈ tasks P := List.mem_map.mpr ⟨t, ht, rfl⟩
  exact ⟨atomicImpl_ok (env_inj hwf) (hl _ htm) (hi _ htm), rfl, rfl⟩

end

section
variable {α : Type v} {nb : Nat} {dims : Nat → Nat × Nat} {ld : Nat → Nat} {st : Nat → Stor}

/-- The tasks write tile matrices and the user arrays in `W`. -/
def OnTilesW (W : List Nat) (P : List (TTask (Buf × Nat × Nat) α)) : Prop :=
  Writes (fun t => (∃ k, t.1 = .til k) ∨ ∃ k ∈ W, t.1 = .usr k) P

theorem ins_writes (hnb : 0 < nb) (hsq : ∀ k, stSq (st k) (dims k).1 (dims k).2) (ins : List Nat) :
    Writes (fun t => ∃ k, t.1 = .til k) (ins.flatMap fun k =>
        copyK (α := α) (st k) (tMat nb dims k) (uMat nb dims k) (tMat nb dims k)) := by
  refine Writes.flatMap fun k' _ => Writes.mono (copyK_writes (stSq_tiles hnb (hsq k'))) ?_
  rintro t ⟨m, n, rfl, -⟩; exact ⟨k', rfl⟩

theorem outs_writes (hnb : 0 < nb) (hsq : ∀ k, stSq (st k) (dims k).1 (dims k).2) (outs : List Nat) :
    Writes (fun t => ∃ k ∈ outs, t.1 = .usr k) (outs.flatMap fun k =>
        copyK (α := α) (st k) (tMat nb dims k) (tMat nb dims k) (uMat nb dims k)) := by
  refine Writes.flatMap fun k' hk => Writes.mono (copyK_writes (stSq_tiles hnb (hsq k'))) ?_
  rintro t ⟨m, n, rfl, -⟩; exact ⟨k', hk, rfl⟩

/-- Only output arrays and arrays in `W` change, and only inside the matrix, whatever the
outcome. -/
theorem gdrvC_frame (hnb : 0 < nb)
    (hsq : ∀ k, stSq (st k) (dims k).1 (dims k).2) {ins outs W : List Nat}
    {P : List (GTTask (Buf × Nat × Nat) α)} (hPt : OnTilesW W (tasks P))
    (hin : ∀ t ∈ tasks (gdriverK nb dims st ins P outs), t.Inside (evalid (drvEnvK nb dims ld st)))
    {mem mem' : Buf × Nat → α} {stat : Int}
    (h : GExec (drvEnvK nb dims ld st) (gdriverK nb dims st ins P outs) mem mem' stat) :
    (∀ k, k ∉ outs → k ∉ W → ∀ x, mem' (.usr k, x) = mem (.usr k, x)) ∧
    (∀ k x, (∀ i j, i < (dims k).1 → j < (dims k).2 → x ≠ i + j * ld k) →
      mem' (.usr k, x) = mem (.usr k, x)) := by
  constructor
  · intro k hk hkW x
    apply h.frame_buf
    rw [tasks_gdriverK]
    refine Writes.append (Writes.append ?_ ?_) ?_
    · refine Writes.mono (ins_writes hnb hsq ins) ?_
      rintro t ⟨k', hk'⟩; rw [hk']; simp
    · refine Writes.mono hPt ?_
      rintro t (⟨k', hk'⟩ | ⟨k', hm, hk'⟩)
      · rw [hk']; simp
      · rw [hk']; intro e; cases e; exact hkW hm
    · refine Writes.mono (outs_writes hnb hsq outs) ?_
      rintro t ⟨k', hm, hk'⟩
      rw [hk']; intro e; cases e; exact hk hm
  · intro k x hx
    exact GExec.frame_padI hin h rfl x hx

theorem u_el_frame {W : List Nat} {P' : List (TTask (Buf × Nat × Nat) α)} (hP' : OnTilesW W P') {k : Nat}
    (hk : k ∉ W) (s : Store (Buf × Nat × Nat) α) (r c : Nat) :
    (uMat nb dims k).el (texec P' s) r c = (uMat nb dims k).el s r c := by
  simp only [TMat.el]
  rw [Writes.frame hP' s]
  rintro (⟨k', hk'⟩ | ⟨k', hm, hk'⟩)
  · simp [uMat, TMat.full, TMat.at'] at hk'
  · simp [uMat, TMat.full, TMat.at'] at hk'
    subst hk'; exact hk hm

theorem ins_onTiles (hnb : 0 < nb) (hsq : ∀ k, stSq (st k) (dims k).1 (dims k).2) (ins : List Nat) :
    OnTilesW [] (ins.flatMap fun k =>
        copyK (α := α) (st k) (tMat nb dims k) (uMat nb dims k) (tMat nb dims k)) :=
  Writes.mono (ins_writes hnb hsq ins) fun _ h => Or.inl h

theorem u_el_mem (hnb : 0 < nb) (mem : Buf × Nat → α) (k r c : Nat) :
    (uMat nb dims k).el (view (eloc (drvEnvK nb dims ld st)) mem) r c = mem (.usr k, r + c * ld k) :=
  el_view_lapack (env := drvEnvK nb dims ld st) (id := .usr k) hnb rfl mem r c

/-- **Driver theorem**, success. -/
theorem gdrvC_success (hnb : 0 < nb) (hld : ∀ k, (dims k).1 ≤ ld k)
    (hsq : ∀ k, stSq (st k) (dims k).1 (dims k).2) {ins outs W : List Nat}
    (hins : ins.Nodup) (houts : outs.Nodup) (hW : ∀ k ∈ W, k ∉ outs) {P : List (GTTask (Buf × Nat × Nat) α)}
    (hPt : OnTilesW W (tasks P)) (hC : CodeOK P)
    (hg : GoodC (evalid (drvEnvK nb dims ld st)) (tasks (gdriverK nb dims st ins P outs)))
    {mem mem' : Buf × Nat → α}
    (h : GExec (drvEnvK nb dims ld st) (gdriverK nb dims st ins P outs) mem mem' 0) :
    ∃ s : Store (Buf × Nat × Nat) α,
      (∀ k ∈ ins, ∀ r c, r < (dims k).1 → c < (dims k).2 → stOK (st k) (r / nb) (c / nb) →
        (tMat nb dims k).el s r c = mem (.usr k, r + c * ld k)) ∧
      (∀ k r c, (uMat nb dims k).el s r c = mem (.usr k, r + c * ld k)) ∧
      (∀ i, tcode P s i = 0) ∧
      (∀ k ∈ outs, ∀ r c, r < (dims k).1 → c < (dims k).2 →
        mem' (.usr k, r + c * ld k) =
          if stOK (st k) (r / nb) (c / nb) then (tMat nb dims k).el (texec (tasks P) s) r c
          else mem (.usr k, r + c * ld k)) ∧
      (∀ k, k ∉ outs → ∀ r c, r < (dims k).1 → c < (dims k).2 →
        mem' (.usr k, r + c * ld k) = (uMat nb dims k).el (texec (tasks P) s) r c) ∧
      (∀ k, st k = none → ∀ r c, r < (dims k).1 → c < (dims k).2 →
        (tMat nb dims k).el (view (eloc (drvEnvK nb dims ld st)) mem') r c =
          (tMat nb dims k).el (texec (tasks P) s) r c) := by
  have hwf := drvEnvK_wf (nb := nb) hnb hld hsq
  have hcode : CodeOK (gdriverK nb dims st ins P outs) := ((CodeOK.ok _).append hC).append (CodeOK.ok _)
  obtain ⟨hx, hz⟩ := h.successC hwf hg hcode
  rw [tasks_gdriverK] at hx hg
  have hU := u_el_mem (α := α) (dims := dims) (ld := ld) (st := st) hnb
  refine ⟨_, gdriverK_ins hnb hsq hins mem, ?_, ?_, ?_, ?_, ?_⟩
  · intro k r c
    rw [u_el_frame (ins_onTiles hnb hsq ins) (by simp)]
    exact hU mem k r c
  · intro i
    by_cases hi : i < P.length
    · have h1 := hz ((okT (ins.flatMap fun k => copyK (α := α) (st k) (tMat nb dims k) (uMat nb dims k) (tMat nb dims k))).length + i)
      unfold gdriverK at h1
      rw [List.append_assoc, tcode_append_right, tcode_append_left _ _ _ hi, tasks_okT] at h1
      exact h1
    · exact tcode_len _ _ (by omega)
  · intro k hk r c hr hc
    have h1 := Exec.elC hwf hg hx (fitsK_u hnb k) (r := r) (c := c) hr hc
    rw [hU] at h1
    rw [h1]
    simp only [driverK, texec_append]
    rw [copyK_outs_el hnb hsq houts _ hk hr hc]
    split
    · rfl
    · rw [u_el_frame hPt (fun hm => hW k hm hk), u_el_frame (ins_onTiles hnb hsq ins) (by simp), hU]
  · intro k hk r c hr hc
    have h1 := Exec.elC hwf hg hx (fitsK_u hnb k) (r := r) (c := c) hr hc
    rw [hU] at h1
    rw [h1]
    simp only [driverK, texec_append]
    simp only [TMat.el]
    rw [(outs_writes hnb hsq outs).frame]
    rintro ⟨k', hm, hk'⟩
    simp [uMat, TMat.full, TMat.at'] at hk'
    subst hk'; exact hk hm
  · intro k hk r c hr hc
    rw [Exec.elC hwf hg hx (fitsK_gen hnb hk) (r := r) (c := c) hr hc]
    simp only [driverK, texec_append]
    simp only [TMat.el]
    rw [(outs_writes hnb hsq outs).frame]
    rintro ⟨k', hm, hk'⟩
    simp [tMat, TMat.full, TMat.at'] at hk'

/-- **Driver theorem**, failure. -/
theorem gdrvC_failure (hnb : 0 < nb) (hld : ∀ k, (dims k).1 ≤ ld k)
    (hsq : ∀ k, stSq (st k) (dims k).1 (dims k).2) {ins outs : List Nat}
    (hins : ins.Nodup) {P : List (GTTask (Buf × Nat × Nat) α)} (hC : CodeOK P) (hch : FChain P)
    (hg : GoodC (evalid (drvEnvK nb dims ld st)) (tasks (gdriverK nb dims st ins P outs)))
    {mem mem' : Buf × Nat → α} {stat : Int}
    (h : GExec (drvEnvK nb dims ld st) (gdriverK nb dims st ins P outs) mem mem' stat)
    (h0 : stat ≠ 0) :
    ∃ s : Store (Buf × Nat × Nat) α,
      (∀ k ∈ ins, ∀ r c, r < (dims k).1 → c < (dims k).2 → stOK (st k) (r / nb) (c / nb) →
        (tMat nb dims k).el s r c = mem (.usr k, r + c * ld k)) ∧
      ∃ i, tcode P s i = stat ∧ ∀ b < i, tcode P s b = 0 := by
  have hwf := drvEnvK_wf (nb := nb) hnb hld hsq
  have hcode : CodeOK (gdriverK nb dims st ins P outs) := ((CodeOK.ok _).append hC).append (CodeOK.ok _)
  have hch' : FChain (gdriverK nb dims st ins P outs) := (hch.append_left (safe_ok _)).append (safe_ok _)
  refine ⟨_, gdriverK_ins hnb hsq hins mem, ?_⟩
  obtain ⟨i, hi, h1, h2⟩ := h.firstC hwf hg hcode hch' h0
  set I := okT (ins.flatMap fun k => copyK (α := α) (st k) (tMat nb dims k) (uMat nb dims k) (tMat nb dims k)) with hI
  set O := okT (outs.flatMap fun k => copyK (α := α) (st k) (tMat nb dims k) (tMat nb dims k) (uMat nb dims k)) with hO
  have hD : gdriverK nb dims st ins P outs = I ++ (P ++ O) := by simp [gdriverK, hI, hO]
  rw [hD] at h1 h2
  have hge : I.length ≤ i := by
    by_contra hlt
    rw [tcode_append_left _ _ _ (by omega), hI, tcode_ok] at h1
    exact h0 h1.symm
  obtain ⟨j, rfl⟩ := Nat.exists_eq_add_of_le hge
  rw [tcode_append_right] at h1
  have hjl : j < P.length := by
    by_contra hlt
    obtain ⟨k, rfl⟩ := Nat.exists_eq_add_of_le (Nat.le_of_not_lt hlt)
    rw [tcode_append_right, hO, tcode_ok] at h1
    exact h0 h1.symm
  have htI : tasks I = ins.flatMap fun k => copyK (α := α) (st k) (tMat nb dims k) (uMat nb dims k) (tMat nb dims k) := by
    rw [hI, tasks_okT]
  rw [htI, tcode_append_left _ _ _ hjl] at h1
  refine ⟨j, h1, ?_⟩
  intro b hb
  have := h2 (I.length + b) (by omega)
  rwa [tcode_append_right, htI, tcode_append_left _ _ _ (by omega)] at this

end

end Verif.Tile

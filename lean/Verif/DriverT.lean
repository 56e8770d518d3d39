/-
Drivers that also work on the array of block reflectors `T`, a tile matrix that the user keeps between calls, and whose
tile matrices may be a part of the allocation (`plasma_desc_general_create(.., lm, ln, 0, 0, m, n, ..)` with `n < ln`).
-/
import Verif.DriverG

namespace Verif.Tile

open Verif.Layout Verif.Sched

universe u v

variable {α : Type v}

/-- Memory of such a driver call: user array `kt` is a tile matrix with tiles of size `ib` by `nb`
(`plasma_descT_create`, control/descriptor.c:400-424), the other ones as in `drvEnv`. -/
def drvEnvT (nb : Nat) (dims : Nat → Nat × Nat) (ld : Nat → Nat) (kt ib : Nat) (gT : Nat × Nat) : Buf → MatEnv
  | .usr k => if k = kt then ⟨.tile, ib, nb, gT.1, gT.2⟩ else ⟨.lapack (ld k), nb, nb, (dims k).1, (dims k).2⟩
  | .til k => ⟨.tile, nb, nb, (dims k).1, (dims k).2⟩

/-- Leading part of size `vw k` of user array `k` cut into tiles. -/
def uVw (nb : Nat) (dims vw : Nat → Nat × Nat) (k : Nat) : TMat Buf :=
  ⟨.usr k, general nb nb (dims k).1 (dims k).2 0 0 (vw k).1 (vw k).2⟩
/-- Tile matrix made by `plasma_desc_general_create(.., nb, nb, lm, ln, 0, 0, m, n, ..)` (control/descriptor.c:16-47). -/
def tVw (nb : Nat) (dims vw : Nat → Nat × Nat) (k : Nat) : TMat Buf :=
  ⟨.til k, general nb nb (dims k).1 (dims k).2 0 0 (vw k).1 (vw k).2⟩

/-- Tasks of such a driver: translate the arrays `ins` (`plasma_omp_zge2desc`), run `P`, translate the arrays `outs`
back (`plasma_omp_zdesc2ge`). -/
def driverV (nb : Nat) (dims vw : Nat → Nat × Nat) (ins : List Nat)
    (P : List (TTask (Buf × Nat × Nat) α)) (outs : List Nat) : List (TTask (Buf × Nat × Nat) α) :=
  (ins.flatMap fun k => copyK none (tVw nb dims vw k) (uVw nb dims vw k) (tVw nb dims vw k)) ++ P ++
  (outs.flatMap fun k => copyK none (tVw nb dims vw k) (tVw nb dims vw k) (uVw nb dims vw k))

variable {nb : Nat} {dims vw : Nat → Nat × Nat} {ld : Nat → Nat} {kt ib : Nat} {gT : Nat × Nat}

theorem al_vw (hnb : 0 < nb) (id : Buf) (a c m n : Nat) : TMat.Al nb ⟨id, general nb nb a c 0 0 m n⟩ :=
  ⟨hnb, rfl, rfl, by simp [general], by simp [general], rfl, rfl⟩

theorem al_tVw (hnb : 0 < nb) (k : Nat) : (tVw nb dims vw k).Al nb := al_vw hnb _ _ _ _ _
theorem al_uVw (hnb : 0 < nb) (k : Nat) : (uVw nb dims vw k).Al nb := al_vw hnb _ _ _ _ _

theorem drvEnvT_wf (hnb : 0 < nb) (hib : 0 < ib) (hld : ∀ k, k ≠ kt → (dims k).1 ≤ ld k) :
    ∀ a, (drvEnvT nb dims ld kt ib gT a).WF := by
  intro a
  cases a with
  | usr k =>
    unfold drvEnvT
    by_cases h : k = kt
    · simp only [h, if_true]
      exact ⟨hib, hnb, by simp, by simp, by simp⟩
    · simp only [h, if_false]
      exact ⟨hnb, hnb, by simp [hld k h], by simp, by simp⟩
  | til k => exact ⟨hnb, hnb, by simp [drvEnvT], by simp [drvEnvT], by simp [drvEnvT]⟩

theorem fits_tVw (hnb : 0 < nb) {k : Nat} (hv : (vw k).1 ≤ (dims k).1 ∧ (vw k).2 ≤ (dims k).2) :
    Fits (drvEnvT nb dims ld kt ib gT) nb (tVw nb dims vw k) where
  al := al_tVw hnb k
  mb := rfl
  nb := rfl
  rows := by simpa [tVw, drvEnvT, general] using hv.1
  cols := by simpa [tVw, drvEnvT, general] using hv.2
  st := fun _ _ _ _ _ => trivial

theorem env_uVw {k : Nat} (hk : k ≠ kt) :
    drvEnvT nb dims ld kt ib gT (.usr k) = ⟨.lapack (ld k), nb, nb, (dims k).1, (dims k).2⟩ := by
  simp [drvEnvT, hk]

theorem fits_uVw (hnb : 0 < nb) {k : Nat} (hk : k ≠ kt) (hv : (vw k).1 ≤ (dims k).1 ∧ (vw k).2 ≤ (dims k).2) :
    Fits (drvEnvT nb dims ld kt ib gT) nb (uVw nb dims vw k) where
  al := al_uVw hnb k
  mb := by simp [uVw, env_uVw hk]
  nb := by simp [uVw, env_uVw hk]
  rows := by simpa [uVw, env_uVw hk, general] using hv.1
  cols := by simpa [uVw, env_uVw hk, general] using hv.2
  st := fun _ _ _ _ _ => by simp [uVw, env_uVw hk, MatEnv.stored]

theorem stSq_none (m n : Nat) : stSq none m n := Or.inl rfl

theorem driverV_good (hnb : 0 < nb) {ins outs : List Nat}
    (hi : ∀ k ∈ ins, k ≠ kt ∧ (vw k).1 ≤ (dims k).1 ∧ (vw k).2 ≤ (dims k).2)
    (ho : ∀ k ∈ outs, k ≠ kt ∧ (vw k).1 ≤ (dims k).1 ∧ (vw k).2 ≤ (dims k).2)
    {P : List (TTask (Buf × Nat × Nat) α)} (hP : Good (evalid (drvEnvT nb dims ld kt ib gT)) P) :
    Good (evalid (drvEnvT nb dims ld kt ib gT)) (driverV nb dims vw ins P outs) :=
  ((Good.flatMap fun k hk => copyK_good (al_tVw hnb k) (stSq_none ..)
      ((fits_uVw hnb (hi k hk).1 (hi k hk).2).mono fun _ _ _ => trivial)
      ((fits_tVw hnb (hi k hk).2).mono fun _ _ _ => trivial) le_rfl le_rfl le_rfl le_rfl).append hP).append
    (Good.flatMap fun k hk => copyK_good (al_tVw hnb k) (stSq_none ..)
      ((fits_tVw hnb (ho k hk).2).mono fun _ _ _ => trivial)
      ((fits_uVw hnb (ho k hk).1 (ho k hk).2).mono fun _ _ _ => trivial) le_rfl le_rfl le_rfl le_rfl)

theorem uVw_view (hnb : 0 < nb) {k : Nat} (hk : k ≠ kt) (mem : Buf × Nat → α) (r c : Nat) :
    (uVw nb dims vw k).el (view (eloc (drvEnvT nb dims ld kt ib gT)) mem) r c = mem (.usr k, r + c * ld k) := by
  rw [← el_view_lapack (env := drvEnvT nb dims ld kt ib gT) (id := .usr k) hnb (env_uVw hk) mem r c]
  rfl

theorem vw_ins_el (hnb : 0 < nb) {ins : List Nat} (hins : ins.Nodup) (s : Store (Buf × Nat × Nat) α)
    {k : Nat} (hk : k ∈ ins) {r c : Nat} (hr : r < (vw k).1) (hc : c < (vw k).2) :
    (tVw nb dims vw k).el (texec (ins.flatMap fun k =>
        copyK none (tVw nb dims vw k) (uVw nb dims vw k) (tVw nb dims vw k)) s) r c =
    (uVw nb dims vw k).el s r c := by
  rw [← copyK_el (st := none) (al_tVw (dims := dims) hnb k) (al_uVw (dims := dims) hnb k)
    (al_tVw (dims := dims) (vw := vw) hnb k) (stSq_none ..) (by simp [uVw, tVw]) s (r := r) (c := c) hr hc trivial]
  simp only [TMat.el]
  rw [texec_indep (D := fun k t => t.1 = .usr k ∨ t.1 = .til k) hins ?_ ?_ s hk (Or.inr rfl)]
  · intro k _
    exact copyK_within (fun _ _ => Or.inl rfl) (fun _ _ => Or.inr rfl)
  · intro k _ k' _ hkk
    refine Writes.mono (copyK_writes (stSq_none ..)) ?_
    rintro t ⟨m, n, rfl, -⟩
    simp [tVw, TMat.at', hkk]

theorem vw_outs_el (hnb : 0 < nb) {outs : List Nat} (houts : outs.Nodup) (s : Store (Buf × Nat × Nat) α)
    {k : Nat} (hk : k ∈ outs) {r c : Nat} (hr : r < (vw k).1) (hc : c < (vw k).2) :
    (uVw nb dims vw k).el (texec (outs.flatMap fun k =>
        copyK none (tVw nb dims vw k) (tVw nb dims vw k) (uVw nb dims vw k)) s) r c =
    (tVw nb dims vw k).el s r c := by
  rw [← copyK_el (st := none) (al_tVw (dims := dims) hnb k) (al_tVw (dims := dims) hnb k)
    (al_uVw (dims := dims) (vw := vw) hnb k) (stSq_none ..) (by simp [uVw, tVw]) s (r := r) (c := c) hr hc trivial]
  simp only [TMat.el]
  rw [texec_indep (D := fun k t => t.1 = .usr k ∨ t.1 = .til k) houts ?_ ?_ s hk (Or.inl rfl)]
  · intro k _
    exact copyK_within (fun _ _ => Or.inr rfl) (fun _ _ => Or.inl rfl)
  · intro k _ k' _ hkk
    refine Writes.mono (copyK_writes (stSq_none ..)) ?_
    rintro t ⟨m, n, rfl, -⟩
    simp [uVw, TMat.at', hkk]

/-- Elements written by a copy. -/
theorem copyK_writesE {M : Type u} {b : Nat} {A U V : TMat M} (hA : A.Al b) :
    WritesE (fun t i j => ∃ m n, t = V.at' m n ∧ i < tdim A.d.m b m ∧ j < tdim A.d.n b n)
      (copyK (α := α) none A U V) := by
  refine WritesE.flatMap fun m hm => WritesE.map fun n hn => WritesE.single ?_
  rw [List.mem_range] at hm
  rw [mem_cpCols (stSq_none A.d.mt A.d.nt) hm] at hn
  rintro t i j ⟨rfl, h⟩
  rw [cp_rect hA hm hn.1] at h
  exact ⟨m, n, rfl, h.1, h.2⟩

/-- **Driver theorem**: the tile algorithm sees the user's arrays and `T`; its results reach the user's arrays and `T`;
nothing else of the user's memory changes. -/
theorem drvT_correct (hnb : 0 < nb) (hib : 0 < ib) (hld : ∀ k, k ≠ kt → (dims k).1 ≤ ld k) {ins outs : List Nat}
    (hins : ins.Nodup) (houts : outs.Nodup)
    (hi : ∀ k ∈ ins, k ≠ kt ∧ (vw k).1 ≤ (dims k).1 ∧ (vw k).2 ≤ (dims k).2)
    (ho : ∀ k ∈ outs, k ≠ kt ∧ (vw k).1 ≤ (dims k).1 ∧ (vw k).2 ≤ (dims k).2)
    {P : List (TTask (Buf × Nat × Nat) α)}
    (hP : Good (evalid (drvEnvT nb dims ld kt ib gT)) P)
    (hPt : Writes (fun t => (∃ k, t.1 = .til k) ∨ t.1 = .usr kt) P) {mem mem' : Buf × Nat → α}
    (h : Exec (drvEnvT nb dims ld kt ib gT) (driverV nb dims vw ins P outs) mem mem') :
    ∃ s : Store (Buf × Nat × Nat) α,
      (∀ k ∈ ins, ∀ r c, r < (vw k).1 → c < (vw k).2 → (tVw nb dims vw k).el s r c = mem (.usr k, r + c * ld k)) ∧
      (∀ t i j, t.1 = .usr kt → s t i j = mem (eloc (drvEnvT nb dims ld kt ib gT) t i j)) ∧
      (∀ k ∈ outs, ∀ r c, r < (vw k).1 → c < (vw k).2 →
        mem' (.usr k, r + c * ld k) = (tVw nb dims vw k).el (texec P s) r c) ∧
      (∀ t i j, t.1 = .usr kt → evalid (drvEnvT nb dims ld kt ib gT) t i j →
        mem' (eloc (drvEnvT nb dims ld kt ib gT) t i j) = texec P s t i j) ∧
      (∀ k, k ∉ outs → k ≠ kt → ∀ x, mem' (.usr k, x) = mem (.usr k, x)) ∧
      (∀ k x, k ≠ kt → (∀ i j, i < (vw k).1 → j < (vw k).2 → x ≠ i + j * ld k) →
        mem' (.usr k, x) = mem (.usr k, x)) := by
  have hwf := drvEnvT_wf (nb := nb) (gT := gT) hnb hib hld
  have hg := driverV_good hnb hi ho hP
  have hcor := Exec.correct hwf hg.loc hg.ins (tcovered_of_declared hg.decl) h
  have hwin : Writes (fun t => ∃ k, t.1 = .til k) (ins.flatMap fun k =>
      copyK (α := α) none (tVw nb dims vw k) (uVw nb dims vw k) (tVw nb dims vw k)) := by
    refine Writes.flatMap fun k' _ => Writes.mono (copyK_writes (stSq_none ..)) ?_
    rintro t ⟨m, n, rfl, -⟩; exact ⟨k', rfl⟩
  refine ⟨texec (ins.flatMap fun k => copyK none (tVw nb dims vw k) (uVw nb dims vw k) (tVw nb dims vw k))
    (view (eloc (drvEnvT nb dims ld kt ib gT)) mem), ?_, ?_, ?_, ?_, ?_, ?_⟩
  · intro k hk r c hr hc
    rw [vw_ins_el hnb hins _ hk hr hc]
    exact uVw_view hnb (hi k hk).1 mem r c
  · intro t i j ht
    rw [hwin.frame]
    · rfl
    · rintro ⟨k, e⟩; rw [ht] at e; cases e
  · intro k hk r c hr hc
    have h1 := Exec.el hwf hg h (fits_uVw hnb (ho k hk).1 (ho k hk).2) (r := r) (c := c) hr hc
    rw [uVw_view hnb (ho k hk).1] at h1
    rw [h1]
    simp only [driverV, texec_append]
    rw [vw_outs_el hnb houts _ hk hr hc]
  · intro t i j ht hv
    rw [hcor.1 t i j hv]
    simp only [driverV, texec_append]
    rw [Writes.frame (W := fun t => ∃ k ∈ outs, t.1 = .usr k)]
    · refine Writes.flatMap fun k' hk' => Writes.mono (copyK_writes (stSq_none ..)) ?_
      rintro t ⟨m, n, rfl, -⟩; exact ⟨k', hk', rfl⟩
    · rintro ⟨k, hk, e⟩
      rw [ht] at e; cases e
      exact (ho _ hk).1 rfl
  · intro k hk hkt x
    apply Exec.frame_buf hwf hg h
    refine Writes.append (Writes.append ?_ ?_) ?_
    · refine Writes.mono hwin ?_
      rintro t ⟨k', hk'⟩; rw [hk']; simp
    · refine Writes.mono hPt ?_
      rintro t (⟨k', hk'⟩ | hk') <;> rw [hk']
      · simp
      · simpa using Ne.symm hkt
    · refine Writes.flatMap fun k' hk' => Writes.mono (copyK_writes (stSq_none ..)) ?_
      rintro t ⟨m, n, rfl, -⟩
      simp only [uVw, TMat.at', ne_eq, Buf.usr.injEq]
      rintro rfl; exact hk hk'
  · intro k x hkt hx
    apply hcor.2
    rintro t ht ⟨a, m, n⟩ i j hw he
    have ha : a = .usr k := congrArg Prod.fst he
    subst ha
    have hoff : (drvEnvT nb dims ld kt ib gT (.usr k)).off m n i j = x := congrArg Prod.snd he
    simp only [driverV] at ht
    rcases List.mem_append.mp ht with ht | ht
    · rcases List.mem_append.mp ht with ht | ht
      · obtain ⟨k', e⟩ := hwin t ht _ i j hw
        cases e
      · rcases hPt t ht _ i j hw with ⟨k', e⟩ | e
        · cases e
        · cases e; exact hkt rfl
    · obtain ⟨k', hk', ht⟩ := List.mem_flatMap.mp ht
      obtain ⟨m', n', e, h1, h2⟩ := copyK_writesE (al_tVw (dims := dims) (vw := vw) hnb k') t ht _ i j hw
      simp only [uVw, TMat.at', Prod.mk.injEq, Buf.usr.injEq, general, Nat.zero_div, Nat.add_zero] at e
      obtain ⟨rfl, rfl, rfl⟩ := e
      rw [env_uVw hkt, MatEnv.off_lapack (l := ld k) rfl] at hoff
      rw [tdim_row] at h1 h2
      refine hx _ _ h1.2 h2.2 ?_
      rw [← hoff]
      ring

/-- If the tile algorithm does not write `T`, no element of `T` changes. -/
theorem drvT_frameT (hnb : 0 < nb) (hib : 0 < ib) (hld : ∀ k, k ≠ kt → (dims k).1 ≤ ld k) {ins outs : List Nat}
    (hi : ∀ k ∈ ins, k ≠ kt ∧ (vw k).1 ≤ (dims k).1 ∧ (vw k).2 ≤ (dims k).2)
    (ho : ∀ k ∈ outs, k ≠ kt ∧ (vw k).1 ≤ (dims k).1 ∧ (vw k).2 ≤ (dims k).2)
    {P : List (TTask (Buf × Nat × Nat) α)}
    (hP : Good (evalid (drvEnvT nb dims ld kt ib gT)) P)
    (hPt : Writes (fun t => ∃ k, t.1 = .til k) P) {mem mem' : Buf × Nat → α}
    (h : Exec (drvEnvT nb dims ld kt ib gT) (driverV nb dims vw ins P outs) mem mem') (x : Nat) :
    mem' (.usr kt, x) = mem (.usr kt, x) := by
  refine Exec.frame_buf (drvEnvT_wf hnb hib hld) (driverV_good hnb hi ho hP) h ?_ x
  refine Writes.append (Writes.append ?_ (hPt.mono fun x hx => by obtain ⟨k, hk⟩ := hx; rw [hk]; simp)) ?_
  · refine Writes.flatMap fun k' _ => Writes.mono (copyK_writes (stSq_none ..)) ?_
    rintro t ⟨m, n, rfl, -⟩; simp [tVw, TMat.at']
  · refine Writes.flatMap fun k' hk' => Writes.mono (copyK_writes (stSq_none ..)) ?_
    rintro t ⟨m, n, rfl, -⟩
    have := (ho k' hk').1
    simp [uVw, TMat.at', this]

theorem drvT_exists (hnb : 0 < nb) (hib : 0 < ib) (hld : ∀ k, k ≠ kt → (dims k).1 ≤ ld k) {ins outs : List Nat}
    (hi : ∀ k ∈ ins, k ≠ kt ∧ (vw k).1 ≤ (dims k).1 ∧ (vw k).2 ≤ (dims k).2)
    (ho : ∀ k ∈ outs, k ≠ kt ∧ (vw k).1 ≤ (dims k).1 ∧ (vw k).2 ≤ (dims k).2)
    {P : List (TTask (Buf × Nat × Nat) α)}
    (hP : Good (evalid (drvEnvT nb dims ld kt ib gT)) P) (mem : Buf × Nat → α) :
    ∃ mem', Exec (drvEnvT nb dims ld kt ib gT) (driverV nb dims vw ins P outs) mem mem' :=
  Exec.exists (drvEnvT_wf hnb hib hld) (driverV_good hnb hi ho hP).loc (driverV_good hnb hi ho hP).ins mem

end Verif.Tile

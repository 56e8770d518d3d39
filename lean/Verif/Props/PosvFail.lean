/-
What `plasma_zposv` and `plasma_zgesv` leave in the right-hand sides when they fail: C84.
-/
import Verif.Props.Posv
import Verif.Touched
import Verif.Props.Lag2
import Verif.Props.LuSolve

namespace Verif.Props

open Verif.Layout Verif.Tile Verif.Sched Verif.Panel Finset

universe u v w

/-- `t` is created before `t'`. -/
def Before {β : Type u} (P : List β) (t t' : β) : Prop := ∃ i j : Nat, i < j ∧ P[i]? = some t ∧ P[j]? = some t'

section
variable {β : Type u} {P Q : List β} {t t' : β}

theorem Before.of_append (h : t ∈ P) (h' : t' ∈ Q) : Before (P ++ Q) t t' := by
  obtain ⟨i, hi⟩ := List.mem_iff_getElem?.mp h
  obtain ⟨j, hj⟩ := List.mem_iff_getElem?.mp h'
  have hl : i < P.length := (List.getElem?_eq_some_iff.mp hi).1
  refine ⟨i, P.length + j, by omega, by rw [List.getElem?_append_left hl]; exact hi, ?_⟩
  rw [List.getElem?_append_right (by omega)]
  simpa using hj

theorem Before.left (h : Before P t t') : Before (P ++ Q) t t' := by
  obtain ⟨i, j, hij, hi, hj⟩ := h
  refine ⟨i, j, hij, ?_, ?_⟩
  · rw [List.getElem?_append_left (List.getElem?_eq_some_iff.mp hi).1]; exact hi
  · rw [List.getElem?_append_left (List.getElem?_eq_some_iff.mp hj).1]; exact hj

theorem Before.right (h : Before Q t t') : Before (P ++ Q) t t' := by
  obtain ⟨i, j, hij, hi, hj⟩ := h
  refine ⟨P.length + i, P.length + j, by omega, ?_, ?_⟩ <;>
    rw [List.getElem?_append_right (by omega)] <;> simpa

theorem Before.flatMap {γ : Type v} {f : γ → List β} {l : List γ} {k : γ} (hk : k ∈ l) (h : Before (f k) t t') :
    Before (l.flatMap f) t t' := by
  obtain ⟨l1, l2, rfl⟩ := List.append_of_mem hk
  rw [List.flatMap_append, List.flatMap_cons]
  exact h.left.right

theorem Before.mem_left (h : Before P t t') : t ∈ P := by
  obtain ⟨_, _, _, hi, _⟩ := h
  exact List.mem_iff_getElem?.mpr ⟨_, hi⟩

theorem Before.mem_right (h : Before P t t') : t' ∈ P := by
  obtain ⟨_, _, _, _, hj⟩ := h
  exact List.mem_iff_getElem?.mpr ⟨_, hj⟩
end

section
variable {α : Type v} [Field α] [StarRing α] [DecidableEq α] {M : Type} {dv : α → α → α} {A B : TMat M} {b : Nat}

/-- In a solve from the left, the task that solves for tile `(k, n)` of `B`. -/
theorem trsm_diag {u : Uplo} {t : Trans} {d : Diag} {al : α} (hB : B.Al b) {k n : Nat}
    (hk : k < B.d.mt) (hn : n < B.d.nt) :
    ∃ x ∈ pztrsm dv .left u t d al A B, (A.at' k k, false) ∈ x.deps ∧ (B.at' k n, true) ∈ x.deps := by
  rw [hB.mt_eq] at hk
  rw [hB.nt_eq] at hn
  rw [pztrsm_eq hB rfl rfl]
  set K := ceilDiv B.d.m b with hK
  have hoo : ord (trFwd .left u t) K (ord (trFwd .left u t) K k) = k := by
    unfold ord; split <;> omega
  refine ⟨trTask dv .left u t d al A B b B.d.m B.d.n (ord (trFwd .left u t) K k) (ord (trFwd .left u t) K k, n), ?_, ?_, ?_⟩
  · refine List.mem_flatMap.mpr ⟨ord (trFwd .left u t) K k, ?_, List.mem_flatMap.mpr ⟨(ord (trFwd .left u t) K k, n), ?_, by simp⟩⟩
    · rw [List.mem_range]; simp only [trN, if_true]; unfold ord; split <;> omega
    · simp only [trIdx, if_true]
      refine List.mem_append_left _ (List.mem_map.mpr ⟨n, ?_, rfl⟩)
      rw [List.mem_range]; exact hn
  · simp [trTask, ← hK, hoo, coreTrsm, op1]
  · simp [trTask, ← hK, hoo, coreTrsm, op1, trB]

/-- In a solve from the left, the task that updates tile `(m, n)` of `B` by tile `(k, n)` after the latter was
solved for. -/
theorem trsm_upd {u : Uplo} {t : Trans} {d : Diag} {al : α} (hB : B.Al b) {k m n : Nat}
    (hk : k < B.d.mt) (hm : m < B.d.mt) (hn : n < B.d.nt) (hkm : if opLow u t then k < m else m < k) :
    ∃ x y, Before (pztrsm dv .left u t d al A B) x y ∧
      (A.at' k k, false) ∈ x.deps ∧ (B.at' k n, true) ∈ x.deps ∧
      (B.at' k n, false) ∈ y.deps ∧ (B.at' m n, true) ∈ y.deps := by
  rw [hB.mt_eq] at hk hm
  rw [hB.nt_eq] at hn
  rw [pztrsm_eq hB rfl rfl]
  set K := ceilDiv B.d.m b with hK
  have hoo : ∀ k, k < K → ord (trFwd .left u t) K (ord (trFwd .left u t) K k) = k := by
    intro k _; unfold ord; split <;> omega
  have hlt : ord (trFwd .left u t) K k < ord (trFwd .left u t) K m := by
    unfold trFwd ord
    cases hq : opLow u t <;> simp [hq] at hkm ⊢ <;> omega
  have hmK : ord (trFwd .left u t) K m < K := by unfold ord; split <;> omega
  have hne : ¬ ord (trFwd .left u t) K m = ord (trFwd .left u t) K k := by omega
  refine ⟨trTask dv .left u t d al A B b B.d.m B.d.n (ord (trFwd .left u t) K k) (ord (trFwd .left u t) K k, n),
    trTask dv .left u t d al A B b B.d.m B.d.n (ord (trFwd .left u t) K k) (ord (trFwd .left u t) K m, n), ?_, ?_, ?_, ?_, ?_⟩
  · refine Before.flatMap (k := ord (trFwd .left u t) K k) ?_ ?_
    · rw [List.mem_range]; simp only [trN, if_true]; omega
    · simp only [trIdx, if_true, List.flatMap_append]
      refine Before.of_append ?_ ?_
      · exact List.mem_flatMap.mpr ⟨_, List.mem_map.mpr ⟨n, List.mem_range.mpr hn, rfl⟩, by simp⟩
      · refine List.mem_flatMap.mpr ⟨(ord (trFwd .left u t) K m, n), ?_, by simp⟩
        refine List.mem_flatMap.mpr ⟨ord (trFwd .left u t) K m, mem_span.mpr ⟨by omega, hmK⟩, ?_⟩
        exact List.mem_map.mpr ⟨n, List.mem_range.mpr hn, rfl⟩
  · simp [trTask, ← hK, hoo k hk, coreTrsm, op1]
  · simp [trTask, ← hK, hoo k hk, coreTrsm, op1, trB]
  · simp [trTask, ← hK, hoo k hk, hne, coreGemm, op2, trB]
  · simp [trTask, ← hK, hoo m hm, hne, coreGemm, op2, trB]

/-- Every tile `(m, n)` of `B` has a task of a forward solve followed by a backward solve that names it as output
and needs diagonal tile `k` of `A`, itself or through another task. -/
theorem solves_needs {u u' : Uplo} {t t' : Trans} {d d' : Diag} {al al' : α} (hB : B.Al b)
    (h1 : opLow u t = true) (h2 : opLow u' t' = false) {k m n : Nat}
    (hk : k < B.d.mt) (hm : m < B.d.mt) (hn : n < B.d.nt) :
    ∃ x y, (A.at' k k, false) ∈ x.deps ∧ (B.at' m n, true) ∈ y.deps ∧
      x ∈ pztrsm dv .left u t d al A B ++ pztrsm dv .left u' t' d' al' A B ∧
      (x = y ∨ (Before (pztrsm dv .left u t d al A B ++ pztrsm dv .left u' t' d' al' A B) x y ∧
        (B.at' k n, true) ∈ x.deps ∧ (B.at' k n, false) ∈ y.deps)) := by
  rcases Nat.lt_trichotomy m k with h | rfl | h
  · obtain ⟨x, hx, hx1, hx2⟩ := trsm_diag (dv := dv) (u := u) (t := t) (d := d) (al := al) (A := A) hB hk hn
    obtain ⟨_, y, hxy, _, _, hy1, hy2⟩ := trsm_upd (dv := dv) (u := u') (t := t') (d := d') (al := al') (A := A) hB hk hm hn
      (by rw [h2]; exact h)
    exact ⟨x, y, hx1, hy2, List.mem_append_left _ hx, Or.inr ⟨Before.of_append hx hxy.mem_right, hx2, hy1⟩⟩
  · obtain ⟨x, hx, hx1, hx2⟩ := trsm_diag (dv := dv) (u := u) (t := t) (d := d) (al := al) (A := A) hB hk hn
    exact ⟨x, x, hx1, hx2, List.mem_append_left _ hx, Or.inl rfl⟩
  · obtain ⟨x, y, hxy, hx1, hx2, hy1, hy2⟩ := trsm_upd (dv := dv) (u := u) (t := t) (d := d) (al := al) (A := A) hB hk hm hn
      (by rw [h1]; exact h)
    exact ⟨x, y, hx1, hy2, List.mem_append_left _ hxy.mem_left, Or.inr ⟨hxy.left, hx2, hy1⟩⟩

/-- If a task of the first part of a program names diagonal tile `k` of `A` as output and two solves follow, then
every tile of `B` is named as output by a task that depends on it. -/
theorem after_solves {u u' : Uplo} {t t' : Trans} {d d' : Diag} {al al' : α} (hB : B.Al b)
    (h1 : opLow u t = true) (h2 : opLow u' t' = false) {P : List (GTTask (M × Nat × Nat) α)}
    {F : List (TTask (M × Nat × Nat) α)}
    (hP : tasks P = F ++ (pztrsm dv .left u t d al A B ++ pztrsm dv .left u' t' d' al' A B))
    {i : Nat} (hi : i < F.length) {x0 : TTask (M × Nat × Nat) α} (hx0 : F[i]? = some x0) {k m n : Nat}
    (hx : (A.at' k k, true) ∈ x0.deps) (hk : k < B.d.mt) (hm : m < B.d.mt) (hn : n < B.d.nt) :
    ∃ (j : Nat) (y : GTTask (M × Nat × Nat) α), P[j]? = some y ∧ (B.at' m n, true) ∈ y.task.deps ∧
      Relation.TransGen (TEdge (tasks P)) i j := by
  obtain ⟨x, y, hx1, hy1, hxm, hxy⟩ := solves_needs (dv := dv) (A := A) (d := d) (d' := d') (al := al) (al' := al')
    hB h1 h2 hk hm hn
  set S := pztrsm dv .left u t d al A B ++ pztrsm dv .left u' t' d' al' A B with hSd
  have hS : ∀ (j : Nat) z, S[j]? = some z → (tasks P)[F.length + j]? = some z := by
    intro j z h
    rw [hP, List.getElem?_append_right (by omega), Nat.add_sub_cancel_left, h]
  have hF : (tasks P)[i]? = some x0 := by rw [hP, List.getElem?_append_left hi, hx0]
  have hT : ∀ (j : Nat) z, (tasks P)[j]? = some z → ∃ t, P[j]? = some t ∧ t.task = z := by
    intro j z h
    unfold tasks at h
    rw [List.getElem?_map, Option.map_eq_some_iff] at h
    exact h
  have h0 : ∀ j : Nat, S[j]? = some x → Relation.TransGen (TEdge (tasks P)) i (F.length + j) := fun j hj =>
    .single ⟨by omega, _, _, hF, hS j x hj, Or.inr ⟨_, hx, _, hx1, rfl, Or.inl rfl⟩⟩
  rcases hxy with rfl | ⟨⟨j1, j2, h12, hj1, hj2⟩, hx2, hy2⟩
  · obtain ⟨j, hj⟩ := List.mem_iff_getElem?.mp hxm
    obtain ⟨t, ht, e⟩ := hT _ _ (hS j x hj)
    exact ⟨_, t, ht, by rw [e]; exact hy1, h0 j hj⟩
  · obtain ⟨t, ht, e⟩ := hT _ _ (hS j2 y hj2)
    exact ⟨_, t, ht, by rw [e]; exact hy1, (h0 j1 hj1).tail
      ⟨by omega, _, _, hS j1 x hj1, hS j2 y hj2, Or.inr ⟨_, hx2, _, hy2, rfl, Or.inl rfl⟩⟩⟩
end

section
variable {𝕜 : Type v} [RCLike 𝕜] [DecidableEq 𝕜] {M : Type} {dv : 𝕜 → 𝕜 → 𝕜} {A B : TMat M} {b : Nat}
  {pk : Uplo → Nat → Tl 𝕜 → Tl 𝕜} {info : Uplo → Nat → Tl 𝕜 → Nat} {u : Uplo}

omit [DecidableEq 𝕜] in
theorem code_okT {P : List (TTask M 𝕜)} {x : GTTask M 𝕜} (h : x ∈ okT P) (s : Store M 𝕜) : x.code s = 0 := by
  obtain ⟨_, _, rfl⟩ := List.mem_map.mp h; rfl

/-- A task of the Cholesky factorization that fails is one that factors a diagonal tile. -/
theorem pzpotrf_fails (hA : A.Al b) (hsq : A.d.m = A.d.n) {x : GTTask (M × Nat × Nat) 𝕜}
    (hx : x ∈ pzpotrf pk info dv u A) {s : Store (M × Nat × Nat) 𝕜} (h0 : x.code s ≠ 0) :
    ∃ k, k < A.d.mt ∧ (A.at' k k, true) ∈ x.task.deps := by
  have hmn : A.d.mt = A.d.nt := by rw [hA.mt_eq, hA.nt_eq, hsq]
  unfold pzpotrf at hx
  cases u
  · simp only [reduceCtorEq, if_false] at hx
    obtain ⟨k, hk, hx⟩ := List.mem_flatMap.mp hx
    rw [List.mem_range] at hk
    rcases List.mem_cons.mp hx with rfl | hx
    · exact ⟨k, hmn ▸ hk, List.mem_cons_self⟩
    · exact absurd (code_okT hx s) h0
  · simp only [if_true] at hx
    obtain ⟨k, hk, hx⟩ := List.mem_flatMap.mp hx
    rw [List.mem_range] at hk
    rcases List.mem_cons.mp hx with rfl | hx
    · exact ⟨k, hk, List.mem_cons_self⟩
    · exact absurd (code_okT hx s) h0
end

/-- **C84, posv.** If `plasma_zposv` returns a value other than 0, the array of the right-hand sides is
unchanged, whatever the schedule. -/
theorem C84_posv {𝕜 : Type v} [RCLike 𝕜] [DecidableEq 𝕜] {nb : Nat} (hnb : 0 < nb)
    {pk : Uplo → Nat → Tl 𝕜 → Tl 𝕜} {info : Uplo → Nat → Tl 𝕜 → Nat} (hpk : IsPotrf pk info) (dv : 𝕜 → 𝕜 → 𝕜)
    (u : Uplo) (n nrhs lda ldb : Nat) (hl : n ≤ lda) (hl' : n ≤ ldb) (mem mem' : Buf × Nat → 𝕜) (st : Int)
    (hx : GExec (drvEnvK nb (posDims n nrhs) (ld2 lda ldb) (posSt u)) (zposv nb pk info dv u n nrhs) mem mem' st)
    (hst : st ≠ 0) : ∀ x, mem' (.usr 1, x) = mem (.usr 1, x) := by
  unfold zposv at hx
  split at hx
  · obtain ⟨rfl, _⟩ := gexec_nil (drvEnvK_wf hnb (pos_ld hl hl') pos_sq) hx
    exact absurd rfl hst
  rename_i hq
  set A := tMat nb (posDims n nrhs) 0 with hAdef
  set B := tMat nb (posDims n nrhs) 1 with hBdef
  have hA : A.Al nb := al_t hnb 0
  have hB : B.Al nb := al_t hnb 1
  have homp : ompZposv pk info dv u A B = pzpotrf pk info dv u A ++ okT (poSolve dv u A B) := by
    unfold ompZposv; rw [if_neg]
    show ¬ (n = 0 ∨ nrhs = 0); omega
  rw [homp] at hx
  have hco : CodeOK (pzpotrf pk info dv u A ++ okT (poSolve dv u A B)) :=
    (pzpotrf_codeOK (N := n) hpk hA rfl rfl).append (CodeOK.ok _)
  have hw : OnTiles (tasks (pzpotrf pk info dv u A ++ okT (poSolve dv u A B))) := by
    rw [tasks_append, tasks_okT]
    exact ((pzpotrf_writes (N := n) hA rfl rfl).mono fun _ ht => ⟨0, ht⟩).append
      ((poSolve_writes hB).mono fun _ hx => ⟨1, hx⟩)
  obtain ⟨i, x0, hi, ⟨s, hs⟩, hval⟩ := gdrv_untouched (W := []) hnb (pos_ld hl hl') pos_sq (by simp)
    (hw.mono fun _ h => Or.inl h) hco.unguarded hx hst
  have hiL : i < (pzpotrf pk info dv u A).length := by
    by_contra hlt
    rw [List.getElem?_append_right (Nat.le_of_not_lt hlt)] at hi
    exact hst (hs ▸ code_okT (List.mem_of_getElem? hi) s)
  rw [List.getElem?_append_left hiL] at hi
  obtain ⟨k, hk, hwk⟩ := pzpotrf_fails hA rfl (List.mem_of_getElem? hi) (hs ▸ hst)
  have hAB : A.d.mt = B.d.mt := by rw [hA.mt_eq, hB.mt_eq]; rfl
  intro z
  refine hval 1 (by simp) z fun m q hm hq _ => ?_
  obtain ⟨j, y, hj, hy, hij⟩ := after_solves (P := pzpotrf pk info dv u A ++ okT (poSolve dv u A B))
    (F := tasks (pzpotrf pk info dv u A)) hB (u := u) (u' := u) (t := poT1 u) (t' := poT2 u) (d := .nonUnit) (d' := .nonUnit)
    (al := 1) (al' := 1) (dv := dv) (A := A) (by cases u <;> rfl) (by cases u <;> rfl)
    (by rw [tasks_append, tasks_okT]; rfl) (i := i) (by simpa using hiL) (x0 := x0.task)
    (by unfold tasks; rw [List.getElem?_map, hi]; rfl) hwk (hAB ▸ hk) hm hq
  exact ⟨j, y, hj, hy, Or.inr hij⟩

/-- `[1 0; 0 -1]` is not positive definite: executions of `plasma_zposv` that fail exist, with two
right-hand sides and tiles of size 1. -/
example : ∃ pk info mem mem' st, IsPotrf (𝕜 := ℝ) pk info ∧ st ≠ 0 ∧
    GExec (drvEnvK 1 (posDims 2 2) (ld2 3 2) (posSt .lower)) (zposv 1 pk info rdv .lower 2 2) mem mem' st := by
  classical
  obtain ⟨pk, info, hpk⟩ := exists_isPotrf (𝕜 := ℝ)
  obtain ⟨mem', st, hx⟩ := zposv_exists (nb := 1) (by decide) hpk rdv .lower (n := 2) (nrhs := 2) (lda := 3)
    (ldb := 2) (by decide) (by decide) (by decide) (by decide) fun x => if x = (.usr 0, 4) then -1 else 1
  refine ⟨pk, info, _, mem', st, hpk, ?_, hx⟩
  rintro rfl
  have := (C17_posv (by decide) hpk rdv_isDiv .lower 2 2 3 2 (by decide) (by decide) (by decide) _ mem' 0 hx).2.1.mp rfl
  have h := this.diag_pos (i := (1 : Fin 2))
  simp [herM, herE, arr] at h
  norm_num at h

section
variable {α : Type v} [Field α] [StarRing α] [DecidableEq α] {γ : Type w} [LinearOrder γ] {E : IntCode α} {mag : α → γ}
  {dv : α → α → α} {big : α → Bool} {nb ib mpt n nrhs lda ldb : Nat}

/-- A task of the LU factorization that fails is one that factors a panel. -/
theorem pzgetrf_fails {A P : TMat Buf} {x : GTTask (Buf × Nat × Nat) α} {rg : Bool}
    (hx : x ∈ pzgetrf rg E mag dv big ib mpt A P) {s : Store (Buf × Nat × Nat) α} (h0 : x.code s ≠ 0) :
    ∃ k, k < A.d.mt ∧ (A.at' k k, true) ∈ x.task.deps := by
  unfold pzgetrf at hx
  rcases List.mem_append.mp hx with hx | hx
  swap
  · exact absurd (safe_ok _ x hx s) h0
  obtain ⟨k, hk, hx⟩ := List.mem_flatMap.mp hx
  rw [List.mem_range] at hk
  unfold getrfStep at hx
  rcases List.mem_append.mp hx with hx | hx
  swap
  · exact absurd (safe_ok _ x hx s) h0
  rcases List.mem_append.mp hx with hx | hx
  · exact absurd (safe_ok _ x hx s) h0
  simp only [List.mem_cons, List.not_mem_nil, or_false] at hx
  rcases hx with rfl | rfl
  swap
  · exact absurd rfl h0
  refine ⟨k, by omega, ?_⟩
  show _ ∈ panelDeps rg A P k
  unfold panelDeps secCol
  by_cases hkl : k < A.d.mt - 1
  · refine List.mem_append_left _ ?_
    cases rg
    · simp [hkl]
    · simp only [if_true, List.mem_map]
      exact ⟨k, mem_span.mpr ⟨le_refl k, hkl⟩, rfl⟩
  · refine List.mem_append_right _ ?_
    obtain rfl : k = A.d.mt - 1 := by omega
    simp

/-- **C84, gesv.** If `plasma_zgesv` returns a value other than 0, the array of the right-hand sides is
unchanged, whatever the schedule and however array sections of `depend` clauses are matched. -/
theorem C84_gesv (rg : Bool) (hnb : 0 < nb) (hib : 0 < ib) (hmpt : 0 < mpt)
    (hl : n ≤ lda) (hl' : n ≤ ldb) (mem mem' : Buf × Nat → α) (stat : Int)
    (hx : GExec (drvEnvK nb (gsDims n nrhs) (gsLd n lda ldb) (fun _ => none))
      (zgesv rg E mag dv big nb ib mpt n nrhs) mem mem' stat) (hst : stat ≠ 0) :
    ∀ x, mem' (.usr 2, x) = mem (.usr 2, x) := by
  unfold zgesv at hx
  split at hx
  · obtain ⟨rfl, _⟩ := gexec_nil (drvEnvK_wf hnb (gs_ld (nrhs := nrhs) hl hl') gs_sq) hx
    exact absurd rfl hst
  rename_i hq
  have hmn : ¬ (n = 0 ∨ nrhs = 0) := by omega
  set A := tMat nb (gsDims n nrhs) 0 with hAd
  set B := tMat nb (gsDims n nrhs) 2 with hBd
  set P := uMat nb (gsDims n nrhs) 1 with hPd
  have hmn' : ¬ (A.d.n = 0 ∨ B.d.n = 0) := hmn
  have hA : A.Al nb := al_t hnb 0
  have hB : B.Al nb := al_t hnb 2
  have homp : ompZgesv rg E mag dv big ib mpt A P B = pzgetrf rg E mag dv big ib mpt A P ++
      (rawT (pzgeswp rg E true true B P) ++ (okT (pztrsm dv .left .lower .noTrans .unit 1 A B) ++
        okT (pztrsm dv .left .upper .noTrans .nonUnit 1 A B))) := by
    unfold ompZgesv; rw [if_neg hmn']
  have hC : CodeOK (ompZgesv rg E mag dv big ib mpt A P B) := by
    rw [homp]
    exact (pzgetrf_codeOK (gsv_fit (n := n) (nrhs := nrhs) (lda := lda) (ldb := ldb) hnb hib hmpt).ok rg).append
      ((codeOK_raw _).append ((CodeOK.ok _).append (CodeOK.ok _)))
  have htk : tasks (ompZgesv rg E mag dv big ib mpt A P B) = (tasks (pzgetrf rg E mag dv big ib mpt A P) ++
      pzgeswp rg E true true B P) ++ (pztrsm dv .left .lower .noTrans .unit 1 A B ++
        pztrsm dv .left .upper .noTrans .nonUnit 1 A B) := by
    rw [homp]; simp [tasks_append, tasks_okT]
  have hw : OnTilesW [1] (tasks (ompZgesv rg E mag dv big ib mpt A P B)) := by
    rw [htk, List.append_assoc]
    refine Writes.append ((pzgetrf_writes rg).mono fun x hx => ?_)
      ((getrsL_writes (rg := rg) (E := E) (dv := dv) (t := .noTrans) (A := A) (P := P) hB).mono fun x hx => Or.inl ⟨2, hx⟩)
    rcases hx with hx | hx
    · exact Or.inl ⟨0, hx⟩
    · exact Or.inr ⟨1, by simp, hx⟩
  obtain ⟨i, x0, hi, ⟨s, hs⟩, hval⟩ := gdrv_untouched hnb (gs_ld hl hl') gs_sq (by simp) hw hC.unguarded hx hst
  have hiL : i < (pzgetrf rg E mag dv big ib mpt A P).length := by
    by_contra hlt
    rw [homp, List.getElem?_append_right (Nat.le_of_not_lt hlt)] at hi
    refine hst (hs ▸ ?_)
    rcases List.mem_append.mp (List.mem_of_getElem? hi) with h | h
    · obtain ⟨_, _, rfl⟩ := List.mem_map.mp h; rfl
    · rcases List.mem_append.mp h with h | h <;> · obtain ⟨_, _, rfl⟩ := List.mem_map.mp h; rfl
  rw [homp, List.getElem?_append_left hiL] at hi
  obtain ⟨k, hk, hwk⟩ := pzgetrf_fails (List.mem_of_getElem? hi) (hs ▸ hst)
  have hAB : A.d.mt = B.d.mt := by rw [hA.mt_eq, hB.mt_eq]; rfl
  intro z
  refine hval 2 (by simp) z fun m q hm hq _ => ?_
  obtain ⟨j, y, hj, hy, hij⟩ := after_solves hB (by rfl) (by rfl) htk (i := i)
    (by simp only [List.length_append, tasks_length]; omega) (x0 := x0.task)
    (by
      rw [List.getElem?_append_left (by simpa using hiL)]
      unfold tasks; rw [List.getElem?_map, hi]; rfl) hwk (hAB ▸ hk) hm hq
  exact ⟨j, y, hj, hy, Or.inr hij⟩
end

/-- The zero matrix of order 2 is singular: executions of `plasma_zgesv` that fail exist, with three
right-hand sides and tiles of size 1. -/
example : ∃ mem mem' stat, stat ≠ 0 ∧ GExec (drvEnvK 1 (gsDims 2 3) (gsLd 2 2 2) (fun _ => none))
    (zgesv true ratCode (fun x : ℚ => |x|) qdv (fun _ => true) 1 1 1 2 3) mem mem' stat := by
  have hmag : IsMag (fun x : ℚ => |x|) := ⟨fun x hx => by simpa using hx⟩
  obtain ⟨mem', stat, hx⟩ := zgesv_exists (E := ratCode) (mag := fun x : ℚ => |x|) (dv := qdv) (big := fun _ => true)
    (nb := 1) (ib := 1) (mpt := 1) (n := 2) (nrhs := 3) (lda := 2) (ldb := 2) (by decide) (by decide) (by decide)
    (by decide) (by decide) (by decide) (by decide) fun _ => 0
  refine ⟨_, mem', stat, ?_, hx⟩
  rintro rfl
  have := (C24_gesv_partial qdv_isDiv hmag (by decide) (by decide) (by decide) (by decide) (by decide) (by decide)
    _ mem' 0 hx).1.mp rfl
  exact absurd (this (fun _ => 1) (fun r _ => by simp [arr]) 0 (by decide)) (by decide)

end Verif.Props

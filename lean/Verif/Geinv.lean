/-
Lemmas for `plasma_omp_zgeinv`: factorization, inversion of `U`, product with the inverse of `L`,
column interchanges.
-/
import Verif.Getri
import Verif.GetrfBase

set_option linter.unusedSectionVars false

namespace Verif.Tile

open Verif.Layout Verif.LU Verif.Panel Finset

universe u v w

section paths
variable {M : Type u} {α : Type v}

/-- A tip stays a tip: a later task that depends on the tile comes after every task that may fail. -/
theorem tip_path {P R Q : List (GTTask M α)} {a : M} (h : FTip P a) {i : Nat} {t' : GTTask M α} (hi : P[i]? = some t')
    (hs : ∃ s, t'.code s ≠ 0) {q : Nat} {t : GTTask M α} (hq : Q[q]? = some t) {m : Bool} (hd : (a, m) ∈ t.task.deps) :
    Relation.TransGen (TEdge (tasks (P ++ R ++ Q))) i ((P ++ R).length + q) := by
  obtain ⟨j, t'', hj, hdj, hr⟩ := h i t' hi hs
  have hj' : j < P.length := (List.getElem?_eq_some_iff.mp hj).1
  have h1 : Relation.ReflTransGen (TEdge (tasks (P ++ R ++ Q))) i j := by
    rw [List.append_assoc, tasks_append]
    exact Relation.ReflTransGen.mono (fun _ _ h => tedge_append_left _ h) _ _ hr
  refine Relation.TransGen.tail' h1 ⟨by simp only [List.length_append]; omega, t''.task, t.task, ?_, ?_, ?_⟩
  · rw [List.append_assoc, tasks_append, List.getElem?_append_left (by simpa using hj')]
    simp [tasks, hj]
  · rw [tasks_append, List.getElem?_append_right (by simp), tasks_length, Nat.add_sub_cancel_left]
    simp [tasks, hq]
  · exact Or.inr ⟨_, hdj, _, hd, rfl, Or.inl rfl⟩

end paths

section cov
variable {M : Type u} [DecidableEq M] {α : Type v} {E : IntCode α} {A P : TMat M} {b : Nat} {fwd : Bool}

/-- A task that forgets its accesses to the pivots. -/
def noPiv (P : TMat M) (t : TTask (M × Nat × Nat) α) : TTask (M × Nat × Nat) α :=
  { t with rd := fun a i j => t.rd a i j ∧ a.1 ≠ P.id, wr := fun a i j => t.wr a i j ∧ a.1 ≠ P.id }

theorem tedge_deps {L L' : List (TTask M α)} (h : ∀ i : Nat, (L[i]?).map TTask.deps = (L'[i]?).map TTask.deps) {i j : Nat}
    (he : TEdge L i j) (hph : ∀ i : Nat, (L[i]?).map TTask.phase = (L'[i]?).map TTask.phase) : TEdge L' i j := by
  obtain ⟨hij, t, t', h1, h2, hd⟩ := he
  have get : ∀ (k : Nat) (u : TTask M α), L[k]? = some u → ∃ u', L'[k]? = some u' ∧ u'.deps = u.deps ∧ u'.phase = u.phase := by
    intro k u hk
    have e1 := h k
    have e2 := hph k
    rw [hk] at e1 e2
    cases hx : L'[k]? with
    | none => rw [hx] at e1; simp at e1
    | some x =>
      rw [hx] at e1 e2
      simp only [Option.map_some, Option.some.injEq] at e1 e2
      exact ⟨x, rfl, e1.symm, e2.symm⟩
  obtain ⟨u, u1, u2, u3⟩ := get i t h1
  obtain ⟨u', v1, v2, v3⟩ := get j t' h2
  refine ⟨hij, u, u', u1, v1, ?_⟩
  unfold TDepOn at hd ⊢
  rw [u2, v2, u3, v3]
  exact hd

theorem noPiv_map {β : Type w} (f : TTask (M × Nat × Nat) α → β) (hf : ∀ t, f (noPiv P t) = f t)
    {L1 L2 S : List (TTask (M × Nat × Nat) α)} (i : Nat) :
    ((L1.map (noPiv P) ++ S ++ L2.map (noPiv P))[i]?).map f = ((L1 ++ S ++ L2)[i]?).map f := by
  rw [← List.getElem?_map, ← List.getElem?_map]
  congr 1
  simp only [List.map_append, List.map_map]
  congr 1
  · congr 1
    exact List.map_congr_left fun t _ => hf t
  · exact List.map_congr_left fun t _ => hf t

/-- Columnwise interchanges, sections matched by region, in a program that computes the pivots
before. -/
theorem geswp_cov_colsW (hA : A.Al b) (hP : P.Al b) (hne : A.id ≠ P.id) (hPn : P.d.n = 1) (hPm : A.d.n ≤ P.d.m)
    {L1 L2 : List (TTask (M × Nat × Nat) α)} (hd : ∀ t ∈ L1 ++ L2, t.Declared) (h1 : AnchPath A L1) :
    TCovered (L1 ++ pzgeswp true E false fwd A P ++ L2) := by
  have key : TCovered (L1.map (noPiv P) ++ pzgeswp true E false fwd A P ++ L2.map (noPiv P)) := by
    have hdec : ∀ t ∈ L1.map (noPiv P) ++ L2.map (noPiv P), t.Declared := by
      intro t ht
      rw [← List.map_append] at ht
      obtain ⟨u, hu, rfl⟩ := List.mem_map.mp ht
      exact ⟨fun a i j h => (hd u hu).1 a i j h.1, fun a i j h => (hd u hu).2 a i j h.1⟩
    refine geswp_cov_cols hA hne (tcovered_of_declared hdec) ?_ (fun t ht => hdec t (List.mem_append_right _ ht)) ?_
    · intro t ht a i j hw
      rw [← List.map_append] at ht
      obtain ⟨u, hu, rfl⟩ := List.mem_map.mp ht
      exact hw.2
    · intro i t ht m n k l hm hn hx
      rw [List.getElem?_map] at ht
      cases hu : L1[i]? with
      | none => rw [hu] at ht; simp at ht
      | some u =>
        rw [hu] at ht
        simp only [Option.map_some, Option.some.injEq] at ht
        subst ht
        obtain ⟨j, t', n', e1, e2, e3, e4⟩ := h1 i u hu m n k l hm hn (hx.imp (fun h => h.1) (fun h => h.1))
        refine ⟨j, noPiv P t', n', by rw [List.getElem?_map, e1]; rfl, e2, e3, ?_⟩
        refine Relation.ReflTransGen.mono (fun a b hab => tedge_deps ?_ hab ?_) _ _ e4 <;>
          (intro i; rw [List.getElem?_map, Option.map_map]; rfl)
  intro i j t t' hij hi hj hc
  have get : ∀ (k : Nat) (u : TTask (M × Nat × Nat) α), (L1 ++ pzgeswp true E false fwd A P ++ L2)[k]? = some u →
      (u ∈ L1 ++ L2 ∨ u ∈ pzgeswp true E false fwd A P) ∧
      ∃ u', (L1.map (noPiv P) ++ pzgeswp true E false fwd A P ++ L2.map (noPiv P))[k]? = some u' ∧
        u'.deps = u.deps ∧ u'.phase = u.phase ∧ (u' = u ∨ u' = noPiv P u) := by
    intro k u hk
    refine ⟨?_, ?_⟩
    · have := List.mem_of_getElem? hk
      simp only [List.mem_append] at this ⊢
      tauto
    · rw [List.append_assoc] at hk ⊢
      by_cases a1 : k < L1.length
      · rw [List.getElem?_append_left a1] at hk
        rw [List.getElem?_append_left (by simpa using a1), List.getElem?_map, hk]
        exact ⟨_, rfl, rfl, rfl, Or.inr rfl⟩
      · rw [List.getElem?_append_right (by omega)] at hk
        rw [List.getElem?_append_right (by simp; omega), List.length_map]
        by_cases a2 : k - L1.length < (pzgeswp true E false fwd A P).length
        · rw [List.getElem?_append_left a2] at hk ⊢
          exact ⟨u, hk, rfl, rfl, Or.inl rfl⟩
        · rw [List.getElem?_append_right (by omega)] at hk ⊢
          rw [List.getElem?_map, hk]
          exact ⟨_, rfl, rfl, rfl, Or.inr rfl⟩
  have back : ∀ {k l}, TEdge (L1.map (noPiv P) ++ pzgeswp true E false fwd A P ++ L2.map (noPiv P)) k l →
      TEdge (L1 ++ pzgeswp true E false fwd A P ++ L2) k l := by
    intro k l hkl
    exact tedge_deps (noPiv_map TTask.deps fun _ => rfl) hkl (noPiv_map TTask.phase fun _ => rfl)
  obtain ⟨m1, u, u1, u2, u3, u4⟩ := get i t hi
  obtain ⟨m2, u', v1, v2, v3, v4⟩ := get j t' hj
  obtain ⟨a, k, l, hcf⟩ := hc
  by_cases ha : a.1 = P.id
  · -- on the pivots every access is declared
    have dec : ∀ u, (u ∈ L1 ++ L2 ∨ u ∈ pzgeswp true E false fwd A P) →
        (u.rd a k l → ∃ w, (a, w) ∈ u.deps) ∧ (u.wr a k l → (a, true) ∈ u.deps) := by
      rintro u (hu | hu)
      · exact ⟨(hd u hu).1 a k l, (hd u hu).2 a k l⟩
      · rw [pzgeswp_cols, mem_hub] at hu
        obtain ⟨m, hm, h | rfl | h⟩ := hu
        · obtain ⟨d, rfl⟩ := nops_colPre A m u h
          exact ⟨fun h => h.elim, fun h => h.elim⟩
        · refine ⟨fun hr => ⟨false, ?_⟩, fun hw => ?_⟩
          · obtain ⟨r, c, hR, rfl⟩ := reg_tile (R := fun i j => i ∈ swpOrd fwd 1 A.d.n ∧ j = 0) hP hr
            rw [mem_swpOrd] at hR
            rw [hR.2, Nat.zero_div]
            exact List.mem_append_left _ (mem_sec (Nat.zero_le _) (hP.row_mt (by omega)))
          · obtain ⟨n, _, e⟩ := colT_tile hA (List.mem_range.mp hm) hw
            exact absurd (by rw [← ha, e]; rfl) hne
        · obtain ⟨d, rfl⟩ := nops_colPost A m u h
          exact ⟨fun h => h.elim, fun h => h.elim⟩
    obtain ⟨d1, d2⟩ := dec t m1
    obtain ⟨d1', d2'⟩ := dec t' m2
    apply Relation.TransGen.single
    refine ⟨hij, t, t', hi, hj, Or.inr ?_⟩
    rcases hcf with ⟨w1, r2 | w2⟩ | ⟨r1, w2⟩
    · obtain ⟨w, hw⟩ := d1' r2
      exact ⟨_, d2 w1, _, hw, rfl, Or.inl rfl⟩
    · exact ⟨_, d2 w1, _, d2' w2, rfl, Or.inl rfl⟩
    · obtain ⟨w, hw⟩ := d1 r1
      exact ⟨_, hw, _, d2' w2, rfl, Or.inr rfl⟩
  · refine Relation.TransGen.mono (fun _ _ h => back h) _ _ (key i j u u' hij u1 v1 ⟨a, k, l, ?_⟩)
    have tr : ∀ {x y : TTask (M × Nat × Nat) α}, (y = x ∨ y = noPiv P x) →
        (x.rd a k l → y.rd a k l) ∧ (x.wr a k l → y.wr a k l) := by
      rintro x y (rfl | rfl)
      · exact ⟨id, id⟩
      · exact ⟨fun h => ⟨h, ha⟩, fun h => ⟨h, ha⟩⟩
    rcases hcf with ⟨w1, r2 | w2⟩ | ⟨r1, w2⟩
    · exact Or.inl ⟨(tr u4).2 w1, Or.inl ((tr v4).1 r2)⟩
    · exact Or.inl ⟨(tr u4).2 w1, Or.inr ((tr v4).2 w2)⟩
    · exact Or.inr ⟨(tr u4).1 r1, (tr v4).2 w2⟩

end cov

section lu
variable {M : Type u} [DecidableEq M] {α : Type v} [Field α] [StarRing α] [DecidableEq α] {γ : Type w} [LinearOrder γ]
  {E : IntCode α} {mag : α → γ} {dv : α → α → α} {big : α → Bool} {A P : TMat M} {b ib mpt : Nat}

/-- Tasks of the factorization up to the panel of step `K`. -/
noncomputable def luPre (rg : Bool) (E : IntCode α) (mag : α → γ) (dv : α → α → α) (big : α → Bool) (ib mpt : Nat)
    (A P : TMat M) (K : Nat) : List (GTTask (M × Nat × Nat) α) :=
  (List.range K).flatMap (getrfStep rg E mag dv big ib mpt A P) ++
    okT ((span (K + 1) (A.d.mt - 1)).map fun m => nopT [(A.at' m K, false), (A.at' K K, true)]) ++
    [{ task := panelT (panelDeps rg A P K) E mag dv big ib mpt A P K, code := panelCode mag dv big ib mpt A K }]

theorem luPre_split (rg : Bool) {K : Nat} (hK : K < min A.d.mt A.d.nt) :
    ∃ R, pzgetrf rg E mag dv big ib mpt A P = luPre rg E mag dv big ib mpt A P K ++ R := by
  obtain ⟨R, hR⟩ := usteps_split _ K hK (getrfStep rg E mag dv big ib mpt A P)
  unfold pzgetrf luPre
  rw [hR, getrfStep_shape]
  refine ⟨({ task := adjustT (panelDeps rg A P K) E A P K, guard := false } ::
      okT ((span (K + 1) A.d.nt).map fun n => updT rg E dv A P K n)) ++
    (R ++ okT (getrfTail rg E A P)), ?_⟩
  simp only [List.append_assoc]

/-- Every panel up to step `K` comes before a task that writes the diagonal tile `K`. -/
theorem luPre_tip (rg : Bool) {K : Nat} (hK : K < min A.d.mt A.d.nt) :
    FTip (luPre rg E mag dv big ib mpt A P K) (A.at' K K) := by
  unfold luPre
  refine FTip.move (a := A.at' (A.d.mt - 1) K) (m := true) (((getrf_chain rg (by omega)).2 (by omega)).append (safe_okT _))
    ?_ ?_
  · show _ ∈ panelDeps rg A P K
    simp [panelDeps]
  · show _ ∈ panelDeps rg A P K
    unfold panelDeps
    by_cases h : K = A.d.mt - 1
    · rw [← h]; simp
    · exact List.mem_append_left _ (sec_head (by omega))

/-- Position of the panel of step `k`. -/
noncomputable def luPos (rg : Bool) (E : IntCode α) (mag : α → γ) (dv : α → α → α) (big : α → Bool) (ib mpt : Nat)
    (A P : TMat M) (k : Nat) : Nat := (luPre rg E mag dv big ib mpt A P k).length - 1

theorem luPre_pos (rg : Bool) (k : Nat) : (luPre rg E mag dv big ib mpt A P k)[luPos rg E mag dv big ib mpt A P k]? =
    some { task := panelT (panelDeps rg A P k) E mag dv big ib mpt A P k, code := panelCode mag dv big ib mpt A k } := by
  unfold luPos luPre
  rw [List.length_append, List.length_singleton, Nat.add_sub_cancel]
  simp

theorem luPos_code (rg : Bool) {k : Nat} (hk : k < min A.d.mt A.d.nt) (s : Store (M × Nat × Nat) α) :
    tcode (pzgetrf rg E mag dv big ib mpt A P) s (luPos rg E mag dv big ib mpt A P k) =
      panelCode mag dv big ib mpt A k
        (texec (tasks ((List.range k).flatMap (getrfStep rg E mag dv big ib mpt A P))) s) := by
  obtain ⟨R, hR⟩ := luPre_split (E := E) (mag := mag) (dv := dv) (big := big) (ib := ib) (mpt := mpt) (A := A) (P := P) rg hk
  rw [hR, tcode_append_left _ _ _ (List.getElem?_eq_some_iff.mp (luPre_pos rg k)).1]
  unfold luPos luPre
  rw [List.length_append, List.length_singleton, Nat.add_sub_cancel]
  have := tcode_append_right ((List.range k).flatMap (getrfStep rg E mag dv big ib mpt A P) ++
    okT ((span (k + 1) (A.d.mt - 1)).map fun m => nopT [(A.at' m k, false), (A.at' k k, true)]))
    [{ task := panelT (panelDeps rg A P k) E mag dv big ib mpt A P k, code := panelCode mag dv big ib mpt A k }] s 0
  refine this.trans ?_
  rw [tcode_cons_zero, tasks_append, texec_append, nops_run]

theorem luPre_mono (rg : Bool) {k K : Nat} (h : k ≤ K) :
    ∃ R, luPre rg E mag dv big ib mpt A P K = luPre rg E mag dv big ib mpt A P k ++ R := by
  rcases Nat.eq_or_lt_of_le h with rfl | h
  · exact ⟨[], by simp⟩
  · obtain ⟨R, hR⟩ := usteps_split _ k h (getrfStep rg E mag dv big ib mpt A P)
    unfold luPre
    rw [hR, getrfStep_shape]
    refine ⟨({ task := adjustT (panelDeps rg A P k) E A P k, guard := false } ::
      okT ((span (k + 1) A.d.nt).map fun n => updT rg E dv A P k n)) ++
      (R ++ (okT ((span (K + 1) (A.d.mt - 1)).map fun m => nopT [(A.at' m K, false), (A.at' K K, true)]) ++
      [{ task := panelT (panelDeps rg A P K) E mag dv big ib mpt A P K, code := panelCode mag dv big ib mpt A K }])), ?_⟩
    simp only [List.append_assoc]

/-- If all tasks that must come before `t` are successful, where `t` depends on the diagonal tile
`K` of the factored matrix, then so are the panels `0, …, K`. -/
theorem lu_before (rg : Bool) {K : Nat} (hK : K < min A.d.mt A.d.nt) {Q : List (GTTask (M × Nat × Nat) α)} {q : Nat}
    {t : GTTask (M × Nat × Nat) α} (hq : Q[q]? = some t) {w : Bool} (hd : (A.at' K K, w) ∈ t.task.deps)
    {s : Store (M × Nat × Nat) α}
    (hz : ∀ i, Relation.TransGen (TEdge (tasks (pzgetrf rg E mag dv big ib mpt A P ++ Q))) i
      ((pzgetrf rg E mag dv big ib mpt A P).length + q) → tcode (pzgetrf rg E mag dv big ib mpt A P ++ Q) s i = 0)
    {k : Nat} (hk : k ≤ K) : infov (panelOut mag dv big ib mpt A k
      (texec (tasks ((List.range k).flatMap (getrfStep rg E mag dv big ib mpt A P))) s)) = 0 := by
  obtain ⟨R, hR⟩ := luPre_split (E := E) (mag := mag) (dv := dv) (big := big) (ib := ib) (mpt := mpt) (A := A) (P := P) rg hK
  obtain ⟨R', hR'⟩ := luPre_mono (E := E) (mag := mag) (dv := dv) (big := big) (ib := ib) (mpt := mpt) (A := A) (P := P) rg hk
  obtain ⟨R'', hR''⟩ := luPre_split (E := E) (mag := mag) (dv := dv) (big := big) (ib := ib) (mpt := mpt) (A := A) (P := P)
    rg (show k < min A.d.mt A.d.nt by omega)
  have hpos := luPre_pos (E := E) (mag := mag) (dv := dv) (big := big) (ib := ib) (mpt := mpt) (A := A) (P := P) rg k
  have hlt := (List.getElem?_eq_some_iff.mp hpos).1
  have hcode := luPos_code (E := E) (mag := mag) (dv := dv) (big := big) (ib := ib) (mpt := mpt) (P := P) rg
    (show k < min A.d.mt A.d.nt by omega) s
  by_contra hne
  have hc0 : panelCode mag dv big ib mpt A k
        (texec (tasks ((List.range k).flatMap (getrfStep rg E mag dv big ib mpt A P))) s) ≠ 0 := by
    unfold panelCode
    rw [if_neg hne]
    omega
  refine hc0 ?_
  rw [← hcode]
  have h1 := hz (luPos rg E mag dv big ib mpt A P k) ?_
  · rwa [tcode_append_left _ _ _ (by rw [hR'', List.length_append]; omega)] at h1
  · rw [hR]
    refine tip_path (luPre_tip rg hK) (t' := { task := panelT (panelDeps rg A P k) E mag dv big ib mpt A P k, code := panelCode mag dv big ib mpt A k }) ?_ ⟨_, hc0⟩ hq hd
    rw [hR', List.getElem?_append_left hlt]
    exact hpos

/-- The diagonal of a panel that was factored without failure is not changed any more. -/
theorem lu_diag (hdv : IsDiv dv) (hmag : IsMag mag) (h : LuOK b A P ib mpt) (rg : Bool) {K : Nat}
    (hK : K ≤ min A.d.mt A.d.nt) (s : Store (M × Nat × Nat) α)
    (hok : ∀ k, k < K → infov (panelOut mag dv big ib mpt A k
      (texec (tasks ((List.range k).flatMap (getrfStep rg E mag dv big ib mpt A P))) s)) = 0)
    {c : Nat} (hc : c < min (min A.d.m A.d.n) (K * b)) :
    A.el (texec (tasks (pzgetrf rg E mag dv big ib mpt A P)) s) c c ≠ 0 := by
  have hI := (getrf_loop hdv hmag h rg s hK hok).dia c hc
  have hb := h.a.pos
  have e : (List.range (min A.d.mt A.d.nt)) = List.range K ++ (List.range (min A.d.mt A.d.nt - K)).map (K + ·) := by
    rw [← List.range_add, Nat.add_sub_of_le hK]
  rw [tasks_pzgetrf, e, List.flatMap_append, texec_append, texec_append, ← tasks_flatMap (l := List.range K)]
  set s1 := texec (tasks ((List.range K).flatMap (getrfStep rg E mag dv big ib mpt A P))) s with hs1
  suffices H : A.el (texec (getrfTail rg E A P) (texec
      (((List.range (min A.d.mt A.d.nt - K)).map (K + ·)).flatMap fun k =>
        tasks (getrfStep rg E mag dv big ib mpt A P k)) s1)) c c = A.el s1 c c by
    rw [H]; exact hI
  have hel : ∀ {L : List (TTask (M × Nat × Nat) α)} (s : Store (M × Nat × Nat) α),
      (∀ t ∈ L, ¬ t.wr (A.at' (c / b) (c / b)) (c % b) (c % b)) → A.el (texec L s) c c = A.el s c c := by
    intro L s hL
    simp only [TMat.el, h.a.mb, h.a.nb]
    exact texec_frame_el fun ⟨t, ht, hw⟩ => hL t ht hw
  have hreg : ∀ {R : Nat → Nat → Prop}, A.reg R (A.at' (c / b) (c / b)) (c % b) (c % b) → R c c := by
    intro R hw
    obtain ⟨r, c', hR, e1, e2, e3, -, -⟩ := TMat.reg_iff.mp hw
    rw [h.a.mb] at e1 e2
    rw [h.a.nb] at e1 e3
    obtain ⟨g1, g2⟩ := TMat.at'_inj.mp e1
    have a1 : c = r := by rw [← Nat.div_add_mod c b, g1, e2, Nat.div_add_mod]
    have a2 : c = c' := by rw [← Nat.div_add_mod c b, g2, e3, Nat.div_add_mod]
    rw [← a1, ← a2] at hR
    exact hR
  have hregP : ∀ {R : Nat → Nat → Prop}, ¬ P.reg R (A.at' (c / b) (c / b)) (c % b) (c % b) := fun hw => h.ne hw.1
  rw [hel, hel]
  · intro t ht hw
    obtain ⟨k, hk, ht⟩ := List.mem_flatMap.mp ht
    obtain ⟨q, hq, rfl⟩ := List.mem_map.mp hk
    rw [List.mem_range] at hq
    have hkb : c < (K + q) * b := by
      have := Nat.mul_le_mul_right b (Nat.le_add_right K q)
      omega
    rw [tasks_getrfStep] at ht
    simp only [List.mem_append, List.mem_cons, List.not_mem_nil, or_false, List.mem_map] at ht
    have htile : ∀ {m n : Nat}, K + q ≤ m → A.at' (c / b) (c / b) ≠ A.at' m n := by
      intro m n hm e
      have := (TMat.at'_inj.mp e).1
      have h2 := (Nat.div_lt_iff_lt_mul hb).mpr hkb
      omega
    rcases ht with ⟨m, -, rfl⟩ | (rfl | rfl) | ⟨n, hn, rfl⟩
    · exact hw
    · rcases hw with hw | hw
      · have := hreg hw
        rw [h.a.mb] at this
        omega
      · exact hregP hw
    · exact hregP (R := fun i j => (K + q) * A.d.mb ≤ i ∧ i < min A.d.m ((K + q) * A.d.mb + A.d.nview (K + q)) ∧ j = 0) hw
    · obtain ⟨t, ht, hw⟩ := hw
      unfold updBody at ht
      simp only [List.cons_append, List.nil_append, List.mem_cons, List.mem_flatMap, List.not_mem_nil, or_false] at ht
      rcases ht with rfl | rfl | ⟨m, hm, rfl⟩
      · have := hreg (R := fun r c => (K + q) * A.d.mb ≤ r ∧ r < A.d.m ∧ n * A.d.nb ≤ c ∧
          c < n * A.d.nb + A.d.nview n) hw
        rw [h.a.mb] at this
        omega
      · exact htile (le_refl _) hw.1
      · rw [mem_span] at hm
        exact htile (by omega) hw.1
  · intro t ht hw
    unfold getrfTail at ht
    simp only [List.mem_append, List.mem_map, List.mem_flatMap, List.mem_cons] at ht
    rcases ht with ⟨m, -, rfl⟩ | ⟨k, -, rfl | ⟨m, -, rfl⟩⟩
    · exact hw
    · have := hreg (R := fun r c => (k + 1) * A.d.mb ≤ r ∧ r < A.d.m ∧ k * A.d.nb ≤ c ∧ c < k * A.d.nb + A.d.nb) hw
      rw [h.a.mb, h.a.nb] at this
      have e : (k + 1) * b = k * b + b := by ring
      omega
    · exact hw

end lu

end Verif.Tile

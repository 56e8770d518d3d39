/-
What is left in the user's arrays when a band or Hermitian indefinite solver fails: C85.
-/
import Verif.Props.PosvFail
import Verif.Props.GbRace
import Verif.Props.Hetrs
import Verif.Props.Pb

set_option linter.unusedSectionVars false

namespace Verif.Props

open Verif.Tile Verif.Layout Verif.LU Verif.Panel Verif.Aasen Verif.Sched Finset

universe v w

/-- A program in which every task that can fail is in an earlier phase than the tasks that copy the results back: after a failure nothing
was copied back. -/
theorem GExec.late {M : Type} {α : Type v} {env : M → MatEnv} {I R O : List (TTask (M × Nat × Nat) α)} {L : List (GTTask (M × Nat × Nat) α)}
    {p q : Nat} (hpq : p < q) (hL : CodeOK L) {b : M}
    (hI : Writes (fun x => x.1 ≠ b) I) (hLw : Writes (fun x => x.1 ≠ b) (tasks L)) (hR : Writes (fun x => x.1 ≠ b) R)
    {mem mem' : M × Nat → α} {st : Int}
    (hx : GExec env (okT I ++ (phG p L ++ okT R) ++ okT (O.map (phT q))) mem mem' st) (hst : st ≠ 0) (z : Nat) :
    mem' (b, z) = mem (b, z) := by
  have hco : CodeOK (okT I ++ (phG p L ++ okT R) ++ okT (O.map (phT q))) :=
    ((CodeOK.ok _).append ((phG_codeOK hL).append (CodeOK.ok _))).append (CodeOK.ok _)
  have hc0 : ∀ (T : List (TTask (M × Nat × Nat) α)) t, t ∈ okT T → ∀ s, t.code s = 0 := by
    intro T t ht s
    obtain ⟨_, -, rfl⟩ := List.mem_map.mp ht
    rfl
  obtain ⟨i, t, hti, ⟨s, hs⟩, hun⟩ := hx.untouched hco.unguarded hst
  refine hun _ fun n t' hn a k l hw he => ?_
  have hab : a.1 = b := congrArg Prod.fst he
  -- the writing task copies back
  have hO : (okT I ++ (phG p L ++ okT R)).length ≤ n := by
    by_contra hlt
    rw [List.getElem?_append_left (by omega)] at hn
    have hm := List.mem_of_getElem? hn
    rcases List.mem_append.mp hm with h | h
    · obtain ⟨u, hu, rfl⟩ := List.mem_map.mp h
      exact hI u hu a k l hw hab
    · rcases List.mem_append.mp h with h | h
      · obtain ⟨u, hu, rfl⟩ := List.mem_map.mp h
        exact hLw u.task (List.mem_map.mpr ⟨u, hu, rfl⟩) a k l hw hab
      · obtain ⟨u, hu, rfl⟩ := List.mem_map.mp h
        exact hR u hu a k l hw hab
  -- the failing task is one of `L`
  have hi : i < (okT I ++ (phG p L ++ okT R)).length ∧ t.task.phase = p := by
    by_cases hlt : i < (okT I ++ (phG p L ++ okT R)).length
    · refine ⟨hlt, ?_⟩
      rw [List.getElem?_append_left hlt] at hti
      have hm := List.mem_of_getElem? hti
      rcases List.mem_append.mp hm with h | h
      · exact absurd (hs ▸ hc0 _ _ h s) hst
      · rcases List.mem_append.mp h with h | h
        · obtain ⟨u, hu, rfl⟩ := List.mem_map.mp h
          rfl
        · exact absurd (hs ▸ hc0 _ _ h s) hst
    · rw [List.getElem?_append_right (by omega)] at hti
      exact absurd (hs ▸ hc0 _ _ (List.mem_of_getElem? hti) s) hst
  have hn' := hn
  rw [List.getElem?_append_right hO] at hn'
  obtain ⟨u, hu, e⟩ := List.mem_map.mp (List.mem_of_getElem? hn')
  subst e
  obtain ⟨u', -, rfl⟩ := List.mem_map.mp hu
  refine ⟨rfl, Relation.TransGen.single ⟨by omega, t.task, phT q u', ?_, ?_, Or.inl ?_⟩⟩
  · unfold tasks; rw [List.getElem?_map, hti]; rfl
  · unfold tasks; rw [List.getElem?_map, hn]; rfl
  · rw [hi.2]; exact hpq

section
variable {α : Type v} [Field α] [StarRing α] [DecidableEq α] {γ : Type w} [LinearOrder γ]
variable {E : IntCode α} {mag : α → γ} {dv : α → α → α} {big : α → Bool} {ib mpt mth : Nat}
variable {nb n kl ku nrhs ldab ldb lda : Nat}

theorem gb_in_wr {p : BPar} (hp : p.OK) {k : Nat} :
    Writes (fun x => x.1 ≠ Buf.usr k) (pzpb2desc (α := α) p.v p.uA p.tA) := by
  intro t ht x i j hx
  obtain ⟨m, l, rfl, -⟩ := pzpb2desc_wr (N := p.n) (BPar.al_tA hp) rfl rfl t ht x i j hx
  show Buf.til 0 ≠ Buf.usr k
  simp

/-- **C85, `plasma_zgbtrf`.** Every execution that returns an error leaves the band array as it was, whatever the schedule, the contents of
the array and the extent of the dependences the panels announce. -/
theorem C85_gbtrf (hnb : 0 < nb) (hib : 0 < ib) (hmpt : 0 < mpt) (hl : (kl + nb) + max (ku + kl) (nb - 1) + 1 ≤ ldab) (rg : Bool)
    (mem mem' : Buf × Nat → α) (st : Int)
    (hx : GExec (gvPar nb n kl ku ldab 0 n).env (zgbtrf rg E mag dv big nb ib mpt n kl ku ldab) mem mem' st) (hst : st ≠ 0)
    (k : Nat) (hk : k ≠ 2) (z : Nat) : mem' (.usr k, z) = mem (.usr k, z) := by
  have hp : (gvPar nb n kl ku ldab 0 n).OK := gb_ok hnb hl le_rfl
  have hg := gb_OK (ib := ib) (mpt := mpt) hp hib hmpt
  unfold zgbtrf at hx
  simp only at hx
  refine GExec.late (env := (gvPar nb n kl ku ldab 0 n).env) (I := pzpb2desc none (gvPar nb n kl ku ldab 0 n).uA (gvPar nb n kl ku ldab 0 n).tA) (R := [])
    (L := pzgbtrf rg E mag dv big ib mpt (gvPar nb n kl ku ldab 0 n).tA (gvPar nb n kl ku ldab 0 n).uP) (p := 1) (q := 2)
    (by decide) (pzgbtrf_codeOK hg rg) (gb_in_wr hp) ((pzgbtrf_writes hg rg).mono ?_) (by intro t ht; simp at ht) ?_ hst z
    (O := pzdesc2pb none (gvPar nb n kl ku ldab 0 n).tA (gvPar nb n kl ku ldab 0 n).uA)
  · rintro x (h | h) <;> rw [h]
    · simp [BPar.tA, bandT]
    · simpa [BPar.uP, TMat.full] using Ne.symm hk
  · rw [show okT ([] : List (TTask (Buf × Nat × Nat) α)) = [] from rfl, List.append_nil]
    exact hx

/-- **C85, `plasma_zgbsv`.** Every execution that returns an error leaves the band array and the right-hand sides as they were. -/
theorem C85_gbsv (hnb : 0 < nb) (hib : 0 < ib) (hmpt : 0 < mpt) (hl : (kl + nb) + max (ku + kl) (nb - 1) + 1 ≤ ldab) (hl' : n ≤ ldb)
    (rg : Bool) (mem mem' : Buf × Nat → α) (st : Int)
    (hx : GExec (gvPar nb n kl ku ldab nrhs ldb).env (zgbsv rg E mag dv big nb ib mpt n kl ku nrhs ldab ldb) mem mem' st) (hst : st ≠ 0)
    (k : Nat) (hk : k ≠ 2) (z : Nat) : mem' (.usr k, z) = mem (.usr k, z) := by
  have hp : (gvPar nb n kl ku ldab nrhs ldb).OK := gb_ok hnb hl hl'
  have hg := gb_OK (ib := ib) (mpt := mpt) hp hib hmpt
  unfold zgbsv at hx
  simp only at hx
  by_cases h0 : min n nrhs = 0
  · rw [if_pos h0] at hx
    obtain ⟨i, t, hti, -⟩ := hx.untouched (by simp) hst
    simp at hti
  rw [if_neg h0] at hx
  unfold ompZgbsv at hx
  rw [if_neg (by
    show ¬ (n = 0 ∨ nrhs = 0)
    omega)] at hx
  refine GExec.late (L := pzgbtrf rg E mag dv big ib mpt (gvPar nb n kl ku ldab nrhs ldb).tA (gvPar nb n kl ku ldab nrhs ldb).uP)
    (by omega) (pzgbtrf_codeOK hg rg) ((gb_in_wr hp).append (copyTasks_writes.mono ?_)) ((pzgbtrf_writes hg rg).mono ?_)
    (gbSolve_writes.mono ?_) hx hst z
  · rintro x h
    rw [h]
    simp [BPar.tB]
  · rintro x (h | h) <;> rw [h]
    · simp [BPar.tA, bandT]
    · simpa [BPar.uP, TMat.full] using Ne.symm hk
  · rintro x h
    rw [h]
    simp [BPar.tB]

/-- **C85, `plasma_zhetrf`.** Every execution that returns an error leaves the arrays of `A` and of `T` as they were. -/
theorem C85_hetrf {q : Nat} (hnb : 0 < nb) (hn : nb < n) (hlda : n ≤ lda) (hq : 4 ≤ q) (hib : 0 < ib) (hmpt : 0 < mpt) (rg : Bool)
    (mem mem' : Buf × Nat → α) (st : Int)
    (hx : GExec (htPar nb n lda q).env (zhetrf rg E mag dv big ib mpt mth (htPar nb n lda q)) (heInit E (htPar nb n lda q) mem) mem' st)
    (hst : st ≠ 0) (k : Nat) (hk : k ≠ 2 ∧ k ≠ 4) (z : Nat) : mem' (.usr k, z) = mem (.usr k, z) := by
  rw [htrf_prog (by omega)] at hx
  have h : (htPar nb n lda q).OK := ⟨hnb, hn, hlda, Nat.mul_le_mul_right _ hq, le_refl _, hq⟩
  have hz := h.cfg (mth := mth) hib hmpt
  have hZ := HPar.mats_ok (ib := ib) (mpt := mpt) (mth := mth) h
  have hg := HPar.gbOK h hib hmpt
  rw [← heInit_usr (E := E) (p := htPar nb n lda q) (mem := mem) (Or.inl hk.2)]
  refine GExec.late (by decide) (hetrfL_codeOK hz hZ hg rg) ((HPar.inA_wr h).mono ?_) ((hetrfL_writes hz hZ hg rg).mono ?_)
    (by intro t ht; simp at ht) hx hst z
  · rintro x e
    rw [e]; simp
  · rintro x (e | e | e | e | e) <;> rw [e] <;> simp [HPar.mats, HPar.tA, HPar.tT, HPar.uP, HPar.uQ, HPar.tW, bandT, TMat.full] <;> omega

/-- **C85, `plasma_zhesv`.** Every execution that returns an error leaves the right-hand sides, and the arrays of `A` and `T`, as they
were. -/
theorem C85_hesv (hnb : 0 < nb) (hn : nb < n) (hr : 0 < nrhs) (hlda : n ≤ lda) (hldb : n ≤ ldb) (hib : 0 < ib) (hmpt : 0 < mpt) (rg : Bool)
    (mem mem' : Buf × Nat → α) (st : Int)
    (hx : GExec (hvPar nb n nrhs lda ldb).env (zhesv rg E mag dv big ib mpt mth (hvPar nb n nrhs lda ldb))
      (heInit E (hvPar nb n nrhs lda ldb) mem) mem' st)
    (hst : st ≠ 0) (k : Nat) (hk : k ≠ 2 ∧ k ≠ 4) (z : Nat) : mem' (.usr k, z) = mem (.usr k, z) := by
  have h : (hvPar nb n nrhs lda ldb).OK := ⟨hnb, hn, hlda, le_refl _, hldb, le_refl _⟩
  have hz := h.cfg (mth := mth) hib hmpt
  have hZ := HPar.mats_ok (ib := ib) (mpt := mpt) (mth := mth) h
  have hg := HPar.gbOK h hib hmpt
  unfold zhesv ompZhesv at hx
  rw [if_neg (by
    show ¬ (n = 0 ∨ nrhs = 0)
    omega)] at hx
  rw [← heInit_usr (E := E) (p := hvPar nb n nrhs lda ldb) (mem := mem) (Or.inl hk.2)]
  refine GExec.late (by omega) (hetrfL_codeOK hz hZ hg rg) ((conv_wr h).mono ?_) ((hetrfL_writes hz hZ hg rg).mono ?_)
    ((hetrsL_writes (HPar.hsOK h)).mono ?_) hx hst z
  · rintro x (e | e | e) <;> rw [e] <;> simp
  · rintro x (e | e | e | e | e) <;> rw [e] <;> simp [HPar.mats, HPar.tA, HPar.tT, HPar.uP, HPar.uQ, HPar.tW, bandT, TMat.full] <;> omega
  · rintro x e
    rw [e]
    simp [HPar.tB, TMat.full]

end

/-! ### `plasma_zpbsv` -/

section
variable {M' : Type} {β : Type v}

theorem tip_prepend {P Q : List (GTTask M' β)} {a : M'} (h : FTip P a) (hQ : Safe Q) : FTip (Q ++ P) a := by
  intro i t hi hs
  rcases Nat.lt_or_ge i Q.length with hlt | hge
  · rw [List.getElem?_append_left hlt] at hi
    obtain ⟨s, hs⟩ := hs
    exact absurd (hQ t (List.mem_of_getElem? hi) s) hs
  · rw [List.getElem?_append_right hge] at hi
    obtain ⟨j, t', hj, hd, hr⟩ := h _ t hi hs
    refine ⟨Q.length + j, t', ?_, hd, ?_⟩
    · rw [List.getElem?_append_right (by omega), Nat.add_sub_cancel_left]; exact hj
    · rw [tasks_append]
      have := Relation.ReflTransGen.lift (r := TEdge (tasks P)) (p := TEdge (tasks Q ++ tasks P)) (fun i => (tasks Q).length + i)
        (fun _ _ h => tedge_append_right _ h) _ _ hr
      have el : (tasks Q).length = Q.length := by simp [tasks]
      rw [el] at this
      change Relation.ReflTransGen _ (Q.length + (i - Q.length)) (Q.length + j) at this
      rwa [Nat.add_sub_cancel' hge] at this

/-- A task created after `L` that names tile `a`, written by a task that depends on every task that may fail. -/
theorem tip_reach {L O : List (GTTask M' β)} {a : M'} (h : FTip L a) (hO : Safe O) {i n : Nat} {t t' : GTTask M' β} {m : Bool}
    (hi : (L ++ O)[i]? = some t) (hs : ∃ s, t.code s ≠ 0) (hn : (L ++ O)[n]? = some t') (hL : L.length ≤ n) (hd : (a, m) ∈ t'.task.deps) :
    Relation.TransGen (TEdge (tasks (L ++ O))) i n := by
  rw [List.getElem?_append_right hL] at hn
  obtain ⟨hlt, he⟩ := List.getElem?_eq_some_iff.mp hn
  have hsp : O = O.take (n - L.length) ++ ([t'] ++ O.drop (n - L.length + 1)) := by
    conv_lhs => rw [← List.take_append_drop (n - L.length) O, List.drop_eq_getElem_cons hlt, he]
    rfl
  have hS1 : Safe (O.take (n - L.length)) := fun x hx => hO x (List.mem_of_mem_take hx)
  have hil : i < L.length := by
    by_contra hge
    rw [List.getElem?_append_right (by omega)] at hi
    obtain ⟨s, hs⟩ := hs
    exact hs (hO t (List.mem_of_getElem? hi) s)
  rw [List.getElem?_append_left hil] at hi
  have h1 := (h.append hS1).last (t := t') hd (i := i) (t' := t)
    (by rw [List.getElem?_append_left hil]; exact hi) hs
  have hlen : (L ++ O.take (n - L.length)).length = n := by
    rw [List.length_append, List.length_take]; omega
  rw [hlen] at h1
  have h2 := Relation.TransGen.mono (fun _ _ h => tedge_append_left (tasks (O.drop (n - L.length + 1))) h) _ _ h1
  rw [← tasks_append, List.append_assoc, List.append_assoc, ← hsp] at h2
  exact h2
end

section
variable {𝕜 : Type v} [RCLike 𝕜] [DecidableEq 𝕜] {M : Type} {dv : 𝕜 → 𝕜 → 𝕜} {A B : TMat M} {b N Nn : Nat}
  {pk : Uplo → Nat → Tl 𝕜 → Tl 𝕜} {info : Uplo → Nat → Tl 𝕜 → Nat} {u : Uplo}

/-- Every task of the band Cholesky factorization that may fail is followed by one that updates the last diagonal tile, or is one. -/
theorem pzpbtrf_tip (hA : A.Al b) (hm : A.d.m = N) (hn : A.d.n = N) (hkt : 2 ≤ bkt u A.d ∨ ceilDiv N b ≤ 1) (hN : 0 < ceilDiv N b) :
    FTip (pzpbtrf pk info dv u A) (A.at' (ceilDiv N b - 1) (ceilDiv N b - 1)) := by
  rw [pzpbtrf_eq hA hm hn]
  obtain ⟨K, hK⟩ : ∃ K, ceilDiv N b = K + 1 := ⟨ceilDiv N b - 1, by omega⟩
  have h1 : FTip ((List.range K).flatMap (pbStep pk info dv u A b N (bkt u A.d))) (pt u A (K, K)) := by
    rcases hkt with hkt | h
    · exact (pbSteps_chain hkt (K := K) (by omega)).2 (by omega)
    · have : K = 0 := by omega
      subst this
      exact FTip.nil _
  rw [hK, Nat.add_sub_cancel, List.range_succ, List.flatMap_append, List.flatMap_singleton]
  have e : A.at' K K = pt u A (K, K) := by cases u <;> rfl
  rw [e]
  unfold pbStep at h1 ⊢
  rw [← List.singleton_append, ← List.append_assoc]
  exact (h1.move (m := true) (by simp [corePotrf, op0]) (by simp [corePotrf, op0])).append (safe_ok _)

/-- Every tile of `B` is written, in the second solve, by a task that depends on the last diagonal tile. -/
theorem tbsm_tip (hA : A.Al b) (hB : B.Al b) (hAm : A.d.m = N) (hm : B.d.m = N) (hn : B.d.n = Nn) (hk0 : 0 < bkt u A.d)
    (hkt : 2 ≤ bkt u A.d ∨ ceilDiv N b ≤ 1)
    {P : List (GTTask (M × Nat × Nat) 𝕜)} (h : FTip P (A.at' (ceilDiv N b - 1) (ceilDiv N b - 1))) {m q : Nat}
    (hmK : m < ceilDiv N b) (hq : q < ceilDiv Nn b) :
    FTip (P ++ okT (pztbsm dv .left u (poT2 u) .nonUnit 1 A B)) (B.at' m q) := by
  obtain ⟨K, hK⟩ : ∃ K, K = ceilDiv N b := ⟨_, rfl⟩
  rw [← hK] at h hmK hkt
  cases u
  · rw [pztbsm_right_eq hA hB hAm hm hn (Or.inl rfl) hk0, ← hK]
    obtain ⟨f, hf⟩ : ∃ f, f = tbStep dv .upper (poT2 .upper) .nonUnit 1 A B b N Nn (bkt .upper A.d) := ⟨_, rfl⟩
    rw [← hf]
    let T : Nat → Nat → TTask (M × Nat × Nat) 𝕜 := fun c j => trTask dv .left .upper .noTrans .nonUnit 1 A B b N Nn c (j, q)
    have ho : ∀ j, ord (trFwd .left .upper .noTrans) K j = K - 1 - j := fun j => by simp [ord, trFwd, opLow]
    have dT1 : ∀ c, (A.at' (K - 1 - c) (K - 1 - c), false) ∈ (T c c).deps ∧ (B.at' (K - 1 - c) q, true) ∈ (T c c).deps := by
      intro c
      simp [T, trTask, ← hK, coreTrsm, op1, ho, trB]
    have dG : ∀ c, (B.at' (K - 1 - c) q, false) ∈ (T c (c + 1)).deps ∧ (B.at' (K - 1 - (c + 1)) q, true) ∈ (T c (c + 1)).deps := by
      intro c
      simp [T, trTask, ← hK, coreGemm, op2, ho, trB]
    have hstep : ∀ c, ∃ X Y, f c = X ++ Y ∧ T c c ∈ X ∧ (c + 1 < K → T c (c + 1) ∈ Y) := by
      intro c
      rw [hf]
      unfold tbStep tbIdx
      rw [List.flatMap_append]
      refine ⟨_, _, rfl, ?_, fun hc => ?_⟩
      · exact List.mem_flatMap.mpr ⟨(c, q), List.mem_map.mpr ⟨q, List.mem_range.mpr hq, rfl⟩, List.mem_singleton.mpr rfl⟩
      · refine List.mem_flatMap.mpr ⟨(c + 1, q), List.mem_flatMap.mpr ⟨c + 1, ?_, List.mem_map.mpr ⟨q, List.mem_range.mpr hq, rfl⟩⟩,
          List.mem_singleton.mpr rfl⟩
        rw [mem_tbJs (by omega) hk0]
        omega
    have key : ∀ c, c < K → (∃ x m, (x, m) ∈ (T c c).deps ∧ FTip (P ++ okT ((List.range c).flatMap f)) x) ∧
        FTip (P ++ okT ((List.range (c + 1)).flatMap f)) (B.at' (K - 1 - c) q) := by
      intro c
      induction c with
      | zero =>
        intro _
        refine ⟨⟨_, _, (dT1 0).1, by simpa [okT] using h⟩, ?_⟩
        obtain ⟨X, Y, e, hX, -⟩ := hstep 0
        rw [List.range_one, List.flatMap_singleton, e, okT_append, ← List.append_assoc]
        exact (h.through hX (dT1 0).1 (dT1 0).2).append (safe_ok _)
      | succ c ih =>
        intro hc
        obtain ⟨⟨x, m, h1, h2⟩, -⟩ := ih (by omega)
        obtain ⟨X, Y, e, hX, hY⟩ := hstep c
        have h3 : FTip (P ++ okT ((List.range (c + 1)).flatMap f)) (B.at' (K - 1 - (c + 1)) q) := by
          rw [List.range_succ, List.flatMap_append, List.flatMap_singleton, e, okT_append, okT_append, ← List.append_assoc,
            ← List.append_assoc]
          exact (h2.through hX h1 (dT1 c).2).through (hY hc) (dG c).1 (dG c).2
        refine ⟨⟨_, _, (dT1 (c + 1)).2, h3⟩, ?_⟩
        obtain ⟨X, Y, e, hX, -⟩ := hstep (c + 1)
        rw [List.range_succ, List.flatMap_append, List.flatMap_singleton, e, okT_append, okT_append, ← List.append_assoc,
          ← List.append_assoc]
        exact (h3.through hX (dT1 (c + 1)).2 (dT1 (c + 1)).2).append (safe_ok _)
    have h4 := (key (K - 1 - m) (by omega)).2
    rw [show K - 1 - (K - 1 - m) = m by omega] at h4
    obtain ⟨r, hr⟩ : ∃ r, K = (K - 1 - m + 1) + r := ⟨m, by omega⟩
    rw [hr, List.range_add, List.flatMap_append, okT_append, ← List.append_assoc]
    exact h4.append (safe_ok _)
  · have hbk : bkt .lower A.d = A.d.klt := rfl
    rw [pztbsm_left_eq hA hB hAm hm hn (by simp [poT2]), ← hK]
    obtain ⟨f, hf⟩ : ∃ f, f = tlStep dv (poT2 .lower) .nonUnit 1 A B b N Nn A.d.klt := ⟨_, rfl⟩
    rw [← hf]
    have key : ∀ c, c < K → FTip (P ++ okT ((List.range (c + 1)).flatMap f)) (B.at' (K - 1 - c) q) := by
      intro c
      induction c with
      | zero =>
        intro _
        rw [List.range_one, List.flatMap_singleton, hf]
        unfold tlStep
        rw [← hK, okT_append, ← List.append_assoc]
        refine (h.append (safe_ok _)).through (m := false) (List.mem_flatMap.mpr ⟨q, List.mem_range.mpr hq, List.mem_singleton.mpr rfl⟩) ?_ ?_ <;>
          simp [coreTrsm, op1]
      | succ c ih =>
        intro hc
        have h1 := ih (by omega)
        rw [List.range_succ, List.flatMap_append, List.flatMap_singleton, okT_append, ← List.append_assoc]
        have e : f (c + 1) = tlStep dv (poT2 .lower) .nonUnit 1 A B b N Nn A.d.klt (c + 1) := by rw [hf]
        rw [e]
        unfold tlStep
        rw [← hK, okT_append, ← List.append_assoc]
        refine (h1.through (m := false) (t := coreGemm (poT2 .lower) .noTrans (tdim N b (K - 1 - (c + 1))) (tdim Nn b q) (tdim N b (K - 1 - c)) (-1)
          (A.at' (K - 1 - c) (K - 1 - (c + 1))) (B.at' (K - 1 - c) q) (if c + 1 = 0 then 1 else 1) (B.at' (K - 1 - (c + 1)) q)) ?_ ?_ ?_).append (safe_ok _)
        · refine List.mem_flatMap.mpr ⟨K - 1 - c, mem_span.mpr ⟨by omega, by omega⟩, ?_⟩
          exact List.mem_flatMap.mpr ⟨q, List.mem_range.mpr hq, List.mem_singleton.mpr rfl⟩
        · simp [coreGemm, op2]
        · simp [coreGemm, op2]
    have h4 := key (K - 1 - m) (by omega)
    rw [show K - 1 - (K - 1 - m) = m by omega] at h4
    obtain ⟨r, hr⟩ : ∃ r, K = (K - 1 - m + 1) + r := ⟨m, by omega⟩
    rw [hr, List.range_add, List.flatMap_append, okT_append, ← List.append_assoc]
    exact h4.append (safe_ok _)

/-- **C85, `plasma_zpbsv`.** With at least one off-diagonal, or a single tile, every execution that returns an error leaves the right-hand sides as they
were. -/
theorem C85_pbsv_partial {nb n kd nrhs ldab ldb : Nat} (hnb : 0 < nb) (hpk : IsPotrf pk info) (hkd : 1 ≤ kd ∨ n ≤ nb) (hl : kd + 1 ≤ ldab) (hl' : n ≤ ldb)
    (mem mem' : Buf × Nat → 𝕜) (st : Int)
    (hx : GExec (pbPar nb u n kd ldab nrhs ldb ldb).env (zpbsv nb pk info dv u n kd nrhs ldab ldb) mem mem' st) (hst : st ≠ 0) (z : Nat) :
    mem' (.usr 1, z) = mem (.usr 1, z) := by
  have hp : (pbPar nb u n kd ldab nrhs ldb ldb).OK := pbPar_ok hnb hl hl' hl'
  obtain ⟨p, hpd⟩ : ∃ p, p = pbPar nb u n kd ldab nrhs ldb ldb := ⟨_, rfl⟩
  unfold zpbsv at hx
  simp only at hx
  by_cases h0 : min n nrhs = 0
  · rw [if_pos h0] at hx
    obtain ⟨i, t, hti, -⟩ := hx.untouched (by simp) hst
    simp at hti
  rw [if_neg h0] at hx
  unfold ompZpbsv pbSolve at hx
  rw [if_neg (by
    show ¬ (n = 0 ∨ nrhs = 0)
    omega)] at hx
  rw [← hpd] at hx hp
  have hkt : 2 ≤ bkt u p.tA.d ∨ ceilDiv n nb ≤ 1 := by
    rcases hkd with h | h
    · left; rw [hpd]; exact pb_bkt_two hnb h
    · right
      by_contra hc
      have := (lt_ceilDiv hnb).mp (show 1 < ceilDiv n nb by omega)
      omega
  have hk0 : 0 < bkt u p.tA.d := by rw [hpd]; exact pb_bkt_pos
  have eN : p.tA.d.m = n ∧ p.tA.d.n = n ∧ p.tB.d.m = n ∧ p.tB.d.n = nrhs ∧ p.nb = nb ∧ p.n = n ∧ p.v = some u := by rw [hpd]; exact ⟨rfl, rfl, rfl, rfl, rfl, rfl, rfl⟩
  obtain ⟨e1, e2, e3, e4, e5, e6, e7⟩ := eN
  have hA : p.tA.Al nb := e5 ▸ BPar.al_tA hp
  have hB : p.tB.Al nb := e5 ▸ BPar.al_tB hp
  have hK : 0 < ceilDiv n nb := (lt_ceilDiv hnb).mpr (by omega)
  obtain ⟨GI, hGI⟩ : ∃ GI, GI = rawT (pzpb2desc (some u) p.uA p.tA) ++ okT (pzge2desc (α := 𝕜) p.uB p.tB) := ⟨_, rfl⟩
  obtain ⟨O, hO⟩ : ∃ O, O = rawT (pzdesc2pb (some u) p.tA p.uA) ++ okT (pzdesc2ge (α := 𝕜) p.tB p.uB) := ⟨_, rfl⟩
  obtain ⟨L, hL⟩ : ∃ L, L = (GI ++ pzpbtrf pk info dv u p.tA ++ okT (pztbsm dv .left u (poT1 u) .nonUnit 1 p.tA p.tB)) ++
    okT (pztbsm dv .left u (poT2 u) .nonUnit 1 p.tA p.tB) := ⟨_, rfl⟩
  have hprog : (rawT (pzpb2desc (some u) p.uA p.tA) ++ okT (pzge2desc (α := 𝕜) p.uB p.tB)) ++
      (pzpbtrf pk info dv u p.tA ++ okT (pztbsm dv .left u (poT1 u) .nonUnit 1 p.tA p.tB ++ pztbsm dv .left u (poT2 u) .nonUnit 1 p.tA p.tB)) ++
      (rawT (pzdesc2pb (some u) p.tA p.uA) ++ okT (pzdesc2ge p.tB p.uB)) = L ++ O := by
    rw [hL, hO, hGI, okT_append]
    simp only [List.append_assoc]
  rw [hprog] at hx
  have sI : Safe GI := by
    rw [hGI]; intro t ht
    exact (List.mem_append.mp ht).elim (safe_raw _ t) (safe_ok _ t)
  have sO : Safe O := by
    rw [hO]; intro t ht
    exact (List.mem_append.mp ht).elim (safe_raw _ t) (safe_ok _ t)
  have cL : CodeOK (L ++ O) := by
    rw [hL, hO, hGI]
    exact ((((((codeOK_raw _).append (CodeOK.ok _)).append (pzpbtrf_codeOK hpk hA e1 e2)).append (CodeOK.ok _)).append (CodeOK.ok _))).append
      ((codeOK_raw _).append (CodeOK.ok _))
  have htip : ∀ m q, m < ceilDiv n nb → q < ceilDiv nrhs nb → FTip L (p.tB.at' m q) := by
    intro m q hm hq
    rw [hL]
    exact tbsm_tip hA hB e1 e3 e4 hk0 hkt ((tip_prepend (pzpbtrf_tip hA e1 e2 hkt hK) sI).append (safe_ok _)) hm hq
  obtain ⟨i, t, hti, ⟨s, hs⟩, hun⟩ := hx.untouched cL.unguarded hst
  refine hun _ fun j t' hj a k l hw he => ?_
  have hab : a.1 = Buf.usr 1 := congrArg Prod.fst he
  have hwL : Writes (fun x => x.1 ≠ Buf.usr 1) (tasks L) := by
    have w1 : ∀ P : List (TTask (Buf × Nat × Nat) 𝕜), Writes (fun x => x.1 = p.tB.id) P → Writes (fun x => x.1 ≠ Buf.usr 1) P := fun P hP =>
      hP.mono (by rintro x e; rw [e]; simp [BPar.tB])
    rw [hL, hGI]
    simp only [tasks_append, tasks_okT, tasks_rawT]
    refine ((((e7 ▸ gb_in_wr hp).append (w1 _ copyTasks_writes)).append ((pzpbtrf_writes hA e1 e2).mono ?_)).append
      (w1 _ pztbsm_writes)).append (w1 _ pztbsm_writes)
    rintro x e
    rw [e]; simp [BPar.tA, bandT]
  have hjL : L.length ≤ j := by
    by_contra hlt
    rw [List.getElem?_append_left (by omega)] at hj
    exact hwL t'.task (List.mem_map.mpr ⟨t', List.mem_of_getElem? hj, rfl⟩) a k l hw hab
  have hj' := hj
  rw [List.getElem?_append_right hjL] at hj'
  have hm := List.mem_of_getElem? hj'
  rw [hO] at hm
  rcases List.mem_append.mp hm with hm | hm
  · obtain ⟨w, hw', rfl⟩ := List.mem_map.mp hm
    obtain ⟨_, _, rfl, -⟩ := pzdesc2pb_wr (N := n) hA e1 e2 w hw' a k l hw
    cases hab
  · obtain ⟨w, hw', rfl⟩ := List.mem_map.mp hm
    refine ⟨rfl, ?_⟩
    unfold pzdesc2ge at hw'
    obtain ⟨m, hm1, hw'⟩ := List.mem_flatMap.mp hw'
    obtain ⟨q, hq1, rfl⟩ := List.mem_map.mp hw'
    rw [List.mem_range] at hm1 hq1
    rw [hB.mt_eq, e3] at hm1
    rw [hB.nt_eq, e4] at hq1
    exact tip_reach (htip m q hm1 hq1) sO hti ⟨s, hs ▸ hst⟩ hj hjL (m := false) (by simp [lacpyRect, op1])
end

/-- `C85_gbtrf`, `C85_gbsv`: the diagonal matrix with entries 1 and 0, one subdiagonal stored: an execution exists and fails. -/
def gbSing : Buf × Nat → ℚ := fun x => if x = (.usr 0, 1) ∨ x.1 = .usr 1 then 1 else 0

example : ∃ mem' st, GExec (gvPar 1 2 1 0 4 1 2).env (zgbsv false ratCode (fun x : ℚ => |x|) qdv (fun _ => true) 1 1 1 2 1 0 1 4 2) gbSing mem' st ∧
    st ≠ 0 ∧ mem' (.usr 0, 1) = 1 ∧ mem' (.usr 1, 0) = 1 ∧ mem' (.usr 1, 1) = 1 := by
  obtain ⟨mem', st, hx⟩ := zgbsv_exists (E := ratCode) (mag := fun x : ℚ => |x|) (dv := qdv) (big := fun _ => true)
    (nb := 1) (ib := 1) (mpt := 1) (n := 2) (kl := 1) (ku := 0) (nrhs := 1) (ldab := 4) (ldb := 2)
    (by decide) (by decide) (by decide) (by decide) (by decide) false gbSing
  have hst : st ≠ 0 := by
    obtain ⟨h1, -, -⟩ := C64_gbsv_partial qdv_isDiv qmag_ok (by decide) (by decide) (by decide) (fun h => by cases h)
      (by decide) (by decide) (by decide) gbSing mem' st (by
        intro r c hr hc _ _ h
        have : r = 0 ∨ r = 1 := by omega
        have : c = 0 ∨ c = 1 := by omega
        unfold gbSing
        rw [if_neg]
        rintro (e | e)
        · have := (Prod.mk.inj e).2; omega
        · simp at e) hx
    intro h0
    have hI := h1.mp h0
    have := hI (fun i => if i = 1 then 1 else 0) (by
      intro r hr
      have : r = 0 ∨ r = 1 := by omega
      rcases this with rfl | rfl <;> simp [sum_range_succ, gbA, gbSing]) 1 (by decide)
    simp at this
  have h := C85_gbsv (by decide) (by decide) (by decide) (by decide) (by decide) false gbSing mem' st hx hst
  exact ⟨mem', st, hx, hst, by rw [h 0 (by decide)]; rfl, by rw [h 1 (by decide)]; rfl, by rw [h 1 (by decide)]; rfl⟩

example : ∃ mem' st, GExec (hvPar 2 3 1 3 3).env (zhesv true ratCode (fun x : ℚ => |x|) qdv (fun _ => false) 1 3 4 (hvPar 2 3 1 3 3))
      (heInit ratCode (hvPar 2 3 1 3 3) hvId) mem' st ∧ st ≠ 0 ∧ ∀ z, mem' (.usr 1, z) = hvId (.usr 1, z) ∧ mem' (.usr 3, z) = hvId (.usr 3, z) := by
  obtain ⟨mem', st, hx⟩ := hesv_exists (E := ratCode) (mag := fun x : ℚ => |x|) (dv := qdv) (big := fun _ => false) (mth := 4)
    (nb := 2) (n := 3) (nrhs := 1) (lda := 3) (ldb := 3) (ib := 1) (mpt := 3) (by decide) (by decide) (by decide) (by decide) (by decide) (by decide)
    (by decide) (rg := true) (fun _ => by decide) (heInit ratCode (hvPar 2 3 1 3 3) hvId)
  have hst : st ≠ 0 := by
    refine C79_hesv_refuted qmag_ok qdv_isDiv (by decide) (by decide) (by decide) (by decide) (by decide) (by decide) (by decide)
      (fun _ => by decide) hvId mem' st (fun i _ => rfl) (fun r c _ _ _ _ => rfl) (fun r c h1 h2 h3 => ?_) hx
    show (if (r + c * 3) % 4 = 0 then (1 : ℚ) else 0) = 0
    exact if_neg (by omega)
  have h := C85_hesv (by decide) (by decide) (by decide) (by decide) (by decide) (by decide) (by decide) true hvId mem' st hx hst
  exact ⟨mem', st, hx, hst, fun z => ⟨h 1 (by decide) z, h 3 (by decide) z⟩⟩

/-- The zero tridiagonal matrix of order 3: every execution of `plasma_zpbsv` fails, and one exists. -/
example : ∃ pk info mem' st, IsPotrf pk info ∧ st ≠ 0 ∧
    GExec (pbPar 2 .lower 3 1 3 2 4 4).env (zpbsv 2 pk info rdv .lower 3 1 2 3 4) (fun _ => (0 : ℝ)) mem' st := by
  classical
  obtain ⟨pk, info, hpk⟩ := exists_isPotrf (𝕜 := ℝ)
  obtain ⟨mem', st, hx⟩ := zpbsv_exists (nb := 2) (by decide) hpk rdv .lower 3 1 2 3 4 (by decide) (by decide) (fun _ => (0 : ℝ))
  refine ⟨pk, info, mem', st, hpk, fun h => ?_, hx⟩
  have := (C47_pbsv (by decide) hpk rdv_isDiv .lower 3 1 2 3 4 (by decide) (by decide) (by decide) _ mem' st hx).2.1.mp h
  have h0 := this.diag_pos (i := ⟨0, by decide⟩)
  simp [herM, herE, abE, InBand, bandIx] at h0

end Verif.Props
